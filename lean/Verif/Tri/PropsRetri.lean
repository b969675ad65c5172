import Verif.Tri.Retri
import Verif.Tri.Props

/-!
# What is reported of the active tracks (C116)
-/

set_option autoImplicit false
open Classical

namespace Verif.Retri

open Verif Verif.Tri Verif.Prop_

namespace Spec

/-- all observations of feature `f` in an image message, in the order of its cameras: pose of the camera and normalised coordinates -/
def seen (M : RMsg) (f : ℕ) : List (CPose × V2) := M.cams.flatMap fun c => (c.pts.filter fun m => decide (m.1 = f)).map fun m => (camPose M.clone (M.calib c.cam), m.2.2)

/-- all observations of `f` since it was last not seen, or a landmark; newest image first -/
def track (f : ℕ) : List RMsg → List (CPose × V2)
  | [] => []
  | M :: older => if (M.slam f).isSome ∨ seen M f = [] then [] else seen M f ++ track f older

/-- sum of the squared distances of a point from viewing rays -/
noncomputable def cost (rays : List (CPose × V2)) (x : V3) : ℝ := (rays.map fun r => Tri.Spec.rayDist2 r.1 r.2 x).sum

/-- the point with the least sum of squared distances -/
def Nearest (rays : List (CPose × V2)) (p : V3) : Prop := ∀ q, q ≠ p → cost rays p < cost rays q

end Spec

open Spec

/-- what the code keeps of the observations: the first one of the first image, and the last one of every later image -/
def kept (f : ℕ) : List RMsg → List (CPose × V2)
  | [] => []
  | M :: older => if (M.slam f).isSome then [] else
      match seen M f with
      | [] => []
      | o :: os => if kept f older = [] then [o] else os.getLastD o :: kept f older

/-- the world frame -/
def W : CPose := ⟨1, 0⟩

theorem W_rot : IsRot W.R := ⟨by simp [W], by simp [W]⟩

theorem ray_addMeas (s : M3 × V3) (r : CPose × V2) : addMeas W s r = (s.1 + (ray r.1 r.2).1, s.2 + (ray r.1 r.2).2) := by
  have e : relR W r.1 = r.1.R := by simp [relR, W]
  have e2 : relP W r.1 = r.1.p := by simp [relP, W]
  simp only [addMeas, bperp, e, e2, ray]

theorem foldl_rays (rays : List (CPose × V2)) : ∀ s : M3 × V3, rays.foldl (addMeas W) s = (s.1 + (rays.map fun r => (ray r.1 r.2).1).sum, s.2 + (rays.map fun r => (ray r.1 r.2).2).sum) := by
  induction rays with
  | nil => intro s; simp
  | cons r rays ih => intro s; rw [List.foldl_cons, ih, ray_addMeas]; simp [add_assoc]

/-- the system is that of the rays -/
def IsSys (s : Sys) (rays : List (CPose × V2)) : Prop :=
  s.A = (rays.map fun r => (ray r.1 r.2).1).sum ∧ s.b = (rays.map fun r => (ray r.1 r.2).2).sum ∧ s.n = rays.length

theorem cost_ls (rays : List (CPose × V2)) (q : V3) : cost rays q = lsCost W rays q := by
  unfold cost lsCost
  congr 1
  refine List.map_congr_left fun r _ => ?_
  rw [bperp_dist W_rot]
  simp [W]

theorem isSys_nearest {s : Sys} {rays : List (CPose × V2)} (h : IsSys s rays) (hd : s.A.det ≠ 0) : Nearest rays (s.A⁻¹.mulVec s.b) := by
  have e := foldl_rays rays (0, 0)
  simp only [zero_add] at e
  rw [← h.1, ← h.2.1] at e
  intro q hq
  have hm := ls_min W rays (by rw [e]; exact hd) q
  rw [e] at hm
  rw [cost_ls, cost_ls, hm]
  have h0 := lsQuad_nonneg W rays (q - s.A⁻¹.mulVec s.b)
  rcases h0.lt_or_eq with h1 | h1
  · linarith
  · exfalso
    apply hq
    have hz := lsQuad_zero h1.symm
    have hA : s.A.mulVec (q - s.A⁻¹.mulVec s.b) = 0 := by
      have : ∀ l : List (CPose × V2), (∀ m ∈ l, (bperp W m.1 m.2).mulVec (q - s.A⁻¹.mulVec s.b) = 0) → ((l.map fun r => (ray r.1 r.2).1).sum).mulVec (q - s.A⁻¹.mulVec s.b) = 0 := by
        intro l
        induction l with
        | nil => intro _; simp
        | cons r l ih =>
          intro hl
          have e1 : (ray r.1 r.2).1 = (bperp W r.1 r.2).transpose * bperp W r.1 r.2 := by
            have e : relR W r.1 = r.1.R := by simp [relR, W]
            simp only [ray, bperp, e]
          rw [List.map_cons, List.sum_cons, Matrix.add_mulVec, ih fun m hm => hl m (by simp [hm]), e1, ← Matrix.mulVec_mulVec, hl r (by simp), Matrix.mulVec_zero, add_zero]
      have := this rays hz
      rwa [← h.1] at this
    have := congrArg (s.A⁻¹).mulVec hA
    rw [Matrix.mulVec_mulVec, Matrix.nonsing_inv_mul _ (isUnit_iff_ne_zero.2 hd), Matrix.one_mulVec, Matrix.mulVec_zero] at this
    exact sub_eq_zero.mp this

/-! ## One image -/

/-- all measurements of a message with the pose of their camera -/
def flatM (M : RMsg) : List (CPose × ℕ × V2 × V2) := M.cams.flatMap fun c => c.pts.map fun m => (camPose M.clone (M.calib c.cam), m)

theorem addAll_flat (F : RCfg) (M : RMsg) (old : ℕ → Option Sys) :
    addAll F M old = (flatM M).foldl (fun a e => addPt F M.slam old e.1 a e.2) ⟨fun _ => none, fun _ => none⟩ := by
  unfold addAll flatM
  rw [List.foldl_flatMap]
  congr 1
  funext a c
  rw [List.foldl_map]

theorem seen_flat (M : RMsg) (f : ℕ) : seen M f = ((flatM M).filter fun e => decide (e.2.1 = f)).map fun e => (e.1, e.2.2.2) := by
  unfold seen flatM
  rw [List.filter_flatMap, List.map_flatMap]
  congr 1
  funext c
  rw [List.filter_map, List.map_map]
  rfl

theorem fold_slam (F : RCfg) (slam : ℕ → Option SlamPt) (old : ℕ → Option Sys) (f : ℕ) (hs : (slam f).isSome) : ∀ (l : List (CPose × ℕ × V2 × V2)) (a : Acc),
    (l.foldl (fun a e => addPt F slam old e.1 a e.2) a).sys f = a.sys f ∧ (l.foldl (fun a e => addPt F slam old e.1 a e.2) a).pos f = a.pos f := by
  intro l
  induction l with
  | nil => intro a; exact ⟨rfl, rfl⟩
  | cons e l ih =>
    intro a
    rw [List.foldl_cons]
    obtain ⟨h1, h2⟩ := ih (addPt F slam old e.1 a e.2)
    rw [h1, h2]
    unfold addPt
    split_ifs with c
    · exact ⟨rfl, rfl⟩
    · have : f ≠ e.2.1 := fun h => c (h ▸ hs)
      refine ⟨by simp [Function.update_of_ne this], ?_⟩
      simp only
      cases solveSys F e.1 (addSys (old e.2.1) (a.sys e.2.1) (ray e.1 e.2.2.2)) with
      | none => rfl
      | some p => simp [Function.update_of_ne this]

/-- the effect of a message's measurements on feature `f` -/
theorem fold_pt (F : RCfg) (slam : ℕ → Option SlamPt) (old : ℕ → Option Sys) (f : ℕ) (hs : slam f = none) : ∀ (l : List (CPose × ℕ × V2 × V2)) (a : Acc),
    let os := (l.filter fun e => decide (e.2.1 = f)).map fun e => (e.1, e.2.2.2)
    let r := l.foldl (fun a e => addPt F slam old e.1 a e.2) a
    (r.sys f, r.pos f) = os.foldl (fun (x : Option Sys × Option V3) o =>
      (some (addSys (old f) x.1 (ray o.1 o.2)), (solveSys F o.1 (addSys (old f) x.1 (ray o.1 o.2))).or x.2)) (a.sys f, a.pos f) := by
  intro l
  induction l with
  | nil => intro a; rfl
  | cons e l ih =>
    intro a
    simp only [List.foldl_cons]
    have ih' := ih (addPt F slam old e.1 a e.2)
    simp only at ih'
    rw [ih']
    by_cases h : e.2.1 = f
    · rw [List.filter_cons_of_pos (by simpa using h), List.map_cons, List.foldl_cons]
      congr 1
      unfold addPt
      rw [h, hs]
      simp only [Option.isSome_none, Bool.false_eq_true, if_false, Function.update_self]
      cases solveSys F e.1 (addSys (old f) (a.sys f) (ray e.1 e.2.2.2)) with
      | none => rfl
      | some p => simp
    · rw [List.filter_cons_of_neg (by simpa using h)]
      congr 1
      have h' : f ≠ e.2.1 := fun e => h e.symm
      unfold addPt
      split_ifs
      · rfl
      · simp only [Function.update_of_ne h']
        cases solveSys F e.1 (addSys (old e.2.1) (a.sys e.2.1) (ray e.1 e.2.2.2)) with
        | none => rfl
        | some p => simp [Function.update_of_ne h']

theorem fold_none (F : RCfg) : ∀ (os : List (CPose × V2)) (s : Sys) (p : Option V3), s.n = 1 →
    os.foldl (fun (x : Option Sys × Option V3) o => (some (addSys none x.1 (ray o.1 o.2)), (solveSys F o.1 (addSys none x.1 (ray o.1 o.2))).or x.2)) (some s, p) = (some s, p) := by
  intro os
  induction os with
  | nil => intro s p _; rfl
  | cons o os ih =>
    intro s p h
    rw [List.foldl_cons]
    have : solveSys F o.1 s = none := by unfold solveSys; simp [h]
    simp only [addSys, this, Option.none_or]
    exact ih s p h

theorem fold_some (F : RCfg) (s : Sys) : ∀ (os : List (CPose × V2)) (o : CPose × V2) (x : Option Sys × Option V3),
    let r := (o :: os).foldl (fun (x : Option Sys × Option V3) o => (some (addSys (some s) x.1 (ray o.1 o.2)), (solveSys F o.1 (addSys (some s) x.1 (ray o.1 o.2))).or x.2)) x
    r.1 = some (addSys (some s) none (ray (os.getLastD o).1 (os.getLastD o).2)) ∧
      (∀ p, r.2 = some p → (x.2 = some p ∨ ∃ o' ∈ o :: os, solveSys F o'.1 (addSys (some s) none (ray o'.1 o'.2)) = some p)) ∧
      ∀ p, solveSys F (os.getLastD o).1 (addSys (some s) none (ray (os.getLastD o).1 (os.getLastD o).2)) = some p → r.2 = some p := by
  intro os
  induction os with
  | nil =>
    intro o x
    refine ⟨rfl, fun p hp => ?_, fun p hp => by
      have hp' : solveSys F o.1 (addSys (some s) x.1 (ray o.1 o.2)) = some p := hp
      simp only [List.foldl_cons, List.foldl_nil, hp', Option.some_or]⟩
    simp only [List.foldl_cons, List.foldl_nil, Option.or_eq_some_iff] at hp
    rcases hp with h | ⟨-, h⟩
    · exact Or.inr ⟨o, by simp, h⟩
    · exact Or.inl h
  | cons o2 os ih =>
    intro o x
    simp only [List.foldl_cons]
    obtain ⟨h1, h2, h3⟩ := ih o2 (some (addSys (some s) x.1 (ray o.1 o.2)), (solveSys F o.1 (addSys (some s) x.1 (ray o.1 o.2))).or x.2)
    simp only [List.foldl_cons] at h1 h2 h3
    refine ⟨by rw [h1]; cases os <;> rfl, fun p hp => ?_, fun p hp => h3 p (by cases os <;> exact hp)⟩
    rcases h2 p hp with h | ⟨o', ho', h⟩
    · simp only [Option.or_eq_some_iff] at h
      rcases h with h | ⟨-, h⟩
      · exact Or.inr ⟨o, by simp, h⟩
      · exact Or.inl h
    · exact Or.inr ⟨o', List.mem_cons_of_mem _ ho', h⟩

/-- what one image does to the system and position of a feature that is not a landmark -/
theorem addAll_feat (F : RCfg) (M : RMsg) (old : ℕ → Option Sys) (f : ℕ) (hs : M.slam f = none) :
    (match seen M f with
      | [] => (addAll F M old).sys f = none ∧ (addAll F M old).pos f = none
      | o :: os => match old f with
        | none => (addAll F M old).sys f = some ⟨(ray o.1 o.2).1, (ray o.1 o.2).2, 1⟩ ∧ (addAll F M old).pos f = none
        | some s => (addAll F M old).sys f = some (addSys (some s) none (ray (os.getLastD o).1 (os.getLastD o).2)) ∧
            (os = [] → (addAll F M old).pos f = solveSys F o.1 (addSys (some s) none (ray o.1 o.2))) ∧
            (∀ p, (addAll F M old).pos f = some p → ∃ o' ∈ o :: os, solveSys F o'.1 (addSys (some s) none (ray o'.1 o'.2)) = some p) ∧
            ∀ p, solveSys F (os.getLastD o).1 (addSys (some s) none (ray (os.getLastD o).1 (os.getLastD o).2)) = some p → (addAll F M old).pos f = some p) := by
  have h := fold_pt F M.slam old f hs (flatM M) ⟨fun _ => none, fun _ => none⟩
  simp only [← addAll_flat, ← seen_flat] at h
  cases e : seen M f with
  | nil =>
    rw [e] at h
    simp only [List.foldl_nil, Prod.mk.injEq] at h
    exact h
  | cons o os =>
    rw [e] at h
    cases e2 : old f with
    | none =>
      rw [e2, List.foldl_cons] at h
      have hz : solveSys F o.1 (addSys none none (ray o.1 o.2)) = none := by unfold solveSys addSys; simp
      rw [hz] at h
      simp only [Option.none_or] at h
      have := fold_none F os (addSys none none (ray o.1 o.2)) none rfl
      rw [this, Prod.mk.injEq] at h
      exact h
    | some s =>
      rw [e2] at h
      obtain ⟨h1, h2, h3⟩ := fold_some F s os o (none, none)
      simp only at h1 h2 h3
      rw [← h] at h1 h2 h3
      refine ⟨h1, fun h0 => ?_, fun p hp => ?_, h3⟩
      · subst h0
        simp only [List.foldl_cons, List.foldl_nil, Prod.mk.injEq, Option.or_none] at h
        exact h.2
      · rcases h2 p hp with h | h
        · simp at h
        · exact h

theorem addAll_slam (F : RCfg) (M : RMsg) (old : ℕ → Option Sys) (f : ℕ) (hs : (M.slam f).isSome) : (addAll F M old).sys f = none := by
  rw [addAll_flat, (fold_slam F M.slam old f hs _ _).1]

/-! ## Histories -/

theorem retris_snoc (F : RCfg) (Ms : List RMsg) (M : RMsg) : retris F (Ms ++ [M]) = retri F (retris F Ms) M := by
  unfold retris; rw [List.foldl_append]; rfl

/-- the system of a feature is that of the kept observations -/
theorem sys_kept (F : RCfg) (f : ℕ) : ∀ Ms : List RMsg,
    (kept f Ms = [] → (retris F Ms.reverse).sys f = none) ∧ (kept f Ms ≠ [] → ∃ s, (retris F Ms.reverse).sys f = some s ∧ IsSys s (kept f Ms)) := by
  intro Ms
  induction Ms with
  | nil => exact ⟨fun _ => rfl, fun h => absurd rfl h⟩
  | cons M Ms ih =>
    rw [List.reverse_cons, retris_snoc]
    set old := retris F Ms.reverse with hold
    show (kept f (M :: Ms) = [] → (addAll F M old.sys).sys f = none) ∧ _
    by_cases hs : (M.slam f).isSome
    · simp only [kept, hs, if_true]
      exact ⟨fun _ => addAll_slam F M _ f hs, fun h => absurd rfl h⟩
    · have hs' : M.slam f = none := by simpa using hs
      have h := addAll_feat F M old.sys f hs'
      simp only [kept, hs, if_false]
      cases e : seen M f with
      | nil =>
        rw [e] at h
        exact ⟨fun _ => h.1, fun h => absurd rfl h⟩
      | cons o os =>
        rw [e] at h
        by_cases hk : kept f Ms = []
        · rw [ih.1 hk] at h
          simp only [hk, if_true]
          exact ⟨fun h => absurd h (by simp), fun _ => ⟨_, h.1, by simp [IsSys]⟩⟩
        · obtain ⟨s, hs1, hs2⟩ := ih.2 hk
          rw [hs1] at h
          simp only [hk, if_false]
          refine ⟨fun h => absurd h (by simp), fun _ => ⟨_, h.1, ?_⟩⟩
          simp only [Bool.false_eq_true, if_false, IsSys, addSys, List.map_cons, List.sum_cons, List.length_cons]
          rw [hs2.1, hs2.2.1, hs2.2.2]
          exact ⟨rfl, rfl, by omega⟩

theorem solveSys_some {F : RCfg} {P : CPose} {s : Sys} {p : V3} :
    solveSys F P s = some p ↔ (3 < s.n ∧ s.A.det ≠ 0 ∧ |F.cond s.A| ≤ F.maxCond ∧ F.minDist ≤ Tri.Spec.inCam P p 2 ∧ Tri.Spec.inCam P p 2 ≤ F.maxDist) ∧ p = s.A⁻¹.mulVec s.b := by
  unfold solveSys
  simp only [Option.ite_none_right_eq_some, Option.some.injEq, Tri.Spec.inCam]
  constructor
  · rintro ⟨h, rfl⟩; exact ⟨h, rfl⟩
  · rintro ⟨h, rfl⟩; exact ⟨h, rfl⟩

/-- **C116 (position).** After every history of images, the position reported for a feature that is not a landmark is the point nearest to the viewing rays of one of its observations in the newest image and of one observation in each
earlier image of its uninterrupted track, at least four in all; it lies in front of the camera at an allowed distance. -/
theorem C116_position (F : RCfg) (Ms : List RMsg) (M : RMsg) (f : ℕ) (hs : M.slam f = none) (p : V3) (hp : (retris F (Ms ++ [M])).pos f = some p) :
    ∃ o ∈ seen M f, Nearest (o :: kept f Ms.reverse) p ∧ 3 ≤ (kept f Ms.reverse).length ∧ F.minDist ≤ Tri.Spec.inCam o.1 p 2 ∧ Tri.Spec.inCam o.1 p 2 ≤ F.maxDist := by
  rw [retris_snoc] at hp
  simp only [retri, hs] at hp
  have h := addAll_feat F M (retris F Ms).sys f hs
  have hk := sys_kept F f Ms.reverse
  rw [List.reverse_reverse] at hk
  cases e : seen M f with
  | nil => rw [e] at h; rw [h.2] at hp; simp at hp
  | cons o os =>
    rw [e] at h
    by_cases hk0 : kept f Ms.reverse = []
    · rw [hk.1 hk0] at h; rw [h.2] at hp; simp at hp
    · obtain ⟨s, hs1, hs2⟩ := hk.2 hk0
      rw [hs1] at h
      obtain ⟨o', ho', hsol⟩ := h.2.2.1 p hp
      obtain ⟨⟨h1, h2, -, h3, h4⟩, rfl⟩ := solveSys_some.mp hsol
      have hsys : IsSys (addSys (some s) none (ray o'.1 o'.2)) (o' :: kept f Ms.reverse) := by
        simp only [IsSys, addSys, List.map_cons, List.sum_cons, List.length_cons]
        rw [hs2.1, hs2.2.1, hs2.2.2]
        exact ⟨rfl, rfl, by omega⟩
      refine ⟨o', ho', isSys_nearest hsys h2, ?_, h3, h4⟩
      have := hsys.2.2
      rw [this, List.length_cons] at h1
      omega

/-- the kept observations of a track that no image sees twice are all of them -/
theorem kept_track (f : ℕ) : ∀ Ms : List RMsg, (∀ M ∈ Ms, (seen M f).length ≤ 1) → kept f Ms = track f Ms := by
  intro Ms
  induction Ms with
  | nil => intro _; rfl
  | cons M Ms ih =>
    intro h
    have ih' := ih fun M' h' => h M' (by simp [h'])
    have h1 := h M (by simp)
    by_cases hs : (M.slam f).isSome
    · simp [kept, track, hs]
    · cases e : seen M f with
      | nil => simp [kept, track, hs, e]
      | cons o os =>
        rw [e] at h1
        have : os = [] := by
          rw [← List.length_eq_zero_iff]; simp only [List.length_cons] at h1; omega
        subst this
        simp only [kept, track, hs, e, if_false, ih']
        by_cases hk : track f Ms = [] <;> simp [hk]

/-- **C116 (all rays, one camera; partial).** If every image sees the feature at most once: a position is reported exactly if the feature has been seen in at least four images without interruption, the system is well conditioned and the
solution lies at an allowed distance in front of the camera, and it is then the point nearest to **all** viewing rays of the track. (Missing: a feature seen by several cameras of one image, where this is false, `C116_stereo_drops_rays`.) -/
theorem C116_all_rays_partial (F : RCfg) (Ms : List RMsg) (M : RMsg) (f : ℕ) (hs : M.slam f = none) (h1 : ∀ M' ∈ Ms ++ [M], (seen M' f).length ≤ 1) (p : V3) :
    (retris F (Ms ++ [M])).pos f = some p ↔ ∃ o, seen M f = [o] ∧ 4 ≤ (track f (M :: Ms.reverse)).length ∧ Nearest (track f (M :: Ms.reverse)) p ∧
      (((track f (M :: Ms.reverse)).map fun r => (ray r.1 r.2).1).sum).det ≠ 0 ∧ |F.cond ((track f (M :: Ms.reverse)).map fun r => (ray r.1 r.2).1).sum| ≤ F.maxCond ∧
      F.minDist ≤ Tri.Spec.inCam o.1 p 2 ∧ Tri.Spec.inCam o.1 p 2 ≤ F.maxDist := by
  rw [retris_snoc]
  simp only [retri, hs]
  have h := addAll_feat F M (retris F Ms).sys f hs
  have hk := sys_kept F f Ms.reverse
  rw [List.reverse_reverse] at hk
  have hkt := kept_track f Ms.reverse (fun M' hM => h1 M' (by simp at hM; simp [hM]))
  have hM := h1 M (by simp)
  cases e : seen M f with
  | nil => rw [e] at h; rw [h.2]; simp
  | cons o os =>
    rw [e] at h hM
    have hos : os = [] := by
      rw [← List.length_eq_zero_iff]; simp only [List.length_cons] at hM; omega
    subst hos
    have htr : track f (M :: Ms.reverse) = o :: track f Ms.reverse := by simp [track, hs, e]
    rw [htr]
    by_cases hk0 : kept f Ms.reverse = []
    · rw [hk.1 hk0] at h; rw [h.2, ← hkt, hk0]
      simp
    · obtain ⟨s, hs1, hs2⟩ := hk.2 hk0
      rw [hs1] at h
      rw [h.2.1 rfl, solveSys_some]
      rw [hkt] at hs2
      have hsys : IsSys (addSys (some s) none (ray o.1 o.2)) (o :: track f Ms.reverse) := by
        simp only [IsSys, addSys, List.map_cons, List.sum_cons, List.length_cons]
        rw [hs2.1, hs2.2.1, hs2.2.2]
        exact ⟨rfl, rfl, by omega⟩
      rw [← hsys.1, hsys.2.2]
      constructor
      · rintro ⟨⟨a1, a2, a3, a4, a5⟩, rfl⟩
        exact ⟨o, rfl, by omega, isSys_nearest hsys a2, a2, a3, a4, a5⟩
      · rintro ⟨o', ho', a1, a2, a3, a4, a5, a6⟩
        simp only [List.cons.injEq, and_true] at ho'
        subst ho'
        refine ⟨⟨by omega, a3, a4, a5, a6⟩, ?_⟩
        by_contra hne
        have b1 := isSys_nearest hsys a3 p hne
        have b2 := a2 _ (fun h => hne h.symm)
        linarith

/-- **C116 (landmarks).** A landmark of the state is reported at the position the state gives it, in whatever way it is tracked; an anchored one at the point whose coordinates in its anchor camera are those stored. -/
theorem C116_landmarks (F : RCfg) (Ms : List RMsg) (M : RMsg) (f : ℕ) (s : SlamPt) (hs : M.slam f = some s) :
    ∃ p, (retris F (Ms ++ [M])).pos f = some p ∧ (s.anchor = none → p = s.x) ∧
      ∀ I C : CPose, s.anchor = some (I, C) → IsRot I.R → IsRot C.R → C.R.mulVec (I.R.mulVec (p - I.p)) + C.p = s.x := by
  rw [retris_snoc]
  refine ⟨slamPos s, by simp [retri, hs], fun h => by simp [slamPos, h], ?_⟩
  intro I C h hI hC
  simp only [slamPos, h, add_sub_cancel_right]
  rw [← Matrix.mulVec_mulVec, Matrix.mulVec_mulVec _ I.R, hI.orth', Matrix.one_mulVec, Matrix.mulVec_mulVec, hC.orth', Matrix.one_mulVec, sub_add_cancel]

/-- the last pixel at which camera 0 sees `f` in a message -/
def pixel0 (M : RMsg) (f : ℕ) : Option V2 := ((M.cams.flatMap fun c => if c.cam = 0 then c.pts else []).reverse.find? fun m => decide (m.1 = f)).map fun m => m.2.1

theorem uvs0_pixel (M : RMsg) (f : ℕ) : uvs0 M f = pixel0 M f := by
  have key : ∀ (l : List (ℕ × V2 × V2)) (u : ℕ → Option V2), l.foldl (fun (u : ℕ → Option V2) m => Function.update u m.1 (some m.2.1)) u f = ((l.reverse.find? fun m => decide (m.1 = f)).map fun m => m.2.1).or (u f) := by
    intro l
    induction l with
    | nil => intro u; simp
    | cons m l ih =>
      intro u
      rw [List.foldl_cons, ih, List.reverse_cons, List.find?_append]
      cases List.find? (fun m => decide (m.1 = f)) l.reverse with
      | some y => simp
      | none =>
        by_cases h : m.1 = f
        · simp [h]
        · have : f ≠ m.1 := fun e => h e.symm
          simp [h, Function.update_of_ne this]
  have e : uvs0 M = (M.cams.flatMap fun c => if c.cam = 0 then c.pts else []).foldl (fun (u : ℕ → Option V2) m => Function.update u m.1 (some m.2.1)) fun _ => none := by
    unfold uvs0
    rw [List.foldl_flatMap]
    congr 1
    funext u c
    split_ifs <;> rfl
  rw [e, key, pixel0]; simp

/-- **C116 (depth).** A pixel and depth are reported for exactly those features with a reported position that camera 0 sees inside its image at a depth of at least 0.1: the tracked pixel, and the third coordinate of the reported position in
the frame of camera 0. -/
theorem C116_depth (F : RCfg) (Ms : List RMsg) (M : RMsg) (f : ℕ) (uv : V2) (d : ℝ) (hI : IsRot M.clone.R) (hC : IsRot (M.calib 0).R) :
    (retris F (Ms ++ [M])).uvd f = some (uv, d) ↔ ∃ p, (retris F (Ms ++ [M])).pos f = some p ∧ pixel0 M f = some uv ∧ d = Tri.Spec.inCam (camPose M.clone (M.calib 0)) p 2 ∧ 0.1 ≤ d ∧
      0 ≤ uv 0 ∧ 0 ≤ uv 1 ∧ ⌊uv 0⌋ < M.width ∧ ⌊uv 1⌋ < M.height := by
  rw [retris_snoc]
  set a := retri F (retris F Ms) M with ha
  have e : a.uvd f = depthOf M (a.pos f) (pixel0 M f) := by rw [← uvs0_pixel]; rfl
  rw [e]
  have hcam : ∀ p : V3, (M.calib 0).R.mulVec (M.clone.R.mulVec (p - M.clone.p)) + (M.calib 0).p = Tri.Spec.inCam (camPose M.clone (M.calib 0)) p := by
    intro p
    have hR : ((M.calib 0).R * M.clone.R) * ((M.calib 0).R * M.clone.R).transpose = 1 := by
      rw [Matrix.transpose_mul, Matrix.mul_assoc, ← Matrix.mul_assoc M.clone.R, hI.orth', Matrix.one_mul, hC.orth']
    simp only [Tri.Spec.inCam, camPose]
    rw [show p - (M.clone.p - ((M.calib 0).R * M.clone.R).transpose.mulVec (M.calib 0).p) = (p - M.clone.p) + ((M.calib 0).R * M.clone.R).transpose.mulVec (M.calib 0).p by abel, Matrix.mulVec_add,
      Matrix.mulVec_mulVec _ _ ((M.calib 0).R * M.clone.R).transpose, hR, Matrix.one_mulVec, Matrix.mulVec_mulVec]
  cases hp : a.pos f with
  | none => simp [depthOf]
  | some p =>
    cases hu : pixel0 M f with
    | none => simp [depthOf]
    | some uv' =>
      simp only [depthOf, hcam, Option.some.injEq]
      split_ifs with c1 c2
      · simp only [false_iff, not_exists, reduceCtorEq]
        rintro p' ⟨rfl, -, rfl, h, -⟩
        linarith
      · simp only [false_iff, not_exists, reduceCtorEq]
        rintro p' ⟨rfl, rfl, rfl, -, h0, h1, h2, h3⟩
        rcases c2 with c | c | c | c
        · linarith
        · simp only [toInt, h0, if_true] at c; omega
        · linarith
        · simp only [toInt, h1, if_true] at c; omega
      · push Not at c2
        obtain ⟨c0, c3, c4, c5⟩ := c2
        simp only [toInt, c0, c4, if_true] at c3 c5
        simp only [Option.some.injEq, Prod.mk.injEq]
        constructor
        · rintro ⟨rfl, rfl⟩
          exact ⟨p, rfl, rfl, rfl, not_lt.mp c1, c0, c4, c3, c5⟩
        · rintro ⟨p', rfl, rfl, rfl, -⟩
          exact ⟨rfl, rfl⟩

/-! ## Two cameras -/

/-- a message with one or two cameras a metre apart, looking the same way -/
def msg (obs : List (ℕ × V2)) : RMsg :=
  ⟨⟨1, 0⟩, fun c => if c = 0 then ⟨1, 0⟩ else ⟨1, ![-1, 0, 0]⟩, obs.map fun o => ⟨o.1, [(7, ![320, 240], o.2)]⟩, fun _ => none, 640, 480⟩

def P0 : CPose := ⟨1, 0⟩
def P1 : CPose := ⟨1, ![1, 0, 0]⟩

theorem camPose0 (obs) : camPose (msg obs).clone ((msg obs).calib 0) = P0 := by
  simp [msg, camPose, P0]

theorem camPose1 (obs) : camPose (msg obs).clone ((msg obs).calib 1) = P1 := by
  simp [msg, camPose, P1]

theorem seen_pair (u v : V2) : seen (msg [(0, u), (1, v)]) 7 = [(P0, u), (P1, v)] := by
  have h0 := camPose0 [(0, u), (1, v)]
  have h1 := camPose1 [(0, u), (1, v)]
  simp only [msg] at h0 h1
  simp [seen, msg] at h0 h1 ⊢
  exact ⟨h0, h1⟩

theorem ray_eq (P : CPose) (uv : V2) (v : V3) (hv : P.R.transpose.mulVec (homog uv) = v) :
    (ray P uv).1 = (1 / dot3 v v) • ((skew v).transpose * skew v) := by
  have h : norm3 v * norm3 v = dot3 v v := Real.mul_self_sqrt (dot3_self_nonneg v)
  simp only [ray, hv, unit, skew_smul, Matrix.transpose_smul, Matrix.smul_mul, Matrix.mul_smul, smul_smul]
  congr 1
  rw [← h]; ring

theorem ray0 : (ray P0 ![0, 0]).1 = !![1, 0, 0; 0, 1, 0; 0, 0, 0] := by
  rw [ray_eq P0 _ ![0, 0, 1] (by simp [P0, homog])]
  ext i j; fin_cases i <;> fin_cases j <;> simp [skew, dot3, Matrix.mul_apply, Fin.sum_univ_three]

theorem ray1 : (ray P1 ![-1, 0]).1 = !![1/2, 0, 1/2; 0, 1, 0; 1/2, 0, 1/2] := by
  rw [ray_eq P1 _ ![-1, 0, 1] (by simp [P1, homog])]
  ext i j; fin_cases i <;> fin_cases j <;> simp [skew, dot3, Matrix.mul_apply, Fin.sum_univ_three] <;> norm_num

def F0 : RCfg := ⟨10000, 0.1, 60, fun _ => 1⟩

/-- four images of two cameras each; in the first both see the point (0, 0, 1), later the first camera sees it elsewhere -/
def hist : List RMsg := [msg [(0, ![0, 0]), (1, ![-1, 0])], msg [(0, ![1, 0]), (1, ![-1, 0])], msg [(0, ![1, 0]), (1, ![-1, 0])], msg [(0, ![1, 0]), (1, ![-1, 0])]]

theorem solve_core {s : Sys} (hs2 : IsSys s [(P1, ![-1, 0]), (P1, ![-1, 0]), (P0, ![0, 0])]) :
    solveSys F0 P1 (addSys (some s) none (ray P1 ![-1, 0])) = some ![0, 0, 1] := by
  rw [solveSys_some]
  have hA : s.A = !![2, 0, 1; 0, 3, 0; 1, 0, 1] := by
    rw [hs2.1]
    simp only [List.map_cons, List.map_nil, List.sum_cons, List.sum_nil, ray0, ray1]
    ext i j; fin_cases i <;> fin_cases j <;> simp <;> norm_num
  have hb : s.b = ![1, 0, 1] := by
    rw [hs2.2.1]
    have r2 : ∀ P u, (ray P u).2 = (ray P u).1.mulVec P.p := fun _ _ => rfl
    simp only [List.map_cons, List.map_nil, List.sum_cons, List.sum_nil, r2, ray0, ray1]
    ext i; fin_cases i <;> simp [Matrix.mulVec, dotProduct, Fin.sum_univ_three, P0, P1] <;> norm_num
  simp only [addSys]
  have hA' : (ray P1 ![-1, 0]).1 + s.A = !![5/2, 0, 3/2; 0, 4, 0; 3/2, 0, 3/2] := by
    rw [hA, ray1]
    ext i j; fin_cases i <;> fin_cases j <;> simp <;> norm_num
  have hb' : (ray P1 ![-1, 0]).2 + s.b = ![3/2, 0, 3/2] := by
    have r2 : ∀ P u, (ray P u).2 = (ray P u).1.mulVec P.p := fun _ _ => rfl
    rw [hb, r2, ray1]
    ext i; fin_cases i <;> simp [Matrix.mulVec, dotProduct, Fin.sum_univ_three, P1] <;> norm_num
  rw [hA', hb']
  have hdet : (!![5/2, 0, 3/2; 0, 4, 0; 3/2, 0, 3/2] : M3).det ≠ 0 := by
    rw [Matrix.det_fin_three]; simp; norm_num
  refine ⟨⟨by rw [hs2.2.2]; simp, hdet, by norm_num [F0], ?_, ?_⟩, ?_⟩
  · simp [F0, Tri.Spec.inCam, P1]; norm_num
  · simp [F0, Tri.Spec.inCam, P1]
  · have : (![3/2, 0, 3/2] : V3) = (!![5/2, 0, 3/2; 0, 4, 0; 3/2, 0, 3/2] : M3).mulVec ![0, 0, 1] := by
      ext i; fin_cases i <;> simp [Matrix.mulVec, dotProduct, Fin.sum_univ_three]
    have h2 := congrArg (!![5/2, 0, 3/2; 0, 4, 0; 3/2, 0, 3/2] : M3)⁻¹.mulVec this
    rw [Matrix.mulVec_mulVec, Matrix.nonsing_inv_mul _ (isUnit_iff_ne_zero.2 hdet), Matrix.one_mulVec] at h2
    exact h2.symm

theorem hist_pos : (retris F0 hist).pos 7 = some ![0, 0, 1] := by
  have e : hist = [msg [(0, ![0, 0]), (1, ![-1, 0])], msg [(0, ![1, 0]), (1, ![-1, 0])], msg [(0, ![1, 0]), (1, ![-1, 0])]] ++ [msg [(0, ![1, 0]), (1, ![-1, 0])]] := rfl
  rw [e, retris_snoc]
  simp only [retri]
  have hs : (msg [(0, ![1, 0]), (1, ![-1, 0])]).slam 7 = none := rfl
  rw [hs]
  set old := retris F0 [msg [(0, ![0, 0]), (1, ![-1, 0])], msg [(0, ![1, 0]), (1, ![-1, 0])], msg [(0, ![1, 0]), (1, ![-1, 0])]] with hold
  have h := addAll_feat F0 (msg [(0, ![1, 0]), (1, ![-1, 0])]) old.sys 7 hs
  have hk := (sys_kept F0 7 [msg [(0, ![1, 0]), (1, ![-1, 0])], msg [(0, ![1, 0]), (1, ![-1, 0])], msg [(0, ![0, 0]), (1, ![-1, 0])]]).2
  have hke : kept 7 [msg [(0, ![1, 0]), (1, ![-1, 0])], msg [(0, ![1, 0]), (1, ![-1, 0])], msg [(0, ![0, 0]), (1, ![-1, 0])]] = [(P1, ![-1, 0]), (P1, ![-1, 0]), (P0, ![0, 0])] := by
    simp only [kept, seen_pair]
    simp [msg]
  rw [hke] at hk
  obtain ⟨s, hs1, hs2⟩ := hk (by simp)
  have hs1' : old.sys 7 = some s := hs1
  rw [seen_pair, hs1'] at h
  exact h.2.2.2 _ (solve_core hs2)

/-- the same with one camera per image -/
def hist1 : List RMsg := [msg [(0, ![0, 0])], msg [(1, ![-1, 0])], msg [(1, ![-1, 0])], msg [(1, ![-1, 0])]]

theorem seen_zero (u : V2) : seen (msg [(0, u)]) 7 = [(P0, u)] := by
  have h0 := camPose0 [(0, u)]
  simp only [msg] at h0
  simp [seen, msg] at h0 ⊢
  exact h0

theorem seen_one (u : V2) : seen (msg [(1, u)]) 7 = [(P1, u)] := by
  have h0 := camPose1 [(1, u)]
  simp only [msg] at h0
  simp [seen, msg] at h0 ⊢
  exact h0

/-- `C116_position` and `C116_all_rays_partial` are met: a feature seen in four images is reported. -/
theorem hist1_pos : (retris F0 hist1).pos 7 = some ![0, 0, 1] := by
  have e : hist1 = [msg [(0, ![0, 0])], msg [(1, ![-1, 0])], msg [(1, ![-1, 0])]] ++ [msg [(1, ![-1, 0])]] := rfl
  rw [e, retris_snoc]
  simp only [retri]
  have hs : (msg [(1, ![-1, 0])]).slam 7 = none := rfl
  rw [hs]
  have h := addAll_feat F0 (msg [(1, ![-1, 0])]) (retris F0 [msg [(0, ![0, 0])], msg [(1, ![-1, 0])], msg [(1, ![-1, 0])]]).sys 7 hs
  have hk := (sys_kept F0 7 [msg [(1, ![-1, 0])], msg [(1, ![-1, 0])], msg [(0, ![0, 0])]]).2
  have hke : kept 7 [msg [(1, ![-1, 0])], msg [(1, ![-1, 0])], msg [(0, ![0, 0])]] = [(P1, ![-1, 0]), (P1, ![-1, 0]), (P0, ![0, 0])] := by
    simp only [kept, seen_zero, seen_one]
    simp [msg]
  rw [hke] at hk
  obtain ⟨s, hs1, hs2⟩ := hk (by simp)
  have hs1' : (retris F0 [msg [(0, ![0, 0])], msg [(1, ![-1, 0])], msg [(1, ![-1, 0])]]).sys 7 = some s := hs1
  rw [seen_one, hs1'] at h
  exact h.2.2.2 _ (solve_core hs2)

example : (∀ M ∈ hist1, (seen M 7).length ≤ 1) ∧ ∀ M ∈ hist1, M.slam 7 = none := by
  constructor
  · intro M hM
    simp only [hist1, List.mem_cons, List.not_mem_nil, or_false] at hM
    rcases hM with rfl | rfl | rfl | rfl <;> simp [seen_zero, seen_one]
  · intro M hM
    simp only [hist1, List.mem_cons, List.not_mem_nil, or_false] at hM
    rcases hM with rfl | rfl | rfl | rfl <;> rfl

/-- `C116_depth` is met: the feature of `hist` is reported at its pixel with depth 1. -/
example : (retris F0 hist).uvd 7 = some (![320, 240], 1) := by
  have e : hist = [msg [(0, ![0, 0]), (1, ![-1, 0])], msg [(0, ![1, 0]), (1, ![-1, 0])], msg [(0, ![1, 0]), (1, ![-1, 0])]] ++ [msg [(0, ![1, 0]), (1, ![-1, 0])]] := rfl
  have h := hist_pos
  rw [e] at h ⊢
  rw [C116_depth _ _ _ _ _ _ ⟨by simp [msg], by simp [msg]⟩ ⟨by simp [msg], by simp [msg]⟩]
  refine ⟨_, h, by simp [pixel0, msg], ?_, by norm_num, by simp, by simp, ?_, ?_⟩
  · rw [camPose0]; simp [Tri.Spec.inCam, P0]
  · simp [msg]
  · simp [msg]

theorem cost_pair (u v : V2) (l : List (CPose × V2)) (x : V3) : cost ((P0, u) :: (P1, v) :: l) x = Tri.Spec.rayDist2 P0 u x + Tri.Spec.rayDist2 P1 v x + cost l x := by
  simp [cost, add_assoc]

/-- **C116 (negation for several cameras).** With two cameras that see a feature in the same images, the reported position is not the point nearest to the viewing rays: another point is strictly nearer to them. Of each image only one
camera's observation is used. -/
theorem C116_stereo_drops_rays : ∃ (F : RCfg) (Ms : List RMsg) (f : ℕ) (p q : V3),
    (∀ M ∈ Ms, (seen M f).length = 2) ∧ (retris F Ms).pos f = some p ∧ (track f Ms.reverse).length = 8 ∧ cost (track f Ms.reverse) q < cost (track f Ms.reverse) p := by
  have ht : track 7 hist.reverse = [(P0, ![1, 0]), (P1, ![-1, 0]), (P0, ![1, 0]), (P1, ![-1, 0]), (P0, ![1, 0]), (P1, ![-1, 0]), (P0, ![0, 0]), (P1, ![-1, 0])] := by
    simp only [hist, List.reverse_cons, List.reverse_nil, List.nil_append, List.cons_append, track, seen_pair]
    simp [msg]
  refine ⟨F0, hist, 7, ![0, 0, 1], ![1/2, 0, 1/2], ?_, hist_pos, by rw [ht]; rfl, ?_⟩
  · intro M hM
    simp only [hist, List.mem_cons, List.not_mem_nil, or_false] at hM
    rcases hM with rfl | rfl | rfl | rfl <;> rw [seen_pair] <;> rfl
  · rw [ht]
    simp only [cost_pair]
    have c0 : ∀ x, cost [] x = 0 := fun _ => rfl
    simp only [c0]
    simp [Tri.Spec.rayDist2, P0, P1, skew, dot3, Matrix.mulVec, dotProduct, Fin.sum_univ_three, Matrix.one_apply]
    norm_num

end Verif.Retri
