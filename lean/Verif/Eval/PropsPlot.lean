import Verif.Eval.Plot
import Verif.Eval.PropsTiming
import Verif.Eval.PropsTrajB
import Verif.Ros.PropsLive
import Verif.Tri.Props

/-!
# C139: the figures of trajectories; C140: the evaluation of a single run; C138: the load that is recorded
-/

set_option autoImplicit false
set_option linter.unusedSimpArgs false
open Classical

namespace Verif.Eval

open Verif Verif.Ros

/-! ## Specification -/

namespace Spec

/-- the curve `x` shows the entries `l` of the estimate `E` that are paired with entries of the ground truth `G`, at the times of the ground truth, moved by the similarity `(R, t, s)`, with the length printed -/
structure Curve (E G : Traj Pose M3) (l : List (ℕ × ℕ)) (R : M3) (t : V3) (s : ℝ) (x : Shown) : Prop where
  len : x.times.length = l.length ∧ x.poses.length = l.length
  at_ : ∀ (n i j : ℕ), l[n]? = some (i, j) → x.times[n]? = G.times[j]? ∧ ∃ e y, E.poses[i]? = some e ∧ x.poses[n]? = some y ∧ y.p = s • R.mulVec e.p + t ∧ (IsUnitQ e.q → quat2Rot y.q = quat2Rot e.q * R.transpose)

/-- what is printed about errors -/
structure Summary (vs : List ℝ) (s : Stat) : Prop where
  rmse : 0 ≤ s.rmse ∧ s.rmse ^ 2 = mean (vs.map fun x => x ^ 2)
  mean : s.mean = Spec.mean vs
  min : s.min ∈ vs ∧ ∀ x ∈ vs, s.min ≤ x
  max : s.max ∈ vs ∧ ∀ x ∈ vs, x ≤ s.max
  std : ∀ d, s.std = some d → 0 ≤ d ∧ d ^ 2 * ((vs.length : ℝ) - 1) = (vs.map fun x => (x - Spec.mean vs) ^ 2).sum
  one : s.std = none ↔ vs.length = 1
  median : IsMedian vs s.median

/-- nothing to print: zeros -/
def Zeros (s : Stat) : Prop := s.rmse = 0 ∧ s.mean = 0 ∧ s.min = 0 ∧ s.max = 0 ∧ s.std = some 0 ∧ s.median = 0

end Spec

/-! ## Lemmas -/

theorem mapM_forall₂ {α β : Type} (f : α → Option β) : ∀ (l : List α) (out : List β), l.mapM f = some out ↔ List.Forall₂ (fun x y => f x = some y) l out := by
  intro l
  induction l with
  | nil => intro out; simp [List.mapM_nil, eq_comm]
  | cons a l ih =>
    intro out
    rw [List.mapM_cons]
    constructor
    · intro h
      simp only [bind, Option.bind_eq_some_iff, pure, Option.some.injEq] at h
      obtain ⟨b, hb, bs, hbs, rfl⟩ := h
      exact List.Forall₂.cons hb ((ih _).1 hbs)
    · intro h
      cases h with
      | cons h1 h2 =>
        simp only [bind, Option.bind_eq_some_iff, pure, Option.some.injEq]
        exact ⟨_, h1, _, (ih _).2 h2, rfl⟩

theorem summary_calc {vs : List ℝ} (h : vs ≠ []) : Spec.Summary vs (Stat.fresh vs).calculate := by
  obtain ⟨h1, h2, h3, -, -, h4, -, -, h5, h6⟩ := C58_order_statistics (Stat.fresh vs) h
  obtain ⟨r1, r2, -⟩ := C58_rmse_fresh_partial vs h
  exact ⟨⟨r1, r2⟩, h4, h1, h2, h6, h5, h3⟩

theorem zeros_calc : Spec.Zeros (Stat.fresh []).calculate := by
  simp [Spec.Zeros, Stat.calculate, Stat.fresh]

theorem norm3_smul_abs (c : ℝ) (v : V3) : norm3 (c • v) = |c| * norm3 v := by
  rcases le_total 0 c with h | h
  · rw [norm3_smul h, abs_of_nonneg h]
  · have : c • v = (-c) • (-v) := by simp
    rw [this, norm3_smul (by linarith), abs_of_nonpos h]
    congr 1
    unfold norm3
    congr 1
    simp [dot3]

theorem length_moved {R : M3} (hR : IsRot R) (t : V3) (s : ℝ) : ∀ ps : List Pose, totalLength (ps.map (applyAlign (R, t, s))) = |s| * totalLength ps := by
  intro ps
  induction ps with
  | nil => simp [totalLength]
  | cons a ps ih =>
    cases ps with
    | nil => simp [totalLength]
    | cons b ps =>
      simp only [List.map_cons, totalLength] at ih ⊢
      rw [ih]
      have : (applyAlign (R, t, s) b).p - (applyAlign (R, t, s) a).p = s • R.mulVec (b.p - a.p) := by
        simp only [applyAlign]
        rw [Matrix.mulVec_sub, smul_sub]
        abel
      rw [this, norm3_smul_abs, Tri.norm3_rot hR]
      ring

/-! ## Figures of trajectories -/

theorem plotEst_spec (svd : M3 → M3 × V3 × M3) (m : Method) (G E : Traj Pose M3) (hg : G.poses.length = G.times.length) (he : E.poses.length = E.times.length) (p : List ℝ × List Pose) (h : plotEst svd m G E = some p) (nm : List Char) :
    ∃ l es gs R t s, 3 ≤ l.length ∧ Spec.Pairs E.times G.times l ∧ es.length = l.length ∧ gs.length = l.length ∧ (∀ (n : ℕ) q, l[n]? = some q → es[n]? = E.poses[q.1]? ∧ gs[n]? = G.poses[q.2]?) ∧
      alignTrajectory svd es gs m (-1) = some (R, t, s) ∧ (IsRot R → Spec.Curve E G l R t s ⟨nm, p.1, p.2⟩) ∧ p.2 = es.map (applyAlign (R, t, s)) := by
  unfold plotEst at h
  rw [Option.bind_eq_some_iff] at h
  obtain ⟨⟨e, g⟩, hEG, h⟩ := h
  simp only at h
  split_ifs at h with h3
  rw [Option.map_eq_some_iff] at h
  obtain ⟨⟨R, t, s⟩, ha, rfl⟩ := h
  obtain ⟨e', g', hp, hlt, hge⟩ := C54_lists (0 : M3) 0 0.02 ⟨E.times, E.poses, [], []⟩ ⟨G.times, G.poses, [], []⟩ he hg (Or.inl rfl) (Or.inl rfl)
  rw [hEG] at hp
  obtain ⟨rfl, rfl⟩ := Prod.mk.inj (Option.some.inj hp)
  simp only at hlt hge
  have h3' : 3 ≤ E.times.length := by
    by_contra hc
    obtain ⟨q1, -⟩ := hlt (by omega)
    rw [q1] at h3
    simp only at h3
    omega
  obtain ⟨l1, l2, l3, l4, hat, -, -⟩ := hge h3'
  obtain ⟨o1, o2⟩ := C54_monotone_injective 0 0.02 E.times G.times
  have hat' : ∀ (n : ℕ) q, (matches_ 0 0.02 E.times G.times)[n]? = some q → e.poses[n]? = E.poses[q.1]? ∧ g.poses[n]? = G.poses[q.2]? ∧ e.times[n]? = G.times[q.2]? := by
    intro n q hnq
    obtain ⟨hn, rfl⟩ := List.getElem?_eq_some_iff.1 hnq
    obtain ⟨b1, b2, b3, b4⟩ := hat n hn
    exact ⟨b1, b2, b4.trans b3⟩
  refine ⟨matches_ 0 0.02 E.times G.times, e.poses, g.poses, R, t, s, by omega, ⟨o1, ?_⟩, l3, l4, fun n q hq => ⟨(hat' n q hq).1, (hat' n q hq).2.1⟩, ha, fun hR => ⟨⟨l1, by rw [List.length_map, l3]⟩, ?_⟩, rfl⟩
  · intro x hx
    obtain ⟨a1, a2, a3⟩ := o2 x hx
    exact ⟨_, _, List.getElem?_eq_getElem a1, List.getElem?_eq_getElem a2, by rwa [add_zero] at a3⟩
  · intro n i j hn
    obtain ⟨b1, b2, b3⟩ := hat' n _ hn
    obtain ⟨a1, -, -⟩ := o2 _ (List.mem_of_getElem? hn)
    have hi : i < E.poses.length := by rw [he]; exact a1
    refine ⟨b3, E.poses[i], applyAlign (R, t, s) E.poses[i], List.getElem?_eq_getElem hi, ?_, rfl, fun hu => (align_rot hR t s hu).2⟩
    rw [List.getElem?_map, b1, List.getElem?_eq_getElem hi]
    rfl

/-- **C139** Whenever the files are shown: the first one is shown as it is. Of every other one, in order, are shown the poses that are paired with poses of the first one — at least three, in order, none used twice, closer than 0.02 s — at the times of the first one, and all moved by one rotation, translation and
scale, which is the alignment by the method asked for of exactly these pairs. The length printed is the length of the path of these poses times the scale, which is one for all methods but `sim3`: with these no distance is changed. -/
theorem C139_shown (svd : M3 → M3 × V3 × M3) (hsvd : ∀ A, Spec.IsSVD A (svd A)) (m : Method) (f : List Char × List Row) (fs : List (List Char × List Row)) (G : Traj Pose M3) (hG : loadData f.2 = some G)
    (hu : ∀ x ∈ f :: fs, ∀ T, loadData x.2 = some T → ∀ y ∈ T.poses, IsUnitQ y.q) (out : List Shown) (h : plotLoad svd m (f :: fs) = some out) :
    ∃ rest, out = ⟨stemOf f.1, G.times, G.poses⟩ :: rest ∧ List.Forall₂ (fun x y => ∃ E l es gs R t s, loadData x.2 = some E ∧ y.name = stemOf x.1 ∧ 3 ≤ l.length ∧ Spec.Pairs E.times G.times l ∧
      es.length = l.length ∧ gs.length = l.length ∧ (∀ (n : ℕ) q, l[n]? = some q → es[n]? = E.poses[q.1]? ∧ gs[n]? = G.poses[q.2]?) ∧ alignTrajectory svd es gs m (-1) = some (R, t, s) ∧ IsRot R ∧ (m ≠ .sim3 → s = 1) ∧
      Spec.Curve E G l R t s y ∧ plotLine y = (stemOf x.1, l.length, |s| * totalLength es)) fs rest := by
  simp only [plotLoad] at h
  rw [hG, Option.bind_some, Option.map_eq_some_iff] at h
  obtain ⟨rest, hr, rfl⟩ := h
  refine ⟨rest, rfl, ?_⟩
  rw [mapM_forall₂] at hr
  obtain ⟨-, hgl, -, -⟩ := loadData_len hG
  have hgu := hu f (by simp) G hG
  replace hu : ∀ x ∈ fs, ∀ T, loadData x.2 = some T → ∀ y ∈ T.poses, IsUnitQ y.q := fun x hx => hu x (by simp [hx])
  induction hr with
  | nil => exact .nil
  | @cons x y fs rest hxy hr ih =>
    refine .cons ?_ (ih fun x hx => hu x (by simp [hx]))
    rw [Option.bind_eq_some_iff] at hxy
    obtain ⟨E, hE, hxy⟩ := hxy
    rw [Option.map_eq_some_iff] at hxy
    obtain ⟨p, hp, rfl⟩ := hxy
    obtain ⟨-, hel, -, -⟩ := loadData_len hE
    obtain ⟨l, es, gs, R, t, s, h3, hP, c1, c2, c3, ha, hcv, hpe⟩ := plotEst_spec svd m G E hgl hel p hp (stemOf x.1)
    have hlk : ∀ (k : ℕ) (us : List Pose), us.length = l.length → ∀ z, us[k]? = some z → ∃ q, l[k]? = some q := by
      intro k us hl z hz
      have : k < l.length := by rw [← hl]; exact (List.getElem?_eq_some_iff.1 hz).1
      exact ⟨_, List.getElem?_eq_getElem this⟩
    have hes : ∀ z ∈ es, IsUnitQ z.q := by
      intro z hz
      obtain ⟨k, hk⟩ := List.mem_iff_getElem?.1 hz
      obtain ⟨q, hq⟩ := hlk k es c1 z hk
      have := (c3 k q hq).1
      rw [hk] at this
      exact hu x (by simp) E hE z (List.mem_of_getElem? this.symm)
    have hgs : ∀ z ∈ gs, IsUnitQ z.q := by
      intro z hz
      obtain ⟨k, hk⟩ := List.mem_iff_getElem?.1 hz
      obtain ⟨q, hq⟩ := hlk k gs c2 z hk
      have := (c3 k q hq).2
      rw [hk] at this
      exact hgu z (List.mem_of_getElem? this.symm)
    obtain ⟨hR, hs⟩ := alignTrajectory_rot svd hsvd es gs hes hgs m (-1) _ ha
    have hc := hcv hR
    refine ⟨E, l, es, gs, R, t, s, hE, rfl, h3, hP, c1, c2, c3, ha, hR, hs, hc, ?_⟩
    have h1 := hc.len.1
    simp only at h1
    simp only [plotLine, hpe, length_moved hR, h1]

theorem plotLoad_len (svd : M3 → M3 × V3 × M3) (m : Method) (fs : List (List Char × List Row)) (out : List Shown) (h : plotLoad svd m fs = some out) : out.length = fs.length ∧ ∀ x ∈ out, x.times.length = x.poses.length := by
  cases fs with
  | nil => simp [plotLoad] at h
  | cons f fs =>
    unfold plotLoad at h
    rw [Option.bind_eq_some_iff] at h
    obtain ⟨G, hG, h⟩ := h
    rw [Option.map_eq_some_iff] at h
    obtain ⟨rest, hr, rfl⟩ := h
    rw [mapM_forall₂] at hr
    obtain ⟨-, hgl, -, -⟩ := loadData_len hG
    refine ⟨by simp [hr.length_eq], fun x hx => ?_⟩
    rw [List.mem_cons] at hx
    rcases hx with rfl | hx
    · exact hgl.symm
    · obtain ⟨n, hn⟩ := List.mem_iff_getElem?.1 hx
      obtain ⟨hn', rfl⟩ := List.getElem?_eq_some_iff.1 hn
      have := List.Forall₂.get hr (by rw [hr.length_eq]; exact hn') hn'
      rw [Option.bind_eq_some_iff] at this
      obtain ⟨E, hE, hxy⟩ := this
      rw [Option.map_eq_some_iff] at hxy
      obtain ⟨p, hp, hpx⟩ := hxy
      obtain ⟨-, hel, -, -⟩ := loadData_len hE
      unfold plotEst at hp
      rw [Option.bind_eq_some_iff] at hp
      obtain ⟨⟨e, g⟩, hEG, hp⟩ := hp
      simp only at hp
      split_ifs at hp with h3
      rw [Option.map_eq_some_iff] at hp
      obtain ⟨a, -, rfl⟩ := hp
      obtain ⟨e', g', hp, hlt, hge⟩ := C54_lists (0 : M3) 0 0.02 ⟨E.times, E.poses, [], []⟩ ⟨G.times, G.poses, [], []⟩ hel hgl (Or.inl rfl) (Or.inl rfl)
      rw [hEG] at hp
      obtain ⟨rfl, rfl⟩ := Prod.mk.inj (Option.some.inj hp)
      simp only at hlt hge
      have e1 : rest[n] = rest.get ⟨n, hn'⟩ := rfl
      rw [e1, ← hpx]
      simp only [List.length_map]
      by_cases h3' : E.times.length < 3
      · obtain ⟨q1, -⟩ := hlt h3'
        rw [q1] at h3
        simp only at h3
        omega
      · obtain ⟨l1, l2, l3, l4, -⟩ := hge (by omega)
        rw [l1, l3]

/-- **C139** (figures, partial) For at most six files that are shown, the first figure has one curve for each, in order and under its name, through the first two coordinates of its poses; the second one the third coordinate over the time since the first pose of the first file.
Missing: more files, see `C139_seven_counterexample`. -/
theorem C139_figures_partial (svd : M3 → M3 × V3 × M3) (m : Method) (fs : List (List Char × List Row)) (out : List Shown) (h : plotLoad svd m fs = some out) (h6 : fs.length ≤ 6) :
    ∃ t0 xy z, (∃ g ∈ out.head?, g.times.head? = some t0) ∧ plotFigures out = some (xy, z) ∧
      List.Forall₂ (fun x y => y.1 = x.name ∧ y.2.length = x.poses.length ∧ ∀ (n : ℕ) (p : Pose), x.poses[n]? = some p → y.2[n]? = some (p.p 0, p.p 1)) out xy ∧
      List.Forall₂ (fun x y => y.1 = x.name ∧ y.2.length = x.poses.length ∧ ∀ (n : ℕ) (t : ℝ) (p : Pose), x.times[n]? = some t → x.poses[n]? = some p → y.2[n]? = some (t - t0, p.p 2)) out z := by
  obtain ⟨hl, heq⟩ := plotLoad_len svd m fs out h
  obtain ⟨g, t0, hg, ht⟩ : ∃ g t0, out.head? = some g ∧ g.times.head? = some t0 := by
    cases fs with
    | nil => simp [plotLoad] at h
    | cons f fs =>
      unfold plotLoad at h
      rw [Option.bind_eq_some_iff] at h
      obtain ⟨G, hG, h⟩ := h
      rw [Option.map_eq_some_iff] at h
      obtain ⟨rest, -, rfl⟩ := h
      obtain ⟨hne, -⟩ := loadData_len hG
      cases ht : G.times with
      | nil => exact absurd ht hne
      | cons t ts => exact ⟨_, t, rfl, by simp [ht]⟩
  have hz : ∀ l : List Shown, (∀ x ∈ l, x.times.length = x.poses.length) → l.mapM (fun x => (plotZ t0 x).map fun z => (x.name, z)) = some (l.map fun x => (x.name, (x.times.zip x.poses).map fun y => (y.1 - t0, y.2.p 2))) := by
    intro l hl
    rw [mapM_forall₂, List.forall₂_map_right_iff, List.forall₂_same]
    intro x hx
    rw [plotZ, if_neg (by rw [hl x hx]; omega)]
    rfl
  refine ⟨t0, _, _, ⟨g, hg, ht⟩, by rw [plotFigures, if_neg (by omega), hg, Option.bind_some, ht, Option.getD_some, hz out heq]; rfl, ?_, ?_⟩
  · rw [List.forall₂_map_right_iff, List.forall₂_same]
    intro x _
    refine ⟨rfl, by simp [plotXY], fun n p hp => ?_⟩
    rw [plotXY, List.getElem?_map, hp]
    rfl
  · rw [List.forall₂_map_right_iff, List.forall₂_same]
    intro x hx
    refine ⟨rfl, by simp [heq x hx], fun n t p ht hp => ?_⟩
    rw [List.getElem?_map, (List.getElem?_zip_eq_some (z := (t, p))).2 ⟨ht, hp⟩]
    rfl

/-- **C139** (files) Files whose times agree with those of the first, with at least three poses, are shown with every method. -/
theorem C139_runs (svd : M3 → M3 × V3 × M3) (m : Method) (f : List Char × List Row) (fs : List (List Char × List Row)) (G : Traj Pose M3) (hG : loadData f.2 = some G) (h3 : 3 ≤ G.times.length)
    (hf : ∀ x ∈ fs, ∃ E, loadData x.2 = some E ∧ E.times = G.times) : ∃ out, plotLoad svd m (f :: fs) = some out := by
  obtain ⟨-, hgl, -, -⟩ := loadData_len hG
  have key : ∀ x ∈ fs, ∃ y : Shown, ((loadData x.2).bind fun E => (plotEst svd m G E).map fun p => (⟨stemOf x.1, p.1, p.2⟩ : Shown)) = some y := by
    intro x hx
    obtain ⟨E, hE, ht⟩ := hf x hx
    obtain ⟨-, hel, -, -⟩ := loadData_len hE
    obtain ⟨e, g, hp, -, hge⟩ := C54_lists (0 : M3) 0 0.02 ⟨E.times, E.poses, [], []⟩ ⟨G.times, G.poses, [], []⟩ hel hgl (Or.inl rfl) (Or.inl rfl)
    obtain ⟨l1, l2, l3, l4, -⟩ := hge (by simp only [ht]; exact h3)
    have hm : matches_ 0 0.02 E.times G.times = (List.range' 0 G.times.length).map fun k => (k, k) := by rw [ht]; exact matchFrom_self _ _
    simp only [hm, List.length_map, List.length_range'] at l3 l4
    obtain ⟨a, ha⟩ : ∃ a, alignTrajectory svd e.poses g.poses m (-1) = some a := by
      cases hq : e.poses with
      | nil => rw [hq] at l3; simp at l3; omega
      | cons x xs =>
        cases hr : g.poses with
        | nil => rw [hr] at l4; simp at l4; omega
        | cons y ys => cases m <;> simp [alignTrajectory, posyawSingle, se3Single, umeyama, posPairs]
    have : plotEst svd m G E = some (e.times, e.poses.map (applyAlign a)) := by
      rw [plotEst, hp, Option.bind_some, if_neg (by simp only; omega), ha]
      rfl
    rw [hE, Option.bind_some, this]
    exact ⟨_, rfl⟩
  obtain ⟨l, hl, -⟩ := mapM_some _ fs key
  exact ⟨_, by rw [plotLoad, hG, Option.bind_some, hl]; rfl⟩

/-- three poses on a line -/
def exRows : List Row := [[0, 0, 0, 0, 0, 0, 0, 1], [1, 1, 0, 0, 0, 0, 0, 1], [2, 2, 3, 0, 0, 0, 0, 1]]

theorem exRows_load : loadData exRows = some ⟨[0, 1, 2], [⟨![0, 0, 0], ⟨0, 0, 0, 1⟩⟩, ⟨![1, 0, 0], ⟨0, 0, 0, 1⟩⟩, ⟨![2, 3, 0], ⟨0, 0, 0, 1⟩⟩], [], []⟩ := by
  simp [exRows, loadData, loadLoop, poseAt]

/-- **C139** (more files) Although the usage of the program names nine estimates, with a ground truth and six of them no figure is shown: the files load and their lengths are printed, then there is no seventh colour. -/
theorem C139_seven_counterexample (svd : M3 → M3 × V3 × M3) (m : Method) : ∃ out, plotLoad svd m (List.replicate 7 (['a'], exRows)) = some out ∧ plotFigures out = none := by
  obtain ⟨out, h⟩ := C139_runs svd m (['a'], exRows) (List.replicate 6 (['a'], exRows)) _ exRows_load (by simp) (fun x hx => by
    rw [List.eq_of_mem_replicate hx]
    exact ⟨_, exRows_load, rfl⟩)
  refine ⟨out, h, ?_⟩
  have := (plotLoad_len svd m _ out h).1
  rw [plotFigures, if_pos (by rw [this]; simp)]

/-- the hypotheses can be met: a ground truth and two estimates -/
example (svd : M3 → M3 × V3 × M3) (m : Method) : ∃ out, plotLoad svd m (List.replicate 3 (['a'], exRows)) = some out ∧ (List.replicate 3 ((['a'], exRows) : List Char × List Row)).length ≤ 6 ∧
    ∀ x ∈ List.replicate 3 ((['a'], exRows) : List Char × List Row), ∀ T, loadData x.2 = some T → ∀ y ∈ T.poses, IsUnitQ y.q := by
  obtain ⟨out, h⟩ := C139_runs svd m (['a'], exRows) (List.replicate 2 (['a'], exRows)) _ exRows_load (by simp) (fun x hx => by
    rw [List.eq_of_mem_replicate hx]
    exact ⟨_, exRows_load, rfl⟩)
  refine ⟨out, h, by simp, fun x hx T hT y hy => ?_⟩
  rw [List.eq_of_mem_replicate hx, exRows_load] at hT
  obtain rfl := Option.some.inj hT
  simp only [List.mem_cons, List.not_mem_nil, or_false] at hy
  rcases hy with rfl | rfl | rfl <;> norm_num [IsUnitQ]

/-! ## A single run -/

theorem fromFirst_get {α : Type} (l : List (ℝ × α)) (n : ℕ) : (fromFirst l)[n]? = (l[n]?).map fun x => (x.1 - ((l.head?).map Prod.fst).getD 0, x.2) := by
  rw [fromFirst, List.getElem?_map]

/-- **C140** (runs) An evaluation is printed exactly when the two files can be compared. -/
theorem C140_runs (svd : M3 → M3 × V3 × M3) (m : Method) (gt est : List Row) : (∃ o, singleRun svd m gt est = some o) ↔ ∃ r, resultTraj svd est gt m = some r := by
  constructor
  · rintro ⟨o, h⟩
    unfold singleRun at h
    rw [Option.bind_eq_some_iff] at h
    obtain ⟨G, hG, h⟩ := h
    rw [Option.bind_eq_some_iff] at h
    obtain ⟨r, hr, -⟩ := h
    exact ⟨r, hr⟩
  · rintro ⟨r, hr⟩
    obtain ⟨E, G, l, a, b, hE, hG, -⟩ := C123_pairs svd est gt m r hr
    obtain ⟨q, hq, -⟩ := mapM_some (fun d => (rpe r d).map fun l => (d, (Stat.fresh (l.map fun x => x.2.1)).calculate, (Stat.fresh (l.map fun x => x.2.2)).calculate)) segments (fun d _ => by
      obtain ⟨ds, out, -, h, -⟩ := C123_rpe svd est gt m r hr d
      rw [h]
      exact ⟨_, rfl⟩)
    unfold singleRun
    rw [hG, Option.bind_some, hr, Option.bind_some, hq]
    exact ⟨_, rfl⟩

theorem single_eq {svd : M3 → M3 × V3 × M3} {m : Method} {gt est : List Row} {o : Single} {r : Result} (hr : resultTraj svd est gt m = some r) (h : singleRun svd m gt est = some o) :
    o.ateOri = (Stat.fresh ((ate r).map fun x => x.2.1)).calculate ∧ o.atePos = (Stat.fresh ((ate r).map fun x => x.2.2)).calculate ∧
    List.Forall₂ (fun d x => x.1 = d ∧ ∃ l, rpe r d = some l ∧ x.2.1 = (Stat.fresh (l.map fun x => x.2.1)).calculate ∧ x.2.2 = (Stat.fresh (l.map fun x => x.2.2)).calculate) [8, 16, 24, 32, 40] o.rpe ∧
    o.neesOri = (Stat.fresh ((neesValues r).map fun x => x.2.1)).calculate ∧ o.neesPos = (Stat.fresh ((neesValues r).map fun x => x.2.2)).calculate ∧
    o.neesPlot = fromFirst (neesValues r) ∧ o.errPlot = fromFirst (calcError r) := by
  unfold singleRun at h
  rw [Option.bind_eq_some_iff] at h
  obtain ⟨G, hG, h⟩ := h
  rw [hr, Option.bind_some, Option.map_eq_some_iff] at h
  obtain ⟨q, hq, rfl⟩ := h
  refine ⟨rfl, rfl, ?_, rfl, rfl, rfl, rfl⟩
  rw [mapM_forall₂] at hq
  refine List.Forall₂.imp ?_ hq
  intro d x hx
  rw [Option.map_eq_some_iff] at hx
  obtain ⟨l, hl, rfl⟩ := hx
  exact ⟨rfl, l, hl, rfl, rfl⟩

/-- **C140** (absolute error) The two columns printed are the summaries of the errors of all pairs compared (C123): one alignment `(R, t, s)` is found for the pairs and the position errors are the distances from the ground truth after it; each orientation error is, in degrees and up to a hundred-thousandth of it, the angle between them. -/
theorem C140_absolute (svd : M3 → M3 × V3 × M3) (m : Method) (gt est : List Row) (o : Single) (h : singleRun svd m gt est = some o) :
    ∃ (r : Result) (R : M3) (t : V3) (s : ℝ) (os ps : List ℝ), resultTraj svd est gt m = some r ∧ alignTrajectory svd r.est.poses r.gt.poses m (-1) = some (R, t, s) ∧ 3 ≤ r.est.poses.length ∧
      os.length = r.est.poses.length ∧ ps.length = r.est.poses.length ∧ Spec.Summary os o.ateOri ∧ Spec.Summary ps o.atePos ∧
      ∀ (n : ℕ) (e g : Pose), r.est.poses[n]? = some e → r.gt.poses[n]? = some g → ps[n]? = some (norm3 (g.p - (s • R.mulVec e.p + t))) ∧
        (IsRot R → IsUnitQ e.q → IsUnitQ g.q → ∀ θ, Spec.Angle (quat2Rot e.q * R.transpose) (quat2Rot g.q) θ → ∃ x, os[n]? = some x ∧ |x * (Real.pi / 180) - θ| ≤ 1e-5 * θ) := by
  obtain ⟨r, hr⟩ := (C140_runs svd m gt est).1 ⟨o, h⟩
  obtain ⟨h1, h2, -⟩ := single_eq hr h
  obtain ⟨R, t, s, ha, hl, hat⟩ := C123_ate svd est gt m r hr
  obtain ⟨E, G, l, a, b, -, -, h3, -, hh, -⟩ := C123_pairs svd est gt m r hr
  have h3' : 3 ≤ r.est.poses.length := by rw [hh.len.2.1]; exact h3
  have hne : ate r ≠ [] := by
    intro hc
    rw [hc] at hl
    simp at hl
    omega
  refine ⟨r, R, t, s, (ate r).map fun x => x.2.1, (ate r).map fun x => x.2.2, hr, ha, h3', by rw [List.length_map, hl], by rw [List.length_map, hl], ?_, ?_, ?_⟩
  · rw [h1]; exact summary_calc (by simpa using hne)
  · rw [h2]; exact summary_calc (by simpa using hne)
  · intro n e g he hg
    obtain ⟨x, hx, -, hx2, hx3⟩ := hat n e g he hg
    refine ⟨by rw [List.getElem?_map, hx, Option.map_some, hx2], fun hR hu hv θ hθ => ⟨x.2.1, by rw [List.getElem?_map, hx]; rfl, hx3 hR hu hv θ hθ⟩⟩

/-- **C140** (relative error) One line is printed for each length of 8, 16, 24, 32 and 40 metres, in this order; its medians and its number of samples are those of the relative errors over exactly the segments of this length along the ground truth. Without such a segment zeros are printed. -/
theorem C140_relative (svd : M3 → M3 × V3 × M3) (m : Method) (gt est : List Row) (o : Single) (h : singleRun svd m gt est = some o) (r : Result) (hr : resultTraj svd est gt m = some r) :
    List.Forall₂ (fun d x => x.1 = d ∧ ∃ ds out, Spec.Along r.gt.poses ds ∧
      (∀ y, y ∈ out ↔ ∃ i j c1 c2 m1 m2 t, Spec.Ends ds d i j ∧ r.estA[i]? = some c1 ∧ r.estA[j]? = some c2 ∧ r.gt.poses[i]? = some m1 ∧ r.gt.poses[j]? = some m2 ∧ r.est.times[i]? = some t ∧ y = (t, rpeErr c1 c2 m1 m2)) ∧
      x.2.1.values = out.map (fun y => y.2.1) ∧ x.2.2.values = out.map (fun y => y.2.2) ∧
      (out = [] → Spec.Zeros x.2.1 ∧ Spec.Zeros x.2.2) ∧ (out ≠ [] → Spec.IsMedian (out.map fun y => y.2.1) x.2.1.median ∧ Spec.IsMedian (out.map fun y => y.2.2) x.2.2.median))
      [8, 16, 24, 32, 40] o.rpe := by
  obtain ⟨-, -, h3, -⟩ := single_eq hr h
  refine List.Forall₂.imp ?_ h3
  rintro d x ⟨hd, l, hl, e1, e2⟩
  obtain ⟨ds, out, hal, ho, a1, a2⟩ := C123_rpe svd est gt m r hr d
  rw [hl] at ho
  obtain rfl := Option.some.inj ho
  have hv : ∀ vs : List ℝ, (Stat.fresh vs).calculate.values = vs := by
    intro vs
    unfold Stat.calculate
    simp only
    split_ifs <;> rfl
  refine ⟨hd, ds, l, hal, fun y => ⟨fun hy => ?_, ?_⟩, by rw [e1, hv], by rw [e2, hv], ?_, ?_⟩
  · exact a2 y hy
  · rintro ⟨i, j, c1, c2, m1, m2, t, hE, q1, q2, q3, q4, q5, rfl⟩
    obtain ⟨c1', c2', m1', m2', t', p1, p2, p3, p4, p5, hm⟩ := a1 i j hE
    rw [q1] at p1; rw [q2] at p2; rw [q3] at p3; rw [q4] at p4; rw [q5] at p5
    obtain rfl := Option.some.inj p1
    obtain rfl := Option.some.inj p2
    obtain rfl := Option.some.inj p3
    obtain rfl := Option.some.inj p4
    obtain rfl := Option.some.inj p5
    exact hm
  · rintro rfl
    rw [e1, e2]
    exact ⟨zeros_calc, zeros_calc⟩
  · intro hne
    rw [e1, e2]
    exact ⟨(summary_calc (by simpa using hne)).median, (summary_calc (by simpa using hne)).median⟩

/-- **C140** (consistency) The numbers printed for the consistency are zeros when the file of the estimate has no covariances; with positive definite covariances they are the summaries of one value for every pair compared, each with its own covariance (C123), drawn over the time since the first pair. -/
theorem C140_consistency (svd : M3 → M3 × V3 × M3) (m : Method) (gt est : List Row) (o : Single) (h : singleRun svd m gt est = some o) (r : Result) (hr : resultTraj svd est gt m = some r) :
    (r.est.covori = [] → Spec.Zeros o.neesOri ∧ Spec.Zeros o.neesPos ∧ o.neesPlot = []) ∧
    (r.est.covori ≠ [] → (∀ P ∈ r.est.covori, P.PosDef) → (∀ Q ∈ r.est.covpos, Q.PosDef) → ∃ (t0 : ℝ) (os ps : List ℝ), r.est.times[0]? = some t0 ∧ os.length = r.est.poses.length ∧ ps.length = r.est.poses.length ∧
      Spec.Summary os o.neesOri ∧ Spec.Summary ps o.neesPos ∧ o.neesPlot.length = r.est.poses.length ∧
      ∀ (n : ℕ) (e g : Pose), r.est.poses[n]? = some e → r.gtA[n]? = some g → ∃ P Q x y t v w, r.est.covori[n]? = some P ∧ r.est.covpos[n]? = some Q ∧ os[n]? = some x ∧ ps[n]? = some y ∧ r.est.times[n]? = some t ∧
        o.neesPlot[n]? = some (t - t0, x, y) ∧ P.mulVec v = -logSO3 (quat2Rot g.q * (quat2Rot e.q).transpose) ∧ x = -logSO3 (quat2Rot g.q * (quat2Rot e.q).transpose) ⬝ᵥ v ∧
        Q.mulVec w = g.p - e.p ∧ y = (g.p - e.p) ⬝ᵥ w) := by
  obtain ⟨-, -, -, h4, h5, h6, -⟩ := single_eq hr h
  obtain ⟨hn, hs⟩ := C123_nees svd est gt m r hr
  constructor
  · intro hc
    have : neesValues r = [] := by rw [neesValues, hn.2 hc]; rfl
    rw [h4, h5, h6, this]
    exact ⟨zeros_calc, zeros_calc, rfl⟩
  · intro hc hP hQ
    obtain ⟨E, G, l, a, b, -, -, h3, -, hh, -, -, -, hB, -⟩ := C123_pairs svd est gt m r hr
    obtain ⟨l1, l2, l3⟩ := hh.len
    cases hne : nees r with
    | none => exact absurd (hn.1 hne) hc
    | some out =>
      obtain ⟨hl, hat⟩ := hs out hne
      have key : ∀ n < r.est.poses.length, ∃ (e g : Pose) (x : ℝ × Option ℝ × Option ℝ) (P Q : M3) (t a b : ℝ) (v w : V3), r.est.poses[n]? = some e ∧ r.gtA[n]? = some g ∧ out[n]? = some x ∧ r.est.covori[n]? = some P ∧ r.est.covpos[n]? = some Q ∧ r.est.times[n]? = some t ∧ x = (t, some a, some b) ∧
          P.mulVec v = -logSO3 (quat2Rot g.q * (quat2Rot e.q).transpose) ∧ a = -logSO3 (quat2Rot g.q * (quat2Rot e.q).transpose) ⬝ᵥ v ∧ Q.mulVec w = g.p - e.p ∧ b = (g.p - e.p) ⬝ᵥ w := by
        intro n hnl
        have hng : n < r.gtA.length := by rw [hB, List.length_map, l3, ← l2]; exact hnl
        obtain ⟨⟨xt, xa, xb⟩, P, Q, hx, hxt, hp, hq, k1, k2⟩ := hat n _ _ (List.getElem?_eq_getElem hnl) (List.getElem?_eq_getElem hng)
        obtain ⟨a, v, ea, hv, hav, -, -⟩ := k1 (hP P (List.mem_of_getElem? hp))
        obtain ⟨b, w, eb, hw, hbw, -, -⟩ := k2 (hQ Q (List.mem_of_getElem? hq))
        simp only at ea eb hxt
        subst ea eb
        exact ⟨_, _, _, P, Q, xt, a, b, v, w, List.getElem?_eq_getElem hnl, List.getElem?_eq_getElem hng, hx, hp, hq, hxt.symm, rfl, hv, hav, hw, hbw⟩
      have hnv : ∀ (z : List (ℝ × Option ℝ × Option ℝ)), (∀ x ∈ z, ∃ t a b, x = (t, some a, some b)) → ∃ y : List (ℝ × ℝ × ℝ), z.filterMap (fun x => (x.2.1).bind fun a => (x.2.2).map fun b => (x.1, a, b)) = y ∧ y.length = z.length ∧ ∀ (n : ℕ) t a b, z[n]? = some (t, some a, some b) → y[n]? = some (t, a, b) := by
        intro z
        induction z with
        | nil => intro _; exact ⟨[], rfl, rfl, fun n t a b hn => by simp at hn⟩
        | cons u z ih =>
          intro hz
          obtain ⟨t, a, b, rfl⟩ := hz u (by simp)
          obtain ⟨y, hy, hyl, hyn⟩ := ih fun x hx => hz x (by simp [hx])
          refine ⟨(t, a, b) :: y, by simp [hy], by simp [hyl], fun n t' a' b' hn => ?_⟩
          cases n with
          | zero => simp at hn ⊢; exact hn
          | succ n => simp at hn ⊢; exact hyn n _ _ _ hn
      obtain ⟨y, hy, hyl, hyn⟩ := hnv out (by
        intro x hx
        obtain ⟨n, hn⟩ := List.mem_iff_getElem?.1 hx
        obtain ⟨e, g, x', P, Q, t, a, b, v, w, -, -, hx', -, -, -, rfl, -⟩ := key n (by rw [← hl]; exact (List.getElem?_eq_some_iff.1 hn).1)
        rw [hn] at hx'
        exact ⟨t, a, b, Option.some.inj hx'⟩)
      have hv : neesValues r = y := by rw [neesValues, hne]; exact hy
      obtain ⟨e0, g0, x0, P0, Q0, t0, a0, b0, v0, w0, -, -, hx0, -, -, ht0, rfl, -⟩ := key 0 (by omega)
      have hy0 := hyn 0 _ _ _ hx0
      have hyne : y ≠ [] := by rintro rfl; simp at hy0
      refine ⟨t0, y.map (fun x => x.2.1), y.map (fun x => x.2.2), ht0, by simp [hyl, hl], by simp [hyl, hl], ?_, ?_, ?_, ?_⟩
      · rw [h4, hv]; exact summary_calc (by simpa using hyne)
      · rw [h5, hv]; exact summary_calc (by simpa using hyne)
      · rw [h6, hv, fromFirst, List.length_map, hyl, hl]
      · intro n e g he hg
        obtain ⟨e', g', x, P, Q, t, a, b, v, w, he', hg', hx, hp, hq, ht, rfl, r1, r2, r3, r4⟩ := key n (List.getElem?_eq_some_iff.1 he).1
        rw [he] at he'
        rw [hg] at hg'
        obtain rfl := Option.some.inj he'
        obtain rfl := Option.some.inj hg'
        have := hyn n _ _ _ hx
        refine ⟨P, Q, a, b, t, v, w, hp, hq, by rw [List.getElem?_map, this]; rfl, by rw [List.getElem?_map, this]; rfl, ht, ?_, r1, r2, r3, r4⟩
        rw [h6, hv, fromFirst_get, this, List.head?_eq_getElem?, hy0]
        rfl

/-- **C140** (errors by axis) The errors by axis are drawn for every pair compared, in order, over the time since the first pair. -/
theorem C140_axes (svd : M3 → M3 × V3 × M3) (m : Method) (gt est : List Row) (o : Single) (h : singleRun svd m gt est = some o) (r : Result) (hr : resultTraj svd est gt m = some r) :
    ∃ t0, r.est.times[0]? = some t0 ∧ o.errPlot.length = r.est.poses.length ∧ ∀ (n : ℕ) (e g : Pose), r.est.poses[n]? = some e → r.gtA[n]? = some g → ∃ t, r.est.times[n]? = some t ∧
      o.errPlot[n]? = some (t - t0, errOne e g (r.est.covori[n]?) (r.est.covpos[n]?)) := by
  obtain ⟨-, -, -, -, -, -, h7⟩ := single_eq hr h
  obtain ⟨hl, hat⟩ := C123_error svd est gt m r hr
  obtain ⟨E, G, l, a, b, -, -, h3, -, hh, -, -, -, hB, -⟩ := C123_pairs svd est gt m r hr
  obtain ⟨l1, l2, l3⟩ := hh.len
  obtain ⟨t0, ht0, h0⟩ := hat 0 _ _ (List.getElem?_eq_getElem (by omega)) (List.getElem?_eq_getElem (by rw [hB, List.length_map]; omega))
  refine ⟨t0, ht0, by rw [h7, fromFirst, List.length_map, hl], fun n e g he hg => ?_⟩
  obtain ⟨t, ht, hx⟩ := hat n e g he hg
  refine ⟨t, ht, ?_⟩
  rw [h7, fromFirst_get, hx, List.head?_eq_getElem?, h0]
  rfl

/-- the hypotheses can be met: two files of three poses -/
example (svd : M3 → M3 × V3 × M3) (m : Method) : ∃ o r, singleRun svd m exRows exRows = some o ∧ resultTraj svd exRows exRows m = some r := by
  obtain ⟨r, hr, -⟩ := C123_runs svd exRows exRows m _ _ exRows_load exRows_load rfl (by simp)
  obtain ⟨o, ho⟩ := (C140_runs svd m exRows exRows).2 ⟨r, hr⟩
  exact ⟨o, r, ho, hr⟩

/-! ## The load that is recorded -/

/-- **C138** (recorded) A file written by the recorder of the load can be read exactly if in some sample some node was running. Then one row is read for each such sample, in order: its time, and the sums over the nodes that could be read of the use of the processor and of the memory — each up to half of the last digit
written — and exactly their threads. -/
theorem C138_recorded (l : List (ℝ × List Reading)) :
    let run := l.filter fun x => decide (∃ c m n, some (c, m, n) ∈ x.2 ∧ 0 < n)
    (loadPercent (l.map fun x => pidRow x.1 x.2) = none ↔ run = []) ∧ ∀ out, loadPercent (l.map fun x => pidRow x.1 x.2) = some out →
      List.Forall₂ (fun x y => Spec.reads 8 x.1 y.1 ∧ Spec.reads 3 ((x.2.filterMap id).map fun v => v.1).sum y.2.1 ∧ Spec.reads 3 ((x.2.filterMap id).map fun v => v.2.1).sum y.2.2.1 ∧
        y.2.2.2 = ((((x.2.filterMap id).map fun v => v.2.2).sum : ℕ) : ℝ)) run out := by
  intro run
  have hsum : ∀ xs : List Reading, (xs.map fun x => (readingVals x).1).sum = ((xs.filterMap id).map fun v => v.1).sum ∧ (xs.map fun x => (readingVals x).2.1).sum = ((xs.filterMap id).map fun v => v.2.1).sum ∧
      (xs.map fun x => (readingVals x).2.2).sum = ((xs.filterMap id).map fun v => v.2.2).sum := by
    intro xs
    induction xs with
    | nil => simp
    | cons x xs ih =>
      obtain ⟨i1, i2, i3⟩ := ih
      cases x with
      | none => simp [readingVals] at i1 i2 i3 ⊢; exact ⟨i1, i2, i3⟩
      | some v => simp [readingVals] at i1 i2 i3 ⊢; exact ⟨i1, i2, i3⟩
  have hrun : ∀ xs : List Reading, ((xs.map fun x => (readingVals x).2.2).sum = 0 ↔ ¬ ∃ c m n, some (c, m, n) ∈ xs ∧ 0 < n) := by
    intro xs
    rw [List.sum_eq_zero_iff]
    constructor
    · rintro h ⟨c, m, n, hx, hn⟩
      have := h n (List.mem_map.2 ⟨_, hx, rfl⟩)
      omega
    · intro h y hy
      obtain ⟨x, hx, rfl⟩ := List.mem_map.1 hy
      cases x with
      | none => rfl
      | some v =>
        obtain ⟨c, m, n⟩ := v
        by_contra hc
        exact h ⟨c, m, n, hx, Nat.pos_of_ne_zero hc⟩
  have key : ∃ out, percentLoop (l.map fun x => pidRow x.1 x.2) = some out ∧ List.Forall₂ (fun x y => Spec.reads 8 x.1 y.1 ∧ Spec.reads 3 ((x.2.filterMap id).map fun v => v.1).sum y.2.1 ∧ Spec.reads 3 ((x.2.filterMap id).map fun v => v.2.1).sum y.2.2.1 ∧
        y.2.2.2 = ((((x.2.filterMap id).map fun v => v.2.2).sum : ℕ) : ℝ)) run out := by
    show ∃ out, _ ∧ List.Forall₂ _ (l.filter _) out
    induction l with
    | nil => exact ⟨[], rfl, .nil⟩
    | cons x l ih =>
      obtain ⟨out, h1, h2⟩ := ih
      have hlen : ¬ (pidRow x.1 x.2).length < 4 := by simp [pidRow]
      have g0 : (pidRow x.1 x.2).getD 0 0 = dec 8 x.1 := rfl
      have g1 : (pidRow x.1 x.2).getD 1 0 = dec 3 ((x.2.map fun x => (readingVals x).1).sum) := rfl
      have g2 : (pidRow x.1 x.2).getD 2 0 = dec 3 ((x.2.map fun x => (readingVals x).2.1).sum) := rfl
      have g3 : (pidRow x.1 x.2).getD 3 0 = (((x.2.map fun x => (readingVals x).2.2).sum : ℕ) : ℝ) := rfl
      obtain ⟨s1, s2, s3⟩ := hsum x.2
      by_cases hx : ∃ c m n, some (c, m, n) ∈ x.2 ∧ 0 < n
      · have hnz : ¬ (pidRow x.1 x.2).getD 3 0 = 0 := by
          rw [g3, Nat.cast_eq_zero, hrun]
          exact fun h => h hx
        refine ⟨(dec 8 x.1, dec 3 ((x.2.map fun x => (readingVals x).1).sum), dec 3 ((x.2.map fun x => (readingVals x).2.1).sum), (((x.2.map fun x => (readingVals x).2.2).sum : ℕ) : ℝ)) :: out, ?_, ?_⟩
        · rw [List.map_cons, percentLoop, if_neg hlen, if_neg hnz, h1, g0, g1, g2, g3]
          rfl
        · rw [List.filter_cons_of_pos (by simpa using hx)]
          refine .cons ⟨dec_reads _ _, ?_, ?_, ?_⟩ h2
          · rw [← s1]; exact dec_reads _ _
          · rw [← s2]; exact dec_reads _ _
          · rw [← s3]
      · have hz : (pidRow x.1 x.2).getD 3 0 = 0 := by
          rw [g3, Nat.cast_eq_zero, hrun]
          exact hx
        refine ⟨out, ?_, ?_⟩
        · rw [List.map_cons, percentLoop, if_neg hlen, if_pos hz, h1]
        · rw [List.filter_cons_of_neg (by simpa using hx)]
          exact h2
  obtain ⟨out, h1, h2⟩ := key
  rw [loadPercent, h1, Option.bind_some]
  have he : out = [] ↔ run = [] := by
    have := h2.length_eq
    rw [← List.length_eq_zero_iff, ← this, List.length_eq_zero_iff]
  by_cases ho : out = []
  · rw [if_pos ho]
    exact ⟨by simp [← he, ho], fun o h => by cases h⟩
  · rw [if_neg ho]
    refine ⟨by simp [← he, ho], fun o h => ?_⟩
    obtain rfl := Option.some.inj h
    exact h2

/-- two samples, in the first of which only one of two nodes could be read, and none in the second: one row -/
example : ∃ out, loadPercent ([(1, [some (50, 2, 4), none]), (2, [none, none])].map fun x : ℝ × List Reading => pidRow x.1 x.2) = some out := by
  have h := (C138_recorded [(1, [some (50, 2, 4), none]), (2, [none, none])]).1
  cases ho : loadPercent ([(1, [some (50, 2, 4), none]), (2, [none, none])].map fun x : ℝ × List Reading => pidRow x.1 x.2) with
  | some out => exact ⟨out, rfl⟩
  | none =>
    have := h.1 ho
    rw [List.filter_cons_of_pos (by simp)] at this
    cases this

end Verif.Eval
