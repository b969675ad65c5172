import Verif.Upd.PropsFej
import Verif.Upd.PropsDelay
import Verif.State.PropsUnit
import Mathlib.Tactic

/-!
# What the updates predict, read off the filter state (C95, C96, C98)

`C95`–`C98` say how the linearised features are combined. Here the linearisation itself is stated in terms of the objects of the filter state: which poses, calibration
and position the residual and the Jacobians of each measurement are computed from.
-/

set_option linter.unusedVariables false
open Classical

namespace Verif.Upd

open Verif Mat Verif.Land Verif.Types Verif.Prop_ Finset

variable {lib : St.Lib} {o : St.Opts} {s s' : St.State} {M : ℕ → LMeta}

namespace Spec

/-- the clone of time `t` has estimate `v` and first estimate `f`. -/
def CloneAt (s : St.State) (t : ℝ) (v f : Pose) : Prop := ∃ u, (t, u) ∈ s.clones ∧ (s.obj u).val = .pose v.q v.p ∧ (s.obj u).fej = .pose f.q f.p

/-- camera `c` exists and has extrinsics `x` (its object is the `7 + 2c`-th). -/
def ExtrAt (s : St.State) (c : ℕ) (x : Pose) : Prop := c < s.opts.numCams ∧ (s.obj (7 + 2 * c)).val = .pose x.q x.p

/-- the camera object `c` holds the intrinsics `d`. -/
def LensAt (s : St.State) (c : ℕ) (d : Cam.Intr) : Prop := ∀ n v, s.cam c = .vec n v → ∀ i, d i = v i

/-- the measurements of a track: camera, time, pixel. -/
def meas (f : Track) : List (ℕ × ℝ × Cam.V2) := f.obs.flatMap fun c => c.2.map fun m => (c.1, m.1, m.2)

/-- a feature in representation `r` with anchor camera `c` and clone time `t`, held at `p` (in the anchor camera, or in the global frame), is at `g` according to the
current estimates. -/
def At (s : St.State) (r : Rep) (c : ℕ) (t : ℝ) (p g : V3) : Prop :=
  if Land.Spec.Anchored r then ∃ A A' E, CloneAt s t A A' ∧ ExtrAt s c E ∧ g = world A E p else g = p

/-- the residual of every measurement is its pixel minus the pixel at which the point `g` is predicted by the current estimates of clone, extrinsics and lens. -/
def Residual (s : St.State) (kind : ℕ → Cam.Kind) (f : Track) (g : V3) (res : Vect) : Prop :=
  ∀ n (hn : n < (meas f).length), ∃ A A' E d, CloneAt s (meas f)[n].2.1 A A' ∧ ExtrAt s (meas f)[n].1 E ∧ LensAt s (meas f)[n].1 d ∧
    ∀ a : Fin 2, res (2 * n + a) = (meas f)[n].2.2 a - Cam.distort (kind (meas f)[n].1) d (norm2 (inCam A E g)) a

/-- the pose at which Jacobians are taken. -/
def linPose (fej : Bool) (A A' : Pose) : Pose := if fej then A' else A

/-- how the global position of the feature moves when the state moves by `e δ` and its parameter `l` (in representation `r`, bearing `b`) by `e dl`: with its anchor, at the
anchor's linearisation pose, or by itself. -/
def Moves (s : St.State) (fej : Bool) (r : Rep) (c : ℕ) (t : ℝ) (b l : V3) (δ : Var → ℕ → ℝ) (dl : V3) (G : ℝ → V3) : Prop :=
  if Land.Spec.Anchored r then ∃ B B' F, CloneAt s t B B' ∧ ExtrAt s c F ∧
    ∀ e, G e = world ((linPose fej B B').update fun i => e * δ (.clone t) i) (F.update fun i => e * δ (.calib c) i) (xyz r b (l + e • dl))
  else ∀ e, G e = xyz r b (l + e • dl)

/-- the rows of a feature are the derivative of its predictions. When state and feature parameter move, the point moves along `G`, the clone, the extrinsics and the lens by
the filter's own update rule, starting at the clone's linearisation pose. The geometry is differentiated there, the lens at the current prediction of `g0`. -/
def Jacobian (s : St.State) (fej : Bool) (kind : ℕ → Cam.Kind) (f : Track) (g0 : V3) (G : ℝ → V3) (δ : Var → ℕ → ℝ) (row : ℕ → ℝ) : Prop :=
  ∀ n (hn : n < (meas f).length), ∃ A A' E d, CloneAt s (meas f)[n].2.1 A A' ∧ ExtrAt s (meas f)[n].1 E ∧ LensAt s (meas f)[n].1 d ∧
    ∃ y : ℝ → Cam.V2, (∀ e, y e = norm2 (inCam ((linPose fej A A').update fun i => e * δ (.clone (meas f)[n].2.1) i)
        (E.update fun i => e * δ (.calib (meas f)[n].1) i) (G e))) ∧
      HasDv (fun e => Cam.distort (kind (meas f)[n].1) (fun i => d i + e * δ (.intr (meas f)[n].1) i) (norm2 (inCam A E g0) + (y e - y 0)))
        fun a => row (2 * n + a)

/-- orientations of clones (estimates and first estimates) and extrinsics are unit quaternions. -/
def UnitPoses (s : St.State) : Prop :=
  (∀ t A A', CloneAt s t A A' → IsUnitQ A.q ∧ IsUnitQ A'.q) ∧ ∀ c E, ExtrAt s c E → IsUnitQ E.q

/-- the point at which Jacobians are taken is not in the plane of a camera that measures it, and its prediction is not the centre of a fisheye. -/
def Visible (s : St.State) (fej : Bool) (kind : ℕ → Cam.Kind) (f : Track) (g0 g : V3) : Prop :=
  ∀ m ∈ meas f, ∀ A A' E, CloneAt s m.2.1 A A' → ExtrAt s m.1 E → inCam (linPose fej A A') E g 2 ≠ 0 ∧ CamOK (kind m.1) (norm2 (inCam A E g0))

/-- the representation in which a feature is linearised: a single depth is treated as MSCKF inverse depth. -/
def work (r : Rep) : Rep := if r = .anchoredSingle then .anchoredMsckf else r

/-- residual and Jacobians of the measurements of track `f`, for a feature in representation `r` held at `p` in its anchor (camera `c`, clone time `t`) or in the global frame,
where its first estimate is `pf`. The residual is taken at the current estimates. The Jacobian is taken at the first estimates of the clones if `fej`, otherwise at the
estimates, and at any regular parameter `(b, l)` that puts the feature where it is: an anchored one at its current global position, a global one at `pf` (if `fej`) or `p`. -/
def Linearised (s : St.State) (fej : Bool) (kind : ℕ → Cam.Kind) (f : Track) (r : Rep) (c : ℕ) (t : ℝ) (p pf : V3) (out : Out) : Prop :=
  ∃ g, At s r c t p g ∧ out.rows = 2 * (meas f).length ∧ Residual s kind f g out.res ∧
    ∀ (b l : V3) (δ : Var → ℕ → ℝ) (dl : V3), Chart r b l →
      (if Land.Spec.Anchored r then ∀ B B' E, CloneAt s t B B' → ExtrAt s c E → world (linPose fej B B') E (xyz r b l) = g else xyz r b l = if fej then pf else p) →
      Visible s fej kind f g (if Land.Spec.Anchored r then g else if fej then pf else p) →
      (s.opts.calibPose = false → ∀ c, δ (.calib c) = 0) → (s.opts.calibIntr = false → ∀ c, δ (.intr c) = 0) →
      ∃ G, Moves s fej r c t b l δ dl G ∧
        Jacobian s fej kind f g G δ fun i => ∑ k ∈ range (total out.order), out.Hx i k * stack δ out.order k + ∑ k ∈ range (jacobsize r), out.Hf i k * extV dl k

end Spec

/-- what the updater reads as the clone of time `t` is its estimate and first estimate. -/
theorem view_clone (fej : Bool) (kind : ℕ → Cam.Kind) {t : ℝ} {x : PoseE} (h : (view s fej kind).clone t = some x) : Spec.CloneAt s t x.val x.fej := by
  simp only [view, Option.bind_eq_bind, Option.bind_eq_some_iff] at h
  obtain ⟨u, hu, v, hv, f, hf, h⟩ := h
  obtain rfl := Option.some.inj h
  refine ⟨u, cloneUid_mem hu, ?_, ?_⟩
  · revert hv; cases (s.obj u).val <;> simp [valPose]; rintro rfl; simp
  · revert hf; cases (s.obj u).fej <;> simp [valPose]; rintro rfl; simp

theorem view_calib (fej : Bool) (kind : ℕ → Cam.Kind) {c : ℕ} {x : Pose} (h : (view s fej kind).calib c = some x) : Spec.ExtrAt s c x := by
  simp only [view] at h
  split_ifs at h with hc
  refine ⟨hc, ?_⟩
  revert h; cases (s.obj (7 + 2 * c)).val <;> simp [valPose]; rintro rfl; simp

theorem view_cam (fej : Bool) (kind : ℕ → Cam.Kind) {c : ℕ} {x : Cam.Kind × Cam.Intr} (h : (view s fej kind).cam c = some x) : x.1 = kind c ∧ Spec.LensAt s c x.2 := by
  simp only [view] at h
  split_ifs at h with hc
  obtain rfl := Option.some.inj h
  exact ⟨rfl, fun n v h i => by simp only [h]; rfl⟩

/-- the residual rows of `full`, without any condition. -/
theorem full_res {st : St} {f : Feat} {out : Out} (hout : full st f = some out) : ∃ g, Spec.here st f = some g ∧ out.rows = 2 * (flat f).length ∧
    ∀ n (hn : n < (flat f).length), ∃ cl ca k, st.clone (flat f)[n].2.1 = some cl ∧ st.calib (flat f)[n].1 = some ca ∧ st.cam (flat f)[n].1 = some k ∧
      ∀ a : Fin 2, out.res (2 * n + a) = (flat f)[n].2.2 a - Cam.distort k.1 k.2 (Spec.norm2 (Spec.inCam cl.val ca g)) a := by
  unfold full at hout
  rw [globalPos_here] at hout
  simp only [Option.bind_eq_bind, Option.bind_eq_some_iff] at hout
  obtain ⟨-, -, ms, hms, g, hg, j, hj, hout⟩ := hout
  have hout := (Option.some.inj hout).symm
  subst hout
  obtain ⟨hlen, hget⟩ := mapM_spec hms
  refine ⟨g, hg, by simp [hlen], fun n hn => ?_⟩
  have hnm : n < ms.length := by omega
  have hlk := hget n hn hnm
  have hQ := (fold_rows st (layout st f) g (if isRelative f.rep then g else f.pGf) j.1 j.2 (jacobsize f.rep)
    (Q := fun m a _ _ r => r = m.uv a - Spec.pixel m.kind m.intr m.clone.val m.cal g a) ms ⟨0, fun _ _ => 0, fun _ _ => 0, fun _ => 0⟩ (fun i _ j => rfl)
    (fun m hm A hA a => write_res _ _ _ _ _ _ _ _ _ a)).2 n hnm
  simp only [Nat.zero_add] at hQ
  simp only [look, Option.bind_eq_bind, Option.bind_eq_some_iff] at hlk
  obtain ⟨cl, hcl, ca, hca, k, hk, hmk⟩ := hlk
  have hmk := Option.some.inj hmk
  refine ⟨cl, ca, k, hcl, hca, hk, fun a => (hQ a).trans ?_⟩
  rw [← hmk]
  rfl

theorem anchored_msckf (r : Rep) : Land.Spec.Anchored (msckfRep r) ↔ Land.Spec.Anchored r := by
  cases r <;> simp [msckfRep, Land.Spec.Anchored]

theorem view_units {fej : Bool} {kind : ℕ → Cam.Kind} (h : Spec.UnitPoses s) : Spec.Units (view s fej kind) :=
  ⟨fun t x hx => h.1 t _ _ (view_clone _ _ hx), fun c x hx => h.2 c _ (view_calib _ _ hx)⟩

theorem view_jac {fej : Bool} {kind : ℕ → Cam.Kind} {F : Feat} {f : Track} (ho : F.obs = f.obs) {out : Out} (hout : full (view s fej kind) F = some out)
    (hcams : (f.obs.map Prod.fst).Nodup) (hu : Spec.UnitPoses s) {b l g0 g : V3} (hl : Spec.Chart F.rep b l) (h0 : Spec.here (view s fej kind) F = some g0)
    (hg : Spec.position (Spec.linState (view s fej kind)) F b l = some g) (hlp : Spec.linPos (view s fej kind) F = some g) (hvis : Spec.Visible s fej kind f g0 g)
    (δ : Var → ℕ → ℝ) (dl : V3) (hP : s.opts.calibPose = false → ∀ c, δ (.calib c) = 0) (hI : s.opts.calibIntr = false → ∀ c, δ (.intr c) = 0) :
    ∃ G, (if Land.Spec.Anchored F.rep then ∃ c, F.ancCam = some c ∧ Spec.Moves s fej F.rep c F.ancT b l δ dl G else ∀ e, G e = Spec.xyz F.rep b (l + e • dl)) ∧
      Spec.Jacobian s fej kind f g0 G δ fun r => ∑ k ∈ range (total out.order), out.Hx r k * Spec.stack δ out.order k
            + ∑ k ∈ range (jacobsize F.rep), out.Hf r k * extV dl k := by
  have hm : flat F = Spec.meas f := by unfold flat Spec.meas; rw [ho]
  have hvu := view_units (fej := fej) (kind := kind) hu
  obtain ⟨-, -, hj⟩ := C79_first_estimates (view s fej kind) F hout (by rw [ho]; exact hcams) hvu hl h0 hg hlp
    (fun m hm' cl ca k h1 h2 h3 => by
      rw [hm] at hm'
      obtain ⟨v1, v2⟩ := hvis m hm' _ _ _ (view_clone _ _ h1) (view_calib _ _ h2)
      rw [(view_cam _ _ h3).1]
      exact ⟨v1, v2⟩) δ dl hP hI
  have hpos : ∃ G : ℝ → V3, (∀ e, Spec.position (Spec.perturb (Spec.linState (view s fej kind)) (fun v i => e * δ v i)) F b (l + e • dl) = some (G e)) ∧
      (if Land.Spec.Anchored F.rep then ∃ c, F.ancCam = some c ∧ Spec.Moves s fej F.rep c F.ancT b l δ dl G else ∀ e, G e = Spec.xyz F.rep b (l + e • dl)) := by
    by_cases hr : Land.Spec.Anchored F.rep
    · simp only [Spec.here, if_pos hr, Option.bind_eq_some_iff] at h0
      obtain ⟨c, hc, cal, hcal, an, han, h0⟩ := h0
      refine ⟨fun e => Spec.world ((if fej then an.fej else an.val).update (fun i => e * δ (.clone F.ancT) i)) (cal.update (fun i => e * δ (.calib c) i))
        (Spec.xyz F.rep b (l + e • dl)), fun e => ?_, ?_⟩
      · simp only [Spec.position, if_pos hr, hc, Option.bind_some, Spec.perturb, Spec.linState, hcal, han, Option.map_some]
        rfl
      · rw [if_pos hr]
        refine ⟨c, hc, ?_⟩
        unfold Spec.Moves
        rw [if_pos hr]
        exact ⟨_, _, _, view_clone _ _ han, view_calib _ _ hcal, fun e => rfl⟩
    · refine ⟨fun e => Spec.xyz F.rep b (l + e • dl), fun e => ?_, ?_⟩
      · simp only [Spec.position, if_neg hr]
      · rw [if_neg hr]; exact fun e => rfl
  obtain ⟨G, hG, hG'⟩ := hpos
  refine ⟨G, hG', fun n hn => ?_⟩
  obtain ⟨cl, ca, k, h1, h2, h3, -, y, hy, hd⟩ := hj n (by rw [hm]; exact hn)
  simp only [hm] at h1 h2 h3 hy hd
  obtain ⟨k1, k2⟩ := view_cam _ _ h3
  refine ⟨_, _, _, _, view_clone _ _ h1, view_calib _ _ h2, k2, y, fun e => ?_, ?_⟩
  · have := hy e
    simp only [Spec.bearing, hG e, Option.bind_some] at this
    simp only [Spec.perturb, Spec.linState, h1, h2, Option.map_some, Option.bind_some, Option.some.injEq] at this
    exact this.symm
  · rw [← k1]; exact hd

theorem view_lin {fej : Bool} {kind : ℕ → Cam.Kind} {F : Feat} {f : Track} (ho : F.obs = f.obs) {out : Out} (hout : full (view s fej kind) F = some out)
    (hcams : (f.obs.map Prod.fst).Nodup) (hu : Spec.UnitPoses s) {c : ℕ} (hc : Land.Spec.Anchored F.rep → F.ancCam = some c) :
    Spec.Linearised s fej kind f F.rep c F.ancT (if Land.Spec.Anchored F.rep then F.pA else F.pG) F.pGf out := by
  obtain ⟨g, hg, hrows, hres⟩ := full_res hout
  have hm : flat F = Spec.meas f := by unfold flat Spec.meas; rw [ho]
  refine ⟨g, ?_, by rw [hrows, hm], fun n hn => ?_, fun b l δ dl hl hlin hvis hP hI => ?_⟩
  · have hg' := hg
    simp only [Spec.here] at hg'
    unfold Spec.At
    by_cases hr : Land.Spec.Anchored F.rep
    · rw [if_pos hr, hc hr] at hg'
      simp only [Option.bind_eq_some_iff, Option.bind_some] at hg'
      obtain ⟨cal, hcal, an, han, hg'⟩ := hg'
      rw [if_pos hr, if_pos hr]
      exact ⟨_, _, _, view_clone _ _ han, view_calib _ _ hcal, (Option.some.inj hg').symm⟩
    · rw [if_neg hr] at hg'
      rw [if_neg hr, if_neg hr]
      exact (Option.some.inj hg').symm
  · obtain ⟨cl, ca, k, h1, h2, h3, h4⟩ := hres n (by rw [hm]; exact hn)
    simp only [hm] at h1 h2 h3 h4
    obtain ⟨k1, k2⟩ := view_cam _ _ h3
    exact ⟨_, _, _, _, view_clone _ _ h1, view_calib _ _ h2, k2, fun a => by rw [h4 a, k1]⟩
  · by_cases hr : Land.Spec.Anchored F.rep
    · simp only [if_pos hr] at hlin hvis
      have hg' := hg
      simp only [Spec.here, if_pos hr, hc hr, Option.bind_eq_some_iff, Option.bind_some] at hg'
      obtain ⟨cal, hcal, an, han, -⟩ := hg'
      obtain ⟨G, h1, h2⟩ := view_jac ho hout hcams hu hl hg (g := g) (by
        simp only [Spec.position, if_pos hr, hc hr, Option.bind_some, Spec.linState, hcal, han, Option.map_some, Option.some.injEq]
        exact hlin _ _ _ (view_clone _ _ han) (view_calib _ _ hcal)) (by simp only [Spec.linPos, if_pos hr, hg]) hvis δ dl hP hI
      rw [if_pos hr, hc hr] at h1
      simp only [Option.some.injEq, exists_eq_left'] at h1
      exact ⟨G, h1, h2⟩
    · simp only [if_neg hr] at hlin hvis
      obtain ⟨G, h1, h2⟩ := view_jac ho hout hcams hu hl hg (g := if fej then F.pGf else F.pG) (by
        simp only [Spec.position, if_neg hr, hlin]) (by simp only [Spec.linPos, if_neg hr]; rfl) hvis δ dl hP hI
      rw [if_neg hr] at h1
      refine ⟨G, ?_, h2⟩
      unfold Spec.Moves
      rw [if_neg hr]
      exact h1

/-- **C95** (linearisation) Every feature of an MSCKF update is linearised at its triangulated position, in its anchor if the representation has one: the residual of each
measurement is the pixel minus its prediction from the current clone, extrinsics and lens; the Jacobians are the derivative of the predictions, at the first estimates of
the clones with first-estimate Jacobians. -/
theorem C95_linearisation {C : MCfg} {i : Spec.Item} (hi : i.OK s C) (hcams : (i.f.obs.map Prod.fst).Nodup) (hu : Spec.UnitPoses s) :
    Spec.Linearised s C.fej C.kind i.f (Spec.work C.rep) i.x.cam i.x.t (if Land.Spec.Anchored C.rep then i.x.pA else i.x.pG) i.x.pG i.out := by
  have ho : (toFeat (msckfRep C.rep) i.f i.x).obs = i.f.obs := by unfold toFeat; split_ifs <;> rfl
  have hl := view_lin ho hi.out hcams hu (c := i.x.cam)
  unfold toFeat at hl
  by_cases hr : Land.Spec.Anchored C.rep
  · have hr' := (anchored_msckf _).2 hr
    have hrel := (rel_anchored _).2 hr'
    simp only [if_pos hrel, if_pos hr'] at hl
    rw [if_pos hr]
    have := hl (fun _ => trivial)
    unfold Spec.Linearised at this ⊢
    simp only [if_pos hr', show Spec.work C.rep = msckfRep C.rep from rfl] at this ⊢
    exact this
  · have hr' : ¬ Land.Spec.Anchored (msckfRep C.rep) := fun h => hr ((anchored_msckf _).1 h)
    have hrel : ¬ isRelative (msckfRep C.rep) = true := fun h => hr' ((rel_anchored _).1 h)
    simp only [if_neg hrel, hr', false_imp_iff, true_imp_iff] at hl
    rw [if_neg hr]
    unfold Spec.Linearised Spec.At Spec.Moves at hl ⊢
    simp only [if_neg hr', show Spec.work C.rep = msckfRep C.rep from rfl] at hl ⊢
    exact hl

/-- **C98** (linearisation) The same for a feature that is tried as a new landmark, in the representation of its kind (tag or point). -/
theorem C98_linearisation {C : SCfg} {i : Spec.DItem} (hi : i.OK s C) (hcams : (i.g.1.obs.map Prod.fst).Nodup) (hu : Spec.UnitPoses s) :
    Spec.Linearised s C.fej C.kind i.g.1 (Spec.work (i.rep s C)) i.g.2.cam i.g.2.t (if Land.Spec.Anchored (i.rep s C) then i.g.2.pA else i.g.2.pG) i.g.2.pG i.out := by
  have ho : (toFeat (msckfRep (i.rep s C)) i.g.1 i.g.2).obs = i.g.1.obs := by unfold toFeat; split_ifs <;> rfl
  have hl := view_lin ho hi.out hcams hu (c := i.g.2.cam)
  unfold toFeat at hl
  by_cases hr : Land.Spec.Anchored (i.rep s C)
  · have hr' := (anchored_msckf _).2 hr
    have hrel := (rel_anchored _).2 hr'
    simp only [if_pos hrel, if_pos hr'] at hl
    rw [if_pos hr]
    have := hl (fun _ => trivial)
    unfold Spec.Linearised at this ⊢
    simp only [if_pos hr', show Spec.work (i.rep s C) = msckfRep (i.rep s C) from rfl] at this ⊢
    exact this
  · have hr' : ¬ Land.Spec.Anchored (msckfRep (i.rep s C)) := fun h => hr ((anchored_msckf _).1 h)
    have hrel : ¬ isRelative (msckfRep (i.rep s C)) = true := fun h => hr' ((rel_anchored _).1 h)
    simp only [if_neg hrel, hr', false_imp_iff, true_imp_iff] at hl
    rw [if_neg hr]
    unfold Spec.Linearised Spec.At Spec.Moves at hl ⊢
    simp only [if_neg hr', show Spec.work (i.rep s C) = msckfRep (i.rep s C) from rfl] at hl ⊢
    exact hl

/-- **C96** (linearisation) The measurements of a landmark are linearised the same way; the position predicted from is the landmark's current estimate, and a global landmark's
Jacobian is taken at its own first estimate with first-estimate Jacobians. -/
theorem C96_linearisation {C : SCfg} {i : Spec.SItem} (hi : i.OK s M C) (hcams : (i.f.obs.map Prod.fst).Nodup) (hu : Spec.UnitPoses s) {c : ℕ}
    (hc : Land.Spec.Anchored (M i.u).rep → (M i.u).cam = some c) :
    ∃ p pf, (lmOf s M i.u).getXyz false = some p ∧ (lmOf s M i.u).getXyz true = some pf ∧
      Spec.Linearised s C.fej C.kind i.f (Spec.work (M i.u).rep) c (M i.u).t p pf i.out := by
  obtain ⟨G, hG, hout⟩ := hi.out
  obtain ⟨h1, h2⟩ := slamFeat_spec hG
  have hl := view_lin h1 hout hcams hu (c := c)
  unfold slamFeat at hG
  simp only [Option.bind_eq_bind, Option.bind_eq_some_iff] at hG
  obtain ⟨p, hp, pf, hpf, hG⟩ := hG
  obtain rfl := (Option.some.inj hG).symm
  refine ⟨p, pf, hp, hpf, ?_⟩
  by_cases hr : Land.Spec.Anchored (M i.u).rep
  · have hr' := (anchored_msckf _).2 hr
    have hrel := (rel_anchored _).2 hr'
    simp only [if_pos hrel, if_pos hr'] at hl
    have := hl (fun _ => hc hr)
    unfold Spec.Linearised at this ⊢
    simp only [if_pos hr', show Spec.work (M i.u).rep = msckfRep (M i.u).rep from rfl] at this ⊢
    exact this
  · have hr' : ¬ Land.Spec.Anchored (msckfRep (M i.u).rep) := fun h => hr ((anchored_msckf _).1 h)
    have hrel : ¬ isRelative (msckfRep (M i.u).rep) = true := fun h => hr' ((rel_anchored _).1 h)
    simp only [if_neg hrel, hr', false_imp_iff, true_imp_iff] at hl
    unfold Spec.Linearised Spec.At Spec.Moves at hl ⊢
    simp only [if_neg hr', show Spec.work (M i.u).rep = msckfRep (M i.u).rep from rfl] at hl ⊢
    exact hl

/-- the condition on orientations holds after every history that writes unit quaternions. -/
theorem unitPoses_history {ops : List St.Op} (hw : ∀ op ∈ ops, St.Spec.Writes IsUnitQ op) (h : St.run lib (St.ctor o) ops = some s) : Spec.UnitPoses s := by
  refine ⟨?_, ?_⟩
  · rintro t A A' ⟨u, -, h1, h2⟩
    exact ⟨St.C26_history_unit hw h u _ (.inl (by rw [h1]; rfl)), St.C26_history_unit hw h u _ (.inr (by rw [h2]; rfl))⟩
  · rintro c E ⟨-, h1⟩
    exact St.C26_history_unit hw h _ _ (.inl (by rw [h1]; rfl))

/-- the hypotheses of the linearisation theorems are met, with first-estimate Jacobians and a clone whose estimate has moved away from its first estimate: a point seen
from two clones, in the global representation. -/
example (hlib : St.Spec.LibOK lib) : ∃ (s : St.State) (C : MCfg) (i : Spec.Item), St.Spec.ProgOK lib exO s ∧ i.OK s C ∧ (i.f.obs.map Prod.fst).Nodup ∧ Spec.UnitPoses s ∧
    C.fej = true ∧ (∃ t A A', Spec.CloneAt s t A A' ∧ A ≠ A') ∧ (Spec.meas i.f).length = 2 ∧ ∃ b l, Spec.Chart C.rep b l ∧ Spec.xyz C.rep b l = i.x.pG ∧
      Spec.Visible s true C.kind i.f i.x.pG i.x.pG := by
  obtain ⟨s0, hs0, hc0, hv1, hv2, hv3, hv4, -, hcl⟩ := exState lib
  have c1 := view_clone _ _ hv1
  have c2 := view_clone _ _ hv2
  have c3 := view_calib _ _ hv3
  have p1 : (s0.obj 9).val = .pose pose1.q pose1.p ∧ (s0.obj 9).fej = .pose pose1.q pose1.p := by
    obtain ⟨u, hu, h1, h2⟩ := c1; rw [hcl] at hu; simp at hu; subst hu; exact ⟨h1, h2⟩
  have p2 : (s0.obj 10).val = .pose pose1.q pose1.p ∧ (s0.obj 10).fej = .pose pose1.q pose1.p := by
    obtain ⟨u, hu, h1, h2⟩ := c2; rw [hcl] at hu; simp at hu; subst hu; exact ⟨h1, h2⟩
  let q : Pose := ⟨⟨0, 0, 0, 1⟩, ![1, 0, 0]⟩
  let s : St.State := { s0 with obj := fun w => if w = 9 then { s0.obj 9 with val := .pose q.q q.p } else s0.obj w }
  have hs : St.Spec.ProgOK lib exO s := Prop_.progOK_step hs0 (op := .setVal 9 (.pose q.q q.p)) trivial trivial (by simp [St.step, p1.1, St.sameKind, s])
  let C : MCfg := ⟨true, fun _ => .radtan, .global3d, 1, 1⟩
  let f : Track := ⟨7, [(0, [(1, 0), (2, 0)])]⟩
  let x : Fix := ⟨0, 1, ![0, 0, 1], ![0, 0, 1]⟩
  have hmem : ∀ t : ℝ, t = 1 ∨ t = 2 → ∃ u, (t, u) ∈ s.clones := by
    rintro t (rfl | rfl)
    · exact ⟨9, by simp [s, hcl]⟩
    · exact ⟨10, by simp [s, hcl]⟩
  have hin : Spec.inWindow s f = f := by
    simp [Spec.inWindow, f, hmem 1 (.inl rfl), hmem 2 (.inr rfl)]
  obtain ⟨s', used, h⟩ := C95_returns hlib hs (C := C) one_pos (by simp [C]) (fun _ => some x) [f]
    (by simp [f, exO]) (by rintro g y e; obtain rfl := Option.some.inj e; exact ⟨by simp [x, exO], hmem 1 (.inl rfl)⟩)
  obtain ⟨items, i1, i2, i3, -⟩ := C95_msckf_update hlib hs (C := C) one_pos (fun _ => some x) [f] (by simp [f]) h
  have hcand : Spec.candidates s (fun _ => some x) [f] = [(f, x)] := by
    simp only [Spec.candidates, List.filterMap_cons, hin, List.filterMap_nil]; simp [f]
  rw [hcand] at i1
  obtain ⟨i, rfl⟩ : ∃ i, items = [i] := by
    cases items with
    | nil => simp at i1
    | cons i t =>
      cases t with
      | nil => exact ⟨i, rfl⟩
      | cons j t => simp at i1
  simp only [List.map_cons, List.map_nil, List.cons.injEq, Prod.mk.injEq, and_true] at i1
  have hR : ∀ p, (⟨⟨0, 0, 0, 1⟩, p⟩ : Pose).R = 1 := by
    intro p
    unfold Pose.R
    funext i j; fin_cases i <;> fin_cases j <;> simp [quat2Rot, skew, outer, Quat.vec] <;> norm_num
  have hcA : ∀ t A A', Spec.CloneAt s t A A' → (A = q ∨ A = pose1) ∧ A' = pose1 := by
    rintro t ⟨a, b⟩ ⟨a', b'⟩ ⟨u, hu, h1, h2⟩
    simp only [s, hcl, List.mem_cons, Prod.mk.injEq, List.not_mem_nil, or_false] at hu h1 h2
    rcases hu with ⟨-, rfl⟩ | ⟨-, rfl⟩
    · simp only [if_true, p1, Val.pose.injEq] at h1 h2
      exact ⟨.inl (by rw [← h1.1, ← h1.2]), by rw [← h2.1, ← h2.2]⟩
    · simp only [show (10 : ℕ) ≠ 9 by norm_num, if_false, p2, Val.pose.injEq] at h1 h2
      exact ⟨.inr (by rw [← h1.1, ← h1.2]), by rw [← h2.1, ← h2.2]⟩
  have hcE : ∀ E, Spec.ExtrAt s 0 E → E = pose1 := by
    rintro ⟨a, b⟩ ⟨-, h1⟩
    simp only [s, mul_zero, add_zero, show (7 : ℕ) ≠ 9 by norm_num, if_false] at h1
    have := c3.2
    simp only [mul_zero, add_zero] at this
    rw [this] at h1
    simp only [Val.pose.injEq] at h1
    rw [← h1.1, ← h1.2]
  refine ⟨s, C, i, hs, i2 i (by simp), by rw [i1.1]; simp [f], ⟨fun t A A' hA => ?_, ?_⟩, rfl, ⟨1, q, pose1, ⟨9, by simp [s, hcl], by simp [s], by simp [s, p1.2]⟩, ?_⟩,
    by rw [i1.1]; simp [Spec.meas, f], 0, ![0, 0, 1], ?_, by rw [i1.2]; simp [C, Spec.xyz, x], ?_⟩
  · obtain ⟨h1 | h1, h2⟩ := hcA t A A' hA <;> rw [h1, h2] <;> simp [q, pose1, IsUnitQ]
  · rintro c E ⟨hc, h1⟩
    have : c = 0 := by
      have := (St.prog_W hs.prog).opts
      have hc' : c < exO.numCams := by rw [← this]; exact hc
      simpa [exO] using hc'
    subst this
    rw [hcE E ⟨hc, h1⟩]; simp [pose1, IsUnitQ]
  · intro h
    have := congrFun (congrArg Pose.p h) 0
    simp [q, pose1] at this
  · simp [C, Spec.Chart]
  · rw [i1.1, i1.2]
    intro m hm A A' E hA hE
    simp only [Spec.meas, f, List.flatMap_cons, List.flatMap_nil, List.map_cons, List.map_nil, List.append_nil, List.mem_cons, List.not_mem_nil, or_false] at hm
    have h0 : m.1 = 0 := by rcases hm with rfl | rfl <;> rfl
    rw [h0] at hE
    obtain ⟨h1, h2⟩ := hcA _ _ _ hA
    rw [hcE E hE, h2]
    refine ⟨?_, by simp [CamOK, C]⟩
    simp only [Spec.linPose, Spec.inCam, if_true, x, pose1, hR]
    simp

end Verif.Upd
