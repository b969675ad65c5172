import Verif.Upd.Rows
import Verif.Base.GivensLemmas

/-!
# Properties of the measurement Jacobians (C34, C79) and of the two in-place reductions (C30, C31)
-/

set_option linter.unusedSimpArgs false

open Classical

namespace Verif.Upd

open Verif Mat Verif.Land Verif.Types Verif.Prop_ Finset

namespace Spec

/-- the global position of a landmark with parameter `l` (bearing `b`) in the current state. -/
noncomputable def position (st : St) (f : Feat) (b l : V3) : Option V3 :=
  if Land.Spec.Anchored f.rep then
    f.ancCam.bind fun c => (st.calib c).bind fun cal => (st.clone f.ancT).bind fun an => some (world an.val cal (xyz f.rep b l))
  else some (xyz f.rep b l)

/-- the pixel at which the camera `o.1` sees it at clone time `o.2`. -/
noncomputable def seen (st : St) (f : Feat) (b l : V3) (o : ℕ × ℝ) : Option Cam.V2 :=
  (position st f b l).bind fun g => (st.clone o.2).bind fun cl => (st.calib o.1).bind fun ca => (st.cam o.1).bind fun k =>
    some (pixel k.1 k.2 cl.val ca g)

/-- the state after the correction `δ`: the estimates move by the filter's own update rule, the first estimates do not. -/
noncomputable def perturb (st : St) (δ : Var → ℕ → ℝ) : St :=
  { st with
    clone := fun t => (st.clone t).map fun x => { x with val := x.val.update (δ (.clone t)) }
    calib := fun c => (st.calib c).map fun x => x.update (δ (.calib c))
    cam := fun c => (st.cam c).map fun k => (k.1, fun i => k.2 i + δ (.intr c) i) }

/-- all orientations are unit quaternions. -/
def Units (st : St) : Prop :=
  (∀ t x, st.clone t = some x → IsUnitQ x.val.q ∧ IsUnitQ x.fej.q) ∧ ∀ c x, st.calib c = some x → IsUnitQ x.q

/-- the linearisation point is the current estimate: no first-estimate Jacobians, or first estimates equal to the estimates. -/
def AtEstimate (st : St) (f : Feat) : Prop :=
  st.doFej = true → (∀ t x, st.clone t = some x → x.fej = x.val) ∧ f.pGf = f.pG

/-- the feature's stored position is that of the landmark parameter `l`. -/
def Holds (f : Feat) (b l : V3) : Prop :=
  if Land.Spec.Anchored f.rep then f.pA = xyz f.rep b l else f.pG = xyz f.rep b l

end Spec

/-! ## C34 -/

/-- **C34** (anchored) For every anchored representation the returned matrices are the derivatives of the landmark's global position with respect to
its parameters, its anchor pose and its camera's extrinsics. With first-estimate Jacobians the linearisation point is the anchor's first-estimate
pose together with the parameter that puts the landmark at the same global position; without, it is the estimate. -/
theorem C34_anchored_partial (st : St) (f : Feat) {c : ℕ} {cal : Pose} {an : PoseE} (hr : Land.Spec.Anchored f.rep) (hc : f.ancCam = some c)
    (hcal : st.calib c = some cal) (han : st.clone f.ancT = some an) (hu : Spec.Units st) {b l : V3} (hl : Spec.Chart f.rep b l)
    (hp : Spec.world (if st.doFej then an.fej else an.val) cal (Spec.xyz f.rep b l) = Spec.world an.val cal f.pA) :
    ∃ Hf Hanc Hcal, repJac st f = some (Hf, (.clone f.ancT, Hanc) :: if st.doPose then [(.calib c, Hcal)] else []) ∧
      (jacobsize f.rep = 1 → ∀ i, Hf i 1 = 0 ∧ Hf i 2 = 0) ∧
      ∀ (dA dc : ℕ → ℝ) (dl : V3), HasDv (fun e => Spec.world ((if st.doFej then an.fej else an.val).update (fun i => e * dA i))
          (cal.update (fun i => e * dc i)) (Spec.xyz f.rep b (l + e • dl)))
        (Hf.mulVec dl + Hanc.mulVec (fun i => dA i) + Hcal.mulVec (fun i => dc i)) := by
  have hcu := hu.2 c cal hcal
  have hau := hu.1 _ an han
  have hRc := quat2Rot_isRot hcu
  have hRf := quat2Rot_isRot hau.2
  have hRv := quat2Rot_isRot hau.1
  have hL : linAnchor st.doFej an cal f.pA =
      ((if st.doFej then an.fej else an.val).R, (if st.doFej then an.fej else an.val).p, Spec.xyz f.rep b l) := by
    have cancel : ∀ (A : Pose), IsRot A.R → (A.R.transpose * cal.R.transpose).transpose.mulVec
        (Spec.world A cal (Spec.xyz f.rep b l) - A.p) + cal.p = Spec.xyz f.rep b l := by
      intro A hA
      have h1 := hA.orth'
      have h2 : cal.R * cal.R.transpose = 1 := hRc.orth'
      simp only [Spec.world, add_sub_cancel_right, Matrix.transpose_mul, Matrix.transpose_transpose, Matrix.mulVec_mulVec]
      rw [show cal.R * A.R * (A.R.transpose * cal.R.transpose) = cal.R * (A.R * A.R.transpose) * cal.R.transpose by simp only [Matrix.mul_assoc],
        h1, Matrix.mul_one, h2, Matrix.one_mulVec, sub_add_cancel]
    unfold linAnchor
    by_cases hf : st.doFej = true
    · simp only [if_pos hf] at hp ⊢
      have hb : (an.val.R.transpose * cal.R.transpose).mulVec (f.pA - cal.p) + an.val.p = Spec.world an.val cal f.pA := by
        simp [Spec.world, Matrix.mulVec_mulVec]
      rw [hb, ← hp, cancel an.fej hRf]
    · simp only [if_neg hf] at hp ⊢
      have h1 := cancel an.val hRv
      have h2 : (an.val.R.transpose * cal.R.transpose).transpose.mulVec (Spec.world an.val cal f.pA - an.val.p) + cal.p = f.pA := by
        have h1 := hRv.orth'
        have h2 : cal.R * cal.R.transpose = 1 := hRc.orth'
        simp only [Spec.world, add_sub_cancel_right, Matrix.transpose_mul, Matrix.transpose_transpose, Matrix.mulVec_mulVec]
        rw [show cal.R * an.val.R * (an.val.R.transpose * cal.R.transpose) = cal.R * (an.val.R * an.val.R.transpose) * cal.R.transpose by
            simp only [Matrix.mul_assoc],
          show an.val.R * an.val.R.transpose = 1 from h1, Matrix.mul_one, h2, Matrix.one_mulVec, sub_add_cancel]
      rw [hp, h2] at h1
      rw [h1]
  generalize hA : (if st.doFej then an.fej else an.val) = A at *
  have hAu : IsUnitQ A.q := by rw [← hA]; split_ifs; exacts [hau.2, hau.1]
  refine ⟨A.R.transpose * cal.R.transpose * lamJac f.rep (Spec.xyz f.rep b l),
    hcat (-A.R.transpose * skew (cal.R.transpose.mulVec (Spec.xyz f.rep b l - cal.p))) 1,
    hcat (-(A.R.transpose * cal.R.transpose) * skew (Spec.xyz f.rep b l - cal.p)) (-(A.R.transpose * cal.R.transpose)), ?_, ?_, ?_⟩
  · obtain ⟨rep, obs, ac, at_, pA, pG, pGf⟩ := f
    simp only at *
    subst hc
    cases rep <;> simp only [Land.Spec.Anchored] at hr <;>
      simp only [repJac, hcal, han, hL, lamJac, Option.bind_eq_bind, Option.bind_some, Matrix.mul_one]
  · intro hj
    have : f.rep = .anchoredSingle := by by_contra h; simp [jacobsize, h] at hj
    rw [this]
    intro i
    simp [lamJac, singleJac, Matrix.mul_apply, Fin.sum_univ_succ]
  · intro dA dc dl
    refine (world_deriv hAu hcu dA dc (lamJac_deriv dl hl)).congr' ?_
    simp [Matrix.mulVec_mulVec]

/-- **C34** (global) For the two global representations there are no other variables and the matrix is the derivative of the global position with
respect to the parameters, at the first estimate of the position if first-estimate Jacobians are used, at the estimate otherwise. -/
theorem C34_global_partial (st : St) (f : Feat) (hr : f.rep = .global3d ∨ f.rep = .globalFull) {b l : V3} (hl : Spec.Chart f.rep b l)
    (hp : Spec.xyz f.rep b l = if st.doFej then f.pGf else f.pG) :
    ∃ Hf, repJac st f = some (Hf, []) ∧ ∀ dl : V3, HasDv (fun e => Spec.xyz f.rep b (l + e • dl)) (Hf.mulVec dl) := by
  refine ⟨lamJac f.rep (Spec.xyz f.rep b l), ?_, fun dl => lamJac_deriv dl hl⟩
  obtain ⟨rep, obs, ac, at_, pA, pG, pGf⟩ := f
  simp only at *
  rcases hr with rfl | rfl
  · simp [repJac, lamJac]
  · rw [hp]; simp [repJac, lamJac]

/-- **C34** (finding) Full inverse depth outside the regular parameters: once an update has carried the stored polar angle below zero (the landmark
crosses the axis of its frame, i.e. the image centre of its anchor), the Jacobian, which is evaluated at angles recomputed from the point, has the wrong
sign in the polar angle and is not the derivative. -/
theorem C34_full_negative_angle_wrong (l : V3) (hr : 0 < l 2) (hs : Real.sin (l 1) < 0) :
    ¬ HasDv (fun e => Spec.xyz .globalFull 0 (l + e • ![0, 1, 0])) ((fullJac (Spec.xyz .globalFull 0 l)).mulVec ![0, 1, 0]) := by
  intro h
  set l' : V3 := ![l 0 + Real.pi, -l 1, l 2] with hl'
  have he : Spec.xyz .globalFull 0 l = Spec.xyz .globalFull 0 l' := by
    funext i; fin_cases i <;> simp [Spec.xyz, hl', Real.cos_add_pi, Real.sin_add_pi]
  obtain ⟨a2, a1c, a1s, a0c, a0s⟩ := toFull_trig (l := l') (by simpa [hl'] using hr) (by simpa [hl'] using hs)
  have h2 := h 2
  have hl := HasDv.line l (![0, 1, 0] : V3)
  have hz : (l + (0:ℝ) • (![0, 1, 0] : V3)) 2 ≠ 0 := by simpa using hr.ne'
  have := ((hl 1).cos.fun_div (hl 2) hz).unique h2
  rw [he] at this
  simp only [fullJac, a2, a1s, a1c, a0c, a0s] at this
  simp [hl', Matrix.mulVec, dotProduct, Fin.sum_univ_succ] at this
  field_simp at this
  nlinarith

/-- the parameters of C34 include, e.g., azimuth 0, polar angle π/2 and inverse distance 1. -/
example : Spec.Chart .anchoredFull 0 ![0, Real.pi / 2, 1] := by simp [Spec.Chart]
example : Real.sin ((![0, -(Real.pi / 2), 1] : V3) 1) < 0 := by simp

/-! ## C79 -/

theorem mapM_spec {α β : Type} {g : α → Option β} : ∀ {l : List α} {r : List β}, l.mapM g = some r →
    r.length = l.length ∧ ∀ n (h : n < l.length) (h' : n < r.length), g l[n] = some r[n]
  | [], r, h => by
    simp at h; subst h; simp
  | a :: l, r, h => by
    rw [List.mapM_cons] at h
    simp only [Option.bind_eq_bind, Option.bind_eq_some_iff] at h
    obtain ⟨b, hb, r', hr', h⟩ := h
    simp at h
    subst h
    obtain ⟨h1, h2⟩ := mapM_spec hr'
    refine ⟨by simp [h1], fun n hn hn' => ?_⟩
    cases n with
    | zero => simpa using hb
    | succ n => simpa using h2 n (by simpa using hn) (by simpa using hn')

theorem rel_anchored (r : Rep) : isRelative r = true ↔ Land.Spec.Anchored r := Land.C28_relative r

/-- the global position the code computes is that of the landmark. -/
theorem globalPos_eq {st : St} {f : Feat} {b l : V3} (hh : Spec.Holds f b l) : globalPos st f = Spec.position st f b l := by
  unfold globalPos Spec.position
  by_cases hr : Land.Spec.Anchored f.rep
  · simp only [Spec.Holds, if_pos hr] at hh
    rw [if_pos ((rel_anchored _).2 hr), if_pos hr, hh]
    simp only [Option.bind_eq_bind, Spec.world, Matrix.mulVec_mulVec]
  · simp only [Spec.Holds, if_neg hr] at hh
    rw [if_neg (fun h => hr ((rel_anchored _).1 h)), if_neg hr, hh]

/-- at the estimate, moving the state moves the landmark's position as the representation Jacobians say, summed over the variables they list. -/
theorem position_deriv {st : St} {f : Feat} {b l g : V3} (hu : Spec.Units st) (hae : Spec.AtEstimate st f) (hl : Spec.Chart f.rep b l)
    (hh : Spec.Holds f b l) {Hf : M3} {xs : List (Var × Matrix (Fin 3) (Fin 6) ℝ)} (hj : repJac st f = some (Hf, xs))
    (hg : Spec.position st f b l = some g) (δ : Var → ℕ → ℝ) (dl : V3) (hP : st.doPose = false → ∀ c, δ (.calib c) = 0) :
    (jacobsize f.rep = 1 → ∀ i, Hf i 1 = 0 ∧ Hf i 2 = 0) ∧
    ∃ gg : ℝ → V3, (∀ e, Spec.position (Spec.perturb st (fun v i => e * δ v i)) f b (l + e • dl) = some (gg e)) ∧ gg 0 = g ∧
      HasDv gg (Hf.mulVec dl + (xs.map fun x => x.2.mulVec (fun i => δ x.1 i)).sum) := by
  by_cases hr : Land.Spec.Anchored f.rep
  · simp only [Spec.position, if_pos hr, Option.bind_eq_some_iff] at hg
    obtain ⟨c, hc, cal, hcal, an, han, hg⟩ := hg
    simp only [Spec.Holds, if_pos hr] at hh
    have hA : (if st.doFej then an.fej else an.val) = an.val := by
      split_ifs with h
      · exact (hae h).1 _ _ han
      · rfl
    obtain ⟨Hf', Hanc, Hcal, h1, h2, h3⟩ := C34_anchored_partial st f hr hc hcal han hu hl (by rw [hA, hh])
    rw [h1] at hj
    obtain ⟨rfl, rfl⟩ := Prod.mk.inj (Option.some.inj hj)
    refine ⟨h2, fun e => Spec.world (an.val.update (fun i => e * δ (.clone f.ancT) i)) (cal.update (fun i => e * δ (.calib c) i))
      (Spec.xyz f.rep b (l + e • dl)), fun e => ?_, ?_, ?_⟩
    · simp only [Spec.position, if_pos hr, hc, Option.bind_some, Spec.perturb, hcal, han, Option.map_some]
    · have hcu := hu.2 c cal hcal
      have hau := hu.1 _ an han
      have := Option.some.inj hg
      rw [← this]
      simp only [Spec.world, Pose.R0 hcu, Pose.R0 hau.1, Pose.p0, zero_smul, add_zero]
    · rw [hA] at h3
      refine (h3 (δ (.clone f.ancT)) (δ (.calib c)) dl).congr' ?_
      by_cases hp : st.doPose = true
      · simp [hp, add_assoc]
      · have hz : (fun i : Fin 6 => δ (.calib c) i) = 0 := by
          funext i; rw [hP (by simpa using hp) c]; rfl
        simp [hp, hz]
  · simp only [Spec.position, if_neg hr] at hg
    simp only [Spec.Holds, if_neg hr] at hh
    have hr' : f.rep = .global3d ∨ f.rep = .globalFull := by
      revert hr hl; cases f.rep <;> simp [Land.Spec.Anchored, Spec.Chart]
    obtain ⟨Hf', h1, h2⟩ := C34_global_partial st f hr' (b := b) (l := l) hl (by
      split_ifs with h
      · rw [(hae h).2, hh]
      · rw [hh])
    rw [h1] at hj
    obtain ⟨rfl, rfl⟩ := Prod.mk.inj (Option.some.inj hj)
    refine ⟨fun h => ?_, fun e => Spec.xyz f.rep b (l + e • dl), fun e => ?_, ?_, ?_⟩
    · rcases hr' with h' | h' <;> simp [jacobsize, h'] at h
    · simp only [Spec.position, if_neg hr]
    · simpa using hg
    · simpa using h2 dl

/-- the variables the representation Jacobian lists. -/
theorem repJac_vars {st : St} {f : Feat} {Hf : M3} {xs : List (Var × Matrix (Fin 3) (Fin 6) ℝ)} (hj : repJac st f = some (Hf, xs)) :
    ∀ x ∈ xs, isRelative f.rep = true ∧ (x.1 = .clone f.ancT ∨ (st.doPose = true ∧ ∃ c, f.ancCam = some c ∧ x.1 = .calib c)) := by
  obtain ⟨rep, obs, ac, at_, pA, pG, pGf⟩ := f
  intro x hx
  cases rep <;> simp only [repJac, Option.bind_eq_bind, Option.bind_eq_some_iff] at hj
  · obtain ⟨-, rfl⟩ := Prod.mk.inj (Option.some.inj hj); simp at hx
  · obtain ⟨-, rfl⟩ := Prod.mk.inj (Option.some.inj hj); simp at hx
  all_goals
    obtain ⟨c, hc, cal, hcal, an, han, hj⟩ := hj
  all_goals try (simp at hj; done)
  all_goals
    obtain ⟨-, rfl⟩ := Prod.mk.inj (Option.some.inj hj)
    refine ⟨by simp [isRelative], ?_⟩
    simp only [List.mem_cons] at hx
    rcases hx with rfl | hx
    · left; rfl
    · right
      by_cases hp : st.doPose = true
      · simp only [hp, if_true, List.mem_singleton] at hx
        subst hx
        exact ⟨hp, c, hc, rfl⟩
      · simp [hp] at hx

theorem sum_chain (M : Matrix (Fin 2) (Fin 3) ℝ) (δ : Var → ℕ → ℝ) (a : Fin 2) : ∀ xs : List (Var × Matrix (Fin 3) (Fin 6) ℝ),
    (xs.map fun x => (M * x.2).mulVec (fun k => δ x.1 k) a).sum = M.mulVec ((xs.map fun x => x.2.mulVec (fun i => δ x.1 i)).sum) a
  | [] => by simp
  | x :: xs => by
    simp only [List.map_cons, List.sum_cons, Matrix.mulVec_add, Pi.add_apply]
    rw [sum_chain M δ a xs, Matrix.mulVec_mulVec]

theorem mem_flat {f : Feat} {o : ℕ × ℝ × Cam.V2} (h : o ∈ flat f) : ∃ c ∈ f.obs, c.1 = o.1 ∧ ∃ m ∈ c.2, m.1 = o.2.1 := by
  simp only [flat, List.mem_flatMap, List.mem_map] at h
  obtain ⟨c, hc, m, hm, rfl⟩ := h
  exact ⟨c, hc, rfl, m, hm, rfl⟩

/-- **C79** The stacked matrices returned for a feature are the derivatives of its predicted pixels. For every feature in any representation, with any
number of measurements in any number of cameras (also in its own anchor), and whichever calibrations are estimated: each involved variable is listed
once; rows `2n, 2n+1` belong to the `n`-th measurement, their residual is measured minus predicted pixel, and their product with the stacked
corrections plus `H_f` times the landmark correction is the derivative of that prediction when the state moves by the filter's own update rule. -/
theorem C79_stacked_jacobian (st : St) (f : Feat) {b l g : V3} {out : Out} (hout : full st f = some out)
    (hcams : (f.obs.map Prod.fst).Nodup) (hu : Spec.Units st) (hae : Spec.AtEstimate st f) (hl : Spec.Chart f.rep b l)
    (hh : Spec.Holds f b l) (hg : Spec.position st f b l = some g)
    (hvis : ∀ o ∈ flat f, ∀ cl ca k, st.clone o.2.1 = some cl → st.calib o.1 = some ca → st.cam o.1 = some k →
      Spec.inCam cl.val ca g 2 ≠ 0 ∧ CamOK k.1 ![Spec.inCam cl.val ca g 0 / Spec.inCam cl.val ca g 2, Spec.inCam cl.val ca g 1 / Spec.inCam cl.val ca g 2])
    (δ : Var → ℕ → ℝ) (dl : V3) (hP : st.doPose = false → ∀ c, δ (.calib c) = 0) (hI : st.doIntr = false → ∀ c, δ (.intr c) = 0) :
    out.order.Nodup ∧ out.rows = 2 * (flat f).length ∧
    ∀ n (hn : n < (flat f).length), ∃ z : ℝ → Cam.V2,
      (∀ e, Spec.seen (Spec.perturb st (fun v i => e * δ v i)) f b (l + e • dl) ((flat f)[n].1, (flat f)[n].2.1) = some (z e)) ∧
      (∀ a : Fin 2, out.res (2 * n + a) = (flat f)[n].2.2 a - z 0 a) ∧
      HasDv z (fun a => ∑ k ∈ range (total out.order), out.Hx (2 * n + a) k * Spec.stack δ out.order k
        + ∑ k ∈ range (jacobsize f.rep), out.Hf (2 * n + a) k * extV dl k) := by
  obtain ⟨hnd, hmem⟩ := layout_spec st f hcams
  unfold full at hout
  rw [globalPos_eq hh, hg] at hout
  simp only [Option.bind_eq_bind, Option.bind_eq_some_iff, Option.bind_some] at hout
  obtain ⟨-, -, ms, hms, j, hj, hout⟩ := hout
  obtain ⟨Hf, xs⟩ := j
  have hout := (Option.some.inj hout).symm
  subst hout
  obtain ⟨hlen, hget⟩ := mapM_spec hms
  refine ⟨hnd, by simp [hlen], fun n hn => ?_⟩
  obtain ⟨hz, gg, hgg, hgg0, hdg⟩ := position_deriv hu hae hl hh hj hg δ dl hP
  have hvars := repJac_vars hj
  -- the measurement
  have hnm : n < ms.length := by omega
  have hlk := hget n hn hnm
  have hmemo : (flat f)[n] ∈ flat f := List.getElem_mem hn
  generalize hpGf : (if isRelative f.rep = true then g else f.pGf) = pGf at *
  -- rows of the loop
  let Q : Meas → Fin 2 → (ℕ → ℝ) → (ℕ → ℝ) → ℝ → Prop := fun m a hx hf r =>
    (∑ j ∈ range (total (layout st f)), hx j * Spec.stack δ (layout st f) j =
      (dzc st g pGf m * hcat (m.cal.R * skew (lin st g pGf m).2.1) (-(m.cal.R * (lin st g pGf m).1))).mulVec
        (fun k => δ (.clone m.t) k) a
      + (xs.map fun x => (dzc st g pGf m * (m.cal.R * (lin st g pGf m).1) * x.2).mulVec (fun k => δ x.1 k) a).sum
      + (if st.doPose then (dzc st g pGf m * hcat (skew ((lin st g pGf m).2.2 - m.cal.p)) 1).mulVec (fun k => δ (.calib m.cam) k) a else 0)
      + (if st.doIntr then (Cam.distortZ m.kind m.intr (uvn g m)).mulVec (fun k => δ (.intr m.cam) k) a else 0)) ∧
    (∑ j ∈ range (jacobsize f.rep), hf j * extV dl j = (dzc st g pGf m * (m.cal.R * (lin st g pGf m).1) * Hf).mulVec dl a) ∧
    r = m.uv a - Spec.pixel m.kind m.intr m.clone.val m.cal g a
  have hQ := (fold_rows st (layout st f) g pGf Hf xs (jacobsize f.rep) (Q := Q) ms ⟨0, fun _ _ => 0, fun _ _ => 0, fun _ => 0⟩
    (fun i _ j => rfl) (by
      intro m hm A hA a
      obtain ⟨i, hi, rfl⟩ := List.getElem_of_mem hm
      have hi' : i < (flat f).length := by omega
      have hlk := hget i hi' hi
      simp only [look, Option.bind_eq_bind, Option.bind_eq_some_iff] at hlk
      obtain ⟨cl, hcl, ca, hca, k, hk, hmk⟩ := hlk
      have hmk := Option.some.inj hmk
      obtain ⟨c, hc, hc1, mm, hmm, hmm1⟩ := mem_flat (List.getElem_mem hi')
      have e1 : ms[i].cam = c.1 := by rw [← hmk, hc1]
      have e2 : ms[i].t = mm.1 := by rw [← hmk, hmm1]
      have k1 : .clone ms[i].t ∈ layout st f := (hmem _).2 (Or.inl ⟨c, hc, Or.inr (Or.inr ⟨mm, hmm, by rw [e2]⟩)⟩)
      have k2 : st.doPose = true → .calib ms[i].cam ∈ layout st f := fun hp => (hmem _).2 (Or.inl ⟨c, hc, Or.inl ⟨hp, by rw [e1]⟩⟩)
      have k3 : st.doIntr = true → .intr ms[i].cam ∈ layout st f := fun hp =>
        (hmem _).2 (Or.inl ⟨c, hc, Or.inr (Or.inl ⟨hp, by rw [e1]⟩)⟩)
      have k4 : ∀ x ∈ xs, x.1 ∈ layout st f ∧ x.1.size = 6 := by
        intro x hx
        have := hvars x hx
        refine ⟨(hmem _).2 (Or.inr this), ?_⟩
        rcases this.2 with h | ⟨_, c, _, h⟩ <;> rw [h] <;> rfl
      have k5 : ∀ x ∈ xs, x.1 ≠ .intr ms[i].cam := by
        intro x hx
        rcases (hvars x hx).2 with h | ⟨_, c, _, h⟩ <;> rw [h] <;> simp
      refine ⟨?_, write_Hf _ _ _ _ _ _ _ _ _ a dl hz (by unfold jacobsize; split_ifs <;> simp), write_res _ _ _ _ _ _ _ _ _ a⟩
      rw [write_row st (layout st f) g pGf Hf xs (jacobsize f.rep) A ms[i] hA k1 k4 k2 k3 k5 (Spec.stack δ (layout st f)) a]
      have s6 : ∀ v : Var, v ∈ layout st f → v.size = 6 → (fun k : Fin 6 => Spec.stack δ (layout st f) (off (layout st f) v + k)) =
          fun k : Fin 6 => δ v k := fun v hv h6 => by
        funext k; exact stack_off (by rw [h6]; exact k.2) hv
      have s8 : st.doIntr = true → (fun k : Fin 8 => Spec.stack δ (layout st f) (off (layout st f) (.intr ms[i].cam) + k)) =
          fun k : Fin 8 => δ (.intr ms[i].cam) k := fun h => by
        funext k; exact stack_off k.2 (k3 h)
      rw [s6 _ k1 rfl]
      congr 1
      · congr 1
        · congr 2
          apply List.map_congr_left
          intro x hx
          rw [s6 _ (k4 x hx).1 (k4 x hx).2]
        · split_ifs with hp
          · rw [s6 _ (k2 hp) rfl]
          · rfl
      · split_ifs with hp
        · rw [s8 hp]
        · rfl)).2 n hnm
  simp only [Nat.zero_add] at hQ
  simp only [look, Option.bind_eq_bind, Option.bind_eq_some_iff] at hlk
  obtain ⟨cl, hcl, ca, hca, k, hk, hmk⟩ := hlk
  have hmk := Option.some.inj hmk
  obtain ⟨hv1, hv2⟩ := hvis _ hmemo cl ca k hcl hca hk
  have hclu := hu.1 _ _ hcl
  have hcau := hu.2 _ _ hca
  have hin0 : Spec.inCam (cl.val.update (fun i => 0 * δ (.clone (flat f)[n].2.1) i)) (ca.update (fun i => 0 * δ (.calib (flat f)[n].1) i)) (gg 0) =
      Spec.inCam cl.val ca g := by
    simp only [Spec.inCam, Pose.R0 hclu.1, Pose.R0 hcau, Pose.p0, hgg0]
  refine ⟨fun e => Spec.pixel k.1 (fun i => k.2 i + e * δ (.intr (flat f)[n].1) i) (cl.val.update (fun i => e * δ (.clone (flat f)[n].2.1) i))
    (ca.update (fun i => e * δ (.calib (flat f)[n].1) i)) (gg e), fun e => ?_, fun a => ?_, ?_⟩
  · simp only [Spec.seen, hgg e, Option.bind_some]
    simp only [Spec.perturb, hcl, hca, hk, Option.map_some, Option.bind_some]
  · refine (hQ a).2.2.trans ?_
    rw [← hmk]
    simp only [Spec.pixel, hin0]
    simp
  · have hlin : lin st g pGf ms[n] = (cl.val.R, cl.val.R.mulVec (g - cl.val.p), Spec.inCam cl.val ca g) := by
      rw [← hmk]
      simp only [lin, Spec.inCam]
      by_cases hf : st.doFej = true
      · have h1 := (hae hf).1 _ _ hcl
        have h2 : pGf = g := by
          rw [← hpGf]
          split_ifs with hrel
          · rfl
          · have hna : ¬ Land.Spec.Anchored f.rep := fun h => hrel ((rel_anchored _).2 h)
            simp only [Spec.Holds, if_neg hna] at hh
            simp only [Spec.position, if_neg hna] at hg
            rw [(hae hf).2, hh, Option.some.inj hg]
        simp only [hf, if_true, h1, h2]
      · simp only [hf]; simp
    have d1 := inCam_deriv hclu.1 hcau (δ (.clone (flat f)[n].2.1)) (δ (.calib (flat f)[n].1)) hdg
    have d2 := proj_deriv d1 (by rw [hin0]; exact hv1)
    have d3 : HasDv (fun e => (fun i => k.2 i + e * δ (.intr (flat f)[n].1) i : Cam.Intr)) (fun i => δ (.intr (flat f)[n].1) i) :=
      HasDv.line k.2 (fun i : Fin 8 => δ (.intr (flat f)[n].1) i)
    have d4 := distort_deriv (k := k.1) d3 d2 (by simp only [hin0]; exact hv2)
    refine d4.congr' ?_
    funext a
    obtain ⟨q1, q2, -⟩ := hQ a
    refine Eq.trans ?_ (congrArg₂ (· + ·) q1 q2).symm
    rw [sum_chain]
    simp only [hin0]
    have ek : (fun i : Fin 8 => k.2 i) = k.2 := rfl
    simp only [hgg0, hlin, dzc, uvn, zero_mul, add_zero]
    simp only [← hmk]
    rw [ek]
    have ep : ∀ M : Matrix (Fin 2) (Fin 6) ℝ, (if st.doPose = true then M.mulVec (fun i => δ (.calib (flat f)[n].1) i) a else 0) =
        M.mulVec (fun i => δ (.calib (flat f)[n].1) i) a := by
      intro M
      split_ifs with hp
      · rfl
      · have hz : (fun i : Fin 6 => δ (.calib (flat f)[n].1) i) = 0 := by
          funext i; rw [hP (by simpa using hp)]; rfl
        rw [hz]; simp
    have ei : ∀ M : Matrix (Fin 2) (Fin 8) ℝ, (if st.doIntr = true then M.mulVec (fun i => δ (.intr (flat f)[n].1) i) a else 0) =
        M.mulVec (fun i => δ (.intr (flat f)[n].1) i) a := by
      intro M
      split_ifs with hp
      · rfl
      · have hz : (fun i : Fin 8 => δ (.intr (flat f)[n].1) i) = 0 := by
          funext i; rw [hI (by simpa using hp)]; rfl
        rw [hz]; simp
    rw [ep, ei]
    simp only [← Matrix.mulVec_mulVec, Matrix.mulVec_add, Pi.add_apply]
    ring

theorem mapM_some {α β : Type} {F : α → Option β} : ∀ {l : List α}, (∀ x ∈ l, (F x).isSome) → ∃ r, l.mapM F = some r
  | [], _ => ⟨[], rfl⟩
  | a :: t, h => by
    obtain ⟨b, hb⟩ := Option.isSome_iff_exists.1 (h a (by simp))
    obtain ⟨r, hr⟩ := mapM_some (l := t) fun x hx => h x (List.mem_cons_of_mem _ hx)
    exact ⟨b :: r, by simp [List.mapM_cons, hb, hr]⟩

/-- **C79** (returns) The stacked Jacobian is returned whenever every measurement's clone and camera, and the anchor if there is one, are in the state. -/
theorem C79_returns (st : St) (f : Feat) {b l g : V3} (hl : Spec.Chart f.rep b l) (hh : Spec.Holds f b l) (hg : Spec.position st f b l = some g)
    (hcam : ∀ c ∈ f.obs, (st.calib c.1).isSome ∧ (st.cam c.1).isSome) (hobs : ∀ o ∈ flat f, (st.clone o.2.1).isSome) : ∃ out, full st f = some out := by
  obtain ⟨us, hus⟩ := mapM_some (F := fun c : ℕ × List (ℝ × Cam.V2) => hasCam st c.1) (l := f.obs) fun c hc => by
    obtain ⟨h2, h3⟩ := hcam c hc
    obtain ⟨y, hy⟩ := Option.isSome_iff_exists.1 h2
    obtain ⟨z, hz⟩ := Option.isSome_iff_exists.1 h3
    simp [hasCam, hy, hz]
  obtain ⟨ms, hms⟩ := mapM_some (F := look st) (l := flat f) fun o ho => by
    have h1 := hobs o ho
    obtain ⟨c, hc, e, -⟩ := mem_flat ho
    obtain ⟨h2, h3⟩ := hcam c hc
    rw [e] at h2 h3
    obtain ⟨x, hx⟩ := Option.isSome_iff_exists.1 h1
    obtain ⟨y, hy⟩ := Option.isSome_iff_exists.1 h2
    obtain ⟨z, hz⟩ := Option.isSome_iff_exists.1 h3
    simp [look, hx, hy, hz]
  have hj : ∃ j, repJac st f = some j := by
    unfold repJac
    cases hr : f.rep <;> simp only [hr, Spec.Chart] at hl <;> simp only [Spec.position, Land.Spec.Anchored, hr, if_true, if_false,
      Option.bind_eq_some_iff] at hg
    · exact ⟨_, rfl⟩
    · exact ⟨_, rfl⟩
    all_goals
      obtain ⟨c, hc, cal, hcal, an, han, -⟩ := hg
      simp only [hc, hcal, han, Option.bind_eq_bind, Option.bind_some]
      exact ⟨_, rfl⟩
  obtain ⟨j, hj⟩ := hj
  unfold full
  rw [globalPos_eq hh, hg, hus, hms, hj]
  exact ⟨_, rfl⟩

/-- identity pose. -/
def pose1 : Pose := ⟨⟨0, 0, 0, 1⟩, 0⟩

/-- a concrete case meets the hypotheses of C79: two fisheye observations, from two clones, of the anchored point `(1, 2, 4)` in inverse-depth form;
all calibrations estimated, first-estimate Jacobians on. -/
example : ∃ (st : St) (f : Feat) (b l g : V3) (out : Out), full st f = some out ∧ (f.obs.map Prod.fst).Nodup ∧ Spec.Units st ∧ Spec.AtEstimate st f ∧
    Spec.Chart f.rep b l ∧ Spec.Holds f b l ∧ Spec.position st f b l = some g ∧ (flat f).length = 2 ∧ st.doPose = true ∧ st.doIntr = true ∧
    ∀ o ∈ flat f, ∀ cl ca k, st.clone o.2.1 = some cl → st.calib o.1 = some ca → st.cam o.1 = some k →
      Spec.inCam cl.val ca g 2 ≠ 0 ∧
        CamOK k.1 ![Spec.inCam cl.val ca g 0 / Spec.inCam cl.val ca g 2, Spec.inCam cl.val ca g 1 / Spec.inCam cl.val ca g 2] := by
  let st : St := ⟨fun _ => some ⟨pose1, pose1⟩, fun _ => some pose1, fun _ => some (.equi, fun _ => 1), true, true, true⟩
  let f : Feat := ⟨.anchoredMsckf, [(0, [(1, 0), (2, 0)])], some 0, 1, ![1, 2, 4], 0, 0⟩
  have h1 : IsUnitQ pose1.q := by simp [IsUnitQ, pose1]
  have hR : pose1.R = 1 := by
    unfold Pose.R pose1
    funext i j; fin_cases i <;> fin_cases j <;> simp [quat2Rot, skew, outer, Quat.vec] <;> norm_num
  have hch : Spec.Chart f.rep 0 ![1/4, 1/2, 1/4] := by simp [Spec.Chart, f]
  have hho : Spec.Holds f 0 ![1/4, 1/2, 1/4] := by
    have ha : Land.Spec.Anchored f.rep := trivial
    rw [Spec.Holds, if_pos ha]
    funext i; fin_cases i <;> simp [f, Spec.xyz] <;> norm_num
  have hpos : Spec.position st f 0 ![1/4, 1/2, 1/4] = some ![1, 2, 4] := by
    simp only [Spec.position, Land.Spec.Anchored, if_true, f, Spec.xyz, st, Option.bind_some, Spec.world, hR]
    simp only [Matrix.transpose_one, Matrix.one_mulVec, pose1, sub_zero, add_zero, Option.some.injEq]
    funext i; fin_cases i <;> simp <;> norm_num
  obtain ⟨out, ho⟩ := C79_returns st f hch hho hpos (by intro o _; simp [st]) (by intro o _; simp [st])
  refine ⟨st, f, 0, ![1/4, 1/2, 1/4], ![1, 2, 4], out, ho, by simp [f], ⟨?_, ?_⟩, ?_, hch, hho, hpos, by simp [flat, f], rfl, rfl, ?_⟩
  · rintro t x hx; simp only [st, Option.some.injEq] at hx; subst hx; exact ⟨h1, h1⟩
  · rintro c x hx; simp only [st, Option.some.injEq] at hx; subst hx; exact h1
  · intro _
    refine ⟨fun t x hx => ?_, rfl⟩
    simp only [st, Option.some.injEq] at hx; subst hx; rfl
  · intro o _ cl ca k hcl hca hk
    simp only [st, Option.some.injEq] at hcl hca hk
    subst hcl hca hk
    have hin : Spec.inCam pose1 pose1 ![1, 2, 4] = ![1, 2, 4] := by
      simp only [Spec.inCam, hR, Matrix.one_mulVec]; simp [pose1]
    simp only [hin]
    refine ⟨by simp, fun _ => ?_⟩
    have : (1 : ℝ) / 4 ≤ Cam.rad ![1 / 4, 1 / 2] := by
      unfold Cam.rad
      apply Real.le_sqrt_of_sq_le
      norm_num
    simp only [Matrix.cons_val_zero, Matrix.cons_val_one, Matrix.cons_val]
    norm_num at this ⊢
    linarith

end Verif.Upd
