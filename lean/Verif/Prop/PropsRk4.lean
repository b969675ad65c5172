import Verif.Prop.Rk4Order
import Verif.Prop.Ode
import Verif.Sim.Deriv

/-!
# C94: the Runge-Kutta prediction is of order four

The error of one step against the true motion under linearly varying readings is `O(h⁵)`, in orientation, velocity and position.
-/

set_option linter.unusedSimpArgs false
set_option linter.unusedVariables false

open Classical

namespace Verif.Prop_

open Verif Verif.Types Verif.St Verif.Imu Matrix Finset Topology Filter Asymptotics ContDiff
open Verif.Sim (HasDmAt)

namespace Spec

/-- the true motion of a body, around the time `0`, whose angular rate is `w + t α` and whose specific force is `a + t j` (both in the body frame),
under the gravity `g`: orientation `R` (global to body), velocity and position. -/
structure LinMotion (g w α a j : V3) (R : ℝ → M3) (v p : ℝ → V3) : Prop where
  rot : ∀ᶠ t in 𝓝 (0 : ℝ), ∀ i k, HasDerivAt (fun s => R s i k) ((-(skew (w + t • α)) * R t) i k) t
  vel : ∀ᶠ t in 𝓝 (0 : ℝ), ∀ i, HasDerivAt (fun s => v s i) (((R t).transpose.mulVec (a + t • j) - g) i) t
  pos : ∀ᶠ t in 𝓝 (0 : ℝ), ∀ i, HasDerivAt (fun s => p s i) (v t i) t

end Spec

/-- a curve of unit quaternions following the rate turns the rotation matrix. -/
theorem rot_of_quat {q : ℝ → Quat} {q' : Quat} {t : ℝ} (w : V3) (hu : IsUnitQ (q t)) (hx : HasDerivAt (fun s => (q s).x) (0.5 * (omegaMul w (q t)).x) t)
    (hy : HasDerivAt (fun s => (q s).y) (0.5 * (omegaMul w (q t)).y) t) (hz : HasDerivAt (fun s => (q s).z) (0.5 * (omegaMul w (q t)).z) t)
    (hw : HasDerivAt (fun s => (q s).w) (0.5 * (omegaMul w (q t)).w) t) :
    HasDmAt (fun s => quat2Rot (q s)) (-(skew w) * quat2Rot (q t)) t := by
  have hww := hw.fun_mul hw
  have hxx := hx.fun_mul hx
  have hyy := hy.fun_mul hy
  have hzz := hz.fun_mul hz
  have hxy := hx.fun_mul hy
  have hxz := hx.fun_mul hz
  have hyz := hy.fun_mul hz
  have hwx := hw.fun_mul hx
  have hwy := hw.fun_mul hy
  have hwz := hw.fun_mul hz
  have comb : ∀ {f g : ℝ → ℝ} {f' g' : ℝ} (_ : HasDerivAt f f' t) (_ : HasDerivAt g g' t) (c d e : ℝ),
      HasDerivAt (fun s => c * f s + d * g s + e) (c * f' + d * g') t := fun hf hg c d e => ((hf.const_mul c).fun_add (hg.const_mul d)).add_const e
  have hI : (q t).x ^ 2 + (q t).y ^ 2 + (q t).z ^ 2 + (q t).w ^ 2 = 1 := hu
  intro i k
  fin_cases i <;> fin_cases k <;> simp only [Fin.zero_eta, Fin.mk_one, Fin.reduceFinMk]
  · refine ((comb hww hxx (2) (2) (-1)).congr_of_eventuallyEq (Filter.Eventually.of_forall fun t => ?_)).congr_deriv ?_
    · simp only [q2r00]; ring
    · simp [skew, m3_mul_apply, q2r00, q2r10, q2r20, omegaMul]; ring
  · refine ((comb hwz hxy (2) (2) (0)).congr_of_eventuallyEq (Filter.Eventually.of_forall fun t => ?_)).congr_deriv ?_
    · simp only [q2r01]; ring
    · simp [skew, m3_mul_apply, q2r01, q2r11, q2r21, omegaMul]; linear_combination (-w 2) * hI
  · refine ((comb hwy hxz (-2) (2) (0)).congr_of_eventuallyEq (Filter.Eventually.of_forall fun t => ?_)).congr_deriv ?_
    · simp only [q2r02]; ring
    · simp [skew, m3_mul_apply, q2r02, q2r12, q2r22, omegaMul]; linear_combination (w 1) * hI
  · refine ((comb hwz hxy (-2) (2) (0)).congr_of_eventuallyEq (Filter.Eventually.of_forall fun t => ?_)).congr_deriv ?_
    · simp only [q2r10]; ring
    · simp [skew, m3_mul_apply, q2r00, q2r10, q2r20, omegaMul]; linear_combination (w 2) * hI
  · refine ((comb hww hyy (2) (2) (-1)).congr_of_eventuallyEq (Filter.Eventually.of_forall fun t => ?_)).congr_deriv ?_
    · simp only [q2r11]; ring
    · simp [skew, m3_mul_apply, q2r01, q2r11, q2r21, omegaMul]; ring
  · refine ((comb hwx hyz (2) (2) (0)).congr_of_eventuallyEq (Filter.Eventually.of_forall fun t => ?_)).congr_deriv ?_
    · simp only [q2r12]; ring
    · simp [skew, m3_mul_apply, q2r02, q2r12, q2r22, omegaMul]; linear_combination (-w 0) * hI
  · refine ((comb hwy hxz (2) (2) (0)).congr_of_eventuallyEq (Filter.Eventually.of_forall fun t => ?_)).congr_deriv ?_
    · simp only [q2r20]; ring
    · simp [skew, m3_mul_apply, q2r00, q2r10, q2r20, omegaMul]; linear_combination (-w 1) * hI
  · refine ((comb hwx hyz (-2) (2) (0)).congr_of_eventuallyEq (Filter.Eventually.of_forall fun t => ?_)).congr_deriv ?_
    · simp only [q2r21]; ring
    · simp [skew, m3_mul_apply, q2r01, q2r11, q2r21, omegaMul]; linear_combination (w 0) * hI
  · refine ((comb hww hzz (2) (2) (-1)).congr_of_eventuallyEq (Filter.Eventually.of_forall fun t => ?_)).congr_deriv ?_
    · simp only [q2r22]; ring
    · simp [skew, m3_mul_apply, q2r02, q2r12, q2r22, omegaMul]; ring

/-- the solution of the code's equation, and the motion it describes. -/
theorem rk_motion (g : V3) (x : Imu16) (hq : IsUnitQ x.q) (w α a j : V3) :
    ∃ y : ℝ → RkE, y 0 = rkStart x ∧ (∀ᶠ t in 𝓝 (0 : ℝ), HasDerivAt y (rkRhs g x.q w α a j t (y t)) t) ∧
      Spec.LinMotion g w α a j (fun t => quat2Rot (quatMul (quatnorm (toQ (y t).1)) x.q)) (fun t => (y t).2.1) (fun t => (y t).2.2) ∧
      ∀ᶠ t in 𝓝 (0 : ℝ), IsRot (quat2Rot (quatMul (quatnorm (toQ (y t).1)) x.q)) := by
  obtain ⟨y, hy0, hy⟩ := Rk.exists_sol (rkRhs_smooth g x hq w α a j)
  have hyc : ContinuousAt y 0 := hy.self_of_nhds.continuousAt
  have hd1 : ∀ᶠ t in 𝓝 (0 : ℝ), ∀ i, HasDerivAt (fun s => (y s).1 i) ((rkRhs g x.q w α a j t (y t)).1 i) t := by
    filter_upwards [hy] with t ht i
    have h3 : HasDerivAt (fun t => (y t).1) (rkRhs g x.q w α a j t (y t)).1 t := (hasFDerivAt_fst (𝕜 := ℝ) (p := y t)).comp_hasDerivAt t ht
    exact hasDerivAt_pi.1 h3 i
  have hd2 : ∀ᶠ t in 𝓝 (0 : ℝ), HasDerivAt (fun s => (y s).2) ((rkRhs g x.q w α a j t (y t)).2) t := by
    filter_upwards [hy] with t ht
    exact (hasFDerivAt_snd (𝕜 := ℝ) (p := y t)).comp_hasDerivAt t ht
  have hw : ∀ᶠ t in 𝓝 (0 : ℝ), 0 < (y t).1 3 := by
    have hc : ContinuousAt (fun t => (y t).1 3) 0 := (hd1.self_of_nhds 3).continuousAt
    refine hc.eventually (lt_mem_nhds ?_)
    simp [hy0, rkStart, ofQ]
  -- the length is constant
  have hn : ∀ᶠ t in 𝓝 (0 : ℝ), (y t).1 0 ^ 2 + (y t).1 1 ^ 2 + (y t).1 2 ^ 2 + (y t).1 3 ^ 2 = 1 := by
    have hder : ∀ᶠ t in 𝓝 (0 : ℝ), HasDerivAt (fun t => (y t).1 0 ^ 2 + (y t).1 1 ^ 2 + (y t).1 2 ^ 2 + (y t).1 3 ^ 2) 0 t := by
      filter_upwards [hd1, hw] with t ht hwt
      refine (((((ht 0).fun_pow 2).fun_add ((ht 1).fun_pow 2)).fun_add ((ht 2).fun_pow 2)).fun_add ((ht 3).fun_pow 2)).congr_deriv ?_
      have : ¬ (toQ (y t).1).w < 0 := not_lt.2 (le_of_lt hwt)
      simp only [rkRhs, quatnorm, if_neg this]
      simp [ofQ, omegaMul, Quat.smul, Quat.divS, toQ]
      ring
    filter_upwards [Rk.const_near hder] with t ht
    rw [ht, hy0]; simp [rkStart, ofQ]
  have hnorm : ∀ᶠ t in 𝓝 (0 : ℝ), quatnorm (toQ (y t).1) = toQ (y t).1 := by
    filter_upwards [hn, hw] with t ht hwt
    have h1 : ¬ (toQ (y t).1).w < 0 := not_lt.2 (le_of_lt hwt)
    have h2 : (toQ (y t).1).norm = 1 := by
      simp only [Quat.norm, Quat.normSq, toQ, ht, Real.sqrt_one]
    simp only [quatnorm, if_neg h1, h2]
    ext <;> simp [Quat.divS]
  have hunit : ∀ᶠ t in 𝓝 (0 : ℝ), IsUnitQ (toQ (y t).1) := hn.mono fun t ht => ht
  have hrot : ∀ᶠ t in 𝓝 (0 : ℝ), quat2Rot (quatMul (quatnorm (toQ (y t).1)) x.q) = quat2Rot (toQ (y t).1) * quat2Rot x.q := by
    filter_upwards [hunit, hnorm] with t h1 h2
    rw [h2, (QuatProps.C23_quat_multiply _ _ h1 hq).2.2]
  refine ⟨y, hy0, hy, ⟨?_, ?_, ?_⟩, ?_⟩
  · filter_upwards [hd1, hnorm, hunit, hrot, hrot.eventually_nhds] with t h1 h2 h3 h4 h4' i k
    have hm : HasDmAt (fun s => quat2Rot (toQ (y s).1)) (-(skew (w + t • α)) * quat2Rot (toQ (y t).1)) t := by
      simp only [rkRhs, h2] at h1
      exact rot_of_quat (q := fun s => toQ (y s).1) (q' := ⟨0, 0, 0, 0⟩) (w + t • α) h3 (h1 0) (h1 1) (h1 2) (h1 3)
    have := (hm.mul (HasDmAt.const (quat2Rot x.q))) i k
    rw [Matrix.mul_zero, add_zero, Matrix.mul_assoc, ← h4] at this
    exact this.congr_of_eventuallyEq (h4'.mono fun s hs => by simp only [hs])
  · filter_upwards [hd2] with t h2 i
    have h3 : HasDerivAt (fun t => (y t).2.1) (rkRhs g x.q w α a j t (y t)).2.1 t := (hasFDerivAt_fst (𝕜 := ℝ) (E := Fin 3 → ℝ) (F := Fin 3 → ℝ) (p := (y t).2)).comp_hasDerivAt (f := fun s => (y s).2) t h2
    exact hasDerivAt_pi.1 h3 i
  · filter_upwards [hd2] with t h2 i
    have h3 : HasDerivAt (fun t => (y t).2.2) (rkRhs g x.q w α a j t (y t)).2.2 t := (hasFDerivAt_snd (𝕜 := ℝ) (E := Fin 3 → ℝ) (F := Fin 3 → ℝ) (p := (y t).2)).comp_hasDerivAt (f := fun s => (y s).2) t h2
    exact hasDerivAt_pi.1 h3 i
  · filter_upwards [hunit, hrot] with t h1 h2
    rw [h2]
    exact (quat2Rot_isRot h1).mul (quat2Rot_isRot hq)

/-- the orientation is determined by where it starts and the angular rate. -/
theorem rot_unique {W : ℝ → V3} {R R' : ℝ → M3} (h : ∀ᶠ t in 𝓝 (0 : ℝ), ∀ i k, HasDerivAt (fun s => R s i k) ((-(skew (W t)) * R t) i k) t)
    (h' : ∀ᶠ t in 𝓝 (0 : ℝ), ∀ i k, HasDerivAt (fun s => R' s i k) ((-(skew (W t)) * R' t) i k) t)
    (hO : ∀ᶠ t in 𝓝 (0 : ℝ), IsRot (R t)) (hR : R' 0 = R 0) : ∀ᶠ t in 𝓝 (0 : ℝ), R' t = R t := by
  have hc : ∀ i k, ∀ᶠ t in 𝓝 (0 : ℝ), ((R t).transpose * R' t) i k = ((R 0).transpose * R' 0) i k := by
    intro i k
    refine Rk.const_near (f := fun t => ((R t).transpose * R' t) i k) ?_
    filter_upwards [h, h'] with t h1 h2
    have h3 : HasDmAt R (-(skew (W t)) * R t) t := h1
    have h4 : HasDmAt R' (-(skew (W t)) * R' t) t := h2
    refine ((h3.tr.mul h4) i k).congr_deriv ?_
    rw [Matrix.transpose_mul, Matrix.transpose_neg, skew_transpose, neg_neg, Matrix.neg_mul, Matrix.mul_neg, Matrix.mul_assoc, add_neg_cancel]
    rfl
  have hc' : ∀ᶠ t in 𝓝 (0 : ℝ), ∀ i k, ((R t).transpose * R' t) i k = ((R 0).transpose * R' 0) i k :=
    eventually_all.2 fun i => eventually_all.2 fun k => hc i k
  filter_upwards [hc', hO] with t h1 h2
  have h3 : (R t).transpose * R' t = 1 := by
    rw [show (R t).transpose * R' t = (R 0).transpose * R' 0 from Matrix.ext h1, hR]
    exact hO.self_of_nhds.orth
  rw [← Matrix.one_mul (R' t), ← h2.orth', Matrix.mul_assoc, h3, Matrix.mul_one]

/-- the motion is determined by where it starts. -/
theorem linMotion_unique {g w α a j : V3} {R R' : ℝ → M3} {v v' p p' : ℝ → V3} (h : Spec.LinMotion g w α a j R v p) (h' : Spec.LinMotion g w α a j R' v' p')
    (hO : ∀ᶠ t in 𝓝 (0 : ℝ), IsRot (R t)) (hR : R' 0 = R 0) (hv : v' 0 = v 0) (hp : p' 0 = p 0) :
    ∀ᶠ t in 𝓝 (0 : ℝ), R' t = R t ∧ v' t = v t ∧ p' t = p t := by
  have hRR : ∀ᶠ t in 𝓝 (0 : ℝ), R' t = R t := rot_unique h.rot h'.rot hO hR
  have hvv : ∀ᶠ t in 𝓝 (0 : ℝ), v' t = v t := by
    have hc : ∀ i, ∀ᶠ t in 𝓝 (0 : ℝ), v' t i - v t i = v' 0 i - v 0 i := by
      intro i
      refine Rk.const_near (f := fun t => v' t i - v t i) ?_
      filter_upwards [h.vel, h'.vel, hRR] with t h1 h2 h3
      refine ((h2 i).fun_sub (h1 i)).congr_deriv ?_
      rw [h3, sub_self]
    filter_upwards [eventually_all.2 hc] with t ht
    ext i
    have := ht i
    rw [hv, sub_self] at this; linarith
  have hpp : ∀ᶠ t in 𝓝 (0 : ℝ), p' t = p t := by
    have hc : ∀ i, ∀ᶠ t in 𝓝 (0 : ℝ), p' t i - p t i = p' 0 i - p 0 i := by
      intro i
      refine Rk.const_near (f := fun t => p' t i - p t i) ?_
      filter_upwards [h.pos, h'.pos, hvv] with t h1 h2 h3
      refine ((h2 i).fun_sub (h1 i)).congr_deriv ?_
      rw [h3, sub_self]
    filter_upwards [eventually_all.2 hc] with t ht
    ext i
    have := ht i
    rw [hp, sub_self] at this; linarith
  filter_upwards [hRR, hvv, hpp] with t h1 h2 h3 using ⟨h1, h2, h3⟩

theorem rkStart_rot (x : Imu16) (hq : IsUnitQ x.q) : quat2Rot (quatMul (quatnorm (toQ (rkStart x).1)) x.q) = quat2Rot x.q := by
  simp only [rkStart, toQ_ofQ, id_norm]
  rw [(QuatProps.C23_quat_multiply _ _ exCal_q hq).2.2, exCal_rot, Matrix.one_mul]

/-- **C94** For every state, and for readings that vary linearly over the interval (from `w, a` at its start to `w + h α, a + h j` at its end), the
Runge-Kutta prediction over an interval of length `h` differs from the true motion by `O(h⁵)`, in every entry of the orientation and in every
component of velocity and position. -/
theorem C94_fourth_order (g : V3) (x : Imu16) (hq : IsUnitQ x.q) (w α a j : V3) (R : ℝ → M3) (v p : ℝ → V3) (hm : Spec.LinMotion g w α a j R v p)
    (hR : R 0 = quat2Rot x.q) (hv : v 0 = x.v) (hp : p 0 = x.p) :
    let y := fun h : ℝ => meanRk4 g x h w a (w + h • α) (a + h • j)
    (∀ i k, (fun h => quat2Rot (y h).1 i k - R h i k) =O[𝓝 0] fun h : ℝ => h ^ 5) ∧
    (∀ i, (fun h => (y h).2.1 i - v h i) =O[𝓝 0] fun h : ℝ => h ^ 5) ∧
    ∀ i, (fun h => (y h).2.2 i - p h i) =O[𝓝 0] fun h : ℝ => h ^ 5 := by
  intro y
  obtain ⟨s, hs0, hs, hsm, hsO⟩ := rk_motion g x hq w α a j
  have hu := linMotion_unique hsm hm hsO (by simp only [hs0, rkStart_rot x hq, hR]) (by simp only [hs0, hv]; rfl) (by simp only [hs0, hp]; rfl)
  have hO := Rk.rk4t_order (rkRhs_smooth g x hq w α a j) s hs0 hs
  set r : ℝ → RkE := fun h => Rk.rk4t (rkRhs g x.q w α a j) (rkStart x) h with hr
  have hy : ∀ h, y h = (quatMul (quatnorm (toQ (r h).1)) x.q, (r h).2.1, (r h).2.2) := fun h => meanRk4_step g x h w α a j
  have hO1 : (fun h => (r h).1 - (s h).1) =O[𝓝 0] fun h : ℝ => h ^ 5 :=
    (IsBigO.of_bound 1 (Eventually.of_forall fun h => by rw [one_mul]; exact norm_fst_le (r h - s h))).trans hO
  have hO2 : (fun h => (r h).2 - (s h).2) =O[𝓝 0] fun h : ℝ => h ^ 5 :=
    (IsBigO.of_bound 1 (Eventually.of_forall fun h => by rw [one_mul]; exact norm_snd_le (r h - s h))).trans hO
  have hsc : Tendsto (fun h => (s h).1) (𝓝 0) (𝓝 (rkStart x).1) := by
    have := (continuous_fst.tendsto _).comp hs.self_of_nhds.continuousAt.tendsto
    rwa [hs0] at this
  have hrc : Tendsto (fun h => (r h).1) (𝓝 0) (𝓝 (rkStart x).1) := by
    have h0 : Tendsto (fun h => (r h).1 - (s h).1) (𝓝 0) (𝓝 0) := hO1.trans_tendsto (by simpa using (continuous_pow 5).tendsto (0 : ℝ))
    have := h0.add hsc
    simpa using this
  refine ⟨fun i k => ?_, fun i => ?_, fun i => ?_⟩
  · have hid : ContDiffAt ℝ ω (fun u : Fin 4 → ℝ => u) (rkStart x).1 := contDiffAt_id
    obtain ⟨h1, h2⟩ := SmQ.norm hid (by simp [rkStart, ofQ])
    have hG : ContDiffAt ℝ ω (fun u : Fin 4 → ℝ => quat2Rot (quatMul (quatnorm (toQ u)) x.q) i k) (rkStart x).1 := by
      refine (smooth_mul h1.rot (fun i k => (contDiffAt_const : ContDiffAt ℝ ω (fun _ : Fin 4 → ℝ => quat2Rot x.q i k) (rkStart x).1)) i k).congr_of_eventuallyEq ?_
      filter_upwards [h2] with u hu
      rw [(QuatProps.C23_quat_multiply _ _ hu.2 hq).2.2, hu.1]
    have hst := (hG.hasStrictFDerivAt (by simp)).isBigO_sub
    have hcomp := hst.comp_tendsto (hrc.prodMk_nhds hsc)
    have hfin := hcomp.trans hO1
    refine hfin.congr' ?_ EventuallyEq.rfl
    filter_upwards [hu] with h hh
    simp only [Function.comp, hy, hh.1]
  · have hc : (fun h => (r h).2.1 i - (s h).2.1 i) =O[𝓝 0] fun h : ℝ => h ^ 5 :=
      (IsBigO.of_bound 1 (Eventually.of_forall fun h => by
        rw [one_mul]; exact (norm_le_pi_norm ((r h).2.1 - (s h).2.1) i).trans (norm_fst_le ((r h).2 - (s h).2)))).trans hO2
    refine hc.congr' ?_ EventuallyEq.rfl
    filter_upwards [hu] with h hh
    simp only [hy, hh.2.1]
  · have hc : (fun h => (r h).2.2 i - (s h).2.2 i) =O[𝓝 0] fun h : ℝ => h ^ 5 :=
      (IsBigO.of_bound 1 (Eventually.of_forall fun h => by
        rw [one_mul]; exact (norm_le_pi_norm ((r h).2.2 - (s h).2.2) i).trans (norm_snd_le ((r h).2 - (s h).2)))).trans hO2
    refine hc.congr' ?_ EventuallyEq.rfl
    filter_upwards [hu] with h hh
    simp only [hy, hh.2.2]

/-- non-vacuity: from every state with a unit orientation and for all readings the true motion exists (here turning and accelerating, with varying
rate and force). -/
example : ∃ R v p, Spec.LinMotion ![0, 0, 9.81] ![1, 2, 3] ![0.1, 0, -1] ![0, 1, 10] ![3, 0, 1] R v p ∧ R 0 = quat2Rot exX.q ∧ v 0 = exX.v ∧ p 0 = exX.p := by
  have hq : IsUnitQ exX.q := exCal_q
  obtain ⟨y, h0, _, h, _⟩ := rk_motion ![0, 0, 9.81] exX hq ![1, 2, 3] ![0.1, 0, -1] ![0, 1, 10] ![3, 0, 1]
  exact ⟨_, _, _, h, by simp only [h0, rkStart_rot exX hq], by simp only [h0]; rfl, by simp only [h0]; rfl⟩

end Verif.Prop_
