import Verif.Prop.PropsB
import Mathlib.Analysis.SpecialFunctions.Sqrt

/-!
# C94: the Runge-Kutta prediction

Without rotation the prediction is the exact solution for a linearly varying specific force; with rotation its first-order behaviour is that
of the kinematics at the mean of the two readings.
-/

set_option linter.unusedSimpArgs false
set_option linter.unusedVariables false

open Classical

namespace Verif.Prop_

open Verif Verif.Types Verif.St Verif.Imu Matrix Finset

/-! ## Curves of quaternions -/

/-- derivative at zero of a curve of quaternions, component by component. -/
structure HasDq (f : ℝ → Quat) (f' : Quat) : Prop where
  x : HasDerivAt (fun t => (f t).x) f'.x 0
  y : HasDerivAt (fun t => (f t).y) f'.y 0
  z : HasDerivAt (fun t => (f t).z) f'.z 0
  w : HasDerivAt (fun t => (f t).w) f'.w 0

theorem id_norm : quatnorm (⟨0, 0, 0, 1⟩ : Quat) = ⟨0, 0, 0, 1⟩ := by
  simp only [quatnorm, if_neg (not_lt.2 (zero_le_one (α := ℝ)))]
  simp [Quat.divS, Quat.norm, Quat.normSq]

theorem comb {f g : ℝ → ℝ} {f' g' : ℝ} (hf : HasDerivAt f f' 0) (hg : HasDerivAt g g' 0) (c d e : ℝ) :
    HasDerivAt (fun t => c * f t + d * g t + e) (c * f' + d * g') 0 :=
  ((hf.const_mul c).fun_add (hg.const_mul d)).add_const e

theorem dq_norm {f : ℝ → Quat} {f' : Quat} (h : HasDq f f') (h0 : f 0 = ⟨0, 0, 0, 1⟩) :
    HasDq (fun t => quatnorm (f t)) ⟨f'.x, f'.y, f'.z, 0⟩ ∧ quatnorm (f 0) = ⟨0, 0, 0, 1⟩ ∧ ∀ᶠ t in nhds (0:ℝ), IsUnitQ (quatnorm (f t)) := by
  have hw : ∀ᶠ t in nhds (0:ℝ), 0 < (f t).w := by
    have : (0:ℝ) < (f 0).w := by rw [h0]; norm_num
    exact h.w.continuousAt.eventually (lt_mem_nhds this)
  have e : ∀ᶠ t in nhds (0:ℝ), quatnorm (f t) = (f t).divS (f t).norm := hw.mono fun t ht => by
    simp only [quatnorm, if_neg (not_lt.2 ht.le)]
  have hn0 : (f 0).norm = 1 := by rw [h0]; simp [Quat.norm, Quat.normSq]
  have hn : HasDerivAt (fun t => (f t).norm) f'.w 0 := by
    have h1 := (((h.x.fun_pow 2).fun_add (h.y.fun_pow 2)).fun_add (h.z.fun_pow 2)).fun_add (h.w.fun_pow 2)
    have h2 := h1.sqrt (by rw [h0]; norm_num)
    refine (h2.congr_of_eventuallyEq (Filter.Eventually.of_forall fun t => ?_)).congr_deriv ?_
    · simp [Quat.norm, Quat.normSq]
    · rw [h0]; simp
  refine ⟨⟨?_, ?_, ?_, ?_⟩, ?_, hw.mono fun t ht => unit_of_w ht.ne'⟩
  · refine ((h.x.fun_div hn (by rw [hn0]; norm_num)).congr_of_eventuallyEq (e.mono fun t ht => by rw [ht]; rfl)).congr_deriv ?_
    rw [hn0, h0]; simp
  · refine ((h.y.fun_div hn (by rw [hn0]; norm_num)).congr_of_eventuallyEq (e.mono fun t ht => by rw [ht]; rfl)).congr_deriv ?_
    rw [hn0, h0]; simp
  · refine ((h.z.fun_div hn (by rw [hn0]; norm_num)).congr_of_eventuallyEq (e.mono fun t ht => by rw [ht]; rfl)).congr_deriv ?_
    rw [hn0, h0]; simp
  · refine ((h.w.fun_div hn (by rw [hn0]; norm_num)).congr_of_eventuallyEq (e.mono fun t ht => by rw [ht]; rfl)).congr_deriv ?_
    rw [hn0, h0]; simp
  · rw [h0]; exact id_norm

theorem hd_mul_id {f : ℝ → ℝ} {f' : ℝ} (h : HasDerivAt f f' 0) (c : ℝ) : HasDerivAt (fun t => c * (t * (0.5 * f t))) (c * (0.5 * f 0)) 0 := by
  refine (((hasDerivAt_id (0:ℝ)).fun_mul (h.const_mul 0.5)).const_mul c).congr_deriv ?_
  simp

/-- one slope. -/
theorem dq_slope {d : ℝ → Quat} {d' : Quat} (h : HasDq d d') (h0 : d 0 = ⟨0, 0, 0, 1⟩) (w : V3) :
    HasDq (fun t => Quat.smul t (Quat.smul 0.5 (omegaMul w (d t)))) ⟨0.5 * w 0, 0.5 * w 1, 0.5 * w 2, 0⟩ := by
  have hx := ((h.y.const_mul (w 2)).fun_sub (h.z.const_mul (w 1))).fun_add (h.w.const_mul (w 0))
  have hy := ((h.x.const_mul (-w 2)).fun_add (h.z.const_mul (w 0))).fun_add (h.w.const_mul (w 1))
  have hz := ((h.x.const_mul (w 1)).fun_sub (h.y.const_mul (w 0))).fun_add (h.w.const_mul (w 2))
  have hw := ((h.x.const_mul (-w 0)).fun_sub (h.y.const_mul (w 1))).fun_sub (h.z.const_mul (w 2))
  refine ⟨?_, ?_, ?_, ?_⟩
  · refine ((hd_mul_id hx 1).congr_of_eventuallyEq (Filter.Eventually.of_forall fun t => ?_)).congr_deriv ?_
    · simp only [Quat.smul, omegaMul]; ring
    · rw [h0]; ring
  · refine ((hd_mul_id hy 1).congr_of_eventuallyEq (Filter.Eventually.of_forall fun t => ?_)).congr_deriv ?_
    · simp only [Quat.smul, omegaMul]; ring
    · rw [h0]; ring
  · refine ((hd_mul_id hz 1).congr_of_eventuallyEq (Filter.Eventually.of_forall fun t => ?_)).congr_deriv ?_
    · simp only [Quat.smul, omegaMul]; ring
    · rw [h0]; ring
  · refine ((hd_mul_id hw 1).congr_of_eventuallyEq (Filter.Eventually.of_forall fun t => ?_)).congr_deriv ?_
    · simp only [Quat.smul, omegaMul]; ring
    · rw [h0]; ring

theorem dq_add {f g : ℝ → Quat} {f' g' : Quat} (hf : HasDq f f') (hg : HasDq g g') : HasDq (fun t => qadd (f t) (g t)) (qadd f' g') :=
  ⟨hf.x.fun_add hg.x, hf.y.fun_add hg.y, hf.z.fun_add hg.z, hf.w.fun_add hg.w⟩

theorem dq_smul {f : ℝ → Quat} {f' : Quat} (c : ℝ) (hf : HasDq f f') : HasDq (fun t => Quat.smul c (f t)) (Quat.smul c f') :=
  ⟨hf.x.const_mul c, hf.y.const_mul c, hf.z.const_mul c, hf.w.const_mul c⟩

theorem dq_const (q : Quat) : HasDq (fun _ => q) ⟨0, 0, 0, 0⟩ :=
  ⟨hasDerivAt_const _ _, hasDerivAt_const _ _, hasDerivAt_const _ _, hasDerivAt_const _ _⟩

theorem slope_zero (w : V3) (q : Quat) : Quat.smul 0 (Quat.smul 0.5 (omegaMul w q)) = ⟨0, 0, 0, 0⟩ := by simp [Quat.smul]

/-- the rotation matrix along a curve of unit quaternions through the identity. -/
theorem dq_rot {d : ℝ → Quat} {u : V3} (h : HasDq d ⟨0.5 * u 0, 0.5 * u 1, 0.5 * u 2, 0⟩) (h0 : d 0 = ⟨0, 0, 0, 1⟩)
    (hu : ∀ᶠ t in nhds (0:ℝ), IsUnitQ (d t)) {q : Quat} (hq : IsUnitQ q) :
    HasDm (fun t => quat2Rot (quatMul (d t) q)) (-(skew u) * quat2Rot q) ∧ quat2Rot (quatMul (d 0) q) = quat2Rot q := by
  have hm : HasDm (fun t => quat2Rot (d t)) (-(skew u)) := by
    have hww := h.w.fun_mul h.w
    have hxx := h.x.fun_mul h.x
    have hyy := h.y.fun_mul h.y
    have hzz := h.z.fun_mul h.z
    have hxy := h.x.fun_mul h.y
    have hxz := h.x.fun_mul h.z
    have hyz := h.y.fun_mul h.z
    have hwx := h.w.fun_mul h.x
    have hwy := h.w.fun_mul h.y
    have hwz := h.w.fun_mul h.z
    have e00 : HasDerivAt (fun t => quat2Rot (d t) 0 0) ((-(skew u)) 0 0) 0 := by
      refine ((comb hww hxx (2) (2) (-1)).congr_of_eventuallyEq (Filter.Eventually.of_forall fun t => ?_)).congr_deriv ?_
      · simp only [q2r00]; ring
      · rw [h0]; simp [skew] <;> ring
    have e01 : HasDerivAt (fun t => quat2Rot (d t) 0 1) ((-(skew u)) 0 1) 0 := by
      refine ((comb hwz hxy (2) (2) (0)).congr_of_eventuallyEq (Filter.Eventually.of_forall fun t => ?_)).congr_deriv ?_
      · simp only [q2r01]; ring
      · rw [h0]; simp [skew] <;> ring
    have e02 : HasDerivAt (fun t => quat2Rot (d t) 0 2) ((-(skew u)) 0 2) 0 := by
      refine ((comb hwy hxz (-2) (2) (0)).congr_of_eventuallyEq (Filter.Eventually.of_forall fun t => ?_)).congr_deriv ?_
      · simp only [q2r02]; ring
      · rw [h0]; simp [skew] <;> ring
    have e10 : HasDerivAt (fun t => quat2Rot (d t) 1 0) ((-(skew u)) 1 0) 0 := by
      refine ((comb hwz hxy (-2) (2) (0)).congr_of_eventuallyEq (Filter.Eventually.of_forall fun t => ?_)).congr_deriv ?_
      · simp only [q2r10]; ring
      · rw [h0]; simp [skew] <;> ring
    have e11 : HasDerivAt (fun t => quat2Rot (d t) 1 1) ((-(skew u)) 1 1) 0 := by
      refine ((comb hww hyy (2) (2) (-1)).congr_of_eventuallyEq (Filter.Eventually.of_forall fun t => ?_)).congr_deriv ?_
      · simp only [q2r11]; ring
      · rw [h0]; simp [skew] <;> ring
    have e12 : HasDerivAt (fun t => quat2Rot (d t) 1 2) ((-(skew u)) 1 2) 0 := by
      refine ((comb hwx hyz (2) (2) (0)).congr_of_eventuallyEq (Filter.Eventually.of_forall fun t => ?_)).congr_deriv ?_
      · simp only [q2r12]; ring
      · rw [h0]; simp [skew] <;> ring
    have e20 : HasDerivAt (fun t => quat2Rot (d t) 2 0) ((-(skew u)) 2 0) 0 := by
      refine ((comb hwy hxz (2) (2) (0)).congr_of_eventuallyEq (Filter.Eventually.of_forall fun t => ?_)).congr_deriv ?_
      · simp only [q2r20]; ring
      · rw [h0]; simp [skew] <;> ring
    have e21 : HasDerivAt (fun t => quat2Rot (d t) 2 1) ((-(skew u)) 2 1) 0 := by
      refine ((comb hwx hyz (-2) (2) (0)).congr_of_eventuallyEq (Filter.Eventually.of_forall fun t => ?_)).congr_deriv ?_
      · simp only [q2r21]; ring
      · rw [h0]; simp [skew] <;> ring
    have e22 : HasDerivAt (fun t => quat2Rot (d t) 2 2) ((-(skew u)) 2 2) 0 := by
      refine ((comb hww hzz (2) (2) (-1)).congr_of_eventuallyEq (Filter.Eventually.of_forall fun t => ?_)).congr_deriv ?_
      · simp only [q2r22]; ring
      · rw [h0]; simp [skew] <;> ring
    intro i j
    fin_cases i <;> fin_cases j
    exacts [e00, e01, e02, e10, e11, e12, e20, e21, e22]
  have hmul : ∀ t, IsUnitQ (d t) → quat2Rot (quatMul (d t) q) = quat2Rot (d t) * quat2Rot q := fun t ht => (QuatProps.C23_quat_multiply _ _ ht hq).2.2
  have hd0 : quat2Rot (⟨0, 0, 0, 1⟩ : Quat) = 1 := exCal_rot
  refine ⟨((hm.mul (HasDm.const (quat2Rot q))).congr_ev (hu.mono hmul)).congr' (by rw [Matrix.mul_zero, add_zero]), ?_⟩
  rw [hmul 0 (by rw [h0]; exact exCal_q), h0, hd0, Matrix.one_mul]

/-- a slope of the velocity or position: `t • G t`. -/
theorem dv_slope {G : ℝ → V3} {G' : V3} (h : HasDv G G') : HasDv (fun t => t • G t) (G 0) := fun i => by
  refine ((hasDerivAt_id (0:ℝ)).fun_mul (h i)).congr_deriv ?_
  simp

/-- the prediction written with the readings at the middle and the end of the interval. -/
noncomputable def rk4Mid (g : V3) (x : Imu16) (dt : ℝ) (w1 a1 wm am w2 a2 : V3) : Quat × V3 × V3 :=
  let dq0 : Quat := ⟨0, 0, 0, 1⟩
  let k1q := Quat.smul dt (Quat.smul 0.5 (omegaMul w1 dq0))
  let k1p := dt • x.v
  let k1v := dt • ((quat2Rot (quatMul dq0 x.q)).transpose.mulVec a1 - g)
  let dq1 := quatnorm (qadd dq0 (Quat.smul 0.5 k1q))
  let v1 := x.v + (0.5 : ℝ) • k1v
  let k2q := Quat.smul dt (Quat.smul 0.5 (omegaMul wm dq1))
  let k2p := dt • v1
  let k2v := dt • ((quat2Rot (quatMul dq1 x.q)).transpose.mulVec am - g)
  let dq2 := quatnorm (qadd dq0 (Quat.smul 0.5 k2q))
  let v2 := x.v + (0.5 : ℝ) • k2v
  let k3q := Quat.smul dt (Quat.smul 0.5 (omegaMul wm dq2))
  let k3p := dt • v2
  let k3v := dt • ((quat2Rot (quatMul dq2 x.q)).transpose.mulVec am - g)
  let dq3 := quatnorm (qadd dq0 k3q)
  let v3 := x.v + k3v
  let k4q := Quat.smul dt (Quat.smul 0.5 (omegaMul w2 dq3))
  let k4p := dt • v3
  let k4v := dt • ((quat2Rot (quatMul dq3 x.q)).transpose.mulVec a2 - g)
  let dq := quatnorm (qadd (qadd (qadd (qadd dq0 (Quat.smul (1 / 6) k1q)) (Quat.smul (1 / 3) k2q)) (Quat.smul (1 / 3) k3q))
    (Quat.smul (1 / 6) k4q))
  (quatMul dq x.q,
   x.v + (1 / 6 : ℝ) • k1v + (1 / 3 : ℝ) • k2v + (1 / 3 : ℝ) • k3v + (1 / 6 : ℝ) • k4v,
   x.p + (1 / 6 : ℝ) • k1p + (1 / 3 : ℝ) • k2p + (1 / 3 : ℝ) • k3p + (1 / 6 : ℝ) • k4p)

theorem rk4_mid (g : V3) (x : Imu16) (dt : ℝ) (w1 a1 w2 a2 : V3) :
    meanRk4 g x dt w1 a1 w2 a2 = rk4Mid g x dt w1 a1 ((0.5 : ℝ) • (w1 + w2)) ((0.5 : ℝ) • (a1 + a2)) w2 a2 := by
  by_cases h : dt = 0
  · subst h
    simp only [meanRk4, rk4Mid, slope_zero, zero_smul]
  · have hm : ∀ u v : V3, u + (0.5 * dt) • ((1 / dt) • (v - u)) = (0.5 : ℝ) • (u + v) := by
      intro u v
      rw [smul_smul, show 0.5 * dt * (1 / dt) = 0.5 by field_simp]
      ext i; simp only [Pi.add_apply, Pi.smul_apply, Pi.sub_apply, smul_eq_mul]; ring
    have he : ∀ u v : V3, (0.5 : ℝ) • (u + v) + (0.5 * dt) • ((1 / dt) • (v - u)) = v := by
      intro u v
      rw [smul_smul, show 0.5 * dt * (1 / dt) = 0.5 by field_simp]
      ext i; simp only [Pi.add_apply, Pi.smul_apply, Pi.sub_apply, smul_eq_mul]; ring
    simp only [meanRk4, rk4Mid, hm, he]

/-- **C94** (no rotation) When both corrected angular rates are zero the Runge-Kutta prediction is the exact motion under a specific force that
varies linearly from `a1` to `a2` over the interval: the orientation is unchanged, and velocity and position are the integrals. -/
theorem C94_exact_without_rotation (g : V3) (x : Imu16) (hq : IsUnitQ x.q) (dt : ℝ) (a1 a2 : V3) :
    let y := meanRk4 g x dt 0 a1 0 a2
    let R := quat2Rot x.q
    quat2Rot y.1 = R ∧
    y.2.1 = x.v + dt • R.transpose.mulVec ((1 / 2 : ℝ) • (a1 + a2)) - dt • g ∧
    y.2.2 = x.p + dt • x.v + dt ^ 2 • R.transpose.mulVec ((1 / 3 : ℝ) • a1 + (1 / 6 : ℝ) • a2) - (dt ^ 2 / 2) • g := by
  intro y R
  have ho : ∀ q : Quat, omegaMul 0 q = ⟨0, 0, 0, 0⟩ := by intro q; simp [omegaMul]
  have hz : ∀ c : ℝ, Quat.smul c ⟨0, 0, 0, 0⟩ = ⟨0, 0, 0, 0⟩ := by intro c; simp [Quat.smul]
  have hadd : ∀ q : Quat, qadd q ⟨0, 0, 0, 0⟩ = q := by intro q; simp [qadd]
  have hr : quat2Rot (quatMul ⟨0, 0, 0, 1⟩ x.q) = R := by
    rw [(QuatProps.C23_quat_multiply _ _ exCal_q hq).2.2, exCal_rot, Matrix.one_mul]
  have hy : y = rk4Mid g x dt 0 a1 ((0.5 : ℝ) • (0 + 0)) ((0.5 : ℝ) • (a1 + a2)) 0 a2 := rk4_mid _ _ _ _ _ _ _
  rw [add_zero, smul_zero] at hy
  simp only [rk4Mid, ho, hz, hadd, id_norm, hr] at hy
  rw [hy]
  refine ⟨hr, ?_, ?_⟩
  · simp only [Matrix.mulVec_smul, Matrix.mulVec_add]
    module
  · simp only [Matrix.mulVec_smul, Matrix.mulVec_add]
    module

/-- **C94** (rotation) For all rates and forces the Runge-Kutta prediction agrees to first order in the length of the interval with the
kinematics at the mean of the two readings: `R' = -⌊(w1 + w2)/2⌋ R`, `v' = Rᵀ (a1 + a2)/2 - g`, `p' = v`. -/
theorem C94_first_order (g : V3) (x : Imu16) (hq : IsUnitQ x.q) (w1 a1 w2 a2 : V3) :
    let y := fun dt => meanRk4 g x dt w1 a1 w2 a2
    HasDm (fun dt => quat2Rot (y dt).1) (-(skew ((1 / 2 : ℝ) • (w1 + w2))) * quat2Rot x.q) ∧ quat2Rot (y 0).1 = quat2Rot x.q ∧
    HasDv (fun dt => (y dt).2.1) ((quat2Rot x.q).transpose.mulVec ((1 / 2 : ℝ) • (a1 + a2)) - g) ∧ (y 0).2.1 = x.v ∧
    HasDv (fun dt => (y dt).2.2) x.v ∧ (y 0).2.2 = x.p := by
  intro y
  have hy : ∀ dt, y dt = rk4Mid g x dt w1 a1 ((0.5 : ℝ) • (w1 + w2)) ((0.5 : ℝ) • (a1 + a2)) w2 a2 := fun dt => rk4_mid _ _ _ _ _ _ _
  generalize hwm : (0.5 : ℝ) • (w1 + w2) = wm at hy
  generalize ham : (0.5 : ℝ) • (a1 + a2) = am at hy
  set I : Quat := ⟨0, 0, 0, 1⟩ with hI
  -- stage zero
  set k1q := fun t : ℝ => Quat.smul t (Quat.smul 0.5 (omegaMul w1 I)) with k1q_def
  have d1 : HasDq k1q ⟨0.5 * w1 0, 0.5 * w1 1, 0.5 * w1 2, 0⟩ := dq_slope (dq_const I) rfl w1
  have z1 : k1q 0 = ⟨0, 0, 0, 0⟩ := slope_zero _ _
  set k1v := fun t : ℝ => t • ((quat2Rot (quatMul I x.q)).transpose.mulVec a1 - g) with k1v_def
  have hr : quat2Rot (quatMul I x.q) = quat2Rot x.q := by
    rw [(QuatProps.C23_quat_multiply _ _ exCal_q hq).2.2, exCal_rot, Matrix.one_mul]
  have dv1 : HasDv k1v ((quat2Rot x.q).transpose.mulVec a1 - g) := by
    have := dv_slope (HasDv.const ((quat2Rot (quatMul I x.q)).transpose.mulVec a1 - g))
    rw [hr] at this
    exact this.congr_fun fun e => by simp only [k1v_def, hr]
  -- the next stages
  have stage : ∀ (k : ℝ → Quat) (u : V3) (c : ℝ), HasDq k ⟨0.5 * u 0, 0.5 * u 1, 0.5 * u 2, 0⟩ → k 0 = ⟨0, 0, 0, 0⟩ →
      ∃ u' : V3, HasDq (fun t => quatnorm (qadd I (Quat.smul c (k t)))) ⟨0.5 * u' 0, 0.5 * u' 1, 0.5 * u' 2, 0⟩ ∧
        quatnorm (qadd I (Quat.smul c (k 0))) = I ∧ ∀ᶠ t in nhds (0:ℝ), IsUnitQ (quatnorm (qadd I (Quat.smul c (k t)))) := by
    intro k u c hk h0
    have e0 : qadd I (Quat.smul c (k 0)) = I := by rw [h0]; simp [qadd, Quat.smul]
    obtain ⟨n1, n2, n3⟩ := dq_norm (dq_add (dq_const I) (dq_smul c hk)) e0
    refine ⟨c • u, ?_, n2, n3⟩
    convert n1 using 2 <;> simp [qadd, Quat.smul] <;> ring
  have vel : ∀ (d : ℝ → Quat) (u a : V3), HasDq d ⟨0.5 * u 0, 0.5 * u 1, 0.5 * u 2, 0⟩ → d 0 = I → (∀ᶠ t in nhds (0:ℝ), IsUnitQ (d t)) →
      HasDv (fun t => t • ((quat2Rot (quatMul (d t) x.q)).transpose.mulVec a - g)) ((quat2Rot x.q).transpose.mulVec a - g) := by
    intro d u a hd h0 hu
    obtain ⟨r1, r2⟩ := dq_rot hd h0 hu hq
    have := dv_slope ((r1.tr.mulVec (HasDv.const a)).sub (HasDv.const g))
    rw [r2] at this
    exact this
  have pos : ∀ (k : ℝ → V3) (k' : V3) (c : ℝ), HasDv k k' → k 0 = 0 → HasDv (fun t => t • (x.v + c • k t)) x.v := by
    intro k k' c hk h0
    have := dv_slope ((HasDv.const x.v).add (hk.smul c))
    rwa [h0, smul_zero, add_zero] at this
  obtain ⟨u1, s1, o1, i1⟩ := stage k1q w1 0.5 d1 z1
  set dq1 := fun t => quatnorm (qadd I (Quat.smul 0.5 (k1q t))) with dq1_def
  set k2q := fun t : ℝ => Quat.smul t (Quat.smul 0.5 (omegaMul wm (dq1 t))) with k2q_def
  have d2 : HasDq k2q ⟨0.5 * wm 0, 0.5 * wm 1, 0.5 * wm 2, 0⟩ := dq_slope s1 o1 wm
  have z2 : k2q 0 = ⟨0, 0, 0, 0⟩ := slope_zero _ _
  have dv2 := vel dq1 u1 am s1 o1 i1
  set k2v := fun t : ℝ => t • ((quat2Rot (quatMul (dq1 t) x.q)).transpose.mulVec am - g) with k2v_def
  obtain ⟨u2, s2, o2, i2⟩ := stage k2q wm 0.5 d2 z2
  set dq2 := fun t => quatnorm (qadd I (Quat.smul 0.5 (k2q t))) with dq2_def
  set k3q := fun t : ℝ => Quat.smul t (Quat.smul 0.5 (omegaMul wm (dq2 t))) with k3q_def
  have d3 : HasDq k3q ⟨0.5 * wm 0, 0.5 * wm 1, 0.5 * wm 2, 0⟩ := dq_slope s2 o2 wm
  have z3 : k3q 0 = ⟨0, 0, 0, 0⟩ := slope_zero _ _
  have dv3 := vel dq2 u2 am s2 o2 i2
  set k3v := fun t : ℝ => t • ((quat2Rot (quatMul (dq2 t) x.q)).transpose.mulVec am - g) with k3v_def
  obtain ⟨u3, s3, o3, i3⟩ := stage k3q wm 1 d3 z3
  have one : ∀ q : Quat, Quat.smul 1 q = q := by intro q; simp [Quat.smul]
  simp only [one] at s3 o3 i3
  set dq3 := fun t => quatnorm (qadd I (k3q t)) with dq3_def
  set k4q := fun t : ℝ => Quat.smul t (Quat.smul 0.5 (omegaMul w2 (dq3 t))) with k4q_def
  have d4 : HasDq k4q ⟨0.5 * w2 0, 0.5 * w2 1, 0.5 * w2 2, 0⟩ := dq_slope s3 o3 w2
  have z4 : k4q 0 = ⟨0, 0, 0, 0⟩ := slope_zero _ _
  have dv4 := vel dq3 u3 a2 s3 o3 i3
  set k4v := fun t : ℝ => t • ((quat2Rot (quatMul (dq3 t) x.q)).transpose.mulVec a2 - g) with k4v_def
  have hyq : ∀ t, (y t).1 = quatMul (quatnorm (qadd (qadd (qadd (qadd I (Quat.smul (1 / 6) (k1q t))) (Quat.smul (1 / 3) (k2q t))) (Quat.smul (1 / 3) (k3q t)))
    (Quat.smul (1 / 6) (k4q t)))) x.q := fun t => by rw [hy]; rfl
  have hyv : ∀ t, (y t).2.1 = x.v + (1 / 6 : ℝ) • k1v t + (1 / 3 : ℝ) • k2v t + (1 / 3 : ℝ) • k3v t + (1 / 6 : ℝ) • k4v t := fun t => by rw [hy]; rfl
  have hyp : ∀ t, (y t).2.2 = x.p + (1 / 6 : ℝ) • (t • x.v) + (1 / 3 : ℝ) • (t • (x.v + (0.5 : ℝ) • k1v t)) + (1 / 3 : ℝ) • (t • (x.v + (0.5 : ℝ) • k2v t)) +
    (1 / 6 : ℝ) • (t • (x.v + k3v t)) := fun t => by rw [hy]; rfl
  have v10 : k1v 0 = 0 := zero_smul _ _
  have v20 : k2v 0 = 0 := zero_smul _ _
  have v30 : k3v 0 = 0 := zero_smul _ _
  have v40 : k4v 0 = 0 := zero_smul _ _
  have e0 : qadd (qadd (qadd (qadd I (Quat.smul (1 / 6) (k1q 0))) (Quat.smul (1 / 3) (k2q 0))) (Quat.smul (1 / 3) (k3q 0))) (Quat.smul (1 / 6) (k4q 0)) = I := by
    rw [z1, z2, z3, z4]; simp [qadd, Quat.smul]
  obtain ⟨n1, n2, n3⟩ := dq_norm (dq_add (dq_add (dq_add (dq_add (dq_const I) (dq_smul (1 / 6) d1)) (dq_smul (1 / 3) d2)) (dq_smul (1 / 3) d3)) (dq_smul (1 / 6) d4)) e0
  have n1' : HasDq (fun t => quatnorm (qadd (qadd (qadd (qadd I (Quat.smul (1 / 6) (k1q t))) (Quat.smul (1 / 3) (k2q t))) (Quat.smul (1 / 3) (k3q t)))
      (Quat.smul (1 / 6) (k4q t)))) ⟨0.5 * wm 0, 0.5 * wm 1, 0.5 * wm 2, 0⟩ := by
    convert n1 using 2 <;> simp only [qadd, Quat.smul, ← hwm, Pi.smul_apply, Pi.add_apply, smul_eq_mul] <;> ring
  obtain ⟨r1, r2⟩ := dq_rot n1' n2 n3 hq
  have hwm' : (1 / 2 : ℝ) • (w1 + w2) = wm := by rw [← hwm]; norm_num
  have ham' : (1 / 2 : ℝ) • (a1 + a2) = am := by rw [← ham]; norm_num
  refine ⟨?_, ?_, ?_, ?_, ?_, ?_⟩
  · rw [hwm']; exact r1.congr_fun fun t => by rw [hyq]
  · rw [hyq]; exact r2
  · refine (((((HasDv.const x.v).add (dv1.smul (1 / 6))).add (dv2.smul (1 / 3))).add (dv3.smul (1 / 3))).add (dv4.smul (1 / 6))).congr_fun (fun t => by rw [hyv]) |>.congr' ?_
    rw [ham', ← ham]
    simp only [Matrix.mulVec_smul, Matrix.mulVec_add]
    module
  · rw [hyv, v10, v20, v30, v40]; simp
  · have p1 := pos k1v _ 0.5 dv1 v10
    have p2 := pos k2v _ 0.5 dv2 v20
    have p3 := pos k3v _ 1 dv3 v30
    have p0 := dv_slope (HasDv.const x.v)
    refine (((((HasDv.const x.p).add (p0.smul (1 / 6))).add (p1.smul (1 / 3))).add (p2.smul (1 / 3))).add (p3.smul (1 / 6))).congr_fun
      (fun t => by rw [hyp, one_smul]) |>.congr' ?_
    module
  · rw [hyp]; simp

/-- non-vacuity: any unit orientation, here with readings of different rate and force. -/
example : IsUnitQ exX.q ∧ (![0, 0, 2] : V3) ≠ 0 := ⟨exCal_q, fun h => by have := congrFun h 2; simp at this⟩

end Verif.Prop_
