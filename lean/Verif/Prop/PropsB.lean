import Verif.Prop.Props
import Verif.Prop.Ode
import Mathlib.Tactic.IntervalCases

/-!
# C39, C75, C77: the mean prediction solves the kinematics, the orientation stays a unit quaternion, and the transition matrices keep the
four unobservable directions
-/

set_option linter.unusedSimpArgs false
set_option linter.unusedVariables false

open Classical

namespace Verif.Prop_

open Verif Verif.Types Verif.St Verif.Imu Matrix Finset

/-! ## C39 -/

/-- **C39** For every solution `(R, v, p)` of the IMU kinematics with constant corrected angular velocity `w` and specific force `a` that
starts at the current estimate, the analytic prediction over `dt` is the solution at `dt`. (Rates of at least half a degree per second,
the branch of `compute_Xi_sum` with the closed-form integrals, and rotation angles of at least `1e-7`.) -/
theorem C39_analytic_solves_kinematics_partial (g : V3) (x : Imu16) (hq : IsUnitQ x.q) (dt : ℝ) (hdt : 0 < dt) (w a : V3)
    (hn : ¬ norm3 w < 1 / 180 * Real.pi / 2) (hwt : 1e-7 ≤ dt * norm3 w)
    (R : ℝ → M3) (v p : ℝ → V3) (hsol : Spec.Kinematics w a g dt R v p)
    (hR0 : R 0 = quat2Rot x.q) (hv0 : v 0 = x.v) (hp0 : p 0 = x.p) :
    quat2Rot (meanAnalytic g x dt a (xiSum dt w a)).1 = R dt ∧
    (meanAnalytic g x dt a (xiSum dt w a)).2.1 = v dt ∧
    (meanAnalytic g x dt a (xiSum dt w a)).2.2 = p dt := by
  have h3 := xi_pos hn
  have hp : norm3 w ≠ 0 := by intro h; rw [h] at h3; norm_num at h3
  obtain ⟨e1, e2, e3⟩ := kin_unique hp (norm3_sq' w) hsol dt ⟨hdt.le, le_rfl⟩
  refine ⟨?_, ?_, ?_⟩
  · rw [e1, hR0, ← kE_exp hdt hwt hp]
    exact analytic_rot hdt hwt hq _
  · rw [e2, hR0, hv0]
    simp only [meanAnalytic, ← Matrix.mulVec_mulVec, k1_xi hn]
  · rw [e3, hR0, hv0, hp0]
    simp only [meanAnalytic, ← Matrix.mulVec_mulVec, k2_xi hn]
    rw [show (0.5 * dt * dt : ℝ) = dt ^ 2 / 2 by norm_num; ring]

/-- the kinematics have a solution for every start, rate and force, so the hypothesis above is met. -/
theorem C39_solution_exists (g : V3) (x : Imu16) (dt : ℝ) (w a : V3) (hn : norm3 w ≠ 0) :
    ∃ R v p, Spec.Kinematics w a g dt R v p ∧ R 0 = quat2Rot x.q ∧ v 0 = x.v ∧ p 0 = x.p := by
  refine ⟨_, _, _, kin_exists hn (norm3_sq' w) a g dt (quat2Rot x.q) x.v x.p, ?_, ?_, ?_⟩
  · rw [kE_eq]; simp
  · simp [k1]
  · simp [k2]

theorem trig_gap {t : ℝ} (h0 : 0 < t) (h1 : t ≤ 1) : 1 - Real.cos t < t * Real.sin t := by
  have hs := Real.sin_gt_sub_cube h0
  have hc := Real.one_sub_sq_div_two_le_cos (x := t)
  have : t * (t - t ^ 3 / 6) < t * Real.sin t := mul_lt_mul_of_pos_left hs h0
  have ht4 : t ^ 4 ≤ t ^ 2 := by
    have : t ^ 2 ≤ 1 := by nlinarith
    nlinarith [sq_nonneg t]
  nlinarith [pow_pos h0 2]

/-- **C39** (what is missing, and false of the code) For rates below half a degree per second the velocity predicted by the analytic
integration is NOT the solution of the kinematics, as soon as the force is not parallel to the rotation axis: the first-order term of
`Xi_1` in that branch, `dt * sin(dt |w|)`, is twice the exact `(1 - cos(dt |w|)) / |w|` to leading order. -/
theorem C39_small_rate_not_solution (g : V3) (x : Imu16) (hq : IsUnitQ x.q) (dt : ℝ) (hdt : 0 < dt) (w a : V3)
    (hn : norm3 w < 1 / 180 * Real.pi / 2) (hn0 : 1e-12 < norm3 w) (hwt : norm3 w * dt ≤ 1) (hwa : (skew w).mulVec a ≠ 0)
    (R : ℝ → M3) (v p : ℝ → V3) (hsol : Spec.Kinematics w a g dt R v p)
    (hR0 : R 0 = quat2Rot x.q) (hv0 : v 0 = x.v) :
    (meanAnalytic g x dt a (xiSum dt w a)).2.1 ≠ v dt := by
  have hp : 0 < norm3 w := lt_trans (by norm_num) hn0
  obtain ⟨-, e2, -⟩ := kin_unique hp.ne' (norm3_sq' w) hsol dt ⟨hdt.le, le_rfl⟩
  intro h
  rw [e2, hR0, hv0] at h
  simp only [meanAnalytic, ← Matrix.mulVec_mulVec] at h
  have hR := quat2Rot_isRot hq
  have h2 : (xiSum dt w a).x1.mulVec a = (k1 (norm3 w) w dt).mulVec a := by
    have : (quat2Rot x.q).transpose.mulVec ((xiSum dt w a).x1.mulVec a) = (quat2Rot x.q).transpose.mulVec ((k1 (norm3 w) w dt).mulVec a) := by
      have := h
      simpa using this
    have := congrArg (fun u => (quat2Rot x.q).mulVec u) this
    simpa [Matrix.mulVec_mulVec, ← Matrix.mul_assoc, hR.orth'] using this
  have hx : (xiSum dt w a).x1 = dt • (1 : M3) + (dt * Real.sin (norm3 w * dt) / norm3 w) • skew w +
      (dt * (1 - Real.cos (norm3 w * dt)) / norm3 w ^ 2) • (skew w * skew w) := by
    unfold xiSum
    simp only [hn, not_true_eq_false, if_false, hn0, gt_iff_lt, if_true, skew_smul, Matrix.smul_mul, Matrix.mul_smul, smul_add, smul_smul]
    congr 1
    · congr 2
      field_simp
    · congr 1
      field_simp
  rw [hx] at h2
  simp only [k1, Matrix.add_mulVec, Matrix.smul_mulVec, Matrix.one_mulVec, ← Matrix.mulVec_mulVec] at h2
  set u := (skew w).mulVec a with hu
  set z := (skew w).mulVec u with hz
  -- take the inner product with u
  have hua : dot3 a u = 0 := by
    simp only [hu, dot3, m3_mulVec_apply, skew00, skew01, skew02, skew10, skew11, skew12, skew20, skew21, skew22]; ring
  have huz : dot3 z u = 0 := by
    simp only [hz, dot3, m3_mulVec_apply, skew00, skew01, skew02, skew10, skew11, skew12, skew20, skew21, skew22]; ring
  have h3 := congrArg (fun y => dot3 y u) h2
  simp only [dot3, Pi.add_apply, Pi.smul_apply, smul_eq_mul] at h3 hua huz
  have huu : 0 < dot3 u u := by
    rcases lt_or_eq_of_le (dot3_self_nonneg u) with h | h
    · exact h
    · exfalso
      apply hwa
      rw [← norm3_eq_zero, norm3, ← h, Real.sqrt_zero]
  simp only [dot3] at huu
  have h4 : dt * Real.sin (norm3 w * dt) / norm3 w = (1 - Real.cos (norm3 w * dt)) / norm3 w ^ 2 := by
    have : (dt * Real.sin (norm3 w * dt) / norm3 w - (1 - Real.cos (norm3 w * dt)) / norm3 w ^ 2) * (u 0 * u 0 + u 1 * u 1 + u 2 * u 2) = 0 := by
      linear_combination h3 - (dt * (1 - Real.cos (norm3 w * dt)) / norm3 w ^ 2 - (dt / norm3 w ^ 2 - Real.sin (norm3 w * dt) / norm3 w ^ 3)) * huz
    rcases mul_eq_zero.1 this with h | h
    · linarith
    · exact absurd h huu.ne'
  have h5 := trig_gap (mul_pos hp hdt) hwt
  have h6 : 1 - Real.cos (norm3 w * dt) = norm3 w * dt * Real.sin (norm3 w * dt) := by
    field_simp at h4
    rw [mul_comm dt (norm3 w)] at h4
    linarith
  linarith

/-- the hypotheses of the negative result are met: a slow rotation about z with a force along x. -/
example : norm3 ![0, 0, (1e-3 : ℝ)] < 1 / 180 * Real.pi / 2 ∧ 1e-12 < norm3 ![0, 0, (1e-3 : ℝ)] ∧ norm3 ![0, 0, (1e-3 : ℝ)] * 1 ≤ 1 ∧
    (skew ![0, 0, (1e-3 : ℝ)]).mulVec ![1, 0, 0] ≠ 0 := by
  have : norm3 ![0, 0, (1e-3 : ℝ)] = 1e-3 := by
    have : dot3 ![0, 0, (1e-3 : ℝ)] ![0, 0, (1e-3 : ℝ)] = 1e-3 * 1e-3 := by simp [dot3, vec2]
    rw [norm3, this, Real.sqrt_mul_self (by norm_num)]
  rw [this]
  have := Real.pi_gt_three
  refine ⟨by norm_num; linarith, by norm_num, by norm_num, fun h => ?_⟩
  have := congrFun h 1
  rw [m3_mulVec_apply, skew10, skew11, skew12, vec2] at this
  norm_num at this

/-- and those of the positive one: two radians per second for a second. -/
example : ¬ norm3 ![0, 0, (2 : ℝ)] < 1 / 180 * Real.pi / 2 ∧ 1e-7 ≤ (1 : ℝ) * norm3 ![0, 0, (2 : ℝ)] ∧ norm3 ![0, 0, (2 : ℝ)] ≠ 0 := by
  rw [ex_norm]
  have := Real.pi_lt_d2
  refine ⟨by norm_num at this ⊢; linarith, by norm_num, by norm_num⟩

/-! ## C77 -/

theorem normSq_pos_of {a b c d : ℝ} (h : a ≠ 0 ∨ b ≠ 0 ∨ c ≠ 0 ∨ d ≠ 0) : a ^ 2 + b ^ 2 + c ^ 2 + d ^ 2 ≠ 0 := by
  rcases h with h | h | h | h <;> positivity

theorem normSq_rot2quatRaw {M : M3} (h : -3 < tr3 M) : (rot2quatRaw M).normSq ≠ 0 := by
  have hT0 : tr3 M = M 0 0 + M 1 1 + M 2 2 := rfl
  unfold rot2quatRaw
  simp only []
  generalize tr3 M = T at hT0 h ⊢
  by_cases h1 : M 0 0 ≥ T ∧ M 0 0 ≥ M 1 1 ∧ M 0 0 ≥ M 2 2
  · rw [if_pos h1]
    have : Real.sqrt ((1 + 2 * M 0 0 - T) / 4) ≠ 0 := (Real.sqrt_pos.2 (by linarith [h1.1, h1.2.1, h1.2.2])).ne'
    exact normSq_pos_of (.inl this)
  rw [if_neg h1]
  by_cases h2 : M 1 1 ≥ T ∧ M 1 1 ≥ M 0 0 ∧ M 1 1 ≥ M 2 2
  · rw [if_pos h2]
    have : Real.sqrt ((1 + 2 * M 1 1 - T) / 4) ≠ 0 := (Real.sqrt_pos.2 (by linarith [h2.1, h2.2.1, h2.2.2])).ne'
    exact normSq_pos_of (.inr (.inl this))
  rw [if_neg h2]
  by_cases h3 : M 2 2 ≥ T ∧ M 2 2 ≥ M 0 0 ∧ M 2 2 ≥ M 1 1
  · rw [if_pos h3]
    have : Real.sqrt ((1 + 2 * M 2 2 - T) / 4) ≠ 0 := (Real.sqrt_pos.2 (by linarith [h3.1, h3.2.1, h3.2.2])).ne'
    exact normSq_pos_of (.inr (.inr (.inl this)))
  rw [if_neg h3]
  have hT : 0 < T := by
    by_contra hneg
    push Not at hneg
    rcases le_total (M 0 0) (M 1 1) with a | a <;> rcases le_total (M 0 0) (M 2 2) with b | b <;>
      rcases le_total (M 1 1) (M 2 2) with c | c
    all_goals
      first
      | (apply h1; refine ⟨?_, ?_, ?_⟩ <;> linarith)
      | (apply h2; refine ⟨?_, ?_, ?_⟩ <;> linarith)
      | (apply h3; refine ⟨?_, ?_, ?_⟩ <;> linarith)
  have : Real.sqrt ((1 + T) / 4) ≠ 0 := (Real.sqrt_pos.2 (by linarith)).ne'
  exact normSq_pos_of (.inr (.inr (.inr this)))

theorem tr_exp (w : V3) : -3 < tr3 (expSO3 w) := by
  rcases le_or_gt (1e-7) (norm3 w) with h | h
  · rw [tr_expSO3 h]; linarith [Real.neg_one_le_cos (norm3 w)]
  · rcases eq_or_ne (norm3 w) 0 with h0 | h0
    · have : expSO3 w = 1 := by unfold expSO3; simp [h0]
      rw [this]; norm_num [tr3]
    · rw [expSO3_eq h0, tr_rodr, ← norm3_sq' w, expB, if_pos h]
      have := norm3_nonneg w
      nlinarith

theorem unit_rot2quat_exp (w : V3) : IsUnitQ (rot2quat (expSO3 w)) := by
  rw [rot2quat_eq_quatnorm]; exact (canon_quatnorm (normSq_rot2quatRaw (tr_exp w))).1

theorem unit_quatMul {q p : Quat} (hq : IsUnitQ q) (hp : IsUnitQ p) : CanonQ (quatMul q p) := by
  rw [quatMul_eq_quatnorm]; exact canon_quatnorm (normSq_of_unit (unit_mulRaw hq hp))

theorem discrete_unit (g : V3) (x : Imu16) (hq : IsUnitQ x.q) (dt : ℝ) (w a : V3) : CanonQ (meanDiscrete g x dt w a).1 := by
  simp only [meanDiscrete]
  apply canon_quatnorm
  have hx := normSq_of_unit hq
  split_ifs with hn
  · have hpos : 0 < norm3 w := lt_trans (by norm_num) hn
    have e : qadd (Quat.smul (Real.cos (0.5 * norm3 w * dt)) x.q) (Quat.smul (1 / norm3 w * Real.sin (0.5 * norm3 w * dt)) (omegaMul w x.q)) =
        quatMulRaw ⟨1 / norm3 w * Real.sin (0.5 * norm3 w * dt) * w 0, 1 / norm3 w * Real.sin (0.5 * norm3 w * dt) * w 1,
          1 / norm3 w * Real.sin (0.5 * norm3 w * dt) * w 2, Real.cos (0.5 * norm3 w * dt)⟩ x.q := by
      rw [omegaMul_eq]
      simp only [qadd, Quat.smul, quatMulRaw, Quat.mk.injEq]
      refine ⟨?_, ?_, ?_, ?_⟩ <;> ring
    rw [e, normSq_mulRaw]
    refine mul_ne_zero ?_ hx
    have hs := Real.sin_sq_add_cos_sq (0.5 * norm3 w * dt)
    have hw := norm3_sq' w
    simp only [Quat.normSq]
    have : (1 / norm3 w * Real.sin (0.5 * norm3 w * dt) * w 0) ^ 2 + (1 / norm3 w * Real.sin (0.5 * norm3 w * dt) * w 1) ^ 2 +
        (1 / norm3 w * Real.sin (0.5 * norm3 w * dt) * w 2) ^ 2 = Real.sin (0.5 * norm3 w * dt) ^ 2 * ((w 0 * w 0 + w 1 * w 1 + w 2 * w 2) / (norm3 w * norm3 w)) := by
      field_simp
    rw [this, ← hw, div_self (by positivity)]
    linarith
  · have e : qadd x.q (Quat.smul (0.5 * dt) (omegaMul w x.q)) = quatMulRaw ⟨0.5 * dt * w 0, 0.5 * dt * w 1, 0.5 * dt * w 2, 1⟩ x.q := by
      rw [omegaMul_eq]
      simp only [qadd, Quat.smul, quatMulRaw, Quat.mk.injEq]
      refine ⟨?_, ?_, ?_, ?_⟩ <;> ring
    rw [e, normSq_mulRaw]
    refine mul_ne_zero ?_ hx
    simp only [Quat.normSq]
    positivity

theorem omega_w_le (w : V3) {q : Quat} (hq : IsUnitQ q) : |(omegaMul w q).w| ≤ norm3 w := by
  refine abs_le_of_sq_le_sq ?_ (norm3_nonneg w)
  have hw := norm3_sq' w
  simp only [IsUnitQ] at hq
  have e : (omegaMul w q).w = -(w 0 * q.x + w 1 * q.y + w 2 * q.z) := by simp only [omegaMul]; ring
  rw [e, sq (norm3 w), hw]
  nlinarith [sq_nonneg (w 0 * q.y - w 1 * q.x), sq_nonneg (w 0 * q.z - w 2 * q.x), sq_nonneg (w 1 * q.z - w 2 * q.y), sq_nonneg (w 0 * q.w),
    sq_nonneg (w 1 * q.w), sq_nonneg (w 2 * q.w)]

theorem unit_of_w {q : Quat} (h : q.w ≠ 0) : IsUnitQ (quatnorm q) := by
  refine (canon_quatnorm ?_).1
  simp only [Quat.normSq]; positivity

theorem norm3_le_of_avg {a b : V3} {M : ℝ} (ha : norm3 a ≤ M) (hb : norm3 b ≤ M) : norm3 (a + (0.5 : ℝ) • (b - a)) ≤ M := by
  have hM := (norm3_nonneg a).trans ha
  have h1 := norm3_sq' a
  have h2 := norm3_sq' b
  have h3 : a 0 * a 0 + a 1 * a 1 + a 2 * a 2 ≤ M * M := by rw [← h1]; exact mul_self_le_mul_self (norm3_nonneg a) ha
  have h4 : b 0 * b 0 + b 1 * b 1 + b 2 * b 2 ≤ M * M := by rw [← h2]; exact mul_self_le_mul_self (norm3_nonneg b) hb
  rw [norm3, Real.sqrt_le_left hM]
  simp only [dot3, Pi.add_apply, Pi.smul_apply, Pi.sub_apply, smul_eq_mul]
  nlinarith [sq_nonneg (a 0 - b 0), sq_nonneg (a 1 - b 1), sq_nonneg (a 2 - b 2)]

theorem rk4_unit (g : V3) (x : Imu16) (hq : IsUnitQ x.q) (dt : ℝ) (hdt : 0 < dt) (w1 a1 w2 a2 : V3)
    (h1 : dt * norm3 w1 < 2) (h2 : dt * norm3 w2 < 2) : CanonQ (meanRk4 g x dt w1 a1 w2 a2).1 := by
  set M := max (norm3 w1) (norm3 w2) with hM
  have hM2 : dt * M < 2 := by
    rcases max_choice (norm3 w1) (norm3 w2) with h | h <;> rw [hM, h] <;> assumption
  have hm : w1 + (0.5 * dt) • ((1 / dt) • (w2 - w1)) = w1 + (0.5 : ℝ) • (w2 - w1) := by
    rw [smul_smul]; congr 2; field_simp
  have he : w1 + (0.5 * dt) • ((1 / dt) • (w2 - w1)) + (0.5 * dt) • ((1 / dt) • (w2 - w1)) = w2 := by
    rw [hm, smul_smul, show 0.5 * dt * (1 / dt) = 0.5 by field_simp]
    ext i; simp; ring
  have b1 : norm3 w1 ≤ M := le_max_left _ _
  have b2 : norm3 w2 ≤ M := le_max_right _ _
  have bm := norm3_le_of_avg b1 b2
  have hb : ∀ (w : V3) (q : Quat), IsUnitQ q → norm3 w ≤ M → |dt * (0.5 * (omegaMul w q).w)| < 1 := by
    intro w q hq hw
    rw [abs_mul, abs_mul, abs_of_pos hdt, abs_of_pos (by norm_num : (0:ℝ) < 0.5)]
    have := (omega_w_le w hq).trans hw
    nlinarith
  have u0 : IsUnitQ ⟨0, 0, 0, 1⟩ := by norm_num [IsUnitQ]
  simp only [meanRk4, hm]
  rw [show w1 + (0.5 : ℝ) • (w2 - w1) + (0.5 * dt) • ((1 / dt) • (w2 - w1)) = w2 by rw [← hm]; exact he]
  have k1 := hb w1 _ u0 b1
  generalize hk1 : omegaMul w1 (⟨0, 0, 0, 1⟩ : Quat) = K1 at *
  have u1 : IsUnitQ (quatnorm (qadd ⟨0, 0, 0, 1⟩ (Quat.smul 0.5 (Quat.smul dt (Quat.smul 0.5 K1))))) := by
    apply unit_of_w
    simp only [qadd, Quat.smul]
    have := abs_lt.1 k1
    nlinarith
  generalize quatnorm (qadd ⟨0, 0, 0, 1⟩ (Quat.smul 0.5 (Quat.smul dt (Quat.smul 0.5 K1)))) = d1 at *
  have k2 := hb _ _ u1 bm
  generalize hk2 : omegaMul (w1 + (0.5 : ℝ) • (w2 - w1)) d1 = K2 at *
  have u2 : IsUnitQ (quatnorm (qadd ⟨0, 0, 0, 1⟩ (Quat.smul 0.5 (Quat.smul dt (Quat.smul 0.5 K2))))) := by
    apply unit_of_w
    simp only [qadd, Quat.smul]
    have := abs_lt.1 k2
    nlinarith
  generalize quatnorm (qadd ⟨0, 0, 0, 1⟩ (Quat.smul 0.5 (Quat.smul dt (Quat.smul 0.5 K2)))) = d2 at *
  have k3 := hb _ _ u2 bm
  generalize hk3 : omegaMul (w1 + (0.5 : ℝ) • (w2 - w1)) d2 = K3 at *
  have u3 : IsUnitQ (quatnorm (qadd ⟨0, 0, 0, 1⟩ (Quat.smul dt (Quat.smul 0.5 K3)))) := by
    apply unit_of_w
    simp only [qadd, Quat.smul]
    have := abs_lt.1 k3
    nlinarith
  generalize quatnorm (qadd ⟨0, 0, 0, 1⟩ (Quat.smul dt (Quat.smul 0.5 K3))) = d3 at *
  have k4 := hb _ _ u3 b2
  generalize hk4 : omegaMul w2 d3 = K4 at *
  apply unit_quatMul _ hq
  apply unit_of_w
  simp only [qadd, Quat.smul]
  have := abs_lt.1 k1
  have := abs_lt.1 k2
  have := abs_lt.1 k3
  have := abs_lt.1 k4
  nlinarith

/-- the rotation over the interval is not absurdly large, for the Runge-Kutta method only (less than two radians). -/
def Spec.RateOK (m : Method) (dt : ℝ) (k : Corr) : Prop := m = .rk4 → 0 < dt ∧ dt * norm3 k.w1 < 2 ∧ dt * norm3 k.w2 < 2

theorem mean_unit (m : Method) (N : Noise) (x : Imu16) (hq : IsUnitQ x.q) (dt : ℝ) (k : Corr) (hr : Spec.RateOK m dt k) :
    CanonQ (predictMean m N x dt k).1 := by
  cases m with
  | analytical => exact unit_quatMul (by rw [xiR]; exact unit_rot2quat_exp _) hq
  | discrete => exact discrete_unit _ _ hq _ _ _
  | rk4 => exact rk4_unit _ _ hq _ (hr rfl).1 _ _ _ _ (hr rfl).2.1 (hr rfl).2.2

/-- **C77** Every prediction step, with any of the three integration methods and any readings, returns a unit orientation quaternion with
non-negative scalar part, and leaves both biases unchanged. -/
theorem C77_prediction_keeps_unit (o : Opts) (po : POpts) (N : Noise) (c : Cal) (x xf : Imu16) (hq : IsUnitQ x.q) (d0 d1 : Reading)
    (hr : Spec.RateOK po.method (d1.t - d0.t) (correct o.kalibr c x.bg x.ba d0 d1)) :
    CanonQ (predictAndCompute o po N c x xf d0 d1).1.q ∧
    (predictAndCompute o po N c x xf d0 d1).1.bg = x.bg ∧ (predictAndCompute o po N c x xf d0 d1).1.ba = x.ba :=
  ⟨mean_unit _ _ _ hq _ _ hr, rfl, rfl⟩

/-- every consecutive pair of readings satisfies `RateOK` under the biases `bg`, `ba`. -/
def Spec.RatesOK (o : Opts) (m : Method) (c : Cal) (bg ba : V3) : List Reading → Prop
  | d0 :: d1 :: rest => Spec.RateOK m (d1.t - d0.t) (correct o.kalibr c bg ba d0 d1) ∧ Spec.RatesOK o m c bg ba (d1 :: rest)
  | _ => True

theorem ratesOK_of_ne {o : Opts} {m : Method} (h : m ≠ .rk4) (c : Cal) (bg ba : V3) : ∀ l, Spec.RatesOK o m c bg ba l
  | [] => trivial
  | [_] => trivial
  | d0 :: d1 :: rest => ⟨fun h' => absurd h' h, ratesOK_of_ne h c bg ba (d1 :: rest)⟩

/-- **C77** … and so does the propagation over any number of readings, as done by `propagate_and_clone`. -/
theorem C77_propagation_keeps_unit (o : Opts) (po : POpts) (N : Noise) (c : Cal) (data : List Reading) (x xf : Imu16) (hq : IsUnitQ x.q)
    (hr : Spec.RatesOK o po.method c x.bg x.ba data) :
    IsUnitQ (propLoop o po N c data x xf []).1.q ∧
    (propLoop o po N c data x xf []).1.bg = x.bg ∧ (propLoop o po N c data x xf []).1.ba = x.ba := by
  have key : ∀ (l : List Reading) (x xf : Imu16) (acc : List (Mat × Mat)), IsUnitQ x.q → Spec.RatesOK o po.method c x.bg x.ba l →
      IsUnitQ (propLoop o po N c l x xf acc).1.q ∧ (propLoop o po N c l x xf acc).1.bg = x.bg ∧ (propLoop o po N c l x xf acc).1.ba = x.ba := by
    intro l
    induction l with
    | nil => intro x xf acc h _; exact ⟨h, rfl, rfl⟩
    | cons d0 l ih =>
      cases l with
      | nil => intro x xf acc h _; exact ⟨h, rfl, rfl⟩
      | cons d1 rest =>
        intro x xf acc h hr
        obtain ⟨h1, h2, h3⟩ := C77_prediction_keeps_unit o po N c x xf h d0 d1 hr.1
        rw [propLoop]
        obtain ⟨k1, k2, k3⟩ := ih _ (predictAndCompute o po N c x xf d0 d1).1 (acc ++ [(predictAndCompute o po N c x xf d0 d1).2]) h1.1
          (by rw [h2, h3]; exact hr.2)
        exact ⟨k1, k2.trans h2, k3.trans h3⟩
  exact key data x xf [] hq hr

/-- the hypotheses are met with the Runge-Kutta method by a reading of two radians per second over half a second. -/
example : Spec.RateOK .rk4 ((exR 0.5).t - (exR 0).t) (correct true exCal 0 0 (exR 0) (exR 0.5)) := by
  intro _
  have h1 : (correct true exCal 0 0 (exR 0) (exR 0.5)).w1 = ![0, 0, 2] := by
    simp only [correct, exCal_dw, exCal_da, exCal_tg]
    rw [show exCal.qa = ⟨0, 0, 0, 1⟩ from rfl, show exCal.qw = ⟨0, 0, 0, 1⟩ from rfl, exCal_rot]
    rw [Matrix.one_mul, Matrix.one_mul, Matrix.smul_mulVec, Matrix.one_mulVec, Matrix.one_mulVec, Matrix.one_mulVec]
    ext i; fin_cases i <;> simp [exR] <;> norm_num
  have h2 : (correct true exCal 0 0 (exR 0) (exR 0.5)).w2 = ![0, 0, 2] := by
    simp only [correct, exCal_dw, exCal_da, exCal_tg]
    rw [show exCal.qa = ⟨0, 0, 0, 1⟩ from rfl, show exCal.qw = ⟨0, 0, 0, 1⟩ from rfl, exCal_rot]
    rw [Matrix.one_mul, Matrix.one_mul, Matrix.smul_mulVec, Matrix.one_mulVec, Matrix.one_mulVec, Matrix.one_mulVec]
    ext i; fin_cases i <;> simp [exR] <;> norm_num
  rw [h1, h2, ex_norm]
  norm_num [exR]

/-! ## C75 -/

namespace Spec

/-- the error-state direction of a rotation of the global frame about the gravity axis `z`, at the pose `(R, p)` with velocity `v`. -/
def yawDir (R : M3) (p v : V3) : ℕ → ℝ :=
  Mat.extV (fun i : Fin 9 =>
    if i.1 < 3 then (R.mulVec ![0, 0, 1]) (Fin.ofNat 3 i.1)
    else if i.1 < 6 then (-(skew p).mulVec ![0, 0, 1]) (Fin.ofNat 3 (i.1 - 3))
    else (-(skew v).mulVec ![0, 0, 1]) (Fin.ofNat 3 (i.1 - 6)))

/-- the error-state direction of a translation of the global frame by `e`. -/
def transDir (e : V3) : ℕ → ℝ := Mat.extV (fun i : Fin 6 => if i.1 < 3 then 0 else e (Fin.ofNat 3 (i.1 - 3)))

end Spec

theorem yaw_slots (R : M3) (p v : V3) : sl (Spec.yawDir R p v) 0 = R.mulVec ![0, 0, 1] ∧ sl (Spec.yawDir R p v) 3 = -(skew p).mulVec ![0, 0, 1] ∧
    sl (Spec.yawDir R p v) 6 = -(skew v).mulVec ![0, 0, 1] ∧ ∀ i, 9 ≤ i → Spec.yawDir R p v i = 0 := by
  refine ⟨?_, ?_, ?_, ?_⟩
  · ext i; fin_cases i <;> simp [sl, Spec.yawDir, Mat.extV] <;> rfl
  · ext i; fin_cases i <;> simp [sl, Spec.yawDir, Mat.extV] <;> rfl
  · ext i; fin_cases i <;> simp [sl, Spec.yawDir, Mat.extV] <;> rfl
  · intro i hi; simp [Spec.yawDir, Mat.extV, not_lt.2 hi]

theorem trans_slots (e : V3) : sl (Spec.transDir e) 0 = 0 ∧ sl (Spec.transDir e) 3 = e ∧ ∀ i, 6 ≤ i → Spec.transDir e i = 0 := by
  refine ⟨?_, ?_, ?_⟩
  · ext i; fin_cases i <;> simp [sl, Spec.transDir, Mat.extV]
  · ext i; fin_cases i <;> simp [sl, Spec.transDir, Mat.extV] <;> rfl
  · intro i hi; simp [Spec.transDir, Mat.extV, not_lt.2 hi]

/-- **C75** (what the directions are) `yawDir` is the derivative, in the filter's error coordinates, of rotating the global frame about the
gravity axis: the orientation `R` becomes `R Rz(e)ᵀ`, position and velocity are rotated by `Rz(e)`. -/
theorem C75_yaw_direction (q : Quat) (hq : IsUnitQ q) (p v : V3) :
    HasDm (fun e => quat2Rot q * (rotZ e).transpose) (-(skew (sl (Spec.yawDir (quat2Rot q) p v) 0)) * quat2Rot q) ∧
    HasDv (fun e => (rotZ e).mulVec p) (sl (Spec.yawDir (quat2Rot q) p v) 3) ∧
    HasDv (fun e => (rotZ e).mulVec v) (sl (Spec.yawDir (quat2Rot q) p v) 6) := by
  obtain ⟨s0, s3, s6, -⟩ := yaw_slots (quat2Rot q) p v
  have hz : HasDm rotZ (skew ![0, 0, 1]) := by
    intro i j
    have hc := Real.hasDerivAt_cos 0
    have hs := Real.hasDerivAt_sin 0
    fin_cases i <;> fin_cases j <;> simp [rotZ, skew] <;>
      first
        | exact hasDerivAt_const _ _
        | simpa using hc
        | simpa using hs
        | simpa using hs.fun_neg
  have hz0 : rotZ 0 = 1 := by
    ext i j; fin_cases i <;> fin_cases j <;> simp [rotZ]
  refine ⟨?_, ?_, ?_⟩
  · rw [s0]
    refine ((HasDm.const (quat2Rot q)).mul hz.tr).congr' ?_
    rw [Matrix.zero_mul, zero_add, skew_transpose, ← rot_skew (quat2Rot_isRot hq)]
    rw [Matrix.neg_mul, Matrix.mul_assoc, (quat2Rot_isRot hq).orth, Matrix.mul_one, Matrix.mul_neg]
  · rw [s3]
    refine (hz.mulVec (HasDv.const p)).congr' ?_
    rw [Matrix.mulVec_zero, add_zero, skew_anti]
  · rw [s6]
    refine (hz.mulVec (HasDv.const v)).congr' ?_
    rw [Matrix.mulVec_zero, add_zero, skew_anti]

theorem vec_ext_d {o : Opts} {f g : ℕ → ℝ} (h0 : sl f 0 = sl g 0) (h3 : sl f 3 = sl g 3) (h6 : sl f 6 = sl g 6) (h9 : sl f 9 = sl g 9)
    (h12 : sl f 12 = sl g 12) (h15 : ∀ i, 15 ≤ i → i < intrSize o + 15 → f i = g i) : ∀ i, i < intrSize o + 15 → f i = g i := by
  intro i hi
  rcases Nat.lt_or_ge i 15 with h | h
  · have key : ∀ k (j : Fin 3), sl f k = sl g k → f (k + j) = g (k + j) := fun k j h => congrFun h j
    interval_cases i
    · exact key 0 0 h0
    · exact key 0 1 h0
    · exact key 0 2 h0
    · exact key 3 0 h3
    · exact key 3 1 h3
    · exact key 3 2 h3
    · exact key 6 0 h6
    · exact key 6 1 h6
    · exact key 6 2 h6
    · exact key 9 0 h9
    · exact key 9 1 h9
    · exact key 9 2 h9
    · exact key 12 0 h12
    · exact key 12 1 h12
    · exact key 12 2 h12
  · exact h15 i h hi

theorem sl_zero_of {f : ℕ → ℝ} {n k : ℕ} (h : ∀ i, n ≤ i → f i = 0) (hk : n ≤ k) : sl f k = 0 := by
  ext i; exact h _ (by omega)

theorem tan_zero {o : Opts} {δ : ℕ → ℝ} (h : ∀ i, 9 ≤ i → δ i = 0) (kb : Bool) (c : Cal) (k : Corr) :
    wDot kb c k (tan o δ) (sl δ 9) (sl δ 12) = 0 ∧ aDot kb c k (tan o δ) (sl δ 12) = 0 := by
  have z : ∀ n, 9 ≤ n → (fun i => δ (n + i)) = 0 := fun n hn => by ext i; exact h _ (by omega)
  have zs : ∀ n, 9 ≤ n → sl δ n = 0 := fun n hn => sl_zero_of h hn
  constructor <;> simp only [wDot, aDot, tan, rotId] <;> split_ifs <;>
    simp [z, zs, Dm_zero, Tm_zero, skew_zero, aDot]

/-- the rows of the transition matrix, for the directions that do not touch biases and intrinsics, whatever the method. -/
theorem F_gauge (o : Opts) (po : POpts) (N : Noise) (c : Cal) (x xf : Imu16) (d0 d1 : Reading) (δ : ℕ → ℝ) (hz : ∀ i, 9 ≤ i → δ i = 0) :
    let l := if po.fej then xf else x
    let y := (predictAndCompute o po N c x xf d0 d1).1
    let η := Mat.mulVec (intrSize o + 15) (predictAndCompute o po N c x xf d0 d1).2.1 δ
    let dt := d1.t - d0.t
    sl η 0 = (quat2Rot y.q * (quat2Rot l.q).transpose).mulVec (sl δ 0) ∧
    sl η 3 = sl δ 3 + dt • sl δ 6 - (skew (y.p - l.p - dt • l.v + (0.5 * dt * dt) • N.grav)).mulVec ((quat2Rot l.q).transpose.mulVec (sl δ 0)) ∧
    sl η 6 = sl δ 6 - (skew (y.v - l.v + dt • N.grav)).mulVec ((quat2Rot l.q).transpose.mulVec (sl δ 0)) ∧
    sl η 9 = 0 ∧ sl η 12 = 0 ∧ ∀ i, 15 ≤ i → i < intrSize o + 15 → η i = 0 := by
  intro l y η dt
  have hs9 : sl δ 9 = 0 := sl_zero_of hz le_rfl
  have hs12 : sl δ 12 = 0 := sl_zero_of hz (by norm_num)
  obtain ⟨zw, za⟩ := tan_zero (o := o) hz o.kalibr c (correct o.kalibr c x.bg x.ba d0 d1)
  set k := correct o.kalibr c x.bg x.ba d0 d1 with hk
  set A : FArgs := { R := quat2Rot l.q, v := l.v, p := l.p, q1 := y.q, v1 := y.v, p1 := y.p, c := c, k := k, dt := dt, g := N.grav } with hA
  have hK : KOK o A := kok o c x.bg x.ba d0 d1 _ _ _ _ _ _ _ _
  have hF : (predictAndCompute o po N c x xf d0 d1).2.1 = assemble (fAnalytic o (xiSum dt k.w k.a) A) ∨
      (predictAndCompute o po N c x xf d0 d1).2.1 = assemble (fDiscrete o A) := by
    rcases hm : po.method with _ | _ | _
    · right; simp only [predictAndCompute, hm, hA, y, l, dt, ← hk]
    · left; simp only [predictAndCompute, hm, hA, y, l, dt, ← hk]
    · left; simp only [predictAndCompute, hm, hA, y, l, dt, ← hk]
  have zw' : wDot o.kalibr A.c A.k (tan o δ) (sl δ 9) (sl δ 12) = 0 := zw
  have za' : aDot o.kalibr A.c A.k (tan o δ) (sl δ 12) = 0 := za
  rw [hs9, hs12] at zw'
  rw [hs12] at za'
  have hi := f_rows_intr o (xiSum dt k.w k.a) A δ
  rcases hF with hF | hF
  · obtain ⟨e0, e3, e6, e9, e12⟩ := fAnalytic_rows o (xiSum dt k.w k.a) A hK δ
    simp only [zw', za', hs9, hs12, rowV, Matrix.mulVec_zero, smul_zero, add_zero, sub_zero, sub_self] at e0 e3 e6 e9 e12
    refine ⟨?_, ?_, ?_, ?_, ?_, ?_⟩
    · simp only [η, hF]; exact e0
    · simp only [η, hF]; exact e3
    · simp only [η, hF]; exact e6
    · simp only [η, hF]; exact e9
    · simp only [η, hF]; exact e12
    · intro i h1 h2
      simp only [η, hF]
      first
        | exact (hi i h1 h2).1.trans (hz i (by omega))
        | exact (hi i h1 h2).trans (hz i (by omega))
  · obtain ⟨e0, e3, e6, e9, e12⟩ := fDiscrete_rows o A hK δ
    simp only [zw', za', hs9, hs12, rowV, Matrix.mulVec_zero, smul_zero, add_zero, sub_zero, sub_self] at e0 e3 e6 e9 e12
    have hu : Dm o.kalibr (tan o δ).da = 0 := by
      have : (tan o δ).da = 0 := by
        unfold tan
        split
        · ext i; exact hz _ (by omega)
        · rfl
      rw [this, Dm_zero]
    simp only [hu, Matrix.zero_mulVec, Matrix.mulVec_zero, sub_self, smul_zero, add_zero] at e0
    refine ⟨?_, ?_, ?_, ?_, ?_, ?_⟩
    · simp only [η, hF]; exact e0
    · simp only [η, hF]; exact e3
    · simp only [η, hF]; exact e6
    · simp only [η, hF]; exact e9
    · simp only [η, hF]; exact e12
    · intro i h1 h2
      simp only [η, hF]
      exact (hi i h1 h2).2.trans (hz i (by omega))

theorem grav_axis (N : Noise) (r : ℝ) : (skew (r • N.grav)).mulVec ![0, 0, 1] = 0 := by
  ext i
  fin_cases i <;> rw [m3_mulVec_apply] <;> simp [skew, Noise.grav]

/-- **C75** One prediction step, with any integration method and with or without first-estimate Jacobians: the transition matrix maps the
yaw direction at its linearisation point to the yaw direction at the predicted state, and keeps every translation direction. -/
theorem C75_step_keeps_unobservable (o : Opts) (po : POpts) (N : Noise) (c : Cal) (x xf : Imu16) (d0 d1 : Reading)
    (hq : IsUnitQ (if po.fej then xf else x).q) (e : V3) :
    let l := if po.fej then xf else x
    let y := (predictAndCompute o po N c x xf d0 d1).1
    let F := (predictAndCompute o po N c x xf d0 d1).2.1
    ∀ i, i < intrSize o + 15 →
      Mat.mulVec (intrSize o + 15) F (Spec.yawDir (quat2Rot l.q) l.p l.v) i = Spec.yawDir (quat2Rot y.q) y.p y.v i ∧
      Mat.mulVec (intrSize o + 15) F (Spec.transDir e) i = Spec.transDir e i := by
  intro l y F
  have hR := quat2Rot_isRot hq
  have hy : ∀ i, i < intrSize o + 15 →
      Mat.mulVec (intrSize o + 15) F (Spec.yawDir (quat2Rot l.q) l.p l.v) i = Spec.yawDir (quat2Rot y.q) y.p y.v i := by
    obtain ⟨a0, a3, a6, az⟩ := yaw_slots (quat2Rot l.q) l.p l.v
    obtain ⟨b0, b3, b6, bz⟩ := yaw_slots (quat2Rot y.q) y.p y.v
    obtain ⟨g0, g3, g6, g9, g12, gi⟩ := F_gauge o po N c x xf d0 d1 _ az
    have hRR : ∀ v : V3, (quat2Rot l.q).transpose.mulVec ((quat2Rot l.q).mulVec v) = v := fun v => by
      rw [Matrix.mulVec_mulVec, hR.orth, Matrix.one_mulVec]
    rw [a0] at g0 g3 g6
    refine vec_ext_d ?_ ?_ ?_ ?_ ?_ ?_
    · rw [b0]; refine g0.trans ?_
      rw [← Matrix.mulVec_mulVec]
      exact congrArg _ (hRR _)
    · rw [b3]; refine g3.trans ?_
      rw [a3, a6]
      erw [hRR]
      rw [skew_add, Matrix.add_mulVec, grav_axis, add_zero]
      simp only [sub_eq_add_neg, skew_add, skew_neg, skew_smul, Matrix.add_mulVec, Matrix.neg_mulVec, Matrix.smul_mulVec, smul_neg]
      abel
    · rw [b6]; refine g6.trans ?_
      rw [a6]
      erw [hRR]
      rw [skew_add, Matrix.add_mulVec, grav_axis, add_zero]
      simp only [sub_eq_add_neg, skew_add, skew_neg, skew_smul, Matrix.add_mulVec, Matrix.neg_mulVec, Matrix.smul_mulVec, smul_neg]
      abel
    · rw [sl_zero_of bz le_rfl]; exact g9
    · rw [sl_zero_of bz (by norm_num)]; exact g12
    · intro i h1 h2; rw [bz i (by omega)]; exact gi i h1 h2
  have ht : ∀ i, i < intrSize o + 15 → Mat.mulVec (intrSize o + 15) F (Spec.transDir e) i = Spec.transDir e i := by
    obtain ⟨a0, a3, az⟩ := trans_slots e
    obtain ⟨g0, g3, g6, g9, g12, gi⟩ := F_gauge o po N c x xf d0 d1 _ (fun i hi => az i (by omega))
    rw [a0] at g0 g3 g6
    have a6 : sl (Spec.transDir e) 6 = 0 := sl_zero_of az le_rfl
    refine vec_ext_d ?_ ?_ ?_ ?_ ?_ ?_
    · rw [a0]; exact g0.trans (by simp)
    · rw [a3]; refine g3.trans ?_; rw [a3, a6]; simp
    · rw [a6]; refine g6.trans ?_; rw [a6]; simp
    · rw [sl_zero_of az (by norm_num)]; exact g9
    · rw [sl_zero_of az (by norm_num)]; exact g12
    · intro i h1 h2; rw [az i (by omega)]; exact gi i h1 h2
  exact fun i hi => ⟨hy i hi, ht i hi⟩

theorem mulVec_congr {d : ℕ} (F : Mat) {f g : ℕ → ℝ} (h : ∀ i, i < d → f i = g i) : Mat.mulVec d F f = Mat.mulVec d F g := by
  ext i
  exact Finset.sum_congr rfl fun j hj => by rw [h j (Finset.mem_range.1 hj)]

/-- the product of the transition matrices of a propagation applied to a direction. -/
noncomputable def Spec.push (d : ℕ) (steps : List (Mat × Mat)) (δ : ℕ → ℝ) : ℕ → ℝ := steps.foldl (fun v F => Mat.mulVec d F.1 v) δ

theorem push_congr {d : ℕ} : ∀ (l : List (Mat × Mat)) {f g : ℕ → ℝ}, (∀ i, i < d → f i = g i) → ∀ i, i < d → Spec.push d l f i = Spec.push d l g i
  | [], _, _, h => h
  | F :: l, f, g, h => by
    simp only [Spec.push, List.foldl_cons]
    rw [mulVec_congr F.1 h]
    exact fun i _ => rfl

theorem loop_acc (o : Opts) (po : POpts) (N : Noise) (c : Cal) : ∀ (l : List Reading) (x xf : Imu16) (acc : List (Mat × Mat)),
    propLoop o po N c l x xf acc = ((propLoop o po N c l x xf []).1, (propLoop o po N c l x xf []).2.1, acc ++ (propLoop o po N c l x xf []).2.2)
  | [], x, xf, acc => by simp [propLoop]
  | [_], x, xf, acc => by simp [propLoop]
  | d0 :: d1 :: rest, x, xf, acc => by
    rw [propLoop, propLoop, loop_acc o po N c (d1 :: rest) _ _ (acc ++ _), loop_acc o po N c (d1 :: rest) _ _ ([] ++ _)]
    simp

/-- **C75** The same over a whole propagation of any number of readings, as done by `propagate_and_clone`: the product of the transition
matrices maps the yaw direction at the start to the yaw direction at the end, and keeps every translation direction. So propagation gives the
filter no information about global yaw and position, whatever the readings. -/
theorem C75_propagation_keeps_unobservable (o : Opts) (po : POpts) (N : Noise) (c : Cal) (data : List Reading) (x xf : Imu16)
    (hx : IsUnitQ x.q) (hxf : IsUnitQ xf.q) (hr : Spec.RatesOK o po.method c x.bg x.ba data) (hl : 2 ≤ data.length) (e : V3) :
    let l := if po.fej then xf else x
    let r := propLoop o po N c data x xf []
    ∀ i, i < intrSize o + 15 →
      Spec.push (intrSize o + 15) r.2.2 (Spec.yawDir (quat2Rot l.q) l.p l.v) i = Spec.yawDir (quat2Rot r.1.q) r.1.p r.1.v i ∧
      Spec.push (intrSize o + 15) r.2.2 (Spec.transDir e) i = Spec.transDir e i := by
  have key : ∀ (data : List Reading) (x xf : Imu16), 2 ≤ data.length → IsUnitQ x.q → IsUnitQ xf.q → Spec.RatesOK o po.method c x.bg x.ba data →
    let l := if po.fej then xf else x
    let r := propLoop o po N c data x xf []
    ∀ i, i < intrSize o + 15 →
      Spec.push (intrSize o + 15) r.2.2 (Spec.yawDir (quat2Rot l.q) l.p l.v) i = Spec.yawDir (quat2Rot r.1.q) r.1.p r.1.v i ∧
      Spec.push (intrSize o + 15) r.2.2 (Spec.transDir e) i = Spec.transDir e i := by
    intro data
    induction data with
    | nil => intro x xf h; simp at h
    | cons d0 l ih =>
      cases l with
      | nil => intro x xf h; simp at h
      | cons d1 rest =>
        intro x xf _ hx hxf hr
        have hstep := C75_step_keeps_unobservable o po N c x xf d0 d1 (by split <;> assumption) e
        obtain ⟨hu, hbg, hba⟩ := C77_prediction_keeps_unit o po N c x xf hx d0 d1 hr.1
        simp only at hstep ⊢
        rw [propLoop, loop_acc]
        set y := predictAndCompute o po N c x xf d0 d1 with hy
        simp only [List.nil_append, List.cons_append, Spec.push, List.foldl_cons]
        have a1 := push_congr (propLoop o po N c (d1 :: rest) y.1 y.1 []).2.2 (fun i hi => (hstep i hi).1)
        have a2 := push_congr (propLoop o po N c (d1 :: rest) y.1 y.1 []).2.2 (fun i hi => (hstep i hi).2)
        cases rest with
        | nil =>
          intro i hi
          simp only [propLoop, Spec.push, List.foldl_nil] at a1 a2 ⊢
          exact ⟨a1 i hi, a2 i hi⟩
        | cons d2 rest =>
          have := ih y.1 y.1 (by simp) hu.1 hu.1 (by rw [hbg, hba]; exact hr.2)
          simp only [ite_self] at this
          intro i hi
          exact ⟨(a1 i hi).trans (this i hi).1, (a2 i hi).trans (this i hi).2⟩
  exact key data x xf hl hx hxf hr

/-- the hypotheses are met: three readings, analytic integration, all intrinsics calibrated. -/
example : IsUnitQ exX.q ∧ Spec.RatesOK exO .analytical exCal exX.bg exX.ba [exR 0, exR 1, exR 2] ∧ 2 ≤ [exR 0, exR 1, exR 2].length :=
  ⟨by norm_num [IsUnitQ, exX], ratesOK_of_ne (by simp) _ _ _ _, by simp⟩

end Verif.Prop_
