import Verif.Sim.Deriv

/-! # Exponential of the logarithm on SE(3), and the joins of the spline segments -/

set_option autoImplicit false
set_option linter.unusedSimpArgs false

namespace Verif.Sim

open Verif Matrix

theorem log_one : logSO3 1 = 0 := by
  unfold logSO3; simp only [tr3, one00, one11, one22]
  rw [if_neg (by norm_num), if_neg (by norm_num)]
  apply v3_ext <;> simp

/-- length of the logarithm of a rotation outside the special branches. -/
theorem norm_log_regular {R : M3} (hR : IsRot R) (hb1 : 1e-10 ≤ tr3 R + 1) (hb2 : tr3 R - 3 < -1e-7) :
    1e-4 < norm3 (logSO3 R) ∧ norm3 (logSO3 R) < Real.pi := by
  obtain ⟨p00, p11, p22, p01, p02, p12⟩ := asym_prods hR.rel
  set c : ℝ := (tr3 R - 1) / 2 with hc
  have hT : tr3 R = 1 + 2 * c := by rw [hc]; ring
  have hc1 : -1 ≤ c := by rw [hc]; linarith [show (0:ℝ) ≤ 1e-10 by norm_num]
  have hc1' : 0 < 1 + c := by rw [hc]; linarith [show (0:ℝ) < 1e-10 by norm_num]
  have hc2 : c < 1 - 0.5e-7 := by rw [hc]; norm_num at hb2 ⊢; linarith
  have hc2' : c ≤ 1 := by norm_num at hc2; linarith
  set θ := Real.arccos c with hθ
  have hcos : Real.cos θ = c := Real.cos_arccos hc1 hc2'
  have hθ0 : 0 ≤ θ := Real.arccos_nonneg c
  have hθle : θ ≤ Real.pi := Real.arccos_le_pi c
  have hlog : logSO3 R = (θ / (2 * Real.sin θ)) • asym R := by
    unfold logSO3
    simp only []
    rw [if_neg (by linarith), if_pos hb2]
    rfl
  clear_value θ c
  have hsin : Real.sin θ * Real.sin θ = 1 - c * c := by
    have := Real.sin_sq_add_cos_sq θ
    rw [hcos] at this; linarith [this, sq (Real.sin θ), sq c]
  have hθpos : 1e-4 < θ := by
    by_contra hlt
    push Not at hlt
    have := Real.one_sub_sq_div_two_le_cos (x := θ)
    rw [hcos] at this
    have hsq : θ ^ 2 ≤ (1e-4 : ℝ) ^ 2 := by
      apply pow_le_pow_left₀ hθ0 hlt
    norm_num at hsq hc2
    linarith
  have hθne : 0 < θ := lt_trans (by norm_num) hθpos
  have hspos : 0 < Real.sin θ := by
    have h2 : 0 < Real.sin θ * Real.sin θ := by
      rw [hsin]; norm_num at hc2; nlinarith
    have h1 : 0 ≤ Real.sin θ := Real.sin_nonneg_of_nonneg_of_le_pi hθ0 hθle
    rcases h1.lt_or_eq with h | h
    · exact h
    · rw [← h] at h2; simp at h2
  have hnv : norm3 (asym R) = 2 * Real.sin θ := by
    have : dot3 (asym R) (asym R) = (2 * Real.sin θ) ^ 2 := by
      unfold dot3
      rw [p00, p11, p22]
      have : (2 * Real.sin θ) ^ 2 = 4 * (Real.sin θ * Real.sin θ) := by ring
      rw [this, hsin, hT]
      have : tr3 R = R 0 0 + R 1 1 + R 2 2 := rfl
      rw [hT] at this
      linear_combination (2 + 2 * c) * this
    rw [norm3, this, Real.sqrt_sq (by linarith)]
  have hn : norm3 (logSO3 R) = θ := by
    rw [hlog, norm3_smul (by positivity), hnv]
    field_simp
  rw [hn]
  refine ⟨hθpos, lt_of_le_of_ne hθle fun h => ?_⟩
  rw [h, Real.cos_pi] at hcos
  linarith

/-- a relative rotation that `log_so3` and `exp_so3` treat exactly: none at all, or one outside the special branches. -/
def StepRot (R : M3) : Prop := R = 1 ∨ (1e-10 ≤ tr3 R + 1 ∧ tr3 R - 3 < -1e-7)

/-- **C68, SE(3)** `exp_se3(log_se3(T)) = T`. -/
theorem exp_log_se3 {T : M4} (hT : IsSE3 T) (hs : StepRot (rotBlock T)) : expOf 1 (logSE3 T) = T := by
  conv_rhs => rw [hT.eq_mk]
  unfold expOf
  rw [one_smul, one_smul]
  rcases hs with h1 | ⟨h1, h2⟩
  · have hl : logSE3 T = (0, posBlock T) := by
      unfold logSE3
      simp only [h1, log_one]
      have : norm3 0 = 0 := norm3_eq_zero.2 rfl
      rw [this, if_pos (by norm_num)]
    rw [hl, h1]
    have hz : skew 0 = 0 := by apply m3_ext <;> simp [skew]
    simp [expSE3, hz]
  · have hexp := exp_log_regular hT.rot h1 h2
    obtain ⟨hn1, hn2⟩ := norm_log_regular hT.rot h1 h2
    generalize hw : logSO3 (rotBlock T) = w at *
    have h7 : 1e-7 ≤ norm3 w := le_trans (by norm_num) hn1.le
    have h0 : norm3 w ≠ 0 := by
      have : (0 : ℝ) < 1e-4 := by norm_num
      linarith
    have hR : ∀ u, expSE3 w u = mkSE3 (expSO3 w) ((rodr (expB (norm3 w)) (expC (norm3 w)) w).mulVec u) 1 := by
      intro u; rw [expSO3_eq h0]; rfl
    -- the position part of the logarithm is linear
    obtain ⟨M, hM⟩ : ∃ M : M3, ∀ T' : M4, logSO3 (rotBlock T') = w → logSE3 T' = (w, M.mulVec (posBlock T')) := by
      refine ⟨1 - (0.5 * norm3 w) • skew ((1 / norm3 w) • w) + (1 - norm3 w / (2 * Real.tan (0.5 * norm3 w))) •
        (skew ((1 / norm3 w) • w) * skew ((1 / norm3 w) • w)), fun T' h => ?_⟩
      unfold logSE3
      simp only [h]
      rw [if_neg (by norm_num at hn1 ⊢; linarith)]
      congr 1
      simp [Matrix.add_mulVec, Matrix.sub_mulVec, Matrix.smul_mulVec, Matrix.mulVec_mulVec]
    have hMV : M * rodr (expB (norm3 w)) (expC (norm3 w)) w = 1 := by
      have key : ∀ u, (M * rodr (expB (norm3 w)) (expC (norm3 w)) w).mulVec u = u := by
        intro u
        have e1 := log_exp_se3 (u := u) h7 hn2 (by rw [hexp, hw])
        have e2 := hM (expSE3 w u) (by rw [hR u, rotBlock_mkSE3, hexp, hw])
        rw [e1, hR u, posBlock_mkSE3, Matrix.mulVec_mulVec] at e2
        exact (congrArg Prod.snd e2).symm
      apply Matrix.ext_of_mulVec_single
      intro i
      rw [key, Matrix.one_mulVec]
    have hVM := mul_eq_one_comm.1 hMV
    rw [hM T hw]
    dsimp only
    rw [hR, Matrix.mulVec_mulVec, hVM, Matrix.one_mulVec, hexp]

/-- the relative pose of two neighbouring control points. -/
def Step (P Q : M4) : Prop := StepRot (rotBlock (invSE3 P * Q))

theorem step_join {P Q : M4} (hP : IsSE3 P) (hQ : IsSE3 Q) (h : Step P Q) : P * expOf 1 (omegaOf P Q) = Q := by
  obtain ⟨h1, _, h3⟩ := QuatProps.C25_se3.1 P hP
  have := exp_log_se3 (QuatProps.C25_se3.2.1 _ _ h1 hQ) h
  unfold omegaOf
  rw [this, ← Matrix.mul_assoc, h3, Matrix.one_mul]

theorem step_reg {P Q : M4} (hP : IsSE3 P) (hQ : IsSE3 Q) (h : Step P Q) {b : ℝ} (hb : 1 / 6 ≤ b) : RegAt b (omegaOf P Q) := by
  obtain ⟨h1, _, _⟩ := QuatProps.C25_se3.1 P hP
  have hT := QuatProps.C25_se3.2.1 _ _ h1 hQ
  have e : (omegaOf P Q).1 = logSO3 (rotBlock (invSE3 P * Q)) := by
    unfold omegaOf logSE3; dsimp only; split_ifs <;> rfl
  unfold RegAt
  rw [e]
  rcases h with h | ⟨g1, g2⟩
  · left; rw [h, log_one]
  · right; left
    have := (norm_log_regular hT.rot g1 g2).1
    have h6 : (1e-7 : ℝ) < 1 / 6 * 1e-4 := by norm_num
    nlinarith

/-- at the join of two segments of equal length the pose, velocity and acceleration formulas agree. -/
theorem seg_join {p q0 q1 q2 q3 : ℝ × M4} (h : q0.1 < q1.1) (hu : q2.1 - q1.1 = q1.1 - q0.1)
    (hj : p.2 * expOf 1 (omegaOf p.2 q0.2) = q0.2) :
    interpPose q1.1 p q0 q1 q2 = interpPose q1.1 q0 q1 q2 q3 ∧ interpVel q1.1 p q0 q1 q2 = interpVel q1.1 q0 q1 q2 q3 ∧
    interpAcc q1.1 p q0 q1 q2 = interpAcc q1.1 q0 q1 q2 q3 := by
  have hD : q1.1 - q0.1 ≠ 0 := by linarith
  have hz : skew 0 = 0 := by apply m3_ext <;> simp [skew]
  have hE : ∀ om : V3 × V3, expOf 0 om = 1 := by
    intro om
    unfold expOf
    simp [expSE3, hz, mkSE3_one]
  have v1 : b0 1 = 1 := by norm_num [b0]
  have v2 : b1 1 = 5 / 6 := by norm_num [b1]
  have v3 : b2 1 = 1 / 6 := by norm_num [b2]
  have v4 : b0 0 = 5 / 6 := by norm_num [b0]
  have v5 : b1 0 = 1 / 6 := by norm_num [b1]
  have v6 : b2 0 = 0 := by norm_num [b2]
  refine ⟨?_, ?_, ?_⟩
  · unfold interpPose
    simp only [sub_self, zero_div, div_self hD, v1, v2, v3, v4, v5, v6, hE, hj, Matrix.mul_one]
  · unfold interpVel
    simp only [sub_self, zero_div, div_self hD, v1, v2, v3, v4, v5, v6, hE, hu, Matrix.mul_one]
    have w1 : b0dot (q1.1 - q0.1) 1 = 0 := by unfold b0dot; ring
    have w2 : b1dot (q1.1 - q0.1) 1 = b0dot (q1.1 - q0.1) 0 := by unfold b1dot b0dot; ring
    have w3 : b2dot (q1.1 - q0.1) 1 = b1dot (q1.1 - q0.1) 0 := by unfold b2dot b1dot; ring
    have w4 : b2dot (q1.1 - q0.1) 0 = 0 := by unfold b2dot; ring
    simp only [w1, w2, w3, w4, zero_smul, Matrix.zero_mul, Matrix.mul_zero, zero_add, add_zero, Matrix.mul_add, Matrix.mul_assoc]
    simp only [← Matrix.mul_assoc p.2, hj]
  · unfold interpAcc
    simp only [sub_self, zero_div, div_self hD, v1, v2, v3, v4, v5, v6, hE, hu, Matrix.mul_one]
    have w1 : b0dot (q1.1 - q0.1) 1 = 0 := by unfold b0dot; ring
    have w2 : b1dot (q1.1 - q0.1) 1 = b0dot (q1.1 - q0.1) 0 := by unfold b1dot b0dot; ring
    have w3 : b2dot (q1.1 - q0.1) 1 = b1dot (q1.1 - q0.1) 0 := by unfold b2dot b1dot; ring
    have w4 : b2dot (q1.1 - q0.1) 0 = 0 := by unfold b2dot; ring
    have x1 : b0dotdot (q1.1 - q0.1) 1 = 0 := by unfold b0dotdot; ring
    have x2 : b1dotdot (q1.1 - q0.1) 1 = b0dotdot (q1.1 - q0.1) 0 := by unfold b1dotdot b0dotdot; ring
    have x3 : b2dotdot (q1.1 - q0.1) 1 = b1dotdot (q1.1 - q0.1) 0 := by unfold b2dotdot b1dotdot; ring
    have x4 : b2dotdot (q1.1 - q0.1) 0 = 0 := by unfold b2dotdot; ring
    simp only [w1, w2, w3, w4, x1, x2, x3, x4, zero_smul, smul_zero, Matrix.zero_mul, Matrix.mul_zero, zero_add, add_zero,
      Matrix.mul_add, Matrix.smul_mul, Matrix.mul_smul, Matrix.add_mul, Matrix.mul_assoc]
    simp only [← Matrix.mul_assoc p.2, hj]
    module

end Verif.Sim
