import Verif.Quat.Lemmas

/-! # Lemmas about `exp_so3`, `log_so3`, `exp_se3`, `log_se3`, `Jl_so3` -/

set_option linter.unusedSimpArgs false

namespace Verif

open Matrix

theorem dot3_self_nonneg (w : V3) : 0 ≤ dot3 w w := by
  unfold dot3; nlinarith [mul_self_nonneg (w 0), mul_self_nonneg (w 1), mul_self_nonneg (w 2)]

theorem norm3_nonneg (w : V3) : 0 ≤ norm3 w := Real.sqrt_nonneg _

theorem norm3_sq (w : V3) : norm3 w * norm3 w = dot3 w w := Real.mul_self_sqrt (dot3_self_nonneg w)

theorem norm3_sq' (w : V3) : norm3 w * norm3 w = w 0 * w 0 + w 1 * w 1 + w 2 * w 2 := norm3_sq w

theorem norm3_eq_zero {w : V3} : norm3 w = 0 ↔ w = 0 := by
  constructor
  · intro h
    have h2 := norm3_sq' w
    rw [h] at h2
    apply v3_ext <;> simp <;> nlinarith [mul_self_nonneg (w 0), mul_self_nonneg (w 1), mul_self_nonneg (w 2)]
  · rintro rfl; simp [norm3, dot3]

theorem skew00 (w : V3) : skew w 0 0 = 0 := rfl
theorem skew01 (w : V3) : skew w 0 1 = -w 2 := rfl
theorem skew02 (w : V3) : skew w 0 2 = w 1 := rfl
theorem skew10 (w : V3) : skew w 1 0 = w 2 := rfl
theorem skew11 (w : V3) : skew w 1 1 = 0 := rfl
theorem skew12 (w : V3) : skew w 1 2 = -w 0 := rfl
theorem skew20 (w : V3) : skew w 2 0 = -w 1 := rfl
theorem skew21 (w : V3) : skew w 2 1 = w 0 := rfl
theorem skew22 (w : V3) : skew w 2 2 = 0 := rfl

theorem skew_transpose (w : V3) : (skew w).transpose = -skew w := by
  apply m3_ext <;> simp [skew]

theorem skew_neg (w : V3) : skew (-w) = -skew w := by
  apply m3_ext <;> simp [skew]

theorem skew_smul (c : ℝ) (w : V3) : skew (c • w) = c • skew w := by
  apply m3_ext <;> simp [skew]

theorem skew_sq (w : V3) : skew w * skew w = outer w w - dot3 w w • (1 : M3) := by
  apply m3_ext <;> simp [m3_mul_apply, skew, outer, dot3] <;> ring

theorem skew_cube (w : V3) : skew w * (skew w * skew w) = -(dot3 w w) • skew w := by
  apply m3_ext <;> simp [m3_mul_apply, skew, dot3] <;> ring

theorem one00 : (1 : M3) 0 0 = 1 := by simp
theorem one01 : (1 : M3) 0 1 = 0 := by simp
theorem one02 : (1 : M3) 0 2 = 0 := by simp
theorem one10 : (1 : M3) 1 0 = 0 := by simp
theorem one11 : (1 : M3) 1 1 = 1 := by simp
theorem one12 : (1 : M3) 1 2 = 0 := by simp
theorem one20 : (1 : M3) 2 0 = 0 := by simp
theorem one21 : (1 : M3) 2 1 = 0 := by simp
theorem one22 : (1 : M3) 2 2 = 1 := by simp

/-- The Rodrigues form `I + a⌊w⌋ + b⌊w⌋²`. -/
def rodr (a b : ℝ) (w : V3) : M3 := 1 + a • skew w + b • (skew w * skew w)

section rodr
variable (a b : ℝ) (w : V3)
theorem rodr00 : rodr a b w 0 0 = 1 - b * (w 1 * w 1 + w 2 * w 2) := by
  simp only [rodr, Matrix.add_apply, Matrix.smul_apply, smul_eq_mul, m3_mul_apply, skew00, skew01, skew02, skew10,
    skew11, skew12, skew20, skew21, skew22, one00, one01, one02,
    one10, one11, one12, one20, one21, one22]; ring
theorem rodr01 : rodr a b w 0 1 = -a * w 2 + b * (w 0 * w 1) := by
  simp only [rodr, Matrix.add_apply, Matrix.smul_apply, smul_eq_mul, m3_mul_apply, skew00, skew01, skew02, skew10,
    skew11, skew12, skew20, skew21, skew22, one00, one01, one02,
    one10, one11, one12, one20, one21, one22]; ring
theorem rodr02 : rodr a b w 0 2 = a * w 1 + b * (w 0 * w 2) := by
  simp only [rodr, Matrix.add_apply, Matrix.smul_apply, smul_eq_mul, m3_mul_apply, skew00, skew01, skew02, skew10,
    skew11, skew12, skew20, skew21, skew22, one00, one01, one02,
    one10, one11, one12, one20, one21, one22]; ring
theorem rodr10 : rodr a b w 1 0 = a * w 2 + b * (w 0 * w 1) := by
  simp only [rodr, Matrix.add_apply, Matrix.smul_apply, smul_eq_mul, m3_mul_apply, skew00, skew01, skew02, skew10,
    skew11, skew12, skew20, skew21, skew22, one00, one01, one02,
    one10, one11, one12, one20, one21, one22]; ring
theorem rodr11 : rodr a b w 1 1 = 1 - b * (w 0 * w 0 + w 2 * w 2) := by
  simp only [rodr, Matrix.add_apply, Matrix.smul_apply, smul_eq_mul, m3_mul_apply, skew00, skew01, skew02, skew10,
    skew11, skew12, skew20, skew21, skew22, one00, one01, one02,
    one10, one11, one12, one20, one21, one22]; ring
theorem rodr12 : rodr a b w 1 2 = -a * w 0 + b * (w 1 * w 2) := by
  simp only [rodr, Matrix.add_apply, Matrix.smul_apply, smul_eq_mul, m3_mul_apply, skew00, skew01, skew02, skew10,
    skew11, skew12, skew20, skew21, skew22, one00, one01, one02,
    one10, one11, one12, one20, one21, one22]; ring
theorem rodr20 : rodr a b w 2 0 = -a * w 1 + b * (w 0 * w 2) := by
  simp only [rodr, Matrix.add_apply, Matrix.smul_apply, smul_eq_mul, m3_mul_apply, skew00, skew01, skew02, skew10,
    skew11, skew12, skew20, skew21, skew22, one00, one01, one02,
    one10, one11, one12, one20, one21, one22]; ring
theorem rodr21 : rodr a b w 2 1 = a * w 0 + b * (w 1 * w 2) := by
  simp only [rodr, Matrix.add_apply, Matrix.smul_apply, smul_eq_mul, m3_mul_apply, skew00, skew01, skew02, skew10,
    skew11, skew12, skew20, skew21, skew22, one00, one01, one02,
    one10, one11, one12, one20, one21, one22]; ring
theorem rodr22 : rodr a b w 2 2 = 1 - b * (w 0 * w 0 + w 1 * w 1) := by
  simp only [rodr, Matrix.add_apply, Matrix.smul_apply, smul_eq_mul, m3_mul_apply, skew00, skew01, skew02, skew10,
    skew11, skew12, skew20, skew21, skew22, one00, one01, one02,
    one10, one11, one12, one20, one21, one22]; ring
end rodr

theorem rodr_isRot {a b : ℝ} {w : V3} (h : 2 * b = a * a + b * b * (w 0 * w 0 + w 1 * w 1 + w 2 * w 2)) :
    IsRot (rodr a b w) := by
  constructor
  · apply m3_ext <;> simp only [m3_mul_apply, Matrix.transpose_apply, rodr00, rodr01, rodr02, rodr10, rodr11, rodr12,
      rodr20, rodr21, rodr22, one3] <;> simp <;> grind
  · rw [Matrix.det_fin_three]
    simp only [rodr00, rodr01, rodr02, rodr10, rodr11, rodr12, rodr20, rodr21, rodr22]
    grind

theorem rodr_mul (a b c d : ℝ) (w : V3) :
    rodr a b w * rodr c d w =
      rodr (a + c - (a * d + b * c) * dot3 w w) (b + d + a * c - b * d * dot3 w w) w := by
  apply m3_ext <;> simp only [m3_mul_apply, rodr00, rodr01, rodr02, rodr10, rodr11, rodr12,
      rodr20, rodr21, rodr22, dot3] <;> ring

theorem rodr_zero (w : V3) : rodr 0 0 w = 1 := by simp [rodr]

theorem expSO3_eq {w : V3} (h : norm3 w ≠ 0) : expSO3 w = rodr (expA (norm3 w)) (expB (norm3 w)) w := by
  simp [expSO3, h, rodr]

theorem expSO3_eq_of_le {w : V3} (h : 1e-7 ≤ norm3 w) :
    expSO3 w = rodr (Real.sin (norm3 w) / norm3 w) ((1 - Real.cos (norm3 w)) / (norm3 w * norm3 w)) w := by
  have h0 : norm3 w ≠ 0 := by
    have : (0 : ℝ) < 1e-7 := by norm_num
    linarith
  rw [expSO3_eq h0, expA, expB, if_neg (not_lt.2 h), if_neg (not_lt.2 h)]

theorem rodr_angle {θ : ℝ} (hθ : θ ≠ 0) {n : ℝ} (hn : θ * θ = n) :
    2 * ((1 - Real.cos θ) / (θ * θ)) =
      (Real.sin θ / θ) * (Real.sin θ / θ) + ((1 - Real.cos θ) / (θ * θ)) * ((1 - Real.cos θ) / (θ * θ)) * n := by
  subst hn
  have := Real.sin_sq_add_cos_sq θ
  field_simp
  grind

theorem expSO3_isRot_of_le {w : V3} (h : 1e-7 ≤ norm3 w) : IsRot (expSO3 w) := by
  have h0 : norm3 w ≠ 0 := by
    have : (0 : ℝ) < 1e-7 := by norm_num
    linarith
  rw [expSO3_eq_of_le h]
  exact rodr_isRot (rodr_angle h0 (norm3_sq' w))

theorem tr_rodr (a b : ℝ) (w : V3) : tr3 (rodr a b w) = 3 - 2 * b * (w 0 * w 0 + w 1 * w 1 + w 2 * w 2) := by
  simp only [tr3, rodr00, rodr11, rodr22]; ring

theorem rotBlock_mkSE3 (A : M3) (t : V3) (b : ℝ) : rotBlock (mkSE3 A t b) = A := by
  apply m3_ext <;> rfl

theorem posBlock_mkSE3 (A : M3) (t : V3) (b : ℝ) : posBlock (mkSE3 A t b) = t := by
  apply v3_ext <;> rfl

theorem mkSE3_mul (A B : M3) (t s : V3) (a b : ℝ) :
    mkSE3 A t a * mkSE3 B s b = mkSE3 (A * B) (A.mulVec s + b • t) (a * b) := by
  ext i j
  rw [Matrix.mul_apply, Fin.sum_univ_four]
  fin_cases i <;> fin_cases j <;> simp [mkSE3, m3_mul_apply, m3_mulVec_apply] <;> ring

theorem mkSE3_one : mkSE3 1 0 1 = 1 := by
  ext i j
  fin_cases i <;> fin_cases j <;> simp [mkSE3]

theorem IsSE3.eq_mk {T : M4} (h : IsSE3 T) : T = mkSE3 (rotBlock T) (posBlock T) 1 := by
  have h3 := h.row
  ext i j
  fin_cases i <;> fin_cases j <;> first | rfl | (simp [mkSE3]; rw [h3]; simp)

theorem isSE3_mk {R : M3} (h : IsRot R) (t : V3) : IsSE3 (mkSE3 R t 1) := by
  refine ⟨by rw [rotBlock_mkSE3]; exact h, ?_⟩
  intro j; fin_cases j <;> simp [mkSE3]

theorem rodr_mulVec (a b : ℝ) (w u : V3) :
    (rodr a b w).mulVec u = u + a • (skew w).mulVec u + b • (skew w * skew w).mulVec u := by
  simp [rodr, Matrix.add_mulVec, Matrix.smul_mulVec]

end Verif
