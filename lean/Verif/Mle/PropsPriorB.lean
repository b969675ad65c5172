import Verif.Mle.PropsPrior

/-!
# C102: where the prior factor's Jacobian is not the derivative of its residual
-/

set_option linter.unusedSimpArgs false

open Classical

namespace Verif.Mle

open Verif Matrix Verif.QuatProps

/-- a prior on one heading alone, at the identity with unit information and no gradient. -/
def yawPrior : PrF where
  ty := [.quatYaw]
  lin := fun k => if k = 3 then 1 else 0
  sqrtI := fun i j => if i = j then 1 else 0
  b := fun _ => 0

/-- the parameter block of the quaternion `(0, 0, z, w)`. -/
def yawAt (z w : ℝ) : ℕ → ℕ → ℝ := fun _ k => if k = 2 then z else if k = 3 then w else 0

/-- the unit direction about the vertical. -/
def yawDir : ℕ → ℕ → ℝ := fun _ k => if k = 2 then 1 else 0

theorem yaw_res (qs : ℕ → ℕ → ℝ) : prRes yawPrior qs 0 = -(logSO3 ((quat2Rot (q4 (qs 0) 0)).transpose)) 2 := by
  have e2 : quat2Rot (q4 yawPrior.lin 0) = 1 := by
    have : q4 yawPrior.lin 0 = ⟨0, 0, 0, 1⟩ := by simp [q4, yawPrior]
    rw [this]
    apply m3_ext <;> simp only [q2r00, q2r01, q2r02, q2r10, q2r11, q2r12, q2r20, q2r21, q2r22, one00, one01, one02, one10, one11, one12, one20, one21, one22] <;>
      norm_num
  have h : prRes yawPrior qs 0 = -(thErr (q4 (qs 0) 0) (q4 yawPrior.lin 0)) 2 := by
    simp [prRes, yawPrior, lSum, Ty.l, prLoop, prErr]
  rw [h, thErr, e2, Matrix.mul_one]

theorem yaw_jac (z w : ℝ) :
    ∑ i ∈ Finset.range yawPrior.ty.length, ∑ c ∈ Finset.range (yawPrior.ty.getD i .vec1).t, prJac yawPrior (yawAt z w) i 0 c * yawDir i c =
      -((JrSO3 (logSO3 ((quat2Rot ⟨0, 0, z, w⟩).transpose)))⁻¹ 2 2) := by
  have e1 : q4 (yawAt z w 0) 0 = ⟨0, 0, z, w⟩ := by simp [q4, yawAt]
  have e2 : quat2Rot (q4 yawPrior.lin 0) = 1 := by
    have : q4 yawPrior.lin 0 = ⟨0, 0, 0, 1⟩ := by simp [q4, yawPrior]
    rw [this]
    apply m3_ext <;> simp only [q2r00, q2r01, q2r02, q2r10, q2r11, q2r12, q2r20, q2r21, q2r22, one00, one01, one02, one10, one11, one12, one20, one21, one22] <;>
      norm_num
  have h : ∑ i ∈ Finset.range yawPrior.ty.length, ∑ c ∈ Finset.range (yawPrior.ty.getD i .vec1).t, prJac yawPrior (yawAt z w) i 0 c * yawDir i c =
      hTheta (q4 (yawAt z w 0) 0) (q4 yawPrior.lin 0) 2 2 := by
    simp [yawPrior, Ty.t, Ty.l, Finset.sum_range_succ, yawDir, prJac, lSum, prH]
  rw [h, hTheta, thErr, e2, e1, Matrix.mul_one, Matrix.transpose_one, Matrix.mul_one, Matrix.neg_apply]

/-- about the vertical the right Jacobian's inverse changes nothing. -/
theorem jr_vertical (t : ℝ) (ht : 1e-6 ≤ |t|) (hc : Real.cos |t| ≠ 1) : (JrSO3 ![0, 0, t])⁻¹ 2 2 = 1 := by
  have hn : norm3 ![0, 0, t] = |t| := by
    unfold norm3
    simp only [dot3, Matrix.cons_val_zero, Matrix.cons_val_one, Matrix.cons_val]
    rw [← Real.sqrt_sq_eq_abs]; congr 1; ring
  have hp : 0 < |t| := lt_of_lt_of_le (by norm_num) ht
  have hdet : IsUnit (JrSO3 ![0, 0, t]).det := by
    rw [JrSO3_det (by rw [hn]; exact ht), isUnit_iff_ne_zero, hn]
    have : 0 < ((1 - Real.cos |t|) / |t|) ^ 2 := by
      have : (1 - Real.cos |t|) / |t| ≠ 0 := div_ne_zero (sub_ne_zero.2 hc.symm) hp.ne'
      positivity
    positivity
  have hz : (JrSO3 ![0, 0, t]).mulVec ![0, 0, 1] = ![0, 0, 1] := by
    have hn' : norm3 (-![0, 0, t]) = |t| := by rw [norm3_neg, hn]
    unfold JrSO3 JlSO3
    simp only [hn', if_neg (not_lt.2 ht)]
    have hsq : |t| * |t| = t * t := abs_mul_abs_self t
    apply v3_ext <;> simp only [m3_mulVec_apply] <;> simp [outer, skew]
    have : (1 / |t| * t) * (1 / |t| * t) = 1 := by field_simp; nlinarith
    simp at this
    rw [this]; ring
  have hinv : (JrSO3 ![0, 0, t])⁻¹.mulVec ![0, 0, 1] = ![0, 0, 1] := by
    conv_lhs => rw [← hz]
    rw [Matrix.mulVec_mulVec, Matrix.nonsing_inv_mul _ hdet, Matrix.one_mulVec]
  have := congrFun hinv 2
  rw [m3_mulVec_apply] at this
  simpa using this

/-- the curve of rotations the logarithm is taken of. -/
theorem yaw_curve {z w : ℝ} (h : z ^ 2 + w ^ 2 = 1) :
    ∃ E : ℝ → M3, E 0 = (quat2Rot ⟨0, 0, z, w⟩).transpose ∧ HasDm E (E 0 * skew ![0, 0, 1]) ∧
      ∀ e, prRes yawPrior (fun i => Spec.movedVar (yawPrior.ty.getD i .vec1) (yawAt z w i) (yawDir i) e) 0 = -(logSO3 (E e)) 2 := by
  have hq : IsUnitQ ⟨0, 0, z, w⟩ := by simp [IsUnitQ]; nlinarith
  obtain ⟨-, -, hder, h0⟩ := C99_plus ⟨0, 0, z, w⟩ hq
  have hE0 : (quat2Rot (plus ⟨0, 0, z, w⟩ ((0:ℝ) • ![0, 0, 1]))).transpose = (quat2Rot ⟨0, 0, z, w⟩).transpose := by rw [zero_smul, h0]
  refine ⟨fun e => (quat2Rot (plus ⟨0, 0, z, w⟩ (e • ![0, 0, 1]))).transpose, hE0, ?_, fun e => ?_⟩
  · refine (hder ![0, 0, 1]).tr.congr' ?_
    have hs : (skew ![0, 0, 1]).transpose = -skew ![0, 0, 1] := by apply m3_ext <;> simp [skew]
    simp only [hE0]
    rw [Matrix.transpose_mul, Matrix.transpose_neg, hs, neg_neg]
  · rw [yaw_res]
    have e0 : yawPrior.ty.getD 0 .vec1 = .quatYaw := rfl
    rw [e0, moved_q4 (Or.inr rfl)]
    simp [q4, yawAt, yawDir]

/-- the quaternion of a turn of 1e-4 rad, to be precise `4·atan(1/40000)`. -/
noncomputable def zSmall : ℝ := 80000 / 1600000001
noncomputable def wSmall : ℝ := 1599999999 / 1600000001

/-- **C102** counterexample. At about 1e-4 rad from its linearisation point, turning about the vertical, the prior's Jacobian is -1 but the residual's
derivative is not: the logarithm's expansion there is only approximate. -/
theorem C102_small_angle_counterexample :
    IsUnitQ (q4 (yawAt zSmall wSmall 0) 0) ∧ IsUnitQ (q4 yawPrior.lin 0) ∧
    ∃ r, HasDerivAt (fun e => prRes yawPrior (fun i => Spec.movedVar (yawPrior.ty.getD i .vec1) (yawAt zSmall wSmall i) (yawDir i) e) 0) r 0 ∧
      ∑ i ∈ Finset.range yawPrior.ty.length, ∑ c ∈ Finset.range (yawPrior.ty.getD i .vec1).t, prJac yawPrior (yawAt zSmall wSmall) i 0 c * yawDir i c ≠ r := by
  have hu : zSmall ^ 2 + wSmall ^ 2 = 1 := by unfold zSmall wSmall; norm_num
  refine ⟨by simp [q4, yawAt, IsUnitQ]; nlinarith, by simp [q4, yawPrior, IsUnitQ], ?_⟩
  obtain ⟨E, hE0, hE, hr⟩ := yaw_curve hu
  have ht := tr_deriv hE
  have t0 : tr3 (E 0) = 3 - 4 * zSmall ^ 2 := by
    rw [hE0]; simp only [tr3, Matrix.transpose_apply, q2r00, q2r11, q2r22]; nlinarith
  have b0 : (3 - 1e-7 : ℝ) < tr3 (E 0) := by rw [t0]; unfold zSmall; norm_num
  have ev := ht.continuousAt.eventually (lt_mem_nhds b0)
  have hmag := ((ht.sub_const 3).div_const 12).const_sub 0.5
  have hd := HasDv.smul' hmag (asym_deriv hE)
  have hlog : HasDv (fun e => logSO3 (E e)) _ := hd.congr_ev (by
    filter_upwards [ev] with e he
    exact log_near (by norm_num at he ⊢; linarith) (by linarith))
  refine ⟨_, ((hlog 2).neg).congr_of_eventuallyEq (Filter.Eventually.of_forall hr), ?_⟩
  have hl0 : logSO3 (E 0) = ![0, 0, (0.5 + zSmall ^ 2 / 3) * (4 * zSmall * wSmall)] := by
    have c1 : (1e-10 : ℝ) ≤ tr3 (E 0) + 1 := by norm_num at b0 ⊢; linarith
    have c2 : (-1e-7 : ℝ) ≤ tr3 (E 0) - 3 := by linarith
    rw [log_near c1 c2, t0, hE0]
    apply v3_ext <;> simp only [asym, Matrix.transpose_apply, Pi.smul_apply, smul_eq_mul, Matrix.cons_val_zero, Matrix.cons_val_one, Matrix.cons_val, q2r00, q2r01,
      q2r02, q2r10, q2r11, q2r12, q2r20, q2r21, q2r22] <;> ring
  rw [yaw_jac, ← hE0, hl0, jr_vertical]
  · intro h
    simp only [hE0, Pi.add_apply, Pi.smul_apply, smul_eq_mul, asym, tr3, Matrix.transpose_apply, m3_mul_apply, skew00, skew01, skew02, skew10, skew11, skew12,
      skew20, skew21, skew22, Matrix.cons_val_zero, Matrix.cons_val_one, Matrix.cons_val, q2r00, q2r01, q2r02, q2r10, q2r11, q2r12, q2r20, q2r21, q2r22] at h
    unfold zSmall wSmall at h
    norm_num at h
  · unfold zSmall wSmall
    rw [abs_of_pos (by norm_num)]
    norm_num
  · have hp : (0.5 + zSmall ^ 2 / 3) * (4 * zSmall * wSmall) > 0 := by unfold zSmall wSmall; norm_num
    have h1 : (0.5 + zSmall ^ 2 / 3) * (4 * zSmall * wSmall) < 1 := by unfold zSmall wSmall; norm_num
    rw [abs_of_pos hp]
    have := Real.cos_lt_cos_of_nonneg_of_le_pi (le_refl 0) (by linarith [Real.pi_gt_three]) hp
    rw [Real.cos_zero] at this
    exact this.ne

/-- **C102** counterexample. A half turn about the vertical from its linearisation point, the prior's Jacobian is -1 but the residual is computed by
another branch of the logarithm and its derivative is 0. -/
theorem C102_half_turn_counterexample :
    IsUnitQ (q4 (yawAt 1 0 0) 0) ∧ IsUnitQ (q4 yawPrior.lin 0) ∧
    HasDerivAt (fun e => prRes yawPrior (fun i => Spec.movedVar (yawPrior.ty.getD i .vec1) (yawAt 1 0 i) (yawDir i) e) 0) 0 0 ∧
      ∑ i ∈ Finset.range yawPrior.ty.length, ∑ c ∈ Finset.range (yawPrior.ty.getD i .vec1).t, prJac yawPrior (yawAt 1 0) i 0 c * yawDir i c = -1 := by
  refine ⟨by simp [q4, yawAt, IsUnitQ], by simp [q4, yawPrior, IsUnitQ], ?_⟩
  obtain ⟨E, hE0, hE, hr⟩ := yaw_curve (z := 1) (w := 0) (by norm_num)
  have ht := tr_deriv hE
  have t0 : tr3 (E 0) = -1 := by
    rw [hE0]; simp only [tr3, Matrix.transpose_apply, q2r00, q2r11, q2r22]; norm_num
  have z0 : E 0 2 2 = 1 := by rw [hE0]; simp only [Matrix.transpose_apply, q2r22]; norm_num
  have log_half : ∀ R : M3, tr3 R < -1 + 1e-10 → 0 < R 2 2 → logSO3 R = (Real.pi / Real.sqrt (2 + 2 * R 2 2)) • ![R 0 2, R 1 2, 1 + R 2 2] := by
    intro R h1 h2
    have h2' : |R 2 2 + 1| > 1e-5 := by rw [abs_of_pos (by linarith)]; norm_num; linarith
    unfold logSO3
    simp only [if_pos (show tr3 R + 1 < 1e-10 by linarith), if_pos h2']
  have ev1 := ht.continuousAt.eventually (gt_mem_nhds (show tr3 (E 0) < -1 + 1e-10 by rw [t0]; norm_num))
  have ev2 := (hE 2 2).continuousAt.eventually (lt_mem_nhds (show (0:ℝ) < E 0 2 2 by rw [z0]; norm_num))
  have hR' : (E 0 * skew ![0, 0, 1]) 2 2 = 0 := by
    rw [m3_mul_apply]; simp [skew]
  have h22 : HasDerivAt (fun e => E e 2 2) 0 0 := (hE 2 2).congr_deriv hR'
  have hsq := ((h22.const_mul 2).const_add 2).sqrt (by simp only [z0]; norm_num)
  have hs0 : Real.sqrt (2 + 2 * E 0 2 2) ≠ 0 := by rw [z0, Real.sqrt_ne_zero (by norm_num)]; norm_num
  have hq := ((hasDerivAt_const (0:ℝ) Real.pi).fun_div hsq hs0).fun_mul (h22.const_add 1)
  refine ⟨?_, ?_⟩
  · have := (hq.neg).congr_of_eventuallyEq (f₁ := fun e => prRes yawPrior (fun i => Spec.movedVar (yawPrior.ty.getD i .vec1) (yawAt 1 0 i) (yawDir i) e) 0) (by
      filter_upwards [ev1, ev2] with e he1 he2
      rw [hr, log_half _ he1 he2]
      simp)
    refine this.congr_deriv ?_
    simp
  · have hl0 : logSO3 (E 0) = ![0, 0, Real.pi] := by
      have hs : Real.sqrt (2 + 2 * 1) = 2 := by
        rw [show (2 + 2 * 1 : ℝ) = 2 ^ 2 by norm_num]; exact Real.sqrt_sq (by norm_num)
      rw [log_half _ (by rw [t0]; norm_num) (by rw [z0]; norm_num), z0, hs, hE0]
      apply v3_ext <;> simp only [Matrix.transpose_apply, Pi.smul_apply, smul_eq_mul, Matrix.cons_val_zero, Matrix.cons_val_one, Matrix.cons_val, q2r20, q2r21] <;> ring
    rw [yaw_jac, ← hE0, hl0, jr_vertical]
    · rw [abs_of_pos Real.pi_pos]; have := Real.pi_gt_three; norm_num; linarith
    · rw [abs_of_pos Real.pi_pos, Real.cos_pi]; norm_num

end Verif.Mle
