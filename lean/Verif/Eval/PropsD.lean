import Verif.Eval.PropsC
import Verif.Prop.Jac3
import Verif.Tri.Props

/-!
# C83: the errors reported do not depend on the choice of the global frames
-/

open Classical

namespace Verif.Eval

open Verif Verif.Prop_

theorem rot_diag_ge {E : M3} (h : IsRot E) : -1 ≤ E 0 0 ∧ -1 ≤ E 1 1 ∧ -1 ≤ E 2 2 := by
  obtain ⟨c00, c11, c22, -⟩ := h.rel
  have aux : ∀ a b c : ℝ, a * a + b * b + c * c = 1 → -1 ≤ a := by
    intro a b c h; nlinarith [mul_self_nonneg b, mul_self_nonneg c]
  exact ⟨aux _ (E 1 0) (E 2 0) (by linarith), aux _ (E 0 1) (E 2 1) (by linarith), aux _ (E 0 2) (E 1 2) (by linarith)⟩

theorem vee_sq {E : M3} (h : IsRot E) : (E 2 1 - E 1 2) ^ 2 + (E 0 2 - E 2 0) ^ 2 + (E 1 0 - E 0 1) ^ 2 = (3 - tr3 E) * (1 + tr3 E) := by
  obtain hp := rot2quatRaw_prods h
  have hr := hp.rot
  have hu : IsUnitQ (rot2quatRaw E) := hp.unit
  rw [← hr]
  unfold IsUnitQ at hu
  simp only [tr3, q2r00, q2r01, q2r02, q2r10, q2r11, q2r12, q2r20, q2r21, q2r22]
  generalize rot2quatRaw E = q at hu
  obtain ⟨x, y, z, w⟩ := q
  simp only at *
  have : w ^ 2 = 1 - x ^ 2 - y ^ 2 - z ^ 2 := by linarith
  grind

theorem norm3_scaled (c : ℝ) (hc : 0 ≤ c) (v : V3) : norm3 (c • v) = c * Real.sqrt (v 0 ^ 2 + v 1 ^ 2 + v 2 ^ 2) := by
  rw [norm3, show dot3 (c • v) (c • v) = c ^ 2 * (v 0 ^ 2 + v 1 ^ 2 + v 2 ^ 2) by simp [dot3]; ring, Real.sqrt_mul (sq_nonneg c), Real.sqrt_sq hc]

theorem norm3_scaled' (c : ℝ) (v : V3) : norm3 (c • v) = |c| * Real.sqrt (v 0 ^ 2 + v 1 ^ 2 + v 2 ^ 2) := by
  rw [norm3, show dot3 (c • v) (c • v) = c ^ 2 * (v 0 ^ 2 + v 1 ^ 2 + v 2 ^ 2) by simp [dot3]; ring, Real.sqrt_mul (sq_nonneg c), Real.sqrt_sq_eq_abs]

/-- the length of the logarithm depends on the trace only. -/
theorem log_norm {E : M3} (h : IsRot E) : norm3 (logSO3 E) =
    if tr3 E + 1 < 1e-10 then Real.pi else
      |(if tr3 E - 3 < -1e-7 then Real.arccos ((tr3 E - 1) / 2) / (2 * Real.sin (Real.arccos ((tr3 E - 1) / 2))) else 0.5 - (tr3 E - 3) / 12)| *
        Real.sqrt ((3 - tr3 E) * (1 + tr3 E)) := by
  have hd := rot_diag_ge h
  obtain ⟨c00, c11, c22, -⟩ := h.rel
  have pi0 := Real.pi_pos.le
  have fin : ∀ a b : ℝ, 0 < a → b = a → Real.pi / Real.sqrt a * Real.sqrt b = Real.pi := by
    intro a b ha hb; rw [hb, div_mul_cancel₀ _ (Real.sqrt_pos.2 ha).ne']
  by_cases h1 : tr3 E + 1 < 1e-10
  · rw [if_pos h1, logSO3]
    simp only [if_pos h1]
    by_cases h2 : |E 2 2 + 1| > 1e-5
    · rw [if_pos h2, norm3_scaled _ (by positivity)]
      have hp : 0 < E 2 2 + 1 := by
        rcases (show 0 ≤ E 2 2 + 1 by linarith).lt_or_eq with hl | he
        · exact hl
        · rw [← he] at h2; norm_num at h2
      apply fin
      · linarith
      · simp only [Matrix.cons_val_zero, Matrix.cons_val_one, Matrix.cons_val]; linear_combination c22
    · rw [if_neg h2]
      by_cases h3 : |E 1 1 + 1| > 1e-5
      · rw [if_pos h3, norm3_scaled _ (by positivity)]
        have hp : 0 < E 1 1 + 1 := by
          rcases (show 0 ≤ E 1 1 + 1 by linarith).lt_or_eq with hl | he
          · exact hl
          · rw [← he] at h3; norm_num at h3
        apply fin
        · linarith
        · simp only [Matrix.cons_val_zero, Matrix.cons_val_one, Matrix.cons_val]; linear_combination c11
      · rw [if_neg h3, norm3_scaled _ (by positivity)]
        have ht := rot_trace_ge h
        have a2 := (abs_le.1 (not_lt.1 h2)).2
        have a3 := (abs_le.1 (not_lt.1 h3)).2
        apply fin
        · try unfold tr3 at ht
          norm_num at a2 a3; linarith
        · simp only [Matrix.cons_val_zero, Matrix.cons_val_one, Matrix.cons_val]; linear_combination c00
  · rw [if_neg h1, logSO3]
    simp only [if_neg h1]
    rw [norm3_scaled']
    congr 2
    have := vee_sq h
    simp only [Matrix.cons_val_zero, Matrix.cons_val_one, Matrix.cons_val]
    linarith

theorem tr3_conj {R : M3} (hR : IsRot R) (E : M3) : tr3 (R * E * R.transpose) = tr3 E := by
  have e : ∀ A : M3, tr3 A = A.trace := fun A => by rw [Matrix.trace_fin_three, tr3]
  rw [e, e, Matrix.trace_mul_comm, ← Matrix.mul_assoc, hR.orth, Matrix.one_mul]

theorem log_norm_conj {R E : M3} (hR : IsRot R) (hE : IsRot E) : norm3 (logSO3 (R * E * R.transpose)) = norm3 (logSO3 E) := by
  rw [log_norm hE, log_norm ((hR.mul hE).mul hR.transpose), tr3_conj hR]

/-- the relative error in terms of rotations and positions. -/
theorem rpe_eq (c1 c2 m1 m2 : Pose) (h1 : IsUnitQ c1.q) (h2 : IsUnitQ c2.q) (h3 : IsUnitQ m1.q) (h4 : IsUnitQ m2.q) :
    rpeErr c1 c2 m1 m2 =
      (180 / Real.pi * norm3 (logSO3 (quat2Rot m2.q * (quat2Rot m1.q).transpose * (quat2Rot c1.q * (quat2Rot c2.q).transpose))),
        norm3 ((quat2Rot m2.q * (quat2Rot m1.q).transpose).mulVec ((quat2Rot c1.q).mulVec (c2.p - c1.p) - (quat2Rot m1.q).mulVec (m2.p - m1.p)))) := by
  have hC2 := quat2Rot_isRot h2
  have hTc : ∀ a b : Pose, invSE3 (toT a) * toT b = mkSE3 (quat2Rot a.q * (quat2Rot b.q).transpose) ((quat2Rot a.q).mulVec (b.p - a.p)) 1 := by
    intro a b
    unfold invSE3 toT
    simp only [rotBlock_mkSE3, posBlock_mkSE3, Matrix.transpose_transpose]
    rw [mkSE3_mul, one_smul, one_mul, Matrix.mulVec_sub, sub_eq_add_neg]
  have hrot : rotBlock (toT c2) = (quat2Rot c2.q).transpose := by unfold toT; exact rotBlock_mkSE3 _ _ _
  have herr : invSE3 (invSE3 (toT m1) * toT m2) * (invSE3 (toT c1) * toT c2) =
      mkSE3 (quat2Rot m2.q * (quat2Rot m1.q).transpose * (quat2Rot c1.q * (quat2Rot c2.q).transpose))
        ((quat2Rot m2.q * (quat2Rot m1.q).transpose).mulVec ((quat2Rot c1.q).mulVec (c2.p - c1.p) - (quat2Rot m1.q).mulVec (m2.p - m1.p))) 1 := by
    rw [hTc, hTc]
    unfold invSE3
    simp only [rotBlock_mkSE3, posBlock_mkSE3]
    rw [mkSE3_mul, one_smul, one_mul, Matrix.transpose_mul, Matrix.transpose_transpose, Matrix.mulVec_sub _ (Matrix.mulVec _ _), sub_eq_add_neg (Matrix.mulVec _ (Matrix.mulVec _ _))]
  unfold rpeErr
  simp only [herr, hrot]
  rw [mkSE3_mul, mkSE3_mul]
  simp only [rotBlock_mkSE3, posBlock_mkSE3, Matrix.mulVec_zero, smul_zero, add_zero, one_smul, zero_add, Matrix.transpose_transpose]
  have hE : IsRot (quat2Rot m2.q * (quat2Rot m1.q).transpose * (quat2Rot c1.q * (quat2Rot c2.q).transpose)) :=
    ((quat2Rot_isRot h4).mul (quat2Rot_isRot h3).transpose).mul ((quat2Rot_isRot h1).mul hC2.transpose)
  have := log_norm_conj hC2.transpose hE
  rw [Matrix.transpose_transpose] at this
  rw [this, Tri.norm3_rot hC2.transpose]

/-- **C83** Moving the whole estimated trajectory by any rotation and translation, or the groundtruth one by another, leaves the relative pose error of every
segment unchanged. -/
theorem C83_rpe_frame_independent (c1 c2 m1 m2 : Pose) (h1 : IsUnitQ c1.q) (h2 : IsUnitQ c2.q) (h3 : IsUnitQ m1.q) (h4 : IsUnitQ m2.q)
    (R S : M3) (hR : IsRot R) (hS : IsRot S) (t u : V3) :
    rpeErr (applyAlign (R, t, 1) c1) (applyAlign (R, t, 1) c2) (applyAlign (S, u, 1) m1) (applyAlign (S, u, 1) m2) = rpeErr c1 c2 m1 m2 := by
  obtain ⟨a1, b1⟩ := align_rot hR t 1 h1
  obtain ⟨a2, b2⟩ := align_rot hR t 1 h2
  obtain ⟨a3, b3⟩ := align_rot hS u 1 h3
  obtain ⟨a4, b4⟩ := align_rot hS u 1 h4
  have rel : ∀ {Q : M3}, IsRot Q → ∀ A B : M3, (A * Q.transpose) * (B * Q.transpose).transpose = A * B.transpose := by
    intro Q hQ A B
    rw [Matrix.transpose_mul, Matrix.transpose_transpose, Matrix.mul_assoc, ← Matrix.mul_assoc Q.transpose, hQ.orth, Matrix.one_mul]
  have pos : ∀ {Q : M3} (w : V3), IsRot Q → ∀ (A : M3) (x y : Pose), (A * Q.transpose).mulVec ((applyAlign (Q, w, 1) y).p - (applyAlign (Q, w, 1) x).p) = A.mulVec (y.p - x.p) := by
    intro Q w hQ A x y
    simp only [applyAlign, one_smul, add_sub_add_right_eq_sub]
    rw [← Matrix.mulVec_sub, Matrix.mulVec_mulVec, Matrix.mul_assoc, hQ.orth, Matrix.mul_one]
  rw [rpe_eq _ _ _ _ a1 a2 a3 a4, rpe_eq _ _ _ _ h1 h2 h3 h4, b1, b2, b3, b4, rel hR, rel hS, pos t hR, pos u hS]

theorem log_norm_one : norm3 (logSO3 1) = 0 := by
  have h := log_norm IsRot.one
  have ht : tr3 (1 : M3) = 3 := by simp [tr3]; norm_num
  rw [ht] at h
  rw [h]; norm_num

/-- **C83** The relative pose error is zero for a trajectory that differs from groundtruth by a rotation and translation only; conversely a zero position error
means that the relative displacement is reproduced exactly. -/
theorem C83_rpe_zero (m1 m2 : Pose) (h3 : IsUnitQ m1.q) (h4 : IsUnitQ m2.q) (R : M3) (hR : IsRot R) (t : V3) :
    rpeErr (applyAlign (R, t, 1) m1) (applyAlign (R, t, 1) m2) m1 m2 = (0, 0) ∧
    ∀ c1 c2 : Pose, IsUnitQ c1.q → IsUnitQ c2.q → (rpeErr c1 c2 m1 m2).2 = 0 → (quat2Rot c1.q).mulVec (c2.p - c1.p) = (quat2Rot m1.q).mulVec (m2.p - m1.p) := by
  have hM1 := quat2Rot_isRot h3
  have hM2 := quat2Rot_isRot h4
  constructor
  · have e := C83_rpe_frame_independent m1 m2 m1 m2 h3 h4 h3 h4 R 1 hR IsRot.one t 0
    have e' := C83_rpe_frame_independent (applyAlign (R, t, 1) m1) (applyAlign (R, t, 1) m2) m1 m2 (align_rot hR t 1 h3).1 (align_rot hR t 1 h4).1 h3 h4 1 1 IsRot.one IsRot.one 0 0
    rw [rpe_eq _ _ _ _ h3 h4 h3 h4] at e
    have a : rpeErr (applyAlign (R, t, 1) m1) (applyAlign (R, t, 1) m2) m1 m2 = rpeErr m1 m2 m1 m2 := by
      have := C83_rpe_frame_independent m1 m2 m1 m2 h3 h4 h3 h4 R R hR hR t t
      obtain ⟨a1, b1⟩ := align_rot hR t 1 h3
      obtain ⟨a2, b2⟩ := align_rot hR t 1 h4
      rw [rpe_eq _ _ _ _ a1 a2 h3 h4, rpe_eq _ _ _ _ h3 h4 h3 h4, b1, b2]
      have r1 : (quat2Rot m1.q * R.transpose) * (quat2Rot m2.q * R.transpose).transpose = quat2Rot m1.q * (quat2Rot m2.q).transpose := by
        rw [Matrix.transpose_mul, Matrix.transpose_transpose, Matrix.mul_assoc, ← Matrix.mul_assoc R.transpose, hR.orth, Matrix.one_mul]
      have r2 : (quat2Rot m1.q * R.transpose).mulVec ((applyAlign (R, t, 1) m2).p - (applyAlign (R, t, 1) m1).p) = (quat2Rot m1.q).mulVec (m2.p - m1.p) := by
        simp only [applyAlign, one_smul, add_sub_add_right_eq_sub]
        rw [← Matrix.mulVec_sub, Matrix.mulVec_mulVec, Matrix.mul_assoc, hR.orth, Matrix.mul_one]
      rw [r1, r2]
    rw [a, rpe_eq _ _ _ _ h3 h4 h3 h4, sub_self, Matrix.mulVec_zero]
    have i : quat2Rot m2.q * (quat2Rot m1.q).transpose * (quat2Rot m1.q * (quat2Rot m2.q).transpose) = 1 := by
      rw [Matrix.mul_assoc, ← Matrix.mul_assoc _ (quat2Rot m1.q), hM1.orth, Matrix.one_mul, hM2.orth']
    rw [i, log_norm_one, norm3_eq_zero.2 rfl, mul_zero]
  · intro c1 c2 h1 h2 h0
    rw [rpe_eq _ _ _ _ h1 h2 h3 h4] at h0
    simp only at h0
    rw [Tri.norm3_rot (hM2.mul hM1.transpose)] at h0
    exact sub_eq_zero.1 (norm3_eq_zero.1 h0)

/-- **C83** If the groundtruth positions are a rotated and translated copy of the estimated ones, full SE(3) alignment leaves no position error at any pose. -/
theorem C83_exact_alignment (svd : M3 → M3 × V3 × M3) (data : List V3) (hne : data ≠ []) (R0 : M3) (h0 : IsRot R0) (t0 : V3)
    (hsvd : Spec.IsSVD (corr data (data.map fun d => R0.mulVec d + t0)) (svd (corr data (data.map fun d => R0.mulVec d + t0)))) :
    ∃ R t, umeyama svd data (data.map fun d => R0.mulVec d + t0) true false = some (R, t, 1) ∧ ∀ d ∈ data, R.mulVec d + t = R0.mulVec d + t0 := by
  obtain ⟨R, t, hu, hR, -, hopt⟩ := C57_se3_optimal svd data (data.map fun d => R0.mulVec d + t0) (by simp) hne hsvd
  refine ⟨R, t, hu, ?_⟩
  have hle := hopt R0 t0 h0
  have hzip : List.zip data (data.map fun d => R0.mulVec d + t0) = data.map fun d => (d, R0.mulVec d + t0) := by
    clear hsvd hu hopt hle hne
    induction data with
    | nil => rfl
    | cons a l ih => simpa using ih
  have hz : Spec.cost R0 t0 1 data (data.map fun d => R0.mulVec d + t0) = 0 := by
    rw [Spec.cost, hzip, List.map_map]
    apply List.sum_eq_zero
    intro x hx
    obtain ⟨d, _, rfl⟩ := List.mem_map.1 hx
    simp [dot3]
  rw [hz] at hle
  intro d hd
  rw [Spec.cost, hzip, List.map_map] at hle
  have hnn : ∀ z ∈ data.map ((fun x : V3 × V3 => dot3 (x.2 - ((1 : ℝ) • R.mulVec x.1 + t)) (x.2 - ((1 : ℝ) • R.mulVec x.1 + t))) ∘ fun d => (d, R0.mulVec d + t0)), 0 ≤ z := by
    intro z hz; obtain ⟨w, _, rfl⟩ := List.mem_map.1 hz; exact dot3_self_nonneg _
  have h1 := List.single_le_sum hnn _ (List.mem_map.2 ⟨d, hd, rfl⟩)
  have h2 := le_antisymm (h1.trans hle) (dot3_self_nonneg _)
  simp only [one_smul, Function.comp_apply] at h2
  have h3 : norm3 (R0.mulVec d + t0 - (R.mulVec d + t)) = 0 := by rw [norm3, h2, Real.sqrt_zero]
  exact (sub_eq_zero.1 (norm3_eq_zero.1 h3)).symm

/-- two distinct poses with unit quaternions: the hypotheses above are met by a non-trivial segment. -/
example : IsUnitQ (⟨![0, 0, 0], ⟨0, 0, 0, 1⟩⟩ : Pose).q ∧ IsUnitQ (⟨![1, 2, 3], ⟨0.6, 0, 0, 0.8⟩⟩ : Pose).q := by
  constructor <;> norm_num [IsUnitQ]

end Verif.Eval
