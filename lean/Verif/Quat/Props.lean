import Verif.Quat.Log
import Mathlib.Analysis.Calculus.Deriv.Inv
import Mathlib.Analysis.Calculus.Deriv.Pow
import Mathlib.Analysis.Calculus.Deriv.Pi

/-!
# C23, C24, C25, C68, C69, C70: quaternion and Lie-group utilities (quat_ops.h)
-/

set_option linter.unusedSimpArgs false

namespace Verif.QuatProps

open Verif Matrix

/-! ## C23 -/

/-- **C23** For unit quaternions the product is a unit quaternion with non-negative scalar part, and it
composes the rotations in the same order. -/
theorem C23_quat_multiply (q p : Quat) (hq : IsUnitQ q) (hp : IsUnitQ p) :
    IsUnitQ (quatMul q p) ∧ 0 ≤ (quatMul q p).w ∧
      quat2Rot (quatMul q p) = quat2Rot q * quat2Rot p := by
  have hu := unit_mulRaw hq hp
  have hc := canon_quatnorm (normSq_of_unit hu)
  refine ⟨hc.1, hc.2, ?_⟩
  rw [quatMul_eq_quatnorm, quat2Rot_quatnorm_of_unit hu, quat2Rot_mulRaw hq hp]

/-- **C23** `Inv` gives the transposed rotation, and multiplying a stored quaternion by its inverse gives the
identity quaternion `(0,0,0,1)` on both sides. -/
theorem C23_quat_inverse (q : Quat) (hq : IsUnitQ q) :
    IsUnitQ (quatInv q) ∧ quat2Rot (quatInv q) = (quat2Rot q).transpose ∧
      quatMul q (quatInv q) = ⟨0, 0, 0, 1⟩ ∧ quatMul (quatInv q) q = ⟨0, 0, 0, 1⟩ := by
  have hr1 : quatMulRaw q (quatInv q) = ⟨0, 0, 0, 1⟩ := by
    unfold IsUnitQ at hq
    simp only [quatMulRaw, quatInv]
    ext <;> simp <;> linarith
  have hr2 : quatMulRaw (quatInv q) q = ⟨0, 0, 0, 1⟩ := by
    unfold IsUnitQ at hq
    simp only [quatMulRaw, quatInv]
    ext <;> simp <;> linarith
  have hid : CanonQ ⟨0, 0, 0, 1⟩ := by constructor <;> simp [IsUnitQ]
  refine ⟨?_, ?_, ?_, ?_⟩
  · unfold IsUnitQ at *; simp only [quatInv, neg_sq]; exact hq
  · apply m3_ext <;> simp only [Matrix.transpose_apply, q2r00, q2r01, q2r02, q2r10, q2r11, q2r12, q2r20, q2r21, q2r22,
      quatInv] <;> ring
  · rw [quatMul_eq_quatnorm, hr1, quatnorm_of_canon hid]
  · rw [quatMul_eq_quatnorm, hr2, quatnorm_of_canon hid]

/-- **C23** The identity quaternion is neutral for stored quaternions, and the product is associative up to the
overall sign (which represents the same rotation and only matters when the scalar part is zero). -/
theorem C23_quat_group (q p r : Quat) (hq : CanonQ q) (hp : IsUnitQ p) (hr : IsUnitQ r) :
    quatMul ⟨0, 0, 0, 1⟩ q = q ∧ quatMul q ⟨0, 0, 0, 1⟩ = q ∧
      (quatMul (quatMul q p) r = quatMul q (quatMul p r) ∨
        quatMul (quatMul q p) r = (quatMul q (quatMul p r)).neg) := by
  have hr1 : quatMulRaw ⟨0, 0, 0, 1⟩ q = q := by
    simp only [quatMulRaw]; ext <;> simp
  have hr2 : quatMulRaw q ⟨0, 0, 0, 1⟩ = q := by
    simp only [quatMulRaw]; ext <;> simp
  refine ⟨by rw [quatMul_eq_quatnorm, hr1, quatnorm_of_canon hq],
    by rw [quatMul_eq_quatnorm, hr2, quatnorm_of_canon hq], ?_⟩
  have negL : ∀ a b : Quat, quatMulRaw a.neg b = (quatMulRaw a b).neg := by
    intro a b; simp only [quatMulRaw, Quat.neg]; ext <;> simp <;> ring
  have negR : ∀ a b : Quat, quatMulRaw a b.neg = (quatMulRaw a b).neg := by
    intro a b; simp only [quatMulRaw, Quat.neg]; ext <;> simp <;> ring
  have assoc : quatMulRaw (quatMulRaw q p) r = quatMulRaw q (quatMulRaw p r) := by
    simp only [quatMulRaw]; ext <;> simp <;> ring
  have nn : ∀ a : Quat, a.neg.neg = a := by intro a; simp [Quat.neg]
  have hqp := unit_mulRaw hq.1 hp
  have hpr := unit_mulRaw hp hr
  have key : ∀ a : Quat, IsUnitQ a → quatnorm a = a ∨ quatnorm a = a.neg := by
    intro a ha; rw [quatnorm_of_unit ha]; split_ifs <;> simp
  have hL : quatMul (quatMul q p) r = quatMulRaw (quatMulRaw q p) r ∨
      quatMul (quatMul q p) r = (quatMulRaw (quatMulRaw q p) r).neg := by
    rw [quatMul_eq_quatnorm, quatMul_eq_quatnorm]
    rcases key _ hqp with h | h <;> rw [h]
    · exact key _ (unit_mulRaw hqp hr)
    · rw [negL]
      rcases key _ (unit_neg (unit_mulRaw hqp hr)) with h | h <;> rw [h]
      · right; rfl
      · left; rw [nn]
  have hR : quatMul q (quatMul p r) = quatMulRaw q (quatMulRaw p r) ∨
      quatMul q (quatMul p r) = (quatMulRaw q (quatMulRaw p r)).neg := by
    rw [quatMul_eq_quatnorm, quatMul_eq_quatnorm]
    rcases key _ hpr with h | h <;> rw [h]
    · exact key _ (unit_mulRaw hq.1 hpr)
    · rw [negR]
      rcases key _ (unit_neg (unit_mulRaw hq.1 hpr)) with h | h <;> rw [h]
      · right; rfl
      · left; rw [nn]
  rcases hL with h | h <;> rcases hR with h' | h' <;> rw [h, h', assoc]
  · left; rfl
  · right; rw [nn]
  · right; rfl
  · left; rfl

/-- Non-vacuity: 90° about z times 90° about x. -/
example : ∃ q p : Quat, IsUnitQ q ∧ IsUnitQ p ∧ (quatMul q p).x ≠ 0 ∧ (quatMul q p).z ≠ 0 := by
  have hn : Quat.norm ⟨0.48, 0.48, 0.36, 0.64⟩ = 1 := norm_of_unit (by norm_num [IsUnitQ])
  refine ⟨⟨0, 0.6, 0, 0.8⟩, ⟨0.6, 0, 0, 0.8⟩, by norm_num [IsUnitQ], by norm_num [IsUnitQ], ?_, ?_⟩ <;>
    rw [quatMul_eq_quatnorm, quatnorm_of_unit (unit_mulRaw (by norm_num [IsUnitQ]) (by norm_num [IsUnitQ]))] <;>
    norm_num [quatMulRaw]

/-! ## C24 -/

/-- **C24** A unit quaternion gives a rotation matrix, and every rotation matrix is recovered exactly by
`rot_2_quat` followed by `quat_2_Rot`; the quaternion returned is unit with non-negative scalar part. -/
theorem C24_rotation_round_trip :
    (∀ q : Quat, IsUnitQ q → IsRot (quat2Rot q)) ∧
    (∀ R : M3, IsRot R → CanonQ (rot2quat R) ∧ quat2Rot (rot2quat R) = R) := by
  refine ⟨fun q hq => quat2Rot_isRot hq, fun R hR => ?_⟩
  have hp := rot2quatRaw_prods hR
  refine ⟨canon_quatnorm (normSq_of_unit hp.unit), ?_⟩
  rw [rot2quat_eq_quatnorm, quat2Rot_quatnorm_of_unit hp.unit, hp.rot]

/-- **C24** conversely a stored quaternion with positive scalar part is recovered exactly from its rotation. -/
theorem C24_quaternion_round_trip (q : Quat) (hq : IsUnitQ q) (hw : 0 < q.w) :
    rot2quat (quat2Rot q) = q := by
  have hR := quat2Rot_isRot hq
  have hp := rot2quatRaw_prods hR
  have hcan := canon_quatnorm (normSq_of_unit hp.unit)
  have h4 : Prods (rot2quat (quat2Rot q)) (quat2Rot q) := by
    rw [rot2quat_eq_quatnorm, quatnorm_of_unit hp.unit]
    split_ifs
    · obtain ⟨a, b, c, d, e, f, g, h, i, j⟩ := hp
      constructor <;> simp only [Quat.neg, neg_mul_neg] <;> assumption
    · exact hp
  have hcan' : 0 ≤ (rot2quat (quat2Rot q)).w := by rw [rot2quat_eq_quatnorm]; exact hcan.2
  generalize rot2quat (quat2Rot q) = r at h4 hcan'
  obtain ⟨a, b, c, d, e, f, g, h, i, j⟩ := h4
  simp only [q2r00, q2r01, q2r02, q2r10, q2r11, q2r12, q2r20, q2r21, q2r22] at a b c d e f g
  unfold IsUnitQ at hq
  have hww : r.w * r.w = q.w * q.w := by nlinarith
  have hw' : r.w = q.w := by
    rcases mul_self_eq_mul_self_iff.1 hww with h | h
    · exact h
    · linarith
  rw [hw'] at e f g
  have hne := hw.ne'
  ext
  · exact mul_left_cancel₀ hne (by linarith)
  · exact mul_left_cancel₀ hne (by linarith)
  · exact mul_left_cancel₀ hne (by linarith)
  · exact hw'

/-- Non-vacuity: each of the four branches of `rot_2_quat` is taken by some rotation. -/
example : IsRot !![1, 0, 0; 0, -1, 0; 0, 0, -1] ∧ IsRot !![-1, 0, 0; 0, 1, 0; 0, 0, -1] ∧
    IsRot !![-1, 0, 0; 0, -1, 0; 0, 0, 1] ∧ IsRot (1 : M3) := by
  refine ⟨⟨?_, ?_⟩, ⟨?_, ?_⟩, ⟨?_, ?_⟩, IsRot.one⟩
  all_goals first
    | (rw [Matrix.det_fin_three]; simp)
    | (apply m3_ext <;> simp [m3_mul_apply, Matrix.transpose_apply])

/-! ## C25 -/

/-- **C25** `exp_so3` returns a rotation, and negating the argument transposes it. -/
theorem C25_exp_rotation (w : V3) :
    (1e-7 ≤ norm3 w ∨ w = 0 → IsRot (expSO3 w)) ∧ expSO3 (-w) = (expSO3 w).transpose := by
  constructor
  · rintro (h | h)
    · exact expSO3_isRot_of_le h
    · subst h; have : norm3 0 = 0 := norm3_eq_zero.2 rfl
      simp only [expSO3, this, if_true]; exact IsRot.one
  · have hn : norm3 (-w) = norm3 w := by simp [norm3, dot3]
    unfold expSO3
    simp only [hn]
    split_ifs
    · simp
    · rw [Matrix.transpose_add, Matrix.transpose_add, Matrix.transpose_smul, Matrix.transpose_smul,
        Matrix.transpose_mul, skew_transpose, skew_neg, Matrix.transpose_one]

/-- **C25 (limit of the claim)** Between 0 and 1e-7 rad the small-angle branch is used and the result is *not*
exactly orthogonal; the defect is `(|w|²/4)·⌊w⌋²`, i.e. below 1e-28 in every entry. -/
theorem C25_exp_small_angle_defect (w : V3) (h0 : 0 < norm3 w) (h : norm3 w < 1e-7) :
    (expSO3 w).transpose * expSO3 w ≠ 1 ∧
    ∀ i j, |((expSO3 w).transpose * expSO3 w) i j - (1 : M3) i j| ≤ 1e-28 := by
  have he : expSO3 w = rodr 1 0.5 w := by
    rw [expSO3_eq h0.ne', expA, expB, if_pos h, if_pos h]
  have ht : (rodr 1 0.5 w).transpose = rodr (-1) 0.5 w := by
    unfold rodr
    rw [Matrix.transpose_add, Matrix.transpose_add, Matrix.transpose_smul, Matrix.transpose_smul,
        Matrix.transpose_mul, skew_transpose, Matrix.transpose_one]
    simp
  have hp : (expSO3 w).transpose * expSO3 w = rodr 0 (-(dot3 w w) / 4) w := by
    rw [he, ht, rodr_mul]; congr 1 <;> norm_num; ring
  have hd := norm3_sq w
  have hd' := norm3_sq' w
  have hsmall : dot3 w w ≤ 1e-14 := by rw [← hd]; norm_num at h ⊢; nlinarith
  have hdpos : 0 < dot3 w w := by rw [← hd]; positivity
  have hdd : dot3 w w = w 0 * w 0 + w 1 * w 1 + w 2 * w 2 := rfl
  rw [hp]
  constructor
  · intro hone
    have t1 : tr3 (rodr 0 (-(dot3 w w) / 4) w) = tr3 1 := by rw [hone]
    rw [tr_rodr, ← hdd] at t1
    simp [tr3] at t1
    nlinarith
  · have sq_le : ∀ i : Fin 3, w i * w i ≤ dot3 w w := by
      have h0 := mul_self_nonneg (w 0)
      have h1 := mul_self_nonneg (w 1)
      have h2 := mul_self_nonneg (w 2)
      intro i; rw [hdd]; fin_cases i <;> simp <;> linarith
    have m : ∀ i j : Fin 3, |w i * w j| ≤ dot3 w w := by
      intro i j
      have hi := sq_le i
      have hj := sq_le j
      have a1 := mul_self_nonneg (w i + w j)
      have a2 := mul_self_nonneg (w i - w j)
      rw [abs_le]
      constructor <;> linarith
    have hsq : dot3 w w * dot3 w w ≤ 1e-28 := by
      calc dot3 w w * dot3 w w ≤ 1e-14 * 1e-14 := by apply mul_le_mul <;> linarith [show (0:ℝ) ≤ 1e-14 by norm_num]
        _ = 1e-28 := by norm_num
    have offd : ∀ i j : Fin 3, |-(dot3 w w) / 4 * (w i * w j)| ≤ 1e-28 := by
      intro i j
      rw [abs_mul, abs_div, abs_neg, abs_of_pos hdpos, abs_of_pos (show (0:ℝ) < 4 by norm_num)]
      have hm := m i j
      have h0 := abs_nonneg (w i * w j)
      calc dot3 w w / 4 * |w i * w j| ≤ dot3 w w / 4 * dot3 w w := by
            apply mul_le_mul_of_nonneg_left hm; linarith
        _ ≤ dot3 w w * dot3 w w := by
            have := mul_pos hdpos hdpos; linarith
        _ ≤ 1e-28 := hsq
    have ond : ∀ i j : Fin 3, i ≠ j → |1 - -(dot3 w w) / 4 * (w i * w i + w j * w j) - 1| ≤ 1e-28 := by
      intro i j hij
      have hle : w i * w i + w j * w j ≤ dot3 w w := by
        rw [hdd]
        have h0 := mul_self_nonneg (w 0)
        have h1 := mul_self_nonneg (w 1)
        have h2 := mul_self_nonneg (w 2)
        fin_cases i <;> fin_cases j <;> first | (exact absurd rfl hij) | (simp; linarith)
      have hge : 0 ≤ w i * w i + w j * w j := add_nonneg (mul_self_nonneg _) (mul_self_nonneg _)
      rw [show 1 - -(dot3 w w) / 4 * (w i * w i + w j * w j) - 1 = dot3 w w / 4 * (w i * w i + w j * w j) by ring,
        abs_of_nonneg (mul_nonneg (by linarith) hge)]
      calc dot3 w w / 4 * (w i * w i + w j * w j) ≤ dot3 w w / 4 * dot3 w w := by
            apply mul_le_mul_of_nonneg_left hle; linarith
        _ ≤ dot3 w w * dot3 w w := by
            have := mul_pos hdpos hdpos; linarith
        _ ≤ 1e-28 := hsq
    intro i j
    fin_cases i <;> fin_cases j
    · simp only [Fin.mk_zero, Fin.mk_one, Fin.reduceFinMk, Fin.zero_eta, rodr00, one00]; exact ond 1 2 (by decide)
    · simp only [Fin.mk_zero, Fin.mk_one, Fin.reduceFinMk, Fin.zero_eta, rodr01, one01]; simpa using offd 0 1
    · simp only [Fin.mk_zero, Fin.mk_one, Fin.reduceFinMk, Fin.zero_eta, rodr02, one02]; simpa using offd 0 2
    · simp only [Fin.mk_zero, Fin.mk_one, Fin.reduceFinMk, Fin.zero_eta, rodr10, one10]; simpa using offd 0 1
    · simp only [Fin.mk_zero, Fin.mk_one, Fin.reduceFinMk, Fin.zero_eta, rodr11, one11]; exact ond 0 2 (by decide)
    · simp only [Fin.mk_zero, Fin.mk_one, Fin.reduceFinMk, Fin.zero_eta, rodr12, one12]; simpa using offd 1 2
    · simp only [Fin.mk_zero, Fin.mk_one, Fin.reduceFinMk, Fin.zero_eta, rodr20, one20]; simpa using offd 0 2
    · simp only [Fin.mk_zero, Fin.mk_one, Fin.reduceFinMk, Fin.zero_eta, rodr21, one21]; simpa using offd 1 2
    · simp only [Fin.mk_zero, Fin.mk_one, Fin.reduceFinMk, Fin.zero_eta, rodr22, one22]; exact ond 0 1 (by decide)

/-- **C25** `log_so3` inverts `exp_so3` for every rotation vector whose length is between 1e-3 and π − 1e-4
(outside the code's small-angle and near-π branches). -/
theorem C25_log_exp (w : V3) (h1 : 1e-3 ≤ norm3 w) (h2 : norm3 w ≤ Real.pi - 1e-4) :
    logSO3 (expSO3 w) = w := by
  obtain ⟨a, b⟩ := cos_bounds h1 h2
  exact log_exp_of_branch (by norm_num at h1 ⊢; linarith) (by norm_num at h2 ⊢; linarith) a b

/-- **C25** SE(3): `Inv_se3` is the group inverse, rigid transforms compose, `exp_se3` is a rigid transform whose
rotation block is `exp_so3`, and `log_se3` inverts it on the regular range. -/
theorem C25_se3 :
    (∀ T : M4, IsSE3 T → IsSE3 (invSE3 T) ∧ invSE3 T * T = 1 ∧ T * invSE3 T = 1) ∧
    (∀ T S : M4, IsSE3 T → IsSE3 S → IsSE3 (T * S)) ∧
    (∀ w u : V3, 1e-7 ≤ norm3 w ∨ w = 0 → IsSE3 (expSE3 w u) ∧ rotBlock (expSE3 w u) = expSO3 w) ∧
    (∀ w u : V3, 1e-3 ≤ norm3 w → norm3 w ≤ Real.pi - 1e-4 → logSE3 (expSE3 w u) = (w, u)) ∧
    (∀ u : V3, logSE3 (expSE3 0 u) = (0, u)) := by
  refine ⟨?_, ?_, ?_, ?_, ?_⟩
  · intro T hT
    have hinv : invSE3 T * T = 1 := by
      conv_lhs => rw [hT.eq_mk]
      unfold invSE3
      simp only [rotBlock_mkSE3, posBlock_mkSE3]
      rw [mkSE3_mul, hT.rot.orth, one_smul, add_neg_cancel, mul_one, mkSE3_one]
    exact ⟨isSE3_mk hT.rot.transpose _, hinv, mul_eq_one_comm.1 hinv⟩
  · intro T S hT hS
    rw [hT.eq_mk, hS.eq_mk, mkSE3_mul, mul_one]
    exact isSE3_mk (hT.rot.mul hS.rot) _
  · intro w u hw
    have hR : 1 + expA (norm3 w) • skew w + expB (norm3 w) • (skew w * skew w) = expSO3 w := by
      rcases hw with h | h
      · have h0 : norm3 w ≠ 0 := by
          have : (0 : ℝ) < 1e-7 := by norm_num
          linarith
        simp [expSO3, h0]
      · subst h
        have hz : skew 0 = 0 := by apply m3_ext <;> simp [skew]
        have : norm3 0 = 0 := norm3_eq_zero.2 rfl
        simp [expSO3, this, hz]
    have he : expSE3 w u = mkSE3 (expSO3 w) ((1 + expB (norm3 w) • skew w + expC (norm3 w) • (skew w * skew w)).mulVec u) 1 := by
      unfold expSE3; simp only [hR]
    rw [he]
    exact ⟨isSE3_mk ((C25_exp_rotation w).1 hw) _, rotBlock_mkSE3 _ _ _⟩
  · intro w u h1 h2
    exact log_exp_se3 (by norm_num at h1 ⊢; linarith) (by norm_num at h2 ⊢; linarith) (C25_log_exp w h1 h2)
  · intro u
    have hz : skew 0 = 0 := by apply m3_ext <;> simp [skew]
    have he : expSE3 0 u = mkSE3 1 u 1 := by simp [expSE3, hz]
    have hl : logSO3 1 = 0 := by
      unfold logSO3; simp only [tr3, one00, one11, one22]
      rw [if_neg (by norm_num), if_neg (by norm_num)]
      apply v3_ext <;> simp
    rw [he, logSE3]
    simp only [rotBlock_mkSE3, posBlock_mkSE3, hl]
    have : norm3 0 = 0 := norm3_eq_zero.2 rfl
    rw [this, if_pos (by norm_num)]

/-- **C25** `vee` inverts `skew_x`, and `skew_x` is the cross-product matrix (`⌊a⌋b = -⌊b⌋a`, `⌊a⌋a = 0`). -/
theorem C25_skew_vee (a b : V3) :
    vee (skew a) = a ∧ (skew a).mulVec b = -(skew b).mulVec a ∧ (skew a).mulVec a = 0 ∧
      dot3 a ((skew a).mulVec b) = 0 := by
  refine ⟨?_, ?_, ?_, ?_⟩
  · apply v3_ext <;> simp [vee, skew]
  · apply v3_ext <;> simp only [m3_mulVec_apply, Pi.neg_apply, skew00, skew01, skew02, skew10, skew11, skew12, skew20,
      skew21, skew22] <;> ring
  · apply v3_ext <;> simp only [m3_mulVec_apply, Pi.zero_apply, skew00, skew01, skew02, skew10, skew11, skew12, skew20,
      skew21, skew22] <;> ring
  · simp only [dot3, m3_mulVec_apply, skew00, skew01, skew02, skew10, skew11, skew12, skew20, skew21, skew22]; ring

/-- Non-vacuity: the vector (1,1,1) is in the regular range. -/
example : 1e-3 ≤ norm3 ![1, 1, 1] ∧ norm3 ![1, 1, 1] ≤ Real.pi - 1e-4 := by
  have h : dot3 ![1, 1, 1] ![1, 1, 1] = 3 := by simp [dot3]; norm_num
  have hpi := Real.pi_gt_three
  unfold norm3
  rw [h]
  have h1 : (1:ℝ) ≤ Real.sqrt 3 := Real.one_le_sqrt.2 (by norm_num)
  have h2 : Real.sqrt 3 ≤ 2 := by
    rw [Real.sqrt_le_left (by norm_num)]; norm_num
  constructor <;> norm_num <;> linarith

/-! ## C68 -/

/-- **C68** Conversely `exp_so3(log_so3(R)) = R` for every rotation matrix that is not within the Taylor branch
of `log_so3`, including every rotation by exactly π. -/
theorem C68_exp_log (R : M3) (hR : IsRot R)
    (h : (1e-10 ≤ tr3 R + 1 ∧ tr3 R - 3 < -1e-7) ∨ tr3 R = -1) : expSO3 (logSO3 R) = R := by
  rcases h with ⟨h1, h2⟩ | h
  · exact exp_log_regular hR h1 h2
  · exact exp_log_pi hR h

/-- Non-vacuity: a rotation by π about x and one by 90° about z. -/
example : tr3 !![1, 0, 0; 0, -1, 0; 0, 0, -1] = -1 ∧ tr3 !![0, -1, 0; 1, 0, 0; 0, 0, 1] = 1 := by
  constructor <;> simp [tr3]

/-! ## C69 -/

/-- The explicit rotation of the perturbing quaternion `quatnorm([½δθ;1])`. -/
theorem quat2Rot_perturb (a : V3) :
    quat2Rot (quatnorm ⟨0.5 * a 0, 0.5 * a 1, 0.5 * a 2, 1⟩) =
      (1 + dot3 a a / 4)⁻¹ • ((1 - dot3 a a / 4) • (1 : M3) - skew a + (1 / 2 : ℝ) • outer a a) := by
  have hn : Quat.normSq ⟨0.5 * a 0, 0.5 * a 1, 0.5 * a 2, 1⟩ = 1 + dot3 a a / 4 := by
    simp only [Quat.normSq, dot3]; norm_num; ring
  have hpos : 0 < 1 + dot3 a a / 4 := by linarith [dot3_self_nonneg a]
  have hs := Real.sq_sqrt hpos.le
  have hsp : Real.sqrt (1 + dot3 a a / 4) ≠ 0 := (Real.sqrt_pos.2 hpos).ne'
  have hdd : dot3 a a = a 0 * a 0 + a 1 * a 1 + a 2 * a 2 := rfl
  unfold quatnorm
  simp only [if_neg (show ¬ ((1:ℝ) < 0) by norm_num)]
  unfold Quat.norm
  rw [hn]
  have hinv : (1 + dot3 a a / 4)⁻¹ = 1 / (Real.sqrt (1 + dot3 a a / 4)) ^ 2 := by rw [hs]; simp
  rw [hinv]
  generalize Real.sqrt (1 + dot3 a a / 4) = s at *
  rw [hdd] at hs ⊢
  apply m3_ext <;> simp only [q2r00, q2r01, q2r02, q2r10, q2r11, q2r12, q2r20, q2r21, q2r22, Matrix.add_apply,
    Matrix.sub_apply, Matrix.smul_apply, smul_eq_mul, outer, skew00, skew01, skew02, skew10, skew11, skew12, skew20,
    skew21, skew22, one00, one01, one02, one10, one11, one12, one20, one21, one22, Quat.divS] <;>
    norm_num <;> field_simp <;> grind

theorem deriv_ratio (k c0 c1 c2 : ℝ) :
    HasDerivAt (fun t : ℝ => (1 + t ^ 2 * k)⁻¹ * (c0 + t * c1 + t ^ 2 * c2)) c1 0 := by
  have hsq : HasDerivAt (fun t : ℝ => t ^ 2) 0 0 := by simpa using (hasDerivAt_pow 2 (0:ℝ))
  have h1 : HasDerivAt (fun t : ℝ => 1 + t ^ 2 * k) 0 0 := by
    simpa using (hsq.mul_const k).const_add 1
  have h2 : HasDerivAt (fun t : ℝ => (1 + t ^ 2 * k)⁻¹) 0 0 := by
    simpa using h1.fun_inv (by norm_num)
  have h3 : HasDerivAt (fun t : ℝ => c0 + t * c1 + t ^ 2 * c2) c1 0 := by
    have := (((hasDerivAt_id (0:ℝ)).mul_const c1).const_add c0).fun_add (hsq.mul_const c2)
    simpa using this
  have := h2.fun_mul h3
  simpa using this

/-- **C69** To first order the filter's orientation correction is a left multiplication by `I - ⌊δθ⌋`: this is the
error-state convention that every measurement Jacobian of the code relies on. -/
theorem C69_update_first_order (q : Quat) (hq : IsUnitQ q) (dθ : V3) (i j : Fin 3) :
    HasDerivAt (fun t : ℝ => quat2Rot (quatUpdate q (t • dθ)) i j) ((-(skew dθ) * quat2Rot q) i j) 0 ∧
      quat2Rot (quatUpdate q ((0:ℝ) • dθ)) = quat2Rot q := by
  have hform : ∀ t : ℝ, quat2Rot (quatUpdate q (t • dθ)) =
      (1 + t ^ 2 * (dot3 dθ dθ / 4))⁻¹ • (quat2Rot q + t • (-(skew dθ) * quat2Rot q) +
        t ^ 2 • ((-(dot3 dθ dθ / 4)) • quat2Rot q + (1 / 2 : ℝ) • (outer dθ dθ * quat2Rot q))) := by
    intro t
    have hpu : IsUnitQ (quatnorm ⟨0.5 * (t • dθ) 0, 0.5 * (t • dθ) 1, 0.5 * (t • dθ) 2, 1⟩) :=
      (canon_quatnorm (by simp only [Quat.normSq]; positivity)).1
    unfold quatUpdate
    rw [(C23_quat_multiply _ _ hpu hq).2.2, quat2Rot_perturb, Matrix.smul_mul]
    have hd : dot3 (t • dθ) (t • dθ) = t ^ 2 * dot3 dθ dθ := by simp [dot3]; ring
    have ho : outer (t • dθ) (t • dθ) = t ^ 2 • outer dθ dθ := by
      ext i j; simp [outer]; ring
    rw [hd, ho, skew_smul]
    congr 1
    · congr 1; ring
    · rw [Matrix.add_mul, Matrix.sub_mul, Matrix.smul_mul, Matrix.one_mul, Matrix.smul_mul, Matrix.smul_mul,
        Matrix.smul_mul, Matrix.neg_mul]
      ext i j
      simp only [Matrix.add_apply, Matrix.sub_apply, Matrix.smul_apply, Matrix.neg_apply, smul_eq_mul]
      ring
  constructor
  · have := deriv_ratio (dot3 dθ dθ / 4) (quat2Rot q i j) ((-(skew dθ) * quat2Rot q) i j)
      (((-(dot3 dθ dθ / 4)) • quat2Rot q + (1 / 2 : ℝ) • (outer dθ dθ * quat2Rot q)) i j)
    refine this.congr_of_eventuallyEq (Filter.Eventually.of_forall fun t => ?_)
    simp only [hform t, Matrix.smul_apply, Matrix.add_apply, smul_eq_mul]
  · rw [hform 0]; simp

/-- Non-vacuity: the derivative is non-zero for the identity orientation and a z-rotation error. -/
example : (-(skew ![0, 0, 1]) * quat2Rot ⟨0, 0, 0, 1⟩) 0 1 = 1 := by
  simp [m3_mul_apply, skew, q2r01, q2r11, q2r21]; norm_num

/-! ## C70 -/

/-- **C70** The left and right SO(3) Jacobians are consistent with the exponential:
`exp(w) = I + ⌊w⌋ Jl(w)`, `Jl(w) w = w`, `Jr(w) = Jl(w)ᵀ` and `Jl(w) = exp(w) Jr(w)` (for |w| ≥ 1e-6). -/
theorem C70_so3_jacobians (w : V3) (h : 1e-6 ≤ norm3 w) :
    expSO3 w = 1 + skew w * JlSO3 w ∧ (JlSO3 w).mulVec w = w ∧ JrSO3 w = (JlSO3 w).transpose ∧
      JlSO3 w = expSO3 w * JrSO3 w := by
  have h7 : 1e-7 ≤ norm3 w := by norm_num at h ⊢; linarith
  have hn : norm3 (-w) = norm3 w := by simp [norm3, dot3]
  have hpos : 0 < norm3 w := by
    have : (0 : ℝ) < 1e-6 := by norm_num
    linarith
  have h0 := hpos.ne'
  have h2 := norm3_sq' w
  have hcs := Real.sin_sq_add_cos_sq (norm3 w)
  have hJr : JrSO3 w = rodr (-((1 - Real.cos (norm3 w)) / (norm3 w * norm3 w)))
      ((1 - Real.sin (norm3 w) / norm3 w) / (norm3 w * norm3 w)) w := by
    rw [JrSO3, JlSO3_eq (by rw [hn]; exact h), hn]
    unfold rodr; rw [skew_neg]; simp
  rw [hJr, JlSO3_eq h, expSO3_eq_of_le h7]
  refine ⟨?_, ?_, ?_, ?_⟩
  · generalize Real.sin (norm3 w) = s at *
    generalize Real.cos (norm3 w) = c at *
    generalize norm3 w = θ at *
    apply m3_ext <;> simp only [Matrix.add_apply, m3_mul_apply, rodr00, rodr01, rodr02, rodr10, rodr11, rodr12, rodr20, rodr21, rodr22,
      skew00, skew01, skew02, skew10, skew11, skew12, skew20, skew21, skew22,
      one00, one01, one02, one10, one11, one12, one20, one21, one22] <;> field_simp <;> grind
  · have hz : (skew w).mulVec w = 0 := (C25_skew_vee w w).2.2.1
    rw [rodr_mulVec, ← Matrix.mulVec_mulVec, hz]; simp
  · unfold rodr
    rw [Matrix.transpose_add, Matrix.transpose_add, Matrix.transpose_smul, Matrix.transpose_smul,
        Matrix.transpose_mul, skew_transpose, Matrix.transpose_one]
    simp
  · rw [rodr_mul, ← norm3_sq]
    generalize Real.sin (norm3 w) = s at *
    generalize Real.cos (norm3 w) = c at *
    generalize norm3 w = θ at *
    congr 1 <;> field_simp <;> grind

/-- Non-vacuity: w = (1,0,0) satisfies the range hypothesis. -/
example : 1e-6 ≤ norm3 ![1, 0, 0] := by
  have : dot3 ![1, 0, 0] ![1, 0, 0] = 1 := by simp [dot3]
  rw [norm3, this, Real.sqrt_one]; norm_num

end Verif.QuatProps
