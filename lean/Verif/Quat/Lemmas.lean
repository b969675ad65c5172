import Verif.Quat.Spec
import Mathlib.Tactic.Ring
import Mathlib.Tactic.LinearCombination
import Mathlib.Tactic.FieldSimp
import Mathlib.Tactic.Linarith
import Mathlib.Tactic.FinCases
import Mathlib.Tactic.NormNum
import Mathlib.LinearAlgebra.Matrix.NonsingularInverse

namespace Verif

open Matrix

/-- entries of a 3×3 identity: proving matrix equalities entrywise. -/
theorem m3_ext {A B : M3} (h00 : A 0 0 = B 0 0) (h01 : A 0 1 = B 0 1) (h02 : A 0 2 = B 0 2)
    (h10 : A 1 0 = B 1 0) (h11 : A 1 1 = B 1 1) (h12 : A 1 2 = B 1 2)
    (h20 : A 2 0 = B 2 0) (h21 : A 2 1 = B 2 1) (h22 : A 2 2 = B 2 2) : A = B := by
  ext i j; fin_cases i <;> fin_cases j <;> assumption

theorem v3_ext {a b : V3} (h0 : a 0 = b 0) (h1 : a 1 = b 1) (h2 : a 2 = b 2) : a = b := by
  ext i; fin_cases i <;> assumption

theorem m3_mul_apply (A B : M3) (i j : Fin 3) :
    (A * B) i j = A i 0 * B 0 j + A i 1 * B 1 j + A i 2 * B 2 j := by
  rw [Matrix.mul_apply, Fin.sum_univ_three]

theorem m3_mulVec_apply (A : M3) (v : V3) (i : Fin 3) :
    A.mulVec v i = A i 0 * v 0 + A i 1 * v 1 + A i 2 * v 2 := by
  rw [Matrix.mulVec, dotProduct, Fin.sum_univ_three]

theorem one3 (i j : Fin 3) : (1 : M3) i j = if i = j then 1 else 0 := Matrix.one_apply

/-! ## Entries of `quat2Rot` -/

section entries
variable (q : Quat)
theorem q2r00 : quat2Rot q 0 0 = 2 * q.w ^ 2 - 1 + 2 * q.x * q.x := by
  simp [quat2Rot, skew, outer, Quat.vec]; ring
theorem q2r01 : quat2Rot q 0 1 = 2 * q.w * q.z + 2 * q.x * q.y := by
  simp [quat2Rot, skew, outer, Quat.vec]; ring
theorem q2r02 : quat2Rot q 0 2 = -2 * q.w * q.y + 2 * q.x * q.z := by
  simp [quat2Rot, skew, outer, Quat.vec]; ring
theorem q2r10 : quat2Rot q 1 0 = -2 * q.w * q.z + 2 * q.x * q.y := by
  simp [quat2Rot, skew, outer, Quat.vec]; ring
theorem q2r11 : quat2Rot q 1 1 = 2 * q.w ^ 2 - 1 + 2 * q.y * q.y := by
  simp [quat2Rot, skew, outer, Quat.vec]; ring
theorem q2r12 : quat2Rot q 1 2 = 2 * q.w * q.x + 2 * q.y * q.z := by
  simp [quat2Rot, skew, outer, Quat.vec]; ring
theorem q2r20 : quat2Rot q 2 0 = 2 * q.w * q.y + 2 * q.x * q.z := by
  simp [quat2Rot, skew, outer, Quat.vec]; ring
theorem q2r21 : quat2Rot q 2 1 = -2 * q.w * q.x + 2 * q.y * q.z := by
  simp [quat2Rot, skew, outer, Quat.vec]; ring
theorem q2r22 : quat2Rot q 2 2 = 2 * q.w ^ 2 - 1 + 2 * q.z * q.z := by
  simp [quat2Rot, skew, outer, Quat.vec]; ring
end entries

/-! ## Unit quaternions -/

theorem normSq_nonneg (q : Quat) : 0 ≤ q.normSq := by
  unfold Quat.normSq; positivity

theorem norm_sq (q : Quat) : q.norm ^ 2 = q.normSq := Real.sq_sqrt (normSq_nonneg q)

theorem normSq_mulRaw (q p : Quat) : (quatMulRaw q p).normSq = q.normSq * p.normSq := by
  simp only [quatMulRaw, Quat.normSq]; ring

theorem norm_of_unit {q : Quat} (h : IsUnitQ q) : q.norm = 1 := by
  have : q.normSq = 1 := h
  rw [Quat.norm, this, Real.sqrt_one]

theorem divS_one (q : Quat) : q.divS 1 = q := by simp [Quat.divS]

theorem quat2Rot_neg (q : Quat) : quat2Rot q.neg = quat2Rot q := by
  apply m3_ext <;> simp only [q2r00, q2r01, q2r02, q2r10, q2r11, q2r12, q2r20, q2r21, q2r22, Quat.neg] <;> ring

theorem unit_neg {q : Quat} (h : IsUnitQ q) : IsUnitQ q.neg := by
  simp only [IsUnitQ, Quat.neg, neg_sq] at *; exact h

/-- for a non-zero quaternion, dividing by the norm gives a unit quaternion. -/
theorem unit_divS {q : Quat} (h : q.normSq ≠ 0) : IsUnitQ (q.divS q.norm) := by
  have hn : q.norm ≠ 0 := by
    intro h0; apply h; rw [← norm_sq, h0]; norm_num
  have h2 := norm_sq q
  simp only [IsUnitQ, Quat.divS, Quat.normSq] at *
  field_simp
  linarith

theorem canon_quatnorm {q : Quat} (h : q.normSq ≠ 0) : CanonQ (quatnorm q) := by
  unfold quatnorm
  by_cases hw : q.w < 0
  · simp only [hw, if_true]
    have : q.neg.normSq ≠ 0 := by simpa [Quat.neg, Quat.normSq] using h
    refine ⟨unit_divS this, ?_⟩
    simp only [Quat.divS, Quat.neg]
    exact div_nonneg (by linarith) (Real.sqrt_nonneg _)
  · simp only [hw, if_false]
    refine ⟨unit_divS h, ?_⟩
    simp only [Quat.divS]
    exact div_nonneg (by linarith) (Real.sqrt_nonneg _)

theorem quatMul_eq_quatnorm (q p : Quat) : quatMul q p = quatnorm (quatMulRaw q p) := rfl

theorem quatnorm_of_unit {q : Quat} (h : IsUnitQ q) :
    quatnorm q = if q.w < 0 then q.neg else q := by
  unfold quatnorm
  by_cases hw : q.w < 0
  · simp only [hw, if_true, norm_of_unit (unit_neg h), divS_one]
  · simp only [hw, if_false, norm_of_unit h, divS_one]

theorem quatnorm_of_canon {q : Quat} (h : CanonQ q) : quatnorm q = q := by
  rw [quatnorm_of_unit h.1, if_neg (not_lt.2 h.2)]

theorem unit_mulRaw {q p : Quat} (hq : IsUnitQ q) (hp : IsUnitQ p) : IsUnitQ (quatMulRaw q p) := by
  have := normSq_mulRaw q p
  have h1 : q.normSq = 1 := hq
  have h2 : p.normSq = 1 := hp
  rw [h1, h2, one_mul] at this
  exact this

theorem quat2Rot_mulRaw {q p : Quat} (hq : IsUnitQ q) (hp : IsUnitQ p) :
    quat2Rot (quatMulRaw q p) = quat2Rot q * quat2Rot p := by
  obtain ⟨a, b, c, d⟩ := q
  obtain ⟨e, f, g, h⟩ := p
  simp only [IsUnitQ] at hq hp
  apply m3_ext <;> simp only [m3_mul_apply, q2r00, q2r01, q2r02, q2r10, q2r11, q2r12, q2r20, q2r21, q2r22, quatMulRaw] <;> grind

theorem quat2Rot_isRot {q : Quat} (hq : IsUnitQ q) : IsRot (quat2Rot q) := by
  obtain ⟨a, b, c, d⟩ := q
  simp only [IsUnitQ] at hq
  constructor
  · apply m3_ext <;> simp only [m3_mul_apply, Matrix.transpose_apply, q2r00, q2r01, q2r02, q2r10, q2r11, q2r12, q2r20, q2r21, q2r22, one3] <;> simp <;> grind
  · rw [Matrix.det_fin_three]
    simp only [q2r00, q2r01, q2r02, q2r10, q2r11, q2r12, q2r20, q2r21, q2r22]
    grind

/-! ## Rotation matrices: entry relations -/

structure RotRel (R : M3) : Prop where
  c00 : R 0 0 * R 0 0 + R 1 0 * R 1 0 + R 2 0 * R 2 0 = 1
  c11 : R 0 1 * R 0 1 + R 1 1 * R 1 1 + R 2 1 * R 2 1 = 1
  c22 : R 0 2 * R 0 2 + R 1 2 * R 1 2 + R 2 2 * R 2 2 = 1
  c01 : R 0 0 * R 0 1 + R 1 0 * R 1 1 + R 2 0 * R 2 1 = 0
  c02 : R 0 0 * R 0 2 + R 1 0 * R 1 2 + R 2 0 * R 2 2 = 0
  c12 : R 0 1 * R 0 2 + R 1 1 * R 1 2 + R 2 1 * R 2 2 = 0
  r00 : R 0 0 * R 0 0 + R 0 1 * R 0 1 + R 0 2 * R 0 2 = 1
  r11 : R 1 0 * R 1 0 + R 1 1 * R 1 1 + R 1 2 * R 1 2 = 1
  r22 : R 2 0 * R 2 0 + R 2 1 * R 2 1 + R 2 2 * R 2 2 = 1
  r01 : R 0 0 * R 1 0 + R 0 1 * R 1 1 + R 0 2 * R 1 2 = 0
  r02 : R 0 0 * R 2 0 + R 0 1 * R 2 1 + R 0 2 * R 2 2 = 0
  r12 : R 1 0 * R 2 0 + R 1 1 * R 2 1 + R 1 2 * R 2 2 = 0
  k00 : R 1 1 * R 2 2 - R 1 2 * R 2 1 = R 0 0
  k01 : R 1 2 * R 2 0 - R 1 0 * R 2 2 = R 0 1
  k02 : R 1 0 * R 2 1 - R 1 1 * R 2 0 = R 0 2
  k10 : R 0 2 * R 2 1 - R 0 1 * R 2 2 = R 1 0
  k11 : R 0 0 * R 2 2 - R 0 2 * R 2 0 = R 1 1
  k12 : R 0 1 * R 2 0 - R 0 0 * R 2 1 = R 1 2
  k20 : R 0 1 * R 1 2 - R 0 2 * R 1 1 = R 2 0
  k21 : R 0 2 * R 1 0 - R 0 0 * R 1 2 = R 2 1
  k22 : R 0 0 * R 1 1 - R 0 1 * R 1 0 = R 2 2

theorem IsRot.orth' {R : M3} (h : IsRot R) : R * R.transpose = 1 :=
  mul_eq_one_comm.1 h.orth

theorem IsRot.transpose {R : M3} (h : IsRot R) : IsRot R.transpose :=
  ⟨by rw [Matrix.transpose_transpose]; exact h.orth', by rw [Matrix.det_transpose]; exact h.det⟩

theorem IsRot.mul {R S : M3} (h : IsRot R) (h' : IsRot S) : IsRot (R * S) := by
  refine ⟨?_, by rw [Matrix.det_mul, h.det, h'.det, one_mul]⟩
  rw [Matrix.transpose_mul, Matrix.mul_assoc, ← Matrix.mul_assoc R.transpose, h.orth, Matrix.one_mul, h'.orth]

theorem IsRot.one : IsRot (1 : M3) := ⟨by simp, by simp⟩

theorem IsRot.adj {R : M3} (h : IsRot R) : R.adjugate = R.transpose := by
  have h1 : R * R.adjugate = 1 := by rw [Matrix.mul_adjugate, h.det, one_smul]
  calc R.adjugate = (R.transpose * R) * R.adjugate := by rw [h.orth, Matrix.one_mul]
    _ = R.transpose := by rw [Matrix.mul_assoc, h1, Matrix.mul_one]

theorem IsRot.rel {R : M3} (h : IsRot R) : RotRel R := by
  have hc := h.orth
  have hr := h.orth'
  have ha := h.adj
  have C : ∀ i j, (R.transpose * R) i j = (1 : M3) i j := fun i j => by rw [hc]
  have D : ∀ i j, (R * R.transpose) i j = (1 : M3) i j := fun i j => by rw [hr]
  have A : ∀ i j, R.adjugate i j = R j i := fun i j => by rw [ha]; rfl
  simp only [m3_mul_apply, Matrix.transpose_apply, one3] at C D
  rw [Matrix.adjugate_fin_three] at A
  constructor
  · simpa using C 0 0
  · simpa using C 1 1
  · simpa using C 2 2
  · simpa using C 0 1
  · simpa using C 0 2
  · simpa using C 1 2
  · simpa using D 0 0
  · simpa using D 1 1
  · simpa using D 2 2
  · simpa using D 0 1
  · simpa using D 0 2
  · simpa using D 1 2
  · have := A 0 0; simp at this; linarith
  · have := A 1 0; simp at this; linarith
  · have := A 2 0; simp at this; linarith
  · have := A 0 1; simp at this; linarith
  · have := A 1 1; simp at this; linarith
  · have := A 2 1; simp at this; linarith
  · have := A 0 2; simp at this; linarith
  · have := A 1 2; simp at this; linarith
  · have := A 2 2; simp at this; linarith

/-! ## `rot2quat` -/

/-- all ten products of quaternion components read off a rotation matrix. -/
structure Prods (q : Quat) (R : M3) : Prop where
  ww : 4 * (q.w * q.w) = 1 + R 0 0 + R 1 1 + R 2 2
  xx : 4 * (q.x * q.x) = 1 + R 0 0 - R 1 1 - R 2 2
  yy : 4 * (q.y * q.y) = 1 - R 0 0 + R 1 1 - R 2 2
  zz : 4 * (q.z * q.z) = 1 - R 0 0 - R 1 1 + R 2 2
  wx : 4 * (q.w * q.x) = R 1 2 - R 2 1
  wy : 4 * (q.w * q.y) = R 2 0 - R 0 2
  wz : 4 * (q.w * q.z) = R 0 1 - R 1 0
  xy : 4 * (q.x * q.y) = R 0 1 + R 1 0
  xz : 4 * (q.x * q.z) = R 0 2 + R 2 0
  yz : 4 * (q.y * q.z) = R 1 2 + R 2 1

theorem Prods.unit {q : Quat} {R : M3} (h : Prods q R) : IsUnitQ q := by
  have := h.ww; have := h.xx; have := h.yy; have := h.zz
  unfold IsUnitQ; linarith

theorem Prods.rot {q : Quat} {R : M3} (h : Prods q R) : quat2Rot q = R := by
  have := h.ww; have := h.xx; have := h.yy; have := h.zz
  have := h.wx; have := h.wy; have := h.wz; have := h.xy; have := h.xz; have := h.yz
  apply m3_ext <;> simp only [q2r00, q2r01, q2r02, q2r10, q2r11, q2r12, q2r20, q2r21, q2r22] <;> linarith

theorem prods_x {R : M3} (h : RotRel R) {x : ℝ} (hx : x ≠ 0) (h2 : 4 * (x * x) = 1 + R 0 0 - R 1 1 - R 2 2) :
    Prods ⟨x, (1 / (4 * x)) * (R 0 1 + R 1 0), (1 / (4 * x)) * (R 0 2 + R 2 0), (1 / (4 * x)) * (R 1 2 - R 2 1)⟩ R := by
  obtain ⟨c00, c11, c22, c01, c02, c12, r00, r11, r22, r01, r02, r12, k00, k01, k02, k10, k11, k12, k20, k21, k22⟩ := h
  constructor <;> simp only [] <;> field_simp <;> grind

theorem prods_y {R : M3} (h : RotRel R) {x : ℝ} (hx : x ≠ 0) (h2 : 4 * (x * x) = 1 - R 0 0 + R 1 1 - R 2 2) :
    Prods ⟨(1 / (4 * x)) * (R 0 1 + R 1 0), x, (1 / (4 * x)) * (R 1 2 + R 2 1), (1 / (4 * x)) * (R 2 0 - R 0 2)⟩ R := by
  obtain ⟨c00, c11, c22, c01, c02, c12, r00, r11, r22, r01, r02, r12, k00, k01, k02, k10, k11, k12, k20, k21, k22⟩ := h
  constructor <;> simp only [] <;> field_simp <;> grind

theorem prods_z {R : M3} (h : RotRel R) {x : ℝ} (hx : x ≠ 0) (h2 : 4 * (x * x) = 1 - R 0 0 - R 1 1 + R 2 2) :
    Prods ⟨(1 / (4 * x)) * (R 0 2 + R 2 0), (1 / (4 * x)) * (R 1 2 + R 2 1), x, (1 / (4 * x)) * (R 0 1 - R 1 0)⟩ R := by
  obtain ⟨c00, c11, c22, c01, c02, c12, r00, r11, r22, r01, r02, r12, k00, k01, k02, k10, k11, k12, k20, k21, k22⟩ := h
  constructor <;> simp only [] <;> field_simp <;> grind

theorem prods_w {R : M3} (h : RotRel R) {x : ℝ} (hx : x ≠ 0) (h2 : 4 * (x * x) = 1 + R 0 0 + R 1 1 + R 2 2) :
    Prods ⟨(1 / (4 * x)) * (R 1 2 - R 2 1), (1 / (4 * x)) * (R 2 0 - R 0 2), (1 / (4 * x)) * (R 0 1 - R 1 0), x⟩ R := by
  obtain ⟨c00, c11, c22, c01, c02, c12, r00, r11, r22, r01, r02, r12, k00, k01, k02, k10, k11, k12, k20, k21, k22⟩ := h
  constructor <;> simp only [] <;> field_simp <;> grind

theorem sqrt_pos_sq {a : ℝ} (h : 1 ≤ 4 * a) : Real.sqrt a ≠ 0 ∧ 4 * (Real.sqrt a * Real.sqrt a) = 4 * a := by
  have h0 : 0 < a := by linarith
  exact ⟨(Real.sqrt_pos.2 h0).ne', by rw [Real.mul_self_sqrt h0.le]⟩

theorem rot2quatRaw_prods {R : M3} (h : IsRot R) : Prods (rot2quatRaw R) R := by
  have hr := h.rel
  have hT0 : tr3 R = R 0 0 + R 1 1 + R 2 2 := rfl
  unfold rot2quatRaw
  simp only []
  generalize tr3 R = T at hT0 ⊢
  by_cases h1 : R 0 0 ≥ T ∧ R 0 0 ≥ R 1 1 ∧ R 0 0 ≥ R 2 2
  · rw [if_pos h1]
    obtain ⟨ha, hb, hc⟩ := h1
    have := sqrt_pos_sq (a := (1 + 2 * R 0 0 - T) / 4) (by linarith)
    have hh := prods_x hr this.1 (by rw [this.2, hT0]; ring)
    exact hh
  rw [if_neg h1]
  by_cases h2 : R 1 1 ≥ T ∧ R 1 1 ≥ R 0 0 ∧ R 1 1 ≥ R 2 2
  · rw [if_pos h2]
    obtain ⟨ha, hb, hc⟩ := h2
    have := sqrt_pos_sq (a := (1 + 2 * R 1 1 - T) / 4) (by linarith)
    have hh := prods_y hr this.1 (by rw [this.2, hT0]; ring)
    exact hh
  rw [if_neg h2]
  by_cases h3 : R 2 2 ≥ T ∧ R 2 2 ≥ R 0 0 ∧ R 2 2 ≥ R 1 1
  · rw [if_pos h3]
    obtain ⟨ha, hb, hc⟩ := h3
    have := sqrt_pos_sq (a := (1 + 2 * R 2 2 - T) / 4) (by linarith)
    have hh := prods_z hr this.1 (by rw [this.2, hT0]; ring)
    exact hh
  · rw [if_neg h3]
    have hT : 0 ≤ R 0 0 + R 1 1 + R 2 2 := by
      by_contra hneg
      push Not at hneg
      rcases le_total (R 0 0) (R 1 1) with a | a <;> rcases le_total (R 0 0) (R 2 2) with b | b <;>
        rcases le_total (R 1 1) (R 2 2) with c | c
      all_goals
        first
        | (apply h1; refine ⟨?_, ?_, ?_⟩ <;> linarith)
        | (apply h2; refine ⟨?_, ?_, ?_⟩ <;> linarith)
        | (apply h3; refine ⟨?_, ?_, ?_⟩ <;> linarith)
    have := sqrt_pos_sq (a := (1 + T) / 4) (by linarith)
    have hh := prods_w hr this.1 (by rw [this.2, hT0]; ring)
    exact hh

theorem rot2quat_eq_quatnorm (R : M3) : rot2quat R = quatnorm (rot2quatRaw R) := rfl

theorem quat2Rot_quatnorm_of_unit {q : Quat} (h : IsUnitQ q) : quat2Rot (quatnorm q) = quat2Rot q := by
  rw [quatnorm_of_unit h]
  split_ifs
  · exact quat2Rot_neg q
  · rfl

theorem normSq_of_unit {q : Quat} (h : IsUnitQ q) : q.normSq ≠ 0 := by
  have : q.normSq = 1 := h
  rw [this]; norm_num

end Verif
