import Verif.Prop.Jac3
import Mathlib.Analysis.Calculus.MeanValue
import Mathlib.Analysis.SpecialFunctions.Trigonometric.Bounds

/-! # The rigid-body kinematics with constant angular velocity and specific force -/

set_option linter.unusedSimpArgs false
set_option linter.unusedVariables false

open Classical

namespace Verif.Prop_

open Verif Verif.Types Verif.St Verif.Imu Matrix Finset

namespace Spec

/-- `(R, v, p)` follows the IMU kinematics on `[0, T]` with constant angular velocity `w`, specific force `a` (both in the IMU frame)
and gravity `g`: `Ṙ = -⌊w⌋ R`, `v̇ = Rᵀ a - g`, `ṗ = v`, where `R` rotates global into IMU coordinates. -/
structure Kinematics (w a g : V3) (T : ℝ) (R : ℝ → M3) (v p : ℝ → V3) : Prop where
  rot : ∀ t ∈ Set.Icc 0 T, ∀ i j, HasDerivAt (fun s => R s i j) ((-(skew w) * R t) i j) t
  vel : ∀ t ∈ Set.Icc 0 T, ∀ i, HasDerivAt (fun s => v s i) (((R t).transpose.mulVec a - g) i) t
  pos : ∀ t ∈ Set.Icc 0 T, ∀ i, HasDerivAt (fun s => p s i) (v t i) t

end Spec

/-- closed-form rotation. -/
noncomputable def kE (n : ℝ) (w : V3) (t : ℝ) : M3 := rodr (Real.sin (n * t) / n) ((1 - Real.cos (n * t)) / n ^ 2) (-w)
/-- closed-form first integral. -/
noncomputable def k1 (n : ℝ) (w : V3) (t : ℝ) : M3 :=
  t • (1 : M3) + ((1 - Real.cos (n * t)) / n ^ 2) • skew w + (t / n ^ 2 - Real.sin (n * t) / n ^ 3) • (skew w * skew w)
/-- closed-form second integral. -/
noncomputable def k2 (n : ℝ) (w : V3) (t : ℝ) : M3 :=
  (t ^ 2 / 2) • (1 : M3) + ((n * t - Real.sin (n * t)) / n ^ 3) • skew w +
    (t ^ 2 / (2 * n ^ 2) - (1 - Real.cos (n * t)) / n ^ 4) • (skew w * skew w)

theorem kE_eq (n : ℝ) (w : V3) (t : ℝ) :
    kE n w t = 1 - (Real.sin (n * t) / n) • skew w + ((1 - Real.cos (n * t)) / n ^ 2) • (skew w * skew w) := by
  unfold kE rodr
  rw [skew_neg, smul_neg, neg_mul_neg, ← sub_eq_add_neg]

theorem hd_nt (n t : ℝ) : HasDerivAt (fun s => n * s) n t := by
  simpa using (hasDerivAt_id t).const_mul n

theorem kE_deriv {n : ℝ} (hn : n ≠ 0) {w : V3} (hw : n * n = w 0 * w 0 + w 1 * w 1 + w 2 * w 2) (t : ℝ) (i j : Fin 3) :
    HasDerivAt (fun s => kE n w s i j) ((-(skew w) * kE n w t) i j) t := by
  have h1 := (hd_nt n t).sin.div_const n
  have h2 := ((hd_nt n t).cos.const_sub 1).div_const (n ^ 2)
  have h := ((h1.mul_const (skew w i j)).const_sub ((1 : M3) i j)).fun_add (h2.mul_const ((skew w * skew w) i j))
  refine (h.congr_of_eventuallyEq (Filter.Eventually.of_forall fun s => ?_)).congr_deriv ?_
  · rw [kE_eq]; simp
  · rw [kE_eq]
    have e : -(skew w) * (1 - (Real.sin (n * t) / n) • skew w + ((1 - Real.cos (n * t)) / n ^ 2) • (skew w * skew w)) =
        -(skew w) + (Real.sin (n * t) / n) • (skew w * skew w) + ((1 - Real.cos (n * t)) / n ^ 2 * dot3 w w) • skew w := by
      simp only [Matrix.mul_add, Matrix.mul_sub, Matrix.neg_mul, Matrix.mul_smul, skew_cube, Matrix.mul_one, smul_neg, neg_smul, smul_smul, neg_neg]
      abel
    rw [e]
    have hd : dot3 w w = n * n := by rw [hw]; rfl
    rw [hd]
    simp only [Matrix.add_apply, Matrix.neg_apply, Matrix.smul_apply, smul_eq_mul]
    field_simp
    ring

theorem kE_orth {n : ℝ} (hn : n ≠ 0) {w : V3} (hw : n * n = w 0 * w 0 + w 1 * w 1 + w 2 * w 2) (t : ℝ) : IsRot (kE n w t) := by
  refine rodr_isRot ?_
  have : (-w) 0 * (-w) 0 + (-w) 1 * (-w) 1 + (-w) 2 * (-w) 2 = n * n := by rw [hw]; simp
  rw [this]
  have h := Real.sin_sq_add_cos_sq (n * t)
  field_simp
  nlinarith

theorem k1_deriv {n : ℝ} (hn : n ≠ 0) (w : V3) (t : ℝ) (i j : Fin 3) :
    HasDerivAt (fun s => k1 n w s i j) ((kE n w t).transpose i j) t := by
  have h2 := ((hd_nt n t).cos.const_sub 1).div_const (n ^ 2)
  have h3 := ((hasDerivAt_id t).div_const (n ^ 2)).fun_sub ((hd_nt n t).sin.div_const (n ^ 3))
  have h := (((hasDerivAt_id t).mul_const ((1 : M3) i j)).fun_add (h2.mul_const (skew w i j))).fun_add (h3.mul_const ((skew w * skew w) i j))
  refine (h.congr_of_eventuallyEq (Filter.Eventually.of_forall fun s => ?_)).congr_deriv ?_
  · simp [k1]
  · rw [kE_eq]
    have : (1 - (Real.sin (n * t) / n) • skew w + ((1 - Real.cos (n * t)) / n ^ 2) • (skew w * skew w)).transpose =
        1 + (Real.sin (n * t) / n) • skew w + ((1 - Real.cos (n * t)) / n ^ 2) • (skew w * skew w) := by
      simp only [Matrix.transpose_add, Matrix.transpose_sub, Matrix.transpose_smul, Matrix.transpose_mul, skew_transpose, Matrix.transpose_one, neg_mul_neg, smul_neg, sub_neg_eq_add]
    rw [this]
    simp only [Matrix.add_apply, Matrix.smul_apply, smul_eq_mul]
    field_simp

theorem k2_deriv {n : ℝ} (hn : n ≠ 0) (w : V3) (t : ℝ) (i j : Fin 3) :
    HasDerivAt (fun s => k2 n w s i j) (k1 n w t i j) t := by
  have hsq : HasDerivAt (fun s : ℝ => s ^ 2) (2 * t) t := by simpa using hasDerivAt_pow 2 t
  have h1 := hsq.div_const 2
  have h2 := ((hd_nt n t).fun_sub (hd_nt n t).sin).div_const (n ^ 3)
  have h3 := (hsq.div_const (2 * n ^ 2)).fun_sub (((hd_nt n t).cos.const_sub 1).div_const (n ^ 4))
  have h := ((h1.mul_const ((1 : M3) i j)).fun_add (h2.mul_const (skew w i j))).fun_add (h3.mul_const ((skew w * skew w) i j))
  refine (h.congr_of_eventuallyEq (Filter.Eventually.of_forall fun s => ?_)).congr_deriv ?_
  · simp [k2]
  · simp only [k1, Matrix.add_apply, Matrix.smul_apply, smul_eq_mul]
    field_simp

theorem const_of_deriv {f : ℝ → ℝ} {T : ℝ} (h : ∀ t ∈ Set.Icc 0 T, HasDerivAt f 0 t) : ∀ t ∈ Set.Icc 0 T, f t = f 0 :=
  constant_of_has_deriv_right_zero (fun t ht => (h t ht).continuousAt.continuousWithinAt)
    fun t ht => (h t ⟨ht.1, ht.2.le⟩).hasDerivWithinAt

theorem mulVec_deriv {M : ℝ → M3} {M' : M3} {t : ℝ} (h : ∀ i j, HasDerivAt (fun s => M s i j) (M' i j) t) (A : M3) (b : V3) (i : Fin 3) :
    HasDerivAt (fun s => (A.mulVec ((M s).mulVec b)) i) ((A.mulVec (M'.mulVec b)) i) t := by
  have : ∀ k, HasDerivAt (fun s => (M s).mulVec b k) (M'.mulVec b k) t := by
    intro k
    simp only [m3_mulVec_apply]
    exact (((h k 0).mul_const _).fun_add ((h k 1).mul_const _)).fun_add ((h k 2).mul_const _)
  simp only [m3_mulVec_apply A]
  exact (((this 0).const_mul _).fun_add ((this 1).const_mul _)).fun_add ((this 2).const_mul _)

/-- the closed form solves the kinematics. -/
theorem kin_exists_gen {n : ℝ} (hn : n ≠ 0) {w : V3} (hE : ∀ t i j, HasDerivAt (fun s => kE n w s i j) ((-(skew w) * kE n w t) i j) t) (a g : V3) (T : ℝ) (R0 : M3) (v0 p0 : V3) :
    Spec.Kinematics w a g T (fun t => kE n w t * R0) (fun t => v0 + R0.transpose.mulVec ((k1 n w t).mulVec a) - t • g)
      (fun t => p0 + t • v0 + R0.transpose.mulVec ((k2 n w t).mulVec a) - (t ^ 2 / 2) • g) := by
  constructor
  · intro t _ i j
    simp only [m3_mul_apply _ R0]
    refine ((((hE t i 0).mul_const _).fun_add ((hE t i 1).mul_const _)).fun_add
      ((hE t i 2).mul_const _)).congr_deriv ?_
    rw [← Matrix.mul_assoc, m3_mul_apply _ R0]
  · intro t _ i
    have h := mulVec_deriv (fun i j => k1_deriv hn w t i j) R0.transpose a i
    refine ((h.const_add (v0 i)).fun_sub ((hasDerivAt_id t).mul_const (g i))).congr_of_eventuallyEq
      (Filter.Eventually.of_forall fun s => ?_) |>.congr_deriv ?_
    · simp
    · rw [Matrix.transpose_mul, ← Matrix.mulVec_mulVec]; simp
  · intro t _ i
    have h := mulVec_deriv (fun i j => k2_deriv hn w t i j) R0.transpose a i
    have hsq : HasDerivAt (fun s : ℝ => s ^ 2) (2 * t) t := by simpa using hasDerivAt_pow 2 t
    refine ((((hasDerivAt_id t).mul_const (v0 i)).const_add (p0 i)).fun_add h).fun_sub ((hsq.div_const 2).mul_const (g i)) |>.congr_of_eventuallyEq
      (Filter.Eventually.of_forall fun s => ?_) |>.congr_deriv ?_
    · simp
    · simp

/-- and every solution is the closed form. -/
theorem kin_unique_gen {n : ℝ} (hn : n ≠ 0) {w : V3} (hE : ∀ t i j, HasDerivAt (fun s => kE n w s i j) ((-(skew w) * kE n w t) i j) t) (hO : ∀ t, IsRot (kE n w t)) {a g : V3} {T : ℝ} {R : ℝ → M3} {v p : ℝ → V3}
    (h : Spec.Kinematics w a g T R v p) :
    ∀ t ∈ Set.Icc 0 T, R t = kE n w t * R 0 ∧ v t = v 0 + (R 0).transpose.mulVec ((k1 n w t).mulVec a) - t • g ∧
      p t = p 0 + t • v 0 + (R 0).transpose.mulVec ((k2 n w t).mulVec a) - (t ^ 2 / 2) • g := by
  have hE0 : kE n w 0 = 1 := by rw [kE_eq]; simp
  have h10 : k1 n w 0 = 0 := by simp [k1]
  have h20 : k2 n w 0 = 0 := by simp [k2]
  have hR : ∀ t ∈ Set.Icc 0 T, R t = kE n w t * R 0 := by
    have hc : ∀ i j, ∀ t ∈ Set.Icc 0 T, ((kE n w t).transpose * R t) i j = ((kE n w 0).transpose * R 0) i j := by
      intro i j
      refine const_of_deriv fun t ht => ?_
      simp only [m3_mul_apply, Matrix.transpose_apply]
      have e := fun k => (hE t k i).fun_mul (h.rot t ht k j)
      refine (((e 0).fun_add (e 1)).fun_add (e 2)).congr_deriv ?_
      have z : ((-(skew w) * kE n w t).transpose * R t + (kE n w t).transpose * (-(skew w) * R t)) i j = 0 := by
        rw [Matrix.transpose_mul, Matrix.transpose_neg, skew_transpose, neg_neg, Matrix.neg_mul, Matrix.mul_neg, Matrix.mul_assoc, add_neg_cancel]
        rfl
      rw [← z]
      simp only [m3_mul_apply, Matrix.transpose_apply, Matrix.add_apply, Matrix.neg_apply]
      ring
    intro t ht
    have : (kE n w t).transpose * R t = R 0 := by
      ext i j
      rw [hc i j t ht, hE0]; simp
    rw [← this, ← Matrix.mul_assoc, (hO t).orth', Matrix.one_mul]
  have hsol := kin_exists_gen hn hE a g T (R 0) (v 0) (p 0)
  have hv : ∀ t ∈ Set.Icc 0 T, v t = v 0 + (R 0).transpose.mulVec ((k1 n w t).mulVec a) - t • g := by
    intro t ht
    ext i
    have := const_of_deriv (f := fun s => v s i - (v 0 + (R 0).transpose.mulVec ((k1 n w s).mulVec a) - s • g) i) (T := T) (fun s hs => by
      refine ((h.vel s hs i).fun_sub (hsol.vel s hs i)).congr_deriv ?_
      rw [hR s hs]; simp) t ht
    simp only [h10, Matrix.zero_mulVec, Matrix.mulVec_zero, zero_smul, add_zero, sub_zero, sub_self] at this
    linarith
  refine fun t ht => ⟨hR t ht, hv t ht, ?_⟩
  ext i
  have := const_of_deriv (f := fun s => p s i - (p 0 + s • v 0 + (R 0).transpose.mulVec ((k2 n w s).mulVec a) - (s ^ 2 / 2) • g) i) (T := T) (fun s hs => by
    refine ((h.pos s hs i).fun_sub (hsol.pos s hs i)).congr_deriv ?_
    rw [hv s hs]; simp) t ht
  simp [h20] at this
  simp
  linarith

theorem kE_exp {dt : ℝ} (hdt : 0 < dt) {w : V3} (h : 1e-7 ≤ dt * norm3 w) (hn : norm3 w ≠ 0) : expSO3 (-(dt • w)) = kE (norm3 w) w dt := by
  rw [expSO3_eq_of_le (by rw [norm3_neg_smul hdt.le]; exact h), norm3_neg_smul hdt.le, kE_eq]
  unfold rodr
  rw [skew_neg, skew_smul, neg_mul_neg, Matrix.smul_mul, Matrix.mul_smul, smul_neg, smul_smul, smul_smul, smul_smul, ← sub_eq_add_neg, mul_comm dt (norm3 w)]
  have e1 : Real.sin (norm3 w * dt) / (norm3 w * dt) * dt = Real.sin (norm3 w * dt) / norm3 w := by field_simp
  have e2 : (1 - Real.cos (norm3 w * dt)) / (norm3 w * dt * (norm3 w * dt)) * (dt * dt) = (1 - Real.cos (norm3 w * dt)) / norm3 w ^ 2 := by field_simp
  first
    | rw [e1, e2]
    | (rw [e1]; congr 2; field_simp)

theorem k1_xi {dt : ℝ} {w a : V3} (hn : ¬ norm3 w < 1 / 180 * Real.pi / 2) : (xiSum dt w a).x1 = k1 (norm3 w) w dt := by
  have h3 := xi_pos hn
  have hp : norm3 w ≠ 0 := by intro h; rw [h] at h3; norm_num at h3
  rw [(xi_form dt w a hn).1]
  simp only [xiC, k1]
  congr 1
  congr 1
  field_simp

theorem k2_xi {dt : ℝ} {w a : V3} (hn : ¬ norm3 w < 1 / 180 * Real.pi / 2) : (xiSum dt w a).x2 = k2 (norm3 w) w dt := by
  have h3 := xi_pos hn
  have hp : norm3 w ≠ 0 := by intro h; rw [h] at h3; norm_num at h3
  rw [(xi_form dt w a hn).2.1]
  simp only [xiC, k2]
  congr 1
  · congr 2
    field_simp
  · congr 1
    field_simp

theorem kin_exists {n : ℝ} (hn : n ≠ 0) {w : V3} (hw : n * n = w 0 * w 0 + w 1 * w 1 + w 2 * w 2) (a g : V3) (T : ℝ) (R0 : M3) (v0 p0 : V3) :
    Spec.Kinematics w a g T (fun t => kE n w t * R0) (fun t => v0 + R0.transpose.mulVec ((k1 n w t).mulVec a) - t • g)
      (fun t => p0 + t • v0 + R0.transpose.mulVec ((k2 n w t).mulVec a) - (t ^ 2 / 2) • g) :=
  kin_exists_gen hn (kE_deriv hn hw) a g T R0 v0 p0

theorem kin_unique {n : ℝ} (hn : n ≠ 0) {w : V3} (hw : n * n = w 0 * w 0 + w 1 * w 1 + w 2 * w 2) {a g : V3} {T : ℝ} {R : ℝ → M3} {v p : ℝ → V3}
    (h : Spec.Kinematics w a g T R v p) :
    ∀ t ∈ Set.Icc 0 T, R t = kE n w t * R 0 ∧ v t = v 0 + (R 0).transpose.mulVec ((k1 n w t).mulVec a) - t • g ∧
      p t = p 0 + t • v 0 + (R 0).transpose.mulVec ((k2 n w t).mulVec a) - (t ^ 2 / 2) • g :=
  kin_unique_gen hn (kE_deriv hn hw) (kE_orth hn hw) h

/-- without rotation the closed form is the identity for every `n`. -/
theorem kE_zero (n t : ℝ) : kE n 0 t = 1 := by
  have hs : skew (0 : V3) = 0 := by apply m3_ext <;> simp [skew]
  rw [kE_eq, hs]; simp

theorem kE_deriv_zero (n t : ℝ) (i j : Fin 3) : HasDerivAt (fun s => kE n 0 s i j) ((-(skew 0) * kE n 0 t) i j) t := by
  have hs : skew (0 : V3) = 0 := by apply m3_ext <;> simp [skew]
  simp only [kE_zero, hs]
  simpa using hasDerivAt_const t ((1 : M3) i j)

theorem kE_orth_zero (n t : ℝ) : IsRot (kE n 0 t) := by rw [kE_zero]; exact IsRot.one

end Verif.Prop_
