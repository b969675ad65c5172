import Verif.Prop.Model
import Verif.Quat.Deriv

/-! # Closed forms and derivatives of the integrals of `compute_Xi_sum` -/

set_option linter.unusedSimpArgs false
set_option linter.unusedVariables false

namespace Verif.Prop_

open Verif Verif.Types Matrix

/-- the scalar coefficients of the integrals. -/
structure XiC where
  B : ℝ
  C : ℝ
  E : ℝ
  G : ℝ
  H : ℝ
  L : ℝ

noncomputable def xiC (dt n : ℝ) : XiC :=
  let A := Real.sin (n * dt) / n
  let B := (1 - Real.cos (n * dt)) / n ^ 2
  let C := (dt - A) / n ^ 2
  let E := (dt ^ 2 / 2 - B) / n ^ 2
  let G := (dt * B - 3 * C) / n ^ 2
  let H := (dt * C - 4 * E) / n ^ 2
  { B := B, C := C, E := E, G := G, H := H, L := (dt ^ 3 / 6 - C) / n ^ 2 }

theorem xi_pos {w : V3} (hn : ¬ norm3 w < 1 / 180 * Real.pi / 2) : 1e-3 < norm3 w := by
  have := Real.pi_gt_three
  push Not at hn
  norm_num
  linarith

theorem xi_form (dt : ℝ) (w a : V3) (hn : ¬ norm3 w < 1 / 180 * Real.pi / 2) :
    let k := xiC dt (norm3 w)
    let W := skew w
    let sA := skew a
    (xiSum dt w a).x1 = dt • (1 : M3) + k.B • W + k.C • (W * W) ∧
    (xiSum dt w a).x2 = (dt ^ 2 / 2) • (1 : M3) + k.C • W + k.E • (W * W) ∧
    (xiSum dt w a).x3 = (dt ^ 2 / 2) • sA - k.C • (sA * W) + (dt * k.B - k.C) • (W * sA) + k.E • (sA * (W * W)) +
      (dt * k.C - k.E) • (W * W * sA + dot3 w a • W) - (k.G * dot3 w a) • (W * W) ∧
    (xiSum dt w a).x4 = (dt ^ 3 / 6) • sA - k.E • (sA * W) + (dt * k.C - 2 * k.E) • (W * sA) + k.L • (sA * (W * W)) +
      (k.L - k.G) • (W * W * sA + dot3 w a • W) - (k.H * dot3 w a) • (W * W) := by
  have h3 := xi_pos hn
  have h12 : norm3 w > 1e-12 := lt_trans (by norm_num) h3
  have hpos : norm3 w ≠ 0 := by
    have : (0:ℝ) < 1e-3 := by norm_num
    linarith
  unfold xiSum
  simp only [if_pos h12, if_pos hn]
  have hd : dot3 ((1 / norm3 w) • w) a = 1 / norm3 w * dot3 w a := by simp [dot3]; ring
  rw [hd, skew_smul]
  unfold xiC
  simp only [Matrix.smul_mul, Matrix.mul_smul, smul_smul]
  generalize norm3 w = n at *
  generalize Real.sin (n * dt) = s
  generalize Real.cos (n * dt) = c
  refine ⟨?_, ?_, ?_, ?_⟩ <;> ext i j <;>
    simp only [Matrix.add_apply, Matrix.sub_apply, Matrix.smul_apply, smul_eq_mul, Matrix.smul_mul, Matrix.mul_smul, smul_smul] <;>
    generalize (skew w * skew w) i j = m1 <;> generalize skew w i j = m2 <;>
    generalize (1 : M3) i j = m3 <;> generalize skew a i j = m4 <;> generalize (skew a * skew w) i j = m5 <;>
    generalize (skew w * skew a) i j = m6 <;> generalize (skew a * (skew w * skew w)) i j = m7 <;>
    generalize (skew w * skew w * skew a) i j = m8 <;> field_simp <;> ring

theorem xiC_rel (dt : ℝ) {n : ℝ} (h : n ≠ 0) :
    let k := xiC dt n
    n ^ 2 * k.E = dt ^ 2 / 2 - k.B ∧ n ^ 2 * k.G = dt * k.B - 3 * k.C ∧ n ^ 2 * k.H = dt * k.C - 4 * k.E ∧
    n ^ 2 * k.L = dt ^ 3 / 6 - k.C := by
  simp only [xiC]
  refine ⟨?_, ?_, ?_, ?_⟩ <;> field_simp

theorem xiC_deriv (dt : ℝ) {v : ℝ → V3} {v' : V3} (h : HasDv v v') (h0 : 0 < norm3 (v 0)) :
    let k := xiC dt (norm3 (v 0))
    let d := dot3 (v 0) v'
    HasDerivAt (fun e => (xiC dt (norm3 (v e))).B) (d * (2 * k.E - dt * k.C)) 0 ∧
    HasDerivAt (fun e => (xiC dt (norm3 (v e))).C) (d * k.G) 0 ∧
    HasDerivAt (fun e => (xiC dt (norm3 (v e))).E) (d * k.H) 0 := by
  have hn := h.norm h0
  have hne := h0.ne'
  have hnd := hn.mul_const dt
  have hA := (hnd.sin).fun_div hn hne
  have hn2 := hn.fun_pow 2
  have hne2 : norm3 (v 0) ^ 2 ≠ 0 := pow_ne_zero 2 hne
  have hB := ((hnd.cos).const_sub 1).fun_div hn2 hne2
  have hC := (hA.const_sub dt).fun_div hn2 hne2
  have hE := (hB.const_sub (dt ^ 2 / 2)).fun_div hn2 hne2
  refine ⟨hB.congr_deriv ?_, hC.congr_deriv ?_, hE.congr_deriv ?_⟩ <;>
    simp only [xiC] <;> field_simp <;> ring

/-- derivative of `Ξ₁ b` for a fixed vector `b`: `-Ξ₃ ẇ`. -/
theorem xi1_deriv (dt : ℝ) {v : ℝ → V3} {v' : V3} (b : V3) (h : HasDv v v') (h0 : 1 / 180 * Real.pi / 2 < norm3 (v 0)) :
    HasDv (fun e => ((xiSum dt (v e) b).x1).mulVec b) (-((xiSum dt (v 0) b).x3).mulVec v') := by
  have h3 := xi_pos (not_lt.2 h0.le)
  have hpos : 0 < norm3 (v 0) := lt_trans (by norm_num) h3
  have hn := h.norm hpos
  have hev : ∀ᶠ e in nhds (0:ℝ), ¬ norm3 (v e) < 1 / 180 * Real.pi / 2 := by
    filter_upwards [hn.continuousAt.eventually (lt_mem_nhds h0)] with e he
    exact not_lt.2 (le_of_lt he)
  obtain ⟨dB, dC, dE⟩ := xiC_deriv dt h hpos
  have hM := (HasDm.const ((dt - 1) • (1 : M3))).add (rodr_deriv dB dC h)
  refine ((hM.mulVec (HasDv.const b)).congr_ev (hev.mono fun e he => ?_)).congr' ?_
  · simp only [(xi_form dt (v e) b he).1]
    congr 1
    simp only [rodr, sub_smul, one_smul]
    abel
  · simp only [(xi_form dt (v 0) b (not_lt.2 h0.le)).2.2.1]
    obtain ⟨r1, r2, r3, r4⟩ := xiC_rel dt hpos.ne'
    have hsq := norm3_sq' (v 0)
    rw [pow_two, hsq] at r1 r2 r3 r4
    generalize xiC dt (norm3 (v 0)) = k at *
    generalize v 0 = w at *
    clear hM hn hev dB dC dE h0 hpos hsq h h3
    rw [zero_add]
    apply v3_ext <;> simp only [m3_mulVec_apply, Matrix.add_apply, Matrix.sub_apply, Matrix.smul_apply, smul_eq_mul, skew00, skew01, skew02, skew10, skew11, skew12, skew20, skew21, skew22, m3_mul_apply,
      Pi.add_apply, Pi.neg_apply, Pi.zero_apply, dot3] <;> grind

/-- derivative of `Ξ₂ b` for a fixed vector `b`: `-Ξ₄ ẇ`. -/
theorem xi2_deriv (dt : ℝ) {v : ℝ → V3} {v' : V3} (b : V3) (h : HasDv v v') (h0 : 1 / 180 * Real.pi / 2 < norm3 (v 0)) :
    HasDv (fun e => ((xiSum dt (v e) b).x2).mulVec b) (-((xiSum dt (v 0) b).x4).mulVec v') := by
  have h3 := xi_pos (not_lt.2 h0.le)
  have hpos : 0 < norm3 (v 0) := lt_trans (by norm_num) h3
  have hn := h.norm hpos
  have hev : ∀ᶠ e in nhds (0:ℝ), ¬ norm3 (v e) < 1 / 180 * Real.pi / 2 := by
    filter_upwards [hn.continuousAt.eventually (lt_mem_nhds h0)] with e he
    exact not_lt.2 (le_of_lt he)
  obtain ⟨dB, dC, dE⟩ := xiC_deriv dt h hpos
  have hM := (HasDm.const ((dt ^ 2 / 2 - 1) • (1 : M3))).add (rodr_deriv dC dE h)
  refine ((hM.mulVec (HasDv.const b)).congr_ev (hev.mono fun e he => ?_)).congr' ?_
  · simp only [(xi_form dt (v e) b he).2.1]
    congr 1
    simp only [rodr, sub_smul, one_smul]
    abel
  · simp only [(xi_form dt (v 0) b (not_lt.2 h0.le)).2.2.2]
    obtain ⟨r1, r2, r3, r4⟩ := xiC_rel dt hpos.ne'
    have hsq := norm3_sq' (v 0)
    rw [pow_two, hsq] at r1 r2 r3 r4
    generalize xiC dt (norm3 (v 0)) = k at *
    generalize v 0 = w at *
    clear hM hn hev dB dC dE h0 hpos hsq h h3
    rw [zero_add]
    apply v3_ext <;> simp only [m3_mulVec_apply, Matrix.add_apply, Matrix.sub_apply, Matrix.smul_apply, smul_eq_mul, skew00, skew01, skew02, skew10, skew11, skew12, skew20, skew21, skew22, m3_mul_apply,
      Pi.add_apply, Pi.neg_apply, Pi.zero_apply, dot3] <;> grind

end Verif.Prop_
