import Verif.Sim.Lemmas
import Verif.Quat.Deriv

/-! # Derivatives of the spline segment formulas -/

set_option autoImplicit false
set_option linter.unusedSimpArgs false

namespace Verif.Sim

open Verif Matrix

/-- the matrix curve `f` has derivative `f'` at `t`, entry by entry. -/
def HasDmAt {m n : ℕ} (f : ℝ → Matrix (Fin m) (Fin n) ℝ) (f' : Matrix (Fin m) (Fin n) ℝ) (t : ℝ) : Prop :=
  ∀ i j, HasDerivAt (fun s => f s i j) (f' i j) t

namespace HasDmAt
variable {m n k : ℕ} {f g : ℝ → Matrix (Fin m) (Fin n) ℝ} {f' g' : Matrix (Fin m) (Fin n) ℝ}
  {h : ℝ → Matrix (Fin n) (Fin k) ℝ} {h' : Matrix (Fin n) (Fin k) ℝ} {t : ℝ}

theorem const (A : Matrix (Fin m) (Fin n) ℝ) : HasDmAt (fun _ => A) 0 t := fun _ _ => hasDerivAt_const _ _
theorem add (hf : HasDmAt f f' t) (hg : HasDmAt g g' t) : HasDmAt (fun e => f e + g e) (f' + g') t :=
  fun i j => (hf i j).fun_add (hg i j)
theorem smul {c : ℝ → ℝ} {c' : ℝ} (hc : HasDerivAt c c' t) (hf : HasDmAt f f' t) :
    HasDmAt (fun e => c e • f e) (c' • f t + c t • f') t := fun i j => by
  have := hc.fun_mul (hf i j)
  simpa using this
theorem tr (hf : HasDmAt f f' t) : HasDmAt (fun e => (f e).transpose) f'.transpose t := fun i j => hf j i
theorem mul (hf : HasDmAt f f' t) (hh : HasDmAt h h' t) : HasDmAt (fun e => f e * h e) (f' * h t + f t * h') t := fun i j => by
  have := HasDerivAt.fun_sum (u := Finset.univ) fun x _ => (hf i x).fun_mul (hh x j)
  refine (this.congr_of_eventuallyEq (Filter.Eventually.of_forall fun e => ?_)).congr_deriv ?_
  · simp [Matrix.mul_apply]
  · simp [Matrix.mul_apply, Finset.sum_add_distrib]
theorem congr' (hf : HasDmAt f f' t) (h : f' = g') : HasDmAt f g' t := h ▸ hf
theorem congr_ev (hf : HasDmAt f f' t) (h : ∀ᶠ e in nhds t, g e = f e) : HasDmAt g f' t := fun i j =>
  (hf i j).congr_of_eventuallyEq (h.mono fun e he => by simp [he])
theorem rot {f : ℝ → M4} {f' : M4} (hf : HasDmAt f f' t) : HasDmAt (fun e => rotBlock (f e)) (rotBlock f') t := fun i j => by
  fin_cases i <;> fin_cases j <;> exact hf _ _
theorem pos {f : ℝ → M4} {f' : M4} (hf : HasDmAt f f' t) (i : Fin 3) :
    HasDerivAt (fun e => posBlock (f e) i) (posBlock f' i) t := by
  fin_cases i <;> exact hf _ _
end HasDmAt

/-- `exp_se3(b ω)` as a function of `b`, away from the small-angle branch. -/
theorem expOf_line {b : ℝ} {om : V3 × V3} (hb : 1e-7 < b * norm3 om.1) :
    expOf b om = mkSE3 (1 + (Real.sin (b * norm3 om.1) / norm3 om.1) • skew om.1 +
        ((1 - Real.cos (b * norm3 om.1)) / (norm3 om.1 * norm3 om.1)) • (skew om.1 * skew om.1))
      (b • om.2 + ((1 - Real.cos (b * norm3 om.1)) / (norm3 om.1 * norm3 om.1)) • (skew om.1).mulVec om.2 +
        ((b - Real.sin (b * norm3 om.1) / norm3 om.1) / (norm3 om.1 * norm3 om.1)) • (skew om.1 * skew om.1).mulVec om.2) 1 := by
  have hn0 := norm3_nonneg om.1
  have hpos : 0 < b * norm3 om.1 := lt_trans (by norm_num) hb
  have hb0 : 0 < b := by
    by_contra h
    push Not at h
    nlinarith
  have hn : 0 < norm3 om.1 := by
    by_contra h
    push Not at h
    nlinarith
  have hnb : norm3 (b • om.1) = b * norm3 om.1 := norm3_smul hb0.le _
  unfold expOf expSE3
  simp only [hnb, expA, expB, expC, if_neg (not_lt.2 hb.le), skew_smul]
  congr 1
  · congr 1
    · congr 1
      rw [smul_smul]; congr 1; field_simp
    · rw [Matrix.smul_mul, Matrix.mul_smul, smul_smul, smul_smul]; congr 1; field_simp
  · simp only [Matrix.add_mulVec, Matrix.one_mulVec, Matrix.smul_mulVec, Matrix.mulVec_smul, Matrix.smul_mul, Matrix.mul_smul,
      smul_smul]
    funext i
    simp only [Pi.add_apply, Pi.smul_apply, smul_eq_mul]
    generalize ((skew om.1).mulVec om.2) i = x
    generalize ((skew om.1 * skew om.1).mulVec om.2) i = y
    generalize Real.cos (b * norm3 om.1) = c
    generalize Real.sin (b * norm3 om.1) = s
    generalize norm3 om.1 = n at *
    have hn' := hn.ne'
    have hb' := hb0.ne'
    clear hnb
    field_simp

theorem expOf_small {b : ℝ} {om : V3 × V3} (hb : norm3 (b • om.1) < 1e-7) :
    expOf b om = mkSE3 (1 + b • skew om.1 + (0.5 * (b * b)) • (skew om.1 * skew om.1))
      (b • om.2 + (0.5 * (b * b)) • (skew om.1).mulVec om.2 + (1.0 / 6.0 * (b * b * b)) • (skew om.1 * skew om.1).mulVec om.2) 1 := by
  unfold expOf expSE3
  simp only [expA, expB, expC, if_pos hb, skew_smul]
  congr 1
  · simp only [Matrix.smul_mul, Matrix.mul_smul, smul_smul, one_smul]
    congr 2
    rw [one_mul]
  · simp only [Matrix.add_mulVec, Matrix.one_mulVec, Matrix.smul_mulVec, Matrix.mulVec_smul, Matrix.smul_mul, Matrix.mul_smul,
      smul_smul]
    funext i
    simp only [Pi.add_apply, Pi.smul_apply, smul_eq_mul]
    generalize (0.5 : ℝ) = c1
    generalize (1.0 / 6.0 : ℝ) = c2
    ring

/-- a curve of homogeneous matrices with given coefficient functions. -/
theorem mk_deriv {S C D β : ℝ → ℝ} {S' C' D' β' t : ℝ} (hS : HasDerivAt S S' t) (hC : HasDerivAt C C' t) (hD : HasDerivAt D D' t)
    (hβ : HasDerivAt β β' t) (W W2 : M3) (u v w : V3) :
    HasDmAt (fun s => mkSE3 (1 + S s • W + C s • W2) (β s • u + C s • v + D s • w) 1)
      (mkSE3 (S' • W + C' • W2) (β' • u + C' • v + D' • w) 0) t := by
  have hR : ∀ (i j : Fin 3), HasDerivAt (fun s => (1 + S s • W + C s • W2) i j) ((S' • W + C' • W2) i j) t := by
    intro i j
    have := ((hS.mul_const (W i j)).const_add ((1 : M3) i j)).fun_add (hC.mul_const (W2 i j))
    simpa using this
  have hp : ∀ (i : Fin 3), HasDerivAt (fun s => (β s • u + C s • v + D s • w) i) ((β' • u + C' • v + D' • w) i) t := by
    intro i
    have := ((hβ.mul_const (u i)).fun_add (hC.mul_const (v i))).fun_add (hD.mul_const (w i))
    simpa using this
  intro i j
  fin_cases i <;> fin_cases j <;>
    first
    | exact hR 0 0
    | exact hR 0 1
    | exact hR 0 2
    | exact hR 1 0
    | exact hR 1 1
    | exact hR 1 2
    | exact hR 2 0
    | exact hR 2 1
    | exact hR 2 2
    | exact hp 0
    | exact hp 1
    | exact hp 2
    | exact hasDerivAt_const _ _

theorem smul_mkSE3 (c : ℝ) (A : M3) (p : V3) (b : ℝ) : c • mkSE3 A p b = mkSE3 (c • A) (c • p) (c * b) := by
  ext i j
  fin_cases i <;> fin_cases j <;> simp [mkSE3]

/-- the scaled twist's exponential is computed exactly: no rotation, a rotation beyond the small-angle branch, or zero twist. -/
def RegAt (b : ℝ) (om : V3 × V3) : Prop := om.1 = 0 ∨ 1e-7 < b * norm3 om.1 ∨ b = 0

/-- **derivative of `exp_se3(β(t) ω)`**. -/
theorem expOf_deriv {β : ℝ → ℝ} {β' t : ℝ} {om : V3 × V3} (hβ : HasDerivAt β β' t) (hr : RegAt (β t) om) :
    HasDmAt (fun s => expOf (β s) om) (β' • hatOf om * expOf (β t) om) t := by
  have hsq : skew om.1 * (skew om.1 * skew om.1) = -(norm3 om.1 * norm3 om.1) • skew om.1 := by rw [skew_cube, norm3_sq]
  rcases hr with h0 | hr | hb
  · -- no rotation
    have hsk : skew om.1 = 0 := by rw [h0]; apply m3_ext <;> simp [skew]
    have he : ∀ b, expOf b om = mkSE3 1 (b • om.2) 1 := by
      intro b
      unfold expOf expSE3
      simp [skew_smul, hsk]
    have := mk_deriv hβ hβ hβ hβ (0 : M3) 0 om.2 0 0
    refine (this.congr_ev (Filter.Eventually.of_forall fun s => ?_)).congr' ?_
    · rw [he]; simp
    · rw [he, hatOf, hatSE3, smul_mkSE3, mkSE3_mul, hsk]; simp
  · -- regular rotation
    have hn : 0 < norm3 om.1 := by
      rcases eq_or_lt_of_le (norm3_nonneg om.1) with h | h
      · rw [← h] at hr; norm_num at hr
      · exact h
    have hθ := hβ.mul_const (norm3 om.1)
    have hev : ∀ᶠ s in nhds t, 1e-7 < β s * norm3 om.1 := hθ.continuousAt.eventually (lt_mem_nhds hr)
    have hS := (hθ.sin).div_const (norm3 om.1)
    have hC := ((hθ.cos).const_sub 1).div_const (norm3 om.1 * norm3 om.1)
    have hD := (hβ.fun_sub hS).div_const (norm3 om.1 * norm3 om.1)
    have := mk_deriv hS hC hD hβ (skew om.1) (skew om.1 * skew om.1) om.2 ((skew om.1).mulVec om.2)
      ((skew om.1 * skew om.1).mulVec om.2)
    refine (this.congr_ev (hev.mono fun s hs => expOf_line hs)).congr' ?_
    rw [expOf_line hr, hatOf, hatSE3, smul_mkSE3, mkSE3_mul]
    have hne := hn.ne'
    congr 1
    · simp only [Matrix.mul_add, Matrix.mul_one, Matrix.smul_mul, Matrix.mul_smul, hsq, smul_smul, smul_add]
      rw [add_right_comm, ← add_smul]
      congr 2
      · field_simp; ring
      · field_simp
    · simp only [Matrix.mulVec_add, Matrix.smul_mulVec, Matrix.mulVec_smul, Matrix.mulVec_mulVec, Matrix.smul_mul, hsq, smul_smul, smul_add, one_smul]
      funext i
      simp only [Pi.add_apply, Pi.smul_apply, smul_eq_mul, Matrix.smul_mulVec]
      generalize ((skew om.1).mulVec om.2) i = x
      generalize ((skew om.1 * skew om.1).mulVec om.2) i = y
      field_simp
      ring
    · ring
  · -- zero twist
    have hev : ∀ᶠ s in nhds t, norm3 (β s • om.1) < 1e-7 := by
      have hc : ContinuousAt (fun s => |β s| * norm3 om.1) t := (hβ.continuousAt.abs).mul continuousAt_const
      have : ∀ᶠ s in nhds t, |β s| * norm3 om.1 < 1e-7 := by
        refine hc.eventually (gt_mem_nhds ?_)
        simp [hb]; norm_num
      refine this.mono fun s hs => ?_
      rcases le_total 0 (β s) with h | h
      · rw [norm3_smul h]; rwa [abs_of_nonneg h] at hs
      · have : norm3 (β s • om.1) = norm3 ((-β s) • om.1) := by simp [norm3, dot3]
        rw [this, norm3_smul (by linarith)]; rwa [abs_of_nonpos h] at hs
    have hC := (hβ.fun_mul hβ).const_mul (0.5 : ℝ)
    have hD := ((hβ.fun_mul hβ).fun_mul hβ).const_mul (1.0 / 6.0 : ℝ)
    have := mk_deriv hβ hC hD hβ (skew om.1) (skew om.1 * skew om.1) om.2 ((skew om.1).mulVec om.2)
      ((skew om.1 * skew om.1).mulVec om.2)
    refine (this.congr_ev (hev.mono fun s hs => expOf_small hs)).congr' ?_
    have h1 : expOf (β t) om = 1 := by
      rw [hb]
      unfold expOf
      have hz : skew 0 = 0 := by apply m3_ext <;> simp [skew]
      simp [expSE3, hz, mkSE3_one]
    rw [h1, Matrix.mul_one, hatOf, hatSE3, smul_mkSE3, hb]
    simp

/-- `log_se3` of the relative pose and the twists of the three factors. -/
theorem blend_deriv {t t1 DT : ℝ} (hD : DT ≠ 0) :
    HasDerivAt (fun s => b0 ((s - t1) / DT)) (b0dot DT ((t - t1) / DT)) t ∧
    HasDerivAt (fun s => b1 ((s - t1) / DT)) (b1dot DT ((t - t1) / DT)) t ∧
    HasDerivAt (fun s => b2 ((s - t1) / DT)) (b2dot DT ((t - t1) / DT)) t ∧
    HasDerivAt (fun s => b0dot DT ((s - t1) / DT)) (b0dotdot DT ((t - t1) / DT)) t ∧
    HasDerivAt (fun s => b1dot DT ((s - t1) / DT)) (b1dotdot DT ((t - t1) / DT)) t ∧
    HasDerivAt (fun s => b2dot DT ((s - t1) / DT)) (b2dotdot DT ((t - t1) / DT)) t := by
  have hu : HasDerivAt (fun s => (s - t1) / DT) (1 / DT) t := ((hasDerivAt_id t).sub_const t1).div_const DT
  have hu2 := hu.fun_mul hu
  have hu3 := hu2.fun_mul hu
  refine ⟨?_, ?_, ?_, ?_, ?_, ?_⟩
  · have := ((((hu.const_mul 3).const_add 5).fun_sub ((hu.const_mul 3).fun_mul hu)).fun_add hu3).const_mul (1 / 6)
    refine this.congr_deriv ?_
    unfold b0dot; field_simp; ring
  · have := ((((hu.const_mul 3).const_add 1).fun_add ((hu.const_mul 3).fun_mul hu)).fun_sub
      (((hu.const_mul 2).fun_mul hu).fun_mul hu)).const_mul (1 / 6)
    refine this.congr_deriv ?_
    unfold b1dot; field_simp; ring
  · refine (hu3.const_mul (1 / 6)).congr_deriv ?_
    unfold b2dot; field_simp; ring
  · have := ((((hu.const_mul 6).const_sub 3).fun_add ((hu.const_mul 3).fun_mul hu))).const_mul (1 / (6 * DT))
    refine this.congr_deriv ?_
    unfold b0dotdot; field_simp; ring
  · have := ((((hu.const_mul 6).const_add 3).fun_sub ((hu.const_mul 6).fun_mul hu))).const_mul (1 / (6 * DT))
    refine this.congr_deriv ?_
    unfold b1dotdot; field_simp; ring
  · refine (((hu.const_mul 3).fun_mul hu).const_mul (1 / (6 * DT))).congr_deriv ?_
    unfold b2dotdot; field_simp; ring

/-- the three scaled twists of a segment are computed exactly at spline coordinate `u`. -/
def SegReg (u : ℝ) (q0 q1 q2 q3 : ℝ × M4) : Prop :=
  RegAt (b0 u) (omegaOf q0.2 q1.2) ∧ RegAt (b1 u) (omegaOf q1.2 q2.2) ∧ RegAt (b2 u) (omegaOf q2.2 q3.2)

theorem seg_vel {t : ℝ} {q0 q1 q2 q3 : ℝ × M4} (h : q1.1 < q2.1) (hr : SegReg ((t - q1.1) / (q2.1 - q1.1)) q0 q1 q2 q3) :
    HasDmAt (fun s => interpPose s q0 q1 q2 q3) (interpVel t q0 q1 q2 q3) t := by
  obtain ⟨d0, d1, d2, -, -, -⟩ := blend_deriv (t := t) (t1 := q1.1) (DT := q2.1 - q1.1) (by linarith)
  have h0 := expOf_deriv d0 hr.1
  have h1 := expOf_deriv d1 hr.2.1
  have h2 := expOf_deriv d2 hr.2.2
  have := (((HasDmAt.const (t := t) q0.2).mul h0).mul h1).mul h2
  refine this.congr' ?_
  unfold interpVel
  dsimp only
  simp only [Matrix.zero_mul, zero_add, Matrix.mul_add, Matrix.add_mul, Matrix.mul_assoc]

theorem seg_acc {t : ℝ} {q0 q1 q2 q3 : ℝ × M4} (h : q1.1 < q2.1) (hr : SegReg ((t - q1.1) / (q2.1 - q1.1)) q0 q1 q2 q3) :
    HasDmAt (fun s => interpVel s q0 q1 q2 q3) (interpAcc t q0 q1 q2 q3) t := by
  obtain ⟨d0, d1, d2, e0, e1, e2⟩ := blend_deriv (t := t) (t1 := q1.1) (DT := q2.1 - q1.1) (by linarith)
  have h0 := expOf_deriv d0 hr.1
  have h1 := expOf_deriv d1 hr.2.1
  have h2 := expOf_deriv d2 hr.2.2
  have g0 := (HasDmAt.smul e0 (HasDmAt.const (t := t) (hatOf (omegaOf q0.2 q1.2)))).mul h0
  have g1 := (HasDmAt.smul e1 (HasDmAt.const (t := t) (hatOf (omegaOf q1.2 q2.2)))).mul h1
  have g2 := (HasDmAt.smul e2 (HasDmAt.const (t := t) (hatOf (omegaOf q2.2 q3.2)))).mul h2
  have := (HasDmAt.const (t := t) q0.2).mul (((((g0.mul h1).mul h2).add ((h0.mul g1).mul h2))).add ((h0.mul h1).mul g2))
  refine this.congr' ?_
  unfold interpAcc
  dsimp only
  rw [Matrix.zero_mul, zero_add]
  congr 1
  simp only [smul_zero, add_zero]
  generalize hatOf (omegaOf q0.2 q1.2) = H0
  generalize hatOf (omegaOf q1.2 q2.2) = H1
  generalize hatOf (omegaOf q2.2 q3.2) = H2
  generalize expOf _ (omegaOf q0.2 q1.2) = A0
  generalize expOf _ (omegaOf q1.2 q2.2) = A1
  generalize expOf _ (omegaOf q2.2 q3.2) = A2
  simp only [Matrix.smul_mul, Matrix.mul_smul, Matrix.add_mul, Matrix.mul_add, Matrix.mul_assoc, smul_smul, smul_add]
  module

end Verif.Sim
