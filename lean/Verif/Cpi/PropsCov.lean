import Verif.Cpi.Props
import Verif.Quat.Deriv
import Mathlib.Topology.Instances.Matrix

/-! # C40: the rate at which the preintegration covariance grows -/

set_option autoImplicit false

open Classical

namespace Verif.Cpi

open Verif

namespace Spec

/-- three consecutive entries of a vector -/
def seg3 {n : ℕ} (x : Fin n → ℝ) (c : ℕ) (h : c + 3 ≤ n) : V3 := fun i => x ⟨c + i.1, by omega⟩

/-- `F` and `G` are the linear error dynamics of the gravity-free kinematics at angular velocity `w`, specific force `a` and orientation `R`.  The errors are, in this order, of the orientation (on the left of `R`), the gyroscope bias,
the velocity, the accelerometer bias and the position; the noises those of the gyroscope, its bias, the accelerometer and its bias.  An error of size `e` in the direction `x` and a noise `e n` turn the true orientation into
`(1 - e⌊θ⌋) R`, the true angular velocity into `w - e (b_w + n_w)` and the true force into `a - e (b_a + n_a)`; the rates of the errors are the first-order changes of the rates of the kinematics. -/
def ErrorDynamics (w a : V3) (R : M3) (F : M15) (G : Matrix (Fin 15) (Fin 12) ℝ) : Prop :=
  ∀ (x : Fin 15 → ℝ) (n : Fin 12 → ℝ),
    let d := F.mulVec x + G.mulVec n
    let Re : ℝ → M3 := fun e => (1 - e • skew (seg3 x 0 (by omega))) * R
    let we : ℝ → V3 := fun e => w - e • (seg3 x 3 (by omega) + seg3 n 0 (by omega))
    let ae : ℝ → V3 := fun e => a - e • (seg3 x 9 (by omega) + seg3 n 6 (by omega))
    -- the orientation error is the rotation vector of `Re Rᵀ`; `Re` and `R` turn with `we` and `w`
    HasDm (fun e => (-skew (we e) * Re e) * R.transpose + Re e * (-skew w * R).transpose) (-skew (seg3 d 0 (by omega))) ∧
    seg3 d 3 (by omega) = seg3 n 3 (by omega) ∧
    HasDv (fun e => (Re e).transpose.mulVec (ae e)) (seg3 d 6 (by omega)) ∧
    seg3 d 9 (by omega) = seg3 n 9 (by omega) ∧
    seg3 d 12 (by omega) = seg3 x 6 (by omega)

/-- the noise densities: gyroscope, its bias, accelerometer, its bias -/
noncomputable def densities (k : Conf) : Matrix (Fin 12) (Fin 12) ℝ :=
  Matrix.diagonal fun i => if i.1 < 3 then k.sw ^ 2 else if i.1 < 6 then k.swb ^ 2 else if i.1 < 9 then k.sa ^ 2 else k.sab ^ 2

end Spec

theorem Qc_eq (k : Conf) : Qc k = Spec.densities k := by
  ext i j
  unfold Qc Spec.densities setB
  fin_cases i <;> fin_cases j <;> simp

theorem seg_Fk (w a : V3) (R : M3) (x : Fin 15 → ℝ) (n : Fin 12 → ℝ) :
    let d := (Fk w a R).mulVec x + (Gk R).mulVec n
    Spec.seg3 d 0 (by omega) = -((skew w).mulVec (Spec.seg3 x 0 (by omega))) - Spec.seg3 x 3 (by omega) - Spec.seg3 n 0 (by omega) ∧
    Spec.seg3 d 3 (by omega) = Spec.seg3 n 3 (by omega) ∧
    Spec.seg3 d 6 (by omega) = -((R.transpose * skew a).mulVec (Spec.seg3 x 0 (by omega))) - R.transpose.mulVec (Spec.seg3 x 9 (by omega)) - R.transpose.mulVec (Spec.seg3 n 6 (by omega)) ∧
    Spec.seg3 d 9 (by omega) = Spec.seg3 n 9 (by omega) ∧
    Spec.seg3 d 12 (by omega) = Spec.seg3 x 6 (by omega) := by
  intro d
  refine ⟨?_, ?_, ?_, ?_, ?_⟩ <;>
    · apply v3_ext <;>
      · simp [d, Spec.seg3, Fk, Gk, setB, Matrix.mulVec, dotProduct, Fin.sum_univ_succ]
        try simp [Matrix.one_apply, Fin.ext_iff]
        try ring

theorem Fk_dynamics (w a : V3) {R : M3} (hR : IsRot R) : Spec.ErrorDynamics w a R (Fk w a R) (Gk R) := by
  intro x n d Re we ae
  obtain ⟨h0, h3, h6, h9, h12⟩ := seg_Fk w a R x n
  have h1 : HasDm Re (-skew (Spec.seg3 x 0 (by omega)) * R) := by
    intro i j
    have := ((hasDerivAt_id (0 : ℝ)).mul_const ((skew (Spec.seg3 x 0 (by omega)) * R) i j)).const_sub (R i j)
    refine (this.congr_of_eventuallyEq (Filter.Eventually.of_forall fun e => ?_)).congr_deriv ?_
    · simp [Re, Matrix.sub_mul]
    · simp
  have h2 : HasDv we (-(Spec.seg3 x 3 (by omega) + Spec.seg3 n 0 (by omega))) :=
    (HasDv.line w (-(Spec.seg3 x 3 (by omega) + Spec.seg3 n 0 (by omega)))).congr_fun fun e => by simp only [we]; module
  have h4 : HasDv ae (-(Spec.seg3 x 9 (by omega) + Spec.seg3 n 6 (by omega))) :=
    (HasDv.line a (-(Spec.seg3 x 9 (by omega) + Spec.seg3 n 6 (by omega)))).congr_fun fun e => by simp only [ae]; module
  have r0 : Re 0 = R := by simp [Re]
  have w0 : we 0 = w := by simp [we]
  have a0 : ae 0 = a := by simp [ae]
  have hRR : R * R.transpose = 1 := hR.orth'
  have hRR' : ∀ A : M3, R * (R.transpose * A) = A := fun A => by rw [← Matrix.mul_assoc, hRR, Matrix.one_mul]
  refine ⟨?_, h3, ?_, h9, h12⟩
  · refine (((h2.skew.neg.mul h1).mul (HasDm.const R.transpose)).add (h1.mul (HasDm.const (-skew w * R).transpose))).congr' ?_
    rw [r0, w0, h0]
    simp only [Matrix.mul_zero, add_zero, Matrix.transpose_mul, Matrix.transpose_neg, skew_transpose, neg_neg, Matrix.add_mul, Matrix.mul_assoc, hRR, hRR', Matrix.mul_one]
    apply m3_ext <;> simp only [m3_mul_apply, Matrix.add_apply, Matrix.neg_apply, skew00, skew01, skew02, skew10, skew11, skew12, skew20, skew21, skew22,
      Pi.add_apply, Pi.sub_apply, Pi.neg_apply, m3_mulVec_apply] <;> ring
  · refine (h1.tr.mulVec h4).congr' ?_
    rw [r0, a0, h6]
    rw [Matrix.transpose_mul, Matrix.transpose_neg, skew_transpose, neg_neg, ← Matrix.mulVec_mulVec, ← Matrix.mulVec_mulVec, (QuatProps.C25_skew_vee (Spec.seg3 x 0 (by omega)) a).2.1, Matrix.mulVec_neg,
      Matrix.mulVec_neg, Matrix.mulVec_add]
    module

/-! ## the derivative -/

theorem setB_cont {m n : ℕ} {f : ℝ → Matrix (Fin m) (Fin n) ℝ} {B : ℝ → M3} (r c : ℕ) (hf : Continuous f) (hB : Continuous B) : Continuous fun t => setB (f t) r c (B t) := by
  refine continuous_pi fun i => continuous_pi fun j => ?_
  unfold setB
  split_ifs
  · exact (continuous_apply_apply _ _).comp hB
  · exact (continuous_apply_apply i j).comp hf

theorem relRot_cont (w : V3) : Continuous (relRot w) := by
  unfold relRot
  split_ifs
  · fun_prop
  · fun_prop

theorem Pdot_cont (k : Conf) (w a : V3) {R : ℝ → M3} {P : ℝ → M15} (hR : Continuous R) (hP : Continuous P) : Continuous fun t => Pdot k w a (R t) (P t) := by
  have h1 : Continuous fun t => Fk w a (R t) := by
    unfold Fk
    refine setB_cont _ _ (setB_cont _ _ (setB_cont _ _ continuous_const ?_) ?_) continuous_const
    · exact (hR.matrix_transpose.neg).matrix_mul continuous_const
    · exact hR.matrix_transpose.neg
  have h2 : Continuous fun t => Gk (R t) := by
    unfold Gk
    exact setB_cont _ _ (setB_cont _ _ continuous_const hR.matrix_transpose.neg) continuous_const
  unfold Pdot
  exact ((h1.matrix_mul hP).add (hP.matrix_mul h1.matrix_transpose)).add ((h2.matrix_mul continuous_const).matrix_mul h2.matrix_transpose)

theorem deriv_mul_cont {h : ℝ → ℝ} (hc : Continuous h) (c : ℝ) : HasDerivAt (fun t => c + t * h t) (h 0) 0 := by
  rw [hasDerivAt_iff_tendsto_slope_zero]
  have : Filter.Tendsto h (nhdsWithin 0 {0}ᶜ) (nhds (h 0)) := hc.continuousAt.tendsto.mono_left nhdsWithin_le_nhds
  refine this.congr' ?_
  filter_upwards [self_mem_nhdsWithin] with t ht
  have : t ≠ 0 := ht
  simp
  field_simp

/-- **C40** (covariance rate, partial) After any sequence of intervals whose corrected rates are zero or at least the threshold, the covariance of the preintegrated measurement grows, at the start of the next interval, at the rate
`F P + P Fᵀ + G Q Gᵀ` of the linear error dynamics `F`, `G` of the kinematics driven by the corrected readings, with the four noise densities `Q`. Missing: that the Runge-Kutta step is exact over a whole interval (it is not), and smaller rates. -/
theorem C40_covariance_rate_partial (k : Conf) (xs : List Seg) (h : ∀ x ∈ xs, Spec.rate k x = 0 ∨ thr ≤ norm3 (Spec.rate k x)) (t0 : ℝ) (w0 a0 w1 a1 : V3) :
    ∃ F G, Spec.ErrorDynamics (Spec.rate k ⟨t0, t0, w0, a0, w1, a1⟩) (Spec.force k ⟨t0, t0, w0, a0, w1, a1⟩) (run k xs).R F G ∧
      ∀ i j, HasDerivAt (fun dt => (run k (xs ++ [⟨t0, t0 + dt, w0, a0, w1, a1⟩])).P i j)
        ((F * (run k xs).P + (run k xs).P * F.transpose + G * Spec.densities k * G.transpose) i j) 0 := by
  set w := Spec.rate k ⟨t0, t0, w0, a0, w1, a1⟩ with hw
  set a := Spec.force k ⟨t0, t0, w0, a0, w1, a1⟩ with ha
  refine ⟨Fk w a (run k xs).R, Gk (run k xs).R, Fk_dynamics w a (C40_rotation_partial k xs h).1, fun i j => ?_⟩
  have hsym := C40_symmetric k xs
  simp only [run_snoc]
  generalize run k xs = s at *
  -- the Runge-Kutta stages
  let Rm : ℝ → M3 := fun dt => relRot w (1 / 2 * dt) * s.R
  let R1 : ℝ → M3 := fun dt => relRot w dt * s.R
  let p1 : M15 := Pdot k w a s.R s.P
  let p2 : ℝ → M15 := fun dt => Pdot k w a (Rm dt) (s.P + (dt / 2) • p1)
  let p3 : ℝ → M15 := fun dt => Pdot k w a (Rm dt) (s.P + (dt / 2) • p2 dt)
  let p4 : ℝ → M15 := fun dt => Pdot k w a (R1 dt) (s.P + dt • p3 dt)
  let g : ℝ → M15 := fun dt => p1 + (2 : ℝ) • p2 dt + (2 : ℝ) • p3 dt + p4 dt
  have cR1 : Continuous R1 := (relRot_cont w).matrix_mul continuous_const
  have cRm : Continuous Rm := ((relRot_cont w).comp (by fun_prop)).matrix_mul continuous_const
  have c2 : Continuous p2 := Pdot_cont k w a cRm (by fun_prop)
  have c3 : Continuous p3 := Pdot_cont k w a cRm (by fun_prop)
  have c4 : Continuous p4 := Pdot_cont k w a cR1 (by fun_prop)
  have cg : Continuous g := by fun_prop
  have hrel : relRot w 0 = 1 := by unfold relRot; split_ifs <;> simp
  have hg0 : g 0 = (6 : ℝ) • p1 := by
    simp only [g, p4, p3, p2, Rm, R1, mul_zero, hrel, Matrix.one_mul, zero_div, zero_smul, add_zero, p1]
    module
  have hp1 : p1.transpose = p1 := by
    have hq : (Qc k).transpose = Qc k := by rw [Qc_eq]; simp [Spec.densities]
    simp only [p1, Pdot, Matrix.transpose_add, Matrix.transpose_mul, Matrix.transpose_transpose, hsym, hq, Matrix.mul_assoc]
    abel
  have hP : ∀ dt, (feed k s ⟨t0, t0 + dt, w0, a0, w1, a1⟩).P i j = s.P i j + dt * (1 / 12 * (g dt i j + g dt j i)) := by
    intro dt
    have hs : s.P j i = s.P i j := congrFun (congrFun hsym i) j
    by_cases h0 : dt = 0
    · rw [feed_zero (by simp [h0])]; simp [h0]
    · have e1 : corrected k k.bw w0 w1 = w := rate_eq k ⟨t0, t0, w0, a0, w1, a1⟩
      have e2 : corrected k k.ba a0 a1 = a := force_eq k ⟨t0, t0, w0, a0, w1, a1⟩
      simp only [feed, add_sub_cancel_left, if_neg h0, e1, e2]
      change ((1 / 2 : ℝ) • ((s.P + (dt / 6) • g dt) + (s.P + (dt / 6) • g dt).transpose)) i j = _
      simp only [Matrix.smul_apply, Matrix.add_apply, Matrix.transpose_apply, smul_eq_mul, hs]
      ring
  have := deriv_mul_cont (h := fun dt => 1 / 12 * (g dt i j + g dt j i))
    (continuous_const.mul (((continuous_apply_apply i j).comp cg).add ((continuous_apply_apply j i).comp cg))) (s.P i j)
  refine (this.congr_of_eventuallyEq (Filter.Eventually.of_forall fun dt => hP dt)).congr_deriv ?_
  have hji : p1 j i = p1 i j := congrFun (congrFun hp1 i) j
  have : p1 = Fk w a s.R * s.P + s.P * (Fk w a s.R).transpose + Gk s.R * Spec.densities k * (Gk s.R).transpose := by rw [← Qc_eq]; rfl
  rw [← this]
  simp only [hg0, Matrix.smul_apply, smul_eq_mul, hji]
  ring

end Verif.Cpi
