import Verif.Cpi.PropsCov
import Verif.Cpi.PropsV2
import Verif.Prop.PropsRk4
import Mathlib.Analysis.Matrix.Normed

/-! # C40: the covariance of the preintegration over an interval, to fifth order -/

set_option autoImplicit false
set_option linter.unusedVariables false

open Classical

namespace Verif.Cpi

open Verif Verif.Prop_ Topology Filter Asymptotics ContDiff
open scoped Matrix.Norms.Elementwise

namespace Spec

/-- around the time `0`, the orientation `R` turns with the constant rate `w` -/
def Turns (w : V3) (R : ℝ → M3) : Prop := ∀ᶠ t in 𝓝 (0 : ℝ), ∀ i j, HasDerivAt (fun s => R s i j) ((-(skew w) * R t) i j) t

/-- around the time `0`, `P` is a covariance of the errors of the kinematics with the constant rate `w`, the constant force `a` and the orientation `R`: it solves the Lyapunov equation of the linear error dynamics, with the noise densities -/
def CovFlow (k : Conf) (w a : V3) (R : ℝ → M3) (P : ℝ → M15) : Prop :=
  ∀ᶠ t in 𝓝 (0 : ℝ), ∃ F G, ErrorDynamics w a (R t) F G ∧
    ∀ i j, HasDerivAt (fun s => P s i j) ((F * P t + P t * F.transpose + G * densities k * G.transpose) i j) t

end Spec

theorem HasDm.unique {m n : ℕ} {f : ℝ → Matrix (Fin m) (Fin n) ℝ} {A B : Matrix (Fin m) (Fin n) ℝ} (h : HasDm f A) (h' : HasDm f B) : A = B :=
  Matrix.ext fun i j => (h i j).unique (h' i j)

theorem seg_ext15 {x y : Fin 15 → ℝ} (h0 : Spec.seg3 x 0 (by omega) = Spec.seg3 y 0 (by omega)) (h3 : Spec.seg3 x 3 (by omega) = Spec.seg3 y 3 (by omega))
    (h6 : Spec.seg3 x 6 (by omega) = Spec.seg3 y 6 (by omega)) (h9 : Spec.seg3 x 9 (by omega) = Spec.seg3 y 9 (by omega))
    (h12 : Spec.seg3 x 12 (by omega) = Spec.seg3 y 12 (by omega)) : x = y := by
  funext i
  obtain ⟨i, hi⟩ := i
  by_cases c0 : i < 3
  · have := congrFun h0 ⟨i, c0⟩; simpa [Spec.seg3] using this
  by_cases c3 : i < 6
  · have := congrFun h3 ⟨i - 3, by omega⟩; simpa [Spec.seg3, show 3 + (i - 3) = i by omega] using this
  by_cases c6 : i < 9
  · have := congrFun h6 ⟨i - 6, by omega⟩; simpa [Spec.seg3, show 6 + (i - 6) = i by omega] using this
  by_cases c9 : i < 12
  · have := congrFun h9 ⟨i - 9, by omega⟩; simpa [Spec.seg3, show 9 + (i - 9) = i by omega] using this
  · have := congrFun h12 ⟨i - 12, by omega⟩; simpa [Spec.seg3, show 12 + (i - 12) = i by omega] using this

theorem skew_inj' {u v : V3} (h : skew u = skew v) : u = v := by
  apply v3_ext
  · have := congrFun (congrFun h 2) 1; simpa [skew] using this
  · have := congrFun (congrFun h 0) 2; simpa [skew] using this
  · have := congrFun (congrFun h 1) 0; simpa [skew] using this

/-- the linear error dynamics are determined by their description. -/
theorem dynamics_unique {w a : V3} {R : M3} {F F' : M15} {G G' : Matrix (Fin 15) (Fin 12) ℝ} (h : Spec.ErrorDynamics w a R F G) (h' : Spec.ErrorDynamics w a R F' G') :
    F = F' ∧ G = G' := by
  have key : ∀ x n, F.mulVec x + G.mulVec n = F'.mulVec x + G'.mulVec n := by
    intro x n
    obtain ⟨a0, a3, a6, a9, a12⟩ := h x n
    obtain ⟨b0, b3, b6, b9, b12⟩ := h' x n
    refine seg_ext15 (skew_inj' (neg_injective (HasDm.unique a0 b0))) (a3.trans b3.symm) ?_ (a9.trans b9.symm) (a12.trans b12.symm)
    funext i; exact (a6 i).unique (b6 i)
  constructor
  · ext i j
    have := congrFun (key (Pi.single j 1) 0) i
    simpa using this
  · ext i j
    have := congrFun (key 0 (Pi.single j 1)) i
    simpa using this

/-! ## smoothness -/

/-- entries of a curve of matrices, smooth in the variable -/
def SmM {X : Type*} [NormedAddCommGroup X] [NormedSpace ℝ X] {m n : ℕ} (A : X → Matrix (Fin m) (Fin n) ℝ) (z : X) : Prop := ∀ i j, ContDiffAt ℝ ω (fun s => A s i j) z

section
variable {X : Type*} [NormedAddCommGroup X] [NormedSpace ℝ X] {z : X} {m n l : ℕ}

theorem SmM.const (A : Matrix (Fin m) (Fin n) ℝ) : SmM (fun _ : X => A) z := fun _ _ => contDiffAt_const
theorem SmM.add {A B : X → Matrix (Fin m) (Fin n) ℝ} (hA : SmM A z) (hB : SmM B z) : SmM (fun s => A s + B s) z := fun i j => (hA i j).add (hB i j)
theorem SmM.neg {A : X → Matrix (Fin m) (Fin n) ℝ} (hA : SmM A z) : SmM (fun s => -A s) z := fun i j => (hA i j).neg
theorem SmM.tr {A : X → Matrix (Fin m) (Fin n) ℝ} (hA : SmM A z) : SmM (fun s => (A s).transpose) z := fun i j => hA j i
theorem SmM.mul {A : X → Matrix (Fin m) (Fin n) ℝ} {B : X → Matrix (Fin n) (Fin l) ℝ} (hA : SmM A z) (hB : SmM B z) : SmM (fun s => A s * B s) z := fun i j => by
  simp only [Matrix.mul_apply]
  exact ContDiffAt.sum fun k _ => (hA i k).mul (hB k j)
theorem SmM.smul {c : X → ℝ} (hc : ContDiffAt ℝ ω c z) {A : X → Matrix (Fin m) (Fin n) ℝ} (hA : SmM A z) : SmM (fun s => c s • A s) z := fun i j => hc.mul (hA i j)
theorem SmM.setB {A : X → Matrix (Fin m) (Fin n) ℝ} {B : X → M3} (r c : ℕ) (hA : SmM A z) (hB : SmM B z) : SmM (fun s => Cpi.setB (A s) r c (B s)) z := fun i j => by
  simp only [Cpi.setB]
  split_ifs
  · exact hB _ _
  · exact hA i j

theorem relRot_smooth (w : V3) (t : ℝ) : SmM (relRot w) t := by
  unfold relRot
  split_ifs with h
  · intro i j
    simp only [Matrix.add_apply, Matrix.sub_apply, Matrix.smul_apply, smul_eq_mul]
    fun_prop
  · intro i j
    simp only [Matrix.add_apply, Matrix.sub_apply, Matrix.smul_apply, smul_eq_mul]
    have h1 : ContDiffAt ℝ ω (fun s : ℝ => Real.sin (norm3 w * s)) t := Real.contDiff_sin.contDiffAt.comp t (by fun_prop)
    have h2 : ContDiffAt ℝ ω (fun s : ℝ => Real.cos (norm3 w * s)) t := Real.contDiff_cos.contDiffAt.comp t (by fun_prop)
    exact (contDiffAt_const.sub ((h1.div_const _).mul contDiffAt_const)).add (((contDiffAt_const.sub h2).div_const _).mul contDiffAt_const)

theorem Fk_smooth (w a : V3) {R : X → M3} (hR : SmM R z) : SmM (fun s => Fk w a (R s)) z := by
  unfold Fk
  exact SmM.setB _ _ (SmM.setB _ _ (SmM.setB _ _ (SmM.const _) (hR.tr.neg.mul (SmM.const _))) hR.tr.neg) (SmM.const _)

theorem Gk_smooth {R : X → M3} (hR : SmM R z) : SmM (fun s => Gk (R s)) z := by
  unfold Gk
  exact SmM.setB _ _ (SmM.setB _ _ (SmM.const _) hR.tr.neg) (SmM.const _)

theorem Pdot_smooth (k : Conf) (w a : V3) {R : X → M3} {P : X → M15} (hR : SmM R z) (hP : SmM P z) : SmM (fun s => Pdot k w a (R s) (P s)) z := by
  unfold Pdot
  exact (((Fk_smooth w a hR).mul hP).add (hP.mul (Fk_smooth w a hR).tr)).add (((Gk_smooth hR).mul (SmM.const _)).mul (Gk_smooth hR).tr)

end

theorem relRot_turns {w : V3} (h : w = 0 ∨ thr ≤ norm3 w) (t : ℝ) (i j : Fin 3) : HasDerivAt (fun s => relRot w s i j) ((-(skew w) * relRot w t) i j) t := by
  rcases h with rfl | h
  · have hs : skew (0 : V3) = 0 := by apply m3_ext <;> simp [skew]
    simp only [relRot_zero, hs, neg_zero, Matrix.zero_mul]
    exact hasDerivAt_const _ _
  · have := kE_deriv (lt_of_lt_of_le thr_pos h).ne' (norm3_sq' w) t i j
    rw [show relRot w = kE (norm3 w) w from funext fun t => relRot_kE h t]
    exact this

theorem relRot_rot {w : V3} (h : w = 0 ∨ thr ≤ norm3 w) (t : ℝ) : IsRot (relRot w t) := by
  rcases h with rfl | h
  · rw [relRot_zero]; exact IsRot.one
  · rw [relRot_kE h]; exact kE_orth (lt_of_lt_of_le thr_pos h).ne' (norm3_sq' w) t

theorem turns_eq {w : V3} (h : w = 0 ∨ thr ≤ norm3 w) {R : ℝ → M3} {R0 : M3} (hR0 : IsRot R0) (hR : Spec.Turns w R) (h0 : R 0 = R0) :
    ∀ᶠ t in 𝓝 (0 : ℝ), R t = relRot w t * R0 := by
  refine rot_unique (W := fun _ => w) (R := fun t => relRot w t * R0) (Eventually.of_forall fun t i j => ?_) hR (Eventually.of_forall fun t => (relRot_rot h t).mul hR0) ?_
  · have h1 : Sim.HasDmAt (relRot w) (-(skew w) * relRot w t) t := fun i j => relRot_turns h t i j
    refine ((h1.mul (Sim.HasDmAt.const R0)) i j).congr_deriv ?_
    rw [Matrix.mul_zero, add_zero, Matrix.mul_assoc]
  · have : relRot w 0 = 1 := by unfold relRot; split_ifs <;> simp
    rw [h0, this, Matrix.one_mul]

theorem Pdot_symm (k : Conf) (w a : V3) (R : M3) {P : M15} (h : P.transpose = P) : (Pdot k w a R P).transpose = Pdot k w a R P := by
  have hq : (Qc k).transpose = Qc k := by rw [Qc_eq]; simp [Spec.densities]
  simp only [Pdot, Matrix.transpose_add, Matrix.transpose_mul, Matrix.transpose_transpose, h, hq, Matrix.mul_assoc]
  abel

theorem contDiffAt_m {X : Type*} [NormedAddCommGroup X] [NormedSpace ℝ X] {z : X} {m n : ℕ} {A : X → Matrix (Fin m) (Fin n) ℝ} (h : SmM A z) : ContDiffAt ℝ ω A z :=
  contDiffAt_pi' (𝕜 := ℝ) (F' := fun _ : Fin m => Fin n → ℝ) (Φ := A) fun i => contDiffAt_pi' fun j => h i j

theorem entry_smooth {m n : ℕ} (i : Fin m) (j : Fin n) (P : Matrix (Fin m) (Fin n) ℝ) : ContDiffAt ℝ ω (fun A : Matrix (Fin m) (Fin n) ℝ => A i j) P :=
  contDiffAt_pi.1 (contDiffAt_pi.1 (contDiffAt_id (𝕜 := ℝ) (E := Fin m → Fin n → ℝ)) i) j

theorem hasDerivAt_m {m n : ℕ} {P : ℝ → Matrix (Fin m) (Fin n) ℝ} {P' : Matrix (Fin m) (Fin n) ℝ} {t : ℝ} (h : ∀ i j, HasDerivAt (fun s => P s i j) (P' i j) t) : HasDerivAt P P' t :=
  hasDerivAt_pi (E' := fun _ : Fin m => Fin n → ℝ) (φ := P) |>.2 fun i => hasDerivAt_pi.2 fun j => h i j

/-- the Lyapunov equation along the code's orientation -/
noncomputable def lyap (k : Conf) (w a : V3) (R0 : M3) (t : ℝ) (P : M15) : M15 := Pdot k w a (relRot w t * R0) P

theorem lyap_analytic (k : Conf) (w a : V3) (R0 : M3) (P0 : M15) : AnalyticAt ℝ (fun z : ℝ × (M15) => lyap k w a R0 z.1 z.2) (0, P0) := by
  refine ContDiffAt.analyticAt (contDiffAt_m fun i j => ?_)
  refine Pdot_smooth k w a (R := fun z : ℝ × (M15) => relRot w z.1 * R0) (P := fun z => z.2) ?_ ?_ i j
  · refine SmM.mul (fun i j => ?_) (SmM.const _)
    exact (relRot_smooth w 0 i j).comp (0, P0) contDiffAt_fst
  · intro i j
    have h1 : ContDiffAt ℝ ω (fun z : ℝ × (M15) => z.2) (0, P0) := contDiffAt_snd
    exact (entry_smooth i j P0).comp (0, P0) h1

theorem feed_cov (k : Conf) (s : Res) (hs : s.P.transpose = s.P) (t0 dt : ℝ) (w0 a0 w1 a1 : V3) :
    (feed k s ⟨t0, t0 + dt, w0, a0, w1, a1⟩).P = Rk.rk4t (lyap k (Spec.rate k ⟨t0, t0, w0, a0, w1, a1⟩) (Spec.force k ⟨t0, t0, w0, a0, w1, a1⟩) s.R) s.P dt := by
  by_cases h0 : dt = 0
  · rw [feed_zero (by simp [h0])]
    subst h0
    simp only [Rk.rk4t]
    rw [zero_div, zero_smul, add_zero]
  · have e1 : corrected k k.bw w0 w1 = Spec.rate k ⟨t0, t0, w0, a0, w1, a1⟩ := rate_eq k ⟨t0, t0, w0, a0, w1, a1⟩
    have e2 : corrected k k.ba a0 a1 = Spec.force k ⟨t0, t0, w0, a0, w1, a1⟩ := force_eq k ⟨t0, t0, w0, a0, w1, a1⟩
    simp only [feed, add_sub_cancel_left, if_neg h0, e1, e2]
    set w := Spec.rate k ⟨t0, t0, w0, a0, w1, a1⟩
    set a := Spec.force k ⟨t0, t0, w0, a0, w1, a1⟩
    have hrel : relRot w 0 = 1 := by unfold relRot; split_ifs <;> simp
    set p1 := Pdot k w a s.R s.P with hp1
    set p2 := Pdot k w a (relRot w (1 / 2 * dt) * s.R) (s.P + (dt / 2) • p1) with hp2
    set p3 := Pdot k w a (relRot w (1 / 2 * dt) * s.R) (s.P + (dt / 2) • p2) with hp3
    set p4 := Pdot k w a (relRot w dt * s.R) (s.P + dt • p3) with hp4
    have s1 : p1.transpose = p1 := Pdot_symm k w a _ hs
    have s2 : p2.transpose = p2 := Pdot_symm k w a _ (by rw [Matrix.transpose_add, Matrix.transpose_smul, hs, s1])
    have s3 : p3.transpose = p3 := Pdot_symm k w a _ (by rw [Matrix.transpose_add, Matrix.transpose_smul, hs, s2])
    have s4 : p4.transpose = p4 := Pdot_symm k w a _ (by rw [Matrix.transpose_add, Matrix.transpose_smul, hs, s3])
    have hr : Rk.rk4t (lyap k w a s.R) s.P dt = s.P + (dt / 6) • (p1 + (2 : ℝ) • p2 + (2 : ℝ) • p3 + p4) := by
      have r1 : lyap k w a s.R 0 s.P = p1 := by simp only [lyap, hrel, Matrix.one_mul]; rfl
      have hh : dt / 2 = 1 / 2 * dt := by ring
      have r2 : lyap k w a s.R (dt / 2) (s.P + (dt / 2) • p1) = p2 := by simp only [hp2, lyap, ← hh]
      have r3 : lyap k w a s.R (dt / 2) (s.P + (dt / 2) • p2) = p3 := by simp only [hp3, lyap, ← hh]
      have r4 : lyap k w a s.R dt (s.P + dt • p3) = p4 := rfl
      simp only [Rk.rk4t, r1, r2, r3, r4]
    rw [hr]
    simp only [Matrix.transpose_add, Matrix.transpose_smul, s1, s2, s3, s4, hs]
    module

/-- **C40** (covariance) After any sequence of intervals whose corrected rates are zero or at least the threshold, and for a next interval of length `dt` of that kind, the covariance differs by `O(dt⁵)` from the solution of the Lyapunov
equation `P' = F P + P Fᵀ + G Q Gᵀ` of the linear error dynamics of the kinematics driven by the corrected readings, with the four noise densities `Q`, started at the covariance and orientation of the start of the interval. -/
theorem C40_covariance_order_partial (k : Conf) (xs : List Seg) (h : ∀ x ∈ xs, Spec.rate k x = 0 ∨ thr ≤ norm3 (Spec.rate k x)) (t0 : ℝ) (w0 a0 w1 a1 : V3)
    (hx : Spec.rate k ⟨t0, t0, w0, a0, w1, a1⟩ = 0 ∨ thr ≤ norm3 (Spec.rate k ⟨t0, t0, w0, a0, w1, a1⟩)) (R : ℝ → M3) (P : ℝ → M15)
    (hR : Spec.Turns (Spec.rate k ⟨t0, t0, w0, a0, w1, a1⟩) R) (hR0 : R 0 = (run k xs).R)
    (hP : Spec.CovFlow k (Spec.rate k ⟨t0, t0, w0, a0, w1, a1⟩) (Spec.force k ⟨t0, t0, w0, a0, w1, a1⟩) R P) (hP0 : P 0 = (run k xs).P) (i j : Fin 15) :
    (fun dt => (run k (xs ++ [⟨t0, t0 + dt, w0, a0, w1, a1⟩])).P i j - P dt i j) =O[𝓝 0] fun dt : ℝ => dt ^ 5 := by
  have hrot := (C40_rotation_partial k xs h).1
  have hsym := C40_symmetric k xs
  simp only [run_snoc]
  generalize run k xs = s at *
  simp only [feed_cov k s hsym]
  set w := Spec.rate k ⟨t0, t0, w0, a0, w1, a1⟩
  set a := Spec.force k ⟨t0, t0, w0, a0, w1, a1⟩
  have hsol : ∀ᶠ t in 𝓝 (0 : ℝ), HasDerivAt P (lyap k w a s.R t (P t)) t := by
    filter_upwards [hP, turns_eq hx hrot hR hR0] with t ht hRt
    obtain ⟨F, G, hd, hder⟩ := ht
    rw [hRt] at hd
    obtain ⟨rfl, rfl⟩ := dynamics_unique hd (Fk_dynamics w a ((relRot_rot hx t).mul hrot))
    rw [← Qc_eq] at hder
    exact hasDerivAt_m hder
  have hO := Rk.rk4t_order (lyap_analytic k w a s.R s.P) P hP0 hsol
  refine (IsBigO.of_bound 1 (Eventually.of_forall fun dt => ?_)).trans hO
  rw [one_mul]
  exact Matrix.norm_entry_le_entrywise_sup_norm (Rk.rk4t (lyap k w a s.R) s.P dt - P dt) 

/-- non-vacuity: the orientation and the covariance that the theorem compares with exist, from every start. -/
theorem covFlow_exists (k : Conf) (w a : V3) (hw : w = 0 ∨ thr ≤ norm3 w) (R0 : M3) (hR0 : IsRot R0) (P0 : M15) :
    ∃ R P, Spec.Turns w R ∧ R 0 = R0 ∧ Spec.CovFlow k w a R P ∧ P 0 = P0 := by
  haveI : CompleteSpace M15 := FiniteDimensional.complete ℝ M15
  obtain ⟨P, h0, hP⟩ := Rk.exists_sol (lyap_analytic k w a R0 P0)
  refine ⟨fun t => relRot w t * R0, P, Eventually.of_forall fun t i j => ?_, ?_, ?_, h0⟩
  · have h1 : Sim.HasDmAt (relRot w) (-(skew w) * relRot w t) t := fun i j => relRot_turns hw t i j
    refine ((h1.mul (Sim.HasDmAt.const R0)) i j).congr_deriv ?_
    rw [Matrix.mul_zero, add_zero, Matrix.mul_assoc]
  · have : relRot w 0 = 1 := by unfold relRot; split_ifs <;> simp
    simp only [this, Matrix.one_mul]
  · filter_upwards [hP] with t ht
    refine ⟨_, _, Fk_dynamics w a ((relRot_rot hw t).mul hR0), fun i j => ?_⟩
    rw [← Qc_eq]
    exact hasDerivAt_pi.1 (hasDerivAt_pi (E' := fun _ : Fin 15 => Fin 15 → ℝ) (φ := P) |>.1 ht i) j

/-- a turning and accelerating body with biased, noisy readings: all hypotheses of the theorem are met -/
example : ∃ R P, Spec.Turns ![0, 0, 1] R ∧ R 0 = (1 : M3) ∧ Spec.CovFlow ⟨1, 1, 1, 1, false, 0, 0⟩ ![0, 0, 1] ![1, 2, 9.81] R P ∧ P 0 = 0 :=
  covFlow_exists _ _ _ (Or.inr (by
    have : norm3 (![0, 0, 1] : V3) = 1 := by simp [norm3, dot3]
    rw [this]; unfold thr; norm_num)) 1 IsRot.one 0

end Verif.Cpi
