import Verif.Cpi.PropsV2

/-!
# C127: covariance and Runge-Kutta Jacobians of preintegration with constant local acceleration
-/

set_option autoImplicit false
set_option linter.unusedSimpArgs false

open Classical

namespace Verif.Cpi

open Verif Verif.Prop_

/-! ## rows of the matrices -/

/-- the row that row `i` is taken from when the orientation is moved to the new start -/
def src (i : Fin 21) : Fin 21 := if 15 ≤ i.1 ∧ i.1 < 18 then ⟨i.1 - 15, by omega⟩ else i

theorem Bk_apply (i j : Fin 21) : Bk i j = if j = src i then 1 else 0 := by
  unfold Bk setB src
  by_cases h : 15 ≤ i.1 ∧ i.1 < 18
  · rw [if_pos h]
    by_cases hj : j.1 < 3
    · rw [dif_pos ⟨h, by omega⟩]
      simp only [Matrix.one_apply, Fin.ext_iff]
      by_cases e : i.1 - 15 = j.1
      · rw [if_pos (by omega), if_pos (by omega)]
      · rw [if_neg (by omega), if_neg (by omega)]
    · rw [dif_neg (by omega), if_neg (by rw [Fin.ext_iff]; simp only; omega)]
      by_cases hj' : 15 ≤ j.1 ∧ j.1 < 18
      · rw [dif_pos ⟨h, hj'⟩]; rfl
      · rw [dif_neg (by omega), Matrix.one_apply, if_neg (by rw [Fin.ext_iff]; omega)]
  · rw [if_neg h, dif_neg (by omega), dif_neg (by omega), Matrix.one_apply]
    by_cases e : i = j
    · rw [if_pos e, if_pos e.symm]
    · rw [if_neg e, if_neg (Ne.symm e)]

theorem Bk_mul {n : ℕ} (M : Matrix (Fin 21) (Fin n) ℝ) (i : Fin 21) (j : Fin n) : (Bk * M) i j = M (src i) j := by
  simp [Matrix.mul_apply, Bk_apply]

theorem mul_Bk {n : ℕ} (M : Matrix (Fin n) (Fin 21) ℝ) (i : Fin n) (j : Fin 21) : (M * Bk.transpose) i j = M i (src j) := by
  simp [Matrix.mul_apply, Bk_apply]

theorem src_src (i : Fin 21) : src (src i) = src i := by
  unfold src
  by_cases h : 15 ≤ i.1 ∧ i.1 < 18
  · rw [if_pos h, if_neg (by simp only; omega)]
  · rw [if_neg h, if_neg h]

theorem src_top (i : Fin 15) : src (Fin.castLE (by omega) i) = Fin.castLE (by omega) i := by
  unfold src
  rw [if_neg (by simp)]

theorem src_last {i : Fin 21} (h : 18 ≤ i.1) : src i = i := by
  unfold src
  rw [if_neg (by omega)]

/-- rows of `F_k` without dynamics -/
theorem Fk2_row (w a g : V3) (Rt R : M3) {i : Fin 21} (h : (3 ≤ i.1 ∧ i.1 < 6) ∨ (9 ≤ i.1 ∧ i.1 < 12) ∨ 15 ≤ i.1) (j : Fin 21) : Fk2 w a g Rt R i j = 0 := by
  unfold Fk2 setB
  rw [dif_neg (by omega), dif_neg (by omega), dif_neg (by omega), dif_neg (by omega), dif_neg (by omega), dif_neg (by omega), dif_neg (by omega)]
  rfl

theorem Gk2_row (R : M3) {i : Fin 21} (h : 15 ≤ i.1) (j : Fin 12) : Gk2 R i j = 0 := by
  unfold Gk2 setB
  rw [dif_neg (by omega), dif_neg (by omega), dif_neg (by omega), dif_neg (by omega)]
  rfl

theorem Gk2_top (R : M3) (i : Fin 15) (j : Fin 12) : Gk2 R (Fin.castLE (by omega) i) j = Gk R i j := rfl

set_option maxHeartbeats 4000000 in
theorem seg_Fk2 (w a g : V3) (Rt R : M3) (x : Fin 21 → ℝ) :
    let d := (Fk2 w a g Rt R).mulVec x
    Spec.seg3 d 0 (by omega) = -((skew w).mulVec (Spec.seg3 x 0 (by omega))) - Spec.seg3 x 3 (by omega) ∧
    Spec.seg3 d 6 (by omega) = -((R.transpose * skew a).mulVec (Spec.seg3 x 0 (by omega))) - R.transpose.mulVec (Spec.seg3 x 9 (by omega)) -
      (R.transpose * skew (Rt.mulVec g)).mulVec (Spec.seg3 x 15 (by omega)) - (R.transpose * Rt * skew g).mulVec (Spec.seg3 x 18 (by omega)) ∧
    Spec.seg3 d 12 (by omega) = Spec.seg3 x 6 (by omega) := by
  intro d
  have hn : ∀ A B : M3, -A * B = -(A * B) := fun A B => Matrix.neg_mul A B
  simp only [d, Fk2, hn, Matrix.neg_mul]
  generalize skew w = S
  generalize R.transpose * skew a = A
  generalize R.transpose * skew (Rt.mulVec g) = B
  generalize R.transpose * Rt * skew g = C
  generalize R.transpose = D
  refine ⟨?_, ?_, ?_⟩ <;>
    · apply v3_ext <;>
      · simp [Spec.seg3, setB, Matrix.mulVec, dotProduct, Fin.sum_univ_succ]
        try simp [Matrix.one_apply, Fin.ext_iff]
        try ring

theorem Fk2_top (w a g : V3) (R : M3) (x : Fin 21 → ℝ) (h15 : ∀ i, x i = x (src i)) (h18 : ∀ i : Fin 21, 18 ≤ i.1 → x i = 0) (i : Fin 15) :
    (Fk2 w a g R R).mulVec x (Fin.castLE (by omega) i) = (Fk w (a + R.mulVec g) R).mulVec (fun j => x (Fin.castLE (by omega) j)) i := by
  obtain ⟨a0, a6, a12⟩ := seg_Fk2 w a g R R x
  obtain ⟨b0, b3, b6, b9, b12⟩ := seg_Fk w (a + R.mulVec g) R (fun j => x (Fin.castLE (by omega) j)) 0
  rw [Matrix.mulVec_zero, add_zero] at b0 b3 b6 b9 b12
  have z : ∀ c h, Spec.seg3 (0 : Fin 12 → ℝ) c h = 0 := fun c h => rfl
  have e15 : Spec.seg3 x 15 (by omega) = Spec.seg3 x 0 (by omega) := by
    apply v3_ext
    · exact h15 15
    · exact h15 16
    · exact h15 17
  have e18 : Spec.seg3 x 18 (by omega) = 0 := by
    apply v3_ext <;> exact h18 _ (by simp)
  have t : ∀ c (h : c + 3 ≤ 15), Spec.seg3 (fun j : Fin 15 => x (Fin.castLE (by omega) j)) c h = Spec.seg3 x c (by omega) := fun c h => rfl
  rw [z, sub_zero, t, t] at b0
  rw [z] at b3 b9
  rw [z, Matrix.mulVec_zero, sub_zero, t, t, skew_add, Matrix.mul_add, Matrix.add_mulVec] at b6
  rw [t] at b12
  rw [e15, e18, Matrix.mulVec_zero, sub_zero] at a6
  have k0 : Spec.seg3 ((Fk2 w a g R R).mulVec x) 0 (by omega) = Spec.seg3 ((Fk w (a + R.mulVec g) R).mulVec (fun j => x (Fin.castLE (by omega) j))) 0 (by omega) := by rw [a0, b0]
  have k6 : Spec.seg3 ((Fk2 w a g R R).mulVec x) 6 (by omega) = Spec.seg3 ((Fk w (a + R.mulVec g) R).mulVec (fun j => x (Fin.castLE (by omega) j))) 6 (by omega) := by rw [a6, b6]; abel
  have k12 : Spec.seg3 ((Fk2 w a g R R).mulVec x) 12 (by omega) = Spec.seg3 ((Fk w (a + R.mulVec g) R).mulVec (fun j => x (Fin.castLE (by omega) j))) 12 (by omega) := by rw [a12, b12]
  have hrow : ∀ i : Fin 21, (3 ≤ i.1 ∧ i.1 < 6) ∨ (9 ≤ i.1 ∧ i.1 < 12) ∨ 15 ≤ i.1 → (Fk2 w a g R R).mulVec x i = 0 := fun i hi => by
    simp [Matrix.mulVec, dotProduct, Fk2_row w a g R R hi]
  have k3 : Spec.seg3 ((Fk2 w a g R R).mulVec x) 3 (by omega) = Spec.seg3 ((Fk w (a + R.mulVec g) R).mulVec (fun j => x (Fin.castLE (by omega) j))) 3 (by omega) := by
    rw [b3]; apply v3_ext <;> exact hrow _ (.inl (by simp))
  have k9 : Spec.seg3 ((Fk2 w a g R R).mulVec x) 9 (by omega) = Spec.seg3 ((Fk w (a + R.mulVec g) R).mulVec (fun j => x (Fin.castLE (by omega) j))) 9 (by omega) := by
    rw [b9]; apply v3_ext <;> exact hrow _ (.inr (.inl (by simp)))
  fin_cases i
  · exact congrFun k0 0
  · exact congrFun k0 1
  · exact congrFun k0 2
  · exact congrFun k3 0
  · exact congrFun k3 1
  · exact congrFun k3 2
  · exact congrFun k6 0
  · exact congrFun k6 1
  · exact congrFun k6 2
  · exact congrFun k9 0
  · exact congrFun k9 1
  · exact congrFun k9 2
  · exact congrFun k12 0
  · exact congrFun k12 1
  · exact congrFun k12 2

/-! ## covariance -/

/-- what the large covariance satisfies between intervals: symmetric, the orientation at the start of the interval is the orientation, the orientation at the first time is certain -/
structure CovInv (P : M21) : Prop where
  sym : P.transpose = P
  start : ∀ i j, P i j = P (src i) j
  first : ∀ (i j : Fin 21), 18 ≤ i.1 → P i j = 0

/-- the orientation at the first time is certain -/
def Zr (P : M21) : Prop := ∀ (i j : Fin 21), 18 ≤ i.1 → P i j = 0 ∧ P j i = 0

theorem Zr.add {P Q : M21} (h : Zr P) (h' : Zr Q) : Zr (P + Q) := fun i j hi => by
  simp [h i j hi, h' i j hi]

theorem Zr.smul {P : M21} (h : Zr P) (c : ℝ) : Zr (c • P) := fun i j hi => by
  simp [h i j hi]

theorem Zr.pdot {P : M21} (h : Zr P) (k : Conf) (w a g : V3) (Rt R : M3) : Zr (Pdot2 k (Fk2 w a g Rt R) (Gk2 R) P) := fun i j hi => by
  have f : ∀ l, Fk2 w a g Rt R i l = 0 := fun l => Fk2_row w a g Rt R (.inr (.inr (by omega))) l
  have gz : ∀ l, Gk2 R i l = 0 := fun l => Gk2_row R (by omega) l
  have p1 : ∀ l, P i l = 0 := fun l => (h i l hi).1
  have p2 : ∀ l, P l i = 0 := fun l => (h i l hi).2
  constructor
  · simp [Pdot2, Matrix.mul_apply, f, gz, p1]
  · simp [Pdot2, Matrix.mul_apply, f, gz, p2]

/-- the sum of the Runge-Kutta stages of the covariance -/
noncomputable def stages (k : Conf) (w a g : V3) (R0 Rm R1 : M3) (dt : ℝ) (P0 : M21) : M21 :=
  let p1 := Pdot2 k (Fk2 w a g R0 R0) (Gk2 R0) P0
  let p2 := Pdot2 k (Fk2 w a g R0 Rm) (Gk2 Rm) (P0 + (dt / 2) • p1)
  let p3 := Pdot2 k (Fk2 w a g R0 Rm) (Gk2 Rm) (P0 + (dt / 2) • p2)
  let p4 := Pdot2 k (Fk2 w a g R0 R1) (Gk2 R1) (P0 + dt • p3)
  p1 + (2 : ℝ) • p2 + (2 : ℝ) • p3 + p4

theorem covStep_apply (k : Conf) (w a g : V3) (R0 Rm R1 : M3) (dt : ℝ) (P0 : M21) (i j : Fin 21) : covStep k w a g R0 Rm R1 dt P0 i j =
    1 / 2 * ((P0 (src i) (src j) + dt / 6 * stages k w a g R0 Rm R1 dt P0 (src i) (src j)) + (P0 (src j) (src i) + dt / 6 * stages k w a g R0 Rm R1 dt P0 (src j) (src i))) := by
  have e : covStep k w a g R0 Rm R1 dt P0 = (1 / 2 : ℝ) • (Bk * ((1 / 2 : ℝ) • ((P0 + (dt / 6) • stages k w a g R0 Rm R1 dt P0) + (P0 + (dt / 6) • stages k w a g R0 Rm R1 dt P0).transpose)) * Bk.transpose +
    (Bk * ((1 / 2 : ℝ) • ((P0 + (dt / 6) • stages k w a g R0 Rm R1 dt P0) + (P0 + (dt / 6) • stages k w a g R0 Rm R1 dt P0).transpose)) * Bk.transpose).transpose) := rfl
  rw [e]
  generalize stages k w a g R0 Rm R1 dt P0 = S
  simp only [Matrix.smul_apply, Matrix.add_apply, Matrix.transpose_apply, mul_Bk, Bk_mul, smul_eq_mul]
  ring

theorem covStep_inv (k : Conf) (w a g : V3) (R0 Rm R1 : M3) (dt : ℝ) {P0 : M21} (h : CovInv P0) : CovInv (covStep k w a g R0 Rm R1 dt P0) := by
  have z0 : Zr P0 := fun i j hi => ⟨h.first i j hi, by rw [← h.sym]; exact h.first i j hi⟩
  have zs : Zr (stages k w a g R0 Rm R1 dt P0) := by
    have z1 := z0.pdot k w a g R0 R0
    have z2 := (z0.add (z1.smul (dt / 2))).pdot k w a g R0 Rm
    have z3 := (z0.add (z2.smul (dt / 2))).pdot k w a g R0 Rm
    have z4 := (z0.add (z3.smul dt)).pdot k w a g R0 R1
    exact ((z1.add (z2.smul 2)).add (z3.smul 2)).add z4
  refine ⟨?_, ?_, ?_⟩
  · ext i j
    rw [Matrix.transpose_apply, covStep_apply, covStep_apply]
    ring
  · intro i j
    rw [covStep_apply, covStep_apply, src_src]
  · intro i j hi
    rw [covStep_apply, src_last hi, (z0 i _ hi).1, (z0 i _ hi).2, (zs i _ hi).1, (zs i _ hi).2]
    ring

theorem run2_inv (k : Conf2) (xs : List Seg) : CovInv (run2 k xs).Pbig ∧ ∀ i j, (run2 k xs).P i j = (run2 k xs).Pbig (Fin.castLE (by omega) i) (Fin.castLE (by omega) j) := by
  induction xs using List.reverseRecOn with
  | nil => exact ⟨⟨by simp [run2, Res2.init], fun _ _ => rfl, fun _ _ _ => rfl⟩, fun _ _ => rfl⟩
  | append_singleton xs x ih =>
    rw [run2_snoc]
    by_cases h0 : x.t1 - x.t0 = 0
    · rw [feed2_zero h0]; exact ih
    · simp only [feed2, if_neg h0]
      exact ⟨covStep_inv _ _ _ _ _ _ _ _ ih.1, fun _ _ => rfl⟩

theorem Fk2_cont (w g : V3) (R0 : M3) {a : ℝ → V3} {R : ℝ → M3} (ha : Continuous a) (hR : Continuous R) : Continuous fun t => Fk2 w (a t) g R0 (R t) := by
  have hs : Continuous fun t => skew (a t) := by
    refine continuous_pi fun i => continuous_pi fun j => ?_
    have c : ∀ l, Continuous fun t => a t l := fun l => (continuous_apply l).comp ha
    have c0 := c 0
    have c1 := c 1
    have c2 := c 2
    fin_cases i <;> fin_cases j <;> simp [skew] <;> fun_prop
  unfold Fk2
  refine setB_cont _ _ (setB_cont _ _ (setB_cont _ _ (setB_cont _ _ (setB_cont _ _ continuous_const ?_) ?_) ?_) ?_) continuous_const
  · exact hR.matrix_transpose.neg.matrix_mul hs
  · exact hR.matrix_transpose.neg
  · exact hR.matrix_transpose.neg.matrix_mul continuous_const
  · exact (hR.matrix_transpose.neg.matrix_mul continuous_const).matrix_mul continuous_const

theorem Pdot2_cont (k : Conf) (w g : V3) (R0 : M3) {a : ℝ → V3} {R : ℝ → M3} {P : ℝ → M21} (ha : Continuous a) (hR : Continuous R) (hP : Continuous P) :
    Continuous fun t => Pdot2 k (Fk2 w (a t) g R0 (R t)) (Gk2 (R t)) (P t) := by
  have h1 := Fk2_cont w g R0 ha hR
  have h2 : Continuous fun t => Gk2 (R t) := by
    unfold Gk2
    exact setB_cont _ _ (setB_cont _ _ continuous_const hR.matrix_transpose.neg) continuous_const
  unfold Pdot2
  exact ((h1.matrix_mul hP).add (hP.matrix_mul h1.matrix_transpose)).add ((h2.matrix_mul continuous_const).matrix_mul h2.matrix_transpose)

theorem localAcc_cont (k : Conf) (g : V3) (R0 : M3) {R1 : ℝ → M3} (h : Continuous R1) (x : ℝ → Seg) (h0 : ∀ t, (x t).a0 = (x 0).a0) (h1 : ∀ t, (x t).a1 = (x 0).a1) : Continuous fun t => localAcc k g R0 (R1 t) (x t) := by
  have c : Continuous fun t => (R1 t).mulVec g := h.matrix_mulVec continuous_const
  unfold localAcc
  simp only [h0, h1]
  split_ifs
  · exact (continuous_const.add (continuous_const.sub c)).const_smul (1 / 2 : ℝ)
  · exact continuous_const

/-- the interval of length `dt` after `t0` -/
noncomputable def nextSeg (t0 : ℝ) (w0 a0 w1 a1 : V3) (dt : ℝ) : Seg := ⟨t0, t0 + dt, w0, a0, w1, a1⟩

theorem localAcc_zero (k : Conf) (g : V3) (R : M3) (x : Seg) : localAcc k g R R x + R.mulVec g = Spec.force k x := by
  unfold localAcc Spec.force
  split_ifs <;> module

/-- **C127 (covariance rate, partial).** After any sequence of intervals whose corrected rates are zero or at least the threshold, the covariance of the preintegrated measurement grows, at the start of the next interval, at the rate
`F P + P Fᵀ + G Q Gᵀ` of the linear error dynamics of the kinematics driven by the corrected readings: the errors of the orientation at the start of each interval, which enter the local acceleration through gravity, are those of the orientation
itself, so the specific force and not the local acceleration is what turns orientation errors into velocity errors. Missing: that the Runge-Kutta step is exact over a whole interval (it is not), and smaller rates. -/
theorem C127_covariance_rate_partial (k : Conf2) (xs : List Seg) (h : ∀ x ∈ xs, Spec.rate k.toConf x = 0 ∨ thr ≤ norm3 (Spec.rate k.toConf x)) (t0 : ℝ) (w0 a0 w1 a1 : V3) :
    ∃ F G, Spec.ErrorDynamics (Spec.rate k.toConf ⟨t0, t0, w0, a0, w1, a1⟩) (Spec.force k.toConf ⟨t0, t0, w0, a0, w1, a1⟩) (run2 k xs).R F G ∧
      ∀ i j, HasDerivAt (fun dt => (run2 k (xs ++ [⟨t0, t0 + dt, w0, a0, w1, a1⟩])).P i j)
        ((F * (run2 k xs).P + (run2 k xs).P * F.transpose + G * Spec.densities k.toConf * G.transpose) i j) 0 := by
  set w := Spec.rate k.toConf ⟨t0, t0, w0, a0, w1, a1⟩ with hw
  set f := Spec.force k.toConf ⟨t0, t0, w0, a0, w1, a1⟩ with hf
  refine ⟨Fk w f (run2 k xs).R, Gk (run2 k xs).R, Fk_dynamics w f (C127_rotation_partial k xs h).1, fun i j => ?_⟩
  obtain ⟨hI, hP⟩ := run2_inv k xs
  simp only [run2_snoc]
  generalize run2 k xs = s at *
  set g := (quat2Rot k.qk).mulVec k.grav with hg
  let Rm : ℝ → M3 := fun dt => relRot w (dt / 2) * s.R
  let R1 : ℝ → M3 := fun dt => relRot w dt * s.R
  let a : ℝ → V3 := fun dt => localAcc k.toConf g s.R (R1 dt) ⟨t0, t0 + dt, w0, a0, w1, a1⟩
  have cR1 : Continuous R1 := (relRot_cont w).matrix_mul continuous_const
  have cRm : Continuous Rm := ((relRot_cont w).comp (by fun_prop)).matrix_mul continuous_const
  have ca : Continuous a := localAcc_cont k.toConf g s.R cR1 _ (fun _ => rfl) (fun _ => rfl)
  let S : ℝ → M21 := fun dt => stages k.toConf w (a dt) g s.R (Rm dt) (R1 dt) dt s.Pbig
  have cS : Continuous S := by
    have c1 := Pdot2_cont k.toConf w g s.R ca (continuous_const (y := s.R)) (continuous_const (y := s.Pbig))
    have c2 := Pdot2_cont k.toConf w g s.R ca cRm (P := fun dt => s.Pbig + (dt / 2) • Pdot2 k.toConf (Fk2 w (a dt) g s.R s.R) (Gk2 s.R) s.Pbig) (by fun_prop)
    have c3 := Pdot2_cont k.toConf w g s.R ca cRm (P := fun dt => s.Pbig + (dt / 2) • Pdot2 k.toConf (Fk2 w (a dt) g s.R (Rm dt)) (Gk2 (Rm dt))
      (s.Pbig + (dt / 2) • Pdot2 k.toConf (Fk2 w (a dt) g s.R s.R) (Gk2 s.R) s.Pbig)) (by fun_prop)
    have c4 := Pdot2_cont k.toConf w g s.R ca cR1 (P := fun dt => s.Pbig + dt • Pdot2 k.toConf (Fk2 w (a dt) g s.R (Rm dt)) (Gk2 (Rm dt)) (s.Pbig + (dt / 2) • Pdot2 k.toConf (Fk2 w (a dt) g s.R (Rm dt)) (Gk2 (Rm dt))
      (s.Pbig + (dt / 2) • Pdot2 k.toConf (Fk2 w (a dt) g s.R s.R) (Gk2 s.R) s.Pbig))) (by fun_prop)
    exact ((c1.add (c2.const_smul (2 : ℝ))).add (c3.const_smul (2 : ℝ))).add c4
  have hrel : relRot w 0 = 1 := by unfold relRot; split_ifs <;> simp
  have hR0 : R1 0 = s.R := by simp [R1, hrel]
  have hRm0 : Rm 0 = s.R := by simp [Rm, hrel]
  have hS0 : S 0 = (6 : ℝ) • Pdot2 k.toConf (Fk2 w (a 0) g s.R s.R) (Gk2 s.R) s.Pbig := by
    simp only [S, stages, hR0, hRm0, zero_div, zero_smul, add_zero]
    module
  have ha0 : a 0 + s.R.mulVec g = f := by
    simp only [a, hR0]
    exact localAcc_zero k.toConf g s.R ⟨t0, t0 + 0, w0, a0, w1, a1⟩
  -- the entries
  set I : Fin 21 := Fin.castLE (by omega) i with hIi
  set J : Fin 21 := Fin.castLE (by omega) j with hJj
  have hsymP : s.Pbig J I = s.Pbig I J := congrFun (congrFun hI.sym I) J
  have hfeed : ∀ dt, (feed2 k s ⟨t0, t0 + dt, w0, a0, w1, a1⟩).P i j = s.Pbig I J + dt * (1 / 12 * (S dt I J + S dt J I)) := by
    intro dt
    by_cases h0 : dt = 0
    · rw [feed2_zero (by simp [h0])]; simp [h0, hP, I, J]
    · have e1 : corrected k.toConf k.bw w0 w1 = w := rate_eq k.toConf ⟨t0, t0, w0, a0, w1, a1⟩
      simp only [feed2, add_sub_cancel_left, if_neg h0, e1]
      change covStep k.toConf w (a dt) g s.R (Rm dt) (R1 dt) dt s.Pbig I J = _
      rw [covStep_apply, src_top, src_top, hsymP]
      change 1 / 2 * (s.Pbig I J + dt / 6 * S dt I J + (s.Pbig I J + dt / 6 * S dt J I)) = _
      ring
  have := deriv_mul_cont (h := fun dt => 1 / 12 * (S dt I J + S dt J I))
    (continuous_const.mul (((continuous_apply_apply I J).comp cS).add ((continuous_apply_apply J I).comp cS))) (s.Pbig I J)
  refine (this.congr_of_eventuallyEq (Filter.Eventually.of_forall fun dt => hfeed dt)).congr_deriv ?_
  -- the rate on the measurement's states
  have hrate : ∀ i j : Fin 15, Pdot2 k.toConf (Fk2 w (a 0) g s.R s.R) (Gk2 s.R) s.Pbig (Fin.castLE (by omega) i) (Fin.castLE (by omega) j) =
      (Fk w f s.R * s.P + s.P * (Fk w f s.R).transpose + Gk s.R * Spec.densities k.toConf * (Gk s.R).transpose) i j := by
    intro i j
    have col : ∀ i j : Fin 15, (Fk2 w (a 0) g s.R s.R * s.Pbig) (Fin.castLE (by omega) i) (Fin.castLE (by omega) j) = (Fk w f s.R * s.P) i j := by
      intro i j
      have := Fk2_top w (a 0) g s.R (fun l => s.Pbig l (Fin.castLE (by omega) j)) (fun l => hI.start l _) (fun l hl => hI.first l _ hl) i
      rw [ha0] at this
      simp only [Matrix.mul_apply, hP]
      exact this
    have row : (s.Pbig * (Fk2 w (a 0) g s.R s.R).transpose) (Fin.castLE (by omega) i) (Fin.castLE (by omega) j) = (s.P * (Fk w f s.R).transpose) i j := by
      have e1 : s.Pbig * (Fk2 w (a 0) g s.R s.R).transpose = (Fk2 w (a 0) g s.R s.R * s.Pbig).transpose := by rw [Matrix.transpose_mul, hI.sym]
      have hsym : s.P.transpose = s.P := by ext i j; rw [Matrix.transpose_apply, hP, hP]; exact congrFun (congrFun hI.sym _) _
      have e2 : s.P * (Fk w f s.R).transpose = (Fk w f s.R * s.P).transpose := by rw [Matrix.transpose_mul, hsym]
      rw [e1, e2, Matrix.transpose_apply, Matrix.transpose_apply, col]
    rw [Pdot2, Matrix.add_apply, Matrix.add_apply, col, row, Qc_eq]
    rfl
  have hsym1 : ∀ i j : Fin 15, (Fk w f s.R * s.P + s.P * (Fk w f s.R).transpose + Gk s.R * Spec.densities k.toConf * (Gk s.R).transpose) j i =
      (Fk w f s.R * s.P + s.P * (Fk w f s.R).transpose + Gk s.R * Spec.densities k.toConf * (Gk s.R).transpose) i j := by
    intro i j
    have hsym : s.P.transpose = s.P := by ext i j; rw [Matrix.transpose_apply, hP, hP]; exact congrFun (congrFun hI.sym _) _
    have hd : (Spec.densities k.toConf).transpose = Spec.densities k.toConf := by simp [Spec.densities]
    have : (Fk w f s.R * s.P + s.P * (Fk w f s.R).transpose + Gk s.R * Spec.densities k.toConf * (Gk s.R).transpose).transpose =
        Fk w f s.R * s.P + s.P * (Fk w f s.R).transpose + Gk s.R * Spec.densities k.toConf * (Gk s.R).transpose := by
      simp only [Matrix.transpose_add, Matrix.transpose_mul, Matrix.transpose_transpose, hsym, hd, Matrix.mul_assoc]
      abel
    exact congrFun (congrFun this i) j
  simp only [hS0, Matrix.smul_apply, smul_eq_mul, I, J, hrate, hsym1 i j]
  ring

/-! ## Jacobians from the transition -/

/-- the sum of the Runge-Kutta stages of the transition -/
noncomputable def phis (w a g : V3) (R0 Rm R1 : M3) (dt : ℝ) : M21 :=
  let f1 := Fk2 w a g R0 R0
  let f2 := Fk2 w a g R0 Rm * (1 + (dt / 2) • f1)
  let f3 := Fk2 w a g R0 Rm * (1 + (dt / 2) • f2)
  let f4 := Fk2 w a g R0 R1 * (1 + dt • f3)
  f1 + (2 : ℝ) • f2 + (2 : ℝ) • f3 + f4

theorem disc_apply (w a g : V3) (R0 Rm R1 : M3) (dt : ℝ) (D : M21) (i j : Fin 21) : (Bk * phiStep w a g R0 Rm R1 dt * D) i j = D (src i) j + dt / 6 * (phis w a g R0 Rm R1 dt * D) (src i) j := by
  have e : phiStep w a g R0 Rm R1 dt = 1 + (dt / 6) • phis w a g R0 Rm R1 dt := rfl
  rw [e, Matrix.mul_assoc, Bk_mul, Matrix.add_mul, Matrix.one_mul, Matrix.smul_mul]
  simp

theorem phis_row (w a g : V3) (R0 Rm R1 : M3) (dt : ℝ) {i : Fin 21} (h : (3 ≤ i.1 ∧ i.1 < 6) ∨ (9 ≤ i.1 ∧ i.1 < 12) ∨ 15 ≤ i.1) (D : M21) (j : Fin 21) : (phis w a g R0 Rm R1 dt * D) i j = 0 := by
  have f : ∀ R (M : M21) l, (Fk2 w a g R0 R * M) i l = 0 := fun R M l => by simp [Matrix.mul_apply, Fk2_row w a g R0 R h]
  simp only [phis, Matrix.add_mul, Matrix.smul_mul, Matrix.add_apply, Matrix.smul_apply, f, Matrix.mul_assoc]
  simp

/-- no error of the orientation nor of the gyroscope's bias -/
def Wz (x : Fin 21 → ℝ) : Prop := ∀ i : Fin 21, i.1 < 6 → x i = 0

theorem Wz.add {x y : Fin 21 → ℝ} (h : Wz x) (h' : Wz y) : Wz (x + y) := fun i hi => by simp [h i hi, h' i hi]

theorem Wz.smul {x : Fin 21 → ℝ} (h : Wz x) (c : ℝ) : Wz (c • x) := fun i hi => by simp [h i hi]

theorem Wz.F {x : Fin 21 → ℝ} (h : Wz x) (w a g : V3) (Rt R : M3) : Wz ((Fk2 w a g Rt R).mulVec x) := fun i hi => by
  by_cases h3 : 3 ≤ i.1
  · simp [Matrix.mulVec, dotProduct, Fk2_row w a g Rt R (.inl ⟨h3, hi⟩)]
  · have e := (seg_Fk2 w a g Rt R x).1
    have z0 : Spec.seg3 x 0 (by omega) = 0 := by funext l; exact h _ (by simp; omega)
    have z3 : Spec.seg3 x 3 (by omega) = 0 := by funext l; exact h _ (by simp; omega)
    rw [z0, z3, Matrix.mulVec_zero, neg_zero, sub_zero] at e
    have := congrFun e ⟨i.1, by omega⟩
    simp only [Spec.seg3, zero_add] at this
    exact this

theorem Wz.phis {x : Fin 21 → ℝ} (h : Wz x) (w a g : V3) (R0 Rm R1 : M3) (dt : ℝ) : Wz ((phis w a g R0 Rm R1 dt).mulVec x) := by
  have h1 := h.F w a g R0 R0
  have h2 := (h.add (h1.smul (dt / 2))).F w a g R0 Rm
  have h3 := (h.add (h2.smul (dt / 2))).F w a g R0 Rm
  have h4 := (h.add (h3.smul dt)).F w a g R0 R1
  have := ((h1.add (h2.smul 2)).add (h3.smul 2)).add h4
  simp only [Cpi.phis, Matrix.add_mulVec, Matrix.smul_mulVec, ← Matrix.mulVec_mulVec, Matrix.one_mulVec]
  exact this

/-- what the transition since the first time satisfies between intervals -/
structure DiscInv (D : M21) : Prop where
  start : ∀ i j : Fin 21, 3 ≤ j.1 ∧ (j.1 < 15 ∨ 18 ≤ j.1) → D i j = D (src i) j
  fixed : ∀ i j : Fin 21, (3 ≤ i.1 ∧ i.1 < 6) ∨ (9 ≤ i.1 ∧ i.1 < 12) ∨ 18 ≤ i.1 → D i j = (1 : M21) i j
  turn : ∀ i j : Fin 21, i.1 < 3 → (9 ≤ j.1 ∧ j.1 < 12) ∨ 18 ≤ j.1 → D i j = 0

theorem discInv_init : DiscInv (1 : M21) := by
  refine ⟨fun i j h => ?_, fun _ _ _ => rfl, fun i j hi hj => ?_⟩
  · unfold src
    by_cases hi : 15 ≤ i.1 ∧ i.1 < 18
    · rw [if_pos hi, Matrix.one_apply, Matrix.one_apply, if_neg (by rw [Fin.ext_iff]; omega), if_neg (by rw [Fin.ext_iff]; simp only; omega)]
    · rw [if_neg hi]
  · rw [Matrix.one_apply, if_neg (by rw [Fin.ext_iff]; omega)]

theorem src_eq {i : Fin 21} (h : ¬(15 ≤ i.1 ∧ i.1 < 18)) : src i = i := if_neg h

theorem discInv_step (w a g : V3) (R0 Rm R1 : M3) (dt : ℝ) {D : M21} (h : DiscInv D) : DiscInv (Bk * phiStep w a g R0 Rm R1 dt * D) := by
  refine ⟨fun i j _ => ?_, fun i j hi => ?_, fun i j hi hj => ?_⟩
  · rw [disc_apply, disc_apply, src_src]
  · rw [disc_apply, src_eq (by omega), phis_row w a g R0 Rm R1 dt (by omega), h.fixed i j hi]; ring
  · have hx : Wz fun l => D l j := fun l hl => by
      by_cases h3 : l.1 < 3
      · exact h.turn l j h3 hj
      · show D l j = 0
        rw [h.fixed l j (.inl ⟨by omega, hl⟩), Matrix.one_apply, if_neg (by rw [Fin.ext_iff]; omega)]
    have := hx.phis w a g R0 Rm R1 dt i (by omega)
    rw [disc_apply, src_eq (by omega), h.turn i j hi hj]
    have e : (phis w a g R0 Rm R1 dt * D) i j = 0 := this
    rw [e]; ring

/-- the Jacobians are the blocks of the transition -/
structure Blocks (s : Res2) : Prop where
  q : s.Jq = -getB s.Disc 0 3 (by omega) (by omega)
  ja : s.Ja = getB s.Disc 12 3 (by omega) (by omega)
  jb : s.Jb = getB s.Disc 6 3 (by omega) (by omega)
  ha : s.Ha = getB s.Disc 12 9 (by omega) (by omega)
  hb : s.Hb = getB s.Disc 6 9 (by omega) (by omega)
  oa : s.Oa = getB s.Disc 12 18 (by omega) (by omega)
  ob : s.Ob = getB s.Disc 6 18 (by omega) (by omega)

theorem getB_one {r c : ℕ} (hr : r + 3 ≤ 21) (hc : c + 3 ≤ 21) (h : r + 3 ≤ c ∨ c + 3 ≤ r) : getB (1 : M21) r c hr hc = 0 := by
  ext i j
  unfold getB
  rw [Matrix.one_apply, if_neg (by rw [Fin.ext_iff]; simp only; omega)]
  rfl

theorem run2_disc (k : Conf2) (hk : k.trans = true) (xs : List Seg) : DiscInv (run2 k xs).Disc ∧ Blocks (run2 k xs) := by
  induction xs using List.reverseRecOn with
  | nil =>
    refine ⟨discInv_init, ?_⟩
    constructor <;> simp only [run2, Res2.init, Res.init, List.foldl_nil] <;> rw [getB_one _ _ (by omega)] <;> simp
  | append_singleton xs x ih =>
    rw [run2_snoc]
    by_cases h0 : x.t1 - x.t0 = 0
    · rw [feed2_zero h0]; exact ⟨ih.1, ⟨ih.2.q, ih.2.ja, ih.2.jb, ih.2.ha, ih.2.hb, ih.2.oa, ih.2.ob⟩⟩
    · simp only [feed2, if_neg h0, hk, ↓reduceIte]
      exact ⟨discInv_step _ _ _ _ _ _ _ ih.1, ⟨rfl, rfl, rfl, rfl, rfl, rfl, rfl⟩⟩

theorem getB_F (w a g : V3) (Rt R : M3) (D : M21) (c : ℕ) (hc : c + 3 ≤ 21) :
    getB (Fk2 w a g Rt R * D) 0 c (by omega) hc = -(skew w * getB D 0 c (by omega) hc) - getB D 3 c (by omega) hc ∧
    getB (Fk2 w a g Rt R * D) 6 c (by omega) hc = -(R.transpose * skew a * getB D 0 c (by omega) hc) - R.transpose * getB D 9 c (by omega) hc -
      R.transpose * skew (Rt.mulVec g) * getB D 15 c (by omega) hc - R.transpose * Rt * skew g * getB D 18 c (by omega) hc ∧
    getB (Fk2 w a g Rt R * D) 12 c (by omega) hc = getB D 6 c (by omega) hc := by
  refine ⟨?_, ?_, ?_⟩
  · ext i j
    exact congrFun (seg_Fk2 w a g Rt R fun l => D l ⟨c + j.1, by omega⟩).1 i
  · ext i j
    exact congrFun (seg_Fk2 w a g Rt R fun l => D l ⟨c + j.1, by omega⟩).2.1 i
  · ext i j
    exact congrFun (seg_Fk2 w a g Rt R fun l => D l ⟨c + j.1, by omega⟩).2.2 i

namespace Spec

/-- The derivatives in time of the Jacobians are the first-order changes of the rates of the kinematics `Ṙ = -⌊w⌋ R`, `v̇ = Rᵀ f - g`, `ṗ = v`, at angular velocity `w`, specific force `f` and orientation `R`, when the biases move by `e dw` and
`e da` and the orientation at the first time, and so gravity in its frame, by the error `e dq`, and the orientation and velocity with them as the Jacobians say. -/
def Sensitivity (k : Conf2) (w f : V3) (R Jq Jb Hb Ob Jq' Ja' Jb' Ha' Hb' Oa' Ob' : M3) : Prop :=
  ∀ dw da dq : V3,
    let Re : ℝ → M3 := fun e => (1 + e • skew (Jq.mulVec dw)) * R
    HasDm (fun e => (-skew (w - e • dw) * Re e) * R.transpose + Re e * (-skew w * R).transpose) (skew (Jq'.mulVec dw)) ∧
    HasDv (fun e => (Re e).transpose.mulVec (f - e • da) - (quat2Rot (quatUpdate k.qk (e • dq))).mulVec k.grav) (Jb'.mulVec dw + Hb'.mulVec da + Ob'.mulVec dq) ∧
    Ja'.mulVec dw + Ha'.mulVec da + Oa'.mulVec dq = Jb.mulVec dw + Hb.mulVec da + Ob.mulVec dq

end Spec

theorem sensitivity {k : Conf2} (hq : IsUnitQ k.qk) (w f : V3) {R : M3} (hR : IsRot R) (Jq Jb Hb Ob : M3) :
    Spec.Sensitivity k w f R Jq Jb Hb Ob (-(skew w * Jq) + 1) Jb (R.transpose * skew f * Jq) Hb (-R.transpose) Ob (-skew (Spec.gK k)) := by
  intro dw da dq Re
  have h1 : HasDm Re (skew (Jq.mulVec dw) * R) := by
    intro i j
    have := ((hasDerivAt_id (0 : ℝ)).mul_const ((skew (Jq.mulVec dw) * R) i j)).const_add (R i j)
    refine (this.congr_of_eventuallyEq (Filter.Eventually.of_forall fun e => ?_)).congr_deriv ?_
    · simp [Re, Matrix.add_mul]
    · simp
  have h2 : HasDv (fun e : ℝ => w - e • dw) (-dw) := (HasDv.line w (-dw)).congr_fun fun e => by module
  have h4 : HasDv (fun e : ℝ => f - e • da) (-da) := (HasDv.line f (-da)).congr_fun fun e => by module
  have r0 : Re 0 = R := by simp [Re]
  have hRR : R * R.transpose = 1 := hR.orth'
  have hRR' : ∀ A : M3, R * (R.transpose * A) = A := fun A => by rw [← Matrix.mul_assoc, hRR, Matrix.one_mul]
  refine ⟨?_, ?_, rfl⟩
  · refine (((h2.skew.neg.mul h1).mul (HasDm.const R.transpose)).add (h1.mul (HasDm.const (-skew w * R).transpose))).congr' ?_
    rw [r0, Matrix.add_mulVec, Matrix.neg_mulVec, ← Matrix.mulVec_mulVec, Matrix.one_mulVec, zero_smul, sub_zero]
    generalize Jq.mulVec dw = u
    simp only [Matrix.mul_zero, add_zero, Matrix.transpose_mul, Matrix.transpose_neg, skew_transpose, neg_neg, Matrix.add_mul, Matrix.mul_assoc, hRR, hRR', Matrix.mul_one]
    apply m3_ext <;> simp only [m3_mul_apply, Matrix.add_apply, Matrix.neg_apply, skew00, skew01, skew02, skew10, skew11, skew12, skew20, skew21, skew22,
      Pi.add_apply, Pi.sub_apply, Pi.neg_apply, m3_mulVec_apply] <;> ring
  · have h5 := gK_moved hq 0 0 dq
    refine ((h1.tr.mulVec h4).sub h5).congr' ?_
    rw [r0, zero_smul, sub_zero]
    rw [Matrix.transpose_mul, skew_transpose, ← Matrix.mulVec_mulVec, Matrix.neg_mulVec, (QuatProps.C25_skew_vee (Jq.mulVec dw) f).2.1, neg_neg, Matrix.mulVec_mulVec, Matrix.mulVec_mulVec, Matrix.neg_mulVec,
      Matrix.mulVec_neg, (QuatProps.C25_skew_vee dq (Spec.gK k)).2.1, Matrix.neg_mulVec]
    module

set_option maxHeartbeats 1000000 in
/-- **C127 (Jacobians from the transition, partial).** With the default Jacobians, after any sequence of intervals whose corrected rates are zero or at least the threshold, the Jacobians grow, at the start of the next interval, at the rates of
the linearised kinematics: the first-order changes of the rates of orientation, velocity and position when both biases and the orientation at the first time move. Missing: that the Runge-Kutta step is exact over a whole interval (it is not), and
smaller rates. -/
theorem C127_transition_rate_partial (k : Conf2) (hk : k.trans = true) (hq : IsUnitQ k.qk) (xs : List Seg) (h : ∀ x ∈ xs, Spec.rate k.toConf x = 0 ∨ thr ≤ norm3 (Spec.rate k.toConf x)) (t0 : ℝ) (w0 a0 w1 a1 : V3) :
    ∃ Jq' Ja' Jb' Ha' Hb' Oa' Ob', Spec.Sensitivity k (Spec.rate k.toConf ⟨t0, t0, w0, a0, w1, a1⟩) (Spec.force k.toConf ⟨t0, t0, w0, a0, w1, a1⟩) (run2 k xs).R (run2 k xs).Jq (run2 k xs).Jb (run2 k xs).Hb (run2 k xs).Ob
        Jq' Ja' Jb' Ha' Hb' Oa' Ob' ∧
      HasDm (fun dt => (run2 k (xs ++ [⟨t0, t0 + dt, w0, a0, w1, a1⟩])).Jq) Jq' ∧
      HasDm (fun dt => (run2 k (xs ++ [⟨t0, t0 + dt, w0, a0, w1, a1⟩])).Ja) Ja' ∧
      HasDm (fun dt => (run2 k (xs ++ [⟨t0, t0 + dt, w0, a0, w1, a1⟩])).Jb) Jb' ∧
      HasDm (fun dt => (run2 k (xs ++ [⟨t0, t0 + dt, w0, a0, w1, a1⟩])).Ha) Ha' ∧
      HasDm (fun dt => (run2 k (xs ++ [⟨t0, t0 + dt, w0, a0, w1, a1⟩])).Hb) Hb' ∧
      HasDm (fun dt => (run2 k (xs ++ [⟨t0, t0 + dt, w0, a0, w1, a1⟩])).Oa) Oa' ∧
      HasDm (fun dt => (run2 k (xs ++ [⟨t0, t0 + dt, w0, a0, w1, a1⟩])).Ob) Ob' := by
  set w := Spec.rate k.toConf ⟨t0, t0, w0, a0, w1, a1⟩ with hw
  set f := Spec.force k.toConf ⟨t0, t0, w0, a0, w1, a1⟩ with hf
  have hrot := (C127_rotation_partial k xs h).1
  refine ⟨_, _, _, _, _, _, _, sensitivity hq w f hrot _ _ _ _, ?_⟩
  obtain ⟨hD, hB⟩ := run2_disc k hk xs
  have hBn : ∀ dt, Blocks (run2 k (xs ++ [⟨t0, t0 + dt, w0, a0, w1, a1⟩])) := fun dt => (run2_disc k hk _).2
  have q := fun dt => (hBn dt).q
  have ja := fun dt => (hBn dt).ja
  have jb := fun dt => (hBn dt).jb
  have ha := fun dt => (hBn dt).ha
  have hb := fun dt => (hBn dt).hb
  have oa := fun dt => (hBn dt).oa
  have ob := fun dt => (hBn dt).ob
  simp only [q, ja, jb, ha, hb, oa, ob]
  simp only [run2_snoc]
  clear q ja jb ha hb oa ob hBn
  generalize run2 k xs = s at *
  set g := (quat2Rot k.qk).mulVec k.grav with hg
  let Rm : ℝ → M3 := fun dt => relRot w (dt / 2) * s.R
  let R1 : ℝ → M3 := fun dt => relRot w dt * s.R
  let a : ℝ → V3 := fun dt => localAcc k.toConf g s.R (R1 dt) ⟨t0, t0 + dt, w0, a0, w1, a1⟩
  have cR1 : Continuous R1 := (relRot_cont w).matrix_mul continuous_const
  have cRm : Continuous Rm := ((relRot_cont w).comp (by fun_prop)).matrix_mul continuous_const
  have ca : Continuous a := localAcc_cont k.toConf g s.R cR1 _ (fun _ => rfl) (fun _ => rfl)
  let S : ℝ → M21 := fun dt => phis w (a dt) g s.R (Rm dt) (R1 dt) dt * s.Disc
  have cS : Continuous S := by
    have c1 := Fk2_cont w g s.R ca (continuous_const (y := s.R))
    have cm := Fk2_cont w g s.R ca cRm
    have c4 := Fk2_cont w g s.R ca cR1
    have : Continuous fun dt => phis w (a dt) g s.R (Rm dt) (R1 dt) dt := by
      have d2 := cm.matrix_mul (continuous_const (y := (1 : M21)) |>.add ((by fun_prop : Continuous fun dt : ℝ => dt / 2).smul c1))
      have d3 := cm.matrix_mul (continuous_const (y := (1 : M21)) |>.add ((by fun_prop : Continuous fun dt : ℝ => dt / 2).smul d2))
      have d4 := c4.matrix_mul (continuous_const (y := (1 : M21)) |>.add (continuous_id.smul d3))
      exact ((c1.add (d2.const_smul (2 : ℝ))).add (d3.const_smul (2 : ℝ))).add d4
    exact this.matrix_mul continuous_const
  have hrel : relRot w 0 = 1 := by unfold relRot; split_ifs <;> simp
  have hR0 : R1 0 = s.R := by simp [R1, hrel]
  have hRm0 : Rm 0 = s.R := by simp [Rm, hrel]
  have hS0 : S 0 = (6 : ℝ) • (Fk2 w (a 0) g s.R s.R * s.Disc) := by
    simp only [S, phis, hR0, hRm0, zero_div, zero_smul, add_zero, Matrix.mul_one]
    rw [← Matrix.smul_mul]
    congr 1
    module
  have ha0 : a 0 + s.R.mulVec g = f := by
    simp only [a, hR0]
    exact localAcc_zero k.toConf g s.R ⟨t0, t0 + 0, w0, a0, w1, a1⟩
  have key : ∀ (r c : ℕ) (hr : r + 3 ≤ 15) (hc : c + 3 ≤ 21), 3 ≤ c → c + 3 ≤ 15 ∨ 18 ≤ c →
      HasDm (fun dt => getB (feed2 k s ⟨t0, t0 + dt, w0, a0, w1, a1⟩).Disc r c (by omega) hc) (getB (Fk2 w (a 0) g s.R s.R * s.Disc) r c (by omega) hc) := by
    intro r c hr hc h3 h15 i j
    set I : Fin 21 := ⟨r + i.1, by omega⟩ with hI
    set J : Fin 21 := ⟨c + j.1, by omega⟩ with hJ
    have sI : src I = I := src_eq (by simp only [hI]; omega)
    have hfeed : ∀ dt, (feed2 k s ⟨t0, t0 + dt, w0, a0, w1, a1⟩).Disc I J = s.Disc I J + dt * (1 / 6 * S dt I J) := by
      intro dt
      by_cases h0 : dt = 0
      · rw [feed2_zero (by simp [h0])]; simp [h0]
      · have e1 : corrected k.toConf k.bw w0 w1 = w := rate_eq k.toConf ⟨t0, t0, w0, a0, w1, a1⟩
        simp only [feed2, add_sub_cancel_left, if_neg h0, e1]
        change (Bk * phiStep w (a dt) g s.R (Rm dt) (R1 dt) dt * s.Disc) I J = _
        rw [disc_apply, sI]
        change s.Disc I J + dt / 6 * S dt I J = _
        ring
    have := deriv_mul_cont (h := fun dt => 1 / 6 * S dt I J) (continuous_const.mul ((continuous_apply_apply I J).comp cS)) (s.Disc I J)
    refine (this.congr_of_eventuallyEq (Filter.Eventually.of_forall fun dt => hfeed dt)).congr_deriv ?_
    simp only [hS0, Matrix.smul_apply, smul_eq_mul]
    change 1 / 6 * (6 * (Fk2 w (a 0) g s.R s.R * s.Disc) I J) = (Fk2 w (a 0) g s.R s.R * s.Disc) I J
    ring
  have fix : ∀ (r c : ℕ) (hr : r + 3 ≤ 21) (hc : c + 3 ≤ 21), r = 3 ∨ r = 9 ∨ r = 18 → getB s.Disc r c hr hc = getB 1 r c hr hc := by
    intro r c hr hc h
    ext i j
    exact hD.fixed _ _ (by simp only; omega)
  have clone : ∀ (c : ℕ) (hc : c + 3 ≤ 21), 3 ≤ c → c + 3 ≤ 15 ∨ 18 ≤ c → getB s.Disc 15 c (by omega) hc = getB s.Disc 0 c (by omega) hc := by
    intro c hc h3 h15
    ext i j
    have := hD.start ⟨15 + i.1, by omega⟩ ⟨c + j.1, by omega⟩ (by simp only; omega)
    refine this.trans ?_
    unfold getB src
    rw [if_pos (by simp only; omega)]
    simp
  have turn : ∀ (c : ℕ) (hc : c + 3 ≤ 21), c = 9 ∨ c = 18 → getB s.Disc 0 c (by omega) hc = 0 := by
    intro c hc h
    ext i j
    exact hD.turn _ _ (by simp only; omega) (by simp only; omega)
  have one : ∀ (r : ℕ) (hr : r + 3 ≤ 21), getB (1 : M21) r r hr hr = 1 := by
    intro r hr
    ext i j
    unfold getB
    simp [Matrix.one_apply, Fin.ext_iff]
  have hRR : s.R.transpose * s.R = 1 := hrot.orth
  refine ⟨?_, ?_, ?_, ?_, ?_, ?_, ?_⟩
  · refine (key 0 3 (by omega) (by omega) (by omega) (by omega)).neg.congr' ?_
    rw [(getB_F w (a 0) g s.R s.R s.Disc 3 (by omega)).1, fix 3 3 _ _ (by omega), one, hB.q, Matrix.mul_neg]
    abel
  · refine (key 12 3 (by omega) (by omega) (by omega) (by omega)).congr' ?_
    rw [(getB_F w (a 0) g s.R s.R s.Disc 3 (by omega)).2.2, hB.jb]
  · refine (key 6 3 (by omega) (by omega) (by omega) (by omega)).congr' ?_
    rw [(getB_F w (a 0) g s.R s.R s.Disc 3 (by omega)).2.1, fix 9 3 _ _ (by omega), fix 18 3 _ _ (by omega), getB_one _ _ (by omega), getB_one _ _ (by omega), clone 3 (by omega) (by omega) (by omega), hB.q, ← ha0, skew_add]
    simp only [Matrix.mul_zero, sub_zero, Matrix.mul_neg, Matrix.mul_add, Matrix.add_mul]
    abel
  · refine (key 12 9 (by omega) (by omega) (by omega) (by omega)).congr' ?_
    rw [(getB_F w (a 0) g s.R s.R s.Disc 9 (by omega)).2.2, hB.hb]
  · refine (key 6 9 (by omega) (by omega) (by omega) (by omega)).congr' ?_
    rw [(getB_F w (a 0) g s.R s.R s.Disc 9 (by omega)).2.1, fix 9 9 _ _ (by omega), one, fix 18 9 _ _ (by omega), getB_one _ _ (by omega), clone 9 (by omega) (by omega) (by omega), turn 9 _ (by omega)]
    simp
  · refine (key 12 18 (by omega) (by omega) (by omega) (by omega)).congr' ?_
    rw [(getB_F w (a 0) g s.R s.R s.Disc 18 (by omega)).2.2, hB.ob]
  · refine (key 6 18 (by omega) (by omega) (by omega) (by omega)).congr' ?_
    rw [(getB_F w (a 0) g s.R s.R s.Disc 18 (by omega)).2.1, fix 9 18 _ _ (by omega), fix 18 18 _ _ (by omega), one, getB_one _ _ (by omega), clone 18 (by omega) (by omega) (by omega), turn 18 _ (by omega), hRR]
    simp [Spec.gK, hg]

end Verif.Cpi
