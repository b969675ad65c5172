import Verif.Prop.Jac2

/-! # The transition matrices are Jacobians of the mean prediction: lemmas -/

set_option linter.unusedSimpArgs false
set_option linter.unusedVariables false

open Classical

namespace Verif.Prop_

open Verif Verif.Types Verif.St Verif.Imu Matrix Finset

theorem xi1_indep (dt : ℝ) (w a b : V3) : (xiSum dt w a).x1 = (xiSum dt w b).x1 := by
  unfold xiSum; dsimp only; split <;> rfl

theorem xi2_indep (dt : ℝ) (w a b : V3) : (xiSum dt w a).x2 = (xiSum dt w b).x2 := by
  unfold xiSum; dsimp only; split <;> rfl

theorem xiR (dt : ℝ) (w a : V3) : (xiSum dt w a).R = expSO3 (-(dt • w)) := by
  unfold xiSum; dsimp only; split <;> rfl

theorem xiJr (dt : ℝ) (w a : V3) : (xiSum dt w a).Jr = JrSO3 (-(dt • w)) := by
  unfold xiSum; dsimp only; split <;> rfl

/-- a matrix curve is differentiable if its products with fixed vectors are. -/
theorem hasDm_of_cols {f : ℝ → M3} {D : V3 → V3} (h : ∀ b, HasDv (fun e => (f e).mulVec b) (D b)) :
    ∃ M : M3, HasDm f M ∧ ∀ b, M.mulVec b = D b := by
  refine ⟨fun i j => D (Pi.single j 1) i, ?_, ?_⟩
  · intro i j
    have := h (Pi.single j 1) i
    refine this.congr_of_eventuallyEq (Filter.Eventually.of_forall fun e => ?_)
    simp
  · intro b
    have hM : HasDm f (fun i j => D (Pi.single j 1) i) := by
      intro i j
      have := h (Pi.single j 1) i
      refine this.congr_of_eventuallyEq (Filter.Eventually.of_forall fun e => ?_)
      simp
    have h2 := hM.mulVec (HasDv.const b)
    ext i
    have := (h2 i).unique (h b i)
    simpa using this

theorem xi1_deriv' (dt : ℝ) {v a : ℝ → V3} {v' a' : V3} (h : HasDv v v') (ha : HasDv a a')
    (h0 : 1 / 180 * Real.pi / 2 < norm3 (v 0)) :
    HasDv (fun e => ((xiSum dt (v e) (a e)).x1).mulVec (a e))
      ((xiSum dt (v 0) (a 0)).x1.mulVec a' - (xiSum dt (v 0) (a 0)).x3.mulVec v') := by
  obtain ⟨M, hM, hb⟩ := hasDm_of_cols (f := fun e => (xiSum dt (v e) 0).x1)
    (D := fun b => -((xiSum dt (v 0) b).x3).mulVec v') fun b =>
      (xi1_deriv dt b h h0).congr_fun fun e => by rw [xi1_indep dt (v e) 0 b]
  refine ((hM.mulVec ha).congr_fun fun e => by rw [xi1_indep dt (v e) (a e) 0]).congr' ?_
  rw [hb, xi1_indep dt (v 0) (a 0) 0]
  abel

theorem xi2_deriv' (dt : ℝ) {v a : ℝ → V3} {v' a' : V3} (h : HasDv v v') (ha : HasDv a a')
    (h0 : 1 / 180 * Real.pi / 2 < norm3 (v 0)) :
    HasDv (fun e => ((xiSum dt (v e) (a e)).x2).mulVec (a e))
      ((xiSum dt (v 0) (a 0)).x2.mulVec a' - (xiSum dt (v 0) (a 0)).x4.mulVec v') := by
  obtain ⟨M, hM, hb⟩ := hasDm_of_cols (f := fun e => (xiSum dt (v e) 0).x2)
    (D := fun b => -((xiSum dt (v 0) b).x4).mulVec v') fun b =>
      (xi2_deriv dt b h h0).congr_fun fun e => by rw [xi2_indep dt (v e) 0 b]
  refine ((hM.mulVec ha).congr_fun fun e => by rw [xi2_indep dt (v e) (a e) 0]).congr' ?_
  rw [hb, xi2_indep dt (v 0) (a 0) 0]
  abel

/-- `R ⌊u⌋ Rᵀ = ⌊R u⌋`. -/
theorem rot_skew {R : M3} (h : IsRot R) (u : V3) : R * skew u * R.transpose = skew (R.mulVec u) := by
  obtain ⟨-, -, -, -, -, -, -, -, -, -, -, -, k00, k01, k02, k10, k11, k12, k20, k21, k22⟩ := h.rel
  apply m3_ext <;> simp only [m3_mul_apply, m3_mulVec_apply, Matrix.transpose_apply, skew00, skew01, skew02, skew10, skew11, skew12, skew20, skew21, skew22]
  · ring
  · linear_combination (-u 0) * k20 - u 1 * k21 - u 2 * k22
  · linear_combination u 0 * k10 + u 1 * k11 + u 2 * k12
  · linear_combination u 0 * k20 + u 1 * k21 + u 2 * k22
  · ring
  · linear_combination (-u 0) * k00 - u 1 * k01 - u 2 * k02
  · linear_combination (-u 0) * k10 - u 1 * k11 - u 2 * k12
  · linear_combination u 0 * k00 + u 1 * k01 + u 2 * k02
  · ring

theorem skew_add (a b : V3) : skew (a + b) = skew a + skew b := by
  apply m3_ext <;> simp only [Matrix.add_apply, skew00, skew01, skew02, skew10, skew11, skew12, skew20, skew21, skew22, Pi.add_apply] <;> ring

theorem norm3_neg_smul {c : ℝ} (hc : 0 ≤ c) (w : V3) : norm3 (-(c • w)) = c * norm3 w := by
  rw [← norm3_smul hc]
  simp [norm3, dot3]

/-- derivative of the predicted orientation. -/
theorem rot_step {dt : ℝ} (hdt : 0 < dt) {w : ℝ → V3} {w' : V3} (h : HasDv w w') (h0 : 1e-6 ≤ dt * norm3 (w 0)) {q : Quat}
    (hq : IsUnitQ q) (d : V3) :
    let E := expSO3 (-(dt • w 0))
    HasDm (fun e => expSO3 (-(dt • w e)) * quat2Rot (quatUpdate q (e • d)))
      (-(skew (E.mulVec d + dt • E.mulVec ((JrSO3 (-(dt • w 0))).mulVec w'))) * (E * quat2Rot q)) := by
  intro E
  have hv : HasDv (fun e => -(dt • w e)) (-(dt • w')) := (h.smul dt).neg
  have hn : 1e-6 ≤ norm3 (-(dt • w 0)) := by rw [norm3_neg_smul hdt.le]; exact h0
  have hE : IsRot E := expSO3_isRot_of_le (le_trans (by norm_num) hn)
  refine ((hv.exp hn).mul (quat_deriv hq d)).congr' ?_
  simp only [quat_deriv0 hq]
  have key : ∀ u : V3, skew (E.mulVec u) * E = E * skew u := by
    intro u
    rw [← rot_skew hE, Matrix.mul_assoc _ E.transpose, hE.orth, Matrix.mul_one]
  have hr : ∀ u : V3, -(skew (E.mulVec u)) * (E * quat2Rot q) = -(E * skew u * quat2Rot q) := by
    intro u
    rw [← Matrix.mul_assoc, Matrix.neg_mul, Matrix.neg_mul, key]
  rw [← Matrix.mulVec_smul, ← Matrix.mulVec_add, hr]
  simp only [Matrix.mulVec_neg, Matrix.mulVec_smul, skew_add, skew_neg, skew_smul]
  show E * -(dt • skew _) * quat2Rot q + E * (-skew d * quat2Rot q) = _
  simp only [Matrix.mul_add, Matrix.add_mul, Matrix.mul_neg, Matrix.neg_mul, Matrix.mul_smul, Matrix.smul_mul, neg_add, Matrix.mul_assoc]
  abel

/-- derivative of `Rᵀ u`. -/
theorem rt_step {q : Quat} (hq : IsUnitQ q) (d : V3) {u : ℝ → V3} {u' : V3} (h : HasDv u u') :
    HasDv (fun e => (quat2Rot (quatUpdate q (e • d))).transpose.mulVec (u e))
      ((quat2Rot q).transpose.mulVec u' -
        (skew ((quat2Rot q).transpose.mulVec (u 0))).mulVec ((quat2Rot q).transpose.mulVec d)) := by
  refine (((quat_deriv hq d).tr).mulVec h).congr' ?_
  have hR := (quat2Rot_isRot hq).transpose
  simp only [quat_deriv0 hq]
  rw [Matrix.transpose_mul, Matrix.transpose_neg, skew_transpose, neg_neg]
  have key : ∀ v : V3, skew ((quat2Rot q).transpose.mulVec v) * (quat2Rot q).transpose = (quat2Rot q).transpose * skew v := by
    intro v
    rw [← rot_skew hR, Matrix.mul_assoc _ _ (quat2Rot q).transpose, hR.orth, Matrix.mul_one]
  rw [Matrix.mulVec_mulVec _ (skew _), key, ← Matrix.mulVec_mulVec, ← Matrix.mulVec_mulVec, skew_anti (u 0) d, Matrix.mulVec_neg]
  abel

/-- orientation of the analytic prediction. -/
theorem analytic_rot {dt : ℝ} (hdt : 0 < dt) {w : V3} (h0 : 1e-7 ≤ dt * norm3 w) {q : Quat} (hq : IsUnitQ q) (a : V3) :
    quat2Rot (quatMul (rot2quat (xiSum dt w a).R) q) = expSO3 (-(dt • w)) * quat2Rot q := by
  rw [xiR]
  have hE : IsRot (expSO3 (-(dt • w))) := expSO3_isRot_of_le (by rw [norm3_neg_smul hdt.le]; exact h0)
  have h1 := QuatProps.C24_rotation_round_trip.2 _ hE
  rw [(QuatProps.C23_quat_multiply _ _ h1.1.1 hq).2.2, h1.2]

namespace Spec

/-- `F` is the Jacobian, in the direction `δ`, of a prediction: `y e` is the predicted IMU value when the start has been perturbed
by `e·δ`, `x1` the unperturbed prediction. The derivative at `e = 0` of every component of `y e` is the matching slice of `F δ`;
for the orientation the slice is the rotation-vector error of `Type::update` (C69), whose first-order effect on the rotation
matrix is `-⌊θ⌋ R`. -/
def IsJac (d : ℕ) (F : Mat) (δ : ℕ → ℝ) (y : ℝ → Imu16) (x1 : Imu16) : Prop :=
  (∀ i j, HasDerivAt (fun e => quat2Rot (y e).q i j) ((-(skew (sl (Mat.mulVec d F δ) 0)) * quat2Rot x1.q) i j) 0) ∧
  (∀ i, HasDerivAt (fun e => (y e).p i) (sl (Mat.mulVec d F δ) 3 i) 0) ∧
  (∀ i, HasDerivAt (fun e => (y e).v i) (sl (Mat.mulVec d F δ) 6 i) 0) ∧
  (∀ i, HasDerivAt (fun e => (y e).bg i) (sl (Mat.mulVec d F δ) 9 i) 0) ∧
  (∀ i, HasDerivAt (fun e => (y e).ba i) (sl (Mat.mulVec d F δ) 12 i) 0)

end Spec

/-- everything `correct` guarantees about the averages. -/
theorem kok (o : Opts) (c : Cal) (bg ba : V3) (d0 d1 : Reading) (R : M3) (v p : V3) (q1 : Quat) (v1 p1 : V3) (dt : ℝ) (g : V3) :
    KOK o { R := R, v := v, p := p, q1 := q1, v1 := v1, p1 := p1, c := c, k := correct o.kalibr c bg ba d0 d1, dt := dt, g := g } :=
  ⟨corr_a _ _ _ _ _ _, corr_w _ _ _ _ _ _⟩

theorem perturb_eq (x : Imu16) (δ : ℕ → ℝ) (e : ℝ) : Spec.perturbImu x (fun i => e * δ i) =
    ⟨quatUpdate x.q (e • sl δ 0), x.p + e • sl δ 3, x.v + e • sl δ 6, x.bg + e • sl δ 9, x.ba + e • sl δ 12⟩ := by
  simp only [Spec.perturbImu, sl_smul]

theorem jac_analytic (o : Opts) (po : POpts) (N : Noise) (c : Cal) (x xf : Imu16) (d0 d1 : Reading) (δ : ℕ → ℝ)
    (hm : po.method = .analytical) (hf : po.fej = true → xf = x) (hq : IsUnitQ x.q) (hqw : IsUnitQ c.qw) (hqa : IsUnitQ c.qa)
    (hdt : d0.t < d1.t) (hw : 1 / 180 * Real.pi / 2 < norm3 (correct o.kalibr c x.bg x.ba d0 d1).w)
    (hwt : 1e-6 ≤ (d1.t - d0.t) * norm3 (correct o.kalibr c x.bg x.ba d0 d1).w) :
    Spec.IsJac (intrSize o + 15) (predictAndCompute o po N c x xf d0 d1).2.1 δ
      (fun e => (predictAndCompute o po N (Spec.perturbCal o c fun i => e * δ i) (Spec.perturbImu x fun i => e * δ i) xf d0 d1).1)
      (predictAndCompute o po N c x xf d0 d1).1 := by
  have hdt' : 0 < d1.t - d0.t := sub_pos.2 hdt
  obtain ⟨hA, hW, hA0, hW0⟩ := corr_deriv (o := o) δ hqw hqa o.kalibr x.bg x.ba d0 d1
  have hl : (if po.fej = true then xf else x) = x := by split <;> simp_all
  set k := correct o.kalibr c x.bg x.ba d0 d1 with hk
  set dt := d1.t - d0.t with hdtd
  -- the new mean
  have hnew : ∀ e, (predictAndCompute o po N (Spec.perturbCal o c fun i => e * δ i) (Spec.perturbImu x fun i => e * δ i) xf d0 d1).1 =
      { (Spec.perturbImu x fun i => e * δ i) with
        q := (meanAnalytic N.grav (Spec.perturbImu x fun i => e * δ i) dt
          (correct o.kalibr (pc o c δ e) (x.bg + e • sl δ 9) (x.ba + e • sl δ 12) d0 d1).a
          (xiSum dt (correct o.kalibr (pc o c δ e) (x.bg + e • sl δ 9) (x.ba + e • sl δ 12) d0 d1).w
            (correct o.kalibr (pc o c δ e) (x.bg + e • sl δ 9) (x.ba + e • sl δ 12) d0 d1).a)).1
        v := (meanAnalytic N.grav (Spec.perturbImu x fun i => e * δ i) dt
          (correct o.kalibr (pc o c δ e) (x.bg + e • sl δ 9) (x.ba + e • sl δ 12) d0 d1).a
          (xiSum dt (correct o.kalibr (pc o c δ e) (x.bg + e • sl δ 9) (x.ba + e • sl δ 12) d0 d1).w
            (correct o.kalibr (pc o c δ e) (x.bg + e • sl δ 9) (x.ba + e • sl δ 12) d0 d1).a)).2.1
        p := (meanAnalytic N.grav (Spec.perturbImu x fun i => e * δ i) dt
          (correct o.kalibr (pc o c δ e) (x.bg + e • sl δ 9) (x.ba + e • sl δ 12) d0 d1).a
          (xiSum dt (correct o.kalibr (pc o c δ e) (x.bg + e • sl δ 9) (x.ba + e • sl δ 12) d0 d1).w
            (correct o.kalibr (pc o c δ e) (x.bg + e • sl δ 9) (x.ba + e • sl δ 12) d0 d1).a)).2.2 } := by
    intro e
    simp only [predictAndCompute, predictMean, hm, sl_smul, Spec.perturbImu, pc, ← hdtd]
  set wc := fun e : ℝ => (correct o.kalibr (pc o c δ e) (x.bg + e • sl δ 9) (x.ba + e • sl δ 12) d0 d1).w with hwc
  set ac := fun e : ℝ => (correct o.kalibr (pc o c δ e) (x.bg + e • sl δ 9) (x.ba + e • sl δ 12) d0 d1).a with hac
  have hw0 : wc 0 = k.w := hW0
  have ha0 : ac 0 = k.a := hA0
  have hn := hW.norm (by rw [hw0]; exact lt_trans (by positivity) hw)
  have hev : ∀ᶠ e in nhds (0:ℝ), 1e-7 ≤ dt * norm3 (wc e) := by
    have h1 : (1e-7 : ℝ) < dt * norm3 (wc 0) := by rw [hw0]; exact lt_of_lt_of_le (by norm_num) hwt
    filter_upwards [(hn.continuousAt.const_smul dt).eventually (lt_mem_nhds h1)] with e he
    exact le_of_lt he
  -- the rows
  obtain ⟨e0, e3, e6, e9, e12⟩ := fAnalytic_rows o (xiSum dt k.w k.a) _
    (kok o c x.bg x.ba d0 d1 (quat2Rot x.q) x.v x.p (meanAnalytic N.grav x dt k.a (xiSum dt k.w k.a)).1
      (meanAnalytic N.grav x dt k.a (xiSum dt k.w k.a)).2.1 (meanAnalytic N.grav x dt k.a (xiSum dt k.w k.a)).2.2 dt N.grav) δ
  have hF : (predictAndCompute o po N c x xf d0 d1).2.1 = assemble (fAnalytic o (xiSum dt k.w k.a)
      { R := quat2Rot x.q, v := x.v, p := x.p, q1 := (meanAnalytic N.grav x dt k.a (xiSum dt k.w k.a)).1,
        v1 := (meanAnalytic N.grav x dt k.a (xiSum dt k.w k.a)).2.1, p1 := (meanAnalytic N.grav x dt k.a (xiSum dt k.w k.a)).2.2,
        c := c, k := k, dt := dt, g := N.grav }) := by
    simp only [predictAndCompute, predictMean, hm, hl, ← hdtd, ← hk]
  have hx1 : (predictAndCompute o po N c x xf d0 d1).1 = { x with
      q := (meanAnalytic N.grav x dt k.a (xiSum dt k.w k.a)).1, v := (meanAnalytic N.grav x dt k.a (xiSum dt k.w k.a)).2.1,
      p := (meanAnalytic N.grav x dt k.a (xiSum dt k.w k.a)).2.2 } := by
    simp only [predictAndCompute, predictMean, hm, hl, ← hdtd, ← hk]
  rw [hF, hx1]
  simp only [hnew]
  simp only [rowV, ← hk] at e0 e3 e6 e9 e12
  have hR := quat2Rot_isRot hq
  have hq1 : quat2Rot (meanAnalytic N.grav x dt k.a (xiSum dt k.w k.a)).1 = expSO3 (-(dt • k.w)) * quat2Rot x.q :=
    analytic_rot hdt' (le_trans (by norm_num) hwt) hq _
  have hdR : quat2Rot (meanAnalytic N.grav x dt k.a (xiSum dt k.w k.a)).1 * (quat2Rot x.q).transpose = expSO3 (-(dt • k.w)) := by
    rw [hq1, Matrix.mul_assoc, hR.orth', Matrix.mul_one]
  refine ⟨?_, ?_, ?_, ?_, ?_⟩
  · show HasDm (fun e => quat2Rot _) _
    rw [e0, hdR, hq1, xiJr]
    have := rot_step hdt' hW (by rw [hw0]; exact hwt) hq (sl δ 0)
    simp only [hw0] at this
    refine this.congr_ev (hev.mono fun e he => ?_)
    simp only [meanAnalytic]
    rw [analytic_rot hdt' he (by rw [perturb_eq]; exact unit_update hq _)]
    simp only [perturb_eq]
  · show HasDv (fun e => Imu16.p _) _
    rw [e3]
    have h2 := rt_step hq (sl δ 0) (xi2_deriv' dt hW hA (by rw [hw0]; exact hw))
    simp only [hw0, ha0] at h2
    refine ((((HasDv.line x.p (sl δ 3)).add ((HasDv.line x.v (sl δ 6)).smul dt)).add h2).sub
      (HasDv.const ((0.5 * dt * dt) • N.grav))).congr_fun (fun e => ?_) |>.congr' ?_
    · simp only [meanAnalytic, perturb_eq, ← Matrix.mulVec_mulVec]
      rfl
    · simp only [meanAnalytic, ← Matrix.mulVec_mulVec]
      rw [show x.p + dt • x.v + (quat2Rot x.q).transpose.mulVec ((xiSum dt k.w k.a).x2.mulVec k.a) - (0.5 * dt * dt) • N.grav - x.p - dt • x.v + (0.5 * dt * dt) • N.grav = (quat2Rot x.q).transpose.mulVec ((xiSum dt k.w k.a).x2.mulVec k.a) by abel]
      abel
  · show HasDv (fun e => Imu16.v _) _
    rw [e6]
    have h2 := rt_step hq (sl δ 0) (xi1_deriv' dt hW hA (by rw [hw0]; exact hw))
    simp only [hw0, ha0] at h2
    refine (((HasDv.line x.v (sl δ 6)).add h2).sub
      (HasDv.const (dt • N.grav))).congr_fun (fun e => ?_) |>.congr' ?_
    · simp only [meanAnalytic, perturb_eq, ← Matrix.mulVec_mulVec]
      rfl
    · simp only [meanAnalytic, ← Matrix.mulVec_mulVec]
      rw [show x.v + (quat2Rot x.q).transpose.mulVec ((xiSum dt k.w k.a).x1.mulVec k.a) - dt • N.grav - x.v + dt • N.grav = (quat2Rot x.q).transpose.mulVec ((xiSum dt k.w k.a).x1.mulVec k.a) by abel]
      abel
  · show HasDv (fun e => Imu16.bg _) _
    rw [e9]
    exact (HasDv.line x.bg (sl δ 9)).congr_fun fun e => by simp only [perturb_eq]
  · show HasDv (fun e => Imu16.ba _) _
    rw [e12]
    exact (HasDv.line x.ba (sl δ 12)).congr_fun fun e => by simp only [perturb_eq]

/-! ## Discrete integration -/

theorem omegaMul_eq (w : V3) (q : Quat) : omegaMul w q = quatMulRaw ⟨w 0, w 1, w 2, 0⟩ q := by
  simp only [omegaMul, quatMulRaw, Quat.mk.injEq]
  refine ⟨?_, ?_, ?_, ?_⟩ <;> ring

/-- orientation of the discrete prediction. -/
theorem discrete_rot {dt : ℝ} (hdt : 0 < dt) {w : V3} (hn : norm3 w > 1e-12) (h0 : 1e-7 ≤ dt * norm3 w) {x : Imu16} (hq : IsUnitQ x.q) (g a : V3) :
    quat2Rot (meanDiscrete g x dt w a).1 = expSO3 (-(dt • w)) * quat2Rot x.q := by
  have hpos : 0 < norm3 w := lt_trans (by norm_num) hn
  set n := norm3 w with hnd
  set C := Real.cos (0.5 * n * dt) with hC
  set S := Real.sin (0.5 * n * dt) with hS
  have hCS : S * S + C * C = 1 := by have := Real.sin_sq_add_cos_sq (0.5 * n * dt); rw [hC, hS]; linarith
  have hw2 : n * n = w 0 * w 0 + w 1 * w 1 + w 2 * w 2 := norm3_sq' w
  let r : Quat := ⟨1 / n * S * w 0, 1 / n * S * w 1, 1 / n * S * w 2, C⟩
  have hr : IsUnitQ r := by
    show (1 / n * S * w 0) ^ 2 + (1 / n * S * w 1) ^ 2 + (1 / n * S * w 2) ^ 2 + C ^ 2 = 1
    have : (1 / n * S * w 0) ^ 2 + (1 / n * S * w 1) ^ 2 + (1 / n * S * w 2) ^ 2 = S * S * ((w 0 * w 0 + w 1 * w 1 + w 2 * w 2) / (n * n)) := by
      field_simp
    rw [this, ← hw2, div_self (by positivity)]
    linarith
  have hb : (meanDiscrete g x dt w a).1 = quatnorm (quatMulRaw r x.q) := by
    simp only [meanDiscrete, ← hnd, if_pos hn, ← hC, ← hS, omegaMul_eq]
    congr 1
    simp only [qadd, Quat.smul, quatMulRaw, r, Quat.mk.injEq]
    refine ⟨?_, ?_, ?_, ?_⟩ <;> ring
  rw [hb, quat2Rot_quatnorm_of_unit (unit_mulRaw hr hq), quat2Rot_mulRaw hr hq]
  congr 1
  rw [expSO3_eq_of_le (by rw [norm3_neg_smul hdt.le]; exact h0), norm3_neg_smul hdt.le, ← hnd]
  have hs : Real.sin (dt * n) = 2 * S * C := by rw [hS, hC, ← Real.sin_two_mul]; congr 1; ring
  have hc : Real.cos (dt * n) = 1 - 2 * (S * S) := by
    have := Real.cos_two_mul (0.5 * n * dt)
    rw [show 2 * (0.5 * n * dt) = dt * n by ring, ← hC] at this
    rw [this]; linarith
  rw [hs, hc]
  have e1 : (1 / n * S) * (1 / n * S) * (n * n) = S * S := by field_simp
  have e2 : 2 * S * C / (dt * n) * dt = 2 * (1 / n * S) * C := by field_simp
  have e3 : (1 - (1 - 2 * (S * S))) / (dt * n * (dt * n)) * (dt * dt) = 2 * ((1 / n * S) * (1 / n * S)) := by field_simp; ring
  generalize 2 * S * C / (dt * n) = A at *
  generalize (1 - (1 - 2 * (S * S))) / (dt * n * (dt * n)) = B at *
  simp only [r]
  generalize 1 / n * S = s at *
  rw [hw2] at e1
  clear hr hb
  apply m3_ext <;> simp only [q2r00, q2r01, q2r02, q2r10, q2r11, q2r12, q2r20, q2r21, q2r22, rodr00, rodr01, rodr02, rodr10, rodr11, rodr12, rodr20, rodr21, rodr22,
    Pi.neg_apply, Pi.smul_apply, smul_eq_mul] <;> grind

theorem log_rot {dt : ℝ} (hdt : 0 < dt) {w : V3} (h1 : 1e-3 ≤ dt * norm3 w) (h2 : dt * norm3 w ≤ Real.pi - 1e-4) :
    logSO3 (expSO3 (-(dt • w))) = -(dt • w) := by
  have e := norm3_neg_smul hdt.le w
  have h7 : 1e-7 ≤ norm3 (-(dt • w)) := by rw [e]; exact le_trans (by norm_num) h1
  have hc := cos_bounds h1 h2
  rw [← e] at hc
  exact log_exp_of_branch h7 (by rw [e]; linarith [show (0:ℝ) < 1e-4 by norm_num]) hc.1 hc.2

/-- The discrete Jacobian with the term that line 928 gets wrong. -/
theorem jac_discrete_gen (o : Opts) (po : POpts) (N : Noise) (c : Cal) (x xf : Imu16) (d0 d1 : Reading) (δ : ℕ → ℝ)
    (hm : po.method = .discrete) (hf : po.fej = true → xf = x) (hq : IsUnitQ x.q) (hqw : IsUnitQ c.qw) (hqa : IsUnitQ c.qa)
    (hdt : d0.t < d1.t) (hw : 1e-12 < norm3 (correct o.kalibr c x.bg x.ba d0 d1).w)
    (hwt : 1e-3 ≤ (d1.t - d0.t) * norm3 (correct o.kalibr c x.bg x.ba d0 d1).w)
    (hwt' : (d1.t - d0.t) * norm3 (correct o.kalibr c x.bg x.ba d0 d1).w ≤ Real.pi - 1e-4)
    :
    let y := fun e : ℝ => (predictAndCompute o po N (Spec.perturbCal o c fun i => e * δ i) (Spec.perturbImu x fun i => e * δ i) xf d0 d1).1
    let η := Mat.mulVec (intrSize o + 15) (predictAndCompute o po N c x xf d0 d1).2.1 δ
    let w := (correct o.kalibr c x.bg x.ba d0 d1).w
    let dt := d1.t - d0.t
    let u := (Tm c.tg).mulVec ((quat2Rot c.qa).mulVec ((Dm o.kalibr (tan o δ).da).mulVec (correct o.kalibr c x.bg x.ba d0 d1).au))
    HasDm (fun e => quat2Rot (y e).q) (-(skew (sl η 0 - dt • (expSO3 (-(dt • w))).mulVec ((JrSO3 (-(dt • w))).mulVec
      ((quat2Rot c.qw).mulVec ((Dm o.kalibr c.dw).mulVec u - u))))) * quat2Rot (predictAndCompute o po N c x xf d0 d1).1.q) ∧
    IsRot (quat2Rot (predictAndCompute o po N c x xf d0 d1).1.q) ∧
    HasDv (fun e => (y e).p) (sl η 3) ∧ HasDv (fun e => (y e).v) (sl η 6) ∧
    HasDv (fun e => (y e).bg) (sl η 9) ∧ HasDv (fun e => (y e).ba) (sl η 12) := by
  intro y η w dt u
  simp only [y, η, w, dt, u]
  clear_value y η w dt u
  clear y η w dt u
  have hdt' : 0 < d1.t - d0.t := sub_pos.2 hdt
  obtain ⟨hA, hW, hA0, hW0⟩ := corr_deriv (o := o) δ hqw hqa o.kalibr x.bg x.ba d0 d1
  have hl : (if po.fej = true then xf else x) = x := by split <;> simp_all
  set k := correct o.kalibr c x.bg x.ba d0 d1 with hk
  set dt := d1.t - d0.t with hdtd
  have hnew : ∀ e, (predictAndCompute o po N (Spec.perturbCal o c fun i => e * δ i) (Spec.perturbImu x fun i => e * δ i) xf d0 d1).1 =
      { (Spec.perturbImu x fun i => e * δ i) with
        q := (meanDiscrete N.grav (Spec.perturbImu x fun i => e * δ i) dt
          (correct o.kalibr (pc o c δ e) (x.bg + e • sl δ 9) (x.ba + e • sl δ 12) d0 d1).w
          (correct o.kalibr (pc o c δ e) (x.bg + e • sl δ 9) (x.ba + e • sl δ 12) d0 d1).a).1
        v := (meanDiscrete N.grav (Spec.perturbImu x fun i => e * δ i) dt
          (correct o.kalibr (pc o c δ e) (x.bg + e • sl δ 9) (x.ba + e • sl δ 12) d0 d1).w
          (correct o.kalibr (pc o c δ e) (x.bg + e • sl δ 9) (x.ba + e • sl δ 12) d0 d1).a).2.1
        p := (meanDiscrete N.grav (Spec.perturbImu x fun i => e * δ i) dt
          (correct o.kalibr (pc o c δ e) (x.bg + e • sl δ 9) (x.ba + e • sl δ 12) d0 d1).w
          (correct o.kalibr (pc o c δ e) (x.bg + e • sl δ 9) (x.ba + e • sl δ 12) d0 d1).a).2.2 } := by
    intro e
    simp only [predictAndCompute, predictMean, hm, sl_smul, Spec.perturbImu, pc, ← hdtd]
  set wc := fun e : ℝ => (correct o.kalibr (pc o c δ e) (x.bg + e • sl δ 9) (x.ba + e • sl δ 12) d0 d1).w with hwc
  set ac := fun e : ℝ => (correct o.kalibr (pc o c δ e) (x.bg + e • sl δ 9) (x.ba + e • sl δ 12) d0 d1).a with hac
  have hw0 : wc 0 = k.w := hW0
  have ha0 : ac 0 = k.a := hA0
  have hn := hW.norm (by rw [hw0]; exact lt_trans (by norm_num) hw)
  have hev : ∀ᶠ e in nhds (0:ℝ), 1e-7 ≤ dt * norm3 (wc e) := by
    have h1 : (1e-7 : ℝ) < dt * norm3 (wc 0) := by rw [hw0]; exact lt_of_lt_of_le (by norm_num) hwt
    filter_upwards [(hn.continuousAt.const_smul dt).eventually (lt_mem_nhds h1)] with e he
    exact le_of_lt he
  have hev' : ∀ᶠ e in nhds (0:ℝ), 1e-12 < norm3 (wc e) := by
    have h1 : (1e-12 : ℝ) < norm3 (wc 0) := by rw [hw0]; exact hw
    filter_upwards [(hn.continuousAt).eventually (lt_mem_nhds h1)] with e he
    exact he
  obtain ⟨e0, e3, e6, e9, e12⟩ := fDiscrete_rows o _
    (kok o c x.bg x.ba d0 d1 (quat2Rot x.q) x.v x.p (meanDiscrete N.grav x dt k.w k.a).1
      (meanDiscrete N.grav x dt k.w k.a).2.1 (meanDiscrete N.grav x dt k.w k.a).2.2 dt N.grav) δ
  have hF : (predictAndCompute o po N c x xf d0 d1).2.1 = assemble (fDiscrete o
      { R := quat2Rot x.q, v := x.v, p := x.p, q1 := (meanDiscrete N.grav x dt k.w k.a).1,
        v1 := (meanDiscrete N.grav x dt k.w k.a).2.1, p1 := (meanDiscrete N.grav x dt k.w k.a).2.2,
        c := c, k := k, dt := dt, g := N.grav }) := by
    simp only [predictAndCompute, predictMean, hm, hl, ← hdtd, ← hk]
  have hx1 : (predictAndCompute o po N c x xf d0 d1).1 = { x with
      q := (meanDiscrete N.grav x dt k.w k.a).1, v := (meanDiscrete N.grav x dt k.w k.a).2.1,
      p := (meanDiscrete N.grav x dt k.w k.a).2.2 } := by
    simp only [predictAndCompute, predictMean, hm, hl, ← hdtd, ← hk]
  rw [hF, hx1]
  simp only [hnew]
  simp only [rowV, ← hk] at e0 e3 e6 e9 e12
  have hR := quat2Rot_isRot hq
  have hq1 : quat2Rot (meanDiscrete N.grav x dt k.w k.a).1 = expSO3 (-(dt • k.w)) * quat2Rot x.q :=
    discrete_rot hdt' hw (le_trans (by norm_num) hwt) hq _ _
  have hdR : quat2Rot (meanDiscrete N.grav x dt k.w k.a).1 * (quat2Rot x.q).transpose = expSO3 (-(dt • k.w)) := by
    rw [hq1, Matrix.mul_assoc, hR.orth', Matrix.mul_one]
  refine ⟨?_, ?_, ?_, ?_, ?_, ?_⟩
  · show HasDm (fun e => quat2Rot _) _
    rw [e0, hdR, hq1, log_rot hdt' hwt hwt', Matrix.mulVec_add, Matrix.mulVec_add, smul_add, ← add_assoc, add_sub_cancel_right]
    have := rot_step hdt' hW (by rw [hw0]; exact le_trans (by norm_num) hwt) hq (sl δ 0)
    simp only [hw0] at this
    refine this.congr_ev ((hev.and hev').mono fun e he => ?_)
    have := discrete_rot hdt' he.2 he.1 (x := Spec.perturbImu x fun i => e * δ i) (by rw [perturb_eq]; exact unit_update hq _) N.grav (ac e)
    simp only [perturb_eq] at this ⊢
    exact this
  · rw [hq1]; exact (expSO3_isRot_of_le (by rw [norm3_neg_smul hdt'.le]; exact le_trans (by norm_num) hwt)).mul hR
  · rw [e3]
    have h2 := (rt_step hq (sl δ 0) hA).smul (0.5 * dt * dt)
    simp only [hw0, ha0] at h2
    refine ((((HasDv.line x.p (sl δ 3)).add ((HasDv.line x.v (sl δ 6)).smul dt)).add h2).sub
      (HasDv.const ((0.5 * dt * dt) • N.grav))).congr_fun (fun e => ?_) |>.congr' ?_
    · simp only [meanDiscrete, perturb_eq]
      rfl
    · simp only [meanDiscrete]
      rw [show x.p + dt • x.v + (0.5 * dt * dt) • (quat2Rot x.q).transpose.mulVec k.a - (0.5 * dt * dt) • N.grav - x.p - dt • x.v + (0.5 * dt * dt) • N.grav = (0.5 * dt * dt) • (quat2Rot x.q).transpose.mulVec k.a by abel]
      rw [skew_smul, Matrix.smul_mulVec]
      module
  · rw [e6]
    have h2 := (rt_step hq (sl δ 0) hA).smul dt
    simp only [hw0, ha0] at h2
    refine (((HasDv.line x.v (sl δ 6)).add h2).sub
      (HasDv.const (dt • N.grav))).congr_fun (fun e => ?_) |>.congr' ?_
    · simp only [meanDiscrete, perturb_eq]
      rfl
    · simp only [meanDiscrete]
      rw [show x.v + dt • (quat2Rot x.q).transpose.mulVec k.a - dt • N.grav - x.v + dt • N.grav = dt • (quat2Rot x.q).transpose.mulVec k.a by abel]
      rw [skew_smul, Matrix.smul_mulVec]
      module
  · rw [e9]
    exact (HasDv.line x.bg (sl δ 9)).congr_fun fun e => by simp only [perturb_eq]
  · rw [e12]
    exact (HasDv.line x.ba (sl δ 12)).congr_fun fun e => by simp only [perturb_eq]

theorem jac_discrete (o : Opts) (po : POpts) (N : Noise) (c : Cal) (x xf : Imu16) (d0 d1 : Reading) (δ : ℕ → ℝ)
    (hm : po.method = .discrete) (hf : po.fej = true → xf = x) (hq : IsUnitQ x.q) (hqw : IsUnitQ c.qw) (hqa : IsUnitQ c.qa)
    (hdt : d0.t < d1.t) (hw : 1e-12 < norm3 (correct o.kalibr c x.bg x.ba d0 d1).w)
    (hwt : 1e-3 ≤ (d1.t - d0.t) * norm3 (correct o.kalibr c x.bg x.ba d0 d1).w)
    (hwt' : (d1.t - d0.t) * norm3 (correct o.kalibr c x.bg x.ba d0 d1).w ≤ Real.pi - 1e-4)
    (hu : o.calibImu = false ∨ Dm o.kalibr c.dw = 1 ∨ Tm c.tg = 0) :
    Spec.IsJac (intrSize o + 15) (predictAndCompute o po N c x xf d0 d1).2.1 δ
      (fun e => (predictAndCompute o po N (Spec.perturbCal o c fun i => e * δ i) (Spec.perturbImu x fun i => e * δ i) xf d0 d1).1)
      (predictAndCompute o po N c x xf d0 d1).1 := by
  obtain ⟨h1, -, h2⟩ := jac_discrete_gen o po N c x xf d0 d1 δ hm hf hq hqw hqa hdt hw hwt hwt'
  refine ⟨?_, h2⟩
  have hu0 : (Dm o.kalibr c.dw).mulVec ((Tm c.tg).mulVec ((quat2Rot c.qa).mulVec ((Dm o.kalibr (tan o δ).da).mulVec (correct o.kalibr c x.bg x.ba d0 d1).au))) -
      (Tm c.tg).mulVec ((quat2Rot c.qa).mulVec ((Dm o.kalibr (tan o δ).da).mulVec (correct o.kalibr c x.bg x.ba d0 d1).au)) = 0 := by
    rcases hu with h | h | h
    · have : (tan o δ).da = 0 := by simp [tan, h]
      simp [this, Dm_zero]
    · rw [h]; simp
    · rw [h]; simp
  simp only [hu0, Matrix.mulVec_zero, smul_zero, sub_zero] at h1
  exact h1

end Verif.Prop_
