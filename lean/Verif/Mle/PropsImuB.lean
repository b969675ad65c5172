import Verif.Mle.PropsImu
import Mathlib.LinearAlgebra.Matrix.PosDef

/-!
# C101: what the preintegration factor penalises, and where its Jacobians are wrong
-/

set_option linter.unusedSimpArgs false

open Classical

namespace Verif.Mle

open Verif Matrix Verif.QuatProps

theorem rot_orth' {R : M3} (h : IsRot R) : R * R.transpose = 1 := mul_eq_one_comm.1 h.1

/-- the motion from state `x` to state `y` over `dt` seconds is the one preintegrated as `(R, β, α)`, in a world where gravity acts as `g`; biases constant. -/
def Spec.motion (R : M3) (β α : V3) (dt : ℝ) (g : V3) (x y : Nav) : Prop :=
  quat2Rot y.q = R * quat2Rot x.q ∧ y.v = x.v - dt • g + (quat2Rot x.q).transpose.mulVec β ∧
    y.p = x.p + dt • x.v - (dt ^ 2 / 2) • g + (quat2Rot x.q).transpose.mulVec α ∧ y.bg = x.bg ∧ y.ba = x.ba

theorem stack5_zero (a b c d e : V3) : stack5 a b c d e = 0 ↔ a = 0 ∧ b = 0 ∧ c = 0 ∧ d = 0 ∧ e = 0 := by
  constructor
  · intro h
    exact ⟨funext fun i => congrFun h (0, i), funext fun i => congrFun h (1, i), funext fun i => congrFun h (2, i), funext fun i => congrFun h (3, i),
      funext fun i => congrFun h (4, i)⟩
  · rintro ⟨rfl, rfl, rfl, rfl, rfl⟩
    funext ⟨r, c⟩
    fin_cases r <;> rfl

theorem vec_zero_iff {q : Quat} (h : CanonQ q) : q.vec = 0 ↔ quat2Rot q = 1 := by
  obtain ⟨hu, hw⟩ := h
  unfold IsUnitQ at hu
  constructor
  · intro h
    have hx : q.x = 0 := congrFun h 0
    have hy : q.y = 0 := congrFun h 1
    have hz : q.z = 0 := congrFun h 2
    have : q.w = 1 := by nlinarith
    apply m3_ext <;> simp only [q2r00, q2r01, q2r02, q2r10, q2r11, q2r12, q2r20, q2r21, q2r22, one00, one01, one02, one10, one11, one12, one20, one21, one22,
      hx, hy, hz, this] <;> norm_num
  · intro h
    have h0 := congrFun (congrFun h 0) 0
    have h1 := congrFun (congrFun h 1) 1
    have h2 := congrFun (congrFun h 2) 2
    simp only [q2r00, q2r11, q2r22, one00, one11, one22] at h0 h1 h2
    have hx : q.x = 0 := by nlinarith [sq_nonneg q.x, sq_nonneg q.y, sq_nonneg q.z]
    have hy : q.y = 0 := by nlinarith [sq_nonneg q.x, sq_nonneg q.y, sq_nonneg q.z]
    have hz : q.z = 0 := by nlinarith [sq_nonneg q.x, sq_nonneg q.y, sq_nonneg q.z]
    apply v3_ext <;> simp only [qv0, qv1, qv2, hx, hy, hz] <;> rfl

theorem rot_qPlus {f : ImuF} {x y : Nav} (hx : IsUnitQ x.q) (hy : IsUnitQ y.q) (hb : IsUnitQ f.qb) :
    quat2Rot (f.qPlus x y) = quat2Rot y.q * (quat2Rot x.q).transpose * (quat2Rot f.qb).transpose * quat2Rot (f.qBias x) := by
  have h0 : quat2Rot (f.qPlus x y) = quat2Rot (f.qMinus x y) * quat2Rot (f.qBias x) :=
    (C23_quat_multiply _ _ (unit_mul (unit_mul hy (unit_inv hx)) (unit_inv hb)) (half_unit _)).2.2
  have h1 : quat2Rot (f.qMinus x y) = quat2Rot (q12 x y) * quat2Rot (quatInv f.qb) :=
    (C23_quat_multiply _ _ (unit_mul hy (unit_inv hx)) (unit_inv hb)).2.2
  rw [h0, h1, q12, (C23_quat_multiply _ _ hy (unit_inv hx)).2.2,
    (C23_quat_inverse _ hx).2.1, (C23_quat_inverse _ hb).2.1]

theorem rot_tr_mulVec {R : M3} (h : IsRot R) (u v : V3) : R.mulVec u = v ↔ u = R.transpose.mulVec v := by
  constructor
  · rintro rfl
    rw [Matrix.mulVec_mulVec, h.1, Matrix.one_mulVec]
  · rintro rfl
    rw [Matrix.mulVec_mulVec, rot_orth' h, Matrix.one_mulVec]

/-- **C101** The residual of the preintegration factor is zero exactly when the two states are joined by the measured motion: for any biases, the motion
preintegrated at the linearisation biases with the first-order corrections for the state's biases applied. -/
theorem C101_zero (f : ImuF) (x y : Nav) (hx : IsUnitQ x.q) (hy : IsUnitQ y.q) (hb : IsUnitQ f.qb) :
    imuErr f x y = 0 ↔ Spec.motion ((quat2Rot (f.qBias x)).transpose * quat2Rot f.qb)
      (f.beta + f.Jb.mulVec (x.bg - f.bgLin) + f.Hb.mulVec (x.ba - f.baLin)) (f.alpha + f.Ja.mulVec (x.bg - f.bgLin) + f.Ha.mulVec (x.ba - f.baLin))
      f.dt f.grav x y := by
  have rx := quat2Rot_isRot hx
  have rb := quat2Rot_isRot hb
  have rB : IsRot (quat2Rot (f.qBias x)) := quat2Rot_isRot (half_unit _)
  have rx' : (quat2Rot x.q).transpose * quat2Rot x.q = 1 := rx.1
  have rb' : (quat2Rot f.qb).transpose * quat2Rot f.qb = 1 := rb.1
  have rB' : (quat2Rot (f.qBias x)).transpose * quat2Rot (f.qBias x) = 1 := rB.1
  unfold imuErr Spec.motion
  rw [stack5_zero]
  have e1 : (2:ℝ) • (f.qPlus x y).vec = 0 ↔ quat2Rot y.q = (quat2Rot (f.qBias x)).transpose * quat2Rot f.qb * quat2Rot x.q := by
    rw [smul_eq_zero_iff_right (by norm_num), vec_zero_iff (qPlus_canon hx hy hb), rot_qPlus hx hy hb]
    constructor
    · intro h
      calc quat2Rot y.q = (quat2Rot y.q * (quat2Rot x.q).transpose * (quat2Rot f.qb).transpose * quat2Rot (f.qBias x)) *
            ((quat2Rot (f.qBias x)).transpose * quat2Rot f.qb * quat2Rot x.q) := by
            simp only [Matrix.mul_assoc]
            rw [← Matrix.mul_assoc (quat2Rot (f.qBias x)), rot_orth' rB, Matrix.one_mul, ← Matrix.mul_assoc (quat2Rot f.qb).transpose, rb', Matrix.one_mul, rx',
              Matrix.mul_one]
        _ = _ := by rw [h, Matrix.one_mul]
    · intro h
      rw [h]
      simp only [Matrix.mul_assoc]
      rw [← Matrix.mul_assoc (quat2Rot x.q), rot_orth' rx, Matrix.one_mul, ← Matrix.mul_assoc (quat2Rot f.qb), rot_orth' rb, Matrix.one_mul, rB']
  have e3 : ∀ (u c1 c2 c3 : V3), (quat2Rot x.q).mulVec u - c1 - c2 - c3 = 0 ↔ u = (quat2Rot x.q).transpose.mulVec (c3 + c1 + c2) := by
    intro u c1 c2 c3
    rw [← rot_tr_mulVec rx, sub_sub, sub_sub, sub_eq_zero]
    constructor <;> intro h <;> rw [h] <;> abel
  rw [e1, e3, e3, sub_eq_zero, sub_eq_zero]
  have h05 : (0.5 : ℝ) * f.dt ^ 2 = f.dt ^ 2 / 2 := by ring
  have ev : ∀ w : V3, f.dv x y = w ↔ y.v = x.v - f.dt • f.grav + w := by
    intro w
    unfold ImuF.dv
    constructor
    · rintro rfl; abel
    · intro h; rw [h]; abel
  have ep : ∀ w : V3, f.dp x y = w ↔ y.p = x.p + f.dt • x.v - (f.dt ^ 2 / 2) • f.grav + w := by
    intro w
    unfold ImuF.dp
    rw [h05]
    constructor
    · rintro rfl; abel
    · intro h; rw [h]; abel
  rw [ev, ep]
  tauto

/-- at the linearisation biases there is no correction. -/
theorem C101_zero_at_linearisation (f : ImuF) (x y : Nav) (hx : IsUnitQ x.q) (hy : IsUnitQ y.q) (hb : IsUnitQ f.qb) (h1 : x.bg = f.bgLin)
    (h2 : x.ba = f.baLin) : imuErr f x y = 0 ↔ Spec.motion (quat2Rot f.qb) f.beta f.alpha f.dt f.grav x y := by
  rw [C101_zero f x y hx hy hb, qBias_eq, h1, h2]
  have : quat2Rot (half 0) = 1 := (vec_zero_iff ⟨half_unit _, by rw [half_zero]; norm_num⟩).1 (by rw [half_zero]; apply v3_ext <;> rfl)
  simp [this]

/-- the constructor's weight, Factor_ImuCPIv1.cpp:51-61: `sqrtI_save` is the transposed Cholesky factor of the inverse covariance (Eigen's `LLT` is not
modelled: any matrix with the defining property). -/
def ImuMade (f : ImuF) (P : Matrix I5 I5 ℝ) : Prop := P.PosDef ∧ f.sqrtI.transpose * f.sqrtI = P⁻¹

/-- **C101** With the constructor's weight, the squared residual is the squared Mahalanobis distance of the error under the preintegration covariance. -/
theorem C101_weight (f : ImuF) (P : Matrix I5 I5 ℝ) (h : ImuMade f P) (x y : Nav) :
    ∑ i, imuRes f x y i ^ 2 = imuErr f x y ⬝ᵥ P⁻¹.mulVec (imuErr f x y) := by
  have : ∑ i, imuRes f x y i ^ 2 = imuRes f x y ⬝ᵥ imuRes f x y := by simp [dotProduct, sq]
  rw [this, imuRes, ← h.2, ← Matrix.mulVec_mulVec, Matrix.dotProduct_mulVec _ f.sqrtI.transpose, Matrix.vecMul_transpose]

/-! ## the bias correction -/

theorem vec_of_rot {q : Quat} (h : IsUnitQ q) : 4 * q.w * q.x = quat2Rot q 1 2 - quat2Rot q 2 1 ∧ 4 * q.w * q.y = quat2Rot q 2 0 - quat2Rot q 0 2 ∧
    4 * q.w * q.z = quat2Rot q 0 1 - quat2Rot q 1 0 ∧ 4 * q.w ^ 2 = 1 + (quat2Rot q 0 0 + quat2Rot q 1 1 + quat2Rot q 2 2) := by
  unfold IsUnitQ at h
  simp only [q2r00, q2r01, q2r02, q2r10, q2r11, q2r12, q2r20, q2r21, q2r22]
  refine ⟨by ring, by ring, by ring, by nlinarith⟩

/-- stored quaternions of a curve of rotations that stands still at the identity stand still. -/
theorem vec_deriv_zero {Q : ℝ → Quat} (hc : ∀ᶠ e in nhds (0:ℝ), CanonQ (Q e)) (h : HasDm (fun e => quat2Rot (Q e)) 0) (h0 : quat2Rot (Q 0) = 1) :
    HasDv (fun e => (Q e).vec) 0 := by
  have hw : ∀ᶠ e in nhds (0:ℝ), (Q e).w = Real.sqrt ((1 + (quat2Rot (Q e) 0 0 + quat2Rot (Q e) 1 1 + quat2Rot (Q e) 2 2)) / 4) := by
    filter_upwards [hc] with e hc
    have := (vec_of_rot hc.1).2.2.2
    rw [← this, mul_div_cancel_left₀ _ (by norm_num : (4:ℝ) ≠ 0), Real.sqrt_sq hc.2]
  have htr := (((h 0 0).fun_add (h 1 1)).fun_add (h 2 2)).const_add 1
  have hsq := (htr.div_const 4).sqrt (by simp only [h0]; norm_num [one00, one11, one22])
  have hwd : HasDerivAt (fun e => (Q e).w) 0 0 := by
    refine (hsq.congr_deriv (by simp)).congr_of_eventuallyEq hw
  have hw0 : (Q 0).w = 1 := by rw [hw.self_of_nhds, h0]; norm_num [one00, one11, one22]
  have hpos : ∀ᶠ e in nhds (0:ℝ), 0 < (Q e).w := hwd.continuousAt.eventually (lt_mem_nhds (by simp only [hw0]; norm_num))
  have quo : ∀ {u : ℝ → ℝ} {i j : Fin 3}, (∀ᶠ e in nhds (0:ℝ), 4 * (Q e).w * u e = quat2Rot (Q e) i j - quat2Rot (Q e) j i) → HasDerivAt u 0 0 := by
    intro u i j hu
    have hd := ((h i j).fun_sub (h j i)).fun_div (hwd.const_mul 4) (by simp only [hw0]; norm_num)
    refine (hd.congr_deriv (by simp [h0, hw0])).congr_of_eventuallyEq ?_
    filter_upwards [hpos, hu] with e he hu
    rw [← hu, mul_div_cancel_left₀ _ (by positivity)]
  intro i
  fin_cases i
  · exact quo (hc.mono fun e hc => (vec_of_rot hc.1).1)
  · exact quo (hc.mono fun e hc => (vec_of_rot hc.1).2.1)
  · exact quo (hc.mono fun e hc => (vec_of_rot hc.1).2.2.1)

/-- **C101** The bias correction is right to first order: take any readings (each corrected rate above the small-rate threshold), preintegrate them at the
linearisation biases into the factor, and move both biases in any direction. If near the linearisation point the second state always follows by the motion preintegrated again from the
same readings at the moved biases, the error of the factor does not change to first order. -/
theorem C101_bias_first_order (k : Cpi.Conf) (xs : List Cpi.Seg) (h : ∀ s ∈ xs, Cpi.thr < norm3 (Cpi.Spec.rate k s)) (dw da : V3) (f : ImuF)
    (hb : IsUnitQ f.qb) (hR : quat2Rot f.qb = (Cpi.run k xs).R) (hβ : f.beta = (Cpi.run k xs).beta) (hα : f.alpha = (Cpi.run k xs).alpha)
    (hJ : f.Jq = (Cpi.run k xs).Jq ∧ f.Ja = (Cpi.run k xs).Ja ∧ f.Jb = (Cpi.run k xs).Jb ∧ f.Ha = (Cpi.run k xs).Ha ∧ f.Hb = (Cpi.run k xs).Hb)
    (hl : f.bgLin = k.bw ∧ f.baLin = k.ba) (x y : ℝ → Nav) (hx : ∀ e, IsUnitQ (x e).q ∧ (x e).bg = k.bw + e • dw ∧ (x e).ba = k.ba + e • da)
    (hy : ∀ᶠ e in nhds (0:ℝ), IsUnitQ (y e).q ∧ Spec.motion (Cpi.run (Cpi.Spec.moved k dw da e) xs).R (Cpi.run (Cpi.Spec.moved k dw da e) xs).beta
      (Cpi.run (Cpi.Spec.moved k dw da e) xs).alpha f.dt f.grav (x e) (y e)) (i : I5) :
    imuErr f (x 0) (y 0) i = 0 ∧ HasDerivAt (fun e => imuErr f (x e) (y e) i) 0 0 := by
  obtain ⟨d1, d2, d3⟩ := Cpi.C82_bias_jacobians_partial k xs (fun s hs => Or.inr (h s hs)) dw da
  have m0 : Cpi.Spec.moved k dw da 0 = k := by simp [Cpi.Spec.moved]
  have z : imuErr f (x 0) (y 0) = 0 := by
    rw [C101_zero_at_linearisation f _ _ (hx 0).1 hy.self_of_nhds.1 hb (by rw [(hx 0).2.1, hl.1]; simp) (by rw [(hx 0).2.2, hl.2]; simp), hR, hβ, hα]
    have := hy.self_of_nhds.2
    rwa [m0] at this
  refine ⟨congrFun z i, ?_⟩
  have lin : ∀ d : V3, HasDv (fun e : ℝ => e • d) d := fun d => by
    have := HasDv.line 0 d
    simpa using this
  have eb : ∀ e, (x e).bg - f.bgLin = e • dw := fun e => by rw [(hx e).2.1, hl.1]; simp
  have ea : ∀ e, (x e).ba - f.baLin = e • da := fun e => by rw [(hx e).2.2, hl.2]; simp
  have hv : ∀ᶠ e in nhds (0:ℝ), (quat2Rot (x e).q).mulVec (f.dv (x e) (y e)) = (Cpi.run (Cpi.Spec.moved k dw da e) xs).beta := by
    filter_upwards [hy] with e hy
    rw [rot_tr_mulVec (quat2Rot_isRot (hx e).1), ImuF.dv, hy.2.2.1]; abel
  have hp : ∀ᶠ e in nhds (0:ℝ), (quat2Rot (x e).q).mulVec (f.dp (x e) (y e)) = (Cpi.run (Cpi.Spec.moved k dw da e) xs).alpha := by
    filter_upwards [hy] with e hy
    rw [rot_tr_mulVec (quat2Rot_isRot (hx e).1), ImuF.dp, hy.2.2.2.1, show (0.5 : ℝ) * f.dt ^ 2 = f.dt ^ 2 / 2 by ring]; abel
  have hmc : ∀ (M : M3) (d : V3), HasDv (fun e : ℝ => M.mulVec (e • d)) (M.mulVec d) := fun M d =>
    ((HasDm.const M).mulVec (lin d)).congr' (by simp)
  obtain ⟨r, c⟩ := i
  fin_cases r
  · have hrot : ∀ᶠ e in nhds (0:ℝ), quat2Rot (f.qPlus (x e) (y e)) = (Cpi.run (Cpi.Spec.moved k dw da e) xs).R * (quat2Rot f.qb).transpose *
        quat2Rot (half (e • f.Jq.mulVec dw)) := by
      filter_upwards [hy] with e hy
      rw [rot_qPlus (hx e).1 hy.1 hb, hy.2.1, qBias_eq, eb, Matrix.mulVec_smul, Matrix.mul_assoc (Cpi.Res.R _), rot_orth' (quat2Rot_isRot (hx e).1),
        Matrix.mul_one]
    have hid : IsUnitQ ⟨0, 0, 0, 1⟩ := by simp [IsUnitQ]
    have r1 : quat2Rot ⟨0, 0, 0, 1⟩ = 1 := (vec_zero_iff ⟨hid, by norm_num⟩).1 (by apply v3_ext <;> rfl)
    have hhalf : HasDm (fun e : ℝ => quat2Rot (half (e • f.Jq.mulVec dw))) (-(skew (f.Jq.mulVec dw))) := by
      intro a b
      have := (C69_update_first_order ⟨0, 0, 0, 1⟩ hid (f.Jq.mulVec dw) a b).1
      rw [r1, Matrix.mul_one] at this
      refine this.congr_of_eventuallyEq (Filter.Eventually.of_forall fun e => ?_)
      simp only
      rw [quatUpdate, ← half_eq_quatnorm, (C23_quat_multiply _ _ (half_unit _) hid).2.2, r1, Matrix.mul_one]
    have rb := rot_orth' (quat2Rot_isRot hb)
    have hM : HasDm (fun e => quat2Rot (f.qPlus (x e) (y e))) 0 := by
      refine HasDm.congr_ev ((((d1.mul (HasDm.const (quat2Rot f.qb).transpose)).mul hhalf)).congr' ?_) hrot
      simp only [m0, zero_smul, half_zero, r1, Matrix.mul_one, Matrix.mul_zero, add_zero]
      rw [← hR, Matrix.mul_assoc, rb, Matrix.mul_one, Matrix.one_mul, hJ.1, add_neg_cancel]
    have h0 : quat2Rot (f.qPlus (x 0) (y 0)) = 1 := by
      rw [hrot.self_of_nhds, m0, ← hR, rb, zero_smul, half_zero, r1, Matrix.one_mul]
    have := ((vec_deriv_zero (hy.mono fun e hy => qPlus_canon (hx e).1 hy.1 hb) hM h0).smul 2) c
    refine this.congr_deriv (by simp)
  · refine (hasDerivAt_const (0:ℝ) (0:ℝ)).congr_of_eventuallyEq (hy.mono fun e hy => ?_)
    show ((y e).bg - (x e).bg) c = 0
    rw [hy.2.2.2.2.1]; simp
  · have := (((d2.sub (hmc f.Jb dw)).sub (hmc f.Hb da)).sub (HasDv.const f.beta)) c
    refine (this.congr_deriv ?_).congr_of_eventuallyEq (hv.mono fun e hv => ?_)
    · rw [hJ.2.2.1, hJ.2.2.2.2]; simp
    · show ((quat2Rot (x e).q).mulVec (f.dv (x e) (y e)) - f.Jb.mulVec ((x e).bg - f.bgLin) - f.Hb.mulVec ((x e).ba - f.baLin) - f.beta) c = _
      rw [hv, eb, ea]
  · refine (hasDerivAt_const (0:ℝ) (0:ℝ)).congr_of_eventuallyEq (hy.mono fun e hy => ?_)
    show ((y e).ba - (x e).ba) c = 0
    rw [hy.2.2.2.2.2]; simp
  · have := (((d3.sub (hmc f.Ja dw)).sub (hmc f.Ha da)).sub (HasDv.const f.alpha)) c
    refine (this.congr_deriv ?_).congr_of_eventuallyEq (hp.mono fun e hp => ?_)
    · rw [hJ.2.1, hJ.2.2.2.1]; simp
    · show ((quat2Rot (x e).q).mulVec (f.dp (x e) (y e)) - f.Ja.mulVec ((x e).bg - f.bgLin) - f.Ha.mulVec ((x e).ba - f.baLin) - f.alpha) c = _
      rw [hp, eb, ea]

/-- The hypotheses can always be met: for any readings with every corrected rate above the threshold, any first orientation and any directions, the factor
and the second states exist. -/
theorem C101_bias_case (k : Cpi.Conf) (xs : List Cpi.Seg) (h : ∀ s ∈ xs, Cpi.thr < norm3 (Cpi.Spec.rate k s)) (dw da g : V3) (dt : ℝ) (q : Quat)
    (hq : IsUnitQ q) (v p : V3) : ∃ (f : ImuF) (x y : ℝ → Nav), IsUnitQ f.qb ∧ quat2Rot f.qb = (Cpi.run k xs).R ∧ f.beta = (Cpi.run k xs).beta ∧
      f.alpha = (Cpi.run k xs).alpha ∧ (f.Jq = (Cpi.run k xs).Jq ∧ f.Ja = (Cpi.run k xs).Ja ∧ f.Jb = (Cpi.run k xs).Jb ∧ f.Ha = (Cpi.run k xs).Ha ∧
      f.Hb = (Cpi.run k xs).Hb) ∧ (f.bgLin = k.bw ∧ f.baLin = k.ba) ∧ (∀ e, (x e).q = q ∧ (x e).v = v ∧ (x e).p = p) ∧
      (∀ e, IsUnitQ (x e).q ∧ (x e).bg = k.bw + e • dw ∧ (x e).ba = k.ba + e • da) ∧
      ∀ᶠ e in nhds (0:ℝ), IsUnitQ (y e).q ∧ Spec.motion (Cpi.run (Cpi.Spec.moved k dw da e) xs).R (Cpi.run (Cpi.Spec.moved k dw da e) xs).beta
        (Cpi.run (Cpi.Spec.moved k dw da e) xs).alpha f.dt f.grav (x e) (y e) := by
  have hR0 := (Cpi.C40_rotation_partial k xs fun s hs => Or.inr (h s hs).le).1
  have hc := C24_rotation_round_trip.2
  set r := Cpi.run k xs with hr
  refine ⟨⟨r.alpha, r.beta, rot2quat r.R, dt, g, k.ba, k.bw, r.Jq, r.Ja, r.Jb, r.Ha, r.Hb, 1⟩, fun e => ⟨q, k.bw + e • dw, v, k.ba + e • da, p⟩,
    fun e => ⟨rot2quat ((Cpi.run (Cpi.Spec.moved k dw da e) xs).R * quat2Rot q), k.bw + e • dw,
      v - dt • g + (quat2Rot q).transpose.mulVec (Cpi.run (Cpi.Spec.moved k dw da e) xs).beta, k.ba + e • da,
      p + dt • v - (dt ^ 2 / 2) • g + (quat2Rot q).transpose.mulVec (Cpi.run (Cpi.Spec.moved k dw da e) xs).alpha⟩,
    (hc _ hR0).1.1, (hc _ hR0).2, rfl, rfl, ⟨rfl, rfl, rfl, rfl, rfl⟩, ⟨rfl, rfl⟩, fun e => ⟨rfl, rfl, rfl⟩, fun e => ⟨hq, rfl, rfl⟩, ?_⟩
  have hall : ∀ s ∈ xs, ∀ᶠ e in nhds (0:ℝ), Cpi.thr < norm3 (Cpi.Spec.rate (Cpi.Spec.moved k dw da e) s) := by
    intro s hs
    have m0 : Cpi.Spec.moved k dw da 0 = k := by simp [Cpi.Spec.moved]
    have hd := Cpi.rate_moved k dw da s
    have hcont : ContinuousAt (fun e => norm3 (Cpi.Spec.rate (Cpi.Spec.moved k dw da e) s)) 0 := by
      unfold norm3 dot3
      have c0 := (hd 0).continuousAt
      have c1 := (hd 1).continuousAt
      have c2 := (hd 2).continuousAt
      exact (((c0.mul c0).add (c1.mul c1)).add (c2.mul c2)).sqrt
    exact hcont.eventually (lt_mem_nhds (by simp only [m0]; exact h s hs))
  have hall' : ∀ᶠ e in nhds (0:ℝ), ∀ s ∈ xs, Cpi.thr < norm3 (Cpi.Spec.rate (Cpi.Spec.moved k dw da e) s) := by
    clear hr r hR0 h
    induction xs with
    | nil => simp
    | cons s xs ih =>
      filter_upwards [hall s (by simp), ih fun t ht => hall t (by simp [ht])] with e h1 h2 t ht
      rcases List.mem_cons.1 ht with rfl | ht
      · exact h1
      · exact h2 t ht
  filter_upwards [hall'] with e he
  have hRe := (Cpi.C40_rotation_partial (Cpi.Spec.moved k dw da e) xs fun s hs => Or.inr (he s hs).le).1
  have hprod : IsRot ((Cpi.run (Cpi.Spec.moved k dw da e) xs).R * quat2Rot q) := hRe.mul (quat2Rot_isRot hq)
  exact ⟨(hc _ hprod).1.1, (hc _ hprod).2, rfl, rfl, rfl, rfl⟩

/-! ## where the Jacobians are wrong -/

/-- a factor that has measured only a turn, at zero biases, unit weight. -/
noncomputable def turnF (qb : Quat) (Jq : M3) : ImuF := ⟨0, 0, qb, 0, 0, 0, 0, Jq, 0, 0, 0, 0, 1⟩

/-- **C101** (defect) With a residual rotation above half a turn formed from two stored quaternions, the returned derivative with respect to the first
orientation has the wrong sign: 7/25 where the residual changes by -7/25. -/
theorem C101_sign_defect : ∃ (f : ImuF) (x y : Nav) (a b : Dir) (i : I5), IsUnitQ x.q ∧ IsUnitQ y.q ∧ IsUnitQ f.qb ∧
    HasDerivAt (fun e => imuRes f (Spec.movedNav x a e) (Spec.movedNav y b e) i) (-(7 / 25)) 0 ∧
    (imuJac f x y).mulVec (fun j : I10 => Spec.dirs a b j.1 j.2) i = 7 / 25 := by
  have hid : IsUnitQ ⟨0, 0, 0, 1⟩ := by simp [IsUnitQ]
  have hq : IsUnitQ ⟨0, 0, 4 / 5, 3 / 5⟩ := by simp [IsUnitQ]; norm_num
  have hqb : IsUnitQ ⟨0, 0, -(4 / 5), 3 / 5⟩ := by simp [IsUnitQ]; norm_num
  set f := turnF ⟨0, 0, -(4 / 5), 3 / 5⟩ 0 with hf
  set x : Nav := ⟨⟨0, 0, 0, 1⟩, 0, 0, 0, 0⟩ with hx
  set y : Nav := ⟨⟨0, 0, 4 / 5, 3 / 5⟩, 0, 0, 0, 0⟩ with hy
  set a : Dir := ⟨![0, 0, 1], 0, 0, 0, 0⟩ with ha
  set b : Dir := ⟨0, 0, 0, 0, 0⟩ with hbd
  have hB : ∀ z, f.qBias z = ⟨0, 0, 0, 1⟩ := fun z => by rw [qBias_eq, hf, turnF]; simp [half_zero]
  have hch : chain y.q x.q f.qb (f.qBias x) = ⟨0, 0, 24 / 25, -(7 / 25)⟩ := by
    rw [hB, hf, hx, hy]
    simp [chain, quatMulRaw, quatInv, turnF]; norm_num
  have hs : sgn (chain y.q x.q f.qb (f.qBias x)) = -1 := by rw [hch]; simp [sgn]
  have hD := qPlus_deriv f x y hid hq hqb a b (by rw [hch]; norm_num) (B' := ⟨0, 0, 0, 0⟩) ((HasDq.const ⟨0, 0, 0, 1⟩).congr_ev
    (Filter.Eventually.of_forall fun e => hB _))
  have h1 : q12 x y = ⟨0, 0, 4 / 5, 3 / 5⟩ := by
    rw [q12, quatMul_smul hq (unit_inv hid)]
    simp [quatMulRaw, quatInv, Quat.smul, sgn]; norm_num
  have h2 : f.qMeas x = ⟨0, 0, 4 / 5, 3 / 5⟩ := by
    rw [ImuF.qMeas, hB, show f.qb = ⟨0, 0, -(4 / 5), 3 / 5⟩ from rfl, quatMul_smul (unit_inv hqb) hid]
    simp [turnF, quatMulRaw, quatInv, Quat.smul, sgn]; norm_num
  refine ⟨f, x, y, a, b, (0, 2), hid, hq, hqb, ?_, ?_⟩
  · have hz := hD.vec.smul 2 2
    have : ∀ e, imuRes f (Spec.movedNav x a e) (Spec.movedNav y b e) (0, 2) = ((2:ℝ) • (f.qPlus (Spec.movedNav x a e) (Spec.movedNav y b e)).vec) 2 := fun e => by
      rw [imuRes, hf, turnF]; simp only [Matrix.one_mulVec]; rfl
    refine (hz.congr_deriv ?_).congr_of_eventuallyEq (Filter.Eventually.of_forall this)
    rw [hs, hB, hf, hx, hy, ha, hbd]
    simp [chain, qadd, quatMulRaw, quatInv, Quat.smul, turnF, Quat.vec]; norm_num
  · rw [imuJac, show f.sqrtI = 1 from rfl, Matrix.one_mul, blk_sum]
    have ten : ∀ g : Fin 10 → ℝ, ∑ k, g k = g 0 + g 1 + g 2 + g 3 + g 4 + g 5 + g 6 + g 7 + g 8 + g 9 := by
      intro g
      rw [Fin.sum_univ_castSucc, Fin.sum_univ_castSucc, Fin.sum_univ_eight]; rfl
    rw [ten]
    simp only [imuBlk, Spec.dirs, h1, h2, ha, hbd]
    simp [m3_mulVec_apply, m3_mul_apply, outer, qv0, qv1, qv2, skew00, skew01, skew02, skew10, skew11, skew12, skew20, skew21, skew22]
    norm_num

/-- **C101** (defect) Away from the linearisation bias the returned derivative with respect to the gyroscope bias is wrong: it leaves out the
normalisation of the correction quaternion (1 where the residual changes by `2^{-3/2}`). -/
theorem C101_bias_jacobian_defect : ∃ (f : ImuF) (x y : Nav) (a b : Dir) (i : I5), IsUnitQ x.q ∧ IsUnitQ y.q ∧ IsUnitQ f.qb ∧
    HasDerivAt (fun e => imuRes f (Spec.movedNav x a e) (Spec.movedNav y b e) i) (1 / (2 * Real.sqrt 2)) 0 ∧
    (imuJac f x y).mulVec (fun j : I10 => Spec.dirs a b j.1 j.2) i = 1 := by
  have hid : IsUnitQ ⟨0, 0, 0, 1⟩ := by simp [IsUnitQ]
  set f := turnF ⟨0, 0, 0, 1⟩ 1 with hf
  set x : Nav := ⟨⟨0, 0, 0, 1⟩, ![2, 0, 0], 0, 0, 0⟩ with hx
  set y : Nav := ⟨⟨0, 0, 0, 1⟩, ![2, 1, 0], 0, 0, 0⟩ with hy
  set a : Dir := ⟨0, ![1, 0, 0], 0, 0, 0⟩ with ha
  set b : Dir := ⟨0, 0, 0, 0, 0⟩ with hbd
  have hm : ∀ e : ℝ, plus ⟨0, 0, 0, 1⟩ (e • (0 : V3)) = ⟨0, 0, 0, 1⟩ := fun e => by
    rw [smul_zero, plus_small (by rw [norm3_eq_zero.2 rfl]; norm_num), quatUpdate, ← half_eq_quatnorm, half_zero, quatMul_smul hid hid]
    simp [quatMulRaw, Quat.smul, sgn]
  have hB : ∀ e, f.qBias (Spec.movedNav x a e) = half ![2 + e, 0, 0] := fun e => by
    rw [qBias_eq, hf, turnF, hx, ha]
    congr 1
    apply v3_ext <;> simp [Spec.movedNav]
  have hid2 : ∀ B, chain ⟨0, 0, 0, 1⟩ ⟨0, 0, 0, 1⟩ ⟨0, 0, 0, 1⟩ B = B := fun B => by simp [chain, quatMulRaw, quatInv]
  have hqp : ∀ e, f.qPlus (Spec.movedNav x a e) (Spec.movedNav y b e) = half ![2 + e, 0, 0] := fun e => by
    have ex : (Spec.movedNav x a e).q = ⟨0, 0, 0, 1⟩ := hm e
    have ey : (Spec.movedNav y b e).q = ⟨0, 0, 0, 1⟩ := hm e
    obtain ⟨c, hc, h⟩ := qPlus_smul (f := f) (x := Spec.movedNav x a e) (y := Spec.movedNav y b e) (by rw [ex]; exact hid) (by rw [ey]; exact hid) hid
    rw [ex, ey, show f.qb = ⟨0, 0, 0, 1⟩ from rfl, hid2, hB] at h
    refine eq_of_smul h hc (qPlus_canon (f := f) (by rw [ex]; exact hid) (by rw [ey]; exact hid) hid).2 ?_
    simp only [half, Quat.divS]
    rw [half_norm]
    exact div_pos one_pos (half_pos _)
  have h1 : q12 x y = ⟨0, 0, 0, 1⟩ := by
    rw [q12, quatMul_smul hid (unit_inv hid)]
    simp [quatMulRaw, quatInv, Quat.smul, sgn]
  have h2 : f.qMinus x y = ⟨0, 0, 0, 1⟩ := by
    rw [ImuF.qMinus, h1, show f.qb = ⟨0, 0, 0, 1⟩ from rfl, quatMul_smul hid (unit_inv hid)]
    simp [ quatMulRaw, quatInv, Quat.smul, sgn]
  refine ⟨f, x, y, a, b, (0, 0), hid, hid, hid, ?_, ?_⟩
  · have : ∀ e, imuRes f (Spec.movedNav x a e) (Spec.movedNav y b e) (0, 0) = (2 + e) / Real.sqrt (1 + (2 + e) ^ 2 / 4) := fun e => by
      have e1 : imuRes f (Spec.movedNav x a e) (Spec.movedNav y b e) (0, 0) = ((2:ℝ) • (f.qPlus (Spec.movedNav x a e) (Spec.movedNav y b e)).vec) 0 := by
        rw [imuRes, hf, turnF]; simp only [Matrix.one_mulVec]; rfl
      rw [e1, hqp, Pi.smul_apply, qv0]
      simp only [half, Quat.divS]
      rw [half_norm]
      have : dot3 ![2 + e, 0, 0] ![2 + e, 0, 0] = (2 + e) ^ 2 := by simp [dot3]; ring
      rw [this]
      simp only [smul_eq_mul, Matrix.cons_val_zero]
      ring
    have hl : HasDerivAt (fun e : ℝ => 2 + e) 1 0 := by simpa using (hasDerivAt_id (0:ℝ)).const_add 2
    have hsq := (((hl.fun_pow 2).div_const 4).const_add 1).sqrt (by norm_num)
    have hd := hl.fun_div hsq (Real.sqrt_ne_zero'.2 (by norm_num))
    refine (hd.congr_deriv ?_).congr_of_eventuallyEq (Filter.Eventually.of_forall this)
    have e2 : (1 + (2 + (0:ℝ)) ^ 2 / 4) = 2 := by norm_num
    rw [e2]
    have s2 : Real.sqrt 2 ^ 2 = 2 := Real.sq_sqrt (by norm_num)
    have sp : Real.sqrt 2 ≠ 0 := by positivity
    rw [s2, Nat.cast_ofNat, show (2 + (0:ℝ)) = 2 by norm_num, show (2:ℝ) * 2 ^ (2 - 1) * 1 / 4 = 1 by norm_num]
    field_simp
    linear_combination s2
  · rw [imuJac, show f.sqrtI = 1 from rfl, Matrix.one_mul, blk_sum]
    have ten : ∀ g : Fin 10 → ℝ, ∑ k, g k = g 0 + g 1 + g 2 + g 3 + g 4 + g 5 + g 6 + g 7 + g 8 + g 9 := by
      intro g
      rw [Fin.sum_univ_castSucc, Fin.sum_univ_castSucc, Fin.sum_univ_eight]; rfl
    rw [ten]
    simp only [imuBlk, Spec.dirs, h2, ha, hbd]
    simp [m3_mulVec_apply, m3_mul_apply, qv0, qv1, qv2, hf, turnF, skew00, skew01, skew02, skew10, skew11, skew12, skew20, skew21, skew22]

end Verif.Mle
