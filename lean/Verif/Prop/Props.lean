import Verif.Prop.Jac3
import Verif.Prop.Sensor

/-!
# C37, C38, C73, C74: IMU intrinsics and the state-transition matrix

Statements use `correct` / `predictAndCompute` (the code), `simReading` (the simulator), `Spec.perturbImu` / `Spec.perturbCal` (what
`Type::update` does with an error vector) and `Spec.IsJac` (derivative of every component of the prediction).
-/

set_option linter.unusedSimpArgs false
set_option linter.unusedVariables false

open Classical

namespace Verif.Prop_

open Verif Verif.Types Verif.St Verif.Imu Matrix Finset

theorem vec2 (a b c : ℝ) : (![a, b, c] : V3) 2 = c := rfl

/-! ## C37 -/

theorem sensor_inv (kb : Bool) (c : Cal) (hw : (Dm kb c.dw).det ≠ 0) (ha : (Dm kb c.da).det ≠ 0) (hqw : IsUnitQ c.qw) (hqa : IsUnitQ c.qa)
    (g : V3) (t : ℝ) (R : M3) (aG w bg ba : V3) :
    let r := simReading kb c g t R aG w bg ba
    (quat2Rot c.qa * Dm kb c.da).mulVec (r.am - ba) = R.mulVec (aG + g) ∧
    (quat2Rot c.qw * Dm kb c.dw).mulVec (r.wm - bg - (Tm c.tg).mulVec (R.mulVec (aG + g))) = w := by
  have h1 : quat2Rot c.qa * Dm kb c.da * ((Dm kb c.da)⁻¹ * (quat2Rot c.qa).transpose) = 1 := by
    rw [Matrix.mul_assoc, ← Matrix.mul_assoc (Dm kb c.da), Matrix.mul_nonsing_inv _ (isUnit_iff_ne_zero.2 ha), Matrix.one_mul,
      (quat2Rot_isRot hqa).orth']
  have h2 : quat2Rot c.qw * Dm kb c.dw * ((Dm kb c.dw)⁻¹ * (quat2Rot c.qw).transpose) = 1 := by
    rw [Matrix.mul_assoc, ← Matrix.mul_assoc (Dm kb c.dw), Matrix.mul_nonsing_inv _ (isUnit_iff_ne_zero.2 hw), Matrix.one_mul,
      (quat2Rot_isRot hqw).orth']
  constructor
  · simp only [simReading, add_sub_cancel_right]
    rw [Matrix.mulVec_mulVec, h1, Matrix.one_mulVec]
  · simp only [simReading]
    rw [show ∀ a b c d : V3, a + b + c - c - b = a from fun a b c _ => by abel, Matrix.mulVec_mulVec, h2, Matrix.one_mulVec]
    exact 0

/-- **C37** For both intrinsic models, invertible scale/misalignment matrices and unit sensor rotations: correcting the noise-free
simulated readings with the true biases gives back exactly the true specific force and angular velocity of each reading, in the
filter propagation, in the fast propagation (whose pair is the average of the two readings) and in the angular velocity attached
to a new clone. -/
theorem C37_correction_inverts_simulator (kb : Bool) (c : Cal) (hw : (Dm kb c.dw).det ≠ 0) (ha : (Dm kb c.da).det ≠ 0)
    (hqw : IsUnitQ c.qw) (hqa : IsUnitQ c.qa) (g : V3) (t0 t1 : ℝ) (R0 R1 : M3) (a0 a1 w0 w1 bg ba : V3) :
    let d0 := simReading kb c g t0 R0 a0 w0 bg ba
    let d1 := simReading kb c g t1 R1 a1 w1 bg ba
    let k := correct kb c bg ba d0 d1
    k.w1 = w0 ∧ k.w2 = w1 ∧ k.a1 = R0.mulVec (a0 + g) ∧ k.a2 = R1.mulVec (a1 + g) ∧
    k.w = (0.5 : ℝ) • (w0 + w1) ∧ k.a = (0.5 : ℝ) • (R0.mulVec (a0 + g) + R1.mulVec (a1 + g)) ∧
    correctFast kb c bg ba d0 d1 = ((0.5 : ℝ) • (w0 + w1), (0.5 : ℝ) • (R0.mulVec (a0 + g) + R1.mulVec (a1 + g))) ∧
    ∀ (x : Imu16) (l : List Reading), x.bg = bg → x.ba = ba → lastW kb c x (l ++ [d1]) = w1 := by
  intro d0 d1 k
  obtain ⟨p1, p2⟩ := sensor_inv kb c hw ha hqw hqa g t0 R0 a0 w0 bg ba
  obtain ⟨q1, q2⟩ := sensor_inv kb c hw ha hqw hqa g t1 R1 a1 w1 bg ba
  refine ⟨?_, ?_, p1, q1, ?_, ?_, ?_, ?_⟩
  · simp only [k, correct]; rw [p1]; exact p2
  · simp only [k, correct]; rw [q1]; exact q2
  · simp only [k, correct, Matrix.mulVec_smul, Matrix.mulVec_add]
    congr 1
    rw [p1, q1, p2, q2]
  · simp only [k, correct, Matrix.mulVec_smul, Matrix.mulVec_add (quat2Rot c.qa * Dm kb c.da)]
    congr 1
    rw [p1, q1]
  · simp only [correctFast]
    rw [p1, q1, p2, q2]
  · intro x l h1 h2
    have : ∀ m : List Reading, m ≠ [] → ∀ z, m.getLast? = some z → lastW kb c x m =
        (quat2Rot c.qw * Dm kb c.dw).mulVec (z.wm - x.bg - (Tm c.tg).mulVec ((quat2Rot c.qa * Dm kb c.da).mulVec (z.am - x.ba))) := by
      intro m hm z hz
      cases m with
      | nil => exact absurd rfl hm
      | cons d m =>
        rw [List.getLast?_eq_getLast_of_ne_nil (by simp), Option.some.injEq] at hz
        simp only [lastW, hz]
    rw [this _ (by simp) d1 (by simp), h1, h2, q1, q2]

/-- the sensor of the next examples: non-trivial `Dw`, `Da`, `Tg`. -/
noncomputable def exCal : Cal :=
  { dw := fun i => if i = 0 ∨ i = 3 ∨ i = 5 then 2 else 0, da := fun i => if i = 0 ∨ i = 3 ∨ i = 5 then 1 else 0,
    tg := fun i => if i = 0 ∨ i = 4 ∨ i = 8 then 1 else 0, qw := ⟨0, 0, 0, 1⟩, qa := ⟨0, 0, 0, 1⟩ }

theorem exCal_dw : Dm true exCal.dw = (2 : ℝ) • (1 : M3) := by
  apply m3_ext <;> simp [Dm, exCal]
theorem exCal_da : Dm true exCal.da = 1 := by
  apply m3_ext <;> simp [Dm, exCal]
theorem exCal_tg : Tm exCal.tg = 1 := by
  apply m3_ext <;> simp [Tm, exCal]
theorem exCal_q : IsUnitQ (⟨0, 0, 0, 1⟩ : Quat) := by norm_num [IsUnitQ]
theorem exCal_rot : quat2Rot (⟨0, 0, 0, 1⟩ : Quat) = 1 := by
  apply m3_ext <;> simp only [q2r00, q2r01, q2r02, q2r10, q2r11, q2r12, q2r20, q2r21, q2r22, one00, one01, one02, one10, one11, one12, one20, one21, one22] <;> norm_num

/-- non-vacuity of C37: a sensor with `Dw = 2·I`, `Tg = I` meets the hypotheses. -/
example : (Dm true exCal.dw).det ≠ 0 ∧ (Dm true exCal.da).det ≠ 0 ∧ IsUnitQ exCal.qw ∧ IsUnitQ exCal.qa := by
  rw [exCal_dw, exCal_da]
  refine ⟨?_, by simp, exCal_q, exCal_q⟩
  rw [Matrix.det_smul]; simp

/-! ## C73 -/

/-- a matrix of the shape the model can represent: lower triangular for KALIBR, upper triangular for RPNG. -/
def Spec.Triangular (kb : Bool) (D : M3) : Prop :=
  ∀ i j : Fin 3, (if kb then i < j else j < i) → D i j = 0

theorem dm_vecD {kb : Bool} {D : M3} (h : Spec.Triangular kb D) : Dm kb (vecD kb D) = D := by
  cases kb
  · have h10 := h 1 0 (by simp)
    have h20 := h 2 0 (by simp)
    have h21 := h 2 1 (by simp)
    apply m3_ext <;> simp [Dm, vecD, h10, h20, h21]
  · have h01 := h 0 1 (by simp)
    have h02 := h 0 2 (by simp)
    have h12 := h 1 2 (by simp)
    apply m3_ext <;> simp [Dm, vecD, h01, h02, h12]

/-- **C73** Loading the IMU calibration: for a triangular scale matrix inverse (lower for KALIBR, upper for RPNG) the filter's `Dw`, `Da`,
`Tg` and sensor rotations are exactly the configured ones, so a sensor reading `Tw R_IMUtoGYRO ω + Tg a` (plus bias) is corrected to
`ω` and `Ta R_IMUtoACC a` to `a`. -/
theorem C73_loaded_intrinsics (kb : Bool) (Tw Ta Tg RIA RIG : M3) (hA : IsRot RIA) (hG : IsRot RIG)
    (hTw : Tw.det ≠ 0) (hTa : Ta.det ≠ 0) (hw : Spec.Triangular kb Tw⁻¹) (ha : Spec.Triangular kb Ta⁻¹)
    (w a bg ba : V3) (t : ℝ) :
    let c := loadCal kb Tw Ta Tg RIA RIG
    let d : Reading := { t := t, wm := (Tw * RIG).mulVec w + Tg.mulVec a + bg, am := (Ta * RIA).mulVec a + ba }
    Dm kb c.dw = Tw⁻¹ ∧ Dm kb c.da = Ta⁻¹ ∧ Tm c.tg = Tg ∧ quat2Rot c.qw = RIG.transpose ∧ quat2Rot c.qa = RIA.transpose ∧
    (correct kb c bg ba d d).w = w ∧ (correct kb c bg ba d d).a = a := by
  intro c d
  have e1 : Dm kb c.dw = Tw⁻¹ := dm_vecD hw
  have e2 : Dm kb c.da = Ta⁻¹ := dm_vecD ha
  have e3 : Tm c.tg = Tg := by apply m3_ext <;> simp [Tm, c, loadCal, vecT]
  have e4 : quat2Rot c.qw = RIG.transpose := (QuatProps.C24_rotation_round_trip.2 _ hG.transpose).2
  have e5 : quat2Rot c.qa = RIA.transpose := (QuatProps.C24_rotation_round_trip.2 _ hA.transpose).2
  have hb : (0.5 : ℝ) + 0.5 = 1 := by norm_num
  have hav : ∀ v : V3, (0.5 : ℝ) • (v + v) = v := by intro v; rw [smul_add, ← add_smul, hb, one_smul]
  have i1 : RIA.transpose * Ta⁻¹ * (Ta * RIA) = 1 := by
    rw [Matrix.mul_assoc, ← Matrix.mul_assoc Ta⁻¹, Matrix.nonsing_inv_mul _ (isUnit_iff_ne_zero.2 hTa), Matrix.one_mul, hA.orth]
  have i2 : RIG.transpose * Tw⁻¹ * (Tw * RIG) = 1 := by
    rw [Matrix.mul_assoc, ← Matrix.mul_assoc Tw⁻¹, Matrix.nonsing_inv_mul _ (isUnit_iff_ne_zero.2 hTw), Matrix.one_mul, hG.orth]
  have ea : (correct kb c bg ba d d).a = a := by
    simp only [correct, e2, e5, hav]
    simp only [d, add_sub_cancel_right]
    rw [Matrix.mulVec_mulVec, i1, Matrix.one_mulVec]
  refine ⟨e1, e2, e3, e4, e5, ?_, ea⟩
  rw [corr_w, corr_wu, ea, hav, e1, e3, e4, Matrix.mulVec_mulVec]
  simp only [d]
  rw [show ∀ a b c d : V3, a + b + c - c - b = a from fun a b c _ => by abel, Matrix.mulVec_mulVec, i2, Matrix.one_mulVec]
  exact 0

/-- **C73** The defaults of the `State` constructor are the identity for KALIBR but not for RPNG (the same vector is used for both
layouts): a filter built from them without loading a calibration would read a singular matrix. The file loader replaces them. -/
theorem C73_constructor_default :
    Dm true defaultD = 1 ∧ Dm false defaultD ≠ 1 ∧ (Dm false defaultD).det = 0 := by
  refine ⟨?_, ?_, ?_⟩
  · apply m3_ext <;> simp [Dm, defaultD]
  · intro h
    have := congrFun (congrFun h 1) 1
    simp [Dm, defaultD] at this
  · rw [Matrix.det_fin_three]; simp [Dm, defaultD]

/-- non-vacuity of C73: a lower-triangular `Tw` with invertible, triangular inverse. -/
example : Spec.Triangular true ((2 : ℝ) • (1 : M3))⁻¹ ∧ ((2 : ℝ) • (1 : M3)).det ≠ 0 := by
  constructor
  · have : ((2 : ℝ) • (1 : M3))⁻¹ = (1 / 2 : ℝ) • (1 : M3) := by
      apply Matrix.inv_eq_left_inv
      rw [Matrix.smul_mul, Matrix.mul_smul, smul_smul]; norm_num
    rw [this]
    intro i j h
    simp only [if_true] at h
    rw [Matrix.smul_apply, Matrix.one_apply_ne h.ne, smul_zero]
  · rw [Matrix.det_smul]; simp

/-! ## C38 -/

/-- **C38** `H_Dw`, `H_Da` and `H_Tg` are exact: perturbing the parameters by `δ` changes `D w` by `H δ` and `T a` by `H δ`, for both
intrinsic models. -/
theorem C38_intrinsic_jacobians_partial (kb : Bool) (x δ : ℕ → ℝ) (w : V3) :
    (Dm kb fun i => x i + δ i).mulVec w - (Dm kb x).mulVec w = (HD kb w).mulVec (fun i : Fin 6 => δ i) ∧
    (Tm fun i => x i + δ i).mulVec w - (Tm x).mulVec w = (HT w).mulVec (fun i : Fin 9 => δ i) := by
  have h1 : (HD kb w).mulVec (fun i : Fin 6 => δ i) = (Dm kb δ).mulVec w := by
    have := HD_mulVec kb w δ 0
    unfold slF at this
    simpa only [zero_add] using this
  have h2 : (HT w).mulVec (fun i : Fin 9 => δ i) = (Tm δ).mulVec w := by
    have := HT_mulVec w δ 0
    unfold slF at this
    simpa only [zero_add] using this
  constructor
  · rw [h1, Dm_add, Matrix.add_mulVec, add_sub_cancel_left]
  · rw [h2, Tm_add, Matrix.add_mulVec, add_sub_cancel_left]

/-- the readings of the counterexample: rotation about z. -/
def exR (t : ℝ) : Reading := { t := t, wm := ![0, 0, 2], am := ![0, 0, 1] }
def exX : Imu16 := ⟨⟨0, 0, 0, 1⟩, 0, 0, 0, 0⟩
def exO : Opts :=
  { calibImu := true, calibG := true, kalibr := true, calibDt := false, calibPose := false, calibIntr := false,
    numCams := 1, maxClones := 11, maxAruco := 0 }
/-- unit perturbation of the last entry of `Da` (the z scale). -/
def exD : ℕ → ℝ := fun i => if i = 26 then 1 else 0

theorem ex_a : (correct true exCal 0 0 (exR 0) (exR 1)).a = ![0, 0, 1] := by
  rw [corr_a, exCal_da]
  simp only [exCal, exCal_rot, Matrix.one_mulVec, exR]
  apply v3_ext <;> norm_num [vec2]

theorem ex_wu : (correct true exCal 0 0 (exR 0) (exR 1)).wu = ![0, 0, 1] := by
  rw [corr_wu, ex_a, exCal_tg, Matrix.one_mulVec]
  simp only [exR]
  apply v3_ext <;> norm_num [vec2]

theorem ex_w : (correct true exCal 0 0 (exR 0) (exR 1)).w = ![0, 0, 2] := by
  rw [corr_w, ex_wu, exCal_dw]
  simp only [exCal, exCal_rot, Matrix.one_mulVec, Matrix.smul_mulVec]
  apply v3_ext <;> norm_num [vec2]

theorem ex_norm : norm3 ![0, 0, 2] = 2 := by
  have : norm3 ![0, 0, 2] = Real.sqrt (2 * 2) := by simp [norm3, dot3]
  rw [this, Real.sqrt_mul_self (by norm_num)]

/-! ## C74 -/

/-- **C74** (analytic mode) The state-transition matrix is the exact Jacobian of the mean prediction: for every state, calibration,
option combination and pair of readings with a rotation rate above the small-rate threshold, perturbing the IMU state and the
calibrated intrinsics by any error vector `e·δ` (as `Type::update` does) changes every component of the prediction, to first order in
`e`, by the matching slice of `F δ`; the intrinsics themselves are constant. With first-estimate Jacobians this holds at the linearisation
point `xf = x`. -/
theorem C74_transition_is_jacobian_analytic (o : Opts) (po : POpts) (N : Noise) (c : Cal) (x xf : Imu16) (d0 d1 : Reading) (δ : ℕ → ℝ)
    (hm : po.method = .analytical) (hf : po.fej = true → xf = x) (hq : IsUnitQ x.q) (hqw : IsUnitQ c.qw) (hqa : IsUnitQ c.qa)
    (hdt : d0.t < d1.t) (hw : 1 / 180 * Real.pi / 2 < norm3 (correct o.kalibr c x.bg x.ba d0 d1).w)
    (hwt : 1e-6 ≤ (d1.t - d0.t) * norm3 (correct o.kalibr c x.bg x.ba d0 d1).w) :
    let F := (predictAndCompute o po N c x xf d0 d1).2.1
    Spec.IsJac (intrSize o + 15) F δ
      (fun e => (predictAndCompute o po N (Spec.perturbCal o c fun i => e * δ i) (Spec.perturbImu x fun i => e * δ i) xf d0 d1).1)
      (predictAndCompute o po N c x xf d0 d1).1 ∧
    ∀ i, 15 ≤ i → i < intrSize o + 15 → Mat.mulVec (intrSize o + 15) F δ i = δ i := by
  refine ⟨jac_analytic o po N c x xf d0 d1 δ hm hf hq hqw hqa hdt hw hwt, fun i h1 h2 => ?_⟩
  simp only [predictAndCompute, hm]
  exact (f_rows_intr o _ _ δ i h1 h2).1

/-- **C74** (discrete mode, partial) The same for the discrete prediction, when the accelerometer-intrinsics block is not affected by
line 928 (no IMU intrinsic calibration, or `Dw = I`, or `Tg = 0`) and the interval's rotation angle lies in `[1e-3, π - 1e-4]`. Missing:
the general case, which is false (`C38_discrete_da_block_wrong`), and smaller angles, where `log_so3` is a series. -/
theorem C74_transition_is_jacobian_discrete_partial (o : Opts) (po : POpts) (N : Noise) (c : Cal) (x xf : Imu16) (d0 d1 : Reading)
    (δ : ℕ → ℝ) (hm : po.method = .discrete) (hf : po.fej = true → xf = x) (hq : IsUnitQ x.q) (hqw : IsUnitQ c.qw)
    (hqa : IsUnitQ c.qa) (hdt : d0.t < d1.t) (hw : 1e-12 < norm3 (correct o.kalibr c x.bg x.ba d0 d1).w)
    (hwt : 1e-3 ≤ (d1.t - d0.t) * norm3 (correct o.kalibr c x.bg x.ba d0 d1).w)
    (hwt' : (d1.t - d0.t) * norm3 (correct o.kalibr c x.bg x.ba d0 d1).w ≤ Real.pi - 1e-4)
    (hu : o.calibImu = false ∨ Dm o.kalibr c.dw = 1 ∨ Tm c.tg = 0) :
    let F := (predictAndCompute o po N c x xf d0 d1).2.1
    Spec.IsJac (intrSize o + 15) F δ
      (fun e => (predictAndCompute o po N (Spec.perturbCal o c fun i => e * δ i) (Spec.perturbImu x fun i => e * δ i) xf d0 d1).1)
      (predictAndCompute o po N c x xf d0 d1).1 ∧
    ∀ i, 15 ≤ i → i < intrSize o + 15 → Mat.mulVec (intrSize o + 15) F δ i = δ i := by
  refine ⟨jac_discrete o po N c x xf d0 d1 δ hm hf hq hqw hqa hdt hw hwt hwt' hu, fun i h1 h2 => ?_⟩
  simp only [predictAndCompute, hm]
  exact (f_rows_intr o (xiSum 0 0 0) _ δ i h1 h2).2

/-- non-vacuity of C74: the input of the counterexample below (rotation about z at 2 rad/s for 1 s, `Dw = 2·I`, `Tg = I`, all IMU
intrinsics calibrated) meets the hypotheses of the analytic theorem; with `Tg = 0` those of the discrete one. -/
theorem ex_hyp : exO.kalibr = true ∧ IsUnitQ exX.q ∧ (exR 0).t < (exR 1).t ∧
    1 / 180 * Real.pi / 2 < norm3 (correct exO.kalibr exCal exX.bg exX.ba (exR 0) (exR 1)).w ∧
    1e-3 ≤ ((exR 1).t - (exR 0).t) * norm3 (correct exO.kalibr exCal exX.bg exX.ba (exR 0) (exR 1)).w ∧
    ((exR 1).t - (exR 0).t) * norm3 (correct exO.kalibr exCal exX.bg exX.ba (exR 0) (exR 1)).w ≤ Real.pi - 1e-4 := by
  have h : norm3 (correct exO.kalibr exCal exX.bg exX.ba (exR 0) (exR 1)).w = 2 := by
    show norm3 (correct true exCal 0 0 (exR 0) (exR 1)).w = 2
    rw [ex_w, ex_norm]
  rw [h]
  have := Real.pi_gt_three
  have := Real.pi_le_four
  refine ⟨rfl, exCal_q, by norm_num [exR], by linarith, by norm_num [exR], by norm_num [exR]; linarith⟩

/-- **C38** (counterexample) In discrete mode the block of the state-transition matrix for the accelerometer intrinsics (line 928, no
`Dw` factor) is not the derivative of the prediction: with `Dw = 2·I`, `Tg = I` the analytic matrix is the Jacobian in the direction
of a change of the accelerometer z scale and the discrete one is not. -/
theorem C38_discrete_da_block_wrong (N : Noise) :
    Spec.IsJac (intrSize exO + 15) (predictAndCompute exO ⟨.analytical, false⟩ N exCal exX exX (exR 0) (exR 1)).2.1 exD
      (fun e => (predictAndCompute exO ⟨.analytical, false⟩ N (Spec.perturbCal exO exCal fun i => e * exD i)
        (Spec.perturbImu exX fun i => e * exD i) exX (exR 0) (exR 1)).1)
      (predictAndCompute exO ⟨.analytical, false⟩ N exCal exX exX (exR 0) (exR 1)).1 ∧
    ¬ Spec.IsJac (intrSize exO + 15) (predictAndCompute exO ⟨.discrete, false⟩ N exCal exX exX (exR 0) (exR 1)).2.1 exD
      (fun e => (predictAndCompute exO ⟨.discrete, false⟩ N (Spec.perturbCal exO exCal fun i => e * exD i)
        (Spec.perturbImu exX fun i => e * exD i) exX (exR 0) (exR 1)).1)
      (predictAndCompute exO ⟨.discrete, false⟩ N exCal exX exX (exR 0) (exR 1)).1 := by
  obtain ⟨-, hq, hdt, hw, hwt, hwt'⟩ := ex_hyp
  refine ⟨(C74_transition_is_jacobian_analytic exO ⟨.analytical, false⟩ N exCal exX exX (exR 0) (exR 1) exD rfl (by simp) hq exCal_q exCal_q hdt hw
    (le_trans (by norm_num) hwt)).1, fun H => ?_⟩
  obtain ⟨g1, gR, -⟩ := jac_discrete_gen exO ⟨.discrete, false⟩ N exCal exX exX (exR 0) (exR 1) exD rfl (by simp) hq exCal_q exCal_q hdt
    (lt_trans (by have := Real.pi_gt_three; linarith) hw) hwt hwt'
  set R1 := quat2Rot (predictAndCompute exO ⟨.discrete, false⟩ N exCal exX exX (exR 0) (exR 1)).1.q with hR1
  set η := Mat.mulVec (intrSize exO + 15) (predictAndCompute exO ⟨.discrete, false⟩ N exCal exX exX (exR 0) (exR 1)).2.1 exD with hη
  -- the extra term
  have hkw : (correct exO.kalibr exCal exX.bg exX.ba (exR 0) (exR 1)).w = ![0, 0, 2] := ex_w
  have hau : (correct exO.kalibr exCal exX.bg exX.ba (exR 0) (exR 1)).au = ![0, 0, 1] := by
    rw [corr_au]; simp only [exR, exX]; apply v3_ext <;> norm_num [vec2]
  have hda : Dm exO.kalibr (tan exO exD).da = !![0, 0, 0; 0, 0, 0; 0, 0, 1] := by
    apply m3_ext <;> simp [Dm, tan, exO, exD]
  have hdt1 : (exR 1).t - (exR 0).t = 1 := by norm_num [exR]
  have hdw : Dm exO.kalibr exCal.dw = (2 : ℝ) • (1 : M3) := exCal_dw
  have hqw : quat2Rot exCal.qw = 1 := exCal_rot
  have hqa : quat2Rot exCal.qa = 1 := exCal_rot
  simp only [hkw, hau, hda, hdt1, hdw, hqw, hqa, exCal_tg, Matrix.one_mulVec, one_smul, Matrix.smul_mulVec] at g1
  have hz : (!![(0:ℝ), 0, 0; 0, 0, 0; 0, 0, 1]).mulVec ![0, 0, 1] = ![0, 0, 1] := by
    apply v3_ext <;> simp [Matrix.mulVec, dotProduct, Fin.sum_univ_succ]
  have h2z : (2 : ℝ) • (![0, 0, 1] : V3) - ![0, 0, 1] = ![0, 0, 1] := by apply v3_ext <;> norm_num [vec2]
  rw [hz, h2z] at g1
  have hnn : norm3 (-![0, 0, 2]) = 2 := by
    have := norm3_neg_smul (c := 1) (by norm_num) ![0, 0, 2]
    rwa [one_smul, one_mul, ex_norm] at this
  have hJ : (JrSO3 (-![0, 0, 2])).mulVec ![0, 0, 1] = ![0, 0, 1] := by
    unfold JrSO3
    rw [neg_neg, JlSO3_eq (by rw [ex_norm]; norm_num)]
    apply v3_ext <;> simp only [m3_mulVec_apply, rodr00, rodr01, rodr02, rodr10, rodr11, rodr12, rodr20, rodr21, rodr22] <;> simp
  have hE : (expSO3 (-![0, 0, 2])).mulVec ![0, 0, 1] = ![0, 0, 1] := by
    rw [expSO3_eq_of_le (by rw [hnn]; norm_num)]
    apply v3_ext <;> simp only [m3_mulVec_apply, rodr00, rodr01, rodr02, rodr10, rodr11, rodr12, rodr20, rodr21, rodr22] <;> simp
  rw [hJ, hE] at g1
  have key : -(skew (sl η 0)) * R1 = -(skew (sl η 0 - ![0, 0, 1])) * R1 := by
    ext i j
    exact (H.1 i j).unique (g1 i j)
  have key2 : skew (sl η 0) = skew (sl η 0 - ![0, 0, 1]) := by
    have := congrArg (fun M => M * R1.transpose) key
    simp only [Matrix.mul_assoc, gR.orth', Matrix.mul_one] at this
    exact neg_injective this
  have := congrFun (congrFun key2 1) 0
  rw [skew10, skew10] at this
  have h3 : sl η 0 2 = sl η 0 2 - 1 := this
  linarith

end Verif.Prop_
