import Verif.Prop.PropsC

/-!
# What `fast_state_propagate` predicts and reports (C93)
-/

open Classical

namespace Verif.Prop_

open Verif Verif.Types Verif.St Verif.Imu Matrix

/-- no calibration of intrinsics. -/
def oNone (kalibr : Bool) : Opts := ⟨false, false, kalibr, false, false, false, 1, 11, 0⟩

theorem fast_corr (kb : Bool) (c : Cal) (bg ba : V3) (d0 d1 : Reading) :
    correctFast kb c bg ba d0 d1 = ((correct kb c bg ba d0 d1).w, (correct kb c bg ba d0 d1).a) := by
  unfold correctFast correct
  simp only []
  ext1 <;> simp only []
  · rw [← Matrix.mulVec_add, Matrix.mulVec_smul]
  · rw [← Matrix.mulVec_add, Matrix.mulVec_smul]

theorem pc_none (kb : Bool) (c : Cal) (δ : ℕ → ℝ) (e : ℝ) : pc (oNone kb) c δ e = c := by
  simp [pc, Spec.perturbCal, oNone]

namespace Spec

/-- the mean of the two corrected readings at the ends of an interval: angular rate. -/
noncomputable def meanRate (kb : Bool) (c : Cal) (bg ba : V3) (d0 d1 : Reading) : V3 := (1 / 2 : ℝ) • (rate kb c bg ba d0 + rate kb c bg ba d1)

/-- the same for the specific force. -/
noncomputable def meanForce (kb : Bool) (c : Cal) (ba : V3) (d0 d1 : Reading) : V3 :=
  (1 / 2 : ℝ) • ((quat2Rot c.qa).mulVec ((Dm kb c.da).mulVec (d0.am - ba)) + (quat2Rot c.qa).mulVec ((Dm kb c.da).mulVec (d1.am - ba)))

end Spec

theorem fast_w (kb : Bool) (c : Cal) (bg ba : V3) (d0 d1 : Reading) : (correctFast kb c bg ba d0 d1).1 = Spec.meanRate kb c bg ba d0 d1 := by
  simp only [correctFast, Spec.meanRate, Spec.rate, ← Matrix.mulVec_mulVec]
  norm_num

theorem fast_a (kb : Bool) (c : Cal) (bg ba : V3) (d0 d1 : Reading) : (correctFast kb c bg ba d0 d1).2 = Spec.meanForce kb c ba d0 d1 := by
  simp only [correctFast, Spec.meanForce, ← Matrix.mulVec_mulVec]
  norm_num

/-- **C93** (mean) One step of the fast propagation turns the orientation by the mean corrected angular rate over the interval, moves position and
velocity with the mean corrected specific force rotated by the orientation at the start, and keeps the biases. -/
theorem C93_step_mean (kb : Bool) (N : Noise) (c : Cal) (x : Imu16) (hq : IsUnitQ x.q) (P : Mat) (d0 d1 : Reading)
    (hw : Spec.meanRate kb c x.bg x.ba d0 d1 = 0 ∨ 1e-7 ≤ norm3 ((d1.t - d0.t) • Spec.meanRate kb c x.bg x.ba d0 d1)) :
    let y := (fastStep kb N c x P d0 d1).1
    let dt := d1.t - d0.t
    let acc := (quat2Rot x.q).transpose.mulVec (Spec.meanForce kb c x.ba d0 d1) - N.grav
    IsUnitQ y.q ∧ quat2Rot y.q = expSO3 (-(dt • Spec.meanRate kb c x.bg x.ba d0 d1)) * quat2Rot x.q ∧
    y.v = x.v + dt • acc ∧ y.p = x.p + dt • x.v + (dt ^ 2 / 2) • acc ∧ y.bg = x.bg ∧ y.ba = x.ba := by
  intro y dt acc
  have hn : norm3 (-(dt • Spec.meanRate kb c x.bg x.ba d0 d1)) = norm3 (dt • Spec.meanRate kb c x.bg x.ba d0 d1) := by simp [norm3, dot3]
  have hE : IsRot (expSO3 (-(dt • Spec.meanRate kb c x.bg x.ba d0 d1))) := by
    rcases hw with hw | hw
    · rw [hw, smul_zero, neg_zero, show expSO3 0 = 1 by simp [expSO3, norm3, dot3, skew_zero]]; exact ⟨by simp, by simp⟩
    · exact expSO3_isRot_of_le (by rw [hn]; exact hw)
  obtain ⟨h1, h2⟩ := QuatProps.C24_rotation_round_trip.2 _ (hE.mul (quat2Rot_isRot hq))
  have hy : y.q = rot2quat (expSO3 (-(dt • Spec.meanRate kb c x.bg x.ba d0 d1)) * quat2Rot x.q) := by
    simp only [y, fastStep, fast_w, dt]
  refine ⟨by rw [hy]; exact h1.1, by rw [hy, h2], ?_, ?_, rfl, rfl⟩
  · simp only [y, fastStep, fast_a, acc, dt]; module
  · simp only [y, fastStep, fast_a, acc, dt]; module

theorem fFast_rows (R : M3) (dt : ℝ) (w a : V3) (δ : ℕ → ℝ) :
    let F := assemble (fFast R dt w a)
    let E := expSO3 (-(dt • w))
    let J := JrSO3 (-(dt • w))
    rowV 15 F δ 0 = E.mulVec (sl δ 0) - dt • E.mulVec (J.mulVec (sl δ 9)) ∧
    rowV 15 F δ 3 = sl δ 3 + dt • sl δ 6 - (0.5 * dt * dt) • R.transpose.mulVec (sl δ 12) - (0.5 * dt * dt) • R.transpose.mulVec ((skew a).mulVec (sl δ 0)) ∧
    rowV 15 F δ 6 = sl δ 6 - dt • R.transpose.mulVec (sl δ 12) - dt • R.transpose.mulVec ((skew a).mulVec (sl δ 0)) ∧
    rowV 15 F δ 9 = sl δ 9 ∧ rowV 15 F δ 12 = sl δ 12 := by
  intro F E J
  have rp : ∀ r0, r0 = 0 ∨ r0 = 3 ∨ r0 = 6 ∨ r0 = 9 ∨ r0 = 12 → RowP r0 3 15 (fFast R dt w a) := by
    intro r0 hr
    rcases hr with rfl | rfl | rfl | rfl | rfl <;> exact rowP_of_ok rfl
  have e := fun r0 hr i => rowV_eq δ (rp r0 hr) i
  refine ⟨?_, ?_, ?_, ?_, ?_⟩ <;> ext i
  all_goals
    show rowV 15 (assemble (fFast R dt w a)) δ _ i = _
    rw [e _ (by simp)]
    unfold fFast
    simp (decide := true) only [rowSum_cons_in, rowSum_cons_out, rowSum_nil, slF_three, not_false_eq_true, ← Matrix.mulVec_mulVec, Matrix.neg_mulVec,
      Matrix.smul_mulVec, Matrix.mulVec_smul, Matrix.one_mulVec, skew_smul, Pi.add_apply, Pi.sub_apply, Pi.neg_apply, Pi.smul_apply, smul_eq_mul, E, J]
    ring

/-- the derivative of the fast prediction, for any calibration. -/
theorem fast_deriv (kb : Bool) (N : Noise) (c : Cal) (x : Imu16) (hq : IsUnitQ x.q) (hqw : IsUnitQ c.qw) (hqa : IsUnitQ c.qa) (P : Mat) (d0 d1 : Reading)
    (hdt : d0.t < d1.t) (hw : 1e-6 ≤ (d1.t - d0.t) * norm3 (Spec.meanRate kb c x.bg x.ba d0 d1)) (δ : ℕ → ℝ) :
    let y := fun e : ℝ => (fastStep kb N c (Spec.perturbImu x fun i => e * δ i) P d0 d1).1
    let dt := d1.t - d0.t
    let w := Spec.meanRate kb c x.bg x.ba d0 d1
    let A := quat2Rot c.qa * Dm kb c.da
    let W := quat2Rot c.qw * Dm kb c.dw
    let R := quat2Rot x.q
    HasDm (fun e => quat2Rot (y e).q) (-(skew ((expSO3 (-(dt • w))).mulVec (sl δ 0) + dt • (expSO3 (-(dt • w))).mulVec ((JrSO3 (-(dt • w))).mulVec
      (W.mulVec ((Tm c.tg).mulVec (A.mulVec (sl δ 12)) - sl δ 9))))) * quat2Rot (fastStep kb N c x P d0 d1).1.q) ∧
    HasDv (fun e => (y e).p) (sl δ 3 + dt • sl δ 6 - (0.5 * dt * dt) • R.transpose.mulVec (A.mulVec (sl δ 12)) -
      (0.5 * dt * dt) • R.transpose.mulVec ((skew (Spec.meanForce kb c x.ba d0 d1)).mulVec (sl δ 0))) ∧
    HasDv (fun e => (y e).v) (sl δ 6 - dt • R.transpose.mulVec (A.mulVec (sl δ 12)) -
      dt • R.transpose.mulVec ((skew (Spec.meanForce kb c x.ba d0 d1)).mulVec (sl δ 0))) ∧
    HasDv (fun e => (y e).bg) (sl δ 9) ∧ HasDv (fun e => (y e).ba) (sl δ 12) ∧ IsRot (quat2Rot (fastStep kb N c x P d0 d1).1.q) := by
  intro y dt w A W R
  have hdt' : 0 < dt := sub_pos.2 hdt
  obtain ⟨hA, hW, hA0, hW0⟩ := corr_deriv (o := oNone kb) δ hqw hqa kb x.bg x.ba d0 d1
  simp only [pc_none] at hA hW hA0 hW0
  set k := correct kb c x.bg x.ba d0 d1 with hk
  have kw : k.w = w := by simp only [w]; rw [← fast_w, fast_corr]
  have ka : k.a = Spec.meanForce kb c x.ba d0 d1 := by rw [← fast_a kb c x.bg, fast_corr]
  have htan : tan (oNone kb) δ = ⟨0, 0, 0, 0, 0⟩ := rfl
  have hA' : aDot kb c k (tan (oNone kb) δ) (sl δ 12) = -A.mulVec (sl δ 12) := by
    simp [aDot, htan, Dm_zero, A, ← Matrix.mulVec_mulVec]
  have hW' : wDot kb c k (tan (oNone kb) δ) (sl δ 9) (sl δ 12) = W.mulVec ((Tm c.tg).mulVec (A.mulVec (sl δ 12)) - sl δ 9) := by
    unfold wDot
    rw [hA']
    simp only [htan, Dm_zero, Tm_zero, Matrix.mulVec_zero, Matrix.zero_mulVec, zero_add, sub_zero, W, ← Matrix.mulVec_mulVec, Matrix.mulVec_neg]
    congr 2; abel
  rw [hA'] at hA
  rw [hW'] at hW
  set wc := fun e : ℝ => (correct kb c (x.bg + e • sl δ 9) (x.ba + e • sl δ 12) d0 d1).w with hwc
  set ac := fun e : ℝ => (correct kb c (x.bg + e • sl δ 9) (x.ba + e • sl δ 12) d0 d1).a with hac
  have hw0 : wc 0 = w := hW0.trans kw
  have ha0 : ac 0 = Spec.meanForce kb c x.ba d0 d1 := hA0.trans ka
  have hn := hW.norm (by rw [hw0]; by_contra h; have := norm3_nonneg w; nlinarith)
  have hev : ∀ᶠ e in nhds (0:ℝ), 1e-7 ≤ dt * norm3 (wc e) := by
    have h1 : (1e-7 : ℝ) < dt * norm3 (wc 0) := by rw [hw0]; exact lt_of_lt_of_le (by norm_num) hw
    filter_upwards [(hn.continuousAt.const_smul dt).eventually (lt_mem_nhds h1)] with e he
    exact le_of_lt he
  have hy : ∀ e, y e = ⟨rot2quat (expSO3 (-(dt • wc e)) * quat2Rot (quatUpdate x.q (e • sl δ 0))),
      x.p + e • sl δ 3 + dt • (x.v + e • sl δ 6) + (0.5 * dt * dt) • (quat2Rot (quatUpdate x.q (e • sl δ 0))).transpose.mulVec (ac e) - (0.5 * dt * dt) • N.grav,
      x.v + e • sl δ 6 + dt • (quat2Rot (quatUpdate x.q (e • sl δ 0))).transpose.mulVec (ac e) - dt • N.grav, x.bg + e • sl δ 9, x.ba + e • sl δ 12⟩ := by
    intro e
    simp only [y, fastStep, perturb_eq, fast_corr, hwc, hac, dt]
  have hE : IsRot (expSO3 (-(dt • w))) := expSO3_isRot_of_le (by rw [norm3_neg_smul hdt'.le]; exact le_trans (by norm_num) hw)
  have h1 : quat2Rot (fastStep kb N c x P d0 d1).1.q = expSO3 (-(dt • w)) * quat2Rot x.q := by
    have : (fastStep kb N c x P d0 d1).1.q = rot2quat (expSO3 (-(dt • w)) * quat2Rot x.q) := by simp only [fastStep, fast_w, dt, w]
    rw [this, (QuatProps.C24_rotation_round_trip.2 _ (hE.mul (quat2Rot_isRot hq))).2]
  refine ⟨?_, ?_, ?_, ?_, ?_, ?_⟩
  · rw [h1]
    have := rot_step hdt' hW (by show 1e-6 ≤ dt * norm3 (wc 0); rw [hw0]; exact hw) hq (sl δ 0)
    rw [hw0] at this
    refine this.congr_ev (hev.mono fun e he => ?_)
    rw [hy]
    have hr : IsRot (expSO3 (-(dt • wc e))) := expSO3_isRot_of_le (by rw [norm3_neg_smul hdt'.le]; exact he)
    exact (QuatProps.C24_rotation_round_trip.2 _ (hr.mul (quat2Rot_isRot (unit_update hq _)))).2
  · have h2 := (rt_step hq (sl δ 0) hA).smul (0.5 * dt * dt)
    refine ((((HasDv.line x.p (sl δ 3)).add ((HasDv.line x.v (sl δ 6)).smul dt)).add h2).sub
      (HasDv.const ((0.5 * dt * dt) • N.grav))).congr_fun (fun e => ?_) |>.congr' ?_
    · rw [hy]
    · rw [ha0]
      have key : (skew ((quat2Rot x.q).transpose.mulVec (Spec.meanForce kb c x.ba d0 d1))).mulVec ((quat2Rot x.q).transpose.mulVec (sl δ 0)) =
          (quat2Rot x.q).transpose.mulVec ((skew (Spec.meanForce kb c x.ba d0 d1)).mulVec (sl δ 0)) := by
        have hR := (quat2Rot_isRot hq).transpose
        rw [← rot_skew hR, Matrix.mulVec_mulVec, Matrix.mul_assoc _ _ (quat2Rot x.q).transpose, hR.orth, Matrix.mul_one, Matrix.mulVec_mulVec]
      rw [key]
      simp only [Matrix.mulVec_neg, R]
      module
  · have h2 := (rt_step hq (sl δ 0) hA).smul dt
    refine (((HasDv.line x.v (sl δ 6)).add h2).sub
      (HasDv.const (dt • N.grav))).congr_fun (fun e => ?_) |>.congr' ?_
    · rw [hy]
    · rw [ha0]
      have key : (skew ((quat2Rot x.q).transpose.mulVec (Spec.meanForce kb c x.ba d0 d1))).mulVec ((quat2Rot x.q).transpose.mulVec (sl δ 0)) =
          (quat2Rot x.q).transpose.mulVec ((skew (Spec.meanForce kb c x.ba d0 d1)).mulVec (sl δ 0)) := by
        have hR := (quat2Rot_isRot hq).transpose
        rw [← rot_skew hR, Matrix.mulVec_mulVec, Matrix.mul_assoc _ _ (quat2Rot x.q).transpose, hR.orth, Matrix.mul_one, Matrix.mulVec_mulVec]
      rw [key]
      simp only [Matrix.mulVec_neg, R]
      module
  · exact (HasDv.line x.bg (sl δ 9)).congr_fun fun e => by rw [hy]
  · exact (HasDv.line x.ba (sl δ 12)).congr_fun fun e => by rw [hy]
  · rw [h1]; exact hE.mul (quat2Rot_isRot hq)

/-- **C93** (covariance, partial) The covariance after a step is `F P Fᵀ + Q` with `Q` positive semi-definite, and if the IMU needs no intrinsic
correction then `F` is the Jacobian of the prediction. Missing: other intrinsics, for which it is not, see `C93_intrinsics_ignored`. -/
theorem C93_step_covariance_partial (kb : Bool) (N : Noise) (c : Cal) (x : Imu16) (hq : IsUnitQ x.q) (hqw : IsUnitQ c.qw) (hqa : IsUnitQ c.qa)
    (d0 d1 : Reading) (hdt : d0.t < d1.t) (hw : 1e-6 ≤ (d1.t - d0.t) * norm3 (Spec.meanRate kb c x.bg x.ba d0 d1))
    (hc : quat2Rot c.qw * Dm kb c.dw = 1 ∧ quat2Rot c.qa * Dm kb c.da = 1 ∧ Tm c.tg = 0) :
    ∃ F Q : Mat, Mat.Sym 15 Q ∧ Mat.PSD 15 Q ∧
      (∀ P i j, (fastStep kb N c x P d0 d1).2 i j = (∑ a ∈ Finset.range 15, ∑ b ∈ Finset.range 15, F i a * P a b * F j b) + Q i j) ∧
      ∀ P δ, Spec.IsJac 15 F δ (fun e => (fastStep kb N c (Spec.perturbImu x fun i => e * δ i) P d0 d1).1) (fastStep kb N c x P d0 d1).1 := by
  have hd := qcFast_diag N (d1.t - d0.t)
  have hdt' : 0 < d1.t - d0.t := sub_pos.2 hdt
  refine ⟨assemble (fFast (quat2Rot x.q) (d1.t - d0.t) (Spec.meanRate kb c x.bg x.ba d0 d1) (Spec.meanForce kb c x.ba d0 d1)),
    noiseCov (assemble (gFast (quat2Rot x.q) (d1.t - d0.t) (Spec.meanRate kb c x.bg x.ba d0 d1))) (qcFast N (d1.t - d0.t)),
    noise_sym _ _ _, noise_psd 15 _ (sym_of_diag _ hd) (psd_diag _ hd (dF_nonneg N hdt'.le)), fun P i j => ?_, fun P δ => ?_⟩
  · simp only [fastStep, fast_w, fast_a, Mat.mul, Mat.tr]
    congr 1
    simp only [Finset.sum_mul]
    rw [Finset.sum_comm]
  · obtain ⟨h0, h3, h6, h9, h12, -⟩ := fast_deriv kb N c x hq hqw hqa P d0 d1 hdt hw δ
    obtain ⟨e0, e3, e6, e9, e12⟩ := fFast_rows (quat2Rot x.q) (d1.t - d0.t) (Spec.meanRate kb c x.bg x.ba d0 d1) (Spec.meanForce kb c x.ba d0 d1) δ
    simp only [rowV] at e0 e3 e6 e9 e12
    obtain ⟨c1, c2, c3⟩ := hc
    simp only [c1, c2, c3, Matrix.one_mulVec, Matrix.zero_mulVec, zero_sub] at h0 h3 h6
    refine ⟨?_, ?_, ?_, ?_, ?_⟩
    · rw [e0]
      refine HasDm.congr' h0 ?_
      congr 3
      simp only [Matrix.mulVec_neg]; module
    · rw [e3]; exact h3
    · rw [e6]; exact h6
    · rw [e9]; exact h9
    · rw [e12]; exact h12

/-- an IMU without intrinsic correction, turning at 2 rad/s about z. -/
noncomputable def exId : Cal := { exCal with dw := exCal.da, tg := fun _ => 0 }
/-- the same with an accelerometer whose readings have to be doubled. -/
noncomputable def exAcc : Cal := { exId with da := exCal.dw }

theorem exId_tg : Tm exId.tg = 0 := by apply m3_ext <;> simp [Tm, exId]
theorem exId_rate (x : Cal) (h : x = exId ∨ x = exAcc) : Spec.meanRate true x 0 0 (exR 0) (exR 1) = ![0, 0, 2] := by
  have : ∀ r, Spec.rate true x 0 0 (exR r) = ![0, 0, 2] := by
    intro r
    rcases h with rfl | rfl
    · show (quat2Rot ⟨0, 0, 0, 1⟩).mulVec ((Dm true exCal.da).mulVec (![0, 0, 2] - 0 - (Tm exId.tg).mulVec _)) = _
      rw [exCal_rot, exCal_da, exId_tg]; simp
    · show (quat2Rot ⟨0, 0, 0, 1⟩).mulVec ((Dm true exCal.da).mulVec (![0, 0, 2] - 0 - (Tm exId.tg).mulVec _)) = _
      rw [exCal_rot, exCal_da, exId_tg]; simp
  simp only [Spec.meanRate, this]
  apply v3_ext <;> norm_num [vec2]

/-- non-vacuity of `C93_step_mean` and `C93_step_covariance_partial`. -/
example : IsUnitQ exX.q ∧ IsUnitQ exId.qw ∧ IsUnitQ exId.qa ∧ (exR 0).t < (exR 1).t ∧
    1e-6 ≤ ((exR 1).t - (exR 0).t) * norm3 (Spec.meanRate true exId exX.bg exX.ba (exR 0) (exR 1)) ∧
    quat2Rot exId.qw * Dm true exId.dw = 1 ∧ quat2Rot exId.qa * Dm true exId.da = 1 ∧ Tm exId.tg = 0 := by
  refine ⟨exCal_q, exCal_q, exCal_q, by norm_num [exR], ?_, ?_, ?_, exId_tg⟩
  · show 1e-6 ≤ _ * norm3 (Spec.meanRate true exId 0 0 (exR 0) (exR 1))
    rw [exId_rate _ (.inl rfl), ex_norm]; norm_num [exR]
  · show quat2Rot ⟨0, 0, 0, 1⟩ * Dm true exCal.da = 1
    rw [exCal_rot, exCal_da, one_mul]
  · show quat2Rot ⟨0, 0, 0, 1⟩ * Dm true exCal.da = 1
    rw [exCal_rot, exCal_da, one_mul]

/-- unit change of the accelerometer bias about z. -/
def exB : ℕ → ℝ := fun i => if i = 14 then 1 else 0

/-- **C93** (finding) The covariance step ignores the IMU intrinsics although the mean step uses them: with an accelerometer scale of two the
matrix used for the covariance says that a unit accelerometer bias lowers the velocity after one second by one, but the prediction changes by
two. -/
theorem C93_intrinsics_ignored (N : Noise) (P : Mat) :
    let F := assemble (fFast (quat2Rot exX.q) 1 (Spec.meanRate true exAcc 0 0 (exR 0) (exR 1)) (Spec.meanForce true exAcc 0 (exR 0) (exR 1)))
    (∀ P i j, (fastStep true N exAcc exX P (exR 0) (exR 1)).2 i j =
      (∑ a ∈ Finset.range 15, ∑ b ∈ Finset.range 15, F i a * P a b * F j b) + (fastStep true N exAcc exX (fun _ _ => 0) (exR 0) (exR 1)).2 i j) ∧
    Mat.mulVec 15 F exB 8 = -1 ∧
    HasDerivAt (fun e => (fastStep true N exAcc (Spec.perturbImu exX fun i => e * exB i) P (exR 0) (exR 1)).1.v 2) (-2) 0 := by
  intro F
  have hdt : (exR 1).t - (exR 0).t = 1 := by norm_num [exR]
  have hs9 : sl exB 12 = ![0, 0, 1] := by ext i; fin_cases i <;> simp [sl, exB]
  have hs0 : sl exB 0 = 0 := by ext i; fin_cases i <;> simp [sl, exB]
  have hs6 : sl exB 6 = 0 := by ext i; fin_cases i <;> simp [sl, exB]
  have hR : quat2Rot exX.q = 1 := exCal_rot
  refine ⟨fun P i j => ?_, ?_, ?_⟩
  · simp only [fastStep, fast_w, fast_a, Mat.mul, Mat.tr, hdt]
    show _ = _ + _
    simp only [mul_zero, zero_mul, Finset.sum_const_zero, zero_add]
    congr 1
    simp only [Finset.sum_mul]
    rw [Finset.sum_comm]
    rfl
  · obtain ⟨-, -, e6, -⟩ := fFast_rows (quat2Rot exX.q) 1 (Spec.meanRate true exAcc 0 0 (exR 0) (exR 1)) (Spec.meanForce true exAcc 0 (exR 0) (exR 1)) exB
    have := congrFun e6 2
    rw [hs9, hs0, hs6, hR] at this
    simp only [Matrix.transpose_one, Matrix.one_mulVec, Matrix.mulVec_zero] at this
    have h2 : rowV 15 F exB 6 2 = Mat.mulVec 15 F exB 8 := rfl
    rw [← h2]
    simp only [F, hR]
    rw [this]
    simp
  · obtain ⟨-, -, h6, -⟩ := fast_deriv true N exAcc exX exCal_q exCal_q exCal_q P (exR 0) (exR 1) (by norm_num [exR])
      (by show 1e-6 ≤ _ * norm3 (Spec.meanRate true exAcc 0 0 (exR 0) (exR 1)); rw [exId_rate _ (.inr rfl), ex_norm]; norm_num [exR]) exB
    have := h6 2
    have hA : quat2Rot exAcc.qa * Dm true exAcc.da = (2 : ℝ) • (1 : M3) := by
      show quat2Rot ⟨0, 0, 0, 1⟩ * Dm true exCal.dw = _
      rw [exCal_rot, exCal_dw, one_mul]
    rw [hs9, hs0, hs6, hR, hdt, hA] at this
    simp only [Matrix.transpose_one, Matrix.one_mulVec, Matrix.mulVec_zero, Matrix.smul_mulVec] at this
    refine this.congr_deriv ?_
    simp

/-! ## What is reported -/

theorem selLoop_same (T : ℝ) : ∀ (l : List Reading) (prev : Option Reading) (acc : List Reading), Spec.Sorted l → (∀ r ∈ acc, r.t = T) →
    ∀ r ∈ selLoop T T prev l acc, r.t = T
  | [], prev, acc, _, ha => by simp only [selLoop]; exact ha
  | [a], prev, acc, _, ha => by simp only [selLoop]; exact ha
  | a :: b :: rest, prev, acc, hs, ha => by
    have hab : a.t < b.t := (List.pairwise_cons.1 hs).1 b (by simp)
    have ht := (List.pairwise_cons.1 hs).2
    have add : ∀ {acc : List Reading} {x : Reading}, (∀ r ∈ acc, r.t = T) → x.t = T → ∀ r ∈ acc ++ [x], r.t = T := by
      intro acc x h hx r hr
      rcases List.mem_append.1 hr with hr | hr
      · exact h r hr
      · rw [List.mem_singleton.1 hr]; exact hx
    have hend : ∀ acc, (∀ r ∈ acc, r.t = T) → ∀ r ∈ endAt a b T acc, r.t = T := by
      intro acc h
      unfold endAt
      split_ifs
      · exact h
      · exact add h rfl
    rw [selLoop_cons]
    split_ifs with h1 h2 h3 h4
    · exact selLoop_same T _ _ _ ht (add ha rfl)
    · exact absurd hab (by linarith [h2.1, h2.2])
    · cases prev with
      | none => exact ha
      | some z => exact hend _ (add ha rfl)
    · refine hend _ (add ha ?_)
      have : ¬ a.t < T := fun h => h1 ⟨h3, h⟩
      linarith
    · exact selLoop_same T _ _ _ ht ha

theorem dropZero_same (T : ℝ) : ∀ l : List Reading, (∀ r ∈ l, r.t = T) → (dropZero l).length < 2
  | [], _ => by simp [dropZero]
  | [a], _ => by simp [dropZero]
  | a :: b :: rest, h => by
    rw [dropZero, if_pos (by rw [h a (by simp), h b (by simp)]; norm_num)]
    exact dropZero_same T (b :: rest) fun r hr => h r (List.mem_cons_of_mem _ hr)

theorem select_same (buf : List Reading) (hs : Spec.Sorted buf) (T : ℝ) : (select buf T T).length < 2 := by
  have h := selLoop_same T buf none [] hs (by simp)
  unfold select
  simp only
  split_ifs with hn
  · simp
  · refine dropZero_same T _ fun r hr => h r ?_
    obtain ⟨y, hy⟩ : ∃ y, (selLoop T T none buf []).getLast? = some y := by
      rw [List.getLast?_eq_some_getLast hn]; exact ⟨_, rfl⟩
    have : stretch buf T (selLoop T T none buf []) = selLoop T T none buf [] := by
      unfold stretch
      rw [if_pos]
      rw [hy]
      simp only [Option.map_some, Option.some.injEq]
      exact h y (List.mem_of_getLast? hy)
    rwa [this] at hr

/-- **C93** (success) A query for the time the prediction has already reached reports failure and leaves the prediction alone. -/
theorem C93_same_time_fails {N : Noise} {buf : List Reading} {ca : Option Cache} {s : State} {k ca' : Cache} {out : Option FastOut}
    (hs : Spec.Sorted buf) (hk : ca.or (initCache s) = some k) (h : fastPropagate N buf ca s k.time = some (ca', out)) :
    ca' = k ∧ out = none := by
  unfold fastPropagate at h
  rw [Option.bind_eq_bind, Option.bind_eq_some_iff] at h
  obtain ⟨c, hc, h⟩ := h
  rw [hk, Option.bind_eq_bind, Option.bind_some] at h
  simp only [if_pos (select_same buf hs _), Option.pure_def, Option.some.injEq, Prod.mk.injEq] at h
  exact ⟨h.1.symm, h.2.symm⟩

theorem fastOut_cov (kb : Bool) (N : Noise) (c : Cal) (pre : List Reading) (y z : Reading) (x : Imu16) (P : Mat) :
    let cov := (fastOut kb N c (pre ++ [y, z]) x P).cov
    (∀ i j, i < 6 → j < 6 → cov i j = P i j) ∧
      (∀ i, i < 6 → ∀ j : Fin 3, cov i (6 + j) = ∑ b : Fin 3, P i (6 + b) * quat2Rot x.q j b) ∧
      (∀ j, j < 6 → ∀ i : Fin 3, cov (6 + i) j = ∑ a : Fin 3, quat2Rot x.q i a * P (6 + a) j) ∧
      (∀ i j : Fin 3, cov (6 + i) (6 + j) = ∑ a : Fin 3, ∑ b : Fin 3, quat2Rot x.q i a * P (6 + a) (6 + b) * quat2Rot x.q j b) ∧
      (∀ i j, i < 9 → 9 ≤ j → j < 12 → cov i j = 0 ∧ cov j i = 0) ∧
      ∀ i j, i < 3 → j < 3 → cov (9 + i) (9 + j) = if i = j then N.sw ^ 2 / (z.t - y.t) else 0 := by
  intro cov
  set R := quat2Rot x.q with hR
  have hrev : (pre ++ [y, z]).reverse = z :: y :: pre.reverse := by simp
  have hcov : cov =
      Mat.setBlock 9 9 3 3 (Mat.extM ((N.sw ^ 2 / (z.t - y.t)) • (1 : M3)))
        (Mat.setBlock 0 0 9 9 (Mat.mul 15 (Mat.mul 15 (Mat.setBlock 6 6 3 3 (Mat.extM R) Mat.one) P) (Mat.tr (Mat.setBlock 6 6 3 3 (Mat.extM R) Mat.one)))
          fun _ _ => 0) := by
    simp only [cov, fastOut, hrev, hR]
  rw [hcov]
  have phi : ∀ (i : ℕ) (f : ℕ → ℝ), i < 6 → ∑ a ∈ Finset.range 15, Mat.setBlock 6 6 3 3 (Mat.extM R) Mat.one i a * f a = f i := by
    intro i f hi
    rw [Finset.sum_eq_single i]
    · simp [Mat.setBlock, Mat.one, show ¬ 6 ≤ i by omega]
    · intro b _ hb
      simp [Mat.setBlock, Mat.one, show ¬ 6 ≤ i by omega, Ne.symm hb]
    · intro hn; exact absurd (Finset.mem_range.2 (by omega)) hn
  have phi6 : ∀ (i : Fin 3) (f : ℕ → ℝ), ∑ a ∈ Finset.range 15, Mat.setBlock 6 6 3 3 (Mat.extM R) Mat.one (6 + i) a * f a = ∑ a : Fin 3, R i a * f (6 + a) := by
    intro i f
    simp only [Finset.sum_range_succ, Finset.sum_range_zero, Fin.sum_univ_three]
    fin_cases i <;> simp [Mat.setBlock, Mat.one, Mat.extM]
  have prod : ∀ i j, Mat.mul 15 (Mat.mul 15 (Mat.setBlock 6 6 3 3 (Mat.extM R) Mat.one) P) (Mat.tr (Mat.setBlock 6 6 3 3 (Mat.extM R) Mat.one)) i j =
      ∑ b ∈ Finset.range 15, Mat.setBlock 6 6 3 3 (Mat.extM R) Mat.one j b * ∑ a ∈ Finset.range 15, Mat.setBlock 6 6 3 3 (Mat.extM R) Mat.one i a * P a b := by
    intro i j
    simp only [Mat.mul, Mat.tr]
    exact Finset.sum_congr rfl fun b _ => mul_comm _ _
  have inner : ∀ i j, i < 9 → j < 9 → Mat.setBlock 9 9 3 3 (Mat.extM ((N.sw ^ 2 / (z.t - y.t)) • (1 : M3)))
        (Mat.setBlock 0 0 9 9 (Mat.mul 15 (Mat.mul 15 (Mat.setBlock 6 6 3 3 (Mat.extM R) Mat.one) P) (Mat.tr (Mat.setBlock 6 6 3 3 (Mat.extM R) Mat.one)))
          fun _ _ => 0) i j = ∑ b ∈ Finset.range 15, Mat.setBlock 6 6 3 3 (Mat.extM R) Mat.one j b * ∑ a ∈ Finset.range 15, Mat.setBlock 6 6 3 3 (Mat.extM R) Mat.one i a * P a b := by
    intro i j hi hj
    rw [← prod]
    conv_lhs => rw [Mat.setBlock, if_neg (by omega), Mat.setBlock, if_pos (by omega)]
    simp
  refine ⟨fun i j hi hj => ?_, fun i hi j => ?_, fun j hj i => ?_, fun i j => ?_, fun i j hi hj hj' => ?_, fun i j hi hj => ?_⟩
  · rw [inner i j (by omega) (by omega), phi j _ hj, phi i _ hi]
  · rw [inner i _ (by omega) (by omega), phi6 j]
    exact Finset.sum_congr rfl fun b _ => by rw [phi i _ hi, mul_comm]
  · rw [inner _ j (by omega) (by omega), phi j _ hj, phi6 i]
  · rw [inner _ _ (by omega) (by omega), phi6 j, Finset.sum_comm]
    refine Finset.sum_congr rfl fun b _ => ?_
    rw [phi6 i, Finset.mul_sum]
    exact Finset.sum_congr rfl fun a _ => by ring
  · constructor <;> simp only [Mat.setBlock] <;> rw [if_neg (by omega), if_neg (by omega)]
  · simp only [Mat.setBlock]
    rw [if_pos (by omega)]
    simp only [Nat.add_sub_cancel_left, Mat.extM, dif_pos (And.intro hi hj), Matrix.smul_apply, Matrix.one_apply, Fin.mk.injEq, smul_eq_mul, mul_ite, mul_one, mul_zero]

/-- **C93** (success) If a query reports success, the selection has at least two readings; the report is the prediction over all its intervals
starting from the cached estimate, the velocity is given in the IMU frame, and the reported covariance of (orientation, position, local velocity,
angular rate) is the predicted covariance with the velocity error rotated into the IMU frame, and an uncorrelated angular rate with the noise of
a sample over the last interval. -/
theorem C93_report {N : Noise} {buf : List Reading} {ca : Option Cache} {s : State} {k ca' : Cache} {t : ℝ} {out : FastOut}
    (hk : ca.or (initCache s) = some k) (h : fastPropagate N buf ca s t = some (ca', some out)) :
    ∃ c pre y z, calOf s = some c ∧ select buf (k.time + k.toff) (t + k.toff) = pre ++ [y, z] ∧
      (ca'.x, ca'.P) = fastLoop s.opts.kalibr N c (pre ++ [y, z]) k.x k.P ∧
      out.q = ca'.x.q ∧ out.p = ca'.x.p ∧ out.vI = (quat2Rot ca'.x.q).mulVec ca'.x.v ∧
      (∀ i j, i < 6 → j < 6 → out.cov i j = ca'.P i j) ∧
      (∀ i, i < 6 → ∀ j : Fin 3, out.cov i (6 + j) = ∑ b : Fin 3, ca'.P i (6 + b) * quat2Rot ca'.x.q j b) ∧
      (∀ j, j < 6 → ∀ i : Fin 3, out.cov (6 + i) j = ∑ a : Fin 3, quat2Rot ca'.x.q i a * ca'.P (6 + a) j) ∧
      (∀ i j : Fin 3, out.cov (6 + i) (6 + j) = ∑ a : Fin 3, ∑ b : Fin 3, quat2Rot ca'.x.q i a * ca'.P (6 + a) (6 + b) * quat2Rot ca'.x.q j b) ∧
      (∀ i j, i < 9 → 9 ≤ j → j < 12 → out.cov i j = 0 ∧ out.cov j i = 0) ∧
      ∀ i j, i < 3 → j < 3 → out.cov (9 + i) (9 + j) = if i = j then N.sw ^ 2 / (z.t - y.t) else 0 := by
  unfold fastPropagate at h
  rw [Option.bind_eq_bind, Option.bind_eq_some_iff] at h
  obtain ⟨c, hc, h⟩ := h
  rw [hk, Option.bind_eq_bind, Option.bind_some] at h
  simp only at h
  split_ifs at h with hl
  · simp at h
  simp only [Option.pure_def, Option.some.injEq, Prod.mk.injEq] at h
  obtain ⟨rfl, rfl⟩ := h
  obtain ⟨pre, y, z, hd⟩ : ∃ pre y z, select buf (k.time + k.toff) (t + k.toff) = pre ++ [y, z] := by
    generalize select buf (k.time + k.toff) (t + k.toff) = d at hl
    rcases List.eq_nil_or_concat d with rfl | ⟨d, z, rfl⟩
    · simp at hl
    rcases List.eq_nil_or_concat d with rfl | ⟨d, y, rfl⟩
    · simp at hl
    exact ⟨d, y, z, by simp⟩
  refine ⟨c, pre, y, z, hc, hd, by rw [← hd], rfl, rfl, rfl, ?_⟩
  simp only [hd]
  exact fastOut_cov _ _ _ _ _ _ _ _

/-- the local velocity depends on the orientation error too. -/
theorem local_velocity_deriv (x : Imu16) (hq : IsUnitQ x.q) (δ : ℕ → ℝ) :
    HasDv (fun e => (quat2Rot (Spec.perturbImu x fun i => e * δ i).q).mulVec (Spec.perturbImu x fun i => e * δ i).v)
      ((quat2Rot x.q).mulVec (sl δ 6) + (skew ((quat2Rot x.q).mulVec x.v)).mulVec (sl δ 0)) := by
  have h := HasDm.mulVec (quat_deriv hq (sl δ 0)) (HasDv.line x.v (sl δ 6))
  refine (h.congr_fun fun e => ?_).congr' ?_
  · simp only [perturb_eq]
  · rw [quat_deriv0 hq, zero_smul, add_zero, ← Matrix.mulVec_mulVec, Matrix.neg_mulVec, skew_anti (sl δ 0), neg_neg, add_comm]

/-- a body moving along its x axis at 1 m/s. -/
def exMove : Imu16 := ⟨⟨0, 0, 0, 1⟩, 0, ![1, 0, 0], 0, 0⟩
/-- unit orientation error about z. -/
def exYaw : ℕ → ℝ := fun i => if i = 2 then 1 else 0

/-- **C93** (finding) The covariance of the local velocity leaves out the orientation error: if only the yaw of a moving body is uncertain (with
variance one), the lateral component of its local velocity changes at unit rate with the yaw, but its reported variance is zero, and so is its
reported covariance with the yaw. -/
theorem C93_local_velocity_ignores_orientation (kb : Bool) (N : Noise) (c : Cal) (pre : List Reading) (y z : Reading) :
    let P : Mat := fun i j => exYaw i * exYaw j
    let out := fastOut kb N c (pre ++ [y, z]) exMove P
    Mat.Sym 15 P ∧ Mat.PSD 15 P ∧ out.vI = ![1, 0, 0] ∧
    HasDerivAt (fun e => (quat2Rot (Spec.perturbImu exMove fun i => e * exYaw i).q).mulVec (Spec.perturbImu exMove fun i => e * exYaw i).v 1) (-1) 0 ∧
    out.cov 2 2 = 1 ∧ out.cov 7 7 = 0 ∧ out.cov 2 7 = 0 := by
  intro P out
  have hR : quat2Rot exMove.q = 1 := exCal_rot
  have hs0 : sl exYaw 0 = ![0, 0, 1] := by ext i; fin_cases i <;> simp [sl, exYaw]
  have hs6 : sl exYaw 6 = 0 := by ext i; fin_cases i <;> simp [sl, exYaw]
  obtain ⟨c1, c2, -, c4, -⟩ := fastOut_cov kb N c pre y z exMove P
  refine ⟨fun i j _ _ => mul_comm _ _, ?_, ?_, ?_, ?_, ?_, ?_⟩
  · intro v
    have : Mat.quad 15 P v = (∑ i ∈ Finset.range 15, v i * exYaw i) * (∑ j ∈ Finset.range 15, v j * exYaw j) := by
      rw [Finset.sum_mul_sum]
      exact Finset.sum_congr rfl fun i _ => Finset.sum_congr rfl fun j _ => by simp only [P]; ring
    rw [this]
    exact mul_self_nonneg _
  · show (quat2Rot exMove.q).mulVec _ = _
    rw [hR, Matrix.one_mulVec]; rfl
  · have := local_velocity_deriv exMove exCal_q exYaw 1
    refine this.congr_deriv ?_
    rw [hR, hs0, hs6, Matrix.one_mulVec, Matrix.one_mulVec]
    simp [m3_mulVec_apply, skew10, skew11, skew12, exMove]
  · rw [c1 2 2 (by norm_num) (by norm_num)]; simp [P, exYaw]
  · have := c4 1 1
    rw [show out.cov 7 7 = out.cov (6 + (1 : Fin 3)) (6 + (1 : Fin 3)) from rfl, this]
    simp [P, exYaw, Fin.sum_univ_three]
  · have := c2 2 (by norm_num) 1
    rw [show out.cov 2 7 = out.cov 2 (6 + (1 : Fin 3)) from rfl, this]
    simp [P, exYaw, Fin.sum_univ_three]

/-- **C93** (finding) A query for a time before the one already reached is answered, with success and a negative variance: for the state
`exS` (time zero, offset one second) and readings at IMU times `0` and `10`, the query for `-1/2` reports an angular rate of variance
`-2 σ_w²`. -/
theorem C93_backward_query (lib : Lib) (N : Noise) : Spec.Reach lib exS ∧ exS.ts = 0 ∧
    ∃ ca out, fastPropagate N [exG 0, exG 10] none exS (-1 / 2) = some (ca, some out) ∧ out.cov 9 9 = -(2 * N.sw ^ 2) := by
  obtain ⟨k, hk⟩ := exS_init
  obtain ⟨off, x, f, i1, i2, i3, i4, i5⟩ := init_some hk
  obtain rfl := Option.some.inj (i1.symm.trans exS_off)
  have hts : exS.ts = 0 := rfl
  have hsel : select [exG 0, exG 10] (k.time + k.toff) (-1 / 2 + k.toff) = [] ++ [interp (exG 0) (exG 10) 1, interp (exG 0) (exG 10) (1 / 2)] := by
    rw [i3, i4, hts, show (0:ℝ) + 1 = 1 by norm_num, show (-1 / 2 + 1 : ℝ) = 1 / 2 by norm_num]
    unfold select
    have h1 : selLoop 1 (1 / 2) none [exG 0, exG 10] [] = [interp (exG 0) (exG 10) 1] := by
      rw [selLoop_cons, if_pos (by norm_num [exG])]
      simp [selLoop]
    simp only [h1]
    rw [if_neg (by simp)]
    have h2 : stretch [exG 0, exG 10] (1 / 2) [interp (exG 0) (exG 10) 1] = [interp (exG 0) (exG 10) 1, interp (exG 0) (exG 10) (1 / 2)] := by
      unfold stretch
      rw [if_neg (by simp [interp])]
      rfl
    rw [h2]
    simp only [dropZero]
    rw [if_neg (by simp only [interp]; norm_num)]
    rfl
  have hq : ∃ ca out, fastPropagate N [exG 0, exG 10] none exS (-1 / 2) = some (ca, some out) := by
    unfold fastPropagate
    rw [exS_cal, Option.bind_eq_bind, Option.bind_some]
    simp only [Option.none_or, hk, Option.bind_eq_bind, Option.bind_some]
    rw [hsel, if_neg (by simp)]
    exact ⟨_, _, rfl⟩
  obtain ⟨ca, out, hq⟩ := hq
  refine ⟨exS_reach lib, hts, ca, out, hq, ?_⟩
  obtain ⟨c, pre, y, z, -, hs, -, -, -, -, -, -, -, -, -, c6⟩ := C93_report (k := k) (by simpa using hk) hq
  rw [hsel] at hs
  have hyz : [interp (exG 0) (exG 10) 1, interp (exG 0) (exG 10) (1 / 2)] = [y, z] := by
    have := List.append_inj_right' hs (by simp)
    exact this
  simp only [List.cons.injEq, and_true] at hyz
  obtain ⟨rfl, rfl⟩ := hyz
  refine (c6 0 0 (by norm_num) (by norm_num)).trans ?_
  simp only [if_true, interp]
  ring

end Verif.Prop_
