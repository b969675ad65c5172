import Verif.Vio.PropsRest
import Verif.Prop.Jac2
import Verif.Tri.Props

/-!
# The zero velocity update: its residual and Jacobian (C92)
-/

open Classical

namespace Verif.Vio

open Verif Verif.Types Verif.St Verif.Imu Verif.Prop_ Finset Matrix

namespace Spec

/-- the filter's own correction of the inertial state by `δ`, whose slices are orientation, gyroscope bias and accelerometer bias
(the variables and order of the zero velocity Jacobian); position and velocity are not touched. -/
noncomputable def perturb9 (x : Imu16) (δ : ℕ → ℝ) : Imu16 :=
  ⟨quatUpdate x.q (sl δ 0), x.p, x.v, x.bg + sl δ 3, x.ba + sl δ 6⟩

/-- the stacked Jacobian with orientation `Rj` is minus the derivative of the stacked residual, along every correction, in every row. -/
def IsResJac (kb : Bool) (N : Noise) (c : Cal) (x : Imu16) (data : List Reading) (Rj : M3) : Prop :=
  ∀ (δ : ℕ → ℝ) (r : ℕ), r < 6 * (data.length - 1) →
    HasDerivAt (fun e => zRes kb N c (perturb9 x fun i => e * δ i) data r) (-∑ j ∈ range 9, zH N Rj data r j * δ j) 0

end Spec

variable {kb : Bool} {N : Noise} {c : Cal} {x : Imu16} {data : List Reading}

theorem zH6_gyro (N : Noise) (R : M3) (dt : ℝ) (δ : ℕ → ℝ) (k : Fin 3) :
    ∑ j ∈ range 9, zH6 N R dt k j * δ j = -(wOmega N dt * sl δ 3 k) := by
  have := assemble_row (r0 := 0) (h := 3) (d := 9) δ (l := [blk 0 3 (-(wOmega N dt) • (1 : M3)), blk 3 0 (-(wAccel N dt) • skew (R.mulVec N.grav)),
    blk 3 6 (-(wAccel N dt) • (1 : M3))]) (rowP_of_ok rfl) k.2
  rw [zero_add] at this
  refine this.trans ?_
  simp (decide := true) only [rowSum_cons_in, rowSum_cons_out, rowSum_nil, slF_three, not_false_eq_true, Matrix.smul_mulVec, Matrix.one_mulVec, Pi.smul_apply, smul_eq_mul]
  ring

theorem zH6_acc (N : Noise) (R : M3) (dt : ℝ) (δ : ℕ → ℝ) (k : Fin 3) :
    ∑ j ∈ range 9, zH6 N R dt (3 + k) j * δ j = -(wAccel N dt * ((skew (R.mulVec N.grav)).mulVec (sl δ 0) k + sl δ 6 k)) := by
  have := assemble_row (r0 := 3) (h := 3) (d := 9) δ (l := [blk 0 3 (-(wOmega N dt) • (1 : M3)), blk 3 0 (-(wAccel N dt) • skew (R.mulVec N.grav)),
    blk 3 6 (-(wAccel N dt) • (1 : M3))]) (rowP_of_ok rfl) k.2
  refine this.trans ?_
  simp (decide := true) only [rowSum_cons_in, rowSum_cons_out, rowSum_nil, slF_three, not_false_eq_true, Matrix.smul_mulVec, Matrix.one_mulVec, Pi.smul_apply, smul_eq_mul]
  ring

theorem skew_swap (a b : V3) : (skew a).mulVec b = -(skew b).mulVec a := by
  ext i
  rw [Pi.neg_apply, m3_mulVec_apply, m3_mulVec_apply]
  fin_cases i <;> simp [skew] <;> ring

theorem res_gyro (hq : IsUnitQ x.q) (d : Reading) (dt : ℝ) (δ : ℕ → ℝ) (k : Fin 3) :
    HasDerivAt (fun e => zRes6 kb N c (Spec.perturb9 x fun i => e * δ i) d dt k)
      (wOmega N dt * (quat2Rot c.qw * Dm kb c.dw).mulVec (sl δ 3 - (Tm c.tg * (quat2Rot c.qa * Dm kb c.da)).mulVec (sl δ 6)) k) 0 := by
  have ha : HasDv (fun e => aHat kb c (Spec.perturb9 x fun i => e * δ i) d) (-(quat2Rot c.qa * Dm kb c.da).mulVec (sl δ 6)) := by
    have := ((HasDv.const d.am).sub (HasDv.line x.ba (sl δ 6))).mulc (quat2Rot c.qa * Dm kb c.da)
    refine (this.congr_fun fun e => ?_).congr' (by rw [zero_sub, Matrix.mulVec_neg])
    simp only [aHat, Spec.perturb9, sl_smul]
  have hw : HasDv (fun e => wHat kb c (Spec.perturb9 x fun i => e * δ i) d)
      ((quat2Rot c.qw * Dm kb c.dw).mulVec (0 - sl δ 3 - (Tm c.tg).mulVec (-(quat2Rot c.qa * Dm kb c.da).mulVec (sl δ 6)))) := by
    have := (((HasDv.const d.wm).sub (HasDv.line x.bg (sl δ 3))).sub (ha.mulc (Tm c.tg))).mulc (quat2Rot c.qw * Dm kb c.dw)
    refine this.congr_fun fun e => ?_
    simp only [wHat, Spec.perturb9, sl_smul]
  have := ((hw k).const_mul (wOmega N dt)).fun_neg
  refine (this.congr_of_eventuallyEq (Filter.Eventually.of_forall fun e => ?_)).congr_deriv ?_
  · simp only [zRes6, dif_pos k.2]
  · have e : ∀ (A T B : M3) (u v : V3), A.mulVec (0 - u - T.mulVec (-B.mulVec v)) = -A.mulVec (u - (T * B).mulVec v) := by
      intro A T B u v
      simp only [Matrix.mulVec_neg, Matrix.mulVec_sub, Matrix.mulVec_zero, Matrix.mulVec_mulVec]
      abel
    rw [e, Pi.neg_apply, mul_neg, neg_neg]

theorem res_acc (hq : IsUnitQ x.q) (d : Reading) (dt : ℝ) (δ : ℕ → ℝ) (k : Fin 3) :
    HasDerivAt (fun e => zRes6 kb N c (Spec.perturb9 x fun i => e * δ i) d dt (3 + k))
      (wAccel N dt * ((skew ((quat2Rot x.q).mulVec N.grav)).mulVec (sl δ 0) k + (quat2Rot c.qa * Dm kb c.da).mulVec (sl δ 6) k)) 0 := by
  have ha : HasDv (fun e => aHat kb c (Spec.perturb9 x fun i => e * δ i) d) (-(quat2Rot c.qa * Dm kb c.da).mulVec (sl δ 6)) := by
    have := ((HasDv.const d.am).sub (HasDv.line x.ba (sl δ 6))).mulc (quat2Rot c.qa * Dm kb c.da)
    refine (this.congr_fun fun e => ?_).congr' (by rw [zero_sub, Matrix.mulVec_neg])
    simp only [aHat, Spec.perturb9, sl_smul]
  have hr : HasDv (fun e => (quat2Rot (Spec.perturb9 x fun i => e * δ i).q).mulVec N.grav) ((skew ((quat2Rot x.q).mulVec N.grav)).mulVec (sl δ 0)) := by
    have := (quat_deriv hq (sl δ 0)).mulVec (HasDv.const N.grav)
    refine (this.congr_fun fun e => ?_).congr' ?_
    · simp only [Spec.perturb9, sl_smul]
    · rw [Matrix.mulVec_zero, add_zero, Matrix.neg_mul, Matrix.neg_mulVec, ← Matrix.mulVec_mulVec, skew_swap, neg_neg]
  have := (((ha.sub hr) k).const_mul (wAccel N dt)).fun_neg
  refine (this.congr_of_eventuallyEq (Filter.Eventually.of_forall fun e => ?_)).congr_deriv ?_
  · have h3 : ¬ (3 + (k:ℕ) < 3) := by omega
    simp only [zRes6, dif_neg h3, Nat.add_sub_cancel_left, dif_pos k.2]
  · simp only [Pi.sub_apply, Pi.neg_apply]; ring

theorem quat2Rot_id : quat2Rot idQuat = 1 := exCal_rot

theorem Dm_imuDefault : Dm true imuDefault = 1 := by
  ext i j; fin_cases i <;> fin_cases j <;> simp [Dm, imuDefault, vecOf]

theorem zip_get {i : ℕ} (h : i < data.length - 1) :
    ∃ d0 d1, (data.zip data.tail)[i]? = some (d0, d1) ∧ data[i]? = some d0 ∧ data[i+1]? = some d1 := by
  have h1 : i < data.length := by omega
  have h2 : i + 1 < data.length := by omega
  refine ⟨data[i], data[i+1], ?_, by simp [h1], by simp [h2]⟩
  rw [List.getElem?_zip_eq_some]
  simp [h1, h2]

/-- **C92** (Jacobian, exactly when).  For every unit orientation, every reading list with increasing times and positive noise, the stacked zero velocity
Jacobian evaluated at the current orientation is minus the derivative of the stacked zero velocity residual in orientation and
biases if and only if the effective inertial intrinsics are trivial: gyroscope and accelerometer correction matrices the identity and no gravity sensitivity. -/
theorem C92_jacobian_exact_iff (kb : Bool) (N : Noise) (hsw : 0 < N.sw) (hsa : 0 < N.sa) (c : Cal) (x : Imu16) (hq : IsUnitQ x.q)
    (data : List Reading) (hsp : Imu.Spec.Spaced data) (hl : 2 ≤ data.length) :
    Spec.IsResJac kb N c x data (quat2Rot x.q) ↔
      quat2Rot c.qw * Dm kb c.dw = 1 ∧ quat2Rot c.qa * Dm kb c.da = 1 ∧ Tm c.tg = 0 := by
  constructor
  · intro H
    obtain ⟨d0, d1, hz, h0, h1⟩ := zip_get (data := data) (i := 0) (by omega)
    have hdt : 0 < d1.t - d0.t := by
      match data, h0, h1, hsp with
      | a :: b :: l, h0, h1, hsp =>
        simp only [List.getElem?_cons_zero, List.getElem?_cons_succ, Option.some.injEq] at h0 h1
        subst h0 h1
        have := (List.isChain_cons_cons.1 hsp).1
        linarith
    have hwo : wOmega N (d1.t - d0.t) ≠ 0 := (div_pos (Real.sqrt_pos.2 hdt) hsw).ne'
    have hwa : wAccel N (d1.t - d0.t) ≠ 0 := (div_pos (Real.sqrt_pos.2 hdt) hsa).ne'
    have hg : ∀ (δ : ℕ → ℝ) (k : Fin 3), (quat2Rot c.qw * Dm kb c.dw).mulVec (sl δ 3 - (Tm c.tg * (quat2Rot c.qa * Dm kb c.da)).mulVec (sl δ 6)) k = sl δ 3 k := by
      intro δ k
      have hk : (k : ℕ) < 6 := by omega
      have h := H δ k (by omega)
      simp only [zRes, zH, Nat.div_eq_of_lt hk, Nat.mod_eq_of_lt hk, hz, zH6_gyro, neg_neg] at h
      exact mul_left_cancel₀ hwo ((res_gyro hq d0 _ δ k).unique h)
    have ha : ∀ (δ : ℕ → ℝ) (k : Fin 3), (quat2Rot c.qa * Dm kb c.da).mulVec (sl δ 6) k = sl δ 6 k := by
      intro δ k
      have hk : 3 + (k : ℕ) < 6 := by omega
      have h := H δ (3 + k) (by omega)
      simp only [zRes, zH, Nat.div_eq_of_lt hk, Nat.mod_eq_of_lt hk, hz, zH6_acc, neg_neg] at h
      have := mul_left_cancel₀ hwa ((res_acc hq d0 _ δ k).unique h)
      linarith
    have hA : quat2Rot c.qa * Dm kb c.da = 1 := by
      refine Matrix.mulVec_injective (funext fun v => funext fun k => ?_)
      have := ha (fun i => if h : i - 6 < 3 then v ⟨i - 6, h⟩ else 0) k
      have e : sl (fun i => if h : i - 6 < 3 then v ⟨i - 6, h⟩ else 0) 6 = v := by ext i; simp [sl]
      rw [e] at this
      rw [this, Matrix.one_mulVec]
    have hW : quat2Rot c.qw * Dm kb c.dw = 1 := by
      refine Matrix.mulVec_injective (funext fun v => funext fun k => ?_)
      have := hg (fun i => if h : i - 3 < 3 then v ⟨i - 3, h⟩ else 0) k
      have e : sl (fun i => if h : i - 3 < 3 then v ⟨i - 3, h⟩ else 0) 3 = v := by ext i; simp [sl]
      have e' : sl (fun i => if h : i - 3 < 3 then v ⟨i - 3, h⟩ else 0) 6 = 0 := by
        ext i; simp only [sl]; rw [dif_neg (by omega)]; rfl
      rw [e, e', Matrix.mulVec_zero, sub_zero] at this
      rw [this, Matrix.one_mulVec]
    refine ⟨hW, hA, Matrix.mulVec_injective (funext fun v => funext fun k => ?_)⟩
    have := hg (fun i => if h : i - 6 < 3 ∧ 6 ≤ i then v ⟨i - 6, h.1⟩ else 0) k
    have e : sl (fun i => if h : i - 6 < 3 ∧ 6 ≤ i then v ⟨i - 6, h.1⟩ else 0) 6 = v := by ext i; simp [sl]
    have e' : sl (fun i => if h : i - 6 < 3 ∧ 6 ≤ i then v ⟨i - 6, h.1⟩ else 0) 3 = 0 := by
      ext i; simp only [sl]; rw [dif_neg (by omega)]; rfl
    rw [e, e', hW, hA, Matrix.mul_one, Matrix.one_mulVec, zero_sub, Pi.neg_apply, Pi.zero_apply] at this
    rw [Matrix.zero_mulVec, Pi.zero_apply]
    linarith
  · rintro ⟨hW, hA, hT⟩ δ r hr
    obtain ⟨d0, d1, hz, -, -⟩ := zip_get (data := data) (i := r / 6) (by omega)
    have h6 : r % 6 < 6 := Nat.mod_lt _ (by norm_num)
    by_cases hk : r % 6 < 3
    · have := res_gyro (kb := kb) (N := N) (c := c) hq d0 (d1.t - d0.t) δ ⟨r % 6, hk⟩
      simp only [zRes, zH, hz]
      have e := zH6_gyro N (quat2Rot x.q) (d1.t - d0.t) δ ⟨r % 6, hk⟩
      simp only at e this
      rw [e]
      refine this.congr_deriv ?_
      rw [hW, hT, Matrix.zero_mul, Matrix.zero_mulVec, sub_zero, Matrix.one_mulVec, neg_neg]
    · have h3 : r % 6 - 3 < 3 := by omega
      have hr3 : 3 + (r % 6 - 3) = r % 6 := by omega
      have := res_acc (kb := kb) (N := N) (c := c) hq d0 (d1.t - d0.t) δ ⟨r % 6 - 3, h3⟩
      have e := zH6_acc N (quat2Rot x.q) (d1.t - d0.t) δ ⟨r % 6 - 3, h3⟩
      simp only [zRes, zH, hz]
      simp only [hr3] at e this
      rw [e]
      refine this.congr_deriv ?_
      rw [hA, Matrix.one_mulVec, neg_neg]

/-- **C92** (partial: exactness only at trivial intrinsics; see `C92_jacobian_exact_iff` and `C92_jacobian_wrong`).  With identity correction matrices and no gravity
sensitivity the Jacobian is the derivative of the measurement. -/
theorem C92_jacobian_partial (kb : Bool) (N : Noise) (c : Cal) (x : Imu16) (hq : IsUnitQ x.q) (hsw : 0 < N.sw) (hsa : 0 < N.sa)
    (data : List Reading) (hsp : Imu.Spec.Spaced data) (hl : 2 ≤ data.length)
    (hW : quat2Rot c.qw * Dm kb c.dw = 1) (hA : quat2Rot c.qa * Dm kb c.da = 1) (hT : Tm c.tg = 0) :
    Spec.IsResJac kb N c x data (quat2Rot x.q) :=
  (C92_jacobian_exact_iff kb N hsw hsa c x hq data hsp hl).2 ⟨hW, hA, hT⟩

/-- non-vacuity: the default intrinsics, two readings. -/
example (N : Noise) (hsw : 0 < N.sw) (hsa : 0 < N.sa) (x : Imu16) (hq : IsUnitQ x.q) :
    Spec.IsResJac true N ⟨imuDefault, imuDefault, fun _ => 0, idQuat, idQuat⟩ x [⟨0, ![1, 2, 3], ![4, 5, 6]⟩, ⟨1, ![1, 0, 0], ![0, 1, 0]⟩] (quat2Rot x.q) := by
  refine C92_jacobian_partial true N _ x hq hsw hsa _ ?_ (by simp) ?_ ?_ ?_
  · simp only [Imu.Spec.Spaced, List.isChain_cons_cons, List.isChain_singleton, and_true]; norm_num
  · simp only [quat2Rot_id, Dm_imuDefault, Matrix.mul_one]
  · simp only [quat2Rot_id, Dm_imuDefault, Matrix.mul_one]
  · ext i j; fin_cases i <;> fin_cases j <;> simp [Tm]

/-- **C92** (defect).  With a scale factor of two on the gyroscope the Jacobian is not the derivative, whatever the state and the readings. -/
theorem C92_jacobian_wrong (N : Noise) (hsw : 0 < N.sw) (hsa : 0 < N.sa) (x : Imu16) (hq : IsUnitQ x.q)
    (data : List Reading) (hsp : Imu.Spec.Spaced data) (hl : 2 ≤ data.length) :
    ¬ Spec.IsResJac true N ⟨fun i => 2 * imuDefault i, imuDefault, fun _ => 0, idQuat, idQuat⟩ x data (quat2Rot x.q) := by
  rw [C92_jacobian_exact_iff true N hsw hsa _ x hq data hsp hl]
  rintro ⟨h, -, -⟩
  have := congrFun (congrFun h 0) 0
  rw [quat2Rot_id, Matrix.one_mul] at this
  simp [Dm, imuDefault, vecOf] at this

/-- **C92** (residual).  Readings taken without noise on a platform with orientation, biases and intrinsics as estimated, rotating with rates `w i` and
accelerating with `a i` at the times `t i`: the squared length of the stacked residual is the sum over the intervals of the duration times the squared rate over the gyroscope noise density squared plus the
squared acceleration over the accelerometer noise density squared. -/
theorem C92_residual_energy (kb : Bool) (N : Noise) (c : Cal) (hw : (Dm kb c.dw).det ≠ 0) (ha : (Dm kb c.da).det ≠ 0) (hqw : IsUnitQ c.qw) (hqa : IsUnitQ c.qa)
    (x : Imu16) (hq : IsUnitQ x.q) (n : ℕ) (t : ℕ → ℝ) (ht : ∀ i, t i ≤ t (i + 1)) (w a : ℕ → V3) :
    ∑ r ∈ range (6 * n), zRes kb N c x ((List.range (n + 1)).map fun i => simReading kb c N.grav (t i) (quat2Rot x.q) (a i) (w i) x.bg x.ba) r ^ 2 =
      ∑ i ∈ range n, (t (i + 1) - t i) * ((∑ k, w i k ^ 2) / N.sw ^ 2 + (∑ k, a i k ^ 2) / N.sa ^ 2) := by
  set data := (List.range (n + 1)).map fun i => simReading kb c N.grav (t i) (quat2Rot x.q) (a i) (w i) x.bg x.ba with hd
  have hrow : ∀ i < n, (data.zip data.tail)[i]? = some (simReading kb c N.grav (t i) (quat2Rot x.q) (a i) (w i) x.bg x.ba,
      simReading kb c N.grav (t (i + 1)) (quat2Rot x.q) (a (i + 1)) (w (i + 1)) x.bg x.ba) := by
    intro i hi
    obtain ⟨d0, d1, h, h0, h1⟩ := zip_get (data := data) (i := i) (by simp [hd]; omega)
    rw [h]
    simp only [hd, List.getElem?_map] at h0 h1
    rw [List.getElem?_range (by omega)] at h0 h1
    simp only [Option.map_some, Option.some.injEq] at h0 h1
    rw [h0, h1]
  have hsum : ∀ (f : ℕ → ℝ), ∑ r ∈ range (6 * n), f r = ∑ i ∈ range n, ∑ k ∈ range 6, f (6 * i + k) := by
    intro f
    clear hrow hd
    clear_value data
    induction n with
    | zero => simp
    | succ n ih =>
      rw [Nat.mul_succ, Finset.sum_range_add, ih, Finset.sum_range_succ _ n]
  rw [hsum]
  refine Finset.sum_congr rfl fun i hi => ?_
  have hi' := Finset.mem_range.1 hi
  have hz : ∀ k < 6, zRes kb N c x data (6 * i + k) =
      zRes6 kb N c x (simReading kb c N.grav (t i) (quat2Rot x.q) (a i) (w i) x.bg x.ba) (t (i + 1) - t i) k := by
    intro k hk
    have e1 : (6 * i + k) / 6 = i := by omega
    have e2 : (6 * i + k) % 6 = k := by omega
    simp only [zRes, e1, e2, hrow i hi']
    rfl
  obtain ⟨p1, p2⟩ := sensor_inv kb c hw ha hqw hqa N.grav (t i) (quat2Rot x.q) (a i) (w i) x.bg x.ba
  have ea : aHat kb c x (simReading kb c N.grav (t i) (quat2Rot x.q) (a i) (w i) x.bg x.ba) = (quat2Rot x.q).mulVec (a i + N.grav) := p1
  have ew : wHat kb c x (simReading kb c N.grav (t i) (quat2Rot x.q) (a i) (w i) x.bg x.ba) = w i := by
    unfold wHat; rw [ea]; exact p2
  have hdt : 0 ≤ t (i + 1) - t i := sub_nonneg.2 (ht i)
  have hsq := Real.sq_sqrt hdt
  have hR : ∑ k, ((quat2Rot x.q).mulVec (a i)) k ^ 2 = ∑ k, a i k ^ 2 := by
    have := Tri.dot3_rot (quat2Rot_isRot hq) (a i) (a i)
    simp only [dot3, ← pow_two] at this
    simpa only [Fin.sum_univ_three] using this
  have e3 : ∀ k (h : k < 6), zRes kb N c x data (6 * i + k) ^ 2 = (t (i + 1) - t i) * (if h3 : k < 3 then w i ⟨k, h3⟩ ^ 2 / N.sw ^ 2
      else ((quat2Rot x.q).mulVec (a i)) ⟨k - 3, by omega⟩ ^ 2 / N.sa ^ 2) := by
    intro k hk
    rw [hz k hk, zRes6, ea, ew]
    by_cases h3 : k < 3
    · rw [dif_pos h3, dif_pos h3, wOmega, neg_sq, mul_pow, div_pow, hsq]; ring
    · rw [dif_neg h3, dif_neg h3, dif_pos (show k - 3 < 3 by omega), wAccel, neg_sq, mul_pow, div_pow, hsq, Matrix.mulVec_add, add_sub_cancel_right]; ring
  rw [← hR]
  simp only [Finset.sum_range_succ, Finset.sum_range_zero, Fin.sum_univ_three, zero_add]
  rw [e3 0 (by norm_num), e3 1 (by norm_num), e3 2 (by norm_num), e3 3 (by norm_num), e3 4 (by norm_num), e3 5 (by norm_num)]
  simp
  ring

/-- **C92** (residual).  On such readings the residual vanishes exactly when the platform neither rotates nor accelerates. -/
theorem C92_residual_zero_iff (kb : Bool) (N : Noise) (hsw : 0 < N.sw) (hsa : 0 < N.sa) (c : Cal) (hw : (Dm kb c.dw).det ≠ 0) (ha : (Dm kb c.da).det ≠ 0)
    (hqw : IsUnitQ c.qw) (hqa : IsUnitQ c.qa) (x : Imu16) (hq : IsUnitQ x.q) (n : ℕ) (t : ℕ → ℝ) (ht : ∀ i, t i < t (i + 1)) (w a : ℕ → V3) :
    (∀ r < 6 * n, zRes kb N c x ((List.range (n + 1)).map fun i => simReading kb c N.grav (t i) (quat2Rot x.q) (a i) (w i) x.bg x.ba) r = 0) ↔
      ∀ i < n, w i = 0 ∧ a i = 0 := by
  have h := C92_residual_energy kb N c hw ha hqw hqa x hq n t (fun i => (ht i).le) w a
  have hz : ∀ v : V3, 0 ≤ ∑ k, v k ^ 2 := fun v => Finset.sum_nonneg fun k _ => sq_nonneg _
  have hterm : ∀ i, 0 ≤ (∑ k, w i k ^ 2) / N.sw ^ 2 + (∑ k, a i k ^ 2) / N.sa ^ 2 := fun i =>
    add_nonneg (div_nonneg (hz _) (sq_nonneg _)) (div_nonneg (hz _) (sq_nonneg _))
  have h0 : ∀ v : V3, ∑ k, v k ^ 2 = 0 → v = 0 := by
    intro v hv
    funext k
    have := (Finset.sum_eq_zero_iff_of_nonneg fun k _ => sq_nonneg (v k)).1 hv k (Finset.mem_univ _)
    exact pow_eq_zero_iff (two_ne_zero) |>.1 this
  constructor
  · intro hr
    rw [Finset.sum_eq_zero fun r hr' => by rw [hr r (Finset.mem_range.1 hr')]; ring] at h
    have := (Finset.sum_eq_zero_iff_of_nonneg fun i _ => mul_nonneg (sub_nonneg.2 (ht i).le) (hterm i)).1 h.symm
    intro i hi
    have hi' := this i (Finset.mem_range.2 hi)
    rcases mul_eq_zero.1 hi' with h1 | h1
    · linarith [ht i]
    · have p1 := div_nonneg (hz (w i)) (sq_nonneg N.sw)
      have p2 := div_nonneg (hz (a i)) (sq_nonneg N.sa)
      have q1 : (∑ k, w i k ^ 2) / N.sw ^ 2 = 0 := by linarith
      have q2 : (∑ k, a i k ^ 2) / N.sa ^ 2 = 0 := by linarith
      exact ⟨h0 _ ((div_eq_zero_iff.1 q1).resolve_right (by positivity)), h0 _ ((div_eq_zero_iff.1 q2).resolve_right (by positivity))⟩
  · intro hm r hr
    rw [Finset.sum_eq_zero (s := range n) fun i hi => by
      obtain ⟨e1, e2⟩ := hm i (Finset.mem_range.1 hi)
      rw [e1, e2]; simp] at h
    have := (Finset.sum_eq_zero_iff_of_nonneg fun r _ => sq_nonneg _).1 h r (Finset.mem_range.2 hr)
    exact pow_eq_zero_iff (two_ne_zero) |>.1 this

/-- non-vacuity: default intrinsics, a platform turning about the vertical: the residual is not zero. -/
example (N : Noise) (hsw : 0 < N.sw) (hsa : 0 < N.sa) :
    ∃ r < 6 * 3, zRes true N ⟨imuDefault, imuDefault, fun _ => 0, idQuat, idQuat⟩ imu0 ((List.range (3 + 1)).map fun i : ℕ =>
      simReading true ⟨imuDefault, imuDefault, fun _ => 0, idQuat, idQuat⟩ N.grav (i : ℝ) (quat2Rot imu0.q) 0 ![0, 0, 1] imu0.bg imu0.ba) r ≠ 0 := by
  by_contra h
  push Not at h
  have hu : IsUnitQ idQuat := by simp [IsUnitQ, idQuat, Quat.normSq]
  have := (C92_residual_zero_iff true N hsw hsa ⟨imuDefault, imuDefault, fun _ => 0, idQuat, idQuat⟩ (by rw [Dm_imuDefault]; simp)
    (by rw [Dm_imuDefault]; simp) hu hu imu0 hu 3 (fun i => (i : ℝ)) (fun i => by push_cast; linarith) (fun _ => ![0, 0, 1]) (fun _ => 0)).1 h 0 (by norm_num)
  have := congrFun this.1 2
  simp at this

end Verif.Vio
