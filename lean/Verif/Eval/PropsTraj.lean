import Verif.Eval.Traj
import Verif.Eval.PropsD
import Verif.Quat.Deriv
import Verif.Types.Props
import Mathlib.Analysis.SpecialFunctions.Complex.LogDeriv

/-!
# C122: the errors of one trajectory by axis, and their bounds
-/

set_option autoImplicit false
set_option linter.unusedSimpArgs false
open Classical

namespace Verif.Eval

open Verif Verif.Ros

/-! ## Specification -/

namespace Spec

/-- the estimate `e` is off by `ε dθ`, `ε dp` to first order: the ground truth `g ε` is at `e` for `ε = 0` and moves away with these errors, by the convention of the filter (orientation error on the left, in the moving frame) -/
structure OffBy (e : Pose) (g : ℝ → Pose) (dθ dp : V3) : Prop where
  unit : ∀ ε, IsUnitQ (g ε).q
  rot : HasDm (fun ε => quat2Rot (g ε).q) (-(skew dθ) * quat2Rot e.q)
  rot0 : quat2Rot (g 0).q = quat2Rot e.q
  pos : HasDv (fun ε => (g ε).p) dp
  pos0 : (g 0).p = e.p

/-- the moving frame does not point straight up or down: the pitch is off a quarter turn (by 1e-12) -/
def NotVertical (R : M3) : Prop := R 2 0 ^ 2 < 1 - 1e-24

end Spec

/-! ## Angles -/

theorem atan2_cos (y x : ℝ) : Real.sqrt (x ^ 2 + y ^ 2) * Real.cos (Land.atan2 y x) = x := by
  have := Complex.norm_mul_cos_arg ⟨x, y⟩
  rwa [Complex.norm_def, Complex.normSq_mk, ← sq, ← sq] at this

theorem atan2_sin (y x : ℝ) : Real.sqrt (x ^ 2 + y ^ 2) * Real.sin (Land.atan2 y x) = y := by
  have := Complex.norm_mul_sin_arg ⟨x, y⟩
  rwa [Complex.norm_def, Complex.normSq_mk, ← sq, ← sq] at this

theorem atan2_div {c : ℝ} (hc : 0 < c) (y x : ℝ) : Land.atan2 (y / c) (x / c) = Land.atan2 y x := by
  unfold Land.atan2
  have := Complex.arg_real_mul ⟨x, y⟩ (inv_pos.2 hc)
  rw [← this]
  congr 1
  apply Complex.ext <;> simp <;> ring

/-- the length of the horizontal part of the first axis -/
noncomputable def hor (R : M3) : ℝ := Real.sqrt (R 0 0 * R 0 0 + R 1 0 * R 1 0)

theorem hor_sq {R : M3} (h : IsRot R) : hor R ^ 2 = 1 - R 2 0 ^ 2 := by
  unfold hor
  rw [Real.sq_sqrt (by nlinarith [sq_nonneg (R 0 0), sq_nonneg (R 1 0)])]
  have := h.rel.c00
  nlinarith

theorem hor_pos {R : M3} (h : IsRot R) (hv : Spec.NotVertical R) : 1e-12 < hor R := by
  have h1 := hor_sq h
  have h0 : 0 ≤ hor R := Real.sqrt_nonneg _
  unfold Spec.NotVertical at hv
  nlinarith

theorem pitch_trig {R : M3} (h : IsRot R) : Real.cos (Land.atan2 (-R 2 0) (hor R)) = hor R ∧ Real.sin (Land.atan2 (-R 2 0) (hor R)) = -R 2 0 := by
  have h1 := hor_sq h
  have e : Real.sqrt (hor R ^ 2 + (-R 2 0) ^ 2) = 1 := by rw [show hor R ^ 2 + (-R 2 0) ^ 2 = 1 by nlinarith]; exact Real.sqrt_one
  have hc := atan2_cos (-R 2 0) (hor R)
  have hs := atan2_sin (-R 2 0) (hor R)
  rw [e, one_mul] at hc hs
  exact ⟨hc, hs⟩

theorem rpy_eq {R : M3} (h : IsRot R) (hv : Spec.NotVertical R) : rot2rpy R = ![Land.atan2 (R 2 1) (R 2 2), Land.atan2 (-R 2 0) (hor R), Land.atan2 (R 1 0) (R 0 0)] := by
  have hp := hor_pos h hv
  have hp0 : 0 < hor R := lt_trans (by norm_num) hp
  have hc := (pitch_trig h).1
  unfold rot2rpy
  simp only
  rw [show Real.sqrt (R 0 0 * R 0 0 + R 1 0 * R 1 0) = hor R from rfl, hc, abs_of_pos hp0, if_pos hp, atan2_div hp0, atan2_div hp0]

theorem yaw_trig {R : M3} (hp : 0 < hor R) : Real.cos (Land.atan2 (R 1 0) (R 0 0)) = R 0 0 / hor R ∧ Real.sin (Land.atan2 (R 1 0) (R 0 0)) = R 1 0 / hor R := by
  have hc := atan2_cos (R 1 0) (R 0 0)
  have hs := atan2_sin (R 1 0) (R 0 0)
  rw [show Real.sqrt (R 0 0 ^ 2 + R 1 0 ^ 2) = hor R by unfold hor; rw [sq, sq]] at hc hs
  rw [eq_div_iff hp.ne', eq_div_iff hp.ne', mul_comm, hc, mul_comm, hs]
  exact ⟨rfl, rfl⟩

theorem roll_trig {R : M3} (h : IsRot R) (hp : 0 < hor R) : Real.cos (Land.atan2 (R 2 1) (R 2 2)) = R 2 2 / hor R ∧ Real.sin (Land.atan2 (R 2 1) (R 2 2)) = R 2 1 / hor R := by
  have hc := atan2_cos (R 2 1) (R 2 2)
  have hs := atan2_sin (R 2 1) (R 2 2)
  rw [show Real.sqrt (R 2 2 ^ 2 + R 2 1 ^ 2) = hor R by
    unfold hor; congr 1; have a := h.rel.c00; have b := h.rel.r22; nlinarith] at hc hs
  rw [eq_div_iff hp.ne', eq_div_iff hp.ne', mul_comm, hc, mul_comm, hs]
  exact ⟨rfl, rfl⟩

theorem atan2_range (y x : ℝ) : -Real.pi < Land.atan2 y x ∧ Land.atan2 y x ≤ Real.pi := Complex.arg_mem_Ioc _

theorem atan2_right {y x : ℝ} (hx : 0 ≤ x) : |Land.atan2 y x| ≤ Real.pi / 2 := Complex.abs_arg_le_pi_div_two_iff.2 hx

/-- **C122** (angles) The angles computed for a rotation that does not put the first axis within 1e-12 of the vertical are its roll, pitch and yaw: turning by them about x, then y, then z gives the rotation back; pitch within a quarter turn, the others within half a turn. -/
theorem C122_angles (R : M3) (h : IsRot R) (hv : Spec.NotVertical R) :
    R = rotZ (rot2rpy R 2) * rotY (rot2rpy R 1) * rotX (rot2rpy R 0) ∧ |rot2rpy R 1| ≤ Real.pi / 2 ∧
      (-Real.pi < rot2rpy R 0 ∧ rot2rpy R 0 ≤ Real.pi) ∧ (-Real.pi < rot2rpy R 2 ∧ rot2rpy R 2 ≤ Real.pi) := by
  have hp := hor_pos h hv
  have hp0 : 0 < hor R := lt_trans (by norm_num) hp
  have e := rpy_eq h hv
  have e0 : rot2rpy R 0 = Land.atan2 (R 2 1) (R 2 2) := congrFun e 0
  have e1 : rot2rpy R 1 = Land.atan2 (-R 2 0) (hor R) := congrFun e 1
  have e2 : rot2rpy R 2 = Land.atan2 (R 1 0) (R 0 0) := congrFun e 2
  rw [e0, e1, e2]
  refine ⟨?_, atan2_right hp0.le, atan2_range _ _, atan2_range _ _⟩
  obtain ⟨pc, ps⟩ := pitch_trig h
  obtain ⟨yc, ys⟩ := yaw_trig hp0
  obtain ⟨rc, rs⟩ := roll_trig h hp0
  have hs : hor R ^ 2 = R 0 0 * R 0 0 + R 1 0 * R 1 0 := Real.sq_sqrt (by nlinarith [sq_nonneg (R 0 0), sq_nonneg (R 1 0)])
  have hr := h.rel
  have k21 := hr.k21
  have k22 := hr.k22
  have c01 := hr.c01
  have c02 := hr.c02
  have hne := hp0.ne'
  have hne2 : hor R ^ 2 ≠ 0 := by positivity
  have d01 : R 0 1 = R 0 0 / hor R * -R 2 0 * (R 2 1 / hor R) - R 1 0 / hor R * (R 2 2 / hor R) := by
    rw [show R 0 0 / hor R * -R 2 0 * (R 2 1 / hor R) - R 1 0 / hor R * (R 2 2 / hor R) = (-R 0 0 * R 2 0 * R 2 1 - R 1 0 * R 2 2) / hor R ^ 2 by field_simp, eq_div_iff hne2, hs]
    linear_combination R 0 0 * c01 - R 1 0 * k22
  have d11 : R 1 1 = R 1 0 / hor R * -R 2 0 * (R 2 1 / hor R) + R 0 0 / hor R * (R 2 2 / hor R) := by
    rw [show R 1 0 / hor R * -R 2 0 * (R 2 1 / hor R) + R 0 0 / hor R * (R 2 2 / hor R) = (-R 1 0 * R 2 0 * R 2 1 + R 0 0 * R 2 2) / hor R ^ 2 by field_simp, eq_div_iff hne2, hs]
    linear_combination R 1 0 * c01 + R 0 0 * k22
  have d02 : R 0 2 = R 0 0 / hor R * -R 2 0 * (R 2 2 / hor R) + R 1 0 / hor R * (R 2 1 / hor R) := by
    rw [show R 0 0 / hor R * -R 2 0 * (R 2 2 / hor R) + R 1 0 / hor R * (R 2 1 / hor R) = (-R 0 0 * R 2 0 * R 2 2 + R 1 0 * R 2 1) / hor R ^ 2 by field_simp, eq_div_iff hne2, hs]
    linear_combination R 0 0 * c02 + R 1 0 * k21
  have d12 : R 1 2 = R 1 0 / hor R * -R 2 0 * (R 2 2 / hor R) - R 0 0 / hor R * (R 2 1 / hor R) := by
    rw [show R 1 0 / hor R * -R 2 0 * (R 2 2 / hor R) - R 0 0 / hor R * (R 2 1 / hor R) = (-R 1 0 * R 2 0 * R 2 2 - R 0 0 * R 2 1) / hor R ^ 2 by field_simp, eq_div_iff hne2, hs]
    linear_combination R 1 0 * c02 - R 0 0 * k21
  unfold rotZ rotY rotX
  rw [pc, ps, yc, ys, rc, rs]
  ext i j
  fin_cases i <;> fin_cases j <;> simp [Matrix.mul_apply, Fin.sum_univ_three] <;> first | (field_simp; done) | (rw [d01]; ring) | (rw [d02]; ring) | (rw [d11]; ring) | (rw [d12]; ring)

/-! ## Wrapping -/

theorem ceil_succ {a : ℝ} (h : 0 < a + 1) : ⌈a + 1⌉₊ = ⌈a⌉₊ + 1 := by
  rcases le_or_gt 0 a with h0 | h0
  · exact Nat.ceil_add_one h0
  · rw [Nat.ceil_eq_zero.2 h0.le, Nat.ceil_eq_iff (by norm_num)]
    simp
    constructor <;> linarith

/-- the definition is the loop -/
theorem wrapUp_loop (x : ℝ) : wrapUp x = if x < -Real.pi then wrapUp (x + 2 * Real.pi) else x := by
  have hπ := Real.pi_pos
  unfold wrapUp
  split_ifs with h
  · have e : (-Real.pi - x) / (2 * Real.pi) = (-Real.pi - (x + 2 * Real.pi)) / (2 * Real.pi) + 1 := by field_simp; ring
    have hpos : 0 < (-Real.pi - x) / (2 * Real.pi) := div_pos (by linarith) (by linarith)
    rw [e] at hpos ⊢
    rw [ceil_succ hpos]
    push_cast
    ring
  · rw [Nat.ceil_eq_zero.2 (div_nonpos_of_nonpos_of_nonneg (by linarith) (by linarith))]; simp

theorem wrapDown_eq (x : ℝ) : wrapDown x = -wrapUp (-x) := by
  unfold wrapDown wrapUp
  rw [show -Real.pi - -x = x - Real.pi by ring]
  ring

/-- the definition is the loop -/
theorem wrapDown_loop (x : ℝ) : wrapDown x = if Real.pi < x then wrapDown (x - 2 * Real.pi) else x := by
  rw [wrapDown_eq, wrapUp_loop, wrapDown_eq]
  by_cases h : Real.pi < x
  · rw [if_pos (by linarith), if_pos h]; congr 2; ring
  · rw [if_neg (by linarith), if_neg h]; ring

theorem wrapUp_spec (x : ℝ) : -Real.pi ≤ wrapUp x ∧ (-Real.pi ≤ x → wrapUp x = x) ∧ (x < -Real.pi → wrapUp x < Real.pi) ∧ ∃ k : ℤ, wrapUp x = x + 2 * Real.pi * k := by
  have hπ := Real.pi_pos
  unfold wrapUp
  have h1 := Nat.le_ceil ((-Real.pi - x) / (2 * Real.pi))
  rw [div_le_iff₀ (by linarith)] at h1
  refine ⟨by linarith, fun h => ?_, fun h => ?_, ⌈(-Real.pi - x) / (2 * Real.pi)⌉₊, by push_cast; ring⟩
  · rw [Nat.ceil_eq_zero.2 (div_nonpos_of_nonpos_of_nonneg (by linarith) (by linarith))]; simp
  · have h2 := Nat.ceil_lt_add_one (div_pos (show 0 < -Real.pi - x by linarith) (show 0 < 2 * Real.pi by linarith)).le
    have h3 := mul_lt_mul_of_pos_right h2 (show 0 < 2 * Real.pi by linarith)
    rw [add_mul, div_mul_cancel₀ _ (by positivity)] at h3
    linarith

/-- wrapped: within half a turn, and the same angle -/
theorem wrap_spec (x : ℝ) : |wrapDown (wrapUp x)| ≤ Real.pi ∧ ∃ k : ℤ, wrapDown (wrapUp x) = x + 2 * Real.pi * k := by
  obtain ⟨a1, a2, a3, k, a4⟩ := wrapUp_spec x
  obtain ⟨b1, b2, b3, l, b4⟩ := wrapUp_spec (-wrapUp x)
  rw [wrapDown_eq]
  refine ⟨?_, k - l, ?_⟩
  · rw [abs_neg, abs_le]
    refine ⟨b1, ?_⟩
    rcases lt_or_ge (-wrapUp x) (-Real.pi) with h | h
    · exact (b3 h).le
    · rw [b2 h]; linarith
  · rw [b4, a4]; push_cast; ring

theorem wrap_unique {x θ : ℝ} (h : |θ| < Real.pi) {m : ℤ} (hx : x = θ + 2 * Real.pi * m) : wrapDown (wrapUp x) = θ := by
  obtain ⟨h1, k, hk⟩ := wrap_spec x
  have hπ := Real.pi_pos
  rw [hk, hx] at h1 ⊢
  have hb : |2 * Real.pi * ((m + k : ℤ) : ℝ)| < 2 * Real.pi := by
    have := abs_sub (θ + 2 * Real.pi * m + 2 * Real.pi * k) θ
    rw [show θ + 2 * Real.pi * m + 2 * Real.pi * k - θ = 2 * Real.pi * ((m + k : ℤ) : ℝ) by push_cast; ring] at this
    linarith
  rw [abs_mul, abs_of_pos (by positivity), mul_lt_iff_lt_one_right (by positivity)] at hb
  have hz : m + k = 0 := by
    rw [← Int.cast_abs] at hb
    have : |m + k| < 1 := by exact_mod_cast hb
    exact Int.abs_lt_one_iff.1 this
  have : ((m : ℝ) + k) = 0 := by exact_mod_cast hz
  linear_combination 2 * Real.pi * this

/-! ## Derivatives -/

/-- the derivative of the wrapped difference of two directions -/
theorem atan2_deriv {x y : ℝ → ℝ} {x' y' : ℝ} (hx : HasDerivAt x x' 0) (hy : HasDerivAt y y' 0) (h0 : 0 < x 0 ^ 2 + y 0 ^ 2) :
    HasDerivAt (fun ε => wrapDown (wrapUp (Land.atan2 (y ε) (x ε) - Land.atan2 (y 0) (x 0)))) ((x 0 * y' - y 0 * x') / (x 0 ^ 2 + y 0 ^ 2)) 0 := by
  set z0 : ℂ := ⟨x 0, y 0⟩ with hz0
  have hz0n : z0 ≠ 0 := by
    intro h
    have h1 : x 0 = 0 := congrArg Complex.re h
    have h2 : y 0 = 0 := congrArg Complex.im h
    rw [h1, h2] at h0; norm_num at h0
  have hz : HasDerivAt (fun ε => ((x ε : ℂ) + (y ε : ℂ) * Complex.I) / z0) (((x' : ℂ) + (y' : ℂ) * Complex.I) / z0) 0 :=
    (hx.ofReal_comp.fun_add (hy.ofReal_comp.mul_const Complex.I)).div_const z0
  have hm : ∀ a b : ℝ, (a : ℂ) + (b : ℂ) * Complex.I = ⟨a, b⟩ := fun a b => by apply Complex.ext <;> simp
  have hc1 : ((x 0 : ℂ) + (y 0 : ℂ) * Complex.I) / z0 = 1 := by rw [hm]; exact div_self hz0n
  have hlog := hz.clog_real (by rw [hc1]; exact Complex.one_mem_slitPlane)
  have him : HasDerivAt (fun ε => (Complex.log (((x ε : ℂ) + (y ε : ℂ) * Complex.I) / z0)).im) ((((x' : ℂ) + (y' : ℂ) * Complex.I) / z0 / (((x 0 : ℂ) + (y 0 : ℂ) * Complex.I) / z0)).im) 0 :=
    (Complex.imCLM.hasFDerivAt.comp_hasDerivAt _ hlog)
  refine (him.congr_of_eventuallyEq ?_).congr_deriv ?_
  · have hcont := hz.continuousAt
    have hre : ContinuousAt (fun ε => (((x ε : ℂ) + (y ε : ℂ) * Complex.I) / z0).re) 0 := Complex.continuous_re.continuousAt.comp hcont
    have hpos : ∀ᶠ ε in nhds (0:ℝ), 0 < (((x ε : ℂ) + (y ε : ℂ) * Complex.I) / z0).re := hre.eventually (lt_mem_nhds (by simp only [hc1]; norm_num))
    filter_upwards [hpos] with ε hε
    have hne : ((x ε : ℂ) + (y ε : ℂ) * Complex.I) ≠ 0 := by
      intro h; rw [h] at hε; simp at hε
    have hang := Complex.arg_div_coe_angle hne hz0n
    rw [Complex.log_im]
    have hlt : |Complex.arg (((x ε : ℂ) + (y ε : ℂ) * Complex.I) / z0)| < Real.pi := lt_of_lt_of_le (Complex.abs_arg_lt_pi_div_two_iff.2 (Or.inl hε)) (by linarith [Real.pi_pos])
    rw [← Real.Angle.coe_sub, Real.Angle.angle_eq_iff_two_pi_dvd_sub] at hang
    obtain ⟨k, hk⟩ := hang
    refine wrap_unique hlt (m := -k) ?_
    unfold Land.atan2
    rw [← hm, ← hm]
    rw [← hm] at hz0
    rw [← hz0]
    push_cast
    linarith
  · rw [hc1, div_one, Complex.div_im]
    simp [hz0, Complex.normSq_mk]
    field_simp

theorem vec_rot {q : Quat} (h : IsUnitQ q) : 4 * q.w * q.x = quat2Rot q 1 2 - quat2Rot q 2 1 ∧ 4 * q.w * q.y = quat2Rot q 2 0 - quat2Rot q 0 2 ∧
    4 * q.w * q.z = quat2Rot q 0 1 - quat2Rot q 1 0 ∧ 4 * q.w ^ 2 = 1 + (quat2Rot q 0 0 + quat2Rot q 1 1 + quat2Rot q 2 2) := by
  unfold IsUnitQ at h
  simp only [q2r00, q2r01, q2r02, q2r10, q2r11, q2r12, q2r20, q2r21, q2r22]
  refine ⟨by ring, by ring, by ring, by nlinarith⟩

/-- a stored quaternion near the identity is half the error angle -/
theorem vec_deriv {Q : ℝ → Quat} {d : V3} (hc : ∀ ε, IsUnitQ (Q ε) ∧ 0 ≤ (Q ε).w) (h : HasDm (fun ε => quat2Rot (Q ε)) (-(skew d))) (h0 : quat2Rot (Q 0) = 1) :
    HasDv (fun ε => (Q ε).vec) ((1 / 2 : ℝ) • d) ∧ (Q 0).vec = 0 := by
  have hw : ∀ ε, (Q ε).w = Real.sqrt ((1 + (quat2Rot (Q ε) 0 0 + quat2Rot (Q ε) 1 1 + quat2Rot (Q ε) 2 2)) / 4) := by
    intro ε
    have := (vec_rot (hc ε).1).2.2.2
    rw [← this, mul_div_cancel_left₀ _ (by norm_num : (4:ℝ) ≠ 0), Real.sqrt_sq (hc ε).2]
  have one : (1 : M3) 0 0 = 1 ∧ (1 : M3) 1 1 = 1 ∧ (1 : M3) 2 2 = 1 := ⟨rfl, rfl, rfl⟩
  have htr := (((h 0 0).fun_add (h 1 1)).fun_add (h 2 2)).const_add 1
  have hsq := (htr.div_const 4).sqrt (by simp only [h0, one.1, one.2.1, one.2.2]; norm_num)
  have hwd : HasDerivAt (fun e => (Q e).w) 0 0 := by
    refine (hsq.congr_deriv (by simp [skew])).congr_of_eventuallyEq (Filter.Eventually.of_forall hw)
  have hw0 : (Q 0).w = 1 := by rw [hw 0, h0, one.1, one.2.1, one.2.2]; norm_num
  have hpos : ∀ᶠ e in nhds (0:ℝ), 0 < (Q e).w := hwd.continuousAt.eventually (lt_mem_nhds (by simp only [hw0]; norm_num))
  have quo : ∀ {u : ℝ → ℝ} {i j : Fin 3}, (1 : M3) i j = (1 : M3) j i → (∀ e, 4 * (Q e).w * u e = quat2Rot (Q e) i j - quat2Rot (Q e) j i) → HasDerivAt u (((-(skew d)) i j - (-(skew d)) j i) / 4) 0 := by
    intro u i j hij hu
    have hd := ((h i j).fun_sub (h j i)).fun_div (hwd.const_mul 4) (by simp only [hw0]; norm_num)
    refine (hd.congr_deriv ?_).congr_of_eventuallyEq ?_
    · simp only [h0, hw0, hij]; ring
    · filter_upwards [hpos] with e he
      rw [← hu, mul_div_cancel_left₀ _ (by positivity)]
  constructor
  · intro i
    fin_cases i
    · exact (quo (i := 1) (j := 2) rfl fun e => (vec_rot (hc e).1).1).congr_deriv (by simp [skew]; ring)
    · exact (quo (i := 2) (j := 0) rfl fun e => (vec_rot (hc e).1).2.1).congr_deriv (by simp [skew]; ring)
    · exact (quo (i := 0) (j := 1) rfl fun e => (vec_rot (hc e).1).2.2.1).congr_deriv (by simp [skew]; ring)
  · have a := vec_rot (hc 0).1
    rw [hw0, h0] at a
    have b : (1 : M3) 1 2 = 0 ∧ (1 : M3) 2 1 = 0 ∧ (1 : M3) 2 0 = 0 ∧ (1 : M3) 0 2 = 0 ∧ (1 : M3) 0 1 = 0 ∧ (1 : M3) 1 0 = 0 := ⟨rfl, rfl, rfl, rfl, rfl, rfl⟩
    rw [b.1, b.2.1, b.2.2.1, b.2.2.2.1, b.2.2.2.2.1, b.2.2.2.2.2] at a
    apply v3_ext
    · show (Q 0).x = 0; linarith [a.1]
    · show (Q 0).y = 0; linarith [a.2.1]
    · show (Q 0).z = 0; linarith [a.2.2.1]

/-- the inverse of `hRpy` at the angles of `R` -/
noncomputable def kRpy (R : M3) : M3 :=
  !![1, -(R 2 1 * R 2 0) / hor R ^ 2, -(R 2 2 * R 2 0) / hor R ^ 2; 0, R 2 2 / hor R, -R 2 1 / hor R; 0, R 2 1 / hor R ^ 2, R 2 2 / hor R ^ 2]

theorem hRpy_inv {R : M3} (h : IsRot R) (hv : Spec.NotVertical R) : (hRpy (rot2rpy R 0) (rot2rpy R 1)).det ≠ 0 ∧ (hRpy (rot2rpy R 0) (rot2rpy R 1))⁻¹ = kRpy R := by
  have hp0 : 0 < hor R := lt_trans (by norm_num) (hor_pos h hv)
  have hne := hp0.ne'
  have e := rpy_eq h hv
  have e0 : rot2rpy R 0 = Land.atan2 (R 2 1) (R 2 2) := congrFun e 0
  have e1 : rot2rpy R 1 = Land.atan2 (-R 2 0) (hor R) := congrFun e 1
  obtain ⟨pc, ps⟩ := pitch_trig h
  obtain ⟨rc, rs⟩ := roll_trig h hp0
  have hH : hRpy (rot2rpy R 0) (rot2rpy R 1) = !![1, 0, R 2 0; 0, R 2 2 / hor R, R 2 1; 0, -R 2 1 / hor R, R 2 2] := by
    unfold hRpy
    rw [e0, e1]
    unfold rotX rotY
    simp only [Real.cos_neg, Real.sin_neg, pc, ps, rc, rs]
    ext i j
    fin_cases i <;> fin_cases j <;> simp [Matrix.mulVec, Matrix.mul_apply, dotProduct, Fin.sum_univ_three] <;> field_simp
  have h2 : R 2 1 ^ 2 + R 2 2 ^ 2 = hor R ^ 2 := by
    rw [hor_sq h]; have := h.rel.r22; nlinarith
  have hmul : hRpy (rot2rpy R 0) (rot2rpy R 1) * kRpy R = 1 := by
    rw [hH, kRpy]
    ext i j
    fin_cases i <;> fin_cases j <;> simp [Matrix.mul_apply, Fin.sum_univ_three, Matrix.one_apply] <;> field_simp <;> first | done | linear_combination h2 | ring
  refine ⟨?_, Matrix.inv_eq_right_inv hmul⟩
  intro hd
  have := congrArg Matrix.det hmul
  rw [Matrix.det_mul, hd] at this
  simp at this

theorem bound3_eq {c : ℝ} (hc : 0 ≤ c) (A P : M3) (i : Fin 3) : bound3 (3 * c) (A * P * A.transpose) i = 3 * Real.sqrt ((c • A i) ⬝ᵥ P.mulVec (c • A i)) := by
  have key : ∀ i, (c • A i) ⬝ᵥ P.mulVec (c • A i) = c ^ 2 * (A * P * A.transpose) i i := by
    intro i
    simp [Matrix.mul_apply, Matrix.mulVec, dotProduct, Fin.sum_univ_three]
    ring
  rw [key, Real.sqrt_mul (sq_nonneg c), Real.sqrt_sq hc]
  fin_cases i <;> simp [bound3] <;> ring

theorem deg_pos : 0 < deg := div_pos (by norm_num) Real.pi_pos

/-- **C122** (bounds) For every estimated pose that does not put the first axis within 1e-12 of the vertical there are nine directions such that: for every error of orientation and position, by the convention of the filter, each of the nine errors that are shown (position; orientation in the global frame; roll, pitch and yaw;
degrees) is, to first order in the error, its component in the direction; and the bound shown with it is three standard deviations of that component, for the covariance that was recorded with the pose. -/
theorem C122_bounds (e : Pose) (he : IsUnitQ e.q) (hv : Spec.NotVertical (quat2Rot e.q).transpose) : ∃ Lp Lo Lr : Fin 3 → V3,
    (∀ (g : ℝ → Pose) (dθ dp : V3) (P Q : Option M3), Spec.OffBy e g dθ dp → ∀ i,
      ((errOne e (g 0) P Q).pos i = 0 ∧ HasDerivAt (fun ε => (errOne e (g ε) P Q).pos i) (Lp i ⬝ᵥ dp) 0) ∧
      ((errOne e (g 0) P Q).ori i = 0 ∧ HasDerivAt (fun ε => (errOne e (g ε) P Q).ori i) (Lo i ⬝ᵥ dθ) 0) ∧
      ((errOne e (g 0) P Q).rpy i = 0 ∧ HasDerivAt (fun ε => (errOne e (g ε) P Q).rpy i) (Lr i ⬝ᵥ dθ) 0)) ∧
    ∀ (g : Pose) (P Q : M3), ∃ bp bo br, (errOne e g (some P) (some Q)).posB = some bp ∧ (errOne e g (some P) (some Q)).oriB = some bo ∧ (errOne e g (some P) (some Q)).rpyB = some br ∧
      ∀ i, bp i = 3 * Real.sqrt (Lp i ⬝ᵥ Q.mulVec (Lp i)) ∧ bo i = 3 * Real.sqrt (Lo i ⬝ᵥ P.mulVec (Lo i)) ∧ br i = 3 * Real.sqrt (Lr i ⬝ᵥ P.mulVec (Lr i)) := by
  set R : M3 := (quat2Rot e.q).transpose with hRdef
  have hR : IsRot R := (quat2Rot_isRot he).transpose
  have hp0 : 0 < hor R := lt_trans (by norm_num) (hor_pos hR hv)
  obtain ⟨hdet, hinv⟩ := hRpy_inv hR hv
  refine ⟨fun i => (1 : M3) i, fun i => deg • R i, fun i => deg • kRpy R i, ?_, ?_⟩
  · intro g dθ dp P Q hg i
    have hM : HasDm (fun ε => (quat2Rot (g ε).q).transpose) (R * skew dθ) := by
      refine hg.rot.tr.congr' ?_
      rw [Matrix.transpose_mul, ← hRdef, Matrix.transpose_neg]
      congr 1
      ext a b; fin_cases a <;> fin_cases b <;> simp [skew]
    have hM0 : (quat2Rot (g 0).q).transpose = R := by rw [hg.rot0]
    have hu := fun ε => (quat2Rot_isRot (hg.unit ε)).transpose
    have hq : ∀ ε, quat2Rot (quatMul (g ε).q (quatInv e.q)) = quat2Rot (g ε).q * R := fun ε => by
      rw [(QuatProps.C23_quat_multiply _ _ (hg.unit ε) (QuatProps.C23_quat_inverse _ he).1).2.2, (QuatProps.C23_quat_inverse _ he).2.1]
    have hR1 : quat2Rot e.q * R = 1 := (quat2Rot_isRot he).orth'
    obtain ⟨hvd, hv0⟩ := vec_deriv (Q := fun ε => quatMul (g ε).q (quatInv e.q)) (d := dθ)
      (fun ε => ⟨(QuatProps.C23_quat_multiply _ _ (hg.unit ε) (QuatProps.C23_quat_inverse _ he).1).1, (QuatProps.C23_quat_multiply _ _ (hg.unit ε) (QuatProps.C23_quat_inverse _ he).1).2.1⟩)
      ((((hg.rot.mul (HasDm.const R)).congr' (by rw [Matrix.mul_assoc, hR1]; simp))).congr_fun hq) (by simp only [hq, hg.rot0, hR1])
    -- roll, pitch, yaw along the curve
    have hvs : ∀ᶠ ε in nhds (0:ℝ), Spec.NotVertical (quat2Rot (g ε).q).transpose := by
      have hc : ContinuousAt (fun ε => (quat2Rot (g ε).q).transpose 2 0 ^ 2) 0 := (hM 2 0).continuousAt.pow 2
      exact hc.eventually (gt_mem_nhds (by simp only [hM0]; exact hv))
    have hhor : HasDerivAt (fun ε => hor (quat2Rot (g ε).q).transpose) ((R 0 0 * (R * skew dθ) 0 0 + R 1 0 * (R * skew dθ) 1 0) / hor R) 0 := by
      have h1 := ((hM 0 0).fun_mul (hM 0 0)).fun_add ((hM 1 0).fun_mul (hM 1 0))
      have h2 : R 0 0 * R 0 0 + R 1 0 * R 1 0 ≠ 0 := by
        intro h
        have : hor R = 0 := by unfold hor; rw [h]; simp
        exact hp0.ne' this
      have := h1.sqrt (by simp only [hM0]; exact h2)
      refine this.congr_deriv ?_
      simp only [hM0]
      show _ / (2 * hor R) = _
      field_simp
      ring
    have hrow : ∀ a : Fin 3, (R * skew dθ) a 0 = R a 1 * dθ 2 - R a 2 * dθ 1 ∧ (R * skew dθ) a 1 = R a 2 * dθ 0 - R a 0 * dθ 2 ∧ (R * skew dθ) a 2 = R a 0 * dθ 1 - R a 1 * dθ 0 := by
      intro a
      simp [Matrix.mul_apply, Fin.sum_univ_three, skew]
      refine ⟨by ring, by ring, by ring⟩
    have hr := hR.rel
    have hs : hor R ^ 2 = R 0 0 * R 0 0 + R 1 0 * R 1 0 := Real.sq_sqrt (by nlinarith [sq_nonneg (R 0 0), sq_nonneg (R 1 0)])
    have hs2 : hor R ^ 2 = R 2 1 * R 2 1 + R 2 2 * R 2 2 := by have := hr.c00; have := hr.r22; linarith
    have hs3 := hor_sq hR
    have dyaw := atan2_deriv (hM 0 0) (hM 1 0) (by simp only [hM0]; nlinarith)
    have droll := atan2_deriv (hM 2 2) (hM 2 1) (by simp only [hM0]; nlinarith)
    have dpitch := atan2_deriv hhor (hM 2 0).fun_neg (by simp only [hM0]; nlinarith [sq_nonneg (R 2 0)])
    simp only [hM0] at dyaw droll dpitch
    have ev : ∀ (k : Fin 3) (ε : ℝ), (errOne e (g ε) P Q).rpy k = deg * wrapDown (wrapUp (rot2rpy (quat2Rot (g ε).q).transpose k - rot2rpy R k)) := by
      intro k ε
      fin_cases k <;> simp [errOne, hRdef]
    have z : wrapDown (wrapUp 0) = 0 := wrap_unique (θ := 0) (m := 0) (by simpa using Real.pi_pos) (by simp)
    refine ⟨⟨?_, ?_⟩, ⟨?_, ?_⟩, ?_, ?_⟩
    · simp [errOne, hg.pos0]
    · have := (hg.pos.sub (HasDv.const e.p)) i
      refine this.congr_deriv ?_
      simp [dotProduct, Matrix.one_apply]
    · have : (errOne e (g 0) P Q).ori = deg • R.mulVec ((2 : ℝ) • (quatMul (g 0).q (quatInv e.q)).vec) := rfl
      rw [this, hv0]; simp
    · have := ((HasDv.mulc R (hvd.smul 2)).smul deg) i
      refine this.congr_deriv ?_
      simp [Matrix.mulVec, dotProduct, Fin.sum_univ_three]
      ring
    · rw [ev, hM0, sub_self, z, mul_zero]
    · fin_cases i
      · refine ((droll.const_mul deg).congr_of_eventuallyEq (hvs.mono fun ε hε => ?_)).congr_deriv ?_
        · rw [ev, rpy_eq (hu ε) hε, rpy_eq hR hv]; rfl
        · rw [(hrow 2).2.1, (hrow 2).2.2]
          simp [kRpy, dotProduct, Fin.sum_univ_three]
          rw [show R 2 2 ^ 2 + R 2 1 ^ 2 = hor R ^ 2 by rw [hs2]; ring]
          field_simp
          linear_combination (-deg * dθ 0) * hs2
      · refine ((dpitch.const_mul deg).congr_of_eventuallyEq (hvs.mono fun ε hε => ?_)).congr_deriv ?_
        · rw [ev, rpy_eq (hu ε) hε, rpy_eq hR hv]; rfl
        · rw [(hrow 0).1, (hrow 1).1, (hrow 2).1]
          simp [kRpy, dotProduct, Fin.sum_univ_three]
          rw [show hor R ^ 2 + R 2 0 ^ 2 = 1 by rw [hs3]; ring]
          field_simp
          linear_combination deg * (R 2 0 * dθ 2 * hr.c01 - R 2 0 * dθ 1 * hr.c02 + (R 2 2 * dθ 1 - R 2 1 * dθ 2) * hs3)
      · refine ((dyaw.const_mul deg).congr_of_eventuallyEq (hvs.mono fun ε hε => ?_)).congr_deriv ?_
        · rw [ev, rpy_eq (hu ε) hε, rpy_eq hR hv]; rfl
        · rw [(hrow 0).1, (hrow 1).1]
          simp [kRpy, dotProduct, Fin.sum_univ_three]
          rw [show R 0 0 ^ 2 + R 1 0 ^ 2 = hor R ^ 2 by rw [hs]; ring]
          field_simp
          linear_combination deg * dθ 2 * hr.k22 + deg * dθ 1 * hr.k21
  · intro g P Q
    refine ⟨bound3 3 Q, bound3 (3 * deg) (R * P * quat2Rot e.q), bound3 (3 * deg) ((hRpy (rot2rpy R 0) (rot2rpy R 1))⁻¹ * P * (hRpy (rot2rpy R 0) (rot2rpy R 1))⁻¹.transpose), rfl, rfl, ?_, fun i => ⟨?_, ?_, ?_⟩⟩
    · simp only [errOne, ← hRdef, if_neg hdet]; rfl
    · have := bound3_eq (zero_le_one) 1 Q i
      simpa using this
    · have := bound3_eq deg_pos.le R P i
      rw [show R.transpose = quat2Rot e.q by rw [hRdef, Matrix.transpose_transpose]] at this
      exact this
    · rw [hinv]
      exact bound3_eq deg_pos.le (kRpy R) P i

/-- the hypotheses of `C122_bounds` are met by any errors at any pose: the ground truth found by the filter's own correction of the estimate -/
theorem offBy_exists (e : Pose) (he : IsUnitQ e.q) (dθ dp : V3) : Spec.OffBy e (fun ε => ⟨e.p + ε • dp, quatUpdate e.q (ε • dθ)⟩) dθ dp := by
  refine ⟨fun ε => ?_, fun i j => (QuatProps.C69_update_first_order e.q he dθ i j).1, (QuatProps.C69_update_first_order e.q he dθ 0 0).2, HasDv.line _ _, by simp⟩
  exact (Types.canon_quatUpdate he _).1

/-- a pose turned by 0.6, 0.8 about z: not vertical -/
example : IsUnitQ ⟨0, 0, 0.6, 0.8⟩ ∧ Spec.NotVertical (quat2Rot ⟨0, 0, 0.6, 0.8⟩).transpose := by
  refine ⟨by norm_num [IsUnitQ], ?_⟩
  unfold Spec.NotVertical
  rw [Matrix.transpose_apply, q2r02]
  norm_num

/-- **C122** (values) What is shown for a pose: the difference of the positions; the differences of roll, pitch and yaw as computed, up to whole turns, within half a turn; and no orientation error above 360/π, about 115 degrees (the chord, not the angle, is shown). -/
theorem C122_values (e g : Pose) (he : IsUnitQ e.q) (hg : IsUnitQ g.q) (P Q : Option M3) :
    (∀ i, (errOne e g P Q).pos i = g.p i - e.p i) ∧
    (∀ i, |(errOne e g P Q).rpy i| ≤ 180 ∧ ∃ k : ℤ, (errOne e g P Q).rpy i = 180 / Real.pi * (rot2rpy (quat2Rot g.q).transpose i - rot2rpy (quat2Rot e.q).transpose i) + 360 * k) ∧
    norm3 (errOne e g P Q).ori ≤ 360 / Real.pi := by
  have hπ := Real.pi_pos
  refine ⟨fun i => rfl, fun i => ?_, ?_⟩
  · obtain ⟨h1, k, hk⟩ := wrap_spec (rot2rpy (quat2Rot g.q).transpose i - rot2rpy (quat2Rot e.q).transpose i)
    have ev : (errOne e g P Q).rpy i = deg * wrapDown (wrapUp (rot2rpy (quat2Rot g.q).transpose i - rot2rpy (quat2Rot e.q).transpose i)) := by
      fin_cases i <;> simp [errOne]
    rw [ev]
    refine ⟨?_, k, ?_⟩
    · rw [abs_mul, abs_of_pos deg_pos]
      calc deg * _ ≤ deg * Real.pi := mul_le_mul_of_nonneg_left h1 deg_pos.le
        _ = 180 := by unfold deg; field_simp
    · rw [hk]; unfold deg; field_simp; ring
  · have hu := (QuatProps.C23_quat_multiply _ _ hg (QuatProps.C23_quat_inverse _ he).1).1
    set q := quatMul g.q (quatInv e.q) with hq
    have hR := (quat2Rot_isRot he).transpose
    have e1 : (errOne e g P Q).ori = (quat2Rot e.q).transpose.mulVec ((2 * deg) • q.vec) := by
      show deg • (quat2Rot e.q).transpose.mulVec ((2 : ℝ) • q.vec) = _
      rw [Matrix.mulVec_smul, Matrix.mulVec_smul, smul_smul, mul_comm]
    rw [e1]
    unfold norm3
    rw [dot3_rot' hR]
    have : dot3 ((2 * deg) • q.vec) ((2 * deg) • q.vec) ≤ (360 / Real.pi) ^ 2 := by
      have h1 : q.x ^ 2 + q.y ^ 2 + q.z ^ 2 ≤ 1 := by unfold IsUnitQ at hu; nlinarith [sq_nonneg q.w]
      have h2 : dot3 ((2 * deg) • q.vec) ((2 * deg) • q.vec) = (360 / Real.pi) ^ 2 * (q.x ^ 2 + q.y ^ 2 + q.z ^ 2) := by
        simp [dot3, Quat.vec, deg]; ring
      rw [h2]
      exact mul_le_of_le_one_right (sq_nonneg _) h1
    exact (Real.sqrt_le_left (by positivity)).2 this

theorem rpy_vertical {R : M3} (h : IsRot R) (hv : R 2 0 ^ 2 = 1) : rot2rpy R = ![Land.atan2 (R 0 1) (R 1 1), Land.atan2 (-R 2 0) (hor R), 0] ∧
    hor R = 0 ∧ Real.cos (Land.atan2 (R 0 1) (R 1 1)) = R 1 1 ∧ Real.sin (Land.atan2 (R 0 1) (R 1 1)) = R 0 1 ∧ R 0 0 = 0 ∧ R 1 0 = 0 ∧ R 2 1 = 0 ∧ R 2 2 = 0 := by
  have h0 : hor R = 0 := by
    have := hor_sq h
    rw [hv, sub_self] at this
    exact pow_eq_zero_iff (two_ne_zero) |>.1 this
  have hr := h.rel
  have a := hr.c00
  have b := hr.r22
  have z00 : R 0 0 = 0 := by nlinarith [sq_nonneg (R 0 0), sq_nonneg (R 1 0)]
  have z10 : R 1 0 = 0 := by nlinarith [sq_nonneg (R 0 0), sq_nonneg (R 1 0)]
  have z21 : R 2 1 = 0 := by nlinarith [sq_nonneg (R 2 1), sq_nonneg (R 2 2)]
  have z22 : R 2 2 = 0 := by nlinarith [sq_nonneg (R 2 1), sq_nonneg (R 2 2)]
  have hc := atan2_cos (R 0 1) (R 1 1)
  have hs := atan2_sin (R 0 1) (R 1 1)
  have e1 : R 1 1 ^ 2 + R 0 1 ^ 2 = 1 := by have := hr.c11; rw [z21] at this; nlinarith
  rw [e1, Real.sqrt_one, one_mul] at hc hs
  refine ⟨?_, h0, hc, hs, z00, z10, z21, z22⟩
  unfold rot2rpy
  simp only
  rw [show Real.sqrt (R 0 0 * R 0 0 + R 1 0 * R 1 0) = hor R from rfl, (pitch_trig h).1, h0, if_neg (by norm_num)]

/-- **C122** (straight down) With the first axis straight down the angles still give the rotation back, with a yaw of zero. -/
theorem C122_angles_down (R : M3) (h : IsRot R) (hv : R 2 0 = -1) : R = rotZ (rot2rpy R 2) * rotY (rot2rpy R 1) * rotX (rot2rpy R 0) ∧ rot2rpy R 2 = 0 := by
  obtain ⟨e, h0, rc, rs, z00, z10, z21, z22⟩ := rpy_vertical h (by rw [hv]; norm_num)
  obtain ⟨pc, ps⟩ := pitch_trig h
  have hr := h.rel
  have k02 := hr.k02
  have k12 := hr.k12
  rw [z10, z21, hv] at k02
  rw [z00, z21, hv] at k12
  rw [h0] at e pc ps
  rw [e]
  refine ⟨?_, rfl⟩
  show R = rotZ 0 * rotY (Land.atan2 (-R 2 0) 0) * rotX (Land.atan2 (R 0 1) (R 1 1))
  unfold rotZ rotY rotX
  rw [pc, ps, rc, rs, hv]
  ext i j
  fin_cases i <;> fin_cases j <;> simp [Matrix.mul_apply, Fin.sum_univ_three] <;> linarith

/-- **C122** (finding: straight up) With the first axis straight up the roll that is computed has the wrong sign: the angles give the rotation back with the opposite roll, -/
theorem C122_angles_up (R : M3) (h : IsRot R) (hv : R 2 0 = 1) : R = rotZ (rot2rpy R 2) * rotY (rot2rpy R 1) * rotX (-rot2rpy R 0) ∧ rot2rpy R 2 = 0 := by
  obtain ⟨e, h0, rc, rs, z00, z10, z21, z22⟩ := rpy_vertical h (by rw [hv]; norm_num)
  obtain ⟨pc, ps⟩ := pitch_trig h
  have hr := h.rel
  have k02 := hr.k02
  have k12 := hr.k12
  rw [z10, z21, hv] at k02
  rw [z00, z21, hv] at k12
  rw [h0] at e pc ps
  rw [e]
  refine ⟨?_, rfl⟩
  show R = rotZ 0 * rotY (Land.atan2 (-R 2 0) 0) * rotX (-Land.atan2 (R 0 1) (R 1 1))
  unfold rotZ rotY rotX
  rw [Real.cos_neg, Real.sin_neg, pc, ps, rc, rs, hv]
  ext i j
  fin_cases i <;> fin_cases j <;> simp [Matrix.mul_apply, Fin.sum_univ_three] <;> linarith

/-- **C122** (finding) so that for such a rotation the angles computed are not its roll, pitch and yaw. -/
theorem C122_angles_up_wrong : ∃ R : M3, IsRot R ∧ R 2 0 = 1 ∧ R ≠ rotZ (rot2rpy R 2) * rotY (rot2rpy R 1) * rotX (rot2rpy R 0) := by
  let R : M3 := !![0, 1, 0; 0, 0, 1; 1, 0, 0]
  have hR : IsRot R := by
    refine ⟨?_, ?_⟩
    · ext i j; fin_cases i <;> fin_cases j <;> simp [R, Matrix.mul_apply, Fin.sum_univ_three]
    · simp [R, Matrix.det_fin_three]
  refine ⟨R, hR, rfl, fun he => ?_⟩
  obtain ⟨e, h0, rc, rs, z00, z10, z21, z22⟩ := rpy_vertical hR (show (1 : ℝ) ^ 2 = 1 by norm_num)
  obtain ⟨pc, ps⟩ := pitch_trig hR
  have h01 := congrFun (congrFun he 1) 2
  rw [e] at h01
  have rs' : Real.sin (Land.atan2 1 0) = 1 := rs
  simp [Matrix.mul_apply, Fin.sum_univ_three, rotZ, rotY, rotX, R, rs'] at h01
  norm_num at h01

end Verif.Eval
