import Verif.Mle.Model
import Verif.Quat.Deriv
import Verif.Cam.Props

/-!
# C99, C100: the orientation manifold and the reprojection factor of the dynamic initialiser's optimisation
-/

set_option linter.unusedSimpArgs false

open Classical

namespace Verif.Mle

open Verif Matrix Verif.QuatProps

/-- specification: the rotation matrix of a frame turned by the rotation vector `d` (Rodrigues' formula for the angle `-|d|`). -/
noncomputable def Spec.turned (d : V3) : M3 :=
  1 - (Real.sin (norm3 d) / norm3 d) • skew d + ((1 - Real.cos (norm3 d)) / norm3 d ^ 2) • (skew d * skew d)

theorem dq_unit {d : V3} (h : norm3 d ≠ 0) :
    IsUnitQ ⟨d 0 / norm3 d * Real.sin (norm3 d / 2), d 1 / norm3 d * Real.sin (norm3 d / 2), d 2 / norm3 d * Real.sin (norm3 d / 2),
      Real.cos (norm3 d / 2)⟩ := by
  have h2 := norm3_sq' d
  have hcs := Real.sin_sq_add_cos_sq (norm3 d / 2)
  unfold IsUnitQ
  simp only
  have : (d 0 / norm3 d * Real.sin (norm3 d / 2)) ^ 2 + (d 1 / norm3 d * Real.sin (norm3 d / 2)) ^ 2 + (d 2 / norm3 d * Real.sin (norm3 d / 2)) ^ 2 =
      (d 0 * d 0 + d 1 * d 1 + d 2 * d 2) / (norm3 d * norm3 d) * Real.sin (norm3 d / 2) ^ 2 := by
    field_simp
  rw [this, ← h2, div_self (mul_ne_zero h h), one_mul]
  exact hcs

theorem dq_rot {d : V3} (h : norm3 d ≠ 0) :
    quat2Rot ⟨d 0 / norm3 d * Real.sin (norm3 d / 2), d 1 / norm3 d * Real.sin (norm3 d / 2), d 2 / norm3 d * Real.sin (norm3 d / 2),
      Real.cos (norm3 d / 2)⟩ = Spec.turned d := by
  have h2 := norm3_sq' d
  have hcs := Real.sin_sq_add_cos_sq (norm3 d / 2)
  have hs : Real.sin (norm3 d) = 2 * Real.sin (norm3 d / 2) * Real.cos (norm3 d / 2) := by
    rw [← Real.sin_two_mul]; congr 1; ring
  have hc : Real.cos (norm3 d) = 2 * Real.cos (norm3 d / 2) ^ 2 - 1 := by
    rw [← Real.cos_two_mul]; congr 1; ring
  unfold Spec.turned
  rw [hs, hc]
  generalize Real.sin (norm3 d / 2) = s at *
  generalize Real.cos (norm3 d / 2) = c at *
  generalize norm3 d = n at *
  have e1 : s ^ 2 = 1 - c ^ 2 := by linarith
  apply m3_ext <;> simp only [q2r00, q2r01, q2r02, q2r10, q2r11, q2r12, q2r20, q2r21, q2r22, Matrix.add_apply,
    Matrix.sub_apply, Matrix.smul_apply, smul_eq_mul, outer, skew00, skew01, skew02, skew10, skew11, skew12, skew20, m3_mul_apply,
    skew21, skew22, one00, one01, one02, one10, one11, one12, one20, one21, one22] <;> field_simp <;> grind

theorem plus_small {q : Quat} {d : V3} (h : norm3 d < 1e-8) : plus q d = quatUpdate q d := by
  simp only [plus, if_pos h, quatUpdate]

theorem plus_big {q : Quat} {d : V3} (h : 1e-8 ≤ norm3 d) :
    plus q d = quatMul (quatnorm ⟨d 0 / norm3 d * Real.sin (norm3 d / 2), d 1 / norm3 d * Real.sin (norm3 d / 2), d 2 / norm3 d * Real.sin (norm3 d / 2),
      Real.cos (norm3 d / 2)⟩) q := by
  simp only [plus, if_neg (not_lt.2 h)]

theorem norm3_ne_of_le {d : V3} (h : 1e-8 ≤ norm3 d) : norm3 d ≠ 0 := (lt_of_lt_of_le (by norm_num) h).ne'

/-- near `0` the manifold's increment is the filter's own correction. -/
theorem plus_ev (q : Quat) (d : V3) : ∀ᶠ e in nhds (0:ℝ), plus q (e • d) = quatUpdate q (e • d) := by
  have hc : Continuous fun e : ℝ => norm3 (e • d) := by
    unfold norm3 dot3
    simp only [Pi.smul_apply, smul_eq_mul]
    fun_prop
  have h0 : norm3 ((0:ℝ) • d) < 1e-8 := by
    rw [zero_smul, norm3_eq_zero.2 rfl]; norm_num
  filter_upwards [hc.continuousAt.eventually (gt_mem_nhds h0)] with e he
  exact plus_small he

/-- **C99** Adding an increment to a unit quaternion gives the stored form of an orientation; from `1e-8` rad on it is the rotation turned by the
increment; and to first order every increment turns the rotation from the left, which is the convention of all the factors' Jacobians. -/
theorem C99_plus (q : Quat) (hq : IsUnitQ q) :
    (∀ d, CanonQ (plus q d)) ∧ (∀ d, 1e-8 ≤ norm3 d → quat2Rot (plus q d) = Spec.turned d * quat2Rot q) ∧
    (∀ d, HasDm (fun e => quat2Rot (plus q (e • d))) (-(skew d) * quat2Rot q)) ∧ quat2Rot (plus q 0) = quat2Rot q := by
  refine ⟨?_, ?_, ?_, ?_⟩
  · intro d
    by_cases h : norm3 d < 1e-8
    · rw [plus_small h, quatUpdate]
      have hu : IsUnitQ (quatnorm ⟨0.5 * d 0, 0.5 * d 1, 0.5 * d 2, 1⟩) := (canon_quatnorm (by simp only [Quat.normSq]; positivity)).1
      obtain ⟨a, b, -⟩ := C23_quat_multiply _ _ hu hq
      exact ⟨a, b⟩
    · have h' := not_lt.1 h
      rw [plus_big h']
      obtain ⟨a, b, -⟩ := C23_quat_multiply _ _ (canon_quatnorm (normSq_of_unit (dq_unit (norm3_ne_of_le h')))).1 hq
      exact ⟨a, b⟩
  · intro d h
    have hu := dq_unit (norm3_ne_of_le h)
    rw [plus_big h, (C23_quat_multiply _ _ (canon_quatnorm (normSq_of_unit hu)).1 hq).2.2, quat2Rot_quatnorm_of_unit hu, dq_rot (norm3_ne_of_le h)]
  · intro d
    have h : HasDm (fun e : ℝ => quat2Rot (quatUpdate q (e • d))) (-(skew d) * quat2Rot q) := fun i j => (C69_update_first_order q hq d i j).1
    exact h.congr_ev ((plus_ev q d).mono fun e he => by rw [he])
  · have h0 : norm3 (0 : V3) < 1e-8 := by rw [norm3_eq_zero.2 rfl]; norm_num
    rw [plus_small h0]
    have := (C69_update_first_order q hq 0 0 0).2
    simpa using this

theorem mulRaw_inv_cancel (a q : Quat) (hq : IsUnitQ q) : quatMulRaw (quatMulRaw a q) (quatInv q) = a := by
  unfold IsUnitQ at hq
  simp only [quatMulRaw, quatInv]
  ext
  · simp; linear_combination a.x * hq
  · simp; linear_combination a.y * hq
  · simp; linear_combination a.z * hq
  · simp; linear_combination a.w * hq

theorem neg_mulRaw (a b : Quat) : quatMulRaw a.neg b = (quatMulRaw a b).neg := by
  simp only [quatMulRaw, Quat.neg]; ext <;> simp <;> ring

theorem neg_neg_q (a : Quat) : a.neg.neg = a := by simp [Quat.neg]

/-- the difference of a moved orientation and the orientation is the increment, as a quaternion. -/
theorem rel_moved {a q : Quat} (ha : IsUnitQ a) (hw : 0 < a.w) (hq : IsUnitQ q) : quatMul (quatMul a q) (quatInv q) = a := by
  have hu := unit_mulRaw ha hq
  rw [quatMul_eq_quatnorm a q, quatnorm_of_unit hu, quatMul_eq_quatnorm]
  split_ifs with h
  · rw [neg_mulRaw, mulRaw_inv_cancel a q hq, quatnorm_of_unit (unit_neg ha), if_pos (by simpa [Quat.neg] using hw), neg_neg_q]
  · rw [mulRaw_inv_cancel a q hq, quatnorm_of_canon ⟨ha, hw.le⟩]

theorem atan2_sin_cos {t : ℝ} (h0 : 0 ≤ t) (h1 : t ≤ Real.pi) : Land.atan2 (Real.sin t) (Real.cos t) = t := by
  unfold Land.atan2
  have : (⟨Real.cos t, Real.sin t⟩ : ℂ) = Complex.cos t + Complex.sin t * Complex.I := by
    apply Complex.ext <;> simp [Complex.cos_ofReal_re, Complex.sin_ofReal_re]
  rw [this, Complex.arg_cos_add_sin_mul_I ⟨by linarith [Real.pi_pos], h1⟩]

/-- **C99** The difference undoes the increment for every increment below half a turn whose half-angle sine is at least `1e-8`. -/
theorem C99_minus_plus (q : Quat) (hq : IsUnitQ q) (d : V3) (h0 : 1e-8 ≤ Real.sin (norm3 d / 2)) (hpi : norm3 d < Real.pi) :
    minus (plus q d) q = d := by
  have hp : 1e-8 ≤ norm3 d := by
    have h1 : Real.sin (norm3 d / 2) ≤ norm3 d / 2 := Real.sin_le (by linarith [norm3_nonneg d])
    have := norm3_nonneg d
    linarith
  have hne := norm3_ne_of_le hp
  have hpos : 0 < norm3 d := lt_of_le_of_ne (norm3_nonneg d) (Ne.symm hne)
  have hc : 0 < Real.cos (norm3 d / 2) := Real.cos_pos_of_mem_Ioo ⟨by linarith [Real.pi_pos], by linarith⟩
  have hu := dq_unit hne
  rw [minus, plus_big hp, quatnorm_of_canon ⟨hu, hc.le⟩, rel_moved hu hc hq]
  have hv : Quat.vec ⟨d 0 / norm3 d * Real.sin (norm3 d / 2), d 1 / norm3 d * Real.sin (norm3 d / 2), d 2 / norm3 d * Real.sin (norm3 d / 2),
      Real.cos (norm3 d / 2)⟩ = (Real.sin (norm3 d / 2) / norm3 d) • d := by
    apply v3_ext <;> simp [Quat.vec] <;> ring
  simp only [hv]
  have hs : 0 < Real.sin (norm3 d / 2) := lt_of_lt_of_le (by norm_num) h0
  have hn : norm3 ((Real.sin (norm3 d / 2) / norm3 d) • d) = Real.sin (norm3 d / 2) := by
    rw [norm3_smul (by positivity)]; field_simp
  rw [hn, if_neg (not_lt.2 h0), atan2_sin_cos (by linarith) (by linarith)]
  apply v3_ext <;> simp <;> field_simp

/-- **C99** Below the cutoff the difference is reported as zero although the orientations differ. -/
theorem C99_minus_small (q : Quat) (hq : IsUnitQ q) (d : V3) (h : norm3 d < 1e-8) : minus (plus q d) q = 0 := by
  rw [minus, plus_small h, quatUpdate]
  have hN : Quat.normSq ⟨0.5 * d 0, 0.5 * d 1, 0.5 * d 2, 1⟩ = 1 + dot3 d d / 4 := by
    simp only [Quat.normSq, dot3]; norm_num; ring
  have hpos : 0 < 1 + dot3 d d / 4 := by linarith [dot3_self_nonneg d]
  have hc := canon_quatnorm (q := ⟨0.5 * d 0, 0.5 * d 1, 0.5 * d 2, 1⟩) (by rw [hN]; exact hpos.ne')
  have he : quatnorm ⟨0.5 * d 0, 0.5 * d 1, 0.5 * d 2, 1⟩ = Quat.divS ⟨0.5 * d 0, 0.5 * d 1, 0.5 * d 2, 1⟩ (Real.sqrt (1 + dot3 d d / 4)) := by
    unfold quatnorm
    simp only [if_neg (show ¬ ((1:ℝ) < 0) by norm_num)]
    unfold Quat.norm
    rw [hN]
  have hsq : 1 ≤ Real.sqrt (1 + dot3 d d / 4) := by
    rw [Real.one_le_sqrt]; linarith [dot3_self_nonneg d]
  have hsp : 0 < Real.sqrt (1 + dot3 d d / 4) := by linarith
  have hw : 0 < (quatnorm ⟨0.5 * d 0, 0.5 * d 1, 0.5 * d 2, 1⟩).w := by
    rw [he]; simp only [Quat.divS]; positivity
  rw [rel_moved hc.1 hw hq]
  have hv : (quatnorm ⟨0.5 * d 0, 0.5 * d 1, 0.5 * d 2, 1⟩).vec = (0.5 / Real.sqrt (1 + dot3 d d / 4)) • d := by
    rw [he]
    apply v3_ext <;> simp [Quat.vec, Quat.divS] <;> ring
  rw [hv, norm3_smul (by positivity), if_pos]
  have : 0.5 / Real.sqrt (1 + dot3 d d / 4) ≤ 1 := by
    rw [div_le_one hsp]
    have : (0.5 : ℝ) ≤ 1 := by norm_num
    linarith
  have h2 := norm3_nonneg d
  nlinarith

/-- **C99** The manifold's two Jacobians satisfy the identity Ceres requires of them. -/
theorem C99_jacobians : minusJ * plusJ = 1 := by
  ext i j
  fin_cases i <;> fin_cases j <;> simp [minusJ, plusJ, Matrix.mul_apply, Fin.sum_univ_succ]

/-- the hypotheses of C99 are met, e.g. by one radian about the first axis. -/
example : IsUnitQ ⟨0, 0, 0, 1⟩ ∧ (1e-8 : ℝ) ≤ Real.sin (norm3 ![1, 0, 0] / 2) ∧ norm3 ![1, 0, 0] < Real.pi := by
  have hn : norm3 ![1, 0, 0] = 1 := by simp [norm3, dot3]
  rw [hn]
  refine ⟨by simp [IsUnitQ], ?_, by linarith [Real.pi_gt_three]⟩
  have := Real.sin_gt_sub_cube (x := 1 / 2) (by norm_num)
  have h2 : (1e-8 : ℝ) ≤ 1 / 2 - (1 / 2) ^ 3 / 6 := by norm_num
  linarith

/-! ## C100: the reprojection factor -/

/-- a state of the factor's variables moved by `e` along a direction: orientations by the manifold, the rest by addition. -/
noncomputable def Spec.movedImg (x : ImgX) (a : V3) (b : V3) (c : V3) (d : V3) (g : V3) (k : Cam.Intr) (e : ℝ) : ImgX :=
  ⟨plus x.qI (e • a), x.pI + e • b, x.pF + e • c, plus x.qC (e • d), x.pC + e • g, x.intr + e • k⟩

/-- specification: the pixel at which a global point is seen: world to IMU, IMU to camera, division by depth, distortion. -/
noncomputable def Spec.pixel (k : Cam.Kind) (intr : Cam.Intr) (RGtoI : M3) (pI : V3) (RItoC : M3) (pC : V3) (pF : V3) : Cam.V2 :=
  let p := RItoC.mulVec (RGtoI.mulVec (pF - pI)) + pC
  Cam.distort k intr ![p 0 / p 2, p 1 / p 2]

/-- **C100** The residual is the weighted difference of the predicted and the measured pixel; for a positive gate it is zero exactly at the measured
pixel; and its squared norm is the squared pixel distance in standard deviations, times the squared gate. -/
theorem C100_residual (f : ImgF) (x : ImgX) (hs : 0 < f.sigma) :
    (∀ i, imgRes f x i = f.gate * ((Spec.pixel f.kind x.intr (quat2Rot x.qI) x.pI (quat2Rot x.qC) x.pC x.pF i - f.uv i) / f.sigma)) ∧
    (f.gate ≠ 0 → (imgRes f x = 0 ↔ Spec.pixel f.kind x.intr (quat2Rot x.qI) x.pI (quat2Rot x.qC) x.pC x.pF = f.uv)) := by
  have h : ∀ i, imgRes f x i = f.gate * ((Spec.pixel f.kind x.intr (quat2Rot x.qI) x.pI (quat2Rot x.qC) x.pC x.pF i - f.uv i) / f.sigma) := by
    intro i
    simp only [imgRes, ImgF.w, ImgX.un, ImgX.inC, ImgX.inI, Spec.pixel, Pi.smul_apply, Pi.sub_apply, smul_eq_mul]
    ring
  refine ⟨h, fun hg => ⟨fun h0 => ?_, fun h0 => ?_⟩⟩
  · funext i
    have h1 := h i
    rw [h0] at h1
    have h2 := (mul_eq_zero.1 h1.symm).resolve_left hg
    have h3 := (div_eq_zero_iff.1 h2).resolve_right hs.ne'
    linarith
  · funext i
    rw [h i, h0]; simp

theorem distort_deriv {k : Cam.Kind} {d : ℝ → Cam.Intr} {u : ℝ → Cam.V2} {d' : Cam.Intr} {u' : Cam.V2} (hd : HasDv d d') (hu : HasDv u u')
    (h : k = .equi → 1e-8 < Cam.rad (u 0)) :
    HasDv (fun e => Cam.distort k (d e) (u e)) ((Cam.distortN k (d 0) (u 0)).mulVec u' + (Cam.distortZ k (d 0) (u 0)).mulVec d') := by
  cases k with
  | radtan => exact Cam.C32_radtan_jacobian hd hu
  | equi => exact Cam.C33_equi_jacobian_partial hd hu (h rfl)

theorem proj_deriv {p : ℝ → V3} {p' : V3} (hp : HasDv p p') (h0 : p 0 2 ≠ 0) :
    HasDv (fun e => (![p e 0 / p e 2, p e 1 / p e 2] : Cam.V2)) ((imgN (p 0)).mulVec p') := by
  intro i
  fin_cases i
  · refine ((hp 0).fun_div (hp 2) h0).congr_deriv ?_
    simp [imgN, Matrix.mulVec, dotProduct, Fin.sum_univ_succ]
    field_simp
    ring
  · refine ((hp 1).fun_div (hp 2) h0).congr_deriv ?_
    simp [imgN, Matrix.mulVec, dotProduct, Fin.sum_univ_succ]
    field_simp
    ring

theorem skew_mulVec_comm (a b : V3) : (skew a).mulVec b = -((skew b).mulVec a) := by
  apply v3_ext <;> simp only [m3_mulVec_apply, Pi.neg_apply, skew00, skew01, skew02, skew10, skew11, skew12, skew20, skew21, skew22] <;> ring

/-- **C100** The six Jacobians handed to the solver are together the exact derivative of the residual along every simultaneous change of the six
variables, for every state in front of or behind the camera (depth not zero) and away from the fisheye centre (C33). -/
theorem C100_jacobians (f : ImgF) (x : ImgX) (hI : IsUnitQ x.qI) (hC : IsUnitQ x.qC) (hz : x.inC 2 ≠ 0)
    (hk : f.kind = .equi → 1e-8 < Cam.rad x.un) (a b c d g : V3) (k : Cam.Intr) :
    HasDv (fun e => imgRes f (Spec.movedImg x a b c d g k e))
      ((imgJac f x).qI.mulVec a + (imgJac f x).pI.mulVec b + (imgJac f x).pF.mulVec c + (imgJac f x).qC.mulVec d + (imgJac f x).pC.mulVec g +
        (imgJac f x).intr.mulVec k) := by
  obtain ⟨-, -, hRI, hRI0⟩ := C99_plus x.qI hI
  obtain ⟨-, -, hRC, hRC0⟩ := C99_plus x.qC hC
  have h1 : HasDv (fun e => (Spec.movedImg x a b c d g k e).inI) _ := (hRI a).mulVec ((HasDv.line x.pF c).sub (HasDv.line x.pI b))
  have h2 : HasDv (fun e => (Spec.movedImg x a b c d g k e).inC) _ := ((hRC d).mulVec h1).add (HasDv.line x.pC g)
  have e0 : Spec.movedImg x a b c d g k 0 = { x with qI := plus x.qI 0, qC := plus x.qC 0 } := by
    simp [Spec.movedImg]
  have i0 : (Spec.movedImg x a b c d g k 0).inI = x.inI := by rw [e0]; simp [ImgX.inI, hRI0]
  have c0 : (Spec.movedImg x a b c d g k 0).inC = x.inC := by
    have := i0
    rw [e0] at this ⊢
    simp only [ImgX.inC, hRC0, this]
  have u0 : (Spec.movedImg x a b c d g k 0).un = x.un := by simp only [ImgX.un, c0]
  have h3 := proj_deriv h2 (by simp only [c0]; exact hz)
  have h4 := distort_deriv (k := f.kind) (HasDv.line x.intr k) h3 (by
    intro hkk
    have := hk hkk
    rw [← u0] at this
    exact this)
  have h5 := (h4.sub (HasDv.const f.uv)).smul f.w
  refine HasDv.congr' h5 ?_
  have u0' : (![(Spec.movedImg x a b c d g k 0).inC 0 / (Spec.movedImg x a b c d g k 0).inC 2,
      (Spec.movedImg x a b c d g k 0).inC 1 / (Spec.movedImg x a b c d g k 0).inC 2] : Cam.V2) = x.un := u0
  simp only [u0', c0, i0, zero_smul, add_zero, hRI0, hRC0, sub_zero]
  simp only [imgJac, imgH, Matrix.smul_mul, Matrix.neg_mul, Matrix.smul_mulVec, ← Matrix.mulVec_mulVec, Matrix.neg_mulVec, smul_add]
  have m0 : (Spec.movedImg x a b c d g k 0).pF - (Spec.movedImg x a b c d g k 0).pI = x.pF - x.pI := by rw [e0]
  have u1 : (![x.inC 0 / x.inC 2, x.inC 1 / x.inC 2] : Cam.V2) = x.un := rfl
  have i1 : (quat2Rot x.qI).mulVec (x.pF - x.pI) = x.inI := rfl
  rw [u1, m0, i1, skew_mulVec_comm d, skew_mulVec_comm a, neg_neg, neg_neg]
  simp only [Matrix.mulVec_add, Matrix.mulVec_sub, smul_add, smul_sub]
  abel

/-- the hypotheses of C100 are met by an ordinary view: camera and IMU at the origin, a point ahead and to the side. -/
example : ∃ x : ImgX, IsUnitQ x.qI ∧ IsUnitQ x.qC ∧ x.inC 2 ≠ 0 ∧ 1e-8 < Cam.rad x.un := by
  have hR : quat2Rot ⟨0, 0, 0, 1⟩ = 1 := by apply m3_ext <;> simp [q2r00, q2r01, q2r02, q2r10, q2r11, q2r12, q2r20, q2r21, q2r22] <;> norm_num
  refine ⟨⟨⟨0, 0, 0, 1⟩, 0, ![1, 0, 2], ⟨0, 0, 0, 1⟩, 0, 0⟩, by simp [IsUnitQ], by simp [IsUnitQ], ?_, ?_⟩
  · simp [ImgX.inC, ImgX.inI, hR]
  · simp only [Cam.rad, ImgX.un, ImgX.inC, ImgX.inI, hR, Matrix.one_mulVec]
    have : (1 / 2 : ℝ) = Real.sqrt (1 / 4) := by
      rw [show (1 / 4 : ℝ) = (1 / 2) ^ 2 by norm_num, Real.sqrt_sq (by norm_num)]
    simp
    norm_num

end Verif.Mle
