import Verif.Upd.Model
import Verif.Land.Props
import Verif.Cam.Props
import Verif.Prop.Jac

/-! # Derivatives of the feature position and of a measurement (lemmas for C34, C79) -/

set_option linter.unusedSimpArgs false

open Classical

namespace Verif.Upd

open Verif Mat Verif.Land Verif.Types Verif.Prop_

namespace Spec

/-- the point a landmark parameter stands for, in its frame; `b` is the stored bearing of the single-depth form. -/
noncomputable def xyz (r : Rep) (b : V3) (l : V3) : V3 :=
  match r with
  | .global3d | .anchored3d | .unknown => l
  | .globalFull | .anchoredFull => ![Real.cos (l 0) * Real.sin (l 1) / l 2, Real.sin (l 0) * Real.sin (l 1) / l 2, Real.cos (l 1) / l 2]
  | .anchoredMsckf => ![l 0 / l 2, l 1 / l 2, 1 / l 2]
  | .anchoredSingle => ![b 0 / l 0, b 1 / l 0, b 2 / l 0]

/-- parameters at which the form is regular: positive inverse distance and polar angle strictly inside `(0, π)` up to turns for the spherical form;
non-zero inverse depth, and a bearing of unit depth, for the others. -/
def Chart (r : Rep) (b : V3) (l : V3) : Prop :=
  match r with
  | .global3d | .anchored3d => True
  | .globalFull | .anchoredFull => 0 < l 2 ∧ 0 < Real.sin (l 1)
  | .anchoredMsckf => l 2 ≠ 0
  | .anchoredSingle => l 0 ≠ 0 ∧ b 2 = 1
  | .unknown => False

/-- the global position of the point `p` seen in the camera with extrinsics `cal` on the body at pose `A`. -/
def world (A cal : Pose) (p : V3) : V3 := A.R.transpose.mulVec (cal.R.transpose.mulVec (p - cal.p)) + A.p

/-- the position in that camera of the global point `g`. -/
def inCam (A cal : Pose) (g : V3) : V3 := cal.R.mulVec (A.R.mulVec (g - A.p)) + cal.p

/-- the pixel at which that camera sees the global point `g`. -/
noncomputable def pixel (k : Cam.Kind) (d : Cam.Intr) (A cal : Pose) (g : V3) : Cam.V2 :=
  Cam.distort k d ![inCam A cal g 0 / inCam A cal g 2, inCam A cal g 1 / inCam A cal g 2]

end Spec

/-- the specification's points are those of `Landmark::get_xyz`. -/
theorem xyz_getXyz (l : Lm) (h : l.rep ≠ .unknown) : l.getXyz false = some (Spec.xyz l.rep l.uv0 l.val) := by
  obtain ⟨r, n, v, f, u, w⟩ := l
  cases r
  · rfl
  · exact congrArg some (by funext i; fin_cases i <;> simp [fullXyz, Spec.xyz] <;> ring)
  · rfl
  · exact congrArg some (by funext i; fin_cases i <;> simp [fullXyz, Spec.xyz] <;> ring)
  · exact congrArg some (by funext i; fin_cases i <;> simp [msckfXyz, Spec.xyz] <;> ring)
  · exact congrArg some (by funext i; fin_cases i <;> simp [Spec.xyz] <;> ring)
  · exact absurd rfl h

/-- derivative matrices in terms of the parameters. -/
noncomputable def lamJac (r : Rep) (p : V3) : M3 :=
  match r with
  | .global3d | .anchored3d | .unknown => 1
  | .globalFull | .anchoredFull => fullJac p
  | .anchoredMsckf => msckfJac p
  | .anchoredSingle => singleJac p

theorem toFull_trig {l : V3} (hr : 0 < l 2) (hs : 0 < Real.sin (l 1)) :
    toFull (Spec.xyz .globalFull 0 l) 2 = l 2 ∧
    Real.cos (toFull (Spec.xyz .globalFull 0 l) 1) = Real.cos (l 1) ∧ Real.sin (toFull (Spec.xyz .globalFull 0 l) 1) = Real.sin (l 1) ∧
    Real.cos (toFull (Spec.xyz .globalFull 0 l) 0) = Real.cos (l 0) ∧ Real.sin (toFull (Spec.xyz .globalFull 0 l) 0) = Real.sin (l 0) := by
  have hn : norm3 (Spec.xyz .globalFull 0 l) = 1 / l 2 := by
    have : dot3 (Spec.xyz .globalFull 0 l) (Spec.xyz .globalFull 0 l) = (1 / l 2) ^ 2 := by
      simp only [dot3, Spec.xyz, Matrix.cons_val_zero, Matrix.cons_val_one, Matrix.cons_val]
      have h0 := Real.sin_sq_add_cos_sq (l 0)
      have h1 := Real.sin_sq_add_cos_sq (l 1)
      field_simp
      linear_combination (Real.sin (l 1)) ^ 2 * h0 + h1
    rw [norm3, this, Real.sqrt_sq (by positivity)]
  have h2 : toFull (Spec.xyz .globalFull 0 l) 2 = l 2 := by
    simp [toFull, hn]
  have hc : 1 / norm3 (Spec.xyz .globalFull 0 l) * Spec.xyz .globalFull 0 l 2 = Real.cos (l 1) := by
    rw [hn]; simp [Spec.xyz]; field_simp
  have h1c : Real.cos (toFull (Spec.xyz .globalFull 0 l) 1) = Real.cos (l 1) := by
    simp only [toFull, Matrix.cons_val_one, Matrix.cons_val_zero]
    rw [hc, Real.cos_arccos (Real.neg_one_le_cos _) (Real.cos_le_one _)]
  have h1s : Real.sin (toFull (Spec.xyz .globalFull 0 l) 1) = Real.sin (l 1) := by
    simp only [toFull, Matrix.cons_val_one, Matrix.cons_val_zero]
    rw [hc, Real.sin_arccos, ← Real.sin_sq, Real.sqrt_sq hs.le]
  have hne : (⟨Spec.xyz .globalFull 0 l 0, Spec.xyz .globalFull 0 l 1⟩ : ℂ) =
      ((Real.sin (l 1) / l 2 : ℝ) : ℂ) * (Complex.cos (l 0 : ℂ) + Complex.sin (l 0 : ℂ) * Complex.I) := by
    rw [← Complex.ofReal_cos, ← Complex.ofReal_sin]
    simp only [Spec.xyz, Matrix.cons_val_zero, Matrix.cons_val_one]
    generalize Real.sin (l 1) = s
    generalize Real.cos (l 0) = c
    generalize Real.sin (l 0) = s0
    apply Complex.ext
    · rw [Complex.re_ofReal_mul]; simp; ring
    · rw [Complex.im_ofReal_mul]; simp; ring
  have hpos : 0 < Real.sin (l 1) / l 2 := by positivity
  have harg : toFull (Spec.xyz .globalFull 0 l) 0 =
      Complex.arg (((Real.sin (l 1) / l 2 : ℝ) : ℂ) * (Complex.cos (l 0 : ℂ) + Complex.sin (l 0 : ℂ) * Complex.I)) := by
    rw [← hne]; rfl
  rw [Complex.arg_real_mul _ hpos] at harg
  have hnorm : ‖Complex.cos (l 0 : ℂ) + Complex.sin (l 0 : ℂ) * Complex.I‖ = 1 := by
    rw [← Complex.exp_mul_I, Complex.norm_exp_ofReal_mul_I]
  have hz : Complex.cos (l 0 : ℂ) + Complex.sin (l 0 : ℂ) * Complex.I ≠ 0 := by
    intro h; rw [h] at hnorm; simp at hnorm
  refine ⟨h2, h1c, h1s, ?_, ?_⟩
  · rw [harg, Complex.cos_arg hz, hnorm]
    simp [← Complex.ofReal_cos, ← Complex.ofReal_sin]
  · rw [harg, Complex.sin_arg, hnorm]
    simp [← Complex.ofReal_cos, ← Complex.ofReal_sin]

theorem fullJac_deriv {l δ : V3} (hr : 0 < l 2) (hs : 0 < Real.sin (l 1)) :
    HasDv (fun e => Spec.xyz .globalFull 0 (l + e • δ)) ((fullJac (Spec.xyz .globalFull 0 l)).mulVec δ) := by
  obtain ⟨a2, a1c, a1s, a0c, a0s⟩ := toFull_trig hr hs
  have hl := HasDv.line l δ
  have hz : (l + (0:ℝ) • δ) 2 ≠ 0 := by simpa using hr.ne'
  have hl0 : ∀ i, (l + (0:ℝ) • δ) i = l i := fun i => by simp
  intro i
  fin_cases i
  · refine (((hl 0).cos.fun_mul (hl 1).sin).fun_div (hl 2) hz).congr_deriv ?_
    simp only [fullJac, a2, a1c, a1s, a0c, a0s, hl0]
    simp [Matrix.mulVec, dotProduct, Fin.sum_univ_succ]
    field_simp; ring
  · refine (((hl 0).sin.fun_mul (hl 1).sin).fun_div (hl 2) hz).congr_deriv ?_
    simp only [fullJac, a2, a1c, a1s, a0c, a0s, hl0]
    simp [Matrix.mulVec, dotProduct, Fin.sum_univ_succ]
    field_simp; ring
  · refine ((hl 1).cos.fun_div (hl 2) hz).congr_deriv ?_
    simp only [fullJac, a2, a1c, a1s, a0c, a0s, hl0]
    simp [Matrix.mulVec, dotProduct, Fin.sum_univ_succ]
    field_simp; ring

theorem msckfJac_deriv {l δ : V3} (hr : l 2 ≠ 0) :
    HasDv (fun e => Spec.xyz .anchoredMsckf 0 (l + e • δ)) ((msckfJac (Spec.xyz .anchoredMsckf 0 l)).mulVec δ) := by
  have hl := HasDv.line l δ
  have hz : (l + (0:ℝ) • δ) 2 ≠ 0 := by simpa using hr
  have hl0 : ∀ i, (l + (0:ℝ) • δ) i = l i := fun i => by simp
  intro i
  fin_cases i
  · refine ((hl 0).fun_div (hl 2) hz).congr_deriv ?_
    simp [msckfJac, toMsckf, Spec.xyz, Matrix.mulVec, dotProduct, Fin.sum_univ_succ]
    field_simp; ring
  · refine ((hl 1).fun_div (hl 2) hz).congr_deriv ?_
    simp [msckfJac, toMsckf, Spec.xyz, Matrix.mulVec, dotProduct, Fin.sum_univ_succ]
    field_simp; ring
  · refine ((hasDerivAt_const (0:ℝ) (1:ℝ)).fun_div (hl 2) hz).congr_deriv ?_
    simp [msckfJac, toMsckf, Spec.xyz, Matrix.mulVec, dotProduct, Fin.sum_univ_succ]
    field_simp

theorem singleJac_deriv {l b δ : V3} (hr : l 0 ≠ 0) (hb : b 2 = 1) :
    HasDv (fun e => Spec.xyz .anchoredSingle b (l + e • δ)) ((singleJac (Spec.xyz .anchoredSingle b l)).mulVec δ) := by
  have hl := HasDv.line l δ
  have hz : (l + (0:ℝ) • δ) 0 ≠ 0 := by simpa using hr
  intro i
  have := ((hasDerivAt_const (0:ℝ) (b i)).fun_div (hl 0) hz)
  fin_cases i <;> refine this.congr_deriv ?_ <;>
    simp [singleJac, Spec.xyz, Matrix.mulVec, dotProduct, Fin.sum_univ_succ, hb] <;> field_simp

theorem lamJac_deriv {r : Rep} {b l : V3} (δ : V3) (h : Spec.Chart r b l) :
    HasDv (fun e => Spec.xyz r b (l + e • δ)) ((lamJac r (Spec.xyz r b l)).mulVec δ) := by
  cases r <;> simp only [Spec.Chart] at h
  · simpa [Spec.xyz, lamJac] using HasDv.line l δ
  · exact fullJac_deriv h.1 h.2
  · simpa [Spec.xyz, lamJac] using HasDv.line l δ
  · exact fullJac_deriv h.1 h.2
  · exact msckfJac_deriv h
  · exact singleJac_deriv h.1 h.2

/-- a pose moves along a correction. -/
theorem Pose.R_deriv {x : Pose} (h : IsUnitQ x.q) (d : ℕ → ℝ) :
    HasDm (fun e => (x.update (fun i => e * d i)).R) (-(skew (sl d 0)) * x.R) :=
  (quat_deriv h (sl d 0)).congr_fun fun e => by
    show quat2Rot (quatUpdate x.q (sl _ 0)) = _
    rw [sl_smul]

theorem Pose.R0 {x : Pose} (h : IsUnitQ x.q) (d : ℕ → ℝ) : (x.update (fun i => 0 * d i)).R = x.R := by
  show quat2Rot (quatUpdate x.q (sl _ 0)) = _
  rw [sl_smul]; exact quat_deriv0 h _

theorem Pose.p_deriv (x : Pose) (d : ℕ → ℝ) : HasDv (fun e => (x.update (fun i => e * d i)).p) (sl d 3) :=
  (HasDv.line x.p (sl d 3)).congr_fun fun e => by
    show x.p + sl _ 3 = _
    rw [sl_smul]

theorem Pose.p0 (x : Pose) (d : ℕ → ℝ) : (x.update (fun i => 0 * d i)).p = x.p := by
  show x.p + sl _ 3 = x.p
  have : sl (fun i => 0 * d i) 3 = 0 := by funext i; simp [sl]
  rw [this, add_zero]

theorem skew_swap (a b : V3) : (skew a).mulVec b = -(skew b).mulVec a := by
  funext i; fin_cases i <;> simp [skew, Matrix.mulVec, dotProduct, Fin.sum_univ_succ] <;> ring

theorem skew_tr (a : V3) : (skew a).transpose = -skew a := by
  ext i j; fin_cases i <;> fin_cases j <;> simp [skew]

theorem hcat_mulVec (A B : M3) (d : ℕ → ℝ) : (hcat A B).mulVec (fun i => d i) = A.mulVec (sl d 0) + B.mulVec (sl d 3) := by
  funext i
  simp [hcat, Matrix.mulVec, dotProduct, Fin.sum_univ_succ, sl]
  ring

/-- the global position of an anchored point moves as the anchored Jacobians say. -/
theorem world_deriv {A cal : Pose} (hA : IsUnitQ A.q) (hc : IsUnitQ cal.q) (dA dc : ℕ → ℝ) {x : ℝ → V3} {x' : V3} (hx : HasDv x x') :
    HasDv (fun e => Spec.world (A.update (fun i => e * dA i)) (cal.update (fun i => e * dc i)) (x e))
      ((A.R.transpose * cal.R.transpose).mulVec x'
        + (hcat (-A.R.transpose * skew (cal.R.transpose.mulVec (x 0 - cal.p))) 1).mulVec (fun i => dA i)
        + (hcat (-(A.R.transpose * cal.R.transpose) * skew (x 0 - cal.p)) (-(A.R.transpose * cal.R.transpose))).mulVec (fun i => dc i)) := by
  have h1 := ((Pose.R_deriv hc dc).tr).mulVec (hx.sub (Pose.p_deriv cal dc))
  have h2 := ((Pose.R_deriv hA dA).tr).mulVec h1
  refine (h2.add (Pose.p_deriv A dA)).congr' ?_
  simp only [Pose.R0 hA, Pose.R0 hc, Pose.p0, hcat_mulVec, Matrix.transpose_mul, Matrix.transpose_neg, skew_tr, neg_neg]
  generalize x 0 - cal.p = y
  simp only [← Matrix.mulVec_mulVec, Matrix.mulVec_add, Matrix.mulVec_sub, Matrix.neg_mulVec, Matrix.one_mulVec]
  simp only [skew_swap (sl dA 0), skew_swap (sl dc 0), Matrix.mulVec_neg]
  abel

/-- the position in the camera of a moving point, moving body and moving extrinsics. -/
theorem inCam_deriv {A cal : Pose} (hA : IsUnitQ A.q) (hc : IsUnitQ cal.q) (dA dc : ℕ → ℝ) {g : ℝ → V3} {g' : V3} (hg : HasDv g g') :
    HasDv (fun e => Spec.inCam (A.update (fun i => e * dA i)) (cal.update (fun i => e * dc i)) (g e))
      ((cal.R * A.R).mulVec g'
        + (hcat (cal.R * skew (A.R.mulVec (g 0 - A.p))) (-(cal.R * A.R))).mulVec (fun i => dA i)
        + (hcat (skew (Spec.inCam A cal (g 0) - cal.p)) 1).mulVec (fun i => dc i)) := by
  have h1 := (Pose.R_deriv hA dA).mulVec (hg.sub (Pose.p_deriv A dA))
  have h2 := (Pose.R_deriv hc dc).mulVec h1
  refine (h2.add (Pose.p_deriv cal dc)).congr' ?_
  simp only [Pose.R0 hA, Pose.R0 hc, Pose.p0, hcat_mulVec, Spec.inCam, add_sub_cancel_right]
  generalize g 0 - A.p = y
  simp only [← Matrix.mulVec_mulVec, Matrix.mulVec_add, Matrix.mulVec_sub, Matrix.neg_mulVec, Matrix.one_mulVec]
  simp only [skew_swap (sl dA 0), skew_swap (sl dc 0), Matrix.mulVec_neg, neg_neg]
  abel

theorem proj_deriv {x : ℝ → V3} {x' : V3} (hx : HasDv x x') (h : x 0 2 ≠ 0) :
    HasDv (fun e => (![x e 0 / x e 2, x e 1 / x e 2] : Cam.V2)) ((projJac (x 0)).mulVec x') := by
  intro i
  fin_cases i
  · refine ((hx 0).fun_div (hx 2) h).congr_deriv ?_
    simp [projJac, Matrix.mulVec, dotProduct, Fin.sum_univ_succ]; field_simp; ring
  · refine ((hx 1).fun_div (hx 2) h).congr_deriv ?_
    simp [projJac, Matrix.mulVec, dotProduct, Fin.sum_univ_succ]; field_simp; ring

/-- where the fisheye Jacobian is right: away from the optical centre (C33). -/
def CamOK (k : Cam.Kind) (u : Cam.V2) : Prop := k = .equi → 1e-8 < Cam.rad u

theorem distort_deriv {k : Cam.Kind} {d : ℝ → Cam.Intr} {u : ℝ → Cam.V2} {d' : Cam.Intr} {u' : Cam.V2} (hd : HasDv d d') (hu : HasDv u u')
    (h : CamOK k (u 0)) :
    HasDv (fun e => Cam.distort k (d e) (u e)) ((Cam.distortN k (d 0) (u 0)).mulVec u' + (Cam.distortZ k (d 0) (u 0)).mulVec d') := by
  cases k
  · exact Cam.C32_radtan_jacobian hd hu
  · exact Cam.C33_equi_jacobian_partial hd hu (h rfl)

end Verif.Upd
