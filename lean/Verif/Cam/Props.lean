import Verif.Cam.Model
import Verif.Quat.Deriv
import Mathlib.Analysis.SpecialFunctions.Trigonometric.ArctanDeriv

/-!
# Properties of the camera models (C32, C33)

Both are stated for arbitrary differentiable motions of the point and of the intrinsics, so that the Jacobians are the partial derivatives in
every direction and the total derivative.
-/

open Classical

namespace Verif.Cam

open Verif

/-- **C32** Along every differentiable motion of the normalised point and of the eight intrinsics, the distorted pixel changes at the rate given
by the two Jacobians — at every point and for all intrinsics. -/
theorem C32_radtan_jacobian {d : ℝ → Intr} {u : ℝ → V2} {d' : Intr} {u' : V2} (hd : HasDv d d') (hu : HasDv u u') :
    HasDv (fun e => radtan (d e) (u e)) ((radtanN (d 0) (u 0)).mulVec u' + (radtanZ (d 0) (u 0)).mulVec d') := by
  have sq : ∀ x y : ℝ, Real.sqrt (x * x + y * y) * Real.sqrt (x * x + y * y) = x * x + y * y := fun x y => Real.mul_self_sqrt (by nlinarith)
  have h2 : HasDerivAt (fun e => u e 0 * u e 0 + u e 1 * u e 1) _ 0 := ((hu 0).fun_mul (hu 0)).fun_add ((hu 1).fun_mul (hu 1))
  have h4 := h2.fun_mul h2
  have hr := (((hd 4).fun_mul h2).const_add 1).fun_add ((hd 5).fun_mul h4)
  intro i
  fin_cases i
  · simp only [radtan, sq]
    have := ((hd 0).fun_mul ((((hu 0).fun_mul hr).fun_add ((((hd 6).const_mul 2).fun_mul (hu 0)).fun_mul (hu 1))).fun_add
      ((hd 7).fun_mul (h2.fun_add (((hu 0).const_mul 2).fun_mul (hu 0)))))).fun_add (hd 2)
    refine (this.congr_deriv ?_)
    simp [radtanN, radtanZ, Matrix.mulVec, dotProduct, Fin.sum_univ_succ, sq]
    ring
  · simp only [radtan, sq]
    have := ((hd 1).fun_mul ((((hu 1).fun_mul hr).fun_add ((hd 6).fun_mul (h2.fun_add (((hu 1).const_mul 2).fun_mul (hu 1))))).fun_add
      ((((hd 7).const_mul 2).fun_mul (hu 0)).fun_mul (hu 1)))).fun_add (hd 3)
    refine (this.congr_deriv ?_)
    simp [radtanN, radtanZ, Matrix.mulVec, dotProduct, Fin.sum_univ_succ, sq]
    ring

/-- distance of a point from the optical centre. -/
noncomputable def rad (u : V2) : ℝ := Real.sqrt (u 0 * u 0 + u 1 * u 1)

theorem rad_sq (u : V2) : rad u * rad u = u 0 * u 0 + u 1 * u 1 := Real.mul_self_sqrt (by nlinarith [mul_self_nonneg (u 0), mul_self_nonneg (u 1)])

theorem rad_deriv {u : ℝ → V2} {u' : V2} (hu : HasDv u u') (h : 1e-8 < rad (u 0)) :
    HasDerivAt (fun e => rad (u e)) ((u 0 0 * u' 0 + u 0 1 * u' 1) / rad (u 0)) 0 := by
  have h2 : HasDerivAt (fun e => u e 0 * u e 0 + u e 1 * u e 1) _ 0 := ((hu 0).fun_mul (hu 0)).fun_add ((hu 1).fun_mul (hu 1))
  have hpos : 0 < rad (u 0) := lt_trans (by norm_num) h
  have hne : u 0 0 * u 0 0 + u 0 1 * u 0 1 ≠ 0 := by rw [← rad_sq]; positivity
  have := h2.sqrt hne
  refine this.congr_deriv ?_
  show _ / (2 * rad (u 0)) = _
  field_simp
  ring

/-- **C33** (away from the centre) At every point further than `1e-8` from the optical centre the fisheye Jacobians are the derivatives, along
every differentiable motion of point and intrinsics. Missing: the centre itself, where the claim is false (`C33_centre_wrong`). -/
theorem C33_equi_jacobian_partial {d : ℝ → Intr} {u : ℝ → V2} {d' : Intr} {u' : V2} (hd : HasDv d d') (hu : HasDv u u')
    (h : 1e-8 < rad (u 0)) :
    HasDv (fun e => equi (d e) (u e)) ((equiN (d 0) (u 0)).mulVec u' + (equiZ (d 0) (u 0)).mulVec d') := by
  have hr := rad_deriv hu h
  have hpos : 0 < rad (u 0) := lt_trans (by norm_num) h
  have hne := hpos.ne'
  have hev : ∀ᶠ e in nhds (0:ℝ), 1e-8 < rad (u e) := hr.continuousAt.eventually (lt_mem_nhds h)
  have hth := hr.arctan
  have hthd := ((((hth.fun_add ((hd 4).fun_mul (hth.fun_pow 3))).fun_add ((hd 5).fun_mul (hth.fun_pow 5))).fun_add
    ((hd 6).fun_mul (hth.fun_pow 7))).fun_add ((hd 7).fun_mul (hth.fun_pow 9)))
  have hc := hthd.fun_div hr hne
  have key : ∀ e, 1e-8 < rad (u e) → equi (d e) (u e) =
      ![d e 0 * (u e 0 * (thetaD (d e) (Real.arctan (rad (u e))) / rad (u e))) + d e 2,
        d e 1 * (u e 1 * (thetaD (d e) (Real.arctan (rad (u e))) / rad (u e))) + d e 3] := by
    intro e he
    have he' : 1e-8 < Real.sqrt (u e 0 * u e 0 + u e 1 * u e 1) := he
    simp only [equi, if_pos he', mul_one_div]
    rfl
  have hs : rad (u 0) ^ 2 = u 0 0 ^ 2 + u 0 1 ^ 2 := by rw [pow_two, rad_sq]; ring
  have h1 : 1 + rad (u 0) ^ 2 ≠ 0 := by positivity
  intro i
  fin_cases i
  · have := ((hd 0).fun_mul ((hu 0).fun_mul hc)).fun_add (hd 2)
    refine (this.congr_of_eventuallyEq (hev.mono fun e he => ?_)).congr_deriv ?_
    · simp only [key e he]; simp [thetaD]
    · have h' : 1e-8 < Real.sqrt (u 0 0 * u 0 0 + u 0 1 * u 0 1) := h
      simp only [equiN, equiZ, if_pos h']
      rw [show Real.sqrt (u 0 0 * u 0 0 + u 0 1 * u 0 1) = rad (u 0) from rfl]
      generalize rad (u 0) = r at *
      generalize Real.arctan r = th at *
      simp [Matrix.mulVec, dotProduct, Fin.sum_univ_succ, Matrix.mul_apply, thetaD]
      have hr1 : r * r + 1 ≠ 0 := by nlinarith [mul_self_nonneg r]
      field_simp
      ring
  · have := ((hd 1).fun_mul ((hu 1).fun_mul hc)).fun_add (hd 3)
    refine (this.congr_of_eventuallyEq (hev.mono fun e he => ?_)).congr_deriv ?_
    · simp only [key e he]; simp [thetaD]
    · have h' : 1e-8 < Real.sqrt (u 0 0 * u 0 0 + u 0 1 * u 0 1) := h
      simp only [equiN, equiZ, if_pos h']
      rw [show Real.sqrt (u 0 0 * u 0 0 + u 0 1 * u 0 1) = rad (u 0) from rfl]
      generalize rad (u 0) = r at *
      generalize Real.arctan r = th at *
      simp [Matrix.mulVec, dotProduct, Fin.sum_univ_succ, Matrix.mul_apply, thetaD]
      have hr1 : r * r + 1 ≠ 0 := by nlinarith [mul_self_nonneg r]
      field_simp
      ring

/-- **C33** (finding) At the optical centre the fisheye camera moves the pixel by `fx, fy` times the motion of the point, but
`compute_distort_jacobian` returns the zero matrix. -/
theorem C33_centre_wrong (d : Intr) (u' : V2) :
    HasDv (fun e => equi d (e • u')) ![d 0 * u' 0, d 1 * u' 1] ∧ equiN d 0 = 0 := by
  constructor
  · have hc : Filter.Tendsto (fun e : ℝ => rad (e • u')) (nhds 0) (nhds 0) := by
      have : Continuous fun e : ℝ => rad (e • u') := by unfold rad; simp only [Pi.smul_apply, smul_eq_mul]; fun_prop
      have h0 := this.tendsto 0
      simpa [rad] using h0
    have hev : ∀ᶠ e in nhds (0:ℝ), rad (e • u') < 1e-8 := hc.eventually (gt_mem_nhds (by norm_num))
    have key : ∀ e : ℝ, rad (e • u') < 1e-8 → equi d (e • u') = ![d 0 * (e * u' 0) + d 2, d 1 * (e * u' 1) + d 3] := by
      intro e he
      have he' : ¬ 1e-8 < Real.sqrt ((e • u') 0 * (e • u') 0 + (e • u') 1 * (e • u') 1) := not_lt.2 he.le
      simp only [equi, if_neg he']
      simp
    intro i
    fin_cases i
    · refine (((((hasDerivAt_id (0:ℝ)).mul_const (u' 0)).const_mul (d 0)).add_const (d 2)).congr_of_eventuallyEq
        (hev.mono fun e he => ?_)).congr_deriv (by simp)
      simp only [key e he]; simp
    · refine (((((hasDerivAt_id (0:ℝ)).mul_const (u' 1)).const_mul (d 1)).add_const (d 3)).congr_of_eventuallyEq
        (hev.mono fun e he => ?_)).congr_deriv (by simp)
      simp only [key e he]; simp
  · ext i j
    fin_cases i <;> fin_cases j <;> simp [equiN, Matrix.mul_apply, Fin.sum_univ_succ, thetaD]

/-- so with a non-zero focal length the returned matrix is not the derivative there. -/
theorem C33_centre_not_derivative (d : Intr) (h : d 0 ≠ 0) :
    ¬ ∀ u' : V2, HasDv (fun e => equi d (e • u')) ((equiN d 0).mulVec u') := by
  intro hc
  obtain ⟨h1, h2⟩ := C33_centre_wrong d ![1, 0]
  have h3 := hc ![1, 0]
  rw [h2, Matrix.zero_mulVec] at h3
  have := (h1 0).unique (h3 0)
  simp at this
  exact h this

/-- the hypothesis of C33 is met by every ordinary point, e.g. `(1, 0)`. -/
example : 1e-8 < rad ![1, 0] := by norm_num [rad]

end Verif.Cam
