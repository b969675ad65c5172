import Verif.State.PropsB
import Mathlib.LinearAlgebra.Matrix.SchurComplement

/-!
# The EKF update in information form (C06)
-/

set_option linter.unusedVariables false
open Classical

namespace Verif.St

open Verif Verif.Types Finset Mat

variable {lib : Lib} {s s' : State}

/-- the information form of a Kalman update. -/
theorem info_form {m n : ℕ} (F : Matrix (Fin m) (Fin n) ℝ) (P : Matrix (Fin n) (Fin n) ℝ) (R : Matrix (Fin m) (Fin m) ℝ) (hR : IsUnit R)
    (hS : IsUnit (F * P * F.transpose + R)) :
    (P - P * F.transpose * (F * P * F.transpose + R)⁻¹ * (F * P)) * (1 + F.transpose * R⁻¹ * F * P) = P ∧ IsUnit (1 + F.transpose * R⁻¹ * F * P) ∧
      P * F.transpose * (F * P * F.transpose + R)⁻¹ = (P - P * F.transpose * (F * P * F.transpose + R)⁻¹ * (F * P)) * F.transpose * R⁻¹ := by
  have hRd := (Matrix.isUnit_iff_isUnit_det _).1 hR
  have hSd := (Matrix.isUnit_iff_isUnit_det _).1 hS
  set S := F * P * F.transpose + R with hSdef
  have hFPF : F * P * F.transpose = S - R := by rw [hSdef]; abel
  have hSR : S⁻¹ * (S - R) * R⁻¹ = R⁻¹ - S⁻¹ := by
    rw [Matrix.mul_sub, Matrix.nonsing_inv_mul _ hSd, Matrix.sub_mul, Matrix.one_mul, Matrix.mul_assoc, Matrix.mul_nonsing_inv _ hRd, Matrix.mul_one]
  refine ⟨?_, ?_, ?_⟩
  · have e : P * F.transpose * S⁻¹ * (F * P) * (F.transpose * R⁻¹ * F * P) = P * F.transpose * R⁻¹ * F * P - P * F.transpose * S⁻¹ * (F * P) := by
      calc P * F.transpose * S⁻¹ * (F * P) * (F.transpose * R⁻¹ * F * P)
          = P * F.transpose * (S⁻¹ * (F * P * F.transpose) * R⁻¹) * (F * P) := by simp only [Matrix.mul_assoc]
        _ = _ := by rw [hFPF, hSR, Matrix.mul_sub, Matrix.sub_mul]; simp only [Matrix.mul_assoc]
    rw [Matrix.mul_add, Matrix.mul_one, Matrix.sub_mul, e]
    have e2 : P * (F.transpose * R⁻¹ * F * P) = P * F.transpose * R⁻¹ * F * P := by simp only [Matrix.mul_assoc]
    rw [e2]; abel
  · rw [Matrix.isUnit_iff_isUnit_det]
    have e : 1 + F.transpose * R⁻¹ * F * P = 1 + F.transpose * (R⁻¹ * (F * P)) := by simp only [Matrix.mul_assoc]
    rw [e, Matrix.det_one_add_mul_comm]
    have e3 : 1 + R⁻¹ * (F * P) * F.transpose = R⁻¹ * S := by
      rw [hSdef, Matrix.mul_add, Matrix.nonsing_inv_mul _ hRd, add_comm]; simp only [Matrix.mul_assoc]
    rw [e3, Matrix.det_mul]
    exact ((Matrix.isUnit_nonsing_inv_det_iff).2 hRd).mul hSd
  · rw [Matrix.sub_mul, Matrix.sub_mul]
    have e : P * F.transpose * S⁻¹ * (F * P) * F.transpose * R⁻¹ = P * F.transpose * (S⁻¹ * (F * P * F.transpose) * R⁻¹) := by simp only [Matrix.mul_assoc]
    rw [e, hFPF, hSR, Matrix.mul_sub, sub_sub_cancel]

namespace Spec

/-- the state `s'` is the posterior of `s` given the information matrix `Λ` and vector `b` (of the error state): `cov' (1 + Λ cov) = cov` with
an invertible factor, that is `cov' = (cov⁻¹ + Λ)⁻¹` if `cov` is invertible, and every active variable is corrected by its own slice of `cov' b`.
Ids, first estimates, the list of variables and all other objects are the same. -/
structure Posterior (s s' : State) (Λ : Matrix (Fin s.n) (Fin s.n) ℝ) (b : Fin s.n → ℝ) : Prop where
  n : s'.n = s.n
  unit : IsUnit (1 + Λ * cov s)
  cov : mat s.n s.n s'.P * (1 + Λ * cov s) = cov s
  vars : s'.vars = s.vars
  val : ∀ u ∈ s.vars, ∃ k : ℕ, (s.obj u).id = k ∧ ∃ dx : ℕ → ℝ,
    (∀ i, i < dim s u → ∃ hi : k + i < s.n, dx i = (mat s.n s.n s'.P).mulVec b ⟨k + i, hi⟩) ∧ (s'.obj u).val = (s.obj u).val.update dx
  other : ∀ u, u ∉ s.vars → s'.obj u = s.obj u
  same : ∀ u, (s'.obj u).id = (s.obj u).id ∧ (s'.obj u).fej = (s.obj u).fej

end Spec

/-- **C06** (information form) The EKF update adds the information `Hᵀ R⁻¹ H` of the measurement to that of the state and corrects the estimate by
the new covariance times `Hᵀ R⁻¹ res`. -/
theorem C06_information_form (hlib : Spec.LibOK lib) (hs : Spec.ReachOK lib s) (order : List Ref) (H R : DMat) (res : DVec)
    (hRs : Mat.Sym R.rows R.a) (hR : PD R.rows R.a) (h : update lib s order H res R = some s') :
    ∃ L, resolveAll s order = some L ∧
      let F := Spec.full L R.rows s.n H.a
      let Ri := (Spec.mat R.rows R.rows R.a)⁻¹
      Spec.Posterior s s' (F.transpose * Ri * F) ((F.transpose * Ri).mulVec (Spec.vec R.rows res.a)) := by
  obtain ⟨L, hL, hu, hn, hcov, -, hval, hoth, hsame, hvars⟩ := C06_update_is_kalman hlib hs order H R res hRs hR h
  refine ⟨L, hL, ?_⟩
  have hRu : IsUnit (Spec.mat R.rows R.rows R.a) := pd_isUnit hR
  obtain ⟨i1, i2, i3⟩ := info_form (Spec.full L R.rows s.n H.a) (Spec.cov s) (Spec.mat R.rows R.rows R.a) hRu hu
  rw [← hcov] at i1 i3
  refine ⟨hn, i2, i1, hvars, fun u hu' => ?_, hoth, hsame⟩
  obtain ⟨k, hk, dx, hdx, hv⟩ := hval u hu'
  refine ⟨k, hk, dx, fun i hi => ?_, hv⟩
  obtain ⟨hki, e⟩ := hdx i hi
  refine ⟨hki, ?_⟩
  rw [e, i3, Matrix.mulVec_mulVec, Matrix.mul_assoc]

end Verif.St
