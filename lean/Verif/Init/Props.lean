import Verif.Init.Model
import Verif.Quat.Props
import Verif.Quat.Exp
import Mathlib.Tactic

/-!
# C50, C51: the gravity aligned frame and the gravity constraint polynomial
-/

set_option linter.unusedSimpArgs false

open Classical

namespace Verif.Init

open Verif

/-! ## C50 -/

theorem norm3_pos {v : V3} (h : v ≠ 0) : 0 < norm3 v := by
  rcases (show 0 ≤ norm3 v from Real.sqrt_nonneg _).lt_or_eq with h1 | h1
  · exact h1
  · exact absurd (norm3_eq_zero.1 h1.symm) h

theorem unitV_dot {v : V3} (h : v ≠ 0) : dot3 (unitV v) (unitV v) = 1 := by
  have h0 := norm3_pos h
  have h1 := norm3_sq' v
  rw [unitV]
  simp only [dot3, Pi.smul_apply, smul_eq_mul] at *
  field_simp
  nlinarith

theorem cols_isRot {x y z : V3} (hx : dot3 x x = 1) (hz : dot3 z z = 1) (hxz : dot3 x z = 0) (hy : y = cross z x) : IsRot (cols x y z) := by
  subst hy
  simp only [dot3] at hx hz hxz
  constructor
  · apply m3_ext <;> simp [cols, cross, Matrix.mul_apply, Fin.sum_univ_three, Matrix.transpose_apply] <;> grind
  · rw [Matrix.det_fin_three]
    simp [cols, cross]
    grind

theorem cross_dot (z x : V3) (hz : dot3 z z = 1) (hx : dot3 x x = 1) (hxz : dot3 x z = 0) : dot3 (cross z x) (cross z x) = 1 := by
  simp only [dot3, cross] at *
  simp
  grind

theorem unitV_of_unit {v : V3} (h : dot3 v v = 1) : unitV v = v := by
  rw [unitV, norm3, h, Real.sqrt_one, div_one, one_smul]

theorem norm3_of_unit {v : V3} (h : dot3 v v = 1) : norm3 v = 1 := by rw [norm3, h, Real.sqrt_one]

theorem gram_axes (g : V3) (hg : g ≠ 0) : ∃ x : V3, dot3 x x = 1 ∧ dot3 x (unitV g) = 0 ∧ gramSchmidt g = cols x (cross (unitV g) x) (unitV g) := by
  have hz := unitV_dot hg
  have hn := norm3_of_unit hz
  rw [gramSchmidt]
  simp only [hn, div_one]
  generalize unitV g = z at hz hn
  have key : ∀ e : V3, cross z e ≠ 0 → dot3 (unitV (cross z e)) z = 0 := by
    intro e he
    rw [unitV]
    simp only [dot3, cross, Pi.smul_apply, smul_eq_mul]
    simp
    ring
  have fin : ∀ x : V3, dot3 x x = 1 → dot3 x z = 0 → unitV (cross z x) = cross z x := by
    intro x hx hxz
    exact unitV_of_unit (cross_dot z x hz hx hxz)
  have hd1 : dot3 ![1, 0, 0] z = z 0 := by simp [dot3]
  have hd2 : dot3 ![0, 1, 0] z = z 1 := by simp [dot3]
  rw [hd1, hd2]
  simp only [dot3] at hz
  split_ifs with hlt
  · have hne : cross z ![1, 0, 0] ≠ 0 := by
      intro h0
      have e1 := congrFun h0 1
      have e2 := congrFun h0 2
      simp [cross] at e1 e2
      rw [e2] at hlt
      simp at hlt
      exact absurd hlt (not_lt.2 (abs_nonneg _))
    exact ⟨_, unitV_dot hne, key _ hne, by rw [fin _ (unitV_dot hne) (key _ hne)]⟩
  · have hne : cross z ![0, 1, 0] ≠ 0 := by
      intro h0
      have e1 := congrFun h0 0
      have e2 := congrFun h0 2
      simp [cross] at e1 e2
      rw [e2] at hlt
      simp only [abs_zero, not_lt] at hlt
      have : z 1 = 0 := abs_eq_zero.1 (le_antisymm hlt (abs_nonneg _))
      rw [this, e2, e1] at hz
      norm_num at hz
    exact ⟨_, unitV_dot hne, key _ hne, by rw [fin _ (unitV_dot hne) (key _ hne)]⟩

/-- **C50** For every non-zero vector `gram_schmidt` gives a proper rotation; it maps the global vertical `(0,0,1)` to the direction of the given vector, and hence
the gravity vector `(0,0,|g|)` to `g`. -/
theorem C50_gram_schmidt (g : V3) (hg : g ≠ 0) :
    IsRot (gramSchmidt g) ∧ (gramSchmidt g).mulVec ![0, 0, 1] = unitV g ∧ (gramSchmidt g).mulVec ![0, 0, norm3 g] = g := by
  obtain ⟨x, hx, hxz, he⟩ := gram_axes g hg
  have hz := unitV_dot hg
  have hc : ∀ c : ℝ, (gramSchmidt g).mulVec ![0, 0, c] = c • unitV g := by
    intro c
    rw [he]
    ext i
    fin_cases i <;> simp [cols, Matrix.mulVec, dotProduct, Fin.sum_univ_three] <;> ring
  refine ⟨by rw [he]; exact cols_isRot hx hz hxz rfl, by rw [hc, one_smul], ?_⟩
  rw [hc, unitV, smul_smul, mul_one_div_cancel (norm3_pos hg).ne', one_smul]

/-- a tilted vector meets the hypothesis -/
example : (![1, 2, -3] : V3) ≠ 0 := fun h => by have := congrFun h 0; simp at this

/-! ## C51 -/

section Poly
variable (D : M3) (d : V3) (g lam : ℝ)

/-- the polynomial with the coefficients `c`, from the highest to the constant -/
def Spec.poly (c : Fin 7 → ℝ) (x : ℝ) : ℝ := c 0 * x ^ 6 + c 1 * x ^ 5 + c 2 * x ^ 4 + c 3 * x ^ 3 + c 4 * x ^ 2 + c 5 * x + c 6

/-- second coefficient of the characteristic polynomial -/
def minors (D : M3) : ℝ := D 0 0 * D 1 1 - D 0 1 * D 1 0 + (D 0 0 * D 2 2 - D 0 2 * D 2 0) + (D 1 1 * D 2 2 - D 1 2 * D 2 1)

theorem adj00 (A : M3) : A.adjugate = !![A 1 1 * A 2 2 - A 1 2 * A 2 1, -(A 0 1 * A 2 2) + A 0 2 * A 2 1, A 0 1 * A 1 2 - A 0 2 * A 1 1;
    -(A 1 0 * A 2 2) + A 1 2 * A 2 0, A 0 0 * A 2 2 - A 0 2 * A 2 0, -(A 0 0 * A 1 2) + A 0 2 * A 1 0;
    A 1 0 * A 2 1 - A 1 1 * A 2 0, -(A 0 0 * A 2 1) + A 0 1 * A 2 0, A 0 0 * A 1 1 - A 0 1 * A 1 0] := Matrix.adjugate_fin_three A

variable (hg : g ≠ 0)
include hg

theorem dongsi_c1 : dongsi D d g 1 = -2 * tr3 D := by
  simp only [dongsi, dongsi1, tr3, Matrix.cons_val_one, Matrix.cons_val_zero]
  field_simp

theorem dongsi_c2 : dongsi D d g 2 = tr3 D ^ 2 + 2 * minors D - dot3 d d / g ^ 2 := by
  simp only [dongsi, dongsi2, tr3, minors, dot3, Matrix.cons_val]
  field_simp; ring

theorem dongsi_c3 : dongsi D d g 3 = -2 * D.det - 2 * tr3 D * minors D - 2 * dot3 d ((D - tr3 D • (1 : M3)).mulVec d) / g ^ 2 := by
  rw [Matrix.det_fin_three]
  simp only [dongsi, dongsi3, tr3, minors, dot3, Matrix.cons_val, m3_mulVec_apply, Matrix.sub_apply, Matrix.smul_apply, one3, smul_eq_mul]
  simp
  field_simp; ring

theorem dongsi_c4 : dongsi D d g 4 = 2 * tr3 D * D.det + minors D ^ 2 -
    (dot3 d ((D - tr3 D • (1 : M3)).mulVec ((D - tr3 D • (1 : M3)).mulVec d)) + 2 * dot3 d (D.adjugate.mulVec d)) / g ^ 2 := by
  rw [Matrix.det_fin_three, adj00]
  simp only [dongsi, dongsi4, tr3, minors, dot3, Matrix.cons_val, m3_mulVec_apply, Matrix.sub_apply, Matrix.smul_apply, one3, smul_eq_mul]
  simp
  field_simp; ring

theorem dongsi_c5 : dongsi D d g 5 = -2 * minors D * D.det -
    (dot3 d ((D - tr3 D • (1 : M3)).mulVec (D.adjugate.mulVec d)) + dot3 d (D.adjugate.mulVec ((D - tr3 D • (1 : M3)).mulVec d))) / g ^ 2 := by
  rw [Matrix.det_fin_three, adj00]
  simp only [dongsi, dongsi5, tr3, minors, dot3, Matrix.cons_val, m3_mulVec_apply, Matrix.sub_apply, Matrix.smul_apply, one3, smul_eq_mul]
  simp
  field_simp; ring

theorem dongsi_c6 : dongsi D d g 6 = D.det ^ 2 - dot3 d (D.adjugate.mulVec (D.adjugate.mulVec d)) / g ^ 2 := by
  rw [Matrix.det_fin_three, adj00]
  simp only [dongsi, dongsi6, tr3, minors, dot3, Matrix.cons_val, m3_mulVec_apply]
  simp
  field_simp; ring

omit hg in
theorem det_shift : (D - lam • (1 : M3)).det = -lam ^ 3 + tr3 D * lam ^ 2 - minors D * lam + D.det := by
  rw [Matrix.det_fin_three, Matrix.det_fin_three]
  simp [tr3, minors, Matrix.sub_apply, Matrix.smul_apply, one3]
  ring

omit hg in
theorem adj_shift (x : V3) : (D - lam • (1 : M3)).adjugate.mulVec x = lam ^ 2 • x + lam • (D - tr3 D • (1 : M3)).mulVec x + D.adjugate.mulVec x := by
  rw [adj00, adj00]
  apply v3_ext <;> simp [m3_mulVec_apply, tr3, Matrix.sub_apply, Matrix.smul_apply, one3, Matrix.vecHead, Matrix.vecTail] <;> ring

theorem poly_eq : Spec.poly (dongsi D d g) lam =
    (D - lam • (1 : M3)).det ^ 2 - dot3 d ((D - lam • (1 : M3)).adjugate.mulVec ((D - lam • (1 : M3)).adjugate.mulVec d)) / g ^ 2 := by
  have c0 : dongsi D d g 0 = 1 := rfl
  rw [Spec.poly, c0, dongsi_c1 D d g hg, dongsi_c2 D d g hg, dongsi_c3 D d g hg, dongsi_c4 D d g hg, dongsi_c5 D d g hg, dongsi_c6 D d g hg, det_shift,
    adj_shift, adj_shift]
  simp only [Matrix.mulVec_add, Matrix.mulVec_smul]
  generalize (D - tr3 D • (1 : M3)).mulVec d = a
  generalize hA : D.adjugate.mulVec d = b
  generalize (D - tr3 D • (1 : M3)).mulVec a = aa
  generalize (D - tr3 D • (1 : M3)).mulVec b = ab
  generalize D.adjugate.mulVec a = ba
  generalize D.adjugate.mulVec b = bb
  generalize tr3 D = t
  generalize minors D = s
  generalize D.det = e
  simp only [dot3, Pi.add_apply, Pi.smul_apply, smul_eq_mul]
  field_simp; ring

end Poly

/-- eigenvalues of a companion matrix -/
theorem companion_eigen (c : Fin 7 → ℝ) (hc : c 0 = 1) (x : ℝ) : (∃ v : Fin 6 → ℝ, v ≠ 0 ∧ (companion c).mulVec v = x • v) ↔ Spec.poly c x = 0 := by
  constructor
  · rintro ⟨v, hv, he⟩
    have e0 := congrFun he 0
    have e1 := congrFun he 1
    have e2 := congrFun he 2
    have e3 := congrFun he 3
    have e4 := congrFun he 4
    have e5 := congrFun he 5
    simp [companion, Matrix.mulVec, dotProduct, Fin.sum_univ_succ, show Fin.succ (4 : Fin 5) = 5 by rfl] at e0 e1 e2 e3 e4 e5
    have hmul : Spec.poly c x * v 5 = 0 := by
      rw [Spec.poly, hc]
      linear_combination -e0 - x * e1 - x ^ 2 * e2 - x ^ 3 * e3 - x ^ 4 * e4 - x ^ 5 * e5
    rcases mul_eq_zero.1 hmul with h | h
    · exact h
    · exfalso
      rw [h] at e0 e1 e2 e3 e4 e5
      have h4 : v 4 = 0 := by linarith
      rw [h4] at e4
      have h3 : v 3 = 0 := by linarith
      rw [h3] at e3
      have h2 : v 2 = 0 := by linarith
      rw [h2] at e2
      have h1 : v 1 = 0 := by linarith
      rw [h1] at e1
      have h0 : v 0 = 0 := by linarith
      apply hv
      ext i
      fin_cases i <;> simp [h0, h1, h2, h3, h4, h]
  · intro h
    rw [Spec.poly, hc] at h
    refine ⟨![x ^ 5 + c 1 * x ^ 4 + c 2 * x ^ 3 + c 3 * x ^ 2 + c 4 * x + c 5, x ^ 4 + c 1 * x ^ 3 + c 2 * x ^ 2 + c 3 * x + c 4,
      x ^ 3 + c 1 * x ^ 2 + c 2 * x + c 3, x ^ 2 + c 1 * x + c 2, x + c 1, 1], ?_, ?_⟩
    · intro h0
      have := congrFun h0 5
      simp at this
    · ext i
      fin_cases i <;> simp [companion, Matrix.mulVec, dotProduct, Fin.sum_univ_succ] <;> linarith

/-- **C51** For every symmetric `D`, every `d`, every gravity magnitude `g > 0` and every real `λ` that is not an eigenvalue of `D`: `λ` is a root of the returned
polynomial exactly if the unique solution `v` of `(D - λ I) v = d` has length `g`. -/
theorem C51_roots (D : M3) (hD : D.transpose = D) (d : V3) (g : ℝ) (hg : 0 < g) (lam : ℝ) (hl : (D - lam • (1 : M3)).det ≠ 0) :
    (Spec.poly (dongsi D d g) lam = 0 ↔ ∃ v : V3, (D - lam • (1 : M3)).mulVec v = d ∧ norm3 v = g) ∧
    (∀ v w : V3, (D - lam • (1 : M3)).mulVec v = d → (D - lam • (1 : M3)).mulVec w = d → v = w) ∧ dongsi D d g 0 = 1 := by
  set A := D - lam • (1 : M3) with hA
  have hAs : A.transpose = A := by rw [hA, Matrix.transpose_sub, Matrix.transpose_smul, Matrix.transpose_one, hD]
  have hadjs : A.adjugate.transpose = A.adjugate := by rw [Matrix.adjugate_transpose, hAs]
  have hsolve : ∀ v : V3, A.mulVec v = d → v = (1 / A.det) • A.adjugate.mulVec d := by
    intro v hv
    rw [← hv, Matrix.mulVec_mulVec, Matrix.adjugate_mul, Matrix.smul_mulVec, Matrix.one_mulVec, smul_smul, one_div_mul_cancel hl, one_smul]
  have hsol : A.mulVec ((1 / A.det) • A.adjugate.mulVec d) = d := by
    rw [Matrix.mulVec_smul, Matrix.mulVec_mulVec, Matrix.mul_adjugate, Matrix.smul_mulVec, Matrix.one_mulVec, smul_smul, one_div_mul_cancel hl, one_smul]
  have hdot : dot3 d (A.adjugate.mulVec (A.adjugate.mulVec d)) = dot3 (A.adjugate.mulVec d) (A.adjugate.mulVec d) := by
    have e : ∀ a b : V3, dot3 a b = a ⬝ᵥ b := fun a b => by simp [dot3, dotProduct, Fin.sum_univ_three]
    rw [e, e, Matrix.dotProduct_mulVec, ← Matrix.mulVec_transpose, hadjs]
  refine ⟨?_, fun v w hv hw => by rw [hsolve v hv, hsolve w hw], rfl⟩
  rw [poly_eq D d g lam hg.ne', ← hA, hdot]
  have hn : norm3 ((1 / A.det) • A.adjugate.mulVec d) ^ 2 = dot3 (A.adjugate.mulVec d) (A.adjugate.mulVec d) / A.det ^ 2 := by
    rw [pow_two, norm3_sq, show dot3 ((1 / A.det) • A.adjugate.mulVec d) ((1 / A.det) • A.adjugate.mulVec d) = (1 / A.det) ^ 2 * dot3 (A.adjugate.mulVec d) (A.adjugate.mulVec d) by
      simp only [dot3, Pi.smul_apply, smul_eq_mul]; ring]
    field_simp
  constructor
  · intro h
    refine ⟨_, hsol, ?_⟩
    have h2 : norm3 ((1 / A.det) • A.adjugate.mulVec d) ^ 2 = g ^ 2 := by
      rw [hn]; field_simp at h ⊢; linarith
    exact (pow_left_inj₀ (Real.sqrt_nonneg _) hg.le (by norm_num)).1 h2
  · rintro ⟨v, hv, hv2⟩
    rw [hsolve v hv] at hv2
    rw [hv2] at hn
    field_simp at hn ⊢
    linarith

/-- **C51** The real eigenvalues of the companion matrix built from the coefficients are exactly the roots of the polynomial. -/
theorem C51_companion (D : M3) (d : V3) (g : ℝ) (x : ℝ) :
    (∃ v : Fin 6 → ℝ, v ≠ 0 ∧ (companion (dongsi D d g)).mulVec v = x • v) ↔ Spec.poly (dongsi D d g) x = 0 := companion_eigen _ rfl x

/-- a non-trivial instance of the hypotheses: `D = diag(1,2,3)`, `d = (1,2,6)`, `g = 3`, `λ = 0`; and `0` is a root. -/
example : (!![1, 0, 0; 0, 2, 0; 0, 0, 3] : M3).transpose = !![1, 0, 0; 0, 2, 0; 0, 0, 3] ∧ ((!![1, 0, 0; 0, 2, 0; 0, 0, 3] : M3) - (0 : ℝ) • (1 : M3)).det ≠ 0 ∧
    (((!![1, 0, 0; 0, 2, 0; 0, 0, 3] : M3) - (0 : ℝ) • (1 : M3)).mulVec ![1, 1, 2] = ![1, 2, 6]) := by
  refine ⟨?_, ?_, ?_⟩
  · apply m3_ext <;> simp [Matrix.transpose_apply]
  · rw [zero_smul, sub_zero, Matrix.det_fin_three]; simp
  · rw [zero_smul, sub_zero]
    apply v3_ext <;> simp [m3_mulVec_apply]
    norm_num

end Verif.Init
