import Mathlib.Data.Matrix.Mul
import Mathlib.Data.Real.Basic
import Mathlib.LinearAlgebra.Matrix.NonsingularInverse
import Mathlib.Algebra.BigOperators.Fin
import Mathlib.Algebra.Order.BigOperators.Group.Finset
import Mathlib.Tactic.Ring
import Mathlib.Tactic.Linarith
import Mathlib.Tactic.LinearCombination

/-!
# Dynamically sized matrices as functions on `ℕ × ℕ`

`Eigen::MatrixXd` values are modelled by functions `ℕ → ℕ → ℝ`; the number of rows and columns is tracked
separately and only entries inside the size are meaningful.  `toM r c A` is the Mathlib matrix of the first
`r × c` entries.
-/

namespace Verif

open Finset

/-- `Eigen::MatrixXd` (size tracked separately). -/
abbrev Mat := ℕ → ℕ → ℝ
/-- `Eigen::VectorXd`. -/
abbrev Vect := ℕ → ℝ

namespace Mat

/-- matrix of the first `r` rows and `c` columns. -/
def toM (r c : ℕ) (A : Mat) : Matrix (Fin r) (Fin c) ℝ := fun i j => A i j
/-- the first `n` entries of a vector. -/
def toV (n : ℕ) (x : Vect) : Fin n → ℝ := fun i => x i

/-- `A * B` where `k` is the inner dimension. -/
noncomputable def mul (k : ℕ) (A B : Mat) : Mat := fun i j => ∑ x ∈ range k, A i x * B x j
/-- `A.transpose()`. -/
def tr (A : Mat) : Mat := fun i j => A j i
/-- `A * x`. -/
noncomputable def mulVec (k : ℕ) (A : Mat) (x : Vect) : Vect := fun i => ∑ j ∈ range k, A i j * x j

/-- `A.block(r0,c0,h,w) = B` (Eigen block assignment). -/
def setBlock (r0 c0 h w : ℕ) (B A : Mat) : Mat := fun i j =>
  if (r0 ≤ i ∧ i < r0 + h) ∧ (c0 ≤ j ∧ j < c0 + w) then B (i - r0) (j - c0) else A i j

/-- `A.block(r0,c0,..)` (read). -/
def block (r0 c0 : ℕ) (A : Mat) : Mat := fun i j => A (r0 + i) (c0 + j)

/-- `A.selfadjointView<Eigen::Upper>()`: the symmetric matrix given by the upper triangle. -/
def mirrorU (A : Mat) : Mat := fun i j => if i ≤ j then A i j else A j i

/-- Symmetry of the leading `n × n` part. -/
def Sym (n : ℕ) (P : Mat) : Prop := ∀ i j, i < n → j < n → P i j = P j i

/-- the quadratic form `xᵀ P x` of the leading `n × n` part. -/
noncomputable def quad (n : ℕ) (P : Mat) (x : Vect) : ℝ := ∑ i ∈ range n, ∑ j ∈ range n, x i * P i j * x j

/-- Positive semi-definiteness of the leading `n × n` part. -/
def PSD (n : ℕ) (P : Mat) : Prop := ∀ x : Vect, 0 ≤ quad n P x

/-- Positive definiteness of the leading `n × n` part. -/
def PD (n : ℕ) (P : Mat) : Prop := ∀ x : Vect, (∃ i, i < n ∧ x i ≠ 0) → 0 < quad n P x

/-- Equality of the leading `r × c` part. -/
def EqOn (r c : ℕ) (A B : Mat) : Prop := ∀ i j, i < r → j < c → A i j = B i j

/-- the identity. -/
def one : Mat := fun i j => if i = j then 1 else 0

/-! ### bridging to Mathlib matrices -/

theorem toM_mul (r k c : ℕ) (A B : Mat) : toM r c (mul k A B) = toM r k A * toM k c B := by
  ext i j
  simp only [toM, mul, Matrix.mul_apply]
  rw [Finset.sum_range]

theorem toM_tr (r c : ℕ) (A : Mat) : toM r c (tr A) = (toM c r A).transpose := rfl

theorem toM_one (n : ℕ) : toM n n one = 1 := by
  ext i j
  simp only [toM, one, Matrix.one_apply, Fin.ext_iff]

theorem toV_mulVec (r k : ℕ) (A : Mat) (x : Vect) : toV r (mulVec k A x) = (toM r k A).mulVec (toV k x) := by
  ext i
  simp only [toV, mulVec, Matrix.mulVec, dotProduct, toM]
  rw [Finset.sum_range]

theorem eqOn_iff {r c : ℕ} {A B : Mat} : EqOn r c A B ↔ toM r c A = toM r c B := by
  constructor
  · intro h; ext i j; exact h i j i.2 j.2
  · intro h i j hi hj
    have := congrFun (congrFun h ⟨i, hi⟩) ⟨j, hj⟩
    exact this

theorem sym_iff {n : ℕ} {P : Mat} : Sym n P ↔ (toM n n P).transpose = toM n n P := by
  constructor
  · intro h; ext i j; exact h j i j.2 i.2
  · intro h i j hi hj
    have := congrFun (congrFun h ⟨j, hj⟩) ⟨i, hi⟩
    exact this

/-- quadratic form of a Mathlib matrix. -/
def mquad {n : ℕ} (P : Matrix (Fin n) (Fin n) ℝ) (x : Fin n → ℝ) : ℝ := dotProduct x (P.mulVec x)

theorem quad_eq (n : ℕ) (P : Mat) (x : Vect) : quad n P x = mquad (toM n n P) (toV n x) := by
  simp only [quad, mquad, dotProduct, Matrix.mulVec, toM, toV]
  rw [Finset.sum_range]
  refine Finset.sum_congr rfl fun i _ => ?_
  rw [Finset.sum_range, Finset.mul_sum]
  refine Finset.sum_congr rfl fun j _ => ?_
  ring

/-- extend a `Fin n` vector by zero. -/
def extV {n : ℕ} (x : Fin n → ℝ) : Vect := fun i => if h : i < n then x ⟨i, h⟩ else 0
/-- extend a matrix by zero. -/
def extM {r c : ℕ} (A : Matrix (Fin r) (Fin c) ℝ) : Mat :=
  fun i j => if h : i < r ∧ j < c then A ⟨i, h.1⟩ ⟨j, h.2⟩ else 0

theorem toV_extV {n : ℕ} (x : Fin n → ℝ) : toV n (extV x) = x := by
  ext i; simp [toV, extV]

theorem toM_extM {r c : ℕ} (A : Matrix (Fin r) (Fin c) ℝ) : toM r c (extM A) = A := by
  ext i j; simp [toM, extM]

theorem psd_iff {n : ℕ} {P : Mat} : PSD n P ↔ ∀ x, 0 ≤ mquad (toM n n P) x := by
  constructor
  · intro h x; have := h (extV x); rwa [quad_eq, toV_extV] at this
  · intro h x; rw [quad_eq]; exact h _

theorem pd_iff {n : ℕ} {P : Mat} : PD n P ↔ ∀ x, x ≠ 0 → 0 < mquad (toM n n P) x := by
  constructor
  · intro h x hx
    have h2 : ∃ i, i < n ∧ extV x i ≠ 0 := by
      by_contra hc
      push Not at hc
      apply hx; ext i
      have := hc i i.2
      simpa [extV] using this
    have := h (extV x) h2
    rwa [quad_eq, toV_extV] at this
  · intro h x ⟨i, hi, hx⟩
    rw [quad_eq]
    apply h
    intro h0
    exact hx (congrFun h0 ⟨i, hi⟩)

theorem eqOn_psd {n : ℕ} {A B : Mat} (h : EqOn n n A B) : PSD n A ↔ PSD n B := by
  rw [psd_iff, psd_iff, eqOn_iff.1 h]

theorem eqOn_sym {n : ℕ} {A B : Mat} (h : EqOn n n A B) : Sym n A ↔ Sym n B := by
  rw [sym_iff, sym_iff, eqOn_iff.1 h]

theorem PD.psd {n : ℕ} {P : Mat} (h : PD n P) : PSD n P := by
  intro x
  by_cases hx : ∃ i, i < n ∧ x i ≠ 0
  · exact (h x hx).le
  · push Not at hx
    have : quad n P x = 0 := by
      unfold quad
      refine Finset.sum_eq_zero fun i hi => Finset.sum_eq_zero fun j _ => ?_
      rw [hx i (Finset.mem_range.1 hi)]; ring
    rw [this]

/-! ### quadratic forms of Mathlib matrices -/

section M
variable {n m : ℕ}

theorem mquad_add (P Q : Matrix (Fin n) (Fin n) ℝ) (x) : mquad (P + Q) x = mquad P x + mquad Q x := by
  simp [mquad, Matrix.add_mulVec, dotProduct_add]

theorem mquad_congr (A : Matrix (Fin m) (Fin n) ℝ) (P : Matrix (Fin n) (Fin n) ℝ) (x : Fin m → ℝ) :
    mquad (A * P * A.transpose) x = mquad P (A.transpose.mulVec x) := by
  unfold mquad
  rw [← Matrix.mulVec_mulVec, ← Matrix.mulVec_mulVec, Matrix.dotProduct_mulVec, Matrix.mulVec_transpose]

theorem dot_mulVec_comm (A : Matrix (Fin m) (Fin n) ℝ) (x : Fin m → ℝ) (y : Fin n → ℝ) :
    dotProduct x (A.mulVec y) = dotProduct y (A.transpose.mulVec x) := by
  rw [Matrix.dotProduct_mulVec, Matrix.mulVec_transpose, dotProduct_comm]

/-- The Kalman covariance decrease written as a sum of squares (Joseph form). -/
theorem mquad_kalman (P : Matrix (Fin n) (Fin n) ℝ) (H : Matrix (Fin m) (Fin n) ℝ) (R S Sinv : Matrix (Fin m) (Fin m) ℝ)
    (hP : P.transpose = P) (hS : S = H * P * H.transpose + R) (hi : S * Sinv = 1) (x : Fin n → ℝ) :
    mquad (P - P * H.transpose * Sinv * (P * H.transpose).transpose) x =
      mquad P (x - H.transpose.mulVec (Sinv.mulVec ((P * H.transpose).transpose.mulVec x))) +
      mquad R (Sinv.mulVec ((P * H.transpose).transpose.mulVec x)) := by
  set y := Sinv.mulVec ((P * H.transpose).transpose.mulVec x) with hy
  have hSy : S.mulVec y = (P * H.transpose).transpose.mulVec x := by
    rw [hy, Matrix.mulVec_mulVec, hi, Matrix.one_mulVec]
  have h1 : mquad (P - P * H.transpose * Sinv * (P * H.transpose).transpose) x
      = mquad P x - dotProduct x ((P * H.transpose).mulVec y) := by
    simp only [mquad, Matrix.sub_mulVec, dotProduct_sub, ← Matrix.mulVec_mulVec, hy]
  have h2 : mquad S y = dotProduct x ((P * H.transpose).mulVec y) := by
    simp only [mquad]
    rw [hSy, dot_mulVec_comm, Matrix.transpose_transpose]
  have h3 : mquad S y = mquad P (H.transpose.mulVec y) + mquad R y := by
    rw [hS, mquad_add, mquad_congr]
  have h4 : mquad P (x - H.transpose.mulVec y) = mquad P x - 2 * dotProduct x ((P * H.transpose).mulVec y)
      + mquad P (H.transpose.mulVec y) := by
    have e1 : dotProduct (H.transpose.mulVec y) (P.mulVec x) = dotProduct x ((P * H.transpose).mulVec y) := by
      rw [← Matrix.mulVec_mulVec, dot_mulVec_comm, hP]
    have e2 : dotProduct x (P.mulVec (H.transpose.mulVec y)) = dotProduct x ((P * H.transpose).mulVec y) := by
      rw [Matrix.mulVec_mulVec]
    simp only [mquad, Matrix.mulVec_sub, dotProduct_sub, sub_dotProduct]
    rw [e1, e2]; ring
  rw [h1, h4, ← h2]
  linarith

end M

/-! ### symmetric helpers -/

theorem mirrorU_sym (A : Mat) (i j : ℕ) : mirrorU A i j = mirrorU A j i := by
  unfold mirrorU
  rcases lt_trichotomy i j with h | h | h
  · rw [if_pos h.le, if_neg (by omega)]
  · subst h; rfl
  · rw [if_neg (by omega), if_pos h.le]

theorem mirrorU_eq {n : ℕ} {A : Mat} (h : Sym n A) {i j : ℕ} (hi : i < n) (hj : j < n) : mirrorU A i j = A i j := by
  unfold mirrorU
  split_ifs
  · rfl
  · exact h j i hj hi

theorem mirrorU_idem (A : Mat) : mirrorU (mirrorU A) = mirrorU A := by
  funext i j
  show (if i ≤ j then mirrorU A i j else mirrorU A j i) = _
  split_ifs
  · rfl
  · exact mirrorU_sym A j i

theorem setBlock_inside {r0 c0 h w : ℕ} (B A : Mat) {i j : ℕ} (hi : i < h) (hj : j < w) :
    setBlock r0 c0 h w B A (r0 + i) (c0 + j) = B i j := by
  unfold setBlock
  rw [if_pos ⟨⟨by omega, by omega⟩, ⟨by omega, by omega⟩⟩]
  congr 1 <;> omega

theorem setBlock_outside {r0 c0 h w : ℕ} (B A : Mat) {i j : ℕ}
    (hn : ¬ ((r0 ≤ i ∧ i < r0 + h) ∧ (c0 ≤ j ∧ j < c0 + w))) : setBlock r0 c0 h w B A i j = A i j := by
  unfold setBlock; rw [if_neg hn]

/-- Pulling a matrix back along an index map keeps symmetry. -/
theorem sym_pullback {n m : ℕ} {P P' : Mat} (σ : ℕ → ℕ) (hσ : ∀ i, i < m → σ i < n)
    (h : ∀ i j, i < m → j < m → P' i j = P (σ i) (σ j)) (hP : Sym n P) : Sym m P' := by
  intro i j hi hj
  rw [h i j hi hj, h j i hj hi, hP _ _ (hσ i hi) (hσ j hj)]

/-- the 0/1 matrix of an index map. -/
def sel (σ : ℕ → ℕ) : Mat := fun i a => if σ i = a then 1 else 0

theorem sel_mul {n m c : ℕ} (σ : ℕ → ℕ) (hσ : ∀ i, i < m → σ i < n) (A : Mat) :
    EqOn m c (mul n (sel σ) A) (fun i j => A (σ i) j) := by
  intro i j hi _
  simp only [mul, sel, ite_mul, one_mul, zero_mul]
  rw [Finset.sum_ite_eq, if_pos (Finset.mem_range.2 (hσ i hi))]

theorem mul_sel_tr {n m r : ℕ} (σ : ℕ → ℕ) (hσ : ∀ i, i < m → σ i < n) (A : Mat) :
    EqOn r m (mul n A (tr (sel σ))) (fun i j => A i (σ j)) := by
  intro i j _ hj
  simp only [mul, sel, tr, mul_ite, mul_one, mul_zero]
  rw [Finset.sum_ite_eq, if_pos (Finset.mem_range.2 (hσ j hj))]

theorem EqOn.refl {r c : ℕ} (A : Mat) : EqOn r c A A := fun _ _ _ _ => rfl
theorem EqOn.symm {r c : ℕ} {A B : Mat} (h : EqOn r c A B) : EqOn r c B A := fun i j hi hj => (h i j hi hj).symm
theorem EqOn.trans {r c : ℕ} {A B C : Mat} (h : EqOn r c A B) (h' : EqOn r c B C) : EqOn r c A C :=
  fun i j hi hj => (h i j hi hj).trans (h' i j hi hj)

/-- `A P Aᵀ + G` is PSD if `P` and `G` are. -/
theorem psd_congr {n m : ℕ} {P P' G : Mat} (A : Mat) (hP : PSD n P) (hG : PSD m G)
    (h : EqOn m m P' (fun i j => mul n (mul n A P) (tr A) i j + G i j)) : PSD m P' := by
  rw [eqOn_psd h, psd_iff]
  rw [psd_iff] at hP hG
  intro x
  have e : toM m m (fun i j => mul n (mul n A P) (tr A) i j + G i j) =
      toM m n A * toM n n P * (toM m n A).transpose + toM m m G := by
    rw [show toM m m (fun i j => mul n (mul n A P) (tr A) i j + G i j) = toM m m (mul n (mul n A P) (tr A)) + toM m m G
      from rfl, toM_mul, toM_mul, toM_tr]
  rw [e, mquad_add, mquad_congr]
  exact add_nonneg (hP _) (hG _)

theorem sym_congr {n m : ℕ} {P P' G : Mat} (A : Mat) (hP : Sym n P) (hG : Sym m G)
    (h : EqOn m m P' (fun i j => mul n (mul n A P) (tr A) i j + G i j)) : Sym m P' := by
  rw [eqOn_sym h, sym_iff]
  rw [sym_iff] at hP hG
  have e : toM m m (fun i j => mul n (mul n A P) (tr A) i j + G i j) =
      toM m n A * toM n n P * (toM m n A).transpose + toM m m G := by
    rw [show toM m m (fun i j => mul n (mul n A P) (tr A) i j + G i j) = toM m m (mul n (mul n A P) (tr A)) + toM m m G
      from rfl, toM_mul, toM_mul, toM_tr]
  rw [e, Matrix.transpose_add, Matrix.transpose_mul, Matrix.transpose_mul, Matrix.transpose_transpose, hP, hG,
    Matrix.mul_assoc]

theorem psd_zero (n : ℕ) : PSD n (fun _ _ => 0) := by
  intro x; simp [quad]

theorem psd_pullback {n m : ℕ} {P P' : Mat} (σ : ℕ → ℕ) (hσ : ∀ i, i < m → σ i < n)
    (h : ∀ i j, i < m → j < m → P' i j = P (σ i) (σ j)) (hP : PSD n P) : PSD m P' := by
  refine psd_congr (G := fun _ _ => 0) (sel σ) hP (psd_zero m) ?_
  intro i j hi hj
  rw [h i j hi hj]
  have h2 := mul_sel_tr (r := m) σ hσ (mul n (sel σ) P) i j hi hj
  have h1 := sel_mul (c := n) σ hσ P i (σ j) hi (hσ j hj)
  simp only at h1 h2
  show _ = mul n (mul n (sel σ) P) (tr (sel σ)) i j + 0
  rw [h2, h1, add_zero]

/-- A PSD matrix has non-negative diagonal. -/
theorem PSD.diag {n : ℕ} {P : Mat} (h : PSD n P) {i : ℕ} (hi : i < n) : 0 ≤ P i i := by
  have := h (fun j => if j = i then 1 else 0)
  have e : quad n P (fun j => if j = i then 1 else 0) = P i i := by
    unfold quad
    rw [Finset.sum_eq_single i]
    · rw [Finset.sum_eq_single i]
      · simp
      · intro j _ hj; simp [hj]
      · intro hn; exact absurd (Finset.mem_range.2 hi) hn
    · intro j _ hj; simp [hj]
    · intro hn; exact absurd (Finset.mem_range.2 hi) hn
  rwa [e] at this

end Mat
end Verif
