import Verif.State.PropsInfo
import Mathlib.Data.Matrix.ColumnRowPartitioned
import Mathlib.Data.Matrix.Block

/-!
# Delayed initialisation as Bayesian inference with an uninformative prior (C97)
-/

set_option linter.unusedVariables false
open Classical

namespace Verif.St

open Verif Verif.Types Finset Mat Matrix

variable {lib : Lib} {s s' : State}

/-! ## the algebra -/

section algebra

variable {n k m : ℕ}

theorem flat_first (P : Matrix (Fin n) (Fin n) ℝ) (H : Matrix (Fin k) (Fin n) ℝ) (M : Matrix (Fin k) (Fin k) ℝ) (hM : IsUnit M) {c : ℝ} (hc : c ≠ 0)
    (hP : P.transpose = P) :
    let P1 := fromBlocks P (-(P * Hᵀ * (M⁻¹)ᵀ)) (-(M⁻¹ * H * P)) (M⁻¹ * (H * P * Hᵀ + c • (1 : Matrix _ _ ℝ)) * (M⁻¹)ᵀ)
    let G := fromCols H M
    let J := fromBlocks P 0 0 (1 : Matrix (Fin k) (Fin k) ℝ)
    let E := fromBlocks (1 : Matrix (Fin n) (Fin n) ℝ) 0 0 (0 : Matrix (Fin k) (Fin k) ℝ)
    P1 * Gᵀ = fromRows 0 (c • M⁻¹) ∧ P1 * (E + (1 / c) • (Gᵀ * G) * J) = J ∧ IsUnit (E + (1 / c) • (Gᵀ * G) * J) := by
  intro P1 G J E
  have hd := (Matrix.isUnit_iff_isUnit_det _).1 hM
  have h1 : M * M⁻¹ = 1 := Matrix.mul_nonsing_inv _ hd
  have h2 : M⁻¹ * M = 1 := Matrix.nonsing_inv_mul _ hd
  have h3 : (M⁻¹)ᵀ * Mᵀ = 1 := by rw [← Matrix.transpose_mul, h1, Matrix.transpose_one]
  have h4 : Mᵀ * (M⁻¹)ᵀ = 1 := by rw [← Matrix.transpose_mul, h2, Matrix.transpose_one]
  have hG : Gᵀ = fromRows Hᵀ Mᵀ := Matrix.transpose_fromCols _ _
  have a1 : P1 * Gᵀ = fromRows 0 (c • M⁻¹) := by
    rw [hG, Matrix.fromBlocks_mul_fromRows]
    congr 1
    · rw [Matrix.neg_mul, Matrix.mul_assoc _ _ Mᵀ, h3, Matrix.mul_one, add_neg_cancel]
    · rw [Matrix.neg_mul, Matrix.mul_assoc _ _ Mᵀ, h3, Matrix.mul_one, Matrix.mul_add, Matrix.mul_smul, Matrix.mul_one]
      simp only [Matrix.mul_assoc]
      abel
  refine ⟨a1, ?_, ?_⟩
  · have e1 : P1 * ((1 / c) • (Gᵀ * G) * J) = fromBlocks 0 0 (M⁻¹ * H * P) 1 := by
      rw [Matrix.smul_mul, Matrix.mul_smul, Matrix.mul_assoc, ← Matrix.mul_assoc P1, a1, Matrix.fromCols_mul_fromBlocks, Matrix.fromRows_mul_fromCols]
      rw [Matrix.fromBlocks_smul]
      congr 1
      · simp
      · simp
      · simp only [Matrix.mul_zero, add_zero, Matrix.smul_mul, smul_smul]
        rw [one_div, inv_mul_cancel₀ hc, one_smul, Matrix.mul_assoc]
      · simp only [Matrix.mul_zero, zero_add, Matrix.smul_mul, smul_smul, Matrix.mul_one]
        rw [one_div, inv_mul_cancel₀ hc, one_smul, h2]
    rw [Matrix.mul_add, e1, Matrix.fromBlocks_multiply, Matrix.fromBlocks_add]
    simp [J]
  · rw [Matrix.isUnit_iff_isUnit_det]
    have hf : E + (1 / c) • (Gᵀ * G) * J = fromBlocks 1 (Hᵀ * (M⁻¹)ᵀ) 0 1 * fromBlocks 1 0 ((1 / c) • (Mᵀ * H * P)) ((1 / c) • (Mᵀ * M)) := by
      rw [hG, Matrix.fromRows_mul_fromCols, Matrix.fromBlocks_smul, Matrix.fromBlocks_multiply, Matrix.fromBlocks_add, Matrix.fromBlocks_multiply]
      congr 1
      · simp only [Matrix.mul_zero, add_zero, Matrix.mul_one, Matrix.mul_smul, Matrix.smul_mul]
        rw [show Hᵀ * (M⁻¹)ᵀ * (Mᵀ * H * P) = Hᵀ * ((M⁻¹)ᵀ * Mᵀ) * (H * P) by simp only [Matrix.mul_assoc], h3, Matrix.mul_one, Matrix.mul_assoc]
      · simp only [Matrix.mul_zero, zero_add, Matrix.mul_one, Matrix.mul_smul, Matrix.smul_mul]
        rw [show Hᵀ * (M⁻¹)ᵀ * (Mᵀ * M) = Hᵀ * ((M⁻¹)ᵀ * Mᵀ) * M by simp only [Matrix.mul_assoc], h3, Matrix.mul_one]
      · simp only [Matrix.mul_zero, add_zero, zero_add, Matrix.zero_mul, Matrix.one_mul, Matrix.smul_mul]
      · simp only [Matrix.mul_zero, zero_add, Matrix.mul_one, Matrix.zero_mul, Matrix.one_mul]
    rw [hf, Matrix.det_mul, Matrix.det_fromBlocks_zero₂₁, Matrix.det_fromBlocks_zero₁₂]
    simp only [Matrix.det_one, one_mul, Matrix.det_smul, Matrix.det_mul, Matrix.det_transpose]
    refine IsUnit.mul ?_ (hd.mul hd)
    exact (isUnit_iff_ne_zero.2 (pow_ne_zero _ (one_div_ne_zero hc)))

theorem flat_second (P : Matrix (Fin n) (Fin n) ℝ) (H : Matrix (Fin k) (Fin n) ℝ) (M : Matrix (Fin k) (Fin k) ℝ) (hM : IsUnit M) {c : ℝ} (hc : c ≠ 0)
    (hP : P.transpose = P) (H2 : Matrix (Fin m) (Fin n) ℝ) (P1 P' : Matrix (Fin n ⊕ Fin k) (Fin n ⊕ Fin k) ℝ)
    (hP1 : P1 = fromBlocks P (-(P * Hᵀ * (M⁻¹)ᵀ)) (-(M⁻¹ * H * P)) (M⁻¹ * (H * P * Hᵀ + c • (1 : Matrix _ _ ℝ)) * (M⁻¹)ᵀ))
    (hP' : P' * (1 + (1 / c) • ((fromCols H2 (0 : Matrix (Fin m) (Fin k) ℝ))ᵀ * fromCols H2 (0 : Matrix (Fin m) (Fin k) ℝ)) * P1) = P1)
    (hu : IsUnit (1 + (1 / c) • ((fromCols H2 (0 : Matrix (Fin m) (Fin k) ℝ))ᵀ * fromCols H2 (0 : Matrix (Fin m) (Fin k) ℝ)) * P1)) :
    let Λ := (1 / c) • ((fromCols H M)ᵀ * fromCols H M + (fromCols H2 (0 : Matrix (Fin m) (Fin k) ℝ))ᵀ * fromCols H2 (0 : Matrix (Fin m) (Fin k) ℝ))
    let J := fromBlocks P 0 0 (1 : Matrix (Fin k) (Fin k) ℝ)
    let E := fromBlocks (1 : Matrix (Fin n) (Fin n) ℝ) 0 0 (0 : Matrix (Fin k) (Fin k) ℝ)
    P' * (fromCols H M)ᵀ = fromRows 0 (c • M⁻¹) ∧ P' * (E + Λ * J) = J ∧ IsUnit (E + Λ * J) := by
  intro Λ J E
  obtain ⟨a1, a2, a3⟩ := flat_first P H M hM hc hP
  rw [← hP1] at a1 a2
  set G1 := fromCols H M
  set G2 := fromCols H2 (0 : Matrix (Fin m) (Fin k) ℝ)
  set Λ2 := (1 / c) • (G2ᵀ * G2)
  have z : Λ2 * P1 * G1ᵀ = 0 := by
    rw [Matrix.mul_assoc, a1]
    simp only [Λ2, Matrix.smul_mul, Matrix.mul_assoc]
    rw [Matrix.fromCols_mul_fromRows]
    simp
  have hD : E + Λ * J = (1 + Λ2 * P1) * (E + (1 / c) • (G1ᵀ * G1) * J) := by
    rw [Matrix.add_mul, Matrix.one_mul, Matrix.mul_assoc, a2]
    simp only [Λ, Λ2, smul_add, Matrix.add_mul, add_assoc]
    rfl
  refine ⟨?_, ?_, ?_⟩
  · have : P' * (1 + Λ2 * P1) * G1ᵀ = P' * G1ᵀ := by
      rw [Matrix.mul_assoc, Matrix.add_mul, Matrix.one_mul, z, add_zero]
    rw [← this, hP', a1]
  · rw [hD, ← Matrix.mul_assoc, hP', a2]
  · rw [hD]; exact hu.mul a3

end algebra

/-! ## specification -/

namespace Spec

/-- where a component of the error state of the old variables and the new one is: the new one is appended. -/
def pos (n k : ℕ) : Fin n ⊕ Fin k → ℕ := Sum.elim (fun i => i) fun a => n + a

/-- the joint covariance of the old variables and the new one. -/
def joint (s' : State) (n k : ℕ) : Matrix (Fin n ⊕ Fin k) (Fin n ⊕ Fin k) ℝ := fun i j => s'.P (pos n k i) (pos n k j)

/-- a value is corrected by `dx` (or untouched if `dx` is zero). -/
def Corrected (v : Val) (dx : ℕ → ℝ) (v' : Val) : Prop := v' = v.update dx ∨ (v' = v ∧ ∀ i, i < v.size → dx i = 0)

/-- `s'` is `s` with the new variable `u` of dimension `k`, and is the posterior of the joint error state given the information matrix `Λ` and vector `b` if nothing is
known about `u` before: with `E = diag(1, 0)` and `J = diag(cov, 1)`, the joint covariance `C` satisfies `C (E + Λ J) = J` with an invertible factor, that is
`C = (diag(cov⁻¹, 0) + Λ)⁻¹` if `cov` is invertible, and all variables, the new one too, are corrected by their slices of `C b`. -/
structure PosteriorNew (s s' : State) (u k : ℕ) (Λ : Matrix (Fin s.n ⊕ Fin k) (Fin s.n ⊕ Fin k) ℝ) (b : Fin s.n ⊕ Fin k → ℝ) : Prop where
  n : s'.n = s.n + k
  unit : IsUnit (fromBlocks 1 0 0 0 + Λ * fromBlocks (cov s) 0 0 1)
  cov : joint s' s.n k * (fromBlocks 1 0 0 0 + Λ * fromBlocks (cov s) 0 0 1) = fromBlocks (cov s) 0 0 1
  vars : s'.vars = s.vars ++ [u]
  id : (s'.obj u).id = s.n
  val : ∀ w ∈ s.vars, ∃ i0 : ℕ, (s.obj w).id = i0 ∧ ∃ dx : ℕ → ℝ,
    (∀ i, i < dim s w → ∃ hi : i0 + i < s.n, dx i = (joint s' s.n k).mulVec b (.inl ⟨i0 + i, hi⟩)) ∧ Corrected (s.obj w).val dx (s'.obj w).val
  new : ∃ dx : ℕ → ℝ, (∀ a : Fin k, dx a = (joint s' s.n k).mulVec b (.inr a)) ∧ (s'.obj u).val = (s.obj u).val.update dx
  other : ∀ w, w ∉ s.vars → w ≠ u → s'.obj w = s.obj w
  same : ∀ w, (s'.obj w).fej = (s.obj w).fej ∧ (w ≠ u → (s'.obj w).id = (s.obj w).id)

end Spec

/-! ## auxiliary -/

theorem full_rot {L : List (ℕ × ℕ)} {m n : ℕ} {A B : Mat} {Q : Matrix (Fin m) (Fin m) ℝ} (h : Spec.mat m (tot L) B = Q * Spec.mat m (tot L) A) :
    Spec.full L m n B = Q * Spec.full L m n A := by
  have : ∀ A, Spec.full L m n A = Spec.mat m (tot L) A * toM (tot L) n (Mat.sel (ix L)) := fun A => by
    rw [full_eq, scatter_eq, toM_mul]; rfl
  rw [this, this, h, Matrix.mul_assoc]

theorem split_rows {ι : Type} [Fintype ι] {k l m : ℕ} (hm : m = k + l) (A : Matrix (Fin m) ι ℝ) (B : Matrix (Fin k) ι ℝ) (C : Matrix (Fin l) ι ℝ)
    (hB : ∀ (i : Fin k) (h : (i : ℕ) < m) c, A ⟨i, h⟩ c = B i c) (hC : ∀ (i : Fin l) (h : k + (i : ℕ) < m) c, A ⟨k + i, h⟩ c = C i c)
    (r : Fin m → ℝ) (p : Fin k → ℝ) (q : Fin l → ℝ) (hp : ∀ (i : Fin k) (h : (i : ℕ) < m), r ⟨i, h⟩ = p i) (hq : ∀ (i : Fin l) (h : k + (i : ℕ) < m), r ⟨k + i, h⟩ = q i) :
    Aᵀ * A = Bᵀ * B + Cᵀ * C ∧ Aᵀ.mulVec r = Bᵀ.mulVec p + Cᵀ.mulVec q := by
  subst hm
  have hB' : ∀ (i : Fin k) c, A (Fin.castAdd l i) c = B i c := fun i c => hB i _ c
  have hC' : ∀ (i : Fin l) c, A (Fin.natAdd k i) c = C i c := fun i c => hC i _ c
  have hp' : ∀ (i : Fin k), r (Fin.castAdd l i) = p i := fun i => hp i _
  have hq' : ∀ (i : Fin l), r (Fin.natAdd k i) = q i := fun i => hq i _
  constructor
  · ext a b
    simp only [Matrix.mul_apply, Matrix.transpose_apply, Matrix.add_apply, Fin.sum_univ_add, hB', hC']
  · ext a
    simp only [Matrix.mulVec, dotProduct, Matrix.transpose_apply, Pi.add_apply, Fin.sum_univ_add, hB', hC', hp', hq']

theorem full_old {L : List (ℕ × ℕ)} {m n n' : ℕ} {A : Mat} (i : Fin m) {c : Fin n} {c' : Fin n'} (h : (c' : ℕ) = c) : Spec.full L m n' A i c' = Spec.full L m n A i c := by
  unfold Spec.full
  rw [h]

theorem full_new {L : List (ℕ × ℕ)} {m n n' : ℕ} {A : Mat} (hL : ∀ b ∈ L, b.1 + b.2 ≤ n) (i : Fin m) {c : Fin n'} (h : n ≤ c) : Spec.full L m n' A i c = 0 := by
  unfold Spec.full
  refine Finset.sum_eq_zero fun j hj => Finset.sum_eq_zero fun a ha => ?_
  rw [Finset.mem_range] at hj ha
  rw [if_neg]
  have := hL _ (List.getElem_mem hj)
  rw [List.getD_eq_getElem?_getD, List.getElem?_eq_getElem hj, Option.getD_some] at ha ⊢
  omega

theorem iso_mat {m : ℕ} {R : Mat} (h : isoNoise m R) : Spec.mat m m R = R 0 0 • (1 : Matrix (Fin m) (Fin m) ℝ) := by
  ext i j
  simp only [Spec.mat, Matrix.smul_apply, Matrix.one_apply, smul_eq_mul, mul_ite, mul_one, mul_zero]
  split_ifs with e
  · rw [(h i j i.2 j.2).1 (by rw [e])]
  · exact (h i j i.2 j.2).2 fun e' => e (Fin.ext e')

theorem mulVec_submatrix {α β : Type} [Fintype α] [Fintype β] (e : α ≃ β) (A : Matrix β β ℝ) (x : β → ℝ) (a : α) :
    A.mulVec x (e a) = (A.submatrix e e).mulVec (fun i => x (e i)) a := by
  simp only [Matrix.mulVec, dotProduct, Matrix.submatrix_apply]
  exact (Equiv.sum_comp e fun j => A (e a) j * x j).symm

set_option maxHeartbeats 800000 in
/-- **C97** (StateHelper::initialize) Whenever delayed initialisation accepts a new vector-valued variable `u`, with a measurement
`res = H_R x̃ + H_L f̃ + n` of isotropic noise `c` that determines the variable (`H_L` has full column rank), the resulting state is exactly the Bayesian posterior of old state and
new variable given the whole measurement, with no prior knowledge of the new variable: each row of the measurement is used exactly once. -/
theorem C97_flat_prior (hlib : Spec.LibOK lib) (hs : Spec.ReachOK lib s) (u : ℕ) (order : List Ref) (HR HL R : DMat) (res : DVec) (mult : ℝ) (hR : 0 < R.a 0 0)
    {k : ℕ} {v : ℕ → ℝ} (hv : (s.obj u).val = .vec k v)
    (hrank : ∀ x : Fin k → ℝ, (Spec.mat R.rows k HL.a).mulVec x = 0 → x = 0)
    (h : initDelayed lib s u order HR HL R res mult = some (s', true)) :
    ∃ L, resolveAll s order = some L ∧
      let G := fromCols (Spec.full L R.rows s.n HR.a) (Spec.mat R.rows k HL.a)
      Spec.PosteriorNew s s' u k ((1 / R.a 0 0) • (Gᵀ * G)) ((1 / R.a 0 0) • Gᵀ.mulVec (Spec.vec R.rows res.a)) := by
  have hI := reach_inv hs.reach
  have hsymP : (Spec.cov s)ᵀ = Spec.cov s := by
    ext i j
    exact reach_sym hs.reach j i j.2 i.2
  obtain ⟨L, HL', HR', r', hL, ⟨⟨Q, hQ, q1, q2, q3⟩, hzero⟩, hk, hle, -, -, hb⟩ := C10_initialize hlib hs u order HR HL R res mult true hR h
  obtain ⟨L', hL', hcol, -⟩ := initDelayed_gate h
  rw [hL] at hL'
  obtain rfl := Option.some.inj hL'
  obtain ⟨hiso, -⟩ := initDelayed_some h
  obtain ⟨s1, h1, h2, h3⟩ := hb rfl
  have hk' : HL.cols = k := by rw [hk]; simp [Spec.dim, hv, Val.size]
  rw [hk'] at h1 h2 h3 hle hzero q1
  rw [hcol] at q2
  set c := R.a 0 0 with hc
  have hc0 : c ≠ 0 := ne_of_gt hR
  refine ⟨L, hL, ?_⟩
  intro G
  -- the rotated system
  set M := Spec.mat k k HL' with hMdef
  set H1 := Spec.full L k s.n HR' with hH1
  set H2 := Spec.full L (R.rows - k) s.n (fun i j => HR' (k + i) j) with hH2
  set r1 := Spec.vec k r' with hr1
  set r2 := Spec.vec (R.rows - k) (fun i => r' (k + i)) with hr2
  have hQ' : Qᵀ * Q = 1 := hQ
  have hG' : fromCols (Spec.full L R.rows s.n HR') (Spec.mat R.rows k HL') = Q * G := by
    rw [Matrix.mul_fromCols, full_rot q2, q1]
  obtain ⟨g1, g2⟩ := split_rows (k := k) (l := R.rows - k) (by omega) (fromCols (Spec.full L R.rows s.n HR') (Spec.mat R.rows k HL')) (fromCols H1 M)
    (fromCols H2 (0 : Matrix (Fin (R.rows - k)) (Fin k) ℝ)) (by
      rintro i hi (j | j) <;> rfl) (by
      rintro i hi (j | j)
      · rfl
      · exact hzero (k + i) j j.2 (by have := j.2; omega) hi) (Spec.vec R.rows r') r1 r2 (fun i hi => rfl) (fun i hi => rfl)
  have gram : Gᵀ * G = (fromCols H1 M)ᵀ * fromCols H1 M + (fromCols H2 (0 : Matrix (Fin (R.rows - k)) (Fin k) ℝ))ᵀ * fromCols H2 (0 : Matrix (Fin (R.rows - k)) (Fin k) ℝ) := by
    rw [← g1, hG', Matrix.transpose_mul, Matrix.mul_assoc, ← Matrix.mul_assoc Qᵀ, hQ', Matrix.one_mul]
  have rhs : Gᵀ.mulVec (Spec.vec R.rows res.a) = (fromCols H1 M)ᵀ.mulVec r1 + (fromCols H2 (0 : Matrix (Fin (R.rows - k)) (Fin k) ℝ))ᵀ.mulVec r2 := by
    rw [← g2, hG', q3, Matrix.transpose_mul, Matrix.mulVec_mulVec, Matrix.mul_assoc, hQ', Matrix.mul_one]
  -- the upper block is invertible
  have hMu : IsUnit M := by
    rw [← Matrix.mulVec_injective_iff_isUnit]
    rw [← Matrix.coe_mulVecLin, ← LinearMap.ker_eq_bot, LinearMap.ker_eq_bot']
    intro x hx
    rw [Matrix.coe_mulVecLin] at hx
    apply hrank
    have hx' : (Spec.mat R.rows k HL').mulVec x = 0 := by
      ext i
      by_cases hi : (i : ℕ) < k
      · have := congrFun hx ⟨i, hi⟩
        exact this
      · simp only [Matrix.mulVec, dotProduct, Pi.zero_apply]
        refine Finset.sum_eq_zero fun j _ => ?_
        rw [show Spec.mat R.rows k HL' i j = 0 from hzero i j j.2 (by have := j.2; omega) i.2, zero_mul]
    have : Qᵀ.mulVec ((Q * Spec.mat R.rows k HL.a).mulVec x) = (Spec.mat R.rows k HL.a).mulVec x := by
      rw [Matrix.mulVec_mulVec, ← Matrix.mul_assoc, hQ', Matrix.one_mul]
    rw [← this, ← q1, hx', Matrix.mulVec_zero]
  -- first stage
  obtain ⟨L0, hL0, c1, c2, c3, c4, c5, c6, c7, c8, c9, c10, -, -, dx1, c11, c12⟩ := C09_initialize_invertible hlib hs.reach u order _ _ _ _ hMu h1
  rw [hL] at hL0
  obtain rfl := Option.some.inj hL0
  simp only at c1 c2 c3 c4 c5 c6 c7 c8 c9 c10 c11 c12
  rw [iso_mat (m := k) (fun r c hr hc => hiso r c (by omega) (by omega))] at c10
  have hP1 : Spec.joint s1 s.n k = fromBlocks (Spec.cov s) (-(Spec.cov s * H1ᵀ * (M⁻¹)ᵀ)) (-(M⁻¹ * H1 * Spec.cov s))
      (M⁻¹ * (H1 * Spec.cov s * H1ᵀ + c • (1 : Matrix _ _ ℝ)) * (M⁻¹)ᵀ) := by
    have e : -(M⁻¹ * H1 * Spec.cov s) = (-(Spec.cov s * H1ᵀ * (M⁻¹)ᵀ))ᵀ := by
      rw [Matrix.transpose_neg, Matrix.transpose_mul, Matrix.transpose_mul, hsymP, Matrix.transpose_transpose, Matrix.transpose_transpose, Matrix.mul_assoc]
    ext (i | a) (j | b)
    · exact c7 i j i.2 j.2
    · exact congrFun (congrFun c9 i) b
    · rw [e]
      show s1.P (s.n + a) j = _
      rw [c8 j a]
      exact congrFun (congrFun c9 j) a
    · exact congrFun (congrFun c10 a) b
  -- second stage
  have hu1 : ∀ w ∈ s.vars, w ≠ u := fun w hw e => c2 (e ▸ hw)
  obtain ⟨hcov, hunit, hvars, hid, hval, hother, hsame, hn⟩ : Spec.joint s' s.n k * (1 + (1 / c) • ((fromCols H2 (0 : Matrix (Fin (R.rows - k)) (Fin k) ℝ))ᵀ *
        fromCols H2 (0 : Matrix (Fin (R.rows - k)) (Fin k) ℝ)) * Spec.joint s1 s.n k) = Spec.joint s1 s.n k ∧
      IsUnit (1 + (1 / c) • ((fromCols H2 (0 : Matrix (Fin (R.rows - k)) (Fin k) ℝ))ᵀ * fromCols H2 (0 : Matrix (Fin (R.rows - k)) (Fin k) ℝ)) * Spec.joint s1 s.n k) ∧
      s'.vars = s1.vars ∧ (∀ w, (s'.obj w).id = (s1.obj w).id) ∧
      (∀ w ∈ s1.vars, ∃ i0 : ℕ, (s1.obj w).id = i0 ∧ ∃ dx : ℕ → ℝ,
        (∀ i, i < Spec.dim s1 w → ∀ x : Fin s.n ⊕ Fin k, Spec.pos s.n k x = i0 + i →
          dx i = (Spec.joint s' s.n k).mulVec ((1 / c) • (fromCols H2 (0 : Matrix (Fin (R.rows - k)) (Fin k) ℝ))ᵀ.mulVec r2) x) ∧
        Spec.Corrected (s1.obj w).val dx (s'.obj w).val) ∧
      (∀ w, w ∉ s1.vars → s'.obj w = s1.obj w) ∧ (∀ w, (s'.obj w).fej = (s1.obj w).fej) ∧ s'.n = s1.n := by
    rcases Nat.lt_or_ge k R.rows with hlt | hge
    · have hs1 : Spec.ReachOK lib s1 := by
        obtain ⟨o, ops, ho, hr⟩ := hs
        refine ⟨o, ops ++ [.initInv u order ⟨k, HR.cols, HR'⟩ ⟨k, k, HL'⟩ ⟨k, k, R.a⟩ ⟨k, r'⟩], ?_, ?_⟩
        · exact histOK_append ho hr ⟨hR.le, fun s' _ => trivial⟩
        · rw [run_append, hr]; simp [run, step, h1]
      have hiso2 : isoNoise (R.rows - k) (fun i j => R.a (k + i) (k + j)) := by
        intro i j hi hj
        refine ⟨fun e => ?_, fun e => (hiso (k + i) (k + j) (by omega) (by omega)).2 (by omega)⟩
        have e1 := (hiso (k + i) (k + j) (by omega) (by omega)).1 (by omega)
        have e2 := (hiso (k + 0) (k + 0) (by omega) (by omega)).1 rfl
        simp only
        rw [← e1, ← e2]
      have hR2 : R.a (k + 0) (k + 0) = c := ((hiso (k + 0) (k + 0) (by omega) (by omega)).1 rfl).symm
      obtain ⟨L1, hL1, hpost⟩ := C06_information_form hlib hs1 order _ ⟨R.rows - k, R.rows - k, fun i j => R.a (k + i) (k + j)⟩ _
        (isoNoise_sym hiso2) (isoNoise_pd hiso2 (by simp only; rw [hR2]; exact hR)) (h3 hlt)
      rw [initInv_resolveAll hI h1 hL] at hL1
      obtain rfl := Option.some.inj hL1
      simp only at hpost
      rw [iso_mat hiso2, hR2] at hpost
      have hinv : (c • (1 : Matrix (Fin (R.rows - k)) (Fin (R.rows - k)) ℝ))⁻¹ = (1 / c) • 1 := by
        refine Matrix.inv_eq_left_inv ?_
        rw [Matrix.smul_mul, Matrix.one_mul, smul_smul, one_div, inv_mul_cancel₀ hc0, one_smul]
      rw [hinv] at hpost
      let e : Fin s.n ⊕ Fin k ≃ Fin s1.n := finSumFinEquiv.trans (finCongr c4.symm)
      have hpos : ∀ x, ((e x : Fin s1.n) : ℕ) = Spec.pos s.n k x := by
        rintro (i | a) <;> simp [e, Spec.pos]
      set F2 := Spec.full L (R.rows - k) s1.n (fun i j => HR' (k + i) j) with hF2
      have hFe : F2.submatrix id e = fromCols H2 (0 : Matrix (Fin (R.rows - k)) (Fin k) ℝ) := by
        ext i (j | a)
        · exact full_old (L := L) (A := fun i j => HR' (k + i) j) (c := j) (c' := e (.inl j)) i (hpos (.inl j))
        · exact full_new (A := fun i j => HR' (k + i) j) (c := e (.inr a)) (resolveAll_le hL) i (by rw [hpos]; exact Nat.le_add_right _ _)
      have hj1 : (Spec.cov s1).submatrix e e = Spec.joint s1 s.n k := by
        ext x y; simp [Spec.cov, Spec.joint, hpos]
      have hj2 : (Spec.mat s1.n s1.n s'.P).submatrix e e = Spec.joint s' s.n k := by
        ext x y; simp [Spec.mat, Spec.joint, hpos]
      have hΛ : (F2ᵀ * ((1 / c) • (1 : Matrix (Fin (R.rows - k)) (Fin (R.rows - k)) ℝ)) * F2).submatrix e e =
          (1 / c) • ((fromCols H2 (0 : Matrix (Fin (R.rows - k)) (Fin k) ℝ))ᵀ * fromCols H2 (0 : Matrix (Fin (R.rows - k)) (Fin k) ℝ)) := by
        rw [← hFe, Matrix.mul_smul, Matrix.mul_one, Matrix.smul_mul]
        ext x y
        simp [Matrix.mul_apply]
      have hD : (1 + F2ᵀ * ((1 / c) • (1 : Matrix (Fin (R.rows - k)) (Fin (R.rows - k)) ℝ)) * F2 * Spec.cov s1).submatrix e e =
          1 + (1 / c) • ((fromCols H2 (0 : Matrix (Fin (R.rows - k)) (Fin k) ℝ))ᵀ * fromCols H2 (0 : Matrix (Fin (R.rows - k)) (Fin k) ℝ)) * Spec.joint s1 s.n k := by
        rw [Matrix.submatrix_add, Pi.add_apply, Pi.add_apply, Matrix.submatrix_one_equiv, ← Matrix.submatrix_mul_equiv _ _ _ e, hΛ, hj1]
      refine ⟨?_, ?_, hpost.vars, fun w => (hpost.same w).1, fun w hw => ?_, hpost.other, fun w => (hpost.same w).2, hpost.n⟩
      · rw [← hD, ← hj2, Matrix.submatrix_mul_equiv, hpost.cov, hj1]
      · rw [← hD, Matrix.isUnit_iff_isUnit_det, Matrix.det_submatrix_equiv_self, ← Matrix.isUnit_iff_isUnit_det]
        exact hpost.unit
      · obtain ⟨i0, hi0, dx, hdx, hval⟩ := hpost.val w hw
        refine ⟨i0, hi0, dx, fun i hi x hx => ?_, .inl hval⟩
        obtain ⟨hlt', hd⟩ := hdx i hi
        have hex : (⟨i0 + i, hlt'⟩ : Fin s1.n) = e x := Fin.ext (by rw [hpos, hx])
        rw [hd, hex, mulVec_submatrix, hj2]
        congr 1
        ext y
        rw [← hFe]
        rw [Matrix.mul_smul, Matrix.mul_one, Matrix.smul_mulVec]
        rfl
    · have hkm : k = R.rows := by omega
      obtain rfl := h2 hkm
      have hemp : IsEmpty (Fin (R.rows - k)) := ⟨fun i => by have := i.2; omega⟩
      have z : (fromCols H2 (0 : Matrix (Fin (R.rows - k)) (Fin k) ℝ))ᵀ * fromCols H2 (0 : Matrix (Fin (R.rows - k)) (Fin k) ℝ) = 0 := by
        ext i j; simp [Matrix.mul_apply]
      have z2 : (fromCols H2 (0 : Matrix (Fin (R.rows - k)) (Fin k) ℝ))ᵀ.mulVec r2 = 0 := by
        ext i; simp [Matrix.mulVec, dotProduct]
      rw [z, z2]
      refine ⟨by simp, by simp, rfl, fun _ => rfl, fun w hw => ?_, fun _ _ => rfl, fun _ => rfl, rfl⟩
      have hI1 : Inv s' := initInv_inv hI h1
      obtain ⟨i0, e, -, -⟩ := hI1.resolve_self hw
      exact ⟨i0, e, fun _ => 0, fun _ _ _ _ => by simp, .inr ⟨rfl, fun _ _ => rfl⟩⟩
  obtain ⟨f1, f2, f3⟩ := flat_second (Spec.cov s) H1 M hMu hc0 hsymP H2 _ _ hP1 hcov hunit
  rw [← gram] at f2 f3
  -- the correction
  have hdx : ∀ x, (Spec.joint s' s.n k).mulVec ((1 / c) • Gᵀ.mulVec (Spec.vec R.rows res.a)) x =
      Sum.elim (fun _ => 0) (M⁻¹.mulVec r1) x + (Spec.joint s' s.n k).mulVec ((1 / c) • (fromCols H2 (0 : Matrix (Fin (R.rows - k)) (Fin k) ℝ))ᵀ.mulVec r2) x := by
    intro x
    rw [rhs, smul_add, Matrix.mulVec_add, Pi.add_apply]
    congr 1
    rw [Matrix.mulVec_smul, Matrix.mulVec_mulVec, f1]
    rcases x with i | a
    · simp [Matrix.mulVec, dotProduct]
    · simp only [Pi.smul_apply, Matrix.mulVec, dotProduct, Matrix.fromRows_apply_inr, Matrix.smul_apply, smul_eq_mul, Sum.elim_inr, Finset.mul_sum]
      refine Finset.sum_congr rfl fun j _ => ?_
      field_simp
  refine ⟨by rw [hn, c4], f3, f2, by rw [hvars, c1], by rw [hid, c3], fun w hw => ?_, ?_, fun w hw hwu => ?_, fun w => ⟨?_, fun hwu => ?_⟩⟩
  · have hwu := hu1 w hw
    obtain ⟨i0, e, dx, h5, h6⟩ := hval w (by rw [c1]; simp [hw])
    rw [c6 w hwu] at e h6
    obtain ⟨i1, e1, e2, -⟩ := hI.resolve_self hw
    have : i0 = i1 := by omega
    subst this
    refine ⟨i0, e, dx, fun i hi => ?_, h6⟩
    have hi' : i < osz s.obj w := hi
    refine ⟨by omega, ?_⟩
    rw [hdx, h5 i (by unfold Spec.dim; rw [c6 w hwu]; exact hi) (.inl ⟨i0 + i, by omega⟩) rfl]
    simp
  · obtain ⟨i0, e, dx, h5, h6⟩ := hval u (by rw [c1]; simp)
    rw [c3] at e
    have e : s.n = i0 := by omega
    subst e
    have hsz : Spec.dim s1 u = k := by unfold Spec.dim; rw [c12, hv]; rfl
    have hsum : ∀ a : Fin k, dx1 a + dx a = (Spec.joint s' s.n k).mulVec ((1 / c) • Gᵀ.mulVec (Spec.vec R.rows res.a)) (.inr a) := fun a => by
      rw [hdx, h5 a (by rw [hsz]; exact a.2) (.inr a) rfl, Sum.elim_inr, c11 a a.2]
    rcases h6 with h6 | ⟨h6, h7⟩
    · refine ⟨fun i => dx1 i + dx i, hsum, ?_⟩
      rw [h6, c12, hv]
      simp only [Val.update, add_assoc]
    · refine ⟨dx1, fun a => ?_, by rw [h6, c12]⟩
      rw [← hsum a, h7 a (by rw [c12, hv]; exact a.2), add_zero]
  · rw [hother w (by rw [c1]; simp [hw, hwu]), c6 w hwu]
  · rw [hsame]
    obtain ⟨_, _, _, _, _, _, _, _, _, _, _, _, _, _, _, e⟩ := initInv_some h1
    rw [e]
    simp only
    split_ifs with hw
    · rw [hw]
    · rfl
  · rw [hid, c6 w hwu]

/-- **C97** In the usual form: if the old covariance is invertible, the joint covariance after initialisation is `(diag(cov⁻¹, 0) + Gᵀ G / c)⁻¹`. -/
theorem C97_covariance (hlib : Spec.LibOK lib) (hs : Spec.ReachOK lib s) (u : ℕ) (order : List Ref) (HR HL R : DMat) (res : DVec) (mult : ℝ) (hR : 0 < R.a 0 0)
    {k : ℕ} {v : ℕ → ℝ} (hv : (s.obj u).val = .vec k v) (hrank : ∀ x : Fin k → ℝ, (Spec.mat R.rows k HL.a).mulVec x = 0 → x = 0) (hinv : IsUnit (Spec.cov s))
    (h : initDelayed lib s u order HR HL R res mult = some (s', true)) :
    ∃ L, resolveAll s order = some L ∧
      let G := fromCols (Spec.full L R.rows s.n HR.a) (Spec.mat R.rows k HL.a)
      Spec.joint s' s.n k = (fromBlocks (Spec.cov s)⁻¹ 0 0 0 + (1 / R.a 0 0) • (Gᵀ * G))⁻¹ := by
  obtain ⟨L, hL, hp⟩ := C97_flat_prior hlib hs u order HR HL R res mult hR hv hrank h
  refine ⟨L, hL, ?_⟩
  intro G
  have hd := (Matrix.isUnit_iff_isUnit_det _).1 hinv
  have hJ : fromBlocks (Spec.cov s) 0 0 (1 : Matrix (Fin k) (Fin k) ℝ) * fromBlocks (Spec.cov s)⁻¹ 0 0 1 = 1 := by
    rw [Matrix.fromBlocks_multiply]
    simp [Matrix.mul_nonsing_inv _ hd]
  have hc := congrArg (· * fromBlocks (Spec.cov s)⁻¹ 0 0 (1 : Matrix (Fin k) (Fin k) ℝ)) hp.cov
  rw [hJ, Matrix.mul_assoc, Matrix.add_mul, Matrix.mul_assoc _ (fromBlocks (Spec.cov s) 0 0 1), hJ, Matrix.mul_one, Matrix.fromBlocks_multiply] at hc
  simp only [Matrix.one_mul, Matrix.mul_zero, add_zero, Matrix.zero_mul] at hc
  exact (Matrix.inv_eq_left_inv hc).symm

/-- A six-row measurement that determines a three-dimensional landmark is accepted for some multiplier. -/
example (hlib : Spec.LibOK lib) (hq : 0 < lib.chi2 6) :
    ∃ s, Spec.ReachOK lib s ∧ (s.obj 7).val = .vec 3 0 ∧ (∀ x : Fin 3 → ℝ, (Spec.mat 6 3 Mat.one).mulVec x = 0 → x = 0) ∧
      ∃ mult s', initDelayed lib s 7 [(0, .p)] ⟨6, 3, fun i j => i + j⟩ ⟨6, 3, Mat.one⟩ ⟨6, 6, Mat.one⟩ ⟨6, fun i => i⟩ mult = some (s', true) := by
  obtain ⟨s, hr, h1, h2, h3, h4, h5, h6⟩ := run_alloc (lib := lib)
  have hs : Spec.ReachOK lib s := ⟨Spec.o0, [.alloc (.vec 3 0) (.vec 3 0)], ⟨trivial, fun _ _ => trivial⟩, hr⟩
  refine ⟨s, hs, h6, fun x hx => ?_, ?_⟩
  · ext i
    have := congrFun hx ⟨i, by omega⟩
    simpa [Matrix.mulVec, dotProduct, Spec.mat, Mat.one, Fin.val_inj] using this
  have hL : resolveAll s [(0, .p)] = some [(3, 3)] := by simp [resolveAll, resolve, h5, Val.part, h4, h2, Val.size]
  have hret := fun mult => C10_returns hlib hs 7 [(0, .p)] ⟨6, 3, fun i j => i + j⟩ ⟨6, 3, Mat.one⟩ ⟨6, 6, Mat.one⟩
    ⟨6, fun i => i⟩ mult [(3, 3)] (by rw [h1]; simp) (by omega) hL (by simp [Spec.dim, h6, Val.size]) (by norm_num)
    (by norm_num) rfl rfl rfl rfl rfl (one_iso 6) (by simp [Mat.one])
  obtain ⟨st, hst⟩ : ∃ st : ℝ, ∀ mult s' b,
      initDelayed lib s 7 [(0, .p)] ⟨6, 3, fun i j => i + j⟩ ⟨6, 3, Mat.one⟩ ⟨6, 6, Mat.one⟩ ⟨6, fun i => i⟩ mult =
        some (s', b) → (b = false ↔ mult * lib.chi2 6 < st) := by
    have hg := fun mult s' b h => initDelayed_gate (mult := mult) (lib := lib) (s := s) (s' := s') (b := b) (u := 7)
      (order := [(0, .p)]) (HR := ⟨6, 3, fun i j => i + j⟩) (HL := ⟨6, 3, Mat.one⟩) (R := ⟨6, 6, Mat.one⟩)
      (res := ⟨6, fun i => i⟩) h
    simp only [hL, Option.some.injEq, exists_eq_left'] at hg
    exact ⟨_, fun mult s' b h => (hg mult s' b h).2⟩
  obtain ⟨⟨s', b⟩, h⟩ := Option.isSome_iff_exists.1 (hret (st / lib.chi2 6))
  have := (hst _ _ _ h).not.2 (by rw [div_mul_cancel₀ _ hq.ne']; exact lt_irrefl _)
  exact ⟨_, s', by rw [h]; cases b <;> simp_all⟩

end Verif.St
