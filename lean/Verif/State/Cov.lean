import Verif.State.Layout
import Verif.State.Spec
import Verif.Base.GivensLemmas

/-!
# What each operation does to the covariance
-/

set_option linter.unusedVariables false
set_option linter.unusedSimpArgs false
open Classical

namespace Verif.St

open Verif Verif.Types Finset Mat

/-! ### M_a -/

theorem fillMa_eq (s : State) (L : List (ℕ × ℕ)) (m : ℕ) (H : Mat) (l : List ℕ) : ∀ (a b : ℕ) (M M' : Mat),
    Contig s.obj l a b → fillMa s L m H l M = some M' →
    ∀ i r, r < m → M' i r = if a ≤ i ∧ i < b then sumB L 0 (fun g k => s.P i g * H r k) else M i r := by
  induction l with
  | nil =>
    intro a b M M' hc h i r hr
    simp only [fillMa, Option.some.injEq] at h
    subst h
    simp only [Contig] at hc
    rw [if_neg (by omega)]
  | cons u t ih =>
    intro a b M M' hc h i r hr
    simp only [fillMa, Option.bind_eq_bind, Option.bind_eq_some_iff] at h
    obtain ⟨bl, hb, h⟩ := h
    have hid := hc.1
    have hble : bl = (a, osz s.obj u) := by
      unfold resolve at hb
      simp only [Val.part] at hb
      split_ifs at hb
      simp only [Option.some.injEq] at hb
      rw [← hb, hid]; simp
    subst hble
    have hle := hc.2.le
    rw [ih _ _ _ _ hc.2 h i r hr]
    by_cases h1 : a + osz s.obj u ≤ i ∧ i < b
    · rw [if_pos h1, if_pos (by omega)]
    · rw [if_neg h1]
      by_cases h2 : a ≤ i ∧ i < a + osz s.obj u
      · rw [if_pos (by omega)]
        simp only [setBlock]
        rw [if_pos ⟨h2, by omega⟩]
        congr 1; funext g k; congr 2; omega
      · rw [setBlock_outside _ _ (by omega), if_neg (by omega)]

theorem fillMa_ok (s : State) (L : List (ℕ × ℕ)) (m : ℕ) (H : Mat) (l : List ℕ) : ∀ (M : Mat),
    (∀ u ∈ l, (resolve s (u, .self)).isSome) → (fillMa s L m H l M).isSome := by
  induction l with
  | nil => intros; rfl
  | cons u t ih =>
    intro M h
    obtain ⟨b, hb⟩ := Option.isSome_iff_exists.1 (h u (by simp))
    simp only [fillMa, hb, Option.bind_eq_bind, Option.bind_some]
    exact ih _ fun v hv => h v (by simp [hv])

variable {lib : Lib} {s s' : State}

/-- `M_a = P H_fullᵀ`. -/
theorem Ma_eq (hI : Inv s) {order : List Ref} {L : List (ℕ × ℕ)} (hL : resolveAll s order = some L) {m : ℕ} {H Ma : Mat}
    (h : fillMa s L m H s.vars (fun _ _ => 0) = some Ma) :
    EqOn s.n m Ma (mul s.n s.P (tr (scatter L H))) := by
  intro i r hi hr
  rw [fillMa_eq s L m H _ _ _ _ _ hI.contig h i r hr, if_pos ⟨by omega, hi⟩, sumB_eq]
  simp only [Nat.zero_add]
  exact mul_scatter_tr (resolveAll_le hL) _ _ _ _

theorem resCov_eq (hL : ∀ b ∈ (L : List (ℕ × ℕ)), b.1 + b.2 ≤ n) (P H R : Mat) :
    resCov (tot L) H (margCov P L) R =
      mirrorU fun i j => mul n (mul n (scatter L H) P) (tr (scatter L H)) i j + R i j := by
  unfold resCov
  congr 1
  funext i j
  rw [small_eq_full hL]

/-- symmetric matrices are their own mirror (as Mathlib matrices). -/
theorem toM_mirrorU {n : ℕ} {A : Mat} (h : Mat.Sym n A) : toM n n (mirrorU A) = toM n n A :=
  eqOn_iff.1 fun i j hi hj => mirrorU_eq h hi hj

/-! ### specification of the numerical library -/

/-- A Mathlib-based instance exists, so `Spec.LibOK` is satisfiable. -/
noncomputable def mathlibLib : Lib where
  lltInv m S := extM (toM m m S)⁻¹
  lltSolve m S b := extV ((toM m m S)⁻¹.mulVec (toV m b))
  inv m A := extM (toM m m A)⁻¹
  chi2 k := k

theorem pd_isUnit {m : ℕ} {S : Mat} (h : PD m S) : IsUnit (toM m m S) := by
  rw [pd_iff] at h
  rw [← Matrix.mulVec_injective_iff_isUnit]
  intro x y hxy
  by_contra hne
  have h1 := h (x - y) (sub_ne_zero.2 hne)
  have : (toM m m S).mulVec (x - y) = 0 := by
    rw [Matrix.mulVec_sub]; exact sub_eq_zero.2 hxy
  rw [mquad, this, dotProduct_zero] at h1
  exact lt_irrefl _ h1

theorem mathlibLib_spec : Spec.LibOK mathlibLib where
  lltInv m S _ h := by
    rw [eqOn_iff, toM_mul, toM_one]
    show toM m m S * toM m m (extM _) = 1
    rw [toM_extM]
    exact Matrix.mul_nonsing_inv _ ((Matrix.isUnit_iff_isUnit_det _).1 (pd_isUnit h))
  lltSolve m S b _ h := by
    intro i hi
    have : toV m (mulVec m S (mathlibLib.lltSolve m S b)) = toV m b := by
      rw [toV_mulVec]
      show (toM m m S).mulVec (toV m (extV _)) = _
      rw [toV_extV, Matrix.mulVec_mulVec,
        Matrix.mul_nonsing_inv _ ((Matrix.isUnit_iff_isUnit_det _).1 (pd_isUnit h)), Matrix.one_mulVec]
    exact congrFun this ⟨i, hi⟩
  inv m A h := by
    obtain ⟨B, hB⟩ := h
    rw [eqOn_iff, toM_mul, toM_one] at hB
    rw [eqOn_iff, toM_mul, toM_one]
    show toM m m A * toM m m (extM _) = 1
    rw [toM_extM]
    exact Matrix.mul_nonsing_inv _ ((Matrix.isUnit_iff_isUnit_det _).1 (IsUnit.of_mul_eq_one _ hB))

/-! ### EKFPropagation -/

/-- The full transition: identity outside the NEW rows, `Phi` on the OLD columns in the NEW rows. -/
noncomputable def fullF (start rows : ℕ) (O : List (ℕ × ℕ)) (Phi : Mat) : Mat := fun i a =>
  if start ≤ i ∧ i < start + rows then scatter O Phi (i - start) a else one i a

/-- The full process noise: `Q` (upper triangle mirrored) on the NEW block. -/
def fullG (start rows : ℕ) (Q : Mat) : Mat := fun i j =>
  if (start ≤ i ∧ i < start + rows) ∧ (start ≤ j ∧ j < start + rows) then mirrorU Q (i - start) (j - start) else 0

theorem one_mul_entry {n : ℕ} (A : Mat) {i : ℕ} (hi : i < n) (j : ℕ) : ∑ x ∈ range n, one i x * A x j = A i j := by
  simp only [one, ite_mul, one_mul, zero_mul]
  rw [Finset.sum_ite_eq, if_pos (Finset.mem_range.2 hi)]

theorem mul_one_entry {n : ℕ} (A : Mat) {j : ℕ} (hj : j < n) (i : ℕ) : ∑ x ∈ range n, A i x * one j x = A i j := by
  simp only [one, mul_ite, mul_one, mul_zero]
  rw [Finset.sum_ite_eq, if_pos (Finset.mem_range.2 hj)]

theorem propCov_eq {n start rows : ℕ} {O : List (ℕ × ℕ)} (P Phi Q : Mat) (hO : ∀ b ∈ O, b.1 + b.2 ≤ n)
    (hs : start + rows ≤ n) (hP : Mat.Sym n P) :
    EqOn n n (propCov n P start rows O Phi Q)
      (fun i j => mul n (mul n (fullF start rows O Phi) P) (tr (fullF start rows O Phi)) i j +
        fullG start rows Q i j) := by
  intro i j hi hj
  have hF : ∀ a c, a < n → mul n (fullF start rows O Phi) P a c =
      if start ≤ a ∧ a < start + rows then mul n (scatter O Phi) P (a - start) c else P a c := by
    intro a c ha
    simp only [mul, fullF]
    by_cases h : start ≤ a ∧ a < start + rows
    · simp only [if_pos h]
    · simp only [if_neg h]; exact one_mul_entry P ha c
  have hA : mul n (mul n (fullF start rows O Phi) P) (tr (fullF start rows O Phi)) i j =
      if start ≤ j ∧ j < start + rows then
        ∑ x ∈ range n, mul n (fullF start rows O Phi) P i x * scatter O Phi (j - start) x
      else mul n (fullF start rows O Phi) P i j := by
    rw [mul]
    simp only [tr, fullF]
    by_cases h : start ≤ j ∧ j < start + rows
    · simp only [if_pos h]
    · simp only [if_neg h]
      exact mul_one_entry _ hj i
  have hCP : ∀ a r, a < n → (sumB O 0 fun g k => P a g * Phi r k) = mul n P (tr (scatter O Phi)) a r := by
    intro a r ha
    rw [sumB_eq]
    simp only [Nat.zero_add]
    exact mul_scatter_tr hO P Phi a r
  have hsym : ∀ a r, a < n → mul n P (tr (scatter O Phi)) a r = mul n (scatter O Phi) P r a := by
    intro a r ha
    simp only [mul, tr]
    refine Finset.sum_congr rfl fun x hx => ?_
    rw [hP a x ha (Finset.mem_range.1 hx), mul_comm]
  show propCov n P start rows O Phi Q i j = mul n (mul n (fullF start rows O Phi) P) (tr (fullF start rows O Phi)) i j +
        fullG start rows Q i j
  rw [hA]
  by_cases h1 : start ≤ i ∧ i < start + rows <;> by_cases h2 : start ≤ j ∧ j < start + rows
  · rw [if_pos h2]
    simp only [propCov, setBlock, fullG]
    rw [if_pos ⟨h1, h2⟩, if_pos ⟨h1, h2⟩, add_comm]
    congr 1
    rw [sumB_eq]
    simp only [Nat.zero_add]
    have e1 : ∑ x ∈ range (tot O), Phi (i - start) x * sumB O 0 (fun g k => P (ix O x) g * Phi (j - start) k) =
        ∑ x ∈ range (tot O), Phi (i - start) x * mul n P (tr (scatter O Phi)) (ix O x) (j - start) := by
      refine Finset.sum_congr rfl fun x hx => ?_
      rw [hCP _ _ (ix_lt hO (Finset.mem_range.1 hx))]
    rw [e1, scatter_mul hO]
    have e2 : ∀ x ∈ range n, mul n (fullF start rows O Phi) P i x * scatter O Phi (j - start) x =
        mul n (scatter O Phi) P (i - start) x * scatter O Phi (j - start) x := by
      intro x _; rw [hF _ _ hi, if_pos h1]
    rw [Finset.sum_congr rfl e2]
    rw [show (∑ x ∈ range n, mul n (scatter O Phi) P (i - start) x * scatter O Phi (j - start) x) =
      mul n (mul n (scatter O Phi) P) (tr (scatter O Phi)) (i - start) (j - start) from rfl]
    simp only [mul, Finset.mul_sum, Finset.sum_mul]
    rw [Finset.sum_comm]
    refine Finset.sum_congr rfl fun _ _ => Finset.sum_congr rfl fun _ _ => by ring
  · rw [if_neg h2, hF _ _ hi, if_pos h1]
    simp only [propCov, fullG]
    rw [setBlock_outside _ _ (by tauto), setBlock_outside _ _ (by tauto)]
    simp only [setBlock]
    rw [if_pos ⟨h1, by omega⟩, if_neg (by tauto), add_zero]
    simp only [tr, Nat.sub_zero]
    rw [hCP _ _ hj, hsym _ _ hj]
  · rw [if_pos h2]
    simp only [propCov, fullG]
    rw [setBlock_outside _ _ (by tauto)]
    simp only [setBlock]
    rw [if_pos ⟨by omega, h2⟩, if_neg (by tauto), add_zero]
    simp only [Nat.sub_zero]
    rw [hCP _ _ hi]
    simp only [mul, tr]
    refine Finset.sum_congr rfl fun x hx => ?_
    have := hF i x hi
    rw [if_neg h1] at this
    simp only [mul] at this
    rw [this]
  · rw [if_neg h2, hF _ _ hi, if_neg h1]
    simp only [propCov, fullG]
    rw [setBlock_outside _ _ (by tauto), setBlock_outside _ _ (by tauto), setBlock_outside _ _ (by tauto),
      if_neg (by tauto), add_zero]

theorem fullG_sym (start rows : ℕ) (Q : Mat) (n : ℕ) : Mat.Sym n (fullG start rows Q) := by
  intro i j _ _
  simp only [fullG]
  by_cases h1 : start ≤ i ∧ i < start + rows <;> by_cases h2 : start ≤ j ∧ j < start + rows <;>
    simp [h1, h2, mirrorU_sym Q (i - start)]

theorem fullG_psd {start rows n : ℕ} {Q : Mat} (hs : start + rows ≤ n) (hQ : PSD rows (mirrorU Q)) :
    PSD n (fullG start rows Q) := by
  intro x
  have e : quad n (fullG start rows Q) x = quad rows (mirrorU Q) (fun i => x (start + i)) := by
    unfold quad
    have key : ∀ f : ℕ → ℝ, (∀ i, ¬ (start ≤ i ∧ i < start + rows) → f i = 0) →
        ∑ i ∈ range n, f i = ∑ i ∈ range rows, f (start + i) := by
      intro f hf
      obtain ⟨d, rfl⟩ := Nat.exists_eq_add_of_le hs
      rw [Finset.sum_range_add, Finset.sum_range_add]
      rw [Finset.sum_eq_zero (s := range start) fun i hi => hf i (by have := Finset.mem_range.1 hi; omega),
        Finset.sum_eq_zero (s := range d) fun i hi => hf _ (by omega)]
      ring
    rw [key]
    · refine Finset.sum_congr rfl fun i hi => ?_
      rw [key]
      · refine Finset.sum_congr rfl fun j hj => ?_
        simp only [fullG]
        have := Finset.mem_range.1 hi
        have := Finset.mem_range.1 hj
        rw [if_pos ⟨by omega, by omega⟩]
        simp
      · intro j hj; simp only [fullG]; rw [if_neg (by tauto)]; ring
    · intro i hi
      refine Finset.sum_eq_zero fun j _ => ?_
      simp only [fullG]; rw [if_neg (by tauto)]; ring
  rw [e]
  exact hQ _

theorem contiguous_tot {N : List (ℕ × ℕ)} {n : ℕ} (hN : ∀ b ∈ N, b.1 + b.2 ≤ n) {b : ℕ × ℕ} {t : List (ℕ × ℕ)}
    (e : N = b :: t) (h : contiguous N = true) : b.1 + tot N ≤ n := by
  subst e
  induction t generalizing b with
  | nil => simp only [tot]; have := hN b (by simp); omega
  | cons c t ih =>
    simp only [contiguous, Bool.and_eq_true, beq_iff_eq] at h
    have := ih (b := c) (fun x hx => hN x (by simp at hx ⊢; tauto)) h.2
    simp only [tot] at this ⊢
    omega

/-- everything `propagate` does. -/
theorem propagate_some {nw old Phi Q} (h : propagate s nw old Phi Q = some s') :
    ∃ N O b t, resolveAll s nw = some N ∧ resolveAll s old = some O ∧ N = b :: t ∧ O ≠ [] ∧ contiguous N = true ∧
      tot N = Phi.rows ∧ tot O = Phi.cols ∧ tot N = Q.cols ∧ tot N = Q.rows ∧ b.1 + Phi.rows ≤ s.n ∧
      ¬ hasNegDiag s.n (propCov s.n s.P b.1 Phi.rows O Phi.a Q.a) ∧
      s' = { s with P := propCov s.n s.P b.1 Phi.rows O Phi.a Q.a } := by
  unfold propagate at h
  cases hN : resolveAll s nw with
  | none => rw [hN] at h; simp at h
  | some N =>
    cases hO : resolveAll s old with
    | none => rw [hN, hO] at h; simp at h
    | some O =>
      rw [hN, hO] at h
      simp only [Option.bind_eq_bind, Option.bind_some] at h
      split at h
      · simp at h
      · rename_i b t
        split_ifs at h with h1 h2 h3 h4
        simp only [Option.some.injEq] at h
        have hc : contiguous (b :: t) = true := by
          cases hcc : contiguous (b :: t)
          · exact absurd hcc h2
          · rfl
        have := contiguous_tot (resolveAll_le hN) rfl hc
        rw [h3.1] at this
        exact ⟨b :: t, O, b, t, rfl, rfl, rfl, h1, hc, h3.1, h3.2.1, h3.2.2.1, h3.2.2.2, this, h4, h.symm⟩

theorem propagate_sym {nw old Phi Q} (hP : Mat.Sym s.n s.P) (h : propagate s nw old Phi Q = some s') : Mat.Sym s'.n s'.P := by
  obtain ⟨N, O, b, t, hN, hO, rfl, _, _, _, _, _, _, hle, _, rfl⟩ := propagate_some h
  have := propCov_eq s.P Phi.a Q.a (resolveAll_le hO) hle hP
  exact sym_congr _ hP (fullG_sym _ _ _ _) this

theorem propagate_psd {nw old Phi Q} (hP : Mat.Sym s.n s.P) (hp : PSD s.n s.P) (hQ : PSD Q.rows (mirrorU Q.a))
    (h : propagate s nw old Phi Q = some s') : PSD s'.n s'.P := by
  obtain ⟨N, O, b, t, hN, hO, rfl, _, _, e1, _, _, e2, hle, _, rfl⟩ := propagate_some h
  rw [← e2, e1] at hQ
  have := propCov_eq s.P Phi.a Q.a (resolveAll_le hO) hle hP
  exact psd_congr _ hp (fullG_psd hle hQ) this

/-! ### EKFUpdate -/

theorem updCov_sym (n m : ℕ) (P K Ma : Mat) : Mat.Sym n (updCov m P K Ma) := fun i j _ _ => mirrorU_sym _ _ _

theorem update_sym {order H res R} (h : update lib s order H res R = some s') : Mat.Sym s'.n s'.P := by
  obtain ⟨L, Ma, _, _, _, _, _, _, rfl⟩ := update_some h
  exact updCov_sym _ _ _ _ _

theorem psd_add_pd {m : ℕ} {A R : Mat} (hA : PSD m A) (hR : PD m R) : PD m (fun i j => A i j + R i j) := by
  intro x hx
  have e : quad m (fun i j => A i j + R i j) x = quad m A x + quad m R x := by
    simp only [quad, ← Finset.sum_add_distrib]
    refine Finset.sum_congr rfl fun _ _ => Finset.sum_congr rfl fun _ _ => by ring
  rw [e]
  have := hA x
  have := hR x hx
  linarith

/-- The innovation covariance the update inverts. -/
noncomputable def innov (n : ℕ) (Hf P R : Mat) : Mat := fun i j => mul n (mul n Hf P) (tr Hf) i j + R i j

theorem innov_sym {n m : ℕ} {Hf P R : Mat} (hP : Mat.Sym n P) (hR : Mat.Sym m R) : Mat.Sym m (innov n Hf P R) :=
  sym_congr Hf hP hR (fun _ _ _ _ => rfl)

theorem innov_pd {n m : ℕ} {Hf P R : Mat} (hp : PSD n P) (hR : PD m R) : PD m (innov n Hf P R) :=
  psd_add_pd (psd_congr (G := fun _ _ => 0) Hf hp (psd_zero m) (fun i j _ _ => by simp)) hR

theorem eqOn_pd {n : ℕ} {A B : Mat} (h : EqOn n n A B) : PD n A ↔ PD n B := by
  rw [pd_iff, pd_iff, eqOn_iff.1 h]

/-- The matrix equation behind the update: with `S = H P Hᵀ + R`,
`P' = P − (P Hᵀ) S⁻¹ (P Hᵀ)ᵀ` and `K = (P Hᵀ) S⁻¹`. -/
theorem update_core (hlib : Spec.LibOK lib) {n m : ℕ} {L : List (ℕ × ℕ)} {P H R Ma : Mat}
    (hL : ∀ b ∈ L, b.1 + b.2 ≤ n) (hP : Mat.Sym n P) (hp : PSD n P) (hRs : Mat.Sym m R) (hR : PD m R)
    (hMa : EqOn n m Ma (mul n P (tr (scatter L H)))) :
    toM n m (gain lib m Ma (resCov (tot L) H (margCov P L) R)) =
      toM n n P * (toM m n (scatter L H)).transpose * (toM m m (innov n (scatter L H) P R))⁻¹ ∧
    toM n n (updCov m P (gain lib m Ma (resCov (tot L) H (margCov P L) R)) Ma) =
      toM n n P - toM n n P * (toM m n (scatter L H)).transpose * (toM m m (innov n (scatter L H) P R))⁻¹ *
        (toM n n P * (toM m n (scatter L H)).transpose).transpose := by
  have hS : resCov (tot L) H (margCov P L) R = mirrorU (innov n (scatter L H) P R) := resCov_eq hL P H R
  have hSs : Mat.Sym m (innov n (scatter L H) P R) := innov_sym hP hRs
  have hSp : PD m (innov n (scatter L H) P R) := innov_pd hp hR
  rw [hS]
  set S := mirrorU (innov n (scatter L H) P R) with hSdef
  have heq : EqOn m m S (innov n (scatter L H) P R) := fun i j hi hj => mirrorU_eq hSs hi hj
  have hSs' : Mat.Sym m S := (eqOn_sym heq).2 hSs
  have hSp' : PD m S := (eqOn_pd heq).2 hSp
  have hinv := hlib.lltInv m S hSs' hSp'
  rw [eqOn_iff, toM_mul, toM_one] at hinv
  have hinvM : toM m m (lib.lltInv m S) = (toM m m S)⁻¹ := (Matrix.inv_eq_right_inv hinv).symm
  have hSinvs : Mat.Sym m (lib.lltInv m S) := by
    rw [sym_iff, hinvM, Matrix.transpose_nonsing_inv, sym_iff.1 hSs']
  have hMaM : toM n m Ma = toM n n P * (toM m n (scatter L H)).transpose := by
    rw [eqOn_iff.1 hMa, toM_mul, toM_tr]
  have hK : toM n m (gain lib m Ma S) =
      toM n n P * (toM m n (scatter L H)).transpose * (toM m m (innov n (scatter L H) P R))⁻¹ := by
    rw [gain, toM_mul, toM_mirrorU hSinvs, hinvM, hMaM, eqOn_iff.1 heq]
  refine ⟨hK, ?_⟩
  have hsymS : (toM m m (innov n (scatter L H) P R))⁻¹.transpose = (toM m m (innov n (scatter L H) P R))⁻¹ := by
    rw [Matrix.transpose_nonsing_inv, sym_iff.1 hSs]
  have hKM : toM n n (mul m (gain lib m Ma S) (tr Ma)) =
      toM n n P * (toM m n (scatter L H)).transpose * (toM m m (innov n (scatter L H) P R))⁻¹ *
        (toM n n P * (toM m n (scatter L H)).transpose).transpose := by
    rw [toM_mul, toM_tr, hK, hMaM]
  have hPs := sym_iff.1 hP
  have hsym : Mat.Sym n (fun i j => P i j - mul m (gain lib m Ma S) (tr Ma) i j) := by
    rw [sym_iff]
    rw [show toM n n (fun i j => P i j - mul m (gain lib m Ma S) (tr Ma) i j) =
      toM n n P - toM n n (mul m (gain lib m Ma S) (tr Ma)) from rfl, hKM]
    simp only [Matrix.transpose_sub, Matrix.transpose_mul, Matrix.transpose_transpose, hsymS, hPs, Matrix.mul_assoc]
  have : EqOn n n (updCov m P (gain lib m Ma S) Ma) (fun i j => P i j - mul m (gain lib m Ma S) (tr Ma) i j) := by
    intro i j hi hj
    simp only [updCov, mirrorU]
    by_cases hij : i ≤ j
    · rw [if_pos hij, if_pos hij]
    · rw [if_neg hij, if_pos (by omega)]
      exact hsym j i hj hi
  rw [eqOn_iff.1 this, ← hKM]
  rfl

theorem updCov_psd (hlib : Spec.LibOK lib) {n m : ℕ} {L : List (ℕ × ℕ)} {P H R Ma : Mat}
    (hL : ∀ b ∈ L, b.1 + b.2 ≤ n) (hP : Mat.Sym n P) (hp : PSD n P) (hRs : Mat.Sym m R) (hR : PD m R)
    (hMa : EqOn n m Ma (mul n P (tr (scatter L H)))) :
    PSD n (updCov m P (gain lib m Ma (resCov (tot L) H (margCov P L) R)) Ma) := by
  have hcore := (update_core hlib hL hP hp hRs hR hMa).2
  have hSp : PD m (innov n (scatter L H) P R) := innov_pd hp hR
  rw [psd_iff]
  rw [psd_iff] at hp
  have hRp := psd_iff.1 hR.psd
  intro x
  rw [hcore]
  rw [mquad_kalman (toM n n P) (toM m n (scatter L H)) (toM m m R)
    (toM m m (innov n (scatter L H) P R)) _ (sym_iff.1 hP)]
  · exact add_nonneg (hp _) (hRp _)
  · rw [show toM m m (innov n (scatter L H) P R) =
      toM m m (mul n (mul n (scatter L H) P) (tr (scatter L H))) + toM m m R from rfl,
      toM_mul, toM_mul, toM_tr]
  · exact Matrix.mul_nonsing_inv _ ((Matrix.isUnit_iff_isUnit_det _).1 (pd_isUnit hSp))

theorem update_psd (hlib : Spec.LibOK lib) (hI : Inv s) (hP : Mat.Sym s.n s.P) (hp : PSD s.n s.P) {order : List Ref}
    {H : DMat} {res : DVec} {R : DMat} (hRs : Mat.Sym R.rows R.a) (hR : PD R.rows R.a)
    (h : update lib s order H res R = some s') : PSD s'.n s'.P := by
  obtain ⟨L, Ma, hL, _, _, _, hc, hM, rfl⟩ := update_some h
  have hLle := resolveAll_le hL
  have hMa := Ma_eq hI hL hM
  rw [hc]
  exact updCov_psd hlib hLle hP hp hRs hR hMa

/-! ### marginalize -/

/-- old index of a remaining entry. -/
def margIx (id sz i : ℕ) : ℕ := if i < id then i else i + sz

theorem setBlock_in {r0 c0 h w : ℕ} (B A : Mat) {i j : ℕ}
    (hn : (r0 ≤ i ∧ i < r0 + h) ∧ (c0 ≤ j ∧ j < c0 + w)) : setBlock r0 c0 h w B A i j = B (i - r0) (j - c0) := by
  unfold setBlock; rw [if_pos hn]

theorem margPcov_eq {n id sz : ℕ} {P : Mat} (hle : id + sz ≤ n) (hP : Mat.Sym n P) (i j : ℕ) (hi : i < n - sz)
    (hj : j < n - sz) : margPcov n id sz P i j = P (margIx id sz i) (margIx id sz j) := by
  simp only [margPcov, margIx]
  by_cases h1 : i < id <;> by_cases h2 : j < id
  · rw [if_pos h1, if_pos h2, setBlock_outside _ _ (by omega), setBlock_outside _ _ (by omega),
      setBlock_outside _ _ (by omega), setBlock_in _ _ ⟨by omega, by omega⟩, block]
    simp
  · rw [if_pos h1, if_neg h2, setBlock_outside _ _ (by omega), setBlock_outside _ _ (by omega),
      setBlock_in _ _ ⟨by omega, by omega⟩, block]
    congr 1 <;> omega
  · rw [if_neg h1, if_pos h2, setBlock_outside _ _ (by omega), setBlock_in _ _ ⟨by omega, by omega⟩, tr, block,
      setBlock_in _ _ ⟨by omega, by omega⟩, block, hP _ _ (by omega) (by omega)]
    congr 1 <;> omega
  · rw [if_neg h1, if_neg h2, setBlock_in _ _ ⟨by omega, by omega⟩, block]
    congr 1 <;> omega

theorem marginalize_cov (hI : Inv s) (hP : Mat.Sym s.n s.P) {u : ℕ} (h : marginalize s u = some s') :
    ∃ k : ℕ, (s.obj u).id = k ∧ k + osz s.obj u ≤ s.n ∧ s'.n = s.n - osz s.obj u ∧
      (∀ i, i < s'.n → margIx k (osz s.obj u) i < s.n) ∧
      ∀ i j, i < s'.n → j < s'.n → s'.P i j = s.P (margIx k (osz s.obj u) i) (margIx k (osz s.obj u) j) := by
  obtain ⟨k, hk, hkn, s1, h1, e1, e2, _⟩ := marginalize_eq hI (marginalize_mem h)
  rw [h] at h1
  obtain rfl := Option.some.inj h1
  refine ⟨k, hk, hkn, e1, ?_, ?_⟩
  · intro i hi; rw [e1] at hi; unfold margIx; split_ifs <;> omega
  · intro i j hi hj
    rw [e1] at hi hj
    rw [e2]
    exact margPcov_eq hkn hP i j hi hj

theorem marginalize_sym (hI : Inv s) (hP : Mat.Sym s.n s.P) {u : ℕ} (h : marginalize s u = some s') : Mat.Sym s'.n s'.P := by
  obtain ⟨k, _, _, _, h1, h2⟩ := marginalize_cov hI hP h
  exact sym_pullback _ h1 h2 hP

theorem marginalize_psd (hI : Inv s) (hP : Mat.Sym s.n s.P) (hp : PSD s.n s.P) {u : ℕ} (h : marginalize s u = some s') :
    PSD s'.n s'.P := by
  obtain ⟨k, _, _, _, h1, h2⟩ := marginalize_cov hI hP h
  exact psd_pullback _ h1 h2 hp

/-! ### clone -/

/-- source index of an entry after cloning. -/
def cloneIx (n loc i : ℕ) : ℕ := if i < n then i else loc + (i - n)

theorem cloneCov_eq {n loc sz : ℕ} {P : Mat} (hle : loc + sz ≤ n) (i j : ℕ) (hi : i < n + sz) (hj : j < n + sz) :
    cloneCov n loc sz P i j = P (cloneIx n loc i) (cloneIx n loc j) := by
  simp only [cloneCov, cloneIx]
  set p0 : Mat := fun i j => if i < n ∧ j < n then P i j else 0 with hp0
  have hp : ∀ a b, a < n → b < n → p0 a b = P a b := by
    intro a b ha hb; simp only [hp0]; rw [if_pos ⟨ha, hb⟩]
  clear_value p0
  by_cases h1 : i < n <;> by_cases h2 : j < n
  · rw [if_pos h1, if_pos h2, setBlock_outside _ _ (by omega), setBlock_outside _ _ (by omega),
      setBlock_outside _ _ (by omega)]
    exact hp _ _ h1 h2
  · rw [if_pos h1, if_neg h2, setBlock_outside _ _ (by omega), setBlock_in _ _ ⟨by omega, by omega⟩, block,
      setBlock_outside _ _ (by omega), hp _ _ (by omega) (by omega)]
    congr 1; omega
  · rw [if_neg h1, if_pos h2, setBlock_in _ _ ⟨by omega, by omega⟩, block,
      setBlock_outside _ _ (by omega), setBlock_outside _ _ (by omega), hp _ _ (by omega) (by omega)]
    congr 1; omega
  · rw [if_neg h1, if_neg h2, setBlock_outside _ _ (by omega), setBlock_outside _ _ (by omega),
      setBlock_in _ _ ⟨by omega, by omega⟩, block, hp _ _ (by omega) (by omega)]

theorem clone_cov (hI : Inv s) {r : Ref} {u : ℕ} (h : clone s r = some (s', u)) :
    ∃ b, resolve s r = some b ∧ s'.n = s.n + b.2 ∧ (∀ i, i < s'.n → cloneIx s.n b.1 i < s.n) ∧
      ∀ i j, i < s'.n → j < s'.n → s'.P i j = s.P (cloneIx s.n b.1 i) (cloneIx s.n b.1 j) := by
  obtain ⟨k, off, v, f, hu, hk, p1, p2, p3, hle, hr, rfl, rfl⟩ := clone_eq hI h
  refine ⟨_, hr, rfl, ?_, ?_⟩
  · intro i hi
    have hi' : i < s.n + v.size := hi
    show cloneIx s.n (k + off) i < s.n
    unfold cloneIx; split_ifs <;> omega
  · intro i j hi hj
    exact cloneCov_eq hle i j hi hj

theorem clone_sym (hI : Inv s) (hP : Mat.Sym s.n s.P) {r u} (h : clone s r = some (s', u)) : Mat.Sym s'.n s'.P := by
  obtain ⟨b, _, _, h1, h2⟩ := clone_cov hI h
  exact sym_pullback _ h1 h2 hP

theorem clone_psd (hI : Inv s) (hp : PSD s.n s.P) {r u} (h : clone s r = some (s', u)) : PSD s'.n s'.P := by
  obtain ⟨b, _, _, h1, h2⟩ := clone_cov hI h
  exact psd_pullback _ h1 h2 hp

/-! ### initialize_invertible -/

/-- `[I; −H_L⁻¹ H_R]`: how the augmented error depends on the old error. -/
noncomputable def augA (n k : ℕ) (Hinv Hf : Mat) : Mat := fun i a =>
  if i < n then one i a else - mul k Hinv Hf (i - n) a

/-- `[0; −H_L⁻¹]`: how the augmented error depends on the measurement noise. -/
def augB (n : ℕ) (Hinv : Mat) : Mat := fun i a => if i < n then 0 else - Hinv (i - n) a

/-- The augmented covariance in one matrix. -/
theorem initCov_eq {n k : ℕ} {P Ma Hinv Hf R : Mat} (hP : Mat.Sym n P) (hRs : Mat.Sym k R)
    (hMa : EqOn n k Ma (mul n P (tr Hf))) :
    EqOn (n + k) (n + k) (initCov n k P Ma Hinv (mirrorU (innov n Hf P R)))
      (fun i j => mul n (mul n (augA n k Hinv Hf) P) (tr (augA n k Hinv Hf)) i j +
        mul k (mul k (augB n Hinv) R) (tr (augB n Hinv)) i j) := by
  have hPf : ∀ a c, a < n → mul n P (tr Hf) a c = mul n Hf P c a := by
    intro a c ha
    simp only [mul, tr]
    refine Finset.sum_congr rfl fun x hx => ?_
    rw [hP a x ha (Finset.mem_range.1 hx), mul_comm]
  have hAP : ∀ i a, mul n (augA n k Hinv Hf) P i a =
      if i < n then P i a else - ∑ c ∈ range k, Hinv (i - n) c * mul n Hf P c a := by
    intro i a
    simp only [mul, augA]
    split_ifs with h
    · exact one_mul_entry P h a
    · simp only [neg_mul, Finset.sum_neg_distrib, Finset.sum_mul, Finset.mul_sum]
      rw [Finset.sum_comm]
      congr 1
      refine Finset.sum_congr rfl fun _ _ => Finset.sum_congr rfl fun _ _ => by ring
  have hBR : ∀ i a, mul k (augB n Hinv) R i a =
      if i < n then 0 else - ∑ c ∈ range k, Hinv (i - n) c * R c a := by
    intro i a
    simp only [mul, augB]
    split_ifs with h
    · simp
    · simp only [neg_mul, Finset.sum_neg_distrib]
  intro i j hi hj
  show _ = mul n (mul n (augA n k Hinv Hf) P) (tr (augA n k Hinv Hf)) i j +
        mul k (mul k (augB n Hinv) R) (tr (augB n Hinv)) i j
  have hL : mul n (mul n (augA n k Hinv Hf) P) (tr (augA n k Hinv Hf)) i j =
      if j < n then mul n (augA n k Hinv Hf) P i j else
        - ∑ c ∈ range k, (∑ a ∈ range n, mul n (augA n k Hinv Hf) P i a * Hf c a) * Hinv (j - n) c := by
    rw [mul]
    simp only [tr]
    by_cases h : j < n
    · rw [if_pos h]
      have : ∀ x, augA n k Hinv Hf j x = one j x := fun x => by simp only [augA, if_pos h]
      simp only [this]
      exact mul_one_entry _ h i
    · rw [if_neg h]
      have : ∀ x, augA n k Hinv Hf j x = - ∑ c ∈ range k, Hinv (j - n) c * Hf c x := fun x => by
        simp only [augA, if_neg h, mul]
      simp only [this, mul_neg, Finset.sum_neg_distrib, Finset.mul_sum, Finset.sum_mul]
      rw [Finset.sum_comm]
      congr 1
      refine Finset.sum_congr rfl fun _ _ => Finset.sum_congr rfl fun _ _ => by ring
  have hR : mul k (mul k (augB n Hinv) R) (tr (augB n Hinv)) i j =
      if j < n then 0 else - ∑ c ∈ range k, mul k (augB n Hinv) R i c * Hinv (j - n) c := by
    rw [mul]
    simp only [tr]
    by_cases h : j < n
    · rw [if_pos h]
      refine Finset.sum_eq_zero fun c _ => ?_
      simp only [augB, if_pos h, mul_zero]
    · rw [if_neg h, ← Finset.sum_neg_distrib]
      refine Finset.sum_congr rfl fun c _ => ?_
      simp only [augB, if_neg h, mul_neg]
  rw [hL, hR]
  simp only [initCov]
  by_cases h1 : i < n <;> by_cases h2 : j < n
  · rw [setBlock_outside _ _ (by omega), setBlock_outside _ _ (by omega), setBlock_outside _ _ (by omega),
      if_pos ⟨h1, h2⟩, if_pos h2, if_pos h2, hAP, if_pos h1, add_zero]
  · rw [setBlock_outside _ _ (by omega), setBlock_outside _ _ (by omega), if_neg h2, if_neg h2]
    rw [setBlock_in _ _ ⟨by omega, by omega⟩]
    have z : ∀ c, mul k (augB n Hinv) R i c = 0 := fun c => by rw [hBR, if_pos h1]
    have z2 : ∀ a, mul n (augA n k Hinv Hf) P i a = P i a := fun a => by rw [hAP, if_pos h1]
    simp only [z, z2, zero_mul, Finset.sum_const_zero, neg_zero, add_zero, Nat.sub_zero]
    simp only [mul, tr]
    congr 1
    refine Finset.sum_congr rfl fun c hc => ?_
    rw [hMa i c h1 (Finset.mem_range.1 hc)]
    rfl
  · rw [setBlock_outside _ _ (by omega), if_pos h2, if_pos h2, hAP, if_neg h1, add_zero]
    rw [setBlock_in _ _ ⟨by omega, by omega⟩, tr, block, setBlock_in _ _ ⟨by omega, by omega⟩]
    simp only [mul, tr]
    congr 1
    refine Finset.sum_congr rfl fun c hc => ?_
    rw [hMa _ c (by omega) (Finset.mem_range.1 hc)]
    have := hPf (0 + (j - 0) - 0) c (by omega)
    rw [this]
    simp only [mul, Nat.sub_zero, Nat.zero_add]
    rw [mul_comm]
    congr 2; omega
  · rw [if_neg h2, if_neg h2]
    rw [setBlock_in _ _ ⟨by omega, by omega⟩]
    have hSs : Mat.Sym k (innov n Hf P R) := innov_sym hP hRs
    have z : ∀ c, mul k (augB n Hinv) R i c = - ∑ d ∈ range k, Hinv (i - n) d * R d c := fun c => by
      rw [hBR, if_neg h1]
    have z2 : ∀ a, mul n (augA n k Hinv Hf) P i a = - ∑ d ∈ range k, Hinv (i - n) d * mul n Hf P d a := fun a => by
      rw [hAP, if_neg h1]
    simp only [z, z2]
    rw [← neg_add, ← Finset.sum_add_distrib, ← Finset.sum_neg_distrib]
    conv_lhs => rw [mul]
    refine Finset.sum_congr rfl fun c hc => ?_
    have hc' := Finset.mem_range.1 hc
    simp only [tr]
    rw [← add_mul, ← neg_mul]
    congr 1
    conv_lhs => rw [mul]
    have e1 : ∑ x ∈ range n, (-∑ d ∈ range k, Hinv (i - n) d * mul n Hf P d x) * Hf c x =
        - ∑ d ∈ range k, Hinv (i - n) d * mul n (mul n Hf P) (tr Hf) d c := by
      simp only [neg_mul, Finset.sum_neg_distrib, Finset.sum_mul]
      rw [Finset.sum_comm]
      congr 1
      refine Finset.sum_congr rfl fun d _ => ?_
      conv_rhs => rw [mul]
      rw [Finset.mul_sum]
      refine Finset.sum_congr rfl fun x _ => ?_
      simp only [tr]; ring
    rw [e1, ← neg_add, neg_neg, ← Finset.sum_add_distrib]
    refine Finset.sum_congr rfl fun d hd => ?_
    rw [mirrorU_eq hSs (Finset.mem_range.1 hd) hc']
    simp only [innov]; ring

theorem isoNoise_sym {k : ℕ} {R : Mat} (h : isoNoise k R) : Mat.Sym k R := by
  intro i j hi hj
  by_cases e : i = j
  · subst e; rfl
  · rw [(h i j hi hj).2 e, (h j i hj hi).2 (Ne.symm e)]

theorem isoNoise_quad {k : ℕ} {R : Mat} (h : isoNoise k R) (x : Vect) :
    quad k R x = R 0 0 * ∑ i ∈ range k, x i ^ 2 := by
  unfold quad
  rw [Finset.mul_sum]
  refine Finset.sum_congr rfl fun i hi => ?_
  have hi' := Finset.mem_range.1 hi
  rw [Finset.sum_eq_single i]
  · rw [← (h i i hi' hi').1 rfl]; ring
  · intro j hj hne
    rw [(h i j hi' (Finset.mem_range.1 hj)).2 (Ne.symm hne)]; ring
  · intro hn; exact absurd hi hn

theorem isoNoise_psd {k : ℕ} {R : Mat} (h : isoNoise k R) (h0 : 0 ≤ R 0 0) : PSD k R := by
  intro x
  rw [isoNoise_quad h]
  exact mul_nonneg h0 (Finset.sum_nonneg fun i _ => sq_nonneg _)

theorem isoNoise_pd {k : ℕ} {R : Mat} (h : isoNoise k R) (h0 : 0 < R 0 0) : PD k R := by
  rintro x ⟨i, hi, hx⟩
  rw [isoNoise_quad h]
  refine mul_pos h0 (Finset.sum_pos' (fun i _ => sq_nonneg _) ⟨i, Finset.mem_range.2 hi, by positivity⟩)

/-- covariance of `initialize_invertible`. -/
theorem initInv_cov (hI : Inv s) (hP : Mat.Sym s.n s.P) {u order HR HL R res}
    (h : initInv lib s u order HR HL R res = some s') :
    ∃ L, resolveAll s order = some L ∧ s'.n = s.n + R.rows ∧
      EqOn s'.n s'.n s'.P
        (fun i j => mul s.n (mul s.n (augA s.n R.rows (lib.inv R.rows HL.a) (scatter L HR.a)) s.P)
            (tr (augA s.n R.rows (lib.inv R.rows HL.a) (scatter L HR.a))) i j +
          mul R.rows (mul R.rows (augB s.n (lib.inv R.rows HL.a)) R.a) (tr (augB s.n (lib.inv R.rows HL.a))) i j) := by
  obtain ⟨_, _, _, _, hiso, _, _, _, _, _, L, Ma, hL, hc, hM, rfl⟩ := initInv_some h
  refine ⟨L, hL, rfl, ?_⟩
  have := initCov_eq (Hinv := lib.inv R.rows HL.a) hP (isoNoise_sym hiso) (Ma_eq hI hL hM)
  rw [hc, resCov_eq (resolveAll_le hL)]
  exact this

theorem initInv_sym (hI : Inv s) (hP : Mat.Sym s.n s.P) {u order HR HL R res}
    (h : initInv lib s u order HR HL R res = some s') : Mat.Sym s'.n s'.P := by
  obtain ⟨_, _, _, _, hiso, _⟩ := initInv_some h
  obtain ⟨L, _, _, he⟩ := initInv_cov hI hP h
  refine sym_congr _ hP ?_ he
  exact sym_congr (G := fun _ _ => 0) (augB s.n (lib.inv R.rows HL.a)) (isoNoise_sym hiso) (fun _ _ _ _ => rfl)
    (fun _ _ _ _ => by simp)

theorem initInv_psd (hI : Inv s) (hP : Mat.Sym s.n s.P) (hp : PSD s.n s.P) {u order HR HL R res} (h0 : 0 ≤ R.a 0 0)
    (h : initInv lib s u order HR HL R res = some s') : PSD s'.n s'.P := by
  obtain ⟨_, _, _, _, hiso, _⟩ := initInv_some h
  obtain ⟨L, _, _, he⟩ := initInv_cov hI hP h
  refine psd_congr _ hp ?_ he
  exact psd_congr (G := fun _ _ => 0) (augB s.n (lib.inv R.rows HL.a)) (isoNoise_psd hiso h0) (psd_zero _)
    (fun _ _ _ _ => by simp)

/-! ### initialize -/

theorem isoNoise_block {r k : ℕ} {R : Mat} (h : isoNoise r R) (hk : k < r) : isoNoise (r - k) (block k k R) := by
  intro i j hi hj
  simp only [block]
  refine ⟨fun e => ?_, fun e => (h _ _ (by omega) (by omega)).2 (by omega)⟩
  rw [← (h (k + 0) (k + 0) (by omega) (by omega)).1 rfl]
  exact (h _ _ (by omega) (by omega)).1 (by omega)

theorem initDelayed_sym (hI : Inv s) (hP : Mat.Sym s.n s.P) {u order HR HL R res mult b}
    (h : initDelayed lib s u order HR HL R res mult = some (s', b)) : Mat.Sym s'.n s'.P := by
  obtain ⟨_, _, _, _, _, _, _, _, _, h | ⟨_, s1, h1, h2⟩⟩ := initDelayed_some h
  · rw [h.2]; exact hP
  · have hI1 := initInv_sym hI hP h1
    rcases h2 with ⟨_, rfl⟩ | ⟨_, h2⟩
    · exact hI1
    · exact update_sym h2

theorem initDelayed_psd (hlib : Spec.LibOK lib) (hI : Inv s) (hP : Mat.Sym s.n s.P) (hp : PSD s.n s.P)
    {u order HR HL R res mult b} (h0 : 0 < R.a 0 0)
    (h : initDelayed lib s u order HR HL R res mult = some (s', b)) : PSD s'.n s'.P := by
  obtain ⟨hiso, _, _, _, _, _, _, _, _, h | ⟨_, s1, h1, h2⟩⟩ := initDelayed_some h
  · rw [h.2]; exact hp
  · have hP1 := initInv_sym hI hP h1
    have hp1 := initInv_psd (R := ⟨HL.cols, HL.cols, R.a⟩) hI hP hp h0.le h1
    rcases h2 with ⟨_, rfl⟩ | ⟨hlt, h2⟩
    · exact hp1
    · have hb := isoNoise_block hiso hlt
      refine update_psd hlib (initInv_inv hI h1) hP1 hp1 (isoNoise_sym hb) (isoNoise_pd hb ?_) h2
      show 0 < R.a (HL.cols + 0) (HL.cols + 0)
      rw [← (hiso _ _ (by omega) (by omega)).1 rfl]
      exact h0

/-! ### augment_clone -/

/-- `I + d e_dtᵀ` on the clone rows: how the clone's error depends on the time-offset error. -/
def augT (pose dt : ℕ) (d : Vect) : Mat := fun i a =>
  one i a + if pose ≤ i ∧ i < pose + 6 then d (i - pose) * one dt a else 0

theorem dtCov_eq {n pose dt : ℕ} {d : Vect} {P : Mat} (hdt : dt < n) :
    EqOn n n (dtCov n pose dt d P)
      (fun i j => mul n (mul n (augT pose dt d) P) (tr (augT pose dt d)) i j + 0) := by
  intro i j hi hj
  have h1 : ∀ a c, a < n → mul n (augT pose dt d) P a c =
      P a c + if pose ≤ a ∧ a < pose + 6 then d (a - pose) * P dt c else 0 := by
    intro a c ha
    simp only [mul, augT, add_mul, Finset.sum_add_distrib, one_mul_entry P ha c]
    congr 1
    split_ifs with h
    · simp only [mul_assoc, ← Finset.mul_sum, one_mul_entry P hdt c]
    · simp
  have h2 : mul n (mul n (augT pose dt d) P) (tr (augT pose dt d)) i j =
      mul n (augT pose dt d) P i j + if pose ≤ j ∧ j < pose + 6 then mul n (augT pose dt d) P i dt * d (j - pose) else 0 := by
    generalize mul n (augT pose dt d) P = B
    simp only [mul, tr, augT, mul_add, Finset.sum_add_distrib]
    congr 1
    · exact mul_one_entry _ hj i
    · split_ifs with h
      · rw [← mul_one_entry B hdt i, Finset.sum_mul]
        refine Finset.sum_congr rfl fun _ _ => by ring
      · simp
  show _ = mul n (mul n (augT pose dt d) P) (tr (augT pose dt d)) i j + 0
  rw [h2, h1 i j hi, h1 i dt hi]
  simp only [dtCov]
  by_cases a : pose ≤ i ∧ i < pose + 6 <;> by_cases b : pose ≤ j ∧ j < pose + 6 <;>
    simp only [a, b, hi, hj, hdt, and_self, and_true, true_and, if_true, if_false, and_false] <;> ring

theorem augment_cov {w : V3} (h : augment s w = some s') :
    ∃ s1 u, clone s (imuUid, .pose) = some (s1, u) ∧ s'.n = s1.n ∧
      (s'.P = s1.P ∨ ∃ b d x, resolve s1 (u, .self) = some b ∧ resolve s1 (dtUid, .self) = some d ∧
        (s1.obj imuUid).val = .imu x ∧ d.1 < s1.n ∧
        EqOn s1.n s1.n s'.P (fun i j => mul s1.n (mul s1.n (augT b.1 d.1 (dncDt w x.v)) s1.P)
          (tr (augT b.1 d.1 (dncDt w x.v))) i j + 0)) := by
  obtain ⟨_, s1, u, h1, h2⟩ := augment_some h
  rcases h2 with ⟨_, rfl⟩ | ⟨_, x, b, d, hx, hb, hd, h6, hlt, rfl⟩
  · exact ⟨s1, u, h1, rfl, .inl rfl⟩
  · exact ⟨s1, u, h1, rfl, .inr ⟨b, d, x, hb, hd, hx, hlt, dtCov_eq hlt⟩⟩

theorem augment_sym (hI : Inv s) (hP : Mat.Sym s.n s.P) {w : V3} (h : augment s w = some s') : Mat.Sym s'.n s'.P := by
  obtain ⟨s1, u, h1, e, h2⟩ := augment_cov h
  have hP1 := clone_sym hI hP h1
  rw [e]
  rcases h2 with h2 | ⟨b, d, x, _, _, _, _, h2⟩
  · rw [h2]; exact hP1
  · exact sym_congr (G := fun _ _ => 0) _ hP1 (fun _ _ _ _ => rfl) h2

theorem augment_psd (hI : Inv s) (hp : PSD s.n s.P) {w : V3} (h : augment s w = some s') : PSD s'.n s'.P := by
  obtain ⟨s1, u, h1, e, h2⟩ := augment_cov h
  have hP1 := clone_psd hI hp h1
  rw [e]
  rcases h2 with h2 | ⟨b, d, x, _, _, _, _, h2⟩
  · rw [h2]; exact hP1
  · exact psd_congr (G := fun _ _ => 0) _ hP1 (psd_zero _) h2

/-! ### dropping clones and features -/

theorem dropClone_sym (hI : Inv s) (hP : Mat.Sym s.n s.P) {t : ℝ} (h : dropClone s t = some s') : Mat.Sym s'.n s'.P := by
  obtain ⟨c, s1, _, h1, rfl⟩ := dropClone_some h
  have := marginalize_sym hI hP h1
  exact this

theorem dropClone_psd (hI : Inv s) (hP : Mat.Sym s.n s.P) (hp : PSD s.n s.P) {t : ℝ} (h : dropClone s t = some s') :
    PSD s'.n s'.P := by
  obtain ⟨c, s1, _, h1, rfl⟩ := dropClone_some h
  have := marginalize_psd hI hP hp h1
  exact this

theorem margOld_sym (hI : Inv s) (hP : Mat.Sym s.n s.P) (h : margOld s = some s') : Mat.Sym s'.n s'.P := by
  rcases margOld_cases h with ⟨_, rfl⟩ | ⟨_, t, _, h⟩
  · exact hP
  · exact dropClone_sym hI hP h

theorem margOld_psd (hI : Inv s) (hP : Mat.Sym s.n s.P) (hp : PSD s.n s.P) (h : margOld s = some s') : PSD s'.n s'.P := by
  rcases margOld_cases h with ⟨_, rfl⟩ | ⟨_, t, _, h⟩
  · exact hp
  · exact dropClone_psd hI hP hp h

theorem margSlamLoop_cov (l kept : List (ℕ × ℕ)) {s s' : State} (hI : Inv s) (hP : Mat.Sym s.n s.P)
    (h : margSlamLoop l kept s = some s') : Mat.Sym s'.n s'.P ∧ (PSD s.n s.P → PSD s'.n s'.P) := by
  induction l generalizing kept s with
  | nil =>
    simp only [margSlamLoop, Option.some.injEq] at h
    subst h
    exact ⟨hP, id⟩
  | cons f t ih =>
    rw [margSlamLoop] at h
    split at h
    · rw [Option.bind_eq_bind, Option.bind_eq_some_iff] at h
      obtain ⟨s1, h1, h⟩ := h
      have := ih kept (marginalize_inv hI h1) (marginalize_sym hI hP h1) h
      exact ⟨this.1, fun hp => this.2 (marginalize_psd hI hP hp h1)⟩
    · exact ih _ hI hP h

/-! ### set_initial_covariance -/

theorem setInit_sym {C : DMat} {order : List Ref} (h : setInit s C order = some s') : Mat.Sym s'.n s'.P := by
  obtain ⟨L, _, _, _, rfl⟩ := setInit_some h
  exact fun i j _ _ => mirrorU_sym _ _ _

/-- entry `i` of the covariance belongs to one of the listed blocks. -/
def Covered (L : List (ℕ × ℕ)) (i : ℕ) : Prop := ∃ k, k < tot L ∧ ix L k = i

theorem setInit_entry {C : DMat} {order : List Ref} (h : setInit s C order = some s') :
    ∃ L, resolveAll s order = some L ∧ s'.n = s.n ∧
      (IxInj L → Mat.Sym (tot L) C.a → ∀ i j, i < tot L → j < tot L → s'.P (ix L i) (ix L j) = C.a i j) ∧
      (Mat.Sym s.n s.P → ∀ i j, i < s.n → j < s.n → ¬ (Covered L i ∧ Covered L j) → s'.P i j = s.P i j) := by
  obtain ⟨L, hL, _, _, rfl⟩ := setInit_some h
  refine ⟨L, hL, rfl, ?_, ?_⟩
  · intro hi hC i j hi' hj'
    simp only [mirrorU]
    split_ifs
    · rw [setLoop_inside C.a L L hi hi 0 s.P hi' hj', Nat.zero_add]
    · rw [setLoop_inside C.a L L hi hi 0 s.P hj' hi', Nat.zero_add, hC _ _ hj' hi']
  · intro hP i j hi hj hn
    simp only [mirrorU]
    split_ifs
    · rw [setLoop_outside _ _ _ _ _ _ _ hn]
    · rw [setLoop_outside _ _ _ _ _ _ _ (fun hc => hn ⟨hc.2, hc.1⟩), hP _ _ hj hi]

/-- `set_initial_covariance` keeps the covariance PSD if the new block is PSD and uncorrelated with the rest. -/
def SetOK (s : State) (C : DMat) (order : List Ref) : Prop :=
  ∀ L, resolveAll s order = some L → IxInj L ∧ Mat.Sym (tot L) C.a ∧ PSD (tot L) C.a ∧
    ∀ i j, i < s.n → j < s.n → Covered L i → ¬ Covered L j → s.P i j = 0

theorem covered_iff {L : List (ℕ × ℕ)} {i : ℕ} : Covered L i ↔ Spec.In L i := by
  induction L with
  | nil => simp [Covered, Spec.In, tot]
  | cons b t ih =>
    have ht : tot (b :: t) = b.2 + tot t := rfl
    constructor
    · rintro ⟨k, hk, e⟩
      simp only [ix] at e
      by_cases hb : k < b.2
      · rw [if_pos hb] at e
        exact ⟨b, by simp, by omega⟩
      · rw [if_neg hb] at e
        obtain ⟨c, hc, h⟩ := ih.1 ⟨k - b.2, by omega, e⟩
        exact ⟨c, by simp [hc], h⟩
    · rintro ⟨c, hc, h⟩
      rcases List.mem_cons.1 hc with rfl | hc
      · refine ⟨i - c.1, by omega, ?_⟩
        simp only [ix]; rw [if_pos (by omega)]; omega
      · obtain ⟨k, hk, e⟩ := ih.2 ⟨c, hc, h⟩
        refine ⟨b.2 + k, by omega, ?_⟩
        simp only [ix]; rw [if_neg (by omega), Nat.add_sub_cancel_left, e]

theorem disjoint_inj {L : List (ℕ × ℕ)} (h : Spec.Disjoint L) : IxInj L := by
  induction L with
  | nil => intro i j hi; simp [tot] at hi
  | cons b t ih =>
    have ht : tot (b :: t) = b.2 + tot t := rfl
    unfold Spec.Disjoint at h
    rw [List.pairwise_cons] at h
    have hne : ∀ a k, a < b.2 → k < tot t → b.1 + a ≠ ix t k := by
      intro a k ha hk e
      obtain ⟨c, hc, h1⟩ := covered_iff.1 ⟨k, hk, e.symm⟩
      have := h.1 c hc
      omega
    intro i j hi hj e
    simp only [ix] at e
    by_cases h1 : i < b.2 <;> by_cases h2 : j < b.2
    · rw [if_pos h1, if_pos h2] at e; omega
    · rw [if_pos h1, if_neg h2] at e; exact absurd e (hne _ _ h1 (by omega))
    · rw [if_neg h1, if_pos h2] at e; exact absurd e.symm (hne _ _ h2 (by omega))
    · rw [if_neg h1, if_neg h2] at e
      have := ih h.2 (i - b.2) (j - b.2) (by omega) (by omega) e
      omega

theorem setOK_of {C : DMat} {order : List Ref} (h : Spec.ArgsOK s (.setInit C order)) : SetOK s C order := by
  intro L hL
  obtain ⟨h1, h2, h3, h4⟩ := h L hL
  exact ⟨disjoint_inj h1, h2, h3, fun i j hi hj a b => h4 i j hi hj (covered_iff.1 a) (fun c => b (covered_iff.2 c))⟩

theorem setInit_psd {C : DMat} {order : List Ref} (hP : Mat.Sym s.n s.P) (hp : PSD s.n s.P) (ho : SetOK s C order)
    (h : setInit s C order = some s') : PSD s'.n s'.P := by
  obtain ⟨L, hL, e, h1, h2⟩ := setInit_entry h
  obtain ⟨hinj, hCs, hCp, hcross⟩ := ho L hL
  have h1 := h1 hinj hCs
  have h2 := h2 hP
  rw [e]
  set G : Mat := fun i j => if Covered L i ∨ Covered L j then 0 else s.P i j with hG
  have hGp : PSD s.n G := by
    intro x
    have := hp (fun i => if Covered L i then 0 else x i)
    convert this using 1
    unfold quad
    refine Finset.sum_congr rfl fun i _ => Finset.sum_congr rfl fun j _ => ?_
    simp only [hG]
    by_cases a : Covered L i <;> by_cases b : Covered L j <;> simp [a, b]
  refine psd_congr (G := G) (tr (sel (ix L))) hCp hGp ?_
  intro i j hi hj
  show _ = mul (tot L) (mul (tot L) (tr (sel (ix L))) C.a) (tr (tr (sel (ix L)))) i j + G i j
  have hA : ∀ i c, (∀ k, k < tot L → ix L k = i → mul (tot L) (tr (sel (ix L))) C.a i c = C.a k c) ∧
      (¬ Covered L i → mul (tot L) (tr (sel (ix L))) C.a i c = 0) := by
    intro i c
    simp only [mul, tr, sel]
    constructor
    · intro k hk hki
      rw [Finset.sum_eq_single k]
      · rw [if_pos hki, one_mul]
      · intro b hb hbk
        rw [if_neg, zero_mul]
        intro hbi
        exact hbk (hinj _ _ (Finset.mem_range.1 hb) hk (by rw [hbi, hki]))
      · intro hn; exact absurd (Finset.mem_range.2 hk) hn
    · intro hn
      refine Finset.sum_eq_zero fun b hb => ?_
      rw [if_neg, zero_mul]
      intro hbi; exact hn ⟨b, Finset.mem_range.1 hb, hbi⟩
  have hB : (∀ k, k < tot L → ix L k = j → mul (tot L) (mul (tot L) (tr (sel (ix L))) C.a) (tr (tr (sel (ix L)))) i j =
        mul (tot L) (tr (sel (ix L))) C.a i k) ∧
      (¬ Covered L j → mul (tot L) (mul (tot L) (tr (sel (ix L))) C.a) (tr (tr (sel (ix L)))) i j = 0) := by
    rw [mul]
    simp only [tr, sel]
    constructor
    · intro k hk hkj
      rw [Finset.sum_eq_single k]
      · rw [if_pos hkj, mul_one]
      · intro b hb hbk
        rw [if_neg, mul_zero]
        intro hbj
        exact hbk (hinj _ _ (Finset.mem_range.1 hb) hk (by rw [hbj, hkj]))
      · intro hn; exact absurd (Finset.mem_range.2 hk) hn
    · intro hn
      refine Finset.sum_eq_zero fun b hb => ?_
      rw [if_neg, mul_zero]
      intro hbj; exact hn ⟨b, Finset.mem_range.1 hb, hbj⟩
  by_cases a : Covered L i <;> by_cases b : Covered L j
  · obtain ⟨k, hk, rfl⟩ := a
    obtain ⟨l, hl, rfl⟩ := b
    rw [h1 k l hk hl, hB.1 l hl rfl, (hA _ _).1 k hk rfl]
    simp only [hG]
    rw [if_pos (Or.inl ⟨k, hk, rfl⟩), add_zero]
  · rw [h2 i j hi hj (by tauto), hB.2 b, hcross i j hi hj a b]
    simp [hG, a]
  · rw [h2 i j hi hj (by tauto), hP i j hi hj, hcross j i hj hi b a]
    obtain ⟨l, hl, rfl⟩ := b
    rw [hB.1 l hl rfl, (hA _ _).2 a]
    simp only [hG]
    rw [if_pos (Or.inr ⟨l, hl, rfl⟩), add_zero]
  · rw [h2 i j hi hj (by tauto), hB.2 b]
    simp [hG, a, b]

/-! ### the constructor -/

/-- diagonal with nonnegative entries. -/
def DiagNN (P : Mat) : Prop := ∀ i j, (i ≠ j → P i j = 0) ∧ 0 ≤ P i i

theorem DiagNN.sym {P : Mat} (h : DiagNN P) (n : ℕ) : Mat.Sym n P := by
  intro i j _ _
  by_cases e : i = j
  · rw [e]
  · rw [(h i j).1 e, (h j i).1 (Ne.symm e)]

theorem DiagNN.psd {P : Mat} (h : DiagNN P) (n : ℕ) : PSD n P := by
  intro x
  unfold quad
  refine Finset.sum_nonneg fun i hi => ?_
  rw [Finset.sum_eq_single i]
  · have := (h i i).2
    nlinarith [mul_nonneg this (sq_nonneg (x i))]
  · intro j _ hne; rw [(h i j).1 (Ne.symm hne)]; ring
  · intro hn; exact absurd hi hn

theorem DiagNN.diagBlock {P : Mat} (h : DiagNN P) (id k : ℕ) {v : ℝ} (hv : 0 ≤ v) : DiagNN (diagBlock id k v P) := by
  intro i j
  simp only [St.diagBlock, setBlock]
  constructor
  · intro hij
    split_ifs with hc
    · simp only [one]; rw [if_neg (by omega), mul_zero]
    · exact (h i j).1 hij
  · split_ifs with hc
    · simp only [one, if_true, mul_one]; exact hv
    · exact (h i i).2

theorem DiagNN.foldl {l : List ℕ} (f : Mat → ℕ → Mat) (hf : ∀ P i, DiagNN P → DiagNN (f P i)) {P : Mat} (h : DiagNN P) :
    DiagNN (l.foldl f P) := by
  induction l generalizing P with
  | nil => exact h
  | cons a t ih => exact ih (hf _ _ h)

theorem DiagNN.ite {A B : Mat} {p : Prop} [Decidable p] (hA : DiagNN A) (hB : DiagNN B) : DiagNN (if p then A else B) := by
  split_ifs <;> assumption

theorem priors_diag (o : Opts) (id : ℕ → ℕ) {P : Mat} (h0 : DiagNN P) : DiagNN (priors o id P) := by
  have ha := (h0.diagBlock (id 1) 6 (v := 0.005 ^ 2) (by positivity)).diagBlock (id 2) 6 (v := 0.008 ^ 2) (by positivity)
  have hb : DiagNN (if o.calibG then diagBlock (id 3) 9 (0.005 ^ 2) _ else _) :=
    (ha.diagBlock (id 3) 9 (v := 0.005 ^ 2) (by positivity)).ite ha
  have h1 : DiagNN (if o.calibImu then (if o.kalibr then _ else _) else P) :=
    ((hb.diagBlock (id 4) 3 (v := 0.005 ^ 2) (by positivity)).ite
      (hb.diagBlock (id 5) 3 (v := 0.005 ^ 2) (by positivity))).ite h0
  have h2 : DiagNN (if o.calibDt then _ else _) := (h1.diagBlock (id 6) 1 (v := 0.01 ^ 2) (by positivity)).ite h1
  have h3 : DiagNN (if o.calibPose then _ else _) :=
    (h2.foldl (l := List.range o.numCams) (fun p i =>
        St.diagBlock (id (7 + 2 * i) + 3) 3 (0.015 ^ 2) (St.diagBlock (id (7 + 2 * i)) 3 (0.005 ^ 2) p))
      fun P i hP => (hP.diagBlock _ _ (by positivity)).diagBlock _ _ (by positivity)).ite h2
  exact (h3.foldl (l := List.range o.numCams) (fun p i =>
        St.diagBlock (id (intrUid i) + 4) 4 (0.005 ^ 2) (St.diagBlock (id (intrUid i)) 4 (1 ^ 2) p))
      fun P i hP => (hP.diagBlock _ _ (by positivity)).diagBlock _ _ (by positivity)).ite h3

theorem ctor_diag (o : Opts) : DiagNN (ctor o).P := by
  unfold ctor
  simp only
  refine priors_diag o _ ?_
  intro i j
  refine ⟨fun e => ?_, ?_⟩
  · simp only [one]; rw [if_neg e, mul_zero]
  · simp only [one, if_true]; positivity

/-! ### the invariants along histories -/

theorem step_sym {op : Op} (hI : Inv s) (hP : Mat.Sym s.n s.P) (h : step lib s op = some s') : Mat.Sym s'.n s'.P := by
  cases op with
  | propagate nw old Phi Q => exact propagate_sym hP h
  | update order H res R => exact update_sym h
  | setInit C order => exact setInit_sym h
  | marginalize u => exact marginalize_sym hI hP h
  | clone r =>
    simp only [step, Option.map_eq_some_iff] at h
    obtain ⟨⟨a, u⟩, h1, rfl⟩ := h
    exact clone_sym hI hP h1
  | initInv u order HR HL R res => exact initInv_sym hI hP h
  | initDelayed u order HR HL R res mult =>
    simp only [step, Option.map_eq_some_iff] at h
    obtain ⟨⟨a, b⟩, h1, rfl⟩ := h
    exact initDelayed_sym hI hP h1
  | augment w => exact augment_sym hI hP h
  | margOld => exact margOld_sym hI hP h
  | dropClone t => exact dropClone_sym hI hP h
  | margSlam => exact (margSlamLoop_cov _ _ hI hP h).1
  | alloc v f => simp only [step] at h; split_ifs at h; obtain rfl := Option.some.inj h; exact hP
  | setVal u v => simp only [step] at h; split_ifs at h; obtain rfl := Option.some.inj h; exact hP
  | setCam i v => simp only [step] at h; obtain rfl := Option.some.inj h; exact hP
  | setFej u v => simp only [step] at h; split_ifs at h; obtain rfl := Option.some.inj h; exact hP
  | setMarg u b => simp only [step] at h; obtain rfl := Option.some.inj h; exact hP
  | addSlam fid u => simp only [step] at h; split_ifs at h <;> obtain rfl := Option.some.inj h <;> exact hP
  | setTime t => simp only [step] at h; obtain rfl := Option.some.inj h; exact hP

theorem step_psd (hlib : Spec.LibOK lib) {op : Op} (hI : Inv s) (hP : Mat.Sym s.n s.P) (hp : PSD s.n s.P) (ho : Spec.ArgsOK s op)
    (h : step lib s op = some s') : PSD s'.n s'.P := by
  cases op with
  | propagate nw old Phi Q => exact propagate_psd hP hp ho h
  | update order H res R => exact update_psd hlib hI hP hp ho.1 ho.2 h
  | setInit C order => exact setInit_psd hP hp (setOK_of ho) h
  | marginalize u => exact marginalize_psd hI hP hp h
  | clone r =>
    simp only [step, Option.map_eq_some_iff] at h
    obtain ⟨⟨a, u⟩, h1, rfl⟩ := h
    exact clone_psd hI hp h1
  | initInv u order HR HL R res => exact initInv_psd hI hP hp ho h
  | initDelayed u order HR HL R res mult =>
    simp only [step, Option.map_eq_some_iff] at h
    obtain ⟨⟨a, b⟩, h1, rfl⟩ := h
    exact initDelayed_psd hlib hI hP hp ho h1
  | augment w => exact augment_psd hI hp h
  | margOld => exact margOld_psd hI hP hp h
  | dropClone t => exact dropClone_psd hI hP hp h
  | margSlam => exact (margSlamLoop_cov _ _ hI hP h).2 hp
  | alloc v f => simp only [step] at h; split_ifs at h; obtain rfl := Option.some.inj h; exact hp
  | setVal u v => simp only [step] at h; split_ifs at h; obtain rfl := Option.some.inj h; exact hp
  | setCam i v => simp only [step] at h; obtain rfl := Option.some.inj h; exact hp
  | setFej u v => simp only [step] at h; split_ifs at h; obtain rfl := Option.some.inj h; exact hp
  | setMarg u b => simp only [step] at h; obtain rfl := Option.some.inj h; exact hp
  | addSlam fid u => simp only [step] at h; split_ifs at h <;> obtain rfl := Option.some.inj h <;> exact hp
  | setTime t => simp only [step] at h; obtain rfl := Option.some.inj h; exact hp

end Verif.St
