import Verif.State.Model

/-!
# Index maps: block-wise loops as matrix products with a selection matrix
-/

set_option linter.unusedVariables false
open Classical

namespace Verif.St

open Verif Verif.Types Finset Mat

/-- position in the full state of the `j`-th entry of the concatenation of the blocks. -/
def ix : List (ℕ × ℕ) → ℕ → ℕ
  | [], _ => 0
  | b :: t, j => if j < b.2 then b.1 + j else ix t (j - b.2)

theorem sumB_eq (L : List (ℕ × ℕ)) (off : ℕ) (f : ℕ → ℕ → ℝ) :
    sumB L off f = ∑ j ∈ range (tot L), f (ix L j) (off + j) := by
  induction L generalizing off with
  | nil => simp [sumB, tot]
  | cons b t ih =>
    obtain ⟨id, sz⟩ := b
    simp only [sumB, tot]
    rw [Finset.sum_range_add, ih]
    congr 1
    · refine Finset.sum_congr rfl fun k hk => ?_
      simp [ix, Finset.mem_range.1 hk]
    · refine Finset.sum_congr rfl fun k hk => ?_
      simp only [ix]
      rw [if_neg (by omega), Nat.add_sub_cancel_left, Nat.add_assoc]

theorem ix_lt {L : List (ℕ × ℕ)} {n : ℕ} (h : ∀ b ∈ L, b.1 + b.2 ≤ n) {j : ℕ} (hj : j < tot L) : ix L j < n := by
  induction L generalizing j with
  | nil => simp [tot] at hj
  | cons b t ih =>
    simp only [ix]
    split_ifs with h1
    · have := h b (by simp); omega
    · refine ih (fun c hc => h c (by simp [hc])) ?_
      simp only [tot] at hj; omega

theorem resolve_le {s : State} {r : Ref} {b : ℕ × ℕ} (h : resolve s r = some b) : b.1 + b.2 ≤ s.n := by
  unfold resolve at h
  split at h
  · simp at h
  · split_ifs at h with h1
    simp only [Option.some.injEq] at h
    subst h; omega

theorem resolveAll_cons {s : State} {r : Ref} {t : List Ref} {L : List (ℕ × ℕ)} :
    resolveAll s (r :: t) = some L ↔ ∃ b bs, resolve s r = some b ∧ resolveAll s t = some bs ∧ L = b :: bs := by
  simp only [resolveAll]
  constructor
  · intro h
    cases hb : resolve s r with
    | none => rw [hb] at h; simp at h
    | some b =>
      cases hbs : resolveAll s t with
      | none => rw [hb, hbs] at h; simp at h
      | some bs =>
        rw [hb, hbs] at h
        simp at h
        exact ⟨b, bs, rfl, rfl, h.symm⟩
  · rintro ⟨b, bs, h1, h2, rfl⟩
    simp [h1, h2]

theorem resolveAll_le {s : State} {order : List Ref} {L : List (ℕ × ℕ)} (h : resolveAll s order = some L) :
    ∀ b ∈ L, b.1 + b.2 ≤ s.n := by
  induction order generalizing L with
  | nil => simp [resolveAll] at h; subst h; simp
  | cons r t ih =>
    obtain ⟨b, bs, h1, h2, rfl⟩ := resolveAll_cons.1 h
    intro c hc
    rcases List.mem_cons.1 hc with rfl | hc
    · exact resolve_le h1
    · exact ih h2 c hc

/-! ### get_marginal_covariance -/

theorem margRow_eq (P : Mat) (b : ℕ × ℕ) (iIdx : ℕ) (L : List (ℕ × ℕ)) (kIdx : ℕ) (M : Mat) (i j : ℕ) :
    margRow P b iIdx L kIdx M i j =
      if (iIdx ≤ i ∧ i < iIdx + b.2) ∧ (kIdx ≤ j ∧ j < kIdx + tot L) then P (b.1 + (i - iIdx)) (ix L (j - kIdx))
      else M i j := by
  induction L generalizing kIdx M with
  | nil => have ht : tot [] = 0 := rfl
           rw [if_neg (by omega)]; rfl
  | cons c t ih =>
    have ht : tot (c :: t) = c.2 + tot t := rfl
    simp only [margRow, ih]
    by_cases hi : iIdx ≤ i ∧ i < iIdx + b.2
    · by_cases h1 : kIdx + c.2 ≤ j ∧ j < kIdx + c.2 + tot t
      · rw [if_pos ⟨hi, h1⟩, if_pos ⟨hi, by omega⟩]
        simp only [ix]
        rw [if_neg (by omega)]
        congr 2; omega
      · rw [if_neg (by tauto)]
        by_cases h2 : kIdx ≤ j ∧ j < kIdx + c.2
        · rw [if_pos ⟨hi, by omega⟩]
          simp only [setBlock]
          rw [if_pos ⟨hi, h2⟩]
          simp only [block, ix]
          rw [if_pos (by omega)]
        · rw [setBlock_outside _ _ (by tauto), if_neg (by omega)]
    · rw [if_neg (by tauto), if_neg (by tauto), setBlock_outside _ _ (by tauto)]

theorem margLoop_eq (P : Mat) (all L : List (ℕ × ℕ)) (iIdx : ℕ) (M : Mat) (i j : ℕ) :
    margLoop P all L iIdx M i j =
      if (iIdx ≤ i ∧ i < iIdx + tot L) ∧ j < tot all then P (ix L (i - iIdx)) (ix all j) else M i j := by
  induction L generalizing iIdx M with
  | nil => have ht : tot [] = 0 := rfl
           rw [if_neg (by omega)]; rfl
  | cons b t ih =>
    have ht : tot (b :: t) = b.2 + tot t := rfl
    simp only [margLoop, ih]
    by_cases hj : j < tot all
    · by_cases h1 : iIdx + b.2 ≤ i ∧ i < iIdx + b.2 + tot t
      · rw [if_pos ⟨h1, hj⟩, if_pos ⟨by omega, hj⟩]
        simp only [ix]
        rw [if_neg (by omega)]
        congr 2; omega
      · rw [if_neg (by tauto), margRow_eq]
        by_cases h2 : iIdx ≤ i ∧ i < iIdx + b.2
        · rw [if_pos ⟨h2, by omega⟩, if_pos ⟨by omega, hj⟩]
          simp only [ix]
          rw [if_pos (by omega)]
          rfl
        · rw [if_neg (by tauto), if_neg (by omega)]
    · rw [if_neg (by tauto), if_neg (by tauto), margRow_eq, if_neg (by omega)]

theorem margCov_eq (P : Mat) (L : List (ℕ × ℕ)) {i j : ℕ} (hi : i < tot L) (hj : j < tot L) :
    margCov P L i j = P (ix L i) (ix L j) := by
  rw [margCov, margLoop_eq, if_pos ⟨by omega, hj⟩]
  rfl

/-! ### set_initial_covariance -/

/-- the blocks do not overlap. -/
def IxInj (L : List (ℕ × ℕ)) : Prop := ∀ i j, i < tot L → j < tot L → ix L i = ix L j → i = j

theorem setRow_outside (C : Mat) (b : ℕ × ℕ) (iIdx : ℕ) (L : List (ℕ × ℕ)) (kIdx : ℕ) (P : Mat) (i j : ℕ)
    (h : ¬ ((b.1 ≤ i ∧ i < b.1 + b.2) ∧ ∃ k, k < tot L ∧ ix L k = j)) : setRow C b iIdx L kIdx P i j = P i j := by
  induction L generalizing kIdx P with
  | nil => rfl
  | cons c t ih =>
    simp only [setRow]
    rw [ih]
    · refine setBlock_outside _ _ fun hc => h ⟨hc.1, j - c.1, ?_, ?_⟩
      · simp only [tot]; omega
      · simp only [ix]; rw [if_pos (by omega)]; omega
    · rintro ⟨h1, k, hk, hkj⟩
      refine h ⟨h1, c.2 + k, by simp only [tot]; omega, ?_⟩
      simp only [ix]; rw [if_neg (by omega), Nat.add_sub_cancel_left, hkj]

theorem IxInj.tail {b : ℕ × ℕ} {t : List (ℕ × ℕ)} (h : IxInj (b :: t)) : IxInj t := by
  intro i j hi hj e
  have := h (b.2 + i) (b.2 + j) (by simp only [tot]; omega) (by simp only [tot]; omega) (by
    simp only [ix]
    rw [if_neg (by omega), if_neg (by omega), Nat.add_sub_cancel_left, Nat.add_sub_cancel_left, e])
  omega

theorem IxInj.head_ne {b : ℕ × ℕ} {t : List (ℕ × ℕ)} (h : IxInj (b :: t)) {a k : ℕ} (ha : a < b.2) (hk : k < tot t) :
    b.1 + a ≠ ix t k := by
  intro e
  have := h a (b.2 + k) (by simp only [tot]; omega) (by simp only [tot]; omega) (by
    simp only [ix]
    rw [if_pos ha, if_neg (by omega), Nat.add_sub_cancel_left, e])
  omega

theorem setRow_inside (C : Mat) (b : ℕ × ℕ) (iIdx : ℕ) (L : List (ℕ × ℕ)) (hL : IxInj L) (kIdx : ℕ) (P : Mat)
    {a k : ℕ} (ha : a < b.2) (hk : k < tot L) :
    setRow C b iIdx L kIdx P (b.1 + a) (ix L k) = C (iIdx + a) (kIdx + k) := by
  induction L generalizing kIdx P k with
  | nil => simp [tot] at hk
  | cons c t ih =>
    simp only [setRow, ix]
    split_ifs with h1
    · rw [setRow_outside]
      · rw [setBlock_inside _ _ ha h1]; rfl
      · rintro ⟨_, k', hk', e⟩
        exact hL.head_ne h1 hk' e.symm
    · rw [ih hL.tail]
      · congr 1; omega
      · simp only [tot] at hk; omega

theorem setLoop_outside (C : Mat) (all L : List (ℕ × ℕ)) (iIdx : ℕ) (P : Mat) (i j : ℕ)
    (h : ¬ ((∃ k, k < tot L ∧ ix L k = i) ∧ ∃ k, k < tot all ∧ ix all k = j)) : setLoop C all L iIdx P i j = P i j := by
  induction L generalizing iIdx P with
  | nil => rfl
  | cons b t ih =>
    simp only [setLoop]
    rw [ih, setRow_outside]
    · rintro ⟨h1, h2⟩
      refine h ⟨⟨i - b.1, by simp only [tot]; omega, ?_⟩, h2⟩
      simp only [ix]; rw [if_pos (by omega)]; omega
    · rintro ⟨⟨k, hk, e⟩, h2⟩
      refine h ⟨⟨b.2 + k, by simp only [tot]; omega, ?_⟩, h2⟩
      simp only [ix]; rw [if_neg (by omega), Nat.add_sub_cancel_left, e]

theorem setLoop_inside (C : Mat) (all L : List (ℕ × ℕ)) (hall : IxInj all) (hL : IxInj L) (iIdx : ℕ) (P : Mat)
    {i k : ℕ} (hi : i < tot L) (hk : k < tot all) :
    setLoop C all L iIdx P (ix L i) (ix all k) = C (iIdx + i) k := by
  induction L generalizing iIdx P i with
  | nil => simp [tot] at hi
  | cons b t ih =>
    simp only [setLoop, ix]
    split_ifs with h1
    · rw [setLoop_outside]
      · rw [setRow_inside C b iIdx all hall 0 P h1 hk, Nat.zero_add]
      · rintro ⟨⟨k', hk', e⟩, _⟩
        exact hL.head_ne h1 hk' e.symm
    · rw [ih hL.tail]
      · congr 1; omega
      · simp only [tot] at hi; omega

/-! ### the scattered Jacobian -/

/-- `H` given on the columns of the listed blocks, as a matrix on the full state: column `a` is the sum of the
columns of `H` that refer to state entry `a`. -/
noncomputable def scatter (L : List (ℕ × ℕ)) (H : Mat) : Mat := fun r a =>
  ∑ j ∈ range (tot L), if ix L j = a then H r j else 0

theorem scatter_eq (L : List (ℕ × ℕ)) (H : Mat) : scatter L H = mul (tot L) H (sel (ix L)) := by
  funext r a
  simp only [scatter, mul, sel, mul_ite, mul_one, mul_zero]

variable {n m : ℕ} {L : List (ℕ × ℕ)}

theorem mul_scatter_tr (hL : ∀ b ∈ L, b.1 + b.2 ≤ n) (P H : Mat) (a r : ℕ) :
    (∑ j ∈ range (tot L), P a (ix L j) * H r j) = mul n P (tr (scatter L H)) a r := by
  simp only [mul, tr, scatter, Finset.mul_sum]
  rw [Finset.sum_comm]
  refine Finset.sum_congr rfl fun j hj => ?_
  have := ix_lt hL (Finset.mem_range.1 hj)
  simp only [mul_ite, mul_zero]
  rw [Finset.sum_ite_eq, if_pos (Finset.mem_range.2 this)]

theorem scatter_mul (hL : ∀ b ∈ L, b.1 + b.2 ≤ n) (P H : Mat) (r c : ℕ) :
    (∑ j ∈ range (tot L), H r j * P (ix L j) c) = mul n (scatter L H) P r c := by
  simp only [mul, scatter, Finset.sum_mul]
  rw [Finset.sum_comm]
  refine Finset.sum_congr rfl fun j hj => ?_
  have := ix_lt hL (Finset.mem_range.1 hj)
  simp only [ite_mul, zero_mul]
  rw [Finset.sum_ite_eq, if_pos (Finset.mem_range.2 this)]

/-- `H P_small Hᵀ = H_full P H_fullᵀ`. -/
theorem small_eq_full (hL : ∀ b ∈ L, b.1 + b.2 ≤ n) (P H : Mat) (r c : ℕ) :
    mul (tot L) (mul (tot L) H (margCov P L)) (tr H) r c = mul n (mul n (scatter L H) P) (tr (scatter L H)) r c := by
  rw [← mul_scatter_tr hL]
  simp only [mul, tr]
  refine Finset.sum_congr rfl fun j hj => ?_
  congr 1
  rw [show (∑ x ∈ range n, scatter L H r x * P x (ix L j)) = mul n (scatter L H) P r (ix L j) from rfl,
    ← scatter_mul hL]
  refine Finset.sum_congr rfl fun k hk => ?_
  rw [margCov_eq _ _ (Finset.mem_range.1 hk) (Finset.mem_range.1 hj)]

end Verif.St
