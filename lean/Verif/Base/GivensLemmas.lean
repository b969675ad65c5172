import Verif.Base.Givens
import Mathlib.Tactic.FieldSimp

set_option linter.unusedVariables false

namespace Verif.Givens

open Verif Mat Finset

theorem makeGivens_unit (p q : ℝ) : (makeGivens p q).1 ^ 2 + (makeGivens p q).2 ^ 2 = 1 := by
  unfold makeGivens
  split_ifs with h1 h2 h3 h4 h5 h6 h7 <;> norm_num
  all_goals
    have ht : ∀ t : ℝ, 0 < 1 + t ^ 2 := fun t => by positivity
    first
    | (have h := Real.sq_sqrt (ht (q / p)).le; have h0 := (Real.sqrt_pos.2 (ht (q / p))).ne'
       generalize Real.sqrt (1 + (q / p) ^ 2) = u at *
       generalize q / p = t at *
       field_simp; linarith)
    | (have h := Real.sq_sqrt (ht (p / q)).le; have h0 := (Real.sqrt_pos.2 (ht (p / q))).ne'
       generalize Real.sqrt (1 + (p / q) ^ 2) = u at *
       generalize p / q = t at *
       field_simp; linarith)

theorem makeGivens_zero (p q : ℝ) : (makeGivens p q).2 * p + (makeGivens p q).1 * q = 0 := by
  unfold makeGivens
  split_ifs with h1 h2 h3 h4 h5 h6 h7 <;> simp_all <;> field_simp <;> ring

/-- the rotation as a matrix. -/
def rotM (r : ℕ) (c s : ℝ) (m : ℕ) : Matrix (Fin r) (Fin r) ℝ := toM r r (rotRows c s m 0 one)

theorem rotRows_eq_sum {r m : ℕ} (hm : m < r) (c s : ℝ) (A : Mat) (i j : ℕ) (hi : i < r) :
    rotRows c s m 0 A i j = ∑ k ∈ range r, rotRows c s m 0 one i k * A k j := by
  have key : ∀ a, a < r → ∑ k ∈ range r, one a k * A k j = A a j := by
    intro a ha
    simp only [one, ite_mul, one_mul, zero_mul]
    rw [Finset.sum_ite_eq, if_pos (Finset.mem_range.2 ha)]
  have hm1 : m - 1 < r := by omega
  simp only [rotRows, Nat.not_lt_zero, if_false]
  by_cases h1 : i = m - 1
  · simp only [h1, if_true, sub_mul, mul_assoc, Finset.sum_sub_distrib, ← Finset.mul_sum, key _ hm, key _ hm1]
  · by_cases h2 : i = m
    · subst h2
      simp only [h1, if_false, if_true, add_mul, mul_assoc, Finset.sum_add_distrib, ← Finset.mul_sum, key _ hm,
        key _ hm1]
    · simp only [h1, h2, if_false, key _ hi]

theorem rotM_orth {r m : ℕ} (hm0 : 0 < m) (hm : m < r) {c s : ℝ} (h : c ^ 2 + s ^ 2 = 1) :
    (rotM r c s m).transpose * rotM r c s m = 1 := by
  rw [mul_eq_one_comm]
  ext i j
  rw [Matrix.mul_apply, Matrix.one_apply]
  have := rotRows_eq_sum hm c s (tr (rotRows c s m 0 one)) i j i.2
  rw [Finset.sum_range] at this
  rw [show (∑ k, rotM r c s m i k * (rotM r c s m).transpose k j) = ∑ k : Fin r, rotRows c s m 0 one i k *
    tr (rotRows c s m 0 one) k j from rfl, ← this]
  have hij : (i = j) ↔ ((i : ℕ) = (j : ℕ)) := Fin.ext_iff
  rw [show (if i = j then (1 : ℝ) else 0) = if (i : ℕ) = (j : ℕ) then 1 else 0 from by simp only [hij]]
  generalize (i : ℕ) = a
  generalize (j : ℕ) = b
  simp only [rotRows, tr, one, Nat.not_lt_zero, if_false]
  have e1 : m ≠ m - 1 := by omega
  by_cases a1 : a = m - 1 <;> by_cases a2 : a = m <;> by_cases b1 : b = m - 1 <;> by_cases b2 : b = m <;>
    simp [a1, a2, b1, b2, e1, e1.symm] <;> first | omega | (try split_ifs) <;> (try omega) <;> (try nlinarith)

/-- `S'` is obtained from `S` by multiplying all three parts by one orthogonal matrix on the left. -/
def Rel (r : ℕ) (S S' : Sys) : Prop :=
  ∃ Q : Matrix (Fin r) (Fin r) ℝ, Q.transpose * Q = 1 ∧
    (∀ (i : Fin r) (j : ℕ), S'.A i j = ∑ k : Fin r, Q i k * S.A k j) ∧
    (∀ (i : Fin r) (j : ℕ), S'.B i j = ∑ k : Fin r, Q i k * S.B k j) ∧
    (∀ (i : Fin r), S'.v i = ∑ k : Fin r, Q i k * S.v k)

theorem Rel.refl (r : ℕ) (S : Sys) : Rel r S S := by
  refine ⟨1, by simp, ?_, ?_, ?_⟩ <;> intros <;> simp [Matrix.one_apply]

theorem Rel.trans {r : ℕ} {S S' S'' : Sys} (h : Rel r S S') (h' : Rel r S' S'') : Rel r S S'' := by
  obtain ⟨Q, hQ, a, b, c⟩ := h
  obtain ⟨Q', hQ', a', b', c'⟩ := h'
  have key : ∀ f : Fin r → ℝ, ∀ i, ∑ k, Q' i k * ∑ l, Q k l * f l = ∑ l, (Q' * Q) i l * f l := by
    intro f i
    simp only [Matrix.mul_apply, Finset.mul_sum, Finset.sum_mul]
    rw [Finset.sum_comm]
    refine Finset.sum_congr rfl fun _ _ => Finset.sum_congr rfl fun _ _ => by ring
  refine ⟨Q' * Q, ?_, ?_, ?_, ?_⟩
  · rw [Matrix.transpose_mul, Matrix.mul_assoc, ← Matrix.mul_assoc Q'.transpose, hQ', Matrix.one_mul, hQ]
  · intro i j; rw [a' i j, ← key]; simp only [a]
  · intro i j; rw [b' i j, ← key]; simp only [b]
  · intro i; rw [c' i, ← key]; simp only [c]

/-- zero below the diagonal in columns `< n`. -/
def Low (r n : ℕ) (A : Mat) : Prop := ∀ j, j < n → ∀ i, j < i → i < r → A i j = 0

/-- the three parts of `S'` are those of `S` multiplied by `Q`. -/
def RelQ (r : ℕ) (Q : Matrix (Fin r) (Fin r) ℝ) (S S' : Sys) : Prop :=
  (∀ (i : Fin r) (j : ℕ), S'.A i j = ∑ k : Fin r, Q i k * S.A k j) ∧
  (∀ (i : Fin r) (j : ℕ), S'.B i j = ∑ k : Fin r, Q i k * S.B k j) ∧
  (∀ (i : Fin r), S'.v i = ∑ k : Fin r, Q i k * S.v k)

theorem step_relQ {r n m : ℕ} (S : Sys) (hm : m < r) (hL : Low r n S.A) (hn : n < m) :
    RelQ r (rotM r (makeGivens (S.A (m - 1) n) (S.A m n)).1 (makeGivens (S.A (m - 1) n) (S.A m n)).2 m) S (step n m S) := by
  refine ⟨?_, ?_, ?_⟩
  · intro i j
    have h := rotRows_eq_sum hm (makeGivens (S.A (m - 1) n) (S.A m n)).1 (makeGivens (S.A (m - 1) n) (S.A m n)).2 S.A i
      j i.2
    rw [Finset.sum_range] at h
    refine Eq.trans ?_ h
    show rotRows _ _ m n S.A i j = _
    simp only [rotRows, Nat.not_lt_zero, if_false]
    by_cases hj : j < n
    · rw [if_pos hj]
      have z1 : S.A m j = 0 := hL j hj m (by omega) hm
      have z2 : S.A (m - 1) j = 0 := hL j hj (m - 1) (by omega) (by omega)
      split_ifs with h1 h2
      · rw [h1, z1, z2]; ring
      · rw [h2, z1, z2]; ring
      · rfl
    · rw [if_neg hj]
  · intro i j
    have h := rotRows_eq_sum hm (makeGivens (S.A (m - 1) n) (S.A m n)).1 (makeGivens (S.A (m - 1) n) (S.A m n)).2 S.B i
      j i.2
    rw [Finset.sum_range] at h
    exact h
  · intro i
    have h := rotRows_eq_sum hm (makeGivens (S.A (m - 1) n) (S.A m n)).1 (makeGivens (S.A (m - 1) n) (S.A m n)).2
      (fun a _ => S.v a) i 0 i.2
    rw [Finset.sum_range] at h
    refine Eq.trans ?_ h
    simp only [step, rotVec, rotRows, Nat.not_lt_zero, if_false]

theorem step_rel {r n m : ℕ} (S : Sys) (hn : n < m) (hm : m < r) (hL : Low r n S.A) : Rel r S (step n m S) :=
  ⟨_, rotM_orth (by omega) hm (makeGivens_unit _ _), step_relQ S hm hL hn⟩

theorem step_low {r n m : ℕ} (S : Sys) (hn : n < m) (hL : Low r n S.A) : Low r n (step n m S).A := by
  intro j hj i hi hr
  show rotRows _ _ m n S.A i j = 0
  simp only [rotRows, if_pos hj]
  exact hL j hj i hi hr

/-- zeros in column `n` strictly below row `k`. -/
def ColZ (r n k : ℕ) (A : Mat) : Prop := ∀ i, k < i → i < r → A i n = 0

theorem step_col {r n m : ℕ} (S : Sys) (hn : n < m) (hC : ColZ r n m S.A) : ColZ r n (m - 1) (step n m S).A := by
  intro i hi hr
  show rotRows _ _ m n S.A i n = 0
  simp only [rotRows, lt_irrefl, if_false]
  rw [if_neg (by omega)]
  by_cases h : i = m
  · rw [if_pos h]; exact makeGivens_zero _ _
  · rw [if_neg h]; exact hC i (by omega) hr

theorem inner_spec {r n : ℕ} (k : ℕ) : ∀ S : Sys, n + k < r → Low r n S.A → ColZ r n (n + k) S.A →
    Rel r S (inner n k S) ∧ Low r n (inner n k S).A ∧ ColZ r n n (inner n k S).A := by
  induction k with
  | zero => intro S _ hL hC; exact ⟨Rel.refl r S, hL, hC⟩
  | succ k ih =>
    intro S hr hL hC
    have hC' := step_col (m := n + k + 1) S (by omega) hC
    have := ih (step n (n + k + 1) S) (by omega) (step_low S (by omega) hL) hC'
    exact ⟨(step_rel S (by omega) (by omega) hL).trans this.1, this.2⟩

theorem inner_all {r n : ℕ} (S : Sys) (hL : Low r n S.A) :
    Rel r S (inner n (r - 1 - n) S) ∧ Low r (n + 1) (inner n (r - 1 - n) S).A := by
  by_cases hn : n < r
  · have h := inner_spec (r := r) (n := n) (r - 1 - n) S (by omega) hL (by intro i h1 h2; omega)
    refine ⟨h.1, ?_⟩
    intro j hj i hi hr
    by_cases e : j = n
    · subst e; exact h.2.2 i hi hr
    · exact h.2.1 j (by omega) i hi hr
  · have : r - 1 - n = 0 := by omega
    rw [this]
    refine ⟨Rel.refl r S, ?_⟩
    intro j hj i hi hr
    show S.A i j = 0
    exact hL j (by omega) i hi hr

theorem outer_spec {r : ℕ} (k : ℕ) : ∀ (n : ℕ) (S : Sys), Low r n S.A →
    Rel r S (outer r k n S) ∧ Low r (n + k) (outer r k n S).A := by
  induction k with
  | zero => intro n S hL; exact ⟨Rel.refl r S, hL⟩
  | succ k ih =>
    intro n S hL
    have h := inner_all S hL
    have h' := ih (n + 1) _ h.2
    refine ⟨h.1.trans h'.1, ?_⟩
    have : n + (k + 1) = n + 1 + k := by omega
    rw [this]; exact h'.2

/-! ### The orthogonal matrix only depends on the active matrix -/

/-- `F` turns every system with active matrix `A` into one with active matrix `A'`, by one and the same orthogonal matrix. -/
def Uni (r : ℕ) (A A' : Mat) (F : Sys → Sys) : Prop :=
  ∃ Q : Matrix (Fin r) (Fin r) ℝ, Q.transpose * Q = 1 ∧ ∀ S, S.A = A → (F S).A = A' ∧ RelQ r Q S (F S)

theorem Uni.comp {r : ℕ} {A A' A'' : Mat} {F G : Sys → Sys} (h : Uni r A A' F) (h' : Uni r A' A'' G) : Uni r A A'' (fun S => G (F S)) := by
  obtain ⟨Q, hQ, a⟩ := h
  obtain ⟨Q', hQ', a'⟩ := h'
  have key : ∀ f : Fin r → ℝ, ∀ i, ∑ k, Q' i k * ∑ l, Q k l * f l = ∑ l, (Q' * Q) i l * f l := by
    intro f i
    simp only [Matrix.mul_apply, Finset.mul_sum, Finset.sum_mul]
    rw [Finset.sum_comm]
    refine Finset.sum_congr rfl fun _ _ => Finset.sum_congr rfl fun _ _ => by ring
  refine ⟨Q' * Q, ?_, fun S hS => ?_⟩
  · rw [Matrix.transpose_mul, Matrix.mul_assoc, ← Matrix.mul_assoc Q'.transpose, hQ', Matrix.one_mul, hQ]
  · obtain ⟨b1, b2, b3, b4⟩ := a S hS
    obtain ⟨c1, c2, c3, c4⟩ := a' _ b1
    refine ⟨c1, ?_, ?_, ?_⟩
    · intro i j; rw [c2 i j, ← key]; simp only [b2]
    · intro i j; rw [c3 i j, ← key]; simp only [b3]
    · intro i; rw [c4 i, ← key]; simp only [b4]

theorem Uni.id (r : ℕ) (A : Mat) : Uni r A A (fun S => S) := by
  refine ⟨1, by simp, fun S hS => ⟨hS, ?_, ?_, ?_⟩⟩ <;> intros <;> simp [Matrix.one_apply]

theorem step_A {n m : ℕ} {S S' : Sys} (h : S.A = S'.A) : (step n m S).A = (step n m S').A := by
  simp only [step, h]

theorem step_uni {r n m : ℕ} (A : Mat) (hn : n < m) (hm : m < r) (hL : Low r n A) :
    Uni r A (step n m ⟨A, A, fun _ => 0⟩).A (step n m) := by
  refine ⟨_, rotM_orth (by omega) hm (makeGivens_unit (A (m - 1) n) (A m n)), fun S hS => ⟨step_A hS, ?_⟩⟩
  subst hS
  exact step_relQ S hm hL hn

theorem inner_A {n : ℕ} (k : ℕ) : ∀ {S S' : Sys}, S.A = S'.A → (inner n k S).A = (inner n k S').A := by
  induction k with
  | zero => intro S S' h; exact h
  | succ k ih => intro S S' h; exact ih (step_A h)

theorem inner_uni {r n : ℕ} (k : ℕ) : ∀ A : Mat, n + k < r → Low r n A →
    Uni r A (inner n k ⟨A, A, fun _ => 0⟩).A (inner n k) := by
  induction k with
  | zero => intro A _ _; exact Uni.id r A
  | succ k ih =>
    intro A hr hL
    have h1 := step_uni (m := n + k + 1) A (by omega) (by omega) hL
    have h2 := ih (step n (n + k + 1) ⟨A, A, fun _ => 0⟩).A (by omega) (step_low ⟨A, A, fun _ => 0⟩ (by omega) hL)
    have := h1.comp h2
    have e : (inner n (k + 1) ⟨A, A, fun _ => 0⟩).A =
        (inner n k ⟨(step n (n + k + 1) ⟨A, A, fun _ => 0⟩).A, (step n (n + k + 1) ⟨A, A, fun _ => 0⟩).A, fun _ => 0⟩).A := inner_A k rfl
    rw [e]; exact this

theorem inner_all_uni {r n : ℕ} (A : Mat) (hL : Low r n A) :
    Uni r A (inner n (r - 1 - n) ⟨A, A, fun _ => 0⟩).A (inner n (r - 1 - n)) := by
  by_cases hn : n < r
  · exact inner_uni _ A (by omega) hL
  · have : r - 1 - n = 0 := by omega
    rw [this]; exact Uni.id r A

theorem outer_A {r : ℕ} (k : ℕ) : ∀ (n : ℕ) {S S' : Sys}, S.A = S'.A → (outer r k n S).A = (outer r k n S').A := by
  induction k with
  | zero => intro n S S' h; exact h
  | succ k ih => intro n S S' h; exact ih _ (inner_A _ h)

theorem outer_uni {r : ℕ} (k : ℕ) : ∀ (n : ℕ) (A : Mat), Low r n A → Uni r A (outer r k n ⟨A, A, fun _ => 0⟩).A (outer r k n) := by
  induction k with
  | zero => intro n A _; exact Uni.id r A
  | succ k ih =>
    intro n A hL
    have h1 := inner_all_uni A hL
    have h2 := ih (n + 1) (inner n (r - 1 - n) ⟨A, A, fun _ => 0⟩).A (inner_all ⟨A, A, fun _ => 0⟩ hL).2
    have := h1.comp h2
    have e : (outer r (k + 1) n ⟨A, A, fun _ => 0⟩).A = (outer r k (n + 1) ⟨(inner n (r - 1 - n) ⟨A, A, fun _ => 0⟩).A,
        (inner n (r - 1 - n) ⟨A, A, fun _ => 0⟩).A, fun _ => 0⟩).A := outer_A k (n + 1) rfl
    rw [e]; exact this

/-- one orthogonal matrix for all passive parts. -/
theorem run_uni (r c : ℕ) (A : Mat) : ∃ (Q : Matrix (Fin r) (Fin r) ℝ) (A' : Mat), Q.transpose * Q = 1 ∧ Low r c A' ∧
    ∀ S : Sys, S.A = A → (run r c S).A = A' ∧ RelQ r Q S (run r c S) := by
  have hL : Low r 0 A := by intro j hj; omega
  obtain ⟨Q, hQ, h⟩ := outer_uni (r := r) c 0 A hL
  refine ⟨Q, _, hQ, ?_, h⟩
  have := (outer_spec (r := r) c 0 ⟨A, A, fun _ => 0⟩ hL).2
  simpa using this

/-- **The elimination loop** multiplies everything by one orthogonal matrix and leaves the active matrix upper
triangular. -/
theorem run_spec (r c : ℕ) (S : Sys) : Rel r S (run r c S) ∧ Low r c (run r c S).A := by
  have := outer_spec (r := r) c 0 S (by intro j hj; omega)
  simpa [run] using this

end Verif.Givens
