import Verif.Mle.Start
import Mathlib.LinearAlgebra.Matrix.NonsingularInverse
import Mathlib.Tactic

/-!
# C104: the covariance and state the dynamic initialiser returns
-/

set_option linter.unusedSimpArgs false

open Classical

namespace Verif.Mle

open Verif Matrix

/-- the places of the five variables in the error state of the IMU type: orientation, position, velocity, gyroscope bias, accelerometer bias. -/
def NV.ix (a : NV) (i : Fin 3) : Fin 15 := ⟨a.at + i.1, by cases a <;> simp [NV.at] <;> omega⟩

/-- the factor by which the marginal covariance of entry `i` is inflated. -/
def Spec.fac (s : Infl) (i : Fin 15) : ℝ := if i.1 < 3 then s.ori else if i.1 < 6 then 1 else if i.1 < 9 then s.vel else if i.1 < 12 then s.bg else s.ba

/-- two entries belong to the same variable. -/
def Spec.same (i j : Fin 15) : Prop := i.1 / 3 = j.1 / 3

/-- the 3×3 blocks of a joint covariance, as the solver returns them for a pair of variables. -/
def Spec.blocks (S : Cpi.M15) (a b : NV) : M3 := S.submatrix a.ix b.ix

theorem at_div (a : NV) : a.at % 3 = 0 := by cases a <;> simp [NV.at]

theorem put_ix (M : Cpi.M15) (r c : ℕ) (B : M3) (hr : r % 3 = 0) (hc : c % 3 = 0) (a b : NV) (i j : Fin 3) :
    put M r c B (a.ix i) (b.ix j) = if a.at = r ∧ b.at = c then B i j else M (a.ix i) (b.ix j) := by
  have ha := at_div a
  have hb := at_div b
  unfold put Cpi.setB
  have hi := i.2
  have hj := j.2
  by_cases h : a.at = r ∧ b.at = c
  · obtain ⟨rfl, rfl⟩ := h
    rw [dif_pos (by simp [NV.ix]), if_pos ⟨rfl, rfl⟩]
    congr 1 <;> simp [NV.ix]
  · rw [if_neg h, dif_neg]
    rintro ⟨⟨h1, h2⟩, h3, h4⟩
    simp only [NV.ix] at h1 h2 h3 h4
    omega

theorem scaleB_ix (M : Cpi.M15) (r : ℕ) (s : ℝ) (hr : r % 3 = 0) (a b : NV) (i j : Fin 3) :
    scaleB M r s (a.ix i) (b.ix j) = if a.at = r ∧ b.at = r then M (a.ix i) (b.ix j) * s else M (a.ix i) (b.ix j) := by
  have ha := at_div a
  have hb := at_div b
  unfold scaleB
  have hi := i.2
  have hj := j.2
  congr 1
  simp only [NV.ix, eq_iff_iff]
  omega

theorem exists_ix (n : Fin 15) : ∃ (a : NV) (i : Fin 3), n = a.ix i := by
  obtain ⟨n, hn⟩ := n
  have h3 : n % 3 < 3 := Nat.mod_lt _ (by norm_num)
  have : n / 3 = 0 ∨ n / 3 = 1 ∨ n / 3 = 2 ∨ n / 3 = 3 ∨ n / 3 = 4 := by omega
  rcases this with h | h | h | h | h
  · exact ⟨.ori, ⟨n % 3, h3⟩, Fin.ext (by simp only [NV.ix, NV.at]; omega)⟩
  · exact ⟨.pos, ⟨n % 3, h3⟩, Fin.ext (by simp only [NV.ix, NV.at]; omega)⟩
  · exact ⟨.vel, ⟨n % 3, h3⟩, Fin.ext (by simp only [NV.ix, NV.at]; omega)⟩
  · exact ⟨.bg, ⟨n % 3, h3⟩, Fin.ext (by simp only [NV.ix, NV.at]; omega)⟩
  · exact ⟨.ba, ⟨n % 3, h3⟩, Fin.ext (by simp only [NV.ix, NV.at]; omega)⟩

theorem same_ix (a b : NV) (i j : Fin 3) : Spec.same (a.ix i) (b.ix j) ↔ a = b := by
  have hi := i.2
  have hj := j.2
  unfold Spec.same NV.ix
  cases a <;> cases b <;> simp [NV.at] <;> omega

theorem fac_ix (s : Infl) (a : NV) (i : Fin 3) : Spec.fac s (a.ix i) = match a with | .ori => s.ori | .pos => 1 | .vel => s.vel | .bg => s.bg | .ba => s.ba := by
  have hi := i.2
  have e : (a.ix i).1 = a.at + i.1 := rfl
  unfold Spec.fac
  rw [e]
  cases a
  · rw [if_pos (by simp only [NV.at]; omega)]
  · rw [if_neg (by simp only [NV.at]; omega), if_pos (by simp only [NV.at]; omega)]
  · rw [if_neg (by simp only [NV.at]; omega), if_neg (by simp only [NV.at]; omega), if_pos (by simp only [NV.at]; omega)]
  · rw [if_neg (by simp only [NV.at]; omega), if_neg (by simp only [NV.at]; omega), if_neg (by simp only [NV.at]; omega), if_pos (by simp only [NV.at]; omega)]
  · rw [if_neg (by simp only [NV.at]; omega), if_neg (by simp only [NV.at]; omega), if_neg (by simp only [NV.at]; omega), if_neg (by simp only [NV.at]; omega)]

theorem put_hit (M : Cpi.M15) (r c : ℕ) (B : M3) (a b : NV) (i j : Fin 3) (h1 : a.at = r) (h2 : b.at = c) : put M r c B (a.ix i) (b.ix j) = B i j := by
  rw [put_ix _ _ _ _ (by rw [← h1]; exact at_div a) (by rw [← h2]; exact at_div b), if_pos ⟨h1, h2⟩]

theorem put_row (M : Cpi.M15) (r c : ℕ) (B : M3) (a b : NV) (i j : Fin 3) (hr : r % 3 = 0) (h1 : a.at ≠ r) :
    put M r c B (a.ix i) (b.ix j) = M (a.ix i) (b.ix j) := by
  have ha := at_div a
  have hi := i.2
  unfold put Cpi.setB
  rw [dif_neg]
  rintro ⟨⟨h, h'⟩, -⟩
  simp only [NV.ix] at h h'
  omega

theorem put_col (M : Cpi.M15) (r c : ℕ) (B : M3) (a b : NV) (i j : Fin 3) (hc : c % 3 = 0) (h1 : b.at ≠ c) :
    put M r c B (a.ix i) (b.ix j) = M (a.ix i) (b.ix j) := by
  have ha := at_div b
  have hi := j.2
  unfold put Cpi.setB
  rw [dif_neg]
  rintro ⟨-, h, h'⟩
  simp only [NV.ix] at h h'
  omega

theorem joint_ix (S : Cpi.M15) (h : ∀ i j, S i j = S j i) (a b : NV) (i j : Fin 3) :
    jointCov (Spec.blocks S) (a.ix i) (b.ix j) = S (a.ix i) (b.ix j) := by
  simp only [jointCov]
  cases a <;> cases b <;>
    repeat (first
      | (refine (put_row _ _ _ _ _ _ _ _ ?_ ?_).trans ?_; rfl; decide)
      | (refine (put_col _ _ _ _ _ _ _ _ ?_ ?_).trans ?_; rfl; decide)
      | (refine (put_hit _ _ _ _ _ _ _ _ ?_ ?_).trans ?_; rfl; rfl))
  all_goals first | rfl | exact h _ _

theorem raw_ix (S : Cpi.M15) (h : ∀ i j, S i j = S j i) (s : Infl) (a b : NV) (i j : Fin 3) :
    rawCov (Spec.blocks S) s (a.ix i) (b.ix j) = if a = b then Spec.fac s (a.ix i) * S (a.ix i) (b.ix j) else S (a.ix i) (b.ix j) := by
  rw [fac_ix]
  unfold rawCov
  rw [scaleB_ix _ _ _ (by norm_num), scaleB_ix _ _ _ (by norm_num), scaleB_ix _ _ _ (by norm_num), scaleB_ix _ _ _ (by norm_num), joint_ix S h]
  cases a <;> cases b <;> simp [NV.at, mul_comm]

/-- **C104** From the blocks of a joint covariance `S` of the five variables, the returned matrix is `S` with the marginal covariances of orientation,
velocity and the two biases multiplied by their factors; all correlations between different variables, and the position, are kept. -/
theorem C104_blocks (S : Cpi.M15) (hS : S.transpose = S) (s : Infl) (i j : Fin 15) :
    retCov (Spec.blocks S) s i j = if Spec.same i j then Spec.fac s i * S i j else S i j := by
  have h : ∀ i j, S i j = S j i := fun i j => congrFun (congrFun hS.symm i) j
  obtain ⟨a, i, rfl⟩ := exists_ix i
  obtain ⟨b, j, rfl⟩ := exists_ix j
  unfold retCov
  rw [Matrix.smul_apply, Matrix.add_apply, Matrix.transpose_apply, raw_ix S h, raw_ix S h, h (b.ix j)]
  by_cases hab : a = b
  · subst hab
    rw [if_pos rfl, if_pos rfl, if_pos ((same_ix _ _ _ _).2 rfl), fac_ix, fac_ix, smul_eq_mul]
    ring
  · rw [if_neg hab, if_neg (Ne.symm hab), if_neg (fun h => hab ((same_ix _ _ _ _).1 h)), smul_eq_mul]
    ring

/-- the quadratic form of a matrix over the error state. -/
def Spec.quad (S : Cpi.M15) (x : Fin 15 → ℝ) : ℝ := x ⬝ᵥ S *ᵥ x

/-- **C104** The returned covariance is symmetric, whatever blocks Ceres returns. -/
theorem C104_symmetric (C : NV → NV → M3) (s : Infl) : (retCov C s).transpose = retCov C s := by
  unfold retCov
  rw [Matrix.transpose_smul, Matrix.transpose_add, Matrix.transpose_transpose, add_comm]

/-- the part of an error that belongs to the variable at place `k`. -/
def part (k : ℕ) (x : Fin 15 → ℝ) : Fin 15 → ℝ := fun i => if i.1 / 3 = k then x i else 0

theorem quad_eq (S : Cpi.M15) (x : Fin 15 → ℝ) : Spec.quad S x = ∑ i, ∑ j, x i * S i j * x j := by
  unfold Spec.quad
  simp only [dotProduct, Matrix.mulVec, Finset.mul_sum, mul_assoc]

/-- the extra weight of variable `k`. -/
def facK (s : Infl) (k : ℕ) : ℝ := if k = 0 then s.ori else if k = 1 then 1 else if k = 2 then s.vel else if k = 3 then s.bg else s.ba

theorem fac_facK (s : Infl) (i : Fin 15) : Spec.fac s i = facK s (i.1 / 3) := by
  obtain ⟨a, i, rfl⟩ := exists_ix i
  have hi := i.2
  rw [fac_ix]
  unfold facK NV.ix
  cases a
  · rw [if_pos (by simp only [NV.at]; omega)]
  · rw [if_neg (by simp only [NV.at]; omega), if_pos (by simp only [NV.at]; omega)]
  · rw [if_neg (by simp only [NV.at]; omega), if_neg (by simp only [NV.at]; omega), if_pos (by simp only [NV.at]; omega)]
  · rw [if_neg (by simp only [NV.at]; omega), if_neg (by simp only [NV.at]; omega), if_neg (by simp only [NV.at]; omega), if_pos (by simp only [NV.at]; omega)]
  · rw [if_neg (by simp only [NV.at]; omega), if_neg (by simp only [NV.at]; omega), if_neg (by simp only [NV.at]; omega), if_neg (by simp only [NV.at]; omega)]

/-- **C104** The quadratic form of the returned covariance is that of `S` plus, for each of the five variables, (factor − 1) times the form of its own part. -/
theorem quad_ret (S : Cpi.M15) (hS : S.transpose = S) (s : Infl) (x : Fin 15 → ℝ) :
    Spec.quad (retCov (Spec.blocks S) s) x = Spec.quad S x + ∑ k ∈ Finset.range 5, (facK s k - 1) * Spec.quad S (part k x) := by
  simp only [quad_eq, Finset.mul_sum]
  rw [Finset.sum_comm (s := Finset.range 5), ← Finset.sum_add_distrib]
  refine Finset.sum_congr rfl fun i _ => ?_
  rw [Finset.sum_comm (s := Finset.range 5), ← Finset.sum_add_distrib]
  refine Finset.sum_congr rfl fun j _ => ?_
  have hi := i.2
  have hj := j.2
  rw [C104_blocks S hS s i j, Finset.sum_eq_single (i.1 / 3)]
  · by_cases h : Spec.same i j
    · have h' : j.1 / 3 = i.1 / 3 := h.symm
      rw [if_pos h, fac_facK]
      simp only [part, h', if_true]
      ring
    · have h' : ¬ j.1 / 3 = i.1 / 3 := fun e => h e.symm
      rw [if_neg h]
      simp only [part, h', if_false, if_true]
      ring
  · intro k _ hk
    simp only [part, if_neg (Ne.symm hk)]
    ring
  · intro h
    exact absurd (Finset.mem_range.2 (by omega)) h

/-- **C104** Inflation never makes the filter more confident: for factors of at least one the returned covariance is at least the joint covariance that Ceres
returned, in every direction of the error state; in particular it is positive semi-definite. -/
theorem C104_conservative (S : Cpi.M15) (hS : S.transpose = S) (h0 : ∀ x, 0 ≤ Spec.quad S x) (s : Infl) (h1 : 1 ≤ s.ori) (h2 : 1 ≤ s.vel) (h3 : 1 ≤ s.bg)
    (h4 : 1 ≤ s.ba) (x : Fin 15 → ℝ) :
    Spec.quad S x ≤ Spec.quad (retCov (Spec.blocks S) s) x ∧ 0 ≤ Spec.quad (retCov (Spec.blocks S) s) x := by
  have h : Spec.quad S x ≤ Spec.quad (retCov (Spec.blocks S) s) x := by
    rw [quad_ret S hS]
    refine le_add_of_nonneg_right (Finset.sum_nonneg fun k _ => mul_nonneg ?_ (h0 _))
    unfold facK
    split_ifs <;> linarith
  exact ⟨h, (h0 x).trans h⟩

/-- **C104** With a factor below one the returned matrix need not be a covariance: here orientation and position are fully correlated and the orientation is
deflated, and the returned matrix has a negative variance in some direction. -/
theorem C104_deflation : ∃ (S : Cpi.M15) (s : Infl), S.transpose = S ∧ (∀ x, 0 ≤ Spec.quad S x) ∧ 0 < s.ori ∧ s.ori < 1 ∧
    ∃ x, Spec.quad (retCov (Spec.blocks S) s) x < 0 := by
  have hq : ∀ x, Spec.quad (Matrix.of fun _ _ => (1 : ℝ)) x = (∑ i, x i) ^ 2 := by
    intro x
    rw [quad_eq]
    simp only [Matrix.of_apply, mul_one]
    rw [sq, Finset.sum_mul_sum]
  refine ⟨Matrix.of fun _ _ => 1, ⟨1 / 2, 1, 1, 1⟩, rfl, fun x => by rw [hq]; positivity, by norm_num, by norm_num, fun i => if i.1 = 0 then 1 else if i.1 = 3 then -1 else 0, ?_⟩
  rw [quad_ret _ rfl]
  simp only [hq, part, Finset.sum_range_succ, Finset.sum_range_zero, facK, Fin.sum_univ_succ, Fin.val_zero, Fin.val_succ]
  norm_num

/-- **C104** The returned state is the optimised newest pose with the position moved to the origin; all else is kept. -/
theorem C104_state (x : Nav) : (retNav x).p = 0 ∧ (retNav x).q = x.q ∧ (retNav x).v = x.v ∧ (retNav x).bg = x.bg ∧ (retNav x).ba = x.ba := ⟨rfl, rfl, rfl, rfl, rfl⟩

/-- the default factors satisfy the hypotheses, with a correlated covariance: all 15 errors equal. -/
example : ∃ S : Cpi.M15, S.transpose = S ∧ (∀ x, 0 ≤ Spec.quad S x) ∧ S 0 3 ≠ 0 ∧ (1 : ℝ) ≤ (⟨10, 10, 100, 100⟩ : Infl).ori :=
  ⟨Matrix.of fun _ _ => 1, rfl, fun x => by
    rw [quad_eq]
    simp only [Matrix.of_apply, mul_one]
    rw [← Finset.sum_mul_sum]
    exact mul_self_nonneg _, by simp, by norm_num⟩

end Verif.Mle
