import Verif.Prop.XiDeriv
import Verif.State.PropsC

/-! # Lemmas for the transition matrices: rows of assembled matrices and derivatives of the prediction -/

set_option linter.unusedSimpArgs false
set_option linter.unusedVariables false

open Classical

namespace Verif.Prop_

open Verif Verif.Types Verif.St Verif.Imu Matrix Finset

/-- position and size of a block. -/
def Blk.geom (b : Blk) : ℕ × ℕ × ℕ × ℕ := (b.r, b.c, b.nr, b.nc)

/-- for the rows `r0 ..< r0+h`: every block has exactly these rows or none of them, stays within `d` columns, and the blocks on
these rows have disjoint columns. -/
def rowOK (r0 h d : ℕ) : List (ℕ × ℕ × ℕ × ℕ) → Bool
  | [] => true
  | b :: l =>
    rowOK r0 h d l &&
    (if b.1 = r0 ∧ b.2.2.1 = h then
      decide (b.2.1 + b.2.2.2 ≤ d) && l.all fun b' => decide (¬ (b'.1 = r0 ∧ b'.2.2.1 = h)) ||
        decide (b.2.1 + b.2.2.2 ≤ b'.2.1 ∨ b'.2.1 + b'.2.2.2 ≤ b.2.1)
    else decide (r0 + h ≤ b.1 ∨ b.1 + b.2.2.1 ≤ r0))

/-- contribution of the blocks on the rows starting at `r0`. -/
noncomputable def rowSum (r0 h : ℕ) (δ : ℕ → ℝ) : List Blk → ℕ → ℝ
  | [], _ => 0
  | b :: l, i => (if b.r = r0 ∧ b.nr = h then ∑ j ∈ range b.nc, b.a i j * δ (b.c + j) else 0) + rowSum r0 h δ l i

theorem assemble_append (l : List Blk) (b : Blk) :
    assemble (l ++ [b]) = Mat.setBlock b.r b.c b.nr b.nc b.a (assemble l) := by
  simp [assemble]

theorem sum_setBlock {r c nr nc : ℕ} {a M : Mat} {i d : ℕ} (δ : ℕ → ℝ) (hi : r ≤ i ∧ i < r + nr) (hd : c + nc ≤ d)
    (hz : ∀ j, c ≤ j → j < c + nc → M i j = 0) :
    ∑ j ∈ range d, Mat.setBlock r c nr nc a M i j * δ j =
      ∑ j ∈ range nc, a (i - r) j * δ (c + j) + ∑ j ∈ range d, M i j * δ j := by
  have e : ∀ j ∈ range d, Mat.setBlock r c nr nc a M i j * δ j =
      (if c ≤ j ∧ j < c + nc then a (i - r) (j - c) * δ j else 0) + M i j * δ j := by
    intro j _
    unfold Mat.setBlock
    by_cases h : c ≤ j ∧ j < c + nc
    · rw [if_pos ⟨hi, h.1, h.2⟩, if_pos h, hz j h.1 h.2]; ring
    · rw [if_neg (fun h' => h ⟨h'.2.1, h'.2.2⟩), if_neg h]; ring
  rw [Finset.sum_congr rfl e, Finset.sum_add_distrib]
  congr 1
  rw [← Finset.sum_filter]
  refine (Finset.sum_bij (fun j _ => c + j) ?_ ?_ ?_ ?_).symm
  · intro j hj
    simp only [mem_range, mem_filter] at hj ⊢
    omega
  · intro a _ b _ h; omega
  · intro j hj
    simp only [mem_range, mem_filter] at hj
    exact ⟨j - c, by simp only [mem_range]; omega, by omega⟩
  · intro j _
    simp

theorem rowSum_append (r0 h : ℕ) (δ : ℕ → ℝ) (l : List Blk) (b : Blk) (i : ℕ) :
    rowSum r0 h δ (l ++ [b]) i =
      (if b.r = r0 ∧ b.nr = h then ∑ j ∈ range b.nc, b.a i j * δ (b.c + j) else 0) + rowSum r0 h δ l i := by
  induction l with
  | nil => simp [rowSum]
  | cons x t ih => simp only [List.cons_append, rowSum, ih]; ring

/-- the same conditions as propositions. -/
structure RowP (r0 h d : ℕ) (l : List Blk) : Prop where
  al : ∀ b ∈ l, (b.r = r0 ∧ b.nr = h) ∨ (r0 + h ≤ b.r ∨ b.r + b.nr ≤ r0)
  le : ∀ b ∈ l, b.r = r0 ∧ b.nr = h → b.c + b.nc ≤ d
  dj : l.Pairwise fun b b' => (b.r = r0 ∧ b.nr = h) → (b'.r = r0 ∧ b'.nr = h) → b.c + b.nc ≤ b'.c ∨ b'.c + b'.nc ≤ b.c

theorem rowP_of_ok {r0 h d : ℕ} : ∀ {l : List Blk}, rowOK r0 h d (l.map Blk.geom) = true → RowP r0 h d l
  | [], _ => ⟨by simp, by simp, List.Pairwise.nil⟩
  | b :: l, H => by
    simp only [List.map_cons, rowOK, Bool.and_eq_true] at H
    obtain ⟨H1, H2⟩ := H
    have ih := rowP_of_ok H1
    by_cases hb : b.r = r0 ∧ b.nr = h
    · rw [if_pos (show b.geom.1 = r0 ∧ b.geom.2.2.1 = h from hb)] at H2
      simp only [Bool.and_eq_true, decide_eq_true_eq, List.all_eq_true, Bool.or_eq_true] at H2
      refine ⟨?_, ?_, ?_⟩
      · intro b' hb'
        rcases List.mem_cons.1 hb' with rfl | h'
        · exact Or.inl hb
        · exact ih.al b' h'
      · intro b' hb' hh
        rcases List.mem_cons.1 hb' with rfl | h'
        · exact H2.1
        · exact ih.le b' h' hh
      · refine List.pairwise_cons.2 ⟨fun b' hb' _ h2 => ?_, ih.dj⟩
        rcases H2.2 b'.geom (List.mem_map_of_mem hb') with h3 | h3
        · exact absurd h2 h3
        · exact h3
    · rw [if_neg (show ¬ (b.geom.1 = r0 ∧ b.geom.2.2.1 = h) from hb)] at H2
      simp only [decide_eq_true_eq] at H2
      refine ⟨?_, ?_, ?_⟩
      · intro b' hb'
        rcases List.mem_cons.1 hb' with rfl | h'
        · exact Or.inr H2
        · exact ih.al b' h'
      · intro b' hb' hh
        rcases List.mem_cons.1 hb' with rfl | h'
        · exact absurd hh hb
        · exact ih.le b' h' hh
      · exact List.pairwise_cons.2 ⟨fun b' hb' h1 _ => absurd h1 hb, ih.dj⟩

theorem assemble_zero {r0 h d : ℕ} : ∀ {l : List Blk}, RowP r0 h d l → ∀ {i j : ℕ}, i < h →
    (∀ b ∈ l, b.r = r0 ∧ b.nr = h → j < b.c ∨ b.c + b.nc ≤ j) → assemble l (r0 + i) j = 0 := by
  intro l
  induction l using List.reverseRecOn with
  | nil => intro _ i j _ _; rfl
  | append_singleton l b ih =>
    intro H i j hi hj
    rw [assemble_append]
    have H' : RowP r0 h d l := ⟨fun b hb => H.al b (by simp [hb]), fun b hb => H.le b (by simp [hb]), (List.pairwise_append.1 H.dj).1⟩
    rw [Mat.setBlock_outside]
    · exact ih H' hi fun b hb => hj b (by simp [hb])
    · intro hh
      rcases H.al b (by simp) with h1 | h1
      · have := hj b (by simp) h1
        omega
      · omega

theorem assemble_row {r0 h d : ℕ} (δ : ℕ → ℝ) : ∀ {l : List Blk}, RowP r0 h d l → ∀ {i : ℕ}, i < h →
    Mat.mulVec d (assemble l) δ (r0 + i) = rowSum r0 h δ l i := by
  intro l
  induction l using List.reverseRecOn with
  | nil => intro _ i hi; simp [Mat.mulVec, assemble, rowSum]
  | append_singleton l b ih =>
    intro H i hi
    have H' : RowP r0 h d l := ⟨fun b hb => H.al b (by simp [hb]), fun b hb => H.le b (by simp [hb]), (List.pairwise_append.1 H.dj).1⟩
    rw [assemble_append, rowSum_append, ← ih H' hi]
    unfold Mat.mulVec
    by_cases hb : b.r = r0 ∧ b.nr = h
    · rw [if_pos hb, sum_setBlock δ ⟨by omega, by omega⟩ (H.le b (by simp) hb)]
      · rw [hb.1, Nat.add_sub_cancel_left]
      · intro j h1 h2
        refine assemble_zero H' hi fun b' hb' hh => ?_
        have := (List.pairwise_append.1 H.dj).2.2 b' hb' b (by simp) hh hb
        omega
    · rw [if_neg hb, zero_add]
      refine Finset.sum_congr rfl fun j _ => ?_
      rw [Mat.setBlock_outside]
      intro hh
      rcases H.al b (by simp) with h1 | h1
      · exact hb h1
      · omega

/-- a slice of a perturbation. -/
def slF (n : ℕ) (δ : ℕ → ℝ) (c : ℕ) : Fin n → ℝ := fun i => δ (c + i)

theorem rowSum_nil (r0 h : ℕ) (δ : ℕ → ℝ) (i : ℕ) : rowSum r0 h δ [] i = 0 := rfl

theorem rowSum_cons_in {m n : ℕ} (r0 c : ℕ) (A : Matrix (Fin m) (Fin n) ℝ) (δ : ℕ → ℝ) (l : List Blk) (i : Fin m) :
    rowSum r0 m δ (blk r0 c A :: l) i = (A.mulVec (slF n δ c)) i + rowSum r0 m δ l i := by
  rw [rowSum, if_pos ⟨rfl, rfl⟩]
  congr 1
  simp only [blk, Matrix.mulVec, dotProduct, slF]
  rw [Finset.sum_range]
  refine Finset.sum_congr rfl fun j _ => ?_
  simp [Mat.extM]

theorem rowSum_cons_out {m n : ℕ} (r0 h r c : ℕ) (A : Matrix (Fin m) (Fin n) ℝ) (δ : ℕ → ℝ) (l : List Blk) (i : ℕ)
    (hne : ¬ (r = r0 ∧ m = h)) : rowSum r0 h δ (blk r c A :: l) i = rowSum r0 h δ l i := by
  rw [rowSum, if_neg (by exact hne), zero_add]


/-! ## Perturbed states -/

namespace Spec

/-- `Type::update` of the IMU with the error-state vector `δ`. -/
noncomputable def perturbImu (x : Imu16) (δ : ℕ → ℝ) : Imu16 :=
  ⟨quatUpdate x.q (sl δ 0), x.p + sl δ 3, x.v + sl δ 6, x.bg + sl δ 9, x.ba + sl δ 12⟩

/-- `Type::update` of the calibrated IMU intrinsics, with the slices of `δ` in the order of the propagated variables: IMU (15),
then `Dw` (6), `Da` (6), `Tg` (9, if calibrated) and the sensor rotation (gyroscope for KALIBR, accelerometer for RPNG). -/
noncomputable def perturbCal (o : Opts) (c : Cal) (δ : ℕ → ℝ) : Cal :=
  if o.calibImu then
    { dw := fun i => c.dw i + δ (15 + i)
      da := fun i => c.da i + δ (21 + i)
      tg := if o.calibG then fun i => c.tg i + δ (27 + i) else c.tg
      qw := if o.kalibr then quatUpdate c.qw (sl δ (if o.calibG then 36 else 27)) else c.qw
      qa := if o.kalibr then c.qa else quatUpdate c.qa (sl δ (if o.calibG then 36 else 27)) }
  else c

end Spec

theorem Dm_add (k : Bool) (x y : ℕ → ℝ) : Dm k (fun i => x i + y i) = Dm k x + Dm k y := by
  unfold Dm
  split <;> apply m3_ext <;> simp

theorem Dm_smul (k : Bool) (e : ℝ) (y : ℕ → ℝ) : Dm k (fun i => e * y i) = e • Dm k y := by
  unfold Dm
  split <;> apply m3_ext <;> simp

theorem Tm_add (x y : ℕ → ℝ) : Tm (fun i => x i + y i) = Tm x + Tm y := by
  unfold Tm
  apply m3_ext <;> simp

theorem Tm_smul (e : ℝ) (y : ℕ → ℝ) : Tm (fun i => e * y i) = e • Tm y := by
  unfold Tm
  apply m3_ext <;> simp

theorem HasDm.line {m n : ℕ} (A B : Matrix (Fin m) (Fin n) ℝ) : HasDm (fun e => A + e • B) B := fun i j => by
  have := ((hasDerivAt_id (0:ℝ)).mul_const (B i j)).const_add (A i j)
  simpa using this

theorem Dm_deriv (k : Bool) (x y : ℕ → ℝ) : HasDm (fun e => Dm k (fun i => x i + e * y i)) (Dm k y) :=
  (HasDm.line (Dm k x) (Dm k y)).congr_fun fun e => by rw [Dm_add, Dm_smul]

theorem Tm_deriv (x y : ℕ → ℝ) : HasDm (fun e => Tm (fun i => x i + e * y i)) (Tm y) :=
  (HasDm.line (Tm x) (Tm y)).congr_fun fun e => by rw [Tm_add, Tm_smul]

theorem sl_smul (e : ℝ) (δ : ℕ → ℝ) (k : ℕ) : sl (fun i => e * δ i) k = e • sl δ k := by
  ext i; simp [sl]

theorem quat_deriv {q : Quat} (hq : IsUnitQ q) (d : V3) :
    HasDm (fun e => quat2Rot (quatUpdate q (e • d))) (-(skew d) * quat2Rot q) := fun i j =>
  (QuatProps.C69_update_first_order q hq d i j).1

theorem quat_deriv0 {q : Quat} (hq : IsUnitQ q) (d : V3) : quat2Rot (quatUpdate q ((0:ℝ) • d)) = quat2Rot q :=
  (QuatProps.C69_update_first_order q hq d 0 0).2

theorem unit_update {q : Quat} (hq : IsUnitQ q) (d : V3) : IsUnitQ (quatUpdate q d) := by
  unfold quatUpdate
  have hpu : IsUnitQ (quatnorm ⟨0.5 * d 0, 0.5 * d 1, 0.5 * d 2, 1⟩) :=
    (canon_quatnorm (by simp only [Quat.normSq]; positivity)).1
  exact (QuatProps.C23_quat_multiply _ _ hpu hq).1

end Verif.Prop_
