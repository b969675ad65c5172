import Verif.Upd.Model
import Verif.Base.GivensLemmas
import Verif.State.PropsB
import Mathlib.LinearAlgebra.Matrix.DotProduct

/-!
# Null-space projection (C30) and measurement compression (C31)
-/

namespace Verif.Upd

open Verif Mat Verif.Types Finset

/-! ## C30 -/

namespace Spec

/-- the leading part of a matrix argument. -/
def mat (r c : ℕ) (A : Mat) : Matrix (Fin r) (Fin c) ℝ := fun i j => A i j

/-- the leading part of a vector argument. -/
def vec (r : ℕ) (x : Vect) : Fin r → ℝ := fun i => x i

end Spec

/-- the last `r - c` rows of a matrix. -/
def lastRows (r c : ℕ) (h : c ≤ r) (Q : Matrix (Fin r) (Fin r) ℝ) : Matrix (Fin (r - c)) (Fin r) ℝ := fun i j => Q ⟨c + i, by omega⟩ j

theorem lastRows_orth {r c : ℕ} (h : c ≤ r) {Q : Matrix (Fin r) (Fin r) ℝ} (hQ : Q.transpose * Q = 1) :
    lastRows r c h Q * (lastRows r c h Q).transpose = 1 := by
  have hQ' := mul_eq_one_comm.1 hQ
  ext i j
  have := congr_fun (congr_fun hQ' ⟨c + i, by omega⟩) ⟨c + j, by omega⟩
  simp only [Matrix.mul_apply, Matrix.transpose_apply, Matrix.one_apply, Fin.mk.injEq, lastRows] at this ⊢
  rw [this]
  simp [Fin.ext_iff]

/-- **C30** Projecting succeeds exactly when there are at least as many rows as feature columns. It then multiplies the state Jacobian and the residual
by one matrix `N`, which depends on the feature Jacobian only, has `rows − cols` orthonormal rows and annihilates the feature Jacobian, whatever the
rank of the latter. If the feature Jacobian has full column rank, the rows of `N` span its whole left null space. -/
theorem C30_projection (rows fc : ℕ) (Hf : Mat) :
    (rows < fc → ∀ Hx res, nullspaceProject rows fc Hf Hx res = none) ∧
    (fc ≤ rows → ∃ N : Matrix (Fin (rows - fc)) (Fin rows) ℝ, N * N.transpose = 1 ∧ N * Spec.mat rows fc Hf = 0 ∧
      (∀ (n : ℕ) (Hx : Mat) (res : Vect), ∃ H' r', nullspaceProject rows fc Hf Hx res = some (rows - fc, H', r') ∧
        Spec.mat (rows - fc) n H' = N * Spec.mat rows n Hx ∧ Spec.vec (rows - fc) r' = N.mulVec (Spec.vec rows res)) ∧
      ((∀ x, (Spec.mat rows fc Hf).mulVec x = 0 → x = 0) →
        ∀ y : Fin rows → ℝ, Matrix.vecMul y (Spec.mat rows fc Hf) = 0 → ∃ z, y = Matrix.vecMul z N)) := by
  refine ⟨fun h _ _ => if_pos h, fun h => ?_⟩
  obtain ⟨Q, A', hQ, hlow, hrun⟩ := Givens.run_uni rows fc Hf
  obtain ⟨-, hA, -, -⟩ := hrun ⟨Hf, Hf, fun _ => 0⟩ rfl
  rw [(hrun ⟨Hf, Hf, fun _ => 0⟩ rfl).1] at hA
  refine ⟨lastRows rows fc h Q, lastRows_orth h hQ, ?_, ?_, ?_⟩
  · ext i j
    have h1 := hA ⟨fc + i, by omega⟩ j
    have h2 := hlow j j.2 (fc + i) (by omega) (by omega)
    simp only [Matrix.mul_apply, lastRows, Spec.mat, Matrix.zero_apply]
    rw [← h1]; exact h2
  · intro n Hx res
    obtain ⟨-, -, hB, hv⟩ := hrun ⟨Hf, Hx, res⟩ rfl
    refine ⟨_, _, if_neg (by omega), ?_, ?_⟩
    · ext i j
      simp only [Matrix.mul_apply, lastRows, Spec.mat]
      exact hB ⟨fc + i, by omega⟩ j
    · ext i
      simp only [Matrix.mulVec, dotProduct, lastRows, Spec.vec]
      exact hv ⟨fc + i, by omega⟩
  · intro hinj y hy
    have hQ' := mul_eq_one_comm.1 hQ
    -- the triangular factor
    set R : Matrix (Fin fc) (Fin fc) ℝ := fun i j => A' i j with hR
    have hfull : ∀ (i : Fin rows) (j : Fin fc), (Q * Spec.mat rows fc Hf) i j = if h : (i : ℕ) < fc then R ⟨i, h⟩ j else 0 := by
      intro i j
      have h1 := hA i j
      rw [Matrix.mul_apply]
      simp only [Spec.mat]
      rw [← h1]
      split_ifs with hi
      · rfl
      · exact hlow j j.2 i (by omega) i.2
    have hRinj : ∀ x, R.mulVec x = 0 → x = 0 := by
      intro x hx
      apply hinj
      have : (Q * Spec.mat rows fc Hf).mulVec x = 0 := by
        ext i
        simp only [Matrix.mulVec, dotProduct, hfull, Pi.zero_apply]
        by_cases hi : (i : ℕ) < fc
        · simp only [hi, dif_pos]
          exact congr_fun hx ⟨i, hi⟩
        · simp [hi]
      have h2 : (Q.transpose * (Q * Spec.mat rows fc Hf)).mulVec x = 0 := by
        rw [← Matrix.mulVec_mulVec, this, Matrix.mulVec_zero]
      rwa [← Matrix.mul_assoc, hQ, Matrix.one_mul] at h2
    have hRu : IsUnit R := by
      rw [← Matrix.mulVec_injective_iff_isUnit]
      intro a b hab
      have := hRinj (a - b) (by rw [Matrix.mulVec_sub]; simp [hab])
      exact sub_eq_zero.1 this
    -- coordinates of `y` in the rows of `Q`
    set w := Q.mulVec y with hw
    have hyw : y = Matrix.vecMul w Q := by
      rw [hw, ← Matrix.mulVec_transpose, Matrix.mulVec_mulVec, hQ, Matrix.one_mulVec]
    have hz : ∀ i : Fin fc, w ⟨i, by omega⟩ = 0 := by
      have h1 : Matrix.vecMul w (Q * Spec.mat rows fc Hf) = 0 := by
        rw [← Matrix.vecMul_vecMul, ← hyw, hy]
      have h2 : Matrix.vecMul (fun i : Fin fc => w ⟨i, by omega⟩) R = 0 := by
        ext j
        have := congr_fun h1 j
        simp only [Matrix.vecMul, dotProduct, hfull, Pi.zero_apply] at this ⊢
        rw [← this]
        obtain ⟨d, rfl⟩ := Nat.exists_eq_add_of_le h
        rw [Fin.sum_univ_add]
        simp
        rfl
      have h3 := (Matrix.vecMul_injective_iff_isUnit.2 hRu) (h2.trans (Matrix.zero_vecMul R).symm)
      intro i
      exact congr_fun h3 i
    refine ⟨fun i => w ⟨fc + i, by omega⟩, ?_⟩
    rw [hyw]
    ext j
    obtain ⟨d, rfl⟩ := Nat.exists_eq_add_of_le h
    simp only [Matrix.vecMul, dotProduct, lastRows]
    rw [Fin.sum_univ_add]
    have e1 : ∀ i : Fin fc, w (Fin.castAdd d i) = 0 := fun i => hz i
    simp only [e1, zero_mul, Finset.sum_const_zero, zero_add]
    refine Fintype.sum_equiv (finCongr (by omega)) _ _ fun i => ?_
    simp [Fin.natAdd]

/-- **C30** (feature removed) Adding any combination of the feature columns to the residual, or any combination of them to a column of the state
Jacobian, does not change the projected system. -/
theorem C30_feature_invisible (rows fc n : ℕ) (Hf Hx Hx2 : Mat) (res res2 : Vect) (h : fc ≤ rows) (x : Fin fc → ℝ) (X : Matrix (Fin fc) (Fin n) ℝ)
    (hr : ∀ i : Fin rows, res2 i = res i + ∑ k : Fin fc, Hf i k * x k)
    (hX : ∀ (i : Fin rows) (j : Fin n), Hx2 i j = Hx i j + ∑ k : Fin fc, Hf i k * X k j) :
    ∃ H' r' H2 r2, nullspaceProject rows fc Hf Hx res = some (rows - fc, H', r') ∧
      nullspaceProject rows fc Hf Hx2 res2 = some (rows - fc, H2, r2) ∧
      (∀ i, i < rows - fc → r2 i = r' i) ∧ ∀ i j, i < rows - fc → j < n → H2 i j = H' i j := by
  obtain ⟨N, -, hN, hrun, -⟩ := (C30_projection rows fc Hf).2 h
  obtain ⟨H', r', e, h1, h2⟩ := hrun n Hx res
  obtain ⟨H2, r2, e2, h3, h4⟩ := hrun n Hx2 res2
  refine ⟨H', r', H2, r2, e, e2, fun i hi => ?_, fun i j hi hj => ?_⟩
  · have : Spec.vec rows res2 = Spec.vec rows res + (Spec.mat rows fc Hf).mulVec x := by
      ext i; exact hr i
    rw [this, Matrix.mulVec_add, Matrix.mulVec_mulVec, hN, Matrix.zero_mulVec, add_zero, ← h2] at h4
    exact congr_fun h4 ⟨i, hi⟩
  · have : Spec.mat rows n Hx2 = Spec.mat rows n Hx + Spec.mat rows fc Hf * X := by
      ext i j; rw [Matrix.add_apply, Matrix.mul_apply]; exact hX i j
    rw [this, Matrix.mul_add, ← Matrix.mul_assoc, hN, Matrix.zero_mul, add_zero, ← h1] at h3
    exact congr_fun (congr_fun h3 ⟨i, hi⟩) ⟨j, hj⟩

/-- three measurements of one variable and a one-column feature: two rows are left, and the residual `(1,1,1)` along the feature is projected to zero. -/
example : ∃ H' r', nullspaceProject 3 1 (fun _ _ => 1) (fun i j => i + j) (fun _ => 5) = some (2, H', r') ∧ r' 0 = 0 ∧ r' 1 = 0 := by
  obtain ⟨H', r', H2, r2, e1, e2, h1, h2⟩ := C30_feature_invisible 3 1 1 (fun _ _ => 1) (fun i j => i + j) (fun i j => i + j) (fun _ => 0) (fun _ => 5)
    (by norm_num) (fun _ => 5) 0 (by intro i; simp) (by intro i j; simp)
  obtain ⟨N, -, -, hrun, -⟩ := (C30_projection 3 1 (fun _ _ => 1)).2 (by norm_num)
  obtain ⟨H3, r3, e3, -, h4⟩ := hrun 1 (fun i j => (i : ℝ) + j) (fun _ => 0)
  have hr : r3 = r' := by
    have := e3.symm.trans e1
    simp only [Option.some.injEq, Prod.mk.injEq] at this
    exact this.2.2
  have hz : Spec.vec 3 (fun _ => (0 : ℝ)) = 0 := rfl
  rw [hz, Matrix.mulVec_zero, hr] at h4
  refine ⟨H2, r2, e2, ?_, ?_⟩
  · rw [h1 0 (by norm_num)]; exact congr_fun h4 ⟨0, by norm_num⟩
  · rw [h1 1 (by norm_num)]; exact congr_fun h4 ⟨1, by norm_num⟩

/-! ## C31 -/

/-- **C31** (information) Compression returns at most as many rows as there are columns, and changes neither `HᵀH` nor `Hᵀ res`; a stack that is
not taller than wide is returned as it is. -/
theorem C31_information (rows cols : ℕ) (H : Mat) (res : Vect) :
    (compress rows cols H res).1 = min rows cols ∧
    (Spec.mat (compress rows cols H res).1 cols (compress rows cols H res).2.1).transpose *
        Spec.mat (compress rows cols H res).1 cols (compress rows cols H res).2.1 =
      (Spec.mat rows cols H).transpose * Spec.mat rows cols H ∧
    (Spec.mat (compress rows cols H res).1 cols (compress rows cols H res).2.1).transpose.mulVec
        (Spec.vec (compress rows cols H res).1 (compress rows cols H res).2.2) =
      (Spec.mat rows cols H).transpose.mulVec (Spec.vec rows res) ∧
    (rows ≤ cols → compress rows cols H res = (rows, H, res)) := by
  by_cases hle : rows ≤ cols
  · have : compress rows cols H res = (rows, H, res) := if_pos hle
    rw [this]
    exact ⟨(min_eq_left hle).symm, rfl, rfl, fun _ => rfl⟩
  · obtain ⟨⟨Q, hQ, hA, -, hv⟩, hlow⟩ := Givens.run_spec rows cols ⟨H, fun _ _ => 0, res⟩
    have hc : compress rows cols H res = (min rows cols, (Givens.run rows cols ⟨H, fun _ _ => 0, res⟩).A,
      (Givens.run rows cols ⟨H, fun _ _ => 0, res⟩).v) := if_neg hle
    rw [hc]
    generalize Givens.run rows cols ⟨H, fun _ _ => 0, res⟩ = S at hA hv hlow
    obtain ⟨d, hd⟩ := Nat.exists_eq_add_of_le (not_le.1 hle).le
    have hm : min rows cols = cols := min_eq_right (not_le.1 hle).le
    rw [hm]
    have hAm : Spec.mat rows cols S.A = Q * Spec.mat rows cols H := by
      ext i j; rw [Matrix.mul_apply]; exact hA i j
    have hvm : Spec.vec rows S.v = Q.mulVec (Spec.vec rows res) := by
      ext i; exact hv i
    have cut : ∀ (j : Fin cols) (g : ℕ → ℝ), ∑ i : Fin cols, S.A i j * g i = ∑ i : Fin rows, S.A i j * g i := by
      intro j g
      rw [← Finset.sum_range (fun i => S.A i j * g i), ← Finset.sum_range (fun i => S.A i j * g i)]
      refine Finset.sum_subset (Finset.range_subset_range.2 (by omega)) fun i h1 h2 => ?_
      rw [hlow j j.2 i (by simp only [Finset.mem_range] at h2; omega) (Finset.mem_range.1 h1), zero_mul]
    refine ⟨rfl, ?_, ?_, fun h => absurd h hle⟩
    · have : (Spec.mat cols cols S.A).transpose * Spec.mat cols cols S.A = (Spec.mat rows cols S.A).transpose * Spec.mat rows cols S.A := by
        ext j k
        simp only [Matrix.mul_apply, Matrix.transpose_apply, Spec.mat]
        exact cut j (fun i => S.A i k)
      rw [this, hAm, Matrix.transpose_mul, Matrix.mul_assoc, ← Matrix.mul_assoc Q.transpose, hQ, Matrix.one_mul]
    · have : (Spec.mat cols cols S.A).transpose.mulVec (Spec.vec cols S.v) = (Spec.mat rows cols S.A).transpose.mulVec (Spec.vec rows S.v) := by
        ext j
        simp only [Matrix.mulVec, dotProduct, Matrix.transpose_apply, Spec.mat, Spec.vec]
        exact cut j S.v
      rw [this, hAm, hvm, Matrix.transpose_mul, Matrix.mulVec_mulVec, Matrix.mul_assoc, hQ, Matrix.mul_one]

/-- push-through identity. -/
theorem push_through {m n : ℕ} (H : Matrix (Fin m) (Fin n) ℝ) (P : Matrix (Fin n) (Fin n) ℝ) {c : ℝ} (hc : c ≠ 0)
    (hS : IsUnit (H * P * H.transpose + c • 1)) :
    H.transpose * (H * P * H.transpose + c • 1)⁻¹ = (H.transpose * H * P + c • 1)⁻¹ * H.transpose := by
  set S := H * P * H.transpose + c • 1 with hSd
  set T := H.transpose * H * P + c • 1 with hTd
  have hT : IsUnit T := by
    rw [← Matrix.mulVec_injective_iff_isUnit]
    intro a b hab
    have h0 : T.mulVec (a - b) = 0 := by rw [Matrix.mulVec_sub]; exact sub_eq_zero.2 hab
    set x := a - b with hx
    set y := H.mulVec (P.mulVec x) with hy
    have e1 : H.transpose.mulVec y + c • x = 0 := by
      rw [hTd, Matrix.add_mulVec, Matrix.smul_mulVec, Matrix.one_mulVec, ← Matrix.mulVec_mulVec, ← Matrix.mulVec_mulVec] at h0
      exact h0
    have e2 : S.mulVec y = 0 := by
      have := congrArg (fun z => H.mulVec (P.mulVec z)) e1
      simp only [Matrix.mulVec_add, Matrix.mulVec_smul, Matrix.mulVec_zero] at this
      rw [hSd, Matrix.add_mulVec, Matrix.smul_mulVec, Matrix.one_mulVec, ← Matrix.mulVec_mulVec, ← Matrix.mulVec_mulVec]
      exact this
    have e3 : y = 0 := (Matrix.mulVec_injective_iff_isUnit.2 hS) (e2.trans (Matrix.mulVec_zero S).symm)
    rw [e3, Matrix.mulVec_zero, zero_add] at e1
    have : x = 0 := by
      rcases smul_eq_zero.1 e1 with h | h
      · exact absurd h hc
      · exact h
    exact sub_eq_zero.1 this
  have hSd' := (Matrix.isUnit_iff_isUnit_det _).1 hS
  have hTd' := (Matrix.isUnit_iff_isUnit_det _).1 hT
  have e : H.transpose * S = T * H.transpose := by
    rw [hSd, hTd, Matrix.mul_add, Matrix.add_mul, Matrix.mul_smul, Matrix.smul_mul, Matrix.mul_one, Matrix.one_mul]
    simp only [Matrix.mul_assoc]
  calc H.transpose * S⁻¹ = T⁻¹ * (T * H.transpose) * S⁻¹ := by rw [← Matrix.mul_assoc, Matrix.nonsing_inv_mul _ hTd', Matrix.one_mul]
    _ = T⁻¹ * H.transpose := by rw [← e, Matrix.mul_assoc, Matrix.mul_assoc, Matrix.mul_nonsing_inv _ hSd', Matrix.mul_one]

namespace Spec

/-- isotropic noise `σ² I`. -/
def iso (m : ℕ) (c : ℝ) : St.DMat := ⟨m, m, fun i j => if i = j then c else 0⟩

/-- the same estimate: all stored entries agree. -/
def SameVal : Val → Val → Prop
  | .vec n v, .vec n' v' => n = n' ∧ ∀ i, i < n → v i = v' i
  | a, b => a = b

end Spec

theorem sameVal_update (v : Val) {dx dx' : ℕ → ℝ} (h : ∀ i, i < v.size → dx i = dx' i) : Spec.SameVal (v.update dx) (v.update dx') := by
  have hs : ∀ k, k + 3 ≤ v.size → sl dx k = sl dx' k := by
    intro k hk; funext i; exact h _ (by omega)
  cases v with
  | vec n v => exact ⟨rfl, fun i hi => congrArg (v i + ·) (h i hi)⟩
  | quat q => simp only [Val.update]; rw [hs 0 (by simp [Val.size])]; rfl
  | pose q p => simp only [Val.update]; rw [hs 0 (by simp [Val.size]), hs 3 (by simp [Val.size])]; rfl
  | imu x =>
    simp only [Val.update]
    rw [hs 0 (by simp [Val.size]), hs 3 (by simp [Val.size]), hs 6 (by simp [Val.size]), hs 9 (by simp [Val.size]), hs 12 (by simp [Val.size])]; rfl

/-- **C31** In every state the program can reach, for every list of variables, every stacked Jacobian and residual of matching size and every noise
variance: the EKF update with the compressed stack and the EKF update with the original stack both succeed, and they give the same covariance and the
same estimates. -/
theorem C31_same_update {lib : St.Lib} (hlib : St.Spec.LibOK lib) {s : St.State} (hs : St.Spec.ReachOK lib s) (order : List St.Ref)
    {L : List (ℕ × ℕ)} (hL : St.resolveAll s order = some L) (rows : ℕ) (H : Mat) (res : Vect) {c : ℝ} (hc : 0 < c) :
    ∃ s1 s2, St.update lib s order ⟨rows, St.tot L, H⟩ ⟨rows, res⟩ (Spec.iso rows c) = some s1 ∧
      St.update lib s order ⟨(compress rows (St.tot L) H res).1, St.tot L, (compress rows (St.tot L) H res).2.1⟩
        ⟨(compress rows (St.tot L) H res).1, (compress rows (St.tot L) H res).2.2⟩ (Spec.iso (compress rows (St.tot L) H res).1 c) = some s2 ∧
      s1.n = s.n ∧ s2.n = s.n ∧ (∀ i j, i < s.n → j < s.n → s1.P i j = s2.P i j) ∧
      ∀ u, Spec.SameVal (s1.obj u).val (s2.obj u).val := by
  obtain ⟨-, hG, hr, -⟩ := C31_information rows (St.tot L) H res
  generalize compress rows (St.tot L) H res = C at hG hr ⊢
  obtain ⟨r', H', res'⟩ := C
  simp only at hG hr ⊢
  have isoS : ∀ m, Mat.Sym m (Spec.iso m c).a := fun m i j _ _ => by simp only [Spec.iso, eq_comm]
  have isoM : ∀ m, toM m m (Spec.iso m c).a = c • 1 := fun m => by
    ext i j; simp [toM, Spec.iso, Matrix.one_apply, Fin.ext_iff]
  have isoP : ∀ m, PD m (Spec.iso m c).a := fun m => by
    rw [pd_iff, isoM]
    intro x hx
    simp only [mquad, Matrix.smul_mulVec, Matrix.one_mulVec, dotProduct_smul, smul_eq_mul]
    have : 0 < dotProduct x x := by
      have h0 : 0 ≤ dotProduct x x := Finset.sum_nonneg fun i _ => mul_self_nonneg _
      rcases h0.lt_or_eq with h | h
      · exact h
      · exact absurd (dotProduct_self_eq_zero.1 h.symm) hx
    positivity
  obtain ⟨o, ops, hok, hrun⟩ := id hs
  have r1 := St.C03_update_returns hlib o ops hok hrun order ⟨rows, St.tot L, H⟩ (Spec.iso rows c) ⟨rows, res⟩ L hL rfl rfl rfl rfl
    (isoS rows) (isoP rows)
  have r2 := St.C03_update_returns hlib o ops hok hrun order ⟨r', St.tot L, H'⟩ (Spec.iso r' c) ⟨r', res'⟩ L hL rfl rfl rfl rfl
    (isoS r') (isoP r')
  obtain ⟨s1, h1⟩ := Option.isSome_iff_exists.1 r1
  obtain ⟨s2, h2⟩ := Option.isSome_iff_exists.1 r2
  refine ⟨s1, s2, h1, h2, ?_⟩
  obtain ⟨L1, hL1, k1⟩ := St.C06_update_is_kalman hlib hs order _ _ _ (isoS rows) (isoP rows) h1
  obtain ⟨L2, hL2, k2⟩ := St.C06_update_is_kalman hlib hs order _ _ _ (isoS r') (isoP r') h2
  rw [hL] at hL1 hL2
  obtain rfl := Option.some.inj hL1
  obtain rfl := Option.some.inj hL2
  have e1 : St.Spec.mat (Spec.iso rows c).rows (Spec.iso rows c).rows (Spec.iso rows c).a = c • 1 := isoM rows
  have e2 : St.Spec.mat (Spec.iso r' c).rows (Spec.iso r' c).rows (Spec.iso r' c).a = c • 1 := isoM r'
  simp only [e1, e2] at k1 k2
  obtain ⟨u1, n1, c1, -, v1, w1, -, -⟩ := k1
  obtain ⟨u2, n2, c2, -, v2, w2, -, -⟩ := k2
  -- the full Jacobians
  have hF : ∀ m (A : Mat), St.Spec.full L m s.n A = Spec.mat m (St.tot L) A * toM (St.tot L) s.n (Mat.sel (St.ix L)) := by
    intro m A
    rw [St.full_eq, St.scatter_eq, toM_mul]; rfl
  set F1 := St.Spec.full L (Spec.iso rows c).rows s.n H with hF1
  set F2 := St.Spec.full L (Spec.iso r' c).rows s.n H' with hF2
  have hFF : F1.transpose * F1 = F2.transpose * F2 := by
    have e : ∀ m (A : Mat), (St.Spec.full L m s.n A).transpose * St.Spec.full L m s.n A = (toM (St.tot L) s.n (Mat.sel (St.ix L))).transpose *
        ((Spec.mat m (St.tot L) A).transpose * Spec.mat m (St.tot L) A) * toM (St.tot L) s.n (Mat.sel (St.ix L)) := by
      intro m A
      rw [hF, Matrix.transpose_mul]; simp only [Matrix.mul_assoc]
    exact (e rows H).trans (by rw [← hG]; exact (e r' H').symm)
  have hFr : F1.transpose.mulVec (St.Spec.vec (Spec.iso rows c).rows res) = F2.transpose.mulVec (St.Spec.vec (Spec.iso r' c).rows res') := by
    rw [hF1, hF2, hF, hF]
    simp only [Matrix.transpose_mul, ← Matrix.mulVec_mulVec]
    exact congrArg _ hr.symm
  have p1 := push_through F1 (St.Spec.cov s) hc.ne' u1
  have p2 := push_through F2 (St.Spec.cov s) hc.ne' u2
  rw [hFF] at p1
  have hcov : St.Spec.mat s.n s.n s1.P = St.Spec.mat s.n s.n s2.P := by
    rw [c1, c2]
    congr 1
    rw [Matrix.mul_assoc (St.Spec.cov s) F1.transpose, p1, Matrix.mul_assoc (St.Spec.cov s) F2.transpose, p2]
    simp only [Matrix.mul_assoc]
    rw [← Matrix.mul_assoc F1.transpose, hFF, Matrix.mul_assoc]
  have hK : (St.Spec.cov s * F1.transpose * (F1 * St.Spec.cov s * F1.transpose + c • 1)⁻¹).mulVec (St.Spec.vec (Spec.iso rows c).rows res) =
      (St.Spec.cov s * F2.transpose * (F2 * St.Spec.cov s * F2.transpose + c • 1)⁻¹).mulVec (St.Spec.vec (Spec.iso r' c).rows res') := by
    rw [Matrix.mul_assoc (St.Spec.cov s) F1.transpose, p1, Matrix.mul_assoc (St.Spec.cov s) F2.transpose, p2]
    simp only [← Matrix.mulVec_mulVec, hFr]
  refine ⟨n1, n2, fun i j hi hj => congr_fun (congr_fun hcov ⟨i, hi⟩) ⟨j, hj⟩, fun u => ?_⟩
  by_cases hu : u ∈ s.vars
  · obtain ⟨k, hk, dx, hdx, hv⟩ := v1 u hu
    obtain ⟨k', hk', dx', hdx', hv'⟩ := v2 u hu
    obtain rfl : k = k' := by have := hk.symm.trans hk'; exact_mod_cast this
    rw [hv, hv']
    refine sameVal_update _ fun i hi => ?_
    obtain ⟨hi1, q1⟩ := hdx i hi
    obtain ⟨hi2, q2⟩ := hdx' i hi
    rw [q1, q2]
    exact congr_fun hK _
  · rw [w1 u hu, w2 u hu]
    cases (s.obj u).val <;> simp [Spec.SameVal]

/-- the hypotheses are met: in the initial state, with the IMU as the only listed variable and forty rows. -/
example {lib : St.Lib} : St.Spec.ReachOK lib (St.ctor St.Spec.o0) := ⟨St.Spec.o0, [], trivial, rfl⟩
example : (compress 40 15 (fun i j => if i % 15 = j then 1 else 0) (fun i => i)).1 = 15 := by
  rw [(C31_information _ _ _ _).1]; norm_num

end Verif.Upd
