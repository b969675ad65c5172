import Verif.Init.PropsB
import Verif.Tri.Props
import Mathlib.LinearAlgebra.Matrix.DotProduct
import Mathlib.LinearAlgebra.Matrix.NonsingularInverse
import Mathlib.LinearAlgebra.Matrix.ToLin

/-!
# C84, C85: the dynamic initialiser's selection of poses and its linear solution
-/

set_option linter.unusedSimpArgs false

open Classical

namespace Verif.Init

open Verif Verif.Types Matrix

/-! ## C84 -/

/-- distinct elements are at least `avg` apart -/
def Spec.Apart (avg : ℝ) (l : List ℝ) : Prop := ∀ a ∈ l, ∀ b ∈ l, a ≠ b → avg ≤ |a - b|

theorem minDist_spec (t s0 : ℝ) (S : List ℝ) : (∀ s ∈ s0 :: S, minDist t s0 S ≤ |t - s|) ∧ ∃ s ∈ s0 :: S, minDist t s0 S = |t - s| := by
  have key : ∀ (S : List ℝ) (m : ℝ), let r := S.foldl (fun m s => min m |t - s|) m
      r ≤ m ∧ (∀ s ∈ S, r ≤ |t - s|) ∧ (r = m ∨ ∃ s ∈ S, r = |t - s|) := by
    intro S
    induction S with
    | nil => intro m; simp
    | cons a S ih =>
      intro m
      obtain ⟨h1, h2, h3⟩ := ih (min m |t - a|)
      simp only [List.foldl_cons] at *
      refine ⟨h1.trans (min_le_left _ _), ?_, ?_⟩
      · intro s hs
        rcases List.mem_cons.1 hs with rfl | hs
        · exact h1.trans (min_le_right _ _)
        · exact h2 s hs
      · rcases h3 with h3 | ⟨s, hs, h3⟩
        · rcases min_choice m |t - a| with h | h
          · left; rw [h3, h]
          · right; exact ⟨a, by simp, by rw [h3, h]⟩
        · right; exact ⟨s, by simp [hs], h3⟩
  obtain ⟨h1, h2, h3⟩ := key S |t - s0|
  refine ⟨?_, ?_⟩
  · intro s hs
    rcases List.mem_cons.1 hs with rfl | hs
    · exact h1
    · exact h2 s hs
  · rcases h3 with h3 | ⟨s, hs, h3⟩
    · exact ⟨s0, by simp, h3⟩
    · exact ⟨s, by simp [hs], h3⟩

theorem pickTime_apart (avg newest : ℝ) (poses times : List ℝ) (hn : newest ∈ poses) (h : Spec.Apart avg (poses ++ times)) (t : ℝ) :
    Spec.Apart avg (poses ++ pickTime avg newest poses times t) ∧ ∃ ys, pickTime avg newest poses times t = times ++ ys := by
  rw [pickTime]
  obtain ⟨h1, s, hs, h2⟩ := minDist_spec t newest (poses ++ times)
  have hsP : ∀ s, s ∈ newest :: (poses ++ times) ↔ s ∈ poses ++ times := by
    intro s
    simp only [List.mem_cons, List.mem_append]
    constructor
    · rintro (rfl | h)
      · exact Or.inl hn
      · exact h
    · exact Or.inr
  split_ifs with hc
  · refine ⟨?_, _, rfl⟩
    have hd : ∀ b ∈ poses ++ times, t ≠ b → avg ≤ |t - b| := by
      intro b hb hne
      rcases hc with hc | hc
      · exact hc.trans (h1 b ((hsP b).2 hb))
      · have : t = s := by rw [h2, abs_eq_zero] at hc; linarith
        subst this
        exact h t ((hsP t).1 hs) b hb hne
    intro a ha b hb hne
    rw [← List.append_assoc, List.mem_append, List.mem_singleton] at ha hb
    rcases ha with ha | rfl <;> rcases hb with hb | rfl
    · exact h a ha b hb hne
    · rw [abs_sub_comm]; exact hd a ha hne.symm
    · exact hd b hb hne
    · exact absurd rfl hne
  · exact ⟨h, [], by simp⟩

theorem pickTimes_apart (avg newest : ℝ) (poses : List ℝ) (hn : newest ∈ poses) (obs : List ℝ) : ∀ times, Spec.Apart avg (poses ++ times) →
    Spec.Apart avg (poses ++ obs.foldl (pickTime avg newest poses) times) ∧ ∃ ys, obs.foldl (pickTime avg newest poses) times = times ++ ys := by
  induction obs with
  | nil => intro times h; exact ⟨h, [], by simp⟩
  | cons t obs ih =>
    intro times h
    obtain ⟨h1, ys, h2⟩ := pickTime_apart avg newest poses times hn h t
    obtain ⟨h3, zs, h4⟩ := ih _ h1
    rw [List.foldl_cons]
    exact ⟨h3, ys ++ zs, by rw [h4, h2, List.append_assoc]⟩

/-- the times picked for a feature are exactly its observations at the finally chosen poses, if it is used. -/
theorem pickTimes_filter (avg newest : ℝ) (poses : List ℝ) (hn : newest ∈ poses) (F : List ℝ) (hF : Spec.Apart avg F) (obs : List ℝ) :
    ∀ times, Spec.Apart avg (poses ++ times) → (∀ x ∈ poses ++ obs.foldl (pickTime avg newest poses) times, x ∈ F) →
      obs.foldl (pickTime avg newest poses) times = times ++ obs.filter fun t => decide (t ∈ F) := by
  induction obs with
  | nil => intro times _ _; simp
  | cons t obs ih =>
    intro times h hsub
    obtain ⟨h1, ys, h2⟩ := pickTime_apart avg newest poses times hn h t
    obtain ⟨-, zs, h4⟩ := pickTimes_apart avg newest poses hn obs _ h1
    rw [List.foldl_cons] at hsub ⊢
    rw [ih _ h1 hsub]
    have hsub' : ∀ x ∈ poses ++ pickTime avg newest poses times t, x ∈ F := by
      intro x hx
      refine hsub x ?_
      rw [h4]
      rw [List.mem_append] at hx ⊢
      rcases hx with hx | hx
      · exact Or.inl hx
      · exact Or.inr (List.mem_append_left _ hx)
    rw [List.filter_cons]
    rw [pickTime] at hsub' ⊢
    obtain ⟨g1, s, hs, g2⟩ := minDist_spec t newest (poses ++ times)
    split_ifs at hsub' ⊢ with hc hm hm
    · simp
    · exact absurd (hsub' t (by simp)) (by simpa using hm)
    · exfalso
      simp only [decide_eq_true_eq] at hm
      rw [not_or, not_le] at hc
      have hsF : s ∈ F := by
        rcases List.mem_cons.1 hs with rfl | hs
        · exact hsub' _ (List.mem_append_left _ hn)
        · exact hsub' _ hs
      have hne : t ≠ s := by
        rintro rfl
        rw [g2, sub_self, abs_zero] at hc
        exact hc.2 rfl
      have := hF t hm s hsF hne
      rw [g2] at hc
      linarith [hc.1]
    · rfl

theorem selLoop_spec (avg newest : ℝ) (minNum : ℕ) (feats : List (List ℝ)) : ∀ s : Sel, newest ∈ s.poses → Spec.Apart avg s.poses →
    let r := feats.foldl (selStep avg newest minNum) s
    Spec.Apart avg r.poses ∧ (∀ x ∈ s.poses, x ∈ r.poses) ∧ (∀ x ∈ r.poses, x ∈ s.poses ∨ ∃ f ∈ feats, x ∈ f) ∧
    ∃ ns : List ℕ, r.perFeat = s.perFeat ++ ns ∧ ns.length = feats.length ∧ r.count = s.count + (ns.filter fun n => decide (minNum ≤ n)).length ∧
      r.numMeas = s.numMeas + ((feats.zip ns).map fun fn => fillRows r minNum fn.1 fn.2).sum := by
  induction feats with
  | nil => intro s _ h; exact ⟨h, fun _ h => h, fun _ h => Or.inl h, [], by simp⟩
  | cons f feats ih =>
    intro s hn hA
    simp only [List.foldl_cons]
    have h0 : Spec.Apart avg (s.poses ++ []) := by rwa [List.append_nil]
    obtain ⟨hA1, -⟩ := pickTimes_apart avg newest s.poses hn f [] h0
    have hmemf : ∀ (o : List ℝ) (ts : List ℝ), ∀ x ∈ o.foldl (pickTime avg newest s.poses) ts, x ∈ ts ∨ x ∈ o := by
      intro o
      induction o with
      | nil => intro ts x hx; exact Or.inl hx
      | cons a o ih2 =>
        intro ts x hx
        rw [List.foldl_cons] at hx
        rcases ih2 _ x hx with h | h
        · rw [pickTime] at h
          split_ifs at h
          · rw [List.mem_append, List.mem_singleton] at h
            rcases h with h | h
            · exact Or.inl h
            · exact Or.inr (by simp [h])
          · exact Or.inl h
        · exact Or.inr (by simp [h])
    by_cases hc : (pickTimes avg newest s.poses f).length < minNum
    · have e : selStep avg newest minNum s f = { s with perFeat := s.perFeat ++ [(pickTimes avg newest s.poses f).length] } := by
        rw [selStep]; rw [if_pos hc]
      obtain ⟨r1, r2, r3, ns, r4, r5, r6, r7⟩ := ih (selStep avg newest minNum s f) (by rw [e]; exact hn) (by rw [e]; exact hA)
      generalize feats.foldl (selStep avg newest minNum) (selStep avg newest minNum s f) = r at *
      rw [e] at r2 r3 r4 r6 r7
      simp only at r2 r3 r4 r6 r7
      refine ⟨r1, r2, ?_, (pickTimes avg newest s.poses f).length :: ns, ?_, by simp [r5], ?_, ?_⟩
      · intro x hx
        rcases r3 x hx with h | ⟨g, hg, h⟩
        · exact Or.inl h
        · exact Or.inr ⟨g, by simp [hg], h⟩
      · rw [r4]; simp
      · rw [r6, List.filter_cons, if_neg (by simpa using hc)]
      · rw [r7, List.zip_cons_cons, List.map_cons, List.sum_cons]
        simp only [fillRows, if_pos hc, zero_add]
    · have e : selStep avg newest minNum s f = { poses := s.poses ++ pickTimes avg newest s.poses f, numMeas := s.numMeas + 2 * (pickTimes avg newest s.poses f).length, count := s.count + 1, perFeat := s.perFeat ++ [(pickTimes avg newest s.poses f).length] } := by
        rw [selStep]; rw [if_neg hc]
      obtain ⟨r1, r2, r3, ns, r4, r5, r6, r7⟩ := ih (selStep avg newest minNum s f) (by rw [e]; exact List.mem_append_left _ hn) (by rw [e]; exact hA1)
      generalize feats.foldl (selStep avg newest minNum) (selStep avg newest minNum s f) = r at *
      rw [e] at r2 r3 r4 r6 r7
      simp only at r2 r3 r4 r6 r7
      refine ⟨r1, fun x hx => r2 x (List.mem_append_left _ hx), ?_, (pickTimes avg newest s.poses f).length :: ns, ?_, by simp [r5], ?_, ?_⟩
      · intro x hx
        rcases r3 x hx with h | ⟨g, hg, h⟩
        · rw [List.mem_append] at h
          rcases h with h | h
          · exact Or.inl h
          · rcases hmemf f [] x h with h | h
            · simp at h
            · exact Or.inr ⟨f, by simp, h⟩
        · exact Or.inr ⟨g, by simp [hg], h⟩
      · rw [r4]; simp
      · rw [r6, List.filter_cons, if_pos (by simpa using hc), List.length_cons]; omega
      · rw [r7, List.zip_cons_cons, List.map_cons, List.sum_cons]
        have hf := pickTimes_filter avg newest s.poses hn r.poses r1 f [] h0 r2
        rw [List.nil_append] at hf
        have hlen : fillRows r minNum f (pickTimes avg newest s.poses f).length = 2 * (pickTimes avg newest s.poses f).length := by
          rw [fillRows, if_neg hc]
          congr 1
          rw [pickTimes, ← hf]
        simp only [hlen]
        omega

/-- **C84** For any features and observation times: the chosen pose times contain the newest camera time, are otherwise observation times, and distinct ones are at least the average pose spacing apart;
and the number of rows written into the linear system is exactly the number allocated, so that no row is left zero and none is written out of bounds. -/
theorem C84_selection (avg newest : ℝ) (minNum : ℕ) (feats : List (List ℝ)) :
    let s := selLoop avg newest minNum feats
    newest ∈ s.poses ∧ (∀ t ∈ s.poses, t = newest ∨ ∃ f ∈ feats, t ∈ f) ∧ Spec.Apart avg s.poses ∧ fill s minNum feats = s.numMeas ∧
    s.perFeat.length = feats.length ∧ s.count = (s.perFeat.filter fun n => decide (minNum ≤ n)).length := by
  have h0 : Spec.Apart avg [newest] := by
    intro a ha b hb hne
    rw [List.mem_singleton] at ha hb
    exact absurd (ha.trans hb.symm) hne
  obtain ⟨h1, h2, h3, ns, h4, h5, h6, h7⟩ := selLoop_spec avg newest minNum feats ⟨[newest], 0, 0, []⟩ (by simp) h0
  simp only [selLoop, fill]
  generalize feats.foldl (selStep avg newest minNum) ⟨[newest], 0, 0, []⟩ = s at *
  simp only [List.nil_append, zero_add] at h4 h6 h7
  refine ⟨h2 newest (by simp), ?_, h1, ?_, ?_, ?_⟩
  · intro t ht
    rcases h3 t ht with h | h
    · left; simpa using h
    · exact Or.inr h
  · rw [h4, h7]
  · rw [h4, h5]
  · rw [h6, h4]

/-- one feature seen at 1, 2, 2.4 (spacing 1, newest time 2): two poses, the middle reading is skipped, four rows -/
example : (selLoop 1 2 2 [[1, 2, 2.4]]).numMeas = 4 := by
  have e : pickTimes 1 2 [2] [1, 2, 2.4] = [1, 2] := by
    simp only [pickTimes, List.foldl_cons, List.foldl_nil, pickTime, minDist, List.nil_append, List.append_nil, List.cons_append]
    norm_num [abs_of_pos, abs_of_neg]
  simp only [selLoop, List.foldl_cons, List.foldl_nil, selStep]
  rw [e]
  simp

/-! ## C85 -/

section Solve
variable {m n : ℕ}

/-- the cost of the linear system `A1 x + A2 g = b` -/
noncomputable def Spec.cost (A1 : Matrix (Fin m) (Fin n) ℝ) (A2 : Matrix (Fin m) (Fin 3) ℝ) (b : Fin m → ℝ) (x : Fin n → ℝ) (g : V3) : ℝ :=
  (A1.mulVec x + A2.mulVec g - b) ⬝ᵥ (A1.mulVec x + A2.mulVec g - b)

theorem self_nonneg (z : Fin m → ℝ) : 0 ≤ z ⬝ᵥ z := Finset.sum_nonneg fun i _ => mul_self_nonneg _

theorem schurP_mul (A1 : Matrix (Fin m) (Fin n) ℝ) (h : IsUnit (A1.transpose * A1).det) : schurP A1 * A1 = 0 := by
  rw [schurP, Matrix.sub_mul, Matrix.one_mul, Matrix.mul_assoc, Matrix.mul_assoc, Matrix.nonsing_inv_mul _ h, Matrix.mul_one, sub_self]

theorem schurP_sym (A1 : Matrix (Fin m) (Fin n) ℝ) : (schurP A1).transpose = schurP A1 := by
  rw [schurP, Matrix.transpose_sub, Matrix.transpose_one, Matrix.transpose_mul, Matrix.transpose_mul, Matrix.transpose_transpose, Matrix.transpose_nonsing_inv,
    Matrix.transpose_mul, Matrix.transpose_transpose, Matrix.mul_assoc]

theorem schurP_idem (A1 : Matrix (Fin m) (Fin n) ℝ) (h : IsUnit (A1.transpose * A1).det) : schurP A1 * schurP A1 = schurP A1 := by
  have : schurP A1 * schurP A1 = schurP A1 * (1 - A1 * (A1.transpose * A1)⁻¹ * A1.transpose) := rfl
  rw [this, Matrix.mul_sub, Matrix.mul_one, ← Matrix.mul_assoc, ← Matrix.mul_assoc, schurP_mul A1 h, Matrix.zero_mul, Matrix.zero_mul, sub_zero]

theorem cost_split (A1 : Matrix (Fin m) (Fin n) ℝ) (h : IsUnit (A1.transpose * A1).det) (A2 : Matrix (Fin m) (Fin 3) ℝ) (b : Fin m → ℝ) (x : Fin n → ℝ) (g : V3) :
    Spec.cost A1 A2 b x g = (A1.mulVec (x - solveFeat A1 A2 b g)) ⬝ᵥ (A1.mulVec (x - solveFeat A1 A2 b g)) +
      (g ⬝ᵥ (solveD A1 A2).mulVec g - 2 * (g ⬝ᵥ solved A1 A2 b) + b ⬝ᵥ (schurP A1).mulVec b) := by
  set y := A2.mulVec g - b with hy
  -- the residual splits into its component in the range of A1 and the orthogonal one
  have hres : A1.mulVec x + A2.mulVec g - b = A1.mulVec (x - solveFeat A1 A2 b g) + (schurP A1).mulVec y := by
    rw [Matrix.mulVec_sub, solveFeat, schurP, Matrix.sub_mulVec, Matrix.one_mulVec, Matrix.mulVec_add, Matrix.mulVec_neg]
    have e1 : A1.mulVec (((A1.transpose * A1)⁻¹ * A1.transpose * A2).mulVec g) = (A1 * (A1.transpose * A1)⁻¹ * A1.transpose).mulVec (A2.mulVec g) := by
      rw [Matrix.mulVec_mulVec, Matrix.mulVec_mulVec]; simp only [Matrix.mul_assoc]
    have e2 : A1.mulVec (((A1.transpose * A1)⁻¹ * A1.transpose).mulVec b) = (A1 * (A1.transpose * A1)⁻¹ * A1.transpose).mulVec b := by
      rw [Matrix.mulVec_mulVec]; simp only [Matrix.mul_assoc]
    rw [e1, e2, hy, Matrix.mulVec_sub]
    abel
  have horth : ∀ z w, A1.mulVec z ⬝ᵥ (schurP A1).mulVec w = 0 := by
    intro z w
    rw [Matrix.dotProduct_mulVec, ← Matrix.mulVec_transpose, schurP_sym, Matrix.mulVec_mulVec, schurP_mul A1 h, Matrix.zero_mulVec, zero_dotProduct]
  have hP : ∀ w, (schurP A1).mulVec w ⬝ᵥ (schurP A1).mulVec w = w ⬝ᵥ (schurP A1).mulVec w := by
    intro w
    rw [Matrix.dotProduct_mulVec, ← Matrix.mulVec_transpose, schurP_sym, Matrix.mulVec_mulVec, schurP_idem A1 h, dotProduct_comm]
  rw [Spec.cost, hres, add_dotProduct, dotProduct_add, dotProduct_add, horth, dotProduct_comm ((schurP A1).mulVec y), horth, hP]
  have hquad : y ⬝ᵥ (schurP A1).mulVec y = g ⬝ᵥ (solveD A1 A2).mulVec g - 2 * (g ⬝ᵥ solved A1 A2 b) + b ⬝ᵥ (schurP A1).mulVec b := by
    have t1 : ∀ w, A2.mulVec g ⬝ᵥ (schurP A1).mulVec w = g ⬝ᵥ (A2.transpose * schurP A1).mulVec w := by
      intro w
      rw [← Matrix.mulVec_mulVec, Matrix.dotProduct_mulVec g, Matrix.vecMul_transpose]
    have t2 : b ⬝ᵥ (schurP A1).mulVec (A2.mulVec g) = g ⬝ᵥ (A2.transpose * schurP A1).mulVec b := by
      rw [← t1, Matrix.dotProduct_mulVec b, ← Matrix.mulVec_transpose, schurP_sym, dotProduct_comm]
    rw [hy, Matrix.mulVec_sub, sub_dotProduct, dotProduct_sub, dotProduct_sub, t1, t1, t2, solved, solveD, Matrix.mulVec_mulVec]
    ring
  rw [hquad]
  ring

/-- `M` is symmetric positive definite -/
def Spec.PD3 (M : M3) : Prop := M.transpose = M ∧ ∀ x : V3, x ≠ 0 → 0 < x ⬝ᵥ M.mulVec x

/-- what is assumed of the Cholesky solver: it inverts symmetric positive definite matrices -/
def Spec.LltOK (llt : M3 → M3) : Prop := ∀ M, Spec.PD3 M → llt M = M⁻¹

theorem pd3_unit {M : M3} (h : Spec.PD3 M) : IsUnit M.det := by
  by_contra hc
  rw [isUnit_iff_ne_zero, not_not] at hc
  obtain ⟨v, hv, h0⟩ := Matrix.exists_mulVec_eq_zero_iff.2 hc
  have := h.2 v hv
  rw [h0, dotProduct_zero] at this
  exact lt_irrefl _ this

theorem solveD_sym (A1 : Matrix (Fin m) (Fin n) ℝ) (A2 : Matrix (Fin m) (Fin 3) ℝ) : (solveD A1 A2).transpose = solveD A1 A2 := by
  rw [solveD, Matrix.transpose_mul, Matrix.transpose_mul, schurP_sym, Matrix.transpose_transpose, Matrix.mul_assoc]

theorem grav_solves {llt : M3 → M3} (hl : Spec.LltOK llt) {D : M3} {d : V3} {lam : ℝ} (h : Spec.PD3 (D - lam • (1 : M3))) :
    (D - lam • (1 : M3)).mulVec (solveGrav llt D d lam) = d := by
  rw [solveGrav, hl _ h, Matrix.mulVec_mulVec, Matrix.mul_nonsing_inv _ (pd3_unit h), Matrix.one_mulVec]

theorem dot3_eq (v w : V3) : dot3 v w = v ⬝ᵥ w := by simp [dot3, dotProduct, Fin.sum_univ_three]

/-- **C85** Let `λ` be a real root of the computed polynomial for which the Cholesky factorisation exists. Then the recovered gravity has exactly the required magnitude, and gravity together with the recovered
features and velocity is the unique minimiser of the linear least squares cost among all states whose gravity has that magnitude. -/
theorem C85_constrained_minimiser (llt : M3 → M3) (hllt : Spec.LltOK llt) (A1 : Matrix (Fin m) (Fin n) ℝ) (hA : IsUnit (A1.transpose * A1).det) (A2 : Matrix (Fin m) (Fin 3) ℝ) (b : Fin m → ℝ)
    (gmag : ℝ) (hg : 0 < gmag) (lam : ℝ) (hroot : Spec.poly (dongsi (solveD A1 A2) (solved A1 A2 b) gmag) lam = 0) (hpd : Spec.PD3 (solveD A1 A2 - lam • (1 : M3))) :
    let gs := solveGrav llt (solveD A1 A2) (solved A1 A2 b) lam
    let xs := solveFeat A1 A2 b gs
    norm3 gs = gmag ∧ ∀ x g, norm3 g = gmag → Spec.cost A1 A2 b xs gs ≤ Spec.cost A1 A2 b x g ∧ (Spec.cost A1 A2 b x g = Spec.cost A1 A2 b xs gs → x = xs ∧ g = gs) := by
  intro gs xs
  have hdet : (solveD A1 A2 - lam • (1 : M3)).det ≠ 0 := (pd3_unit hpd).ne_zero
  obtain ⟨h1, h2, -⟩ := C51_roots (solveD A1 A2) (solveD_sym A1 A2) (solved A1 A2 b) gmag hg lam hdet
  obtain ⟨v, hv, hn⟩ := h1.1 hroot
  have hgs : (solveD A1 A2 - lam • (1 : M3)).mulVec gs = solved A1 A2 b := grav_solves hllt hpd
  have hvg : v = gs := h2 v gs hv hgs
  rw [hvg] at hn
  refine ⟨hn, ?_⟩
  intro x g hgn
  have hsq : g ⬝ᵥ g = gs ⬝ᵥ gs := by
    rw [← dot3_eq, ← dot3_eq]
    have e1 := norm3_sq g
    have e2 := norm3_sq gs
    rw [hgn] at e1
    rw [hn] at e2
    rw [← e1, ← e2]
  have hself : xs - solveFeat A1 A2 b gs = 0 := sub_self _
  have hc1 := cost_split A1 hA A2 b xs gs
  rw [hself, Matrix.mulVec_zero, dotProduct_zero, zero_add] at hc1
  have hc2 := cost_split A1 hA A2 b x g
  have hq : g ⬝ᵥ (solveD A1 A2).mulVec g - 2 * (g ⬝ᵥ solved A1 A2 b) - (gs ⬝ᵥ (solveD A1 A2).mulVec gs - 2 * (gs ⬝ᵥ solved A1 A2 b)) =
      (g - gs) ⬝ᵥ (solveD A1 A2 - lam • (1 : M3)).mulVec (g - gs) := by
    have hD : ∀ z w : V3, z ⬝ᵥ (solveD A1 A2 - lam • (1 : M3)).mulVec w = z ⬝ᵥ (solveD A1 A2).mulVec w - lam * (z ⬝ᵥ w) := by
      intro z w
      rw [Matrix.sub_mulVec, dotProduct_sub, Matrix.smul_mulVec, Matrix.one_mulVec, dotProduct_smul, smul_eq_mul]
    have hsym : gs ⬝ᵥ (solveD A1 A2).mulVec g = g ⬝ᵥ (solveD A1 A2).mulVec gs := by
      rw [Matrix.dotProduct_mulVec, ← Matrix.mulVec_transpose, solveD_sym, dotProduct_comm]
    rw [← hgs, hD, hD, hD, Matrix.mulVec_sub, sub_dotProduct, dotProduct_sub, dotProduct_sub, sub_dotProduct, dotProduct_sub, dotProduct_sub, hsym, dotProduct_comm gs g]
    linear_combination lam * hsq
  have hnn : ∀ z : Fin m → ℝ, 0 ≤ z ⬝ᵥ z := self_nonneg
  have hge : 0 ≤ (g - gs) ⬝ᵥ (solveD A1 A2 - lam • (1 : M3)).mulVec (g - gs) := by
    by_cases h0 : g - gs = 0
    · rw [h0, zero_dotProduct]
    · exact (hpd.2 _ h0).le
  have hx0 := hnn (A1.mulVec (x - solveFeat A1 A2 b g))
  refine ⟨by linarith, ?_⟩
  intro heq
  have hz : (g - gs) ⬝ᵥ (solveD A1 A2 - lam • (1 : M3)).mulVec (g - gs) = 0 := by linarith
  have hgg : g = gs := by
    by_contra hne
    have := hpd.2 _ (sub_ne_zero.2 hne)
    linarith
  have hz2 : (A1.mulVec (x - solveFeat A1 A2 b g)) ⬝ᵥ (A1.mulVec (x - solveFeat A1 A2 b g)) = 0 := by linarith
  rw [dotProduct_self_eq_zero] at hz2
  refine ⟨?_, hgg⟩
  have : (A1.transpose * A1).mulVec (x - solveFeat A1 A2 b g) = 0 := by
    rw [← Matrix.mulVec_mulVec, hz2, Matrix.mulVec_zero]
  have h3 : x - solveFeat A1 A2 b g = 0 := by
    have := congrArg (A1.transpose * A1)⁻¹.mulVec this
    rwa [Matrix.mulVec_mulVec, Matrix.nonsing_inv_mul _ hA, Matrix.one_mulVec, Matrix.mulVec_zero] at this
  rw [sub_eq_zero] at h3
  rw [h3, hgg]

/-- **C85** At most one root admits a Cholesky factorisation, so the minimiser does not depend on which of them is taken. -/
theorem C85_root_unique (A1 : Matrix (Fin m) (Fin n) ℝ) (hA : IsUnit (A1.transpose * A1).det) (A2 : Matrix (Fin m) (Fin 3) ℝ) (b : Fin m → ℝ) (gmag : ℝ) (hg : 0 < gmag) (l1 l2 : ℝ)
    (hr1 : Spec.poly (dongsi (solveD A1 A2) (solved A1 A2 b) gmag) l1 = 0) (hp1 : Spec.PD3 (solveD A1 A2 - l1 • (1 : M3)))
    (hr2 : Spec.poly (dongsi (solveD A1 A2) (solved A1 A2 b) gmag) l2 = 0) (hp2 : Spec.PD3 (solveD A1 A2 - l2 • (1 : M3))) : l1 = l2 := by
  have hl : Spec.LltOK (fun M => M⁻¹) := fun M _ => rfl
  obtain ⟨n1, o1⟩ := C85_constrained_minimiser _ hl A1 hA A2 b gmag hg l1 hr1 hp1
  obtain ⟨n2, o2⟩ := C85_constrained_minimiser _ hl A1 hA A2 b gmag hg l2 hr2 hp2
  obtain ⟨-, u1⟩ := o1 _ _ n2
  have he := u1 (le_antisymm ((o2 _ _ n1).1) ((o1 _ _ n2).1))
  have s1 := grav_solves hl hp1 (d := solved A1 A2 b)
  have s2 := grav_solves hl hp2 (d := solved A1 A2 b)
  rw [← he.2] at s1
  replace s1 := s1.trans s2.symm
  generalize solveGrav (fun M => M⁻¹) (solveD A1 A2) (solved A1 A2 b) l2 = g1 at *
  rw [Matrix.sub_mulVec, Matrix.sub_mulVec, Matrix.smul_mulVec, Matrix.smul_mulVec, Matrix.one_mulVec, sub_right_inj, ← sub_eq_zero, ← sub_smul, smul_eq_zero] at s1
  rcases s1 with h | h
  · linarith
  · exfalso
    rw [h] at n2
    have : norm3 (0 : V3) = 0 := norm3_eq_zero.2 rfl
    linarith

/-- **C85** If some state with gravity of the required magnitude satisfies the linear system exactly, the initialiser's linear step returns that state. -/
theorem C85_exact_recovery (llt : M3 → M3) (hllt : Spec.LltOK llt) (A1 : Matrix (Fin m) (Fin n) ℝ) (hA : IsUnit (A1.transpose * A1).det) (A2 : Matrix (Fin m) (Fin 3) ℝ) (b : Fin m → ℝ)
    (gmag : ℝ) (hg : 0 < gmag) (lam : ℝ) (hroot : Spec.poly (dongsi (solveD A1 A2) (solved A1 A2 b) gmag) lam = 0) (hpd : Spec.PD3 (solveD A1 A2 - lam • (1 : M3)))
    (x : Fin n → ℝ) (g : V3) (hgn : norm3 g = gmag) (hex : A1.mulVec x + A2.mulVec g = b) :
    solveGrav llt (solveD A1 A2) (solved A1 A2 b) lam = g ∧ solveFeat A1 A2 b g = x := by
  obtain ⟨-, h⟩ := C85_constrained_minimiser llt hllt A1 hA A2 b gmag hg lam hroot hpd
  obtain ⟨h1, h2⟩ := h x g hgn
  have h0 : Spec.cost A1 A2 b x g = 0 := by rw [Spec.cost, hex, sub_self, dotProduct_zero]
  have hge : 0 ≤ Spec.cost A1 A2 b (solveFeat A1 A2 b (solveGrav llt (solveD A1 A2) (solved A1 A2 b) lam)) (solveGrav llt (solveD A1 A2) (solved A1 A2 b) lam) := self_nonneg _
  obtain ⟨hx, hgg⟩ := h2 (by linarith)
  refine ⟨hgg.symm, ?_⟩
  rw [hx, ← hgg]

/-- **C85** With such data `λ = 0` is a root whenever the system determines its solution (`D` positive definite): the truth is reachable by the root search. -/
theorem C85_zero_root (A1 : Matrix (Fin m) (Fin n) ℝ) (hA : IsUnit (A1.transpose * A1).det) (A2 : Matrix (Fin m) (Fin 3) ℝ) (b : Fin m → ℝ)
    (gmag : ℝ) (hg : 0 < gmag) (hpd : Spec.PD3 (solveD A1 A2)) (x : Fin n → ℝ) (g : V3) (hgn : norm3 g = gmag) (hex : A1.mulVec x + A2.mulVec g = b) :
    Spec.poly (dongsi (solveD A1 A2) (solved A1 A2 b) gmag) 0 = 0 := by
  have e0 : solveD A1 A2 - (0 : ℝ) • (1 : M3) = solveD A1 A2 := by rw [zero_smul, sub_zero]
  refine (C51_roots (solveD A1 A2) (solveD_sym A1 A2) (solved A1 A2 b) gmag hg 0 (by rw [e0]; exact (pd3_unit hpd).ne_zero)).1.2 ⟨g, ?_, hgn⟩
  rw [e0, solved, solveD, ← hex, Matrix.mulVec_add, Matrix.mulVec_mulVec, Matrix.mulVec_mulVec, Matrix.mul_assoc A2.transpose _ A1, schurP_mul A1 hA, Matrix.mul_zero, Matrix.zero_mulVec, zero_add]

end Solve

/-- **C85** The root kept is one of those offered, none of the others gives a gravity magnitude closer to the required one, and the search fails only if none is offered. -/
theorem C85_pick (llt : M3 → M3) (D : M3) (d : V3) (gmag : ℝ) (lams : List ℝ) :
    (pickLambda llt D d gmag lams = none ↔ lams = []) ∧
    ∀ l, pickLambda llt D d gmag lams = some l → l ∈ lams ∧ ∀ l' ∈ lams, |norm3 (solveGrav llt D d l) - gmag| ≤ |norm3 (solveGrav llt D d l') - gmag| := by
  set c : ℝ → ℝ := fun l => |norm3 (solveGrav llt D d l) - gmag| with hc
  set st : Option (ℝ × ℝ) → ℝ → Option (ℝ × ℝ) := fun s l =>
    match s with
    | none => some (l, c l)
    | some (l0, c0) => if c l < c0 then some (l, c l) else some (l0, c0) with hst
  have key : ∀ (ls : List ℝ) (l0 : ℝ), ∃ l, ls.foldl st (some (l0, c l0)) = some (l, c l) ∧ l ∈ l0 :: ls ∧ ∀ l' ∈ l0 :: ls, c l ≤ c l' := by
    intro ls
    induction ls with
    | nil => intro l0; exact ⟨l0, rfl, by simp, by simp⟩
    | cons a ls ih =>
      intro l0
      rw [List.foldl_cons]
      by_cases h : c a < c l0
      · have e : st (some (l0, c l0)) a = some (a, c a) := by simp only [hst]; rw [if_pos h]
        rw [e]
        obtain ⟨l, h1, h2, h3⟩ := ih a
        refine ⟨l, h1, List.mem_cons_of_mem _ h2, ?_⟩
        intro l' hl'
        rcases List.mem_cons.1 hl' with rfl | hl'
        · exact (h3 a (by simp)).trans h.le
        · exact h3 l' hl'
      · have e : st (some (l0, c l0)) a = some (l0, c l0) := by simp only [hst]; rw [if_neg h]
        rw [e]
        obtain ⟨l, h1, h2, h3⟩ := ih l0
        refine ⟨l, h1, ?_, ?_⟩
        · rcases List.mem_cons.1 h2 with rfl | h2
          · simp
          · simp [h2]
        · intro l' hl'
          rcases List.mem_cons.1 hl' with rfl | hl'
          · exact h3 l' (by simp)
          · rcases List.mem_cons.1 hl' with rfl | hl'
            · exact (h3 l0 (by simp)).trans (not_lt.1 h)
            · exact h3 l' (by simp [hl'])
  have hp : pickLambda llt D d gmag lams = (lams.foldl st none).map Prod.fst := rfl
  rw [hp]
  cases lams with
  | nil => simp
  | cons a ls =>
    have e : (a :: ls).foldl st none = ls.foldl st (some (a, c a)) := rfl
    obtain ⟨l, h1, h2, h3⟩ := key ls a
    rw [e, h1]
    refine ⟨by simp, ?_⟩
    intro l' hl'
    simp only [Option.map_some, Option.some.injEq] at hl'
    subst hl'
    exact ⟨h2, h3⟩

/-- **C85** The rows of the linear system vanish at the true feature position, velocity and gravity, if the pixel is the exact projection of the feature in the camera at that time and the platform has moved
according to its preintegrated increments; conversely vanishing rows with positive depth put the pixel at that projection. -/
theorem C85_rows_exact (o : LinObs) (f vel grav : V3) :
    let pI := o.DT • vel - (o.DT ^ 2 / 2) • grav + o.alpha
    let pC := o.RItoC.mulVec (o.Rk.mulVec (f - pI)) + o.pIinC
    pC 2 ≠ 0 → (linRes o f vel grav = 0 ↔ o.u = pC 0 / pC 2 ∧ o.v = pC 1 / pC 2) := by
  intro pI pC hz
  have hlin : linRes o f vel grav = hproj o pC := by
    have hM : ∀ x : V3, (o.RItoC * o.Rk).mulVec x = o.RItoC.mulVec (o.Rk.mulVec x) := fun x => (Matrix.mulVec_mulVec _ _ _).symm
    simp only [linRes, pC, pI, ← hM, hproj]
    rw [Matrix.mulVec_sub, Matrix.mulVec_add, Matrix.mulVec_sub, Matrix.mulVec_smul, Matrix.mulVec_smul]
    generalize (o.RItoC * o.Rk).mulVec f = a
    generalize (o.RItoC * o.Rk).mulVec vel = b'
    generalize (o.RItoC * o.Rk).mulVec grav = c
    generalize (o.RItoC * o.Rk).mulVec o.alpha = e
    ext
    · simp; ring
    · simp; ring
  rw [hlin, hproj, Prod.mk_eq_zero, eq_div_iff hz, eq_div_iff hz]
  constructor
  · rintro ⟨h1, h2⟩; exact ⟨by linarith, by linarith⟩
  · rintro ⟨h1, h2⟩; exact ⟨by linarith, by linarith⟩

/-- **C85** The returned poses live in a frame whose gravity is vertical: they are the preintegrated motion with initial orientation `R0`, zero initial position and rotated velocity under gravity `(0,0,|g|)`, the features are
rotated along, and every feature keeps its position in every IMU frame. -/
theorem C85_gravity_frame (Rk : M3) (hR : IsRot Rk) (alpha beta : V3) (DT : ℝ) (vel grav f : V3) (hg : grav ≠ 0) :
    ∃ R0 : M3, IsRot R0 ∧ R0.mulVec ![0, 0, norm3 grav] = grav ∧
      (let pose := dynPose Rk alpha beta DT vel grav
       IsUnitQ pose.1 ∧ quat2Rot pose.1 = Rk * R0 ∧
       pose.2.1 = DT • R0.transpose.mulVec vel - (DT ^ 2 / 2) • ![0, 0, norm3 grav] + R0.transpose.mulVec alpha ∧
       pose.2.2 = R0.transpose.mulVec vel - DT • ![0, 0, norm3 grav] + R0.transpose.mulVec beta ∧
       (quat2Rot pose.1).mulVec (R0.transpose.mulVec f - pose.2.1) = Rk.mulVec (f - (DT • vel - (DT ^ 2 / 2) • grav + alpha))) := by
  obtain ⟨h1, h2, h3⟩ := C50_gram_schmidt grav hg
  have hT : (gramSchmidt grav).transpose.mulVec grav = ![0, 0, norm3 grav] := by
    have := congrArg (gramSchmidt grav).transpose.mulVec h3
    rw [Matrix.mulVec_mulVec, h1.orth, Matrix.one_mulVec] at this
    exact this.symm
  obtain ⟨c1, e1⟩ := QuatProps.C24_rotation_round_trip.2 _ hR
  obtain ⟨c2, e2⟩ := QuatProps.C24_rotation_round_trip.2 _ h1
  obtain ⟨u, -, hq⟩ := QuatProps.C23_quat_multiply _ _ c1.1 c2.1
  rw [e1, e2] at hq
  have hp : (dynPose Rk alpha beta DT vel grav).2.1 = DT • (gramSchmidt grav).transpose.mulVec vel - (DT ^ 2 / 2) • ![0, 0, norm3 grav] + (gramSchmidt grav).transpose.mulVec alpha := by
    simp only [dynPose]
    rw [Matrix.mulVec_add, Matrix.mulVec_sub, Matrix.mulVec_smul, Matrix.mulVec_smul, hT, show (0.5 * DT * DT : ℝ) = DT ^ 2 / 2 by norm_num; ring]
  refine ⟨gramSchmidt grav, h1, h3, u, hq, hp, ?_, ?_⟩
  · simp only [dynPose]
    rw [Matrix.mulVec_add, Matrix.mulVec_sub, Matrix.mulVec_smul, hT]
  · have hp' : (dynPose Rk alpha beta DT vel grav).2.1 = (gramSchmidt grav).transpose.mulVec (DT • vel - (DT ^ 2 / 2) • grav + alpha) := by
      simp only [dynPose]
      rw [show (0.5 * DT * DT : ℝ) = DT ^ 2 / 2 by norm_num; ring]
    have hq' : quat2Rot (dynPose Rk alpha beta DT vel grav).1 = Rk * gramSchmidt grav := hq
    rw [hq', hp', ← Matrix.mulVec_sub, Matrix.mulVec_mulVec, Matrix.mul_assoc, h1.orth', Matrix.mul_one]

/-- the hypotheses of the linear step are met: one unknown besides gravity, four exact measurements -/
example : ∃ (A1 : Matrix (Fin 4) (Fin 1) ℝ) (A2 : Matrix (Fin 4) (Fin 3) ℝ) (b : Fin 4 → ℝ) (x : Fin 1 → ℝ) (g : V3), IsUnit (A1.transpose * A1).det ∧ Spec.PD3 (solveD A1 A2) ∧
    norm3 g = 1 ∧ A1.mulVec x + A2.mulVec g = b := by
  refine ⟨!![1; 0; 0; 0], !![0, 0, 0; 1, 0, 0; 0, 1, 0; 0, 0, 1], ![2, 0, 0, 1], ![2], ![0, 0, 1], ?_, ?_, ?_, ?_⟩
  · simp [Matrix.det_fin_one, Matrix.mul_apply, Fin.sum_univ_four]
  · have hA : (!![1; 0; 0; 0] : Matrix (Fin 4) (Fin 1) ℝ).transpose * (!![1; 0; 0; 0] : Matrix (Fin 4) (Fin 1) ℝ) = 1 := by
      ext i j; fin_cases i; fin_cases j; simp [Matrix.mul_apply, Fin.sum_univ_four]
    have hD : solveD (!![1; 0; 0; 0] : Matrix (Fin 4) (Fin 1) ℝ) !![0, 0, 0; 1, 0, 0; 0, 1, 0; 0, 0, 1] = 1 := by
      rw [solveD, schurP, hA, inv_one, Matrix.mul_one]
      ext i j
      fin_cases i <;> fin_cases j <;> simp [Matrix.mul_apply, Fin.sum_univ_four, Matrix.one_apply, Matrix.vecHead, Matrix.vecTail, Matrix.vecMul, dotProduct]
    rw [hD]
    refine ⟨Matrix.transpose_one, fun x hx => ?_⟩
    rw [Matrix.one_mulVec]
    refine lt_of_le_of_ne (self_nonneg x) (fun h => hx ?_)
    exact dotProduct_self_eq_zero.1 h.symm
  · simp [norm3, dot3]
  · ext i; fin_cases i <;> simp [Matrix.mulVec, dotProduct, Fin.sum_univ_three, Matrix.vecHead, Matrix.vecTail]

end Verif.Init
