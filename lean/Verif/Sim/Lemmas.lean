import Verif.Sim.Spline

set_option autoImplicit false

namespace Verif.Sim

open Verif Matrix

/-- The keys of a `std::map` are strictly increasing. -/
def Sorted (m : Poses) : Prop := m.Pairwise fun a b => a.1 < b.1

theorem Sorted.append {l r : Poses} (h : Sorted (l ++ r)) : Sorted l ∧ Sorted r ∧ ∀ a ∈ l, ∀ b ∈ r, a.1 < b.1 :=
  List.pairwise_append.1 h

/-- every time splits the map in the part at or before it and the part after it. -/
theorem split_at (t : ℝ) (m : Poses) (h : Sorted m) : ∃ A B, m = A ++ B ∧ (∀ p ∈ A, p.1 ≤ t) ∧ ∀ p ∈ B, t < p.1 := by
  induction m with
  | nil => exact ⟨[], [], rfl, by simp, by simp⟩
  | cons a m ih =>
    obtain ⟨h1, h2⟩ := List.pairwise_cons.1 h
    by_cases c : a.1 ≤ t
    · obtain ⟨A, B, e, hA, hB⟩ := ih h2
      refine ⟨a :: A, B, by simp [e], ?_, hB⟩
      intro p hp
      rcases List.mem_cons.1 hp with rfl | hp
      · exact c
      · exact hA p hp
    · refine ⟨[], a :: m, rfl, by simp, ?_⟩
      push Not at c
      intro p hp
      rcases List.mem_cons.1 hp with rfl | hp
      · exact c
      · exact c.trans (h1 p hp)

theorem findIdx_append_left {α : Type*} (f : α → Bool) (A B : List α) (h : ∀ a ∈ A, f a = false) :
    (A ++ B).findIdx f = A.length + B.findIdx f := by
  induction A with
  | nil => simp
  | cons a A ih =>
    rw [List.cons_append, List.findIdx_cons, h a (by simp), ih fun x hx => h x (by simp [hx])]
    simp; omega

theorem findIdx_head {α : Type*} (f : α → Bool) (b : α) (B : List α) (h : f b = true) : (b :: B).findIdx f = 0 := by
  rw [List.findIdx_cons, h]; rfl

/-- the two bounding poses of a time inside the map. -/
theorem findPoses_at {t : ℝ} {A B : Poses} {b c : ℝ × M4} (h : Sorted (A ++ b :: c :: B)) (h1 : b.1 ≤ t) (h2 : t < c.1) :
    findPoses t (A ++ b :: c :: B) = some (b, c) := by
  obtain ⟨_, hs, hAB⟩ := h.append
  have hA : ∀ a ∈ A, a.1 < b.1 := fun a ha => hAB a ha b (by simp)
  have hub : upperB t (A ++ b :: c :: B) = A.length + 1 := by
    unfold upperB
    rw [findIdx_append_left _ _ _ fun a ha => by simpa using ((hA a ha).trans_le h1).le, List.findIdx_cons]
    have : decide (t < b.1) = false := by simpa using h1
    rw [this, findIdx_head _ _ _ (by simpa using h2)]; rfl
  have hn : (A ++ b :: c :: B)[A.length + 1]? = some c := by simp
  unfold findPoses
  rw [hub, hn]
  rcases eq_or_lt_of_le h1 with e | lt
  · have hlb : lowerB t (A ++ b :: c :: B) = A.length := by
      unfold lowerB
      rw [findIdx_append_left _ _ _ fun a ha => by simpa using (hA a ha).trans_le h1,
        findIdx_head _ _ _ (by simpa using e.ge)]
      rfl
    simp [hlb, e]
  · have hlb : lowerB t (A ++ b :: c :: B) = A.length + 1 := by
      unfold lowerB
      rw [findIdx_append_left _ _ _ fun a ha => by simpa using (hA a ha).trans_le h1, List.findIdx_cons]
      have : decide (t ≤ b.1) = false := by simpa using lt
      rw [this, findIdx_head _ _ _ (by simpa using h2.le)]; rfl
    simp [hlb, h2.ne']

theorem findPoses_none_left {t : ℝ} {B : Poses} (h : ∀ p ∈ B, t < p.1) : findPoses t B = none := by
  unfold findPoses
  cases B with
  | nil => simp [lowerB]
  | cons c B =>
    have : lowerB t (c :: B) = 0 := findIdx_head _ _ _ (by simpa using (h c (by simp)).le)
    rw [this]
    simp [(h c (by simp)).ne']

theorem findPoses_none_right {t : ℝ} {A : Poses} (h : ∀ p ∈ A, p.1 ≤ t) : findPoses t A = none := by
  unfold findPoses
  have : upperB t A = A.length := by
    unfold upperB
    rw [List.findIdx_eq_length]
    intro x hx
    simpa using h x hx
  rw [this]
  dsimp only
  rw [List.getElem?_eq_none (le_refl _)]
  split <;> simp_all

/-- exactly when the two bounding poses are found, and which. -/
theorem findPoses_iff {t : ℝ} {m : Poses} (h : Sorted m) (b c : ℝ × M4) :
    findPoses t m = some (b, c) ↔ ∃ l r, m = l ++ b :: c :: r ∧ b.1 ≤ t ∧ t < c.1 := by
  constructor
  · intro e
    obtain ⟨A, B, rfl, hA, hB⟩ := split_at t m h
    rcases List.eq_nil_or_concat A with rfl | ⟨A', b', rfl⟩
    · rw [List.nil_append, findPoses_none_left hB] at e; cases e
    · cases B with
      | nil => rw [List.append_nil, findPoses_none_right hA] at e; cases e
      | cons c' B =>
        have hb : b'.1 ≤ t := hA b' (by simp)
        have hc : t < c'.1 := hB c' (by simp)
        rw [List.concat_eq_append, List.append_assoc, List.singleton_append] at e h ⊢
        rw [findPoses_at h hb hc] at e
        cases e
        exact ⟨A', B, rfl, hb, hc⟩
  · rintro ⟨l, r, rfl, h1, h2⟩
    exact findPoses_at h h1 h2

theorem findB_at {l r : Poses} {b : ℝ × M4} (h : Sorted (l ++ b :: r)) : findB b.1 (l ++ b :: r) = l.length := by
  obtain ⟨_, _, hAB⟩ := h.append
  unfold findB
  rw [findIdx_append_left _ _ _ fun a ha => by simpa using (hAB a ha b (by simp)).ne, findIdx_head _ _ _ (by simp)]
  rfl

theorem findCtl_iff {t : ℝ} {m : Poses} (h : Sorted m) (a b c d : ℝ × M4) :
    findCtl t m = some (a, b, c, d) ↔ ∃ l r, m = l ++ a :: b :: c :: d :: r ∧ b.1 ≤ t ∧ t < c.1 := by
  constructor
  · intro e
    unfold findCtl at e
    cases hp : findPoses t m with
    | none => rw [hp] at e; cases e
    | some x =>
      obtain ⟨b', c'⟩ := x
      obtain ⟨l, r, rfl, h1, h2⟩ := (findPoses_iff h b' c').1 hp
      have e1 := findB_at h
      have hm : l ++ b' :: c' :: r = (l ++ [b']) ++ c' :: r := by simp
      have e2 : findB c'.1 (l ++ b' :: c' :: r) = l.length + 1 := by
        rw [hm] at h ⊢
        rw [findB_at h]; simp
      rw [hp] at e
      simp only [e1, e2] at e
      rcases List.eq_nil_or_concat l with rfl | ⟨l', a', rfl⟩
      · simp at e
      · cases r with
        | nil => simp at e
        | cons d' r =>
          have g : (l'.concat a' ++ b' :: c' :: d' :: r)[(l'.concat a').length + 1 + 1]? = some d' := by
            rw [List.getElem?_append_right (by omega)]
            have : (l'.concat a').length + 1 + 1 - (l'.concat a').length = 2 := by omega
            rw [this]; rfl
          have g0 : (l'.concat a' ++ b' :: c' :: d' :: r)[(l'.concat a').length - 1]? = some a' := by simp
          rw [if_neg (by simp), g, g0] at e
          simp only [Option.some.injEq, Prod.mk.injEq] at e
          obtain ⟨rfl, rfl, rfl, rfl⟩ := e
          exact ⟨l', r, by simp, h1, h2⟩
  · rintro ⟨l, r, rfl, h1, h2⟩
    have hm : l ++ a :: b :: c :: d :: r = (l ++ [a]) ++ b :: c :: (d :: r) := by simp
    have hm2 : l ++ a :: b :: c :: d :: r = (l ++ [a, b]) ++ c :: (d :: r) := by simp
    have hp : findPoses t (l ++ a :: b :: c :: d :: r) = some (b, c) := by
      rw [hm] at h ⊢
      exact findPoses_at h h1 h2
    have e1 : findB b.1 (l ++ a :: b :: c :: d :: r) = l.length + 1 := by
      rw [hm] at h ⊢
      rw [findB_at h]; simp
    have e2 : findB c.1 (l ++ a :: b :: c :: d :: r) = l.length + 2 := by
      rw [hm2] at h ⊢
      rw [findB_at h]; simp
    unfold findCtl
    rw [hp]
    simp only [e1, e2]
    have g : (l ++ a :: b :: c :: d :: r)[l.length + 2 + 1]? = some d := by
      rw [List.getElem?_append_right (by omega)]
      have : l.length + 2 + 1 - l.length = 3 := by omega
      rw [this]; rfl
    have g0 : (l ++ a :: b :: c :: d :: r)[l.length + 1 - 1]? = some a := by simp
    rw [if_neg (by simp), g, g0]

end Verif.Sim
