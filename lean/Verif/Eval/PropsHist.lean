import Verif.Eval.Hist
import Verif.Eval.PropsTiming

/-!
# C137: the histograms of the times
-/

set_option autoImplicit false

open Classical

namespace Verif.Eval

open Verif Verif.Ros

theorem mapM_range_some {α : Type} (f : ℕ → Option α) (g : ℕ → α) (n : ℕ) (h : ∀ i < n, f i = some (g i)) : (List.range n).mapM f = some ((List.range n).map g) := by
  have : ∀ l : List ℕ, (∀ i ∈ l, i < n) → l.mapM f = some (l.map g) := by
    intro l
    induction l with
    | nil => intro _; rfl
    | cons a l ih =>
      intro hl
      rw [List.mapM_cons, h a (hl a List.mem_cons_self), ih fun i hi => hl i (List.mem_cons_of_mem _ hi)]
      rfl
  exact this _ fun i hi => List.mem_range.1 hi

/-- **C137** (histograms) For every file that can be loaded there is one histogram for each category, in order and under its name; it is made of exactly the times that the rows have for this category, one per row and in milliseconds. -/
theorem C137_histogram {ls : List TLine} {T : Timing} (h : loadFlame ls = some T) :
    ∃ figs, histogram ls = some figs ∧ figs.map Figure.label = T.names ∧
      ∀ (c : ℕ) (x : Figure), figs[c]? = some x → List.Forall₂ (fun (r : Row) v => ∃ s, r[c]? = some s ∧ v = s * 1000) T.rows x.values := by
  obtain ⟨hne, hlen⟩ := loadFlame_some h
  have hlen' : ∀ r ∈ T.rows.map (fun r : Row => r.map fun x => 1000 * x), r.length = T.names.length := by
    intro r hr
    obtain ⟨r', hr', rfl⟩ := List.mem_map.1 hr
    rw [List.length_map]
    exact hlen r' hr'
  obtain ⟨f1, f2⟩ := fillCols_get hlen'
  have hf : ∀ i < T.names.length, ((histCols T.names.length T.rows)[i]?).bind (fun v => (histColors[i % histColors.length]?).bind fun c => (T.names[i]?).bind fun s => some (⟨s, c, v⟩ : Figure)) =
      some ⟨T.names.getD i "", histColors.getD (i % histColors.length) "", T.rows.map fun r => (r.map fun x => 1000 * x).getD i 0⟩ := by
    intro i hi
    have hm : i % histColors.length < histColors.length := Nat.mod_lt _ (by decide)
    unfold histCols
    rw [f2 i hi, Option.bind_some, List.getElem?_eq_getElem hm, Option.bind_some, List.getElem?_eq_getElem hi, Option.bind_some, List.getD_eq_getElem _ _ hm, List.getD_eq_getElem _ _ hi, List.map_map]
    rfl
  have hF := mapM_range_some _ _ _ hf
  refine ⟨_, by rw [histogram, h, Option.bind_some]; exact hF, ?_, ?_⟩
  · rw [List.map_map]
    refine List.ext_getElem (by simp) fun i h1 h2 => ?_
    rw [List.getElem_map, List.getElem_range]
    exact List.getD_eq_getElem _ _ h2
  · intro c x hx
    rw [List.getElem?_map, Option.map_eq_some_iff] at hx
    obtain ⟨i, hi, rfl⟩ := hx
    obtain ⟨hi1, hi2⟩ := List.getElem?_eq_some_iff.1 hi
    rw [List.length_range] at hi1
    rw [List.getElem_range] at hi2
    subst hi2
    rw [List.forall₂_map_right_iff]
    refine List.forall₂_same.2 fun r hr => ?_
    have := hlen r hr
    refine ⟨r[c], List.getElem?_eq_getElem _, ?_⟩
    rw [List.getD_eq_getElem _ _ (by rw [List.length_map]; omega), List.getElem_map]
    ring

/-- a file with two categories and two rows -/
example : ∃ T, loadFlame [.names ["", "time", "tracking", "update"], .nums [1, 0.01, 0.02], .nums [2, 0.03, 0.01]] = some T ∧ T.rows.length = 2 := by
  refine ⟨⟨["tracking", "update"], [1, 2], [[0.01, 0.02], [0.03, 0.01]]⟩, ?_, rfl⟩
  simp [loadFlame, flameLoop]

end Verif.Eval
