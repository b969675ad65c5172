import Verif.Ros.Serial

/-!
# C125: the ground truth of a recording
-/

set_option autoImplicit false
open Classical

namespace Verif.Ros

/-! ## Specification -/

namespace Spec

/-- the ground truth state as the filter takes it: time, orientation (imaginary part, real part), position, velocity, bias of the gyroscope, bias of the accelerometer; a line of the file has the position first and the orientation with its real part first -/
structure StateOf (line : GtRow) (time : ℝ) (s : Fin 17 → ℝ) : Prop where
  time : s 0 = time
  ori : s 1 = line 5 ∧ s 2 = line 6 ∧ s 3 = line 7 ∧ s 4 = line 4
  pos : ∀ i : Fin 3, s ⟨5 + i, by omega⟩ = line ⟨1 + i, by omega⟩
  rest : ∀ i : Fin 9, s ⟨8 + i, by omega⟩ = line ⟨8 + i, by omega⟩

/-- the line of the given time nearest to `t`, the earlier if there are two -/
def Nearest (t : ℝ) (gt : List (ℝ × GtRow)) (x : ℝ × GtRow) : Prop := x ∈ gt ∧ ∀ y ∈ gt, |x.1 - t| < |y.1 - t| ∨ |x.1 - t| = |y.1 - t| ∧ x.1 ≤ y.1

end Spec

/-! ## Helpers -/

noncomputable def clStep (t : ℝ) (b : Option ℝ) (x : ℝ) : Option ℝ := match b with
  | none => some x
  | some y => if |x - t| < |y - t| then some x else some y

theorem clFold (t : ℝ) (l : List ℝ) (a : ℝ) (hs : (a :: l).Pairwise (· ≤ ·)) : ∃ c, l.foldl (clStep t) (some a) = some c ∧ c ∈ a :: l ∧ ∀ y ∈ a :: l, |c - t| < |y - t| ∨ |c - t| = |y - t| ∧ c ≤ y := by
  induction l generalizing a with
  | nil => exact ⟨a, rfl, by simp, by simp⟩
  | cons b l ih =>
    rw [List.foldl_cons]
    have hab : a ≤ b := (List.pairwise_cons.1 hs).1 b (by simp)
    have hs1 : (b :: l).Pairwise (· ≤ ·) := (List.pairwise_cons.1 hs).2
    have hs2 : (a :: l).Pairwise (· ≤ ·) := List.pairwise_cons.2 ⟨fun y hy => (List.pairwise_cons.1 hs).1 y (by simp [hy]), (List.pairwise_cons.1 hs1).2⟩
    by_cases h : |b - t| < |a - t|
    · rw [show clStep t (some a) b = some b from if_pos h]
      obtain ⟨c, h1, h2, h3⟩ := ih b hs1
      refine ⟨c, h1, List.mem_cons_of_mem _ h2, fun y hy => ?_⟩
      rcases List.mem_cons.1 hy with rfl | hy
      · left
        rcases h3 b (by simp) with h4 | ⟨h4, -⟩
        · exact lt_trans h4 h
        · rwa [h4]
      · exact h3 y hy
    · rw [show clStep t (some a) b = some a from if_neg h]
      obtain ⟨c, h1, h2, h3⟩ := ih a hs2
      refine ⟨c, h1, by rcases List.mem_cons.1 h2 with h2 | h2 <;> simp [h2], fun y hy => ?_⟩
      rcases List.mem_cons.1 hy with rfl | hy
      · exact h3 y (by simp)
      rcases List.mem_cons.1 hy with rfl | hy
      · have ha := h3 a (by simp)
        have h' := not_lt.1 h
        rcases ha with h4 | ⟨h4, h5⟩
        · left; linarith
        · rcases h'.lt_or_eq with h6 | h6
          · left; linarith
          · right; exact ⟨by linarith, by linarith⟩
      · exact h3 y (by simp [hy])

theorem closest_spec (t : ℝ) (gt : List (ℝ × GtRow)) (hne : gt ≠ []) : ∃ x, Spec.Nearest t gt x ∧ closest t gt = some x.1 := by
  have hp := List.perm_insertionSort (· ≤ ·) (gt.map (·.1))
  have hs := List.pairwise_insertionSort (· ≤ ·) (gt.map (·.1))
  cases hl : (gt.map (·.1)).insertionSort (· ≤ ·) with
  | nil =>
    rw [hl] at hp
    have := hp.nil_eq
    exact absurd (List.map_eq_nil_iff.1 this.symm) hne
  | cons a l =>
    rw [hl] at hp hs
    obtain ⟨c, h1, h2, h3⟩ := clFold t l a hs
    obtain ⟨x, hx, hxc⟩ := List.mem_map.1 (hp.subset h2)
    refine ⟨x, ⟨hx, fun y hy => ?_⟩, ?_⟩
    · rw [hxc]
      exact h3 y.1 (hp.symm.subset (List.mem_map_of_mem hy))
    · rw [hxc, ← h1, closest, hl, List.foldl_cons]
      rfl

/-! ## C125 -/

/-- **C125** (ground truth, look up) The state of a time is found exactly if the ground truth has a state less than a tenth of a second away, and it is the state of the nearest line, the earlier of two, with its own time. -/
theorem C125_lookup (t : ℝ) (gt : List (ℝ × GtRow)) (hnd : (gt.map (·.1)).Nodup) :
    ((gtState t gt).isSome ↔ ∃ x ∈ gt, |x.1 - t| < 0.1) ∧ ∀ s, gtState t gt = some s → ∃ x, Spec.Nearest t gt x ∧ |x.1 - t| < 0.1 ∧ Spec.StateOf x.2 x.1 s := by
  by_cases hne : gt = []
  · subst hne
    simp [gtState, closest]
  obtain ⟨x, hx, hc⟩ := closest_spec t gt hne
  have hinj : ∀ y ∈ gt, y.1 = x.1 → y = x := fun y hy h => List.inj_on_of_nodup_map hnd hy hx.1 h
  have hmin : ∀ y ∈ gt, |x.1 - t| ≤ |y.1 - t| := fun y hy => by
    rcases hx.2 y hy with h | ⟨h, -⟩
    · exact h.le
    · exact h.le
  rw [gtState, hc]
  simp only
  by_cases hn : |x.1 - t| < 0.1
  · simp only [if_pos hn]
    have hf : gt.find? (fun y => decide (y.1 = x.1)) = some x := by
      cases hf : gt.find? (fun y => decide (y.1 = x.1)) with
      | none =>
        have := List.find?_eq_none.1 hf x hx.1
        simp at this
      | some y =>
        have h1 := List.find?_some hf
        have h2 := List.mem_of_find?_eq_some hf
        rw [hinj y h2 (by simpa using h1)]
    rw [hf]
    refine ⟨⟨fun _ => ⟨x, hx.1, hn⟩, fun _ => rfl⟩, fun s hs => ⟨x, hx, hn, ?_⟩⟩
    simp only [Option.map_some, Option.some.injEq] at hs
    subst hs
    exact ⟨rfl, ⟨rfl, rfl, rfl, rfl⟩, fun i => by fin_cases i <;> rfl, fun i => by fin_cases i <;> rfl⟩
  · simp only [if_neg hn]
    have hf : gt.find? (fun y => decide (y.1 = t)) = none := by
      refine List.find?_eq_none.2 fun y hy h => ?_
      have h : y.1 = t := by simpa using h
      have := hmin y hy
      rw [h, sub_self, abs_zero] at this
      linarith [not_lt.1 hn]
    rw [hf]
    refine ⟨⟨fun h => by simp at h, fun ⟨y, hy, h⟩ => ?_⟩, fun s hs => by simp at hs⟩
    linarith [hmin y hy, not_lt.1 hn]

/-- the numbers of a line, with zeros where it is too short -/
def Spec.row (l : List ℝ) : GtRow := fun i => l.getD i 0

/-- **C125** (ground truth, reading) A file is read exactly if no line has more than seventeen numbers. The times, in seconds, are different, and the line kept for a time is the first that has it. -/
theorem C125_load (ls : List (List ℝ)) :
    ((gtLoad ls).isSome ↔ ∀ l ∈ ls, l.length ≤ 17) ∧ ∀ gt, gtLoad ls = some gt → (gt.map (·.1)).Nodup ∧
      ∀ x, x ∈ gt ↔ ∃ (k : ℕ) (l : List ℝ), ls[k]? = some l ∧ x = (1e-9 * Spec.row l 0, Spec.row l) ∧ ∀ j : ℕ, j < k → ∀ l', ls[j]? = some l' → Spec.row l' 0 ≠ Spec.row l 0 := by
  induction ls with
  | nil => simp [gtLoad]
  | cons l ls ih =>
    obtain ⟨i1, i2⟩ := ih
    rw [gtLoad]
    by_cases hl : 17 < l.length
    · rw [if_pos hl]
      refine ⟨⟨fun h => by simp at h, fun h => absurd (h l (by simp)) (by omega)⟩, fun gt h => by simp at h⟩
    rw [if_neg hl]
    refine ⟨?_, fun gt hgt => ?_⟩
    · simp only [Option.isSome_map, i1, List.mem_cons, forall_eq_or_imp]
      exact ⟨fun h => ⟨by omega, h⟩, fun h => h.2⟩
    · simp only [Option.map_eq_some_iff] at hgt
      obtain ⟨r, hr, rfl⟩ := hgt
      obtain ⟨a, b⟩ := i2 r hr
      refine ⟨?_, fun x => ?_⟩
      · rw [List.map_cons, List.nodup_cons]
        refine ⟨fun h => ?_, ?_⟩
        · obtain ⟨y, hy, h⟩ := List.mem_map.1 h
          have := (List.mem_filter.1 hy).2
          simp only [decide_eq_true_eq] at this
          exact this h
        · exact a.sublist (List.filter_sublist.map _)
      · rw [List.mem_cons, List.mem_filter]
        constructor
        · rintro (rfl | ⟨h1, h2⟩)
          · exact ⟨0, l, rfl, rfl, fun j hj => by omega⟩
          · obtain ⟨k, l', h3, h4, h5⟩ := (b x).1 h1
            refine ⟨k + 1, l', by simpa using h3, h4, fun j hj l'' hl'' => ?_⟩
            cases j with
            | zero =>
              simp only [List.getElem?_cons_zero, Option.some.injEq] at hl''
              subst hl''
              simp only [decide_eq_true_eq, h4] at h2
              intro h
              exact h2 (by rw [← h]; rfl)
            | succ j => exact h5 j (by omega) l'' (by simpa using hl'')
        · rintro ⟨k, l', h3, h4, h5⟩
          cases k with
          | zero =>
            simp only [List.getElem?_cons_zero, Option.some.injEq] at h3
            subst h3
            exact Or.inl h4
          | succ k =>
            refine Or.inr ⟨(b x).2 ⟨k, l', by simpa using h3, h4, fun j hj l'' hl'' => h5 (j + 1) (by omega) l'' (by simpa using hl'')⟩, ?_⟩
            have := h5 0 (by omega) l rfl
            simp only [decide_eq_true_eq, h4]
            intro h
            have h' : Spec.row l' 0 = Spec.row l 0 := by
              have : (1e-9 : ℝ) * Spec.row l' 0 = 1e-9 * Spec.row l 0 := h
              linarith
            exact this h'.symm

/-- **C125** (ground truth, a blank line) A blank line is read as a state at time 0: position, orientation, velocity and biases are all zero, and it is found there. -/
theorem C125_blank_line (ls : List (List ℝ)) (gt : List (ℝ × GtRow)) (h : gtLoad ([] :: ls) = some gt) : gtState 0 gt = some (fun _ => 0) := by
  obtain ⟨h1, h2⟩ := (C125_load ([] :: ls)).2 gt h
  have hz : Spec.row [] = fun _ => 0 := by funext i; simp [Spec.row]
  have hmem : ((0 : ℝ), (fun _ => 0 : GtRow)) ∈ gt := (h2 _).2 ⟨0, [], rfl, by rw [hz]; simp, fun j hj => by omega⟩
  obtain ⟨h3, h4⟩ := C125_lookup 0 gt h1
  obtain ⟨s, hs⟩ := Option.isSome_iff_exists.1 (h3.2 ⟨_, hmem, by simp; norm_num⟩)
  obtain ⟨x, hx, -, hso⟩ := h4 s hs
  have hx0 : x.1 = 0 := by
    rcases hx.2 _ hmem with h | ⟨h, -⟩
    · simp only [sub_zero, abs_zero] at h
      exact absurd h (not_lt.2 (abs_nonneg _))
    · simpa using h
  have hxx : x = ((0 : ℝ), (fun _ => 0 : GtRow)) := List.inj_on_of_nodup_map h1 hx.1 hmem hx0
  rw [hs]
  congr 1
  obtain ⟨a, ⟨b1, b2, b3, b4⟩, c, d⟩ := hso
  subst hxx
  funext i
  have c0 := c 0; have c1 := c 1; have c2 := c 2
  have d0 := d 0; have d1 := d 1; have d2 := d 2; have d3 := d 3; have d4 := d 4; have d5 := d 5; have d6 := d 6; have d7 := d 7; have d8 := d 8
  fin_cases i
  · exact a
  · exact b1
  · exact b2
  · exact b3
  · exact b4
  · exact c0
  · exact c1
  · exact c2
  · exact d0
  · exact d1
  · exact d2
  · exact d3
  · exact d4
  · exact d5
  · exact d6
  · exact d7
  · exact d8

/-- two lines, and a time between them that is nearer to the second -/
example : ∃ gt, gtLoad [[1e9, 1, 2, 3, 1, 0, 0, 0, 4, 5, 6], [1.05e9, 7, 8, 9, 1, 0, 0, 0]] = some gt ∧ (gtState 1.03 gt).isSome := by
  have h := C125_load [[1e9, 1, 2, 3, 1, 0, 0, 0, 4, 5, 6], [1.05e9, 7, 8, 9, 1, 0, 0, 0]]
  obtain ⟨gt, hgt⟩ := Option.isSome_iff_exists.1 (h.1.2 (by simp))
  refine ⟨gt, hgt, ?_⟩
  obtain ⟨h1, h2⟩ := h.2 gt hgt
  refine (C125_lookup 1.03 gt h1).1.2 ⟨_, (h2 _).2 ⟨1, [1.05e9, 7, 8, 9, 1, 0, 0, 0], rfl, rfl, fun j hj l' hl' => ?_⟩, ?_⟩
  · obtain rfl : j = 0 := by omega
    simp only [List.getElem?_cons_zero, Option.some.injEq] at hl'
    subst hl'
    simp [Spec.row]; norm_num
  · simp [Spec.row]
    rw [abs_of_nonneg (by norm_num)]; norm_num

end Verif.Ros
