import Verif.Eval.Timing
import Verif.Eval.PropsRecord
import Verif.Eval.PropsTables

/-!
# C137, C138: timing statistics
-/

set_option autoImplicit false
open Classical

namespace Verif.Eval

open Verif Verif.Ros

/-! ## Specification -/

namespace Spec

/-- the categories in the order of the file: name, and the readings of the clock (0 to 6) between which the time passes -/
def stages (slam : Bool) : List (String × Fin 7 × Fin 7) :=
  [("tracking", 0, 1), ("propagation", 1, 2), ("msckf update", 2, 3)] ++ (if slam then [("slam update", 3, 4), ("slam delayed", 4, 5)] else []) ++ [("re-tri & marg", 5, 6), ("total", 0, 6)]

/-- the seconds between two readings of the clock (in microseconds) -/
noncomputable def elapsed (x : TimeRec) (s : String × Fin 7 × Fin 7) : ℝ := ((x.rT s.2.2 : ℝ) - x.rT s.2.1) / 10 ^ 6

/-- what is printed about values: mean, greatest value, standard deviation, and the mean plus 2.326 of these -/
structure Printed (vs : List ℝ) (s : Stat) : Prop where
  mean : s.mean = mean vs
  max : s.max ∈ vs ∧ ∀ x ∈ vs, x ≤ s.max
  std : ∀ d, s.std = some d → 0 ≤ d ∧ d ^ 2 = (vs.map fun x => (x - Spec.mean vs) ^ 2).sum / (vs.length - 1)
  one : s.std = none ↔ vs.length = 1
  high : s.ninetynine = s.std.map fun d => Spec.mean vs + 2.326 * d

end Spec

/-! ## Lemmas -/

theorem flameLoop_nums (rs : List (ℝ × Row)) : ∀ T : Timing, flameLoop (rs.map fun r => .nums (r.1 :: r.2)) T = some ⟨T.names, T.times ++ rs.map Prod.fst, T.rows ++ rs.map Prod.snd⟩ := by
  induction rs with
  | nil => intro T; simp [flameLoop]
  | cons r rs ih => intro T; simp [flameLoop, ih]

/-- the numbers of a line after the time -/
noncomputable def timingVals (slam : Bool) (x : TimeRec) : Row := (Spec.stages slam).map fun s => dec 5 (Spec.elapsed x s)

theorem secs_eq (a b : ℤ) : secs a b = ((b : ℝ) - a) / 10 ^ 6 := by
  unfold secs
  push_cast
  norm_num
  ring

theorem timingLine_eq (slam : Bool) (x : TimeRec) : timingLine slam x = dec 15 x.t :: timingVals slam x := by
  unfold timingLine timingVals Spec.stages
  cases slam <;> simp [Spec.elapsed, secs_eq]

theorem timingHead_eq (slam : Bool) : ((timingHead slam).filter fun s => s ≠ "").drop 1 = (Spec.stages slam).map Prod.fst := by
  cases slam <;> decide

theorem recorded_load (slam : Bool) (l : List TimeRec) (h : l ≠ []) :
    loadFlame (recordTiming slam l) = some ⟨(Spec.stages slam).map Prod.fst, l.map fun x => dec 15 x.t, l.map (timingVals slam)⟩ := by
  have e : (l.map fun x => TLine.nums (timingLine slam x)) = (l.map fun x => (dec 15 x.t, timingVals slam x)).map fun r => .nums (r.1 :: r.2) := by
    rw [List.map_map]
    exact List.map_congr_left fun x _ => by simp [timingLine_eq]
  unfold loadFlame recordTiming
  rw [flameLoop, e, flameLoop_nums, Option.bind_some]
  simp only [List.nil_append, List.map_map, timingHead_eq]
  rw [if_neg (by simp [h]), if_neg]
  · rfl
  · rintro ⟨r, hr, hl⟩
    obtain ⟨x, -, rfl⟩ := List.mem_map.1 hr
    exact hl (by simp [timingVals])

theorem fillCols_spec (n : ℕ) (rows : List Row) (h : ∀ r ∈ rows, r.length = n) : ∀ cs : List (List ℝ), cs.length = n →
    (rows.foldl (fun cs r => cs.zipWith (fun c x => c ++ [x]) r) cs).length = n ∧ ∀ c, c < n → (rows.foldl (fun cs r => cs.zipWith (fun c x => c ++ [x]) r) cs)[c]? = (cs[c]?).map (· ++ rows.map fun r => r.getD c 0) := by
  induction rows with
  | nil => intro cs hcs; exact ⟨hcs, fun c _ => by simp⟩
  | cons r rs ih =>
    intro cs hcs
    have hr := h r (by simp)
    obtain ⟨i1, i2⟩ := ih (fun r hr => h r (by simp [hr])) (cs.zipWith (fun c x => c ++ [x]) r) (by simp [hcs, hr])
    refine ⟨i1, fun c hc => ?_⟩
    rw [List.foldl_cons, i2 c hc]
    have h1 : c < cs.length := by omega
    have h2 : c < r.length := by omega
    rw [List.map_cons, List.getD_eq_getElem _ _ h2, List.getElem?_zipWith, List.getElem?_eq_getElem h1, List.getElem?_eq_getElem h2]
    simp

theorem fillCols_get {n : ℕ} {rows : List Row} (h : ∀ r ∈ rows, r.length = n) : (fillCols n rows).length = n ∧ ∀ c, c < n → (fillCols n rows)[c]? = some (rows.map fun r => r.getD c 0) := by
  obtain ⟨i1, i2⟩ := fillCols_spec n rows h (List.replicate n []) (by simp)
  refine ⟨i1, fun c hc => ?_⟩
  rw [fillCols, i2 c hc]
  simp [hc]

theorem loadFlame_some {ls : List TLine} {T : Timing} (h : loadFlame ls = some T) : T.rows ≠ [] ∧ ∀ r ∈ T.rows, r.length = T.names.length := by
  unfold loadFlame at h
  rw [Option.bind_eq_some_iff] at h
  obtain ⟨T', -, h⟩ := h
  by_cases h1 : T'.rows = []
  · rw [if_pos h1] at h; cases h
  rw [if_neg h1] at h
  by_cases h2 : ∃ r ∈ T'.rows, r.length ≠ T'.names.length
  · rw [if_pos h2] at h; cases h
  rw [if_neg h2] at h
  obtain rfl := Option.some.inj h
  push Not at h2
  exact ⟨h1, h2⟩

theorem printed_calc {s : Stat} (h : s.values ≠ []) : Spec.Printed s.values s.calculate := by
  obtain ⟨h1, h2, -⟩ := C58_order_statistics s h
  obtain ⟨e1, e2, e3, e4, e5, e6, e7, e8⟩ := calc_eq h
  have hpos : 1 ≤ s.values.length := by
    have := List.length_pos_of_ne_nil h
    omega
  refine ⟨e2, h2, fun d hd => ?_, ?_, by rw [e8, e2]⟩
  · rw [e7] at hd
    split_ifs at hd with h1
    obtain rfl := Option.some.inj hd
    refine ⟨Real.sqrt_nonneg _, ?_⟩
    rw [Real.sq_sqrt]
    · push_cast [Nat.cast_sub hpos]; ring
    · refine div_nonneg (List.sum_nonneg fun y hy => ?_) (by positivity)
      obtain ⟨x, -, rfl⟩ := List.mem_map.1 hy
      positivity
  · rw [e7]
    by_cases h1 : s.values.length = 1 <;> simp [h1]

theorem mean_close {α : Type} (l : List α) (f g : α → ℝ) (ε : ℝ) (hl : l ≠ []) (h : ∀ x ∈ l, |f x - g x| ≤ ε) : |Spec.mean (l.map f) - Spec.mean (l.map g)| ≤ ε := by
  have hs : |(l.map f).sum - (l.map g).sum| ≤ l.length * ε := by
    clear hl
    induction l with
    | nil => simp
    | cons a l ih =>
      have h1 := h a (by simp)
      have h2 := ih fun x hx => h x (by simp [hx])
      simp only [List.map_cons, List.sum_cons, List.length_cons]
      push_cast
      rw [show f a + (l.map f).sum - (g a + (l.map g).sum) = (f a - g a) + ((l.map f).sum - (l.map g).sum) by ring]
      have := abs_add_le (f a - g a) ((l.map f).sum - (l.map g).sum)
      linarith
  have hpos : (0 : ℝ) < l.length := by exact_mod_cast List.length_pos_of_ne_nil hl
  unfold Spec.mean
  rw [List.length_map, List.length_map, ← sub_div, abs_div, abs_of_pos hpos, div_le_iff₀ hpos]
  linarith

theorem keepFrom {α : Type} (k : ℕ) (hk : 0 < k) (l : List α) : ∀ s i, (((l.zipIdx s).filter fun x => x.2 % k == 0).map Prod.fst)[i]? = l[(k - s % k) % k + i * k]? := by
  induction l with
  | nil => intro s i; simp
  | cons a l ih =>
    intro s i
    rw [List.zipIdx_cons]
    by_cases hs : s % k = 0
    · rw [List.filter_cons_of_pos (by simp [hs]), List.map_cons, hs]
      simp only [Nat.sub_zero, Nat.mod_self, zero_add]
      cases i with
      | zero => simp
      | succ i =>
        rw [List.getElem?_cons_succ, ih]
        have e : (k - (s + 1) % k) % k = k - 1 := by
          by_cases h1 : k = 1
          · subst h1; simp [Nat.mod_one]
          · have h2 : (s + 1) % k = 1 := by rw [Nat.add_mod, hs, zero_add, Nat.mod_mod, Nat.mod_eq_of_lt (by omega)]
            rw [h2, Nat.mod_eq_of_lt (by omega)]
        rw [e, show (i + 1) * k = (k - 1 + i * k) + 1 by rw [add_mul]; omega, List.getElem?_cons_succ]
    · rw [List.filter_cons_of_neg (by simp [hs]), ih]
      have hlt := Nat.mod_lt s hk
      have e1 : (k - s % k) % k = k - s % k := Nat.mod_eq_of_lt (by omega)
      have e2 : (k - (s + 1) % k) % k + 1 = k - s % k := by
        by_cases h1 : s % k + 1 = k
        · have : (s + 1) % k = 0 := by
            rw [Nat.add_mod]
            by_cases hk1 : k = 1
            · subst hk1; simp [Nat.mod_one]
            · rw [Nat.mod_eq_of_lt (show 1 < k by omega), h1, Nat.mod_self]
          rw [this, Nat.sub_zero, Nat.mod_self]
          omega
        · have : (s + 1) % k = s % k + 1 := by
            rw [Nat.add_mod, Nat.mod_eq_of_lt (show 1 < k by omega), Nat.mod_eq_of_lt (by omega)]
          rw [this, Nat.mod_eq_of_lt (by omega)]
          omega
      rw [e1, ← e2, show (k - (s + 1) % k) % k + 1 + i * k = ((k - (s + 1) % k) % k + i * k) + 1 by ring, List.getElem?_cons_succ]

theorem keepEvery_get {α : Type} {k : ℕ} (hk : 0 < k) (l : List α) (i : ℕ) : (keepEvery k l)[i]? = l[i * k]? := by
  have := keepFrom k hk l 0 i
  rw [Nat.zero_mod, Nat.sub_zero, Nat.mod_self, zero_add] at this
  exact this

/-! ## C137 -/

/-- **C137** (the recorded file) From the file of a run the loader reads the categories, and for every image, in order, the time of the state in the clock of the IMU to fifteen digits and the time that passed in each category to five. It refuses only a run without an image. -/
theorem C137_recorded (slam : Bool) (l : List TimeRec) : (l = [] ↔ loadFlame (recordTiming slam l) = none) ∧ ∀ T, loadFlame (recordTiming slam l) = some T →
    T.names = (Spec.stages slam).map Prod.fst ∧ List.Forall₂ (fun x t => Spec.reads 15 x.t t) l T.times ∧
    List.Forall₂ (fun x r => List.Forall₂ (fun s y => Spec.reads 5 (Spec.elapsed x s) y) (Spec.stages slam) r) l T.rows := by
  by_cases hl : l = []
  · subst hl
    have : loadFlame (recordTiming slam []) = none := by simp [loadFlame, recordTiming, flameLoop]
    refine ⟨by simp [this], fun T h => ?_⟩
    rw [this] at h
    cases h
  · rw [recorded_load slam l hl]
    refine ⟨by simp [hl], fun T h => ?_⟩
    obtain rfl := Option.some.inj h
    refine ⟨rfl, ?_, ?_⟩
    · rw [List.forall₂_map_right_iff]
      exact List.forall₂_same.2 fun x _ => dec_reads _ _
    · rw [List.forall₂_map_right_iff]
      refine List.forall₂_same.2 fun x _ => ?_
      rw [timingVals, List.forall₂_map_right_iff]
      exact List.forall₂_same.2 fun s _ => dec_reads _ _

/-- **C137** (printed) For every file that can be loaded, one line is printed for each category, in order, and its statistics are those of the numbers that the rows have for this category. -/
theorem C137_stats {ls : List TLine} {T : Timing} (h : loadFlame ls = some T) : (flameStats T).map Prod.fst = T.names ∧
    ∀ (c : ℕ) (x : String × Stat), (flameStats T)[c]? = some x → ∃ vs : List ℝ, List.Forall₂ (fun r v => r[c]? = some v) T.rows vs ∧ x.2.values = vs ∧ Spec.Printed vs x.2 := by
  obtain ⟨hne, hlen⟩ := loadFlame_some h
  obtain ⟨f1, f2⟩ := fillCols_get hlen
  constructor
  · rw [flameStats, List.map_fst_zip]
    simp [f1]
  · intro c x hx
    unfold flameStats at hx
    obtain ⟨hx1, hx2⟩ := List.getElem?_zip_eq_some.1 hx
    have hc := (List.getElem?_eq_some_iff.1 hx1).1
    rw [List.getElem?_map, f2 c hc, Option.map_some, Option.some.injEq] at hx2
    have hne' : (T.rows.map fun r => r.getD c 0) ≠ [] := by simpa using hne
    refine ⟨T.rows.map fun r => r.getD c 0, ?_, ?_, ?_⟩
    · rw [List.forall₂_map_right_iff]
      refine List.forall₂_same.2 fun r hr => ?_
      have := hlen r hr
      rw [List.getElem?_eq_getElem (by omega), List.getD_eq_getElem _ _ (by omega)]
    · rw [← hx2, calc_values]; rfl
    · rw [← hx2]
      exact printed_calc (s := Stat.fresh _) hne'

/-- **C137** (from the run to the print) What is printed for each category of a recorded run: a mean within half of the last digit of the mean of the times that passed in it, over all images, and a greatest value as close to one of these times and not below any by more. -/
theorem C137_printed (slam : Bool) (l : List TimeRec) (T : Timing) (h : loadFlame (recordTiming slam l) = some T) :
    List.Forall₂ (fun s y => y.1 = s.1 ∧ Spec.reads 5 (Spec.mean (l.map fun x => Spec.elapsed x s)) y.2.mean ∧ (∃ x ∈ l, Spec.reads 5 (Spec.elapsed x s) y.2.max) ∧ ∀ x ∈ l, Spec.elapsed x s ≤ y.2.max + 1 / 2 / 10 ^ 5)
      (Spec.stages slam) (flameStats T) := by
  have hl : l ≠ [] := by
    rintro rfl
    rw [((C137_recorded slam []).1).1 rfl] at h
    cases h
  obtain ⟨hn, hst⟩ := C137_stats h
  rw [recorded_load slam l hl] at h
  obtain rfl := Option.some.inj h
  rw [List.forall₂_iff_get]
  have hlen : (flameStats ⟨(Spec.stages slam).map Prod.fst, l.map fun x => dec 15 x.t, l.map (timingVals slam)⟩).length = (Spec.stages slam).length := by
    have := congrArg List.length hn
    simpa using this
  refine ⟨hlen.symm, fun c h1 h2 => ?_⟩
  obtain ⟨vs, hv, hval, hp⟩ := hst c _ (List.getElem?_eq_getElem h2)
  simp only [List.get_eq_getElem]
  set s := (Spec.stages slam)[c] with hs
  have hvs : vs = l.map fun x => dec 5 (Spec.elapsed x s) := by
    clear hval hp
    rw [List.forall₂_map_left_iff] at hv
    have : List.Forall₂ (fun x v => v = dec 5 (Spec.elapsed x s)) l vs := hv.imp fun x v hx => by
      rw [timingVals, List.getElem?_map, List.getElem?_eq_getElem h1, Option.map_some, Option.some.injEq] at hx
      exact hx.symm
    have key : ∀ (l : List TimeRec) (vs : List ℝ), List.Forall₂ (fun x v => v = dec 5 (Spec.elapsed x s)) l vs → vs = l.map fun x => dec 5 (Spec.elapsed x s) := by
      intro l vs h
      induction h with
      | nil => rfl
      | cons h _ ih => rw [h, ih, List.map_cons]
    exact key l vs this
  refine ⟨?_, ?_, ?_, fun x hx => ?_⟩
  · have := congrArg (fun l => l[c]?) hn
    simp only [List.getElem?_map, List.getElem?_eq_getElem h2, List.getElem?_eq_getElem h1, Option.map_some, Option.some.injEq] at this
    exact this
  · unfold Spec.reads
    rw [hp.mean, hvs]
    exact mean_close l _ _ _ hl fun x _ => dec_reads 5 _
  · have := hp.max.1
    rw [hvs] at this
    obtain ⟨x, hx, e⟩ := List.mem_map.1 this
    refine ⟨x, hx, ?_⟩
    rw [← e]
    exact dec_reads 5 _
  · have h3 := hp.max.2 (dec 5 (Spec.elapsed x s)) (by rw [hvs]; exact List.mem_map.2 ⟨x, hx, rfl⟩)
    have h4 := dec_reads 5 (Spec.elapsed x s)
    unfold Spec.reads at h4
    have := (abs_le.1 h4).1
    linarith

/-- **C137** (the total) In a recorded file the last number of a row is the sum of the others but for the rounding of the digits; without landmarks in the state it is larger by the time between the update and the marginalisation, which no category covers. -/
theorem C137_total (slam : Bool) (x : TimeRec) (r : Row) (h : List.Forall₂ (fun s y => Spec.reads 5 (Spec.elapsed x s) y) (Spec.stages slam) r) :
    ∃ stages total, r = stages ++ [total] ∧ |total - (stages.sum + if slam then 0 else ((x.rT 5 : ℝ) - x.rT 3) / 10 ^ 6)| ≤ 7 / 2 / 10 ^ 5 := by
  cases slam
  · simp only [Spec.stages, Bool.false_eq_true, if_false, List.append_nil, List.cons_append, List.nil_append, List.forall₂_cons_left_iff, List.forall₂_nil_left_iff] at h
    obtain ⟨a, _, h1, ⟨b, _, h2, ⟨c, _, h3, ⟨d, _, h4, ⟨e, _, h5, rfl, rfl⟩, rfl⟩, rfl⟩, rfl⟩, rfl⟩ := h
    refine ⟨[a, b, c, d], e, rfl, ?_⟩
    simp only [Spec.reads, Spec.elapsed, abs_le] at h1 h2 h3 h4 h5
    simp only [List.sum_cons, List.sum_nil, Bool.false_eq_true, if_false, abs_le]
    norm_num at *
    constructor <;> linarith [h1.1, h1.2, h2.1, h2.2, h3.1, h3.2, h4.1, h4.2, h5.1, h5.2]
  · simp only [Spec.stages, if_true, List.cons_append, List.nil_append, List.forall₂_cons_left_iff, List.forall₂_nil_left_iff] at h
    obtain ⟨a, _, h1, ⟨b, _, h2, ⟨c, _, h3, ⟨d, _, h4, ⟨e, _, h5, ⟨f, _, h6, ⟨g, _, h7, rfl, rfl⟩, rfl⟩, rfl⟩, rfl⟩, rfl⟩, rfl⟩, rfl⟩ := h
    refine ⟨[a, b, c, d, e, f], g, rfl, ?_⟩
    simp only [Spec.reads, Spec.elapsed, abs_le] at h1 h2 h3 h4 h5 h6 h7
    simp only [List.sum_cons, List.sum_nil, if_true, abs_le]
    norm_num at *
    constructor <;> linarith [h1.1, h1.2, h2.1, h2.2, h3.1, h3.2, h4.1, h4.2, h5.1, h5.2, h6.1, h6.2, h7.1, h7.2]

/-- **C137** (comparison) Every file with a category contributes one entry, in the order of the files: its name, its times, and the statistics of the last number of its rows. -/
theorem C137_compare : ∀ (fs : List (String × List TLine)) (r : List (String × List ℝ × Stat)), compareTotals fs = some r →
    (∀ f ∈ fs, ∃ T, loadFlame f.2 = some T) ∧
    List.Forall₂ (fun f x => x.1 = f.1 ∧ ∃ T, loadFlame f.2 = some T ∧ x.2.1 = T.times ∧ ∃ vs, List.Forall₂ (fun r v => r.getLast? = some v) T.rows vs ∧ x.2.2.values = vs ∧ Spec.Printed vs x.2.2)
      (fs.filter fun f => decide (∀ T, loadFlame f.2 = some T → T.names ≠ [])) r := by
  intro fs
  induction fs with
  | nil =>
    intro r h
    simp only [compareTotals, Option.some.injEq] at h
    subst h
    simp
  | cons f fs ih =>
    intro r h
    rw [compareTotals, Option.bind_eq_some_iff] at h
    obtain ⟨T, hT, h⟩ := h
    rw [Option.map_eq_some_iff] at h
    obtain ⟨r', hr', rfl⟩ := h
    obtain ⟨i1, i2⟩ := ih r' hr'
    refine ⟨fun g hg => ?_, ?_⟩
    · rcases List.mem_cons.1 hg with rfl | hg
      · exact ⟨T, hT⟩
      · exact i1 g hg
    obtain ⟨s1, s2⟩ := C137_stats hT
    have hlen : (flameStats T).length = T.names.length := by rw [← s1, List.length_map]
    cases hl : (flameStats T).getLast? with
    | none =>
      have : T.names = [] := by
        rw [List.getLast?_eq_none_iff] at hl
        rw [← s1, hl]; rfl
      rw [List.filter_cons_of_neg]
      · exact i2
      · simp only [decide_eq_true_eq]
        exact fun hc => hc T hT this
    | some x =>
      have hne : T.names ≠ [] := by
        intro e
        rw [List.getLast?_eq_getElem?, hlen, e] at hl
        have := (List.getElem?_eq_some_iff.1 hl).1
        rw [hlen, e] at this
        simp at this
      rw [List.filter_cons_of_pos]
      · refine List.Forall₂.cons ⟨rfl, T, hT, rfl, ?_⟩ i2
        rw [List.getLast?_eq_getElem?] at hl
        obtain ⟨vs, h1, h2, h3⟩ := s2 _ x hl
        refine ⟨vs, ?_, h2, h3⟩
        have hr := (loadFlame_some hT).2
        clear h2 h3
        generalize T.rows = rows at h1 hr
        induction h1 with
        | nil => exact .nil
        | cons h _ ih =>
          refine .cons ?_ (ih fun r hr' => hr r (by simp [hr']))
          rw [List.getLast?_eq_getElem?, hr _ (by simp), ← hlen]
          exact h
      · simp only [decide_eq_true_eq]
        intro T' hT'
        rw [hT] at hT'
        obtain rfl := Option.some.inj hT'
        exact hne

/-- **C137** (plots) The plot of a file shows, for a positive `k`, of every category but the last the values of the rows 0, k, 2k, ... at their times since the first row; the comparison shows every tenth value of each file, with the first time of the first file subtracted. With `k = 0`, which is also what a text that is no number gives, it crashes. -/
theorem C137_plot {ls : List TLine} {T : Timing} (h : loadFlame ls = some T) (hn : T.names ≠ []) :
    flamePlot 0 T = none ∧ ∀ k : ℕ, 0 < k → k < 2 ^ 64 → ∃ ts cs, flamePlot k T = some (ts, cs) ∧ (∀ i, ts[i]? = (T.times[i * k]?).map fun t => t - T.times.headD 0) ∧
      cs.map Prod.fst = T.names.dropLast ∧ ∀ (c : ℕ) (y : String × List ℝ), cs[c]? = some y → ∀ i, y.2[i]? = (T.rows[i * k]?).bind fun r => r[c]? := by
  obtain ⟨hne, hlen⟩ := loadFlame_some h
  obtain ⟨f1, f2⟩ := fillCols_get hlen
  refine ⟨by simp [flamePlot, sizeT], fun k hk hk' => ?_⟩
  have hsz : sizeT (k : ℤ) = k := by
    unfold sizeT
    rw [Int.emod_eq_of_lt (by omega) (by exact_mod_cast hk')]
    simp
  have hhead : (keepEvery k T.times).headD 0 = T.times.headD 0 := by
    rw [List.headD_eq_head?_getD, List.headD_eq_head?_getD, List.head?_eq_getElem?, List.head?_eq_getElem?, keepEvery_get hk, zero_mul]
  refine ⟨_, _, by unfold flamePlot; rw [hsz, if_neg (by omega), if_neg hn], fun i => ?_, ?_, fun c y hy i => ?_⟩
  · rw [List.getElem?_map, keepEvery_get hk, hhead]
  · rw [List.map_take, List.map_fst_zip (by simp [f1]), List.dropLast_eq_take]
  · rw [List.getElem?_take] at hy
    split_ifs at hy with hc
    obtain ⟨hx1, hx2⟩ := List.getElem?_zip_eq_some.1 hy
    have hc' := (List.getElem?_eq_some_iff.1 hx1).1
    rw [List.getElem?_map, f2 c hc', Option.map_some, Option.some.injEq] at hx2
    rw [← hx2, keepEvery_get hk, List.getElem?_map]
    cases hr : T.rows[i * k]? with
    | none => rfl
    | some r =>
      have := hlen r (List.mem_of_getElem? hr)
      rw [Option.map_some, Option.bind_some, List.getElem?_eq_getElem (by omega), List.getD_eq_getElem _ _ (by omega)]

/-- **C137** (plot of the comparison) -/
theorem C137_compare_plot (z : String × List ℝ × Stat) (tot : List (String × List ℝ × Stat)) : comparePlot [] = none ∧ ∃ ps, comparePlot (z :: tot) = some ps ∧
    List.Forall₂ (fun x y => y.1 = x.1 ∧ (∀ i, y.2.1[i]? = (x.2.1[i * 10]?).map fun t => t - z.2.1.headD 0) ∧ ∀ i, y.2.2[i]? = x.2.2.values[i * 10]?) (z :: tot) ps := by
  refine ⟨rfl, _, rfl, ?_⟩
  rw [List.forall₂_map_right_iff]
  refine List.forall₂_same.2 fun x _ => ⟨rfl, fun i => ?_, fun i => keepEvery_get (by norm_num) _ _⟩
  simp only
  rw [keepEvery_get (by norm_num), List.getElem?_map]

/-- a run of three images, with landmarks in the state -/
noncomputable def exTimes : List TimeRec := [⟨1.5, ![0, 10, 30, 60, 100, 150, 210]⟩, ⟨1.6, ![0, 20, 30, 60, 100, 150, 310]⟩, ⟨1.7, ![5, 20, 30, 60, 100, 151, 300]⟩]

/-- the recorded run can be loaded, printed, compared and plotted -/
example : ∃ T, loadFlame (recordTiming true exTimes) = some T ∧ T.names.length = 7 ∧ (∃ r, compareTotals [("a", recordTiming true exTimes), ("b", recordTiming false exTimes)] = some r) ∧
    ∃ p, flamePlot 2 T = some p := by
  have h := recorded_load true exTimes (by simp [exTimes])
  have h' := recorded_load false exTimes (by simp [exTimes])
  refine ⟨_, h, by simp [Spec.stages], ?_, ?_⟩
  · simp only [compareTotals, h, h', Option.bind_some, Option.map_some]
    exact ⟨_, rfl⟩
  · obtain ⟨ts, cs, e, -⟩ := (C137_plot h (by simp [Spec.stages])).2 2 (by norm_num) (by norm_num)
    exact ⟨_, e⟩

/-- a blank line stops the loader; a row of the wrong length too -/
example : loadFlame [.names ["# t", "total"], .nums [1, 2], .nums []] = none ∧ loadFlame [.names ["# t", "total"], .nums [1, 2], .nums [1, 2, 3]] = none := by
  constructor <;> simp [loadFlame, flameLoop]

/-! ## C138 -/

namespace Spec

/-- the rows of a file that count: those with a thread -/
noncomputable def active (f : List Row) : List Row := f.filter fun r => decide (r[3]? ≠ some 0)

/-- number `c` of all rows that count, of all files -/
noncomputable def column (c : ℕ) (fs : List (List Row)) : List ℝ := (fs.flatMap active).filterMap fun r => r[c]?

end Spec

theorem percentLoop_eq : ∀ (rs : List Row) l, percentLoop rs = some l → (∀ r ∈ rs, 4 ≤ r.length) ∧ l = (Spec.active rs).map fun r => (r.getD 0 0, r.getD 1 0, r.getD 2 0, r.getD 3 0)
  | [], l, h => by
    simp only [percentLoop, Option.some.injEq] at h
    subst h
    simp [Spec.active]
  | r :: rs, l, h => by
    rw [percentLoop] at h
    by_cases h4 : r.length < 4
    · rw [if_pos h4] at h; cases h
    rw [if_neg h4] at h
    have e3 : r[3]? = some (r.getD 3 0) := by rw [List.getElem?_eq_getElem (by omega), List.getD_eq_getElem _ _ (by omega)]
    by_cases h0 : r.getD 3 0 = 0
    · rw [if_pos h0] at h
      obtain ⟨i1, i2⟩ := percentLoop_eq rs l h
      refine ⟨fun r' hr' => ?_, ?_⟩
      · rcases List.mem_cons.1 hr' with rfl | hr'
        · omega
        · exact i1 r' hr'
      · rw [i2, Spec.active, Spec.active, List.filter_cons_of_neg (by rw [e3, h0]; simp)]
    · rw [if_neg h0, Option.map_eq_some_iff] at h
      obtain ⟨l', hl', rfl⟩ := h
      obtain ⟨i1, i2⟩ := percentLoop_eq rs l' hl'
      refine ⟨fun r' hr' => ?_, ?_⟩
      · rcases List.mem_cons.1 hr' with rfl | hr'
        · omega
        · exact i1 r' hr'
      · rw [i2, Spec.active, Spec.active, List.filter_cons_of_pos (by rw [e3]; simpa using h0), List.map_cons]

theorem percentLoop_some : ∀ rs : List Row, (∀ r ∈ rs, 4 ≤ r.length) → ∃ l, percentLoop rs = some l
  | [], _ => ⟨[], rfl⟩
  | r :: rs, h => by
    obtain ⟨l, hl⟩ := percentLoop_some rs fun r hr => h r (by simp [hr])
    rw [percentLoop, if_neg (by have := h r (by simp); omega), hl]
    split_ifs
    · exact ⟨l, rfl⟩
    · exact ⟨_, rfl⟩

theorem loadDir_eq : ∀ (fs : List (List Row)) l, loadDir fs = some l → (∀ f ∈ fs, (∀ r ∈ f, 4 ≤ r.length) ∧ Spec.active f ≠ []) ∧ l = (fs.flatMap Spec.active).map fun r => (r.getD 0 0, r.getD 1 0, r.getD 2 0, r.getD 3 0)
  | [], l, h => by
    simp only [loadDir, Option.some.injEq] at h
    subst h
    simp
  | f :: fs, l, h => by
    rw [loadDir, Option.bind_eq_some_iff] at h
    obtain ⟨a, ha, h⟩ := h
    rw [Option.map_eq_some_iff] at h
    obtain ⟨b, hb, rfl⟩ := h
    obtain ⟨i1, i2⟩ := loadDir_eq fs b hb
    unfold loadPercent at ha
    rw [Option.bind_eq_some_iff] at ha
    obtain ⟨a', ha', h⟩ := ha
    split_ifs at h with hne
    obtain rfl := Option.some.inj h
    obtain ⟨j1, j2⟩ := percentLoop_eq f a' ha'
    refine ⟨fun g hg => ?_, ?_⟩
    · rcases List.mem_cons.1 hg with rfl | hg
      · refine ⟨j1, fun e => hne ?_⟩
        rw [j2, e]; rfl
      · exact i1 g hg
    · rw [j2, i2, List.flatMap_cons, List.map_append]

theorem loadDir_some : ∀ fs : List (List Row), (∀ f ∈ fs, (∀ r ∈ f, 4 ≤ r.length) ∧ Spec.active f ≠ []) → ∃ l, loadDir fs = some l
  | [], _ => ⟨[], rfl⟩
  | f :: fs, h => by
    obtain ⟨l, hl⟩ := loadDir_some fs fun f hf => h f (by simp [hf])
    obtain ⟨h1, h2⟩ := h f (by simp)
    obtain ⟨a, ha⟩ := percentLoop_some f h1
    have : a ≠ [] := by
      rw [(percentLoop_eq f a ha).2]
      simpa using h2
    exact ⟨a ++ l, by rw [loadDir, loadPercent, ha, Option.bind_some, if_neg this, Option.bind_some, hl]; rfl⟩

theorem column_eq (c : ℕ) (hc : c < 4) (fs : List (List Row)) (h : ∀ f ∈ fs, ∀ r ∈ f, 4 ≤ r.length) : Spec.column c fs = (fs.flatMap Spec.active).map fun r => r.getD c 0 := by
  unfold Spec.column
  have : ∀ r ∈ fs.flatMap Spec.active, 4 ≤ r.length := by
    intro r hr
    obtain ⟨f, hf, hr⟩ := List.mem_flatMap.1 hr
    exact h f hf r (List.mem_filter.1 hr).1
  generalize fs.flatMap Spec.active = l at this
  induction l with
  | nil => rfl
  | cons r l ih =>
    have h4 := this r (by simp)
    rw [List.filterMap_cons_some (b := r.getD c 0), ih fun r hr => this r (by simp [hr]), List.map_cons]
    rw [List.getElem?_eq_getElem (by omega), List.getD_eq_getElem _ _ (by omega)]

theorem stemOf_ext (a b : List Char) (hb : '.' ∉ b) : stemOf (a ++ '.' :: b) = a := by
  unfold stemOf
  rw [if_pos (by simp)]
  have : (a ++ '.' :: b).reverse = b.reverse ++ '.' :: a.reverse := by simp
  rw [this, List.dropWhile_append_of_pos (by
    intro c hc
    simp only [List.mem_reverse] at hc
    simp only [ne_eq, decide_not, Bool.not_eq_eq_eq_not, Bool.not_true, decide_eq_false_iff_not]
    rintro rfl
    exact hb hc)]
  simp

/-- **C138** (partial) When no two directories have the same name up to the last dot, what is displayed for each directory, in order, is the mean and the standard deviation over the rows with a thread of exactly its own files: processor, memory, threads. Nothing is displayed only if some file has a row with
fewer than four numbers or no row with a thread. Missing: directories with the same name up to the last dot, see `C138_same_stem_counterexample`. -/
theorem C138_percent_partial (ds : List (List Char × List (List Row))) (hst : (ds.map fun d => stemOf d.1).Nodup) :
    (percentages ds ≠ none ↔ ∀ d ∈ ds, ∀ f ∈ d.2, (∀ r ∈ f, 4 ≤ r.length) ∧ Spec.active f ≠ []) ∧
    ∀ out, percentages ds = some out → List.Forall₂ (fun d x => x.1 = stemOf d.1 ∧ x.2.cpu.values = Spec.column 1 d.2 ∧ x.2.mem.values = Spec.column 2 d.2 ∧ x.2.thr.values = Spec.column 3 d.2 ∧
      (d.2 ≠ [] → Spec.Printed (Spec.column 1 d.2) x.2.cpu ∧ Spec.Printed (Spec.column 2 d.2) x.2.mem ∧ Spec.Printed (Spec.column 3 d.2) x.2.thr)) ds out := by
  have key : ∀ (ds : List (List Char × List (List Row))) (M : List Char → Perc), (ds.map fun d => stemOf d.1).Nodup → (∀ d ∈ ds, M (stemOf d.1) = ⟨Stat.fresh [], Stat.fresh [], Stat.fresh []⟩) →
      (percentRun M ds ≠ none ↔ ∀ d ∈ ds, ∀ f ∈ d.2, (∀ r ∈ f, 4 ≤ r.length) ∧ Spec.active f ≠ []) ∧
      ∀ out, percentRun M ds = some out → List.Forall₂ (fun d x => x.1 = stemOf d.1 ∧ x.2.cpu.values = Spec.column 1 d.2 ∧ x.2.mem.values = Spec.column 2 d.2 ∧ x.2.thr.values = Spec.column 3 d.2 ∧
        (d.2 ≠ [] → Spec.Printed (Spec.column 1 d.2) x.2.cpu ∧ Spec.Printed (Spec.column 2 d.2) x.2.mem ∧ Spec.Printed (Spec.column 3 d.2) x.2.thr)) ds out := by
    intro ds
    induction ds with
    | nil =>
      intro M _ _
      refine ⟨by simp [percentRun], fun out h => ?_⟩
      simp only [percentRun, Option.some.injEq] at h
      subst h
      exact .nil
    | cons d ds ih =>
      intro M hn hM
      rw [List.map_cons, List.nodup_cons] at hn
      have hM' : ∀ l, ∀ e ∈ ds, Function.update M (stemOf d.1) ((M (stemOf d.1)).feed l) (stemOf e.1) = ⟨Stat.fresh [], Stat.fresh [], Stat.fresh []⟩ := by
        intro l e he
        rw [Function.update_of_ne, hM e (by simp [he])]
        intro heq
        exact hn.1 (List.mem_map.2 ⟨e, he, heq⟩)
      constructor
      · constructor
        · intro h
          obtain ⟨out, h⟩ := Option.ne_none_iff_exists'.1 h
          rw [percentRun, Option.bind_eq_some_iff] at h
          obtain ⟨l, hl, h⟩ := h
          rw [Option.map_eq_some_iff] at h
          obtain ⟨r, hr, -⟩ := h
          intro e he
          rcases List.mem_cons.1 he with rfl | he
          · exact (loadDir_eq _ _ hl).1
          · exact ((ih _ hn.2 (hM' l)).1.1 (by rw [hr]; simp)) e he
        · intro h
          obtain ⟨l, hl⟩ := loadDir_some d.2 (h d (by simp))
          have := (ih _ hn.2 (hM' l)).1.2 fun e he => h e (by simp [he])
          obtain ⟨r, hr⟩ := Option.ne_none_iff_exists'.1 this
          rw [percentRun, hl, Option.bind_some, hr]
          simp
      · intro out h
        rw [percentRun, Option.bind_eq_some_iff] at h
        obtain ⟨l, hl, h⟩ := h
        rw [Option.map_eq_some_iff] at h
        obtain ⟨r, hr, rfl⟩ := h
        obtain ⟨l1, l2⟩ := loadDir_eq _ _ hl
        have h4 : ∀ f ∈ d.2, ∀ r ∈ f, 4 ≤ r.length := fun f hf => (l1 f hf).1
        refine .cons ?_ ((ih _ hn.2 (hM' l)).2 r hr)
        have e1 : l.map (·.2.1) = Spec.column 1 d.2 := by rw [column_eq 1 (by norm_num) _ h4, l2, List.map_map]; rfl
        have e2 : l.map (·.2.2.1) = Spec.column 2 d.2 := by rw [column_eq 2 (by norm_num) _ h4, l2, List.map_map]; rfl
        have e3 : l.map (·.2.2.2) = Spec.column 3 d.2 := by rw [column_eq 3 (by norm_num) _ h4, l2, List.map_map]; rfl
        have hfeed : (M (stemOf d.1)).feed l = ⟨(Stat.fresh (Spec.column 1 d.2)).calculate, (Stat.fresh (Spec.column 2 d.2)).calculate, (Stat.fresh (Spec.column 3 d.2)).calculate⟩ := by
          rw [hM d (by simp)]
          unfold Perc.feed
          simp only [Stat.fresh, List.nil_append, e1, e2, e3]
        rw [hfeed]
        refine ⟨rfl, calc_values _, calc_values _, calc_values _, fun hd => ?_⟩
        have hne : ∀ c, c < 4 → Spec.column c d.2 ≠ [] := by
          intro c hc
          rw [column_eq c hc _ h4]
          obtain ⟨f, fs, e⟩ := List.exists_cons_of_ne_nil hd
          have := (l1 f (by rw [e]; simp)).2
          rw [e]
          simp [this]
        exact ⟨printed_calc (s := Stat.fresh _) (hne 1 (by norm_num)), printed_calc (s := Stat.fresh _) (hne 2 (by norm_num)), printed_calc (s := Stat.fresh _) (hne 3 (by norm_num))⟩
  exact key ds _ hst fun _ _ => rfl

/-- **C138** (what is false) For directories with the same name up to the last dot, as of two versions of one program, the rows of the first also count for the second: with a processor load of `a` in the only row of the first and `b` in that of the second, both lines have the same name and the second shows `(a + b) / 2`. -/
theorem C138_same_stem_counterexample (a b : ℝ) (name v1 v2 : List Char) (h1 : '.' ∉ v1) (h2 : '.' ∉ v2) :
    ∃ x y, percentages [(name ++ '.' :: v1, [[[0, a, 1, 1]]]), (name ++ '.' :: v2, [[[0, b, 1, 1]]])] = some [(name, x), (name, y)] ∧ x.cpu.mean = a ∧ y.cpu.mean = (a + b) / 2 := by
  have hd : ∀ c : ℝ, loadDir [[[0, c, 1, 1]]] = some [(0, c, 1, 1)] := by
    intro c
    simp [loadDir, loadPercent, percentLoop]
  have hm : ∀ s : Stat, s.values ≠ [] → s.calculate.mean = Spec.mean s.values := fun s hs => (calc_eq hs).2.1
  refine ⟨_, _, by simp only [percentages, percentRun, hd, Option.bind_some, Option.map_some, stemOf_ext name v1 h1, stemOf_ext name v2 h2, Function.update_self]; rfl, ?_, ?_⟩
  · unfold Perc.feed
    simp only
    rw [hm _ (by simp)]
    simp [Spec.mean, Stat.fresh]
  · unfold Perc.feed
    simp only
    rw [hm _ (by simp), calc_values]
    norm_num [Spec.mean, Stat.fresh]

/-- two directories meet the hypotheses, one of them with two files and a row without threads -/
example : ∃ out, percentages [("a.x".toList, [[[0, 50, 3, 2], [1, 0, 0, 0]], [[0, 70, 3, 4, 9]]]), ("b".toList, [])] = some out ∧ (["a.x".toList, "b".toList].map stemOf).Nodup := by
  refine ⟨_, by simp [percentages, percentRun, loadDir, loadPercent, percentLoop]; rfl, by decide⟩

end Verif.Eval
