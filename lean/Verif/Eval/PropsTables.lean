import Verif.Eval.Tables
import Verif.Eval.Props
import Verif.Eval.PropsTrajB

/-! # C132: the tables over runs and datasets say what the evaluations of the runs say -/

set_option autoImplicit false
open Classical

namespace Verif.Eval

open Verif Verif.Ros

namespace Spec

/-- `x` is the root mean square of `vs`. -/
def Rms (vs : List ℝ) (x : ℝ) : Prop := 0 ≤ x ∧ x ^ 2 = mean (vs.map fun v => v ^ 2)

/-- every run has an error at time `t`, and `es` are these errors, run by run. -/
def AllAt (f : RunE → List (ℝ × (ℝ × ℝ))) (runs : List RunE) (t : ℝ) (es : List (ℝ × ℝ)) : Prop :=
  List.Forall₂ (fun r e => (t, e) ∈ f r) runs es

/-- no run has two errors at the same time. -/
def OncePerTime (f : RunE → List (ℝ × (ℝ × ℝ))) (runs : List RunE) : Prop := ∀ r ∈ runs, ((f r).map (·.1)).Nodup

/-- `c` is the pair of means over the runs of the root mean square errors of each. -/
structure AteOf (f : RunE → List (ℝ × (ℝ × ℝ))) (runs : List RunE) (c : ℝ × ℝ) : Prop where
  ori : ∃ xs, List.Forall₂ (fun r x => Rms ((f r).map (·.2.1)) x) runs xs ∧ c.1 = mean xs
  pos : ∃ xs, List.Forall₂ (fun r x => Rms ((f r).map (·.2.2)) x) runs xs ∧ c.2 = mean xs

end Spec

/-! ## Statistics -/

theorem fresh_mean {vs : List ℝ} (h : vs ≠ []) : (Stat.fresh vs).calculate.mean = Spec.mean vs :=
  (C58_order_statistics (Stat.fresh vs) h).2.2.2.2.2.1

theorem fresh_rms {vs : List ℝ} (h : vs ≠ []) : Spec.Rms vs (Stat.fresh vs).calculate.rmse :=
  ⟨(C58_rmse_fresh_partial vs h).1, (C58_rmse_fresh_partial vs h).2.1⟩

theorem calc_values (s : Stat) : s.calculate.values = s.values := by
  unfold Stat.calculate
  simp only
  split_ifs <;> rfl

theorem twice_mean {vs : List ℝ} (h : vs ≠ []) : (Stat.fresh vs).calculate.calculate.mean = Spec.mean vs := by
  have hv : (Stat.fresh vs).calculate.values = vs := calc_values _
  have := (C58_order_statistics (Stat.fresh vs).calculate (by rw [hv]; exact h)).2.2.2.2.2.1
  rw [this, hv]

theorem cell_calc (vs ws : List ℝ) : cell ((Stat.fresh vs).calculate, (Stat.fresh ws).calculate) =
    if vs = [] ∨ ws = [] then none else some (Spec.mean vs, Spec.mean ws) := by
  unfold cell
  simp only [calc_values]
  have e1 : ∀ us : List ℝ, (Stat.fresh us).values = us := fun _ => rfl
  rw [e1, e1]
  by_cases h : vs = [] ∨ ws = []
  · rw [if_pos h, if_pos h]
  · rw [if_neg h, if_neg h]
    push Not at h
    rw [twice_mean h.1, twice_mean h.2]

theorem overRuns_cell (f : RunE → List (ℝ × (ℝ × ℝ))) (runs : List RunE) (hne : ∀ r ∈ runs, f r ≠ []) :
    (cell (overRuns f runs) = none ↔ runs = []) ∧ ∀ c, cell (overRuns f runs) = some c → Spec.AteOf f runs c := by
  unfold overRuns
  rw [cell_calc]
  have key : ∀ (g : (ℝ × (ℝ × ℝ)) → ℝ) (rs : List RunE), (∀ r ∈ rs, f r ≠ []) →
      List.Forall₂ (fun r x => Spec.Rms ((f r).map g) x) rs (rs.map fun r => (Stat.fresh ((f r).map g)).calculate.rmse) := by
    intro g rs hrs
    rw [List.forall₂_map_right_iff, List.forall₂_same]
    intro r hr
    exact fresh_rms (by simpa using hrs r hr)
  constructor
  · simp
  · intro c hc
    split_ifs at hc with h
    obtain rfl := Option.some.inj hc
    exact ⟨⟨_, key (·.2.1) runs hne, rfl⟩, ⟨_, key (·.2.2) runs hne, rfl⟩⟩

/-! ## The maps by time -/

/-- entries at time `t` -/
noncomputable def atT (t : ℝ) (L : List (ℝ × (ℝ × ℝ))) : List (ℝ × (ℝ × ℝ)) := L.filter fun x => decide (x.1 = t)

structure MInv (m : List (ℝ × (List ℝ × List ℝ))) (L : List (ℝ × (ℝ × ℝ))) : Prop where
  sorted : (m.map (·.1)).Pairwise (· < ·)
  iff : ∀ t v, (t, v) ∈ m ↔ atT t L ≠ [] ∧ v = (oris (atT t L), poss (atT t L))

theorem pushAt_keys (t o p : ℝ) (m : List (ℝ × (List ℝ × List ℝ))) : ∀ k, k ∈ (pushAt t o p m).map (·.1) ↔ k = t ∨ k ∈ m.map (·.1) := by
  induction m with
  | nil => intro k; simp [pushAt]
  | cons x m ih =>
    intro k
    unfold pushAt
    split_ifs with h1 h2
    · simp
    · simp only [List.map_cons, List.mem_cons, ih]; tauto
    · have : x.1 = t := le_antisymm (not_lt.1 h1) (not_lt.1 h2)
      simp only [List.map_cons, List.mem_cons, this]; tauto

theorem pushAt_sorted (t o p : ℝ) (m : List (ℝ × (List ℝ × List ℝ))) (h : (m.map (·.1)).Pairwise (· < ·)) :
    ((pushAt t o p m).map (·.1)).Pairwise (· < ·) := by
  induction m with
  | nil => simp [pushAt]
  | cons x m ih =>
    simp only [List.map_cons, List.pairwise_cons] at h
    unfold pushAt
    split_ifs with h1 h2
    · simp only [List.map_cons, List.pairwise_cons]
      refine ⟨?_, h⟩
      intro k hk
      rcases List.mem_cons.1 hk with rfl | hk
      · exact h1
      · exact h1.trans (h.1 k hk)
    · simp only [List.map_cons, List.pairwise_cons]
      refine ⟨?_, ih h.2⟩
      intro k hk
      rcases (pushAt_keys t o p m k).1 hk with rfl | hk
      · exact h2
      · exact h.1 k hk
    · simpa using h

theorem pushAt_mem (t o p : ℝ) (m : List (ℝ × (List ℝ × List ℝ))) (h : (m.map (·.1)).Pairwise (· < ·)) (k : ℝ) (v : List ℝ × List ℝ) :
    (k, v) ∈ pushAt t o p m ↔ (k ≠ t ∧ (k, v) ∈ m) ∨ (k = t ∧ ((∃ u, (t, u) ∈ m ∧ v = (u.1 ++ [o], u.2 ++ [p])) ∨
      ((∀ u, (t, u) ∉ m) ∧ v = ([o], [p])))) := by
  induction m with
  | nil => simp [pushAt]
  | cons x m ih =>
    obtain ⟨y, w⟩ := x
    simp only [List.map_cons, List.pairwise_cons] at h
    have hlow : ∀ u s, (s, u) ∈ m → y < s := fun u s hu => h.1 s (List.mem_map.2 ⟨_, hu, rfl⟩)
    unfold pushAt
    split_ifs with h1 h2
    · dsimp only at h1
      have hno : ∀ u, (t, u) ∉ (y, w) :: m := by
        intro u hu
        rcases List.mem_cons.1 hu with hu | hu
        · cases hu; exact lt_irrefl _ h1
        · exact absurd (hlow u t hu) (not_lt.2 h1.le)
      constructor
      · intro hk
        rcases List.mem_cons.1 hk with hk | hk
        · cases hk; exact Or.inr ⟨rfl, Or.inr ⟨hno, rfl⟩⟩
        · exact Or.inl ⟨fun e => hno v (e ▸ hk), hk⟩
      · rintro (⟨-, hk⟩ | ⟨rfl, ⟨u, hu, -⟩ | ⟨-, rfl⟩⟩)
        · exact List.mem_cons_of_mem _ hk
        · exact absurd hu (hno u)
        · exact List.mem_cons_self
    · dsimp only at h1 h2
      rw [List.mem_cons, ih h.2]
      constructor
      · rintro (hk | ⟨a, b⟩ | ⟨a, ⟨u, hu, b⟩ | ⟨b, c⟩⟩)
        · cases hk; exact Or.inl ⟨h2.ne, List.mem_cons_self⟩
        · exact Or.inl ⟨a, List.mem_cons_of_mem _ b⟩
        · exact Or.inr ⟨a, Or.inl ⟨u, List.mem_cons_of_mem _ hu, b⟩⟩
        · refine Or.inr ⟨a, Or.inr ⟨?_, c⟩⟩
          intro u hu
          rcases List.mem_cons.1 hu with hu | hu
          · cases hu; exact lt_irrefl _ h2
          · exact b u hu
      · rintro (⟨a, b⟩ | ⟨a, ⟨u, hu, b⟩ | ⟨b, c⟩⟩)
        · rcases List.mem_cons.1 b with b | b
          · exact Or.inl b
          · exact Or.inr (Or.inl ⟨a, b⟩)
        · rcases List.mem_cons.1 hu with hu | hu
          · cases hu; exact absurd h2 (lt_irrefl _)
          · exact Or.inr (Or.inr ⟨a, Or.inl ⟨u, hu, b⟩⟩)
        · exact Or.inr (Or.inr ⟨a, Or.inr ⟨fun u hu => b u (List.mem_cons_of_mem _ hu), c⟩⟩)
    · dsimp only at h1 h2
      have hyt : y = t := le_antisymm (not_lt.1 h1) (not_lt.1 h2)
      subst hyt
      have hno : ∀ u, (y, u) ∉ m := fun u hu => lt_irrefl _ (hlow u y hu)
      constructor
      · intro hk
        rcases List.mem_cons.1 hk with hk | hk
        · cases hk; exact Or.inr ⟨rfl, Or.inl ⟨w, List.mem_cons_self, rfl⟩⟩
        · exact Or.inl ⟨fun e => hno v (e ▸ hk), List.mem_cons_of_mem _ hk⟩
      · rintro (⟨a, b⟩ | ⟨rfl, ⟨u, hu, rfl⟩ | ⟨b, -⟩⟩)
        · rcases List.mem_cons.1 b with b | b
          · cases b; exact absurd rfl a
          · exact List.mem_cons_of_mem _ b
        · rcases List.mem_cons.1 hu with hu | hu
          · cases hu; exact List.mem_cons_self
          · exact absurd hu (hno u)
        · exact absurd List.mem_cons_self (b w)

theorem mInv_push {m : List (ℝ × (List ℝ × List ℝ))} {L : List (ℝ × (ℝ × ℝ))} (h : MInv m L) (x : ℝ × (ℝ × ℝ)) :
    MInv (pushAt x.1 x.2.1 x.2.2 m) (L ++ [x]) := by
  obtain ⟨t, o, p⟩ := x
  refine ⟨pushAt_sorted _ _ _ _ h.sorted, fun k v => ?_⟩
  rw [pushAt_mem _ _ _ _ h.sorted]
  dsimp only
  have hf : atT k (L ++ [(t, (o, p))]) = atT k L ++ (if t = k then [(t, (o, p))] else []) := by
    unfold atT
    rw [List.filter_append]
    by_cases hk : t = k
    · simp [hk]
    · simp [hk]
  rw [hf]
  by_cases hk : k = t
  · subst hk
    simp only [ne_eq, not_true_eq_false, false_and, true_and, false_or, if_true]
    by_cases he : atT k L = []
    · have hno : ∀ u, (k, u) ∉ m := fun u hu => ((h.iff k u).1 hu).1 he
      constructor
      · rintro (⟨u, hu, -⟩ | ⟨-, rfl⟩)
        · exact absurd hu (hno u)
        · rw [he]; exact ⟨by simp, by simp [oris, poss]⟩
      · rintro ⟨-, rfl⟩
        rw [he]; exact Or.inr ⟨hno, by simp [oris, poss]⟩
    · have hin := (h.iff k _).2 ⟨he, rfl⟩
      constructor
      · rintro (⟨u, hu, rfl⟩ | ⟨b, -⟩)
        · obtain ⟨-, rfl⟩ := (h.iff k u).1 hu
          exact ⟨by simp, by simp [oris, poss]⟩
        · exact absurd hin (b _)
      · rintro ⟨-, rfl⟩
        exact Or.inl ⟨_, hin, by simp [oris, poss]⟩
  · have hk' : ¬ t = k := fun e => hk e.symm
    simp only [hk, hk', ne_eq, not_false_eq_true, true_and, false_and, or_false, if_false, List.append_nil]
    exact h.iff k v

theorem mInv_foldl (xs : List (ℝ × (ℝ × ℝ))) : ∀ {m : List (ℝ × (List ℝ × List ℝ))} {L : List (ℝ × (ℝ × ℝ))}, MInv m L →
    MInv (xs.foldl (fun m x => pushAt x.1 x.2.1 x.2.2 m) m) (L ++ xs) := by
  induction xs with
  | nil => intro m L h; simpa using h
  | cons x xs ih =>
    intro m L h
    have := ih (mInv_push h x)
    simpa [List.append_assoc] using this

theorem mInv_runs (f : RunE → List (ℝ × (ℝ × ℝ))) (runs : List RunE) :
    ∀ {m : List (ℝ × (List ℝ × List ℝ))} {L : List (ℝ × (ℝ × ℝ))}, MInv m L →
    MInv (runs.foldl (fun m r => (f r).foldl (fun m x => pushAt x.1 x.2.1 x.2.2 m) m) m) (L ++ runs.flatMap f) := by
  induction runs with
  | nil => intro m L h; simpa using h
  | cons r rs ih =>
    intro m L h
    have := ih (mInv_foldl (f r) h)
    simpa [List.append_assoc] using this

theorem gather_inv (f : RunE → List (ℝ × (ℝ × ℝ))) (runs : List RunE) : MInv (gather f runs) (runs.flatMap f) := by
  have h0 : MInv [] [] := ⟨by simp, fun t v => by simp [atT]⟩
  simpa [gather] using mInv_runs f runs h0

theorem atT_once {t : ℝ} {l : List (ℝ × (ℝ × ℝ))} (h : (l.map (·.1)).Nodup) :
    (atT t l = [] ∧ ∀ e, (t, e) ∉ l) ∨ ∃ e, (t, e) ∈ l ∧ atT t l = [(t, e)] ∧ ∀ e', (t, e') ∈ l → e' = e := by
  induction l with
  | nil => left; simp [atT]
  | cons x l ih =>
    obtain ⟨k, e⟩ := x
    simp only [List.map_cons, List.nodup_cons] at h
    by_cases hk : k = t
    · subst hk
      have hno : ∀ e', (k, e') ∉ l := fun e' he => h.1 (List.mem_map.2 ⟨_, he, rfl⟩)
      have hnil : atT k l = [] := by
        rcases ih h.2 with ⟨a, -⟩ | ⟨e', a, -⟩
        · exact a
        · exact absurd a (hno e')
      right
      refine ⟨e, List.mem_cons_self, ?_, ?_⟩
      · unfold atT at hnil ⊢
        rw [List.filter_cons_of_pos (by simp), hnil]
      · intro e' he
        rcases List.mem_cons.1 he with he | he
        · cases he; rfl
        · exact absurd he (hno e')
    · have hf : atT t ((k, e) :: l) = atT t l := by
        unfold atT
        rw [List.filter_cons_of_neg (by simpa using hk)]
      rw [hf]
      rcases ih h.2 with ⟨a, b⟩ | ⟨e', a, b, c⟩
      · left
        refine ⟨a, fun e' he => ?_⟩
        rcases List.mem_cons.1 he with he | he
        · cases he; exact hk rfl
        · exact b e' he
      · right
        refine ⟨e', List.mem_cons_of_mem _ a, b, fun e'' he => ?_⟩
        rcases List.mem_cons.1 he with he | he
        · cases he; exact absurd rfl hk
        · exact c e'' he

theorem atT_flatMap (f : RunE → List (ℝ × (ℝ × ℝ))) (runs : List RunE) (t : ℝ) :
    atT t (runs.flatMap f) = runs.flatMap fun r => atT t (f r) := by
  induction runs with
  | nil => rfl
  | cons r rs ih => unfold atT at *; rw [List.flatMap_cons, List.flatMap_cons, List.filter_append, ih]

theorem allAt_iff (f : RunE → List (ℝ × (ℝ × ℝ))) (t : ℝ) : ∀ (runs : List RunE), Spec.OncePerTime f runs →
    (atT t (runs.flatMap f)).length ≤ runs.length ∧
    ((atT t (runs.flatMap f)).length = runs.length → ∃ es, Spec.AllAt f runs t es) ∧
    ∀ es, Spec.AllAt f runs t es → atT t (runs.flatMap f) = es.map fun e => (t, e) := by
  intro runs
  induction runs with
  | nil =>
    intro _
    refine ⟨by simp [atT], fun _ => ⟨[], List.Forall₂.nil⟩, ?_⟩
    intro es h
    cases h; simp [atT]
  | cons r rs ih =>
    intro h
    obtain ⟨i1, i2, i3⟩ := ih (fun r' hr' => h r' (List.mem_cons_of_mem _ hr'))
    have h0 := h r List.mem_cons_self
    have hs : atT t ((r :: rs).flatMap f) = atT t (f r) ++ atT t (rs.flatMap f) := by
      rw [atT_flatMap, atT_flatMap, List.flatMap_cons]
    rw [hs]
    rcases atT_once (t := t) h0 with ⟨a, b⟩ | ⟨e, a, b, c⟩
    · rw [a, List.nil_append]
      refine ⟨by simp only [List.length_cons]; omega, fun hl => ?_, fun es hes => ?_⟩
      · simp only [List.length_cons] at hl; omega
      · cases hes with
        | cons h1 h2 => exact absurd h1 (b _)
    · rw [b]
      refine ⟨by simp only [List.length_cons, List.length_append, List.length_nil]; omega, fun hl => ?_, fun es hes => ?_⟩
      · obtain ⟨es, hes⟩ := i2 (by simp only [List.length_cons, List.length_append, List.length_nil] at hl; omega)
        exact ⟨e :: es, List.Forall₂.cons a hes⟩
      · cases hes with
        | @cons _ e' _ es' h1 h2 =>
          rw [i3 es' h2, c e' h1]; rfl

theorem perTime_spec (f : RunE → List (ℝ × (ℝ × ℝ))) (g : Stat → ℝ) (runs : List RunE) (hr : runs ≠ [])
    (h1 : Spec.OncePerTime f runs) :
    ((perTime g runs.length (gather f runs)).map (·.1)).Pairwise (· < ·) ∧
    ∀ t o p, (t, (o, p)) ∈ perTime g runs.length (gather f runs) ↔ ∃ es, Spec.AllAt f runs t es ∧
      o = g (Stat.fresh (es.map (·.1))).calculate ∧ p = g (Stat.fresh (es.map (·.2))).calculate := by
  have hi := gather_inv f runs
  generalize gather f runs = m at hi
  constructor
  · have hs := hi.sorted
    clear hi
    unfold perTime
    induction m with
    | nil => simp
    | cons x m ih =>
      simp only [List.map_cons, List.pairwise_cons] at hs
      by_cases hx : x.2.1.length = runs.length
      · simp only [List.filterMap_cons, hx, if_true, List.map_cons, List.pairwise_cons]
        refine ⟨?_, ih hs.2⟩
        intro k hk
        obtain ⟨y, hy, rfl⟩ := List.mem_map.1 hk
        obtain ⟨z, hz, hzy⟩ := List.mem_filterMap.1 hy
        split_ifs at hzy
        obtain rfl := Option.some.inj hzy
        exact hs.1 _ (List.mem_map.2 ⟨z, hz, rfl⟩)
      · simp only [List.filterMap_cons, hx, if_false]
        exact ih hs.2
  · intro t o p
    obtain ⟨a1, a2, a3⟩ := allAt_iff f t runs h1
    have hn : 0 < runs.length := List.length_pos_of_ne_nil hr
    unfold perTime
    rw [List.mem_filterMap]
    constructor
    · rintro ⟨⟨k, v⟩, hm, he⟩
      split_ifs at he with hl
      simp only [Option.some.injEq, Prod.mk.injEq] at he
      obtain ⟨rfl, rfl, rfl⟩ := he
      obtain ⟨-, rfl⟩ := (hi.iff k v).1 hm
      obtain ⟨es, hes⟩ := a2 (by simpa [oris] using hl)
      refine ⟨es, hes, ?_, ?_⟩
      · rw [a3 es hes]; simp [oris, Function.comp_def]
      · rw [a3 es hes]; simp [poss, Function.comp_def]
    · rintro ⟨es, hes, rfl, rfl⟩
      have he := a3 es hes
      have hlen : es.length = runs.length := (List.Forall₂.length_eq hes).symm
      have hne : atT t (runs.flatMap f) ≠ [] := by
        rw [he]
        intro hc
        rw [List.map_eq_nil_iff] at hc
        rw [hc] at hlen
        simp at hlen; omega
      refine ⟨(t, (oris (atT t (runs.flatMap f)), poss (atT t (runs.flatMap f)))), (hi.iff t _).2 ⟨hne, rfl⟩, ?_⟩
      rw [if_pos (by simp only [oris, List.length_map]; rw [he, List.length_map]; exact hlen)]
      rw [he]
      simp [oris, poss, Function.comp_def]

/-! ## The theorems -/

/-- **C132.** The error over time that `error_dataset` reports: the times are in order, and they are exactly the times at which every run
has an error; the value is the root mean square over the runs of the errors at that time, each run counted once. For errors in space and
in the plane. -/
theorem C132_error_over_time (segs : List ℝ) (runs : List RunE) (hr : runs ≠ []) :
    (Spec.OncePerTime RunE.ate runs →
      ((datasetRow segs (some runs)).rmse.map (·.1)).Pairwise (· < ·) ∧
      ∀ t, (∃ es, Spec.AllAt RunE.ate runs t es) ↔ t ∈ (datasetRow segs (some runs)).rmse.map (·.1)) ∧
    (Spec.OncePerTime RunE.ate runs → ∀ t o p, (t, (o, p)) ∈ (datasetRow segs (some runs)).rmse →
      ∃ es, Spec.AllAt RunE.ate runs t es ∧ Spec.Rms (es.map (·.1)) o ∧ Spec.Rms (es.map (·.2)) p) ∧
    (Spec.OncePerTime RunE.ate2d runs →
      ((datasetRow segs (some runs)).rmse2d.map (·.1)).Pairwise (· < ·) ∧
      ∀ t, (∃ es, Spec.AllAt RunE.ate2d runs t es) ↔ t ∈ (datasetRow segs (some runs)).rmse2d.map (·.1)) ∧
    (Spec.OncePerTime RunE.ate2d runs → ∀ t o p, (t, (o, p)) ∈ (datasetRow segs (some runs)).rmse2d →
      ∃ es, Spec.AllAt RunE.ate2d runs t es ∧ Spec.Rms (es.map (·.1)) o ∧ Spec.Rms (es.map (·.2)) p) := by
  have key : ∀ f : RunE → List (ℝ × (ℝ × ℝ)), Spec.OncePerTime f runs →
      (((perTime Stat.rmse runs.length (gather f runs)).map (·.1)).Pairwise (· < ·) ∧
        ∀ t, (∃ es, Spec.AllAt f runs t es) ↔ t ∈ (perTime Stat.rmse runs.length (gather f runs)).map (·.1)) ∧
      ∀ t o p, (t, (o, p)) ∈ perTime Stat.rmse runs.length (gather f runs) →
        ∃ es, Spec.AllAt f runs t es ∧ Spec.Rms (es.map (·.1)) o ∧ Spec.Rms (es.map (·.2)) p := by
    intro f hf
    obtain ⟨s1, s2⟩ := perTime_spec f Stat.rmse runs hr hf
    refine ⟨⟨s1, fun t => ⟨?_, ?_⟩⟩, ?_⟩
    · rintro ⟨es, hes⟩
      exact List.mem_map.2 ⟨_, (s2 t _ _).2 ⟨es, hes, rfl, rfl⟩, rfl⟩
    · intro ht
      obtain ⟨⟨t', o, p⟩, hm, rfl⟩ := List.mem_map.1 ht
      obtain ⟨es, hes, -⟩ := (s2 t' o p).1 hm
      exact ⟨es, hes⟩
    · intro t o p hm
      obtain ⟨es, hes, rfl, rfl⟩ := (s2 t o p).1 hm
      have hl : es ≠ [] := by
        rintro rfl
        cases hes; exact hr rfl
      exact ⟨es, hes, fresh_rms (by simpa using hl), fresh_rms (by simpa using hl)⟩
  have hrow : (datasetRow segs (some runs)).rmse = perTime Stat.rmse runs.length (gather RunE.ate runs) := by
    unfold datasetRow; simp only [if_neg hr]
  have hrow2 : (datasetRow segs (some runs)).rmse2d = perTime Stat.rmse runs.length (gather RunE.ate2d runs) := by
    unfold datasetRow; simp only [if_neg hr]
  rw [hrow, hrow2]
  exact ⟨fun h => (key _ h).1, fun h => (key _ h).2, fun h => (key _ h).1, fun h => (key _ h).2⟩

/-- **C132.** The normalised errors (NEES): at exactly the times at which every run has one, the mean over the runs; the cell of the table
is the mean over these times, and is empty exactly if there is no such time. -/
theorem C132_nees (segs : List ℝ) (runs : List RunE) (hr : runs ≠ []) (h1 : Spec.OncePerTime RunE.nees runs) :
    let row := datasetRow segs (some runs)
    (row.neesAt.map (·.1)).Pairwise (· < ·) ∧
    (∀ t o p, (t, (o, p)) ∈ row.neesAt ↔ ∃ es, Spec.AllAt RunE.nees runs t es ∧
      o = Spec.mean (es.map (·.1)) ∧ p = Spec.mean (es.map (·.2))) ∧
    (row.nees = none ↔ row.neesAt = []) ∧
    ∀ c, row.nees = some c → c.1 = Spec.mean (row.neesAt.map (·.2.1)) ∧ c.2 = Spec.mean (row.neesAt.map (·.2.2)) := by
  intro row
  obtain ⟨s1, s2⟩ := perTime_spec RunE.nees Stat.mean runs hr h1
  have hrow : row.neesAt = perTime Stat.mean runs.length (gather RunE.nees runs) := by
    simp only [row]; unfold datasetRow; simp only [if_neg hr]
  have hc : row.nees = cell ((Stat.fresh (oris row.neesAt)).calculate, (Stat.fresh (poss row.neesAt)).calculate) := by
    simp only [row]; unfold datasetRow; simp only [if_neg hr]
  refine ⟨by rw [hrow]; exact s1, ?_, ?_, ?_⟩
  · intro t o p
    rw [hrow, s2]
    constructor <;>
    · rintro ⟨es, hes, rfl, rfl⟩
      have hl : es ≠ [] := by
        rintro rfl
        cases hes; exact hr rfl
      exact ⟨es, hes, by rw [fresh_mean (by simpa using hl)], by rw [fresh_mean (by simpa using hl)]⟩
  · rw [hc, cell_calc]
    simp [oris, poss]
  · intro c hcc
    rw [hc, cell_calc] at hcc
    split_ifs at hcc with h
    obtain rfl := Option.some.inj hcc
    exact ⟨rfl, rfl⟩

/-- **C132.** The absolute error of `error_dataset`: empty exactly if there is no run, otherwise the mean over the runs of the root mean
square error of each. -/
theorem C132_dataset_ate (segs : List ℝ) (dir : Option (List RunE)) (hne : ∀ rs, dir = some rs → ∀ r ∈ rs, r.ate ≠ []) :
    ((datasetRow segs dir).ate = none ↔ dir = none ∨ dir = some []) ∧
    ∀ c, (datasetRow segs dir).ate = some c → ∃ runs, dir = some runs ∧ runs ≠ [] ∧ Spec.AteOf RunE.ate runs c := by
  have hn : cell (Stat.fresh [], Stat.fresh []) = none := by unfold cell; exact if_pos (Or.inl rfl)
  cases dir with
  | none =>
    unfold datasetRow
    simp only [hn]
    simp
  | some runs =>
    by_cases hr : runs = []
    · subst hr
      unfold datasetRow
      simp only [hn, if_true]
      simp
    · have hrow : (datasetRow segs (some runs)).ate = cell (overRuns RunE.ate runs) := by
        unfold datasetRow; simp only [if_neg hr]
      obtain ⟨o1, o2⟩ := overRuns_cell RunE.ate runs (hne runs rfl)
      rw [hrow]
      refine ⟨by rw [o1]; simp, fun c hc => ⟨runs, rfl, hr, o2 c hc⟩⟩

theorem sums_eq (l : List (Option (ℝ × ℝ))) :
    sums l = (((l.filterMap id).map (·.1)).sum, ((l.filterMap id).map (·.2)).sum, (l.filterMap id).length) := by
  have key : ∀ (l : List (Option (ℝ × ℝ))) (a b : ℝ) (n : ℕ),
      l.foldl (fun a c => match c with | none => a | some x => (a.1 + x.1, a.2.1 + x.2, a.2.2 + 1)) (a, b, n) =
        (a + ((l.filterMap id).map (·.1)).sum, b + ((l.filterMap id).map (·.2)).sum, n + (l.filterMap id).length) := by
    intro l
    induction l with
    | nil => intro a b n; simp
    | cons c l ih =>
      intro a b n
      cases c with
      | none => simp only [List.foldl_cons, ih]; simp
      | some x =>
        simp only [List.foldl_cons, ih]
        simp [add_assoc, add_comm 1]
  refine (show sums l = _ from key l 0 0 0).trans ?_
  simp

/-- **C132.** A row of `error_comparison`: one cell per dataset, in the order of the datasets; a cell is empty exactly if the algorithm has
no run there, and otherwise the mean over its runs there of the root mean square error of each; the last column is the mean of the cells
that are not empty, and there is none exactly if all are empty. -/
theorem C132_comparison (f : RunE → List (ℝ × (ℝ × ℝ))) (segs : List ℝ) (gts : List String) (dir : String → Option (List RunE))
    (hne : ∀ g rs, dir g = some rs → ∀ r ∈ rs, f r ≠ []) :
    let row := comparisonRow f segs gts dir
    List.Forall₂ (fun g c => match c with
      | none => dir g = none ∨ dir g = some []
      | some c => ∃ runs, dir g = some runs ∧ runs ≠ [] ∧ Spec.AteOf f runs c) gts row.cells ∧
    (row.average = none ↔ ∀ c ∈ row.cells, c = none) ∧
    ∀ a, row.average = some a → a.1 = Spec.mean ((row.cells.filterMap id).map (·.1)) ∧
      a.2 = Spec.mean ((row.cells.filterMap id).map (·.2)) := by
  intro row
  have hcs : row.cells = gts.map fun g => cell (compStat f dir g) := rfl
  have hav : row.average = if (sums row.cells).2.2 = 0 then none else some ((sums row.cells).1 / (sums row.cells).2.2,
      (sums row.cells).2.1 / (sums row.cells).2.2) := rfl
  refine ⟨?_, ?_, ?_⟩
  · rw [hcs, List.forall₂_map_right_iff, List.forall₂_same]
    intro g _
    unfold compStat
    cases hd : dir g with
    | none =>
      have hn : cell (Stat.fresh [], Stat.fresh []) = none := by unfold cell; exact if_pos (Or.inl rfl)
      simp only [hn]
      exact Or.inl trivial
    | some runs =>
      obtain ⟨o1, o2⟩ := overRuns_cell f runs (hne g runs hd)
      dsimp only
      cases hc : cell (overRuns f runs) with
      | none => exact Or.inr (by rw [o1.1 hc])
      | some c =>
        refine ⟨runs, rfl, ?_, o2 c hc⟩
        rintro rfl
        rw [o1.2 rfl] at hc; cases hc
  · rw [hav, sums_eq]
    dsimp only
    have this : (List.filterMap id row.cells).length = 0 ↔ ∀ c ∈ row.cells, c = none := by
      rw [List.length_eq_zero_iff, List.filterMap_eq_nil_iff]; rfl
    rw [← this]
    by_cases h : (List.filterMap id row.cells).length = 0
    · rw [if_pos h]; exact ⟨fun _ => h, fun _ => rfl⟩
    · rw [if_neg h]; exact ⟨fun hc => absurd hc (Option.some_ne_none _), fun hc => absurd hc h⟩
  · intro a ha
    rw [hav, sums_eq] at ha
    dsimp only at ha
    split_ifs at ha with h
    obtain rfl := Option.some.inj ha
    simp only [Spec.mean, List.length_map]
    exact ⟨trivial, trivial⟩

/-- **C132 (part).** The relative errors, in both programs: a cell is the mean of all samples of all runs (of all datasets), each sample
counted once, if there is a sample. -/
theorem C132_relative_partial (d : ℝ) (runs : List RunE) (h : ∃ r ∈ runs, r.rpe d ≠ []) :
    rpeCell d runs = (Spec.mean ((runs.flatMap fun r => r.rpe d).map (·.2.1)), Spec.mean ((runs.flatMap fun r => r.rpe d).map (·.2.2))) := by
  have hne : (runs.flatMap fun r => r.rpe d) ≠ [] := by
    obtain ⟨r, hr, hd⟩ := h
    intro hc
    rw [List.flatMap_eq_nil_iff] at hc
    exact hd (hc r hr)
  have e1 : (runs.flatMap fun r => oris (r.rpe d)) = (runs.flatMap fun r => r.rpe d).map (·.2.1) := by
    rw [List.map_flatMap]; rfl
  have e2 : (runs.flatMap fun r => poss (r.rpe d)) = (runs.flatMap fun r => r.rpe d).map (·.2.2) := by
    rw [List.map_flatMap]; rfl
  unfold rpeCell
  simp only [e1, e2]
  rw [fresh_mean (by simpa using hne), fresh_mean (by simpa using hne)]

/-- which runs the cells of the relative errors are over. -/
theorem C132_relative_runs (f : RunE → List (ℝ × (ℝ × ℝ))) (segs : List ℝ) (gts : List String) (dir : String → Option (List RunE))
    (runs : List RunE) :
    (datasetRow segs (some runs)).rpe = segs.map (fun d => rpeCell d runs) ∧
    (comparisonRow f segs gts dir).rpe = segs.map (fun d => rpeCell d (gts.flatMap fun g => (dir g).getD [])) := by
  refine ⟨?_, rfl⟩
  unfold datasetRow
  by_cases h : runs = []
  · subst h; rfl
  · simp only [if_neg h]

/-- **C132, disagreement.** An algorithm without a single run, or whose runs are all too short for a segment, is shown with relative errors
of zero, the least there can be, where the other table shows it as empty. -/
theorem C132_no_runs_counterexample (segs : List ℝ) :
    (datasetRow segs none).ate = none ∧ (datasetRow segs none).rpe = segs.map (fun _ => (0, 0)) ∧
    ∀ d (runs : List RunE), (∀ r ∈ runs, r.rpe d = []) → rpeCell d runs = (0, 0) := by
  have h0 : (Stat.fresh []).calculate.mean = 0 := by unfold Stat.calculate; simp [Stat.fresh]
  have hz : ∀ d (runs : List RunE), (∀ r ∈ runs, r.rpe d = []) → rpeCell d runs = (0, 0) := by
    intro d runs h
    have e1 : (runs.flatMap fun r => oris (r.rpe d)) = [] := by
      rw [List.flatMap_eq_nil_iff]; intro r hr; rw [h r hr]; rfl
    have e2 : (runs.flatMap fun r => poss (r.rpe d)) = [] := by
      rw [List.flatMap_eq_nil_iff]; intro r hr; rw [h r hr]; rfl
    unfold rpeCell
    simp only [e1, e2, h0]
  refine ⟨?_, ?_, hz⟩
  · have hn : cell (Stat.fresh [], Stat.fresh []) = none := by unfold cell; exact if_pos (Or.inl rfl)
    exact hn
  · unfold datasetRow
    simp only
    exact List.map_congr_left fun d _ => hz d [] (by simp)

/-- **C132.** The hypotheses hold for the evaluations of files: a run has errors, and if the times of the ground truth increase, no run has
two errors at one time. -/
theorem C132_runs (svd : M3 → M3 × V3 × M3) (est gt : List Row) (m : Method) (r : Result) (h : resultTraj svd est gt m = some r)
    (G : Traj Pose M3) (hG : loadData gt = some G) (hinc : G.times.Pairwise (· < ·)) :
    ((runOf r).ate ≠ [] ∧ (runOf r).ate2d ≠ []) ∧
    ((runOf r).ate.map (·.1)).Nodup ∧ ((runOf r).ate2d.map (·.1)).Nodup ∧ ((runOf r).nees.map (·.1)).Nodup := by
  obtain ⟨E, G', l, a, b, hE, hG', h3, hp, hh, -, -, hA, hB, -⟩ := C123_pairs svd est gt m r h
  rw [hG] at hG'
  obtain rfl := Option.some.inj hG'
  obtain ⟨l1, l2, l3⟩ := hh.len
  have hlA : r.estA.length = l.length := by rw [hA, List.length_map, l2]
  have hnd : r.est.times.Nodup := by
    apply List.Pairwise.imp (R := (· < ·)) (fun h => ne_of_lt h)
    rw [List.pairwise_iff_getElem]
    intro i j hi hj hij
    have hij' := (List.pairwise_iff_getElem.1 hp.order) i j (by omega) (by omega) hij
    obtain ⟨⟨t, ht1, ht2⟩, -⟩ := hh.at_ i (l[i]'(by omega)).1 (l[i]'(by omega)).2 (by rw [List.getElem?_eq_getElem (by omega)])
    obtain ⟨⟨t', ht1', ht2'⟩, -⟩ := hh.at_ j (l[j]'(by omega)).1 (l[j]'(by omega)).2 (by rw [List.getElem?_eq_getElem (by omega)])
    obtain ⟨q1, q2⟩ := List.getElem?_eq_some_iff.1 ht1
    obtain ⟨q1', q2'⟩ := List.getElem?_eq_some_iff.1 ht1'
    obtain ⟨u1, u2⟩ := List.getElem?_eq_some_iff.1 ht2
    obtain ⟨u1', u2'⟩ := List.getElem?_eq_some_iff.1 ht2'
    rw [u2, u2', ← q2, ← q2']
    exact (List.pairwise_iff_getElem.1 hinc) _ _ q1 q1' hij'.2
  have hz : ∀ {β : Type} (ys : List β), (r.est.times.zip ys).map Prod.fst |>.Sublist r.est.times := by
    intro β ys
    generalize r.est.times = xs
    induction xs generalizing ys with
    | nil => simp
    | cons x xs ih =>
      cases ys with
      | nil => simp
      | cons y ys => simpa using ih ys
  have hate : (runOf r).ate.length = l.length := by
    simp only [runOf, Eval.ate, List.length_map, List.length_zip]; omega
  have hate2 : (runOf r).ate2d.length = l.length := by
    simp only [runOf, Eval.ate2d, List.length_map, List.length_zip]; omega
  refine ⟨⟨fun hc => by rw [hc] at hate; simp at hate; omega, fun hc => by rw [hc] at hate2; simp at hate2; omega⟩, ?_, ?_, ?_⟩
  · have : (runOf r).ate.map (·.1) = (r.est.times.zip (r.estA.zip r.gt.poses)).map Prod.fst := by
      simp only [runOf, Eval.ate, List.map_map]; rfl
    rw [this]
    exact (hz _).nodup hnd
  · have : (runOf r).ate2d.map (·.1) = (r.est.times.zip (r.estA.zip r.gt.poses)).map Prod.fst := by
      simp only [runOf, Eval.ate2d, List.map_map]; rfl
    rw [this]
    exact (hz _).nodup hnd
  · simp only [runOf]
    have hsub : ∀ L : List (ℝ × (Option ℝ × Option ℝ)),
        ((L.filterMap fun x => x.2.1.bind fun a => x.2.2.map fun b => (x.1, (a, b))).map (·.1)).Sublist (L.map (·.1)) := by
      intro L
      induction L with
      | nil => simp
      | cons x L ih =>
        obtain ⟨t, o, p⟩ := x
        cases o with
        | none => simpa using ih.trans (List.sublist_cons_self _ _)
        | some o =>
          cases p with
          | none => simpa using ih.trans (List.sublist_cons_self _ _)
          | some p => simpa using ih
    refine (hsub _).nodup ?_
    unfold Eval.nees
    split_ifs with hc
    · simp
    · simp only [Option.getD_some, List.map_map]
      exact (hz _).nodup hnd

/-- Two runs, the second without an error at time 2: the error over time has times 1 and 3 only. -/
example : ∃ runs : List RunE, runs.length = 2 ∧ Spec.OncePerTime RunE.ate runs ∧ (∀ r ∈ runs, r.ate ≠ []) ∧
    (∃ es, Spec.AllAt RunE.ate runs 1 es) ∧ ¬ ∃ es, Spec.AllAt RunE.ate runs 2 es := by
  refine ⟨[⟨[(1, (1, 1)), (2, (1, 1)), (3, (1, 1))], [], [], fun _ => []⟩, ⟨[(1, (2, 0)), (3, (0, 2))], [], [], fun _ => []⟩], rfl, ?_, ?_, ?_, ?_⟩
  · intro r hr
    simp only [List.mem_cons, List.not_mem_nil, or_false] at hr
    rcases hr with rfl | rfl <;> norm_num
  · intro r hr
    simp only [List.mem_cons, List.not_mem_nil, or_false] at hr
    rcases hr with rfl | rfl <;> simp
  · exact ⟨[(1, 1), (2, 0)], by simp [Spec.AllAt]⟩
  · rintro ⟨es, hes⟩
    cases hes with
    | cons _ h2 =>
      cases h2 with
      | cons h3 _ => simp at h3

end Verif.Eval
