import Verif.Track.Desc
import Verif.Track.KltLemmas

/-!
# The descriptor tracker keeps its matches one to one and its ids apart (C115)
-/

set_option autoImplicit false

namespace Verif.Track

namespace Spec

/-- what OpenCV's `knnMatch` guarantees: one row per query descriptor, with its index, and train indices in range -/
def KnnOk (n0 n1 : ℕ) (k : Knn) : Prop :=
  (∀ (i : ℕ) (row : List DM), k.fwd[i]? = some row → i < n0 ∧ ∀ m ∈ row, m.q = i ∧ m.t < n1) ∧
  (∀ (i : ℕ) (row : List DM), k.bwd[i]? = some row → i < n1 ∧ ∀ m ∈ row, m.q = i ∧ m.t < n0)

/-- row `i` of the answer: the nearest neighbour is `j`, there is a second one, and the nearest passes the ratio test -/
def Best (r : ℚ) (rows : List (List DM)) (i j : ℕ) : Prop := ∃ a b l, rows[i]? = some (a :: b :: l) ∧ a.t = j ∧ a.d / b.d ≤ r

/-- `i` and `j` are each other's nearest neighbour, unambiguously -/
def Mutual (r : ℚ) (k : Knn) (i j : ℕ) : Prop := Best r k.fwd i j ∧ Best r k.bwd j i

end Spec

open Spec

/-! ## Matching -/

theorem ratio_row {r : ℚ} {rows : List (List DM)} {i : ℕ} {a b : DM} {l : List DM} :
    (ratioTest r rows)[i]? = some (a :: b :: l) ↔ rows[i]? = some (a :: b :: l) ∧ a.d / b.d ≤ r := by
  unfold ratioTest
  rw [List.getElem?_map, Option.map_eq_some_iff]
  constructor
  · rintro ⟨row, h, e⟩
    rcases row with _ | ⟨x, _ | ⟨y, t⟩⟩
    · simp at e
    · simp at e
    · simp only at e
      split_ifs at e with c
      rw [← e]; simp only [List.cons.injEq] at e; obtain ⟨rfl, rfl, rfl⟩ := e
      exact ⟨h, not_lt.mp c⟩
  · rintro ⟨h, c⟩
    exact ⟨_, h, by simp [not_lt.mpr c]⟩

/-- the row of a match -/
theorem symPick_some {ms2 : List (List DM)} {row : List DM} {m : DM} :
    symPick ms2 row = some m ↔ (∃ b l, row = m :: b :: l) ∧ ∃ (j : ℕ) (c d : DM) (l' : List DM), ms2[j]? = some (c :: d :: l') ∧ m.q = c.t ∧ c.q = m.t := by
  rcases row with _ | ⟨x, _ | ⟨y, t⟩⟩
  · simp [symPick]
  · simp [symPick]
  · simp only [symPick, Option.ite_none_right_eq_some, Option.some.injEq, List.any_eq_true]
    constructor
    · rintro ⟨⟨row2, h1, h2⟩, rfl⟩
      refine ⟨⟨y, t, rfl⟩, ?_⟩
      rcases row2 with _ | ⟨c, _ | ⟨d, l'⟩⟩
      · simp at h2
      · simp at h2
      · obtain ⟨j, hj⟩ := List.mem_iff_getElem?.mp h1
        simp only [Bool.and_eq_true, beq_iff_eq] at h2
        exact ⟨j, c, d, l', hj, h2⟩
    · rintro ⟨⟨b, l, e⟩, j, c, d, l', hj, h⟩
      simp only [List.cons.injEq] at e
      obtain ⟨rfl, rfl, rfl⟩ := e
      exact ⟨⟨_, List.mem_of_getElem? hj, by simp [h]⟩, rfl⟩

theorem symmetry_mem {n0 n1 : ℕ} {r : ℚ} {k : Knn} (hk : KnnOk n0 n1 k) (m : DM) :
    m ∈ symmetryTest (ratioTest r k.fwd) (ratioTest r k.bwd) ↔ Mutual r k m.q m.t ∧ ∃ l, k.fwd[m.q]? = some (m :: l) := by
  unfold symmetryTest
  rw [List.mem_filterMap]
  constructor
  · rintro ⟨row, h, e⟩
    obtain ⟨⟨b, l, rfl⟩, j, c, d, l', hj, e1, e2⟩ := symPick_some.mp e
    obtain ⟨i, hi⟩ := List.mem_iff_getElem?.mp h
    obtain ⟨h1, h2⟩ := ratio_row.mp hi
    obtain ⟨g1, g2⟩ := ratio_row.mp hj
    have q1 := ((hk.1 i _ h1).2 m (by simp)).1
    have q2 := ((hk.2 j _ g1).2 c (by simp)).1
    subst q1
    have : j = m.t := by omega
    subst this
    exact ⟨⟨⟨m, b, l, h1, rfl, h2⟩, c, d, l', g1, e1.symm, g2⟩, _, h1⟩
  · rintro ⟨⟨⟨a, b, l, h1, e1, c1⟩, c, d, l', g1, e2, c2⟩, l2, h2⟩
    rw [h1, Option.some.injEq, List.cons.injEq] at h2
    obtain ⟨rfl, rfl⟩ := h2
    refine ⟨a :: b :: l, List.mem_of_getElem? (ratio_row.mpr ⟨h1, c1⟩), symPick_some.mpr ⟨⟨b, l, rfl⟩, a.t, c, d, l', ratio_row.mpr ⟨g1, c2⟩, e2.symm, ?_⟩⟩
    exact ((hk.2 _ _ g1).2 c (by simp)).1

/-- the query indices increase, so they are distinct -/
theorem symmetry_qnodup {n0 n1 : ℕ} {r : ℚ} {k : Knn} (hk : KnnOk n0 n1 k) : ((symmetryTest (ratioTest r k.fwd) (ratioTest r k.bwd)).map DM.q).Nodup := by
  have key : ∀ (rows : List (List DM)) (s : ℕ), (∀ (i : ℕ) (row : List DM), rows[i]? = some row → ∀ m ∈ row, m.q = s + i) → ∀ ms2 : List (List DM),
      ((rows.filterMap (symPick ms2)).map DM.q).Nodup ∧ ∀ q ∈ (rows.filterMap (symPick ms2)).map DM.q, s ≤ q := by
    intro rows
    induction rows with
    | nil => intro s _ ms2; simp
    | cons row rows ih =>
      intro s h ms2
      obtain ⟨h1, h2⟩ := ih (s + 1) (fun i row' e m hm => by have := h (i + 1) row' (by simpa using e) m hm; omega) ms2
      rw [List.filterMap_cons]
      cases e : symPick ms2 row with
      | none => exact ⟨h1, fun q hq => by have := h2 q hq; omega⟩
      | some m =>
        obtain ⟨⟨b, l, rfl⟩, -⟩ := symPick_some.mp e
        have hq := h 0 _ rfl m (by simp)
        simp only [List.map_cons, List.nodup_cons]
        refine ⟨⟨fun hm => by have := h2 _ hm; omega, h1⟩, ?_⟩
        intro q hm
        rcases List.mem_cons.mp hm with rfl | hm
        · omega
        · have := h2 q hm; omega
  refine (key _ 0 ?_ _).1
  intro i row e m hm
  unfold ratioTest at e
  rw [List.getElem?_map, Option.map_eq_some_iff] at e
  obtain ⟨row0, e0, e⟩ := e
  have : m ∈ row0 := by
    rcases row0 with _ | ⟨x, _ | ⟨y, t⟩⟩
    · simp at e; subst e; simp at hm
    · simp at e; subst e; simp at hm
    · simp only at e
      split_ifs at e
      · subst e; simp at hm
      · subst e; exact hm
  have := ((hk.1 i row0 e0).2 m this).1
  omega

theorem best_unique {r : ℚ} {rows : List (List DM)} {i j j' : ℕ} (h : Best r rows i j) (h' : Best r rows i j') : j = j' := by
  obtain ⟨a, b, l, e, rfl, -⟩ := h
  obtain ⟨a', b', l', e', rfl, -⟩ := h'
  rw [e, Option.some.injEq, List.cons.injEq] at e'
  rw [e'.1]

theorem symmetry_tnodup {n0 n1 : ℕ} {r : ℚ} {k : Knn} (hk : KnnOk n0 n1 k) : ((symmetryTest (ratioTest r k.fwd) (ratioTest r k.bwd)).map DM.t).Nodup := by
  have hq := symmetry_qnodup (r := r) hk
  have hq' := hq
  rw [List.nodup_map_iff_inj_on (List.Nodup.of_map _ hq)] at hq'
  rw [List.nodup_map_iff_inj_on (List.Nodup.of_map _ hq)]
  intro x hx y hy e
  apply hq' x hx y hy
  have hx' := ((symmetry_mem hk x).mp hx).1.2
  have hy' := ((symmetry_mem hk y).mp hy).1.2
  rw [e] at hx'
  exact best_unique hx' hy'

/-- **C115 (matching).** For every answer of OpenCV: the matching completes; there is a one-to-one list of pairs that are exactly those of mutual unambiguous nearest neighbours; with fewer than ten of them the result is empty, otherwise it
consists of those that RANSAC accepts. -/
theorem C115_matching (r : ℚ) (n0 n1 : ℕ) (k : Knn) (hk : KnnOk n0 n1 k) :
    ∃ good : List (ℕ × ℕ), (good.map Prod.fst).Nodup ∧ (good.map Prod.snd).Nodup ∧ (∀ i j, (i, j) ∈ good ↔ Mutual r k i j) ∧
      ∃ ms, robustMatch r n0 n1 k = some ms ∧
        (good.length < 10 → ms = []) ∧ (10 ≤ good.length → ∀ i j, (i, j) ∈ ms.map (fun m => (m.q, m.t)) ↔ ∃ n, good[n]? = some (i, j) ∧ k.ransac n = true) ∧
        (ms.map DM.q).Nodup ∧ (ms.map DM.t).Nodup ∧ ∀ m ∈ ms, m.q < n0 ∧ m.t < n1 := by
  set g := symmetryTest (ratioTest r k.fwd) (ratioTest r k.bwd) with hg
  have hmem := symmetry_mem (r := r) hk
  rw [← hg] at hmem
  have hq := symmetry_qnodup (r := r) hk
  have ht := symmetry_tnodup (r := r) hk
  rw [← hg] at hq ht
  have hb : ∀ m ∈ g, m.q < n0 ∧ m.t < n1 := by
    intro m hm
    obtain ⟨-, l, e⟩ := (hmem m).mp hm
    have := hk.1 _ _ e
    exact ⟨this.1, (this.2 m (by simp)).2⟩
  have hall : g.all (fun m => decide (m.q < n0) && decide (m.t < n1)) = true := by
    rw [List.all_eq_true]; intro m hm; have := hb m hm; simp [this]
  have hf : ∀ f : ℕ → Bool, ((g.zipIdx.filter fun e => f e.2).map Prod.fst).Sublist g := by
    intro f
    have h1 : ((g.zipIdx.filter fun e => f e.2).map Prod.fst).Sublist (g.zipIdx.map Prod.fst) := List.filter_sublist.map _
    simpa using h1
  refine ⟨g.map fun m => (m.q, m.t), by simpa [List.map_map, Function.comp_def] using hq, by simpa [List.map_map, Function.comp_def] using ht, ?_, ?_⟩
  · intro i j
    rw [List.mem_map]
    constructor
    · rintro ⟨m, hm, e⟩
      simp only [Prod.mk.injEq] at e
      obtain ⟨rfl, rfl⟩ := e
      exact ((hmem m).mp hm).1
    · intro h
      obtain ⟨a, b, l, e, rfl, c⟩ := h.1
      have hqa := ((hk.1 _ _ e).2 a (by simp)).1
      subst hqa
      exact ⟨a, (hmem a).mpr ⟨h, _, e⟩, rfl⟩
  · rw [List.length_map]
    unfold robustMatch
    simp only [← hg, hall, Bool.not_true, Bool.false_eq_true, if_false]
    split_ifs with c
    · exact ⟨[], rfl, fun _ => rfl, fun h => absurd c (not_lt.mpr h), by simp, by simp, by simp⟩
    · refine ⟨_, rfl, fun h => absurd h c, fun _ i j => ?_, hq.sublist ((hf _).map _), ht.sublist ((hf _).map _), fun m hm => hb m ((hf _).subset hm)⟩
      simp only [List.mem_map, List.mem_filter, Prod.exists, List.getElem?_map, Option.map_eq_some_iff, Prod.mk.injEq, exists_and_right, exists_eq_right, List.mem_zipIdx_iff_getElem?]
      constructor
      · rintro ⟨m, ⟨n, h1, h2⟩, rfl, rfl⟩; exact ⟨n, ⟨m, h1, rfl, rfl⟩, h2⟩
      · rintro ⟨n, ⟨m, h1, rfl, rfl⟩, h2⟩; exact ⟨m, ⟨n, h1, h2⟩, rfl, rfl⟩

/-! ## Ids -/

theorem lastQ_mem {ms : List DM} (hn : (ms.map DM.t).Nodup) (i q : ℕ) : lastQ ms i = some q ↔ (q, i) ∈ ms.map fun m => (m.q, m.t) := by
  have key : ∀ (ms : List DM) (acc : Option ℕ), (ms.map DM.t).Nodup → (ms.foldl (fun acc m => if m.t = i then some m.q else acc) acc = some q ↔
      ((∃ m ∈ ms, m.t = i ∧ m.q = q) ∨ ((∀ m ∈ ms, m.t ≠ i) ∧ acc = some q))) := by
    intro ms
    induction ms with
    | nil => intro acc _; simp
    | cons a ms ih =>
      intro acc hn
      rw [List.map_cons, List.nodup_cons] at hn
      rw [List.foldl_cons, ih _ hn.2]
      by_cases h : a.t = i
      · have hnot : ∀ m ∈ ms, m.t ≠ i := fun m hm e => hn.1 (List.mem_map.mpr ⟨m, hm, by rw [e, h]⟩)
        simp only [h, if_true, List.mem_cons, exists_eq_or_imp, forall_eq_or_imp, true_and, ne_eq, not_true, false_and, or_false, Option.some.injEq]
        constructor
        · rintro (h' | ⟨-, e⟩)
          · exact Or.inr h'
          · exact Or.inl e
        · rintro (e | h')
          · exact Or.inr ⟨hnot, e⟩
          · exact Or.inl h'
      · simp [h]
  unfold lastQ
  rw [key ms none hn]
  simp only [List.mem_map, Prod.mk.injEq, reduceCtorEq, and_false, or_false]
  constructor
  · rintro ⟨m, h1, h2, h3⟩; exact ⟨m, h1, h3, h2⟩
  · rintro ⟨m, h1, h2, h3⟩; exact ⟨m, h1, h3, h2⟩

theorem lastQ_inj {ms : List DM} (hn : (ms.map DM.t).Nodup) (hq : (ms.map DM.q).Nodup) {i j q : ℕ} (h : lastQ ms i = some q) (h' : lastQ ms j = some q) : i = j := by
  rw [lastQ_mem hn, List.mem_map] at h h'
  obtain ⟨m, h1, e⟩ := h
  obtain ⟨m', h1', e'⟩ := h'
  simp only [Prod.mk.injEq] at e e'
  have : m = m' := (List.nodup_map_iff_inj_on (List.Nodup.of_map _ hq)).mp hq m h1 m' h1' (by rw [e.1, e'.1])
  rw [← e.2, ← e'.2, this]

theorem mergeMono_spec (old : List ℕ) (ms : List DM) (hb : ∀ i q, lastQ ms i = some q → q < old.length) : ∀ (ns : List ℕ) (s : ℕ),
    ∃ ids, mergeMono old ms s ns = some ids ∧ ids.length = ns.length ∧
      ∀ j id, ids[j]? = some id → ((∃ q, lastQ ms (s + j) = some q ∧ old[q]? = some id) ∨ (lastQ ms (s + j) = none ∧ ns[j]? = some id)) := by
  intro ns
  induction ns with
  | nil => intro s; exact ⟨[], rfl, rfl, by simp⟩
  | cons n ns ih =>
    intro s
    obtain ⟨ids, h1, h2, h3⟩ := ih (s + 1)
    have hx : ∃ x, pickMono old ms s n = some x ∧ ((∃ q, lastQ ms s = some q ∧ old[q]? = some x) ∨ (lastQ ms s = none ∧ n = x)) := by
      unfold pickMono
      cases e : lastQ ms s with
      | none => exact ⟨n, rfl, Or.inr ⟨rfl, rfl⟩⟩
      | some q => exact ⟨old[q]'(hb s q e), by simp [hb s q e], Or.inl ⟨q, rfl, by simp [hb s q e]⟩⟩
    obtain ⟨x, hx1, hx2⟩ := hx
    refine ⟨x :: ids, by simp only [mergeMono, hx1, h1, Option.bind_some, Option.map_some], by simp [h2], ?_⟩
    intro j id hj
    cases j with
    | zero => simp only [List.getElem?_cons_zero, Option.some.injEq] at hj ⊢; subst hj; simpa using hx2
    | succ j =>
      simp only [List.getElem?_cons_succ] at hj ⊢
      have := h3 j id hj
      rwa [show s + 1 + j = s + (j + 1) by omega] at this

theorem mergeStereo_spec (oldL oldR : List ℕ) (mL mR : List DM) (hl : ∀ i q, lastQ mL i = some q → q < oldL.length) (hr : ∀ i q, lastQ mR i = some q → q < oldR.length) : ∀ (ns : List ℕ) (s : ℕ),
    ∃ ids, mergeStereo oldL oldR mL mR s ns = some ids ∧ ids.length = ns.length ∧
      ∀ j id, ids[j]? = some id → ((∃ a b, lastQ mL (s + j) = some a ∧ lastQ mR (s + j) = some b ∧ oldL[a]? = some id ∧ oldR[b]? = some id) ∨
        (ns[j]? = some id ∧ ¬ ∃ a b x, lastQ mL (s + j) = some a ∧ lastQ mR (s + j) = some b ∧ oldL[a]? = some x ∧ oldR[b]? = some x)) := by
  intro ns
  induction ns with
  | nil => intro s; exact ⟨[], rfl, rfl, by simp⟩
  | cons n ns ih =>
    intro s
    obtain ⟨ids, h1, h2, h3⟩ := ih (s + 1)
    have hx : ∃ x, pickStereo oldL oldR mL mR s n = some x ∧ ((∃ a b, lastQ mL s = some a ∧ lastQ mR s = some b ∧ oldL[a]? = some x ∧ oldR[b]? = some x) ∨
        (n = x ∧ ¬ ∃ a b x, lastQ mL s = some a ∧ lastQ mR s = some b ∧ oldL[a]? = some x ∧ oldR[b]? = some x)) := by
      unfold pickStereo
      cases e : lastQ mL s with
      | none => exact ⟨n, rfl, Or.inr ⟨rfl, by simp⟩⟩
      | some a => cases e' : lastQ mR s with
        | none => exact ⟨n, rfl, Or.inr ⟨rfl, by simp⟩⟩
        | some b =>
          have ga : oldL[a]? = some (oldL[a]'(hl s a e)) := by simp [hl s a e]
          have gb : oldR[b]? = some (oldR[b]'(hr s b e')) := by simp [hr s b e']
          simp only [ga, gb, Option.bind_some, Option.map_some]
          split_ifs with c
          · exact ⟨_, rfl, Or.inl ⟨a, b, rfl, rfl, ga, by rw [gb, c]⟩⟩
          · refine ⟨n, rfl, Or.inr ⟨rfl, ?_⟩⟩
            rintro ⟨a', b', x, h1, h2, h3, h4⟩
            rw [Option.some.injEq] at h1 h2
            subst h1 h2
            rw [ga, Option.some.injEq] at h3
            rw [gb, Option.some.injEq] at h4
            exact c (h3.trans h4.symm)
    obtain ⟨x, hx1, hx2⟩ := hx
    refine ⟨x :: ids, by simp only [mergeStereo, hx1, h1, Option.bind_some, Option.map_some], by simp [h2], ?_⟩
    intro j id hj
    cases j with
    | zero => simp only [List.getElem?_cons_zero, Option.some.injEq] at hj ⊢; subst hj; simpa using hx2
    | succ j =>
      simp only [List.getElem?_cons_succ] at hj ⊢
      have := h3 j id hj
      rwa [show s + 1 + j = s + (j + 1) by omega] at this

theorem nodup_of_getElem? {l : List ℕ} (h : ∀ i j x : ℕ, l[i]? = some x → l[j]? = some x → i = j) : l.Nodup := by
  rw [List.nodup_iff_injective_getElem]
  intro a b e
  have := h a.1 b.1 (l.get a) (by simp) (by simp only at e; simp [e])
  exact Fin.ext this

theorem getElem?_inj_of_nodup {l : List ℕ} (h : l.Nodup) {i j x : ℕ} (hi : l[i]? = some x) (hj : l[j]? = some x) : i = j := by
  obtain ⟨h1, rfl⟩ := List.getElem?_eq_some_iff.mp hi
  obtain ⟨h2, e⟩ := List.getElem?_eq_some_iff.mp hj
  exact ((List.Nodup.getElem_inj_iff h).mp e).symm

/-- **C115 (one camera).** For every image and answers of OpenCV: the call completes; the new lists are paired and the ids distinct; a point keeps the id of the old point it was matched to and gets a fresh id otherwise; all points are stored
as observations, except in the first image. -/
theorem C115_one_camera (cfg : TCfg) (r : ℚ) (c : Cam) (x : DMono) (fresh : List ℕ) (hl : c.pts.length = c.ids.length) (hn : c.ids.Nodup) (hf : fresh.Nodup) (hd : ∀ i ∈ fresh, i ∉ c.ids)
    (hlen : fresh.length = (detectDesc cfg x.img [] x.ext).length) (hk : c.pts ≠ [] → KnnOk c.pts.length (detectDesc cfg x.img [] x.ext).length x.knn) :
    ∃ c' obs, feedDescMono cfg r c x fresh = some (c', obs) ∧ c'.pts = detectDesc cfg x.img [] x.ext ∧ c'.pts.length = c'.ids.length ∧ c'.ids.Nodup ∧ c'.img = x.img ∧
      (c.pts = [] → c'.ids = fresh ∧ obs = []) ∧
      (c.pts ≠ [] → obs = c'.ids.zip c'.pts ∧ ∃ ms, robustMatch r c.pts.length c'.pts.length x.knn = some ms ∧
        ∀ j id, c'.ids[j]? = some id → ((∃ q, (q, j) ∈ ms.map (fun m => (m.q, m.t)) ∧ c.ids[q]? = some id) ∨ ((∀ m ∈ ms, m.t ≠ j) ∧ fresh[j]? = some id))) := by
  unfold feedDescMono
  simp only [hlen, ne_eq, not_true, if_false]
  by_cases he : c.pts = []
  · simp only [he, List.isEmpty_nil, if_true]
    exact ⟨_, _, rfl, rfl, hlen.symm, hf, rfl, fun _ => ⟨rfl, rfl⟩, fun h => absurd trivial h⟩
  · obtain ⟨good, -, -, -, ms, hm, -, -, hq, ht, hb⟩ := C115_matching r _ _ _ (hk he)
    obtain ⟨ids, h1, h2, h3⟩ := mergeMono_spec c.ids ms (fun i q h => by
      rw [lastQ_mem ht, List.mem_map] at h
      obtain ⟨m, hmm, e⟩ := h
      simp only [Prod.mk.injEq] at e
      rw [← hl, ← e.1]; exact (hb m hmm).1) fresh 0
    have hemp : c.pts.isEmpty = false := by simpa using he
    simp only [hemp, Bool.false_eq_true, if_false, hm, h1, Option.bind_eq_bind, Option.bind_some]
    simp only [Nat.zero_add] at h3
    refine ⟨_, _, rfl, rfl, by simp [h2, hlen], ?_, rfl, fun h => absurd h he, fun _ => ⟨rfl, ms, hm, ?_⟩⟩
    · apply nodup_of_getElem?
      intro i j y hi hj
      rcases h3 i y hi with ⟨q, e1, e2⟩ | ⟨e1, e2⟩ <;> rcases h3 j y hj with ⟨q', f1, f2⟩ | ⟨f1, f2⟩
      · have := getElem?_inj_of_nodup hn e2 f2
        subst this
        exact lastQ_inj ht hq e1 f1
      · exact absurd (List.mem_of_getElem? e2) (hd _ (List.mem_of_getElem? f2))
      · exact absurd (List.mem_of_getElem? f2) (hd _ (List.mem_of_getElem? e2))
      · exact getElem?_inj_of_nodup hf e2 f2
    · intro j id hj
      refine (h3 j id hj).imp (fun ⟨q, e1, e2⟩ => ⟨q, (lastQ_mem ht j q).mp e1, e2⟩) (fun ⟨e1, e2⟩ => ⟨fun m hm' e => ?_, e2⟩)
      have := (lastQ_mem ht j m.q).mpr (List.mem_map.mpr ⟨m, hm', by rw [e]⟩)
      rw [e1] at this
      simp at this

theorem pairNew_some (cfg : TCfg) (IL IR : Img) (extL extR : List Pt) : ∀ ms : List DM, (∀ m ∈ ms, m.q < extL.length ∧ m.t < extR.length) →
    ∃ prs, pairNew cfg IL IR extL extR ms = some prs ∧ (∀ e ∈ prs, ∃ m ∈ ms, extL[m.q]? = some e.1 ∧ extR[m.t]? = some e.2 ∧ boundsOk cfg IL IL e.1 = true ∧ boundsOk cfg IR IL e.2 = true) := by
  intro ms
  induction ms with
  | nil => intro _; exact ⟨[], rfl, by simp⟩
  | cons m ms ih =>
    intro h
    obtain ⟨prs, h1, h2⟩ := ih fun a ha => h a (by simp [ha])
    obtain ⟨b1, b2⟩ := h m (by simp)
    have g1 : extL[m.q]? = some (extL[m.q]'b1) := by simp [b1]
    have g2 : extR[m.t]? = some (extR[m.t]'b2) := by simp [b2]
    have h2' : ∀ e ∈ prs, ∃ m' ∈ m :: ms, extL[m'.q]? = some e.1 ∧ extR[m'.t]? = some e.2 ∧ boundsOk cfg IL IL e.1 = true ∧ boundsOk cfg IR IL e.2 = true :=
      fun e he => by obtain ⟨m', hm', h⟩ := h2 e he; exact ⟨m', by simp [hm'], h⟩
    simp only [pairNew, g1, g2, h1]
    split_ifs with c
    · refine ⟨_, rfl, ?_⟩
      intro e he
      rcases List.mem_cons.mp he with rfl | he
      · rw [Bool.and_eq_true] at c
        exact ⟨m, by simp, g1, g2, c⟩
      · exact h2' e he
    · exact ⟨_, rfl, h2'⟩

/-- the pairs of points `feed_stereo` finds in new images -/
def newPairs (cfg : TCfg) (r : ℚ) (x : DStereo) : Option (List (Pt × Pt)) :=
  (robustMatch r x.extL.length x.extR.length x.lr).bind fun m0 => pairNew cfg x.imgL x.imgR x.extL x.extR m0

/-- **C115 (two cameras).** For every pair of images and answers of OpenCV: the call completes; every point of the left image is paired with one of the right image, with the same id; ids are distinct; a pair keeps an id exactly if both its
points were matched to old points of that id, and gets a fresh one otherwise; all points are stored as observations, except in the first image. -/
theorem C115_two_cameras (cfg : TCfg) (r : ℚ) (cl cr : Cam) (cur : ℕ) (x : DStereo) (hl : cl.pts.length = cl.ids.length) (hn : cl.ids.Nodup) (hcur : ∀ i ∈ cl.ids, i ≤ cur) (hs : cl.ids = cr.ids)
    (hr : cr.pts.length = cr.ids.length) (h0 : KnnOk x.extL.length x.extR.length x.lr)
    (hk : ∀ prs, newPairs cfg r x = some prs → cl.pts ≠ [] → KnnOk cl.pts.length prs.length x.ll ∧ KnnOk cr.pts.length prs.length x.rr) :
    ∃ o prs, feedDescStereo cfg r cl cr cur x = some o ∧ newPairs cfg r x = some prs ∧ o.cl.pts = prs.map Prod.fst ∧ o.cr.pts = prs.map Prod.snd ∧ o.cl.ids = o.cr.ids ∧ o.cl.ids.length = prs.length ∧ o.cl.ids.Nodup ∧
      o.cur = cur + prs.length ∧ (∀ i ∈ o.cl.ids, i ∈ cl.ids ∨ (cur < i ∧ i ≤ o.cur)) ∧
      (cl.pts = [] → o.obs = []) ∧
      (cl.pts ≠ [] → o.obs = o.cl.ids.zip prs ∧ ∃ mL mR, robustMatch r cl.pts.length prs.length x.ll = some mL ∧ robustMatch r cr.pts.length prs.length x.rr = some mR ∧
        ∀ j id, o.cl.ids[j]? = some id → ((∃ a b, (a, j) ∈ mL.map (fun m => (m.q, m.t)) ∧ (b, j) ∈ mR.map (fun m => (m.q, m.t)) ∧ cl.ids[a]? = some id ∧ cr.ids[b]? = some id) ∨ cur < id)) := by
  obtain ⟨-, -, -, -, m0, hm0, -, -, -, -, hb0⟩ := C115_matching r _ _ _ h0
  obtain ⟨prs, hp, -⟩ := pairNew_some cfg x.imgL x.imgR x.extL x.extR m0 hb0
  have hnp : newPairs cfg r x = some prs := by simp only [newPairs, hm0, Option.bind_some, hp]
  have hfn : ((List.range prs.length).map fun k => cur + 1 + k).Nodup := List.nodup_range.map (fun a b h => by simpa using h)
  have hfr : ∀ i ∈ (List.range prs.length).map (fun k => cur + 1 + k), cur < i ∧ i ≤ cur + prs.length := by
    intro i hi
    obtain ⟨k, hk, rfl⟩ := List.mem_map.mp hi
    have := List.mem_range.mp hk
    omega
  have hemp : cl.pts = [] ↔ cr.pts = [] := by
    rw [← List.length_eq_zero_iff, ← List.length_eq_zero_iff, hl, hr, hs]
  unfold feedDescStereo
  simp only [hm0, hp, Option.bind_eq_bind, Option.bind_some]
  by_cases he : cl.pts = []
  · simp only [he, List.isEmpty_nil, Bool.true_or, if_true]
    exact ⟨_, prs, rfl, hnp, rfl, rfl, rfl, by simp, hfn, rfl, fun i hi => Or.inr (hfr i hi), fun _ => rfl, fun h => absurd rfl h⟩
  · have he' : ¬ cr.pts = [] := fun h => he (hemp.mpr h)
    obtain ⟨kL, kR⟩ := hk prs hnp he
    obtain ⟨-, -, -, -, mL, hmL, -, -, qL, tL, bL⟩ := C115_matching r _ _ _ kL
    obtain ⟨-, -, -, -, mR, hmR, -, -, qR, tR, bR⟩ := C115_matching r _ _ _ kR
    obtain ⟨ids, h1, h2, h3⟩ := mergeStereo_spec cl.ids cr.ids mL mR
      (fun i q h => by
        rw [lastQ_mem tL, List.mem_map] at h
        obtain ⟨m, hmm, e⟩ := h
        simp only [Prod.mk.injEq] at e
        rw [← hl, ← e.1]; exact (bL m hmm).1)
      (fun i q h => by
        rw [lastQ_mem tR, List.mem_map] at h
        obtain ⟨m, hmm, e⟩ := h
        simp only [Prod.mk.injEq] at e
        rw [← hr, ← e.1]; exact (bR m hmm).1) ((List.range prs.length).map fun k => cur + 1 + k) 0
    simp only [Nat.zero_add] at h3
    have e1 : cl.pts.isEmpty = false := by simpa using he
    have e2 : cr.pts.isEmpty = false := by simpa using he'
    have e3 : cl.pts.length = cr.pts.length := by rw [hl, hr, hs]
    simp only [e1, e2, Bool.or_self, Bool.false_eq_true, if_false, hmL, hmR, Option.bind_some, e3, ne_eq, not_true]
    rw [e3] at hmL
    simp only [hmL, Option.bind_some, h1]
    refine ⟨_, prs, rfl, hnp, rfl, rfl, rfl, by simp [h2], ?_, rfl, ?_, fun h => absurd h he, fun _ => ⟨rfl, mL, mR, hmL, hmR, ?_⟩⟩
    · apply nodup_of_getElem?
      intro i j y hi hj
      rcases h3 i y hi with ⟨a, b, p1, p2, p3, p4⟩ | ⟨p1, -⟩ <;> rcases h3 j y hj with ⟨a', b', q1, q2, q3, q4⟩ | ⟨q1', -⟩
      · have := getElem?_inj_of_nodup hn p3 q3
        subst this
        exact lastQ_inj tL qL p1 q1
      · have := hcur _ (List.mem_of_getElem? p3); have := (hfr _ (List.mem_of_getElem? q1')).1; omega
      · have := hcur _ (List.mem_of_getElem? q3); have := (hfr _ (List.mem_of_getElem? p1)).1; omega
      · exact getElem?_inj_of_nodup hfn p1 q1'
    · intro i hi
      obtain ⟨j, hj⟩ := List.mem_iff_getElem?.mp hi
      rcases h3 j i hj with ⟨a, b, -, -, p3, -⟩ | ⟨p1, -⟩
      · exact Or.inl (List.mem_of_getElem? p3)
      · exact Or.inr (hfr _ (List.mem_of_getElem? p1))
    · intro j id hj
      rcases h3 j id hj with ⟨a, b, p1, p2, p3, p4⟩ | ⟨p1, -⟩
      · exact Or.inl ⟨a, b, (lastQ_mem tL j a).mp p1, (lastQ_mem tR j b).mp p2, p3, p4⟩
      · exact Or.inr (hfr _ (List.mem_of_getElem? p1)).1

/-! ## Histories -/

namespace Spec

/-- a message a tracker in monocular mode (`none`) or in stereo mode with two cameras may be given -/
def DMsgOk (cfg : TCfg) (r : ℚ) (mode : Option (ℕ × ℕ)) (T : DTracker) : DMsg → Prop
  | .mono xs sched => mode = none ∧ (xs.map DMono.cam).Nodup ∧ ∀ (j : ℕ) (x : DMono), xs[j]? = some x → sched.count j = (detectDesc cfg x.img [] x.ext).length ∧
      ((T.cam x.cam).pts ≠ [] → KnnOk (T.cam x.cam).pts.length (detectDesc cfg x.img [] x.ext).length x.knn)
  | .stereo a b x => mode = some (a, b) ∧ a ≠ b ∧ KnnOk x.extL.length x.extR.length x.lr ∧
      ∀ prs, newPairs cfg r x = some prs → (T.cam a).pts ≠ [] → KnnOk (T.cam a).pts.length prs.length x.ll ∧ KnnOk (T.cam b).pts.length prs.length x.rr

inductive DReach (cfg : TCfg) (r : ℚ) (numAruco : ℕ) (mode : Option (ℕ × ℕ)) : DTracker → Prop
  | init : DReach cfg r numAruco mode (DTracker.init numAruco)
  | step {T T' : DTracker} {m : DMsg} {obs : List (ℕ × ℕ × Pt)} : DReach cfg r numAruco mode T → DMsgOk cfg r mode T m → T.feed cfg r m = some (T', obs) → DReach cfg r numAruco mode T'

end Spec

/-- the invariant -/
structure DInv (lo : ℕ) (mode : Option (ℕ × ℕ)) (T : DTracker) : Prop where
  base : lo ≤ T.cur
  len : ∀ c, (T.cam c).pts.length = (T.cam c).ids.length
  nd : ∀ c, (T.cam c).ids.Nodup
  le : ∀ c, ∀ i ∈ (T.cam c).ids, lo < i ∧ i ≤ T.cur
  apart : mode = none → ∀ c c' i, c ≠ c' → i ∈ (T.cam c).ids → i ∉ (T.cam c').ids
  same : ∀ a b, mode = some (a, b) → (T.cam a).ids = (T.cam b).ids

theorem feedDescMonos_ok (cfg : TCfg) (r : ℚ) (cur : ℕ) (sched : List ℕ) : ∀ (xs : List DMono) (k : ℕ) (cam : ℕ → Cam), (xs.map DMono.cam).Nodup →
    (∀ (j : ℕ) (x : DMono), xs[j]? = some x → ∃ c' obs, feedDescMono cfg r (cam x.cam) x (drawn cur sched (k + j)) = some (c', obs) ∧ (obs.map Prod.fst).Nodup) →
    ∃ cam' obs, feedDescMonos cfg r cur sched k cam xs = some (cam', obs) ∧ (∀ c, c ∉ xs.map DMono.cam → cam' c = cam c) ∧
      (∀ (j : ℕ) (x : DMono), xs[j]? = some x → ∃ o, feedDescMono cfg r (cam x.cam) x (drawn cur sched (k + j)) = some (cam' x.cam, o)) ∧
      (∀ e ∈ obs, ∃ (j : ℕ) (x : DMono) (o : List (ℕ × Pt)), xs[j]? = some x ∧ feedDescMono cfg r (cam x.cam) x (drawn cur sched (k + j)) = some (cam' x.cam, o) ∧ e.1 = x.cam ∧ e.2 ∈ o) ∧
      (obs.map fun o => (o.1, o.2.1)).Nodup := by
  intro xs
  induction xs with
  | nil => intro k cam _ _; exact ⟨cam, [], rfl, fun _ _ => rfl, by simp, by simp, by simp⟩
  | cons x xs ih =>
    intro k cam hnd h
    rw [List.map_cons, List.nodup_cons] at hnd
    obtain ⟨c', o, hc, ho⟩ := h 0 x rfl
    have hup : ∀ (j : ℕ) (y : DMono), xs[j]? = some y → Function.update cam x.cam c' y.cam = cam y.cam := by
      intro j y hy
      apply Function.update_of_ne
      intro e
      exact hnd.1 (List.mem_map.mpr ⟨y, List.mem_of_getElem? hy, e⟩)
    obtain ⟨cam', obs, h1, h2, h3, h4, h5⟩ := ih (k + 1) (Function.update cam x.cam c') hnd.2 (fun j y hy => by
      rw [hup j y hy, show k + 1 + j = k + (j + 1) by omega]
      exact h (j + 1) y (by simpa using hy))
    have hx : cam' x.cam = c' := by rw [h2 _ hnd.1, Function.update_self]
    refine ⟨cam', o.map (fun o => (x.cam, o.1, o.2)) ++ obs, by simp only [feedDescMonos, hc, h1, Option.bind_eq_bind, Option.bind_some, Nat.add_zero] at hc ⊢, ?_, ?_, ?_, ?_⟩
    · intro c hcm
      rw [List.map_cons, List.mem_cons, not_or] at hcm
      rw [h2 c hcm.2, Function.update_of_ne hcm.1]
    · intro j y hy
      cases j with
      | zero =>
        simp only [List.getElem?_cons_zero, Option.some.injEq] at hy
        subst hy
        exact ⟨o, by rw [hx]; exact hc⟩
      | succ j =>
        simp only [List.getElem?_cons_succ] at hy
        obtain ⟨o', ho'⟩ := h3 j y hy
        rw [hup j y hy, show k + 1 + j = k + (j + 1) by omega] at ho'
        exact ⟨o', ho'⟩
    · intro e he
      rcases List.mem_append.mp he with he | he
      · obtain ⟨q, hq, rfl⟩ := List.mem_map.mp he
        exact ⟨0, x, o, rfl, by rw [hx]; exact hc, rfl, hq⟩
      · obtain ⟨j, y, o', e1, e2, e3, e4⟩ := h4 e he
        rw [hup j y e1, show k + 1 + j = k + (j + 1) by omega] at e2
        exact ⟨j + 1, y, o', by simpa using e1, e2, e3, e4⟩
    · rw [List.map_append, List.nodup_append]
      refine ⟨?_, h5, ?_⟩
      · rw [List.map_map]
        have : (o.map ((fun o => (o.1, o.2.1)) ∘ fun o : ℕ × Pt => (x.cam, o.1, o.2))) = (o.map Prod.fst).map (fun i => (x.cam, i)) := by rw [List.map_map]; rfl
        rw [this]
        exact ho.map (fun a b h => by simpa using h)
      · intro a ha b hb e
        subst e
        obtain ⟨p, hp, rfl⟩ := List.mem_map.mp ha
        obtain ⟨q, hq, rfl⟩ := List.mem_map.mp hp
        obtain ⟨p', hp', e⟩ := List.mem_map.mp hb
        obtain ⟨j, y, o', e1, -, e3, -⟩ := h4 p' hp'
        simp only [Prod.mk.injEq] at e
        exact hnd.1 (List.mem_map.mpr ⟨y, List.mem_of_getElem? e1, by rw [← e3, e.1]⟩)

theorem dfeed_spec (cfg : TCfg) (r : ℚ) (mode : Option (ℕ × ℕ)) (lo : ℕ) (T : DTracker) (hT : DInv lo mode T) (m : DMsg) (hm : Spec.DMsgOk cfg r mode T m) :
    ∃ T' obs, T.feed cfg r m = some (T', obs) ∧ DInv lo mode T' ∧ (obs.map fun o => (o.1, o.2.1)).Nodup ∧ (∀ o ∈ obs, o.2 ∈ (T'.cam o.1).ids.zip (T'.cam o.1).pts) ∧ T.cur ≤ T'.cur ∧
      (∀ c, ∀ i ∈ (T'.cam c).ids, i ∈ (T.cam c).ids ∨ T.cur < i) := by
  cases m with
  | mono xs sched =>
    obtain ⟨rfl, hnd, hs⟩ := hm
    have hone : ∀ (j : ℕ) (x : DMono), xs[j]? = some x → ∃ c' obs, feedDescMono cfg r (T.cam x.cam) x (drawn T.cur sched (0 + j)) = some (c', obs) ∧ (obs.map Prod.fst).Nodup ∧
        c'.pts.length = c'.ids.length ∧ c'.ids.Nodup ∧ (∀ i ∈ c'.ids, i ∈ (T.cam x.cam).ids ∨ i ∈ drawn T.cur sched j) ∧ (∀ e ∈ obs, e ∈ c'.ids.zip c'.pts) := by
      intro j x hx
      rw [Nat.zero_add]
      obtain ⟨hc, hk⟩ := hs j x hx
      obtain ⟨c', obs, h1, h2, h3, h4, -, h5, h6⟩ := C115_one_camera cfg r (T.cam x.cam) x (drawn T.cur sched j) (hT.len _) (hT.nd _) (drawn_nodup _ _ _)
        (fun i hi hc => by have := (drawn_bounds hi).1; have := (hT.le _ i hc).2; omega) (by rw [drawn_length, hc]) hk
      by_cases he : (T.cam x.cam).pts = []
      · obtain ⟨e1, e2⟩ := h5 he
        exact ⟨c', obs, h1, by simp [e2], h3, h4, fun i hi => Or.inr (by rw [← e1]; exact hi), by simp [e2]⟩
      · obtain ⟨e1, ms, -, e2⟩ := h6 he
        refine ⟨c', obs, h1, ?_, h3, h4, ?_, ?_⟩
        · rw [e1, List.map_fst_zip h3.ge]; exact h4
        · intro i hi
          obtain ⟨n, hn⟩ := List.mem_iff_getElem?.mp hi
          rcases e2 n i hn with ⟨q, -, e⟩ | ⟨-, e⟩
          · exact Or.inl (List.mem_of_getElem? e)
          · exact Or.inr (List.mem_of_getElem? e)
        · intro e he'; rw [e1] at he'; exact he'
    obtain ⟨cam', obs, h1, h2, h3, h4, h5⟩ := feedDescMonos_ok cfg r T.cur sched xs 0 T.cam hnd (fun j x hx => by obtain ⟨c', o, e1, e2, -⟩ := hone j x hx; exact ⟨c', o, e1, e2⟩)
    have hcam : ∀ c, (cam' c).pts.length = (cam' c).ids.length ∧ (cam' c).ids.Nodup ∧ ∀ i ∈ (cam' c).ids, i ∈ (T.cam c).ids ∨ ∃ (j : ℕ) (x : DMono), xs[j]? = some x ∧ x.cam = c ∧ i ∈ drawn T.cur sched j := by
      intro c
      by_cases hc : c ∈ xs.map DMono.cam
      · obtain ⟨x, hx, rfl⟩ := List.mem_map.mp hc
        obtain ⟨j, hj⟩ := List.mem_iff_getElem?.mp hx
        obtain ⟨o, ho⟩ := h3 j x hj
        obtain ⟨c', o', e1, -, e3, e4, e5, -⟩ := hone j x hj
        rw [ho, Option.some.injEq, Prod.mk.injEq] at e1
        obtain ⟨rfl, rfl⟩ := e1
        exact ⟨e3, e4, fun i hi => (e5 i hi).imp id fun h => ⟨j, x, hj, rfl, h⟩⟩
      · rw [h2 c hc]; exact ⟨hT.len c, hT.nd c, fun i hi => Or.inl hi⟩
    refine ⟨⟨T.cur + sched.length, cam'⟩, obs, by simp only [DTracker.feed, h1, Option.bind_eq_bind, Option.bind_some], ?_, h5, ?_, by simp, ?_⟩
    · refine ⟨by have := hT.base; simp only; omega, fun c => (hcam c).1, fun c => (hcam c).2.1, ?_, ?_, by simp⟩
      · intro c i hi
        rcases (hcam c).2.2 i hi with h | ⟨j, x, -, -, h⟩
        · have := hT.le c i h; simp only; omega
        · have := drawn_bounds h; have := hT.base; simp only; omega
      · intro _ c c' i hne hi hj
        rcases (hcam c).2.2 i hi with h | ⟨j, x, hx, hc, h⟩
        · rcases (hcam c').2.2 i hj with h' | ⟨j', x', -, -, h'⟩
          · exact hT.apart rfl c c' i hne h h'
          · have := (hT.le c i h).2; have := (drawn_bounds h').1; omega
        · rcases (hcam c').2.2 i hj with h' | ⟨j', x', hx', hc', h'⟩
          · have := (hT.le c' i h').2; have := (drawn_bounds h).1; omega
          · have := drawn_disjoint h h'
            subst this
            rw [hx, Option.some.injEq] at hx'
            subst hx'
            exact hne (hc.symm.trans hc')
    · intro e he
      obtain ⟨j, x, o, e1, e2, e3, e4⟩ := h4 e he
      obtain ⟨c', o', f1, -, -, -, -, f6⟩ := hone j x e1
      rw [e2, Option.some.injEq, Prod.mk.injEq] at f1
      obtain ⟨f1a, rfl⟩ := f1
      simp only
      rw [e3, f1a]
      exact f6 _ e4
    · intro c i hi
      exact ((hcam c).2.2 i hi).imp id fun ⟨j, x, _, _, h⟩ => (drawn_bounds h).1
  | stereo a b x =>
    obtain ⟨rfl, hab, h0, hk⟩ := hm
    obtain ⟨o, prs, h1, h2, h3, h4, h5, h6, h7, h8, h9, h10, h11⟩ := C115_two_cameras cfg r (T.cam a) (T.cam b) T.cur x (hT.len a) (hT.nd a) (fun i hi => (hT.le a i hi).2) (hT.same a b rfl) (hT.len b) h0 hk
    have hca : Function.update (Function.update T.cam a o.cl) b o.cr a = o.cl := by rw [Function.update_of_ne hab, Function.update_self]
    have hcb : Function.update (Function.update T.cam a o.cl) b o.cr b = o.cr := Function.update_self ..
    have hcc : ∀ c, c ≠ a → c ≠ b → Function.update (Function.update T.cam a o.cl) b o.cr c = T.cam c := fun c e1 e2 => by rw [Function.update_of_ne e2, Function.update_of_ne e1]
    refine ⟨⟨o.cur, Function.update (Function.update T.cam a o.cl) b o.cr⟩, _, by simp only [DTracker.feed, h1, Option.bind_eq_bind, Option.bind_some]; rfl, ?_, ?_, ?_, by simp only; omega, ?_⟩
    · have key : ∀ c, (c = a ∨ c = b ∨ (c ≠ a ∧ c ≠ b)) := fun c => by tauto
      refine ⟨by have := hT.base; simp only; omega, ?_, ?_, ?_, by simp, ?_⟩
      · intro c
        rcases key c with rfl | rfl | ⟨e1, e2⟩
        · simp only [hca]; rw [h3, h6, List.length_map]
        · simp only [hcb]; rw [h4, ← h5, h6, List.length_map]
        · simp only [hcc c e1 e2]; exact hT.len c
      · intro c
        rcases key c with rfl | rfl | ⟨e1, e2⟩
        · simp only [hca]; exact h7
        · simp only [hcb]; rw [← h5]; exact h7
        · simp only [hcc c e1 e2]; exact hT.nd c
      · intro c i hi
        have hlo := hT.base
        have aux : i ∈ o.cl.ids → lo < i ∧ i ≤ o.cur := by
          intro hi
          rcases h9 i hi with h | h
          · have := hT.le a i h; omega
          · omega
        rcases key c with rfl | rfl | ⟨e1, e2⟩
        · simp only [hca] at hi; exact aux hi
        · simp only [hcb, ← h5] at hi; exact aux hi
        · simp only [hcc c e1 e2] at hi; have := hT.le c i hi; simp only; omega
      · intro a' b' e
        simp only [Option.some.injEq, Prod.mk.injEq] at e
        obtain ⟨rfl, rfl⟩ := e
        simp only [hca, hcb]; exact h5
    · have hids : (o.obs.map Prod.fst).Nodup := by
        by_cases he : (T.cam a).pts = []
        · simp [h10 he]
        · obtain ⟨e, -⟩ := h11 he
          rw [e, List.map_fst_zip h6.le]; exact h7
      rw [List.map_flatMap, List.nodup_flatMap]
      constructor
      · intro e _; simp [hab]
      · refine (List.pairwise_map.mp hids).imp ?_
        intro e e' hne
        simp only [Function.onFun, List.map_cons, List.map_nil]
        intro y hy hy'
        simp only [List.mem_cons, List.not_mem_nil, or_false] at hy hy'
        rcases hy with rfl | rfl <;> rcases hy' with h | h <;> simp only [Prod.mk.injEq] at h <;> exact hne h.2
    · intro e he
      obtain ⟨p, hp, he⟩ := List.mem_flatMap.mp he
      have hpi : p ∈ o.cl.ids.zip prs := by
        by_cases hz : (T.cam a).pts = []
        · rw [h10 hz] at hp; simp at hp
        · obtain ⟨e', -⟩ := h11 hz
          rw [e'] at hp; exact hp
      simp only [List.mem_cons, List.not_mem_nil, or_false] at he
      rcases he with rfl | rfl
      · simp only [hca]; rw [h3, List.zip_map_right]; exact List.mem_map.2 ⟨p, hpi, rfl⟩
      · simp only [hcb, ← h5]; rw [h4, List.zip_map_right]; exact List.mem_map.2 ⟨p, hpi, rfl⟩
    · intro c i hi
      have aux : i ∈ o.cl.ids → i ∈ (T.cam a).ids ∨ T.cur < i := fun hi => (h9 i hi).imp id fun h => h.1
      rcases (by tauto : c = a ∨ c = b ∨ (c ≠ a ∧ c ≠ b)) with rfl | rfl | ⟨e1, e2⟩
      · simp only [hca] at hi; exact aux hi
      · simp only [hcb, ← h5] at hi; rw [← hT.same a c rfl]; exact aux hi
      · simp only [hcc c e1 e2] at hi; exact Or.inl hi

theorem dreach_inv {cfg : TCfg} {r : ℚ} {n : ℕ} {mode : Option (ℕ × ℕ)} {T : DTracker} (h : Spec.DReach cfg r n mode T) : DInv (firstId n) mode T := by
  induction h with
  | init => exact ⟨le_rfl, fun _ => rfl, fun _ => by simp [DTracker.init], fun _ => by simp [DTracker.init], fun _ => by simp [DTracker.init], fun _ _ _ => rfl⟩
  | step _ hm hf ih =>
    obtain ⟨T', obs, h1, h2, -⟩ := dfeed_spec cfg r mode _ _ ih _ hm
    rw [hf, Option.some.injEq, Prod.mk.injEq] at h1
    rw [h1.1]; exact h2

/-- **C115 (all histories).** After every history of images, with any answers of OpenCV and any order of the parallel calls: the next message is processed; in every camera each point has one id and no two points have the same; ids are above
those of the tags; monocular cameras share no id, and the two cameras of a stereo tracker have the same ids in the same order; no camera's id is stored twice for one message, every stored observation is a current point of that camera with its id, and an id that is
not carried over from the same camera has never been used before. -/
theorem C115_history (cfg : TCfg) (r : ℚ) (numAruco : ℕ) (mode : Option (ℕ × ℕ)) (T : DTracker) (h : Spec.DReach cfg r numAruco mode T) (m : DMsg) (hm : Spec.DMsgOk cfg r mode T m) :
    ∃ T' obs, T.feed cfg r m = some (T', obs) ∧ (∀ c, (T'.cam c).pts.length = (T'.cam c).ids.length ∧ (T'.cam c).ids.Nodup) ∧ (∀ c, ∀ i ∈ (T'.cam c).ids, 4 * numAruco + 1 < i) ∧
      (mode = none → ∀ c c' i, c ≠ c' → i ∈ (T'.cam c).ids → i ∉ (T'.cam c').ids) ∧ (∀ a b, mode = some (a, b) → (T'.cam a).ids = (T'.cam b).ids) ∧
      (obs.map fun o => (o.1, o.2.1)).Nodup ∧ (∀ o ∈ obs, o.2 ∈ (T'.cam o.1).ids.zip (T'.cam o.1).pts) ∧
      (∀ c, ∀ i ∈ (T'.cam c).ids, i ∈ (T.cam c).ids ∨ (∀ c', i ∉ (T.cam c').ids) ∧ T.cur < i) := by
  have hT := dreach_inv h
  obtain ⟨T', obs, h1, h2, h3, h4, h5, h6⟩ := dfeed_spec cfg r mode _ _ hT m hm
  refine ⟨T', obs, h1, fun c => ⟨h2.len c, h2.nd c⟩, fun c i hi => (h2.le c i hi).1, h2.apart, h2.same, h3, h4, ?_⟩
  intro c i hi
  refine (h6 c i hi).imp id fun h => ⟨fun c' hc' => ?_, h⟩
  have := (hT.le c' i hc').2
  omega

/-! ## Detection -/

/-- **C115 (detection).** The points of a monocular image lie in it and no two in the same cell of the minimum-distance grid. -/
theorem C115_detection (cfg : TCfg) (I : Img) (ext : List Pt) :
    (detectDesc cfg I [] ext).Sublist ext ∧ ((detectDesc cfg I [] ext).map (closeCell cfg)).Nodup ∧
      ∀ p ∈ detectDesc cfg I [] ext, 0 ≤ trunc p.1 ∧ trunc p.1 < I.cols ∧ 0 ≤ trunc p.2 ∧ trunc p.2 < I.rows := by
  have key : ∀ (ext : List Pt) (occ : List (ℤ × ℤ)), (detectDesc cfg I occ ext).Sublist ext ∧ ((detectDesc cfg I occ ext).map (closeCell cfg)).Nodup ∧ (∀ p ∈ detectDesc cfg I occ ext, closeCell cfg p ∉ occ) ∧
      ∀ p ∈ detectDesc cfg I occ ext, boundsOk cfg I I p = true := by
    intro ext
    induction ext with
    | nil => intro occ; simp [detectDesc]
    | cons p ps ih =>
      intro occ
      unfold detectDesc
      split_ifs with c1 c2
      · obtain ⟨h1, h2⟩ := ih occ; exact ⟨h1.cons _, h2⟩
      · obtain ⟨h1, h2⟩ := ih occ; exact ⟨h1.cons _, h2⟩
      · obtain ⟨h1, h2, h3, h4⟩ := ih (closeCell cfg p :: occ)
        refine ⟨h1.cons_cons _, ?_, ?_, ?_⟩
        · rw [List.map_cons, List.nodup_cons]
          refine ⟨fun hm => ?_, h2⟩
          obtain ⟨q, hq, e⟩ := List.mem_map.mp hm
          exact h3 q hq (by rw [e]; simp)
        · intro q hq
          rcases List.mem_cons.mp hq with rfl | hq
          · simpa using c2
          · have := h3 q hq; simp only [List.mem_cons, not_or] at this; exact this.2
        · intro q hq
          rcases List.mem_cons.mp hq with rfl | hq
          · simpa using c1
          · exact h4 q hq
  obtain ⟨h1, h2, -, h4⟩ := key ext []
  refine ⟨h1, h2, fun p hp => ?_⟩
  have := h4 p hp
  simp only [boundsOk, Bool.and_eq_true, decide_eq_true_eq] at this
  exact ⟨this.1.1.1.2, this.1.1.2, this.1.2, this.2⟩

/-! ## Concrete cases and findings -/

/-- ten descriptors, each nearest to its own counterpart -/
def exRows : List (List DM) := (List.range 10).map fun i => [⟨i, i, 10⟩, ⟨i, (i + 1) % 10, 100⟩]
def exKnn : Knn := ⟨exRows, exRows, fun n => n != 4⟩
def exCfgD : TCfg := ⟨10, 2, 2, 40⟩
def exImgD : Img := ⟨200, 100, fun _ _ => false⟩
def exExt : List Pt := [(15, 15), (25, 15), (35, 15), (45, 15), (55, 15), (65, 15), (75, 15), (85, 15), (95, 15), (105, 15)]
/-- all matches accepted by RANSAC -/
def exKnnAll : Knn := ⟨exRows, exRows, fun _ => true⟩
def exPair : DStereo := ⟨exImgD, exImgD, exExt, exExt, exKnnAll, exKnn, exKnn⟩

theorem exRows_ok (i : ℕ) (row : List DM) (h : exRows[i]? = some row) : i < 10 ∧ ∀ m ∈ row, m.q = i ∧ m.t < 10 := by
  unfold exRows at h
  rw [List.getElem?_map, Option.map_eq_some_iff] at h
  obtain ⟨j, hj, rfl⟩ := h
  obtain ⟨h1, rfl⟩ := List.getElem?_eq_some_iff.mp hj
  have h2 : i < 10 := by simpa using h1
  refine ⟨h2, ?_⟩
  simp only [List.getElem_range, List.mem_cons, List.not_mem_nil, or_false, forall_eq_or_imp, forall_eq]
  exact ⟨⟨trivial, h2⟩, trivial, Nat.mod_lt _ (by norm_num)⟩

theorem exKnn_ok : KnnOk 10 10 exKnn := ⟨exRows_ok, exRows_ok⟩
theorem exKnnAll_ok : KnnOk 10 10 exKnnAll := ⟨exRows_ok, exRows_ok⟩

/-- nine of ten matches remain, the other is rejected by RANSAC -/
example : (robustMatch (7 / 10) 10 10 exKnn).map (List.map fun m => (m.q, m.t)) = some [(0, 0), (1, 1), (2, 2), (3, 3), (5, 5), (6, 6), (7, 7), (8, 8), (9, 9)] := by decide +kernel

def exD0 : DTracker := DTracker.init 1
def exD1 : DTracker := ((exD0.feed exCfgD (7 / 10) (.stereo 0 1 exPair)).map (·.1)).getD exD0

theorem exPairs : newPairs exCfgD (7 / 10) exPair = some (exExt.zip exExt) := by decide +kernel

theorem exMsg_ok (T : DTracker) (h : (T.cam 0).pts ≠ [] → (T.cam 0).pts.length = 10 ∧ (T.cam 1).pts.length = 10) : Spec.DMsgOk exCfgD (7 / 10) (some (0, 1)) T (.stereo 0 1 exPair) := by
  refine ⟨rfl, by decide, exKnnAll_ok, fun prs hp hne => ?_⟩
  rw [exPairs, Option.some.injEq] at hp
  subst hp
  obtain ⟨h1, h2⟩ := h hne
  rw [h1, h2]
  exact ⟨exKnn_ok, exKnn_ok⟩

theorem exD1_reach : Spec.DReach exCfgD (7 / 10) 1 (some (0, 1)) exD1 := by
  have hm := exMsg_ok exD0 (fun h => absurd rfl h)
  obtain ⟨T', obs, h, -⟩ := C115_history exCfgD (7 / 10) 1 _ _ .init _ hm
  have : exD1 = T' := by rw [exD1, exD0, h]; rfl
  rw [this]
  exact .step .init hm h

/-- the hypotheses of `C115_history` hold after one pair of images; the second pair keeps nine ids -/
example : Spec.DMsgOk exCfgD (7 / 10) (some (0, 1)) exD1 (.stereo 0 1 exPair) := exMsg_ok _ fun _ => by decide +kernel
example : (exD1.cam 0).ids = [6, 7, 8, 9, 10, 11, 12, 13, 14, 15] ∧
    ((exD1.feed exCfgD (7 / 10) (.stereo 0 1 exPair)).map fun x => (x.1.cam 1).ids) = some [6, 7, 8, 9, 20, 11, 12, 13, 14, 15] := by decide +kernel

/-- a pair of images in which two corners are one pixel apart -/
def exNear2 : DStereo := { exPair with extL := (26, 15) :: exExt.tail, extR := exExt }

/-- **C115** (finding: minimum distance) In stereo mode the occupancy grid is never written: a reachable tracker has two points one pixel apart in the same cell of the minimum-distance grid. -/
theorem C115_stereo_not_apart : ∃ T, Spec.DReach exCfgD (7 / 10) 1 (some (0, 1)) T ∧ ¬ ((T.cam 0).pts.map (closeCell exCfgD)).Nodup ∧ (26, 15) ∈ (T.cam 0).pts ∧ (25, 15) ∈ (T.cam 0).pts := by
  have hm : Spec.DMsgOk exCfgD (7 / 10) (some (0, 1)) exD0 (.stereo 0 1 exNear2) := ⟨rfl, by decide, exKnnAll_ok, fun _ _ h => absurd rfl h⟩
  obtain ⟨T', obs, h, -⟩ := C115_history exCfgD (7 / 10) 1 _ _ .init _ hm
  have e : ((exD0.feed exCfgD (7 / 10) (.stereo 0 1 exNear2)).map fun x => (x.1.cam 0).pts) = some (T'.cam 0).pts := by rw [show exD0 = DTracker.init 1 from rfl, h]; rfl
  have e2 : ((exD0.feed exCfgD (7 / 10) (.stereo 0 1 exNear2)).map fun x => (x.1.cam 0).pts) = some ((26, 15) :: exExt.tail) := by decide +kernel
  rw [e2, Option.some.injEq] at e
  refine ⟨T', .step .init hm h, ?_, ?_, ?_⟩
  · rw [← e]; decide +kernel
  · rw [← e]; decide +kernel
  · rw [← e]; decide +kernel

/-- **C115** (finding: ratio test) Two candidates at the same positive distance are rejected as ambiguous, for every ratio below one; two candidates at distance zero are accepted, for every ratio. -/
theorem C115_ambiguous_zero (r : ℚ) (h0 : 0 ≤ r) (h1 : r < 1) (d : ℚ) (hd : 0 < d) (i j k : ℕ) :
    ratioTest r [[⟨i, j, d⟩, ⟨i, k, d⟩]] = [[]] ∧ ratioTest r [[⟨i, j, 0⟩, ⟨i, k, 0⟩]] = [[⟨i, j, 0⟩, ⟨i, k, 0⟩]] := by
  simp only [ratioTest, List.map_cons, List.map_nil]
  rw [div_self hd.ne', if_pos h1, zero_div, if_neg (not_lt.mpr h0)]
  exact ⟨rfl, rfl⟩

/-- **C115** (finding: mixed messages) If one of the two cameras of a stereo tracker sends an image of its own (which is accepted), the next pair of images ends the program: the assertion that both have equally many points fails. -/
theorem C115_mixed_ends : ∃ x sched T1 obs, exD1.feed exCfgD (7 / 10) (.mono [x] sched) = some (T1, obs) ∧ T1.feed exCfgD (7 / 10) (.stereo 0 1 { exPair with ll := ⟨[], [], fun _ => true⟩ }) = none := by
  have key : ((exD1.feed exCfgD (7 / 10) (.mono [⟨0, exImgD, exExt.tail, ⟨[], [], fun _ => true⟩⟩] (List.replicate 9 0))).map
      fun T => (T.1.feed exCfgD (7 / 10) (.stereo 0 1 { exPair with ll := ⟨[], [], fun _ => true⟩ })).isNone) = some true := by decide +kernel
  rw [Option.map_eq_some_iff] at key
  obtain ⟨⟨T1, obs⟩, h1, h2⟩ := key
  exact ⟨_, _, T1, obs, h1, by simpa using h2⟩

end Verif.Track
