import Verif.Track.Klt
import Verif.Track.PropsIds

/-! Lemmas about the tracker model. -/

set_option autoImplicit false

namespace Verif.Track

theorem trunc_nonneg {x : ℚ} (h : 0 ≤ x) : 0 ≤ trunc x := by
  rw [trunc, if_pos h]; exact Int.floor_nonneg.mpr h

theorem edgeOk_masked {I : Img} {p : Pt} (h : edgeOk I p = true) : I.masked? (trunc p.1) (trunc p.2) = some (I.mask (trunc p.1) (trunc p.2)) := by
  simp only [edgeOk, Bool.and_eq_true, decide_eq_true_eq] at h
  rw [Img.masked?, if_pos (by omega)]

/-- what a point that survives pruning satisfies -/
structure Good (cfg : TCfg) (I : Img) (p : Pt) : Prop where
  edge : edgeOk I p = true
  close : closeOk cfg I (closeCell cfg p) = true
  grid : gridOk cfg I p = true
  mask : I.mask (trunc p.1) (trunc p.2) = false

theorem prune_spec (cfg : TCfg) (I : Img) (keep : ℕ → Bool) : ∀ (pts : List Pt) (ids : List ℕ) (occ : List (ℤ × ℤ)), pts.length = ids.length →
    ∃ r, prune cfg I keep occ pts ids = some r ∧ r.1.length = r.2.1.length ∧ (r.1.zip r.2.1).Sublist (pts.zip ids) ∧ (∀ p ∈ r.1, Good cfg I p) ∧
      (∀ c, c ∈ r.2.2 ↔ c ∈ occ ∨ c ∈ r.1.map (closeCell cfg)) ∧ ((∀ i, keep i = false) → (r.1.map (closeCell cfg)).Nodup ∧ ∀ c ∈ r.1.map (closeCell cfg), c ∉ occ)
  | [], ids, occ, h => by
    refine ⟨([], ids, occ), by simp [prune], by simpa using h, by simp, by simp, by simp, by simp⟩
  | p :: ps, [], occ, h => by simp at h
  | p :: ps, i :: is, occ, h => by
    have hl : ps.length = is.length := by simpa using h
    have skip : ∃ r, prune cfg I keep occ ps is = some r ∧ r.1.length = r.2.1.length ∧ (r.1.zip r.2.1).Sublist ((p :: ps).zip (i :: is)) ∧
        (∀ p ∈ r.1, Good cfg I p) ∧ (∀ c, c ∈ r.2.2 ↔ c ∈ occ ∨ c ∈ r.1.map (closeCell cfg)) ∧
        ((∀ i, keep i = false) → (r.1.map (closeCell cfg)).Nodup ∧ ∀ c ∈ r.1.map (closeCell cfg), c ∉ occ) := by
      obtain ⟨r, h1, h2, h3, h4⟩ := prune_spec cfg I keep ps is occ hl
      exact ⟨r, h1, h2, h3.trans (List.sublist_cons_self _ _), h4⟩
    rw [prune]
    split_ifs with c1 c2 c3 c4
    · exact skip
    · exact skip
    · exact skip
    · exact skip
    · have e1 : edgeOk I p = true := by simpa using c1
      rw [edgeOk_masked e1]
      rcases hm : I.mask (trunc p.1) (trunc p.2) with _ | _
      · obtain ⟨r, h1, h2, h3, h4, h5, h6⟩ := prune_spec cfg I keep ps is (closeCell cfg p :: occ) hl
        simp only [h1]
        refine ⟨_, rfl, by simp [h2], by simpa using h3, ?_, ?_, ?_⟩
        · intro q hq
          rcases List.mem_cons.mp hq with rfl | hq
          · exact ⟨e1, by simpa using c2, by simpa using c3, hm⟩
          · exact h4 q hq
        · intro c
          rw [h5]
          simp only [List.mem_cons, List.map_cons]
          tauto
        · intro hk
          obtain ⟨n1, n2⟩ := h6 hk
          have hno : closeCell cfg p ∉ occ := by
            simp only [hk, Bool.not_false, Bool.and_true, List.contains_eq_mem, decide_eq_true_eq] at c4
            exact c4
          refine ⟨?_, ?_⟩
          · simp only [List.map_cons, List.nodup_cons]
            exact ⟨fun hin => n2 _ hin (by simp), n1⟩
          · intro c hc
            simp only [List.map_cons, List.mem_cons] at hc
            rcases hc with rfl | hc
            · exact hno
            · exact fun ho => n2 c hc (by simp [ho])
      · simpa using skip

theorem addNew_spec (cfg : TCfg) (I : Img) : ∀ (ext : List Pt) (occ : List (ℤ × ℤ)),
    (addNew cfg I occ ext).Sublist ext ∧ (∀ p ∈ addNew cfg I occ ext, closeOk cfg I (closeCell cfg p) = true) ∧ ((addNew cfg I occ ext).map (closeCell cfg)).Nodup ∧
      ∀ c ∈ (addNew cfg I occ ext).map (closeCell cfg), c ∉ occ
  | [], occ => by simp [addNew]
  | p :: ps, occ => by
    rw [addNew]
    have skip := addNew_spec cfg I ps occ
    split_ifs with c1 c2
    · exact ⟨skip.1.trans (List.sublist_cons_self _ _), skip.2⟩
    · exact ⟨skip.1.trans (List.sublist_cons_self _ _), skip.2⟩
    · obtain ⟨h1, h2, h3, h4⟩ := addNew_spec cfg I ps (closeCell cfg p :: occ)
      refine ⟨h1.cons_cons p, ?_, ?_, ?_⟩
      · intro q hq
        rcases List.mem_cons.mp hq with rfl | hq
        · simpa using c1
        · exact h2 q hq
      · simp only [List.map_cons, List.nodup_cons]
        exact ⟨fun hin => h4 _ hin (by simp), h3⟩
      · intro c hc
        simp only [List.map_cons, List.mem_cons] at hc
        rcases hc with rfl | hc
        · simpa using c2
        · exact fun ho => h4 c hc (by simp [ho])

theorem zip_ids {r : List Pt} {s : List ℕ} {pts : List Pt} {ids : List ℕ} (hl : r.length = s.length) (hl2 : pts.length = ids.length) (h : (r.zip s).Sublist (pts.zip ids)) : s.Sublist ids := by
  have := h.map Prod.snd
  rwa [List.map_snd_zip hl.ge, List.map_snd_zip hl2.ge] at this

theorem matching_length (flow : ℕ → Pt × Bool) (pts : List Pt) : (matching flow pts).1.length = pts.length ∧ (matching flow pts).2.length = pts.length := by
  unfold matching; split_ifs <;> simp

/-- an accepted point is the flow of the point at the same position of the list -/
theorem matching_true (flow : ℕ → Pt × Bool) (pts : List Pt) (k : ℕ) (p : Pt) (h1 : (matching flow pts).1[k]? = some p) (h2 : (matching flow pts).2[k]? = some true) : flow k = (p, true) := by
  unfold matching at h1 h2
  split_ifs at h1 h2
  · rw [List.getElem?_map, Option.map_eq_some_iff] at h2
    obtain ⟨_, -, h⟩ := h2
    simp at h
  · simp only [List.getElem?_map, Option.map_eq_some_iff] at h1 h2
    obtain ⟨a, ha, rfl⟩ := h1
    obtain ⟨b, hb, h⟩ := h2
    rw [List.getElem?_eq_some_iff] at ha hb
    obtain ⟨_, ha⟩ := ha
    obtain ⟨_, hb⟩ := hb
    simp only [List.getElem_range] at ha hb
    subst ha; subst hb
    exact Prod.ext rfl h

/-- the element at a common position of three lists -/
def At3 {α β γ : Type} (l : List α) (m : List β) (n : List γ) (a : α) (b : β) (c : γ) : Prop := ∃ k : ℕ, l[k]? = some a ∧ m[k]? = some b ∧ n[k]? = some c

theorem At3.cons {α β γ : Type} {l : List α} {m : List β} {n : List γ} {a : α} {b : β} {c : γ} (x : α) (y : β) (z : γ) (h : At3 l m n a b c) : At3 (x :: l) (y :: m) (z :: n) a b c := by
  obtain ⟨k, h⟩ := h
  exact ⟨k + 1, by simpa using h⟩

/-- inside the image and not masked -/
def inImg (I : Img) (p : Pt) : Prop := 0 ≤ p.1 ∧ 0 ≤ p.2 ∧ trunc p.1 < I.cols ∧ trunc p.2 < I.rows

theorem monoLoop_spec (I : Img) : ∀ (pts : List Pt) (ids : List ℕ) (ms : List Bool), pts.length = ids.length → ms.length = pts.length →
    ∃ r, monoLoop I pts ids ms = some r ∧ r.1.length = r.2.length ∧ r.2.Sublist ids ∧
      ∀ p i, (p, i) ∈ r.1.zip r.2 → At3 pts ids ms p i true ∧ inImg I p ∧ I.mask (trunc p.1) (trunc p.2) = false
  | [], ids, ms, h, _ => ⟨([], []), by simp [monoLoop], rfl, by simp, by simp⟩
  | p :: ps, [], ms, h, _ => by simp at h
  | p :: ps, i :: is, [], _, h => by simp at h
  | p :: ps, i :: is, m :: ms, h, h' => by
    obtain ⟨r, h1, h2, h3, h4⟩ := monoLoop_spec I ps is ms (by simpa using h) (by simpa using h')
    have skip : ∃ r, monoLoop I ps is ms = some r ∧ r.1.length = r.2.length ∧ r.2.Sublist (i :: is) ∧
      ∀ q j, (q, j) ∈ r.1.zip r.2 → At3 (p :: ps) (i :: is) (m :: ms) q j true ∧ inImg I q ∧ I.mask (trunc q.1) (trunc q.2) = false :=
      ⟨r, h1, h2, h3.trans (List.sublist_cons_self _ _), fun q j hm => ⟨(h4 q j hm).1.cons _ _ _, (h4 q j hm).2⟩⟩
    rw [monoLoop]
    split_ifs with c1 c2
    · exact skip
    · simp only [Bool.or_eq_true, decide_eq_true_eq, not_or, not_lt, not_le] at c1
      obtain ⟨⟨⟨a1, a2⟩, a3⟩, a4⟩ := c1
      have b1 := trunc_nonneg a1
      have b2 := trunc_nonneg a2
      rw [Img.masked?, if_pos ⟨b1, a3, b2, a4⟩]
      rcases hm : I.mask (trunc p.1) (trunc p.2) with _ | _
      · simp only [h1]
        refine ⟨_, rfl, by simp [h2], h3.cons_cons i, ?_⟩
        intro q j hq
        simp only [List.zip_cons_cons, List.mem_cons, Prod.mk.injEq] at hq
        rcases hq with ⟨rfl, rfl⟩ | hq
        · exact ⟨⟨0, rfl, rfl, by rw [c2]; rfl⟩, ⟨a1, a2, a3, a4⟩, hm⟩
        · exact ⟨(h4 q j hq).1.cons _ _ _, (h4 q j hq).2⟩
      · simpa using skip
    · simp only [Bool.or_eq_true, decide_eq_true_eq, not_or, not_lt, not_le] at c1
      obtain ⟨⟨⟨a1, a2⟩, a3⟩, a4⟩ := c1
      rw [Img.masked?, if_pos ⟨trunc_nonneg a1, a3, trunc_nonneg a2, a4⟩]
      rcases hm : I.mask (trunc p.1) (trunc p.2) with _ | _ <;> simpa using skip

theorem detectMono_spec (cfg : TCfg) (I : Img) (pts : List Pt) (ids : List ℕ) (ext : List Pt) (hl : pts.length = ids.length) :
    ∃ r, detectMono cfg I pts ids ext = some r ∧ r.1.length = r.2.1.length ∧ r.2.1.Sublist ids ∧ (r.1.zip r.2.1).Sublist (pts.zip ids) ∧ (∀ p ∈ r.1, Good cfg I p) ∧ r.2.2.Sublist ext ∧
      (∀ p ∈ r.2.2, closeOk cfg I (closeCell cfg p) = true) ∧ ((r.1 ++ r.2.2).map (closeCell cfg)).Nodup ∧ (needMono cfg r.1.length = false → r.2.2 = []) := by
  obtain ⟨r, h1, h2, h3, h4, h5, h6⟩ := prune_spec cfg I (fun _ => false) pts ids [] hl
  obtain ⟨g1, g2, g3, g4⟩ := addNew_spec cfg I ext r.2.2
  obtain ⟨n1, n2⟩ := h6 (fun _ => rfl)
  refine ⟨(r.1, r.2.1, if needMono cfg r.1.length then addNew cfg I r.2.2 ext else []), ?_, h2, zip_ids h2 hl h3, h3, h4, ?_, ?_, ?_, ?_⟩
  · unfold detectMono; rw [h1]
  · split_ifs <;> simp [g1]
  · split_ifs <;> simp only [List.not_mem_nil, false_imp_iff, implies_true]
    exact g2
  · simp only
    split_ifs
    · rw [List.map_append, List.nodup_append]
      exact ⟨n1, g3, fun a ha b hb e => g4 b hb ((h5 b).mpr (Or.inr (e ▸ ha)))⟩
    · simpa using n1
  · intro hn
    simp only at hn
    simp [hn]

theorem feedMono_spec (cfg : TCfg) (c : Cam) (I : Img) (ext : List Pt) (flow : ℕ → Pt × Bool) (fresh : List ℕ) (hl : c.pts.length = c.ids.length) (hn : c.ids.Nodup)
    (hf : fresh.Nodup) (hd : ∀ i ∈ fresh, i ∉ c.ids) :
    ∃ n, monoNeed cfg c I ext = some n ∧ (fresh.length ≠ n → feedMono cfg c I ext flow fresh = none) ∧
      (fresh.length = n → ∃ c' obs, feedMono cfg c I ext flow fresh = some (c', obs) ∧ c'.pts.length = c'.ids.length ∧ c'.ids.Nodup ∧ (∀ i ∈ c'.ids, i ∈ c.ids ∨ i ∈ fresh) ∧
        (∀ i p, (i, p) ∈ obs → i ∈ c'.ids) ∧ (obs.map Prod.fst).Nodup) := by
  unfold monoNeed feedMono
  by_cases he : c.pts.isEmpty
  · obtain ⟨r, h1, h2⟩ := detectMono_spec cfg I [] [] ext rfl
    simp only [he, if_true, h1, Option.map_some]
    refine ⟨_, rfl, fun h => by rw [if_pos h], fun h => ?_⟩
    rw [if_neg (by simpa using h)]
    exact ⟨_, _, rfl, h.symm, hf, fun i hi => Or.inr hi, by simp, by simp⟩
  · obtain ⟨r, h1, h2, h3, -⟩ := detectMono_spec cfg c.img c.pts c.ids ext hl
    simp only [he, h1, Option.map_some, Bool.false_eq_true, if_false]
    refine ⟨_, rfl, fun h => by rw [if_pos h], fun h => ?_⟩
    rw [if_neg (by simpa using h)]
    have hnn : (r.2.1 ++ fresh).Nodup := by
      rw [List.nodup_append]
      exact ⟨hn.sublist h3, hf, fun a ha b hb e => hd b hb (e ▸ h3.subset ha)⟩
    obtain ⟨m1, m2⟩ := matching_length flow (r.1 ++ r.2.2)
    have hlen : (r.1 ++ r.2.2).length = (r.2.1 ++ fresh).length := by simp [h2, h]
    rw [if_neg (by rw [m1, hlen]; simp)]
    split_ifs with c1
    · exact ⟨_, _, rfl, rfl, List.nodup_nil, by simp, by simp, by simp⟩
    · obtain ⟨g, e1, e2, e3, e4⟩ := monoLoop_spec I (matching flow (r.1 ++ r.2.2)).1 (r.2.1 ++ fresh) (matching flow (r.1 ++ r.2.2)).2 (by rw [m1, hlen]) (by rw [m1, m2])
      simp only [e1]
      refine ⟨_, _, rfl, e2, hnn.sublist e3, ?_, ?_, ?_⟩
      · intro i hi
        rcases List.mem_append.mp (e3.subset hi) with h | h
        · exact Or.inl (h3.subset h)
        · exact Or.inr h
      · intro i p hm
        exact (List.of_mem_zip hm).1
      · rw [List.map_fst_zip e2.ge]
        exact hnn.sublist e3

/-! ### draws -/

theorem mem_drawn {cur k i : ℕ} {sched : List ℕ} : i ∈ drawn cur sched k ↔ ∃ j, sched[j]? = some k ∧ i = cur + 1 + j := by
  unfold drawn
  simp only [List.mem_map, List.mem_filter, beq_iff_eq, Prod.exists]
  constructor
  · rintro ⟨a, j, ⟨h1, rfl⟩, rfl⟩
    rw [List.mem_zipIdx_iff_getElem?] at h1
    exact ⟨j, h1, rfl⟩
  · rintro ⟨j, h1, rfl⟩
    exact ⟨k, j, ⟨by rw [List.mem_zipIdx_iff_getElem?]; exact h1, rfl⟩, rfl⟩

theorem drawn_nodup (cur k : ℕ) (sched : List ℕ) : (drawn cur sched k).Nodup := by
  unfold drawn
  have h : ((sched.zipIdx).map Prod.snd).Nodup := by
    rw [List.zipIdx_map_snd]; exact List.nodup_range'
  have h2 : ((sched.zipIdx.filter fun e => e.1 == k).map Prod.snd).Nodup := h.sublist ((List.filter_sublist).map _)
  have e : ((sched.zipIdx.filter fun e => e.1 == k).map fun e => cur + 1 + e.2) = ((sched.zipIdx.filter fun e => e.1 == k).map Prod.snd).map (cur + 1 + ·) := by
    rw [List.map_map]; rfl
  rw [e]
  exact h2.map (fun a b hab => by simpa using hab)

theorem drawn_bounds {cur k i : ℕ} {sched : List ℕ} (h : i ∈ drawn cur sched k) : cur < i ∧ i ≤ cur + sched.length := by
  obtain ⟨j, h1, rfl⟩ := mem_drawn.mp h
  have : j < sched.length := (List.getElem?_eq_some_iff.mp h1).1
  omega

theorem drawn_disjoint {cur k k' i : ℕ} {sched : List ℕ} (h : i ∈ drawn cur sched k) (h' : i ∈ drawn cur sched k') : k = k' := by
  obtain ⟨j, h1, rfl⟩ := mem_drawn.mp h
  obtain ⟨j', h2, e⟩ := mem_drawn.mp h'
  have : j = j' := by omega
  subst this
  rw [h1] at h2
  exact Option.some.inj h2

theorem drawn_length (cur k : ℕ) (sched : List ℕ) : (drawn cur sched k).length = sched.count k := by
  unfold drawn
  rw [List.length_map, ← List.countP_eq_length_filter, List.count_eq_countP]
  have h : (sched.zipIdx).map Prod.fst = sched := List.zipIdx_map_fst _ _
  conv_rhs => rw [← h]
  rw [List.countP_map]; rfl

/-- what the calls for one message do to the cameras -/
theorem feedMonos_spec (cfg : TCfg) (cur : ℕ) (sched : List ℕ) : ∀ (xs : List MonoIn) (k : ℕ) (cam cam' : ℕ → Cam) (obs : List (ℕ × ℕ × Pt)), (xs.map MonoIn.cam).Nodup →
    feedMonos cfg cur sched k cam xs = some (cam', obs) →
    (∀ c, (c ∉ xs.map MonoIn.cam ∧ cam' c = cam c) ∨
      ∃ j x o, xs[j]? = some x ∧ x.cam = c ∧ feedMono cfg (cam c) x.img x.ext x.flow (drawn cur sched (k + j)) = some (cam' c, o)) ∧
    (∀ c i p, (c, i, p) ∈ obs → ∃ j x o, xs[j]? = some x ∧ x.cam = c ∧ feedMono cfg (cam c) x.img x.ext x.flow (drawn cur sched (k + j)) = some (cam' c, o) ∧ (i, p) ∈ o) ∧
    ((∀ j x c' o, xs[j]? = some x → feedMono cfg (cam x.cam) x.img x.ext x.flow (drawn cur sched (k + j)) = some (c', o) → (o.map Prod.fst).Nodup) → (obs.map fun o => (o.1, o.2.1)).Nodup)
  | [], k, cam, cam', obs, _, h => by
    simp only [feedMonos, Option.some.injEq, Prod.mk.injEq] at h
    obtain ⟨rfl, rfl⟩ := h
    simp
  | x :: xs, k, cam, cam', obs, hnd, h => by
    rw [feedMonos] at h
    rcases hf : feedMono cfg (cam x.cam) x.img x.ext x.flow (drawn cur sched k) with _ | ⟨c0, o0⟩
    · rw [hf] at h; simp at h
    simp only [hf] at h
    rcases hr : feedMonos cfg cur sched (k + 1) (Function.update cam x.cam c0) xs with _ | ⟨cam1, obs1⟩
    · rw [hr] at h; simp at h
    simp only [hr, Option.some.injEq, Prod.mk.injEq] at h
    obtain ⟨rfl, rfl⟩ := h
    simp only [List.map_cons, List.nodup_cons] at hnd
    obtain ⟨a1, a2, a3⟩ := feedMonos_spec cfg cur sched xs (k + 1) _ _ _ hnd.2 hr
    have hx : cam1 x.cam = c0 := by
      rcases a1 x.cam with ⟨-, h⟩ | ⟨j, y, o, hy, hc, -⟩
      · simpa using h
      · exact absurd (List.mem_map.mpr ⟨y, List.mem_of_getElem? hy, hc⟩) hnd.1
    have key : ∀ (j : ℕ) (y : MonoIn), xs[j]? = some y → y.cam ≠ x.cam := fun j y hy e => hnd.1 (List.mem_map.mpr ⟨y, List.mem_of_getElem? hy, e⟩)
    refine ⟨?_, ?_, ?_⟩
    · intro c
      by_cases hc : c = x.cam
      · subst hc
        exact Or.inr ⟨0, x, o0, rfl, rfl, by rw [hx]; exact hf⟩
      · rcases a1 c with ⟨h1, h2⟩ | ⟨j, y, o, hy, hyc, h⟩
        · refine Or.inl ⟨by simp [hc, h1] , by rw [h2, Function.update_of_ne hc]⟩
        · refine Or.inr ⟨j + 1, y, o, hy, hyc, ?_⟩
          rw [Function.update_of_ne hc] at h
          rw [show k + (j + 1) = k + 1 + j by omega]; exact h
    · intro c i p hm
      rw [List.mem_append] at hm
      rcases hm with hm | hm
      · rw [List.mem_map] at hm
        obtain ⟨⟨i', p'⟩, hm, he⟩ := hm
        simp only [Prod.mk.injEq] at he
        obtain ⟨rfl, rfl, rfl⟩ := he
        exact ⟨0, x, o0, rfl, rfl, by rw [hx]; exact hf, hm⟩
      · obtain ⟨j, y, o, hy, hyc, h, hio⟩ := a2 c i p hm
        have hc : c ≠ x.cam := hyc ▸ key j y hy
        rw [Function.update_of_ne hc] at h
        exact ⟨j + 1, y, o, hy, hyc, by rw [show k + (j + 1) = k + 1 + j by omega]; exact h, hio⟩
    · intro hall
      rw [List.map_append, List.nodup_append]
      refine ⟨?_, ?_, ?_⟩
      · have h0 := hall 0 x c0 o0 rfl hf
        have e : (o0.map fun o => (x.cam, o.1, o.2)).map (fun o => (o.1, o.2.1)) = (o0.map Prod.fst).map (fun i => (x.cam, i)) := by
          rw [List.map_map, List.map_map]; rfl
        rw [e]
        exact h0.map (fun a b hab => by simpa using hab)
      · apply a3
        intro j y c' o hy h
        have hc := key j y hy
        rw [Function.update_of_ne hc] at h
        exact hall (j + 1) y c' o hy (by rw [show k + (j + 1) = k + 1 + j by omega]; exact h)
      · intro a ha b hb hab
        subst hab
        rw [List.mem_map] at ha hb
        obtain ⟨_, ha', rfl⟩ := ha
        rw [List.mem_map] at ha'
        obtain ⟨⟨i', p'⟩, hm', rfl⟩ := ha'
        obtain ⟨⟨cb, ib, pb⟩, hb', e⟩ := hb
        obtain ⟨j, y, o, hy, hyc, -⟩ := a2 cb ib pb hb'
        simp only [Prod.mk.injEq] at e
        exact key j y hy (by rw [hyc, e.1])

/-- the calls succeed if every call gets as many ids as it needs -/
theorem feedMonos_some (cfg : TCfg) (cur : ℕ) (sched : List ℕ) : ∀ (xs : List MonoIn) (k : ℕ) (cam : ℕ → Cam), (xs.map MonoIn.cam).Nodup →
    (∀ j x, xs[j]? = some x → ∃ r, feedMono cfg (cam x.cam) x.img x.ext x.flow (drawn cur sched (k + j)) = some r) → ∃ r, feedMonos cfg cur sched k cam xs = some r
  | [], k, cam, _, _ => ⟨_, rfl⟩
  | x :: xs, k, cam, hnd, h => by
    obtain ⟨⟨c, o⟩, h0⟩ := h 0 x rfl
    simp only [Nat.add_zero] at h0
    simp only [List.map_cons, List.nodup_cons] at hnd
    obtain ⟨⟨c2, o2⟩, h2⟩ := feedMonos_some cfg cur sched xs (k + 1) (Function.update cam x.cam c) hnd.2 (by
      intro j y hy
      have hc : y.cam ≠ x.cam := fun e => hnd.1 (List.mem_map.mpr ⟨y, List.mem_of_getElem? hy, e⟩)
      rw [Function.update_of_ne hc, show k + 1 + j = k + (j + 1) by omega]
      exact h (j + 1) y hy)
    rw [feedMonos, h0]
    simp only [h2]
    exact ⟨_, rfl⟩

/-! ### stereo -/

theorem stereoNew_spec (IL IR : Img) (lr : ℕ → Pt × Bool) : ∀ (new : List Pt) (k cur : ℕ),
    let r := stereoNew IL IR lr k cur new
    r.1.1.length = r.1.2.length ∧ r.2.1.1.length = r.2.1.2.length ∧ r.1.2 = List.range' (cur + 1) (r.2.2 - cur) ∧ cur ≤ r.2.2 ∧ r.2.1.2.Sublist r.1.2
  | [], k, cur => by simp [stereoNew]
  | p :: ps, k, cur => by
    intro r
    simp only [r, stereoNew]
    have h1 := stereoNew_spec IL IR lr ps (k + 1) (cur + 1)
    have h2 := stereoNew_spec IL IR lr ps (k + 1) cur
    simp only at h1 h2
    obtain ⟨a1, a2, a3, a4, a5⟩ := h1
    have e : (stereoNew IL IR lr (k + 1) (cur + 1) ps).2.2 - cur = ((stereoNew IL IR lr (k + 1) (cur + 1) ps).2.2 - (cur + 1)) + 1 := by omega
    split_ifs with c1 c2
    · refine ⟨by simp [a1], by simp [a2], ?_, by dsimp only; omega, a5.cons_cons _⟩
      dsimp only
      rw [e, List.range'_succ, ← a3]
    · refine ⟨by simp [a1], a2, ?_, by dsimp only; omega, a5.trans (List.sublist_cons_self _ _)⟩
      dsimp only
      rw [e, List.range'_succ, ← a3]
    · exact h2

structure DetOk (il ir : List ℕ) (cur : ℕ) (d : Det) : Prop where
  lenL : d.pl.length = d.il.length
  lenR : d.pr.length = d.ir.length
  ndL : d.il.Nodup
  ndR : d.ir.Nodup
  le : cur ≤ d.cur
  memL : ∀ i ∈ d.il, i ∈ il ∨ (cur < i ∧ i ≤ d.cur)
  memR : ∀ i ∈ d.ir, i ∈ ir ∨ (cur < i ∧ i ≤ d.cur)
  both : ∀ i, i ∈ d.il → i ∈ d.ir → (i ∈ il ∧ i ∈ ir) ∨ i ∈ d.born
  bornNd : d.born.Nodup
  bornNew : ∀ i ∈ d.born, cur < i ∧ i ≤ d.cur

theorem detectStereo_spec (cfg : TCfg) (IL IR : Img) (pl : List Pt) (il : List ℕ) (pr : List Pt) (ir : List ℕ) (cur : ℕ) (extL extR : List Pt) (lr : ℕ → Pt × Bool)
    (hl : pl.length = il.length) (hr : pr.length = ir.length) (nl : il.Nodup) (nr : ir.Nodup) (bl : ∀ i ∈ il, i ≤ cur) (br : ∀ i ∈ ir, i ≤ cur) :
    ∃ d, detectStereo cfg IL IR pl il pr ir cur extL extR lr = some d ∧ DetOk il ir cur d := by
  obtain ⟨⟨ps, is, occ⟩, h1, h2, h3, -⟩ := prune_spec cfg IL (fun _ => false) pl il [] hl
  simp only at h2 h3
  have his := zip_ids h2 hl h3
  unfold detectStereo
  simp only [h1]
  set n := if needStereo cfg ps.length then stereoNew IL IR lr 0 cur (addNew cfg IL occ extL) else (([], []), ([], []), cur) with hn
  have hnS : n.1.1.length = n.1.2.length ∧ n.2.1.1.length = n.2.1.2.length ∧ n.1.2 = List.range' (cur + 1) (n.2.2 - cur) ∧ cur ≤ n.2.2 ∧ n.2.1.2.Sublist n.1.2 := by
    rw [hn]; split_ifs
    · exact stereoNew_spec IL IR lr _ 0 cur
    · simp
  clear_value n
  obtain ⟨a1, a2, a3, a4, a5⟩ := hnS
  have hm : ∀ i ∈ n.1.2, cur < i ∧ i ≤ n.2.2 := by
    intro i hi; rw [a3, List.mem_range'_1] at hi; omega
  have hmnd : n.1.2.Nodup := by rw [a3]; exact List.nodup_range'
  obtain ⟨⟨qs, js, occ1⟩, g1, g2, g3, -⟩ := prune_spec cfg IR (fun i => (is ++ n.1.2).contains i) (pr ++ n.2.1.1) (ir ++ n.2.1.2) [] (by simp [hr, a2])
  simp only at g2 g3
  have hjs := zip_ids g2 (by simp [hr, a2]) g3
  simp only [g1]
  refine ⟨_, rfl, ?_⟩
  generalize hnew : (if needStereo cfg qs.length then addNew cfg IR occ1 extR else []) = new
  obtain ⟨d1, d2⟩ := drawIds_spec new.length n.2.2
  have dm : ∀ i ∈ (drawIds n.2.2 new.length).1, n.2.2 < i ∧ i ≤ n.2.2 + new.length := by
    intro i hi; rw [d1, List.mem_range'_1] at hi; omega
  have hirn : (ir ++ n.2.1.2).Nodup := by
    rw [List.nodup_append]
    exact ⟨nr, hmnd.sublist a5, fun a ha b hb e => by have := br a ha; have := (hm b (a5.subset hb)).1; omega⟩
  have jm : ∀ i ∈ js, i ∈ ir ∨ i ∈ n.2.1.2 := fun i hi => List.mem_append.mp (hjs.subset hi)
  constructor
  · simp [h2, a1]
  · simp [g2, d1]
  · simp only
    rw [List.nodup_append]
    exact ⟨nl.sublist his, hmnd, fun a ha b hb e => by have := bl a (his.subset ha); have := (hm b hb).1; omega⟩
  · simp only
    rw [List.nodup_append]
    refine ⟨hirn.sublist hjs, by rw [d1]; exact List.nodup_range', fun a ha b hb e => ?_⟩
    have := (dm b hb).1
    rcases jm a ha with h | h
    · have := br a h; omega
    · have := (hm a (a5.subset h)).2; omega
  · simp only; omega
  · intro i hi
    simp only [List.mem_append] at hi
    rcases hi with h | h
    · exact Or.inl (his.subset h)
    · have := hm i h; right; simp only; omega
  · intro i hi
    simp only [List.mem_append] at hi
    rcases hi with h | h
    · rcases jm i h with h | h
      · exact Or.inl h
      · have := hm i (a5.subset h); right; simp only; omega
    · have := dm i h; right; simp only; omega
  · intro i hi hj
    simp only [List.mem_append] at hi hj
    rcases hj with hj | hj
    · rcases jm i hj with hj | hj
      · rcases hi with hi | hi
        · exact Or.inl ⟨his.subset hi, hj⟩
        · have := br i hj; have := (hm i hi).1; omega
      · exact Or.inr hj
    · have b := (dm i hj).1
      rcases hi with hi | hi
      · have := bl i (his.subset hi); omega
      · have := (hm i hi).2; omega
  · exact hmnd.sublist a5
  · intro i hi
    have := hm i (a5.subset hi)
    simp only; omega

/-- as in the code, in the stereo call the left bounds are `<=` -/
def inImgL (I : Img) (p : Pt) : Prop := 0 ≤ p.1 ∧ 0 ≤ p.2 ∧ trunc p.1 ≤ I.cols ∧ trunc p.2 ≤ I.rows

theorem leftLoop_spec (IL IR : Img) (newR : List Pt) (idsR : List ℕ) (maskR : List Bool) (hR : newR.length = idsR.length) (hR2 : maskR.length = newR.length) :
    ∀ (pts : List Pt) (ids : List ℕ) (ms : List Bool), pts.length = ids.length → ms.length = pts.length →
    ∃ r, leftLoop IL IR newR idsR maskR pts ids ms = some r ∧ r.1.1.length = r.1.2.length ∧ r.2.1.length = r.2.2.length ∧ r.1.2.Sublist ids ∧ r.2.2.Sublist r.1.2 ∧
      (∀ p i, (p, i) ∈ r.1.1.zip r.1.2 → At3 pts ids ms p i true ∧ inImgL IL p) ∧
      (∀ q j, (q, j) ∈ r.2.1.zip r.2.2 → At3 newR idsR maskR q j true ∧ inImg IR q)
  | [], ids, ms, _, _ => ⟨(([], []), ([], [])), by simp [leftLoop], rfl, rfl, by simp, by simp, by simp, by simp⟩
  | p :: ps, [], ms, h, _ => by simp at h
  | p :: ps, i :: is, [], _, h => by simp at h
  | p :: ps, i :: is, m :: ms, h, h' => by
    obtain ⟨r, h1, h2, h3, h4, h5, h6, h7⟩ := leftLoop_spec IL IR newR idsR maskR hR hR2 ps is ms (by simpa using h) (by simpa using h')
    rw [leftLoop, h1]
    simp only
    have skip : ∃ r', some r = some r' ∧ r'.1.1.length = r'.1.2.length ∧ r'.2.1.length = r'.2.2.length ∧ r'.1.2.Sublist (i :: is) ∧ r'.2.2.Sublist r'.1.2 ∧
      (∀ q j, (q, j) ∈ r'.1.1.zip r'.1.2 → At3 (p :: ps) (i :: is) (m :: ms) q j true ∧ inImgL IL q) ∧
      (∀ q j, (q, j) ∈ r'.2.1.zip r'.2.2 → At3 newR idsR maskR q j true ∧ inImg IR q) :=
      ⟨r, rfl, h2, h3, h4.trans (List.sublist_cons_self _ _), h5, fun q j hq => ⟨(h6 q j hq).1.cons _ _ _, (h6 q j hq).2⟩, h7⟩
    split_ifs with c1 c2
    · exact skip
    · exact skip
    · have hm : m = true := by simpa using c2
      simp only [Bool.or_eq_true, decide_eq_true_eq, not_or, not_lt] at c1
      obtain ⟨⟨⟨b1, b2⟩, b3⟩, b4⟩ := c1
      have left : ∀ q j, (q, j) ∈ (p :: r.1.1).zip (i :: r.1.2) → At3 (p :: ps) (i :: is) (m :: ms) q j true ∧ inImgL IL q := by
        intro q j hq
        simp only [List.zip_cons_cons, List.mem_cons, Prod.mk.injEq] at hq
        rcases hq with ⟨rfl, rfl⟩ | hq
        · exact ⟨⟨0, rfl, rfl, by rw [hm]; rfl⟩, b1, b2, b3, b4⟩
        · exact ⟨(h6 q j hq).1.cons _ _ _, (h6 q j hq).2⟩
      have only : ∃ r', some ((p :: r.1.1, i :: r.1.2), r.2) = some r' ∧ r'.1.1.length = r'.1.2.length ∧ r'.2.1.length = r'.2.2.length ∧ r'.1.2.Sublist (i :: is) ∧ r'.2.2.Sublist r'.1.2 ∧
        (∀ q j, (q, j) ∈ r'.1.1.zip r'.1.2 → At3 (p :: ps) (i :: is) (m :: ms) q j true ∧ inImgL IL q) ∧
        (∀ q j, (q, j) ∈ r'.2.1.zip r'.2.2 → At3 newR idsR maskR q j true ∧ inImg IR q) :=
        ⟨_, rfl, by simp [h2], h3, h4.cons_cons i, h5.trans (List.sublist_cons_self _ _), left, h7⟩
      rcases hf : idsR.findIdx? (· = i) with _ | n
      · exact only
      · rw [List.findIdx?_eq_some_iff_getElem] at hf
        obtain ⟨hn, he, -⟩ := hf
        have he : idsR[n] = i := by simpa using he
        have q1 : idsR[n]? = some i := by rw [List.getElem?_eq_getElem hn, he]
        have q2 : newR[n]? = some (newR[n]'(by omega)) := List.getElem?_eq_getElem _
        have q3 : maskR[n]? = some (maskR[n]'(by omega)) := List.getElem?_eq_getElem _
        generalize newR[n]'(by omega) = q at q2
        generalize maskR[n]'(by omega) = b at q3
        simp only [q1, q2, q3]
        cases b
        · exact only
        · simp only
          split_ifs with c3
          · exact skip
          · simp only [Bool.or_eq_true, decide_eq_true_eq, not_or, not_lt, not_le] at c3
            obtain ⟨⟨⟨d1, d2⟩, d3⟩, d4⟩ := c3
            refine ⟨_, rfl, by simp [h2], by simp [h3], h4.cons_cons i, h5.cons_cons i, left, ?_⟩
            intro q' j hq
            simp only [List.zip_cons_cons, List.mem_cons, Prod.mk.injEq] at hq
            rcases hq with ⟨rfl, rfl⟩ | hq
            · exact ⟨⟨n, q2, q1, q3⟩, d1, d2, d3, d4⟩
            · exact h7 q' j hq

theorem rightLoop_spec (IR : Img) : ∀ (pts : List Pt) (ids : List ℕ) (ms : List Bool) (g : List Pt) (gi : List ℕ), pts.length = ids.length → ms.length = pts.length →
    g.length = gi.length → gi.Nodup →
    ∃ r, rightLoop IR g gi pts ids ms = some r ∧ r.1.length = r.2.length ∧ r.2.Nodup ∧ (∃ t, r.2 = gi ++ t ∧ t.Sublist ids) ∧
      (∀ p i, (p, i) ∈ r.1.zip r.2 → (p, i) ∈ g.zip gi ∨ (At3 pts ids ms p i true ∧ inImg IR p))
  | [], ids, ms, g, gi, _, _, h3, h4 => ⟨(g, gi), by simp [rightLoop], h3, h4, ⟨[], by simp, by simp⟩, fun p i h => Or.inl h⟩
  | p :: ps, [], ms, _, _, h, _, _, _ => by simp at h
  | p :: ps, i :: is, [], _, _, _, h, _, _ => by simp at h
  | p :: ps, i :: is, m :: ms, g, gi, h1, h2, h3, h4 => by
    have skip : ∃ r, rightLoop IR g gi ps is ms = some r ∧ r.1.length = r.2.length ∧ r.2.Nodup ∧ (∃ t, r.2 = gi ++ t ∧ t.Sublist (i :: is)) ∧
      (∀ q j, (q, j) ∈ r.1.zip r.2 → (q, j) ∈ g.zip gi ∨ (At3 (p :: ps) (i :: is) (m :: ms) q j true ∧ inImg IR q)) := by
      obtain ⟨r, e1, e2, e3, ⟨t, e4, e4'⟩, e5⟩ := rightLoop_spec IR ps is ms g gi (by simpa using h1) (by simpa using h2) h3 h4
      exact ⟨r, e1, e2, e3, ⟨t, e4, e4'.trans (List.sublist_cons_self _ _)⟩, fun q j hq => (e5 q j hq).imp id fun h => ⟨h.1.cons _ _ _, h.2⟩⟩
    rw [rightLoop]
    split_ifs with c1 c2
    · exact skip
    · simp only [Bool.and_eq_true, Bool.not_eq_true', List.contains_eq_mem, decide_eq_false_iff_not] at c2
      simp only [Bool.or_eq_true, decide_eq_true_eq, not_or, not_lt, not_le] at c1
      obtain ⟨⟨⟨b1, b2⟩, b3⟩, b4⟩ := c1
      obtain ⟨r, e1, e2, e3, ⟨t, e4, e4'⟩, e5⟩ := rightLoop_spec IR ps is ms (g ++ [p]) (gi ++ [i]) (by simpa using h1) (by simpa using h2) (by simp [h3]) (by
        rw [List.nodup_append]
        exact ⟨h4, by simp, fun a ha b hb e => by simp only [List.mem_singleton] at hb; subst hb; subst e; exact c2.2 ha⟩)
      refine ⟨r, e1, e2, e3, ⟨i :: t, by rw [e4]; simp, e4'.cons_cons i⟩, ?_⟩
      intro q j hq
      rcases e5 q j hq with hh | hh
      · rw [List.zip_append h3] at hh
        simp only [List.zip_cons_cons, List.zip_nil_right, List.mem_append, List.mem_singleton, Prod.mk.injEq] at hh
        rcases hh with hh | ⟨rfl, rfl⟩
        · exact Or.inl hh
        · exact Or.inr ⟨⟨0, rfl, rfl, by rw [c2.1]; rfl⟩, b1, b2, b3, b4⟩
      · exact Or.inr ⟨hh.1.cons _ _ _, hh.2⟩
    · exact skip

end Verif.Track
