import Verif.Track.PropsDetect

/-!
# C64: exactly which pixels are stored for a tracked feature
-/

set_option autoImplicit false

namespace Verif.Track

theorem matching_iff (flow : ℕ → Pt × Bool) (pts : List Pt) (k : ℕ) (p : Pt) :
    ((matching flow pts).1[k]? = some p ∧ (matching flow pts).2[k]? = some true) ↔ 10 ≤ pts.length ∧ k < pts.length ∧ flow k = (p, true) := by
  constructor
  · rintro ⟨h1, h2⟩
    have hf := matching_true flow pts k p h1 h2
    have hk : k < pts.length := by
      rw [← (matching_length flow pts).1]
      exact (List.getElem?_eq_some_iff.1 h1).1
    refine ⟨?_, hk, hf⟩
    by_contra hlt
    unfold matching at h2
    rw [if_pos (by omega), List.getElem?_map, Option.map_eq_some_iff] at h2
    obtain ⟨_, -, h⟩ := h2
    simp at h
  · rintro ⟨h1, h2, h3⟩
    unfold matching
    rw [if_neg (by omega)]
    simp [h2, h3]

theorem zip_mem_iff {α β : Type} {l : List α} {m : List β} {a : α} {b : β} : (a, b) ∈ l.zip m ↔ ∃ k : ℕ, l[k]? = some a ∧ m[k]? = some b := by
  rw [List.mem_iff_getElem?]
  simp only [List.getElem?_zip_eq_some]

theorem zip_swap {α β : Type} {l : List α} {m : List β} {a : α} {b : β} : (a, b) ∈ l.zip m ↔ (b, a) ∈ m.zip l := by
  rw [zip_mem_iff, zip_mem_iff]
  exact ⟨fun ⟨k, h1, h2⟩ => ⟨k, h2, h1⟩, fun ⟨k, h1, h2⟩ => ⟨k, h2, h1⟩⟩

theorem At3.uncons {α β γ : Type} {l : List α} {m : List β} {n : List γ} {a : α} {b : β} {c : γ} {x : α} {y : β} {z : γ} (h : At3 (x :: l) (y :: m) (z :: n) a b c) :
    (a = x ∧ b = y ∧ c = z) ∨ At3 l m n a b c := by
  obtain ⟨k, h1, h2, h3⟩ := h
  cases k with
  | zero =>
    simp only [List.getElem?_cons_zero, Option.some.injEq] at h1 h2 h3
    exact Or.inl ⟨h1.symm, h2.symm, h3.symm⟩
  | succ k => exact Or.inr ⟨k, by simpa using h1, by simpa using h2, by simpa using h3⟩

theorem monoLoop_complete (I : Img) : ∀ (pts : List Pt) (ids : List ℕ) (ms : List Bool) (r : List Pt × List ℕ), monoLoop I pts ids ms = some r →
    ∀ p i, At3 pts ids ms p i true → inImg I p → I.mask (trunc p.1) (trunc p.2) = false → (p, i) ∈ r.1.zip r.2
  | [], ids, ms, r, _, p, i, ⟨k, h, _, _⟩, _, _ => by simp at h
  | p0 :: ps, [], ms, r, h, p, i, _, _, _ => by simp [monoLoop] at h
  | p0 :: ps, i0 :: is, [], r, h, p, i, _, _, _ => by simp [monoLoop] at h
  | p0 :: ps, i0 :: is, m0 :: ms, r, h, p, i, hat, hin, hmask => by
    rw [monoLoop] at h
    have ih := monoLoop_complete I ps is ms
    rcases hat.uncons with ⟨rfl, rfl, rfl⟩ | hat'
    · obtain ⟨a1, a2, a3, a4⟩ := hin
      rw [if_neg (by simp only [Bool.or_eq_true, decide_eq_true_eq, not_or, not_lt, not_le]; exact ⟨⟨⟨a1, a2⟩, a3⟩, a4⟩), Img.masked?, if_pos ⟨trunc_nonneg a1, a3, trunc_nonneg a2, a4⟩, hmask] at h
      simp only [if_true] at h
      rcases hr : monoLoop I ps is ms with _ | r'
      · simp [hr] at h
      · simp only [hr, Option.some.injEq] at h
        rw [← h]
        simp
    · by_cases c1 : (p0.1 < 0 || p0.2 < 0 || decide (I.cols ≤ trunc p0.1) || decide (I.rows ≤ trunc p0.2)) = true
      · rw [if_pos c1] at h
        exact ih r h p i hat' hin hmask
      · rw [if_neg c1] at h
        rcases hm : I.masked? (trunc p0.1) (trunc p0.2) with _ | _ | _
        · simp [hm] at h
        · simp only [hm] at h
          by_cases c2 : m0 = true
          · rw [if_pos c2] at h
            rcases hr : monoLoop I ps is ms with _ | r'
            · simp [hr] at h
            · simp only [hr, Option.some.injEq] at h
              rw [← h, List.zip_cons_cons]
              exact List.mem_cons_of_mem _ (ih r' hr p i hat' hin hmask)
          · rw [if_neg c2] at h
            exact ih r h p i hat' hin hmask
        · simp only [hm] at h
          exact ih r h p i hat' hin hmask

/-- the points the detection leaves, old and new, with their ids -/
def Spec.Detected (cfg : TCfg) (c : Cam) (ext : List Pt) (fresh : List ℕ) (pts : List Pt) (ids : List ℕ) : Prop :=
  ∃ ps is new, detectMono cfg c.img c.pts c.ids ext = some (ps, is, new) ∧ fresh.length = new.length ∧ pts = ps ++ new ∧ ids = is ++ fresh

/-- **C64** (exactly the tracked points, mono) If the camera has points, the pixels stored for the image, with their ids, are those of exactly the points left by the detection (at least ten) whose flow is accepted and ends inside the image
and outside of its mask. -/
theorem C64_observed_mono (cfg : TCfg) (c : Cam) (I : Img) (ext : List Pt) (flow : ℕ → Pt × Bool) (fresh : List ℕ) (c' : Cam) (obs : List (ℕ × Pt)) (hl : c.pts.length = c.ids.length) (hne : c.pts ≠ [])
    (hf : feedMono cfg c I ext flow fresh = some (c', obs)) :
    ∃ pts ids, Spec.Detected cfg c ext fresh pts ids ∧
      ∀ i p, (i, p) ∈ obs ↔ 10 ≤ pts.length ∧ (∃ k : ℕ, ids[k]? = some i ∧ flow k = (p, true)) ∧ 0 ≤ p.1 ∧ 0 ≤ p.2 ∧ trunc p.1 < I.cols ∧ trunc p.2 < I.rows ∧ I.mask (trunc p.1) (trunc p.2) = false := by
  obtain ⟨r, h1, h2, -⟩ := detectMono_spec cfg c.img c.pts c.ids ext hl
  have hE : c.pts.isEmpty = false := by simpa using hne
  unfold feedMono at hf
  simp only [hE, Bool.false_eq_true, if_false, h1] at hf
  by_cases hfl : fresh.length = r.2.2.length
  · have hlen : (r.1 ++ r.2.2).length = (r.2.1 ++ fresh).length := by simp [h2, hfl]
    obtain ⟨m1, m2⟩ := matching_length flow (r.1 ++ r.2.2)
    rw [if_neg (not_not.2 hfl), if_neg (not_not.2 (by rw [m1, hlen]))] at hf
    refine ⟨r.1 ++ r.2.2, r.2.1 ++ fresh, ⟨r.1, r.2.1, r.2.2, h1, hfl, rfl, rfl⟩, fun i p => ?_⟩
    by_cases hem : (matching flow (r.1 ++ r.2.2)).2.isEmpty = true
    · rw [if_pos hem] at hf
      simp only [Option.some.injEq, Prod.mk.injEq] at hf
      rw [← hf.2]
      have : (r.1 ++ r.2.2).length = 0 := by rw [← m2]; simpa [List.isEmpty_iff] using hem
      constructor
      · simp
      · rintro ⟨h10, -⟩; omega
    · rw [if_neg hem] at hf
      rcases hr : monoLoop I (matching flow (r.1 ++ r.2.2)).1 (r.2.1 ++ fresh) (matching flow (r.1 ++ r.2.2)).2 with _ | g
      · simp [hr] at hf
      · simp only [hr, Option.some.injEq, Prod.mk.injEq] at hf
        obtain ⟨g', e1, e2, e3, e4⟩ := monoLoop_spec I (matching flow (r.1 ++ r.2.2)).1 (r.2.1 ++ fresh) (matching flow (r.1 ++ r.2.2)).2 (by rw [m1, hlen]) (by rw [m1, m2])
        rw [hr, Option.some.injEq] at e1
        subst e1
        rw [← hf.2, zip_swap]
        constructor
        · intro hm
          obtain ⟨⟨k, k1, k2, k3⟩, ⟨b1, b2, b3, b4⟩, hmask⟩ := e4 p i hm
          obtain ⟨q1, q2, q3⟩ := (matching_iff flow _ k p).1 ⟨k1, k3⟩
          exact ⟨q1, ⟨k, k2, q3⟩, b1, b2, b3, b4, hmask⟩
        · rintro ⟨h10, ⟨k, k2, k3⟩, b1, b2, b3, b4, hmask⟩
          have hk : k < (r.1 ++ r.2.2).length := by rw [hlen]; exact (List.getElem?_eq_some_iff.1 k2).1
          obtain ⟨q1, q2⟩ := (matching_iff flow _ k p).2 ⟨h10, hk, k3⟩
          exact monoLoop_complete I _ _ _ _ hr p i ⟨k, q1, k2, q2⟩ ⟨b1, b2, b3, b4⟩ hmask
  · rw [if_pos hfl] at hf
    cases hf

/-! ## stereo -/

theorem findIdx_id {ids : List ℕ} {i n : ℕ} (h : ids.findIdx? (· = i) = some n) : ids[n]? = some i := by
  obtain ⟨hn, h1, -⟩ := List.findIdx?_eq_some_iff_getElem.1 h
  rw [List.getElem?_eq_getElem hn]
  simpa using h1

theorem leftLoop_exact (IL IR : Img) (newR : List Pt) (idsR : List ℕ) (maskR : List Bool) (hnd : idsR.Nodup) : ∀ (pts : List Pt) (ids : List ℕ) (ms : List Bool) (r : (List Pt × List ℕ) × (List Pt × List ℕ)),
    leftLoop IL IR newR idsR maskR pts ids ms = some r → ∀ p i, (p, i) ∈ r.1.1.zip r.1.2 ↔ At3 pts ids ms p i true ∧ inImgL IL p ∧ ∀ q, At3 newR idsR maskR q i true → inImg IR q
  | [], ids, ms, r, h, p, i => by
    simp only [leftLoop, Option.some.injEq] at h
    rw [← h]
    constructor
    · simp
    · rintro ⟨⟨k, hk, -⟩, -⟩; simp at hk
  | p0 :: ps, [], ms, r, h, p, i => by simp [leftLoop] at h
  | p0 :: ps, i0 :: is, [], r, h, p, i => by simp [leftLoop] at h
  | p0 :: ps, i0 :: is, m0 :: ms, r, h, p, i => by
    rw [leftLoop] at h
    rcases hr : leftLoop IL IR newR idsR maskR ps is ms with _ | r'
    · simp [hr] at h
    have ih := leftLoop_exact IL IR newR idsR maskR hnd ps is ms r' hr p i
    simp only [hr] at h
    have uniq : ∀ {a b : ℕ}, idsR[a]? = some i0 → idsR[b]? = some i0 → a = b := fun {a b} ha hb => by
      obtain ⟨ha', ha⟩ := List.getElem?_eq_some_iff.1 ha
      obtain ⟨hb', hb⟩ := List.getElem?_eq_some_iff.1 hb
      exact (List.Nodup.getElem_inj_iff hnd).1 (ha.trans hb.symm)
    -- the head is left out, and does not satisfy the condition
    have out : r = r' → ¬ (m0 = true ∧ inImgL IL p0 ∧ ∀ q, At3 newR idsR maskR q i0 true → inImg IR q) →
        ((p, i) ∈ r.1.1.zip r.1.2 ↔ At3 (p0 :: ps) (i0 :: is) (m0 :: ms) p i true ∧ inImgL IL p ∧ ∀ q, At3 newR idsR maskR q i true → inImg IR q) := by
      rintro rfl hno
      rw [ih]
      constructor
      · rintro ⟨a, b⟩; exact ⟨a.cons _ _ _, b⟩
      · rintro ⟨a, b, c⟩
        rcases a.uncons with ⟨rfl, rfl, e⟩ | a
        · exact absurd ⟨e.symm, b, c⟩ hno
        · exact ⟨a, b, c⟩
    have inn : r.1 = (p0 :: r'.1.1, i0 :: r'.1.2) → (m0 = true ∧ inImgL IL p0 ∧ ∀ q, At3 newR idsR maskR q i0 true → inImg IR q) →
        ((p, i) ∈ r.1.1.zip r.1.2 ↔ At3 (p0 :: ps) (i0 :: is) (m0 :: ms) p i true ∧ inImgL IL p ∧ ∀ q, At3 newR idsR maskR q i true → inImg IR q) := by
      rintro e ⟨rfl, h1, h2⟩
      rw [e, List.zip_cons_cons, List.mem_cons, ih]
      constructor
      · rintro (e | ⟨a, b⟩)
        · obtain ⟨rfl, rfl⟩ := Prod.mk.inj e
          exact ⟨⟨0, rfl, rfl, rfl⟩, h1, h2⟩
        · exact ⟨a.cons _ _ _, b⟩
      · rintro ⟨a, b, c⟩
        rcases a.uncons with ⟨rfl, rfl, -⟩ | a
        · exact Or.inl rfl
        · exact Or.inr ⟨a, b, c⟩
    by_cases c1 : (p0.1 < 0 || p0.2 < 0 || decide (IL.cols < trunc p0.1) || decide (IL.rows < trunc p0.2)) = true
    · rw [if_pos c1, Option.some.injEq] at h
      refine out h.symm ?_
      rintro ⟨-, ⟨b1, b2, b3, b4⟩, -⟩
      simp only [Bool.or_eq_true, decide_eq_true_eq] at c1
      rcases c1 with ((c1 | c1) | c1) | c1
      · exact absurd c1 (not_lt.2 b1)
      · exact absurd c1 (not_lt.2 b2)
      · omega
      · omega
    · rw [if_neg c1] at h
      simp only [Bool.or_eq_true, decide_eq_true_eq, not_or, not_lt] at c1
      obtain ⟨⟨⟨d1, d2⟩, d3⟩, d4⟩ := c1
      have hin : inImgL IL p0 := ⟨d1, d2, d3, d4⟩
      by_cases c2 : (!m0) = true
      · rw [if_pos c2, Option.some.injEq] at h
        exact out h.symm fun hh => by simp [hh.1] at c2
      · rw [if_neg c2] at h
        have hm0 : m0 = true := by simpa using c2
        rcases hfi : idsR.findIdx? (· = i0) with _ | n
        · simp only [hfi, Option.some.injEq] at h
          refine inn (by rw [← h]) ⟨hm0, hin, ?_⟩
          rintro q ⟨k, -, k2, -⟩
          rw [List.findIdx?_eq_none_iff] at hfi
          have := hfi i0 (List.mem_of_getElem? k2)
          simp at this
        · have hn := findIdx_id hfi
          simp only [hfi] at h
          rcases hmn : maskR[n]? with _ | _ | _
          · simp [hmn] at h
          · simp only [hmn, Option.some.injEq] at h
            refine inn (by rw [← h]) ⟨hm0, hin, ?_⟩
            rintro q ⟨k, -, k2, k3⟩
            obtain rfl := uniq k2 hn
            rw [hmn] at k3
            simp at k3
          · rcases hqn : newR[n]? with _ | q
            · simp [hmn, hqn] at h
            · simp only [hmn, hqn, hn] at h
              have hall : (∀ q', At3 newR idsR maskR q' i0 true → inImg IR q') ↔ inImg IR q := by
                constructor
                · intro hh; exact hh q ⟨n, hqn, hn, hmn⟩
                · rintro hh q' ⟨k, k1, k2, -⟩
                  obtain rfl := uniq k2 hn
                  rw [hqn, Option.some.injEq] at k1
                  rwa [← k1]
              by_cases c3 : (q.1 < 0 || q.2 < 0 || decide (IR.cols ≤ trunc q.1) || decide (IR.rows ≤ trunc q.2)) = true
              · rw [if_pos c3, Option.some.injEq] at h
                refine out h.symm ?_
                rintro ⟨-, -, hh⟩
                obtain ⟨b1, b2, b3, b4⟩ := hall.1 hh
                simp only [Bool.or_eq_true, decide_eq_true_eq] at c3
                rcases c3 with ((c3 | c3) | c3) | c3
                · exact absurd c3 (not_lt.2 b1)
                · exact absurd c3 (not_lt.2 b2)
                · omega
                · omega
              · rw [if_neg c3, Option.some.injEq] at h
                simp only [Bool.or_eq_true, decide_eq_true_eq, not_or, not_lt, not_le] at c3
                exact inn (by rw [← h]) ⟨hm0, hin, hall.2 ⟨c3.1.1.1, c3.1.1.2, c3.1.2, c3.2⟩⟩

theorem zip_append_mem {α β : Type} {l l' : List α} {m m' : List β} (h : l.length = m.length) {x : α × β} (hx : x ∈ l.zip m) : x ∈ (l ++ l').zip (m ++ m') := by
  rw [List.zip_append h]
  exact List.mem_append_left _ hx

theorem rightLoop_complete (IR : Img) : ∀ (pts : List Pt) (ids : List ℕ) (ms : List Bool) (g : List Pt) (gi : List ℕ) (r : List Pt × List ℕ), rightLoop IR g gi pts ids ms = some r → g.length = gi.length → ids.Nodup →
    (∀ q j, At3 pts ids ms q j true → j ∈ gi → (q, j) ∈ g.zip gi) → (∀ x ∈ g.zip gi, x ∈ r.1.zip r.2) ∧ ∀ q j, At3 pts ids ms q j true → inImg IR q → (q, j) ∈ r.1.zip r.2
  | [], ids, ms, g, gi, r, h, _, _, _ => by
    simp only [rightLoop, Option.some.injEq] at h
    rw [← h]
    exact ⟨fun x hx => hx, fun q j ⟨k, hk, _⟩ => by simp at hk⟩
  | q0 :: qs, [], ms, g, gi, r, h, _, _, _ => by simp [rightLoop] at h
  | q0 :: qs, j0 :: js, [], g, gi, r, h, _, _, _ => by simp [rightLoop] at h
  | q0 :: qs, j0 :: js, m0 :: ms, g, gi, r, h, hl, hnd, hH => by
    rw [rightLoop] at h
    obtain ⟨hj0, hnd'⟩ := List.nodup_cons.1 hnd
    have H0 : ∀ q j, At3 qs js ms q j true → j ∈ gi → (q, j) ∈ g.zip gi := fun q j hat => hH q j (hat.cons _ _ _)
    by_cases c1 : (q0.1 < 0 || q0.2 < 0 || decide (IR.cols ≤ trunc q0.1) || decide (IR.rows ≤ trunc q0.2)) = true
    · rw [if_pos c1] at h
      obtain ⟨i1, i2⟩ := rightLoop_complete IR qs js ms g gi r h hl hnd' H0
      refine ⟨i1, fun q j hat hin => ?_⟩
      rcases hat.uncons with ⟨rfl, rfl, -⟩ | hat
      · obtain ⟨b1, b2, b3, b4⟩ := hin
        simp only [Bool.or_eq_true, decide_eq_true_eq] at c1
        rcases c1 with ((c1 | c1) | c1) | c1
        · exact absurd c1 (not_lt.2 b1)
        · exact absurd c1 (not_lt.2 b2)
        · omega
        · omega
      · exact i2 q j hat hin
    · rw [if_neg c1] at h
      by_cases c2 : (m0 && !gi.contains j0) = true
      · rw [if_pos c2] at h
        have H1 : ∀ q j, At3 qs js ms q j true → j ∈ gi ++ [j0] → (q, j) ∈ (g ++ [q0]).zip (gi ++ [j0]) := by
          intro q j hat hj
          rcases List.mem_append.1 hj with hj | hj
          · exact zip_append_mem hl (H0 q j hat hj)
          · obtain ⟨k, -, k2, -⟩ := hat
            rw [List.mem_singleton] at hj
            subst hj
            exact absurd (List.mem_of_getElem? k2) hj0
        obtain ⟨i1, i2⟩ := rightLoop_complete IR qs js ms (g ++ [q0]) (gi ++ [j0]) r h (by simp [hl]) hnd' H1
        refine ⟨fun x hx => i1 x (zip_append_mem hl hx), fun q j hat hin => ?_⟩
        rcases hat.uncons with ⟨rfl, rfl, -⟩ | hat
        · apply i1
          rw [List.zip_append hl]
          simp
        · exact i2 q j hat hin
      · rw [if_neg c2] at h
        obtain ⟨i1, i2⟩ := rightLoop_complete IR qs js ms g gi r h hl hnd' H0
        refine ⟨i1, fun q j hat hin => ?_⟩
        rcases hat.uncons with ⟨rfl, rfl, rfl⟩ | hat
        · apply i1
          apply hH q j ⟨0, rfl, rfl, rfl⟩
          simpa using c2
        · exact i2 q j hat hin

/-- **C64** (exactly the tracked points, stereo) With at least one point in either camera: the right image is given exactly the points left by the detection there (at least ten) whose flow is accepted and ends in the image. The left image is given
those whose flow is accepted and ends in the image (the last column and row included, see `C64_left_bound_wrong`), except that a point whose partner's flow is accepted but ends outside of the right image is dropped. -/
theorem C64_observed_stereo (cfg : TCfg) (cl cr : Cam) (cur : ℕ) (x : StereoIn) (o : StereoOut) (ll : cl.pts.length = cl.ids.length) (lr : cr.pts.length = cr.ids.length)
    (nl : cl.ids.Nodup) (nr : cr.ids.Nodup) (bl : ∀ i ∈ cl.ids, i ≤ cur) (br : ∀ i ∈ cr.ids, i ≤ cur) (hne : (cl.pts.isEmpty && cr.pts.isEmpty) = false) (hf : feedStereo cfg cl cr cur x = some o) :
    ∃ d, detectStereo cfg cl.img cr.img cl.pts cl.ids cr.pts cr.ids cur x.extL x.extR x.lr = some d ∧
    (∀ i q, (i, q) ∈ o.obsR ↔ 10 ≤ d.pr.length ∧ (∃ k : ℕ, d.ir[k]? = some i ∧ x.flowR k = (q, true)) ∧ inImg x.imgR q) ∧
    (∀ i p, (i, p) ∈ o.obsL ↔ 10 ≤ d.pl.length ∧ (∃ k : ℕ, d.il[k]? = some i ∧ x.flowL k = (p, true)) ∧ inImgL x.imgL p ∧
      ∀ (n : ℕ) q, 10 ≤ d.pr.length → d.ir[n]? = some i → x.flowR n = (q, true) → inImg x.imgR q) := by
  obtain ⟨d, hd, hok⟩ := detectStereo_spec cfg cl.img cr.img cl.pts cl.ids cr.pts cr.ids cur x.extL x.extR x.lr ll lr nl nr bl br
  have hl := hok.lenL
  have hr := hok.lenR
  refine ⟨d, hd, ?_⟩
  unfold feedStereo at hf
  rw [hne] at hf
  simp only [Bool.false_eq_true, if_false, hd] at hf
  obtain ⟨a1, a2⟩ := matching_length x.flowL d.pl
  obtain ⟨b1, b2⟩ := matching_length x.flowR d.pr
  have atR : ∀ q i, At3 (matching x.flowR d.pr).1 d.ir (matching x.flowR d.pr).2 q i true ↔ 10 ≤ d.pr.length ∧ ∃ k : ℕ, d.ir[k]? = some i ∧ x.flowR k = (q, true) := by
    intro q i
    constructor
    · rintro ⟨k, k1, k2, k3⟩
      obtain ⟨h1, h2, h3⟩ := (matching_iff _ _ k q).1 ⟨k1, k3⟩
      exact ⟨h1, k, k2, h3⟩
    · rintro ⟨h1, k, k2, k3⟩
      obtain ⟨h4, h5⟩ := (matching_iff x.flowR d.pr k q).2 ⟨h1, by rw [hr]; exact (List.getElem?_eq_some_iff.1 k2).1, k3⟩
      exact ⟨k, h4, k2, h5⟩
  have atL : ∀ p i, At3 (matching x.flowL d.pl).1 d.il (matching x.flowL d.pl).2 p i true ↔ 10 ≤ d.pl.length ∧ ∃ k : ℕ, d.il[k]? = some i ∧ x.flowL k = (p, true) := by
    intro q i
    constructor
    · rintro ⟨k, k1, k2, k3⟩
      obtain ⟨h1, h2, h3⟩ := (matching_iff _ _ k q).1 ⟨k1, k3⟩
      exact ⟨h1, k, k2, h3⟩
    · rintro ⟨h1, k, k2, k3⟩
      obtain ⟨h4, h5⟩ := (matching_iff x.flowL d.pl k q).2 ⟨h1, by rw [hl]; exact (List.getElem?_eq_some_iff.1 k2).1, k3⟩
      exact ⟨k, h4, k2, h5⟩
  by_cases hem : ((matching x.flowL d.pl).2.isEmpty && (matching x.flowR d.pr).2.isEmpty) = true
  · rw [if_pos hem, Option.some.injEq] at hf
    rw [Bool.and_eq_true, List.isEmpty_iff, List.isEmpty_iff] at hem
    rw [hem.1, List.length_nil] at a2
    rw [hem.2, List.length_nil] at b2
    subst hf
    refine ⟨fun i q => ⟨by simp, fun h => ?_⟩, fun i q => ⟨by simp, fun h => ?_⟩⟩ <;> omega
  · rw [if_neg hem] at hf
    obtain ⟨l, e1, e2, e3, e4, e5, e6, e7⟩ := leftLoop_spec x.imgL x.imgR (matching x.flowR d.pr).1 d.ir (matching x.flowR d.pr).2 (by rw [b1, hr]) (by rw [b1, b2])
      (matching x.flowL d.pl).1 d.il (matching x.flowL d.pl).2 (by rw [a1, hl]) (by rw [a1, a2])
    simp only [e1] at hf
    have ndl : l.2.2.Nodup := (hok.ndL.sublist e4).sublist e5
    obtain ⟨r, f1, f2, f3, -, f5⟩ := rightLoop_spec x.imgR (matching x.flowR d.pr).1 d.ir (matching x.flowR d.pr).2 l.2.1 l.2.2 (by rw [b1, hr]) (by rw [b1, b2]) e3 ndl
    simp only [f1, Option.some.injEq] at hf
    subst hf
    have hcomp := rightLoop_complete x.imgR _ _ _ _ _ r f1 e3 hok.ndR (by
      rintro q j ⟨k, k1, k2, k3⟩ hj
      obtain ⟨n, hn⟩ := List.mem_iff_getElem?.1 hj
      obtain ⟨hn', -⟩ := List.getElem?_eq_some_iff.1 hn
      have hq' : l.2.1[n]? = some (l.2.1[n]'(by omega)) := List.getElem?_eq_getElem _
      have hmem : (l.2.1[n]'(by omega), j) ∈ l.2.1.zip l.2.2 := zip_mem_iff.2 ⟨n, hq', hn⟩
      obtain ⟨⟨k', k1', k2', -⟩, -⟩ := e7 _ _ hmem
      have : k = k' := by
        obtain ⟨ha', ha⟩ := List.getElem?_eq_some_iff.1 k2
        obtain ⟨hb', hb⟩ := List.getElem?_eq_some_iff.1 k2'
        exact (List.Nodup.getElem_inj_iff hok.ndR).1 (ha.trans hb.symm)
      subst this
      rw [k1, Option.some.injEq] at k1'
      rwa [k1'])
    refine ⟨fun i q => ?_, fun i p => ?_⟩
    · rw [zip_swap]
      constructor
      · intro hm
        rcases f5 q i hm with hm | ⟨hat, hin⟩
        · obtain ⟨hat, hin⟩ := e7 q i hm
          obtain ⟨g1, g2⟩ := (atR q i).1 hat
          exact ⟨g1, g2, hin⟩
        · obtain ⟨g1, g2⟩ := (atR q i).1 hat
          exact ⟨g1, g2, hin⟩
      · rintro ⟨g1, g2, hin⟩
        exact hcomp.2 q i ((atR q i).2 ⟨g1, g2⟩) hin
    · rw [zip_swap, leftLoop_exact x.imgL x.imgR _ d.ir _ hok.ndR _ _ _ l e1, atL]
      constructor
      · rintro ⟨⟨g1, g2⟩, hin, hall⟩
        exact ⟨g1, g2, hin, fun n q h10 hn hfq => hall q ((atR q i).2 ⟨h10, n, hn, hfq⟩)⟩
      · rintro ⟨g1, g2, hin, hall⟩
        refine ⟨⟨g1, g2⟩, hin, fun q hat => ?_⟩
        obtain ⟨h10, n, hn, hfq⟩ := (atR q i).1 hat
        exact hall n q h10 hn hfq

/-! ## the whole message -/

theorem feedMonos_complete (cfg : TCfg) (cur : ℕ) (sched : List ℕ) : ∀ (xs : List MonoIn) (k : ℕ) (cam cam' : ℕ → Cam) (obs : List (ℕ × ℕ × Pt)), (xs.map MonoIn.cam).Nodup →
    feedMonos cfg cur sched k cam xs = some (cam', obs) → ∀ (j : ℕ) (x : MonoIn) (c' : Cam) (o : List (ℕ × Pt)), xs[j]? = some x → feedMono cfg (cam x.cam) x.img x.ext x.flow (drawn cur sched (k + j)) = some (c', o) →
    ∀ i p, (i, p) ∈ o → (x.cam, i, p) ∈ obs
  | [], k, cam, cam', obs, _, _, j, x, c', o, hx, _, i, p, _ => by simp at hx
  | x0 :: xs, k, cam, cam', obs, hnd, h, j, x, c', o, hx, hf, i, p, hm => by
    rw [feedMonos] at h
    rcases hf0 : feedMono cfg (cam x0.cam) x0.img x0.ext x0.flow (drawn cur sched k) with _ | ⟨c0, o0⟩
    · rw [hf0] at h; simp at h
    simp only [hf0] at h
    rcases hr : feedMonos cfg cur sched (k + 1) (Function.update cam x0.cam c0) xs with _ | ⟨cam1, obs1⟩
    · rw [hr] at h; simp at h
    simp only [hr, Option.some.injEq, Prod.mk.injEq] at h
    obtain ⟨rfl, rfl⟩ := h
    simp only [List.map_cons, List.nodup_cons] at hnd
    rw [List.mem_append]
    cases j with
    | zero =>
      rw [List.getElem?_cons_zero, Option.some.injEq] at hx
      subst hx
      rw [Nat.add_zero, hf0, Option.some.injEq, Prod.mk.injEq] at hf
      rw [← hf.2] at hm
      exact Or.inl (List.mem_map.2 ⟨(i, p), hm, rfl⟩)
    | succ j =>
      rw [List.getElem?_cons_succ] at hx
      have hne : x.cam ≠ x0.cam := fun e => hnd.1 (e ▸ List.mem_map.2 ⟨x, List.mem_of_getElem? hx, rfl⟩)
      refine Or.inr (feedMonos_complete cfg cur sched xs (k + 1) _ cam1 obs1 hnd.2 hr j x c' o hx ?_ i p hm)
      rw [Function.update_of_ne hne, show k + 1 + j = k + (j + 1) by omega]
      exact hf

/-- **C64** (one message, cameras on their own) The observations stored for a message are, for every camera in it, exactly those of that camera's call. -/
theorem C64_stored_mono (cfg : TCfg) (T T' : Tracker) (xs : List MonoIn) (sched : List ℕ) (obs : List (ℕ × ℕ × Pt)) (hnd : (xs.map MonoIn.cam).Nodup) (hf : T.feed cfg (.mono xs sched) = some (T', obs)) (c i : ℕ) (p : Pt) :
    (c, i, p) ∈ obs ↔ ∃ (j : ℕ) (x : MonoIn) (o : List (ℕ × Pt)), xs[j]? = some x ∧ x.cam = c ∧ feedMono cfg (T.cam c) x.img x.ext x.flow (drawn T.cur sched j) = some (T'.cam c, o) ∧ (i, p) ∈ o := by
  simp only [Tracker.feed] at hf
  rcases hr : feedMonos cfg T.cur sched 0 T.cam xs with _ | ⟨cam', obs'⟩
  · simp [hr] at hf
  simp only [hr, Option.some.injEq, Prod.mk.injEq] at hf
  obtain ⟨rfl, rfl⟩ := hf
  constructor
  · intro hm
    obtain ⟨j, x, o, h1, h2, h3, h4⟩ := (feedMonos_spec cfg T.cur sched xs 0 _ _ _ hnd hr).2.1 c i p hm
    rw [Nat.zero_add] at h3
    exact ⟨j, x, o, h1, h2, h3, h4⟩
  · rintro ⟨j, x, o, h1, rfl, h3, h4⟩
    exact feedMonos_complete cfg T.cur sched xs 0 _ _ _ hnd hr j x _ o h1 (by rw [Nat.zero_add]; exact h3) i p h4

/-- **C64** (one message, a stereo pair) The observations stored for a message with a stereo pair are those of its left and right camera. -/
theorem C64_stored_stereo (cfg : TCfg) (T T' : Tracker) (l r : ℕ) (hlr : l ≠ r) (x : StereoIn) (obs : List (ℕ × ℕ × Pt)) (hf : T.feed cfg (.stereo l r x) = some (T', obs)) :
    ∃ o, feedStereo cfg (T.cam l) (T.cam r) T.cur x = some o ∧ T'.cam l = o.cl ∧ T'.cam r = o.cr ∧ T'.cur = o.cur ∧
      ∀ c i p, (c, i, p) ∈ obs ↔ (c = l ∧ (i, p) ∈ o.obsL) ∨ (c = r ∧ (i, p) ∈ o.obsR) := by
  simp only [Tracker.feed] at hf
  rcases hr : feedStereo cfg (T.cam l) (T.cam r) T.cur x with _ | o
  · simp [hr] at hf
  simp only [hr, Option.some.injEq, Prod.mk.injEq] at hf
  obtain ⟨rfl, rfl⟩ := hf
  refine ⟨o, rfl, by simp [Function.update_of_ne hlr], by simp, rfl, fun c i p => ?_⟩
  simp only [List.mem_append, List.mem_map, Prod.mk.injEq]
  constructor
  · rintro (⟨a, h, rfl, rfl, rfl⟩ | ⟨a, h, rfl, rfl, rfl⟩)
    · exact Or.inl ⟨rfl, h⟩
    · exact Or.inr ⟨rfl, h⟩
  · rintro (⟨rfl, h⟩ | ⟨rfl, h⟩)
    · exact Or.inl ⟨(i, p), h, rfl, rfl, rfl⟩
    · exact Or.inr ⟨(i, p), h, rfl, rfl, rfl⟩

/-- non-vacuous: ten tracked points, of which the flow of the sixth fails and the first leaves the image and the last is masked; the other seven are stored -/
def exTracked : Cam := ⟨exCorners, [6, 7, 8, 9, 10, 11, 12, 13, 14, 15], exImg⟩

example : (feedMono ⟨10, 2, 2, 10⟩ exTracked ⟨200, 100, fun x _ => decide (105 ≤ x)⟩ [] (fun k => ((if k = 0 then -1 else 10 * k + 16, 15), k != 5)) []).map (fun r => r.2) =
    some [(7, (26, 15)), (8, (36, 15)), (9, (46, 15)), (10, (56, 15)), (12, (76, 15)), (13, (86, 15)), (14, (96, 15))] := by decide +kernel

/-- non-vacuous: the second message of the example above, a stereo pair with ten points left and nine right, so that nothing is matched in the right image -/
example : ((feedStereo exCfg (exT1.cam 0) (exT1.cam 1) exT1.cur (exIn exImg fun k => ((10 * k + 17, 15), k != 4))).map fun o => (o.obsL.map Prod.fst, o.obsR.length)) =
    some ([6, 7, 8, 9, 11, 12, 13, 14, 15], 0) := by decide +kernel

end Verif.Track
