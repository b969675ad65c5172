import Verif.Vio.Aruco
import Verif.Vio.PropsLoop
import Verif.Track.PropsIds

/-!
# What the tag tracker stores (C136)
-/

set_option autoImplicit false
open Classical

namespace Verif.Vio

open Verif Verif.Types Verif.St Verif.Feat Verif.Disp

namespace Spec

/-- `k` is `x` without its fraction -/
def IntPart (x : ℝ) (k : ℤ) : Prop := (0 ≤ x ∧ (k : ℝ) ≤ x ∧ x < k + 1) ∨ (x < 0 ∧ x ≤ k ∧ (k : ℝ) - 1 < x)

/-- the pixel in the full image of a point found in the image searched -/
def Full (down : Bool) (p0 p : Uv) : Prop := p = if down then (2 * p0.1, 2 * p0.2) else p0

/-- in image `x` corner `n` of tag `tag` is seen at pixel `p` of the full image, and the mask is not set there; tags above the maximum do not count -/
def SeesCorner (maxTag : ℕ) (down : Bool) (x : TagImg) (tag n : ℕ) (p : Uv) : Prop :=
  tag ≤ maxTag ∧ ∃ d ∈ x.dets, d.tag = tag ∧ ∃ p0, d.corners[n]? = some p0 ∧ Full down p0 p ∧ ∃ row col v, IntPart p.2 row ∧ IntPart p.1 col ∧ x.mask row col = some v ∧ v ≤ 127

/-- an image the tracker can process: every tag up to the maximum has its four corners, within the image -/
def TagsIn (maxTag : ℕ) (down : Bool) (x : TagImg) : Prop :=
  ∀ d ∈ x.dets, d.tag ≤ maxTag → d.corners.length = 4 ∧ ∀ p0 ∈ d.corners, ∀ p row col, Full down p0 p → IntPart p.2 row → IntPart p.1 col → (x.mask row col).isSome

/-- no tag is detected twice in the image, and every tag used is below the maximum -/
def Distinct (maxTag : ℕ) (x : TagImg) : Prop := (x.dets.map Det.tag).Nodup ∧ ∀ d ∈ x.dets, d.tag ≠ maxTag

end Spec

theorem scaled_eq (down : Bool) (p : Uv) : scaled down p = if down then (2 * p.1, 2 * p.2) else p := by
  unfold scaled
  split_ifs <;> simp [mul_comm]

theorem intPart_iff (x : ℝ) (k : ℤ) : Spec.IntPart x k ↔ k = truncR x := by
  unfold Spec.IntPart truncR
  by_cases h : 0 ≤ x
  · rw [if_pos h, eq_comm, Int.floor_eq_iff]
    constructor
    · rintro (⟨-, h1⟩ | ⟨h1, -⟩)
      · exact h1
      · linarith
    · exact fun h1 => Or.inl ⟨h, h1⟩
  · rw [if_neg h, eq_comm, Int.ceil_eq_iff]
    constructor
    · rintro (⟨h1, -⟩ | ⟨-, h1, h2⟩)
      · exact absurd h1 h
      · exact ⟨h2, h1⟩
    · exact fun h1 => Or.inr ⟨by linarith, h1.2, h1.1⟩

theorem full_iff (down : Bool) (p0 p : Uv) : Spec.Full down p0 p ↔ p = scaled down p0 := by rw [scaled_eq]; rfl

theorem cornerLoop_some (maxTag tag : ℕ) (down : Bool) (mask : ℤ → ℤ → Option ℕ) (ps : List Uv) : ∀ n, (∀ p ∈ ps, (mask (truncR (scaled down p).2) (truncR (scaled down p).1)).isSome) →
    ∃ r, cornerLoop maxTag tag down mask n ps = some r := by
  induction ps with
  | nil => intro n _; exact ⟨[], rfl⟩
  | cons p ps ih =>
    intro n h
    obtain ⟨v, hv⟩ := Option.isSome_iff_exists.1 (h p (by simp))
    obtain ⟨r, hr⟩ := ih (n + 1) fun q hq => h q (by simp [hq])
    exact ⟨_, by simp only [cornerLoop, hv, hr, Option.map_some]; rfl⟩

/-- what the loop over the corners of a tag stores -/
theorem cornerLoop_mem (maxTag tag : ℕ) (down : Bool) (mask : ℤ → ℤ → Option ℕ) (ps : List Uv) : ∀ n r, cornerLoop maxTag tag down mask n ps = some r →
    (∀ e, e ∈ r ↔ ∃ i p v, ps[i]? = some p ∧ mask (truncR (scaled down p).2) (truncR (scaled down p).1) = some v ∧ v ≤ 127 ∧ e = (tag + (n + i) * maxTag, scaled down p)) ∧
    (0 < maxTag → (r.map Prod.fst).Nodup) := by
  induction ps with
  | nil =>
    intro n r h
    simp only [cornerLoop, Option.some.injEq] at h
    subst h
    simp
  | cons p ps ih =>
    intro n r h
    rw [cornerLoop] at h
    split at h
    · cases h
    rename_i v hv
    rw [Option.map_eq_some_iff] at h
    obtain ⟨r', hr', rfl⟩ := h
    obtain ⟨i1, i2⟩ := ih _ _ hr'
    have tail : ∀ e, (∃ i q w, (p :: ps)[i]? = some q ∧ mask (truncR (scaled down q).2) (truncR (scaled down q).1) = some w ∧ w ≤ 127 ∧ e = (tag + (n + i) * maxTag, scaled down q)) ↔
        (v ≤ 127 ∧ e = (tag + n * maxTag, scaled down p)) ∨ e ∈ r' := by
      intro e
      rw [i1]
      constructor
      · rintro ⟨i, q, w, h1, h2, h3, rfl⟩
        cases i with
        | zero =>
          obtain rfl := Option.some.inj h1
          rw [hv] at h2
          obtain rfl := Option.some.inj h2
          exact Or.inl ⟨h3, rfl⟩
        | succ i => exact Or.inr ⟨i, q, w, by simpa using h1, h2, h3, by rw [show n + 1 + i = n + (i + 1) by omega]⟩
      · rintro (⟨h1, rfl⟩ | ⟨i, q, w, h1, h2, h3, rfl⟩)
        · exact ⟨0, p, v, rfl, hv, h1, rfl⟩
        · exact ⟨i + 1, q, w, by simpa using h1, h2, h3, by rw [show n + 1 + i = n + (i + 1) by omega]⟩
    by_cases hv' : 127 < v
    · rw [if_pos hv']
      refine ⟨fun e => ?_, i2⟩
      rw [tail]
      constructor
      · exact Or.inr
      · rintro (⟨h1, -⟩ | h)
        · omega
        · exact h
    · rw [if_neg hv']
      refine ⟨fun e => ?_, fun hm => ?_⟩
      · rw [tail, List.mem_cons]
        constructor
        · rintro (rfl | h)
          · exact Or.inl ⟨by omega, rfl⟩
          · exact Or.inr h
        · rintro (⟨-, rfl⟩ | h)
          · exact Or.inl rfl
          · exact Or.inr h
      · rw [List.map_cons, List.nodup_cons]
        refine ⟨fun hmem => ?_, i2 hm⟩
        obtain ⟨e, he, heq⟩ := List.mem_map.1 hmem
        obtain ⟨i, q, w, -, -, -, rfl⟩ := (i1 e).1 he
        simp only at heq
        have h1 : (n + 1 + i) * maxTag = n * maxTag := by omega
        have h2 := Nat.eq_of_mul_eq_mul_right hm h1
        omega

theorem tagLoop_some (maxTag : ℕ) (down : Bool) (mask : ℤ → ℤ → Option ℕ) (ds : List Det)
    (h : ∀ d ∈ ds, d.tag ≤ maxTag → d.corners.length = 4 ∧ ∀ p ∈ d.corners, (mask (truncR (scaled down p).2) (truncR (scaled down p).1)).isSome) : ∃ r, tagLoop maxTag down mask ds = some r := by
  induction ds with
  | nil => exact ⟨[], rfl⟩
  | cons d ds ih =>
    obtain ⟨r, hr⟩ := ih fun d' hd' => h d' (by simp [hd'])
    rw [tagLoop]
    by_cases ht : maxTag < d.tag
    · exact ⟨r, by rw [if_pos ht, hr]⟩
    · obtain ⟨h4, hp⟩ := h d (by simp) (by omega)
      obtain ⟨a, ha⟩ := cornerLoop_some maxTag d.tag down mask d.corners 0 hp
      exact ⟨a ++ r, by rw [if_neg ht, if_neg (by simp [h4]), ha, hr]; rfl⟩

theorem tagLoop_mem (maxTag : ℕ) (down : Bool) (mask : ℤ → ℤ → Option ℕ) (ds : List Det) : ∀ r, tagLoop maxTag down mask ds = some r →
    (∀ e, e ∈ r ↔ ∃ d ∈ ds, d.tag ≤ maxTag ∧ ∃ n p v, d.corners[n]? = some p ∧ mask (truncR (scaled down p).2) (truncR (scaled down p).1) = some v ∧ v ≤ 127 ∧ e = (d.tag + n * maxTag, scaled down p)) ∧
    (∀ d ∈ ds, d.tag ≤ maxTag → d.corners.length = 4) ∧
    ((ds.map Det.tag).Nodup → (∀ d ∈ ds, d.tag ≠ maxTag) → (r.map Prod.fst).Nodup) := by
  induction ds with
  | nil =>
    intro r h
    simp only [tagLoop, Option.some.injEq] at h
    subst h
    simp
  | cons d ds ih =>
    intro r h
    rw [tagLoop] at h
    by_cases ht : maxTag < d.tag
    · rw [if_pos ht] at h
      obtain ⟨i1, i2, i3⟩ := ih r h
      refine ⟨fun e => ?_, ?_, fun hn hm => i3 (by simp at hn; exact hn.2) fun d' hd' => hm d' (by simp [hd'])⟩
      · rw [i1]
        constructor
        · rintro ⟨d', hd', h1, h2⟩
          exact ⟨d', by simp [hd'], h1, h2⟩
        · rintro ⟨d', hd', h1, h2⟩
          rcases List.mem_cons.1 hd' with rfl | hd'
          · omega
          · exact ⟨d', hd', h1, h2⟩
      · intro d' hd' h1
        rcases List.mem_cons.1 hd' with rfl | hd'
        · omega
        · exact i2 d' hd' h1
    · rw [if_neg ht] at h
      by_cases h4 : d.corners.length = 4
      swap
      · rw [if_pos h4] at h; cases h
      rw [if_neg (by simp [h4]), Option.bind_eq_some_iff] at h
      obtain ⟨a, ha, h⟩ := h
      rw [Option.map_eq_some_iff] at h
      obtain ⟨b, hb, rfl⟩ := h
      obtain ⟨i1, i2, i3⟩ := ih b hb
      obtain ⟨c1, c2⟩ := cornerLoop_mem _ _ _ _ _ _ _ ha
      refine ⟨fun e => ?_, ?_, fun hn hm => ?_⟩
      · rw [List.mem_append, c1, i1]
        constructor
        · rintro (⟨i, p, v, h1, h2, h3, rfl⟩ | ⟨d', hd', h1, h2⟩)
          · exact ⟨d, by simp, by omega, i, p, v, h1, h2, h3, by rw [zero_add]⟩
          · exact ⟨d', by simp [hd'], h1, h2⟩
        · rintro ⟨d', hd', h1, h2⟩
          rcases List.mem_cons.1 hd' with rfl | hd'
          · obtain ⟨n, p, v, h5, h6, h7, rfl⟩ := h2
            exact Or.inl ⟨n, p, v, h5, h6, h7, by rw [zero_add]⟩
          · exact Or.inr ⟨d', hd', h1, h2⟩
      · intro d' hd' h1
        rcases List.mem_cons.1 hd' with rfl | hd'
        · exact h4
        · exact i2 d' hd' h1
      · have hdm := hm d (by simp)
        rw [List.map_cons, List.nodup_cons] at hn
        rw [List.map_append, List.nodup_append]
        refine ⟨c2 (by omega), i3 hn.2 fun d' hd' => hm d' (by simp [hd']), ?_⟩
        intro x hx y hy hxy
        subst hxy
        obtain ⟨e1, he1, rfl⟩ := List.mem_map.1 hx
        obtain ⟨e2, he2, heq⟩ := List.mem_map.1 hy
        obtain ⟨i, p, v, -, -, -, rfl⟩ := (c1 e1).1 he1
        obtain ⟨d', hd', h1, n, p', v', -, -, -, rfl⟩ := (i1 e2).1 he2
        simp only at heq
        have hd2 := hm d' (by simp [hd'])
        have := (Track.C86_corner_ids_partial maxTag d'.tag n d.tag (0 + i) (by omega) (by omega) (by
          rw [Track.cornerId, Track.cornerId, if_neg (by omega), if_neg (by omega), heq])).1
        exact hn.1 (List.mem_map.2 ⟨d', hd', this⟩)

/-- the order of the calls of one worker is kept -/
theorem weave_own {α : Type} {qs : List (List α)} {l : List α} (h : Weave qs l) (f : α → ℕ) (c : ℕ → ℕ) (hq : ∀ (k : ℕ) (q : List α), qs[k]? = some q → ∀ a ∈ q, f a = c k) (hc : ∀ i j, i < qs.length → j < qs.length → c i = c j → i = j) :
    (∀ (k : ℕ) (q : List α), qs[k]? = some q → l.filter (fun a => decide (f a = c k)) = q) ∧ ∀ a ∈ l, ∃ (k : ℕ) (q : List α), qs[k]? = some q ∧ a ∈ q := by
  induction h with
  | done qs h =>
    refine ⟨fun k q hk => ?_, by simp⟩
    rw [h q (List.mem_of_getElem? hk)]
    rfl
  | step qs k a r l h hl ih =>
    have hk := (List.getElem?_eq_some_iff.1 h).1
    have hq' : ∀ j q, (qs.set k r)[j]? = some q → ∀ b ∈ q, f b = c j := by
      intro j q hj b hb
      rw [List.getElem?_set] at hj
      by_cases hjk : k = j
      · subst hjk
        rw [if_pos rfl, if_pos hk] at hj
        obtain rfl := Option.some.inj hj
        exact hq k _ h b (by simp [hb])
      · rw [if_neg hjk] at hj
        exact hq j q hj b hb
    obtain ⟨i1, i2⟩ := ih hq' (by simpa using hc)
    have ha : f a = c k := hq k _ h a (by simp)
    refine ⟨fun j q hj => ?_, fun b hb => ?_⟩
    · by_cases hjk : k = j
      · subst hjk
        rw [h] at hj
        obtain rfl := Option.some.inj hj
        rw [List.filter_cons_of_pos (by simp [ha]), i1 k r (by rw [List.getElem?_set, if_pos rfl, if_pos hk])]
      · have hne : f a ≠ c j := by
          rw [ha]
          exact fun e => hjk (hc k j hk (List.getElem?_eq_some_iff.1 hj).1 e)
        rw [List.filter_cons_of_neg (by simp [hne]), i1 j q (by rw [List.getElem?_set, if_neg hjk]; exact hj)]
    · rcases List.mem_cons.1 hb with rfl | hb
      · exact ⟨k, _, h, by simp⟩
      · obtain ⟨j, q, hj, hbq⟩ := i2 b hb
        rw [List.getElem?_set] at hj
        by_cases hjk : k = j
        · subst hjk
          rw [if_pos rfl, if_pos hk] at hj
          obtain rfl := Option.some.inj hj
          exact ⟨k, _, h, by simp [hbq]⟩
        · rw [if_neg hjk] at hj
          exact ⟨j, q, hj, hbq⟩

theorem trackAll_obs (t : ℝ) : ∀ (l : List Seen) (db : DB ℝ Uv) (H : Hist ℝ Uv), H.run = some db →
    ∀ i c, obs (trackAll db t l) i c = obs db i c ++ (l.filter fun z => decide (z.1 = i ∧ z.2.1 = c)).map fun z => (t, z.2.2.1, z.2.2.2)
  | [], db, H, _ => fun i c => by simp [trackAll]
  | z :: l, db, H, h => fun i c => by
    have hw : WF db := by
      obtain ⟨db1, e1, r⟩ := refines_hist H
      rw [h] at e1
      obtain rfl := Option.some.inj e1
      exact r.wf
    have hr : (Hist.step H (.update z.1 t z.2.1 z.2.2.1 z.2.2.2)).run = some (updateFeature db z.1 t z.2.1 z.2.2.1 z.2.2.2) := by simp [Hist.run, h, Feat.Op.run]
    have e : trackAll db t (z :: l) = trackAll (updateFeature db z.1 t z.2.1 z.2.2.1 z.2.2.2) t l := rfl
    rw [e, trackAll_obs t l _ _ hr, (update_obs hw z.1 t z.2.1 z.2.2.1 z.2.2.2).1, List.append_assoc]
    congr 1
    by_cases h : z.1 = i ∧ z.2.1 = c
    · rw [if_pos ⟨h.1.symm, h.2.symm⟩, List.filter_cons_of_pos (by simpa using h)]; simp
    · rw [if_neg (fun h' => h ⟨h'.1.symm, h'.2.symm⟩), List.filter_cons_of_neg (by simpa using h)]; simp

theorem mapM_some {α β : Type} {f : α → Option β} : ∀ {l : List α} {r : List β}, l.mapM f = some r → r.length = l.length ∧ ∀ (k : ℕ) (x : α), l[k]? = some x → ∃ y, r[k]? = some y ∧ f x = some y
  | [], r, h => by
    simp only [List.mapM_nil, Option.pure_def, Option.some.injEq] at h
    subst h
    simp
  | a :: l, r, h => by
    simp only [List.mapM_cons, Option.pure_def, Option.bind_eq_bind, Option.bind_eq_some_iff, Option.some.injEq] at h
    obtain ⟨b, hb, r', hr', rfl⟩ := h
    obtain ⟨i1, i2⟩ := mapM_some hr'
    refine ⟨by simp [i1], fun k x hk => ?_⟩
    cases k with
    | zero => exact ⟨b, rfl, by obtain rfl := Option.some.inj hk; exact hb⟩
    | succ k => simpa using i2 k x (by simpa using hk)

theorem mapM_of {α β : Type} {f : α → Option β} : ∀ {l : List α}, (∀ x ∈ l, ∃ y, f x = some y) → ∃ r, l.mapM f = some r
  | [], _ => ⟨[], rfl⟩
  | a :: l, h => by
    obtain ⟨b, hb⟩ := h a (by simp)
    obtain ⟨r, hr⟩ := mapM_of (l := l) fun x hx => h x (by simp [hx])
    exact ⟨b :: r, by simp [List.mapM_cons, hb, hr]⟩

/-- there is always an order in which the workers finish -/
theorem weave_exists {α : Type} : ∀ (n : ℕ) (qs : List (List α)), (qs.map List.length).sum = n → ∃ l, Weave qs l := by
  intro n
  induction n with
  | zero =>
    intro qs h
    refine ⟨[], .done qs fun q hq => ?_⟩
    have := List.sum_eq_zero_iff.1 h q.length (List.mem_map.2 ⟨q, hq, rfl⟩)
    exact List.length_eq_zero_iff.1 this
  | succ n ih =>
    intro qs h
    obtain ⟨q, hq, hne⟩ : ∃ q ∈ qs, q ≠ [] := by
      by_contra hc
      push Not at hc
      have : (qs.map List.length).sum = 0 := List.sum_eq_zero_iff.2 fun x hx => by
        obtain ⟨q, hq, rfl⟩ := List.mem_map.1 hx
        simp [hc q hq]
      omega
    obtain ⟨k, hk, rfl⟩ := List.getElem_of_mem hq
    obtain ⟨a, r, e⟩ := List.exists_cons_of_ne_nil hne
    have hs : ((qs.set k r).map List.length).sum = n := by
      have h1 : ∀ (qs : List (List α)) (k : ℕ) (hk : k < qs.length), ((qs.set k r).map List.length).sum + (qs[k]).length = (qs.map List.length).sum + r.length := by
        intro qs
        induction qs with
        | nil => intro k hk; simp at hk
        | cons b qs ih2 =>
          intro k hk
          cases k with
          | zero => simp; omega
          | succ k =>
            have := ih2 k (by simpa using hk)
            simp at this ⊢
            omega
      have := h1 qs k hk
      rw [e, h, List.length_cons] at this
      omega
    obtain ⟨l, hl⟩ := ih _ hs
    exact ⟨a :: l, .step qs k a r l (by rw [List.getElem?_eq_getElem hk, e]) hl⟩

variable {maxTag : ℕ} {down : Bool} {undist : ℕ → Uv → Uv} {imgs : List TagImg} {l : List Seen} {t : ℝ} {db : DB ℝ Uv}

/-- what the calls for one image are -/
theorem arucoCalls_mem {x : TagImg} {q : List Seen} (h : arucoCalls maxTag down undist x = some q) :
    (∀ z, z ∈ q ↔ ∃ tag n p, Spec.SeesCorner maxTag down x tag n p ∧ z = (tag + n * maxTag, x.cam, p, undist x.cam p)) ∧ (∀ z ∈ q, z.2.1 = x.cam ∧ z.2.2.2 = undist x.cam z.2.2.1) ∧
    (∀ d ∈ x.dets, d.tag ≤ maxTag → d.corners.length = 4) ∧ (Spec.Distinct maxTag x → (q.map Prod.fst).Nodup) := by
  unfold arucoCalls at h
  rw [Option.map_eq_some_iff] at h
  obtain ⟨r, hr, rfl⟩ := h
  obtain ⟨i1, i2, i3⟩ := tagLoop_mem _ _ _ _ _ hr
  refine ⟨fun z => ?_, ?_, i2, fun hd => ?_⟩
  · rw [List.mem_map]
    constructor
    · rintro ⟨e, he, rfl⟩
      obtain ⟨d, hd, h1, n, p, v, h2, h3, h4, rfl⟩ := (i1 e).1 he
      exact ⟨d.tag, n, scaled down p, ⟨h1, d, hd, rfl, p, h2, (full_iff _ _ _).2 rfl, _, _, v, (intPart_iff _ _).2 rfl, (intPart_iff _ _).2 rfl, h3, h4⟩, rfl⟩
    · rintro ⟨tag, n, p, ⟨h1, d, hd, rfl, p0, h2, h5, row, col, v, h6, h7, h3, h4⟩, rfl⟩
      rw [full_iff] at h5
      rw [intPart_iff] at h6 h7
      subst h5 h6 h7
      exact ⟨_, (i1 _).2 ⟨d, hd, h1, n, p0, v, h2, h3, h4, rfl⟩, rfl⟩
  · intro z hz
    obtain ⟨e, -, rfl⟩ := List.mem_map.1 hz
    exact ⟨rfl, rfl⟩
  · rw [List.map_map]
    exact i3 hd.1 hd.2

/-- the calls of every worker are found, in order, in the calls made -/
theorem feed_own (h : ArucoFeed maxTag down undist imgs l) (hc : (imgs.map TagImg.cam).Nodup) :
    (∀ x ∈ imgs, arucoCalls maxTag down undist x = some (l.filter fun z => decide (z.2.1 = x.cam))) ∧ ∀ z ∈ l, ∃ x ∈ imgs, z.2.1 = x.cam := by
  obtain ⟨qs, hqs, hw⟩ := h
  obtain ⟨hlen, hk⟩ := mapM_some hqs
  have hget : ∀ (k : ℕ) (q : List Seen), qs[k]? = some q → ∃ x, imgs[k]? = some x ∧ arucoCalls maxTag down undist x = some q := by
    intro k q hq
    have hlt := (List.getElem?_eq_some_iff.1 hq).1
    obtain ⟨y, hy, hf⟩ := hk k imgs[k] (List.getElem?_eq_getElem (by omega))
    rw [hq] at hy
    obtain rfl := Option.some.inj hy
    exact ⟨_, List.getElem?_eq_getElem (by omega), hf⟩
  set c : ℕ → ℕ := fun k => ((imgs[k]?).map TagImg.cam).getD 0 with hcdef
  have hinj : ∀ i j, i < qs.length → j < qs.length → c i = c j → i = j := by
    intro i j hi hj e
    have hi' : i < imgs.length := by omega
    have hj' : j < imgs.length := by omega
    simp only [hcdef, List.getElem?_eq_getElem hi', List.getElem?_eq_getElem hj', Option.map_some, Option.getD_some] at e
    exact (List.Nodup.getElem_inj_iff hc (hi := by simpa using hi') (hj := by simpa using hj')).1 (by simpa using e)
  obtain ⟨w1, w2⟩ := weave_own hw (fun z : Seen => z.2.1) c (by
    intro k q hq a ha
    obtain ⟨x, hx, hf⟩ := hget k q hq
    simp only [hcdef, hx, Option.map_some, Option.getD_some]
    exact ((arucoCalls_mem hf).2.1 a ha).1) hinj
  refine ⟨fun x hx => ?_, fun z hz => ?_⟩
  · obtain ⟨k, hk', rfl⟩ := List.getElem_of_mem hx
    obtain ⟨q, hq, hf⟩ := hk k _ (List.getElem?_eq_getElem hk')
    rw [hf, ← w1 k q hq]
    simp only [hcdef, List.getElem?_eq_getElem hk', Option.map_some, Option.getD_some]
  · obtain ⟨k, q, hq, hzq⟩ := w2 z hz
    obtain ⟨x, hx, hf⟩ := hget k q hq
    exact ⟨x, List.mem_of_getElem? hx, ((arucoCalls_mem hf).2.1 z hzq).1⟩

/-- **C136** Whatever the order in which the parallel workers reach the database, after a message every corner in a camera's image whose tag number is at most the maximum and that is not masked is stored, at the end of the history of its feature and camera,
with the time of the message, its pixel in the full image and its undistorted coordinates, and nothing else is stored; cameras without an image keep their observations. When no tag is found twice and the tag with the maximal number is not found, a feature gets at most one observation per camera. -/
theorem C136_stored (H : Hist ℝ Uv) (hH : H.run = some db) (hc : (imgs.map TagImg.cam).Nodup) (h : ArucoFeed maxTag down undist imgs l) :
    (∀ x ∈ imgs, ∀ id, ∃ L : List Uv, obs (trackAll db t l) id x.cam = obs db id x.cam ++ L.map (fun p => (t, p, undist x.cam p)) ∧
      (∀ p, p ∈ L ↔ ∃ tag n, n < 4 ∧ Spec.SeesCorner maxTag down x tag n p ∧ id = tag + n * maxTag) ∧ (Spec.Distinct maxTag x → L.length ≤ 1)) ∧
    ∀ id cam, cam ∉ imgs.map TagImg.cam → obs (trackAll db t l) id cam = obs db id cam := by
  obtain ⟨w1, w2⟩ := feed_own h hc
  refine ⟨fun x hx id => ?_, fun id cam hcam => ?_⟩
  · obtain ⟨a1, a2, a3, a4⟩ := arucoCalls_mem (w1 x hx)
    refine ⟨(l.filter fun z => decide (z.1 = id ∧ z.2.1 = x.cam)).map fun z => z.2.2.1, ?_, fun p => ?_, fun hd => ?_⟩
    · rw [trackAll_obs t l db H hH, List.map_map]
      congr 1
      refine List.map_congr_left fun z hz => ?_
      obtain ⟨hz1, hz2⟩ := List.mem_filter.1 hz
      simp only [decide_eq_true_eq] at hz2
      have := (a2 z (List.mem_filter.2 ⟨hz1, by simp [hz2.2]⟩)).2
      simp only [Function.comp_apply]
      rw [← this]
    · rw [List.mem_map]
      constructor
      · rintro ⟨z, hz, rfl⟩
        obtain ⟨hz1, hz2⟩ := List.mem_filter.1 hz
        simp only [decide_eq_true_eq] at hz2
        obtain ⟨tag, n, p, hs, rfl⟩ := (a1 z).1 (List.mem_filter.2 ⟨hz1, by simp [hz2.2]⟩)
        refine ⟨tag, n, ?_, hs, hz2.1.symm⟩
        obtain ⟨h1, d, hd, rfl, p0, h2, -⟩ := hs
        have := (List.getElem?_eq_some_iff.1 h2).1
        have := a3 d hd h1
        omega
      · rintro ⟨tag, n, -, hs, rfl⟩
        have hz := (a1 _).2 ⟨tag, n, p, hs, rfl⟩
        exact ⟨_, List.mem_filter.2 ⟨(List.mem_filter.1 hz).1, by simp⟩, rfl⟩
    · have hn := a4 hd
      have e : (l.filter fun z => decide (z.1 = id ∧ z.2.1 = x.cam)) = (l.filter fun z => decide (z.2.1 = x.cam)).filter fun z => decide (z.1 = id) := by
        rw [List.filter_filter]
        refine List.filter_congr fun z _ => ?_
        simp
      rw [List.length_map, e]
      have h2 : ((((l.filter fun z => decide (z.2.1 = x.cam)).filter fun z => decide (z.1 = id))).map Prod.fst).Nodup := hn.sublist (List.filter_sublist.map _)
      have h3 : ∀ y ∈ (((l.filter fun z => decide (z.2.1 = x.cam)).filter fun z => decide (z.1 = id))).map Prod.fst, y = id := by
        intro y hy
        obtain ⟨z, hz, rfl⟩ := List.mem_map.1 hy
        simpa using (List.mem_filter.1 hz).2
      generalize (((l.filter fun z => decide (z.2.1 = x.cam)).filter fun z => decide (z.1 = id))) = L at h2 h3
      match L, h2, h3 with
      | [], _, _ => simp
      | [_], _, _ => simp
      | y :: w :: L, h2, h3 =>
        exfalso
        have k1 := h3 y.1 (by simp)
        have k2 := h3 w.1 (by simp)
        rw [List.map_cons, List.nodup_cons] at h2
        exact h2.1 (by rw [List.map_cons, k1, k2]; simp)
  · rw [trackAll_obs t l db H hH]
    have : (l.filter fun z => decide (z.1 = id ∧ z.2.1 = cam)) = [] := by
      rw [List.filter_eq_nil_iff]
      intro z hz
      obtain ⟨x, hx, e⟩ := w2 z hz
      simp only [decide_eq_true_eq, not_and]
      rintro - rfl
      exact hcam (List.mem_map.2 ⟨x, hx, e.symm⟩)
    rw [this]
    simp

/-- **C136** The observations after a message do not depend on the order in which the workers reach the database. -/
theorem C136_schedule {l' : List Seen} (H : Hist ℝ Uv) (hH : H.run = some db) (hc : (imgs.map TagImg.cam).Nodup) (h : ArucoFeed maxTag down undist imgs l) (h' : ArucoFeed maxTag down undist imgs l') (id cam : ℕ) :
    obs (trackAll db t l) id cam = obs (trackAll db t l') id cam := by
  by_cases hcam : cam ∈ imgs.map TagImg.cam
  · obtain ⟨x, hx, rfl⟩ := List.mem_map.1 hcam
    have e := ((feed_own h hc).1 x hx).symm.trans ((feed_own h' hc).1 x hx)
    have e := Option.some.inj e
    rw [trackAll_obs t l db H hH, trackAll_obs t l' db H hH]
    have hf : ∀ l : List Seen, (l.filter fun z => decide (z.1 = id ∧ z.2.1 = x.cam)) = (l.filter fun z => decide (z.2.1 = x.cam)).filter fun z => decide (z.1 = id) := by
      intro l
      rw [List.filter_filter]
      refine List.filter_congr fun z _ => ?_
      simp
    rw [hf, hf, e]
  · rw [(C136_stored H hH hc h).2 id cam hcam, (C136_stored H hH hc h').2 id cam hcam]

/-- **C136** A message is processed to the end if every tag up to the maximum has four corners within its image, and only if every such tag has four corners. -/
theorem C136_total : ((∀ x ∈ imgs, Spec.TagsIn maxTag down x) → ∃ l, ArucoFeed maxTag down undist imgs l) ∧
    ∀ l, ArucoFeed maxTag down undist imgs l → ∀ x ∈ imgs, ∀ d ∈ x.dets, d.tag ≤ maxTag → d.corners.length = 4 := by
  constructor
  · intro h
    obtain ⟨qs, hqs⟩ := mapM_of (f := arucoCalls maxTag down undist) (l := imgs) fun x hx => by
      obtain ⟨r, hr⟩ := tagLoop_some maxTag down x.mask x.dets fun d hd ht =>
        ⟨(h x hx d hd ht).1, fun p hp => (h x hx d hd ht).2 p hp _ _ _ ((full_iff _ _ _).2 rfl) ((intPart_iff _ _).2 rfl) ((intPart_iff _ _).2 rfl)⟩
      exact ⟨_, by rw [arucoCalls, hr]; rfl⟩
    obtain ⟨l, hl⟩ := weave_exists _ qs rfl
    exact ⟨l, qs, hqs, hl⟩
  · rintro l ⟨qs, hqs, -⟩ x hx
    obtain ⟨k, hk, rfl⟩ := List.getElem_of_mem hx
    obtain ⟨y, -, hf⟩ := (mapM_some hqs).2 k _ (List.getElem?_eq_getElem hk)
    exact (arucoCalls_mem hf).2.2.1

/-- **C136** What the filter loop (C108) assumes of the tag observations of an image holds of this tracker when in each image no tag is found twice and the tag with the maximal number is not found: existing cameras, ids of tag corners, and each corner once per camera. -/
theorem C136_shot {o : Opts} (hm : maxTag = o.maxAruco) (hc : (imgs.map TagImg.cam).Nodup) (hcam : ∀ x ∈ imgs, x.cam < o.numCams) (hd : ∀ x ∈ imgs, Spec.Distinct maxTag x) (h : ArucoFeed maxTag down undist imgs l) :
    (∀ z ∈ l, z.2.1 < o.numCams ∧ z.1 ≤ 4 * o.maxAruco) ∧ (l.map fun z => (z.1, z.2.1, t)).Nodup := by
  obtain ⟨w1, w2⟩ := feed_own h hc
  constructor
  · intro z hz
    obtain ⟨x, hx, e⟩ := w2 z hz
    obtain ⟨a1, a2, a3, -⟩ := arucoCalls_mem (w1 x hx)
    refine ⟨by rw [e]; exact hcam x hx, ?_⟩
    obtain ⟨tag, n, p, ⟨h1, d, hd', rfl, p0, h2, -⟩, rfl⟩ := (a1 z).1 (List.mem_filter.2 ⟨hz, by simp [e]⟩)
    have k1 := (List.getElem?_eq_some_iff.1 h2).1
    rw [a3 d hd' h1] at k1
    rw [← hm]
    have : n * maxTag ≤ 3 * maxTag := Nat.mul_le_mul_right _ (by omega)
    show d.tag + n * maxTag ≤ 4 * maxTag
    omega
  · rw [List.Nodup, List.pairwise_map]
    have hdec : ∀ x ∈ imgs, (l.filter fun z => decide (z.2.1 = x.cam)).Pairwise fun a b => a.1 ≠ b.1 := fun x hx => by
      have := (arucoCalls_mem (w1 x hx)).2.2.2 (hd x hx)
      rwa [List.Nodup, List.pairwise_map] at this
    have key : ∀ l : List Seen, (∀ z ∈ l, ∃ x ∈ imgs, z.2.1 = x.cam) → (∀ x ∈ imgs, (l.filter fun z => decide (z.2.1 = x.cam)).Pairwise fun a b => a.1 ≠ b.1) → l.Pairwise fun a b => (a.1, a.2.1, t) ≠ (b.1, b.2.1, t) := by
      intro l
      induction l with
      | nil => simp
      | cons z l ih =>
        intro h1 h2
        rw [List.pairwise_cons]
        refine ⟨fun b hb he => ?_, ih (fun y hy => h1 y (by simp [hy])) fun x hx => (h2 x hx).sublist (by
          rw [List.filter_cons]
          split_ifs
          · exact List.sublist_cons_self _ _
          · exact List.Sublist.refl _)⟩
        simp only [Prod.mk.injEq, and_true] at he
        obtain ⟨x, hx, e⟩ := h1 z (by simp)
        have h3 := h2 x hx
        rw [List.filter_cons_of_pos (by simp [e]), List.pairwise_cons] at h3
        exact h3.1 b (List.mem_filter.2 ⟨hb, by simp [← he.2, e]⟩) he.1
    exact key l w2 hdec

/-! ## cases -/

/-- an image in which tags `a` and `b` are found, each at four places -/
def exTags (a b : ℕ) : TagImg := ⟨0, [⟨a, [(1, 1), (2, 1), (2, 2), (1, 2)]⟩, ⟨b, [(5, 5), (6, 5), (6, 6), (5, 6)]⟩], fun _ _ => some 0⟩

theorem exTags_in (m a b : ℕ) (down : Bool) : Spec.TagsIn m down (exTags a b) := by
  intro d hd _
  simp only [exTags, List.mem_cons, List.not_mem_nil, or_false] at hd
  rcases hd with rfl | rfl <;> simp [exTags]

/-- **C136** (what is false) A feature need not get at most one observation per camera and time. If tags `0` and `max` are both found, corner 1 of the first and corner 0 of the second, at different places, become two observations of one feature by one camera at one time; so do the
corners of a tag that is found twice. -/
theorem C136_twice_counterexample (m : ℕ) (t : ℝ) (a b : ℕ) (hab : (a = 0 ∧ b = m) ∨ (a = b ∧ a ≤ m)) :
    ∃ l, ArucoFeed m false (fun _ p => p) [exTags a b] l ∧ ∃ id p p', p ≠ p' ∧ (t, p, p) ∈ obs (trackAll [] t l) id 0 ∧ (t, p', p') ∈ obs (trackAll [] t l) id 0 := by
  obtain ⟨l, hl⟩ := (C136_total (undist := fun _ p => p) (imgs := [exTags a b]) (maxTag := m) (down := false)).1 (by simpa using exTags_in m a b false)
  refine ⟨l, hl, ?_⟩
  have hst := (C136_stored (t := t) Hist.empty rfl (by simp) hl).1 (exTags a b) (by simp)
  have sees : ∀ (tag n : ℕ) (p : Uv), tag ≤ m → (∃ d ∈ (exTags a b).dets, d.tag = tag ∧ d.corners[n]? = some p) → Spec.SeesCorner m false (exTags a b) tag n p := by
    rintro tag n p h1 ⟨d, hd, h2, h3⟩
    exact ⟨h1, d, hd, h2, p, h3, by simp [Spec.Full], _, _, 0, (intPart_iff _ _).2 rfl, (intPart_iff _ _).2 rfl, rfl, by norm_num⟩
  rcases hab with ⟨rfl, rfl⟩ | ⟨rfl, ha⟩
  · obtain ⟨L, e, hL, -⟩ := hst b
    refine ⟨b, (2, 1), (5, 5), by norm_num, ?_, ?_⟩
    · have : ((2, 1) : Uv) ∈ L := (hL _).2 ⟨0, 1, by norm_num, sees 0 1 _ (by omega) ⟨_, List.mem_cons_self, rfl, rfl⟩, by ring⟩
      change _ ∈ obs _ b (exTags 0 b).cam
      rw [e]
      exact List.mem_append_right _ (List.mem_map.2 ⟨_, this, rfl⟩)
    · have : ((5, 5) : Uv) ∈ L := (hL _).2 ⟨b, 0, by norm_num, sees b 0 _ le_rfl ⟨_, List.mem_cons_of_mem _ List.mem_cons_self, rfl, rfl⟩, by ring⟩
      change _ ∈ obs _ b (exTags 0 b).cam
      rw [e]
      exact List.mem_append_right _ (List.mem_map.2 ⟨_, this, rfl⟩)
  · obtain ⟨L, e, hL, -⟩ := hst a
    refine ⟨a, (1, 1), (5, 5), by norm_num, ?_, ?_⟩
    · have : ((1, 1) : Uv) ∈ L := (hL _).2 ⟨a, 0, by norm_num, sees a 0 _ ha ⟨_, List.mem_cons_self, rfl, rfl⟩, by ring⟩
      change _ ∈ obs _ a (exTags a a).cam
      rw [e]
      exact List.mem_append_right _ (List.mem_map.2 ⟨_, this, rfl⟩)
    · have : ((5, 5) : Uv) ∈ L := (hL _).2 ⟨a, 0, by norm_num, sees a 0 _ ha ⟨_, List.mem_cons_of_mem _ List.mem_cons_self, rfl, rfl⟩, by ring⟩
      change _ ∈ obs _ a (exTags a a).cam
      rw [e]
      exact List.mem_append_right _ (List.mem_map.2 ⟨_, this, rfl⟩)

/-- two images with two tags each meet the hypotheses of the theorems -/
example : ∃ l, ArucoFeed 10 true (fun _ p => p) [exTags 3 7, { exTags 3 4 with cam := 1 }] l ∧ ([exTags 3 7, { exTags 3 4 with cam := 1 }].map TagImg.cam).Nodup ∧ Spec.Distinct 10 (exTags 3 7) ∧ Spec.Distinct 10 { exTags 3 4 with cam := 1 } ∧
    Spec.SeesCorner 10 true (exTags 3 7) 7 2 (12, 12) := by
  obtain ⟨l, hl⟩ := (C136_total (undist := fun _ p => p) (imgs := [exTags 3 7, { exTags 3 4 with cam := 1 }]) (maxTag := 10) (down := true)).1 (by
    intro x hx
    simp only [List.mem_cons, List.not_mem_nil, or_false] at hx
    rcases hx with rfl | rfl
    · exact exTags_in 10 3 7 true
    · exact exTags_in 10 3 4 true)
  refine ⟨l, hl, by simp [exTags], ⟨by simp [exTags], by simp [exTags]⟩, ⟨by simp [exTags], by simp [exTags]⟩, by norm_num, _, List.mem_cons_of_mem _ List.mem_cons_self, rfl, (6, 6), rfl, ?_, _, _, 0, (intPart_iff _ _).2 rfl, (intPart_iff _ _).2 rfl, rfl, by norm_num⟩
  norm_num [Spec.Full]

/-- a masked corner is not seen, and a tag without four corners stops the tracker -/
example : ¬ Spec.SeesCorner 10 false { exTags 3 7 with mask := fun _ _ => some 255 } 3 0 (1, 1) ∧ ¬ ∃ l, ArucoFeed 10 false (fun _ p => p) [⟨0, [⟨3, [(1, 1)]⟩], fun _ _ => some 0⟩] l := by
  constructor
  · rintro ⟨-, d, -, -, p0, -, -, row, col, v, -, -, h, hv⟩
    obtain rfl := Option.some.inj h
    norm_num at hv
  · rintro ⟨l, hl⟩
    have := C136_total.2 l hl _ List.mem_cons_self ⟨3, [(1, 1)]⟩ List.mem_cons_self (by norm_num)
    simp at this

end Verif.Vio
