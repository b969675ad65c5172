import Verif.Ros.Serial
import Verif.Ros.Props

/-!
# C124: the replay of a recording
-/

set_option autoImplicit false
set_option linter.unusedSimpArgs false
open Classical

namespace Verif.Ros

/-! ## Specification -/

/-- the first message of a callback -/
def Play.first : Play → ℕ
  | .imu k => k
  | .mono k => k
  | .stereo i j => min i j

/-- the messages a callback uses -/
def Play.uses : Play → List ℕ
  | .imu k => [k]
  | .mono k => [k]
  | .stereo i j => [i, j]

namespace Spec

/-- message `k` is of the sensor `s`, recorded at time `t` -/
def Is (ms : List BMsg) (k : ℕ) (s : Src) (t : ℝ) : Prop := ms[k]? = some ⟨t, s⟩

/-- a recording is in order of time -/
def InOrder (ms : List BMsg) : Prop := ms.Pairwise fun a b => a.t ≤ b.t

/-- images of each camera are at least `d` apart -/
def Apart (d : ℝ) (ms : List BMsg) : Prop := ∀ i j c t t', i ≠ j → Is ms i (.cam c) t → Is ms j (.cam c) t' → d ≤ |t - t'|

/-- the recording has an image at or after `t` -/
def MoreImages (ms : List BMsg) (t : ℝ) : Prop := ∃ k c t', Is ms k (.cam c) t' ∧ t ≤ t'

end Spec

/-! ## Helpers -/

theorem drop_cons {M : List BMsg} {k : ℕ} {m : BMsg} {ms : List BMsg} (h : M.drop k = m :: ms) : M[k]? = some m ∧ M.drop (k + 1) = ms := by
  constructor
  · have := congrArg List.head? h
    rwa [List.head?_drop, List.head?_cons] at this
  · have := congrArg List.tail h
    rwa [List.tail_drop, List.tail_cons] at this

theorem partner_spec {M : List BMsg} (t : ℝ) (c : ℕ) (rest : List BMsg) (k p : ℕ) (h : M.drop k = rest) :
    partner t c rest k = some p ↔ k ≤ p ∧ (∃ u, Spec.Is M p (.cam c) u ∧ |u - t| < 0.02) ∧ ∀ n u, k ≤ n → n < p → ¬Spec.Is M n (.cam c) u := by
  induction rest generalizing k with
  | nil =>
    simp only [partner]
    constructor
    · intro h'; simp at h'
    · rintro ⟨h1, ⟨u, h2, -⟩, -⟩
      have : M.length ≤ k := by rwa [List.drop_eq_nil_iff] at h
      unfold Spec.Is at h2
      rw [List.getElem?_eq_none (by omega)] at h2
      simp at h2
  | cons m ms ih =>
    obtain ⟨e1, e2⟩ := drop_cons h
    rw [partner]
    by_cases hs : m.src = .cam c
    · rw [if_pos hs]
      have hm : Spec.Is M k (.cam c) m.t := by rw [Spec.Is, e1, ← hs]
      split_ifs with hn
      · constructor
        · intro h'
          obtain rfl := Option.some.inj h'
          exact ⟨le_refl _, ⟨m.t, hm, hn⟩, fun n u a b => by omega⟩
        · rintro ⟨h1, ⟨u, h2, h3⟩, h4⟩
          by_contra hne
          exact h4 k m.t (le_refl _) (by by_contra hlt; exact hne (by congr 1; omega)) hm
      · constructor
        · intro h'; simp at h'
        · rintro ⟨h1, ⟨u, h2, h3⟩, h4⟩
          exfalso
          rcases h1.lt_or_eq with hlt | rfl
          · exact h4 k m.t (le_refl _) hlt hm
          · rw [Spec.Is] at h2 hm
            rw [h2] at hm
            have : u = m.t := by injection hm with a; injection a
            rw [this] at h3
            exact hn h3
    · rw [if_neg hs, ih (k + 1) e2]
      have hk : ∀ u, ¬Spec.Is M k (.cam c) u := by
        intro u hu
        rw [Spec.Is, e1] at hu
        have := Option.some.inj hu
        exact hs (by rw [this])
      constructor
      · rintro ⟨h1, h2, h3⟩
        refine ⟨by omega, h2, fun n u a b => ?_⟩
        rcases a.lt_or_eq with hlt | rfl
        · exact h3 n u hlt b
        · exact hk u
      · rintro ⟨h1, ⟨u, h2, h2'⟩, h3⟩
        refine ⟨?_, ⟨u, h2, h2'⟩, fun n u a b => h3 n u (by omega) b⟩
        rcases h1.lt_or_eq with hlt | rfl
        · exact hlt
        · exact absurd h2 (hk u)

/-- what is true of every callback of a replay -/
def Good (num : ℕ) (maxT : ℝ) (M : List BMsg) : Play → Prop
  | .imu k => ∃ t, Spec.Is M k .imu t ∧ t ≤ maxT
  | .mono k => num = 1 ∧ ∃ t, Spec.Is M k (.cam 0) t ∧ t ≤ maxT
  | .stereo i j => num = 2 ∧ ∃ t u, Spec.Is M i (.cam 0) t ∧ Spec.Is M j (.cam 1) u ∧ |t - u| < 0.02 ∧ (i < j ∧ t ≤ maxT ∨ j < i ∧ u ≤ maxT)

theorem is_inj {M : List BMsg} {k : ℕ} {s s' : Src} {t t' : ℝ} (h : Spec.Is M k s t) (h' : Spec.Is M k s' t') : s = s' ∧ t = t' := by
  rw [Spec.Is] at h h'
  rw [h] at h'
  have := Option.some.inj h'
  injection this with a b
  exact ⟨b, a⟩

/-- the pair found at message `k` of camera `c` -/
theorem stereo_at {M : List BMsg} {m : BMsg} {ms : List BMsg} {k c : ℕ} (hd : M.drop k = m :: ms) (hs : m.src = .cam c) (hc : c < 2)
    (hall : ∀ c' < 2, (if c' = c then some k else partner m.t c' (m :: ms) k).isSome) :
    ∃ p u, k < p ∧ Spec.Is M p (.cam (1 - c)) u ∧ |u - m.t| < 0.02 ∧ (∀ n u, k ≤ n → n < p → ¬Spec.Is M n (.cam (1 - c)) u) ∧
      (if (0 : ℕ) = c then some k else partner m.t 0 (m :: ms) k).getD 0 = (if c = 0 then k else p) ∧ (if (1 : ℕ) = c then some k else partner m.t 1 (m :: ms) k).getD 0 = (if c = 0 then p else k) := by
  have h1 := hall (1 - c) (by omega)
  rw [if_neg (by omega)] at h1
  obtain ⟨p, hp⟩ := Option.isSome_iff_exists.1 h1
  obtain ⟨a, ⟨u, b1, b2⟩, b3⟩ := (partner_spec _ _ _ _ _ hd).1 hp
  have hm : Spec.Is M k (.cam c) m.t := by rw [Spec.Is, (drop_cons hd).1, ← hs]
  have hne : k ≠ p := by
    rintro rfl
    have := (is_inj hm b1).1
    injection this with this
    omega
  refine ⟨p, u, by omega, b1, b2, b3, ?_, ?_⟩
  · rcases Nat.eq_zero_or_pos c with rfl | hpos
    · simp
    · obtain rfl : c = 1 := by omega
      rw [if_neg (by omega), if_neg (by omega)]
      simp only [Nat.sub_self] at hp
      rw [hp]; rfl
  · rcases Nat.eq_zero_or_pos c with rfl | hpos
    · rw [if_neg (by omega), if_pos rfl]
      simp only [Nat.sub_zero] at hp
      rw [hp]; rfl
    · obtain rfl : c = 1 := by omega
      simp

theorem play_out (num : ℕ) (maxT : ℝ) (M : List BMsg) (rest : List BMsg) (k : ℕ) (used : List ℕ) (h : M.drop k = rest) :
    (∀ e ∈ (play num maxT rest k used).1, k ≤ e.first ∧ e.first ∉ used ∧ Good num maxT M e) ∧
      (play num maxT rest k used).1.Pairwise fun a b => a.first < b.first ∧ b.first ∉ a.uses := by
  induction rest generalizing k used with
  | nil => simp [play]
  | cons m ms ih =>
    obtain ⟨e1, e2⟩ := drop_cons h
    rw [play]
    by_cases c1 : m.t > maxT
    · rw [if_pos c1]; simp
    rw [if_neg c1]
    by_cases c2 : k ∈ used
    · rw [if_pos c2]
      obtain ⟨i1, i2⟩ := ih (k + 1) (used.filter (· ≠ k)) e2
      refine ⟨fun e he => ?_, i2⟩
      obtain ⟨a, b, c⟩ := i1 e he
      refine ⟨by omega, fun hu => b (List.mem_filter.2 ⟨hu, by simp; omega⟩), c⟩
    · rw [if_neg c2]
      have hle : m.t ≤ maxT := not_lt.1 c1
      split
      · rename_i hs
        obtain ⟨i1, i2⟩ := ih (k + 1) used e2
        refine ⟨fun e he => ?_, ?_⟩
        · rcases List.mem_cons.1 he with rfl | he
          · exact ⟨le_refl _, c2, m.t, by rw [Spec.Is, e1, ← hs], hle⟩
          · obtain ⟨a, b, c⟩ := i1 e he
            exact ⟨by omega, b, c⟩
        · refine List.pairwise_cons.2 ⟨fun e he => ?_, i2⟩
          have := (i1 e he).1
          simp only [Play.first, Play.uses, List.mem_singleton] at this ⊢
          omega
      · obtain ⟨i1, i2⟩ := ih (k + 1) used e2
        exact ⟨fun e he => ⟨by have := (i1 e he).1; omega, (i1 e he).2⟩, i2⟩
      · rename_i c hs
        simp only
        by_cases d1 : c < num ∧ ∀ c' < num, (if c' = c then some k else partner m.t c' (m :: ms) k).isSome = true
        swap
        · rw [if_neg d1]
          obtain ⟨i1, i2⟩ := ih (k + 1) used e2
          exact ⟨fun e he => ⟨by have := (i1 e he).1; omega, (i1 e he).2⟩, i2⟩
        rw [if_pos d1]
        by_cases d2 : num = 1
        · rw [if_pos d2]
          obtain ⟨i1, i2⟩ := ih (k + 1) used e2
          subst d2
          refine ⟨fun e he => ?_, ?_⟩
          · rcases List.mem_cons.1 he with rfl | he
            · have hc0 : c = 0 := by omega
              subst hc0
              exact ⟨le_refl _, c2, rfl, m.t, by rw [Spec.Is, e1, ← hs], hle⟩
            · obtain ⟨a, b, c⟩ := i1 e he
              exact ⟨by omega, b, c⟩
          · refine List.pairwise_cons.2 ⟨fun e he => ?_, i2⟩
            have := (i1 e he).1
            simp only [Play.first, Play.uses, List.mem_singleton] at this ⊢
            omega
        rw [if_neg d2]
        by_cases d3 : num = 2
        swap
        · rw [if_neg d3]; simp
        · rw [if_pos d3]
          subst d3
          obtain ⟨p, u, p1, p2, p3, -, g0, g1⟩ := stereo_at h hs d1.1 d1.2
          rw [g0, g1]
          have hm : Spec.Is M k (.cam c) m.t := by rw [Spec.Is, e1, ← hs]
          have hf : (Play.stereo (if c = 0 then k else p) (if c = 0 then p else k)).first = k := by
            simp only [Play.first]; split_ifs <;> omega
          obtain ⟨i1, i2⟩ := ih (k + 1) ((if c = 0 then k else p) :: (if c = 0 then p else k) :: used) e2
          refine ⟨fun e he => ?_, ?_⟩
          · rcases List.mem_cons.1 he with rfl | he
            · refine ⟨by rw [hf], by rw [hf]; exact c2, ?_⟩
              rcases Nat.eq_zero_or_pos c with rfl | hpos
              · exact ⟨rfl, m.t, u, hm, p2, by rw [abs_sub_comm]; exact p3, Or.inl ⟨p1, hle⟩⟩
              · obtain rfl : c = 1 := by have := d1.1; omega
                exact ⟨rfl, u, m.t, p2, hm, p3, Or.inr ⟨p1, hle⟩⟩
            · obtain ⟨a, b, c⟩ := i1 e he
              exact ⟨by omega, fun hu => b (by simp [hu]), c⟩
          · refine List.pairwise_cons.2 ⟨fun e he => ?_, i2⟩
            obtain ⟨a, b, -⟩ := i1 e he
            refine ⟨by rw [hf]; omega, fun hu => b ?_⟩
            simp only [Play.uses] at hu
            simp only [List.mem_cons] at hu ⊢
            tauto

theorem play_flag (num : ℕ) (hn : num ≤ 2) (maxT : ℝ) (rest : List BMsg) (k : ℕ) (used : List ℕ) : (play num maxT rest k used).2 = true := by
  induction rest generalizing k used with
  | nil => rfl
  | cons m ms ih =>
    rw [play]
    by_cases c1 : m.t > maxT
    · rw [if_pos c1]
    rw [if_neg c1]
    by_cases c2 : k ∈ used
    · rw [if_pos c2]; exact ih _ _
    rw [if_neg c2]
    split
    · exact ih _ _
    · exact ih _ _
    · rename_i c hs
      simp only
      by_cases d1 : c < num ∧ ∀ c' < num, (if c' = c then some k else partner m.t c' (m :: ms) k).isSome = true
      swap
      · rw [if_neg d1]; exact ih _ _
      rw [if_pos d1]
      by_cases d2 : num = 1
      · rw [if_pos d2]; exact ih _ _
      rw [if_neg d2, if_pos (by omega)]
      exact ih _ _

theorem inorder_le {M : List BMsg} (h : Spec.InOrder M) {i j : ℕ} {s s' : Src} {t t' : ℝ} (hij : i ≤ j) (hi : Spec.Is M i s t) (hj : Spec.Is M j s' t') : t ≤ t' := by
  rcases hij.lt_or_eq with hlt | rfl
  · obtain ⟨a, ha⟩ := List.getElem?_eq_some_iff.1 hi
    obtain ⟨b, hb⟩ := List.getElem?_eq_some_iff.1 hj
    have := List.pairwise_iff_getElem.1 h i j a b hlt
    rw [ha, hb] at this
    exact this
  · exact (is_inj hi hj).2.le

/-- the invariant of `used_index` -/
def UsedOk (M : List BMsg) (k : ℕ) (used : List ℕ) : Prop :=
  ∀ v ∈ used, ∃ c w, Spec.Is M v (.cam c) w ∧ (k ≤ v → ∃ k0 w0, k0 < k ∧ c < 2 ∧ Spec.Is M k0 (.cam (1 - c)) w0 ∧ |w - w0| < 0.02)

theorem usedOk_mono {M : List BMsg} {k : ℕ} {used : List ℕ} (h : UsedOk M k used) : UsedOk M (k + 1) used := by
  intro v hv
  obtain ⟨c, w, a, b⟩ := h v hv
  refine ⟨c, w, a, fun hk => ?_⟩
  obtain ⟨k0, w0, x, y⟩ := b (by omega)
  exact ⟨k0, w0, by omega, y⟩

theorem usedOk_sub {M : List BMsg} {k : ℕ} {used used' : List ℕ} (h : UsedOk M k used) (hs : used' ⊆ used) : UsedOk M k used' := fun v hv => h v (hs hv)

theorem usedOk_pair {M : List BMsg} {m : BMsg} {k c p : ℕ} {u : ℝ} {used : List ℕ} (h : UsedOk M (k + 1) used) (e1 : M[k]? = some m) (hs : m.src = .cam c) (hc : c < 2)
    (p2 : Spec.Is M p (.cam (1 - c)) u) (p3 : |u - m.t| < 0.02) : UsedOk M (k + 1) ((if c = 0 then k else p) :: (if c = 0 then p else k) :: used) := by
  have hm : Spec.Is M k (.cam c) m.t := by rw [Spec.Is, e1, ← hs]
  have hk : ∃ c' w, Spec.Is M k (.cam c') w ∧ (k + 1 ≤ k → ∃ k0 w0, k0 < k + 1 ∧ c' < 2 ∧ Spec.Is M k0 (.cam (1 - c')) w0 ∧ |w - w0| < 0.02) := ⟨c, m.t, hm, fun h => by omega⟩
  have hp : ∃ c' w, Spec.Is M p (.cam c') w ∧ (k + 1 ≤ p → ∃ k0 w0, k0 < k + 1 ∧ c' < 2 ∧ Spec.Is M k0 (.cam (1 - c')) w0 ∧ |w - w0| < 0.02) :=
    ⟨1 - c, u, p2, fun _ => ⟨k, m.t, by omega, by omega, by rw [show 1 - (1 - c) = c by omega]; exact hm, p3⟩⟩
  intro v hv
  simp only [List.mem_cons] at hv
  rcases hv with rfl | rfl | hv
  · split_ifs <;> assumption
  · split_ifs <;> assumption
  · exact h v hv

/-- a step of the loop: what is played from message `k` on contains what is played from the next on, for good used indices -/
theorem play_tail (num : ℕ) (hn : num ≤ 2) (maxT : ℝ) (M : List BMsg) (m : BMsg) (ms : List BMsg) (k : ℕ) (used : List ℕ) (h : M.drop k = m :: ms) (hu : UsedOk M k used) (hT : m.t ≤ maxT) :
    ∃ used', UsedOk M (k + 1) used' ∧ (∀ e ∈ (play num maxT ms (k + 1) used').1, e ∈ (play num maxT (m :: ms) k used).1) ∧
      (m.src = .imu → .imu k ∈ (play num maxT (m :: ms) k used).1) ∧ (num = 1 → used = [] → used' = [] ∧ (m.src = .cam 0 → .mono k ∈ (play num maxT (m :: ms) k used).1)) ∧
      (num = 2 → k ∉ used → ∀ c p, c < 2 → m.src = .cam c → partner m.t (1 - c) (m :: ms) k = some p → .stereo (if c = 0 then k else p) (if c = 0 then p else k) ∈ (play num maxT (m :: ms) k used).1) := by
  obtain ⟨e1, e2⟩ := drop_cons h
  rw [play, if_neg (not_lt.2 hT)]
  by_cases c2 : k ∈ used
  · rw [if_pos c2]
    refine ⟨used.filter (· ≠ k), usedOk_mono (usedOk_sub hu fun x hx => List.mem_of_mem_filter hx), fun e he => he, fun hi => ?_, fun _ h0 => ?_, fun _ hk => absurd c2 hk⟩
    · obtain ⟨c, w, a, -⟩ := hu k c2
      rw [Spec.Is, e1] at a
      have := Option.some.inj a
      rw [this] at hi
      simp at hi
    · rw [h0] at c2; simp at c2
  rw [if_neg c2]
  split
  · rename_i hs
    exact ⟨used, usedOk_mono hu, fun e he => List.mem_cons_of_mem _ he, fun _ => List.mem_cons_self .., fun _ h0 => ⟨h0, fun h => by rw [hs] at h; simp at h⟩, fun _ _ c p _ h => by rw [hs] at h; simp at h⟩
  · rename_i hs
    exact ⟨used, usedOk_mono hu, fun e he => he, fun h => by rw [hs] at h; simp at h, fun _ h0 => ⟨h0, fun h => by rw [hs] at h; simp at h⟩, fun _ _ c p _ h => by rw [hs] at h; simp at h⟩
  · rename_i c hs
    simp only
    by_cases d1 : c < num ∧ ∀ c' < num, (if c' = c then some k else partner m.t c' (m :: ms) k).isSome = true
    swap
    · rw [if_neg d1]
      refine ⟨used, usedOk_mono hu, fun e he => he, fun h => by rw [hs] at h; simp at h, fun h1 h0 => ⟨h0, fun h => ?_⟩, fun h2 _ c' p hc' h hp => ?_⟩
      · exfalso
        rw [hs] at h; injection h with h
        refine d1 ⟨by omega, fun c' hc' => ?_⟩
        rw [if_pos (by omega)]; rfl
      · exfalso
        rw [hs] at h; injection h with h
        subst h
        refine d1 ⟨by omega, fun c'' hc'' => ?_⟩
        by_cases hcc : c'' = c
        · rw [if_pos hcc]; rfl
        · rw [if_neg hcc, show c'' = 1 - c by omega, hp]; rfl
    rw [if_pos d1]
    by_cases d2 : num = 1
    · rw [if_pos d2]
      exact ⟨used, usedOk_mono hu, fun e he => List.mem_cons_of_mem _ he, fun h => by rw [hs] at h; simp at h, fun _ h0 => ⟨h0, fun _ => List.mem_cons_self ..⟩, fun h2 => by omega⟩
    obtain rfl : num = 2 := by omega
    rw [if_neg d2, if_pos rfl]
    obtain ⟨p, u, p1, p2, p3, p4, g0, g1⟩ := stereo_at h hs d1.1 d1.2
    rw [g0, g1]
    refine ⟨_, usedOk_pair (usedOk_mono hu) e1 hs d1.1 p2 p3, fun e he => List.mem_cons_of_mem _ he, fun h => by rw [hs] at h; simp at h, fun h1 => absurd h1 d2, fun _ _ c' p' hc' h' hp' => ?_⟩
    rw [hs] at h'; injection h' with h'
    subst h'
    have : partner m.t (1 - c) (m :: ms) k = some p := (partner_spec _ _ _ _ _ h).2 ⟨p1.le, ⟨u, p2, p3⟩, p4⟩
    rw [this] at hp'
    obtain rfl := Option.some.inj hp'
    exact List.mem_cons_self ..

theorem drop_of_is {M : List BMsg} {k n : ℕ} {s : Src} {t : ℝ} {rest : List BMsg} (h : M.drop k = rest) (hk : k ≤ n) (hi : Spec.Is M n s t) : ∃ m ms, rest = m :: ms := by
  cases rest with
  | nil =>
    rw [List.drop_eq_nil_iff] at h
    rw [Spec.Is, List.getElem?_eq_none (by omega)] at hi
    simp at hi
  | cons m ms => exact ⟨m, ms, rfl⟩

theorem play_reach (num : ℕ) (hn : num ≤ 2) (maxT : ℝ) (M : List BMsg) (ho : Spec.InOrder M) (n : ℕ) (s : Src) (t : ℝ) (hi : Spec.Is M n s t) (hT : t ≤ maxT) (rest : List BMsg) (k : ℕ) (used : List ℕ) (h : M.drop k = rest)
    (hu : UsedOk M k used) (hk : k ≤ n) : ∃ used' ms, M.drop n = ⟨t, s⟩ :: ms ∧ UsedOk M n used' ∧ (num = 1 → used = [] → used' = []) ∧ ∀ e ∈ (play num maxT (M.drop n) n used').1, e ∈ (play num maxT rest k used).1 := by
  induction rest generalizing k used with
  | nil => obtain ⟨m, ms, h'⟩ := drop_of_is h hk hi; simp at h'
  | cons m ms ih =>
    obtain ⟨e1, e2⟩ := drop_cons h
    rcases hk.lt_or_eq with hlt | rfl
    · have hm : m.t ≤ maxT := le_trans (inorder_le ho hk (show Spec.Is M k m.src m.t from e1) hi) hT
      obtain ⟨used', u1, u2, -, u3, -⟩ := play_tail num hn maxT M m ms k used h hu hm
      obtain ⟨used'', ms', a, b, c, d⟩ := ih (k + 1) used' e2 u1 hlt
      exact ⟨used'', ms', a, b, fun h1 h0 => c h1 (u3 h1 h0).1, fun e he => u2 e (d e he)⟩
    · rw [Spec.Is, e1] at hi
      have := Option.some.inj hi
      subst this
      exact ⟨used, ms, h, hu, fun _ h0 => h0, by rw [h]; exact fun e he => he⟩

theorem maxCam_spec (ms : List BMsg) (a : ℝ) : a ≤ maxCam ms a ∧ (∀ m ∈ ms, ∀ c, m.src = .cam c → m.t ≤ maxCam ms a) ∧ (maxCam ms a = a ∨ ∃ m ∈ ms, ∃ c, m.src = .cam c ∧ maxCam ms a = m.t) := by
  induction ms generalizing a with
  | nil => exact ⟨le_refl _, by simp, Or.inl rfl⟩
  | cons m ms ih =>
    rw [maxCam]
    cases hs : m.src with
    | cam c =>
      simp only
      obtain ⟨i1, i2, i3⟩ := ih (max a m.t)
      refine ⟨le_trans (le_max_left _ _) i1, fun x hx c' hc => ?_, ?_⟩
      · rcases List.mem_cons.1 hx with rfl | hx
        · exact le_trans (le_max_right _ _) i1
        · exact i2 x hx c' hc
      · rcases i3 with i3 | ⟨x, hx, c', h1, h2⟩
        · rw [i3]
          rcases max_choice a m.t with h | h
          · exact Or.inl h
          · exact Or.inr ⟨m, List.mem_cons_self .., c, hs, h⟩
        · exact Or.inr ⟨x, List.mem_cons_of_mem _ hx, c', h1, h2⟩
    | _ =>
      simp only
      obtain ⟨i1, i2, i3⟩ := ih a
      refine ⟨i1, fun x hx c' hc => ?_, ?_⟩
      · rcases List.mem_cons.1 hx with rfl | hx
        · rw [hs] at hc; simp at hc
        · exact i2 x hx c' hc
      · rcases i3 with i3 | ⟨x, hx, c', h1, h2⟩
        · exact Or.inl i3
        · exact Or.inr ⟨x, List.mem_cons_of_mem _ hx, c', h1, h2⟩

theorem le_maxCam (ms : List BMsg) (t : ℝ) (ht : 0 ≤ t) : t ≤ maxCam ms (-1) ↔ Spec.MoreImages ms t := by
  obtain ⟨a, b, c⟩ := maxCam_spec ms (-1)
  constructor
  · intro h
    rcases c with c | ⟨m, hm, c', h1, h2⟩
    · linarith
    · obtain ⟨k, hk⟩ := List.getElem?_of_mem hm
      exact ⟨k, c', m.t, by rw [Spec.Is, hk, ← h1], by linarith⟩
  · rintro ⟨k, c', t', h1, h2⟩
    exact le_trans h2 (b _ (List.mem_of_getElem? h1) c' rfl)

theorem image_le (ms : List BMsg) {k c : ℕ} {t : ℝ} (h : Spec.Is ms k (.cam c) t) : t ≤ maxCam ms (-1) := (maxCam_spec ms (-1)).2.1 _ (List.mem_of_getElem? h) c rfl

/-! ## C124 -/

/-- **C124** (replay, what is played) With one or two cameras the replay of a recording that is in order of time ends without an error. The IMU readings it delivers are those that are not later than the last image, all of them, and
callbacks come in the order of the recording. Every pair of images it delivers is an image of camera 0 and one of camera 1, less than twenty milliseconds apart. -/
theorem C124_replay (num : ℕ) (hn : num ≤ 2) (ms : List BMsg) (ho : Spec.InOrder ms) (hp : ∀ m ∈ ms, 0 ≤ m.t) :
    (replay num ms).2 = true ∧ (∀ k, .imu k ∈ (replay num ms).1 ↔ ∃ t, Spec.Is ms k .imu t ∧ Spec.MoreImages ms t) ∧ (replay num ms).1.Pairwise (fun a b => a.first < b.first) ∧
      (∀ i j, .stereo i j ∈ (replay num ms).1 → num = 2 ∧ ∃ t u, Spec.Is ms i (.cam 0) t ∧ Spec.Is ms j (.cam 1) u ∧ |t - u| < 0.02) := by
  obtain ⟨o1, o2⟩ := play_out num (maxCam ms (-1)) ms ms 0 [] (by simp)
  refine ⟨play_flag num hn _ _ _ _, fun k => ⟨fun h => ?_, ?_⟩, o2.imp fun h => h.1, fun i j h => ?_⟩
  · obtain ⟨-, -, t, h1, h2⟩ := o1 _ h
    exact ⟨t, h1, (le_maxCam ms t (hp _ (List.mem_of_getElem? h1))).1 h2⟩
  · rintro ⟨t, h1, h2⟩
    have hT := (le_maxCam ms t (hp _ (List.mem_of_getElem? h1))).2 h2
    obtain ⟨used', ms', a, b, -, d⟩ := play_reach num hn (maxCam ms (-1)) ms ho k .imu t h1 hT ms 0 [] (by simp) (by simp [UsedOk]) (by omega)
    refine d _ ?_
    rw [a]
    obtain ⟨-, -, -, x, -⟩ := play_tail num hn (maxCam ms (-1)) ms _ _ k used' a b hT
    exact x rfl
  · obtain ⟨-, -, a, t, u, b1, b2, b3, -⟩ := o1 _ h
    exact ⟨a, t, u, b1, b2, b3⟩

/-- **C124** (replay, one camera) With one camera every image is delivered, once. -/
theorem C124_mono (ms : List BMsg) (ho : Spec.InOrder ms) : (∀ k, .mono k ∈ (replay 1 ms).1 ↔ ∃ t, Spec.Is ms k (.cam 0) t) ∧ (replay 1 ms).1.Nodup := by
  obtain ⟨o1, o2⟩ := play_out 1 (maxCam ms (-1)) ms ms 0 [] (by simp)
  refine ⟨fun k => ⟨fun h => ?_, ?_⟩, o2.imp fun h => ?_⟩
  · obtain ⟨-, -, -, t, h1, h2⟩ := o1 _ h
    exact ⟨t, h1⟩
  · rintro ⟨t, h1⟩
    have hT := image_le ms h1
    obtain ⟨used', ms', a, b, c, d⟩ := play_reach 1 (by omega) (maxCam ms (-1)) ms ho k _ t h1 hT ms 0 [] (by simp) (by simp [UsedOk]) (by omega)
    refine d _ ?_
    rw [a]
    obtain ⟨_, -, -, -, x, -⟩ := play_tail 1 (by omega) (maxCam ms (-1)) ms _ _ k used' a b hT
    exact (x rfl (c rfl rfl)).2 rfl
  · rintro rfl
    exact absurd h.1 (lt_irrefl _)

/-- **C124** (replay, no image twice) If images of each camera are at least twenty milliseconds apart, no message is used by two callbacks. -/
theorem C124_once (num : ℕ) (ms : List BMsg) (ho : Spec.InOrder ms) (ha : Spec.Apart 0.02 ms) : (replay num ms).1.Pairwise fun a b => ∀ v ∈ a.uses, v ∉ b.uses := by
  obtain ⟨o1, o2⟩ := play_out num (maxCam ms (-1)) ms ms 0 [] (by simp)
  refine o2.imp_of_mem ?_
  intro a b hma hmb ⟨h1, h2⟩ v hva hvb
  obtain ⟨-, -, ga⟩ := o1 a hma
  obtain ⟨-, -, gb⟩ := o1 b hmb
  cases b with
  | imu k => simp only [Play.uses, List.mem_singleton] at hvb; subst hvb; exact h2 hva
  | mono k => simp only [Play.uses, List.mem_singleton] at hvb; subst hvb; exact h2 hva
  | stereo i j =>
    cases a with
    | imu k => simp only [Play.uses, List.mem_singleton, Play.first, List.mem_cons, List.not_mem_nil, or_false] at *; omega
    | mono k => simp only [Play.uses, List.mem_singleton, Play.first, List.mem_cons, List.not_mem_nil, or_false] at *; omega
    | stereo i' j' =>
      obtain ⟨-, t, u, b1, b2, b3, b4⟩ := gb
      obtain ⟨-, t', u', a1, a2, a3, a4⟩ := ga
      simp only [Play.uses, Play.first, List.mem_cons, List.not_mem_nil, or_false] at *
      have hij : ∀ (x : ℕ) (w : ℝ), Spec.Is ms x (.cam 0) w → ∀ w', ¬Spec.Is ms x (.cam 1) w' := fun x w hx w' hx' => by
        have := (is_inj hx hx').1
        simp at this
      rcases b4 with ⟨b4, -⟩ | ⟨b4, -⟩
      · rw [min_eq_left b4.le] at h1 h2
        have hv : v = j := by rcases hvb with rfl | rfl; · exact absurd hva h2
                              · rfl
        subst hv
        have hv : v = j' := by
          rcases hva with rfl | rfl
          · exact absurd b2 (hij _ _ a1 _)
          · rfl
        subst hv
        have hlt : i' < i := by
          rcases a4 with ⟨a4, -⟩ | ⟨a4, -⟩
          · rwa [min_eq_left a4.le] at h1
          · rw [min_eq_right a4.le] at h1; omega
        have q1 := inorder_le ho hlt.le a1 b1
        have q2 := inorder_le ho b4.le b1 b2
        have q3 := (is_inj a2 b2).2
        have q4 := ha i' i 0 t' t hlt.ne a1 b1
        rw [abs_lt] at a3
        rw [abs_of_nonpos (by linarith)] at q4
        linarith [a3.1]
      · rw [min_eq_right b4.le] at h1 h2
        have hv : v = i := by rcases hvb with rfl | rfl; · rfl
                              · exact absurd hva h2
        subst hv
        have hv : v = i' := by
          rcases hva with rfl | rfl
          · rfl
          · exact absurd a2 (hij _ _ b1 _)
        subst hv
        have hlt : j' < j := by
          rcases a4 with ⟨a4, -⟩ | ⟨a4, -⟩
          · rw [min_eq_left a4.le] at h1; omega
          · rwa [min_eq_right a4.le] at h1
        have q1 := inorder_le ho hlt.le a2 b2
        have q2 := inorder_le ho b4.le b2 b1
        have q3 := (is_inj a1 b1).2
        have q4 := ha j' j 1 u' u hlt.ne a2 b2
        rw [abs_lt] at a3
        rw [abs_of_nonpos (by linarith)] at q4
        linarith [a3.2]

/-- **C124** (replay, all pairs) If images of each camera are at least forty milliseconds apart, as with cameras of up to twenty-five images a second, the pairs delivered are exactly the images of the two cameras that are less than
twenty milliseconds apart. -/
theorem C124_stereo (ms : List BMsg) (ho : Spec.InOrder ms) (ha : Spec.Apart 0.04 ms) (i j : ℕ) :
    .stereo i j ∈ (replay 2 ms).1 ↔ ∃ t u, Spec.Is ms i (.cam 0) t ∧ Spec.Is ms j (.cam 1) u ∧ |t - u| < 0.02 := by
  obtain ⟨o1, o2⟩ := play_out 2 (maxCam ms (-1)) ms ms 0 [] (by simp)
  constructor
  · intro h
    obtain ⟨-, -, -, t, u, b1, b2, b3, -⟩ := o1 _ h
    exact ⟨t, u, b1, b2, b3⟩
  · rintro ⟨t, u, h1, h2, h3⟩
    have key : ∀ n p c w w', c < 2 → n < p → Spec.Is ms n (.cam c) w → Spec.Is ms p (.cam (1 - c)) w' → |w' - w| < 0.02 → .stereo (if c = 0 then n else p) (if c = 0 then p else n) ∈ (replay 2 ms).1 := by
      intro n p c w w' hc hnp hn hp hw
      have hT := image_le ms hn
      obtain ⟨used', ms', a, b, -, d⟩ := play_reach 2 (by omega) (maxCam ms (-1)) ms ho n _ w hn hT ms 0 [] (by simp) (by simp [UsedOk]) (by omega)
      refine d _ ?_
      rw [a]
      obtain ⟨-, -, -, -, -, x⟩ := play_tail 2 (by omega) (maxCam ms (-1)) ms _ _ n used' a b hT
      refine x rfl (fun hu => ?_) c p hc rfl ?_
      · obtain ⟨c', v, q1, q2⟩ := b n hu
        obtain ⟨k0, w0, r1, -, r2, r3⟩ := q2 (le_refl _)
        obtain ⟨s1, s2⟩ := is_inj hn q1
        injection s1 with s1
        subst s1; subst s2
        have := ha k0 p (1 - c) w0 w' (by omega) r2 hp
        rw [abs_lt] at hw r3
        have h4 : |w0 - w'| < 0.04 := by rw [abs_lt]; constructor <;> linarith [hw.1, hw.2, r3.1, r3.2]
        linarith
      · refine (partner_spec _ _ _ _ _ a).2 ⟨hnp.le, ⟨w', hp, hw⟩, fun q v hq hqp hv => ?_⟩
        have g1 := ha q p (1 - c) v w' hqp.ne hv hp
        have g2 := inorder_le ho hq hn hv
        have g3 := inorder_le ho hqp.le hv hp
        rw [abs_lt] at hw
        rw [abs_of_nonpos (by linarith)] at g1
        linarith [hw.2]
    rcases lt_trichotomy i j with hlt | rfl | hlt
    · have := key i j 0 t u (by omega) hlt h1 h2 (by rw [abs_sub_comm]; exact h3)
      simpa using this
    · have := (is_inj h1 h2).1
      simp at this
    · have := key j i 1 u t (by omega) hlt h2 h1 h3
      simpa using this

/-! ### What the estimator is fed -/

namespace Spec

/-- the message a callback puts in the queue: time and cameras of the image, or of the image of camera 0 of a pair -/
def msgOf (stamp : ℕ → ℝ) : Play → Option CMsg
  | .imu _ => none
  | .mono k => some ⟨stamp k, [0], k⟩
  | .stereo i _ => some ⟨stamp i, [0, 1], i⟩

/-- the images and pairs delivered -/
def delivered (stamp : ℕ → ℝ) (l : List Play) : List CMsg := l.filterMap (msgOf stamp)

end Spec

theorem msgOf_iff {stamp : ℕ → ℝ} {e : Play} {m : CMsg} : ((∃ k, e = .mono k ∧ m = ⟨stamp k, [0], k⟩) ∨ (∃ i j, e = .stereo i j ∧ m = ⟨stamp i, [0, 1], i⟩)) ↔ Spec.msgOf stamp e = some m := by
  cases e <;> simp [Spec.msgOf, eq_comm]

theorem msgOf_cam {stamp : ℕ → ℝ} {e : Play} {m : CMsg} (h : Spec.msgOf stamp e = some m) : m.cam = 0 ∧ m.ids ≠ [] := by
  cases e with
  | imu k => simp [Spec.msgOf] at h
  | mono k => simp only [Spec.msgOf, Option.some.injEq] at h; subst h; exact ⟨rfl, by simp⟩
  | stereo i j => simp only [Spec.msgOf, Option.some.injEq] at h; subst h; exact ⟨rfl, by simp⟩

theorem run_reach {num : ℕ} {delta lo hi : ℝ} {stamp : ℕ → ℝ} {l : List Play} {s : Node} (h : Run num delta stamp lo hi l s) :
    Reach false delta num s ∧ s.open_ = false ∧ s.running = false ∧ s.thread = none ∧ s.inflight = [] := by
  induction h with
  | nil => exact ⟨Reach.init, rfl, rfl, rfl, rfl⟩
  | @imuWait l s k h1 h2 ih =>
    obtain ⟨r, a, b, c, d⟩ := ih
    refine ⟨?_, a, b, c, d⟩
    have r1 := Reach.step r (Step.imuStart s (stamp k) a b)
    have r2 := Reach.step r1 (Step.wait _ (stamp k) rfl h2)
    have r3 := Reach.step r2 (Step.ret _ rfl (Or.inr rfl))
    convert r3 using 1
    cases s
    simp only at a b c
    simp [a, b, c]
  | @imuFeed l s k dt batch rest h1 h2 h3 h4 h5 h6 h7 ih =>
    obtain ⟨r, a, b, c, d⟩ := ih
    refine ⟨?_, a, b, c, d⟩
    have r1 := Reach.step r (Step.imuStart s (stamp k) a b)
    have r2 := Reach.step r1 (Step.feed _ (stamp k) dt batch rest rfl rfl h2 h5 h6 h7)
    have r3 := Reach.step r2 (Step.ret _ rfl (Or.inr rfl))
    convert r3 using 1
    cases s
    simp only at a b c
    simp [a, b, c]
  | drop e m h1 h2 h3 ih => exact ih
  | @keep l s e m q h1 h2 h3 h4 h5 ih =>
    obtain ⟨r, a, b, c, d⟩ := ih
    refine ⟨?_, a, b, c, d⟩
    have r1 := Reach.step r (Step.accept s m (msgOf_cam (msgOf_iff.1 h2)).2 h3)
    have r2 := Reach.step r1 (Step.push _ m [] q (by simp [d]) h4 h5)
    convert r2 using 1
    cases s
    simp only at d
    simp [d]

theorem enough_iff {num : ℕ} (hn : num = 1 ∨ num = 2) {s : Node} (h : ∀ m ∈ s.queue, m.cam = 0) : s.enough num ↔ s.queue ≠ [] := by
  have e : (if num = 2 then 1 else num) = 1 := by split_ifs <;> omega
  rw [Node.enough, e]
  cases hq : s.queue with
  | nil => simp
  | cons a as =>
    have : (s.queue.map CMsg.cam).dedup = [0] := by
      have h1 : s.queue.map CMsg.cam = List.replicate s.queue.length 0 := List.eq_replicate_iff.2 ⟨by simp, fun b hb => by
        obtain ⟨m, hm, rfl⟩ := List.mem_map.1 hb
        exact h m hm⟩
      rw [h1, hq, List.length_cons, List.replicate_dedup (by omega)]
    rw [hq] at this
    rw [this]; simp

theorem run_inv {num : ℕ} (hn : num = 1 ∨ num = 2) {delta lo hi : ℝ} (hd : 0 ≤ delta) {stamp : ℕ → ℝ} {l : List Play} {s : Node} (h : Run num delta stamp lo hi l s) :
    (∀ m ∈ s.accepted, m.cam = 0 ∧ ∃ l1 e l2, l = l1 ++ e :: l2 ∧ Spec.msgOf stamp e = some m ∧ (m ∈ s.queue → ∀ k, .imu k ∈ l2 → stamp k ≤ m.t + hi)) ∧
      (∀ b ∈ s.batches, lo ≤ b.2.1 ∧ ∃ k, .imu k ∈ l ∧ b.1 = stamp k) ∧ (∀ c t, s.last c = some t → ∃ m ∈ s.accepted, m.t = t) := by
  induction h with
  | nil => simp [Node.init]
  | @imuWait l s k h1 h2 ih =>
    obtain ⟨i1, i2, i3⟩ := ih
    have hi' := inv_reach hd (run_reach h1).1
    have hsub : ∀ m ∈ s.queue, m ∈ s.accepted := fun m hm => hi'.perm.subset (by simp [hm])
    have hq : s.queue = [] := by
      by_contra hne
      exact h2 ((enough_iff hn fun m hm => (i1 m (hsub m hm)).1).2 hne)
    refine ⟨fun m hm => ?_, fun b hb => ?_, i3⟩
    · obtain ⟨a, l1, e, l2, b, c, d⟩ := i1 m hm
      exact ⟨a, l1, e, l2 ++ [.imu k], by rw [b]; simp, c, fun hx => by simp only [hq] at hx; simp at hx⟩
    · obtain ⟨a, k', b, c⟩ := i2 b hb
      exact ⟨a, k', by simp [b], c⟩
  | @imuFeed l s k dt batch rest h1 h2 h3 h4 h5 h6 h7 ih =>
    obtain ⟨i1, i2, i3⟩ := ih
    have hi' := inv_reach hd (run_reach h1).1
    have hsub : ∀ m ∈ s.queue, m ∈ s.accepted := fun m hm => hi'.perm.subset (by simp [hm])
    have htimes := sorted_times (fun m hm => hi'.ids m (hsub m hm)) hi'.sorted
    rw [h5] at htimes
    have hrest := (List.pairwise_append.mp htimes).2.1
    have hrest' : ∀ m ∈ rest, stamp k ≤ m.t + dt := by
      intro m hm
      cases rest with
      | nil => simp at hm
      | cons r rs =>
        have hr := h7 r (by simp)
        rcases List.mem_cons.mp hm with rfl | hm
        · linarith
        · have := (List.pairwise_cons.mp hrest).1 m hm
          linarith
    refine ⟨fun m hm => ?_, fun b hb => ?_, i3⟩
    · obtain ⟨a, l1, e, l2, b, c, d⟩ := i1 m hm
      refine ⟨a, l1, e, l2 ++ [.imu k], by rw [b]; simp, c, fun hx k' hk' => ?_⟩
      rcases List.mem_append.1 hk' with hk' | hk'
      · exact d (by rw [h5]; exact List.mem_append_right _ hx) k' hk'
      · simp only [List.mem_singleton, Play.imu.injEq] at hk'
        subst hk'
        have := hrest' m hx
        linarith
    · rcases List.mem_append.1 hb with hb | hb
      · obtain ⟨a, k', b, c⟩ := i2 b hb
        exact ⟨a, k', by simp [b], c⟩
      · simp only [List.mem_singleton] at hb
        subst hb
        exact ⟨h3, k, by simp, rfl⟩
  | @drop l s e m h1 h2 h3 ih =>
    obtain ⟨i1, i2, i3⟩ := ih
    refine ⟨fun x hx => ?_, fun b hb => ?_, i3⟩
    · obtain ⟨a, l1, e', l2, b, c, d⟩ := i1 x hx
      refine ⟨a, l1, e', l2 ++ [e], by rw [b]; simp, c, fun hx k' hk' => ?_⟩
      rcases List.mem_append.1 hk' with hk' | hk'
      · exact d hx k' hk'
      · simp only [List.mem_singleton] at hk'
        rw [msgOf_iff, ← hk'] at h2
        simp [Spec.msgOf] at h2
    · obtain ⟨a, k', b, c⟩ := i2 b hb
      exact ⟨a, k', by simp [b], c⟩
  | @keep l s e m q h1 h2 h3 h4 h5 ih =>
    obtain ⟨i1, i2, i3⟩ := ih
    have h2 := msgOf_iff.1 h2
    refine ⟨fun x hx => ?_, fun b hb => ?_, fun c t hc => ?_⟩
    · by_cases hxm : x = m
      · subst hxm
        exact ⟨(msgOf_cam h2).1, l, e, [], rfl, h2, fun _ k hk => by simp at hk⟩
      · have hx' : x ∈ s.accepted := by
          rcases List.mem_append.1 hx with hx | hx
          · exact hx
          · simp only [List.mem_singleton] at hx; exact absurd hx hxm
        obtain ⟨a, l1, e', l2, b, c, d⟩ := i1 x hx'
        refine ⟨a, l1, e', l2 ++ [e], by rw [b]; simp, c, fun hq k' hk' => ?_⟩
        have hq' : x ∈ s.queue := by
          have := h4.subset hq
          rcases List.mem_append.1 this with h | h
          · exact h
          · simp only [List.mem_singleton] at h; exact absurd h hxm
        rcases List.mem_append.1 hk' with hk' | hk'
        · exact d hq' k' hk'
        · simp only [List.mem_singleton] at hk'
          rw [← hk'] at h2
          simp [Spec.msgOf] at h2
    · obtain ⟨a, k', b, c⟩ := i2 b hb
      exact ⟨a, k', by simp [b], c⟩
    · simp only [Function.update_apply] at hc
      split_ifs at hc with hcc
      · exact ⟨m, by simp, Option.some.inj hc⟩
      · obtain ⟨x, hx, hxt⟩ := i3 c t hc
        exact ⟨x, by simp [hx], hxt⟩

theorem run_accepted {num : ℕ} (hn : num = 1 ∨ num = 2) {delta lo hi : ℝ} (hd : 0 ≤ delta) {stamp : ℕ → ℝ} {l : List Play} {s : Node} (h : Run num delta stamp lo hi l s)
    (hg : (Spec.delivered stamp l).Pairwise fun a b => a.t + delta ≤ b.t) : s.accepted = Spec.delivered stamp l := by
  induction h with
  | nil => rfl
  | @imuWait l s k h1 h2 ih =>
    rw [Spec.delivered, List.filterMap_append] at hg ⊢
    rw [show s.accepted = _ from ih (List.pairwise_append.1 hg).1]
    simp [Spec.delivered, Spec.msgOf]
  | @imuFeed l s k dt batch rest h1 h2 h3 h4 h5 h6 h7 ih =>
    rw [Spec.delivered, List.filterMap_append] at hg ⊢
    rw [show s.accepted = _ from ih (List.pairwise_append.1 hg).1]
    simp [Spec.delivered, Spec.msgOf]
  | @drop l s e m h1 h2 h3 ih =>
    exfalso
    rw [Spec.delivered, List.filterMap_append] at hg
    obtain ⟨g1, -, g2⟩ := List.pairwise_append.1 hg
    have ih := ih g1
    obtain ⟨t, ht, hlt⟩ := h3
    obtain ⟨x, hx, hxt⟩ := (run_inv hn hd h1).2.2 _ _ ht
    rw [ih] at hx
    have := g2 x hx m (by simp [msgOf_iff.1 h2])
    rw [hxt] at this
    linarith
  | @keep l s e m q h1 h2 h3 h4 h5 ih =>
    rw [Spec.delivered, List.filterMap_append] at hg ⊢
    rw [show s.accepted = _ from ih (List.pairwise_append.1 hg).1]
    simp [Spec.delivered, msgOf_iff.1 h2]

/-- **C124** (replay, what is processed) The program replays a recording with one or two cameras, messages are stamped with the time they were recorded at, and the images it delivers are no closer than the tracking period. Then the
program takes all images it delivers, hands each to the estimator at most once, and it does hand it over if an IMU reading, not later than the last image of the recording, comes later than the image by more than the estimated time offset; and only then.
`lo`, `hi`: bounds on the estimate of the offset during the run. -/
theorem C124_processed (num : ℕ) (hn : num = 1 ∨ num = 2) (ms : List BMsg) (ho : Spec.InOrder ms) (hp : ∀ m ∈ ms, 0 ≤ m.t) (delta lo hi : ℝ) (hd : 0 ≤ delta) (stamp : ℕ → ℝ) (hst : ∀ k s t, Spec.Is ms k s t → stamp k = t)
    (hg : (Spec.delivered stamp (replay num ms).1).Pairwise fun a b => a.t + delta ≤ b.t) (s : Node) (h : Run num delta stamp lo hi (replay num ms).1 s) :
    s.accepted = Spec.delivered stamp (replay num ms).1 ∧ (s.fed ++ s.queue).Perm s.accepted ∧
      (∀ m ∈ s.fed, ∃ k t, Spec.Is ms k .imu t ∧ Spec.MoreImages ms t ∧ m.t + lo < t) ∧
      (∀ m ∈ s.accepted, (∃ k t, Spec.Is ms k .imu t ∧ Spec.MoreImages ms t ∧ m.t + max hi 0 < t) → m ∈ s.fed) := by
  obtain ⟨q1, q2, q3, q4⟩ := C124_replay num (by omega) ms ho hp
  have hacc := run_accepted hn hd h hg
  obtain ⟨i1, i2, i3⟩ := run_inv hn hd h
  obtain ⟨r1, -, -, -, r5⟩ := run_reach h
  have hi' := inv_reach hd r1
  have hperm : (s.fed ++ s.queue).Perm s.accepted := by
    have := hi'.perm
    rwa [r5, List.append_nil] at this
  refine ⟨hacc, hperm, fun m hm => ?_, fun m hm => ?_⟩
  · obtain ⟨b, hb, hmb⟩ := List.mem_flatMap.1 hm
    obtain ⟨hlo, k, hk, hbk⟩ := i2 b hb
    obtain ⟨t, ht, hmore⟩ := (q2 k).1 hk
    refine ⟨k, t, ht, hmore, ?_⟩
    have := (hi'.bat b hb).2.2 m hmb
    rw [hbk, hst k _ t ht] at this
    linarith
  · rintro ⟨k, t, ht, hmore, hlt⟩
    have hk := (q2 k).2 ⟨t, ht, hmore⟩
    rcases List.mem_append.1 (hperm.symm.subset hm) with hf | hq
    · exact hf
    · exfalso
      obtain ⟨-, l1, e, l2, e1, e2, e3⟩ := i1 m hm
      have e3 := e3 hq
      rw [e1] at hk q3
      have hgood := ((play_out num (maxCam ms (-1)) ms ms 0 [] (by simp)).1 e (by have : e ∈ (replay num ms).1 := by rw [e1]; simp
                                                                                  exact this)).2.2
      have hmt : m.t < t := by linarith [le_max_right hi 0]
      have hfirst : e.first < k ∧ e ≠ .imu k := by
        cases e with
        | imu k' => simp [Spec.msgOf] at e2
        | mono k' =>
          refine ⟨?_, by simp⟩
          simp only [Spec.msgOf, Option.some.injEq] at e2
          subst e2
          obtain ⟨-, t', ht', -⟩ := hgood
          by_contra hge
          have := inorder_le ho (not_lt.1 hge) ht ht'
          rw [hst _ _ _ ht'] at hmt
          linarith
        | stereo i j =>
          refine ⟨?_, by simp⟩
          simp only [Spec.msgOf, Option.some.injEq] at e2
          subst e2
          obtain ⟨-, t', u', ht', -, -, -⟩ := hgood
          by_contra hge
          have hik : k ≤ i := le_trans (not_lt.1 hge) (min_le_left _ _)
          have := inorder_le ho hik ht ht'
          rw [hst _ _ _ ht'] at hmt
          linarith
      rcases List.mem_append.1 hk with hk | hk
      · have := (List.pairwise_append.1 q3).2.2 _ hk e (by simp)
        simp only [Play.first] at this
        have := hfirst.1
        simp only [Play.first] at this
        omega
      · rcases List.mem_cons.1 hk with hk | hk
        · exact hfirst.2 hk.symm
        · have := e3 k hk
          rw [hst _ _ _ ht] at this
          linarith [le_max_left hi 0]

/-- **C124** (replay, the last image) In such a replay, if the estimated offset is never negative, the last image of the recording is not processed: for every image that is there is a later one. -/
theorem C124_last_image (num : ℕ) (hn : num = 1 ∨ num = 2) (ms : List BMsg) (ho : Spec.InOrder ms) (hp : ∀ m ∈ ms, 0 ≤ m.t) (delta lo hi : ℝ) (hd : 0 ≤ delta) (hlo : 0 ≤ lo) (stamp : ℕ → ℝ)
    (hst : ∀ k s t, Spec.Is ms k s t → stamp k = t) (hg : (Spec.delivered stamp (replay num ms).1).Pairwise fun a b => a.t + delta ≤ b.t) (s : Node)
    (h : Run num delta stamp lo hi (replay num ms).1 s) : ∀ m ∈ s.fed, ∃ k c t, Spec.Is ms k (.cam c) t ∧ m.t < t := by
  intro m hm
  obtain ⟨-, -, h1, -⟩ := C124_processed num hn ms ho hp delta lo hi hd stamp hst hg s h
  obtain ⟨k, t, -, ⟨k', c, t', h2, h3⟩, h4⟩ := h1 m hm
  exact ⟨k', c, t', h2, by linarith⟩

/-- message of a sensor that is used -/
def Spec.Used (num : ℕ) (m : BMsg) : Prop := m.src = .imu ∨ ∃ i < num, m.src = .cam i

/-- **C124 (interval).** What is replayed of a recording in order of time: its first message is at `a.t`, its last at `z.t`. The program plays exactly if there is a message in the interval asked for. The messages it replays are, in order, those of the used sensors in the interval, ends included, with a negative duration those until the end; they are in order of time. -/
theorem C124_interval (num : ℕ) (start durr : ℝ) (bag : List BMsg) (a z : BMsg) (ha : bag.head? = some a) (hz : bag.getLast? = some z) (ho : Spec.InOrder bag) :
    let I : BMsg → Prop := fun m => a.t + start ≤ m.t ∧ (0 ≤ durr → m.t ≤ a.t + start + durr)
    ((serial num start durr bag).isSome ↔ ∃ m ∈ bag, I m) ∧
    ∀ ms r, serial num start durr bag = some (ms, r) → r = replay num ms ∧ ms.Sublist bag ∧ (∀ m, Spec.Used num m → I m → ms.count m = bag.count m) ∧ (∀ m ∈ ms, Spec.Used num m ∧ I m) ∧ Spec.InOrder ms := by
  intro I
  have hlast : ∀ m ∈ bag, m.t ≤ z.t := by
    intro m hm
    obtain ⟨l, rfl⟩ : ∃ l, bag = l ++ [z] := by
      rcases List.eq_nil_or_concat bag with rfl | ⟨l, y, rfl⟩
      · simp at hz
      · rw [List.concat_eq_append] at hz ⊢
        rw [List.getLast?_concat] at hz
        cases hz
        exact ⟨l, rfl⟩
    rcases List.mem_append.1 hm with h | h
    · exact (List.pairwise_append.1 ho).2.2 m h z (by simp)
    · rw [List.mem_singleton.1 h]
  have hw : window start durr bag = some (a.t + start, if durr < 0 then z.t else a.t + start + durr) := by
    unfold window; rw [ha, hz]
  have hI : ∀ m ∈ bag, (a.t + start ≤ m.t ∧ m.t ≤ (if durr < 0 then z.t else a.t + start + durr)) ↔ I m := by
    intro m hm
    by_cases hd : durr < 0
    · rw [if_pos hd]
      exact ⟨fun h => ⟨h.1, fun h' => absurd hd (not_lt.2 h')⟩, fun h => ⟨h.1, hlast m hm⟩⟩
    · rw [if_neg hd]
      exact ⟨fun h => ⟨h.1, fun _ => h.2⟩, fun h => ⟨h.1, h.2 (not_lt.1 hd)⟩⟩
  have hany : (bag.any fun m => decide (a.t + start ≤ m.t ∧ m.t ≤ (if durr < 0 then z.t else a.t + start + durr))) = true ↔ ∃ m ∈ bag, I m := by
    rw [List.any_eq_true]
    exact ⟨fun ⟨m, hm, h⟩ => ⟨m, hm, (hI m hm).1 (of_decide_eq_true h)⟩, fun ⟨m, hm, h⟩ => ⟨m, hm, decide_eq_true ((hI m hm).2 h)⟩⟩
  unfold serial
  rw [hw]
  simp only
  by_cases hx : (bag.any fun m => decide (a.t + start ≤ m.t ∧ m.t ≤ (if durr < 0 then z.t else a.t + start + durr))) = true
  · rw [if_pos hx]
    refine ⟨⟨fun _ => hany.1 hx, fun _ => rfl⟩, ?_⟩
    intro ms r h
    simp only [Option.some.injEq, Prod.mk.injEq] at h
    obtain ⟨rfl, rfl⟩ := h
    have hu : ∀ m : BMsg, (match m.src with | .imu => true | .cam i => decide (i < num) | .other => false) = true ↔ Spec.Used num m := by
      intro m
      unfold Spec.Used
      cases m.src <;> simp
    refine ⟨rfl, List.filter_sublist, fun m h1 h2 => ?_, fun m hm => ?_, List.Pairwise.sublist List.filter_sublist ho⟩
    · by_cases hm : m ∈ bag
      · exact List.count_filter (by rw [Bool.and_eq_true]; exact ⟨decide_eq_true ((hI m hm).2 h2), (hu m).2 h1⟩)
      · rw [List.count_eq_zero_of_not_mem hm]
        exact List.count_eq_zero_of_not_mem fun h => hm (List.mem_of_mem_filter h)
    · obtain ⟨h1, h2⟩ := List.mem_filter.1 hm
      rw [Bool.and_eq_true] at h2
      exact ⟨(hu m).1 h2.2, (hI m h1).1 (of_decide_eq_true h2.1)⟩
  · rw [if_neg hx]
    exact ⟨⟨fun h => by simp at h, fun h => absurd (hany.2 h) hx⟩, fun _ _ h => by simp at h⟩

/-- non-vacuity for C124_interval: one second from the first message on, of a bag with a message of another topic -/
example : ∃ ms r, serial 1 0 1 [⟨0, .imu⟩, ⟨0.5, .other⟩, ⟨1, .cam 0⟩, ⟨2, .imu⟩] = some (ms, r) ∧ (⟨1, .cam 0⟩ : BMsg) ∈ ms ∧ (⟨2, .imu⟩ : BMsg) ∉ ms ∧ (⟨0.5, .other⟩ : BMsg) ∉ ms := by
  have ho : Spec.InOrder [⟨0, .imu⟩, ⟨0.5, .other⟩, ⟨1, .cam 0⟩, ⟨2, .imu⟩] := by simp [Spec.InOrder]; norm_num
  obtain ⟨h1, h2⟩ := C124_interval 1 0 1 [⟨0, .imu⟩, ⟨0.5, .other⟩, ⟨1, .cam 0⟩, ⟨2, .imu⟩] _ _ rfl rfl ho
  obtain ⟨⟨ms, r⟩, h⟩ := Option.isSome_iff_exists.1 (h1.2 ⟨⟨0, .imu⟩, by simp, by simp⟩)
  obtain ⟨-, -, c, d, -⟩ := h2 ms r h
  refine ⟨ms, r, h, ?_, fun hm => ?_, fun hm => ?_⟩
  · have := c ⟨1, .cam 0⟩ (.inr ⟨0, by simp⟩) (by simp)
    rw [← List.count_pos_iff, this]
    exact List.count_pos_iff.2 (by simp)
  · have := (d _ hm).2.2 (by norm_num)
    norm_num at this
  · rcases (d _ hm).1 with h | ⟨i, -, h⟩ <;> simp at h

/-! ### Cases -/

/-- two images of camera 0 ten milliseconds apart, and one of camera 1 -/
noncomputable def exTwice : List BMsg := [⟨0, .cam 0⟩, ⟨0.01, .cam 0⟩, ⟨0.015, .cam 1⟩]

/-- **C124** (an image twice) Without such a distance an image may be delivered twice: the search for the image of the other camera does not look at the images used before. -/
theorem C124_image_twice : .stereo 0 2 ∈ (replay 2 exTwice).1 ∧ .stereo 1 2 ∈ (replay 2 exTwice).1 ∧ Spec.InOrder exTwice := by
  have hT : maxCam exTwice (-1) = 0.015 := by
    simp only [exTwice, maxCam]
    rw [max_eq_right (by norm_num : (-1 : ℝ) ≤ 0), max_eq_right (by norm_num : (0 : ℝ) ≤ 0.01), max_eq_right (by norm_num)]
  have p0 : partner 0 1 [⟨0, .cam 0⟩, ⟨0.01, .cam 0⟩, ⟨0.015, .cam 1⟩] 0 = some 2 := by
    simp [partner]; rw [abs_of_nonneg (by norm_num)]; norm_num
  have p1 : partner 0.01 1 [⟨0.01, .cam 0⟩, ⟨0.015, .cam 1⟩] 1 = some 2 := by
    simp [partner]; rw [abs_of_nonneg (by norm_num)]; norm_num
  obtain ⟨u', h1, h2, -, -, h3⟩ := play_tail 2 le_rfl (maxCam exTwice (-1)) exTwice ⟨0, .cam 0⟩ [⟨0.01, .cam 0⟩, ⟨0.015, .cam 1⟩] 0 [] rfl (by simp [UsedOk]) (by rw [hT]; norm_num)
  obtain ⟨-, -, -, -, -, h4⟩ := play_tail 2 le_rfl (maxCam exTwice (-1)) exTwice ⟨0.01, .cam 0⟩ [⟨0.015, .cam 1⟩] 1 u' rfl h1 (by rw [hT]; norm_num)
  have hu : 1 ∉ u' := by
    intro hu
    obtain ⟨c, w, a, b⟩ := h1 1 hu
    obtain ⟨k0, w0, c1, c2, c3, -⟩ := b (by norm_num)
    obtain rfl : k0 = 0 := by omega
    simp [Spec.Is, exTwice] at a c3
    omega
  have q1 := h3 rfl (by simp) 0 2 (by norm_num) rfl p0
  have q2 := h2 _ (h4 rfl hu 0 2 (by norm_num) rfl p1)
  refine ⟨q1, q2, ?_⟩
  simp only [Spec.InOrder, exTwice, List.pairwise_cons, List.mem_cons, List.not_mem_nil, or_false, forall_eq_or_imp, forall_eq, List.Pairwise.nil]
  norm_num

/-- a recording of two cameras -/
noncomputable def exStereo : List BMsg := [⟨0.1, .cam 0⟩, ⟨0.11, .cam 1⟩, ⟨0.15, .imu⟩, ⟨0.2, .cam 1⟩, ⟨0.2, .cam 0⟩, ⟨0.25, .imu⟩]

theorem exStereo_order : Spec.InOrder exStereo := by
  simp only [Spec.InOrder, exStereo, List.pairwise_cons, List.mem_cons, List.not_mem_nil, or_false, forall_eq_or_imp, forall_eq, List.Pairwise.nil]
  norm_num

theorem exStereo_apart : Spec.Apart 0.04 exStereo := by
  have hl : ∀ i c t, Spec.Is exStereo i (.cam c) t → (i = 0 ∧ c = 0 ∧ t = 0.1) ∨ (i = 1 ∧ c = 1 ∧ t = 0.11) ∨ (i = 3 ∧ c = 1 ∧ t = 0.2) ∨ (i = 4 ∧ c = 0 ∧ t = 0.2) := by
    intro i c t h
    rcases i with _ | _ | _ | _ | _ | _ | i <;> simp [Spec.Is, exStereo] at h <;> obtain ⟨rfl, rfl⟩ := h <;> norm_num
  intro i j c t t' hij h h'
  rcases hl _ _ _ h with ⟨rfl, rfl, rfl⟩ | ⟨rfl, rfl, rfl⟩ | ⟨rfl, rfl, rfl⟩ | ⟨rfl, rfl, rfl⟩ <;> rcases hl _ _ _ h' with ⟨rfl, h1, rfl⟩ | ⟨rfl, h1, rfl⟩ | ⟨rfl, h1, rfl⟩ | ⟨rfl, h1, rfl⟩ <;>
    first
    | exact absurd rfl hij
    | (exfalso; omega)
    | (rw [le_abs]; left; norm_num; done)
    | (rw [le_abs]; right; norm_num; done)

/-- both pairs are delivered; of the two IMU readings the first is -/
example : .stereo 0 1 ∈ (replay 2 exStereo).1 ∧ .stereo 4 3 ∈ (replay 2 exStereo).1 ∧ .imu 2 ∈ (replay 2 exStereo).1 ∧ .imu 5 ∉ (replay 2 exStereo).1 := by
  have hp : ∀ m ∈ exStereo, 0 ≤ m.t := by
    simp only [exStereo, List.mem_cons, List.not_mem_nil, or_false, forall_eq_or_imp, forall_eq]
    norm_num
  have hi := (C124_replay 2 (by omega) exStereo exStereo_order hp).2.1
  refine ⟨(C124_stereo exStereo exStereo_order exStereo_apart 0 1).2 ⟨0.1, 0.11, rfl, rfl, ?_⟩, (C124_stereo exStereo exStereo_order exStereo_apart 4 3).2 ⟨0.2, 0.2, rfl, rfl, by norm_num⟩,
    (hi 2).2 ⟨0.15, rfl, 3, 1, 0.2, rfl, by norm_num⟩, fun h => ?_⟩
  · rw [abs_of_nonpos (by norm_num)]; norm_num
  · obtain ⟨t, h1, k, c, t', h2, h3⟩ := (hi 5).1 h
    obtain rfl : (0.25 : ℝ) = t := by
      have := Option.some.inj h1
      injection this
    rcases k with _ | _ | _ | _ | _ | _ | k <;> simp [Spec.Is, exStereo] at h2 <;> rw [← h2.1] at h3 <;> norm_num at h3

/-- a recording of one camera: an image, an IMU reading, an image -/
noncomputable def exMono : List BMsg := [⟨0.1, .cam 0⟩, ⟨0.2, .imu⟩, ⟨0.3, .cam 0⟩]

theorem exMono_replay : (replay 1 exMono).1 = [.mono 0, .imu 1, .mono 2] := by
  have hT : maxCam exMono (-1) = 0.3 := by
    simp only [exMono, maxCam]
    rw [max_eq_right (by norm_num : (-1 : ℝ) ≤ 0.1), max_eq_right (by norm_num)]
  rw [replay, hT, exMono, play, if_neg (by norm_num), if_neg (by simp)]
  simp only
  rw [if_pos ⟨by norm_num, fun c' hc => by rw [if_pos (by omega)]; rfl⟩, if_pos trivial]
  rw [play, if_neg (by norm_num), if_neg (by simp)]
  simp only
  rw [play, if_neg (by norm_num), if_neg (by simp)]
  simp only
  rw [if_pos ⟨by norm_num, fun c' hc => by rw [if_pos (by omega)]; rfl⟩, if_pos trivial]
  rfl

/-- the hypotheses of `C124_processed` are met and an image is processed -/
example : ∃ s, Run 1 0.05 (fun k => ((exMono[k]?).map (·.t)).getD 0) 0 0 (replay 1 exMono).1 s ∧ s.fed = [⟨0.1, [0], 0⟩] ∧
    (Spec.delivered (fun k => ((exMono[k]?).map (·.t)).getD 0) (replay 1 exMono).1).Pairwise (fun a b => a.t + 0.05 ≤ b.t) ∧ Spec.InOrder exMono ∧ (∀ m ∈ exMono, 0 ≤ m.t) ∧
    ∀ k s t, Spec.Is exMono k s t → ((exMono[k]?).map (·.t)).getD 0 = t := by
  rw [exMono_replay]
  have r0 := @Run.nil 1 0.05 (fun k => ((exMono[k]?).map (·.t)).getD 0) 0 0
  have r1 := Run.keep (.mono 0) ⟨0.1, [0], 0⟩ [⟨0.1, [0], 0⟩] r0 (Or.inl ⟨0, rfl, by simp [exMono]⟩) (by simp [Node.throttled, Node.init]) (by simp [Node.init]) (by simp [Sorted])
  have r2 := Run.imuFeed 1 0 [⟨0.1, [0], 0⟩] [] r1 (by simp [Node.enough, CMsg.cam]) le_rfl le_rfl rfl (by simp [exMono]; norm_num) (by simp)
  have r3 := Run.keep (.mono 2) ⟨0.3, [0], 2⟩ [⟨0.3, [0], 2⟩] r2 (Or.inl ⟨2, rfl, by simp [exMono]⟩) (by simp [Node.throttled, Node.init, CMsg.cam]; norm_num) (by simp [Node.init]) (by simp [Sorted])
  refine ⟨_, r3, by simp [Node.fed, Node.init], ?_, ?_, ?_, fun k s t h => ?_⟩
  · show List.Pairwise _ [(⟨0.1, [0], 0⟩ : CMsg), ⟨0.3, [0], 2⟩]
    simp only [List.pairwise_cons, List.mem_cons, List.not_mem_nil, or_false, forall_eq, List.Pairwise.nil]
    norm_num
  · simp only [Spec.InOrder, exMono, List.pairwise_cons, List.mem_cons, List.not_mem_nil, or_false, forall_eq_or_imp, forall_eq, List.Pairwise.nil]
    norm_num
  · simp only [exMono, List.mem_cons, List.not_mem_nil, or_false, forall_eq_or_imp, forall_eq]
    norm_num
  · rw [Spec.Is] at h
    rw [h]; rfl

end Verif.Ros
