import Verif.Eval.Props
import Verif.Upd.Props

/-!
# C54: association of an estimated with a groundtruth trajectory
-/

open Classical

namespace Verif.Eval

open Verif

theorem drop_cons {gt : List ℝ} {p : ℕ} (h : p < gt.length) : gt.drop p = gt.getD p 0 :: gt.drop (p + 1) := by
  rw [List.getD_eq_getElem _ _ h]; exact List.drop_eq_getElem_cons h

theorem skip_spec (d t : ℝ) (gt : List ℝ) (n : ℕ) : ∀ p, gt.length - p = n → ∃ p', skipFar d t (gt.drop p) p = (gt.drop p', p') ∧ p ≤ p' ∧
    (∀ i, p ≤ i → i < p' → i < gt.length ∧ gt.getD i 0 < t ∧ d < |gt.getD i 0 - t|) ∧
    (p' < gt.length → ¬ (gt.getD p' 0 < t ∧ d < |gt.getD p' 0 - t|)) := by
  induction n with
  | zero =>
    intro p hp
    refine ⟨p, ?_, le_rfl, fun i h1 h2 => by omega, fun h => by omega⟩
    rw [List.drop_eq_nil_of_le (by omega)]; rfl
  | succ n ih =>
    intro p hp
    rw [drop_cons (by omega : p < gt.length), skipFar]
    by_cases hc : gt.getD p 0 < t ∧ |gt.getD p 0 - t| > d
    · rw [if_pos hc]
      obtain ⟨p', h1, h2, h3, h4⟩ := ih (p + 1) (by omega)
      refine ⟨p', h1, by omega, ?_, h4⟩
      intro i g1 g2
      rcases g1.lt_or_eq with hl | rfl
      · exact h3 i hl g2
      · exact ⟨by omega, hc.1, hc.2⟩
    · rw [if_neg hc]
      refine ⟨p, by rw [drop_cons (by omega : p < gt.length)], le_rfl, fun i h1 h2 => by omega, fun _ => hc⟩

theorem climb_spec (d t : ℝ) (gt : List ℝ) (n : ℕ) : ∀ p best bi, gt.length - p = n → ∃ p',
    climb d t (gt.drop p) p best bi = (if p' = p then bi else some (p' - 1), gt.drop p', p') ∧ p ≤ p' ∧
    (∀ i, p ≤ i → i < p' → i < gt.length ∧ |gt.getD i 0 - t| ≤ d ∧ |gt.getD i 0 - t| < best ∧ ∀ j, p ≤ j → j < i → |gt.getD i 0 - t| < |gt.getD j 0 - t|) ∧
    (p' < gt.length → d < |gt.getD p' 0 - t| ∨ (if p' = p then best else |gt.getD (p' - 1) 0 - t|) ≤ |gt.getD p' 0 - t|) := by
  induction n with
  | zero =>
    intro p best bi hp
    refine ⟨p, ?_, le_rfl, fun i h1 h2 => by omega, fun h => by omega⟩
    rw [List.drop_eq_nil_of_le (by omega), climb, if_pos rfl]
  | succ n ih =>
    intro p best bi hp
    rw [drop_cons (by omega : p < gt.length), climb]
    by_cases hc : |gt.getD p 0 - t| ≤ d
    · rw [if_pos hc]
      by_cases hb : |gt.getD p 0 - t| ≥ best
      · rw [if_pos hb]
        exact ⟨p, by rw [if_pos rfl, drop_cons (by omega : p < gt.length)], le_rfl, fun i h1 h2 => by omega, fun _ => Or.inr (by rw [if_pos rfl]; exact hb)⟩
      · rw [if_neg hb]
        have hb' : |gt.getD p 0 - t| < best := not_le.1 hb
        obtain ⟨p', h1, h2, h3, h4⟩ := ih (p + 1) |gt.getD p 0 - t| (some p) (by omega)
        refine ⟨p', ?_, by omega, ?_, ?_⟩
        · rw [h1]
          by_cases hq : p' = p + 1
          · rw [if_pos hq, if_neg (by omega), hq]; rfl
          · rw [if_neg hq, if_neg (by omega)]
        · intro i g1 g2
          rcases g1.lt_or_eq with hl | rfl
          · obtain ⟨k1, k2, k3, k4⟩ := h3 i hl g2
            refine ⟨k1, k2, k3.trans hb', ?_⟩
            intro j j1 j2
            rcases j1.lt_or_eq with hl' | rfl
            · exact k4 j hl' j2
            · exact k3
          · exact ⟨by omega, hc, hb', fun j j1 j2 => by omega⟩
        · intro hl
          rcases h4 hl with h | h
          · exact Or.inl h
          · right
            rw [if_neg (by omega)]
            by_cases hq : p' = p + 1
            · rw [if_pos hq] at h; rwa [hq] at h ⊢
            · rwa [if_neg hq] at h
    · rw [if_neg hc]
      refine ⟨p, by rw [if_pos rfl, drop_cons (by omega : p < gt.length)], le_rfl, fun i h1 h2 => by omega, fun _ => Or.inl (not_le.1 hc)⟩

/-- one step of the loop over the estimates. -/
theorem match_step (off d e : ℝ) (es gt : List ℝ) (i p : ℕ) : ∃ p1 p2, p ≤ p1 ∧ p1 ≤ p2 ∧
    (∀ k, p ≤ k → k < p1 → k < gt.length ∧ gt.getD k 0 < e + off ∧ d < |gt.getD k 0 - (e + off)|) ∧
    (p1 < gt.length → ¬ (gt.getD p1 0 < e + off ∧ d < |gt.getD p1 0 - (e + off)|)) ∧
    (∀ k, p1 ≤ k → k < p2 → k < gt.length ∧ |gt.getD k 0 - (e + off)| < d ∧ ∀ j, p1 ≤ j → j < k → |gt.getD k 0 - (e + off)| < |gt.getD j 0 - (e + off)|) ∧
    (p2 < gt.length → d < |gt.getD p2 0 - (e + off)| ∨ (if p2 = p1 then d else |gt.getD (p2 - 1) 0 - (e + off)|) ≤ |gt.getD p2 0 - (e + off)|) ∧
    matchFrom off d (e :: es) i (gt.drop p) p =
      (if p2 = p1 then matchFrom off d es (i + 1) (gt.drop p2) p2 else (i, p2 - 1) :: matchFrom off d es (i + 1) (gt.drop p2) p2) := by
  obtain ⟨p1, a1, a2, a3, a4⟩ := skip_spec d (e + off) gt _ p rfl
  obtain ⟨p2, b1, b2, b3, b4⟩ := climb_spec d (e + off) gt _ p1 d none rfl
  refine ⟨p1, p2, a2, b2, a3, a4, fun k h1 h2 => ⟨(b3 k h1 h2).1, (b3 k h1 h2).2.2.1, (b3 k h1 h2).2.2.2⟩, b4, ?_⟩
  rw [matchFrom]
  simp only [a1, b1]
  by_cases hq : p2 = p1
  · simp only [if_pos hq]
  · simp only [if_neg hq]

/-- indices are strictly increasing on both sides, within range, and each match within the tolerance. -/
theorem match_basic (off d : ℝ) (gt : List ℝ) (es : List ℝ) : ∀ i p,
    (matchFrom off d es i (gt.drop p) p).Pairwise (fun x y => x.1 < y.1 ∧ x.2 < y.2) ∧
    ∀ x ∈ matchFrom off d es i (gt.drop p) p, i ≤ x.1 ∧ x.1 < i + es.length ∧ p ≤ x.2 ∧ x.2 < gt.length ∧
      |gt.getD x.2 0 - (es.getD (x.1 - i) 0 + off)| < d := by
  induction es with
  | nil => intro i p; simp [matchFrom]
  | cons e es ih =>
    intro i p
    obtain ⟨p1, p2, h1, h2, -, -, h5, -, h7⟩ := match_step off d e es gt i p
    obtain ⟨r1, r2⟩ := ih (i + 1) p2
    rw [h7]
    have r2' : ∀ x ∈ matchFrom off d es (i + 1) (gt.drop p2) p2, i + 1 ≤ x.1 ∧ x.1 < i + (es.length + 1) ∧ p2 ≤ x.2 ∧ x.2 < gt.length ∧
        |gt.getD x.2 0 - ((e :: es).getD (x.1 - i) 0 + off)| < d := by
      intro x hx
      obtain ⟨q1, q2, q3, q4, q5⟩ := r2 x hx
      refine ⟨q1, by omega, q3, q4, ?_⟩
      rw [show x.1 - i = (x.1 - (i + 1)) + 1 by omega, List.getD_cons_succ]
      exact q5
    by_cases hq : p2 = p1
    · rw [if_pos hq]
      refine ⟨r1, fun x hx => ?_⟩
      obtain ⟨q1, q2, q3, q4, q5⟩ := r2' x hx
      exact ⟨by omega, by rw [List.length_cons]; omega, by omega, q4, q5⟩
    · rw [if_neg hq]
      have hm := h5 (p2 - 1) (by omega) (by omega)
      refine ⟨List.pairwise_cons.2 ⟨fun y hy => ?_, r1⟩, ?_⟩
      · obtain ⟨q1, q2, q3, q4, q5⟩ := r2' y hy
        exact ⟨by simp only; omega, by simp only; omega⟩
      · intro x hx
        rcases List.mem_cons.1 hx with rfl | hx
        · refine ⟨le_rfl, by rw [List.length_cons]; simp only; omega, by simp only; omega, hm.1, ?_⟩
          simp only [Nat.sub_self, List.getD_cons_zero]
          exact hm.2.1
        · obtain ⟨q1, q2, q3, q4, q5⟩ := r2' x hx
          exact ⟨by omega, by rw [List.length_cons]; omega, by omega, q4, q5⟩

/-- **C54** For any two time lists, sorted or not: the matches are strictly increasing in both indices (no estimate and no groundtruth pose is used twice),
refer to existing entries and are closer than the tolerance. -/
theorem C54_monotone_injective (off d : ℝ) (est gt : List ℝ) :
    (matches_ off d est gt).Pairwise (fun x y => x.1 < y.1 ∧ x.2 < y.2) ∧
    ∀ x ∈ matches_ off d est gt, ∃ (h1 : x.1 < est.length) (h2 : x.2 < gt.length), |gt[x.2] - (est[x.1] + off)| < d := by
  obtain ⟨h1, h2⟩ := match_basic off d gt est 0 0
  rw [List.drop_zero] at h1 h2
  refine ⟨h1, fun x hx => ?_⟩
  obtain ⟨-, q2, -, q4, q5⟩ := h2 x hx
  refine ⟨by omega, q4, ?_⟩
  rwa [Nat.sub_zero, List.getD_eq_getElem _ _ q4, List.getD_eq_getElem _ _ (by omega)] at q5

theorem match_best (off d : ℝ) (gt : List ℝ) (hs : ∀ j k, j < k → k < gt.length → gt.getD j 0 < gt.getD k 0) (es : List ℝ) : ∀ i p u,
    u ≤ p →
    (∀ a b, a ≤ b → b < es.length → es.getD a 0 ≤ es.getD b 0) →
    (∀ a k, a < es.length → k < gt.length → |gt.getD k 0 - (es.getD a 0 + off)| ≠ d) →
    (∀ a k, a < es.length → u ≤ k → k < p → gt.getD k 0 < es.getD a 0 + off ∧ d < |gt.getD k 0 - (es.getD a 0 + off)|) →
    ∀ a, a < es.length →
      (∀ b, (i + a, b) ∈ matchFrom off d es i (gt.drop p) p → ∀ k, k < gt.length → u ≤ k →
        (∀ x ∈ matchFrom off d es i (gt.drop p) p, x.1 < i + a → x.2 < k) → |gt.getD b 0 - (es.getD a 0 + off)| ≤ |gt.getD k 0 - (es.getD a 0 + off)|) ∧
      ((∀ b, (i + a, b) ∉ matchFrom off d es i (gt.drop p) p) → ∀ k, k < gt.length → u ≤ k →
        (∀ x ∈ matchFrom off d es i (gt.drop p) p, x.1 < i + a → x.2 < k) → d < |gt.getD k 0 - (es.getD a 0 + off)|) := by
  induction es with
  | nil => intro i p u _ _ _ _ a ha; simp at ha
  | cons e es ih =>
    intro i p u hup hse hd hdead a ha
    obtain ⟨p1, p2, h1, h2, h3, h4, h5, h6, h7⟩ := match_step off d e es gt i p
    obtain ⟨-, r2⟩ := match_basic off d gt es (i + 1) p2
    have hse' : ∀ a b, a ≤ b → b < es.length → es.getD a 0 ≤ es.getD b 0 := by
      intro a b h h'
      have := hse (a + 1) (b + 1) (by omega) (by simpa using h')
      simpa only [List.getD_cons_succ] using this
    have hse0 : ∀ a, a < es.length → e ≤ es.getD a 0 := by
      intro a h
      have := hse 0 (a + 1) (by omega) (by simpa using h)
      simpa only [List.getD_cons_succ, List.getD_cons_zero] using this
    have hd' : ∀ a k, a < es.length → k < gt.length → |gt.getD k 0 - (es.getD a 0 + off)| ≠ d := by
      intro a k h h'
      have := hd (a + 1) k (by simpa using h) h'
      simpa only [List.getD_cons_succ] using this
    have hd0 : ∀ k, k < gt.length → |gt.getD k 0 - (e + off)| ≠ d := by
      intro k h'
      have := hd 0 k (by simp) h'
      simpa only [List.getD_cons_zero] using this
    have hdead0 : ∀ k, u ≤ k → k < p → gt.getD k 0 < e + off ∧ d < |gt.getD k 0 - (e + off)| := by
      intro k k1 k2
      have := hdead 0 k (by simp) k1 k2
      simpa only [List.getD_cons_zero] using this
    have hdead' : ∀ a k, a < es.length → u ≤ k → k < p1 → gt.getD k 0 < es.getD a 0 + off ∧ d < |gt.getD k 0 - (es.getD a 0 + off)| := by
      intro a k ha k1 k2
      have hx : gt.getD k 0 < e + off ∧ d < |gt.getD k 0 - (e + off)| := by
        rcases Nat.lt_or_ge k p with hl | hl
        · exact hdead0 k k1 hl
        · exact ⟨(h3 k hl k2).2.1, (h3 k hl k2).2.2⟩
      have he := hse0 a ha
      rw [abs_of_neg (by linarith [hx.1])] at hx
      refine ⟨by linarith [hx.1], ?_⟩
      rw [abs_of_neg (by linarith [hx.1])]
      linarith [hx.2]
    -- no later groundtruth pose beats the stopping point
    have hfar : ∀ k, u ≤ k → k < p1 → d < |gt.getD k 0 - (e + off)| := by
      intro k k1 k2
      rcases Nat.lt_or_ge k p with hl | hl
      · exact (hdead0 k k1 hl).2
      · exact (h3 k hl k2).2.2
    by_cases hq : p2 = p1
    · -- no match
      rw [if_pos hq] at h7
      rw [h7]
      rw [if_pos hq] at h6
      subst hq
      cases a with
      | zero =>
        refine ⟨fun b hb => ?_, fun _ k hk hku _ => ?_⟩
        · have := (r2 _ hb).1; simp at this
        · simp only [List.getD_cons_zero]
          rcases Nat.lt_or_ge k p2 with hl | hl
          · exact hfar k hku hl
          · have hp : p2 < gt.length := by omega
            have h6' : d < |gt.getD p2 0 - (e + off)| := by
              rcases h6 hp with h | h
              · exact h
              · exact lt_of_le_of_ne h (fun h' => hd0 p2 hp h'.symm)
            have h8 : e + off ≤ gt.getD p2 0 := by
              by_contra hcon
              exact h4 hp ⟨not_le.1 hcon, h6'⟩
            have h9 : gt.getD p2 0 ≤ gt.getD k 0 := by
              rcases hl.lt_or_eq with h | rfl
              · exact (hs p2 k h hk).le
              · exact le_rfl
            rw [abs_of_nonneg (by linarith)] at h6'
            rw [abs_of_nonneg (by linarith)]
            linarith
      | succ a =>
        have := ih (i + 1) p2 u (by omega) hse' hd' hdead' a (by simpa using ha)
        simp only [List.getD_cons_succ, show i + (a + 1) = i + 1 + a by omega]
        exact this
    · rw [if_neg hq] at h7
      rw [h7]
      rw [if_neg hq] at h6
      have hb := h5 (p2 - 1) (by omega) (by omega)
      cases a with
      | zero =>
        refine ⟨fun b hbm k hk hku _ => ?_, fun hno => ?_⟩
        · have hbe : b = p2 - 1 := by
            rcases List.mem_cons.1 hbm with h | h
            · simpa using h
            · have := (r2 _ h).1; simp at this
          subst hbe
          simp only [List.getD_cons_zero]
          rcases Nat.lt_or_ge k p1 with hl | hl
          · exact (hb.2.1.trans (hfar k hku hl)).le
          · rcases Nat.lt_or_ge k p2 with hl2 | hl2
            · rcases Nat.lt_or_ge k (p2 - 1) with hl3 | hl3
              · exact (hb.2.2 k hl hl3).le
              · rw [show k = p2 - 1 by omega]
            · have hp : p2 < gt.length := by omega
              have h6' : |gt.getD (p2 - 1) 0 - (e + off)| ≤ |gt.getD p2 0 - (e + off)| := by
                rcases h6 hp with h | h
                · exact (hb.2.1.trans h).le
                · exact h
              have hlt := hs (p2 - 1) p2 (by omega) hp
              have h8 : e + off ≤ gt.getD p2 0 := by
                by_contra hcon
                rw [abs_of_neg (by linarith), abs_of_neg (by linarith)] at h6'
                linarith
              have h9 : gt.getD p2 0 ≤ gt.getD k 0 := by
                rcases hl2.lt_or_eq with h | rfl
                · exact (hs p2 k h hk).le
                · exact le_rfl
              refine h6'.trans ?_
              rw [abs_of_nonneg (by linarith), abs_of_nonneg (by linarith)]
              linarith
        · exact absurd List.mem_cons_self (hno (p2 - 1))
      | succ a =>
        obtain ⟨s1, s2⟩ := ih (i + 1) p2 p2 le_rfl hse' hd' (fun a k _ k1 k2 => by omega) a (by simpa using ha)
        simp only [List.getD_cons_succ, show i + (a + 1) = i + 1 + a by omega]
        have hgt : ∀ k, (∀ x ∈ (i, p2 - 1) :: matchFrom off d es (i + 1) (gt.drop p2) p2, x.1 < i + 1 + a → x.2 < k) → p2 ≤ k := by
          intro k hk
          have := hk (i, p2 - 1) List.mem_cons_self (by simp only; omega)
          simp only at this; omega
        refine ⟨fun b hbm k hk hku hx => ?_, fun hno k hk hku hx => ?_⟩
        · refine s1 b ?_ k hk (hgt k hx) (fun x hxm => hx x (List.mem_cons_of_mem _ hxm))
          rcases List.mem_cons.1 hbm with h | h
          · simp only [Prod.mk.injEq] at h; omega
          · exact h
        · exact s2 (fun b hb => hno b (List.mem_cons_of_mem _ hb)) k hk (hgt k hx) (fun x hxm => hx x (List.mem_cons_of_mem _ hxm))

/-- **C54** (partial) For sorted estimate times and strictly sorted groundtruth times, and no pair exactly at the tolerance: an estimate's match is a nearest
groundtruth pose among those after every groundtruth pose used by earlier estimates; an estimate stays unmatched only if every such pose is farther than the
tolerance. Missing: pairs at exactly the tolerance (see `C54_boundary_blocks`). -/
theorem C54_nearest_partial (off d : ℝ) (est gt : List ℝ) (he : est.Pairwise (· ≤ ·)) (hg : gt.Pairwise (· < ·))
    (hd : ∀ e ∈ est, ∀ g ∈ gt, |g - (e + off)| ≠ d) (a : ℕ) (ha : a < est.length) :
    let free : ℕ → Prop := fun k => ∀ x ∈ matches_ off d est gt, x.1 < a → x.2 < k
    (∀ b (hb : b < gt.length), (a, b) ∈ matches_ off d est gt → ∀ k (hk : k < gt.length), free k → |gt[b] - (est[a] + off)| ≤ |gt[k] - (est[a] + off)|) ∧
    ((∀ b, (a, b) ∉ matches_ off d est gt) → ∀ k (hk : k < gt.length), free k → d < |gt[k] - (est[a] + off)|) := by
  intro free
  have hs : ∀ j k, j < k → k < gt.length → gt.getD j 0 < gt.getD k 0 := by
    intro j k h h'
    rw [List.getD_eq_getElem _ _ (by omega), List.getD_eq_getElem _ _ h']
    exact List.pairwise_iff_getElem.1 hg j k _ h' h
  have hse : ∀ x y, x ≤ y → y < est.length → est.getD x 0 ≤ est.getD y 0 := fun x y h h' => sorted_getD he h h'
  have hd' : ∀ x k, x < est.length → k < gt.length → |gt.getD k 0 - (est.getD x 0 + off)| ≠ d := by
    intro x k h h'
    exact hd _ (getD_mem h) _ (getD_mem h')
  obtain ⟨r1, r2⟩ := match_best off d gt hs est 0 0 0 le_rfl hse hd' (fun _ _ _ _ h => by omega) a ha
  simp only [zero_add, List.drop_zero] at r1 r2
  constructor
  · intro b hb hm k hk hf
    have := r1 b hm k hk (Nat.zero_le _) hf
    rwa [List.getD_eq_getElem _ _ hb, List.getD_eq_getElem _ _ hk, List.getD_eq_getElem _ _ ha] at this
  · intro hno k hk hf
    have := r2 hno k hk (Nat.zero_le _) hf
    rwa [List.getD_eq_getElem _ _ hk, List.getD_eq_getElem _ _ ha] at this

/-- **C54** The full claim fails at the boundary: a groundtruth pose exactly the tolerance before an estimate blocks it, although another one has the very
same time as the estimate. -/
theorem C54_boundary_blocks (t d : ℝ) (hd : 0 < d) : matches_ 0 d [t] [t - d, t] = [] := by
  have h1 : |t - d - (t + 0)| = d := by rw [show t - d - (t + 0) = -d by ring, abs_neg, abs_of_pos hd]
  simp only [matches_, matchFrom, skipFar, climb, h1, gt_iff_lt, lt_irrefl, and_false, if_false, le_refl, if_true, ge_iff_le]

/-- **C54** The association succeeds on trajectories with one pose per time (and no or one covariance per time); with at least three estimates it returns
lists of equal length, the number of matches: the groundtruth times, and the matched poses and covariances of both; with covariances of the estimates only, those of the groundtruth are zero, without there are none. -/
theorem C54_lists {P K : Type} (zero : K) (off d : ℝ) (est gt : Traj P K) (h1 : est.poses.length = est.times.length) (h2 : gt.poses.length = gt.times.length)
    (h3 : est.covori = [] ∨ (est.covori.length = est.times.length ∧ est.covpos.length = est.times.length))
    (h4 : gt.covori = [] ∨ (gt.covori.length = gt.times.length ∧ gt.covpos.length = gt.times.length)) :
    ∃ e g, performAssociation zero off d est gt = some (e, g) ∧ (est.times.length < 3 → e = est ∧ g = gt) ∧
      (3 ≤ est.times.length →
        let m := matches_ off d est.times gt.times
        e.times.length = m.length ∧ g.times.length = m.length ∧ e.poses.length = m.length ∧ g.poses.length = m.length ∧
        (∀ n (hn : n < m.length), e.poses[n]? = est.poses[m[n].1]? ∧ g.poses[n]? = gt.poses[m[n].2]? ∧ g.times[n]? = gt.times[m[n].2]? ∧ e.times[n]? = g.times[n]?) ∧
        (est.covori ≠ [] → e.covori.length = m.length ∧ e.covpos.length = m.length ∧ g.covori.length = m.length ∧ g.covpos.length = m.length ∧
          ∀ n (hn : n < m.length), e.covori[n]? = est.covori[m[n].1]? ∧ e.covpos[n]? = est.covpos[m[n].1]? ∧
            (gt.covori = [] → g.covori[n]? = some zero ∧ g.covpos[n]? = some zero) ∧ (gt.covori ≠ [] → g.covori[n]? = gt.covori[m[n].2]? ∧ g.covpos[n]? = gt.covpos[m[n].2]?)) ∧
        (est.covori = [] → e.covori = [] ∧ e.covpos = [] ∧ g.covori = [] ∧ g.covpos = [])) := by
  have hin : ∀ x ∈ matches_ off d est.times gt.times, x.1 < est.times.length ∧ x.2 < gt.times.length := by
    intro x hx
    obtain ⟨a, b, -⟩ := (C54_monotone_injective off d est.times gt.times).2 x hx
    exact ⟨a, b⟩
  have key : ∀ {α : Type} (l : List α) (f : ℕ × ℕ → ℕ), (∀ x ∈ matches_ off d est.times gt.times, f x < l.length) →
      ∃ r, (matches_ off d est.times gt.times).mapM (fun x => l[f x]?) = some r ∧ r.length = (matches_ off d est.times gt.times).length ∧
        ∀ n (hn : n < (matches_ off d est.times gt.times).length), r[n]? = l[f (matches_ off d est.times gt.times)[n]]? := by
    intro α l f hf
    generalize matches_ off d est.times gt.times = m at hf
    induction m with
    | nil => exact ⟨[], rfl, rfl, fun n hn => by simp at hn⟩
    | cons x xs ih =>
      obtain ⟨r, q1, q2, q3⟩ := ih (fun y hy => hf y (List.mem_cons_of_mem _ hy))
      have hx := hf x List.mem_cons_self
      refine ⟨l[f x] :: r, ?_, by simp [q2], ?_⟩
      · rw [List.mapM_cons, q1, List.getElem?_eq_getElem hx]; rfl
      · intro n hn
        cases n with
        | zero => simp [List.getElem?_eq_getElem hx]
        | succ n => simpa using q3 n (by simpa using hn)
  obtain ⟨ts, t1, t2, t3⟩ := key gt.times (fun x => x.2) (fun x hx => (hin x hx).2)
  obtain ⟨ep, e1, e2, e3⟩ := key est.poses (fun x => x.1) (fun x hx => h1 ▸ (hin x hx).1)
  obtain ⟨gp, g1, g2, g3⟩ := key gt.poses (fun x => x.2) (fun x hx => h2 ▸ (hin x hx).2)
  unfold performAssociation
  simp only [t1, e1, g1, Option.bind_eq_bind, Option.bind_some]
  by_cases hc : est.covori = []
  · simp only [if_pos hc, Option.bind_some]
    by_cases h5 : est.times.length < 3
    · exact ⟨_, _, by rw [if_pos h5], fun _ => ⟨rfl, rfl⟩, fun h => by omega⟩
    · exact ⟨⟨ts, ep, [], []⟩, ⟨ts, gp, [], []⟩, by rw [if_neg h5], fun h => absurd h h5, fun _ => ⟨t2, t2, e2, g2, fun n hn => ⟨e3 n hn, g3 n hn, t3 n hn, rfl⟩, fun h => absurd hc h, fun _ => ⟨rfl, rfl, rfl, rfl⟩⟩⟩
  · obtain ⟨l1, l2⟩ := h3.resolve_left hc
    obtain ⟨co, c1, c2, c3⟩ := key est.covori (fun x => x.1) (fun x hx => l1 ▸ (hin x hx).1)
    obtain ⟨cp, p1, p2, p3⟩ := key est.covpos (fun x => x.1) (fun x hx => l2 ▸ (hin x hx).1)
    simp only [if_neg hc, if_pos (l1.trans l2.symm), c1, p1, Option.bind_some]
    by_cases hgc : gt.covori = []
    · simp only [if_pos hgc, Option.bind_some]
      by_cases h5 : est.times.length < 3
      · exact ⟨_, _, by rw [if_pos h5], fun _ => ⟨rfl, rfl⟩, fun h => by omega⟩
      · exact ⟨⟨ts, ep, co, cp⟩, ⟨ts, gp, (matches_ off d est.times gt.times).map fun _ => zero, (matches_ off d est.times gt.times).map fun _ => zero⟩, by rw [if_neg h5], fun h => absurd h h5, fun _ => ⟨t2, t2, e2, g2, fun n hn => ⟨e3 n hn, g3 n hn, t3 n hn, rfl⟩, fun _ => ⟨c2, p2, by simp, by simp, fun n hn => ⟨c3 n hn, p3 n hn, fun _ => ⟨by simp [hn], by simp [hn]⟩, fun h => absurd hgc h⟩⟩, fun h => absurd h hc⟩⟩
    · obtain ⟨l3, l4⟩ := h4.resolve_left hgc
      obtain ⟨go, o1, o2, o3⟩ := key gt.covori (fun x => x.2) (fun x hx => l3 ▸ (hin x hx).2)
      obtain ⟨gq, q1, q2, q3⟩ := key gt.covpos (fun x => x.2) (fun x hx => l4 ▸ (hin x hx).2)
      simp only [if_neg hgc, if_pos (l3.trans l4.symm), o1, q1, Option.bind_some]
      by_cases h5 : est.times.length < 3
      · exact ⟨_, _, by rw [if_pos h5], fun _ => ⟨rfl, rfl⟩, fun h => by omega⟩
      · exact ⟨⟨ts, ep, co, cp⟩, ⟨ts, gp, go, gq⟩, by rw [if_neg h5], fun h => absurd h h5, fun _ => ⟨t2, t2, e2, g2, fun n hn => ⟨e3 n hn, g3 n hn, t3 n hn, rfl⟩, fun _ => ⟨c2, p2, o2, q2, fun n hn => ⟨c3 n hn, p3 n hn, fun h => absurd h hgc, fun _ => ⟨o3 n hn, q3 n hn⟩⟩⟩, fun h => absurd h hc⟩⟩

/-- **C54** The check meant to refuse too few associations looks at the number of estimates: three estimates without any match leave empty lists. -/
theorem C54_check_misses {P K : Type} (zero : K) (a b c : P) : ∃ e g, performAssociation zero 0 0.02 (⟨[0, 1, 2], [a, b, c], [], []⟩ : Traj P K) ⟨[10, 11, 12], [a, b, c], [], []⟩ = some (e, g) ∧
    e.times = [] ∧ g.times = [] := by
  have hm : matches_ 0 0.02 [0, 1, 2] [10, 11, 12] = [] := by
    rw [List.eq_nil_iff_forall_not_mem]
    rintro ⟨x, y⟩ hx
    obtain ⟨h1, h2, h3⟩ := (C54_monotone_injective 0 0.02 [0, 1, 2] [10, 11, 12]).2 _ hx
    simp only [List.length_cons, List.length_nil] at h1 h2
    have := (abs_lt.1 h3).2
    interval_cases x <;> interval_cases y <;> norm_num at this
  refine ⟨⟨[], [], [], []⟩, ⟨[], [], [], []⟩, ?_, rfl, rfl⟩
  unfold performAssociation
  simp only [hm, List.mapM_nil, if_true]
  rfl

/-- times 0, 1, 2 against 0.1, 0.9, 1.95, 3: three matches, all within 0.2, none at exactly 0.2. -/
example : matches_ 0 0.2 [0, 1, 2] [0.1, 0.9, 1.95, 3] = [(0, 0), (1, 1), (2, 2)] ∧ (∀ e ∈ ([0, 1, 2] : List ℝ), ∀ g ∈ ([0.1, 0.9, 1.95, 3] : List ℝ), |g - (e + 0)| ≠ 0.2) := by
  constructor
  · norm_num [matches_, matchFrom, skipFar, climb, abs_of_pos, abs_of_neg]
  · intro e he g hg
    simp only [List.mem_cons, List.not_mem_nil, or_false] at he hg
    rcases he with rfl | rfl | rfl <;> rcases hg with rfl | rfl | rfl | rfl <;> norm_num [abs_of_pos, abs_of_neg]

end Verif.Eval
