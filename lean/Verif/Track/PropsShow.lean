import Verif.Track.Show
import Mathlib.Tactic.Ring
import Mathlib.Tactic.Linarith

/-! # C144: the picture of the tracks

Specification: `Spec.Biggest`, the size of the largest image; `Spec.Fits`, every mask has the size of its image and no image is empty;
`Spec.Panel`, the picture shows in its `i`-th panel what was drawn for the `i`-th camera, and below and right of it what was there before;
`Spec.Trail`, the last points of a track. -/

set_option autoImplicit false

namespace Verif.Show

open Verif Verif.Feat

namespace Spec

/-- `W` and `H` are the largest width and height of the images. -/
def Biggest {α : Type} (cams : List (SCam α)) (W H : ℕ) : Prop :=
  ((∃ c ∈ cams, c.img.w = W) ∧ ∀ c ∈ cams, c.img.w ≤ W) ∧ ((∃ c ∈ cams, c.img.h = H) ∧ ∀ c ∈ cams, c.img.h ≤ H)

/-- every mask has the size of its image, and no image is empty. -/
def Fits {α : Type} (cams : List (SCam α)) : Prop :=
  ∀ c ∈ cams, c.mask.w = c.img.w ∧ c.mask.h = c.img.h ∧ 0 < c.img.w ∧ 0 < c.img.h

/-- the picture `r` is made of panels of width `W` and height `H` side by side, one for each camera; the `i`-th shows the image `shown i c`
of that camera at its upper left corner, and `rest` around it. -/
def Panels {α : Type} (cams : List (SCam α)) (W H : ℕ) (shown : ℕ → SCam α → ℕ → ℕ → α) (rest : ℕ → ℕ → α) (r : Pic α) : Prop :=
  r.w = cams.length * W ∧ r.h = H ∧
    ∀ (i : ℕ) (c : SCam α), cams[i]? = some c → ∀ x y : ℕ, x < W → y < H →
      r.px (W * i + x) y = if x < c.img.w ∧ y < c.img.h then shown i c x y else rest (W * i + x) y

/-- the drawn part of a track: newest point first, at most fifty, the oldest point left out, each joined to the one after it. -/
def Trail {U : Type} (us : List U) (l : List (U × Option U)) : Prop :=
  l.length = min 50 (us.length - 1) ∧
    ∀ (k : ℕ) (p : U × Option U), l[k]? = some p →
      us[us.length - 1 - k]? = some p.1 ∧ p.2 = if k = 0 then none else us[us.length - k]?

end Spec

/-! ## Helper lemmas -/

theorem foldl_maxW {α : Type} (f : SCam α → ℕ) (cams : List (SCam α)) (m : ℕ) :
    m ≤ cams.foldl (fun m c => if m < f c then f c else m) m ∧
      (∀ c ∈ cams, f c ≤ cams.foldl (fun m c => if m < f c then f c else m) m) ∧
      (cams.foldl (fun m c => if m < f c then f c else m) m = m ∨
        ∃ c ∈ cams, f c = cams.foldl (fun m c => if m < f c then f c else m) m) := by
  induction cams generalizing m with
  | nil => simp
  | cons a cs ih =>
    simp only [List.foldl_cons]
    obtain ⟨h1, h2, h3⟩ := ih (if m < f a then f a else m)
    have hm : m ≤ (if m < f a then f a else m) ∧ f a ≤ (if m < f a then f a else m) := by split_ifs <;> omega
    refine ⟨hm.1.trans h1, ?_, ?_⟩
    · intro c hc
      rcases List.mem_cons.mp hc with rfl | hc
      · exact hm.2.trans h1
      · exact h2 c hc
    · rcases h3 with h3 | ⟨c, hc, h3⟩
      · by_cases ha : m < f a
        · right; exact ⟨a, List.mem_cons_self, by rw [h3, if_pos ha]⟩
        · left; rw [h3, if_neg ha]
      · right; exact ⟨c, List.mem_cons_of_mem _ hc, h3⟩

theorem foldl_max_eq {α : Type} (f : SCam α → ℕ) (cams : List (SCam α)) (W : ℕ) (h : ∃ c ∈ cams, f c = W) (hle : ∀ c ∈ cams, f c ≤ W) :
    cams.foldl (fun m c => if m < f c then f c else m) 0 = W := by
  obtain ⟨-, h2, h3⟩ := foldl_maxW f cams 0
  obtain ⟨c, hc, rfl⟩ := h
  apply le_antisymm
  · rcases h3 with h3 | ⟨d, hd, h3⟩
    · omega
    · rw [← h3]; exact hle d hd
  · exact h2 c hc

theorem biggest_eq {α : Type} {cams : List (SCam α)} {W H : ℕ} (hb : Spec.Biggest cams W H) : maxW cams = W ∧ maxH cams = H :=
  ⟨foldl_max_eq (fun c => c.img.w) cams W hb.1.1 hb.1.2, foldl_max_eq (fun c => c.img.h) cams H hb.2.1 hb.2.2⟩

/-- the image that is drawn on. -/
def base {α : Type} (fresh : Bool) (W H : ℕ) (out : Pic α) (i : ℕ) (c : SCam α) : Pic α :=
  if fresh then c.img else ⟨W, H, fun x y => out.px (W * i + x) y⟩

theorem base_congr {α : Type} (fresh : Bool) (W H : ℕ) (out out' : Pic α) (i : ℕ) (c : SCam α)
    (h : ∀ x y : ℕ, W * i ≤ x → out.px x y = out'.px x y) : base fresh W H out i c = base fresh W H out' i c := by
  cases fresh
  · simp only [base, Bool.false_eq_true, if_false, Pic.mk.injEq, true_and]
    funext x y
    exact h _ _ (Nat.le_add_right _ _)
  · rfl

theorem step_ok {α : Type} (mix : Bool → α → α) (draw : ℕ → Pic α → ℕ → ℕ → α) (fresh : Bool) (W H : ℕ) (out : Pic α) (i : ℕ)
    (c : SCam α) (hm : c.mask.w = c.img.w ∧ c.mask.h = c.img.h ∧ 0 < c.img.w ∧ 0 < c.img.h)
    (hs : fresh = true ∨ (c.img.w = W ∧ c.img.h = H)) :
    step mix draw fresh W H out i c = some ⟨out.w, out.h, fun x y =>
      if W * i ≤ x ∧ x < W * i + c.img.w ∧ y < c.img.h then
        mix (c.mask.px (x - W * i) y) (draw c.id (base fresh W H out i c) (x - W * i) y) else out.px x y⟩ := by
  obtain ⟨h1, h2, h3, h4⟩ := hm
  have hz : ¬ (fresh = true ∧ (c.img.w = 0 ∨ c.img.h = 0)) := by omega
  simp only [step]
  rw [if_neg hz]
  cases fresh
  · obtain ⟨ha, hb⟩ := hs.resolve_left (by simp)
    simp only [Bool.false_eq_true, if_false]
    rw [if_pos ⟨h1.trans ha, h2.trans hb, ha.symm, hb.symm⟩]
    rfl
  · simp only [if_true]
    rw [if_pos ⟨h1, h2, trivial, trivial⟩]
    rfl

theorem loop_ok {α : Type} (mix : Bool → α → α) (draw : ℕ → Pic α → ℕ → ℕ → α) (fresh : Bool) (W H : ℕ) (cams : List (SCam α)) :
    ∀ (j : ℕ) (out : Pic α), Spec.Fits cams → (∀ c ∈ cams, c.img.w ≤ W) → (fresh = true ∨ ∀ c ∈ cams, c.img.w = W ∧ c.img.h = H) →
      ∃ r, loop mix draw fresh W H j cams out = some r ∧ r.w = out.w ∧ r.h = out.h ∧
        (∀ x y : ℕ, x < W * j → r.px x y = out.px x y) ∧
        ∀ (i : ℕ) (c : SCam α), cams[i]? = some c → ∀ x y : ℕ, x < W →
          r.px (W * (j + i) + x) y = if x < c.img.w ∧ y < c.img.h then
            mix (c.mask.px x y) (draw c.id (base fresh W H out (j + i) c) x y) else out.px (W * (j + i) + x) y := by
  induction cams with
  | nil => intro j out _ _ _; exact ⟨out, rfl, rfl, rfl, fun _ _ _ => rfl, by simp⟩
  | cons a cs ih =>
    intro j out hf hw hs
    have hst := step_ok mix draw fresh W H out j a (hf a List.mem_cons_self)
      (hs.imp id (fun h => h a List.mem_cons_self))
    simp only [loop, hst, Option.bind_some]
    obtain ⟨r, hr, hrw, hrh, hlow, hpan⟩ := ih (j + 1) _ (fun c hc => hf c (List.mem_cons_of_mem _ hc))
      (fun c hc => hw c (List.mem_cons_of_mem _ hc)) (hs.imp id (fun h c hc => h c (List.mem_cons_of_mem _ hc)))
    have haw := hw a List.mem_cons_self
    have hmul : W * (j + 1) = W * j + W := by ring
    refine ⟨r, hr, hrw, hrh, ?_, ?_⟩
    · intro x y hx
      rw [hlow x y (by omega)]
      simp only
      rw [if_neg (by omega)]
    · intro i c hc x y hx
      cases i with
      | zero =>
        simp only [List.getElem?_cons_zero, Option.some.injEq] at hc
        subst hc
        simp only [Nat.add_zero]
        rw [hlow _ y (by omega)]
        simp only
        by_cases hin : x < a.img.w ∧ y < a.img.h
        · rw [if_pos hin, if_pos ⟨Nat.le_add_right _ _, by omega, hin.2⟩, Nat.add_sub_cancel_left]
        · rw [if_neg hin, if_neg (by omega)]
      | succ i =>
        simp only [List.getElem?_cons_succ] at hc
        have e : j + (i + 1) = j + 1 + i := by ring
        have hm2 : W * (j + 1 + i) = W * j + W + W * i := by ring
        rw [e, hpan i c hc x y hx]
        have hkeep : ∀ x y : ℕ, W * (j + 1 + i) ≤ x →
            (if W * j ≤ x ∧ x < W * j + a.img.w ∧ y < a.img.h then
              mix (a.mask.px (x - W * j) y) (draw a.id (base fresh W H out j a) (x - W * j) y) else out.px x y) = out.px x y := by
          intro x y hx
          have : W * j + W ≤ x := by
            have := Nat.zero_le (W * i)
            omega
          rw [if_neg (by omega)]
        rw [base_congr fresh W H _ out (j + 1 + i) c (fun x y hx => hkeep x y hx)]
        simp only
        rw [hkeep _ y (Nat.le_add_right _ _)]

theorem loop_some_same {α : Type} (mix : Bool → α → α) (draw : ℕ → Pic α → ℕ → ℕ → α) (W H : ℕ) (cams : List (SCam α)) :
    ∀ (j : ℕ) (out r : Pic α), loop mix draw false W H j cams out = some r → ∀ c ∈ cams, c.img.w = W ∧ c.img.h = H := by
  induction cams with
  | nil => simp
  | cons a cs ih =>
    intro j out r h c hc
    simp only [loop] at h
    obtain ⟨o, ho, h⟩ := Option.bind_eq_some_iff.mp h
    rcases List.mem_cons.mp hc with rfl | hc
    · simp only [step, Bool.false_eq_true, false_and, if_false] at ho
      by_cases hq : c.mask.w = W ∧ c.mask.h = H ∧ W = c.img.w ∧ H = c.img.h
      · exact ⟨hq.2.2.1.symm, hq.2.2.2.symm⟩
      · rw [if_neg hq] at ho; cases ho
    · exact ih (j + 1) o r h c hc

theorem tailLoop_spec {U : Type} (us : List U) : ∀ z : ℕ, z + 1 ≤ us.length →
    ∃ l, tailLoop us z = some l ∧ l.length = min z (50 - (us.length - 1 - z)) ∧
      ∀ (k : ℕ) (p : U × Option U), l[k]? = some p → us[z - k]? = some p.1 ∧ p.2 = us[z - k + 1]? := by
  intro z
  induction z with
  | zero => intro _; exact ⟨[], rfl, by simp, by simp⟩
  | succ z ih =>
    intro hz
    simp only [tailLoop]
    by_cases hb : us.length - (z + 1) > 50
    · rw [if_pos hb]
      exact ⟨[], rfl, by simp; omega, by simp⟩
    · rw [if_neg hb]
      obtain ⟨l, hl, hlen, hk⟩ := ih (by omega)
      have hc : us[z + 1]? = some us[z + 1] := List.getElem?_eq_getElem (by omega)
      have hn : nextOf us (z + 1) = some us[z + 1 + 1]? := by
        simp only [nextOf]
        by_cases h : z + 1 + 1 < us.length
        · rw [if_pos h, List.getElem?_eq_getElem h]; rfl
        · rw [if_neg h, List.getElem?_eq_none (by omega)]
      refine ⟨(us[z + 1], us[z + 1 + 1]?) :: l, ?_, ?_, ?_⟩
      · rw [hc, hn, hl]; rfl
      · rw [List.length_cons, hlen]; omega
      · intro k p hp
        cases k with
        | zero =>
          simp only [List.getElem?_cons_zero, Option.some.injEq] at hp
          subst hp
          exact ⟨hc, rfl⟩
        | succ k =>
          simp only [List.getElem?_cons_succ] at hp
          have := hk k p hp
          rwa [show z + 1 - (k + 1) = z - k by omega]

/-! ## C144 -/

/-- **C144**: as long as no camera has given an image the picture is left as it is. -/
theorem C144_no_image {α : Type} (black : α) (mix : Bool → α → α) (draw : ℕ → Pic α → ℕ → ℕ → α) (out : Pic α) :
    display black mix draw [] out = some out := by simp [display]

/-- **C144** (a new picture): for any number of cameras with images of any sizes, if the picture given does not already have the size
needed, it is replaced by one in which the panel of each camera, as large as the largest image, shows the camera's image with what is
drawn on it and its mask, and black around it. Nothing is drawn outside the panel of its camera. -/
theorem C144_new {α : Type} (black : α) (mix : Bool → α → α) (draw : ℕ → Pic α → ℕ → ℕ → α) (cams : List (SCam α)) (out : Pic α)
    (W H : ℕ) (hb : Spec.Biggest cams W H) (hf : Spec.Fits cams) (hn : out.w ≠ cams.length * W ∨ out.h ≠ H) :
    ∃ r, display black mix draw cams out = some r ∧
      Spec.Panels cams W H (fun _ c x y => mix (c.mask.px x y) (draw c.id c.img x y)) (fun _ _ => black) r := by
  obtain ⟨hW, hH⟩ := biggest_eq hb
  have hne : cams ≠ [] := by
    obtain ⟨⟨⟨c, hc, -⟩, -⟩, -⟩ := hb
    exact List.ne_nil_of_mem hc
  have hsz : cams.length * W ≠ out.w ∨ H ≠ out.h := hn.imp Ne.symm Ne.symm
  obtain ⟨r, hr, hw, hh, -, hp⟩ := loop_ok mix draw true W H cams 0 ⟨cams.length * W, H, fun _ _ => black⟩ hf hb.1.2 (Or.inl rfl)
  refine ⟨r, ?_, hw, hh, ?_⟩
  · simp only [display, hW, hH]
    rw [if_neg hne, if_pos hsz, hr]
  · intro i c hc x y hx _
    have := hp i c hc x y hx
    simpa only [Nat.zero_add, base, if_true] using this

/-- **C144** (drawing on an existing picture): if the picture has the size needed and all images are equally large, each camera's tracks
are drawn on its panel of that picture, and so the picture below is kept. -/
theorem C144_over {α : Type} (black : α) (mix : Bool → α → α) (draw : ℕ → Pic α → ℕ → ℕ → α) (cams : List (SCam α)) (out : Pic α)
    (W H : ℕ) (hb : Spec.Biggest cams W H) (hf : Spec.Fits cams) (hs : ∀ c ∈ cams, c.img.w = W ∧ c.img.h = H)
    (hn : out.w = cams.length * W ∧ out.h = H) :
    ∃ r, display black mix draw cams out = some r ∧
      Spec.Panels cams W H
        (fun i c x y => mix (c.mask.px x y) (draw c.id ⟨W, H, fun x y => out.px (W * i + x) y⟩ x y)) (fun x y => out.px x y) r := by
  obtain ⟨hW, hH⟩ := biggest_eq hb
  have hne : cams ≠ [] := by
    obtain ⟨⟨⟨c, hc, -⟩, -⟩, -⟩ := hb
    exact List.ne_nil_of_mem hc
  have hsz : ¬ (cams.length * W ≠ out.w ∨ H ≠ out.h) := by rw [hn.1, hn.2]; simp
  obtain ⟨r, hr, hw, hh, -, hp⟩ := loop_ok mix draw false W H cams 0 out hf hb.1.2 (Or.inr hs)
  refine ⟨r, ?_, hw.trans hn.1, hh.trans hn.2, ?_⟩
  · simp only [display, hW, hH]
    rw [if_neg hne, if_neg hsz, hr]
  · intro i c hc x y hx _
    have := hp i c hc x y hx
    simpa only [Nat.zero_add, base, Bool.false_eq_true, if_false] using this

/-- **C144** (with a tracker of features and one of tags, which have the same images): the picture can be made exactly if all images have the
same size. -/
theorem C144_both_iff_partial {α : Type} (black : α) (mix : Bool → α → α) (drawF drawT : ℕ → Pic α → ℕ → ℕ → α) (cams : List (SCam α))
    (W H : ℕ) (hb : Spec.Biggest cams W H) (hf : Spec.Fits cams) :
    (∃ r, viz black mix drawF drawT cams (some cams) = some r) ↔ ∀ c ∈ cams, c.img.w = W ∧ c.img.h = H := by
  have hbW := hb.1.1
  obtain ⟨c0, hc0, h0⟩ := hb.2.1
  have hH0 : H ≠ 0 := by
    have := (hf c0 hc0).2.2.2
    omega
  obtain ⟨r, hr, hp⟩ := C144_new black mix drawF cams ⟨0, 0, fun _ _ => black⟩ W H hb hf (Or.inr hH0.symm)
  have hv : viz black mix drawF drawT cams (some cams) = display black mix drawT cams r := by
    simp [viz, hr]
  rw [hv]
  constructor
  · rintro ⟨q, hq⟩
    obtain ⟨hW, hH⟩ := biggest_eq hb
    simp only [display, hW, hH] at hq
    rw [if_neg (List.ne_nil_of_mem hc0), if_neg (by rw [hp.1, hp.2.1]; simp)] at hq
    exact loop_some_same mix drawT W H cams 0 r q hq
  · intro hs
    obtain ⟨q, hq, -⟩ := C144_over black mix drawT cams r W H hb hf hs ⟨hp.1, hp.2.1⟩
    exact ⟨q, hq⟩

/-- **C144** (without a tracker of tags): the picture can be made for images of any sizes. -/
theorem C144_features {α : Type} (black : α) (mix : Bool → α → α) (drawF drawT : ℕ → Pic α → ℕ → ℕ → α) (cams : List (SCam α))
    (W H : ℕ) (hb : Spec.Biggest cams W H) (hf : Spec.Fits cams) :
    ∃ r, viz black mix drawF drawT cams none = some r ∧
      Spec.Panels cams W H (fun _ c x y => mix (c.mask.px x y) (drawF c.id c.img x y)) (fun _ _ => black) r := by
  obtain ⟨c0, hc0, h0⟩ := hb.2.1
  have hH0 : H ≠ 0 := by
    have := (hf c0 hc0).2.2.2
    omega
  obtain ⟨r, hr, hp⟩ := C144_new black mix drawF cams ⟨0, 0, fun _ _ => black⟩ W H hb hf (Or.inr hH0.symm)
  exact ⟨r, by simp [viz, hr], hp⟩

/-- two cameras with images of different sizes. -/
def exCams : List (SCam ℕ) :=
  [⟨0, ⟨4, 3, fun x y => 10 * x + y⟩, ⟨4, 3, fun _ _ => false⟩⟩, ⟨1, ⟨2, 2, fun _ _ => 7⟩, ⟨2, 2, fun x _ => x == 1⟩⟩]

theorem exCams_biggest : Spec.Biggest exCams 4 3 := by
  refine ⟨⟨⟨_, List.mem_cons_self, rfl⟩, ?_⟩, ⟨_, List.mem_cons_self, rfl⟩, ?_⟩ <;>
  · intro c hc
    simp only [exCams, List.mem_cons, List.not_mem_nil, or_false] at hc
    rcases hc with rfl | rfl <;> simp

theorem exCams_fits : Spec.Fits exCams := by
  intro c hc
  simp only [exCams, List.mem_cons, List.not_mem_nil, or_false] at hc
  rcases hc with rfl | rfl <;> simp

/-- **C144** (negation): with two cameras of different sizes, each with a mask of its size, and a tracker of tags, making the picture
throws. -/
theorem C144_sizes_counterexample (black : ℕ) (mix : Bool → ℕ → ℕ) (drawF drawT : ℕ → Pic ℕ → ℕ → ℕ → ℕ) :
    Spec.Fits exCams ∧ (∃ r, viz black mix drawF drawT exCams none = some r) ∧ viz black mix drawF drawT exCams (some exCams) = none := by
  refine ⟨exCams_fits, ?_, ?_⟩
  · obtain ⟨r, hr, -⟩ := C144_features black mix drawF drawT exCams 4 3 exCams_biggest exCams_fits
    exact ⟨r, hr⟩
  · have h := (C144_both_iff_partial black mix drawF drawT exCams 4 3 exCams_biggest exCams_fits).not.mpr (by
      intro h
      have := h ⟨1, ⟨2, 2, fun _ _ => 7⟩, ⟨2, 2, fun x _ => x == 1⟩⟩ (by simp [exCams])
      simp at this)
    cases hq : viz black mix drawF drawT exCams (some exCams) with
    | none => rfl
    | some r => exact absurd ⟨r, hq⟩ h

/-- **C144** (the tracks): if there are at least as many keypoints as ids, then for every id of the camera, in order, there is a box around
its keypoint exactly if it is highlighted, and the trail drawn is that of its observations in this camera, provided the feature is in the
database and not to be deleted. No list is read outside its range. -/
theorem C144_tracks {T U : Type} (db : DB T U) (cam : ℕ) (hl : List ℕ) (pts : List U) (ids : List ℕ) (hlen : ids.length ≤ pts.length) :
    ∃ r, items db cam hl pts 0 ids = some r ∧ r.length = ids.length ∧
      ∀ (i : ℕ) (it : Item U), r[i]? = some it →
        ids[i]? = some it.id ∧ (it.id ∈ hl → it.box = pts[i]? ∧ it.box.isSome) ∧ (it.id ∉ hl → it.box = none) ∧
        (∀ f, db.get? it.id = some f → f.toDelete = false → Spec.Trail (f.uvs.getL cam) it.seg) ∧
        ((db.get? it.id = none ∨ ∃ f, db.get? it.id = some f ∧ f.toDelete = true) → it.seg = []) := by
  have hist : ∀ id, ∃ s, history db cam id = some s ∧
      (∀ f, db.get? id = some f → f.toDelete = false → Spec.Trail (f.uvs.getL cam) s) ∧
      ((db.get? id = none ∨ ∃ f, db.get? id = some f ∧ f.toDelete = true) → s = []) := by
    intro id
    cases hg : db.get? id with
    | none => exact ⟨[], by simp [history, hg], by simp, by simp⟩
    | some f =>
      by_cases hd : f.toDelete = true
      · refine ⟨[], by simp [history, hg, hd], ?_, fun _ => rfl⟩
        intro g hg' hgd
        cases hg'
        rw [hd] at hgd; cases hgd
      · have hd' : f.toDelete = false := by simpa using hd
        by_cases hu : (f.uvs.getL cam) = []
        · refine ⟨[], by simp [history, hg, hu], ?_, fun _ => rfl⟩
          intro g hg' _
          cases hg'
          rw [hu]
          exact ⟨by simp, by simp⟩
        · have hne : f.uvs.isEmpty = false := by
            cases hq : f.uvs with
            | nil => rw [hq] at hu; exact absurd rfl hu
            | cons a b => rfl
          have hlen : 0 < (f.uvs.getL cam).length := List.length_pos_iff.mpr hu
          obtain ⟨l, hl, hll, hk⟩ := tailLoop_spec (f.uvs.getL cam) ((f.uvs.getL cam).length - 1) (by omega)
          refine ⟨l, by simp [history, hg, hd', hne, hu, hl], ?_, ?_⟩
          · intro g hg' _
            cases hg'
            refine ⟨by rw [hll]; omega, ?_⟩
            intro k p hp
            obtain ⟨h1, h2⟩ := hk k p hp
            have hkl : k < l.length := by
              by_contra h
              rw [List.getElem?_eq_none (by omega)] at hp
              cases hp
            refine ⟨h1, ?_⟩
            rw [h2]
            by_cases h0 : k = 0
            · rw [if_pos h0, List.getElem?_eq_none (by omega)]
            · rw [if_neg h0]
              congr 1
              omega
          · rintro (h | ⟨g, hg', hgd⟩)
            · cases h
            · cases hg'
              rw [hd'] at hgd; cases hgd
  have main : ∀ (ids : List ℕ) (j : ℕ), j + ids.length ≤ pts.length →
      ∃ r, items db cam hl pts j ids = some r ∧ r.length = ids.length ∧
        ∀ (i : ℕ) (it : Item U), r[i]? = some it →
          ids[i]? = some it.id ∧ (it.id ∈ hl → it.box = pts[j + i]? ∧ it.box.isSome) ∧ (it.id ∉ hl → it.box = none) ∧
          (∀ f, db.get? it.id = some f → f.toDelete = false → Spec.Trail (f.uvs.getL cam) it.seg) ∧
          ((db.get? it.id = none ∨ ∃ f, db.get? it.id = some f ∧ f.toDelete = true) → it.seg = []) := by
    intro ids
    induction ids with
    | nil => intro j _; exact ⟨[], rfl, rfl, by simp⟩
    | cons id ids ih =>
      intro j hj
      simp only [List.length_cons] at hj
      obtain ⟨r, hr, hrl, hri⟩ := ih (j + 1) (by omega)
      obtain ⟨s, hs, hs1, hs2⟩ := hist id
      have hb : ∃ b, boxOf hl pts j id = some b ∧ (id ∈ hl → b = pts[j]? ∧ b.isSome) ∧ (id ∉ hl → b = none) := by
        by_cases h : id ∈ hl
        · refine ⟨some pts[j], ?_, ?_, fun h' => absurd h h'⟩
          · simp [boxOf, h, List.getElem?_eq_getElem (show j < pts.length by omega)]
          · intro _
            exact ⟨(List.getElem?_eq_getElem (by omega)).symm, rfl⟩
        · exact ⟨none, by simp [boxOf, h], fun h' => absurd h' h, fun _ => rfl⟩
      obtain ⟨b, hb, hb1, hb2⟩ := hb
      refine ⟨⟨id, b, s⟩ :: r, by simp [items, hb, hs, hr], by simp [hrl], ?_⟩
      intro i it hi
      cases i with
      | zero =>
        simp only [List.getElem?_cons_zero, Option.some.injEq] at hi
        subst hi
        exact ⟨rfl, hb1, hb2, hs1, hs2⟩
      | succ i =>
        simp only [List.getElem?_cons_succ] at hi
        have := hri i it hi
        rwa [show j + 1 + i = j + (i + 1) by ring] at this
  obtain ⟨r, h1, h2, h3⟩ := main ids 0 (by omega)
  refine ⟨r, h1, h2, ?_⟩
  intro i it hi
  have := h3 i it hi
  rwa [Nat.zero_add] at this

/-! ## Non-vacuity -/

example : (Spec.Biggest exCams 4 3 ∧ Spec.Fits exCams) ∧
    ((display 0 (fun m p => if m then p + 100 else p) (fun _ t x y => t.px x y) exCams ⟨0, 0, fun _ _ => 0⟩).map
      fun r => [r.w, r.h, r.px 2 1, r.px 4 0, r.px 5 1, r.px 6 0, r.px 5 2]) = some [8, 3, 21, 7, 107, 0, 0] :=
  ⟨⟨exCams_biggest, exCams_fits⟩, by decide +kernel⟩

/-- a database with one track of five points, drawn with its last four. -/
example : (items (T := ℕ) (U := ℕ)
    [(3, { featid := 3, toDelete := false, uvs := [(0, [10, 11, 12, 13, 14])], uvsNorm := [], times := [] })] 0 [4] [14, 99] 0 [3, 4]).map
      (fun l => l.map fun it => (it.id, it.box, it.seg)) =
    some [(3, none, [(14, none), (13, some 14), (12, some 13), (11, some 12)]), (4, some 99, [])] := by decide +kernel

end Verif.Show
