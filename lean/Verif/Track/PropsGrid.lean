import Verif.Track.Grid
import Verif.Track.PropsKlt
import Mathlib.Data.List.GetD

/-!
# Where new features are looked for, and which are taken (C129)
-/

set_option autoImplicit false

namespace Verif.Grid

open Verif.Track (Pt trunc TCfg Img)

namespace Spec

/-- the appends of all workers in the order in which they happen: the appends for location number `r` are its own corners, in their order -/
def Interleaves (tasks : List (List Kp)) (tr : List (ℕ × Kp)) : Prop := ∀ r, (tr.filter fun e => e.1 = r).map Prod.snd = tasks.getD r []

/-- corners are found inside of the part of the image that is searched -/
def FastOk (fast : Roi → List Kp) : Prop := ∀ R, ∀ k ∈ fast R, 0 ≤ k.pt.1 ∧ k.pt.1 < R.w ∧ 0 ≤ k.pt.2 ∧ k.pt.2 < R.h

/-- what `std::sort` promises: the same corners, strongest first; nothing about corners that are equally strong -/
def SortOk (srt : List Kp → List Kp) : Prop := ∀ l, (srt l).Perm l ∧ (srt l).Pairwise fun a b => b.resp ≤ a.resp

/-- the number of columns, rows and corners for each cell: those of the user when there is at least one feature for each cell; otherwise a grid of the same proportions with just enough cells -/
def Dims (num gx gy cx cy n : ℤ) : Prop :=
  (gx * gy ≤ num → cx = gx ∧ cy = gy) ∧
  (num < gx * gy → (num * gy ≤ cy ^ 2 * gx ∧ (cy - 1) ^ 2 * gx < num * gy) ∧ (cy * gx ≤ cx * gy ∧ (cx - 1) * gy < cy * gx)) ∧
  (n - 1) * (cx * cy) ≤ num ∧ num < n * (cx * cy)

/-- position of a corner of the part `R` in the whole image -/
def shift (R : Roi) (k : Kp) : Kp := ⟨(k.pt.1 + R.x, k.pt.2 + R.y), k.resp⟩

/-- `got` are corners of the part `R`: only corners that were found and are not masked, at most `n`, and a free corner is left out only when there are `n` others that are as strong -/
structure Best (F : Frame) (found : List Kp) (R : Roi) (n : ℤ) (got : List Kp) : Prop where
  from_found : ∀ k ∈ got, ∃ k' ∈ found, k = shift R k'
  free : ∀ k ∈ got, F.mask (trunc k.pt.1) (trunc k.pt.2) ≤ 127
  inside : ∀ k ∈ got, (R.x : ℚ) ≤ k.pt.1 ∧ k.pt.1 < R.x + R.w ∧ (R.y : ℚ) ≤ k.pt.2 ∧ k.pt.2 < R.y + R.h
  few : (got.length : ℤ) ≤ n
  strongest : ∀ k ∈ found, F.mask (trunc (shift R k).pt.1) (trunc (shift R k).pt.2) ≤ 127 → shift R k ∈ got ∨ n ≤ (found.countP fun k' => k.resp ≤ k'.resp : ℕ)

/-- the cell of the grid (column, row) as a part of the image, for a size of the image that the grid divides -/
def part (cfg : TCfg) (F : Frame) (c : ℤ × ℤ) : Roi := ⟨c.1 * (F.cols / cfg.gx), c.2 * (F.rows / cfg.gy), F.cols / cfg.gx, F.rows / cfg.gy⟩

/-- a point is in a cell -/
def InCell (cfg : TCfg) (F : Frame) (c : ℤ × ℤ) (p : Pt) : Prop :=
  (c.1 : ℚ) * (F.cols / cfg.gx) ≤ p.1 ∧ p.1 < (c.1 + 1) * (F.cols / cfg.gx) ∧ (c.2 : ℚ) * (F.rows / cfg.gy) ≤ p.2 ∧ p.2 < (c.2 + 1) * (F.rows / cfg.gy)

instance (cfg : TCfg) (F : Frame) (c : ℤ × ℤ) (p : Pt) : Decidable (InCell cfg F c p) := by unfold InCell; infer_instance

/-- a cell of the grid has too few tracked points: none, or fewer than half of the number `n` that is extracted for a cell -/
def Lacks (cfg : TCfg) (F : Frame) (n : ℤ) (pts : List Pt) (c : ℤ × ℤ) : Prop :=
  0 ≤ c.1 ∧ c.1 < cfg.gx ∧ 0 ≤ c.2 ∧ c.2 < cfg.gy ∧ ((pts.filter fun p => InCell cfg F c p).length : ℤ) < max 1 (n / 2)

/-- a pixel is far from a tracked point: more than the minimal distance in one direction; only for points whose surrounding box is inside of the image -/
def Far (cfg : TCfg) (F : Frame) (p : Pt) (k : Pt) : Prop :=
  (cfg.minDist ≤ trunc p.1 ∧ trunc p.1 + cfg.minDist < F.cols ∧ cfg.minDist ≤ trunc p.2 ∧ trunc p.2 + cfg.minDist < F.rows) →
    cfg.minDist < |trunc k.1 - trunc p.1| ∨ cfg.minDist < |trunc k.2 - trunc p.2|

end Spec

open Spec

/-! ## lemmas -/

lemma trunc_nonneg {x : ℚ} (h : 0 ≤ x) : trunc x = ⌊x⌋ := by rw [trunc, if_pos h]

lemma pushes_spec : ∀ (tr : List (ℕ × Kp)) (c : List (List Kp)), (∀ e ∈ tr, e.1 < c.length) →
    ∃ c', pushes c tr = some c' ∧ c'.length = c.length ∧ ∀ r, r < c.length → c'.getD r [] = c.getD r [] ++ (tr.filter fun e => e.1 = r).map Prod.snd
  | [], c, _ => ⟨c, rfl, rfl, by simp⟩
  | e :: tr, c, h => by
    have he : e.1 < c.length := h e (by simp)
    obtain ⟨c', h1, h2, h3⟩ := pushes_spec tr (c.modify e.1 (· ++ [e.2])) (by simpa using fun a b hab => h (a, b) (by simp [hab]))
    refine ⟨c', by rw [pushes, if_pos he, h1], by simpa using h2, fun r hr => ?_⟩
    rw [h3 r (by simpa using hr), List.getD_eq_getElem _ _ (by simpa using hr), List.getElem_modify, List.getD_eq_getElem _ _ hr]
    by_cases c1 : e.1 = r
    · simp [c1, List.filter_cons]
    · simp [c1, List.filter_cons]

lemma pushes_interleaves {tasks : List (List Kp)} {tr : List (ℕ × Kp)} (h : Interleaves tasks tr) : pushes (List.replicate tasks.length []) tr = some tasks := by
  obtain ⟨c', h1, h2, h3⟩ := pushes_spec tr (List.replicate tasks.length []) (by
    intro e he
    by_contra hc
    have h0 := h e.1
    rw [List.getD_eq_default _ _ (by simpa using hc)] at h0
    have : e ∈ tr.filter fun e' => e'.1 = e.1 := by simp [he]
    simp only [List.map_eq_nil_iff] at h0
    rw [h0] at this
    simp at this)
  rw [h1]
  congr 1
  rw [List.length_replicate] at h2 h3
  apply List.ext_getElem h2
  intro r hr hr'
  have := h3 r hr'
  rw [List.getD_eq_getElem _ _ hr, h r, List.getD_eq_getElem _ _ hr'] at this
  rw [this]; simp

lemma perCell_spec {num cx cy : ℤ} (hn : 0 < num) (hx : 0 < cx) (hy : 0 < cy) : 1 ≤ perCell num cx cy ∧ (perCell num cx cy - 1) * (cx * cy) ≤ num ∧ num < perCell num cx cy * (cx * cy) := by
  have hp : 0 < cx * cy := mul_pos hx hy
  have hpq : (0 : ℚ) < ((cx * cy : ℤ) : ℚ) := by exact_mod_cast hp
  have h0 : (0 : ℚ) ≤ (num : ℚ) / ((cx * cy : ℤ) : ℚ) := by positivity
  have h1 := Int.floor_le ((num : ℚ) / ((cx * cy : ℤ) : ℚ))
  have h2 := Int.lt_floor_add_one ((num : ℚ) / ((cx * cy : ℤ) : ℚ))
  have h3 : 0 ≤ ⌊(num : ℚ) / ((cx * cy : ℤ) : ℚ)⌋ := Int.floor_nonneg.2 h0
  rw [perCell, trunc_nonneg h0]
  rw [le_div_iff₀ hpq] at h1
  rw [div_lt_iff₀ hpq] at h2
  refine ⟨by omega, ?_, ?_⟩
  · rw [add_sub_cancel_right]; exact_mod_cast h1
  · exact_mod_cast h2

lemma gridDims_spec {num gx gy : ℤ} (hn : 0 < num) (hx : 0 < gx) (hy : 0 < gy) :
    0 < (gridDims num gx gy).1 ∧ (gridDims num gx gy).1 ≤ gx ∧ 0 < (gridDims num gx gy).2 ∧ (gridDims num gx gy).2 ≤ gy ∧
      Dims num gx gy (gridDims num gx gy).1 (gridDims num gx gy).2 (perCell num (gridDims num gx gy).1 (gridDims num gx gy).2) := by
  have hxr : (0 : ℝ) < gx := by exact_mod_cast hx
  have hyr : (0 : ℝ) < gy := by exact_mod_cast hy
  have hnr : (0 : ℝ) < num := by exact_mod_cast hn
  by_cases c : num < gx * gy
  · obtain ⟨s, hs⟩ : ∃ s, s = Real.sqrt ((num : ℝ) / ((gx : ℝ) / (gy : ℝ))) := ⟨_, rfl⟩
    have hs0 : 0 < s := by rw [hs]; positivity
    have hs2 : s ^ 2 * gx = num * gy := by rw [hs, Real.sq_sqrt (by positivity)]; field_simp
    obtain ⟨b, hb⟩ : ∃ b : ℤ, b = ⌈s⌉ := ⟨_, rfl⟩
    obtain ⟨a, ha⟩ : ∃ a : ℤ, a = ⌈(b : ℝ) * ((gx : ℝ) / (gy : ℝ))⌉ := ⟨_, rfl⟩
    have hg : gridDims num gx gy = (a, b) := by rw [gridDims, if_pos c, ← hs, ← hb, ← ha]
    have hb0 : 0 < b := by rw [hb]; exact Int.ceil_pos.2 hs0
    have hbr : (0 : ℝ) < b := by exact_mod_cast hb0
    have ha0 : 0 < a := by rw [ha]; exact Int.ceil_pos.2 (by positivity)
    have cr : (num : ℝ) < gx * gy := by exact_mod_cast c
    have hsy : s < gy := by
      by_contra h
      have h2 : (gy : ℝ) ^ 2 ≤ s ^ 2 := pow_le_pow_left₀ hyr.le (not_lt.1 h) 2
      nlinarith
    have hby : b ≤ gy := by rw [hb]; exact Int.ceil_le.2 hsy.le
    have hbyr : (b : ℝ) ≤ gy := by exact_mod_cast hby
    have hax : a ≤ gx := by
      rw [ha]; apply Int.ceil_le.2
      rw [← mul_div_assoc, div_le_iff₀ hyr]
      nlinarith
    have e1 : s ≤ b := by rw [hb]; exact Int.le_ceil s
    have e2 : (b : ℝ) - 1 < s := by have := Int.ceil_lt_add_one s; rw [← hb] at this; linarith
    have e3 : (b : ℝ) * ((gx : ℝ) / (gy : ℝ)) ≤ a := by rw [ha]; exact Int.le_ceil _
    have e4 : (a : ℝ) - 1 < b * ((gx : ℝ) / (gy : ℝ)) := by have := Int.ceil_lt_add_one ((b : ℝ) * ((gx : ℝ) / (gy : ℝ))); rw [← ha] at this; linarith
    rw [← mul_div_assoc, div_le_iff₀ hyr] at e3
    rw [← mul_div_assoc, lt_div_iff₀ hyr] at e4
    rw [hg]
    obtain ⟨-, p1, p2⟩ := perCell_spec hn ha0 hb0
    refine ⟨ha0, hax, hb0, hby, fun h => absurd c (not_lt.2 h), fun _ => ⟨⟨?_, ?_⟩, ?_, ?_⟩, p1, p2⟩
    · have : (num : ℝ) * gy ≤ (b : ℝ) ^ 2 * gx := by rw [← hs2]; gcongr
      exact_mod_cast this
    · have : ((b : ℝ) - 1) ^ 2 * gx < num * gy := by
        rw [← hs2]
        have : (0 : ℝ) ≤ (b : ℝ) - 1 := by have : (1 : ℝ) ≤ b := by exact_mod_cast hb0
                                           linarith
        gcongr
      exact_mod_cast this
    · exact_mod_cast e3
    · exact_mod_cast e4
  · have hg : gridDims num gx gy = (gx, gy) := by rw [gridDims, if_neg c]
    rw [hg]
    obtain ⟨-, p1, p2⟩ := perCell_spec hn hx hy
    exact ⟨hx, le_rfl, hy, le_rfl, fun _ => ⟨rfl, rfl⟩, fun h => absurd h c, p1, p2⟩

lemma pick_spec (F : Frame) (R : Roi) (hx : 0 ≤ R.x) (hy : 0 ≤ R.y) (hw : R.x + R.w ≤ F.cols) (hh : R.y + R.h ≤ F.rows) : ∀ ks : List Kp,
    (∀ k ∈ ks, 0 ≤ k.pt.1 ∧ k.pt.1 < R.w ∧ 0 ≤ k.pt.2 ∧ k.pt.2 < R.h) →
    pick F R ks = some ((ks.map (shift R)).filter fun k => decide (F.mask (trunc k.pt.1) (trunc k.pt.2) ≤ 127))
  | [], _ => rfl
  | k :: ks, h => by
    have ih := pick_spec F R hx hy hw hh ks (fun k hk => h k (by simp [hk]))
    obtain ⟨h1, h2, h3, h4⟩ := h k (by simp)
    have hxq : (0 : ℚ) ≤ R.x := by exact_mod_cast hx
    have hyq : (0 : ℚ) ≤ R.y := by exact_mod_cast hy
    have hwq : (R.x : ℚ) + R.w ≤ F.cols := by exact_mod_cast hw
    have hhq : (R.y : ℚ) + R.h ≤ F.rows := by exact_mod_cast hh
    have a1 : 0 ≤ ⌊k.pt.1 + R.x⌋ := Int.floor_nonneg.2 (by linarith)
    have a2 : 0 ≤ ⌊k.pt.2 + R.y⌋ := Int.floor_nonneg.2 (by linarith)
    have b1 : ⌊k.pt.1 + R.x⌋ < F.cols := Int.floor_lt.2 (by linarith)
    have b2 : ⌊k.pt.2 + R.y⌋ < F.rows := Int.floor_lt.2 (by linarith)
    have t1 : trunc (k.pt.1 + R.x) = ⌊k.pt.1 + R.x⌋ := trunc_nonneg (by linarith)
    have t2 : trunc (k.pt.2 + R.y) = ⌊k.pt.2 + R.y⌋ := trunc_nonneg (by linarith)
    simp only [pick]
    rw [if_neg (by rw [t1, t2]; omega), Frame.read?, if_pos (by rw [t1, t2]; omega), ih]
    simp only [List.map_cons, List.filter_cons, shift]
    by_cases c : 127 < F.mask (trunc (k.pt.1 + R.x)) (trunc (k.pt.2 + R.y))
    · rw [if_pos c, if_neg (by simpa using c)]
    · rw [if_neg c, if_pos (by simpa using c)]; rfl

lemma take_or_stronger {srt : List Kp → List Kp} (hs : SortOk srt) (l : List Kp) (n : ℕ) {k : Kp} (hk : k ∈ l) :
    k ∈ (srt l).take n ∨ n ≤ l.countP fun k' => k.resp ≤ k'.resp := by
  obtain ⟨hp, hpw⟩ := hs l
  by_cases c : k ∈ (srt l).take n
  · exact Or.inl c
  · right
    have hk' : k ∈ srt l := hp.mem_iff.2 hk
    rw [← List.take_append_drop n (srt l), List.mem_append] at hk'
    have hd := hk'.resolve_left c
    have hn : n < (srt l).length := by
      by_contra h
      rw [List.drop_eq_nil_of_le (not_lt.1 h)] at hd
      simp at hd
    rw [← hp.countP_eq, ← List.take_append_drop n (srt l), List.countP_append]
    have hall : ∀ a ∈ (srt l).take n, k.resp ≤ a.resp := by
      rw [← List.take_append_drop n (srt l), List.pairwise_append] at hpw
      exact fun a ha => hpw.2.2 a ha k hd
    have : ((srt l).take n).countP (fun k' => k.resp ≤ k'.resp) = n := by
      rw [List.countP_eq_length.2 (by simpa using hall), List.length_take]; omega
    omega

lemma cellPts_spec {F : Frame} {fast : Roi → List Kp} {srt : List Kp → List Kp} (hf : FastOk fast) (hs : SortOk srt) {n sx sy : ℤ} (hn : 0 ≤ n) (hsx : 0 < sx) (hsy : 0 < sy) {loc : ℤ × ℤ}
    (h1 : 0 ≤ loc.1) (h2 : 0 ≤ loc.2) : ∃ got, cellPts F fast srt n sx sy loc = some got ∧
      ((loc.1 + 1) * sx ≤ F.cols ∧ (loc.2 + 1) * sy ≤ F.rows → Best F (fast (roiOf sx sy loc)) (roiOf sx sy loc) n got) ∧
      (¬((loc.1 + 1) * sx ≤ F.cols ∧ (loc.2 + 1) * sy ≤ F.rows) → got = []) := by
  have e1 : (loc.1 + 1) * sx = loc.1 * sx + sx := by ring
  have e2 : (loc.2 + 1) * sy = loc.2 * sy + sy := by ring
  rw [e1, e2]
  by_cases c : F.cols < loc.1 * sx + sx ∨ F.rows < loc.2 * sy + sy
  · exact ⟨[], by rw [cellPts, if_pos c], fun h => by omega, fun _ => rfl⟩
  · have x0 : 0 ≤ loc.1 * sx := mul_nonneg h1 hsx.le
    have y0 : 0 ≤ loc.2 * sy := mul_nonneg h2 hsy.le
    have hin : ∀ k ∈ (srt (fast (roiOf sx sy loc))).take n.toNat, 0 ≤ k.pt.1 ∧ k.pt.1 < (roiOf sx sy loc).w ∧ 0 ≤ k.pt.2 ∧ k.pt.2 < (roiOf sx sy loc).h :=
      fun k hk => hf _ k ((hs _).1.mem_iff.1 (List.mem_of_mem_take hk))
    refine ⟨_, by rw [cellPts, if_neg c, if_neg (by omega), pick_spec F (roiOf sx sy loc) x0 y0 (by simp only [roiOf]; omega) (by simp only [roiOf]; omega) _ hin], fun _ => ⟨?_, ?_, ?_, ?_, ?_⟩, fun h => by omega⟩
    · intro k hk
      simp only [List.mem_filter, List.mem_map] at hk
      obtain ⟨⟨k', hk', rfl⟩, -⟩ := hk
      exact ⟨k', (hs _).1.mem_iff.1 (List.mem_of_mem_take hk'), rfl⟩
    · intro k hk
      simp only [List.mem_filter, decide_eq_true_eq] at hk
      exact hk.2
    · intro k hk
      simp only [List.mem_filter, List.mem_map] at hk
      obtain ⟨⟨k', hk', rfl⟩, -⟩ := hk
      obtain ⟨a, b, c, d⟩ := hin k' hk'
      simp only [shift]
      refine ⟨?_, ?_, ?_, ?_⟩ <;> linarith
    · have : (((srt (fast (roiOf sx sy loc))).take n.toNat).map (shift (roiOf sx sy loc))).length ≤ n.toNat := by simp
      have h' := List.length_filter_le (fun k : Kp => decide (F.mask (trunc k.pt.1) (trunc k.pt.2) ≤ 127)) (((srt (fast (roiOf sx sy loc))).take n.toNat).map (shift (roiOf sx sy loc)))
      omega
    · intro k hk hm
      rcases take_or_stronger hs (fast (roiOf sx sy loc)) n.toNat hk with h | h
      · left
        simp only [List.mem_filter, decide_eq_true_eq]
        exact ⟨List.mem_map_of_mem h, hm⟩
      · right; omega

lemma mapM_cells {F : Frame} {fast : Roi → List Kp} {srt : List Kp → List Kp} (hf : FastOk fast) (hs : SortOk srt) {n sx sy : ℤ} (hn : 0 ≤ n) (hsx : 0 < sx) (hsy : 0 < sy) :
    ∀ (locs : List (ℤ × ℤ)), (∀ l ∈ locs, 0 ≤ l.1 ∧ 0 ≤ l.2) → ∃ tasks, locs.mapM (cellPts F fast srt n sx sy) = some tasks ∧
      List.Forall₂ (fun loc got => ((loc.1 + 1) * sx ≤ F.cols ∧ (loc.2 + 1) * sy ≤ F.rows → Best F (fast (roiOf sx sy loc)) (roiOf sx sy loc) n got) ∧
        (¬((loc.1 + 1) * sx ≤ F.cols ∧ (loc.2 + 1) * sy ≤ F.rows) → got = [])) locs tasks
  | [], _ => ⟨[], rfl, List.Forall₂.nil⟩
  | l :: ls, h => by
    obtain ⟨got, g1, g2⟩ := cellPts_spec (F := F) hf hs hn hsx hsy (h l (by simp)).1 (h l (by simp)).2
    obtain ⟨tasks, t1, t2⟩ := mapM_cells hf hs hn hsx hsy ls (fun l' hl => h l' (by simp [hl]))
    exact ⟨got :: tasks, by rw [List.mapM_cons, g1, t1]; rfl, List.Forall₂.cons g2 t2⟩

lemma mapM_length {α β : Type} {f : α → Option β} : ∀ (l : List α) {r : List β}, l.mapM f = some r → l.length = r.length
  | [], r, h => by simp at h; simp [h]
  | a :: l, r, h => by
    rw [List.mapM_cons] at h
    cases e : f a with
    | none => rw [e] at h; simp at h
    | some b =>
      cases e2 : l.mapM f with
      | none => rw [e, e2] at h; simp at h
      | some r' =>
        rw [e, e2] at h
        simp at h
        rw [← h, List.length_cons, List.length_cons, mapM_length l e2]

/-! ## theorems -/

/-- **C129** (a): the extraction never fails, for every image with at least one pixel per cell and every order in which the workers append. The result are the refined corners of the cells, in the order of the
cells, where each cell inside of the image gives its strongest free corners. -/
theorem C129_extraction {F : Frame} {fast : Roi → List Kp} {srt : List Kp → List Kp} (refine : List Pt → List Pt) {sched : List (List Kp) → List (ℕ × Kp)} {locs : List (ℤ × ℤ)} {num gx gy : ℤ}
    (hf : FastOk fast) (hs : SortOk srt) (hsc : ∀ tasks, Interleaves tasks (sched tasks)) (hn : 0 < num) (hx : 0 < gx) (hxc : gx ≤ F.cols) (hy : 0 < gy) (hyc : gy ≤ F.rows)
    (hl : ∀ l ∈ locs, 0 ≤ l.1 ∧ 0 ≤ l.2) :
    ∃ (cx cy n : ℤ) (found : List (List Kp)), 0 < cx ∧ cx ≤ gx ∧ 0 < cy ∧ cy ≤ gy ∧ 0 < n ∧ Dims num gx gy cx cy n ∧
      extract F fast srt refine sched locs num gx gy = some (refineAll refine found.flatten) ∧
      List.Forall₂ (fun loc got =>
        ((loc.1 + 1) * (F.cols / cx) ≤ F.cols ∧ (loc.2 + 1) * (F.rows / cy) ≤ F.rows →
          Best F (fast ⟨loc.1 * (F.cols / cx), loc.2 * (F.rows / cy), F.cols / cx, F.rows / cy⟩) ⟨loc.1 * (F.cols / cx), loc.2 * (F.rows / cy), F.cols / cx, F.rows / cy⟩ n got) ∧
        (¬((loc.1 + 1) * (F.cols / cx) ≤ F.cols ∧ (loc.2 + 1) * (F.rows / cy) ≤ F.rows) → got = [])) locs found := by
  obtain ⟨a1, a2, a3, a4, a5⟩ := gridDims_spec hn hx hy
  have hn' := (perCell_spec hn a1 a3).1
  have hsx : 0 < F.cols / (gridDims num gx gy).1 := by have := (Int.le_ediv_iff_mul_le (a := 1) (b := F.cols) a1).2 (by omega); omega
  have hsy : 0 < F.rows / (gridDims num gx gy).2 := by have := (Int.le_ediv_iff_mul_le (a := 1) (b := F.rows) a3).2 (by omega); omega
  obtain ⟨tasks, t1, t2⟩ := mapM_cells (F := F) hf hs (n := perCell num (gridDims num gx gy).1 (gridDims num gx gy).2) (by omega) hsx hsy locs hl
  refine ⟨_, _, _, tasks, a1, a2, a3, a4, by omega, a5, ?_, t2⟩
  by_cases c : locs = []
  · subst c
    rw [List.forall₂_nil_left_iff] at t2
    subst t2
    simp [extract, refineAll]
  · rw [extract, if_neg c]
    simp only
    rw [if_neg (by simp only [not_not]; exact ⟨a1, a3, by omega⟩), if_neg (by simp only [not_not]; exact ⟨hsx, hsy⟩), t1]
    simp only [t2.length_eq, pushes_interleaves (hsc tasks), Option.map_some]

/-- **C129** (b): the order in which the parallel workers run has no effect on the result -/
theorem C129_schedule {F : Frame} {fast : Roi → List Kp} {srt : List Kp → List Kp} (refine : List Pt → List Pt) {s₁ s₂ : List (List Kp) → List (ℕ × Kp)} (locs : List (ℤ × ℤ)) (num gx gy : ℤ)
    (h₁ : ∀ tasks, Interleaves tasks (s₁ tasks)) (h₂ : ∀ tasks, Interleaves tasks (s₂ tasks)) :
    extract F fast srt refine s₁ locs num gx gy = extract F fast srt refine s₂ locs num gx gy := by
  simp only [extract]
  split_ifs
  · rfl
  · cases e : locs.mapM (cellPts F fast srt (perCell num (gridDims num gx gy).1 (gridDims num gx gy).2) (F.cols / (gridDims num gx gy).1) (F.rows / (gridDims num gx gy).2)) with
    | none => rfl
    | some tasks =>
      simp only [mapM_length locs e, pushes_interleaves (h₁ tasks), pushes_interleaves (h₂ tasks)]
  · rfl
  · rfl

lemma cellOf_iff {cfg : TCfg} {F : Frame} (hx : 0 < cfg.gx) (hxc : cfg.gx ≤ F.cols) (hy : 0 < cfg.gy) (hyc : cfg.gy ≤ F.rows) (c : ℤ × ℤ) (p : Pt) : cellOf cfg F p = c ↔ InCell cfg F c p := by
  have h1 : (0 : ℚ) < (F.cols : ℚ) / cfg.gx := by
    have : (0 : ℚ) < cfg.gx := by exact_mod_cast hx
    have : (0 : ℚ) < F.cols := by exact_mod_cast lt_of_lt_of_le hx hxc
    positivity
  have h2 : (0 : ℚ) < (F.rows : ℚ) / cfg.gy := by
    have : (0 : ℚ) < cfg.gy := by exact_mod_cast hy
    have : (0 : ℚ) < F.rows := by exact_mod_cast lt_of_lt_of_le hy hyc
    positivity
  rw [cellOf, Prod.ext_iff, Int.floor_eq_iff, Int.floor_eq_iff, InCell, le_div_iff₀ h1, div_lt_iff₀ h1, le_div_iff₀ h2, div_lt_iff₀ h2]
  tauto

lemma required_eq {cfg : TCfg} (hn : 0 < cfg.num) (hx : 0 < cfg.gx) (hy : 0 < cfg.gy) : required cfg = max 1 (perCell cfg.num cfg.gx cfg.gy / 2) := by
  have h := (perCell_spec hn hx hy).1
  rw [required, trunc_nonneg (by have : (0 : ℚ) ≤ perCell cfg.num cfg.gx cfg.gy := by exact_mod_cast (by omega : (0 : ℤ) ≤ perCell cfg.num cfg.gx cfg.gy)
                                 linarith)]
  congr 1
  have := Rat.floor_intCast_div_natCast (perCell cfg.num cfg.gx cfg.gy) 2
  simpa using this

lemma validLocs_mem {cfg : TCfg} {F : Frame} (hn : 0 < cfg.num) (hx : 0 < cfg.gx) (hxc : cfg.gx ≤ F.cols) (hy : 0 < cfg.gy) (hyc : cfg.gy ≤ F.rows) (hb : perCell cfg.num cfg.gx cfg.gy < 512) (pts : List Pt) (c : ℤ × ℤ) :
    c ∈ validLocs cfg F pts ↔ Lacks cfg F (perCell cfg.num cfg.gx cfg.gy) pts c ∧ maskGrid cfg F c ≠ 255 := by
  have hcnt : (pts.countP fun p => cellOf cfg F p = c) = (pts.filter fun p => InCell cfg F c p).length := by
    rw [List.countP_eq_length_filter]
    congr 2
    funext p
    rw [decide_eq_decide]
    exact cellOf_iff hx hxc hy hyc c p
  rw [validLocs, List.mem_filter, Lacks, counted, hcnt, required_eq hn hx hy]
  simp only [List.mem_flatMap, List.mem_map, List.mem_range, Bool.and_eq_true, decide_eq_true_eq]
  constructor
  · rintro ⟨⟨x, h1, y, h2, rfl⟩, h3, h4⟩
    refine ⟨⟨by simp, by simp; omega, by simp, by simp; omega, ?_⟩, h4⟩
    push_cast at h3
    omega
  · rintro ⟨⟨h1, h2, h3, h4, h5⟩, h6⟩
    refine ⟨⟨c.1.toNat, by omega, c.2.toNat, by omega, by ext <;> simp <;> omega⟩, ?_, h6⟩
    push_cast
    omega

lemma boxed_far {cfg : TCfg} {F : Frame} {p k : Pt} : boxed cfg F p (trunc k.1) (trunc k.2) = false ↔ Far cfg F p k := by
  simp only [boxed, Far, Bool.and_eq_false_iff, decide_eq_false_iff_not, lt_abs]
  omega

lemma updMask_free {cfg : TCfg} {F : Frame} {pts : List Pt} {k : Pt} :
    (updMask cfg F pts).mask (trunc k.1) (trunc k.2) ≤ 127 ↔ F.mask (trunc k.1) (trunc k.2) ≤ 127 ∧ ∀ p ∈ pts, Far cfg F p k := by
  simp only [updMask]
  by_cases c : (pts.any fun p => boxed cfg F p (trunc k.1) (trunc k.2)) = true
  · rw [if_pos c]
    rw [List.any_eq_true] at c
    obtain ⟨p, hp, hb⟩ := c
    constructor
    · intro h; omega
    · rintro ⟨-, h⟩
      have := boxed_far.2 (h p hp)
      rw [this] at hb; simp at hb
  · rw [if_neg c]
    rw [Bool.not_eq_true, List.any_eq_false] at c
    exact ⟨fun h => ⟨h, fun p hp => boxed_far.1 (by simpa using c p hp)⟩, fun h => h.1⟩

lemma validLocs_nodup (cfg : TCfg) (F : Frame) (pts : List Pt) : (validLocs cfg F pts).Nodup := by
  apply List.Nodup.filter
  rw [List.nodup_flatMap]
  refine ⟨fun x _ => List.nodup_range.map fun a b h => by simpa using h, List.nodup_range.imp fun {a b} hab => ?_⟩
  intro c h1 h2
  simp only [List.mem_map] at h1 h2
  obtain ⟨_, -, rfl⟩ := h1
  obtain ⟨_, -, h⟩ := h2
  simp only [Prod.mk.injEq, Nat.cast_inj] at h
  exact hab h.1.symm

lemma cells_few {cfg : TCfg} {F : Frame} {n : ℤ} (hn : 0 ≤ n) (c : ℤ × ℤ) (P : ℤ × ℤ → List Kp → Prop) (hP : ∀ l g, P l g → (∀ k ∈ g, InCell cfg F l k.pt) ∧ (g.length : ℤ) ≤ n)
    (huniq : ∀ c' p, InCell cfg F c p → InCell cfg F c' p → c' = c) : ∀ {locs : List (ℤ × ℤ)} {found : List (List Kp)}, List.Forall₂ P locs found → locs.Nodup →
      ((found.flatten.filter fun k => InCell cfg F c k.pt).length : ℤ) ≤ n ∧ (c ∉ locs → found.flatten.filter (fun k => InCell cfg F c k.pt) = [])
  | _, _, .nil, _ => by simpa using hn
  | l :: locs, g :: found, .cons hg hr, hd => by
    obtain ⟨h1, h2⟩ := hP l g hg
    rw [List.nodup_cons] at hd
    obtain ⟨i1, i2⟩ := cells_few hn c P hP huniq hr hd.2
    rw [List.flatten_cons, List.filter_append, List.length_append]
    by_cases e : l = c
    · subst e
      rw [i2 hd.1]
      have := List.length_filter_le (fun k : Kp => decide (InCell cfg F l k.pt)) g
      refine ⟨by simp only [List.length_nil]; push_cast; omega, fun h => by simp at h⟩
    · have h0 : g.filter (fun k => decide (InCell cfg F c k.pt)) = [] := by
        rw [List.filter_eq_nil_iff]
        intro k hk
        simp only [decide_eq_true_eq]
        exact fun hc => e (huniq l k.pt hc (h1 k hk))
      rw [h0]
      refine ⟨by simpa using i1, fun h => ?_⟩
      rw [List.nil_append]
      exact i2 fun h' => h (by simp [h'])

lemma forall₂_mem_right {α β : Type} {R : α → β → Prop} {l : List α} {r : List β} (h : List.Forall₂ R l r) {b : β} (hb : b ∈ r) : ∃ a ∈ l, R a b := by
  induction h with
  | nil => simp at hb
  | cons h1 _ ih =>
    rcases List.mem_cons.1 hb with rfl | hb
    · exact ⟨_, by simp, h1⟩
    · obtain ⟨a, ha, h⟩ := ih hb; exact ⟨a, by simp [ha], h⟩

lemma forall₂_mem_left {α β : Type} {R : α → β → Prop} {l : List α} {r : List β} (h : List.Forall₂ R l r) {a : α} (ha : a ∈ l) : ∃ b ∈ r, R a b := by
  induction h with
  | nil => simp at ha
  | cons h1 _ ih =>
    rcases List.mem_cons.1 ha with rfl | hb
    · exact ⟨_, by simp, h1⟩
    · obtain ⟨a, ha, h⟩ := ih hb; exact ⟨a, by simp [ha], h⟩

/-- **C129** (c): the detection with a grid that divides the image and at least one feature for each cell: it never fails, and before the sub-pixel refinement the new corners are

* outside of the mask, and far from every tracked point (by more than the minimal distance, when the box around the point is inside of the image),
* in cells with too few tracked points, at most `n` in each, where `n` is the number of features per cell, rounded down, plus one,
* complete: a corner that OpenCV finds in a cell with too few points, whose first pixel is not white in the mask, is taken unless it is masked or near a tracked point, or there are `n` others as strong. -/
theorem C129_detection {cfg : TCfg} {F : Frame} {fast : Roi → List Kp} {srt : List Kp → List Kp} (refine : List Pt → List Pt) {sched : List (List Kp) → List (ℕ × Kp)}
    (hf : FastOk fast) (hs : SortOk srt) (hsc : ∀ tasks, Interleaves tasks (sched tasks)) (hx : 0 < cfg.gx) (hy : 0 < cfg.gy) (hcols : 0 < F.cols) (hrows : 0 < F.rows) (hdx : cfg.gx ∣ F.cols) (hdy : cfg.gy ∣ F.rows)
    (hnum : cfg.gx * cfg.gy ≤ cfg.num) (hbyte : cfg.num < 511 * (cfg.gx * cfg.gy)) (pts : List Pt) :
    ∃ (n : ℤ) (found : List Kp), (n - 1) * (cfg.gx * cfg.gy) ≤ cfg.num ∧ cfg.num < n * (cfg.gx * cfg.gy) ∧ newCorners cfg F fast srt refine sched pts = some (refineAll refine found) ∧
      (∀ k ∈ found, F.mask (trunc k.pt.1) (trunc k.pt.2) ≤ 127 ∧ (∀ p ∈ pts, Far cfg F p k.pt) ∧ ∃ c, Lacks cfg F n pts c ∧ InCell cfg F c k.pt ∧ ∃ k' ∈ fast (part cfg F c), k = shift (part cfg F c) k') ∧
      (∀ c, ((found.filter fun k => InCell cfg F c k.pt).length : ℤ) ≤ n) ∧
      ∀ c, Lacks cfg F n pts c → F.mask (part cfg F c).x (part cfg F c).y ≠ 255 → ∀ k ∈ fast (part cfg F c), F.mask (trunc (shift (part cfg F c) k).pt.1) (trunc (shift (part cfg F c) k).pt.2) ≤ 127 →
        (∀ p ∈ pts, Far cfg F p (shift (part cfg F c) k).pt) → shift (part cfg F c) k ∈ found ∨ n ≤ ((fast (part cfg F c)).filter fun k' => k.resp ≤ k'.resp).length := by
  have hcol : F.cols / cfg.gx * cfg.gx = F.cols := Int.ediv_mul_cancel hdx
  have hrow : F.rows / cfg.gy * cfg.gy = F.rows := Int.ediv_mul_cancel hdy
  have hxc : cfg.gx ≤ F.cols := Int.le_of_dvd hcols hdx
  have hyc : cfg.gy ≤ F.rows := Int.le_of_dvd hrows hdy
  have hxy : 0 < cfg.gx * cfg.gy := mul_pos hx hy
  have hn : 0 < cfg.num := by omega
  have hgx : (0 : ℚ) < cfg.gx := by exact_mod_cast hx
  have hgy : (0 : ℚ) < cfg.gy := by exact_mod_cast hy
  have hcq : (F.cols : ℚ) / cfg.gx = ((F.cols / cfg.gx : ℤ) : ℚ) := by rw [div_eq_iff hgx.ne']; exact_mod_cast hcol.symm
  have hrq : (F.rows : ℚ) / cfg.gy = ((F.rows / cfg.gy : ℤ) : ℚ) := by rw [div_eq_iff hgy.ne']; exact_mod_cast hrow.symm
  have hsx : 0 < F.cols / cfg.gx := by have := (Int.le_ediv_iff_mul_le (a := 1) (b := F.cols) hx).2 (by omega); omega
  have hsy : 0 < F.rows / cfg.gy := by have := (Int.le_ediv_iff_mul_le (a := 1) (b := F.rows) hy).2 (by omega); omega
  obtain ⟨pc1, pc2, pc3⟩ := perCell_spec hn hx hy
  have hb : perCell cfg.num cfg.gx cfg.gy < 512 := by
    by_contra h
    have : 511 * (cfg.gx * cfg.gy) ≤ (perCell cfg.num cfg.gx cfg.gy - 1) * (cfg.gx * cfg.gy) := mul_le_mul_of_nonneg_right (by omega) hxy.le
    omega
  have hloc := validLocs_mem (F := F) hn hx hxc hy hyc hb pts
  obtain ⟨cx, cy, n, found, -, -, -, -, hn0, hD, hex, hall⟩ := C129_extraction (F := updMask cfg F pts) refine (locs := validLocs cfg F pts) hf hs hsc hn hx hxc hy hyc
    (fun l hl => by have := ((hloc l).1 hl).1; exact ⟨this.1, this.2.2.1⟩)
  obtain ⟨rfl, rfl⟩ := hD.1 hnum
  have hnn : n = perCell cfg.num cfg.gx cfg.gy := by
    obtain ⟨-, -, d1, d2⟩ := hD
    have a1 : n - 1 < perCell cfg.num cfg.gx cfg.gy := lt_of_mul_lt_mul_right (lt_of_le_of_lt d1 pc3) hxy.le
    have a2 : perCell cfg.num cfg.gx cfg.gy - 1 < n := lt_of_mul_lt_mul_right (lt_of_le_of_lt pc2 d2) hxy.le
    omega
  rw [← hnn] at hloc
  have hcols' : (updMask cfg F pts).cols = F.cols := rfl
  have hrows' : (updMask cfg F pts).rows = F.rows := rfl
  rw [hcols', hrows'] at hall
  have hin : ∀ c, Lacks cfg F n pts c → (c.1 + 1) * (F.cols / cfg.gx) ≤ F.cols ∧ (c.2 + 1) * (F.rows / cfg.gy) ≤ F.rows := by
    rintro c ⟨h1, h2, h3, h4, -⟩
    constructor
    · calc (c.1 + 1) * (F.cols / cfg.gx) ≤ cfg.gx * (F.cols / cfg.gx) := mul_le_mul_of_nonneg_right (by omega) hsx.le
        _ = F.cols := by rw [mul_comm]; exact hcol
    · calc (c.2 + 1) * (F.rows / cfg.gy) ≤ cfg.gy * (F.rows / cfg.gy) := mul_le_mul_of_nonneg_right (by omega) hsy.le
        _ = F.rows := by rw [mul_comm]; exact hrow
  have hcell : ∀ c p, InCell cfg F c p ↔ ((part cfg F c).x : ℚ) ≤ p.1 ∧ p.1 < (part cfg F c).x + (part cfg F c).w ∧ ((part cfg F c).y : ℚ) ≤ p.2 ∧ p.2 < (part cfg F c).y + (part cfg F c).h := by
    intro c p
    simp only [InCell, part, hcq, hrq]
    push_cast
    rw [add_mul, one_mul, add_mul, one_mul]
  have hbest : List.Forall₂ (fun loc got => Lacks cfg F n pts loc ∧ Best (updMask cfg F pts) (fast (part cfg F loc)) (part cfg F loc) n got) (validLocs cfg F pts) found := by
    refine List.forall₂_iff_get.2 ⟨hall.length_eq, fun i h1 h2 => ?_⟩
    have h := (List.forall₂_iff_get.1 hall).2 i h1 h2
    have hL := ((hloc _).1 (List.get_mem (validLocs cfg F pts) ⟨i, h1⟩)).1
    exact ⟨hL, h.1 (hin _ hL)⟩
  refine ⟨n, found.flatten, hD.2.2.1, hD.2.2.2, hex, ?_, ?_, ?_⟩
  · intro k hk
    rw [List.mem_flatten] at hk
    obtain ⟨got, hg, hk⟩ := hk
    obtain ⟨c, -, hL, hB⟩ := forall₂_mem_right hbest hg
    have hfree := updMask_free.1 (hB.free k hk)
    exact ⟨hfree.1, hfree.2, c, hL, (hcell c k.pt).2 (hB.inside k hk), hB.from_found k hk⟩
  · intro c
    exact (cells_few hn0.le c _ (fun l g h => ⟨fun k hk => (hcell l k.pt).2 (h.2.inside k hk), h.2.few⟩)
      (fun c' p h1 h2 => ((cellOf_iff hx hxc hy hyc c' p).2 h2).symm.trans ((cellOf_iff hx hxc hy hyc c p).2 h1)) hbest (validLocs_nodup cfg F pts)).1
  · intro c hL hm k hk hfree hfar
    have hmg : maskGrid cfg F c ≠ 255 := by
      rw [maskGrid, hcq, hrq]
      have e1 : ⌊(c.1 : ℚ) * ((F.cols / cfg.gx : ℤ) : ℚ)⌋ = c.1 * (F.cols / cfg.gx) := by rw [← Int.cast_mul, Int.floor_intCast]
      have e2 : ⌊(c.2 : ℚ) * ((F.rows / cfg.gy : ℤ) : ℚ)⌋ = c.2 * (F.rows / cfg.gy) := by rw [← Int.cast_mul, Int.floor_intCast]
      rw [e1, e2]; exact hm
    obtain ⟨got, hg, -, hB⟩ := forall₂_mem_left hbest ((hloc c).2 ⟨hL, hmg⟩)
    rcases hB.strongest k hk (updMask_free.2 ⟨hfree, hfar⟩) with h | h
    · exact Or.inl (List.mem_flatten.2 ⟨got, hg, h⟩)
    · right; rwa [List.countP_eq_length_filter] at h

/-- **C129** (d): the points, ids and new points of the detection are those of the tracker's bookkeeping (C64, C87) for the refined corners of (c): nothing else is added -/
theorem C129_detect {cfg : TCfg} {F : Frame} {fast : Roi → List Kp} {srt : List Kp → List Kp} (refine : List Pt → List Pt) {sched : List (List Kp) → List (ℕ × Kp)}
    (hf : FastOk fast) (hs : SortOk srt) (hsc : ∀ tasks, Interleaves tasks (sched tasks)) (hx : 0 < cfg.gx) (hxc : cfg.gx ≤ F.cols) (hy : 0 < cfg.gy) (hyc : cfg.gy ≤ F.rows) (hn : 0 < cfg.num)
    (pts : List Pt) (ids : List ℕ) (hl : pts.length = ids.length) :
    ∃ ps is new ext, detect cfg F fast srt refine sched pts ids = some (ps, is, new) ∧ Verif.Track.detectMono cfg F.img pts ids (ext.map Kp.pt) = some (ps, is, new) ∧
      (new ≠ [] → newCorners cfg F fast srt refine sched ps = some ext) := by
  obtain ⟨r, h1, -⟩ := Verif.Track.detectMono_spec cfg F.img pts ids [] hl
  cases e : Verif.Track.prune cfg F.img (fun _ => false) [] pts ids with
  | none => simp [Verif.Track.detectMono, e] at h1
  | some t =>
    obtain ⟨ps, is, occ⟩ := t
    obtain ⟨cx, cy, n, found, -, -, -, -, -, -, hex, -⟩ := C129_extraction (F := updMask cfg F ps) refine (locs := validLocs cfg F ps) hf hs hsc hn hx hxc hy hyc (by
      intro l hl
      simp only [validLocs, List.mem_filter, List.mem_flatMap, List.mem_map] at hl
      obtain ⟨⟨x, -, y, -, rfl⟩, -⟩ := hl
      exact ⟨by simp, by simp⟩)
    by_cases c : Verif.Track.needMono cfg ps.length = true
    · refine ⟨ps, is, Verif.Track.addNew cfg F.img occ ((refineAll refine found.flatten).map Kp.pt), refineAll refine found.flatten, ?_, ?_, fun _ => hex⟩
      · simp only [detect, e]
        rw [if_pos c, newCorners, hex]
      · simp only [Verif.Track.detectMono, e]
        rw [if_pos c]
    · refine ⟨ps, is, [], [], ?_, ?_, fun h => absurd rfl h⟩
      · simp only [detect, e]
        rw [if_neg c]
      · simp only [Verif.Track.detectMono, e]
        rw [if_neg c]

/-- **C129** (e): the extraction of the descriptor tracker: every cell that is inside of the image is searched, and gives its strongest free corners -/
theorem C129_whole_image {F : Frame} {fast : Roi → List Kp} {srt : List Kp → List Kp} (refine : List Pt → List Pt) {sched : List (List Kp) → List (ℕ × Kp)} {num gx gy : ℤ}
    (hf : FastOk fast) (hs : SortOk srt) (hsc : ∀ tasks, Interleaves tasks (sched tasks)) (hn : 0 < num) (hx : 0 < gx) (hxc : gx ≤ F.cols) (hy : 0 < gy) (hyc : gy ≤ F.rows) :
    ∃ (cx cy n : ℤ) (found : List Kp), 0 < cx ∧ cx ≤ gx ∧ 0 < cy ∧ cy ≤ gy ∧ 0 < n ∧ Dims num gx gy cx cy n ∧
      extractAll F fast srt refine sched num gx gy = some (refineAll refine found) ∧
      (∀ k ∈ found, F.mask (trunc k.pt.1) (trunc k.pt.2) ≤ 127 ∧ 0 ≤ k.pt.1 ∧ k.pt.1 < F.cols ∧ 0 ≤ k.pt.2 ∧ k.pt.2 < F.rows) ∧
      ∀ i j : ℤ, 0 ≤ i → 0 ≤ j → (i + 1) * (F.cols / cx) ≤ F.cols → (j + 1) * (F.rows / cy) ≤ F.rows →
        ∃ got : List Kp, got.Sublist found ∧ Best F (fast ⟨i * (F.cols / cx), j * (F.rows / cy), F.cols / cx, F.rows / cy⟩) ⟨i * (F.cols / cx), j * (F.rows / cy), F.cols / cx, F.rows / cy⟩ n got := by
  obtain ⟨a1, a2, a3, a4, a5⟩ := gridDims_spec hn hx hy
  have hn' := (perCell_spec hn a1 a3).1
  obtain ⟨cx, cy, hg⟩ : ∃ cx cy, gridDims num gx gy = (cx, cy) := ⟨_, _, rfl⟩
  simp only [hg] at a1 a2 a3 a4 a5 hn'
  have hsx : 0 < F.cols / cx := by have := (Int.le_ediv_iff_mul_le (a := 1) (b := F.cols) a1).2 (by omega); omega
  have hsy : 0 < F.rows / cy := by have := (Int.le_ediv_iff_mul_le (a := 1) (b := F.rows) a3).2 (by omega); omega
  have hcx : 0 < F.cols / (F.cols / cx) := by
    have := (Int.le_ediv_iff_mul_le (a := 1) (b := F.cols) hsx).2 (by rw [one_mul]; exact Int.ediv_le_self _ (by omega)); omega
  obtain ⟨tasks, t1, t2⟩ := mapM_cells (F := F) hf hs (n := perCell num cx cy) (by omega) hsx hsy (allLocs F (F.cols / cx) (F.rows / cy)) (by
    intro l hl
    simp only [allLocs, List.mem_map] at hl
    obtain ⟨r, -, rfl⟩ := hl
    exact ⟨Int.emod_nonneg _ hcx.ne', Int.ediv_nonneg (by simp) hcx.le⟩)
  have hne : allLocs F (F.cols / cx) (F.rows / cy) ≠ [] := by
    have hcy : 0 < F.rows / (F.rows / cy) := by
      have := (Int.le_ediv_iff_mul_le (a := 1) (b := F.rows) hsy).2 (by rw [one_mul]; exact Int.ediv_le_self _ (by omega)); omega
    have : 0 < F.cols / (F.cols / cx) * (F.rows / (F.rows / cy)) := mul_pos hcx hcy
    simp only [allLocs, ne_eq, List.map_eq_nil_iff, List.range_eq_nil]
    omega
  refine ⟨cx, cy, perCell num cx cy, tasks.flatten, a1, a2, a3, a4, by omega, a5, ?_, ?_, ?_⟩
  · simp only [extractAll, hg]
    rw [if_neg (by simp only [not_or, not_not]; exact ⟨⟨a1, a3, by omega⟩, hsx, hsy⟩), extract, if_neg hne]
    simp only [hg]
    rw [if_neg (by simp only [not_not]; exact ⟨a1, a3, by omega⟩), if_neg (by simp only [not_not]; exact ⟨hsx, hsy⟩), t1]
    simp only [t2.length_eq, pushes_interleaves (hsc tasks), Option.map_some]
  · intro k hk
    rw [List.mem_flatten] at hk
    obtain ⟨got, hg, hk⟩ := hk
    obtain ⟨c, hc, h1, h2⟩ := forall₂_mem_right t2 hg
    by_cases hc' : (c.1 + 1) * (F.cols / cx) ≤ F.cols ∧ (c.2 + 1) * (F.rows / cy) ≤ F.rows
    · have hB := h1 hc'
      obtain ⟨b1, b2, b3, b4⟩ := hB.inside k hk
      simp only [allLocs, List.mem_map] at hc
      obtain ⟨r, -, rfl⟩ := hc
      have x0 : 0 ≤ (r : ℤ) % (F.cols / (F.cols / cx)) := Int.emod_nonneg _ hcx.ne'
      have y0 : 0 ≤ (r : ℤ) / (F.cols / (F.cols / cx)) := Int.ediv_nonneg (by simp) hcx.le
      have q1 : (0 : ℚ) ≤ ((roiOf (F.cols / cx) (F.rows / cy) ((r : ℤ) % (F.cols / (F.cols / cx)), (r : ℤ) / (F.cols / (F.cols / cx)))).x : ℚ) := by exact_mod_cast mul_nonneg x0 hsx.le
      have q2 : (0 : ℚ) ≤ ((roiOf (F.cols / cx) (F.rows / cy) ((r : ℤ) % (F.cols / (F.cols / cx)), (r : ℤ) / (F.cols / (F.cols / cx)))).y : ℚ) := by exact_mod_cast mul_nonneg y0 hsy.le
      have q3 := hc'.1
      have q4 := hc'.2
      rw [add_mul, one_mul] at q3 q4
      have q3' : ((roiOf (F.cols / cx) (F.rows / cy) ((r : ℤ) % (F.cols / (F.cols / cx)), (r : ℤ) / (F.cols / (F.cols / cx)))).x : ℚ) + (F.cols / cx : ℤ) ≤ F.cols := by exact_mod_cast q3
      have q4' : ((roiOf (F.cols / cx) (F.rows / cy) ((r : ℤ) % (F.cols / (F.cols / cx)), (r : ℤ) / (F.cols / (F.cols / cx)))).y : ℚ) + (F.rows / cy : ℤ) ≤ F.rows := by exact_mod_cast q4
      exact ⟨hB.free k hk, q1.trans b1, lt_of_lt_of_le b2 q3', q2.trans b3, lt_of_lt_of_le b4 q4'⟩
    · rw [h2 hc'] at hk; simp at hk
  · intro i j hi hj hic hjc
    have hi' : i < F.cols / (F.cols / cx) := by have := (Int.le_ediv_iff_mul_le hsx).2 hic; omega
    have hj' : j < F.rows / (F.rows / cy) := by have := (Int.le_ediv_iff_mul_le hsy).2 hjc; omega
    have hmem : (i, j) ∈ allLocs F (F.cols / cx) (F.rows / cy) := by
      simp only [allLocs, List.mem_map, List.mem_range]
      have h0 : 0 ≤ j * (F.cols / (F.cols / cx)) + i := add_nonneg (mul_nonneg hj hcx.le) hi
      refine ⟨(j * (F.cols / (F.cols / cx)) + i).toNat, ?_, ?_⟩
      · have : j * (F.cols / (F.cols / cx)) + i < F.cols / (F.cols / cx) * (F.rows / (F.rows / cy)) := by nlinarith
        omega
      · rw [Int.toNat_of_nonneg h0]
        congr 1
        · rw [add_comm, Int.add_mul_emod_self_right, Int.emod_eq_of_lt hi hi']
        · rw [add_comm, Int.add_mul_ediv_right _ _ hcx.ne', Int.ediv_eq_zero_of_lt hi hi', zero_add]
    obtain ⟨got, hg, h1, -⟩ := forall₂_mem_left t2 hmem
    exact ⟨got, List.sublist_flatten_of_mem hg, h1 ⟨hic, hjc⟩⟩

/-! ## cases that meet the hypotheses, and what does not hold -/

/-- a sorting by insertion, strongest first -/
def sortResp (l : List Kp) : List Kp := l.insertionSort fun a b => b.resp ≤ a.resp

lemma sortResp_ok : SortOk sortResp := by
  intro l
  haveI : Std.Total fun a b : Kp => b.resp ≤ a.resp := ⟨fun a b => le_total _ _⟩
  haveI : IsTrans Kp fun a b : Kp => b.resp ≤ a.resp := ⟨fun a b c h1 h2 => le_trans h2 h1⟩
  exact ⟨List.perm_insertionSort _ l, List.pairwise_insertionSort _ l⟩

/-- one worker after the other -/
def inOrder (tasks : List (List Kp)) : List (ℕ × Kp) := (tasks.zipIdx.map fun t => t.1.map fun k => (t.2, k)).flatten

lemma inOrder_aux : ∀ (tasks : List (List Kp)) (j r : ℕ), (((tasks.zipIdx j).map fun t => t.1.map fun k => (t.2, k)).flatten.filter fun e => e.1 = r).map Prod.snd = if j ≤ r then tasks.getD (r - j) [] else []
  | [], j, r => by simp
  | t :: ts, j, r => by
    rw [List.zipIdx_cons, List.map_cons, List.flatten_cons, List.filter_append, List.map_append, inOrder_aux ts (j + 1) r]
    by_cases c : j = r
    · subst c
      simp [List.filter_map, Function.comp_def]
    · have h0 : (t.map fun k => (j, k)).filter (fun e => decide (e.1 = r)) = [] := by simp [List.filter_map, Function.comp_def, c]
      rw [h0]
      by_cases c2 : j + 1 ≤ r
      · rw [if_pos c2, if_pos (by omega)]
        obtain ⟨d, rfl⟩ : ∃ d, r = j + 1 + d := ⟨r - (j + 1), by omega⟩
        have : j + 1 + d - j = d + 1 := by omega
        rw [this]; simp
      · rw [if_neg c2, if_neg (by omega)]; simp

lemma inOrder_ok (tasks : List (List Kp)) : Interleaves tasks (inOrder tasks) := by
  intro r
  have := inOrder_aux tasks 0 r
  simpa [inOrder] using this

/-- the corners of an image that has the corners `ks` (positions in the image) -/
def imageCorners (ks : List Kp) (R : Roi) : List Kp :=
  (ks.filter fun k => decide ((R.x : ℚ) ≤ k.pt.1 ∧ k.pt.1 < (R.x : ℚ) + (R.w : ℚ) ∧ (R.y : ℚ) ≤ k.pt.2 ∧ k.pt.2 < (R.y : ℚ) + (R.h : ℚ))).map fun k => ⟨(k.pt.1 - R.x, k.pt.2 - R.y), k.resp⟩

lemma imageCorners_ok (ks : List Kp) : FastOk (imageCorners ks) := by
  intro R k hk
  simp only [imageCorners, List.mem_map, List.mem_filter, decide_eq_true_eq] at hk
  obtain ⟨k', ⟨-, h1, h2, h3, h4⟩, rfl⟩ := hk
  refine ⟨?_, ?_, ?_, ?_⟩ <;> simp only <;> linarith

/-- a camera with 640 times 480 pixels, five cells in each direction and 200 features: (c) applies, to every list of tracked points, every mask and every picture -/
example (mask : ℤ → ℤ → ℕ) (ks : List Kp) (pts : List Pt) : ∃ (n : ℤ) (found : List Kp), (n - 1) * (5 * 5) ≤ 200 ∧ 200 < n * (5 * 5) ∧
    newCorners ⟨10, 5, 5, 200⟩ ⟨640, 480, mask⟩ (imageCorners ks) sortResp id inOrder pts = some (refineAll id found) := by
  obtain ⟨n, found, h1, h2, h3, -⟩ := C129_detection (cfg := ⟨10, 5, 5, 200⟩) (F := ⟨640, 480, mask⟩) id (imageCorners_ok ks) sortResp_ok inOrder_ok (by norm_num) (by norm_num) (by norm_num) (by norm_num) (by norm_num)
    (by norm_num) (by norm_num) (by norm_num) pts
  exact ⟨n, found, h1, h2, h3⟩

/-- strips that are smaller than a cell: when the width is not a multiple of the number of columns, no corner is ever taken from the last columns of the image -/
theorem C129_strip_never_searched {cfg : TCfg} {F : Frame} {fast : Roi → List Kp} {srt : List Kp → List Kp} {sched : List (List Kp) → List (ℕ × Kp)}
    (hf : FastOk fast) (hs : SortOk srt) (hsc : ∀ tasks, Interleaves tasks (sched tasks)) (hx : 0 < cfg.gx) (hxc : cfg.gx ≤ F.cols) (hy : 0 < cfg.gy) (hyc : cfg.gy ≤ F.rows)
    (hnum : cfg.gx * cfg.gy ≤ cfg.num) (pts : List Pt) :
    ∃ found, newCorners cfg F fast srt id sched pts = some found ∧ ∀ k ∈ found, k.pt.1 < cfg.gx * (F.cols / cfg.gx : ℤ) := by
  have hn : 0 < cfg.num := lt_of_lt_of_le (mul_pos hx hy) hnum
  have hlm : ∀ l ∈ validLocs cfg F pts, (0 ≤ l.1 ∧ 0 ≤ l.2) ∧ l.1 < cfg.gx := by
    intro l hl
    simp only [validLocs, List.mem_filter, List.mem_flatMap, List.mem_map, List.mem_range] at hl
    obtain ⟨⟨x, h1, y, -, rfl⟩, -⟩ := hl
    exact ⟨⟨by simp, by simp⟩, by simp; omega⟩
  obtain ⟨cx, cy, n, found, -, -, -, -, -, hD, hex, hall⟩ := C129_extraction (F := updMask cfg F pts) id (locs := validLocs cfg F pts) hf hs hsc hn hx hxc hy hyc (fun l hl => (hlm l hl).1)
  obtain ⟨rfl, rfl⟩ := hD.1 hnum
  have hid : ∀ l : List Kp, refineAll id l = l := by
    intro l
    induction l with
    | nil => rfl
    | cons a l ih => simp only [refineAll, id, List.map_cons, List.zipWith_cons_cons] at ih ⊢; rw [ih]
  refine ⟨found.flatten, by rw [newCorners, hex, hid], ?_⟩
  intro k hk
  rw [List.mem_flatten] at hk
  obtain ⟨got, hg, hk⟩ := hk
  obtain ⟨c, hc, h1, h2⟩ := forall₂_mem_right hall hg
  by_cases hc' : (c.1 + 1) * ((updMask cfg F pts).cols / cfg.gx) ≤ (updMask cfg F pts).cols ∧ (c.2 + 1) * ((updMask cfg F pts).rows / cfg.gy) ≤ (updMask cfg F pts).rows
  · have hb := ((h1 hc').inside k hk).2.1
    have hsx : 0 ≤ F.cols / cfg.gx := Int.ediv_nonneg (by omega) hx.le
    have : c.1 * (F.cols / cfg.gx) + F.cols / cfg.gx ≤ cfg.gx * (F.cols / cfg.gx) := by
      have := mul_le_mul_of_nonneg_right (by have := (hlm c hc).2; omega : c.1 + 1 ≤ cfg.gx) hsx
      linarith
    have hq : ((c.1 * (F.cols / cfg.gx) : ℤ) : ℚ) + (F.cols / cfg.gx : ℤ) ≤ cfg.gx * (F.cols / cfg.gx : ℤ) := by exact_mod_cast this
    exact lt_of_lt_of_le hb hq
  · rw [h2 hc'] at hk; simp at hk

/-- the detection with fewer features than cells: the cells are numbered by the user's grid, but searched in the smaller grid. Here 16 features are wanted in 5 times 5 cells of a 100 by 100 image; one point is
tracked at (70, 70), and the image has one corner, at (90, 90), in a cell without any tracked point and far from (70, 70). It is not found. -/
theorem C129_small_budget_counterexample : newCorners ⟨10, 5, 5, 16⟩ ⟨100, 100, fun _ _ => 0⟩ (imageCorners [⟨(90, 90), 1⟩]) sortResp id inOrder [(70, 70)] = some [] ∧
    Lacks ⟨10, 5, 5, 16⟩ ⟨100, 100, fun _ _ => 0⟩ 1 [(70, 70)] (4, 4) ∧ InCell ⟨10, 5, 5, 16⟩ ⟨100, 100, fun _ _ => 0⟩ (4, 4) (90, 90) ∧
    Far ⟨10, 5, 5, 16⟩ ⟨100, 100, fun _ _ => 0⟩ (70, 70) (90, 90) := by
  have tq : ∀ z : ℤ, 0 ≤ z → trunc (z : ℚ) = z := fun z hz => by rw [trunc_nonneg (by exact_mod_cast hz), Int.floor_intCast]
  refine ⟨?_, ?_, ?_, ?_⟩
  · have hvl : ∀ l ∈ validLocs ⟨10, 5, 5, 16⟩ ⟨100, 100, fun _ _ => 0⟩ [(70, 70)], 0 ≤ l.1 ∧ 0 ≤ l.2 ∧ l ≠ (3, 3) := by
      intro l hl
      have hcell : cellOf ⟨10, 5, 5, 16⟩ ⟨100, 100, fun _ _ => 0⟩ (70, 70) = (3, 3) := by
        rw [cellOf_iff (by norm_num) (by norm_num) (by norm_num) (by norm_num)]
        simp only [InCell]; norm_num
      have hreq : required ⟨10, 5, 5, 16⟩ = 1 := by
        rw [required_eq (by norm_num) (by norm_num) (by norm_num)]
        obtain ⟨h1, h2, h3⟩ := perCell_spec (num := 16) (cx := 5) (cy := 5) (by norm_num) (by norm_num) (by norm_num)
        simp only
        omega
      simp only [validLocs, List.mem_filter, List.mem_flatMap, List.mem_map, List.mem_range] at hl
      obtain ⟨⟨x, -, y, -, rfl⟩, h⟩ := hl
      refine ⟨by simp, by simp, ?_⟩
      intro h33
      rw [h33, counted, hreq] at h
      simp [hcell] at h
    obtain ⟨cx, cy, n, found, -, -, -, -, -, hD, hex, hall⟩ := C129_extraction (F := updMask ⟨10, 5, 5, 16⟩ ⟨100, 100, fun _ _ => 0⟩ [(70, 70)]) id
      (locs := validLocs ⟨10, 5, 5, 16⟩ ⟨100, 100, fun _ _ => 0⟩ [(70, 70)]) (num := 16) (gx := 5) (gy := 5) (imageCorners_ok [⟨(90, 90), 1⟩]) sortResp_ok inOrder_ok
      (by norm_num) (by norm_num) (by simp [updMask]) (by norm_num) (by simp [updMask]) (fun l hl => ⟨(hvl l hl).1, (hvl l hl).2.1⟩)
    obtain ⟨-, hD, -⟩ := hD
    obtain ⟨⟨d1, d2⟩, d3, d4⟩ := hD (by norm_num)
    have hcy : cy = 4 := by nlinarith [sq_nonneg (cy - 4), sq_nonneg (cy + 4)]
    subst hcy
    have hcx : cx = 4 := by omega
    subst hcx
    have hnil : found.flatten = [] := by
      rw [List.eq_nil_iff_forall_not_mem]
      intro k hk
      rw [List.mem_flatten] at hk
      obtain ⟨got, hg, hk⟩ := hk
      obtain ⟨c, hc, h1, h2⟩ := forall₂_mem_right hall hg
      by_cases hc' : (c.1 + 1) * ((updMask ⟨10, 5, 5, 16⟩ ⟨100, 100, fun _ _ => 0⟩ [(70, 70)]).cols / 4) ≤ (updMask ⟨10, 5, 5, 16⟩ ⟨100, 100, fun _ _ => 0⟩ [(70, 70)]).cols ∧
          (c.2 + 1) * ((updMask ⟨10, 5, 5, 16⟩ ⟨100, 100, fun _ _ => 0⟩ [(70, 70)]).rows / 4) ≤ (updMask ⟨10, 5, 5, 16⟩ ⟨100, 100, fun _ _ => 0⟩ [(70, 70)]).rows
      · obtain ⟨k', hk', -⟩ := (h1 hc').from_found k hk
        simp only [imageCorners, updMask, List.mem_map, List.mem_filter, List.mem_singleton, decide_eq_true_eq] at hk'
        obtain ⟨_, ⟨rfl, e1, e2, e3, e4⟩, -⟩ := hk'
        norm_num at e1 e2 e3 e4
        have f1 : c.1 * 25 ≤ 90 := by exact_mod_cast e1
        have f2 : 90 < c.1 * 25 + 25 := by exact_mod_cast e2
        have f3 : c.2 * 25 ≤ 90 := by exact_mod_cast e3
        have f4 : 90 < c.2 * 25 + 25 := by exact_mod_cast e4
        exact (hvl c hc).2.2 (Prod.ext (by simp only; omega) (by simp only; omega))
      · rw [h2 hc'] at hk; simp at hk
    rw [newCorners, hex, hnil]
    rfl
  · refine ⟨by norm_num, by norm_num, by norm_num, by norm_num, ?_⟩
    have : ¬InCell ⟨10, 5, 5, 16⟩ ⟨100, 100, fun _ _ => 0⟩ (4, 4) (70, 70) := by simp only [InCell]; norm_num
    simp [this]
  · simp only [InCell]; norm_num
  · intro _
    left
    have h1 := tq 70 (by norm_num)
    have h2 := tq 90 (by norm_num)
    norm_num at h1 h2
    simp only [h1, h2]
    norm_num

lemma gridDims_one {num : ℤ} (h : 1 ≤ num) : gridDims num 1 1 = (1, 1) := by rw [gridDims, if_neg (by omega)]

/-- strong corners under the mask use up the number of a cell: here two of them (mask in the right half), so that the only free corner, at (20, 20), is not taken although there is no other feature -/
theorem C129_masked_budget_counterexample :
    newCorners ⟨10, 1, 1, 1⟩ ⟨100, 100, fun x _ => if 50 ≤ x then 255 else 0⟩ (imageCorners [⟨(60, 60), 3⟩, ⟨(70, 70), 2⟩, ⟨(20, 20), 1⟩]) sortResp id inOrder [] = some [] := by
  simp only [newCorners, extract, gridDims_one (le_refl 1)]
  decide +kernel

/-- the mask of a cell is that of its first pixel: with only this pixel white, nothing is searched in the whole cell -/
theorem C129_first_pixel_counterexample :
    newCorners ⟨10, 1, 1, 1⟩ ⟨100, 100, fun x y => if x = 0 ∧ y = 0 then 255 else 0⟩ (imageCorners [⟨(20, 20), 1⟩]) sortResp id inOrder [] = some [] := by
  simp only [newCorners, extract, gridDims_one (le_refl 1)]
  decide +kernel

/-- more features than asked for: one is wanted, two are returned -/
theorem C129_exceeds_number_counterexample :
    (newCorners ⟨10, 1, 1, 1⟩ ⟨100, 100, fun _ _ => 0⟩ (imageCorners [⟨(20, 20), 1⟩, ⟨(60, 60), 1⟩]) sortResp id inOrder []).map List.length = some 2 := by
  simp only [newCorners, extract, gridDims_one (le_refl 1)]
  decide +kernel

end Verif.Grid
