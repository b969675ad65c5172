import Verif.Track.PropsKlt

/-!
# C87: exactly which points the monocular detection keeps and adds
-/

set_option autoImplicit false

namespace Verif.Track

namespace Spec

/-- the cell of the minimum-distance grid -/
def cell (cfg : TCfg) (p : Pt) : ℤ × ℤ := (trunc (p.1 / cfg.minDist), trunc (p.2 / cfg.minDist))

/-- the whole cell lies in the image -/
def InCells (cfg : TCfg) (I : Img) (p : Pt) : Prop :=
  0 ≤ (cell cfg p).1 ∧ ((cell cfg p).1 + 1) * cfg.minDist ≤ I.cols ∧ 0 ≤ (cell cfg p).2 ∧ ((cell cfg p).2 + 1) * cfg.minDist ≤ I.rows

/-- a tracked point that can be kept: at least ten pixels inside the image, in a cell inside the image, not masked -/
def Usable (cfg : TCfg) (I : Img) (p : Pt) : Prop :=
  10 ≤ trunc p.1 ∧ trunc p.1 < I.cols - 10 ∧ 10 ≤ trunc p.2 ∧ trunc p.2 < I.rows - 10 ∧ InCells cfg I p ∧ I.mask (trunc p.1) (trunc p.2) = false

/-- settings that make sense -/
structure Sound (cfg : TCfg) (I : Img) : Prop where
  dist : 0 < cfg.minDist
  gx : 0 < cfg.gx
  gy : 0 < cfg.gy
  cols : 0 ≤ I.cols
  rows : 0 ≤ I.rows

end Spec

theorem lt_trunc_iff {c n m : ℤ} (hm : 0 < m) (hn : 0 ≤ n) : c < trunc ((n : ℚ) / m) ↔ (c + 1) * m ≤ n := by
  have hq : (0 : ℚ) ≤ (n : ℚ) / m := div_nonneg (by exact_mod_cast hn) (by exact_mod_cast hm.le)
  rw [trunc, if_pos hq, Int.lt_iff_add_one_le, Int.le_floor, le_div_iff₀ (by exact_mod_cast hm)]
  exact_mod_cast Iff.rfl

theorem closeOk_iff {cfg : TCfg} {I : Img} (h : Spec.Sound cfg I) (p : Pt) : closeOk cfg I (closeCell cfg p) = true ↔ Spec.InCells cfg I p := by
  rw [closeOk]
  simp only [Bool.and_eq_true, decide_eq_true_iff, lt_trunc_iff h.dist h.cols, lt_trunc_iff h.dist h.rows, Spec.InCells, Spec.cell, closeCell]
  exact ⟨fun ⟨⟨⟨a, b⟩, c⟩, d⟩ => ⟨of_decide_eq_true a, b, of_decide_eq_true c, d⟩, fun ⟨a, b, c, d⟩ => ⟨⟨⟨decide_eq_true a, b⟩, decide_eq_true c⟩, d⟩⟩

theorem axis_ok {x : ℚ} {n g : ℤ} (hg : 0 < g) (h1 : 10 ≤ trunc x) (h2 : trunc x < n - 10) : 0 ≤ ⌊x / ((n : ℚ) / g)⌋ ∧ ⌊x / ((n : ℚ) / g)⌋ < g := by
  have hx : 0 ≤ x := by
    by_contra hneg
    rw [trunc, if_neg hneg] at h1
    have : x < 0 := not_le.1 hneg
    have : ⌈x⌉ ≤ 0 := Int.ceil_le.2 (by exact_mod_cast this.le)
    omega
  rw [trunc, if_pos hx] at h1 h2
  have hn : (0 : ℚ) < n := by exact_mod_cast (by omega : (0 : ℤ) < n)
  have hg' : (0 : ℚ) < g := by exact_mod_cast hg
  have hxn : x < n := by
    have h3 := Int.lt_floor_add_one x
    have h4 : ((⌊x⌋ : ℤ) : ℚ) + 1 ≤ n := by exact_mod_cast (by omega : ⌊x⌋ + 1 ≤ n)
    linarith
  have hd : (0 : ℚ) < n / g := div_pos hn hg'
  refine ⟨Int.floor_nonneg.2 (div_nonneg hx hd.le), Int.floor_lt.2 ?_⟩
  rw [div_lt_iff₀ hd, mul_div_cancel₀ _ hg'.ne']
  exact hxn

theorem usable_iff {cfg : TCfg} {I : Img} (h : Spec.Sound cfg I) (p : Pt) : Spec.Usable cfg I p ↔ Good cfg I p := by
  constructor
  · rintro ⟨h1, h2, h3, h4, h5, h6⟩
    refine ⟨by simp [edgeOk, h1, h2, h3, h4], (closeOk_iff h p).2 h5, ?_, h6⟩
    have a := axis_ok (x := p.1) h.gx h1 h2
    have b := axis_ok (x := p.2) h.gy h3 h4
    simp only [gridOk, Bool.and_eq_true, decide_eq_true_eq]
    exact ⟨⟨a, b.1⟩, b.2⟩
  · rintro ⟨h1, h2, h3, h4⟩
    simp only [edgeOk, Bool.and_eq_true, decide_eq_true_eq] at h1
    exact ⟨h1.1.1.1, h1.1.1.2, h1.1.2, h1.2, (closeOk_iff h p).1 h2, h4⟩

open Classical in
theorem prune_snoc (cfg : TCfg) (I : Img) (p : Pt) (i : ℕ) : ∀ (ps : List Pt) (is : List ℕ) (occ : List (ℤ × ℤ)), ps.length = is.length →
    prune cfg I (fun _ => false) occ (ps ++ [p]) (is ++ [i]) = (prune cfg I (fun _ => false) occ ps is).bind fun r =>
      some (if Good cfg I p ∧ closeCell cfg p ∉ r.2.2 then (r.1 ++ [p], r.2.1 ++ [i], closeCell cfg p :: r.2.2) else r)
  | [], is, occ, h => by
    have : is = [] := List.length_eq_zero_iff.1 (by simpa using h.symm)
    subst this
    simp only [List.nil_append, prune, Option.bind_some]
    by_cases c1 : edgeOk I p = true
    · by_cases c2 : closeOk cfg I (closeCell cfg p) = true
      · by_cases c3 : gridOk cfg I p = true
        · by_cases c4 : closeCell cfg p ∈ occ
          · rw [if_neg (c := Good cfg I p ∧ _) (by tauto)]
            simp [c1, c2, c3, c4]
          · rcases hm : I.mask (trunc p.1) (trunc p.2) with _ | _
            · rw [if_pos (c := Good cfg I p ∧ _) ⟨⟨c1, c2, c3, hm⟩, c4⟩]
              simp [c1, c2, c3, c4, edgeOk_masked c1, hm]
            · rw [if_neg (c := Good cfg I p ∧ _) (fun h => by have := h.1.mask; rw [hm] at this; cases this)]
              simp [c1, c2, c3, c4, edgeOk_masked c1, hm]
        · rw [if_neg (c := Good cfg I p ∧ _) (fun h => c3 h.1.grid)]
          simp [c1, c2, c3]
      · rw [if_neg (c := Good cfg I p ∧ _) (fun h => c2 h.1.close)]
        simp [c1, c2]
    · rw [if_neg (c := Good cfg I p ∧ _) (fun h => c1 h.1.edge)]
      simp [c1]
  | q :: qs, [], occ, h => by simp at h
  | q :: qs, j :: js, occ, h => by
    have hl : qs.length = js.length := by simpa using h
    have ih := fun occ => prune_snoc cfg I p i qs js occ hl
    simp only [List.cons_append, prune]
    by_cases c1 : (!edgeOk I q) = true
    · rw [if_pos c1, if_pos c1, ih]
    · rw [if_neg c1, if_neg c1]
      by_cases c2 : (!closeOk cfg I (closeCell cfg q)) = true
      · rw [if_pos c2, if_pos c2, ih]
      · rw [if_neg c2, if_neg c2]
        by_cases c3 : (!gridOk cfg I q) = true
        · rw [if_pos c3, if_pos c3, ih]
        · rw [if_neg c3, if_neg c3]
          by_cases c4 : (occ.contains (closeCell cfg q) && !false) = true
          · rw [if_pos c4, if_pos c4, ih]
          · rw [if_neg c4, if_neg c4]
            rw [edgeOk_masked (by simpa using c1)]
            rcases hm : I.mask (trunc q.1) (trunc q.2) with _ | _
            · simp only [ih]
              rcases prune cfg I (fun _ => false) (closeCell cfg q :: occ) qs js with _ | r
              · rfl
              · simp only [Option.bind_some]
                by_cases hg : Good cfg I p ∧ closeCell cfg p ∉ r.2.2
                · rw [if_pos hg, if_pos hg]; rfl
                · rw [if_neg hg, if_neg hg]
            · simp only [ih]

open Classical in
theorem addNew_snoc (cfg : TCfg) (I : Img) (p : Pt) : ∀ (ext : List Pt) (occ : List (ℤ × ℤ)),
    addNew cfg I occ (ext ++ [p]) = addNew cfg I occ ext ++ if closeOk cfg I (closeCell cfg p) = true ∧ closeCell cfg p ∉ occ ∧ closeCell cfg p ∉ (addNew cfg I occ ext).map (closeCell cfg) then [p] else []
  | [], occ => by
    simp only [List.nil_append, addNew]
    by_cases c1 : closeOk cfg I (closeCell cfg p) = true <;> by_cases c2 : closeCell cfg p ∈ occ <;> simp [c1, c2]
  | q :: qs, occ => by
    have ih := addNew_snoc cfg I p qs
    have unf : ∀ l, addNew cfg I occ (q :: l) = if !closeOk cfg I (closeCell cfg q) then addNew cfg I occ l else if occ.contains (closeCell cfg q) then addNew cfg I occ l else q :: addNew cfg I (closeCell cfg q :: occ) l := fun l => rfl
    by_cases c1 : (!closeOk cfg I (closeCell cfg q)) = true
    · have e : ∀ l, addNew cfg I occ (q :: l) = addNew cfg I occ l := fun l => by rw [unf, if_pos c1]
      rw [List.cons_append]
      simp only [e]
      exact ih occ
    · by_cases c2 : occ.contains (closeCell cfg q) = true
      · have e : ∀ l, addNew cfg I occ (q :: l) = addNew cfg I occ l := fun l => by rw [unf, if_neg c1, if_pos c2]
        rw [List.cons_append]
        simp only [e]
        exact ih occ
      · have e : ∀ l, addNew cfg I occ (q :: l) = q :: addNew cfg I (closeCell cfg q :: occ) l := fun l => by rw [unf, if_neg c1, if_neg c2]
        rw [List.cons_append]
        simp only [e, ih]
        rw [List.cons_append]
        congr 2
        apply if_congr _ rfl rfl
        simp only [List.mem_cons, List.map_cons, not_or]
        tauto

open Classical in
/-- **C87 (tracked points).** The tracked points are looked at in order. A point is kept, with its id, exactly if it is at least ten pixels inside the image, its cell of the minimum-distance grid lies in the image, it is not masked, and
no point kept before it is in the same cell. -/
theorem C87_kept (cfg : TCfg) (I : Img) (hs : Spec.Sound cfg I) (ext : List Pt) : (∃ new, detectMono cfg I [] [] ext = some ([], [], new)) ∧
    ∀ (pts : List Pt) (ids : List ℕ) (hl : pts.length = ids.length) (p : Pt) (i : ℕ), ∃ ps is new new', detectMono cfg I pts ids ext = some (ps, is, new) ∧
      detectMono cfg I (pts ++ [p]) (ids ++ [i]) ext = some (if Spec.Usable cfg I p ∧ ∀ q ∈ ps, Spec.cell cfg q ≠ Spec.cell cfg p then (ps ++ [p], is ++ [i], new') else (ps, is, new')) := by
  refine ⟨⟨_, rfl⟩, fun pts ids hl p i => ?_⟩
  obtain ⟨r, h1, -, -, -, h5, -⟩ := prune_spec cfg I (fun _ => false) pts ids [] hl
  have h2 := prune_snoc cfg I p i pts ids [] hl
  rw [h1, Option.bind_some] at h2
  have hiff : (Good cfg I p ∧ closeCell cfg p ∉ r.2.2) ↔ (Spec.Usable cfg I p ∧ ∀ q ∈ r.1, Spec.cell cfg q ≠ Spec.cell cfg p) := by
    rw [usable_iff hs, h5]
    simp only [List.not_mem_nil, false_or, List.mem_map, not_exists, not_and]
    rfl
  have e1 : detectMono cfg I pts ids ext = some (r.1, r.2.1, if needMono cfg r.1.length then addNew cfg I r.2.2 ext else []) := by simp only [detectMono, h1]
  by_cases hg : Good cfg I p ∧ closeCell cfg p ∉ r.2.2
  · refine ⟨_, _, _, if needMono cfg (r.1 ++ [p]).length then addNew cfg I (closeCell cfg p :: r.2.2) ext else [], e1, ?_⟩
    rw [if_pos hg] at h2
    rw [if_pos (hiff.1 hg)]
    simp only [detectMono, h2]
  · refine ⟨_, _, _, if needMono cfg r.1.length then addNew cfg I r.2.2 ext else [], e1, ?_⟩
    rw [if_neg hg] at h2
    rw [if_neg (fun h => hg (hiff.2 h))]
    simp only [detectMono, h2]

open Classical in
/-- **C87 (added corners).** If too few points remain, the corners found are looked at in order, and one is added exactly if its cell of the minimum-distance grid lies in the image and holds neither a point that was kept nor a corner added
before; otherwise none is added. -/
theorem C87_added (cfg : TCfg) (I : Img) (hs : Spec.Sound cfg I) (pts : List Pt) (ids : List ℕ) (hl : pts.length = ids.length) :
    (∃ ps is, detectMono cfg I pts ids [] = some (ps, is, [])) ∧
    ∀ (ext : List Pt) (p : Pt), ∃ ps is new, detectMono cfg I pts ids ext = some (ps, is, new) ∧ (min 20 (trunc (cfg.num / 2)) ≤ cfg.num - ps.length ∨ new = []) ∧
      detectMono cfg I pts ids (ext ++ [p]) = some (ps, is, if min 20 (trunc (cfg.num / 2)) ≤ cfg.num - ps.length ∧ Spec.InCells cfg I p ∧ ∀ q ∈ ps ++ new, Spec.cell cfg q ≠ Spec.cell cfg p then new ++ [p] else new) := by
  obtain ⟨r, h1, -, -, -, h5, -⟩ := prune_spec cfg I (fun _ => false) pts ids [] hl
  have hd : ∀ ext, detectMono cfg I pts ids ext = some (r.1, r.2.1, if needMono cfg r.1.length then addNew cfg I r.2.2 ext else []) := fun ext => by simp only [detectMono, h1]
  have hneed : needMono cfg r.1.length = true ↔ min 20 (trunc (cfg.num / 2)) ≤ cfg.num - r.1.length := by simp [needMono]
  refine ⟨⟨r.1, r.2.1, by rw [hd]; simp [addNew]⟩, fun ext p => ⟨r.1, r.2.1, _, hd ext, ?_, ?_⟩⟩
  · by_cases hn : needMono cfg r.1.length = true
    · exact Or.inl (hneed.1 hn)
    · exact Or.inr (if_neg hn)
  · rw [hd]
    by_cases hn : needMono cfg r.1.length = true
    · rw [if_pos hn, if_pos hn, addNew_snoc]
      have hiff : (closeOk cfg I (closeCell cfg p) = true ∧ closeCell cfg p ∉ r.2.2 ∧ closeCell cfg p ∉ (addNew cfg I r.2.2 ext).map (closeCell cfg)) ↔
          (min 20 (trunc (cfg.num / 2)) ≤ cfg.num - r.1.length ∧ Spec.InCells cfg I p ∧ ∀ q ∈ r.1 ++ addNew cfg I r.2.2 ext, Spec.cell cfg q ≠ Spec.cell cfg p) := by
        rw [closeOk_iff hs, h5]
        simp only [List.not_mem_nil, false_or, List.mem_map, not_exists, not_and, List.mem_append, hneed.1 hn, true_and]
        constructor
        · rintro ⟨a, b, c⟩
          exact ⟨a, fun q hq => hq.elim (b q) (c q)⟩
        · rintro ⟨a, b⟩
          exact ⟨a, fun q hq => b q (Or.inl hq), fun q hq => b q (Or.inr hq)⟩
      by_cases hg : closeOk cfg I (closeCell cfg p) = true ∧ closeCell cfg p ∉ r.2.2 ∧ closeCell cfg p ∉ (addNew cfg I r.2.2 ext).map (closeCell cfg)
      · rw [if_pos hg, if_pos (hiff.1 hg)]
      · rw [if_neg hg, if_neg (fun h => hg (hiff.2 h)), List.append_nil]
    · rw [if_neg hn, if_neg hn, if_neg (fun h => hn (hneed.2 h.1))]

/-- settings and an image that make sense, a point that can be kept and one too near the border -/
example : Spec.Sound exCfg ⟨200, 100, fun _ _ => false⟩ ∧ Spec.Usable exCfg ⟨200, 100, fun _ _ => false⟩ (15, 15) ∧ ¬ Spec.Usable exCfg ⟨200, 100, fun _ _ => false⟩ (5, 15) := by
  refine ⟨⟨by decide, by decide, by decide, by decide, by decide⟩, ?_, ?_⟩
  · unfold Spec.Usable Spec.InCells
    decide +kernel
  · unfold Spec.Usable Spec.InCells
    decide +kernel

end Verif.Track
