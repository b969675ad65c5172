import Verif.Track.PropsDetect

/-!
# C87: what the stereo detection keeps, adds and numbers
-/

set_option autoImplicit false
open Classical

namespace Verif.Track

namespace Spec

/-- the tracked points that are kept, looked at in order: usable ones whose cell holds no point kept before; a point in `exempt` may share its cell -/
noncomputable def keep (cfg : TCfg) (I : Img) (exempt : ℕ → Prop) : List Pt → List (Pt × ℕ) → List (Pt × ℕ)
  | _, [] => []
  | taken, e :: r => if Usable cfg I e.1 ∧ (exempt e.2 ∨ ∀ q ∈ taken, cell cfg q ≠ cell cfg e.1) then e :: keep cfg I exempt (e.1 :: taken) r else keep cfg I exempt taken r

/-- the corners that are added, looked at in order: those in a cell inside the image that holds no point yet -/
noncomputable def pick (cfg : TCfg) (I : Img) : List Pt → List Pt → List Pt
  | _, [] => []
  | taken, p :: r => if InCells cfg I p ∧ ∀ q ∈ taken, cell cfg q ≠ cell cfg p then p :: pick cfg I (p :: taken) r else pick cfg I taken r

/-- a pixel of the image -/
def Inside (I : Img) (p : Pt) : Prop := 0 ≤ trunc p.1 ∧ trunc p.1 < I.cols ∧ 0 ≤ trunc p.2 ∧ trunc p.2 < I.rows

/-- too few points are left: more than `min 20 (num / 2)` are missing -/
def Few (cfg : TCfg) (n : ℕ) : Prop := min 20 (trunc (cfg.num / 2)) < cfg.num - n

/-- the features started by the added corners of the left image (numbered from `k`): the left pixel and, if it was found inside the right image, the right pixel -/
noncomputable def started (IL IR : Img) (lr : ℕ → Pt × Bool) : ℕ → List Pt → List (Pt × Option Pt)
  | _, [] => []
  | k, p :: r => if Inside IL p then (p, if (lr k).2 = true ∧ Inside IR (lr k).1 then some (lr k).1 else none) :: started IL IR lr (k + 1) r else started IL IR lr (k + 1) r

/-- their left points, with ids from `i` on -/
def lefts : ℕ → List (Pt × Option Pt) → List (Pt × ℕ)
  | _, [] => []
  | i, x :: r => (x.1, i) :: lefts (i + 1) r

/-- their right points, with the ids of the left ones -/
def rights : ℕ → List (Pt × Option Pt) → List (Pt × ℕ)
  | _, [] => []
  | i, (_, none) :: r => rights (i + 1) r
  | i, (_, some q) :: r => (q, i) :: rights (i + 1) r

end Spec

theorem oobNew_iff (I : Img) (p : Pt) : oobNew I p = false ↔ Spec.Inside I p := by
  simp only [oobNew, Bool.or_eq_false_iff, decide_eq_false_iff_not, not_lt, not_le, Spec.Inside]
  tauto

theorem prune_keep (cfg : TCfg) (I : Img) (hs : Spec.Sound cfg I) (ex : ℕ → Bool) : ∀ (ps : List Pt) (is : List ℕ) (occ : List (ℤ × ℤ)) (taken : List Pt), ps.length = is.length →
    (∀ c, c ∈ occ ↔ ∃ q ∈ taken, Spec.cell cfg q = c) →
    ∃ r, prune cfg I ex occ ps is = some r ∧ r.1.length = r.2.1.length ∧ r.1.zip r.2.1 = Spec.keep cfg I (fun i => ex i = true) taken (ps.zip is) ∧
      ∀ c, c ∈ r.2.2 ↔ ∃ q ∈ taken ++ r.1, Spec.cell cfg q = c
  | [], is, occ, taken, h, ho => by
    have : is = [] := List.length_eq_zero_iff.1 (by simpa using h.symm)
    subst this
    exact ⟨_, rfl, rfl, rfl, by simpa using ho⟩
  | q :: qs, [], occ, taken, h, ho => by simp at h
  | q :: qs, j :: js, occ, taken, h, ho => by
    have hl : qs.length = js.length := by simpa using h
    have ih := fun occ taken => prune_keep cfg I hs ex qs js occ taken hl
    have hmem : closeCell cfg q ∈ occ ↔ ¬ ∀ q' ∈ taken, Spec.cell cfg q' ≠ Spec.cell cfg q := by
      rw [ho]; simp only [ne_eq, not_forall, not_not, exists_prop]; rfl
    have hu := usable_iff hs q
    rw [List.zip_cons_cons]
    simp only [prune, Spec.keep]
    by_cases c1 : (!edgeOk I q) = true
    · rw [if_pos c1, if_neg (c := Spec.Usable cfg I q ∧ _) (fun hh => by simp [(hu.1 hh.1).edge] at c1)]
      exact ih occ taken ho
    · rw [if_neg c1]
      by_cases c2 : (!closeOk cfg I (closeCell cfg q)) = true
      · rw [if_pos c2, if_neg (c := Spec.Usable cfg I q ∧ _) (fun hh => by simp [(hu.1 hh.1).close] at c2)]
        exact ih occ taken ho
      · rw [if_neg c2]
        by_cases c3 : (!gridOk cfg I q) = true
        · rw [if_pos c3, if_neg (c := Spec.Usable cfg I q ∧ _) (fun hh => by simp [(hu.1 hh.1).grid] at c3)]
          exact ih occ taken ho
        · rw [if_neg c3]
          by_cases c4 : (occ.contains (closeCell cfg q) && !ex j) = true
          · rw [if_pos c4, if_neg (c := Spec.Usable cfg I q ∧ _) ?_]
            · exact ih occ taken ho
            · simp only [Bool.and_eq_true, List.contains_iff_mem, Bool.not_eq_true'] at c4
              rintro ⟨-, hh | hh⟩
              · simp [c4.2] at hh
              · exact (hmem.1 c4.1) hh
          · rw [if_neg c4, edgeOk_masked (by simpa using c1)]
            rcases hm : I.mask (trunc q.1) (trunc q.2) with _ | _
            · have hyes : Spec.Usable cfg I q ∧ (ex j = true ∨ ∀ q' ∈ taken, Spec.cell cfg q' ≠ Spec.cell cfg q) := by
                refine ⟨hu.2 ⟨by simpa using c1, by simpa using c2, by simpa using c3, hm⟩, ?_⟩
                by_contra hno
                rw [not_or] at hno
                apply c4
                simp only [Bool.and_eq_true, List.contains_iff_mem, Bool.not_eq_true']
                exact ⟨hmem.2 hno.2, by simpa using hno.1⟩
              rw [if_pos hyes]
              obtain ⟨r, h1, h2, h3, h4⟩ := ih (closeCell cfg q :: occ) (q :: taken) (by
                intro c
                rw [List.mem_cons, ho]
                simp only [List.mem_cons, exists_eq_or_imp]
                exact or_congr ⟨fun h => h.symm, fun h => h.symm⟩ Iff.rfl)
              refine ⟨(q :: r.1, j :: r.2.1, r.2.2), by simp only [h1], by simp [h2], by simp only [List.zip_cons_cons, h3], fun c => ?_⟩
              rw [h4 c]
              simp only [List.cons_append, List.mem_cons, List.mem_append]
              constructor
              · rintro ⟨x, hx, e⟩; exact ⟨x, by tauto, e⟩
              · rintro ⟨x, hx, e⟩; exact ⟨x, by tauto, e⟩
            · rw [if_neg (c := Spec.Usable cfg I q ∧ _) (fun hh => by have := (hu.1 hh.1).mask; rw [hm] at this; cases this)]
              exact ih occ taken ho

theorem addNew_pick (cfg : TCfg) (I : Img) (hs : Spec.Sound cfg I) : ∀ (ext : List Pt) (occ : List (ℤ × ℤ)) (taken : List Pt), (∀ c, c ∈ occ ↔ ∃ q ∈ taken, Spec.cell cfg q = c) →
    addNew cfg I occ ext = Spec.pick cfg I taken ext
  | [], occ, taken, ho => rfl
  | q :: qs, occ, taken, ho => by
    have hmem : closeCell cfg q ∈ occ ↔ ¬ ∀ q' ∈ taken, Spec.cell cfg q' ≠ Spec.cell cfg q := by
      rw [ho]; simp only [ne_eq, not_forall, not_not, exists_prop]; rfl
    simp only [addNew, Spec.pick]
    by_cases c1 : (!closeOk cfg I (closeCell cfg q)) = true
    · rw [if_pos c1, if_neg (c := Spec.InCells cfg I q ∧ _) (fun hh => by simp [(closeOk_iff hs q).2 hh.1] at c1)]
      exact addNew_pick cfg I hs qs occ taken ho
    · rw [if_neg c1]
      by_cases c2 : occ.contains (closeCell cfg q) = true
      · rw [if_pos c2, if_neg (c := Spec.InCells cfg I q ∧ _) (fun hh => hmem.1 (by simpa using c2) hh.2)]
        exact addNew_pick cfg I hs qs occ taken ho
      · rw [if_neg c2, if_pos (c := Spec.InCells cfg I q ∧ _) ⟨(closeOk_iff hs q).1 (by simpa using c1), ?_⟩]
        · rw [addNew_pick cfg I hs qs (closeCell cfg q :: occ) (q :: taken) (by
            intro c
            rw [List.mem_cons, ho]
            simp only [List.mem_cons, exists_eq_or_imp]
            exact or_congr ⟨fun h => h.symm, fun h => h.symm⟩ Iff.rfl)]
        · by_contra hno
          exact c2 (by simpa using hmem.2 hno)

theorem stereoNew_started (IL IR : Img) (lr : ℕ → Pt × Bool) : ∀ (new : List Pt) (k cur : ℕ),
    (stereoNew IL IR lr k cur new).1.1.zip (stereoNew IL IR lr k cur new).1.2 = Spec.lefts (cur + 1) (Spec.started IL IR lr k new) ∧
    (stereoNew IL IR lr k cur new).2.1.1.zip (stereoNew IL IR lr k cur new).2.1.2 = Spec.rights (cur + 1) (Spec.started IL IR lr k new) ∧
    (stereoNew IL IR lr k cur new).2.2 = cur + (Spec.started IL IR lr k new).length
  | [], k, cur => by simp [stereoNew, Spec.started, Spec.lefts, Spec.rights]
  | p :: ps, k, cur => by
    obtain ⟨a1, a2, a3⟩ := stereoNew_started IL IR lr ps (k + 1) (cur + 1)
    simp only [stereoNew, Spec.started]
    by_cases c1 : Spec.Inside IL p
    · have o1 := (oobNew_iff IL p).2 c1
      rw [if_pos (c := Spec.Inside IL p) c1]
      by_cases c2 : (lr k).2 = true ∧ Spec.Inside IR (lr k).1
      · have o2 := (oobNew_iff IR (lr k).1).2 c2.2
        rw [if_pos (c := (lr k).2 = true ∧ _) c2, if_pos (by simp [o1, o2, c2.1])]
        simp only [List.zip_cons_cons, Spec.lefts, Spec.rights, List.length_cons, a1, a2, a3]
        exact ⟨trivial, trivial, by omega⟩
      · rw [if_neg (c := (lr k).2 = true ∧ _) c2, if_neg ?_, if_pos (by simp [o1])]
        · simp only [List.zip_cons_cons, Spec.lefts, Spec.rights, List.length_cons, a1, a2, a3]
          exact ⟨trivial, trivial, by omega⟩
        · simp only [Bool.and_eq_true, Bool.not_eq_true']
          rintro ⟨⟨-, h2⟩, h3⟩
          exact c2 ⟨h3, (oobNew_iff _ _).1 h2⟩
    · have o1 : oobNew IL p = true := by
        rcases h : oobNew IL p with _ | _
        · exact absurd ((oobNew_iff _ _).1 h) c1
        · rfl
      rw [if_neg (c := Spec.Inside IL p) c1, if_neg (by simp [o1]), if_neg (by simp [o1])]
      exact stereoNew_started IL IR lr ps (k + 1) cur

theorem needStereo_iff (cfg : TCfg) (n : ℕ) : needStereo cfg n = true ↔ Spec.Few cfg n := by simp [needStereo, Spec.Few]

/-- **C87 (stereo).** For all images, tracked points and corners, the stereo detection does the following. In the left image the tracked points are kept as in the monocular detection. If too few are left, corners are added in free cells, and each that
lies in the image starts a feature with the next id. Those found in the right image are added to the points there, with the same id. The right points are then kept in the same way, except that a point whose id is in the left image may share
its cell; and if too few are left, corners are added in free cells, with the next ids. -/
theorem C87_stereo (cfg : TCfg) (IL IR : Img) (hL : Spec.Sound cfg IL) (hR : Spec.Sound cfg IR) (pl : List Pt) (il : List ℕ) (pr : List Pt) (ir : List ℕ) (cur : ℕ) (extL extR : List Pt) (lr : ℕ → Pt × Bool)
    (hl : pl.length = il.length) (hr : pr.length = ir.length) :
    let K := Spec.keep cfg IL (fun _ => False) [] (pl.zip il)
    let N := if Spec.Few cfg K.length then Spec.started IL IR lr 0 (Spec.pick cfg IL (K.map Prod.fst) extL) else []
    let L := K ++ Spec.lefts (cur + 1) N
    let R := Spec.keep cfg IR (fun i => i ∈ L.map Prod.snd) [] (pr.zip ir ++ Spec.rights (cur + 1) N)
    let M := if Spec.Few cfg R.length then Spec.pick cfg IR (R.map Prod.fst) extR else []
    ∃ d, detectStereo cfg IL IR pl il pr ir cur extL extR lr = some d ∧ d.pl.length = d.il.length ∧ d.pr.length = d.ir.length ∧
      d.pl.zip d.il = L ∧ d.pr.zip d.ir = R ++ M.zip (List.range' (cur + N.length + 1) M.length) ∧ d.cur = cur + N.length + M.length := by
  intro K N L R M
  obtain ⟨⟨ps, is, occ⟩, h1, h2, h3, h4⟩ := prune_keep cfg IL hL (fun _ => false) pl il [] [] hl (by simp)
  simp only [List.nil_append] at h2 h3 h4
  have hK : ps.zip is = K := by rw [h3]; simp [K]
  have hps : ps = K.map Prod.fst := by rw [← hK, List.map_fst_zip (by omega)]
  have hpl : ps.length = K.length := by rw [hps, List.length_map]
  unfold detectStereo
  simp only [h1]
  set n := if needStereo cfg ps.length then stereoNew IL IR lr 0 cur (addNew cfg IL occ extL) else (([], []), ([], []), cur) with hn
  have hnS : n.1.1.length = n.1.2.length ∧ n.2.1.1.length = n.2.1.2.length ∧ n.1.1.zip n.1.2 = Spec.lefts (cur + 1) N ∧ n.2.1.1.zip n.2.1.2 = Spec.rights (cur + 1) N ∧ n.2.2 = cur + N.length := by
    by_cases hneed : Spec.Few cfg K.length
    · have hN : N = Spec.started IL IR lr 0 (Spec.pick cfg IL (K.map Prod.fst) extL) := if_pos hneed
      have e : n = stereoNew IL IR lr 0 cur (Spec.pick cfg IL (K.map Prod.fst) extL) := by
        rw [hn, if_pos ((needStereo_iff _ _).2 (by rw [hpl]; exact hneed)), addNew_pick cfg IL hL extL occ ps h4, hps]
      have s1 := stereoNew_spec IL IR lr (Spec.pick cfg IL (K.map Prod.fst) extL) 0 cur
      obtain ⟨s2, s3, s4⟩ := stereoNew_started IL IR lr (Spec.pick cfg IL (K.map Prod.fst) extL) 0 cur
      rw [e, hN]
      exact ⟨s1.1, s1.2.1, s2, s3, s4⟩
    · have hN : N = [] := if_neg hneed
      have e : n = (([], []), ([], []), cur) := by
        rw [hn, if_neg (fun h => hneed (by rw [← hpl]; exact (needStereo_iff _ _).1 h))]
      rw [e, hN]
      exact ⟨rfl, rfl, rfl, rfl, rfl⟩
  clear_value n
  obtain ⟨n1, n2, n3, n4, n5⟩ := hnS
  have hLz : (ps ++ n.1.1).zip (is ++ n.1.2) = L := by rw [List.zip_append h2, hK, n3]
  have hLi : is ++ n.1.2 = L.map Prod.snd := by rw [← hLz, List.map_snd_zip (by simp [h2, n1])]
  obtain ⟨⟨qs, js, occ1⟩, g1, g2, g3, g4⟩ := prune_keep cfg IR hR (fun i => (is ++ n.1.2).contains i) (pr ++ n.2.1.1) (ir ++ n.2.1.2) [] [] (by simp [hr, n2]) (by simp)
  simp only [List.nil_append] at g2 g3 g4
  have hRz : qs.zip js = R := by
    rw [g3, List.zip_append hr, n4]
    simp only [List.contains_iff_mem, hLi]
    rfl
  have hqs : qs = R.map Prod.fst := by rw [← hRz, List.map_fst_zip (by omega)]
  have hql : qs.length = R.length := by rw [hqs, List.length_map]
  simp only [g1]
  have hM : (if needStereo cfg qs.length then addNew cfg IR occ1 extR else []) = M := by
    by_cases hneed : Spec.Few cfg R.length
    · rw [if_pos ((needStereo_iff _ _).2 (by rw [hql]; exact hneed)), addNew_pick cfg IR hR extR occ1 qs g4, hqs]
      exact (if_pos hneed).symm
    · rw [if_neg (fun h => hneed (by rw [← hql]; exact (needStereo_iff _ _).1 h))]
      exact (if_neg hneed).symm
  rw [hM]
  obtain ⟨d1, d2⟩ := drawIds_spec M.length n.2.2
  refine ⟨_, rfl, by simp [h2, n1], by simp [g2, d1], hLz, ?_, ?_⟩
  · simp only [d1]
    rw [List.zip_append g2, hRz, n5]
  · exact d2.trans (by rw [n5])

/-- non-vacuous: settings and image of the example -/
example : Spec.Sound exCfg exImg := ⟨by decide, by decide, by decide, by decide, by decide⟩

end Verif.Track
