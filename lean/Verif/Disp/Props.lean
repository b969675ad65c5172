import Verif.Disp.Model
import Verif.Feat.Props
import Mathlib.Tactic

/-!
# C65: disparity statistics
-/

open Classical

namespace Verif.Disp

open Verif Verif.Feat AMap

namespace Spec

/-- Euclidean distance of two pixels -/
noncomputable def pixDist (u v : Uv) : ℝ := Real.sqrt ((v.1 - u.1) ^ 2 + (v.2 - u.2) ^ 2)

/-- the pixel at which a list of observations has the feature at time `t` (the first such observation) -/
noncomputable def pixelAt (os : List (ℝ × Uv × Uv)) (t : ℝ) : Uv := ((os.find? fun o => o.1 = t).map fun o => o.2.1).getD (0, 0)

/-- the observations inside the open window; `-1` disables a bound -/
noncomputable def inWindow (newest oldest : ℝ) (os : List (ℝ × Uv × Uv)) : List (ℝ × Uv × Uv) :=
  os.filter fun o => (oldest = -1 ∨ oldest < o.1) ∧ (newest = -1 ∨ o.1 < newest)

/-- pixel displacement between the first and last observation of a list -/
noncomputable def firstLast (os : List (ℝ × Uv × Uv)) : ℝ :=
  pixDist ((os.head?.map fun o => o.2.1).getD (0, 0)) ((os.getLast?.map fun o => o.2.1).getD (0, 0))

/-- The reported numbers are mean, sample standard deviation and count of the values. -/
def Reports (s : Stats) (ds : List ℝ) : Prop :=
  s.total = ds.length ∧ s.mean = some (ds.sum / ds.length) ∧
    s.var = some (Real.sqrt ((ds.map fun d => (d - ds.sum / ds.length) ^ 2).sum / ((ds.length : ℝ) - 1)))

end Spec

theorem dist_eq (u v : Uv) : dist u v = Spec.pixDist v u := rfl

theorem catM_some {α β : Type} {g : α → Option (List β)} {h : α → List β} (l : List α) (hg : ∀ x ∈ l, g x = some (h x)) :
    catM g l = some (l.flatMap h) := by
  induction l with
  | nil => rfl
  | cons a l ih =>
    rw [catM, hg a (by simp), ih fun x hx => hg x (by simp [hx])]
    rfl

theorem getElem_idxOf {us : List Uv} {ns : List Uv} {ts : List ℝ} (h : us.length = ts.length) (h' : ns.length = ts.length) {t : ℝ} (ht : t ∈ ts) :
    us[ts.idxOf t]? = some (Spec.pixelAt (ts.zip (us.zip ns)) t) := by
  induction ts generalizing us ns with
  | nil => simp at ht
  | cons a ts ih =>
    cases us with
    | nil => simp at h
    | cons u us =>
      cases ns with
      | nil => simp at h'
      | cons n ns =>
        by_cases hat : a = t
        · subst hat; simp [Spec.pixelAt]
        · rw [List.idxOf_cons_ne _ hat]
          have := ih (us := us) (ns := ns) (by simpa using h) (by simpa using h') (by simpa [Ne.symm hat] using ht)
          simp [Spec.pixelAt, hat] at this ⊢
          exact this

theorem get?_getL {α : Type} {m : AMap (List α)} {k : Nat} (h : k ∈ m.keys) : m.get? k = some (m.getL k) := by
  obtain ⟨v, hv⟩ := mem_keys_iff.1 h
  rw [hv, getL_of_get? hv]

/-- both times occur in a list of observations -/
def Both (os : List (ℝ × Uv × Uv)) (t0 t1 : ℝ) : Prop := (∃ o ∈ os, o.1 = t0) ∧ (∃ o ∈ os, o.1 = t1)

theorem camDisp_eq {f : Feature ℝ Uv} (h : WFF f) (t0 t1 : ℝ) {cp : Nat × List ℝ} (hc : cp ∈ f.times) :
    camDisp f t0 t1 cp = some (if Both (f.obs cp.1) t0 t1 then
      [dist (Spec.pixelAt (f.obs cp.1) t1) (Spec.pixelAt (f.obs cp.1) t0)] else []) := by
  have hk : cp.1 ∈ f.times.keys := List.mem_map.2 ⟨cp, hc, rfl⟩
  have hl : f.times.getL cp.1 = cp.2 := getL_of_get? (get?_of_mem h.nodup hc)
  have hmem : ∀ t, (∃ o ∈ f.obs cp.1, o.1 = t) ↔ t ∈ cp.2 := by
    intro t; rw [← hl, ← h.obs_times, List.mem_map]
  have hu : f.uvs.get? cp.1 = some (f.uvs.getL cp.1) := get?_getL (by rw [h.kuvs]; exact hk)
  have hB : Both (f.obs cp.1) t0 t1 ↔ t0 ∈ cp.2 ∧ t1 ∈ cp.2 := by rw [Both, hmem, hmem]
  rw [camDisp]
  by_cases hc2 : t0 ∈ cp.2 ∧ t1 ∈ cp.2
  · rw [if_pos hc2, if_pos (hB.2 hc2), hu]
    have l1 := h.len1 cp.1
    have l2 := h.len2 cp.1
    rw [hl] at l1 l2
    have e0 := getElem_idxOf l1 l2 hc2.1
    have e1 := getElem_idxOf l1 l2 hc2.2
    simp only [Option.bind_eq_bind, Option.bind_some, e0, e1, Option.pure_def]
    rw [Feature.obs, hl]
  · rw [if_neg hc2, if_neg (fun hb => hc2 (hB.1 hb))]

/-- The pairs (feature id, camera) a list of features contributes. -/
theorem pairs_nodup {fs : List (Feature ℝ Uv)} (hid : (fs.map Feature.featid).Nodup) (hw : ∀ f ∈ fs, f.times.keys.Nodup) (c : Feature ℝ Uv → Nat → Prop) :
    (fs.flatMap fun f => (f.times.keys.filter fun k => c f k).map fun k => (f.featid, k)).Nodup := by
  rw [List.nodup_flatMap]
  constructor
  · intro f hf
    exact ((hw f hf).filter _).map (fun a b h => by simpa using h)
  · have : fs.Pairwise fun a b => a.featid ≠ b.featid := by
      rw [List.Nodup, List.pairwise_map] at hid; exact hid
    refine this.imp fun {a b} hab => ?_
    rw [Function.onFun, List.disjoint_left]
    intro p hp hq
    simp only [List.mem_map] at hp hq
    obtain ⟨k, _, rfl⟩ := hp
    obtain ⟨k', _, h⟩ := hq
    exact hab (by simpa using (congrArg Prod.fst h).symm)

theorem stats_reports {ds : List ℝ} (h : 2 ≤ ds.length) : Spec.Reports (stats ds) ds := by
  refine ⟨rfl, ?_, ?_⟩
  · simp only [stats]; rw [if_neg (by omega)]
  · simp only [stats]; rw [if_neg (by omega), if_neg (by omega)]

theorem flatMap_if {α : Type} (l : List α) (c : α → Prop) (v : α → ℝ) : (l.flatMap fun a => if c a then [v a] else []) = (l.filter fun a => c a).map v := by
  induction l with
  | nil => rfl
  | cons a l ih => by_cases h : c a <;> simp [List.flatMap_cons, h, ih]

/-- **C65** After any database history, the two-image disparity never aborts; when at least two (feature, camera) pairs saw both images it reports the
mean, sample standard deviation and number of the pixel displacements, one for each feature not marked for deletion and camera that observed it at both times,
and for no other. -/
theorem C65_two_images_partial (h : Hist ℝ Uv) (db : DB ℝ Uv) (hdb : h.run = some db) (t0 t1 : ℝ) :
    ∃ (s : Stats) (es : List (Nat × Nat)), computeDisparity db t0 t1 = some s ∧ es.Nodup ∧
      (∀ id cam, (id, cam) ∈ es ↔ (∃ f, db.get? id = some f ∧ f.toDelete = false) ∧ (∃ o ∈ obs db id cam, o.1 = t0) ∧ (∃ o ∈ obs db id cam, o.1 = t1)) ∧
      (2 ≤ es.length → Spec.Reports s (es.map fun e => Spec.pixDist (Spec.pixelAt (obs db e.1 e.2) t0) (Spec.pixelAt (obs db e.1 e.2) t1))) ∧
      s.total = es.length := by
  obtain ⟨db', e, r⟩ := refines_hist h
  rw [hdb] at e; cases e
  obtain ⟨q1, q2, -⟩ := C16_features_containing h db hdb t0 false true
  set fs := (featuresContaining db t0 false true).1 with hfs
  have hfw : ∀ f ∈ fs, WFF f ∧ db.get? f.featid = some f ∧ f.toDelete = false := by
    intro f hf
    obtain ⟨id, hg, hd, _⟩ := (q1 f).1 hf
    obtain ⟨w, i⟩ := r.wf.feat id f hg
    exact ⟨w, by rw [i]; exact hg, by simpa using hd⟩
  have hobs : ∀ f ∈ fs, ∀ c, f.obs c = obs db f.featid c := by
    intro f hf c; simp [obs, (hfw f hf).2.1]
  let C : Feature ℝ Uv → Nat → Prop := fun f k => Both (f.obs k) t0 t1
  let es := fs.flatMap fun f => (f.times.keys.filter fun k => C f k).map fun k => (f.featid, k)
  let V : Nat × Nat → ℝ := fun e => Spec.pixDist (Spec.pixelAt (obs db e.1 e.2) t0) (Spec.pixelAt (obs db e.1 e.2) t1)
  have hds : disparities db t0 t1 = some (es.map V) := by
    have h1 : ∀ f ∈ fs, catM (camDisp f t0 t1) f.times =
        some (((f.times.keys.filter fun k => C f k).map fun k => (f.featid, k)).map V) := by
      intro f hf
      rw [catM_some f.times fun cp hcp => camDisp_eq (hfw f hf).1 t0 t1 hcp]
      congr 1
      have e1 := flatMap_if f.times (fun cp : Nat × List ℝ => C f cp.1) (fun cp => dist (Spec.pixelAt (f.obs cp.1) t1) (Spec.pixelAt (f.obs cp.1) t0))
      refine e1.trans ?_
      rw [AMap.keys, List.filter_map, List.map_map, List.map_map]
      apply List.map_congr_left
      intro cp _
      simp only [V, Function.comp, hobs f hf, dist_eq]
    rw [disparities, catM_some fs h1]
    congr 1
    simp only [es, List.map_flatMap]
  refine ⟨stats (es.map V), es, by rw [computeDisparity, hds]; rfl, ?_, ?_, ?_, ?_⟩
  · exact pairs_nodup q2 (fun f hf => (hfw f hf).1.nodup) C
  · intro id cam
    simp only [es, List.mem_flatMap, List.mem_map, List.mem_filter, decide_eq_true_eq]
    constructor
    · rintro ⟨f, hf, k, ⟨hk, hC⟩, heq⟩
      obtain ⟨rfl, rfl⟩ := Prod.mk.injEq .. ▸ heq
      refine ⟨⟨f, (hfw f hf).2.1, (hfw f hf).2.2⟩, ?_⟩
      rw [← hobs f hf]; exact hC
    · rintro ⟨⟨f, hg, hd⟩, h0, h1⟩
      obtain ⟨w, i⟩ := r.wf.feat id f hg
      have hf : f ∈ fs := (q1 f).2 ⟨id, hg, by simp [hd], cam, h0⟩
      have ho : obs db id cam = f.obs cam := by simp [obs, hg]
      refine ⟨f, hf, cam, ⟨?_, by rw [ho] at h0 h1; exact ⟨h0, h1⟩⟩, by rw [i]⟩
      by_contra hc
      rw [ho, obs_nil_of_not_mem hc] at h0
      simp at h0
  · intro hl
    exact stats_reports (by simpa using hl)
  · simp [stats]

/-- the displacement loop on a sorted track: first and last observation of the window, if there are two. -/
theorem winLoop_found (newest oldest : ℝ) (l : List (ℝ × Uv)) (u0 : Uv) (u1 : Option Uv) :
    winLoop newest oldest l (some u0, u1) =
      (some u0, (((l.filter fun p => newest = -1 ∨ p.1 < newest).getLast?).map Prod.snd).or u1) := by
  induction l generalizing u1 with
  | nil => simp [winLoop]
  | cons p l ih =>
    obtain ⟨t, u⟩ := p
    rw [winLoop, if_neg (by simp)]
    by_cases hn : newest = -1 ∨ t < newest
    · rw [if_pos ⟨hn, by simp⟩, ih, List.filter_cons_of_pos (by simpa using hn)]
      cases hq : l.filter fun p => decide (newest = -1 ∨ p.1 < newest) with
      | nil => simp
      | cons a b =>
        obtain ⟨z, hz⟩ : ∃ z, (a :: b).getLast? = some z := ⟨_, List.getLast?_eq_some_getLast (by simp)⟩
        rw [List.getLast?_cons_cons, hz]; simp
    · rw [if_neg (by tauto), ih, List.filter_cons_of_neg (by simpa using hn)]

theorem winLoop_none (newest oldest : ℝ) (l : List (ℝ × Uv)) (hs : (l.map Prod.fst).Pairwise (· < ·)) :
    winLoop newest oldest l (none, none) =
      match (l.filter fun p => oldest = -1 ∨ oldest < p.1) with
      | [] => (none, none)
      | a :: rest => (some a.2, ((rest.filter fun p => newest = -1 ∨ p.1 < newest).getLast?).map Prod.snd) := by
  induction l with
  | nil => rfl
  | cons p l ih =>
    obtain ⟨t, u⟩ := p
    rw [List.map_cons, List.pairwise_cons] at hs
    rw [winLoop]
    by_cases ho : oldest = -1 ∨ t > oldest
    · rw [if_pos ⟨ho, rfl⟩, winLoop_found, List.filter_cons_of_pos (by simpa using ho)]
      have : (l.filter fun p => decide (oldest = -1 ∨ oldest < p.1)) = l := by
        rw [List.filter_eq_self]
        intro a ha
        simp only [decide_eq_true_eq]
        rcases ho with h | h
        · exact Or.inl h
        · exact Or.inr (lt_trans h (hs.1 a.1 (List.mem_map.2 ⟨a, ha, rfl⟩)))
      rw [this, Option.or_none]
    · rw [if_neg (by tauto), if_neg (by simp), ih hs.2, List.filter_cons_of_neg (by simpa using ho)]

/-- the window observations of a sorted track when a first admissible one exists -/
theorem window_eq (newest oldest : ℝ) (l : List (ℝ × Uv)) (hs : (l.map Prod.fst).Pairwise (· < ·)) :
    (match winLoop newest oldest l (none, none) with
      | (some u0, some u1) => [dist u1 u0]
      | _ => ([] : List ℝ)) =
    if 2 ≤ (l.filter fun o => (oldest = -1 ∨ oldest < o.1) ∧ (newest = -1 ∨ o.1 < newest)).length then
      [dist ((((l.filter fun o => (oldest = -1 ∨ oldest < o.1) ∧ (newest = -1 ∨ o.1 < newest)).getLast?).map Prod.snd).getD (0, 0))
        ((((l.filter fun o => (oldest = -1 ∨ oldest < o.1) ∧ (newest = -1 ∨ o.1 < newest)).head?).map Prod.snd).getD (0, 0))] else [] := by
  rw [winLoop_none _ _ _ hs]
  have hf : (l.filter fun o => decide ((oldest = -1 ∨ oldest < o.1) ∧ (newest = -1 ∨ o.1 < newest))) =
      ((l.filter fun p => decide (oldest = -1 ∨ oldest < p.1)).filter fun p => decide (newest = -1 ∨ p.1 < newest)) := by
    rw [List.filter_filter]; congr 1; funext o; simp [and_comm]
  rw [hf]
  have hs' : ((l.filter fun p => decide (oldest = -1 ∨ oldest < p.1)).map Prod.fst).Pairwise (· < ·) := by
    exact hs.sublist (List.Sublist.map _ List.filter_sublist)
  generalize (l.filter fun p => decide (oldest = -1 ∨ oldest < p.1)) = m at hs'
  cases m with
  | nil => simp
  | cons a rest =>
    simp only
    rw [List.map_cons, List.pairwise_cons] at hs'
    by_cases hn : newest = -1 ∨ a.1 < newest
    · rw [List.filter_cons_of_pos (by simpa using hn)]
      cases hq : rest.filter fun p => decide (newest = -1 ∨ p.1 < newest) with
      | nil => simp
      | cons b c =>
        obtain ⟨z, hz⟩ : ∃ z, (b :: c).getLast? = some z := ⟨_, List.getLast?_eq_some_getLast (by simp)⟩
        simp [List.getLast?_cons_cons, hz]
    · have hr : (rest.filter fun p => decide (newest = -1 ∨ p.1 < newest)) = [] := by
        rw [List.filter_eq_nil_iff]
        intro p hp
        simp only [decide_eq_true_eq]
        push Not at hn ⊢
        exact ⟨hn.1, hn.2.trans (hs'.1 p.1 (List.mem_map.2 ⟨p, hp, rfl⟩)).le⟩
      rw [List.filter_cons_of_neg (by simpa using hn), hr]
      simp

/-- at least two observations inside the window -/
def Two (newest oldest : ℝ) (os : List (ℝ × Uv × Uv)) : Prop := 2 ≤ (Spec.inWindow newest oldest os).length

theorem camWin_eq {f : Feature ℝ Uv} (h : WFF f) (newest oldest : ℝ) {cp : Nat × List ℝ} (hc : cp ∈ f.times) (hs : ((f.obs cp.1).map Prod.fst).Pairwise (· < ·)) :
    camWin f newest oldest cp = some (if Two newest oldest (f.obs cp.1) then [Spec.firstLast (Spec.inWindow newest oldest (f.obs cp.1))] else []) := by
  have hk : cp.1 ∈ f.times.keys := List.mem_map.2 ⟨cp, hc, rfl⟩
  have hl : f.times.getL cp.1 = cp.2 := getL_of_get? (get?_of_mem h.nodup hc)
  have hu : f.uvs.get? cp.1 = some (f.uvs.getL cp.1) := get?_getL (by rw [h.kuvs]; exact hk)
  have l1 := h.len1 cp.1
  have l2 := h.len2 cp.1
  rw [hl] at l1 l2
  have hz : (f.obs cp.1).map (fun o => (o.1, o.2.1)) = cp.2.zip (f.uvs.getL cp.1) := by
    rw [Feature.obs, hl]
    generalize f.uvs.getL cp.1 = us at l1
    generalize f.uvsNorm.getL cp.1 = ns at l2
    generalize cp.2 = ts at l1 l2
    clear hs hu hl hk hc
    induction ts generalizing us ns with
    | nil => simp
    | cons a ts ih =>
      cases us with
      | nil => simp at l1
      | cons u us =>
        cases ns with
        | nil => simp at l2
        | cons n ns => simp [ih us ns (by simpa using l1) (by simpa using l2)]
  have hs' : ((cp.2.zip (f.uvs.getL cp.1)).map Prod.fst).Pairwise (· < ·) := by
    rw [← hz, List.map_map]; exact hs
  have hw := window_eq newest oldest _ hs'
  rw [← hz] at hw
  have hfm : ((f.obs cp.1).map fun o => (o.1, o.2.1)).filter (fun o => decide ((oldest = -1 ∨ oldest < o.1) ∧ (newest = -1 ∨ o.1 < newest))) =
      (Spec.inWindow newest oldest (f.obs cp.1)).map fun o => (o.1, o.2.1) := by
    rw [Spec.inWindow, List.filter_map]; rfl
  rw [hfm] at hw
  rw [camWin]
  by_cases h2 : cp.2.length < 2
  · rw [if_pos h2, if_neg]
    have : (Spec.inWindow newest oldest (f.obs cp.1)).length ≤ (f.obs cp.1).length := List.length_filter_le _ _
    have h3 : (f.obs cp.1).length = cp.2.length := by rw [← hl, ← h.obs_times, List.length_map]
    rw [Two]
    omega
  · rw [if_neg h2, hu]
    simp only [Option.bind_eq_bind, Option.bind_some]
    rw [if_neg (by omega), ← hz]
    have hb : ∀ x : Option Uv × Option Uv, (match x with | (some u0, some u1) => some [dist u1 u0] | _ => some ([] : List ℝ)) =
        some (match x with | (some u0, some u1) => [dist u1 u0] | _ => []) := by
      rintro ⟨_ | _, _ | _⟩ <;> rfl
    refine (hb _).trans ?_
    rw [hw]
    congr 1
    simp only [List.length_map, List.getLast?_map, List.head?_map, Option.map_map, Spec.firstLast]
    by_cases h5 : Two newest oldest (f.obs cp.1)
    · rw [if_pos h5]; rw [Two] at h5; rw [if_pos h5]; rfl
    · rw [if_neg h5]; rw [Two] at h5; rw [if_neg h5]

/-- **C65** After any history with strictly time-ordered tracks, the windowed disparity never aborts; with at least two contributing tracks it reports mean, sample
standard deviation and number of the displacements between the first and the last observation inside the open time window, one for each (feature, camera) with two or
more observations inside it. -/
theorem C65_window_partial (h : Hist ℝ Uv) (db : DB ℝ Uv) (hdb : h.run = some db) (hs : ∀ id cam, ((obs db id cam).map Prod.fst).Pairwise (· < ·))
    (newest oldest : ℝ) :
    ∃ (s : Stats) (es : List (Nat × Nat)), computeDisparityWin db newest oldest = some s ∧ es.Nodup ∧
      (∀ id cam, (id, cam) ∈ es ↔ 2 ≤ (Spec.inWindow newest oldest (obs db id cam)).length) ∧
      (2 ≤ es.length → Spec.Reports s (es.map fun e => Spec.firstLast (Spec.inWindow newest oldest (obs db e.1 e.2)))) ∧ s.total = es.length := by
  obtain ⟨db', e, r⟩ := refines_hist h
  rw [hdb] at e; cases e
  have hfw : ∀ e ∈ db, WFF e.2 ∧ db.get? e.1 = some e.2 ∧ e.2.featid = e.1 := by
    intro e he
    have hg := get?_of_mem (m := db) r.wf.nodup (k := e.1) (v := e.2) he
    obtain ⟨w, i⟩ := r.wf.feat _ _ hg
    exact ⟨w, hg, i⟩
  have hobs : ∀ e ∈ db, ∀ c, e.2.obs c = obs db e.2.featid c := by
    intro f hf c; rw [(hfw f hf).2.2]; simp [obs, (hfw f hf).2.1]
  let C : Feature ℝ Uv → Nat → Prop := fun f k => Two newest oldest (f.obs k)
  let fs : List (Feature ℝ Uv) := List.map Prod.snd db
  let es := fs.flatMap fun f => (f.times.keys.filter fun k => C f k).map fun k => (f.featid, k)
  let V : Nat × Nat → ℝ := fun e => Spec.firstLast (Spec.inWindow newest oldest (obs db e.1 e.2))
  have hds : disparitiesWin db newest oldest = some (es.map V) := by
    have h1 : ∀ e ∈ db, catM (camWin e.2 newest oldest) e.2.times =
        some (((e.2.times.keys.filter fun k => C e.2 k).map fun k => (e.2.featid, k)).map V) := by
      intro f hf
      rw [catM_some f.2.times fun cp hcp => camWin_eq (hfw f hf).1 newest oldest hcp (by rw [hobs f hf]; exact hs _ _)]
      congr 1
      have e1 := flatMap_if f.2.times (fun cp : Nat × List ℝ => C f.2 cp.1) (fun cp => Spec.firstLast (Spec.inWindow newest oldest (f.2.obs cp.1)))
      refine e1.trans ?_
      rw [AMap.keys, List.filter_map, List.map_map, List.map_map]
      apply List.map_congr_left
      intro cp _
      simp only [V, Function.comp, hobs f hf, dist_eq]
    rw [disparitiesWin, catM_some db h1]
    congr 1
    simp only [es, fs, List.map_flatMap, List.flatMap_map]
  refine ⟨stats (es.map V), es, by rw [computeDisparityWin, hds]; rfl, ?_, ?_, fun hl => stats_reports (by simpa using hl), by simp [stats]⟩
  · refine pairs_nodup (fs := fs) ?_ ?_ C
    · have : fs.map Feature.featid = AMap.keys db := by
        simp only [fs, List.map_map, AMap.keys]
        exact List.map_congr_left fun e he => (hfw e he).2.2
      rw [this]; exact r.wf.nodup
    · intro f hf
      obtain ⟨e, he, rfl⟩ := List.mem_map.1 hf
      exact (hfw e he).1.nodup
  · intro id cam
    simp only [es, fs, List.mem_flatMap, List.mem_map, List.mem_filter, decide_eq_true_eq]
    constructor
    · rintro ⟨f, ⟨e, he, rfl⟩, k, ⟨hk, hC⟩, heq⟩
      obtain ⟨rfl, rfl⟩ := Prod.mk.injEq .. ▸ heq
      rw [← hobs e he]; exact hC
    · intro h2
      cases hg : db.get? id with
      | none => simp [obs, hg, Spec.inWindow] at h2
      | some f =>
        obtain ⟨w, i⟩ := r.wf.feat id f hg
        have ho : obs db id cam = f.obs cam := by simp [obs, hg]
        rw [ho] at h2
        refine ⟨f, ⟨(id, f), mem_of_get? hg, rfl⟩, cam, ⟨?_, h2⟩, by rw [i]⟩
        by_contra hc
        rw [obs_nil_of_not_mem hc] at h2
        simp [Spec.inWindow] at h2

/-- **C65, negation of the degenerate case**: with exactly one common (feature, camera) pair the code does not report `-1, -1, 0`: it reports that single displacement
as the mean and a count of one. -/
theorem C65_degenerate_falls_through : ∃ (h : Hist ℝ Uv) (db : DB ℝ Uv) (s : Stats), h.run = some db ∧ computeDisparity db 1 2 = some s ∧
    s.total = 1 ∧ s.mean = some 5 ∧ s.var = none := by
  refine ⟨.step (.step .empty (.update 7 1 0 (0, 0) (0, 0))) (.update 7 2 0 (3, 4) (0, 0)), [(7, ⟨7, false, [(0, [(0, 0), (3, 4)])], [(0, [(0, 0), (0, 0)])], [(0, [1, 2])]⟩)], stats [5], ?_, ?_, ?_⟩
  · simp [Hist.run, Op.run, updateFeature, AMap.get?, AMap.set, Feature.pushObs, Feature.fresh, AMap.push, AMap.getL, AMap.modify, AMap.keys]
  · have hd : dist (3, 4) (0, 0) = 5 := by
      rw [dist]; norm_num
    simp [computeDisparity, disparities, featuresContaining, queryLoop, hasTime, catM, camDisp, AMap.get?, hd]
  · simp [stats]

/-- a history with two common features, satisfying the hypotheses of both theorems (strictly ordered tracks, two contributing pairs) -/
example : ∃ (h : Hist ℝ Uv) (db : DB ℝ Uv), h.run = some db ∧ (∀ id cam, ((obs db id cam).map Prod.fst).Pairwise (· < ·)) ∧
    (∀ id ∈ [7, 9], (∃ o ∈ obs db id 0, o.1 = 1) ∧ (∃ o ∈ obs db id 0, o.1 = 2) ∧ 2 ≤ (Spec.inWindow 3 0.5 (obs db id 0)).length) := by
  refine ⟨.step (.step (.step (.step .empty (.update 7 1 0 (0, 0) (0, 0))) (.update 7 2 0 (3, 4) (0, 0))) (.update 9 1 0 (1, 1) (0, 0))) (.update 9 2 0 (3, 4) (0, 0)),
    [(7, ⟨7, false, [(0, [(0, 0), (3, 4)])], [(0, [(0, 0), (0, 0)])], [(0, [1, 2])]⟩), (9, ⟨9, false, [(0, [(1, 1), (3, 4)])], [(0, [(0, 0), (0, 0)])], [(0, [1, 2])]⟩)], ?_, ?_, ?_⟩
  · simp [Hist.run, Op.run, updateFeature, AMap.get?, AMap.set, Feature.pushObs, Feature.fresh, AMap.push, AMap.getL, AMap.modify, AMap.keys]
  · intro id cam
    by_cases h7 : 7 = id <;> by_cases h9 : 9 = id <;> by_cases h0 : 0 = cam <;> simp [obs, AMap.get?, Feature.obs, AMap.getL, h7, h9, h0]
  · intro id hid
    simp only [List.mem_cons, List.not_mem_nil, or_false] at hid
    rcases hid with rfl | rfl <;> refine ⟨?_, ?_, ?_⟩ <;> norm_num [obs, AMap.get?, Feature.obs, AMap.getL, Spec.inWindow]

end Verif.Disp
