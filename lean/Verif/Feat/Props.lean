import Verif.Feat.Lemmas
import Mathlib.Order.Nat

/-!
# Property theorems: feature database (C14 – C18, C67)

`h : Hist T U` ranges over every finite history of database operations (including appending another
database with its own history).
-/

namespace Verif.Feat

open Verif AMap

variable {T U : Type} [LinearOrder T]

/-- **C14** For every history the database operations never abort (no failed size assertion, no missing key),
and for every stored feature and camera the three per-camera lists have the same length and the
three maps have the same cameras. -/
theorem C14_tracks_aligned (h : Hist T U) :
    ∃ db, h.run = some db ∧ ∀ id f, db.get? id = some f → ∀ cam,
      (f.uvs.getL cam).length = (f.times.getL cam).length ∧
      (f.uvsNorm.getL cam).length = (f.times.getL cam).length ∧
      (cam ∈ f.uvs.keys ↔ cam ∈ f.times.keys) ∧ (cam ∈ f.uvsNorm.keys ↔ cam ∈ f.times.keys) := by
  obtain ⟨db, e, r⟩ := refines_hist h
  refine ⟨db, e, fun id f hf cam => ?_⟩
  have w := (r.wf.feat _ _ hf).1
  exact ⟨w.len1 cam, w.len2 cam, by rw [w.kuvs], by rw [w.knorm]⟩

/-- **C15** After every history the stored observations of each feature and camera are exactly those of the
abstract observation log (same entries, same order, i-th time with its own pixel), the ids
present are exactly the log's, stored under their own id, and the delete flags agree. -/
theorem C15_database_is_observation_log (h : Hist T U) :
    ∃ db, h.run = some db ∧
      (∀ id cam, obs db id cam = logObs (Spec.hist h).log id cam) ∧
      (∀ id, (db.get? id).isSome = (Spec.hist h).present id) ∧
      (∀ id f, db.get? id = some f → f.featid = id ∧ f.toDelete = (Spec.hist h).flagged id) ∧
      (AMap.keys db).Nodup := by
  obtain ⟨db, e, r⟩ := refines_hist h
  refine ⟨db, e, r.obs, r.present, fun id f hf => ⟨(r.wf.feat _ _ hf).2, ?_⟩, r.wf.nodup⟩
  rw [← r.flagged, hf]; rfl

/-- all tracks of the database are in time order (what trackers fed with increasing image times produce) -/
def Spec.TimeOrdered (db : DB T U) : Prop :=
  ∀ id cam, ((obs db id cam).map Prod.fst).Pairwise (· ≤ ·)

/-- What a query must do: return exactly the stored, not skipped features satisfying `P`, each once; and
with `remove` exactly those are gone afterwards, otherwise nothing changes. -/
def Spec.QueryOk (db : DB T U) (remove skipDeleted : Bool) (P : Nat → Prop)
    (res : List (Feature T U) × DB T U) : Prop :=
  (∀ f, f ∈ res.1 ↔ ∃ id, db.get? id = some f ∧ ¬(skipDeleted ∧ f.toDelete) ∧ P id) ∧
  (res.1.map Feature.featid).Nodup ∧
  (remove = false → res.2 = db) ∧
  (remove = true → ∀ id, res.2.get? id =
    (db.get? id).filter (fun f => !((res.1.map Feature.featid).contains f.featid)))

omit [LinearOrder T] in
theorem queryOk_of {db : DB T U} (h : WF db) (hit : Feature T U → Bool) (P : Nat → Prop)
    (hp : ∀ id f, db.get? id = some f → (hit f = true ↔ P id)) (r sk : Bool) :
    Spec.QueryOk db r sk P (queryLoop hit r sk db) := by
  have h1 : ∀ f, f ∈ (queryLoop hit r sk db).1 ↔ ∃ id, db.get? id = some f ∧ ¬(sk ∧ f.toDelete) ∧ P id := by
    intro f
    rw [queryLoop_fst, List.mem_map]
    constructor
    · rintro ⟨⟨id, g⟩, hg, rfl⟩
      rw [List.mem_filter] at hg
      have hd := get?_of_mem h.nodup hg.1
      refine ⟨id, hd, ?_⟩
      have h2 := hg.2
      simp only [Bool.and_eq_true, Bool.not_eq_true', Bool.and_eq_false_imp] at h2
      refine ⟨fun hh => ?_, (hp _ _ hd).1 h2.2⟩
      rw [h2.1 hh.1] at hh; simp at hh
    · rintro ⟨id, hd, hs, hP⟩
      refine ⟨(id, f), List.mem_filter.2 ⟨mem_of_get? hd, ?_⟩, rfl⟩
      simp only [Bool.and_eq_true, Bool.not_eq_true', Bool.and_eq_false_imp]
      refine ⟨fun h3 => ?_, (hp _ _ hd).2 hP⟩
      by_contra h4
      exact hs ⟨h3, by simpa using h4⟩
  refine ⟨h1, ?_, fun hr => ?_, fun hr id => ?_⟩
  · rw [queryLoop_fst, List.map_map]
    have hmap : ∀ (p : Nat × Feature T U → Bool),
        List.map (Feature.featid ∘ Prod.snd) (db.filter p) = AMap.keys (db.filter p) := by
      intro p
      unfold AMap.keys
      apply List.map_congr_left
      intro e he
      exact (h.feat e.1 e.2 (get?_of_mem h.nodup (List.mem_filter.1 he).1)).2
    rw [hmap]; exact nodup_filter h.nodup _
  · rw [queryLoop_snd, hr]; simp
  · rw [queryLoop_snd, get?_filter h.nodup]
    cases hd : db.get? id with
    | none => rfl
    | some f =>
      have hfid := (h.feat _ _ hd).2
      have : (List.contains (List.map Feature.featid (queryLoop hit r sk db).1) f.featid) = true ↔
          (!(sk && f.toDelete) && hit f) = true := by
        rw [List.contains_iff_mem, List.mem_map]
        constructor
        · rintro ⟨g, hg, hgi⟩
          obtain ⟨i, hi, hs, hP⟩ := (h1 g).1 hg
          have : i = id := by rw [← (h.feat _ _ hi).2, hgi, hfid]
          subst this
          rw [hd] at hi; cases hi
          simp only [Bool.and_eq_true, Bool.not_eq_true', Bool.and_eq_false_imp]
          refine ⟨fun h3 => ?_, (hp _ _ hd).2 hP⟩
          by_contra h4
          exact hs ⟨h3, by simpa using h4⟩
        · intro hh
          simp only [Bool.and_eq_true, Bool.not_eq_true', Bool.and_eq_false_imp] at hh
          refine ⟨f, (h1 f).2 ⟨id, hd, fun h3 => ?_, (hp _ _ hd).1 hh.2⟩, rfl⟩
          rw [hh.1 h3.1] at h3; simp at h3
      simp only [Option.filter_some, hr, Bool.true_and]
      rw [← Bool.eq_iff_iff] at this
      rw [← this, hr]

/-- **C16a** `features_not_containing_newer(t)` returns exactly the features all of whose observations are
strictly older than `t`. -/
theorem C16_features_not_containing_newer (h : Hist T U) (db : DB T U) (hdb : h.run = some db)
    (ho : Spec.TimeOrdered db) (t : T) (remove skipDeleted : Bool) :
    Spec.QueryOk db remove skipDeleted (fun id => ∀ cam, ∀ x ∈ obs db id cam, x.1 < t)
      (featuresNotContainingNewer db t remove skipDeleted) := by
  obtain ⟨db', e, r⟩ := refines_hist h
  rw [hdb] at e; cases e
  refine queryOk_of r.wf _ _ (fun id f hf => ?_) _ _
  have hw := (r.wf.feat _ _ hf).1
  rw [Bool.not_eq_true', ← Bool.not_eq_true]
  have := any_times hw (fun l => match l.getLast? with | some l => decide (t ≤ l) | none => false) rfl
  rw [show (hasNewer t f = true) ↔ _ from this, not_exists]
  refine forall_congr' fun cam => ?_
  have hs := ho id cam
  have hob : obs db id cam = f.obs cam := by simp [obs, hf]
  rw [hob, hw.obs_times] at hs
  rw [hob]
  have hx : (∀ x ∈ f.obs cam, x.1 < t) ↔ ∀ y ∈ f.times.getL cam, y < t := by
    rw [← hw.obs_times]; simp
  rw [hx]
  cases hl : (f.times.getL cam).getLast? with
  | none => rw [List.getLast?_eq_none_iff] at hl; simp [hl]
  | some l =>
    simp only [decide_eq_true_eq, not_le]
    rw [List.getLast?_eq_some_iff] at hl
    obtain ⟨ys, hys⟩ := hl
    rw [hys] at hs ⊢
    constructor
    · intro hlt y hy
      rcases List.mem_append.1 hy with hy | hy
      · exact lt_of_le_of_lt ((List.pairwise_append.1 hs).2.2 y hy l (by simp)) hlt
      · rw [List.mem_singleton] at hy; rw [hy]; exact hlt
    · intro hall; exact hall l (by simp)

/-- **C16b** `features_containing_older(t)` returns exactly the features with some observation strictly
older than `t`. -/
theorem C16_features_containing_older (h : Hist T U) (db : DB T U) (hdb : h.run = some db)
    (ho : Spec.TimeOrdered db) (t : T) (remove skipDeleted : Bool) :
    Spec.QueryOk db remove skipDeleted (fun id => ∃ cam, ∃ x ∈ obs db id cam, x.1 < t)
      (featuresContainingOlder db t remove skipDeleted) := by
  obtain ⟨db', e, r⟩ := refines_hist h
  rw [hdb] at e; cases e
  refine queryOk_of r.wf _ _ (fun id f hf => ?_) _ _
  have hw := (r.wf.feat _ _ hf).1
  have := any_times hw (fun l => match l.head? with | some l => decide (l < t) | none => false) rfl
  rw [show (hasOlder t f = true) ↔ _ from this]
  refine exists_congr fun cam => ?_
  have hs := ho id cam
  have hob : obs db id cam = f.obs cam := by simp [obs, hf]
  rw [hob, hw.obs_times] at hs
  rw [hob]
  have hx : (∃ x ∈ f.obs cam, x.1 < t) ↔ ∃ y ∈ f.times.getL cam, y < t := by
    rw [← hw.obs_times]; simp
  rw [hx]
  cases hl : f.times.getL cam with
  | nil => simp
  | cons l ys =>
    rw [hl] at hs
    simp only [List.head?_cons, decide_eq_true_eq]
    constructor
    · intro hlt; exact ⟨l, by simp, hlt⟩
    · rintro ⟨y, hy, hlt⟩
      rcases List.mem_cons.1 hy with hy | hy
      · rw [← hy]; exact hlt
      · exact lt_of_le_of_lt ((List.pairwise_cons.1 hs).1 y hy) hlt

/-- **C16c** `features_containing(t)` returns exactly the features with an observation at time `t`
(no time order needed). -/
theorem C16_features_containing (h : Hist T U) (db : DB T U) (hdb : h.run = some db)
    (t : T) (remove skipDeleted : Bool) :
    Spec.QueryOk db remove skipDeleted (fun id => ∃ cam, ∃ x ∈ obs db id cam, x.1 = t)
      (featuresContaining db t remove skipDeleted) := by
  obtain ⟨db', e, r⟩ := refines_hist h
  rw [hdb] at e; cases e
  refine queryOk_of r.wf _ _ (fun id f hf => ?_) _ _
  have hw := (r.wf.feat _ _ hf).1
  rw [show (hasTime t f = true) ↔ _ from any_times hw (fun l => l.contains t) rfl]
  refine exists_congr fun cam => ?_
  have hob : obs db id cam = f.obs cam := by simp [obs, hf]
  rw [hob, List.contains_iff_mem, ← hw.obs_times, List.mem_map]

/-- **C17a** `cleanup_measurements(t)` never aborts, leaves exactly the observations with time `> t`, in their
order, and drops exactly the features without any observation left. -/
theorem C17_cleanup_measurements (h : Hist T U) (db : DB T U) (hdb : h.run = some db) (t : T) :
    ∃ db', cleanupMeasurements db t = some db' ∧
      (∀ id cam, obs db' id cam = (obs db id cam).filter (fun x => t < x.1)) ∧
      (∀ id, (db'.get? id).isSome ↔ (db.get? id).isSome ∧ ∃ cam, ∃ x ∈ obs db id cam, t < x.1) := by
  obtain ⟨db0, e, r⟩ := refines_hist h
  rw [hdb] at e; cases e
  obtain ⟨db', e, w, g, sm, _⟩ := cleanupLoop_spec (fun x => decide (x ≤ t)) r.wf
  have hfil : ∀ l : List (T × U × U), (l.filter fun x => !decide (x.1 ≤ t)) = l.filter (fun x => decide (t < x.1)) := by
    intro l; apply List.filter_congr; intro x _; rw [Bool.eq_iff_iff]; simp
  simp only [hfil] at g sm
  refine ⟨db', e, fun id cam => ?_, fun id => ?_⟩
  · cases hg : db'.get? id with
    | none =>
      rcases (g id).1 hg with h1 | h1
      · simp [obs, hg, h1]
      · rw [h1 cam]; simp [obs, hg]
    | some f' =>
      obtain ⟨f, hf, _, ho⟩ := sm id f' hg
      simp only [obs, hg, hf]; exact ho cam
  · rw [Option.isSome_iff_ne_none, Option.isSome_iff_ne_none, ne_eq, g id, not_or]
    refine and_congr_right fun _ => ?_
    rw [not_forall]
    refine exists_congr fun cam => ?_
    rw [List.filter_eq_nil_iff]; simp

/-- **C17b** `cleanup_measurements_exact(t)` never aborts and removes exactly the observations at time `t`. -/
theorem C17_cleanup_measurements_exact (h : Hist T U) (db : DB T U) (hdb : h.run = some db) (t : T) :
    ∃ db', cleanupMeasurementsExact db t = some db' ∧
      (∀ id cam, obs db' id cam = (obs db id cam).filter (fun x => x.1 ≠ t)) ∧
      (∀ id, (db'.get? id).isSome ↔ (db.get? id).isSome ∧ ∃ cam, ∃ x ∈ obs db id cam, x.1 ≠ t) := by
  obtain ⟨db0, e, r⟩ := refines_hist h
  rw [hdb] at e; cases e
  obtain ⟨db', e, w, g, sm, _⟩ := cleanupLoop_spec (fun x => [t].contains x) r.wf
  have hfil : ∀ l : List (T × U × U), (l.filter fun x => !([t].contains x.1)) = l.filter (fun x => decide (x.1 ≠ t)) := by
    intro l; apply List.filter_congr; intro x _; rw [Bool.eq_iff_iff]; simp
  simp only [hfil] at g sm
  refine ⟨db', e, fun id cam => ?_, fun id => ?_⟩
  · cases hg : db'.get? id with
    | none =>
      rcases (g id).1 hg with h1 | h1
      · simp [obs, hg, h1]
      · rw [h1 cam]; simp [obs, hg]
    | some f' =>
      obtain ⟨f, hf, _, ho⟩ := sm id f' hg
      simp only [obs, hg, hf]; exact ho cam
  · rw [Option.isSome_iff_ne_none, Option.isSome_iff_ne_none, ne_eq, g id, not_or]
    refine and_congr_right fun _ => ?_
    rw [not_forall]
    refine exists_congr fun cam => ?_
    rw [List.filter_eq_nil_iff]; simp

/-- **C17c** `Feature::clean_old_measurements(valid)` on a stored feature keeps exactly the observations at the
valid times; `clean_invalid_measurements(invalid)` drops exactly those at the invalid times. -/
theorem C17_clean_feature (h : Hist T U) (db : DB T U) (hdb : h.run = some db) (id : Nat) (f : Feature T U)
    (hf : db.get? id = some f) (times : List T) :
    (∃ f', cleanOld times f = some f' ∧ ∀ cam, f'.obs cam = (f.obs cam).filter (fun x => x.1 ∈ times)) ∧
    (∃ f', cleanInvalid times f = some f' ∧ ∀ cam, f'.obs cam = (f.obs cam).filter (fun x => x.1 ∉ times)) := by
  obtain ⟨db0, e, r⟩ := refines_hist h
  rw [hdb] at e; cases e
  have hw := (r.wf.feat _ _ hf).1
  obtain ⟨f1, e1, _, _, _, _, o1⟩ := cleanWith_spec (fun t => !(times.contains t)) hw
  obtain ⟨f2, e2, _, _, _, _, o2⟩ := cleanWith_spec (fun t => times.contains t) hw
  refine ⟨⟨f1, e1, fun cam => ?_⟩, ⟨f2, e2, fun cam => ?_⟩⟩
  · rw [o1]; apply List.filter_congr; intro x _; rw [Bool.eq_iff_iff]; simp
  · rw [o2]; apply List.filter_congr; intro x _; rw [Bool.eq_iff_iff]; simp

/-- **C18** `append_new_measurements` never aborts; each track becomes the old track followed by the other
database's observations at times the old track lacks; if no track had a repeated time none has one
afterwards; appending the same database again changes nothing. -/
theorem C18_append (h h' : Hist T U) (db other : DB T U) (hdb : h.run = some db) (ho : h'.run = some other) :
    ∃ r, appendNew db other = some r ∧
      (∀ id cam, obs r id cam = obs db id cam ++
        (obs other id cam).filter (fun x => x.1 ∉ (obs db id cam).map Prod.fst)) ∧
      (∀ id, (r.get? id).isSome ↔ (db.get? id).isSome ∨ (other.get? id).isSome) ∧
      ((∀ id cam, ((obs db id cam).map Prod.fst).Nodup) → (∀ id cam, ((obs other id cam).map Prod.fst).Nodup) →
        ∀ id cam, ((obs r id cam).map Prod.fst).Nodup) ∧
      ∃ r2, appendNew r other = some r2 ∧ (∀ id cam, obs r2 id cam = obs r id cam) ∧
        (∀ id, (r2.get? id).isSome = (r.get? id).isSome) := by
  obtain ⟨db0, e, r⟩ := refines_hist h
  rw [hdb] at e; cases e
  obtain ⟨other0, e, r'⟩ := refines_hist h'
  rw [ho] at e; cases e
  obtain ⟨res, e, w, hob, hp, _⟩ := appendNew_spec r.wf r'.wf
  obtain ⟨res2, e2, w2, hob2, hp2, _⟩ := appendNew_spec w r'.wf
  have hap : ∀ x y : List (T × U × U), appendObs x y = x ++ y.filter (fun o => decide (o.1 ∉ x.map Prod.fst)) := by
    intro x y; unfold appendObs; congr 1; apply List.filter_congr; intro o _; rw [Bool.eq_iff_iff]; simp
  refine ⟨res, e, fun id cam => by rw [hob, hap], fun id => by rw [hp]; simp, ?_, res2, e2, fun id cam => ?_, fun id => ?_⟩
  · intro n1 n2 id cam
    rw [hob, hap, List.map_append, List.nodup_append]
    refine ⟨n1 id cam, (n2 id cam).sublist (List.Sublist.map _ List.filter_sublist), ?_⟩
    intro a ha b hb hab
    subst hab
    obtain ⟨x, hx, rfl⟩ := List.mem_map.1 hb
    rw [List.mem_filter] at hx
    simpa using absurd ha (by simpa using hx.2)
  · rw [hob2, hap, List.filter_eq_nil_iff.2]
    · simp
    · intro x hx
      simp only [decide_eq_true_eq, not_not]
      rw [hob, hap, List.map_append, List.mem_append]
      by_cases hm : x.1 ∈ (obs db id cam).map Prod.fst
      · left; exact hm
      · right; exact List.mem_map.2 ⟨x, List.mem_filter.2 ⟨hx, by simpa using hm⟩, rfl⟩
  · rw [hp2, hp]; cases (db.get? id).isSome <;> cases (other.get? id).isSome <;> rfl

/-- **C67** If the sentinel (the code's `-1`) is not itself a stored time, `get_oldest_timestamp` returns the sentinel
exactly when no observation is stored, and otherwise (for time-ordered tracks) the smallest stored time. -/
theorem C67_oldest_timestamp (h : Hist T U) (db : DB T U) (hdb : h.run = some db)
    (ho : Spec.TimeOrdered db) (m1 : T) (hm : ∀ id cam, ∀ x ∈ obs db id cam, x.1 ≠ m1) :
    ((∀ id cam, obs db id cam = []) → getOldestTimestamp m1 db = m1) ∧
    ((∃ id cam, obs db id cam ≠ []) →
      (∃ id cam, ∃ x ∈ obs db id cam, x.1 = getOldestTimestamp m1 db) ∧
      ∀ id cam, ∀ x ∈ obs db id cam, getOldestTimestamp m1 db ≤ x.1) := by
  obtain ⟨db0, e, r⟩ := refines_hist h
  rw [hdb] at e; cases e
  have hh : ∀ x ∈ heads db, ∃ id cam, ∃ y ∈ obs db id cam, y.1 = x := by
    intro x hx
    obtain ⟨id, cam, hx⟩ := (mem_heads r.wf x).1 hx
    exact ⟨id, cam, by
      have := List.mem_of_head? hx
      obtain ⟨y, hy, he⟩ := List.mem_map.1 this
      exact ⟨y, hy, he⟩⟩
  have hne : ∀ x ∈ heads db, x ≠ m1 := by
    intro x hx
    obtain ⟨id, cam, y, hy, rfl⟩ := hh x hx
    exact hm id cam y hy
  have key := foldl_min m1 (heads db) hne m1
  rw [getOldest_eq]
  constructor
  · intro hall
    have : heads db = [] := by
      rw [List.eq_nil_iff_forall_not_mem]
      intro x hx
      obtain ⟨id, cam, y, hy, _⟩ := hh x hx
      rw [hall] at hy; simp at hy
    rw [this]; rfl
  · rintro ⟨id, cam, hne'⟩
    obtain ⟨x0, l, hl⟩ := List.exists_cons_of_ne_nil hne'
    have hx0 : x0.1 ∈ heads db := (mem_heads r.wf _).2 ⟨id, cam, by rw [hl]; rfl⟩
    rcases key with ⟨h0, _⟩ | ⟨_, hle, _, hin⟩
    · rw [h0] at hx0; simp at hx0
    · constructor
      · exact hh _ (hin.resolve_right (by simp))
      · intro id cam x hx
        have hs := ho id cam
        cases hl : obs db id cam with
        | nil => rw [hl] at hx; simp at hx
        | cons y l =>
          rw [hl] at hx hs
          have hy : y.1 ∈ heads db := (mem_heads r.wf _).2 ⟨id, cam, by rw [hl]; rfl⟩
          rcases List.mem_cons.1 hx with hx | hx
          · rw [hx]; exact hle _ hy
          · exact (hle _ hy).trans ((List.pairwise_cons.1 hs).1 x.1 (List.mem_map.2 ⟨x, hx, rfl⟩))

/-! ### Non-vacuity: a concrete history -/

/-- two features, two cameras, a deletion mark and a partial cleanup -/
def exHist : Hist Nat String :=
  .step (.step (.step (.step (.step (.step (.step .empty
    (.update 7 1 0 "a" "A")) (.update 7 2 0 "b" "B")) (.update 9 1 1 "c" "C")) (.update 7 2 1 "d" "D"))
    (.markDelete 9)) (.cleanupMeasurements 1)) (.update 5 3 0 "e" "E")

example : (exHist.run.map fun db => (obs db 7 0, obs db 7 1, obs db 9 1, obs db 5 0)) =
    some ([(2, "b", "B")], [(2, "d", "D")], [], [(3, "e", "E")]) := by rfl

-- the hypotheses of the C16/C17/C67 theorems hold for this history: the tracks are time ordered
example : ∃ db, exHist.run = some db ∧ Spec.TimeOrdered db ∧ (∃ id cam, obs db id cam ≠ []) ∧
    (∀ id cam, ∀ x ∈ obs db id cam, x.1 ≠ 0) := by
  obtain ⟨db, e, hobs, _⟩ := C15_database_is_observation_log exHist
  have hl : (Spec.hist exHist).log = [⟨7, 0, 2, "b", "B"⟩, ⟨7, 1, 2, "d", "D"⟩, ⟨5, 0, 3, "e", "E"⟩] := by decide
  refine ⟨db, e, fun id cam => ?_, ⟨7, 0, ?_⟩, fun id cam x hx => ?_⟩
  · rw [hobs, hl]
    by_cases h7 : 7 = id <;> by_cases h5 : 5 = id <;> by_cases h0 : 0 = cam <;> by_cases h1 : 1 = cam <;>
      simp [logObs, Spec.track, h7, h5, h0, h1]
  · rw [hobs, hl]; decide
  · rw [hobs, hl] at hx
    simp only [logObs, Spec.track, List.mem_map, List.mem_filter] at hx
    obtain ⟨o, ⟨ho, _⟩, rfl⟩ := hx
    simp at ho; rcases ho with rfl | rfl | rfl <;> simp

-- the queries and the append on it
example : (exHist.run.map fun db => (featuresNotContainingNewer db 3 true false).1.map Feature.featid) = some [7] := by
  decide
example : ((do appendNew (← exHist.run) [(7, ⟨7, false, [(0, ["x", "y"])], [(0, ["X", "Y"])], [(0, [2, 4])]⟩)]).map
    fun db => obs db 7 0) = some [(2, "b", "B"), (4, "y", "Y")] := by decide

end Verif.Feat
