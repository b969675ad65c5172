import Verif.Vio.Loop
import Verif.Vio.FrameLemmas

/-!
# Helper lemmas: the databases between images
-/

set_option autoImplicit false
set_option linter.unusedVariables false
open Classical

namespace Verif.Vio

open Verif Verif.Types Verif.St Verif.Imu Verif.Prop_ Verif.Feat Verif.Disp

variable {o : Opts} {db db' : DB ℝ Uv}

namespace Spec

/-- a database between images: the result of database operations, with observations of existing cameras; nothing is marked for deletion; a feature is seen at most once by a camera at one time, never after `ts`; the ids are in the tracker's range. -/
structure Tidy (o : Opts) (ts : ℝ) (range : ℕ → Prop) (db : DB ℝ Uv) : Prop where
  ok : DbOK o db
  live : ∀ id f, db.get? id = some f → f.toDelete = false
  incr : ∀ id cam, ((obs db id cam).map Prod.fst).Pairwise (· < ·)
  le : ∀ id cam, ∀ x ∈ obs db id cam, x.1 ≤ ts
  ids : ∀ id, (db.get? id).isSome → range id

/-- a measurement the database holds. -/
def InDb (db : DB ℝ Uv) (m : Meas) : Prop := ∃ x ∈ obs db m.1 m.2.1, x.1 = m.2.2

end Spec

/-- fewer measurements and features, the same cameras. -/
structure Shrinks (db db' : DB ℝ Uv) : Prop where
  obs : ∀ id cam, (Feat.obs db' id cam).Sublist (Feat.obs db id cam)
  feat : ∀ id f', db'.get? id = some f' → ∃ f, db.get? id = some f ∧ (f.toDelete = false → f'.toDelete = false) ∧ ∀ c ∈ f'.times.keys, c ∈ f.times.keys

theorem Shrinks.refl (db : DB ℝ Uv) : Shrinks db db := ⟨fun _ _ => List.Sublist.refl _, fun _ f h => ⟨f, h, id, fun _ h => h⟩⟩

theorem Shrinks.trans {db'' : DB ℝ Uv} (h : Shrinks db db') (h' : Shrinks db' db'') : Shrinks db db'' := by
  refine ⟨fun id cam => (h'.obs id cam).trans (h.obs id cam), fun id f hf => ?_⟩
  obtain ⟨g, g1, g2, g3⟩ := h'.feat id f hf
  obtain ⟨k, k1, k2, k3⟩ := h.feat id g g1
  exact ⟨k, k1, g2 ∘ k2, fun c hc => k3 c (g3 c hc)⟩

theorem dbOK_step {q : Feat.Op ℝ Uv} (h : Spec.DbOK o db) (hq : Feat.Op.run db q = some db') (hc : ∀ id f', db'.get? id = some f' → ∀ c ∈ f'.times.keys, c < o.numCams) : Spec.DbOK o db' := by
  obtain ⟨⟨hi, hh⟩, -⟩ := h
  have hr : (Hist.step hi q).run = some db' := by simp [Hist.run, hh, hq]
  refine ⟨⟨_, hr⟩, fun e he c hc' => ?_⟩
  obtain ⟨db1, e1, r⟩ := refines_hist (Hist.step hi q)
  rw [hr] at e1
  obtain rfl := Option.some.inj e1
  exact hc e.1 e.2 (AMap.get?_of_mem r.wf.nodup he) c hc'

theorem Spec.DbOK.cam (h : Spec.DbOK o db) {id : ℕ} {f : Feature ℝ Uv} (hf : db.get? id = some f) : ∀ c ∈ f.times.keys, c < o.numCams := h.2 _ (AMap.mem_of_get? hf)

theorem Spec.Tidy.shrinks {ts : ℝ} {range : ℕ → Prop} (h : Spec.Tidy o ts range db) (hs : Shrinks db db') (hd : Spec.DbOK o db') : Spec.Tidy o ts range db' := by
  refine ⟨hd, fun id f hf => ?_, fun id cam => (h.incr id cam).sublist ((hs.obs id cam).map _), fun id cam x hx => h.le id cam x ((hs.obs id cam).subset hx), fun id hi => ?_⟩
  · obtain ⟨g, g1, g2, -⟩ := hs.feat id f hf
    exact g2 (h.live id g g1)
  · obtain ⟨f, hf⟩ := Option.isSome_iff_exists.1 hi
    obtain ⟨g, g1, -⟩ := hs.feat id f hf
    exact h.ids id (by rw [g1]; rfl)

theorem Spec.DbOK.shrinks (h : Spec.DbOK o db) (hs : Shrinks db db') {q : Feat.Op ℝ Uv} (hq : Feat.Op.run db q = some db') : Spec.DbOK o db' :=
  dbOK_step h hq fun id f' hf c hc => by
    obtain ⟨g, g1, -, g3⟩ := hs.feat id f' hf
    exact h.cam g1 c (g3 c hc)

/-! ## operations that only remove -/

theorem shrinks_mark (id : ℕ) : (∀ i cam, obs (db.modify id fun f => { f with toDelete := true }) i cam = obs db i cam) ∧
    (∀ i, (AMap.get? (db.modify id fun f => { f with toDelete := true }) i) = (db.get? i).map fun f => if i = id then { f with toDelete := true } else f) := by
  have hg : ∀ i, (AMap.get? (db.modify id fun f => { f with toDelete := true }) i) = (db.get? i).map fun f => if i = id then { f with toDelete := true } else f := by
    intro i
    rw [AMap.get?_modify]
    by_cases h : i = id
    · subst h; simp
    · simp [h]
  refine ⟨fun i cam => ?_, hg⟩
  unfold obs
  rw [hg]
  cases db.get? i with
  | none => rfl
  | some f => by_cases h : i = id <;> simp [h, Feature.obs]

theorem cleanupLoop_cams (p : ℝ → Bool) : ∀ {db db' : DB ℝ Uv}, WF db → cleanupLoop (cleanWith p) db = some db' → ∀ id f', (id, f') ∈ db' → ∃ f, (id, f) ∈ db ∧ f'.toDelete = f.toDelete ∧ f'.times.keys = f.times.keys
  | [], db', _, h, id, f', hf => by
    simp only [cleanupLoop, Option.some.injEq] at h
    subst h; cases hf
  | e :: db, db', hw, h, id, f', hf => by
    have hn : e.1 ∉ AMap.keys db ∧ (AMap.keys db).Nodup := List.nodup_cons.1 hw.nodup
    have hwf : WF db := by
      refine ⟨hn.2, fun id f hf => hw.feat id f ?_⟩
      rw [AMap.get?_cons, if_neg]
      · exact hf
      · rintro rfl; exact hn.1 (AMap.mem_keys_iff.2 ⟨_, hf⟩)
    obtain ⟨hwe, -⟩ := hw.feat e.1 e.2 (by rw [AMap.get?_cons]; simp)
    obtain ⟨f1, e1, w1, i1, d1, k1, o1⟩ := cleanWith_spec p hwe
    simp only [cleanupLoop, e1, Option.bind_eq_bind, Option.bind_some, Option.bind_eq_some_iff] at h
    obtain ⟨db1, h1, h2⟩ := h
    have ih := cleanupLoop_cams p hwf h1
    split_ifs at h2 with hc
    · obtain rfl := Option.some.inj h2
      obtain ⟨f, f1, f2⟩ := ih id f' hf
      exact ⟨f, List.mem_cons_of_mem _ f1, f2⟩
    · obtain rfl := Option.some.inj h2
      rcases List.mem_cons.1 hf with h | h
      · cases h
        exact ⟨e.2, by simp, d1, k1⟩
      · obtain ⟨f, f1, f2⟩ := ih id f' h
        exact ⟨f, List.mem_cons_of_mem _ f1, f2⟩

theorem shrinks_cleanup (p : ℝ → Bool) (hw : WF db) (h : cleanupLoop (cleanWith p) db = some db') : Shrinks db db' ∧ ∀ id cam, obs db' id cam = (obs db id cam).filter fun x => !p x.1 := by
  obtain ⟨db1, e, w, g, sm, -⟩ := cleanupLoop_spec p hw
  rw [h] at e
  obtain rfl := Option.some.inj e
  have hobs : ∀ id cam, obs db' id cam = (obs db id cam).filter (fun x => !p x.1) := by
    intro id cam
    cases hg : db'.get? id with
    | none =>
      rcases (g id).1 hg with h1 | h1
      · simp [obs, hg, h1]
      · simp only [h1 cam]; simp [obs, hg]
    | some f' =>
      obtain ⟨f, hf, _, ho⟩ := sm id f' hg
      simp [obs, hg, hf, ho]
  refine ⟨⟨fun id cam => by rw [hobs]; exact List.filter_sublist, fun id f' hf => ?_⟩, hobs⟩
  obtain ⟨f, h1, h2, h3⟩ := cleanupLoop_cams p hw h id f' (AMap.mem_of_get? hf)
  exact ⟨f, AMap.get?_of_mem hw.nodup h1, fun h => h2.trans h, fun c hc => by rwa [h3] at hc⟩

theorem shrinks_filter (hw : WF db) (q : ℕ × Feature ℝ Uv → Bool) : Shrinks db (db.filter q) ∧ (∀ id f, (db.get? id = some f ∧ q (id, f) = true) ↔ AMap.get? (db.filter q) id = some f) := by
  have hg : ∀ id f, (db.get? id = some f ∧ q (id, f) = true) ↔ AMap.get? (db.filter q) id = some f := by
    intro id f
    rw [AMap.get?_filter hw.nodup]
    cases db.get? id with
    | none => simp
    | some g =>
      by_cases h : q (id, g) = true
      · simp [h]
      · simp [h]
  refine ⟨⟨fun id cam => ?_, fun id f hf => ⟨f, ((hg id f).2 hf).1, fun h => h, fun _ h => h⟩⟩, hg⟩
  unfold obs
  cases h : AMap.get? (db.filter q) id with
  | none => exact List.nil_sublist _
  | some f => rw [((hg id f).2 h).1]

/-! ## the end of a frame -/

/-- the operations at the end of a frame when no track is put back: marks, `cleanup`, and perhaps `cleanup_measurements`. -/
def endList (ids : List ℕ) (mt : Option ℝ) : List (Feat.Op ℝ Uv) := (ids.map fun i => .markDelete i) ++ [.cleanup] ++ (match mt with | some t => [.cleanupMeasurements t] | none => [])

theorem dbRun_append (l l' : List (Feat.Op ℝ Uv)) (db : DB ℝ Uv) : dbRun db (l ++ l') = (dbRun db l).bind fun d => dbRun d l' := by
  induction l generalizing db with
  | nil => rfl
  | cons q l ih =>
    simp only [List.cons_append, dbRun]
    cases Feat.Op.run db q with
    | none => rfl
    | some d => exact ih d

theorem dbRun_marks : ∀ (ids : List ℕ) (db : DB ℝ Uv), Spec.DbOK o db → ∃ db1, dbRun db (ids.map fun i => .markDelete i) = some db1 ∧ Spec.DbOK o db1 ∧ (∀ i cam, obs db1 i cam = obs db i cam) ∧
    ∀ i, db1.get? i = (db.get? i).map fun f => if i ∈ ids then { f with toDelete := true } else f
  | [], db, h => ⟨db, rfl, h, fun _ _ => rfl, fun i => by simp⟩
  | j :: ids, db, h => by
    obtain ⟨m1, m2⟩ := shrinks_mark (db := db) j
    have hd : Spec.DbOK o (db.modify j fun f => { f with toDelete := true }) := dbOK_step h (q := .markDelete j) rfl fun id f' hf c hc => by
      rw [m2, Option.map_eq_some_iff] at hf
      obtain ⟨f, hf, rfl⟩ := hf
      refine h.cam hf c ?_
      split_ifs at hc <;> exact hc
    obtain ⟨db1, k1, k2, k3, k4⟩ := dbRun_marks ids _ hd
    refine ⟨db1, ?_, k2, fun i cam => (k3 i cam).trans (m1 i cam), fun i => ?_⟩
    · simp only [List.map_cons, dbRun, Feat.Op.run, Option.bind_some, k1]
    · rw [k4, m2, Option.map_map]
      congr 1
      funext f
      by_cases h1 : i = j
      · subst h1; by_cases h2 : i ∈ ids <;> simp [h2]
      · by_cases h2 : i ∈ ids <;> simp [h1, h2]

/-- after the end of a frame: the marked features are gone, nothing else is added. -/
theorem endList_ok (ids : List ℕ) (mt : Option ℝ) (h : Spec.DbOK o db) (hl : ∀ id f, db.get? id = some f → f.toDelete = false) (hr : dbRun db (endList ids mt) = some db') :
    Shrinks db db' ∧ Spec.DbOK o db' ∧ (∀ i ∈ ids, db'.get? i = none) ∧ (∀ i ∈ ids, ∀ cam, obs db' i cam = []) ∧
      (∀ t, mt = some t → ∀ i cam, ∀ x ∈ obs db' i cam, t < x.1) ∧ ∀ i, i ∉ ids → ∀ cam, obs db' i cam = (obs db i cam).filter fun x => decide (∀ t, mt = some t → t < x.1) := by
  obtain ⟨db1, k1, k2, k3, k4⟩ := dbRun_marks (o := o) ids db h
  have h2 : Feat.Op.run db1 .cleanup = some (cleanup db1) := rfl
  obtain ⟨s1, s2⟩ := shrinks_filter k2.wf fun e => !e.2.toDelete
  have hd2 : Spec.DbOK o (cleanup db1) := k2.shrinks s1 h2
  have sh1 : Shrinks db (cleanup db1) := by
    refine ⟨fun i cam => by rw [← k3]; exact s1.obs i cam, fun i f' hf => ?_⟩
    obtain ⟨g1, g2⟩ := (s2 i f').2 hf
    rw [k4, Option.map_eq_some_iff] at g1
    obtain ⟨f, hf0, rfl⟩ := g1
    refine ⟨f, hf0, fun _ => by simpa using g2, fun c hc => ?_⟩
    split_ifs at hc <;> exact hc
  have hgone : ∀ i ∈ ids, AMap.get? (cleanup db1) i = none := by
    intro i hi
    rw [Option.eq_none_iff_forall_not_mem]
    intro f' hf
    obtain ⟨g1, g2⟩ := (s2 i f').2 hf
    rw [k4, Option.map_eq_some_iff] at g1
    obtain ⟨f, hf, rfl⟩ := g1
    simp [hi] at g2
  have hstay : ∀ i, i ∉ ids → ∀ cam, obs (cleanup db1) i cam = obs db i cam := by
    intro i hi cam
    unfold obs
    cases hg : db.get? i with
    | none =>
      cases hg' : AMap.get? (cleanup db1) i with
      | none => rfl
      | some f' =>
        obtain ⟨f, hf, -⟩ := sh1.feat i f' hg'
        rw [hg] at hf; cases hf
    | some f =>
      have := (s2 i f).1 ⟨by rw [k4, hg]; simp [hi], by simp [hl i f hg]⟩
      have e : AMap.get? (cleanup db1) i = some f := this
      rw [e]
  have hobs0 : ∀ {d : DB ℝ Uv} {i : ℕ}, d.get? i = none → ∀ cam, obs d i cam = [] := by
    intro d i hi cam; simp [obs, hi]
  unfold endList at hr
  rw [dbRun_append, dbRun_append, k1] at hr
  simp only [Option.bind_some, dbRun, h2] at hr
  cases mt with
  | none =>
    simp only [dbRun, Option.some.injEq] at hr
    subst hr
    exact ⟨sh1, hd2, hgone, fun i hi => hobs0 (hgone i hi), by simp, fun i hi cam => by simp [hstay i hi cam]⟩
  | some t =>
    simp only [dbRun, Feat.Op.run, cleanupMeasurements, Option.bind_eq_some_iff, Option.some.injEq] at hr
    obtain ⟨d, hd, rfl⟩ := hr
    obtain ⟨a1, a2⟩ := shrinks_cleanup _ hd2.wf hd
    have hnone : ∀ i ∈ ids, d.get? i = none := by
      intro i hi
      rw [Option.eq_none_iff_forall_not_mem]
      intro f' hf
      obtain ⟨f, hf, -⟩ := a1.feat i f' hf
      rw [hgone i hi] at hf; cases hf
    refine ⟨sh1.trans a1, hd2.shrinks a1 (q := .cleanupMeasurements t) hd, hnone, fun i hi => hobs0 (hnone i hi), ?_, fun i hi cam => ?_⟩
    · intro t' ht i cam x hx
      obtain rfl := Option.some.inj ht
      rw [a2] at hx
      simpa using (List.mem_filter.1 hx).2
    · rw [a2, hstay i hi cam]
      refine List.filter_congr fun x _ => ?_
      by_cases hx : x.1 ≤ t
      · simp [hx]
      · simp [hx, not_le.1 hx]

/-! ## tracking -/

theorem update_obs (h : WF db) (id : ℕ) (t : ℝ) (cam : ℕ) (u n : Uv) : (∀ i c, obs (updateFeature db id t cam u n) i c = obs db i c ++ if i = id ∧ c = cam then [(t, u, n)] else []) ∧
    (∀ i f', AMap.get? (updateFeature db id t cam u n) i = some f' → (i = id ∧ (∀ f, db.get? id = some f → f'.toDelete = f.toDelete) ∧ (db.get? id = none → f'.toDelete = false) ∧
      ∀ c ∈ f'.times.keys, c = cam ∨ ∃ f, db.get? id = some f ∧ c ∈ f.times.keys) ∨ (i ≠ id ∧ db.get? i = some f')) := by
  obtain ⟨f, hf, hwf, hobs, hcase⟩ : ∃ f : Feature ℝ Uv, updateFeature db id t cam u n = db.set id (f.pushObs cam t u n) ∧ WFF f ∧ (∀ c, f.obs c = obs db id c) ∧
      (db.get? id = some f ∨ (db.get? id = none ∧ f = Feature.fresh id)) := by
    unfold updateFeature
    cases hg : db.get? id with
    | some f => exact ⟨f, rfl, (h.feat _ _ hg).1, fun c => by simp [obs, hg], .inl rfl⟩
    | none => exact ⟨Feature.fresh id, rfl, WFF_fresh id, fun c => by simp [obs, hg, fresh_obs], .inr ⟨rfl, rfl⟩⟩
  obtain ⟨w1, o1⟩ := pushObs_spec hwf cam t u n
  rw [hf]
  refine ⟨fun i c => ?_, fun i f' hf' => ?_⟩
  · rw [obs_set]
    by_cases hi : i = id
    · subst hi
      rw [if_pos rfl, o1, hobs]
      by_cases hc : c = cam
      · simp [hc]
      · simp [hc]
    · simp [hi]
  · rw [AMap.get?_set] at hf'
    by_cases hi : i = id
    · rw [if_pos hi] at hf'
      obtain rfl := Option.some.inj hf'
      refine .inl ⟨hi, fun g hg => ?_, fun hn => ?_, fun c hc => ?_⟩
      · rcases hcase with h | ⟨h, -⟩
        · rw [h] at hg; obtain rfl := Option.some.inj hg; rfl
        · rw [h] at hg; cases hg
      · rcases hcase with h | ⟨-, rfl⟩
        · rw [h] at hn; cases hn
        · rfl
      · simp only [Feature.pushObs, AMap.push] at hc
        rw [AMap.keys_set] at hc
        have : c ∈ f.times.keys ∨ c = cam := by
          split_ifs at hc
          · exact .inl hc
          · rcases List.mem_append.1 hc with h | h
            · exact .inl h
            · exact .inr (List.mem_singleton.1 h)
        rcases this with h | h
        · rcases hcase with h' | ⟨-, rfl⟩
          · exact .inr ⟨f, h', h⟩
          · simp [Feature.fresh] at h
        · exact .inl h
    · rw [if_neg hi] at hf'
      exact .inr ⟨hi, hf'⟩

/-- what a tracker adds to a database in one image. -/
theorem trackAll_ok (t : ℝ) (range : ℕ → Prop) : ∀ (l : List Seen) (db : DB ℝ Uv), Spec.DbOK o db → (∀ id f, db.get? id = some f → f.toDelete = false) → (∀ id, (db.get? id).isSome → range id) →
    (∀ z ∈ l, z.2.1 < o.numCams ∧ range z.1) →
    Spec.DbOK o (trackAll db t l) ∧ (∀ id f, AMap.get? (trackAll db t l) id = some f → f.toDelete = false) ∧ (∀ id, (AMap.get? (trackAll db t l) id).isSome → range id) ∧
      ∀ i c, obs (trackAll db t l) i c = obs db i c ++ (l.filter fun z => decide (z.1 = i ∧ z.2.1 = c)).map fun z => (t, z.2.2.1, z.2.2.2)
  | [], db, h1, h2, h3, _ => ⟨h1, h2, h3, fun i c => by simp [trackAll]⟩
  | z :: l, db, h1, h2, h3, h4 => by
    obtain ⟨u1, u2⟩ := update_obs h1.wf z.1 t z.2.1 z.2.2.1 z.2.2.2
    have hz := h4 z (by simp)
    have d1 : Spec.DbOK o (updateFeature db z.1 t z.2.1 z.2.2.1 z.2.2.2) := dbOK_step h1 (q := .update z.1 t z.2.1 z.2.2.1 z.2.2.2) rfl fun id f' hf c hc => by
      rcases u2 id f' hf with ⟨-, -, -, h⟩ | ⟨-, h⟩
      · rcases h c hc with rfl | ⟨f, hf, h⟩
        · exact hz.1
        · exact h1.cam hf c h
      · exact h1.cam h c hc
    obtain ⟨k1, k2, k3, k4⟩ := trackAll_ok t range l _ d1 (fun id f hf => by
      rcases u2 id f hf with ⟨e, h, h', -⟩ | ⟨-, h⟩
      · cases hg : db.get? z.1 with
        | none => exact h' hg
        | some g => rw [h g hg]; exact h2 _ g hg
      · exact h2 _ f h) (fun id hi => by
      obtain ⟨f, hf⟩ := Option.isSome_iff_exists.1 hi
      rcases u2 id f hf with ⟨rfl, -⟩ | ⟨-, h⟩
      · exact hz.2
      · exact h3 _ (by rw [h]; rfl)) fun y hy => h4 y (by simp [hy])
    refine ⟨k1, k2, k3, fun i c => ?_⟩
    have e : trackAll db t (z :: l) = trackAll (updateFeature db z.1 t z.2.1 z.2.2.1 z.2.2.2) t l := rfl
    rw [e, k4, u1, List.append_assoc]
    congr 1
    by_cases h : z.1 = i ∧ z.2.1 = c
    · rw [if_pos ⟨h.1.symm, h.2.symm⟩, List.filter_cons_of_pos (by simpa using h)]; simp
    · rw [if_neg (fun h' => h ⟨h'.1.symm, h'.2.symm⟩), List.filter_cons_of_neg (by simpa using h)]; simp

/-- the database after tracking, when the trackers see each feature at most once per camera. -/
theorem Spec.Tidy.track {ts t : ℝ} {range : ℕ → Prop} (h : Spec.Tidy o ts range db) (ht : ts ≤ t) {l : List Seen} (hl : ∀ z ∈ l, z.2.1 < o.numCams ∧ range z.1) (hn : (l.map fun z => (z.1, z.2.1)).Nodup)
    (hnew : ∀ z ∈ l, ¬ Spec.InDb db (z.1, z.2.1, t)) :
    Spec.Tidy o t range (trackAll db t l) ∧ ∀ i c, ∀ x ∈ obs (trackAll db t l) i c, x ∈ obs db i c ∨ (x.1 = t ∧ ∃ z ∈ l, z.1 = i ∧ z.2.1 = c) := by
  obtain ⟨k1, k2, k3, k4⟩ := trackAll_ok t range l db h.ok h.live h.ids hl
  have hlen : ∀ i c, (l.filter fun z => decide (z.1 = i ∧ z.2.1 = c)).length ≤ 1 := by
    intro i c
    by_contra hc
    push Not at hc
    have hn' : ((l.filter fun z => decide (z.1 = i ∧ z.2.1 = c)).map fun z => (z.1, z.2.1)).Nodup := hn.sublist (List.filter_sublist.map _)
    have hm : ∀ y ∈ (l.filter fun z => decide (z.1 = i ∧ z.2.1 = c)).map fun z => (z.1, z.2.1), y = (i, c) := by
      intro y hy
      obtain ⟨z, hz, rfl⟩ := List.mem_map.1 hy
      have := (List.mem_filter.1 hz).2
      simp only [decide_eq_true_eq] at this
      rw [this.1, this.2]
    have h2 : (((l.filter fun z => decide (z.1 = i ∧ z.2.1 = c)).map fun z => (z.1, z.2.1)).toFinset).card ≤ 1 := by
      rw [Finset.card_le_one]
      intro a ha b hb
      rw [hm a (List.mem_toFinset.1 ha), hm b (List.mem_toFinset.1 hb)]
    rw [List.toFinset_card_of_nodup hn', List.length_map] at h2
    omega
  have hx : ∀ i c, ∀ x ∈ obs (trackAll db t l) i c, x ∈ obs db i c ∨ (x.1 = t ∧ ∃ z ∈ l, z.1 = i ∧ z.2.1 = c) := by
    intro i c x hx
    rw [k4] at hx
    rcases List.mem_append.1 hx with h | h
    · exact .inl h
    · obtain ⟨z, hz, rfl⟩ := List.mem_map.1 h
      have := List.mem_filter.1 hz
      exact .inr ⟨rfl, z, this.1, by simpa using this.2⟩
  refine ⟨⟨k1, k2, fun i c => ?_, fun i c x hx' => ?_, k3⟩, hx⟩
  · rw [k4, List.map_append, List.pairwise_append]
    refine ⟨h.incr i c, ?_, fun a ha b hb => ?_⟩
    · have := hlen i c
      generalize (l.filter fun z => decide (z.1 = i ∧ z.2.1 = c)) = L at *
      match L with
      | [] => simp
      | [z] => simp
      | y :: z :: r => simp at this
    · obtain ⟨x, hx', rfl⟩ := List.mem_map.1 ha
      rw [List.map_map] at hb
      obtain ⟨z, hz, rfl⟩ := List.mem_map.1 hb
      obtain ⟨z1, z2⟩ := List.mem_filter.1 hz
      simp only [decide_eq_true_eq] at z2
      refine lt_of_le_of_ne ((h.le i c x hx').trans ht) fun e => hnew z z1 ⟨x, ?_, e⟩
      simp only [z2.1, z2.2]; exact hx'
  · rcases hx i c x hx' with h' | h'
    · exact (h.le i c x h').trans ht
    · exact h'.1.le

theorem Spec.Tidy.sel {ts : ℝ} {range : ℕ → Prop} (h : Spec.Tidy o ts range db) : Spec.Db db := by
  exact ⟨h.ok.1, fun id cam => (h.incr id cam).imp le_of_lt⟩

/-! ## measurements of tracks -/

theorem mem_measOf {s : State} {f : Feature ℝ Uv} (hf : db.get? f.featid = some f) (hw : WF db) {m : Meas} (hm : m ∈ measOf ((toTrack f).clean s)) :
    m.1 = f.featid ∧ m.2.2 ∈ s.clones.map Prod.fst ∧ Spec.InDb db m := by
  simp only [measOf, Upd.Track.clean, toTrack, List.mem_flatMap, List.mem_map] at hm
  obtain ⟨c, ⟨c0, ⟨e, he, rfl⟩, rfl⟩, y, hy, rfl⟩ := hm
  obtain ⟨h1, h2⟩ := List.mem_filter.1 hy
  simp only [decide_eq_true_eq] at h2
  refine ⟨rfl, List.mem_map.2 h2, ?_⟩
  obtain ⟨z, hz, rfl⟩ := List.mem_map.1 h1
  have hz1 := (List.of_mem_zip hz).1
  have hwf := (hw.feat _ _ hf).1
  have he' : f.times.getL e.1 = e.2 := by rw [AMap.getL, AMap.get?_of_mem hwf.nodup he]; rfl
  have := hwf.obs_times e.1
  rw [he'] at this
  rw [← this] at hz1
  obtain ⟨x, hx, hx'⟩ := List.mem_map.1 hz1
  exact ⟨x, by simp only [obs, hf]; exact hx, hx'⟩

theorem measOf_nodup {s : State} {f : Feature ℝ Uv} {ts : ℝ} {range : ℕ → Prop} (h : Spec.Tidy o ts range db) (hf : db.get? f.featid = some f) : (measOf ((toTrack f).clean s)).Nodup := by
  have hwf := (h.ok.wf.feat _ _ hf).1
  simp only [measOf, Upd.Track.clean, toTrack, List.flatMap_map]
  rw [List.nodup_flatMap]
  refine ⟨fun e he => ?_, ?_⟩
  · have he' : f.times.getL e.1 = e.2 := by rw [AMap.getL, AMap.get?_of_mem hwf.nodup he]; rfl
    have hi := h.incr f.featid e.1
    simp only [obs, hf] at hi
    rw [hwf.obs_times, he'] at hi
    have h1 : (((e.2.zip (f.uvs.getL e.1)).map fun m => (m.1, ![m.2.1, m.2.2])).map Prod.fst).Sublist e.2 := by
      rw [List.map_map]
      have : (Prod.fst ∘ fun m : ℝ × Uv => (m.1, ![m.2.1, m.2.2])) = Prod.fst := rfl
      rw [this, List.map_fst_zip (by rw [hwf.len1, he'])]
    have h2 : (((e.2.zip (f.uvs.getL e.1)).map fun m => (m.1, ![m.2.1, m.2.2])).filter fun m => decide (m.1 ∈ s.clones.map Prod.fst)).Pairwise fun a b => a.1 < b.1 := by
      have h3 := hi.sublist h1
      rw [List.pairwise_map] at h3
      exact h3.sublist List.filter_sublist
    unfold List.Nodup
    rw [List.pairwise_map]
    exact h2.imp fun {a b} hab hh => by
      simp only [Prod.mk.injEq, true_and] at hh
      exact absurd hh hab.ne
  · have : f.times.Pairwise fun a b => a.1 ≠ b.1 := List.pairwise_map.1 hwf.nodup
    refine this.imp fun {a b} hab => ?_
    intro m h1 h2
    obtain ⟨x, -, rfl⟩ := List.mem_map.1 h1
    obtain ⟨y, -, h⟩ := List.mem_map.1 h2
    simp only [Prod.mk.injEq, true_and] at h
    exact hab h.1.symm

end Verif.Vio
