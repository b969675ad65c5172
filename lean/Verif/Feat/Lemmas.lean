import Verif.Feat.Spec

/-! Helper lemmas for the feature database model. -/

namespace Verif.Feat

open Verif AMap

variable {T U : Type}

/-- well-formed feature -/
structure WFF (f : Feature T U) : Prop where
  nodup : f.times.keys.Nodup
  kuvs : f.uvs.keys = f.times.keys
  knorm : f.uvsNorm.keys = f.times.keys
  len1 : ∀ cam, (f.uvs.getL cam).length = (f.times.getL cam).length
  len2 : ∀ cam, (f.uvsNorm.getL cam).length = (f.times.getL cam).length

/-- well-formed database -/
structure WF (db : DB T U) : Prop where
  nodup : AMap.keys db |>.Nodup
  feat : ∀ id f, db.get? id = some f → WFF f ∧ f.featid = id

theorem zip3_map_fst {a : List T} {b c : List U} (h1 : b.length = a.length) (h2 : c.length = a.length) :
    (a.zip (b.zip c)).map Prod.fst = a := by
  rw [List.map_fst_zip]; simp [h1, h2]

theorem WFF.obs_times {f : Feature T U} (h : WFF f) (cam : Nat) :
    (f.obs cam).map Prod.fst = f.times.getL cam := zip3_map_fst (h.len1 cam) (h.len2 cam)

theorem eraseLoop_spec (p : T → Bool) (ts : List T) (us ns : List U)
    (h1 : us.length = ts.length) (h2 : ns.length = ts.length) :
    ∃ a b c, eraseLoop p ts us ns = some (a, b, c) ∧ b.length = a.length ∧ c.length = a.length ∧
      a.zip (b.zip c) = (ts.zip (us.zip ns)).filter (fun x => !p x.1) := by
  induction ts generalizing us ns with
  | nil =>
    cases us <;> cases ns <;> simp_all [eraseLoop]
  | cons t ts ih =>
    cases us with
    | nil => simp at h1
    | cons u us =>
      cases ns with
      | nil => simp at h2
      | cons n ns =>
        obtain ⟨a, b, c, he, hl1, hl2, hz⟩ := ih us ns (by simpa using h1) (by simpa using h2)
        by_cases hp : p t
        · exact ⟨a, b, c, by simp [eraseLoop, he, hp], hl1, hl2, by simp [hp, hz]⟩
        · exact ⟨t :: a, u :: b, n :: c, by simp [eraseLoop, he, hp], by simp [hl1], by simp [hl2],
            by simp [hp, hz]⟩

theorem set_keys_of_mem {α : Type} {m : AMap α} {k : Nat} (h : k ∈ m.keys) (v : α) :
    (m.set k v).keys = m.keys := by rw [keys_set, if_pos h]

theorem cleanCam_spec (p : T → Bool) {f : Feature T U} (h : WFF f) {cam : Nat} (hc : cam ∈ f.times.keys) :
    ∃ f', cleanCam p f cam = some f' ∧ WFF f' ∧ f'.featid = f.featid ∧ f'.toDelete = f.toDelete ∧
      f'.times.keys = f.times.keys ∧
      ∀ c, f'.obs c = if c = cam then (f.obs c).filter (fun x => !p x.1) else f.obs c := by
  obtain ⟨a, b, c, he, hl1, hl2, hz⟩ := eraseLoop_spec p _ _ _ (h.len1 cam) (h.len2 cam)
  refine ⟨{ f with times := f.times.set cam a, uvs := f.uvs.set cam b, uvsNorm := f.uvsNorm.set cam c },
    by simp [cleanCam, he], ?_, rfl, rfl, set_keys_of_mem hc _, ?_⟩
  · constructor
    · exact nodup_set h.nodup _ _
    · show (f.uvs.set cam b).keys = (f.times.set cam a).keys
      rw [set_keys_of_mem hc, set_keys_of_mem (by rw [h.kuvs]; exact hc), h.kuvs]
    · show (f.uvsNorm.set cam c).keys = (f.times.set cam a).keys
      rw [set_keys_of_mem hc, set_keys_of_mem (by rw [h.knorm]; exact hc), h.knorm]
    · intro k
      show ((f.uvs.set cam b).getL k).length = ((f.times.set cam a).getL k).length
      rw [getL_set, getL_set]; split
      · exact hl1
      · exact h.len1 k
    · intro k
      show ((f.uvsNorm.set cam c).getL k).length = ((f.times.set cam a).getL k).length
      rw [getL_set, getL_set]; split
      · exact hl2
      · exact h.len2 k
  · intro k
    show ((f.times.set cam a).getL k).zip (((f.uvs.set cam b).getL k).zip ((f.uvsNorm.set cam c).getL k)) = _
    rw [getL_set, getL_set, getL_set]; split
    · rename_i hk; subst hk; exact hz
    · rfl

theorem foldl_clean_spec (p : T → Bool) (cams : List Nat) (f : Feature T U) (h : WFF f)
    (hc : ∀ c ∈ cams, c ∈ f.times.keys) :
    ∃ f', cams.foldlM (cleanCam p) f = some f' ∧ WFF f' ∧ f'.featid = f.featid ∧
      f'.toDelete = f.toDelete ∧ f'.times.keys = f.times.keys ∧
      ∀ c, f'.obs c = if c ∈ cams then (f.obs c).filter (fun x => !p x.1) else f.obs c := by
  induction cams generalizing f with
  | nil => exact ⟨f, rfl, h, rfl, rfl, rfl, by simp⟩
  | cons k cams ih =>
    obtain ⟨f1, e1, w1, i1, d1, k1, o1⟩ := cleanCam_spec p h (hc k (by simp))
    obtain ⟨f2, e2, w2, i2, d2, k2, o2⟩ := ih f1 w1 (fun c hcm => by rw [k1]; exact hc c (by simp [hcm]))
    refine ⟨f2, ?_, w2, i2.trans i1, d2.trans d1, k2.trans k1, ?_⟩
    · rw [List.foldlM_cons, e1]; exact e2
    · intro c
      rw [o2, o1]
      by_cases h1 : c = k
      · subst h1; by_cases h2 : c ∈ cams <;> simp [h2]
      · by_cases h2 : c ∈ cams <;> simp [h1, h2]

theorem obs_nil_of_not_mem {f : Feature T U} {c : Nat} (hc : c ∉ f.times.keys) : f.obs c = [] := by
  have : f.times.getL c = [] := by unfold getL; rw [get?_eq_none.2 hc]; rfl
  simp [Feature.obs, this]

theorem cleanWith_spec (p : T → Bool) {f : Feature T U} (h : WFF f) :
    ∃ f', cleanWith p f = some f' ∧ WFF f' ∧ f'.featid = f.featid ∧ f'.toDelete = f.toDelete ∧
      f'.times.keys = f.times.keys ∧ ∀ c, f'.obs c = (f.obs c).filter (fun x => !p x.1) := by
  obtain ⟨f', e, w, i, d, k, o⟩ := foldl_clean_spec p f.times.keys f h (fun _ h => h)
  refine ⟨f', e, w, i, d, k, fun c => ?_⟩
  rw [o]; split
  · rfl
  · rename_i hc; simp [obs_nil_of_not_mem hc]

theorem pushObs_spec {f : Feature T U} (h : WFF f) (cam : Nat) (t : T) (u n : U) :
    WFF (f.pushObs cam t u n) ∧
      ∀ c, (f.pushObs cam t u n).obs c = if c = cam then f.obs c ++ [(t, u, n)] else f.obs c := by
  constructor
  · constructor
    · exact nodup_set h.nodup _ _
    · show (f.uvs.push cam u).keys = (f.times.push cam t).keys
      unfold AMap.push; rw [keys_set, keys_set, h.kuvs]
    · show (f.uvsNorm.push cam n).keys = (f.times.push cam t).keys
      unfold AMap.push; rw [keys_set, keys_set, h.knorm]
    · intro k
      show ((f.uvs.push cam u).getL k).length = ((f.times.push cam t).getL k).length
      rw [getL_push, getL_push]; split
      · simp [h.len1]
      · exact h.len1 k
    · intro k
      show ((f.uvsNorm.push cam n).getL k).length = ((f.times.push cam t).getL k).length
      rw [getL_push, getL_push]; split
      · simp [h.len2]
      · exact h.len2 k
  · intro k
    show ((f.times.push cam t).getL k).zip (((f.uvs.push cam u).getL k).zip ((f.uvsNorm.push cam n).getL k)) = _
    rw [getL_push, getL_push, getL_push]; split
    · rename_i hk; subst hk
      rw [List.zip_append (by rw [h.len1, h.len2]), List.zip_append (by simp [h.len1, h.len2])]; rfl
    · rfl

theorem WFF_fresh (id : Nat) : WFF (Feature.fresh id : Feature T U) :=
  ⟨by simp [Feature.fresh], rfl, rfl, fun _ => rfl, fun _ => rfl⟩

theorem fresh_obs (id c : Nat) : (Feature.fresh id : Feature T U).obs c = [] := rfl

theorem WF.set {db : DB T U} (h : WF db) {id : Nat} {f : Feature T U} (hf : WFF f) (hi : f.featid = id) :
    WF (db.set id f) := by
  refine ⟨nodup_set h.nodup _ _, fun k g hg => ?_⟩
  rw [get?_set] at hg; split at hg
  · rename_i hk; cases hg; exact ⟨hf, hi.trans hk.symm⟩
  · exact h.feat _ _ hg

theorem WF.filter {db : DB T U} (h : WF db) (p : Nat × Feature T U → Bool) : WF (db.filter p) := by
  refine ⟨nodup_filter h.nodup _, fun k g hg => ?_⟩
  rw [get?_filter h.nodup] at hg
  exact h.feat k g (by simp [Option.filter_eq_some_iff] at hg; exact hg.1)

/-! ### queries -/

theorem queryLoop_snd (hit : Feature T U → Bool) (r s : Bool) (db : DB T U) :
    (queryLoop hit r s db).2 =
      db.filter fun e => !(r && !(s && e.2.toDelete) && hit e.2) := by
  induction db with
  | nil => rfl
  | cons e db ih =>
    simp only [queryLoop, List.filter_cons]
    cases h1 : (s && e.2.toDelete) <;> cases h2 : hit e.2 <;> cases r <;> simp [ih]

theorem queryLoop_fst (hit : Feature T U → Bool) (r s : Bool) (db : DB T U) :
    (queryLoop hit r s db).1 =
      (db.filter fun e => !(s && e.2.toDelete) && hit e.2).map Prod.snd := by
  induction db with
  | nil => rfl
  | cons e db ih =>
    simp only [queryLoop, List.filter_cons]
    cases h1 : (s && e.2.toDelete) <;> cases h2 : hit e.2 <;> simp [ih]

/-! ### refinement relation -/

structure Refines (db : DB T U) (s : Spec.Log T U) : Prop where
  wf : WF db
  obs : ∀ id cam, obs db id cam = logObs s.log id cam
  present : ∀ id, (db.get? id).isSome = s.present id
  flagged : ∀ id, ((db.get? id).map Feature.toDelete).getD false = s.flagged id

theorem Refines.none {db : DB T U} {s : Spec.Log T U} (h : Refines db s) {id : Nat}
    (hp : s.present id = false) : db.get? id = none := by
  have := h.present id; rw [hp] at this; simpa using this

theorem Refines.obs_absent {db : DB T U} {s : Spec.Log T U} (h : Refines db s) {o : Spec.Obs T U}
    (ho : o ∈ s.log) : s.present o.id = true := by
  by_contra hp
  have h1 := h.obs o.id o.cam
  have h2 := h.none (by simpa using hp)
  simp only [Feat.obs, h2, logObs] at h1
  have : o ∈ Spec.track s.log o.id o.cam := by simp [Spec.track, ho]
  have h3 : Spec.track s.log o.id o.cam = [] := by simpa using h1.symm
  rw [h3] at this; simp at this

theorem logObs_filter (log : List (Spec.Obs T U)) (id cam : Nat) (p : Spec.Obs T U → Bool)
    (q : T × U × U → Bool) (hpq : ∀ o ∈ log, o.id = id → o.cam = cam → p o = q (o.t, o.u, o.n)) :
    logObs (log.filter p) id cam = (logObs log id cam).filter q := by
  unfold logObs Spec.track
  rw [List.filter_map, List.filter_filter, List.filter_filter]
  congr 1
  apply List.filter_congr
  intro o ho
  by_cases h1 : o.id = id
  · by_cases h2 : o.cam = cam
    · simp [h1, h2, hpq o ho h1 h2]
    · simp [beq_eq_false_iff_ne.2 h2]
  · simp [beq_eq_false_iff_ne.2 h1]

theorem logObs_append (l l' : List (Spec.Obs T U)) (id cam : Nat) :
    logObs (l ++ l') id cam = logObs l id cam ++ logObs l' id cam := by
  simp [logObs, Spec.track]

theorem logObs_drop (log : List (Spec.Obs T U)) (p : Nat → Bool) (id cam : Nat) :
    logObs (log.filter fun o => !p o.id) id cam = if p id then [] else logObs log id cam := by
  rw [logObs_filter log id cam _ (fun _ => !p id) (by intro o _ h _; simp [h])]
  by_cases hp : p id <;> simp [hp]

theorem refines_drop {db : DB T U} {s : Spec.Log T U} (h : Refines db s) (p : Nat → Bool)
    (q : Nat × Feature T U → Bool) (hpq : ∀ id f, db.get? id = some f → q (id, f) = !p id) :
    Refines (db.filter q) (s.drop p) := by
  have hg : ∀ id, AMap.get? (db.filter q) id = if p id then none else db.get? id := by
    intro id
    rw [get?_filter h.wf.nodup]
    cases hd : db.get? id with
    | none => simp
    | some f => by_cases hp : p id <;> simp [hpq id f hd, hp]
  refine ⟨h.wf.filter q, fun id cam => ?_, fun id => ?_, fun id => ?_⟩
  · unfold Feat.obs; rw [hg]
    simp only [Spec.Log.drop]
    rw [logObs_drop, ← h.obs]
    by_cases hp : p id <;> simp [hp, Feat.obs]
  · rw [hg]; simp only [Spec.Log.drop]; rw [← h.present]
    by_cases hp : p id <;> simp [hp]
  · rw [hg]; simp only [Spec.Log.drop]; rw [← h.flagged]
    by_cases hp : p id <;> simp [hp]

theorem obs_set {db : DB T U} {k : Nat} {f : Feature T U} (id cam : Nat) :
    obs (db.set k f) id cam = if id = k then f.obs cam else obs db id cam := by
  unfold obs; rw [get?_set]; by_cases h : id = k <;> simp [h]

theorem refines_update [LinearOrder T] {db : DB T U} {s : Spec.Log T U} (h : Refines db s)
    (id : Nat) (t : T) (cam : Nat) (u n : U) :
    Refines (updateFeature db id t cam u n) (s.run (.update id t cam u n)) := by
  -- the feature that gets the observation
  obtain ⟨f, hf, hwf, hid, hobs, hdel, hflag⟩ : ∃ f : Feature T U,
      updateFeature db id t cam u n = db.set id (f.pushObs cam t u n) ∧ WFF f ∧ f.featid = id ∧
      (∀ c, f.obs c = obs db id c) ∧ f.toDelete = s.flagged id ∧ True := by
    unfold updateFeature
    cases hg : db.get? id with
    | some f =>
      exact ⟨f, rfl, (h.wf.feat _ _ hg).1, (h.wf.feat _ _ hg).2, fun c => by simp [obs, hg],
        by rw [← h.flagged, hg]; rfl, trivial⟩
    | none =>
      exact ⟨Feature.fresh id, rfl, WFF_fresh id, rfl, fun c => by simp [obs, hg, fresh_obs],
        by rw [← h.flagged, hg]; rfl, trivial⟩
  obtain ⟨w1, o1⟩ := pushObs_spec hwf cam t u n
  rw [hf]
  refine ⟨h.wf.set w1 hid, fun i c => ?_, fun i => ?_, fun i => ?_⟩
  · rw [obs_set]
    simp only [Spec.Log.run]
    rw [logObs_append, ← h.obs]
    by_cases hi : i = id
    · subst hi
      rw [if_pos rfl, o1, hobs]
      by_cases hc : c = cam
      · subst hc; simp [logObs, Spec.track]
      · simp [logObs, Spec.track, hc, Ne.symm hc]
    · rw [if_neg hi]; simp [logObs, Spec.track, Ne.symm hi]
  · rw [get?_set]; simp only [Spec.Log.run]
    by_cases hi : i = id
    · simp [hi]
    · simp [hi, h.present]
  · rw [get?_set]; simp only [Spec.Log.run]
    by_cases hi : i = id
    · subst hi; simp [← hdel]; rfl
    · simp [hi, h.flagged]

theorem logObs_restrict (log : List (Spec.Obs T U)) (p : T → Bool) (id cam : Nat) :
    logObs (log.filter fun o => p o.t) id cam = (logObs log id cam).filter fun x => p x.1 :=
  logObs_filter _ _ _ _ _ (fun _ _ _ _ => rfl)

theorem ctMeas_lt_one {f : Feature T U} (h : WFF f) : ctMeas f < 1 ↔ ∀ c, f.obs c = [] := by
  unfold ctMeas
  rw [Nat.lt_one_iff, List.sum_eq_zero_iff_forall_eq_nat]
  constructor
  · intro hz c
    have : f.times.getL c = [] := by
      unfold getL
      cases hg : f.times.get? c with
      | none => rfl
      | some l =>
        have := hz l.length (List.mem_map.2 ⟨_, mem_of_get? hg, rfl⟩)
        simpa using List.length_eq_zero_iff.1 this
    simp [Feature.obs, this]
  · intro ho x hx
    obtain ⟨e, he, rfl⟩ := List.mem_map.1 hx
    have h1 := h.obs_times e.1
    rw [ho, getL, get?_of_mem h.nodup (show (e.1, e.2) ∈ f.times from he)] at h1
    simpa using h1

theorem cleanupLoop_spec (p : T → Bool) {db : DB T U} (h : WF db) :
    ∃ db', cleanupLoop (cleanWith p) db = some db' ∧ WF db' ∧
      (∀ id, (db'.get? id = none ↔ db.get? id = none ∨ ∀ c, (obs db id c).filter (fun x => !p x.1) = [])) ∧
      (∀ id f', db'.get? id = some f' → ∃ f, db.get? id = some f ∧ f'.toDelete = f.toDelete ∧
        (∀ c, f'.obs c = (f.obs c).filter (fun x => !p x.1))) ∧
      (∀ k ∈ AMap.keys db', k ∈ AMap.keys db) := by
  induction db with
  | nil => exact ⟨[], rfl, h, by simp, by simp, by simp⟩
  | cons e db ih =>
    have hn : e.1 ∉ AMap.keys db ∧ (AMap.keys db).Nodup := List.nodup_cons.1 h.nodup
    have hwf : WF db := by
      refine ⟨hn.2, fun id f hf => h.feat id f ?_⟩
      rw [get?_cons, if_neg]
      · exact hf
      · rintro rfl; exact hn.1 (mem_keys_iff.2 ⟨_, hf⟩)
    obtain ⟨hw, hid⟩ := h.feat e.1 e.2 (by rw [get?_cons]; simp)
    obtain ⟨f1, e1, w1, i1, d1, k1, o1⟩ := cleanWith_spec p hw
    obtain ⟨db1, e2, w2, g2, s2, m2⟩ := ih hwf
    have hn1 : e.1 ∉ AMap.keys db1 := fun hk => hn.1 (m2 _ hk)
    have hnone1 : db1.get? e.1 = none := get?_eq_none.2 hn1
    have hob : ∀ id c, obs (e :: db) id c = if e.1 = id then e.2.obs c else obs db id c := by
      intro id c; simp only [obs, get?_cons]; by_cases h : e.1 = id <;> simp [h]
    by_cases hct : ctMeas f1 < 1
    · refine ⟨db1, by simp only [cleanupLoop, e1, e2, Option.bind_eq_bind, Option.bind_some, if_pos hct]; rfl, w2, fun id => ?_, fun id f' hf' => ?_, fun k hk => ?_⟩
      · simp only [hob, get?_cons]
        by_cases hi : e.1 = id
        · subst hi
          simp only [hnone1, if_true, true_iff]
          right; intro c; rw [← o1]; exact (ctMeas_lt_one w1).1 hct c
        · simp only [hi, if_false]; exact g2 id
      · have : e.1 ≠ id := by rintro rfl; rw [hnone1] at hf'; simp at hf'
        rw [get?_cons, if_neg this]; exact s2 id f' hf'
      · rw [keys_cons]; exact List.mem_cons_of_mem _ (m2 k hk)
    · refine ⟨(e.1, f1) :: db1, by simp only [cleanupLoop, e1, e2, Option.bind_eq_bind, Option.bind_some, if_neg hct]; rfl, ?_, fun id => ?_, fun id f' hf' => ?_,
        fun k hk => ?_⟩
      · refine ⟨by rw [keys_cons, List.nodup_cons]; exact ⟨hn1, w2.nodup⟩, fun id f hf => ?_⟩
        rw [get?_cons] at hf
        split at hf
        · rename_i hk; cases hf; exact ⟨w1, (i1.trans hid).trans hk⟩
        · exact w2.feat id f hf
      · simp only [hob, get?_cons]
        by_cases hi : e.1 = id
        · subst hi
          simp only [if_true, reduceCtorEq, false_or, false_iff]
          intro hall
          exact hct ((ctMeas_lt_one w1).2 fun c => by rw [o1]; exact hall c)
        · simp only [hi, if_false]; exact g2 id
      · rw [get?_cons] at hf'
        split at hf'
        · rename_i hk; cases hf'
          exact ⟨e.2, by rw [get?_cons, if_pos hk], d1, o1⟩
        · rename_i hk
          rw [get?_cons, if_neg hk]; exact s2 id f' hf'
      · rw [keys_cons] at hk ⊢
        rcases List.mem_cons.1 hk with h | h
        · rw [h]; simp
        · exact List.mem_cons_of_mem _ (m2 k h)

theorem refines_restrict {db : DB T U} {s : Spec.Log T U} (h : Refines db s) (p : T → Bool)
    (q : Spec.Obs T U → Bool) (hpq : ∀ o, q o = !p o.t) :
    ∃ db', cleanupLoop (cleanWith p) db = some db' ∧ Refines db' (s.restrict q) := by
  obtain rfl : q = fun o => !p o.t := funext hpq
  obtain ⟨db', e, w, g, sm, _⟩ := cleanupLoop_spec p h.wf
  have hobs : ∀ id cam, obs db' id cam = (obs db id cam).filter (fun x => !p x.1) := by
    intro id cam
    cases hg : db'.get? id with
    | none =>
      rcases (g id).1 hg with h1 | h1
      · simp [obs, hg, h1]
      · simp only [h1 cam]; simp [obs, hg]
    | some f' =>
      obtain ⟨f, hf, _, ho⟩ := sm id f' hg
      simp [obs, hg, hf, ho]
  have hlog : ∀ id cam, logObs (s.restrict (fun o => !p o.t)).log id cam
      = (obs db id cam).filter (fun x => !p x.1) := by
    intro id cam
    simp only [Spec.Log.restrict]
    rw [logObs_restrict s.log (fun t => !p t), ← h.obs]
  have hany : ∀ id, ((s.log.filter fun o => !p o.t).any fun o => o.id == id) = true ↔
      ¬ ∀ c, (obs db id c).filter (fun x => !p x.1) = [] := by
    intro id
    rw [not_forall]
    simp only [← hlog]
    simp only [Spec.Log.restrict, logObs, Spec.track, List.any_eq_true, List.map_eq_nil_iff,
      List.filter_eq_nil_iff, not_forall]
    constructor
    · rintro ⟨o, ho, hi⟩
      exact ⟨o.cam, o, ho, by simpa using hi⟩
    · rintro ⟨c, o, ho, hi⟩
      exact ⟨o, ho, by simp at hi; simp [hi.1]⟩
  refine ⟨db', e, w, fun id cam => by rw [hobs, hlog], fun id => ?_, fun id => ?_⟩
  · cases hg : db'.get? id with
    | none =>
      simp only [Option.isSome_none, Spec.Log.restrict]
      rcases (g id).1 hg with h1 | h1
      · rw [← h.present, h1]; rfl
      · have : ¬ _ := (not_congr (hany id)).2 (not_not.2 h1)
        rw [Bool.not_eq_true] at this
        rw [this]; simp
    | some f' =>
      obtain ⟨f, hf, _, ho⟩ := sm id f' hg
      simp only [Option.isSome_some, Spec.Log.restrict]
      rw [← h.present, hf]
      have h1 := (not_congr (g id)).1 (by rw [hg]; simp)
      rw [not_or] at h1
      rw [(hany id).2 h1.2]; rfl
  · cases hg : db'.get? id with
    | none =>
      simp only [Option.map_none, Option.getD_none, Spec.Log.restrict]
      rcases (g id).1 hg with h1 | h1
      · rw [← h.flagged, h1]; rfl
      · have : ¬ _ := (not_congr (hany id)).2 (not_not.2 h1)
        rw [Bool.not_eq_true] at this
        rw [this]; simp
    | some f' =>
      obtain ⟨f, hf, hd, ho⟩ := sm id f' hg
      simp only [Option.map_some, Option.getD_some, Spec.Log.restrict]
      rw [← h.flagged, hf]
      have h1 := (not_congr (g id)).1 (by rw [hg]; simp)
      rw [not_or] at h1
      rw [(hany id).2 h1.2]; simp [hd]

/-! ### correspondence of the query tests -/

theorem getL_times_eq {db : DB T U} {s : Spec.Log T U} (h : Refines db s) {id : Nat} {f : Feature T U}
    (hf : db.get? id = some f) (cam : Nat) :
    f.times.getL cam = (Spec.track s.log id cam).map (fun o => o.t) := by
  rw [← (h.wf.feat _ _ hf).1.obs_times]
  have := h.obs id cam
  simp only [obs, hf] at this
  rw [this, logObs, List.map_map]; rfl

theorem any_times {f : Feature T U} (h : WFF f) (p : List T → Bool) (hp : p [] = false) :
    (f.times.any fun pr => p pr.2) = true ↔ ∃ cam, p (f.times.getL cam) = true := by
  rw [List.any_eq_true]
  constructor
  · rintro ⟨⟨c, l⟩, hm, hl⟩
    exact ⟨c, by rw [getL, get?_of_mem h.nodup hm]; exact hl⟩
  · rintro ⟨c, hl⟩
    unfold getL at hl
    cases hg : f.times.get? c with
    | none => rw [hg] at hl; simp [hp] at hl
    | some l => rw [hg] at hl; exact ⟨(c, l), mem_of_get? hg, hl⟩

theorem any_log (log : List (Spec.Obs T U)) (id : Nat) (p : List (Spec.Obs T U) → Bool) (hp : p [] = false) :
    (log.any fun o => o.id == id && p (Spec.track log id o.cam)) = true ↔
      ∃ cam, p (Spec.track log id cam) = true := by
  rw [List.any_eq_true]
  constructor
  · rintro ⟨o, _, ho⟩
    exact ⟨o.cam, by simp at ho; exact ho.2⟩
  · rintro ⟨c, hc⟩
    cases ht : Spec.track log id c with
    | nil => rw [ht, hp] at hc; simp at hc
    | cons o l =>
      have : o ∈ Spec.track log id c := by rw [ht]; simp
      simp only [Spec.track, List.mem_filter, Bool.and_eq_true, beq_iff_eq] at this
      obtain ⟨hm, h1, h2⟩ := this
      exact ⟨o, hm, by rw [h2, hc, h1]; simp⟩

theorem hasNewer_eq [LinearOrder T] {db : DB T U} {s : Spec.Log T U} (h : Refines db s) {id : Nat}
    {f : Feature T U} (hf : db.get? id = some f) (t : T) : hasNewer t f = Spec.newer s.log t id := by
  rw [Bool.eq_iff_iff]
  unfold hasNewer Spec.newer
  refine (any_times (h.wf.feat _ _ hf).1 (fun l => match l.getLast? with | some l => decide (t ≤ l) | none => false) rfl).trans
    (Iff.trans ?_ (any_log s.log id (fun l => match l.getLast? with | some l => decide (t ≤ l.t) | none => false) rfl).symm)
  refine exists_congr fun cam => ?_
  rw [getL_times_eq h hf, List.getLast?_map]
  cases (Spec.track s.log id cam).getLast? <;> simp

theorem hasOlder_eq [LinearOrder T] {db : DB T U} {s : Spec.Log T U} (h : Refines db s) {id : Nat}
    {f : Feature T U} (hf : db.get? id = some f) (t : T) : hasOlder t f = Spec.older s.log t id := by
  rw [Bool.eq_iff_iff]
  unfold hasOlder Spec.older
  refine (any_times (h.wf.feat _ _ hf).1 (fun l => match l.head? with | some l => decide (l < t) | none => false) rfl).trans
    (Iff.trans ?_ (any_log s.log id (fun l => match l.head? with | some l => decide (l.t < t) | none => false) rfl).symm)
  refine exists_congr fun cam => ?_
  rw [getL_times_eq h hf, List.head?_map]
  cases (Spec.track s.log id cam).head? <;> simp

theorem hasTime_eq [LinearOrder T] {db : DB T U} {s : Spec.Log T U} (h : Refines db s) {id : Nat}
    {f : Feature T U} (hf : db.get? id = some f) (t : T) : hasTime t f = Spec.seenAt s.log t id := by
  rw [Bool.eq_iff_iff]
  unfold hasTime Spec.seenAt
  rw [any_times (h.wf.feat _ _ hf).1 (fun l => l.contains t) rfl]
  simp only [getL_times_eq h hf, List.any_eq_true, Spec.track]
  constructor
  · rintro ⟨c, hc⟩
    rw [List.contains_iff_mem, List.mem_map] at hc
    obtain ⟨o, ho, rfl⟩ := hc
    rw [List.mem_filter] at ho
    exact ⟨o, ho.1, by have := ho.2; simp at this; simp [this.1]⟩
  · rintro ⟨o, ho, h2⟩
    simp at h2
    exact ⟨o.cam, by
      rw [List.contains_iff_mem, List.mem_map]
      exact ⟨o, by rw [List.mem_filter]; exact ⟨ho, by simp [h2.1]⟩, h2.2⟩⟩

theorem refines_query [LinearOrder T] {db : DB T U} {s : Spec.Log T U} (h : Refines db s)
    (hit : Feature T U → Bool) (hit' : Nat → Bool)
    (hh : ∀ id f, db.get? id = some f → hit f = hit' id) (r sk : Bool) :
    Refines (queryLoop hit r sk db).2 (if r then s.drop (s.returned hit' sk) else s) := by
  rw [queryLoop_snd]
  cases r with
  | false =>
    have : (db.filter fun e => !(false && !(sk && e.2.toDelete) && hit e.2)) = db := by simp
    rw [this]; exact h
  | true =>
    simp only [if_true]
    apply refines_drop h
    intro id f hf
    have h1 := h.present id
    have h2 := h.flagged id
    rw [hf] at h1 h2
    simp at h1 h2
    simp [Spec.Log.returned, ← h1, ← h2, hh id f hf]

/-! ### append -/

theorem appendLoop_spec [DecidableEq T] (seen ts : List T) (us ns : List U) (a : List T) (b c : List U)
    (h1 : us.length = ts.length) (h2 : ns.length = ts.length)
    (hb : b.length = a.length) (hc : c.length = a.length) :
    ∃ a' b' c', appendLoop seen ts us ns (a, b, c) = some (a', b', c') ∧ b'.length = a'.length ∧
      c'.length = a'.length ∧
      a'.zip (b'.zip c') = a.zip (b.zip c) ++ (ts.zip (us.zip ns)).filter (fun x => !(seen.contains x.1)) := by
  induction ts generalizing us ns a b c with
  | nil => exact ⟨a, b, c, by simp [appendLoop], hb, hc, by simp⟩
  | cons t ts ih =>
    cases us with
    | nil => simp at h1
    | cons u us =>
      cases ns with
      | nil => simp at h2
      | cons n ns =>
        simp only [List.length_cons, Nat.add_right_cancel_iff] at h1 h2
        by_cases hs : seen.contains t
        · obtain ⟨a', b', c', e, l1, l2, z⟩ := ih us ns a b c h1 h2 hb hc
          exact ⟨a', b', c', by rw [appendLoop, if_pos hs]; exact e, l1, l2, by rw [z]; simp [List.filter_cons]; simpa using hs⟩
        · obtain ⟨a', b', c', e, l1, l2, z⟩ := ih us ns (a ++ [t]) (b ++ [u]) (c ++ [n]) h1 h2 (by simp [hb]) (by simp [hc])
          refine ⟨a', b', c', by rw [appendLoop, if_neg hs]; exact e, l1, l2, ?_⟩
          rw [z, List.zip_append (by rw [hb, hc]), List.zip_append (by simp [hb, hc])]
          simp only [List.zip_cons_cons, List.filter_cons, hs]
          simp

theorem get?_isSome_of_keys {α β : Type} {m : AMap α} {m' : AMap β} (h : m.keys = m'.keys) {k : Nat} (hk : k ∈ m'.keys) :
    ∃ v, m.get? k = some v := mem_keys_iff.1 (h ▸ hk)

theorem getL_of_get? {α : Type} {m : AMap (List α)} {k : Nat} {v : List α} (h : m.get? k = some v) : m.getL k = v := by
  simp [getL, h]

/-- what `append` does to a single track -/
def appendObs [DecidableEq T] (x y : List (T × U × U)) : List (T × U × U) :=
  x ++ y.filter (fun o => !((x.map Prod.fst).contains o.1))

theorem appendCam_spec [DecidableEq T] {src f : Feature T U} (hs : WFF src) (h : WFF f) {cam : Nat}
    (hc : cam ∈ src.times.keys) :
    ∃ f', appendCam src f cam = some f' ∧ WFF f' ∧ f'.featid = f.featid ∧ f'.toDelete = f.toDelete ∧
      ∀ c, f'.obs c = if c = cam then appendObs (f.obs c) (src.obs c) else f.obs c := by
  obtain ⟨sts, est⟩ := mem_keys_iff.1 hc
  obtain ⟨sus, esu⟩ := get?_isSome_of_keys hs.kuvs hc
  obtain ⟨sns, esn⟩ := get?_isSome_of_keys hs.knorm hc
  have sl1 : sus.length = sts.length := by
    have := hs.len1 cam; rwa [getL_of_get? esu, getL_of_get? est] at this
  have sl2 : sns.length = sts.length := by
    have := hs.len2 cam; rwa [getL_of_get? esn, getL_of_get? est] at this
  -- common conclusion
  have key : ∀ (a : List T) (b c : List U), b.length = a.length → c.length = a.length →
      a.zip (b.zip c) = appendObs (f.obs cam) (src.obs cam) →
      ∀ f' : Feature T U, f' = { f with
          times := f.times.set cam a, uvs := f.uvs.set cam b, uvsNorm := f.uvsNorm.set cam c } →
        WFF f' ∧ f'.featid = f.featid ∧ f'.toDelete = f.toDelete ∧
        ∀ c, f'.obs c = if c = cam then appendObs (f.obs c) (src.obs c) else f.obs c := by
    rintro a b c hb hc' hz f' rfl
    refine ⟨⟨nodup_set h.nodup _ _, ?_, ?_, fun k => ?_, fun k => ?_⟩, rfl, rfl, fun k => ?_⟩
    · show (f.uvs.set cam b).keys = (f.times.set cam a).keys
      rw [keys_set, keys_set, h.kuvs]
    · show (f.uvsNorm.set cam c).keys = (f.times.set cam a).keys
      rw [keys_set, keys_set, h.knorm]
    · show ((f.uvs.set cam b).getL k).length = ((f.times.set cam a).getL k).length
      rw [getL_set, getL_set]; split
      · exact hb
      · exact h.len1 k
    · show ((f.uvsNorm.set cam c).getL k).length = ((f.times.set cam a).getL k).length
      rw [getL_set, getL_set]; split
      · exact hc'
      · exact h.len2 k
    · show ((f.times.set cam a).getL k).zip (((f.uvs.set cam b).getL k).zip ((f.uvsNorm.set cam c).getL k)) = _
      rw [getL_set, getL_set, getL_set]; split
      · rename_i hk; subst hk; exact hz
      · rfl
  have sobs : src.obs cam = sts.zip (sus.zip sns) := by
    simp [Feature.obs, getL_of_get? est, getL_of_get? esu, getL_of_get? esn]
  cases hg : f.times.get? cam with
  | none =>
    have hno : f.obs cam = [] := obs_nil_of_not_mem (get?_eq_none.1 hg)
    refine ⟨{ f with times := f.times.set cam sts, uvs := f.uvs.set cam sus, uvsNorm := f.uvsNorm.set cam sns },
      by simp [appendCam, hg, est, esu, esn], key sts sus sns sl1 sl2 ?_ _ rfl⟩
    rw [hno, sobs]; simp [appendObs]
  | some seen =>
    have hc1 : cam ∈ f.times.keys := mem_keys_iff.2 ⟨_, hg⟩
    obtain ⟨us, eu⟩ := get?_isSome_of_keys h.kuvs hc1
    obtain ⟨ns, en⟩ := get?_isSome_of_keys h.knorm hc1
    have l1 : us.length = seen.length := by
      have := h.len1 cam; rwa [getL_of_get? eu, getL_of_get? hg] at this
    have l2 : ns.length = seen.length := by
      have := h.len2 cam; rwa [getL_of_get? en, getL_of_get? hg] at this
    obtain ⟨a, b, c, e, hb, hc', hz⟩ := appendLoop_spec seen sts sus sns seen us ns sl1 sl2 l1 l2
    refine ⟨{ f with times := f.times.set cam a, uvs := f.uvs.set cam b, uvsNorm := f.uvsNorm.set cam c },
      by simp [appendCam, hg, eu, en, esu, esn, getL_of_get? est, e], key a b c hb hc' ?_ _ rfl⟩
    rw [hz, appendObs, h.obs_times, getL_of_get? hg, sobs]
    simp [Feature.obs, getL_of_get? hg, getL_of_get? eu, getL_of_get? en]

theorem foldl_appendCam_spec [DecidableEq T] {src : Feature T U} (hs : WFF src) (cams : List Nat)
    (hnd : cams.Nodup) (hc : ∀ c ∈ cams, c ∈ src.times.keys) {f : Feature T U} (h : WFF f) :
    ∃ f', cams.foldlM (appendCam src) f = some f' ∧ WFF f' ∧ f'.featid = f.featid ∧ f'.toDelete = f.toDelete ∧
      ∀ c, f'.obs c = if c ∈ cams then appendObs (f.obs c) (src.obs c) else f.obs c := by
  induction cams generalizing f with
  | nil => exact ⟨f, rfl, h, rfl, rfl, by simp⟩
  | cons k cams ih =>
    rw [List.nodup_cons] at hnd
    obtain ⟨f1, e1, w1, i1, d1, o1⟩ := appendCam_spec hs h (hc k (by simp))
    obtain ⟨f2, e2, w2, i2, d2, o2⟩ := ih hnd.2 (fun c hcm => hc c (by simp [hcm])) w1
    refine ⟨f2, by rw [List.foldlM_cons, e1]; exact e2, w2, i2.trans i1, d2.trans d1, fun c => ?_⟩
    rw [o2, o1]
    by_cases h1 : c = k
    · subst h1; simp [hnd.1]
    · by_cases h2 : c ∈ cams <;> simp [h1, h2]

theorem appendObs_nil_right [DecidableEq T] (x : List (T × U × U)) : appendObs x [] = x := by simp [appendObs]
theorem appendObs_nil_left [DecidableEq T] (x : List (T × U × U)) : appendObs [] x = x := by simp [appendObs]

theorem appendFeat_spec [DecidableEq T] {db : DB T U} (h : WF db) {k : Nat} {g : Feature T U} (hg : WFF g)
    (hk : g.featid = k) :
    ∃ db', appendFeat db (k, g) = some db' ∧ WF db' ∧
      (∀ id c, obs db' id c = if id = k then appendObs (obs db id c) (g.obs c) else obs db id c) ∧
      (∀ id, (db'.get? id).isSome = ((db.get? id).isSome || id == k)) ∧
      (∀ id, ((db'.get? id).map Feature.toDelete).getD false = ((db.get? id).map Feature.toDelete).getD false) := by
  cases hd : db.get? k with
  | some f =>
    obtain ⟨hw, hi⟩ := h.feat _ _ hd
    obtain ⟨f', e, w, i, d, o⟩ := foldl_appendCam_spec hg g.times.keys hg.nodup (fun _ h => h) hw
    refine ⟨db.set k f', by simp [appendFeat, hd, e], h.set w (i.trans hi), fun id c => ?_, fun id => ?_, fun id => ?_⟩
    · rw [obs_set]
      by_cases hid : id = k
      · subst hid; simp only [if_true, o]
        by_cases hc : c ∈ g.times.keys
        · simp [hc, obs, hd]
        · simp [hc, obs, hd, obs_nil_of_not_mem hc, appendObs_nil_right]
      · simp [hid]
    · rw [get?_set]; by_cases hid : id = k <;> simp [hid]
    · rw [get?_set]; by_cases hid : id = k
      · subst hid; simp [hd, d]
      · simp [hid]
  | none =>
    have w : WFF { g with toDelete := false } := ⟨hg.nodup, hg.kuvs, hg.knorm, hg.len1, hg.len2⟩
    refine ⟨db.set k { g with toDelete := false }, by simp [appendFeat, hd], h.set w hk, fun id c => ?_, fun id => ?_, fun id => ?_⟩
    · rw [obs_set]
      by_cases hid : id = k
      · subst hid; simp [obs, hd, appendObs_nil_left]; rfl
      · simp [hid]
    · rw [get?_set]; by_cases hid : id = k <;> simp [hid]
    · rw [get?_set]; by_cases hid : id = k
      · subst hid; simp [hd]
      · simp [hid]

theorem appendNew_spec [DecidableEq T] {db other : DB T U} (h : WF db) (ho : WF other) :
    ∃ db', appendNew db other = some db' ∧ WF db' ∧
      (∀ id c, obs db' id c = appendObs (obs db id c) (obs other id c)) ∧
      (∀ id, (db'.get? id).isSome = ((db.get? id).isSome || (other.get? id).isSome)) ∧
      (∀ id, ((db'.get? id).map Feature.toDelete).getD false = ((db.get? id).map Feature.toDelete).getD false) := by
  unfold appendNew
  induction other generalizing db with
  | nil => exact ⟨db, rfl, h, fun id c => by simp [obs, appendObs_nil_right], by simp, by simp⟩
  | cons e other ih =>
    have hn : e.1 ∉ AMap.keys other ∧ (AMap.keys other).Nodup := List.nodup_cons.1 ho.nodup
    have hwf : WF other := by
      refine ⟨hn.2, fun id f hf => ho.feat id f ?_⟩
      rw [get?_cons, if_neg]
      · exact hf
      · rintro rfl; exact hn.1 (mem_keys_iff.2 ⟨_, hf⟩)
    obtain ⟨hw, hid⟩ := ho.feat e.1 e.2 (by rw [get?_cons]; simp)
    obtain ⟨db1, e1, w1, o1, p1, f1⟩ := appendFeat_spec h hw hid
    obtain ⟨db2, e2, w2, o2, p2, f2⟩ := ih w1 hwf
    have hnone := get?_eq_none.2 hn.1
    refine ⟨db2, by rw [List.foldlM_cons, show e = (e.1, e.2) from rfl, e1]; exact e2, w2, fun id c => ?_, fun id => ?_, fun id => ?_⟩
    · rw [o2, o1]
      simp only [obs, get?_cons]
      by_cases hi : e.1 = id
      · subst hi; simp [hnone, appendObs_nil_right]
      · simp [hi, Ne.symm hi]
    · rw [p2, p1, get?_cons]
      by_cases hi : e.1 = id
      · subst hi; simp
      · simp [hi, beq_eq_false_iff_ne.2 (Ne.symm hi)]
    · rw [f2, f1]

theorem refines_append [LinearOrder T] {db other : DB T U} {s o : Spec.Log T U} (h : Refines db s)
    (h' : Refines other o) : ∃ db', appendNew db other = some db' ∧ Refines db' (s.append o) := by
  obtain ⟨db', e, w, hob, hp, hf⟩ := appendNew_spec h.wf h'.wf
  refine ⟨db', e, w, fun id c => ?_, fun id => ?_, fun id => ?_⟩
  · rw [hob, h.obs, h'.obs]
    simp only [Spec.Log.append]
    rw [logObs_append, appendObs]
    congr 1
    symm
    apply logObs_filter
    intro x _ hi hc
    congr 1
    rw [Bool.eq_iff_iff, List.contains_iff_mem]
    simp only [List.any_eq_true, List.mem_map, logObs, Spec.track]
    constructor
    · rintro ⟨y, hy, hh⟩
      simp only [Bool.and_eq_true, beq_iff_eq, decide_eq_true_eq] at hh
      exact ⟨_, ⟨y, by rw [List.mem_filter]; exact ⟨hy, by simp [hh, hi, hc]⟩, rfl⟩, hh.2⟩
    · rintro ⟨_, ⟨y, hy, rfl⟩, hh⟩
      rw [List.mem_filter] at hy
      have := hy.2; simp only [Bool.and_eq_true, beq_iff_eq] at this
      exact ⟨y, hy.1, by simp only [Bool.and_eq_true, beq_iff_eq, decide_eq_true_eq]; exact ⟨⟨this.1.trans hi.symm, this.2.trans hc.symm⟩, hh⟩⟩
  · rw [hp, h.present, h'.present]; rfl
  · rw [hf, h.flagged]; rfl

/-! ### remaining operations -/

theorem refines_mark {db : DB T U} {s : Spec.Log T U} [LinearOrder T] (h : Refines db s) (id : Nat) :
    Refines (db.modify id fun f => { f with toDelete := true }) (s.run (.markDelete id)) := by
  refine ⟨⟨by rw [keys_modify]; exact h.wf.nodup, fun k f hf => ?_⟩, fun k c => ?_, fun k => ?_, fun k => ?_⟩
  · rw [get?_modify] at hf
    split at hf
    · cases hg : db.get? k with
      | none => rw [hg] at hf; simp at hf
      | some g =>
        rw [hg] at hf; simp only [Option.map_some, Option.some.injEq] at hf; subst hf
        obtain ⟨w, i⟩ := h.wf.feat _ _ hg
        exact ⟨⟨w.nodup, w.kuvs, w.knorm, w.len1, w.len2⟩, i⟩
    · exact h.wf.feat _ _ hf
  · simp only [Spec.Log.run]; rw [← h.obs]
    unfold obs; rw [get?_modify]
    by_cases hk : k = id
    · subst hk; simp only [if_true]; cases db.get? k <;> rfl
    · simp [hk]
  · simp only [Spec.Log.run]; rw [← h.present, get?_modify]
    by_cases hk : k = id <;> simp [hk]
  · simp only [Spec.Log.run]; rw [← h.flagged, ← h.present, get?_modify]
    by_cases hk : k = id
    · subst hk; cases db.get? k <;> simp
    · simp [hk, beq_eq_false_iff_ne.2 hk]

theorem refines_cleanOf {db : DB T U} {s : Spec.Log T U} (h : Refines db s) (id : Nat) (p : T → Bool)
    (q : Spec.Obs T U → Bool) (hq : ∀ o, q o = (!(o.id == id) || !p o.t)) :
    ∃ db', (match db.get? id with
      | some f => do let f' ← cleanWith p f; pure (db.set id f')
      | none => some db) = some db' ∧ Refines db' { s with log := s.log.filter q } := by
  have hl : ∀ i c, logObs (s.log.filter q) i c =
      if i = id then (obs db i c).filter (fun x => !p x.1) else obs db i c := by
    intro i c
    rw [h.obs]
    split
    · rename_i hi; subst hi
      exact logObs_filter _ _ _ _ _ (fun o _ h1 _ => by simp [hq, h1])
    · rename_i hi
      rw [logObs_filter _ _ _ _ (fun _ => true) (fun o _ h1 _ => by rw [hq, h1]; simp [hi])]
      simp
  cases hg : db.get? id with
  | none =>
    refine ⟨db, rfl, h.wf, fun i c => ?_, h.present, h.flagged⟩
    show _ = logObs (s.log.filter q) i c
    rw [hl]; split
    · rename_i hi; subst hi; simp [obs, hg]
    · rfl
  | some f =>
    obtain ⟨hw, hi⟩ := h.wf.feat _ _ hg
    obtain ⟨f', e, w, i, d, _, o⟩ := cleanWith_spec p hw
    refine ⟨db.set id f', by simp [e], h.wf.set w (i.trans hi), fun k c => ?_, fun k => ?_, fun k => ?_⟩
    · show _ = logObs (s.log.filter q) k c
      rw [hl, obs_set]; split
      · rename_i hk; subst hk; simp [obs, hg, o]
      · rfl
    · show _ = s.present k
      rw [← h.present, get?_set]; split
      · rename_i hk; subst hk; simp [hg]
      · rfl
    · show _ = s.flagged k
      rw [← h.flagged, get?_set]; split
      · rename_i hk; subst hk; simp [hg, d]
      · rfl

theorem refines_run [LinearOrder T] {db : DB T U} {s : Spec.Log T U} (h : Refines db s) (op : Op T U) :
    ∃ db', op.run db = some db' ∧ Refines db' (s.run op) := by
  cases op with
  | update id t cam u n => exact ⟨_, rfl, refines_update h id t cam u n⟩
  | getFeature id r =>
    refine ⟨_, rfl, ?_⟩
    simp only [Spec.Log.run, getFeature]
    cases hg : db.get? id with
    | some f =>
      cases r with
      | false => simpa using h
      | true =>
        simp only [if_true]
        exact refines_drop h _ _ (fun i f _ => by rw [Bool.eq_iff_iff]; simp)
    | none =>
      cases r with
      | false => simpa using h
      | true =>
        simp only [if_true]
        have : Refines (db.filter fun e => e.1 ≠ id) (s.drop fun i => i == id) :=
          refines_drop h _ _ (fun i f _ => by rw [Bool.eq_iff_iff]; simp)
        rwa [List.filter_eq_self.2] at this
        intro e he
        simp only [ne_eq, decide_not, Bool.not_eq_true', decide_eq_false_iff_not]
        rintro rfl
        have := get?_of_mem h.wf.nodup (show (e.1, e.2) ∈ db from he)
        rw [hg] at this; simp at this
  | notContainingNewer t r sk =>
    refine ⟨_, rfl, ?_⟩
    exact refines_query h _ _ (fun id f hf => by rw [hasNewer_eq h hf]) r sk
  | containingOlder t r sk => exact ⟨_, rfl, refines_query h _ _ (fun id f hf => hasOlder_eq h hf t) r sk⟩
  | containing t r sk => exact ⟨_, rfl, refines_query h _ _ (fun id f hf => hasTime_eq h hf t) r sk⟩
  | cleanup =>
    refine ⟨_, rfl, refines_drop h _ _ (fun id f hf => ?_)⟩
    rw [← h.flagged, hf]; rfl
  | cleanupMeasurements t => exact refines_restrict h _ _ (fun o => by rw [Bool.eq_iff_iff]; simp)
  | cleanupMeasurementsExact t => exact refines_restrict h _ _ (fun o => by rw [Bool.eq_iff_iff]; simp)
  | markDelete id => exact ⟨_, rfl, refines_mark h id⟩
  | cleanOldOf id valid => exact refines_cleanOf h id _ _ (fun o => by simp)
  | cleanInvalidOf id invalid => exact refines_cleanOf h id _ _ (fun o => by simp)

/-! ### oldest timestamp -/

theorem foldl_min [LinearOrder T] (m1 : T) (l : List T) (hne : ∀ x ∈ l, x ≠ m1) (o : T) :
    (l = [] ∧ l.foldl (fun o h => if o = m1 ∨ o > h then h else o) o = o) ∨
    (l.foldl (fun o h => if o = m1 ∨ o > h then h else o) o ≠ m1 ∧
      (∀ x ∈ l, l.foldl (fun o h => if o = m1 ∨ o > h then h else o) o ≤ x) ∧
      (o ≠ m1 → l.foldl (fun o h => if o = m1 ∨ o > h then h else o) o ≤ o) ∧
      (l.foldl (fun o h => if o = m1 ∨ o > h then h else o) o ∈ l ∨
        (o ≠ m1 ∧ l.foldl (fun o h => if o = m1 ∨ o > h then h else o) o = o))) := by
  induction l generalizing o with
  | nil => left; simp
  | cons x l ih =>
    right
    have hx : x ≠ m1 := hne x (by simp)
    simp only [List.foldl_cons]
    have h1 := ih (fun y hy => hne y (by simp [hy])) (if o = m1 ∨ o > x then x else o)
    by_cases hc : o = m1 ∨ o > x
    · rw [if_pos hc] at h1 ⊢
      rcases h1 with ⟨hl, h1⟩ | ⟨h1, h2, h3, h4⟩
      · rw [h1]; subst hl
        refine ⟨hx, by simp, fun ho => (hc.resolve_left ho).le, by simp⟩
      · refine ⟨h1, ?_, fun ho => (h3 hx).trans (hc.resolve_left ho).le, ?_⟩
        · intro y hy
          rcases List.mem_cons.1 hy with h | h
          · subst h; exact h3 hx
          · exact h2 y h
        · rcases h4 with h4 | h4
          · left; simp [h4]
          · left; simp [h4.2]
    · rw [if_neg hc] at h1 ⊢
      rw [not_or, not_lt] at hc
      rcases h1 with ⟨hl, h1⟩ | ⟨h1, h2, h3, h4⟩
      · rw [h1]; subst hl
        refine ⟨hc.1, by simp [hc.2], fun _ => le_refl _, by simp [hc.1]⟩
      · refine ⟨h1, ?_, h3, ?_⟩
        · intro y hy
          rcases List.mem_cons.1 hy with h | h
          · subst h; exact (h3 hc.1).trans hc.2
          · exact h2 y h
        · rcases h4 with h4 | h4
          · left; simp [h4]
          · right; exact h4

/-- first timestamps of all tracks -/
def heads (db : DB T U) : List T :=
  db.flatMap fun e => e.2.times.filterMap fun pr => pr.2.head?

theorem getOldest_eq [LinearOrder T] (m1 : T) (db : DB T U) :
    getOldestTimestamp m1 db = (heads db).foldl (fun o h => if o = m1 ∨ o > h then h else o) m1 := by
  unfold getOldestTimestamp heads
  rw [List.foldl_flatMap]
  congr 1
  funext o e
  rw [List.foldl_filterMap]
  congr 1

theorem mem_heads {db : DB T U} (h : WF db) (x : T) :
    x ∈ heads db ↔ ∃ id cam, ((obs db id cam).map Prod.fst).head? = some x := by
  unfold heads
  rw [List.mem_flatMap]
  constructor
  · rintro ⟨⟨id, f⟩, hm, hx⟩
    rw [List.mem_filterMap] at hx
    obtain ⟨⟨cam, l⟩, hl, hx⟩ := hx
    have hg := get?_of_mem h.nodup hm
    have hw := (h.feat _ _ hg).1
    refine ⟨id, cam, ?_⟩
    simp only [obs, hg]
    rw [hw.obs_times, getL, get?_of_mem hw.nodup hl]; exact hx
  · rintro ⟨id, cam, hx⟩
    unfold obs at hx
    cases hg : db.get? id with
    | none => rw [hg] at hx; simp at hx
    | some f =>
      rw [hg] at hx
      have hw := (h.feat _ _ hg).1
      simp only at hx
      rw [hw.obs_times, getL] at hx
      cases hc : f.times.get? cam with
      | none => rw [hc] at hx; simp at hx
      | some l =>
        rw [hc] at hx
        exact ⟨(id, f), mem_of_get? hg, List.mem_filterMap.2 ⟨(cam, l), mem_of_get? hc, hx⟩⟩

theorem refines_hist [LinearOrder T] (h : Hist T U) :
    ∃ db, h.run = some db ∧ Refines db (Spec.hist h) := by
  induction h with
  | empty =>
    exact ⟨[], rfl, ⟨by simp, by simp⟩, fun _ _ => rfl, fun _ => rfl, fun _ => rfl⟩
  | step h op ih =>
    obtain ⟨db, e, r⟩ := ih
    obtain ⟨db', e', r'⟩ := refines_run r op
    exact ⟨db', by simp [Hist.run, e, e'], r'⟩
  | append h o ih iho =>
    obtain ⟨db, e, r⟩ := ih
    obtain ⟨db2, e2, r2⟩ := iho
    obtain ⟨db', e', r'⟩ := refines_append r r2
    exact ⟨db', by simp [Hist.run, e, e2, e'], r'⟩

end Verif.Feat
