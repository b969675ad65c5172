import Verif.Vio.Select
import Verif.Feat.Props

/-!
# The choice of features for an update and the landmark batches (C41, C42)
-/

set_option autoImplicit false
set_option linter.unusedSectionVars false

namespace Verif.Vio

open Verif Verif.Feat

variable {T U : Type} [LinearOrder T]

/-- number of landmarks outside the tag id range. -/
def Spec.plain (c : SelCfg) (ids : List ℕ) : ℕ := (ids.filter fun (i : ℕ) => decide (4 * c.maxAruco < (i : ℤ))).length

/-- a database produced by some history of operations in which every track is in time order. -/
def Spec.Db (db : DB T U) : Prop := (∃ h : Hist T U, h.run = some db) ∧ Feat.Spec.TimeOrdered db

/-- the stored features without the delete flag. -/
def Spec.Live (db : DB T U) (f : Feature T U) : Prop := db.get? f.featid = some f ∧ f.toDelete = false

section roles

variable {db : DB T U} {c : SelCfg} {ts mt : T} {nc : ℕ} {cams : List ℕ} {delay : Bool} {lms : List (ℕ × Lm)} {aruco : Option (DB T U)}

theorem db_featid (h : Spec.Db db) {id : ℕ} {f : Feature T U} (hf : db.get? id = some f) : f.featid = id := by
  obtain ⟨⟨hi, hr⟩, _⟩ := h
  obtain ⟨db', e, r⟩ := refines_hist hi
  rw [hr] at e; cases e
  exact (r.wf.feat _ _ hf).2

theorem mem_query (h : Spec.Db db) {P : ℕ → Prop} {res : List (Feature T U) × DB T U} (hq : Feat.Spec.QueryOk db false true P res) (f : Feature T U) :
    f ∈ res.1 ↔ Spec.Live db f ∧ P f.featid := by
  rw [hq.1]
  constructor
  · rintro ⟨id, h1, h2, h3⟩
    obtain rfl := db_featid h h1
    exact ⟨⟨h1, by simpa using h2⟩, h3⟩
  · rintro ⟨⟨h1, h2⟩, h3⟩
    exact ⟨_, h1, by simp [h2], h3⟩

theorem mem_lost0 (h : Spec.Db db) (f : Feature T U) :
    f ∈ lost0 db ts cams ↔ Spec.Live db f ∧ (∀ cam, ∀ x ∈ obs db f.featid cam, x.1 < ts) ∧ ∃ cam ∈ cams, cam ∈ f.uvs.keys := by
  obtain ⟨hi, hr⟩ := h.1
  unfold lost0
  rw [List.mem_filter, mem_query h (C16_features_not_containing_newer hi db hr h.2 ts false true)]
  simp only [List.any_eq_true, List.contains_iff_mem, and_assoc]
  constructor
  · rintro ⟨h1, h2, x, h3, h4⟩; exact ⟨h1, h2, x, h4, h3⟩
  · rintro ⟨h1, h2, x, h3, h4⟩; exact ⟨h1, h2, x, h4, h3⟩

theorem lost0_nodup (h : Spec.Db db) : ((lost0 db ts cams).map Feature.featid).Nodup := by
  obtain ⟨hi, hr⟩ := h.1
  exact (C16_features_not_containing_newer hi db hr h.2 ts false true).2.1.sublist (List.Sublist.map _ List.filter_sublist)

theorem mem_containing0 (h : Spec.Db db) (f : Feature T U) :
    f ∈ containing0 c db mt nc ↔ (c.maxClone < nc ∨ 5 < nc) ∧ Spec.Live db f ∧ ∃ cam, ∃ x ∈ obs db f.featid cam, x.1 = mt := by
  obtain ⟨hi, hr⟩ := h.1
  unfold containing0
  split_ifs with hn
  · rw [mem_query h (C16_features_containing hi db hr mt false true)]
    exact ⟨fun q => ⟨hn, q⟩, fun q => q.2⟩
  · simp [hn]

theorem containing0_nodup (h : Spec.Db db) : ((containing0 c db mt nc).map Feature.featid).Nodup := by
  obtain ⟨hi, hr⟩ := h.1
  unfold containing0
  split_ifs with hn
  · exact (C16_features_containing hi db hr mt false true).2.1
  · simp

/-- the whole set of selected features as a permutation of lost and marginal ones. -/
theorem roles_perm (aruco : Option (DB T U)) (ts mt : T) (nc : ℕ) (delay : Bool) (cams : List ℕ) (lms : List (ℕ × Lm)) :
    let r := roles c db aruco ts mt nc delay cams lms
    (r.candidates ++ r.newSlam).Perm (r.lost ++ containing0 c db mt nc) := by
  intro r
  simp only [r, roles, Roles.candidates]
  generalize containing0 c db mt nc = M
  set k := validAmount c delay lms (M.filter (reachedMax c)).length
  rw [List.append_assoc, List.append_assoc, List.take_append_drop]
  refine List.Perm.append_left _ ?_
  refine List.perm_append_comm.trans ?_
  exact List.filter_append_perm (reachedMax c) M

theorem roles_nodup (h : Spec.Db db) :
    (((roles c db aruco ts mt nc delay cams lms).candidates ++ (roles c db aruco ts mt nc delay cams lms).newSlam).map Feature.featid).Nodup := by
  have hp := ((roles_perm (c := c) (db := db) aruco ts mt nc delay cams lms).map Feature.featid).nodup_iff
  refine hp.2 ?_
  rw [List.map_append, List.nodup_append]
  refine ⟨(lost0_nodup h).sublist (List.Sublist.map _ List.filter_sublist), containing0_nodup h, ?_⟩
  intro a ha b hb hab
  subst hab
  obtain ⟨f, hf, rfl⟩ := List.mem_map.1 ha
  simp only [roles, List.mem_filter, Bool.not_eq_true', ← Bool.not_eq_true, List.contains_iff_mem] at hf
  exact hf.2 hb

theorem newSlam_length : ((roles c db aruco ts mt nc delay cams lms).newSlam).length =
    validAmount c delay lms ((containing0 c db mt nc).filter (reachedMax c)).length := by
  simp only [roles, List.length_drop]
  have : validAmount c delay lms ((containing0 c db mt nc).filter (reachedMax c)).length ≤ ((containing0 c db mt nc).filter (reachedMax c)).length := by
    unfold validAmount
    simp only
    split_ifs <;> omega
  omega

theorem plain_add (c : SelCfg) (lms : List (ℕ × Lm)) : Spec.plain c (lms.map Prod.fst) + curTags c lms = lms.length := by
  induction lms with
  | nil => rfl
  | cons e l ih =>
    simp only [Spec.plain, curTags, tagId, List.map_cons, List.filter_cons, List.length_cons] at ih ⊢
    by_cases h : (e.1 : ℤ) ≤ 4 * c.maxAruco
    · rw [if_neg (by simpa using h), if_pos (by simpa using h)]
      simp only [List.length_cons]; omega
    · rw [if_pos (by simpa using h), if_neg (by simpa using h)]
      simp only [List.length_cons]; omega

theorem budget (k : ℕ) (hk : validAmount c delay lms k ≠ 0) : ((Spec.plain c (lms.map Prod.fst) : ℕ) : ℤ) + validAmount c delay lms k ≤ c.maxSlam := by
  have := plain_add c lms
  unfold validAmount at hk ⊢
  simp only at hk ⊢
  split_ifs at hk ⊢ <;> omega

/-! ### landmark bookkeeping -/

theorem delayed_ids (ok : Track T U → Bool) : ∀ (ds : List (Track T U)) (m : List (ℕ × Lm)),
    ∃ new : List ℕ, (delayedInit ok m ds).map Prod.fst = m.map Prod.fst ++ new ∧ (∀ i ∈ new, ∃ d ∈ ds, d.f.featid = i ∧ ok d = true) ∧
      ((m.map Prod.fst).Nodup → (m.map Prod.fst ++ new).Nodup)
  | [], m => ⟨[], by simp [delayedInit], by simp, by simp⟩
  | d :: ds, m => by
    have hstep : delayedInit ok m (d :: ds) = delayedInit ok (if ok d && !((m.map Prod.fst).contains d.f.featid) then m ++ [(d.f.featid, ⟨0, 0, false⟩)] else m) ds := rfl
    by_cases h : (ok d && !((m.map Prod.fst).contains d.f.featid)) = true
    · rw [hstep, if_pos h]
      obtain ⟨new, h1, h2, h3⟩ := delayed_ids ok ds (m ++ [(d.f.featid, ⟨0, 0, false⟩)])
      rw [Bool.and_eq_true] at h
      refine ⟨d.f.featid :: new, by rw [h1]; simp, ?_, ?_⟩
      · intro i hi
        rcases List.mem_cons.1 hi with rfl | hi
        · exact ⟨d, by simp, rfl, h.1⟩
        · obtain ⟨e, he, h'⟩ := h2 i hi; exact ⟨e, by simp [he], h'⟩
      · intro hn
        have hnot : d.f.featid ∉ m.map Prod.fst := by
          have := h.2
          rwa [Bool.not_eq_true', ← Bool.not_eq_true, List.contains_iff_mem] at this
        have := h3 (by
          rw [List.map_append, List.map_singleton, List.nodup_append]
          exact ⟨hn, by simp, by rintro a ha b hb rfl; simp at hb; exact hnot (hb ▸ ha)⟩)
        simpa using this
    · rw [hstep, if_neg h]
      obtain ⟨new, h1, h2, h3⟩ := delayed_ids ok ds m
      exact ⟨new, h1, fun i hi => by obtain ⟨e, he, h'⟩ := h2 i hi; exact ⟨e, by simp [he], h'⟩, h3⟩

theorem lms_sub : ((roles c db aruco ts mt nc delay cams lms).lms.map Prod.fst).Sublist (lms.map Prod.fst) := by
  simp only [roles, margSlamMap]
  have e : (lms.map (lmFlag db cams)).map Prod.fst = lms.map Prod.fst := by
    rw [List.map_map]; rfl
  rw [← e]
  exact List.Sublist.map _ List.filter_sublist


theorem mem_lmTracks {id : ℕ} {x : Track T U} (h : x ∈ lmTracks db aruco id) :
    (x.tag = true ∧ ∃ a, aruco = some a ∧ a.get? id = some x.f) ∨ (x.tag = false ∧ db.get? id = some x.f) := by
  unfold lmTracks at h
  have hg : ∀ (d : DB T U), (getFeature d id false).1 = d.get? id := by
    intro d; unfold getFeature; cases d.get? id <;> rfl
  rcases List.mem_append.1 h with h | h
  · cases ha : aruco with
    | none => rw [ha] at h; simp at h
    | some a =>
      rw [ha] at h
      simp only [hg, Option.mem_toList, Option.map_eq_some_iff] at h
      obtain ⟨f, hf, rfl⟩ := h
      exact .inl ⟨rfl, a, rfl, hf⟩
  · simp only [hg, Option.mem_toList, Option.map_eq_some_iff] at h
    obtain ⟨f, hf, rfl⟩ := h
    exact .inr ⟨rfl, hf⟩

/-- where a track of the SLAM list comes from. -/
theorem slam_cases (h : Spec.Db db) (ha : ∀ a, aruco = some a → Spec.Db a) {x : Track T U} (hx : x ∈ (roles c db aruco ts mt nc delay cams lms).slam) :
    (x.tag = true ∧ ∃ a, aruco = some a ∧ x.f ∈ containing0 c a mt nc) ∨
      (x.tag = false ∧ x.f ∈ (roles c db aruco ts mt nc delay cams lms).newSlam) ∨
      (x.f.featid ∈ lms.map Prod.fst ∧ ((x.tag = true ∧ ∃ a, aruco = some a ∧ a.get? x.f.featid = some x.f) ∨ (x.tag = false ∧ db.get? x.f.featid = some x.f))) := by
  simp only [roles] at hx ⊢
  rw [List.append_assoc] at hx
  rcases List.mem_append.1 hx with hx | hx
  · cases hb : aruco with
    | none => rw [hb] at hx; simp at hx
    | some a =>
      rw [hb] at hx
      simp only at hx
      split_ifs at hx
      · obtain ⟨f, hf, rfl⟩ := List.mem_map.1 hx
        exact .inl ⟨rfl, a, rfl, hf⟩
      · simp at hx
  rcases List.mem_append.1 hx with hx | hx
  · obtain ⟨f, hf, rfl⟩ := List.mem_map.1 hx
    exact .inr (.inl ⟨rfl, hf⟩)
  · obtain ⟨e, he, hx⟩ := List.mem_flatMap.1 hx
    refine .inr (.inr ?_)
    rcases mem_lmTracks hx with ⟨h1, a, h2, h3⟩ | ⟨h1, h2⟩
    · have := db_featid (ha a h2) h3
      rw [this]
      exact ⟨List.mem_map_of_mem he, .inl ⟨h1, a, h2, h3⟩⟩
    · have := db_featid h h2
      rw [this]
      exact ⟨List.mem_map_of_mem he, .inr ⟨h1, h2⟩⟩

/-- **C41** (selection) For all databases built by any history with tracks in time order, all options, landmarks, clone counts and camera lists:
the features chosen for an MSCKF update and for becoming landmarks are pairwise distinct; they are exactly the live features that either have no observation at or after the state's time and
belong to a camera of the image, or (with enough clones) have an observation at the oldest clone; a feature with an observation at or after the state's time is never taken as lost;
and no new landmark is chosen that would push the number of landmarks outside the tag range above `max_slam_features`. -/
theorem C41_selection (h : Spec.Db db) (c : SelCfg) (aruco : Option (DB T U)) (ts mt : T) (nc : ℕ) (delay : Bool) (cams : List ℕ) (lms : List (ℕ × Lm)) :
    let r := roles c db aruco ts mt nc delay cams lms
    ((r.candidates ++ r.newSlam).map Feature.featid).Nodup ∧
    (∀ f, f ∈ r.candidates ++ r.newSlam ↔ Spec.Live db f ∧
      (((∀ cam, ∀ x ∈ obs db f.featid cam, x.1 < ts) ∧ ∃ cam ∈ cams, cam ∈ f.uvs.keys) ∨
        ((c.maxClone < nc ∨ 5 < nc) ∧ ∃ cam, ∃ x ∈ obs db f.featid cam, x.1 = mt))) ∧
    (∀ f ∈ r.lost, ∀ cam, ∀ x ∈ obs db f.featid cam, x.1 < ts) ∧
    (∀ f ∈ r.newSlam, ∃ cam, c.maxClone < (obs db f.featid cam).length) ∧
    (r.maxt = [] ∨ c.maxSlam ≤ 0 ∨ delay = false ∨ c.maxSlam ≤ ((Spec.plain c (lms.map Prod.fst) + r.newSlam.length : ℕ) : ℤ)) ∧
    (r.newSlam = [] ∨ ((Spec.plain c (lms.map Prod.fst) + r.newSlam.length : ℕ) : ℤ) ≤ c.maxSlam) := by
  intro r
  refine ⟨roles_nodup h, fun f => ?_, ?_, ?_, ?_, ?_⟩
  · rw [(roles_perm aruco ts mt nc delay cams lms).mem_iff, List.mem_append, mem_containing0 h]
    have hl : f ∈ r.lost ↔ f ∈ lost0 db ts cams ∧ f.featid ∉ (containing0 c db mt nc).map Feature.featid := by
      simp only [r, roles, List.mem_filter, Bool.not_eq_true', ← Bool.not_eq_true, List.contains_iff_mem]
    rw [hl, mem_lost0 h]
    constructor
    · rintro (⟨⟨h1, h2⟩, _⟩ | ⟨h1, h2, h3⟩)
      · exact ⟨h1, .inl h2⟩
      · exact ⟨h2, .inr ⟨h1, h3⟩⟩
    · rintro ⟨h1, h2⟩
      by_cases hm : (c.maxClone < nc ∨ 5 < nc) ∧ ∃ cam, ∃ x ∈ obs db f.featid cam, x.1 = mt
      · exact .inr ⟨hm.1, h1, hm.2⟩
      · refine .inl ⟨⟨h1, ?_⟩, ?_⟩
        · rcases h2 with h2 | h2
          · exact h2
          · exact absurd h2 hm
        · intro hc
          obtain ⟨g, hg, e⟩ := List.mem_map.1 hc
          obtain ⟨q1, ⟨q2, _⟩, q3⟩ := (mem_containing0 h g).1 hg
          exact hm ⟨q1, by rw [← e]; exact q3⟩
  · intro f hf
    simp only [r, roles, List.mem_filter] at hf
    exact ((mem_lost0 h f).1 hf.1).2.1
  · intro f hf
    simp only [r, roles] at hf
    have hm := List.mem_of_mem_drop hf
    rw [List.mem_filter] at hm
    obtain ⟨_, hm⟩ := hm
    simp only [reachedMax, List.any_eq_true, decide_eq_true_eq] at hm
    obtain ⟨e, he, hl⟩ := hm
    have hlive := ((mem_containing0 h f).1 (List.mem_of_mem_filter (List.mem_of_mem_drop hf))).2.1
    refine ⟨e.1, ?_⟩
    obtain ⟨⟨hi, hr⟩, _⟩ := h
    obtain ⟨db', e', r'⟩ := refines_hist hi
    rw [hr] at e'; cases e'
    have hw := (r'.wf.feat _ _ hlive.1).1
    have h1 : f.times.getL e.1 = e.2 := by rw [AMap.getL, AMap.get?_of_mem hw.nodup he]; rfl
    have h2 : (obs db f.featid e.1).length = e.2.length := by
      rw [← h1, ← hw.obs_times, List.length_map]
      simp [obs, hlive.1]
    rw [h2]; exact hl
  · have hlen : r.newSlam.length = _ := newSlam_length
    have hml : r.maxt.length = ((containing0 c db mt nc).filter (reachedMax c)).length -
        validAmount c delay lms ((containing0 c db mt nc).filter (reachedMax c)).length := by
      simp only [r, roles, List.length_take]; omega
    rw [hlen, ← List.length_eq_zero_iff, hml]
    have := plain_add c lms
    generalize ((containing0 c db mt nc).filter (reachedMax c)).length = k
    unfold validAmount
    simp only
    split_ifs with q1 q2
    · omega
    · omega
    · rcases Bool.eq_false_or_eq_true delay with hd | hd
      · simp only [hd, true_and] at q1 ⊢; omega
      · exact .inr (.inr (.inl hd))
  · by_cases h0 : r.newSlam = []
    · exact .inl h0
    · right
      have hlen : r.newSlam.length = _ := newSlam_length
      have : validAmount c delay lms ((containing0 c db mt nc).filter (reachedMax c)).length ≠ 0 := by
        rw [← hlen]; simpa using h0
      have hb := budget _ this
      rw [hlen]; push_cast; exact hb

/-- **C41** (landmark count) With tag tracks in the tag range: whichever delayed initialisations succeed, after the update the number of landmarks outside the tag range is at most
`max_slam_features` or the number before, and ids stay distinct. -/
theorem C41_landmark_budget (h : Spec.Db db) (ha : ∀ a, aruco = some a → Spec.Db a ∧ ∀ id, (a.get? id).isSome → (id : ℤ) ≤ 4 * c.maxAruco)
    (hn : (lms.map Prod.fst).Nodup) (ts mt : T) (nc : ℕ) (delay : Bool) (cams : List ℕ) (ok : Track T U → Bool) :
    let r := roles c db aruco ts mt nc delay cams lms
    let final := (delayedInit ok r.lms r.delayed).map Prod.fst
    final.Nodup ∧ ((Spec.plain c final : ℕ) : ℤ) ≤ max c.maxSlam (Spec.plain c (lms.map Prod.fst)) ∧
    (∀ x ∈ r.update, x.f.featid ∈ r.lms.map Prod.fst) ∧ (∀ x ∈ r.delayed, x.f.featid ∉ r.lms.map Prod.fst) := by
  intro r final
  obtain ⟨new, e1, e2, e3⟩ := delayed_ids ok r.delayed r.lms
  have hsub : (r.lms.map Prod.fst).Sublist (lms.map Prod.fst) := lms_sub
  have hnd : final.Nodup := by
    rw [show final = _ from e1]; exact e3 (hn.sublist hsub)
  have hx : ∀ i ∈ final, (4 * c.maxAruco < (i : ℤ)) → i ∈ lms.map Prod.fst ∨ i ∈ r.newSlam.map Feature.featid := by
    intro i hi hp
    rw [show final = _ from e1, List.mem_append] at hi
    rcases hi with hi | hi
    · exact .inl (hsub.subset hi)
    · obtain ⟨d, hd, rfl, _⟩ := e2 i hi
      rcases slam_cases h (fun a e => (ha a e).1) (List.mem_of_mem_filter hd) with ⟨_, a, q1, q2⟩ | ⟨_, q⟩ | ⟨q, _⟩
      · have := (ha a q1).2 d.f.featid (by rw [((mem_containing0 (ha a q1).1 d.f).1 q2).2.1.1]; rfl)
        omega
      · exact .inr (List.mem_map_of_mem q)
      · exact .inl q
  refine ⟨hnd, ?_, ?_, ?_⟩
  · have hle : Spec.plain c final ≤ Spec.plain c (lms.map Prod.fst) + r.newSlam.length := by
      have : (final.filter fun (i : ℕ) => decide (4 * c.maxAruco < (i : ℤ))) ⊆
          ((lms.map Prod.fst).filter fun (i : ℕ) => decide (4 * c.maxAruco < (i : ℤ))) ++ r.newSlam.map Feature.featid := by
        intro i hi
        rw [List.mem_filter, decide_eq_true_eq] at hi
        rw [List.mem_append, List.mem_filter, decide_eq_true_eq]
        rcases hx i hi.1 hi.2 with q | q
        · exact .inl ⟨q, hi.2⟩
        · exact .inr q
      have := ((hnd.filter _).subperm this).length_le
      simpa [Spec.plain] using this
    rcases (C41_selection h c aruco ts mt nc delay cams lms).2.2.2.2.2 with h0 | h0
    · rw [show r.newSlam = [] from h0] at hle
      simp only [List.length_nil, add_zero] at hle
      exact le_max_of_le_right (by exact_mod_cast hle)
    · refine le_max_of_le_left (le_trans ?_ h0)
      exact_mod_cast hle
  · intro x hx
    have := (List.mem_filter.1 hx).2
    rwa [List.contains_iff_mem] at this
  · intro x hx
    have := (List.mem_filter.1 hx).2
    rwa [Bool.not_eq_true', ← Bool.not_eq_true, List.contains_iff_mem] at this

/-- if no landmark's track reaches the oldest clone, the tracks given to the landmark updater are of distinct features, and a feature that is also a candidate of the window update is a landmark not seen since before the state's time. -/
theorem roles_distinct (h : Spec.Db db) (ha : ∀ a, aruco = some a → Spec.Db a ∧ ∀ id, (a.get? id).isSome → (id : ℤ) ≤ 4 * c.maxAruco)
    (hd : ∀ id, (db.get? id).isSome → 4 * c.maxAruco < (id : ℤ)) (hn : (lms.map Prod.fst).Nodup)
    (h1 : ∀ e ∈ lms, ∀ cam, ∀ x ∈ obs db e.1 cam, x.1 ≠ mt) (h2 : ∀ a, aruco = some a → ∀ e ∈ lms, ∀ cam, ∀ x ∈ obs a e.1 cam, x.1 ≠ mt) :
    let r := roles c db aruco ts mt nc delay cams lms
    (r.slam.map fun x => x.f.featid).Nodup ∧ ∀ f ∈ r.candidates, f.featid ∈ r.slam.map (fun x => x.f.featid) → f.featid ∈ lms.map Prod.fst ∧ ∀ cam, ∀ x ∈ obs db f.featid cam, x.1 < ts := by
  intro r
  set L := lms.flatMap fun e => lmTracks db aruco e.1 with hL
  obtain ⟨A, hA, hs⟩ : ∃ A : List (Feature T U), (A = [] ∨ ∃ a, aruco = some a ∧ A = containing0 c a mt nc) ∧
      r.slam = A.map (Track.mk true) ++ r.newSlam.map (Track.mk false) ++ L := by
    cases hb : aruco with
    | none => exact ⟨[], .inl rfl, by simp only [r, roles, hb, List.map_nil, hL]⟩
    | some a =>
      cases delay with
      | true => exact ⟨containing0 c a mt nc, .inr ⟨a, rfl, rfl⟩, by simp only [r, roles, hb, if_true, hL]⟩
      | false => exact ⟨[], .inl rfl, by simp only [r, roles, hb, Bool.false_eq_true, if_false, List.map_nil, hL]⟩
  have hAtag : ∀ f ∈ A, ∃ a, aruco = some a ∧ Spec.Live a f ∧ ∃ cam, ∃ x ∈ obs a f.featid cam, x.1 = mt := by
    intro f hf
    rcases hA with rfl | ⟨a, q, rfl⟩
    · simp at hf
    · have := (mem_containing0 (ha a q).1 f).1 hf
      exact ⟨a, q, this.2⟩
  have hAn : (A.map Feature.featid).Nodup := by
    rcases hA with rfl | ⟨a, q, rfl⟩
    · simp
    · exact containing0_nodup (ha a q).1
  have hAid : ∀ f ∈ A, (f.featid : ℤ) ≤ 4 * c.maxAruco := by
    intro f hf
    obtain ⟨a, q, l, _⟩ := hAtag f hf
    exact (ha a q).2 _ (by rw [l.1]; rfl)
  have hLid : ∀ x ∈ L, x.f.featid ∈ lms.map Prod.fst ∧
      ((x.tag = true ∧ ∃ a, aruco = some a ∧ a.get? x.f.featid = some x.f) ∨ (x.tag = false ∧ db.get? x.f.featid = some x.f)) := by
    intro x hx
    obtain ⟨e, he, hx⟩ := List.mem_flatMap.1 hx
    rcases mem_lmTracks hx with ⟨q1, a, q2, q3⟩ | ⟨q1, q2⟩
    · rw [db_featid (ha a q2).1 q3]
      exact ⟨List.mem_map_of_mem he, .inl ⟨q1, a, q2, q3⟩⟩
    · rw [db_featid h q2]
      exact ⟨List.mem_map_of_mem he, .inr ⟨q1, q2⟩⟩
  have hLn : (L.map fun x => x.f.featid).Nodup := by
    rw [hL, List.map_flatMap, List.nodup_flatMap]
    constructor
    · intro e he
      unfold lmTracks
      have hg : ∀ (d : DB T U), (getFeature d e.1 false).1 = d.get? e.1 := by
        intro d; unfold getFeature; cases d.get? e.1 <;> rfl
      cases hb : aruco with
      | none => simp only [hg, List.nil_append]; cases db.get? e.1 <;> simp
      | some a =>
        simp only [hg]
        cases q1 : a.get? e.1 with
        | none => cases db.get? e.1 <;> simp
        | some f1 =>
          cases q2 : db.get? e.1 with
          | none => simp
          | some f2 =>
            have := (ha a hb).2 e.1 (by rw [q1]; rfl)
            have := hd e.1 (by rw [q2]; rfl)
            omega
    · have : lms.Pairwise fun a b => a.1 ≠ b.1 := List.pairwise_map.1 hn
      refine this.imp fun {a b} hab => ?_
      intro i hi hj
      obtain ⟨x, hx, rfl⟩ := List.mem_map.1 hi
      obtain ⟨y, hy, e⟩ := List.mem_map.1 hj
      have e1 : x.f.featid = a.1 := by
        rcases mem_lmTracks hx with ⟨q1, a, q2, q3⟩ | ⟨q1, q2⟩
        · exact db_featid (ha a q2).1 q3
        · exact db_featid h q2
      have e2 : y.f.featid = b.1 := by
        rcases mem_lmTracks hy with ⟨q1, a, q2, q3⟩ | ⟨q1, q2⟩
        · exact db_featid (ha a q2).1 q3
        · exact db_featid h q2
      exact hab (by rw [← e1, ← e, e2])
  have hsel := (C41_selection h c aruco ts mt nc delay cams lms)
  have hCN : ((r.candidates ++ r.newSlam).map Feature.featid).Nodup := hsel.1
  have hcid : ∀ f ∈ r.candidates ++ r.newSlam, 4 * c.maxAruco < (f.featid : ℤ) ∧ (f.featid ∈ L.map (fun x => x.f.featid) → f.featid ∈ lms.map Prod.fst ∧ ∀ cam, ∀ x ∈ obs db f.featid cam, x.1 < ts) := by
    intro f hf
    obtain ⟨q1, q2⟩ := (hsel.2.1 f).1 hf
    have hp := hd f.featid (by rw [q1.1]; rfl)
    refine ⟨hp, fun hc => ?_⟩
    obtain ⟨x, hx, e⟩ := List.mem_map.1 hc
    obtain ⟨p1, _⟩ := hLid x hx
    rw [e] at p1
    refine ⟨p1, ?_⟩
    obtain ⟨e', he', e2⟩ := List.mem_map.1 p1
    rcases q2 with ⟨q2, _⟩ | ⟨_, cam', o', ho', q2⟩
    · exact q2
    · exact absurd q2 (h1 e' he' cam' o' (by rw [e2]; exact ho'))
  have hnew : ∀ f ∈ r.newSlam, f.featid ∉ L.map (fun x => x.f.featid) := by
    intro f hf hc
    have hm := List.mem_of_mem_drop hf
    obtain ⟨-, -, cam, o, ho, he⟩ := (mem_containing0 h f).1 (List.mem_filter.1 hm).1
    obtain ⟨x, hx, e⟩ := List.mem_map.1 hc
    obtain ⟨p1, _⟩ := hLid x hx
    rw [e] at p1
    obtain ⟨e', he', e2⟩ := List.mem_map.1 p1
    exact h1 e' he' cam o (by rw [e2]; exact ho) he
  have hAL : ∀ f ∈ A, f.featid ∉ L.map (fun x => x.f.featid) := by
    intro f hf hc
    obtain ⟨a, q, l, cam, o, ho, he⟩ := hAtag f hf
    obtain ⟨x, hx, e⟩ := List.mem_map.1 hc
    obtain ⟨p1, _⟩ := hLid x hx
    rw [e] at p1
    obtain ⟨e', he', e2⟩ := List.mem_map.1 p1
    exact h2 a q e' he' cam o (by rw [e2]; exact ho) he
  rw [hs]
  simp only [List.map_append, List.map_map, Function.comp_def]
  rw [List.map_append] at hCN
  have hmemL : ∀ i ∈ L.map (fun x => x.f.featid), i ∉ r.newSlam.map Feature.featid ∧ i ∉ A.map Feature.featid := by
    intro i hi
    refine ⟨fun hc => ?_, fun hc => ?_⟩
    · obtain ⟨f, hf, rfl⟩ := List.mem_map.1 hc
      exact hnew f hf hi
    · obtain ⟨f, hf, rfl⟩ := List.mem_map.1 hc
      exact hAL f hf hi
  have hmemA : ∀ i ∈ A.map Feature.featid, i ∉ r.candidates.map Feature.featid ∧ i ∉ r.newSlam.map Feature.featid := by
    intro i hi
    obtain ⟨g, hg, rfl⟩ := List.mem_map.1 hi
    have := hAid g hg
    refine ⟨fun hc => ?_, fun hc => ?_⟩
    · obtain ⟨f, hf, e⟩ := List.mem_map.1 hc
      have := (hcid f (List.mem_append_left _ hf)).1
      rw [e] at this; omega
    · obtain ⟨f, hf, e⟩ := List.mem_map.1 hc
      have := (hcid f (List.mem_append_right _ hf)).1
      rw [e] at this; omega
  rw [List.nodup_append] at hCN
  obtain ⟨n1, n2, n3⟩ := hCN
  simp only [List.nodup_append, List.mem_append]
  refine ⟨⟨⟨hAn, n2, ?_⟩, hLn, ?_⟩, ?_⟩
  · rintro a ha' b hb rfl; exact (hmemA a ha').2 hb
  · rintro a (ha' | ha') b hb rfl
    · exact (hmemL a hb).2 ha'
    · exact (hmemL a hb).1 ha'
  · rintro f hf ((hb | hb) | hb)
    · exact absurd (List.mem_map_of_mem hf) (hmemA _ hb).1
    · exact absurd rfl (n3 _ (List.mem_map_of_mem hf) _ hb)
    · exact (hcid f (List.mem_append_left _ hf)).2 hb

/-- **C41** (one role, as far as it goes) If the tag and tracker ids do not overlap and the track of every landmark has been seen at or after the state's time and has no observation at the oldest clone
(which is the case when it was consumed by the previous update), then over all three roles no feature is used twice. Missing for the full property: without that condition the
roles overlap, see `C41_overlap`. -/
theorem C41_one_role_partial (h : Spec.Db db) (ha : ∀ a, aruco = some a → Spec.Db a ∧ ∀ id, (a.get? id).isSome → (id : ℤ) ≤ 4 * c.maxAruco)
    (hd : ∀ id, (db.get? id).isSome → 4 * c.maxAruco < (id : ℤ)) (hn : (lms.map Prod.fst).Nodup)
    (h1 : ∀ e ∈ lms, ∀ f, db.get? e.1 = some f → (∃ cam, ∃ x ∈ obs db e.1 cam, ts ≤ x.1) ∧ ∀ cam, ∀ x ∈ obs db e.1 cam, x.1 ≠ mt)
    (h2 : ∀ a, aruco = some a → ∀ e ∈ lms, ∀ cam, ∀ x ∈ obs a e.1 cam, x.1 ≠ mt) :
    let r := roles c db aruco ts mt nc delay cams lms
    (r.candidates.map Feature.featid ++ r.update.map (fun x => x.f.featid) ++ r.delayed.map (fun x => x.f.featid)).Nodup := by
  intro r
  have hperm : (r.candidates.map Feature.featid ++ r.update.map (fun x => x.f.featid) ++ r.delayed.map (fun x => x.f.featid)).Perm
      (r.candidates.map Feature.featid ++ r.slam.map (fun x => x.f.featid)) := by
    rw [List.append_assoc, ← List.map_append]
    refine List.Perm.append_left _ (List.Perm.map _ ?_)
    exact List.filter_append_perm (fun x : Track T U => (r.lms.map Prod.fst).contains x.f.featid) r.slam
  rw [hperm.nodup_iff]
  have hget : ∀ e ∈ lms, ∀ cam, ∀ x ∈ obs db e.1 cam, ∃ f, db.get? e.1 = some f := by
    intro e _ cam x hx
    cases hg : db.get? e.1 with
    | none => simp [obs, hg] at hx
    | some f => exact ⟨f, rfl⟩
  obtain ⟨k1, k2⟩ := roles_distinct (ts := ts) (mt := mt) (nc := nc) (delay := delay) (cams := cams) h ha hd hn (fun e he cam x hx => by
    obtain ⟨f, hf⟩ := hget e he cam x hx
    exact (h1 e he f hf).2 cam x hx) h2
  have n1 : (r.candidates.map Feature.featid).Nodup := by
    have := (C41_selection h c aruco ts mt nc delay cams lms).1
    rw [List.map_append, List.nodup_append] at this
    exact this.1
  rw [List.nodup_append]
  refine ⟨n1, k1, ?_⟩
  rintro a ha' b hb rfl
  obtain ⟨f, hf, rfl⟩ := List.mem_map.1 ha'
  obtain ⟨p1, p2⟩ := k2 f hf hb
  obtain ⟨e, he, ee⟩ := List.mem_map.1 p1
  have hl := (((C41_selection h c aruco ts mt nc delay cams lms).2.1 f).1 (List.mem_append_left _ hf)).1.1
  obtain ⟨⟨cam, x, hx, hge⟩, -⟩ := h1 e he f (by rw [ee]; exact hl)
  rw [ee] at hx
  exact absurd (p2 cam x hx) (not_lt.2 hge)

end roles

/-- **C41** (budget of the MSCKF update) However `std::sort` orders equal lengths: for every non-negative `max_msckf_in_update` the cut returns at most that many of the candidates,
all of them if they fit, each at most once, and none of the dropped ones has a longer track than a kept one. -/
theorem C41_msckf_budget (c : SelCfg) (hm : 0 ≤ c.maxMsckf) (cand sorted : List (Feature T U)) (hp : sorted.Perm cand)
    (hs : sorted.Pairwise fun a b => ctMeas a ≤ ctMeas b) :
    ∃ kept, cutMsckf c sorted = some kept ∧ (kept.length : ℤ) = min c.maxMsckf cand.length ∧
      ∃ dropped, (dropped ++ kept).Perm cand ∧ ∀ d ∈ dropped, ∀ k ∈ kept, ctMeas d ≤ ctMeas k := by
  unfold cutMsckf
  have hl := hp.length_eq
  split_ifs with h1 h2
  · omega
  · refine ⟨_, rfl, ?_, sorted.take (sorted.length - c.maxMsckf.toNat), ?_, ?_⟩
    · rw [List.length_drop]; omega
    · rw [List.take_append_drop]; exact hp
    · intro d hd k hk
      rw [← List.take_append_drop (sorted.length - c.maxMsckf.toNat) sorted, List.pairwise_append] at hs
      exact hs.2.2 d hd k hk
  · exact ⟨_, rfl, by omega, [], by simpa using hp, by simp⟩

/-- **C41** (what is false) A negative `max_msckf_in_update` (accepted by the option parser) moves the iterator past the end of the vector. -/
theorem C41_negative_budget (c : SelCfg) (hm : c.maxMsckf < 0) (sorted : List (Feature T U)) : cutMsckf c sorted = none := by
  unfold cutMsckf
  rw [if_pos (by omega), if_pos hm]

/-- a feature seen once by camera 0 at time 1, as left behind for a landmark by an image that was not used for an update. -/
def exTrack : DB ℕ ℕ := updateFeature [] 10 1 0 0 0

theorem exTrack_db : Spec.Db exTrack :=
  ⟨⟨.step .empty (.update 10 1 0 0 0), rfl⟩, by
    intro id cam
    by_cases h : id = 10
    · subst h
      by_cases h2 : cam = 0
      · subst h2; decide
      · have : obs exTrack 10 cam = [] := by
          simp [obs, exTrack, updateFeature, AMap.get?, AMap.set, Feature.obs, Feature.pushObs, Feature.fresh, AMap.push, AMap.getL, h2, Ne.symm h2]
        rw [this]; exact List.Pairwise.nil
    · have : obs exTrack id cam = [] := by
        simp [obs, exTrack, updateFeature, AMap.get?, AMap.set, h, Ne.symm h]
      rw [this]; exact List.Pairwise.nil⟩

/-- **C41** (what is false) The three roles can overlap: a landmark whose track was last seen before the current image (e.g. in an image used for a zero velocity update) is taken as a lost MSCKF feature
and for the SLAM update of the same image. -/
theorem C41_overlap : Spec.Db exTrack ∧
    let r := roles ⟨11, 50, 0, 40⟩ exTrack none 2 0 5 true [0] [(10, ⟨0, 0, false⟩)]
    r.candidates.map Feature.featid = [10] ∧ r.update.map (fun x => x.f.featid) = [10] := ⟨exTrack_db, by decide⟩

/-- a database with a lost feature (10), a long track (11), a short one at the oldest clone (12) and the fresh track of a landmark (13). -/
def exDb : DB ℕ ℕ :=
  [(10, ⟨10, false, [(0, [0, 0])], [(0, [0, 0])], [(0, [0, 1])]⟩), (11, ⟨11, false, [(0, [0, 0, 0])], [(0, [0, 0, 0])], [(0, [0, 1, 2])]⟩),
    (12, ⟨12, false, [(0, [0, 0])], [(0, [0, 0])], [(0, [0, 2])]⟩), (13, ⟨13, false, [(0, [0])], [(0, [0])], [(0, [2])]⟩)]

/-- all roles are filled, and a landmark without a track (14) is marginalised. -/
example : let r := roles ⟨2, 2, 2, 2⟩ exDb none 2 0 3 true [0] [(13, ⟨0, 0, false⟩), (14, ⟨0, 0, false⟩), (5, ⟨0, 0, false⟩)]
    r.lost.map Feature.featid = [] ∧ r.marg.map Feature.featid = [10, 12] ∧ r.newSlam = [] ∧ r.maxt.map Feature.featid = [11] ∧
    r.update.map (fun x => x.f.featid) = [13] ∧ r.delayed.map (fun x => x.f.featid) = [] ∧ r.lms.map Prod.fst = [13, 5] := by decide

example : let r := roles ⟨2, 3, 2, 2⟩ exDb none 2 1 3 true [0] [(13, ⟨0, 0, false⟩), (14, ⟨0, 2, false⟩)]
    r.lost.map Feature.featid = [] ∧ r.marg.map Feature.featid = [10] ∧ r.newSlam.map Feature.featid = [11] ∧
    r.update.map (fun x => x.f.featid) = [13] ∧ r.delayed.map (fun x => x.f.featid) = [11] ∧ r.lms.map Prod.fst = [13] := by decide

theorem exDb_hist : ∃ h : Hist ℕ ℕ, h.run = some exDb :=
  ⟨.step (.step (.step (.step (.step (.step (.step (.step .empty (.update 10 0 0 0 0)) (.update 10 1 0 0 0)) (.update 11 0 0 0 0)) (.update 11 1 0 0 0)) (.update 11 2 0 0 0))
    (.update 12 0 0 0 0)) (.update 12 2 0 0 0)) (.update 13 2 0 0 0), by decide⟩

/-- the hypotheses of `C41_one_role_partial` hold for it. -/
example : let lms : List (ℕ × Lm) := [(13, ⟨0, 0, false⟩), (14, ⟨0, 2, false⟩)]
    (∀ e ∈ lms, ∀ f, exDb.get? e.1 = some f → (∃ cam, ∃ x ∈ obs exDb e.1 cam, 2 ≤ x.1) ∧ ∀ cam, ∀ x ∈ obs exDb e.1 cam, x.1 ≠ 1) ∧
    (∀ id, (exDb.get? id).isSome → 4 * (2 : ℤ) < (id : ℤ)) := by
  have hk : ∀ cam, cam ≠ 0 → ∀ id, obs exDb id cam = [] := by
    intro cam hc id
    by_cases h : id ∈ [10, 11, 12, 13]
    · simp only [List.mem_cons, List.not_mem_nil, or_false] at h
      rcases h with rfl | rfl | rfl | rfl <;>
        simp [obs, exDb, AMap.get?, Feature.obs, AMap.getL, Ne.symm hc]
    · simp only [List.mem_cons, List.not_mem_nil, or_false, not_or] at h
      obtain ⟨h1, h2, h3, h4⟩ := h
      simp [obs, exDb, AMap.get?, Ne.symm h1, Ne.symm h2, Ne.symm h3, Ne.symm h4]
  refine ⟨?_, ?_⟩
  · intro e he f hf
    simp only [List.mem_cons, List.not_mem_nil, or_false] at he
    rcases he with rfl | rfl
    · refine ⟨⟨0, by decide⟩, fun cam => ?_⟩
      by_cases hc : cam = 0
      · subst hc; decide
      · rw [hk cam hc]; simp
    · simp [exDb, AMap.get?] at hf
  · intro id hid
    by_contra hc
    have : id ≤ 8 := by omega
    interval_cases id <;> exact absurd hid (by decide)

/-! ### C42 -/

/-- **C42** (positive batch size) For every list and every `max_slam_in_update > 0` the loop ends after at most as many rounds as there are landmarks; the batches in order are the list
(so each landmark is in exactly one batch, once), each batch is non-empty and at most of that size. -/
theorem C42_batches_partial {α : Type} (m : ℤ) (hm : 0 < m) : ∀ (fuel : ℕ) (l : List α), l.length ≤ fuel →
    ∃ bs, batches m fuel l = some bs ∧ bs.flatten = l ∧ ∀ b ∈ bs, b ≠ [] ∧ (b.length : ℤ) ≤ m
  | fuel, [], _ => ⟨[], by cases fuel <;> rfl, rfl, by simp⟩
  | 0, x :: xs, h => by simp at h
  | fuel + 1, x :: xs, h => by
    rw [batches]
    set k := if (((x :: xs).length : ℕ) : ℤ) < m then (((x :: xs).length : ℕ) : ℤ) else m with hk
    have hk1 : 0 < k := by
      have : 0 < (x :: xs).length := by simp
      rw [hk]; split_ifs <;> omega
    have hk2 : k ≤ m := by rw [hk]; split_ifs <;> omega
    have hk3 : k ≤ (x :: xs).length := by rw [hk]; split_ifs <;> omega
    rw [if_neg (by omega)]
    obtain ⟨bs, h1, h2, h3⟩ := C42_batches_partial m hm fuel ((x :: xs).drop k.toNat) (by rw [List.length_drop]; omega)
    rw [h1]
    refine ⟨_, rfl, by rw [List.flatten_cons, h2, List.take_append_drop], ?_⟩
    intro b hb
    rcases List.mem_cons.1 hb with rfl | hb
    · refine ⟨?_, ?_⟩
      · intro e
        have := congrArg List.length e
        rw [List.length_take] at this
        simp only [List.length_nil, List.length_cons] at this hk3
        omega
      · rw [List.length_take]; omega
    · exact h3 b hb

/-- **C42** (what is false) With `max_slam_in_update` zero the loop never ends as soon as there is a landmark to update: no number of iterations suffices. A negative value moves the iterators before the beginning
of the vector at once. -/
theorem C42_nonpositive_never_ends {α : Type} (m : ℤ) (hm : m ≤ 0) (x : α) (xs : List α) : ∀ fuel, batches m fuel (x :: xs) = none
  | 0 => rfl
  | fuel + 1 => by
    rw [batches]
    rw [if_neg (show ¬ (((x :: xs).length : ℕ) : ℤ) < m by simp; omega)]
    split_ifs with h
    · rfl
    · obtain rfl : m = 0 := by omega
      simp only [Int.toNat_zero, List.drop_zero, C42_nonpositive_never_ends 0 le_rfl x xs fuel, Option.map_none]

example : batches 2 10 [1, 2, 3, 4, 5] = some [[1, 2], [3, 4], [5]] := by decide
example : batches 0 10 [1] = none := by decide

end Verif.Vio
