import Verif.Vio.PropsUsed

/-!
# One image, from end to end (C111)
-/

set_option autoImplicit false
set_option linter.unusedVariables false
open Classical

namespace Verif.Vio

open Verif Verif.Types Verif.St Verif.Imu Verif.Prop_ Verif.Feat Verif.Disp

variable {lib : Lib} {o : Opts} {s s' : State} {M M' : ℕ → Upd.LMeta} {F : FCfg} {I : Img}

/-! ## specification -/

namespace Spec

/-- `s'` is `s` without the variables `gone`: estimates and first estimates stay, and so does every joint covariance of the other variables. -/
structure Dropped (s s' : State) (gone : ℕ → Prop) : Prop where
  vars : s'.vars = s.vars.filter fun u => decide (¬ gone u)
  val : ∀ u, (s'.obj u).val = (s.obj u).val ∧ (s'.obj u).fej = (s.obj u).fej
  cov : ∀ order : List Ref, (∀ r ∈ order, ¬ gone r.1) → St.Spec.SameMat (getMarginal s' order) (getMarginal s order)

/-- landmarks that are to be dropped: outside the tag ids, and marked before, or without a track although the image is of their camera, or rejected more than once. -/
def Lost (o : Opts) (s : State) (M : ℕ → Upd.LMeta) (db : DB ℝ Uv) (cams : List ℕ) (e : ℕ × ℕ) : Prop :=
  4 * o.maxAruco < e.1 ∧ ((s.obj e.2).marg = true ∨ (db.get? e.1 = none ∧ ∃ c ∈ cams, (M e.2).ucam = some c) ∨ 1 < (M e.2).fails)

/-- the update with features that are not landmarks (C95): the posterior given all features that pass their test, with the landmarks eliminated. -/
def WindowStep (lib : Lib) (C : Upd.MCfg) (tri : Upd.Track → Option Upd.Fix) (fs : List Upd.Track) (s s' : State) : Prop :=
  ∃ items : List Upd.Spec.Item, items.map (fun i => (i.f, i.x)) = Upd.Spec.candidates s tri fs ∧ (∀ i ∈ items, i.OK s C) ∧
    let acc := items.filter fun i => decide (i.Pass lib s C)
    (acc = [] → s' = s) ∧
    (acc ≠ [] → St.Spec.Posterior s s' ((1 / C.sig2) • (acc.map fun i => (i.F s).transpose * i.F s).sum) ((1 / C.sig2) • (acc.map fun i => (i.F s).transpose.mulVec i.r).sum))

/-- one update with observations of landmarks (C96): the posterior given all that pass their test; the others are counted as failures. -/
def LandmarkStep (lib : Lib) (C : Upd.SCfg) (fs : List Upd.Track) (s : State) (M : ℕ → Upd.LMeta) (s' : State) (M' : ℕ → Upd.LMeta) : Prop :=
  ∃ items : List Upd.Spec.SItem, items.map (fun i => i.f) = Upd.Spec.slamTracks s M fs ∧ (∀ i ∈ items, i.OK s M C) ∧
    let acc := items.filter fun i => decide (i.Pass lib s C)
    (acc = [] → s' = s) ∧
    (acc ≠ [] → St.Spec.Posterior s s' (acc.map fun i => (1 / i.sig s C) • ((i.F s).transpose * i.F s)).sum (acc.map fun i => (1 / i.sig s C) • (i.F s).transpose.mulVec i.r).sum) ∧
    ∀ u, M' u = { M u with fails := (M u).fails + Upd.Spec.misses lib s C items u }

/-- the landmark updates one after the other. -/
inductive LandmarkSteps (lib : Lib) (C : Upd.SCfg) : List (List Upd.Track) → State → (ℕ → Upd.LMeta) → State → (ℕ → Upd.LMeta) → Prop
  | nil (s : State) (M : ℕ → Upd.LMeta) : LandmarkSteps lib C [] s M s M
  | cons {b : List Upd.Track} {bs : List (List Upd.Track)} {s s1 s2 : State} {M M1 M2 : ℕ → Upd.LMeta} : LandmarkStep lib C b s M s1 M1 → LandmarkSteps lib C bs s1 M1 s2 M2 → LandmarkSteps lib C (b :: bs) s M s2 M2

/-- the landmarks of the list that are anchored at time `mt` are moved, one after the other, to the clone of the current time in the same camera (C105 says what one move does); the others stay. -/
inductive AnchorSteps (lib : Lib) (o : Opts) (C : Upd.SCfg) (mt : ℝ) : List (ℕ × ℕ) → State → (ℕ → Upd.LMeta) → State → (ℕ → Upd.LMeta) → Prop
  | nil (s : State) (M : ℕ → Upd.LMeta) : AnchorSteps lib o C mt [] s M s M
  | stay {e : ℕ × ℕ} {l : List (ℕ × ℕ)} {s s2 : State} {M M2 : ℕ → Upd.LMeta} : ¬ (Land.Spec.Anchored (M e.2).rep ∧ (M e.2).t = mt) → AnchorSteps lib o C mt l s M s2 M2 → AnchorSteps lib o C mt (e :: l) s M s2 M2
  | move {e : ℕ × ℕ} {c : ℕ} {l : List (ℕ × ℕ)} {s s1 s2 : State} {M M1 M2 : ℕ → Upd.LMeta} : Land.Spec.Anchored (M e.2).rep → (M e.2).t = mt → St.Spec.ProgOK lib o s → Upd.Spec.Movable o s M e.2 c c s.ts →
      Upd.anchorStep lib C e.2 c s.ts s M = some (s1, M1) → AnchorSteps lib o C mt l s1 M1 s2 M2 → AnchorSteps lib o C mt (e :: l) s M s2 M2

/-- everything that the measurements of an image do to the propagated state `s`: lost landmarks are dropped; one update with the features `up` of the window; the landmark updates, batch by batch; the new landmarks, one after the other; and if there are
more clones than allowed the landmarks of the oldest are anchored anew, and then it is dropped. Each update works on the state the one before left, and triangulates with that state's poses. -/
def ImageUpdate (lib : Lib) (o : Opts) (F : FCfg) (I : Img) (up : List (Feature ℝ Uv)) (bs : List (List (Track ℝ Uv))) (del : List (Track ℝ Uv)) (s : State) (M : ℕ → Upd.LMeta) (s' : State) (M' : ℕ → Upd.LMeta) : Prop :=
  ∃ s2 s3 s4 M4 s5 M5 ids,
    (Dropped s s2 (fun u => ∃ e ∈ s.slam, e.2 = u ∧ Lost o s M I.db I.cams e) ∧ s2.slam = s.slam.filter (fun e => decide (¬ Lost o s M I.db I.cams e)) ∧ s2.clones = s.clones ∧ s2.ts = s.ts) ∧
    WindowStep lib F.msckf (triOf F.tri I s2) (up.map toTrack) s2 s3 ∧
    LandmarkSteps lib F.slam (bs.map fun b => b.map fun x => toTrack x.f) s3 M s4 M4 ∧
    Upd.Spec.Chain lib F.slam (Upd.Spec.candidates s4 (triOf F.tri I s4) (del.map fun x => toTrack x.f)) s4 M4 s5 M5 ids ∧
    (s.clones.length ≤ o.maxClones → s' = s5 ∧ M' = M5) ∧
    (o.maxClones < s.clones.length → ∃ mt w s6, (mt, w) ∈ s.clones ∧ (∀ c ∈ s.clones, mt ≤ c.1) ∧ AnchorSteps lib o F.slam mt s5.slam s5 M5 s6 M' ∧ Dropped s6 s' (fun u => u = w) ∧ s'.clones = s.clones.erase (mt, w))

end Spec

/-! ## the steps -/

theorem lost_iff (hu : ∀ e ∈ s.slam, (M e.2).ucam ≠ none) (db : DB ℝ Uv) (cams : List ℕ) {e : ℕ × ℕ} (he : e ∈ s.slam) :
    Spec.Lost o s M db cams e ↔ ((lmFlag db cams (lmSeen s M e)).2.marg = true ∧ 4 * o.maxAruco < e.1) := by
  obtain ⟨c, hc⟩ := Option.ne_none_iff_exists'.1 (hu e he)
  unfold Spec.Lost
  simp only [lmFlag, lmSeen, hc, Option.getD_some, Bool.or_eq_true, Bool.and_eq_true, List.contains_iff_mem, decide_eq_true_eq, Option.some.injEq]
  have : (getFeature db e.1 false).1.isNone = true ↔ db.get? e.1 = none := by
    unfold getFeature
    cases db.get? e.1 <;> simp
  rw [this]
  constructor
  · rintro ⟨h, (h' | ⟨h', c', h1, rfl⟩ | h')⟩
    · exact ⟨.inl (.inl h'), h⟩
    · exact ⟨.inl (.inr ⟨h', h1⟩), h⟩
    · exact ⟨.inr h', h⟩
  · rintro ⟨(h' | ⟨h', h1⟩) | h', h⟩
    · exact ⟨h, .inl h'⟩
    · exact ⟨h, .inr (.inl ⟨h', c, h1, rfl⟩)⟩
    · exact ⟨h, .inr (.inr h')⟩

theorem resolve_obj {s1 : State} (h : ∀ u, (s1.obj u).id = (s.obj u).id ∧ (s1.obj u).val = (s.obj u).val) (hn : s1.n = s.n) (r : Ref) : resolve s1 r = resolve s r := by
  obtain ⟨a, b⟩ := h r.1
  unfold resolve
  simp only [a, b, hn]

theorem marginal_obj {s1 : State} (h : ∀ u, (s1.obj u).id = (s.obj u).id ∧ (s1.obj u).val = (s.obj u).val) (hP : s1.P = s.P) (hn : s1.n = s.n) (order : List Ref) : getMarginal s1 order = getMarginal s order := by
  have : resolveAll s1 order = resolveAll s order := by
    induction order with
    | nil => rfl
    | cons r t ih => simp only [resolveAll, resolve_obj h hn r, ih]
  unfold getMarginal
  rw [this, hP]

theorem flags_same (fl : ℕ × ℕ → Bool) : ∀ (l : List (ℕ × ℕ)) {s s1 : State}, run lib s (l.map fun e => Op.setMarg e.2 (fl e)) = some s1 →
    s1.P = s.P ∧ s1.n = s.n ∧ ∀ u, (s1.obj u).id = (s.obj u).id ∧ (s1.obj u).val = (s.obj u).val ∧ (s1.obj u).fej = (s.obj u).fej
  | [], s, s1, h => by
    simp only [List.map_nil, run, Option.some.injEq] at h
    subst h; exact ⟨rfl, rfl, fun u => ⟨rfl, rfl, rfl⟩⟩
  | e :: l, s, s1, h => by
    simp only [List.map_cons, run, St.step, Option.bind_eq_bind, Option.bind_some] at h
    obtain ⟨h1, h2, h3⟩ := flags_same fl l h
    refine ⟨h1, h2, fun u => ?_⟩
    obtain ⟨k1, k2, k3⟩ := h3 u
    rw [k1, k2, k3]
    simp only
    split_ifs with hu
    · rw [hu]; exact ⟨rfl, rfl, rfl⟩
    · exact ⟨rfl, rfl, rfl⟩

theorem dropped_lost (hs : Spec.FrameOK lib o s M) (db : DB ℝ Uv) (cams : List ℕ) {s1 s2 : State}
    (h1 : run lib s (flagOps s.slam ((s.slam.map (lmSeen s M)).map (lmFlag db cams))) = some s1) (h2 : margSlam s1 = some s2) :
    Spec.Dropped s s2 (fun u => ∃ e ∈ s.slam, e.2 = u ∧ Spec.Lost o s M db cams e) ∧ s2.slam = s.slam.filter (fun e => decide (¬ Spec.Lost o s M db cams e)) := by
  have hW := prog_W hs.prog.prog
  rw [List.map_map, flagOps_eq] at h1
  obtain ⟨s1', k1, k2, ⟨obj, k3⟩, -, k5, -⟩ := flags_run (lib := lib) (o := o) (fun e => ((lmFlag db cams ∘ lmSeen s M) e).2.marg) s.slam s hs.prog
  rw [h1] at k1
  obtain rfl := Option.some.inj k1
  have k5 := k5 hW.suid
  obtain ⟨f1, f2, f3⟩ := flags_same _ s.slam h1
  obtain ⟨s2', m1, m2, m3, -, m5, -, -, m8⟩ := C12_marginalize_slam k2.prog
  rw [h2] at m1
  obtain rfl := Option.some.inj m1
  have e1 : s1.slam = s.slam ∧ s1.vars = s.vars := by rw [k3]; exact ⟨rfl, rfl⟩
  have hg : ∀ e ∈ s.slam, ((s1.obj e.2).marg = true ∧ 4 * o.maxAruco < e.1) ↔ Spec.Lost o s M db cams e := fun e he => by
    rw [k5 e he, lost_iff hs.ucam db cams he]; rfl
  have hg' : ∀ u, (∃ f ∈ s1.slam, f.2 = u ∧ (s1.obj f.2).marg = true ∧ 4 * o.maxAruco < f.1) ↔ ∃ e ∈ s.slam, e.2 = u ∧ Spec.Lost o s M db cams e := fun u => by
    rw [e1.1]
    constructor
    · rintro ⟨e, h, h', h''⟩; exact ⟨e, h, h', (hg e h).1 h''⟩
    · rintro ⟨e, h, h', h''⟩; exact ⟨e, h, h', (hg e h).2 h''⟩
  refine ⟨⟨?_, fun u => ?_, fun order ho => ?_⟩, ?_⟩
  · rw [m3, e1.2]
    refine List.filter_congr fun u _ => ?_
    rw [decide_eq_decide, hg' u]
  · obtain ⟨a, b, -⟩ := m5 u
    obtain ⟨-, c, d⟩ := f3 u
    exact ⟨a.trans c, b.trans d⟩
  · have := m8 order fun r hr => by rw [hg']; exact ho r hr
    rw [marginal_obj (fun u => ⟨(f3 u).1, (f3 u).2.1⟩) f1 f2] at this
    exact this
  · rw [m2, e1.1]
    refine List.filter_congr fun e he => ?_
    rw [decide_eq_decide]
    exact not_congr (hg e he)

theorem batches_chain (hlib : St.Spec.LibOK lib) {C : Upd.SCfg} (hS : 0 < C.sigS) (hA : 0 < C.sigA) : ∀ (bs : List (List Upd.Track)) (s : State) (M : ℕ → Upd.LMeta), Spec.FrameOK lib o s M →
    (∀ b ∈ bs, ∀ f ∈ b, TrackOK o f ∧ ∃ u, (f.id, u) ∈ s.slam) →
    ∀ s' M', slamBatches lib C bs (s, M) = some (s', M') → Spec.LandmarkSteps lib C bs s M s' M'
  | [], s, M, hs, _, s', M', h => by
    simp only [slamBatches, Option.some.injEq, Prod.mk.injEq] at h
    obtain ⟨rfl, rfl⟩ := h
    exact .nil _ _
  | b :: bs, s, M, hs, hb, s', M', h => by
    simp only [slamBatches, Option.bind_eq_bind, Option.bind_eq_some_iff] at h
    obtain ⟨R, hR, h⟩ := h
    obtain ⟨-, items, i1, i2, -, i4, i5, hM, -, hp, hc, hl, -, ht⟩ := Upd.C96_slam_update hlib hs.prog hs.lms.sizes hS hA b (fun f hf => (hb b (by simp) f hf).1.1) hR
    have hk := slam_kind (reach_inv hs.prog.prog.reach).nodup hR
    have h1 : Spec.FrameOK lib o R.s R.M := by
      refine ⟨hp, lms_keep hs.lms (fun e he => by rw [hl] at he; exact he) (fun c h => by rw [hc]; exact h) (fun e _ => hk e.2) fun e _ => ?_, ?_, ?_⟩
      · rw [hM]; exact ⟨rfl, rfl, rfl⟩
      · rw [hl]; intro e he; rw [hM]; exact hs.ucam e he
      · rw [hc, ht]; exact hs.times
    exact .cons ⟨items, i1, i2, i4, i5, hM⟩ (batches_chain hlib hS hA bs R.s R.M h1 (fun b' hb' f hf => by rw [hl]; exact hb b' (by simp [hb']) f hf) s' M' h)

theorem anchors_chain (hlib : St.Spec.LibOK lib) {C : Upd.SCfg} {mt : ℝ} : ∀ (l : List (ℕ × ℕ)) (s : State) (M : ℕ → Upd.LMeta), St.Spec.ProgOK lib o s → Upd.Spec.LmsOK o s M →
    (∃ w, (s.ts, w) ∈ s.clones) → (∀ c ∈ s.clones, mt ≤ c.1) → (∀ e ∈ l, e ∈ s.slam) →
    ∀ s' M', Upd.anchorLoop lib C mt l (s, M) = some (s', M') → Spec.AnchorSteps lib o C mt l s M s' M'
  | [], s, M, hs, hl, _, _, _, s', M', h => by
    simp only [Upd.anchorLoop, Option.some.injEq, Prod.mk.injEq] at h
    obtain ⟨rfl, rfl⟩ := h
    exact .nil _ _
  | e :: l, s, M, hs, hl, hts, hmt, he, s', M', h => by
    have hW := prog_W hs.prog
    simp only [Upd.anchorLoop, Option.bind_eq_bind, Option.bind_eq_some_iff] at h
    obtain ⟨⟨s1, M1⟩, h1, h⟩ := h
    obtain ⟨s1', M1', k1, k2, m1⟩ := Upd.anchorOne_spec (C := C) (mt := mt) hlib hs hl hts hmt (he e (by simp))
    rw [h1] at k1
    obtain ⟨rfl, rfl⟩ := Prod.mk.inj (Option.some.inj k1)
    have g1 : s1.clones = s.clones ∧ s1.ts = s.ts ∧ s1.slam = s.slam := by obtain ⟨P, b, rfl⟩ := m1.only; exact ⟨rfl, rfl, rfl⟩
    have hrest := anchors_chain hlib (C := C) (mt := mt) l s1 M1 k2 m1.ok (by rw [g1.1, g1.2.1]; exact hts) (by rw [g1.1]; exact hmt) (fun x hx => by rw [g1.2.2]; exact he x (by simp [hx])) s' M' h
    obtain ⟨a1, a2⟩ := hl.1 e (he e (by simp))
    unfold Upd.anchorOne at h1
    simp only at h1
    by_cases hg : (M e.2).rep = .global3d ∨ (M e.2).rep = .globalFull
    · rw [if_pos hg] at h1
      obtain ⟨rfl, rfl⟩ := Prod.mk.inj (Option.some.inj h1)
      refine .stay (fun ha => ?_) hrest
      rcases hg with h | h <;> rw [h] at ha <;> simp [Land.Spec.Anchored] at ha
    rw [if_neg hg] at h1
    have ha : Land.Spec.Anchored (M e.2).rep := by
      push Not at hg
      revert a1 hg
      cases (M e.2).rep <;> simp [Land.Spec.Anchored]
    obtain ⟨⟨c, hc, hcn⟩, w, hw⟩ := a2 ((Land.C28_relative _).2 ha)
    rw [if_neg (not_not.2 (hmt _ hw))] at h1
    by_cases ht : (M e.2).t = mt
    · rw [if_pos ht, hc, Option.bind_some] at h1
      exact .move ha ht hs ⟨(hW.sin e (he e (by simp))).1, hl.2 e (he e (by simp)), ha, hc, hcn, ⟨w, hw⟩, hcn, hts⟩ h1 hrest
    · rw [if_neg ht] at h1
      obtain ⟨rfl, rfl⟩ := Prod.mk.inj (Option.some.inj h1)
      exact .stay (fun h => ht h.2) hrest

theorem dropped_old (hs : St.Spec.Prog lib o s) (hbig : o.maxClones < s.clones.length) (h : margOld s = some s') :
    ∃ c ∈ s.clones, (∀ d ∈ s.clones, c.1 ≤ d.1) ∧ s'.clones = s.clones.erase c ∧ Spec.Dropped s s' fun u => u = c.2 := by
  have hW := prog_W hs
  obtain ⟨s2, k1, -, k3⟩ := C11_oldest_removed hs
  rw [h] at k1
  obtain rfl := Option.some.inj k1
  obtain ⟨c, hc, hmin, hcl, hvr, -⟩ := k3 hbig
  refine ⟨c, hc, hmin, hcl, ?_⟩
  unfold margOld at h
  rw [hW.opts, if_pos hbig, Option.bind_eq_bind, Option.bind_eq_some_iff] at h
  obtain ⟨t, ht, h⟩ := h
  obtain ⟨c', s1, hc', h1, rfl⟩ := dropClone_some h
  obtain ⟨m1, m2, m3, -⟩ := C04_marginalize hs.reach _ h1
  have hnd := (reach_inv hs.reach).nodup
  have hcc : c'.2 = c.2 := by
    have h2 : s.vars.erase c'.2 = s.vars.erase c.2 := by rw [← m3]; exact hvr
    by_contra hne
    have : c.2 ∈ s.vars.erase c'.2 := (hnd.mem_erase_iff).2 ⟨fun h => hne h.symm, (hW.cin c hc).1⟩
    rw [h2] at this
    exact ((hnd.mem_erase_iff).1 this).1 rfl
  refine ⟨?_, m2, fun order ho => ?_⟩
  rotate_left
  · rw [marginal_obj (s := s1) (s1 := { s1 with clones := s1.clones.filter fun c => decide (c.1 ≠ t) }) (fun u => ⟨rfl, rfl⟩) rfl rfl]
    exact m1 order fun r hr => hcc ▸ ho r hr
  rw [hvr, hnd.erase_eq_filter]
  refine List.filter_congr fun u _ => ?_
  by_cases hu : u = c.2 <;> simp [hu]

/-- the updates of one image on the state. -/
theorem updateAll_image (hlib : St.Spec.LibOK lib) (hF : Spec.CfgOK o F) (hI : Spec.ImgOK o I) (hs : Spec.FrameOK lib o s M) (hts : ∃ w, (s.ts, w) ∈ s.clones) (hlen : s.clones.length ≤ o.maxClones + 1)
    {p : Plan} (hp : plan lib F I I.db s M = some p) (hu : updateAll lib F I p M = some (s', M')) :
    ∃ bs, bs.flatten = p.upd ∧ (∀ b ∈ bs, b ≠ [] ∧ (b.length : ℤ) ≤ F.maxUp) ∧ Spec.ImageUpdate lib o F I p.up bs p.del s M s' M' := by
  have hW := prog_W hs.prog.prog
  have hdp : ∃ s1, run lib s (flagOps s.slam ((s.slam.map (lmSeen s M)).map (lmFlag I.db I.cams))) = some s1 ∧ margSlam s1 = some p.s := by
    unfold plan at hp
    simp only [Option.bind_eq_bind, Option.bind_eq_some_iff, Option.some.injEq] at hp
    obtain ⟨mt, -, lms, h2, s1, h3, s2, h4, up, -, rfl⟩ := hp
    rw [lmView_eq hs.ucam] at h2
    obtain rfl := Option.some.inj h2
    exact ⟨s1, h3, h4⟩
  obtain ⟨lms, q1, q2, q3, q4, q5⟩ := plan_some hp
  obtain ⟨s1, hd1, hd2⟩ := hdp
  obtain ⟨s1', s2', a1, a2, a3, a4, a5, -⟩ := marg_step hs I.db I.cams
  rw [hd1] at a1
  obtain rfl := Option.some.inj a1
  rw [hd2] at a2
  obtain rfl := Option.some.inj a2
  obtain ⟨d1, d2⟩ := dropped_lost hs I.db I.cams hd1 hd2
  set r := frameRoles F I I.db s p.mt lms with hr
  have hmem := roles_mem (c := F.sel s.opts) (db := I.db) (ar := I.aruco) (ts := s.ts) (mt := p.mt) (nc := s.clones.length) (dl := decide (F.dtSlam ≤ I.t - F.startup)) (cams := I.cams)
    (lms := lms)
  have hcand : ∀ f ∈ r.candidates, TrackOK o (toTrack f) := fun f hf => hI.db.track (hmem.1 f hf)
  have hslam : ∀ x ∈ r.slam, TrackOK o (toTrack x.f) := fun x hx => by
    rcases hmem.2 x hx with h | ⟨a, k, h, hk⟩
    · exact hI.db.track h
    · exact (hI.aruco a h).track ⟨k, hk⟩
  have hups : ∀ f ∈ p.up, f ∈ r.candidates := fun f hf => (hF.sort r.candidates).subset ((cut_sub q3).subset hf)
  have hupt : ∀ f ∈ p.up.map toTrack, TrackOK o f := fun f hf => by
    obtain ⟨g, hg, rfl⟩ := List.mem_map.1 hf
    exact hcand g (hups g hg)
  unfold updateAll at hu
  simp only [Option.bind_eq_bind, Option.bind_eq_some_iff] at hu
  obtain ⟨s3, b1, bs, c1, ⟨s4, M4⟩, e1, ⟨s5, M5⟩, f1, hu⟩ := hu
  obtain ⟨s3', b1', b2, b3, b4, b5, -⟩ := msckf_ok (I := I) hlib hF a3 (fs := p.up.map toTrack) hupt
  rw [b1] at b1'
  obtain rfl := Option.some.inj b1'
  obtain ⟨bs', c1', c2, c3⟩ := C42_batches_partial F.maxUp hF.batch p.upd.length p.upd le_rfl
  rw [c1] at c1'
  obtain rfl := Option.some.inj c1'
  have hbs : ∀ b ∈ bs.map (fun b => b.map fun x => toTrack x.f), ∀ f ∈ b, TrackOK o f ∧ ∃ u, (f.id, u) ∈ s3.slam := by
    intro b hb f hf
    obtain ⟨b0, hb0, rfl⟩ := List.mem_map.1 hb
    obtain ⟨x, hx, rfl⟩ := List.mem_map.1 hf
    have hx' : x ∈ r.slam.filter (isLm p.s) := by
      rw [← q4, ← c2]; exact List.mem_flatten.2 ⟨b0, hb0, hx⟩
    obtain ⟨h1, h2⟩ := List.mem_filter.1 hx'
    refine ⟨hslam x h1, ?_⟩
    simp only [isLm, List.contains_iff_mem, List.mem_map] at h2
    obtain ⟨e, he, h⟩ := h2
    exact ⟨e.2, by rw [b5]; show (x.f.featid, e.2) ∈ _; rw [← h]; exact he⟩
  obtain ⟨s4', M4', e1', e2, e3, e4, e5, -⟩ := batches_ok hlib hF.sigS hF.sigA _ s3 M b2 hbs
  rw [e1] at e1'
  obtain ⟨rfl, rfl⟩ := Prod.mk.inj (Option.some.inj e1')
  have hdt : ∀ f ∈ p.del.map (fun x => toTrack x.f), TrackOK o f := fun f hf => by
    obtain ⟨x, hx, rfl⟩ := List.mem_map.1 hf
    rw [q5] at hx
    exact hslam x (List.mem_filter.1 hx).1
  obtain ⟨s5', M5', f1', f2, f3, f4, -⟩ := delay_ok (I := I) hlib hF e2 (fs := p.del.map fun x => toTrack x.f) hdt
  rw [f1] at f1'
  obtain ⟨rfl, rfl⟩ := Prod.mk.inj (Option.some.inj f1')
  have hcl : s5.clones = s.clones := by rw [f3, e3, b3, a4]
  have ht5 : s5.ts = s.ts := by rw [f4, e4, b4, a5]
  simp only at hu
  rw [if_neg hI.cams] at hu
  simp only [Option.bind_eq_some_iff, Option.some.injEq, Prod.mk.injEq] at hu
  obtain ⟨⟨s6, M6⟩, g1, s7, g2, rfl, rfl⟩ := hu
  simp only at g2
  refine ⟨bs, c2, c3, ?_⟩
  -- the steps
  obtain ⟨used, b6⟩ : ∃ used, Upd.msckfUpdate lib p.s F.msckf (triOf F.tri I p.s) (p.up.map toTrack) = some (s3, used) := by
    unfold msckfStep at b1
    simp only [Option.bind_eq_bind, Option.bind_eq_some_iff, Option.some.injEq] at b1
    obtain ⟨-, -, ⟨x, used⟩, h, rfl⟩ := b1
    exact ⟨used, h⟩
  obtain ⟨R, f6, f7, f8⟩ : ∃ R, Upd.delayedInit lib s4 M4 F.slam (triOf F.tri I s4) (p.del.map fun x => toTrack x.f) = some R ∧ R.s = s5 ∧ R.M = M5 := by
    unfold delayAll at f1
    simp only [Option.bind_eq_bind, Option.bind_eq_some_iff, Option.some.injEq, Prod.mk.injEq] at f1
    obtain ⟨-, -, R, h, h1, h2⟩ := f1
    exact ⟨R, h, h1, h2⟩
  obtain ⟨items, i1, i2, -, i4, i5, -⟩ := Upd.C95_msckf_update hlib a3.prog hF.sigM (triOf F.tri I p.s) (p.up.map toTrack) (fun f hf => (hupt f hf).1) b6
  obtain ⟨j1, -⟩ := Upd.C98_delayed_init hlib e2.prog hF.sigS hF.sigA (triOf F.tri I s4) (p.del.map fun x => toTrack x.f) (fun f hf => (hdt f hf).1) f6
  rw [f7, f8] at j1
  refine ⟨p.s, s3, s4, M4, s5, M5, R.added, ⟨d1, d2, a4, a5⟩, ⟨items, i1, i2, i4, i5⟩, batches_chain hlib hF.sigS hF.sigA _ s3 M b2 hbs s4 M4 e1, j1, fun hsm => ?_, fun hbig => ?_⟩
  · unfold Upd.anchorsState at g1
    rw [hcl, prog_opts f2.prog.prog, if_pos hsm] at g1
    obtain ⟨rfl, rfl⟩ := Prod.mk.inj (Option.some.inj g1)
    obtain ⟨s8, k1, k2, -⟩ := C11_oldest_removed f2.prog.prog
    rw [g2] at k1
    obtain rfl := Option.some.inj k1
    exact ⟨k2 (by rw [hcl]; exact hsm), rfl⟩
  · unfold Upd.anchorsState at g1
    rw [hcl, prog_opts f2.prog.prog, if_neg (not_le.2 hbig), Option.bind_eq_bind, Option.bind_eq_some_iff] at g1
    obtain ⟨mt, hmt, g1⟩ := g1
    obtain ⟨s6', M6', mt', k1, k2, ⟨P, obj, k3⟩, -⟩ := Upd.C105_change_anchors (C := F.slam) hlib f2.prog f2.lms hF.clones (by rw [hcl, ht5]; exact hts) f2.times (by rw [hcl]; exact hbig)
    unfold Upd.anchorsState at k1
    rw [hcl, prog_opts f2.prog.prog, if_neg (not_le.2 hbig), hmt, Option.bind_eq_bind, Option.bind_some, g1] at k1
    obtain ⟨rfl, rfl⟩ := Prod.mk.inj (Option.some.inj k1)
    have h6 : s6.clones = s.clones := by rw [← hcl, k3]
    obtain ⟨c, hc, hmin, hce, hdr⟩ := dropped_old k2.prog (by rw [h6]; exact hbig) g2
    rw [h6] at hc hmin hce
    have hmc : mt = c.1 := by
      cases hl : s5.clones with
      | nil => rw [hcl] at hl; rw [hl] at hbig; simp at hbig
      | cons d l =>
        have := margtimestep_sorted hl (prog_W f2.prog.prog).sorted
        rw [hmt] at this
        obtain rfl := Option.some.inj this
        rw [hcl] at hl
        have h1 := (prog_W hs.prog.prog).sorted
        rw [hl] at hc hmin h1
        refine le_antisymm ?_ (hmin d (by simp))
        rcases List.mem_cons.1 hc with rfl | hc
        · exact le_refl _
        · exact ((List.pairwise_cons.1 h1).1 c hc).le
    subst hmc
    exact ⟨c.1, c.2, s6, hc, hmin, anchors_chain hlib s5.slam s5 M5 f2.prog f2.lms (by rw [hcl, ht5]; exact hts) (by rw [hcl]; exact hmin) (fun _ h => h) s6 M6 g1, hdr, hce⟩

/-- the cases of an image. -/
theorem frame_steps (hlib : St.Spec.LibOK lib) (hF : Spec.CfgOK o F) (hI : Spec.ImgOK o I) {x : FMgr} (hx : Spec.MgrOK lib o x) (ht : Spec.Timely F x.m I.t) :
    ∃ y, frame lib F x I = some y ∧
      ((∃ Z, zuptOn F.mgr x.m = some Z ∧ y.M = x.M ∧ y.log = x.log ∧ y.aruco = I.aruco ∧
          ((x.m.st.ts < I.t ∧ tryUpdate lib Z x.m.zmem x.m.zbuf I.db x.m.st I.t = some (true, y.m.zmem, y.m.st, y.m.db)) ∨ (x.m.st.ts = I.t ∧ x.m.did = true ∧ y.m.st = x.m.st ∧ y.m.db = I.db))) ∨
        ∃ s1, ((x.m.st.ts < I.t ∧ ∃ off, propagateAndClone F.mgr.po F.mgr.N x.m.buf x.m.off x.m.st I.t = some (s1, off)) ∨ (x.m.st.ts = I.t ∧ s1 = x.m.st)) ∧
          ((s1.clones.length < min o.maxClones 5 ∧ y.m.st = s1 ∧ y.M = x.M ∧ y.log = x.log) ∨
            (min o.maxClones 5 ≤ s1.clones.length ∧ Spec.FrameOK lib o s1 x.M ∧ (∃ w, (s1.ts, w) ∈ s1.clones) ∧ s1.clones.length ≤ o.maxClones + 1 ∧
              ∃ p, plan lib F I I.db s1 x.M = some p ∧ updateAll lib F I p x.M = some (y.m.st, y.M) ∧ y.log = x.log ++ usedBy s1 x.M p))) := by
  have fin : ∀ z : FMgr, z.M = x.M → z.m.st = x.m.st → z.m.off = x.m.off → z.m.buf = x.m.buf → z.m.db = I.db → z.log = x.log →
      ((x.m.st.ts < I.t ∧ Spec.Covered x.m I.t) ∨ (x.m.st.ts = I.t ∧ ∃ w, (x.m.st.ts, w) ∈ x.m.st.clones)) →
      ∃ y, frameUpdate lib F z I = some y ∧ ∃ s1, ((x.m.st.ts < I.t ∧ ∃ off, propagateAndClone F.mgr.po F.mgr.N x.m.buf x.m.off x.m.st I.t = some (s1, off)) ∨ (x.m.st.ts = I.t ∧ s1 = x.m.st)) ∧
          ((s1.clones.length < min o.maxClones 5 ∧ y.m.st = s1 ∧ y.M = x.M ∧ y.log = x.log) ∨
            (min o.maxClones 5 ≤ s1.clones.length ∧ Spec.FrameOK lib o s1 x.M ∧ (∃ w, (s1.ts, w) ∈ s1.clones) ∧ s1.clones.length ≤ o.maxClones + 1 ∧
              ∃ p, plan lib F I I.db s1 x.M = some p ∧ updateAll lib F I p x.M = some (y.m.st, y.M) ∧ y.log = x.log ++ usedBy s1 x.M p)) := by
    intro z hM hst hoff hbuf hdb hlog ht
    have hz : Spec.MgrOK lib o z := ⟨by rw [hst, hM]; exact hx.frame, by rw [hst]; exact hx.window⟩
    have ht' : (z.m.st.ts < I.t ∧ Spec.Covered z.m I.t) ∨ (z.m.st.ts = I.t ∧ ∃ w, (z.m.st.ts, w) ∈ z.m.st.clones) := by unfold Spec.Covered at ht ⊢; rw [hst, hoff, hbuf]; exact ht
    have hle : z.m.st.ts ≤ I.t := by rcases ht' with h | h; exacts [h.1.le, h.1.le]
    obtain ⟨m1, h1, hp⟩ := propTo_ok hlib F hz ht'
    have hprop : (x.m.st.ts < I.t ∧ ∃ off, propagateAndClone F.mgr.po F.mgr.N x.m.buf x.m.off x.m.st I.t = some (m1.st, off)) ∨ (x.m.st.ts = I.t ∧ m1.st = x.m.st) := by
      unfold propTo at h1
      rcases ht with ⟨h, -⟩ | ⟨h, -⟩
      · rw [if_pos (by rw [hst]; exact h.ne), Option.map_eq_some_iff, hbuf, hoff, hst] at h1
        obtain ⟨⟨s1, off⟩, k1, rfl⟩ := h1
        exact .inl ⟨h, off, k1⟩
      · rw [if_neg (by rw [hst]; exact not_not.2 h)] at h1
        obtain rfl := Option.some.inj h1
        exact .inr ⟨h, hst⟩
    have hop : m1.st.opts = o := prog_opts hp.frame.prog.prog
    have hm : m1.db = I.db := by rw [hp.rest]; exact hdb
    unfold frameUpdate
    rw [if_neg (not_lt.2 hle), h1]
    simp only [Option.bind_eq_bind, Option.bind_some, hop]
    by_cases q1 : m1.st.clones.length < min o.maxClones 5
    · rw [if_pos q1]; exact ⟨_, rfl, m1.st, hprop, .inl ⟨q1, rfl, hM, hlog⟩⟩
    · rw [if_neg q1, if_neg (not_not.2 hp.ts)]
      obtain ⟨p, s', M', k0, k1, -⟩ := updateAll_ok hlib hF hI hp.frame hp.at' hp.len
      obtain ⟨db', hdb', -⟩ := dbRun_hist (endOps m1.st z.M p false) I.db hI.db.1
      rw [hM] at k0
      rw [hm, hM, k0]
      rw [hM] at k1 hdb'
      simp only [Option.bind_some, k1, hdb']
      have fin : ((m1.st.clones.length < min o.maxClones 5 ∧ s' = m1.st ∧ M' = x.M ∧ z.log ++ usedBy m1.st x.M p = x.log) ∨
          (min o.maxClones 5 ≤ m1.st.clones.length ∧ Spec.FrameOK lib o m1.st x.M ∧ (∃ w, (m1.st.ts, w) ∈ m1.st.clones) ∧ m1.st.clones.length ≤ o.maxClones + 1 ∧
            ∃ p', plan lib F I I.db m1.st x.M = some p' ∧ updateAll lib F I p' x.M = some (s', M') ∧ z.log ++ usedBy m1.st x.M p = x.log ++ usedBy m1.st x.M p')) :=
        .inr ⟨not_lt.1 q1, hM ▸ hp.frame, hp.at', hp.len, p, k0, k1, by rw [hlog]⟩
      cases ha : I.aruco with
      | none => exact ⟨_, rfl, m1.st, hprop, fin⟩
      | some a =>
        obtain ⟨ar', har', -⟩ := dbRun_hist (endOps m1.st x.M p true) a (hI.aruco a ha).1
        simp only [har', Option.map_some, Option.bind_some]
        exact ⟨_, rfl, m1.st, hprop, fin⟩
  unfold frame
  cases hZ : zuptOn F.mgr x.m with
  | none =>
    obtain ⟨y, h1, h2⟩ := fin { x with m := { x.m with db := I.db }, aruco := I.aruco } rfl rfl rfl rfl rfl rfl (by
      rcases ht with h | ⟨h, hw | ⟨-, hn⟩⟩
      · exact .inl ⟨h.1, h.2.1⟩
      · exact .inr ⟨h, hw⟩
      · exact absurd hZ hn)
    exact ⟨y, h1, .inr h2⟩
  | some Z =>
    have hm := hF.zupt Z (zuptOn_cfg hZ)
    rcases ht with ⟨h, hcov, hz⟩ | ⟨h, hd⟩
    · obtain ⟨off, c1, -⟩ := id hcov
      obtain ⟨⟨c, hcal⟩, _⟩ := prog_cal hx.frame.prog.prog
      obtain ⟨x0, f0, hx0, hf0⟩ := prog_imu hx.frame.prog.prog
      have himu : imuOf x.m.st = some (x0, f0) := by simp only [imuOf, hx0, hf0]
      obtain ⟨⟨hist, hrun⟩, -⟩ := hI.db
      obtain ⟨b, mem', s', db', q1, q2, -, q4, q5⟩ := C44_zero_velocity hlib hx.frame.prog Z hm x.m.zmem x.m.zbuf hrun I.t c1 hcal himu (hz (by rw [hZ]; simp) off c1)
      unfold zuptTry
      simp only [if_pos h.ne, q1, Option.map_some, Option.bind_eq_bind, Option.bind_some]
      cases b with
      | true =>
        obtain ⟨r1, -⟩ := q5 rfl
        obtain ⟨_, off', ho⟩ := prog_cal q2.prog
        rw [if_pos rfl, if_pos r1, ho]
        exact ⟨_, rfl, .inl ⟨Z, rfl, rfl, rfl, rfl, .inl ⟨h, q1⟩⟩⟩
      | false =>
        rw [if_neg (by simp)]
        obtain ⟨r1, r2, -⟩ := q4 rfl
        obtain ⟨y, h1, h2⟩ := fin { x with m := { x.m with db := db', did := false, zmem := mem', st := s' }, aruco := I.aruco } rfl r1 rfl rfl r2 rfl (.inl ⟨h, hcov⟩)
        exact ⟨y, h1, .inr h2⟩
    · unfold zuptTry
      simp only [if_neg (not_not.2 h), Option.bind_eq_bind, Option.bind_some]
      by_cases hdid : x.m.did = true
      · obtain ⟨_, off', ho⟩ := prog_cal hx.frame.prog.prog
        rw [if_pos hdid, if_pos h, ho]
        exact ⟨_, rfl, .inl ⟨Z, rfl, rfl, rfl, rfl, .inr ⟨h, hdid, rfl, rfl⟩⟩⟩
      · rw [if_neg hdid]
        obtain ⟨y, h1, h2⟩ := fin { x with m := { x.m with db := I.db }, aruco := I.aruco } rfl rfl rfl rfl rfl rfl (.inr ⟨h, by
          rcases hd with hw | ⟨hd, -⟩
          · exact hw
          · exact absurd hd hdid⟩)
        exact ⟨y, h1, .inr h2⟩

/-- **C111** One image from end to end. For every manager state between events and every image that can be processed (C106), whatever the databases hold: processing it returns, and either it was accepted as zero velocity (`try_update`, C44, or a further
camera of an image that was), or: if it is newer than the state, the state is propagated to its time and a clone is added (C78, C25); if the window is still short that is all; otherwise, for the tracks `up`, `upd`, `del` of the selection (C41, C106), the
measurements do exactly what `ImageUpdate` says, and exactly the measurements of these tracks are counted as used. In particular no step is left out, done twice or done with other tracks or on another state. -/
theorem C111_image (hlib : St.Spec.LibOK lib) (hF : Spec.CfgOK o F) (hI : Spec.ImgOK o I) {x : FMgr} (hx : Spec.MgrOK lib o x) (ht : Spec.Timely F x.m I.t) :
    ∃ y, frame lib F x I = some y ∧
      ((∃ Z, zuptOn F.mgr x.m = some Z ∧ y.M = x.M ∧ y.log = x.log ∧ y.aruco = I.aruco ∧
          ((x.m.st.ts < I.t ∧ tryUpdate lib Z x.m.zmem x.m.zbuf I.db x.m.st I.t = some (true, y.m.zmem, y.m.st, y.m.db)) ∨ (x.m.st.ts = I.t ∧ x.m.did = true ∧ y.m.st = x.m.st ∧ y.m.db = I.db))) ∨
        ∃ s1, ((x.m.st.ts < I.t ∧ ∃ off, propagateAndClone F.mgr.po F.mgr.N x.m.buf x.m.off x.m.st I.t = some (s1, off)) ∨ (x.m.st.ts = I.t ∧ s1 = x.m.st)) ∧
          ((s1.clones.length < min o.maxClones 5 ∧ y.m.st = s1 ∧ y.M = x.M ∧ y.log = x.log) ∨
            (min o.maxClones 5 ≤ s1.clones.length ∧ ∃ p bs, plan lib F I I.db s1 x.M = some p ∧ bs.flatten = p.upd ∧ (∀ b ∈ bs, b ≠ [] ∧ (b.length : ℤ) ≤ F.maxUp) ∧
              Spec.ImageUpdate lib o F I p.up bs p.del s1 x.M y.m.st y.M ∧ y.log = x.log ++ usedBy s1 x.M p))) := by
  obtain ⟨y, h, k⟩ := frame_steps hlib hF hI hx ht
  refine ⟨y, h, k.imp_right ?_⟩
  rintro ⟨s1, h1, h2 | ⟨h2, h3, h4, h5, p, h6, h7, h8⟩⟩
  · exact ⟨s1, h1, .inl h2⟩
  · obtain ⟨bs, b1, b2, b3⟩ := updateAll_image hlib hF hI h3 h4 h5 h6 h7
    exact ⟨s1, h1, .inr ⟨h2, p, bs, h6, b1, b2, b3, h8⟩⟩

/-! ## the hypotheses are met and the update is reached -/

theorem adm_append {lib : Lib} {o : Opts} {F : FCfg} {es : List FEv} : ∀ (evs : List FEv) (x y : FMgr), Spec.Admissible lib o F x (evs ++ es) → runF lib F x evs = some y → Spec.Admissible lib o F y es
  | [], x, y, ha, h => by obtain rfl := Option.some.inj h; exact ha
  | .imu r :: evs, x, y, ha, h => adm_append evs _ y ha h
  | .image I :: evs, x, y, ⟨_, _, hn⟩, h => by
    simp only [runF, FEv.run] at h
    obtain ⟨z, hz, h⟩ := Option.bind_eq_some_iff.1 h
    exact adm_append evs z y (hn z hz) h

theorem adm_prefix {lib : Lib} {o : Opts} {F : FCfg} {es : List FEv} : ∀ (evs : List FEv) (x : FMgr), Spec.Admissible lib o F x (evs ++ es) → Spec.Admissible lib o F x evs
  | [], _, _ => trivial
  | .imu r :: evs, _, ha => adm_prefix evs _ ha
  | .image I :: evs, _, ⟨hI, ht, hn⟩ => ⟨hI, ht, fun z hz => adm_prefix evs z (hn z hz)⟩

theorem exEvs_snoc (db : ℕ → DB ℝ Uv) : ∀ n k : ℕ, exEvs db k (n + 1) = exEvs db k n ++ [.imu ⟨(k + n : ℕ) + 1, 0, 0⟩, .image ⟨db (k + n), none, (k + n : ℕ) + 1, [0], fun _ _ _ => 0, fun _ => 0⟩]
  | 0, k => rfl
  | n + 1, k => by
    rw [exEvs, exEvs_snoc db n (k + 1), exEvs]
    simp only [List.cons_append, show k + 1 + n = k + (n + 1) by omega]

/-- after 8999 images with any databases, the next image meets the hypotheses and, the window being full, it is processed by `ImageUpdate` on a state with twelve clones. -/
example (hlib : St.Spec.LibOK lib) (db : ℕ → DB ℝ Uv) (hdb : ∀ k, Spec.DbOK ⟨true, true, true, false, true, true, 2, 11, 0⟩ (db k)) :
    ∃ x y : FMgr, ∃ I : Img, ∃ s1 p bs, I.db = db 8999 ∧ frame lib exG x I = some y ∧ s1.clones.length = 12 ∧ plan lib exG I (db 8999) s1 x.M = some p ∧ bs.flatten = p.upd ∧
      Spec.ImageUpdate lib ⟨true, true, true, false, true, true, 2, 11, 0⟩ exG I p.up bs p.del s1 x.M y.m.st y.M := by
  have hF : Spec.CfgOK ⟨true, true, true, false, true, true, 2, 11, 0⟩ exG := exG_ok (by simp)
  have hst := exEvs_stream ⟨true, true, true, false, true, true, 2, 11, 0⟩ db hdb 9000 0 [⟨0, 0, 0⟩] (by simp) (by simp) (by simp)
  push_cast at hst
  obtain ⟨-, -, -, -, h3⟩ := C106_stream hlib hF 0 _ _ _ (exStart_ok lib _) (exStart_has rfl exG) hst
  have hst' := exEvs_stream ⟨true, true, true, false, true, true, 2, 11, 0⟩ db hdb 8999 0 [⟨0, 0, 0⟩] (by simp) (by simp) (by simp)
  push_cast at hst'
  obtain ⟨x, g1, g2, g3, g4⟩ := C106_stream hlib hF 0 _ _ _ (exStart_ok lib _) (exStart_has rfl exG) hst'
  have hc0 : (exStart ⟨true, true, true, false, true, true, 2, 11, 0⟩).m.st.clones = [] := (foldl_push_same _ (ctorBase _)).2.2.2.1
  have hlen : x.m.st.clones.length = 11 := by
    have := C106_last_images hlib hF rfl _ _ x (exStart_ok lib _) g4 ?_ g1
    · have := congrArg List.length this
      rw [hc0, exEvs_times] at this
      simpa using this
    · rw [exEvs_times, show (exStart ⟨true, true, true, false, true, true, 2, 11, 0⟩).m.st.ts = ((0 : ℕ) : ℝ) by simp [exStart]]
      have : ((List.range' 0 9000).map fun i : ℕ => (i : ℝ)).Pairwise (· < ·) := List.Pairwise.map _ (fun a b h => by exact_mod_cast h) List.pairwise_lt_range'
      rw [List.range'_succ] at this
      exact this
  have hlast : x.m.st.ts < ((0 + 8999 : ℕ) : ℝ) + 1 := by
    rw [g3, exEvs_times, List.range'_concat]
    simp
  rw [show (9000 : ℕ) = 8999 + 1 by norm_num, exEvs_snoc db 8999 0] at h3
  obtain ⟨hI, ht, -⟩ := adm_append _ _ _ h3 g1
  have hz : Spec.MgrOK lib ⟨true, true, true, false, true, true, 2, 11, 0⟩ { x with m := feedImu exG.mgr x.m ⟨((0 + 8999 : ℕ) : ℝ) + 1, 0, 0⟩ } := ⟨g2.frame, g2.window⟩
  obtain ⟨y, k1, k2⟩ := C111_image hlib hF hI hz ht
  rcases k2 with ⟨Z, h, -⟩ | ⟨s1, h1, k2⟩
  · unfold zuptOn at h; simp [exG] at h
  · have hs1 : s1.clones.length = 12 := by
      rcases h1 with ⟨-, off, h1⟩ | ⟨h1, -⟩
      · rcases ht with ⟨h, ⟨off', c1, c2, c3, c4, c5, c6⟩, -⟩ | ⟨h, -⟩
        · obtain ⟨s', p1, -, -, -, p5, -⟩ := C78_propagate_and_clone hlib hz.frame.prog exG.mgr.po exG.mgr.N _ c2 _ c1 h c3 c4 c5 c6 fun c hc => ((hz.frame.times c hc).trans_lt h).ne
          rw [h1] at p1
          obtain ⟨rfl, -⟩ := Prod.mk.inj (Option.some.inj p1)
          rw [p5, insertClone_length _ _ _ fun c hc => ((hz.frame.times c hc).trans_lt h).ne]
          exact congrArg (· + 1) hlen
        · exact absurd h hlast.ne
      · exact absurd h1 hlast.ne
    rcases k2 with ⟨h, -⟩ | ⟨-, p, bs, q1, q2, -, q4, -⟩
    · rw [hs1] at h; norm_num at h
    · exact ⟨_, y, _, s1, p, bs, rfl, k1, hs1, q1, q2, q4⟩

end Verif.Vio
