import Verif.Vio.Shown
import Verif.Vio.PropsImage

/-!
# The points reported for display (C141)
-/

set_option autoImplicit false
set_option linter.unusedVariables false
open Classical

namespace Verif.Vio

open Verif Verif.Types Verif.St Verif.Imu Verif.Prop_ Verif.Feat Verif.Disp

variable {lib : Lib} {o : Opts} {s s' : State} {M M' : ℕ → Upd.LMeta} {F : FCfg} {I : Img}

/-! ## specification -/

namespace Spec

/-- `g` is where the current estimates put landmark `e`: the point its value stands for, and if that is relative to a camera, moved to the global frame with the estimates of the anchor clone and of the camera's extrinsics. -/
def Reported (s : State) (M : ℕ → Upd.LMeta) (e : ℕ × ℕ) (g : V3) : Prop :=
  let p := Upd.Spec.xyz (M e.2).rep (M e.2).uv0 (Upd.valV3 (s.obj e.2).val)
  if Land.Spec.Anchored (M e.2).rep then ∃ c A A' E, (M e.2).cam = some c ∧ Upd.Spec.CloneAt s (M e.2).t A A' ∧ Upd.Spec.ExtrAt s c E ∧ g = Upd.Spec.world A E p else g = p

/-- the points of the updates since the last one whose first camera is the base camera (that one included), or since the start, when the list was `start`. An update is its first camera and its points. -/
def Since (start : List V3) (ups : List (ℕ × List V3)) (good : List V3) : Prop :=
  (∃ old base new, ups = old ++ (0, base) :: new ∧ (∀ u ∈ new, u.1 ≠ 0) ∧ good = base ++ new.flatMap Prod.snd) ∨
  ((∀ u ∈ ups, u.1 ≠ 0) ∧ good = start ++ ups.flatMap Prod.snd)

/-- the window update of one image and what it used: for the tracks `p.up` selected and the state `p.s` without the lost landmarks, the update is the posterior given the features that pass their test (C95), and `pts` are their triangulated positions, each
once. -/
def UsedIn (lib : Lib) (F : FCfg) (I : Img) (p : Plan) (pts : List V3) : Prop :=
  ∃ s3, msckfStep lib F I p.s (p.up.map toTrack) = some s3 ∧
    ∃ items : List Upd.Spec.Item, items.map (fun i => (i.f, i.x)) = Upd.Spec.candidates p.s (triOf F.tri I p.s) (p.up.map toTrack) ∧ (∀ i ∈ items, i.OK p.s F.msckf) ∧
      let acc := items.filter fun i => decide (i.Pass lib p.s F.msckf)
      (acc = [] → s3 = p.s) ∧
      (acc ≠ [] → St.Spec.Posterior p.s s3 ((1 / F.msckf.sig2) • (acc.map fun i => (i.F p.s).transpose * i.F p.s).sum) ((1 / F.msckf.sig2) • (acc.map fun i => (i.F p.s).transpose.mulVec i.r).sum)) ∧
      pts = acc.map fun i => i.x.pG

end Spec

/-! ## the landmarks -/

theorem rel_iff (r : Land.Rep) : Land.isRelative r = true ↔ Land.Spec.Anchored r := Land.C28_relative r

theorem lmWorld_spec (hs : Spec.FrameOK lib o s M) {e : ℕ × ℕ} (he : e ∈ s.slam) : ∃ g, lmWorld s M e.2 = some g ∧ Spec.Reported s M e g := by
  have hW := prog_W hs.prog.prog
  obtain ⟨hk, ha⟩ := hs.lms.1 e he
  have hx := Upd.xyz_getXyz (Upd.lmOf s M e.2) hk
  unfold lmWorld Spec.Reported
  dsimp only
  by_cases hr : Land.isRelative (M e.2).rep = true
  · obtain ⟨⟨c, hc, hlt⟩, hcl⟩ := ha hr
    obtain ⟨w, hw⟩ := Upd.cloneUid_some hcl
    obtain ⟨q, p, hv⟩ := hW.cpose _ (Upd.cloneUid_mem hw)
    have hkd := (reach_inv hs.prog.prog.reach).kind w
    simp only at hv
    rw [hv] at hkd
    obtain ⟨q', p', hf⟩ := sameKind_pose hkd
    obtain ⟨qe, pe, hE⟩ := Upd.calib_kind hW hlt
    rw [if_pos hr, hc]
    simp only [if_pos ((rel_iff _).1 hr), Option.bind_eq_bind, Option.bind_some, if_pos (show c < s.opts.numCams by rw [hW.opts]; exact hlt), hE, Upd.valPose, hw, hv, hx]
    refine ⟨_, rfl, c, ⟨q, p⟩, ⟨q', p'⟩, ⟨qe, pe⟩, rfl, ⟨w, Upd.cloneUid_mem hw, hv, hf⟩, ⟨by rw [hW.opts]; exact hlt, hE⟩, ?_⟩
    unfold Upd.Spec.world
    rw [Matrix.mulVec_mulVec]
    rfl
  · rw [if_neg hr]
    simp only [if_neg (fun h => hr ((rel_iff _).2 h))]
    exact ⟨_, hx, rfl⟩

theorem mapM_all {α β : Type} {f : α → Option β} {R : α → β → Prop} : ∀ {l : List α}, (∀ a ∈ l, ∃ b, f a = some b ∧ R a b) → ∃ bs, l.mapM f = some bs ∧ List.Forall₂ R l bs
  | [], _ => ⟨[], rfl, .nil⟩
  | a :: l, h => by
    obtain ⟨b, hb, hr⟩ := h a (by simp)
    obtain ⟨bs, hbs, hrs⟩ := mapM_all fun x hx => h x (List.mem_cons_of_mem _ hx)
    exact ⟨b :: bs, by simp [List.mapM_cons, hb, hbs], .cons hr hrs⟩

/-- **C141** The reported map. After any sequence of readings and images that are admissible when they arrive, of any length, asking for the landmarks returns (no missing anchor, camera or clone): the one list has, for every landmark of the state whose id is above
the tag corners, its position in the world by the current estimates, the other the same for every landmark that is a tag corner, each landmark once; together they are all landmarks. -/
theorem C141_map (hlib : St.Spec.LibOK lib) (hF : Spec.CfgOK o F) (evs : List FEv) (x : FMgr) (hx : Spec.MgrOK lib o x) (ha : Spec.Admissible lib o F x evs) :
    ∃ y pts tags, runF lib F x evs = some y ∧ featuresSlam y.m.st y.M = some pts ∧ featuresAruco y.m.st y.M = some tags ∧
      List.Forall₂ (Spec.Reported y.m.st y.M) (y.m.st.slam.filter fun e => decide (4 * o.maxAruco < e.1)) pts ∧
      List.Forall₂ (Spec.Reported y.m.st y.M) (y.m.st.slam.filter fun e => decide (e.1 ≤ 4 * o.maxAruco)) tags ∧
      (y.m.st.slam.map Prod.fst).Nodup ∧ pts.length + tags.length = y.m.st.slam.length := by
  obtain ⟨y, h1, h2, -⟩ := C106_history hlib hF evs x hx ha
  have hW := prog_W h2.frame.prog.prog
  have hop : y.m.st.opts.maxAruco = o.maxAruco := by rw [hW.opts]
  obtain ⟨pts, p1, p2⟩ := mapM_all (R := Spec.Reported y.m.st y.M) (f := fun e => lmWorld y.m.st y.M e.2) (l := y.m.st.slam.filter fun e => decide (4 * o.maxAruco < e.1))
    fun e he => lmWorld_spec h2.frame (List.mem_filter.1 he).1
  obtain ⟨tags, t1, t2⟩ := mapM_all (R := Spec.Reported y.m.st y.M) (f := fun e => lmWorld y.m.st y.M e.2) (l := y.m.st.slam.filter fun e => decide (e.1 ≤ 4 * o.maxAruco))
    fun e he => lmWorld_spec h2.frame (List.mem_filter.1 he).1
  refine ⟨y, pts, tags, h1, ?_, ?_, p2, t2, ?_, ?_⟩
  · rw [← p1]
    unfold featuresSlam
    rw [hop]
    congr 2
    funext e
    by_cases h : e.1 ≤ 4 * o.maxAruco
    · simp [h, Nat.not_lt.2 h]
    · simp [h, Nat.lt_of_not_le h]
  · rw [← t1]
    unfold featuresAruco
    rw [hop]
    congr 2
    funext e
    by_cases h : e.1 ≤ 4 * o.maxAruco
    · simp [h, Nat.not_lt.2 h]
    · simp [h, Nat.lt_of_not_le h]
  · exact List.pairwise_map.2 hW.skey
  · rw [← p2.length_eq, ← t2.length_eq, ← List.countP_eq_length_filter, ← List.countP_eq_length_filter]
    rw [List.length_eq_countP_add_countP (p := fun e => decide (4 * o.maxAruco < e.1)) (l := y.m.st.slam)]
    congr 2
    funext e
    by_cases h : e.1 ≤ 4 * o.maxAruco
    · simp [h, Nat.not_lt.2 h]
    · simp [h, Nat.lt_of_not_le h]

/-! ## the features of the window -/

theorem filter_used {α : Type} {id : α → ℕ} {P : α → Bool} {l : List α} (hn : (l.map id).Nodup) : l.filter (fun a => ((l.filter P).map id).contains (id a)) = l.filter P := by
  refine List.filter_congr fun a ha => ?_
  rw [Bool.eq_iff_iff]
  · rw [List.contains_iff_mem, List.mem_map]
    constructor
    · rintro ⟨b, hb, e⟩
      obtain ⟨h1, h2⟩ := List.mem_filter.1 hb
      obtain rfl := List.inj_on_of_nodup_map hn h1 ha e
      exact h2
    · exact fun h => ⟨a, List.mem_filter.2 ⟨ha, h⟩, rfl⟩

theorem used_in (hlib : St.Spec.LibOK lib) (hF : Spec.CfgOK o F) {p : Plan} (hp : St.Spec.ProgOK lib o p.s) (ht : ∀ f ∈ p.up.map toTrack, TrackOK o f) (hn : (p.up.map Feature.featid).Nodup) {s3 : State}
    (h : msckfStep lib F I p.s (p.up.map toTrack) = some s3) : ∃ pts, usedPoints lib F I p.s (p.up.map toTrack) = some pts ∧ Spec.UsedIn lib F I p pts := by
  have h0 := h
  unfold msckfStep at h
  simp only [Option.bind_eq_bind, Option.bind_eq_some_iff, Option.some.injEq] at h
  obtain ⟨-, -, ⟨s3', used⟩, h, rfl⟩ := h
  obtain ⟨items, i1, i2, i3, i4, i5, -⟩ := Upd.C95_msckf_update hlib hp hF.sigM (triOf F.tri I p.s) _ (fun f hf => (ht f hf).1) h
  refine ⟨_, by unfold usedPoints; rw [h]; rfl, s3', h0, items, i1, i2, i4, i5, ?_⟩
  have hid : (items.map fun i => i.f.id).Nodup := by
    have e : items.map (fun i => i.f.id) = (Upd.Spec.candidates p.s (triOf F.tri I p.s) (p.up.map toTrack)).map fun g => g.1.id := by rw [← i1, List.map_map]; rfl
    rw [e]
    have key : ∀ l : List Upd.Track, ((Upd.Spec.candidates p.s (triOf F.tri I p.s) l).map fun g => g.1.id).Sublist (l.map Upd.Track.id) := by
      intro l
      induction l with
      | nil => exact List.Sublist.refl _
      | cons f l ih =>
        have : Upd.Spec.candidates p.s (triOf F.tri I p.s) (f :: l) = Upd.Spec.candidates p.s (triOf F.tri I p.s) [f] ++ Upd.Spec.candidates p.s (triOf F.tri I p.s) l := by
          simp only [Upd.Spec.candidates, ← List.filterMap_append, List.cons_append, List.nil_append]
        rw [this, List.map_append, List.map_cons, ← List.singleton_append (l := l.map Upd.Track.id)]
        refine List.Sublist.append ?_ ih
        simp only [Upd.Spec.candidates, List.filterMap_cons, List.filterMap_nil]
        split_ifs with hc
        · cases triOf F.tri I p.s (Upd.Spec.inWindow p.s f) with
          | none => exact List.nil_sublist _
          | some x => exact List.Sublist.refl _
        · exact List.nil_sublist _
    refine List.Nodup.sublist (key _) ?_
    rw [List.map_map]
    exact hn
  rw [Upd.located_candidates, ← i1, i3]
  dsimp only
  rw [List.filter_map, List.map_map]
  have := filter_used (P := fun i => decide (i.Pass lib p.s F.msckf)) hid
  simp only [Function.comp_def]
  rw [this]

theorem plan_shown (hlib : St.Spec.LibOK lib) (hF : Spec.CfgOK o F) (hI : Spec.ImgOK o I) (hd : Spec.Db I.db) (hs : Spec.FrameOK lib o s M) {p : Plan} (hp : plan lib F I I.db s M = some p)
    (hu : updateAll lib F I p M = some (s', M')) : ∃ c pts, I.cams.head? = some c ∧ usedPoints lib F I p.s (p.up.map toTrack) = some pts ∧ Spec.UsedIn lib F I p pts := by
  have hdp : ∃ s1, run lib s (flagOps s.slam ((s.slam.map (lmSeen s M)).map (lmFlag I.db I.cams))) = some s1 ∧ margSlam s1 = some p.s := by
    unfold plan at hp
    simp only [Option.bind_eq_bind, Option.bind_eq_some_iff, Option.some.injEq] at hp
    obtain ⟨mt, -, lms, h2, s1, h3, s2, h4, up, -, rfl⟩ := hp
    rw [lmView_eq hs.ucam] at h2
    obtain rfl := Option.some.inj h2
    exact ⟨s1, h3, h4⟩
  obtain ⟨lms, q1, q2, q3, q4, q5⟩ := plan_some hp
  obtain ⟨s1, hd1, hd2⟩ := hdp
  obtain ⟨s1', s2', a1, a2, a3, -⟩ := marg_step hs I.db I.cams
  rw [hd1] at a1
  obtain rfl := Option.some.inj a1
  rw [hd2] at a2
  obtain rfl := Option.some.inj a2
  set r := frameRoles F I I.db s p.mt lms with hr
  have hmem := roles_mem (c := F.sel s.opts) (db := I.db) (ar := I.aruco) (ts := s.ts) (mt := p.mt) (nc := s.clones.length) (dl := decide (F.dtSlam ≤ I.t - F.startup)) (cams := I.cams)
    (lms := lms)
  have hsl := (C41_selection hd (F.sel s.opts) I.aruco s.ts p.mt s.clones.length (decide (F.dtSlam ≤ I.t - F.startup)) I.cams lms).1
  rw [List.map_append, List.nodup_append] at hsl
  have hn : (p.up.map Feature.featid).Nodup := ((((hF.sort r.candidates).map Feature.featid).nodup_iff).2 hsl.1).sublist ((cut_sub q3).map _)
  have hupt : ∀ f ∈ p.up.map toTrack, TrackOK o f := fun f hf => by
    obtain ⟨g, hg, rfl⟩ := List.mem_map.1 hf
    exact hI.db.track (hmem.1 g ((hF.sort r.candidates).subset ((cut_sub q3).subset hg)))
  unfold updateAll at hu
  simp only [Option.bind_eq_bind, Option.bind_eq_some_iff] at hu
  obtain ⟨s3, b1, -⟩ := hu
  obtain ⟨pts, h1, h2⟩ := used_in hlib hF a3.prog hupt hn b1
  cases hc : I.cams with
  | nil => exact absurd hc hI.cams
  | cons c t => exact ⟨c, pts, rfl, h1, h2⟩

theorem used_steps (hlib : St.Spec.LibOK lib) (hF : Spec.CfgOK o F) (hI : Spec.ImgOK o I) (hd : Spec.Db I.db) {x : FMgr} (hx : Spec.MgrOK lib o x) (ht : Spec.Timely F x.m I.t) :
    ∃ y r, frame lib F x I = some y ∧ usedFrame lib F x I = some r ∧ ((r = none ∧ y.M = x.M ∧ y.log = x.log) ∨
      ∃ s1 p c pts, Spec.FrameOK lib o s1 x.M ∧ plan lib F I I.db s1 x.M = some p ∧ updateAll lib F I p x.M = some (y.m.st, y.M) ∧ I.cams.head? = some c ∧ r = some (c, pts) ∧ Spec.UsedIn lib F I p pts) := by
  have fin : ∀ z : FMgr, z.M = x.M → z.m.st = x.m.st → z.m.off = x.m.off → z.m.buf = x.m.buf → z.m.db = I.db → z.log = x.log →
      ((x.m.st.ts < I.t ∧ Spec.Covered x.m I.t) ∨ (x.m.st.ts = I.t ∧ ∃ w, (x.m.st.ts, w) ∈ x.m.st.clones)) →
      ∃ y r, frameUpdate lib F z I = some y ∧ usedUpdate lib F z I = some r ∧ ((r = none ∧ y.M = x.M ∧ y.log = x.log) ∨
        ∃ s1 p c pts, Spec.FrameOK lib o s1 x.M ∧ plan lib F I I.db s1 x.M = some p ∧ updateAll lib F I p x.M = some (y.m.st, y.M) ∧ I.cams.head? = some c ∧ r = some (c, pts) ∧ Spec.UsedIn lib F I p pts) := by
    intro z hM hst hoff hbuf hdb hlog ht
    have hz : Spec.MgrOK lib o z := ⟨by rw [hst, hM]; exact hx.frame, by rw [hst]; exact hx.window⟩
    have ht' : (z.m.st.ts < I.t ∧ Spec.Covered z.m I.t) ∨ (z.m.st.ts = I.t ∧ ∃ w, (z.m.st.ts, w) ∈ z.m.st.clones) := by unfold Spec.Covered at ht ⊢; rw [hst, hoff, hbuf]; exact ht
    have hle : z.m.st.ts ≤ I.t := by rcases ht' with h | h; exacts [h.1.le, h.1.le]
    obtain ⟨m1, h1, hp⟩ := propTo_ok hlib F hz ht'
    have hop : m1.st.opts = o := prog_opts hp.frame.prog.prog
    have hm : m1.db = I.db := by rw [hp.rest]; exact hdb
    unfold frameUpdate usedUpdate
    rw [if_neg (not_lt.2 hle), if_neg (not_lt.2 hle), h1]
    simp only [Option.bind_eq_bind, Option.bind_some, hop]
    by_cases q1 : m1.st.clones.length < min o.maxClones 5
    · rw [if_pos q1, if_pos q1]; exact ⟨_, _, rfl, rfl, .inl ⟨rfl, hM, hlog⟩⟩
    · rw [if_neg q1, if_neg q1, if_neg (not_not.2 hp.ts), if_neg (not_not.2 hp.ts)]
      obtain ⟨p, s', M', k0, k1, -⟩ := updateAll_ok hlib hF hI hp.frame hp.at' hp.len
      obtain ⟨db', hdb', -⟩ := dbRun_hist (endOps m1.st z.M p false) I.db hI.db.1
      have hfr : Spec.FrameOK lib o m1.st x.M := hM ▸ hp.frame
      rw [hM] at k0
      rw [hm, hM, k0]
      rw [hM] at k1 hdb'
      obtain ⟨c, pts, u1, u2, u3⟩ := plan_shown hlib hF hI hd hfr k0 k1
      simp only [Option.bind_some, k1, hdb', u1, u2]
      cases ha : I.aruco with
      | none => exact ⟨_, _, rfl, rfl, .inr ⟨m1.st, p, c, pts, hfr, k0, k1, rfl, rfl, u3⟩⟩
      | some a =>
        obtain ⟨ar', har', -⟩ := dbRun_hist (endOps m1.st x.M p true) a (hI.aruco a ha).1
        simp only [har', Option.map_some, Option.bind_some]
        exact ⟨_, _, rfl, rfl, .inr ⟨m1.st, p, c, pts, hfr, k0, k1, rfl, rfl, u3⟩⟩
  unfold frame usedFrame
  cases hZ : zuptOn F.mgr x.m with
  | none =>
    exact fin { x with m := { x.m with db := I.db }, aruco := I.aruco } rfl rfl rfl rfl rfl rfl (by
      rcases ht with h | ⟨h, hw | ⟨-, hn⟩⟩
      · exact .inl ⟨h.1, h.2.1⟩
      · exact .inr ⟨h, hw⟩
      · exact absurd hZ hn)
  | some Z =>
    have hm := hF.zupt Z (zuptOn_cfg hZ)
    rcases ht with ⟨h, hcov, hz⟩ | ⟨h, hd'⟩
    · obtain ⟨off, c1, -⟩ := id hcov
      obtain ⟨⟨c, hcal⟩, _⟩ := prog_cal hx.frame.prog.prog
      obtain ⟨x0, f0, hx0, hf0⟩ := prog_imu hx.frame.prog.prog
      have himu : imuOf x.m.st = some (x0, f0) := by simp only [imuOf, hx0, hf0]
      obtain ⟨⟨hist, hrun⟩, -⟩ := hI.db
      obtain ⟨b, mem', s', db', q1, q2, -, q4, q5⟩ := C44_zero_velocity hlib hx.frame.prog Z hm x.m.zmem x.m.zbuf hrun I.t c1 hcal himu (hz (by rw [hZ]; simp) off c1)
      unfold zuptTry
      simp only [if_pos h.ne, q1, Option.map_some, Option.bind_eq_bind, Option.bind_some]
      cases b with
      | true =>
        obtain ⟨r1, -⟩ := q5 rfl
        obtain ⟨_, off', ho⟩ := prog_cal q2.prog
        rw [if_pos rfl, if_pos rfl, if_pos r1, ho]
        exact ⟨_, _, rfl, rfl, .inl ⟨rfl, rfl, rfl⟩⟩
      | false =>
        rw [if_neg (by simp), if_neg (by simp)]
        obtain ⟨r1, r2, -⟩ := q4 rfl
        exact fin { x with m := { x.m with db := db', did := false, zmem := mem', st := s' }, aruco := I.aruco } rfl r1 rfl rfl r2 rfl (.inl ⟨h, hcov⟩)
    · unfold zuptTry
      simp only [if_neg (not_not.2 h), Option.bind_eq_bind, Option.bind_some]
      by_cases hdid : x.m.did = true
      · obtain ⟨_, off', ho⟩ := prog_cal hx.frame.prog.prog
        rw [if_pos hdid, if_pos hdid, if_pos h, ho]
        exact ⟨_, _, rfl, rfl, .inl ⟨rfl, rfl, rfl⟩⟩
      · rw [if_neg hdid, if_neg hdid]
        exact fin { x with m := { x.m with db := I.db }, aruco := I.aruco } rfl rfl rfl rfl rfl rfl (.inr ⟨h, by
          rcases hd' with hw | ⟨hd', -⟩
          · exact hw
          · exact absurd hd' hdid⟩)

namespace Spec

/-- the updates of a sequence of readings and images: nothing for an image that is not used for an update (zero velocity, or the window is still short), otherwise its first camera and the positions of the features it used. -/
inductive Updates (lib : Lib) (o : Opts) (F : FCfg) : FMgr → List FEv → List (ℕ × List V3) → Prop
  | nil (x : FMgr) : Updates lib o F x [] []
  | imu {x : FMgr} {r : Reading} {es : List FEv} {ups : List (ℕ × List V3)} : Updates lib o F { x with m := feedImu F.mgr x.m r } es ups → Updates lib o F x (.imu r :: es) ups
  | skip {x y : FMgr} {I : Img} {es : List FEv} {ups : List (ℕ × List V3)} : frame lib F x I = some y → y.M = x.M → y.log = x.log → Updates lib o F y es ups → Updates lib o F x (.image I :: es) ups
  | update {x y : FMgr} {I : Img} {es : List FEv} {ups : List (ℕ × List V3)} {s1 : State} {p : Plan} {c : ℕ} {pts : List V3} : frame lib F x I = some y → FrameOK lib o s1 x.M → plan lib F I I.db s1 x.M = some p →
      updateAll lib F I p x.M = some (y.m.st, y.M) → I.cams.head? = some c → UsedIn lib F I p pts → Updates lib o F y es ups → Updates lib o F x (.image I :: es) ((c, pts) :: ups)

/-- the databases of all images keep their tracks in time order. -/
def Ordered (evs : List FEv) : Prop := ∀ I, FEv.image I ∈ evs → Db I.db

end Spec

theorem since_step {start good : List V3} {c : ℕ} {pts : List V3} {ups : List (ℕ × List V3)} (h : Spec.Since (goodStep start (some (c, pts))) ups good) : Spec.Since start ((c, pts) :: ups) good := by
  rcases h with ⟨old, base, new, rfl, h2, h3⟩ | ⟨h1, rfl⟩
  · exact .inl ⟨(c, pts) :: old, base, new, rfl, h2, h3⟩
  · by_cases hc : c = 0
    · subst hc
      exact .inl ⟨[], pts, ups, rfl, h1, by simp [goodStep]⟩
    · refine .inr ⟨fun u hu => ?_, by simp [goodStep, hc]⟩
      rcases List.mem_cons.1 hu with rfl | hu
      · exact hc
      · exact h1 u hu

/-- **C141** (features of the window) For any sequence of readings and images, of any length, the reported list of features used in updates is exactly the triangulated positions of the features that passed their test (those the posterior of C95 is given), each once
and in order, of all updates since the last one whose message begins with the base camera. Images that are not used for an update leave it alone. -/
theorem C141_used (hlib : St.Spec.LibOK lib) (hF : Spec.CfgOK o F) : ∀ (evs : List FEv) (x : FMgr) (start : List V3), Spec.MgrOK lib o x → Spec.Admissible lib o F x evs → Spec.Ordered evs →
    ∃ good ups, goodRun lib F x start evs = some good ∧ Spec.Updates lib o F x evs ups ∧ Spec.Since start ups good := by
  intro evs
  induction evs with
  | nil => exact fun x start _ _ _ => ⟨start, [], rfl, .nil x, .inr ⟨by simp, by simp⟩⟩
  | cons e es ih =>
    intro x start hx ha hd
    have hd' : Spec.Ordered es := fun I hI => hd I (List.mem_cons_of_mem _ hI)
    cases e with
    | imu r =>
      obtain ⟨good, ups, h1, h2, h3⟩ := ih { x with m := feedImu F.mgr x.m r } start ⟨hx.frame, hx.window⟩ ha hd'
      exact ⟨good, ups, h1, .imu h2, h3⟩
    | image I =>
      obtain ⟨hI, ht, hn⟩ := ha
      obtain ⟨z, k1, k2, -⟩ := C106_frame hlib hF hI hx ht
      obtain ⟨y, r, f1, f2, f3⟩ := used_steps hlib hF hI (hd I (by simp)) hx ht
      obtain rfl : z = y := Option.some.inj (k1.symm.trans f1)
      obtain ⟨good, ups, h1, h2, h3⟩ := ih z (goodStep start r) k2 (hn z k1) hd'
      have hrun : goodRun lib F x start (.image I :: es) = some good := by
        simp only [goodRun, f2, f1, Option.bind_some, h1]
      rcases f3 with ⟨rfl, g1, g2⟩ | ⟨s1, p, c, pts, g1, g2, g3, g4, rfl, g5⟩
      · exact ⟨good, ups, hrun, .skip f1 g1 g2 h2, h3⟩
      · exact ⟨good, (c, pts) :: ups, hrun, .update f1 g1 g2 g3 g4 g5 h2, since_step h3⟩

/-! ## the hypotheses are met -/

/-- nine thousand images whose databases come from any histories with tracks in time order meet the hypotheses of both theorems. -/
example (hlib : St.Spec.LibOK lib) (db : ℕ → DB ℝ Uv) (hdb : ∀ k, Spec.DbOK ⟨true, true, true, false, true, true, 2, 11, 0⟩ (db k)) (ho : ∀ k, Feat.Spec.TimeOrdered (db k)) :
    ∃ y pts tags good, runF lib exG (exStart ⟨true, true, true, false, true, true, 2, 11, 0⟩) (exEvs db 0 9000) = some y ∧ featuresSlam y.m.st y.M = some pts ∧ featuresAruco y.m.st y.M = some tags ∧
      goodRun lib exG (exStart ⟨true, true, true, false, true, true, 2, 11, 0⟩) [] (exEvs db 0 9000) = some good := by
  have hF : Spec.CfgOK ⟨true, true, true, false, true, true, 2, 11, 0⟩ exG := exG_ok (by simp)
  have hst := exEvs_stream ⟨true, true, true, false, true, true, 2, 11, 0⟩ db hdb 9000 0 [⟨0, 0, 0⟩] (by simp) (by simp) (by simp)
  push_cast at hst
  obtain ⟨-, -, -, -, h3⟩ := C106_stream hlib hF 0 _ _ _ (exStart_ok lib _) (exStart_has rfl exG) hst
  obtain ⟨y, pts, tags, g1, g2, g3, -⟩ := C141_map hlib hF _ _ (exStart_ok lib _) h3
  have hord : ∀ n k : ℕ, Spec.Ordered (exEvs db k n) := by
    intro n
    induction n with
    | zero => intro k I hI; simp [exEvs] at hI
    | succ n ih =>
      intro k I hI
      simp only [exEvs, List.mem_cons, reduceCtorEq, false_or, FEv.image.injEq] at hI
      rcases hI with rfl | hI
      · exact ⟨(hdb k).1, ho k⟩
      · exact ih (k + 1) I hI
  obtain ⟨good, ups, k1, -⟩ := C141_used hlib hF _ _ [] (exStart_ok lib _) h3 (hord 9000 0)
  exact ⟨y, pts, tags, good, g1, g2, g3, k1⟩

/-- two updates of camera 0 with one of camera 1 between them: the first is forgotten with the third. -/
example (a b c : List V3) : Spec.Since [] [(0, a), (1, b)] (a ++ b) ∧ Spec.Since [] [(0, a), (1, b), (0, c)] c :=
  ⟨.inl ⟨[], a, [(1, b)], rfl, by simp, by simp⟩, .inl ⟨[(0, a), (1, b)], c, [], rfl, by simp, by simp⟩⟩

end Verif.Vio
