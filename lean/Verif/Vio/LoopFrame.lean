import Verif.Vio.LoopDb
import Verif.Vio.PropsStream

/-!
# Helper lemmas: what one image does to databases, landmarks and the record of used measurements
-/

set_option autoImplicit false
set_option linter.unusedVariables false
open Classical

namespace Verif.Vio

open Verif Verif.Types Verif.St Verif.Imu Verif.Prop_ Verif.Feat Verif.Disp

variable {lib : Lib} {o : Opts} {s s' : State} {M M' : ℕ → Upd.LMeta} {F : FCfg} {I : Img}

theorem try_db {Z : ZCfg} {mem mem' : ZMem} {buf : List Reading} {db db' : DB ℝ Uv} {t : ℝ} {b : Bool}
    (h : tryUpdate lib Z mem buf db s t = some (b, mem', s', db')) : (db' = db ∨ cleanupMeasurementsExact db mem.last = some db') ∧ s'.vars = s.vars := by
  have triv : ∀ {m1 : ZMem}, some (false, m1, s, db) = some (b, mem', s', db') → (db' = db ∨ cleanupMeasurementsExact db mem.last = some db') ∧ s'.vars = s.vars := by
    intro m1 h
    simp only [Option.some.injEq, Prod.mk.injEq] at h
    obtain ⟨rfl, _, rfl, rfl⟩ := h
    exact ⟨.inl rfl, rfl⟩
  have fin : ∀ {D : Option (DB ℝ Uv)} {R Q : DMat} {H : DMat} {r : DVec} {m1 : ZMem}, (D = some db ∨ D = cleanupMeasurementsExact db mem.last) → (D.bind fun db' => (propagate s biasOrder biasOrder ⟨6, 6, Mat.one⟩ Q).bind fun s1 => (update lib s1 zOrder H r R).bind fun s2 =>
      some (true, m1, { s2 with ts := t }, db')) = some (b, mem', s', db') → (db' = db ∨ cleanupMeasurementsExact db mem.last = some db') ∧ s'.vars = s.vars := by
    intro D R Q H r m1 hD h
    simp only [Option.bind_eq_some_iff, Option.some.injEq, Prod.mk.injEq] at h
    obtain ⟨db1, hdb1, s1, e1, s2, e2, rfl, _, rfl, rfl⟩ := h
    obtain ⟨_, _, _, _, _, _, _, _, _, _, _, _, _, _, _, rfl⟩ := propagate_some e1
    obtain ⟨L, Ma, hL, _, _, _, hc, hM, rfl⟩ := update_some e2
    refine ⟨?_, rfl⟩
    rcases hD with h | h
    · rw [h] at hdb1; exact .inl (Option.some.inj hdb1).symm
    · exact .inr (h ▸ hdb1)
  unfold tryUpdate at h
  by_cases h1 : buf = []
  · rw [if_pos h1] at h; exact triv h
  rw [if_neg h1] at h
  by_cases h2 : s.ts = t
  · rw [if_pos h2] at h; exact triv h
  rw [if_neg h2] at h
  rw [Option.bind_eq_bind, Option.bind_eq_some_iff] at h
  obtain ⟨c, hc, h⟩ := h
  rw [Option.bind_eq_bind, Option.bind_eq_some_iff] at h
  obtain ⟨off, hoff, h⟩ := h
  rw [Option.bind_eq_bind, Option.bind_eq_some_iff] at h
  obtain ⟨⟨x, f⟩, hx, h⟩ := h
  simp only at h
  by_cases h3 : (select buf (s.ts + mem.off.getD off) (t + off)).length < 2
  · rw [if_pos h3] at h; exact triv h
  rw [if_neg h3] at h
  by_cases h4 : (zSystem s Z c x f (select buf (s.ts + mem.off.getD off) (t + off))).1 < 1
  · rw [if_pos h4] at h; exact triv h
  rw [if_neg h4] at h
  rw [Option.bind_eq_bind, Option.bind_eq_some_iff] at h
  obtain ⟨Pm, hPm, h⟩ := h
  rw [Option.bind_eq_bind, Option.bind_eq_some_iff] at h
  obtain ⟨st, hst, h⟩ := h
  by_cases h6 : 2 ≤ mem.count
  · simp only [h6, if_true] at h
    split_ifs at h with h5
    · exact triv h
    · exact fin (.inr rfl) h
  · simp only [h6, if_false] at h
    split_ifs at h with h5
    · exact triv h
    · exact fin (.inl rfl) h

theorem shrinks_exact {db db' : DB ℝ Uv} {t : ℝ} (hd : Spec.DbOK o db) (h : db' = db ∨ cleanupMeasurementsExact db t = some db') : Shrinks db db' ∧ Spec.DbOK o db' := by
  rcases h with rfl | h
  · exact ⟨Shrinks.refl _, hd⟩
  · obtain ⟨k, -⟩ := shrinks_cleanup _ hd.wf h
    exact ⟨k, hd.shrinks k (q := .cleanupMeasurementsExact t) h⟩

/-- an image that is accepted as zero velocity: the window, landmarks and variables stay; measurements are only removed. -/
structure Still (o : Opts) (x y : FMgr) (I : Img) : Prop where
  clones : y.m.st.clones = x.m.st.clones
  no : ∀ c ∈ y.m.st.clones, c.1 ≠ I.t
  slam : y.m.st.slam = x.m.st.slam
  vars : y.m.st.vars = x.m.st.vars
  lms : y.M = x.M
  log : y.log = x.log
  aruco : y.aruco = I.aruco
  sh : Shrinks I.db y.m.db
  ok : Spec.DbOK o y.m.db

/-- the manager `z` is that of `x` with the databases of the image. -/
structure Fed (F : FCfg) (x z : FMgr) (I : Img) : Prop where
  lms : z.M = x.M
  st : z.m.st = x.m.st
  log : z.log = x.log
  db : z.m.db = I.db
  aruco : z.aruco = I.aruco
  off : z.m.off = x.m.off
  buf : z.m.buf = x.m.buf
  did : z.m.did = false ∨ zuptOn F.mgr z.m = none

/-- an image is either accepted as zero velocity or goes on to the update, with the databases of the image. -/
theorem frame_cases (hlib : St.Spec.LibOK lib) (hF : Spec.CfgOK o F) (hI : Spec.ImgOK o I) {x : FMgr} (hx : Spec.MgrOK lib o x) (ht : Spec.Timely F x.m I.t)
    (hd : x.m.did = true → zuptOn F.mgr x.m ≠ none → ∀ c ∈ x.m.st.clones, c.1 ≠ x.m.st.ts) :
    (∃ y, frame lib F x I = some y ∧ Still o x y I) ∨
    ∃ z : FMgr, frame lib F x I = frameUpdate lib F z I ∧ Fed F x z I ∧ ((z.m.st.ts < I.t ∧ Spec.Covered z.m I.t) ∨ (z.m.st.ts = I.t ∧ ∃ w, (z.m.st.ts, w) ∈ z.m.st.clones)) := by
  unfold frame
  cases hZ : zuptOn F.mgr x.m with
  | none =>
    refine .inr ⟨_, rfl, ⟨rfl, rfl, rfl, rfl, rfl, rfl, rfl, .inr ((zuptOn_moved (F := F) (m := x.m) rfl).trans hZ)⟩, ?_⟩
    rcases ht with h | ⟨h, hw | ⟨-, hn⟩⟩
    · exact .inl ⟨h.1, h.2.1⟩
    · exact .inr ⟨h, hw⟩
    · exact absurd hZ hn
  | some Z =>
    have hm := hF.zupt Z (zuptOn_cfg hZ)
    rcases ht with ⟨h, hcov, hz⟩ | ⟨h, hdn⟩
    · obtain ⟨off, c1, -⟩ := id hcov
      obtain ⟨⟨c, hcal⟩, _⟩ := prog_cal hx.frame.prog.prog
      obtain ⟨x0, f0, hx0, hf0⟩ := prog_imu hx.frame.prog.prog
      have himu : imuOf x.m.st = some (x0, f0) := by simp only [imuOf, hx0, hf0]
      obtain ⟨⟨hist, hrun⟩, -⟩ := hI.db
      obtain ⟨b, mem', s', db', q1, q2, -, q4, q5⟩ := C44_zero_velocity hlib hx.frame.prog Z hm x.m.zmem x.m.zbuf hrun I.t c1 hcal himu (hz (by rw [hZ]; simp) off c1)
      unfold zuptTry
      simp only [if_pos h.ne, q1, Option.map_some, Option.bind_eq_bind, Option.bind_some]
      cases b with
      | true =>
        left
        obtain ⟨r1, -, -, r4, r5, -⟩ := q5 rfl
        obtain ⟨_, off', ho⟩ := prog_cal q2.prog
        rw [if_pos rfl, if_pos r1, ho]
        obtain ⟨d1, d2⟩ := try_db q1
        obtain ⟨d3, d4⟩ := shrinks_exact hI.db d1
        exact ⟨_, rfl, r4, fun c hc => ((hx.frame.times c (by simp only at hc; rw [r4] at hc; exact hc)).trans_lt h).ne, r5, d2, rfl, rfl, rfl, d3, d4⟩
      | false =>
        rw [if_neg (by simp)]
        obtain ⟨r1, r2, -⟩ := q4 rfl
        refine .inr ⟨_, rfl, ⟨rfl, r1, rfl, r2, rfl, rfl, rfl, .inl rfl⟩, .inl ⟨?_, ?_⟩⟩
        · simp only [r1]; exact h
        · unfold Spec.Covered; simp only [r1]; exact hcov
    · unfold zuptTry
      simp only [if_neg (not_not.2 h), Option.bind_eq_bind, Option.bind_some]
      by_cases hdid : x.m.did = true
      · left
        obtain ⟨_, off', ho⟩ := prog_cal hx.frame.prog.prog
        rw [if_pos hdid, if_pos h, ho]
        exact ⟨_, rfl, rfl, fun c hc => h ▸ hd hdid (by rw [hZ]; simp) c hc, rfl, rfl, rfl, rfl, rfl, Shrinks.refl _, hI.db⟩
      · right
        rw [if_neg hdid]
        refine ⟨_, rfl, ⟨rfl, rfl, rfl, rfl, rfl, rfl, rfl, .inl (by simpa using hdid)⟩, .inr ⟨h, ?_⟩⟩
        rcases hdn with hw | ⟨hd, -⟩
        · exact hw
        · exact absurd hd hdid

/-! ## the plan of one image -/

theorem plan_some {db : DB ℝ Uv} {p : Plan} (h : plan lib F I db s M = some p) :
    ∃ lms, lmView s M = some lms ∧ margtimestep s = some p.mt ∧ cutMsckf (F.sel s.opts) (F.sort (frameRoles F I db s p.mt lms).candidates) = some p.up ∧
      p.upd = (frameRoles F I db s p.mt lms).slam.filter (isLm p.s) ∧ p.del = (frameRoles F I db s p.mt lms).slam.filter fun x => !isLm p.s x := by
  unfold plan at h
  simp only [Option.bind_eq_bind, Option.bind_eq_some_iff, Option.some.injEq] at h
  obtain ⟨mt, h1, lms, h2, s1, h3, s2, h4, up, h5, rfl⟩ := h
  exact ⟨lms, h2, h1, h5, rfl, rfl⟩

theorem lmView_ids : ∀ {l : List (ℕ × ℕ)} {lms : List (ℕ × Lm)} {f : ℕ × ℕ → Option (ℕ × Lm)}, (∀ e r, f e = some r → r.1 = e.1) → l.mapM f = some lms → lms.map Prod.fst = l.map Prod.fst
  | [], lms, f, _, h => by
    simp only [List.mapM_nil, Option.pure_def, Option.some.injEq] at h
    subst h; rfl
  | e :: l, lms, f, hf, h => by
    rw [List.mapM_cons] at h
    simp only [Option.bind_eq_bind, Option.bind_eq_some_iff, Option.pure_def, Option.some.injEq] at h
    obtain ⟨r, h1, rs, h2, rfl⟩ := h
    simp only [List.map_cons, hf e r h1, lmView_ids hf h2]

theorem cut_sub {c : SelCfg} {l up : List (Feature ℝ Uv)} (h : cutMsckf c l = some up) : up.Sublist l := by
  unfold cutMsckf at h
  split_ifs at h
  · obtain rfl := Option.some.inj h; exact List.drop_sublist _ _
  · obtain rfl := Option.some.inj h; exact List.Sublist.refl _

/-- the measurements used in one image are distinct, and are measurements of the databases, of features that are marked. -/
structure Used (db : DB ℝ Uv) (ar : Option (DB ℝ Uv)) (p : Plan) (l : List Meas) : Prop where
  nodup : l.Nodup
  inDb : ∀ m ∈ l, (Spec.InDb db m ∧ (m.1 ∈ p.up.map Feature.featid ∨ ∃ x ∈ p.upd ++ p.del, x.tag = false ∧ x.f.featid = m.1)) ∨
    ∃ a, ar = some a ∧ Spec.InDb a m ∧ ∃ x ∈ p.upd ++ p.del, x.tag = true ∧ x.f.featid = m.1

theorem tag_disj {o : Opts} {ts : ℝ} {db a : DB ℝ Uv} (hd : Spec.Tidy o ts (fun id => 4 * o.maxAruco < id) db) (ha : Spec.Tidy o ts (fun id => id ≤ 4 * o.maxAruco) a) {m m' : Meas} (h : Spec.InDb db m) (h' : Spec.InDb a m') : m.1 ≠ m'.1 := by
  have hin : ∀ {d : DB ℝ Uv} {m : Meas}, Spec.InDb d m → (d.get? m.1).isSome := by
    rintro d m ⟨x, hx, -⟩
    cases hg : d.get? m.1 with
    | none => simp [obs, hg] at hx
    | some f => rfl
  have h1 := hd.ids _ (hin h)
  have h2 := ha.ids _ (hin h')
  have h3 : 4 * o.maxAruco < m.1 := h1
  have h4 : m'.1 ≤ 4 * o.maxAruco := h2
  omega

theorem flatMap_nodup {α : Type} {g : α → List Meas} {k : α → ℕ} : ∀ {l : List α}, (l.map k).Nodup → (∀ a ∈ l, (g a).Nodup ∧ ∀ m ∈ g a, m.1 = k a) → (l.flatMap g).Nodup
  | [], _, _ => by simp
  | a :: l, h, hg => by
    rw [List.flatMap_cons, List.nodup_append]
    simp only [List.map_cons, List.nodup_cons] at h
    refine ⟨(hg a (by simp)).1, flatMap_nodup h.2 fun b hb => hg b (by simp [hb]), ?_⟩
    rintro m hm m' hm' rfl
    obtain ⟨b, hb, hm'⟩ := List.mem_flatMap.1 hm'
    refine h.1 (List.mem_map.2 ⟨b, hb, ?_⟩)
    rw [← (hg b (by simp [hb])).2 m hm', ← (hg a (by simp)).2 m hm]

theorem plan_used (hs : St.Spec.Prog lib o s) (hF : Spec.CfgOK o F) (hd : Spec.Tidy o s.ts (fun id => 4 * o.maxAruco < id) I.db) (ha : ∀ a, I.aruco = some a → Spec.Tidy o s.ts (fun id => id ≤ 4 * o.maxAruco) a)
    {p : Plan} (hp : plan lib F I I.db s M = some p) (hmt : p.mt ∈ s.clones.map Prod.fst) (hne : p.mt ≠ s.ts)
    (hl : ∀ e ∈ s.slam, ∀ cam, (∀ x ∈ obs I.db e.1 cam, x.1 ∈ s.clones.map Prod.fst → x.1 = s.ts) ∧ ∀ a, I.aruco = some a → ∀ x ∈ obs a e.1 cam, x.1 ∈ s.clones.map Prod.fst → x.1 = s.ts) :
    Used I.db I.aruco p (usedBy s M p) ∧ ((p.upd ++ p.del).map fun x => x.f.featid).Nodup ∧ (∀ x ∈ p.upd ++ p.del, (x.tag = false ∧ I.db.get? x.f.featid = some x.f) ∨ (x.tag = true ∧ ∃ a, I.aruco = some a ∧ a.get? x.f.featid = some x.f)) ∧
      (∀ f ∈ p.up, I.db.get? f.featid = some f) ∧
      ∀ e ∈ s.slam, ((I.db.get? e.1).isSome → ∃ x ∈ p.upd ++ p.del, x.tag = false ∧ x.f.featid = e.1) ∧ ∀ a, I.aruco = some a → (a.get? e.1).isSome → ∃ x ∈ p.upd ++ p.del, x.tag = true ∧ x.f.featid = e.1 := by
  have hW := prog_W hs
  obtain ⟨lms, h1, h2, h3, h4, h5⟩ := plan_some hp
  have hids : lms.map Prod.fst = s.slam.map Prod.fst := lmView_ids (fun e r h => by
    rw [Option.map_eq_some_iff] at h
    obtain ⟨c, -, rfl⟩ := h; rfl) h1
  set r := frameRoles F I I.db s p.mt lms with hr
  have hmem : ∀ e ∈ lms, ∃ e' ∈ s.slam, e'.1 = e.1 := fun e he => by
    have : e.1 ∈ s.slam.map Prod.fst := by rw [← hids]; exact List.mem_map_of_mem he
    exact List.mem_map.1 this
  have hop : (F.sel s.opts).maxAruco = o.maxAruco := by simp [FCfg.sel, hW.opts]
  have hda : ∀ a, I.aruco = some a → Spec.Db a ∧ ∀ id, (a.get? id).isSome → (id : ℤ) ≤ 4 * (F.sel s.opts).maxAruco := fun a h => ⟨(ha a h).sel, fun id hi => by
    have := (ha a h).ids id hi
    rw [hop]; exact_mod_cast this⟩
  have hn : (lms.map Prod.fst).Nodup := by
    rw [hids]; exact List.pairwise_map.2 hW.skey
  obtain ⟨d1, d2⟩ := roles_distinct (c := F.sel s.opts) (ts := s.ts) (mt := p.mt) (nc := s.clones.length) (delay := decide (F.dtSlam ≤ I.t - F.startup)) (cams := I.cams) (lms := lms) (aruco := I.aruco) hd.sel hda
    (fun id hi => by have := hd.ids id hi; rw [hop]; exact_mod_cast this) hn
    (fun e he cam x hx h => by
      obtain ⟨e', he', ee⟩ := hmem e he
      rw [← ee] at hx
      exact hne (h ▸ (hl e' he' cam).1 x hx (by rw [h]; exact hmt)))
    (fun a haa e he cam x hx h => by
      obtain ⟨e', he', ee⟩ := hmem e he
      rw [← ee] at hx
      exact hne (h ▸ (hl e' he' cam).2 a haa x hx (by rw [h]; exact hmt)))
  have hsel := C41_selection hd.sel (F.sel s.opts) I.aruco s.ts p.mt s.clones.length (decide (F.dtSlam ≤ I.t - F.startup)) I.cams lms
  have hpermS : (p.upd ++ p.del).Perm r.slam := by
    rw [h4, h5]; exact List.filter_append_perm (isLm p.s) r.slam
  have hnd : ((p.upd ++ p.del).map fun x => x.f.featid).Nodup := (hpermS.map _).nodup_iff.2 d1
  have hupc : ∀ f ∈ p.up, f ∈ r.candidates := fun f hf => (hF.sort _).subset ((cut_sub h3).subset hf)
  have hupn : (p.up.map Feature.featid).Nodup := by
    have h6 : (r.candidates.map Feature.featid).Nodup := by
      have := hsel.1
      rw [List.map_append, List.nodup_append] at this
      exact this.1
    exact (((hF.sort _).map _).nodup_iff.2 h6).sublist ((cut_sub h3).map _)
  have hupdb : ∀ f ∈ p.up, I.db.get? f.featid = some f := fun f hf => ((hsel.2.1 f).1 (List.mem_append_left _ (hupc f hf))).1.1
  have hsl : ∀ x ∈ p.upd ++ p.del, (x.tag = false ∧ I.db.get? x.f.featid = some x.f) ∨ (x.tag = true ∧ ∃ a, I.aruco = some a ∧ a.get? x.f.featid = some x.f) := by
    intro x hx
    rcases slam_cases hd.sel (fun a h => (ha a h).sel) (hpermS.subset hx) with ⟨q1, a, q2, q3⟩ | ⟨q1, q2⟩ | ⟨-, ⟨q1, a, q2, q3⟩ | ⟨q1, q2⟩⟩
    · exact .inr ⟨q1, a, q2, ((mem_containing0 (ha a q2).sel x.f).1 q3).2.1.1⟩
    · exact .inl ⟨q1, ((hsel.2.1 x.f).1 (List.mem_append_right _ q2)).1.1⟩
    · exact .inr ⟨q1, a, q2, q3⟩
    · exact .inl ⟨q1, q2⟩
  have hlm : ∀ e ∈ s.slam, ((I.db.get? e.1).isSome → ∃ x ∈ p.upd ++ p.del, x.tag = false ∧ x.f.featid = e.1) ∧ ∀ a, I.aruco = some a → (a.get? e.1).isSome → ∃ x ∈ p.upd ++ p.del, x.tag = true ∧ x.f.featid = e.1 := by
    intro e he
    have : e.1 ∈ lms.map Prod.fst := by rw [hids]; exact List.mem_map_of_mem he
    obtain ⟨e', he', ee⟩ := List.mem_map.1 this
    have hg : ∀ (d : DB ℝ Uv), (getFeature d e'.1 false).1 = d.get? e'.1 := by
      intro d; unfold getFeature; cases d.get? e'.1 <;> rfl
    have hsub : ∀ x ∈ lmTracks I.db I.aruco e'.1, x ∈ p.upd ++ p.del := fun x hx => hpermS.symm.subset (by
      simp only [hr, frameRoles, roles]
      exact List.mem_append_right _ (List.mem_flatMap.2 ⟨e', he', hx⟩))
    refine ⟨fun h => ?_, fun a haa h => ?_⟩
    · obtain ⟨f, hf⟩ := Option.isSome_iff_exists.1 h
      refine ⟨⟨false, f⟩, hsub _ ?_, rfl, db_featid hd.sel hf⟩
      unfold lmTracks
      refine List.mem_append_right _ ?_
      rw [hg, ee, hf]; simp
    · obtain ⟨f, hf⟩ := Option.isSome_iff_exists.1 h
      refine ⟨⟨true, f⟩, hsub _ ?_, rfl, db_featid (ha a haa).sel hf⟩
      unfold lmTracks
      refine List.mem_append_left _ ?_
      rw [haa]
      simp only
      rw [hg, ee, hf]; simp
  -- the measurements of one track
  have hup1 : ∀ f ∈ p.up, (measOf ((toTrack f).clean s)).Nodup ∧ ∀ m ∈ measOf ((toTrack f).clean s), m.1 = f.featid := fun f hf =>
    ⟨measOf_nodup hd (hupdb f hf), fun m hm => (mem_measOf (hupdb f hf) hd.ok.wf hm).1⟩
  have hsl1 : ∀ x ∈ p.upd ++ p.del, (measOf ((toTrack x.f).clean s)).Nodup ∧ ∀ m ∈ measOf ((toTrack x.f).clean s), m.1 = x.f.featid := fun x hx => by
    rcases hsl x hx with ⟨-, h⟩ | ⟨-, a, haa, h⟩
    · exact ⟨measOf_nodup hd h, fun m hm => (mem_measOf h hd.ok.wf hm).1⟩
    · exact ⟨measOf_nodup (ha a haa) h, fun m hm => (mem_measOf h (ha a haa).ok.wf hm).1⟩
  have hcl : ∀ (n : ℕ) (fs : List Upd.Track), ((Upd.cleaned s n fs).flatMap measOf).Sublist (fs.flatMap fun f => measOf (f.clean s)) := by
    intro n fs
    have : (fs.flatMap fun f => measOf (f.clean s)) = (fs.map (Upd.Track.clean s)).flatMap measOf := by rw [List.flatMap_map]
    rw [this]
    exact List.Sublist.flatMap List.filter_sublist _
  have hsub : (usedBy s M p).Sublist ((p.up.flatMap fun f => measOf ((toTrack f).clean s)) ++ ((p.upd ++ p.del).flatMap fun x => measOf ((toTrack x.f).clean s))) := by
    unfold usedBy
    rw [List.append_assoc, List.flatMap_append]
    refine List.Sublist.append ?_ (List.Sublist.append ?_ ?_)
    · have := hcl 2 (p.up.map toTrack)
      rwa [List.flatMap_map] at this
    · rw [List.flatMap_map]
      exact List.Sublist.flatMap List.filter_sublist _
    · have := hcl 2 (p.del.map fun x => toTrack x.f)
      rwa [List.flatMap_map] at this
  refine ⟨⟨List.Nodup.sublist hsub ?_, fun m hm => ?_⟩, hnd, hsl, hupdb, hlm⟩
  · rw [List.nodup_append]
    refine ⟨flatMap_nodup hupn hup1, flatMap_nodup hnd hsl1, ?_⟩
    rintro m hm m' hm' rfl
    obtain ⟨f, hf, hm⟩ := List.mem_flatMap.1 hm
    obtain ⟨x, hx, hm'⟩ := List.mem_flatMap.1 hm'
    obtain ⟨g1, g2, z, hz, hz'⟩ := mem_measOf (hupdb f hf) hd.ok.wf hm
    have e1 : f.featid = x.f.featid := by rw [← g1, (hsl1 x hx).2 m hm']
    obtain ⟨q1, q2⟩ := d2 f (hupc f hf) (by rw [e1]; exact List.mem_map.2 ⟨x, hpermS.subset hx, rfl⟩)
    rw [hids] at q1
    obtain ⟨e, he, ee⟩ := List.mem_map.1 q1
    rw [g1] at hz
    have hlt := q2 _ z hz
    have := (hl e he m.2.1).1 z (by rw [ee]; exact hz) (by rw [hz']; exact g2)
    exact absurd this hlt.ne
  · rcases List.mem_append.1 (hsub.subset hm) with h | h
    · obtain ⟨f, hf, hm⟩ := List.mem_flatMap.1 h
      obtain ⟨g1, -, g3⟩ := mem_measOf (hupdb f hf) hd.ok.wf hm
      exact .inl ⟨g3, .inl (List.mem_map.2 ⟨f, hf, g1.symm⟩)⟩
    · obtain ⟨x, hx, hm⟩ := List.mem_flatMap.1 h
      rcases hsl x hx with ⟨t, h⟩ | ⟨t, a, haa, h⟩
      · obtain ⟨g1, -, g3⟩ := mem_measOf h hd.ok.wf hm
        exact .inl ⟨g3, .inr ⟨x, hx, t, g1.symm⟩⟩
      · obtain ⟨g1, -, g3⟩ := mem_measOf h (ha a haa).ok.wf hm
        exact .inr ⟨a, haa, g3, x, hx, t, g1.symm⟩

end Verif.Vio
