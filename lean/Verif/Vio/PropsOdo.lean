import Verif.Vio.Odo
import Verif.Vio.PropsMgr
import Verif.Upd.PropsMsckf
import Verif.Upd.PropsAnchorS

/-!
# C148: when the manager counts as initialised, and the distance it reports
-/

set_option autoImplicit false
open Classical

namespace Verif.Vio

open Verif Verif.Types Verif.St Verif.Imu Verif.Prop_ Verif.Feat Verif.Disp

variable {lib : Lib} {o : Opts} {cfg : MCfg}

namespace Spec

/-- the manager `m` sets out to process the image as `m0`: it has no zero velocity updater, or that updater is not used any more, or it refused (or had refused) this time. -/
def Moving (lib : Lib) (cfg : MCfg) (m : Mgr) (db : DB ℝ Uv) (t : ℝ) (m0 : Mgr) : Prop :=
  (zuptOn cfg m = none ∧ m0 = { m with db := db }) ∨ ∃ Z, zuptOn cfg m = some Z ∧ zuptTry lib Z { m with db := db } t = some m0 ∧ m0.did = false

/-- the image is used: it does not lie in the past, the state could be brought to its time, and there are at least five clones (or as many as the window holds). -/
def Uses (lib : Lib) (cfg : MCfg) (m : Mgr) (db : DB ℝ Uv) (t : ℝ) : Prop :=
  ∃ m0 m1, Moving lib cfg m db t m0 ∧ m0.st.ts ≤ t ∧ propTo cfg m0 t = some m1 ∧ m1.st.ts = t ∧ min m1.st.opts.maxClones 5 ≤ m1.st.clones.length

/-- one of the images of the sequence is used. -/
def SomeUsed (lib : Lib) (cfg : MCfg) (m : Mgr) (evs : List Ev) : Prop :=
  ∃ a db t upd b m1, evs = a ++ .image db t upd :: b ∧ runEvs lib cfg m a = some m1 ∧ Uses lib cfg m1 db t

end Spec

theorem featOdo_cases {m m' : Mgr} {d d' : Odo} {t : ℝ} {upd : List Op} (h : featOdo lib cfg m d t upd = some (m', d')) :
    featUpdate lib cfg m t upd = some m' ∧
      (((m.st.ts ≤ t ∧ ∃ m1, propTo cfg m t = some m1 ∧ m1.st.ts = t ∧ min m1.st.opts.maxClones 5 ≤ m1.st.clones.length) ∧ odoEnd d m'.st t = some d') ∨
       (¬(m.st.ts ≤ t ∧ ∃ m1, propTo cfg m t = some m1 ∧ m1.st.ts = t ∧ min m1.st.opts.maxClones 5 ≤ m1.st.clones.length) ∧ d' = d)) := by
  unfold featOdo at h
  unfold featUpdate
  by_cases hgt : m.st.ts > t
  · rw [if_pos hgt] at h ⊢
    simp only [Option.some.injEq, Prod.mk.injEq] at h
    exact ⟨by rw [h.1], .inr ⟨fun hh => absurd hh.1 (not_le.2 hgt), h.2.symm⟩⟩
  · rw [if_neg hgt] at h ⊢
    cases hp : propTo cfg m t with
    | none => rw [hp] at h; simp at h
    | some m1 =>
      rw [hp] at h
      simp only [Option.bind_eq_bind, Option.bind_some] at h ⊢
      by_cases hc : m1.st.clones.length < min m1.st.opts.maxClones 5
      · rw [if_pos hc] at h ⊢
        simp only [Option.some.injEq, Prod.mk.injEq] at h
        refine ⟨by rw [h.1], .inr ⟨?_, h.2.symm⟩⟩
        rintro ⟨_, m2, h2, _, h3⟩
        cases h2
        omega
      · rw [if_neg hc] at h ⊢
        by_cases ht : m1.st.ts ≠ t
        · rw [if_pos ht] at h ⊢
          simp only [Option.some.injEq, Prod.mk.injEq] at h
          refine ⟨by rw [h.1], .inr ⟨?_, h.2.symm⟩⟩
          rintro ⟨_, m2, h2, h3, _⟩
          cases h2
          exact ht h3
        · rw [if_neg ht] at h ⊢
          simp only [Option.bind_eq_some_iff, Option.some.injEq, Prod.mk.injEq] at h
          obtain ⟨s2, e2, s3, e3, d1, e4, rfl, rfl⟩ := h
          simp only [e2, e3, Option.bind_some]
          exact ⟨trivial, .inl ⟨⟨not_lt.1 hgt, m1, rfl, not_not.1 ht, not_lt.1 hc⟩, e4⟩⟩

theorem imageOdo_cases {m m' : Mgr} {d d' : Odo} {db : DB ℝ Uv} {t : ℝ} {upd : List Op} (h : imageOdo lib cfg m d db t upd = some (m', d')) :
    image lib cfg m db t upd = some m' ∧
      ((Spec.Uses lib cfg m db t ∧ odoEnd d m'.st t = some d') ∨ (¬Spec.Uses lib cfg m db t ∧ d' = d)) := by
  unfold imageOdo at h
  unfold image
  cases hz : zuptOn cfg m with
  | none =>
    rw [hz] at h
    simp only at h ⊢
    obtain ⟨h1, h2⟩ := featOdo_cases h
    refine ⟨h1, ?_⟩
    rcases h2 with ⟨⟨a, m1, b⟩, e⟩ | ⟨a, e⟩
    · exact .inl ⟨⟨_, m1, .inl ⟨hz, rfl⟩, a, b⟩, e⟩
    · refine .inr ⟨?_, e⟩
      rintro ⟨m0, m1, hm | ⟨Z, hZ, _⟩, b, c⟩
      · obtain ⟨_, rfl⟩ := hm
        exact a ⟨b, m1, c⟩
      · rw [hz] at hZ; cases hZ
  | some Z =>
    rw [hz] at h
    simp only [Option.bind_eq_bind, Option.bind_eq_some_iff] at h ⊢
    obtain ⟨m1, h1, h⟩ := h
    by_cases hd : m1.did = true
    · rw [if_pos hd] at h
      by_cases ht : m1.st.ts = t
      · rw [if_pos ht] at h
        simp only [Option.bind_eq_some_iff, Option.some.injEq, Prod.mk.injEq] at h
        obtain ⟨off, e1, rfl, rfl⟩ := h
        refine ⟨⟨m1, h1, ?_⟩, .inr ⟨?_, rfl⟩⟩
        · rw [if_pos hd, if_pos ht, e1]; rfl
        · rintro ⟨m0, m2, hm | ⟨Z', hZ, h2, h3⟩, _⟩
          · rw [hz] at hm; cases hm.1
          · rw [hz] at hZ; cases hZ
            rw [h1] at h2; cases h2
            rw [hd] at h3; cases h3
      · rw [if_neg ht] at h; cases h
    · rw [if_neg hd] at h
      obtain ⟨h3, h2⟩ := featOdo_cases h
      refine ⟨⟨m1, h1, by rw [if_neg hd]; exact h3⟩, ?_⟩
      rcases h2 with ⟨⟨a, m2, b⟩, e⟩ | ⟨a, e⟩
      · exact .inl ⟨⟨m1, m2, .inr ⟨Z, hz, h1, by simpa using hd⟩, a, b⟩, e⟩
      · refine .inr ⟨?_, e⟩
        rintro ⟨m0, m2, hm | ⟨Z', hZ, h2, h4⟩, b, c⟩
        · rw [hz] at hm; cases hm.1
        · rw [hz] at hZ; cases hZ
          rw [h1] at h2; cases h2
          exact a ⟨b, m2, c⟩

theorem odoEnd_last {d d' : Odo} {s : State} {t : ℝ} (h : odoEnd d s t = some d') : d'.last = t ∧ d.dist ≤ d'.dist := by
  unfold odoEnd at h
  split_ifs at h
  · simp only [Option.bind_eq_bind, Option.bind_eq_some_iff, Option.some.injEq] at h
    obtain ⟨u, _, p, _, K, _, rfl⟩ := h
    exact ⟨rfl, le_add_of_nonneg_right (Real.sqrt_nonneg _)⟩
  · cases h; exact ⟨rfl, le_refl _⟩

/-- **C148** What is told about the progress changes nothing in the filter. -/
theorem C148_observer : ∀ (evs : List Ev) (m m' : Mgr) (d d' : Odo), runOdo lib cfg (m, d) evs = some (m', d') → runEvs lib cfg m evs = some m' := by
  intro evs
  induction evs with
  | nil => intro m m' d d' h; simp only [runOdo, Option.some.injEq, Prod.mk.injEq] at h; simp only [runEvs, h.1]
  | cons e es ih =>
    intro m m' d d' h
    simp only [runOdo, Option.bind_eq_some_iff] at h
    obtain ⟨⟨m1, d1⟩, h1, h2⟩ := h
    have := ih _ _ _ _ h2
    simp only [runEvs, Option.bind_eq_some_iff]
    refine ⟨m1, ?_, this⟩
    cases e with
    | imu r => simp only [Ev.odo, Option.some.injEq, Prod.mk.injEq] at h1; simp only [Ev.run, h1.1]
    | image db t upd => exact (imageOdo_cases h1).1

theorem someUsed_cons {m : Mgr} {e : Ev} {es : List Ev} {m1 : Mgr} (h1 : e.run lib cfg m = some m1) :
    Spec.SomeUsed lib cfg m (e :: es) ↔ (∃ db t upd, e = .image db t upd ∧ Spec.Uses lib cfg m db t) ∨ Spec.SomeUsed lib cfg m1 es := by
  constructor
  · rintro ⟨a, db, t, upd, b, m2, ha, hr, hu⟩
    cases a with
    | nil =>
      simp only [List.nil_append, List.cons.injEq] at ha
      simp only [runEvs, Option.some.injEq] at hr
      subst hr
      exact .inl ⟨db, t, upd, ha.1, hu⟩
    | cons x a =>
      simp only [List.cons_append, List.cons.injEq] at ha
      obtain ⟨rfl, rfl⟩ := ha
      simp only [runEvs, h1, Option.bind_some] at hr
      exact .inr ⟨a, db, t, upd, b, m2, rfl, hr, hu⟩
  · rintro (⟨db, t, upd, rfl, hu⟩ | ⟨a, db, t, upd, b, m2, rfl, hr, hu⟩)
    · exact ⟨[], db, t, upd, es, m, rfl, rfl, hu⟩
    · exact ⟨e :: a, db, t, upd, b, m2, rfl, by simp only [runEvs, h1, Option.bind_some, hr], hu⟩

/-- **C148** For every sequence of readings and images (none of them at time -1, the mark for "never") the manager counts as initialised exactly if it did before or one of the images
has been used: not answered by a zero velocity update, not out of order, reached by the propagation and with enough clones. In particular it stays initialised. -/
theorem C148_initialized : ∀ (evs : List Ev) (m m' : Mgr) (d d' : Odo), (∀ t ∈ Spec.imgTimes evs, t ≠ -1) → runOdo lib cfg (m, d) evs = some (m', d') →
    (d'.initialized ↔ d.initialized ∨ Spec.SomeUsed lib cfg m evs) := by
  intro evs
  induction evs with
  | nil =>
    intro m m' d d' _ h
    simp only [runOdo, Option.some.injEq, Prod.mk.injEq] at h
    rw [← h.2]
    refine ⟨.inl, fun hh => hh.resolve_right ?_⟩
    rintro ⟨a, db, t, upd, b, _, ha, _⟩
    cases a <;> cases ha
  | cons e es ih =>
    intro m m' d d' ht h
    simp only [runOdo, Option.bind_eq_some_iff] at h
    obtain ⟨⟨m1, d1⟩, h1, h2⟩ := h
    cases e with
    | imu r =>
      simp only [Ev.odo, Option.some.injEq, Prod.mk.injEq] at h1
      obtain ⟨rfl, rfl⟩ := h1
      rw [ih _ _ _ _ (by simpa [Spec.imgTimes] using ht) h2, someUsed_cons (e := .imu r) rfl]
      simp
    | image db t upd =>
      obtain ⟨e1, e2⟩ := imageOdo_cases h1
      rw [ih _ _ _ _ (fun x hx => ht x (by simp [Spec.imgTimes, hx])) h2, someUsed_cons (e := .image db t upd) e1]
      have h1' : (∃ db' t' upd', Ev.image db t upd = .image db' t' upd' ∧ Spec.Uses lib cfg m db' t') ↔ Spec.Uses lib cfg m db t := by
        constructor
        · rintro ⟨_, _, _, he, hu⟩
          cases he; exact hu
        · exact fun hu => ⟨_, _, _, rfl, hu⟩
      rw [h1']
      rcases e2 with ⟨hu, e⟩ | ⟨hu, rfl⟩
      · have : d1.initialized := by
          rw [Odo.initialized, (odoEnd_last e).1]
          exact ht t (by simp [Spec.imgTimes])
        simp [this, hu]
      · simp [hu]

/-- **C148** As long as no image has been used - the device rests and every image is answered by a zero velocity update, for instance - the manager does not count as initialised and the
distance is zero, however long the sequence is. -/
theorem C148_at_rest : ∀ (evs : List Ev) (m m' : Mgr) (d d' : Odo), ¬Spec.SomeUsed lib cfg m evs → runOdo lib cfg (m, d) evs = some (m', d') → d' = d := by
  intro evs
  induction evs with
  | nil => intro m m' d d' _ h; simp only [runOdo, Option.some.injEq, Prod.mk.injEq] at h; exact h.2.symm
  | cons e es ih =>
    intro m m' d d' hn h
    simp only [runOdo, Option.bind_eq_some_iff] at h
    obtain ⟨⟨m1, d1⟩, h1, h2⟩ := h
    cases e with
    | imu r =>
      simp only [Ev.odo, Option.some.injEq, Prod.mk.injEq] at h1
      obtain ⟨rfl, rfl⟩ := h1
      rw [someUsed_cons (e := .imu r) rfl] at hn
      exact ih _ _ _ _ (fun hh => hn (.inr hh)) h2
    | image db t upd =>
      obtain ⟨e1, e2⟩ := imageOdo_cases h1
      rw [someUsed_cons (e := .image db t upd) e1] at hn
      rcases e2 with ⟨hu, e⟩ | ⟨_, rfl⟩
      · exact absurd (.inl ⟨_, _, _, rfl, hu⟩) hn
      · exact ih _ _ _ _ (fun hh => hn (.inr hh)) h2

/-- **C148** The distance never decreases. -/
theorem C148_distance_monotone : ∀ (evs : List Ev) (m m' : Mgr) (d d' : Odo), runOdo lib cfg (m, d) evs = some (m', d') → d.dist ≤ d'.dist := by
  intro evs
  induction evs with
  | nil => intro m m' d d' h; simp only [runOdo, Option.some.injEq, Prod.mk.injEq] at h; rw [h.2]
  | cons e es ih =>
    intro m m' d d' h
    simp only [runOdo, Option.bind_eq_some_iff] at h
    obtain ⟨⟨m1, d1⟩, h1, h2⟩ := h
    refine le_trans ?_ (ih _ _ _ _ h2)
    cases e with
    | imu r =>
      simp only [Ev.odo, Option.some.injEq, Prod.mk.injEq] at h1
      rw [h1.2]
    | image db t upd =>
      rcases (imageOdo_cases h1).2 with ⟨_, e⟩ | ⟨_, rfl⟩
      · exact (odoEnd_last e).2
      · exact le_refl _

/-- **C148** One image, in a state the program reaches: it is completed whenever the filter completes it; if it is used the time of the last use is the image's and the distance grows by
the length from the pose at the last use, as it is estimated now, to the position estimated now - by nothing if there was no use before or that pose has left the window; if it is
not used nothing changes. -/
theorem C148_step {m m' : Mgr} (hm : St.Spec.Prog lib o m.st) {db : DB ℝ Uv} {t : ℝ} {upd : List Op} (hu : ∀ op ∈ upd, Spec.UpdOp op) (h : image lib cfg m db t upd = some m') (d : Odo) :
    ∃ d', imageOdo lib cfg m d db t upd = some (m', d') ∧ (¬Spec.Uses lib cfg m db t → d' = d) ∧
      (Spec.Uses lib cfg m db t → d'.last = t ∧ ∀ x, (m'.st.obj imuUid).val = .imu x →
        (∀ u q p, d.initialized → (d.last, u) ∈ m'.st.clones → (m'.st.obj u).val = .pose q p → d'.dist = d.dist + norm3 (x.p - p)) ∧
        (¬d.initialized ∨ (∀ u, (d.last, u) ∉ m'.st.clones) → d'.dist = d.dist)) := by
  have hm' : St.Spec.Prog lib o m'.st := by
    obtain ⟨i1, _, i3⟩ := image_some hm hu h
    rcases le_or_gt m.st.ts t with hle | hlt
    · exact (i1 hle).1
    · exact (i3 hlt).2.1
  have hW := prog_W hm'
  obtain ⟨x, f, hx, _⟩ := prog_imu hm'
  obtain ⟨d1, hd1⟩ : ∃ d1, odoEnd d m'.st t = some d1 := by
    unfold odoEnd
    split_ifs with hc
    · obtain ⟨u, hu⟩ := Option.isSome_iff_exists.1 hc.2
      obtain ⟨q, p, hp⟩ := hW.cpose _ (Upd.cloneUid_mem hu)
      simp only at hp
      simp only [hu, imuAt, hx, hp, Upd.valPose, Option.bind_eq_bind, Option.bind_some]
      exact ⟨_, rfl⟩
    · exact ⟨_, rfl⟩
  obtain ⟨d', hd'⟩ : ∃ d', imageOdo lib cfg m d db t upd = some (m', d') := by
    have feat : ∀ m0 : Mgr, featUpdate lib cfg m0 t upd = some m' → ∃ d', featOdo lib cfg m0 d t upd = some (m', d') := by
      intro m0 h0
      unfold featUpdate at h0
      unfold featOdo
      by_cases hgt : m0.st.ts > t
      · rw [if_pos hgt] at h0 ⊢
        cases h0; exact ⟨d, rfl⟩
      · rw [if_neg hgt] at h0 ⊢
        simp only [Option.bind_eq_bind, Option.bind_eq_some_iff] at h0 ⊢
        obtain ⟨m1, h1, h0⟩ := h0
        by_cases hc : m1.st.clones.length < min m1.st.opts.maxClones 5
        · rw [if_pos hc] at h0
          cases h0
          exact ⟨d, _, h1, by rw [if_pos hc]⟩
        · rw [if_neg hc] at h0
          by_cases ht : m1.st.ts ≠ t
          · rw [if_pos ht] at h0
            cases h0
            exact ⟨d, _, h1, by rw [if_neg hc, if_pos ht]⟩
          · rw [if_neg ht] at h0
            simp only [Option.bind_eq_some_iff, Option.some.injEq] at h0
            obtain ⟨s2, e2, s3, e3, rfl⟩ := h0
            exact ⟨d1, m1, h1, by
              rw [if_neg hc, if_neg ht]
              simp only [e2, e3, Option.bind_some]
              rw [hd1]; rfl⟩
    unfold image at h
    unfold imageOdo
    cases hz : zuptOn cfg m with
    | none => rw [hz] at h; exact feat _ h
    | some Z =>
      rw [hz] at h
      simp only [Option.bind_eq_bind, Option.bind_eq_some_iff] at h ⊢
      obtain ⟨m1, h1, h⟩ := h
      by_cases hd : m1.did = true
      · rw [if_pos hd] at h
        by_cases ht : m1.st.ts = t
        · rw [if_pos ht] at h
          simp only [Option.bind_eq_some_iff, Option.some.injEq] at h
          obtain ⟨off, e1, rfl⟩ := h
          exact ⟨d, m1, h1, by rw [if_pos hd, if_pos ht, e1]; rfl⟩
        · rw [if_neg ht] at h; cases h
      · rw [if_neg hd] at h
        obtain ⟨d', hd'⟩ := feat _ h
        exact ⟨d', m1, h1, by rw [if_neg hd]; exact hd'⟩
  refine ⟨d', hd', ?_, ?_⟩
  · intro hn
    rcases (imageOdo_cases hd').2 with ⟨hu, _⟩ | ⟨_, e⟩
    · exact absurd hu hn
    · exact e
  · intro hu
    rcases (imageOdo_cases hd').2 with ⟨_, e⟩ | ⟨hn, _⟩
    · refine ⟨(odoEnd_last e).1, fun y hy => ⟨fun u q p hi hc hp => ?_, fun hno => ?_⟩⟩
      · obtain ⟨w, hw⟩ := Upd.cloneUid_some ⟨u, hc⟩
        have hwu : w = u := Upd.clone_uid_unique hW (Upd.cloneUid_mem hw) hc
        subst hwu
        unfold odoEnd at e
        rw [if_pos ⟨hi, by rw [hw]; rfl⟩, hw] at e
        simp only [imuAt, hy, hp, Upd.valPose, Option.bind_eq_bind, Option.bind_some, Option.some.injEq] at e
        rw [← e]
      · unfold odoEnd at e
        rw [if_neg] at e
        · cases e; rfl
        · rintro ⟨h1, h2⟩
          obtain ⟨u, hu⟩ := Option.isSome_iff_exists.1 h2
          rcases hno with h | h
          · exact h h1
          · exact h u (Upd.cloneUid_mem hu)
    · exact absurd hu hn

/-! ### the hypotheses are met -/

/-- a manager at time 0, a reading at time 10 and an image at time 2: the filter completes the image, uses it, and the manager counts as initialised; before it, and after a
stale image alone, it does not. -/
example (hlib : St.Spec.LibOK lib) (po : POpts) (N : Noise) :
    (∃ m' d', runOdo lib ⟨none, false, po, N⟩ (exM N, odo0) [.imu (exRd N.g 10), .image [] 2 []] = some (m', d') ∧ d'.initialized ∧ d'.last = 2 ∧ d'.dist = 0) ∧
    (∃ m', runOdo lib ⟨none, false, po, N⟩ (exM N, odo0) [.imu (exRd N.g 10), .image [] (-2) []] = some (m', odo0)) ∧ ¬odo0.initialized := by
  set cfg : MCfg := ⟨none, false, po, N⟩ with hcfg
  have hbuf : (feedImu cfg (exM N) (exRd N.g 10)).buf = [exRd N.g 0, exRd N.g 10] := by
    have : oldestTime exS = -1 := by simp [oldestTime, margtimestep, exS, ctor, ctorVars, St.Spec.o0, push]
    simp only [feedImu, feed, exM, this, Imu.cleanOld]
    norm_num
  obtain ⟨m1, h1, h2⟩ := C78_image_completes (o := St.Spec.o0) hlib cfg (feedImu cfg (exM N) (exRd N.g 10)) (exS_prog lib)
    (by simp [feedImu, exM, exS, ctor, ctorVars, St.Spec.o0, push]) (off := 1) (t := 2) exS_off (by simp [feedImu, exM, exS])
    (by rw [hbuf]; simp [Imu.Spec.Sorted, exRd]) (by simp [feedImu, exM, exS]) ⟨exRd N.g 0, by rw [hbuf]; simp, by simp [feedImu, exM, exS, exRd]⟩
    ⟨exRd N.g 10, by rw [hbuf]; simp, by norm_num [exRd]⟩ (by rw [hbuf]; norm_num) (hist := (.empty : Hist ℝ Uv)) rfl (by simp) [] (by simp) (fun s1 _ _ => ⟨s1, rfl⟩)
  have hp : St.Spec.Prog lib St.Spec.o0 (feedImu cfg (exM N) (exRd N.g 10)).st := (exS_prog lib).prog
  have hzo : zuptOn cfg (feedImu cfg (exM N) (exRd N.g 10)) = none := rfl
  refine ⟨?_, ?_, by simp [Odo.initialized, odo0]⟩
  · obtain ⟨d', e1, _, e3⟩ := C148_step hp (by simp) h1 odo0
    have hu : Spec.Uses lib cfg (feedImu cfg (exM N) (exRd N.g 10)) [] 2 := by
      have hf : featUpdate lib cfg { feedImu cfg (exM N) (exRd N.g 10) with db := [] } 2 [] = some m1 := h1
      unfold featUpdate at hf
      rw [if_neg (by simp [feedImu, exM, exS]), Option.bind_eq_bind, Option.bind_eq_some_iff] at hf
      obtain ⟨m2, h3, _⟩ := hf
      refine ⟨_, m2, .inl ⟨hzo, rfl⟩, by simp [feedImu, exM, exS], h3, ?_⟩
      unfold propTo at h3
      rw [if_pos (by simp [feedImu, exM, exS])] at h3
      simp only [Option.map_eq_some_iff] at h3
      obtain ⟨⟨s1, off⟩, h4, rfl⟩ := h3
      obtain ⟨_, a2, a3, a4, a5, _⟩ := prop_some hp h4
      refine ⟨a2, ?_⟩
      show min s1.opts.maxClones 5 ≤ s1.clones.length
      rw [a5, a4, insertClone_length _ _ _ a3]
      simp [feedImu, exM, exS, ctor, ctorVars, St.Spec.o0, push]
    obtain ⟨l1, l2⟩ := e3 hu
    obtain ⟨i1, _, _⟩ := image_some hp (by simp) h1
    obtain ⟨x, f, hx, _⟩ := prog_imu (i1 (by simp [feedImu, exM, exS])).1
    refine ⟨m1, d', ?_, ?_, l1, (l2 x hx).2 (.inl (by simp [Odo.initialized, odo0]))⟩
    · simp only [runOdo, Ev.odo, Option.bind_some, e1]
    · rw [Odo.initialized, l1]; norm_num
  · refine ⟨{ feedImu cfg (exM N) (exRd N.g 10) with db := [] }, ?_⟩
    simp only [runOdo, Ev.odo, Option.bind_some, imageOdo, hzo, featOdo]
    rw [if_pos (by simp [feedImu, exM, exS])]
    rfl

end Verif.Vio
