import Verif.Vio.PropsOdo

/-!
# C148: no step of the distance is left out, except with a window of one
-/

set_option autoImplicit false
open Classical

namespace Verif.Vio

open Verif Verif.Types Verif.St Verif.Imu Verif.Prop_ Verif.Feat Verif.Disp

variable {lib : Lib} {o : Opts} {cfg : MCfg}

theorem moving_st {m m0 : Mgr} (hm : St.Spec.Prog lib o m.st) {db : DB ℝ Uv} {t : ℝ} (h : Spec.Moving lib cfg m db t m0) : m0.st = m.st := by
  rcases h with ⟨_, rfl⟩ | ⟨Z, _, h1, h2⟩
  · rfl
  · unfold zuptTry at h1
    split_ifs at h1 with e
    · simp only [Option.map_eq_some_iff] at h1
      obtain ⟨⟨b, mem', s', db'⟩, h1, rfl⟩ := h1
      exact (try_some hm h1).2.1 h2
    · cases h1; rfl

theorem moving_unique {m m0 m1 : Mgr} {db : DB ℝ Uv} {t : ℝ} (h : Spec.Moving lib cfg m db t m0) (h' : Spec.Moving lib cfg m db t m1) : m0 = m1 := by
  rcases h with ⟨hz, rfl⟩ | ⟨Z, hz, h1, _⟩ <;> rcases h' with ⟨hz', rfl⟩ | ⟨Z', hz', h1', _⟩
  · rfl
  · rw [hz] at hz'; cases hz'
  · rw [hz] at hz'; cases hz'
  · rw [hz] at hz'; cases hz'
    rw [h1] at h1'; cases h1'; rfl

/-- an image that is not refused goes on to the update. -/
theorem image_moving {m m0 m' : Mgr} {db : DB ℝ Uv} {t : ℝ} {upd : List Op} (h : Spec.Moving lib cfg m db t m0) (hi : image lib cfg m db t upd = some m') :
    featUpdate lib cfg m0 t upd = some m' := by
  unfold image at hi
  rcases h with ⟨hz, rfl⟩ | ⟨Z, hz, h1, h2⟩
  · rw [hz] at hi; exact hi
  · rw [hz] at hi
    simp only [h1, Option.bind_eq_bind, Option.bind_some, h2, Bool.false_eq_true, if_false] at hi
    exact hi

/-- the window after an image that is later than the state: unchanged if the image is answered by a zero velocity update; with the image's clone and still too short; or the
image is used and at most the oldest clone has gone. -/
theorem window_after {m m' : Mgr} (hm : St.Spec.Prog lib o m.st) (hc : ∀ c ∈ m.st.clones, c.1 ≤ m.st.ts) {db : DB ℝ Uv} {t : ℝ} (ht : m.st.ts < t) {upd : List Op}
    (hu : ∀ op ∈ upd, Spec.UpdOp op) (h : image lib cfg m db t upd = some m') :
    (¬Spec.Uses lib cfg m db t ∧ m'.st.clones = m.st.clones) ∨
    (¬Spec.Uses lib cfg m db t ∧ m.st.clones.length < min o.maxClones 5) ∨
    (Spec.Uses lib cfg m db t ∧ min o.maxClones 5 ≤ m'.st.clones.length ∧ (1 ≤ o.maxClones → ∃ u, (t, u) ∈ m'.st.clones) ∧
      ∀ c ∈ m.st.clones, 2 ≤ o.maxClones → (∀ e ∈ m.st.clones, e.1 ≤ c.1) → c ∈ m'.st.clones) := by
  by_cases hmv : ∃ m0, Spec.Moving lib cfg m db t m0
  · obtain ⟨m0, hm0⟩ := hmv
    have hst := moving_st hm hm0
    have hf := image_moving hm0 h
    unfold featUpdate at hf
    rw [if_neg (by rw [hst]; exact not_lt.2 ht.le), Option.bind_eq_bind, Option.bind_eq_some_iff] at hf
    obtain ⟨m1, h1, hf⟩ := hf
    have h1' := h1
    unfold propTo at h1
    rw [if_pos (by rw [hst]; exact ht.ne)] at h1
    simp only [Option.map_eq_some_iff] at h1
    obtain ⟨⟨s1, off⟩, hp, rfl⟩ := h1
    rw [hst] at hp
    obtain ⟨a1, a2, a3, a4, a5, _⟩ := prop_some hm hp
    have hopt : s1.opts.maxClones = o.maxClones := by rw [prog_opts a1]
    by_cases hlen : s1.clones.length < min s1.opts.maxClones 5
    · refine .inr (.inl ⟨?_, ?_⟩)
      · rintro ⟨n0, n1, k1, _, k3, _, k5⟩
        rw [moving_unique k1 hm0, h1'] at k3
        cases k3
        exact absurd hlen (not_lt.2 k5)
      · rw [a4, insertClone_length _ _ _ a3, hopt] at hlen
        omega
    · simp only at hf
      rw [if_neg hlen, if_neg (by rw [not_not]; exact a2)] at hf
      simp only [Option.bind_eq_bind, Option.bind_eq_some_iff, Option.some.injEq] at hf
      obtain ⟨s2, h4, s3, h5, rfl⟩ := hf
      obtain ⟨u1, u2, u3, u4⟩ := upd_run upd a1 hu h4
      have hW := prog_W u1
      have hmem : ∀ c, c ∈ s2.clones ↔ c = (t, m.st.next) ∨ c ∈ m.st.clones := fun c => by rw [u3, a4]; exact mem_insertClone _ _ _ a3 c
      have hlt : ∀ c ∈ m.st.clones, c.1 < t := fun c hcm => lt_of_le_of_lt (hc c hcm) ht
      refine .inr (.inr ⟨⟨m0, _, hm0, by rw [hst]; exact ht.le, h1', a2, not_lt.1 hlen⟩, ?_⟩)
      show min o.maxClones 5 ≤ s3.clones.length ∧ (1 ≤ o.maxClones → ∃ u, (t, u) ∈ s3.clones) ∧ ∀ c ∈ m.st.clones, 2 ≤ o.maxClones → (∀ e ∈ m.st.clones, e.1 ≤ c.1) → c ∈ s3.clones
      rcases margOld_cases h5 with ⟨l1, rfl⟩ | ⟨l1, mt, l2, l3⟩
      · refine ⟨?_, fun _ => ⟨m.st.next, (hmem _).2 (.inl rfl)⟩, fun c hcm _ _ => (hmem c).2 (.inr hcm)⟩
        rw [u3, ← hopt]; exact not_lt.1 hlen
      · obtain ⟨_, w2, w3⟩ := hW.dropClone (reach_inv u1.reach) l3
        rw [prog_opts u1] at l1
        cases hcl : s2.clones with
        | nil => rw [hcl] at l1; simp at l1
        | cons c0 r =>
          have hmt : mt = c0.1 := by
            have := margtimestep_sorted hcl hW.sorted
            rw [l2] at this; exact Option.some.inj this
          have hsort := hW.sorted
          rw [hcl] at hsort
          refine ⟨by omega, fun h1 => ⟨m.st.next, ?_⟩, fun c hcm h2 hmax => ?_⟩
          · rw [w2, List.mem_filter]
            refine ⟨(hmem _).2 (.inl rfl), ?_⟩
            simp only [decide_eq_true_eq]
            intro hteq
            cases r with
            | nil => rw [hcl] at l1; simp at l1; omega
            | cons c1 r =>
              have h01 : c0.1 < c1.1 := (List.pairwise_cons.1 hsort).1 c1 (by simp)
              rcases (hmem c1).1 (by rw [hcl]; simp) with e | e
              · rw [e, ← hmt, ← hteq] at h01; exact lt_irrefl _ h01
              · have := hlt c1 e
                rw [← hmt, ← hteq] at h01
                exact lt_asymm h01 this
          · rw [w2, List.mem_filter]
            refine ⟨(hmem c).2 (.inr hcm), ?_⟩
            simp only [decide_eq_true_eq]
            intro hteq
            match r, hcl, hsort with
            | [], hcl, _ => rw [hcl] at l1; simp at l1; omega
            | [c1], hcl, _ => rw [hcl] at l1; simp at l1; omega
            | c1 :: c2 :: r, hcl, hsort =>
              have h01 : c0.1 < c1.1 := (List.pairwise_cons.1 hsort).1 c1 (by simp)
              have h02 : c0.1 < c2.1 := (List.pairwise_cons.1 hsort).1 c2 (by simp)
              have h12 : c1.1 < c2.1 := (List.pairwise_cons.1 (List.pairwise_cons.1 hsort).2).1 c2 (by simp)
              have is : ∀ e ∈ s2.clones, c0.1 < e.1 → e.1 = t := by
                intro e he hlt'
                rcases (hmem e).1 he with e1 | e1
                · rw [e1]
                · have := hmax e e1
                  rw [hteq, hmt] at this
                  exact absurd hlt' (not_lt.2 this)
              have e1 := is c1 (by rw [hcl]; simp) h01
              have e2 := is c2 (by rw [hcl]; simp) h02
              rw [e1, e2] at h12
              exact lt_irrefl _ h12
  · left
    refine ⟨?_, ?_⟩
    · rintro ⟨m0, m1, k, _⟩
      exact hmv ⟨m0, k⟩
    · unfold image at h
      cases hz : zuptOn cfg m with
      | none => exact absurd ⟨_, .inl ⟨hz, rfl⟩⟩ hmv
      | some Z =>
        rw [hz] at h
        simp only [Option.bind_eq_bind, Option.bind_eq_some_iff] at h
        obtain ⟨m1, h1, h⟩ := h
        by_cases hd : m1.did = true
        · rw [if_pos hd] at h
          split_ifs at h with h3
          simp only [Option.bind_eq_some_iff, Option.some.injEq] at h
          obtain ⟨off, _, rfl⟩ := h
          show m1.st.clones = _
          unfold zuptTry at h1
          rw [if_pos (show m.st.ts ≠ t from ht.ne)] at h1
          simp only [Option.map_eq_some_iff] at h1
          obtain ⟨⟨b, mem', s', db'⟩, h1, rfl⟩ := h1
          exact (try_some hm h1).2.2.2.1
        · exact absurd ⟨m1, .inr ⟨Z, hz, h1, by simpa using hd⟩⟩ hmv

/-- a point of a run: a state the program reaches, no clone later than it and, if an image has been used, the pose at the last one is the newest of a window
that is long enough. Before any image has been used this is just a state of the program (`OdoInv.start`). -/
structure OdoInv (lib : Lib) (o : Opts) (x : Mgr × Odo) : Prop where
  prog : St.Spec.Prog lib o x.1.st
  old : ∀ c ∈ x.1.st.clones, c.1 ≤ x.1.st.ts
  ini : x.2.initialized → min o.maxClones 5 ≤ x.1.st.clones.length ∧ (∃ u, (x.2.last, u) ∈ x.1.st.clones) ∧ ∀ c ∈ x.1.st.clones, c.1 ≤ x.2.last

theorem OdoInv.start {m : Mgr} (hm : St.Spec.Prog lib o m.st) (hc : ∀ c ∈ m.st.clones, c.1 ≤ m.st.ts) : OdoInv lib o (m, odo0) := ⟨hm, hc, fun hh => absurd rfl hh⟩

theorem odoInv_image (h1 : 1 ≤ o.maxClones) {m m' : Mgr} {d d' : Odo} (hi : OdoInv lib o (m, d)) {db : DB ℝ Uv} {t : ℝ} (ht : m.st.ts < t) {upd : List Op}
    (hu : ∀ op ∈ upd, Spec.UpdOp op) (h : imageOdo lib cfg m d db t upd = some (m', d')) : OdoInv lib o (m', d') ∧ m'.st.ts = t := by
  obtain ⟨e1, e2⟩ := imageOdo_cases h
  obtain ⟨i1, _, _⟩ := image_some hi.prog hu e1
  obtain ⟨p1, p2, _, p4, _⟩ := i1 ht.le
  have hold : ∀ c ∈ m'.st.clones, c.1 ≤ t := fun c hc => by
    rcases p4 c hc with e | e
    · exact e.le
    · exact (hi.old c e).trans ht.le
  refine ⟨⟨p1, fun c hc => by rw [p2]; exact hold c hc, fun hd => ?_⟩, p2⟩
  rcases window_after hi.prog hi.old ht hu e1 with ⟨hn, w⟩ | ⟨hn, w⟩ | ⟨hu', w1, w2, _⟩
  · rcases e2 with ⟨a, _⟩ | ⟨_, rfl⟩
    · exact absurd a hn
    · simp only [w]; exact hi.ini hd
  · rcases e2 with ⟨a, _⟩ | ⟨_, rfl⟩
    · exact absurd a hn
    · exact absurd w (not_lt.2 (hi.ini hd).1)
  · rcases e2 with ⟨_, e⟩ | ⟨a, _⟩
    · simp only [(odoEnd_last e).1]
      exact ⟨w1, w2 h1, hold⟩
    · exact absurd hu' a

theorem odoInv_run (h1 : 1 ≤ o.maxClones) : ∀ (evs : List Ev) (m m' : Mgr) (d d' : Odo), OdoInv lib o (m, d) → (∀ e ∈ evs, Spec.EvOk e) →
    (m.st.ts :: Spec.imgTimes evs).Pairwise (· < ·) → runOdo lib cfg (m, d) evs = some (m', d') →
    OdoInv lib o (m', d') ∧ (m'.st.ts = m.st.ts ∨ m'.st.ts ∈ Spec.imgTimes evs) := by
  intro evs
  induction evs with
  | nil =>
    intro m m' d d' hi _ _ h
    simp only [runOdo, Option.some.injEq, Prod.mk.injEq] at h
    obtain ⟨rfl, rfl⟩ := h
    exact ⟨hi, .inl rfl⟩
  | cons e es ih =>
    intro m m' d d' hi ho hp h
    simp only [runOdo, Option.bind_eq_some_iff] at h
    obtain ⟨⟨m1, d1⟩, e1, e2⟩ := h
    cases e with
    | imu r =>
      simp only [Ev.odo, Option.some.injEq, Prod.mk.injEq] at e1
      obtain ⟨rfl, rfl⟩ := e1
      have hi' : OdoInv lib o (feedImu cfg m r, d) := ⟨hi.prog, hi.old, hi.ini⟩
      exact ih (feedImu cfg m r) m' d d' hi' (fun x hx => ho x (by simp [hx])) hp e2
    | image db t upd =>
      simp only [Spec.imgTimes] at hp
      have ht : m.st.ts < t := (List.pairwise_cons.1 hp).1 t (by simp)
      obtain ⟨k1, k2⟩ := odoInv_image h1 hi ht (ho (.image db t upd) (by simp)) e1
      obtain ⟨r1, r2⟩ := ih _ _ _ _ k1 (fun x hx => ho x (by simp [hx])) (by rw [k2]; exact (List.pairwise_cons.1 hp).2) e2
      refine ⟨r1, .inr ?_⟩
      simp only [Spec.imgTimes, List.mem_cons]
      rcases r2 with r | r
      · exact .inl (r.trans k2)
      · exact .inr r

theorem imgTimes_snoc (evs : List Ev) (db : DB ℝ Uv) (t : ℝ) (upd : List Op) : Spec.imgTimes (evs ++ [.image db t upd]) = Spec.imgTimes evs ++ [t] := by
  induction evs with
  | nil => rfl
  | cons e es ih => cases e <;> simp [Spec.imgTimes, ih]

/-- **C148** With a window of at least two clones and images of increasing times, no step is left out: whatever came before, with zero velocity updates in between or not, each image
that is used after another one finds the pose at that image in the window, and adds the length from it. -/
theorem C148_no_step_lost (h2 : 2 ≤ o.maxClones) (evs : List Ev) (m m1 m' : Mgr) (d d1 d' : Odo) (hs : OdoInv lib o (m, d))
    (db : DB ℝ Uv) (t : ℝ) (upd : List Op) (ho : ∀ e ∈ evs ++ [.image db t upd], Spec.EvOk e)
    (hp : (m.st.ts :: Spec.imgTimes (evs ++ [.image db t upd])).Pairwise (· < ·)) (h : runOdo lib cfg (m, d) evs = some (m1, d1))
    (hi : imageOdo lib cfg m1 d1 db t upd = some (m', d')) (hu : Spec.Uses lib cfg m1 db t) (hd : d1.initialized) :
    ∃ u q p x, (d1.last, u) ∈ m'.st.clones ∧ (m'.st.obj u).val = .pose q p ∧ (m'.st.obj imuUid).val = .imu x ∧ d'.dist = d1.dist + norm3 (x.p - p) := by
  rw [imgTimes_snoc] at hp
  have hp' : (m.st.ts :: Spec.imgTimes evs).Pairwise (· < ·) := by
    rw [← List.cons_append] at hp
    exact (List.pairwise_append.1 hp).1
  have hlast : ∀ x ∈ m.st.ts :: Spec.imgTimes evs, x < t := by
    rw [← List.cons_append] at hp
    exact fun x hx => (List.pairwise_append.1 hp).2.2 x hx t (by simp)
  obtain ⟨k1, k2⟩ := odoInv_run (by omega) evs m m1 d d1 hs (fun e he => ho e (by simp [he])) hp' h
  have ht : m1.st.ts < t := by
    rcases k2 with e | e
    · rw [e]; exact hlast _ (by simp)
    · exact hlast _ (by simp [e])
  have hupd : ∀ op ∈ upd, Spec.UpdOp op := ho (.image db t upd) (by simp)
  obtain ⟨e1, _⟩ := imageOdo_cases hi
  obtain ⟨_, ⟨u, hmem⟩, hmax⟩ := k1.ini hd
  have hin : (d1.last, u) ∈ m'.st.clones := by
    rcases window_after k1.prog k1.old ht hupd e1 with ⟨hn, _⟩ | ⟨hn, _⟩ | ⟨_, _, _, w⟩
    · exact absurd hu hn
    · exact absurd hu hn
    · exact w _ hmem h2 hmax
  obtain ⟨i1, _, _⟩ := image_some k1.prog hupd e1
  have hm' := (i1 ht.le).1
  obtain ⟨q, p, hq⟩ := (prog_W hm').cpose _ hin
  obtain ⟨x, f, hx, _⟩ := prog_imu hm'
  obtain ⟨d2, s1, _, s3⟩ := C148_step (cfg := cfg) k1.prog hupd e1 d1
  rw [hi] at s1
  simp only [Option.some.injEq, Prod.mk.injEq, true_and] at s1
  subst s1
  exact ⟨u, q, p, x, hin, hq, hx, ((s3 hu).2 x hx).1 u q p hd hin hq⟩

/-- **C148** With a window of one clone the distance stays zero for ever, however far the device moves: the pose at the last used image has always left the window. -/
theorem C148_window_of_one (h1 : o.maxClones = 1) (evs : List Ev) (m m' : Mgr) (d' : Odo) (hm : St.Spec.Prog lib o m.st) (hc : ∀ c ∈ m.st.clones, c.1 ≤ m.st.ts)
    (hl : m.st.clones.length ≤ 1) (ho : ∀ e ∈ evs, Spec.EvOk e) (hp : (m.st.ts :: Spec.imgTimes evs).Pairwise (· < ·))
    (h : runOdo lib cfg (m, odo0) evs = some (m', d')) : d'.dist = 0 := by
  suffices H : ∀ (evs : List Ev) (m m' : Mgr) (d d' : Odo), OdoInv lib o (m, d) → m.st.clones.length ≤ 1 → d.dist = 0 → (d.initialized → d.last ≤ m.st.ts) → (∀ e ∈ evs, Spec.EvOk e) →
      (m.st.ts :: Spec.imgTimes evs).Pairwise (· < ·) → runOdo lib cfg (m, d) evs = some (m', d') → d'.dist = 0 from
    H evs m m' odo0 d' ⟨hm, hc, fun hh => absurd rfl hh⟩ hl rfl (fun hh => absurd rfl hh) ho hp h
  intro evs
  induction evs with
  | nil =>
    intro m m' d d' _ _ hd _ _ _ h
    simp only [runOdo, Option.some.injEq, Prod.mk.injEq] at h
    rw [← h.2]; exact hd
  | cons e es ih =>
    intro m m' d d' hi hl hd hla ho hp h
    simp only [runOdo, Option.bind_eq_some_iff] at h
    obtain ⟨⟨m1, d1⟩, e1, e2⟩ := h
    cases e with
    | imu r =>
      simp only [Ev.odo, Option.some.injEq, Prod.mk.injEq] at e1
      obtain ⟨rfl, rfl⟩ := e1
      have hi' : OdoInv lib o (feedImu cfg m r, d) := ⟨hi.prog, hi.old, hi.ini⟩
      exact ih _ _ _ _ hi' hl hd hla (fun x hx => ho x (by simp [hx])) hp e2
    | image db t upd =>
      simp only [Spec.imgTimes] at hp
      have ht : m.st.ts < t := (List.pairwise_cons.1 hp).1 t (by simp)
      have hupd : ∀ op ∈ upd, Spec.UpdOp op := ho (.image db t upd) (by simp)
      have e1' : imageOdo lib cfg m d db t upd = some (m1, d1) := e1
      obtain ⟨k1, k2⟩ := odoInv_image (by omega) hi ht hupd e1'
      obtain ⟨c1, c2⟩ := imageOdo_cases e1'
      obtain ⟨i1, _, _⟩ := image_some hi.prog hupd c1
      obtain ⟨_, _, i3, _, _⟩ := i1 ht.le
      have hl1 : m1.st.clones.length ≤ 1 := by rw [h1] at i3; exact i3 hl
      refine ih _ _ _ _ k1 hl1 ?_ ?_ (fun x hx => ho x (by simp [hx])) (by rw [k2]; exact (List.pairwise_cons.1 hp).2) e2
      · obtain ⟨d2, s1, s2, s3⟩ := C148_step (cfg := cfg) hi.prog hupd c1 d
        rw [e1'] at s1
        simp only [Option.some.injEq, Prod.mk.injEq, true_and] at s1
        subst s1
        by_cases hu : Spec.Uses lib cfg m db t
        · obtain ⟨x, f, hx, _⟩ := prog_imu k1.prog
          have hini : d1.last = t := (s3 hu).1
          rw [((s3 hu).2 x hx).2 ?_, hd]
          by_cases hdi : d.initialized
          · right
            intro u hmem
            rcases window_after hi.prog hi.old ht hupd c1 with ⟨hn, _⟩ | ⟨hn, _⟩ | ⟨_, _, w2, _⟩
            · exact hn hu
            · exact hn hu
            · obtain ⟨v, hv⟩ := w2 (by omega)
              match hcl : m1.st.clones with
              | [] => rw [hcl] at hv; simp at hv
              | [c] =>
                rw [hcl] at hv hmem
                simp only [List.mem_singleton] at hv hmem
                have : d.last = t := by have := hmem.trans hv.symm; simpa using congrArg Prod.fst this
                have := hla hdi
                linarith
              | _ :: _ :: _ => rw [hcl] at hl1; simp at hl1
          · exact .inl hdi
        · rw [s2 hu]; exact hd
      · intro hdi
        rcases c2 with ⟨_, e⟩ | ⟨_, rfl⟩
        · rw [(odoEnd_last e).1, k2]
        · rw [k2]; exact (hla hdi).trans ht.le

/-! ### the hypotheses are met -/

/-- a window of two clones. -/
def oTwo : Opts := ⟨false, false, true, false, false, false, 0, 2, 0⟩

/-- after clones at times 1 and 2. -/
theorem exTwo (lib : Lib) : ∃ s, St.Spec.ProgOK lib oTwo s ∧ s.clones = [(1, 7), (2, 8)] ∧ s.ts = 2 ∧ tOff s = some 0 := by
  let s1 : State := { ctor oTwo with ts := 1 }
  have hcl : (ctor oTwo).clones = [] := by simp [ctor, ctorVars, oTwo, push]
  have hnx : (ctor oTwo).next = 7 := by simp [ctor, ctorVars, oTwo, push]
  have hp1 : St.Spec.ProgOK lib oTwo s1 := by
    refine ⟨[.setTime 1], ?_, ⟨trivial, fun _ _ => trivial⟩, rfl⟩
    intro op hop
    simp only [List.mem_cons, List.not_mem_nil, or_false] at hop
    rw [hop]; trivial
  obtain ⟨s2, h2⟩ := augment_returns hp1.prog (by simp [s1, hcl]) 0
  have hp2 : St.Spec.ProgOK lib oTwo s2 := progOK_step hp1 (op := .augment 0) trivial trivial h2
  obtain ⟨_, a1, _, a3, a4, a5, _, a7, _⟩ := augment_maps (reach_inv hp1.prog.reach) h2
  simp only [s1, hcl, hnx, insertClone] at a1 a3 a4 a5 a7
  let s3 : State := { s2 with ts := 2 }
  have hp3 : St.Spec.ProgOK lib oTwo s3 := progOK_step hp2 (op := .setTime 2) trivial trivial rfl
  obtain ⟨s4, h4⟩ := augment_returns hp3.prog (by simp [s3, a1]) 0
  have hp4 : St.Spec.ProgOK lib oTwo s4 := progOK_step hp3 (op := .augment 0) trivial trivial h4
  obtain ⟨_, b1, _, b3, b4, b5, _, b7, _⟩ := augment_maps (reach_inv hp3.prog.reach) h4
  simp only [s3, a1, a3, a5] at b1 b3 b4 b5 b7
  refine ⟨s4, hp4, by rw [b1]; norm_num [insertClone], b4, ?_⟩
  unfold tOff
  rw [show dtUid = 6 from rfl, b7 6 (by norm_num), a7 6 (by norm_num)]
  simp [ctor, ctorVars, oTwo, push, heap0]

/-- one image at time 3, a window of two clones at times 1 and 2, the last of them used before: the image is completed and used. -/
example (hlib : St.Spec.LibOK lib) (po : POpts) (N : Noise) : ∃ m m' d', OdoInv lib oTwo (m, ⟨2, 0⟩) ∧ runOdo lib ⟨none, false, po, N⟩ (m, ⟨2, 0⟩) [] = some (m, ⟨2, 0⟩) ∧
    (m.st.ts :: Spec.imgTimes ([] ++ [.image [] 3 []])).Pairwise (· < ·) ∧ imageOdo lib ⟨none, false, po, N⟩ m ⟨2, 0⟩ [] 3 [] = some (m', d') ∧
    Spec.Uses lib ⟨none, false, po, N⟩ m [] 3 ∧ (⟨2, 0⟩ : Odo).initialized := by
  obtain ⟨s, hs, hcl, hts, hoff⟩ := exTwo lib
  let m : Mgr := ⟨s, ⟨0, 0, none⟩, none, false, false, [exRd N.g 0, exRd N.g 10], [], []⟩
  have hc : ∀ c ∈ m.st.clones, c.1 ≤ m.st.ts := by
    intro c hcm
    simp only [m, hcl, hts, List.mem_cons, List.not_mem_nil, or_false] at hcm ⊢
    rcases hcm with rfl | rfl <;> norm_num
  obtain ⟨m', h1, _⟩ := C78_image_completes (o := oTwo) hlib ⟨none, false, po, N⟩ m hs hc (off := 0) (t := 3) hoff (by simp only [m, hts]; norm_num)
    (by simp [m, Imu.Spec.Sorted, exRd]) (by simp only [m, hts]; norm_num) ⟨exRd N.g 0, by simp [m], by simp only [m, hts, exRd]; norm_num⟩
    ⟨exRd N.g 10, by simp [m], by norm_num [exRd]⟩ (by simp [m]) (hist := (.empty : Hist ℝ Uv)) rfl (by simp) [] (by simp) (fun s1 _ _ => ⟨s1, rfl⟩)
  obtain ⟨d', e1, _, _⟩ := C148_step hs.prog (by simp) h1 ⟨2, 0⟩
  have hini : (⟨2, 0⟩ : Odo).initialized := by simp only [Odo.initialized]; norm_num
  refine ⟨m, m', d', ⟨hs.prog, hc, fun _ => ⟨?_, ⟨8, ?_⟩, ?_⟩⟩, rfl, ?_, e1, ?_, hini⟩
  · simp [m, hcl, oTwo]
  · simp [m, hcl]
  · intro c hcm; have := hc c hcm; rw [show m.st.ts = 2 from hts] at this; exact this
  · simp only [m, hts, Spec.imgTimes, List.nil_append]; norm_num
  · rcases window_after hs.prog hc (show m.st.ts < 3 by simp only [m, hts]; norm_num) (by simp) h1 with ⟨hn, _⟩ | ⟨_, w⟩ | ⟨w, _⟩
    · obtain ⟨m0, hf⟩ : ∃ m0, Spec.Moving lib ⟨none, false, po, N⟩ m [] 3 m0 := ⟨_, .inl ⟨rfl, rfl⟩⟩
      have hk := image_moving hf h1
      exfalso
      unfold featUpdate at hk
      have hst : m0.st = s := moving_st hs.prog hf
      rw [if_neg (by rw [hst, hts]; norm_num), Option.bind_eq_bind, Option.bind_eq_some_iff] at hk
      obtain ⟨m1, k1, k2⟩ := hk
      have k1' := k1
      unfold propTo at k1
      rw [if_pos (by rw [hst, hts]; norm_num)] at k1
      simp only [Option.map_eq_some_iff] at k1
      obtain ⟨⟨s1, off⟩, hp, rfl⟩ := k1
      rw [hst] at hp
      obtain ⟨p1, p2, p3, p4, _⟩ := prop_some hs.prog hp
      refine hn ⟨m0, _, hf, by rw [hst, hts]; norm_num, k1', p2, ?_⟩
      show min s1.opts.maxClones 5 ≤ s1.clones.length
      rw [p4, insertClone_length _ _ _ p3, hcl, prog_opts p1]
      simp [oTwo]
    · simp only [m, hcl, oTwo] at w; simp at w
    · exact w

/-- the hypotheses of `C148_window_of_one` are met by the manager of the earlier examples. -/
example (N : Noise) : St.Spec.o0.maxClones = 1 ∧ St.Spec.Prog lib St.Spec.o0 (exM N).st ∧ (∀ c ∈ (exM N).st.clones, c.1 ≤ (exM N).st.ts) ∧ (exM N).st.clones.length ≤ 1 ∧
    ((exM N).st.ts :: Spec.imgTimes [.imu (exRd N.g 10), .image [] 2 []]).Pairwise (· < ·) := by
  refine ⟨rfl, (exS_prog lib).prog, ?_, ?_, ?_⟩
  · simp [exM, exS, ctor, ctorVars, St.Spec.o0, push]
  · simp [exM, exS, ctor, ctorVars, St.Spec.o0, push]
  · simp [exM, exS, Spec.imgTimes]

end Verif.Vio
