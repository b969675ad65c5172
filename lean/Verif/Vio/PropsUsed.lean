import Verif.Vio.PropsLoop
import Verif.Vio.PropsWindow

/-!
# Tracks that end, tracks that reach the oldest clone and sightings of landmarks are used (C109)
-/

set_option autoImplicit false
set_option linter.unusedVariables false
open Classical

namespace Verif.Vio

open Verif Verif.Types Verif.St Verif.Imu Verif.Prop_ Verif.Feat Verif.Disp

variable {lib : Lib} {o : Opts} {s s' : State} {M M' : ℕ → Upd.LMeta} {F : FCfg} {I : Img} {db : DB ℝ Uv}

theorem inDb_feat {m : Meas} (h : Spec.InDb db m) : ∃ f, db.get? m.1 = some f := by
  obtain ⟨x, hx, -⟩ := h
  cases hg : db.get? m.1 with
  | none => simp [obs, hg] at hx
  | some f => exact ⟨f, rfl⟩

theorem inDb_measOf {f : Feature ℝ Uv} (hf : db.get? f.featid = some f) (hw : WF db) {m : Meas} (hm : Spec.InDb db m) (hid : m.1 = f.featid) (hc : m.2.2 ∈ s.clones.map Prod.fst) :
    m ∈ measOf ((toTrack f).clean s) := by
  have hwf := (hw.feat _ _ hf).1
  obtain ⟨i, c, t⟩ := m
  simp only at hid hc
  subst hid
  obtain ⟨x, hx, e⟩ := hm
  simp only at hx e
  subst e
  simp only [obs, hf, Feature.obs] at hx
  have hk : ∃ ts, (c, ts) ∈ f.times ∧ f.times.getL c = ts := by
    cases hg : f.times.get? c with
    | none =>
      rw [AMap.getL, hg] at hx
      simp at hx
    | some ts => exact ⟨ts, AMap.mem_of_get? hg, by rw [AMap.getL, hg]; rfl⟩
  obtain ⟨ts, h1, h2⟩ := hk
  simp only [measOf, Upd.Track.clean, toTrack, List.mem_flatMap, List.mem_map]
  refine ⟨_, ⟨_, ⟨(c, ts), h1, rfl⟩, rfl⟩, ?_⟩
  simp only
  rw [h2] at hx
  have hz : (x.1, x.2.1) ∈ ts.zip (f.uvs.getL c) := by
    rw [List.mem_iff_getElem?] at hx ⊢
    obtain ⟨i, hi⟩ := hx
    refine ⟨i, ?_⟩
    rw [List.getElem?_zip_eq_some] at hi ⊢
    obtain ⟨a, b⟩ := hi
    rw [List.getElem?_zip_eq_some] at b
    exact ⟨a, b.1⟩
  refine ⟨(x.1, ![x.2.1.1, x.2.1.2]), List.mem_filter.2 ⟨List.mem_map.2 ⟨_, hz, rfl⟩, ?_⟩, rfl⟩
  simp only [decide_eq_true_eq]
  exact List.mem_map.1 hc

theorem measOf_length (f : Upd.Track) : (measOf f).length = f.count := by
  simp [measOf, Upd.Track.count, List.length_flatMap]

theorem two_le {f : Upd.Track} {a b : Meas} (ha : a ∈ measOf f) (hb : b ∈ measOf f) (h : a ≠ b) : 2 ≤ f.count := by
  rw [← measOf_length]
  have : [a, b].Subperm (measOf f) := List.subperm_of_subset (by simp [h]) (by simp [ha, hb])
  exact this.length_le

theorem noPutBack {p : Plan} (hsub : p.s.slam.Sublist s.slam) (hrep : ∀ e ∈ s.slam, (M e.2).rep ≠ .anchoredSingle) (w : Track ℝ Uv) : putBack p.s M w = false := by
  unfold putBack
  cases hu : Upd.slamUid p.s w.f.featid with
  | none => rfl
  | some u =>
    have hmem : (w.f.featid, u) ∈ s.slam := by
      refine hsub.subset ?_
      unfold Upd.slamUid at hu
      rw [Option.map_eq_some_iff] at hu
      obtain ⟨e, he, rfl⟩ := hu
      have h1 := List.mem_of_find?_eq_some he
      have h2 := List.find?_some he
      simp only [decide_eq_true_eq] at h2
      rw [← h2]; exact h1
    have : Upd.required (M u).rep = 1 := if_neg (hrep _ hmem)
    simp only [this, decide_eq_false_iff_not]
    omega

theorem used_slam {p : Plan} (hsub : p.s.slam.Sublist s.slam) (hrep : ∀ e ∈ s.slam, (M e.2).rep ≠ .anchoredSingle) {x : Track ℝ Uv} (hx : x ∈ p.upd ∨ (x ∈ p.del ∧ 2 ≤ ((toTrack x.f).clean s).count)) :
    ∀ m ∈ measOf ((toTrack x.f).clean s), m ∈ usedBy s M p := by
  intro m hm
  rcases hx with h | ⟨h, hc⟩
  · exact List.mem_append_left _ (List.mem_append_right _ (List.mem_flatMap.2 ⟨_, List.mem_map.2 ⟨x, List.mem_filter.2 ⟨h, by rw [noPutBack hsub hrep]; rfl⟩, rfl⟩, hm⟩))
  · exact List.mem_append_right _ (List.mem_flatMap.2 ⟨_, List.mem_filter.2 ⟨List.mem_map.2 ⟨_, List.mem_map.2 ⟨x, h, rfl⟩, rfl⟩, by simpa using hc⟩, hm⟩)

theorem roles_slam {lms : List (ℕ × Lm)} {mt : ℝ} {p : Plan} (h4 : p.upd = (frameRoles F I db s mt lms).slam.filter (isLm p.s)) (h5 : p.del = (frameRoles F I db s mt lms).slam.filter fun x => !isLm p.s x)
    {x : Track ℝ Uv} (hx : x ∈ (frameRoles F I db s mt lms).slam) : x ∈ p.upd ∨ x ∈ p.del := by
  rw [h4, h5]
  cases h : isLm p.s x with
  | true => exact .inl (List.mem_filter.2 ⟨hx, h⟩)
  | false => exact .inr (List.mem_filter.2 ⟨hx, by rw [h]; rfl⟩)

/-- the plan uses every track that is lost or contains the oldest clone time, if it has two measurements in the window and there are not too many tracks. -/
theorem plan_uses (hW : s.opts = o) (hF : Spec.CfgOK o F) {ts : ℝ} {range : ℕ → Prop} (hd : Spec.Tidy o ts range I.db) (hrep : ∀ e ∈ s.slam, (M e.2).rep ≠ .anchoredSingle) {p : Plan} (hp : plan lib F I I.db s M = some p)
    (hsub : p.s.slam.Sublist s.slam) {f : Feature ℝ Uv} (hf : I.db.get? f.featid = some f)
    (hsel : ((∀ cam, ∀ x ∈ obs I.db f.featid cam, x.1 < s.ts) ∧ ∃ cam ∈ I.cams, cam ∈ f.uvs.keys) ∨ ((o.maxClones < s.clones.length ∨ 5 < s.clones.length) ∧ ∃ cam, ∃ x ∈ obs I.db f.featid cam, x.1 = p.mt))
    (hcut : (I.db.length : ℤ) ≤ F.maxMsckf) (h2 : 2 ≤ ((toTrack f).clean s).count) : ∀ m ∈ measOf ((toTrack f).clean s), m ∈ usedBy s M p := by
  obtain ⟨lms, h1, hmt, h3, h4, h5⟩ := plan_some hp
  set r := frameRoles F I I.db s p.mt lms with hr
  have hsl := C41_selection hd.sel (F.sel s.opts) I.aruco s.ts p.mt s.clones.length (decide (F.dtSlam ≤ I.t - F.startup)) I.cams lms
  have hmem : f ∈ r.candidates ++ r.newSlam := (hsl.2.1 f).2 ⟨⟨hf, hd.live _ _ hf⟩, hsel.imp id fun h => ⟨by simp only [FCfg.sel, hW]; exact_mod_cast h.1, h.2⟩⟩
  rcases List.mem_append.1 hmem with h | h
  · have hlen : r.candidates.length ≤ I.db.length := by
      have hn : (r.candidates.map Feature.featid).Nodup := by
        have := hsl.1
        rw [List.map_append, List.nodup_append] at this
        exact this.1
      have hsub' : (r.candidates.map Feature.featid) ⊆ AMap.keys I.db := by
        intro i hi
        obtain ⟨g, hg, rfl⟩ := List.mem_map.1 hi
        exact AMap.mem_keys_iff.2 ⟨_, ((hsl.2.1 g).1 (List.mem_append_left _ hg)).1.1⟩
      have := (List.subperm_of_subset hn hsub').length_le
      simpa [AMap.keys] using this
    have hall : p.up = F.sort r.candidates := by
      have hl := (hF.sort r.candidates).length_eq
      unfold cutMsckf at h3
      rw [if_neg (by simp only [FCfg.sel]; omega)] at h3
      exact (Option.some.inj h3).symm
    have hup : f ∈ p.up := by rw [hall]; exact (hF.sort _).symm.subset h
    intro m hm
    exact List.mem_append_left _ (List.mem_append_left _ (List.mem_flatMap.2 ⟨_, List.mem_filter.2 ⟨List.mem_map.2 ⟨_, List.mem_map.2 ⟨f, hup, rfl⟩, rfl⟩, by simpa using h2⟩, hm⟩))
  · have hx : (⟨false, f⟩ : Track ℝ Uv) ∈ r.slam := by
      simp only [hr, frameRoles, roles]
      exact List.mem_append_left _ (List.mem_append_right _ (List.mem_map_of_mem h))
    exact used_slam hsub hrep (x := ⟨false, f⟩) ((roles_slam h4 h5 hx).imp id fun h => ⟨h, h2⟩)

/-- the databases of an image contain those before and what is seen. -/
theorem shot_grow {seen : List Meas} {x : FMgr} {S : Shot} (hx : Spec.LoopOK lib o F seen x) (hS : Spec.ShotOK o seen S) :
    (∀ m, Spec.InDb x.m.db m → Spec.InDb (shotImg x S).db m) ∧ (∀ z ∈ S.feats, Spec.InDb (shotImg x S).db (z.1, z.2.1, S.t)) ∧
    ∀ a0, x.aruco = some a0 → ∃ a, (shotImg x S).aruco = some a ∧ ∀ z ∈ S.tags, Spec.InDb a (z.1, z.2.1, S.t) := by
  have key : ∀ (d : DB ℝ Uv) (l : List Seen) (range : ℕ → Prop), Spec.Tidy o x.m.st.ts range d → (∀ z ∈ l, z.2.1 < o.numCams ∧ range z.1) →
      (∀ m, Spec.InDb d m → Spec.InDb (trackAll d S.t l) m) ∧ ∀ z ∈ l, Spec.InDb (trackAll d S.t l) (z.1, z.2.1, S.t) := by
    intro d l range hd hl
    obtain ⟨-, -, -, k4⟩ := trackAll_ok S.t range l d hd.ok hd.live hd.ids hl
    refine ⟨?_, fun z hz => ⟨(S.t, z.2.2.1, z.2.2.2), ?_, rfl⟩⟩
    · rintro m ⟨w, hw, e⟩
      exact ⟨w, by rw [k4]; exact List.mem_append_left _ hw, e⟩
    · rw [k4]
      exact List.mem_append_right _ (List.mem_map.2 ⟨z, List.mem_filter.2 ⟨hz, by simp⟩, rfl⟩)
  obtain ⟨a1, a2⟩ := key _ _ _ hx.db hS.feats
  refine ⟨a1, a2, fun a0 h0 => ⟨trackAll a0 S.t S.tags, by simp [shotImg, h0], (key _ _ _ (hx.aruco a0 h0) hS.tags).2⟩⟩

/-- **C109** With a window of at least two and landmarks that are not represented by a single depth, between images of any history: when an image is processed by an update (zero velocity detection is not in use, it is newer than the state, and
the window has, with it, the required length), then
* every feature that is not seen in it any more, was seen by one of its cameras, and has two measurements at times of the window, has all its measurements at times of the window used in this image, be it in the update of window features or to
  initialise a landmark;
* so has, if the window is full or has at least five times, every feature with a measurement at the oldest time of the window, including its measurements of this image;
(provided the database has no more features than an update may take); and
* every sighting of a landmark in this image is used, unless the landmark is to be removed (too many failed updates; corners of tags are never removed). -/
theorem C109_nothing_lost (hlib : St.Spec.LibOK lib) (hF : Spec.CfgOK o F) (h2 : 2 ≤ o.maxClones) {seen : List Meas} {x : FMgr} {S : Shot} (hx : Spec.LoopOK lib o F seen x) (hS : Spec.ShotOK o seen S)
    (hz : zuptOn F.mgr x.m = none) (hn : x.m.st.ts < S.t) (hcov : Spec.Covered x.m S.t) (hlen : min o.maxClones 5 ≤ x.m.st.clones.length + 1) :
    ∃ y, frame lib F x (shotImg x S) = some y ∧
      ((((shotImg x S).db.length : ℕ) : ℤ) ≤ F.maxMsckf → ∀ id,
        (∀ a b, a ≠ b → a.1 = id → b.1 = id → Spec.InDb x.m.db a → Spec.InDb x.m.db b → a.2.2 ∈ x.m.st.clones.map Prod.fst → b.2.2 ∈ x.m.st.clones.map Prod.fst → (∀ z ∈ S.feats, z.1 ≠ id) → a.2.1 ∈ S.cams →
          ∀ m, m.1 = id → Spec.InDb x.m.db m → m.2.2 ∈ x.m.st.clones.map Prod.fst → m ∈ y.log) ∧
        (∀ a b, o.maxClones ≤ x.m.st.clones.length ∨ 5 ≤ x.m.st.clones.length → a ≠ b → a.1 = id → b.1 = id → Spec.InDb x.m.db a → (Spec.InDb x.m.db b ∧ b.2.2 ∈ x.m.st.clones.map Prod.fst ∨ b ∈ S.feats.map fun z => (z.1, z.2.1, S.t)) →
          margtimestep x.m.st = some a.2.2 → ∀ m, m.1 = id → (Spec.InDb x.m.db m ∧ m.2.2 ∈ x.m.st.clones.map Prod.fst ∨ m ∈ S.feats.map fun z => (z.1, z.2.1, S.t)) → m ∈ y.log)) ∧
      ∀ e ∈ x.m.st.slam, (e.1 ≤ 4 * o.maxAruco ∨ ((x.m.st.obj e.2).marg = false ∧ (x.M e.2).fails ≤ 1)) →
        (∀ z ∈ S.feats, z.1 = e.1 → (z.1, z.2.1, S.t) ∈ y.log) ∧ (x.aruco ≠ none → ∀ z ∈ S.tags, z.1 = e.1 → (z.1, z.2.1, S.t) ∈ y.log) := by
  have hW := prog_W hx.mgr.frame.prog.prog
  obtain ⟨hI, tF, tA, oF, oA⟩ := shot_img hx hS hn.le
  obtain ⟨g1, g2, g3⟩ := shot_grow hx hS
  set I := shotImg x S with hIdef
  have hfr : frame lib F x I = frameUpdate lib F { x with m := { x.m with db := I.db }, aruco := I.aruco } I := by
    unfold frame; rw [hz]
  set z : FMgr := { x with m := { x.m with db := I.db }, aruco := I.aruco } with hzd
  have hzm : Spec.MgrOK lib o z := ⟨hx.mgr.frame, hx.mgr.window⟩
  obtain ⟨m1, hp, ⟨q, h⟩ | ⟨q, p, s', M', db', ar', h, k0, k1, k2, k3, k4, k5, k6, k7, k8, k9, k10, k11, k12, k13, -⟩⟩ := frameUpdate_spec hlib hF hI hzm rfl (.inl ⟨hn, hcov⟩)
  · have := (hp.grow hn).1
    simp only [hzd] at this
    omega
  have hg : m1.st.clones.length = x.m.st.clones.length + 1 := (hp.grow hn).1
  have hW1 := prog_W hp.frame.prog.prog
  have hts1 : m1.st.ts = S.t := hp.ts
  have hin : ∀ t, t ∈ x.m.st.clones.map Prod.fst → t ∈ m1.st.clones.map Prod.fst := by
    intro t ht
    obtain ⟨c, hc, rfl⟩ := List.mem_map.1 ht
    exact List.mem_map_of_mem (hp.old c hc)
  have hinS : S.t ∈ m1.st.clones.map Prod.fst := by
    obtain ⟨w, hw⟩ := hp.at'
    rw [← hts1]; exact List.mem_map_of_mem hw
  have hrep : ∀ e ∈ m1.st.slam, (z.M e.2).rep ≠ .anchoredSingle := by rw [hp.slam]; exact hx.rep
  obtain ⟨lms, v1, v2, v3, v4, v5⟩ := plan_some k0
  refine ⟨_, hfr.trans h, fun hcut id => ⟨?_, ?_⟩, fun e he hk => ?_⟩
  · rintro a b hab rfl hb ha1 hb1 ha2 hb2 hns hcam m hm hm1 hm2
    obtain ⟨f, hf⟩ := inDb_feat (g1 _ ha1)
    have hid : f.featid = a.1 := db_featid tF.sel hf
    have hf' : I.db.get? f.featid = some f := by rw [hid]; exact hf
    have hmo : ∀ m, m.1 = a.1 → Spec.InDb x.m.db m → m.2.2 ∈ x.m.st.clones.map Prod.fst → m ∈ measOf ((toTrack f).clean m1.st) := fun m q1 q2 q3 =>
      inDb_measOf hf' tF.ok.wf (g1 m q2) (by rw [hid]; exact q1) (hin _ q3)
    refine List.mem_append_right _ (plan_uses hW1.opts hF tF hrep k0 k10 hf' (.inl ⟨fun cam w hw => ?_, a.2.1, hcam, ?_⟩) hcut (two_le (hmo a rfl ha1 ha2) (hmo b hb hb1 hb2) hab) m (hmo m hm hm1 hm2))
    · rw [hts1]
      rcases oF _ _ w hw with h | ⟨-, h⟩
      · exact (hx.db.le _ _ w h).trans_lt hn
      · obtain ⟨y, hy, e⟩ := List.mem_map.1 h
        simp only [Prod.mk.injEq] at e
        rcases List.mem_append.1 hy with hy | hy
        · exact absurd (e.1.trans hid) (hns y hy)
        · have h1 : y.1 ≤ 4 * o.maxAruco := (hS.tags y hy).2
          have h3 : 4 * o.maxAruco < a.1 := hx.db.ids a.1 (by obtain ⟨f, hf⟩ := inDb_feat ha1; rw [hf]; rfl)
          rw [hid] at e
          omega
    · have hwf := (tF.ok.wf.feat _ _ hf').1
      rw [hwf.kuvs]
      obtain ⟨w, hw, -⟩ := g1 _ ha1
      simp only [obs, hf, Feature.obs] at hw
      by_contra hc
      have : f.times.getL a.2.1 = [] := by
        rw [AMap.getL]
        cases hg : f.times.get? a.2.1 with
        | none => rfl
        | some ts => exact absurd (AMap.mem_keys_iff.2 ⟨_, hg⟩) hc
      rw [this] at hw
      simp at hw
  · rintro a b hfull hab rfl hb ha1 hb1 hmt m hm hm1
    obtain ⟨f, hf⟩ := inDb_feat (g1 _ ha1)
    have hid : f.featid = a.1 := db_featid tF.sel hf
    have hf' : I.db.get? f.featid = some f := by rw [hid]; exact hf
    have hmo : ∀ m : Meas, m.1 = a.1 → (Spec.InDb x.m.db m ∧ m.2.2 ∈ x.m.st.clones.map Prod.fst ∨ m ∈ S.feats.map fun z => (z.1, z.2.1, S.t)) → m ∈ measOf ((toTrack f).clean m1.st) := by
      intro m q1 q2
      rcases q2 with ⟨q2, q3⟩ | q2
      · exact inDb_measOf hf' tF.ok.wf (g1 m q2) (by rw [hid]; exact q1) (hin _ q3)
      · obtain ⟨w, hw, rfl⟩ := List.mem_map.1 q2
        exact inDb_measOf hf' tF.ok.wf (g2 w hw) (by rw [hid]; exact q1) hinS
    have hold : margtimestep m1.st = some a.2.2 ∧ a.2.2 ∈ x.m.st.clones.map Prod.fst := by
      cases hc : x.m.st.clones with
      | nil => rw [hc] at hfull; simp at hfull; omega
      | cons c l =>
        rw [margtimestep_sorted hc hW.sorted] at hmt
        have hmt := Option.some.inj hmt
        have e1 := (hp.grow hn).2.2
        have e2 : m1.st.clones = c :: insertClone S.t x.m.st.next l := by
          rw [e1]
          have : z.m.st.clones = c :: l := hc
          rw [this]
          simp only [insertClone]
          have hcl : c.1 < S.t := (hx.mgr.frame.times c (by rw [hc]; simp)).trans_lt hn
          have hIt : I.t = S.t := rfl
          rw [hIt, if_neg (not_lt.2 hcl.le), if_neg hcl.ne]
        refine ⟨by rw [margtimestep_sorted e2 hW1.sorted, hmt], by rw [← hmt]; simp⟩
    have hpm : p.mt = a.2.2 := by rw [hold.1] at v2; exact (Option.some.inj v2).symm
    refine List.mem_append_right _ (plan_uses hW1.opts hF tF hrep k0 k10 hf' (.inr ⟨by omega, a.2.1, ?_⟩) hcut (two_le (hmo a rfl (.inl ⟨ha1, hold.2⟩)) (hmo b hb hb1) hab) m (hmo m hm hm1))
    obtain ⟨w, hw, e⟩ := g1 _ ha1
    exact ⟨w, by rw [hid]; exact hw, by rw [hpm]; exact e⟩
  · have he1 : e ∈ m1.st.slam := by rw [hp.slam]; exact he
    -- the landmark stays
    have hps : ∀ d : DB ℝ Uv, (I.db.get? e.1).isSome ∨ e.1 ≤ 4 * o.maxAruco → e ∈ p.s.slam := by
      intro _ hsome
      obtain ⟨s1, s2, a1, a2, -, -, -, -, a6, -⟩ := marg_step hp.frame I.db I.cams
      have hpl := k0
      unfold plan at hpl
      simp only [Option.bind_eq_bind, Option.bind_eq_some_iff, Option.some.injEq] at hpl
      obtain ⟨mt, w1, lms', w2, s1', w3, s2', w4, up, w5, rfl⟩ := hpl
      rw [lmView_eq hp.frame.ucam] at w2
      obtain rfl := Option.some.inj w2
      rw [a1] at w3
      obtain rfl := Option.some.inj w3
      rw [a2] at w4
      obtain rfl := Option.some.inj w4
      simp only
      rw [a6]
      refine List.mem_filter.2 ⟨he1, ?_⟩
      rcases hk with hk | ⟨hk1, hk2⟩
      · have : ¬ 4 * o.maxAruco < e.1 := by omega
        simp [this]
      · by_cases htag : 4 * o.maxAruco < e.1
        · have hs : (I.db.get? e.1).isSome := hsome.resolve_right (by omega)
          obtain ⟨f, hf⟩ := Option.isSome_iff_exists.1 hs
          have hmg : (m1.st.obj e.2).marg = false := by rw [hp.lmobj e he]; exact hk1
          have hfl : ¬ 1 < (z.M e.2).fails := by simp only [hzd]; omega
          simp [lmFlag, lmSeen, getFeature, hf, hmg, hfl]
        · simp [htag]
    have hids : lms.map Prod.fst = m1.st.slam.map Prod.fst := lmView_ids (fun e r h => by
      rw [Option.map_eq_some_iff] at h
      obtain ⟨c, -, rfl⟩ := h; rfl) v1
    have hlm : e.1 ∈ lms.map Prod.fst := by rw [hids]; exact List.mem_map_of_mem he1
    obtain ⟨e', he', ee⟩ := List.mem_map.1 hlm
    have hget : ∀ (d : DB ℝ Uv), (getFeature d e'.1 false).1 = d.get? e'.1 := by
      intro d; unfold getFeature; cases d.get? e'.1 <;> rfl
    have hupd : ∀ w : Track ℝ Uv, w ∈ lmTracks I.db I.aruco e'.1 → w.f.featid = e.1 → e ∈ p.s.slam → w ∈ p.upd := by
      intro w hw hwid hes
      rw [v4]
      refine List.mem_filter.2 ⟨?_, ?_⟩
      · simp only [frameRoles, roles]
        exact List.mem_append_right _ (List.mem_flatMap.2 ⟨e', he', hw⟩)
      · simp only [isLm, List.contains_iff_mem, hwid]
        exact List.mem_map_of_mem hes
    refine ⟨fun w hw hwe => ?_, fun hne w hw hwe => ?_⟩
    · obtain ⟨f, hf⟩ := inDb_feat (g2 w hw)
      have hid : f.featid = e.1 := (db_featid tF.sel hf).trans hwe
      simp only [hwe] at hf
      have hes := hps I.db (.inl (by rw [hf]; rfl))
      have hu : (⟨false, f⟩ : Track ℝ Uv) ∈ p.upd := hupd _ (by
        unfold lmTracks
        refine List.mem_append_right _ ?_
        rw [hget, ee, hf]; simp) hid hes
      exact List.mem_append_right _ (used_slam k10 hrep (.inl hu) _ (inDb_measOf (by simp only [hid]; exact hf) tF.ok.wf (g2 w hw) (by simp only [hid, hwe]) hinS))
    · obtain ⟨a0, ha0⟩ := Option.ne_none_iff_exists'.1 hne
      obtain ⟨a, ha, g3⟩ := g3 a0 ha0
      obtain ⟨f, hf⟩ := inDb_feat (g3 w hw)
      have hid : f.featid = e.1 := (db_featid (tA a ha).sel hf).trans hwe
      simp only [hwe] at hf
      have hes := hps a (.inr (by rw [← hwe]; exact (hS.tags w hw).2))
      have hu : (⟨true, f⟩ : Track ℝ Uv) ∈ p.upd := hupd _ (by
        unfold lmTracks
        refine List.mem_append_left _ ?_
        rw [ha]
        simp only
        rw [hget, ee, hf]; simp) hid hes
      exact List.mem_append_right _ (used_slam k10 hrep (.inl hu) _ (inDb_measOf (by simp only [hid]; exact hf) (tA a ha).ok.wf (g3 w hw) (by simp only [hid, hwe]) hinS))

/-- tracking adds no features but those it sees. -/
theorem shot_keys {seen : List Meas} {x : FMgr} {S : Shot} (hx : Spec.LoopOK lib o F seen x) (hS : Spec.ShotOK o seen S) (id : ℕ) (h : ((shotImg x S).db.get? id).isSome) : (x.m.db.get? id).isSome ∨ ∃ z ∈ S.feats, z.1 = id := by
  obtain ⟨-, -, k3, -⟩ := trackAll_ok S.t (fun id => (x.m.db.get? id).isSome ∨ ∃ z ∈ S.feats, z.1 = id) S.feats x.m.db hx.db.ok hx.db.live (fun id h => .inl h) fun z hz => ⟨(hS.feats z hz).1, .inr ⟨z, hz, rfl⟩⟩
  exact k3 id h

/-- **C109** (the rest stays) Under the same conditions, every feature that is seen in the image, is not a landmark and, if the window is full or has at least five times, has no measurement at the oldest of them or before keeps all its measurements, those of this image included:
they are available to later updates. No feature is in the database afterwards that was neither there before nor seen in the image. -/
theorem C109_rest_kept (hlib : St.Spec.LibOK lib) (hF : Spec.CfgOK o F) (h2 : 2 ≤ o.maxClones) {seen : List Meas} {x : FMgr} {S : Shot} (hx : Spec.LoopOK lib o F seen x) (hS : Spec.ShotOK o seen S)
    (hz : zuptOn F.mgr x.m = none) (hn : x.m.st.ts < S.t) (hcov : Spec.Covered x.m S.t) :
    ∃ y, frame lib F x (shotImg x S) = some y ∧ (∀ id, (y.m.db.get? id).isSome → (x.m.db.get? id).isSome ∨ ∃ z ∈ S.feats, z.1 = id) ∧
      ∀ id, (∃ z ∈ S.feats, z.1 = id) → id ∉ x.m.st.slam.map Prod.fst → (o.maxClones ≤ x.m.st.clones.length ∨ 5 ≤ x.m.st.clones.length → ∀ m, m.1 = id → Spec.InDb x.m.db m → ∀ t, margtimestep x.m.st = some t → t < m.2.2) →
        ∀ m, m.1 = id → (Spec.InDb x.m.db m ∨ m ∈ S.feats.map fun z => (z.1, z.2.1, S.t)) → Spec.InDb y.m.db m := by
  have hW := prog_W hx.mgr.frame.prog.prog
  obtain ⟨hI, tF, tA, oF, oA⟩ := shot_img hx hS hn.le
  obtain ⟨g1, g2, g3⟩ := shot_grow hx hS
  set I := shotImg x S with hIdef
  have hfr : frame lib F x I = frameUpdate lib F { x with m := { x.m with db := I.db }, aruco := I.aruco } I := by
    unfold frame; rw [hz]
  set z : FMgr := { x with m := { x.m with db := I.db }, aruco := I.aruco } with hzd
  have hzm : Spec.MgrOK lib o z := ⟨hx.mgr.frame, hx.mgr.window⟩
  have hboth : ∀ m, (Spec.InDb x.m.db m ∨ m ∈ S.feats.map fun z => (z.1, z.2.1, S.t)) → Spec.InDb I.db m := by
    rintro m (h | h)
    · exact g1 m h
    · obtain ⟨w, hw, rfl⟩ := List.mem_map.1 h
      exact g2 w hw
  obtain ⟨m1, hp, ⟨q, h⟩ | ⟨q, p, s', M', db', ar', h, k0, k1, k2, k3, k4, k5, k6, k7, k8, k9, k10, k11, k12, k13, -⟩⟩ := frameUpdate_spec hlib hF hI hzm rfl (.inl ⟨hn, hcov⟩)
  · have hdb : m1.db = I.db := by rw [hp.rest]
    exact ⟨_, hfr.trans h, fun id hi => shot_keys hx hS id (by simp only [hdb] at hi; exact hi), fun id _ _ _ m _ hm => by simp only [hdb]; exact hboth m hm⟩
  have hg : m1.st.clones.length = x.m.st.clones.length + 1 := (hp.grow hn).1
  have hW1 := prog_W hp.frame.prog.prog
  have hts1 : m1.st.ts = S.t := hp.ts
  obtain ⟨lms, v1, v2, v3, v4, v5⟩ := plan_some k0
  have hrep : ∀ e ∈ m1.st.slam, (z.M e.2).rep ≠ .anchoredSingle := by rw [hp.slam]; exact hx.rep
  obtain ⟨mt1, mt2⟩ := oldest_ne hp.frame.prog.prog (by omega) hp.frame.times v2
  rw [endOps_list p false fun w _ => noPutBack k10 hrep w] at k11
  obtain ⟨sh, -, -, -, -, e6⟩ := endList_ok _ _ hI.db tF.live k11
  refine ⟨_, hfr.trans h, fun id hi => ?_, ?_⟩
  · obtain ⟨f', hf'⟩ := Option.isSome_iff_exists.1 hi
    obtain ⟨f, hf, -⟩ := sh.feat id f' hf'
    exact shot_keys hx hS id (by rw [hf]; rfl)
  rintro id ⟨w, hw, rfl⟩ hnl hnew m hm hmi
  -- the oldest time was the oldest before
  have hold : margtimestep x.m.st = some p.mt := by
    have e1 : m1.st.clones = insertClone S.t x.m.st.next x.m.st.clones := (hp.grow hn).2.2
    rw [insertClone_last _ _ _ fun c hc => (hx.mgr.frame.times c hc).trans_lt hn] at e1
    cases hc : x.m.st.clones with
    | nil => rw [hc] at hg; simp at hg; omega
    | cons c l =>
      rw [hc] at e1
      rw [margtimestep_sorted e1 hW1.sorted] at v2
      rw [margtimestep_sorted hc hW.sorted]; exact v2
  have hafter : o.maxClones < m1.st.clones.length ∨ 5 < m1.st.clones.length → ∀ cam, ∀ q ∈ obs I.db w.1 cam, p.mt < q.1 := by
    intro hbig cam q hq
    rcases oF _ _ q hq with h | ⟨h, -⟩
    · exact hnew (by omega) (w.1, cam, q.1) rfl ⟨q, h, rfl⟩ _ hold
    · rw [h, ← hts1]
      obtain ⟨c, hc, e⟩ := List.mem_map.1 mt1
      exact lt_of_le_of_ne (by rw [← e]; exact hp.frame.times c hc) mt2
  set r := frameRoles F I I.db m1.st p.mt lms with hr
  have hsl := C41_selection tF.sel (F.sel m1.st.opts) I.aruco m1.st.ts p.mt m1.st.clones.length (decide (F.dtSlam ≤ I.t - F.startup)) I.cams lms
  have hnot : ∀ f ∈ r.candidates ++ r.newSlam, f.featid ≠ w.1 := by
    intro f hf e
    rcases ((hsl.2.1 f).1 hf).2 with ⟨h, -⟩ | ⟨hbig, cam, q, hq, h⟩
    · obtain ⟨q, hq, hqt⟩ := g2 w hw
      have := h w.2.1 q (by rw [e]; exact hq)
      rw [hqt, hts1] at this
      exact lt_irrefl _ this
    · rw [e] at hq
      exact (hafter (by simpa only [FCfg.sel, hW1.opts, Nat.cast_lt] using hbig) cam q hq).ne' h
  have hids : lms.map Prod.fst = m1.st.slam.map Prod.fst := lmView_ids (fun e r h => by
    rw [Option.map_eq_some_iff] at h
    obtain ⟨c, -, rfl⟩ := h; rfl) v1
  have hslam : ∀ t ∈ r.slam, t.tag = false → t.f.featid ≠ w.1 := by
    intro t ht htag
    simp only [hr, frameRoles, roles] at ht
    rcases List.mem_append.1 ht with ht | ht
    · rcases List.mem_append.1 ht with ht | ht
      · split at ht
        · split_ifs at ht
          · obtain ⟨f, -, rfl⟩ := List.mem_map.1 ht
            cases htag
          · cases ht
        · cases ht
      · obtain ⟨f, hf, rfl⟩ := List.mem_map.1 ht
        exact hnot f (List.mem_append_right _ hf)
    · obtain ⟨e, he, ht⟩ := List.mem_flatMap.1 ht
      have hf : I.db.get? e.1 = some t.f := by
        unfold lmTracks at ht
        rcases List.mem_append.1 ht with ht | ht
        · split at ht
          · simp only [Option.mem_toList, Option.mem_def, Option.map_eq_some_iff] at ht
            obtain ⟨f, -, rfl⟩ := ht
            cases htag
          · cases ht
        · simp only [Option.mem_toList, Option.mem_def, Option.map_eq_some_iff] at ht
          obtain ⟨f, hf, rfl⟩ := ht
          unfold getFeature at hf
          cases hg : I.db.get? e.1 with
          | none => rw [hg] at hf; cases hf
          | some g => rw [hg] at hf; exact hf
      rw [db_featid tF.sel hf]
      rintro e'
      apply hnl
      rw [← e']
      have : e.1 ∈ lms.map Prod.fst := List.mem_map_of_mem he
      rw [hids, hp.slam] at this
      exact this
  have hmk : w.1 ∉ marked p false := by
    unfold marked
    simp only [Bool.false_eq_true, if_false, List.mem_append, List.mem_map, List.mem_filter, beq_iff_eq, not_or, not_exists, not_and]
    refine ⟨⟨fun f hf => ?_, fun t ht => ?_⟩, fun t ht => ?_⟩
    · exact hnot f (List.mem_append_left _ ((hF.sort _).subset ((cut_sub v3).subset hf)))
    · rw [v5] at ht
      exact hslam t (List.mem_filter.1 ht.1).1 ht.2
    · rw [v4] at ht
      exact hslam t (List.mem_filter.1 ht.1).1 ht.2
  obtain ⟨q, hq, hqt⟩ := hboth m hmi
  refine ⟨q, ?_, hqt⟩
  simp only
  rw [hm] at hq
  rw [hm, e6 _ hmk]
  refine List.mem_filter.2 ⟨hq, ?_⟩
  simp only [decide_eq_true_eq]
  intro t ht
  split_ifs at ht with hb
  obtain rfl := Option.some.inj ht
  exact hafter (.inl (by rw [hW1.opts] at hb; exact hb)) _ q hq

/-! ## the hypotheses are met -/

/-- `exF` without zero velocity detection. -/
noncomputable def exG : FCfg := { exF with mgr := { exF.mgr with Z := none } }

theorem exG_ok {o : Opts} (ho : 1 ≤ o.maxClones) : Spec.CfgOK o exG := by
  refine ⟨by simp [exG, exF], by simp [exG, exF], by simp [exG, exF], by simp [exG, exF], by simp [exG, exF], by simp [exG, exF], by simp [exG, exF], by simp [exG, exF], fun l => List.Perm.refl _, by simp [exG, exF], by simp [exG, exF]; norm_num, ⟨13, ?_, by simp [exG, exF]⟩, ho, fun Z hZ => ?_⟩
  · simp only [exG, exF]; norm_num
  · cases hZ

theorem exStart_loop (lib : Lib) (o : Opts) (F : FCfg) : Spec.LoopOK lib o F [] (exStart o) := by
  obtain ⟨h1, h2, h3, h4, h5, h6, h7⟩ := foldl_push_same (ctorVars o) (ctorBase o)
  have hc : (ctor o).clones = [] := h4
  have hs : (ctor o).slam = [] := h5
  have hno : ∀ i c, obs ([] : DB ℝ Uv) i c = [] := fun i c => rfl
  refine ⟨exStart_ok lib o, ⟨⟨⟨.empty, rfl⟩, by simp [exStart]⟩, ?_, ?_, ?_, ?_⟩, ?_, ?_, ?_, ?_, ?_, ?_, ?_, ?_, ?_⟩
  · intro id f hf; cases hf
  · intro id cam; exact List.Pairwise.nil
  · intro id cam x hx; cases hx
  · intro id hi; cases hi
  · intro a ha; cases ha
  · intro e he; simp only [exStart, hs] at he; cases he
  · intro e he; simp only [exStart, hs] at he; cases he
  · left; exact hs
  · intro hd; cases hd
  · exact List.nodup_nil
  · intro m hm; cases hm
  · rintro m ⟨x, hx, -⟩; cases hx
  · intro a ha; cases ha

/-- one reading and one image per second, in which the features `feats k` are seen. -/
noncomputable def exShots (feats : ℕ → List Seen) : ℕ → ℕ → List LEv
  | _, 0 => []
  | k, n + 1 => .imu ⟨k + 1, 0, 0⟩ :: .shot ⟨k + 1, [0], feats k, [], fun _ _ _ => 0, fun _ => 0⟩ :: exShots feats (k + 1) n

theorem exShots_stream (o : Opts) (feats : ℕ → List Seen) (hf : ∀ k, (∀ z ∈ feats k, z.2.1 < o.numCams ∧ 4 * o.maxAruco < z.1) ∧ ((feats k).map fun z => (z.1, z.2.1)).Nodup) : ∀ (n k : ℕ) (b : Bool) (prior : List Reading) (seen : List Meas),
    (∀ a ∈ prior, a.t ≤ (k : ℝ)) → (∀ m ∈ seen, m.2.2 ≤ (k : ℝ)) → (⟨k, 0, 0⟩ : Reading) ∈ prior → prior.length + n < 10 ^ 7 → Spec.LStream o 0 b k prior seen (exShots feats k n)
  | 0, k, b, prior, seen, _, _, _, _ => trivial
  | n + 1, k, b, prior, seen, h1, h0, h2, h3 => by
    have hm : ∀ m ∈ Spec.measured ⟨(k : ℝ) + 1, [0], feats k, [], fun _ _ _ => 0, fun _ => 0⟩, m.2.2 = (k : ℝ) + 1 := by
      intro m hm
      obtain ⟨z, -, rfl⟩ := List.mem_map.1 hm
      rfl
    refine ⟨fun a ha => ?_, ⟨by simp, (hf k).1, by simp, ?_, fun m hm' hs => ?_⟩, .inl ⟨by simp, ⟨_, List.mem_append_left _ h2, by simp; norm_num, by simp; norm_num, by simp⟩, ⟨_, List.mem_append_right _ (List.mem_singleton.2 rfl), by simp⟩, ?_⟩, ?_⟩
    · have := h1 a ha
      simp only; linarith
    · simp only [Spec.measured, List.append_nil]
      have := (hf k).2
      have e : ((feats k).map fun z => ((z.1, z.2.1, (k : ℝ) + 1) : Meas)) = ((feats k).map fun z => ((z.1, z.2.1) : ℕ × ℕ)).map fun q => (q.1, q.2, (k : ℝ) + 1) := by rw [List.map_map]; rfl
      rw [e]
      refine this.map fun a b h => ?_
      simp only [Prod.mk.injEq, and_true] at h
      exact Prod.ext h.1 h.2
    · have h4 := h0 m hs
      rw [hm m hm'] at h4
      linarith
    · refine lt_of_le_of_lt (List.length_filter_le _ _) ?_
      simp only [List.length_append, List.length_singleton]; omega
    · have := exShots_stream o feats hf n (k + 1) true (prior ++ [⟨k + 1, 0, 0⟩]) (seen ++ Spec.measured ⟨(k : ℝ) + 1, [0], feats k, [], fun _ _ _ => 0, fun _ => 0⟩) (fun a ha => ?_) (fun m hm' => ?_) ?_ ?_
      · push_cast at this; exact this
      · rcases List.mem_append.1 ha with ha | ha
        · have := h1 a ha
          push_cast; linarith
        · rw [List.mem_singleton.1 ha]; push_cast; exact le_rfl
      · rcases List.mem_append.1 hm' with h | h
        · have := h0 m h
          push_cast; linarith
        · rw [hm m h]; push_cast; exact le_rfl
      · push_cast; simp
      · simp only [List.length_append, List.length_singleton]; omega

/-- two and a half hours with an image per second, and whatever features are seen: all is processed and no measurement is used twice. -/
example (hlib : St.Spec.LibOK lib) (feats : ℕ → List Seen) (hf : ∀ k, (∀ z ∈ feats k, z.2.1 < 2 ∧ 4 * 0 < z.1) ∧ ((feats k).map fun z => (z.1, z.2.1)).Nodup) :
    ∃ y, runL lib exF (exStart ⟨true, true, true, false, true, true, 2, 11, 0⟩) (exShots feats 0 9000) = some y ∧ y.log.Nodup := by
  have hF : Spec.CfgOK ⟨true, true, true, false, true, true, 2, 11, 0⟩ exF := exF_ok (by simp)
  have hst := exShots_stream ⟨true, true, true, false, true, true, 2, 11, 0⟩ feats hf 9000 0 false [⟨0, 0, 0⟩] [] (by simp) (by simp) (by simp) (by simp)
  push_cast at hst
  obtain ⟨y, h1, h2, -⟩ := C108_used_once hlib hF (by simp) (by simp [exF]) (by simp [exF]) _ _ _ (exStart_loop lib _ _)
    (C108_stream hlib hF (by simp) (by simp [exF]) (by simp [exF]) 0 _ false _ _ _ (exStart_loop lib _ _) (exStart_has rfl exF) (by simp) hst)
  exact ⟨y, h1, h2⟩

/-- feature one is seen at times one and two, and no more at time three. -/
def exFeats : ℕ → List Seen
  | 0 => [(1, 0, (10, 20), (0, 0))]
  | 1 => [(1, 0, (11, 21), (0, 0))]
  | _ => []

/-- Three images with a window of two: the two measurements of the feature that is lost in the third are used (and only once). -/
example (hlib : St.Spec.LibOK lib) : ∃ y, runL lib exG (exStart ⟨true, true, true, false, true, true, 1, 2, 0⟩) (exShots exFeats 0 3) = some y ∧ y.log.Nodup ∧ (1, 0, 1) ∈ y.log ∧ (1, 0, 2) ∈ y.log := by
  set o : Opts := ⟨true, true, true, false, true, true, 1, 2, 0⟩ with ho
  have hF : Spec.CfgOK o exG := exG_ok (by simp [ho])
  have h2 : 2 ≤ o.maxClones := le_rfl
  have hr : exG.slam.repS ≠ .anchoredSingle ∧ exG.slam.repA ≠ .anchoredSingle := by simp [exG, exF]
  have hst := exShots_stream o exFeats (fun k => by
    match k with
    | 0 => simp [exFeats, ho]
    | 1 => simp [exFeats, ho]
    | k + 2 => simp [exFeats]) 3 0 false [⟨0, 0, 0⟩] [] (by simp) (by simp) (by simp) (by simp)
  push_cast at hst
  have hadm := C108_stream hlib hF h2 hr.1 hr.2 0 _ false _ _ _ (exStart_loop lib o exG) (exStart_has rfl exG) (by simp) hst
  obtain ⟨y, hy, hnd, -⟩ := C108_used_once hlib hF h2 hr.1 hr.2 _ _ _ (exStart_loop lib o exG) hadm
  refine ⟨y, hy, hnd, ?_⟩
  have hc0 : (exStart o).m.st.clones = [] := (foldl_push_same (ctorVars o) (ctorBase o)).2.2.2.1
  have hz : ∀ m, zuptOn exG.mgr m = none := fun m => rfl
  have hcv : ∀ {m : Mgr} {t : ℝ}, Spec.Timely exG m t → m.st.ts < t → Spec.Covered m t := fun {m t} h hlt => by
    rcases h with h | h
    · exact h.2.1
    · exact absurd h.1 hlt.ne
  -- the first image
  set x1 : FMgr := { exStart o with m := feedImu exG.mgr (exStart o).m ⟨((0 : ℕ) : ℝ) + 1, 0, 0⟩ } with hx1
  have l1 : Spec.LoopOK lib o exG [] x1 := loop_imu (exStart_loop lib o exG) _
  obtain ⟨s1, t1, n1⟩ := hadm
  have ts1 : x1.m.st.ts = 0 := rfl
  have lt1 : x1.m.st.ts < ((0 : ℕ) : ℝ) + 1 := by rw [ts1]; norm_num
  obtain ⟨y1, e1, m1, u1, -⟩ := shot_ok hlib hF h2 hr.1 hr.2 l1 s1 t1
  obtain ⟨y1', e1', c1, k1⟩ := C109_rest_kept hlib hF h2 l1 s1 (hz _) lt1 (hcv t1 lt1)
  rw [e1] at e1'
  obtain rfl := Option.some.inj e1'
  have w1 := C106_window hlib hF (shot_img l1 s1 lt1.le).1 l1.mgr (hz _) lt1 (hcv t1 lt1) e1
  have hc1 : x1.m.st.clones = [] := hc0
  rw [hc1] at w1
  have w1' : y1.m.st.clones.map Prod.fst = [1] := by rw [w1]; simp [shotImg, ho]
  have len1 : y1.m.st.clones.length = 1 := by simpa using congrArg List.length w1'
  have sl1 : y1.m.st.slam = [] := by
    rcases m1.win with h | h
    · exact h
    · rw [len1] at h; simp [ho] at h
  have d1 : Spec.InDb y1.m.db (1, 0, 1) := by
    refine k1 1 ⟨(1, 0, (10, 20), (0, 0)), by simp [exFeats], rfl⟩ ?_ ?_ _ rfl (.inr (by simp [exFeats]))
    · have : x1.m.st.slam = [] := (foldl_push_same (ctorVars o) (ctorBase o)).2.2.2.2.1
      rw [this]; simp
    · rintro - m - ⟨q, hq, -⟩; cases hq
  -- the second image
  have n1 := n1 y1 e1
  set x2 : FMgr := { y1 with m := feedImu exG.mgr y1.m ⟨((0 + 1 : ℕ) : ℝ) + 1, 0, 0⟩ } with hx2
  have l2 : Spec.LoopOK lib o exG _ x2 := loop_imu m1 _
  obtain ⟨s2, t2, n2⟩ := n1
  have ts2 : x2.m.st.ts = 1 := by
    have : x2.m.st.ts = y1.m.st.ts := rfl
    rw [this, u1]; norm_num
  have lt2 : x2.m.st.ts < ((0 + 1 : ℕ) : ℝ) + 1 := by rw [ts2]; norm_num
  obtain ⟨y2, e2, m2, u2, -⟩ := shot_ok hlib hF h2 hr.1 hr.2 l2 s2 t2
  obtain ⟨y2', e2', c2, k2⟩ := C109_rest_kept hlib hF h2 l2 s2 (hz _) lt2 (hcv t2 lt2)
  rw [e2] at e2'
  obtain rfl := Option.some.inj e2'
  have w2 := C106_window hlib hF (shot_img l2 s2 lt2.le).1 l2.mgr (hz _) lt2 (hcv t2 lt2) e2
  have hc2 : x2.m.st.clones = y1.m.st.clones := rfl
  rw [hc2, w1', len1] at w2
  have w2' : y2.m.st.clones.map Prod.fst = [1, 2] := by rw [w2]; simp [shotImg, ho]; norm_num
  have len2 : y2.m.st.clones.length = 2 := by simpa using congrArg List.length w2'
  have hk2 := k2 1 ⟨(1, 0, (11, 21), (0, 0)), by simp [exFeats], rfl⟩ (by
    have : x2.m.st.slam = [] := sl1
    rw [this]; simp) (fun h => by rw [hc2, len1] at h; simp [ho] at h)
  have d2 : Spec.InDb y2.m.db (1, 0, 1) := hk2 _ rfl (.inl d1)
  have d2' : Spec.InDb y2.m.db (1, 0, 2) := hk2 _ rfl (.inr (by simp [exFeats]; norm_num))
  -- the third image
  have n2 := n2 y2 e2
  set x3 : FMgr := { y2 with m := feedImu exG.mgr y2.m ⟨((0 + 1 + 1 : ℕ) : ℝ) + 1, 0, 0⟩ } with hx3
  have l3 : Spec.LoopOK lib o exG _ x3 := loop_imu m2 _
  obtain ⟨s3, t3, -⟩ := n2
  have ts3 : x3.m.st.ts = 2 := by
    have : x3.m.st.ts = y2.m.st.ts := rfl
    rw [this, u2]; norm_num
  have lt3 : x3.m.st.ts < ((0 + 1 + 1 : ℕ) : ℝ) + 1 := by rw [ts3]; norm_num
  have hc3 : x3.m.st.clones = y2.m.st.clones := rfl
  obtain ⟨y3, e3, k3, -⟩ := C109_nothing_lost hlib hF h2 l3 s3 (hz _) lt3 (hcv t3 lt3) (by rw [hc3, len2]; simp [ho])
  have hyy : y = y3 := by
    have : runL lib exG (exStart o) (exShots exFeats 0 3) = some y3 := by
      simp only [exShots, runL, LEv.run, Option.bind_some]
      rw [← hx1, e1]
      simp only [Option.bind_some]
      rw [← hx2, e2]
      simp only [Option.bind_some]
      rw [← hx3, e3]
      rfl
    rw [hy] at this
    exact Option.some.inj this
  have in1 : (1 : ℝ) ∈ x3.m.st.clones.map Prod.fst := by rw [hc3, w2']; simp
  have in2 : (2 : ℝ) ∈ x3.m.st.clones.map Prod.fst := by rw [hc3, w2']; simp
  have hcut : (((shotImg x3 ⟨((0 + 1 + 1 : ℕ) : ℝ) + 1, [0], exFeats (0 + 1 + 1), [], fun _ _ _ => 0, fun _ => 0⟩).db.length : ℕ) : ℤ) ≤ exG.maxMsckf := by
    have one : ∀ id, ((shotImg x3 ⟨((0 + 1 + 1 : ℕ) : ℝ) + 1, [0], exFeats (0 + 1 + 1), [], fun _ _ _ => 0, fun _ => 0⟩).db.get? id).isSome → id = 1 := by
      intro id h
      rcases shot_keys l3 s3 id h with h | ⟨z, hz, -⟩
      · rcases c2 id h with h | ⟨z, hz, rfl⟩
        · rcases c1 id h with h | ⟨z, hz, rfl⟩
          · cases h
          · simp only [exFeats, List.mem_singleton] at hz; rw [hz]
        · simp only [exFeats, List.mem_singleton] at hz; rw [hz]
      · simp [exFeats] at hz
    obtain ⟨-, tF, -⟩ := shot_img l3 s3 lt3.le
    have hsub : AMap.keys (shotImg x3 ⟨((0 + 1 + 1 : ℕ) : ℝ) + 1, [0], exFeats (0 + 1 + 1), [], fun _ _ _ => 0, fun _ => 0⟩).db ⊆ [1] := fun id hid => by
      obtain ⟨f, hf⟩ := AMap.mem_keys_iff.1 hid
      exact List.mem_singleton.2 (one id (by rw [hf]; rfl))
    have := (List.subperm_of_subset tF.ok.wf.nodup hsub).length_le
    simp only [AMap.keys, List.length_map, List.length_singleton] at this
    simp only [exG, exF]
    omega
  have := (k3 hcut 1).1 (1, 0, 1) (1, 0, 2) (by simp) rfl rfl d2 d2' in1 in2 (by simp [exFeats]) (by simp)
  rw [hyy]
  exact ⟨this _ rfl d2 in1, this _ rfl d2' in2⟩

theorem exEvs_times (db : ℕ → DB ℝ Uv) : ∀ n k : ℕ, Spec.frameTimes (exEvs db k n) = (List.range' (k + 1) n).map fun i : ℕ => (i : ℝ)
  | 0, _ => rfl
  | n + 1, k => by
    simp only [exEvs, Spec.frameTimes, List.range'_succ, List.map_cons, exEvs_times db n (k + 1)]
    push_cast; rfl

/-- after two and a half hours the window of eleven clones is the last eleven images. -/
example (hlib : St.Spec.LibOK lib) (db : ℕ → DB ℝ Uv) (hdb : ∀ k, Spec.DbOK ⟨true, true, true, false, true, true, 2, 11, 0⟩ (db k)) :
    ∃ y, runF lib exG (exStart ⟨true, true, true, false, true, true, 2, 11, 0⟩) (exEvs db 0 9000) = some y ∧ y.m.st.clones.map Prod.fst = (List.range' 8990 11).map fun i : ℕ => (i : ℝ) := by
  have hF : Spec.CfgOK ⟨true, true, true, false, true, true, 2, 11, 0⟩ exG := exG_ok (by simp)
  have hst := exEvs_stream ⟨true, true, true, false, true, true, 2, 11, 0⟩ db hdb 9000 0 [⟨0, 0, 0⟩] (by simp) (by simp) (by simp)
  push_cast at hst
  obtain ⟨y, h1, h2, -, h3⟩ := C106_stream hlib hF 0 _ _ _ (exStart_ok lib _) (exStart_has rfl exG) hst
  refine ⟨y, h1, ?_⟩
  have hc0 : (exStart ⟨true, true, true, false, true, true, 2, 11, 0⟩).m.st.clones = [] := (foldl_push_same _ (ctorBase _)).2.2.2.1
  rw [C106_last_images hlib hF rfl _ _ y (exStart_ok lib _) h3 ?_ h1, hc0, exEvs_times]
  · simp only [List.map_nil, List.nil_append, List.length_nil, Nat.zero_add, List.length_map, List.length_range', ← List.map_drop, List.drop_range']
  · rw [exEvs_times, show (exStart ⟨true, true, true, false, true, true, 2, 11, 0⟩).m.st.ts = ((0 : ℕ) : ℝ) by simp [exStart]]
    have : ((List.range' 0 9001).map fun i : ℕ => (i : ℝ)).Pairwise (· < ·) := List.Pairwise.map _ (fun a b h => by exact_mod_cast h) List.pairwise_lt_range'
    rw [List.range'_succ] at this
    exact this

end Verif.Vio
