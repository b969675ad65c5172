import Verif.Vio.Frame
import Verif.Vio.PropsMgr
import Verif.Vio.PropsSel
import Verif.Upd.PropsAnchorS
import Verif.Upd.PropsDelay
import Verif.Tri.PropsB
import Verif.Feat.Props

/-!
# Helper lemmas for the whole frame (C106)
-/

set_option autoImplicit false
set_option linter.unusedVariables false
open Classical

namespace Verif.Vio

open Verif Verif.Types Verif.St Verif.Imu Verif.Prop_ Verif.Feat Verif.Disp

variable {lib : Lib} {o : Opts} {s s' : State} {M M' : ℕ → Upd.LMeta}

namespace Spec

/-- a database that some history of database operations leaves behind, with observations of existing cameras only. -/
def DbOK (o : Opts) (db : DB ℝ Uv) : Prop := (∃ h : Hist ℝ Uv, h.run = some db) ∧ ∀ e ∈ db, ∀ c ∈ e.2.times.keys, c < o.numCams

/-- options under which every part of the frame is defined: known feature representations, positive measurement noises, a positive batch size, a non-negative number of MSCKF features, a refinement whose damping grows, at least one clone. -/
structure CfgOK (o : Opts) (F : FCfg) : Prop where
  repM : F.msckf.rep ≠ .unknown
  repS : F.slam.repS ≠ .unknown
  repA : F.slam.repA ≠ .unknown
  sigM : 0 < F.msckf.sig2
  sigS : 0 < F.slam.sigS
  sigA : 0 < F.slam.sigA
  batch : 0 < F.maxUp
  cut : 0 ≤ F.maxMsckf
  sort : ∀ l, (F.sort l).Perm l
  mult : 1 < F.tri.o.lamMult
  lam : 0 < F.tri.o.initLam
  passes : ∃ K : ℕ, F.tri.o.maxLam ≤ F.tri.o.initLam * F.tri.o.lamMult ^ K ∧ K + 2 * F.tri.o.maxRuns ≤ F.tri.passes
  clones : 1 ≤ o.maxClones
  zupt : ∀ Z, F.mgr.Z = some Z → 0 < Z.mult

end Spec

/-! ## databases and tracks -/

theorem Spec.DbOK.wf {db : DB ℝ Uv} (h : Spec.DbOK o db) : WF db := by
  obtain ⟨⟨h, hh⟩, -⟩ := h
  obtain ⟨db', e, r⟩ := refines_hist h
  rw [hh] at e
  obtain rfl := Option.some.inj e
  exact r.wf

/-- a track the updaters can work with. -/
def TrackOK (o : Opts) (f : Upd.Track) : Prop := (f.obs.map Prod.fst).Nodup ∧ ∀ c ∈ f.obs, c.1 < o.numCams

theorem toTrack_cams (f : Feature ℝ Uv) : (toTrack f).obs.map Prod.fst = f.times.keys := by
  simp [toTrack, AMap.keys, Function.comp_def]

theorem Spec.DbOK.track {db : DB ℝ Uv} (h : Spec.DbOK o db) {f : Feature ℝ Uv} (hf : ∃ k, (k, f) ∈ db) : TrackOK o (toTrack f) := by
  obtain ⟨k, hk⟩ := hf
  have hw := h.wf
  have hg := AMap.get?_of_mem hw.nodup hk
  refine ⟨?_, fun c hc => ?_⟩
  · rw [toTrack_cams]; exact (hw.feat _ _ hg).1.nodup
  · have : c.1 ∈ (toTrack f).obs.map Prod.fst := List.mem_map.2 ⟨c, hc, rfl⟩
    rw [toTrack_cams] at this
    exact h.2 _ hk _ this

theorem mem_queryDb {hit : Feature ℝ Uv → Bool} {r sk : Bool} {db : DB ℝ Uv} {f : Feature ℝ Uv} (h : f ∈ (queryLoop hit r sk db).1) : ∃ k, (k, f) ∈ db := by
  rw [queryLoop_fst, List.mem_map] at h
  obtain ⟨e, he, rfl⟩ := h
  exact ⟨e.1, (List.mem_filter.1 he).1⟩

theorem mem_containing {c : SelCfg} {db : DB ℝ Uv} {mt : ℝ} {nc : ℕ} {f : Feature ℝ Uv} (h : f ∈ containing0 c db mt nc) : ∃ k, (k, f) ∈ db := by
  unfold containing0 at h
  split_ifs at h
  · exact mem_queryDb h
  · simp at h

theorem get_mem {α : Type} : ∀ {m : AMap α} {k : ℕ} {v : α}, m.get? k = some v → (k, v) ∈ m
  | [], k, v, h => by simp [AMap.get?] at h
  | e :: m, k, v, h => by
    unfold AMap.get? at h
    split_ifs at h with hk
    · obtain rfl := Option.some.inj h; subst hk; simp
    · exact List.mem_cons_of_mem _ (get_mem h)

theorem mem_getFeature {db : DB ℝ Uv} {id : ℕ} {f : Feature ℝ Uv} (h : (Feat.getFeature db id false).1 = some f) : ∃ k, (k, f) ∈ db := by
  unfold Feat.getFeature at h
  split at h
  · rename_i g hg
    simp at h; subst h
    exact ⟨id, get_mem hg⟩
  · simp at h

/-- everything the selection hands out comes from one of the two databases. -/
theorem roles_mem {c : SelCfg} {db : DB ℝ Uv} {ar : Option (DB ℝ Uv)} {ts mt : ℝ} {nc : ℕ} {dl : Bool} {cams : List ℕ} {lms : List (ℕ × Lm)} :
    (∀ f ∈ (roles c db ar ts mt nc dl cams lms).candidates, ∃ k, (k, f) ∈ db) ∧
    ∀ x ∈ (roles c db ar ts mt nc dl cams lms).slam, (∃ k, (k, x.f) ∈ db) ∨ ∃ a k, ar = some a ∧ (k, x.f) ∈ a := by
  refine ⟨fun f hf => ?_, fun x hx => ?_⟩
  · simp only [Roles.candidates, roles, List.mem_append, List.mem_filter] at hf
    rcases hf with (⟨hf, -⟩ | ⟨hf, -⟩) | hf
    · unfold lost0 at hf
      exact mem_queryDb (List.mem_filter.1 hf).1
    · exact mem_containing hf
    · exact mem_containing (List.mem_filter.1 (List.mem_of_mem_take hf)).1
  · simp only [roles, List.mem_append, List.mem_map, List.mem_flatMap] at hx
    rcases hx with (hx | ⟨f, hf, rfl⟩) | ⟨e, -, hx⟩
    · cases ar with
      | none => simp at hx
      | some a =>
        simp only at hx
        split_ifs at hx
        · obtain ⟨f, hf, rfl⟩ := List.mem_map.1 hx
          obtain ⟨k, hk⟩ := mem_containing hf
          exact .inr ⟨a, k, rfl, hk⟩
        · simp at hx
    · exact .inl (mem_containing (List.mem_filter.1 (List.mem_of_mem_drop hf)).1)
    · simp only [lmTracks, List.mem_append] at hx
      rcases hx with hx | hx
      · cases ar with
        | none => simp at hx
        | some a =>
          simp only [Option.mem_toList, Option.map_eq_some_iff] at hx
          obtain ⟨f, hf, rfl⟩ := hx
          obtain ⟨k, hk⟩ := mem_getFeature hf
          exact .inr ⟨a, k, rfl, hk⟩
      · simp only [Option.mem_toList, Option.map_eq_some_iff] at hx
        obtain ⟨f, hf, rfl⟩ := hx
        exact .inl (mem_getFeature hf)

/-! ## triangulation -/

theorem camPose_some (hW : W o s) {c : ℕ} {t : ℝ} (hc : c < o.numCams) (ht : ∃ u, (t, u) ∈ s.clones) : ∃ P, camPose s c t = some P := by
  obtain ⟨q, p, hE⟩ := Upd.calib_kind hW hc
  obtain ⟨u, hu⟩ := Upd.cloneUid_some ht
  obtain ⟨q', p', hp⟩ := hW.cpose _ (Upd.cloneUid_mem hu)
  simp only at hp
  unfold camPose
  rw [if_pos (by rw [hW.opts]; exact hc), hE, hu]
  simp only [Upd.valPose, Option.bind_eq_bind, Option.bind_some, hp]
  exact ⟨_, rfl⟩

theorem camPose_of (hW : W o s) {c : ℕ} {t : ℝ} {P : Tri.CPose} (h : camPose s c t = some P) : c < o.numCams ∧ ∃ u, (t, u) ∈ s.clones := by
  simp only [camPose, Option.bind_eq_bind, Option.bind_eq_some_iff] at h
  obtain ⟨E, hE, u, hu, -⟩ := h
  split_ifs at hE with hc
  rw [hW.opts] at hc
  exact ⟨hc, u, Upd.cloneUid_mem hu⟩

/-- whatever is triangulated is anchored at an existing camera and clone. -/
theorem triOf_anchor (hW : W o s) (T : TriCfg) (I : Img) {f : Upd.Track} {x : Upd.Fix} (h : triOf T I s f = some x) : x.cam < o.numCams ∧ ∃ u, (x.t, u) ∈ s.clones := by
  unfold triOf at h
  obtain ⟨y, hy, rfl⟩ : ∃ y, locate T I s f = some y ∧ y = some x := by
    cases hl : locate T I s f with
    | none => rw [hl] at h; simp at h
    | some y => rw [hl] at h; exact ⟨y, rfl, by simpa using h⟩
  clear h
  simp only [locate, Option.bind_eq_bind, Option.bind_eq_some_iff] at hy
  obtain ⟨r, hr, hy⟩ := hy
  cases r with
  | none =>
    simp only [Option.bind_eq_some_iff] at hy
    obtain ⟨_, _, _, _, h⟩ := hy
    simp at h
  | some z =>
    have hz : ∃ P, camPose s z.cam z.t = some P := by
      split_ifs at hr
      · simp only [Tri.triangulate1, Option.bind_eq_bind, Option.bind_eq_some_iff] at hr
        obtain ⟨a, _, A, hA, ms, _, h⟩ := hr
        split_ifs at h
        · simp at h
        obtain rfl := Option.some.inj (Option.some.inj h)
        exact ⟨A, hA⟩
      · simp only [Tri.triangulate, Option.bind_eq_bind, Option.bind_eq_some_iff] at hr
        obtain ⟨a, _, A, hA, ms, _, h⟩ := hr
        split_ifs at h
        · simp at h
        obtain rfl := Option.some.inj (Option.some.inj h)
        exact ⟨A, hA⟩
    simp only [Option.bind_eq_some_iff, Option.some.injEq, Option.map_eq_some_iff] at hy
    obtain ⟨w, hw, v, rfl, rfl⟩ := hy
    have hv : v.cam = z.cam ∧ v.t = z.t := by
      split_ifs at hw
      · simp only [Tri.refine, Option.bind_eq_bind, Option.bind_eq_some_iff] at hw
        obtain ⟨A, _, ms, _, l, _, h⟩ := hw
        split_ifs at h
        · simp at h
        obtain rfl := Option.some.inj (Option.some.inj h)
        exact ⟨rfl, rfl⟩
      · simp only [Option.some.injEq] at hw
        subst hw; exact ⟨rfl, rfl⟩
    obtain ⟨P, hP⟩ := hz
    simp only [hv.1, hv.2]
    exact camPose_of hW hP

theorem normObs_isObs {norm : ℕ → ℕ → ℝ → Tri.V2} {f : Upd.Track} {c : ℕ} {t : ℝ} {uv : Tri.V2} (h : Tri.Spec.IsObs (normObs norm f) c t uv) :
    ∃ e ∈ f.obs, e.1 = c ∧ ∃ m ∈ e.2, m.1 = t := by
  obtain ⟨x, hx, rfl, h⟩ := h
  simp only [normObs, List.mem_map] at hx
  obtain ⟨e, he, rfl⟩ := hx
  simp only [List.mem_map] at h
  obtain ⟨m, hm, h⟩ := h
  exact ⟨e, he, rfl, m, hm, (Prod.ext_iff.1 h).1⟩

theorem mem_flat {obs : Tri.Obs} {m : ℕ × ℕ × ℝ × Tri.V2} (h : m ∈ Tri.flat obs) : Tri.Spec.IsObs obs m.1 m.2.2.1 m.2.2.2 := by
  simp only [Tri.flat, List.mem_flatMap, List.mem_mapIdx] at h
  obtain ⟨c, hc, i, hi, rfl⟩ := h
  exact ⟨c, hc, rfl, List.getElem_mem _⟩

/-- the triangulation of a track in the window raises no exception and ends. -/
theorem locate_returns {F : FCfg} (hF : Spec.CfgOK o F) (I : Img) (hW : W o s) {f : Upd.Track} (hf : TrackOK o f) (hwin : ∀ c ∈ f.obs, ∀ m ∈ c.2, ∃ u, (m.1, u) ∈ s.clones)
    (h2 : 2 ≤ f.count) : ∃ r, locate F.tri I s f = some r := by
  have hn : ((normObs I.norm f).map Prod.fst).Nodup := by simpa [normObs, Function.comp_def] using hf.1
  have hin : ∀ {c t uv}, Tri.Spec.IsObs (normObs I.norm f) c t uv → ∃ P, camPose s c t = some P := by
    intro c t uv h
    obtain ⟨e, he, rfl, m, hm, rfl⟩ := normObs_isObs h
    exact camPose_some hW (hf.2 e he) (hwin e he m hm)
  obtain ⟨a, ha⟩ : ∃ a, Tri.anchor (normObs I.norm f) = some a := by
    have : ∃ c ∈ f.obs, 0 < c.2.length := by
      by_contra hno
      push Not at hno
      have : f.count = 0 := by
        unfold Upd.Track.count
        rw [List.sum_eq_zero]
        intro x hx
        obtain ⟨c, hc, rfl⟩ := List.mem_map.1 hx
        have := hno c hc; omega
      omega
    obtain ⟨c, hc, hl⟩ := this
    refine Tri.anchor_some hn (c := c.1) (t := (c.2[0]).1) (uv := I.norm f.id c.1 (c.2[0]).1) ⟨(c.1, c.2.map fun m => (m.1, I.norm f.id c.1 m.1)), ?_, rfl, ?_⟩
    · exact List.mem_map.2 ⟨c, hc, rfl⟩
    · exact List.mem_map.2 ⟨c.2[0], List.getElem_mem _, rfl⟩
  obtain ⟨A, hA⟩ := hin (Tri.anchor_spec ha)
  have hposes : ∀ l : List (ℕ × ℕ × ℝ × Tri.V2), (∀ m ∈ l, m ∈ Tri.flat (normObs I.norm f)) → ∃ ms, Tri.poses (camPose s) l = some ms := by
    intro l hl
    refine Upd.mapM_some fun m hm => ?_
    obtain ⟨P, hP⟩ := hin (mem_flat (hl m hm))
    rw [hP]; rfl
  have hA' : ∀ {z : Tri.Fix}, z.cam = a.1 → z.t = a.2.1 → ∃ r, Tri.refine F.tri.o F.tri.solve F.tri.passes (camPose s) (normObs I.norm f) z = some r := by
    intro z h1 h2
    obtain ⟨ms, hms⟩ := hposes _ fun m h => h
    obtain ⟨K, hK1, hK2⟩ := hF.passes
    obtain ⟨l, hl⟩ := Tri.C36_terminates F.tri.o hF.mult hF.lam hK1 (Tri.computeError A ms) (Tri.gnSystem A ms) F.tri.solve z.pA hK2
    unfold Tri.refine
    rw [h1, h2, hA]
    simp only [Option.bind_eq_bind, Option.bind_some, hms, hl]
    split_ifs
    · exact ⟨_, rfl⟩
    · exact ⟨_, rfl⟩
  obtain ⟨r, hr, hanc⟩ : ∃ r, (if F.tri.oneD = true then Tri.triangulate1 F.tri.o (camPose s) (normObs I.norm f) else Tri.triangulate F.tri.o F.tri.cond (camPose s) (normObs I.norm f)) = some r ∧
      ∀ z, r = some z → z.cam = a.1 ∧ z.t = a.2.1 := by
    split_ifs
    · unfold Tri.triangulate1
      simp only [ha, Option.bind_eq_bind, Option.bind_some, hA]
      obtain ⟨ms, hms⟩ := hposes ((Tri.flat (normObs I.norm f)).filter fun m => ¬ (m.1 = a.1 ∧ m.2.1 = (Tri.anchorCam (normObs I.norm f)).2 - 1)) fun m h => (List.mem_filter.1 h).1
      rw [hms]
      simp only [Option.bind_some]
      split_ifs
      · exact ⟨none, rfl, by simp⟩
      · exact ⟨_, rfl, fun z hz => by obtain rfl := Option.some.inj hz; exact ⟨rfl, rfl⟩⟩
    · unfold Tri.triangulate
      simp only [ha, Option.bind_eq_bind, Option.bind_some, hA]
      obtain ⟨ms, hms⟩ := hposes _ fun m h => h
      rw [hms]
      simp only [Option.bind_some]
      split_ifs
      · exact ⟨none, rfl, by simp⟩
      · exact ⟨_, rfl, fun z hz => by obtain rfl := Option.some.inj hz; exact ⟨rfl, rfl⟩⟩
  unfold locate
  simp only [Option.bind_eq_bind, hr, Option.bind_some]
  cases r with
  | none =>
    simp only [ha, Option.bind_some]
    split_ifs
    · obtain ⟨q, hq⟩ := hA' (z := ⟨a.1, a.2.1, I.stale f.id, 0⟩) rfl rfl
      rw [hq]; exact ⟨_, rfl⟩
    · exact ⟨_, rfl⟩
  | some z =>
    obtain ⟨h1, h2⟩ := hanc z rfl
    simp only
    split_ifs
    · obtain ⟨q, hq⟩ := hA' h1 h2
      rw [hq]; exact ⟨_, rfl⟩
    · exact ⟨_, rfl⟩

theorem locates_return {F : FCfg} (hF : Spec.CfgOK o F) (I : Img) (hW : W o s) {fs : List Upd.Track} (hfs : ∀ f ∈ fs, TrackOK o f) :
    ∃ r, (Upd.cleaned s 2 fs).mapM (locate F.tri I s) = some r := by
  refine Upd.mapM_some fun f hf => ?_
  simp only [Upd.cleaned, List.mem_filter, List.mem_map, decide_eq_true_eq] at hf
  obtain ⟨⟨g, hg, rfl⟩, h2⟩ := hf
  obtain ⟨r, hr⟩ := locate_returns hF I hW (f := g.clean s) (by
    have := hfs g hg
    refine ⟨by simpa [Upd.Track.clean, Function.comp_def] using this.1, fun c hc => ?_⟩
    simp only [Upd.Track.clean, List.mem_map] at hc
    obtain ⟨d, hd, rfl⟩ := hc
    exact this.2 d hd) (by
    intro c hc m hm
    simp only [Upd.Track.clean, List.mem_map] at hc
    obtain ⟨d, hd, rfl⟩ := hc
    have := (List.mem_filter.1 hm).2
    simp only [decide_eq_true_eq, List.mem_map] at this
    obtain ⟨e, he, h⟩ := this
    exact ⟨e.2, by rw [← h]; exact he⟩) h2
  rw [hr]; rfl

/-! ## landmarks stay well formed -/

theorem vec_of_kind {n : ℕ} {v : Vect} {b : Val} (h : sameKind (.vec n v) b) : ∃ w, b = .vec n w := by
  cases b <;> simp [sameKind] at h
  subst h; exact ⟨_, rfl⟩

/-- same fields as far as anchoring is concerned. -/
def SameAnchor (a b : Upd.LMeta) : Prop := b.rep = a.rep ∧ b.cam = a.cam ∧ b.t = a.t

theorem lms_keep (h : Upd.Spec.LmsOK o s M) (hsl : ∀ e ∈ s'.slam, e ∈ s.slam) (hcl : ∀ c ∈ s.clones, c ∈ s'.clones) (hk : ∀ e ∈ s'.slam, sameKind (s.obj e.2).val (s'.obj e.2).val)
    (hM : ∀ e ∈ s'.slam, SameAnchor (M e.2) (M' e.2)) : Upd.Spec.LmsOK o s' M' := by
  refine ⟨fun e he => ?_, fun e he => ?_⟩
  · obtain ⟨m1, m2, m3⟩ := hM e he
    obtain ⟨a, b⟩ := h.1 e (hsl e he)
    rw [m1, m2, m3]
    refine ⟨a, fun hr => ?_⟩
    obtain ⟨b1, u, b2⟩ := b hr
    exact ⟨b1, u, hcl _ b2⟩
  · obtain ⟨m1, -, -⟩ := hM e he
    obtain ⟨v, hv⟩ := h.2 e (hsl e he)
    have := hk e he
    rw [hv] at this
    rw [m1]
    exact vec_of_kind this

theorem msckf_kind (hn : s.vars.Nodup) {C : Upd.MCfg} {tri : Upd.Track → Option Upd.Fix} {fs : List Upd.Track} {used : List ℕ} (h : Upd.msckfUpdate lib s C tri fs = some (s', used)) :
    ∀ u, sameKind (s.obj u).val (s'.obj u).val := by
  have triv : ∀ u, sameKind (s.obj u).val (s.obj u).val := fun u => sameKind_refl _
  simp only [Upd.msckfUpdate, Option.bind_eq_bind, Option.bind_eq_some_iff] at h
  obtain ⟨B, -, h⟩ := h
  split_ifs at h
  · simp only [Option.some.injEq, Prod.mk.injEq] at h; obtain ⟨rfl, -⟩ := h; exact triv
  · simp only [Option.some.injEq, Prod.mk.injEq] at h; obtain ⟨rfl, -⟩ := h; exact triv
  · simp only [Option.bind_eq_some_iff, Option.some.injEq, Prod.mk.injEq] at h
    obtain ⟨s1, h1, rfl, -⟩ := h
    exact fun u => ((update_lm hn h1).1 u).2

theorem slam_kind (hn : s.vars.Nodup) {C : Upd.SCfg} {fs : List Upd.Track} {R : Upd.SOut} (h : Upd.slamUpdate lib s M C fs = some R) :
    ∀ u, sameKind (s.obj u).val (R.s.obj u).val := by
  have triv : ∀ u, sameKind (s.obj u).val (s.obj u).val := fun u => sameKind_refl _
  simp only [Upd.slamUpdate, Option.bind_eq_bind, Option.bind_eq_some_iff] at h
  obtain ⟨cs, -, A, -, h⟩ := h
  split_ifs at h
  · obtain rfl := Option.some.inj h; exact triv
  · simp only [Option.bind_eq_some_iff, Option.some.injEq] at h
    obtain ⟨s1, h1, rfl⟩ := h
    exact fun u => ((update_lm hn h1).1 u).2

theorem try_kind {Z : ZCfg} {mem mem' : ZMem} {buf : List Reading} {db db' : DB ℝ Uv} {t : ℝ} {b : Bool} (hs : St.Spec.Prog lib o s)
    (h : tryUpdate lib Z mem buf db s t = some (b, mem', s', db')) : ∀ u, sameKind (s.obj u).val (s'.obj u).val := by
  have triv : ∀ {m1 : ZMem} {d1 : DB ℝ Uv}, some (false, m1, s, d1) = some (b, mem', s', db') → ∀ u, sameKind (s.obj u).val (s'.obj u).val := by
    intro m1 d1 h
    simp only [Option.some.injEq, Prod.mk.injEq] at h
    obtain ⟨rfl, _, rfl, _⟩ := h
    exact fun u => sameKind_refl _
  have fin : ∀ {D : Option (DB ℝ Uv)} {R Q : DMat} {H : DMat} {r : DVec} {m1 : ZMem}, (D.bind fun db' => (propagate s biasOrder biasOrder ⟨6, 6, Mat.one⟩ Q).bind fun s1 => (update lib s1 zOrder H r R).bind fun s2 =>
      some (true, m1, { s2 with ts := t }, db')) = some (b, mem', s', db') → ∀ u, sameKind (s.obj u).val (s'.obj u).val := by
    intro D R Q H r m1 h
    simp only [Option.bind_eq_some_iff, Option.some.injEq, Prod.mk.injEq] at h
    obtain ⟨db1, _, s1, e1, s2, e2, rfl, _, rfl, _⟩ := h
    have p1 := hs.step (op := .propagate _ _ _ _) trivial e1
    obtain ⟨_, _, _, _, _, _, _, _, _, _, _, _, _, _, _, e⟩ := propagate_some e1
    obtain ⟨k, _⟩ := update_lm (reach_inv p1.reach).nodup e2
    intro u
    have := (k u).2
    rw [e] at this
    exact this
  unfold tryUpdate at h
  by_cases h1 : buf = []
  · rw [if_pos h1] at h; exact triv h
  rw [if_neg h1] at h
  by_cases h2 : s.ts = t
  · rw [if_pos h2] at h; exact triv h
  rw [if_neg h2] at h
  rw [Option.bind_eq_bind, Option.bind_eq_some_iff] at h
  obtain ⟨c, hc, h⟩ := h
  rw [Option.bind_eq_bind, Option.bind_eq_some_iff] at h
  obtain ⟨off, hoff, h⟩ := h
  rw [Option.bind_eq_bind, Option.bind_eq_some_iff] at h
  obtain ⟨⟨x, f⟩, hx, h⟩ := h
  simp only at h
  by_cases h3 : (select buf (s.ts + mem.off.getD off) (t + off)).length < 2
  · rw [if_pos h3] at h; exact triv h
  rw [if_neg h3] at h
  by_cases h4 : (zSystem s Z c x f (select buf (s.ts + mem.off.getD off) (t + off))).1 < 1
  · rw [if_pos h4] at h; exact triv h
  rw [if_neg h4] at h
  rw [Option.bind_eq_bind, Option.bind_eq_some_iff] at h
  obtain ⟨Pm, hPm, h⟩ := h
  rw [Option.bind_eq_bind, Option.bind_eq_some_iff] at h
  obtain ⟨st, hst, h⟩ := h
  by_cases h6 : 2 ≤ mem.count
  all_goals
    simp only [h6, if_true, if_false] at h
    split_ifs at h with h5
    · exact triv h
    · exact fin h

end Verif.Vio
