import Verif.Vio.FrameKeep

/-!
# A whole camera frame, and any sequence of readings and frames (C106)
-/

set_option autoImplicit false
set_option linter.unusedVariables false
open Classical

namespace Verif.Vio

open Verif Verif.Types Verif.St Verif.Imu Verif.Prop_ Verif.Feat Verif.Disp

variable {lib : Lib} {o : Opts} {s s' : State} {M M' : ℕ → Upd.LMeta} {F : FCfg} {I : Img}

namespace Spec

/-- between two images: a state of the program whose landmarks are well formed (known representation, a vector of the right size, anchored at an existing camera and clone) and belong to a camera, and whose clones are not newer than it. -/
structure FrameOK (lib : Lib) (o : Opts) (s : State) (M : ℕ → Upd.LMeta) : Prop where
  prog : St.Spec.ProgOK lib o s
  lms : Upd.Spec.LmsOK o s M
  ucam : ∀ e ∈ s.slam, (M e.2).ucam ≠ none
  times : ∀ c ∈ s.clones, c.1 ≤ s.ts

/-- the image comes with databases that database operations can produce, with observations of existing cameras, and names at least one camera. -/
structure ImgOK (o : Opts) (I : Img) : Prop where
  db : DbOK o I.db
  aruco : ∀ a, I.aruco = some a → DbOK o a
  cams : I.cams ≠ []

end Spec

/-! ## flags and removal of landmarks -/

theorem flags_run (fl : ℕ × ℕ → Bool) : ∀ (l : List (ℕ × ℕ)) (s : State), St.Spec.ProgOK lib o s →
    ∃ s1, run lib s (l.map fun e => Op.setMarg e.2 (fl e)) = some s1 ∧ St.Spec.ProgOK lib o s1 ∧ (∃ obj, s1 = { s with obj := obj }) ∧
      (∀ u, (s1.obj u).val = (s.obj u).val) ∧ ((l.Pairwise fun a b => a.2 ≠ b.2) → ∀ e ∈ l, (s1.obj e.2).marg = fl e) ∧
      ∀ u, (∀ e ∈ l, e.2 ≠ u) → s1.obj u = s.obj u
  | [], s, hs => ⟨s, rfl, hs, ⟨s.obj, rfl⟩, fun u => rfl, fun _ => by simp, fun _ _ => rfl⟩
  | e :: l, s, hs => by
    have h0 : St.step lib s (.setMarg e.2 (fl e)) = some { s with obj := fun w => if w = e.2 then { s.obj e.2 with marg := fl e } else s.obj w } := rfl
    have hs0 := progOK_step hs (op := .setMarg e.2 (fl e)) trivial trivial h0
    obtain ⟨s1, h1, h2, ⟨obj, h3⟩, h4, h5, h6⟩ := flags_run fl l _ hs0
    refine ⟨s1, ?_, h2, ⟨obj, by rw [h3]⟩, fun u => ?_, fun hp x hx => ?_, fun u hu => ?_⟩
    · simp only [List.map_cons, run, h0, Option.bind_eq_bind, Option.bind_some]
      exact h1
    · rw [h4 u]
      simp only
      split_ifs with hu
      · rw [hu]
      · rfl
    · obtain ⟨p1, p2⟩ := List.pairwise_cons.1 hp
      rcases List.mem_cons.1 hx with rfl | hx
      · rw [h6 _ fun y hy => (p1 y hy).symm]; simp
      · exact h5 p2 x hx
    · rw [h6 u fun y hy => hu y (by simp [hy])]
      simp only
      rw [if_neg fun h => hu e (by simp) h.symm]

theorem mapM_map {α β : Type} {f : α → Option β} {g : α → β} : ∀ {l : List α}, (∀ a ∈ l, f a = some (g a)) → l.mapM f = some (l.map g)
  | [], _ => rfl
  | a :: l, h => by
    rw [List.mapM_cons, h a (by simp), mapM_map (l := l) fun x hx => h x (by simp [hx])]
    rfl

/-- what the selection sees of one landmark. -/
noncomputable def lmSeen (s : State) (M : ℕ → Upd.LMeta) (e : ℕ × ℕ) : ℕ × Lm := (e.1, ⟨(M e.2).ucam.getD 0, (M e.2).fails, (s.obj e.2).marg⟩)

theorem lmView_eq (h : ∀ e ∈ s.slam, (M e.2).ucam ≠ none) : lmView s M = some (s.slam.map (lmSeen s M)) := by
  refine mapM_map fun e he => ?_
  obtain ⟨c, hc⟩ := Option.ne_none_iff_exists'.1 (h e he)
  simp [lmSeen, hc]

theorem flagOps_eq (l : List (ℕ × ℕ)) (g : ℕ × ℕ → ℕ × Lm) : flagOps l (l.map g) = l.map fun e => Op.setMarg e.2 (g e).2.marg := by
  unfold flagOps
  induction l with
  | nil => rfl
  | cons e l ih => simp only [List.map_cons, List.zip_cons_cons, ih]

/-- every variable is one the constructor made, a clone of the window, or a landmark. -/
def Spec.Owned (o : Opts) (s : State) : Prop := ∀ u ∈ s.vars, u ∈ ctorVars o ∨ u ∈ s.clones.map Prod.snd ∨ u ∈ s.slam.map Prod.snd

theorem Spec.Owned.same (h : Spec.Owned o s) (e1 : s'.vars = s.vars) (e2 : s'.clones = s.clones) (e3 : s'.slam = s.slam) : Spec.Owned o s' := by
  unfold Spec.Owned; rw [e1, e2, e3]; exact h

/-- flags and `marginalize_slam`: the landmarks left are those of the selection, nothing else changes. -/
theorem marg_step (hs : Spec.FrameOK lib o s M) (db : DB ℝ Uv) (cams : List ℕ) :
    ∃ s1 s2, run lib s (flagOps s.slam ((s.slam.map (lmSeen s M)).map (lmFlag db cams))) = some s1 ∧ margSlam s1 = some s2 ∧ Spec.FrameOK lib o s2 M ∧
      s2.clones = s.clones ∧ s2.ts = s.ts ∧ Keep s s2 ∧
      s2.slam = s.slam.filter (fun e => !((lmFlag db cams (lmSeen s M e)).2.marg && decide (4 * o.maxAruco < e.1))) ∧ (Spec.Owned o s → Spec.Owned o s2) := by
  have hW := prog_W hs.prog.prog
  rw [List.map_map, flagOps_eq]
  obtain ⟨s1, h1, h2, ⟨obj, h3⟩, h4, h5, -⟩ := flags_run (lib := lib) (o := o) (fun e => ((lmFlag db cams ∘ lmSeen s M) e).2.marg) s.slam s hs.prog
  have h5 := h5 hW.suid
  obtain ⟨s2, k1, k2, k3, -, k5, k6, k7, -⟩ := C12_marginalize_slam h2.prog
  have e1 : s1.slam = s.slam ∧ s1.clones = s.clones ∧ s1.ts = s.ts := by rw [h3]; exact ⟨rfl, rfl, rfl⟩
  have hp2 : St.Spec.ProgOK lib o s2 := progOK_step h2 (op := .margSlam) trivial trivial k1
  have hsl : ∀ e ∈ s2.slam, e ∈ s.slam := fun e he => by
    rw [k2, e1.1] at he; exact (List.mem_filter.1 he).1
  have hcl : s2.clones = s.clones := k6.trans e1.2.1
  have hts : s2.ts = s.ts := k7.trans e1.2.2
  refine ⟨s1, s2, h1, k1, ⟨hp2, ?_, fun e he => hs.ucam e (hsl e he), ?_⟩, hcl, hts, (keep_setMargs _ s.slam (fun e he => (hW.sin e he).1) h1).trans (keep_margSlam h2.prog k1), ?_, fun hown u hu => ?_⟩
  · refine lms_keep hs.lms hsl (fun c hc => by rw [hcl]; exact hc) (fun e he => ?_) fun e _ => ⟨rfl, rfl, rfl⟩
    rw [(k5 e.2).1, h4]; exact sameKind_refl _
  · rw [hcl, hts]; exact hs.times
  · rw [k2, e1.1]
    refine List.filter_congr fun e he => ?_
    have h6 := h5 e he
    simp only [Function.comp] at h6
    simp only [h6]
    by_cases ha : (lmFlag db cams (lmSeen s M e)).2.marg = true <;> by_cases hb : 4 * o.maxAruco < e.1 <;> simp [ha, hb]
  · rw [k3] at hu
    obtain ⟨hu1, hu2⟩ := List.mem_filter.1 hu
    have hv : s1.vars = s.vars := by rw [h3]
    rw [hv] at hu1
    rcases hown u hu1 with h | h | h
    · exact .inl h
    · exact .inr (.inl (by rw [hcl]; exact h))
    · refine .inr (.inr ?_)
      obtain ⟨e, he, rfl⟩ := List.mem_map.1 h
      rw [k2, e1.1]
      refine List.mem_map.2 ⟨e, List.mem_filter.2 ⟨he, ?_⟩, rfl⟩
      rw [decide_eq_true_eq] at hu2 ⊢
      exact fun hg => hu2 ⟨e, by rw [e1.1]; exact he, rfl, hg⟩

/-- **C106** (selection) The landmarks left after `marginalize_slam` on the state are exactly those the selection (C41) computes from flags and tracks; so the tracks used to update landmarks, and those used to initialise new
ones, are the selection's. -/
theorem C106_selection (hs : Spec.FrameOK lib o s M) (F : FCfg) (I : Img) (db : DB ℝ Uv) (mt : ℝ) :
    ∃ lms s1 s2, lmView s M = some lms ∧ run lib s (flagOps s.slam (lms.map (lmFlag db I.cams))) = some s1 ∧ margSlam s1 = some s2 ∧
      s2.slam.map Prod.fst = (frameRoles F I db s mt lms).lms.map Prod.fst ∧
      (frameRoles F I db s mt lms).slam.filter (isLm s2) = (frameRoles F I db s mt lms).update ∧
      ((frameRoles F I db s mt lms).slam.filter fun x => !isLm s2 x) = (frameRoles F I db s mt lms).delayed := by
  have hW := prog_W hs.prog.prog
  obtain ⟨s1, s2, h1, h2, -, -, -, -, h5, -⟩ := marg_step hs db I.cams
  have key : s2.slam.map Prod.fst = (frameRoles F I db s mt (s.slam.map (lmSeen s M))).lms.map Prod.fst := by
    rw [h5]
    simp only [frameRoles, roles, margSlamMap, List.map_map, List.filter_map]
    refine congrArg₂ _ (funext fun e => rfl) (List.filter_congr fun e he => ?_)
    simp only [Function.comp, tagId, FCfg.sel, lmFlag, lmSeen, hW.opts]
    congr 2
    rw [Bool.eq_iff_iff]
    simp only [decide_eq_true_eq, Bool.not_eq_true', decide_eq_false_iff_not]
    push_cast
    omega
  refine ⟨_, s1, s2, lmView_eq hs.ucam, h1, h2, key, ?_, ?_⟩
  · refine List.filter_congr fun x _ => ?_
    rw [isLm, key]
  · refine List.filter_congr fun x _ => ?_
    rw [isLm, key]

/-! ## the updates -/

/-- the landmarks of `s'` are landmarks of `s` with the same representation, or have one of the ids `ids` and a representation of the options. -/
def LmStep (C : Upd.SCfg) (ids : List ℕ) (s : State) (M : ℕ → Upd.LMeta) (s' : State) (M' : ℕ → Upd.LMeta) : Prop :=
  ∀ e ∈ s'.slam, (e ∈ s.slam ∧ (M' e.2).rep = (M e.2).rep) ∨ (e.1 ∈ ids ∧ ((M' e.2).rep = C.repS ∨ (M' e.2).rep = C.repA))

theorem LmStep.trans {C : Upd.SCfg} {ids : List ℕ} {s s' s'' : State} {M M' M'' : ℕ → Upd.LMeta} (h : LmStep C ids s M s' M') (h' : LmStep C ids s' M' s'' M'') : LmStep C ids s M s'' M'' := by
  intro e he
  rcases h' e he with ⟨h1, h2⟩ | h1
  · rw [h2]; exact h e h1
  · exact .inr h1

theorem LmStep.same {C : Upd.SCfg} {ids : List ℕ} {s s' : State} {M M' : ℕ → Upd.LMeta} (h : s'.slam = s.slam) (h' : ∀ e ∈ s.slam, (M' e.2).rep = (M e.2).rep) : LmStep C ids s M s' M' :=
  fun e he => by rw [h] at he; exact .inl ⟨he, h' e he⟩

theorem vars_update {order : List Ref} {H R : DMat} {r : DVec} (h : update lib s order H r R = some s') : s'.vars = s.vars := by
  obtain ⟨L, Ma, hL, _, _, _, hc, hM, rfl⟩ := update_some h
  rfl

theorem vars_msckf {C : Upd.MCfg} {tri : Upd.Track → Option Upd.Fix} {fs : List Upd.Track} {used : List ℕ} (h : Upd.msckfUpdate lib s C tri fs = some (s', used)) : s'.vars = s.vars := by
  simp only [Upd.msckfUpdate, Option.bind_eq_bind, Option.bind_eq_some_iff] at h
  obtain ⟨B, -, h⟩ := h
  split_ifs at h
  · simp only [Option.some.injEq, Prod.mk.injEq] at h; obtain ⟨rfl, -⟩ := h; rfl
  · simp only [Option.some.injEq, Prod.mk.injEq] at h; obtain ⟨rfl, -⟩ := h; rfl
  · simp only [Option.bind_eq_some_iff, Option.some.injEq, Prod.mk.injEq] at h
    obtain ⟨s1, h1, rfl, -⟩ := h
    exact vars_update h1

theorem vars_slam {C : Upd.SCfg} {fs : List Upd.Track} {R : Upd.SOut} (h : Upd.slamUpdate lib s M C fs = some R) : R.s.vars = s.vars := by
  simp only [Upd.slamUpdate, Option.bind_eq_bind, Option.bind_eq_some_iff] at h
  obtain ⟨cs, -, A, -, h⟩ := h
  split_ifs at h
  · obtain rfl := Option.some.inj h; rfl
  · simp only [Option.bind_eq_some_iff, Option.some.injEq] at h
    obtain ⟨s1, h1, rfl⟩ := h
    exact vars_update h1

theorem msckf_ok (hlib : St.Spec.LibOK lib) (hF : Spec.CfgOK o F) (hs : Spec.FrameOK lib o s M) {fs : List Upd.Track} (hfs : ∀ f ∈ fs, TrackOK o f) :
    ∃ s', msckfStep lib F I s fs = some s' ∧ Spec.FrameOK lib o s' M ∧ s'.clones = s.clones ∧ s'.ts = s.ts ∧ s'.slam = s.slam ∧ Keep s s' ∧ s'.vars = s.vars := by
  have hW := prog_W hs.prog.prog
  obtain ⟨ls, hls⟩ := locates_return hF I hW hfs
  obtain ⟨s', used, h⟩ := Upd.C95_returns hlib hs.prog hF.sigM hF.repM (triOf F.tri I s) fs (fun f hf => hfs f hf) fun f x hx => triOf_anchor hW _ _ hx
  obtain ⟨-, -, -, -, -, -, hp, hc, hl, -, ht⟩ := Upd.C95_msckf_update hlib hs.prog hF.sigM (triOf F.tri I s) fs (fun f hf => (hfs f hf).1) h
  have hk := msckf_kind (reach_inv hs.prog.prog.reach).nodup h
  refine ⟨s', ?_, ⟨hp, ?_, ?_, ?_⟩, hc, ht, hl, keep_msckf (reach_inv hs.prog.prog.reach).nodup h, vars_msckf h⟩
  · unfold msckfStep
    simp only [hls, h, Option.bind_eq_bind, Option.bind_some]
  · exact lms_keep hs.lms (fun e he => by rw [hl] at he; exact he) (fun c h => by rw [hc]; exact h) (fun e _ => hk e.2) fun e _ => ⟨rfl, rfl, rfl⟩
  · rw [hl]; exact hs.ucam
  · rw [hc, ht]; exact hs.times

theorem batches_ok (hlib : St.Spec.LibOK lib) {C : Upd.SCfg} (hS : 0 < C.sigS) (hA : 0 < C.sigA) : ∀ (bs : List (List Upd.Track)) (s : State) (M : ℕ → Upd.LMeta), Spec.FrameOK lib o s M →
    (∀ b ∈ bs, ∀ f ∈ b, TrackOK o f ∧ ∃ u, (f.id, u) ∈ s.slam) →
    ∃ s' M', slamBatches lib C bs (s, M) = some (s', M') ∧ Spec.FrameOK lib o s' M' ∧ s'.clones = s.clones ∧ s'.ts = s.ts ∧ s'.slam = s.slam ∧ Keep s s' ∧ (∀ u, (M' u).rep = (M u).rep) ∧ s'.vars = s.vars
  | [], s, M, hs, _ => ⟨s, M, rfl, hs, rfl, rfl, rfl, Keep.refl _, fun _ => rfl, rfl⟩
  | b :: bs, s, M, hs, hb => by
    obtain ⟨R, h⟩ := Upd.C96_returns hlib hs.prog hs.lms.sizes hs.lms.1 hS hA b (fun f hf => (hb b (by simp) f hf).2) (fun f hf => (hb b (by simp) f hf).1)
    obtain ⟨-, items, -, -, -, -, -, hM, -, hp, hc, hl, -, ht⟩ := Upd.C96_slam_update hlib hs.prog hs.lms.sizes hS hA b (fun f hf => (hb b (by simp) f hf).1.1) h
    have hk := slam_kind (reach_inv hs.prog.prog.reach).nodup h
    have h1 : Spec.FrameOK lib o R.s R.M := by
      refine ⟨hp, lms_keep hs.lms (fun e he => by rw [hl] at he; exact he) (fun c h => by rw [hc]; exact h) (fun e _ => hk e.2) fun e _ => ?_, ?_, ?_⟩
      · rw [hM]; exact ⟨rfl, rfl, rfl⟩
      · rw [hl]; intro e he; rw [hM]; exact hs.ucam e he
      · rw [hc, ht]; exact hs.times
    obtain ⟨s', M', k1, k2, k3, k4, k5, k6, k7, k8⟩ := batches_ok hlib hS hA bs R.s R.M h1 fun b' hb' f hf => by rw [hl]; exact hb b' (by simp [hb']) f hf
    exact ⟨s', M', by simp only [slamBatches, h, Option.bind_eq_bind, Option.bind_some, k1], k2, k3.trans hc, k4.trans ht, k5.trans hl, (keep_slam (reach_inv hs.prog.prog.reach).nodup h).trans k6, fun u => by rw [k7, hM], k8.trans (vars_slam h)⟩

theorem delayLoop_ok (hlib : St.Spec.LibOK lib) {C : Upd.SCfg} (hS : 0 < C.sigS) (hA : 0 < C.sigA) (hrS : C.repS ≠ .unknown) (hrA : C.repA ≠ .unknown) :
    ∀ (gs : List (Upd.Track × Upd.Fix)) (A R : Upd.DAcc), Spec.FrameOK lib o A.s A.M → (∀ g ∈ gs, Upd.Spec.Usable o A.s g) → Upd.delayLoop lib C gs A = some R →
      Spec.FrameOK lib o R.s R.M ∧ R.s.clones = A.s.clones ∧ R.s.ts = A.s.ts ∧ LmStep C (gs.map fun g => g.1.id) A.s A.M R.s R.M ∧
      ((gs.map fun g => g.1.id).Nodup → (∀ g ∈ gs, g.1.id ∉ A.s.slam.map Prod.fst) → Spec.Owned o A.s → Spec.Owned o R.s)
  | [], A, R, hs, _, h => by
    simp only [Upd.delayLoop, Option.some.injEq] at h
    subst h; exact ⟨hs, rfl, rfl, LmStep.same rfl fun _ _ => rfl, fun _ _ h => h⟩
  | g :: t, A, R, hs, hg, h => by
    simp only [Upd.delayLoop, Option.bind_eq_bind, Option.bind_eq_some_iff] at h
    obtain ⟨A', hA', h⟩ := h
    have hu := hg g (by simp)
    obtain ⟨ok, k1, -, k3, k4⟩ := Upd.delayStep_spec hlib hs.prog hS hA hu.cams hA'
    have hW := prog_W hs.prog.prog
    have hI := reach_inv hs.prog.prog.reach
    have hlt : ∀ e ∈ A.s.slam, e.2 < A.s.next := fun e he => hI.alloc _ (hW.sin e he).1
    have hrep : C.rep A.s g.1.id ≠ .unknown := by unfold Upd.SCfg.rep; split_ifs <;> assumption
    obtain ⟨i, v, f, uv, uvf, hgi, hi, -, -, -, -, hno, hyes⟩ := k1
    have hrep' : i.rep A.s C = C.rep A.s g.1.id := by unfold Upd.Spec.DItem.rep Upd.SCfg.rep; rw [hgi]
    have hstep : LmStep C ((g :: t).map fun g => g.1.id) A.s A.M A'.s A'.M := by
      intro e he
      cases ok with
      | false =>
        obtain ⟨e1, e2⟩ := hno rfl
        rw [e1] at he
        exact .inl ⟨he, by rw [e2]⟩
      | true =>
        obtain ⟨-, -, s1, s2, m⟩ := hyes rfl
        have hmem : e ∈ A.s.slam ∨ e = (g.1.id, A.s.next) := by
          by_cases hex : ∃ e ∈ A.s.slam, e.1 = g.1.id
          · rw [s2 hex] at he; exact .inl he
          · push Not at hex
            rw [s1 hex] at he
            rcases List.mem_append.1 he with h | h
            · exact .inl h
            · exact .inr (List.mem_singleton.1 h)
        rcases hmem with h | rfl
        · have := hlt e h
          refine .inl ⟨h, ?_⟩
          rw [m]; simp only; rw [if_neg (by omega)]
        · refine .inr ⟨by simp, ?_⟩
          rw [m]; simp only [if_true, hrep']
          unfold Upd.SCfg.rep; split_ifs <;> simp
    have hA1 : Spec.FrameOK lib o A'.s A'.M := by
      refine ⟨k3, ?_, ?_, by rw [k4.clones, k4.ts]; exact hs.times⟩
      all_goals
        cases ok with
        | false =>
          obtain ⟨e1, e2⟩ := hno rfl
          have hsl : A'.s.slam = A.s.slam := by rw [e1]; rfl
          first
          | exact lms_keep hs.lms (fun e he => by rw [hsl] at he; exact he) (fun c h => by rw [k4.clones]; exact h)
              (fun e he => k4.kind _ (hlt e (by rw [hsl] at he; exact he))) fun e _ => by rw [e2]; exact ⟨rfl, rfl, rfl⟩
          | (rw [hsl, e2]; exact hs.ucam)
        | true =>
          obtain ⟨-, -, s1, s2, m⟩ := hyes rfl
          have hmem : ∀ e ∈ A'.s.slam, e ∈ A.s.slam ∨ e = (g.1.id, A.s.next) := by
            intro e he
            by_cases hex : ∃ e ∈ A.s.slam, e.1 = g.1.id
            · rw [s2 hex] at he; exact .inl he
            · push Not at hex
              rw [s1 hex] at he
              rcases List.mem_append.1 he with h | h
              · exact .inl h
              · exact .inr (List.mem_singleton.1 h)
          have hold : ∀ e ∈ A.s.slam, A'.M e.2 = A.M e.2 := fun e he => by
            have := hlt e he
            rw [m]; simp only; rw [if_neg (by omega)]
          have hm : A'.M A.s.next = ⟨C.rep A.s g.1.id, if Land.isRelative (C.rep A.s g.1.id) then some g.2.cam else none, if Land.isRelative (C.rep A.s g.1.id) then g.2.t else -1, uv, uvf, 0, some g.2.cam⟩ := by
            rw [m]; simp only [if_true, hrep']
          first
          | (refine ⟨fun e he => ?_, fun e he => ?_⟩
             · rcases hmem e he with h | rfl
               · rw [hold e h, k4.clones]; exact hs.lms.1 e h
               · simp only
                 rw [hm]; exact ⟨hrep, fun hr => by simp only at hr; simp only [hr, if_true]; exact ⟨⟨_, rfl, hu.cam⟩, by rw [k4.clones]; exact hu.anc⟩⟩
             · rcases hmem e he with h | rfl
               · obtain ⟨w, hw⟩ := hs.lms.2 e h
                 have := k4.kind _ (hlt e h)
                 rw [hw] at this
                 rw [hold e h]
                 exact vec_of_kind this
               · simp only
                 rw [hm]; exact k4.vec)
          | (intro e he
             rcases hmem e he with h | rfl
             · rw [hold e h]; exact hs.ucam e h
             · simp only
               rw [hm]; simp)
    obtain ⟨r1, r2, r3, r4, r5⟩ := delayLoop_ok hlib hS hA hrS hrA t A' R hA1 (fun g' hg' => by
      obtain ⟨a, b, c, d, e, f⟩ := hg g' (by simp [hg'])
      exact ⟨a, b, by rw [k4.clones]; exact c, d, e, by rw [k4.clones]; exact f⟩) h
    refine ⟨r1, r2.trans k4.clones, r3.trans k4.ts, hstep.trans fun e he => ?_, fun hnd hdis hown => ?_⟩
    · rcases r4 e he with h | ⟨h, h'⟩
      · exact .inl h
      · exact .inr ⟨List.mem_cons_of_mem _ h, h'⟩
    · rw [List.map_cons, List.nodup_cons] at hnd
      have hslam : A'.s.slam = A.s.slam ∨ A'.s.slam = A.s.slam ++ [(g.1.id, A.s.next)] := by
        cases ok with
        | false => obtain ⟨e1, -⟩ := hno rfl; exact .inl (by rw [e1]; rfl)
        | true =>
          obtain ⟨-, -, s1, -, -⟩ := hyes rfl
          exact .inr (s1 fun e he h => hdis g (by simp) (h ▸ List.mem_map_of_mem he))
      refine r5 hnd.2 (fun g' hg' hin => ?_) ?_
      · rcases hslam with h | h
        · rw [h] at hin; exact hdis g' (by simp [hg']) hin
        · rw [h, List.map_append, List.mem_append] at hin
          rcases hin with hin | hin
          · exact hdis g' (by simp [hg']) hin
          · simp only [List.map_cons, List.map_nil, List.mem_singleton] at hin
            exact hnd.1 (hin ▸ List.mem_map_of_mem (f := fun g : Upd.Track × Upd.Fix => g.1.id) hg')
      · cases ok with
        | false =>
          obtain ⟨e1, -⟩ := hno rfl
          exact hown.same (by rw [e1]; rfl) (by rw [e1]; rfl) (by rw [e1]; rfl)
        | true =>
          obtain ⟨-, hv, s1, -, -⟩ := hyes rfl
          have hsl := s1 fun e he h => hdis g (by simp) (h ▸ List.mem_map_of_mem he)
          intro u hu
          rw [hv, List.mem_append] at hu
          rw [k4.clones, hsl, List.map_append, List.mem_append]
          rcases hu with hu | hu
          · rcases hown u hu with h | h | h
            · exact .inl h
            · exact .inr (.inl h)
            · exact .inr (.inr (.inl h))
          · rw [List.mem_singleton.1 hu]; exact .inr (.inr (.inr (by simp)))

theorem delay_ok (hlib : St.Spec.LibOK lib) (hF : Spec.CfgOK o F) (hs : Spec.FrameOK lib o s M) {fs : List Upd.Track} (hfs : ∀ f ∈ fs, TrackOK o f) :
    ∃ s' M', delayAll lib F I s M fs = some (s', M') ∧ Spec.FrameOK lib o s' M' ∧ s'.clones = s.clones ∧ s'.ts = s.ts ∧ Keep s s' ∧ LmStep F.slam (fs.map fun f => f.id) s M s' M' ∧
      ((fs.map fun f => f.id).Nodup → (∀ f ∈ fs, f.id ∉ s.slam.map Prod.fst) → Spec.Owned o s → Spec.Owned o s') := by
  have hW := prog_W hs.prog.prog
  obtain ⟨ls, hls⟩ := locates_return hF I hW hfs
  have htri : ∀ f x, triOf F.tri I s f = some x → x.cam < o.numCams ∧ ∃ u, (x.t, u) ∈ s.clones := fun f x hx => triOf_anchor hW _ _ hx
  obtain ⟨R, h⟩ := Upd.C98_returns (M := M) hlib hs.prog hF.sigS hF.sigA hF.repS hF.repA (triOf F.tri I s) fs (fun f hf => hfs f hf) htri
  have h' := h
  unfold Upd.delayedInit at h'
  rw [Upd.located_candidates] at h'
  obtain ⟨r1, r2, r3, r4, r5⟩ := delayLoop_ok hlib hF.sigS hF.sigA hF.repS hF.repA _ ⟨s, M, []⟩ R hs (Upd.candidates_usable (fun f hf => hfs f hf) htri) h'
  refine ⟨R.s, R.M, ?_, r1, r2, r3, (keep_delayLoop _ (A := ⟨s, M, []⟩) (reach_inv hs.prog.prog.reach) h').1, fun e he => ?_, fun hnd hdis => r5 ?_ fun g hg => ?_⟩
  rotate_left
  · rcases r4 e he with h | ⟨h, h'⟩
    · exact .inl h
    · refine .inr ⟨?_, h'⟩
      obtain ⟨g, hg, hge⟩ := List.mem_map.1 h
      simp only [Upd.Spec.candidates, List.mem_filterMap] at hg
      obtain ⟨f, hf, hg⟩ := hg
      split_ifs at hg
      rw [Option.map_eq_some_iff] at hg
      obtain ⟨x, -, rfl⟩ := hg
      exact List.mem_map.2 ⟨f, hf, hge⟩
  · refine hnd.sublist ?_
    unfold Upd.Spec.candidates
    clear * -
    induction fs with
    | nil => exact List.Sublist.refl _
    | cons f fs ih =>
      rw [List.filterMap_cons]
      split
      · exact ih.cons _
      · rename_i g hg
        have : g.1.id = f.id := by
          split_ifs at hg
          rw [Option.map_eq_some_iff] at hg
          obtain ⟨x, -, rfl⟩ := hg
          rfl
        rw [List.map_cons, List.map_cons, this]
        exact ih.cons_cons _
  · simp only [Upd.Spec.candidates, List.mem_filterMap] at hg
    obtain ⟨f, hf, hg⟩ := hg
    split_ifs at hg
    rw [Option.map_eq_some_iff] at hg
    obtain ⟨x, -, rfl⟩ := hg
    exact hdis f hf
  unfold delayAll
  simp only [hls, h, Option.bind_eq_bind, Option.bind_some]

/-! ## anchors and the oldest clone -/

theorem margOld_keep (hs : St.Spec.Prog lib o s) (h : margOld s = some s') : s'.slam = s.slam ∧ s'.ts = s.ts ∧ ∀ u, (s'.obj u).val = (s.obj u).val := by
  have hI := reach_inv hs.reach
  have hW := prog_W hs
  unfold margOld at h
  split_ifs at h
  · rw [Option.bind_eq_bind, Option.bind_eq_some_iff] at h
    obtain ⟨t, -, h⟩ := h
    obtain ⟨c, s1, hc, h1, rfl⟩ := dropClone_some h
    have hcm := List.mem_of_find?_eq_some hc
    obtain ⟨k, -, -, s2, h2, -, -, -, -, -, e6, -, e8, -, e10⟩ := marginalize_eq hI (hW.cin c hcm).1
    rw [h1] at h2
    obtain rfl := Option.some.inj h2
    refine ⟨e8, e6, fun u => ?_⟩
    simp only
    rw [e10]
    split_ifs with h1 h2
    · rw [h1]
    · rfl
    · rfl
  · obtain rfl := Option.some.inj h
    exact ⟨rfl, rfl, fun u => rfl⟩

theorem anchored_of_rel {r : Land.Rep} (h : Land.isRelative r = true) : Land.Spec.Anchored r := by cases r <;> simp_all [Land.isRelative, Land.Spec.Anchored]

/-- anchor changes and the removal of the oldest clone. -/
theorem tail_ok (hlib : St.Spec.LibOK lib) (C : Upd.SCfg) (h1 : 1 ≤ o.maxClones) (hs : Spec.FrameOK lib o s M) (hts : ∃ w, (s.ts, w) ∈ s.clones) (hlen : s.clones.length ≤ o.maxClones + 1) :
    ∃ s6 M6 s7, Upd.anchorsState lib C s M = some (s6, M6) ∧ margOld s6 = some s7 ∧ Spec.FrameOK lib o s7 M6 ∧ s7.ts = s.ts ∧ s7.clones.length ≤ o.maxClones ∧ (∃ w, (s7.ts, w) ∈ s7.clones) ∧ Keep s s7 ∧
      s7.slam = s.slam ∧ (∀ e ∈ s.slam, (M6 e.2).rep = (M e.2).rep) ∧ (∀ c ∈ s7.clones, c ∈ s.clones) ∧ (s7.clones.length = min o.maxClones s.clones.length ∧ s7.clones = s.clones.drop (s.clones.length - o.maxClones)) ∧
      (Spec.Owned o s → Spec.Owned o s7) := by
  have hW := prog_W hs.prog.prog
  by_cases hbig : o.maxClones < s.clones.length
  · obtain ⟨s6, M6, mt, a1, a2, ⟨P, obj, a3⟩, a4, a5, a6, a7, -, a9⟩ := Upd.C105_change_anchors (C := C) hlib hs.prog hs.lms h1 hts hs.times hbig
    obtain ⟨s7, b1, -, b3⟩ := C11_oldest_removed a2.prog
    have e6 : s6.clones = s.clones ∧ s6.ts = s.ts ∧ s6.slam = s.slam := by rw [a3]; exact ⟨rfl, rfl, rfl⟩
    obtain ⟨c, hc, hmin, hcl, hvr, -⟩ := b3 (by rw [e6.1]; exact hbig)
    obtain ⟨k1, k2, k3⟩ := margOld_keep a2.prog b1
    have hp7 : St.Spec.ProgOK lib o s7 := progOK_step a2 (op := .margOld) trivial trivial b1
    rw [e6.1] at hc hmin hcl
    have hmt : c.1 = mt := by
      obtain ⟨w, hw⟩ := a5
      exact le_antisymm (hmin _ hw) (a6 c hc)
    have hstay : ∀ d ∈ s.clones, d.1 ≠ mt → d ∈ s7.clones := by
      intro d hd hne
      rw [hcl]
      exact (List.mem_erase_of_ne fun h => hne (by rw [h]; exact hmt)).2 hd
    have hsl : s7.slam = s.slam := k1.trans e6.2.2
    refine ⟨s6, M6, s7, a1, b1, ⟨hp7, ⟨fun e he => ?_, fun e he => ?_⟩, ?_, ?_⟩, k2.trans e6.2.1, ?_, ?_, ?_, hsl, fun e he => ?_, fun c hc => ?_, ?_, fun hown u hu => ?_⟩
    · rw [hsl] at he
      obtain ⟨p1, p2⟩ := a4.1 e (by rw [e6.2.2]; exact he)
      refine ⟨p1, fun hr => ?_⟩
      obtain ⟨p3, u, p4⟩ := p2 hr
      rw [e6.1] at p4
      refine ⟨p3, u, hstay _ p4 ?_⟩
      obtain ⟨q1, q2, q3⟩ := a9 e he
      by_cases hm : Land.Spec.Anchored (M e.2).rep ∧ (M e.2).t = mt
      · simp only [q2 hm]; exact a7.ne'
      · rw [(q3 hm).1] at hr ⊢
        intro h
        exact hm ⟨anchored_of_rel hr, h⟩
    · rw [hsl] at he
      rw [k3]
      exact a4.2 e (by rw [e6.2.2]; exact he)
    · intro e he
      rw [hsl] at he
      rw [(a9 e he).1.2.2.2]
      exact hs.ucam e he
    · rw [hcl, k2, e6.2.1]
      exact fun d hd => hs.times d (List.mem_of_mem_erase hd)
    · rw [hcl, List.length_erase_of_mem hc]; omega
    · obtain ⟨w, hw⟩ := hts
      refine ⟨w, ?_⟩
      rw [k2, e6.2.1]
      exact hstay _ hw a7.ne'
    · refine Keep.trans ?_ (keep_margOld a2.prog b1)
      have a1' := a1
      unfold Upd.anchorsState at a1'
      rw [hW.opts, if_neg (not_le.2 hbig), Option.bind_eq_bind, Option.bind_eq_some_iff] at a1'
      obtain ⟨mt', -, h⟩ := a1'
      exact keep_anchorLoop _ (A := (s, M)) (fun e he => (hW.sin e he).1) h
    · exact (a9 e he).1.1
    · rw [hcl] at hc; exact List.mem_of_mem_erase hc
    · refine ⟨by rw [hcl, List.length_erase_of_mem hc]; omega, ?_⟩
      have e1 : s.clones.length - o.maxClones = 1 := by omega
      rw [hcl, e1]
      cases hl : s.clones with
      | nil => rfl
      | cons d l =>
        have hd : c = d := by
          rw [hl] at hc
          rcases List.mem_cons.1 hc with h | h
          · exact h
          · have h1 := hW.sorted
            rw [hl] at h1
            exact absurd ((List.pairwise_cons.1 h1).1 c h) (not_lt.2 (hmin d (by rw [hl]; simp)))
        rw [hd, List.erase_cons_head]; rfl
    · have e7 : s6.vars = s.vars := by rw [a3]
      rw [hvr, e7] at hu
      have hnd : s.vars.Nodup := (reach_inv hs.prog.prog.reach).nodup
      obtain ⟨hne, hu⟩ := (hnd.mem_erase_iff).1 hu
      rw [hsl, hcl]
      rcases hown u hu with h | h | h
      · exact .inl h
      · obtain ⟨d, hd, rfl⟩ := List.mem_map.1 h
        exact .inr (.inl (List.mem_map_of_mem ((List.mem_erase_of_ne fun h => hne (by rw [h])).2 hd)))
      · exact .inr (.inr h)
  · obtain ⟨s7, b1, b2, -⟩ := C11_oldest_removed hs.prog.prog
    obtain rfl := b2 (not_lt.1 hbig)
    refine ⟨s7, M, s7, ?_, b1, hs, rfl, not_lt.1 hbig, hts, Keep.refl _, rfl, fun _ _ => rfl, fun _ h => h, ⟨by omega, by rw [Nat.sub_eq_zero_of_le (not_lt.1 hbig)]; rfl⟩, id⟩
    unfold Upd.anchorsState
    rw [hW.opts, if_pos (not_lt.1 hbig)]

/-! ## the whole update -/

theorem updateAll_ok (hlib : St.Spec.LibOK lib) (hF : Spec.CfgOK o F) (hI : Spec.ImgOK o I) (hs : Spec.FrameOK lib o s M) (hts : ∃ w, (s.ts, w) ∈ s.clones) (hlen : s.clones.length ≤ o.maxClones + 1) :
    ∃ p s' M', plan lib F I I.db s M = some p ∧ updateAll lib F I p M = some (s', M') ∧ Spec.FrameOK lib o s' M' ∧ s'.ts = s.ts ∧ s'.clones.length ≤ o.maxClones ∧ (∃ w, (s'.ts, w) ∈ s'.clones) ∧ Keep s s' ∧
      LmStep F.slam (p.del.map fun x => x.f.featid) s M s' M' ∧ (∀ c ∈ s'.clones, c ∈ s.clones) ∧ (s'.clones.length = min o.maxClones s.clones.length ∧ s'.clones = s.clones.drop (s.clones.length - o.maxClones)) ∧
      p.s.clones = s.clones ∧ p.s.slam.Sublist s.slam ∧ ((p.del.map fun x => x.f.featid).Nodup → Spec.Owned o s → Spec.Owned o s') := by
  have hW := prog_W hs.prog.prog
  obtain ⟨mt, hmt⟩ : ∃ mt, margtimestep s = some mt := by
    obtain ⟨w, hw⟩ := hts
    cases hc : s.clones with
    | nil => rw [hc] at hw; cases hw
    | cons c t => exact ⟨_, margtimestep_sorted hc hW.sorted⟩
  obtain ⟨s1, s2, a1, a2, a3, a4, a5, ka, a6, a7⟩ := marg_step hs I.db I.cams
  set r := frameRoles F I I.db s mt (s.slam.map (lmSeen s M)) with hr
  have hmem := roles_mem (c := F.sel s.opts) (db := I.db) (ar := I.aruco) (ts := s.ts) (mt := mt) (nc := s.clones.length) (dl := decide (F.dtSlam ≤ I.t - F.startup)) (cams := I.cams)
    (lms := s.slam.map (lmSeen s M))
  have hcand : ∀ f ∈ r.candidates, TrackOK o (toTrack f) := fun f hf => hI.db.track (hmem.1 f hf)
  have hslam : ∀ x ∈ r.slam, TrackOK o (toTrack x.f) := fun x hx => by
    rcases hmem.2 x hx with h | ⟨a, k, h, hk⟩
    · exact hI.db.track h
    · exact (hI.aruco a h).track ⟨k, hk⟩
  obtain ⟨up, hup, hups⟩ : ∃ up, cutMsckf (F.sel s.opts) (F.sort r.candidates) = some up ∧ ∀ f ∈ up, f ∈ r.candidates := by
    have hp := hF.sort r.candidates
    unfold cutMsckf
    split_ifs with h1 h2
    · exact absurd hF.cut (not_le.2 h2)
    · exact ⟨_, rfl, fun f hf => hp.subset (List.mem_of_mem_drop hf)⟩
    · exact ⟨_, rfl, fun f hf => hp.subset hf⟩
  obtain ⟨s3, b1, b2, b3, b4, b5, kb, b6⟩ := msckf_ok (I := I) hlib hF a3 (fs := up.map toTrack) fun f hf => by
    obtain ⟨g, hg, rfl⟩ := List.mem_map.1 hf
    exact hcand g (hups g hg)
  obtain ⟨bs, c1, c2, -⟩ := C42_batches_partial F.maxUp hF.batch (r.slam.filter (isLm s2)).length (r.slam.filter (isLm s2)) le_rfl
  obtain ⟨s4, M4, d1, d2, d3, d4, d5, kd, d6, d7⟩ := batches_ok hlib hF.sigS hF.sigA (bs.map fun b => b.map fun x => toTrack x.f) s3 M b2 (by
    intro b hb f hf
    obtain ⟨b0, hb0, rfl⟩ := List.mem_map.1 hb
    obtain ⟨x, hx, rfl⟩ := List.mem_map.1 hf
    have hx' : x ∈ r.slam.filter (isLm s2) := by
      rw [← c2]; exact List.mem_flatten.2 ⟨b0, hb0, hx⟩
    obtain ⟨h1, h2⟩ := List.mem_filter.1 hx'
    refine ⟨hslam x h1, ?_⟩
    simp only [isLm, List.contains_iff_mem, List.mem_map] at h2
    obtain ⟨e, he, h⟩ := h2
    exact ⟨e.2, by rw [b5]; show (x.f.featid, e.2) ∈ _; rw [← h]; exact he⟩)
  obtain ⟨s5, M5, e1, e2, e3, e4, ke, e5, e6⟩ := delay_ok (I := I) hlib hF d2 (fs := (r.slam.filter fun x => !isLm s2 x).map fun x => toTrack x.f) fun f hf => by
    obtain ⟨x, hx, rfl⟩ := List.mem_map.1 hf
    exact hslam x (List.mem_filter.1 hx).1
  have hcl : s5.clones = s.clones := by rw [e3, d3, b3, a4]
  have ht5 : s5.ts = s.ts := by rw [e4, d4, b4, a5]
  obtain ⟨s6, M6, s7, f1, f2, f3, f4, f5, f6, kf, f7, f8, f9, f10, f11⟩ := tail_ok hlib F.slam hF.clones e2 (by rw [hcl, ht5]; exact hts) (by rw [hcl]; exact hlen)
  refine ⟨⟨mt, s2, up, r.slam.filter (isLm s2), r.slam.filter fun x => !isLm s2 x⟩, s7, M6, ?_, ?_, f3, f4.trans ht5, f5, f6, (((ka.trans kb).trans kd).trans ke).trans kf, ?_, fun c hc => by rw [← hcl]; exact f9 c hc, by rw [hcl] at f10; exact f10, a4, by rw [a6]; exact List.filter_sublist, fun hnd hown => f11 (e6 ?_ (fun f hf hin => ?_) (((a7 hown).same b6 b3 b5).same d7 d3 d5))⟩
  · unfold plan
    simp only [hmt, lmView_eq hs.ucam, Option.bind_eq_bind, Option.bind_some, a1, a2, ← hr, hup]
  · unfold updateAll
    simp only [Option.bind_eq_bind, Option.bind_some, b1, c1, d1, e1, if_neg hI.cams, f1, f2]
  · have h1 : LmStep F.slam ((r.slam.filter fun x => !isLm s2 x).map fun x => x.f.featid) s M s4 M4 := fun e he => by
      rw [d5, b5, a6] at he
      exact .inl ⟨(List.mem_filter.1 he).1, d6 _⟩
    refine (h1.trans ?_).trans (LmStep.same f7 f8)
    rw [List.map_map] at e5
    exact e5
  · rw [List.map_map]; exact hnd
  · obtain ⟨x, hx, rfl⟩ := List.mem_map.1 hf
    have h2 := (List.mem_filter.1 hx).2
    rw [d5, b5] at hin
    simp only [isLm, Bool.not_eq_true', ← Bool.not_eq_true, List.contains_iff_mem] at h2
    exact h2 hin

/-- database operations return on databases that operations produced. -/
theorem dbRun_hist : ∀ (ops : List (Feat.Op ℝ Uv)) (db : DB ℝ Uv), (∃ h : Hist ℝ Uv, h.run = some db) → ∃ db', dbRun db ops = some db' ∧ ∃ h : Hist ℝ Uv, h.run = some db'
  | [], db, h => ⟨db, rfl, h⟩
  | q :: ops, db, ⟨h, hh⟩ => by
    obtain ⟨db1, e, -⟩ := refines_hist (Hist.step h q)
    have e' : Feat.Op.run db q = some db1 := by simpa [Hist.run, hh] using e
    obtain ⟨db', k1, k2⟩ := dbRun_hist ops db1 ⟨_, e⟩
    exact ⟨db', by simp only [dbRun, e', Option.bind_some, k1], k2⟩

theorem prop_slam {po : POpts} {N : Noise} {buf : List Reading} {lo : Option ℝ} {t off : ℝ} (hs : St.Spec.Prog lib o s)
    (h : propagateAndClone po N buf lo s t = some (s', off)) : s'.slam = s.slam := by
  unfold propagateAndClone at h
  split_ifs at h with h0
  rw [Option.bind_eq_bind, Option.bind_eq_some_iff] at h
  obtain ⟨c, hc, h⟩ := h
  rw [Option.bind_eq_bind, Option.bind_eq_some_iff] at h
  obtain ⟨off', hoff, h⟩ := h
  rw [Option.bind_eq_bind, Option.bind_eq_some_iff] at h
  obtain ⟨⟨x, f⟩, hx, h⟩ := h
  simp only at h
  split_ifs at h with h1
  rw [Option.bind_eq_bind, Option.bind_eq_some_iff] at h
  obtain ⟨s2, h2, h⟩ := h
  rw [Option.bind_eq_some_iff] at h
  obtain ⟨s3, h3, h⟩ := h
  simp only [Option.pure_def, Option.some.injEq, Prod.mk.injEq] at h
  obtain ⟨rfl, rfl⟩ := h
  generalize (propLoop s.opts po N c (select buf (s.ts + lo.getD off') (t + off')) x f []) = R at *
  obtain ⟨x0, f0, hx0, hf0⟩ := prog_imu hs
  have p1 := hs.step (op := .setVal imuUid (.imu R.1)) trivial (s' := { s with obj := fun w => if w = imuUid then { s.obj imuUid with val := .imu R.1 } else s.obj w }) (by simp [St.step, hx0, sameKind])
  have p2 : St.Spec.Prog lib o (setImu s R.1 R.2.1) := p1.step (op := .setFej imuUid (.imu R.2.1)) trivial (by
    simp only [St.step, if_pos, hf0, sameKind, setImu]
    simp only [if_true, Option.some.injEq, State.mk.injEq, true_and, and_true]
    funext w
    by_cases e : w = imuUid <;> simp [e])
  have hp := h2
  unfold propagateSummed at hp
  have p3 := p2.step (op := .propagate _ _ _ _) trivial hp
  obtain ⟨_, _, _, _, _, _, _, _, _, _, _, _, _, _, _, e⟩ := propagate_some hp
  have p4 : St.Spec.Prog lib o { s2 with ts := t } := p3.step (op := .setTime t) trivial rfl
  obtain ⟨a0, a1, a2, a3, a4, _⟩ := augment_maps (reach_inv p4.reach) h3
  rw [a2, e]; rfl

/-! ## frames -/

namespace Spec

/-- between two events: the invariant of `FrameOK`, and no more clones than allowed. -/
structure MgrOK (lib : Lib) (o : Opts) (x : FMgr) : Prop where
  frame : FrameOK lib o x.m.st x.M
  window : x.m.st.clones.length ≤ o.maxClones

/-- the inertial readings cover the time up to the image: sorted, one at or before the state's time and one at or after the image's (both on the inertial clock), and fewer than ten million in between. -/
def Covered (m : Mgr) (t : ℝ) : Prop :=
  ∃ off, tOff m.st = some off ∧ Imu.Spec.Sorted m.buf ∧ m.st.ts + m.off.getD off < t + off ∧ (∃ a ∈ m.buf, a.t ≤ m.st.ts + m.off.getD off) ∧ (∃ b ∈ m.buf, t + off ≤ b.t) ∧
    (Imu.Spec.inside (m.st.ts + m.off.getD off) (t + off) m.buf).length < 10 ^ 7

/-- if zero velocity updates are in use, their readings over that time are in order. -/
def ZCovered (F : FCfg) (m : Mgr) (t : ℝ) : Prop :=
  zuptOn F.mgr m ≠ none → ∀ off, tOff m.st = some off → Imu.Spec.Spaced (select m.zbuf (m.st.ts + m.zmem.off.getD off) (t + off))

/-- the last image was processed: the state has a clone at its time, or the image was accepted as zero velocity. -/
def Done (F : FCfg) (m : Mgr) : Prop := (∃ w, (m.st.ts, w) ∈ m.st.clones) ∨ (m.did = true ∧ zuptOn F.mgr m ≠ none)

/-- an image that is newer than the state and covered by the readings, or a further one at the time of an image already processed. -/
def Timely (F : FCfg) (m : Mgr) (t : ℝ) : Prop := (m.st.ts < t ∧ Covered m t ∧ ZCovered F m t) ∨ (m.st.ts = t ∧ Done F m)

end Spec

/-- the manager `m1` is the one of `x` propagated to time `t`, with a clone at that time. -/
structure Propd (lib : Lib) (o : Opts) (x : FMgr) (t : ℝ) (m1 : Mgr) : Prop where
  frame : Spec.FrameOK lib o m1.st x.M
  ts : m1.st.ts = t
  at' : ∃ w, (m1.st.ts, w) ∈ m1.st.clones
  len : m1.st.clones.length ≤ o.maxClones + 1
  rest : m1 = { x.m with st := m1.st, off := m1.off }
  keep : Keep x.m.st m1.st
  off : m1.off = x.m.off ∨ m1.off = tOff x.m.st
  slam : m1.st.slam = x.m.st.slam
  clones : ∀ c ∈ m1.st.clones, c.1 = t ∨ c ∈ x.m.st.clones
  old : ∀ c ∈ x.m.st.clones, c ∈ m1.st.clones
  more : x.m.st.clones.length ≤ m1.st.clones.length
  lmobj : ∀ e ∈ x.m.st.slam, m1.st.obj e.2 = x.m.st.obj e.2
  grow : x.m.st.ts < t → m1.st.clones.length = x.m.st.clones.length + 1 ∧ m1.st.vars = x.m.st.vars ++ [x.m.st.next] ∧ m1.st.clones = insertClone t x.m.st.next x.m.st.clones
  same : ¬ x.m.st.ts < t → m1.st = x.m.st

theorem propTo_ok (hlib : St.Spec.LibOK lib) (F : FCfg) {x : FMgr} {t : ℝ} (hx : Spec.MgrOK lib o x)
    (ht : (x.m.st.ts < t ∧ Spec.Covered x.m t) ∨ (x.m.st.ts = t ∧ ∃ w, (x.m.st.ts, w) ∈ x.m.st.clones)) : ∃ m1, propTo F.mgr x.m t = some m1 ∧ Propd lib o x t m1 := by
  rcases ht with ⟨h, off, c1, c2, c3, c4, c5, c6⟩ | ⟨h, hw⟩
  · obtain ⟨s', p1, p2, p3, -, p5, p6, p7, -⟩ := C78_propagate_and_clone hlib hx.frame.prog F.mgr.po F.mgr.N x.m.buf c2 x.m.off c1 h c3 c4 c5 c6 fun c hc => ((hx.frame.times c hc).trans_lt h).ne
    have hW := prog_W hx.frame.prog.prog
    have hIv := reach_inv hx.frame.prog.prog.reach
    have hsl := prop_slam hx.frame.prog.prog p1
    have hmem : ∀ c, c ∈ s'.clones ↔ c = (t, x.m.st.next) ∨ c ∈ x.m.st.clones := fun c => by rw [p5]; exact mem_insertClone _ _ _ (fun c hc => ((hx.frame.times c hc).trans_lt h).ne) c
    have hlen : s'.clones.length = x.m.st.clones.length + 1 := by rw [p5, insertClone_length _ _ _ fun c hc => ((hx.frame.times c hc).trans_lt h).ne]
    have hlo : ∀ e ∈ x.m.st.slam, s'.obj e.2 = x.m.st.obj e.2 := fun e he => p7 e.2 (fun h0 => by
      have := (hW.sin e he).2
      rw [h0, hW.low _ (by simp [imuUid, base])] at this
      cases this) (hIv.alloc _ (hW.sin e he).1)
    refine ⟨{ x.m with st := s', off := some off }, ?_, ⟨p2, ?_, ?_, ?_⟩, p3, ⟨x.m.st.next, ?_⟩, ?_, rfl, keep_prop hx.frame.prog.prog p1, .inr c1.symm, hsl, fun c hc => ?_, fun c hc => (hmem c).2 (.inr hc), by simp only; omega, hlo, fun _ => ⟨hlen, p6, p5⟩, fun h' => absurd h h'⟩
    · unfold propTo; rw [if_pos h.ne, p1]; rfl
    · refine lms_keep hx.frame.lms (fun e he => by simp only at he; rw [hsl] at he; exact he) (fun c hc => (hmem c).2 (.inr hc)) (fun e he => ?_) fun e _ => ⟨rfl, rfl, rfl⟩
      simp only at he ⊢
      rw [hsl] at he
      rw [hlo e he]
      exact sameKind_refl _
    · simp only; rw [hsl]; exact hx.frame.ucam
    · intro c hc
      simp only at hc ⊢
      rw [p3]
      rcases (hmem c).1 hc with rfl | h'
      · exact le_refl _
      · exact (hx.frame.times c h').trans h.le
    · simp only; rw [p3]; exact (hmem _).2 (.inl rfl)
    · have := hx.window
      simp only; omega
    · rcases (hmem c).1 hc with rfl | h'
      · exact .inl rfl
      · exact .inr h'
  · exact ⟨x.m, by unfold propTo; rw [if_neg (not_not.2 h)], hx.frame, h, hw, by have := hx.window; omega, rfl, Keep.refl _, .inl rfl, rfl, fun c hc => .inr hc, fun c hc => hc, le_rfl, fun _ _ => rfl, fun h' => absurd h h'.ne, fun _ => rfl⟩

/-- what `do_feature_propagate_update` does: propagation, and if the window is long enough the updates planned, after which the databases are cleaned. -/
theorem frameUpdate_spec (hlib : St.Spec.LibOK lib) (hF : Spec.CfgOK o F) (hI : Spec.ImgOK o I) {x : FMgr} (hx : Spec.MgrOK lib o x) (hdb : x.m.db = I.db)
    (ht : (x.m.st.ts < I.t ∧ Spec.Covered x.m I.t) ∨ (x.m.st.ts = I.t ∧ ∃ w, (x.m.st.ts, w) ∈ x.m.st.clones)) :
    ∃ m1, Propd lib o x I.t m1 ∧
      ((m1.st.clones.length < min o.maxClones 5 ∧ frameUpdate lib F x I = some { x with m := m1 }) ∨
       (min o.maxClones 5 ≤ m1.st.clones.length ∧ ∃ p s' M' db' ar', frameUpdate lib F x I = some ⟨{ m1 with st := s', moved := true, db := db' }, M', ar', x.log ++ usedBy m1.st x.M p⟩ ∧
        plan lib F I I.db m1.st x.M = some p ∧ updateAll lib F I p x.M = some (s', M') ∧ Spec.FrameOK lib o s' M' ∧ s'.ts = I.t ∧ (∃ w, (s'.ts, w) ∈ s'.clones) ∧ Keep m1.st s' ∧
        LmStep F.slam (p.del.map fun x => x.f.featid) m1.st x.M s' M' ∧ (∀ c ∈ s'.clones, c ∈ m1.st.clones) ∧ (s'.clones.length = min o.maxClones m1.st.clones.length ∧ s'.clones = m1.st.clones.drop (m1.st.clones.length - o.maxClones)) ∧
        p.s.clones = m1.st.clones ∧ p.s.slam.Sublist m1.st.slam ∧
        dbRun I.db (endOps m1.st x.M p false) = some db' ∧ (I.aruco = none → ar' = none) ∧ (∀ a, I.aruco = some a → ∃ a', ar' = some a' ∧ dbRun a (endOps m1.st x.M p true) = some a') ∧
        ((p.del.map fun x => x.f.featid).Nodup → Spec.Owned o m1.st → Spec.Owned o s'))) := by
  have hle : x.m.st.ts ≤ I.t := by rcases ht with h | h; exacts [h.1.le, h.1.le]
  obtain ⟨m1, h1, hp⟩ := propTo_ok hlib F hx ht
  have hop : m1.st.opts = o := prog_opts hp.frame.prog.prog
  have hm : m1.db = I.db := by rw [hp.rest]; exact hdb
  refine ⟨m1, hp, ?_⟩
  unfold frameUpdate
  rw [if_neg (not_lt.2 hle), h1]
  simp only [Option.bind_eq_bind, Option.bind_some, hop]
  by_cases q1 : m1.st.clones.length < min o.maxClones 5
  · rw [if_pos q1]; exact .inl ⟨q1, rfl⟩
  · right
    rw [if_neg q1, if_neg (not_not.2 hp.ts)]
    obtain ⟨p, s', M', k0, k1, k2, k3, k4, k5, k6, k7, k8, k9, k10, k11, k12⟩ := updateAll_ok hlib hF hI hp.frame hp.at' hp.len
    obtain ⟨db', hdb', -⟩ := dbRun_hist (endOps m1.st x.M p false) I.db hI.db.1
    refine ⟨not_lt.1 q1, p, s', M', db', ?_⟩
    rw [hm, k0]
    simp only [Option.bind_some, k1, hdb']
    cases ha : I.aruco with
    | none => exact ⟨none, rfl, trivial, trivial, k2, k3.trans hp.ts, k5, k6, k7, k8, k9, k10, k11, trivial, fun _ => rfl, by simp, k12⟩
    | some a =>
      obtain ⟨ar', har', -⟩ := dbRun_hist (endOps m1.st x.M p true) a (hI.aruco a ha).1
      simp only [har', Option.map_some, Option.bind_some]
      exact ⟨some ar', rfl, trivial, trivial, k2, k3.trans hp.ts, k5, k6, k7, k8, k9, k10, k11, trivial, by simp, by simp [har'], k12⟩

/-- **C106** (one update) -/
theorem frameUpdate_ok (hlib : St.Spec.LibOK lib) (hF : Spec.CfgOK o F) (hI : Spec.ImgOK o I) {x : FMgr} (hx : Spec.MgrOK lib o x) (hdb : x.m.db = I.db)
    (ht : (x.m.st.ts < I.t ∧ Spec.Covered x.m I.t) ∨ (x.m.st.ts = I.t ∧ ∃ w, (x.m.st.ts, w) ∈ x.m.st.clones)) :
    ∃ y, frameUpdate lib F x I = some y ∧ Spec.MgrOK lib o y ∧ y.m.st.ts = I.t ∧ (∃ w, (y.m.st.ts, w) ∈ y.m.st.clones) ∧ y.m.buf = x.m.buf ∧ y.m.zbuf = x.m.zbuf ∧ Keep x.m.st y.m.st ∧
      (y.m.off = x.m.off ∨ y.m.off = tOff x.m.st) ∧ y.m.zmem = x.m.zmem ∧ (y.m.moved = false → x.m.moved = false) := by
  obtain ⟨m1, hp, ⟨q, h⟩ | ⟨q, p, s', M', db', ar', h, k0, k1, k2, k3, k4, k5, k6, k7, k8, -⟩⟩ := frameUpdate_spec hlib hF hI hx hdb ht
  · have e := hp.rest
    refine ⟨_, h, ⟨hp.frame, by simp only; omega⟩, hp.ts, hp.at', by simp only; rw [e], by simp only; rw [e], hp.keep, hp.off, by simp only; rw [e], by simp only; rw [e]; exact id⟩
  · have e := hp.rest
    exact ⟨_, h, ⟨k2, by simp only; omega⟩, k3, k4, by simp only; rw [e], by simp only; rw [e], hp.keep.trans k5, hp.off, by simp only; rw [e], by simp⟩

theorem zuptOn_cfg {m : Mgr} {Z : ZCfg} (h : zuptOn F.mgr m = some Z) : F.mgr.Z = some Z := by
  unfold zuptOn at h
  split at h
  · rename_i Z' e
    split_ifs at h
    rw [e]; exact h
  · simp at h

theorem zuptOn_moved {m m' : Mgr} (h : m'.moved = m.moved) : zuptOn F.mgr m' = zuptOn F.mgr m := by
  unfold zuptOn; rw [h]

theorem zuptOn_mono {m m' : Mgr} (h : m'.moved = false → m.moved = false) (h' : zuptOn F.mgr m' ≠ none) : zuptOn F.mgr m ≠ none := by
  unfold zuptOn at h' ⊢
  split
  · rename_i Z e
    rw [e] at h'
    simp only at h'
    split_ifs at h' with h1
    · rw [if_pos (h1.imp id h)]; simp
    · exact absurd rfl h'
  · rename_i e; rw [e] at h'; exact h'

/-- what else a frame does: objects that are not variables stay, the offsets remembered are the old ones or the state's, the readings are kept or (zero velocity) only those of the last tenth of a second. -/
structure Extra (F : FCfg) (x y : FMgr) (I : Img) : Prop where
  keep : Keep x.m.st y.m.st
  off : y.m.off = x.m.off ∨ y.m.off = tOff x.m.st
  zoff : y.m.zmem.off = x.m.zmem.off ∨ y.m.zmem.off = tOff x.m.st
  bufs : (y.m.buf = x.m.buf ∧ y.m.zbuf = x.m.zbuf) ∨ ∃ a, tOff y.m.st = some a ∧ y.m.buf = cleanOld (I.t + a - 0.10) x.m.buf ∧ y.m.zbuf = cleanOld (I.t + a - 0.10) x.m.zbuf
  on : zuptOn F.mgr y.m ≠ none → zuptOn F.mgr x.m ≠ none

theorem frame_all (hlib : St.Spec.LibOK lib) (hF : Spec.CfgOK o F) (hI : Spec.ImgOK o I) {x : FMgr} (hx : Spec.MgrOK lib o x) (ht : Spec.Timely F x.m I.t) :
    ∃ y, frame lib F x I = some y ∧ (Spec.MgrOK lib o y ∧ y.m.st.ts = I.t ∧ Spec.Done F y.m) ∧ Extra F x y I := by
  have fin : ∀ z : FMgr, z.M = x.M → z.m.st = x.m.st → z.m.off = x.m.off → z.m.buf = x.m.buf → z.m.db = I.db →
      ((x.m.st.ts < I.t ∧ Spec.Covered x.m I.t) ∨ (x.m.st.ts = I.t ∧ ∃ w, (x.m.st.ts, w) ∈ x.m.st.clones)) →
      z.m.zbuf = x.m.zbuf → z.m.moved = x.m.moved → (z.m.zmem.off = x.m.zmem.off ∨ z.m.zmem.off = tOff x.m.st) →
      ∃ y, frameUpdate lib F z I = some y ∧ (Spec.MgrOK lib o y ∧ y.m.st.ts = I.t ∧ Spec.Done F y.m) ∧ Extra F x y I := by
    intro z hM hst hoff hbuf hdb ht hzb hmv hzo
    obtain ⟨y, h1, h2, h3, h4, h5, h6, h7, h8, h9, h10⟩ := frameUpdate_ok hlib hF hI (x := z) ⟨by rw [hst, hM]; exact hx.frame, by rw [hst]; exact hx.window⟩ hdb (by unfold Spec.Covered at ht ⊢; rw [hst, hoff, hbuf]; exact ht)
    exact ⟨y, h1, ⟨h2, h3, .inl h4⟩, by rw [← hst]; exact h7, by rw [← hst, ← hoff]; exact h8, by rw [h9]; exact hzo, .inl ⟨h5.trans hbuf, h6.trans hzb⟩, zuptOn_mono fun h => hmv ▸ h10 h⟩
  unfold frame
  cases hZ : zuptOn F.mgr x.m with
  | none =>
    refine fin _ rfl rfl rfl rfl rfl ?_ rfl rfl (.inl rfl)
    rcases ht with h | ⟨h, hw | ⟨-, hn⟩⟩
    · exact .inl ⟨h.1, h.2.1⟩
    · exact .inr ⟨h, hw⟩
    · exact absurd hZ hn
  | some Z =>
    have hm := hF.zupt Z (zuptOn_cfg hZ)
    rcases ht with ⟨h, hcov, hz⟩ | ⟨h, hd⟩
    · obtain ⟨off, c1, -⟩ := id hcov
      obtain ⟨⟨c, hcal⟩, _⟩ := prog_cal hx.frame.prog.prog
      obtain ⟨x0, f0, hx0, hf0⟩ := prog_imu hx.frame.prog.prog
      have himu : imuOf x.m.st = some (x0, f0) := by simp only [imuOf, hx0, hf0]
      obtain ⟨⟨hist, hrun⟩, -⟩ := hI.db
      obtain ⟨b, mem', s', db', q1, q2, -, q4, q5⟩ := C44_zero_velocity hlib hx.frame.prog Z hm x.m.zmem x.m.zbuf hrun I.t c1 hcal himu (hz (by rw [hZ]; simp) off c1)
      unfold zuptTry
      simp only [if_pos h.ne, q1, Option.map_some, Option.bind_eq_bind, Option.bind_some]
      cases b with
      | true =>
        obtain ⟨r1, -, -, r4, r5, -⟩ := q5 rfl
        obtain ⟨_, off', ho⟩ := prog_cal q2.prog
        rw [if_pos rfl, if_pos r1, ho]
        have hk := try_kind hx.frame.prog.prog q1
        refine ⟨_, rfl, ⟨⟨⟨q2, ?_, ?_, ?_⟩, ?_⟩, r1, .inr ⟨rfl, ?_⟩⟩, keep_try hx.frame.prog.prog q1, .inl rfl, try_off hx.frame.prog.prog q1, .inr ⟨off', ho, rfl, rfl⟩, zuptOn_mono id⟩
        · exact lms_keep hx.frame.lms (fun e he => by simp only at he; rw [r5] at he; exact he) (fun c hc => by simp only; rw [r4]; exact hc) (fun e _ => hk e.2) fun e _ => ⟨rfl, rfl, rfl⟩
        · simp only; rw [r5]; exact hx.frame.ucam
        · simp only; rw [r4, r1]; exact fun c hc => (hx.frame.times c hc).trans h.le
        · simp only; rw [r4]; exact hx.window
        · exact (zuptOn_moved (F := F) (m := x.m) rfl).trans_ne (by rw [hZ]; simp)
      | false =>
        rw [if_neg (by simp)]
        obtain ⟨r1, r2, -⟩ := q4 rfl
        exact fin _ rfl r1 rfl rfl r2 (.inl ⟨h, hcov⟩) rfl rfl (try_off hx.frame.prog.prog q1)
    · unfold zuptTry
      simp only [if_neg (not_not.2 h), Option.bind_eq_bind, Option.bind_some]
      by_cases hdid : x.m.did = true
      · obtain ⟨_, off', ho⟩ := prog_cal hx.frame.prog.prog
        rw [if_pos hdid, if_pos h, ho]
        refine ⟨_, rfl, ⟨⟨hx.frame, hx.window⟩, h, .inr ⟨hdid, ?_⟩⟩, Keep.refl _, .inl rfl, .inl rfl, .inr ⟨off', ho, rfl, rfl⟩, zuptOn_mono id⟩
        exact (zuptOn_moved (F := F) (m := x.m) rfl).trans_ne (by rw [hZ]; simp)
      · rw [if_neg hdid]
        refine fin _ rfl rfl rfl rfl rfl (.inr ⟨h, ?_⟩) rfl rfl (.inl rfl)
        rcases hd with hw | ⟨hd, -⟩
        · exact hw
        · exact absurd hd hdid

/-- **C106** For every manager state between events, every image that is newer than the state and covered by the readings (or at the time of the image just processed), whatever the databases hold, with any valid options: processing the
image returns (no exception, assertion or exit in the zero velocity update, propagation, selection, triangulation, updates, initialisation of landmarks, anchor changes or marginalisation). Afterwards the state is at the image's time, the
window is within its size, and the same invariants hold, so that the next image can be processed. -/
theorem C106_frame (hlib : St.Spec.LibOK lib) (hF : Spec.CfgOK o F) (hI : Spec.ImgOK o I) {x : FMgr} (hx : Spec.MgrOK lib o x) (ht : Spec.Timely F x.m I.t) :
    ∃ y, frame lib F x I = some y ∧ Spec.MgrOK lib o y ∧ y.m.st.ts = I.t ∧ Spec.Done F y.m := by
  obtain ⟨y, h1, h2, -⟩ := frame_all hlib hF hI hx ht
  exact ⟨y, h1, h2⟩

namespace Spec

/-- every image of the sequence is admissible when it arrives. -/
def Admissible (lib : Lib) (o : Opts) (F : FCfg) : FMgr → List FEv → Prop
  | _, [] => True
  | x, .imu r :: es => Admissible lib o F { x with m := feedImu F.mgr x.m r } es
  | x, .image I :: es => ImgOK o I ∧ Timely F x.m I.t ∧ ∀ y, frame lib F x I = some y → Admissible lib o F y es

/-- the times of the images of a sequence. -/
def frameTimes : List FEv → List ℝ
  | [] => []
  | .imu _ :: es => frameTimes es
  | .image I :: es => I.t :: frameTimes es

end Spec

/-- **C106** (history) For every sequence, of any length, of readings and images that are admissible when they arrive: all of it is processed, and afterwards the state is at the time of the last image, its covariance is symmetric and positive
semidefinite, the window is within its size, no clone is newer than the state, and every landmark has a camera, and if it is anchored its anchor is a clone of the window. -/
theorem C106_history (hlib : St.Spec.LibOK lib) (hF : Spec.CfgOK o F) : ∀ (evs : List FEv) (x : FMgr), Spec.MgrOK lib o x → Spec.Admissible lib o F x evs →
    ∃ y, runF lib F x evs = some y ∧ Spec.MgrOK lib o y ∧ y.m.st.ts = (Spec.frameTimes evs).getLastD x.m.st.ts ∧
      (∀ i j, i < y.m.st.n → j < y.m.st.n → y.m.st.P i j = y.m.st.P j i) ∧
      (∀ v : ℕ → ℝ, 0 ≤ ∑ i ∈ Finset.range y.m.st.n, ∑ j ∈ Finset.range y.m.st.n, v i * y.m.st.P i j * v j) ∧ y.m.st.clones.length ≤ o.maxClones ∧ (∀ c ∈ y.m.st.clones, c.1 ≤ y.m.st.ts) ∧
      ∀ e ∈ y.m.st.slam, (y.M e.2).ucam ≠ none ∧ (Land.Spec.Anchored (y.M e.2).rep → (∃ c, (y.M e.2).cam = some c ∧ c < o.numCams) ∧ ∃ w, ((y.M e.2).t, w) ∈ y.m.st.clones) := by
  intro evs
  suffices key : ∀ x, Spec.MgrOK lib o x → Spec.Admissible lib o F x evs → ∃ y, runF lib F x evs = some y ∧ Spec.MgrOK lib o y ∧ y.m.st.ts = (Spec.frameTimes evs).getLastD x.m.st.ts by
    intro x hx ha
    obtain ⟨y, h1, h2, h3⟩ := key x hx ha
    obtain ⟨ops, -, hok, hrun⟩ := h2.frame.prog
    refine ⟨y, h1, h2, h3, run_sym ops (ctor_inv o) ((ctor_diag o).sym _) hrun, C03_covariance_psd hlib o ops hok hrun, h2.window, h2.frame.times, fun e he => ⟨h2.frame.ucam e he, fun hr => (h2.frame.lms.1 e he).2 ((Land.C28_relative _).2 hr)⟩⟩
  induction evs with
  | nil => exact fun x hx _ => ⟨x, rfl, hx, rfl⟩
  | cons e es ih =>
    intro x hx ha
    cases e with
    | imu r =>
      obtain ⟨y, h1, h2, h3⟩ := ih { x with m := feedImu F.mgr x.m r } ⟨hx.frame, hx.window⟩ ha
      exact ⟨y, h1, h2, h3⟩
    | image I =>
      obtain ⟨hI, ht, hn⟩ := ha
      obtain ⟨z, k1, k2, k3, -⟩ := C106_frame hlib hF hI hx ht
      obtain ⟨y, h1, h2, h3⟩ := ih z k2 (hn z k1)
      refine ⟨y, ?_, h2, ?_⟩
      · simp only [runF, FEv.run, k1, Option.bind_some, h1]
      · rw [h3, k3]
        simp only [Spec.frameTimes]
        cases Spec.frameTimes es <;> rfl

end Verif.Vio
