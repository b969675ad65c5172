import Verif.Vio.FrameLemmas

/-!
# What a frame leaves alone: objects that are not state variables
-/

set_option autoImplicit false
set_option linter.unusedVariables false
open Classical

namespace Verif.Vio

open Verif Verif.Types Verif.St Verif.Imu Verif.Prop_ Verif.Feat Verif.Disp

variable {lib : Lib} {o : Opts} {s s' s'' : State} {M M' : ℕ → Upd.LMeta} {F : FCfg} {I : Img}

/-- existing objects that are not variables stay as they are, and are not made variables; options stay; the camera objects stay unless intrinsics are estimated. -/
structure Keep (s s' : State) : Prop where
  obj : ∀ u, u ∉ s.vars → u < s.next → u ∉ s'.vars ∧ u < s'.next ∧ s'.obj u = s.obj u
  opts : s'.opts = s.opts
  cam : s.opts.calibIntr = false → s'.cam = s.cam

theorem Keep.refl (s : State) : Keep s s := ⟨fun _ h1 h2 => ⟨h1, h2, rfl⟩, rfl, fun _ => rfl⟩

theorem Keep.trans (h : Keep s s') (h' : Keep s' s'') : Keep s s'' := by
  refine ⟨fun u h1 h2 => ?_, h'.opts.trans h.opts, fun hc => (h'.cam (by rw [h.opts]; exact hc)).trans (h.cam hc)⟩
  obtain ⟨a, b, c⟩ := h.obj u h1 h2
  obtain ⟨a', b', c'⟩ := h'.obj u a b
  exact ⟨a', b', c'.trans c⟩

theorem keep_update {order H res R} (hn : s.vars.Nodup) (h : update lib s order H res R = some s') : Keep s s' := by
  obtain ⟨L, Ma, hL, e1, e2, e3, hc, hM, rfl⟩ := update_some h
  refine ⟨fun u h1 h2 => ⟨h1, h2, ?_⟩, rfl, fun hc => ?_⟩
  · simp only [foldl_applyDx _ _ hn, if_neg h1]
  · funext i; simp [syncCams, hc]

theorem keep_propagate {nw old Phi Q} (h : propagate s nw old Phi Q = some s') : Keep s s' := by
  obtain ⟨_, _, _, _, _, _, _, _, _, _, _, _, _, _, _, rfl⟩ := propagate_some h
  exact ⟨fun _ h1 h2 => ⟨h1, h2, rfl⟩, rfl, fun _ => rfl⟩

theorem keep_time (t : ℝ) : Keep s { s with ts := t } := ⟨fun _ h1 h2 => ⟨h1, h2, rfl⟩, rfl, fun _ => rfl⟩

theorem keep_setVal {u : ℕ} {v : Val} (hu : u ∈ s.vars) (h : St.step lib s (.setVal u v) = some s') : Keep s s' := by
  simp only [St.step] at h
  split_ifs at h
  obtain rfl := Option.some.inj h
  refine ⟨fun w h1 h2 => ⟨h1, h2, ?_⟩, rfl, fun _ => rfl⟩
  simp only; rw [if_neg fun e => h1 (by rw [e]; exact hu)]

theorem keep_setFej {u : ℕ} {v : Val} (hu : u ∈ s.vars) (h : St.step lib s (.setFej u v) = some s') : Keep s s' := by
  simp only [St.step] at h
  split_ifs at h
  obtain rfl := Option.some.inj h
  refine ⟨fun w h1 h2 => ⟨h1, h2, ?_⟩, rfl, fun _ => rfl⟩
  simp only; rw [if_neg fun e => h1 (by rw [e]; exact hu)]

theorem keep_setMargs (fl : ℕ × ℕ → Bool) : ∀ (l : List (ℕ × ℕ)) {s s' : State}, (∀ e ∈ l, e.2 ∈ s.vars) → run lib s (l.map fun e => Op.setMarg e.2 (fl e)) = some s' → Keep s s'
  | [], s, s', _, h => by obtain rfl := Option.some.inj h; exact Keep.refl _
  | e :: l, s, s', hl, h => by
    simp only [List.map_cons, run, St.step, Option.bind_eq_bind, Option.bind_some] at h
    have ih := keep_setMargs fl l (by exact fun e he => hl e (by simp [he])) h
    refine Keep.trans (s' := { s with obj := fun w => if w = e.2 then { s.obj e.2 with marg := fl e } else s.obj w }) ⟨fun w h1 h2 => ⟨h1, h2, ?_⟩, rfl, fun _ => rfl⟩ ih
    simp only; rw [if_neg fun e' => h1 (by rw [e']; exact hl e (by simp))]

theorem keep_marginalize (hI : Inv s) {u : ℕ} (hu : u ∈ s.vars) (h : marginalize s u = some s') : Keep s s' := by
  obtain ⟨k, -, -, s2, h2, -, -, e3, e4, e5, -, -, -, e9, e10⟩ := marginalize_eq hI hu
  rw [h] at h2
  obtain rfl := Option.some.inj h2
  refine ⟨fun w h1 h2 => ⟨?_, by rw [e4]; exact h2, ?_⟩, e5, fun _ => e9⟩
  · rw [e3]; exact fun h => h1 (List.mem_filter.1 h).1
  · rw [e10, if_neg fun e => h1 (by rw [e]; exact hu), if_neg fun e => h1 e.1]

theorem keep_margOld (hs : St.Spec.Prog lib o s) (h : margOld s = some s') : Keep s s' := by
  have hI := reach_inv hs.reach
  have hW := prog_W hs
  unfold margOld at h
  split_ifs at h
  · rw [Option.bind_eq_bind, Option.bind_eq_some_iff] at h
    obtain ⟨t, -, h⟩ := h
    obtain ⟨c, s1, hc, h1, rfl⟩ := dropClone_some h
    obtain ⟨a, b, c⟩ := keep_marginalize hI (hW.cin c (List.mem_of_find?_eq_some hc)).1 h1
    exact ⟨a, b, c⟩
  · obtain rfl := Option.some.inj h; exact Keep.refl _

theorem keep_margSlamLoop : ∀ (l kept : List (ℕ × ℕ)) {s s' : State}, Inv s → (l.Pairwise fun a b => a.2 ≠ b.2) → (∀ e ∈ l, e.2 ∈ s.vars) → margSlamLoop l kept s = some s' → Keep s s'
  | [], kept, s, s', _, _, _, h => by obtain rfl := Option.some.inj h; exact ⟨fun _ h1 h2 => ⟨h1, h2, rfl⟩, rfl, fun _ => rfl⟩
  | f :: t, kept, s, s', hI, hp, hv, h => by
    obtain ⟨p1, p2⟩ := List.pairwise_cons.1 hp
    simp only [margSlamLoop] at h
    split_ifs at h
    · rw [Option.bind_eq_bind, Option.bind_eq_some_iff] at h
      obtain ⟨s1, h1, h2⟩ := h
      have hf := hv f (by simp)
      refine (keep_marginalize hI hf h1).trans (keep_margSlamLoop t kept (step_inv (lib := mathlibLib) (op := .marginalize f.2) hI h1) p2 (fun e he => ?_) h2)
      obtain ⟨k, -, -, s2, h2, -, -, e3, -⟩ := marginalize_eq hI hf
      rw [h1] at h2
      obtain rfl := Option.some.inj h2
      rw [e3, List.mem_filter]
      exact ⟨hv e (by simp [he]), by simpa using fun h => p1 e he h.symm⟩
    · exact keep_margSlamLoop t _ hI p2 (fun e he => hv e (by simp [he])) h

theorem keep_margSlam (hs : St.Spec.Prog lib o s) (h : margSlam s = some s') : Keep s s' :=
  keep_margSlamLoop _ _ (reach_inv hs.reach) (prog_W hs).suid (fun e he => ((prog_W hs).sin e he).1) h

theorem keep_augment (hI : Inv s) {w : V3} (h : augment s w = some s') : Keep s s' := by
  obtain ⟨-, -, -, e4, -, e6, e7, e8, -⟩ := augment_maps hI h
  have hcam : s'.cam = s.cam := by
    obtain ⟨-, s1, u, h1, h2⟩ := augment_some h
    obtain ⟨k, off, v, f, hu, hk, p1, p2, p3, hle, hr, rfl, rfl⟩ := clone_eq hI h1
    rcases h2 with ⟨_, rfl⟩ | ⟨_, x, b, d, _, _, _, _, _, rfl⟩ <;> rfl
  refine ⟨fun u h1 h2 => ⟨?_, by omega, e8 u h2⟩, e4, fun _ => hcam⟩
  rw [e7, List.mem_append, List.mem_singleton]
  rintro (h | h)
  · exact h1 h
  · omega

theorem keep_prop {po : POpts} {N : Noise} {buf : List Reading} {lo : Option ℝ} {t off : ℝ} (hs : St.Spec.Prog lib o s)
    (h : propagateAndClone po N buf lo s t = some (s', off)) : Keep s s' := by
  unfold propagateAndClone at h
  split_ifs at h with h0
  rw [Option.bind_eq_bind, Option.bind_eq_some_iff] at h
  obtain ⟨c, hc, h⟩ := h
  rw [Option.bind_eq_bind, Option.bind_eq_some_iff] at h
  obtain ⟨off', hoff, h⟩ := h
  rw [Option.bind_eq_bind, Option.bind_eq_some_iff] at h
  obtain ⟨⟨x, f⟩, hx, h⟩ := h
  simp only at h
  split_ifs at h with h1
  rw [Option.bind_eq_bind, Option.bind_eq_some_iff] at h
  obtain ⟨s2, h2, h⟩ := h
  rw [Option.bind_eq_some_iff] at h
  obtain ⟨s3, h3, h⟩ := h
  simp only [Option.pure_def, Option.some.injEq, Prod.mk.injEq] at h
  obtain ⟨rfl, rfl⟩ := h
  generalize (propLoop s.opts po N c (select buf (s.ts + lo.getD off') (t + off')) x f []) = R at *
  obtain ⟨x0, f0, hx0, hf0⟩ := prog_imu hs
  have p1 := hs.step (op := .setVal imuUid (.imu R.1)) trivial (s' := { s with obj := fun w => if w = imuUid then { s.obj imuUid with val := .imu R.1 } else s.obj w }) (by simp [St.step, hx0, sameKind])
  have p2 : St.Spec.Prog lib o (setImu s R.1 R.2.1) := p1.step (op := .setFej imuUid (.imu R.2.1)) trivial (by
    simp only [St.step, if_pos, hf0, sameKind, setImu]
    simp only [if_true, Option.some.injEq, State.mk.injEq, true_and, and_true]
    funext w
    by_cases e : w = imuUid <;> simp [e])
  have k1 : Keep s (setImu s R.1 R.2.1) := by
    refine ⟨fun w h1 h2 => ⟨h1, h2, ?_⟩, rfl, fun _ => rfl⟩
    simp only [setImu]
    rw [if_neg fun e => h1 (by rw [e]; exact (prog_W hs).mem (zero_mem_ctorVars o))]
  have hp := h2
  unfold propagateSummed at hp
  have p3 := p2.step (op := .propagate _ _ _ _) trivial hp
  have p4 : St.Spec.Prog lib o { s2 with ts := t } := p3.step (op := .setTime t) trivial rfl
  exact ((k1.trans (keep_propagate hp)).trans (keep_time t)).trans (keep_augment (reach_inv p4.reach) h3)

theorem keep_msckf (hn : s.vars.Nodup) {C : Upd.MCfg} {tri : Upd.Track → Option Upd.Fix} {fs : List Upd.Track} {used : List ℕ} (h : Upd.msckfUpdate lib s C tri fs = some (s', used)) : Keep s s' := by
  simp only [Upd.msckfUpdate, Option.bind_eq_bind, Option.bind_eq_some_iff] at h
  obtain ⟨B, -, h⟩ := h
  split_ifs at h
  · simp only [Option.some.injEq, Prod.mk.injEq] at h; obtain ⟨rfl, -⟩ := h; exact Keep.refl _
  · simp only [Option.some.injEq, Prod.mk.injEq] at h; obtain ⟨rfl, -⟩ := h; exact Keep.refl _
  · simp only [Option.bind_eq_some_iff, Option.some.injEq, Prod.mk.injEq] at h
    obtain ⟨s1, h1, rfl, -⟩ := h
    exact keep_update hn h1

theorem keep_slam (hn : s.vars.Nodup) {C : Upd.SCfg} {fs : List Upd.Track} {R : Upd.SOut} (h : Upd.slamUpdate lib s M C fs = some R) : Keep s R.s := by
  simp only [Upd.slamUpdate, Option.bind_eq_bind, Option.bind_eq_some_iff] at h
  obtain ⟨cs, -, A, -, h⟩ := h
  split_ifs at h
  · obtain rfl := Option.some.inj h; exact Keep.refl _
  · simp only [Option.bind_eq_some_iff, Option.some.injEq] at h
    obtain ⟨s1, h1, rfl⟩ := h
    exact keep_update hn h1

theorem keep_delayStep {C : Upd.SCfg} {g : Upd.Track × Upd.Fix} {A A' : Upd.DAcc} (hI : Inv A.s) (h : Upd.delayStep lib C g A = some A') : Keep A.s A'.s := by
  simp only [Upd.delayStep, Option.bind_eq_bind, Option.bind_eq_some_iff] at h
  obtain ⟨y, -, l, -, s1, h1, ⟨R1, b⟩, h2, h⟩ := h
  have hI1 := step_inv hI h1
  simp only [St.step] at h1
  split_ifs at h1
  obtain rfl := Option.some.inj h1
  have k0 : Keep A.s R1 := by
    obtain ⟨-, -, -, -, -, -, -, -, -, ⟨-, rfl⟩ | ⟨-, s2, h3, h4⟩⟩ := initDelayed_some h2
    · refine ⟨fun w h1 h2 => ⟨h1, by simp only; omega, ?_⟩, rfl, fun _ => rfl⟩
      simp only; rw [if_neg (by omega)]
    · have k2 : Keep A.s s2 := by
        obtain ⟨-, -, -, -, -, -, -, -, -, -, L, Ma, -, -, -, rfl⟩ := initInv_some h3
        refine ⟨fun w h1 h2 => ⟨?_, by simp only; omega, ?_⟩, rfl, fun _ => rfl⟩
        · simp only [List.mem_append, List.mem_singleton]
          rintro (h | h)
          · exact h1 h
          · omega
        · simp only; rw [if_neg (by omega), if_neg (by omega)]
      rcases h4 with ⟨-, rfl⟩ | ⟨-, h4⟩
      · exact k2
      · exact k2.trans (keep_update (initInv_inv hI1 h3).nodup h4)
  cases b
  rotate_left
  · simp only [if_true] at h
    rw [Option.bind_eq_some_iff] at h
    obtain ⟨s2, h3, h⟩ := h
    obtain rfl := Option.some.inj h
    simp only [St.step] at h3
    split_ifs at h3
    · obtain rfl := Option.some.inj h3; exact k0
    · obtain rfl := Option.some.inj h3
      exact k0.trans ⟨fun _ h1 h2 => ⟨h1, h2, rfl⟩, rfl, fun _ => rfl⟩
  · simp only [Bool.false_eq_true, if_false] at h
    obtain rfl := Option.some.inj h
    exact k0

theorem delayStep_inv {C : Upd.SCfg} {g : Upd.Track × Upd.Fix} {A A' : Upd.DAcc} (hI : Inv A.s) (h : Upd.delayStep lib C g A = some A') : Inv A'.s := by
  simp only [Upd.delayStep, Option.bind_eq_bind, Option.bind_eq_some_iff] at h
  obtain ⟨y, -, l, -, s1, h1, ⟨R1, b⟩, h2, h⟩ := h
  have hI1 := step_inv hI h1
  have hI2 : Inv R1 := step_inv (lib := lib) (op := .initDelayed _ _ _ _ _ _ _) hI1 (congrArg (Option.map Prod.fst) h2)
  cases b
  rotate_left
  · simp only [if_true] at h
    rw [Option.bind_eq_some_iff] at h
    obtain ⟨s2, h3, h⟩ := h
    obtain rfl := Option.some.inj h
    exact step_inv hI2 h3
  · simp only [Bool.false_eq_true, if_false] at h
    obtain rfl := Option.some.inj h
    exact hI2

theorem keep_delayLoop {C : Upd.SCfg} : ∀ (gs : List (Upd.Track × Upd.Fix)) {A R : Upd.DAcc}, Inv A.s → Upd.delayLoop lib C gs A = some R → Keep A.s R.s ∧ Inv R.s
  | [], A, R, hI, h => by obtain rfl := Option.some.inj h; exact ⟨Keep.refl _, hI⟩
  | g :: t, A, R, hI, h => by
    simp only [Upd.delayLoop, Option.bind_eq_bind, Option.bind_eq_some_iff] at h
    obtain ⟨A', h1, h2⟩ := h
    obtain ⟨a, b⟩ := keep_delayLoop t (delayStep_inv hI h1) h2
    exact ⟨(keep_delayStep hI h1).trans a, b⟩

theorem keep_anchorLoop {C : Upd.SCfg} {mt : ℝ} : ∀ (l : List (ℕ × ℕ)) {A R : State × (ℕ → Upd.LMeta)}, (∀ e ∈ l, e.2 ∈ A.1.vars) → Upd.anchorLoop lib C mt l A = some R → Keep A.1 R.1
  | [], A, R, _, h => by obtain rfl := Option.some.inj h; exact Keep.refl _
  | e :: t, A, R, hv, h => by
    simp only [Upd.anchorLoop, Option.bind_eq_bind, Option.bind_eq_some_iff] at h
    obtain ⟨A', h1, h2⟩ := h
    have key : Keep A.1 A'.1 ∧ A'.1.vars = A.1.vars := by
      unfold Upd.anchorOne at h1
      split_ifs at h1
      · obtain rfl := Option.some.inj h1; exact ⟨Keep.refl _, rfl⟩
      · rw [Option.bind_eq_some_iff] at h1
        obtain ⟨c, -, h1⟩ := h1
        simp only [Upd.anchorStep, Option.bind_eq_bind, Option.bind_eq_some_iff] at h1
        obtain ⟨R, -, refs, -, s1, a1, s2, a2, s3, a3, h1⟩ := h1
        obtain rfl := Option.some.inj h1
        have hu := hv e (by simp)
        have v1 : s1.vars = A.1.vars := by
          have a1' : propagate _ _ _ _ _ = some s1 := a1
          obtain ⟨_, _, _, _, _, _, _, _, _, _, _, _, _, _, _, rfl⟩ := propagate_some a1'; rfl
        have v2 : s2.vars = s1.vars := by
          simp only [St.step] at a2; split_ifs at a2; obtain rfl := Option.some.inj a2; rfl
        have v3 : s3.vars = s2.vars := by
          simp only [St.step] at a3; split_ifs at a3; obtain rfl := Option.some.inj a3; rfl
        exact ⟨((keep_propagate a1).trans (keep_setVal (by rw [v1]; exact hu) a2)).trans (keep_setFej (by rw [v2, v1]; exact hu) a3), by rw [v3, v2, v1]⟩
      · obtain rfl := Option.some.inj h1; exact ⟨Keep.refl _, rfl⟩
    exact key.1.trans (keep_anchorLoop t (fun x hx => by rw [key.2]; exact hv x (by simp [hx])) h2)

theorem keep_try {Z : ZCfg} {mem mem' : ZMem} {buf : List Reading} {db db' : DB ℝ Uv} {t : ℝ} {b : Bool} (hs : St.Spec.Prog lib o s)
    (h : tryUpdate lib Z mem buf db s t = some (b, mem', s', db')) : Keep s s' := by
  have triv : ∀ {m1 : ZMem} {d1 : DB ℝ Uv}, some (false, m1, s, d1) = some (b, mem', s', db') → Keep s s' := by
    intro m1 d1 h
    simp only [Option.some.injEq, Prod.mk.injEq] at h
    obtain ⟨rfl, _, rfl, _⟩ := h
    exact Keep.refl _
  have fin : ∀ {D : Option (DB ℝ Uv)} {R Q : DMat} {H : DMat} {r : DVec} {m1 : ZMem}, (D.bind fun db' => (propagate s biasOrder biasOrder ⟨6, 6, Mat.one⟩ Q).bind fun s1 => (update lib s1 zOrder H r R).bind fun s2 =>
      some (true, m1, { s2 with ts := t }, db')) = some (b, mem', s', db') → Keep s s' := by
    intro D R Q H r m1 h
    simp only [Option.bind_eq_some_iff, Option.some.injEq, Prod.mk.injEq] at h
    obtain ⟨db1, _, s1, e1, s2, e2, rfl, _, rfl, _⟩ := h
    have p1 := hs.step (op := .propagate _ _ _ _) trivial e1
    exact ((keep_propagate e1).trans (keep_update (reach_inv p1.reach).nodup e2)).trans (keep_time t)
  unfold tryUpdate at h
  by_cases h1 : buf = []
  · rw [if_pos h1] at h; exact triv h
  rw [if_neg h1] at h
  by_cases h2 : s.ts = t
  · rw [if_pos h2] at h; exact triv h
  rw [if_neg h2] at h
  rw [Option.bind_eq_bind, Option.bind_eq_some_iff] at h
  obtain ⟨c, hc, h⟩ := h
  rw [Option.bind_eq_bind, Option.bind_eq_some_iff] at h
  obtain ⟨off, hoff, h⟩ := h
  rw [Option.bind_eq_bind, Option.bind_eq_some_iff] at h
  obtain ⟨⟨x, f⟩, hx, h⟩ := h
  simp only at h
  by_cases h3 : (select buf (s.ts + mem.off.getD off) (t + off)).length < 2
  · rw [if_pos h3] at h; exact triv h
  rw [if_neg h3] at h
  by_cases h4 : (zSystem s Z c x f (select buf (s.ts + mem.off.getD off) (t + off))).1 < 1
  · rw [if_pos h4] at h; exact triv h
  rw [if_neg h4] at h
  rw [Option.bind_eq_bind, Option.bind_eq_some_iff] at h
  obtain ⟨Pm, hPm, h⟩ := h
  rw [Option.bind_eq_bind, Option.bind_eq_some_iff] at h
  obtain ⟨st, hst, h⟩ := h
  by_cases h6 : 2 ≤ mem.count
  all_goals
    simp only [h6, if_true, if_false] at h
    split_ifs at h with h5
    · exact triv h
    · exact fin h

theorem try_off {Z : ZCfg} {mem mem' : ZMem} {buf : List Reading} {db db' : DB ℝ Uv} {t : ℝ} {b : Bool} (hs : St.Spec.Prog lib o s)
    (h : tryUpdate lib Z mem buf db s t = some (b, mem', s', db')) : mem'.off = mem.off ∨ mem'.off = tOff s := by
  have triv : ∀ {m1 : ZMem} {d1 : DB ℝ Uv}, some (false, m1, s, d1) = some (b, mem', s', db') → m1.off = mem.off ∨ m1.off = tOff s → mem'.off = mem.off ∨ mem'.off = tOff s := by
    intro m1 d1 h hm
    simp only [Option.some.injEq, Prod.mk.injEq] at h
    obtain ⟨-, rfl, -⟩ := h
    exact hm
  have fin : ∀ {D : Option (DB ℝ Uv)} {R Q : DMat} {H : DMat} {r : DVec} {m1 : ZMem}, (D.bind fun db' => (propagate s biasOrder biasOrder ⟨6, 6, Mat.one⟩ Q).bind fun s1 => (update lib s1 zOrder H r R).bind fun s2 =>
      some (true, m1, { s2 with ts := t }, db')) = some (b, mem', s', db') → m1.off = mem.off ∨ m1.off = tOff s → mem'.off = mem.off ∨ mem'.off = tOff s := by
    intro D R Q H r m1 h hm
    simp only [Option.bind_eq_some_iff, Option.some.injEq, Prod.mk.injEq] at h
    obtain ⟨db1, _, s1, e1, s2, e2, -, rfl, -⟩ := h
    exact hm
  unfold tryUpdate at h
  by_cases h1 : buf = []
  · rw [if_pos h1] at h; exact triv h (by simp)
  rw [if_neg h1] at h
  by_cases h2 : s.ts = t
  · rw [if_pos h2] at h; exact triv h (by simp)
  rw [if_neg h2] at h
  rw [Option.bind_eq_bind, Option.bind_eq_some_iff] at h
  obtain ⟨c, hc, h⟩ := h
  rw [Option.bind_eq_bind, Option.bind_eq_some_iff] at h
  obtain ⟨off, hoff, h⟩ := h
  rw [Option.bind_eq_bind, Option.bind_eq_some_iff] at h
  obtain ⟨⟨x, f⟩, hx, h⟩ := h
  simp only at h
  by_cases h3 : (select buf (s.ts + mem.off.getD off) (t + off)).length < 2
  · rw [if_pos h3] at h; exact triv h (by simp [hoff])
  rw [if_neg h3] at h
  by_cases h4 : (zSystem s Z c x f (select buf (s.ts + mem.off.getD off) (t + off))).1 < 1
  · rw [if_pos h4] at h; exact triv h (by simp [hoff])
  rw [if_neg h4] at h
  rw [Option.bind_eq_bind, Option.bind_eq_some_iff] at h
  obtain ⟨Pm, hPm, h⟩ := h
  rw [Option.bind_eq_bind, Option.bind_eq_some_iff] at h
  obtain ⟨st, hst, h⟩ := h
  by_cases h6 : 2 ≤ mem.count
  all_goals
    simp only [h6, if_true, if_false] at h
    split_ifs at h with h5
    · exact triv h (by simp [hoff])
    · exact fin h (by simp [hoff])

end Verif.Vio
