import Verif.Vio.Manager
import Verif.Vio.PropsRest

/-!
# The manager over any sequence of readings and images (C43, C11, C89)
-/

set_option autoImplicit false
open Classical

namespace Verif.Vio

open Verif Verif.Types Verif.St Verif.Imu Verif.Prop_ Verif.Feat Verif.Disp

variable {lib : Lib} {o : Opts} {cfg : MCfg}

namespace Spec

/-- what an update may do to the state: anything except setting its time and adding or removing clones. -/
def UpdOp (op : Op) : Prop := St.Spec.Quiet op ∧ ∀ t, op ≠ .setTime t

/-- every image of the sequence comes with such an update. -/
def EvOk : Ev → Prop
  | .imu _ => True
  | .image _ _ upd => ∀ op ∈ upd, UpdOp op

/-- times of the images of a sequence -/
def imgTimes : List Ev → List ℝ
  | [] => []
  | .imu _ :: es => imgTimes es
  | .image _ t _ :: es => t :: imgTimes es

end Spec

theorem margSlamLoop_ts (todo : List (ℕ × ℕ)) : ∀ (kept : List (ℕ × ℕ)) {s s' : State}, Inv s → margSlamLoop todo kept s = some s' → s'.ts = s.ts := by
  induction todo with
  | nil => intro kept s s' _ h; simp only [margSlamLoop, Option.some.injEq] at h; subst h; rfl
  | cons f t ih =>
    intro kept s s' hI h
    simp only [margSlamLoop] at h
    split_ifs at h with h1
    · rw [Option.bind_eq_bind, Option.bind_eq_some_iff] at h
      obtain ⟨s1, h2, h3⟩ := h
      obtain ⟨k, hk, hkn, s2, h1', e1, e2, e3, e4, e5, e7, ec, es, ecam, e6⟩ := marginalize_eq hI (marginalize_mem h2)
      rw [h2] at h1'
      obtain rfl := Option.some.inj h1'
      exact (ih kept (marginalize_inv hI h2) h3).trans e7
    · exact ih _ hI h

theorem quiet_ts {s s' : State} {op : Op} (hI : Inv s) (hop : Spec.UpdOp op) (h : St.step lib s op = some s') : s'.ts = s.ts := by
  obtain ⟨hq, ht⟩ := hop
  cases op with
  | propagate nw old Phi Q =>
    obtain ⟨N, O, b, t, hN, hO, rfl, _, hcon, hr, _, _, hq, hle, _, rfl⟩ := propagate_some h
    rfl
  | update order H res R => obtain ⟨L, Ma, hL, e1, e2, e3, hc, hM, rfl⟩ := update_some h; rfl
  | setInit C order => obtain ⟨L, _, _, _, rfl⟩ := setInit_some h; rfl
  | marginalize u => exact absurd hq (by simp [St.Spec.Quiet])
  | clone r =>
    simp only [St.step, Option.map_eq_some_iff] at h
    obtain ⟨⟨a, u⟩, h1, rfl⟩ := h
    obtain ⟨k, off, v, f, hu, hk, p1, p2, p3, hle, hr, rfl, rfl⟩ := clone_eq hI h1
    rfl
  | initInv u order HR HL R res =>
    obtain ⟨hu, hnx, hRc, hR0, hiso, hrr, hHL, hHR, hHLc, hk, L, Ma, hL, hc, hM, rfl⟩ := initInv_some h
    rfl
  | initDelayed u order HR HL R res mult =>
    simp only [St.step, Option.map_eq_some_iff] at h
    obtain ⟨⟨a, b⟩, h1, rfl⟩ := h
    obtain ⟨_, _, _, _, _, _, _, _, _, h2 | ⟨_, s1, h2, h3⟩⟩ := initDelayed_some h1
    · rw [h2.2]
    · obtain ⟨hu, hnx, hRc, hR0, hiso, hrr, hHL, hHR, hHLc, hk, L, Ma, hL, hc, hM, rfl⟩ := initInv_some h2
      rcases h3 with ⟨_, rfl⟩ | ⟨_, h3⟩
      · rfl
      · obtain ⟨L, Ma, hL, e1, e2, e3, hc, hM, rfl⟩ := update_some h3; rfl
  | augment w => exact absurd hq (by simp [St.Spec.Quiet])
  | margOld => exact absurd hq (by simp [St.Spec.Quiet])
  | dropClone t => exact absurd hq (by simp [St.Spec.Quiet])
  | margSlam => exact margSlamLoop_ts _ _ hI h
  | alloc v f => simp only [St.step] at h; split_ifs at h; obtain rfl := Option.some.inj h; rfl
  | setVal u v => simp only [St.step] at h; split_ifs at h; obtain rfl := Option.some.inj h; rfl
  | setCam i v => simp only [St.step] at h; obtain rfl := Option.some.inj h; rfl
  | setFej u v => simp only [St.step] at h; split_ifs at h; obtain rfl := Option.some.inj h; rfl
  | setMarg u b => simp only [St.step] at h; obtain rfl := Option.some.inj h; rfl
  | addSlam fid u => simp only [St.step] at h; split_ifs at h <;> obtain rfl := Option.some.inj h <;> rfl
  | setTime t => exact absurd rfl (ht t)

theorem upd_run (ops : List Op) : ∀ {s s' : State}, St.Spec.Prog lib o s → (∀ op ∈ ops, Spec.UpdOp op) → run lib s ops = some s' →
    St.Spec.Prog lib o s' ∧ s'.ts = s.ts ∧ s'.clones = s.clones ∧ s'.opts = s.opts := by
  induction ops with
  | nil => intro s s' hs _ h; simp only [run, Option.some.injEq] at h; subst h; exact ⟨hs, rfl, rfl, rfl⟩
  | cons op t ih =>
    intro s s' hs ho h
    simp only [run, Option.bind_eq_bind, Option.bind_eq_some_iff] at h
    obtain ⟨s1, h1, h2⟩ := h
    have hI := reach_inv hs.reach
    have q := quiet_step hI (ho op (by simp)).1 h1
    have := ih (hs.step (quiet_notRaw (ho op (by simp)).1) h1) (fun x hx => ho x (by simp [hx])) h2
    exact ⟨this.1, this.2.1.trans (quiet_ts hI (ho op (by simp)) h1), this.2.2.1.trans q.1, this.2.2.2.trans q.2⟩

/-- what a returning `propagate_and_clone` did. -/
theorem prop_some {po : POpts} {N : Noise} {buf : List Reading} {lo : Option ℝ} {s s' : State} {t off : ℝ} (hs : St.Spec.Prog lib o s)
    (h : propagateAndClone po N buf lo s t = some (s', off)) :
    St.Spec.Prog lib o s' ∧ s'.ts = t ∧ (∀ c ∈ s.clones, c.1 ≠ t) ∧ s'.clones = insertClone t s.next s.clones ∧ s'.opts = s.opts ∧ s.ts < t ∧ tOff s = some off := by
  unfold propagateAndClone at h
  split_ifs at h with h0
  rw [Option.bind_eq_bind, Option.bind_eq_some_iff] at h
  obtain ⟨c, hc, h⟩ := h
  rw [Option.bind_eq_bind, Option.bind_eq_some_iff] at h
  obtain ⟨off', hoff, h⟩ := h
  rw [Option.bind_eq_bind, Option.bind_eq_some_iff] at h
  obtain ⟨⟨x, f⟩, hx, h⟩ := h
  simp only at h
  split_ifs at h with h1
  rw [Option.bind_eq_bind, Option.bind_eq_some_iff] at h
  obtain ⟨s2, h2, h⟩ := h
  rw [Option.bind_eq_some_iff] at h
  obtain ⟨s3, h3, h⟩ := h
  simp only [Option.pure_def, Option.some.injEq, Prod.mk.injEq] at h
  obtain ⟨rfl, rfl⟩ := h
  generalize (propLoop s.opts po N c (select buf (s.ts + lo.getD off') (t + off')) x f []) = R at *
  obtain ⟨x0, f0, hx0, hf0⟩ := prog_imu hs
  have p1 := hs.step (op := .setVal imuUid (.imu R.1)) trivial (s' := { s with obj := fun w => if w = imuUid then { s.obj imuUid with val := .imu R.1 } else s.obj w }) (by simp [St.step, hx0, sameKind])
  have p2 : St.Spec.Prog lib o (setImu s R.1 R.2.1) := p1.step (op := .setFej imuUid (.imu R.2.1)) trivial (by
    simp only [St.step, if_pos, hf0, sameKind, setImu]
    simp only [if_true, Option.some.injEq, State.mk.injEq, true_and, and_true]
    funext w
    by_cases e : w = imuUid <;> simp [e])
  have hp := h2
  unfold propagateSummed at hp
  have p3 := p2.step (op := .propagate _ _ _ _) trivial hp
  obtain ⟨_, _, _, _, _, _, _, _, _, _, _, _, _, _, _, e⟩ := propagate_some hp
  have p4 : St.Spec.Prog lib o { s2 with ts := t } := p3.step (op := .setTime t) trivial rfl
  have p5 := p4.step (op := .augment _) trivial h3
  obtain ⟨a0, a1, a2, a3, a4, _⟩ := augment_maps (reach_inv p4.reach) h3
  simp only at a0 a1 a3 a4
  push Not at h0
  refine ⟨p5, a4, ?_, ?_, ?_, lt_of_le_of_ne h0.2 h0.1, hoff⟩
  · intro c hc; exact a0 c (by rw [e]; exact hc)
  · rw [a1, e]; rfl
  · rw [a3, e]; rfl

/-- what a returning `try_update` did. -/
theorem try_some {Z : ZCfg} {mem mem' : ZMem} {buf : List Reading} {db db' : DB ℝ Uv} {s s' : State} {t : ℝ} {b : Bool} (hs : St.Spec.Prog lib o s)
    (h : tryUpdate lib Z mem buf db s t = some (b, mem', s', db')) :
    St.Spec.Prog lib o s' ∧ (b = false → s' = s) ∧ (b = true → s'.ts = t) ∧ s'.clones = s.clones ∧ s'.opts = s.opts := by
  have triv : ∀ {m1 : ZMem} {d1 : DB ℝ Uv}, some (false, m1, s, d1) = some (b, mem', s', db') → St.Spec.Prog lib o s' ∧ (b = false → s' = s) ∧ (b = true → s'.ts = t) ∧ s'.clones = s.clones ∧ s'.opts = s.opts := by
    intro m1 d1 h
    simp only [Option.some.injEq, Prod.mk.injEq] at h
    obtain ⟨rfl, _, rfl, _⟩ := h
    exact ⟨hs, fun _ => rfl, by simp, rfl, rfl⟩
  have fin : ∀ {D : Option (DB ℝ Uv)} {R Q : DMat} {H : DMat} {r : DVec} {m1 : ZMem}, (D.bind fun db' => (propagate s biasOrder biasOrder ⟨6, 6, Mat.one⟩ Q).bind fun s1 => (update lib s1 zOrder H r R).bind fun s2 =>
      some (true, m1, { s2 with ts := t }, db')) = some (b, mem', s', db') → St.Spec.Prog lib o s' ∧ (b = false → s' = s) ∧ (b = true → s'.ts = t) ∧ s'.clones = s.clones ∧ s'.opts = s.opts := by
    intro D R Q H r m1 h
    simp only [Option.bind_eq_some_iff, Option.some.injEq, Prod.mk.injEq] at h
    obtain ⟨db1, _, s1, e1, s2, e2, rfl, _, rfl, _⟩ := h
    have p1 := hs.step (op := .propagate _ _ _ _) trivial e1
    have p2 := p1.step (op := .update _ _ _ _) trivial e2
    have p3 : St.Spec.Prog lib o { s2 with ts := t } := p2.step (op := .setTime t) trivial rfl
    obtain ⟨_, _, _, _, _, _, _, _, _, _, _, _, _, _, _, e⟩ := propagate_some e1
    obtain ⟨_, u1, _, _, u2, _⟩ := update_lm (reach_inv p1.reach).nodup e2
    refine ⟨p3, by simp, fun _ => rfl, ?_, ?_⟩
    · show s2.clones = _; rw [u2, e]
    · show s2.opts = _; rw [u1, e]
  unfold tryUpdate at h
  by_cases h1 : buf = []
  · rw [if_pos h1] at h; exact triv h
  rw [if_neg h1] at h
  by_cases h2 : s.ts = t
  · rw [if_pos h2] at h; exact triv h
  rw [if_neg h2] at h
  rw [Option.bind_eq_bind, Option.bind_eq_some_iff] at h
  obtain ⟨c, hc, h⟩ := h
  rw [Option.bind_eq_bind, Option.bind_eq_some_iff] at h
  obtain ⟨off, hoff, h⟩ := h
  rw [Option.bind_eq_bind, Option.bind_eq_some_iff] at h
  obtain ⟨⟨x, f⟩, hx, h⟩ := h
  simp only at h
  by_cases h3 : (select buf (s.ts + mem.off.getD off) (t + off)).length < 2
  · rw [if_pos h3] at h; exact triv h
  rw [if_neg h3] at h
  by_cases h4 : (zSystem s Z c x f (select buf (s.ts + mem.off.getD off) (t + off))).1 < 1
  · rw [if_pos h4] at h; exact triv h
  rw [if_neg h4] at h
  rw [Option.bind_eq_bind, Option.bind_eq_some_iff] at h
  obtain ⟨Pm, hPm, h⟩ := h
  rw [Option.bind_eq_bind, Option.bind_eq_some_iff] at h
  obtain ⟨st, hst, h⟩ := h
  by_cases h6 : 2 ≤ mem.count
  all_goals
    simp only [h6, if_true, if_false] at h
    split_ifs at h with h5
    · exact triv h
    · exact fin h

theorem prog_opts {s : State} (h : St.Spec.Prog lib o s) : s.opts = o := (prog_W h).opts

/-- what a returning propagation and update did, for an image that is not stale. -/
theorem feat_some {m m' : Mgr} {t : ℝ} {upd : List Op} (hm : St.Spec.Prog lib o m.st) (hu : ∀ op ∈ upd, Spec.UpdOp op)
    (h : featUpdate lib cfg m t upd = some m') (ht : m.st.ts ≤ t) :
    St.Spec.Prog lib o m'.st ∧ m'.st.ts = t ∧ (m.st.clones.length ≤ o.maxClones → m'.st.clones.length ≤ o.maxClones) ∧
    (∀ c ∈ m'.st.clones, c.1 = t ∨ c ∈ m.st.clones) ∧ m'.buf = m.buf := by
  unfold featUpdate at h
  rw [if_neg (not_lt.mpr ht), Option.bind_eq_bind, Option.bind_eq_some_iff] at h
  obtain ⟨m1, h1, h⟩ := h
  have key : St.Spec.Prog lib o m1.st ∧ m1.st.ts = t ∧ m1.st.clones.length ≤ m.st.clones.length + 1 ∧ (∀ c ∈ m1.st.clones, c.1 = t ∨ c ∈ m.st.clones) ∧ m1.buf = m.buf := by
    unfold propTo at h1
    split_ifs at h1 with e
    · simp only [Option.map_eq_some_iff] at h1
      obtain ⟨⟨s1, off⟩, h1, rfl⟩ := h1
      obtain ⟨a1, a2, a3, a4, a5, _⟩ := prop_some hm h1
      refine ⟨a1, a2, ?_, fun c hc => ?_, rfl⟩
      · show s1.clones.length ≤ _; rw [a4, insertClone_length _ _ _ a3]
      · simp only at hc
        rw [a4] at hc
        rcases (mem_insertClone _ _ _ a3 c).1 hc with rfl | hc
        · exact .inl rfl
        · exact .inr hc
    · push Not at e
      obtain rfl := Option.some.inj h1
      exact ⟨hm, e, Nat.le_succ _, fun c hc => .inr hc, rfl⟩
  obtain ⟨k1, k2, k3, k4, k5⟩ := key
  have ko := prog_opts k1
  split_ifs at h with h2 h3
  · obtain rfl := Option.some.inj h
    rw [ko] at h2
    exact ⟨k1, k2, fun _ => by have := lt_min_iff.1 h2; omega, k4, k5⟩
  · exact absurd k2 h3
  · rw [Option.bind_eq_bind, Option.bind_eq_some_iff] at h
    obtain ⟨s2, h4, h⟩ := h
    rw [Option.bind_eq_some_iff] at h
    obtain ⟨s3, h5, h⟩ := h
    obtain rfl := Option.some.inj h
    obtain ⟨u1, u2, u3, u4⟩ := upd_run upd k1 hu h4
    have hI := reach_inv u1.reach
    have p3 := u1.step (op := .margOld) trivial h5
    rcases margOld_cases h5 with ⟨l1, rfl⟩ | ⟨l1, t', _, l2⟩
    · refine ⟨p3, u2.trans k2, fun _ => by rw [prog_opts u1] at l1; exact l1, fun c hc => k4 c (by rw [← u3]; exact hc), k5⟩
    · obtain ⟨w1, w2, w3⟩ := (prog_W u1).dropClone hI l2
      obtain ⟨c, s1, hc, h1, rfl⟩ := dropClone_some l2
      obtain ⟨k, hk, hkn, s2', h1', e1, e2, e3, e4, e5, e7, ec, es, ecam, e6⟩ := marginalize_eq hI (marginalize_mem h1)
      rw [h1] at h1'
      obtain rfl := Option.some.inj h1'
      refine ⟨p3, e7.trans (u2.trans k2), fun hl => ?_, fun c hc => k4 c ?_, k5⟩
      · simp only at w3 ⊢
        rw [u3] at w3
        omega
      · simp only at w2 hc
        rw [w2] at hc
        rw [← u3]
        exact (List.mem_filter.1 hc).1

/-- the whole step for an image. -/
theorem image_some {m m' : Mgr} {db : DB ℝ Uv} {t : ℝ} {upd : List Op} (hm : St.Spec.Prog lib o m.st) (hu : ∀ op ∈ upd, Spec.UpdOp op)
    (h : image lib cfg m db t upd = some m') :
    (m.st.ts ≤ t → St.Spec.Prog lib o m'.st ∧ m'.st.ts = t ∧ (m.st.clones.length ≤ o.maxClones → m'.st.clones.length ≤ o.maxClones) ∧
      (∀ c ∈ m'.st.clones, c.1 = t ∨ c ∈ m.st.clones) ∧ (m'.buf = m.buf ∨ ∃ off, tOff m'.st = some off ∧ m'.buf = cleanOld (t + off - 0.10) m.buf)) ∧
    (t < m.st.ts → zuptOn cfg m = none → m' = { m with db := db }) ∧
    (t < m.st.ts → (m'.st = m.st ∨ m'.st.ts = t) ∧ St.Spec.Prog lib o m'.st ∧ m'.st.clones = m.st.clones) := by
  unfold image at h
  split at h
  · rename_i hz
    have stale : t < m.st.ts → m' = { m with db := db } := by
      intro ht
      unfold featUpdate at h
      rw [if_pos ht] at h
      exact (Option.some.inj h).symm
    refine ⟨fun ht => ?_, fun ht _ => stale ht, fun ht => ?_⟩
    · obtain ⟨a, b, c, d, e⟩ := feat_some (m := { m with db := db }) hm hu h ht
      exact ⟨a, b, c, d, .inl e⟩
    · rw [stale ht]; exact ⟨.inl rfl, hm, rfl⟩
  · rename_i Z hz
    rw [Option.bind_eq_bind, Option.bind_eq_some_iff] at h
    obtain ⟨m1, h1, h⟩ := h
    have key : St.Spec.Prog lib o m1.st ∧ (m1.st = m.st ∨ m1.st.ts = t) ∧ (m.st.ts ≤ t → m1.st.ts ≤ t) ∧ m1.st.clones = m.st.clones ∧ m1.st.opts = m.st.opts ∧ m1.buf = m.buf ∧ (m1.did = false → m1.st = m.st) := by
      unfold zuptTry at h1
      split_ifs at h1 with e
      · simp only [Option.map_eq_some_iff] at h1
        obtain ⟨⟨b, mem', s', db'⟩, h1, rfl⟩ := h1
        obtain ⟨a1, a2, a3, a4, a5⟩ := try_some hm h1
        cases b with
        | false => have := a2 rfl; subst this; exact ⟨a1, .inl rfl, fun h => h, a4, a5, rfl, fun _ => rfl⟩
        | true => exact ⟨a1, .inr (a3 rfl), fun _ => (a3 rfl).le, a4, a5, rfl, by simp⟩
      · obtain rfl := Option.some.inj h1
        exact ⟨hm, .inl rfl, fun h => h, rfl, rfl, rfl, fun _ => rfl⟩
    obtain ⟨k1, k2, k3, k4, k5, k6, k7⟩ := key
    split_ifs at h with h2 h3
    · rw [Option.bind_eq_bind, Option.bind_eq_some_iff] at h
      obtain ⟨off, ho, h⟩ := h
      obtain rfl := Option.some.inj h
      refine ⟨fun ht => ⟨k1, h3, fun hl => by rw [← k4] at hl; exact hl, fun c hc => .inr (by rw [← k4]; exact hc), .inr ⟨off, ho, by rw [← k6]⟩⟩, fun _ hn => ?_, fun _ => ⟨.inr h3, k1, k4⟩⟩
      rw [hz] at hn; simp at hn
    · refine ⟨fun ht => ?_, fun _ hn => by rw [hz] at hn; simp at hn, fun ht => ?_⟩
      · obtain ⟨a, b, c, d, e⟩ := feat_some k1 hu h (k3 ht)
        rw [k4] at c d
        exact ⟨a, b, c, d, .inl (e.trans k6)⟩
      · have e := k7 (by simpa using h2)
        unfold featUpdate at h
        rw [if_pos (by rw [e]; exact ht)] at h
        obtain rfl := Option.some.inj h
        exact ⟨.inl e, k1, k4⟩

/-- **C43** (partial) An image at or after the state's time that is processed leaves the state at exactly the image's time; an image older than the state's time, when no zero velocity update is attempted, changes nothing but the tracks:
estimate, covariance, window, buffers and flags are the same. Over every sequence of readings and images without zero velocity updates the state's time never decreases. With zero velocity updates the same holds if no image is stale (`C43_in_order`);
missing is the stale image with zero velocity updates, for which the claim is false, see `C43_stale_zero_velocity`. -/
theorem C43_time_monotone_partial (cfg : MCfg) (hz : cfg.Z = none) : ∀ (evs : List Ev) (m m' : Mgr), St.Spec.Prog lib o m.st → (∀ e ∈ evs, Spec.EvOk e) → runEvs lib cfg m evs = some m' →
    m.st.ts ≤ m'.st.ts ∧ St.Spec.Prog lib o m'.st ∧ ((∀ t ∈ Spec.imgTimes evs, t < m.st.ts) → m'.st = m.st) ∧ ∀ t ∈ Spec.imgTimes evs, t ≤ m'.st.ts := by
  intro evs
  induction evs with
  | nil => intro m m' hm _ h; simp only [runEvs, Option.some.injEq] at h; subst h; exact ⟨le_rfl, hm, fun _ => rfl, by simp [Spec.imgTimes]⟩
  | cons e es ih =>
    intro m m' hm ho h
    simp only [runEvs, Option.bind_eq_some_iff] at h
    obtain ⟨m1, h1, h2⟩ := h
    have ho' : ∀ e ∈ es, Spec.EvOk e := fun x hx => ho x (by simp [hx])
    cases e with
    | imu r =>
      simp only [Ev.run, Option.some.injEq] at h1
      subst h1
      exact ih (feedImu cfg m r) m' hm ho' h2
    | image db t upd =>
      have hu : ∀ op ∈ upd, Spec.UpdOp op := ho (.image db t upd) (by simp)
      obtain ⟨i1, i2, i3⟩ := image_some (cfg := cfg) hm hu h1
      have hzo : zuptOn cfg m = none := by simp [zuptOn, hz]
      rcases le_or_gt m.st.ts t with ht | ht
      · obtain ⟨a, b, _⟩ := i1 ht
        obtain ⟨c1, c2, c3, c4⟩ := ih m1 m' a ho' h2
        refine ⟨(b ▸ ht).trans c1, c2, fun hall => absurd (hall t (by simp [Spec.imgTimes])) (not_lt.2 ht), fun t' ht' => ?_⟩
        simp only [Spec.imgTimes, List.mem_cons] at ht'
        rcases ht' with rfl | ht'
        · rw [← b]; exact c1
        · exact c4 t' ht'
      · have e := i2 ht hzo
        obtain ⟨c1, c2, c3, c4⟩ := ih m1 m' (by rw [e]; exact hm) ho' h2
        have es' : m1.st = m.st := by rw [e]
        rw [es'] at c1 c3
        refine ⟨c1, c2, fun hall => c3 fun t' ht' => hall t' (by simp [Spec.imgTimes, ht']), fun t' ht' => ?_⟩
        simp only [Spec.imgTimes, List.mem_cons] at ht'
        rcases ht' with rfl | ht'
        · exact ht.le.trans c1
        · exact c4 t' ht'

/-- **C43** (in order) With or without zero velocity updates, for every sequence of readings and of images none of which is older than the state at the beginning or than an earlier image: after the sequence the state is at the time of the
last image. **C11** (in order) The window then holds at most `max_clone_size` clones, at distinct times, none later than the state's time. -/
theorem C43_in_order (cfg : MCfg) : ∀ (evs : List Ev) (m m' : Mgr), St.Spec.Prog lib o m.st → (∀ e ∈ evs, Spec.EvOk e) → (m.st.ts :: Spec.imgTimes evs).Pairwise (· ≤ ·) → runEvs lib cfg m evs = some m' →
    m'.st.ts = (Spec.imgTimes evs).getLastD m.st.ts ∧ St.Spec.Prog lib o m'.st ∧
    (m.st.clones.length ≤ o.maxClones → m'.st.clones.length ≤ o.maxClones) ∧ ((∀ c ∈ m.st.clones, c.1 ≤ m.st.ts) → ∀ c ∈ m'.st.clones, c.1 ≤ m'.st.ts) := by
  intro evs
  induction evs with
  | nil => intro m m' hm _ _ h; simp only [runEvs, Option.some.injEq] at h; subst h; exact ⟨rfl, hm, fun h => h, fun h => h⟩
  | cons e es ih =>
    intro m m' hm ho hs h
    simp only [runEvs, Option.bind_eq_some_iff] at h
    obtain ⟨m1, h1, h2⟩ := h
    have ho' : ∀ e ∈ es, Spec.EvOk e := fun x hx => ho x (by simp [hx])
    cases e with
    | imu r =>
      simp only [Ev.run, Option.some.injEq] at h1
      subst h1
      exact ih (feedImu cfg m r) m' hm ho' hs h2
    | image db t upd =>
      have hu : ∀ op ∈ upd, Spec.UpdOp op := ho (.image db t upd) (by simp)
      obtain ⟨i1, i2, i3⟩ := image_some (cfg := cfg) hm hu h1
      simp only [Spec.imgTimes] at hs ⊢
      have ht : m.st.ts ≤ t := (List.pairwise_cons.1 hs).1 t (by simp)
      obtain ⟨a, b, c, d, _⟩ := i1 ht
      obtain ⟨c1, c2, c3, c4⟩ := ih m1 m' a ho' (by rw [b]; exact (List.pairwise_cons.1 hs).2) h2
      refine ⟨?_, c2, fun hl => c3 (c hl), fun hl => c4 fun x hx => ?_⟩
      · rw [c1, b]
        cases Spec.imgTimes es <;> rfl
      · rcases d x hx with e | e
        · rw [e, b]
        · rw [b]; exact (hl x e).trans ht

/-- **C78** (in the manager) For every program state whose clones are not newer than it and every newer image, provided the propagator's buffer is sorted and covers the time between (and, when a zero velocity update is attempted, its inputs are
admissible as in C44) and the updates that follow return: the manager completes the image (no assertion, no exit), and the state is at the image's time. -/
theorem C78_image_completes (hlib : St.Spec.LibOK lib) (cfg : MCfg) (m : Mgr) (hs : St.Spec.ProgOK lib o m.st) (hc : ∀ c ∈ m.st.clones, c.1 ≤ m.st.ts) {off t : ℝ} (hoff : tOff m.st = some off) (ht : m.st.ts < t)
    (hb : Imu.Spec.Sorted m.buf) (h01 : m.st.ts + m.off.getD off < t + off) (h0 : ∃ a ∈ m.buf, a.t ≤ m.st.ts + m.off.getD off) (h1 : ∃ b ∈ m.buf, t + off ≤ b.t) (hlen : m.buf.length < 10 ^ 7)
    {hist : Hist ℝ Uv} {db : DB ℝ Uv} (hdb : hist.run = some db)
    (hz : ∀ Z, cfg.Z = some Z → 0 < Z.mult ∧ Imu.Spec.Spaced (select m.zbuf (m.st.ts + m.zmem.off.getD off) (t + off)))
    (upd : List Op) (hu : ∀ op ∈ upd, Spec.UpdOp op) (hupd : ∀ s1, St.Spec.ProgOK lib o s1 → s1.ts = t → ∃ s2, run lib s1 upd = some s2) :
    ∃ m', image lib cfg m db t upd = some m' ∧ m'.st.ts = t := by
  have feat : ∀ m1 : Mgr, m1.st = m.st → m1.off = m.off → m1.buf = m.buf → ∃ m', featUpdate lib cfg m1 t upd = some m' := by
    intro m1 e1 e2 e3
    unfold featUpdate propTo
    rw [e1, e2, e3, if_neg (not_lt.2 ht.le), if_pos ht.ne]
    obtain ⟨s', p1, p2, p3, _⟩ := C78_propagate_and_clone hlib hs cfg.po cfg.N m.buf hb m.off hoff ht h01 h0 h1 (lt_of_le_of_lt (List.length_filter_le _ _) hlen) (fun c hc' => ((hc c hc').trans_lt ht).ne)
    rw [p1]
    simp only [Option.map_some, Option.bind_eq_bind, Option.bind_some]
    split_ifs with h2 h3
    · exact ⟨_, rfl⟩
    · exact ⟨_, rfl⟩
    · obtain ⟨s2, h4⟩ := hupd s' p2 p3
      rw [h4]
      obtain ⟨u1, _⟩ := upd_run upd p2.prog hu h4
      obtain ⟨s3, h5, _⟩ := C11_oldest_removed u1
      exact ⟨_, by rw [Option.bind_some, h5]; rfl⟩
  suffices h : ∃ m', image lib cfg m db t upd = some m' by
    obtain ⟨m', h⟩ := h
    exact ⟨m', h, ((image_some (cfg := cfg) hs.prog hu h).1 ht.le).2.1⟩
  unfold image
  split
  · exact feat _ rfl rfl rfl
  · rename_i Z hZ
    have hZ' : cfg.Z = some Z := by
      unfold zuptOn at hZ
      split at hZ
      · rename_i Z' e
        split_ifs at hZ
        rw [e]; exact hZ
      · simp at hZ
    obtain ⟨hm, hsp⟩ := hz Z hZ'
    obtain ⟨⟨c, hcal⟩, _⟩ := prog_cal hs.prog
    obtain ⟨x, f, hx, hf⟩ := prog_imu hs.prog
    have himu : imuOf m.st = some (x, f) := by simp only [imuOf, hx, hf]
    obtain ⟨b, mem', s', db', q1, q2, q3, q4, q5⟩ := C44_zero_velocity hlib hs Z hm m.zmem m.zbuf hdb t hoff hcal himu hsp
    unfold zuptTry
    simp only
    rw [if_pos ht.ne, q1]
    simp only [Option.map_some, Option.bind_eq_bind, Option.bind_some]
    cases b with
    | true =>
      rw [if_pos rfl, if_pos (q5 rfl).1]
      obtain ⟨_, off', ho⟩ := prog_cal q2.prog
      rw [ho]
      exact ⟨_, rfl⟩
    | false =>
      rw [if_neg (by simp)]
      exact feat _ (q4 rfl).1 rfl rfl

namespace Spec

/-- the readings of a sequence -/
def readings : List Ev → List Reading
  | [] => []
  | .imu r :: es => r :: readings es
  | .image _ _ _ :: es => readings es

/-- the camera-IMU time offset of every state reached is at most `off` -/
def OffLe (lib : Lib) (cfg : MCfg) (off : ℝ) : Mgr → List Ev → Prop
  | m, [] => ∀ d, tOff m.st = some d → d ≤ off
  | m, e :: es => (∀ d, tOff m.st = some d → d ≤ off) ∧ ∀ m1, e.run lib cfg m = some m1 → OffLe lib cfg off m1 es

end Spec

theorem OffLe.head {off : ℝ} {m : Mgr} {es : List Ev} (h : Spec.OffLe lib cfg off m es) : ∀ d, tOff m.st = some d → d ≤ off := by
  cases es with
  | nil => exact h
  | cons e es => exact h.1

theorem oldest_le (s : State) : oldestTime s ≤ s.ts ∨ oldestTime s = -1 := by
  unfold oldestTime
  split
  · exact .inr rfl
  · split_ifs with h
    · exact .inr rfl
    · exact .inl (not_lt.1 h)

theorem mem_cleanOld {a : ℝ} {buf : List Reading} {r : Reading} (h : r ∈ buf) (hr : a < 0 ∨ a ≤ r.t) : r ∈ cleanOld a buf := by
  unfold Imu.cleanOld
  split_ifs with h1
  · exact h
  · rw [List.mem_filter]
    refine ⟨h, ?_⟩
    rw [decide_eq_true_eq, not_lt]
    exact hr.resolve_left h1

/-- **C89** (partial) For every sequence of readings and of images in order, with or without zero velocity updates, with a camera-IMU offset that may be estimated and is never above `off`: of all readings ever received, none is discarded that is not older than a tenth of a second
before the state's time, nor before the state's time plus `off`. So whenever the IMU was read in the tenth of a second after that (`off` taken as zero if it is negative) and not after the start of the next propagation, which is the state's time plus the offset as it is estimated then, the reading from which that propagation starts is there.
Missing: offsets more than a tenth of a second below what they were or below zero, for which this is false, see `C89_negative_offset_wrong`. -/
theorem C89_readings_kept_partial (cfg : MCfg) (off : ℝ) : ∀ (evs : List Ev) (m m' : Mgr), St.Spec.Prog lib o m.st → (∀ e ∈ evs, Spec.EvOk e) → (m.st.ts :: Spec.imgTimes evs).Pairwise (· ≤ ·) →
    Spec.OffLe lib cfg off m evs → runEvs lib cfg m evs = some m' →
    (∀ r ∈ m.buf ++ Spec.readings evs, m'.st.ts - 0.1 ≤ r.t → m'.st.ts + off - 0.1 ≤ r.t → r ∈ m'.buf) ∧
    ∀ d, tOff m'.st = some d → (∃ r ∈ m.buf ++ Spec.readings evs, m'.st.ts + max 0 off - 0.1 ≤ r.t ∧ r.t ≤ m'.st.ts + d) → ∃ a ∈ m'.buf, a.t ≤ m'.st.ts + d := by
  intro evs m m' hm ho hs hoff h
  suffices key : ∀ r ∈ m.buf ++ Spec.readings evs, m'.st.ts - 0.1 ≤ r.t → m'.st.ts + off - 0.1 ≤ r.t → r ∈ m'.buf by
    refine ⟨key, ?_⟩
    rintro d - ⟨r, h1, h2, h3⟩
    have := le_max_left 0 off
    have := le_max_right 0 off
    exact ⟨r, key r h1 (by linarith) (by linarith), h3⟩
  induction evs generalizing m with
  | nil =>
    simp only [runEvs, Option.some.injEq] at h
    subst h
    intro r hr _ _
    simpa [Spec.readings] using hr
  | cons e es ih =>
    have hrun := h
    simp only [runEvs, Option.bind_eq_some_iff] at h
    obtain ⟨m1, h1, h2⟩ := h
    have ho' : ∀ e ∈ es, Spec.EvOk e := fun x hx => ho x (by simp [hx])
    cases e with
    | imu r0 =>
      have hoff1 := hoff.2 m1 h1
      simp only [Ev.run, Option.some.injEq] at h1
      subst h1
      have hle : m.st.ts ≤ m'.st.ts := by
        have := (C43_in_order cfg es (feedImu cfg m r0) m' hm ho' hs h2).1
        rw [this]
        have hs' := (List.pairwise_cons.1 hs).1
        rcases List.eq_nil_or_concat (Spec.imgTimes (Ev.imu r0 :: es)) with e | ⟨l, x, e⟩
        · have e' : Spec.imgTimes es = [] := e
          rw [e']; exact le_rfl
        · have e' : Spec.imgTimes es = l ++ [x] := by rw [← List.concat_eq_append]; exact e
          rw [e']
          have := hs' x (by rw [e]; simp)
          simpa using this
      have ih' := ih (feedImu cfg m r0) hm ho' hs hoff1 h2
      intro r hr hr1 hr2
      refine ih' r ?_ hr1 hr2
      simp only [Spec.readings, List.mem_append, List.mem_cons] at hr ⊢
      have hmem : r ∈ m.buf ++ [r0] → r ∈ (feedImu cfg m r0).buf := by
        intro hr
        refine mem_cleanOld hr ?_
        rcases oldest_le m.st with h | h
        · right; linarith
        · left; rw [h]; norm_num
      rcases hr with hr | rfl | hr
      · exact .inl (hmem (by simp [hr]))
      · exact .inl (hmem (by simp))
      · exact .inr hr
    | image db t upd =>
      have hoff1 := hoff.2 m1 h1
      have hu : ∀ op ∈ upd, Spec.UpdOp op := ho (.image db t upd) (by simp)
      obtain ⟨i1, _, _⟩ := image_some (cfg := cfg) hm hu h1
      simp only [Spec.imgTimes] at hs
      have ht : m.st.ts ≤ t := (List.pairwise_cons.1 hs).1 t (by simp)
      obtain ⟨a, b, _, _, d⟩ := i1 ht
      have hs1 : (m1.st.ts :: Spec.imgTimes es).Pairwise (· ≤ ·) := by rw [b]; exact (List.pairwise_cons.1 hs).2
      have hle : t ≤ m'.st.ts := by
        have := (C43_in_order cfg es m1 m' a ho' hs1 h2).1
        rw [this, ← b]
        have hs' := (List.pairwise_cons.1 hs1).1
        rcases List.eq_nil_or_concat (Spec.imgTimes es) with e | ⟨l, x, e⟩
        · rw [e]; exact le_rfl
        · have e' : Spec.imgTimes es = l ++ [x] := by simpa using e
          rw [e']
          have := hs' x (by rw [e]; simp)
          simpa using this
      have ih' := ih m1 a ho' hs1 hoff1 h2
      intro r hr hr1 hr2
      refine ih' r ?_ hr1 hr2
      simp only [Spec.readings, List.mem_append] at hr ⊢
      rcases hr with hr | hr
      · left
        rcases d with d | ⟨off', d1, d2⟩
        · rw [d]; exact hr
        · have := OffLe.head hoff1 off' d1
          rw [d2]
          exact mem_cleanOld hr (.inr (by linarith))
      · exact .inr hr

/-- **C89** (both consumers) Readings go to both consumers: as long as the zero velocity updater is in use (until the first feature update if it is only used at the beginning), for every sequence of readings and images, its readings are the ones the
propagator has. -/
theorem C89_same_readings (cfg : MCfg) : ∀ (evs : List Ev) (m m' : Mgr), m.zbuf = m.buf → runEvs lib cfg m evs = some m' → cfg.Z ≠ none → (cfg.onlyBeg = true → m'.moved = false) → m'.zbuf = m'.buf := by
  intro evs m m' hb h hZ hm'
  have hon : ∀ m : Mgr, (cfg.onlyBeg = true → m.moved = false) → ∃ Z, zuptOn cfg m = some Z := by
    intro m hm
    unfold zuptOn
    cases hz : cfg.Z with
    | none => exact absurd hz hZ
    | some Z =>
      refine ⟨Z, if_pos ?_⟩
      cases hb : cfg.onlyBeg with
      | false => exact .inl rfl
      | true => exact .inr (hm hb)
  have hprop : ∀ (m m1 : Mgr) (t : ℝ), propTo cfg m t = some m1 → m1.buf = m.buf ∧ m1.zbuf = m.zbuf ∧ m1.moved = m.moved := by
    intro m m1 t h
    unfold propTo at h
    split_ifs at h
    · rw [Option.map_eq_some_iff] at h
      obtain ⟨r, _, rfl⟩ := h
      exact ⟨rfl, rfl, rfl⟩
    · obtain rfl := Option.some.inj h
      exact ⟨rfl, rfl, rfl⟩
  have hfeat : ∀ (m m1 : Mgr) (t : ℝ) (upd : List Op), featUpdate lib cfg m t upd = some m1 → m1.buf = m.buf ∧ m1.zbuf = m.zbuf ∧ (m1.moved = false → m.moved = false) := by
    intro m m1 t upd h
    unfold featUpdate at h
    split_ifs at h
    · obtain rfl := Option.some.inj h
      exact ⟨rfl, rfl, id⟩
    · rw [Option.bind_eq_bind, Option.bind_eq_some_iff] at h
      obtain ⟨m2, h2, h⟩ := h
      obtain ⟨a, b, c⟩ := hprop _ _ _ h2
      split_ifs at h
      · obtain rfl := Option.some.inj h
        exact ⟨a, b, fun h => c ▸ h⟩
      · obtain rfl := Option.some.inj h
        exact ⟨a, b, fun h => c ▸ h⟩
      · rw [Option.bind_eq_bind, Option.bind_eq_some_iff] at h
        obtain ⟨s2, -, h⟩ := h
        rw [Option.bind_eq_some_iff] at h
        obtain ⟨s3, -, h⟩ := h
        obtain rfl := Option.some.inj h
        exact ⟨a, b, fun h => by simp at h⟩
  have hstep : ∀ (e : Ev) (m m1 : Mgr), e.run lib cfg m = some m1 → (m1.moved = false → m.moved = false) ∧
      ((cfg.onlyBeg = true → m.moved = false) → m.zbuf = m.buf → m1.zbuf = m1.buf) := by
    intro e m m1 h
    cases e with
    | imu r =>
      simp only [Ev.run, Option.some.injEq] at h
      subst h
      refine ⟨id, fun h1 h2 => ?_⟩
      obtain ⟨Z, hZ⟩ := hon m h1
      simp [feedImu, hZ, h2]
    | image db t upd =>
      simp only [Ev.run, image] at h
      cases hz : zuptOn cfg m with
      | none =>
        rw [hz] at h
        obtain ⟨a, b, c⟩ := hfeat _ _ _ _ h
        exact ⟨c, fun _ h2 => by rw [a, b]; exact h2⟩
      | some Z =>
        rw [hz] at h
        simp only [Option.bind_eq_bind, Option.bind_eq_some_iff] at h
        obtain ⟨m2, h2, h⟩ := h
        have h3 : m2.buf = m.buf ∧ m2.zbuf = m.zbuf ∧ m2.moved = m.moved := by
          unfold zuptTry at h2
          split_ifs at h2
          · rw [Option.map_eq_some_iff] at h2
            obtain ⟨r, _, rfl⟩ := h2
            exact ⟨rfl, rfl, rfl⟩
          · obtain rfl := Option.some.inj h2
            exact ⟨rfl, rfl, rfl⟩
        obtain ⟨a, b, c⟩ := h3
        split_ifs at h
        · rw [Option.bind_eq_some_iff] at h
          obtain ⟨off, _, h⟩ := h
          obtain rfl := Option.some.inj h
          exact ⟨fun h => c ▸ h, fun _ h2 => by simp only [a, b, h2]⟩
        · obtain ⟨a', b', c'⟩ := hfeat _ _ _ _ h
          exact ⟨fun h => c ▸ c' h, fun _ h2 => by rw [a', b', a, b]; exact h2⟩
  have hmov : ∀ (evs : List Ev) (m : Mgr), runEvs lib cfg m evs = some m' → m'.moved = false → m.moved = false := by
    intro evs
    induction evs with
    | nil => intro m h hm; obtain rfl := Option.some.inj h; exact hm
    | cons e es ih =>
      intro m h hm
      simp only [runEvs, Option.bind_eq_some_iff] at h
      obtain ⟨m1, h1, h2⟩ := h
      exact (hstep e m m1 h1).1 (ih m1 h2 hm)
  induction evs generalizing m with
  | nil => obtain rfl := Option.some.inj h; exact hb
  | cons e es ih =>
    have hm0 := hmov _ _ h
    simp only [runEvs, Option.bind_eq_some_iff] at h
    obtain ⟨m1, h1, h2⟩ := h
    exact ih m1 ((hstep e m m1 h1).2 (fun ho => hm0 (hm' ho)) hb) h2

/-- **C89** (bounded memory) After every reading, nothing older than a tenth of a second before the oldest clone is kept. -/
theorem C89_old_readings_dropped (cfg : MCfg) (m : Mgr) (r : Reading) (hc : ∃ c ∈ m.st.clones, c.1 ≤ m.st.ts) {a : ℝ} (ha : 0.1 ≤ a) (h : ∀ c ∈ m.st.clones, a ≤ c.1) :
    ∀ x ∈ (feedImu cfg m r).buf, a - 0.1 ≤ x.t := by
  have hmin : ∀ (l : List (ℝ × ℕ)) (acc : Option ℝ), (∀ c ∈ l, a ≤ c.1) → (∀ t, acc = some t → a ≤ t) → (acc = none → l ≠ []) →
      ∃ t, l.foldl (fun acc c => match acc with | none => some c.1 | some t => if c.1 < t then some c.1 else some t) acc = some t ∧ a ≤ t ∧ (∀ c ∈ l, t ≤ c.1) ∧ ∀ t', acc = some t' → t ≤ t' := by
    intro l
    induction l with
    | nil =>
      intro acc _ h2 h3
      cases acc with
      | none => exact absurd rfl (h3 rfl)
      | some t => exact ⟨t, rfl, h2 t rfl, by simp, fun t' e => by rw [Option.some.inj e]⟩
    | cons c l ih =>
      intro acc h1 h2 h3
      rw [List.foldl_cons]
      have hc := h1 c (by simp)
      cases acc with
      | none =>
        obtain ⟨t, e1, e2, e3, e4⟩ := ih (some c.1) (fun d hd => h1 d (by simp [hd])) (fun t e => by rw [← Option.some.inj e]; exact hc) (by simp)
        refine ⟨t, e1, e2, fun d hd => ?_, by simp⟩
        rcases List.mem_cons.1 hd with rfl | hd
        · exact e4 _ rfl
        · exact e3 d hd
      | some t0 =>
        have ht0 := h2 t0 rfl
        simp only
        split_ifs with hlt
        · obtain ⟨t, e1, e2, e3, e4⟩ := ih (some c.1) (fun d hd => h1 d (by simp [hd])) (fun t e => by rw [← Option.some.inj e]; exact hc) (by simp)
          refine ⟨t, e1, e2, fun d hd => ?_, fun t' e => by rw [← Option.some.inj e]; exact (e4 _ rfl).trans hlt.le⟩
          rcases List.mem_cons.1 hd with rfl | hd
          · exact e4 _ rfl
          · exact e3 d hd
        · obtain ⟨t, e1, e2, e3, e4⟩ := ih (some t0) (fun d hd => h1 d (by simp [hd])) (fun t e => by rw [← Option.some.inj e]; exact ht0) (by simp)
          refine ⟨t, e1, e2, fun d hd => ?_, e4⟩
          rcases List.mem_cons.1 hd with rfl | hd
          · exact (e4 _ rfl).trans (not_lt.1 hlt)
          · exact e3 d hd
  obtain ⟨c, hc1, hc2⟩ := hc
  obtain ⟨t, e1, e2, e3, _⟩ := hmin m.st.clones none h (by simp) (fun _ => List.ne_nil_of_mem hc1)
  have ho : oldestTime m.st = t := by
    have hmt : margtimestep m.st = some t := e1
    unfold oldestTime
    rw [hmt]
    simp only
    rw [if_neg (not_lt.2 ((e3 c hc1).trans hc2))]
  intro x hx
  simp only [feedImu, feed, ho, Imu.cleanOld] at hx
  rw [if_neg (by norm_num at ha ⊢; linarith), List.mem_filter] at hx
  have := hx.2
  rw [decide_eq_true_eq, not_lt] at this
  linarith

/-- **C89** (what is false) The discard time does not contain the camera-IMU offset. With an offset below `-0.1` and all clones at the state's time (as directly after initialisation), after one more reading the buffer contains no reading at or before the start of the
next propagation, whatever was received. -/
theorem C89_negative_offset_wrong (cfg : MCfg) (m : Mgr) (r : Reading) (hne : m.st.clones ≠ []) (hc : ∀ c ∈ m.st.clones, c.1 = m.st.ts) (hts : 0.1 ≤ m.st.ts) {off : ℝ} (hoff : off < -0.1) :
    ¬ ∃ a ∈ (feedImu cfg m r).buf, a.t ≤ m.st.ts + off := by
  rintro ⟨a, h1, h2⟩
  obtain ⟨c, hcm⟩ := List.exists_mem_of_ne_nil _ hne
  have := C89_old_readings_dropped cfg m r ⟨c, hcm, (hc c hcm).le⟩ hts (fun c hc' => (hc c hc').ge) a h1
  linarith

/-! ### the hypotheses are met -/

/-- a manager at time 0, offset one second, readings at 0 and 10, no zero velocity updates -/
noncomputable def exM (N : Noise) : Mgr := ⟨exS, ⟨0, 0, none⟩, none, false, false, [exRd N.g 0], [], []⟩

/-- a reading and an image at time 2 are completed, the state is then at time 2 with one clone there; a stale image at time 1 changes nothing. -/
example (hlib : St.Spec.LibOK lib) (po : POpts) (N : Noise) :
    ∃ m', runEvs lib ⟨none, false, po, N⟩ (exM N) [.imu (exRd N.g 10), .image [] 2 [], .image [] 1 []] = some m' ∧ m'.st.ts = 2 ∧ exRd N.g 10 ∈ m'.buf := by
  have hbuf : (feedImu ⟨none, false, po, N⟩ (exM N) (exRd N.g 10)).buf = [exRd N.g 0, exRd N.g 10] := by
    have : oldestTime exS = -1 := by simp [oldestTime, margtimestep, exS, ctor, ctorVars, St.Spec.o0, push]
    simp only [feedImu, feed, exM, this, Imu.cleanOld]
    norm_num
  obtain ⟨m1, h1, h2⟩ := C78_image_completes (o := St.Spec.o0) hlib ⟨none, false, po, N⟩ (feedImu ⟨none, false, po, N⟩ (exM N) (exRd N.g 10)) (exS_prog lib)
    (by simp [feedImu, exM, exS, ctor, ctorVars, St.Spec.o0, push]) (off := 1) (t := 2) exS_off (by simp [feedImu, exM, exS])
    (by rw [hbuf]; simp [Imu.Spec.Sorted, exRd]) (by simp [feedImu, exM, exS]) ⟨exRd N.g 0, by rw [hbuf]; simp, by simp [feedImu, exM, exS, exRd]⟩
    ⟨exRd N.g 10, by rw [hbuf]; simp, by norm_num [exRd]⟩ (by rw [hbuf]; norm_num) (hist := (.empty : Hist ℝ Uv)) rfl (by simp) [] (by simp) (fun s1 _ _ => ⟨s1, rfl⟩)
  have hp : St.Spec.Prog lib St.Spec.o0 (feedImu ⟨none, false, po, N⟩ (exM N) (exRd N.g 10)).st := (exS_prog lib).prog
  obtain ⟨i1, _, _⟩ := image_some hp (by simp) h1
  obtain ⟨p1, _, _, _, p5⟩ := i1 (by simp [feedImu, exM, exS])
  have hst : image lib ⟨none, false, po, N⟩ m1 [] 1 [] = some { m1 with db := [] } := by
    simp only [image, zuptOn, featUpdate]
    rw [if_pos (by rw [h2]; norm_num)]
  refine ⟨{ m1 with db := [] }, ?_, h2, ?_⟩
  · simp only [runEvs, Ev.run, Option.bind_some, h1, hst]
  · show exRd N.g 10 ∈ m1.buf
    rcases p5 with e | ⟨off, e1, e2⟩
    · rw [e, hbuf]; simp
    · rw [e2]
      refine mem_cleanOld (by rw [hbuf]; simp) ?_
      right
      have : featUpdate lib ⟨none, false, po, N⟩ { feedImu ⟨none, false, po, N⟩ (exM N) (exRd N.g 10) with db := [] } 2 [] = some m1 := h1
      obtain ⟨_, _, _, _, e⟩ := feat_some (o := St.Spec.o0) (exS_prog lib).prog (by simp) this (by simp [feedImu, exM, exS])
      rw [e2] at e
      by_contra hlt
      have hmem : exRd N.g 10 ∈ (feedImu ⟨none, false, po, N⟩ (exM N) (exRd N.g 10)).buf := by rw [hbuf]; simp
      have hm2 : exRd N.g 10 ∈ Imu.cleanOld (2 + off - 0.10) (feedImu ⟨none, false, po, N⟩ (exM N) (exRd N.g 10)).buf := by
        have e' : Imu.cleanOld (2 + off - 0.10) (feedImu ⟨none, false, po, N⟩ (exM N) (exRd N.g 10)).buf = (feedImu ⟨none, false, po, N⟩ (exM N) (exRd N.g 10)).buf := e
        rw [e']; exact hmem
      unfold Imu.cleanOld at hm2
      have h10 : (exRd N.g 10).t = 10 := rfl
      rw [h10] at hlt
      split_ifs at hm2 with hneg
      · norm_num at hlt hneg; linarith
      · have := (List.mem_filter.1 hm2).2
        rw [decide_eq_true_eq, not_lt, h10] at this
        exact hlt this

/-- the hypotheses of `C89_readings_kept_partial` are met: one second is a bound for the offset of the example while readings come in -/
example (po : POpts) (N : Noise) : St.Spec.Prog lib St.Spec.o0 (exM N).st ∧ Spec.OffLe lib ⟨none, false, po, N⟩ 1 (exM N) [.imu (exRd N.g 10), .imu (exRd N.g 11)] ∧
    ∃ m', runEvs lib ⟨none, false, po, N⟩ (exM N) [.imu (exRd N.g 10), .imu (exRd N.g 11)] = some m' ∧ tOff m'.st = some 1 := by
  have h1 : ∀ d, tOff exS = some d → d ≤ 1 := fun d hd => by
    rw [exS_off] at hd
    exact (Option.some.inj hd).ge
  refine ⟨(exS_prog lib).prog, ⟨h1, fun m1 hm1 => ⟨?_, fun m2 hm2 => ?_⟩⟩, _, rfl, exS_off⟩
  · simp only [Ev.run, Option.some.injEq] at hm1
    subst hm1
    exact h1
  · simp only [Ev.run, Option.some.injEq] at hm1 hm2
    subst hm1 hm2
    exact h1

/-- the hypotheses of `C89_negative_offset_wrong` are met by a program state with offset `-1/2` and a clone at its time. -/
example (lib : Lib) : ∃ s, St.Spec.Prog lib St.Spec.o0 s ∧ tOff s = some (-1 / 2) ∧ s.clones ≠ [] ∧ (∀ c ∈ s.clones, c.1 = s.ts) ∧ s.ts = 5 := by
  have h0 : St.Spec.Prog lib St.Spec.o0 { ctor St.Spec.o0 with ts := 5, obj := fun w => if w = 6 then { (ctor St.Spec.o0).obj 6 with val := .vec 1 fun _ => -1 / 2 } else (ctor St.Spec.o0).obj w } := by
    refine ⟨[.setVal 6 (.vec 1 fun _ => -1 / 2), .setTime 5], ?_, ?_⟩
    · intro op hop
      simp only [List.mem_cons, List.not_mem_nil, or_false] at hop
      rcases hop with rfl | rfl <;> trivial
    · simp [run, St.step, ctor, ctorVars, St.Spec.o0, push, heap0, sameKind]
  have hcl : (ctor St.Spec.o0).clones = [] := by simp [ctor, ctorVars, St.Spec.o0, push]
  obtain ⟨s', hs'⟩ := augment_returns h0 (by simp [hcl]) 0
  obtain ⟨a0, a1, a2, a3, a4, a5, a6, a7, _⟩ := augment_maps (reach_inv h0.reach) hs'
  simp only at a1 a4 a7
  rw [hcl] at a1
  refine ⟨s', h0.step (op := .augment 0) trivial hs', ?_, ?_, ?_, a4⟩
  · have : (6 : ℕ) < (ctor St.Spec.o0).next := by simp [ctor, ctorVars, St.Spec.o0, push]
    unfold tOff
    rw [show dtUid = 6 from rfl, a7 6 this]
    simp
  · rw [a1]; simp [insertClone]
  · intro c hc
    rw [a1] at hc
    simp only [insertClone, List.mem_singleton] at hc
    rw [hc, a4]

end Verif.Vio
