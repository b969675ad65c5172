import Verif.Vio.Boot
import Verif.Vio.PropsStream
import Verif.Vio.PropsLoop
import Verif.Init.PropsB

/-!
# From power on to the first images (C113)
-/

set_option autoImplicit false
set_option linter.unusedVariables false
open Classical

namespace Verif.Vio

open Verif Verif.Types Verif.St Verif.Imu Verif.Prop_ Verif.Feat Verif.Disp

variable {lib : Lib} {o : Opts} {s s' : State} {B : BCfg} {b b' : Boot} {off w g last : ℝ} {old prior : List Reading} {seen : List Meas}

namespace Spec

/-- a live stream of sensor data, described without reference to the filter: `last` is the time of the image before (before the first one: any earlier time), `old` the readings that had come by then, `prior` those that have come by now, `seen` what
the trackers reported. Times of readings are not negative; readings come in order, at most `g` apart. Images come in order, and when one comes: a reading at or after its time (on the IMU clock) has come; no reading is more than half the
initialisation window `w` newer than the image, or than the readings at the image before; there are fewer than ten million readings in the last window and second. -/
def BStream (o : Opts) (off w g : ℝ) : ℝ → List Reading → List Reading → List Meas → List LEv → Prop
  | _, _, _, _, [] => True
  | last, old, prior, seen, .imu r :: es => 0 ≤ r.t ∧ (∀ a ∈ prior, a.t < r.t) ∧ (prior = [] ∨ ∃ a ∈ prior, r.t - g ≤ a.t) ∧ BStream o off w g last old (prior ++ [r]) seen es
  | last, old, prior, seen, .shot S :: es => ShotOK o seen S ∧ last < S.t ∧ (∃ a ∈ prior, S.t + off ≤ a.t) ∧ (∀ a ∈ prior, a.t ≤ S.t + w / 2) ∧ (old = [] ∨ ∀ a ∈ prior, ∃ c ∈ old, a.t ≤ c.t + w / 2) ∧
      (Imu.Spec.inside (S.t + off - (w + 1)) (S.t + off) prior).length < 10 ^ 7 ∧ BStream o off w g S.t prior prior (seen ++ measured S) es

/-- configuration: the initialisers use the same camera-IMU time offset as the filter and a window of at least a fifth of a second; the time offset is not estimated; the covariance of the dynamic initialiser is one (symmetric, positive
semi-definite); gaps between readings are at most a tenth of a second, less by how much the offset is below zero. -/
structure BootCfg (o : Opts) (off w g : ℝ) (B : BCfg) : Prop where
  cfg : CfgOK o B.F
  two : 2 ≤ o.maxClones
  repS : B.F.slam.repS ≠ .anchoredSingle
  repA : B.F.slam.repA ≠ .anchoredSingle
  win : B.P.windowTime = w
  long : 0.2 ≤ w
  dt : B.P.camimuDt = off
  gap : 0 ≤ g ∧ g ≤ 0.1 ∧ g ≤ 0.1 + off
  dyn : ∀ db buf x C, B.dyn db buf = some (x, some C) → Mat.Sym 15 C ∧ Mat.PSD 15 C

/-- the state before the filter is started: a state of the program with the covariance and the variables of the constructor, no clones, no landmarks, and the given camera-IMU time offset. -/
structure Fresh (lib : Lib) (o : Opts) (off : ℝ) (s : State) : Prop where
  prog : St.Spec.ProgOK lib o s
  P : s.P = (ctor o).P
  n : s.n = (ctor o).n
  vars : s.vars = ctorVars o
  clones : s.clones = []
  slam : s.slam = []
  toff : tOff s = some off
  fixed : dtUid ∉ s.vars

/-- the manager after power on: nothing has come in. -/
structure PowerOn (lib : Lib) (o : Opts) (off : ℝ) (b : Boot) : Prop where
  st : Fresh lib o off b.x.m.st
  inited : b.inited = false
  success : b.success = false
  poff : b.x.m.off = none
  zoff : b.x.m.zmem.off = none
  did : b.x.m.did = false
  buf : b.x.m.buf = []
  zbuf : b.x.m.zbuf = []
  ibuf : b.ibuf = []
  db : b.x.m.db = []
  aruco : b.x.aruco = none ∨ b.x.aruco = some []
  log : b.x.log = []

/-- two states that differ at most in the IMU state, which has the same place. -/
structure SameButImu (s s' : State) : Prop where
  place : resolve s' (imuUid, .self) = resolve s (imuUid, .self)
  obj : ∀ u, u ≠ imuUid → s'.obj u = s.obj u
  vars : s'.vars = s.vars
  n : s'.n = s.n
  P : s'.P = s.P
  clones : s'.clones = s.clones
  slam : s'.slam = s.slam
  ts : s'.ts = s.ts
  cam : s'.cam = s.cam

/-- two states that differ at most in the IMU state, the covariance of the IMU state and the time. -/
structure Started (s s' : State) : Prop where
  obj : ∀ u, u ≠ imuUid → s'.obj u = s.obj u
  vars : s'.vars = s.vars
  n : s'.n = s.n
  P : ∃ k, resolve s (imuUid, .self) = some (k, 15) ∧ ∀ i j, i < s.n → j < s.n → ¬ ((k ≤ i ∧ i < k + 15) ∧ (k ≤ j ∧ j < k + 15)) → s'.P i j = s.P i j
  clones : s'.clones = s.clones
  slam : s'.slam = s.slam
  cam : s'.cam = s.cam

end Spec

/-! ## readings -/

/-- between two readings there is one at most `g` before any given time. -/
def Dense (g : ℝ) (prior : List Reading) : Prop := ∀ a ∈ prior, ∀ c ∈ prior, ∀ τ, a.t ≤ τ → τ ≤ c.t → ∃ d ∈ prior, τ - g ≤ d.t ∧ d.t ≤ τ

theorem dense_snoc (h : Dense g prior) (hg : 0 ≤ g) {r : Reading} (hlt : ∀ a ∈ prior, a.t < r.t) (hr : prior = [] ∨ ∃ a ∈ prior, r.t - g ≤ a.t) : Dense g (prior ++ [r]) := by
  intro a ha' c hc τ h1 h2
  rcases List.mem_append.1 ha' with ha | ha
  · rcases List.mem_append.1 hc with hc | hc
    · obtain ⟨d, d1, d2⟩ := h a ha c hc τ h1 h2
      exact ⟨d, List.mem_append_left _ d1, d2⟩
    · obtain rfl := List.mem_singleton.1 hc
      rcases hr with hr | ⟨q, hq, hq'⟩
      · simp [hr] at ha
      · by_cases e : q.t ≤ τ
        · exact ⟨q, List.mem_append_left _ hq, by linarith, e⟩
        · obtain ⟨d, d1, d2⟩ := h a ha q hq τ h1 (not_le.1 e).le
          exact ⟨d, List.mem_append_left _ d1, d2⟩
  · obtain rfl := List.mem_singleton.1 ha
    have : c.t ≤ a.t := by
      rcases List.mem_append.1 hc with hc | hc
      · exact (hlt c hc).le
      · rw [List.mem_singleton.1 hc]
    exact ⟨a, List.mem_append_right _ (by simp), by linarith, h1⟩

theorem dropOld_eq (τ : ℝ) : ∀ {buf : List Reading}, Imu.Spec.Sorted buf → Init.dropOldImu τ buf = buf.filter fun r => decide (¬ r.t < τ)
  | [], _ => rfl
  | a :: l, h => by
    obtain ⟨h1, h2⟩ := List.pairwise_cons.1 h
    unfold Init.dropOldImu
    rw [List.dropWhile_cons, List.filter_cons]
    by_cases c : a.t < τ
    · rw [if_pos (by simpa using c), if_neg (by simpa using c)]
      exact dropOld_eq τ h2
    · rw [if_neg (by simpa using c), if_pos (by simpa using c)]
      congr 1
      symm
      rw [List.filter_eq_self]
      intro x hx
      have := h1 x hx
      simp only [decide_eq_true_eq]
      linarith [not_lt.1 c]

/-- a list with its oldest readings removed. -/
structure Kept (l l' : List Reading) : Prop where
  sub : l'.Sublist l
  up : ∀ a ∈ l', ∀ q ∈ l, a.t ≤ q.t → q ∈ l'

theorem Kept.refl (l : List Reading) : Kept l l := ⟨List.Sublist.refl _, fun _ _ q hq _ => hq⟩

theorem Kept.trans {l l' l'' : List Reading} (h : Kept l l') (h' : Kept l' l'') : Kept l l'' :=
  ⟨h'.sub.trans h.sub, fun a ha q hq hle => h'.up a ha q (h.up a (h'.sub.subset ha) q hq hle) hle⟩

theorem kept_filter (τ : ℝ) (l : List Reading) : Kept l (l.filter fun r => decide (¬ r.t < τ)) := by
  refine ⟨List.filter_sublist, fun a ha q hq hle => ?_⟩
  have := (List.mem_filter.1 ha).2
  simp only [decide_eq_true_eq, not_lt] at this
  exact List.mem_filter.2 ⟨hq, by simp only [decide_eq_true_eq, not_lt]; linarith⟩

theorem kept_drop (τ : ℝ) {l : List Reading} (h : Imu.Spec.Sorted l) : Kept l (Init.dropOldImu τ l) := by
  rw [dropOld_eq τ h]; exact kept_filter τ l

/-! ## databases -/

theorem tidy_nil (o : Opts) (T : ℝ) (range : ℕ → Prop) : Spec.Tidy o T range [] :=
  ⟨⟨⟨.empty, rfl⟩, by simp⟩, by simp [AMap.get?], by simp [obs, AMap.get?], by simp [obs, AMap.get?], by simp [AMap.get?]⟩

theorem tidy_mono {o : Opts} {T T' : ℝ} {range : ℕ → Prop} {db : DB ℝ Uv} (h : Spec.Tidy o T range db) (hle : T ≤ T') : Spec.Tidy o T' range db :=
  ⟨h.ok, h.live, h.incr, fun id cam x hx => (h.le id cam x hx).trans hle, h.ids⟩

theorem cleanup_tidy {T : ℝ} {range : ℕ → Prop} {db : DB ℝ Uv} (h : Spec.Tidy o T range db) (t : ℝ) :
    ∃ db', cleanupMeasurements db t = some db' ∧ Spec.Tidy o T range db' ∧ Shrinks db db' ∧ ∀ id cam, obs db' id cam = (obs db id cam).filter fun x => t < x.1 := by
  obtain ⟨hi, hh⟩ := h.ok.1
  obtain ⟨db', h1, h2, -⟩ := C17_cleanup_measurements hi db hh t
  obtain ⟨k, -⟩ := shrinks_cleanup _ h.ok.wf h1
  exact ⟨db', h1, h.shrinks k (h.ok.shrinks k (q := .cleanupMeasurements t) h1), k, h2⟩

theorem newest_le {T : ℝ} {range : ℕ → Prop} {db : DB ℝ Uv} (h : Spec.Tidy o T range db) (h0 : 0 ≤ Init.newestCam db) : Init.newestCam db ≤ T := by
  rw [Init.newestCam_eq] at h0 ⊢
  rcases (Init.foldl_max_ge (Init.allTimes db) (-1)).2.2 with e | e
  · rw [e] at h0; norm_num at h0
  · obtain ⟨id, cam, x, hx, ht⟩ := (Init.mem_allTimes h.ok.wf _).1 e
    rw [← ht]; exact h.le id cam x hx

/-! ## the initialisers -/

theorem choose_ok {T : ℝ} {range : ℕ → Prop} {db : DB ℝ Uv} {buf : List Reading} (h : Spec.Tidy o T range db) (hs : Imu.Spec.Sorted buf) (P : Init.Params) (wait : Bool) :
    ∃ c db' buf', Init.choose P db buf wait = some (c, db', buf') ∧ Spec.Tidy o T range db' ∧ Shrinks db db' ∧ Kept buf buf' := by
  obtain ⟨hi, hh⟩ := h.ok.1
  obtain ⟨nw, db', s0, s1, c, -, h2, -, -, h5⟩ := Init.C52_choice hi db hh h.incr P buf wait
  have h6 := h5.1
  obtain ⟨db2, k1, k2, k3, -⟩ := cleanup_tidy h (nw - P.windowTime - 0.1)
  rw [h2] at k1
  obtain rfl := Option.some.inj k1
  by_cases e : nw < 0 ∨ nw - P.windowTime - 0.1 < 0
  · rw [if_pos e] at h6
    exact ⟨c, db, buf, h6, h, Shrinks.refl _, Kept.refl _⟩
  · rw [if_neg e] at h6
    exact ⟨c, db', _, h6, k2, k3, kept_drop _ hs⟩

/-- what is known when an initialiser succeeds with time `t`: it used the older half of a window that ends with the newest reading (static), or the newest measurement, with readings from a window before it (dynamic). -/
def InitTime (off w : ℝ) (T : ℝ) (buf : List Reading) (t : ℝ) : Prop :=
  (∃ o1 ∈ buf, ∃ n1 ∈ buf, o1.t ≤ n1.t - w ∧ (∀ q ∈ buf, q.t ≤ n1.t) ∧ (∃ l ∈ buf, l.t = t) ∧ n1.t - w < t ∧ t ≤ n1.t - w / 2 ∧ ∀ q ∈ buf, n1.t - w < q.t → q.t ≤ n1.t - w / 2 → q.t ≤ t) ∨
  (0 ≤ t ∧ t ≤ T ∧ ∃ p ∈ buf, p.t < t - w + off)

theorem last_ge : ∀ {l : List Reading} {z : Reading}, Imu.Spec.Sorted l → l.getLast? = some z → ∀ q ∈ l, q.t ≤ z.t := by
  intro l z hs hl q hq
  obtain ⟨m, rfl⟩ := List.getLast?_eq_some_iff.1 hl
  rcases List.mem_append.1 hq with h | h
  · exact ((List.pairwise_append.1 hs).2.2 q h z (by simp)).le
  · rw [List.mem_singleton.1 h]

theorem staticCov_ok : Mat.Sym 15 Init.staticCov ∧ Mat.PSD 15 Init.staticCov := by
  have : DiagNN Init.staticCov := by
    intro i j
    refine ⟨fun e => by simp [Init.staticCov, e], ?_⟩
    simp only [Init.staticCov, if_true]
    split_ifs <;> positivity
  exact ⟨this.sym _, this.psd _⟩

theorem gtCov_ok : Mat.Sym 15 gtCov ∧ Mat.PSD 15 gtCov := by
  have : DiagNN gtCov := by
    intro i j
    refine ⟨fun e => by simp [gtCov, e], ?_⟩
    simp only [gtCov, if_true]
    split_ifs <;> positivity
  exact ⟨this.sym _, this.psd _⟩

theorem static_ok {buf buf' : List Reading} (hs : Imu.Spec.Sorted buf) (hk : Kept buf buf') {P : Init.Params} {wait : Bool} {r : Init.StaticResult} (h : Init.staticInit P buf' wait = some r) (T : ℝ) :
    InitTime off P.windowTime T buf r.time ∧ r.cov = Init.staticCov := by
  obtain ⟨o1, n1, l, hG, hl, rfl⟩ := (Init.static_iff P buf' wait r).1 h
  obtain ⟨-, g2, g3, g4, -⟩ := hG
  have hs' : Imu.Spec.Sorted buf' := hs.sublist hk.sub
  have hn : n1 ∈ buf' := List.mem_of_getLast? g3
  have hlm := List.mem_of_getLast? hl
  simp only [Init.Spec.between, List.mem_filter, decide_eq_true_eq] at hlm
  refine ⟨.inl ⟨o1, hk.sub.subset (List.mem_of_head? g2), n1, hk.sub.subset hn, by linarith, fun q hq => ?_, ⟨l, hk.sub.subset hlm.1, rfl⟩, hlm.2.1, hlm.2.2, fun q hq h1 h2 => ?_⟩, rfl⟩
  · by_contra hc
    push Not at hc
    have := last_ge hs' g3 q (hk.up n1 hn q hq hc.le)
    linarith
  · have ho : o1 ∈ buf' := List.mem_of_head? g2
    have hq' : q ∈ buf' := hk.up o1 ho q hq (by linarith)
    have hb : q ∈ Init.Spec.between (n1.t - P.windowTime) (n1.t - P.windowTime / 2) buf' := by
      simp only [Init.Spec.between, List.mem_filter, decide_eq_true_eq]; exact ⟨hq', h1, h2⟩
    have hsb : Imu.Spec.Sorted (Init.Spec.between (n1.t - P.windowTime) (n1.t - P.windowTime / 2) buf') := hs'.filter _
    exact last_ge hsb hl q hb

theorem dynInit_ok {T : ℝ} {range : ℕ → Prop} {db : DB ℝ Uv} {buf : List Reading} (h : Spec.Tidy o T range db) (hs : Imu.Spec.Sorted buf) :
    ∃ out db' buf', dynInit B db buf = some (out, db', buf') ∧ Spec.Tidy o T range db' ∧ Shrinks db db' ∧ Kept buf buf' ∧
      ∀ t x C, out = .ok t x C → 0 ≤ t ∧ t ≤ T ∧ (∃ p ∈ buf, p.t < t - B.P.windowTime + B.P.camimuDt) ∧ ∃ db1 buf1, B.dyn db1 buf1 = some (x, some C) := by
  unfold dynInit
  simp only
  by_cases e : Init.newestCam db < 0 ∨ Init.newestCam db - B.P.windowTime < 0
  · rw [if_pos e]
    exact ⟨_, _, _, rfl, h, Shrinks.refl _, Kept.refl _, by simp⟩
  · rw [if_neg e]
    push Not at e
    obtain ⟨db1, k1, k2, k3, -⟩ := cleanup_tidy h (Init.newestCam db - B.P.windowTime)
    rw [k1]
    simp only [Option.bind_eq_bind, Option.bind_some]
    have hk := kept_drop (Init.newestCam db - B.P.windowTime + B.P.camimuDt) hs
    split_ifs with c1 c2
    · exact ⟨_, _, _, rfl, k2, k3, hk, by simp⟩
    · exact ⟨_, _, _, rfl, k2, k3, hk, by simp⟩
    · push Not at c2
      have hp : ∃ p ∈ buf, p.t < Init.newestCam db - B.P.windowTime + B.P.camimuDt := by
        have := c2.2
        cases buf with
        | nil => simp at this
        | cons r l => exact ⟨r, by simp, by simpa using this⟩
      split
      · exact ⟨_, _, _, rfl, k2, k3, hk, by simp⟩
      · exact ⟨_, _, _, rfl, k2, k3, hk, by simp⟩
      · rename_i x C hd
        refine ⟨_, _, _, rfl, k2, k3, hk, fun t x' C' he => ?_⟩
        cases he
        exact ⟨e.1, newest_le h e.1, hp, _, _, hd⟩

theorem runInit_ok (hB : Spec.BootCfg o off w g B) {T : ℝ} {range : ℕ → Prop} {db : DB ℝ Uv} {buf : List Reading} (h : Spec.Tidy o T range db) (hs : Imu.Spec.Sorted buf) (wait : Bool) :
    ∃ out db' buf', Vio.runInit B db buf wait = some (out, db', buf') ∧ Spec.Tidy o T range db' ∧ Shrinks db db' ∧ Kept buf buf' ∧
      ∀ t x C, out = .ok t x C → InitTime off w T buf t ∧ Mat.Sym 15 C ∧ Mat.PSD 15 C := by
  obtain ⟨c, db1, buf1, h1, h2, h3, h4⟩ := choose_ok h hs B.P wait
  unfold Vio.runInit
  rw [h1]
  simp only [Option.bind_eq_bind, Option.bind_some]
  cases c with
  | fail => exact ⟨_, _, _, rfl, h2, h3, h4, by simp⟩
  | static =>
    simp only
    cases hst : Init.staticInit B.P buf1 wait with
    | none => exact ⟨_, _, _, rfl, h2, h3, h4, by simp⟩
    | some r =>
      refine ⟨_, _, _, rfl, h2, h3, h4, fun t x C he => ?_⟩
      cases he
      obtain ⟨q1, q2⟩ := static_ok (off := off) hs h4 hst T
      rw [hB.win] at q1
      rw [q2]
      exact ⟨q1, staticCov_ok⟩
  | dynamic =>
    obtain ⟨out, db2, buf2, q1, q2, q3, q4, q5⟩ := dynInit_ok (B := B) h2 (hs.sublist h4.sub)
    refine ⟨out, db2, buf2, q1, q2, h3.trans q3, h4.trans q4, fun t x C he => ?_⟩
    obtain ⟨r1, r2, ⟨p, p1, p2⟩, db3, buf3, r4⟩ := q5 t x C he
    rw [hB.win, hB.dt] at p2
    exact ⟨.inr ⟨r1, r2, p, h4.sub.subset p1, p2⟩, hB.dyn _ _ _ _ r4⟩

/-! ## the start -/

theorem fresh_imu (h : Spec.Fresh lib o off s) (x : Imu16) : Spec.Fresh lib o off (setImu s x x) ∧ Spec.SameButImu s (setImu s x x) := by
  refine ⟨⟨setImu_prog h.prog x x, h.P, h.n, h.vars, h.clones, h.slam, ?_, h.fixed⟩, ⟨?_, fun u hu => by simp [setImu, hu], rfl, rfl, rfl, rfl, rfl, rfl, rfl⟩⟩
  swap
  · have hu : imuUid ∈ s.vars := (prog_W h.prog.prog).mem (zero_mem_ctorVars o)
    obtain ⟨k, hk, -, hr⟩ := (reach_inv h.prog.prog.reach).resolve_self hu
    obtain ⟨k', hk', -, hr'⟩ := (reach_inv (setImu_prog h.prog x x).prog.reach).resolve_self (u := imuUid) hu
    obtain ⟨x0, f0, h0, -⟩ := prog_imu h.prog.prog
    have e1 : osz (setImu s x x).obj imuUid = 15 := by simp [osz, setImu, Val.size]
    have e2 : osz s.obj imuUid = 15 := by simp [osz, h0, Val.size]
    have : ((setImu s x x).obj imuUid).id = (s.obj imuUid).id := by simp [setImu]
    rw [hk, hk'] at this
    have : k' = k := by exact_mod_cast this
    rw [hr, hr', e1, e2, this]
  rw [← h.toff]
  simp [tOff, setImu, dtUid, imuUid]

/-- what `initialize_with_gt` and `try_to_initialize` do to the state and the databases. -/
structure StartOK (lib : Lib) (o : Opts) (b : Boot) (t : ℝ) (x : Imu16) (C : Mat) (b' : Boot) : Prop where
  prog : St.Spec.ProgOK lib o b'.x.m.st
  st : Spec.Started b.x.m.st b'.x.m.st
  cov : St.Spec.SameMat (getMarginal b'.x.m.st [(imuUid, .self)]) (some ⟨15, 15, C⟩)
  val : (b'.x.m.st.obj imuUid).val = .imu x ∧ (b'.x.m.st.obj imuUid).fej = .imu x
  ts : b'.x.m.st.ts = t
  shr : Shrinks b.x.m.db b'.x.m.db
  db : ∀ id cam, obs b'.x.m.db id cam = (obs b.x.m.db id cam).filter fun z => t < z.1
  rest : b' = { b with x := { b.x with m := { b.x.m with st := b'.x.m.st, db := b'.x.m.db } }, startup := t }

theorem start_ok (hf : Spec.Fresh lib o off b.x.m.st) {T : ℝ} {range : ℕ → Prop} (hd : Spec.Tidy o T range b.x.m.db) (ha : b.x.aruco = none ∨ b.x.aruco = some []) (t : ℝ) (x : Imu16) {C : Mat} (hC : Mat.Sym 15 C ∧ Mat.PSD 15 C) :
    ∃ b', start b t x C = some b' ∧ Spec.Tidy o T range b'.x.m.db ∧ StartOK lib o b t x C b' := by
  obtain ⟨hf1, hsame⟩ := fresh_imu hf x
  have hW := prog_W hf1.prog.prog
  have hI := reach_inv hf1.prog.prog.reach
  have hu : imuUid ∈ (setImu b.x.m.st x x).vars := hW.mem (zero_mem_ctorVars o)
  obtain ⟨k, hk, hle, hr⟩ := hI.resolve_self hu
  have hsz : osz (setImu b.x.m.st x x).obj imuUid = 15 := by simp [osz, setImu, Val.size]
  rw [hsz] at hr hle
  have hres : resolveAll (setImu b.x.m.st x x) [(imuUid, .self)] = some [(k, 15)] := by simp [resolveAll, hr]
  have hdis : St.Spec.Disjoint [(k, 15)] := by simp [St.Spec.Disjoint]
  have hin : ∀ i, St.Spec.In [(k, 15)] i ↔ k ≤ i ∧ i < k + 15 := by intro i; simp [St.Spec.In]
  obtain ⟨s1, q1, q2, q3, q4, q5, q6⟩ := C13_set_then_get hf1.prog.prog.reach [(imuUid, .self)] ⟨15, 15, C⟩ [(k, 15)] hres hdis (by simp [tot]) (by simp [tot]) (fun i j hi hj => hC.1 i j hi hj)
  have hargs : St.Spec.ArgsOK (setImu b.x.m.st x x) (.setInit ⟨15, 15, C⟩ [(imuUid, .self)]) := by
    intro L hL
    rw [hres] at hL
    obtain rfl := Option.some.inj hL
    refine ⟨hdis, by simpa [tot] using hC.1, by simpa [tot] using hC.2, fun i j hi hj h1 h2 => ?_⟩
    rw [hf1.P]
    exact (ctor_diag o i j).1 (fun e => h2 (e ▸ h1))
  have hp1 := progOK_step hf1.prog (op := .setInit ⟨15, 15, C⟩ [(imuUid, .self)]) trivial hargs q1
  have hp2 := progOK_step hp1 (op := .setTime t) trivial trivial (s' := { s1 with ts := t }) rfl
  obtain ⟨db', d1, d2, d3, d4⟩ := cleanup_tidy hd t
  have heq : ∃ P, s1 = { setImu b.x.m.st x x with P := P } := by
    unfold setInit at q1
    rw [hres] at q1
    simp only [Option.bind_eq_bind, Option.bind_some] at q1
    split_ifs at q1
    exact ⟨_, (Option.some.inj q1).symm⟩
  obtain ⟨P, rfl⟩ := heq
  refine ⟨{ b with x := { b.x with m := { b.x.m with st := { setImu b.x.m.st x x with P := P, ts := t }, db := db' } }, startup := t }, ?_, d2, hp2, ⟨hsame.obj, rfl, rfl, ⟨k, ?_, fun i j hi hj hn => ?_⟩, rfl, rfl, rfl⟩, ?_, ?_, rfl, d3, d4, rfl⟩
  · unfold start
    rw [q1]
    simp only [Option.bind_eq_bind, Option.bind_some, d1]
    rcases ha with e | e <;> rw [e] <;> rfl
  · rw [← hsame.place]; exact hr
  · have := q3 i j hi hj (by rw [hin, hin]; exact hn)
    exact this
  · exact q2
  · simp [setImu]

/-! ## the phases -/

/-- before the first processed image. -/
structure Pre (lib : Lib) (o : Opts) (off w g last : ℝ) (prior : List Reading) (seen : List Meas) (b : Boot) : Prop where
  inited : b.inited = false
  prog : St.Spec.ProgOK lib o b.x.m.st
  clones : b.x.m.st.clones = []
  slam : b.x.m.st.slam = []
  toff : tOff b.x.m.st = some off
  fixed : dtUid ∉ b.x.m.st.vars
  poff : b.x.m.off = none
  zoff : b.x.m.zmem.off = none
  zbuf : b.x.m.zbuf = []
  did : b.x.m.did = false
  log : b.x.log = []
  db : Spec.Tidy o last (fun id => 4 * o.maxAruco < id) b.x.m.db
  src : ∀ m, Spec.InDb b.x.m.db m → m ∈ seen
  aruco : b.x.aruco = none ∨ b.x.aruco = some []
  sub : b.x.m.buf.Sublist prior
  sorted : Imu.Spec.Sorted prior
  dense : Dense g prior
  nonneg : ∀ r ∈ prior, 0 ≤ r.t
  ret : ∀ r ∈ prior, (∀ q ∈ prior, q.t - w + off - 0.2 ≤ r.t) → r ∈ b.x.m.buf

structure Waiting (lib : Lib) (o : Opts) (off w g last : ℝ) (prior : List Reading) (seen : List Meas) (s0 : State) (b : Boot) : Prop where
  pre : Pre lib o off w g last prior seen b
  success : b.success = false
  fresh : Spec.Fresh lib o off b.x.m.st
  same : Spec.SameButImu s0 b.x.m.st
  isub : b.ibuf.Sublist prior
  up : ∀ a ∈ b.ibuf, ∀ q ∈ prior, a.t ≤ q.t → q ∈ b.ibuf
  slack : ∀ p ∈ b.ibuf, ∀ q ∈ prior, q.t - w + off - 0.1 ≤ p.t

structure Ready (lib : Lib) (o : Opts) (off w g last : ℝ) (old prior : List Reading) (seen : List Meas) (s0 : State) (b : Boot) : Prop where
  pre : Pre lib o off w g last prior seen b
  success : b.success = true
  startup : b.startup = b.x.m.st.ts
  le : b.x.m.st.ts ≤ last
  before : ∃ a ∈ prior, a.t ≤ b.x.m.st.ts + off
  old : old ≠ [] ∧ ∀ c ∈ old, c.t ≤ b.x.m.st.ts + w / 2 + 0.1
  started : Spec.Started s0 b.x.m.st
  newer : ∀ m, Spec.InDb b.x.m.db m → b.startup < m.2.2

structure Running (lib : Lib) (o : Opts) (B : BCfg) (off w g last : ℝ) (old prior : List Reading) (seen : List Meas) (b : Boot) : Prop where
  inited : b.inited = true
  success : b.success = true
  loop : Spec.LoopOK lib o { B.F with startup := b.startup } (seen.filter fun m => decide (b.startup < m.2.2)) b.x
  has : Spec.Has { B.F with startup := b.startup } off prior b.x
  done : Spec.Done { B.F with startup := b.startup } b.x.m
  ts : b.x.m.st.ts = last
  before : ∃ a ∈ prior, a.t ≤ b.x.m.st.ts + off
  old : old ≠ [] ∧ ∀ c ∈ old, c.t ≤ last + w / 2
  dense : Dense g prior
  startup : b.startup < last

theorem cfg_startup {F : FCfg} (h : Spec.CfgOK o F) (t : ℝ) : Spec.CfgOK o { F with startup := t } := by
  cases h; constructor <;> assumption

theorem sorted_snoc (h : Imu.Spec.Sorted prior) {r : Reading} (hr : ∀ a ∈ prior, a.t < r.t) : Imu.Spec.Sorted (prior ++ [r]) := by
  unfold Imu.Spec.Sorted at h ⊢
  rw [List.pairwise_append]
  exact ⟨h, by simp, by simpa using hr⟩

theorem track_shot {T : ℝ} {db : DB ℝ Uv} {S : Shot} (hd : Spec.Tidy o T (fun id => 4 * o.maxAruco < id) db) (hsrc : ∀ m, Spec.InDb db m → m ∈ seen) (hS : Spec.ShotOK o seen S) (ht : T ≤ S.t) :
    Spec.Tidy o S.t (fun id => 4 * o.maxAruco < id) (trackAll db S.t S.feats) ∧ ∀ m, Spec.InDb (trackAll db S.t S.feats) m → Spec.InDb db m ∨ m ∈ Spec.measured S := by
  have hn : ((S.feats.map fun z => ((z.1, z.2.1) : ℕ × ℕ))).Nodup := by
    have h := hS.once
    unfold Spec.measured at h
    rw [List.map_append, List.nodup_append] at h
    have e : (S.feats.map fun z => ((z.1, z.2.1, S.t) : Meas)) = (S.feats.map fun z => ((z.1, z.2.1) : ℕ × ℕ)).map fun q => (q.1, q.2, S.t) := by rw [List.map_map]; rfl
    have h1 := h.1
    rw [e] at h1
    exact List.Nodup.of_map _ h1
  have hmF : ∀ z ∈ S.feats, ((z.1, z.2.1, S.t) : Meas) ∈ Spec.measured S := fun z hz => List.mem_map.2 ⟨z, List.mem_append_left _ hz, rfl⟩
  obtain ⟨k1, k2⟩ := hd.track ht hS.feats hn fun z hz h => hS.new _ (hmF z hz) (hsrc _ h)
  refine ⟨k1, ?_⟩
  rintro ⟨i, c, t⟩ ⟨z, hz, e⟩
  rcases k2 i c z hz with h | ⟨e', w, hw, rfl, rfl⟩
  · exact .inl ⟨z, h, e⟩
  · right
    simp only at e
    rw [← e, e']
    exact hmF w hw

/-! ### readings -/

theorem pre_imu (hB : Spec.BootCfg o off w g B) (h : Pre lib o off w g last prior seen b) {r : Reading} (h0 : 0 ≤ r.t) (hr : ∀ a ∈ prior, a.t < r.t) (hg : prior = [] ∨ ∃ a ∈ prior, r.t - g ≤ a.t) (ib : List Reading) :
    Pre lib o off w g last (prior ++ [r]) seen { b with x := { b.x with m := { b.x.m with buf := feed b.x.m.buf r (r.t - B.P.windowTime + off - 0.10) } }, ibuf := ib } := by
  refine ⟨h.inited, h.prog, h.clones, h.slam, h.toff, h.fixed, h.poff, h.zoff, h.zbuf, h.did, h.log, h.db, h.src, h.aruco, ?_, sorted_snoc h.sorted hr, dense_snoc h.dense hB.gap.1 hr hg, ?_, fun q hq hall => ?_⟩
  · exact (cleanOld_sub _ _).trans (h.sub.append (List.Sublist.refl _))
  · intro q hq
    rcases List.mem_append.1 hq with hq | hq
    · exact h.nonneg q hq
    · rw [List.mem_singleton.1 hq]; exact h0
  · refine mem_cleanOld ?_ (.inr ?_)
    · rcases List.mem_append.1 hq with hq | hq
      · exact List.mem_append_left _ (h.ret q hq fun a ha => hall a (List.mem_append_left _ ha))
      · exact List.mem_append_right _ hq
    · have := hall r (List.mem_append_right _ (by simp))
      rw [hB.win]
      norm_num at this ⊢
      linarith

theorem bootImu_pre (hi : b.inited = false) (ht : tOff b.x.m.st = some off) (r : Reading) :
    bootImu B b r = some { b with x := { b.x with m := { b.x.m with buf := feed b.x.m.buf r (r.t - B.P.windowTime + off - 0.10) } }, ibuf := feedInit b.ibuf r (r.t - B.P.windowTime + off - 0.10) } := by
  unfold bootImu
  rw [if_neg (by simp [hi]), ht]
  rfl

theorem waiting_imu (hB : Spec.BootCfg o off w g B) (h : Waiting lib o off w g last prior seen s b) {r : Reading} (h0 : 0 ≤ r.t) (hr : ∀ a ∈ prior, a.t < r.t) (hg : prior = [] ∨ ∃ a ∈ prior, r.t - g ≤ a.t) :
    ∃ y, bootImu B b r = some y ∧ Waiting lib o off w g last (prior ++ [r]) seen s y := by
  refine ⟨_, bootImu_pre h.pre.inited h.pre.toff r, pre_imu hB h.pre h0 hr hg _, h.success, h.fresh, h.same, ?_, ?_, ?_⟩
  · simp only [feedInit]
    have : (b.ibuf ++ [r]).Sublist (prior ++ [r]) := h.isub.append (List.Sublist.refl _)
    split_ifs
    · exact List.filter_sublist.trans this
    · exact this
  · have key : ∀ a ∈ b.ibuf ++ [r], ∀ q ∈ prior ++ [r], a.t ≤ q.t → q ∈ b.ibuf ++ [r] := by
      intro a ha q hq hle
      rcases List.mem_append.1 hq with hq | hq
      · rcases List.mem_append.1 ha with ha | ha
        · exact List.mem_append_left _ (h.up a ha q hq hle)
        · rw [List.mem_singleton.1 ha] at hle
          exact absurd (hr q hq) (not_lt.2 hle)
      · exact List.mem_append_right _ hq
    simp only [feedInit]
    split_ifs
    · intro a ha q hq hle
      exact (kept_filter _ (b.ibuf ++ [r])).up a ha q (key a (List.mem_filter.1 ha).1 q hq hle) hle
    · exact key
  · intro p hp q hq
    have hqr : q.t ≤ r.t := by
      rcases List.mem_append.1 hq with hq | hq
      · exact (hr q hq).le
      · rw [List.mem_singleton.1 hq]
    simp only [feedInit] at hp
    split_ifs at hp with c
    · have := (List.mem_filter.1 hp).2
      simp only [decide_eq_true_eq, not_lt, hB.win] at this
      norm_num at this ⊢
      linarith
    · push Not at c
      rw [hB.win] at c
      have hp0 : 0 ≤ p.t := by
        rcases List.mem_append.1 hp with hp | hp
        · exact h.pre.nonneg p (h.isub.subset hp)
        · rw [List.mem_singleton.1 hp]; exact h0
      norm_num at c ⊢
      linarith

theorem ready_imu (hB : Spec.BootCfg o off w g B) (h : Ready lib o off w g last old prior seen s b) {r : Reading} (h0 : 0 ≤ r.t) (hr : ∀ a ∈ prior, a.t < r.t) (hg : prior = [] ∨ ∃ a ∈ prior, r.t - g ≤ a.t) :
    ∃ y, bootImu B b r = some y ∧ Ready lib o off w g last old (prior ++ [r]) seen s y := by
  obtain ⟨a, a1, a2⟩ := h.before
  exact ⟨_, bootImu_pre h.pre.inited h.pre.toff r, pre_imu hB h.pre h0 hr hg _, h.success, h.startup, h.le, ⟨a, List.mem_append_left _ a1, a2⟩, h.old, h.started, h.newer⟩

theorem running_imu (hB : Spec.BootCfg o off w g B) (h : Running lib o B off w g last old prior seen b) {r : Reading} (hr : ∀ a ∈ prior, a.t < r.t) (hg : prior = [] ∨ ∃ a ∈ prior, r.t - g ≤ a.t) :
    ∃ y, bootImu B b r = some y ∧ Running lib o B off w g last old (prior ++ [r]) seen y := by
  obtain ⟨a, a1, a2⟩ := h.before
  refine ⟨{ b with x := { b.x with m := feedImu B.F.mgr b.x.m r } }, by unfold bootImu; rw [if_pos h.inited], h.inited, h.success, loop_imu h.loop r, has_imu h.has hr, h.done, h.ts, ⟨a, List.mem_append_left _ a1, a2⟩, h.old, dense_snoc h.dense hB.gap.1 hr hg, h.startup⟩

/-! ### images -/

/-- the time at which the filter is started, relative to the readings and the image. -/
theorem time_ok (hB : Spec.BootCfg o off w g B) {t T : ℝ} {ib : List Reading} (h : InitTime off w T ib t) (hsub : ib.Sublist prior) (hup : ∀ a ∈ ib, ∀ q ∈ prior, a.t ≤ q.t → q ∈ ib)
    (hsl : ∀ p ∈ ib, ∀ q ∈ prior, q.t - w + off - 0.1 ≤ p.t) (hd : Dense g prior) (hT : ∀ a ∈ prior, a.t ≤ T + w / 2) :
    t ≤ T ∧ (∃ a ∈ prior, a.t ≤ t + off) ∧ ∀ c ∈ prior, c.t ≤ t + w / 2 + 0.1 := by
  obtain ⟨g0, g1, g2⟩ := hB.gap
  have hw := hB.long
  rcases h with ⟨o1, ho, n1, hn, h1, h2, ⟨l, hl, rfl⟩, h3, h4, h5⟩ | ⟨h1, h2, p, hp, h3⟩
  · have hlow : n1.t - w / 2 - g ≤ l.t := by
      obtain ⟨d, d1, d2, d3⟩ := hd o1 (hsub.subset ho) n1 (hsub.subset hn) (n1.t - w / 2) (by linarith) (by linarith)
      by_cases e : n1.t - w < d.t
      · exact d2.trans (h5 d (hup o1 ho d d1 (by linarith)) e d3)
      · linarith
    refine ⟨?_, ?_, fun c hc => ?_⟩
    · have := hT n1 (hsub.subset hn)
      linarith
    · by_cases e : 0 ≤ off
      · exact ⟨l, hsub.subset hl, by linarith⟩
      · exact ⟨o1, hsub.subset ho, by linarith⟩
    · have hcn : c.t ≤ n1.t := by
        by_contra hc'
        push Not at hc'
        exact absurd (h2 c (hup n1 hn c hc hc'.le)) (not_le.2 hc')
      linarith
  · refine ⟨h2, ⟨p, hsub.subset hp, by linarith⟩, fun c hc => ?_⟩
    have := hsl p hp c hc
    linarith

theorem waiting_shot (hB : Spec.BootCfg o off w g B) (h : Waiting lib o off w g last prior seen s b) {S : Shot} (hS : Spec.ShotOK o seen S) (hlt : last < S.t) (hne : ∃ a ∈ prior, S.t + off ≤ a.t) (hT : ∀ a ∈ prior, a.t ≤ S.t + w / 2) :
    ∃ y, bootShot lib B b S = some y ∧ (Waiting lib o off w g S.t prior (seen ++ Spec.measured S) s y ∨ Ready lib o off w g S.t prior prior (seen ++ Spec.measured S) s y) := by
  have hp := h.pre
  obtain ⟨k1, k2⟩ := track_shot hp.db hp.src hS hlt.le
  have hs : Imu.Spec.Sorted b.ibuf := hp.sorted.sublist h.isub
  obtain ⟨out, db', ib', q1, q2, q3, q4, q5⟩ := runInit_ok hB k1 hs B.F.mgr.Z.isNone
  have src' : ∀ m, Spec.InDb db' m → m ∈ seen ++ Spec.measured S := fun m hm => List.mem_append.2 ((k2 m (shrinks_inDb q3 hm)).imp (hp.src m) id)
  have hisub : ib'.Sublist prior := q4.sub.trans h.isub
  have hup : ∀ a ∈ ib', ∀ q ∈ prior, a.t ≤ q.t → q ∈ ib' := fun a ha q hq hle => q4.up a ha q (h.up a (q4.sub.subset ha) q hq hle) hle
  have hsl : ∀ p ∈ ib', ∀ q ∈ prior, q.t - w + off - 0.1 ≤ p.t := fun p hp => h.slack p (q4.sub.subset hp)
  have hpre : ∀ st : State, St.Spec.ProgOK lib o st → st.clones = [] → st.slam = [] → tOff st = some off → dtUid ∉ st.vars →
      Pre lib o off w g S.t prior (seen ++ Spec.measured S) { b with x := { b.x with m := { b.x.m with st := st, db := db' } }, ibuf := ib' } := fun st a1 a2 a3 a4 a5 =>
    ⟨hp.inited, a1, a2, a3, a4, a5, hp.poff, hp.zoff, hp.zbuf, hp.did, hp.log, q2, src', hp.aruco, hp.sub, hp.sorted, hp.dense, hp.nonneg, hp.ret⟩
  unfold bootShot
  rw [if_neg (by simp [hp.inited]), if_neg (by simp [h.success])]
  unfold tryInit
  simp only [q1, Option.bind_eq_bind, Option.bind_some]
  cases out with
  | no =>
    exact ⟨_, rfl, .inl ⟨hpre _ hp.prog hp.clones hp.slam hp.toff hp.fixed, h.success, h.fresh, h.same, hisub, hup, hsl⟩⟩
  | bad x =>
    obtain ⟨f1, f2⟩ := fresh_imu h.fresh x
    refine ⟨_, rfl, .inl ⟨hpre _ f1.prog f1.clones f1.slam f1.toff f1.fixed, h.success, f1, ?_, hisub, hup, hsl⟩⟩
    exact ⟨f2.place.trans h.same.place, fun u hu => (f2.obj u hu).trans (h.same.obj u hu), f2.vars.trans h.same.vars, f2.n.trans h.same.n, f2.P.trans h.same.P, f2.clones.trans h.same.clones, f2.slam.trans h.same.slam, f2.ts.trans h.same.ts, f2.cam.trans h.same.cam⟩
  | ok t x C =>
    obtain ⟨r1, r2⟩ := q5 t x C rfl
    obtain ⟨b2, z1, z2, z3⟩ := start_ok (b := { b with x := { b.x with m := { b.x.m with db := db' } }, ibuf := ib' }) h.fresh q2 hp.aruco t x r2
    simp only [z1, Option.bind_some]
    obtain ⟨t1, t2, t3⟩ := time_ok hB r1 h.isub h.up h.slack hp.dense hT
    have e := z3.rest
    have ets := z3.ts
    have hdt : b2.x.m.st.obj dtUid = b.x.m.st.obj dtUid := z3.st.obj dtUid (by simp [dtUid, imuUid])
    have htoff : tOff b2.x.m.st = some off := by rw [← hp.toff]; simp only [tOff, hdt]
    have hnew : ∀ m, Spec.InDb b2.x.m.db m → t < m.2.2 := by
      rintro ⟨i, c, t'⟩ ⟨z, hz, e'⟩
      rw [z3.db] at hz
      have := (List.mem_filter.1 hz).2
      simp only [decide_eq_true_eq] at this e'
      simp only
      rw [← e']; exact this
    have hsrc : ∀ m, Spec.InDb b2.x.m.db m → m ∈ seen ++ Spec.measured S := fun m hm => src' m (shrinks_inDb z3.shr hm)
    have hcl : b2.x.m.st.clones = [] := z3.st.clones.trans hp.clones
    have hsl' : b2.x.m.st.slam = [] := z3.st.slam.trans hp.slam
    have hvars : b2.x.m.st.vars = b.x.m.st.vars := z3.st.vars
    have hst : Spec.Started s b2.x.m.st := by
      obtain ⟨k, e1, e2⟩ := z3.st.P
      refine ⟨fun u hu => (z3.st.obj u hu).trans (h.same.obj u hu), hvars.trans h.same.vars, z3.st.n.trans h.same.n, ⟨k, ?_, fun i j hi hj hn => ?_⟩, z3.st.clones.trans h.same.clones, z3.st.slam.trans h.same.slam, z3.st.cam.trans h.same.cam⟩
      · rw [← h.same.place]; exact e1
      · rw [e2 i j (by rw [h.same.n]; exact hi) (by rw [h.same.n]; exact hj) hn]
        exact congrFun (congrFun h.same.P i) j
    refine ⟨_, rfl, .inr ⟨⟨?_, z3.prog, hcl, hsl', htoff, by simp only; rw [hvars]; exact hp.fixed, ?_, ?_, ?_, ?_, ?_, z2, hsrc, ?_, ?_, hp.sorted, hp.dense, hp.nonneg, ?_⟩, rfl, ?_, ?_, ?_, ⟨?_, ?_⟩, hst, ?_⟩⟩
    · rw [e]; exact hp.inited
    · rw [e]; exact hp.poff
    · rw [e]; exact hp.zoff
    · rw [e]; exact hp.zbuf
    · rw [e]; exact hp.did
    · rw [e]; exact hp.log
    · rw [e]; exact hp.aruco
    · rw [e]; exact hp.sub
    · rw [e]; exact hp.ret
    · simp only; rw [ets, e]
    · simp only; rw [ets]; exact t1
    · simp only; rw [ets]; exact t2
    · obtain ⟨a, ha, -⟩ := hne
      exact List.ne_nil_of_mem ha
    · simp only; rw [ets]; exact t3
    · simp only; rw [e]; exact hnew

theorem ready_shot (hlib : St.Spec.LibOK lib) (hB : Spec.BootCfg o off w g B) (h : Ready lib o off w g last old prior seen s b) {S : Shot} (hS : Spec.ShotOK o seen S) (hlt : last < S.t) (hne : ∃ a ∈ prior, S.t + off ≤ a.t)
    (hT : ∀ a ∈ prior, a.t ≤ S.t + w / 2) (hold : old = [] ∨ ∀ a ∈ prior, ∃ c ∈ old, a.t ≤ c.t + w / 2) (hlen : (Imu.Spec.inside (S.t + off - (w + 1)) (S.t + off) prior).length < 10 ^ 7) :
    ∃ y, bootShot lib B b S = some y ∧ Running lib o B off w g S.t prior prior (seen ++ Spec.measured S) y ∧ y.startup = b.startup ∧ y.x.log = [] ∧ ∃ u, y.x.m.st.clones = [(S.t, u)] := by
  have hp := h.pre
  obtain ⟨g0, g1, g2⟩ := hB.gap
  have hw := hB.long
  obtain ⟨k1, k2⟩ := track_shot hp.db hp.src hS hlt.le
  have hts : b.x.m.st.ts < S.t := h.le.trans_lt hlt
  have hnewest : ∀ q ∈ prior, q.t ≤ b.x.m.st.ts + w + 0.1 := by
    intro q hq
    rcases hold with e | hold
    · exact absurd e h.old.1
    · obtain ⟨c, hc, hle⟩ := hold q hq
      have := h.old.2 c hc
      linarith
  set x1 : FMgr := { b.x with m := { b.x.m with db := trackAll b.x.m.db S.t S.feats } } with hx1
  set I : Img := ⟨trackAll b.x.m.db S.t S.feats, b.x.aruco, S.t, S.cams, S.norm, S.stale⟩ with hI1
  have hI : Spec.ImgOK o I := by
    refine ⟨k1.ok, fun a ha => ?_, hS.cams⟩
    rcases hp.aruco with e | e
    · simp only [hI1, e] at ha; simp at ha
    · simp only [hI1, e, Option.some.injEq] at ha
      rw [← ha]; exact (tidy_nil o S.t (fun _ => True)).ok
  have hmgr : Spec.MgrOK lib o x1 := by
    refine ⟨⟨hp.prog, ⟨?_, ?_⟩, ?_, ?_⟩, ?_⟩
    all_goals simp [hx1, hp.clones, hp.slam, Upd.Spec.Anchored]
  have hhas : Spec.Has { B.F with startup := b.startup } off prior x1 := by
    refine ⟨hp.toff, hp.fixed, .inl hp.poff, .inl hp.zoff, hp.sub, hp.sorted, fun r hr h1 h2 => hp.ret r hr fun q hq => ?_, ?_⟩
    · have := hnewest q hq
      simp only [hx1] at h1 h2
      norm_num at h2 ⊢
      linarith
    · simp only [hx1, hp.zbuf]; exact List.nil_sublist _
  have htm : Spec.Timely { B.F with startup := b.startup } x1.m S.t := by
    refine has_timely hhas hts ?_ hne ?_
    · obtain ⟨a, a1, a2⟩ := h.before
      obtain ⟨c, c1, c2⟩ := hne
      obtain ⟨d, d1, d2, d3⟩ := hp.dense a a1 c c1 (b.x.m.st.ts + off) a2 (by linarith)
      exact ⟨d, d1, by simp only [hx1]; linarith, by simp only [hx1]; linarith, d3⟩
    · refine lt_of_le_of_lt ?_ hlen
      obtain ⟨c, c1, c2⟩ := hne
      have := hnewest c c1
      refine List.Sublist.length_le (List.monotone_filter_right _ fun q hq => ?_)
      simp only [decide_eq_true_eq, hx1] at hq ⊢
      exact ⟨by linarith [hq.1], hq.2⟩
  have hcov : x1.m.st.ts < I.t ∧ Spec.Covered x1.m I.t := by
    rcases htm with h' | h'
    · exact ⟨h'.1, h'.2.1⟩
    · exact absurd h'.1 hts.ne
  obtain ⟨m1, hpd, hcase⟩ := frameUpdate_spec hlib (cfg_startup hB.cfg b.startup) hI hmgr rfl (.inl hcov)
  obtain ⟨gr1, -, gr3⟩ := hpd.grow hts
  have hc0 : x1.m.st.clones = [] := hp.clones
  rw [hc0] at gr1 gr3
  have h2 := hB.two
  rcases hcase with ⟨q, hq⟩ | ⟨q, -⟩
  swap
  · simp only [List.length_nil] at gr1; omega
  have e := hpd.rest
  have hsl : m1.st.slam = [] := hpd.slam.trans hp.slam
  have hfil : ∀ m ∈ Spec.measured S, m.2.2 = S.t := by
    intro m hm
    obtain ⟨z, -, rfl⟩ := List.mem_map.1 hm
    rfl
  have hst' : b.startup < S.t := by rw [h.startup]; exact hts
  refine ⟨{ b with x := { x1 with m := m1 }, inited := true }, ?_, ⟨rfl, h.success, ?_, ?_, .inl hpd.at', hpd.ts, ?_, ⟨?_, hT⟩, hp.dense, hst'⟩, rfl, hp.log, ⟨_, gr3⟩⟩
  · unfold bootShot
    rw [if_neg (by simp [hp.inited]), if_pos h.success]
    simp only
    rw [hq]; rfl
  · have hdb : m1.db = trackAll b.x.m.db S.t S.feats := by rw [e]
    have hA : ∀ a, b.x.aruco = some a → a = [] := by
      intro a ha
      rcases hp.aruco with e | e <;> rw [e] at ha <;> (try (cases ha; done)) <;> (injection ha with ha; exact ha.symm)
    refine ⟨⟨hpd.frame, by simp only; rw [gr1]; simp only [List.length_nil]; omega⟩, ?_, ?_, ?_, ?_, .inl hsl, ?_, ?_, ?_, ?_, ?_⟩
    · simp only; rw [hpd.ts, hdb]; exact k1
    · intro a ha
      rw [hA a ha]; exact tidy_nil _ _ _
    · simp [hsl]
    · simp [hsl]
    · intro hd
      simp only at hd
      rw [e] at hd
      simp only [hx1, hp.did] at hd
      simp at hd
    · simp [hx1, hp.log]
    · simp [hx1, hp.log]
    · intro m hm
      simp only [hdb] at hm
      refine List.mem_filter.2 ⟨List.mem_append.2 ((k2 m hm).imp (hp.src m) id), ?_⟩
      simp only [decide_eq_true_eq]
      rcases k2 m hm with hm | hm
      · exact h.newer m hm
      · rw [hfil m hm]; exact hst'
    · intro a ha m hm
      rw [hA a ha] at hm
      obtain ⟨z, hz, -⟩ := hm
      simp [obs, AMap.get?] at hz
  · refine has_frame (I := I) hmgr hhas ⟨hpd.keep, hpd.off, .inl ?_, .inl ⟨?_, ?_⟩, ?_⟩ hpd.ts hts.le
    · simp only; rw [e]
    · simp only; rw [e]
    · simp only; rw [e]
    · rw [zuptOn_moved (m := x1.m) (by simp only; rw [e])]; exact id
  · obtain ⟨a, a1, a2⟩ := h.before
    exact ⟨a, a1, by simp only; rw [hpd.ts]; simp only [hI1]; linarith⟩
  · obtain ⟨a, ha, -⟩ := hne
    exact List.ne_nil_of_mem ha

theorem running_shot (hlib : St.Spec.LibOK lib) (hB : Spec.BootCfg o off w g B) (h : Running lib o B off w g last old prior seen b) {S : Shot} (hS : Spec.ShotOK o seen S) (hlt : last < S.t) (hne : ∃ a ∈ prior, S.t + off ≤ a.t)
    (hT : ∀ a ∈ prior, a.t ≤ S.t + w / 2) (hold : old = [] ∨ ∀ a ∈ prior, ∃ c ∈ old, a.t ≤ c.t + w / 2) (hlen : (Imu.Spec.inside (S.t + off - (w + 1)) (S.t + off) prior).length < 10 ^ 7) :
    ∃ y, bootShot lib B b S = some y ∧ Running lib o B off w g S.t prior prior (seen ++ Spec.measured S) y ∧ y.startup = b.startup := by
  obtain ⟨g0, g1, g2⟩ := hB.gap
  have hts : b.x.m.st.ts < S.t := by rw [h.ts]; exact hlt
  have htm : Spec.Timely { B.F with startup := b.startup } b.x.m S.t := by
    refine has_timely h.has hts ?_ hne ?_
    · obtain ⟨a, a1, a2⟩ := h.before
      obtain ⟨c, c1, c2⟩ := hne
      obtain ⟨d, d1, d2, d3⟩ := h.dense a a1 c c1 (b.x.m.st.ts + off) a2 (by linarith)
      exact ⟨d, d1, by linarith, by linarith, d3⟩
    · refine lt_of_le_of_lt ?_ hlen
      obtain ⟨c, c1, c2⟩ := hne
      have : S.t + off ≤ last + w := by
        rcases hold with e | hold
        · exact absurd e h.old.1
        · obtain ⟨d, hd, hle⟩ := hold c c1
          have := h.old.2 d hd
          linarith
      refine List.Sublist.length_le (List.monotone_filter_right _ fun q hq => ?_)
      simp only [decide_eq_true_eq, h.ts] at hq ⊢
      exact ⟨by linarith [hq.1], hq.2⟩
  have hS' : Spec.ShotOK o (seen.filter fun m => decide (b.startup < m.2.2)) S := ⟨hS.cams, hS.feats, hS.tags, hS.once, fun m hm hm' => hS.new m hm (List.mem_filter.1 hm').1⟩
  obtain ⟨y, k1, k2, k3, k4, k5, k6, -⟩ := shot_ok hlib (cfg_startup hB.cfg b.startup) hB.two hB.repS hB.repA h.loop hS' htm
  have hfil : ((seen ++ Spec.measured S).filter fun m => decide (b.startup < m.2.2)) = (seen.filter fun m => decide (b.startup < m.2.2)) ++ Spec.measured S := by
    rw [List.filter_append]
    congr 1
    rw [List.filter_eq_self]
    intro m hm
    obtain ⟨z, -, rfl⟩ := List.mem_map.1 hm
    simp only [decide_eq_true_eq]
    exact h.startup.trans hlt
  refine ⟨{ b with x := y }, ?_, ⟨h.inited, h.success, ?_, has_frame h.loop.mgr h.has k5 k3 hts.le, k4, k3, ?_, ⟨?_, hT⟩, h.dense, h.startup.trans hlt⟩, rfl⟩
  · unfold bootShot
    rw [if_pos h.inited, k1]; rfl
  · simp only; rw [hfil]; exact k2
  · obtain ⟨a, a1, a2⟩ := h.before
    exact ⟨a, a1, by simp only; rw [k3]; linarith⟩
  · obtain ⟨a, ha, -⟩ := hne
    exact List.ne_nil_of_mem ha

/-! ## C113 -/

def Phase (lib : Lib) (o : Opts) (B : BCfg) (off w g last : ℝ) (old prior : List Reading) (seen : List Meas) (s0 : State) (b : Boot) : Prop :=
  Waiting lib o off w g last prior seen s0 b ∨ Ready lib o off w g last old prior seen s0 b ∨ Running lib o B off w g last old prior seen b

theorem phase_run (hlib : St.Spec.LibOK lib) (hB : Spec.BootCfg o off w g B) (es : List LEv) : ∀ (evs : List LEv) (last : ℝ) (old prior : List Reading) (seen : List Meas) (b : Boot), Phase lib o B off w g last old prior seen s b →
    Spec.BStream o off w g last old prior seen (evs ++ es) →
    ∃ y old' prior', runB lib B b evs = some y ∧ Phase lib o B off w g ((Spec.shotTimes evs).getLastD last) old' prior' (seen ++ Spec.seenIn evs) s y ∧
      Spec.BStream o off w g ((Spec.shotTimes evs).getLastD last) old' prior' (seen ++ Spec.seenIn evs) es
  | [], last, old, prior, seen, b, h, hst => ⟨b, old, prior, rfl, by simpa [Spec.shotTimes, Spec.seenIn] using h, by simpa [Spec.shotTimes, Spec.seenIn] using hst⟩
  | .imu r :: evs, last, old, prior, seen, b, h, ⟨h0, h1, h2, hst⟩ => by
    have : ∃ y, bootImu B b r = some y ∧ Phase lib o B off w g last old (prior ++ [r]) seen s y := by
      rcases h with h | h | h
      · obtain ⟨y, k1, k2⟩ := waiting_imu hB h h0 h1 h2
        exact ⟨y, k1, .inl k2⟩
      · obtain ⟨y, k1, k2⟩ := ready_imu hB h h0 h1 h2
        exact ⟨y, k1, .inr (.inl k2)⟩
      · obtain ⟨y, k1, k2⟩ := running_imu hB h h1 h2
        exact ⟨y, k1, .inr (.inr k2)⟩
    obtain ⟨z, k1, k2⟩ := this
    obtain ⟨y, old', prior', q1, q2⟩ := phase_run hlib hB es evs last old (prior ++ [r]) seen z k2 hst
    exact ⟨y, old', prior', by simp only [runB, LEv.boot, k1, Option.bind_some, q1], q2⟩
  | .shot S :: evs, last, old, prior, seen, b, h, ⟨h0, h1, h2, h3, h4, h5, hst⟩ => by
    have : ∃ y, bootShot lib B b S = some y ∧ Phase lib o B off w g S.t prior prior (seen ++ Spec.measured S) s y := by
      rcases h with h | h | h
      · obtain ⟨y, k1, k2⟩ := waiting_shot (lib := lib) hB h h0 h1 h2 h3
        exact ⟨y, k1, k2.imp id .inl⟩
      · obtain ⟨y, k1, k2, -⟩ := ready_shot hlib hB h h0 h1 h2 h3 h4 h5
        exact ⟨y, k1, .inr (.inr k2)⟩
      · obtain ⟨y, k1, k2, -⟩ := running_shot hlib hB h h0 h1 h2 h3 h4 h5
        exact ⟨y, k1, .inr (.inr k2)⟩
    obtain ⟨z, k1, k2⟩ := this
    obtain ⟨y, old', prior', q1, q2⟩ := phase_run hlib hB es evs S.t prior prior _ z k2 hst
    rw [List.append_assoc] at q2
    refine ⟨y, old', prior', by simp only [runB, LEv.boot, k1, Option.bind_some, q1], ?_⟩
    have e : (Spec.shotTimes (.shot S :: evs)).getLastD last = (Spec.shotTimes evs).getLastD S.t := by
      simp only [Spec.shotTimes]
      cases Spec.shotTimes evs <;> rfl
    rw [e]
    exact q2

theorem powerOn_waiting (h : Spec.PowerOn lib o off b) : Waiting lib o off w g last [] [] b.x.m.st b := by
  have hf := h.st
  refine ⟨⟨h.inited, hf.prog, hf.clones, hf.slam, hf.toff, hf.fixed, h.poff, h.zoff, h.zbuf, h.did, h.log, ?_, ?_, h.aruco, ?_, ?_, ?_, ?_, ?_⟩, h.success, hf, ⟨rfl, fun _ _ => rfl, rfl, rfl, rfl, rfl, rfl, rfl, rfl⟩, ?_, ?_, ?_⟩
  · rw [h.db]; exact tidy_nil _ _ _
  · rw [h.db]
    rintro m ⟨z, hz, -⟩
    simp [obs, AMap.get?] at hz
  · rw [h.buf]
  · simp [Imu.Spec.Sorted]
  · simp [Dense]
  · simp
  · simp
  · rw [h.ibuf]
  · rw [h.ibuf]; simp
  · rw [h.ibuf]; simp

/-- **C113** From power on, with a camera-IMU time offset that is not estimated, for every live stream of readings and images (`BStream`), of any length and whatever the trackers find, whichever initialiser succeeds and whenever: all of it is
processed. As long as no initialiser has succeeded, nothing of the state but the IMU state has changed, and no measurement has been used. Once one has succeeded, until the next image, the state is at the time the initialiser gave, which is not
after the image that triggered it; only the IMU state, its covariance and the time differ from power on; and no measurement at or before that time is left. Once the first image is processed, the state is always at the time of the last image, all the
invariants of the running filter hold (C108), and every measurement given to an update is newer than the start, was reported by the trackers, and is used only once. -/
theorem C113_power_on (hlib : St.Spec.LibOK lib) (hB : Spec.BootCfg o off w g B) (hb : Spec.PowerOn lib o off b) (last : ℝ) (evs : List LEv) (hst : Spec.BStream o off w g last [] [] [] evs) :
    ∃ y, runB lib B b evs = some y ∧ St.Spec.ProgOK lib o y.x.m.st ∧ (y.inited = true → y.success = true) ∧
      (y.success = false → Spec.SameButImu b.x.m.st y.x.m.st ∧ y.x.log = []) ∧
      (y.success = true → y.inited = false → Spec.Started b.x.m.st y.x.m.st ∧ y.x.m.st.ts = y.startup ∧ y.startup ≤ (Spec.shotTimes evs).getLastD last ∧ y.x.log = [] ∧ ∀ m, Spec.InDb y.x.m.db m → y.startup < m.2.2) ∧
      (y.inited = true → y.x.m.st.ts = (Spec.shotTimes evs).getLastD last ∧ y.startup < y.x.m.st.ts ∧ Spec.LoopOK lib o { B.F with startup := y.startup } (Spec.seenIn evs) y.x ∧ Spec.Done { B.F with startup := y.startup } y.x.m ∧
        y.x.log.Nodup ∧ ∀ m ∈ y.x.log, m ∈ Spec.seenIn evs ∧ y.startup < m.2.2) := by
  obtain ⟨y, old', prior', h1, h2, -⟩ := phase_run hlib hB [] evs last [] [] [] b (.inl (powerOn_waiting hb)) (by simpa using hst)
  simp only [List.nil_append] at h2
  refine ⟨y, h1, ?_⟩
  rcases h2 with h | h | h
  · have e1 := h.pre.inited
    have e2 := h.success
    refine ⟨h.pre.prog, by simp [e1], fun _ => ⟨h.same, h.pre.log⟩, by simp [e2], by simp [e1]⟩
  · have e1 := h.pre.inited
    have e2 := h.success
    refine ⟨h.pre.prog, by simp [e1], by simp [e2], fun _ _ => ⟨h.started, h.startup.symm, by rw [h.startup]; exact h.le, h.pre.log, h.newer⟩, by simp [e1]⟩
  · have e1 := h.inited
    have e2 := h.success
    refine ⟨h.loop.mgr.frame.prog, fun _ => e2, by simp [e2], by simp [e1], fun _ => ⟨h.ts, by rw [h.ts]; exact h.startup, ?_, h.done, h.loop.nodup, fun m hm => ?_⟩⟩
    · have hl := h.loop
      have sub : ∀ m ∈ (Spec.seenIn evs).filter fun m => decide (y.startup < m.2.2), m ∈ Spec.seenIn evs := fun m hm => (List.mem_filter.1 hm).1
      exact ⟨hl.mgr, hl.db, hl.aruco, hl.lms, hl.rep, hl.win, hl.still, hl.nodup, fun m hm => ⟨sub m (hl.gone m hm).1, (hl.gone m hm).2⟩, fun m hm => sub m (hl.src m hm), fun a ha m hm => sub m (hl.srcA a ha m hm)⟩
    · have := List.mem_filter.1 (h.loop.gone m hm).1
      exact ⟨this.1, by simpa using this.2⟩

/-- **C113** (first image) The first image after an initialiser has succeeded is processed: the filter runs from then on, and it has exactly one clone, at the time of that image; no measurement has been used yet. -/
theorem C113_first_image (hlib : St.Spec.LibOK lib) (hB : Spec.BootCfg o off w g B) (hb : Spec.PowerOn lib o off b) (last : ℝ) (evs : List LEv) (S : Shot) (hst : Spec.BStream o off w g last [] [] [] (evs ++ [.shot S]))
    {y : Boot} (hy : runB lib B b evs = some y) (hs : y.success = true) (hi : y.inited = false) :
    ∃ z, runB lib B b (evs ++ [.shot S]) = some z ∧ z.inited = true ∧ z.startup = y.startup ∧ z.x.m.st.ts = S.t ∧ (∃ u, z.x.m.st.clones = [(S.t, u)]) ∧ z.x.log = [] := by
  obtain ⟨y', old', prior', h1, h2, h3⟩ := phase_run hlib hB [.shot S] evs last [] [] [] b (.inl (powerOn_waiting hb)) hst
  rw [hy] at h1
  obtain rfl := Option.some.inj h1
  obtain ⟨a0, a1, a2, a3, a4, a5, -⟩ := h3
  rcases h2 with h | h | h
  · rw [h.success] at hs; cases hs
  · obtain ⟨z, k1, k2, k3, k4, k5⟩ := ready_shot hlib hB h a0 a1 a2 a3 a4 a5
    refine ⟨z, ?_, k2.inited, k3, k2.ts, k5, k4⟩
    have app : ∀ (l l' : List LEv) (x : Boot), runB lib B x (l ++ l') = (runB lib B x l).bind fun y => runB lib B y l' := by
      intro l l'
      induction l with
      | nil => intro x; rfl
      | cons e l ih =>
        intro x
        simp only [List.cons_append, runB, Option.bind_assoc]
        congr 1
        funext q
        exact ih q
    rw [app, hy]
    simp only [Option.bind_some, runB, LEv.boot, k1]
  · rw [h.inited] at hi; cases hi

theorem start_flags {t : ℝ} {x : Imu16} {C : Mat} (h : start b t x C = some b') : b'.inited = b.inited ∧ b'.success = b.success ∧ b'.startup = t := by
  unfold start at h
  rw [Option.bind_eq_bind, Option.bind_eq_some_iff] at h
  obtain ⟨s1, -, h⟩ := h
  rw [Option.bind_eq_bind, Option.bind_eq_some_iff] at h
  obtain ⟨db, -, h⟩ := h
  rw [Option.bind_eq_bind, Option.bind_eq_some_iff] at h
  obtain ⟨ar, -, h⟩ := h
  obtain rfl := Option.some.inj h
  exact ⟨rfl, rfl, rfl⟩

/-- **C113** (only once) Whatever comes in, and from any state of the manager: a filter that runs goes on running, an initialisation that succeeded stays successful, and the start time given then never changes. -/
theorem C113_only_once (lib : Lib) (B : BCfg) : ∀ (evs : List LEv) (b y : Boot), runB lib B b evs = some y →
    (b.inited = true → y.inited = true) ∧ (b.success = true → y.success = true) ∧ (b.inited = true ∨ b.success = true → y.startup = b.startup)
  | [], b, y, h => by obtain rfl := Option.some.inj h; exact ⟨id, id, fun _ => rfl⟩
  | e :: es, b, y, h => by
    simp only [runB, Option.bind_eq_some_iff] at h
    obtain ⟨z, h1, h2⟩ := h
    have key : (b.inited = true → z.inited = true) ∧ (b.success = true → z.success = true) ∧ (b.inited = true ∨ b.success = true → z.startup = b.startup) := by
      cases e with
      | imu r =>
        simp only [LEv.boot, bootImu] at h1
        split_ifs at h1
        · obtain rfl := Option.some.inj h1; exact ⟨id, id, fun _ => rfl⟩
        · rw [Option.bind_eq_bind, Option.bind_eq_some_iff] at h1
          obtain ⟨off, -, h1⟩ := h1
          obtain rfl := Option.some.inj h1; exact ⟨id, id, fun _ => rfl⟩
      | shot S =>
        simp only [LEv.boot, bootShot] at h1
        split_ifs at h1 with c1 c2
        · simp only [Option.map_eq_some_iff] at h1
          obtain ⟨w, -, rfl⟩ := h1
          exact ⟨id, id, fun _ => rfl⟩
        · simp only [Option.map_eq_some_iff] at h1
          obtain ⟨w, -, rfl⟩ := h1
          exact ⟨fun _ => rfl, id, fun _ => rfl⟩
        · exact ⟨fun h => absurd h c1, fun h => absurd h c2, fun h => h.elim (fun h => absurd h c1) fun h => absurd h c2⟩
    obtain ⟨q1, q2, q3⟩ := C113_only_once lib B es z y h2
    exact ⟨fun h => q1 (key.1 h), fun h => q2 (key.2.1 h), fun h => (q3 (h.imp key.1 key.2.1)).trans (key.2.2 h)⟩

/-- **C113** (start) What starting the filter does, with the result of an initialiser (time, IMU state, symmetric positive semi-definite covariance) or with ground truth: the IMU state and its first estimate are the ones given, the covariance of
the IMU state is the one given, the rest of the covariance and of the state is as before; the time of the state and the start time are the one given; the database keeps exactly the measurements after it. -/
theorem C113_start (hf : Spec.Fresh lib o off b.x.m.st) {T : ℝ} {range : ℕ → Prop} (hd : Spec.Tidy o T range b.x.m.db) (ha : b.x.aruco = none ∨ b.x.aruco = some []) (t : ℝ) (x : Imu16) {C : Mat} (hC : Mat.Sym 15 C ∧ Mat.PSD 15 C) :
    ∃ b', start b t x C = some b' ∧ St.Spec.ProgOK lib o b'.x.m.st ∧ (b'.x.m.st.obj imuUid).val = .imu x ∧ (b'.x.m.st.obj imuUid).fej = .imu x ∧ St.Spec.SameMat (getMarginal b'.x.m.st [(imuUid, .self)]) (some ⟨15, 15, C⟩) ∧
      Spec.Started b.x.m.st b'.x.m.st ∧ b'.x.m.st.ts = t ∧ b'.startup = t ∧ (∀ id cam, obs b'.x.m.db id cam = (obs b.x.m.db id cam).filter fun z => t < z.1) ∧
      b'.x.m.buf = b.x.m.buf ∧ b'.ibuf = b.ibuf ∧ b'.inited = b.inited ∧ b'.success = b.success ∧ b'.x.log = b.x.log := by
  obtain ⟨b', h1, -, h3⟩ := start_ok hf hd ha t x hC
  obtain ⟨f1, f2, f3⟩ := start_flags h1
  have e := h3.rest
  exact ⟨b', h1, h3.prog, h3.val.1, h3.val.2, h3.cov, h3.st, h3.ts, f3, h3.db, by rw [e], by rw [e], f1, f2, by rw [e]⟩

theorem runB_running (lib : Lib) (B : BCfg) : ∀ (evs : List LEv) (b : Boot), b.inited = true → runB lib B b evs = (runL lib { B.F with startup := b.startup } b.x evs).map fun x => { b with x := x }
  | [], b, _ => rfl
  | .imu r :: es, b, h => by
    simp only [runB, LEv.boot, bootImu, if_pos h, Option.bind_some, runL, LEv.run]
    exact runB_running lib B es { b with x := { b.x with m := feedImu B.F.mgr b.x.m r } } h
  | .shot S :: es, b, h => by
    simp only [runB, LEv.boot, bootShot, if_pos h, runL, LEv.run]
    cases frame lib { B.F with startup := b.startup } b.x (shotImg b.x S) with
    | none => rfl
    | some y =>
      simp only [Option.map_some, Option.bind_some]
      exact runB_running lib B es { b with x := y } h

/-- the filter started with ground truth at power on -/
theorem gt_loop (hb : Spec.PowerOn lib o off b) (F : FCfg) (t : ℝ) (x : Imu16) :
    ∃ b', start b t x gtCov = some b' ∧ b'.x.m.st.ts = t ∧ b'.startup = t ∧ (b'.x.m.st.obj imuUid).val = .imu x ∧ St.Spec.SameMat (getMarginal b'.x.m.st [(imuUid, .self)]) (some ⟨15, 15, gtCov⟩) ∧
      Spec.LoopOK lib o { F with startup := b'.startup } [] b'.x ∧ Spec.Has { F with startup := b'.startup } off [] b'.x := by
  obtain ⟨b', h1, h3, h4⟩ := start_ok (range := fun id => 4 * o.maxAruco < id) (T := t) hb.st (by rw [hb.db]; exact tidy_nil _ _ _) hb.aruco t x gtCov_ok
  obtain ⟨f1, f2, f3⟩ := start_flags h1
  have e := h4.rest
  have hcl : b'.x.m.st.clones = [] := h4.st.clones.trans hb.st.clones
  have hsl : b'.x.m.st.slam = [] := h4.st.slam.trans hb.st.slam
  have hdb : ∀ id cam, obs b'.x.m.db id cam = [] := by
    intro id cam
    rw [h4.db, hb.db]
    simp [obs, AMap.get?]
  have hA : ∀ a, b'.x.aruco = some a → a = [] := by
    intro a ha
    rw [e] at ha
    simp only at ha
    rcases hb.aruco with e | e <;> rw [e] at ha <;> (try (cases ha; done)) <;> (injection ha with ha; exact ha.symm)
  have hlog : b'.x.log = [] := by rw [e]; exact hb.log
  have hloop : Spec.LoopOK lib o { F with startup := b'.startup } [] b'.x := by
    refine ⟨⟨⟨h4.prog, ⟨?_, ?_⟩, ?_, ?_⟩, ?_⟩, by rw [h4.ts]; exact h3, fun a ha => by rw [hA a ha]; exact tidy_nil _ _ _, ?_, ?_, .inl hsl, ?_, ?_, ?_, ?_, ?_⟩
    all_goals first
      | simp [hcl, hsl, hlog, Upd.Spec.Anchored]; done
      | skip
    · rintro m ⟨z, hz, -⟩
      rw [hdb] at hz; cases hz
    · rintro a ha m ⟨z, hz, -⟩
      rw [hA a ha] at hz
      simp [obs, AMap.get?] at hz
  have hdt : b'.x.m.st.obj dtUid = b.x.m.st.obj dtUid := h4.st.obj dtUid (by simp [dtUid, imuUid])
  have hhas : Spec.Has { F with startup := b'.startup } off [] b'.x := by
    refine ⟨by rw [← hb.st.toff]; simp only [tOff, hdt], by rw [h4.st.vars]; exact hb.st.fixed, .inl (by rw [e]; exact hb.poff), .inl (by rw [e]; exact hb.zoff), ?_, by simp [Imu.Spec.Sorted], by simp, ?_⟩
    · rw [e]; simp only; rw [hb.buf]
    · rw [e]; simp only; rw [hb.zbuf]
  exact ⟨b', h1, h4.ts, f3, h4.val.1, h4.cov, hloop, hhas⟩

/-- **C113** (ground truth) Started with ground truth at power on, the filter is at once running, at the time and with the IMU state given, and then processes every stream of C108 from that time, using each measurement once. -/
theorem C113_ground_truth (hlib : St.Spec.LibOK lib) (hF : Spec.CfgOK o B.F) (h2 : 2 ≤ o.maxClones) (hrS : B.F.slam.repS ≠ .anchoredSingle) (hrA : B.F.slam.repA ≠ .anchoredSingle) (hb : Spec.PowerOn lib o off b) (t : ℝ) (x : Imu16) :
    ∃ b', withGt b t x = some b' ∧ b'.inited = true ∧ b'.x.m.st.ts = t ∧ b'.startup = t ∧ (b'.x.m.st.obj imuUid).val = .imu x ∧ St.Spec.SameMat (getMarginal b'.x.m.st [(imuUid, .self)]) (some ⟨15, 15, gtCov⟩) ∧
      ∀ evs, Spec.LStream o off false t [] [] evs → ∃ y, runB lib B b' evs = some y ∧ y.inited = true ∧ y.startup = t ∧ y.x.m.st.ts = (Spec.shotTimes evs).getLastD t ∧ y.x.log.Nodup ∧ ∀ m ∈ y.x.log, m ∈ Spec.seenIn evs := by
  obtain ⟨b', h1, hts, f3, hv, hc, hloop, hhas⟩ := gt_loop hb B.F t x
  refine ⟨{ b' with inited := true }, by unfold withGt; rw [h1]; rfl, rfl, hts, f3, hv, hc, fun evs hst => ?_⟩
  obtain ⟨y, q1, q2, -, q4, q5, -⟩ := C108_used_once hlib (cfg_startup hF b'.startup) h2 hrS hrA evs [] b'.x hloop (C108_stream hlib (cfg_startup hF b'.startup) h2 hrS hrA off evs false [] [] b'.x hloop hhas (by simp) (by rw [hts]; exact hst))
  refine ⟨{ b' with x := y, inited := true }, ?_, rfl, f3, by simp only; rw [q5, hts], q2, fun m hm => by simpa using (q4 m hm).1⟩
  rw [runB_running lib B evs { b' with inited := true } rfl]
  simp only [q1, Option.map_some]

/-- **C113** (gap) What `BStream` excludes, and why: if after the initialisation, before the first processed image, a reading comes that is more than a window and a fifth of a second newer than the state (the manager keeps readings relative to
the newest reading, not to the state, until the first image is processed), then every reading at or before the state's time is gone, and no image can be propagated to from the state's time on the readings kept. -/
theorem C113_gap (hB : B.P.windowTime = w) (hi : b.inited = false) (ht : tOff b.x.m.st = some off) (r : Reading) (hgap : b.x.m.st.ts + off < r.t - w + off - 0.2) (h0 : 0 ≤ r.t - w + off - 0.2) (hpo : b.x.m.off = none) :
    ∃ y, bootImu B b r = some y ∧ y.x.m.st = b.x.m.st ∧ (∀ p ∈ y.x.m.buf, y.x.m.st.ts + off < p.t) ∧ ∀ t, ¬ Spec.Covered y.x.m t := by
  have key : ∀ p ∈ feed b.x.m.buf r (r.t - B.P.windowTime + off - 0.10), b.x.m.st.ts + off < p.t := by
    intro p hp
    unfold feed Imu.cleanOld at hp
    rw [hB, if_neg (by norm_num at h0 ⊢; linarith)] at hp
    have := (List.mem_filter.1 hp).2
    simp only [decide_eq_true_eq, not_lt] at this
    norm_num at this hgap
    linarith
  refine ⟨_, bootImu_pre hi ht r, rfl, key, fun t hc => ?_⟩
  obtain ⟨off', c1, -, -, ⟨a, a1, a2⟩, -⟩ := hc
  simp only [ht] at c1
  obtain rfl := Option.some.inj c1
  have := key a a1
  simp only [hpo, Option.getD_none] at a2
  linarith

/-! ## the hypotheses are met -/

/-- a manager after power on. -/
noncomputable def exBoot (o : Opts) : Boot :=
  ⟨⟨⟨ctor o, ⟨0, 0, none⟩, none, false, false, [], [], []⟩, fun _ => ⟨.global3d, none, 0, 0, 0, 0, none⟩, some [], []⟩, false, false, [], 0⟩

theorem exBoot_ok {o : Opts} (ho : o.calibDt = false) : Spec.PowerOn lib o 0 (exBoot o) := by
  obtain ⟨h1, h2, h3, h4, h5, h6, h7⟩ := foldl_push_same (ctorVars o) (ctorBase o)
  have hx := exStart_has ho exF
  refine ⟨⟨⟨[], by simp, trivial, rfl⟩, rfl, rfl, ctor_vars o, h4, h5, ?_, hx.fixed⟩, rfl, rfl, rfl, rfl, rfl, rfl, rfl, rfl, rfl, .inr rfl, rfl⟩
  have : tOff (exBoot o).x.m.st = tOff (exStart o).m.st := rfl
  rw [this]; exact hx.toff

/-- static initialisation within two tenths of a second, without waiting for a jerk. -/
noncomputable def exB : BCfg := ⟨exF, ⟨0.2, 1, 0, 9.81, 0, false⟩, 1, 50, fun _ _ => none⟩

theorem exB_ok {o : Opts} (ho : 2 ≤ o.maxClones) : Spec.BootCfg o 0 0.2 0.1 exB :=
  ⟨exF_ok (by omega), ho, by simp [exB, exF], by simp [exB, exF], rfl, by norm_num, rfl, by norm_num, by simp [exB]⟩

noncomputable def exRest (t : ℝ) : Reading := ⟨t, 0, ![0, 0, 9.81]⟩

/-- an image with one feature. -/
noncomputable def exShot (o : Opts) (t : ℝ) : Shot := ⟨t, [0], [(4 * o.maxAruco + 1, 0, (10, 20), (10, 20))], [], fun _ _ _ => 0, fun _ => 0⟩

/-- readings of a resting sensor, twenty per second, an image after the seventh, and one more reading and image. -/
noncomputable def exBevs (o : Opts) : List LEv :=
  [.imu (exRest 0), .imu (exRest 0.05), .imu (exRest 0.1), .imu (exRest 0.15), .imu (exRest 0.2), .imu (exRest 0.25), .imu (exRest 0.3), .shot (exShot o 0.3), .imu (exRest 0.35)]

theorem exBevs_stream {o : Opts} (ho : 0 < o.numCams) : Spec.BStream o 0 0.2 0.1 0 [] [] [] (exBevs o ++ [.shot (exShot o 0.35)]) := by
  have hlen : ∀ (a c : ℝ) (l : List Reading), l.length ≤ 8 → (Imu.Spec.inside a c l).length < 10 ^ 7 := fun a c l h => lt_of_le_of_lt (List.length_filter_le _ _) (by omega)
  simp only [exBevs, List.cons_append, List.nil_append, Spec.BStream]
  refine ⟨?_, ?_, ?_, ?_, ?_, ?_, ?_, ?_, ?_, ?_, ?_, ?_, ?_, ?_, ?_, ?_, ?_, ?_, ?_, ?_, ?_, ⟨by simp [exShot], ?_, ?_, ?_, ?_⟩, ?_, ?_, ?_, ?_, hlen _ _ _ (by simp), ?_, ?_, ?_, ⟨by simp [exShot], ?_, ?_, ?_, ?_⟩, ?_, ?_, ?_, ?_, hlen _ _ _ (by simp), trivial⟩
  all_goals simp [exRest, exShot, Spec.measured, ho]
  all_goals norm_num

theorem ex_feed (hi : b.inited = false) (ht : tOff b.x.m.st = some 0) {r : Reading} (h1 : r.t ≤ 0.3) (h2 : ∀ q ∈ b.ibuf ++ [r], 0 ≤ q.t) :
    bootImu exB b r = some { b with x := { b.x with m := { b.x.m with buf := b.x.m.buf ++ [r] } }, ibuf := b.ibuf ++ [r] } := by
  rw [bootImu_pre hi ht]
  have e1 : feed b.x.m.buf r (r.t - exB.P.windowTime + 0 - 0.10) = b.x.m.buf ++ [r] := by
    unfold feed Imu.cleanOld
    rw [if_pos]
    simp only [exB]
    norm_num at h1 ⊢
    linarith
  have e2 : feedInit b.ibuf r (r.t - exB.P.windowTime + 0 - 0.10) = b.ibuf ++ [r] := by
    unfold feedInit
    split_ifs
    · rw [List.filter_eq_self]
      intro q hq
      have := h2 q hq
      simp only [decide_eq_true_eq, not_lt, exB]
      norm_num at h1 ⊢
      linarith
    · rfl
  rw [e1, e2]

theorem ex_feeds (lib : Lib) (es : List LEv) : ∀ (l : List Reading) (b : Boot), b.inited = false → tOff b.x.m.st = some 0 → (∀ r ∈ l, 0 ≤ r.t ∧ r.t ≤ 0.3) → (∀ q ∈ b.ibuf, 0 ≤ q.t) →
    runB lib exB b (l.map .imu ++ es) = runB lib exB { b with x := { b.x with m := { b.x.m with buf := b.x.m.buf ++ l } }, ibuf := b.ibuf ++ l } es
  | [], b, _, _, _, _ => by simp
  | r :: l, b, h1, h2, h3, h4 => by
    have hq : ∀ q ∈ b.ibuf ++ [r], 0 ≤ q.t := fun q hq => (List.mem_append.1 hq).elim (h4 q) fun h => by rw [List.mem_singleton.1 h]; exact (h3 r (by simp)).1
    simp only [List.map_cons, List.cons_append, runB, LEv.boot]
    rw [ex_feed h1 h2 (h3 r (by simp)).2 hq]
    simp only [Option.bind_some]
    rw [ex_feeds lib es l { b with x := { b.x with m := { b.x.m with buf := b.x.m.buf ++ [r] } }, ibuf := b.ibuf ++ [r] } h1 h2 (fun q hq => h3 q (by simp [hq])) hq]
    simp only [List.append_assoc, List.singleton_append]

theorem ex_static : ∃ r, Init.staticInit exB.P [exRest 0, exRest 0.05, exRest 0.1, exRest 0.15, exRest 0.2, exRest 0.25, exRest 0.3] false = some r ∧ r.time = 0.2 := by
  have hm : ∀ a : V3, Init.Spec.mean [a, a] = a := by
    intro a; rw [Init.Spec.mean]; ext i; simp; ring
  have hv : ∀ a : V3, Init.Spec.variance [a, a] = 0 := by
    intro a; rw [Init.Spec.variance, hm]; simp [dot3]
  have h1 : Init.Spec.between ((exRest 0.3).t - exB.P.windowTime / 2) (exRest 0.3).t [exRest 0, exRest 0.05, exRest 0.1, exRest 0.15, exRest 0.2, exRest 0.25, exRest 0.3] = [exRest 0.25, exRest 0.3] := by
    simp only [Init.Spec.between, exRest, exB]; norm_num [List.filter_cons]
  have h2 : Init.Spec.between ((exRest 0.3).t - exB.P.windowTime) ((exRest 0.3).t - exB.P.windowTime / 2) [exRest 0, exRest 0.05, exRest 0.1, exRest 0.15, exRest 0.2, exRest 0.25, exRest 0.3] = [exRest 0.15, exRest 0.2] := by
    simp only [Init.Spec.between, exRest, exB]; norm_num [List.filter_cons]
  refine ⟨Init.staticOut exB.P [exRest 0.15, exRest 0.2] 0.2, (Init.static_iff _ _ _ _).2 ⟨exRest 0, exRest 0.3, exRest 0.2, ⟨by simp, rfl, rfl, by norm_num [exRest, exB], ?_, ?_, ?_⟩, ?_, ?_⟩, rfl⟩
  · rw [h1]; simp
  · rw [h2]; simp
  · rw [h1, h2]
    simp only [List.map_cons, List.map_nil, exRest]
    rw [hv]
    simp [exB]
  · rw [h2]; rfl
  · rw [h2]; rfl

/-- the readings and the first image of `exBevs` start the filter at time 0.2. -/
theorem ex_started {o : Opts} (ho : o.calibDt = false) (hc : 2 ≤ o.maxClones) (hn : 0 < o.numCams) (hlib : St.Spec.LibOK lib) : ∃ y, runB lib exB (exBoot o) (exBevs o) = some y ∧ y.success = true ∧ y.inited = false ∧ y.startup = 0.2 := by
  have hb : Spec.PowerOn lib o 0 (exBoot o) := exBoot_ok ho
  have ht : tOff (exBoot o).x.m.st = some 0 := hb.st.toff
  obtain ⟨r, hr, hrt⟩ := ex_static
  have k1 : Spec.Tidy o 0.3 (fun id => 4 * o.maxAruco < id) (trackAll [] 0.3 (exShot o 0.3).feats) := by
    refine (track_shot (seen := []) (S := exShot o 0.3) (tidy_nil o 0 _) ?_ ⟨by simp [exShot], by simp [exShot, hn], by simp [exShot], by simp [exShot, Spec.measured], by simp⟩ (by simp [exShot]; norm_num)).1
    rintro m ⟨z, hz, -⟩
    simp [obs, AMap.get?] at hz
  have hnew : Init.newestCam (trackAll [] 0.3 (exShot o 0.3).feats) = 0.3 := by
    rw [Init.newestCam_eq]
    simp [trackAll, exShot, updateFeature, Init.allTimes, AMap.get?, AMap.set, Feature.pushObs, Feature.fresh, AMap.push, AMap.getL]
    norm_num
  obtain ⟨db1, c1, c2, -, -⟩ := cleanup_tidy k1 (0.3 - 0.2 - 0.10)
  have hs : Imu.Spec.Sorted [exRest 0, exRest 0.05, exRest 0.1, exRest 0.15, exRest 0.2, exRest 0.25, exRest 0.3] := by
    simp [Imu.Spec.Sorted, exRest]; norm_num
  have hrun : runInit exB (trackAll [] 0.3 (exShot o 0.3).feats) [exRest 0, exRest 0.05, exRest 0.1, exRest 0.15, exRest 0.2, exRest 0.25, exRest 0.3] false =
      some (.ok r.time r.imu r.cov, db1, [exRest 0, exRest 0.05, exRest 0.1, exRest 0.15, exRest 0.2, exRest 0.25, exRest 0.3]) := by
    have hch : Init.choose exB.P (trackAll [] 0.3 (exShot o 0.3).feats) [exRest 0, exRest 0.05, exRest 0.1, exRest 0.15, exRest 0.2, exRest 0.25, exRest 0.3] false =
        some (.static, db1, [exRest 0, exRest 0.05, exRest 0.1, exRest 0.15, exRest 0.2, exRest 0.25, exRest 0.3]) := by
      have e : exB.P.windowTime = 0.2 := rfl
      unfold Init.choose
      simp only [hnew, e]
      rw [if_neg (by norm_num), c1, dropOld_eq _ hs]
      have : ([exRest 0, exRest 0.05, exRest 0.1, exRest 0.15, exRest 0.2, exRest 0.25, exRest 0.3].filter fun r => decide (¬ r.t < 0.3 - 0.2 - 0.10 + exB.P.camimuDt)) =
          [exRest 0, exRest 0.05, exRest 0.1, exRest 0.15, exRest 0.2, exRest 0.25, exRest 0.3] := by
        rw [List.filter_eq_self]
        simp [exRest, exB]; norm_num
      rw [this]
      simp [exB]
    unfold runInit
    rw [hch]
    simp only [Option.bind_eq_bind, Option.bind_some, hr]
  have hcov : r.cov = Init.staticCov := (static_ok (off := 0) hs (Kept.refl _) hr 0.3).2
  let R7 := [exRest 0, exRest 0.05, exRest 0.1, exRest 0.15, exRest 0.2, exRest 0.25, exRest 0.3]
  let b1 : Boot := ⟨⟨⟨ctor o, ⟨0, 0, none⟩, none, false, false, R7, [], db1⟩, fun _ => ⟨.global3d, none, 0, 0, 0, 0, none⟩, some [], []⟩, false, false, R7, 0⟩
  obtain ⟨b2, z1, -, z3⟩ := start_ok (b := b1) hb.st c2 (.inr rfl) r.time r.imu (C := r.cov) (by rw [hcov]; exact staticCov_ok)
  obtain ⟨f1, f2, f3⟩ := start_flags z1
  have htoff : tOff b2.x.m.st = some 0 := by
    have hdt := z3.st.obj dtUid (by simp [dtUid, imuUid])
    rw [← ht]; simp only [tOff, hdt]; rfl
  let b3 : Boot := { b2 with success := true, x := { b2.x with m := { b2.x.m with moved := b2.x.m.moved || decide (norm3 r.imu.v > exB.maxVel) } } }
  have hshot : bootShot lib exB { exBoot o with x := { (exBoot o).x with m := { (exBoot o).x.m with buf := R7 } }, ibuf := R7 } (exShot o 0.3) = some b3 := by
    unfold bootShot
    rw [if_neg (by simp [exBoot]), if_neg (by simp [exBoot])]
    unfold tryInit
    have hr' : runInit exB (trackAll (exBoot o).x.m.db (exShot o 0.3).t (exShot o 0.3).feats) R7 exB.F.mgr.Z.isNone = some (.ok r.time r.imu r.cov, db1, R7) := hrun
    simp only [hr', Option.bind_eq_bind, Option.bind_some]
    exact (congrArg (Option.bind · _) z1).trans rfl
  refine ⟨{ b3 with x := { b3.x with m := { b3.x.m with buf := feed b3.x.m.buf (exRest 0.35) ((exRest 0.35).t - exB.P.windowTime + 0 - 0.10) } }, ibuf := feedInit b3.ibuf (exRest 0.35) ((exRest 0.35).t - exB.P.windowTime + 0 - 0.10) },
    ?_, rfl, f1, f3.trans hrt⟩
  have hev : exBevs o = R7.map LEv.imu ++ [.shot (exShot o 0.3), .imu (exRest 0.35)] := rfl
  rw [hev, ex_feeds lib _ R7 (exBoot o) rfl ht (by simp [R7, exRest]; norm_num) (by simp [exBoot])]
  simp only [runB, LEv.boot]
  refine (congrArg (Option.bind · _) hshot).trans ?_
  simp only [Option.bind_some]
  rw [bootImu_pre (b := b3) (off := 0) f1 htoff]
  rfl

/-- so the hypotheses of C113 are met, and all three phases occur: the filter is started at 0.2 and running at 0.35. -/
example {o : Opts} (ho : o.calibDt = false) (hc : 2 ≤ o.maxClones) (hn : 0 < o.numCams) (hlib : St.Spec.LibOK lib) : ∃ z, runB lib exB (exBoot o) (exBevs o ++ [.shot (exShot o 0.35)]) = some z ∧ z.inited = true ∧ z.startup = 0.2 ∧ z.x.m.st.ts = 0.35 := by
  obtain ⟨y, h1, h2, h3, h4⟩ := ex_started ho hc hn hlib
  obtain ⟨z, k1, k2, k3, k4, -⟩ := C113_first_image hlib (exB_ok hc) (exBoot_ok ho) 0 (exBevs o) (exShot o 0.35) (exBevs_stream hn) h1 h2 h3
  exact ⟨z, k1, k2, k3.trans h4, k4⟩

/-- the gap of C113: a manager started at 0.2 that next gets a reading at time one, with a window of two tenths. -/
example {o : Opts} (ho : o.calibDt = false) : ∃ b : Boot, exB.P.windowTime = 0.2 ∧ b.inited = false ∧ b.success = true ∧ tOff b.x.m.st = some 0 ∧ b.x.m.st.ts + 0 < (exRest 1).t - 0.2 + 0 - 0.2 ∧ 0 ≤ (exRest 1).t - 0.2 + 0 - 0.2 ∧ b.x.m.off = none :=
  ⟨{ exBoot o with success := true, x := { (exBoot o).x with m := { (exBoot o).x.m with st := { ctor o with ts := 0.2 } } } }, rfl, rfl, rfl, (exStart_has ho exF).toff, by norm_num [exRest], by norm_num [exRest], rfl⟩

end Verif.Vio
