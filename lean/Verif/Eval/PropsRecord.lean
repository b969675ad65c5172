import Verif.Eval.Record
import Verif.Ros.PropsPublish
import Verif.State.PropsA

/-!
# C121: recorded trajectories
-/

set_option autoImplicit false
open Classical

namespace Verif.Eval

open Verif Verif.Types Verif.St Verif.Prop_ Verif.Ros

/-! ## Specification -/

namespace Spec

/-- a number written with `k` digits and read again: within half of the last digit -/
def reads (k : ℕ) (x y : ℝ) : Prop := |y - x| ≤ 1 / 2 / 10 ^ k

/-- the pose that is read from a file is the pose of the message, by the conventions of the evaluation -/
def readsPose (m : PoseMsg) (x : Pose) : Prop :=
  (∀ i, reads 6 (m.p i) (x.p i)) ∧ reads 6 m.q.x x.q.x ∧ reads 6 m.q.y x.q.y ∧ reads 6 m.q.z x.q.z ∧ reads 6 m.q.w x.q.w

/-- `M` is symmetric, and what is read of the upper triangle of the 3x3 block of the 6x6 matrix `c` (36 numbers, row by row) that starts at row and column `b` -/
def readsCov (c : ℕ → ℝ) (b : ℕ) (M : M3) : Prop :=
  M.transpose = M ∧ ∀ i j : Fin 3, i ≤ j → reads 10 (c (6 * (b + i) + (b + j))) (M i j)

end Spec

/-! ## Reading what was written -/

theorem dec_reads (k : ℕ) (x : ℝ) : Spec.reads k x (dec k x) := by
  have hk : (0 : ℝ) < 10 ^ k := by positivity
  unfold Spec.reads Ros.dec
  have h := abs_sub_round (x * 10 ^ k)
  rw [abs_sub_comm] at h
  rw [show (round (x * 10 ^ k) : ℝ) / 10 ^ k - x = ((round (x * 10 ^ k) : ℝ) - x * 10 ^ k) / 10 ^ k by field_simp, abs_div, abs_of_pos hk]
  gcongr

theorem dec_mono (k : ℕ) {x y : ℝ} (h : x ≤ y) : dec k x ≤ dec k y := by
  unfold Ros.dec
  have hk : (0 : ℝ) < 10 ^ k := by positivity
  have : round (x * 10 ^ k) ≤ round (y * 10 ^ k) := by
    simp only [round_eq]
    exact Int.floor_mono (by have := mul_le_mul_of_nonneg_right h hk.le; linarith)
  gcongr

/-- the covariance that is read -/
noncomputable def readCov (c : ℕ → ℝ) (b : ℕ) : M3 := !![dec 10 (c (6 * b + b)), dec 10 (c (6 * b + (b + 1))), dec 10 (c (6 * b + (b + 2)));
  dec 10 (c (6 * b + (b + 1))), dec 10 (c (6 * (b + 1) + (b + 1))), dec 10 (c (6 * (b + 1) + (b + 2)));
  dec 10 (c (6 * b + (b + 2))), dec 10 (c (6 * (b + 1) + (b + 2))), dec 10 (c (6 * (b + 2) + (b + 2)))]

theorem readCov_reads (c : ℕ → ℝ) (b : ℕ) : Spec.readsCov c b (readCov c b) := by
  refine ⟨?_, ?_⟩
  · ext i j; fin_cases i <;> fin_cases j <;> rfl
  · intro i j hij
    fin_cases i <;> fin_cases j <;> first | exact dec_reads 10 _ | simp at hij

/-- the pose that is read -/
noncomputable def readPose (m : PoseMsg) : Pose := ⟨![dec 6 (m.p 0), dec 6 (m.p 1), dec 6 (m.p 2)], ⟨dec 6 m.q.x, dec 6 m.q.y, dec 6 m.q.z, dec 6 m.q.w⟩⟩

theorem readPose_reads (m : PoseMsg) : Spec.readsPose m (readPose m) := by
  refine ⟨fun i => ?_, dec_reads _ _, dec_reads _ _, dec_reads _ _, dec_reads _ _⟩
  fin_cases i <;> exact dec_reads _ _

theorem symAt_sym (d : ℕ → ℝ) (i : ℕ) : symAt d i = !![d i, d (i + 1), d (i + 2); d (i + 1), d (i + 3), d (i + 4); d (i + 2), d (i + 4), d (i + 5)] := by
  unfold symAt
  ext a b; fin_cases a <;> fin_cases b <;> simp [Matrix.transpose_apply] <;> ring

theorem load_cov (ms : List RecMsg) : ∀ r : Rec, (∀ m ∈ ms, m.cov.isSome) → loadLoop (recordFrom r ms) =
    ⟨ms.map fun m => dec 5 (toSec m.stamp), ms.map fun m => readPose m.pose, ms.map fun m => readCov (m.cov.getD 0) 3, ms.map fun m => readCov (m.cov.getD 0) 0⟩ := by
  induction ms with
  | nil => intro r _; rfl
  | cons m ms ih =>
    intro r h
    obtain ⟨c, hc⟩ := Option.isSome_iff_exists.1 (h m (by simp))
    simp only [recordFrom, loadLoop]
    rw [ih _ (fun m hm => h m (by simp [hm]))]
    have hl : (Rec.recv r m).line = [dec 5 (toSec m.stamp)] ++ (v3List m.pose.p ++ quatList m.pose.q).map (dec 6) ++
        [dec 10 (c 21), dec 10 (c 22), dec 10 (c 23), dec 10 (c 28), dec 10 (c 29), dec 10 (c 35), dec 10 (c 0), dec 10 (c 1), dec 10 (c 2), dec 10 (c 7), dec 10 (c 8), dec 10 (c 14)] := by
      simp [Rec.recv, hc, Rec.line, upper]
    rw [hl]
    simp only [v3List, quatList, List.cons_append, List.nil_append, List.map_cons, List.map_nil, List.length_cons, List.length_nil]
    norm_num
    refine ⟨rfl, ?_, ?_⟩
    · rw [symAt_sym, hc]; rfl
    · rw [symAt_sym, hc]; rfl

theorem load_plain (ms : List RecMsg) : ∀ r : Rec, r.has = false → (∀ m ∈ ms, m.cov = none) → loadLoop (recordFrom r ms) =
    ⟨ms.map fun m => dec 5 (toSec m.stamp), ms.map fun m => readPose m.pose, [], []⟩ := by
  induction ms with
  | nil => intro r _ _; rfl
  | cons m ms ih =>
    intro r hr h
    have hc := h m (by simp)
    simp only [recordFrom, loadLoop]
    have hr' : (Rec.recv r m).has = false := by simp [Rec.recv, hc, hr]
    rw [ih _ hr' (fun m hm => h m (by simp [hm]))]
    have hl : (Rec.recv r m).line = [dec 5 (toSec m.stamp)] ++ (v3List m.pose.p ++ quatList m.pose.q).map (dec 6) := by
      simp [Rec.recv, hc, Rec.line, hr]
    rw [hl]
    simp only [v3List, quatList, List.cons_append, List.nil_append, List.map_cons, List.map_nil, List.length_cons, List.length_nil]
    norm_num
    rfl

theorem toSec_nanos (s : Stamp) : toSec s = (Ros.Spec.nanos s : ℝ) / 10 ^ 9 := by
  unfold toSec Ros.Spec.nanos; push_cast; ring

/-! ## C121 -/

/-- **C121** (recorded messages) The evaluation reads from the file of a recorder exactly the messages it received, in order: times to five digits, poses to six; for messages with covariance the two blocks of the covariance to ten digits, as symmetric matrices; for other messages no covariance. It refuses only the
empty file. -/
theorem C121_recorded (ms : List RecMsg) (b : Bool) (h : ∀ m ∈ ms, m.cov.isSome = b) :
    (ms = [] ↔ loadData (record ms) = none) ∧ ∀ T, loadData (record ms) = some T →
      T.times.length = ms.length ∧ T.poses.length = ms.length ∧ T.covori.length = (if b then ms.length else 0) ∧ T.covpos.length = (if b then ms.length else 0) ∧
      ∀ (i : ℕ) m, ms[i]? = some m → (∃ t, T.times[i]? = some t ∧ Spec.reads 5 ((Ros.Spec.nanos m.stamp : ℝ) / 10 ^ 9) t) ∧ (∃ x, T.poses[i]? = some x ∧ Spec.readsPose m.pose x) ∧
        ∀ c, m.cov = some c → ∃ A B, T.covori[i]? = some A ∧ T.covpos[i]? = some B ∧ Spec.readsCov c 3 A ∧ Spec.readsCov c 0 B := by
  cases b with
  | true =>
    have e := load_cov ms Rec.init h
    constructor
    · constructor
      · rintro rfl; rfl
      · intro hn
        by_contra hne
        unfold loadData record at hn
        simp [e, hne] at hn
    · intro T hT
      have hT' : T = loadLoop (record ms) := by
        unfold loadData at hT
        simp only at hT
        split_ifs at hT
        exact (Option.some.inj hT).symm
      rw [hT', record, e]
      refine ⟨by simp, by simp, by simp, by simp, fun i m hm => ⟨⟨dec 5 (toSec m.stamp), by simp [hm], ?_⟩, ⟨readPose m.pose, by simp [hm], readPose_reads _⟩, fun c hc => ?_⟩⟩
      · rw [← toSec_nanos]; exact dec_reads _ _
      · exact ⟨readCov c 3, readCov c 0, by simp [hm, hc], by simp [hm, hc], readCov_reads _ _, readCov_reads _ _⟩
  | false =>
    have h' : ∀ m ∈ ms, m.cov = none := fun m hm => by simpa using h m hm
    have e := load_plain ms Rec.init rfl h'
    constructor
    · constructor
      · rintro rfl; rfl
      · intro hn
        by_contra hne
        unfold loadData record at hn
        simp [e, hne] at hn
    · intro T hT
      have hT' : T = loadLoop (record ms) := by
        unfold loadData at hT
        simp only at hT
        split_ifs at hT
        exact (Option.some.inj hT).symm
      rw [hT', record, e]
      refine ⟨by simp, by simp, by simp, by simp, fun i m hm => ⟨⟨dec 5 (toSec m.stamp), by simp [hm], ?_⟩, ⟨readPose m.pose, by simp [hm], readPose_reads _⟩, fun c hc => ?_⟩⟩
      · rw [← toSec_nanos]; exact dec_reads _ _
      · rw [h' m (List.mem_of_getElem? hm)] at hc; cases hc

/-- **C121** (order) Messages in order are read in order. -/
theorem C121_order (ms : List RecMsg) (b : Bool) (h : ∀ m ∈ ms, m.cov.isSome = b) {T : Traj Pose M3} (hT : loadData (record ms) = some T)
    (ho : ms.Pairwise fun a b => Ros.Spec.nanos a.stamp ≤ Ros.Spec.nanos b.stamp) : T.times.Pairwise (· ≤ ·) := by
  have hT' : T = loadLoop (record ms) := by
    unfold loadData at hT
    simp only at hT
    split_ifs at hT
    exact (Option.some.inj hT).symm
  have e : T.times = ms.map fun m => dec 5 (toSec m.stamp) := by
    rw [hT', record]
    cases b with
    | true => rw [load_cov ms Rec.init h]
    | false => rw [load_plain ms Rec.init rfl fun m hm => by simpa using h m hm]
  rw [e, List.pairwise_map]
  refine ho.imp fun {a b} hab => dec_mono 5 ?_
  rw [toSec_nanos, toSec_nanos]
  have : (Ros.Spec.nanos a.stamp : ℝ) ≤ Ros.Spec.nanos b.stamp := by exact_mod_cast hab
  gcongr

theorem statePose_pose {s : State} {m : PoseCovMsg} (h : statePose s = some m) {x : Imu16} (hx : (s.obj imuUid).val = .imu x) : m.pose = ⟨x.q, x.p⟩ := by
  unfold statePose at h
  rw [Option.bind_eq_some_iff] at h
  obtain ⟨off, hoff, h⟩ := h
  rw [Option.bind_eq_some_iff] at h
  obtain ⟨⟨x', f⟩, hx', h⟩ := h
  rw [Option.bind_eq_some_iff] at h
  obtain ⟨st, hst, h⟩ := h
  rw [Option.map_eq_some_iff] at h
  obtain ⟨M, hM, rfl⟩ := h
  unfold imuOf at hx'
  rw [hx] at hx'
  split at hx'
  · rename_i a b h1 h2
    simp only [Option.some.injEq, Prod.mk.injEq] at hx'
    simp only [Val.imu.injEq] at h1
    rw [← hx'.1, ← h1]
  · cases hx'

/-- the recorder subscribed to the published poses -/
def asRec (m : PoseCovMsg) : RecMsg := ⟨m.stamp, m.pose, some m.cov⟩

/-- **C121** (from the filter to the evaluation) Record the poses a running program publishes, in any number of calls: for each published state the evaluation reads the time of the state in the clock of the IMU, the estimated position and orientation, and the covariance of the errors of position and of orientation
that the filter had, up to the digits written; and nothing else. -/
theorem C121_published (lib : Lib) {calls : List (Bool × State)} {P P' : Pub} {out : List (State × PoseCovMsg)} (h : visRun P calls = some (P', out)) (hr : ∀ c ∈ calls, Verif.St.Spec.Reach lib c.2) (hne : out ≠ []) :
    ∃ T, loadData (record (out.map fun e => asRec e.2)) = some T ∧ T.times.length = out.length ∧ T.poses.length = out.length ∧ T.covori.length = out.length ∧ T.covpos.length = out.length ∧
      ∀ (i : ℕ) s m, out[i]? = some (s, m) → ∃ (x : Imu16) (n : ℕ) (off : ℕ → ℝ) (k : ℕ), (s.obj imuUid).val = .imu x ∧ (s.obj imuUid).id = k ∧ (s.obj dtUid).val = .vec n off ∧
        ∃ t y A B, T.times[i]? = some t ∧ T.poses[i]? = some y ∧ T.covori[i]? = some A ∧ T.covpos[i]? = some B ∧
          (0 ≤ s.ts + off 0 → s.ts + off 0 < 2 ^ 32 - 1 → |t - (s.ts + off 0)| ≤ 5.0005e-6) ∧ (∀ j, Spec.reads 6 (x.p j) (y.p j)) ∧
          Spec.reads 6 x.q.x y.q.x ∧ Spec.reads 6 x.q.y y.q.y ∧ Spec.reads 6 x.q.z y.q.z ∧ Spec.reads 6 x.q.w y.q.w ∧
          ∀ a c : Fin 3, Spec.reads 10 (s.P (k + a) (k + c)) (A a c) ∧ Spec.reads 10 (s.P (k + 3 + a) (k + 3 + c)) (B a c) := by
  have hcov : ∀ m ∈ out.map (fun e => asRec e.2), m.cov.isSome = true := by
    intro m hm
    rw [List.mem_map] at hm
    obtain ⟨e, -, rfl⟩ := hm
    rfl
  obtain ⟨h0, h1⟩ := C121_recorded _ true hcov
  obtain ⟨T, hT⟩ : ∃ T, loadData (record (out.map fun e => asRec e.2)) = some T := by
    rw [← Option.ne_none_iff_exists']
    intro hn
    exact hne (List.map_eq_nil_iff.1 (h0.2 hn))
  obtain ⟨l1, l2, l3, l4, hi⟩ := h1 T hT
  simp only [List.length_map, if_true] at l1 l2 l3 l4
  refine ⟨T, hT, l1, l2, l3, l4, fun i s m hm => ?_⟩
  obtain ⟨-, hs, -, -⟩ := C119_one_per_state h
  obtain ⟨hcall, hsp⟩ := hs _ (List.mem_of_getElem? hm)
  simp only at hcall hsp
  obtain ⟨x, n, off, k, hx, hk, ho, hst, -, hc⟩ := C119_state_pose hsp
  obtain ⟨⟨t, ht, ht'⟩, ⟨y, hy, hy'⟩, hC⟩ := hi i (asRec m) (by rw [List.getElem?_map, hm]; rfl)
  obtain ⟨A, B, hA, hB, rA, rB⟩ := hC m.cov rfl
  rw [show (asRec m).pose = _ from statePose_pose hsp hx] at hy'
  obtain ⟨y1, y2, y3, y4, y5⟩ := hy'
  obtain ⟨o, ops, hrun⟩ := hr _ hcall
  have hI := run_inv ops (ctor_inv o) hrun
  have hsym := run_sym ops (ctor_inv o) ((ctor_diag o).sym _) hrun
  have hin : imuUid ∈ s.vars := by
    by_contra hn
    have := hI.out _ hn
    rw [hk] at this
    omega
  have hsz := (hI.contig.mem hin).2
  have h15 : osz s.obj imuUid = 15 := by simp only [osz, hx]; rfl
  rw [h15, hk] at hsz
  have hn : k + 15 ≤ s.n := by exact_mod_cast hsz
  refine ⟨x, n, off, k, hx, hk, ho, t, y, A, B, ht, hy, hA, hB, fun b0 b1 => ?_, y1, y2, y3, y4, y5, ?_⟩
  · obtain ⟨st, hst', -, -, hb⟩ := C119_stamp (s.ts + off 0) b0 b1
    rw [hst] at hst'
    obtain rfl := Option.some.inj hst'
    have := abs_sub_le t ((Ros.Spec.nanos m.stamp : ℝ) / 10 ^ 9) (s.ts + off 0)
    unfold Spec.reads at ht'
    refine this.trans ((add_le_add ht' hb).trans ?_)
    norm_num
  · have key : ∀ a c : Fin 3, a ≤ c → Spec.reads 10 (s.P (k + a) (k + c)) (A a c) ∧ Spec.reads 10 (s.P (k + 3 + a) (k + 3 + c)) (B a c) := by
      intro a c hac
      have ha := a.2
      have hc' := c.2
      have e1 := hc (3 + a) (3 + c) (by omega) (by omega)
      have e2 := hc a c (by omega) (by omega)
      have p1 : ∀ r : ℕ, Ros.Spec.posFirst (3 + r) = r := fun r => by unfold Ros.Spec.posFirst; rw [if_neg (by omega)]; omega
      have p2 : ∀ r : ℕ, r < 3 → Ros.Spec.posFirst r = 3 + r := fun r h => by unfold Ros.Spec.posFirst; rw [if_pos h]; omega
      rw [p1, p1] at e1
      rw [p2 _ ha, p2 _ hc', ← add_assoc, ← add_assoc] at e2
      have r1 := rA.2 a c hac
      have r2 := rB.2 a c hac
      rw [e1] at r1
      rw [zero_add, zero_add, e2] at r2
      exact ⟨r1, r2⟩
    intro a c
    have ha := a.2
    have hc' := c.2
    rcases le_total a c with h | h
    · exact key a c h
    · have := key c a h
      rw [hsym (k + a) (k + c) (by omega) (by omega), hsym (k + 3 + a) (k + 3 + c) (by omega) (by omega), ← rA.1, ← rB.1]
      exact this

/-- A reachable state of which the pose is published, recorded and read. -/
example (lib : Lib) : ∃ s P' out, Verif.St.Spec.Reach lib s ∧ Verif.St.Spec.Reach lib (ctor Ros.exO) ∧ visRun ⟨0, []⟩ [(false, ctor Ros.exO), (true, s), (true, s)] = some (P', out) ∧ out ≠ [] := by
  obtain ⟨s, hr, ht, hn, -, h0, hv, hf, h6, -⟩ := exRun lib
  obtain ⟨m, hm⟩ := exRun_pose ht hn h0 hv hf h6
  have hc : (ctor Ros.exO).ts = -1 := by simp [ctor, ctorVars, Ros.exO, push]
  refine ⟨s, ⟨5, [(m.stamp, m.pose)]⟩, [(s, m)], ⟨Ros.exO, Ros.exOps, hr⟩, ⟨Ros.exO, [], rfl⟩, ?_, by simp⟩
  simp only [visRun, visualize, hc, ht, hm]
  norm_num

/-- **C121** (converted ground truth) A ground-truth table converted to the recorded format is read as the table itself, up to the digits written; and the conversion fails exactly when the table cannot be read. -/
theorem C121_converted (rows : List Row) :
    (convert rows = none ↔ loadCsv rows = none) ∧ ∀ out, convert rows = some out → ∃ T U, loadData out = some T ∧ loadCsv rows = some U ∧
      T.times.length = U.times.length ∧ T.poses.length = U.poses.length ∧ T.covori = [] ∧ T.covpos = [] ∧ U.covori = [] ∧ U.covpos = [] ∧
      (∀ (i : ℕ) t u, T.times[i]? = some t → U.times[i]? = some u → Spec.reads 5 u t) ∧
      ∀ (i : ℕ) x y, T.poses[i]? = some x → U.poses[i]? = some y → Spec.readsPose ⟨y.q, y.p⟩ x := by
  have hf : (rows.filter fun r => decide (7 < r.length)) = rows.filter fun r => decide (8 ≤ r.length) := by
    congr 1
  have load : ∀ l : List Row, loadLoop (l.map fun r => [dec 5 (1e-9 * r.getD 0 0)] ++ [r.getD 1 0, r.getD 2 0, r.getD 3 0, r.getD 5 0, r.getD 6 0, r.getD 7 0, r.getD 4 0].map (dec 6)) =
      ⟨l.map fun r => dec 5 (1e-9 * r.getD 0 0), l.map fun r => readPose ⟨⟨r.getD 5 0, r.getD 6 0, r.getD 7 0, r.getD 4 0⟩, ![r.getD 1 0, r.getD 2 0, r.getD 3 0]⟩, [], []⟩ := by
    intro l
    induction l with
    | nil => rfl
    | cons r l ih =>
      rw [List.map_cons]
      unfold loadLoop
      rw [ih]
      simp only [List.map_cons, List.map_nil]
      simp only [List.cons_append, List.nil_append, List.length_cons, List.length_nil]
      norm_num
      rfl
  by_cases hl : (rows.filter fun r => decide (8 ≤ r.length)) = []
  · simp only [convert, loadCsv, hf, hl, if_true, true_and]
    intro out h; cases h
  · refine ⟨by simp [convert, loadCsv, hf, hl], ?_⟩
    intro out h
    simp only [convert, hf, hl, if_false, Option.some.injEq] at h
    subst h
    refine ⟨⟨(rows.filter fun r => decide (8 ≤ r.length)).map fun r => dec 5 (1e-9 * r.getD 0 0), (rows.filter fun r => decide (8 ≤ r.length)).map fun r => readPose ⟨⟨r.getD 5 0, r.getD 6 0, r.getD 7 0, r.getD 4 0⟩, ![r.getD 1 0, r.getD 2 0, r.getD 3 0]⟩, [], []⟩,
      ⟨(rows.filter fun r => decide (8 ≤ r.length)).map fun r => 1e-9 * r.getD 0 0, (rows.filter fun r => decide (8 ≤ r.length)).map fun r => ⟨![r.getD 1 0, r.getD 2 0, r.getD 3 0], ⟨r.getD 5 0, r.getD 6 0, r.getD 7 0, r.getD 4 0⟩⟩, [], []⟩, ?_, by simp [loadCsv, hl], ?_⟩
    · unfold loadData
      simp only [load]
      simp [hl]
    · refine ⟨by simp, by simp, rfl, rfl, rfl, rfl, ?_, ?_⟩
      · intro i t u ht hu
        simp only [List.getElem?_map, Option.map_eq_some_iff] at ht hu
        obtain ⟨r, hr, rfl⟩ := ht
        obtain ⟨r', hr', rfl⟩ := hu
        rw [hr] at hr'
        obtain rfl := Option.some.inj hr'
        exact dec_reads _ _
      · intro i x y hx hy
        simp only [List.getElem?_map, Option.map_eq_some_iff] at hx hy
        obtain ⟨r, hr, rfl⟩ := hx
        obtain ⟨r', hr', rfl⟩ := hy
        rw [hr] at hr'
        obtain rfl := Option.some.inj hr'
        exact readPose_reads _

/-- a table with one line and what it becomes -/
example : (convert [[1403636579758555500, 1, 2, 3, 1, 0, 0, 0]]).isSome := by
  unfold convert
  simp

/-- the covariance of `C121_covariance_lost` -/
noncomputable def lostC : Matrix (Fin 6) (Fin 6) ℝ :=
  !![1, 0, 0, 0, 0, 0; 0, 1, 0, 0, 0, 0; 0, 0, 1, 0, 0, 0; 0, 0, 0, 1.49e-10, 1.51e-10, 0; 0, 0, 0, 1.51e-10, 1.6e-10, 0; 0, 0, 0, 0, 0, 1]

/-- **C121** (finding) Ten digits after the point are not enough for a covariance: a message with a positive definite covariance, with standard deviations of the orientation near 1e-5, is read back with a covariance of the orientation that is not positive semidefinite. -/
theorem C121_covariance_lost : ∃ m : RecMsg, ∃ c, m.cov = some c ∧ (∀ i j : Fin 6, c (6 * i + j) = c (6 * j + i)) ∧ (∀ x : Fin 6 → ℝ, x ≠ 0 → 0 < ∑ i : Fin 6, ∑ j : Fin 6, x i * c (6 * i + j) * x j) ∧
    ∃ T A, loadData (record [m]) = some T ∧ T.covori = [A] ∧ ∃ v : V3, v ⬝ᵥ A.mulVec v < 0 := by
  let c : ℕ → ℝ := fun n => if h : n < 36 then lostC ⟨n / 6, by omega⟩ ⟨n % 6, by omega⟩ else 0
  have d1 : dec 10 (1.49e-10) = 1 / 10 ^ 10 := by
    unfold Ros.dec
    rw [show round ((1.49e-10 : ℝ) * 10 ^ 10) = 1 by rw [round_eq, Int.floor_eq_iff]; norm_num]; norm_num
  have d2 : dec 10 (1.51e-10) = 2 / 10 ^ 10 := by
    unfold Ros.dec
    rw [show round ((1.51e-10 : ℝ) * 10 ^ 10) = 2 by rw [round_eq, Int.floor_eq_iff]; norm_num]; norm_num
  have d3 : dec 10 (1.6e-10) = 2 / 10 ^ 10 := by
    unfold Ros.dec
    rw [show round ((1.6e-10 : ℝ) * 10 ^ 10) = 2 by rw [round_eq, Int.floor_eq_iff]; norm_num]; norm_num
  have hc : ∀ i j : Fin 6, c (6 * i + j) = lostC i j := by
    intro i j; fin_cases i <;> fin_cases j <;> rfl
  refine ⟨⟨⟨0, 0⟩, ⟨⟨0, 0, 0, 1⟩, 0⟩, some c⟩, c, rfl, ?_, ?_, ⟨[dec 5 (toSec ⟨0, 0⟩)], [readPose ⟨⟨0, 0, 0, 1⟩, 0⟩], [readCov c 3], [readCov c 0]⟩, readCov c 3, ?_, rfl, ![2, -1, 0], ?_⟩
  · intro i j; rw [hc, hc]; fin_cases i <;> fin_cases j <;> rfl
  · intro x hx
    have e : (∑ i : Fin 6, ∑ j : Fin 6, x i * c (6 * i + j) * x j) = x 0 ^ 2 + x 1 ^ 2 + x 2 ^ 2 + x 5 ^ 2 + 1e-10 * (1.49 * (x 3 + 151 / 149 * x 4) ^ 2 + (1.6 - 1.51 * 151 / 149) * x 4 ^ 2) := by
      simp only [hc, Fin.sum_univ_six]
      simp [lostC]
      ring
    rw [e]
    by_contra hn
    have h4 : x 4 = 0 := by nlinarith [sq_nonneg (x 0), sq_nonneg (x 1), sq_nonneg (x 2), sq_nonneg (x 5), sq_nonneg (x 3 + 151 / 149 * x 4), sq_nonneg (x 4)]
    rw [h4] at hn
    have z : ∀ y : ℝ, y ^ 2 ≤ 0 → y = 0 := fun y h => pow_eq_zero_iff (two_ne_zero) |>.1 (le_antisymm h (sq_nonneg y))
    have g0 := sq_nonneg (x 0)
    have g1 := sq_nonneg (x 1)
    have g2 := sq_nonneg (x 2)
    have g3 := sq_nonneg (x 3)
    have g5 := sq_nonneg (x 5)
    norm_num at hn
    have h0 := z (x 0) (by linarith)
    have h1 := z (x 1) (by linarith)
    have h2 := z (x 2) (by linarith)
    have h3 := z (x 3) (by linarith)
    have h5 := z (x 5) (by linarith)
    apply hx
    ext i
    fin_cases i <;> assumption
  · have := load_cov [⟨⟨0, 0⟩, ⟨⟨0, 0, 0, 1⟩, 0⟩, some c⟩] Rec.init (by simp)
    unfold loadData record
    rw [this]
    simp
  · have e1 : c 21 = 1.49e-10 := rfl
    have e2 : c 22 = 1.51e-10 := rfl
    have e3 : c 28 = 1.6e-10 := rfl
    have q : ∀ A : M3, (![2, -1, 0] : V3) ⬝ᵥ A.mulVec ![2, -1, 0] = 4 * A 0 0 - 2 * A 0 1 - 2 * A 1 0 + A 1 1 := by
      intro A
      simp [Matrix.mulVec, dotProduct, Fin.sum_univ_three]
      ring
    rw [q]
    show 4 * dec 10 (c 21) - 2 * dec 10 (c 22) - 2 * dec 10 (c 22) + dec 10 (c 28) < 0
    rw [e1, e2, e3, d1, d2, d3]
    norm_num

end Verif.Eval
