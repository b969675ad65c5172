import Verif.Vio.PropsBoot

/-!
# More about the start: the dynamic initialiser's preconditions, the databases, and the covariance with ground truth (C113)
-/

set_option autoImplicit false
open Classical

namespace Verif.Vio

open Verif Verif.Types Verif.St Verif.Imu Verif.Prop_ Verif.Feat Verif.Disp

variable {lib : Lib} {o : Opts} {B : BCfg} {b b' : Boot}

/-- **C113** (dynamic start) A dynamic initialisation succeeds only with the time of the newest measurement, a whole window after zero; on tracks cut to that window that are at least three quarters of the features asked for; on at least two readings, all from the window on, where an older one had been received; and what it sets is what the
optimisation on just those returned. -/
theorem C113_dynamic {db db' : DB ℝ Uv} {buf buf' : List Reading} {t : ℝ} {x : Imu16} {C : Mat} (hs : Imu.Spec.Sorted buf) (h : dynInit B db buf = some (.ok t x C, db', buf')) :
    t = Init.newestCam db ∧ 0 ≤ t ∧ B.P.windowTime ≤ t ∧ cleanupMeasurements db (t - B.P.windowTime) = some db' ∧ 0.75 * (B.maxFeat : ℝ) ≤ db'.length ∧
      buf' = buf.filter (fun r => decide (t - B.P.windowTime + B.P.camimuDt ≤ r.t)) ∧ 2 ≤ buf'.length ∧ (∃ r ∈ buf, r.t < t - B.P.windowTime + B.P.camimuDt) ∧ B.dyn db' buf' = some (x, some C) := by
  unfold dynInit at h
  simp only at h
  by_cases e : Init.newestCam db < 0 ∨ Init.newestCam db - B.P.windowTime < 0
  · rw [if_pos e] at h; simp at h
  rw [if_neg e] at h
  push Not at e
  rw [Option.bind_eq_bind, Option.bind_eq_some_iff] at h
  obtain ⟨db1, h1, h⟩ := h
  split_ifs at h with c1 c2
  · simp at h
  · simp at h
  push Not at c1 c2
  have hp : ∃ p ∈ buf, p.t < Init.newestCam db - B.P.windowTime + B.P.camimuDt := by
    have := c2.2
    cases buf with
    | nil => simp at this
    | cons r l => exact ⟨r, by simp, by simpa using this⟩
  have hd := dropOld_eq (Init.newestCam db - B.P.windowTime + B.P.camimuDt) hs
  cases hdy : B.dyn db1 (Init.dropOldImu (Init.newestCam db - B.P.windowTime + B.P.camimuDt) buf) with
  | none => rw [hdy] at h; simp at h
  | some y =>
    rw [hdy] at h
    obtain ⟨y1, y2⟩ := y
    cases y2 with
    | none => simp at h
    | some C2 =>
      simp only [Option.some.injEq, Prod.mk.injEq, Out.ok.injEq] at h
      obtain ⟨⟨rfl, rfl, rfl⟩, rfl, rfl⟩ := h
      refine ⟨rfl, e.1, by linarith [e.2], h1, c1, ?_, c2.1, hp, hdy⟩
      rw [hd]
      congr 1
      funext r
      simp only [not_lt]

/-- **C113** (tags at the start) Like the database of the other tracker, that of the tag tracker keeps exactly the measurements after the start. -/
theorem C113_start_tags {T : ℝ} {range : ℕ → Prop} {a : DB ℝ Uv} (hd : Spec.Tidy o T range a) (ha : b.x.aruco = some a) {t : ℝ} {x : Imu16} {C : Mat} (h : start b t x C = some b') :
    ∃ a', b'.x.aruco = some a' ∧ ∀ id cam, obs a' id cam = (obs a id cam).filter fun z => t < z.1 := by
  unfold start at h
  rw [Option.bind_eq_bind, Option.bind_eq_some_iff] at h
  obtain ⟨s1, -, h⟩ := h
  rw [Option.bind_eq_bind, Option.bind_eq_some_iff] at h
  obtain ⟨db, -, h⟩ := h
  obtain ⟨a', d1, -, -, d4⟩ := cleanup_tidy hd t
  rw [ha] at h
  simp only [d1, Option.map_some, Option.bind_eq_bind, Option.bind_some, Option.some.injEq] at h
  subst h
  exact ⟨a', rfl, d4⟩

/-- **C113** (covariance with ground truth) Started with ground truth, the IMU state is known to 0.017 rad about each axis, 5 cm, 1 cm/s and 0.02 in each bias, all uncorrelated. -/
theorem C113_ground_truth_sigma (i : Fin 15) (j : Fin 15) : gtCov i j = if i = j then (![0.017, 0.017, 0.017, 0.05, 0.05, 0.05, 0.01, 0.01, 0.01, 0.02, 0.02, 0.02, 0.02, 0.02, 0.02] : Fin 15 → ℝ) i ^ 2 else 0 := by
  unfold gtCov
  by_cases h : i = j
  · subst h
    rw [if_pos rfl, if_pos rfl]
    fin_cases i <;> simp
  · rw [if_neg h, if_neg (fun e => h (Fin.ext e))]

/-- the hypotheses of `C113_dynamic` are met: one track with a measurement at second 3, a window of one second, readings every half second, and an optimisation that returns something -/
example (F : FCfg) (x : Imu16) (C : Mat) : ∃ (db : DB ℝ Uv) (buf : List Reading) (db' : DB ℝ Uv) (buf' : List Reading) (t : ℝ), Imu.Spec.Sorted buf ∧
    dynInit ⟨F, ⟨1, 1, 0, 9.81, 0, false⟩, 1, 1, fun _ _ => some (x, some C)⟩ db buf = some (.ok t x C, db', buf') := by
  refine ⟨[(7, ⟨7, false, [(0, [(1, 1)])], [(0, [(1, 1)])], [(0, [3])]⟩)], [⟨1, 0, 0⟩, ⟨2, 0, 0⟩, ⟨3, 0, 0⟩], ?_⟩
  have hn : Init.newestCam [(7, (⟨7, false, [(0, [(1, 1)])], [(0, [(1, 1)])], [(0, [3])]⟩ : Feature ℝ Uv))] = 3 := by simp [Init.newestCam]; norm_num
  have h2 : (3 : ℝ) - 1 = 2 := by norm_num
  have h3 : ¬ ((3 : ℝ) < 0 ∨ (2 : ℝ) < 0) := by norm_num
  simp only [dynInit, hn, h2, if_neg h3]
  have h4 : ¬ ((3 : ℝ) ≤ 2) := by norm_num
  have h5 : ∃ db', cleanupMeasurements [(7, (⟨7, false, [(0, [(1, 1)])], [(0, [(1, 1)])], [(0, [3])]⟩ : Feature ℝ Uv))] 2 = some db' ∧ db'.length = 1 := by
    simp [cleanupMeasurements, cleanupLoop, cleanOlder, cleanWith, AMap.keys, cleanCam, AMap.get?, AMap.set, ctMeas, h4, AMap.getL, eraseLoop, AMap.modify]
  obtain ⟨db', h5, h6⟩ := h5
  rw [h5]
  simp [h6, Init.dropOldImu, Imu.Spec.Sorted]
  norm_num

end Verif.Vio
