import Verif.Init.Props
import Verif.Disp.Props

/-!
# C52, C53: choice of the initialiser and the static initialiser
-/

set_option linter.unusedSimpArgs false

open Classical

namespace Verif.Init

open Verif Verif.Imu Verif.Feat Verif.Disp Verif.Types AMap

/-! ## C53 -/

namespace Spec

/-- mean of vectors -/
noncomputable def mean (l : List V3) : V3 := (1 / (l.length : ℝ)) • l.sum

/-- sample variance of the accelerations about their mean (sum over the three axes) -/
noncomputable def variance (l : List V3) : ℝ := (l.map fun a => dot3 (a - mean l) (a - mean l)).sum / ((l.length : ℝ) - 1)

/-- readings in a half-open time interval -/
noncomputable def between (a b : ℝ) (buf : List Reading) : List Reading := buf.filter fun r => decide (a < r.t ∧ r.t ≤ b)

end Spec

theorem foldl_add (l : List V3) (s : V3) : l.foldl (· + ·) s = s + l.sum := by
  induction l generalizing s with
  | nil => simp
  | cons a l ih => rw [List.foldl_cons, ih, List.sum_cons]; abel

theorem vmean_eq (l : List V3) : vmean l = Spec.mean l := by rw [vmean, vsum, foldl_add, zero_add, Spec.mean]

theorem foldl_addf (l : List V3) (f : V3 → ℝ) (s : ℝ) : l.foldl (fun s a => s + f a) s = s + (l.map f).sum := by
  induction l generalizing s with
  | nil => simp
  | cons a l ih => rw [List.foldl_cons, ih, List.map_cons, List.sum_cons]; ring

theorem vdev_eq (l : List V3) : vdev l = Real.sqrt (Spec.variance l) := by
  rw [vdev, foldl_addf, zero_add, vmean_eq, Spec.variance]

theorem win10_eq (w n : ℝ) (buf : List Reading) : win1to0 w n buf = Spec.between (n - w / 2) n buf := by
  rw [win1to0, Spec.between]; congr 1; funext r
  apply decide_eq_decide.2
  constructor <;> rintro ⟨a, b⟩ <;> constructor <;> norm_num at * <;> linarith

theorem win21_eq (w n : ℝ) (buf : List Reading) : win2to1 w n buf = Spec.between (n - w) (n - w / 2) buf := by
  rw [win2to1, Spec.between]; congr 1; funext r
  apply decide_eq_decide.2
  constructor <;> rintro ⟨a, b⟩ <;> constructor <;> norm_num at * <;> linarith

/-- the gates of the static initialiser, in words: two readings, the buffer spans the window, both half windows have two readings, and the
standard deviations lie on the right sides of the threshold. -/
def Spec.Gates (p : Params) (buf : List Reading) (wait : Bool) (old new : Reading) : Prop :=
  let recent := Spec.between (new.t - p.windowTime / 2) new.t buf
  let before := Spec.between (new.t - p.windowTime) (new.t - p.windowTime / 2) buf
  let dev (l : List Reading) := Real.sqrt (Spec.variance (l.map Reading.am))
  2 ≤ buf.length ∧ buf.head? = some old ∧ buf.getLast? = some new ∧ p.windowTime ≤ new.t - old.t ∧ 2 ≤ recent.length ∧ 2 ≤ before.length ∧
    (if wait then p.imuThresh ≤ dev recent ∧ dev before ≤ p.imuThresh else dev recent ≤ p.imuThresh ∧ dev before ≤ p.imuThresh)

/-- what the code computes once the gates are passed -/
noncomputable def staticOut (p : Params) (w21 : List Reading) (t : ℝ) : StaticResult :=
  ⟨t, ⟨rot2quat (gramSchmidt (unitV (vmean (w21.map Reading.am)))), 0, 0, vmean (w21.map Reading.wm),
    vmean (w21.map Reading.am) - (quat2Rot (rot2quat (gramSchmidt (unitV (vmean (w21.map Reading.am)))))).mulVec ![0, 0, p.gravityMag]⟩, staticCov⟩

theorem static_iff (p : Params) (buf : List Reading) (wait : Bool) (r : StaticResult) :
    staticInit p buf wait = some r ↔ ∃ old new l, Spec.Gates p buf wait old new ∧
      (Spec.between (new.t - p.windowTime) (new.t - p.windowTime / 2) buf).getLast? = some l ∧
      r = staticOut p (Spec.between (new.t - p.windowTime) (new.t - p.windowTime / 2) buf) l.t := by
  constructor
  · intro h
    rw [staticInit] at h
    cases hh : buf.head? with
    | none => rw [hh] at h; simp at h
    | some old =>
      cases hg : buf.getLast? with
      | none => rw [hh, hg] at h; simp at h
      | some new =>
        rw [hh, hg] at h
        simp only [vdev_eq, win10_eq, win21_eq] at h
        split_ifs at h with h1 h2 h3 h4 h5 h6
        cases hl : (Spec.between (new.t - p.windowTime) (new.t - p.windowTime / 2) buf).getLast? with
        | none => rw [hl] at h; simp at h
        | some l =>
          rw [hl] at h
          simp only [Option.some.injEq] at h
          refine ⟨old, new, l, ⟨by omega, hh, hg, by linarith, by omega, by omega, ?_⟩, hl, h.symm⟩
          cases wait with
          | false =>
            simp only [and_true, not_or, not_lt, gt_iff_lt] at h6
            simpa using h6
          | true =>
            simp only [and_true, not_lt, gt_iff_lt] at h4 h5
            simpa using ⟨h4, h5⟩
  · rintro ⟨old, new, l, ⟨g1, g2, g3, g4, g5, g6, g7⟩, hl, rfl⟩
    rw [staticInit, if_neg (by omega), g2, g3]
    simp only [vdev_eq, win10_eq, win21_eq]
    rw [if_neg (by linarith), if_neg (by omega)]
    cases wait with
    | false =>
      simp only [Bool.false_eq_true, if_false] at g7
      rw [if_neg (by simp), if_neg (by simp), if_neg (by simp only [and_true, not_or, not_lt, gt_iff_lt]; exact g7), hl]
      rfl
    | true =>
      simp only [if_true] at g7
      rw [if_neg (by simp only [and_true, not_lt]; exact g7.1), if_neg (by simp only [and_true, not_lt, gt_iff_lt]; exact g7.2), if_neg (by simp), hl]
      rfl

/-- **C53** The static initialiser succeeds exactly when the gates hold; the two half windows it uses share no reading, lie inside the buffer, and the newest one
ends with the newest reading of a time-ordered buffer. -/
theorem C53_windows (p : Params) (hw : 0 < p.windowTime) (buf : List Reading) (wait : Bool) :
    ((∃ r, staticInit p buf wait = some r) ↔ ∃ old new, Spec.Gates p buf wait old new) ∧
    (∀ new : Reading, ∀ x : Reading, x ∈ Spec.between (new.t - p.windowTime / 2) new.t buf → x ∉ Spec.between (new.t - p.windowTime) (new.t - p.windowTime / 2) buf) ∧
    (∀ new : Reading, buf.getLast? = some new → new ∈ Spec.between (new.t - p.windowTime / 2) new.t buf) := by
  refine ⟨?_, ?_, ?_⟩
  · constructor
    · rintro ⟨r, hr⟩
      obtain ⟨old, new, l, hG, -⟩ := (static_iff p buf wait r).1 hr
      exact ⟨old, new, hG⟩
    · rintro ⟨old, new, hG⟩
      have hlen := hG.2.2.2.2.2.1
      cases hl : (Spec.between (new.t - p.windowTime) (new.t - p.windowTime / 2) buf).getLast? with
      | none => rw [List.getLast?_eq_none_iff] at hl; rw [hl] at hlen; simp at hlen
      | some l => exact ⟨_, (static_iff p buf wait _).2 ⟨old, new, l, hG, hl, rfl⟩⟩
  · intro new x hx hy
    simp only [Spec.between, List.mem_filter, decide_eq_true_eq] at hx hy
    linarith [hx.2.1, hy.2.2]
  · intro new hn
    simp only [Spec.between, List.mem_filter, decide_eq_true_eq]
    exact ⟨List.mem_of_getLast? hn, by linarith, le_refl _⟩

/-- **C53** On success, with a non-zero mean acceleration `a` in the older half window: the orientation is a unit quaternion whose rotation maps the vertical to the
direction of `a`; gravity in the estimated frame plus the accelerometer bias equals `a`; the gyroscope bias is the mean rate of that window; position and velocity are zero; the time is that of
the window's last reading; and the covariance is diagonal with positive entries. -/
theorem C53_result (p : Params) (buf : List Reading) (wait : Bool) (r : StaticResult) (hr : staticInit p buf wait = some r) :
    ∃ old new last, Spec.Gates p buf wait old new ∧
      (let before := Spec.between (new.t - p.windowTime) (new.t - p.windowTime / 2) buf
       let a := Spec.mean (before.map Reading.am)
       before.getLast? = some last ∧ r.time = last.t ∧ r.imu.bg = Spec.mean (before.map Reading.wm) ∧ r.imu.p = 0 ∧ r.imu.v = 0 ∧
        (a ≠ 0 → IsUnitQ r.imu.q ∧ norm3 a • (quat2Rot r.imu.q).mulVec ![0, 0, 1] = a) ∧
        (quat2Rot r.imu.q).mulVec ![0, 0, p.gravityMag] + r.imu.ba = a) ∧
      (∀ i j, i < 15 → j < 15 → (i = j → 0 < r.cov i j) ∧ (i ≠ j → r.cov i j = 0)) := by
  obtain ⟨old, new, l, hG, hl, rfl⟩ := (static_iff p buf wait r).1 hr
  refine ⟨old, new, l, hG, ⟨hl, rfl, vmean_eq _, rfl, rfl, ?_, ?_⟩, ?_⟩
  · intro ha
    simp only [staticOut, vmean_eq]
    generalize Spec.mean (List.map Reading.am (Spec.between (new.t - p.windowTime) (new.t - p.windowTime / 2) buf)) = a at ha
    have hu : unitV a ≠ 0 := by
      intro h0
      have := unitV_dot ha
      rw [h0] at this
      simp [dot3] at this
    obtain ⟨hR, hz, -⟩ := C50_gram_schmidt (unitV a) hu
    obtain ⟨hc, hq⟩ := QuatProps.C24_rotation_round_trip.2 _ hR
    refine ⟨hc.1, ?_⟩
    rw [hq, hz, unitV_of_unit (unitV_dot ha), unitV, smul_smul, mul_one_div_cancel (norm3_pos ha).ne', one_smul]
  · simp only [staticOut, vmean_eq]
    abel
  · intro i j _ _
    simp only [staticOut, staticCov]
    constructor
    · rintro rfl
      rw [if_pos rfl]
      split_ifs <;> norm_num
    · intro h
      rw [if_neg h]

/-- ten readings of a resting sensor pass the gates (not waiting for a jerk) -/
example : ∃ (p : Params) (buf : List Reading) (r : StaticResult), staticInit p buf false = some r := by
  let rd : ℝ → Reading := fun t => ⟨t, 0, ![0, 0, 9.81]⟩
  let p : Params := ⟨1, 1, 0, 9.81, 0, false⟩
  have hG : Spec.Gates p [rd 0, rd 0.1, rd 0.2, rd 0.8, rd 1] false (rd 0) (rd 1) := by
    have hm : ∀ a : V3, Spec.mean [a, a] = a := by
      intro a; rw [Spec.mean]; ext i; simp; ring
    have hv : ∀ a : V3, Spec.variance [a, a] = 0 := by
      intro a; rw [Spec.variance, hm]; simp [dot3]
    have h1 : Spec.between ((rd 1).t - p.windowTime / 2) (rd 1).t [rd 0, rd 0.1, rd 0.2, rd 0.8, rd 1] = [rd 0.8, rd 1] := by
      simp only [Spec.between, rd, p]; norm_num [List.filter_cons]
    have h2 : Spec.between ((rd 1).t - p.windowTime) ((rd 1).t - p.windowTime / 2) [rd 0, rd 0.1, rd 0.2, rd 0.8, rd 1] = [rd 0.1, rd 0.2] := by
      simp only [Spec.between, rd, p]; norm_num [List.filter_cons]
    refine ⟨by simp, rfl, rfl, by norm_num [rd, p], ?_, ?_, ?_⟩
    · rw [h1]; simp
    · rw [h2]; simp
    · rw [h1, h2]
      simp only [List.map_cons, List.map_nil, rd]
      rw [hv]
      simp [p]
  obtain ⟨r, hr⟩ := (C53_windows p (by norm_num [p]) [rd 0, rd 0.1, rd 0.2, rd 0.8, rd 1] false).1.2 ⟨_, _, hG⟩
  exact ⟨p, _, r, hr⟩

/-! ## C52 -/

theorem foldl_max_ge (l : List ℝ) (m : ℝ) : m ≤ l.foldl max m ∧ (∀ x ∈ l, x ≤ l.foldl max m) ∧ (l.foldl max m = m ∨ l.foldl max m ∈ l) := by
  induction l generalizing m with
  | nil => simp
  | cons a l ih =>
    obtain ⟨h1, h2, h3⟩ := ih (max m a)
    rw [List.foldl_cons]
    refine ⟨(le_max_left _ _).trans h1, ?_, ?_⟩
    · intro x hx
      rcases List.mem_cons.1 hx with rfl | hx
      · exact (le_max_right _ _).trans h1
      · exact h2 x hx
    · rcases h3 with h3 | h3
      · rw [h3]
        rcases max_choice m a with h | h
        · left; exact h
        · right; rw [h]; simp
      · right; simp [h3]

/-- all observation times stored in a database, in the order the loops visit them -/
def allTimes (db : DB ℝ Uv) : List ℝ := List.flatMap (fun e => List.flatMap Prod.snd e.2.times) db

theorem newestCam_eq (db : DB ℝ Uv) : newestCam db = (allTimes db).foldl max (-1) := by
  rw [newestCam, allTimes]
  generalize (-1 : ℝ) = m
  induction db generalizing m with
  | nil => rfl
  | cons e db ih =>
    rw [List.foldl_cons, ih, List.flatMap_cons, List.foldl_append]
    congr 1
    generalize e.2.times = ts
    induction ts generalizing m with
    | nil => rfl
    | cons c ts ih2 => rw [List.foldl_cons, ih2, List.flatMap_cons, List.foldl_append]

theorem mem_allTimes {db : DB ℝ Uv} (h : WF db) (t : ℝ) : t ∈ allTimes db ↔ ∃ id cam, ∃ o ∈ obs db id cam, o.1 = t := by
  constructor
  · intro ht
    simp only [allTimes, List.mem_flatMap] at ht
    obtain ⟨e, he, cp, hcp, htm⟩ := ht
    have hg := get?_of_mem (m := db) h.nodup (k := e.1) (v := e.2) he
    have hw := (h.feat _ _ hg).1
    have hl : e.2.times.getL cp.1 = cp.2 := getL_of_get? (get?_of_mem hw.nodup hcp)
    rw [← hl, ← hw.obs_times, List.mem_map] at htm
    obtain ⟨o, ho, rfl⟩ := htm
    exact ⟨e.1, cp.1, o, by simpa [obs, hg] using ho, rfl⟩
  · rintro ⟨id, cam, o, ho, rfl⟩
    cases hg : db.get? id with
    | none => simp [obs, hg] at ho
    | some f =>
      have hw := (h.feat _ _ hg).1
      have ho' : o ∈ f.obs cam := by simpa [obs, hg] using ho
      have hmem : o.1 ∈ f.times.getL cam := by rw [← hw.obs_times]; exact List.mem_map.2 ⟨o, ho', rfl⟩
      simp only [allTimes, List.mem_flatMap]
      refine ⟨(id, f), mem_of_get? hg, (cam, f.times.getL cam), ?_, hmem⟩
      have hk : cam ∈ f.times.keys := by
        by_contra hc
        rw [obs_nil_of_not_mem hc] at ho'
        simp at ho'
      exact mem_of_get? (get?_getL hk)

/-- the newest observation time of a database, `-1` if it has none (observation times are positive) -/
def Spec.Newest (db : DB ℝ Uv) (t : ℝ) : Prop :=
  (∀ id cam, ∀ o ∈ obs db id cam, o.1 ≤ t) ∧ ((∃ id cam, ∃ o ∈ obs db id cam, o.1 = t) ∨ t = -1)

/-- The platform is moving in a time window: the reported average displacement of at least fifteen tracks exceeds the limit. -/
def Spec.Moving (p : Params) (s : Stats) : Prop := ∃ m, s.mean = some m ∧ p.maxDisparity < m

theorem moving_iff (p : Params) (s : Stats) : moving p s = true ↔ Spec.Moving p s := by
  rw [moving, Spec.Moving]
  cases s.mean <;> simp

/-- **C52** After any history with time-ordered tracks: the choice never aborts; it fails without looking further unless the newest image time and the start of the window (less 0.1 s) are non-negative;
otherwise old data is dropped and, with the disparity test off, the platform counts as still; with it on, at least fifteen tracks are needed in both halves.
Then static is chosen exactly when (moving only in the newer half, and waiting for a jerk) or (still, and not waiting) and the IMU threshold is positive; else dynamic exactly when it is
enabled and the platform is not still; else it fails. -/
theorem C52_choice (h : Hist ℝ Uv) (db : DB ℝ Uv) (hdb : h.run = some db) (hs : ∀ id cam, ((obs db id cam).map Prod.fst).Pairwise (· < ·))
    (p : Params) (buf : List Reading) (wait : Bool) :
    ∃ newest db' s0 s1 c, Spec.Newest db newest ∧ cleanupMeasurements db (newest - p.windowTime - 0.1) = some db' ∧
      computeDisparityWin db' (newest - p.windowTime / 2) (-1) = some s0 ∧ computeDisparityWin db' newest (newest - p.windowTime / 2) = some s1 ∧
      (let early := newest < 0 ∨ newest - p.windowTime - 0.1 < 0
       let few := 0 < p.maxDisparity ∧ (s0.total < 15 ∨ s1.total < 15)
       let m0 := 0 < p.maxDisparity ∧ Spec.Moving p s0
       let m1 := 0 < p.maxDisparity ∧ Spec.Moving p s1
       let useStatic := ((¬ m0 ∧ m1 ∧ wait = true) ∨ (¬ m0 ∧ ¬ m1 ∧ wait = false)) ∧ 0 < p.imuThresh
       choose p db buf wait = some (c, if early then (db, buf) else (db', dropOldImu (newest - p.windowTime - 0.1 + p.camimuDt) buf)) ∧
       (c = .static ↔ ¬ early ∧ ¬ few ∧ useStatic) ∧
       (c = .dynamic ↔ ¬ early ∧ ¬ few ∧ ¬ useStatic ∧ p.dynUse = true ∧ (m0 ∨ m1))) := by
  obtain ⟨db0, e, r⟩ := refines_hist h
  rw [hdb] at e; cases e
  obtain ⟨db', hcl, hob, -⟩ := C17_cleanup_measurements h db hdb (newestCam db - p.windowTime - 0.1)
  have hrun : (Hist.step h (.cleanupMeasurements (newestCam db - p.windowTime - 0.1))).run = some db' := by
    simp only [Hist.run, hdb, Option.bind_eq_bind, Option.bind_some, Op.run, hcl]
  have hs' : ∀ id cam, ((obs db' id cam).map Prod.fst).Pairwise (· < ·) := by
    intro id cam
    rw [hob]
    exact (hs id cam).sublist (List.Sublist.map _ List.filter_sublist)
  obtain ⟨s0, es0, h0, -⟩ := C65_window_partial _ db' hrun hs' (newestCam db - p.windowTime / 2) (-1)
  obtain ⟨s1, es1, h1, -⟩ := C65_window_partial _ db' hrun hs' (newestCam db) (newestCam db - p.windowTime / 2)
  have hN : Spec.Newest db (newestCam db) := by
    rw [newestCam_eq]
    obtain ⟨a, b, c⟩ := foldl_max_ge (allTimes db) (-1)
    refine ⟨fun id cam o ho => b _ ((mem_allTimes r.wf _).2 ⟨id, cam, o, ho, rfl⟩), ?_⟩
    rcases c with c | c
    · exact Or.inr c
    · exact Or.inl ((mem_allTimes r.wf _).1 c)
  have half : newestCam db - 0.5 * p.windowTime = newestCam db - p.windowTime / 2 := by norm_num; ring
  have hch : choose p db buf wait = if newestCam db < 0 ∨ newestCam db - p.windowTime - 0.1 < 0 then some (.fail, db, buf) else
      match (if p.maxDisparity > 0 then (if s0.total < 15 ∨ s1.total < 15 then none else some (moving p s0, moving p s1)) else some (false, false)) with
      | none => some (.fail, db', dropOldImu (newestCam db - p.windowTime - 0.1 + p.camimuDt) buf)
      | some (m10, m21) =>
        if ((!m10 && m21 && wait) || (!m10 && !m21 && !wait)) = true ∧ p.imuThresh > 0 then some (.static, db', dropOldImu (newestCam db - p.windowTime - 0.1 + p.camimuDt) buf)
        else if (p.dynUse && !(!m10 && !m21)) = true then some (.dynamic, db', dropOldImu (newestCam db - p.windowTime - 0.1 + p.camimuDt) buf)
        else some (.fail, db', dropOldImu (newestCam db - p.windowTime - 0.1 + p.camimuDt) buf) := by
    rw [choose]
    simp only [half, show (0.10 : ℝ) = 0.1 by norm_num, hcl, h0, h1, Option.bind_eq_bind, Option.bind_some, Option.pure_def]
    by_cases hd : p.maxDisparity > 0
    · by_cases hf : s0.total < 15 ∨ s1.total < 15
      · simp only [if_pos hd, if_pos hf, Option.bind_some]
      · simp only [if_pos hd, if_neg hf, Option.bind_some]
    · simp only [if_neg hd, Option.bind_some]
  by_cases he : newestCam db < 0 ∨ newestCam db - p.windowTime - 0.1 < 0
  · refine ⟨_, db', s0, s1, .fail, hN, hcl, h0, h1, ?_⟩
    simp only [he, if_true, not_true, false_and, iff_false]
    rw [hch, if_pos he]
    exact ⟨rfl, by decide, by decide⟩
  · rw [if_neg he] at hch
    by_cases hf : 0 < p.maxDisparity ∧ (s0.total < 15 ∨ s1.total < 15)
    · refine ⟨_, db', s0, s1, .fail, hN, hcl, h0, h1, ?_⟩
      rw [hch, if_pos hf.1, if_pos hf.2]
      simp only [he, hf, if_false, not_true, false_and, and_false, iff_false, and_self]
      exact ⟨trivial, by decide, by decide⟩
    · -- the moving flags
      obtain ⟨m10, m21, hm, hm0, hm1⟩ : ∃ m10 m21 : Bool,
          (if p.maxDisparity > 0 then (if s0.total < 15 ∨ s1.total < 15 then none else some (moving p s0, moving p s1)) else some (false, false)) = some (m10, m21) ∧
          (m10 = true ↔ 0 < p.maxDisparity ∧ Spec.Moving p s0) ∧ (m21 = true ↔ 0 < p.maxDisparity ∧ Spec.Moving p s1) := by
        by_cases hd : p.maxDisparity > 0
        · refine ⟨moving p s0, moving p s1, ?_, ?_, ?_⟩
          · rw [if_pos hd, if_neg (fun h => hf ⟨hd, h⟩)]
          · rw [moving_iff]; exact ⟨fun h => ⟨hd, h⟩, fun h => h.2⟩
          · rw [moving_iff]; exact ⟨fun h => ⟨hd, h⟩, fun h => h.2⟩
        · refine ⟨false, false, by rw [if_neg hd], ?_, ?_⟩
          · simp only [Bool.false_eq_true, false_iff]; exact fun h => hd h.1
          · simp only [Bool.false_eq_true, false_iff]; exact fun h => hd h.1
      rw [hm] at hch
      simp only at hch
      refine ⟨_, db', s0, s1, if ((!m10 && m21 && wait) || (!m10 && !m21 && !wait)) = true ∧ p.imuThresh > 0 then .static else
        if (p.dynUse && !(!m10 && !m21)) = true then .dynamic else .fail, hN, hcl, h0, h1, ?_⟩
      simp only [← hm0, ← hm1, he, hf, if_false, not_false_eq_true, true_and, hch]
      clear hch hm hm0 hm1
      by_cases hi : p.imuThresh > 0
      · have hi' : 0 < p.imuThresh := hi
        cases m10 <;> cases m21 <;> cases wait <;> cases p.dynUse <;> simp [hi, hi']
      · have hi' : ¬ 0 < p.imuThresh := hi
        cases m10 <;> cases m21 <;> cases wait <;> cases p.dynUse <;> simp [hi, hi']

/-- the empty database fails; so the hypotheses are met and the early exit is reachable -/
example : choose ⟨1, 1, 10, 9.81, 0, true⟩ [] [] true = some (.fail, [], []) := by
  rw [choose]; simp [newestCam]

end Verif.Init
