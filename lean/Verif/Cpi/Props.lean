import Verif.Cpi.Model
import Verif.Prop.Ode
import Verif.Quat.Props

/-!
# Continuous preintegration: C40, C82
-/

set_option linter.unusedSimpArgs false

open Classical

namespace Verif.Cpi

open Verif Verif.Prop_

namespace Spec

/-- the interval's corrected angular velocity and specific force. -/
noncomputable def rate (k : Conf) (x : Seg) : V3 := if k.avg then (1 / 2 : ℝ) • (x.w0 + x.w1) - k.bw else x.w0 - k.bw
noncomputable def force (k : Conf) (x : Seg) : V3 := if k.avg then (1 / 2 : ℝ) • (x.a0 + x.a1) - k.ba else x.a0 - k.ba

/-- relative rotation, velocity and position along a sequence of intervals, gravity-free rigid-body kinematics in each of them. -/
inductive Follows (k : Conf) : List Seg → M3 → V3 → V3 → Prop
  | start : Follows k [] 1 0 0
  | step {xs : List Seg} {x : Seg} {R0 : M3} {v0 p0 : V3} {R : ℝ → M3} {v p : ℝ → V3} (h : Follows k xs R0 v0 p0)
      (hk : Prop_.Spec.Kinematics (rate k x) (force k x) 0 (x.t1 - x.t0) R v p) (hR : R 0 = R0) (hv : v 0 = v0) (hp : p 0 = p0) :
      Follows k (xs ++ [x]) (R (x.t1 - x.t0)) (v (x.t1 - x.t0)) (p (x.t1 - x.t0))

end Spec

/-! ## helpers -/

theorem rate_eq (k : Conf) (x : Seg) : corrected k k.bw x.w0 x.w1 = Spec.rate k x := by
  unfold corrected Spec.rate
  split_ifs
  · module
  · rfl

theorem force_eq (k : Conf) (x : Seg) : corrected k k.ba x.a0 x.a1 = Spec.force k x := by
  unfold corrected Spec.force
  split_ifs
  · module
  · rfl

theorem relRot_kE {w : V3} (h : thr ≤ norm3 w) (dt : ℝ) : relRot w dt = kE (norm3 w) w dt := by
  rw [relRot, if_neg (not_lt.2 h), kE_eq]

theorem thr_pos : 0 < thr := by unfold thr; norm_num

theorem poly_mul (x0 x1 x2 y0 y1 y2 : ℝ) (w : V3) :
    (x0 • (1 : M3) + x1 • skew w + x2 • (skew w * skew w)) * (y0 • (1 : M3) + y1 • skew w + y2 • (skew w * skew w)) =
      (x0 * y0) • (1 : M3) + (x0 * y1 + x1 * y0 - (x1 * y2 + x2 * y1) * dot3 w w) • skew w +
        (x0 * y2 + x1 * y1 + x2 * y0 - x2 * y2 * dot3 w w) • (skew w * skew w) := by
  apply m3_ext <;> simp only [m3_mul_apply, Matrix.add_apply, Matrix.smul_apply, smul_eq_mul, one3, skew00, skew01, skew02, skew10, skew11, skew12,
    skew20, skew21, skew22, dot3] <;> simp <;> ring

theorem kE_tr (n : ℝ) (w : V3) (t : ℝ) : (kE n w t).transpose =
    (1 : ℝ) • (1 : M3) + (Real.sin (n * t) / n) • skew w + ((1 - Real.cos (n * t)) / n ^ 2) • (skew w * skew w) := by
  rw [kE_eq]
  simp only [Matrix.transpose_add, Matrix.transpose_sub, Matrix.transpose_smul, Matrix.transpose_mul, skew_transpose, Matrix.transpose_one, neg_mul_neg, smul_neg, sub_neg_eq_add, one_smul]

theorem arg_alpha {w : V3} (h : thr ≤ norm3 w) (dt : ℝ) : (kE (norm3 w) w dt).transpose * alphaArg w dt = k2 (norm3 w) w dt := by
  have hn : norm3 w ≠ 0 := (lt_of_lt_of_le thr_pos h).ne'
  rw [kE_tr, alphaArg, poly_mul, fs, if_neg (not_lt.2 h), k2, ← norm3_sq]
  have hcs := Real.sin_sq_add_cos_sq (norm3 w * dt)
  generalize norm3 w = n at *
  generalize Real.sin (n * dt) = s at *
  generalize Real.cos (n * dt) = c at *
  congr 1
  · congr 1
    · congr 1; ring
    · congr 1; field_simp; grind
  · congr 1; field_simp; grind

theorem arg_beta {w : V3} (h : thr ≤ norm3 w) (dt : ℝ) : (kE (norm3 w) w dt).transpose * betaArg w dt = k1 (norm3 w) w dt := by
  have hn : norm3 w ≠ 0 := (lt_of_lt_of_le thr_pos h).ne'
  rw [kE_tr, betaArg, poly_mul, fs, if_neg (not_lt.2 h), k1, ← norm3_sq]
  have hcs := Real.sin_sq_add_cos_sq (norm3 w * dt)
  generalize norm3 w = n at *
  generalize Real.sin (n * dt) = s at *
  generalize Real.cos (n * dt) = c at *
  congr 1
  · congr 1
    · congr 1; ring
    · congr 1; field_simp; grind
  · congr 1; field_simp; grind

theorem kE_poly (n : ℝ) (w : V3) (t : ℝ) : kE n w t =
    (1 : ℝ) • (1 : M3) + (-(Real.sin (n * t) / n)) • skew w + ((1 - Real.cos (n * t)) / n ^ 2) • (skew w * skew w) := by
  rw [kE_eq, one_smul, neg_smul, ← sub_eq_add_neg]

theorem poly_congr {a b c a' b' c' : ℝ} (w : V3) (ha : a = a') (hb : b = b') (hc : c = c') :
    a • (1 : M3) + b • skew w + c • (skew w * skew w) = a' • (1 : M3) + b' • skew w + c' • (skew w * skew w) := by rw [ha, hb, hc]

theorem poly_add (a b c a' b' c' : ℝ) (w : V3) :
    (a • (1 : M3) + b • skew w + c • (skew w * skew w)) + (a' • (1 : M3) + b' • skew w + c' • (skew w * skew w)) =
      (a + a') • (1 : M3) + (b + b') • skew w + (c + c') • (skew w * skew w) := by module

theorem poly_smul (r a b c : ℝ) (w : V3) :
    r • (a • (1 : M3) + b • skew w + c • (skew w * skew w)) = (r * a) • (1 : M3) + (r * b) • skew w + (r * c) • (skew w * skew w) := by module

theorem kE_add {n : ℝ} (hn : n ≠ 0) {w : V3} (hw : n * n = w 0 * w 0 + w 1 * w 1 + w 2 * w 2) (s t : ℝ) : kE n w (s + t) = kE n w t * kE n w s := by
  have hd : dot3 w w = n * n := hw.symm
  rw [kE_poly, kE_poly, kE_poly, poly_mul, hd, mul_add, Real.sin_add, Real.cos_add]
  apply poly_congr
  · ring
  · field_simp; ring
  · field_simp; ring

theorem k1_add {n : ℝ} (hn : n ≠ 0) {w : V3} (hw : n * n = w 0 * w 0 + w 1 * w 1 + w 2 * w 2) (s t : ℝ) :
    k1 n w (s + t) = k1 n w s + (kE n w s).transpose * k1 n w t := by
  have hd : dot3 w w = n * n := hw.symm
  rw [kE_tr, k1, k1, k1, poly_mul, poly_add, hd, mul_add, Real.sin_add, Real.cos_add]
  apply poly_congr
  · ring
  · field_simp; ring
  · field_simp; ring

theorem k2_add {n : ℝ} (hn : n ≠ 0) {w : V3} (hw : n * n = w 0 * w 0 + w 1 * w 1 + w 2 * w 2) (s t : ℝ) :
    k2 n w (s + t) = k2 n w s + t • k1 n w s + (kE n w s).transpose * k2 n w t := by
  have hd : dot3 w w = n * n := hw.symm
  rw [kE_tr, k1, k2, k2, k2, poly_mul, poly_smul, poly_add, poly_add, hd, mul_add, Real.sin_add, Real.cos_add]
  apply poly_congr
  · ring
  · field_simp; ring
  · field_simp; ring

theorem feed_zero {k : Conf} {x : Seg} (h : x.t1 - x.t0 = 0) (s : Res) : feed k s x = { s with DT := s.DT + (x.t1 - x.t0) } := by
  simp [feed, h]

theorem feed_R {k : Conf} {x : Seg} (h : x.t1 - x.t0 ≠ 0) (s : Res) : (feed k s x).R = relRot (Spec.rate k x) (x.t1 - x.t0) * s.R := by
  simp only [feed, if_neg h, rate_eq]

theorem feed_q {k : Conf} {x : Seg} (h : x.t1 - x.t0 ≠ 0) (s : Res) : (feed k s x).q = some (rot2quat (feed k s x).R) := by
  simp only [feed, if_neg h]

theorem feed_beta {k : Conf} {x : Seg} (h : x.t1 - x.t0 ≠ 0) (s : Res) : (feed k s x).beta =
    s.beta + ((relRot (Spec.rate k x) (x.t1 - x.t0) * s.R).transpose * betaArg (Spec.rate k x) (x.t1 - x.t0)).mulVec (Spec.force k x) := by
  simp only [feed, if_neg h, rate_eq, force_eq]

theorem feed_alpha {k : Conf} {x : Seg} (h : x.t1 - x.t0 ≠ 0) (s : Res) : (feed k s x).alpha =
    s.alpha + ((x.t1 - x.t0) • s.beta + ((relRot (Spec.rate k x) (x.t1 - x.t0) * s.R).transpose * alphaArg (Spec.rate k x) (x.t1 - x.t0)).mulVec (Spec.force k x)) := by
  simp only [feed, if_neg h, rate_eq, force_eq]

/-- closed form of one regular interval. -/
theorem feed_closed {k : Conf} {x : Seg} (h : thr ≤ norm3 (Spec.rate k x)) (s : Res) :
    (feed k s x).R = kE (norm3 (Spec.rate k x)) (Spec.rate k x) (x.t1 - x.t0) * s.R ∧
    (feed k s x).beta = s.beta + s.R.transpose.mulVec ((k1 (norm3 (Spec.rate k x)) (Spec.rate k x) (x.t1 - x.t0)).mulVec (Spec.force k x)) ∧
    (feed k s x).alpha = s.alpha + (x.t1 - x.t0) • s.beta +
      s.R.transpose.mulVec ((k2 (norm3 (Spec.rate k x)) (Spec.rate k x) (x.t1 - x.t0)).mulVec (Spec.force k x)) := by
  by_cases h0 : x.t1 - x.t0 = 0
  · rw [feed_zero h0, h0]
    refine ⟨?_, ?_, ?_⟩
    · rw [kE_eq]; simp
    · simp [k1]
    · simp [k2]
  · refine ⟨by rw [feed_R h0, relRot_kE h], ?_, ?_⟩
    · rw [feed_beta h0, relRot_kE h, Matrix.transpose_mul, Matrix.mul_assoc, arg_beta h, Matrix.mulVec_mulVec]
    · rw [feed_alpha h0, relRot_kE h, Matrix.transpose_mul, Matrix.mul_assoc, arg_alpha h, Matrix.mulVec_mulVec, add_assoc]

/-- closed form of one interval without rotation or with a regular rate, with a non-zero parameter of the closed forms. -/
theorem feed_closed' {k : Conf} {x : Seg} (h : Spec.rate k x = 0 ∨ thr ≤ norm3 (Spec.rate k x)) :
    ∃ n : ℝ, n ≠ 0 ∧ (∀ t i j, HasDerivAt (fun s => kE n (Spec.rate k x) s i j) ((-(skew (Spec.rate k x)) * kE n (Spec.rate k x) t) i j) t) ∧ (∀ t, IsRot (kE n (Spec.rate k x) t)) ∧
      ∀ s : Res, (feed k s x).R = kE n (Spec.rate k x) (x.t1 - x.t0) * s.R ∧
        (feed k s x).beta = s.beta + s.R.transpose.mulVec ((k1 n (Spec.rate k x) (x.t1 - x.t0)).mulVec (Spec.force k x)) ∧
        (feed k s x).alpha = s.alpha + (x.t1 - x.t0) • s.beta +
          s.R.transpose.mulVec ((k2 n (Spec.rate k x) (x.t1 - x.t0)).mulVec (Spec.force k x)) := by
  rcases h with h | h
  · refine ⟨1, one_ne_zero, by rw [h]; exact kE_deriv_zero 1, by rw [h]; exact kE_orth_zero 1, fun s => ?_⟩
    have hs : skew (0 : V3) = 0 := by apply m3_ext <;> simp [skew]
    have hn : norm3 (0 : V3) < thr := by rw [norm3_eq_zero.2 rfl]; exact thr_pos
    by_cases h0 : x.t1 - x.t0 = 0
    · rw [feed_zero h0, h0]
      refine ⟨?_, ?_, ?_⟩
      · rw [kE_eq]; simp
      · simp [k1]
      · simp [k2]
    · have hr : relRot (Spec.rate k x) (x.t1 - x.t0) = 1 := by rw [h, relRot, if_pos hn, hs]; simp
      refine ⟨?_, ?_, ?_⟩
      · rw [feed_R h0, hr, h, kE_zero]
      · rw [feed_beta h0, hr, h, Matrix.one_mul, betaArg, k1, hs]
        simp only [Matrix.mul_zero, smul_zero, add_zero, Matrix.mulVec_mulVec]
      · rw [feed_alpha h0, hr, h, Matrix.one_mul, alphaArg, k2, hs]
        simp only [Matrix.mul_zero, smul_zero, add_zero, Matrix.mulVec_mulVec, add_assoc]
  · have hn : norm3 (Spec.rate k x) ≠ 0 := (lt_of_lt_of_le thr_pos h).ne'
    exact ⟨_, hn, kE_deriv hn (norm3_sq' _), kE_orth hn (norm3_sq' _), feed_closed h⟩

theorem run_snoc (k : Conf) (xs : List Seg) (x : Seg) : run k (xs ++ [x]) = feed k (run k xs) x := by
  simp [run, List.foldl_append]

/-! ## C40 -/

/-- **C40** (time) The preintegration time is the total elapsed time of the intervals fed. -/
theorem C40_total_time (k : Conf) (xs : List Seg) : (run k xs).DT = (xs.map fun x => x.t1 - x.t0).sum := by
  induction xs using List.reverseRecOn with
  | nil => rfl
  | append_singleton xs x ih =>
    rw [run_snoc, List.map_append, List.sum_append, ← ih]
    have : (feed k (run k xs) x).DT = (run k xs).DT + (x.t1 - x.t0) := by
      unfold feed
      simp only
      split_ifs <;> rfl
    rw [this]; simp

/-- **C40** (symmetry) The measurement covariance is symmetric after any sequence of intervals. -/
theorem C40_symmetric (k : Conf) (xs : List Seg) : (run k xs).P.transpose = (run k xs).P := by
  induction xs using List.reverseRecOn with
  | nil => simp [run, Res.init]
  | append_singleton xs x ih =>
    rw [run_snoc]
    by_cases h0 : x.t1 - x.t0 = 0
    · rw [feed_zero h0]; exact ih
    · simp only [feed, if_neg h0, Matrix.transpose_smul, Matrix.transpose_add, Matrix.transpose_transpose]
      congr 1
      abel

/-- **C40** (rotation, partial) If every interval's corrected angular rate is zero or at least the small-rate threshold, the relative orientation is a
rotation after any sequence, and the stored quaternion is the canonical unit quaternion of it. Missing: rates strictly between, where the property
fails (`C40_small_rate_not_rotation`). -/
theorem C40_rotation_partial (k : Conf) (xs : List Seg) (h : ∀ x ∈ xs, Spec.rate k x = 0 ∨ thr ≤ norm3 (Spec.rate k x)) :
    IsRot (run k xs).R ∧ ∀ q, (run k xs).q = some q → CanonQ q ∧ quat2Rot q = (run k xs).R := by
  induction xs using List.reverseRecOn with
  | nil => exact ⟨⟨by simp [run, Res.init], by simp [run, Res.init]⟩, by simp [run, Res.init]⟩
  | append_singleton xs x ih =>
    obtain ⟨ih1, ih2⟩ := ih (fun y hy => h y (by simp [hy]))
    rw [run_snoc]
    by_cases h0 : x.t1 - x.t0 = 0
    · rw [feed_zero h0]; exact ⟨ih1, ih2⟩
    · have hR : IsRot (feed k (run k xs) x).R := by
        rw [feed_R h0]
        refine IsRot.mul ?_ ih1
        rcases h x (by simp) with hz | hz
        · have hs : skew (0 : V3) = 0 := by apply m3_ext <;> simp [skew]
          have hn : norm3 (0 : V3) < thr := by rw [norm3_eq_zero.2 rfl]; exact thr_pos
          rw [hz, relRot, if_pos hn, hs]
          simp only [smul_zero, sub_zero, Matrix.mul_zero, add_zero]
          exact ⟨by simp, by simp⟩
        · rw [relRot_kE hz]
          exact kE_orth (lt_of_lt_of_le thr_pos hz).ne' (norm3_sq' _) _
      refine ⟨hR, fun q hq => ?_⟩
      rw [feed_q h0] at hq
      obtain rfl := Option.some.inj hq
      exact QuatProps.C24_rotation_round_trip.2 _ hR

/-- **C40** (rotation, failure) After a single interval with a non-zero corrected rate below the threshold the relative orientation is not a rotation. -/
theorem C40_small_rate_not_rotation (k : Conf) (x : Seg) (h0 : x.t1 - x.t0 ≠ 0) (h1 : Spec.rate k x ≠ 0) (h2 : norm3 (Spec.rate k x) < thr) :
    ¬ IsRot (run k [x]).R := by
  intro h
  have e : (run k [x]).R = rodr (-(x.t1 - x.t0)) ((x.t1 - x.t0) ^ 2 / 2) (Spec.rate k x) := by
    have : run k [x] = feed k Res.init x := rfl
    rw [this, feed_R h0, relRot, if_pos h2, rodr]
    simp only [Res.init, Matrix.mul_one, neg_smul, sub_eq_add_neg]
  rw [e] at h
  have ho := h.orth
  have hpos : 0 < dot3 (Spec.rate k x) (Spec.rate k x) := by
    refine lt_of_le_of_ne (dot3_self_nonneg _) (fun hh => h1 ?_)
    rw [← norm3_eq_zero, norm3, ← hh, Real.sqrt_zero]
  generalize x.t1 - x.t0 = d at *
  generalize Spec.rate k x = w at *
  have t0 := congrFun (congrFun ho 0) 0
  have t1 := congrFun (congrFun ho 1) 1
  have t2 := congrFun (congrFun ho 2) 2
  simp only [m3_mul_apply, Matrix.transpose_apply, rodr00, rodr01, rodr02, rodr10, rodr11, rodr12, rodr20, rodr21, rodr22, Matrix.one_apply_eq] at t0 t1 t2
  have ht : d ^ 4 * dot3 w w ^ 2 = 0 := by
    simp only [dot3]
    linear_combination 2 * (t0 + t1 + t2)
  have : d ^ 4 * dot3 w w ^ 2 ≠ 0 := mul_ne_zero (pow_ne_zero _ h0) (pow_ne_zero _ hpos.ne')
  exact this ht

/-- **C40** (kinematics, partial) If every interval has non-negative duration and a corrected rate that is zero or at least the threshold, the preintegrated
orientation, velocity and position are those reached by the gravity-free rigid-body kinematics driven by the corrected readings: that motion exists
and every such motion ends there. Missing: rates in between, where the code uses truncated series. -/
theorem C40_kinematics_partial (k : Conf) (xs : List Seg) (h : ∀ x ∈ xs, x.t0 ≤ x.t1 ∧ (Spec.rate k x = 0 ∨ thr ≤ norm3 (Spec.rate k x))) (R : M3) (v p : V3) :
    Spec.Follows k xs R v p ↔ R = (run k xs).R ∧ v = (run k xs).beta ∧ p = (run k xs).alpha := by
  induction xs using List.reverseRecOn generalizing R v p with
  | nil =>
    constructor
    · intro hf
      generalize hx : ([] : List Seg) = ys at hf
      cases hf with
      | start => exact ⟨rfl, rfl, rfl⟩
      | step _ _ _ _ _ => simp at hx
    · rintro ⟨rfl, rfl, rfl⟩
      exact Spec.Follows.start
  | append_singleton xs x ih =>
    have ih' := ih (fun y hy => h y (by simp [hy]))
    obtain ⟨ht, hr⟩ := h x (by simp)
    obtain ⟨n, hn, hE, hO, hc⟩ := feed_closed' hr
    obtain ⟨c1, c2, c3⟩ := hc (run k xs)
    rw [run_snoc]
    constructor
    · intro hf
      generalize hx : xs ++ [x] = ys at hf
      cases hf with
      | start => simp at hx
      | @step xs' x' R0 v0 p0 R v p hf hk hR hv hp =>
        obtain ⟨rfl, h2⟩ := List.append_inj' hx rfl
        obtain rfl : x = x' := by simpa using h2
        obtain ⟨i1, i2, i3⟩ := (ih' _ _ _).1 hf
        obtain ⟨e1, e2, e3⟩ := kin_unique_gen hn hE hO hk (x.t1 - x.t0) ⟨sub_nonneg.2 ht, le_rfl⟩
        rw [hR, i1] at e1 e2 e3
        rw [hv, i2] at e2 e3
        rw [hp, i3] at e3
        rw [e1, e2, e3, c1, c2, c3]
        refine ⟨rfl, ?_, ?_⟩ <;> simp
    · rintro ⟨rfl, rfl, rfl⟩
      have hk := kin_exists_gen hn hE (Spec.force k x) 0 (x.t1 - x.t0) (run k xs).R (run k xs).beta (run k xs).alpha
      have := Spec.Follows.step ((ih' _ _ _).2 ⟨rfl, rfl, rfl⟩) hk (by rw [kE_eq]; simp) (by simp [k1]) (by simp [k2])
      convert this using 1
      · rw [c2]; simp
      · rw [c3]; simp

/-- **C40** (subdivision, partial) With constant readings of sufficient rate, cutting an interval into any number of consecutive pieces does not change
the preintegrated orientation, velocity, position and time. -/
theorem C40_subdivision_partial (k : Conf) (w a : V3) (hr : thr ≤ norm3 (w - k.bw)) (s : Res) (t0 : ℝ) (ts : List ℝ) (t1 : ℝ)
    (segs : List Seg) (hs : segs = (List.zip (t0 :: ts) (ts ++ [t1])).map fun p => ⟨p.1, p.2, w, a, w, a⟩) :
    (segs.foldl (feed k) s).R = (feed k s ⟨t0, t1, w, a, w, a⟩).R ∧ (segs.foldl (feed k) s).beta = (feed k s ⟨t0, t1, w, a, w, a⟩).beta ∧
      (segs.foldl (feed k) s).alpha = (feed k s ⟨t0, t1, w, a, w, a⟩).alpha ∧ (segs.foldl (feed k) s).DT = (feed k s ⟨t0, t1, w, a, w, a⟩).DT := by
  have hrate : ∀ u v, Spec.rate k ⟨u, v, w, a, w, a⟩ = w - k.bw := by
    intro u v; unfold Spec.rate; split_ifs
    · simp only; module
    · rfl
  have hforce : ∀ u v, Spec.force k ⟨u, v, w, a, w, a⟩ = a - k.ba := by
    intro u v; unfold Spec.force; split_ifs
    · simp only; module
    · rfl
  have hn : norm3 (w - k.bw) ≠ 0 := (lt_of_lt_of_le thr_pos hr).ne'
  have hDT : ∀ (s : Res) u v, (feed k s ⟨u, v, w, a, w, a⟩).DT = s.DT + (v - u) := by
    intro s u v; unfold feed; simp only; split_ifs <;> rfl
  -- two pieces
  have two : ∀ (s : Res) (u v z : ℝ),
      (feed k (feed k s ⟨u, v, w, a, w, a⟩) ⟨v, z, w, a, w, a⟩).R = (feed k s ⟨u, z, w, a, w, a⟩).R ∧
      (feed k (feed k s ⟨u, v, w, a, w, a⟩) ⟨v, z, w, a, w, a⟩).beta = (feed k s ⟨u, z, w, a, w, a⟩).beta ∧
      (feed k (feed k s ⟨u, v, w, a, w, a⟩) ⟨v, z, w, a, w, a⟩).alpha = (feed k s ⟨u, z, w, a, w, a⟩).alpha := by
    intro s u v z
    have hE := kE_orth hn (norm3_sq' (w - k.bw)) (v - u)
    obtain ⟨a1, a2, a3⟩ := feed_closed (x := ⟨u, v, w, a, w, a⟩) (k := k) (by rw [hrate]; exact hr) s
    obtain ⟨b1, b2, b3⟩ := feed_closed (x := ⟨v, z, w, a, w, a⟩) (k := k) (by rw [hrate]; exact hr) (feed k s ⟨u, v, w, a, w, a⟩)
    obtain ⟨c1, c2, c3⟩ := feed_closed (x := ⟨u, z, w, a, w, a⟩) (k := k) (by rw [hrate]; exact hr) s
    simp only [hrate, hforce] at a1 a2 a3 b1 b2 b3 c1 c2 c3
    have hd : z - u = (v - u) + (z - v) := by ring
    refine ⟨?_, ?_, ?_⟩
    · rw [b1, a1, c1, hd, kE_add hn (norm3_sq' _), Matrix.mul_assoc]
    · rw [b2, a2, a1, c2, hd, k1_add hn (norm3_sq' _), Matrix.add_mulVec, Matrix.mulVec_add, Matrix.transpose_mul, ← Matrix.mulVec_mulVec,
        ← Matrix.mulVec_mulVec, add_assoc]
    · rw [b3, a3, a2, a1, c3, hd, k2_add hn (norm3_sq' _), Matrix.add_mulVec, Matrix.add_mulVec, Matrix.mulVec_add, Matrix.mulVec_add, Matrix.transpose_mul,
        ← Matrix.mulVec_mulVec, ← Matrix.mulVec_mulVec, Matrix.smul_mulVec, Matrix.mulVec_smul]
      module
  subst hs
  induction ts generalizing s t0 with
  | nil => simp
  | cons u ts ih =>
    obtain ⟨i1, i2, i3, i4⟩ := ih (feed k s ⟨t0, u, w, a, w, a⟩) u
    obtain ⟨j1, j2, j3⟩ := two s t0 u t1
    simp only [List.cons_append, List.zip_cons_cons, List.map_cons, List.foldl_cons] at i1 i2 i3 i4 ⊢
    refine ⟨i1.trans j1, i2.trans j2, i3.trans j3, i4.trans ?_⟩
    rw [hDT, hDT, hDT]; ring

/-- an interval turning at 1 rad/s under a nonzero bias, for one second, meets the hypotheses of the theorems above. -/
example : let k : Conf := ⟨1, 1, 1, 1, true, ![1, 0, 0], 0⟩
    let x : Seg := ⟨0, 1, ![2, 0, 0], ![0, 0, 9], ![2, 0, 0], ![0, 1, 9]⟩
    x.t0 ≤ x.t1 ∧ thr ≤ norm3 (Spec.rate k x) := by
  have h : Spec.rate ⟨1, 1, 1, 1, true, ![1, 0, 0], 0⟩ ⟨0, 1, ![2, 0, 0], ![0, 0, 9], ![2, 0, 0], ![0, 1, 9]⟩ = (![1, 0, 0] : V3) := by
    simp only [Spec.rate, if_true]
    apply v3_ext <;> simp <;> norm_num
  refine ⟨by norm_num, ?_⟩
  rw [h, norm3, show dot3 ![1, 0, 0] ![1, 0, 0] = 1 by simp [dot3], Real.sqrt_one]
  unfold thr; norm_num

/-- a rate of 0.001 rad/s is in the range of the counterexample `C40_small_rate_not_rotation`. -/
example : Spec.rate ⟨1, 1, 1, 1, false, 0, 0⟩ ⟨0, 1, ![0.001, 0, 0], 0, 0, 0⟩ ≠ 0 ∧
    norm3 (Spec.rate ⟨1, 1, 1, 1, false, 0, 0⟩ ⟨0, 1, ![0.001, 0, 0], 0, 0, 0⟩) < thr := by
  simp only [Spec.rate, Bool.false_eq_true, if_false, sub_zero]
  refine ⟨fun h => ?_, ?_⟩
  · have := congrFun h 0
    norm_num at this
  · rw [norm3, show dot3 (![0.001, 0, 0] : V3) ![0.001, 0, 0] = 0.001 * 0.001 by simp [dot3], Real.sqrt_mul_self (by norm_num)]
    unfold thr; norm_num

end Verif.Cpi
