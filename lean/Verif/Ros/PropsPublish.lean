import Verif.Ros.Publish
import Verif.Prop.PropsFast
import Verif.Tri.Props
import Verif.Types.Props
import Mathlib.Algebra.Quaternion
import Mathlib.Algebra.Order.Round

/-!
# What the published messages say (C119)
-/

set_option autoImplicit false
open Classical

namespace Verif.Ros

open Verif Verif.Types Verif.St Verif.Prop_

namespace Spec

/-- the number of nanoseconds of a stamp -/
def nanos (s : Stamp) : ℤ := 10 ^ 9 * s.sec + s.nsec

/-- a message's quaternion as a Hamilton quaternion `w + x i + y j + z k` -/
def ham (q : Quat) : Quaternion ℝ := ⟨q.w, q.x, q.y, q.z⟩

/-- a vector as a quaternion without real part -/
def pureQ (v : V3) : Quaternion ℝ := ⟨0, v 0, v 1, v 2⟩

/-- what a pose or transform means to its receivers: the point with coordinates `v` in the child frame has coordinates `q v q* + p` in the parent frame -/
noncomputable def toParent (m : PoseMsg) (v : V3) : V3 :=
  let r := ham m.q * pureQ v * star (ham m.q)
  ![r.imI, r.imJ, r.imK] + m.p

/-- messages list position before orientation, the filter's error has orientation (0-2) before position (3-5) -/
def posFirst (r : ℕ) : ℕ := if r < 3 then r + 3 else r - 3

end Spec

/-! ### stamps -/

theorem round_nonneg' {x : ℝ} (h : 0 ≤ x) : 0 ≤ round x := by
  rw [round_eq]
  exact Int.floor_nonneg.2 (by linarith)

/-- **C119** (stamps) Every time from zero on that fits in 32 bits of seconds has a stamp; its nanoseconds are below one second, and below the last representable second it is the time rounded to the nearest nanosecond. -/
theorem C119_stamp (x : ℝ) (h0 : 0 ≤ x) (h1 : x < 2 ^ 32 - 1) : ∃ st, stampOf x = some st ∧ st.nsec < 10 ^ 9 ∧ Spec.nanos st = round (x * 10 ^ 9) ∧ |(Spec.nanos st : ℝ) / 10 ^ 9 - x| ≤ 1 / 2 / 10 ^ 9 := by
  have hf : 0 ≤ ⌊x⌋ := Int.floor_nonneg.2 h0
  have hf2 : ⌊x⌋ < 2 ^ 32 - 1 := by
    rw [Int.floor_lt]; push_cast; linarith
  have hfr := Int.floor_le x
  have hlt := Int.lt_floor_add_one x
  obtain ⟨n, hn⟩ := Int.eq_ofNat_of_zero_le hf
  have hnx : (n : ℝ) ≤ x := by rw [hn] at hfr; exact_mod_cast hfr
  have hxn : x < n + 1 := by rw [hn] at hlt; exact_mod_cast hlt
  have hr0 : 0 ≤ round ((x - n) * 10 ^ 9) := round_nonneg' (mul_nonneg (by linarith) (by norm_num))
  obtain ⟨k, hk⟩ := Int.eq_ofNat_of_zero_le hr0
  have hrk : round (x * 10 ^ 9) = 10 ^ 9 * n + k := by
    have : x * 10 ^ 9 = (x - n) * 10 ^ 9 + ((10 ^ 9 * n : ℤ) : ℝ) := by push_cast; ring
    rw [this, round_add_intCast, hk]; push_cast; ring
  have hk9 : k ≤ 10 ^ 9 := by
    have h2 : round ((x - n) * 10 ^ 9) ≤ 10 ^ 9 := by
      rw [round_eq, Int.floor_le_iff]
      push_cast
      nlinarith
    rw [hk] at h2
    exact_mod_cast h2
  have hn32 : n < 2 ^ 32 - 1 := by rw [hn] at hf2; omega
  have hst : stampOf x = some ⟨(n + k / 10 ^ 9) % 2 ^ 32, k % 10 ^ 9⟩ := by
    unfold stampOf
    rw [if_neg (by push Not; constructor <;> omega)]
    simp only [hn, Int.toNat_natCast, hk]
  have hs : (n + k / 10 ^ 9) % 2 ^ 32 = n + k / 10 ^ 9 := Nat.mod_eq_of_lt (by omega)
  have hnan : Spec.nanos ⟨(n + k / 10 ^ 9) % 2 ^ 32, k % 10 ^ 9⟩ = round (x * 10 ^ 9) := by
    rw [hrk, hs]
    simp only [Spec.nanos]
    push_cast
    omega
  refine ⟨_, hst, Nat.mod_lt _ (by norm_num), hnan, ?_⟩
  rw [hnan]
  have hab := abs_sub_round (x * 10 ^ 9)
  rw [abs_sub_comm] at hab
  have : ((round (x * 10 ^ 9) : ℤ) : ℝ) / 10 ^ 9 - x = (round (x * 10 ^ 9) - x * 10 ^ 9) / 10 ^ 9 := by field_simp
  rw [this, abs_div, abs_of_pos (by norm_num : (0 : ℝ) < 10 ^ 9)]
  gcongr

example : (0 : ℝ) ≤ 1403636579.758555 ∧ (1403636579.758555 : ℝ) < 2 ^ 32 - 1 := by norm_num

/-- **C119** (stamps are in order) A later time never has an earlier stamp. -/
theorem C119_stamp_order (x y : ℝ) (h0 : 0 ≤ x) (hxy : x ≤ y) (h1 : y < 2 ^ 32 - 1) : ∃ a b, stampOf x = some a ∧ stampOf y = some b ∧ Spec.nanos a ≤ Spec.nanos b := by
  obtain ⟨a, ha, _, ha', _⟩ := C119_stamp x h0 (hxy.trans_lt h1)
  obtain ⟨b, hb, _, hb', _⟩ := C119_stamp y (h0.trans hxy) h1
  refine ⟨a, b, ha, hb, ?_⟩
  rw [ha', hb']
  simp only [round_eq]
  exact Int.floor_mono (by linarith [mul_le_mul_of_nonneg_right hxy (by norm_num : (0 : ℝ) ≤ 10 ^ 9)])

/-! ### poses and transforms -/

/-- **C119** (frames) A unit orientation written in a message as it is stored turns, by the receiver's convention, vectors of the child frame by the transpose of the stored rotation. -/
theorem C119_frames (m : PoseMsg) (hq : IsUnitQ m.q) (v : V3) : Spec.toParent m v = (quat2Rot m.q).transpose.mulVec v + m.p := by
  obtain ⟨⟨x, y, z, w⟩, p⟩ := m
  have hq' : x ^ 2 + y ^ 2 + z ^ 2 + w ^ 2 = 1 := by
    have := hq; simp only [IsUnitQ] at this; nlinarith
  simp only [Spec.toParent]
  congr 1
  ext i
  fin_cases i
  · simp only [Quaternion.imI_mul, Quaternion.re_mul, Quaternion.imJ_mul, Quaternion.imK_mul, Quaternion.imI_star, Quaternion.imJ_star, Quaternion.imK_star, Quaternion.re_star]
    simp [Spec.ham, Spec.pureQ, quat2Rot, skew, outer, Quat.vec, Matrix.mulVec, dotProduct, Fin.sum_univ_three, Matrix.transpose_apply, Matrix.one_apply]
    linear_combination (-(v 0)) * hq'
  · simp only [Quaternion.imI_mul, Quaternion.re_mul, Quaternion.imJ_mul, Quaternion.imK_mul, Quaternion.imI_star, Quaternion.imJ_star, Quaternion.imK_star, Quaternion.re_star]
    simp [Spec.ham, Spec.pureQ, quat2Rot, skew, outer, Quat.vec, Matrix.mulVec, dotProduct, Fin.sum_univ_three, Matrix.transpose_apply, Matrix.one_apply]
    linear_combination (-(v 1)) * hq'
  · simp only [Quaternion.imI_mul, Quaternion.re_mul, Quaternion.imJ_mul, Quaternion.imK_mul, Quaternion.imI_star, Quaternion.imJ_star, Quaternion.imK_star, Quaternion.re_star]
    simp [Spec.ham, Spec.pureQ, quat2Rot, skew, outer, Quat.vec, Matrix.mulVec, dotProduct, Fin.sum_univ_three, Matrix.transpose_apply, Matrix.one_apply]
    linear_combination (-(v 2)) * hq'

theorem copy36_eq (M : Mat) (r c : ℕ) (hr : r < 6) (hc : c < 6) : copy36 M (6 * r + c) = M r c := by
  unfold copy36
  interval_cases r <;> interval_cases c <;> simp [List.range_succ, Function.update]

/-- **C119** (state) The published pose is stamped with the time of the state in the clock of the IMU; it takes points of the IMU frame to the global frame with the estimated orientation and position; and entry (r, c) of its covariance, position before orientation,
is the covariance in the state of the corresponding components of the error of the IMU. -/
theorem C119_state_pose {s : State} {m : PoseCovMsg} (h : statePose s = some m) :
    ∃ x : Imu16, ∃ n off, ∃ k : ℕ, (s.obj imuUid).val = .imu x ∧ (s.obj imuUid).id = k ∧ (s.obj dtUid).val = .vec n off ∧ stampOf (s.ts + off 0) = some m.stamp ∧
      (IsUnitQ x.q → ∀ v, Spec.toParent m.pose v = (quat2Rot x.q).transpose.mulVec v + x.p) ∧
      ∀ r c, r < 6 → c < 6 → m.cov (6 * r + c) = s.P (k + Spec.posFirst r) (k + Spec.posFirst c) := by
  unfold statePose at h
  rw [Option.bind_eq_some_iff] at h
  obtain ⟨off, hoff, h⟩ := h
  rw [Option.bind_eq_some_iff] at h
  obtain ⟨⟨x, f⟩, hx, h⟩ := h
  rw [Option.bind_eq_some_iff] at h
  obtain ⟨st, hst, h⟩ := h
  rw [Option.map_eq_some_iff] at h
  obtain ⟨M, hM, rfl⟩ := h
  have hx' : (s.obj imuUid).val = .imu x := by
    unfold imuOf at hx
    split at hx
    · rename_i a b h1 h2; simp only [Option.some.injEq, Prod.mk.injEq] at hx; rw [h1, hx.1]
    · cases hx
  have ho' : ∃ n o, (s.obj dtUid).val = .vec n o ∧ off = o 0 := by
    unfold tOff at hoff
    split at hoff
    · rename_i n o h1; simp only [Option.some.injEq] at hoff; exact ⟨n, o, h1, hoff.symm⟩
    · cases hoff
  obtain ⟨n, o, ho, rfl⟩ := ho'
  have hid : 0 ≤ (s.obj imuUid).id := by
    by_contra hneg
    have : resolveAll s [(imuUid, Sub.p), (imuUid, Sub.q)] = none := by
      simp [resolveAll, resolve, hx', Val.part, hneg]
    simp [getMarginal, this] at hM
  obtain ⟨k, hk⟩ := Int.eq_ofNat_of_zero_le hid
  have hL : resolveAll s [(imuUid, Sub.p), (imuUid, Sub.q)] = some [(k + 3, 3), (k, 3)] := by
    by_cases hn : k + 3 + 3 ≤ s.n
    · have hn' : k + 3 ≤ s.n := by omega
      simp [resolveAll, resolve, hx', Val.part, hk, Val.size, hn, hn']
    · have : resolveAll s [(imuUid, Sub.p), (imuUid, Sub.q)] = none := by
        simp [resolveAll, resolve, hx', Val.part, hk, Val.size, hn]
      simp [getMarginal, this] at hM
  obtain ⟨M', hM', _, _, hb⟩ := C13_marginal_blocks (s := s) _ _ hL
  obtain rfl : M = M' := by rw [hM] at hM'; exact Option.some.inj hM'
  refine ⟨x, n, o, k, hx', hk, ho, hst, fun hq v => C119_frames ⟨x.q, x.p⟩ hq v, fun r c hr hc => ?_⟩
  show copy36 M.a (6 * r + c) = _
  rw [copy36_eq _ _ _ hr hc]
  have h00 := hb 0 0 (k + 3, 3) (k + 3, 3) rfl rfl
  have h01 := hb 0 1 (k + 3, 3) (k, 3) rfl rfl
  have h10 := hb 1 0 (k, 3) (k + 3, 3) rfl rfl
  have h11 := hb 1 1 (k, 3) (k, 3) rfl rfl
  simp only [Verif.St.Spec.off, List.take, List.map, List.sum_nil, List.sum_cons, zero_add, Nat.add_zero] at h00 h01 h10 h11
  unfold Spec.posFirst
  by_cases h3 : r < 3 <;> by_cases h4 : c < 3
  · rw [if_pos h3, if_pos h4, h00 r c h3 h4]; congr 1 <;> omega
  · rw [if_pos h3, if_neg h4]
    have := h01 r (c - 3) h3 (by omega)
    rw [show 3 + (c - 3) = c by omega] at this
    rw [this]; congr 1; omega
  · rw [if_neg h3, if_pos h4]
    have := h10 (r - 3) c (by omega) h4
    rw [show 3 + (r - 3) = r by omega] at this
    rw [this]; congr 1; omega
  · rw [if_neg h3, if_neg h4]
    have := h11 (r - 3) (c - 3) (by omega) (by omega)
    rw [show 3 + (r - 3) = r by omega, show 3 + (c - 3) = c by omega] at this
    rw [this]

/-! ### the axes of the orientation covariance -/

theorem perturbRot_eq (d : V3) : perturbRot d = (2 / (1 + dot3 d d / 4) - 1) • (1 : M3) - (1 / (1 + dot3 d d / 4)) • skew d + (1 / 2 / (1 + dot3 d d / 4)) • outer d d := by
  have hN : (⟨0.5 * d 0, 0.5 * d 1, 0.5 * d 2, 1⟩ : Quat).normSq = 1 + dot3 d d / 4 := by
    simp only [Quat.normSq, dot3]; ring
  have hd : 0 ≤ dot3 d d := by simp only [dot3]; nlinarith [sq_nonneg (d 0), sq_nonneg (d 1), sq_nonneg (d 2)]
  have hp : 0 < 1 + dot3 d d / 4 := by linarith
  have hs : Real.sqrt (1 + dot3 d d / 4) ^ 2 = 1 + dot3 d d / 4 := Real.sq_sqrt hp.le
  have hs0 : Real.sqrt (1 + dot3 d d / 4) ≠ 0 := (Real.sqrt_pos.2 hp).ne'
  have hq : quatnorm ⟨0.5 * d 0, 0.5 * d 1, 0.5 * d 2, 1⟩ = (⟨0.5 * d 0, 0.5 * d 1, 0.5 * d 2, 1⟩ : Quat).divS (Real.sqrt (1 + dot3 d d / 4)) := by
    unfold quatnorm
    simp only
    rw [if_neg (by norm_num)]
    simp only [Quat.norm, hN]
  unfold perturbRot
  rw [hq]
  set n := Real.sqrt (1 + dot3 d d / 4)
  rw [← hs]
  ext i j
  fin_cases i <;> fin_cases j <;>
    simp [quat2Rot, skew, outer, Quat.vec, Quat.divS, Matrix.one_apply, Matrix.vecMulVec] <;> field_simp <;> ring

theorem perturbRot_conj {R : M3} (hR : IsRot R) (d : V3) : R.transpose * perturbRot d * R = perturbRot (R.transpose.mulVec d) := by
  have hRt : IsRot R.transpose := hR.transpose
  have hdd : dot3 (R.transpose.mulVec d) (R.transpose.mulVec d) = dot3 d d := Tri.dot3_rot hRt d d
  have hsk := rot_skew hRt d
  rw [Matrix.transpose_transpose] at hsk
  have hou : R.transpose * outer d d * R = outer (R.transpose.mulVec d) (R.transpose.mulVec d) := by
    ext i j
    fin_cases i <;> fin_cases j <;> simp [outer, Matrix.mul_apply, Matrix.mulVec, dotProduct, Fin.sum_univ_three, Matrix.vecMulVec] <;> ring
  rw [perturbRot_eq, perturbRot_eq, hdd]
  simp only [Matrix.mul_add, Matrix.mul_sub, Matrix.add_mul, Matrix.sub_mul, Matrix.mul_smul, Matrix.smul_mul, Matrix.mul_one, hR.orth, hsk, hou]

/-! ### the path -/

theorem every_get {α : Type} (k : ℕ) (l : List α) : ∀ i : ℕ, (every k l)[i]? = l[i * (k + 1)]? := by
  induction h : l.length using Nat.strong_induction_on generalizing l with
  | _ n ih =>
    intro i
    cases l with
    | nil => simp [every]
    | cons a t =>
      rw [every]
      cases i with
      | zero => simp
      | succ i =>
        rw [List.getElem?_cons_succ, ih (t.drop k).length (by simp only [List.length_drop, ← h, List.length_cons]; omega) _ rfl, List.getElem?_drop]
        rw [show (i + 1) * (k + 1) = (k + i * (k + 1)) + 1 by ring, List.getElem?_cons_succ]

/-- **C119** (path) The published path is every `k`-th pose from the first on, in order, where `k` is one more than the number of times 16384 goes into their number; so all of them up to 16383, and never more than 16384. -/
theorem C119_path {α : Type} (l : List α) : (∀ i : ℕ, (pathOf l)[i]? = l[i * (l.length / 16384 + 1)]?) ∧ (l.length < 16384 → pathOf l = l) ∧ (pathOf l).length ≤ 16384 := by
  have h : ∀ i : ℕ, (pathOf l)[i]? = l[i * (l.length / 16384 + 1)]? := every_get _ _
  refine ⟨h, fun hl => ?_, ?_⟩
  · apply List.ext_getElem?
    intro i
    rw [h, Nat.div_eq_of_lt hl]; simp
  · rw [← List.getElem?_eq_none_iff, h, List.getElem?_eq_none_iff]
    have := Nat.lt_mul_div_succ l.length (b := 16384) (by norm_num)
    omega

/-- **C119** (finding) Once there are enough poses, the newest may be missing from the path. -/
theorem C119_path_newest : ∃ l : List ℕ, ∃ x, l.getLast? = some x ∧ x ∉ pathOf l := by
  refine ⟨List.range 16384, 16383, by simp [List.getLast?_range], fun hm => ?_⟩
  obtain ⟨i, hi⟩ := List.mem_iff_getElem?.1 hm
  rw [(C119_path (List.range 16384)).1 i, List.length_range] at hi
  rw [List.getElem?_eq_some_iff] at hi
  obtain ⟨_, hi⟩ := hi
  rw [List.getElem_range] at hi
  omega

/-! ### odometry and transforms -/

theorem swap_apply (C : Mat) (i j : ℕ) (hi : i < 12) (hj : j < 12) : Mat.mul 12 (Mat.mul 12 swap12 C) (Mat.tr swap12) i j =
    C (if i < 6 then Spec.posFirst i else i) (if j < 6 then Spec.posFirst j else j) := by
  have hrow : ∀ (i : ℕ), i < 12 → ∀ f : ℕ → ℝ, ∑ x ∈ Finset.range 12, swap12 i x * f x = f (if i < 6 then Spec.posFirst i else i) := by
    intro i hi f
    rw [Finset.sum_eq_single (if i < 6 then Spec.posFirst i else i)]
    · have : swap12 i (if i < 6 then Spec.posFirst i else i) = 1 := by
        interval_cases i <;> simp [swap12, Mat.setBlock, Spec.posFirst, Mat.one]
      rw [this, one_mul]
    · intro b hb hne
      have hb' := Finset.mem_range.1 hb
      have : swap12 i b = 0 := by
        revert hne
        interval_cases i <;> interval_cases b <;> simp [swap12, Mat.setBlock, Spec.posFirst, Mat.one]
      rw [this, zero_mul]
    · intro h
      exfalso; apply h; rw [Finset.mem_range]
      unfold Spec.posFirst
      split_ifs <;> omega
  unfold Mat.mul
  have : ∀ x, (∑ y ∈ Finset.range 12, swap12 i y * C y x) = C (if i < 6 then Spec.posFirst i else i) x := fun x => hrow i hi fun y => C y x
  simp only [this, Mat.tr]
  have h2 := hrow j hj fun x => C (if i < 6 then Spec.posFirst i else i) x
  rw [← h2]
  exact Finset.sum_congr rfl fun x _ => mul_comm _ _

/-- **C119** (transforms) A transform published with its translation flipped is the inverse of the stored one: it takes the camera's coordinates of a point back to the coordinates in the IMU frame. -/
theorem C119_camera_transform (q : Quat) (hq : IsUnitQ q) (p v : V3) : (quat2Rot q).mulVec (Spec.toParent (transOf q p true) v) + p = v ∧ ∀ u, Spec.toParent (transOf q p true) ((quat2Rot q).mulVec u + p) = u := by
  have hR := quat2Rot_isRot hq
  have h : ∀ v, Spec.toParent (transOf q p true) v = (quat2Rot q).transpose.mulVec (v - p) := by
    intro v
    rw [C119_frames _ (by exact hq)]
    simp only [transOf, if_true, Matrix.mulVec_sub]
    abel
  refine ⟨?_, fun u => ?_⟩
  · rw [h, Matrix.mulVec_mulVec, hR.orth', Matrix.one_mulVec]; abel
  · rw [h, add_sub_cancel_right, Matrix.mulVec_mulVec, hR.orth, Matrix.one_mulVec]

attribute [local irreducible] copy36 swap12 in
theorem odomOf_spec {t : ℝ} {o : FastOut} {m : OdomMsg} (h : odomOf t o = some m) : stampOf t = some m.stamp ∧ m.pose = ⟨o.q, o.p⟩ ∧ m.lin = o.vI ∧
    (∀ r c, r < 6 → c < 6 → m.poseCov (6 * r + c) = o.cov (Spec.posFirst r) (Spec.posFirst c)) ∧ ∀ r c, r < 6 → c < 6 → m.twistCov (6 * r + c) = o.cov (6 + r) (6 + c) := by
  unfold odomOf at h
  rw [Option.map_eq_some_iff] at h
  obtain ⟨st, hst, rfl⟩ := h
  refine ⟨hst, rfl, rfl, fun r c hr hc => ?_, fun r c hr hc => ?_⟩
  · exact (copy36_eq (Mat.mul 12 (Mat.mul 12 swap12 o.cov) (Mat.tr swap12)) _ _ hr hc).trans (by rw [swap_apply _ _ _ (by omega) (by omega), if_pos hr, if_pos hc])
  · refine (copy36_eq (fun r c => Mat.mul 12 (Mat.mul 12 swap12 o.cov) (Mat.tr swap12) (r + 6) (c + 6)) _ _ hr hc).trans ?_
    have := swap_apply o.cov (r + 6) (c + 6) (by omega) (by omega)
    rw [if_neg (by omega), if_neg (by omega), add_comm r, add_comm c] at this
    rw [add_comm 6 r, add_comm 6 c] at this ⊢
    exact this

/-- **C119** (odometry) An odometry is published only when the estimator is initialised and a second has passed. It is stamped with the time asked for; it and the transform of the body take points of the IMU frame to the global frame with the predicted
orientation and position; the linear velocity is the predicted one in the axes of the IMU. The covariance of the pose is that of the predicted error of the IMU with position before orientation, and that of the twist has the velocity in the axes of the IMU first,
then the angular rate, uncorrelated. There is a transform for every camera, from its stored extrinsics with the translation flipped. -/
theorem C119_odometry {N : Noise} {buf : List Imu.Reading} {ca : Option Cache} {ini : Bool} {initT t : ℝ} {s : State} {k : Cache} {c' : Option Cache} {m : OdomMsg} {body : PoseMsg} {cams : List (Option PoseMsg)}
    (hk : ca.or (initCache s) = some k) (h : visualizeOdometry N buf ca ini initT s t = some (c', some (m, body, cams))) :
    ∃ e : Cache, ∃ dt, c' = some e ∧ ini = true ∧ 1 ≤ t - initT ∧ stampOf t = some m.stamp ∧
      (IsUnitQ e.x.q → ∀ v, Spec.toParent m.pose v = (quat2Rot e.x.q).transpose.mulVec v + e.x.p ∧ Spec.toParent body v = Spec.toParent m.pose v) ∧
      m.lin = (quat2Rot e.x.q).mulVec e.x.v ∧
      (∀ r c, r < 6 → c < 6 → m.poseCov (6 * r + c) = e.P (Spec.posFirst r) (Spec.posFirst c)) ∧
      (∀ i j : Fin 3, m.twistCov (6 * i + j) = ∑ a : Fin 3, ∑ b : Fin 3, quat2Rot e.x.q i a * e.P (6 + a) (6 + b) * quat2Rot e.x.q j b) ∧
      (∀ i j, i < 3 → j < 3 → m.twistCov (6 * i + (3 + j)) = 0 ∧ m.twistCov (6 * (3 + i) + j) = 0 ∧ m.twistCov (6 * (3 + i) + (3 + j)) = if i = j then N.sw ^ 2 / dt else 0) ∧
      cams.length = s.opts.numCams ∧ ∀ i < s.opts.numCams, ∀ q p, (s.obj (7 + 2 * i)).val = .pose q p → cams[i]? = some (some (transOf q p true)) := by
  unfold visualizeOdometry at h
  split_ifs at h with h1
  · simp at h
  push Not at h1
  rw [Option.bind_eq_some_iff] at h
  obtain ⟨⟨e, o⟩, hf, h⟩ := h
  cases o with
  | none => simp at h
  | some o =>
    simp only at h
    rw [Option.map_eq_some_iff] at h
    obtain ⟨m', hm, h⟩ := h
    simp only [Prod.mk.injEq, Option.some.injEq] at h
    obtain ⟨rfl, rfl, rfl, rfl⟩ := h
    obtain ⟨c, pre, y, z, -, -, -, hq, hp, hv, h66, -, -, hvv, hz, hw⟩ := C93_report hk hf
    obtain ⟨hst, hpo, hli, hpc, htc⟩ := odomOf_spec hm
    refine ⟨e, z.t - y.t, rfl, by simpa using h1.1, h1.2, hst, ?_, hli.trans hv, ?_, ?_, ?_, by simp, ?_⟩
    · intro hu v
      have hb : transOf o.q o.p false = m'.pose := by rw [hpo]; rfl
      refine ⟨?_, by rw [hb]⟩
      rw [hpo, C119_frames ⟨o.q, o.p⟩ (by rw [hq]; exact hu)]
      show (quat2Rot o.q).transpose.mulVec v + o.p = _
      rw [hq, hp]
    · intro r c hr hc
      rw [hpc r c hr hc, h66 _ _ (by unfold Spec.posFirst; split_ifs <;> omega) (by unfold Spec.posFirst; split_ifs <;> omega)]
    · intro i j
      rw [htc i j (by omega) (by omega), hvv]
    · intro i j hi hj
      refine ⟨?_, ?_, ?_⟩
      · rw [htc i (3 + j) (by omega) (by omega)]
        exact (hz (6 + i) (6 + (3 + j)) (by omega) (by omega) (by omega)).1
      · rw [htc (3 + i) j (by omega) (by omega)]
        exact (hz (6 + j) (6 + (3 + i)) (by omega) (by omega) (by omega)).2
      · rw [htc (3 + i) (3 + j) (by omega) (by omega), show 6 + (3 + i) = 9 + i by ring, show 6 + (3 + j) = 9 + j by ring]
        exact hw i j hi hj
    · intro i hi q p hqp
      rw [List.getElem?_map, List.getElem?_range hi]
      simp [poseOf, hqp]

/-- **C119** (finding) An odometry asked for at the time of a reading of the IMU is stamped with that time but, if it is the first since the state changed, predicted for a time later by the camera-IMU offset: for the reachable state `exS` (offset one second) and a gyroscope whose
reading about the vertical axis equals the time, the odometry stamped with second 2 says the rate is 3. -/
theorem C119_odometry_clock (lib : Lib) (N : Noise) : Verif.St.Spec.Reach lib exS ∧ tOff exS = some 1 ∧
    ∃ c m b cs, visualizeOdometry N [exG 0, exG 10] none true 0 exS 2 = some (c, some (m, b, cs)) ∧ Spec.nanos m.stamp = 2 * 10 ^ 9 ∧ (exG 2).wm = ![0, 0, 2] ∧ m.ang = ![0, 0, 2 + 1] := by
  obtain ⟨h1, h2, c1, c2, o1, o2, h3, -, h4, -⟩ := C22_offset_dropped lib N
  obtain ⟨st, hst, -, hn, -⟩ := C119_stamp 2 (by norm_num) (by norm_num)
  refine ⟨h1, h2, ?_⟩
  unfold visualizeOdometry odomOf
  rw [if_neg (by norm_num), h3]
  simp only [Option.bind_some, hst, Option.map_some]
  refine ⟨_, _, _, _, rfl, ?_, rfl, h4⟩
  show Spec.nanos st = _
  rw [hn]
  have : (2 : ℝ) * 10 ^ 9 = ((2 * 10 ^ 9 : ℤ) : ℝ) := by norm_num
  rw [this, round_intCast]

/-! ### one message per state -/

/-- a sequence of calls of `visualize`: what is remembered in the end, and the states published with their messages -/
noncomputable def visRun : Pub → List (Bool × State) → Option (Pub × List (State × PoseCovMsg))
  | P, [] => some (P, [])
  | P, c :: t => (visualize P c.1 c.2).bind fun r => (visRun r.1 t).map fun u => (u.1, ((r.2.map fun o => (c.2, o.1)).toList ++ u.2))

theorem visualize_spec {P P' : Pub} {i : Bool} {s : State} {o : Option (PoseCovMsg × List (Stamp × PoseMsg))} (h : visualize P i s = some (P', o)) :
    P'.last = s.ts ∧ (o.isSome ↔ i = true ∧ P.last ≠ s.ts) ∧ P'.poses = P.poses ++ (o.map fun m => (m.1.stamp, m.1.pose)).toList ∧
      ∀ m, o = some m → statePose s = some m.1 ∧ m.2 = pathOf P'.poses := by
  unfold visualize at h
  split_ifs at h with h1 h2
  · simp only [Option.some.injEq, Prod.mk.injEq] at h
    obtain ⟨rfl, rfl⟩ := h
    exact ⟨h1.1, by simp [h1.1], by simp, by simp⟩
  · simp only [Option.some.injEq, Prod.mk.injEq] at h
    obtain ⟨rfl, rfl⟩ := h
    exact ⟨rfl, by simp [h2], by simp, by simp⟩
  · rw [Option.map_eq_some_iff] at h
    obtain ⟨m, hm, h⟩ := h
    simp only [Prod.mk.injEq] at h
    obtain ⟨rfl, rfl⟩ := h
    have hi : i = true := by simpa using h2
    refine ⟨rfl, by simp only [Option.isSome_some, true_iff]; exact ⟨hi, fun e => h1 ⟨e, hi⟩⟩, by simp, ?_⟩
    rintro m' hm'
    obtain rfl := (Option.some.inj hm').symm
    exact ⟨hm, rfl⟩

theorem visRun_cons {P P' : Pub} {c : Bool × State} {t : List (Bool × State)} {out : List (State × PoseCovMsg)} (h : visRun P (c :: t) = some (P', out)) :
    ∃ P1 o out1, visualize P c.1 c.2 = some (P1, o) ∧ visRun P1 t = some (P', out1) ∧ out = (o.map fun m => (c.2, m.1)).toList ++ out1 := by
  simp only [visRun] at h
  rw [Option.bind_eq_some_iff] at h
  obtain ⟨⟨P1, o⟩, h1, h⟩ := h
  rw [Option.map_eq_some_iff] at h
  obtain ⟨⟨P2, out1⟩, h2, h⟩ := h
  simp only [Prod.mk.injEq] at h
  obtain ⟨rfl, rfl⟩ := h
  exact ⟨P1, o, out1, h1, h2, rfl⟩

theorem visRun_above {calls : List (Bool × State)} : ∀ {P P' : Pub} {out : List (State × PoseCovMsg)}, visRun P calls = some (P', out) → (∀ c ∈ calls, P.last ≤ c.2.ts) →
    calls.Pairwise (fun a b => a.2.ts ≤ b.2.ts) → (∀ e ∈ out, P.last < e.1.ts) ∧ out.Pairwise fun a b => a.1.ts < b.1.ts := by
  induction calls with
  | nil =>
    intro P P' out h _ _
    simp only [visRun, Option.some.injEq, Prod.mk.injEq] at h
    obtain ⟨-, rfl⟩ := h
    simp
  | cons c t ih =>
    intro P P' out h hl hp
    obtain ⟨P1, o, out1, h1, h2, rfl⟩ := visRun_cons h
    obtain ⟨hv, hiff, -, -⟩ := visualize_spec h1
    rw [List.pairwise_cons] at hp
    obtain ⟨ha, hb⟩ := ih h2 (by rw [hv]; exact hp.1) hp.2
    have hc := hl c (by simp)
    cases o with
    | none =>
      simp only [Option.map_none, Option.toList_none, List.nil_append]
      exact ⟨fun e he => hc.trans_lt (hv ▸ ha e he), hb⟩
    | some m =>
      have hlt : P.last < c.2.ts := lt_of_le_of_ne hc (hiff.1 rfl).2
      simp only [Option.map_some, Option.toList_some, List.singleton_append, List.mem_cons, forall_eq_or_imp, List.pairwise_cons]
      exact ⟨⟨hlt, fun e he => hc.trans_lt (hv ▸ ha e he)⟩, fun e he => hv ▸ ha e he, hb⟩

/-- **C119** (one message per state) However often the program is asked to publish, while the time of the state never goes back: at most one pose is published for each time of the state, in order; each is the message of an initialised state, and they are what is appended to the path; and a state time
at which the program was always initialised when asked is published. -/
theorem C119_one_per_state {calls : List (Bool × State)} {P P' : Pub} {out : List (State × PoseCovMsg)} (h : visRun P calls = some (P', out)) :
    (calls.Pairwise (fun a b => a.2.ts ≤ b.2.ts) → out.Pairwise fun a b => a.1.ts < b.1.ts) ∧
    (∀ e ∈ out, (true, e.1) ∈ calls ∧ statePose e.1 = some e.2) ∧
    P'.poses = P.poses ++ out.map (fun e => (e.2.stamp, e.2.pose)) ∧
    ∀ s, (true, s) ∈ calls → (∀ c ∈ calls, c.2.ts = s.ts → c.1 = true) → s.ts ≠ P.last → ∃ e ∈ out, e.1.ts = s.ts := by
  refine ⟨fun hp => ?_, ?_⟩
  · cases calls with
    | nil =>
      simp only [visRun, Option.some.injEq, Prod.mk.injEq] at h
      obtain ⟨-, rfl⟩ := h
      simp
    | cons c t =>
      obtain ⟨P1, o, out1, h1, h2, rfl⟩ := visRun_cons h
      obtain ⟨hv, -, -, -⟩ := visualize_spec h1
      rw [List.pairwise_cons] at hp
      obtain ⟨ha, hb⟩ := visRun_above h2 (by rw [hv]; exact hp.1) hp.2
      cases o with
      | none => simpa using hb
      | some m =>
        simp only [Option.map_some, Option.toList_some, List.singleton_append, List.pairwise_cons]
        exact ⟨fun e he => hv ▸ ha e he, hb⟩
  · induction calls generalizing P out with
    | nil =>
      simp only [visRun, Option.some.injEq, Prod.mk.injEq] at h
      obtain ⟨rfl, rfl⟩ := h
      simp
    | cons c t ih =>
      obtain ⟨P1, o, out1, h1, h2, rfl⟩ := visRun_cons h
      obtain ⟨hv, hiff, hpo, hm⟩ := visualize_spec h1
      obtain ⟨ha, hb, hd⟩ := ih h2
      refine ⟨?_, ?_, ?_⟩
      · intro e he
        rcases List.mem_append.1 he with he | he
        · cases o with
          | none => simp at he
          | some m =>
            simp only [Option.map_some, Option.toList_some, List.mem_singleton] at he
            subst he
            have hi := (hiff.1 rfl).1
            refine ⟨List.mem_cons.2 (.inl ?_), (hm m rfl).1⟩
            rw [← hi]
        · exact ⟨List.mem_cons_of_mem _ (ha e he).1, (ha e he).2⟩
      · rw [hb, hpo]
        cases o <;> simp
      · intro s hs hall hne
        by_cases hc : c.2.ts = s.ts
        · have hi := hall c (by simp) hc
          have hso := hiff.2 ⟨hi, by rw [hc]; exact hne.symm⟩
          obtain ⟨m, rfl⟩ := Option.isSome_iff_exists.1 hso
          exact ⟨(c.2, m.1), by simp, hc⟩
        · rcases List.mem_cons.1 hs with he | hs
          · exact absurd (by rw [← he]) hc
          · obtain ⟨e, he, het⟩ := hd s hs (fun d hd => hall d (List.mem_cons_of_mem _ hd)) (by rw [hv]; exact fun e => hc e.symm)
            exact ⟨e, List.mem_append.2 (.inr he), het⟩

/-! ### loop closure -/

/-- **C119** (loop closure) If the information for loop closure is published then it is for the time of the last active tracks, that is also the time of the active image and of a clone. The stamp is that time, in the clock of the camera. The pose is the clone's, taking points of the IMU frame at that time to
the global frame; the extrinsic is the transform of camera 0; the matrix `k` takes normalised coordinates to pixels with the intrinsics of camera 0 and `d` are its distortion coefficients; and the points are those of the tracks, each with its pixel if it has one and its id. -/
theorem C119_loop_closure {s : State} {fish : Bool} {t1 t2 : ℝ} {pos : List (ℕ × V3)} {uvd : ℕ → Option V3} {m : LoopMsg} (h : loopClosure s fish t1 t2 pos uvd = some (some m)) :
    t1 ≠ -1 ∧ t1 = t2 ∧ stampOf t1 = some m.stamp ∧
    (∃ u q p, (t1, u) ∈ s.clones ∧ (s.obj u).val = .pose q p ∧ (IsUnitQ q → ∀ v, Spec.toParent m.pose v = (quat2Rot q).transpose.mulVec v + p)) ∧
    (∃ q p, (s.obj 7).val = .pose q p ∧ m.extr = transOf q p true) ∧
    (∃ n c, (s.obj 8).val = .vec n c ∧ m.cam.fisheye = fish ∧ m.cam.d = [c 4, c 5, c 6, c 7] ∧ m.cam.k.length = 9 ∧
      ∀ x y, (Matrix.of fun i j : Fin 3 => m.cam.k.getD (3 * i + j) 0).mulVec ![x, y, 1] = ![c 0 * x + c 2, c 1 * y + c 3, 1]) ∧
    m.points.length = pos.length ∧
    ∀ (j id : ℕ) (p : V3), pos[j]? = some (id, p) → ∃ z : V3, (∀ w, uvd id = some w → z = w) ∧ m.points[j]? = some (p, [0, 0, z 0, z 1, (id : ℝ)]) := by
  unfold loopClosure at h
  by_cases h1 : t1 = -1
  · rw [if_pos h1] at h; simp at h
  rw [if_neg h1] at h
  cases hf : s.clones.find? (fun e => decide (e.1 = t1)) with
  | none => rw [hf] at h; simp at h
  | some e =>
    rw [hf] at h
    simp only at h
    by_cases h2 : t1 ≠ t2
    · rw [if_pos h2] at h; simp at h
    rw [if_neg h2] at h
    rw [Option.bind_eq_some_iff] at h
    obtain ⟨st, hst, h⟩ := h
    rw [Option.bind_eq_some_iff] at h
    obtain ⟨⟨qI, pI⟩, hI, h⟩ := h
    rw [Option.bind_eq_some_iff] at h
    obtain ⟨⟨qC, pC⟩, hC, h⟩ := h
    rw [Option.map_eq_some_iff] at h
    obtain ⟨c, hc, h⟩ := h
    obtain rfl := (Option.some.inj h).symm
    have hpose : ∀ {u q p}, poseOf s u = some (q, p) → (s.obj u).val = .pose q p := by
      intro u q p hh
      unfold poseOf at hh
      split at hh
      · rename_i a b hab; simp only [Option.some.injEq, Prod.mk.injEq] at hh; rw [hab, hh.1, hh.2]
      · cases hh
    have hvec : ∃ n, (s.obj 8).val = .vec n c := by
      unfold vecOf at hc
      split at hc
      · rename_i n x hx; simp only [Option.some.injEq] at hc; exact ⟨n, by rw [← hc]; exact hx⟩
      · cases hc
    obtain ⟨n, hn⟩ := hvec
    have he := List.mem_of_find?_eq_some hf
    have he1 : e.1 = t1 := by simpa using List.find?_some hf
    refine ⟨h1, by simpa using h2, hst, ⟨e.2, qI, pI, by rw [← he1]; exact he, hpose hI, fun hq v => C119_frames ⟨qI, pI⟩ hq v⟩, ⟨qC, pC, hpose hC, by simp [transOf]⟩, ⟨n, c, hn, rfl, rfl, rfl, ?_⟩, by simp, ?_⟩
    · intro x y
      ext i
      fin_cases i <;> simp [Matrix.mulVec, dotProduct, Fin.sum_univ_three]
    · intro j id p hj
      refine ⟨(uvd id).getD 0, fun w hw => by rw [hw]; rfl, ?_⟩
      simp [List.getElem?_map, hj, loopPoint]

/-! ### a reachable state, and the axes of the orientation covariance -/

/-- one camera, nothing calibrated -/
def exO : Opts := ⟨false, false, true, false, false, false, 1, 11, 0⟩

theorem ctor_exO : (ctor exO).vars = [0] ∧ (ctor exO).n = 15 ∧ (ctor exO).clones = [] ∧ (ctor exO).opts = exO ∧ (ctor exO).next = 9 ∧
    ((ctor exO).obj 0).id = 0 ∧ ((ctor exO).obj 0).val = .imu imu0 ∧ ((ctor exO).obj 0).fej = .imu imu0 ∧ ((ctor exO).obj 6).val = .vec 1 (fun _ => 0) ∧
    ((ctor exO).obj 7).val = .pose idQuat 0 ∧ ((ctor exO).obj 8).val = .vec 8 fun _ => 0 := by
  simp [ctor, ctorVars, exO, push, heap0, Val.size]

/-- the body turned about the vertical axis -/
def exX : Imu16 := ⟨⟨0, 0, 0.6, 0.8⟩, ![1, 2, 3], 0, 0, 0⟩

/-- the filter is given an orientation, certain but for an error about the first axis of the IMU; a clone is taken at second 5 -/
noncomputable def exOps : List Op := [.setVal 0 (.imu exX), .setInit ⟨3, 3, fun i j => if i = 0 ∧ j = 0 then 1 else 0⟩ [(0, .q)], .setTime 5, .augment 0]

theorem exRun (lib : Lib) : ∃ s, run lib (ctor exO) exOps = some s ∧ s.ts = 5 ∧ s.n = 21 ∧ s.clones = [(5, 9)] ∧ (s.obj 0).id = 0 ∧ (s.obj 0).val = .imu exX ∧ (s.obj 0).fej = .imu imu0 ∧
    (s.obj 6).val = .vec 1 (fun _ => 0) ∧ (s.obj 7).val = .pose idQuat 0 ∧ (s.obj 8).val = .vec 8 (fun _ => 0) ∧ (s.obj 9).val = .pose exX.q exX.p ∧
    ∀ i j : Fin 3, s.P i j = if i = 0 ∧ j = 0 then 1 else 0 := by
  obtain ⟨h1, h2, h3, h4, h5, h6, h7, h8, h9, h10, h11⟩ := ctor_exO
  generalize ctor exO = c at *
  simp [exOps, run, step, augment, clone, h1, h2, h3, h4, h5, h6, h7, h8, h9, h10, h11, imuUid, resolve, resolveAll, setInit, tot, Val.part, Val.size, exO, insertClone, sameKind]
  intro i j
  fin_cases i <;> fin_cases j <;> simp [Mat.mirrorU, setLoop, setRow, cloneCov, Mat.block, Mat.setBlock]

theorem exX_unit : IsUnitQ exX.q := by norm_num [IsUnitQ, exX]

theorem exRun_pose {s : State} (ht : s.ts = 5) (hn : s.n = 21) (h0 : (s.obj 0).id = 0) (hv : (s.obj 0).val = .imu exX) (hf : (s.obj 0).fej = .imu imu0) (h6 : (s.obj 6).val = .vec 1 (fun _ => 0)) :
    ∃ m, statePose s = some m := by
  have h1 : tOff s = some 0 := by simp [tOff, dtUid, h6]
  have h2 : imuOf s = some (exX, imu0) := by simp [imuOf, imuUid, hv, hf]
  obtain ⟨st, h3, -⟩ := C119_stamp 5 (by norm_num) (by norm_num)
  have h4 : ∃ M, getMarginal s [(imuUid, .p), (imuUid, .q)] = some M := by
    simp [getMarginal, resolveAll, resolve, imuUid, hv, hn, h0, Val.part, Val.size]
  obtain ⟨M, h4⟩ := h4
  unfold statePose
  rw [h1, Option.bind_some, h2, Option.bind_some, show s.ts + 0 = 5 by rw [ht]; norm_num, h3, Option.bind_some, h4]
  exact ⟨_, rfl⟩

/-- **C119** (finding) An orientation error `d` of the filter turns the published orientation about the fixed axes by `Rᵀ d`, where `R` takes global to IMU axes; so its covariance about fixed axes, which is what the receiver of the message expects, is `Rᵀ Σ R`. What is published is `Σ`, about the axes of
the IMU, and there is a reachable state where that differs. -/
theorem C119_orientation_axes :
    (∀ q d, IsUnitQ q → (quat2Rot (quatUpdate q d)).transpose = (perturbRot ((quat2Rot q).transpose.mulVec d)).transpose * (quat2Rot q).transpose) ∧
    ∀ lib, ∃ s x, Verif.St.Spec.Reach lib s ∧ (s.obj imuUid).val = .imu x ∧ IsUnitQ x.q ∧ (s.obj imuUid).id = 0 ∧ ∃ m, statePose s = some m ∧
      (Matrix.of fun i j : Fin 3 => m.cov (6 * (3 + i) + (3 + j))) ≠ (quat2Rot x.q).transpose * (Matrix.of fun i j : Fin 3 => s.P i j) * quat2Rot x.q := by
  refine ⟨fun q d hq => ?_, fun lib => ?_⟩
  · rw [rot_quatUpdate hq, ← perturbRot_conj (quat2Rot_isRot hq)]
    simp only [Matrix.transpose_mul, Matrix.transpose_transpose]
    rw [Matrix.mul_assoc, Matrix.mul_assoc, (quat2Rot_isRot hq).orth', Matrix.mul_one]
  · obtain ⟨s, hr, ht, hn, -, h0, hv, hf, h6, -, -, -, hP⟩ := exRun lib
    obtain ⟨m, hm⟩ := exRun_pose ht hn h0 hv hf h6
    refine ⟨s, exX, ⟨exO, exOps, hr⟩, hv, exX_unit, h0, m, hm, fun he => ?_⟩
    obtain ⟨x, n, off, k, hx, hk, -, -, -, hc⟩ := C119_state_pose hm
    have hk0 : k = 0 := by
      rw [show (imuUid : ℕ) = 0 from rfl, h0] at hk; omega
    subst hk0
    have h11 := congrFun (congrFun he 1) 1
    have hl : m.cov (6 * (3 + 1) + (3 + 1)) = 0 := by
      rw [hc 4 4 (by norm_num) (by norm_num)]
      have := hP 1 1
      simpa [Spec.posFirst] using this
    have hPm : (Matrix.of fun i j : Fin 3 => s.P i j) = Matrix.of fun i j : Fin 3 => if i = 0 ∧ j = 0 then (1 : ℝ) else 0 := by
      ext i j; exact hP i j
    rw [hPm] at h11
    simp only [Matrix.of_apply] at h11
    have hl' : m.cov (6 * (3 + ((1 : Fin 3) : ℕ)) + (3 + ((1 : Fin 3) : ℕ))) = 0 := hl
    rw [hl'] at h11
    simp [Matrix.mul_apply, Fin.sum_univ_three, exX, quat2Rot, skew, outer, Quat.vec] at h11
    norm_num at h11

/-- the hypothesis of `C119_one_per_state` is met: asked before initialisation and twice after -/
example (lib : Lib) : ∃ s P' out, Verif.St.Spec.Reach lib s ∧ visRun ⟨0, []⟩ [(false, ctor exO), (true, s), (true, s)] = some (P', out) ∧ out.length = 1 := by
  obtain ⟨s, hr, ht, hn, -, h0, hv, hf, h6, -⟩ := exRun lib
  obtain ⟨m, hm⟩ := exRun_pose ht hn h0 hv hf h6
  have hc : (ctor exO).ts = -1 := by simp [ctor, ctorVars, exO, push]
  refine ⟨s, ⟨5, [(m.stamp, m.pose)]⟩, [(s, m)], ⟨exO, exOps, hr⟩, ?_, rfl⟩
  simp only [visRun, visualize, hc, ht, hm]
  norm_num

/-- the hypothesis of `C119_loop_closure` is met -/
example (lib : Lib) : ∃ s m, Verif.St.Spec.Reach lib s ∧ loopClosure s false 5 5 [(3, ![1, 0, 0])] (fun _ => some ![20, 30, 2]) = some (some m) ∧ m.points.length = 1 := by
  obtain ⟨s, hr, ht, hn, hcl, h0, hv, hf, h6, h7, h8, h9, -⟩ := exRun lib
  obtain ⟨st, h3, -⟩ := C119_stamp 5 (by norm_num) (by norm_num)
  have hi : (intrUid 0 : ℕ) = 8 := rfl
  suffices h : ∃ m, loopClosure s false 5 5 [(3, ![1, 0, 0])] (fun _ => some ![20, 30, 2]) = some (some m) ∧ m.points.length = 1 by
    obtain ⟨m, hm⟩ := h
    exact ⟨s, m, ⟨exO, exOps, hr⟩, hm⟩
  unfold loopClosure
  rw [if_neg (by norm_num), hcl]
  simp only [List.find?, decide_true, ne_eq, not_true_eq_false, if_false, h3, Option.bind_some, poseOf, h9, h7, vecOf, hi, h8, Option.map_some]
  exact ⟨_, rfl, rfl⟩

end Verif.Ros
