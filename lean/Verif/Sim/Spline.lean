import Verif.Quat.Props

/-!
# Model of `ov_core/src/sim/BsplineSE3.cpp`

`AlignedEigenMat4d` (a `std::map<double, Eigen::Matrix4d>`, BsplineSE3.h:170-171) is a list of pairs in increasing key order;
iterators are indices into it, `end()` is its length.
-/

set_option autoImplicit false

namespace Verif.Sim

open Verif Matrix

/-- `AlignedEigenMat4d`, BsplineSE3.h:170-171. -/
abbrev Poses := List (ℝ × M4)

open Classical in
/-- `std::map::insert({t, T})`: keeps the keys in order and keeps the value of a key that is already there. -/
noncomputable def mapInsert (t : ℝ) (T : M4) : Poses → Poses
  | [] => [(t, T)]
  | p :: r => if t < p.1 then (t, T) :: p :: r else if t = p.1 then p :: r else p :: mapInsert t T r

open Classical in
/-- `poses.lower_bound(t)`: the first key that is not smaller. -/
noncomputable def lowerB (t : ℝ) (m : Poses) : ℕ := m.findIdx fun p => decide (t ≤ p.1)

open Classical in
/-- `poses.upper_bound(t)`: the first key that is larger. -/
noncomputable def upperB (t : ℝ) (m : Poses) : ℕ := m.findIdx fun p => decide (t < p.1)

open Classical in
/-- `poses.find(t)`. -/
noncomputable def findB (t : ℝ) (m : Poses) : ℕ := m.findIdx fun p => decide (p.1 = t)

open Classical in
/-- `BsplineSE3::find_bounding_poses`, BsplineSE3.cpp:249-299. `none` is the return value `false`; the assertion of lines 294-295 is
proved to hold (`C61_bounding_poses`). -/
noncomputable def findPoses (t : ℝ) (m : Poses) : Option ((ℝ × M4) × (ℝ × M4)) :=
  let lb := lowerB t m
  let older := if lb < m.length then
      (if (m[lb]?).map Prod.fst = some t then m[lb]? else if lb ≠ 0 then m[lb - 1]? else none)
    else none
  let newer := m[upperB t m]?
  match older, newer with
  | some a, some b => some (a, b)
  | _, _ => none

/-- `BsplineSE3::find_bounding_control_points`, BsplineSE3.cpp:301-358. -/
noncomputable def findCtl (t : ℝ) (m : Poses) : Option ((ℝ × M4) × (ℝ × M4) × (ℝ × M4) × (ℝ × M4)) :=
  match findPoses t m with
  | none => none
  | some (p1, p2) =>
    if findB p1.1 m = 0 then none
    else match m[findB p1.1 m - 1]?, m[findB p2.1 m + 1]? with
      | some p0, some p3 => some (p0, p1, p2, p3)
      | _, _ => none

/-- the blending values `b0`, `b1`, `b2` and their time derivatives, BsplineSE3.cpp:110-114, 149-156, 199-209. -/
noncomputable def b0 (u : ℝ) : ℝ := 1 / 6 * (5 + 3 * u - 3 * u * u + u * u * u)
/-- see `b0`. -/
noncomputable def b1 (u : ℝ) : ℝ := 1 / 6 * (1 + 3 * u + 3 * u * u - 2 * u * u * u)
/-- see `b0`. -/
noncomputable def b2 (u : ℝ) : ℝ := 1 / 6 * (u * u * u)
/-- see `b0`. -/
noncomputable def b0dot (DT u : ℝ) : ℝ := 1 / (6 * DT) * (3 - 6 * u + 3 * u * u)
/-- see `b0`. -/
noncomputable def b1dot (DT u : ℝ) : ℝ := 1 / (6 * DT) * (3 + 6 * u - 6 * u * u)
/-- see `b0`. -/
noncomputable def b2dot (DT u : ℝ) : ℝ := 1 / (6 * DT) * (3 * u * u)
/-- see `b0`. -/
noncomputable def b0dotdot (DT u : ℝ) : ℝ := 1 / (6 * DT * DT) * (-6 + 6 * u)
/-- see `b0`. -/
noncomputable def b1dotdot (DT u : ℝ) : ℝ := 1 / (6 * DT * DT) * (6 - 12 * u)
/-- see `b0`. -/
noncomputable def b2dotdot (DT u : ℝ) : ℝ := 1 / (6 * DT * DT) * (6 * u)

/-- `log_se3(Inv_se3(P) * Q)`, BsplineSE3.cpp:117-119, 159-161. -/
noncomputable def omegaOf (P Q : M4) : V3 × V3 := logSE3 (invSE3 P * Q)

/-- `exp_se3(b * omega)`. -/
noncomputable def expOf (b : ℝ) (om : V3 × V3) : M4 := expSE3 (b • om.1) (b • om.2)

/-- `hat_se3(omega)`. -/
def hatOf (om : V3 × V3) : M4 := hatSE3 om.1 om.2

/-- `pose_interp` for the four control points, BsplineSE3.cpp:110-122. -/
noncomputable def interpPose (t : ℝ) (q0 q1 q2 q3 : ℝ × M4) : M4 :=
  let DT := q2.1 - q1.1
  let u := (t - q1.1) / DT
  let A0 := expOf (b0 u) (omegaOf q0.2 q1.2)
  let A1 := expOf (b1 u) (omegaOf q1.2 q2.2)
  let A2 := expOf (b2 u) (omegaOf q2.2 q3.2)
  q0.2 * A0 * A1 * A2

/-- `vel_interp`, BsplineSE3.cpp:149-177. -/
noncomputable def interpVel (t : ℝ) (q0 q1 q2 q3 : ℝ × M4) : M4 :=
  let DT := q2.1 - q1.1
  let u := (t - q1.1) / DT
  let o10 := omegaOf q0.2 q1.2
  let o21 := omegaOf q1.2 q2.2
  let o32 := omegaOf q2.2 q3.2
  let A0 := expOf (b0 u) o10
  let A1 := expOf (b1 u) o21
  let A2 := expOf (b2 u) o32
  let A0d := b0dot DT u • hatOf o10 * A0
  let A1d := b1dot DT u • hatOf o21 * A1
  let A2d := b2dot DT u • hatOf o32 * A2
  q0.2 * (A0d * A1 * A2 + A0 * A1d * A2 + A0 * A1 * A2d)

/-- `acc_interp`, BsplineSE3.cpp:199-242. -/
noncomputable def interpAcc (t : ℝ) (q0 q1 q2 q3 : ℝ × M4) : M4 :=
  let DT := q2.1 - q1.1
  let u := (t - q1.1) / DT
  let o10 := omegaOf q0.2 q1.2
  let o21 := omegaOf q1.2 q2.2
  let o32 := omegaOf q2.2 q3.2
  let H0 := hatOf o10
  let H1 := hatOf o21
  let H2 := hatOf o32
  let A0 := expOf (b0 u) o10
  let A1 := expOf (b1 u) o21
  let A2 := expOf (b2 u) o32
  let A0d := b0dot DT u • H0 * A0
  let A1d := b1dot DT u • H1 * A1
  let A2d := b2dot DT u • H2 * A2
  let A0dd := b0dot DT u • H0 * A0d + b0dotdot DT u • H0 * A0
  let A1dd := b1dot DT u • H1 * A1d + b1dotdot DT u • H1 * A1
  let A2dd := b2dot DT u • H2 * A2d + b2dotdot DT u • H2 * A2
  q0.2 * (A0dd * A1 * A2 + A0 * A1dd * A2 + A0 * A1 * A2dd + (2 : ℝ) • A0d * A1d * A2 + (2 : ℝ) • A0 * A1d * A2d
    + (2 : ℝ) • A0d * A1 * A2d)

/-- `BsplineSE3::get_pose`, BsplineSE3.cpp:92-125: the returned `R_GtoI` and `p_IinG`. -/
noncomputable def getPose (m : Poses) (t : ℝ) : Option (M3 × V3) :=
  match findCtl t m with
  | none => none
  | some (q0, q1, q2, q3) =>
    let T := interpPose t q0 q1 q2 q3
    some ((rotBlock T).transpose, posBlock T)

/-- `BsplineSE3::get_velocity`, BsplineSE3.cpp:127-178: `R_GtoI, p_IinG, w_IinI, v_IinG`. -/
noncomputable def getVelocity (m : Poses) (t : ℝ) : Option (M3 × V3 × V3 × V3) :=
  match findCtl t m with
  | none => none
  | some (q0, q1, q2, q3) =>
    let T := interpPose t q0 q1 q2 q3
    let Td := interpVel t q0 q1 q2 q3
    some ((rotBlock T).transpose, posBlock T, vee ((rotBlock T).transpose * rotBlock Td), posBlock Td)

/-- `BsplineSE3::get_acceleration`, BsplineSE3.cpp:180-247: `R_GtoI, p_IinG, w_IinI, v_IinG, alpha_IinI, a_IinG`. -/
noncomputable def getAcceleration (m : Poses) (t : ℝ) : Option (M3 × V3 × V3 × V3 × V3 × V3) :=
  match findCtl t m with
  | none => none
  | some (q0, q1, q2, q3) =>
    let T := interpPose t q0 q1 q2 q3
    let Td := interpVel t q0 q1 q2 q3
    let Tdd := interpAcc t q0 q1 q2 q3
    let om := (rotBlock T).transpose * rotBlock Td
    some ((rotBlock T).transpose, posBlock T, vee om, posBlock Td,
      vee ((rotBlock T).transpose * (rotBlock Tdd - rotBlock Td * om)), posBlock Tdd)

/-- A trajectory row `[timestamp, p_IinG, q_GtoI]`, BsplineSE3.cpp:37-43. -/
structure TrajPt where
  t : ℝ
  p : V3
  q : Quat

/-- `sumdt`, BsplineSE3.cpp:29-32. -/
def sumDt : List TrajPt → ℝ
  | a :: b :: r => (b.t - a.t) + sumDt (b :: r)
  | _ => 0

open Classical in
/-- `dt`, BsplineSE3.cpp:33-34. -/
noncomputable def avgDt (traj : List TrajPt) : ℝ :=
  let dt := sumDt traj / ((traj.length : ℝ) - 1)
  if dt < 0.05 then 0.05 else dt

/-- the pose of a trajectory row, BsplineSE3.cpp:41-43. -/
def trajPose (a : TrajPt) : M4 := mkSE3 (quat2Rot a.q).transpose a.p 1

/-- `trajectory_points`, BsplineSE3.cpp:39-45: the loop runs to `size() - 1`, so the last row is left out. -/
noncomputable def trajMap (traj : List TrajPt) : Poses :=
  traj.dropLast.foldl (fun m a => mapInsert a.t (trajPose a) m) []

/-- `pose_interp` of a control point, BsplineSE3.cpp:79-80. -/
noncomputable def ctlPose (t : ℝ) (a b : ℝ × M4) : M4 :=
  let lam := (t - a.1) / (b.1 - a.1)
  let om := logSE3 (b.2 * invSE3 a.2)
  expSE3 (lam • om.1) (lam • om.2) * a.2

/-- the loop over the control points, BsplineSE3.cpp:62-86, for at most `n` rounds. -/
noncomputable def ctlLoop (pts : Poses) (dt : ℝ) : ℕ → ℝ → Poses → Poses
  | 0, _, acc => acc
  | n + 1, t, acc =>
    match findPoses t pts with
    | none => acc
    | some (a, b) => ctlLoop pts dt n (t + dt) (mapInsert t (ctlPose t a b) acc)

/-- The result of `feed_trajectory`. -/
structure Fed where
  cps : Poses
  dt : ℝ
  start : ℝ

/-- `BsplineSE3::feed_trajectory`, BsplineSE3.cpp:26-90, on an object without control points (the only use, Simulator.cpp:63-64),
with the loop cut off after `n` rounds (`C61_control_points` shows that it has ended by itself when `n` is large enough).
`none`: no row (`size() - 1` wraps around) or one row (the average is `0/0`). `timestamp_min` is the first key of the map. -/
noncomputable def feedTrajectory (n : ℕ) (traj : List TrajPt) : Option Fed :=
  if traj.length < 2 then none
  else match trajMap traj with
    | [] => none
    | a :: r =>
      let dt := avgDt traj
      some ⟨ctlLoop (a :: r) dt n a.1 [], dt, a.1 + 2 * dt⟩

end Verif.Sim
