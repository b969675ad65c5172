import Verif.Eval.Record

/-!
# Model of the evaluation of one trajectory: ov_eval/src/calc/ResultTrajectory.cpp, and `rot2rpy` of ov_core/src/utils/quat_ops.h
-/

set_option autoImplicit false
open Classical

namespace Verif.Eval

open Verif Verif.Ros

/-! ## Roll, pitch, yaw -/

/-- `rot2rpy`, quat_ops.h:549-561: roll, pitch, yaw -/
noncomputable def rot2rpy (R : M3) : V3 :=
  let p := Land.atan2 (-R 2 0) (Real.sqrt (R 0 0 * R 0 0 + R 1 0 * R 1 0))
  if 1e-12 < |Real.cos p| then
    ![Land.atan2 (R 2 1 / Real.cos p) (R 2 2 / Real.cos p), p, Land.atan2 (R 1 0 / Real.cos p) (R 0 0 / Real.cos p)]
  else ![Land.atan2 (R 0 1) (R 1 1), p, 0]

/-- `while (x < -M_PI) x += 2 * M_PI`, ResultTrajectory.cpp:327-329: the number of turns of the loop is the least that ends it (`wrapUp_loop`) -/
noncomputable def wrapUp (x : ℝ) : ℝ := x + ⌈(-Real.pi - x) / (2 * Real.pi)⌉₊ * (2 * Real.pi)

/-- `while (x > M_PI) x -= 2 * M_PI`, ResultTrajectory.cpp:330-332 (`wrapDown_loop`) -/
noncomputable def wrapDown (x : ℝ) : ℝ := x - ⌈(x - Real.pi) / (2 * Real.pi)⌉₊ * (2 * Real.pi)

/-- `H_xyz2rpy`, ResultTrajectory.cpp:339-341; columns, from the estimated roll and pitch -/
noncomputable def hRpy (roll pitch : ℝ) : M3 :=
  let c1 := (rotX (-roll)).mulVec ![0, 1, 0]
  let c2 := (rotX (-roll) * rotY (-pitch)).mulVec ![0, 0, 1]
  !![1, c1 0, c2 0; 0, c1 1, c2 1; 0, c1 2, c2 2]

/-! ## One pair of poses -/

/-- what `calculate_error` appends for one pose: values and, with covariances, bounds of three; angles in degrees -/
structure ErrOne where
  pos : V3
  posB : Option V3
  ori : V3
  oriB : Option V3
  rpy : V3
  /-- `none`: the trajectory has no covariances, or (at a pitch of a quarter turn) the matrix that is inverted is singular and the numbers are not finite -/
  rpyB : Option V3

/-- degrees per radian, `180.0 / M_PI` -/
noncomputable def deg : ℝ := 180 / Real.pi

/-- three standard deviations: the root of the diagonal of a covariance, times a factor -/
noncomputable def bound3 (c : ℝ) (M : M3) : V3 := ![c * Real.sqrt (M 0 0), c * Real.sqrt (M 1 1), c * Real.sqrt (M 2 2)]

/-- the loop body of `calculate_error`, ResultTrajectory.cpp:306-388. `e`: the estimate, `g`: the ground truth moved to it. -/
noncomputable def errOne (e g : Pose) (covori covpos : Option M3) : ErrOne :=
  let eq := quatMul g.q (quatInv e.q)
  let R := (quat2Rot e.q).transpose
  let rpyE := rot2rpy R
  let rpyG := rot2rpy (quat2Rot g.q).transpose
  let d := rpyG - rpyE
  let H := hRpy (rpyE 0) (rpyE 1)
  ⟨g.p - e.p, covpos.map (bound3 3),
    deg • R.mulVec ((2 : ℝ) • eq.vec), covori.map fun P => bound3 (3 * deg) (R * P * quat2Rot e.q),
    deg • ![wrapDown (wrapUp (d 0)), wrapDown (wrapUp (d 1)), wrapDown (wrapUp (d 2))],
    if H.det = 0 then none else covori.map fun P => bound3 (3 * deg) (H⁻¹ * P * H⁻¹.transpose)⟩

/-- the loop body of `calculate_ate_2d`, ResultTrajectory.cpp:119-128 -/
noncomputable def ate2dErr (e g : Pose) : ℝ × ℝ :=
  (180 / Real.pi * logSO3 ((quat2Rot e.q).transpose * quat2Rot g.q) 2, Real.sqrt ((g.p 0 - e.p 0) ^ 2 + (g.p 1 - e.p 1) ^ 2))

/-- `v' M⁻¹ v`; `none` when `M` is singular: the quotient is not finite (the code skips it when it is not a number) -/
noncomputable def maha (M : M3) (v : V3) : Option ℝ := if M.det = 0 then none else some (v ⬝ᵥ M⁻¹.mulVec v)

/-- the loop body of `calculate_nees`, ResultTrajectory.cpp:259-278: orientation, position -/
noncomputable def neesOne (e g : Pose) (covori covpos : M3) : Option ℝ × Option ℝ :=
  (maha covori (-logSO3 (quat2Rot g.q * (quat2Rot e.q).transpose)), maha covpos (g.p - e.p))

/-! ## The whole evaluation -/

/-- the members of `ResultTrajectory` -/
structure Result where
  est : Traj Pose M3
  gt : Traj Pose M3
  /-- `est_poses_aignedtoGT` -/
  estA : List Pose
  /-- `gt_poses_aignedtoEST` -/
  gtA : List Pose

/-- the constructor, ResultTrajectory.cpp:26-79. `none`: the exits, and failed assertions. The lengths are only printed. -/
noncomputable def resultTraj (svd : M3 → M3 × V3 × M3) (est gt : List Row) (m : Method) : Option Result :=
  (loadData est).bind fun E => (loadData gt).bind fun G => (performAssociation (0 : M3) 0 0.02 E G).bind fun EG =>
    if EG.1.poses.length < 3 then none
    else (alignTrajectory svd EG.1.poses EG.2.poses m (-1)).bind fun a => (alignTrajectory svd EG.2.poses EG.1.poses m (-1)).map fun b =>
      ⟨EG.1, EG.2, EG.1.poses.map (applyAlign a), EG.2.poses.map (applyAlign b)⟩

/-- `calculate_ate`, ResultTrajectory.cpp:81-109: times, values -/
noncomputable def ate (r : Result) : List (ℝ × (ℝ × ℝ)) := (r.est.times.zip (r.estA.zip r.gt.poses)).map fun x => (x.1, ateErr x.2.1 x.2.2)

/-- `calculate_ate_2d`, ResultTrajectory.cpp:111-139 -/
noncomputable def ate2d (r : Result) : List (ℝ × (ℝ × ℝ)) := (r.est.times.zip (r.estA.zip r.gt.poses)).map fun x => (x.1, ate2dErr x.2.1 x.2.2)

/-- the distances along the ground truth, ResultTrajectory.cpp:146-152 -/
noncomputable def accum (d : ℝ) : List Pose → List ℝ
  | [] => []
  | [_] => [d]
  | a :: b :: r => d :: accum (d + norm3 (b.p - a.p)) (b :: r)

/-- `calculate_rpe` for one length of segments, ResultTrajectory.cpp:164-235; `none`: an `.at` throws -/
noncomputable def rpe (r : Result) (dist : ℝ) : Option (List (ℝ × (ℝ × ℝ))) :=
  let c := comparisons (accum 0 r.gt.poses) dist 0.5
  let l := (List.range c.length).filterMap fun i => ((c[i]?).join).map fun j => (i, j)
  l.mapM fun ij => do
    let c1 ← r.estA[ij.1]?
    let c2 ← r.estA[ij.2]?
    let m1 ← r.gt.poses[ij.1]?
    let m2 ← r.gt.poses[ij.2]?
    let t ← r.est.times[ij.1]?
    some (t, rpeErr c1 c2 m1 m2)

/-- `calculate_nees`, ResultTrajectory.cpp:237-287; `none`: no covariances, nothing is computed -/
noncomputable def nees (r : Result) : Option (List (ℝ × (Option ℝ × Option ℝ))) :=
  if r.est.times.length ≠ r.est.covori.length ∨ r.est.times.length ≠ r.est.covpos.length ∨ r.gt.times.length ≠ r.gt.covori.length ∨ r.gt.times.length ≠ r.gt.covpos.length then none
  else some ((r.est.times.zip ((r.est.poses.zip r.gtA).zip (r.est.covori.zip r.est.covpos))).map fun x => (x.1, neesOne x.2.1.1 x.2.1.2 x.2.2.1 x.2.2.2))

/-- `calculate_error`, ResultTrajectory.cpp:289-401 -/
noncomputable def calcError (r : Result) : List (ℝ × ErrOne) :=
  (List.range r.est.poses.length).filterMap fun i =>
    (r.est.times[i]?).bind fun t => (r.est.poses[i]?).bind fun e => (r.gtA[i]?).map fun g =>
      (t, errOne e g (if r.est.times.length = r.est.covori.length then r.est.covori[i]? else none) (if r.est.times.length = r.est.covpos.length then r.est.covpos[i]? else none))

end Verif.Eval
