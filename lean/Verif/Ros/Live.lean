import Verif.Ros.Publish
import Verif.Ros.Serial
import Verif.Eval.Traj

/-!
# Model of the comparison with the ground truth during a run

`publish_groundtruth`, ov_msckf/src/ros/ROS2Visualizer.cpp:706-831 (the same in ROS1Visualizer.cpp:711-842), and
ov_eval/src/live_align_trajectory.cpp. Line numbers without a file are those of ROS2Visualizer.cpp.
-/

set_option autoImplicit false
open Classical

namespace Verif.Ros

open Verif Verif.Types Verif.St Verif.Prop_ Verif.Eval

/-- where the ground truth comes from: the file of a recording, or a simulator with its true time offset and `get_state` -/
inductive Truth where
  | file (gt : List (ℝ × GtRow))
  | sim (off : ℝ) (state : ℝ → Option (Fin 17 → ℝ))

/-- the time and ground truth compared with, 711-729; `none`: nothing is shown. -/
noncomputable def truthAt (T : Truth) (ts off : ℝ) : Option (ℝ × (Fin 17 → ℝ)) :=
  match T with
  | .file gt => if gt = [] then none else (gtState (ts + off) gt).map fun g => (ts + off, g)
  | .sim d f => (f (ts + d)).map fun g => (ts + d, g)

/-- orientation and position of a ground truth state -/
def gtQuat (g : Fin 17 → ℝ) : Quat := ⟨g 1, g 2, g 3, g 4⟩
def gtPos (g : Fin 17 → ℝ) : V3 := ![g 5, g 6, g 7]

/-- `quat_diff`, 783-788, its vector part -/
noncomputable def qDiff (e g : Quat) : Quat := quatMul e (quatInv g)
noncomputable def qDiffVec (e g : Quat) : V3 := ![(qDiff e g).x, (qDiff e g).y, (qDiff e g).z]

/-- the four numbers of one call, 778-814: orientation (degrees) and position error, and their NEES with the blocks of the covariance; `none`: a block cannot be
inverted (Eigen then gives infinities or NaN). -/
structure Errs where
  ori : ℝ
  pos : ℝ
  neesOri : ℝ
  neesPos : ℝ

noncomputable def errsOf (e : Imu16) (g : Fin 17 → ℝ) (Pq Pp : M3) : Option Errs :=
  let ep := norm3 (e.p - gtPos g)
  let eo := 180 / Real.pi * 2 * norm3 (qDiffVec e.q (gtQuat g))
  if Pq.det = 0 then none
  else
    let no := 2 * (qDiffVec e.q (gtQuat g) ⬝ᵥ (Pq⁻¹.mulVec ((2 : ℝ) • qDiffVec e.q (gtQuat g))))
    (maha Pp (e.p - gtPos g)).map fun np => ⟨eo, ep, no, np⟩

/-- the sums kept, ROS2Visualizer.h:171-175 -/
structure Sums where
  mseOri : ℝ
  msePos : ℝ
  neesOri : ℝ
  neesPos : ℝ
  num : ℕ

/-- as constructed -/
def Sums.zero : Sums := ⟨0, 0, 0, 0, 0⟩

/-- 819-825 -/
def Sums.add (S : Sums) (e : Errs) : Sums :=
  ⟨S.mseOri + e.ori * e.ori, S.msePos + e.pos * e.pos, S.neesOri + e.neesOri, S.neesPos + e.neesPos, S.num + 1⟩

/-- what is printed, 828-831 -/
structure Shown where
  now : Errs
  rmseOri : ℝ
  rmsePos : ℝ
  avgOri : ℝ
  avgPos : ℝ
  calls : ℕ

noncomputable def shownOf (S : Sums) (e : Errs) : Shown :=
  ⟨e, Real.sqrt (S.mseOri / S.num), Real.sqrt (S.msePos / S.num), S.neesOri / S.num, S.neesPos / S.num, S.num⟩

/-- the 3x3 block of a covariance -/
def blk3 (M : Mat) (k : ℕ) : M3 := fun i j => M (k + i) (k + j)

/-- what the visualiser remembers about the ground truth: the poses of the path and the sums -/
structure GtMem where
  poses : List (Stamp × PoseMsg)
  sums : Sums

/-- `publish_groundtruth`: the new memory, and what is shown: the pose of the ground truth, the path, the numbers. `none`: an exception of the stamp, or a covariance that cannot be
inverted. -/
noncomputable def publishGt (T : Truth) (m : GtMem) (s : State) : Option (GtMem × Option ((Stamp × PoseMsg) × List (Stamp × PoseMsg) × Shown)) :=
  (tOff s).bind fun off => (imuOf s).bind fun x =>
    match truthAt T s.ts off with
    | none => some (m, none)
    | some (t, g) =>
      (stampOf t).bind fun st => (getMarginal s [(imuUid, .q), (imuUid, .p)]).bind fun M =>
        (errsOf x.1 g (blk3 M.a 0) (blk3 M.a 3)).map fun e =>
          let ps := m.poses ++ [(st, ⟨gtQuat g, gtPos g⟩)]
          let S := m.sums.add e
          (⟨ps, S⟩, some ((st, ⟨gtQuat g, gtPos g⟩), pathOf ps, shownOf S e))

/-- a whole run: the calls of `publish_groundtruth` one after the other; what was shown at each call at which there was a ground truth -/
noncomputable def runGt (T : Truth) : GtMem → List State → Option (GtMem × List Shown)
  | m, [] => some (m, [])
  | m, s :: ss => (publishGt T m s).bind fun r => (runGt T r.1 ss).map fun r' => (r'.1, (r.2.map fun o => o.2.2).toList ++ r'.2)

/-! ## live_align_trajectory -/

/-- one pose of the ground truth in the frame of the estimate, live_align_trajectory.cpp:118-121 -/
noncomputable def liveBack (a : M3 × V3 × ℝ) (x : Pose) : Pose :=
  ⟨(1 / a.2.2) • a.1.transpose.mulVec (x.p - a.2.1), quatMul x.q (rot2quat a.1)⟩

/-- `align_and_publish`, live_align_trajectory.cpp:76-143: the times and poses published; outer `none`: an assertion fails or an `.at` throws, inner `none`: nothing is published. -/
noncomputable def liveAlign (svd : M3 → M3 × V3 × M3) (m : Eval.Method) (gt : Traj Pose M3) (times : List ℝ) (poses : List Pose) :
    Option (Option (List (ℝ × Pose))) :=
  (performAssociation (0 : M3) 0 0.02 ⟨times, poses, [], []⟩ ⟨gt.times, gt.poses, [], []⟩).bind fun EG =>
    if EG.1.poses.length < 3 then some none
    else (alignTrajectory svd EG.1.poses EG.2.poses m (-1)).map fun a =>
      some (pathOf ((EG.2.times.zip EG.2.poses).map fun x => (x.1, liveBack a x.2)))

end Verif.Ros
