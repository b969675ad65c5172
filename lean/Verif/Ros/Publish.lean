import Verif.Prop.Model

/-!
# Model of what is published: ov_msckf/src/ros/ROS2Visualizer.cpp and ROSVisualizerHelper.{h,cpp} (the same in ROS1Visualizer.cpp)

Line numbers are those of ROS2Visualizer.cpp. Whether there are subscribers only decides if a message is sent. Stamps that are the wall clock (`now()`) are left out, and so are point clouds of features, images and printing.
-/

set_option autoImplicit false
open Classical

namespace Verif.Ros

open Verif Verif.Types Verif.St Verif.Prop_

/-- `builtin_interfaces/Time` -/
structure Stamp where
  sec : ℕ
  nsec : ℕ

/-- `get_time_from_seconds`, ROSVisualizerHelper.h:103-118. `none`: the exception. The seconds are 32 bits and wrap around. -/
noncomputable def stampOf (x : ℝ) : Option Stamp :=
  if ⌊x⌋ < 0 ∨ 2 ^ 32 - 1 < ⌊x⌋ then none
  else
    let sec := ⌊x⌋.toNat
    let nsec := (round ((x - sec) * 10 ^ 9)).toNat
    some ⟨(sec + nsec / 10 ^ 9) % 2 ^ 32, nsec % 10 ^ 9⟩

/-- `geometry_msgs/Pose`, and `geometry_msgs/Transform` -/
structure PoseMsg where
  q : Quat
  p : V3

/-- the two loops that copy a 6x6 block to the array of a message, 608-612, 314-323 -/
def copy36 (M : Mat) : ℕ → ℝ :=
  (List.range 6).foldl (fun a r => (List.range 6).foldl (fun a c => Function.update a (6 * r + c) (M r c)) a) fun _ => 0

/-- `geometry_msgs/PoseWithCovarianceStamped` -/
structure PoseCovMsg where
  stamp : Stamp
  pose : PoseMsg
  cov : ℕ → ℝ

/-- the message of `publish_state`, 591-613 -/
noncomputable def statePose (s : State) : Option PoseCovMsg :=
  (tOff s).bind fun off => (imuOf s).bind fun x => (stampOf (s.ts + off)).bind fun st => (getMarginal s [(imuUid, .p), (imuUid, .q)]).map fun M => ⟨st, ⟨x.1.q, x.1.p⟩, copy36 M.a⟩

/-- `for (i = 0; i < size; i += k + 1)` over a list: the first element, then skip `k` -/
def every {α : Type} (k : ℕ) : List α → List α
  | [] => []
  | a :: t => a :: every k (t.drop k)
termination_by l => l.length
decreasing_by simp [List.length_drop]

/-- the path, 627-632: every element, or every second, … so that the message stays small -/
def pathOf {α : Type} (poses : List α) : List α := every (poses.length / 16384) poses

/-- what the visualiser remembers: `last_visualization_timestamp` and `poses_imu` -/
structure Pub where
  last : ℝ
  poses : List (Stamp × PoseMsg)

/-- `visualize` and `publish_state`, 221-267, 591-644: the new memory, and the pose and path if they are published. `ini` is `_app->initialized()`. -/
noncomputable def visualize (P : Pub) (ini : Bool) (s : State) : Option (Pub × Option (PoseCovMsg × List (Stamp × PoseMsg))) :=
  if P.last = s.ts ∧ ini = true then some (P, none)
  else if ini = false then some ({ P with last := s.ts }, none)
  else (statePose s).map fun m => (⟨s.ts, P.poses ++ [(m.stamp, m.pose)]⟩, some (m, pathOf (P.poses ++ [(m.stamp, m.pose)])))

/-- `nav_msgs/Odometry` -/
structure OdomMsg where
  stamp : Stamp
  pose : PoseMsg
  poseCov : ℕ → ℝ
  lin : V3
  ang : V3
  twistCov : ℕ → ℝ

/-- `Phi`, 309-312 -/
def swap12 : Mat := Mat.setBlock 6 6 6 6 Mat.one (Mat.setBlock 3 0 3 3 Mat.one (Mat.setBlock 0 3 3 3 Mat.one fun _ _ => 0))

/-- the odometry message, 285-324 -/
noncomputable def odomOf (t : ℝ) (o : FastOut) : Option OdomMsg :=
  let C := Mat.mul 12 (Mat.mul 12 swap12 o.cov) (Mat.tr swap12)
  (stampOf t).map fun st => ⟨st, ⟨o.q, o.p⟩, copy36 C, o.vI, o.w, copy36 fun r c => C (r + 6) (c + 6)⟩

/-- `get_stamped_transform_from_pose`, ROSVisualizerHelper.cpp:128-151 (69-89) -/
def transOf (q : Quat) (p : V3) (flip : Bool) : PoseMsg := ⟨q, if flip then -((quat2Rot q).transpose.mulVec p) else p⟩

/-- the value of a pose object -/
def poseOf (s : State) (u : ℕ) : Option (Quat × V3) :=
  match (s.obj u).val with
  | .pose q p => some (q, p)
  | _ => none

/-- `visualize_odometry`, 269-350: the new cache of the propagator and, if published, the odometry, the transform of the body and those of the cameras. `initT` is `initialized_time()`. Camera `i` has object `7 + 2 i`. -/
noncomputable def visualizeOdometry (N : Noise) (buf : List Imu.Reading) (cache : Option Cache) (ini : Bool) (initT : ℝ) (s : State) (t : ℝ) : Option (Option Cache × Option (OdomMsg × PoseMsg × List (Option PoseMsg))) :=
  if ini = false ∨ t - initT < 1 then some (cache, none)
  else (fastPropagate N buf cache s t).bind fun r => match r.2 with
    | none => some (some r.1, none)
    | some o => (odomOf t o).map fun m => (some r.1, some (m, transOf o.q o.p false, (List.range s.opts.numCams).map fun i => (poseOf s (7 + 2 * i)).map fun c => transOf c.1 c.2 true))

/-- `sensor_msgs/CameraInfo`: model, `d` and `k` -/
structure CamInfo where
  fisheye : Bool
  d : List ℝ
  k : List ℝ

/-- what is published for loop closure -/
structure LoopMsg where
  stamp : Stamp
  pose : PoseMsg
  extr : PoseMsg
  cam : CamInfo
  points : List (V3 × List ℝ)

/-- one point and its channel, 908-935. The values of the messages are 32-bit floats, here reals -/
noncomputable def loopPoint (uvd : ℕ → Option V3) (e : ℕ × V3) : V3 × List ℝ :=
  let z := (uvd e.1).getD 0
  (e.2, [0, 0, z 0, z 1, (e.1 : ℝ)])

/-- the value of a vector object -/
def vecOf (s : State) (u : ℕ) : Option (ℕ → ℝ) :=
  match (s.obj u).val with
  | .vec _ x => some x
  | _ => none

/-- `publish_loopclosure_information`, 833-947, without the depth images: `t1`, `pos` and `uvd` are the active tracks, `t2` the time of the active image, `fish` the model of camera 0. `some none`: nothing is published. -/
noncomputable def loopClosure (s : State) (fish : Bool) (t1 t2 : ℝ) (pos : List (ℕ × V3)) (uvd : ℕ → Option V3) : Option (Option LoopMsg) :=
  if t1 = -1 then some none
  else match s.clones.find? fun e => decide (e.1 = t1) with
    | none => some none
    | some e => if t1 ≠ t2 then some none
      else (stampOf t1).bind fun st => (poseOf s e.2).bind fun I => (poseOf s 7).bind fun C => (vecOf s (intrUid 0)).map fun c =>
        some ⟨st, ⟨I.1, I.2⟩, ⟨C.1, -((quat2Rot C.1).transpose.mulVec C.2)⟩, ⟨fish, [c 4, c 5, c 6, c 7], [c 0, 0, c 2, 0, c 1, c 3, 0, 0, 1]⟩, pos.map (loopPoint uvd)⟩

end Verif.Ros
