import Verif.Sim.Simulator
import Verif.Cam.Model

/-! # Model of the simulated features: `project_pointcloud`, `generate_points`, the map building of the constructor and the feature
part of `get_next_cam` in `ov_msckf/src/sim/Simulator.cpp`. The same parts of `ov_init/src/sim/SimulatorInit.cpp` (the loop at 154-192,
373-408 and the functions from 412 to the end of the file) are the same up to the names of the parameters: there `num` is
`init_max_features`. -/

set_option autoImplicit false

namespace Verif.Sim

open Verif Verif.Types Matrix

/-- One camera of the simulator: model, intrinsics, image size and extrinsics `q_ItoC`, `p_IinC` (Simulator.cpp:463-465).
`undist` is `undistort_cv`, an iterative solver in OpenCV, left open. -/
structure SCam where
  kind : Cam.Kind
  intr : Cam.Intr
  w : ℝ
  h : ℝ
  q : Quat
  p : V3
  undist : Cam.V2 → Cam.V2

/-- The feature map: ids and global positions in order of insertion, and the next id (`featmap`, `id_map`, Simulator.h:159-162). -/
structure FMap where
  feats : List (ℕ × V3)
  next : ℕ

/-- The parameters of the feature simulation: `num_pts`, `sim_max_feature_gen_distance`, `use_stereo`. -/
structure PCfg where
  num : ℕ
  maxD : ℝ
  stereo : Bool

/-- position in the camera frame, Simulator.cpp:473-475. -/
def inCam (k : SCam) (R : M3) (p : V3) (f : V3) : V3 := (quat2Rot k.q).mulVec (R.mulVec (f - p)) + k.p

/-- the depth test and the image bounds test of Simulator.cpp:477-492. -/
def Seen (c : PCfg) (k : SCam) (R : M3) (p : V3) (f : V3) : Prop :=
  let x := inCam k R p f
  let uv := Cam.distort k.kind k.intr ![x 0 / x 2, x 1 / x 2]
  ¬ (x 2 > c.maxD ∨ x 2 < 0.1) ∧ ¬ (uv 0 < 0 ∨ uv 0 > k.w ∨ uv 1 < 0 ∨ uv 1 > k.h)

open Classical in
/-- `Simulator::project_pointcloud`, Simulator.cpp:453-499, over the features in the order `fs` in which the hash map is visited.
The rounding of the pixel to `float` is not modelled. -/
noncomputable def project (c : PCfg) (k : SCam) (R : M3) (p : V3) (fs : List (ℕ × V3)) : List (ℕ × Cam.V2) :=
  fs.filterMap fun f =>
    let x := inCam k R p f.2
    if Seen c k R p f.2 then some (f.1, Cam.distort k.kind k.intr ![x 0 / x 2, x 1 / x 2]) else none

/-- one new point, Simulator.cpp:520-541: `d = (u, v, depth)` are the three random numbers. -/
def newPoint (k : SCam) (R : M3) (p : V3) (d : ℝ × ℝ × ℝ) : V3 :=
  let n := k.undist ![d.1, d.2.1]
  let x : V3 := d.2.2 • ![n 0, n 1, 1]
  R.transpose.mulVec ((quat2Rot k.q).transpose.mulVec (x - k.p)) + p

open Classical in
/-- `Simulator::generate_points`, Simulator.cpp:501-547: `n` points from the stream `rnd` of random numbers (`rnd i` are those used
for the feature with id `i`). `insert` does nothing if the id is in the map. -/
noncomputable def generate (k : SCam) (R : M3) (p : V3) (rnd : ℕ → ℝ × ℝ × ℝ) : ℕ → FMap → FMap
  | 0, m => m
  | n + 1, m => generate k R p rnd n
      { feats := if m.next ∈ m.feats.map Prod.fst then m.feats else m.feats ++ [(m.next, newPoint k R p (rnd m.next))]
        next := m.next + 1 }

open Classical in
/-- The frame loop of the constructor for one camera, Simulator.cpp:172-198 (`dt = 0.25`): `none` if it has not ended after `fuel`
frames. -/
noncomputable def buildCam (c : PCfg) (cps : Poses) (k : SCam) (rnd : ℕ → ℝ × ℝ × ℝ) : ℕ → ℝ → FMap → Option FMap
  | 0, _, _ => none
  | fuel + 1, t, m =>
    match getPose cps t with
    | none => some m
    | some (R, p) =>
      let l := (project c k R p m.feats).length
      buildCam c cps k rnd fuel (t + 0.25) (if l < c.num then generate k R p rnd (c.num - l) m else m)

/-- The map of the constructor, Simulator.cpp:168-204: all cameras in turn, each from the spline's start time. -/
noncomputable def buildMap (c : PCfg) (cps : Poses) (start : ℝ) (rnd : ℕ → ℝ × ℝ × ℝ) (fuel : ℕ) : List SCam → FMap → Option FMap
  | [], m => some m
  | k :: ks, m => (buildCam c cps k rnd fuel start m).bind fun m' => buildMap c cps start rnd fuel ks m'

/-- The features of camera number `i` in one frame, Simulator.cpp:414-446: `ord` is the order in which the hash map is visited,
`nz j` the (scaled) noise of the `j`-th feature. -/
noncomputable def camFeats (c : PCfg) (k : SCam) (i : ℕ) (R : M3) (p : V3) (ord : List (ℕ × V3)) (nz : ℕ → Cam.V2) :
    List (ℕ × Cam.V2) :=
  (((project c k R p ord).take c.num).map fun x => if c.stereo then x else (x.1 + i * ord.length, x.2)).mapIdx
    fun j x => (x.1, x.2 + nz j)

end Verif.Sim
