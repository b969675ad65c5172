import Verif.Vio.Boot
import Verif.Sim.Points
import Verif.Track.Ids

/-!
# Model of a simulated run: ov_msckf/src/run_simulation.cpp, `VioManager::feed_measurement_simulation` and ov_core/src/track/TrackSIM.cpp

Not modelled: the perturbation of the parameters, the visualiser.
-/

set_option autoImplicit false
open Classical

namespace Verif.Vio

open Verif Verif.Types Verif.St Verif.Imu Verif.Prop_ Verif.Feat Verif.Disp

/-- what is simulated: the streams, the map of features, the cameras; `maxAruco`, `undist`: the tracker's number of tags and normalisation of a pixel (`undistort_cv`) for each camera -/
structure World where
  c : Sim.SimCfg
  P : Sim.PCfg
  cams : List Sim.SCam
  feats : List (ℕ × V3)
  maxAruco : ℕ
  undist : ℕ → Uv → Uv

/-- the random numbers of a round of the main loop, the order in which the hash map of features is visited for each camera; `norm`, `stale` as in `Shot` -/
structure Rnd where
  dbg : V3
  dba : V3
  nw : V3
  na : V3
  ord : ℕ → List (ℕ × V3)
  nz : ℕ → ℕ → Cam.V2
  norm : ℕ → ℕ → ℝ → Tri.V2
  stale : ℕ → V3

/-- the features of a frame (Simulator.cpp:411-447) as `TrackSIM::feed_measurement_simulation` stores them, TrackSIM.cpp:30-78: pose `R`, `p`, reported time `t` -/
noncomputable def simShot (W : World) (R : M3) (p : V3) (t : ℝ) (r : Rnd) : Shot where
  t := t
  cams := List.range W.cams.length
  feats := (W.cams.zipIdx.map fun k => (Sim.camFeats W.P k.1 k.2 R p (r.ord k.2) (r.nz k.2)).map fun x =>
    (Track.simId W.maxAruco x.1, k.2, ((x.2 0, x.2 1) : Uv), W.undist k.2 (x.2 0, x.2 1))).flatten
  tags := []
  norm := r.norm
  stale := r.stale

/-- the buffer before the first image: `buffer_timecam = -1`, run_simulation.cpp:138-141 -/
noncomputable def noShot : Shot := ⟨-1, [], [], [], fun _ _ _ => 0, fun _ => 0⟩

/-- a reading, if there is one, is fed, run_simulation.cpp:147-155 -/
def onImu : Option Sim.Out → List LEv
  | some (.imu rd _ _) => [.imu rd]
  | _ => []

/-- an image, if there is one: the buffered image is fed, if there is one, and the new one buffered, run_simulation.cpp:157-175. What is fed, the buffer. The pose of the image is the one at the time of the camera's clock (Simulator.cpp:394-411). -/
noncomputable def onCam (W : World) (r : Rnd) (buf : Shot) (k : Sim.SimSt × Option Sim.Out) : List LEv × Shot :=
  match k.2, Sim.getPose W.c.cps k.1.cam with
  | some (.cam t _), some (R, p) => (if buf.t ≠ -1 then [.shot buf] else [], simShot W R p t r)
  | _, _ => ([], buf)

/-- the main loop, run_simulation.cpp:144-190: what is fed to the estimator. One element of the list for each round. -/
noncomputable def simEvents (W : World) : List Rnd → Sim.SimSt → Shot → List LEv
  | [], _, _ => []
  | r :: rs, s, buf =>
    if s.run = false then []
    else
      let i := Sim.nextImu W.c s r.dbg r.dba r.nw r.na
      let k := Sim.nextCam W.c i.1
      onImu i.2 ++ ((onCam W r buf k).1 ++ simEvents W rs k.1 (onCam W r buf k).2)

/-- the simulator after the main loop -/
noncomputable def simState (W : World) : List Rnd → Sim.SimSt → Sim.SimSt
  | [], s => s
  | r :: rs, s => if s.run = false then s else simState W rs (Sim.nextCam W.c (Sim.nextImu W.c s r.dbg r.dba r.nw r.na).1).1

/-- the first simulated image replaces the tracker, with its database, and the zero velocity updater, with its buffer, VioManager.cpp:199-214 -/
noncomputable def recast (x : FMgr) : FMgr := { x with m := { x.m with db := [], zbuf := [], zmem := ⟨0, 0, none⟩ } }

/-- the estimator on what it is fed, VioManager.cpp:166-189, 191-258; the filter runs -/
noncomputable def runS (lib : Lib) (F : FCfg) : FMgr → List LEv → Option FMgr
  | x, [] => some x
  | x, .imu r :: es => runS lib F { x with m := feedImu F.mgr x.m r } es
  | x, .shot S :: es => runL lib F (recast x) (.shot S :: es)

/-- `run_simulation`, run_simulation.cpp:110-190, from the system at power on and the simulator after its constructor; `none`: the program ends with an error -/
noncomputable def runSimulation (lib : Lib) (B : BCfg) (b : Boot) (W : World) (t0 : ℝ) (bg ba : V3) (rs : List Rnd) : Option FMgr :=
  let s := Sim.simInit W.c t0 bg ba
  match Sim.getState W.c s (t0 + 1 / W.c.freqImu) with
  | none => none
  | some tr => (withGt b (tr.t - W.c.camDt) ⟨tr.q, tr.p, tr.v, tr.bg, tr.ba⟩).bind fun b' => runS lib { B.F with startup := b'.startup } b'.x (simEvents W rs s noShot)

end Verif.Vio
