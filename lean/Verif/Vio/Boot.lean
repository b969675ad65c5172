import Verif.Vio.Loop
import Verif.Init.Model

/-!
# Model of the manager from power on

Sources: `ov_msckf/src/core/VioManagerHelper.cpp` (`initialize_with_gt`, `try_to_initialize`), `ov_msckf/src/core/VioManager.cpp` (`feed_measurement_imu`, `track_image_and_update` before and after initialisation),
`ov_init/src/init/InertialInitializer.cpp` (`initialize`), `ov_init/src/dynamic/DynamicInitializer.cpp` (up to line 80, and what it returns).

Simplifications: `use_multi_threading_subs` is off, so `try_to_initialize` waits for its thread (VioManagerHelper.cpp:180-181) and the queue of images that came meanwhile is empty; what the dynamic initialiser computes after its checks is an
input (`dyn`); the number of features the trackers look for (`set_num_features`, line 124) is in `Wanted.lean`, the trackers being an input too.
-/

set_option autoImplicit false
open Classical

namespace Verif.Vio

open Verif Verif.Types Verif.St Verif.Imu Verif.Prop_ Verif.Feat Verif.Disp

/-- options: those of the filter, of the initialisers, `zupt_max_velocity`, `init_max_features`, and the dynamic initialiser after its checks (DynamicInitializer.cpp:83-1079): `none` if it returns false and has written nothing, an IMU state
without covariance if it returns false after writing the IMU state (lines 1012-1016), an IMU state and a covariance if it succeeds. -/
structure BCfg where
  F : FCfg
  P : Init.Params
  maxVel : ℝ
  maxFeat : ℕ
  dyn : DB ℝ Uv → List Reading → Option (Imu16 × Option Mat)

/-- the manager with `is_initialized_vio`, `thread_init_success`, the readings of the initialiser and `startup_time`. -/
structure Boot where
  x : FMgr
  inited : Bool
  success : Bool
  ibuf : List Reading
  startup : ℝ

/-- `VioManager::feed_measurement_imu`, VioManager.cpp:166-189: before initialisation the propagator and the initialiser get the reading and keep a time before it, the zero velocity updater gets nothing. -/
noncomputable def bootImu (B : BCfg) (b : Boot) (r : Reading) : Option Boot :=
  if b.inited then some { b with x := { b.x with m := feedImu B.F.mgr b.x.m r } }
  else do
    let off ← tOff b.x.m.st
    let oldest := r.t - B.P.windowTime + off - 0.10
    some { b with x := { b.x with m := { b.x.m with buf := feed b.x.m.buf r oldest } }, ibuf := feedInit b.ibuf r oldest }

/-- what an initialiser returns: false; false with the IMU state overwritten; true with time, IMU state and covariance. -/
inductive Out where
  | no
  | bad (x : Imu16)
  | ok (t : ℝ) (x : Imu16) (C : Mat)

/-- `DynamicInitializer::initialize`, DynamicInitializer.cpp:44-80, then `dyn`; the time is that of the newest measurement (line 901). -/
noncomputable def dynInit (B : BCfg) (db : DB ℝ Uv) (buf : List Reading) : Option (Out × DB ℝ Uv × List Reading) :=
  let newest := Init.newestCam db
  let oldest := newest - B.P.windowTime
  if newest < 0 ∨ oldest < 0 then some (.no, db, buf)
  else do
    let db1 ← cleanupMeasurements db oldest
    let haveOld := match buf with
      | [] => false
      | r :: _ => decide (r.t < oldest + B.P.camimuDt)
    let buf1 := Init.dropOldImu (oldest + B.P.camimuDt) buf
    if (db1.length : ℝ) < 0.75 * B.maxFeat then some (.no, db1, buf1)
    else if buf1.length < 2 ∨ haveOld = false then some (.no, db1, buf1)
    else match B.dyn db1 buf1 with
      | none => some (.no, db1, buf1)
      | some (x, none) => some (.bad x, db1, buf1)
      | some (x, some C) => some (.ok newest x C, db1, buf1)

/-- `InertialInitializer::initialize`, InertialInitializer.cpp:79-167. -/
noncomputable def runInit (B : BCfg) (db : DB ℝ Uv) (buf : List Reading) (wait : Bool) : Option (Out × DB ℝ Uv × List Reading) := do
  let (c, db1, buf1) ← Init.choose B.P db buf wait
  match c with
  | .fail => some (.no, db1, buf1)
  | .static => match Init.staticInit B.P buf1 wait with
    | none => some (.no, db1, buf1)
    | some r => some (.ok r.time r.imu r.cov, db1, buf1)
  | .dynamic => dynInit B db1 buf1

/-- the filter is started, VioManagerHelper.cpp:40-65 and 107-125: IMU state, covariance and time are set, `startup_time` too, and older measurements are removed from the databases. -/
noncomputable def start (b : Boot) (t : ℝ) (x : Imu16) (C : Mat) : Option Boot := do
  let s1 ← setInit (setImu b.x.m.st x x) ⟨15, 15, C⟩ [(imuUid, .self)]
  let db ← cleanupMeasurements b.x.m.db t
  let ar ← (match b.x.aruco with
    | none => some none
    | some a => (cleanupMeasurements a t).map some)
  some { b with x := { b.x with m := { b.x.m with st := { s1 with ts := t }, db := db }, aruco := ar }, startup := t }

/-- the covariance of `initialize_with_gt`, VioManagerHelper.cpp:49-52. -/
noncomputable def gtCov : Mat := fun i j =>
  if i = j then (if i < 3 then 0.017 ^ 2 else if i < 6 then 0.05 ^ 2 else if i < 9 then 0.01 ^ 2 else 0.02 ^ 2) else 0

/-- `VioManager::initialize_with_gt`, VioManagerHelper.cpp:40-76. -/
noncomputable def withGt (b : Boot) (t : ℝ) (x : Imu16) : Option Boot := (start b t x gtCov).map fun b' => { b' with inited := true }

/-- the body of the thread of `try_to_initialize`, VioManagerHelper.cpp:93-176. -/
noncomputable def tryInit (B : BCfg) (b : Boot) : Option Boot := do
  let (out, db, ibuf) ← runInit B b.x.m.db b.ibuf B.F.mgr.Z.isNone
  let b1 : Boot := { b with x := { b.x with m := { b.x.m with db := db } }, ibuf := ibuf }
  match out with
  | .no => some b1
  | .bad x => some { b1 with x := { b1.x with m := { b1.x.m with st := setImu b1.x.m.st x x } } }
  | .ok t x C => do
    let b2 ← start b1 t x C
    some { b2 with success := true, x := { b2.x with m := { b2.x.m with moved := b2.x.m.moved || decide (norm3 x.v > B.maxVel) } } }

/-- `VioManager::track_image_and_update`, VioManager.cpp:253-320, with `try_to_initialize`, VioManagerHelper.cpp:78-188: the tag tracker and the zero velocity updater are used only after initialisation; the image that finds the initialisation
successful is the first one processed. -/
noncomputable def bootShot (lib : Lib) (B : BCfg) (b : Boot) (S : Shot) : Option Boot :=
  if b.inited then (frame lib { B.F with startup := b.startup } b.x (shotImg b.x S)).map fun y => { b with x := y }
  else
    let db := trackAll b.x.m.db S.t S.feats
    let b1 : Boot := { b with x := { b.x with m := { b.x.m with db := db } } }
    if b.success then
      (frameUpdate lib { B.F with startup := b.startup } b1.x ⟨db, b.x.aruco, S.t, S.cams, S.norm, S.stale⟩).map fun y => { b with x := y, inited := true }
    else tryInit B b1

noncomputable def LEv.boot (lib : Lib) (B : BCfg) (b : Boot) : LEv → Option Boot
  | .imu r => bootImu B b r
  | .shot S => bootShot lib B b S

noncomputable def runB (lib : Lib) (B : BCfg) : Boot → List LEv → Option Boot
  | b, [] => some b
  | b, e :: es => (e.boot lib B b).bind fun y => runB lib B y es

end Verif.Vio
