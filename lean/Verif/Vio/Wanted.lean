import Verif.Vio.Boot

/-!
# Model of how many features a tracker looks for

Sources: `ov_msckf/src/core/VioManager.cpp:131-145` (constructor), `ov_msckf/src/core/VioManagerHelper.cpp:93-176` (`try_to_initialize`), `ov_core/src/track/TrackBase.h:149-152` (`set_num_features`).

The number (`TrackBase::num_features`) is carried beside the manager of `Boot.lean`; the functions below are those of `Boot.lean` with it. Simplifications: those of `Boot.lean`; the division of two doubles is exact.
-/

set_option autoImplicit false
open Classical

namespace Verif.Vio

open Verif Verif.Types Verif.St Verif.Imu Verif.Prop_ Verif.Feat Verif.Disp

/-- the options: those of the manager (with `init_max_features`), `num_pts` and `num_cameras`. -/
structure WCfg where
  B : BCfg
  numPts : ℤ
  cams : ℕ

/-- the number the trackers are made with, VioManager.cpp:135-145. -/
def wanted0 (W : WCfg) : ℤ := ⌊((W.B.maxFeat : ℤ) : ℚ) / (W.cams : ℚ)⌋

/-- the number set when the initialisation has succeeded, VioManagerHelper.cpp:124. -/
def wantedRun (W : WCfg) : ℤ := ⌊(W.numPts : ℚ) / (W.cams : ℚ)⌋

/-- the body of the thread of `try_to_initialize`, VioManagerHelper.cpp:93-176 (`tryInit` with the number). -/
noncomputable def tryInitW (W : WCfg) (b : Boot) (n : ℤ) : Option (Boot × ℤ) := do
  let (out, db, ibuf) ← runInit W.B b.x.m.db b.ibuf W.B.F.mgr.Z.isNone
  let b1 : Boot := { b with x := { b.x with m := { b.x.m with db := db } }, ibuf := ibuf }
  match out with
  | .no => some (b1, n)
  | .bad x => some ({ b1 with x := { b1.x with m := { b1.x.m with st := setImu b1.x.m.st x x } } }, n)
  | .ok t x C => do
    let b2 ← start b1 t x C
    some ({ b2 with success := true, x := { b2.x with m := { b2.x.m with moved := b2.x.m.moved || decide (norm3 x.v > W.B.maxVel) } } }, wantedRun W)

/-- `VioManager::initialize_with_gt`, VioManagerHelper.cpp:40-76 (`withGt` with the number, which it does not set). -/
noncomputable def withGtW (b : Boot) (n : ℤ) (t : ℝ) (x : Imu16) : Option (Boot × ℤ) := (withGt b t x).map fun b' => (b', n)

/-- one reading or image (`LEv.boot` with the number): only `try_to_initialize` sets it. -/
noncomputable def LEv.wanted (lib : Lib) (W : WCfg) (b : Boot) (n : ℤ) : LEv → Option (Boot × ℤ)
  | .imu r => (bootImu W.B b r).map fun b' => (b', n)
  | .shot S =>
    if b.inited then (bootShot lib W.B b S).map fun b' => (b', n)
    else if b.success then (bootShot lib W.B b S).map fun b' => (b', n)
    else tryInitW W { b with x := { b.x with m := { b.x.m with db := trackAll b.x.m.db S.t S.feats } } } n

/-- a run of the manager with the number. -/
noncomputable def runW (lib : Lib) (W : WCfg) : Boot × ℤ → List LEv → Option (Boot × ℤ)
  | p, [] => some p
  | p, e :: es => (e.wanted lib W p.1 p.2).bind fun q => runW lib W q es

end Verif.Vio
