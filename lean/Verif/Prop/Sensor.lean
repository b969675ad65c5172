import Verif.Prop.Model

/-! # Model of the simulated IMU (Simulator.cpp) and of the loading of the IMU intrinsics (VioManagerOptions.h) -/

namespace Verif.Prop_

open Verif Verif.Types Verif.St Verif.Imu Matrix

/-- `Simulator::get_next_imu`, Simulator.cpp:341-385, the noise-free reading (the random numbers are zero) for true angular
velocity `w` and global acceleration `aG` at orientation `R`, biases `bg`, `ba`. `Dw.colPivHouseholderQr().solve(I)` is the
matrix inverse. -/
noncomputable def simReading (kalibr : Bool) (c : Cal) (g : V3) (t : ℝ) (R : M3) (aG w bg ba : V3) : Reading :=
  let aI := R.mulVec (aG + g)
  let Tw := (Dm kalibr c.dw)⁻¹
  let Ta := (Dm kalibr c.da)⁻¹
  { t := t
    wm := (Tw * (quat2Rot c.qw).transpose).mulVec w + (Tm c.tg).mulVec aI + bg
    am := (Ta * (quat2Rot c.qa).transpose).mulVec aI + ba }

/-- `vec_dw << …` for the KALIBR and RPNG models, VioManagerOptions.h:342-348. -/
def vecD (kalibr : Bool) (D : M3) : Vect :=
  if kalibr then fun i => match i with
    | 0 => D 0 0 | 1 => D 1 0 | 2 => D 2 0 | 3 => D 1 1 | 4 => D 2 1 | 5 => D 2 2 | _ => 0
  else fun i => match i with
    | 0 => D 0 0 | 1 => D 0 1 | 2 => D 1 1 | 3 => D 0 2 | 4 => D 1 2 | 5 => D 2 2 | _ => 0

/-- `vec_tg << …`, VioManagerOptions.h:349. -/
def vecT (T : M3) : Vect := fun i => match i with
  | 0 => T 0 0 | 1 => T 1 0 | 2 => T 2 0 | 3 => T 0 1 | 4 => T 1 1 | 5 => T 2 1 | 6 => T 0 2 | 7 => T 1 2 | 8 => T 2 2 | _ => 0

/-- the intrinsics loaded from the configuration, VioManagerOptions.h:307-351. -/
noncomputable def loadCal (kalibr : Bool) (Tw Ta Tg RIA RIG : M3) : Cal :=
  { dw := vecD kalibr Tw⁻¹, da := vecD kalibr Ta⁻¹, tg := vecT Tg, qw := rot2quat RIG.transpose, qa := rot2quat RIA.transpose }

/-- the default value of `_calib_imu_dw` and `_calib_imu_da` in the `State` constructor, State.cpp:45-61 (the same vector for both
models). -/
def defaultD : Vect := fun i => match i with
  | 0 => 1 | 3 => 1 | 5 => 1 | _ => 0

end Verif.Prop_
