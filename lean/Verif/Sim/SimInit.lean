import Verif.Sim.Simulator

/-! # Model of the sensor streams of `ov_init/src/sim/SimulatorInit.cpp`, the simulator of the initialisation tests -/

set_option autoImplicit false

namespace Verif.SimI

open Verif Verif.Types Verif.St Verif.Imu Verif.Prop_ Verif.Sim Matrix

/-- The random numbers of one call of `get_next_imu`, already scaled: the measurement noise and the step of the biases. -/
structure Draw where
  nw : V3
  na : V3
  dbg : V3
  dba : V3

/-- What a successful call returns; `x`, `bg`, `ba` are bookkeeping: the numbers drawn and the biases that were added. -/
inductive OutI
  | imu (r : Reading) (x : Draw) (bg ba : V3)
  | cam (reported at_ : ℝ)

/-- The constructor after the start time `t0` has been found, SimulatorInit.cpp:108-119 and 142-145, with
`perturb_parameters` (203-243; everything but the biases is commented out there): `per` are the biases it draws, gyroscope first, if
`sim_do_perturbation` is on. The history is written before. -/
noncomputable def initI (c : SimCfg) (t0 : ℝ) (per : Option (V3 × V3)) : SimSt :=
  { imu := t0, cam := t0, run := true, skipped := false
    bg := match per with | some p => p.1 | none => 0
    ba := match per with | some p => p.2 | none => 0
    hist := [(t0 - 1 / c.freqImu, 0, 0), (t0, 0, 0)] }

open Classical in
/-- `SimulatorInit::get_next_imu`, SimulatorInit.cpp:290-348: no IMU intrinsics; the biases move after the reading is made and the
moved biases enter the history under the reading's time. -/
noncomputable def nextImuI (c : SimCfg) (s : SimSt) (x : Draw) : SimSt × Option OutI :=
  if s.cam + 1 / c.freqCam < s.imu + 1 / c.freqImu then (s, none)
  else
    let t := s.imu + 1 / c.freqImu
    let s1 := { s with imu := t }
    match getAcceleration c.cps t with
    | none => ({ s1 with run := false }, none)
    | some (R, _, w, _, _, a) =>
      ({ s1 with bg := s1.bg + x.dbg, ba := s1.ba + x.dba, hist := s1.hist ++ [(t, s1.bg + x.dbg, s1.ba + x.dba)] },
        some (.imu ⟨t, w + s1.bg + x.nw, R.mulVec (a + c.g) + s1.ba + x.na⟩ x s1.bg s1.ba))

open Classical in
/-- `SimulatorInit::get_next_cam`, SimulatorInit.cpp:351-374, without the feature measurements. -/
noncomputable def nextCamI (c : SimCfg) (s : SimSt) : SimSt × Option OutI :=
  if s.imu + 1 / c.freqImu < s.cam + 1 / c.freqCam then (s, none)
  else
    let t := s.cam + 1 / c.freqCam
    let s1 := { s with cam := t }
    match getPose c.cps t with
    | none => ({ s1 with run := false }, none)
    | some _ => (s1, some (.cam (t - c.camDt) t))

/-- one call by the user: `some` with the numbers drawn for `get_next_imu`, `none` for `get_next_cam`. -/
noncomputable def callI (c : SimCfg) (s : SimSt) : Option Draw → SimSt × Option OutI
  | some x => nextImuI c s x
  | none => nextCamI c s

/-- any sequence of calls: the final state and what they returned, in order. -/
noncomputable def callsI (c : SimCfg) : SimSt → List (Option Draw) → SimSt × List OutI
  | s, [] => (s, [])
  | s, k :: ks =>
    let (s1, o) := callI c s k
    let (s2, os) := callsI c s1 ks
    (s2, o.toList ++ os)

/-- `SimulatorInit::get_state`, SimulatorInit.cpp:245-287, is word for word `Simulator::get_state`. -/
noncomputable def getStateI (c : SimCfg) (s : SimSt) (t : ℝ) : Option Truth :=
  match getVelocity c.cps t, findBias t s.hist with
  | some (R, p, _, v), some (x, y) =>
    let lam := (t - x.1) / (y.1 - x.1)
    some ⟨t, rot2quat R, p, v, (1 - lam) • x.2.1 + lam • y.2.1, (1 - lam) • x.2.2 + lam • y.2.2⟩
  | _, _ => none

end Verif.SimI
