import Verif.Sim.Spline
import Verif.Prop.Sensor

/-! # Model of the sensor streams of `ov_msckf/src/sim/Simulator.cpp` -/

set_option autoImplicit false

namespace Verif.Sim

open Verif Verif.Types Verif.St Verif.Imu Verif.Prop_ Matrix

/-- The parameters of the simulator that its sensor streams use: the two rates, the camera clock offset, the IMU intrinsics,
gravity and the spline. -/
structure SimCfg where
  freqImu : ℝ
  freqCam : ℝ
  camDt : ℝ
  kalibr : Bool
  cal : Cal
  g : V3
  cps : Poses

/-- The state of the simulator: `timestamp_last_imu`, `timestamp_last_cam`, `is_running`, `has_skipped_first_bias`, the true biases
and their history (Simulator.h:150-202). -/
structure SimSt where
  imu : ℝ
  cam : ℝ
  run : Bool
  skipped : Bool
  bg : V3
  ba : V3
  hist : List (ℝ × V3 × V3)

/-- What a successful call returns: an IMU reading, or a camera frame with its reported time; `bg`, `ba` and `at` are the
bookkeeping of the specification (the biases that were added, and the time on the IMU clock). -/
inductive Out
  | imu (r : Reading) (bg ba : V3)
  | cam (reported at_ : ℝ)

/-- The constructor after the start time `t0` has been found, Simulator.cpp:68-70, 113-125, with initial biases `bg`, `ba` (zero in
the code, Simulator.h:193-196). -/
noncomputable def simInit (c : SimCfg) (t0 : ℝ) (bg ba : V3) : SimSt :=
  { imu := t0, cam := t0, run := true, skipped := false, bg := bg, ba := ba
    hist := [(t0 - 1 / c.freqImu, bg, ba), (t0, bg, ba), (t0 + 1 / c.freqImu, bg, ba)] }

open Classical in
/-- The search for the start time, Simulator.cpp:81-110, for at most `n` rounds: `none` is `std::exit` (no pose any more) or the
cut-off. `d` is `distance`, `p` is `p_IinG_init`. -/
noncomputable def findMove (c : SimCfg) (thr : ℝ) : ℕ → ℝ → ℝ → V3 → Option ℝ
  | 0, _, _, _ => none
  | n + 1, t, d, p =>
    match getPose c.cps t with
    | none => none
    | some (_, q) =>
      let d' := d + norm3 (q - p)
      if d' > thr then some t else findMove c thr n (t + 1 / c.freqCam) d' q

open Classical in
/-- `Simulator::get_next_imu`, Simulator.cpp:311-389. `db` are the six scaled random numbers of the bias step, `nz` those of the
measurement noise (any values). -/
noncomputable def nextImu (c : SimCfg) (s : SimSt) (dbg dba nw na : V3) : SimSt × Option Out :=
  if s.cam + 1 / c.freqCam < s.imu + 1 / c.freqImu then (s, none)
  else
    let t := s.imu + 1 / c.freqImu
    let s1 := { s with imu := t }
    match getAcceleration c.cps t with
    | none => ({ s1 with run := false }, none)
    | some (R, _, w, _, _, a) =>
      let s2 : SimSt := if s1.skipped then
          { s1 with bg := s1.bg + dbg, ba := s1.ba + dba, hist := s1.hist ++ [(t, s1.bg + dbg, s1.ba + dba)] }
        else s1
      let s3 := { s2 with skipped := true }
      let r := simReading c.kalibr c.cal c.g t R a w s3.bg s3.ba
      (s3, some (.imu { r with wm := r.wm + nw, am := r.am + na } s3.bg s3.ba))

open Classical in
/-- `Simulator::get_next_cam`, Simulator.cpp:391-451, without the feature measurements (see `Sim/Points.lean`). -/
noncomputable def nextCam (c : SimCfg) (s : SimSt) : SimSt × Option Out :=
  if s.imu + 1 / c.freqImu < s.cam + 1 / c.freqCam then (s, none)
  else
    let t := s.cam + 1 / c.freqCam
    let s1 := { s with cam := t }
    match getPose c.cps t with
    | none => ({ s1 with run := false }, none)
    | some _ => (s1, some (.cam (t - c.camDt) t))

/-- A call by the user of the simulator. -/
inductive Call
  | imu (dbg dba nw na : V3)
  | cam

/-- one call. -/
noncomputable def call (c : SimCfg) (s : SimSt) : Call → SimSt × Option Out
  | .imu dbg dba nw na => nextImu c s dbg dba nw na
  | .cam => nextCam c s

/-- any sequence of calls: the final state and what they returned, in order. -/
noncomputable def calls (c : SimCfg) : SimSt → List Call → SimSt × List Out
  | s, [] => (s, [])
  | s, k :: ks =>
    let (s1, o) := call c s k
    let (s2, os) := calls c s1 ks
    (s2, o.toList ++ os)

open Classical in
/-- the search for the bounding biases, Simulator.cpp:280-288. -/
noncomputable def findBias (t : ℝ) : List (ℝ × V3 × V3) → Option ((ℝ × V3 × V3) × (ℝ × V3 × V3))
  | x :: y :: r => if x.1 < t ∧ y.1 ≥ t then some (x, y) else findBias t (y :: r)
  | _ => none

/-- The ground truth returned by `get_state`: time, orientation, position, velocity, biases. -/
structure Truth where
  t : ℝ
  q : Quat
  p : V3
  v : V3
  bg : V3
  ba : V3

/-- `Simulator::get_state`, Simulator.cpp:264-309. -/
noncomputable def getState (c : SimCfg) (s : SimSt) (t : ℝ) : Option Truth :=
  match getVelocity c.cps t, findBias t s.hist with
  | some (R, p, _, v), some (x, y) =>
    let lam := (t - x.1) / (y.1 - x.1)
    some ⟨t, rot2quat R, p, v, (1 - lam) • x.2.1 + lam • y.2.1, (1 - lam) • x.2.2 + lam • y.2.2⟩
  | _, _ => none

end Verif.Sim
