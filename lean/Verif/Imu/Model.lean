import Verif.Quat.Model
import Mathlib.Data.List.Basic

/-!
# Model of the IMU buffer and of the selection of readings for an interval

Sources: `ov_msckf/src/state/Propagator.{h,cpp}`, `ov_init/src/utils/helper.h`, `ov_init/src/init/InertialInitializer.cpp`.
Time stamps and readings are real numbers.
-/

open Classical

namespace Verif.Imu

open Verif

/-- `ov_core::ImuData`, ov_core/src/utils/sensor_data.h:34-47. -/
structure Reading where
  t : ℝ
  wm : V3
  am : V3

/-- `Propagator::interpolate_data`, Propagator.h:154-164 (same code: ov_init/src/utils/helper.h:45-52). -/
noncomputable def interp (a b : Reading) (t : ℝ) : Reading :=
  let l := (t - a.t) / (b.t - a.t)
  ⟨t, (1 - l) • a.wm + l • b.wm, (1 - l) • a.am + l • b.am⟩

/-- "If the added IMU message doesn't end exactly at the camera time …", Propagator.cpp:337-342. `acc` is non-empty at both
uses. -/
noncomputable def endAt (a b : Reading) (t1 : ℝ) (acc : List Reading) : List Reading :=
  if (acc.getLast?.map Reading.t) = some t1 then acc else acc ++ [interp a b t1]

/-- The loop of `select_imu_readings`, Propagator.cpp:284-345 (helper.h:77-108 is the same code): `prev` is the reading at
`i-1` (`none` for `i == 0`), the list is the buffer from index `i` on, `acc` is `prop_data`. -/
noncomputable def selLoop (t0 t1 : ℝ) : Option Reading → List Reading → List Reading → List Reading
  | prev, a :: b :: rest, acc =>
    if t0 < b.t ∧ a.t < t0 then selLoop t0 t1 (some a) (b :: rest) (acc ++ [interp a b t0])
    else if t0 ≤ a.t ∧ b.t ≤ t1 then selLoop t0 t1 (some a) (b :: rest) (acc ++ [a])
    else if t1 < b.t then
      if t1 < a.t then
        match prev with
        | none => acc
        | some z => endAt a b t1 (acc ++ [interp z a t1])
      else endAt a b t1 (acc ++ [a])
    else selLoop t0 t1 (some a) (b :: rest) acc
  | _, [], acc => acc
  | _, [_], acc => acc

/-- The loop removing zero intervals, Propagator.cpp:370-378 (helper.h:117-122). After `erase(i); i--` the next comparison is
between the new elements `i` and `i+1`, so this is one pass. -/
noncomputable def dropZero : List Reading → List Reading
  | a :: b :: rest => if |b.t - a.t| < 1e-12 then dropZero (b :: rest) else a :: dropZero (b :: rest)
  | l => l

/-- The "stretch" step, Propagator.cpp:358-366. `prop_data` is non-empty, so the buffer has two readings. -/
noncomputable def stretch (buf : List Reading) (t1 : ℝ) (r : List Reading) : List Reading :=
  if (r.getLast?.map Reading.t) = some t1 then r
  else match buf.reverse with
    | z :: y :: _ => r ++ [interp y z t1]
    | _ => r

/-- `Propagator::select_imu_readings`, Propagator.cpp:269-393. -/
noncomputable def select (buf : List Reading) (t0 t1 : ℝ) : List Reading :=
  let r := selLoop t0 t1 none buf []
  if r = [] then [] else dropZero (stretch buf t1 r)

/-- `InitializerHelper::select_imu_readings`, ov_init/src/utils/helper.h:66-126 (no stretch step). -/
noncomputable def selectInit (buf : List Reading) (t0 t1 : ℝ) : List Reading :=
  let r := selLoop t0 t1 none buf []
  if r = [] then [] else dropZero r

/-! ## The buffer -/

/-- `Propagator::clean_old_imu_measurements`, Propagator.h:80-91. -/
noncomputable def cleanOld (oldest : ℝ) (buf : List Reading) : List Reading :=
  if oldest < 0 then buf else buf.filter fun r => decide (¬ r.t < oldest)

/-- `Propagator::feed_imu`, Propagator.h:65-74. -/
noncomputable def feed (buf : List Reading) (m : Reading) (oldest : ℝ) : List Reading := cleanOld (oldest - 0.10) (buf ++ [m])

/-- `InertialInitializer::feed_imu`, InertialInitializer.cpp:55-77. -/
noncomputable def feedInit (buf : List Reading) (m : Reading) (oldest : ℝ) : List Reading :=
  if oldest ≠ -1 then (buf ++ [m]).filter fun r => decide (¬ r.t < oldest) else buf ++ [m]

/-- What can happen to the buffer of the propagator. -/
inductive BufOp where
  | feed (m : Reading) (oldest : ℝ)
  | clean (oldest : ℝ)

noncomputable def BufOp.run (buf : List Reading) : BufOp → List Reading
  | .feed m o => Imu.feed buf m o
  | .clean o => cleanOld o buf

/-- a history of calls. -/
noncomputable def runBuf (buf : List Reading) (ops : List BufOp) : List Reading := ops.foldl BufOp.run buf

/-- a history of `InertialInitializer::feed_imu` calls. -/
noncomputable def runInit (buf : List Reading) (ops : List (Reading × ℝ)) : List Reading :=
  ops.foldl (fun b o => feedInit b o.1 o.2) buf

end Verif.Imu
