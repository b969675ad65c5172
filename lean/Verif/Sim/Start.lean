import Verif.Sim.Simulator

/-! # Model of the choice of the start time in the constructors of the two simulators -/

set_option autoImplicit false

namespace Verif.Sim

open Verif Verif.Types Verif.St Verif.Imu Verif.Prop_ Matrix

/-- The start time of `Simulator::Simulator`, ov_msckf/src/sim/Simulator.cpp:65-110, and of `SimulatorInit::SimulatorInit`,
ov_init/src/sim/SimulatorInit.cpp:65-109 (the same code): the pose at the spline's start time `ts` (`get_start_time`) has to exist,
then the search `findMove` begins there with distance zero. `none` is `std::exit` or the cut-off of the loop after `n` rounds. -/
noncomputable def simStart (c : SimCfg) (thr : ℝ) (n : ℕ) (ts : ℝ) : Option ℝ :=
  match getPose c.cps ts with
  | none => none
  | some (_, p) => findMove c thr n ts 0 p

end Verif.Sim
