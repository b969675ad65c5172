import Verif.Cfg.Model

/-!
# Model of the start of a simulation: `VioManagerOptions::print_and_load_simulation`, VioManagerOptions.h:545-569, and
`main`, run_simulation.cpp:82-109

The program makes the simulator and the estimator before it looks at the success flag; both may end it (C90, C149), which is not
part of this model.
-/

namespace Verif.Cfg

/-- the seeds, VioManagerOptions.h:508-515 and 547-549 -/
def simIntTab : Table ℤ := [("sim_seed_state_init", 0, true), ("sim_seed_preturb", 0, true), ("sim_seed_measurements", 0, true)]

/-- VioManagerOptions.h:518, 550 -/
def simBoolTab : Table Bool := [("sim_do_perturbation", false, true)]

/-- VioManagerOptions.h:521, 551 -/
def simStrTab : Table String := [("sim_traj_path", "src/open_vins/ov_data/sim/udel_gore.txt", true)]

/-- VioManagerOptions.h:525-537 and 552-556 -/
noncomputable def simNumTab : Table ℝ :=
  [("sim_distance_threshold", 1.2, true), ("sim_freq_cam", 10, true), ("sim_freq_imu", 400, true), ("sim_min_feature_gen_dist", 5, true), ("sim_max_feature_gen_dist", 10, true)]

/-- the options of a simulation: those of the estimator, and the simulator's -/
structure SimOpts where
  vio : Opts
  int : String → ℤ
  bool : String → Bool
  str : String → String
  num : String → ℝ

/-- `print_and_load` and `print_and_load_simulation`, run_simulation.cpp:92-94, and the three fields that are set whatever the files say, 95-97 -/
noncomputable def loadSim (E : Env) : L SimOpts := do
  let o ← loadOpts E
  let z ← loadTab E E.rInt (parse Leaf.int) 0 simIntTab
  let b ← loadTab E E.rBool parseBool false simBoolTab
  let s ← loadTab E E.rStr (parse Leaf.str) "" simStrTab
  let x ← loadTab E E.rNum (parse Leaf.num) 0 simNumTab
  L.pure ⟨{ o with int := Function.update o.int "num_opencv_threads" 0, bool := Function.update (Function.update o.bool "multi_threading_pubs" false) "multi_threading_subs" false }, z, b, s, x⟩

/-- the options a simulation runs with, if it runs, run_simulation.cpp:105-109 -/
noncomputable def launchSim (E : Env) : Option SimOpts :=
  match (loadSim E).run with
  | some (o, true) => some o
  | _ => none

end Verif.Cfg
