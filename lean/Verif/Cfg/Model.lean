import Verif.Prop.Sensor
import Verif.Cam.Model
import Verif.Land.Model

/-!
# Model of the configuration: `ov_core/src/utils/opencv_yaml_parse.h`, and of what is loaded with it: `StateOptions.h`, `VioManagerOptions.h`, `InertialInitializerOptions.h`, `FeatureInitializerOptions.h`, and the check at the start of the programs

OpenCV's conversion of a node to a C++ type is an oracle (`Leaf`); an exception it throws is `none`. A ROS parameter of the wrong type counts as absent (ROS 1; in ROS 2 it ends the program). Not modelled: masks, printing, topics, the
simulator's parameters. The program ending (`exit`, an uncaught exception) is `none`.
-/

set_option autoImplicit false
open Classical

namespace Verif.Cfg

open Verif Verif.Prop_ Verif.Land

/-- what OpenCV returns for a node: as a double, vectors, string, an `int` (`>>`), an `int` if it is one (`isInt`), and as rows of numbers -/
structure Leaf where
  num : Option ℝ
  nums : Option (List ℝ)
  int : Option ℤ
  ints : Option (List ℤ)
  str : Option String
  isInt : Option ℤ
  rows : List (List ℝ)

/-- a node with named children -/
abbrev File := String → Option Leaf

/-- the world of a parser: the main file (`none`: not opened), its folder, the other files by path (`none`: cannot be opened) with their sensors, and the ROS parameters by type -/
structure Env where
  main : Option File
  folder : String
  ext : String → Option (String → Option File)
  rNum : String → Option ℝ
  rNums : String → Option (List ℝ)
  rInt : String → Option ℤ
  rInts : String → Option (List ℤ)
  rStr : String → Option String
  rBool : String → Option Bool

/-- a computation with the parser: `none` if the program ends, else the result and whether `all_params_found_successfully` stayed true -/
structure L (α : Type) where
  run : Option (α × Bool)

def L.val {α : Type} (a : α) (b : Bool) : L α := ⟨some (a, b)⟩

def L.stop {α : Type} : L α := ⟨none⟩

def L.pure {α : Type} (a : α) : L α := L.val a true

def L.bind {α β : Type} (x : L α) (f : α → L β) : L β :=
  match x.run with
  | none => L.stop
  | some (a, b) => match (f a).run with
    | none => L.stop
    | some (c, d) => L.val c (b && d)

instance : Monad L where
  pure := L.pure
  bind := L.bind

/-- the program ends unless `p` -/
noncomputable def L.guard (p : Prop) : L Unit := if p then L.val () true else L.stop

/-- `v.at(i)` -/
def L.at {α : Type} (v : List α) (i : ℕ) : L α := match v[i]? with
  | some x => L.val x true
  | none => L.stop

/-- `parse`, opencv_yaml_parse.h:357-383, for a type read by `rd` -/
def parse {T : Type} (rd : Leaf → Option T) (f : File) (name : String) (d : T) (req : Bool) : L T :=
  match f name with
  | none => L.val d (!req)
  | some l => match rd l with
    | some v => L.val v true
    | none => L.val d (!req)

/-- the text before `#` and a blank, opencv_yaml_parse.h:419-420 -/
def clean (s : String) : String := String.ofList ((s.toList.takeWhile (· != '#')).takeWhile (· != ' '))

/-- `parse` for booleans, opencv_yaml_parse.h:392-439 -/
def parseBool (f : File) (name : String) (d : Bool) (req : Bool) : L Bool :=
  match f name with
  | none => L.val d (!req)
  | some l =>
    if l.isInt = some 1 then L.val true true
    else if l.isInt = some 0 then L.val false true
    else match l.str with
      | none => L.val d (!req)
      | some s =>
        let v := clean s
        if v = "1" ∨ v = "true" ∨ v = "True" ∨ v = "TRUE" then L.val true true
        else if v = "0" ∨ v = "false" ∨ v = "False" ∨ v = "FALSE" then L.val false true
        else L.val d false

/-- the entries of a matrix that are in the file, the others from the identity, opencv_yaml_parse.h:462-468, 512-518. A number that cannot be read is not modelled (OpenCV returns a value for any node) -/
def fill {n : ℕ} (rows : List (List ℝ)) : Matrix (Fin n) (Fin n) ℝ := fun r c =>
  match rows[r.val]? with
  | some row => (match row[c.val]? with
    | some x => x
    | none => (1 : Matrix (Fin n) (Fin n) ℝ) r c)
  | none => (1 : Matrix (Fin n) (Fin n) ℝ) r c

/-- `parse` for 3x3 matrices, opencv_yaml_parse.h:448-479 -/
def parse3 (f : File) (name : String) (d : M3) (req : Bool) : L M3 :=
  match f name with
  | none => L.val d (!req)
  | some l => L.val (fill l.rows) true

/-- the name that is looked for, opencv_yaml_parse.h:490-498 -/
def flipName (f : File) (name : String) : String :=
  if name = "T_cam_imu" ∧ f name = none then "T_imu_cam"
  else if name = "T_imu_cam" ∧ f name = none then "T_cam_imu"
  else name

/-- `parse` for 4x4 matrices, opencv_yaml_parse.h:488-535 -/
def parse4 (f : File) (name : String) (d : M4) (req : Bool) : L M4 :=
  match f (flipName f name) with
  | none => L.val d (!req)
  | some l => L.val (if flipName f name ≠ name then invSE3 (fill l.rows) else fill l.rows) true

/-- `parse_config`, opencv_yaml_parse.h:122-140, 280-289, 548-562 -/
def Env.config {T : Type} (E : Env) (ros : String → Option T) (ps : File → String → T → Bool → L T) (name : String) (d : T) (req : Bool := true) : L T :=
  match ros name with
  | some v => L.val v true
  | none => match E.main with
    | none => L.val d true
    | some f => ps f name d req

/-- `parse_external_yaml`, opencv_yaml_parse.h:579-617 -/
def Env.external {T : Type} (E : Env) (ps : File → String → T → Bool → L T) (file sensor name : String) (d : T) (req : Bool) : L T :=
  match E.main with
  | none => L.val d true
  | some f => match f file with
    | none => L.stop
    | some l => match l.str with
      | none => L.stop
      | some path => match E.ext (E.folder ++ path) with
        | none => L.stop
        | some X => match X sensor with
          | none => L.val d false
          | some g => ps g name d req

/-- `parse_external`, opencv_yaml_parse.h:157-179, 292-307 -/
def Env.extern {T : Type} (E : Env) (ros : String → Option T) (ps : File → String → T → Bool → L T) (file sensor name : String) (d : T) (req : Bool := true) : L T :=
  match ros (sensor ++ "_" ++ name) with
  | some v => L.val v true
  | none => E.external ps file sensor name d req

/-- a matrix from a list by rows; `at` of the missing entries throws, opencv_yaml_parse.h:206-207, 253-255 -/
def ofList (n : ℕ) (l : List ℝ) : L (Matrix (Fin n) (Fin n) ℝ) :=
  if n * n ≤ l.length then L.val (fun r c => l.getD (r.val * n + c.val) 0) true else L.stop

/-- `parse_external` for 3x3 matrices, opencv_yaml_parse.h:195-226 -/
def Env.extern3 (E : Env) (file sensor name : String) (d : M3) : L M3 :=
  match E.rNums (sensor ++ "_" ++ name) with
  | some v => ofList 3 v
  | none => E.external parse3 file sensor name d true

/-- `parse_external` for 4x4 matrices, opencv_yaml_parse.h:242-275 -/
def Env.extern4 (E : Env) (file sensor name : String) (d : M4) : L M4 :=
  match E.rNums (sensor ++ "_" ++ name) with
  | some v => ofList 4 v
  | none => E.external parse4 file sensor name d true

/-- scalar parameters: name, default and whether it is required. A field is identified by the name of its parameter. -/
abbrev Table (T : Type) := List (String × T × Bool)

/-- the calls of `parse_config` for a table, one after the other; `z` stands for what is not in it -/
def loadTab {T : Type} (E : Env) (ros : String → Option T) (ps : File → String → T → Bool → L T) (z : T) : Table T → L (String → T)
  | [] => L.pure fun _ => z
  | (n, d, r) :: tl => do
    let v ← E.config ros ps n d r
    let m ← loadTab E ros ps z tl
    L.pure (Function.update m n v)

/-- the boolean parameters of the filter, StateOptions.h:97, 115-119, VioManagerOptions.h:115, 119-120, 281, 455-462 and FeatureInitializerOptions.h:74-75 -/
def boolTab : Table Bool :=
  [("use_fej", true, true), ("calib_cam_extrinsics", false, true), ("calib_cam_intrinsics", false, true), ("calib_cam_timeoffset", false, true), ("calib_imu_intrinsics", false, true),
   ("calib_imu_g_sensitivity", false, true), ("try_zupt", false, true), ("zupt_only_at_beginning", false, true), ("record_timing_information", false, true), ("use_stereo", true, true), ("use_klt", true, true),
   ("use_aruco", true, true), ("downsize_aruco", true, true), ("downsample_cameras", false, true), ("multi_threading_pubs", true, false), ("multi_threading_subs", false, false), ("use_mask", false, true),
   ("fi_triangulate_1d", false, false), ("fi_refine_features", true, false)]

/-- the integer parameters of the filter, StateOptions.h:122-127, VioManagerOptions.h:460, 463-467 and FeatureInitializerOptions.h:76 -/
def intTab : Table ℤ :=
  [("max_clones", 11, true), ("max_slam", 25, true), ("max_slam_in_update", 1000, true), ("max_msckf_in_update", 1000, true), ("num_aruco", 1024, true), ("max_cameras", 1, true), ("num_opencv_threads", 4, true),
   ("num_pts", 150, true), ("fast_threshold", 20, true), ("grid_x", 5, true), ("grid_y", 5, true), ("min_px_dist", 10, true), ("fi_max_runs", 5, false)]

/-- the real parameters of the filter, VioManagerOptions.h:114, 116-118, 166-175, 230, 483-484 and FeatureInitializerOptions.h:77-85 -/
noncomputable def numTab : Table ℝ :=
  [("dt_slam_delay", 2, true), ("zupt_max_velocity", 1, true), ("zupt_noise_multiplier", 1, true), ("zupt_max_disparity", 1, true), ("up_msckf_sigma_px", 1, true), ("up_msckf_chi2_multipler", 5, true),
   ("up_slam_sigma_px", 1, true), ("up_slam_chi2_multipler", 5, true), ("up_aruco_sigma_px", 1, true), ("up_aruco_chi2_multipler", 5, true), ("zupt_chi2_multipler", 5, true), ("gravity_mag", 9.81, true),
   ("knn_ratio", 0.85, true), ("track_frequency", 20, true), ("fi_init_lamda", 1e-3, false), ("fi_max_lamda", 1e10, false), ("fi_min_dx", 1e-6, false), ("fi_min_dcost", 1e-6, false), ("fi_lam_mult", 10, false),
   ("fi_min_dist", 0.10, false), ("fi_max_dist", 60, false), ("fi_max_baseline", 40, false), ("fi_max_cond_number", 10000, false)]

/-- the string parameters of the filter, StateOptions.h:100-101, 130-138, VioManagerOptions.h:121, 468-469 -/
def strTab : Table String :=
  [("integration", "rk4", true), ("feat_rep_msckf", "GLOBAL_3D", true), ("feat_rep_slam", "GLOBAL_3D", true), ("feat_rep_aruco", "GLOBAL_3D", true), ("histogram_method", "HISTOGRAM", true),
   ("record_timing_filepath", "ov_msckf_timing.txt", true)]

/-- the boolean parameters of the initialiser, InertialInitializerOptions.h:131-132, 264-265 -/
def initBoolTab : Table Bool := [("init_dyn_use", false, true), ("init_dyn_mle_opt_calib", false, true), ("use_stereo", true, true), ("downsample_cameras", false, true)]

/-- the integer parameters of the initialiser, InertialInitializerOptions.h:130, 133-134, 136, 263 -/
def initIntTab : Table ℤ := [("init_max_features", 50, true), ("init_dyn_mle_max_iter", 20, true), ("init_dyn_mle_max_threads", 20, true), ("init_dyn_num_pose", 5, true), ("max_cameras", 1, true)]

/-- the real parameters of the initialiser, InertialInitializerOptions.h:127-129, 135, 137-142, 222, 262 -/
noncomputable def initNumTab : Table ℝ :=
  [("init_window_time", 1, true), ("init_imu_thresh", 1, true), ("init_max_disparity", 1, true), ("init_dyn_mle_max_time", 5, true), ("init_dyn_min_deg", 45, true), ("init_dyn_inflation_ori", 10, true),
   ("init_dyn_inflation_vel", 10, true), ("init_dyn_inflation_bg", 100, true), ("init_dyn_inflation_ba", 100, true), ("init_dyn_min_rec_cond", 1e-15, true), ("up_slam_sigma_px", 1, true), ("gravity_mag", 9.81, true)]

/-- the noises of the inertial sensor -/
structure ImuNoise where
  w : ℝ
  wb : ℝ
  a : ℝ
  ab : ℝ

/-- the loading of the noises, VioManagerOptions.h:159-162 and InertialInitializerOptions.h:218-221 -/
noncomputable def loadNoise (E : Env) : L ImuNoise := do
  let w ← E.extern E.rNum (parse Leaf.num) "relative_config_imu" "imu0" "gyroscope_noise_density" 1.6968e-04
  let wb ← E.extern E.rNum (parse Leaf.num) "relative_config_imu" "imu0" "gyroscope_random_walk" 1.9393e-05
  let a ← E.extern E.rNum (parse Leaf.num) "relative_config_imu" "imu0" "accelerometer_noise_density" 2.0000e-3
  let ab ← E.extern E.rNum (parse Leaf.num) "relative_config_imu" "imu0" "accelerometer_random_walk" 3.0000e-03
  L.pure ⟨w, wb, a, ab⟩

/-- a camera: whether it is the equidistant model, the eight intrinsics, width and height, and `q_ItoC`, `p_IinC` -/
structure CamOut where
  equi : Bool
  calib : Cam.Intr
  w : ℤ
  h : ℤ
  q : Quat
  p : V3

/-- one camera, VioManagerOptions.h:239-279, the same as InertialInitializerOptions.h:274-314 -/
noncomputable def loadCam (E : Env) (down : Bool) (i : ℕ) : L CamOut := do
  let cam := "cam" ++ toString i
  let model ← E.extern E.rStr (parse Leaf.str) "relative_config_imucam" cam "distortion_model" "radtan"
  let c1 ← E.extern E.rNums (parse Leaf.nums) "relative_config_imucam" cam "intrinsics" [1, 1, 0, 0]
  let c2 ← E.extern E.rNums (parse Leaf.nums) "relative_config_imucam" cam "distortion_coeffs" [0, 0, 0, 0]
  let fx ← L.at c1 0
  let fy ← L.at c1 1
  let cx ← L.at c1 2
  let cy ← L.at c1 3
  let k1 ← L.at c2 0
  let k2 ← L.at c2 1
  let k3 ← L.at c2 2
  let k4 ← L.at c2 3
  let s : ℝ := if down then 2 else 1
  let wh ← E.extern E.rInts (parse Leaf.ints) "relative_config_imucam" cam "resolution" [1, 1]
  let w ← L.at wh 0
  let h ← L.at wh 1
  let T ← E.extern4 "relative_config_imucam" cam "T_imu_cam" 1
  L.pure ⟨decide (model = "equidistant"), ![fx / s, fy / s, cx / s, cy / s, k1, k2, k3, k4], if down then w.tdiv 2 else w, if down then h.tdiv 2 else h,
    rot2quat (rotBlock T).transpose, -((rotBlock T).transpose.mulVec (posBlock T))⟩

/-- cameras `i`, …, `i + n - 1` -/
noncomputable def loadCams (E : Env) (down : Bool) : ℕ → ℕ → L (List CamOut)
  | _, 0 => L.pure []
  | i, n + 1 => do
    let c ← loadCam E down i
    let cs ← loadCams E down (i + 1) n
    L.pure (c :: cs)

/-- the time offset, that of camera 0, VioManagerOptions.h:233-237 and InertialInitializerOptions.h:268-272 -/
noncomputable def loadDt (E : Env) (n : ℕ) : L ℝ :=
  if 0 < n then E.extern E.rNum (parse Leaf.num) "relative_config_imucam" "cam0" "timeshift_cam_imu" 0 false else L.pure 0

/-- the intrinsics of the inertial sensor, VioManagerOptions.h:305-351. The inverse is `Prop_.loadCal`'s; the checks for NaN (323-338) are about floating point and are not modelled -/
noncomputable def loadImu (E : Env) (kalibr : Bool) : L Cal := do
  let Tw ← E.extern3 "relative_config_imu" "imu0" "Tw" 1
  let Ta ← E.extern3 "relative_config_imu" "imu0" "Ta" 1
  let RA ← E.extern3 "relative_config_imu" "imu0" "R_IMUtoACC" 1
  let RG ← E.extern3 "relative_config_imu" "imu0" "R_IMUtoGYRO" 1
  let Tg ← E.extern3 "relative_config_imu" "imu0" "Tg" 0
  L.pure (loadCal kalibr Tw Ta Tg RA RG)

/-- the initialiser's options -/
structure InitOpts where
  bool : String → Bool
  int : String → ℤ
  num : String → ℝ
  biasG : V3
  biasA : V3
  noise : ImuNoise
  dt : ℝ
  cams : List CamOut

/-- `InertialInitializerOptions::print_and_load`, InertialInitializerOptions.h:55-59, 126-149, 154-187, 217-223, 261-316. The number of cameras is compared with the number loaded (323-328), which differ for a negative one. -/
noncomputable def loadInit (E : Env) : L InitOpts := do
  let b ← loadTab E E.rBool parseBool false initBoolTab
  let z ← loadTab E E.rInt (parse Leaf.int) 0 initIntTab
  let x ← loadTab E E.rNum (parse Leaf.num) 0 initNumTab
  let g ← E.config E.rNums (parse Leaf.nums) "init_dyn_bias_g" [0, 0, 0]
  let a ← E.config E.rNums (parse Leaf.nums) "init_dyn_bias_a" [0, 0, 0]
  let g0 ← L.at g 0
  let g1 ← L.at g 1
  let g2 ← L.at g 2
  let a0 ← L.at a 0
  let a1 ← L.at a 1
  let a2 ← L.at a 2
  L.guard (15 ≤ z "init_max_features")
  L.guard (0 < x "init_imu_thresh" ∨ b "init_dyn_use")
  L.guard (0 < x "init_max_disparity" ∨ b "init_dyn_use")
  L.guard (4 ≤ z "init_dyn_num_pose")
  let N ← loadNoise E
  let dt ← loadDt E (z "max_cameras").toNat
  let cams ← loadCams E (b "downsample_cameras") 0 (z "max_cameras").toNat
  L.guard (z "max_cameras" = cams.length)
  L.pure ⟨b, z, x, ![g0, g1, g2], ![a0, a1, a2], N, dt, cams⟩

inductive Integ where
  | discrete | rk4 | analytical
  deriving DecidableEq

inductive Hist where
  | none | histogram | clahe
  deriving DecidableEq

/-- StateOptions.h:102-112 -/
def integOf (s : String) : L Integ :=
  if s = "discrete" then L.pure .discrete else if s = "rk4" then L.pure .rk4 else if s = "analytical" then L.pure .analytical else L.stop

/-- StateOptions.h:143-151: whether the model is that of Kalibr -/
def modelOf (s : String) : L Bool :=
  if s = "kalibr" ∨ s = "calibrated" then L.pure true else if s = "rpng" then L.pure false else L.stop

/-- VioManagerOptions.h:470-482 -/
def histOf (s : String) : L Hist :=
  if s = "NONE" then L.pure .none else if s = "HISTOGRAM" then L.pure .histogram else if s = "CLAHE" then L.pure .clahe else L.stop

/-- the options of the whole system -/
structure Opts where
  bool : String → Bool
  int : String → ℤ
  num : String → ℝ
  str : String → String
  integ : Integ
  kalibr : Bool
  hist : Hist
  repMsckf : Rep
  repSlam : Rep
  repAruco : Rep
  noise : ImuNoise
  dt : ℝ
  cams : List CamOut
  imu : Cal
  init : InitOpts

/-- `VioManagerOptions::print_and_load`, VioManagerOptions.h:62-69 with StateOptions.h:95-157; 357-364 for the number of cameras. The order of the calls of `parse_config` is not kept: they are independent. -/
noncomputable def loadOpts (E : Env) : L Opts := do
  let b ← loadTab E E.rBool parseBool false boolTab
  let z ← loadTab E E.rInt (parse Leaf.int) 0 intTab
  let x ← loadTab E E.rNum (parse Leaf.num) 0 numTab
  let s ← loadTab E E.rStr (parse Leaf.str) "" strTab
  let integ ← integOf (s "integration")
  let model ← E.extern E.rStr (parse Leaf.str) "relative_config_imu" "imu0" "model" "kalibr"
  let kalibr ← modelOf model
  L.guard (¬ (model = "calibrated" ∧ (b "calib_imu_intrinsics" ∨ b "calib_imu_g_sensitivity")))
  let init ← loadInit E
  let hist ← histOf (s "histogram_method")
  let N ← loadNoise E
  let dt ← loadDt E (z "max_cameras").toNat
  let cams ← loadCams E (b "downsample_cameras") 0 (z "max_cameras").toNat
  let imu ← loadImu E kalibr
  L.guard (z "max_cameras" = cams.length)
  L.pure ⟨b, z, x, s, integ, kalibr, hist, fromString (s "feat_rep_msckf"), fromString (s "feat_rep_slam"), fromString (s "feat_rep_aruco"), N, dt, cams, imu, init⟩

/-- the start of a program, run_subscribe_msckf.cpp:69-99: the options it runs with, if it runs. That program then asks for a thread for the updates whatever `multi_threading_subs` says (85). -/
noncomputable def launch (E : Env) : Option Opts :=
  match (loadOpts E).run with
  | some (o, true) => some o
  | _ => none

end Verif.Cfg
