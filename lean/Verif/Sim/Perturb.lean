import Verif.Quat.Model
import Verif.Prop.Model

/-!
# The simulator's copy of the calibration and its perturbation (ov_msckf/src/sim/Simulator.cpp)

`VioManagerOptions::camera_intrinsics` holds shared pointers, so copying the options copies addresses and not camera objects. The
camera objects live in a heap (a list of objects, the address being the index); the options are a record. The stream `w` is what
`normal_distribution(0, 1)` returns, in the order of the calls; `none` is the exception of `.at`. The three draws of
`w_vec << a, b, c` are taken left to right (before C++17 the order is the compiler's). Reals, not floating point.
-/

namespace Verif.Perturb

open Verif.Quat Verif.Prop_

/-- A camera object (ov_core/src/cam/CamBase.h:45-200): its class (`CamEqui` or `CamRadtan`), its size and `camera_values`. -/
structure CamObj where
  equi : Bool
  w : ℕ
  h : ℕ
  val : Fin 8 → ℝ

/-- The objects allocated so far; a shared pointer is an index. -/
abbrev Heap := List CamObj

/-- The part of `VioManagerOptions` (ov_msckf/src/core/VioManagerOptions.h) that holds calibration, with the options that matter for
the perturbation. `cams` is the unordered map `camera_intrinsics` in the order in which it is traversed, `ext` is
`camera_extrinsics`. -/
structure Opts where
  num : ℕ
  dt : ℝ
  cams : List (ℕ × ℕ)
  ext : ℕ → Option (Quat × V3)
  cal : Cal
  calibImu : Bool
  calibG : Bool
  kalibr : Bool
  perturb : Bool

/-- `camera_intrinsics.at(i)`: the address. -/
def Opts.addr (o : Opts) (i : ℕ) : Option ℕ := (o.cams.find? fun p => p.1 == i).map (·.2)

/-- The camera object reached through the options. -/
def Opts.cam (o : Opts) (h : Heap) (i : ℕ) : Option CamObj := (o.addr i).bind fun a => h[a]?

/-- Simulator.cpp:50-60: a new object of the same class and size holding the same values, for every camera. -/
def copyCams : List (ℕ × ℕ) → Heap → Option (List (ℕ × ℕ) × Heap)
  | [], h => some ([], h)
  | (k, a) :: l, h =>
    match h[a]? with
    | none => none
    | some c =>
      match copyCams l (h ++ [if c.equi then ⟨true, c.w, c.h, c.val⟩ else ⟨false, c.w, c.h, c.val⟩]) with
      | none => none
      | some (l', h') => some ((k, h.length) :: l', h')

/-- `rot_2_quat(exp_so3(w_vec) * quat_2_Rot(q))`, Simulator.cpp:230-231, 249, 253. -/
noncomputable def turn (v : V3) (q : Quat) : Quat := rot2quat (expSO3 v * quat2Rot q)

/-- The body of the camera loop, Simulator.cpp:217-236; `b` is the number of draws made before. -/
noncomputable def perturbCam (w : ℕ → ℝ) (b i : ℕ) (o : Opts) (h : Heap) : Option (Opts × Heap) :=
  match o.addr i with
  | none => none
  | some a =>
    match h[a]?, o.ext i with
    | some c, some (q, p) =>
      let q' := turn ![0.001 * w (b + 8), 0.001 * w (b + 9), 0.001 * w (b + 10)] q
      let p' : V3 := ![p 0 + 0.01 * w (b + 11), p 1 + 0.01 * w (b + 12), p 2 + 0.01 * w (b + 13)]
      some ({ o with ext := Function.update o.ext i (some (q', p')) },
            h.set a { c with val := fun r => if r.1 < 4 then c.val r + 1 * w (b + r.1) else c.val r + 0.005 * w (b + r.1) })
    | _, _ => none

/-- The camera loop, Simulator.cpp:217-237, from camera `i` on with `k` cameras left. -/
noncomputable def perturbCams (w : ℕ → ℝ) : ℕ → ℕ → ℕ → Opts → Heap → Option (Opts × Heap × ℕ)
  | 0, b, _, o, h => some (o, h, b)
  | k + 1, b, i, o, h =>
    match perturbCam w b i o h with
    | none => none
    | some (o', h') => perturbCams w k (b + 14) (i + 1) o' h'

/-- The six IMU intrinsics of each sensor and the orientation, Simulator.cpp:240-255. -/
noncomputable def perturbImu (w : ℕ → ℝ) (b : ℕ) (o : Opts) : Opts × ℕ :=
  if o.calibImu then
    let c := o.cal
    let c1 : Cal := { c with
      dw := fun j => if j < 6 then c.dw j + 0.004 * w (b + 2 * j) else c.dw j
      da := fun j => if j < 6 then c.da j + 0.004 * w (b + 2 * j + 1) else c.da j }
    let v : V3 := ![0.002 * w (b + 12), 0.002 * w (b + 13), 0.002 * w (b + 14)]
    ({ o with cal := if o.kalibr then { c1 with qw := turn v c.qw } else { c1 with qa := turn v c.qa } }, b + 15)
  else (o, b)

/-- The gravity sensitivity, Simulator.cpp:258-262. -/
noncomputable def perturbG (w : ℕ → ℝ) (b : ℕ) (o : Opts) : Opts × ℕ :=
  if o.calibG then
    ({ o with cal := { o.cal with tg := fun j => if j < 9 then o.cal.tg j + 0.004 * w (b + j) else o.cal.tg j } }, b + 9)
  else (o, b)

/-- `Simulator::perturb_parameters`, Simulator.cpp:208-263: the options and the camera objects after it and the number of draws. -/
noncomputable def perturbParams (w : ℕ → ℝ) (o : Opts) (h : Heap) : Option (Opts × Heap × ℕ) :=
  match perturbCams w o.num 1 0 { o with dt := o.dt + 0.01 * w 0 } h with
  | none => none
  | some (o1, h1, b1) =>
    let (o2, b2) := perturbImu w b1 o1
    let (o3, b3) := perturbG w b2 o2
    some (o3, h1, b3)

/-- The constructor of the simulator as far as the calibration is concerned, Simulator.cpp:45-60 and 145-156: the simulator's own
options, the caller's options (a reference, changed by the perturbation) and the camera objects. -/
noncomputable def simCtor (w : ℕ → ℝ) (o : Opts) (h : Heap) : Option (Opts × Opts × Heap) :=
  match copyCams o.cams h with
  | none => none
  | some (l, h1) =>
    if o.perturb then
      match perturbParams w o h1 with
      | none => none
      | some (o2, h2, _) => some ({ o with cams := l }, o2, h2)
    else some ({ o with cams := l }, o, h1)

/-- The calibration held by the estimator: its variables (value and first estimate are set to the same thing) and the camera objects
it shares with the options. -/
structure Est where
  dt : ℝ
  cal : Cal
  intr : ℕ → Option (Fin 8 → ℝ)
  ext : ℕ → Option (Quat × V3)
  cams : List (ℕ × ℕ)

/-- The constructor of the estimator, ov_msckf/src/core/VioManager.cpp:57-97. -/
def estCtor (o : Opts) (h : Heap) : Option Est :=
  if ∀ i < o.num, (o.cam h i).isSome ∧ (o.ext i).isSome then
    some { dt := o.dt, cal := o.cal
           intr := fun i => if i < o.num then (o.cam h i).map (·.val) else none
           ext := fun i => if i < o.num then o.ext i else none
           cams := o.cams }
  else none

/-- One write of the estimator to one of its camera objects, ov_msckf/src/state/StateHelper.cpp:190-196: after each update it stores
the estimated intrinsics there. -/
def estWrite (e : Est) (h : Heap) (x : ℕ × (Fin 8 → ℝ)) : Heap :=
  match (e.cams.find? fun p => p.1 == x.1).map (·.2) with
  | none => h
  | some a => match h[a]? with
    | none => h
    | some c => h.set a { c with val := x.2 }

end Verif.Perturb
