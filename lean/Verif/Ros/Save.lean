import Verif.Ros.Publish
import Verif.Sim.Simulator

/-!
# Model of the saved states: ov_msckf/src/ros/ROSVisualizerHelper.cpp, `sim_save_total_state_to_file`, 154-403

A line of a file is the list of its numbers as `atof` reads them back. `std::fixed` with precision `k` prints the nearest decimal with `k` digits after the point (`dec`; the rounding of ties is not that of the C library). A negative variance, which the C library would print as `nan`, is taken as zero.
-/

set_option autoImplicit false
open Classical

namespace Verif.Ros

open Verif Verif.Types Verif.St Verif.Prop_

/-- a line of a file -/
abbrev Row := List ℝ

/-- a number written with `std::fixed` and `precision(k)` and read again -/
noncomputable def dec (k : ℕ) (x : ℝ) : ℝ := (round (x * 10 ^ k) : ℝ) / 10 ^ k

/-- a quaternion as it is stored: vector part first -/
def quatList (q : Quat) : List ℝ := [q.x, q.y, q.z, q.w]

/-- a vector of three numbers -/
def v3List (v : V3) : List ℝ := [v 0, v 1, v 2]

/-- the first `m` numbers of a vector -/
def vecList (m : ℕ) (f : ℕ → ℝ) : List ℝ := (List.range m).map f

/-- `imu_model` as a number, StateOptions.h:62 -/
def modelNum (kalibr : Bool) : ℝ := if kalibr then 0 else 1

/-- the true parameters of the simulator that are saved (`get_true_parameters()`) -/
structure TruePar where
  dt : ℝ
  numCams : ℕ
  intr : ℕ → Option (ℕ → ℝ)
  extr : ℕ → Option (Quat × V3)
  kalibr : Bool
  dw : ℕ → ℝ
  da : ℕ → ℝ
  tg : ℕ → ℝ
  qG : Quat
  qA : Quat

/-- the columns of a camera, 192-206 and 286-294: projection and distortion, then rotation and position -/
noncomputable def camCols (intr : ℕ → ℝ) (q : Quat) (p : V3) : Row := (vecList 8 intr ++ quatList q ++ v3List p).map (dec 6)

/-- the columns of the inertial unit, 209-229 and 317-396 -/
noncomputable def imuCols (kalibr : Bool) (dw da tg : ℕ → ℝ) (qG qA : Quat) : Row :=
  [modelNum kalibr] ++ (vecList 6 dw ++ vecList 6 da ++ vecList 9 tg ++ quatList qG ++ quatList qA).map (dec 8)

/-- the columns of the motion, 173-180 and 245-253 -/
noncomputable def moveCols (t : ℝ) (q : Quat) (p v bg ba : V3) : Row :=
  [dec 5 t] ++ (quatList q ++ v3List p ++ v3List v ++ v3List bg ++ v3List ba).map (dec 6)

/-- the line of the true state, 171-233. `none`: the assertion on the number of cameras, or a camera the simulator does not have -/
noncomputable def gtRow (T : TruePar) (numCams : ℕ) (g : Sim.Truth) : Option Row :=
  if numCams ≠ T.numCams then none
  else ((List.range numCams).mapM fun i => (T.intr i).bind fun c => (T.extr i).map fun e => camCols c e.1 e.2).map fun cs =>
    moveCols g.t g.q g.p g.v g.bg g.ba ++ [dec 7 T.dt, (numCams : ℝ)] ++ cs.flatten ++ imuCols T.kalibr T.dw T.da T.tg T.qG T.qA

/-- the line of the estimate, 244-253, 272-276, 285-294, 317-398 -/
noncomputable def estRow (s : State) (t : ℝ) : Option Row :=
  (imuOf s).bind fun x => (tOff s).bind fun off =>
  ((List.range s.opts.numCams).mapM fun i => (vecOf s (intrUid i)).bind fun c => (poseOf s (7 + 2 * i)).map fun e => camCols c e.1 e.2).bind fun cs =>
  (vecOf s 1).bind fun dw => (vecOf s 2).bind fun da => (vecOf s 3).bind fun tg => (quatOf s 4).bind fun qG => (quatOf s 5).map fun qA =>
    moveCols t x.1.q x.1.p x.1.v x.1.bg x.1.ba ++ [dec 7 off, (s.opts.numCams : ℝ)] ++ cs.flatten ++ imuCols s.opts.kalibr dw da tg qG qA
where
  /-- the value of a quaternion object -/
  quatOf (s : State) (u : ℕ) : Option Quat :=
    match (s.obj u).val with
    | .quat q => some q
    | _ => none

/-- `std::sqrt(cov(i, i))` printed with `k` digits. `none`: outside of the matrix -/
noncomputable def sdAt (k : ℕ) (C : DMat) (i : ℤ) : Option ℝ :=
  if 0 ≤ i ∧ i.toNat < C.rows ∧ i.toNat < C.cols then some (dec k (Real.sqrt (C.a i.toNat i.toNat))) else none

/-- `m` standard deviations from `id` on -/
noncomputable def sdList (k : ℕ) (C : DMat) (id : ℤ) (m : ℕ) : Option Row := (List.range m).mapM fun j : ℕ => sdAt k C (id + j)

/-- `m` zeros, or `m'` standard deviations if the variable is estimated -/
noncomputable def sdIf (b : Bool) (k : ℕ) (C : DMat) (id : ℤ) (m' m : ℕ) : Option Row :=
  if b then sdList k C id m' else some (List.replicate m 0)

/-- the columns of a camera in the line of standard deviations, 296-315 -/
noncomputable def sdCam (s : State) (C : DMat) (i : ℕ) : Option Row :=
  (sdIf s.opts.calibIntr 6 C (s.obj (intrUid i)).id 8 8).bind fun a => (sdIf s.opts.calibPose 6 C (s.obj (7 + 2 * i)).id 6 6).map fun b => a ++ b

/-- the line of standard deviations, 255-270, 278-285, 296-400. The rotation of a sensor has three of them, but four are written (382-383, 394-395). -/
noncomputable def stdRow (s : State) (t : ℝ) : Option Row :=
  let C := getFull s
  let id := (s.obj imuUid).id
  let o := s.opts
  (sdList 6 C id 3).bind fun q => (sdList 6 C (id + 3) 3).bind fun p => (sdList 6 C (id + 6) 3).bind fun v =>
  (sdList 6 C (id + 9) 3).bind fun bg => (sdList 6 C (id + 12) 3).bind fun ba =>
  (sdIf o.calibDt 6 C (s.obj dtUid).id 1 1).bind fun dt => ((List.range o.numCams).mapM (sdCam s C)).bind fun cs =>
  (sdIf o.calibImu 8 C (s.obj 1).id 6 6).bind fun dw => (sdIf o.calibImu 8 C (s.obj 2).id 6 6).bind fun da =>
  (sdIf (o.calibImu && o.calibG) 8 C (s.obj 3).id 9 9).bind fun tg =>
  (sdIf (o.calibImu && o.kalibr) 8 C (s.obj 4).id 4 3).bind fun wG => (sdIf (o.calibImu && !o.kalibr) 8 C (s.obj 5).id 4 3).map fun wA =>
    [dec 5 t] ++ (q ++ p ++ v ++ bg ++ ba) ++ dt ++ [(o.numCams : ℝ)] ++ cs.flatten ++ [modelNum o.kalibr] ++ (dw ++ da ++ tg ++ wG ++ wA)

/-- `sim_save_total_state_to_file`, 154-403, with a simulator: its true parameters and `get_state`. The lines appended to the files of the estimate, of the standard deviations and of the truth, the last only if `get_state` succeeds. -/
noncomputable def save (s : State) (T : TruePar) (getState : ℝ → Option Sim.Truth) : Option (Row × Row × Option Row) :=
  let t := s.ts + T.dt
  (match getState t with
    | none => some none
    | some g => (gtRow T s.opts.numCams g).map some).bind fun g =>
  (estRow s t).bind fun e => (stdRow s t).map fun c => (e, c, g)

/-- the three files after a sequence of calls, each with the state and the simulator's `get_state` at that time -/
noncomputable def saveAll (T : TruePar) : List (State × (ℝ → Option Sim.Truth)) → Option (List Row × List Row × List Row)
  | [] => some ([], [], [])
  | x :: r => (save x.1 T x.2).bind fun l => (saveAll T r).map fun F => (l.1 :: F.1, l.2.1 :: F.2.1, l.2.2.toList ++ F.2.2)

end Verif.Ros
