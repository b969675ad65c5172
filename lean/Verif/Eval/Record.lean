import Verif.Eval.Model
import Verif.Ros.Save

/-!
# Model of the recorded trajectories: ov_eval/src/utils/Recorder.h, `load_data`, `load_data_csv` and `get_total_length` (ov_eval/src/utils/Loader.cpp), `process_csv` (ov_eval/src/format_converter.cpp)

A file is the list of the lines that are not comments, a line the list of its numbers as `atof` reads them back (`Ros.dec`).
-/

set_option autoImplicit false
open Classical

namespace Verif.Eval

open Verif Verif.Ros

/-- a message that can be recorded: `PoseWithCovarianceStamped` and `Odometry` (with a covariance of 36 numbers), `PoseStamped` and `TransformStamped` (without) -/
structure RecMsg where
  stamp : Stamp
  pose : PoseMsg
  cov : Option (ℕ → ℝ)

/-- `stamp.toSec()` -/
noncomputable def toSec (s : Stamp) : ℝ := (s.sec : ℝ) + (s.nsec : ℝ) * 1e-9

/-- the members of the recorder, Recorder.h:180-187 -/
structure Rec where
  has : Bool
  t : ℝ
  q : Quat
  p : V3
  rot : M3
  pos : M3

/-- the constructor, Recorder.h:77-83 -/
def Rec.init : Rec := ⟨false, -1, ⟨0, 0, 0, 1⟩, 0, 0, 0⟩

/-- the four callbacks before `write`, Recorder.h:93-150 -/
noncomputable def Rec.recv (r : Rec) (m : RecMsg) : Rec :=
  match m.cov with
  | some c => ⟨true, toSec m.stamp, m.pose.q, m.pose.p, !![c 21, c 22, c 23; c 27, c 28, c 29; c 33, c 34, c 35], !![c 0, c 1, c 2; c 6, c 7, c 8; c 12, c 13, c 14]⟩
  | none => { r with t := toSec m.stamp, q := m.pose.q, p := m.pose.p }

/-- the numbers of a covariance that are written: the upper triangle, row by row -/
def upper (M : M3) : Row := [M 0 0, M 0 1, M 0 2, M 1 1, M 1 2, M 2 2]

/-- `write`, Recorder.h:156-177 -/
noncomputable def Rec.line (r : Rec) : Row :=
  [dec 5 r.t] ++ (v3List r.p ++ quatList r.q).map (dec 6) ++ if r.has then (upper r.rot ++ upper r.pos).map (dec 10) else []

/-- the lines written for a sequence of messages -/
noncomputable def recordFrom : Rec → List RecMsg → List Row
  | _, [] => []
  | r, m :: ms => (r.recv m).line :: recordFrom (r.recv m) ms

/-- the file of a new recorder -/
noncomputable def record (ms : List RecMsg) : List Row := recordFrom Rec.init ms

/-- `c_ori`, `c_pos`, Loader.cpp:66-70: six numbers from column `i` on -/
noncomputable def symAt (d : ℕ → ℝ) (i : ℕ) : M3 :=
  let M : M3 := !![d i, d (i + 1), d (i + 2); d (i + 1), d (i + 3), d (i + 4); d (i + 2), d (i + 4), d (i + 5)]
  (0.5 : ℝ) • (M + M.transpose)

/-- the pose of a line: numbers 1 to 7 -/
def poseAt (d : ℕ → ℝ) : Pose := ⟨![d 1, d 2, d 3], ⟨d 4, d 5, d 6, d 7⟩⟩

/-- the loop of `load_data`, Loader.cpp:38-76. A line with fewer than 20 numbers has no covariance, one with fewer than 8 is skipped. -/
noncomputable def loadLoop : List Row → Traj Pose M3
  | [] => ⟨[], [], [], []⟩
  | r :: rs =>
    let T := loadLoop rs
    let d := fun i => r.getD i 0
    if 20 ≤ r.length then ⟨d 0 :: T.times, poseAt d :: T.poses, symAt d 8 :: T.covori, symAt d 14 :: T.covpos⟩
    else if 8 ≤ r.length then ⟨d 0 :: T.times, poseAt d :: T.poses, T.covori, T.covpos⟩
    else T

/-- `load_data`, Loader.cpp:26-103. `none`: the exits. -/
noncomputable def loadData (rows : List Row) : Option (Traj Pose M3) :=
  let T := loadLoop rows
  if T.times = [] then none
  else if T.times.length ≠ T.poses.length then none
  else if T.covori ≠ [] ∧ (T.times.length ≠ T.covori.length ∨ T.times.length ≠ T.covpos.length) then none
  else some T

/-- `load_data_csv`, Loader.cpp:105-178: times in nanoseconds, the real part of the orientation first -/
noncomputable def loadCsv (rows : List Row) : Option (Traj Pose M3) :=
  let l := rows.filter fun r => decide (8 ≤ r.length)
  if l = [] then none
  else some ⟨l.map fun r => 1e-9 * r.getD 0 0, l.map fun r => ⟨![r.getD 1 0, r.getD 2 0, r.getD 3 0], ⟨r.getD 5 0, r.getD 6 0, r.getD 7 0, r.getD 4 0⟩⟩, [], []⟩

/-- `process_csv`, format_converter.cpp:36-131, when the output does not exist: its lines -/
noncomputable def convert (rows : List Row) : Option (List Row) :=
  let l := rows.filter fun r => decide (7 < r.length)
  if l = [] then none
  else some (l.map fun r => [dec 5 (1e-9 * r.getD 0 0)] ++ [r.getD 1 0, r.getD 2 0, r.getD 3 0, r.getD 5 0, r.getD 6 0, r.getD 7 0, r.getD 4 0].map (dec 6))

/-- `get_total_length`, Loader.cpp:388-398 -/
noncomputable def totalLength : List Pose → ℝ
  | a :: b :: r => norm3 (b.p - a.p) + totalLength (b :: r)
  | _ => 0

end Verif.Eval
