import Verif.Eval.Traj
import Verif.Eval.Timing

/-!
# Model of the figures of trajectories, of the evaluation of a single run, and of the recorder of the load

ov_eval/src/plot_trajectories.cpp, ov_eval/src/error_singlerun.cpp and ov_eval/python/pid_ros.py
-/

set_option autoImplicit false
open Classical

namespace Verif.Eval

open Verif Verif.Ros

/-! ## plot_trajectories -/

/-- what is kept of a file: its name, times and poses, plot_trajectories.cpp:103-105 -/
structure Shown where
  name : List Char
  times : List ℝ
  poses : List Pose

/-- one estimate, plot_trajectories.cpp:116-149, given the ground truth (`times.at(0)` and `poses.at(0)`). The covariances of the files are not handed to the association. `none`: the exit, and failed assertions of the alignment. -/
noncomputable def plotEst (svd : M3 → M3 × V3 × M3) (m : Method) (G E : Traj Pose M3) : Option (List ℝ × List Pose) :=
  (performAssociation (0 : M3) 0 0.02 ⟨E.times, E.poses, [], []⟩ ⟨G.times, G.poses, [], []⟩).bind fun EG =>
    if EG.1.poses.length < 3 then none
    else (alignTrajectory svd EG.1.poses EG.2.poses m (-1)).map fun a => (EG.1.times, EG.1.poses.map (applyAlign a))

/-- the loop over the files, plot_trajectories.cpp:106-162, the first of which is the ground truth. `none`: the exits; no file at all is refused at 94. -/
noncomputable def plotLoad (svd : M3 → M3 × V3 × M3) (m : Method) : List (List Char × List Row) → Option (List Shown)
  | [] => none
  | f :: fs => (loadData f.2).bind fun G =>
    (fs.mapM fun x => (loadData x.2).bind fun E => (plotEst svd m G E).map fun p => (⟨stemOf x.1, p.1, p.2⟩ : Shown)).map fun l =>
      ⟨stemOf f.1, G.times, G.poses⟩ :: l

/-- the line printed about a file, plot_trajectories.cpp:154-155: its name, how many poses, how long -/
noncomputable def plotLine (x : Shown) : List Char × ℕ × ℝ := (x.name, x.times.length, totalLength x.poses)

/-- `plot_xy_positions`, plot_trajectories.cpp:45-62 -/
def plotXY (x : Shown) : List (ℝ × ℝ) := x.poses.map fun p => (p.p 0, p.p 1)

/-- `plot_z_positions`, plot_trajectories.cpp:65-83, with the times from the first one of the ground truth, 187-193; `none`: `times.at` throws -/
def plotZ (t0 : ℝ) (x : Shown) : Option (List (ℝ × ℝ)) :=
  if x.times.length < x.poses.length then none else some ((x.times.zip x.poses).map fun y => (y.1 - t0, y.2.p 2))

/-- the two figures, plot_trajectories.cpp:166-208, built with Python; `none`: `colors.at(i)` throws, there are six colours. -/
noncomputable def plotFigures (l : List Shown) : Option (List (List Char × List (ℝ × ℝ)) × List (List Char × List (ℝ × ℝ))) :=
  if 6 < l.length then none
  else (l.mapM fun x => (plotZ (((l.head?).bind fun g => g.times.head?).getD 0) x).map fun z => (x.name, z)).map fun zs => (l.map fun x => (x.name, plotXY x), zs)

/-! ## error_singlerun -/

/-- `calculate_nees` of ResultTrajectory.cpp:237-287 as the program sees it: times and values that are numbers; nothing without covariances -/
noncomputable def neesValues (r : Result) : List (ℝ × ℝ × ℝ) :=
  ((nees r).getD []).filterMap fun x => (x.2.1).bind fun a => (x.2.2).map fun b => (x.1, a, b)

/-- what `error_singlerun` prints and plots -/
structure Single where
  ateOri : Stat
  atePos : Stat
  rpe : List (ℝ × Stat × Stat)
  neesOri : Stat
  neesPos : Stat
  neesPlot : List (ℝ × ℝ × ℝ)
  errPlot : List (ℝ × ErrOne)

/-- the times from the first one, error_singlerun.cpp:227-232, 279-291 -/
def fromFirst {α : Type} (l : List (ℝ × α)) : List (ℝ × α) := l.map fun x => (x.1 - ((l.head?).map Prod.fst).getD 0, x.2)

/-- `segments`, error_singlerun.cpp:136: a `std::map` is filled with them, so they are printed in increasing order -/
def segments : List ℝ := [8, 16, 24, 32, 40]

/-- `main`, error_singlerun.cpp:85-291. `none`: the exits and exceptions. -/
noncomputable def singleRun (svd : M3 → M3 × V3 × M3) (m : Method) (gt est : List Row) : Option Single :=
  (loadData gt).bind fun _ => (resultTraj svd est gt m).bind fun r =>
    (segments.mapM fun d => (rpe r d).map fun l => (d, (Stat.fresh (l.map fun x => x.2.1)).calculate, (Stat.fresh (l.map fun x => x.2.2)).calculate)).map fun q =>
      ⟨(Stat.fresh ((ate r).map fun x => x.2.1)).calculate, (Stat.fresh ((ate r).map fun x => x.2.2)).calculate, q,
        (Stat.fresh ((neesValues r).map fun x => x.2.1)).calculate, (Stat.fresh ((neesValues r).map fun x => x.2.2)).calculate,
        fromFirst (neesValues r), fromFirst (calcError r)⟩

/-! ## pid_ros.py -/

/-- what is read of a node, pid_ros.py:126-140: processor and memory in percent, threads; `none`: an exception, zeros are recorded -/
abbrev Reading := Option (ℝ × ℝ × ℕ)

/-- the values that are recorded of a node, pid_ros.py:128-140 -/
def readingVals (x : Reading) : ℝ × ℝ × ℕ := x.getD (0, 0, 0)

/-- one line of the file, pid_ros.py:146-149 -/
noncomputable def pidRow (t : ℝ) (xs : List Reading) : Row :=
  [dec 8 t, dec 3 ((xs.map fun x => (readingVals x).1).sum), dec 3 ((xs.map fun x => (readingVals x).2.1).sum), (((xs.map fun x => (readingVals x).2.2).sum : ℕ) : ℝ)] ++
    xs.flatMap fun x => [dec 3 (readingVals x).1, dec 3 (readingVals x).2.1, ((readingVals x).2.2 : ℝ)]

end Verif.Eval
