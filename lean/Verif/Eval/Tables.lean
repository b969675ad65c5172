import Verif.Eval.Traj

/-!
# Model of the programs that make tables from many runs: ov_eval/src/error_dataset.cpp and error_comparison.cpp

An algorithm's directory is a function from dataset names to the evaluations of its runs (`none`: no such directory). Rows of different
algorithms do not influence each other (maps keyed by the algorithm's name), so one row is modelled. Printing is left out: a cell is the
pair of numbers printed, `none` is "- / -".
-/

set_option autoImplicit false
open Classical

namespace Verif.Eval

open Verif

/-- What the programs take from the evaluation of one run: times with errors (orientation, position), for each length of segments too. -/
structure RunE where
  ate : List (ℝ × (ℝ × ℝ))
  ate2d : List (ℝ × (ℝ × ℝ))
  nees : List (ℝ × (ℝ × ℝ))
  rpe : ℝ → List (ℝ × (ℝ × ℝ))

/-- The calls for one run, error_dataset.cpp:153-200. Without covariances there is no NEES; entries that are not numbers are skipped
(ResultTrajectory.cpp:273-277). `calculate_rpe` never throws (`C123_rpe`). -/
noncomputable def runOf (r : Result) : RunE where
  ate := Eval.ate r
  ate2d := Eval.ate2d r
  nees := ((Eval.nees r).getD []).filterMap fun x => x.2.1.bind fun a => x.2.2.map fun b => (x.1, (a, b))
  rpe := fun d => (Eval.rpe r d).getD []

/-- the orientation errors of a list -/
def oris (l : List (ℝ × (ℝ × ℝ))) : List ℝ := l.map (·.2.1)
/-- the position errors of a list -/
def poss (l : List (ℝ × (ℝ × ℝ))) : List ℝ := l.map (·.2.2)

/-- `rmse_dataset[t].first.values.push_back(o); rmse_dataset[t].second.values.push_back(p)`: a `std::map` by time, in order -/
noncomputable def pushAt (t o p : ℝ) : List (ℝ × (List ℝ × List ℝ)) → List (ℝ × (List ℝ × List ℝ))
  | [] => [(t, ([o], [p]))]
  | x :: m =>
    if t < x.1 then (t, ([o], [p])) :: x :: m
    else if x.1 < t then x :: pushAt t o p m
    else (x.1, (x.2.1 ++ [o], x.2.2 ++ [p])) :: m

/-- the loop over the runs that fills such a map, error_dataset.cpp:161-165, 174-178, 184-188; `f` selects the errors -/
noncomputable def gather (f : RunE → List (ℝ × (ℝ × ℝ))) (runs : List RunE) : List (ℝ × (List ℝ × List ℝ)) :=
  runs.foldl (fun m r => (f r).foldl (fun m x => pushAt x.1 x.2.1 x.2.2 m) m) []

/-- "only use times where all runs have an error", error_dataset.cpp:229-240, 246-257, 263-274; `g` is the statistic kept per time -/
noncomputable def perTime (g : Stat → ℝ) (n : ℕ) (m : List (ℝ × (List ℝ × List ℝ))) : List (ℝ × (ℝ × ℝ)) :=
  m.filterMap fun x =>
    if x.2.1.length = n then some (x.1, (g (Stat.fresh x.2.1).calculate, g (Stat.fresh x.2.2).calculate)) else none

/-- a pair of statistics as a cell: error_dataset.cpp:375-383, 385-393, error_comparison.cpp:273-283 -/
noncomputable def cell (s : Stat × Stat) : Option (ℝ × ℝ) :=
  if s.1.values = [] ∨ s.2.values = [] then none else some (s.1.calculate.mean, s.2.calculate.mean)

/-- the two statistics over the runs of one dataset: one number per run, the root mean square, then `calculate`,
error_dataset.cpp:157-160, 204-207 -/
noncomputable def overRuns (f : RunE → List (ℝ × (ℝ × ℝ))) (runs : List RunE) : Stat × Stat :=
  ((Stat.fresh (runs.map fun r => (Stat.fresh (oris (f r))).calculate.rmse)).calculate,
   (Stat.fresh (runs.map fun r => (Stat.fresh (poss (f r))).calculate.rmse)).calculate)

/-- the cell of a length of segments: all samples, error_dataset.cpp:192-200, 351-361, 407-411 -/
noncomputable def rpeCell (d : ℝ) (runs : List RunE) : ℝ × ℝ :=
  let s := Stat.fresh (runs.flatMap fun r => oris (r.rpe d))
  let s' := Stat.fresh (runs.flatMap fun r => poss (r.rpe d))
  (s.calculate.mean, s'.calculate.mean)

/-- what `error_dataset` says about one algorithm -/
structure DRow where
  ate : Option (ℝ × ℝ)
  nees : Option (ℝ × ℝ)
  rpe : List (ℝ × ℝ)
  rmse : List (ℝ × (ℝ × ℝ))
  rmse2d : List (ℝ × (ℝ × ℝ))
  neesAt : List (ℝ × (ℝ × ℝ))

/-- `error_dataset.cpp` for one algorithm, 107-361 and the tables 366-415; the algorithm is skipped when it has no directory for the
dataset (122-126) or no run in it (150-153). -/
noncomputable def datasetRow (segs : List ℝ) (dir : Option (List RunE)) : DRow :=
  match dir with
  | none => ⟨cell (Stat.fresh [], Stat.fresh []), cell (Stat.fresh [], Stat.fresh []), segs.map fun d => rpeCell d [], [], [], []⟩
  | some runs =>
    if runs = [] then
      ⟨cell (Stat.fresh [], Stat.fresh []), cell (Stat.fresh [], Stat.fresh []), segs.map fun d => rpeCell d [], [], [], []⟩
    else
      let ns := perTime Stat.mean runs.length (gather RunE.nees runs)
      ⟨cell (overRuns RunE.ate runs),
       cell ((Stat.fresh (oris ns)).calculate, (Stat.fresh (poss ns)).calculate),
       segs.map fun d => rpeCell d runs,
       perTime Stat.rmse runs.length (gather RunE.ate runs),
       perTime Stat.rmse runs.length (gather RunE.ate2d runs),
       ns⟩

/-- what `error_comparison` says about one algorithm: a cell per dataset, the average (`none`: the quotient 0/0), the segments -/
structure CRow where
  cells : List (Option (ℝ × ℝ))
  average : Option (ℝ × ℝ)
  rpe : List (ℝ × ℝ)

/-- the statistics of one dataset, error_comparison.cpp:134-229; a missing directory leaves the new object -/
noncomputable def compStat (f : RunE → List (ℝ × (ℝ × ℝ))) (dir : String → Option (List RunE)) (g : String) : Stat × Stat :=
  match dir g with
  | none => (Stat.fresh [], Stat.fresh [])
  | some runs => overRuns f runs

/-- the sums of the last column, error_comparison.cpp:269-287 -/
noncomputable def sums (l : List (Option (ℝ × ℝ))) : ℝ × ℝ × ℕ :=
  l.foldl (fun a c => match c with | none => a | some x => (a.1 + x.1, a.2.1 + x.2, a.2.2 + 1)) (0, 0, 0)

/-- `error_comparison.cpp` for one algorithm and the datasets `gts`; `f` is the error, in space or in the plane. -/
noncomputable def comparisonRow (f : RunE → List (ℝ × (ℝ × ℝ))) (segs : List ℝ) (gts : List String)
    (dir : String → Option (List RunE)) : CRow :=
  let cs := gts.map fun g => cell (compStat f dir g)
  let s := sums cs
  ⟨cs, if s.2.2 = 0 then none else some (s.1 / s.2.2, s.2.1 / s.2.2), segs.map fun d => rpeCell d (gts.flatMap fun g => (dir g).getD [])⟩

end Verif.Eval
