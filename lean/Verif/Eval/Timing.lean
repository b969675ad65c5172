import Verif.Eval.Record

/-!
# Model of the timing statistics: the file written by ov_msckf/src/core/VioManager.cpp, `load_timing_flamegraph` and `load_timing_percent` (ov_eval/src/utils/Loader.cpp), timing_flamegraph.cpp, timing_comparison.cpp, timing_percentages.cpp (ov_eval/src)

A line is the list of its fields between the separators: texts for a line that starts with `#`, otherwise the numbers `atof` reads back (`Ros.dec`). Fields that are empty are left out of lines of numbers, as the loaders do.
-/

set_option autoImplicit false
open Classical

namespace Verif.Eval

open Verif Verif.Ros

/-- a line of a timing file -/
inductive TLine
  | names (f : List String)
  | nums (r : Row)

/-- one image processed to the end: the time of the state in the clock of the IMU, and the readings `rT1` to `rT7` of the wall clock in microseconds (VioManager.cpp:266-600) -/
structure TimeRec where
  t : ℝ
  rT : Fin 7 → ℤ

/-- `(b - a).total_microseconds() * 1e-6`, VioManager.cpp:606-612 -/
noncomputable def secs (a b : ℤ) : ℝ := ((b - a : ℤ) : ℝ) * 1e-6

/-- the first line, VioManager.cpp:117-121; `slam`: `max_slam_features > 0` -/
def timingHead (slam : Bool) : List String :=
  ["# timestamp (sec)", "tracking", "propagation", "msckf update"] ++ (if slam then ["slam update", "slam delayed"] else []) ++ ["re-tri & marg", "total"]

/-- the line of an image, VioManager.cpp:606-612, 631-644 -/
noncomputable def timingLine (slam : Bool) (x : TimeRec) : Row :=
  [dec 15 x.t] ++ ([secs (x.rT 0) (x.rT 1), secs (x.rT 1) (x.rT 2), secs (x.rT 2) (x.rT 3)] ++ (if slam then [secs (x.rT 3) (x.rT 4), secs (x.rT 4) (x.rT 5)] else []) ++
    [secs (x.rT 5) (x.rT 6), secs (x.rT 0) (x.rT 6)]).map (dec 5)

/-- the file after a sequence of images, VioManager.cpp:106-122 (an old file is deleted first), 631-644 -/
noncomputable def recordTiming (slam : Bool) (l : List TimeRec) : List TLine := .names (timingHead slam) :: l.map fun x => .nums (timingLine slam x)

/-- what is read of a timing file -/
structure Timing where
  names : List String
  times : List ℝ
  rows : List Row

/-- the loop of `load_timing_flamegraph`, Loader.cpp:253-297. `none`: a line without a number, for which a vector of size -1 is made. -/
def flameLoop : List TLine → Timing → Option Timing
  | [], T => some T
  | .names f :: ls, T => flameLoop ls { T with names := (f.filter fun s => s ≠ "").drop 1 }
  | .nums [] :: _, _ => none
  | .nums (x :: xs) :: ls, T => flameLoop ls { T with times := T.times ++ [x], rows := T.rows ++ [xs] }

/-- `load_timing_flamegraph`, Loader.cpp:240-319. `none`: the exits as well. -/
noncomputable def loadFlame (ls : List TLine) : Option Timing :=
  (flameLoop ls ⟨[], [], []⟩).bind fun T =>
    if T.rows = [] then none else if ∃ r ∈ T.rows, r.length ≠ T.names.length then none else some T

/-- `stats.at(c).values.push_back(timing_values.at(i)(c))` over all categories and rows, timing_flamegraph.cpp:69-79, timing_comparison.cpp:76-86 -/
def fillCols (n : ℕ) (rows : List Row) : List (List ℝ) := rows.foldl (fun cs r => cs.zipWith (fun c x => c ++ [x]) r) (List.replicate n [])

/-- what is printed for each category, timing_flamegraph.cpp:81-86, timing_comparison.cpp:88-93 -/
noncomputable def flameStats (T : Timing) : List (String × Stat) := T.names.zip ((fillCols T.names.length T.rows).map fun c => (Stat.fresh c).calculate)

/-- `t % keep_every == 0` over the indices, timing_flamegraph.cpp:91-96, 120-124, timing_comparison.cpp:127-138 -/
def keepEvery {α : Type} (k : ℕ) (l : List α) : List α := (l.zipIdx.filter fun x => x.2 % k == 0).map Prod.fst

/-- `int keep_every` as an operand beside a `size_t` -/
def sizeT (k : ℤ) : ℕ := (k % 2 ^ 64).toNat

/-- the plot of timing_flamegraph.cpp:90-127: times from the first kept, the categories but the last with their kept values. `none`: division by zero; `names.at(0)` of no names. -/
noncomputable def flamePlot (k : ℤ) (T : Timing) : Option (List ℝ × List (String × List ℝ)) :=
  if sizeT k = 0 then none else if T.names = [] then none
  else
    let ts := keepEvery (sizeT k) T.times
    some (ts.map fun t => t - ts.headD 0, (T.names.zip ((fillCols T.names.length T.rows).map (keepEvery (sizeT k)))).take (T.names.length - 1))

/-- timing_comparison.cpp:57-102: for each file its name, its times and the statistics of its last category; a file without a category is left out. `none`: a file cannot be loaded. -/
noncomputable def compareTotals : List (String × List TLine) → Option (List (String × List ℝ × Stat))
  | [] => some []
  | f :: fs => (loadFlame f.2).bind fun T => (compareTotals fs).map fun r =>
    match (flameStats T).getLast? with
    | none => r
    | some s => (f.1, T.times, s.2) :: r

/-- the lines plotted by timing_comparison.cpp:114-148: every tenth time and value, times from the first of the first file. `none`: `total_times.at(0)` of no files. -/
noncomputable def comparePlot (tot : List (String × List ℝ × Stat)) : Option (List (String × List ℝ × List ℝ)) :=
  match tot with
  | [] => none
  | z :: _ => some (tot.map fun x => (x.1, keepEvery 10 (x.2.1.map fun t => t - z.2.1.headD 0), keepEvery 10 x.2.2.values))

/-- the loop of `load_timing_percent`, Loader.cpp:332-366: time and summed values (processor, memory, threads) of the rows with threads; the values of the nodes are not used by the program and are left out. `none`: `temp(3)` outside of the vector. -/
noncomputable def percentLoop : List Row → Option (List (ℝ × ℝ × ℝ × ℝ))
  | [] => some []
  | r :: rs =>
    if r.length < 4 then none
    else if r.getD 3 0 = 0 then percentLoop rs
    else (percentLoop rs).map fun l => (r.getD 0 0, r.getD 1 0, r.getD 2 0, r.getD 3 0) :: l

/-- `load_timing_percent`, Loader.cpp:321-386, of the lines that are not comments -/
noncomputable def loadPercent (rs : List Row) : Option (List (ℝ × ℝ × ℝ × ℝ)) := (percentLoop rs).bind fun l => if l = [] then none else some l

/-- `path.stem()`: the name without its last extension (the name is not `.` or `..`), timing_percentages.cpp:76, 113 -/
def stemOf (name : List Char) : List Char := if '.' ∈ name then ((name.reverse.dropWhile fun c => c ≠ '.').drop 1).reverse else name

/-- the three statistics of an algorithm -/
structure Perc where
  cpu : Stat
  mem : Stat
  thr : Stat

/-- `values.push_back` for all rows and `calculate`, timing_percentages.cpp:113-130 -/
noncomputable def Perc.feed (p : Perc) (l : List (ℝ × ℝ × ℝ × ℝ)) : Perc where
  cpu := ({ p.cpu with values := p.cpu.values ++ l.map (·.2.1) } : Stat).calculate
  mem := ({ p.mem with values := p.mem.values ++ l.map (·.2.2.1) } : Stat).calculate
  thr := ({ p.thr with values := p.thr.values ++ l.map (·.2.2.2) } : Stat).calculate

/-- all files of a directory, in the order of the iterator, timing_percentages.cpp:91-110 -/
noncomputable def loadDir : List (List Row) → Option (List (ℝ × ℝ × ℝ × ℝ))
  | [] => some []
  | f :: fs => (loadPercent f).bind fun a => (loadDir fs).map fun b => a ++ b

/-- the loop over the directories, timing_percentages.cpp:81-133: the map from names to statistics (new ones for every name, lines 73-77) and what is displayed, in order -/
noncomputable def percentRun : (List Char → Perc) → List (List Char × List (List Row)) → Option (List (List Char × Perc))
  | _, [] => some []
  | M, d :: ds => (loadDir d.2).bind fun l =>
    (percentRun (Function.update M (stemOf d.1) ((M (stemOf d.1)).feed l)) ds).map fun r => (stemOf d.1, (M (stemOf d.1)).feed l) :: r

/-- `timing_percentages`: what is displayed for the directories -/
noncomputable def percentages (ds : List (List Char × List (List Row))) : Option (List (List Char × Perc)) := percentRun (fun _ => ⟨Stat.fresh [], Stat.fresh [], Stat.fresh []⟩) ds

end Verif.Eval
