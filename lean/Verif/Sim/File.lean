import Verif.Sim.Spline

/-!
# Model of `DatasetReader::load_simulated_trajectory`, ov_core/src/utils/dataset_reader.h:177-233, on the characters of the file
-/

set_option autoImplicit false
open Classical

namespace Verif.Sim

open Verif

/-- the fields `std::getline(s, field, d)` gives until it fails, `acc` being the characters of the current field in reverse: at the end of the text it fails if it could extract no character. Lines of the file (dataset_reader.h:193) and fields
of a line (:206) -/
def getlines (d : Char) : List Char → List Char → List (List Char)
  | acc, [] => if acc = [] then [] else [acc.reverse]
  | acc, c :: cs => if c = d then acc.reverse :: getlines d [] cs else getlines d (c :: acc) cs

/-- the loop over the fields of a line, dataset_reader.h:206-213, `data` being the entries set so far (`i` is their number); `atof` is arbitrary -/
def readFields (atof : List Char → ℝ) : List (List Char) → List ℝ → List ℝ
  | [], data => data
  | f :: fs, data => if f = [] ∨ 8 ≤ data.length then readFields atof fs data else readFields atof fs (data ++ [atof f])

/-- `!current_line.find("#")`, dataset_reader.h:196: the first position is zero -/
def isComment (l : List Char) : Bool := l.head? == some '#'

/-- the loop over the lines, dataset_reader.h:193-223 -/
def readLines (atof : List Char → ℝ) : List (List Char) → List (List ℝ) → List (List ℝ)
  | [], out => out
  | l :: ls, out =>
    if isComment l then readLines atof ls out
    else
      let data := readFields atof (getlines ' ' [] l) []
      if 7 < data.length then readLines atof ls (out ++ [data]) else readLines atof ls out

/-- `load_simulated_trajectory` of the text of the file (which could be opened) into an empty vector, as Simulator.cpp:62 and SimulatorInit.cpp:61 call it. `none`: the exit when there is no data, dataset_reader.h:229-233 -/
noncomputable def loadTraj (atof : List Char → ℝ) (text : List Char) : Option (List (List ℝ)) :=
  let rows := readLines atof (getlines '\n' [] text) []
  if rows = [] then none else some rows

/-- a row as `feed_trajectory` takes it apart: time, position, orientation; BsplineSE3.cpp:41-44 -/
noncomputable def rowPt (r : List ℝ) : TrajPt := ⟨r.getD 0 0, ![r.getD 1 0, r.getD 2 0, r.getD 3 0], ⟨r.getD 4 0, r.getD 5 0, r.getD 6 0, r.getD 7 0⟩⟩

/-- the spline of a simulation, Simulator.cpp:62-64, SimulatorInit.cpp:61-63; `n` as in `feedTrajectory` -/
noncomputable def simSpline (atof : List Char → ℝ) (n : ℕ) (text : List Char) : Option Fed :=
  (loadTraj atof text).bind fun rows => feedTrajectory n (rows.map rowPt)

end Verif.Sim
