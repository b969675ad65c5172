import Verif.Eval.Timing

/-!
# Model of ov_eval/src/timing_histogram.cpp
-/

set_option autoImplicit false

open Classical

namespace Verif.Eval

open Verif Verif.Ros

/-- one figure: its label, its color, the values of which the histogram is made -/
structure Figure where
  label : String
  color : String
  values : List ℝ

/-- timing_histogram.cpp:85 -/
def histColors : List String := ["navy", "blue", "lightgreen", "green", "orange", "goldenrod", "red", "pink", "black"]

/-- the loop over times and categories, timing_histogram.cpp:65-77: `1000.0 * timing_values.at(i)(c)` is appended to the category `c` -/
noncomputable def histCols (n : ℕ) (rows : List Row) : List (List ℝ) := fillCols n (rows.map fun r => r.map fun x => 1000 * x)

/-- the figures, timing_histogram.cpp:87-94; the number of bins is passed on. `none`: `.at` throws -/
noncomputable def figures (names : List String) (cols : List (List ℝ)) : Option (List Figure) :=
  (List.range names.length).mapM fun i => (cols[i]?).bind fun v => (histColors[i % histColors.length]?).bind fun c => (names[i]?).bind fun s => some ⟨s, c, v⟩

/-- `main` of timing_histogram.cpp:44-103, from the lines of the file. `none`: the exits of the loader. -/
noncomputable def histogram (ls : List TLine) : Option (List Figure) :=
  (loadFlame ls).bind fun T => figures T.names (histCols T.names.length T.rows)

end Verif.Eval
