import Verif.Quat.Model
import Mathlib.Analysis.SpecialFunctions.Complex.Arg
import Mathlib.Analysis.SpecialFunctions.Trigonometric.Inverse

/-!
# Model of `ov_core/src/types/LandmarkRepresentation.h`, `Landmark.h` and `Landmark.cpp`
-/

open Classical

namespace Verif.Land

open Verif

/-- `LandmarkRepresentation::Representation`, LandmarkRepresentation.h:37-45. -/
inductive Rep where
  | global3d | globalFull | anchored3d | anchoredFull | anchoredMsckf | anchoredSingle | unknown
  deriving DecidableEq

/-- `as_string`, LandmarkRepresentation.h:53-67. -/
def asString (r : Rep) : String :=
  if r = .global3d then "GLOBAL_3D"
  else if r = .globalFull then "GLOBAL_FULL_INVERSE_DEPTH"
  else if r = .anchored3d then "ANCHORED_3D"
  else if r = .anchoredFull then "ANCHORED_FULL_INVERSE_DEPTH"
  else if r = .anchoredMsckf then "ANCHORED_MSCKF_INVERSE_DEPTH"
  else if r = .anchoredSingle then "ANCHORED_INVERSE_DEPTH_SINGLE"
  else "UNKNOWN"

/-- `from_string`, LandmarkRepresentation.h:75-89. -/
def fromString (s : String) : Rep :=
  if s = "GLOBAL_3D" then .global3d
  else if s = "GLOBAL_FULL_INVERSE_DEPTH" then .globalFull
  else if s = "ANCHORED_3D" then .anchored3d
  else if s = "ANCHORED_FULL_INVERSE_DEPTH" then .anchoredFull
  else if s = "ANCHORED_MSCKF_INVERSE_DEPTH" then .anchoredMsckf
  else if s = "ANCHORED_INVERSE_DEPTH_SINGLE" then .anchoredSingle
  else .unknown

/-- `is_relative_representation`, LandmarkRepresentation.h:96-100. -/
def isRelative (r : Rep) : Bool :=
  r = .anchored3d || r = .anchoredFull || r = .anchoredMsckf || r = .anchoredSingle

/-- `Landmark`, Landmark.h:39-73: representation, dimension of the underlying `Vec`, value, first estimate and the two stored bearings. A value of
dimension 1 occupies entry 0 of the triple, the other entries are 0. Ids, anchor and counters are modelled where they are used. -/
structure Lm where
  rep : Rep
  dim : ℕ
  val : V3
  fej : V3
  uv0 : V3
  uv0f : V3

/-- `Type::set_value`, Type.h:87-91, `Type::set_fej`, Type.h:97-101: the new value must have the old one's dimension (assert). -/
def Lm.set (l : Lm) (n : ℕ) (x : V3) (isfej : Bool) : Option Lm :=
  if l.dim = n then some (if isfej then { l with fej := x } else { l with val := x }) else none

/-- the point of a full inverse depth value `(θ, φ, ρ)`, Landmark.cpp:38-42. -/
noncomputable def fullXyz (v : V3) : V3 :=
  ![(1 / v 2) * Real.cos (v 0) * Real.sin (v 1), (1 / v 2) * Real.sin (v 0) * Real.sin (v 1), (1 / v 2) * Real.cos (v 1)]

/-- the point of an MSCKF inverse depth value, Landmark.cpp:47-50. -/
noncomputable def msckfXyz (v : V3) : V3 := ![(1 / v 2) * v 0, (1 / v 2) * v 1, 1 / v 2]

/-- `std::atan2(y, x)` over the reals: the argument of `x + iy` in `(-π, π]`. -/
noncomputable def atan2 (y x : ℝ) : ℝ := Complex.arg ⟨x, y⟩

/-- full inverse depth value of a point, Landmark.cpp:83-90. -/
noncomputable def toFull (p : V3) : V3 :=
  let rho := 1 / norm3 p
  ![atan2 (p 1) (p 0), Real.arccos (rho * p 2), rho]

/-- MSCKF inverse depth value of a point, Landmark.cpp:104-107. -/
noncomputable def toMsckf (p : V3) : V3 := ![p 0 / p 2, p 1 / p 2, 1 / p 2]

/-- `Landmark::get_xyz`, Landmark.cpp:26-63 (`none`: the assertion at the end). -/
noncomputable def Lm.getXyz (l : Lm) (getfej : Bool) : Option V3 :=
  match l.rep with
  | .global3d | .anchored3d => some (if getfej then l.fej else l.val)
  | .globalFull | .anchoredFull => some (fullXyz (if getfej then l.fej else l.val))
  | .anchoredMsckf => some (msckfXyz l.val)
  | .anchoredSingle => some ((1 / l.val 0) • l.uv0)
  | .unknown => none

/-- `Landmark::set_from_xyz`, Landmark.cpp:65-144 (`none`: an assertion). -/
noncomputable def Lm.setFromXyz (l : Lm) (p : V3) (isfej : Bool) : Option Lm :=
  match l.rep with
  | .global3d | .anchored3d => l.set 3 p isfej
  | .globalFull | .anchoredFull => l.set 3 (toFull p) isfej
  | .anchoredMsckf => l.set 3 (toMsckf p) isfej
  | .anchoredSingle =>
    (if isfej then { l with uv0f := (1 / p 2) • p } else { l with uv0 := (1 / p 2) • p }).set 1 ![1 / p 2, 0, 0] isfej
  | .unknown => none

/-- `Landmark::update`, Landmark.h:80-89: only the estimate is corrected, never the first estimate (`none`: size assertion). -/
def Lm.update (l : Lm) (n : ℕ) (dx : V3) : Option Lm := if n = l.dim then l.set l.dim (l.val + dx) false else none

end Verif.Land
