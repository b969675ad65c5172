import Verif.Feat.Model
import Mathlib.Analysis.SpecialFunctions.Pow.Real

/-!
# Model of `ov_core::FeatureHelper` (disparity statistics)

Source: `ov_core/src/feat/FeatureHelper.h`.  Real arithmetic instead of `float`/`double`; a division `0/0` (NaN in the code) is `none`.
`none` as the result of a whole function: an `.at()` throws.
-/

open Classical

namespace Verif.Disp

open Verif Verif.Feat

/-- raw pixel coordinates (`Eigen::Vector2f`) -/
abbrev Uv := ℝ × ℝ

/-- `(uv1 - uv0).norm()`, FeatureHelper.h:86, 155 -/
noncomputable def dist (u1 u0 : Uv) : ℝ := Real.sqrt ((u1.1 - u0.1) ^ 2 + (u1.2 - u0.2) ^ 2)

/-- a loop that appends what each step yields; stops if a step throws. -/
def catM {α β : Type} (g : α → Option (List β)) : List α → Option (List β)
  | [] => some []
  | a :: l => do
    let x ← g a
    let y ← catM g l
    pure (x ++ y)

/-- the camera loop body of the two-image version, FeatureHelper.h:72-87 -/
noncomputable def camDisp (f : Feature ℝ Uv) (t0 t1 : ℝ) (cp : Nat × List ℝ) : Option (List ℝ) :=
  if t0 ∈ cp.2 ∧ t1 ∈ cp.2 then do
    let us ← f.uvs.get? cp.1
    let u0 ← us[cp.2.idxOf t0]?
    let u1 ← us[cp.2.idxOf t1]?
    pure [dist u1 u0]
  else some []

/-- the displacements collected by the two-image version, FeatureHelper.h:63-89 -/
noncomputable def disparities (db : DB ℝ Uv) (t0 t1 : ℝ) : Option (List ℝ) :=
  catM (fun f => catM (camDisp f t0 t1) f.times) (featuresContaining db t0 false true).1

/-- what the functions report; `none` is NaN. -/
structure Stats where
  mean : Option ℝ
  var : Option ℝ
  total : ℕ

/-- FeatureHelper.h:91-107 and 160-176: the block for fewer than two values assigns -1, -1, 0 but does not return, so the assignments after it always take effect.
With no value the mean is `0/0` and the deviation `sqrt(0 / (double)(size_t(0) - 1)) = 0`; with one value the deviation is `0/0`. -/
noncomputable def stats (ds : List ℝ) : Stats :=
  let s0 : Stats := if ds.length < 2 then ⟨some (-1), some (-1), 0⟩ else ⟨none, none, 0⟩
  let mean := ds.sum / ds.length
  let dev := (ds.map fun d => (d - mean) ^ 2).sum
  { s0 with
    mean := if ds.length = 0 then none else some mean
    var := if ds.length = 0 then some 0 else if ds.length = 1 then none else some (Real.sqrt (dev / ((ds.length : ℝ) - 1)))
    total := ds.length }

/-- `compute_disparity(db, time0, time1, …)`, FeatureHelper.h:60-108 -/
noncomputable def computeDisparity (db : DB ℝ Uv) (t0 t1 : ℝ) : Option Stats := (disparities db t0 t1).map stats

/-- the index loop of the window version, FeatureHelper.h:137-150: state is (uv0 if found0, uv1 if found1). -/
noncomputable def winLoop (newest oldest : ℝ) : List (ℝ × Uv) → Option Uv × Option Uv → Option Uv × Option Uv
  | [], s => s
  | (t, u) :: l, (u0, u1) =>
    if (oldest = -1 ∨ t > oldest) ∧ u0 = none then winLoop newest oldest l (some u, u1)
    else if (newest = -1 ∨ t < newest) ∧ u0 ≠ none then winLoop newest oldest l (u0, some u)
    else winLoop newest oldest l (u0, u1)

/-- the camera loop body of the window version, FeatureHelper.h:127-156. The accesses `uvs.at(camid).at(idx)` are modelled by pairing each time with its pixel;
`none` if the pixel list is missing or shorter (slight simplification: the code would only throw when the missing entry is used). -/
noncomputable def camWin (f : Feature ℝ Uv) (newest oldest : ℝ) (cp : Nat × List ℝ) : Option (List ℝ) :=
  if cp.2.length < 2 then some []
  else do
    let us ← f.uvs.get? cp.1
    if us.length < cp.2.length then none
    else match winLoop newest oldest (cp.2.zip us) (none, none) with
      | (some u0, some u1) => some [dist u1 u0]
      | _ => some []

/-- the displacements collected by the window version, FeatureHelper.h:125-158 -/
noncomputable def disparitiesWin (db : DB ℝ Uv) (newest oldest : ℝ) : Option (List ℝ) :=
  catM (fun e => catM (camWin e.2 newest oldest) e.2.times) db

/-- `compute_disparity(db, …, newest_time, oldest_time)`, FeatureHelper.h:123-177 -/
noncomputable def computeDisparityWin (db : DB ℝ Uv) (newest oldest : ℝ) : Option Stats := (disparitiesWin db newest oldest).map stats

end Verif.Disp
