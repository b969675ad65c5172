import Verif.Tri.Model

/-!
# Model of the triangulation of active tracks

Source: `ov_msckf/src/core/VioManagerHelper.cpp` (`retriangulate_active_tracks`, lines 190-386), called for images of camera 0 (`VioManager.cpp`:555-558); its results are what `get_active_tracks` returns.

Simplifications: maps are functions to `Option`; the clone of the image time exists (it was just made, C78/C106); the image for display and timing are left out; the QR solve is the matrix inverse and the condition number is a parameter, as in
`Tri.triangulate`; the early return (line 307) is left out: it is taken when there is nothing to report, and then the loops that follow do nothing.
-/

set_option autoImplicit false
open Classical

namespace Verif.Retri

open Verif Verif.Tri

/-- `active_feat_linsys_A`, `_b`, `_count` of one feature: the three maps always have the same keys. -/
structure Sys where
  A : M3
  b : V3
  n : ℕ

/-- what one camera of the message tracks: camera id, and for every tracked point its id, pixel and normalised coordinates (`get_last_obs`, `get_last_ids`, `undistort_cv`). -/
structure CamPts where
  cam : ℕ
  pts : List (ℕ × V2 × V2)

/-- a landmark of the state: its coordinates and, if it is anchored, the pose of its anchor camera's clone (`R_GtoI`, `p_IinG`) and that camera's calibration (`R_ItoC`, `p_IinC`). -/
structure SlamPt where
  x : V3
  anchor : Option (CPose × CPose)

/-- an image: the clone at its time (`R_GtoI`, `p_IinG`), calibration (`R_ItoC`, `p_IinC`) of every camera, the cameras of the message, the landmarks of the state and the size of images of camera 0. -/
structure RMsg where
  clone : CPose
  calib : ℕ → CPose
  cams : List CamPts
  slam : ℕ → Option SlamPt
  width : ℤ
  height : ℤ

/-- `params.featinit_options` and the condition number. -/
structure RCfg where
  maxCond : ℝ
  minDist : ℝ
  maxDist : ℝ
  cond : M3 → ℝ

/-- `R_GtoCi`, `p_CiinG`, VioManagerHelper.cpp:222-232. -/
def camPose (I C : CPose) : CPose := ⟨C.R * I.R, I.p - (C.R * I.R).transpose.mulVec C.p⟩

/-- `Ai`, `bi`, VioManagerHelper.cpp:251-261. -/
noncomputable def ray (P : CPose) (uv : V2) : M3 × V3 :=
  let B := skew (unit (P.R.transpose.mulVec (homog uv)))
  (B.transpose * B, (B.transpose * B).mulVec P.p)

/-- the maps that are filled: the new systems and the new positions. -/
structure Acc where
  sys : ℕ → Option Sys
  pos : ℕ → Option V3

/-- the new system of a feature, VioManagerHelper.cpp:262-270. `insert` does not overwrite, `operator[]` does. -/
noncomputable def addSys (old new : Option Sys) (r : M3 × V3) : Sys :=
  match old with
  | none => (match new with
    | none => ⟨r.1, r.2, 1⟩
    | some s => s)
  | some s => ⟨r.1 + s.A, r.2 + s.b, 1 + s.n⟩

/-- the position of a feature with enough observations, VioManagerHelper.cpp:272-294 -/
noncomputable def solveSys (F : RCfg) (P : CPose) (s : Sys) : Option V3 :=
  let p := s.A⁻¹.mulVec s.b
  let pC := P.R.mulVec (p - P.p)
  if 3 < s.n ∧ s.A.det ≠ 0 ∧ |F.cond s.A| ≤ F.maxCond ∧ F.minDist ≤ pC 2 ∧ pC 2 ≤ F.maxDist then some p else none

/-- one measurement, VioManagerHelper.cpp:237-295 -/
noncomputable def addPt (F : RCfg) (slam : ℕ → Option SlamPt) (old : ℕ → Option Sys) (P : CPose) (a : Acc) (m : ℕ × V2 × V2) : Acc :=
  if (slam m.1).isSome then a
  else
    let s := addSys (old m.1) (a.sys m.1) (ray P m.2.2)
    ⟨Function.update a.sys m.1 (some s), match solveSys F P s with
      | none => a.pos
      | some p => Function.update a.pos m.1 (some p)⟩

/-- the loop over the cameras, VioManagerHelper.cpp:219-296 -/
noncomputable def addAll (F : RCfg) (M : RMsg) (old : ℕ → Option Sys) : Acc :=
  M.cams.foldl (fun a c => c.pts.foldl (addPt F M.slam old (camPose M.clone (M.calib c.cam))) a) ⟨fun _ => none, fun _ => none⟩

/-- `feat_uvs_in_cam0`, VioManagerHelper.cpp:240-244 -/
def uvs0 (M : RMsg) : ℕ → Option V2 :=
  M.cams.foldl (fun u c => if c.cam = 0 then c.pts.foldl (fun u m => Function.update u m.1 (some m.2.1)) u else u) fun _ => none

/-- the global position of a landmark, VioManagerHelper.cpp:311-325 -/
def slamPos (s : SlamPt) : V3 :=
  match s.anchor with
  | none => s.x
  | some (I, C) => (I.R.transpose * C.R.transpose).mulVec (s.x - C.p) + I.p

/-- what the manager remembers between images and reports -/
structure Active where
  sys : ℕ → Option Sys
  pos : ℕ → Option V3
  uvd : ℕ → Option (V2 × ℝ)

def Active.init : Active := ⟨fun _ => none, fun _ => none, fun _ => none⟩

/-- conversion of a double to `int`: towards zero -/
noncomputable def toInt (x : ℝ) : ℤ := if 0 ≤ x then ⌊x⌋ else ⌈x⌉

/-- pixel and depth of a feature in camera 0, VioManagerHelper.cpp:337-380 -/
noncomputable def depthOf (M : RMsg) (p : Option V3) (uv : Option V2) : Option (V2 × ℝ) :=
  match p, uv with
  | some p, some uv =>
    let pC := (M.calib 0).R.mulVec (M.clone.R.mulVec (p - M.clone.p)) + (M.calib 0).p
    if pC 2 < 0.1 then none
    else if uv 0 < 0 ∨ toInt (uv 0) ≥ M.width ∨ uv 1 < 0 ∨ toInt (uv 1) ≥ M.height then none
    else some (uv, pC 2)
  | _, _ => none

/-- `retriangulate_active_tracks`, VioManagerHelper.cpp:190-386. -/
noncomputable def retri (F : RCfg) (a : Active) (M : RMsg) : Active :=
  let n := addAll F M a.sys
  let pos : ℕ → Option V3 := fun f => match M.slam f with
    | some s => some (slamPos s)
    | none => n.pos f
  ⟨n.sys, pos, fun f => depthOf M (pos f) (uvs0 M f)⟩

/-- a sequence of images -/
noncomputable def retris (F : RCfg) (Ms : List RMsg) : Active := Ms.foldl (retri F) Active.init

end Verif.Retri
