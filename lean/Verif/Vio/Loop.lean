import Verif.Vio.Frame

/-!
# Model of the image path with the databases kept between images

Source: `ov_msckf/src/core/VioManager.cpp`, `feed_measurement_imu` and `track_image_and_update`. `Vio.Frame` takes the databases of an image as given; here the trackers add what they see in the image to the databases the
previous image left.

Simplification: what the trackers find in an image is an input (any features in any cameras); see `Track` for the trackers.
-/

set_option autoImplicit false
open Classical

namespace Verif.Vio

open Verif Verif.Types Verif.St Verif.Imu Verif.Prop_ Verif.Feat Verif.Disp

/-- an observation of a tracker: feature, camera, pixel, normalised pixel. -/
abbrev Seen := ℕ × ℕ × Uv × Uv

/-- an image as the trackers see it: time, `sensor_ids`, what `trackFEATS` and `trackARUCO` find; normalised coordinates and earlier content of `p_FinA` as in `Img`. -/
structure Shot where
  t : ℝ
  cams : List ℕ
  feats : List Seen
  tags : List Seen
  norm : ℕ → ℕ → ℝ → Tri.V2
  stale : ℕ → V3

/-- the calls of `update_feature` at the end of the trackers' `feed_new_camera` (TrackKLT.cpp:178, 359-366, TrackDescriptor.cpp:154, 320-323, TrackAruco.cpp:148, TrackSIM.cpp:63). -/
noncomputable def trackAll (db : DB ℝ Uv) (t : ℝ) (l : List Seen) : DB ℝ Uv := l.foldl (fun db o => updateFeature db o.1 t o.2.1 o.2.2.1 o.2.2.2) db

/-- the databases after tracking, VioManager.cpp:277-286 (200-217 in simulation). -/
noncomputable def shotImg (x : FMgr) (S : Shot) : Img := ⟨trackAll x.m.db S.t S.feats, x.aruco.map fun a => trackAll a S.t S.tags, S.t, S.cams, S.norm, S.stale⟩

/-- what is fed to the manager. -/
inductive LEv where
  | imu (r : Reading)
  | shot (S : Shot)

noncomputable def LEv.run (lib : Lib) (F : FCfg) (x : FMgr) : LEv → Option FMgr
  | .imu r => some { x with m := feedImu F.mgr x.m r }
  | .shot S => frame lib F x (shotImg x S)

noncomputable def runL (lib : Lib) (F : FCfg) : FMgr → List LEv → Option FMgr
  | x, [] => some x
  | x, e :: es => (e.run lib F x).bind fun y => runL lib F y es

end Verif.Vio
