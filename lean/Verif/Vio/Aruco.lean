import Verif.Vio.Loop
import Verif.Track.Ids

/-!
# Model of the tag tracker (`ov_core/src/track/TrackAruco.cpp`)

Modelled: which corners are stored, with which ids and coordinates, and the parallel processing of the images of a message. OpenCV's detector is an oracle: any list of tags with any lists of corners. The first accesses `ids_aruco[cam_id]`, `corners[cam_id]` and
`rejects[cam_id]` insert into unordered maps from parallel calls without a lock; that data race is outside the model (DESIGN.md).
-/

set_option autoImplicit false
open Classical

namespace Verif.Vio

open Verif Verif.Feat Verif.Disp

/-- `(int)x` for a `float`, as in the lookup of the mask, `ov_core/src/track/TrackAruco.cpp:142` -/
noncomputable def truncR (x : ℝ) : ℤ := if 0 ≤ x then ⌊x⌋ else ⌈x⌉

/-- a detected tag (`ids_aruco`, `corners`; `ov_core/src/track/TrackAruco.cpp:99-104`): its number and its corners in the image searched -/
structure Det where
  tag : ℕ
  corners : List Uv

/-- one image of a message (arguments of `perform_tracking`, `ov_core/src/track/TrackAruco.cpp:59`): the camera, what OpenCV detects, and the mask (`none` outside of it) by row and column -/
structure TagImg where
  cam : ℕ
  dets : List Det
  mask : ℤ → ℤ → Option ℕ

/-- `ov_core/src/track/TrackAruco.cpp:107-123`: measured in the half size image, the corners are doubled -/
def scaled (down : Bool) (p : Uv) : Uv := if down then (p.1 * 2, p.2 * 2) else p

/-- the loop over the corners of one tag, `ov_core/src/track/TrackAruco.cpp:139-154`: ids and pixels from corner `n` on; `none`: the mask is read outside of the image. -/
noncomputable def cornerLoop (maxTag tag : ℕ) (down : Bool) (mask : ℤ → ℤ → Option ℕ) : ℕ → List Uv → Option (List (ℕ × Uv))
  | _, [] => some []
  | n, p :: ps =>
    match mask (truncR (scaled down p).2) (truncR (scaled down p).1) with
    | none => none
    | some v => (cornerLoop maxTag tag down mask (n + 1) ps).map fun r => if 127 < v then r else (tag + n * maxTag, scaled down p) :: r

/-- the loop over the tags, `ov_core/src/track/TrackAruco.cpp:133-155`; `none`: the assertion that a tag has four corners fails. -/
noncomputable def tagLoop (maxTag : ℕ) (down : Bool) (mask : ℤ → ℤ → Option ℕ) : List Det → Option (List (ℕ × Uv))
  | [] => some []
  | d :: ds =>
    if maxTag < d.tag then tagLoop maxTag down mask ds
    else if d.corners.length ≠ 4 then none
    else (cornerLoop maxTag d.tag down mask 0 d.corners).bind fun a => (tagLoop maxTag down mask ds).map fun b => a ++ b

/-- `perform_tracking` for one image, `ov_core/src/track/TrackAruco.cpp:59-167`: the calls of `update_feature` it makes, in order. `ids_last` and `pts_last` of the camera become their ids and pixels (lines 161-167). `undist` is `undistort_cv` of the camera. -/
noncomputable def arucoCalls (maxTag : ℕ) (down : Bool) (undist : ℕ → Uv → Uv) (x : TagImg) : Option (List Seen) :=
  (tagLoop maxTag down x.mask x.dets).map fun l => l.map fun e => (e.1, x.cam, e.2, undist x.cam e.2)

/-- an interleaving of the calls made by the parallel workers of `parallel_for_` (`ov_core/src/track/TrackAruco.cpp:46-50`), each in its own order -/
inductive Weave {α : Type} : List (List α) → List α → Prop
  | done (qs : List (List α)) (h : ∀ q ∈ qs, q = []) : Weave qs []
  | step (qs : List (List α)) (k : ℕ) (a : α) (r l : List α) (h : qs[k]? = some (a :: r)) (hl : Weave (qs.set k r) l) : Weave qs (a :: l)

/-- `feed_new_camera`, `ov_core/src/track/TrackAruco.cpp:31-55`, without the check of the sizes: the images of a message are processed in parallel, every call of `update_feature` under the lock of the database; `l` is the order of the calls. -/
def ArucoFeed (maxTag : ℕ) (down : Bool) (undist : ℕ → Uv → Uv) (imgs : List TagImg) (l : List Seen) : Prop :=
  ∃ qs, imgs.mapM (arucoCalls maxTag down undist) = some qs ∧ Weave qs l

end Verif.Vio
