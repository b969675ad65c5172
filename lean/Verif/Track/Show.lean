import Verif.Feat.Model

/-! # Model of the pictures of the tracks: `TrackBase::display_active`, `display_history` (ov_core/src/track/TrackBase.cpp) and
`VioManager::get_historical_viz_image` (ov_msckf/src/core/VioManagerHelper.cpp)

Simplifications: what the drawing functions of OpenCV do to the pixels of an image is an arbitrary function `draw` (they clip to the
image, so the size stays), the blending with the mask is an arbitrary function `mix` of the two pixels, `black` is the empty pixel.
The conversion from grey to colour is folded into the pixels of `SCam.img`. `none`: OpenCV throws. The colours of the tracks are left
out. -/

set_option autoImplicit false

namespace Verif.Show

open Verif Verif.Feat

/-- an image: width, height, pixel at column `x` and row `y`. -/
structure Pic (α : Type) where
  w : ℕ
  h : ℕ
  px : ℕ → ℕ → α

/-- one entry of `img_last` and `img_mask_last`, in the order of the map: camera id, image, mask. -/
structure SCam (α : Type) where
  id : ℕ
  img : Pic α
  mask : Pic Bool

/-- the largest width, TrackBase.cpp:55-60, 134-139 (starts at -1 in the code, which no image has). -/
def maxW {α : Type} (cams : List (SCam α)) : ℕ := cams.foldl (fun m c => if m < c.img.w then c.img.w else m) 0

/-- the largest height, TrackBase.cpp:61-62, 140-141. -/
def maxH {α : Type} (cams : List (SCam α)) : ℕ := cams.foldl (fun m c => if m < c.img.h then c.img.h else m) 0

/-- One camera, TrackBase.cpp:83-114, 165-225: the image drawn on is the camera's (`fresh`; `cvtColor` throws on an empty one) or the
panel of the picture, a view of width `W` and height `H`. `addWeighted` throws unless the mask has its size, `copyTo` into the
rectangle of the camera's size throws unless it has that size too (a temporary `Mat` is an output of fixed size). In the second case the
drawing is in place, which is the same if the sizes agree. -/
def step {α : Type} (mix : Bool → α → α) (draw : ℕ → Pic α → ℕ → ℕ → α) (fresh : Bool) (W H : ℕ) (out : Pic α) (i : ℕ) (c : SCam α) :
    Option (Pic α) :=
  if fresh = true ∧ (c.img.w = 0 ∨ c.img.h = 0) then none
  else
    let tmp : Pic α := if fresh then c.img else ⟨W, H, fun x y => out.px (W * i + x) y⟩
    if c.mask.w = tmp.w ∧ c.mask.h = tmp.h ∧ tmp.w = c.img.w ∧ tmp.h = c.img.h then
      some ⟨out.w, out.h, fun x y =>
        if W * i ≤ x ∧ x < W * i + c.img.w ∧ y < c.img.h then mix (c.mask.px (x - W * i) y) (draw c.id tmp (x - W * i) y) else out.px x y⟩
    else none

/-- the loop over the cameras, TrackBase.cpp:80-116, 162-227. -/
def loop {α : Type} (mix : Bool → α → α) (draw : ℕ → Pic α → ℕ → ℕ → α) (fresh : Bool) (W H : ℕ) :
    ℕ → List (SCam α) → Pic α → Option (Pic α)
  | _, [], out => some out
  | i, c :: cs, out => (step mix draw fresh W H out i c).bind fun o => loop mix draw fresh W H (i + 1) cs o

/-- `TrackBase::display_active` (TrackBase.cpp:43-117) and `display_history` (119-228), which differ in what they draw. -/
def display {α : Type} (black : α) (mix : Bool → α → α) (draw : ℕ → Pic α → ℕ → ℕ → α) (cams : List (SCam α)) (out : Pic α) :
    Option (Pic α) :=
  if cams = [] then some out
  else if cams.length * maxW cams ≠ out.w ∨ maxH cams ≠ out.h then
    loop mix draw true (maxW cams) (maxH cams) 0 cams ⟨cams.length * maxW cams, maxH cams, fun _ _ => black⟩
  else loop mix draw false (maxW cams) (maxH cams) 0 cams out

/-- `VioManager::get_historical_viz_image`, VioManagerHelper.cpp:389-415: an empty image, the tracker of features, and if there is one
the tracker of tags on top. -/
def viz {α : Type} (black : α) (mix : Bool → α → α) (drawF drawT : ℕ → Pic α → ℕ → ℕ → α) (feats : List (SCam α))
    (tags : Option (List (SCam α))) : Option (Pic α) := do
  let o ← display black mix drawF feats ⟨0, 0, fun _ _ => black⟩
  match tags with
  | none => some o
  | some t => display black mix drawT t o

/-- the point a line is drawn to, TrackBase.cpp:200-204. -/
def nextOf {U : Type} (us : List U) (z : ℕ) : Option (Option U) :=
  if z + 1 < us.length then (us[z + 1]?).map some else some none

/-- the loop over the history of a feature, TrackBase.cpp:187-210: `z` counts down to one; each entry is a point and the next one it is
joined to. -/
def tailLoop {U : Type} (us : List U) : ℕ → Option (List (U × Option U))
  | 0 => some []
  | z + 1 =>
    if us.length - (z + 1) > 50 then some []
    else
      (us[z + 1]?).bind fun c =>
        (nextOf us (z + 1)).bind fun n => (tailLoop us z).bind fun r => some ((c, n) :: r)

/-- what is drawn for one entry of `ids_last`: the box around the point if it is highlighted, and the history. -/
structure Item (U : Type) where
  id : ℕ
  box : Option U
  seg : List (U × Option U)

/-- the history drawn for one keypoint, TrackBase.cpp:181-210 (`get_feature_clone`: FeatureDatabase.cpp:41-57): none if the feature is
not in the database, has no observation in this camera or is to be deleted. -/
def history {T U : Type} (db : DB T U) (cam id : ℕ) : Option (List (U × Option U)) :=
  match db.get? id with
  | none => some []
  | some f =>
    if f.uvs.isEmpty || (f.uvs.getL cam).isEmpty || f.toDelete then some []
    else tailLoop (f.uvs.getL cam) ((f.uvs.getL cam).length - 1)

/-- the box around a highlighted keypoint, TrackBase.cpp:173-180. -/
def boxOf {U : Type} (hl : List ℕ) (pts : List U) (i id : ℕ) : Option (Option U) :=
  if hl.contains id then (pts[i]?).map some else some none

/-- the loop over the keypoints of a camera, TrackBase.cpp:171-211. -/
def items {T U : Type} (db : DB T U) (cam : ℕ) (hl : List ℕ) (pts : List U) : ℕ → List ℕ → Option (List (Item U))
  | _, [] => some []
  | i, id :: ids =>
    (boxOf hl pts i id).bind fun box =>
      (history db cam id).bind fun seg =>
        (items db cam hl pts (i + 1) ids).bind fun r => some (⟨id, box, seg⟩ :: r)

end Verif.Show
