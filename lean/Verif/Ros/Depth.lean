import Verif.Tri.Retri

/-!
# Model of the depth image for loop closure, ov_msckf/src/ros/ROS2Visualizer.cpp:940-965 (`publish_loopclosure_information`; the same in ROS1Visualizer.cpp)

The image for the eye (`depthmap_viz`), and the order of the `unordered_map`, which is that of the list, are left out.
-/

set_option autoImplicit false
open Classical

namespace Verif.Ros

open Verif Verif.Tri Verif.Retri

/-- `depthmap`: row and column to 16 bits -/
abbrev DImg := ℤ → ℤ → ℤ

/-- `cv::Mat::zeros`, 945 -/
def DImg.zero : DImg := fun _ _ => 0

/-- the conversion of a double to `uint16_t`: undefined (`none`) unless the value rounded towards zero fits -/
noncomputable def toU16 (x : ℝ) : Option ℤ := if 0 ≤ toInt x ∧ toInt x < 65536 then some (toInt x) else none

/-- one feature, 949-963: pixel and depth `z`; the image has `w` columns and `h` rows. `none`: undefined behaviour, of the conversion or of a write outside the image -/
noncomputable def depthStep (w h : ℤ) (img : DImg) (z : V2 × ℝ) : Option DImg :=
  if z.1 0 < 4 ∨ (w : ℝ) - 4 < z.1 0 ∨ z.1 1 < 4 ∨ (h : ℝ) - 4 < z.1 1 then some img
  else
    let r := toInt (z.1 1)
    let c := toInt (z.1 0)
    if 0 ≤ r ∧ r < h ∧ 0 ≤ c ∧ c < w then (toU16 (1000 * z.2)).map fun v => fun i j => if i = r ∧ j = c then v else img i j
    else none

/-- the loop over `active_tracks_uvd`, 949-963 -/
noncomputable def depthImage (w h : ℤ) (zs : List (V2 × ℝ)) : Option DImg := zs.foldlM (depthStep w h) DImg.zero

end Verif.Ros
