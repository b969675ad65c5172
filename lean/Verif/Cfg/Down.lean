import Verif.Cfg.Model

/-!
# Model of the halving of the images: `VioManager::track_image_and_update`, VioManager.cpp:267-277, and of the way of the masks

Only the sizes: the grey values `cv::pyrDown` makes are not modelled. OpenCV documents that pixel `(x, y)` of its result is the
weighted mean of the pixels around `(2 x, 2 y)` of its argument.
-/

namespace Verif.Cfg

/-- the number of columns and rows of the image and of the mask that the trackers are given for an image of `w` columns and `h` rows,
VioManager.cpp:269-277: `cv::Size(img.cols / 2.0, img.rows / 2.0)` if `downsample_cameras`, the `double`s cut off to `int`s. -/
def trackedSize (down : Bool) (w h : ℤ) : ℤ × ℤ := if down then (w.tdiv 2, h.tdiv 2) else (w, h)

/-- the class made for a camera, VioManagerOptions.h:272-278 -/
def CamOut.kind (c : CamOut) : Cam.Kind := if c.equi then .equi else .radtan

/-- a mask of `m` columns and rows is read from its file for a camera, VioManagerOptions.h:293-301: the program ends unless its size is the camera's -/
def loadMask (c : CamOut) (m : ℤ × ℤ) : Option (ℤ × ℤ) := if m.1 ≠ c.w ∨ m.2 ≠ c.h then none else some m

/-- the size of the mask that the trackers are given with an image of size `img`; `file` is the size of the mask in its file, if `use_mask`. The mask of the file, or one of the image's size, is put into
the message, ROS1Visualizer.cpp:525-529 and 576-583 (the same in ROS2Visualizer.cpp), and goes the way of the image, VioManager.cpp:272-277. -/
def maskSeen (down : Bool) (c : CamOut) (file : Option (ℤ × ℤ)) (img : ℤ × ℤ) : Option (ℤ × ℤ) :=
  match file with
  | none => some (trackedSize down img.1 img.2)
  | some m => (loadMask c m).map fun m => trackedSize down m.1 m.2

end Verif.Cfg
