import Verif.Vio.Frame

/-!
# Model of the points that are reported for display

Source: `ov_msckf/src/core/VioManagerHelper.cpp` (`get_features_SLAM`, `get_features_ARUCO`), `VioManager.cpp`:555-570 with `VioManager.h`:123 (`get_good_features_MSCKF`); these three lists are what `publish_features` sends as point clouds
(`ROS2Visualizer.cpp`:674-704, `get_ros_pointcloud`, `ROSVisualizerHelper.cpp`:27-67: one point per element, in order, with its coordinates rounded to 32-bit floats, which is left out).

Simplifications: the order of `_features_SLAM`, an `unordered_map`, is that of the list in the state. Ids are below 2³¹, so `(int)f.first` is exact.
-/

set_option autoImplicit false
open Classical

namespace Verif.Vio

open Verif Verif.Types Verif.St Verif.Imu Verif.Prop_ Verif.Feat Verif.Disp

/-- the position of one landmark, VioManagerHelper.cpp:422-436 (and 447-461). `none`: the assertion, `.at` of a missing camera or clone. -/
noncomputable def lmWorld (s : State) (M : ℕ → Upd.LMeta) (u : ℕ) : Option V3 :=
  if Land.isRelative (M u).rep then do
    let c ← (M u).cam
    let E ← (if c < s.opts.numCams then Upd.valPose (s.obj (7 + 2 * c)).val else none)
    let w ← Upd.cloneUid s (M u).t
    let K ← Upd.valPose (s.obj w).val
    let p ← (Upd.lmOf s M u).getXyz false
    some ((K.R.transpose * E.R.transpose).mulVec (p - E.p) + K.p)
  else (Upd.lmOf s M u).getXyz false

/-- `get_features_SLAM`, VioManagerHelper.cpp:417-439 -/
noncomputable def featuresSlam (s : State) (M : ℕ → Upd.LMeta) : Option (List V3) :=
  (s.slam.filter fun e => !decide (e.1 ≤ 4 * s.opts.maxAruco)).mapM fun e => lmWorld s M e.2

/-- `get_features_ARUCO`, VioManagerHelper.cpp:441-463 -/
noncomputable def featuresAruco (s : State) (M : ℕ → Upd.LMeta) : Option (List V3) :=
  (s.slam.filter fun e => !decide (4 * s.opts.maxAruco < e.1)).mapM fun e => lmWorld s M e.2

/-- `p_FinG` of the features that `updaterMSCKF->update` leaves in `featsup_MSCKF`, VioManager.cpp:525 and 567-568: those that are not erased by the cleaning (UpdaterMSCKF.cpp:87-91), the triangulation (136-141) or the chi-square test
(225-236). The ids in `featsup_MSCKF` are distinct. -/
noncomputable def usedPoints (lib : Lib) (F : FCfg) (I : Img) (s : State) (fs : List Upd.Track) : Option (List V3) :=
  (Upd.msckfUpdate lib s F.msckf (triOf F.tri I s) fs).map fun r =>
    ((Upd.located (triOf F.tri I s) (Upd.cleaned s 2 fs)).filter fun g => r.2.contains g.1.id).map fun g => g.2.pG

/-- the part of `do_feature_propagate_update` that matters for `good_features_MSCKF`: `some none` if it returns before, otherwise the first camera of the message and the points that are appended, VioManager.cpp:323-570. -/
noncomputable def usedUpdate (lib : Lib) (F : FCfg) (x : FMgr) (I : Img) : Option (Option (ℕ × List V3)) :=
  if x.m.st.ts > I.t then some none
  else do
    let m1 ← propTo F.mgr x.m I.t
    if m1.st.clones.length < min m1.st.opts.maxClones 5 then some none
    else if m1.st.ts ≠ I.t then some none
    else do
      let p ← plan lib F I m1.db m1.st x.M
      let u ← usedPoints lib F I p.s (p.up.map toTrack)
      let c ← I.cams.head?
      some (some (c, u))

/-- the same for an image, VioManager.cpp:291-320: nothing is done after a zero velocity update. -/
noncomputable def usedFrame (lib : Lib) (F : FCfg) (x : FMgr) (I : Img) : Option (Option (ℕ × List V3)) :=
  match zuptOn F.mgr x.m with
  | none => usedUpdate lib F { x with m := { x.m with db := I.db }, aruco := I.aruco } I
  | some Z => do
    let m1 ← zuptTry lib Z { x.m with db := I.db } I.t
    if m1.did then some none else usedUpdate lib F { x with m := m1, aruco := I.aruco } I

/-- what one image does to `good_features_MSCKF`, VioManager.cpp:555-568: cleared for the base camera only, then appended to. -/
def goodStep (good : List V3) (r : Option (ℕ × List V3)) : List V3 :=
  match r with
  | none => good
  | some (c, u) => (if c = 0 then [] else good) ++ u

/-- `good_features_MSCKF` after a sequence of readings and images. -/
noncomputable def goodRun (lib : Lib) (F : FCfg) : FMgr → List V3 → List FEv → Option (List V3)
  | _, good, [] => some good
  | x, good, .imu r :: es => goodRun lib F { x with m := feedImu F.mgr x.m r } good es
  | x, good, .image I :: es => (usedFrame lib F x I).bind fun r => (frame lib F x I).bind fun y => goodRun lib F y (goodStep good r) es

end Verif.Vio
