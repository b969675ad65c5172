import Verif.Feat.Model
import Mathlib.Tactic

/-!
# Model of the choice of features for one update, and of the landmark batches

Source: `ov_msckf/src/core/VioManager.cpp`, `do_feature_propagate_update`.

Simplifications: the iteration orders of the unordered maps are the orders of the lists; `std::find` on shared pointers is comparison of feature ids (within one
database ids are unique, C14); `int` options are integers of any size. The updaters themselves are not called here: the model returns the lists they are given.
-/

set_option autoImplicit false

namespace Verif.Vio

open Verif Verif.Feat

variable {T U : Type} [LinearOrder T]

/-- options read by the selection: `max_clone_size`, `max_slam_features`, `max_aruco_features`, `max_msckf_in_update`. -/
structure SelCfg where
  maxClone : ℤ
  maxSlam : ℤ
  maxAruco : ℤ
  maxMsckf : ℤ

/-- the landmark fields read by the selection: `_unique_camera_id`, `update_fail_count`, `should_marg` (Landmark.h). -/
structure Lm where
  cam : ℕ
  fail : ℕ
  marg : Bool
deriving DecidableEq, Repr

/-- a track handed to the SLAM updater: which tracker it came from and the feature. -/
structure Track (T U : Type) where
  tag : Bool
  f : Feature T U

/-- the lists at the end of the selection. -/
structure Roles (T U : Type) where
  lost : List (Feature T U)
  marg : List (Feature T U)
  maxt : List (Feature T U)
  newSlam : List (Feature T U)
  slam : List (Track T U)
  lms : List (ℕ × Lm)

/-- `features_not_containing_newer` and the filter on the current cameras, VioManager.cpp:367, 382-396. -/
def lost0 (db : DB T U) (ts : T) (cams : List ℕ) : List (Feature T U) :=
  (featuresNotContainingNewer db ts false true).1.filter fun f => f.uvs.keys.any cams.contains

/-- `feats_marg` and the first `feats_slam`, VioManager.cpp:370-375: only with more clones than the window (or more than five). -/
def containing0 (c : SelCfg) (db : DB T U) (mt : T) (nc : ℕ) : List (Feature T U) :=
  if c.maxClone < nc ∨ 5 < nc then (featuresContaining db mt false true).1 else []

/-- the loop over the cameras of a marginal feature, VioManager.cpp:415-421 -/
def reachedMax (c : SelCfg) (f : Feature T U) : Bool := f.times.any fun e => decide (c.maxClone < (e.2.length : ℤ))

/-- an id of the tag range, VioManager.cpp:435 (also StateHelper.cpp:637, VioManagerHelper.cpp:420, 443) -/
def tagId (c : SelCfg) (id : ℕ) : Bool := decide ((id : ℤ) ≤ 4 * c.maxAruco)

/-- `curr_aruco_tags`, VioManager.cpp:432-438 -/
def curTags (c : SelCfg) (lms : List (ℕ × Lm)) : ℕ := (lms.filter fun e => tagId c e.1).length

/-- `valid_amount`, VioManager.cpp:442-448; `delay` is `message.timestamp - startup_time >= params.dt_slam_delay`. -/
def validAmount (c : SelCfg) (delay : Bool) (lms : List (ℕ × Lm)) (k : ℕ) : ℕ :=
  if 0 < c.maxSlam ∧ delay = true ∧ (lms.length : ℤ) < c.maxSlam + curTags c lms then
    let a := c.maxSlam + curTags c lms - lms.length
    (if (k : ℤ) < a then (k : ℤ) else a).toNat
  else 0

/-- the tracks of one landmark, VioManager.cpp:461-468 -/
def lmTracks (db : DB T U) (aruco : Option (DB T U)) (id : ℕ) : List (Track T U) :=
  (match aruco with
    | some a => ((getFeature a id false).1.map (Track.mk true)).toList
    | none => []) ++ ((getFeature db id false).1.map (Track.mk false)).toList

/-- the flags of one landmark after the loop, VioManager.cpp:469-475 -/
def lmFlag (db : DB T U) (cams : List ℕ) (e : ℕ × Lm) : ℕ × Lm :=
  (e.1, { e.2 with marg := e.2.marg || ((getFeature db e.1 false).1.isNone && cams.contains e.2.cam) || decide (1 < e.2.fail) })

/-- `StateHelper::marginalize_slam`, StateHelper.cpp:630-645, on the map of landmarks. -/
def margSlamMap (c : SelCfg) (lms : List (ℕ × Lm)) : List (ℕ × Lm) := lms.filter fun e => !(e.2.marg && !tagId c e.1)

/-- the selection up to `marginalize_slam`, VioManager.cpp:366-481; `nc` is the number of clones, `mt` the oldest clone time. -/
def roles (c : SelCfg) (db : DB T U) (aruco : Option (DB T U)) (ts mt : T) (nc : ℕ) (delay : Bool) (cams : List ℕ) (lms : List (ℕ × Lm)) : Roles T U :=
  let marg := containing0 c db mt nc
  let slam0 : List (Track T U) := match aruco with
    | some a => if delay then (containing0 c a mt nc).map (Track.mk true) else []
    | none => []
  let lost := (lost0 db ts cams).filter fun f => !((marg.map Feature.featid).contains f.featid)
  let maxt := marg.filter (reachedMax c)
  let marg' := marg.filter fun f => !reachedMax c f
  let k := validAmount c delay lms maxt.length
  let new := maxt.drop (maxt.length - k)
  ⟨lost, marg', maxt.take (maxt.length - k), new, slam0 ++ new.map (Track.mk false) ++ (lms.flatMap fun e => lmTracks db aruco e.1),
    margSlamMap c (lms.map (lmFlag db cams))⟩

/-- `feats_slam_UPDATE` and `feats_slam_DELAYED`, VioManager.cpp:484-495 -/
def Roles.update (r : Roles T U) : List (Track T U) := r.slam.filter fun x => (r.lms.map Prod.fst).contains x.f.featid
def Roles.delayed (r : Roles T U) : List (Track T U) := r.slam.filter fun x => !((r.lms.map Prod.fst).contains x.f.featid)

/-- `featsup_MSCKF` before sorting, VioManager.cpp:498-500 -/
def Roles.candidates (r : Roles T U) : List (Feature T U) := r.lost ++ r.marg ++ r.maxt

/-- the cut to `max_msckf_in_update`, VioManager.cpp:522-523, on the sorted list. A negative option makes the iterator run past the end: `none`. -/
def cutMsckf (c : SelCfg) (sorted : List (Feature T U)) : Option (List (Feature T U)) :=
  if c.maxMsckf < sorted.length then
    if c.maxMsckf < 0 then none else some (sorted.drop (sorted.length - c.maxMsckf.toNat))
  else some sorted

/-- `_features_SLAM.insert` for every delayed feature whose initialisation succeeds (`ok`), UpdaterSLAM.cpp:190-245: an existing key is kept. The flags of new landmarks are irrelevant here. -/
def delayedInit (ok : Track T U → Bool) (lms : List (ℕ × Lm)) (ds : List (Track T U)) : List (ℕ × Lm) :=
  ds.foldl (fun m d => if ok d && !((m.map Prod.fst).contains d.f.featid) then m ++ [(d.f.featid, ⟨0, 0, false⟩)] else m) lms

/-- the batch loop, VioManager.cpp:532-545, with `fuel` iterations allowed: batches given to the updater. `none`: a negative size moves the iterators before the
beginning, or the fuel is used up. -/
def batches {α : Type} (maxUp : ℤ) : ℕ → List α → Option (List (List α))
  | _, [] => some []
  | 0, _ :: _ => none
  | fuel + 1, x :: xs =>
    let l := x :: xs
    let k := if (l.length : ℤ) < maxUp then (l.length : ℤ) else maxUp
    if k < 0 then none else (batches maxUp fuel (l.drop k.toNat)).map fun r => l.take k.toNat :: r

end Verif.Vio
