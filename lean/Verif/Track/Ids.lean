import Verif.Feat.Model
import Mathlib.Tactic

/-!
# Model of the feature ids: tags, trackers, simulation; relabelling; what depends on the tag range

Sources: `ov_core/src/track/{TrackBase,TrackAruco,TrackSIM}.cpp`, `ov_msckf/src/update/UpdaterSLAM.cpp`, `ov_msckf/src/core/VioManagerHelper.cpp`.

Simplifications: ids are natural numbers (`size_t` does not wrap, and `(int)featid` is exact); the maximum number of tags is a natural number.
-/

set_option autoImplicit false

namespace Verif.Track

open Verif Verif.Feat

variable {T U : Type}

/-! ## ids of the trackers -/

/-- the initial counter, TrackBase.cpp:34 -/
def firstId (numAruco : ℕ) : ℕ := 4 * numAruco + 1

/-- `n` executions of `++currid` (TrackKLT.cpp:525, 696, 705, 822; TrackDescriptor.cpp:397, 474): the ids handed out and the counter. The counter is atomic, so whatever threads make the calls they happen in some order. -/
def drawIds (cur : ℕ) : ℕ → List ℕ × ℕ
  | 0 => ([], cur)
  | n + 1 => let r := drawIds (cur + 1) n; ((cur + 1) :: r.1, r.2)

/-- id of a simulated feature, TrackSIM.cpp:52 (the simulation tracker never changes `currid`). -/
def simId (numAruco feat : ℕ) : ℕ := feat + firstId numAruco

/-- id of corner `n` of a tag, TrackAruco.cpp:135-147; tags with a larger id are skipped. -/
def cornerId (maxTag tag n : ℕ) : Option ℕ := if maxTag < tag then none else some (tag + n * maxTag)

/-- the ids one image adds, TrackAruco.cpp:133-156: for every detected tag its four corners, except masked ones. -/
def tagIds (maxTag : ℕ) (masked : ℕ → ℕ → Bool) (tags : List ℕ) : List ℕ :=
  tags.flatMap fun tag => (List.range 4).filterMap fun n => if masked tag n then none else cornerId maxTag tag n

/-! ## what is decided by the id -/

/-- the ids returned by `get_features_SLAM` and `get_features_ARUCO`, VioManagerHelper.cpp:417-461 (only which landmarks are listed; their positions are not modelled). -/
def slamList (maxTag : ℕ) (ids : List ℕ) : List ℕ := ids.filter fun i => !decide (i ≤ 4 * maxTag)
def arucoList (maxTag : ℕ) (ids : List ℕ) : List ℕ := ids.filter fun i => !decide (4 * maxTag < i)

/-- the choice between tag settings and SLAM settings: representation (UpdaterSLAM.cpp:161), noise (227, 393), chi-square multiplier (232, 409). -/
def updaterSetting {α : Type} (maxTag : ℕ) (tag slam : α) (id : ℕ) : α := if id < maxTag then tag else slam

/-! ## relabelling -/

/-- `TrackBase::change_feat_id`, TrackBase.cpp:230-248. `get_internal_data()` (FeatureDatabase.h:146-149) returns a copy of the map: the calls of `erase` and `insert` act on temporaries, only the shared
feature object is changed. Result: the database and the current ids per camera. -/
def changeFeatId (db : DB T U) (last : List (ℕ × List ℕ)) (old new : ℕ) : DB T U × List (ℕ × List ℕ) :=
  (db.modify old fun f => { f with featid := new }, last.map fun e => (e.1, e.2.map fun i => if i = old then new else i))

end Verif.Track
