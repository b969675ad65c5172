import Mathlib.Data.Real.Basic
import Mathlib.Data.List.Sort
import Mathlib.Tactic

/-!
# Model of the ROS front-end's camera queue

Sources: `ov_core/src/utils/sensor_data.h` (order of camera messages), `ov_msckf/src/ros/ROS2Visualizer.cpp` (and the identical `ROS1Visualizer.cpp`): `callback_inertial`, `callback_monocular`, `callback_stereo`.

The callbacks and the update thread are a transition system; every interleaving is a path. Assumed of ROS: callbacks of the IMU topic are not run concurrently with each other (camera callbacks may run concurrently
with everything). Not modelled: a data race on `camera_last_timestamp` between callbacks of different cameras (it is not protected by a lock; each throttle decision is atomic here), publishing and timing.
-/

set_option autoImplicit false

namespace Verif.Ros

/-! ## order of messages -/

/-- `std::min_element` on a vector of ids; `none`: dereferencing the end iterator of an empty vector. -/
def minElem : List ℤ → Option ℤ
  | [] => none
  | i :: is => some (is.foldl (fun m j => if j < m then j else m) i)

/-- a camera message; `uid` stands for its images -/
structure CMsg where
  t : ℝ
  ids : List ℤ
  uid : ℕ

open Classical in
/-- `CameraData::operator<`, sensor_data.h:70-78 -/
noncomputable def CMsg.less (a b : CMsg) : Option Bool :=
  if a.t = b.t then
    match minElem a.ids, minElem b.ids with
    | some i, some j => some (decide (i < j))
    | _, _ => none
  else some (decide (a.t < b.t))

/-! ## callbacks and update thread -/

/-- the first sensor id (`sensor_ids.at(0)`; the callbacks never make a message without one) -/
def CMsg.cam (m : CMsg) : ℤ := m.ids.headD 0

/-- the front-end. `inflight`: messages of camera callbacks that passed the throttle and have not taken the lock yet; `thread`: the time of the IMU message the update thread refers to; `open_`: the IMU callback that started the
thread has not returned (the thread refers to its local variable). For the specification only: `accepted`, `imus`, `batches` (what each run of the thread fed to the estimator, with the IMU time and the time offset it used). -/
structure Node where
  queue : List CMsg
  inflight : List CMsg
  last : ℤ → Option ℝ
  running : Bool
  thread : Option ℝ
  open_ : Bool
  accepted : List CMsg
  imus : List ℝ
  batches : List (ℝ × ℝ × List CMsg)

def Node.init : Node := ⟨[], [], fun _ => none, false, none, false, [], [], []⟩

/-- ROS2Visualizer.cpp:502-505, 542-545 -/
def Node.throttled (delta : ℝ) (s : Node) (m : CMsg) : Prop := ∃ l, s.last m.cam = some l ∧ m.t < l + delta

/-- ROS2Visualizer.cpp:460-470: as many different first ids in the queue as cameras (one for a stereo pair) -/
def Node.enough (num : ℕ) (s : Node) : Prop := (s.queue.map CMsg.cam).dedup.length = if num = 2 then 1 else num

/-- sorted for the order above: no later element is smaller than an earlier one (what `std::sort` ensures; it is not stable) -/
def Sorted (q : List CMsg) : Prop := q.Pairwise fun a b => b.less a = some false

/-- one atomic step; `none` is undefined behaviour. `multi` is `use_multi_threading_subs`, `delta` the tracking period, `num` the number of cameras. -/
inductive Step (multi : Bool) (delta : ℝ) (num : ℕ) : Node → Option Node → Prop
  /-- an IMU callback while the thread is running, ROS2Visualizer.cpp:438-454 -/
  | imuBusy (s : Node) (t : ℝ) : s.open_ = false → s.running = true → Step multi delta num s (some { s with imus := s.imus ++ [t] })
  /-- an IMU callback that starts the thread, 455-456 -/
  | imuStart (s : Node) (t : ℝ) : s.open_ = false → s.running = false → Step multi delta num s (some { s with imus := s.imus ++ [t], running := true, thread := some t, open_ := true })
  /-- the callback returns: in the single-threaded mode after joining the thread, 489-496 -/
  | ret (s : Node) : s.open_ = true → (multi = true ∨ s.thread = none) → Step multi delta num s (some { s with open_ := false })
  /-- the thread takes the lock and there are too few cameras, 456-470, 486 -/
  | wait (s : Node) (t : ℝ) : s.thread = some t → ¬s.enough num → Step multi delta num s (some { s with running := false, thread := none })
  /-- the thread takes the lock and feeds the estimator, 473-486; `dt` is the estimated time offset at that moment -/
  | feed (s : Node) (t dt : ℝ) (batch rest : List CMsg) : s.thread = some t → s.open_ = true → s.enough num → s.queue = batch ++ rest → (∀ m ∈ batch, m.t < t - dt) →
      (∀ m ∈ rest.head?, ¬m.t < t - dt) →
      Step multi delta num s (some { s with running := false, thread := none, queue := rest, batches := s.batches ++ [(t, dt, batch)] })
  /-- as before, but the callback has returned: line 474 reads its local variable `message` after its lifetime -/
  | dangling (s : Node) (t : ℝ) : s.thread = some t → s.open_ = false → s.enough num → Step multi delta num s none
  /-- a throttled image, 503-505 -/
  | drop (s : Node) (m : CMsg) : s.throttled delta m → Step multi delta num s (some s)
  /-- an image that cannot be converted, 506-515 -/
  | bad (s : Node) (m : CMsg) : ¬s.throttled delta m → Step multi delta num s (some { s with last := Function.update s.last m.cam (some m.t) })
  /-- an accepted image, up to the lock, 506-531 -/
  | accept (s : Node) (m : CMsg) : m.ids ≠ [] → ¬s.throttled delta m →
      Step multi delta num s (some { s with last := Function.update s.last m.cam (some m.t), inflight := s.inflight ++ [m], accepted := s.accepted ++ [m] })
  /-- the camera callback takes the lock, appends and sorts, 532-534, 586-588 -/
  | push (s : Node) (m : CMsg) (rest q : List CMsg) : s.inflight.Perm (m :: rest) → q.Perm (s.queue ++ [m]) → Sorted q → Step multi delta num s (some { s with inflight := rest, queue := q })

/-- states reachable by any interleaving -/
inductive Reach (multi : Bool) (delta : ℝ) (num : ℕ) : Node → Prop
  | init : Reach multi delta num Node.init
  | step {s s' : Node} : Reach multi delta num s → Step multi delta num s (some s') → Reach multi delta num s'

end Verif.Ros
