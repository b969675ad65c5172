import Mathlib.Data.Real.Basic
import Mathlib.Tactic

/-!
# Model of the initialisation state machine and of the clone window's lock

Sources: `ov_msckf/src/core/VioManagerHelper.cpp` (`try_to_initialize`, `initialize_with_gt`), `ov_msckf/src/core/VioManager.cpp` (`track_image_and_update`), `ov_msckf/src/state/State.h`, `ov_msckf/src/state/StateHelper.cpp`.

The image thread and the background thread are a transition system, each step is one access to shared data (an atomic flag, or a section under the queue's lock). Simplifications: images are handled one after the other
(as the callers do); of the state only the time is kept; what the initialiser decides is arbitrary.
-/

set_option autoImplicit false

namespace Verif.Vio

/-- where the image thread is inside `try_to_initialize` -/
inductive MPc where
  | idle
  | readRunning (t : ℝ)
  | push (t : ℝ)
  | readSuccess (t : ℝ)
  | spawn (t : ℝ)
  | join

/-- where a background thread is -/
inductive TPc where
  | run
  | move (ts : ℝ)
  | failed
  | clear
  | fin

/-- every `r`-th element, VioManagerHelper.cpp:160 -/
noncomputable def stride (r : ℕ) : List ℝ → List ℝ
  | [] => []
  | x :: xs => x :: stride r (xs.drop (r - 1))
termination_by l => l.length
decreasing_by simp only [List.length_drop, List.length_cons]; omega

open Classical in
/-- the times to propagate to, VioManagerHelper.cpp:147-163 -/
noncomputable def initTargets (maxClone : ℕ) (ts : ℝ) (queue : List ℝ) : List ℝ :=
  let kept := queue.filter fun t => decide (t > ts)
  stride (kept.length / maxClone + 1) kept

/-- the manager. `threads`: all background threads that have not ended; for the specification only: `imgs` all image times in order of arrival while not initialised, `committed` the times of successful initialiser results written
to the state, `moved` the times the background threads propagated to, `gt` whether ground truth was given. -/
structure Sm where
  inited : Bool
  running : Bool
  success : Bool
  queue : List ℝ
  threads : List TPc
  main : MPc
  time : ℝ
  imgs : List ℝ
  committed : List ℝ
  moved : List ℝ
  gt : Bool

noncomputable def Sm.init : Sm := ⟨false, false, false, [], [], .idle, -1, [], [], [], false⟩

/-- one step. `multi`: `use_multi_threading_subs`; `maxClone`: `max_clone_size`. -/
inductive SmStep (multi : Bool) (maxClone : ℕ) : Sm → Sm → Prop
  /-- an image when initialised, VioManager.cpp:319 (whatever the update does to the time) -/
  | image (s : Sm) (t : ℝ) : s.main = .idle → s.inited = true → SmStep multi maxClone s { s with time := t }
  /-- an image when not initialised, VioManager.cpp:310-311 -/
  | arrive (s : Sm) (t : ℝ) : s.main = .idle → s.inited = false → SmStep multi maxClone s { s with main := .readRunning t, imgs := s.imgs ++ [t] }
  /-- VioManagerHelper.cpp:83 -/
  | busy (s : Sm) (t : ℝ) : s.main = .readRunning t → s.running = true → SmStep multi maxClone s { s with main := .push t }
  | notBusy (s : Sm) (t : ℝ) : s.main = .readRunning t → s.running = false → SmStep multi maxClone s { s with main := .readSuccess t }
  /-- 84-86, under the lock -/
  | pushed (s : Sm) (t : ℝ) : s.main = .push t → SmStep multi maxClone s { s with main := .idle, queue := s.queue ++ [t] }
  /-- 90-92 and VioManager.cpp:311 -/
  | done (s : Sm) (t : ℝ) : s.main = .readSuccess t → s.success = true → SmStep multi maxClone s { s with main := .idle, inited := true }
  | retry (s : Sm) (t : ℝ) : s.main = .readSuccess t → s.success = false → SmStep multi maxClone s { s with main := .spawn t }
  /-- 95-96, 181-186 -/
  | spawn (s : Sm) (t : ℝ) : s.main = .spawn t → SmStep multi maxClone s { s with main := if multi then .idle else .join, running := true, threads := s.threads ++ [.run] }
  | joined (s : Sm) : s.main = .join → s.threads = [] → SmStep multi maxClone s { s with main := .idle }
  /-- the initialiser succeeded at time `ts`: the state is written, 107-124 -/
  | commit (s : Sm) (a b : List TPc) (ts : ℝ) : s.threads = a ++ .run :: b →
      SmStep multi maxClone s { s with threads := a ++ .move ts :: b, time := ts, committed := s.committed ++ [ts] }
  /-- 145-166, under the lock -/
  | moved (s : Sm) (a b : List TPc) (ts : ℝ) : s.threads = a ++ .move ts :: b →
      SmStep multi maxClone s { s with threads := a ++ .fin :: b, success := true, queue := [], moved := s.moved ++ initTargets maxClone ts s.queue, time := (initTargets maxClone ts s.queue).getLastD ts }
  /-- the initialiser failed, 169-171 -/
  | fails (s : Sm) (a b : List TPc) : s.threads = a ++ .run :: b → SmStep multi maxClone s { s with threads := a ++ .failed :: b }
  | notSuccess (s : Sm) (a b : List TPc) : s.threads = a ++ .failed :: b → SmStep multi maxClone s { s with threads := a ++ .clear :: b, success := false }
  /-- 172-173, under the lock -/
  | cleared (s : Sm) (a b : List TPc) : s.threads = a ++ .clear :: b → SmStep multi maxClone s { s with threads := a ++ .fin :: b, queue := [] }
  /-- 177 and the end of the thread -/
  | finish (s : Sm) (a b : List TPc) : s.threads = a ++ .fin :: b → SmStep multi maxClone s { s with threads := a ++ b, running := false }

/-- `initialize_with_gt`, VioManagerHelper.cpp:40-76, called between images -/
inductive GtStep : Sm → Sm → Prop
  | gt (s : Sm) (t : ℝ) : s.main = .idle → GtStep s { s with inited := true, time := t, gt := true }

/-- reachable by any interleaving of images and background threads -/
inductive SmReach (multi : Bool) (maxClone : ℕ) : Sm → Prop
  | init : SmReach multi maxClone Sm.init
  | step {s s' : Sm} : SmReach multi maxClone s → SmStep multi maxClone s s' → SmReach multi maxClone s'

/-! ## data shared by the thread delivering IMU readings and the thread handling images -/

/-- where a thread is with respect to one shared object: not using it, using it without its lock, using it while holding its lock -/
inductive Acc where
  | idle
  | bare
  | locked
  deriving DecidableEq

/-- a shared object: how the IMU thread and how the image thread use it -/
structure Shared where
  imu : List Acc
  img : List Acc

/-- `_clones_IMU`: read by `margtimestep` (State.h:66-75, from VioManager.cpp:170) under the lock; erased by `marginalize_old_clone` (StateHelper.cpp:622-627) under the lock; inserted by `augment_clone` (StateHelper.cpp:599) without it -/
def cloneMap : Shared := ⟨[.locked], [.locked, .bare]⟩

/-- the propagator's `imu_data`: appended and cleaned by `feed_imu` (Propagator.h:68-73) under the lock; read by the propagation (Propagator.cpp:67) under the lock; cleaned after a zero velocity update (VioManager.cpp:301) without it -/
def propBuffer : Shared := ⟨[.locked], [.locked, .bare]⟩

/-- the same object when no zero velocity updater is used -/
def propBufferNoZupt : Shared := ⟨[.locked], [.locked]⟩

/-- the zero velocity updater's `imu_data` (UpdaterZeroVelocity.h:77-107, UpdaterZeroVelocity.cpp:98): there is no lock -/
def zuptBuffer : Shared := ⟨[.bare], [.bare]⟩

structure Two where
  imu : Acc
  img : Acc

/-- steps of the two threads on one object; a lock is taken only while the other thread does not hold it -/
inductive AccStep (o : Shared) : Two → Two → Prop
  | imuBegin (s : Two) (a : Acc) : a ∈ o.imu → s.imu = .idle → (a = .locked → s.img ≠ .locked) → AccStep o s { s with imu := a }
  | imuEnd (s : Two) : AccStep o s { s with imu := .idle }
  | imgBegin (s : Two) (a : Acc) : a ∈ o.img → s.img = .idle → (a = .locked → s.imu ≠ .locked) → AccStep o s { s with img := a }
  | imgEnd (s : Two) : AccStep o s { s with img := .idle }

inductive AccReach (o : Shared) : Two → Prop
  | init : AccReach o ⟨.idle, .idle⟩
  | step {s s' : Two} : AccReach o s → AccStep o s s' → AccReach o s'

end Verif.Vio
