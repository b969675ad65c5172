import Verif.Ros.Model

/-!
# Model of the replay of a recording: ov_msckf/src/ros1_serial_msckf.cpp, and of the ground truth it starts from: `load_gt_file`, `get_gt_state` (ov_core/src/utils/dataset_reader.h)

Assumed of rosbag: a view lists the messages of the time interval, ends included. The topics of the sensors are different. An image can be converted and a message has the type of its topic.
-/

set_option autoImplicit false
open Classical

namespace Verif.Ros

/-- what a topic carries; `other`: a topic that is not used -/
inductive Src where
  | imu | cam (i : ℕ) | other
  deriving DecidableEq

/-- a message of the bag: the time it was recorded at (`getTime`), and its topic. The message itself is named by its place in the list. -/
structure BMsg where
  t : ℝ
  src : Src

/-- what the program does with messages: callbacks of the visualiser -/
inductive Play where
  /-- `callback_inertial` -/
  | imu (k : ℕ)
  /-- `callback_monocular` -/
  | mono (k : ℕ)
  /-- `callback_stereo`: image of camera 0, image of camera 1 -/
  | stereo (i j : ℕ)
  deriving DecidableEq

/-- `view.addQuery(bag, time_init, time_finish)` and the loop that collects the messages, ros1_serial_msckf.cpp:139-185 -/
noncomputable def select (num : ℕ) (t0 t1 : ℝ) (bag : List BMsg) : List BMsg :=
  bag.filter fun m => decide (t0 ≤ m.t ∧ m.t ≤ t1) && match m.src with
    | .imu => true
    | .cam i => decide (i < num)
    | .other => false

/-- `max_camera_time`, ros1_serial_msckf.cpp:158, 181 -/
noncomputable def maxCam : List BMsg → ℝ → ℝ
  | [], a => a
  | m :: ms, a => maxCam ms (match m.src with | .cam _ => max a m.t | _ => a)

/-- the search for the image of another camera, ros1_serial_msckf.cpp:229-236: the first from the message on, if it is near; `k` is the index of the first of the given messages -/
noncomputable def partner (t : ℝ) (c : ℕ) : List BMsg → ℕ → Option ℕ
  | [], _ => none
  | m :: ms, k => if m.src = .cam c then (if |m.t - t| < 0.02 then some k else none) else partner t c ms (k + 1)

/-- the loop over the messages, ros1_serial_msckf.cpp:191-273, from index `k` on; the second result is false if the program ends with an error (262-264). `maxT`: the time of the last image. The start from ground truth (246-251) is in `C113_start`, `gtState`. -/
noncomputable def play (num : ℕ) (maxT : ℝ) : List BMsg → ℕ → List ℕ → List Play × Bool
  | [], _, _ => ([], true)
  | m :: ms, k, used =>
    if maxT < m.t then ([], true)
    else if k ∈ used then play num maxT ms (k + 1) (used.filter (· ≠ k))
    else match m.src with
      | .imu => let r := play num maxT ms (k + 1) used; (.imu k :: r.1, r.2)
      | .other => play num maxT ms (k + 1) used
      | .cam c =>
        let idx : ℕ → Option ℕ := fun c' => if c' = c then some k else partner m.t c' (m :: ms) k
        if c < num ∧ ∀ c' < num, (idx c').isSome then
          if num = 1 then let r := play num maxT ms (k + 1) used; (.mono k :: r.1, r.2)
          else if num = 2 then
            let i := (idx 0).getD 0
            let j := (idx 1).getD 0
            let r := play num maxT ms (k + 1) (i :: j :: used)
            (.stereo i j :: r.1, r.2)
          else ([], false)
        else play num maxT ms (k + 1) used

/-- the replay of the messages `ms` -/
noncomputable def replay (num : ℕ) (ms : List BMsg) : List Play × Bool := play num (maxCam ms (-1)) ms 0 []

/-- the times of the first and last message of the bag, `view_full.getBeginTime`, `getEndTime`, ros1_serial_msckf.cpp:136-141: the interval to play; a negative duration plays to the end -/
noncomputable def window (start durr : ℝ) (bag : List BMsg) : Option (ℝ × ℝ) :=
  match bag.head?, bag.getLast? with
  | some a, some z => some (a.t + start, if durr < 0 then z.t else a.t + start + durr)
  | _, _ => none

/-- the program, ros1_serial_msckf.cpp:127-273; `none`: it ends because no messages are in the interval (147-151, the topics are not looked at) -/
noncomputable def serial (num : ℕ) (start durr : ℝ) (bag : List BMsg) : Option (List BMsg × List Play × Bool) :=
  match window start durr bag with
  | none => none
  | some w =>
    if bag.any fun m => decide (w.1 ≤ m.t ∧ m.t ≤ w.2) then
      let ms := select num w.1 w.2 bag
      some (ms, replay num ms)
    else none

/-! ## What the callbacks make of it -/

/-- the front-end after the callbacks of a replay, in the mode the program sets (`use_multi_threading_subs = false`: an IMU callback waits for the update thread). `stamp`: the time in the header of a message; the estimated time offset is between `lo` and `hi`. -/
inductive Run (num : ℕ) (delta : ℝ) (stamp : ℕ → ℝ) (lo hi : ℝ) : List Play → Node → Prop
  | nil : Run num delta stamp lo hi [] Node.init
  /-- an IMU reading, no images waiting -/
  | imuWait {l : List Play} {s : Node} (k : ℕ) : Run num delta stamp lo hi l s → ¬s.enough num →
      Run num delta stamp lo hi (l ++ [.imu k]) { s with imus := s.imus ++ [stamp k] }
  /-- an IMU reading; the images before it are processed -/
  | imuFeed {l : List Play} {s : Node} (k : ℕ) (dt : ℝ) (batch rest : List CMsg) : Run num delta stamp lo hi l s → s.enough num → lo ≤ dt → dt ≤ hi → s.queue = batch ++ rest → (∀ m ∈ batch, m.t < stamp k - dt) →
      (∀ m ∈ rest.head?, ¬m.t < stamp k - dt) →
      Run num delta stamp lo hi (l ++ [.imu k]) { s with imus := s.imus ++ [stamp k], queue := rest, batches := s.batches ++ [(stamp k, dt, batch)] }
  /-- an image or pair that comes too soon after the last -/
  | drop {l : List Play} {s : Node} (e : Play) (m : CMsg) : Run num delta stamp lo hi l s → (∃ k, e = .mono k ∧ m = ⟨stamp k, [0], k⟩) ∨ (∃ i j, e = .stereo i j ∧ m = ⟨stamp i, [0, 1], i⟩) → s.throttled delta m →
      Run num delta stamp lo hi (l ++ [e]) s
  /-- an image or pair that is put in the queue -/
  | keep {l : List Play} {s : Node} (e : Play) (m : CMsg) (q : List CMsg) : Run num delta stamp lo hi l s → (∃ k, e = .mono k ∧ m = ⟨stamp k, [0], k⟩) ∨ (∃ i j, e = .stereo i j ∧ m = ⟨stamp i, [0, 1], i⟩) → ¬s.throttled delta m →
      q.Perm (s.queue ++ [m]) → Sorted q →
      Run num delta stamp lo hi (l ++ [e]) { s with last := Function.update s.last m.cam (some m.t), accepted := s.accepted ++ [m], queue := q }

/-! ## Ground truth -/

/-- a line of the ground truth file, as seventeen numbers: time in nanoseconds, position, orientation with its real part first, velocity, biases -/
abbrev GtRow := Fin 17 → ℝ

/-- `gt_states`: a map from times to lines, `load_gt_file`, dataset_reader.h:61-103; of several lines with the same time the first is kept. A line after the first is given by its numbers, shorter lines filled with zeros; `none`: a line is longer and the program ends. -/
noncomputable def gtLoad : List (List ℝ) → Option (List (ℝ × GtRow))
  | [] => some []
  | l :: ls =>
    if 17 < l.length then none
    else
      let row : GtRow := fun i => l.getD i 0
      (gtLoad ls).map fun r => (1e-9 * row 0, row) :: r.filter fun x => decide (x.1 ≠ 1e-9 * row 0)

/-- the loop for the closest time, dataset_reader.h:123-131; `none` is the infinite initial value. The map is in order of time. -/
noncomputable def closest (t : ℝ) (gt : List (ℝ × GtRow)) : Option ℝ :=
  ((gt.map (·.1)).insertionSort (· ≤ ·)).foldl (fun b x => match b with
    | none => some x
    | some y => if |x - t| < |y - t| then some x else some y) none

/-- `get_gt_state`, dataset_reader.h:112-172: time, orientation, position, velocity, biases -/
noncomputable def gtState (t : ℝ) (gt : List (ℝ × GtRow)) : Option (Fin 17 → ℝ) :=
  match closest t gt with
  | none => none
  | some c =>
    let t' := if |c - t| < 0.1 then c else t
    (gt.find? fun x => decide (x.1 = t')).map fun x =>
      let s := x.2
      ![t', s 5, s 6, s 7, s 4, s 1, s 2, s 3, s 8, s 9, s 10, s 11, s 12, s 13, s 14, s 15, s 16]

end Verif.Ros
