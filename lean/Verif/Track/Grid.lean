import Verif.Track.Klt
import Mathlib.Data.Real.Sqrt

/-!
# Model of the corner extraction by grid cells (`ov_core/src/track/Grider_GRID.h`, `Grider_FAST.h`) and of the choice of the cells by the KLT tracker

OpenCV is an oracle: `fast` gives the corners of a part of the image (positions relative to that part, with their response), `srt` is what `std::sort` does with them, `refine` is the sub-pixel refinement.
The parallel loop over the cells is an arbitrary interleaving of the appends to the per-cell vectors. Pixels are rationals (`float` rounding is not modelled); an access outside of the mask, a failing
assertion or `.at` outside of a vector gives `none`.
-/

set_option autoImplicit false

namespace Verif.Grid

open Verif.Track (Pt trunc TCfg Img)

/-- a corner: its position and how strong it is (`cv::KeyPoint`, `pt` and `response`) -/
structure Kp where
  pt : Pt
  resp : ℚ
deriving DecidableEq

/-- an image and its mask: one byte for every pixel (column, row), white (255) where nothing may be detected -/
structure Frame where
  cols : ℤ
  rows : ℤ
  mask : ℤ → ℤ → ℕ

/-- reading the mask; `none` outside of the image (`cv::Mat::at` does not check) -/
def Frame.read? (F : Frame) (x y : ℤ) : Option ℕ := if 0 ≤ x ∧ x < F.cols ∧ 0 ≤ y ∧ y < F.rows then some (F.mask x y) else none

/-- the same image for the model of the KLT tracker, which only asks for bytes above 127 -/
def Frame.img (F : Frame) : Img := ⟨F.cols, F.rows, fun x y => decide (127 < F.mask x y)⟩

/-- a part of an image: left column, top row, width, height (`cv::Rect`) -/
structure Roi where
  x : ℤ
  y : ℤ
  w : ℤ
  h : ℤ

/-- the number of cells that is used, Grider_GRID.h:93-97, Grider_FAST.h:82-86 -/
noncomputable def gridDims (num gx gy : ℤ) : ℤ × ℤ :=
  if num < gx * gy then (⌈((⌈Real.sqrt ((num : ℝ) / ((gx : ℝ) / (gy : ℝ)))⌉ : ℤ) : ℝ) * ((gx : ℝ) / (gy : ℝ))⌉, ⌈Real.sqrt ((num : ℝ) / ((gx : ℝ) / (gy : ℝ)))⌉)
  else (gx, gy)

/-- corners that are taken from a cell, Grider_GRID.h:98, Grider_FAST.h:87, TrackKLT.cpp:483 -/
def perCell (num gx gy : ℤ) : ℤ := trunc ((num : ℚ) / ((gx * gy : ℤ) : ℚ)) + 1

/-- the loop over the strongest corners of a cell, Grider_GRID.h:139-157, Grider_FAST.h:129-147 -/
def pick (F : Frame) (R : Roi) : List Kp → Option (List Kp)
  | [] => some []
  | k :: ks =>
    let p : Pt := (k.pt.1 + R.x, k.pt.2 + R.y)
    if trunc p.1 < 0 ∨ F.cols < trunc p.1 ∨ trunc p.2 < 0 ∨ F.rows < trunc p.2 then pick F R ks
    else match F.read? (trunc p.1) (trunc p.2) with
      | none => none
      | some v => if 127 < v then pick F R ks else (pick F R ks).map fun r => ⟨p, k.resp⟩ :: r

/-- the part of the image that belongs to a location of the grid, Grider_GRID.h:116-125 -/
def roiOf (sx sy : ℤ) (loc : ℤ × ℤ) : Roi := ⟨loc.1 * sx, loc.2 * sy, sx, sy⟩

/-- what the worker does for one location, Grider_GRID.h:114-158, Grider_FAST.h:107-148. A part that begins outside of the image is an OpenCV error. -/
def cellPts (F : Frame) (fast : Roi → List Kp) (srt : List Kp → List Kp) (n sx sy : ℤ) (loc : ℤ × ℤ) : Option (List Kp) :=
  if F.cols < loc.1 * sx + sx ∨ F.rows < loc.2 * sy + sy then some []
  else if loc.1 * sx < 0 ∨ loc.2 * sy < 0 then none
  else pick F (roiOf sx sy loc) ((srt (fast (roiOf sx sy loc))).take n.toNat)

/-- the per-cell vectors `c` after the appends of the workers in the order `tr`, Grider_GRID.h:110-111, 156; `.at` throws outside -/
def pushes (c : List (List Kp)) : List (ℕ × Kp) → Option (List (List Kp))
  | [] => some c
  | e :: tr => if e.1 < c.length then pushes (c.modify e.1 (· ++ [e.2])) tr else none

/-- the refined positions in place of the found ones, Grider_GRID.h:171-186 -/
def refineAll (refine : List Pt → List Pt) (ks : List Kp) : List Kp := ks.zipWith (fun k p => ⟨p, k.resp⟩) (refine (ks.map Kp.pt))

/-- `perform_griding`, Grider_GRID.h:77-188. `sched` gives for the work of all cells the order in which the appends happen. -/
noncomputable def extract (F : Frame) (fast : Roi → List Kp) (srt : List Kp → List Kp) (refine : List Pt → List Pt) (sched : List (List Kp) → List (ℕ × Kp)) (locs : List (ℤ × ℤ)) (num gx gy : ℤ) :
    Option (List Kp) :=
  if locs = [] then some []
  else
    let g := gridDims num gx gy
    let n := perCell num g.1 g.2
    if ¬(0 < g.1 ∧ 0 < g.2 ∧ 0 < n) then none
    else if ¬(0 < F.cols / g.1 ∧ 0 < F.rows / g.2) then none
    else match locs.mapM (cellPts F fast srt n (F.cols / g.1) (F.rows / g.2)) with
      | none => none
      | some tasks => (pushes (List.replicate locs.length []) (sched tasks)).map fun c => refineAll refine c.flatten

/-- the locations of the extraction without a choice, Grider_FAST.h:99-110: every cell, row by row -/
def allLocs (F : Frame) (sx sy : ℤ) : List (ℤ × ℤ) :=
  (List.range (F.cols / sx * (F.rows / sy)).toNat).map fun r : ℕ => ((r : ℤ) % (F.cols / sx), (r : ℤ) / (F.cols / sx))

/-- `perform_griding` of Grider_FAST.h:74-177: the same work for every cell of the image -/
noncomputable def extractAll (F : Frame) (fast : Roi → List Kp) (srt : List Kp → List Kp) (refine : List Pt → List Pt) (sched : List (List Kp) → List (ℕ × Kp)) (num gx gy : ℤ) : Option (List Kp) :=
  let g := gridDims num gx gy
  if ¬(0 < g.1 ∧ 0 < g.2 ∧ 0 < perCell num g.1 g.2) ∨ ¬(0 < F.cols / g.1 ∧ 0 < F.rows / g.2) then none
  else extract F fast srt refine sched (allLocs F (F.cols / g.1) (F.rows / g.2)) num gx gy

/-! ## the choice of the cells, TrackKLT.cpp:404-460, 478-491 (the same in 540-596, 616-629 and 717-776, 792-805) -/

/-- the cell of a tracked point, TrackKLT.cpp:404-405, 431-432 -/
def cellOf (cfg : TCfg) (F : Frame) (p : Pt) : ℤ × ℤ := (⌊p.1 / (F.cols / cfg.gx)⌋, ⌊p.2 / (F.rows / cfg.gy)⌋)

/-- the number of tracked points in a cell, kept in a byte, TrackKLT.cpp:451-453 -/
def counted (cfg : TCfg) (F : Frame) (pts : List Pt) (c : ℤ × ℤ) : ℕ := min 255 (pts.countP fun p => cellOf cfg F p = c)

/-- the mask at a cell: `cv::resize` with `INTER_NEAREST` to the size of the grid takes one pixel of it, TrackKLT.cpp:478-480 -/
def maskGrid (cfg : TCfg) (F : Frame) (c : ℤ × ℤ) : ℕ := F.mask ⌊(c.1 : ℚ) * (F.cols / cfg.gx)⌋ ⌊(c.2 : ℚ) * (F.rows / cfg.gy)⌋

/-- points a cell must have, TrackKLT.cpp:483-484 -/
def required (cfg : TCfg) : ℤ := max 1 (trunc ((perCell cfg.num cfg.gx cfg.gy : ℚ) / 2))

/-- `valid_locs`, TrackKLT.cpp:485-491: column by column -/
def validLocs (cfg : TCfg) (F : Frame) (pts : List Pt) : List (ℤ × ℤ) :=
  ((List.range cfg.gx.toNat).flatMap fun x : ℕ => (List.range cfg.gy.toNat).map fun y : ℕ => ((x : ℤ), (y : ℤ))).filter fun c =>
    decide ((counted cfg F pts c : ℤ) < required cfg) && decide (maskGrid cfg F c ≠ 255)

/-- the box around a tracked point that is masked for the extraction, TrackKLT.cpp:455-459: only when it is inside of the image -/
def boxed (cfg : TCfg) (F : Frame) (p : Pt) (x y : ℤ) : Bool :=
  decide (0 ≤ trunc p.1 - cfg.minDist) && decide (trunc p.1 + cfg.minDist < F.cols) && decide (0 ≤ trunc p.2 - cfg.minDist) && decide (trunc p.2 + cfg.minDist < F.rows) &&
    decide (trunc p.1 - cfg.minDist ≤ x) && decide (x ≤ trunc p.1 + cfg.minDist) && decide (trunc p.2 - cfg.minDist ≤ y) && decide (y ≤ trunc p.2 + cfg.minDist)

/-- `mask0_updated`, TrackKLT.cpp:408, 455-459 -/
def updMask (cfg : TCfg) (F : Frame) (pts : List Pt) : Frame := { F with mask := fun x y => if pts.any fun p => boxed cfg F p x y then 255 else F.mask x y }

/-- the new corners of `perform_detection_monocular`, TrackKLT.cpp:404-494, for the points `pts` that remain after the pruning -/
noncomputable def newCorners (cfg : TCfg) (F : Frame) (fast : Roi → List Kp) (srt : List Kp → List Kp) (refine : List Pt → List Pt) (sched : List (List Kp) → List (ℕ × Kp)) (pts : List Pt) : Option (List Kp) :=
  extract (updMask cfg F pts) fast srt refine sched (validLocs cfg F pts) cfg.num cfg.gx cfg.gy

/-- `perform_detection_monocular`, TrackKLT.cpp:395-528, with the extraction -/
noncomputable def detect (cfg : TCfg) (F : Frame) (fast : Roi → List Kp) (srt : List Kp → List Kp) (refine : List Pt → List Pt) (sched : List (List Kp) → List (ℕ × Kp)) (pts : List Pt) (ids : List ℕ) :
    Option (List Pt × List ℕ × List Pt) :=
  match Verif.Track.prune cfg F.img (fun _ => false) [] pts ids with
  | none => none
  | some (ps, is, occ) =>
    if Verif.Track.needMono cfg ps.length then
      match newCorners cfg F fast srt refine sched ps with
      | none => none
      | some ks => some (ps, is, Verif.Track.addNew cfg F.img occ (ks.map Kp.pt))
    else some (ps, is, [])

end Verif.Grid
