import Verif.Ros.Save

/-!
# Model of the evaluation of a simulated run: ov_eval/src/calc/ResultSimulation.cpp and `Loader::load_simulation` (Loader.cpp:179-238)

A file is the list of the lines that are not comments, a line the list of its numbers. The result of a function is what it plots: for each time the errors and bounds, in the order of the arrays of statistics. Outcomes: `none` for a failed assertion, an exit or a column that does not exist; `some none` for the early returns that plot nothing.
-/

set_option autoImplicit false
open Classical

namespace Verif.Eval

open Verif Verif.Ros

/-- one point of a plot: time, error and bound -/
structure Pt where
  t : ℝ
  v : ℝ
  b : ℝ

/-- `load_simulation`, Loader.cpp:179-238: the file must have a line, and lines of equal length -/
def loadSim (rows : List Row) : Option (List Row) :=
  match rows with
  | [] => none
  | r :: _ => if rows.all (fun x => x.length == r.length) then some rows else none

/-- the constructor, 26-40: the lines of the three files together -/
def openSim (est std gt : List Row) : Option (List (Row × Row × Row)) :=
  (loadSim est).bind fun e => (loadSim std).bind fun c => (loadSim gt).bind fun g =>
    if e.length = c.length ∧ e.length = g.length ∧ ∀ r ∈ e.head?, 18 < r.length then some (e.zip (c.zip g)) else none

/-- the loop over the lines shared by all plots, 48-57, 208-223, 303-316, 413-426, 541-554: stop at the maximal time, check that the times agree, give up if `off` says that the quantity was not estimated, else the points `f` -/
noncomputable def sweep (mx t0 : ℝ) (off : Row → Option Bool) (f : Row → Row → Row → Option (List Pt)) : List (Row × Row × Row) → Option (Option (List (List Pt)))
  | [] => some (some [])
  | (e, c, g) :: r =>
    (e[0]?).bind fun te => if mx < te - t0 then some (some [])
      else (g[0]?).bind fun tg => if te ≠ tg then none
        else (off c).bind fun o => if o then some none
          else (f e c g).bind fun a => (sweep mx t0 off f r).map fun l => l.map fun l => a :: l

/-- three or more points: errors of a vector that is at column `i` of the values and `k` of the bounds; `sg` is the sign -/
def vecPts (sg : ℝ) (i k m : ℕ) (e c g : Row) : Option (List Pt) :=
  (List.range m).mapM fun j => (e[0]?).bind fun t => (e[i + j]?).bind fun x => (g[i + j]?).bind fun y => (c[k + j]?).map fun b => ⟨t, sg * (x - y), 3 * b⟩

/-- four columns as a quaternion -/
def quatAt (r : Row) (i : ℕ) : Option Quat :=
  (r[i]?).bind fun x => (r[i + 1]?).bind fun y => (r[i + 2]?).bind fun z => (r[i + 3]?).map fun w => ⟨x, y, z, w⟩

/-- the error of a rotation in degrees, 60-63, 430-433, 570-577 -/
noncomputable def oriErr (qg qe : Quat) : V3 := (-180 / Real.pi) • logSO3 (quat2Rot qg * (quat2Rot qe).transpose)

/-- three points: errors of a rotation -/
noncomputable def rotPts (i k : ℕ) (e c g : Row) : Option (List Pt) :=
  (quatAt g i).bind fun qg => (quatAt e i).bind fun qe => (e[0]?).bind fun t => (c[k]?).bind fun b0 => (c[k + 1]?).bind fun b1 => (c[k + 2]?).map fun b2 =>
    [⟨t, oriErr qg qe 0, 3 * 180 / Real.pi * b0⟩, ⟨t, oriErr qg qe 1, 3 * 180 / Real.pi * b1⟩, ⟨t, oriErr qg qe 2, 3 * 180 / Real.pi * b2⟩]

/-- the time of the first line -/
def firstTime (F : List (Row × Row × Row)) : Option ℝ := (F.head?).bind fun x => x.1[0]?

/-- `plot_state`, 42-110: orientation, position, velocity and the biases. Here the errors are truth minus estimate. -/
noncomputable def plotState (mx : ℝ) (F : List (Row × Row × Row)) : Option (Option (List (List Pt))) :=
  (firstTime F).bind fun t0 => sweep mx t0 (fun _ => some false) (fun e c g =>
    (rotPts 1 1 e c g).bind fun a => (vecPts (-1) 5 4 3 e c g).bind fun p => (vecPts (-1) 8 7 3 e c g).bind fun v =>
    (vecPts (-1) 11 10 3 e c g).bind fun bg => (vecPts (-1) 14 13 3 e c g).map fun ba => a ++ p ++ v ++ bg ++ ba) F

/-- `std(i) == 0.0`: the quantity was not estimated -/
noncomputable def zeroAt (i : ℕ) (c : Row) : Option Bool := (c[i]?).map fun x => decide (x = 0)

/-- `plot_timeoff`, 204-230 -/
noncomputable def plotTimeoff (mx : ℝ) (F : List (Row × Row × Row)) : Option (Option (List (List Pt))) :=
  (firstTime F).bind fun t0 => sweep mx t0 (zeroAt 16) (vecPts 1 17 16 1) F

/-- `(int)est_state.at(0)(i)` of a number that is not negative -/
noncomputable def intAt (i : ℕ) (F : List (Row × Row × Row)) : Option ℕ := (F.head?).bind fun x => (x.1[i]?).map fun y => ⌊y⌋.toNat

/-- `plot_cam_instrinsics`, 280-330: for each camera projection and distortion -/
noncomputable def plotIntr (mx : ℝ) (F : List (Row × Row × Row)) : Option (Option (List (List Pt))) :=
  (intAt 18 F).bind fun n => if n < 1 then some none
    else (firstTime F).bind fun t0 => sweep mx t0 (zeroAt 18) (fun e c g =>
      ((List.range n).mapM fun i => (vecPts 1 (19 + 15 * i) (18 + 14 * i) 4 e c g).bind fun k => (vecPts 1 (19 + 4 + 15 * i) (18 + 4 + 14 * i) 4 e c g).map fun d => k ++ d).map List.flatten) F

/-- `plot_cam_extrinsics`, 390-447: for each camera rotation and position -/
noncomputable def plotExtr (mx : ℝ) (F : List (Row × Row × Row)) : Option (Option (List (List Pt))) :=
  (intAt 18 F).bind fun n => if n < 1 then some none
    else (firstTime F).bind fun t0 => sweep mx t0 (zeroAt 26) (fun e c g =>
      ((List.range n).mapM fun i => (rotPts (27 + 15 * i) (26 + 14 * i) e c g).bind fun k => (vecPts 1 (27 + 4 + 15 * i) (26 + 3 + 14 * i) 3 e c g).map fun d => k ++ d).map List.flatten) F

/-- `plot_imu_intrinsics`, 502-733: both triangular matrices, the gravity sensitivity, and the rotation that the model has (all are computed, 558-590, but only one of the rotations is plotted, 693-730) -/
noncomputable def plotImu (mx : ℝ) (F : List (Row × Row × Row)) : Option (Option (List (List Pt))) :=
  (intAt 18 F).bind fun n => if n < 1 then some none
    else (intAt (1 + 16 + 1 + 1 + 15 * n) F).bind fun model =>
      let dw := 1 + 16 + 1 + 1 + 15 * n + 1
      let dwc := 1 + 15 + 1 + 1 + 14 * n + 1
      let da := dw + 6
      let dac := dwc + 6
      let tg := da + 6
      let tgc := dac + 6
      let w := tg + 9
      let wc := tgc + 9
      let a := w + 4
      let ac := wc + 3
      (firstTime F).bind fun t0 => sweep mx t0 (zeroAt dwc) (fun e c g =>
        (vecPts 1 dw dwc 6 e c g).bind fun x => (vecPts 1 da dac 6 e c g).bind fun y => (vecPts 1 tg tgc 9 e c g).bind fun z =>
        (rotPts w wc e c g).bind fun r => (rotPts a ac e c g).map fun r' => x ++ y ++ z ++ if model = 0 then r else r') F

end Verif.Eval
