import Verif.Quat.Model
import Mathlib.Analysis.SpecialFunctions.Trigonometric.Arctan

/-!
# Model of the camera models: `ov_core/src/cam/CamBase.h`, `CamRadtan.h`, `CamEqui.h`

Real arithmetic (the code computes in `double` and rounds the distorted pixel to `float`). `undistort_f` calls OpenCV and is not
modelled.
-/

open Classical

namespace Verif.Cam

open Verif

/-- a point in the image plane. -/
abbrev V2 := Fin 2 → ℝ
/-- `camera_values`: `fx fy cx cy k1 k2 k3 k4`, CamBase.h:52-82. -/
abbrev Intr := Fin 8 → ℝ

/-- `CamRadtan::distort_f`, CamRadtan.h:127-146. -/
noncomputable def radtan (d : Intr) (u : V2) : V2 :=
  let r := Real.sqrt (u 0 * u 0 + u 1 * u 1)
  let r2 := r * r
  let r4 := r2 * r2
  let x1 := u 0 * (1 + d 4 * r2 + d 5 * r4) + 2 * d 6 * u 0 * u 1 + d 7 * (r2 + 2 * u 0 * u 0)
  let y1 := u 1 * (1 + d 4 * r2 + d 5 * r4) + d 6 * (r2 + 2 * u 1 * u 1) + 2 * d 7 * u 0 * u 1
  ![d 0 * x1 + d 2, d 1 * y1 + d 3]

/-- `CamRadtan::compute_distort_jacobian`, CamRadtan.h:154-178: `H_dz_dzn`. -/
noncomputable def radtanN (d : Intr) (u : V2) : Matrix (Fin 2) (Fin 2) ℝ :=
  let r := Real.sqrt (u 0 * u 0 + u 1 * u 1)
  let r2 := r * r
  let r4 := r2 * r2
  let x := u 0
  let y := u 1
  let x2 := u 0 * u 0
  let y2 := u 1 * u 1
  let xy := u 0 * u 1
  !![d 0 * ((1 + d 4 * r2 + d 5 * r4) + (2 * d 4 * x2 + 4 * d 5 * x2 * r2) + 2 * d 6 * y + (2 * d 7 * x + 4 * d 7 * x)),
     d 0 * (2 * d 4 * xy + 4 * d 5 * xy * r2 + 2 * d 6 * x + 2 * d 7 * y);
     d 1 * (2 * d 4 * xy + 4 * d 5 * xy * r2 + 2 * d 6 * x + 2 * d 7 * y),
     d 1 * ((1 + d 4 * r2 + d 5 * r4) + (2 * d 4 * y2 + 4 * d 5 * y2 * r2) + 2 * d 7 * x + (2 * d 6 * y + 4 * d 6 * y))]

/-- `CamRadtan::compute_distort_jacobian`, CamRadtan.h:180-197: `H_dz_dzeta`. -/
noncomputable def radtanZ (d : Intr) (u : V2) : Matrix (Fin 2) (Fin 8) ℝ :=
  let r := Real.sqrt (u 0 * u 0 + u 1 * u 1)
  let r2 := r * r
  let r4 := r2 * r2
  let x1 := u 0 * (1 + d 4 * r2 + d 5 * r4) + 2 * d 6 * u 0 * u 1 + d 7 * (r2 + 2 * u 0 * u 0)
  let y1 := u 1 * (1 + d 4 * r2 + d 5 * r4) + d 6 * (r2 + 2 * u 1 * u 1) + 2 * d 7 * u 0 * u 1
  !![x1, 0, 1, 0, d 0 * u 0 * r2, d 0 * u 0 * r4, 2 * d 0 * u 0 * u 1, d 0 * (r2 + 2 * u 0 * u 0);
     0, y1, 0, 1, d 1 * u 1 * r2, d 1 * u 1 * r4, d 1 * (r2 + 2 * u 1 * u 1), 2 * d 1 * u 0 * u 1]

/-- `theta_d`, CamEqui.h:143-145. -/
noncomputable def thetaD (d : Intr) (th : ℝ) : ℝ := th + d 4 * th ^ 3 + d 5 * th ^ 5 + d 6 * th ^ 7 + d 7 * th ^ 9

/-- `CamEqui::distort_f`, CamEqui.h:136-158. -/
noncomputable def equi (d : Intr) (u : V2) : V2 :=
  let r := Real.sqrt (u 0 * u 0 + u 1 * u 1)
  let th := Real.arctan r
  let thd := thetaD d th
  let invr := if 1e-8 < r then 1 / r else 1
  let cdist := if 1e-8 < r then thd * invr else 1
  ![d 0 * (u 0 * cdist) + d 2, d 1 * (u 1 * cdist) + d 3]

/-- `CamEqui::compute_distort_jacobian`, CamEqui.h:166-210: `H_dz_dzn`. -/
noncomputable def equiN (d : Intr) (u : V2) : Matrix (Fin 2) (Fin 2) ℝ :=
  let r := Real.sqrt (u 0 * u 0 + u 1 * u 1)
  let th := Real.arctan r
  let thd := thetaD d th
  let invr := if 1e-8 < r then 1 / r else 1
  let duv : Matrix (Fin 2) (Fin 2) ℝ := !![d 0, 0; 0, d 1]
  let dxy : Matrix (Fin 2) (Fin 2) ℝ := !![thd * invr, 0; 0, thd * invr]
  let dxydr : Matrix (Fin 2) (Fin 1) ℝ := !![-(u 0) * thd * invr * invr; -(u 1) * thd * invr * invr]
  let drdxy : Matrix (Fin 1) (Fin 2) ℝ := !![u 0 * invr, u 1 * invr]
  let dxydthd : Matrix (Fin 2) (Fin 1) ℝ := !![u 0 * invr; u 1 * invr]
  let dthd := 1 + 3 * d 4 * th ^ 2 + 5 * d 5 * th ^ 4 + 7 * d 6 * th ^ 6 + 9 * d 7 * th ^ 8
  let dth := 1 / (r * r + 1)
  duv * (dxy + (dxydr + (dth * dthd) • dxydthd) * drdxy)

/-- `CamEqui::compute_distort_jacobian`, CamEqui.h:212-229: `H_dz_dzeta`. -/
noncomputable def equiZ (d : Intr) (u : V2) : Matrix (Fin 2) (Fin 8) ℝ :=
  let r := Real.sqrt (u 0 * u 0 + u 1 * u 1)
  let th := Real.arctan r
  let thd := thetaD d th
  let invr := if 1e-8 < r then 1 / r else 1
  let cdist := if 1e-8 < r then thd * invr else 1
  !![u 0 * cdist, 0, 1, 0, d 0 * u 0 * invr * th ^ 3, d 0 * u 0 * invr * th ^ 5, d 0 * u 0 * invr * th ^ 7, d 0 * u 0 * invr * th ^ 9;
     0, u 1 * cdist, 0, 1, d 1 * u 1 * invr * th ^ 3, d 1 * u 1 * invr * th ^ 5, d 1 * u 1 * invr * th ^ 7, d 1 * u 1 * invr * th ^ 9]

/-- the two camera classes. -/
inductive Kind where
  | radtan | equi
  deriving DecidableEq

/-- virtual dispatch of `distort_f` (`distort_d`, CamBase.h:135-140, without the rounding to `float`). -/
noncomputable def distort : Kind → Intr → V2 → V2
  | .radtan => Cam.radtan
  | .equi => Cam.equi

/-- virtual dispatch of `compute_distort_jacobian`. -/
noncomputable def distortN : Kind → Intr → V2 → Matrix (Fin 2) (Fin 2) ℝ
  | .radtan => radtanN
  | .equi => equiN
noncomputable def distortZ : Kind → Intr → V2 → Matrix (Fin 2) (Fin 8) ℝ
  | .radtan => radtanZ
  | .equi => equiZ

end Verif.Cam
