import Verif.Base.Mat
import Verif.Imu.Model
import Verif.Types.Model
import Verif.Disp.Model
import Mathlib.LinearAlgebra.Matrix.NonsingularInverse

/-!
# Model of the initialisers (`ov_init`)

Sources: `ov_init/src/utils/helper.h`, `ov_init/src/static/StaticInitializer.cpp`, `ov_init/src/init/InertialInitializer.cpp`,
`ov_init/src/dynamic/DynamicInitializer.cpp` (up to the linear solution; the Ceres optimisation after it is not modelled here).
Real arithmetic; `none` for a process that aborts.
-/

open Classical

namespace Verif.Init

open Verif Verif.Imu Verif.Feat Verif.Disp Verif.Types

/-- Eigen's `a.cross(b)`. -/
def cross (a b : V3) : V3 := ![a 1 * b 2 - a 2 * b 1, a 2 * b 0 - a 0 * b 2, a 0 * b 1 - a 1 * b 0]

/-- a matrix from its three columns, helper.h:168-170 -/
def cols (x y z : V3) : M3 := !![x 0, y 0, z 0; x 1, y 1, z 1; x 2, y 2, z 2]

/-- `v / v.norm()` -/
noncomputable def unitV (v : V3) : V3 := (1 / norm3 v) • v

/-- `InitializerHelper::gram_schmidt`, helper.h:138-171. -/
noncomputable def gramSchmidt (g : V3) : M3 :=
  let z := unitV g
  let e1 : V3 := ![1, 0, 0]
  let e2 : V3 := ![0, 1, 0]
  let inner1 := dot3 e1 z / norm3 z
  let inner2 := dot3 e2 z / norm3 z
  let x := if |inner1| < |inner2| then unitV (cross z e1) else unitV (cross z e2)
  let y := unitV (cross z x)
  cols x y z

/-- `coeff(6)` of `compute_dongsi_coeff`, ov_init/src/utils/helper.h:204-316. -/
noncomputable def dongsi6 (D11 D12 D13 D21 D22 D23 D31 D32 D33 d1 d2 d3 g : ℝ) : ℝ :=
      -(-D11 ^ 2 * D22 ^ 2 * D33 ^ 2 * g ^ 2 + D11 ^ 2 * D22 ^ 2 * d3 ^ 2 + 2 * D11 ^ 2 * D22 * D23 * D32 * D33 * g ^ 2 - D11 ^ 2 * D22 * D23 * d2 * d3 - D11 ^ 2 * D22 * D32 * d2 * d3
      - D11 ^ 2 * D23 ^ 2 * D32 ^ 2 * g ^ 2 + D11 ^ 2 * D23 * D32 * d2 ^ 2 + D11 ^ 2 * D23 * D32 * d3 ^ 2 - D11 ^ 2 * D23 * D33 * d2 * d3 - D11 ^ 2 * D32 * D33 * d2 * d3
      + D11 ^ 2 * D33 ^ 2 * d2 ^ 2 + 2 * D11 * D12 * D21 * D22 * D33 ^ 2 * g ^ 2 - 2 * D11 * D12 * D21 * D22 * d3 ^ 2 - 2 * D11 * D12 * D21 * D23 * D32 * D33 * g ^ 2
      + D11 * D12 * D21 * D23 * d2 * d3 + D11 * D12 * D21 * D32 * d2 * d3 - 2 * D11 * D12 * D22 * D23 * D31 * D33 * g ^ 2 + D11 * D12 * D22 * D23 * d1 * d3
      + D11 * D12 * D22 * D31 * d2 * d3 + 2 * D11 * D12 * D23 ^ 2 * D31 * D32 * g ^ 2 - D11 * D12 * D23 * D31 * d2 ^ 2 - D11 * D12 * D23 * D31 * d3 ^ 2 - D11 * D12 * D23 * D32 * d1 * d2
      + D11 * D12 * D23 * D33 * d1 * d3 + D11 * D12 * D31 * D33 * d2 * d3 - D11 * D12 * D33 ^ 2 * d1 * d2 - 2 * D11 * D13 * D21 * D22 * D32 * D33 * g ^ 2 + D11 * D13 * D21 * D22 * d2 * d3
      + 2 * D11 * D13 * D21 * D23 * D32 ^ 2 * g ^ 2 - D11 * D13 * D21 * D32 * d2 ^ 2 - D11 * D13 * D21 * D32 * d3 ^ 2 + D11 * D13 * D21 * D33 * d2 * d3 + 2 * D11 * D13 * D22 ^ 2 * D31 * D33 * g ^ 2
      - D11 * D13 * D22 ^ 2 * d1 * d3 - 2 * D11 * D13 * D22 * D23 * D31 * D32 * g ^ 2 + D11 * D13 * D22 * D32 * d1 * d2 + D11 * D13 * D23 * D31 * d2 * d3 - D11 * D13 * D23 * D32 * d1 * d3
      + D11 * D13 * D31 * D32 * d2 * d3 - 2 * D11 * D13 * D31 * D33 * d2 ^ 2 + D11 * D13 * D32 * D33 * d1 * d2 + D11 * D21 * D22 * D32 * d1 * d3 - D11 * D21 * D23 * D32 * d1 * d2
      + D11 * D21 * D32 * D33 * d1 * d3 - D11 * D21 * D33 ^ 2 * d1 * d2 - D11 * D22 ^ 2 * D31 * d1 * d3 + D11 * D22 * D23 * D31 * d1 * d2 - D11 * D23 * D31 * D32 * d1 * d3
      + D11 * D23 * D31 * D33 * d1 * d2 - D12 ^ 2 * D21 ^ 2 * D33 ^ 2 * g ^ 2 + D12 ^ 2 * D21 ^ 2 * d3 ^ 2 + 2 * D12 ^ 2 * D21 * D23 * D31 * D33 * g ^ 2 - D12 ^ 2 * D21 * D23 * d1 * d3
      - D12 ^ 2 * D21 * D31 * d2 * d3 - D12 ^ 2 * D23 ^ 2 * D31 ^ 2 * g ^ 2 + D12 ^ 2 * D23 * D31 * d1 * d2 + 2 * D12 * D13 * D21 ^ 2 * D32 * D33 * g ^ 2 - D12 * D13 * D21 ^ 2 * d2 * d3
      - 2 * D12 * D13 * D21 * D22 * D31 * D33 * g ^ 2 + D12 * D13 * D21 * D22 * d1 * d3 - 2 * D12 * D13 * D21 * D23 * D31 * D32 * g ^ 2 + D12 * D13 * D21 * D31 * d2 ^ 2
      + D12 * D13 * D21 * D31 * d3 ^ 2 - D12 * D13 * D21 * D33 * d1 * d3 + 2 * D12 * D13 * D22 * D23 * D31 ^ 2 * g ^ 2 - D12 * D13 * D22 * D31 * d1 * d2 - D12 * D13 * D31 ^ 2 * d2 * d3
      + D12 * D13 * D31 * D33 * d1 * d2 - D12 * D21 ^ 2 * D32 * d1 * d3 + D12 * D21 * D22 * D31 * d1 * d3 + D12 * D21 * D23 * D32 * d1 ^ 2 + D12 * D21 * D23 * D32 * d3 ^ 2
      - D12 * D21 * D23 * D33 * d2 * d3 - D12 * D21 * D31 * D33 * d1 * d3 - D12 * D21 * D32 * D33 * d2 * d3 + D12 * D21 * D33 ^ 2 * d1 ^ 2 + D12 * D21 * D33 ^ 2 * d2 ^ 2
      - D12 * D22 * D23 * D31 * d1 ^ 2 - D12 * D22 * D23 * D31 * d3 ^ 2 + D12 * D22 * D23 * D33 * d1 * d3 + D12 * D22 * D31 * D33 * d2 * d3 - D12 * D22 * D33 ^ 2 * d1 * d2
      + D12 * D23 ^ 2 * D31 * d2 * d3 - D12 * D23 ^ 2 * D32 * d1 * d3 + D12 * D23 * D31 ^ 2 * d1 * d3 - D12 * D23 * D31 * D33 * d1 ^ 2 - D12 * D23 * D31 * D33 * d2 ^ 2
      + D12 * D23 * D32 * D33 * d1 * d2 - D13 ^ 2 * D21 ^ 2 * D32 ^ 2 * g ^ 2 + 2 * D13 ^ 2 * D21 * D22 * D31 * D32 * g ^ 2 - D13 ^ 2 * D21 * D31 * d2 * d3
      + D13 ^ 2 * D21 * D32 * d1 * d3 - D13 ^ 2 * D22 ^ 2 * D31 ^ 2 * g ^ 2 + D13 ^ 2 * D31 ^ 2 * d2 ^ 2 - D13 ^ 2 * D31 * D32 * d1 * d2 + D13 * D21 ^ 2 * D32 * d1 * d2
      - D13 * D21 * D22 * D31 * d1 * d2 - D13 * D21 * D22 * D32 * d1 ^ 2 - D13 * D21 * D22 * D32 * d3 ^ 2 + D13 * D21 * D22 * D33 * d2 * d3 + D13 * D21 * D31 * D33 * d1 * d2
      + D13 * D21 * D32 ^ 2 * d2 * d3 - D13 * D21 * D32 * D33 * d1 ^ 2 - D13 * D21 * D32 * D33 * d2 ^ 2 + D13 * D22 ^ 2 * D31 * d1 ^ 2 + D13 * D22 ^ 2 * D31 * d3 ^ 2
      - D13 * D22 ^ 2 * D33 * d1 * d3 - D13 * D22 * D23 * D31 * d2 * d3 + D13 * D22 * D23 * D32 * d1 * d3 - D13 * D22 * D31 * D32 * d2 * d3 + D13 * D22 * D32 * D33 * d1 * d2
      - D13 * D23 * D31 ^ 2 * d1 * d2 + D13 * D23 * D31 * D32 * d1 ^ 2 + D13 * D23 * D31 * D32 * d2 ^ 2 - D13 * D23 * D32 ^ 2 * d1 * d2 + D21 * D22 * D32 * D33 * d1 * d3
      - D21 * D22 * D33 ^ 2 * d1 * d2 - D21 * D23 * D32 ^ 2 * d1 * d3 + D21 * D23 * D32 * D33 * d1 * d2 - D22 ^ 2 * D31 * D33 * d1 * d3 + D22 ^ 2 * D33 ^ 2 * d1 ^ 2
      + D22 * D23 * D31 * D32 * d1 * d3 + D22 * D23 * D31 * D33 * d1 * d2 - 2 * D22 * D23 * D32 * D33 * d1 ^ 2 - D23 ^ 2 * D31 * D32 * d1 * d2 + D23 ^ 2 * D32 ^ 2 * d1 ^ 2) / g ^ 2

/-- `coeff(5)` of `compute_dongsi_coeff`, ov_init/src/utils/helper.h:204-316. -/
noncomputable def dongsi5 (D11 D12 D13 D21 D22 D23 D31 D32 D33 d1 d2 d3 g : ℝ) : ℝ :=
      (-(2 * D11 ^ 2 * D22 ^ 2 * D33 * g ^ 2 - 2 * D11 ^ 2 * D22 * D23 * D32 * g ^ 2 + 2 * D11 ^ 2 * D22 * D33 ^ 2 * g ^ 2 - 2 * D11 ^ 2 * D22 * d3 ^ 2 - 2 * D11 ^ 2 * D23 * D32 * D33 * g ^ 2
      + 2 * D11 ^ 2 * D23 * d2 * d3 + 2 * D11 ^ 2 * D32 * d2 * d3 - 2 * D11 ^ 2 * D33 * d2 ^ 2 - 4 * D11 * D12 * D21 * D22 * D33 * g ^ 2 + 2 * D11 * D12 * D21 * D23 * D32 * g ^ 2
      - 2 * D11 * D12 * D21 * D33 ^ 2 * g ^ 2 + 2 * D11 * D12 * D21 * d3 ^ 2 + 2 * D11 * D12 * D22 * D23 * D31 * g ^ 2 + 2 * D11 * D12 * D23 * D31 * D33 * g ^ 2
      - 2 * D11 * D12 * D23 * d1 * d3 - 2 * D11 * D12 * D31 * d2 * d3 + 2 * D11 * D12 * D33 * d1 * d2 + 2 * D11 * D13 * D21 * D22 * D32 * g ^ 2 + 2 * D11 * D13 * D21 * D32 * D33 * g ^ 2
      - 2 * D11 * D13 * D21 * d2 * d3 - 2 * D11 * D13 * D22 ^ 2 * D31 * g ^ 2 - 4 * D11 * D13 * D22 * D31 * D33 * g ^ 2 + 2 * D11 * D13 * D22 * d1 * d3 + 2 * D11 * D13 * D23 * D31 * D32 * g ^ 2
      + 2 * D11 * D13 * D31 * d2 ^ 2 - 2 * D11 * D13 * D32 * d1 * d2 - 2 * D11 * D21 * D32 * d1 * d3 + 2 * D11 * D21 * D33 * d1 * d2 + 2 * D11 * D22 ^ 2 * D33 ^ 2 * g ^ 2
      - 2 * D11 * D22 ^ 2 * d3 ^ 2 - 4 * D11 * D22 * D23 * D32 * D33 * g ^ 2 + 2 * D11 * D22 * D23 * d2 * d3 + 2 * D11 * D22 * D31 * d1 * d3 + 2 * D11 * D22 * D32 * d2 * d3
      + 2 * D11 * D23 ^ 2 * D32 ^ 2 * g ^ 2 - 2 * D11 * D23 * D31 * d1 * d2 - 2 * D11 * D23 * D32 * d2 ^ 2 - 2 * D11 * D23 * D32 * d3 ^ 2 + 2 * D11 * D23 * D33 * d2 * d3
      + 2 * D11 * D32 * D33 * d2 * d3 - 2 * D11 * D33 ^ 2 * d2 ^ 2 + 2 * D12 ^ 2 * D21 ^ 2 * D33 * g ^ 2 - 2 * D12 ^ 2 * D21 * D23 * D31 * g ^ 2 - 2 * D12 * D13 * D21 ^ 2 * D32 * g ^ 2
      + 2 * D12 * D13 * D21 * D22 * D31 * g ^ 2 + 2 * D12 * D13 * D21 * D31 * D33 * g ^ 2 - 2 * D12 * D13 * D23 * D31 ^ 2 * g ^ 2 - 2 * D12 * D21 * D22 * D33 ^ 2 * g ^ 2
      + 2 * D12 * D21 * D22 * d3 ^ 2 + 2 * D12 * D21 * D23 * D32 * D33 * g ^ 2 - 2 * D12 * D21 * D33 * d1 ^ 2 - 2 * D12 * D21 * D33 * d2 ^ 2 + 2 * D12 * D22 * D23 * D31 * D33 * g ^ 2
      - 2 * D12 * D22 * D23 * d1 * d3 - 2 * D12 * D22 * D31 * d2 * d3 + 2 * D12 * D22 * D33 * d1 * d2 - 2 * D12 * D23 ^ 2 * D31 * D32 * g ^ 2 + 2 * D12 * D23 * D31 * d1 ^ 2
      + 2 * D12 * D23 * D31 * d2 ^ 2 + 2 * D12 * D23 * D31 * d3 ^ 2 - 2 * D12 * D23 * D33 * d1 * d3 - 2 * D12 * D31 * D33 * d2 * d3 + 2 * D12 * D33 ^ 2 * d1 * d2
      - 2 * D13 ^ 2 * D21 * D31 * D32 * g ^ 2 + 2 * D13 ^ 2 * D22 * D31 ^ 2 * g ^ 2 + 2 * D13 * D21 * D22 * D32 * D33 * g ^ 2 - 2 * D13 * D21 * D22 * d2 * d3
      - 2 * D13 * D21 * D23 * D32 ^ 2 * g ^ 2 + 2 * D13 * D21 * D32 * d1 ^ 2 + 2 * D13 * D21 * D32 * d2 ^ 2 + 2 * D13 * D21 * D32 * d3 ^ 2 - 2 * D13 * D21 * D33 * d2 * d3
      - 2 * D13 * D22 ^ 2 * D31 * D33 * g ^ 2 + 2 * D13 * D22 ^ 2 * d1 * d3 + 2 * D13 * D22 * D23 * D31 * D32 * g ^ 2 - 2 * D13 * D22 * D31 * d1 ^ 2 - 2 * D13 * D22 * D31 * d3 ^ 2
      - 2 * D13 * D22 * D32 * d1 * d2 + 2 * D13 * D22 * D33 * d1 * d3 + 2 * D13 * D31 * D33 * d2 ^ 2 - 2 * D13 * D32 * D33 * d1 * d2 - 2 * D21 * D22 * D32 * d1 * d3
      + 2 * D21 * D22 * D33 * d1 * d2 - 2 * D21 * D32 * D33 * d1 * d3 + 2 * D21 * D33 ^ 2 * d1 * d2 + 2 * D22 ^ 2 * D31 * d1 * d3 - 2 * D22 ^ 2 * D33 * d1 ^ 2
      - 2 * D22 * D23 * D31 * d1 * d2 + 2 * D22 * D23 * D32 * d1 ^ 2 + 2 * D22 * D31 * D33 * d1 * d3 - 2 * D22 * D33 ^ 2 * d1 ^ 2 - 2 * D23 * D31 * D33 * d1 * d2
      + 2 * D23 * D32 * D33 * d1 ^ 2) / g ^ 2)

/-- `coeff(4)` of `compute_dongsi_coeff`, ov_init/src/utils/helper.h:204-316. -/
noncomputable def dongsi4 (D11 D12 D13 D21 D22 D23 D31 D32 D33 d1 d2 d3 g : ℝ) : ℝ :=
      ((D11 ^ 2 * D22 ^ 2 * g ^ 2 + 4 * D11 ^ 2 * D22 * D33 * g ^ 2 - 2 * D11 ^ 2 * D23 * D32 * g ^ 2 + D11 ^ 2 * D33 ^ 2 * g ^ 2 - D11 ^ 2 * d2 ^ 2 - D11 ^ 2 * d3 ^ 2
      - 2 * D11 * D12 * D21 * D22 * g ^ 2 - 4 * D11 * D12 * D21 * D33 * g ^ 2 + 2 * D11 * D12 * D23 * D31 * g ^ 2 + D11 * D12 * d1 * d2 + 2 * D11 * D13 * D21 * D32 * g ^ 2
      - 4 * D11 * D13 * D22 * D31 * g ^ 2 - 2 * D11 * D13 * D31 * D33 * g ^ 2 + D11 * D13 * d1 * d3 + D11 * D21 * d1 * d2 + 4 * D11 * D22 ^ 2 * D33 * g ^ 2
      - 4 * D11 * D22 * D23 * D32 * g ^ 2 + 4 * D11 * D22 * D33 ^ 2 * g ^ 2 - 4 * D11 * D22 * d3 ^ 2 - 4 * D11 * D23 * D32 * D33 * g ^ 2 + 4 * D11 * D23 * d2 * d3
      + D11 * D31 * d1 * d3 + 4 * D11 * D32 * d2 * d3 - 4 * D11 * D33 * d2 ^ 2 + D12 ^ 2 * D21 ^ 2 * g ^ 2 + 2 * D12 * D13 * D21 * D31 * g ^ 2 - 4 * D12 * D21 * D22 * D33 * g ^ 2
      + 2 * D12 * D21 * D23 * D32 * g ^ 2 - 2 * D12 * D21 * D33 ^ 2 * g ^ 2 - D12 * D21 * d1 ^ 2 - D12 * D21 * d2 ^ 2 + 2 * D12 * D21 * d3 ^ 2 + 2 * D12 * D22 * D23 * D31 * g ^ 2
      + D12 * D22 * d1 * d2 + 2 * D12 * D23 * D31 * D33 * g ^ 2 - 3 * D12 * D23 * d1 * d3 - 3 * D12 * D31 * d2 * d3 + 4 * D12 * D33 * d1 * d2 + D13 ^ 2 * D31 ^ 2 * g ^ 2
      + 2 * D13 * D21 * D22 * D32 * g ^ 2 + 2 * D13 * D21 * D32 * D33 * g ^ 2 - 3 * D13 * D21 * d2 * d3 - 2 * D13 * D22 ^ 2 * D31 * g ^ 2 - 4 * D13 * D22 * D31 * D33 * g ^ 2
      + 4 * D13 * D22 * d1 * d3 + 2 * D13 * D23 * D31 * D32 * g ^ 2 - D13 * D31 * d1 ^ 2 + 2 * D13 * D31 * d2 ^ 2 - D13 * D31 * d3 ^ 2 - 3 * D13 * D32 * d1 * d2
      + D13 * D33 * d1 * d3 + D21 * D22 * d1 * d2 - 3 * D21 * D32 * d1 * d3 + 4 * D21 * D33 * d1 * d2 + D22 ^ 2 * D33 ^ 2 * g ^ 2 - D22 ^ 2 * d1 ^ 2 - D22 ^ 2 * d3 ^ 2
      - 2 * D22 * D23 * D32 * D33 * g ^ 2 + D22 * D23 * d2 * d3 + 4 * D22 * D31 * d1 * d3 + D22 * D32 * d2 * d3 - 4 * D22 * D33 * d1 ^ 2 + D23 ^ 2 * D32 ^ 2 * g ^ 2
      - 3 * D23 * D31 * d1 * d2 + 2 * D23 * D32 * d1 ^ 2 - D23 * D32 * d2 ^ 2 - D23 * D32 * d3 ^ 2 + D23 * D33 * d2 * d3 + D31 * D33 * d1 * d3 + D32 * D33 * d2 * d3
      - D33 ^ 2 * d1 ^ 2 - D33 ^ 2 * d2 ^ 2) / g ^ 2)

/-- `coeff(3)` of `compute_dongsi_coeff`, ov_init/src/utils/helper.h:204-316. -/
noncomputable def dongsi3 (D11 D12 D13 D21 D22 D23 D31 D32 D33 d1 d2 d3 g : ℝ) : ℝ :=
      ((2 * D11 * d2 ^ 2 + 2 * D11 * d3 ^ 2 + 2 * D22 * d1 ^ 2 + 2 * D22 * d3 ^ 2 + 2 * D33 * d1 ^ 2 + 2 * D33 * d2 ^ 2 - 2 * D11 * D22 ^ 2 * g ^ 2 - 2 * D11 ^ 2 * D22 * g ^ 2
      - 2 * D11 * D33 ^ 2 * g ^ 2 - 2 * D11 ^ 2 * D33 * g ^ 2 - 2 * D22 * D33 ^ 2 * g ^ 2 - 2 * D22 ^ 2 * D33 * g ^ 2 - 2 * D12 * d1 * d2 - 2 * D13 * d1 * d3
      - 2 * D21 * d1 * d2 - 2 * D23 * d2 * d3 - 2 * D31 * d1 * d3 - 2 * D32 * d2 * d3 + 2 * D11 * D12 * D21 * g ^ 2 + 2 * D11 * D13 * D31 * g ^ 2 + 2 * D12 * D21 * D22 * g ^ 2
      - 8 * D11 * D22 * D33 * g ^ 2 + 4 * D11 * D23 * D32 * g ^ 2 + 4 * D12 * D21 * D33 * g ^ 2 - 2 * D12 * D23 * D31 * g ^ 2 - 2 * D13 * D21 * D32 * g ^ 2
      + 4 * D13 * D22 * D31 * g ^ 2 + 2 * D13 * D31 * D33 * g ^ 2 + 2 * D22 * D23 * D32 * g ^ 2 + 2 * D23 * D32 * D33 * g ^ 2) / g ^ 2)

/-- `coeff(2)` of `compute_dongsi_coeff`, ov_init/src/utils/helper.h:204-316. -/
noncomputable def dongsi2 (D11 D12 D13 D21 D22 D23 D31 D32 D33 d1 d2 d3 g : ℝ) : ℝ :=
      (-(d1 ^ 2 + d2 ^ 2 + d3 ^ 2 - D11 ^ 2 * g ^ 2 - D22 ^ 2 * g ^ 2 - D33 ^ 2 * g ^ 2 - 4 * D11 * D22 * g ^ 2 + 2 * D12 * D21 * g ^ 2 - 4 * D11 * D33 * g ^ 2
      + 2 * D13 * D31 * g ^ 2 - 4 * D22 * D33 * g ^ 2 + 2 * D23 * D32 * g ^ 2) / g ^ 2)

/-- `coeff(1)` of `compute_dongsi_coeff`, ov_init/src/utils/helper.h:204-316. -/
noncomputable def dongsi1 (D11 D12 D13 D21 D22 D23 D31 D32 D33 d1 d2 d3 g : ℝ) : ℝ :=
      (-(2 * D11 * g ^ 2 + 2 * D22 * g ^ 2 + 2 * D33 * g ^ 2) / g ^ 2)

/-- `InitializerHelper::compute_dongsi_coeff`, helper.h:183-319: the coefficients from the highest to the constant. -/
noncomputable def dongsi (D : M3) (d : V3) (g : ℝ) : Fin 7 → ℝ :=
  let F (f : ℝ → ℝ → ℝ → ℝ → ℝ → ℝ → ℝ → ℝ → ℝ → ℝ → ℝ → ℝ → ℝ → ℝ) : ℝ :=
    f (D 0 0) (D 0 1) (D 0 2) (D 1 0) (D 1 1) (D 1 2) (D 2 0) (D 2 1) (D 2 2) (d 0) (d 1) (d 2) g
  ![1, F dongsi1, F dongsi2, F dongsi3, F dongsi4, F dongsi5, F dongsi6]

/-- The companion matrix, DynamicInitializer.cpp:405-409: ones below the diagonal, last column `-coeff.reverse().head(6)`. -/
def companion (c : Fin 7 → ℝ) : Matrix (Fin 6) (Fin 6) ℝ :=
  !![0, 0, 0, 0, 0, -c 6;
     1, 0, 0, 0, 0, -c 5;
     0, 1, 0, 0, 0, -c 4;
     0, 0, 1, 0, 0, -c 3;
     0, 0, 0, 1, 0, -c 2;
     0, 0, 0, 0, 1, -c 1]

/-! ## The static initialiser -/

/-- the fields of `InertialInitializerOptions` used here -/
structure Params where
  windowTime : ℝ
  imuThresh : ℝ
  maxDisparity : ℝ
  gravityMag : ℝ
  camimuDt : ℝ
  dynUse : Bool

/-- sum of a list of vectors, started at zero, StaticInitializer.cpp:74-77 -/
noncomputable def vsum (l : List V3) : V3 := l.foldl (· + ·) 0

/-- mean of a list of vectors, StaticInitializer.cpp:74-78 and 86-93 -/
noncomputable def vmean (l : List V3) : V3 := (1 / (l.length : ℝ)) • vsum l

/-- sample standard deviation of the accelerations, StaticInitializer.cpp:79-83 and 94-98 -/
noncomputable def vdev (l : List V3) : ℝ :=
  Real.sqrt ((l.foldl (fun s a => s + dot3 (a - vmean l) (a - vmean l)) 0) / ((l.length : ℝ) - 1))

/-- what the static initialiser sets: time, IMU state and covariance (StaticInitializer.cpp:134-151) -/
structure StaticResult where
  time : ℝ
  imu : Imu16
  cov : Mat

/-- the newest half window, StaticInitializer.cpp:58-60 -/
noncomputable def win1to0 (w newest : ℝ) (buf : List Reading) : List Reading :=
  buf.filter fun r => decide (r.t > newest - 0.5 * w ∧ r.t ≤ newest - 0.0 * w)

/-- the half window before it, StaticInitializer.cpp:61-63 -/
noncomputable def win2to1 (w newest : ℝ) (buf : List Reading) : List Reading :=
  buf.filter fun r => decide (r.t > newest - 1.0 * w ∧ r.t ≤ newest - 0.5 * w)

/-- the initial covariance, StaticInitializer.cpp:147-151 -/
noncomputable def staticCov : Mat := fun i j =>
  if i = j then (if i < 3 then 0.02 ^ 2 else if i < 6 then 0.05 ^ 2 else if i < 9 then 0.01 ^ 2 else 0.02 ^ 2) else 0

/-- `StaticInitializer::initialize`, StaticInitializer.cpp:37-165. `none`: returns false (and has written nothing). -/
noncomputable def staticInit (p : Params) (buf : List Reading) (waitForJerk : Bool) : Option StaticResult :=
  if buf.length < 2 then none
  else match buf.head?, buf.getLast? with
    | some old, some new =>
      if new.t - old.t < p.windowTime then none
      else
        let w10 := win1to0 p.windowTime new.t buf
        let w21 := win2to1 p.windowTime new.t buf
        if w10.length < 2 ∨ w21.length < 2 then none
        else
          let v10 := vdev (w10.map Reading.am)
          let v21 := vdev (w21.map Reading.am)
          if v10 < p.imuThresh ∧ waitForJerk = true then none
          else if v21 > p.imuThresh ∧ waitForJerk = true then none
          else if (v10 > p.imuThresh ∨ v21 > p.imuThresh) ∧ waitForJerk = false then none
          else
            let a21 := vmean (w21.map Reading.am)
            let Ro := gramSchmidt (unitV a21)
            let q := rot2quat Ro
            let ba := a21 - (quat2Rot q).mulVec ![0, 0, p.gravityMag]
            match w21.getLast? with
            | some l => some ⟨l.t, ⟨q, 0, 0, vmean (w21.map Reading.wm), ba⟩, staticCov⟩
            | none => none
    | _, _ => none

/-! ## The choice between the initialisers -/

/-- which initialiser `InertialInitializer::initialize` calls -/
inductive Choice where
  | fail | static | dynamic
deriving DecidableEq

/-- the newest camera time in the database, InertialInitializer.cpp:83-90 -/
noncomputable def newestCam (db : DB ℝ Uv) : ℝ :=
  db.foldl (fun m e => e.2.times.foldl (fun m cp => cp.2.foldl max m) m) (-1)

/-- the prefix of old IMU readings is dropped, InertialInitializer.cpp:99-102 -/
noncomputable def dropOldImu (t : ℝ) (buf : List Reading) : List Reading := buf.dropWhile fun r => decide (r.t < t)

/-- `avg_disp > init_max_disparity`, InertialInitializer.cpp:131-132; a NaN average compares false. -/
noncomputable def moving (p : Params) (s : Stats) : Bool :=
  match s.mean with
  | some m => decide (m > p.maxDisparity)
  | none => false

/-- `InertialInitializer::initialize` up to the call of the chosen initialiser, InertialInitializer.cpp:79-159: the choice, and the database and
IMU buffer left behind. The dynamic initialiser is assumed to be available (not Android). -/
noncomputable def choose (p : Params) (db : DB ℝ Uv) (buf : List Reading) (waitForJerk : Bool) : Option (Choice × DB ℝ Uv × List Reading) :=
  let newest := newestCam db
  let oldest := newest - p.windowTime - 0.10
  if newest < 0 ∨ oldest < 0 then some (.fail, db, buf)
  else do
    let db' ← cleanupMeasurements db oldest
    let buf' := dropOldImu (oldest + p.camimuDt) buf
    let mv ←
      if p.maxDisparity > 0 then do
        let half := newest - 0.5 * p.windowTime
        let s0 ← computeDisparityWin db' half (-1)
        let s1 ← computeDisparityWin db' newest half
        if s0.total < 15 ∨ s1.total < 15 then pure none
        else pure (some (moving p s0, moving p s1))
      else pure (some (false, false))
    match mv with
    | none => pure (.fail, db', buf')
    | some (m10, m21) =>
      let hasJerk := !m10 && m21
      let isStill := !m10 && !m21
      if ((hasJerk && waitForJerk) || (isStill && !waitForJerk)) = true ∧ p.imuThresh > 0 then pure (.static, db', buf')
      else if (p.dynUse && !isStill) = true then pure (.dynamic, db', buf')
      else pure (.fail, db', buf')

/-! ## The dynamic initialiser: choice of poses and the linear system -/

/-- `time_dt`: the smallest distance of a time to the poses already chosen and to the times of this feature, DynamicInitializer.cpp:120-126.
The map always contains the newest camera time, so the minimum starts from its first element. -/
noncomputable def minDist (t s0 : ℝ) (S : List ℝ) : ℝ := S.foldl (fun m s => min m |t - s|) |t - s0|

/-- one observation time of a feature, DynamicInitializer.cpp:118-133: `poses` is `map_camera_times` (first element the newest camera time), `times` what this feature has so far. -/
noncomputable def pickTime (avg newest : ℝ) (poses times : List ℝ) (t : ℝ) : List ℝ :=
  let dt := minDist t newest (poses ++ times)
  if dt ≥ avg ∨ dt = 0 then times ++ [t] else times

/-- the times of one feature, DynamicInitializer.cpp:115-134; `obs` are its observation times over all cameras in the order visited. -/
noncomputable def pickTimes (avg newest : ℝ) (poses : List ℝ) (obs : List ℝ) : List ℝ := obs.foldl (pickTime avg newest poses) []

/-- state of the selection loop: chosen pose times, number of measurement rows, number of features used, and per feature the number of times. -/
structure Sel where
  poses : List ℝ
  numMeas : ℕ
  count : ℕ
  perFeat : List ℕ

/-- one feature of the selection loop, DynamicInitializer.cpp:113-154. -/
noncomputable def selStep (avg newest : ℝ) (minNum : ℕ) (s : Sel) (obs : List ℝ) : Sel :=
  let times := pickTimes avg newest s.poses obs
  if times.length < minNum then { s with perFeat := s.perFeat ++ [times.length] }
  else { poses := s.poses ++ times, numMeas := s.numMeas + 2 * times.length, count := s.count + 1, perFeat := s.perFeat ++ [times.length] }

/-- the selection loop, DynamicInitializer.cpp:101-154. -/
noncomputable def selLoop (avg newest : ℝ) (minNum : ℕ) (feats : List (List ℝ)) : Sel :=
  feats.foldl (selStep avg newest minNum) ⟨[newest], 0, 0, []⟩

/-- the rows one feature writes into the linear system, DynamicInitializer.cpp:318-383: two for each observation whose time is a chosen pose,
if the feature has enough times. -/
noncomputable def fillRows (s : Sel) (minNum : ℕ) (obs : List ℝ) (n : ℕ) : ℕ :=
  if n < minNum then 0 else 2 * (obs.filter fun t => decide (t ∈ s.poses)).length

/-- `index_meas` after the loop filling the linear system, DynamicInitializer.cpp:318-383. -/
noncomputable def fill (s : Sel) (minNum : ℕ) (feats : List (List ℝ)) : ℕ :=
  ((feats.zip s.perFeat).map fun fn => fillRows s minNum fn.1 fn.2).sum

/-- one observation in the linear system: camera extrinsics, normalised pixel, preintegrated interval, rotation and position increment. -/
structure LinObs where
  RItoC : M3
  pIinC : V3
  u : ℝ
  v : ℝ
  DT : ℝ
  Rk : M3
  alpha : V3

/-- `H_proj`, DynamicInitializer.cpp:361-362. -/
def hproj (o : LinObs) (x : V3) : ℝ × ℝ := (x 0 - o.u * x 2, x 1 - o.v * x 2)

/-- `H_i * [feature; velocity; gravity] - b_i`, DynamicInitializer.cpp:361-379. -/
noncomputable def linRes (o : LinObs) (f vel grav : V3) : ℝ × ℝ :=
  let Y (x : V3) : ℝ × ℝ := hproj o ((o.RItoC * o.Rk).mulVec x)
  let b : ℝ × ℝ := Y o.alpha - hproj o o.pIinC
  Y f + (-o.DT) • Y vel + (0.5 * o.DT * o.DT) • Y grav - b

section Solve
variable {m n : ℕ}

/-- the matrices of the constrained solution, DynamicInitializer.cpp:394-401. `(A1ᵀA1).llt().solve(I)` is modelled by the inverse. -/
noncomputable def schurP (A1 : Matrix (Fin m) (Fin n) ℝ) : Matrix (Fin m) (Fin m) ℝ := 1 - A1 * (A1.transpose * A1)⁻¹ * A1.transpose

/-- `D = Temp * A2`, DynamicInitializer.cpp:399-400 -/
noncomputable def solveD (A1 : Matrix (Fin m) (Fin n) ℝ) (A2 : Matrix (Fin m) (Fin 3) ℝ) : M3 := A2.transpose * schurP A1 * A2

/-- `d = Temp * b`, DynamicInitializer.cpp:399, 401 -/
noncomputable def solved (A1 : Matrix (Fin m) (Fin n) ℝ) (A2 : Matrix (Fin m) (Fin 3) ℝ) (b : Fin m → ℝ) : V3 := (A2.transpose * schurP A1).mulVec b

/-- `state_grav`, DynamicInitializer.cpp:440-441 and 461-462. `llt M` stands for `M.llt().solve(I)`: Eigen's Cholesky solver, whose result is the inverse when `M` is symmetric positive
definite and is otherwise unspecified; the theorems quantify over it. -/
noncomputable def solveGrav (llt : M3 → M3) (D : M3) (d : V3) (lam : ℝ) : V3 := (llt (D - lam • (1 : M3))).mulVec d

/-- `state_feat_vel`, DynamicInitializer.cpp:465 -/
noncomputable def solveFeat (A1 : Matrix (Fin m) (Fin n) ℝ) (A2 : Matrix (Fin m) (Fin 3) ℝ) (b : Fin m → ℝ) (g : V3) : Fin n → ℝ :=
  -((A1.transpose * A1)⁻¹ * A1.transpose * A2).mulVec g + ((A1.transpose * A1)⁻¹ * A1.transpose).mulVec b

end Solve

/-- the loop over the real eigenvalues, DynamicInitializer.cpp:427-456: keeps the first one with the smallest gravity magnitude error. -/
noncomputable def pickLambda (llt : M3 → M3) (D : M3) (d : V3) (gmag : ℝ) (lams : List ℝ) : Option ℝ :=
  (lams.foldl (fun (s : Option (ℝ × ℝ)) l =>
    let cost := |norm3 (solveGrav llt D d l) - gmag|
    match s with
    | none => some (l, cost)
    | some (l0, c0) => if cost < c0 then some (l, cost) else some (l0, c0)) none).map Prod.fst

/-- the recovered pose of one camera time in the gravity aligned frame, DynamicInitializer.cpp:488-515 and 551-564: orientation, position and velocity
from the preintegrated rotation, `alpha`, `beta`. -/
noncomputable def dynPose (Rk : M3) (alpha beta : V3) (DT : ℝ) (vel grav : V3) : Quat × V3 × V3 :=
  let p0 := DT • vel - (0.5 * DT * DT) • grav + alpha
  let v0 := vel - DT • grav + beta
  let RG := gramSchmidt grav
  (quatMul (rot2quat Rk) (rot2quat RG), RG.transpose.mulVec p0, RG.transpose.mulVec v0)

end Verif.Init
