import Verif.Base.Mat
import Mathlib.Analysis.SpecialFunctions.Pow.Real

/-!
# Givens elimination as used by `StateHelper::initialize`, `UpdaterHelper::nullspace_project_inplace` and
`UpdaterHelper::measurement_compress_inplace`

The three functions contain the same double loop: for every column `n` of the "active" matrix, and every row `m` from
the last one up to `n+1`, a Givens rotation of rows `m-1, m` is computed and applied to the columns `≥ n` of the active
matrix and to all columns of the passive ones.
-/

namespace Verif.Givens

open Verif Mat

/-- `Eigen::JacobiRotation<double>::makeGivens(p,q)` for reals (Eigen/src/Jacobi/Jacobi.h, a library function that the
code calls in StateHelper.cpp:433, UpdaterHelper.cpp:437 and 471).  Returns `(c,s)`. -/
noncomputable def makeGivens (p q : ℝ) : ℝ × ℝ :=
  if q = 0 then (if p < 0 then -1 else 1, 0)
  else if p = 0 then (0, if q < 0 then 1 else -1)
  else if |q| < |p| then
    let t := q / p
    let u := if p < 0 then -Real.sqrt (1 + t ^ 2) else Real.sqrt (1 + t ^ 2)
    (1 / u, -t * (1 / u))
  else
    let t := p / q
    let u := if q < 0 then -Real.sqrt (1 + t ^ 2) else Real.sqrt (1 + t ^ 2)
    (-t * (-(1 / u)), -(1 / u))

/-- `M.block(m-1, lo, 2, cols-lo).applyOnTheLeft(0, 1, G.adjoint())`: rows `m-1` and `m` are replaced by
`c·x − s·y` and `s·x + c·y`, in the columns `≥ lo` only. -/
def rotRows (c s : ℝ) (m lo : ℕ) (M : Mat) : Mat := fun i j =>
  if j < lo then M i j
  else if i = m - 1 then c * M (m - 1) j - s * M m j
  else if i = m then s * M (m - 1) j + c * M m j
  else M i j

/-- the same on a residual vector. -/
def rotVec (c s : ℝ) (m : ℕ) (v : Vect) : Vect := fun i =>
  if i = m - 1 then c * v (m - 1) - s * v m else if i = m then s * v (m - 1) + c * v m else v i

/-- The matrices the loop works on: `A` is the one being triangularised, `B` and `v` follow. -/
structure Sys where
  A : Mat
  B : Mat
  v : Vect

/-- Body of the loop: StateHelper.cpp:432-440, UpdaterHelper.cpp:436-444, UpdaterHelper.cpp:470-477. -/
noncomputable def step (n m : ℕ) (S : Sys) : Sys :=
  let g := makeGivens (S.A (m - 1) n) (S.A m n)
  ⟨rotRows g.1 g.2 m n S.A, rotRows g.1 g.2 m 0 S.B, rotVec g.1 g.2 m S.v⟩

/-- Inner loop `for (int m = rows - 1; m > n; m--)`: `k` iterations, the last one with `m = n+1`. -/
noncomputable def inner (n : ℕ) : ℕ → Sys → Sys
  | 0, S => S
  | k + 1, S => inner n k (step n (n + k + 1) S)

/-- Outer loop `for (int n = 0; n < cols; ++n)`, columns `n0 ≤ n < n0 + k`. -/
noncomputable def outer (rows : ℕ) : ℕ → ℕ → Sys → Sys
  | 0, _, S => S
  | k + 1, n0, S => outer rows k (n0 + 1) (inner n0 (rows - 1 - n0) S)

/-- The double loop, StateHelper.cpp:429-442, UpdaterHelper.cpp:433-446, UpdaterHelper.cpp:466-479. -/
noncomputable def run (rows cols : ℕ) (S : Sys) : Sys := outer rows cols 0 S

end Verif.Givens
