import Verif.Quat.Model
import Mathlib.LinearAlgebra.Matrix.NonsingularInverse

/-!
# Model of `ov_core/src/feat/FeatureInitializer.cpp`

Observations are given camera by camera, in the (arbitrary) order in which the hash map visits them. `.at` on a missing key throws, here `none`. The
normalised coordinates are stored as floats in the code; rounding is not modelled.
-/

open Classical

namespace Verif.Tri

open Verif

/-- `Eigen::Vector2f` as reals. -/
abbrev V2 := Fin 2 → ℝ

/-- `ClonePose`: `R_GtoC` and `p_CinG`, FeatureInitializer.h:49-82. -/
structure CPose where
  R : M3
  p : V3

/-- `FeatureInitializerOptions`, FeatureInitializerOptions.h:33-69. -/
structure Opts where
  maxRuns : ℕ
  initLam : ℝ
  maxLam : ℝ
  minDx : ℝ
  minDcost : ℝ
  lamMult : ℝ
  minDist : ℝ
  maxDist : ℝ
  maxBaseline : ℝ
  maxCond : ℝ

/-- camera, then its observations: time and normalised coordinates. -/
abbrev Obs := List (ℕ × List (ℝ × V2))

/-- anchor camera and its number of measurements, FeatureInitializer.cpp:35-44 and 119-128. -/
def anchorCam (obs : Obs) : ℕ × ℕ := obs.foldl (fun a c => if c.2.length > a.2 then (c.1, c.2.length) else a) (0, 0)

/-- `feat->timestamps.at(cam)`. -/
def camObs (obs : Obs) (c : ℕ) : Option (List (ℝ × V2)) := (obs.find? fun x => x.1 = c).map Prod.snd

/-- anchor camera and time, FeatureInitializer.cpp:45-46, with the anchor's last observation (`none`: missing key, or `back` of an empty vector). -/
def anchor (obs : Obs) : Option (ℕ × ℝ × V2) := do
  let ms ← camObs obs (anchorCam obs).1
  let m ← ms.getLast?
  some ((anchorCam obs).1, m.1, m.2)

/-- the nested loops over the observations: camera, index within the camera, time, coordinates. -/
def flat (obs : Obs) : List (ℕ × ℕ × ℝ × V2) := obs.flatMap fun c => c.2.mapIdx fun i m => (c.1, i, m.1, m.2)

/-- `(u, v, 1)`. -/
def homog (uv : V2) : V3 := ![uv 0, uv 1, 1]

/-- `v / v.norm()`. -/
noncomputable def unit (v : V3) : V3 := (1 / norm3 v) • v

/-- `R_AtoCi`, FeatureInitializer.cpp:69. -/
def relR (A P : CPose) : M3 := P.R * A.R.transpose

/-- `p_CiinA`, FeatureInitializer.cpp:71. -/
def relP (A P : CPose) : V3 := A.R.mulVec (P.p - A.p)

/-- `Bperp`, FeatureInitializer.cpp:74-78. -/
noncomputable def bperp (A P : CPose) (uv : V2) : M3 := skew (unit ((relR A P).transpose.mulVec (homog uv)))

/-- the linear system, FeatureInitializer.cpp:81-83. -/
noncomputable def addMeas (A : CPose) (s : M3 × V3) (m : CPose × V2) : M3 × V3 :=
  let Ai := (bperp A m.1 m.2).transpose * bperp A m.1 m.2
  (s.1 + Ai, s.2 + Ai.mulVec (relP A m.1))

/-- what a successful triangulation stores in the feature. -/
structure Fix where
  cam : ℕ
  t : ℝ
  pA : V3
  pG : V3

/-- the clone of each observation. -/
def poses (clones : ℕ → ℝ → Option CPose) (l : List (ℕ × ℕ × ℝ × V2)) : Option (List (CPose × V2)) :=
  l.mapM fun m => (clones m.1 m.2.2.1).map fun P => (P, m.2.2.2)

/-- `single_triangulation`, FeatureInitializer.cpp:30-112. The outer `none` is an exception, the inner `none` is the return value `false`. The QR solve
is modelled by the matrix inverse and `cond` is the library's condition number; an exactly singular system has an infinite one and is rejected. -/
noncomputable def triangulate (o : Opts) (cond : M3 → ℝ) (clones : ℕ → ℝ → Option CPose) (obs : Obs) : Option (Option Fix) := do
  let a ← anchor obs
  let A ← clones a.1 a.2.1
  let ms ← poses clones (flat obs)
  let S := ms.foldl (addMeas A) (0, 0)
  let pf := S.1⁻¹.mulVec S.2
  if S.1.det = 0 ∨ cond S.1 > o.maxCond ∨ pf 2 < o.minDist ∨ pf 2 > o.maxDist then some none
  else some (some ⟨a.1, a.2.1, pf, A.R.transpose.mulVec pf + A.p⟩)

/-- body of the 1d loop, FeatureInitializer.cpp:174-177. -/
noncomputable def addMeas1 (A : CPose) (bA : V3) (s : ℝ × ℝ) (m : CPose × V2) : ℝ × ℝ :=
  let Bb := (bperp A m.1 m.2).mulVec bA
  (s.1 + dot3 Bb Bb, s.2 + dot3 Bb ((bperp A m.1 m.2).mulVec (relP A m.1)))

/-- `single_triangulation_1d`, FeatureInitializer.cpp:114-195. The anchor's own last observation is skipped. A vanishing denominator gives nan or an
infinity in the code and is rejected by the gates. -/
noncomputable def triangulate1 (o : Opts) (clones : ℕ → ℝ → Option CPose) (obs : Obs) : Option (Option Fix) := do
  let a ← anchor obs
  let A ← clones a.1 a.2.1
  let idx := (anchorCam obs).2 - 1
  let ms ← poses clones ((flat obs).filter fun m => ¬ (m.1 = a.1 ∧ m.2.1 = idx))
  let bA := unit (homog a.2.2)
  let S := ms.foldl (addMeas1 A bA) (0, 0)
  let pf := (S.2 / S.1) • bA
  if S.1 = 0 ∨ pf 2 < o.minDist ∨ pf 2 > o.maxDist then some none
  else some (some ⟨a.1, a.2.1, pf, A.R.transpose.mulVec pf + A.p⟩)

/-- `hi1, hi2, hi3`, FeatureInitializer.cpp:259-261 and 408-410; `x = (alpha, beta, rho)`. -/
def hi (A P : CPose) (x : V3) : V3 :=
  (relR A P).mulVec ![x 0, x 1, 1] + x 2 • (-(relR A P)).mulVec (relP A P)

/-- `z`, FeatureInitializer.cpp:272-273 and 412-413. -/
noncomputable def proj (A P : CPose) (x : V3) : V2 := ![hi A P x 0 / hi A P x 2, hi A P x 1 / hi A P x 2]

/-- `compute_error`, FeatureInitializer.cpp:377-423. -/
noncomputable def computeError (A : CPose) (ms : List (CPose × V2)) (x : V3) : ℝ :=
  ms.foldl (fun e m => e + ((m.2 - proj A m.1 x) 0 ^ 2 + (m.2 - proj A m.1 x) 1 ^ 2)) 0

/-- `H`, FeatureInitializer.cpp:263-270. -/
noncomputable def gnJac (A P : CPose) (x : V3) : Matrix (Fin 2) (Fin 3) ℝ :=
  let R := relR A P
  let p := (-R).mulVec (relP A P)
  let h := hi A P x
  !![(R 0 0 * h 2 - h 0 * R 2 0) / h 2 ^ 2, (R 0 1 * h 2 - h 0 * R 2 1) / h 2 ^ 2, (p 0 * h 2 - h 0 * p 2) / h 2 ^ 2;
     (R 1 0 * h 2 - h 1 * R 2 0) / h 2 ^ 2, (R 1 1 * h 2 - h 1 * R 2 1) / h 2 ^ 2, (p 1 * h 2 - h 1 * p 2) / h 2 ^ 2]

/-- `Hess`, `grad`, FeatureInitializer.cpp:228-284. -/
noncomputable def gnSystem (A : CPose) (ms : List (CPose × V2)) (x : V3) : M3 × V3 :=
  ms.foldl (fun s m => (s.1 + (gnJac A m.1 x).transpose * gnJac A m.1 x, s.2 + (gnJac A m.1 x).transpose.mulVec (m.2 - proj A m.1 x))) (0, 0)

/-- variables of the refinement loop. -/
structure LM where
  x : V3
  lam : ℝ
  eps : ℝ
  runs : ℕ
  recompute : Bool
  Hess : M3
  grad : V3
  cost : ℝ

/-- `Hess_l`, FeatureInitializer.cpp:287-290. -/
def damp (H : M3) (lam : ℝ) : M3 := fun i j => if i = j then H i j * (1 + lam) else H i j

/-- one pass through the body of the refinement loop, FeatureInitializer.cpp:226-330; `true` is `break`. `solve` is the library's QR solve, `err` the
cost and `lin` the linear system. At zero old cost the relative decrease is not a number in the code and its comparison is false. -/
noncomputable def lmIter (o : Opts) (err : V3 → ℝ) (lin : V3 → M3 × V3) (solve : M3 → V3 → V3) (s : LM) : LM × Bool :=
  let sys := if s.recompute then lin s.x else (s.Hess, s.grad)
  let dx := solve (damp sys.1 s.lam) sys.2
  let cost := err (s.x + dx)
  if cost ≤ s.cost ∧ s.cost ≠ 0 ∧ (s.cost - cost) / s.cost < o.minDcost then
    ({ s with x := s.x + dx, eps := 0, Hess := sys.1, grad := sys.2 }, true)
  else if cost ≤ s.cost then
    (⟨s.x + dx, s.lam / o.lamMult, norm3 dx, s.runs + 1, true, sys.1, sys.2, cost⟩, false)
  else ({ s with lam := s.lam * o.lamMult, recompute := false, Hess := sys.1, grad := sys.2 }, false)

/-- the refinement loop, FeatureInitializer.cpp:226-330, allowed at most `n` passes (`none`: it has not finished by then). -/
noncomputable def lmLoop (o : Opts) (err : V3 → ℝ) (lin : V3 → M3 × V3) (solve : M3 → V3 → V3) : ℕ → LM → Option LM
  | 0, s => if s.runs < o.maxRuns ∧ s.lam < o.maxLam ∧ s.eps > o.minDx then none else some s
  | n + 1, s =>
    if s.runs < o.maxRuns ∧ s.lam < o.maxLam ∧ s.eps > o.minDx then
      let r := lmIter o err lin solve s
      if r.2 then some r.1 else lmLoop o err lin solve n r.1
    else some s

/-- variables before the loop, FeatureInitializer.cpp:200-217. -/
noncomputable def lmStart (o : Opts) (err : V3 → ℝ) (pA : V3) : LM :=
  let x : V3 := ![pA 0 / pA 2, pA 1 / pA 2, 1 / pA 2]
  ⟨x, o.initLam, 10000, 0, true, 0, 0, err x⟩

/-- `base_line`, FeatureInitializer.cpp:338-358: length of the part of a camera position across the viewing ray. The two columns of the Householder
matrix are an orthonormal basis of the complement of the point's direction, so the norm is that of the projection. -/
noncomputable def baseLine (p v : V3) : ℝ := Real.sqrt (dot3 v v - dot3 v p ^ 2 / dot3 p p)

/-- `base_line_max`. -/
noncomputable def baseMax (A : CPose) (ms : List (CPose × V2)) (p : V3) : ℝ :=
  ms.foldl (fun b m => if baseLine p (relP A m.1) > b then baseLine p (relP A m.1) else b) 0

/-- `single_gaussnewton`, FeatureInitializer.cpp:197-375, with at most `n` passes of the loop (outer `none`: an exception, or more passes needed).
The ratio at zero baseline is infinite and rejected. -/
noncomputable def refine (o : Opts) (solve : M3 → V3 → V3) (n : ℕ) (clones : ℕ → ℝ → Option CPose) (obs : Obs) (f : Fix) : Option (Option Fix) := do
  let A ← clones f.cam f.t
  let ms ← poses clones (flat obs)
  let s ← lmLoop o (computeError A ms) (gnSystem A ms) solve n (lmStart o (computeError A ms) f.pA)
  let p : V3 := ![s.x 0 / s.x 2, s.x 1 / s.x 2, 1 / s.x 2]
  let b := baseMax A ms p
  if p 2 < o.minDist ∨ p 2 > o.maxDist ∨ b = 0 ∨ norm3 p / b > o.maxBaseline then some none
  else some (some ⟨f.cam, f.t, p, A.R.transpose.mulVec p + A.p⟩)

end Verif.Tri
