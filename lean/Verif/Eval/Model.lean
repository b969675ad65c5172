import Verif.Quat.Model
import Verif.Land.Model
import Mathlib.Data.List.Sort
import Mathlib.Data.List.GetD

/-!
# Model of `ov_eval`: `Statistics.h`, `AlignUtils`, `AlignTrajectory`, `ResultTrajectory`
-/

open Classical

namespace Verif.Eval

open Verif

/-! ## Statistics -/

/-- `Statistics`, Statistics.h:38-70: the result fields and `values` (timestamps and bounds are not read by `calculate` and are left out).
`std` and `ninetynine` are `none` when they are not a number (0/0, a single value). -/
structure Stat where
  rmse : ℝ
  mean : ℝ
  median : ℝ
  std : Option ℝ
  max : ℝ
  min : ℝ
  ninetynine : Option ℝ
  values : List ℝ

/-- a new object: all results zero, Statistics.h:42-60. -/
def Stat.fresh (vs : List ℝ) : Stat := ⟨0, 0, 0, some 0, 0, 0, some 0, vs⟩

/-- the median of a sorted list, Statistics.h:88-99. -/
noncomputable def medianOf (s : List ℝ) : ℝ :=
  if s.length = 1 then s.getD (s.length - 1) 0
  else if s.length % 2 = 1 then s.getD (s.length / 2) 0
  else if 1 < s.length then 0.5 * (s.getD (s.length / 2 - 1) 0 + s.getD (s.length / 2) 0)
  else 0

/-- `Statistics::calculate`, Statistics.h:73-121. `std::sort` is modelled by insertion sort (over the reals any sort gives the same list); the sum for
`rmse` starts from the old value of `rmse` (line 106), the sums for `mean` and `std` from zero (lines 102 and 112). -/
noncomputable def Stat.calculate (s : Stat) : Stat :=
  let v := s.values.insertionSort (· ≤ ·)
  if v = [] then s
  else
    let mean := (v.foldl (fun a x => a + x) (0 : ℝ)) / v.length
    let rmse := Real.sqrt ((v.foldl (fun a x => a + x * x) s.rmse) / v.length)
    let ss := v.foldl (fun a x => a + (x - mean) ^ 2) (0 : ℝ)
    let std := if v.length = 1 then none else some (Real.sqrt (ss / (v.length - 1 : ℕ)))
    { s with
      min := v.getD 0 0, max := v.getD (v.length - 1) 0, median := medianOf v, mean := mean, rmse := rmse, std := std,
      ninetynine := std.map fun d => mean + 2.326 * d }

/-- `Statistics::clear`, Statistics.h:124-128: only the vectors are cleared. -/
def Stat.clear (s : Stat) : Stat := { s with values := [] }

/-! ## Segments of a given length -/

/-- the search for one start index, ResultTrajectory.h:179-187; `none` is the index `-1`. -/
noncomputable def bestEnd (ds : List ℝ) (target tol : ℝ) (idx : ℕ) : Option ℕ :=
  ((List.range' idx (ds.length - idx)).foldl
    (fun (b : Option ℕ × ℝ) i => if |ds.getD i 0 - target| < b.2 then (some i, |ds.getD i 0 - target|) else b) (none, tol)).1

/-- `compute_comparison_indices_length`, ResultTrajectory.h:169-198. -/
noncomputable def comparisons (ds : List ℝ) (dist tol : ℝ) : List (Option ℕ) :=
  (List.range ds.length).map fun idx => bestEnd ds (ds.getD idx 0 + dist) tol idx

/-! ## Association -/

/-- the first loop for one estimate at time `t`, AlignUtils.cpp:124-127. The pointer `p` is kept together with the groundtruth times from it on. -/
noncomputable def skipFar (d t : ℝ) : List ℝ → ℕ → List ℝ × ℕ
  | [], p => ([], p)
  | g :: gs, p => if g < t ∧ |g - t| > d then skipFar d t gs (p + 1) else (g :: gs, p)

/-- the second loop for one estimate, AlignUtils.cpp:130-139. -/
noncomputable def climb (d t : ℝ) : List ℝ → ℕ → ℝ → Option ℕ → Option ℕ × List ℝ × ℕ
  | [], p, _, bi => (bi, [], p)
  | g :: gs, p, best, bi =>
    if |g - t| ≤ d then
      if |g - t| ≥ best then (bi, g :: gs, p) else climb d t gs (p + 1) |g - t| (some p)
    else (bi, g :: gs, p)

/-- the loop over the estimates from index `i` on, AlignUtils.cpp:117-164: the matched index pairs. -/
noncomputable def matchFrom (off d : ℝ) : List ℝ → ℕ → List ℝ → ℕ → List (ℕ × ℕ)
  | [], _, _, _ => []
  | e :: es, i, rest, p =>
    let s := skipFar d (e + off) rest p
    let c := climb d (e + off) s.1 s.2 d none
    match c.1 with
    | some j => (i, j) :: matchFrom off d es (i + 1) c.2.1 c.2.2
    | none => matchFrom off d es (i + 1) c.2.1 c.2.2

/-- the index pairs matched for two time lists, AlignUtils.cpp:114-164. -/
noncomputable def matches_ (off d : ℝ) (est gt : List ℝ) : List (ℕ × ℕ) := matchFrom off d est 0 gt 0

/-- a loaded trajectory: times, poses and, when the file has them, covariances. -/
structure Traj (P K : Type) where
  times : List ℝ
  poses : List P
  covori : List K
  covpos : List K

/-- `perform_association`, AlignUtils.cpp:103-189; `none` when an `.at` throws or an assertion fails, `zero` is the zero covariance. The check at line 167 is
on the number of estimates, not of matches. -/
noncomputable def performAssociation {P K : Type} (zero : K) (off d : ℝ) (est gt : Traj P K) : Option (Traj P K × Traj P K) := do
  let m := matches_ off d est.times gt.times
  let times ← m.mapM fun p => gt.times[p.2]?
  let ep ← m.mapM fun p => est.poses[p.1]?
  let gp ← m.mapM fun p => gt.poses[p.2]?
  let eco ← if est.covori = [] then some [] else if est.covori.length = est.covpos.length then m.mapM fun p => est.covori[p.1]? else none
  let ecp ← if est.covori = [] then some [] else m.mapM fun p => est.covpos[p.1]?
  let gco ← if est.covori = [] then some [] else if gt.covori = [] then some (m.map fun _ => zero)
    else if gt.covori.length = gt.covpos.length then m.mapM fun p => gt.covori[p.2]? else none
  let gcp ← if est.covori = [] then some [] else if gt.covori = [] then some (m.map fun _ => zero) else m.mapM fun p => gt.covpos[p.2]?
  if est.times.length < 3 then some (est, gt)
  else some (⟨times, ep, eco, ecp⟩, ⟨times, gp, gco, gcp⟩)

/-! ## Alignment -/

/-- a trajectory pose: position and orientation from global to the moving frame (a 7-vector in the code). -/
structure Pose where
  p : V3
  q : Quat

/-- `get_best_yaw`, AlignUtils.h:53-58. -/
noncomputable def bestYaw (C : M3) : ℝ := Land.atan2 (C 0 1 - C 1 0) (C 0 0 + C 1 1)

/-- `get_mean`, AlignUtils.h:65-72. -/
noncomputable def mean3 (vs : List V3) : V3 := (1 / (vs.length : ℝ)) • vs.foldl (fun a x => a + x) 0

/-- the correlation matrix, AlignUtils.cpp:31-46. -/
noncomputable def corr (data model : List V3) : M3 :=
  (1 / (model.length : ℝ)) • (List.zip data model).foldl (fun A x => A + outer (x.2 - mean3 model) (x.1 - mean3 data)) 0

/-- the data variance, AlignUtils.cpp:49-53. -/
noncomputable def sigma2 (data : List V3) : ℝ :=
  (1 / (data.length : ℝ)) * data.foldl (fun a x => a + dot3 (x - mean3 data) (x - mean3 data)) 0

/-- the sign matrix, AlignUtils.cpp:62-65. -/
noncomputable def signS (U V : M3) : M3 := if U.det * V.det < 0 then Matrix.diagonal ![1, 1, -1] else 1

/-- `align_umeyama`, AlignUtils.cpp:26-93. `svd` stands for Eigen's Jacobi SVD and returns `(U, D, V)`; `none` is the size assertion. -/
noncomputable def umeyama (svd : M3 → M3 × V3 × M3) (data model : List V3) (knownScale yawOnly : Bool) : Option (M3 × V3 × ℝ) :=
  if model.length ≠ data.length then none
  else
    let C := corr data model
    let U := (svd C).1
    let D := (svd C).2.1
    let V := (svd C).2.2
    let R := if yawOnly then rotZ (bestYaw ((model.length : ℝ) • C.transpose)) else U * signS U V * V.transpose
    let s := if knownScale then 1 else 1 / sigma2 data * tr3 (Matrix.diagonal D * signS U V)
    some (R, mean3 model - s • R.mulVec (mean3 data), s)

/-- `align_posyaw_single`, AlignTrajectory.cpp:58-81. -/
noncomputable def posyawSingle (es gt : List Pose) : Option (M3 × V3) := do
  let e ← es[0]?
  let g ← gt[0]?
  let gRot := (quat2Rot g.q).transpose
  let eRot := (quat2Rot e.q).transpose
  let R := rotZ (bestYaw (eRot * gRot.transpose))
  some (R, g.p - R.mulVec e.p)

/-- `align_se3_single`, AlignTrajectory.cpp:108-125. -/
noncomputable def se3Single (es gt : List Pose) : Option (M3 × V3) := do
  let e ← es[0]?
  let g ← gt[0]?
  let gRot := (quat2Rot g.q).transpose
  let eRot := (quat2Rot e.q).transpose
  let R := gRot * eRot.transpose
  some (R, g.p - R.mulVec e.p)

/-- the position pairs handed to Umeyama's method, AlignTrajectory.cpp:95-100, 139-144, 160-165. -/
def posPairs (es gt : List Pose) : List V3 × List V3 :=
  (((List.zip es gt).map fun x => x.1.p), ((List.zip es gt).map fun x => x.2.p))

/-- the alignment methods. -/
inductive Method where
  | posyaw | posyawsingle | se3 | se3single | sim3 | none
  deriving DecidableEq

/-- `align_trajectory`, AlignTrajectory.cpp:26-56, with `align_posyaw` 83-106, `align_se3` 127-148 and `align_sim3` 150-169; `none` when an assertion
fails or an `.at` throws. The unknown method (exit) is not modelled. -/
noncomputable def alignTrajectory (svd : M3 → M3 × V3 × M3) (es gt : List Pose) (m : Method) (n : ℤ) : Option (M3 × V3 × ℝ) :=
  match m with
  | .posyaw => if n = 1 then (posyawSingle es gt).map fun r => (r.1, r.2, 1)
    else if es = [] then none else umeyama svd (posPairs es gt).1 (posPairs es gt).2 true true
  | .posyawsingle => (posyawSingle es gt).map fun r => (r.1, r.2, 1)
  | .se3 => if n = 1 then (se3Single es gt).map fun r => (r.1, r.2, 1)
    else if es = [] then none else umeyama svd (posPairs es gt).1 (posPairs es gt).2 true false
  | .se3single => (se3Single es gt).map fun r => (r.1, r.2, 1)
  | .sim3 => if (n ≥ 2 ∨ n = -1) ∧ es ≠ [] then umeyama svd (posPairs es gt).1 (posPairs es gt).2 false false else none
  | .none => some (1, 0, 1)

/-- one aligned pose, ResultTrajectory.cpp:71-74. -/
noncomputable def applyAlign (a : M3 × V3 × ℝ) (x : Pose) : Pose :=
  ⟨a.2.2 • a.1.mulVec x.p + a.2.1, quatMul x.q (quatInv (rot2quat a.1))⟩

/-! ## Errors -/

/-- one sample of `calculate_ate`, ResultTrajectory.cpp:91-98: orientation (degrees) and position error. -/
noncomputable def ateErr (e g : Pose) : ℝ × ℝ :=
  (180 / Real.pi * norm3 (logSO3 ((quat2Rot e.q).transpose * quat2Rot g.q)), norm3 (g.p - e.p))

/-- the pose as a homogeneous matrix from the moving to the global frame, ResultTrajectory.cpp:187-190. -/
def toT (x : Pose) : M4 := mkSE3 (quat2Rot x.q).transpose x.p 1

/-- one segment of `calculate_rpe`, ResultTrajectory.cpp:185-229: orientation (degrees) and position error. -/
noncomputable def rpeErr (c1 c2 m1 m2 : Pose) : ℝ × ℝ :=
  let Tc := invSE3 (toT c1) * toT c2
  let Tm := invSE3 (toT m1) * toT m2
  let Terr := invSE3 Tm * Tc
  let Tw := mkSE3 (rotBlock (toT c2)) 0 1 * Terr * mkSE3 (rotBlock (toT c2)).transpose 0 1
  (180 / Real.pi * norm3 (logSO3 (rotBlock Tw)), norm3 (posBlock Tw))

end Verif.Eval
