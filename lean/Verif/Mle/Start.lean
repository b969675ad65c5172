import Verif.Mle.Model
import Verif.Init.Model

/-!
# Model of the construction and the read-out of the optimisation in `DynamicInitializer::initialize`

The preintegrations between camera times (DynamicInitializer.cpp:240-307), the starting point and the preintegration factors (487-515, 551-567, 637-751), and
the returned covariance (1019-1094). Ceres' covariance blocks are parameters.
-/

open Classical

namespace Verif.Mle

open Verif Verif.Imu

/-- the intervals fed to a preintegration, DynamicInitializer.cpp:273-277 and 298-302. -/
def segs : List Reading → List Cpi.Seg
  | a :: b :: l => ⟨a.t, b.t, a.wm, a.am, b.wm, b.am⟩ :: segs (b :: l)
  | _ => []

/-- one preintegration over `[t0, t1]` with its two checks, DynamicInitializer.cpp:255-277 and 280-302. -/
noncomputable def cpiOf (k : Cpi.Conf) (buf : List Reading) (t0 t1 : ℝ) : Option Cpi.Res :=
  match selectInit buf t0 t1 with
  | a :: b :: l =>
    let r := a :: b :: l
    if 0.01 < |(r.getLast (by simp [r])).t - a.t - (t1 - t0)| then none else some (Cpi.run k (segs r))
  | _ => none

/-- the preintegrations for every camera time (`map_camera_cpi_I0toIi`, `map_camera_cpi_IitoIi1`), DynamicInitializer.cpp:242-307; `t0` is
`oldest_camera_time`, `last` is `last_camera_timestamp`, `off` is `calib_camimu_dt`. -/
noncomputable def preint (k : Cpi.Conf) (buf : List Reading) (off t0 : ℝ) : ℝ → List ℝ → Option (List (ℝ × Option (Cpi.Res × Cpi.Res)))
  | _, [] => some []
  | last, t :: l =>
    if t = t0 then (preint k buf off t0 t l).map ((t, none) :: ·)
    else do
      let c0 ← cpiOf k buf (t0 + off) (t + off)
      let c1 ← cpiOf k buf (last + off) (t + off)
      (preint k buf off t0 t l).map ((t, some (c0, c1)) :: ·)

/-- the state of one camera time at the start of the optimisation, DynamicInitializer.cpp:489-515, 560-564, 643-649. -/
noncomputable def startNav (k : Cpi.Conf) (vel grav : V3) (c : Option (Cpi.Res × Cpi.Res)) : Nav :=
  let p := match c with
    | none => Init.dynPose 1 0 0 0 vel grav
    | some (c0, _) => Init.dynPose c0.R c0.alpha c0.beta c0.DT vel grav
  ⟨p.1, k.bw, p.2.2, k.ba, p.2.1⟩

/-- the preintegration factor of one camera time, DynamicInitializer.cpp:744-745 with the constructor, Factor_ImuCPIv1.cpp:28-61; `W` is the square root of
the inverse covariance. `q_k2tau` is set by the first interval fed; every preintegration has one. -/
noncomputable def imuFac (k : Cpi.Conf) (gmag : ℝ) (W : Cpi.Res → Matrix I5 I5 ℝ) (c : Cpi.Res) : ImuF :=
  ⟨c.alpha, c.beta, c.q.getD ⟨0, 0, 0, 1⟩, c.DT, ![0, 0, gmag], k.ba, k.bw, c.Jq, c.Ja, c.Jb, c.Ha, c.Hb, W c⟩

/-- the preintegration factors with the two states they are evaluated at when the optimisation starts, DynamicInitializer.cpp:637-751; `prev` is the state of
`timestamp_k`. -/
noncomputable def graph (k : Cpi.Conf) (gmag : ℝ) (W : Cpi.Res → Matrix I5 I5 ℝ) (vel grav : V3) :
    Option Nav → List (ℝ × Option (Cpi.Res × Cpi.Res)) → List (ImuF × Nav × Nav)
  | _, [] => []
  | prev, (_, c) :: l =>
    let x := startNav k vel grav c
    match c, prev with
    | some (_, c1), some y => (imuFac k gmag W c1, y, x) :: graph k gmag W vel grav (some x) l
    | _, _ => graph k gmag W vel grav (some x) l

/-! ## The returned covariance -/

/-- the five variables of the newest state in the order of the returned matrix, DynamicInitializer.cpp:1024-1034. -/
inductive NV where
  | ori | pos | vel | bg | ba
  deriving DecidableEq

/-- the row at which the block of a variable starts, DynamicInitializer.cpp:1026-1073. -/
def NV.at : NV → ℕ
  | .ori => 0 | .pos => 3 | .vel => 6 | .bg => 9 | .ba => 12

/-- `covariance.block(r, c, 3, 3) = B`. -/
def put (M : Cpi.M15) (r c : ℕ) (B : M3) : Cpi.M15 := Cpi.setB M r c B

/-- `covariance.block(r, r, 3, 3) *= s`. -/
def scaleB (M : Cpi.M15) (r : ℕ) (s : ℝ) : Cpi.M15 := fun i j =>
  if (r ≤ i.1 ∧ i.1 < r + 3) ∧ (r ≤ j.1 ∧ j.1 < r + 3) then M i j * s else M i j

/-- the inflation factors `init_dyn_inflation_*`. -/
structure Infl where
  ori : ℝ
  vel : ℝ
  bg : ℝ
  ba : ℝ

/-- the blocks `C a b` of the two variables `a`, `b` that Ceres returns, put into one matrix, DynamicInitializer.cpp:1022-1071. -/
def jointCov (C : NV → NV → M3) : Cpi.M15 :=
  let M : Cpi.M15 := 0
  let M := put M 0 0 (C .ori .ori)
  let M := put M 3 3 (C .pos .pos)
  let M := put M 6 6 (C .vel .vel)
  let M := put M 9 9 (C .bg .bg)
  let M := put M 12 12 (C .ba .ba)
  let M := put (put M 0 3 (C .ori .pos)) 3 0 (C .ori .pos).transpose
  let M := put (put M 0 6 (C .ori .vel)) 6 0 (C .ori .vel).transpose
  let M := put (put M 0 9 (C .ori .bg)) 9 0 (C .ori .bg).transpose
  let M := put (put M 0 12 (C .ori .ba)) 12 0 (C .ori .ba).transpose
  let M := put (put M 3 6 (C .pos .vel)) 6 3 (C .pos .vel).transpose
  let M := put (put M 3 9 (C .pos .bg)) 9 3 (C .pos .bg).transpose
  let M := put (put M 3 12 (C .pos .ba)) 12 3 (C .pos .ba).transpose
  let M := put (put M 6 9 (C .vel .bg)) 9 6 (C .vel .bg).transpose
  let M := put (put M 6 12 (C .vel .ba)) 12 6 (C .vel .ba).transpose
  put (put M 9 12 (C .bg .ba)) 12 9 (C .bg .ba).transpose

/-- the inflation of the diagonal blocks, DynamicInitializer.cpp:1074-1079. -/
def rawCov (C : NV → NV → M3) (s : Infl) : Cpi.M15 :=
  let M := scaleB (jointCov C) 0 s.ori
  let M := scaleB M 6 s.vel
  let M := scaleB M 9 s.bg
  scaleB M 12 s.ba

/-- the returned covariance, DynamicInitializer.cpp:1082. -/
noncomputable def retCov (C : NV → NV → M3) (s : Infl) : Cpi.M15 := (1 / 2 : ℝ) • (rawCov C s + (rawCov C s).transpose)

/-- the returned state: the value and first estimate of the newest pose with the position set to zero, DynamicInitializer.cpp:921-923 and 1091-1094. -/
def retNav (x : Nav) : Nav := { x with p := 0 }

end Verif.Mle
