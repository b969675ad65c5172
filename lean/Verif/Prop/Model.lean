import Verif.Imu.Model
import Verif.State.Accum

/-!
# Model of `ov_msckf/src/state/Propagator.cpp`: mean prediction, state-transition and noise matrices, propagate_and_clone and
fast_state_propagate.

Real arithmetic; `std::pow(dt, k)` is `dt ^ k`, `M_PI` is `π`.
-/

open Classical

namespace Verif.Prop_

open Verif Verif.Types Verif.St Verif.Imu Matrix

/-- `StateOptions::IntegrationMethod`, StateOptions.h:46. -/
inductive Method where
  | discrete | rk4 | analytical
  deriving DecidableEq

/-- `NoiseManager` (NoiseManager.h:36-61) restricted to the IMU noises, and `_gravity` (Propagator.h:47-58, `[0,0,g]`). -/
structure Noise where
  sw : ℝ
  swb : ℝ
  sa : ℝ
  sab : ℝ
  g : ℝ

/-- `_gravity << 0.0, 0.0, gravity_mag`, Propagator.h:56. -/
def Noise.grav (N : Noise) : V3 := ![0, 0, N.g]

/-- The IMU intrinsics read by the propagation: `_calib_imu_dw/da/tg`, `_calib_imu_GYROtoIMU`, `_calib_imu_ACCtoIMU`. -/
structure Cal where
  dw : Vect
  da : Vect
  tg : Vect
  qw : Quat
  qa : Quat

/-- `State::Dm`, State.h:91-101. -/
def Dm (kalibr : Bool) (x : Vect) : M3 :=
  if kalibr then !![x 0, 0, 0; x 1, x 3, 0; x 2, x 4, x 5] else !![x 0, x 1, x 3; 0, x 2, x 4; 0, 0, x 5]

/-- `State::Tg`, State.h:110-116. -/
def Tm (x : Vect) : M3 := !![x 0, x 3, x 6; x 1, x 4, x 7; x 2, x 5, x 8]

/-- Corrected readings of one IMU interval, Propagator.cpp:404-427: `w_hat1, a_hat1, w_hat2, a_hat2`, the averages and the
"uncorrected" averages. -/
structure Corr where
  w1 : V3
  a1 : V3
  w2 : V3
  a2 : V3
  w : V3
  a : V3
  wu : V3
  au : V3

/-- Propagator.cpp:402-427 (the head of `predict_and_compute`). -/
noncomputable def correct (kalibr : Bool) (c : Cal) (bg ba : V3) (d0 d1 : Reading) : Corr :=
  let Dw := Dm kalibr c.dw
  let Da := Dm kalibr c.da
  let Tg := Tm c.tg
  let Ra := quat2Rot c.qa
  let Rw := quat2Rot c.qw
  let a1 := d0.am - ba
  let a2 := d1.am - ba
  let au := (0.5 : ℝ) • (a1 + a2)
  let a1' := (Ra * Da).mulVec a1
  let a2' := (Ra * Da).mulVec a2
  let a := (Ra * Da).mulVec au
  let w1 := d0.wm - bg - Tg.mulVec a1'
  let w2 := d1.wm - bg - Tg.mulVec a2'
  let wu := (0.5 : ℝ) • (w1 + w2)
  { w1 := (Rw * Dw).mulVec w1, a1 := a1', w2 := (Rw * Dw).mulVec w2, a2 := a2', w := (Rw * Dw).mulVec wu, a := a, wu := wu, au := au }

/-- a 4-vector sum of quaternions, `q + p` of Eigen. -/
def qadd (q p : Quat) : Quat := ⟨q.x + p.x, q.y + p.y, q.z + p.z, q.w + p.w⟩

/-- `predict_mean_discrete`, Propagator.cpp:482-505. Returns `new_q, new_v, new_p`. -/
noncomputable def meanDiscrete (g : V3) (x : Imu16) (dt : ℝ) (w a : V3) : Quat × V3 × V3 :=
  let n := norm3 w
  let R := quat2Rot x.q
  let bigOq :=
    if n > 1e-12 then
      qadd (Quat.smul (Real.cos (0.5 * n * dt)) x.q) (Quat.smul (1 / n * Real.sin (0.5 * n * dt)) (omegaMul w x.q))
    else qadd x.q (Quat.smul (0.5 * dt) (omegaMul w x.q))
  (quatnorm bigOq,
   x.v + dt • R.transpose.mulVec a - dt • g,
   x.p + dt • x.v + (0.5 * dt * dt) • R.transpose.mulVec a - (0.5 * dt * dt) • g)

/-- `predict_mean_rk4`, Propagator.cpp:507-586. -/
noncomputable def meanRk4 (g : V3) (x : Imu16) (dt : ℝ) (w1 a1 w2 a2 : V3) : Quat × V3 × V3 :=
  let wα := (1 / dt) • (w2 - w1)
  let aj := (1 / dt) • (a2 - a1)
  let dq0 : Quat := ⟨0, 0, 0, 1⟩
  let k1q := Quat.smul dt (Quat.smul 0.5 (omegaMul w1 dq0))
  let k1p := dt • x.v
  let k1v := dt • ((quat2Rot (quatMul dq0 x.q)).transpose.mulVec a1 - g)
  let wm := w1 + (0.5 * dt) • wα
  let am := a1 + (0.5 * dt) • aj
  let dq1 := quatnorm (qadd dq0 (Quat.smul 0.5 k1q))
  let v1 := x.v + (0.5 : ℝ) • k1v
  let k2q := Quat.smul dt (Quat.smul 0.5 (omegaMul wm dq1))
  let k2p := dt • v1
  let k2v := dt • ((quat2Rot (quatMul dq1 x.q)).transpose.mulVec am - g)
  let dq2 := quatnorm (qadd dq0 (Quat.smul 0.5 k2q))
  let v2 := x.v + (0.5 : ℝ) • k2v
  let k3q := Quat.smul dt (Quat.smul 0.5 (omegaMul wm dq2))
  let k3p := dt • v2
  let k3v := dt • ((quat2Rot (quatMul dq2 x.q)).transpose.mulVec am - g)
  let we := wm + (0.5 * dt) • wα
  let ae := am + (0.5 * dt) • aj
  let dq3 := quatnorm (qadd dq0 k3q)
  let v3 := x.v + k3v
  let k4q := Quat.smul dt (Quat.smul 0.5 (omegaMul we dq3))
  let k4p := dt • v3
  let k4v := dt • ((quat2Rot (quatMul dq3 x.q)).transpose.mulVec ae - g)
  let dq := quatnorm (qadd (qadd (qadd (qadd dq0 (Quat.smul (1 / 6) k1q)) (Quat.smul (1 / 3) k2q)) (Quat.smul (1 / 3) k3q))
    (Quat.smul (1 / 6) k4q))
  (quatMul dq x.q,
   x.v + (1 / 6 : ℝ) • k1v + (1 / 3 : ℝ) • k2v + (1 / 3 : ℝ) • k3v + (1 / 6 : ℝ) • k4v,
   x.p + (1 / 6 : ℝ) • k1p + (1 / 3 : ℝ) • k2p + (1 / 3 : ℝ) • k3p + (1 / 6 : ℝ) • k4p)

/-- The blocks of `Xi_sum`, Propagator.cpp:656-664. -/
structure Xi where
  R : M3
  x1 : M3
  x2 : M3
  Jr : M3
  x3 : M3
  x4 : M3

/-- `compute_Xi_sum`, Propagator.cpp:588-665. -/
noncomputable def xiSum (dt : ℝ) (w a : V3) : Xi :=
  let n := norm3 w
  let th := n * dt
  let k : V3 := if n > 1e-12 then (1 / n) • w else 0
  let c := Real.cos th
  let s := Real.sin th
  let sK := skew k
  let sK2 := sK * sK
  let sA := skew a
  let ka := dot3 k a
  if ¬ n < 1 / 180 * Real.pi / 2 then
    { R := expSO3 (-(dt • w)), Jr := JrSO3 (-(dt • w)),
      x1 := dt • (1 : M3) + ((1 - c) / n) • sK + (dt - s / n) • sK2,
      x2 := (1 / 2 * dt ^ 2) • (1 : M3) + ((th - s) / n ^ 2) • sK + (1 / 2 * dt ^ 2 - (1 - c) / n ^ 2) • sK2,
      x3 := (1 / 2 * dt ^ 2) • sA + ((s - th) / n ^ 2) • (sA * sK) + ((s - th * c) / n ^ 2) • (sK * sA) +
        (1 / 2 * dt ^ 2 - (1 - c) / n ^ 2) • (sA * sK2) +
        (1 / 2 * dt ^ 2 + (1 - c - th * s) / n ^ 2) • (sK2 * sA + ka • sK) -
        ((3 * s - 2 * th - th * c) / n ^ 2 * ka) • sK2,
      x4 := (1 / 6 * dt ^ 3) • sA + ((2 * (1 - c) - th ^ 2) / (2 * n ^ 3)) • (sA * sK) +
        ((2 * (1 - c) - th * s) / n ^ 3) • (sK * sA) + ((s - th) / n ^ 3 + dt ^ 3 / 6) • (sA * sK2) +
        ((th - 2 * s + 1 / 6 * th ^ 3 + th * c) / n ^ 3) • (sK2 * sA + ka • sK) +
        ((4 * c - 4 + th ^ 2 + th * s) / n ^ 3 * ka) • sK2 }
  else
    let x1 := dt • (1 + s • sK + (1 - c) • sK2)
    let x3 := (1 / 2 * dt ^ 2) • (sA + s • (-(sA * sK) + sK * sA + ka • sK2) + (1 - c) • (sA * sK2 + sK2 * sA + ka • sK))
    { R := expSO3 (-(dt • w)), Jr := JrSO3 (-(dt • w)), x1 := x1, x2 := (1 / 2 * dt) • x1, x3 := x3, x4 := (1 / 3 * dt) • x3 }

/-- `predict_mean_analytic`, Propagator.cpp:667-681. -/
noncomputable def meanAnalytic (g : V3) (x : Imu16) (dt : ℝ) (a : V3) (X : Xi) : Quat × V3 × V3 :=
  let R := quat2Rot x.q
  (quatMul (rot2quat X.R) x.q,
   x.v + (R.transpose * X.x1).mulVec a - dt • g,
   x.p + dt • x.v + (R.transpose * X.x2).mulVec a - (0.5 * dt * dt) • g)

/-- the three-way choice of the mean prediction, Propagator.cpp:429-447. -/
noncomputable def predictMean (m : Method) (N : Noise) (x : Imu16) (dt : ℝ) (k : Corr) : Quat × V3 × V3 :=
  match m with
  | .analytical => meanAnalytic N.grav x dt k.a (xiSum dt k.w k.a)
  | .rk4 => meanRk4 N.grav x dt k.w1 k.a1 k.w2 k.a2
  | .discrete => meanDiscrete N.grav x dt k.w k.a

/-! ## Jacobians -/

/-- `compute_H_Dw` / `compute_H_Da`, Propagator.cpp:964-982 and 984-1002 (the same code for both). -/
def HD (kalibr : Bool) (w : V3) : Matrix (Fin 3) (Fin 6) ℝ :=
  if kalibr then
    !![w 0, 0, 0, 0, 0, 0;
       0, w 0, 0, w 1, 0, 0;
       0, 0, w 0, 0, w 1, w 2]
  else
    !![w 0, w 1, 0, w 2, 0, 0;
       0, 0, w 1, 0, w 2, 0;
       0, 0, 0, 0, 0, w 2]

/-- `compute_H_Tg`, Propagator.cpp:1004-1016. -/
def HT (a : V3) : Matrix (Fin 3) (Fin 9) ℝ :=
  !![a 0, 0, 0, a 1, 0, 0, a 2, 0, 0;
     0, a 0, 0, 0, a 1, 0, 0, a 2, 0;
     0, 0, a 0, 0, 0, a 1, 0, 0, a 2]

/-- one assignment `F.block(r, c, nr, nc) = a`. -/
structure Blk where
  r : ℕ
  c : ℕ
  nr : ℕ
  nc : ℕ
  a : Mat

/-- a block assignment with a fixed-size right-hand side. -/
def blk {m n : ℕ} (r c : ℕ) (A : Matrix (Fin m) (Fin n) ℝ) : Blk := ⟨r, c, m, n, Mat.extM A⟩

/-- a zero matrix after a sequence of block assignments. -/
def assemble (l : List Blk) : Mat := l.foldl (fun F b => Mat.setBlock b.r b.c b.nr b.nc b.a F) fun _ _ => 0

/-- local ids in the transition matrix, Propagator.cpp:690-728 (= 836-874): th 0, p 3, v 6, bg 9, ba 12, then, if calibrating
the intrinsics, Dw 15, Da 21, Tg 27 (if calibrated) and the sensor rotation. -/
def rotId (o : Opts) : ℕ := if o.calibG then 36 else 27

/-- what `compute_F_and_G_*` read: the linearisation point (estimate or first estimate), the new mean, intrinsics, corrected
readings. -/
structure FArgs where
  R : M3
  v : V3
  p : V3
  q1 : Quat
  v1 : V3
  p1 : V3
  c : Cal
  k : Corr
  dt : ℝ
  g : V3

/-- `compute_F_and_G_analytic`, Propagator.cpp:683-828: the block assignments to `F`. -/
noncomputable def fAnalytic (o : Opts) (X : Xi) (A : FArgs) : List Blk :=
  let dR := quat2Rot A.q1 * A.R.transpose
  let Dw := Dm o.kalibr A.c.dw
  let Da := Dm o.kalibr A.c.da
  let Tg := Tm A.c.tg
  let Ra := quat2Rot A.c.qa
  let Rw := quat2Rot A.c.qw
  let ak := (Ra * Da).mulVec A.k.au
  let wk := (Rw * Dw).mulVec A.k.wu
  let Rt := A.R.transpose
  let J := A.dt • (dR * X.Jr)
  [ blk 0 0 dR,
    blk 3 0 (-(skew (A.p1 - A.p - A.dt • A.v + (0.5 * A.dt * A.dt) • A.g) * Rt)),
    blk 6 0 (-(skew (A.v1 - A.v + A.dt • A.g) * Rt)),
    blk 3 3 (1 : M3),
    blk 3 6 (A.dt • (1 : M3)),
    blk 6 6 (1 : M3),
    blk 0 9 (-(J * Rw * Dw)),
    blk 3 9 (Rt * X.x4 * Rw * Dw),
    blk 6 9 (Rt * X.x3 * Rw * Dw),
    blk 9 9 (1 : M3),
    blk 0 12 (J * Rw * Dw * Tg * Ra * Da),
    blk 3 12 (-(Rt * (X.x2 + X.x4 * Rw * Dw * Tg) * Ra * Da)),
    blk 6 12 (-(Rt * (X.x1 + X.x3 * Rw * Dw * Tg) * Ra * Da)),
    blk 12 12 (1 : M3) ] ++
  (if o.calibImu then
    let Hw := HD o.kalibr A.k.wu
    let Ha := HD o.kalibr A.k.au
    [ blk 0 15 (J * Rw * Hw),
      blk 3 15 (-(Rt * X.x4 * Rw * Hw)),
      blk 6 15 (-(Rt * X.x3 * Rw * Hw)),
      blk 15 15 (1 : Matrix (Fin 6) (Fin 6) ℝ),
      blk 0 21 (-(J * Rw * Dw * Tg * Ra * Ha)),
      blk 3 21 (Rt * (X.x2 + X.x4 * Rw * Dw * Tg) * Ra * Ha),
      blk 6 21 (Rt * (X.x1 + X.x3 * Rw * Dw * Tg) * Ra * Ha),
      blk 21 21 (1 : Matrix (Fin 6) (Fin 6) ℝ) ] ++
    (if o.calibG then
      let Hg := HT ak
      [ blk 0 27 (-(J * Rw * Dw * Hg)),
        blk 3 27 (Rt * X.x4 * Rw * Dw * Hg),
        blk 6 27 (Rt * X.x3 * Rw * Dw * Hg),
        blk 27 27 (1 : Matrix (Fin 9) (Fin 9) ℝ) ] else []) ++
    (if o.kalibr then
      [ blk 0 (rotId o) (J * skew wk),
        blk 3 (rotId o) (-(Rt * X.x4 * skew wk)),
        blk 6 (rotId o) (-(Rt * X.x3 * skew wk)),
        blk (rotId o) (rotId o) (1 : M3) ]
    else
      [ blk 0 (rotId o) (-(J * Rw * Dw * Tg * skew ak)),
        blk 3 (rotId o) (Rt * (X.x2 + X.x4 * Rw * Dw * Tg) * skew ak),
        blk 6 (rotId o) (Rt * (X.x1 + X.x3 * Rw * Dw * Tg) * skew ak),
        blk (rotId o) (rotId o) (1 : M3) ])
  else [])

/-- the block assignments to `G` of `compute_F_and_G_analytic`, Propagator.cpp:819-827. -/
noncomputable def gAnalytic (o : Opts) (X : Xi) (A : FArgs) : List Blk :=
  let dR := quat2Rot A.q1 * A.R.transpose
  let Dw := Dm o.kalibr A.c.dw
  let Da := Dm o.kalibr A.c.da
  let Tg := Tm A.c.tg
  let Ra := quat2Rot A.c.qa
  let Rw := quat2Rot A.c.qw
  let Rt := A.R.transpose
  let J := A.dt • (dR * X.Jr)
  [ blk 0 0 (-(J * Rw * Dw)),
    blk 3 0 (Rt * X.x4 * Rw * Dw),
    blk 6 0 (Rt * X.x3 * Rw * Dw),
    blk 0 3 (J * Rw * Dw * Tg * Ra * Da),
    blk 3 3 (-(Rt * (X.x2 + X.x4 * Rw * Dw * Tg) * Ra * Da)),
    blk 6 3 (-(Rt * (X.x1 + X.x3 * Rw * Dw * Tg) * Ra * Da)),
    blk 9 6 (A.dt • (1 : M3)),
    blk 12 9 (A.dt • (1 : M3)) ]

/-- `compute_F_and_G_discrete`, Propagator.cpp:830-962: the block assignments to `F`. -/
noncomputable def fDiscrete (o : Opts) (A : FArgs) : List Blk :=
  let dR := quat2Rot A.q1 * A.R.transpose
  let Dw := Dm o.kalibr A.c.dw
  let Da := Dm o.kalibr A.c.da
  let Tg := Tm A.c.tg
  let Ra := quat2Rot A.c.qa
  let Rw := quat2Rot A.c.qw
  let ak := (Ra * Da).mulVec A.k.au
  let wk := (Rw * Dw).mulVec A.k.wu
  let Rt := A.R.transpose
  let J := A.dt • (dR * JrSO3 (logSO3 dR))
  let h := 0.5 * A.dt * A.dt
  [ blk 0 0 dR,
    blk 0 9 (-(J * Rw * Dw)),
    blk 0 12 (J * Rw * Dw * Tg * Ra * Da),
    blk 3 0 (-(skew (A.p1 - A.p - A.dt • A.v + (0.5 * A.dt * A.dt) • A.g) * Rt)),
    blk 3 3 (1 : M3),
    blk 3 6 (A.dt • (1 : M3)),
    blk 3 12 (-(h • (Rt * Ra * Da))),
    blk 6 0 (-(skew (A.v1 - A.v + A.dt • A.g) * Rt)),
    blk 6 6 (1 : M3),
    blk 6 12 (-(A.dt • (Rt * Ra * Da))),
    blk 9 9 (1 : M3),
    blk 12 12 (1 : M3) ] ++
  (if o.calibImu then
    let Hw := HD o.kalibr A.k.wu
    let Ha := HD o.kalibr A.k.au
    [ blk 0 15 (J * Rw * Hw),
      blk 15 15 (1 : Matrix (Fin 6) (Fin 6) ℝ),
      -- line 928: no `Dw` between `R_wtoI` and `Tg`
      blk 0 21 (-(J * Rw * Tg * Ra * Ha)),
      blk 3 21 (h • (Rt * Ra * Ha)),
      blk 6 21 (A.dt • (Rt * Ra * Ha)),
      blk 21 21 (1 : Matrix (Fin 6) (Fin 6) ℝ) ] ++
    (if o.calibG then
      let Hg := HT ak
      [ blk 0 27 (-(J * Rw * Dw * Hg)),
        blk 27 27 (1 : Matrix (Fin 9) (Fin 9) ℝ) ] else []) ++
    (if o.kalibr then
      [ blk 0 (rotId o) (J * skew wk),
        blk (rotId o) (rotId o) (1 : M3) ]
    else
      [ blk 0 (rotId o) (-(J * Rw * Dw * Tg * skew ak)),
        blk 3 (rotId o) (h • (Rt * skew ak)),
        blk 6 (rotId o) (A.dt • (Rt * skew ak)),
        blk (rotId o) (rotId o) (1 : M3) ])
  else [])

/-- the block assignments to `G` of `compute_F_and_G_discrete`, Propagator.cpp:955-961. -/
noncomputable def gDiscrete (o : Opts) (A : FArgs) : List Blk :=
  let dR := quat2Rot A.q1 * A.R.transpose
  let Dw := Dm o.kalibr A.c.dw
  let Da := Dm o.kalibr A.c.da
  let Tg := Tm A.c.tg
  let Ra := quat2Rot A.c.qa
  let Rw := quat2Rot A.c.qw
  let Rt := A.R.transpose
  let J := A.dt • (dR * JrSO3 (logSO3 dR))
  let h := 0.5 * A.dt * A.dt
  [ blk 0 0 (-(J * Rw * Dw)),
    blk 0 3 (J * Rw * Dw * Tg * Ra * Da),
    blk 6 3 (-(A.dt • (Rt * Ra * Da))),
    blk 3 3 (-(h • (Rt * Ra * Da))),
    blk 9 6 (A.dt • (1 : M3)),
    blk 12 9 (A.dt • (1 : M3)) ]

/-- the discretised noise matrix `Qc`, Propagator.cpp:461-465. -/
noncomputable def qcPredict (N : Noise) (dt : ℝ) : Mat :=
  assemble [blk 0 0 ((N.sw ^ 2 / dt) • (1 : M3)), blk 3 3 ((N.sa ^ 2 / dt) • (1 : M3)),
    blk 6 6 ((N.swb ^ 2 / dt) • (1 : M3)), blk 9 9 ((N.sab ^ 2 / dt) • (1 : M3))]

/-- `Qd = G*Qc*Gᵀ; Qd = 0.5*(Qd+Qdᵀ)`, Propagator.cpp:468-470 (`12` noise columns). -/
noncomputable def noiseCov (G Qc : Mat) : Mat :=
  let X := Mat.mul 12 (Mat.mul 12 G Qc) (Mat.tr G)
  fun i j => 0.5 * (X i j + X j i)

/-- the further options read here: integration method and `do_fej` (StateOptions.h:36-60). -/
structure POpts where
  method : Method
  fej : Bool

/-- `predict_and_compute`, Propagator.cpp:395-480: new IMU value (also the new first estimate), `F` and `Qd`. -/
noncomputable def predictAndCompute (o : Opts) (po : POpts) (N : Noise) (c : Cal) (x xf : Imu16) (d0 d1 : Reading) :
    Imu16 × Mat × Mat :=
  let dt := d1.t - d0.t
  let k := correct o.kalibr c x.bg x.ba d0 d1
  let nw := predictMean po.method N x dt k
  let l := if po.fej then xf else x
  let A : FArgs := { R := quat2Rot l.q, v := l.v, p := l.p, q1 := nw.1, v1 := nw.2.1, p1 := nw.2.2, c := c, k := k, dt := dt, g := N.grav }
  let X := xiSum dt k.w k.a
  let FG := match po.method with
    | .discrete => (fDiscrete o A, gDiscrete o A)
    | _ => (fAnalytic o X A, gAnalytic o X A)
  ({ x with q := nw.1, p := nw.2.2, v := nw.2.1 }, assemble FG.1, noiseCov (assemble FG.2) (qcPredict N dt))

/-! ## propagate_and_clone -/

/-- the loop of Propagator.cpp:82-99 over the selected readings: the IMU value is replaced after every interval (value and
first estimate are the same from then on). -/
noncomputable def propLoop (o : Opts) (po : POpts) (N : Noise) (c : Cal) :
    List Reading → Imu16 → Imu16 → List (Mat × Mat) → Imu16 × Imu16 × List (Mat × Mat)
  | d0 :: d1 :: rest, x, xf, acc =>
    let r := predictAndCompute o po N c x xf d0 d1
    propLoop o po N c (d1 :: rest) r.1 r.1 (acc ++ [r.2])
  | [], x, xf, acc => (x, xf, acc)
  | [_], x, xf, acc => (x, xf, acc)

/-- sum of the interval lengths, `dt_summed`. -/
def dtSum : List Reading → ℝ
  | d0 :: d1 :: rest => (d1.t - d0.t) + dtSum (d1 :: rest)
  | [] => 0
  | [_] => 0

/-- the calibration objects of the state. -/
def calOf (s : State) : Option Cal :=
  match (s.obj 1).val, (s.obj 2).val, (s.obj 3).val, (s.obj 4).val, (s.obj 5).val with
  | .vec _ dw, .vec _ da, .vec _ tg, .quat qw, .quat qa => some ⟨dw, da, tg, qw, qa⟩
  | _, _, _, _, _ => none

/-- `_calib_dt_CAMtoIMU->value()(0)`. -/
def tOff (s : State) : Option ℝ :=
  match (s.obj dtUid).val with
  | .vec _ x => some (x 0)
  | _ => none

/-- the IMU value and first estimate. -/
def imuOf (s : State) : Option (Imu16 × Imu16) :=
  match (s.obj imuUid).val, (s.obj imuUid).fej with
  | .imu x, .imu f => some (x, f)
  | _, _ => none

/-- `state->_imu->set_value(x); state->_imu->set_fej(f)`. -/
def setImu (s : State) (x f : Imu16) : State :=
  { s with obj := fun w => if w = imuUid then { s.obj imuUid with val := .imu x, fej := .imu f } else s.obj w }

/-- `last_w`, Propagator.cpp:105-113, from the last selected reading and the current biases. -/
noncomputable def lastW (kalibr : Bool) (c : Cal) (x : Imu16) : List Reading → V3
  | [] => 0
  | d :: l =>
    let z := (d :: l).getLast (by simp)
    let a := (quat2Rot c.qa * Dm kalibr c.da).mulVec (z.am - x.ba)
    (quat2Rot c.qw * Dm kalibr c.dw).mulVec (z.wm - x.bg - (Tm c.tg).mulVec a)

/-- `Propagator::propagate_and_clone`, Propagator.cpp:33-138. `lastOff` is `last_prop_time_offset` (`none` before the first
call, Propagator.cpp:54-57); returns the new state and the new `last_prop_time_offset`. -/
noncomputable def propagateAndClone (po : POpts) (N : Noise) (buf : List Reading) (lastOff : Option ℝ) (s : State) (t : ℝ) :
    Option (State × ℝ) :=
  if s.ts = t ∨ t < s.ts then none
  else do
    let c ← calOf s
    let off ← tOff s
    let (x, f) ← imuOf s
    let last := lastOff.getD off
    let time0 := s.ts + last
    let time1 := t + off
    let data := select buf time0 time1
    let (x', f', steps) := propLoop s.opts po N c data x f []
    if ¬ |(time1 - time0) - dtSum data| < 1e-4 then none
    else
      let s1 := setImu s x' f'
      let s2 ← propagateSummed s1 steps
      let s3 ← augment { s2 with ts := t } (lastW s.opts.kalibr c x' data)
      return (s3, off)

/-! ## fast_state_propagate -/

/-- The cache, Propagator.h:465-474: `cache_state_time`, `cache_t_off`, `cache_state_est`, `cache_state_covariance`; `none` is
`cache_imu_valid == false`. -/
structure Cache where
  time : ℝ
  toff : ℝ
  x : Imu16
  P : Mat

/-- the block assignments to `F`, Propagator.cpp:195-206. -/
noncomputable def fFast (R : M3) (dt : ℝ) (w a : V3) : List Blk :=
  let E := expSO3 (-(dt • w))
  let J := JrSO3 (-(dt • w))
  [ blk 0 0 E,
    blk 0 9 (-(dt • (E * J))),
    blk 9 9 (1 : M3),
    blk 6 0 (-(R.transpose * skew (dt • a))),
    blk 6 6 (1 : M3),
    blk 6 12 (-(dt • R.transpose)),
    blk 12 12 (1 : M3),
    blk 3 0 (-((0.5 : ℝ) • (R.transpose * skew ((dt * dt) • a)))),
    blk 3 6 (dt • (1 : M3)),
    blk 3 12 (-((0.5 * dt * dt) • R.transpose)),
    blk 3 3 (1 : M3) ]

/-- the block assignments to `G`, Propagator.cpp:207-212. -/
noncomputable def gFast (R : M3) (dt : ℝ) (w : V3) : List Blk :=
  let E := expSO3 (-(dt • w))
  let J := JrSO3 (-(dt • w))
  [ blk 0 0 (-(dt • (E * J))),
    blk 6 3 (-(dt • R.transpose)),
    blk 3 3 (-((0.5 * dt * dt) • R.transpose)),
    blk 9 6 (1 : M3),
    blk 12 9 (1 : M3) ]

/-- `Qc` of the fast propagation, Propagator.cpp:218-222 (`sigma_*_2` are the squares, Propagator.h:52-55). -/
noncomputable def qcFast (N : Noise) (dt : ℝ) : Mat :=
  assemble [blk 0 0 ((N.sw ^ 2 / dt) • (1 : M3)), blk 3 3 ((N.sa ^ 2 / dt) • (1 : M3)),
    blk 6 6 ((N.swb ^ 2 * dt) • (1 : M3)), blk 9 9 ((N.sab ^ 2 * dt) • (1 : M3))]

/-- the corrected readings of one interval, Propagator.cpp:178-186. -/
noncomputable def correctFast (kalibr : Bool) (c : Cal) (bg ba : V3) (d0 d1 : Reading) : V3 × V3 :=
  let A := quat2Rot c.qa * Dm kalibr c.da
  let W := quat2Rot c.qw * Dm kalibr c.dw
  let Tg := Tm c.tg
  let a1 := A.mulVec (d0.am - ba)
  let a2 := A.mulVec (d1.am - ba)
  let w1 := W.mulVec (d0.wm - bg - Tg.mulVec a1)
  let w2 := W.mulVec (d1.wm - bg - Tg.mulVec a2)
  ((0.5 : ℝ) • (w1 + w2), (0.5 : ℝ) • (a1 + a2))

/-- one turn of the loop, Propagator.cpp:170-230. -/
noncomputable def fastStep (kalibr : Bool) (N : Noise) (c : Cal) (x : Imu16) (P : Mat) (d0 d1 : Reading) : Imu16 × Mat :=
  let dt := d1.t - d0.t
  let wa := correctFast kalibr c x.bg x.ba d0 d1
  let R := quat2Rot x.q
  let F := assemble (fFast R dt wa.1 wa.2)
  let Qd := noiseCov (assemble (gFast R dt wa.1)) (qcFast N dt)
  let P' : Mat := fun i j => Mat.mul 15 (Mat.mul 15 F P) (Mat.tr F) i j + Qd i j
  ({ x with
      q := rot2quat (expSO3 (-(dt • wa.1)) * R),
      p := x.p + dt • x.v + (0.5 * dt * dt) • R.transpose.mulVec wa.2 - (0.5 * dt * dt) • N.grav,
      v := x.v + dt • R.transpose.mulVec wa.2 - dt • N.grav }, P')

noncomputable def fastLoop (kalibr : Bool) (N : Noise) (c : Cal) : List Reading → Imu16 → Mat → Imu16 × Mat
  | d0 :: d1 :: rest, x, P =>
    let r := fastStep kalibr N c x P d0 d1
    fastLoop kalibr N c (d1 :: rest) r.1 r.2
  | [], x, P => (x, P)
  | [_], x, P => (x, P)

/-- The `13` outputs `state_plus` (orientation, position, local velocity, angular rate) and the `12×12` covariance,
Propagator.cpp:238-266. -/
structure FastOut where
  q : Quat
  p : V3
  vI : V3
  w : V3
  cov : Mat

noncomputable def fastOut (kalibr : Bool) (N : Noise) (c : Cal) (data : List Reading) (x : Imu16) (P : Mat) : FastOut :=
  let R := quat2Rot x.q
  let Phi : Mat := Mat.setBlock 6 6 3 3 (Mat.extM R) Mat.one
  let C := Mat.mul 15 (Mat.mul 15 Phi P) (Mat.tr Phi)
  let dt := match data.reverse with
    | z :: y :: _ => z.t - y.t
    | _ => 0
  { q := x.q, p := x.p, vI := R.mulVec x.v, w := lastW kalibr c x data,
    cov := Mat.setBlock 9 9 3 3 (Mat.extM ((N.sw ^ 2 / dt) • (1 : M3))) (Mat.setBlock 0 0 9 9 C fun _ _ => 0) }

/-- filling the cache from the state, Propagator.cpp:144-150. -/
def initCache (s : State) : Option Cache := do
  let off ← tOff s
  let (x, _) ← imuOf s
  let M ← getMarginal s [(imuUid, .self)]
  return { time := s.ts, toff := off, x := x, P := M.a }

/-- `Propagator::fast_state_propagate`, Propagator.cpp:140-267: new cache, and the outputs if it returns `true`. -/
noncomputable def fastPropagate (N : Noise) (buf : List Reading) (cache : Option Cache) (s : State) (t : ℝ) :
    Option (Cache × Option FastOut) := do
  let c ← calOf s
  let ca ← cache.or (initCache s)
  let time0 := ca.time + ca.toff
  let time1 := t + ca.toff
  let data := select buf time0 time1
  if data.length < 2 then return (ca, none)
  else
    let r := fastLoop s.opts.kalibr N c data ca.x ca.P
    return ({ time := time1, toff := 0, x := r.1, P := r.2 }, some (fastOut s.opts.kalibr N c data r.1 r.2))

end Verif.Prop_
