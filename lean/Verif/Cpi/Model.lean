import Verif.Quat.Model

/-!
# Model of `ov_core/src/cpi/CpiBase.h` and `CpiV1.cpp`: continuous preintegration

Real arithmetic. `CpiV2` is not modelled.
-/

open Classical

namespace Verif.Cpi

open Verif

abbrev M15 := Matrix (Fin 15) (Fin 15) ℝ

/-- constructor arguments and linearisation points, CpiBase.h:60-95. -/
structure Conf where
  sw : ℝ
  swb : ℝ
  sa : ℝ
  sab : ℝ
  avg : Bool
  bw : V3
  ba : V3

/-- the public results, CpiBase.h:117-150. `q` is uninitialised before the first call. -/
structure Res where
  DT : ℝ
  alpha : V3
  beta : V3
  q : Option Quat
  R : M3
  Jq : M3
  Ja : M3
  Jb : M3
  Ha : M3
  Hb : M3
  P : M15

/-- initial values, CpiBase.h:117-150. -/
noncomputable def Res.init : Res := ⟨0, 0, 0, none, 1, 0, 0, 0, 0, 0, 0⟩

/-- `M.block(r, c, 3, 3) = B`. -/
def setB {m n : ℕ} (M : Matrix (Fin m) (Fin n) ℝ) (r c : ℕ) (B : M3) : Matrix (Fin m) (Fin n) ℝ := fun i j =>
  if h : (r ≤ i.1 ∧ i.1 < r + 3) ∧ (c ≤ j.1 ∧ j.1 < c + 3) then B ⟨i.1 - r, by omega⟩ ⟨j.1 - c, by omega⟩ else M i j

/-- `Q_c`, CpiBase.h:62-65. -/
noncomputable def Qc (k : Conf) : Matrix (Fin 12) (Fin 12) ℝ :=
  setB (setB (setB (setB 0 0 0 (k.sw ^ 2 • 1)) 3 3 (k.swb ^ 2 • 1)) 6 6 (k.sa ^ 2 • 1)) 9 9 (k.sab ^ 2 • 1)

/-- `F_k`, CpiV1.cpp:234-239, 254-259 and 286-291. -/
def Fk (w a : V3) (R : M3) : M15 :=
  setB (setB (setB (setB (setB 0 0 0 (-(skew w))) 0 3 (-1)) 6 0 (-R.transpose * skew a)) 6 9 (-R.transpose)) 12 6 1

/-- `G_k`, CpiV1.cpp:242-246, 262-266 and 294-298. -/
def Gk (R : M3) : Matrix (Fin 15) (Fin 12) ℝ :=
  setB (setB (setB (setB 0 0 0 (-1)) 3 3 1) 6 6 (-R.transpose)) 9 9 1

/-- `P_dot`, CpiV1.cpp:249, 270, 281, 302. -/
noncomputable def Pdot (k : Conf) (w a : V3) (R : M3) (P : M15) : M15 :=
  Fk w a R * P + P * (Fk w a R).transpose + Gk R * Qc k * (Gk R).transpose

/-- `f_1`, `f_2`, `f_3`, `f_4`, CpiV1.cpp:95-110; `n` is `mag_w`. -/
structure Fs where
  f1 : ℝ
  f2 : ℝ
  f3 : ℝ
  f4 : ℝ

/-- threshold `small_w`, CpiV1.cpp:70. -/
noncomputable def thr : ℝ := 0.008726646

/-- CpiV1.cpp:95-110. -/
noncomputable def fs (n dt : ℝ) : Fs :=
  if n < thr then ⟨-(dt ^ 3 / 3), dt ^ 4 / 8, -(dt ^ 2 / 2), dt ^ 3 / 6⟩
  else ⟨(n * dt * Real.cos (n * dt) - Real.sin (n * dt)) / n ^ 3,
    ((n * dt) ^ 2 - 2 * Real.cos (n * dt) - 2 * (n * dt) * Real.sin (n * dt) + 2) / (2 * n ^ 4),
    -(1 - Real.cos (n * dt)) / n ^ 2, (n * dt - Real.sin (n * dt)) / n ^ 3⟩

/-- `df_i_dw_mag`, CpiV1.cpp:163-203. -/
noncomputable def dfs (n dt : ℝ) : Fs :=
  if n < thr then ⟨-(dt ^ 5 / 15), dt ^ 6 / 72, -(dt ^ 4 / 12), dt ^ 5 / 60⟩
  else ⟨((n * dt) ^ 2 * Real.sin (n * dt) - 3 * Real.sin (n * dt) + 3 * (n * dt) * Real.cos (n * dt)) / n ^ 5,
    ((n * dt) ^ 2 - 4 * Real.cos (n * dt) - 4 * (n * dt) * Real.sin (n * dt) + (n * dt) ^ 2 * Real.cos (n * dt) + 4) / n ^ 6,
    (2 * (Real.cos (n * dt) - 1) + n * dt * Real.sin (n * dt)) / n ^ 4,
    (2 * (n * dt) + n * dt * Real.cos (n * dt) - 3 * Real.sin (n * dt)) / n ^ 5⟩

/-- `R_tau2tau1`, CpiV1.cpp:87-88; also the relative part of `R_mid`, CpiV1.cpp:225-227, with half the interval. -/
noncomputable def relRot (w : V3) (dt : ℝ) : M3 :=
  if norm3 w < thr then 1 - dt • skew w + (dt ^ 2 / 2) • (skew w * skew w)
  else 1 - (Real.sin (norm3 w * dt) / norm3 w) • skew w + ((1 - Real.cos (norm3 w * dt)) / norm3 w ^ 2) • (skew w * skew w)

/-- `alpha_arg`, CpiV1.cpp:113. -/
noncomputable def alphaArg (w : V3) (dt : ℝ) : M3 :=
  (dt ^ 2 / 2) • (1 : M3) + (fs (norm3 w) dt).f1 • skew w + (fs (norm3 w) dt).f2 • (skew w * skew w)

/-- `Beta_arg`, CpiV1.cpp:114. -/
noncomputable def betaArg (w : V3) (dt : ℝ) : M3 :=
  dt • (1 : M3) + (fs (norm3 w) dt).f3 • skew w + (fs (norm3 w) dt).f4 • (skew w * skew w)

/-- `J_r_tau1`, CpiV1.cpp:129-131. -/
noncomputable def jr (w : V3) (dt : ℝ) : M3 :=
  let wt := skew (dt • w)
  if norm3 w < thr then 1 - (1 / 2 : ℝ) • wt + (1 / 6 : ℝ) • (wt * wt)
  else 1 - ((1 - Real.cos (norm3 w * dt)) / (norm3 w * dt) ^ 2) • wt + ((norm3 w * dt - Real.sin (norm3 w * dt)) / (norm3 w * dt) ^ 3) • (wt * wt)

/-- unit vectors, CpiBase.h:68-70. -/
def ei (i : Fin 3) : V3 := fun j => if j = i then 1 else 0

/-- what is added to column `i` of `J_a` (`c`, `d` are `f_1`, `f_2`) or of `J_b` (`f_3`, `f_4`), CpiV1.cpp:206-218. -/
noncomputable def biasCol (Rt dR arg : M3) (w a : V3) (c d dc dd : ℝ) (i : Fin 3) : V3 :=
  (dR * arg + Rt * ((w i * dc) • skew w - c • skew (ei i) + (w i * dd) • (skew w * skew w) -
    d • (skew (ei i) * skew w + skew w * skew (ei i)))).mulVec a

/-- the corrected readings, CpiV1.cpp:46-56. -/
noncomputable def corrected (k : Conf) (b m0 m1 : V3) : V3 :=
  if k.avg then (1 / 2 : ℝ) • (m0 - b + (m1 - b)) else m0 - b

/-- one IMU interval: two times, two gyroscope and two accelerometer readings. -/
structure Seg where
  t0 : ℝ
  t1 : ℝ
  w0 : V3
  a0 : V3
  w1 : V3
  a1 : V3

/-- `CpiV1::feed_IMU`, CpiV1.cpp:33-315. -/
noncomputable def feed (k : Conf) (s : Res) (x : Seg) : Res :=
  let dt := x.t1 - x.t0
  if dt = 0 then { s with DT := s.DT + dt }
  else
    let w := corrected k k.bw x.w0 x.w1
    let a := corrected k k.ba x.a0 x.a1
    let Rs := relRot w dt
    let R1 := Rs * s.R
    let Rt := R1.transpose
    let F := fs (norm3 w) dt
    let D := dfs (norm3 w) dt
    let Hal := Rt * alphaArg w dt
    let Hbe := Rt * betaArg w dt
    let Jq := Rs * s.Jq + dt • jr w dt
    let dR := fun i : Fin 3 => -Rt * skew (Jq.mulVec (ei i))
    let Rm := relRot w (1 / 2 * dt) * s.R
    let p1 := Pdot k w a s.R s.P
    let p2 := Pdot k w a Rm (s.P + (dt / 2) • p1)
    let p3 := Pdot k w a Rm (s.P + (dt / 2) • p2)
    let p4 := Pdot k w a R1 (s.P + dt • p3)
    let P := s.P + (dt / 6) • (p1 + (2 : ℝ) • p2 + (2 : ℝ) • p3 + p4)
    { DT := s.DT + dt
      alpha := s.alpha + (dt • s.beta + Hal.mulVec a)
      beta := s.beta + Hbe.mulVec a
      q := some (rot2quat R1)
      R := R1
      Jq := Jq
      Ja := fun r c => s.Ja r c + dt * s.Jb r c + biasCol Rt (dR c) (alphaArg w dt) w a F.f1 F.f2 D.f1 D.f2 c r
      Jb := fun r c => s.Jb r c + biasCol Rt (dR c) (betaArg w dt) w a F.f3 F.f4 D.f3 D.f4 c r
      Ha := s.Ha - Hal + dt • s.Hb
      Hb := s.Hb - Hbe
      P := (1 / 2 : ℝ) • (P + P.transpose) }

/-- a sequence of intervals after construction. -/
noncomputable def run (k : Conf) (xs : List Seg) : Res := xs.foldl (feed k) Res.init

end Verif.Cpi
