import Verif.Cpi.Model

/-!
# Model of `ov_core/src/cpi/CpiV2.cpp`: preintegration with piecewise constant local acceleration

Real arithmetic.
-/

set_option autoImplicit false
open Classical

namespace Verif.Cpi

open Verif

abbrev M21 := Matrix (Fin 21) (Fin 21) ℝ

/-- constructor arguments, linearisation points (`setLinearizationPoints`, CpiBase.h:90-98) and `state_transition_jacobians`, CpiV2.h:65 -/
structure Conf2 extends Conf where
  qk : Quat
  grav : V3
  trans : Bool

/-- the public results; `P_meas` is `P` of `Res`. And `O_a`, `O_b`, `P_big`, `Discrete_J_b`, CpiV2.h:51-69 -/
structure Res2 extends Res where
  Oa : M3
  Ob : M3
  Pbig : M21
  Disc : M21

/-- initial values -/
noncomputable def Res2.init : Res2 := { Res.init with Oa := 0, Ob := 0, Pbig := 0, Disc := 1 }

/-- `F_k`, CpiV2.cpp:259-267, 282-290, 317-325; `R` is the orientation of the stage, `Rt` that at the start of the interval, `g` is `R_G_to_k * grav` -/
def Fk2 (w a g : V3) (Rt R : M3) : M21 :=
  setB (setB (setB (setB (setB (setB (setB 0 0 0 (-(skew w))) 0 3 (-1)) 6 0 (-R.transpose * skew a)) 6 9 (-R.transpose)) 6 15 (-R.transpose * skew (Rt.mulVec g))) 6 18 (-R.transpose * Rt * skew g)) 12 6 1

/-- `G_k`, CpiV2.cpp:269-274, 292-297, 327-332 -/
def Gk2 (R : M3) : Matrix (Fin 21) (Fin 12) ℝ :=
  setB (setB (setB (setB 0 0 0 (-1)) 3 3 1) 6 6 (-R.transpose)) 9 9 1

/-- `P_dot`, CpiV2.cpp:278, 303, 315, 338 -/
noncomputable def Pdot2 (k : Conf) (F : M21) (G : Matrix (Fin 21) (Fin 12) ℝ) (P : M21) : M21 :=
  F * P + P * F.transpose + G * Qc k * G.transpose

/-- `B_k`, CpiV2.cpp:357-359 -/
def Bk : M21 := setB (setB 1 15 15 0) 15 0 1

/-- `M.block(r, c, 3, 3)` -/
def getB {m n : ℕ} (M : Matrix (Fin m) (Fin n) ℝ) (r c : ℕ) (hr : r + 3 ≤ m) (hc : c + 3 ≤ n) : M3 := fun i j => M ⟨r + i.1, by omega⟩ ⟨c + j.1, by omega⟩

/-- the local acceleration, CpiV2.cpp:46-47, 92-96; `g` is `quat_2_Rot(q_k_lin) * grav`, `R0` and `R1` are `R_k2tau` and `R_k2tau1` -/
noncomputable def localAcc (k : Conf) (g : V3) (R0 R1 : M3) (x : Seg) : V3 :=
  if k.avg then (1 / 2 : ℝ) • (x.a0 - k.ba - R0.mulVec g + (x.a1 - k.ba - R1.mulVec g)) else x.a0 - k.ba - R0.mulVec g

/-- the Runge-Kutta step of `P_big`, its symmetrisation, and the move of the orientation to the new start, CpiV2.cpp:254-366; `R0`, `Rm`, `R1`: the orientation at the start, the middle and the end -/
noncomputable def covStep (k : Conf) (w a g : V3) (R0 Rm R1 : M3) (dt : ℝ) (P0 : M21) : M21 :=
  let p1 := Pdot2 k (Fk2 w a g R0 R0) (Gk2 R0) P0
  let p2 := Pdot2 k (Fk2 w a g R0 Rm) (Gk2 Rm) (P0 + (dt / 2) • p1)
  let p3 := Pdot2 k (Fk2 w a g R0 Rm) (Gk2 Rm) (P0 + (dt / 2) • p2)
  let p4 := Pdot2 k (Fk2 w a g R0 R1) (Gk2 R1) (P0 + dt • p3)
  let P := P0 + (dt / 6) • (p1 + (2 : ℝ) • p2 + (2 : ℝ) • p3 + p4)
  let P := (1 / 2 : ℝ) • (P + P.transpose)
  let P := Bk * P * Bk.transpose
  (1 / 2 : ℝ) • (P + P.transpose)

/-- the Runge-Kutta step of the transition, `Phi`, CpiV2.cpp:276-351 -/
noncomputable def phiStep (w a g : V3) (R0 Rm R1 : M3) (dt : ℝ) : M21 :=
  let f1 := Fk2 w a g R0 R0
  let f2 := Fk2 w a g R0 Rm * (1 + (dt / 2) • f1)
  let f3 := Fk2 w a g R0 Rm * (1 + (dt / 2) • f2)
  let f4 := Fk2 w a g R0 R1 * (1 + dt • f3)
  1 + (dt / 6) • (f1 + (2 : ℝ) • f2 + (2 : ℝ) • f3 + f4)

/-- `CpiV2::feed_IMU`, CpiV2.cpp:33-387. The sign of the last term of the first column of `J_b` (CpiV2.cpp:236-238, `- -H_be`) is as in the code. -/
noncomputable def feed2 (k : Conf2) (s : Res2) (x : Seg) : Res2 :=
  let dt := x.t1 - x.t0
  if dt = 0 then { s with DT := s.DT + dt }
  else
    let g := (quat2Rot k.qk).mulVec k.grav
    let w := corrected k.toConf k.bw x.w0 x.w1
    let Rs := relRot w dt
    let R1 := Rs * s.R
    let Rt := R1.transpose
    let a := localAcc k.toConf g s.R R1 x
    let F := fs (norm3 w) dt
    let D := dfs (norm3 w) dt
    let Hal := Rt * alphaArg w dt
    let Hbe := Rt * betaArg w dt
    let Jq := Rs * s.Jq + dt • jr w dt
    let dR := fun i : Fin 3 => -Rt * skew (Jq.mulVec (ei i))
    let gt := s.R.mulVec g
    let Rm := relRot w (dt / 2) * s.R
    let P := covStep k.toConf w a g s.R Rm R1 dt s.Pbig
    let Disc := Bk * phiStep w a g s.R Rm R1 dt * s.Disc
    { DT := s.DT + dt
      alpha := s.alpha + (dt • s.beta + Hal.mulVec a)
      beta := s.beta + Hbe.mulVec a
      q := some (rot2quat R1)
      R := R1
      Jq := if k.trans then -getB Disc 0 3 (by omega) (by omega) else Jq
      Ja := if k.trans then getB Disc 12 3 (by omega) (by omega) else fun r c =>
        s.Ja r c + dt * s.Jb r c + (biasCol Rt (dR c) (alphaArg w dt) w a F.f1 F.f2 D.f1 D.f2 c r - (Hal * skew (s.Jq.mulVec (ei c))).mulVec gt r)
      Jb := if k.trans then getB Disc 6 3 (by omega) (by omega) else fun r c =>
        s.Jb r c + (biasCol Rt (dR c) (betaArg w dt) w a F.f3 F.f4 D.f3 D.f4 c r - (if c = 0 then -((Hbe * skew (s.Jq.mulVec (ei c))).mulVec gt r) else (Hbe * skew (s.Jq.mulVec (ei c))).mulVec gt r))
      Ha := if k.trans then getB Disc 12 9 (by omega) (by omega) else s.Ha - Hal + dt • s.Hb
      Hb := if k.trans then getB Disc 6 9 (by omega) (by omega) else s.Hb - Hbe
      Oa := if k.trans then getB Disc 12 18 (by omega) (by omega) else s.Oa + dt • s.Ob + -Hal * s.R * skew g
      Ob := if k.trans then getB Disc 6 18 (by omega) (by omega) else s.Ob + -Hbe * s.R * skew g
      P := fun i j => P ⟨i.1, by omega⟩ ⟨j.1, by omega⟩
      Pbig := P
      Disc := Disc }

/-- a sequence of intervals after construction -/
noncomputable def run2 (k : Conf2) (xs : List Seg) : Res2 := xs.foldl (feed2 k) Res2.init

end Verif.Cpi
