import Verif.Prop.Model
import Verif.Upd.Model
import Verif.Disp.Model

/-!
# Model of the zero velocity update

Source: `ov_msckf/src/update/UpdaterZeroVelocity.cpp`.  The local constants `integrated_accel_constraint = false`, `model_time_varying_bias = true`,
`override_with_disparity_check = true`, `explicitly_enforce_zero_motion = false` (lines 113-116) are compiled in: only the branches they select are modelled.
-/

open Classical

namespace Verif.Vio

open Verif Verif.Types Verif.St Verif.Imu Verif.Prop_ Verif.Feat Verif.Disp Finset

/-- options of the updater, UpdaterZeroVelocity.cpp:42-56: noises and gravity, `_zupt_noise_multiplier`, `_zupt_max_velocity`, `_zupt_max_disparity`, `_options.chi2_multipler`,
and `state->_options.do_fej`. -/
structure ZCfg where
  noise : Noise
  mult : ℝ
  maxVel : ℝ
  maxDisp : ℝ
  chiMult : ℝ
  fej : Bool

/-- members remembered between calls: `last_zupt_state_timestamp`, `last_zupt_count`, `last_prop_time_offset` (`none` before the first call). -/
structure ZMem where
  last : ℝ
  count : ℕ
  off : Option ℝ

/-- `a_hat`, UpdaterZeroVelocity.cpp:148 -/
noncomputable def aHat (kalibr : Bool) (c : Cal) (x : Imu16) (d : Reading) : V3 := (quat2Rot c.qa * Dm kalibr c.da).mulVec (d.am - x.ba)

/-- `w_hat`, UpdaterZeroVelocity.cpp:149 -/
noncomputable def wHat (kalibr : Bool) (c : Cal) (x : Imu16) (d : Reading) : V3 :=
  (quat2Rot c.qw * Dm kalibr c.dw).mulVec (d.wm - x.bg - (Tm c.tg).mulVec (aHat kalibr c x d))

/-- the weights `w_omega`, `w_accel`, UpdaterZeroVelocity.cpp:155-156 -/
noncomputable def wOmega (N : Noise) (dt : ℝ) : ℝ := Real.sqrt dt / N.sw
noncomputable def wAccel (N : Noise) (dt : ℝ) : ℝ := Real.sqrt dt / N.sa

/-- the six residual rows of one interval, UpdaterZeroVelocity.cpp:160-162 -/
noncomputable def zRes6 (kalibr : Bool) (N : Noise) (c : Cal) (x : Imu16) (d : Reading) (dt : ℝ) : Vect := fun k =>
  if h : k < 3 then -(wOmega N dt * wHat kalibr c x d ⟨k, h⟩)
  else if h : k - 3 < 3 then -(wAccel N dt * (aHat kalibr c x d - (quat2Rot x.q).mulVec N.grav) ⟨k - 3, h⟩)
  else 0

/-- the six Jacobian rows of one interval, columns `q, bg, ba`, UpdaterZeroVelocity.cpp:168-172; `Rj` is `R_GtoI_jacob`. -/
noncomputable def zH6 (N : Noise) (Rj : M3) (dt : ℝ) : Mat :=
  assemble [blk 0 3 (-(wOmega N dt) • (1 : M3)), blk 3 0 (-(wAccel N dt) • skew (Rj.mulVec N.grav)), blk 3 6 (-(wAccel N dt) • (1 : M3))]

/-- the stacked residual, UpdaterZeroVelocity.cpp:144-180: row `6 i + k` is row `k` of interval `i`. -/
noncomputable def zRes (kalibr : Bool) (N : Noise) (c : Cal) (x : Imu16) (data : List Reading) : Vect := fun r =>
  match (data.zip data.tail)[r / 6]? with
  | some (d0, d1) => zRes6 kalibr N c x d0 (d1.t - d0.t) (r % 6)
  | none => 0

/-- the stacked Jacobian, UpdaterZeroVelocity.cpp:144-180 -/
noncomputable def zH (N : Noise) (Rj : M3) (data : List Reading) : Mat := fun r col =>
  match (data.zip data.tail)[r / 6]? with
  | some (d0, d1) => zH6 N Rj (d1.t - d0.t) (r % 6) col
  | none => 0

/-- `Q_bias`, UpdaterZeroVelocity.cpp:194-196 -/
noncomputable def qBias (N : Noise) (dt : ℝ) : Mat := fun i j => if i = j then (if i < 3 then dt * N.swb ^ 2 else dt * N.sab ^ 2) else 0

/-- `Hx_order`, UpdaterZeroVelocity.cpp:119-122, and `Phi_order`, 272-274 -/
def zOrder : List Ref := [(imuUid, .q), (imuUid, .bg), (imuUid, .ba)]
def biasOrder : List Ref := [(imuUid, .bg), (imuUid, .ba)]

/-- `P_marg.block(3,3,6,6) += Q_bias`, UpdaterZeroVelocity.cpp:202-204 -/
def addBias (P Q : Mat) : Mat := fun i j => if 3 ≤ i ∧ i < 9 ∧ 3 ≤ j ∧ j < 9 then P i j + Q (i - 3) (j - 3) else P i j

/-- `R`, UpdaterZeroVelocity.cpp:190 -/
def zR (mult : ℝ) : Mat := fun i j => mult * Mat.one i j

/-- the whitened, compressed system: rows, `H`, `res`; UpdaterZeroVelocity.cpp:128-186 -/
noncomputable def zSystem (s : State) (Z : ZCfg) (c : Cal) (x f : Imu16) (data : List Reading) : ℕ × Mat × Vect :=
  Upd.compress (6 * (data.length - 1)) 9 (zH Z.noise (if Z.fej then quat2Rot f.q else quat2Rot x.q) data) (zRes s.opts.kalibr Z.noise c x data)

/-- `chi2`, UpdaterZeroVelocity.cpp:201-206 -/
noncomputable def zChi2 (lib : Lib) (Z : ZCfg) (Pm : Mat) (dt : ℝ) (sys : ℕ × Mat × Vect) : ℝ :=
  let S : Mat := fun i j => Mat.mul 9 (Mat.mul 9 sys.2.1 (addBias Pm (qBias Z.noise dt))) (Mat.tr sys.2.1) i j + zR Z.mult i j
  ∑ i ∈ range sys.1, sys.2.2 i * lib.lltSolve sys.1 S sys.2.2 i

/-- `disparity_passed`, UpdaterZeroVelocity.cpp:219-236; a NaN average compares false. -/
def zDisp (Z : ZCfg) (st : Stats) : Prop := (∃ m, st.mean = some m ∧ m < Z.maxDisp) ∧ 20 < st.total

/-- `UpdaterZeroVelocity::try_update`, UpdaterZeroVelocity.cpp:64-330: returned flag, members, state, feature database.
The two table branches for `chi2_check` (209-216) give the same quantile. -/
noncomputable def tryUpdate (lib : Lib) (Z : ZCfg) (mem : ZMem) (buf : List Reading) (db : DB ℝ Uv) (s : State) (t : ℝ) :
    Option (Bool × ZMem × State × DB ℝ Uv) :=
  if buf = [] then some (false, { mem with last := 0 }, s, db)
  else if s.ts = t then some (false, { mem with last := 0 }, s, db)
  else do
    let c ← calOf s
    let off ← tOff s
    let (x, f) ← imuOf s
    let data := select buf (s.ts + mem.off.getD off) (t + off)
    if data.length < 2 then some (false, { mem with last := 0, off := some off }, s, db)
    else
      let sys := zSystem s Z c x f data
      if sys.1 < 1 then some (false, { mem with off := some off }, s, db)
      else do
        let Pm ← getMarginal s zOrder
        let chi2 := zChi2 lib Z Pm.a (dtSum data) sys
        let st ← computeDisparity db s.ts t
        if ¬ zDisp Z st ∧ (Z.chiMult * lib.chi2 sys.1 < chi2 ∨ Z.maxVel < norm3 x.v) then
          some (false, ⟨0, 0, some off⟩, s, db)
        else do
          let db' ← if 2 ≤ mem.count then cleanupMeasurementsExact db mem.last else some db
          let s1 ← propagate s biasOrder biasOrder ⟨6, 6, Mat.one⟩ ⟨6, 6, qBias Z.noise (dtSum data)⟩
          let s2 ← update lib s1 zOrder ⟨sys.1, 9, sys.2.1⟩ ⟨sys.1, sys.2.2⟩ ⟨sys.1, sys.1, zR Z.mult⟩
          some (true, ⟨t, mem.count + 1, some off⟩, { s2 with ts := t }, db')

end Verif.Vio
