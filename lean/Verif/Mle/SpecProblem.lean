import Verif.Mle.Problem

/-!
# Specification of the optimisation problem of the dynamic initialiser

What the problem should be, without arrays, pointers or indices: an estimate gives a state to every camera time, a calibration to every camera and a point
to every feature; its cost is a sum of named parts.
-/

open Classical

namespace Verif.Mle

open Verif Verif.Imu Verif.Feat

/-- an unknown of the problem. -/
inductive Var where
  | ori (t : ℝ) | pos (t : ℝ) | vel (t : ℝ) | bg (t : ℝ) | ba (t : ℝ)
  | extO (c : ℕ) | extP (c : ℕ) | intr (c : ℕ)
  | feat (f : ℕ)

/-- how many numbers an unknown has. -/
def Var.size : Var → ℕ
  | .ori _ => 4 | .extO _ => 4 | .intr _ => 8 | _ => 3

/-- is it an orientation? -/
def Var.isQuat : Var → Bool
  | .ori _ => true | .extO _ => true | _ => false

/-- an estimate of everything. -/
structure Est where
  nav : ℝ → Nav
  ext : ℕ → Quat × V3
  intr : ℕ → Cam.Intr
  feat : ℕ → V3

/-- the numbers of an unknown in an estimate. -/
def Est.enc (X : Est) : Var → List ℝ
  | .ori t => qL (X.nav t).q
  | .pos t => vL (X.nav t).p
  | .vel t => vL (X.nav t).v
  | .bg t => vL (X.nav t).bg
  | .ba t => vL (X.nav t).ba
  | .extO c => qL (X.ext c).1
  | .extP c => vL (X.ext c).2
  | .intr c => iL (X.intr c)
  | .feat f => vL (X.feat f)

namespace Spec

/-- the starting point: the linear initialisation, the configured calibration, the linear feature positions. -/
noncomputable def start (p : PIn) : Est :=
  ⟨p.nav, fun c => (p.ext c).getD (⟨0, 0, 0, 1⟩, 0), fun c => ((p.intr c).map Prod.snd).getD 0, fun f => (p.inG f).getD 0⟩

/-- a feature is used if it has enough measurements and a position. -/
def Used (p : PIn) (id : ℕ) : Prop := p.minNum ≤ p.num id ∧ (p.inG id).isSome

/-- an observation. -/
structure Obs where
  id : ℕ
  cam : ℕ
  t : ℝ
  uv : Cam.V2
  kind : Cam.Kind

/-- the observations of a feature in one camera, at camera times of the window. -/
noncomputable def camObs (p : PIn) (id cam : ℕ) (kind : Cam.Kind) (ts : List ℝ) (us : List Cam.V2) : List Obs :=
  ((ts.zip us).filter fun tu => decide (tu.1 ∈ p.times)).map fun tu => ⟨id, cam, tu.1, tu.2, kind⟩

/-- the observations of a feature. -/
noncomputable def featObs (p : PIn) (id : ℕ) (f : Feature ℝ Cam.V2) : List Obs :=
  f.times.flatMap fun ct => match p.intr ct.1 with
    | none => []
    | some k => camObs p id ct.1 k.1 ct.2 (f.uvs.getL ct.1)

/-- all observations of the used features at camera times of the window. -/
noncomputable def obs (p : PIn) : List Obs := p.feats.flatMap fun e => if Used p e.1 then featObs p e.1 e.2 else []

/-- the features that have an observation. -/
noncomputable def ids (p : PIn) : List ℕ := p.feats.keys.filter fun id => decide (∃ o ∈ obs p, o.id = id)

/-- the unknowns. -/
noncomputable def vars (p : PIn) : List Var :=
  (p.times.flatMap fun t => [.ori t, .pos t, .vel t, .bg t, .ba t]) ++ (p.cams.flatMap fun c => [.extO c, .extP c, .intr c]) ++ (ids p).map .feat

/-- the calibration unknowns. -/
def calib (p : PIn) : List Var := p.cams.flatMap fun c => [.extO c, .extP c, .intr c]

/-- squared norm. -/
def nsq {n : ℕ} (v : Fin n → ℝ) : ℝ := ∑ i, v i ^ 2

/-- rotation vector from one orientation to another. -/
noncomputable def rotErr (q q0 : Quat) : V3 := logSO3 ((quat2Rot q).transpose * quat2Rot q0)

/-- the prior on the first state: yaw (the rotation about the vertical) and position known to 1e-5, gyroscope bias to 0.05, accelerometer bias to 0.1. -/
noncomputable def firstCost (x x0 : Nav) : ℝ :=
  rotErr x.q x0.q 2 ^ 2 / 1e-5 ^ 2 + nsq (x.p - x0.p) / 1e-5 ^ 2 + nsq (x.bg - x0.bg) / 0.05 ^ 2 + nsq (x.ba - x0.ba) / 0.1 ^ 2

/-- the prior on the extrinsics: 0.001 radians and one centimetre. -/
noncomputable def extCost (x x0 : Quat × V3) : ℝ := nsq (rotErr x.1 x0.1) / 0.001 ^ 2 + nsq (x.2 - x0.2) / 0.01 ^ 2

/-- the prior on the intrinsics: one pixel for the focal lengths and the centre, 0.005 for the distortion. -/
noncomputable def intrCost (x x0 : Cam.Intr) : ℝ :=
  ((x 0 - x0 0) ^ 2 + (x 1 - x0 1) ^ 2 + (x 2 - x0 2) ^ 2 + (x 3 - x0 3) ^ 2) / 1 ^ 2 +
    ((x 4 - x0 4) ^ 2 + (x 5 - x0 5) ^ 2 + (x 6 - x0 6) ^ 2 + (x 7 - x0 7) ^ 2) / 0.005 ^ 2

/-- the preintegration between two consecutive camera times. -/
noncomputable def imuCost (k : PConf) (c : Cpi.Res) (x y : Nav) : ℝ := ∑ i, imuRes (imuFac k.cpi k.gmag k.W c) x y i ^ 2

/-- a reprojection error, through the robust loss `log (1 + s)`. -/
noncomputable def obsCost (k : PConf) (X : Est) (o : Obs) : ℝ :=
  Real.log (1 + nsq (imgRes ⟨o.uv, k.sigma, 1, o.kind⟩
    ⟨(X.nav o.t).q, (X.nav o.t).p, X.feat o.id, (X.ext o.cam).1, (X.ext o.cam).2, X.intr o.cam⟩))

/-- the cost of an estimate. -/
noncomputable def cost (k : PConf) (p : PIn) (X : Est) : ℝ :=
  1 / 2 * (((p.times.take 1).map fun t => firstCost (X.nav t) (p.nav t)).sum +
    ((p.times.zip p.times.tail).map fun st => match p.cpi st.2 with
      | some c => imuCost k c (X.nav st.1) (X.nav st.2)
      | none => 0).sum +
    (p.cams.map fun c => extCost (X.ext c) ((start p).ext c) + intrCost (X.intr c) ((start p).intr c)).sum +
    ((obs p).map (obsCost k X)).sum)

end Spec

/-- what is needed of the inputs: camera times are distinct and none is the sentinel `-1`; the first one has no preintegration; the cameras and features are
distinct; chosen cameras and the cameras of used features have a calibration; the pixels of a feature match its times; an observation of a used feature
at a camera time of the window is in a chosen camera. -/
structure PIn.Ok (p : PIn) : Prop where
  times : p.times.Nodup
  sentinel : (-1 : ℝ) ∉ p.times
  first : ∀ t l, p.times = t :: l → p.cpi t = none
  cams : p.cams.Nodup
  calib : ∀ c ∈ p.cams, (p.ext c).isSome ∧ (p.intr c).isSome
  feats : p.feats.keys.Nodup
  obs : ∀ e ∈ p.feats, Spec.Used p e.1 → ∀ ct ∈ e.2.times,
    (p.intr ct.1).isSome ∧ (∃ us, e.2.uvs.get? ct.1 = some us ∧ us.length = ct.2.length) ∧ ∀ t ∈ ct.2, t ∈ p.times → ct.1 ∈ p.cams

end Verif.Mle
