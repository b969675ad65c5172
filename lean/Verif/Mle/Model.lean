import Verif.Cpi.Model
import Verif.Cam.Model
import Verif.Land.Model
import Mathlib.LinearAlgebra.Matrix.NonsingularInverse

/-!
# Model of the optimisation factors of the dynamic initialiser, `ov_init/src/ceres/`

`State_JPLQuatLocal` (the orientation manifold), `Factor_ImageReprojCalib`, `Factor_ImuCPIv1`, `Factor_GenericPrior`. Ceres itself (the solver and its
covariance) is not modelled: the model gives, for every factor, the residual and the Jacobians it hands to Ceres. Real arithmetic.

Ceres multiplies each 4-column orientation Jacobian by the 4×3 Jacobian of the manifold, which is `[I; 0]` (State_JPLQuatLocal.cpp:52-57, 91-96), so what it
uses is the first three columns; the fourth is set to zero in every factor. The model keeps the first three columns only.
-/

open Classical

namespace Verif.Mle

open Verif

/-! ## State_JPLQuatLocal -/

/-- `State_JPLQuatLocal::Plus`, State_JPLQuatLocal.cpp:28-49. -/
noncomputable def plus (q : Quat) (d : V3) : Quat :=
  let θ := norm3 d
  let dq : Quat := if θ < 1e-8 then ⟨0.5 * d 0, 0.5 * d 1, 0.5 * d 2, 1⟩
    else ⟨d 0 / θ * Real.sin (θ / 2), d 1 / θ * Real.sin (θ / 2), d 2 / θ * Real.sin (θ / 2), Real.cos (θ / 2)⟩
  quatMul (quatnorm dq) q

/-- `State_JPLQuatLocal::Minus`, State_JPLQuatLocal.cpp:59-80. -/
noncomputable def minus (y x : Quat) : V3 :=
  let r := quatMul y (quatInv x)
  let n := norm3 r.vec
  if n < 1e-8 then 0 else (2 * Land.atan2 n r.w) • ((1 / n) • r.vec)

/-- `PlusJacobian` / `ComputeJacobian`, State_JPLQuatLocal.cpp:52-57 and 91-96. -/
def plusJ : Matrix (Fin 4) (Fin 3) ℝ := fun i j => if i.1 = j.1 then 1 else 0

/-- `MinusJacobian`, State_JPLQuatLocal.cpp:82-88. -/
def minusJ : Matrix (Fin 3) (Fin 4) ℝ := fun i j => if i.1 = j.1 then 1 else 0

/-! ## Factor_ImageReprojCalib -/

/-- the members, Factor_ImageReprojCalib.h:41-56: `uv_meas`, `pix_sigma`, `gate`, `is_fisheye`. -/
structure ImgF where
  uv : Cam.V2
  sigma : ℝ
  gate : ℝ
  kind : Cam.Kind

/-- the parameter blocks, Factor_ImageReprojCalib.cpp:38-43 and 49-58. -/
structure ImgX where
  qI : Quat
  pI : V3
  pF : V3
  qC : Quat
  pC : V3
  intr : Cam.Intr

/-- `p_FinIi`, Factor_ImageReprojCalib.cpp:61. -/
def ImgX.inI (x : ImgX) : V3 := (quat2Rot x.qI).mulVec (x.pF - x.pI)
/-- `p_FinCi`, Factor_ImageReprojCalib.cpp:62. -/
def ImgX.inC (x : ImgX) : V3 := (quat2Rot x.qC).mulVec x.inI + x.pC
/-- `uv_norm`, Factor_ImageReprojCalib.cpp:65-66. -/
noncomputable def ImgX.un (x : ImgX) : Cam.V2 := ![x.inC 0 / x.inC 2, x.inC 1 / x.inC 2]

/-- the diagonal of `sqrtQ_gate`, Factor_ImageReprojCalib.cpp:32-34 and 69. -/
noncomputable def ImgF.w (f : ImgF) : ℝ := f.gate * (1 / f.sigma)

/-- the residual, Factor_ImageReprojCalib.cpp:75-103. -/
noncomputable def imgRes (f : ImgF) (x : ImgX) : Cam.V2 := f.w • (Cam.distort f.kind x.intr x.un - f.uv)

/-- `H_dzn_dpfc`, Factor_ImageReprojCalib.cpp:109-110. -/
noncomputable def imgN (p : V3) : Matrix (Fin 2) (Fin 3) ℝ := !![1 / p 2, 0, -p 0 / p 2 ^ 2; 0, 1 / p 2, -p 1 / p 2 ^ 2]

/-- `H_dz_dpfc` with the weight, Factor_ImageReprojCalib.cpp:80-81, 89-90, 111. -/
noncomputable def imgH (f : ImgF) (x : ImgX) : Matrix (Fin 2) (Fin 3) ℝ := (f.w • Cam.distortN f.kind x.intr x.un) * imgN x.inC

/-- the six Jacobians, Factor_ImageReprojCalib.cpp:114-149. -/
structure ImgJ where
  qI : Matrix (Fin 2) (Fin 3) ℝ
  pI : Matrix (Fin 2) (Fin 3) ℝ
  pF : Matrix (Fin 2) (Fin 3) ℝ
  qC : Matrix (Fin 2) (Fin 3) ℝ
  pC : Matrix (Fin 2) (Fin 3) ℝ
  intr : Matrix (Fin 2) (Fin 8) ℝ

/-- see `ImgJ`. -/
noncomputable def imgJac (f : ImgF) (x : ImgX) : ImgJ :=
  let H := imgH f x
  ⟨H * quat2Rot x.qC * skew x.inI, -H * quat2Rot x.qC * quat2Rot x.qI, H * quat2Rot x.qC * quat2Rot x.qI,
    H * skew ((quat2Rot x.qC).mulVec x.inI), H, f.w • Cam.distortZ f.kind x.intr x.un⟩

/-! ## Factor_ImuCPIv1 -/

/-- index of an entry of a stack of five 3-vectors: `(a, c)` is entry `3 a + c`. -/
abbrev I5 := Fin 5 × Fin 3
/-- index of a column of the 30 columns: `(b, c)` is column `3 b + c`. -/
abbrev I10 := Fin 10 × Fin 3

/-- the members, Factor_ImuCPIv1.cpp:33-48, 61. -/
structure ImuF where
  alpha : V3
  beta : V3
  qb : Quat
  dt : ℝ
  grav : V3
  baLin : V3
  bgLin : V3
  Jq : M3
  Ja : M3
  Jb : M3
  Ha : M3
  Hb : M3
  sqrtI : Matrix I5 I5 ℝ

/-- one state of the window: `q, bg, v, ba, p`, Factor_ImuCPIv1.cpp:65-74, 87-105. -/
structure Nav where
  q : Quat
  bg : V3
  v : V3
  ba : V3
  p : V3

/-- five 3-vectors stacked, Factor_ImuCPIv1.cpp:130-135. -/
def stack5 (a b c d e : V3) : I5 → ℝ := fun i =>
  match i.1 with
  | 0 => a i.2
  | 1 => b i.2
  | 2 => c i.2
  | 3 => d i.2
  | 4 => e i.2

/-- `q_b`, Factor_ImuCPIv1.cpp:108-116. -/
noncomputable def ImuF.qBias (f : ImuF) (x : Nav) : Quat :=
  let h := f.Jq.mulVec (x.bg - f.bgLin)
  let q : Quat := ⟨0.5 * h 0, 0.5 * h 1, 0.5 * h 2, 1⟩
  q.divS q.norm

/-- `q_1_to_2`, `q_res_minus`, `q_res_plus`, Factor_ImuCPIv1.cpp:119-123. -/
noncomputable def q12 (x y : Nav) : Quat := quatMul y.q (quatInv x.q)
/-- see `q12`. -/
noncomputable def ImuF.qMinus (f : ImuF) (x y : Nav) : Quat := quatMul (q12 x y) (quatInv f.qb)
/-- see `q12`. -/
noncomputable def ImuF.qPlus (f : ImuF) (x y : Nav) : Quat := quatMul (f.qMinus x y) (f.qBias x)
/-- `q_meas_plus`, Factor_ImuCPIv1.cpp:155. -/
noncomputable def ImuF.qMeas (f : ImuF) (x : Nav) : Quat := quatMul (quatInv f.qb) (f.qBias x)

/-- the vector rotated in the velocity residual, Factor_ImuCPIv1.cpp:133. -/
def ImuF.dv (f : ImuF) (x y : Nav) : V3 := y.v - x.v + f.dt • f.grav
/-- the vector rotated in the position residual, Factor_ImuCPIv1.cpp:135. -/
noncomputable def ImuF.dp (f : ImuF) (x y : Nav) : V3 := y.p - x.p - f.dt • x.v + (0.5 * f.dt ^ 2) • f.grav

/-- the residual before weighting, Factor_ImuCPIv1.cpp:130-135. -/
noncomputable def imuErr (f : ImuF) (x y : Nav) : I5 → ℝ :=
  stack5 ((2 : ℝ) • (f.qPlus x y).vec) (y.bg - x.bg)
    ((quat2Rot x.q).mulVec (f.dv x y) - f.Jb.mulVec (x.bg - f.bgLin) - f.Hb.mulVec (x.ba - f.baLin) - f.beta)
    (y.ba - x.ba)
    ((quat2Rot x.q).mulVec (f.dp x y) - f.Ja.mulVec (x.bg - f.bgLin) - f.Ha.mulVec (x.ba - f.baLin) - f.alpha)

/-- the residual, Factor_ImuCPIv1.cpp:136-141. -/
noncomputable def imuRes (f : ImuF) (x y : Nav) : I5 → ℝ := f.sqrtI.mulVec (imuErr f x y)

/-- the 3×3 blocks of the 15×30 `Jacobian` before weighting: block `(a, b)` is `Jacobian.block(3 a, 3 b, 3, 3)`, Factor_ImuCPIv1.cpp:151-204. -/
noncomputable def imuBlk (f : ImuF) (x y : Nav) : Fin 5 → Fin 10 → M3
  | 0, 0 => -(((q12 x y).w • (1 : M3) - skew (q12 x y).vec) * ((f.qMeas x).w • (1 : M3) + skew (f.qMeas x).vec) -
      outer (q12 x y).vec (f.qMeas x).vec)
  | 0, 5 => (f.qPlus x y).w • (1 : M3) + skew (f.qPlus x y).vec
  | 0, 1 => ((f.qMinus x y).w • (1 : M3) - skew (f.qMinus x y).vec) * f.Jq
  | 1, 1 => -1
  | 1, 6 => 1
  | 2, 0 => skew ((quat2Rot x.q).mulVec (f.dv x y))
  | 2, 2 => -quat2Rot x.q
  | 2, 7 => quat2Rot x.q
  | 2, 1 => -f.Jb
  | 2, 3 => -f.Hb
  | 3, 3 => -1
  | 3, 8 => 1
  | 4, 0 => skew ((quat2Rot x.q).mulVec (f.dp x y))
  | 4, 2 => -(f.dt • quat2Rot x.q)
  | 4, 4 => -quat2Rot x.q
  | 4, 9 => quat2Rot x.q
  | 4, 1 => -f.Ja
  | 4, 3 => -f.Ha
  | _, _ => 0

/-- `Jacobian` after weighting; its columns are handed out in the order of the parameter blocks (columns `3 b` to `3 b + 2` for parameter block `b`:
lines 211-261), Factor_ImuCPIv1.cpp:207-261. -/
noncomputable def imuJac (f : ImuF) (x y : Nav) : Matrix I5 I10 ℝ := f.sqrtI * (Matrix.of fun (i : I5) (j : I10) => imuBlk f x y i.1 j.1 i.2 j.2)

/-! ## Factor_GenericPrior -/

/-- `x_type`, Factor_GenericPrior.cpp:35-54. -/
inductive Ty where
  | quat | quatYaw | vec1 | vec3 | vec8
  deriving DecidableEq

/-- size in `x_lin`. -/
def Ty.g : Ty → ℕ
  | .quat => 4 | .quatYaw => 4 | .vec1 => 1 | .vec3 => 3 | .vec8 => 8
/-- size in the residual. -/
def Ty.l : Ty → ℕ
  | .quat => 3 | .quatYaw => 1 | .vec1 => 1 | .vec3 => 3 | .vec8 => 8
/-- number of columns used by Ceres. -/
def Ty.t : Ty → ℕ
  | .quat => 3 | .quatYaw => 3 | .vec1 => 1 | .vec3 => 3 | .vec8 => 8

/-- four consecutive numbers as a quaternion. -/
def q4 (v : ℕ → ℝ) (k : ℕ) : Quat := ⟨v k, v (k + 1), v (k + 2), v (k + 3)⟩

/-- `theta_err`, Factor_GenericPrior.cpp:104-107 and 120-123. -/
noncomputable def thErr (qi ql : Quat) : V3 := logSO3 ((quat2Rot qi).transpose * quat2Rot ql)

/-- the part of `res` of one variable (its parameter block `p`, its numbers in `x_lin` from `g` on), Factor_GenericPrior.cpp:103-160. -/
noncomputable def prErr (lin : ℕ → ℝ) (g : ℕ) (p : ℕ → ℝ) : Ty → ℕ → ℝ
  | .quat => fun k => if h : k < 3 then -(thErr (q4 p 0) (q4 lin g)) ⟨k, h⟩ else 0
  | .quatYaw => fun k => if k = 0 then -(thErr (q4 p 0) (q4 lin g)) 2 else 0
  | _ => fun k => p k - lin (g + k)

/-- `H_theta`, Factor_GenericPrior.cpp:112-113. -/
noncomputable def hTheta (qi ql : Quat) : M3 := -((JrSO3 (thErr qi ql))⁻¹ * (quat2Rot ql).transpose)

/-- the rows of one variable's own error in its Jacobian (before the multiplication by `sqrtI`), Factor_GenericPrior.cpp:109-158. -/
noncomputable def prH (lin : ℕ → ℝ) (g : ℕ) (p : ℕ → ℝ) : Ty → ℕ → ℕ → ℝ
  | .quat => fun i j => if h : i < 3 ∧ j < 3 then hTheta (q4 p 0) (q4 lin g) ⟨i, h.1⟩ ⟨j, h.2⟩ else 0
  | .quatYaw => fun i j => if h : i = 0 ∧ j < 3 then hTheta (q4 p 0) (q4 lin g) 2 ⟨j, h.2⟩ else 0
  | _ => fun i j => if i = j then 1 else 0

/-- the factor: `x_type`, `x_lin`, `sqrtI`, `b`. -/
structure PrF where
  ty : List Ty
  lin : ℕ → ℝ
  sqrtI : ℕ → ℕ → ℝ
  b : ℕ → ℝ

/-- `state_error_size`, Factor_GenericPrior.cpp:34-55. -/
def lSum (l : List Ty) : ℕ := (l.map Ty.l).sum

/-- `res` before the multiplication: the loop over the variables with `local_it` and `global_it`, Factor_GenericPrior.cpp:97-165. The parameter block
of variable number `i` is `ps i`. -/
noncomputable def prLoop (lin : ℕ → ℝ) : List Ty → ℕ → ℕ → (ℕ → ℕ → ℝ) → (ℕ → ℝ) → ℕ → ℝ
  | [], _, _, _, r => r
  | t :: l, loc, glo, ps, r => prLoop lin l (loc + t.l) (glo + t.g) (fun i => ps (i + 1))
      (fun k => if loc ≤ k ∧ k < loc + t.l then prErr lin glo (ps 0) t (k - loc) else r k)

/-- the residual, Factor_GenericPrior.cpp:169-175. -/
noncomputable def prRes (f : PrF) (ps : ℕ → ℕ → ℝ) : ℕ → ℝ := fun i =>
  ∑ k ∈ Finset.range (lSum f.ty), f.sqrtI i k * prLoop f.lin f.ty 0 0 ps (fun _ => 0) k + f.b i

/-- the Jacobian of variable number `i`: `sqrtI.block(0, local_it, n, l) * H`, Factor_GenericPrior.cpp:114, 130, 139, 148, 157. -/
noncomputable def prJac (f : PrF) (ps : ℕ → ℕ → ℝ) (i : ℕ) : ℕ → ℕ → ℝ := fun a c =>
  match f.ty[i]? with
  | none => 0
  | some t => ∑ k ∈ Finset.range t.l, f.sqrtI a (lSum (f.ty.take i) + k) *
      prH f.lin ((f.ty.take i).map Ty.g).sum (ps i) t k c

/-- the constructor's `sqrtI` and `b`, Factor_GenericPrior.cpp:65-68: `sqrtI = Lᵀ` for the Cholesky factor `L` of the information, and
`b = sqrtI⁻¹ · prior_grad`. The factor is any matrix with `L Lᵀ = prior_Info` (Eigen's `LLT` is not modelled). -/
def PrMade {n : ℕ} (info : Matrix (Fin n) (Fin n) ℝ) (grad : Fin n → ℝ) (s : Matrix (Fin n) (Fin n) ℝ) (b : Fin n → ℝ) : Prop :=
  (∀ i j, j < i → s i j = 0) ∧ (∀ i, 0 < s i i) ∧ s.transpose * s = info ∧ b = s⁻¹.mulVec grad

end Verif.Mle
