import Mathlib.Analysis.SpecialFunctions.Trigonometric.Inverse
import Mathlib.Analysis.SpecialFunctions.Trigonometric.Deriv
import Mathlib.LinearAlgebra.Matrix.Determinant.Basic
import Mathlib.LinearAlgebra.Matrix.Notation

/-!
# Model of `ov_core/src/utils/quat_ops.h`

Doubles are modelled by real numbers (rounding is not modelled; see DESIGN.md §2).
A 3-vector is `Fin 3 → ℝ`, a 3×3 matrix is `Matrix (Fin 3) (Fin 3) ℝ`, a JPL quaternion
`(x,y,z,w)` with scalar part last is the structure `Quat`.
-/

namespace Verif

open Matrix

/-- `Eigen::Vector3d`. -/
abbrev V3 := Fin 3 → ℝ
/-- `Eigen::Matrix3d`. -/
abbrev M3 := Matrix (Fin 3) (Fin 3) ℝ
/-- `Eigen::Matrix4d`. -/
abbrev M4 := Matrix (Fin 4) (Fin 4) ℝ

/-- A JPL quaternion `[q1 q2 q3 q4]`, scalar part `w = q4` last (ov_core/src/types/JPLQuat.h:34-67). -/
@[ext] structure Quat where
  x : ℝ
  y : ℝ
  z : ℝ
  w : ℝ

namespace Quat

/-- squared Euclidean norm of the 4-vector. -/
def normSq (q : Quat) : ℝ := q.x ^ 2 + q.y ^ 2 + q.z ^ 2 + q.w ^ 2
/-- `q.norm()` of Eigen. -/
noncomputable def norm (q : Quat) : ℝ := Real.sqrt q.normSq
/-- `q * c` of Eigen. -/
def smul (c : ℝ) (q : Quat) : Quat := ⟨c * q.x, c * q.y, c * q.z, c * q.w⟩
/-- `-q` / `q *= -1`. -/
def neg (q : Quat) : Quat := ⟨-q.x, -q.y, -q.z, -q.w⟩
/-- `q / c` of Eigen (component-wise division). -/
noncomputable def divS (q : Quat) (c : ℝ) : Quat := ⟨q.x / c, q.y / c, q.z / c, q.w / c⟩
/-- `q.block(0,0,3,1)`. -/
def vec (q : Quat) : V3 := ![q.x, q.y, q.z]

end Quat

/-- Euclidean dot product of 3-vectors (`a.dot(b)`). -/
def dot3 (a b : V3) : ℝ := a 0 * b 0 + a 1 * b 1 + a 2 * b 2
/-- `w.norm()` of an Eigen 3-vector. -/
noncomputable def norm3 (w : V3) : ℝ := Real.sqrt (dot3 w w)

/-- `skew_x`, ov_core/src/utils/quat_ops.h:135-139. -/
def skew (w : V3) : M3 := !![0, -w 2, w 1; w 2, 0, -w 0; -w 1, w 0, 0]

/-- `vee`, quat_ops.h:205-209. -/
def vee (M : M3) : V3 := ![M 2 1, M 0 2, M 1 0]

/-- outer product `a * b.transpose()`. -/
def outer (a b : V3) : M3 := fun i j => a i * b j

/-- `quat_2_Rot`, quat_ops.h:152-157:
`(2 q4² - 1) I - 2 q4 ⌊q⌋ + 2 q qᵀ`. -/
def quat2Rot (q : Quat) : M3 :=
  (2 * q.w ^ 2 - 1) • (1 : M3) - (2 * q.w) • skew q.vec + (2 : ℝ) • outer q.vec q.vec

/-- The product `Qm * p` of `quat_multiply` before normalisation, quat_ops.h:181-188:
`Qm = [q4 I - ⌊q⌋, q ; -qᵀ, q4]`, written out row by row. -/
def quatMulRaw (q p : Quat) : Quat where
  x := q.w * p.x + q.z * p.y - q.y * p.z + q.x * p.w
  y := -q.z * p.x + q.w * p.y + q.x * p.z + q.y * p.w
  z := q.y * p.x - q.x * p.y + q.w * p.z + q.z * p.w
  w := -q.x * p.x - q.y * p.y - q.z * p.z + q.w * p.w

/-- `quatnorm`, quat_ops.h:496-501: flip so that `q4 ≥ 0`, then divide by the norm. -/
noncomputable def quatnorm (q : Quat) : Quat :=
  let q' := if q.w < 0 then q.neg else q
  q'.divS q'.norm

/-- `quat_multiply`, quat_ops.h:180-195 (the tail of the function is the same code as `quatnorm`). -/
noncomputable def quatMul (q p : Quat) : Quat :=
  let qt := quatMulRaw q p
  let qt' := if qt.w < 0 then qt.neg else qt
  qt'.divS qt'.norm

/-- `Inv` (quaternion inverse), quat_ops.h:457-462. -/
def quatInv (q : Quat) : Quat := ⟨-q.x, -q.y, -q.z, q.w⟩

/-- `Omega`, quat_ops.h:482-489, applied to a quaternion: `Omega(w) * q`
(matrix `[-⌊w⌋, w; -wᵀ, 0]` written out row by row). -/
def omegaMul (w : V3) (q : Quat) : Quat where
  x := w 2 * q.y - w 1 * q.z + w 0 * q.w
  y := -w 2 * q.x + w 0 * q.z + w 1 * q.w
  z := w 1 * q.x - w 0 * q.y + w 2 * q.w
  w := -w 0 * q.x - w 1 * q.y - w 2 * q.z

/-- Trace as `rot.trace()`. -/
def tr3 (R : M3) : ℝ := R 0 0 + R 1 1 + R 2 2

/-- The four-branch body of `rot_2_quat` before the sign flip, quat_ops.h:89-112. -/
noncomputable def rot2quatRaw (R : M3) : Quat :=
  let T := tr3 R
  if R 0 0 ≥ T ∧ R 0 0 ≥ R 1 1 ∧ R 0 0 ≥ R 2 2 then
    let x := Real.sqrt ((1 + 2 * R 0 0 - T) / 4)
    ⟨x, (1 / (4 * x)) * (R 0 1 + R 1 0), (1 / (4 * x)) * (R 0 2 + R 2 0), (1 / (4 * x)) * (R 1 2 - R 2 1)⟩
  else if R 1 1 ≥ T ∧ R 1 1 ≥ R 0 0 ∧ R 1 1 ≥ R 2 2 then
    let y := Real.sqrt ((1 + 2 * R 1 1 - T) / 4)
    ⟨(1 / (4 * y)) * (R 0 1 + R 1 0), y, (1 / (4 * y)) * (R 1 2 + R 2 1), (1 / (4 * y)) * (R 2 0 - R 0 2)⟩
  else if R 2 2 ≥ T ∧ R 2 2 ≥ R 0 0 ∧ R 2 2 ≥ R 1 1 then
    let z := Real.sqrt ((1 + 2 * R 2 2 - T) / 4)
    ⟨(1 / (4 * z)) * (R 0 2 + R 2 0), (1 / (4 * z)) * (R 1 2 + R 2 1), z, (1 / (4 * z)) * (R 0 1 - R 1 0)⟩
  else
    let w := Real.sqrt ((1 + T) / 4)
    ⟨(1 / (4 * w)) * (R 1 2 - R 2 1), (1 / (4 * w)) * (R 2 0 - R 0 2), (1 / (4 * w)) * (R 0 1 - R 1 0), w⟩

/-- `rot_2_quat`, quat_ops.h:88-119. -/
noncomputable def rot2quat (R : M3) : Quat :=
  let q := rot2quatRaw R
  let q' := if q.w < 0 then q.neg else q
  q'.divS q'.norm

/-- Coefficients `A`, `B` of `exp_so3`, quat_ops.h:235-243. -/
noncomputable def expA (θ : ℝ) : ℝ := if θ < 1e-7 then 1 else Real.sin θ / θ
/-- see `expA`. -/
noncomputable def expB (θ : ℝ) : ℝ := if θ < 1e-7 then 0.5 else (1 - Real.cos θ) / (θ * θ)
/-- Coefficient `C` of `exp_se3`, quat_ops.h:342-351. -/
noncomputable def expC (θ : ℝ) : ℝ := if θ < 1e-7 then 1.0 / 6.0 else (1 - expA θ) / (θ * θ)

/-- `exp_so3`, quat_ops.h:231-252. -/
noncomputable def expSO3 (w : V3) : M3 :=
  let θ := norm3 w
  if θ = 0 then 1 else 1 + expA θ • skew w + expB θ • (skew w * skew w)

/-- `log_so3`, quat_ops.h:273-310. -/
noncomputable def logSO3 (R : M3) : V3 :=
  let tr := tr3 R
  if tr + 1 < 1e-10 then
    if |R 2 2 + 1| > 1e-5 then
      (Real.pi / Real.sqrt (2 + 2 * R 2 2)) • ![R 0 2, R 1 2, 1 + R 2 2]
    else if |R 1 1 + 1| > 1e-5 then
      (Real.pi / Real.sqrt (2 + 2 * R 1 1)) • ![R 0 1, 1 + R 1 1, R 2 1]
    else
      (Real.pi / Real.sqrt (2 + 2 * R 0 0)) • ![1 + R 0 0, R 1 0, R 2 0]
  else
    let tr3 := tr - 3
    let magnitude :=
      if tr3 < -1e-7 then
        let θ := Real.arccos ((tr - 1) / 2)
        θ / (2 * Real.sin θ)
      else 0.5 - tr3 / 12
    magnitude • ![R 2 1 - R 1 2, R 0 2 - R 2 0, R 1 0 - R 0 1]

/-- A homogeneous 4×4 matrix `[A, t; 0 0 0 b]`, as it is assembled block by block. -/
def mkSE3 (A : M3) (t : V3) (b : ℝ) : M4 :=
  !![A 0 0, A 0 1, A 0 2, t 0; A 1 0, A 1 1, A 1 2, t 1; A 2 0, A 2 1, A 2 2, t 2; 0, 0, 0, b]

/-- `T.block(0,0,3,3)`. -/
def rotBlock (T : M4) : M3 := !![T 0 0, T 0 1, T 0 2; T 1 0, T 1 1, T 1 2; T 2 0, T 2 1, T 2 2]
/-- `T.block(0,3,3,1)`. -/
def posBlock (T : M4) : V3 := ![T 0 3, T 1 3, T 2 3]

/-- `exp_se3`, quat_ops.h:332-363, with `vec = [w; u]`. -/
noncomputable def expSE3 (w u : V3) : M4 :=
  let θ := norm3 w
  let V : M3 := 1 + expB θ • skew w + expC θ • (skew w * skew w)
  mkSE3 (1 + expA θ • skew w + expB θ • (skew w * skew w)) (V.mulVec u) 1

/-- `log_se3`, quat_ops.h:388-407; returns the pair `(w, u)`. -/
noncomputable def logSE3 (T : M4) : V3 × V3 :=
  let w := logSO3 (rotBlock T)
  let t := norm3 w
  let p := posBlock T
  if t < 1e-10 then (w, p)
  else
    let W := skew ((1 / t) • w)
    let Tan := Real.tan (0.5 * t)
    let WT := W.mulVec p
    (w, p - (0.5 * t) • WT + (1 - t / (2 * Tan)) • W.mulVec WT)

/-- `hat_se3`, quat_ops.h:419-424. -/
def hatSE3 (w u : V3) : M4 := mkSE3 (skew w) u 0

/-- `Inv_se3`, quat_ops.h:439-444. -/
def invSE3 (T : M4) : M4 :=
  let Rt := (rotBlock T).transpose
  mkSE3 Rt (-(Rt.mulVec (posBlock T))) 1

/-- `Jl_so3`, quat_ops.h:515-525. -/
noncomputable def JlSO3 (w : V3) : M3 :=
  let θ := norm3 w
  if θ < 1e-6 then 1
  else
    let a : V3 := (1 / θ) • w
    (Real.sin θ / θ) • (1 : M3) + (1 - Real.sin θ / θ) • outer a a + ((1 - Real.cos θ) / θ) • skew a

/-- `Jr_so3`, quat_ops.h:537. -/
noncomputable def JrSO3 (w : V3) : M3 := JlSO3 (-w)

/-- `rot_x`, quat_ops.h:577-583. -/
noncomputable def rotX (t : ℝ) : M3 := !![1, 0, 0; 0, Real.cos t, -Real.sin t; 0, Real.sin t, Real.cos t]
/-- `rot_y`, quat_ops.h:600-606. -/
noncomputable def rotY (t : ℝ) : M3 := !![Real.cos t, 0, Real.sin t; 0, 1, 0; -Real.sin t, 0, Real.cos t]
/-- `rot_z`, quat_ops.h:623-629. -/
noncomputable def rotZ (t : ℝ) : M3 := !![Real.cos t, -Real.sin t, 0; Real.sin t, Real.cos t, 0; 0, 0, 1]

/-- Orientation part of `PoseJPL::update` / `JPLQuat::update` / `IMU::update`
(JPLQuat.h:114-125, PoseJPL.h:74-91, IMU.h:78-96):
`q ← quat_multiply(quatnorm([½ δθ; 1]), q)`. -/
noncomputable def quatUpdate (q : Quat) (dθ : V3) : Quat :=
  quatMul (quatnorm ⟨0.5 * dθ 0, 0.5 * dθ 1, 0.5 * dθ 2, 1⟩) q

end Verif
