import Verif.Quat.Model

/-! # Independent vocabulary for the rotation/quaternion properties -/

namespace Verif

open Matrix

/-- A rotation matrix: orthogonal with determinant one. -/
structure IsRot (R : M3) : Prop where
  orth : R.transpose * R = 1
  det : R.det = 1

/-- A unit quaternion. -/
def IsUnitQ (q : Quat) : Prop := q.x ^ 2 + q.y ^ 2 + q.z ^ 2 + q.w ^ 2 = 1

/-- The stored form of an orientation: unit with non-negative scalar part. -/
def CanonQ (q : Quat) : Prop := IsUnitQ q ∧ 0 ≤ q.w

/-- A rigid-body transform in homogeneous form. -/
structure IsSE3 (T : M4) : Prop where
  rot : IsRot (rotBlock T)
  row : ∀ j, T 3 j = if j = 3 then 1 else 0

end Verif
