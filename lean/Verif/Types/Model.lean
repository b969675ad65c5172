import Verif.Quat.Props

/-!
# Model of the state-variable types, ov_core/src/types/{Type,Vec,JPLQuat,PoseJPL,IMU}.h

A `PoseJPL` stores its estimate twice (its own `_value` and the values of its sub-variables `_q`, `_p`), a
`JPLQuat` additionally caches the rotation matrix, and an `IMU` stores a pose object plus three vectors plus its
own 16-vector.  The redundancy is modelled, so that its consistency is something to be proved.
Shared-pointer identity is not modelled here (the sub-objects are owned by exactly one parent in the code).
-/

namespace Verif.Types

open Verif

/-- slice of a correction vector: `dx.block(k,0,3,1)`. -/
def sl (dx : ℕ → ℝ) (k : ℕ) : V3 := fun i => dx (k + i)

/-- `Vec` of dimension 3 (types/Vec.h:33-63 with types/Type.h:33-141). -/
structure Vec3O where
  id : ℤ
  val : V3
  fej : V3

/-- `Vec::Vec(3)`, Vec.h:43-46, id default -1 (Type.h:137). -/
def Vec3O.new : Vec3O := ⟨-1, 0, 0⟩
/-- `Type::set_local_id`, Type.h:53. -/
def Vec3O.setId (o : Vec3O) (n : ℤ) : Vec3O := { o with id := n }
/-- `Type::set_value`, Type.h:87-91. -/
def Vec3O.setValue (o : Vec3O) (x : V3) : Vec3O := { o with val := x }
/-- `Type::set_fej`, Type.h:97-101. -/
def Vec3O.setFej (o : Vec3O) (x : V3) : Vec3O := { o with fej := x }
/-- `Vec::update`, Vec.h:53-56. -/
def Vec3O.update (o : Vec3O) (dx : V3) : Vec3O := o.setValue (o.val + dx)

/-- `JPLQuat` (types/JPLQuat.h:94-193) with the cached matrices `_R`, `_Rfej`. -/
structure QuatO where
  id : ℤ
  val : Quat
  fej : Quat
  R : M3
  Rfej : M3

/-- `JPLQuat::set_value_internal`, JPLQuat.h:162-171. -/
def QuatO.setValue (o : QuatO) (q : Quat) : QuatO := { o with val := q, R := quat2Rot q }
/-- `JPLQuat::set_fej_internal`, JPLQuat.h:177-186. -/
def QuatO.setFej (o : QuatO) (q : Quat) : QuatO := { o with fej := q, Rfej := quat2Rot q }
/-- `JPLQuat::JPLQuat`, JPLQuat.h:97-102. (The uninitialised `_R` before the first set is irrelevant; zero here.) -/
def QuatO.new : QuatO :=
  ((⟨-1, ⟨0, 0, 0, 1⟩, ⟨0, 0, 0, 1⟩, 0, 0⟩ : QuatO).setValue ⟨0, 0, 0, 1⟩).setFej ⟨0, 0, 0, 1⟩
/-- `Type::set_local_id`. -/
def QuatO.setId (o : QuatO) (n : ℤ) : QuatO := { o with id := n }
/-- `JPLQuat::update`, JPLQuat.h:114-125. -/
noncomputable def QuatO.update (o : QuatO) (dx : V3) : QuatO := o.setValue (quatUpdate o.val dx)

/-- `PoseJPL` (types/PoseJPL.h:36-194): own 7-vectors plus the sub-variables `_q`, `_p`. -/
structure PoseO where
  id : ℤ
  val : Quat × V3
  fej : Quat × V3
  q : QuatO
  p : Vec3O

/-- `PoseJPL::set_value_internal`, PoseJPL.h:158-170. -/
def PoseO.setValue (o : PoseO) (x : Quat × V3) : PoseO :=
  { o with q := o.q.setValue x.1, p := o.p.setValue x.2, val := x }
/-- `PoseJPL::set_fej_internal`, PoseJPL.h:176-188. -/
def PoseO.setFej (o : PoseO) (x : Quat × V3) : PoseO :=
  { o with q := o.q.setFej x.1, p := o.p.setFej x.2, fej := x }
/-- `PoseJPL::PoseJPL`, PoseJPL.h:39-51. -/
def PoseO.new : PoseO :=
  ((⟨-1, (⟨0, 0, 0, 1⟩, 0), (⟨0, 0, 0, 1⟩, 0), QuatO.new, Vec3O.new⟩ : PoseO).setValue (⟨0, 0, 0, 1⟩, 0)).setFej
    (⟨0, 0, 0, 1⟩, 0)
/-- `PoseJPL::set_local_id`, PoseJPL.h:63-67. -/
def PoseO.setId (o : PoseO) (n : ℤ) : PoseO :=
  { o with id := n, q := o.q.setId n, p := o.p.setId (n + if n ≠ -1 then 3 else 0) }
/-- `PoseJPL::update`, PoseJPL.h:74-91: the orientation is read from the sub-variable (`quat()`), the position from
the pose's own `_value`. -/
noncomputable def PoseO.update (o : PoseO) (dx : ℕ → ℝ) : PoseO :=
  o.setValue (quatUpdate o.q.val (sl dx 0), o.val.2 + sl dx 3)
/-- `PoseJPL::clone`, PoseJPL.h:105-110. -/
def PoseO.clone (o : PoseO) : PoseO := (PoseO.new.setValue o.val).setFej o.fej

/-- The 16-vector value of an IMU: orientation, position, velocity, gyro bias, accel bias. -/
structure Imu16 where
  q : Quat
  p : V3
  v : V3
  bg : V3
  ba : V3

/-- `IMU` (types/IMU.h:36-245). -/
structure ImuO where
  id : ℤ
  val : Imu16
  fej : Imu16
  pose : PoseO
  v : Vec3O
  bg : Vec3O
  ba : Vec3O

/-- `IMU::set_value_internal`, IMU.h:207-220. -/
def ImuO.setValue (o : ImuO) (x : Imu16) : ImuO :=
  { o with pose := o.pose.setValue (x.q, x.p), v := o.v.setValue x.v, bg := o.bg.setValue x.bg,
           ba := o.ba.setValue x.ba, val := x }
/-- `IMU::set_fej_internal`, IMU.h:226-239. -/
def ImuO.setFej (o : ImuO) (x : Imu16) : ImuO :=
  { o with pose := o.pose.setFej (x.q, x.p), v := o.v.setFej x.v, bg := o.bg.setFej x.bg,
           ba := o.ba.setFej x.ba, fej := x }
/-- default value of `IMU::IMU`, IMU.h:48-50. -/
def imu0 : Imu16 := ⟨⟨0, 0, 0, 1⟩, 0, 0, 0, 0⟩
/-- `IMU::IMU`, IMU.h:39-53. -/
def ImuO.new : ImuO :=
  ((⟨-1, imu0, imu0, PoseO.new, Vec3O.new, Vec3O.new, Vec3O.new⟩ : ImuO).setValue imu0).setFej imu0
/-- `IMU::set_local_id`, IMU.h:64-70. -/
def ImuO.setId (o : ImuO) (n : ℤ) : ImuO :=
  let pose := o.pose.setId n
  let v := o.v.setId (pose.id + if n ≠ -1 then 6 else 0)
  let bg := o.bg.setId (v.id + if n ≠ -1 then 3 else 0)
  let ba := o.ba.setId (bg.id + if n ≠ -1 then 3 else 0)
  { o with id := n, pose := pose, v := v, bg := bg, ba := ba }
/-- `IMU::update`, IMU.h:78-96. -/
noncomputable def ImuO.update (o : ImuO) (dx : ℕ → ℝ) : ImuO :=
  o.setValue ⟨quatUpdate o.pose.q.val (sl dx 0), o.val.p + sl dx 3, o.val.v + sl dx 6, o.val.bg + sl dx 9,
    o.val.ba + sl dx 12⟩
/-- `IMU::clone`, IMU.h:110-115. -/
def ImuO.clone (o : ImuO) : ImuO := (ImuO.new.setValue o.val).setFej o.fej

/-! ## Flat values, used by the state model -/

/-- The estimate stored in a state variable, without the redundant copies (which `Props.lean` proves consistent):
a `Vec`/`Landmark` of size `n`, a `JPLQuat`, a `PoseJPL` or an `IMU`. -/
inductive Val where
  | vec (n : ℕ) (v : ℕ → ℝ)
  | quat (q : Quat)
  | pose (q : Quat) (p : V3)
  | imu (x : Imu16)

/-- `Type::size()`: error-state dimension (Vec.h:43, JPLQuat.h:97, PoseJPL.h:39, IMU.h:39). -/
def Val.size : Val → ℕ
  | .vec n _ => n
  | .quat _ => 3
  | .pose _ _ => 6
  | .imu _ => 15

/-- `Type::update(dx)` (Vec.h:53-56, Landmark.h:80-89, JPLQuat.h:114-125, PoseJPL.h:74-91, IMU.h:78-96). -/
noncomputable def Val.update : Val → (ℕ → ℝ) → Val
  | .vec n v, dx => .vec n (fun i => v i + dx i)
  | .quat q, dx => .quat (quatUpdate q (sl dx 0))
  | .pose q p, dx => .pose (quatUpdate q (sl dx 0)) (p + sl dx 3)
  | .imu x, dx => .imu ⟨quatUpdate x.q (sl dx 0), x.p + sl dx 3, x.v + sl dx 6, x.bg + sl dx 9, x.ba + sl dx 12⟩

/-- Handles to sub-variables (`IMU::pose/q/p/v/bg/ba`, `PoseJPL::q/p`). -/
inductive Sub where
  | self | pose | q | p | v | bg | ba
  deriving DecidableEq

/-- `check_if_subvariable` together with `set_local_id`: which part of a variable's value a handle denotes, at what
offset inside the variable (PoseJPL.h:63-67,112-119; IMU.h:64-70,117-130). `none` if the type has no such part. -/
def Val.part : Val → Sub → Option (ℕ × Val)
  | x, .self => some (0, x)
  | .imu x, .pose => some (0, .pose x.q x.p)
  | .imu x, .q => some (0, .quat x.q)
  | .imu x, .p => some (3, .vec 3 fun i => if h : i < 3 then x.p ⟨i, h⟩ else 0)
  | .imu x, .v => some (6, .vec 3 fun i => if h : i < 3 then x.v ⟨i, h⟩ else 0)
  | .imu x, .bg => some (9, .vec 3 fun i => if h : i < 3 then x.bg ⟨i, h⟩ else 0)
  | .imu x, .ba => some (12, .vec 3 fun i => if h : i < 3 then x.ba ⟨i, h⟩ else 0)
  | .pose q _, .q => some (0, .quat q)
  | .pose _ p, .p => some (3, .vec 3 fun i => if h : i < 3 then p ⟨i, h⟩ else 0)
  | _, _ => none

end Verif.Types
