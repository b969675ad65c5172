import Verif.Types.Model

/-!
# C26, C71: state variables on the manifold
-/

namespace Verif.Types

open Verif Matrix

/-! ## Specification: consistency of the redundant copies -/

/-- A quaternion object whose estimate is a stored orientation and whose cached matrix is its rotation. -/
structure QuatOk (o : QuatO) : Prop where
  canon : CanonQ o.val
  cached : o.R = quat2Rot o.val
  cachedFej : o.Rfej = quat2Rot o.fej

/-- A pose object whose sub-variables hold the same numbers as the pose itself. -/
structure PoseOk (o : PoseO) : Prop where
  q : QuatOk o.q
  valq : o.q.val = o.val.1
  valp : o.p.val = o.val.2
  fejq : o.q.fej = o.fej.1
  fejp : o.p.fej = o.fej.2

/-- An IMU object all of whose copies agree. -/
structure ImuOk (o : ImuO) : Prop where
  pose : PoseOk o.pose
  vq : o.pose.val = (o.val.q, o.val.p)
  vv : o.v.val = o.val.v
  vbg : o.bg.val = o.val.bg
  vba : o.ba.val = o.val.ba
  fq : o.pose.fej = (o.fej.q, o.fej.p)
  fv : o.v.fej = o.fej.v
  fbg : o.bg.fej = o.fej.bg
  fba : o.ba.fej = o.fej.ba

/-- Rotation of the perturbing quaternion of one correction. -/
noncomputable def perturbRot (dθ : V3) : M3 := quat2Rot (quatnorm ⟨0.5 * dθ 0, 0.5 * dθ 1, 0.5 * dθ 2, 1⟩)

theorem canon_perturb (a : V3) : CanonQ (quatnorm ⟨0.5 * a 0, 0.5 * a 1, 0.5 * a 2, 1⟩) :=
  canon_quatnorm (by simp only [Quat.normSq]; positivity)

theorem canon_quatUpdate {q : Quat} (hq : IsUnitQ q) (dθ : V3) : CanonQ (quatUpdate q dθ) := by
  obtain ⟨h1, h2, _⟩ := QuatProps.C23_quat_multiply _ q (canon_perturb dθ).1 hq
  exact ⟨h1, h2⟩

theorem rot_quatUpdate {q : Quat} (hq : IsUnitQ q) (dθ : V3) :
    quat2Rot (quatUpdate q dθ) = perturbRot dθ * quat2Rot q :=
  (QuatProps.C23_quat_multiply _ q (canon_perturb dθ).1 hq).2.2

theorem canon_id : CanonQ ⟨0, 0, 0, 1⟩ := by constructor <;> simp [IsUnitQ]

theorem poseOk_setValue {o : PoseO} (h : PoseOk o) {x : Quat × V3} (hx : CanonQ x.1) : PoseOk (o.setValue x) :=
  ⟨⟨hx, rfl, h.q.cachedFej⟩, rfl, rfl, h.fejq, h.fejp⟩

theorem poseOk_setFej {o : PoseO} (h : PoseOk o) (x : Quat × V3) : PoseOk (o.setFej x) :=
  ⟨⟨h.q.canon, h.q.cached, rfl⟩, h.valq, h.valp, rfl, rfl⟩

theorem poseOk_new : PoseOk PoseO.new := ⟨⟨canon_id, rfl, rfl⟩, rfl, rfl, rfl, rfl⟩

theorem imuOk_setValue {o : ImuO} (h : ImuOk o) {x : Imu16} (hx : CanonQ x.q) : ImuOk (o.setValue x) :=
  ⟨poseOk_setValue h.pose hx, rfl, rfl, rfl, rfl, h.fq, h.fv, h.fbg, h.fba⟩

theorem imuOk_setFej {o : ImuO} (h : ImuOk o) (x : Imu16) : ImuOk (o.setFej x) :=
  ⟨poseOk_setFej h.pose _, h.vq, h.vv, h.vbg, h.vba, rfl, rfl, rfl, rfl⟩

theorem imuOk_new : ImuOk ImuO.new := ⟨poseOk_new, rfl, rfl, rfl, rfl, rfl, rfl, rfl, rfl⟩

/-! ## C26 -/

/-- **C26 (JPLQuat)** After any sequence of corrections a `JPLQuat` holds a unit quaternion with non-negative
scalar part, its cached matrix is the rotation of that quaternion, and the rotation is the product of the
perturbation rotations applied on the left in order. -/
theorem C26_quat_updates (o : QuatO) (h : QuatOk o) (dxs : List V3) :
    QuatOk (dxs.foldl QuatO.update o) ∧
      (dxs.foldl QuatO.update o).R = (dxs.foldl (fun M d => perturbRot d * M) o.R) ∧
      (dxs.foldl QuatO.update o).fej = o.fej := by
  induction dxs generalizing o with
  | nil => exact ⟨h, rfl, rfl⟩
  | cons d ds ih =>
    have hu : QuatOk (o.update d) := ⟨canon_quatUpdate h.canon.1 d, rfl, h.cachedFej⟩
    obtain ⟨a, b, c⟩ := ih _ hu
    refine ⟨a, ?_, c⟩
    rw [List.foldl_cons, List.foldl_cons, b]
    congr 1
    show quat2Rot (quatUpdate o.val d) = _
    rw [rot_quatUpdate h.canon.1, h.cached]

/-- **C26 (PoseJPL)** Same for a pose: all copies agree, the orientation is valid, the rotation is the product of
the perturbations and the position is the initial one plus the sum of the position corrections. -/
theorem C26_pose_updates (o : PoseO) (h : PoseOk o) (dxs : List (ℕ → ℝ)) :
    PoseOk (dxs.foldl PoseO.update o) ∧
      (dxs.foldl PoseO.update o).q.R = (dxs.map (sl · 0)).foldl (fun M d => perturbRot d * M) o.q.R ∧
      (dxs.foldl PoseO.update o).p.val = o.p.val + (dxs.map (sl · 3)).sum ∧
      (dxs.foldl PoseO.update o).fej = o.fej := by
  induction dxs generalizing o with
  | nil => exact ⟨h, rfl, by simp, rfl⟩
  | cons d ds ih =>
    have hu : PoseOk (o.update d) := poseOk_setValue h (canon_quatUpdate h.q.canon.1 _)
    obtain ⟨a, b, c, e⟩ := ih _ hu
    refine ⟨a, ?_, ?_, e⟩
    · rw [List.foldl_cons, b, List.map_cons, List.foldl_cons]
      congr 1
      show quat2Rot (quatUpdate o.q.val (sl d 0)) = _
      rw [rot_quatUpdate h.q.canon.1, h.q.cached]
    · rw [List.foldl_cons, c, List.map_cons, List.sum_cons, ← add_assoc]
      congr 1
      show o.val.2 + sl d 3 = _
      rw [h.valp]

/-- **C26 (IMU)** Same for the 15-dof IMU state, including velocity and both biases. -/
theorem C26_imu_updates (o : ImuO) (h : ImuOk o) (dxs : List (ℕ → ℝ)) :
    ImuOk (dxs.foldl ImuO.update o) ∧
      (dxs.foldl ImuO.update o).pose.q.R = (dxs.map (sl · 0)).foldl (fun M d => perturbRot d * M) o.pose.q.R ∧
      (dxs.foldl ImuO.update o).pose.p.val = o.pose.p.val + (dxs.map (sl · 3)).sum ∧
      (dxs.foldl ImuO.update o).v.val = o.v.val + (dxs.map (sl · 6)).sum ∧
      (dxs.foldl ImuO.update o).bg.val = o.bg.val + (dxs.map (sl · 9)).sum ∧
      (dxs.foldl ImuO.update o).ba.val = o.ba.val + (dxs.map (sl · 12)).sum ∧
      (dxs.foldl ImuO.update o).fej = o.fej := by
  induction dxs generalizing o with
  | nil => exact ⟨h, rfl, by simp, by simp, by simp, by simp, rfl⟩
  | cons d ds ih =>
    have hu : ImuOk (o.update d) := imuOk_setValue h (canon_quatUpdate h.pose.q.canon.1 _)
    obtain ⟨a, b, c, c1, c2, c3, e⟩ := ih _ hu
    refine ⟨a, ?_, ?_, ?_, ?_, ?_, e⟩
    · rw [List.foldl_cons, b, List.map_cons, List.foldl_cons]
      congr 1
      show quat2Rot (quatUpdate o.pose.q.val (sl d 0)) = _
      rw [rot_quatUpdate h.pose.q.canon.1, h.pose.q.cached]
    · rw [List.foldl_cons, c, List.map_cons, List.sum_cons, ← add_assoc]
      congr 1
      show o.val.p + sl d 3 = _
      rw [h.pose.valp, h.vq]
    · rw [List.foldl_cons, c1, List.map_cons, List.sum_cons, ← add_assoc]
      congr 1
      show o.val.v + sl d 6 = _
      rw [h.vv]
    · rw [List.foldl_cons, c2, List.map_cons, List.sum_cons, ← add_assoc]
      congr 1
      show o.val.bg + sl d 9 = _
      rw [h.vbg]
    · rw [List.foldl_cons, c3, List.map_cons, List.sum_cons, ← add_assoc]
      congr 1
      show o.val.ba + sl d 12 = _
      rw [h.vba]

/-- **C26** Constructed objects satisfy the invariant, `set_value` with a stored orientation and `set_fej` keep it,
and a clone has the same estimate and first estimate and satisfies it too. -/
theorem C26_construct_set_clone :
    PoseOk PoseO.new ∧ ImuOk ImuO.new ∧
    (∀ o x, ImuOk o → CanonQ x.q → ImuOk (o.setValue x) ∧ ImuOk (o.setFej x)) ∧
    (∀ o, PoseOk o → PoseOk o.clone ∧ o.clone.val = o.val ∧ o.clone.fej = o.fej) ∧
    (∀ o, ImuOk o → ImuOk o.clone ∧ o.clone.val = o.val ∧ o.clone.fej = o.fej) := by
  refine ⟨poseOk_new, imuOk_new, fun o x h hx => ⟨imuOk_setValue h hx, imuOk_setFej h x⟩, ?_, ?_⟩
  · intro o h
    refine ⟨poseOk_setFej (poseOk_setValue poseOk_new ?_) _, rfl, rfl⟩
    rw [← h.valq]; exact h.q.canon
  · intro o h
    refine ⟨imuOk_setFej (imuOk_setValue imuOk_new ?_) _, rfl, rfl⟩
    have := h.pose.valq
    rw [h.vq] at this
    simp only at this
    rw [← this]; exact h.pose.q.canon

/-- Non-vacuity: two different corrections really move a fresh IMU. -/
example : ((ImuO.new.update fun _ => 1).update fun i => (i : ℝ)).v.val 1 = 8 := by
  show (0 : ℝ) + (sl (fun _ => 1) 6) 1 + (sl (fun i => (i : ℝ)) 6) 1 = 8
  simp [sl]; norm_num

/-! ## C71 -/

/-- **C71** Assigning a location to an IMU (or pose) variable gives every sub-variable the location of its own rows
inside the parent; assigning −1 marks the variable and all its parts as not in the state. The offsets agree with the
part table used by the covariance operations. -/
theorem C71_local_ids (o : ImuO) (po : PoseO) (n : ℤ) (hn : n ≠ -1) (x : Imu16) :
    (o.setId n).id = n ∧ (o.setId n).pose.id = n ∧ (o.setId n).pose.q.id = n ∧ (o.setId n).pose.p.id = n + 3 ∧
    (o.setId n).v.id = n + 6 ∧ (o.setId n).bg.id = n + 9 ∧ (o.setId n).ba.id = n + 12 ∧
    (po.setId n).id = n ∧ (po.setId n).q.id = n ∧ (po.setId n).p.id = n + 3 ∧
    ((o.setId (-1)).id = -1 ∧ (o.setId (-1)).pose.id = -1 ∧ (o.setId (-1)).pose.q.id = -1 ∧
      (o.setId (-1)).pose.p.id = -1 ∧ (o.setId (-1)).v.id = -1 ∧ (o.setId (-1)).bg.id = -1 ∧
      (o.setId (-1)).ba.id = -1) ∧
    (((Val.imu x).part .p).map (fun r => (n + r.1 : ℤ)) = some (o.setId n).pose.p.id ∧
     ((Val.imu x).part .v).map (fun r => (n + r.1 : ℤ)) = some (o.setId n).v.id ∧
     ((Val.imu x).part .bg).map (fun r => (n + r.1 : ℤ)) = some (o.setId n).bg.id ∧
     ((Val.imu x).part .ba).map (fun r => (n + r.1 : ℤ)) = some (o.setId n).ba.id) := by
  simp only [ImuO.setId, PoseO.setId, Vec3O.setId, QuatO.setId, Val.part]
  simp [hn]
  omega

/-! ## The flat values used by the state model are the abstraction of the objects -/

/-- flat view of an IMU object. -/
def ImuO.flat (o : ImuO) : Val := .imu o.val
/-- flat view of a pose object. -/
def PoseO.flat (o : PoseO) : Val := .pose o.val.1 o.val.2

/-- **C26** The flat update used in the state model is exactly what the object update does. -/
theorem C26_flat_update :
    (∀ (o : ImuO) (dx : ℕ → ℝ), ImuOk o → (o.update dx).flat = o.flat.update dx) ∧
    (∀ (o : PoseO) (dx : ℕ → ℝ), PoseOk o → (o.update dx).flat = o.flat.update dx) := by
  constructor
  · intro o dx h
    have : o.pose.q.val = o.val.q := by rw [h.pose.valq, h.vq]
    simp only [ImuO.flat, ImuO.update, ImuO.setValue, Val.update, this]
  · intro o dx h
    simp only [PoseO.flat, PoseO.update, PoseO.setValue, Val.update, h.valq]

end Verif.Types
