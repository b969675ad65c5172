import Verif.Sim.Join
import Verif.Sim.PropsSpline

/-! # C62: velocity and acceleration of the spline are the time derivatives of its pose -/

set_option autoImplicit false
set_option linter.unusedSimpArgs false

namespace Verif.Sim

open Verif Matrix

namespace Spec

/-- orientation `R_GtoI` that `get_pose` writes at time `s` (the identity when it fails, BsplineSE3.cpp:103). -/
noncomputable def rotAt (m : Poses) (s : ℝ) : M3 := ((getPose m s).map Prod.fst).getD 1
/-- position `p_IinG` that `get_pose` writes at time `s` (zero when it fails, BsplineSE3.cpp:104). -/
noncomputable def posAt (m : Poses) (s : ℝ) : V3 := ((getPose m s).map Prod.snd).getD 0
/-- angular velocity `w_IinI` that `get_velocity` writes at time `s`. -/
noncomputable def omAt (m : Poses) (s : ℝ) : V3 := ((getVelocity m s).map fun x => x.2.2.1).getD 0
/-- velocity `v_IinG` that `get_velocity` writes at time `s`. -/
noncomputable def velAt (m : Poses) (s : ℝ) : V3 := ((getVelocity m s).map fun x => x.2.2.2).getD 0

/-- Times at which the spline is computed without a small-angle approximation taking part: between two control points with the
three scaled relative rotations either zero or above 1e-7 rad, or at a control point with equal segment lengths around it and
relative rotations that are zero or between 3.2e-4 rad and (almost) π. -/
inductive Smooth (m : Poses) (t : ℝ) : Prop
  | inner (l r : Poses) (q0 q1 q2 q3 : ℝ × M4) (hm : m = l ++ q0 :: q1 :: q2 :: q3 :: r) (h1 : q1.1 < t) (h2 : t < q2.1)
      (hr : SegReg ((t - q1.1) / (q2.1 - q1.1)) q0 q1 q2 q3)
  | knot (l r : Poses) (p q0 q1 q2 q3 : ℝ × M4) (hm : m = l ++ p :: q0 :: q1 :: q2 :: q3 :: r) (ht : t = q1.1)
      (hu : q2.1 - q1.1 = q1.1 - q0.1) (s0 : Step p.2 q0.2) (s1 : Step q0.2 q1.2) (s2 : Step q1.2 q2.2)

end Spec

/-- the pose matrix at a time. -/
noncomputable def poseM (m : Poses) (s : ℝ) : M4 :=
  match findCtl s m with
  | none => 1
  | some (q0, q1, q2, q3) => interpPose s q0 q1 q2 q3

/-- the velocity matrix at a time. -/
noncomputable def velM (m : Poses) (s : ℝ) : M4 :=
  match findCtl s m with
  | none => 0
  | some (q0, q1, q2, q3) => interpVel s q0 q1 q2 q3

theorem rotBlock_one : rotBlock 1 = 1 := by rw [← mkSE3_one, rotBlock_mkSE3]
theorem posBlock_one : posBlock 1 = 0 := by rw [← mkSE3_one, posBlock_mkSE3]

theorem rotAt_eq (m : Poses) (s : ℝ) : Spec.rotAt m s = (rotBlock (poseM m s)).transpose := by
  unfold Spec.rotAt getPose poseM
  cases findCtl s m with
  | none => simp [rotBlock_one]
  | some x => rfl

theorem posAt_eq (m : Poses) (s : ℝ) : Spec.posAt m s = posBlock (poseM m s) := by
  unfold Spec.posAt getPose poseM
  cases findCtl s m with
  | none => simp [posBlock_one]
  | some x => rfl

theorem velAt_eq (m : Poses) (s : ℝ) : Spec.velAt m s = posBlock (velM m s) := by
  unfold Spec.velAt getVelocity velM
  cases findCtl s m with
  | none => apply v3_ext <;> simp [posBlock]
  | some x => rfl

theorem omAt_eq (m : Poses) (s : ℝ) : Spec.omAt m s = vee ((rotBlock (poseM m s)).transpose * rotBlock (velM m s)) := by
  unfold Spec.omAt getVelocity velM poseM
  cases findCtl s m with
  | none =>
    have : rotBlock 0 = 0 := by apply m3_ext <;> simp [rotBlock]
    apply v3_ext <;> simp [this, vee]
  | some x => rfl

/-- gluing two curves at a point. -/
theorem HasDmAt.glue {f g : ℝ → M4} {k : ℝ → M4} {f' : M4} {t : ℝ} (hf : HasDmAt f f' t) (hg : HasDmAt g f' t)
    (hj : f t = g t) (hk : ∀ᶠ s in nhds t, k s = if s < t then f s else g s) : HasDmAt k f' t := by
  intro i j
  have hk0 : k t = g t := by
    have := hk.self_of_nhds
    simpa using this
  have h1 : HasDerivWithinAt (fun s => k s i j) (f' i j) (Set.Iic t) t := by
    refine (hf i j).hasDerivWithinAt.congr_of_eventuallyEq ?_ (by rw [hk0, hj])
    filter_upwards [nhdsWithin_le_nhds hk, self_mem_nhdsWithin] with s hs hle
    rcases lt_or_eq_of_le (show s ≤ t from hle) with h | h
    · rw [hs, if_pos h]
    · rw [h, hk0, hj]
  have h2 : HasDerivWithinAt (fun s => k s i j) (f' i j) (Set.Ici t) t := by
    refine (hg i j).hasDerivWithinAt.congr_of_eventuallyEq ?_ (by rw [hk0])
    filter_upwards [nhdsWithin_le_nhds hk, self_mem_nhdsWithin] with s hs hle
    rw [hs, if_neg (not_lt.2 hle)]
  have := h1.union h2
  rwa [Set.Iic_union_Ici, hasDerivWithinAt_univ] at this

theorem segs_sorted {m l r : Poses} {q0 q1 q2 q3 : ℝ × M4} (hs : Sorted m) (hm : m = l ++ q0 :: q1 :: q2 :: q3 :: r) :
    q0.1 < q1.1 ∧ q1.1 < q2.1 ∧ q2.1 < q3.1 := by
  rw [hm] at hs
  obtain ⟨_, hs, _⟩ := hs.append
  obtain ⟨ha, hs⟩ := List.pairwise_cons.1 hs
  obtain ⟨hb, hs⟩ := List.pairwise_cons.1 hs
  obtain ⟨hc, hs⟩ := List.pairwise_cons.1 hs
  exact ⟨ha _ (by simp), hb _ (by simp), hc _ (by simp)⟩

/-- the pose and velocity matrices near a smooth time have the velocity and acceleration matrices as derivatives, and at that time
the three rotation factors of the pose are rotations. -/
theorem smooth_deriv {m : Poses} (hs : Sorted m) (hse : ∀ p ∈ m, IsSE3 p.2) {t : ℝ} (h : Spec.Smooth m t) :
    ∃ q0 q1 q2 q3, findCtl t m = some (q0, q1, q2, q3) ∧ HasDmAt (poseM m) (interpVel t q0 q1 q2 q3) t ∧
      HasDmAt (velM m) (interpAcc t q0 q1 q2 q3) t ∧ SegReg ((t - q1.1) / (q2.1 - q1.1)) q0 q1 q2 q3 ∧ IsSE3 q0.2 := by
  cases h with
  | inner l r q0 q1 q2 q3 hm h1 h2 hr =>
    have hq : q1.1 < q2.1 := h1.trans h2
    have hev : ∀ᶠ s in nhds t, findCtl s m = some (q0, q1, q2, q3) := by
      filter_upwards [lt_mem_nhds h1, gt_mem_nhds h2] with s g1 g2
      exact (findCtl_iff hs _ _ _ _).2 ⟨l, r, hm, le_of_lt g1, g2⟩
    refine ⟨q0, q1, q2, q3, hev.self_of_nhds, ?_, ?_, hr, hse q0 (by rw [hm]; simp)⟩
    · exact (seg_vel hq hr).congr_ev (hev.mono fun s e => by unfold poseM; rw [e])
    · exact (seg_acc hq hr).congr_ev (hev.mono fun s e => by unfold velM; rw [e])
  | knot l r p q0 q1 q2 q3 hm ht hu s0 s1 s2 =>
    have hm' : m = (l ++ [p]) ++ q0 :: q1 :: q2 :: q3 :: r := by rw [hm]; simp
    obtain ⟨k1, k2, k3⟩ := segs_sorted hs hm
    obtain ⟨k4, k5, k6⟩ := segs_sorted hs hm'
    have ep := hse p (by rw [hm]; simp)
    have e0 := hse q0 (by rw [hm]; simp)
    have e1 := hse q1 (by rw [hm]; simp)
    have e2 := hse q2 (by rw [hm]; simp)
    have hD : q1.1 - q0.1 ≠ 0 := by linarith
    have hrL : SegReg ((t - q0.1) / (q1.1 - q0.1)) p q0 q1 q2 := by
      rw [ht, div_self hD]
      exact ⟨step_reg ep e0 s0 (by norm_num [b0]), step_reg e0 e1 s1 (by norm_num [b1]), step_reg e1 e2 s2 (by norm_num [b2])⟩
    have hrR : SegReg ((t - q1.1) / (q2.1 - q1.1)) q0 q1 q2 q3 := by
      rw [ht, sub_self, zero_div]
      exact ⟨step_reg e0 e1 s1 (by norm_num [b0]), step_reg e1 e2 s2 (by norm_num [b1]), Or.inr (Or.inr (by norm_num [b2]))⟩
    obtain ⟨j1, j2, j3⟩ := seg_join (q3 := q3) k4 hu (step_join ep e0 s0)
    rw [← ht] at j1 j2 j3
    have hev : ∀ᶠ s in nhds t, findCtl s m = if s < t then some (p, q0, q1, q2) else some (q0, q1, q2, q3) := by
      filter_upwards [lt_mem_nhds (show q0.1 < t by rw [ht]; exact k4), gt_mem_nhds (show t < q2.1 by rw [ht]; exact k5)] with s g1 g2
      split_ifs with c
      · exact (findCtl_iff hs _ _ _ _).2 ⟨l, q3 :: r, hm, le_of_lt g1, by rw [ht] at c; exact c⟩
      · exact (findCtl_iff hs _ _ _ _).2 ⟨l ++ [p], r, hm', by rw [ht] at c; exact not_lt.1 c, g2⟩
    refine ⟨q0, q1, q2, q3, by simpa using hev.self_of_nhds, ?_, ?_, hrR, e0⟩
    · refine HasDmAt.glue ((seg_vel k4 hrL).congr' j2) (seg_vel k5 hrR) j1 (hev.mono fun s e => ?_)
      unfold poseM
      rw [e]
      split_ifs <;> rfl
    · refine HasDmAt.glue ((seg_acc k4 hrL).congr' j3) (seg_acc k5 hrR) j2 (hev.mono fun s e => ?_)
      unfold velM
      rw [e]
      split_ifs <;> rfl

theorem expOf_se3 {b : ℝ} (hb : 0 ≤ b) {om : V3 × V3} (h : RegAt b om) : IsSE3 (expOf b om) := by
  unfold expOf
  refine (QuatProps.C25_se3.2.2.1 _ _ ?_).1
  rcases h with h | h | h
  · right; rw [h, smul_zero]
  · left; rw [norm3_smul hb]; exact h.le
  · right; rw [h, zero_smul]

theorem mkSE3_add (A B : M3) (p q : V3) (a b : ℝ) : mkSE3 A p a + mkSE3 B q b = mkSE3 (A + B) (p + q) (a + b) := by
  ext i j
  fin_cases i <;> fin_cases j <;> simp [mkSE3]

/-- the rotation part of the velocity is the rotation times an antisymmetric matrix. -/
theorem vel_rot {t : ℝ} {q0 q1 q2 q3 : ℝ × M4} (h0 : IsSE3 q0.2) (hu : 0 ≤ (t - q1.1) / (q2.1 - q1.1))
    (hu1 : (t - q1.1) / (q2.1 - q1.1) ≤ 1) (hr : SegReg ((t - q1.1) / (q2.1 - q1.1)) q0 q1 q2 q3) :
    IsRot (rotBlock (interpPose t q0 q1 q2 q3)) ∧
    ∃ Om : M3, Om.transpose = -Om ∧ rotBlock (interpVel t q0 q1 q2 q3) = rotBlock (interpPose t q0 q1 q2 q3) * Om := by
  generalize hue : (t - q1.1) / (q2.1 - q1.1) = u at *
  have p0 : 0 ≤ b0 u := by unfold b0; nlinarith [mul_nonneg hu hu, mul_nonneg (mul_nonneg hu hu) hu]
  have p1 : 0 ≤ b1 u := by unfold b1; nlinarith [mul_nonneg hu hu, mul_nonneg (mul_nonneg hu hu) hu, mul_nonneg (mul_nonneg hu hu) (sub_nonneg.2 hu1)]
  have p2 : 0 ≤ b2 u := by unfold b2; positivity
  have i0 := expOf_se3 p0 hr.1
  have i1 := expOf_se3 p1 hr.2.1
  have i2 := expOf_se3 p2 hr.2.2
  unfold interpPose interpVel
  simp only [hue]
  generalize expOf (b0 u) (omegaOf q0.2 q1.2) = A0 at *
  generalize expOf (b1 u) (omegaOf q1.2 q2.2) = A1 at *
  generalize expOf (b2 u) (omegaOf q2.2 q3.2) = A2 at *
  have k0 := skew_transpose (omegaOf q0.2 q1.2).1
  have k1 := skew_transpose (omegaOf q1.2 q2.2).1
  have k2 := skew_transpose (omegaOf q2.2 q3.2).1
  unfold hatOf hatSE3
  generalize skew (omegaOf q0.2 q1.2).1 = W0 at *
  generalize skew (omegaOf q1.2 q2.2).1 = W1 at *
  generalize skew (omegaOf q2.2 q3.2).1 = W2 at *
  rw [h0.eq_mk, i0.eq_mk, i1.eq_mk, i2.eq_mk]
  simp only [mkSE3_mul, smul_mkSE3, mkSE3_add, rotBlock_mkSE3]
  have r0 := h0.rot
  have s0 := i0.rot
  have s1 := i1.rot
  have s2 := i2.rot
  generalize rotBlock q0.2 = Q at *
  generalize rotBlock A0 = R0 at *
  generalize rotBlock A1 = R1 at *
  generalize rotBlock A2 = R2 at *
  refine ⟨((r0.mul s0).mul s1).mul s2, (R0 * R1 * R2).transpose * (b0dot (q2.1 - q1.1) u • W0) * (R0 * R1 * R2) +
    (R1 * R2).transpose * (b1dot (q2.1 - q1.1) u • W1) * (R1 * R2) + R2.transpose * (b2dot (q2.1 - q1.1) u • W2) * R2, ?_, ?_⟩
  · simp only [Matrix.transpose_add, Matrix.transpose_mul, Matrix.transpose_smul, Matrix.transpose_transpose, k0, k1, k2,
      Matrix.mul_assoc, Matrix.neg_mul, Matrix.mul_neg, smul_neg, neg_add]
  · have o0 : R0 * R0.transpose = 1 := mul_eq_one_comm.1 s0.orth
    have o1 : R1 * R1.transpose = 1 := mul_eq_one_comm.1 s1.orth
    have o2 : R2 * R2.transpose = 1 := mul_eq_one_comm.1 s2.orth
    have c0 : ∀ X : M3, R0 * (R0.transpose * X) = X := fun X => by rw [← Matrix.mul_assoc, o0, Matrix.one_mul]
    have c1 : ∀ X : M3, R1 * (R1.transpose * X) = X := fun X => by rw [← Matrix.mul_assoc, o1, Matrix.one_mul]
    have c2 : ∀ X : M3, R2 * (R2.transpose * X) = X := fun X => by rw [← Matrix.mul_assoc, o2, Matrix.one_mul]
    simp only [Matrix.mul_add, Matrix.mul_assoc, Matrix.transpose_mul, c0, c1, c2]

theorem skew_vee {M : M3} (h : M.transpose = -M) : skew (vee M) = M := by
  have e : ∀ i j, M j i = -M i j := fun i j => by simpa using congrFun (congrFun h i) j
  have d0 := e 0 0
  have d1 := e 1 1
  have d2 := e 2 2
  have e01 := e 0 1
  have e02 := e 0 2
  have e12 := e 1 2
  apply m3_ext <;> simp [skew, vee] <;> linarith

/-- **C62** Where `get_velocity` succeeds and no small-angle approximation takes part, its pose is that of `get_pose`, its linear
velocity is the time derivative of the position of `get_pose`, and its angular velocity `w` is that of the orientation:
`d/dt R_ItoG = R_ItoG ⌊w⌋`. At the control points too (the segments join with equal first derivatives).
Missing (`_partial`): times just after a control point where the last scaled relative rotation is positive but below 1e-7 rad (there
`exp_se3` is a truncated series and the claim is false, `C62_truncated_counterexample`). At the first control point with a pose see
`C62_right_derivative`. -/
theorem C62_velocity_partial (m : Poses) (hs : Sorted m) (hse : ∀ p ∈ m, IsSE3 p.2) (t : ℝ) (hsm : Spec.Smooth m t)
    (R : M3) (p w v : V3) (h : getVelocity m t = some (R, p, w, v)) :
    getPose m t = some (R, p) ∧ IsRot R ∧ (∀ i, HasDerivAt (fun s => Spec.posAt m s i) (v i) t) ∧
    ∀ i j, HasDerivAt (fun s => (Spec.rotAt m s).transpose i j) ((R.transpose * skew w) i j) t := by
  obtain ⟨q0, q1, q2, q3, hf, hd, -, hr, h0⟩ := smooth_deriv hs hse hsm
  obtain ⟨-, hb⟩ := C61_control_point_bracket t m hs q0 q1 q2 q3
  obtain ⟨-, -, -, hu0, hu1⟩ := hb hf
  obtain ⟨hR, Om, hOm, hv⟩ := vel_rot h0 hu0 hu1.le hr
  unfold getVelocity at h
  rw [hf] at h
  simp only [Option.some.injEq, Prod.mk.injEq] at h
  obtain ⟨rfl, rfl, rfl, rfl⟩ := h
  refine ⟨by unfold getPose; rw [hf], hR.transpose, fun i => ?_, fun i j => ?_⟩
  · simp only [posAt_eq]
    exact hd.pos i
  · simp only [rotAt_eq, Matrix.transpose_transpose]
    have : (rotBlock (interpPose t q0 q1 q2 q3)).transpose * rotBlock (interpVel t q0 q1 q2 q3) = Om := by
      rw [hv, ← Matrix.mul_assoc, hR.orth, Matrix.one_mul]
    rw [this, skew_vee hOm, ← hv]
    exact hd.rot i j

/-- **C62** Likewise `get_acceleration`: its pose and velocities are those of `get_velocity`, its linear acceleration is the time
derivative of the linear velocity of `get_velocity` and its angular acceleration that of the angular velocity. -/
theorem C62_acceleration_partial (m : Poses) (hs : Sorted m) (hse : ∀ p ∈ m, IsSE3 p.2) (t : ℝ) (hsm : Spec.Smooth m t)
    (R : M3) (p w v al a : V3) (h : getAcceleration m t = some (R, p, w, v, al, a)) :
    getVelocity m t = some (R, p, w, v) ∧ (∀ i, HasDerivAt (fun s => Spec.velAt m s i) (a i) t) ∧
    ∀ i, HasDerivAt (fun s => Spec.omAt m s i) (al i) t := by
  obtain ⟨q0, q1, q2, q3, hf, hd, hdd, hr, h0⟩ := smooth_deriv hs hse hsm
  obtain ⟨-, hb⟩ := C61_control_point_bracket t m hs q0 q1 q2 q3
  obtain ⟨-, -, -, hu0, hu1⟩ := hb hf
  obtain ⟨hR, Om, hOm, hv⟩ := vel_rot h0 hu0 hu1.le hr
  unfold getAcceleration at h
  rw [hf] at h
  simp only [Option.some.injEq, Prod.mk.injEq] at h
  obtain ⟨rfl, rfl, rfl, rfl, rfl, rfl⟩ := h
  refine ⟨by unfold getVelocity; rw [hf], fun i => ?_, fun i => ?_⟩
  · simp only [velAt_eq]
    exact hdd.pos i
  · have hO : (rotBlock (interpPose t q0 q1 q2 q3)).transpose * rotBlock (interpVel t q0 q1 q2 q3) = Om := by
      rw [hv, ← Matrix.mul_assoc, hR.orth, Matrix.one_mul]
    have hp : poseM m t = interpPose t q0 q1 q2 q3 := by unfold poseM; rw [hf]
    have hvm : velM m t = interpVel t q0 q1 q2 q3 := by unfold velM; rw [hf]
    have hmul := (hd.rot.tr).mul hdd.rot
    rw [hp, hvm] at hmul
    have e : (rotBlock (interpVel t q0 q1 q2 q3)).transpose * rotBlock (interpVel t q0 q1 q2 q3) +
        (rotBlock (interpPose t q0 q1 q2 q3)).transpose * rotBlock (interpAcc t q0 q1 q2 q3) =
        (rotBlock (interpPose t q0 q1 q2 q3)).transpose *
          (rotBlock (interpAcc t q0 q1 q2 q3) - rotBlock (interpVel t q0 q1 q2 q3) *
            ((rotBlock (interpPose t q0 q1 q2 q3)).transpose * rotBlock (interpVel t q0 q1 q2 q3))) := by
      rw [hO, Matrix.mul_sub, ← Matrix.mul_assoc, hO]
      have : (rotBlock (interpVel t q0 q1 q2 q3)).transpose * rotBlock (interpVel t q0 q1 q2 q3) = -(Om * Om) := by
        conv_lhs => rw [hv]
        rw [Matrix.transpose_mul, Matrix.mul_assoc, ← Matrix.mul_assoc _ _ Om, hR.orth, Matrix.one_mul, hOm, Matrix.neg_mul]
      rw [this]
      abel
    rw [e] at hmul
    simp only [omAt_eq]
    fin_cases i
    · exact hmul 2 1
    · exact hmul 0 2
    · exact hmul 1 0

/-- **C62** Which times are smooth: if the control points are uniformly spaced and every two neighbours have a relative rotation
that is zero or between 3.2e-4 rad and (almost) π, then every time with a pose after the first control point with a pose is, except
where the newest scaled relative rotation `u³/6·‖log‖` is in `(0, 1e-7]`. -/
theorem C62_smooth_times (m : Poses) (hs : Sorted m) (hse : ∀ p ∈ m, IsSE3 p.2) (dt : ℝ)
    (hg : ∀ l r a b, m = l ++ a :: b :: r → b.1 - a.1 = dt ∧ Step a.2 b.2) (l r : Poses) (p q0 q1 q2 q3 : ℝ × M4)
    (hm : m = l ++ p :: q0 :: q1 :: q2 :: q3 :: r) (t : ℝ) (h1 : q1.1 ≤ t) (h2 : t < q2.1)
    (hb : t = q1.1 ∨ rotBlock (invSE3 q2.2 * q3.2) = 1 ∨
      1e-7 < ((t - q1.1) / dt) ^ 3 / 6 * norm3 (logSO3 (rotBlock (invSE3 q2.2 * q3.2)))) : Spec.Smooth m t := by
  obtain ⟨d0, s0⟩ := hg l (q1 :: q2 :: q3 :: r) p q0 hm
  obtain ⟨d1, s1⟩ := hg (l ++ [p]) (q2 :: q3 :: r) q0 q1 (by rw [hm]; simp)
  obtain ⟨d2, s2⟩ := hg (l ++ [p, q0]) (q3 :: r) q1 q2 (by rw [hm]; simp)
  by_cases ht : t = q1.1
  · exact .knot l r p q0 q1 q2 q3 hm ht (d2.trans d1.symm) s0 s1 s2
  · have hlt : q1.1 < t := lt_of_le_of_ne h1 (Ne.symm ht)
    have e0 := hse q0 (by rw [hm]; simp)
    have e1 := hse q1 (by rw [hm]; simp)
    have e2 := hse q2 (by rw [hm]; simp)
    have hm' : m = (l ++ [p]) ++ q0 :: q1 :: q2 :: q3 :: r := by rw [hm]; simp
    have hf := (findCtl_iff hs q0 q1 q2 q3 (t := t)).2 ⟨l ++ [p], r, hm', h1, h2⟩
    obtain ⟨-, -, -, hu0, hu1⟩ := (C61_control_point_bracket t m hs q0 q1 q2 q3).2 hf
    refine .inner (l ++ [p]) r q0 q1 q2 q3 hm' hlt h2 ⟨?_, ?_, ?_⟩
    · refine step_reg e0 e1 s1 ?_
      generalize (t - q1.1) / (q2.1 - q1.1) = u at *
      unfold b0
      nlinarith [mul_nonneg hu0 hu0, mul_nonneg (mul_nonneg hu0 hu0) hu0]
    · refine step_reg e1 e2 s2 ?_
      generalize (t - q1.1) / (q2.1 - q1.1) = u at *
      unfold b1
      nlinarith [mul_nonneg hu0 hu0, mul_nonneg (mul_nonneg hu0 hu0) hu0, mul_nonneg (mul_nonneg hu0 hu0) (sub_nonneg.2 hu1.le)]
    · have e : (omegaOf q2.2 q3.2).1 = logSO3 (rotBlock (invSE3 q2.2 * q3.2)) := by
        unfold omegaOf logSE3; dsimp only; split_ifs <;> rfl
      rcases hb with hb | hb | hb
      · exact absurd hb ht
      · left; rw [e, hb, log_one]
      · right; left
        rw [e, d2]
        unfold b2
        have : 1 / 6 * ((t - q1.1) / dt * ((t - q1.1) / dt) * ((t - q1.1) / dt)) = ((t - q1.1) / dt) ^ 3 / 6 := by ring
        rw [this]; exact hb

/-- a straight line at unit speed, one control point per second. -/
noncomputable def exLine : Poses := [(0, mkSE3 1 ![0, 0, 0] 1), (1, mkSE3 1 ![1, 0, 0] 1), (2, mkSE3 1 ![2, 0, 0] 1),
  (3, mkSE3 1 ![3, 0, 0] 1), (4, mkSE3 1 ![4, 0, 0] 1)]

/-- Non-vacuity: a control point of the straight line, with the pose given by the spline. -/
example : Sorted exLine ∧ (∀ p ∈ exLine, IsSE3 p.2) ∧ Spec.Smooth exLine 2 ∧ (getVelocity exLine 2).isSome ∧
    (getAcceleration exLine 2).isSome := by
  have hs : Sorted exLine := by unfold exLine; simp [Sorted]; norm_num
  have h1 : IsRot (1 : M3) := ⟨by simp, by simp⟩
  have hstep : ∀ x y : V3, Step (mkSE3 1 x 1) (mkSE3 1 y 1) := by
    intro x y
    left
    unfold invSE3
    rw [rotBlock_mkSE3, posBlock_mkSE3, Matrix.transpose_one, mkSE3_mul, rotBlock_mkSE3, Matrix.one_mul]
  have hf : findCtl 2 exLine = some ((1, mkSE3 1 ![1, 0, 0] 1), (2, mkSE3 1 ![2, 0, 0] 1), (3, mkSE3 1 ![3, 0, 0] 1),
      (4, mkSE3 1 ![4, 0, 0] 1)) := (findCtl_iff hs _ _ _ _).2 ⟨[(0, mkSE3 1 ![0, 0, 0] 1)], [], rfl, le_rfl, by norm_num⟩
  refine ⟨hs, ?_, .knot [] [] _ _ _ _ _ rfl rfl (by norm_num) (hstep _ _) (hstep _ _) (hstep _ _), ?_, ?_⟩
  · intro p hp
    simp only [exLine, List.mem_cons, List.not_mem_nil, or_false] at hp
    rcases hp with rfl | rfl | rfl | rfl | rfl <;> exact isSE3_mk h1 _
  · unfold getVelocity; rw [hf]; rfl
  · unfold getAcceleration; rw [hf]; rfl

end Verif.Sim
