import Verif.Sim.PropsSplineD

/-! # C62: the derivative from the right at a control point, and the truncated series -/

set_option autoImplicit false

namespace Verif.Sim

open Verif Matrix

/-- a function that agrees with a differentiable one from a time on has its derivative from the right -/
theorem right_deriv {f g : ℝ → ℝ} {f' t b : ℝ} (hg : HasDerivAt g f' t) (htb : t < b) (h : ∀ s, t ≤ s → s < b → f s = g s) : HasDerivWithinAt f f' (Set.Ici t) t := by
  refine hg.hasDerivWithinAt.congr_of_eventuallyEq ?_ (h t le_rfl htb)
  filter_upwards [nhdsWithin_le_nhds (gt_mem_nhds htb), self_mem_nhdsWithin] with s h1 h2
  exact h s h2 h1

/-- **C62** (from the right) At every control point at which the spline has a pose, in particular at the first one, and for any spacing: the velocities of `get_velocity` are the derivatives from the right of the pose of `get_pose`, and the
accelerations of `get_acceleration` those of the velocities. -/
theorem C62_right_derivative (m : Poses) (hs : Sorted m) (hse : ∀ p ∈ m, IsSE3 p.2) (l r : Poses) (q0 q1 q2 q3 : ℝ × M4) (hm : m = l ++ q0 :: q1 :: q2 :: q3 :: r) (s1 : Step q0.2 q1.2) (s2 : Step q1.2 q2.2) :
    ∃ R p w v al a, getPose m q1.1 = some (R, p) ∧ getVelocity m q1.1 = some (R, p, w, v) ∧ getAcceleration m q1.1 = some (R, p, w, v, al, a) ∧ IsRot R ∧
      (∀ i, HasDerivWithinAt (fun s => Spec.posAt m s i) (v i) (Set.Ici q1.1) q1.1) ∧
      (∀ i j, HasDerivWithinAt (fun s => (Spec.rotAt m s).transpose i j) ((R.transpose * skew w) i j) (Set.Ici q1.1) q1.1) ∧
      (∀ i, HasDerivWithinAt (fun s => Spec.velAt m s i) (a i) (Set.Ici q1.1) q1.1) ∧
      ∀ i, HasDerivWithinAt (fun s => Spec.omAt m s i) (al i) (Set.Ici q1.1) q1.1 := by
  obtain ⟨k4, k5, k6⟩ := segs_sorted hs hm
  have e0 := hse q0 (by rw [hm]; simp)
  have e1 := hse q1 (by rw [hm]; simp)
  have e2 := hse q2 (by rw [hm]; simp)
  have hr : SegReg ((q1.1 - q1.1) / (q2.1 - q1.1)) q0 q1 q2 q3 := by
    rw [sub_self, zero_div]
    exact ⟨step_reg e0 e1 s1 (by norm_num [b0]), step_reg e1 e2 s2 (by norm_num [b1]), Or.inr (Or.inr (by norm_num [b2]))⟩
  have hf : ∀ s, q1.1 ≤ s → s < q2.1 → findCtl s m = some (q0, q1, q2, q3) := fun s h1 h2 => (findCtl_iff hs _ _ _ _).2 ⟨l, r, hm, h1, h2⟩
  have hft := hf q1.1 le_rfl k5
  have hP : ∀ s, q1.1 ≤ s → s < q2.1 → poseM m s = interpPose s q0 q1 q2 q3 := fun s h1 h2 => by unfold poseM; rw [hf s h1 h2]
  have hV : ∀ s, q1.1 ≤ s → s < q2.1 → velM m s = interpVel s q0 q1 q2 q3 := fun s h1 h2 => by unfold velM; rw [hf s h1 h2]
  have hd := seg_vel k5 hr
  have hdd := seg_acc k5 hr
  obtain ⟨hR, Om, hOm, hv⟩ := vel_rot e0 (t := q1.1) (q1 := q1) (q2 := q2) (q3 := q3) (by rw [sub_self, zero_div]) (by rw [sub_self, zero_div]; norm_num) hr
  have hO : (rotBlock (interpPose q1.1 q0 q1 q2 q3)).transpose * rotBlock (interpVel q1.1 q0 q1 q2 q3) = Om := by
    rw [hv, ← Matrix.mul_assoc, hR.orth, Matrix.one_mul]
  have hmul := (hd.rot.tr).mul hdd.rot
  refine ⟨_, _, _, _, _, _, by unfold getPose; rw [hft], by unfold getVelocity; rw [hft], by unfold getAcceleration; rw [hft], hR.transpose, fun i => ?_, fun i j => ?_, fun i => ?_, fun i => ?_⟩
  · exact right_deriv (hd.pos i) k5 fun s h1 h2 => by rw [posAt_eq, hP s h1 h2]
  · rw [hO, skew_vee hOm, Matrix.transpose_transpose, ← hv]
    exact right_deriv (hd.rot i j) k5 fun s h1 h2 => by rw [rotAt_eq, Matrix.transpose_transpose, hP s h1 h2]
  · exact right_deriv (hdd.pos i) k5 fun s h1 h2 => by rw [velAt_eq, hV s h1 h2]
  · have e : (rotBlock (interpVel q1.1 q0 q1 q2 q3)).transpose * rotBlock (interpVel q1.1 q0 q1 q2 q3) +
        (rotBlock (interpPose q1.1 q0 q1 q2 q3)).transpose * rotBlock (interpAcc q1.1 q0 q1 q2 q3) =
        (rotBlock (interpPose q1.1 q0 q1 q2 q3)).transpose *
          (rotBlock (interpAcc q1.1 q0 q1 q2 q3) - rotBlock (interpVel q1.1 q0 q1 q2 q3) *
            ((rotBlock (interpPose q1.1 q0 q1 q2 q3)).transpose * rotBlock (interpVel q1.1 q0 q1 q2 q3))) := by
      rw [hO, Matrix.mul_sub, ← Matrix.mul_assoc, hO]
      have : (rotBlock (interpVel q1.1 q0 q1 q2 q3)).transpose * rotBlock (interpVel q1.1 q0 q1 q2 q3) = -(Om * Om) := by
        conv_lhs => rw [hv]
        rw [Matrix.transpose_mul, Matrix.mul_assoc, ← Matrix.mul_assoc _ _ Om, hR.orth, Matrix.one_mul, hOm, Matrix.neg_mul]
      rw [this]
      abel
    rw [e] at hmul
    have key : ∀ s, q1.1 ≤ s → s < q2.1 → Spec.omAt m s = vee ((rotBlock (interpPose s q0 q1 q2 q3)).transpose * rotBlock (interpVel s q0 q1 q2 q3)) := fun s h1 h2 => by rw [omAt_eq, hP s h1 h2, hV s h1 h2]
    fin_cases i
    · exact right_deriv (hmul 2 1) k5 fun s h1 h2 => by rw [key s h1 h2]; rfl
    · exact right_deriv (hmul 0 2) k5 fun s h1 h2 => by rw [key s h1 h2]; rfl
    · exact right_deriv (hmul 1 0) k5 fun s h1 h2 => by rw [key s h1 h2]; rfl

/-! ## the truncated series -/

/-- a quarter turn about the vertical -/
def quarter : M3 := !![0, -1, 0; 1, 0, 0; 0, 0, 1]

/-- four control points, one per second: at rest, then a quarter turn -/
noncomputable def exTurn : Poses := [(0, 1), (1, 1), (2, 1), (3, mkSE3 quarter 0 1)]

theorem inv_rest : invSE3 1 = 1 := by
  unfold invSE3
  simp only [rotBlock_one, posBlock_one, Matrix.transpose_one, Matrix.mulVec_zero, neg_zero]
  exact mkSE3_one

theorem omega_rest : omegaOf 1 1 = (0, 0) := by
  have h : invSE3 1 * 1 = (1 : M4) := by rw [inv_rest, Matrix.one_mul]
  have hl : logSO3 1 = 0 := log_one
  unfold omegaOf logSE3
  rw [h, rotBlock_one, posBlock_one, hl]
  simp [norm3]

theorem norm3_z (x : ℝ) (hx : 0 ≤ x) : norm3 ![0, 0, x] = x := by
  unfold norm3 dot3
  simp [Real.sqrt_mul_self hx]

theorem omega_quarter : omegaOf 1 (mkSE3 quarter 0 1) = (![0, 0, Real.pi / 2], 0) := by
  have h : invSE3 1 * mkSE3 quarter 0 1 = mkSE3 quarter 0 1 := by rw [inv_rest, Matrix.one_mul]
  have hl : logSO3 quarter = ![0, 0, Real.pi / 2] := by
    have ht : tr3 quarter = 1 := by simp [tr3, quarter]
    unfold logSO3
    simp only [ht]
    rw [if_neg (by norm_num), if_pos (by norm_num), sub_self, zero_div, Real.arccos_zero, Real.sin_pi_div_two]
    ext i
    fin_cases i <;> simp [quarter]
    ring
  unfold omegaOf logSE3
  rw [h, rotBlock_mkSE3, posBlock_mkSE3, hl]
  dsimp only
  split_ifs
  · rfl
  · simp

theorem exp_rest (b : ℝ) : expOf b (0, 0) = 1 := by
  unfold expOf expSE3
  have hs : skew (0 : V3) = 0 := by apply m3_ext <;> simp [skew]
  simp only [smul_zero, hs, Matrix.mul_zero, add_zero, Matrix.mulVec_zero]
  exact mkSE3_one

/-- the truncated exponential of a small turn `x` about the vertical -/
noncomputable def turnM (x : ℝ) : M3 := !![1 - x ^ 2 / 2, -x, 0; x, 1 - x ^ 2 / 2, 0; 0, 0, 1]

theorem exp_turn {b : ℝ} (h0 : 0 ≤ b) (h1 : b * (Real.pi / 2) < 1e-7) : expOf b (![0, 0, Real.pi / 2], 0) = mkSE3 (turnM (b * (Real.pi / 2))) 0 1 := by
  have hx : 0 ≤ b * (Real.pi / 2) := mul_nonneg h0 (by positivity)
  have hv : b • (![0, 0, Real.pi / 2] : V3) = ![0, 0, b * (Real.pi / 2)] := by ext i; fin_cases i <;> simp
  unfold expOf expSE3
  simp only [hv, smul_zero, Matrix.mulVec_zero, norm3_z _ hx, expA, expB, if_pos h1]
  congr 1
  generalize b * (Real.pi / 2) = x
  apply m3_ext <;> simp [skew, turnM, m3_mul_apply] <;> ring

theorem exTurn_sorted : Sorted exTurn := by unfold exTurn; simp [Sorted]; norm_num

theorem exTurn_se3 : ∀ p ∈ exTurn, IsSE3 p.2 := by
  have h1 : IsRot (1 : M3) := ⟨by simp, by simp⟩
  have hq : IsRot quarter := by
    constructor
    · apply m3_ext <;> simp [quarter, m3_mul_apply]
    · simp [quarter, Matrix.det_fin_three]
  intro p hp
  simp only [exTurn, List.mem_cons, List.not_mem_nil, or_false] at hp
  have h1' : IsSE3 (1 : M4) := by rw [← mkSE3_one]; exact isSE3_mk h1 _
  rcases hp with rfl | rfl | rfl | rfl
  · exact h1'
  · exact h1'
  · exact h1'
  · exact isSE3_mk hq _

theorem exTurn_step : Step (1 : M4) (mkSE3 quarter 0 1) := by
  right
  have h : invSE3 1 * mkSE3 quarter 0 1 = mkSE3 quarter 0 1 := by rw [inv_rest, Matrix.one_mul]
  rw [h, rotBlock_mkSE3]
  have ht : tr3 quarter = 1 := by simp [tr3, quarter]
  rw [ht]
  norm_num

/-- the scaled turn at time `1 + u` -/
noncomputable def turnAt (s : ℝ) : ℝ := 1 / 6 * ((s - 1) * (s - 1) * (s - 1)) * (Real.pi / 2)

theorem exTurn_pose {s : ℝ} (h1 : 1 ≤ s) (h2 : s < 1.005) : findCtl s exTurn = some ((0, 1), (1, 1), (2, 1), (3, mkSE3 quarter 0 1)) ∧
    interpPose s (0, 1) (1, 1) (2, 1) (3, mkSE3 quarter 0 1) = mkSE3 (turnM (turnAt s)) 0 1 := by
  refine ⟨(findCtl_iff exTurn_sorted _ _ _ _).2 ⟨[], [], rfl, h1, by norm_num at h2 ⊢; linarith⟩, ?_⟩
  have hb : (0 : ℝ) ≤ b2 (s - 1) := by
    have : 0 ≤ s - 1 := by linarith
    unfold b2; positivity
  have hlt : b2 (s - 1) * (Real.pi / 2) < 1e-7 := by
    have h0 : 0 ≤ s - 1 := by linarith
    have h3 : s - 1 ≤ 0.005 := by norm_num at h2 ⊢; linarith
    have h4 : (s - 1) * (s - 1) * (s - 1) ≤ 0.005 * 0.005 * 0.005 := by gcongr
    have hp := Real.pi_lt_four
    have hp0 := Real.pi_pos
    unfold b2
    have h5 : 1 / 6 * ((s - 1) * (s - 1) * (s - 1)) ≤ 1 / 6 * (0.005 * 0.005 * 0.005) := by linarith
    calc 1 / 6 * ((s - 1) * (s - 1) * (s - 1)) * (Real.pi / 2) ≤ 1 / 6 * (0.005 * 0.005 * 0.005) * (4 / 2) := by
          apply mul_le_mul h5 (by linarith) (by linarith) (by norm_num)
      _ < 1e-7 := by norm_num
  unfold interpPose
  simp only [omega_rest, omega_quarter, exp_rest, Matrix.one_mul]
  rw [show ((2 : ℝ) - 1) = 1 by norm_num, div_one, exp_turn hb hlt]
  rfl

/-- **C62** (counterexample) Where the truncated series takes part the claim is false: one control point per second, at rest and then a quarter turn. A millisecond after the second one the angular velocity of `get_velocity` is not that of the
orientation of `get_pose`, and this is not a rotation. -/
theorem C62_truncated_counterexample : ∃ (m : Poses) (t : ℝ) (R : M3) (p w v : V3), Sorted m ∧ (∀ x ∈ m, IsSE3 x.2) ∧ (∀ l r a b, m = l ++ a :: b :: r → b.1 - a.1 = 1 ∧ Step a.2 b.2) ∧ getPose m t = some (R, p) ∧
    getVelocity m t = some (R, p, w, v) ∧ ¬ IsRot R ∧ ¬ HasDerivAt (fun s => (Spec.rotAt m s).transpose 1 0) ((R.transpose * skew w) 1 0) t := by
  obtain ⟨hf, hP⟩ := exTurn_pose (s := 1.001) (by norm_num) (by norm_num)
  set x := turnAt 1.001 with hx
  have hx0 : 0 < x := by rw [hx]; unfold turnAt; have := Real.pi_pos; norm_num; positivity
  have hx1 : x < 1 := by
    rw [hx]; unfold turnAt
    have := Real.pi_lt_four
    norm_num; linarith
  have hrest : Step (1 : M4) 1 := by
    left
    rw [inv_rest, Matrix.one_mul, rotBlock_one]
  -- the velocity matrix
  have hV : rotBlock (interpVel 1.001 (0, 1) (1, 1) (2, 1) (3, mkSE3 quarter 0 1)) = (b2dot 1 0.001 * (Real.pi / 2)) • (!![0, -1, 0; 1, 0, 0; 0, 0, 0] * turnM x) := by
    have hA := hP
    unfold interpPose at hA
    simp only [omega_rest, omega_quarter, exp_rest, Matrix.one_mul] at hA
    unfold interpVel
    simp only [omega_rest, omega_quarter, exp_rest, Matrix.one_mul, Matrix.mul_one]
    rw [hA]
    have hh : hatOf ((0 : V3), (0 : V3)) = 0 := by
      unfold hatOf hatSE3
      have hs : skew (0 : V3) = 0 := by apply m3_ext <;> simp [skew]
      rw [hs]
      ext i j
      fin_cases i <;> fin_cases j <;> simp [mkSE3]
    have hq : hatOf (![0, 0, Real.pi / 2], (0 : V3)) = mkSE3 ((Real.pi / 2) • !![0, -1, 0; 1, 0, 0; 0, 0, 0]) 0 0 := by
      unfold hatOf hatSE3
      congr 1
      apply m3_ext <;> simp [skew]
    rw [hh, hq]
    simp only [smul_zero, Matrix.zero_mul, zero_add]
    rw [smul_mkSE3, mkSE3_mul, rotBlock_mkSE3, smul_smul, Matrix.smul_mul]
    norm_num
  have hder : HasDerivAt (fun s => (Spec.rotAt exTurn s).transpose 1 0) (b2dot 1 0.001 * (Real.pi / 2)) 1.001 := by
    have h1 : HasDerivAt turnAt (b2dot 1 0.001 * (Real.pi / 2)) 1.001 := by
      have h := (((hasDerivAt_id (1.001 : ℝ)).sub_const 1).pow 3).const_mul (1 / 6 * (Real.pi / 2))
      refine (h.congr_deriv ?_).congr_of_eventuallyEq (Filter.Eventually.of_forall fun s => ?_)
      · unfold b2dot; simp; ring
      · unfold turnAt; simp; ring
    refine h1.congr_of_eventuallyEq ?_
    filter_upwards [lt_mem_nhds (show (1 : ℝ) < 1.001 by norm_num), gt_mem_nhds (show (1.001 : ℝ) < 1.005 by norm_num)] with s g1 g2
    obtain ⟨e1, e2⟩ := exTurn_pose g1.le g2
    rw [rotAt_eq, Matrix.transpose_transpose]
    unfold poseM
    rw [e1]
    simp only [e2, rotBlock_mkSE3]
    simp [turnM]
  refine ⟨exTurn, 1.001, _, _, _, _, exTurn_sorted, exTurn_se3, ?_, by unfold getPose; rw [hf], by unfold getVelocity; rw [hf], ?_, ?_⟩
  · intro l r a b h
    rcases l with _ | ⟨a0, _ | ⟨a1, _ | ⟨a2, _ | ⟨a3, l⟩⟩⟩⟩ <;> simp only [exTurn, List.nil_append, List.cons_append, List.cons.injEq] at h
    · obtain ⟨rfl, rfl, -⟩ := h
      exact ⟨by norm_num, hrest⟩
    · obtain ⟨-, rfl, rfl, -⟩ := h
      exact ⟨by norm_num, hrest⟩
    · obtain ⟨-, -, rfl, rfl, -⟩ := h
      exact ⟨by norm_num, exTurn_step⟩
    · simp at h
    · simp at h
  · rw [hP, rotBlock_mkSE3]
    intro hR
    have h := congrFun (congrFun hR.orth 0) 0
    simp [m3_mul_apply, turnM] at h
    nlinarith [pow_pos hx0 4]
  · intro hbad
    have he := hder.unique hbad
    rw [hP, rotBlock_mkSE3, hV] at he
    have hc : b2dot 1 0.001 * (Real.pi / 2) ≠ 0 := by
      have := Real.pi_pos
      unfold b2dot; norm_num [this.ne']
    generalize b2dot 1 0.001 * (Real.pi / 2) = c at he hc
    simp [m3_mul_apply, turnM, skew, vee] at he
    have : c * (1 - (1 - x ^ 2 / 2) * ((1 - x ^ 2 / 2) * (1 - x ^ 2 / 2) + x * x)) = 0 := by linarith
    rcases mul_eq_zero.1 this with h | h
    · exact hc h
    · nlinarith [pow_pos hx0 2, pow_pos hx0 4, pow_pos hx0 6, mul_pos hx0 (sub_pos.2 hx1)]

end Verif.Sim
