import Verif.Ros.Live
import Verif.Ros.PropsPublish
import Verif.Eval.PropsTrajB
import Mathlib.Algebra.Order.Star.Real

/-!
# What is shown live against the ground truth (C134), and the ground truth in the frame of the estimate (C135)
-/

set_option autoImplicit false
open Classical

namespace Verif.Ros

open Verif Verif.Types Verif.St Verif.Prop_ Verif.Eval Verif.QuatProps

/-! ## One comparison -/

theorem tr_quat2Rot {q : Quat} (h : IsUnitQ q) : tr3 (quat2Rot q) = 4 * q.w ^ 2 - 1 := by
  obtain ⟨x, y, z, w⟩ := q
  have h' : x ^ 2 + y ^ 2 + z ^ 2 + w ^ 2 = 1 := by have := h; simp only [IsUnitQ] at this; nlinarith
  simp [tr3, quat2Rot, skew, outer, Quat.vec, Matrix.one_apply]
  nlinarith

theorem qDiff_spec {e g : Quat} (he : IsUnitQ e) (hg : IsUnitQ g) : IsUnitQ (qDiff e g) ∧ 0 ≤ (qDiff e g).w ∧ quat2Rot (qDiff e g) = quat2Rot e * (quat2Rot g).transpose := by
  obtain ⟨i1, i2, -, -⟩ := C23_quat_inverse g hg
  obtain ⟨m1, m2, m3⟩ := C23_quat_multiply e (quatInv g) he i1
  exact ⟨m1, m2, by rw [qDiff, m3, i2]⟩

theorem qDiffVec_sq {e g : Quat} (he : IsUnitQ e) (hg : IsUnitQ g) : dot3 (qDiffVec e g) (qDiffVec e g) = 1 - (qDiff e g).w ^ 2 := by
  have h := (qDiff_spec he hg).1
  simp only [IsUnitQ] at h
  simp only [dot3, qDiffVec, Matrix.cons_val_zero, Matrix.cons_val_one, Matrix.cons_val_two, Matrix.cons_val, Matrix.head_cons, Matrix.tail_cons]
  nlinarith

theorem errsOf_eq {e : Imu16} {g : Fin 17 → ℝ} {Pq Pp : M3} {r : Errs} (h : errsOf e g Pq Pp = some r) :
    Pq.det ≠ 0 ∧ r.ori = 180 / Real.pi * 2 * norm3 (qDiffVec e.q (gtQuat g)) ∧ r.pos = norm3 (e.p - gtPos g) ∧
      r.neesOri = 2 * (qDiffVec e.q (gtQuat g) ⬝ᵥ (Pq⁻¹.mulVec ((2 : ℝ) • qDiffVec e.q (gtQuat g)))) ∧ maha Pp (e.p - gtPos g) = some r.neesPos := by
  unfold errsOf at h
  simp only at h
  split_ifs at h with h0
  rw [Option.map_eq_some_iff] at h
  obtain ⟨np, hn, rfl⟩ := h
  exact ⟨h0, rfl, rfl, rfl, hn⟩

/-- **C134** (errors) The position error is the distance of the two positions. The orientation error, in radians, is twice the sine of half the angle between the two orientations: never more than the angle, and less by at most a twentyfourth of
its cube. -/
theorem C134_errors (e : Imu16) (g : Fin 17 → ℝ) (Pq Pp : M3) (r : Errs) (h : errsOf e g Pq Pp = some r) (he : IsUnitQ e.q) (hg : IsUnitQ (gtQuat g)) :
    r.pos = Real.sqrt ((e.p 0 - g 5) ^ 2 + (e.p 1 - g 6) ^ 2 + (e.p 2 - g 7) ^ 2) ∧
      ∀ θ, Eval.Spec.Angle (quat2Rot e.q) (quat2Rot (gtQuat g)) θ →
        r.ori * (Real.pi / 180) = 2 * Real.sin (θ / 2) ∧ r.ori * (Real.pi / 180) ≤ θ ∧ θ - θ ^ 3 / 24 ≤ r.ori * (Real.pi / 180) := by
  obtain ⟨-, h1, h2, -, -⟩ := errsOf_eq h
  refine ⟨?_, fun θ hθ => ?_⟩
  · rw [h2, norm3]
    congr 1
    simp only [dot3, gtPos, Pi.sub_apply]
    show (e.p 0 - g 5) * (e.p 0 - g 5) + (e.p 1 - g 6) * (e.p 1 - g 6) + (e.p 2 - g 7) * (e.p 2 - g 7) = _
    ring
  · obtain ⟨t0, tπ, ht⟩ := hθ
    obtain ⟨u1, u2, u3⟩ := qDiff_spec he hg
    have htr : tr3 ((quat2Rot e.q).transpose * quat2Rot (gtQuat g)) = 4 * (qDiff e.q (gtQuat g)).w ^ 2 - 1 := by
      rw [← tr_quat2Rot u1, u3]
      simp only [tr3, Matrix.mul_apply, Fin.sum_univ_three, Matrix.transpose_apply]
      ring
    have hc : Real.cos θ = 1 - 2 * Real.sin (θ / 2) ^ 2 := by
      have := Real.cos_two_mul (θ / 2)
      have h4 := Real.sin_sq_add_cos_sq (θ / 2)
      rw [show 2 * (θ / 2) = θ by ring] at this
      nlinarith
    have hs : 0 ≤ Real.sin (θ / 2) := Real.sin_nonneg_of_nonneg_of_le_pi (by linarith) (by linarith)
    have hsq := qDiffVec_sq he hg
    have hn : norm3 (qDiffVec e.q (gtQuat g)) = Real.sin (θ / 2) := by
      rw [norm3, ← Real.sqrt_sq hs]
      congr 1
      rw [hsq]
      nlinarith
    have e1 : r.ori * (Real.pi / 180) = 2 * Real.sin (θ / 2) := by
      rw [h1, hn]
      field_simp
    refine ⟨e1, ?_, ?_⟩
    · rw [e1]; linarith [Real.sin_le (x := θ / 2) (by linarith)]
    · rw [e1]
      have := Real.sin_ge_sub_cube (x := θ / 2) (by linarith)
      nlinarith

/-- the unit quaternion of a turn, as the error state defines it -/
noncomputable def pertQ (d : V3) : Quat := quatnorm ⟨0.5 * d 0, 0.5 * d 1, 0.5 * d 2, 1⟩

theorem pertQ_eq (d : V3) : pertQ d = (⟨0.5 * d 0, 0.5 * d 1, 0.5 * d 2, 1⟩ : Quat).divS (Real.sqrt (1 + dot3 d d / 4)) := by
  have hN : (⟨0.5 * d 0, 0.5 * d 1, 0.5 * d 2, 1⟩ : Quat).normSq = 1 + dot3 d d / 4 := by
    simp only [Quat.normSq, dot3]; ring
  unfold pertQ quatnorm
  simp only
  rw [if_neg (by norm_num)]
  simp only [Quat.norm, hN]

theorem qDiff_pert {e g : Quat} (he : IsUnitQ e) (hg : IsUnitQ g) (d : V3) (h : quat2Rot g = perturbRot d * quat2Rot e) : qDiff e g = quatInv (pertQ d) := by
  obtain ⟨u1, u2, u3⟩ := qDiff_spec he hg
  have hd : 0 ≤ dot3 d d := by simp only [dot3]; nlinarith [sq_nonneg (d 0), sq_nonneg (d 1), sq_nonneg (d 2)]
  have hp : 0 < 1 + dot3 d d / 4 := by linarith
  have hs := Real.sqrt_pos.2 hp
  have hss : Real.sqrt (1 + dot3 d d / 4) ^ 2 = 1 + dot3 d d / 4 := Real.sq_sqrt hp.le
  have hun : IsUnitQ (pertQ d) := by
    rw [pertQ_eq]
    set n := Real.sqrt (1 + dot3 d d / 4)
    simp only [IsUnitQ, Quat.divS]
    simp only [dot3] at hss
    field_simp
    nlinarith
  obtain ⟨i1, i2, -, -⟩ := C23_quat_inverse (pertQ d) hun
  have hw : 0 < (quatInv (pertQ d)).w := by
    rw [pertQ_eq]
    simp only [quatInv, Quat.divS]
    positivity
  have hR : quat2Rot (qDiff e g) = quat2Rot (quatInv (pertQ d)) := by
    rw [u3, h, Matrix.transpose_mul, ← Matrix.mul_assoc, (quat2Rot_isRot he).orth', Matrix.one_mul, i2]
    rfl
  have hw' : 0 < (qDiff e g).w := by
    have a := tr_quat2Rot u1
    have b := tr_quat2Rot i1
    rw [hR, b] at a
    rcases u2.lt_or_eq with q | q
    · exact q
    · rw [← q] at a; nlinarith
  rw [← C24_quaternion_round_trip _ u1 hw', ← C24_quaternion_round_trip _ i1 hw, hR]

/-- **C134** (nees) With positive definite covariances of orientation and position: if the true orientation is the estimate moved by `d` in the filter's own error state, then the number shown for the orientation is `dᵀ P⁻¹ d`, divided by `1 + |d|²/4`; the one for
the position is `eᵀ P⁻¹ e` with `e` the position error. Neither is negative, and they vanish only with the errors. -/
theorem C134_nees (e : Imu16) (g : Fin 17 → ℝ) (Pq Pp : M3) (hq : Pq.PosDef) (hp : Pp.PosDef) (he : IsUnitQ e.q) (hg : IsUnitQ (gtQuat g)) :
    ∃ r, errsOf e g Pq Pp = some r ∧ 0 ≤ r.neesOri ∧ 0 ≤ r.neesPos ∧ (r.neesOri = 0 ↔ r.ori = 0) ∧ (r.neesPos = 0 ↔ r.pos = 0) ∧
      (∃ w, Pp.mulVec w = e.p - gtPos g ∧ r.neesPos = (e.p - gtPos g) ⬝ᵥ w) ∧
      ∀ d, quat2Rot (gtQuat g) = perturbRot d * quat2Rot e.q → ∃ u, Pq.mulVec u = d ∧ r.neesOri = (d ⬝ᵥ u) / (1 + dot3 d d / 4) := by
  have hu : IsUnit Pq.det := (Matrix.isUnit_iff_isUnit_det _).1 hq.isUnit
  have hd : Pq.det ≠ 0 := hu.ne_zero
  obtain ⟨np, w, hnp, hw, hw2, hn0, hnz⟩ := maha_spec hp (e.p - gtPos g)
  obtain ⟨no, wo, hno, hwo, hwo2, hno0, hnoz⟩ := maha_spec hq ((2 : ℝ) • qDiffVec e.q (gtQuat g))
  have hno' : 2 * (qDiffVec e.q (gtQuat g) ⬝ᵥ (Pq⁻¹.mulVec ((2 : ℝ) • qDiffVec e.q (gtQuat g)))) = no := by
    rw [maha, if_neg hd, Option.some.injEq, smul_dotProduct, smul_eq_mul] at hno
    exact hno
  have nz : ∀ v : V3, norm3 v = 0 ↔ v = 0 := by
    intro v
    rw [norm3, Real.sqrt_eq_zero (by simp only [dot3]; nlinarith [sq_nonneg (v 0), sq_nonneg (v 1), sq_nonneg (v 2)])]
    simp only [dot3]
    constructor
    · intro h
      have h0 : v 0 = 0 := by nlinarith [sq_nonneg (v 0), sq_nonneg (v 1), sq_nonneg (v 2)]
      have h1 : v 1 = 0 := by nlinarith [sq_nonneg (v 0), sq_nonneg (v 1), sq_nonneg (v 2)]
      have h2 : v 2 = 0 := by nlinarith [sq_nonneg (v 0), sq_nonneg (v 1), sq_nonneg (v 2)]
      ext i; fin_cases i <;> assumption
    · rintro rfl; simp
  refine ⟨⟨180 / Real.pi * 2 * norm3 (qDiffVec e.q (gtQuat g)), norm3 (e.p - gtPos g), no, np⟩, ?_, hno0, hn0, ?_, ?_, ⟨w, hw, hw2⟩, fun d hdr => ?_⟩
  · unfold errsOf
    simp only
    rw [if_neg hd, hnp, hno']
    rfl
  · show no = 0 ↔ _ = 0
    have h2 : 180 / Real.pi * 2 ≠ 0 := by have := Real.pi_pos; positivity
    rw [hnoz, smul_eq_zero, mul_eq_zero, nz, or_iff_right h2, or_iff_right (by norm_num : (2 : ℝ) ≠ 0)]
  · exact hnz.trans (nz _).symm
  · have hdd : 0 ≤ dot3 d d := by simp only [dot3]; nlinarith [sq_nonneg (d 0), sq_nonneg (d 1), sq_nonneg (d 2)]
    have hpp : 0 < 1 + dot3 d d / 4 := by linarith
    have hs := Real.sqrt_pos.2 hpp
    have hss : Real.sqrt (1 + dot3 d d / 4) ^ 2 = 1 + dot3 d d / 4 := Real.sq_sqrt hpp.le
    have hv : (2 : ℝ) • qDiffVec e.q (gtQuat g) = (-1 / Real.sqrt (1 + dot3 d d / 4)) • d := by
      have hq' := qDiff_pert he hg d hdr
      rw [pertQ_eq] at hq'
      unfold qDiffVec
      rw [hq']
      ext i
      fin_cases i <;> simp [quatInv, Quat.divS] <;> ring
    refine ⟨Pq⁻¹.mulVec d, by rw [Matrix.mulVec_mulVec, Matrix.mul_nonsing_inv _ hu, Matrix.one_mulVec], ?_⟩
    show no = _
    rw [← hno', ← smul_eq_mul, ← smul_dotProduct, hv, Matrix.mulVec_smul, smul_dotProduct, dotProduct_smul, smul_eq_mul, smul_eq_mul]
    generalize d ⬝ᵥ Pq⁻¹.mulVec d = X
    rw [show ∀ S : ℝ, -1 / S * (-1 / S * X) = X / S ^ 2 from fun S => by ring, hss]

/-- **C134** (half a turn) With the estimate upside down, half a turn about an axis off, the number shown is 360/π degrees, some 115, not 180. -/
theorem C134_half_turn_counterexample : ∃ (e : Imu16) (g : Fin 17 → ℝ) (r : Errs), IsUnitQ e.q ∧ IsUnitQ (gtQuat g) ∧ Eval.Spec.Angle (quat2Rot e.q) (quat2Rot (gtQuat g)) Real.pi ∧
    errsOf e g 1 1 = some r ∧ r.ori = 360 / Real.pi ∧ r.ori < 120 := by
  let e : Imu16 := ⟨⟨1, 0, 0, 0⟩, 0, 0, 0, 0⟩
  let g : Fin 17 → ℝ := fun i => if i = 4 then 1 else 0
  have he : IsUnitQ e.q := by simp [IsUnitQ, e]
  have hgq : gtQuat g = ⟨0, 0, 0, 1⟩ := by simp [gtQuat, g]
  have hg : IsUnitQ (gtQuat g) := by rw [hgq]; simp [IsUnitQ]
  obtain ⟨r, hr, -⟩ := C134_nees e g 1 1 Matrix.PosDef.one Matrix.PosDef.one he hg
  have hA : Eval.Spec.Angle (quat2Rot e.q) (quat2Rot (gtQuat g)) Real.pi := by
    refine ⟨Real.pi_pos.le, le_rfl, ?_⟩
    rw [hgq, Real.cos_pi]
    simp [tr3, e, quat2Rot, skew, outer, Quat.vec, Matrix.one_apply, Matrix.mul_apply, Fin.sum_univ_three]
    norm_num
  have h2 := ((C134_errors e g 1 1 r hr he hg).2 _ hA).1
  rw [Real.sin_pi_div_two] at h2
  have hpi := Real.pi_gt_three
  have h3 : r.ori = 360 / Real.pi := by
    rw [eq_div_iff (by positivity)]
    linarith
  refine ⟨e, g, r, he, hg, hA, hr, h3, ?_⟩
  rw [h3, div_lt_iff₀ (by positivity)]
  linarith

/-! ## One call -/

namespace Spec

/-- `g` is the ground truth, at time `t`, for a state at time `ts` whose estimate of the offset between the clocks is `off`: what a file has (C125) for the time of the state in the clock of the IMU, as estimated; what a simulator has for that time with its true offset -/
inductive TruthFor : Truth → ℝ → ℝ → ℝ → (Fin 17 → ℝ) → Prop
  | file (gt : List (ℝ × GtRow)) (ts off : ℝ) (g : Fin 17 → ℝ) (h : gtState (ts + off) gt = some g) : TruthFor (.file gt) ts off (ts + off) g
  | sim (d : ℝ) (f : ℝ → Option (Fin 17 → ℝ)) (ts off : ℝ) (g : Fin 17 → ℝ) (h : f (ts + d) = some g) : TruthFor (.sim d f) ts off (ts + d) g

end Spec

theorem truthAt_iff (T : Truth) (ts off t : ℝ) (g : Fin 17 → ℝ) : truthAt T ts off = some (t, g) ↔ Spec.TruthFor T ts off t g := by
  cases T with
  | file gt =>
    constructor
    · intro h
      unfold truthAt at h
      simp only at h
      split_ifs at h
      rw [Option.map_eq_some_iff] at h
      obtain ⟨a, ha, h⟩ := h
      obtain ⟨rfl, rfl⟩ := Prod.mk.inj h
      exact .file gt ts off _ ha
    · rintro ⟨⟩
      rename_i h
      have hne : gt ≠ [] := by
        rintro rfl
        simp [gtState, closest] at h
      unfold truthAt
      simp only
      rw [if_neg hne, h]
      rfl
  | sim d f =>
    constructor
    · intro h
      unfold truthAt at h
      simp only at h
      rw [Option.map_eq_some_iff] at h
      obtain ⟨a, ha, h⟩ := h
      obtain ⟨rfl, rfl⟩ := Prod.mk.inj h
      exact .sim d f ts off _ ha
    · rintro ⟨⟩
      rename_i h
      unfold truthAt
      simp only
      rw [h]
      rfl

/-- **C134** (call) A call shows something exactly when there is a ground truth for the time of the state; then it is the one for that time — of the file at the state's time in the clock of the IMU, of the simulator with the true offset —, it is appended to the path, and the numbers are those between
the current estimate and it, with the blocks of the current covariance that belong to orientation and position of the IMU. -/
theorem C134_call (T : Truth) (m m' : GtMem) (s : State) (o : Option ((Stamp × PoseMsg) × List (Stamp × PoseMsg) × Shown)) (h : publishGt T m s = some (m', o)) :
    ∃ x : Imu16, ∃ n off, (s.obj imuUid).val = .imu x ∧ (s.obj dtUid).val = .vec n off ∧
      ((∀ t g, ¬ Spec.TruthFor T s.ts (off 0) t g) → m' = m ∧ o = none) ∧
      ∀ t g, Spec.TruthFor T s.ts (off 0) t g → ∃ st w, ∃ k : ℕ, ∃ Pq Pp : M3, stampOf t = some st ∧ (s.obj imuUid).id = k ∧
        (∀ i j : Fin 3, Pq i j = s.P (k + i) (k + j) ∧ Pp i j = s.P (k + 3 + i) (k + 3 + j)) ∧
        errsOf x g Pq Pp = some w.now ∧ m'.poses = m.poses ++ [(st, ⟨gtQuat g, gtPos g⟩)] ∧ o = some ((st, ⟨gtQuat g, gtPos g⟩), pathOf m'.poses, w) := by
  unfold publishGt at h
  rw [Option.bind_eq_some_iff] at h
  obtain ⟨off, hoff, h⟩ := h
  rw [Option.bind_eq_some_iff] at h
  obtain ⟨⟨x, f⟩, hx, h⟩ := h
  have hx' : (s.obj imuUid).val = .imu x := by
    unfold imuOf at hx
    split at hx
    · rename_i a b h1 h2; simp only [Option.some.injEq, Prod.mk.injEq] at hx; rw [h1, hx.1]
    · cases hx
  have ho' : ∃ n o, (s.obj dtUid).val = .vec n o ∧ off = o 0 := by
    unfold tOff at hoff
    split at hoff
    · rename_i n o h1; simp only [Option.some.injEq] at hoff; exact ⟨n, o, h1, hoff.symm⟩
    · cases hoff
  obtain ⟨n, off', ho, rfl⟩ := ho'
  refine ⟨x, n, off', hx', ho, fun hT => ?_, fun t g hT => ?_⟩
  · have hn : truthAt T s.ts (off' 0) = none := Option.eq_none_iff_forall_not_mem.2 fun a ha => hT a.1 a.2 ((truthAt_iff _ _ _ _ _).1 ha)
    rw [hn] at h
    simp only [Option.some.injEq, Prod.mk.injEq] at h
    exact ⟨h.1.symm, h.2.symm⟩
  · rw [(truthAt_iff _ _ _ _ _).2 hT] at h
    simp only at h
    rw [Option.bind_eq_some_iff] at h
    obtain ⟨st, hst, h⟩ := h
    rw [Option.bind_eq_some_iff] at h
    obtain ⟨M, hM, h⟩ := h
    rw [Option.map_eq_some_iff] at h
    obtain ⟨e, he, h⟩ := h
    simp only [Prod.mk.injEq] at h
    obtain ⟨rfl, rfl⟩ := h
    have hid : 0 ≤ (s.obj imuUid).id := by
      by_contra hneg
      have : resolveAll s [(imuUid, Sub.q), (imuUid, Sub.p)] = none := by
        simp [resolveAll, resolve, hx', Val.part, hneg]
      simp [getMarginal, this] at hM
    obtain ⟨k, hk⟩ := Int.eq_ofNat_of_zero_le hid
    have hL : resolveAll s [(imuUid, Sub.q), (imuUid, Sub.p)] = some [(k, 3), (k + 3, 3)] := by
      by_cases hn : k + 3 + 3 ≤ s.n
      · have hn' : k + 3 ≤ s.n := by omega
        simp [resolveAll, resolve, hx', Val.part, hk, Val.size, hn, hn']
      · have : resolveAll s [(imuUid, Sub.q), (imuUid, Sub.p)] = none := by
          simp [resolveAll, resolve, hx', Val.part, hk, Val.size, hn]
        simp [getMarginal, this] at hM
    obtain ⟨M', hM', _, _, hb⟩ := C13_marginal_blocks (s := s) _ _ hL
    obtain rfl : M = M' := by rw [hM] at hM'; exact Option.some.inj hM'
    have h00 := hb 0 0 (k, 3) (k, 3) rfl rfl
    have h11 := hb 1 1 (k + 3, 3) (k + 3, 3) rfl rfl
    simp only [Verif.St.Spec.off, List.take, List.map, List.sum_nil, List.sum_cons, zero_add, Nat.add_zero] at h00 h11
    refine ⟨st, shownOf (m.sums.add e) e, k, blk3 M.a 0, blk3 M.a 3, hst, hk, fun i j => ⟨?_, ?_⟩, he, rfl, rfl⟩
    · have := h00 i j i.2 j.2
      simpa [blk3] using this
    · exact h11 i j i.2 j.2

/-! ## A run -/

/-- the sums are those of a list of comparisons -/
structure SumsOf (S : Sums) (es : List Errs) : Prop where
  num : S.num = es.length
  mo : S.mseOri = (es.map fun e => e.ori ^ 2).sum
  mp : S.msePos = (es.map fun e => e.pos ^ 2).sum
  no : S.neesOri = (es.map fun e => e.neesOri).sum
  np : S.neesPos = (es.map fun e => e.neesPos).sum

theorem SumsOf.add {S : Sums} {es : List Errs} (h : SumsOf S es) (e : Errs) : SumsOf (S.add e) (es ++ [e]) := by
  obtain ⟨a, b, c, d, f⟩ := h
  refine ⟨by simp [Sums.add, a], ?_, ?_, ?_, ?_⟩ <;> simp [Sums.add, b, c, d, f] <;> ring

namespace Spec

/-- the running figures of a list of comparisons: root mean squares and means of all of them -/
def Running (es : List Errs) (w : Shown) : Prop :=
  es.getLast? = some w.now ∧ w.calls = es.length ∧
  0 ≤ w.rmseOri ∧ w.rmseOri ^ 2 * es.length = (es.map fun e => e.ori ^ 2).sum ∧
  0 ≤ w.rmsePos ∧ w.rmsePos ^ 2 * es.length = (es.map fun e => e.pos ^ 2).sum ∧
  w.avgOri * es.length = (es.map fun e => e.neesOri).sum ∧ w.avgPos * es.length = (es.map fun e => e.neesPos).sum

end Spec

theorem SumsOf.shown {S : Sums} {es : List Errs} (h : SumsOf S es) (e : Errs) : Spec.Running (es ++ [e]) (shownOf (S.add e) e) := by
  have h' := h.add e
  have hn : ((es ++ [e]).length : ℝ) ≠ 0 := by simp; positivity
  have sq : ∀ f : Errs → ℝ, 0 ≤ ((es ++ [e]).map fun x => f x ^ 2).sum := by
    intro f
    apply List.sum_nonneg
    intro y hy
    obtain ⟨x, -, rfl⟩ := List.mem_map.1 hy
    positivity
  refine ⟨by simp [shownOf], by simp [shownOf, h'.num], Real.sqrt_nonneg _, ?_, Real.sqrt_nonneg _, ?_, ?_, ?_⟩
  · simp only [shownOf]
    rw [h'.mo, h'.num, Real.sq_sqrt (div_nonneg (sq _) (Nat.cast_nonneg _)), div_mul_cancel₀ _ hn]
  · simp only [shownOf]
    rw [h'.mp, h'.num, Real.sq_sqrt (div_nonneg (sq _) (Nat.cast_nonneg _)), div_mul_cancel₀ _ hn]
  · simp only [shownOf]
    rw [h'.no, h'.num, div_mul_cancel₀ _ hn]
  · simp only [shownOf]
    rw [h'.np, h'.num, div_mul_cancel₀ _ hn]

theorem runGt_sums (T : Truth) (ss : List State) : ∀ (m m' : GtMem) (ws : List Shown) (es : List Errs), SumsOf m.sums es → runGt T m ss = some (m', ws) →
    SumsOf m'.sums (es ++ ws.map Shown.now) ∧ ∀ (n : ℕ) w, ws[n]? = some w → Spec.Running (es ++ (ws.map Shown.now).take (n + 1)) w := by
  induction ss with
  | nil =>
    intro m m' ws es hS h
    simp only [runGt, Option.some.injEq, Prod.mk.injEq] at h
    obtain ⟨rfl, rfl⟩ := h
    simpa using hS
  | cons s ss ih =>
    intro m m' ws es hS h
    rw [runGt, Option.bind_eq_some_iff] at h
    obtain ⟨⟨m1, o⟩, hc, h⟩ := h
    rw [Option.map_eq_some_iff] at h
    obtain ⟨⟨m2, ws'⟩, hr, h⟩ := h
    simp only [Prod.mk.injEq] at h
    obtain ⟨rfl, rfl⟩ := h
    have key : (m1 = m ∧ o = none) ∨ ∃ e a b, m1.sums = m.sums.add e ∧ o = some (a, b, shownOf (m.sums.add e) e) := by
      unfold publishGt at hc
      rw [Option.bind_eq_some_iff] at hc
      obtain ⟨off, -, hc⟩ := hc
      rw [Option.bind_eq_some_iff] at hc
      obtain ⟨x, -, hc⟩ := hc
      split at hc
      · simp only [Option.some.injEq, Prod.mk.injEq] at hc
        exact Or.inl ⟨hc.1.symm, hc.2.symm⟩
      · rw [Option.bind_eq_some_iff] at hc
        obtain ⟨st, -, hc⟩ := hc
        rw [Option.bind_eq_some_iff] at hc
        obtain ⟨M, -, hc⟩ := hc
        rw [Option.map_eq_some_iff] at hc
        obtain ⟨e, -, hc⟩ := hc
        simp only [Prod.mk.injEq] at hc
        obtain ⟨rfl, rfl⟩ := hc
        exact Or.inr ⟨e, _, _, rfl, rfl⟩
    rcases key with ⟨rfl, rfl⟩ | ⟨e, a, b, h1, rfl⟩
    · simpa using ih _ _ _ es hS hr
    · obtain ⟨i1, i2⟩ := ih m1 _ ws' (es ++ [e]) (h1 ▸ hS.add e) hr
      refine ⟨by simpa [shownOf] using i1, fun n w hw => ?_⟩
      cases n with
      | zero =>
        simp only [Option.map_some, Option.toList_some, List.cons_append, List.nil_append, List.getElem?_cons_zero, Option.some.injEq] at hw
        subst hw
        simpa [shownOf] using hS.shown e
      | succ n =>
        have := i2 n w (by simpa using hw)
        simpa [shownOf] using this

/-- **C134** (running figures) Over any run from the start: at each call that shows something the number of calls is that of the comparisons shown so far, the two RMSE are the root mean squares of all the errors shown so far, this one included, and the two average NEES the means of all those
shown so far; calls without a ground truth count for nothing. -/
theorem C134_running (T : Truth) (ss : List State) (m' : GtMem) (ws : List Shown) (h : runGt T ⟨[], Sums.zero⟩ ss = some (m', ws)) (n : ℕ) (w : Shown) (hw : ws[n]? = some w) :
    Spec.Running ((ws.map Shown.now).take (n + 1)) w := by
  have := (runGt_sums T ss _ _ ws [] ⟨rfl, rfl, rfl, rfl, rfl⟩ h).2 n w hw
  simpa using this

/-- the ground truth of the example: a metre to the side -/
def exG : Fin 17 → ℝ := fun i => if i = 4 ∨ i = 5 then 1 else 0

theorem exG_quat : gtQuat exG = ⟨0, 0, 0, 1⟩ := by simp [gtQuat, exG]

theorem exGt_call (m : GtMem) (t : ℝ) (h0 : 0 ≤ t) (h1 : t < 100) :
    ∃ m' o, publishGt (.sim 0 fun _ => some exG) m { ctor exO with ts := t } = some (m', some o) ∧ o.2.2.now.pos = 1 := by
  obtain ⟨c1, c2, c3, c4, c5, c6, c7, c8, c9, -⟩ := ctor_exO
  have hP : ∀ i j, (ctor exO).P i j = 1e-3 ^ 2 * Mat.one i j := by
    intro i j
    simp [ctor, priors, exO]
  obtain ⟨st, hst, -⟩ := C119_stamp t h0 (by norm_num; linarith)
  have hoff : tOff { ctor exO with ts := t } = some 0 := by
    unfold tOff
    simp only [dtUid, c9]
  have hx : imuOf { ctor exO with ts := t } = some (imu0, imu0) := by
    unfold imuOf
    simp only [imuUid, c7, c8]
  have hL : resolveAll { ctor exO with ts := t } [(imuUid, Sub.q), (imuUid, Sub.p)] = some [(0, 3), (3, 3)] := by
    simp [resolveAll, resolve, imuUid, c2, c6, c7, Val.part, Val.size]
  obtain ⟨M, hM, -, -, hb⟩ := C13_marginal_blocks (s := { ctor exO with ts := t }) _ _ hL
  have h00 := hb 0 0 (0, 3) (0, 3) rfl rfl
  have h11 := hb 1 1 (3, 3) (3, 3) rfl rfl
  simp only [Verif.St.Spec.off, List.take, List.map, List.sum_nil, List.sum_cons, zero_add, Nat.add_zero] at h00 h11
  have e0 : blk3 M.a 0 = (1e-3 ^ 2 : ℝ) • (1 : M3) := by
    ext i j
    have := h00 i j i.2 j.2
    simp only [blk3, zero_add]
    rw [this, hP, Matrix.smul_apply, Matrix.one_apply, Mat.one, smul_eq_mul]
    simp only [Fin.ext_iff]
  have e1 : blk3 M.a 3 = (1e-3 ^ 2 : ℝ) • (1 : M3) := by
    ext i j
    have := h11 i j i.2 j.2
    simp only [blk3]
    rw [this, hP, Matrix.smul_apply, Matrix.one_apply, Mat.one, smul_eq_mul]
    simp only [Fin.ext_iff, Nat.add_left_cancel_iff]
  have hpd : ((1e-3 ^ 2 : ℝ) • (1 : M3)).PosDef := Matrix.PosDef.one.smul (by norm_num)
  have hu0 : IsUnitQ imu0.q := by simp [IsUnitQ, imu0]
  have hug : IsUnitQ (gtQuat exG) := by rw [exG_quat]; simp [IsUnitQ]
  obtain ⟨r, hr, -⟩ := C134_nees imu0 exG _ _ hpd hpd hu0 hug
  have hpos := (C134_errors imu0 exG _ _ r hr hu0 hug).1
  refine ⟨⟨m.poses ++ [(st, ⟨gtQuat exG, gtPos exG⟩)], m.sums.add r⟩, ((st, ⟨gtQuat exG, gtPos exG⟩), pathOf (m.poses ++ [(st, ⟨gtQuat exG, gtPos exG⟩)]), shownOf (m.sums.add r) r), ?_, ?_⟩
  · unfold publishGt
    rw [hoff, hx]
    simp only [Option.bind_some, truthAt, Option.map_some, add_zero]
    rw [hst, hM]
    simp only [Option.bind_some, e0, e1]
    rw [hr]
    simp only [Option.map_some]
  · simp only [shownOf]
    rw [hpos]
    simp [imu0, exG]

/-- a run with two calls: both are shown, each a metre off -/
example : ∃ m' ws, runGt (.sim 0 fun _ => some exG) ⟨[], Sums.zero⟩ [{ ctor exO with ts := 5 }, { ctor exO with ts := 6 }] = some (m', ws) ∧ ws.length = 2 ∧ ∀ w ∈ ws, w.now.pos = 1 := by
  obtain ⟨m1, o1, h1, p1⟩ := exGt_call ⟨[], Sums.zero⟩ 5 (by norm_num) (by norm_num)
  obtain ⟨m2, o2, h2, p2⟩ := exGt_call m1 6 (by norm_num) (by norm_num)
  refine ⟨m2, [o1.2.2, o2.2.2], ?_, rfl, by simp [p1, p2]⟩
  simp only [runGt, h1, h2, Option.bind_some, Option.map_some, Option.toList_some, List.append_nil, List.cons_append, List.nil_append]

/-! ## The ground truth in the frame of the estimate -/

theorem alignTrajectory_rot (svd : M3 → M3 × V3 × M3) (hsvd : ∀ A, Eval.Spec.IsSVD A (svd A)) (es gt : List Pose) (he : ∀ x ∈ es, IsUnitQ x.q) (hg : ∀ x ∈ gt, IsUnitQ x.q) (m : Eval.Method) (n : ℤ) (a : M3 × V3 × ℝ)
    (h : alignTrajectory svd es gt m n = some a) : IsRot a.1 ∧ (m ≠ .sim3 → a.2.2 = 1) := by
  have hu : ∀ (k y : Bool) (d md : List V3) (a : M3 × V3 × ℝ), umeyama svd d md k y = some a → IsRot a.1 ∧ (k = true → a.2.2 = 1) := by
    intro k y d md a hum
    unfold umeyama at hum
    simp only at hum
    split_ifs at hum <;> (obtain rfl := Option.some.inj hum) <;> simp_all
    all_goals first
      | exact rotZ_isRot _
      | exact (svd_max (hsvd _)).1
  have hpy : ∀ r, posyawSingle es gt = some r → IsRot r.1 := by
    intro r hr
    unfold posyawSingle at hr
    simp only [Option.bind_eq_bind, Option.bind_eq_some_iff, Option.some.injEq] at hr
    obtain ⟨e, -, g, -, rfl⟩ := hr
    exact rotZ_isRot _
  have hse : ∀ r, se3Single es gt = some r → IsRot r.1 := by
    intro r hr
    unfold se3Single at hr
    simp only [Option.bind_eq_bind, Option.bind_eq_some_iff, Option.some.injEq] at hr
    obtain ⟨e, h1, g, h2, rfl⟩ := hr
    exact (quat2Rot_isRot (hg _ (List.mem_of_getElem? h2))).transpose.mul (quat2Rot_isRot (he _ (List.mem_of_getElem? h1))).transpose.transpose
  unfold alignTrajectory at h
  cases m with
  | posyaw =>
    simp only at h
    split_ifs at h
    · rw [Option.map_eq_some_iff] at h
      obtain ⟨r, hr, rfl⟩ := h
      exact ⟨hpy r hr, fun _ => rfl⟩
    · exact ⟨(hu _ _ _ _ _ h).1, fun _ => (hu _ _ _ _ _ h).2 rfl⟩
  | posyawsingle =>
    simp only at h
    rw [Option.map_eq_some_iff] at h
    obtain ⟨r, hr, rfl⟩ := h
    exact ⟨hpy r hr, fun _ => rfl⟩
  | se3 =>
    simp only at h
    split_ifs at h
    · rw [Option.map_eq_some_iff] at h
      obtain ⟨r, hr, rfl⟩ := h
      exact ⟨hse r hr, fun _ => rfl⟩
    · exact ⟨(hu _ _ _ _ _ h).1, fun _ => (hu _ _ _ _ _ h).2 rfl⟩
  | se3single =>
    simp only at h
    rw [Option.map_eq_some_iff] at h
    obtain ⟨r, hr, rfl⟩ := h
    exact ⟨hse r hr, fun _ => rfl⟩
  | sim3 =>
    simp only at h
    split_ifs at h
    exact ⟨(hu _ _ _ _ _ h).1, fun q => absurd rfl q⟩
  | none =>
    simp only [Option.some.injEq] at h
    subst h
    exact ⟨IsRot.one, fun _ => rfl⟩

/-- taking a pose of the ground truth to the frame of the estimate is undone by the alignment -/
theorem liveBack_align {a : M3 × V3 × ℝ} (hR : IsRot a.1) (hs : a.2.2 ≠ 0) {x : Pose} (hx : IsUnitQ x.q) :
    IsUnitQ (liveBack a x).q ∧ (applyAlign a (liveBack a x)).p = x.p ∧ quat2Rot (applyAlign a (liveBack a x)).q = quat2Rot x.q ∧ quat2Rot (liveBack a x).q = quat2Rot x.q * a.1 := by
  obtain ⟨R, t, s⟩ := a
  have hr := C24_rotation_round_trip.2 R hR
  have hm := C23_quat_multiply x.q (rot2quat R) hx hr.1.1
  have hal := align_rot hR t s (x := liveBack (R, t, s) x) hm.1
  have e1 : quat2Rot (liveBack (R, t, s) x).q = quat2Rot x.q * R := by
    show quat2Rot (quatMul x.q (rot2quat R)) = _
    rw [hm.2.2, hr.2]
  refine ⟨hm.1, ?_, ?_, e1⟩
  · simp only at hs
    show s • R.mulVec ((1 / s) • R.transpose.mulVec (x.p - t)) + t = x.p
    rw [Matrix.mulVec_smul, Matrix.mulVec_mulVec, hR.orth', Matrix.one_mulVec, smul_smul, mul_one_div_cancel hs, one_smul, sub_add_cancel]
  · rw [hal.2, e1, Matrix.mul_assoc, hR.orth', Matrix.mul_one]

/-- **C135** Whenever a path is published for a path of estimates: at least three entries of the two lists were paired — in order, none used twice, closer than 0.02 s — and one alignment of the paired estimates to the paired ground truth, by the method asked for, was found; each pose published carries the time of a paired
entry of the ground truth and, moved by that alignment as estimates are when they are evaluated, is that entry's pose, position and orientation. With fewer than 16384 pairs every one of them is published, in order. (A similarity of scale zero is excluded; only the method `sim3` can find one.) -/
theorem C135_live (svd : M3 → M3 × V3 × M3) (hsvd : ∀ A, Eval.Spec.IsSVD A (svd A)) (m : Eval.Method) (gt : Traj Pose M3) (times : List ℝ) (poses : List Pose) (hl : poses.length = times.length) (hgl : gt.poses.length = gt.times.length)
    (hu : ∀ x ∈ poses, IsUnitQ x.q) (hgu : ∀ x ∈ gt.poses, IsUnitQ x.q) (out : List (ℝ × Pose)) (h : liveAlign svd m gt times poses = some (some out)) :
    ∃ l es gs a, 3 ≤ l.length ∧ Eval.Spec.Pairs times gt.times l ∧ es.length = l.length ∧ gs.length = l.length ∧ (∀ (n : ℕ) p, l[n]? = some p → es[n]? = poses[p.1]? ∧ gs[n]? = gt.poses[p.2]?) ∧ alignTrajectory svd es gs m (-1) = some a ∧
      IsRot a.1 ∧ (m ≠ .sim3 → a.2.2 = 1) ∧ out.length ≤ 16384 ∧ (l.length < 16384 → out.length = l.length) ∧
      (∀ n x, out[n]? = some x → ∃ p t g, l[n * (l.length / 16384 + 1)]? = some p ∧ gt.times[p.2]? = some t ∧ gt.poses[p.2]? = some g ∧ x.1 = t ∧
        (a.2.2 ≠ 0 → (applyAlign a x.2).p = g.p ∧ quat2Rot (applyAlign a x.2).q = quat2Rot g.q)) := by
  unfold liveAlign at h
  rw [Option.bind_eq_some_iff] at h
  obtain ⟨⟨e, g⟩, hEG, h⟩ := h
  simp only at h
  split_ifs at h with h3
  · cases h
  rw [Option.map_eq_some_iff] at h
  obtain ⟨a, ha, h⟩ := h
  obtain rfl := Option.some.inj h
  obtain ⟨e', g', hp, hlt, hge⟩ := C54_lists (0 : M3) 0 0.02 ⟨times, poses, [], []⟩ ⟨gt.times, gt.poses, [], []⟩ hl hgl (Or.inl rfl) (Or.inl rfl)
  rw [hEG] at hp
  obtain ⟨rfl, rfl⟩ := Prod.mk.inj (Option.some.inj hp)
  simp only at hlt hge
  have h3' : 3 ≤ times.length := by
    by_contra hc
    obtain ⟨q1, -⟩ := hlt (by omega)
    rw [q1] at h3
    simp only at h3
    omega
  obtain ⟨l1, l2, l3, l4, hat, -, -⟩ := hge h3'
  obtain ⟨o1, o2⟩ := C54_monotone_injective 0 0.02 times gt.times
  have hat' : ∀ (n : ℕ) p, (matches_ 0 0.02 times gt.times)[n]? = some p → e.poses[n]? = poses[p.1]? ∧ g.poses[n]? = gt.poses[p.2]? ∧ g.times[n]? = gt.times[p.2]? := by
    intro n p hnp
    obtain ⟨hn, rfl⟩ := List.getElem?_eq_some_iff.1 hnp
    obtain ⟨b1, b2, b3, -⟩ := hat n hn
    exact ⟨b1, b2, b3⟩
  have hes : ∀ x ∈ e.poses, IsUnitQ x.q := by
    intro x hx
    obtain ⟨n, hn⟩ := List.mem_iff_getElem?.1 hx
    have hlt' : n < (matches_ 0 0.02 times gt.times).length := by rw [← l3]; exact (List.getElem?_eq_some_iff.1 hn).1
    have := (hat' n _ (List.getElem?_eq_getElem hlt')).1
    rw [hn] at this
    exact hu x (List.mem_of_getElem? this.symm)
  have hgs : ∀ x ∈ g.poses, IsUnitQ x.q := by
    intro x hx
    obtain ⟨n, hn⟩ := List.mem_iff_getElem?.1 hx
    have hlt' : n < (matches_ 0 0.02 times gt.times).length := by rw [← l4]; exact (List.getElem?_eq_some_iff.1 hn).1
    have := (hat' n _ (List.getElem?_eq_getElem hlt')).2.1
    rw [hn] at this
    exact hgu x (List.mem_of_getElem? this.symm)
  obtain ⟨hR, hs1⟩ := alignTrajectory_rot svd hsvd _ _ hes hgs m _ a ha
  have hlen : ((g.times.zip g.poses).map fun x => (x.1, liveBack a x.2)).length = (matches_ 0 0.02 times gt.times).length := by
    rw [List.length_map, List.length_zip, l2, l4, min_self]
  obtain ⟨p1, p2, p3⟩ := C119_path ((g.times.zip g.poses).map fun x => (x.1, liveBack a x.2))
  refine ⟨matches_ 0 0.02 times gt.times, e.poses, g.poses, a, by omega, ⟨o1, ?_⟩, l3, l4, fun n p hp => ⟨(hat' n p hp).1, (hat' n p hp).2.1⟩, ha, hR, hs1, p3, ?_, ?_⟩
  · intro x hx
    obtain ⟨a1, a2, a3⟩ := o2 x hx
    exact ⟨_, _, List.getElem?_eq_getElem a1, List.getElem?_eq_getElem a2, by rwa [add_zero] at a3⟩
  · intro hlt'
    rw [p2 (by rw [hlen]; exact hlt'), hlen]
  · intro n x hx
    rw [p1, hlen] at hx
    have hb := (List.getElem?_eq_some_iff.1 hx).1
    rw [hlen] at hb
    obtain ⟨b1, b2, b3⟩ := hat' _ _ (List.getElem?_eq_getElem hb)
    rw [List.getElem?_map, Option.map_eq_some_iff] at hx
    obtain ⟨⟨t, y⟩, hz, rfl⟩ := hx
    rw [List.getElem?_zip_eq_some] at hz
    refine ⟨_, t, y, List.getElem?_eq_getElem hb, by rw [← b3]; exact hz.1, by rw [← b2]; exact hz.2, rfl, fun hs => ?_⟩
    obtain ⟨-, c1, c2, -⟩ := liveBack_align hR hs (hgs y (List.mem_of_getElem? hz.2))
    exact ⟨c1, c2⟩

/-- the hypotheses can be met: with no alignment asked for, three poses that match the ground truth of a straight line are shown as they are -/
example : ∃ (gt : Traj Pose M3) (times : List ℝ) (poses : List Pose) (out : List (ℝ × Pose)), poses.length = times.length ∧ gt.poses.length = gt.times.length ∧ (∀ x ∈ poses, IsUnitQ x.q) ∧ (∀ x ∈ gt.poses, IsUnitQ x.q) ∧
    ∀ svd, liveAlign svd .none gt times poses = some (some out) ∧ out.length = 3 := by
  let P : ℝ → Pose := fun t => ⟨![t, 0, 0], ⟨0, 0, 0, 1⟩⟩
  let T : List ℝ := [1, 2, 3]
  have hu : ∀ x ∈ T.map P, IsUnitQ x.q := by
    intro x hx
    obtain ⟨t, -, rfl⟩ := List.mem_map.1 hx
    simp [IsUnitQ, P]
  obtain ⟨e', g', hp, -, hge⟩ := C54_lists (0 : M3) 0 0.02 ⟨T, T.map P, [], []⟩ ⟨T, T.map P, [], []⟩ rfl rfl (Or.inl rfl) (Or.inl rfl)
  simp only at hge
  obtain ⟨l1, l2, l3, l4, -⟩ := hge (by simp [T])
  have hm : matches_ 0 0.02 T T = [(0, 0), (1, 1), (2, 2)] := by
    norm_num [T, matches_, matchFrom, skipFar, climb, abs_of_pos, abs_of_neg]
  rw [hm] at l1 l2 l3 l4
  refine ⟨⟨T, T.map P, [], []⟩, T, T.map P, pathOf ((g'.times.zip g'.poses).map fun x => (x.1, liveBack (1, 0, 1) x.2)), rfl, rfl, hu, hu, fun svd => ⟨?_, ?_⟩⟩
  · unfold liveAlign
    simp only
    rw [hp]
    simp only [Option.bind_some, l3]
    rw [if_neg (by simp)]
    rfl
  · rw [(C119_path _).2.1 (by simp [l2, l4])]
    simp [l2, l4]

end Verif.Ros
