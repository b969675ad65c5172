import Verif.Quat.Props
import Verif.Quat.PropsB
import Mathlib.Analysis.SpecialFunctions.Trigonometric.Bounds
import Mathlib.Analysis.SpecialFunctions.Trigonometric.Inverse

/-! # `exp` after `log`: every rotation is reached -/

namespace Verif

open Matrix

/-- The trace of a rotation written with axis and angle. -/
theorem tr3_rodr {w : V3} (h : norm3 w ≠ 0) :
    tr3 (rodr (Real.sin (norm3 w) / norm3 w) ((1 - Real.cos (norm3 w)) / (norm3 w * norm3 w)) w) = 1 + 2 * Real.cos (norm3 w) := by
  simp only [tr3, rodr00, rodr11, rodr22]
  have := norm3_sq' w
  field_simp
  linear_combination 2 * (1 - Real.cos (norm3 w)) * this

namespace QuatProps

/-- **C25** (axis and angle) Every rotation is the turn by an angle of at most `π` about an axis: it is given by a rotation vector `w` in the closed form of the exponential, and its trace is `1 + 2 cos |w|`. -/
theorem C25_axis_angle (R : M3) (hR : IsRot R) :
    R = 1 ∨ ∃ w : V3, 0 < norm3 w ∧ norm3 w ≤ Real.pi ∧ tr3 R = 1 + 2 * Real.cos (norm3 w) ∧
      R = 1 + (Real.sin (norm3 w) / norm3 w) • skew w + ((1 - Real.cos (norm3 w)) / (norm3 w * norm3 w)) • (skew w * skew w) := by
  obtain ⟨⟨hu, hw⟩, hq⟩ := C24_rotation_round_trip.2 R hR
  generalize rot2quat R = q at hu hw hq
  have hvv : dot3 q.vec q.vec = 1 - q.w ^ 2 := by
    rw [IsUnitQ] at hu
    simp only [dot3, Quat.vec]
    simp
    linarith
  have hw1 : q.w ≤ 1 := by
    have := dot3_self_nonneg q.vec
    nlinarith
  by_cases hz : norm3 q.vec = 0
  · left
    have h0 := norm3_eq_zero.1 hz
    have hq1 : q.w ^ 2 = 1 := by rw [h0] at hvv; simp [dot3] at hvv; linarith
    rw [← hq, quat2Rot, h0, hq1]
    have hs : skew (0 : V3) = 0 := by apply m3_ext <;> simp [skew]
    have ho : outer (0 : V3) 0 = 0 := by apply m3_ext <;> simp [outer]
    rw [hs, ho]
    simp
    norm_num
  · right
    have hpos : 0 < norm3 q.vec := lt_of_le_of_ne (norm3_nonneg _) (Ne.symm hz)
    obtain ⟨φ, hφ⟩ : ∃ φ, φ = Real.arccos q.w := ⟨_, rfl⟩
    have hc : Real.cos φ = q.w := by rw [hφ]; exact Real.cos_arccos (by linarith) hw1
    have hs : Real.sin φ = norm3 q.vec := by
      rw [hφ, Real.sin_arccos, norm3, hvv]
    have hφ0 : 0 < φ := by
      rcases lt_or_eq_of_le (show 0 ≤ φ from hφ ▸ Real.arccos_nonneg _) with h | h
      · exact h
      · rw [← h, Real.sin_zero] at hs; exact absurd hs.symm hz
    have hφ1 : φ ≤ Real.pi / 2 := by rw [hφ]; exact Real.arccos_le_pi_div_two.2 hw
    have hn : norm3 ((2 * φ / norm3 q.vec) • -q.vec) = 2 * φ := by
      rw [norm3_smul (by positivity)]
      have : norm3 (-q.vec) = norm3 q.vec := by simp [norm3, dot3]
      rw [this]
      field_simp
    have hR2 : R = rodr (Real.sin (2 * φ) / (2 * φ)) ((1 - Real.cos (2 * φ)) / (2 * φ * (2 * φ))) ((2 * φ / norm3 q.vec) • -q.vec) := by
      rw [← hq, quat2Rot, rodr, skew_smul, skew_neg, Real.sin_two_mul, Real.cos_two_mul, hc, hs, Matrix.smul_mul, Matrix.mul_smul, neg_mul_neg, skew_sq, hvv]
      have h1 : 2 * norm3 q.vec * q.w / (2 * φ) * (2 * φ / norm3 q.vec) = 2 * q.w := by field_simp
      have h2 : (1 - (2 * q.w ^ 2 - 1)) / (2 * φ * (2 * φ)) * (2 * φ / norm3 q.vec * (2 * φ / norm3 q.vec)) = 2 := by
        have h3 : norm3 q.vec * norm3 q.vec = 1 - q.w ^ 2 := by rw [norm3_sq, hvv]
        have h4 : 2 * φ / norm3 q.vec * (2 * φ / norm3 q.vec) = 2 * φ * (2 * φ) / (1 - q.w ^ 2) := by rw [← h3]; field_simp
        have h5 : 1 - q.w ^ 2 ≠ 0 := by rw [← h3]; positivity
        rw [h4]
        field_simp
        ring
      rw [smul_smul, smul_smul, smul_smul, smul_neg, h1, mul_assoc, h2]
      module
    refine ⟨(2 * φ / norm3 q.vec) • -q.vec, by rw [hn]; positivity, by rw [hn]; linarith, ?_, ?_⟩
    · have := tr3_rodr (w := (2 * φ / norm3 q.vec) • -q.vec) (by rw [hn]; positivity)
      rw [hn] at this ⊢
      rw [hR2, this]
    · rw [hn]; exact hR2

/-- **C25** `exp_so3` inverts `log_so3` on every rotation outside the code's small-angle and near-half-turn branches, and on the identity; the rotation vector has length at most `π`. -/
theorem C25_exp_log (R : M3) (hR : IsRot R) (h : R = 1 ∨ (1e-10 ≤ tr3 R + 1 ∧ tr3 R - 3 < -1e-7)) :
    expSO3 (logSO3 R) = R ∧ norm3 (logSO3 R) < Real.pi ∧ (R = 1 ∧ logSO3 R = 0 ∨ 1e-7 ≤ norm3 (logSO3 R)) := by
  have hone : logSO3 1 = 0 := by
    unfold logSO3; simp only [tr3, one00, one11, one22]
    rw [if_neg (by norm_num), if_neg (by norm_num)]
    apply v3_ext <;> simp
  have hid : expSO3 (logSO3 1) = 1 ∧ norm3 (logSO3 1) < Real.pi ∧ ((1 : M3) = 1 ∧ logSO3 1 = 0 ∨ 1e-7 ≤ norm3 (logSO3 1)) := by
    have hn : norm3 (0 : V3) = 0 := norm3_eq_zero.2 rfl
    rw [hone, hn]
    exact ⟨by simp [expSO3, hn], Real.pi_pos, Or.inl ⟨rfl, rfl⟩⟩
  rcases h with rfl | ⟨h1, h2⟩
  · exact hid
  rcases C25_axis_angle R hR with rfl | ⟨w, hw, hpi, htr, he⟩
  · exact hid
  · rw [htr] at h1 h2
    have hlt : norm3 w < Real.pi := by
      rcases lt_or_eq_of_le hpi with h | h
      · exact h
      · rw [h, Real.cos_pi] at h1; norm_num at h1
    have h7 : 1e-7 ≤ norm3 w := by
      have := Real.one_sub_sq_div_two_le_cos (x := norm3 w)
      by_contra hc
      rw [not_le] at hc
      have : norm3 w ^ 2 < 1e-7 := by
        have : norm3 w ^ 2 ≤ norm3 w * 1e-7 := by rw [pow_two]; exact mul_le_mul_of_nonneg_left hc.le hw.le
        norm_num at this hc ⊢
        linarith
      norm_num at h2 this
      linarith
    have hE : R = expSO3 w := by rw [expSO3_eq_of_le h7]; exact he
    have hl := log_exp_of_branch h7 hlt (by linarith) (by linarith)
    rw [hE, hl]
    exact ⟨rfl, hlt, Or.inr h7⟩

/-- **C25** `exp_se3` inverts `log_se3` on every rigid transform whose rotation is the identity or outside the code's small-angle and near-half-turn branches. -/
theorem C25_se3_exp_log (T : M4) (hT : IsSE3 T) (h : rotBlock T = 1 ∨ (1e-10 ≤ tr3 (rotBlock T) + 1 ∧ tr3 (rotBlock T) - 3 < -1e-7)) :
    expSE3 (logSE3 T).1 (logSE3 T).2 = T ∧ (logSE3 T).1 = logSO3 (rotBlock T) := by
  have hfst : (logSE3 T).1 = logSO3 (rotBlock T) := by
    unfold logSE3; simp only; split_ifs <;> rfl
  refine ⟨?_, hfst⟩
  obtain ⟨a, b, c⟩ := C25_exp_log _ hT.rot h
  have hTm := hT.eq_mk
  rcases c with ⟨c1, c2⟩ | c
  · have hn : norm3 (0 : V3) = 0 := norm3_eq_zero.2 rfl
    have h2 : logSE3 T = (0, posBlock T) := by
      unfold logSE3; simp only [c2, hn]
      rw [if_pos (by norm_num)]
    have hz : skew 0 = 0 := by apply m3_ext <;> simp [skew]
    rw [h2]
    conv_rhs => rw [hTm, c1]
    simp [expSE3, hz]
  · obtain ⟨w, hw⟩ : ∃ w, w = logSO3 (rotBlock T) := ⟨_, rfl⟩
    rw [← hw] at a b c
    have hlog : logSO3 (expSO3 w) = w := by rw [a, hw]
    have h0 : norm3 w ≠ 0 := by norm_num at c; linarith
    set V : M3 := rodr (expB (norm3 w)) (expC (norm3 w)) w with hV
    have hexp : ∀ u, expSE3 w u = mkSE3 (rotBlock T) (V.mulVec u) 1 := by
      intro u
      rw [← a, expSO3_eq h0]; rfl
    -- the translation part of the logarithm is linear
    have hlin : ∃ L : M3, ∀ p : V3, (logSE3 (mkSE3 (rotBlock T) p 1)).2 = L.mulVec p := by
      refine ⟨1 - (0.5 * norm3 w) • skew ((1 / norm3 w) • w) + (1 - norm3 w / (2 * Real.tan (0.5 * norm3 w))) • (skew ((1 / norm3 w) • w) * skew ((1 / norm3 w) • w)), fun p => ?_⟩
      unfold logSE3
      simp only [rotBlock_mkSE3, posBlock_mkSE3, ← hw]
      rw [if_neg (by norm_num at c ⊢; linarith)]
      rw [Matrix.add_mulVec, Matrix.sub_mulVec, Matrix.one_mulVec, Matrix.smul_mulVec, Matrix.smul_mulVec, Matrix.mulVec_mulVec]
    obtain ⟨L, hL⟩ := hlin
    have hLV : L * V = 1 := by
      have : ∀ u, (L * V).mulVec u = (1 : M3).mulVec u := by
        intro u
        have := log_exp_se3 (u := u) c b hlog
        rw [hexp] at this
        rw [← Matrix.mulVec_mulVec, ← hL, this, Matrix.one_mulVec]
      exact Matrix.mulVec_injective (funext this)
    have hVL : V * L = 1 := mul_eq_one_comm.1 hLV
    rw [hfst, ← hw, hexp]
    conv_rhs => rw [hTm]
    congr 1
    conv_lhs => rw [hTm]
    rw [hL, Matrix.mulVec_mulVec, hVL, Matrix.one_mulVec]

/-- a quarter turn about the vertical with a translation -/
example : IsSE3 (mkSE3 !![0, -1, 0; 1, 0, 0; 0, 0, 1] ![1, 2, 3] 1) ∧
    (1e-10 ≤ tr3 (rotBlock (mkSE3 !![0, -1, 0; 1, 0, 0; 0, 0, 1] ![1, 2, 3] 1)) + 1 ∧ tr3 (rotBlock (mkSE3 !![0, -1, 0; 1, 0, 0; 0, 0, 1] ![1, 2, 3] 1)) - 3 < -1e-7) := by
  refine ⟨isSE3_mk ⟨?_, ?_⟩ _, ?_⟩
  · apply m3_ext <;> simp [m3_mul_apply]
  · simp [Matrix.det_fin_three]
  · rw [rotBlock_mkSE3]; simp [tr3]; norm_num

end QuatProps

end Verif
