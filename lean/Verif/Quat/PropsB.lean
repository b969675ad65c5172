import Verif.Quat.Props
import Mathlib.Analysis.SpecialFunctions.Trigonometric.Bounds

/-! # The small-angle branch of `log_so3` -/

namespace Verif

open Matrix

/-- **C25** For short rotation vectors, where the code switches to its series, `log_so3(exp_so3(w))` is `w` up to a relative
error of the third power of the angle (second power in the range where `exp_so3` itself uses its series). -/
theorem C25_log_exp_small (w : V3) (h : norm3 w ≤ 1e-3) :
    ∃ f : ℝ, logSO3 (expSO3 w) = f • w ∧
      (1e-7 ≤ norm3 w → |f - 1| ≤ norm3 w ^ 3) ∧ (norm3 w < 1e-7 → |f - 1| ≤ norm3 w ^ 2) := by
  have hn := norm3_nonneg w
  by_cases h7 : 1e-7 ≤ norm3 w
  · have hpos : 0 < norm3 w := lt_of_lt_of_le (by norm_num) h7
    have hpi : norm3 w < Real.pi := by have := Real.pi_gt_three; norm_num at h; linarith
    have hb1 : 1e-10 ≤ 2 + 2 * Real.cos (norm3 w) := by
      have : 0 ≤ Real.cos (norm3 w) := (Real.cos_pos_of_mem_Ioo ⟨by linarith, by
        have := Real.pi_gt_three; norm_num at h; linarith⟩).le
      norm_num; linarith
    by_cases hb2 : 2 * Real.cos (norm3 w) - 2 < -1e-7
    · exact ⟨1, by rw [one_smul]; exact log_exp_of_branch h7 hpi hb1 hb2, fun _ => by simp; positivity,
        fun _ => by simp; positivity⟩
    · refine ⟨(Real.sin (norm3 w) / norm3 w) * ((4 - Real.cos (norm3 w)) / 3), ?_, fun _ => ?_, fun h' => absurd h7 (not_le.2 h')⟩
      · unfold logSO3
        simp only [tr_expSO3 h7]
        rw [if_neg (by linarith), if_neg (by linarith), expSO3_eq_of_le h7]
        apply v3_ext <;> simp [rodr01, rodr02, rodr10, rodr12, rodr20, rodr21] <;> ring
      · set θ := norm3 w
        have hθ1 : |θ| ≤ 1 := by rw [abs_of_nonneg hn]; norm_num at h; linarith
        have bs := Real.sin_bound hθ1
        have bc := Real.cos_bound hθ1
        rw [abs_of_nonneg hn] at bs bc
        rw [abs_le] at bs bc
        obtain ⟨e1, he1, hs⟩ : ∃ e, |e| ≤ θ ^ 3 * (5 / 96) ∧ Real.sin θ / θ = 1 - θ ^ 2 / 6 + e := by
          refine ⟨Real.sin θ / θ - (1 - θ ^ 2 / 6), ?_, by ring⟩
          have : Real.sin θ / θ - (1 - θ ^ 2 / 6) = (Real.sin θ - (θ - θ ^ 3 / 6)) / θ := by field_simp
          rw [this, abs_div, abs_of_pos hpos, div_le_iff₀ hpos, abs_le]
          constructor <;> nlinarith [bs.1, bs.2]
        obtain ⟨e2, he2, hc⟩ : ∃ e, |e| ≤ θ ^ 4 * (5 / 288) ∧ (4 - Real.cos θ) / 3 = 1 + θ ^ 2 / 6 + e := by
          refine ⟨(4 - Real.cos θ) / 3 - (1 + θ ^ 2 / 6), ?_, by ring⟩
          rw [abs_le]
          constructor <;> linarith [bc.1, bc.2]
        rw [hs, hc]
        have hθ : θ ≤ 1 / 1000 := by norm_num at h; linarith
        have t2 : θ ^ 2 ≤ 1 / 1000 := by nlinarith
        have t3 : 0 ≤ θ ^ 3 := by positivity
        have t4 : θ ^ 4 ≤ θ ^ 3 * (1 / 1000) := by nlinarith
        have t40 : 0 ≤ θ ^ 4 := by positivity
        have t20 : 0 ≤ θ ^ 2 := by positivity
        have t31 : θ ^ 3 ≤ 1 := by nlinarith
        have he1' := abs_le.1 he1
        have he2' := abs_le.1 he2
        have key : (1 - θ ^ 2 / 6 + e1) * (1 + θ ^ 2 / 6 + e2) - 1 =
            -(θ ^ 4 / 36) + e1 * (1 + θ ^ 2 / 6) + e2 * (1 - θ ^ 2 / 6 + e1) := by ring
        rw [key]
        have b1 : |e1 * (1 + θ ^ 2 / 6)| ≤ θ ^ 3 * (5 / 96) * 2 := by
          rw [abs_mul]
          exact mul_le_mul he1 (by rw [abs_of_nonneg (by linarith)]; linarith) (abs_nonneg _) (by positivity)
        have b2 : |e2 * (1 - θ ^ 2 / 6 + e1)| ≤ θ ^ 4 * (5 / 288) * 2 := by
          rw [abs_mul]
          refine mul_le_mul he2 ?_ (abs_nonneg _) (by positivity)
          rw [abs_le]; constructor <;> linarith [he1'.1, he1'.2]
        rw [abs_le] at b1 b2 ⊢
        constructor <;> linarith [b1.1, b1.2, b2.1, b2.2]
  · push Not at h7
    by_cases h0 : norm3 w = 0
    · have hw := norm3_eq_zero.1 h0
      refine ⟨1, ?_, fun _ => by simp; positivity, fun _ => by simp; positivity⟩
      subst hw
      have h1 : expSO3 (0 : V3) = 1 := by simp [expSO3, h0]
      rw [h1, one_smul]
      unfold logSO3
      simp only [tr3, one00, one11, one22]
      norm_num
      simp
    · have e : expSO3 w = rodr 1 0.5 w := by
        rw [expSO3_eq h0, expA, expB, if_pos h7, if_pos h7]
      have hsq := norm3_sq' w
      have hsm : norm3 w * norm3 w ≤ 1e-7 * 1e-7 := mul_le_mul h7.le h7.le hn (by norm_num)
      have htr : tr3 (expSO3 w) = 3 - norm3 w * norm3 w := by
        rw [e, tr_rodr, hsq]; ring
      refine ⟨1 + norm3 w * norm3 w / 6, ?_, fun h' => absurd h' (not_le.2 h7), fun _ => ?_⟩
      · unfold logSO3
        simp only [htr]
        rw [if_neg (by norm_num at hsm ⊢; linarith), if_neg (by norm_num at hsm ⊢; linarith), e]
        apply v3_ext <;> simp [rodr01, rodr02, rodr10, rodr12, rodr20, rodr21] <;> ring
      · have : 0 ≤ norm3 w ^ 2 := by positivity
        rw [abs_le]; constructor <;> nlinarith

/-- A rotation vector of length 1e-4, inside the series branch of `log_so3`, meets the hypothesis. -/
example : norm3 (![1e-4, 0, 0] : V3) ≤ 1e-3 ∧ (1e-7 : ℝ) ≤ norm3 (![1e-4, 0, 0] : V3) := by
  have h : norm3 (![1e-4, 0, 0] : V3) = 1e-4 := by
    have h1 := norm3_sq' (![1e-4, 0, 0] : V3)
    have h0 := norm3_nonneg (![1e-4, 0, 0] : V3)
    have : norm3 (![1e-4, 0, 0] : V3) * norm3 (![1e-4, 0, 0] : V3) = 1e-4 * 1e-4 := by
      rw [h1]; simp
    nlinarith
  rw [h]; norm_num

end Verif
