import Verif.Quat.Exp
import Mathlib.Analysis.SpecialFunctions.Trigonometric.Bounds
import Mathlib.Analysis.Real.Pi.Bounds

/-! # `log_so3` / `log_se3` lemmas -/

set_option linter.unusedSimpArgs false

namespace Verif

open Matrix

theorem tr_expSO3 {w : V3} (h : 1e-7 ≤ norm3 w) : tr3 (expSO3 w) = 1 + 2 * Real.cos (norm3 w) := by
  have h0 : norm3 w ≠ 0 := by
    have : (0 : ℝ) < 1e-7 := by norm_num
    linarith
  rw [expSO3_eq_of_le h, tr_rodr, ← norm3_sq']
  field_simp
  ring

theorem log_exp_of_branch {w : V3} (h : 1e-7 ≤ norm3 w) (hpi : norm3 w < Real.pi)
    (hb1 : 1e-10 ≤ 2 + 2 * Real.cos (norm3 w)) (hb2 : 2 * Real.cos (norm3 w) - 2 < -1e-7) :
    logSO3 (expSO3 w) = w := by
  have h0 : norm3 w ≠ 0 := by
    have : (0 : ℝ) < 1e-7 := by norm_num
    linarith
  have hs : Real.sin (norm3 w) ≠ 0 :=
    (Real.sin_pos_of_pos_of_lt_pi (lt_of_le_of_ne (norm3_nonneg w) (Ne.symm h0)) hpi).ne'
  unfold logSO3
  simp only [tr_expSO3 h]
  rw [if_neg (by linarith), if_pos (by linarith)]
  have harc : Real.arccos ((1 + 2 * Real.cos (norm3 w) - 1) / 2) = norm3 w := by
    rw [show (1 + 2 * Real.cos (norm3 w) - 1) / 2 = Real.cos (norm3 w) by ring]
    exact Real.arccos_cos (norm3_nonneg w) hpi.le
  rw [harc, expSO3_eq_of_le h]
  apply v3_ext <;> simp [rodr01, rodr02, rodr10, rodr12, rodr20, rodr21] <;> field_simp <;> ring

theorem cos_bounds {θ : ℝ} (h1 : 1e-3 ≤ θ) (h2 : θ ≤ Real.pi - 1e-4) :
    1e-10 ≤ 2 + 2 * Real.cos θ ∧ 2 * Real.cos θ - 2 < -1e-7 := by
  have hpi := Real.pi_pos
  have hpi4 : Real.pi < 4 := by linarith [Real.pi_lt_d2]
  have hc : Real.cos θ = 2 * Real.cos (θ / 2) ^ 2 - 1 := by
    rw [← Real.cos_two_mul]; congr 1; ring
  have hs : Real.cos θ = 1 - 2 * Real.sin (θ / 2) ^ 2 := by
    have := Real.sin_sq_add_cos_sq (θ / 2)
    rw [hc]; linarith
  have hθ : (0:ℝ) ≤ θ := by linarith [show (0:ℝ) ≤ 1e-3 by norm_num]
  have ha : 2 / Real.pi * (θ / 2) ≤ Real.sin (θ / 2) :=
    Real.mul_le_sin (by linarith) (by linarith [show (0:ℝ) ≤ 1e-4 by norm_num])
  have hb : 2 / Real.pi * ((Real.pi - θ) / 2) ≤ Real.sin ((Real.pi - θ) / 2) :=
    Real.mul_le_sin (by linarith [show (0:ℝ) ≤ 1e-4 by norm_num]) (by linarith)
  have hb' : Real.sin ((Real.pi - θ) / 2) = Real.cos (θ / 2) := by
    rw [show (Real.pi - θ) / 2 = Real.pi / 2 - θ / 2 by ring, Real.sin_pi_div_two_sub]
  rw [hb'] at hb
  have hq : 2 / Real.pi ≥ 1 / 2 := by
    rw [ge_iff_le, div_le_div_iff₀ (by norm_num) hpi]; linarith
  have hsin : (2.5e-4 : ℝ) ≤ Real.sin (θ / 2) := by
    refine le_trans ?_ ha
    nlinarith
  have hcos : (2.5e-5 : ℝ) ≤ Real.cos (θ / 2) := by
    refine le_trans ?_ hb
    nlinarith
  constructor
  · rw [hc]; nlinarith
  · rw [hs]; nlinarith

/-! ### exp ∘ log -/

theorem norm3_smul {c : ℝ} (hc : 0 ≤ c) (v : V3) : norm3 (c • v) = c * norm3 v := by
  have : dot3 (c • v) (c • v) = c ^ 2 * dot3 v v := by simp [dot3]; ring
  rw [norm3, this, Real.sqrt_mul (sq_nonneg c), Real.sqrt_sq hc, norm3]

/-- `vee(R - Rᵀ)`. -/
def asym (R : M3) : V3 := ![R 2 1 - R 1 2, R 0 2 - R 2 0, R 1 0 - R 0 1]

theorem asym_prods {R : M3} (h : RotRel R) :
    asym R 0 * asym R 0 = (1 + tr3 R) * (1 + R 0 0 - R 1 1 - R 2 2) ∧
    asym R 1 * asym R 1 = (1 + tr3 R) * (1 - R 0 0 + R 1 1 - R 2 2) ∧
    asym R 2 * asym R 2 = (1 + tr3 R) * (1 - R 0 0 - R 1 1 + R 2 2) ∧
    asym R 0 * asym R 1 = (1 + tr3 R) * (R 0 1 + R 1 0) ∧
    asym R 0 * asym R 2 = (1 + tr3 R) * (R 0 2 + R 2 0) ∧
    asym R 1 * asym R 2 = (1 + tr3 R) * (R 1 2 + R 2 1) := by
  obtain ⟨c00, c11, c22, c01, c02, c12, r00, r11, r22, r01, r02, r12, k00, k01, k02, k10, k11, k12, k20, k21, k22⟩ := h
  have e0 : asym R 0 = R 2 1 - R 1 2 := rfl
  have e1 : asym R 1 = R 0 2 - R 2 0 := rfl
  have e2 : asym R 2 = R 1 0 - R 0 1 := rfl
  simp only [e0, e1, e2, tr3]
  refine ⟨?_, ?_, ?_, ?_, ?_, ?_⟩ <;> grind

theorem exp_log_regular {R : M3} (hR : IsRot R) (hb1 : 1e-10 ≤ tr3 R + 1) (hb2 : tr3 R - 3 < -1e-7) :
    expSO3 (logSO3 R) = R := by
  obtain ⟨p00, p11, p22, p01, p02, p12⟩ := asym_prods hR.rel
  set c : ℝ := (tr3 R - 1) / 2 with hc
  have hT : tr3 R = 1 + 2 * c := by rw [hc]; ring
  have hc1 : -1 ≤ c := by rw [hc]; linarith [show (0:ℝ) ≤ 1e-10 by norm_num]
  have hc1' : 0 < 1 + c := by rw [hc]; linarith [show (0:ℝ) < 1e-10 by norm_num]
  have hc2 : c < 1 - 0.5e-7 := by rw [hc]; norm_num at hb2 ⊢; linarith
  have hc2' : c ≤ 1 := by norm_num at hc2; linarith
  set θ := Real.arccos c with hθ
  have hcos : Real.cos θ = c := Real.cos_arccos hc1 hc2'
  have hθ0 : 0 ≤ θ := Real.arccos_nonneg c
  have hθle : θ ≤ Real.pi := Real.arccos_le_pi c
  have hlog : logSO3 R = (θ / (2 * Real.sin θ)) • asym R := by
    unfold logSO3
    simp only []
    rw [if_neg (by linarith), if_pos hb2]
    rfl
  clear_value θ c
  have hsin : Real.sin θ * Real.sin θ = 1 - c * c := by
    have := Real.sin_sq_add_cos_sq θ
    rw [hcos] at this; linarith [this, sq (Real.sin θ), sq c]
  have hθpos : 1e-7 ≤ θ := by
    by_contra hlt
    push Not at hlt
    have := Real.one_sub_sq_div_two_le_cos (x := θ)
    rw [hcos] at this
    have hsq : θ ^ 2 ≤ (1e-7 : ℝ) ^ 2 := by
      apply pow_le_pow_left₀ hθ0 hlt.le
    norm_num at hsq hc2
    linarith
  have hθne : θ ≠ 0 := by
    have : (0:ℝ) < 1e-7 := by norm_num
    linarith
  have hspos : 0 < Real.sin θ := by
    have h2 : 0 < Real.sin θ * Real.sin θ := by
      rw [hsin]; norm_num at hc2; nlinarith
    have h1 : 0 ≤ Real.sin θ := Real.sin_nonneg_of_nonneg_of_le_pi hθ0 hθle
    rcases h1.lt_or_eq with h | h
    · exact h
    · rw [← h] at h2; simp at h2
  have hnv : norm3 (asym R) = 2 * Real.sin θ := by
    have : dot3 (asym R) (asym R) = (2 * Real.sin θ) ^ 2 := by
      unfold dot3
      rw [p00, p11, p22]
      have : (2 * Real.sin θ) ^ 2 = 4 * (Real.sin θ * Real.sin θ) := by ring
      rw [this, hsin, hT]
      have : tr3 R = R 0 0 + R 1 1 + R 2 2 := rfl
      rw [hT] at this
      linear_combination (2 + 2 * c) * this
    rw [norm3, this, Real.sqrt_sq (by linarith)]
  have hn : norm3 (logSO3 R) = θ := by
    rw [hlog, norm3_smul (by positivity), hnv]
    field_simp
  rw [expSO3_eq_of_le (by rw [hn]; exact hθpos), hn, hcos, hlog]
  have hk : (1 - c) * (1 + c) = Real.sin θ * Real.sin θ := by rw [hsin]; ring
  have htr : tr3 R = R 0 0 + R 1 1 + R 2 2 := rfl
  rw [hT] at p00 p11 p22 p01 p02 p12 htr
  have e0 : asym R 0 = R 2 1 - R 1 2 := rfl
  have e1 : asym R 1 = R 0 2 - R 2 0 := rfl
  have e2 : asym R 2 = R 1 0 - R 0 1 := rfl
  have hs0 := hspos.ne'
  have hA : ∀ v, Real.sin θ / θ * (θ / (2 * Real.sin θ) * v) = v / 2 := by
    intro v; field_simp
  have hB : ∀ u v, (1 - c) / (θ * θ) * ((θ / (2 * Real.sin θ) * u) * (θ / (2 * Real.sin θ) * v)) = u * v / (4 * (1 + c)) := by
    intro u v
    have : (1 - c) = Real.sin θ * Real.sin θ / (1 + c) := by field_simp; linarith
    rw [this]; field_simp; ring
  have hB' : ∀ u v u' v', (1 - c) / (θ * θ) * ((θ / (2 * Real.sin θ) * u) * (θ / (2 * Real.sin θ) * v) +
      (θ / (2 * Real.sin θ) * u') * (θ / (2 * Real.sin θ) * v')) = (u * v + u' * v') / (4 * (1 + c)) := by
    intro u v u' v'; rw [mul_add, hB, hB]; ring
  have hcne := hc1'.ne'
  apply m3_ext <;>
    simp only [rodr00, rodr01, rodr02, rodr10, rodr11, rodr12, rodr20, rodr21, rodr22, Pi.smul_apply, smul_eq_mul,
      neg_mul, hA, hB, hB', p00, p11, p22, p01, p02, p12] <;>
    (try simp only [e0, e1, e2]) <;> field_simp <;> grind

theorem norm3_pi {c v : ℝ} {u : V3} (hc : 0 < c) (hv : 0 ≤ v) (h : dot3 u u = c * c)
    (hvc : v = Real.pi / c) : norm3 (v • u) = Real.pi := by
  rw [norm3_smul hv, norm3, h, Real.sqrt_mul_self hc.le, hvc]
  field_simp

theorem exp_of_norm_pi {w : V3} (h : norm3 w = Real.pi) : expSO3 w = rodr 0 (2 / (Real.pi * Real.pi)) w := by
  have hp : (1e-7 : ℝ) ≤ Real.pi := by
    have := Real.pi_gt_three; norm_num; linarith
  rw [expSO3_eq_of_le (by rw [h]; exact hp), h, Real.sin_pi, Real.cos_pi]
  norm_num

set_option maxHeartbeats 2000000 in
theorem exp_log_pi {R : M3} (hR : IsRot R) (htr : tr3 R = -1) : expSO3 (logSO3 R) = R := by
  have hr := hR.rel
  obtain ⟨q00, q11, q22, q01, q02, q12⟩ := asym_prods hr
  have e0 : asym R 0 = R 2 1 - R 1 2 := rfl
  have e1 : asym R 1 = R 0 2 - R 2 0 := rfl
  have e2 : asym R 2 = R 1 0 - R 0 1 := rfl
  rw [htr] at q00 q11 q22
  have s0 : R 2 1 = R 1 2 := by
    have : asym R 0 * asym R 0 = 0 := by rw [q00]; ring
    have := mul_self_eq_zero.1 this; rw [e0] at this; linarith
  have s1 : R 2 0 = R 0 2 := by
    have : asym R 1 * asym R 1 = 0 := by rw [q11]; ring
    have := mul_self_eq_zero.1 this; rw [e1] at this; linarith
  have s2 : R 1 0 = R 0 1 := by
    have : asym R 2 * asym R 2 = 0 := by rw [q22]; ring
    have := mul_self_eq_zero.1 this; rw [e2] at this; linarith
  have ht : R 0 0 + R 1 1 + R 2 2 = -1 := htr
  have hpi := Real.pi_pos
  have hle : ∀ i : Fin 3, -1 ≤ R i i := by
    intro i
    have := hr.r00; have := hr.r11; have := hr.r22
    fin_cases i <;> simp <;> nlinarith [mul_self_nonneg (R 0 1), mul_self_nonneg (R 0 2), mul_self_nonneg (R 1 0),
      mul_self_nonneg (R 1 2), mul_self_nonneg (R 2 0), mul_self_nonneg (R 2 1)]
  obtain ⟨c00, c11, c22, c01, c02, c12, r00, r11, r22, r01, r02, r12, k00, k01, k02, k10, k11, k12, k20, k21, k22⟩ := hr
  unfold logSO3
  simp only [htr]
  rw [if_pos (by norm_num)]
  by_cases h2 : |R 2 2 + 1| > 1e-5
  · rw [if_pos h2]
    have hpos : 0 < 2 + 2 * R 2 2 := by
      have : 0 ≤ R 2 2 + 1 := by linarith [hle 2]
      rw [abs_of_nonneg this] at h2; norm_num at h2; linarith
    have hs : 0 < Real.sqrt (2 + 2 * R 2 2) := Real.sqrt_pos.2 hpos
    have hss : Real.sqrt (2 + 2 * R 2 2) * Real.sqrt (2 + 2 * R 2 2) = 2 + 2 * R 2 2 := Real.mul_self_sqrt hpos.le
    have hn : norm3 ((Real.pi / Real.sqrt (2 + 2 * R 2 2)) • ![R 0 2, R 1 2, 1 + R 2 2]) = Real.pi := by
      refine norm3_pi hs (by positivity) ?_ rfl
      rw [hss]; simp [dot3]; grind
    rw [exp_of_norm_pi hn]
    have hB : ∀ u v, 2 / (Real.pi * Real.pi) * ((Real.pi / Real.sqrt (2 + 2 * R 2 2) * u) * (Real.pi / Real.sqrt (2 + 2 * R 2 2) * v))
        = u * v / (1 + R 2 2) := by
      intro u v
      have h1 : (1 + R 2 2) = Real.sqrt (2 + 2 * R 2 2) * Real.sqrt (2 + 2 * R 2 2) / 2 := by rw [hss]; ring
      rw [h1]; field_simp
    have hB' : ∀ u v u' v', 2 / (Real.pi * Real.pi) * ((Real.pi / Real.sqrt (2 + 2 * R 2 2) * u) * (Real.pi / Real.sqrt (2 + 2 * R 2 2) * v)
        + (Real.pi / Real.sqrt (2 + 2 * R 2 2) * u') * (Real.pi / Real.sqrt (2 + 2 * R 2 2) * v'))
        = (u * v + u' * v') / (1 + R 2 2) := by
      intro u v u' v'; rw [mul_add, hB, hB]; ring
    have hne : 1 + R 2 2 ≠ 0 := by linarith
    apply m3_ext <;>
      simp only [rodr00, rodr01, rodr02, rodr10, rodr11, rodr12, rodr20, rodr21, rodr22, Pi.smul_apply, smul_eq_mul,
        hB, hB', neg_mul, zero_mul, neg_zero, zero_add] <;> simp <;> field_simp <;> grind
  rw [if_neg h2]
  by_cases h1 : |R 1 1 + 1| > 1e-5
  · rw [if_pos h1]
    have hpos : 0 < 2 + 2 * R 1 1 := by
      have : 0 ≤ R 1 1 + 1 := by linarith [hle 1]
      rw [abs_of_nonneg this] at h1; norm_num at h1; linarith
    have hs : 0 < Real.sqrt (2 + 2 * R 1 1) := Real.sqrt_pos.2 hpos
    have hss : Real.sqrt (2 + 2 * R 1 1) * Real.sqrt (2 + 2 * R 1 1) = 2 + 2 * R 1 1 := Real.mul_self_sqrt hpos.le
    have hn : norm3 ((Real.pi / Real.sqrt (2 + 2 * R 1 1)) • ![R 0 1, 1 + R 1 1, R 2 1]) = Real.pi := by
      refine norm3_pi hs (by positivity) ?_ rfl
      rw [hss]; simp [dot3]; grind
    rw [exp_of_norm_pi hn]
    have hB : ∀ u v, 2 / (Real.pi * Real.pi) * ((Real.pi / Real.sqrt (2 + 2 * R 1 1) * u) * (Real.pi / Real.sqrt (2 + 2 * R 1 1) * v))
        = u * v / (1 + R 1 1) := by
      intro u v
      have h1 : (1 + R 1 1) = Real.sqrt (2 + 2 * R 1 1) * Real.sqrt (2 + 2 * R 1 1) / 2 := by rw [hss]; ring
      rw [h1]; field_simp
    have hB' : ∀ u v u' v', 2 / (Real.pi * Real.pi) * ((Real.pi / Real.sqrt (2 + 2 * R 1 1) * u) * (Real.pi / Real.sqrt (2 + 2 * R 1 1) * v)
        + (Real.pi / Real.sqrt (2 + 2 * R 1 1) * u') * (Real.pi / Real.sqrt (2 + 2 * R 1 1) * v'))
        = (u * v + u' * v') / (1 + R 1 1) := by
      intro u v u' v'; rw [mul_add, hB, hB]; ring
    have hne : 1 + R 1 1 ≠ 0 := by linarith
    apply m3_ext <;>
      simp only [rodr00, rodr01, rodr02, rodr10, rodr11, rodr12, rodr20, rodr21, rodr22, Pi.smul_apply, smul_eq_mul,
        hB, hB', neg_mul, zero_mul, neg_zero, zero_add] <;> simp <;> field_simp <;> grind
  · rw [if_neg h1]
    have hpos : 0 < 2 + 2 * R 0 0 := by
      have a : 0 ≤ R 1 1 + 1 := by linarith [hle 1]
      have b : 0 ≤ R 2 2 + 1 := by linarith [hle 2]
      rw [abs_of_nonneg a] at h1; rw [abs_of_nonneg b] at h2; norm_num at h1 h2; linarith
    have hs : 0 < Real.sqrt (2 + 2 * R 0 0) := Real.sqrt_pos.2 hpos
    have hss : Real.sqrt (2 + 2 * R 0 0) * Real.sqrt (2 + 2 * R 0 0) = 2 + 2 * R 0 0 := Real.mul_self_sqrt hpos.le
    have hn : norm3 ((Real.pi / Real.sqrt (2 + 2 * R 0 0)) • ![1 + R 0 0, R 1 0, R 2 0]) = Real.pi := by
      refine norm3_pi hs (by positivity) ?_ rfl
      rw [hss]; simp [dot3]; grind
    rw [exp_of_norm_pi hn]
    have hB : ∀ u v, 2 / (Real.pi * Real.pi) * ((Real.pi / Real.sqrt (2 + 2 * R 0 0) * u) * (Real.pi / Real.sqrt (2 + 2 * R 0 0) * v))
        = u * v / (1 + R 0 0) := by
      intro u v
      have h1 : (1 + R 0 0) = Real.sqrt (2 + 2 * R 0 0) * Real.sqrt (2 + 2 * R 0 0) / 2 := by rw [hss]; ring
      rw [h1]; field_simp
    have hB' : ∀ u v u' v', 2 / (Real.pi * Real.pi) * ((Real.pi / Real.sqrt (2 + 2 * R 0 0) * u) * (Real.pi / Real.sqrt (2 + 2 * R 0 0) * v)
        + (Real.pi / Real.sqrt (2 + 2 * R 0 0) * u') * (Real.pi / Real.sqrt (2 + 2 * R 0 0) * v'))
        = (u * v + u' * v') / (1 + R 0 0) := by
      intro u v u' v'; rw [mul_add, hB, hB]; ring
    have hne : 1 + R 0 0 ≠ 0 := by linarith
    apply m3_ext <;>
      simp only [rodr00, rodr01, rodr02, rodr10, rodr11, rodr12, rodr20, rodr21, rodr22, Pi.smul_apply, smul_eq_mul,
        hB, hB', neg_mul, zero_mul, neg_zero, zero_add] <;> simp <;> field_simp <;> grind

/-! ### SE(3) log -/

theorem tan_half {θ : ℝ} (h0 : 0 < θ) (hpi : θ < Real.pi) :
    Real.tan (0.5 * θ) = Real.sin θ / (1 + Real.cos θ) := by
  have hc : 0 < Real.cos (0.5 * θ) := by
    apply Real.cos_pos_of_mem_Ioo
    constructor <;> norm_num <;> linarith
  have e1 : Real.sin θ = 2 * Real.sin (0.5 * θ) * Real.cos (0.5 * θ) := by
    rw [← Real.sin_two_mul]; congr 1; ring
  have e2 : Real.cos θ = 2 * Real.cos (0.5 * θ) ^ 2 - 1 := by
    rw [← Real.cos_two_mul]; congr 1; ring
  rw [Real.tan_eq_sin_div_cos, e1, e2]
  have : (1 + (2 * Real.cos (0.5 * θ) ^ 2 - 1)) = 2 * Real.cos (0.5 * θ) ^ 2 := by ring
  rw [this]
  field_simp

theorem log_exp_se3 {w u : V3} (h : 1e-7 ≤ norm3 w) (hpi : norm3 w < Real.pi)
    (hlog : logSO3 (expSO3 w) = w) : logSE3 (expSE3 w u) = (w, u) := by
  have hpos : 0 < norm3 w := by
    have : (0 : ℝ) < 1e-7 := by norm_num
    linarith
  have h0 := hpos.ne'
  have hR : expSE3 w u = mkSE3 (expSO3 w) ((rodr (expB (norm3 w)) (expC (norm3 w)) w).mulVec u) 1 := by
    rw [expSO3_eq h0]; rfl
  rw [hR]
  unfold logSE3
  simp only [rotBlock_mkSE3, posBlock_mkSE3, hlog]
  rw [if_neg (by norm_num at h ⊢; linarith)]
  refine Prod.ext rfl ?_
  simp only []
  set θ := norm3 w with hθ
  have hs : 0 < Real.sin θ := Real.sin_pos_of_pos_of_lt_pi hpos hpi
  have hcs := Real.sin_sq_add_cos_sq θ
  have hc1 : 1 + Real.cos θ ≠ 0 := by
    intro hz
    have : Real.cos θ = -1 := by linarith
    rw [this] at hcs
    have : Real.sin θ ^ 2 = 0 := by linarith
    have := pow_eq_zero_iff (two_ne_zero) |>.1 this
    linarith
  rw [tan_half hpos hpi]
  have hskew : skew ((1 / θ) • w) = (1 / θ) • skew w := skew_smul _ _
  have hinv : ∀ p : V3, p - (0.5 * θ) • (skew ((1 / θ) • w)).mulVec p +
      (1 - θ / (2 * (Real.sin θ / (1 + Real.cos θ)))) • (skew ((1 / θ) • w)).mulVec ((skew ((1 / θ) • w)).mulVec p)
      = (rodr (-0.5) ((1 - θ / (2 * (Real.sin θ / (1 + Real.cos θ)))) / (θ * θ)) w).mulVec p := by
    intro p
    rw [rodr_mulVec, hskew, Matrix.smul_mulVec, Matrix.smul_mulVec, Matrix.mulVec_smul, ← Matrix.mulVec_mulVec]
    apply v3_ext <;> simp only [Pi.add_apply, Pi.sub_apply, Pi.smul_apply, smul_eq_mul] <;> field_simp <;> ring
  rw [hinv, Matrix.mulVec_mulVec, rodr_mul, ← norm3_sq, ← hθ]
  have hB : expB θ = (1 - Real.cos θ) / (θ * θ) := if_neg (not_lt.2 h)
  have hA : expA θ = Real.sin θ / θ := if_neg (not_lt.2 h)
  have hC : expC θ = (1 - Real.sin θ / θ) / (θ * θ) := by rw [expC, if_neg (not_lt.2 h), hA]
  have hsne := hs.ne'
  have z1 : -0.5 + expB θ - (-0.5 * expC θ + (1 - θ / (2 * (Real.sin θ / (1 + Real.cos θ)))) / (θ * θ) * expB θ) * (θ * θ) = 0 := by
    rw [hB, hC]; norm_num; field_simp; grind
  have z2 : (1 - θ / (2 * (Real.sin θ / (1 + Real.cos θ)))) / (θ * θ) + expC θ + -0.5 * expB θ -
      (1 - θ / (2 * (Real.sin θ / (1 + Real.cos θ)))) / (θ * θ) * expC θ * (θ * θ) = 0 := by
    rw [hB, hC]; norm_num; field_simp; grind
  rw [z1, z2, rodr_zero, Matrix.one_mulVec]

/-! ### Left Jacobian -/

theorem JlSO3_eq {w : V3} (h : 1e-6 ≤ norm3 w) :
    JlSO3 w = rodr ((1 - Real.cos (norm3 w)) / (norm3 w * norm3 w))
      ((1 - Real.sin (norm3 w) / norm3 w) / (norm3 w * norm3 w)) w := by
  have hpos : 0 < norm3 w := by
    have : (0 : ℝ) < 1e-6 := by norm_num
    linarith
  have h0 := hpos.ne'
  have h2 := norm3_sq' w
  unfold JlSO3
  simp only []
  rw [if_neg (not_lt.2 h)]
  generalize norm3 w = θ at *
  generalize Real.sin θ = s
  generalize Real.cos θ = c
  apply m3_ext <;> simp only [rodr00, rodr01, rodr02, rodr10, rodr11, rodr12, rodr20, rodr21, rodr22, Matrix.add_apply,
    Matrix.smul_apply, smul_eq_mul, outer, skew00, skew01, skew02, skew10, skew11, skew12, skew20, skew21, skew22,
    one00, one01, one02, one10, one11, one12, one20, one21, one22, Pi.smul_apply] <;> field_simp <;> grind

end Verif
