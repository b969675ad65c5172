import Verif.Cpi.Props

/-!
# Bias Jacobians of continuous preintegration: C82
-/

set_option linter.unusedSimpArgs false

open Classical

namespace Verif.Cpi

open Verif Verif.Prop_

namespace Spec

/-- the same preintegration with biases moved by `e` times a direction. -/
noncomputable def moved (k : Conf) (dw da : V3) (e : ℝ) : Conf := { k with bw := k.bw + e • dw, ba := k.ba + e • da }

end Spec

/-! ## derivatives of the pieces -/

theorem poly_deriv (x : ℝ) {a b : ℝ → ℝ} {a' b' : ℝ} {v : ℝ → V3} {v' : V3} (ha : HasDerivAt a a' 0) (hb : HasDerivAt b b' 0) (h : HasDv v v') :
    HasDm (fun e => x • (1 : M3) + a e • skew (v e) + b e • (skew (v e) * skew (v e)))
      (a' • skew (v 0) + a 0 • skew v' + b' • (skew (v 0) * skew (v 0)) + b 0 • (skew v' * skew (v 0) + skew (v 0) * skew v')) := by
  have := (rodr_deriv ha hb h).add (HasDm.const ((x - 1) • (1 : M3)))
  refine (this.congr_fun fun e => ?_).congr' (by rw [add_zero])
  rw [rodr]; module

section
variable {w : ℝ → V3} {w' : V3} (h : HasDv w w') (h0 : thr < norm3 (w 0)) (dt : ℝ)
include h h0

theorem norm_ev : ∀ᶠ e in nhds (0 : ℝ), ¬ norm3 (w e) < thr := by
  have hn := h.norm (lt_trans thr_pos h0)
  filter_upwards [hn.continuousAt.eventually (lt_mem_nhds h0)] with e he
  exact not_lt.2 he.le

theorem f1_deriv : HasDerivAt (fun e => (fs (norm3 (w e)) dt).f1) (-(dot3 (w 0) w') * (dfs (norm3 (w 0)) dt).f1) 0 := by
  have hpos := lt_trans thr_pos h0
  have hn := h.norm hpos
  have hx := hn.mul_const dt
  have := ((hx.fun_mul hx.cos).fun_sub hx.sin).fun_div (hn.fun_pow 3) (pow_ne_zero _ hpos.ne')
  refine (this.congr_of_eventuallyEq ?_).congr_deriv ?_
  · filter_upwards [norm_ev h h0] with e he
    rw [fs, if_neg he]
  · rw [dfs, if_neg (not_lt.2 h0.le)]
    field_simp
    ring

theorem f2_deriv : HasDerivAt (fun e => (fs (norm3 (w e)) dt).f2) (-(dot3 (w 0) w') * (dfs (norm3 (w 0)) dt).f2) 0 := by
  have hpos := lt_trans thr_pos h0
  have hn := h.norm hpos
  have hx := hn.mul_const dt
  have := (((((hx.fun_pow 2).fun_sub (hx.cos.const_mul 2)).fun_sub ((hx.const_mul 2).fun_mul hx.sin)).add_const 2)).fun_div ((hn.fun_pow 4).const_mul 2)
    (mul_ne_zero two_ne_zero (pow_ne_zero _ hpos.ne'))
  refine (this.congr_of_eventuallyEq ?_).congr_deriv ?_
  · filter_upwards [norm_ev h h0] with e he
    rw [fs, if_neg he]
  · rw [dfs, if_neg (not_lt.2 h0.le)]
    field_simp
    ring

theorem f3_deriv : HasDerivAt (fun e => (fs (norm3 (w e)) dt).f3) (-(dot3 (w 0) w') * (dfs (norm3 (w 0)) dt).f3) 0 := by
  have hpos := lt_trans thr_pos h0
  have hn := h.norm hpos
  have hx := hn.mul_const dt
  have := ((hx.cos.const_sub 1).fun_neg).fun_div (hn.fun_pow 2) (pow_ne_zero _ hpos.ne')
  refine (this.congr_of_eventuallyEq ?_).congr_deriv ?_
  · filter_upwards [norm_ev h h0] with e he
    rw [fs, if_neg he]
  · rw [dfs, if_neg (not_lt.2 h0.le)]
    field_simp
    ring

theorem f4_deriv : HasDerivAt (fun e => (fs (norm3 (w e)) dt).f4) (-(dot3 (w 0) w') * (dfs (norm3 (w 0)) dt).f4) 0 := by
  have hpos := lt_trans thr_pos h0
  have hn := h.norm hpos
  have hx := hn.mul_const dt
  have := (hx.fun_sub hx.sin).fun_div (hn.fun_pow 3) (pow_ne_zero _ hpos.ne')
  refine (this.congr_of_eventuallyEq ?_).congr_deriv ?_
  · filter_upwards [norm_ev h h0] with e he
    rw [fs, if_neg he]
  · rw [dfs, if_neg (not_lt.2 h0.le)]
    field_simp
    ring

theorem relRot_deriv (hdt : dt ≠ 0) : HasDm (fun e => relRot (w e) dt) (-(skew (dt • (jr (w 0) dt).mulVec w')) * relRot (w 0) dt) := by
  have hpos := lt_trans thr_pos h0
  have hn := h.norm hpos
  have hx := hn.mul_const dt
  have hA := (hx.sin.fun_div hn hpos.ne').fun_neg
  have hB := (hx.cos.const_sub 1).fun_div (hn.fun_pow 2) (pow_ne_zero _ hpos.ne')
  have hd := poly_deriv 1 hA hB h
  refine (hd.congr_ev ?_).congr' ?_
  · filter_upwards [norm_ev h h0] with e he
    rw [relRot, if_neg he, one_smul, neg_smul, ← sub_eq_add_neg]
  · rw [relRot, if_neg (not_lt.2 h0.le), jr, if_neg (not_lt.2 h0.le), skew_smul dt (w 0)]
    have hsq := norm3_sq' (w 0)
    have hcs := Real.sin_sq_add_cos_sq (norm3 (w 0) * dt)
    generalize norm3 (w 0) = n at *
    generalize hs : Real.sin (n * dt) = s at *
    generalize hc : Real.cos (n * dt) = c at *
    generalize w 0 = u at *
    obtain ⟨A, hA⟩ : ∃ A, A = s / n := ⟨_, rfl⟩
    obtain ⟨B, hB⟩ : ∃ B, B = (1 - c) / n ^ 2 := ⟨_, rfl⟩
    obtain ⟨C, hC⟩ : ∃ C, C = (n * dt - s) / n ^ 3 := ⟨_, rfl⟩
    have hn0 := hpos.ne'
    have r1 : n * n * C = dt - A := by rw [hC, hA]; field_simp
    have r2 : A * A + n * n * (B * B) = 2 * B := by rw [hB, hA]; field_simp; grind
    have r3 : (c * (dot3 u w' / n * dt) * n - s * (dot3 u w' / n)) / n ^ 2 = dot3 u w' * (C - dt * B) := by
      rw [hC, hB]; field_simp; ring
    have r4 : (-(-s * (dot3 u w' / n * dt)) * n ^ 2 - (1 - c) * (((2 : ℕ) : ℝ) * n ^ (2 - 1) * (dot3 u w' / n))) / (n ^ 2) ^ 2 =
        dot3 u w' * (A * C - B * B) := by
      rw [hC, hB, hA]; field_simp; grind
    have r5 : (1 - c) / (n * dt) ^ 2 = B / dt ^ 2 := by rw [hB]; field_simp
    have r6 : (n * dt - s) / (n * dt) ^ 3 = C / dt ^ 3 := by rw [hC]; field_simp
    rw [r3, r4, r5, r6, ← hB, ← hA]
    have e : dt • ((1 - (B / dt ^ 2) • dt • skew u + (C / dt ^ 3) • (dt • skew u * dt • skew u)).mulVec w') =
        (dt • (1 : M3) + (-B) • skew u + C • (skew u * skew u)).mulVec w' := by
      rw [← Matrix.smul_mulVec]
      congr 1
      rw [Matrix.smul_mul, Matrix.mul_smul]
      simp only [smul_add, smul_sub, smul_smul]
      rw [show dt * (B / dt ^ 2 * dt) = B by field_simp, show dt * (C / dt ^ 3 * (dt * dt)) = C by field_simp]
      module
    rw [e]
    rw [hsq] at r1 r2
    clear hA hB hC r3 r4 r5 r6 hcs hsq hpos h0 hn hd hx e hn0
    apply m3_ext <;> simp only [Matrix.add_apply, Matrix.sub_apply, Matrix.neg_apply, Matrix.neg_mul,
      Matrix.smul_apply, smul_eq_mul, skew00, skew01, skew02, skew10, skew11, skew12, skew20, skew21, skew22, m3_mul_apply, one3,
      m3_mulVec_apply, Pi.neg_apply, dot3] <;> simp <;> grind

end

section
variable {w : ℝ → V3} {w' : V3} (h : HasDv w w') (h0 : w 0 = 0) (dt : ℝ)
include h h0

theorem norm_ev0 : ∀ᶠ e in nhds (0 : ℝ), norm3 (w e) < thr := by
  have hc : ContinuousAt (fun e => norm3 (w e)) 0 := by
    unfold norm3
    refine Real.continuous_sqrt.continuousAt.comp ?_
    unfold dot3
    exact ((((h 0).continuousAt.mul (h 0).continuousAt).add ((h 1).continuousAt.mul (h 1).continuousAt)).add ((h 2).continuousAt.mul (h 2).continuousAt))
  have e0 : norm3 (w 0) < thr := by
    rw [h0, show norm3 (0 : V3) = 0 by simp [norm3, dot3]]; exact thr_pos
  exact hc.eventually (gt_mem_nhds e0)

theorem fs_deriv0 : HasDerivAt (fun e => (fs (norm3 (w e)) dt).f1) 0 0 ∧ HasDerivAt (fun e => (fs (norm3 (w e)) dt).f2) 0 0 ∧ HasDerivAt (fun e => (fs (norm3 (w e)) dt).f3) 0 0 ∧
    HasDerivAt (fun e => (fs (norm3 (w e)) dt).f4) 0 0 := by
  refine ⟨(hasDerivAt_const (0 : ℝ) (-(dt ^ 3 / 3))).congr_of_eventuallyEq ?_, (hasDerivAt_const (0 : ℝ) (dt ^ 4 / 8)).congr_of_eventuallyEq ?_,
    (hasDerivAt_const (0 : ℝ) (-(dt ^ 2 / 2))).congr_of_eventuallyEq ?_, (hasDerivAt_const (0 : ℝ) (dt ^ 3 / 6)).congr_of_eventuallyEq ?_⟩
  all_goals
    filter_upwards [norm_ev0 h h0] with e he
    rw [fs, if_pos he]

theorem relRot_deriv0 : HasDm (fun e => relRot (w e) dt) (-(skew (dt • (jr (w 0) dt).mulVec w')) * relRot (w 0) dt) := by
  have hd := poly_deriv 1 (hasDerivAt_const (0 : ℝ) (-dt)) (hasDerivAt_const (0 : ℝ) (dt ^ 2 / 2)) h
  have n0 : norm3 (0 : V3) < thr := by rw [show norm3 (0 : V3) = 0 by simp [norm3, dot3]]; exact thr_pos
  have hs : skew (0 : V3) = 0 := by apply m3_ext <;> simp [skew]
  refine (hd.congr_ev ?_).congr' ?_
  · filter_upwards [norm_ev0 h h0] with e he
    rw [relRot, if_pos he, one_smul, neg_smul, ← sub_eq_add_neg]
  · rw [h0, relRot, if_pos n0, jr, if_pos n0, smul_zero, hs]
    simp [skew_smul]

end

section
variable {w : ℝ → V3} {w' : V3} (h : HasDv w w') (h0 : w 0 = 0 ∨ thr < norm3 (w 0)) (dt : ℝ)
include h h0

theorem f1_deriv' : HasDerivAt (fun e => (fs (norm3 (w e)) dt).f1) (-(dot3 (w 0) w') * (dfs (norm3 (w 0)) dt).f1) 0 := by
  rcases h0 with h0 | h0
  · rw [show dot3 (w 0) w' = 0 by rw [h0]; simp [dot3], neg_zero, zero_mul]; exact (fs_deriv0 h h0 dt).1
  · exact f1_deriv h h0 dt

theorem f2_deriv' : HasDerivAt (fun e => (fs (norm3 (w e)) dt).f2) (-(dot3 (w 0) w') * (dfs (norm3 (w 0)) dt).f2) 0 := by
  rcases h0 with h0 | h0
  · rw [show dot3 (w 0) w' = 0 by rw [h0]; simp [dot3], neg_zero, zero_mul]; exact (fs_deriv0 h h0 dt).2.1
  · exact f2_deriv h h0 dt

theorem f3_deriv' : HasDerivAt (fun e => (fs (norm3 (w e)) dt).f3) (-(dot3 (w 0) w') * (dfs (norm3 (w 0)) dt).f3) 0 := by
  rcases h0 with h0 | h0
  · rw [show dot3 (w 0) w' = 0 by rw [h0]; simp [dot3], neg_zero, zero_mul]; exact (fs_deriv0 h h0 dt).2.2.1
  · exact f3_deriv h h0 dt

theorem f4_deriv' : HasDerivAt (fun e => (fs (norm3 (w e)) dt).f4) (-(dot3 (w 0) w') * (dfs (norm3 (w 0)) dt).f4) 0 := by
  rcases h0 with h0 | h0
  · rw [show dot3 (w 0) w' = 0 by rw [h0]; simp [dot3], neg_zero, zero_mul]; exact (fs_deriv0 h h0 dt).2.2.2
  · exact f4_deriv h h0 dt

theorem relRot_deriv' (hdt : dt ≠ 0) : HasDm (fun e => relRot (w e) dt) (-(skew (dt • (jr (w 0) dt).mulVec w')) * relRot (w 0) dt) := by
  rcases h0 with h0 | h0
  · exact relRot_deriv0 h h0 dt
  · exact relRot_deriv h h0 dt hdt

end

theorem biasCol_sum (Rt arg Jq : M3) (w a δ : V3) (c d dc dd : ℝ) (r : Fin 3) :
    δ 0 * biasCol Rt (-Rt * skew (Jq.mulVec (ei 0))) arg w a c d dc dd 0 r + δ 1 * biasCol Rt (-Rt * skew (Jq.mulVec (ei 1))) arg w a c d dc dd 1 r +
      δ 2 * biasCol Rt (-Rt * skew (Jq.mulVec (ei 2))) arg w a c d dc dd 2 r =
    Rt.mulVec (-((skew (Jq.mulVec δ)).mulVec (arg.mulVec a)) + ((dot3 w δ * dc) • skew w - c • skew δ + (dot3 w δ * dd) • (skew w * skew w) -
      d • (skew δ * skew w + skew w * skew δ)).mulVec a) r := by
  have hcol : ∀ i, biasCol Rt (-Rt * skew (Jq.mulVec (ei i))) arg w a c d dc dd i =
      Rt.mulVec (-((skew (Jq.mulVec (ei i))).mulVec (arg.mulVec a)) + ((w i * dc) • skew w - c • skew (ei i) + (w i * dd) • (skew w * skew w) -
        d • (skew (ei i) * skew w + skew w * skew (ei i))).mulVec a) := by
    intro i
    rw [biasCol, Matrix.add_mulVec, ← Matrix.mulVec_mulVec, ← Matrix.mulVec_mulVec, Matrix.neg_mulVec, ← Matrix.mulVec_mulVec, Matrix.mulVec_add, Matrix.mulVec_neg]
  rw [hcol, hcol, hcol]
  generalize arg.mulVec a = b
  have lin : ∀ u0 u1 u2 : V3, δ 0 * Rt.mulVec u0 r + δ 1 * Rt.mulVec u1 r + δ 2 * Rt.mulVec u2 r = Rt.mulVec (δ 0 • u0 + δ 1 • u1 + δ 2 • u2) r := by
    intro u0 u1 u2
    simp only [Matrix.mulVec_add, Matrix.mulVec_smul, Pi.add_apply, Pi.smul_apply, smul_eq_mul]
  rw [lin]
  refine congrFun (congrArg Rt.mulVec ?_) r
  apply v3_ext <;> simp only [Matrix.add_apply, Matrix.sub_apply, Matrix.neg_apply, Matrix.neg_mul, Pi.add_apply, Pi.smul_apply,
      Matrix.smul_apply, smul_eq_mul, skew00, skew01, skew02, skew10, skew11, skew12, skew20, skew21, skew22, m3_mul_apply, one3,
      m3_mulVec_apply, Pi.neg_apply, dot3, ei] <;> simp <;> ring

theorem rate_moved (k : Conf) (dw da : V3) (x : Seg) : HasDv (fun e => Spec.rate (Spec.moved k dw da e) x) (-dw) := by
  have := HasDv.line (Spec.rate k x) (-dw)
  refine this.congr_fun fun e => ?_
  unfold Spec.rate Spec.moved
  simp only
  split_ifs <;> module

theorem force_moved (k : Conf) (dw da : V3) (x : Seg) : HasDv (fun e => Spec.force (Spec.moved k dw da e) x) (-da) := by
  have := HasDv.line (Spec.force k x) (-da)
  refine this.congr_fun fun e => ?_
  unfold Spec.force Spec.moved
  simp only
  split_ifs <;> module

theorem moved_zero (k : Conf) (dw da : V3) : Spec.moved k dw da 0 = k := by simp [Spec.moved]

theorem feed_Jq {k : Conf} {x : Seg} (h : x.t1 - x.t0 ≠ 0) (s : Res) :
    (feed k s x).Jq = relRot (Spec.rate k x) (x.t1 - x.t0) * s.Jq + (x.t1 - x.t0) • jr (Spec.rate k x) (x.t1 - x.t0) := by
  simp only [feed, if_neg h, rate_eq]

theorem feed_Ha {k : Conf} {x : Seg} (h : x.t1 - x.t0 ≠ 0) (s : Res) :
    (feed k s x).Ha = s.Ha - (feed k s x).R.transpose * alphaArg (Spec.rate k x) (x.t1 - x.t0) + (x.t1 - x.t0) • s.Hb := by
  simp only [feed, if_neg h, rate_eq]

theorem feed_Hb {k : Conf} {x : Seg} (h : x.t1 - x.t0 ≠ 0) (s : Res) :
    (feed k s x).Hb = s.Hb - (feed k s x).R.transpose * betaArg (Spec.rate k x) (x.t1 - x.t0) := by
  simp only [feed, if_neg h, rate_eq]

theorem feed_Ja {k : Conf} {x : Seg} (h : x.t1 - x.t0 ≠ 0) (s : Res) (δ : V3) :
    (feed k s x).Ja.mulVec δ = s.Ja.mulVec δ + (x.t1 - x.t0) • s.Jb.mulVec δ + (feed k s x).R.transpose.mulVec
      (-((skew ((feed k s x).Jq.mulVec δ)).mulVec ((alphaArg (Spec.rate k x) (x.t1 - x.t0)).mulVec (Spec.force k x))) +
        ((dot3 (Spec.rate k x) δ * (dfs (norm3 (Spec.rate k x)) (x.t1 - x.t0)).f1) • skew (Spec.rate k x) - (fs (norm3 (Spec.rate k x)) (x.t1 - x.t0)).f1 • skew δ +
          (dot3 (Spec.rate k x) δ * (dfs (norm3 (Spec.rate k x)) (x.t1 - x.t0)).f2) • (skew (Spec.rate k x) * skew (Spec.rate k x)) -
          (fs (norm3 (Spec.rate k x)) (x.t1 - x.t0)).f2 • (skew δ * skew (Spec.rate k x) + skew (Spec.rate k x) * skew δ)).mulVec (Spec.force k x)) := by
  funext r
  rw [Pi.add_apply, Pi.add_apply, ← biasCol_sum, m3_mulVec_apply, m3_mulVec_apply, Pi.smul_apply, m3_mulVec_apply, smul_eq_mul]
  simp only [feed, if_neg h, rate_eq, force_eq]
  ring

theorem feed_Jb {k : Conf} {x : Seg} (h : x.t1 - x.t0 ≠ 0) (s : Res) (δ : V3) :
    (feed k s x).Jb.mulVec δ = s.Jb.mulVec δ + (feed k s x).R.transpose.mulVec
      (-((skew ((feed k s x).Jq.mulVec δ)).mulVec ((betaArg (Spec.rate k x) (x.t1 - x.t0)).mulVec (Spec.force k x))) +
        ((dot3 (Spec.rate k x) δ * (dfs (norm3 (Spec.rate k x)) (x.t1 - x.t0)).f3) • skew (Spec.rate k x) - (fs (norm3 (Spec.rate k x)) (x.t1 - x.t0)).f3 • skew δ +
          (dot3 (Spec.rate k x) δ * (dfs (norm3 (Spec.rate k x)) (x.t1 - x.t0)).f4) • (skew (Spec.rate k x) * skew (Spec.rate k x)) -
          (fs (norm3 (Spec.rate k x)) (x.t1 - x.t0)).f4 • (skew δ * skew (Spec.rate k x) + skew (Spec.rate k x) * skew δ)).mulVec (Spec.force k x)) := by
  funext r
  rw [Pi.add_apply, ← biasCol_sum, m3_mulVec_apply, m3_mulVec_apply]
  simp only [feed, if_neg h, rate_eq, force_eq]
  ring

theorem neg_dir (w dw : V3) (f g df dg : ℝ) :
    (-(dot3 w (-dw)) * df) • skew w + f • skew (-dw) + (-(dot3 w (-dw)) * dg) • (skew w * skew w) + g • (skew (-dw) * skew w + skew w * skew (-dw)) =
      (dot3 w dw * df) • skew w - f • skew dw + (dot3 w dw * dg) • (skew w * skew w) - g • (skew dw * skew w + skew w * skew dw) := by
  have e : dot3 w (-dw) = -dot3 w dw := by simp [dot3]; ring
  rw [e, skew_neg, neg_neg, Matrix.neg_mul, Matrix.mul_neg]
  module

theorem step_alg (S R1 B N : M3) (hS : S.transpose = -S) (a da : V3) :
    ((S * R1).transpose * B + R1.transpose * N).mulVec a + (R1.transpose * B).mulVec (-da) =
      R1.transpose.mulVec (-(S.mulVec (B.mulVec a)) + N.mulVec a) - (R1.transpose * B).mulVec da := by
  rw [Matrix.transpose_mul, hS]
  simp only [Matrix.add_mulVec, ← Matrix.mulVec_mulVec, Matrix.neg_mulVec, Matrix.mulVec_neg, Matrix.mulVec_add]
  abel

theorem final_beta (X U da : V3) (H M : M3) : X + H.mulVec da + (U - M.mulVec da) = X + U + (H - M).mulVec da := by
  rw [Matrix.sub_mulVec]; abel

theorem final_alpha (c : ℝ) (X Z U da : V3) (H H' M : M3) :
    X + H.mulVec da + (c • (Z + H'.mulVec da) + (U - M.mulVec da)) = X + c • Z + U + (H - M + c • H').mulVec da := by
  rw [Matrix.add_mulVec, Matrix.sub_mulVec, Matrix.smul_mulVec]; module

/-! ## C82 -/

/-- **C82** (partial) If every interval's corrected angular rate is zero or exceeds the small-rate threshold, the bias Jacobians accumulated over any sequence of
intervals are exactly the first-order effect of moving both biases in any direction: on the orientation as the rotation vector `J_q δ_w` applied on the
left, on the velocity term `J_b δ_w + H_b δ_a`, on the position term `J_a δ_w + H_a δ_a`. Missing: rates in between, where the claim is false of the code (`C82_small_rate_wrong`). -/
theorem C82_bias_jacobians_partial (k : Conf) (xs : List Seg) (h : ∀ x ∈ xs, Spec.rate k x = 0 ∨ thr < norm3 (Spec.rate k x)) (dw da : V3) :
    HasDm (fun e => (run (Spec.moved k dw da e) xs).R) (skew ((run k xs).Jq.mulVec dw) * (run k xs).R) ∧
    HasDv (fun e => (run (Spec.moved k dw da e) xs).beta) ((run k xs).Jb.mulVec dw + (run k xs).Hb.mulVec da) ∧
    HasDv (fun e => (run (Spec.moved k dw da e) xs).alpha) ((run k xs).Ja.mulVec dw + (run k xs).Ha.mulVec da) := by
  induction xs using List.reverseRecOn with
  | nil =>
    have hs : skew (0 : V3) = 0 := by apply m3_ext <;> simp [skew]
    refine ⟨?_, ?_, ?_⟩
    · simpa [run, Res.init, hs] using HasDm.const (1 : M3)
    · simpa [run, Res.init] using HasDv.const (0 : V3)
    · simpa [run, Res.init] using HasDv.const (0 : V3)
  | append_singleton xs x ih =>
    obtain ⟨i1, i2, i3⟩ := ih (fun y hy => h y (by simp [hy]))
    simp only [run_snoc]
    by_cases hz : x.t1 - x.t0 = 0
    · simp only [feed_zero hz]; exact ⟨i1, i2, i3⟩
    · have hw := rate_moved k dw da x
      have ha := force_moved k dw da x
      have hthr : ((fun e => Spec.rate (Spec.moved k dw da e) x) 0) = 0 ∨ thr < norm3 ((fun e => Spec.rate (Spec.moved k dw da e) x) 0) := by simpa only [moved_zero] using h x (by simp)
      have hrot : IsRot (relRot (Spec.rate k x) (x.t1 - x.t0)) := by
        rcases h x (by simp) with h0 | h0
        · have n0 : norm3 (0 : V3) < thr := by rw [show norm3 (0 : V3) = 0 by simp [norm3, dot3]]; exact thr_pos
          have hs : skew (0 : V3) = 0 := by apply m3_ext <;> simp [skew]
          rw [h0, relRot, if_pos n0, hs]
          simpa using IsRot.one
        · rw [relRot_kE h0.le]
          exact kE_orth (lt_trans thr_pos h0).ne' (norm3_sq' _) _
      have hR := (relRot_deriv' hw hthr _ hz).mul i1
      have hA := poly_deriv ((x.t1 - x.t0) ^ 2 / 2) (f1_deriv' hw hthr (x.t1 - x.t0)) (f2_deriv' hw hthr (x.t1 - x.t0)) hw
      have hB := poly_deriv (x.t1 - x.t0) (f3_deriv' hw hthr (x.t1 - x.t0)) (f4_deriv' hw hthr (x.t1 - x.t0)) hw
      simp only [moved_zero] at hR hA hB
      have hR1 : HasDm (fun e => relRot (Spec.rate (Spec.moved k dw da e) x) (x.t1 - x.t0) * (run (Spec.moved k dw da e) xs).R)
          (skew ((feed k (run k xs) x).Jq.mulVec dw) * (relRot (Spec.rate k x) (x.t1 - x.t0) * (run k xs).R)) := by
        refine hR.congr' ?_
        rw [feed_Jq hz, Matrix.add_mulVec, skew_add, Matrix.add_mul, ← Matrix.mulVec_mulVec, ← rot_skew hrot, Matrix.smul_mulVec, Matrix.mulVec_neg,
          smul_neg, skew_neg, neg_neg]
        rw [Matrix.mul_assoc _ _ (_ * (run k xs).R), ← Matrix.mul_assoc _ (relRot (Spec.rate k x) (x.t1 - x.t0)) (run k xs).R, hrot.orth, Matrix.one_mul,
          Matrix.mul_assoc, Matrix.mul_assoc, add_comm]
      have hbeta := (hR1.tr.mul hB).mulVec ha
      have halpha := (hR1.tr.mul hA).mulVec ha
      simp only [moved_zero] at hbeta halpha
      refine ⟨?_, ?_, ?_⟩
      · simp only [feed_R hz]; exact hR1
      · simp only [feed_beta hz]
        refine (i2.add hbeta).congr' ?_
        rw [neg_dir, ← betaArg, step_alg _ _ _ _ (skew_transpose _), feed_Jb hz, feed_Hb hz, feed_R hz]
        exact final_beta _ _ _ _ _
      · simp only [feed_alpha hz]
        refine (i3.add ((i2.smul (x.t1 - x.t0)).add halpha)).congr' ?_
        rw [neg_dir, ← alphaArg, step_alg _ _ _ _ (skew_transpose _), feed_Ja hz, feed_Ha hz, feed_R hz]
        exact final_alpha _ _ _ _ _ _ _ _

/-- three intervals, at rest and rotating at 1 rad/s and 2 rad/s, meet the hypotheses. -/
example : ∀ x ∈ ([⟨-1, 0, 0, ![0, 0, 1], 0, ![0, 0, 1]⟩, ⟨0, 1, ![1, 0, 0], ![0, 0, 1], ![1, 0, 0], ![0, 0, 1]⟩, ⟨1, 2, ![0, 2, 0], ![0, 1, 1], ![0, 2, 0], ![0, 1, 1]⟩] : List Seg),
    (Spec.rate ⟨1, 1, 1, 1, false, 0, 0⟩ x = 0 ∨ thr < norm3 (Spec.rate ⟨1, 1, 1, 1, false, 0, 0⟩ x)) ∧ x.t0 ≤ x.t1 := by
  have h1 : norm3 (![1, 0, 0] : V3) = 1 := by rw [norm3, show dot3 ![1, 0, 0] ![1, 0, 0] = 1 by simp [dot3], Real.sqrt_one]
  have h2 : norm3 (![0, 2, 0] : V3) = 2 := by
    rw [norm3, show dot3 ![0, 2, 0] ![0, 2, 0] = 2 * 2 by simp [dot3]]; exact Real.sqrt_mul_self (by norm_num)
  intro x hx
  simp only [List.mem_cons, List.not_mem_nil, or_false] at hx
  rcases hx with rfl | rfl | rfl
  · simp [Spec.rate]
  · simp only [Spec.rate, Bool.false_eq_true, if_false, sub_zero, h1]; unfold thr; norm_num
  · simp only [Spec.rate, Bool.false_eq_true, if_false, sub_zero, h2]; unfold thr; norm_num

/-- **C82** (finding) Below the threshold, but not at rest, the Jacobian of the orientation is not the derivative: one interval of a second, turning about the first axis at 0.008 rad/s, and a bias that moves about this axis. -/
theorem C82_small_rate_wrong : ∃ (k : Conf) (x : Seg) (dw : V3), 0 < norm3 (Spec.rate k x) ∧ norm3 (Spec.rate k x) < thr ∧ x.t0 < x.t1 ∧
    ¬ HasDm (fun e => (run (Spec.moved k dw 0 e) [x]).R) (skew ((run k [x]).Jq.mulVec dw) * (run k [x]).R) := by
  have hr : Spec.rate (⟨1, 1, 1, 1, false, 0, 0⟩ : Conf) ⟨0, 1, ![0.008, 0, 0], 0, ![0.008, 0, 0], 0⟩ = ![0.008, 0, 0] := by simp [Spec.rate]
  have hn : norm3 (![0.008, 0, 0] : V3) = 0.008 := by
    rw [norm3, show dot3 ![0.008, 0, 0] ![0.008, 0, 0] = (0.008 : ℝ) * 0.008 by simp [dot3]]; exact Real.sqrt_mul_self (by norm_num)
  have ht : (0.008 : ℝ) < thr := by unfold thr; norm_num
  refine ⟨⟨1, 1, 1, 1, false, 0, 0⟩, ⟨0, 1, ![0.008, 0, 0], 0, ![0.008, 0, 0], 0⟩, ![1, 0, 0], by rw [hr, hn]; norm_num, by rw [hr, hn]; exact ht, by norm_num, fun hd => ?_⟩
  have hz : ((1 : ℝ) - 0) ≠ 0 := by norm_num
  have h12 := hd 1 2
  have hrm : ∀ e, Spec.rate (Spec.moved (⟨1, 1, 1, 1, false, 0, 0⟩ : Conf) ![1, 0, 0] 0 e) ⟨0, 1, ![0.008, 0, 0], 0, ![0.008, 0, 0], 0⟩ = ![0.008 - e, 0, 0] := by
    intro e; simp only [Spec.rate, Spec.moved, Bool.false_eq_true, if_false]
    apply v3_ext <;> simp
  have hR : ∀ (k : Conf) (x : Seg), x.t1 - x.t0 ≠ 0 → (run k [x]).R = relRot (Spec.rate k x) (x.t1 - x.t0) := by
    intro k x hx
    rw [show run k [x] = feed k Res.init x from rfl, feed_R hx]; simp [Res.init]
  have hsm : ∀ᶠ e in nhds (0 : ℝ), norm3 (![0.008 - e, 0, 0] : V3) < thr := by
    have hc : ContinuousAt (fun e : ℝ => norm3 (![0.008 - e, 0, 0] : V3)) 0 := by
      have : (fun e : ℝ => norm3 (![0.008 - e, 0, 0] : V3)) = fun e => Real.sqrt ((0.008 - e) * (0.008 - e)) := by
        funext e; simp [norm3, dot3]
      rw [this]; fun_prop
    refine hc.eventually (gt_mem_nhds ?_)
    simp only [sub_zero, hn]; exact ht
  have d1 : HasDerivAt (fun e : ℝ => (run (Spec.moved (⟨1, 1, 1, 1, false, 0, 0⟩ : Conf) ![1, 0, 0] 0 e) [⟨0, 1, ![0.008, 0, 0], 0, ![0.008, 0, 0], 0⟩]).R 1 2) (-1) 0 := by
    have : HasDerivAt (fun e : ℝ => (0.008 : ℝ) - e) (-1) 0 := by simpa using (hasDerivAt_id (0 : ℝ)).const_sub (0.008 : ℝ)
    refine this.congr_of_eventuallyEq ?_
    filter_upwards [hsm] with e he
    rw [hR _ _ hz, hrm, relRot, if_pos he]
    simp [skew, Matrix.mul_apply, Fin.sum_univ_three]
  have := d1.unique h12
  rw [hR _ _ hz, hr, show run (⟨1, 1, 1, 1, false, 0, 0⟩ : Conf) [⟨0, 1, ![0.008, 0, 0], 0, ![0.008, 0, 0], 0⟩] = feed _ Res.init _ from rfl, feed_Jq hz, hr, relRot, jr,
    if_pos (by rw [hn]; exact ht), if_pos (by rw [hn]; exact ht)] at this
  simp [skew, Matrix.mul_apply, Matrix.mulVec, dotProduct, Fin.sum_univ_three, Res.init] at this
  norm_num at this

end Verif.Cpi
