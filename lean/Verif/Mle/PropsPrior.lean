import Verif.Mle.PropsImuB
import Verif.Quat.PropsC
import Mathlib.LinearAlgebra.Matrix.Block
import Verif.Prop.Jac3
import Mathlib.Analysis.SpecialFunctions.Trigonometric.InverseDeriv

/-!
# C102: the prior factor of the dynamic initialiser's optimisation
-/

set_option linter.unusedSimpArgs false

open Classical

namespace Verif.Mle

open Verif Matrix Verif.QuatProps

/-! ## the derivative of the logarithm -/

theorem JrSO3_det {w : V3} (h : 1e-6 ≤ norm3 w) :
    (JrSO3 w).det = (Real.sin (norm3 w) / norm3 w) ^ 2 + ((1 - Real.cos (norm3 w)) / norm3 w) ^ 2 := by
  have hn : norm3 (-w) = norm3 w := by unfold norm3; congr 1; simp [dot3]
  have hpos : 0 < norm3 w := lt_of_lt_of_le (by norm_num) h
  have hsq : norm3 w * norm3 w = w 0 * w 0 + w 1 * w 1 + w 2 * w 2 := Real.mul_self_sqrt (dot3_self_nonneg w)
  unfold JrSO3 JlSO3
  simp only [hn, if_neg (not_lt.2 h)]
  generalize Real.sin (norm3 w) / norm3 w = α
  generalize (1 - Real.cos (norm3 w)) / norm3 w = β
  have hu : (1 / norm3 w * w 0) ^ 2 + (1 / norm3 w * w 1) ^ 2 + (1 / norm3 w * w 2) ^ 2 = 1 := by
    field_simp; nlinarith
  have key : ∀ (a0 a1 a2 γ : ℝ), (α • (1 : M3) + γ • outer (-![a0, a1, a2]) (-![a0, a1, a2]) + β • skew (-![a0, a1, a2])).det =
      (α + γ * (a0 ^ 2 + a1 ^ 2 + a2 ^ 2)) * (α ^ 2 + β ^ 2 * (a0 ^ 2 + a1 ^ 2 + a2 ^ 2)) := by
    intro a0 a1 a2 γ
    rw [Matrix.det_fin_three]
    simp only [Matrix.add_apply, Matrix.smul_apply, smul_eq_mul, outer, skew00, skew01, skew02, skew10, skew11, skew12, skew20, skew21, skew22, one00, one01,
      one02, one10, one11, one12, one20, one21, one22, Pi.neg_apply, Matrix.cons_val_zero, Matrix.cons_val_one, Matrix.cons_val]
    ring
  have e : (1 / norm3 w) • -w = -![1 / norm3 w * w 0, 1 / norm3 w * w 1, 1 / norm3 w * w 2] := by
    apply v3_ext <;> simp
  rw [e, key, hu]
  ring

/-- the three numbers the logarithm reads off. -/
def asym (R : M3) : V3 := ![R 2 1 - R 1 2, R 0 2 - R 2 0, R 1 0 - R 0 1]

theorem asym_deriv {E : ℝ → M3} {E' : M3} (h : HasDm E E') : HasDv (fun e => asym (E e)) (asym E') := by
  intro i
  fin_cases i
  · exact (h 2 1).fun_sub (h 1 2)
  · exact (h 0 2).fun_sub (h 2 0)
  · exact (h 1 0).fun_sub (h 0 1)

theorem tr_deriv {E : ℝ → M3} {E' : M3} (h : HasDm E E') : HasDerivAt (fun e => tr3 (E e)) (tr3 E') 0 :=
  ((h 0 0).fun_add (h 1 1)).fun_add (h 2 2)

theorem HasDv.smul' {c : ℝ → ℝ} {c' : ℝ} {v : ℝ → V3} {v' : V3} (hc : HasDerivAt c c' 0) (hv : HasDv v v') :
    HasDv (fun e => c e • v e) (c' • v 0 + c 0 • v') := fun i => (hc.fun_mul (hv i)).congr_deriv (by simp)

theorem log_regular {R : M3} (h1 : 1e-10 ≤ tr3 R + 1) (h2 : tr3 R - 3 < -1e-7) :
    logSO3 R = (Real.arccos ((tr3 R - 1) / 2) / (2 * Real.sin (Real.arccos ((tr3 R - 1) / 2)))) • asym R := by
  unfold logSO3
  simp only [if_neg (not_lt.2 h1), if_pos h2]
  rfl

theorem log_near {R : M3} (h1 : 1e-10 ≤ tr3 R + 1) (h2 : -1e-7 ≤ tr3 R - 3) : logSO3 R = (0.5 - (tr3 R - 3) / 12) • asym R := by
  unfold logSO3
  simp only [if_neg (not_lt.2 h1), if_neg (not_lt.2 h2)]
  rfl

theorem skew_inj {a b : V3} (h : skew a = skew b) : a = b := by
  have h0 := congrFun (congrFun h 2) 1
  have h1 := congrFun (congrFun h 0) 2
  have h2 := congrFun (congrFun h 1) 0
  simp only [skew21, skew02, skew10] at h0 h1 h2
  exact v3_ext h0 h1 h2

theorem norm3_neg (w : V3) : norm3 (-w) = norm3 w := by unfold norm3; congr 1; simp [dot3]

/-- in the regular branch the logarithm's derivative along a curve of rotations is the inverse right Jacobian. -/
theorem log_deriv {E : ℝ → M3} (hrot : ∀ e, IsRot (E e)) {ξ : V3} (hE : HasDm E (E 0 * skew ξ)) (h1 : 1e-10 < tr3 (E 0) + 1)
    (h2 : tr3 (E 0) - 3 < -1e-7) : HasDv (fun e => logSO3 (E e)) ((JrSO3 (logSO3 (E 0)))⁻¹.mulVec ξ) := by
  have ht := tr_deriv hE
  have ev1 := ht.continuousAt.eventually (lt_mem_nhds (show -1 + 1e-10 < tr3 (E 0) by linarith))
  have ev2 := ht.continuousAt.eventually (gt_mem_nhds (show tr3 (E 0) < 3 - 1e-7 by linarith))
  have b1 : -1 < (tr3 (E 0) - 1) / 2 := by norm_num at h1 ⊢; linarith
  have b2 : (tr3 (E 0) - 1) / 2 < 1 := by norm_num at h2 ⊢; linarith
  have harc := (Real.hasDerivAt_arccos (x := (tr3 (E 0) - 1) / 2) b1.ne' b2.ne).comp (0:ℝ) ((ht.sub_const 1).div_const 2)
  have hsin : 2 * Real.sin (Real.arccos ((tr3 (E 0) - 1) / 2)) ≠ 0 := by
    have := Real.sin_pos_of_pos_of_lt_pi (Real.arccos_pos.2 b2) (Real.arccos_lt_pi.2 b1)
    positivity
  have hmag := harc.fun_div (harc.sin.const_mul 2) hsin
  obtain ⟨w', hw'⟩ : ∃ w', HasDv (fun e => logSO3 (E e)) w' := by
    refine ⟨_, (HasDv.smul' hmag (asym_deriv hE)).congr_ev ?_⟩
    filter_upwards [ev1, ev2] with e he1 he2
    exact log_regular (by linarith) (by linarith)
  have hexp0 : expSO3 (logSO3 (E 0)) = E 0 := exp_log_regular (hrot 0) h1.le h2
  have hne : logSO3 (E 0) ≠ 0 := by
    intro h
    rw [h] at hexp0
    have : tr3 (expSO3 0) = 3 := by
      have : norm3 (0 : V3) = 0 := norm3_eq_zero.2 rfl
      simp [expSO3, this, tr3]; norm_num
    rw [hexp0] at this
    rw [this] at h2
    norm_num at h2
  have hn : 1e-6 ≤ norm3 (logSO3 (E 0)) := by
    by_contra hlt
    push Not at hlt
    have hasq : tr3 (E 0) = 1 + 2 * Real.cos (norm3 (logSO3 (E 0))) ∨ norm3 (logSO3 (E 0)) < 1e-7 := by
      by_cases h7 : 1e-7 ≤ norm3 (logSO3 (E 0))
      · left
        rw [← tr_expSO3 h7, hexp0]
      · exact Or.inr (not_le.1 h7)
    rcases hasq with ht | h7
    · have := Real.one_sub_sq_div_two_le_cos (x := norm3 (logSO3 (E 0)))
      have h0 : 0 ≤ norm3 (logSO3 (E 0)) := Real.sqrt_nonneg _
      rw [ht] at h2
      norm_num at h2 hlt
      nlinarith
    · have hz : norm3 (logSO3 (E 0)) ≠ 0 := fun h => hne (norm3_eq_zero.1 h)
      have hsq : norm3 (logSO3 (E 0)) * norm3 (logSO3 (E 0)) = dot3 (logSO3 (E 0)) (logSO3 (E 0)) := Real.mul_self_sqrt (dot3_self_nonneg _)
      have h0 : 0 ≤ norm3 (logSO3 (E 0)) := Real.sqrt_nonneg _
      have htr : tr3 (E 0) = 3 - norm3 (logSO3 (E 0)) * norm3 (logSO3 (E 0)) := by
        conv_lhs => rw [← hexp0]
        rw [hsq]
        unfold expSO3
        simp only [if_neg hz, expA, expB, if_pos h7]
        simp only [tr3, dot3, Matrix.add_apply, Matrix.smul_apply, smul_eq_mul, m3_mul_apply, skew00, skew01, skew02, skew10, skew11, skew12, skew20,
          skew21, skew22, one00, one11, one22]
        ring
      rw [htr] at h2
      norm_num at h2 h7
      nlinarith
  have hexp := hw'.exp hn
  have hEe : HasDm (fun e => expSO3 (logSO3 (E e))) (E 0 * skew ξ) := by
    refine hE.congr_ev ?_
    filter_upwards [ev1, ev2] with e he1 he2
    exact exp_log_regular (hrot e) (by linarith) (by linarith)
  have heq : E 0 * skew ((JrSO3 (logSO3 (E 0))).mulVec w') = E 0 * skew ξ := by
    rw [hexp0] at hexp
    ext i j
    exact (hexp i j).unique (hEe i j)
  have hinv := congrArg (fun M => (E 0).transpose * M) heq
  simp only [← Matrix.mul_assoc, (hrot 0).1, Matrix.one_mul] at hinv
  have hJ := skew_inj hinv
  have hdet : IsUnit (JrSO3 (logSO3 (E 0))).det := by
    rw [JrSO3_det hn, isUnit_iff_ne_zero]
    intro h0
    have hp : 0 < norm3 (logSO3 (E 0)) := lt_of_lt_of_le (by norm_num) hn
    have hs : Real.sin (norm3 (logSO3 (E 0))) / norm3 (logSO3 (E 0)) = 0 := by
      generalize Real.sin (norm3 (logSO3 (E 0))) / norm3 (logSO3 (E 0)) = a at h0 ⊢
      generalize (1 - Real.cos (norm3 (logSO3 (E 0)))) / norm3 (logSO3 (E 0)) = b at h0
      nlinarith [sq_nonneg a, sq_nonneg b]
    have hc : (1 - Real.cos (norm3 (logSO3 (E 0)))) / norm3 (logSO3 (E 0)) = 0 := by
      rw [hs] at h0
      simpa using h0
    have hc' : Real.cos (norm3 (logSO3 (E 0))) = 1 := by
      rw [div_eq_zero_iff] at hc
      rcases hc with h | h
      · linarith
      · linarith
    have ht := tr_expSO3 (w := logSO3 (E 0)) (by linarith [show (1e-7:ℝ) ≤ 1e-6 by norm_num])
    rw [hexp0, hc'] at ht
    rw [ht] at h2
    norm_num at h2
  have : w' = (JrSO3 (logSO3 (E 0)))⁻¹.mulVec ξ := by
    rw [← hJ, Matrix.mulVec_mulVec, Matrix.nonsing_inv_mul _ hdet, Matrix.one_mulVec]
  rwa [← this]

theorem JrSO3_zero : JrSO3 0 = 1 := by
  have : norm3 (0 : V3) = 0 := norm3_eq_zero.2 rfl
  unfold JrSO3 JlSO3
  simp only [neg_zero, this]
  norm_num

/-- at the identity. -/
theorem log_deriv_one {E : ℝ → M3} (h0 : E 0 = 1) {ξ : V3} (hE : HasDm E (E 0 * skew ξ)) :
    HasDv (fun e => logSO3 (E e)) ((JrSO3 (logSO3 (E 0)))⁻¹.mulVec ξ) := by
  have ht := tr_deriv hE
  have t0 : tr3 (E 0) = 3 := by rw [h0]; simp [tr3]; norm_num
  have ev1 := ht.continuousAt.eventually (lt_mem_nhds (show (2.9 : ℝ) < tr3 (E 0) by rw [t0]; norm_num))
  have ev2 := ht.continuousAt.eventually (lt_mem_nhds (show (3 - 1e-7 : ℝ) < tr3 (E 0) by rw [t0]; norm_num))
  have hl0 : logSO3 (E 0) = 0 := by
    rw [log_near (by rw [t0]; norm_num) (by rw [t0]; norm_num), h0]
    apply v3_ext <;> simp [asym]
  rw [hl0, JrSO3_zero, inv_one, Matrix.one_mulVec]
  have hmag := ((ht.sub_const 3).div_const 12).const_sub 0.5
  have hd := HasDv.smul' hmag (asym_deriv hE)
  refine (hd.congr' ?_).congr_ev ?_
  · rw [h0, Matrix.one_mul]
    have : tr3 (1 : M3) = 3 := by rw [← h0]; exact t0
    simp only [this]
    apply v3_ext <;> simp [asym, skew10, skew01, skew12, skew21, skew20, skew02] <;> ring
  · filter_upwards [ev1, ev2] with e he1 he2
    exact log_near (by norm_num at he1 ⊢; linarith) (by linarith)

/-! ## one variable -/

/-- a parameter block moved by `e` along `d`: an orientation by the manifold, anything else by addition. -/
noncomputable def Spec.movedVar (t : Ty) (p d : ℕ → ℝ) (e : ℝ) : ℕ → ℝ :=
  match t with
  | .quat | .quatYaw => fun k => (if k = 0 then (plus (q4 p 0) (e • ![d 0, d 1, d 2])).x else if k = 1 then (plus (q4 p 0) (e • ![d 0, d 1, d 2])).y
      else if k = 2 then (plus (q4 p 0) (e • ![d 0, d 1, d 2])).z else (plus (q4 p 0) (e • ![d 0, d 1, d 2])).w)
  | _ => fun k => p k + e * d k

theorem moved_q4 {t : Ty} (ht : t = .quat ∨ t = .quatYaw) (p d : ℕ → ℝ) (e : ℝ) : q4 (Spec.movedVar t p d e) 0 = plus (q4 p 0) (e • ![d 0, d 1, d 2]) := by
  rcases ht with rfl | rfl <;> simp [q4, Spec.movedVar]

/-- the rotation from the block's orientation to the linearisation point. -/
noncomputable def Spec.offset (p lin : ℕ → ℝ) (g : ℕ) : M3 := (quat2Rot (q4 p 0)).transpose * quat2Rot (q4 lin g)

/-- an orientation block at the linearisation point, or at an angle from it at which the logarithm is computed exactly (above about 3.2e-4 rad and below
a half turn). -/
def Spec.regular (t : Ty) (p lin : ℕ → ℝ) (g : ℕ) : Prop :=
  t = .quat ∨ t = .quatYaw → IsUnitQ (q4 p 0) ∧ IsUnitQ (q4 lin g) ∧
    (quat2Rot (q4 p 0) = quat2Rot (q4 lin g) ∨ (1e-10 < tr3 (Spec.offset p lin g) + 1 ∧ tr3 (Spec.offset p lin g) - 3 < -1e-7))

theorem thErr_deriv {t : Ty} (ht : t = .quat ∨ t = .quatYaw) (p d lin : ℕ → ℝ) (g : ℕ) (h : Spec.regular t p lin g) :
    HasDv (fun e => -(thErr (q4 (Spec.movedVar t p d e) 0) (q4 lin g))) ((hTheta (q4 p 0) (q4 lin g)).mulVec ![d 0, d 1, d 2]) := by
  obtain ⟨hp, hl, hreg⟩ := h ht
  simp only [moved_q4 ht]
  obtain ⟨hcan, -, hder, h0⟩ := C99_plus (q4 p 0) hp
  set v : V3 := ![d 0, d 1, d 2] with hv
  set L := quat2Rot (q4 lin g) with hL
  have rp := quat2Rot_isRot hp
  have rl : IsRot L := quat2Rot_isRot hl
  set E : ℝ → M3 := fun e => (quat2Rot (plus (q4 p 0) (e • v))).transpose * L with hEd
  have hE0 : E 0 = Spec.offset p lin g := by simp only [hEd, zero_smul, h0]; rfl
  have hrot : ∀ e, IsRot (E e) := fun e => (quat2Rot_isRot (hcan _).1).transpose.mul rl
  have hE : HasDm E (E 0 * skew (L.transpose.mulVec v)) := by
    refine (((hder v).tr).mul (HasDm.const L)).congr' ?_
    have hs : (skew v).transpose = -skew v := by apply m3_ext <;> simp [skew]
    have hrs : skew (L.transpose.mulVec v) = L.transpose * skew v * L := by
      have := Prop_.rot_skew rl.transpose v
      rw [Matrix.transpose_transpose] at this
      exact this.symm
    rw [hE0, hrs, Spec.offset, ← hL, Matrix.mul_zero, add_zero, Matrix.transpose_mul, Matrix.transpose_neg, hs, neg_neg]
    simp only [Matrix.mul_assoc]
    rw [← Matrix.mul_assoc L, rot_orth' rl, Matrix.one_mul]
  have key : HasDv (fun e => logSO3 (E e)) ((JrSO3 (logSO3 (E 0)))⁻¹.mulVec (L.transpose.mulVec v)) := by
    rcases hreg with h | ⟨h1, h2⟩
    · refine log_deriv_one ?_ hE
      rw [hE0, Spec.offset, h]; exact rl.1
    · rw [← hE0] at h1 h2
      exact log_deriv hrot hE h1 h2
  refine key.neg.congr' ?_
  rw [hTheta, thErr, ← Spec.offset, ← hE0, Matrix.neg_mulVec, ← Matrix.mulVec_mulVec]

theorem prErr_deriv (t : Ty) (p d lin : ℕ → ℝ) (g : ℕ) (h : Spec.regular t p lin g) {k : ℕ} (hk : k < t.l) :
    HasDerivAt (fun e => prErr lin g (Spec.movedVar t p d e) t k) (∑ c ∈ Finset.range t.t, prH lin g p t k c * d c) 0 := by
  have vecCase : ∀ n : ℕ, k < n → HasDerivAt (fun e : ℝ => p k + e * d k - lin (g + k)) (∑ c ∈ Finset.range n, (if k = c then (1:ℝ) else 0) * d c) 0 := by
    intro n hn
    have := (((hasDerivAt_id (0:ℝ)).mul_const (d k)).const_add (p k)).sub_const (lin (g + k))
    refine this.congr_deriv ?_
    simp [Finset.sum_ite_eq, hn]
  cases t with
  | quat =>
    have hk' : k < 3 := hk
    have := thErr_deriv (Or.inl rfl) p d lin g h ⟨k, hk'⟩
    simp only [prErr, dif_pos hk']
    refine this.congr_deriv ?_
    rw [m3_mulVec_apply]
    simp [Ty.t, Finset.sum_range_succ, prH, hk']
  | quatYaw =>
    have hk' : k = 0 := by simpa [Ty.l] using hk
    subst hk'
    have := thErr_deriv (Or.inr rfl) p d lin g h 2
    simp only [prErr, if_true]
    refine this.congr_deriv ?_
    rw [m3_mulVec_apply]
    simp [Ty.t, Finset.sum_range_succ, prH]
  | vec1 => exact vecCase 1 hk
  | vec3 => exact vecCase 3 hk
  | vec8 => exact vecCase 8 hk

/-! ## all variables -/

/-- the weighted sum of the errors, variable by variable. -/
noncomputable def prSum (S : ℕ → ℝ) (lin : ℕ → ℝ) : List Ty → ℕ → ℕ → (ℕ → ℕ → ℝ) → ℝ
  | [], _, _, _ => 0
  | t :: l, loc, glo, ps => ∑ k ∈ Finset.range t.l, S (loc + k) * prErr lin glo (ps 0) t k + prSum S lin l (loc + t.l) (glo + t.g) (fun i => ps (i + 1))

theorem prLoop_sum (S lin : ℕ → ℝ) (l : List Ty) : ∀ (loc glo : ℕ) (ps : ℕ → ℕ → ℝ) (r : ℕ → ℝ),
    ∑ k ∈ Finset.range (loc + lSum l), S k * prLoop lin l loc glo ps r k = ∑ k ∈ Finset.range loc, S k * r k + prSum S lin l loc glo ps := by
  induction l with
  | nil => intro loc glo ps r; simp [lSum, prLoop, prSum]
  | cons t l ih =>
    intro loc glo ps r
    have hl : loc + lSum (t :: l) = loc + t.l + lSum l := by simp [lSum, add_assoc]
    rw [hl]
    simp only [prLoop, prSum]
    rw [ih, Finset.sum_range_add, ← add_assoc]
    congr 1
    congr 1
    · refine Finset.sum_congr rfl fun k hk => ?_
      rw [if_neg (by have := Finset.mem_range.1 hk; omega)]
    · refine Finset.sum_congr rfl fun k hk => ?_
      have := Finset.mem_range.1 hk
      rw [if_pos (by omega), Nat.add_sub_cancel_left]

/-- sizes of the variables before number `i` in `x_lin`. -/
def gSum (l : List Ty) : ℕ := (l.map Ty.g).sum

theorem prSum_deriv (S lin : ℕ → ℝ) (l : List Ty) : ∀ (loc glo : ℕ) (ps ds : ℕ → ℕ → ℝ),
    (∀ i t, l[i]? = some t → Spec.regular t (ps i) lin (glo + gSum (l.take i))) →
    HasDerivAt (fun e => prSum S lin l loc glo fun i => Spec.movedVar (l.getD i .vec1) (ps i) (ds i) e)
      (∑ i ∈ Finset.range l.length, ∑ c ∈ Finset.range (l.getD i .vec1).t,
        (∑ k ∈ Finset.range (l.getD i .vec1).l, S (loc + lSum (l.take i) + k) * prH lin (glo + gSum (l.take i)) (ps i) (l.getD i .vec1) k c) * ds i c) 0 := by
  induction l with
  | nil => intro loc glo ps ds _; simpa [prSum] using hasDerivAt_const (0:ℝ) (0:ℝ)
  | cons t l ih =>
    intro loc glo ps ds h
    simp only [prSum]
    have h0 : Spec.regular t (ps 0) lin glo := by simpa [gSum] using h 0 t (by simp)
    have hhead := HasDerivAt.fun_sum (u := Finset.range t.l) fun k hk =>
      (prErr_deriv t (ps 0) (ds 0) lin glo h0 (Finset.mem_range.1 hk)).const_mul (S (loc + k))
    have htail := ih (loc + t.l) (glo + t.g) (fun i => ps (i + 1)) (fun i => ds (i + 1)) (by
      intro i t' hi
      have := h (i + 1) t' (by simpa using hi)
      simpa [gSum, add_assoc] using this)
    refine (hhead.fun_add htail).congr_deriv ?_
    rw [List.length_cons, Finset.sum_range_succ', add_comm]
    congr 1
    · refine Finset.sum_congr rfl fun i _ => ?_
      simp [lSum, gSum, add_assoc]
    · simp only [List.getD_cons_zero, List.take_zero, lSum, gSum, List.map_nil, List.sum_nil, add_zero]
      simp only [Finset.mul_sum, Finset.sum_mul]
      rw [Finset.sum_comm]
      refine Finset.sum_congr rfl fun c _ => Finset.sum_congr rfl fun k _ => by ring

/-- **C102** (partial) For every list of variables the Jacobians the prior factor returns are the derivative of its residual when all the variables move
together, each orientation either at its linearisation point or at an angle at which the logarithm is computed exactly. Not at non-zero angles
below about 3.2e-4 rad (where `log_so3` is an approximation) nor at half turns: there it is false (PropsPriorB). -/
theorem C102_jacobian_partial (f : PrF) (ps ds : ℕ → ℕ → ℝ)
    (h : ∀ i t, f.ty[i]? = some t → Spec.regular t (ps i) f.lin (gSum (f.ty.take i))) (a : ℕ) :
    HasDerivAt (fun e => prRes f (fun i => Spec.movedVar (f.ty.getD i .vec1) (ps i) (ds i) e) a)
      (∑ i ∈ Finset.range f.ty.length, ∑ c ∈ Finset.range (f.ty.getD i .vec1).t, prJac f ps i a c * ds i c) 0 := by
  have hsum : ∀ qs, prRes f qs a = prSum (f.sqrtI a) f.lin f.ty 0 0 qs + f.b a := fun qs => by
    have := prLoop_sum (f.sqrtI a) f.lin f.ty 0 0 qs fun _ => 0
    rw [prRes]
    simp only [zero_add, Finset.range_zero, Finset.sum_empty] at this
    rw [this]
  simp only [hsum]
  have := (prSum_deriv (f.sqrtI a) f.lin f.ty 0 0 ps ds (by simpa using h)).add_const (f.b a)
  refine this.congr_deriv ?_
  refine Finset.sum_congr rfl fun i hi => Finset.sum_congr rfl fun c _ => ?_
  have hi' := Finset.mem_range.1 hi
  congr 1
  simp only [prJac, List.getD_eq_getElem?_getD, List.getElem?_eq_getElem hi', Option.getD_some, zero_add]
  rfl

/-- Non-vacuity: the prior the dynamic initialiser puts on its first state (yaw, position, biases), the orientation 2·atan(3/4) rad from its linearisation
point, and the prior on a camera's extrinsics at its linearisation point. -/
example : (∀ i t, ([.quatYaw, .vec3, .vec3, .vec3] : List Ty)[i]? = some t →
      Spec.regular t ((fun i k => if i = 0 then (if k = 2 then 3 / 5 else if k = 3 then 4 / 5 else 0) else 7) i) (fun k => if k = 3 then 1 else 0)
        (gSum (([.quatYaw, .vec3, .vec3, .vec3] : List Ty).take i))) ∧
    (∀ i t, ([.quat, .vec3] : List Ty)[i]? = some t → Spec.regular t ((fun i k => if i = 0 then (if k = 3 then 1 else 0) else 7) i)
      (fun k => if k = 3 then 1 else 0) (gSum (([.quat, .vec3] : List Ty).take i))) := by
  have hid : IsUnitQ ⟨0, 0, 0, 1⟩ := by simp [IsUnitQ]
  have hq : IsUnitQ ⟨0, 0, 3 / 5, 4 / 5⟩ := by simp [IsUnitQ]; norm_num
  refine ⟨fun i t ht => ?_, fun i t ht => ?_⟩
  · match i, ht with
    | 0, _ =>
      intro _
      have e1 : q4 (fun k => if k = 2 then (3 / 5 : ℝ) else if k = 3 then 4 / 5 else 0) 0 = ⟨0, 0, 3 / 5, 4 / 5⟩ := by simp [q4]
      have e2 : q4 (fun k => if k = 3 then (1 : ℝ) else 0) 0 = ⟨0, 0, 0, 1⟩ := by simp [q4]
      simp only [if_true, List.take_zero, gSum, List.map_nil, List.sum_nil, Spec.offset, e1, e2]
      refine ⟨hq, hid, Or.inr ?_⟩
      simp only [tr3, m3_mul_apply, Matrix.transpose_apply, q2r00, q2r01, q2r02, q2r10, q2r11, q2r12, q2r20, q2r21, q2r22]
      norm_num
    | 1, ht => intro h; simp at ht; subst ht; simp at h
    | 2, ht => intro h; simp at ht; subst ht; simp at h
    | 3, ht => intro h; simp at ht; subst ht; simp at h
    | n + 4, ht => simp at ht
  · match i, ht with
    | 0, _ =>
      intro _
      have e2 : q4 (fun k => if k = 3 then (1 : ℝ) else 0) 0 = ⟨0, 0, 0, 1⟩ := by simp [q4]
      simp only [if_true, List.take_zero, gSum, List.map_nil, List.sum_nil, Spec.offset, e2]
      exact ⟨hid, hid, Or.inl trivial⟩
    | 1, ht => intro h; simp at ht; subst ht; simp at h
    | n + 2, ht => simp at ht

/-! ## what the prior penalises -/

theorem prLoop_get (lin : ℕ → ℝ) (l : List Ty) : ∀ (loc glo : ℕ) (ps : ℕ → ℕ → ℝ) (r : ℕ → ℝ),
    (∀ j < loc, prLoop lin l loc glo ps r j = r j) ∧
    ∀ i t, l[i]? = some t → ∀ k < t.l, prLoop lin l loc glo ps r (loc + lSum (l.take i) + k) = prErr lin (glo + gSum (l.take i)) (ps i) t k := by
  induction l with
  | nil => intro loc glo ps r; simp [prLoop]
  | cons u l ih =>
    intro loc glo ps r
    obtain ⟨i1, i2⟩ := ih (loc + u.l) (glo + u.g) (fun i => ps (i + 1))
      (fun k => if loc ≤ k ∧ k < loc + u.l then prErr lin glo (ps 0) u (k - loc) else r k)
    refine ⟨fun j hj => ?_, fun i t ht k hk => ?_⟩
    · rw [prLoop, i1 j (by omega), if_neg (by omega)]
    · cases i with
      | zero =>
        simp only [List.getElem?_cons_zero, Option.some.injEq] at ht
        subst ht
        simp only [prLoop, List.take_zero, lSum, gSum, List.map_nil, List.sum_nil, add_zero]
        rw [i1 _ (by omega), if_pos (by omega), Nat.add_sub_cancel_left]
      | succ i =>
        have := i2 i t (by simpa using ht) k hk
        simp only [prLoop, List.take_succ_cons, lSum, gSum, List.map_cons, List.sum_cons]
        simp only [lSum, gSum] at this
        rw [add_assoc glo] at this
        rw [← this]
        congr 1
        omega

/-- the rotation vector `v` takes one orientation to another. -/
def Spec.takes (q q' : Quat) (v : V3) : Prop := quat2Rot q * expSO3 v = quat2Rot q'

/-- **C102** The error the prior weighs holds, at each variable's own place, the difference to its linearisation point: component-wise for vectors, for
orientations the rotation vector from the linearisation point back to the estimate. -/
theorem C102_error (f : PrF) (ps : ℕ → ℕ → ℝ) (i : ℕ) (t : Ty) (ht : f.ty[i]? = some t) :
    (t = .vec1 ∨ t = .vec3 ∨ t = .vec8 → ∀ k < t.l, prLoop f.lin f.ty 0 0 ps (fun _ => 0) (lSum (f.ty.take i) + k) = ps i k - f.lin (gSum (f.ty.take i) + k)) ∧
    (t = .quat → Spec.regular t (ps i) f.lin (gSum (f.ty.take i)) → Spec.takes (q4 (ps i) 0) (q4 f.lin (gSum (f.ty.take i)))
      (-![prLoop f.lin f.ty 0 0 ps (fun _ => 0) (lSum (f.ty.take i)), prLoop f.lin f.ty 0 0 ps (fun _ => 0) (lSum (f.ty.take i) + 1),
        prLoop f.lin f.ty 0 0 ps (fun _ => 0) (lSum (f.ty.take i) + 2)])) ∧
    (t = .quatYaw → ∀ ψ, 1e-3 ≤ |ψ| → |ψ| ≤ Real.pi - 1e-4 → IsUnitQ (q4 f.lin (gSum (f.ty.take i))) →
      (quat2Rot (q4 (ps i) 0)).transpose = rotZ ψ * (quat2Rot (q4 f.lin (gSum (f.ty.take i)))).transpose →
      prLoop f.lin f.ty 0 0 ps (fun _ => 0) (lSum (f.ty.take i)) = -ψ) := by
  have hget := (prLoop_get f.lin f.ty 0 0 ps fun _ => 0).2 i t ht
  simp only [zero_add] at hget
  refine ⟨?_, ?_, ?_⟩
  · rintro (rfl | rfl | rfl) k hk <;> rw [hget k hk] <;> rfl
  · rintro rfl hreg
    obtain ⟨hp, hl, hr⟩ := hreg (Or.inl rfl)
    have e : -![prLoop f.lin f.ty 0 0 ps (fun _ => 0) (lSum (f.ty.take i)), prLoop f.lin f.ty 0 0 ps (fun _ => 0) (lSum (f.ty.take i) + 1),
        prLoop f.lin f.ty 0 0 ps (fun _ => 0) (lSum (f.ty.take i) + 2)] = logSO3 (Spec.offset (ps i) f.lin (gSum (f.ty.take i))) := by
      have g0 := hget 0 (by simp [Ty.l])
      have g1 := hget 1 (by simp [Ty.l])
      have g2 := hget 2 (by simp [Ty.l])
      rw [add_zero] at g0
      rw [g0, g1, g2]
      apply v3_ext <;> simp [prErr, thErr, Spec.offset]
    have rp := quat2Rot_isRot hp
    rw [Spec.takes, e, Spec.offset, (C25_exp_log _ (rp.transpose.mul (quat2Rot_isRot hl)) ?_).1, ← Matrix.mul_assoc, rot_orth' rp, Matrix.one_mul]
    rcases hr with h | ⟨h1, h2⟩
    · left
      rw [h]; exact (quat2Rot_isRot hl).1
    · exact Or.inr ⟨h1.le, h2⟩
  · rintro rfl ψ h1 h2 hl hψ
    have g0 := hget 0 (by simp [Ty.l])
    rw [add_zero] at g0
    rw [g0]
    have hn : norm3 (![0, 0, ψ] : V3) = |ψ| := by
      rw [norm3, show dot3 ![0, 0, ψ] ![0, 0, ψ] = ψ * ψ by simp [dot3], Real.sqrt_mul_self_eq_abs]
    have habs : 0 < |ψ| := lt_of_lt_of_le (by norm_num) h1
    have hexp : expSO3 ![0, 0, ψ] = rotZ ψ := by
      rw [expSO3_eq_of_le (by rw [hn]; exact le_trans (by norm_num) h1), hn]
      have hs : Real.sin |ψ| / |ψ| * ψ = Real.sin ψ := by
        rcases abs_cases ψ with ⟨h, _⟩ | ⟨h, _⟩ <;> rw [h] at habs ⊢
        · field_simp
        · have hz : ψ ≠ 0 := by linarith
          rw [Real.sin_neg]; field_simp
      have hc : (1 - Real.cos |ψ|) / (|ψ| * |ψ|) * (ψ * ψ) = 1 - Real.cos ψ := by
        rw [Real.cos_abs, abs_mul_abs_self, div_mul_cancel₀]
        intro h
        have : ψ = 0 := by simpa using h
        rw [this] at habs
        simp at habs
      unfold rodr rotZ
      generalize Real.sin |ψ| / |ψ| = A at hs
      generalize (1 - Real.cos |ψ|) / (|ψ| * |ψ|) = B at hc
      apply m3_ext <;> simp [Matrix.add_apply, Matrix.smul_apply, m3_mul_apply, skew00, skew01, skew02, skew10, skew11, skew12, skew20, skew21, skew22] <;>
        linarith
    have hE : (quat2Rot (q4 (ps i) 0)).transpose * quat2Rot (q4 f.lin (gSum (f.ty.take i))) = expSO3 ![0, 0, ψ] := by
      rw [hψ, Matrix.mul_assoc, (quat2Rot_isRot hl).1, Matrix.mul_one, hexp]
    simp only [prErr, if_true, thErr, hE]
    rw [C25_log_exp _ (by rw [hn]; exact h1) (by rw [hn]; exact h2)]
    simp

/-- **C102** With the constructor's weight and a zero gradient the squared residual is the error weighted by the information. -/
theorem C102_cost {n : ℕ} (f : PrF) (hn : lSum f.ty = n) (info s : Matrix (Fin n) (Fin n) ℝ) (b : Fin n → ℝ) (hm : PrMade info 0 s b)
    (hs : ∀ i j : Fin n, f.sqrtI i j = s i j) (hb : ∀ i : Fin n, f.b i = b i) (ps : ℕ → ℕ → ℝ) :
    ∑ i : Fin n, prRes f ps i ^ 2 = (fun i : Fin n => prLoop f.lin f.ty 0 0 ps (fun _ => 0) i) ⬝ᵥ
      info.mulVec (fun i : Fin n => prLoop f.lin f.ty 0 0 ps (fun _ => 0) i) := by
  obtain ⟨-, -, hi, hbb⟩ := hm
  set e : Fin n → ℝ := fun i : Fin n => prLoop f.lin f.ty 0 0 ps (fun _ => 0) i with he
  have hr : ∀ i : Fin n, prRes f ps i = s.mulVec e i := by
    intro i
    rw [prRes, hb, hbb, Matrix.mulVec_zero, hn, Finset.sum_range]
    simp only [Pi.zero_apply, add_zero, Matrix.mulVec, dotProduct, hs, he]
  have : ∑ i : Fin n, prRes f ps i ^ 2 = s.mulVec e ⬝ᵥ s.mulVec e := by simp only [hr, dotProduct, sq]
  rw [this, ← hi, ← Matrix.mulVec_mulVec, Matrix.dotProduct_mulVec _ s.transpose, Matrix.vecMul_transpose]

/-- **C102** (defect) The constant term is not the documented one: the header says `sqrtIᵀ b` is the prior gradient, but the constructor multiplies the
gradient by the inverse of `sqrtI` instead of its transpose, so for a gradient of (0, 1) under the information `[1 1; 1 2]` it is (-1, 0). -/
theorem C102_gradient_defect : ∃ (info s : Matrix (Fin 2) (Fin 2) ℝ) (grad b : Fin 2 → ℝ), PrMade info grad s b ∧ info.PosDef ∧
    s.transpose.mulVec b = ![-1, 0] ∧ grad = ![0, 1] := by
  have hinv : (!![1, 1; 0, 1] : Matrix (Fin 2) (Fin 2) ℝ)⁻¹ = !![1, -1; 0, 1] := by
    apply Matrix.inv_eq_right_inv
    ext i j
    fin_cases i <;> fin_cases j <;> simp [Matrix.mul_apply, Fin.sum_univ_two]
  refine ⟨!![1, 1; 1, 2], !![1, 1; 0, 1], ![0, 1], ![-1, 1], ⟨?_, ?_, ?_, ?_⟩, ?_, ?_, rfl⟩
  · intro i j hij
    fin_cases i <;> fin_cases j <;> simp at hij ⊢
  · intro i; fin_cases i <;> simp
  · ext i j
    fin_cases i <;> fin_cases j <;> simp [Matrix.mul_apply, Fin.sum_univ_two, Matrix.transpose_apply]; norm_num
  · rw [hinv]
    funext i
    fin_cases i <;> simp [Matrix.mulVec, dotProduct, Fin.sum_univ_two]
  · refine Matrix.PosDef.of_dotProduct_mulVec_pos ?_ ?_
    · ext i j
      fin_cases i <;> fin_cases j <;> simp
    · intro x hx
      simp [Matrix.mulVec, dotProduct, Fin.sum_univ_two]
      have : x 0 ≠ 0 ∨ x 1 ≠ 0 := by
        by_contra hc
        push Not at hc
        exact hx (by funext i; fin_cases i <;> simp [hc])
      rcases this with h | h
      · have := sq_pos_of_ne_zero h
        nlinarith [sq_nonneg (x 0 + 2 * x 1)]
      · have := sq_pos_of_ne_zero h
        nlinarith [sq_nonneg (x 0 + x 1)]
  · funext i
    fin_cases i <;> simp [Matrix.mulVec, dotProduct, Fin.sum_univ_two, Matrix.transpose_apply]

/-- **C102** the constant term is right where the gradient is zero, the only case the initialiser uses, or the information is diagonal. -/
theorem C102_gradient_partial {n : ℕ} (info s : Matrix (Fin n) (Fin n) ℝ) (grad b : Fin n → ℝ) (hm : PrMade info grad s b)
    (h : grad = 0 ∨ s.transpose = s) : s.transpose.mulVec b = grad := by
  obtain ⟨hu, hd, -, rfl⟩ := hm
  rcases h with rfl | h
  · simp
  · have hdet : IsUnit s.det := by
      rw [Matrix.det_of_upperTriangular (fun i j hij => hu i j hij)]
      exact (Finset.prod_ne_zero_iff.2 fun i _ => (hd i).ne').isUnit
    rw [h, Matrix.mulVec_mulVec, Matrix.mul_nonsing_inv _ hdet, Matrix.one_mulVec]

end Verif.Mle
