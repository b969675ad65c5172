import Verif.Eval.Props
import Verif.Tri.Props
import Verif.Quat.Props

/-!
# C55, C56, C57: alignment of trajectories
-/

open Classical

namespace Verif.Eval

open Verif

namespace Spec

/-- the sum of squared position errors of the points `(d, m)` under the similarity `d ↦ s R d + t`. -/
noncomputable def cost (R : M3) (t : V3) (s : ℝ) (data model : List V3) : ℝ :=
  ((List.zip data model).map fun x => dot3 (x.2 - (s • R.mulVec x.1 + t)) (x.2 - (s • R.mulVec x.1 + t))).sum

/-- `(U, D, V)` is a singular value decomposition of `C`: orthogonal factors, non-negative values in decreasing order. -/
structure IsSVD (C : M3) (r : M3 × V3 × M3) : Prop where
  uo : r.1.transpose * r.1 = 1
  vo : r.2.2.transpose * r.2.2 = 1
  d01 : r.2.1 1 ≤ r.2.1 0
  d12 : r.2.1 2 ≤ r.2.1 1
  d2 : 0 ≤ r.2.1 2
  eq : C = r.1 * Matrix.diagonal r.2.1 * r.2.2.transpose

end Spec

/-- Frobenius inner product. -/
def frob (A B : M3) : ℝ :=
  A 0 0 * B 0 0 + A 0 1 * B 0 1 + A 0 2 * B 0 2 + A 1 0 * B 1 0 + A 1 1 * B 1 1 + A 1 2 * B 1 2 + A 2 0 * B 2 0 + A 2 1 * B 2 1 + A 2 2 * B 2 2

theorem foldl_add_gen {α β : Type} [AddCommMonoid β] (f : α → β) (vs : List α) (c : β) : vs.foldl (fun a x => a + f x) c = c + (vs.map f).sum := by
  induction vs generalizing c with
  | nil => simp
  | cons x xs ih => rw [List.foldl_cons, ih, List.map_cons, List.sum_cons, add_assoc]

theorem mean3_eq (vs : List V3) : mean3 vs = (1 / (vs.length : ℝ)) • vs.sum := by
  have := foldl_add_gen (fun x : V3 => x) vs 0
  rw [zero_add, List.map_id'] at this
  rw [mean3, this]

theorem sum_centered (vs : List V3) (h : vs ≠ []) : (vs.map fun x => x - mean3 vs).sum = 0 := by
  have hn : (vs.length : ℝ) ≠ 0 := by exact_mod_cast (List.length_pos_of_ne_nil h).ne'
  have key : ∀ c : V3, (vs.map fun x => x - c).sum = vs.sum - (vs.length : ℝ) • c := by
    intro c
    clear h hn
    induction vs with
    | nil => simp
    | cons x xs ih => simp only [List.map_cons, List.sum_cons, ih, List.length_cons]; push_cast; module
  rw [key, mean3_eq, smul_smul]
  rw [mul_one_div_cancel hn, one_smul, sub_self]

theorem frob_add (R A B : M3) : frob R (A + B) = frob R A + frob R B := by simp only [frob, Matrix.add_apply]; ring
theorem frob_smul (R A : M3) (c : ℝ) : frob R (c • A) = c * frob R A := by simp only [frob, Matrix.smul_apply, smul_eq_mul]; ring
theorem frob_zero (R : M3) : frob R 0 = 0 := by simp [frob]
theorem frob_outer (R : M3) (m d : V3) : frob R (outer m d) = dot3 m (R.mulVec d) := by simp only [frob, outer, dot3, m3_mulVec_apply]; ring

theorem frob_sum {α : Type} (R : M3) (f : α → M3) (l : List α) : frob R (l.map f).sum = (l.map fun x => frob R (f x)).sum := by
  induction l with
  | nil => simp [frob_zero]
  | cons x xs ih => simp only [List.map_cons, List.sum_cons, frob_add, ih]

theorem dot3_rot' {R : M3} (hR : IsRot R) (u : V3) : dot3 (R.mulVec u) (R.mulVec u) = dot3 u u := by
  have h : R.transpose * R = 1 := hR.orth
  have e : ∀ i j, (R.transpose * R) i j = (1 : M3) i j := fun i j => by rw [h]
  have e00 := e 0 0; have e01 := e 0 1; have e02 := e 0 2; have e11 := e 1 1; have e12 := e 1 2; have e22 := e 2 2
  simp only [m3_mul_apply, Matrix.transpose_apply, one3] at e00 e01 e02 e11 e12 e22
  simp at e00 e01 e02 e11 e12 e22
  simp only [dot3, m3_mulVec_apply]
  linear_combination (u 0 * u 0) * e00 + 2 * (u 0 * u 1) * e01 + 2 * (u 0 * u 2) * e02 + (u 1 * u 1) * e11 + 2 * (u 1 * u 2) * e12 + (u 2 * u 2) * e22

theorem sum_dot_shift (us : List V3) (c : V3) : (us.map fun u => dot3 (u + c) (u + c)).sum = (us.map fun u => dot3 u u).sum + 2 * dot3 c us.sum + us.length * dot3 c c := by
  induction us with
  | nil => simp [dot3]
  | cons x xs ih =>
    rw [List.map_cons, List.sum_cons, ih, List.map_cons, List.sum_cons, List.sum_cons, List.length_cons]
    generalize (xs.map fun u => dot3 u u).sum = T
    generalize xs.sum = u
    simp only [dot3, Pi.add_apply]; push_cast; ring

/-- the cost in terms of the correlation matrix. -/
theorem cost_eq (data model : List V3) (hl : model.length = data.length) (hne : data ≠ []) {R : M3} (hR : IsRot R) (t : V3) (s : ℝ) :
    Spec.cost R t s data model = (model.map fun m => dot3 (m - mean3 model) (m - mean3 model)).sum
      - 2 * s * (data.length * frob R (corr data model)) + s ^ 2 * (data.length * sigma2 data)
      + data.length * dot3 (mean3 model - (s • R.mulVec (mean3 data) + t)) (mean3 model - (s • R.mulVec (mean3 data) + t)) := by
  have hn : (data.length : ℝ) ≠ 0 := by exact_mod_cast (List.length_pos_of_ne_nil hne).ne'
  have hmne : model ≠ [] := by
    intro h; rw [h] at hl; exact hne (List.length_eq_zero_iff.1 hl.symm)
  have hfst : (List.zip data model).map (fun x => x.1) = data := List.map_fst_zip (by omega)
  have hsnd : (List.zip data model).map (fun x => x.2) = model := List.map_snd_zip (by omega)
  have hlen : (List.zip data model).length = data.length := by rw [List.length_zip]; omega
  have e1 : (data.length : ℝ) * frob R (corr data model) = ((List.zip data model).map fun x => dot3 (x.2 - mean3 model) (R.mulVec (x.1 - mean3 data))).sum := by
    rw [corr, foldl_add_gen (fun x : V3 × V3 => outer (x.2 - mean3 model) (x.1 - mean3 data)), zero_add, frob_smul, frob_sum, hl]
    simp only [frob_outer]
    field_simp
  have e2 : (data.length : ℝ) * sigma2 data = ((List.zip data model).map fun x => dot3 (x.1 - mean3 data) (x.1 - mean3 data)).sum := by
    rw [sigma2, foldl_add_gen (fun x : V3 => dot3 (x - mean3 data) (x - mean3 data)), zero_add]
    conv_lhs => rw [show (data.map fun x => dot3 (x - mean3 data) (x - mean3 data)) = ((List.zip data model).map (fun x => x.1)).map fun x => dot3 (x - mean3 data) (x - mean3 data) by rw [hfst]]
    rw [List.map_map]
    simp only [Function.comp_def]
    field_simp
  have e3 : (model.map fun m => dot3 (m - mean3 model) (m - mean3 model)).sum = ((List.zip data model).map fun x => dot3 (x.2 - mean3 model) (x.2 - mean3 model)).sum := by
    conv_lhs => rw [show (model.map fun x => dot3 (x - mean3 model) (x - mean3 model)) = ((List.zip data model).map (fun x => x.2)).map fun x => dot3 (x - mean3 model) (x - mean3 model) by rw [hsnd]]
    rw [List.map_map]
    rfl
  -- centered residuals sum to zero
  have hz : ((List.zip data model).map fun x => (x.2 - mean3 model) - s • R.mulVec (x.1 - mean3 data)).sum = 0 := by
    have a1 : ((List.zip data model).map fun x => x.2 - mean3 model).sum = 0 := by
      have := sum_centered model hmne
      rw [show (model.map fun x => x - mean3 model) = ((List.zip data model).map (fun x => x.2)).map fun x => x - mean3 model by rw [hsnd], List.map_map] at this
      exact this
    have a2 : ((List.zip data model).map fun x => x.1 - mean3 data).sum = 0 := by
      have := sum_centered data hne
      rw [show (data.map fun x => x - mean3 data) = ((List.zip data model).map (fun x => x.1)).map fun x => x - mean3 data by rw [hfst], List.map_map] at this
      exact this
    have key : ∀ (L : List (V3 × V3)) (f g : V3 × V3 → V3), (L.map fun x => f x - s • R.mulVec (g x)).sum = (L.map f).sum - s • R.mulVec (L.map g).sum := by
      intro L f g
      induction L with
      | nil => simp
      | cons x xs ih => simp only [List.map_cons, List.sum_cons, ih, Matrix.mulVec_add]; module
    rw [key, a1, a2, Matrix.mulVec_zero]; simp
  have hsplit : Spec.cost R t s data model = ((((List.zip data model).map fun x => (x.2 - mean3 model) - s • R.mulVec (x.1 - mean3 data))).map fun u =>
      dot3 (u + (mean3 model - (s • R.mulVec (mean3 data) + t))) (u + (mean3 model - (s • R.mulVec (mean3 data) + t)))).sum := by
    rw [Spec.cost, List.map_map]
    congr 1
    apply List.map_congr_left
    intro x _
    have : x.2 - mean3 model - s • R.mulVec (x.1 - mean3 data) + (mean3 model - (s • R.mulVec (mean3 data) + t)) = x.2 - (s • R.mulVec x.1 + t) := by
      rw [Matrix.mulVec_sub]; module
    simp only [Function.comp_def, this]
  rw [hsplit, sum_dot_shift, hz, List.length_map, hlen, e1, e2, e3]
  have hd0 : ∀ c : V3, dot3 c 0 = 0 := fun c => by simp [dot3]
  rw [hd0]
  have hexp : ∀ L : List (V3 × V3), ((L.map fun x => (x.2 - mean3 model) - s • R.mulVec (x.1 - mean3 data)).map fun u => dot3 u u).sum =
      (L.map fun x => dot3 (x.2 - mean3 model) (x.2 - mean3 model)).sum - 2 * s * (L.map fun x => dot3 (x.2 - mean3 model) (R.mulVec (x.1 - mean3 data))).sum
        + s ^ 2 * (L.map fun x => dot3 (x.1 - mean3 data) (x.1 - mean3 data)).sum := by
    intro L
    induction L with
    | nil => simp
    | cons x xs ih =>
      simp only [List.map_cons, List.sum_cons] at ih ⊢
      rw [ih]
      have hr := dot3_rot' hR (x.1 - mean3 data)
      generalize R.mulVec (x.1 - mean3 data) = b at hr ⊢
      have : dot3 (x.2 - mean3 model - s • b) (x.2 - mean3 model - s • b) =
          dot3 (x.2 - mean3 model) (x.2 - mean3 model) - 2 * s * dot3 (x.2 - mean3 model) b + s ^ 2 * dot3 b b := by
        simp only [dot3, Pi.sub_apply, Pi.smul_apply, smul_eq_mul]; ring
      rw [this, hr]
      ring
  rw [hexp]
  ring

/-! ## The rotation that maximises the correlation -/

/-- an angle of `atan2(A, B)` maximises `B cos + A sin`. -/
theorem atan2_max (A B θ : ℝ) : B * Real.cos θ + A * Real.sin θ ≤ B * Real.cos (Land.atan2 A B) + A * Real.sin (Land.atan2 A B) := by
  by_cases hz : (⟨B, A⟩ : ℂ) = 0
  · have h1 := congrArg Complex.re hz
    have h2 := congrArg Complex.im hz
    simp only [Complex.zero_re, Complex.zero_im] at h1 h2
    rw [h1, h2]; simp
  · have hr : 0 < ‖(⟨B, A⟩ : ℂ)‖ := norm_pos_iff.2 hz
    have hsq : ‖(⟨B, A⟩ : ℂ)‖ ^ 2 = B ^ 2 + A ^ 2 := by rw [Complex.sq_norm, Complex.normSq_mk]; ring
    rw [Land.atan2, Complex.cos_arg hz, Complex.sin_arg]
    simp only
    generalize ‖(⟨B, A⟩ : ℂ)‖ = r at hr hsq
    have e : B * (B / r) + A * (A / r) = r := by field_simp; linarith
    rw [e]
    have hcs := Real.sin_sq_add_cos_sq θ
    have : (B * Real.cos θ + A * Real.sin θ) ^ 2 ≤ r ^ 2 := by
      rw [hsq]
      nlinarith [sq_nonneg (B * Real.sin θ - A * Real.cos θ)]
    exact abs_le_of_sq_le_sq' this hr.le |>.2

theorem frob_rotZ (θ : ℝ) (C : M3) : frob (rotZ θ) C = (C 0 0 + C 1 1) * Real.cos θ + (C 1 0 - C 0 1) * Real.sin θ + C 2 2 := by
  simp [frob, rotZ]; ring

theorem rotZ_isRot (θ : ℝ) : IsRot (rotZ θ) := by
  have h := Real.sin_sq_add_cos_sq θ
  constructor
  · apply m3_ext <;> simp [m3_mul_apply, rotZ, one3, Matrix.transpose_apply] <;> nlinarith
  · rw [Matrix.det_fin_three]; simp [rotZ]; nlinarith

/-- the yaw chosen by the code maximises the correlation over all yaws. -/
theorem bestYaw_max (C : M3) (n : ℝ) (hn : 0 < n) (θ : ℝ) : frob (rotZ θ) C ≤ frob (rotZ (bestYaw (n • C.transpose))) C := by
  rw [frob_rotZ, frob_rotZ]
  have := atan2_max (n * C 1 0 - n * C 0 1) (n * C 0 0 + n * C 1 1) θ
  have e : bestYaw (n • C.transpose) = Land.atan2 (n * C 1 0 - n * C 0 1) (n * C 0 0 + n * C 1 1) := by
    simp [bestYaw, Matrix.transpose_apply]
  rw [e]
  generalize Land.atan2 (n * C 1 0 - n * C 0 1) (n * C 0 0 + n * C 1 1) = φ at this
  have h2 : n * ((C 0 0 + C 1 1) * Real.cos θ + (C 1 0 - C 0 1) * Real.sin θ) ≤ n * ((C 0 0 + C 1 1) * Real.cos φ + (C 1 0 - C 0 1) * Real.sin φ) := by linarith
  have := le_of_mul_le_mul_left h2 hn
  linarith

/-- the trace of a rotation is at least `-1`. -/
theorem rot_trace_ge {P : M3} (h : IsRot P) : -1 ≤ P 0 0 + P 1 1 + P 2 2 := by
  obtain hp := rot2quatRaw_prods h
  have hr := hp.rot
  have hu : IsUnitQ (rot2quatRaw P) := hp.unit
  have h00 := congrFun (congrFun hr 0) 0; have h11 := congrFun (congrFun hr 1) 1; have h22 := congrFun (congrFun hr 2) 2
  rw [q2r00] at h00; rw [q2r11] at h11; rw [q2r22] at h22
  unfold IsUnitQ at hu
  nlinarith [sq_nonneg (rot2quatRaw P).w]

theorem orth_diag_le {Q : M3} (h : Q.transpose * Q = 1) (i : Fin 3) : Q i i ≤ 1 := by
  have e : (Q.transpose * Q) i i = (1 : M3) i i := by rw [h]
  rw [m3_mul_apply, one3, if_pos rfl] at e
  simp only [Matrix.transpose_apply] at e
  have : Q i i * Q i i ≤ 1 := by
    fin_cases i <;> simp only [Fin.isValue, Fin.zero_eta, Fin.mk_one, Fin.reduceFinMk] at e ⊢ <;> nlinarith [sq_nonneg (Q 0 0), sq_nonneg (Q 1 0), sq_nonneg (Q 2 0), sq_nonneg (Q 0 1), sq_nonneg (Q 1 1), sq_nonneg (Q 2 1),
      sq_nonneg (Q 0 2), sq_nonneg (Q 1 2), sq_nonneg (Q 2 2)]
  nlinarith [sq_nonneg (Q i i - 1)]

theorem orth_det {Q : M3} (h : Q.transpose * Q = 1) : Q.det = 1 ∨ Q.det = -1 := by
  have := congrArg Matrix.det h
  rw [Matrix.det_mul, Matrix.det_transpose, Matrix.det_one] at this
  exact mul_self_eq_one_iff.1 this

/-- the diagonal bound used by Umeyama. -/
theorem orth_bound {Q : M3} (h : Q.transpose * Q = 1) (d : V3) (h01 : d 1 ≤ d 0) (h12 : d 2 ≤ d 1) (h2 : 0 ≤ d 2) :
    Q 0 0 * d 0 + Q 1 1 * d 1 + Q 2 2 * d 2 ≤ d 0 + d 1 + (if Q.det < 0 then -1 else 1) * d 2 := by
  have a0 := orth_diag_le h 0; have a1 := orth_diag_le h 1; have a2 := orth_diag_le h 2
  rcases orth_det h with hd | hd
  · rw [hd, if_neg (by norm_num)]
    nlinarith [mul_le_mul_of_nonneg_right a0 (h2.trans (h12.trans h01)), mul_le_mul_of_nonneg_right a1 (h2.trans h12), mul_le_mul_of_nonneg_right a2 h2]
  · rw [hd, if_pos (by norm_num)]
    have hrot : IsRot (-Q) := by
      refine ⟨by rw [Matrix.transpose_neg, Matrix.neg_mul, Matrix.mul_neg, neg_neg, h], ?_⟩
      rw [Matrix.det_neg, hd]; norm_num
    have ht := rot_trace_ge hrot
    simp only [Matrix.neg_apply] at ht
    have b1 : (Q 0 0 + Q 1 1 + Q 2 2) * d 2 ≤ 1 * d 2 := mul_le_mul_of_nonneg_right (by linarith) h2
    have b2 : (Q 0 0 + Q 1 1) * (d 1 - d 2) ≤ 2 * (d 1 - d 2) := mul_le_mul_of_nonneg_right (by linarith) (by linarith)
    have b3 : Q 0 0 * (d 0 - d 1) ≤ 1 * (d 0 - d 1) := mul_le_mul_of_nonneg_right a0 (by linarith)
    nlinarith

theorem frob_trace (A B : M3) : frob A B = (A.transpose * B).trace := by
  simp only [Matrix.trace_fin_three, m3_mul_apply, Matrix.transpose_apply, frob]; ring

theorem signS_sq (U V : M3) : signS U V * signS U V = 1 := by
  unfold signS
  split_ifs
  · rw [Matrix.diagonal_mul_diagonal]
    apply m3_ext <;> simp [Matrix.diagonal, one3]
  · simp

theorem signS_transpose (U V : M3) : (signS U V).transpose = signS U V := by
  unfold signS
  split_ifs
  · exact Matrix.diagonal_transpose _
  · simp

/-- the rotation built from the SVD is a rotation and maximises the correlation over all rotations; the maximum is the trace of `D S`. -/
theorem svd_max {C : M3} {r : M3 × V3 × M3} (h : Spec.IsSVD C r) :
    IsRot (r.1 * signS r.1 r.2.2 * r.2.2.transpose) ∧
    frob (r.1 * signS r.1 r.2.2 * r.2.2.transpose) C = tr3 (Matrix.diagonal r.2.1 * signS r.1 r.2.2) ∧
    0 ≤ tr3 (Matrix.diagonal r.2.1 * signS r.1 r.2.2) ∧
    ∀ R', IsRot R' → frob R' C ≤ tr3 (Matrix.diagonal r.2.1 * signS r.1 r.2.2) := by
  obtain ⟨U, D, V⟩ := r
  obtain ⟨hu, hv, h01, h12, h2, rfl⟩ := h
  simp only at *
  have hv' : V * V.transpose = 1 := mul_eq_one_comm.1 hv
  have htr : tr3 (Matrix.diagonal D * signS U V) = D 0 + D 1 + (if U.det * V.det < 0 then -1 else 1) * D 2 := by
    unfold signS
    split_ifs
    · rw [Matrix.diagonal_mul_diagonal]; simp [tr3, Matrix.diagonal]
    · simp [tr3, Matrix.diagonal]
  refine ⟨⟨?_, ?_⟩, ?_, ?_, ?_⟩
  · rw [Matrix.transpose_mul, Matrix.transpose_mul, Matrix.transpose_transpose, signS_transpose]
    calc V * (signS U V * U.transpose) * (U * signS U V * V.transpose) = V * (signS U V * (U.transpose * U) * signS U V) * V.transpose := by simp only [Matrix.mul_assoc]
      _ = 1 := by rw [hu, Matrix.mul_one, signS_sq, Matrix.mul_one, hv']
  · rw [Matrix.det_mul, Matrix.det_mul, Matrix.det_transpose]
    have hS : (signS U V).det = if U.det * V.det < 0 then -1 else 1 := by
      unfold signS
      split_ifs
      · rw [Matrix.det_diagonal]; simp [Fin.prod_univ_three]
      · simp
    rw [hS]
    rcases orth_det hu with a | a <;> rcases orth_det hv with b | b <;> rw [a, b] <;> norm_num
  · rw [frob_trace, Matrix.transpose_mul, Matrix.transpose_mul, Matrix.transpose_transpose, signS_transpose]
    have : V * (signS U V * U.transpose) * (U * Matrix.diagonal D * V.transpose) = V * (signS U V * (U.transpose * U) * Matrix.diagonal D) * V.transpose := by
      simp only [Matrix.mul_assoc]
    rw [this, hu, Matrix.mul_one, Matrix.trace_mul_comm, ← Matrix.mul_assoc, hv, Matrix.one_mul, Matrix.trace_mul_comm, Matrix.trace_fin_three, tr3]
  · rw [htr]; split_ifs <;> linarith
  · intro R' hR
    rw [frob_trace, htr]
    have e : (R'.transpose * (U * Matrix.diagonal D * V.transpose)).trace = (V.transpose * R'.transpose * U * Matrix.diagonal D).trace := by
      rw [← Matrix.mul_assoc, Matrix.trace_mul_comm]
      simp only [Matrix.mul_assoc]
    rw [e]
    have hQ : (V.transpose * R'.transpose * U).transpose * (V.transpose * R'.transpose * U) = 1 := by
      rw [Matrix.transpose_mul, Matrix.transpose_mul, Matrix.transpose_transpose, Matrix.transpose_transpose]
      calc U.transpose * (R' * V) * (V.transpose * R'.transpose * U) = U.transpose * (R' * (V * V.transpose) * R'.transpose) * U := by simp only [Matrix.mul_assoc]
        _ = 1 := by rw [hv', Matrix.mul_one, hR.orth', Matrix.mul_one, hu]
    have hb := orth_bound hQ D h01 h12 h2
    have hdet : (V.transpose * R'.transpose * U).det = U.det * V.det := by
      rw [Matrix.det_mul, Matrix.det_mul, Matrix.det_transpose, Matrix.det_transpose, hR.det]; ring
    rw [hdet] at hb
    refine le_trans (le_of_eq ?_) hb
    rw [Matrix.trace_fin_three]
    simp only [Matrix.mul_diagonal]

/-! ## C55 -/

theorem align_rot {R : M3} (hR : IsRot R) (t : V3) (s : ℝ) {x : Pose} (hx : IsUnitQ x.q) :
    IsUnitQ (applyAlign (R, t, s) x).q ∧ quat2Rot (applyAlign (R, t, s) x).q = quat2Rot x.q * R.transpose := by
  obtain ⟨hc, he⟩ := QuatProps.C24_rotation_round_trip.2 R hR
  obtain ⟨i1, i2, -⟩ := QuatProps.C23_quat_inverse _ hc.1
  obtain ⟨m1, -, m3⟩ := QuatProps.C23_quat_multiply x.q _ hx i1
  exact ⟨m1, by rw [applyAlign, m3, i2, he]⟩

/-- **C55** Single-pose SE(3) alignment returns a rotation that, applied to the estimated trajectory as the evaluation does, maps the first estimated position
and orientation exactly onto the first groundtruth pose. -/
theorem C55_se3_single (svd : M3 → M3 × V3 × M3) (e g : Pose) (es gt : List Pose) (n : ℤ) (he : IsUnitQ e.q) (hg : IsUnitQ g.q) :
    ∃ R t, alignTrajectory svd (e :: es) (g :: gt) .se3single n = some (R, t, 1) ∧ alignTrajectory svd (e :: es) (g :: gt) .se3 1 = some (R, t, 1) ∧
      IsRot R ∧ (applyAlign (R, t, 1) e).p = g.p ∧ quat2Rot (applyAlign (R, t, 1) e).q = quat2Rot g.q := by
  have hE := quat2Rot_isRot he
  have hG := quat2Rot_isRot hg
  have hs : se3Single (e :: es) (g :: gt) =
      some ((quat2Rot g.q).transpose * quat2Rot e.q, g.p - ((quat2Rot g.q).transpose * quat2Rot e.q).mulVec e.p) := rfl
  refine ⟨_, _, by rw [alignTrajectory, hs]; rfl, by simp only [alignTrajectory, hs, if_true]; rfl, hG.transpose.mul hE, ?_, ?_⟩
  · simp [applyAlign]
  · rw [(align_rot (hG.transpose.mul hE) _ _ he).2, Matrix.transpose_mul, Matrix.transpose_transpose, ← Matrix.mul_assoc, hE.orth', Matrix.one_mul]

/-- **C55** Single-pose position and yaw alignment returns a rotation about the vertical axis: it maps the first estimated position exactly onto the first
groundtruth position, leaves the vertical direction fixed, and no other yaw brings the first estimated orientation closer (in the Frobenius norm) to the first
groundtruth orientation. -/
theorem C55_posyaw_single (svd : M3 → M3 × V3 × M3) (e g : Pose) (es gt : List Pose) (n : ℤ) :
    ∃ θ t, alignTrajectory svd (e :: es) (g :: gt) .posyawsingle n = some (rotZ θ, t, 1) ∧ alignTrajectory svd (e :: es) (g :: gt) .posyaw 1 = some (rotZ θ, t, 1) ∧
      (applyAlign (rotZ θ, t, 1) e).p = g.p ∧ (rotZ θ).mulVec ![0, 0, 1] = ![0, 0, 1] ∧
      ∀ φ, let gap : M3 → ℝ := fun R => frob (R * (quat2Rot e.q).transpose - (quat2Rot g.q).transpose) (R * (quat2Rot e.q).transpose - (quat2Rot g.q).transpose)
        gap (rotZ θ) ≤ gap (rotZ φ) := by
  have hs : posyawSingle (e :: es) (g :: gt) =
      some (rotZ (bestYaw ((quat2Rot e.q).transpose * quat2Rot g.q)), g.p - (rotZ (bestYaw ((quat2Rot e.q).transpose * quat2Rot g.q))).mulVec e.p) := rfl
  refine ⟨bestYaw ((quat2Rot e.q).transpose * quat2Rot g.q), _, by rw [alignTrajectory, hs]; rfl, by simp only [alignTrajectory, hs, if_true]; rfl, ?_, ?_, ?_⟩
  · simp [applyAlign]
  · apply v3_ext <;> simp [m3_mulVec_apply, rotZ]
  · intro φ
    simp only
    have expand : ∀ θ : ℝ, frob (rotZ θ * (quat2Rot e.q).transpose - (quat2Rot g.q).transpose) (rotZ θ * (quat2Rot e.q).transpose - (quat2Rot g.q).transpose) =
        frob (quat2Rot e.q) (quat2Rot e.q) + frob (quat2Rot g.q) (quat2Rot g.q) - 2 * frob (rotZ θ) ((quat2Rot g.q).transpose * quat2Rot e.q) := by
      intro θ
      have h := Real.sin_sq_add_cos_sq θ
      generalize quat2Rot e.q = E
      generalize quat2Rot g.q = G
      simp only [frob, Matrix.sub_apply, m3_mul_apply, Matrix.transpose_apply, rotZ]
      simp
      linear_combination (E 0 0 ^ 2 + E 1 0 ^ 2 + E 2 0 ^ 2 + E 0 1 ^ 2 + E 1 1 ^ 2 + E 2 1 ^ 2) * h
    rw [expand, expand]
    have := bestYaw_max ((quat2Rot g.q).transpose * quat2Rot e.q) 1 one_pos φ
    rw [one_smul, Matrix.transpose_mul, Matrix.transpose_transpose] at this
    linarith

/-! ## C56, C57 -/

theorem dot3_self_zero : dot3 (0 : V3) 0 = 0 := by simp [dot3]

/-- **C56** Position and yaw alignment of two non-empty position lists of equal length returns scale one and the yaw and translation that minimise the sum of
squared position errors over all yaws and translations; the estimated centroid is mapped onto the groundtruth one. -/
theorem C56_posyaw_optimal (svd : M3 → M3 × V3 × M3) (data model : List V3) (hl : model.length = data.length) (hne : data ≠ []) :
    ∃ θ t, umeyama svd data model true true = some (rotZ θ, t, 1) ∧ (rotZ θ).mulVec (mean3 data) + t = mean3 model ∧
      ∀ φ t', Spec.cost (rotZ θ) t 1 data model ≤ Spec.cost (rotZ φ) t' 1 data model := by
  have hn : (0 : ℝ) < data.length := by exact_mod_cast List.length_pos_of_ne_nil hne
  refine ⟨bestYaw ((model.length : ℝ) • (corr data model).transpose), mean3 model - (1 : ℝ) • (rotZ (bestYaw ((model.length : ℝ) • (corr data model).transpose))).mulVec (mean3 data), ?_, ?_, ?_⟩
  · simp [umeyama, hl]
  · rw [one_smul]; abel
  · intro φ t'
    rw [cost_eq data model hl hne (rotZ_isRot _), cost_eq data model hl hne (rotZ_isRot _)]
    have hm := bestYaw_max (corr data model) model.length (by rw [hl]; exact hn) φ
    have hz : ∀ θ : ℝ, mean3 model - ((1 : ℝ) • (rotZ θ).mulVec (mean3 data) + (mean3 model - (1 : ℝ) • (rotZ θ).mulVec (mean3 data))) = 0 := fun θ => by abel
    rw [hz, dot3_self_zero]
    have hq := dot3_self_nonneg (mean3 model - ((1 : ℝ) • (rotZ φ).mulVec (mean3 data) + t'))
    have h1 := mul_le_mul_of_nonneg_left hm hn.le
    have h2 := mul_nonneg hn.le hq
    linarith

theorem umeyama_full (svd : M3 → M3 × V3 × M3) (data model : List V3) (hl : model.length = data.length) (k : Bool) :
    ∃ R t s, umeyama svd data model k false = some (R, t, s) ∧
      R = (svd (corr data model)).1 * signS (svd (corr data model)).1 (svd (corr data model)).2.2 * (svd (corr data model)).2.2.transpose ∧
      t = mean3 model - s • R.mulVec (mean3 data) ∧
      s = if k then 1 else 1 / sigma2 data * tr3 (Matrix.diagonal (svd (corr data model)).2.1 * signS (svd (corr data model)).1 (svd (corr data model)).2.2) := by
  unfold umeyama
  rw [if_neg (by simp [hl])]
  exact ⟨_, _, _, rfl, rfl, rfl, rfl⟩

/-- **C57** If the SVD returned is a singular value decomposition of the correlation matrix, SE(3) alignment of two non-empty position lists of equal length
returns scale one and a proper rotation and translation minimising the sum of squared position errors over all rotations and translations. -/
theorem C57_se3_optimal (svd : M3 → M3 × V3 × M3) (data model : List V3) (hl : model.length = data.length) (hne : data ≠ [])
    (hsvd : Spec.IsSVD (corr data model) (svd (corr data model))) :
    ∃ R t, umeyama svd data model true false = some (R, t, 1) ∧ IsRot R ∧ R.mulVec (mean3 data) + t = mean3 model ∧
      ∀ R' t', IsRot R' → Spec.cost R t 1 data model ≤ Spec.cost R' t' 1 data model := by
  have hn : (0 : ℝ) < data.length := by exact_mod_cast List.length_pos_of_ne_nil hne
  obtain ⟨hR, he, -, hmax⟩ := svd_max hsvd
  obtain ⟨R, t, s, hu, eR, et, es⟩ := umeyama_full svd data model hl true
  rw [if_pos rfl] at es
  subst es
  rw [← eR] at hR he
  refine ⟨R, t, hu, hR, by rw [et, one_smul]; abel, ?_⟩
  rw [et]
  · intro R' t' hR'
    rw [cost_eq data model hl hne hR, cost_eq data model hl hne hR', he]
    have hm := hmax R' hR'
    rw [show mean3 model - ((1 : ℝ) • R.mulVec (mean3 data) + (mean3 model - (1 : ℝ) • R.mulVec (mean3 data))) = 0 by abel, dot3_self_zero]
    have hq := dot3_self_nonneg (mean3 model - ((1 : ℝ) • R'.mulVec (mean3 data) + t'))
    have h1 := mul_le_mul_of_nonneg_left hm hn.le
    have h2 := mul_nonneg hn.le hq
    linarith

/-- **C57** Under the same condition and if the estimated positions are not all equal, Sim(3) alignment returns a non-negative scale, a proper rotation and a
translation minimising the sum of squared position errors over all non-negative scales, rotations and translations. -/
theorem C57_sim3_optimal (svd : M3 → M3 × V3 × M3) (data model : List V3) (hl : model.length = data.length) (hne : data ≠ [])
    (hv : ∃ x ∈ data, ∃ y ∈ data, x ≠ y) (hsvd : Spec.IsSVD (corr data model) (svd (corr data model))) :
    ∃ R t s, umeyama svd data model false false = some (R, t, s) ∧ IsRot R ∧ 0 ≤ s ∧ s • R.mulVec (mean3 data) + t = mean3 model ∧
      ∀ R' t' s', IsRot R' → 0 ≤ s' → Spec.cost R t s data model ≤ Spec.cost R' t' s' data model := by
  have hn : (0 : ℝ) < data.length := by exact_mod_cast List.length_pos_of_ne_nil hne
  obtain ⟨hR, he, hpos, hmax⟩ := svd_max hsvd
  have hsig : 0 < sigma2 data := by
    rw [sigma2, foldl_add_gen (fun x : V3 => dot3 (x - mean3 data) (x - mean3 data)), zero_add]
    apply mul_pos (by positivity)
    have hnn : ∀ z ∈ data.map (fun x => dot3 (x - mean3 data) (x - mean3 data)), 0 ≤ z := by
      intro z hz; obtain ⟨w, _, rfl⟩ := List.mem_map.1 hz; exact dot3_self_nonneg _
    rcases (List.sum_nonneg hnn).lt_or_eq with h | h
    · exact h
    · exfalso
      have hall : ∀ x ∈ data, x = mean3 data := by
        intro x hx
        have h1 := List.single_le_sum hnn _ (List.mem_map.2 ⟨x, hx, rfl⟩)
        rw [← h] at h1
        have h0 : norm3 (x - mean3 data) = 0 := by
          rw [norm3, Real.sqrt_eq_zero (dot3_self_nonneg _)]
          exact le_antisymm h1 (dot3_self_nonneg _)
        exact sub_eq_zero.1 (norm3_eq_zero.1 h0)
      obtain ⟨x, hx, y, hy, hxy⟩ := hv
      exact hxy ((hall x hx).trans (hall y hy).symm)
  obtain ⟨R, t, s, hu, eR, et, es⟩ := umeyama_full svd data model hl false
  rw [if_neg (by simp)] at es
  rw [← eR] at hR he
  refine ⟨R, t, s, hu, hR, by rw [es]; positivity, by rw [et]; abel, ?_⟩
  rw [et, es]
  · intro R' t' s' hR' hs'
    rw [cost_eq data model hl hne hR, cost_eq data model hl hne hR', he]
    have hm := hmax R' hR'
    generalize tr3 (Matrix.diagonal (svd (corr data model)).2.1 * signS (svd (corr data model)).1 (svd (corr data model)).2.2) = τ at *
    have hz : ∀ s : ℝ, mean3 model - (s • R.mulVec (mean3 data) + (mean3 model - s • R.mulVec (mean3 data))) = 0 := fun s => by abel
    rw [hz, dot3_self_zero]
    have hq := dot3_self_nonneg (mean3 model - (s' • R'.mulVec (mean3 data) + t'))
    have h2 := mul_nonneg hn.le hq
    have h3 : s' * frob R' (corr data model) ≤ s' * τ := mul_le_mul_of_nonneg_left hm hs'
    have h4 : -2 * (1 / sigma2 data * τ) * τ + (1 / sigma2 data * τ) ^ 2 * sigma2 data ≤ -2 * s' * τ + s' ^ 2 * sigma2 data := by
      have e : -2 * s' * τ + s' ^ 2 * sigma2 data - (-2 * (1 / sigma2 data * τ) * τ + (1 / sigma2 data * τ) ^ 2 * sigma2 data) = (s' * sigma2 data - τ) ^ 2 / sigma2 data := by
        field_simp; ring
      have := div_nonneg (sq_nonneg (s' * sigma2 data - τ)) hsig.le
      linarith
    have h5 : -2 * (1 / sigma2 data * τ) * τ + (1 / sigma2 data * τ) ^ 2 * sigma2 data ≤ -2 * (s' * frob R' (corr data model)) + s' ^ 2 * sigma2 data := by linarith
    have h6 := mul_le_mul_of_nonneg_left h5 hn.le
    linarith

/-- **C56, C57** `align_trajectory` aligns all position pairs of the two trajectories whatever the requested number of poses, unless that number is one: the
documented use of only the first `n` poses does not happen. -/
theorem C57_number_of_poses_ignored (svd : M3 → M3 × V3 × M3) (es gt : List Pose) (n n' : ℤ) (h : 2 ≤ n) (h' : 2 ≤ n') (m : Method) :
    alignTrajectory svd es gt m n = alignTrajectory svd es gt m n' := by
  cases m <;> simp [alignTrajectory, show n ≠ 1 by omega, show n' ≠ 1 by omega, h, h']

/-- two points, the second turned by a quarter: a non-trivial alignment problem, with an SVD of its correlation matrix. -/
example : Spec.IsSVD (corr [![1, 0, 0], ![-1, 0, 0]] [![0, 1, 0], ![0, -1, 0]]) (!![0, 1, 0; 1, 0, 0; 0, 0, 1], ![1, 0, 0], 1) := by
  have e : corr [![1, 0, 0], ![-1, 0, 0]] [![0, 1, 0], ![0, -1, 0]] = !![0, 0, 0; 1, 0, 0; 0, 0, 0] := by
    have m1 : mean3 [![1, 0, 0], ![-1, 0, 0]] = 0 := by
      rw [mean3_eq]; apply v3_ext <;> simp
    have m2 : mean3 [![0, 1, 0], ![0, -1, 0]] = 0 := by
      rw [mean3_eq]; apply v3_ext <;> simp
    rw [corr, m1, m2]
    apply m3_ext <;> simp [outer] <;> norm_num
  constructor
  · apply m3_ext <;> simp [m3_mul_apply, Matrix.transpose_apply, one3]
  · simp
  · simp
  · simp
  · simp
  · rw [e]; apply m3_ext <;> simp [m3_mul_apply, Matrix.diagonal, Matrix.vecHead, Matrix.vecTail]

end Verif.Eval
