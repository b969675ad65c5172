import Verif.Quat.Props

/-! # Entry-wise derivatives at `0` of vector- and matrix-valued curves, and the derivative of `exp_so3` -/

set_option linter.unusedSimpArgs false

namespace Verif

open Matrix

/-- the vector curve `f` has derivative `f'` at `0`, entry by entry. -/
def HasDv {n : ℕ} (f : ℝ → Fin n → ℝ) (f' : Fin n → ℝ) : Prop := ∀ i, HasDerivAt (fun e => f e i) (f' i) 0

/-- the matrix curve `f` has derivative `f'` at `0`, entry by entry. -/
def HasDm {m n : ℕ} (f : ℝ → Matrix (Fin m) (Fin n) ℝ) (f' : Matrix (Fin m) (Fin n) ℝ) : Prop :=
  ∀ i j, HasDerivAt (fun e => f e i j) (f' i j) 0

namespace HasDv
variable {n : ℕ} {f g : ℝ → Fin n → ℝ} {f' g' : Fin n → ℝ}

theorem const (v : Fin n → ℝ) : HasDv (fun _ => v) 0 := fun _ => hasDerivAt_const _ _
theorem add (hf : HasDv f f') (hg : HasDv g g') : HasDv (fun e => f e + g e) (f' + g') := fun i => (hf i).fun_add (hg i)
theorem sub (hf : HasDv f f') (hg : HasDv g g') : HasDv (fun e => f e - g e) (f' - g') := fun i => (hf i).fun_sub (hg i)
theorem neg (hf : HasDv f f') : HasDv (fun e => -f e) (-f') := fun i => (hf i).fun_neg
theorem smul (c : ℝ) (hf : HasDv f f') : HasDv (fun e => c • f e) (c • f') := fun i => (hf i).const_mul c
theorem line (v d : Fin n → ℝ) : HasDv (fun e => v + e • d) d := fun i => by
  have := ((hasDerivAt_id (0:ℝ)).mul_const (d i)).const_add (v i)
  simpa using this
theorem congr' (hf : HasDv f f') (h : f' = g') : HasDv f g' := h ▸ hf
theorem congr_fun (hf : HasDv f f') (h : ∀ e, g e = f e) : HasDv g f' := by
  have : g = f := funext h
  rw [this]; exact hf
theorem congr_ev (hf : HasDv f f') (h : ∀ᶠ e in nhds (0:ℝ), g e = f e) : HasDv g f' := fun i =>
  (hf i).congr_of_eventuallyEq (h.mono fun e he => by simp [he])
theorem cont (hf : HasDv f f') (i : Fin n) : ContinuousAt (fun e => f e i) 0 := (hf i).continuousAt
end HasDv

namespace HasDm
variable {m n k : ℕ} {f g : ℝ → Matrix (Fin m) (Fin n) ℝ} {f' g' : Matrix (Fin m) (Fin n) ℝ}
  {h : ℝ → Matrix (Fin n) (Fin k) ℝ} {h' : Matrix (Fin n) (Fin k) ℝ} {v : ℝ → Fin n → ℝ} {v' : Fin n → ℝ}

theorem const (A : Matrix (Fin m) (Fin n) ℝ) : HasDm (fun _ => A) 0 := fun _ _ => hasDerivAt_const _ _
theorem add (hf : HasDm f f') (hg : HasDm g g') : HasDm (fun e => f e + g e) (f' + g') := fun i j => (hf i j).fun_add (hg i j)
theorem sub (hf : HasDm f f') (hg : HasDm g g') : HasDm (fun e => f e - g e) (f' - g') := fun i j => (hf i j).fun_sub (hg i j)
theorem neg (hf : HasDm f f') : HasDm (fun e => -f e) (-f') := fun i j => (hf i j).fun_neg
theorem smul (c : ℝ) (hf : HasDm f f') : HasDm (fun e => c • f e) (c • f') := fun i j => (hf i j).const_mul c
theorem tr (hf : HasDm f f') : HasDm (fun e => (f e).transpose) f'.transpose := fun i j => hf j i
theorem mul (hf : HasDm f f') (hh : HasDm h h') : HasDm (fun e => f e * h e) (f' * h 0 + f 0 * h') := fun i j => by
  have := HasDerivAt.fun_sum (u := Finset.univ) fun x _ => (hf i x).fun_mul (hh x j)
  refine (this.congr_of_eventuallyEq (Filter.Eventually.of_forall fun e => ?_)).congr_deriv ?_
  · simp [Matrix.mul_apply]
  · simp [Matrix.mul_apply, Finset.sum_add_distrib]
theorem mulVec (hf : HasDm f f') (hv : HasDv v v') : HasDv (fun e => (f e).mulVec (v e)) (f'.mulVec (v 0) + (f 0).mulVec v') :=
  fun i => by
  have := HasDerivAt.fun_sum (u := Finset.univ) fun x _ => (hf i x).fun_mul (hv x)
  refine (this.congr_of_eventuallyEq (Filter.Eventually.of_forall fun e => ?_)).congr_deriv ?_
  · simp [Matrix.mulVec, dotProduct]
  · simp [Matrix.mulVec, dotProduct, Finset.sum_add_distrib]
theorem congr' (hf : HasDm f f') (h : f' = g') : HasDm f g' := h ▸ hf
theorem congr_fun (hf : HasDm f f') (h : ∀ e, g e = f e) : HasDm g f' := by
  have : g = f := funext h
  rw [this]; exact hf
theorem congr_ev (hf : HasDm f f') (h : ∀ᶠ e in nhds (0:ℝ), g e = f e) : HasDm g f' := fun i j =>
  (hf i j).congr_of_eventuallyEq (h.mono fun e he => by simp [he])
end HasDm

/-- multiplication by a constant matrix. -/
theorem HasDv.mulc {m n : ℕ} (A : Matrix (Fin m) (Fin n) ℝ) {v : ℝ → Fin n → ℝ} {v' : Fin n → ℝ} (hv : HasDv v v') :
    HasDv (fun e => A.mulVec (v e)) (A.mulVec v') := by
  have := (HasDm.const A).mulVec hv
  simpa using this

theorem HasDv.skew {v : ℝ → V3} {v' : V3} (h : HasDv v v') : HasDm (fun e => Verif.skew (v e)) (Verif.skew v') := by
  intro i j
  fin_cases i <;> fin_cases j <;>
    first
    | exact hasDerivAt_const _ _
    | exact h 0
    | exact h 1
    | exact h 2
    | exact (h 0).fun_neg
    | exact (h 1).fun_neg
    | exact (h 2).fun_neg

theorem HasDv.norm {v : ℝ → V3} {v' : V3} (h : HasDv v v') (h0 : 0 < norm3 (v 0)) :
    HasDerivAt (fun e => norm3 (v e)) (dot3 (v 0) v' / norm3 (v 0)) 0 := by
  have hd : HasDerivAt (fun e => dot3 (v e) (v e)) (2 * dot3 (v 0) v') 0 := by
    have := (((h 0).fun_mul (h 0)).fun_add ((h 1).fun_mul (h 1))).fun_add ((h 2).fun_mul (h 2))
    refine this.congr_deriv ?_
    simp only [dot3]; ring
  have hp : dot3 (v 0) (v 0) ≠ 0 := by
    have := norm3_sq (v 0)
    intro h'
    rw [h'] at this
    nlinarith
  have := hd.sqrt hp
  refine this.congr_deriv ?_
  show 2 * dot3 (v 0) v' / (2 * norm3 (v 0)) = _
  field_simp

theorem rodr_deriv {a b : ℝ → ℝ} {a' b' : ℝ} {v : ℝ → V3} {v' : V3} (ha : HasDerivAt a a' 0) (hb : HasDerivAt b b' 0)
    (h : HasDv v v') :
    HasDm (fun e => rodr (a e) (b e) (v e))
      (a' • skew (v 0) + a 0 • skew v' + b' • (skew (v 0) * skew (v 0)) + b 0 • (skew v' * skew (v 0) + skew (v 0) * skew v')) := by
  have hs := h.skew
  have h2 := hs.mul hs
  intro i j
  have := ((hasDerivAt_const (0:ℝ) ((1 : M3) i j)).fun_add (ha.fun_mul (hs i j))).fun_add (hb.fun_mul (h2 i j))
  refine (this.congr_of_eventuallyEq (Filter.Eventually.of_forall fun e => ?_)).congr_deriv ?_
  · simp [rodr]
  · simp; ring

/-- `exp_so3` along a curve, with the code's right Jacobian: `d/dt exp(w) = exp(w) ⌊Jr(w) ẇ⌋`. -/
theorem HasDv.exp {v : ℝ → V3} {v' : V3} (h : HasDv v v') (h0 : 1e-6 ≤ norm3 (v 0)) :
    HasDm (fun e => expSO3 (v e)) (expSO3 (v 0) * Verif.skew ((JrSO3 (v 0)).mulVec v')) := by
  have hpos : 0 < norm3 (v 0) := lt_of_lt_of_le (by norm_num) h0
  have h7 : 1e-7 < norm3 (v 0) := lt_of_lt_of_le (by norm_num) h0
  have hn := h.norm hpos
  have hev : ∀ᶠ e in nhds (0:ℝ), expSO3 (v e) =
      rodr (Real.sin (norm3 (v e)) / norm3 (v e)) ((1 - Real.cos (norm3 (v e))) / (norm3 (v e) * norm3 (v e))) (v e) := by
    filter_upwards [hn.continuousAt.eventually (lt_mem_nhds h7)] with e he
    exact expSO3_eq_of_le he.le
  have hA := (hn.sin).fun_div hn hpos.ne'
  have hB := ((hn.cos).const_sub 1).fun_div (hn.fun_mul hn) (mul_ne_zero hpos.ne' hpos.ne')
  refine ((rodr_deriv hA hB h).congr_ev hev).congr' ?_
  rw [expSO3_eq_of_le h7.le]
  have hJ : norm3 (-(v 0)) = norm3 (v 0) := by simp [norm3, dot3]
  unfold JrSO3
  rw [JlSO3_eq (by rw [hJ]; exact h0), hJ]
  have hsq := norm3_sq' (v 0)
  have hcs := Real.sin_sq_add_cos_sq (norm3 (v 0))
  generalize norm3 (v 0) = n at *
  generalize Real.sin n = s at *
  generalize Real.cos n = c at *
  generalize v 0 = w at *
  obtain ⟨A, hA⟩ : ∃ A, A = s / n := ⟨_, rfl⟩
  obtain ⟨B, hB⟩ : ∃ B, B = (1 - c) / (n * n) := ⟨_, rfl⟩
  obtain ⟨C, hC⟩ : ∃ C, C = (1 - s / n) / (n * n) := ⟨_, rfl⟩
  have r1 : n * n * C = 1 - A := by rw [hC, hA]; field_simp
  have r2 : A * A + n * n * (B * B) = 2 * B := by rw [hB, hA]; field_simp; grind
  have r3 : (c * (dot3 w v' / n) * n - s * (dot3 w v' / n)) / n ^ 2 = dot3 w v' * (C - B) := by
    rw [hC, hB]; field_simp; ring
  have r4 : (-(-s * (dot3 w v' / n)) * (n * n) - (1 - c) * (dot3 w v' / n * n + n * (dot3 w v' / n))) / (n * n) ^ 2 =
      dot3 w v' * (A * C - B * B) := by
    rw [hC, hB, hA]; field_simp; grind
  rw [r3, r4, ← hC, ← hB, ← hA]
  rw [hsq] at r1 r2
  clear hA hB hC r3 r4 hcs hsq hpos h0 h7 hJ hn hev
  apply m3_ext <;> simp only [rodr00, rodr01, rodr02, rodr10, rodr11, rodr12, rodr20, rodr21, rodr22, Matrix.add_apply,
    Matrix.smul_apply, smul_eq_mul, skew00, skew01, skew02, skew10, skew11, skew12, skew20, skew21, skew22, m3_mul_apply,
    m3_mulVec_apply, Pi.neg_apply, dot3] <;> grind
end Verif
