import Verif.Tri.PropsB

/-!
# Which refined points are accepted (C145)

Specification: `Spec.LineDist`, the distance of a place from a line, as the least distance from a point of it; `Spec.Wide`, one observation was
made from a place that far from the line through the anchor camera and the point.
-/

open Classical

namespace Verif.Tri

open Verif Verif.Prop_

namespace Spec

/-- `d` is the distance of `q` from the line through `a` and `g`. -/
def LineDist (a g q : V3) (d : ℝ) : Prop :=
  (∀ s : ℝ, d ≤ norm3 (q - (a + s • (g - a)))) ∧ ∃ s : ℝ, norm3 (q - (a + s • (g - a))) = d

/-- some observation was made at a distance from the line through `a` and `g` that is positive and at least the distance of `g` from `a`
divided by `k`. -/
def Wide (clones : ℕ → ℝ → Option CPose) (obs : Obs) (a g : V3) (k : ℝ) : Prop :=
  ∃ c t uv P d, IsObs obs c t uv ∧ clones c t = some P ∧ 0 < d ∧ LineDist a g P.p d ∧ norm3 (g - a) ≤ k * d

end Spec

/-! ## Helper lemmas -/

theorem lineDist_unique {a g q : V3} {d e : ℝ} (hd : Spec.LineDist a g q d) (he : Spec.LineDist a g q e) : d = e := by
  obtain ⟨s, hs⟩ := hd.2
  obtain ⟨t, ht⟩ := he.2
  exact le_antisymm (ht ▸ hd.1 t) (hs ▸ he.1 s)

theorem dot3_pos {p : V3} (hp : p ≠ 0) : 0 < dot3 p p := by
  have h0 : 0 ≤ dot3 p p := by simp only [dot3]; nlinarith [mul_self_nonneg (p 0), mul_self_nonneg (p 1), mul_self_nonneg (p 2)]
  rcases h0.lt_or_eq with h | h
  · exact h
  · exact absurd (dot3_self_zero h.symm) hp

theorem line_expand {p : V3} (hp : p ≠ 0) (v : V3) (s : ℝ) :
    dot3 (v - s • p) (v - s • p) = (dot3 v v - dot3 v p ^ 2 / dot3 p p) + dot3 p p * (s - dot3 v p / dot3 p p) ^ 2 := by
  have h := (dot3_pos hp).ne'
  have e : dot3 (v - s • p) (v - s • p) = dot3 v v - 2 * s * dot3 v p + s ^ 2 * dot3 p p := by simp [dot3]; ring
  rw [e]
  field_simp
  ring

/-- the number the code computes is the distance from the line. -/
theorem baseLine_dist {R : M3} (hR : IsRot R) {a g : V3} (q : V3) (hg : g ≠ a) :
    Spec.LineDist a g q (baseLine (R.mulVec (g - a)) (R.mulVec (q - a))) := by
  have hp : g - a ≠ 0 := sub_ne_zero.mpr hg
  have e : ∀ s : ℝ, norm3 (q - (a + s • (g - a))) =
      Real.sqrt ((dot3 (q - a) (q - a) - dot3 (q - a) (g - a) ^ 2 / dot3 (g - a) (g - a)) +
        dot3 (g - a) (g - a) * (s - dot3 (q - a) (g - a) / dot3 (g - a) (g - a)) ^ 2) := by
    intro s
    rw [← line_expand hp, norm3, sub_sub]
  have hb : baseLine (R.mulVec (g - a)) (R.mulVec (q - a)) =
      Real.sqrt (dot3 (q - a) (q - a) - dot3 (q - a) (g - a) ^ 2 / dot3 (g - a) (g - a)) := by
    rw [baseLine, dot3_rot hR, dot3_rot hR, dot3_rot hR]
  rw [hb]
  refine ⟨?_, dot3 (q - a) (g - a) / dot3 (g - a) (g - a), ?_⟩
  · intro s
    rw [e]
    apply Real.sqrt_le_sqrt
    have := mul_nonneg (dot3_pos hp).le (sq_nonneg (s - dot3 (q - a) (g - a) / dot3 (g - a) (g - a)))
    linarith
  · rw [e]
    simp

theorem baseMax_fold (A : CPose) (p : V3) (ms : List (CPose × V2)) (b : ℝ) :
    b ≤ ms.foldl (fun b m => if baseLine p (relP A m.1) > b then baseLine p (relP A m.1) else b) b ∧
      (∀ m ∈ ms, baseLine p (relP A m.1) ≤ ms.foldl (fun b m => if baseLine p (relP A m.1) > b then baseLine p (relP A m.1) else b) b) ∧
      (ms.foldl (fun b m => if baseLine p (relP A m.1) > b then baseLine p (relP A m.1) else b) b = b ∨
        ∃ m ∈ ms, ms.foldl (fun b m => if baseLine p (relP A m.1) > b then baseLine p (relP A m.1) else b) b = baseLine p (relP A m.1)) := by
  induction ms generalizing b with
  | nil => simp
  | cons x xs ih =>
    simp only [List.foldl_cons]
    obtain ⟨h1, h2, h3⟩ := ih (if baseLine p (relP A x.1) > b then baseLine p (relP A x.1) else b)
    have hm : b ≤ (if baseLine p (relP A x.1) > b then baseLine p (relP A x.1) else b) ∧
        baseLine p (relP A x.1) ≤ (if baseLine p (relP A x.1) > b then baseLine p (relP A x.1) else b) := by
      split_ifs with h
      · exact ⟨h.le, le_refl _⟩
      · exact ⟨le_refl _, not_lt.mp h⟩
    refine ⟨hm.1.trans h1, ?_, ?_⟩
    · intro m hmem
      rcases List.mem_cons.mp hmem with rfl | hmem
      · exact hm.2.trans h1
      · exact h2 m hmem
    · rcases h3 with h3 | ⟨m, hmem, h3⟩
      · by_cases hx : baseLine p (relP A x.1) > b
        · right
          refine ⟨x, List.mem_cons_self, ?_⟩
          rw [h3, if_pos hx]
        · left
          rw [h3, if_neg hx]
      · right
        exact ⟨m, List.mem_cons_of_mem _ hmem, h3⟩

/-- the test on the baseline is the existence of a far enough observation. -/
theorem wide_iff {clones : ℕ → ℝ → Option CPose} {obs : Obs} {A : CPose} (hA : IsRot A.R) {ms : List (CPose × V2)}
    (hms : poses clones (flat obs) = some ms) {g : V3} (hg : g ≠ A.p) (k : ℝ) :
    Spec.Wide clones obs A.p g k ↔
      ¬ (baseMax A ms (A.R.mulVec (g - A.p)) = 0 ∨ norm3 (A.R.mulVec (g - A.p)) / baseMax A ms (A.R.mulVec (g - A.p)) > k) := by
  obtain ⟨h0, h2, h3⟩ := baseMax_fold A (A.R.mulVec (g - A.p)) ms 0
  change 0 ≤ baseMax A ms (A.R.mulVec (g - A.p)) at h0
  change ∀ m ∈ ms, baseLine (A.R.mulVec (g - A.p)) (relP A m.1) ≤ baseMax A ms (A.R.mulVec (g - A.p)) at h2
  change baseMax A ms (A.R.mulVec (g - A.p)) = 0 ∨
    ∃ m ∈ ms, baseMax A ms (A.R.mulVec (g - A.p)) = baseLine (A.R.mulVec (g - A.p)) (relP A m.1) at h3
  rw [norm3_rot hA]
  constructor
  · rintro ⟨c, t, uv, P, d, ho, hP, hd, hl, hw⟩
    obtain ⟨i, hi⟩ := flat_mem ho
    have hm := h2 _ ((poses_mem hms).2 c i t uv P hi hP)
    have hdb : d ≤ baseMax A ms (A.R.mulVec (g - A.p)) := by
      rw [lineDist_unique hl (baseLine_dist hA P.p hg)]
      exact hm
    have hb : 0 < baseMax A ms (A.R.mulVec (g - A.p)) := hd.trans_le hdb
    have hn : 0 ≤ norm3 (g - A.p) := Real.sqrt_nonneg _
    have hk : 0 ≤ k := by
      by_contra hk
      have : k * d < 0 := mul_neg_of_neg_of_pos (not_le.mp hk) hd
      linarith
    push Not
    refine ⟨hb.ne', ?_⟩
    rw [div_le_iff₀ hb]
    exact hw.trans (mul_le_mul_of_nonneg_left hdb hk)
  · intro h
    push Not at h
    obtain ⟨hne, hr⟩ := h
    have hb : 0 < baseMax A ms (A.R.mulVec (g - A.p)) := lt_of_le_of_ne h0 (Ne.symm hne)
    rcases h3 with h3 | ⟨m, hm, h3⟩
    · exact absurd h3 hne
    · obtain ⟨c, i, t, hi, hP⟩ := (poses_mem hms).1 m hm
      refine ⟨c, t, m.2, m.1, baseMax A ms (A.R.mulVec (g - A.p)), mem_flat hi, hP, hb, ?_, ?_⟩
      · rw [h3]
        exact baseLine_dist hA m.1.p hg
      · rwa [div_le_iff₀ hb] at hr

/-! ## C145 -/

/-- **C145** (the basis of the plane) Whatever orthogonal matrix the factorisation of the point returns, as long as its first column is along the
point, the length of the other two components of a camera position is the number used here. -/
theorem C145_basis {Q : M3} (hQ : IsRot Q ∨ IsRot (-Q)) {p : V3} (hp : p ≠ 0) (c : ℝ) (h0 : ∀ i, Q i 0 = c * p i) (v : V3) :
    Real.sqrt ((Q.transpose.mulVec v 1) ^ 2 + (Q.transpose.mulVec v 2) ^ 2) = baseLine p v := by
  have hcol : c ^ 2 * dot3 p p = 1 ∧ (Q.transpose.mulVec v 0) ^ 2 + (Q.transpose.mulVec v 1) ^ 2 + (Q.transpose.mulVec v 2) ^ 2 = dot3 v v := by
    rcases hQ with h | h
    · have e1 := dot3_rot h.transpose v v
      have e2 := h.rel
      have h1 := dot3_rot h.transpose p p
      constructor
      · have := e2.1
        rw [h0 0, h0 1, h0 2] at this
        simp only [dot3]
        linarith
      · rw [← e1]; simp only [dot3]; ring
    · have e1 := dot3_rot h.transpose v v
      have e2 := h.rel
      constructor
      · have := e2.1
        simp only [Matrix.neg_apply] at this
        rw [h0 0, h0 1, h0 2] at this
        simp only [dot3]
        linarith
      · rw [← e1]
        simp only [dot3, Matrix.transpose_neg, Matrix.neg_mulVec, Pi.neg_apply]; ring
  obtain ⟨hc, hs⟩ := hcol
  have hq0 : Q.transpose.mulVec v 0 = c * dot3 v p := by
    rw [m3_mulVec_apply]
    simp only [Matrix.transpose_apply, h0, dot3]
    ring
  rw [baseLine]
  congr 1
  have hpp := (dot3_pos hp).ne'
  have : dot3 v p ^ 2 / dot3 p p = (c * dot3 v p) ^ 2 := by
    rw [div_eq_iff hpp, mul_pow]
    linear_combination (-(dot3 v p ^ 2)) * hc
  rw [this, ← hq0]
  linarith

/-- **C145** (accepted points) If refinement accepts a point, its depth lies within the limits and one of the observations was made at a
distance from the line through the anchor camera and the point of at least the point's distance divided by the limit. -/
theorem C145_accept (o : Opts) (hmin : 0 < o.minDist) (solve : M3 → V3 → V3) (n : ℕ) {clones : ℕ → ℝ → Option CPose} {obs : Obs}
    (hR : Spec.Rigid clones) {f f' : Fix} {A : CPose} (hA : clones f.cam f.t = some A)
    (h : refine o solve n clones obs f = some (some f')) :
    o.minDist ≤ Spec.inCam A f'.pG 2 ∧ Spec.inCam A f'.pG 2 ≤ o.maxDist ∧ Spec.Wide clones obs A.p f'.pG o.maxBaseline := by
  have hAr := hR _ _ _ hA
  simp only [refine, hA, Option.bind_eq_bind, Option.bind_some, Option.bind_eq_some_iff] at h
  obtain ⟨ms, hms, s, hs, h⟩ := h
  by_cases hg : (![s.x 0 / s.x 2, s.x 1 / s.x 2, 1 / s.x 2] : V3) 2 < o.minDist ∨ (![s.x 0 / s.x 2, s.x 1 / s.x 2, 1 / s.x 2] : V3) 2 > o.maxDist ∨
      baseMax A ms ![s.x 0 / s.x 2, s.x 1 / s.x 2, 1 / s.x 2] = 0 ∨
      norm3 ![s.x 0 / s.x 2, s.x 1 / s.x 2, 1 / s.x 2] / baseMax A ms ![s.x 0 / s.x 2, s.x 1 / s.x 2, 1 / s.x 2] > o.maxBaseline
  · rw [if_pos hg] at h
    cases h
  · rw [if_neg hg] at h
    obtain rfl := Option.some.inj (Option.some.inj h)
    generalize (![s.x 0 / s.x 2, s.x 1 / s.x 2, 1 / s.x 2] : V3) = p at hg ⊢
    have hin : A.R.mulVec (A.R.transpose.mulVec p + A.p - A.p) = p := by
      rw [add_sub_cancel_right, Matrix.mulVec_mulVec, hAr.orth', Matrix.one_mulVec]
    push Not at hg
    simp only [Spec.inCam, hin]
    refine ⟨hg.1, hg.2.1, ?_⟩
    have hne : A.R.transpose.mulVec p + A.p ≠ A.p := by
      intro he
      rw [he, sub_self, Matrix.mulVec_zero] at hin
      have := hg.1
      rw [← hin] at this
      simp only [Pi.zero_apply] at this
      linarith
    rw [wide_iff hAr hms hne, hin]
    push Not
    exact hg.2.2

/-- **C145** (the decision) When the loop of the refinement ends, the point `g` it ends with is accepted exactly if its depth lies within the limits
and one of the observations was made far enough from the line through the anchor camera and the point; otherwise it is rejected. -/
theorem C145_decision (o : Opts) (hmin : 0 < o.minDist) (solve : M3 → V3 → V3) (n : ℕ) {clones : ℕ → ℝ → Option CPose} {obs : Obs}
    (hR : Spec.Rigid clones) (f : Fix) {A : CPose} (hA : clones f.cam f.t = some A) {ms : List (CPose × V2)}
    (hms : poses clones (flat obs) = some ms) {s : LM}
    (hs : lmLoop o (computeError A ms) (gnSystem A ms) solve n (lmStart o (computeError A ms) f.pA) = some s) (g : V3)
    (hg : Spec.inCam A g = ![s.x 0 / s.x 2, s.x 1 / s.x 2, 1 / s.x 2]) :
    refine o solve n clones obs f =
      if o.minDist ≤ Spec.inCam A g 2 ∧ Spec.inCam A g 2 ≤ o.maxDist ∧ Spec.Wide clones obs A.p g o.maxBaseline then
        some (some ⟨f.cam, f.t, Spec.inCam A g, g⟩)
      else some none := by
  have hAr := hR _ _ _ hA
  have hback : A.R.transpose.mulVec (Spec.inCam A g) + A.p = g := by
    rw [Spec.inCam, Matrix.mulVec_mulVec, hAr.orth, Matrix.one_mulVec, sub_add_cancel]
  simp only [refine, hA, hms, hs, Option.bind_eq_bind, Option.bind_some]
  rw [← hg, hback]
  have key : (o.minDist ≤ Spec.inCam A g 2 ∧ Spec.inCam A g 2 ≤ o.maxDist ∧ Spec.Wide clones obs A.p g o.maxBaseline) ↔
      ¬ (Spec.inCam A g 2 < o.minDist ∨ Spec.inCam A g 2 > o.maxDist ∨ baseMax A ms (Spec.inCam A g) = 0 ∨
        norm3 (Spec.inCam A g) / baseMax A ms (Spec.inCam A g) > o.maxBaseline) := by
    by_cases hd : o.minDist ≤ Spec.inCam A g 2
    · have hne : g ≠ A.p := by
        rintro rfl
        simp only [Spec.inCam, sub_self, Matrix.mulVec_zero, Pi.zero_apply] at hd
        linarith
      have hw := wide_iff hAr hms hne o.maxBaseline
      rw [show A.R.mulVec (g - A.p) = Spec.inCam A g from rfl] at hw
      rw [hw, not_or (p := Spec.inCam A g 2 < o.minDist), not_or (p := Spec.inCam A g 2 > o.maxDist), not_lt, gt_iff_lt, not_lt]
    · exact ⟨fun h => absurd h.1 hd, fun h => absurd (Or.inl (not_le.mp hd)) h⟩
  by_cases hc : o.minDist ≤ Spec.inCam A g 2 ∧ Spec.inCam A g 2 ≤ o.maxDist ∧ Spec.Wide clones obs A.p g o.maxBaseline
  · rw [if_neg (key.mp hc), if_pos hc]
  · rw [if_pos (not_not.mp (fun h => hc (key.mpr h))), if_neg hc]

/-! ## Non-vacuity -/

/-- in the example of C35 the second camera is one away from the line through the first one and the point, which is two away. -/
example (k : ℝ) (hk : 2 ≤ k) : Spec.Wide exClones exObs ![0, 0, 0] exG k := by
  refine ⟨1, 0, ![-1 / 2, 0], ⟨1, ![1, 0, 0]⟩, 1, ?_, ?_, one_pos, ⟨?_, 0, ?_⟩, ?_⟩
  · exact ⟨(1, [(0, ![-1 / 2, 0])]), by simp [exObs], rfl, by simp⟩
  · simp [exClones]
  · intro s
    rw [norm3]
    apply Real.le_sqrt_of_sq_le
    simp only [dot3, exG, Pi.sub_apply, Pi.add_apply, Pi.smul_apply, smul_eq_mul, Matrix.cons_val_zero, Matrix.cons_val_one, Matrix.cons_val]
    nlinarith [sq_nonneg s]
  · rw [norm3, Real.sqrt_eq_one]
    simp [dot3, exG]
  · have : norm3 (exG - ![0, 0, 0]) = 2 := by
      rw [norm3, show dot3 (exG - ![0, 0, 0]) (exG - ![0, 0, 0]) = 2 * 2 by simp [dot3, exG]]
      exact Real.sqrt_mul_self (by norm_num)
    rw [this]
    linarith

end Verif.Tri
