import Verif.Tri.Props
import Verif.Quat.Deriv

/-!
# Refinement of a triangulated point: C36, C81
-/

open Classical

namespace Verif.Tri

open Verif Verif.Prop_

namespace Spec

/-- squared reprojection error of the global point `x` in an observation. -/
noncomputable def reproj2 (P : CPose) (uv : V2) (x : V3) : ℝ :=
  (uv 0 - inCam P x 0 / inCam P x 2) ^ 2 + (uv 1 - inCam P x 1 / inCam P x 2) ^ 2

/-- summed over all observations. -/
noncomputable def totalReproj2 (clones : ℕ → ℝ → Option CPose) (obs : Obs) (x : V3) : ℝ :=
  (obs.map fun c => (c.2.map fun m => match clones c.1 m.1 with | some P => reproj2 P m.2 x | none => 0).sum).sum

end Spec

/-! ## C36 -/

section
variable {o : Opts} {err : V3 → ℝ} {lin : V3 → M3 × V3} {solve : M3 → V3 → V3}

theorem lmIter_cases (s : LM) : (lmIter o err lin solve s).2 = true ∨
    ((lmIter o err lin solve s).2 = false ∧ (lmIter o err lin solve s).1.lam = s.lam / o.lamMult ∧ (lmIter o err lin solve s).1.runs = s.runs + 1) ∨
    ((lmIter o err lin solve s).2 = false ∧ (lmIter o err lin solve s).1.lam = s.lam * o.lamMult ∧ (lmIter o err lin solve s).1.runs = s.runs) := by
  unfold lmIter
  simp only
  split_ifs <;> simp

theorem lm_terminates (hm : 1 < o.lamMult) (h0 : 0 < o.initLam) {K : ℕ} (hK : o.maxLam ≤ o.initLam * o.lamMult ^ K) :
    ∀ (n : ℕ) (s : LM) (rej : ℕ), s.lam = o.initLam * o.lamMult ^ rej / o.lamMult ^ s.runs → K + 2 * o.maxRuns ≤ n + rej + s.runs →
      ∃ r, lmLoop o err lin solve n s = some r := by
  have hpos : 0 < o.lamMult := by linarith
  have guard : ∀ (s : LM) (rej : ℕ), s.lam = o.initLam * o.lamMult ^ rej / o.lamMult ^ s.runs → s.runs < o.maxRuns → s.lam < o.maxLam →
      rej + s.runs < K + 2 * o.maxRuns := by
    intro s rej hl hr hlt
    have h1 : o.initLam * o.lamMult ^ rej / o.lamMult ^ s.runs < o.initLam * o.lamMult ^ K := by rw [← hl]; linarith
    rw [div_lt_iff₀ (pow_pos hpos _), mul_assoc, ← pow_add] at h1
    have h2 := lt_of_mul_lt_mul_left h1 h0.le
    have h3 := (pow_lt_pow_iff_right₀ hm).1 h2
    omega
  intro n
  induction n with
  | zero =>
    intro s rej hl hn
    refine ⟨s, ?_⟩
    rw [lmLoop]
    refine if_neg ?_
    rintro ⟨h1, h2, -⟩
    have := guard s rej hl h1 h2
    omega
  | succ n ih =>
    intro s rej hl hn
    rw [lmLoop]
    by_cases hg : s.runs < o.maxRuns ∧ s.lam < o.maxLam ∧ s.eps > o.minDx
    · rw [if_pos hg]
      simp only
      rcases lmIter_cases (o := o) (err := err) (lin := lin) (solve := solve) s with h | ⟨h, hl', hr'⟩ | ⟨h, hl', hr'⟩
      · rw [h]; exact ⟨_, rfl⟩
      · rw [h]
        simp only [Bool.false_eq_true, if_false]
        apply ih _ rej
        · rw [hl', hr', hl, pow_succ, div_div]
        · rw [hr']; omega
      · rw [h]
        simp only [Bool.false_eq_true, if_false]
        apply ih _ (rej + 1)
        · rw [hl', hr', hl, pow_succ]; ring
        · rw [hr']; omega
    · rw [if_neg hg]; exact ⟨_, rfl⟩

theorem lmIter_cost (s : LM) (hs : s.cost = err s.x) :
    err (lmIter o err lin solve s).1.x ≤ err s.x ∧ ((lmIter o err lin solve s).2 = false → (lmIter o err lin solve s).1.cost = err (lmIter o err lin solve s).1.x) := by
  unfold lmIter
  simp only
  generalize (if s.recompute then lin s.x else (s.Hess, s.grad)) = sys
  split_ifs with h1 h2
  · exact ⟨by rw [← hs]; exact h1.1, by simp⟩
  · exact ⟨by rw [← hs]; exact h2, by simp⟩
  · exact ⟨le_rfl, by simp [hs]⟩

theorem lm_no_worse : ∀ (n : ℕ) (s r : LM), s.cost = err s.x → lmLoop o err lin solve n s = some r → err r.x ≤ err s.x := by
  intro n
  induction n with
  | zero =>
    intro s r _ h
    rw [lmLoop] at h
    split_ifs at h
    obtain rfl := Option.some.inj h
    exact le_rfl
  | succ n ih =>
    intro s r hs h
    rw [lmLoop] at h
    by_cases hg : s.runs < o.maxRuns ∧ s.lam < o.maxLam ∧ s.eps > o.minDx
    · rw [if_pos hg] at h
      simp only at h
      obtain ⟨h1, h2⟩ := lmIter_cost (o := o) (lin := lin) (solve := solve) s hs
      cases hb : (lmIter o err lin solve s).2 with
      | true =>
        rw [hb, if_pos rfl] at h
        obtain rfl := Option.some.inj h
        exact h1
      | false =>
        rw [hb] at h
        simp only [Bool.false_eq_true, if_false] at h
        exact (ih _ _ (h2 hb) h).trans h1
    · rw [if_neg hg] at h
      obtain rfl := Option.some.inj h
      exact le_rfl

end

/-- **C36** (termination) With a damping multiplier above one and a positive initial damping, the refinement loop ends after at most
`2·max_runs + K` passes, `K` the number of multiplications that take the initial damping to its maximum — whatever the cost function, the linear
system and the solver return. -/
theorem C36_terminates (o : Opts) (hm : 1 < o.lamMult) (h0 : 0 < o.initLam) {K : ℕ} (hK : o.maxLam ≤ o.initLam * o.lamMult ^ K)
    (err : V3 → ℝ) (lin : V3 → M3 × V3) (solve : M3 → V3 → V3) (start : V3) {n : ℕ} (hn : K + 2 * o.maxRuns ≤ n) :
    ∃ r, lmLoop o err lin solve n (lmStart o err start) = some r := by
  refine lm_terminates hm h0 hK n _ 0 ?_ (by simpa [lmStart] using hn)
  simp [lmStart]

/-- such a `K` always exists. -/
theorem C36_terminates_always (o : Opts) (hm : 1 < o.lamMult) (h0 : 0 < o.initLam) (err : V3 → ℝ) (lin : V3 → M3 × V3) (solve : M3 → V3 → V3)
    (start : V3) : ∃ N, ∀ n ≥ N, ∃ r, lmLoop o err lin solve n (lmStart o err start) = some r := by
  obtain ⟨K, hK⟩ := pow_unbounded_of_one_lt (o.maxLam / o.initLam) hm
  rw [div_lt_iff₀ h0] at hK
  exact ⟨K + 2 * o.maxRuns, fun n hn => C36_terminates o hm h0 (K := K) (by linarith) err lin solve start hn⟩

/-- the default options (FeatureInitializerOptions.h:36-54) meet the hypotheses with `K = 13`: at most 23 passes. -/
example (o : Opts) (h1 : o.lamMult = 10) (h2 : o.initLam = 1 / 1000) (h3 : o.maxLam = 10 ^ 10) (h4 : o.maxRuns = 5)
    (err : V3 → ℝ) (lin : V3 → M3 × V3) (solve : M3 → V3 → V3) (start : V3) :
    ∃ r, lmLoop o err lin solve 23 (lmStart o err start) = some r :=
  C36_terminates o (by rw [h1]; norm_num) (by rw [h2]; norm_num) (K := 13) (by rw [h1, h2, h3]; norm_num) err lin solve start (by rw [h4])

/-- **C36** (the multiplier matters) With a multiplier of one the loop may never end. -/
theorem C36_multiplier_one_diverges (o : Opts) (hm : o.lamMult = 1) (h0 : 0 < o.initLam) (h1 : o.initLam < o.maxLam) (h2 : 0 < o.maxRuns)
    (h3 : o.minDx < 10000) :
    ∃ (err : V3 → ℝ) (lin : V3 → M3 × V3), ∀ n, lmLoop o err lin (fun M v => M⁻¹.mulVec v) n (lmStart o err ![0, 0, 1]) = none := by
  refine ⟨fun x => x 0, fun _ => (1, ![1, 0, 0]), ?_⟩
  have key : ∀ n (s : LM), s.runs = 0 → s.lam = o.initLam → s.eps = 10000 → s.cost = s.x 0 → (s.recompute = true ∨ (s.Hess = 1 ∧ s.grad = ![1, 0, 0])) →
      lmLoop o (fun x => x 0) (fun _ => (1, ![1, 0, 0])) (fun M v => M⁻¹.mulVec v) n s = none := by
    intro n
    induction n with
    | zero =>
      intro s hr hl he _ _
      rw [lmLoop, if_pos ⟨by omega, by rw [hl]; exact h1, by rw [he]; exact h3⟩]
    | succ n ih =>
      intro s hr hl he hc hsys
      rw [lmLoop, if_pos ⟨by omega, by rw [hl]; exact h1, by rw [he]; exact h3⟩]
      have hsys' : (if s.recompute then ((1 : M3), (![1, 0, 0] : V3)) else (s.Hess, s.grad)) = (1, ![1, 0, 0]) := by
        rcases hsys with h | ⟨h, h'⟩
        · rw [h]; simp
        · rw [h, h']; simp
      have hd : ((damp 1 s.lam)⁻¹).mulVec ![1, 0, 0] 0 = 1 / (1 + o.initLam) := by
        have e : damp 1 s.lam = (1 + s.lam) • (1 : M3) := by
          funext i j
          by_cases hij : i = j
          · subst hij; simp [damp]
          · simp [damp, hij, Matrix.one_apply_ne hij]
        have hne : (1 + s.lam) ≠ 0 := by rw [hl]; positivity
        have : (damp 1 s.lam)⁻¹ = (1 + s.lam)⁻¹ • (1 : M3) := by
          apply Matrix.inv_eq_right_inv
          rw [e, Matrix.smul_mul, Matrix.one_mul, smul_smul, mul_inv_cancel₀ hne, one_smul]
        rw [this, Matrix.smul_mulVec, Matrix.one_mulVec, hl]
        simp
      have hpos : 0 < 1 / (1 + o.initLam) := by positivity
      have hrej : ¬ ((s.x + ((damp 1 s.lam)⁻¹).mulVec ![1, 0, 0]) 0 ≤ s.cost) := by
        rw [Pi.add_apply, hd, hc]; linarith
      have hit : lmIter o (fun x => x 0) (fun _ => (1, ![1, 0, 0])) (fun M v => M⁻¹.mulVec v) s =
          ({ s with lam := s.lam * o.lamMult, recompute := false, Hess := 1, grad := ![1, 0, 0] }, false) := by
        unfold lmIter
        simp only [hsys']
        rw [if_neg (fun h => hrej h.1), if_neg hrej]
      rw [hit]
      simp only [Bool.false_eq_true, if_false]
      exact ih _ hr (by simp [hl, hm]) he hc (Or.inr ⟨rfl, rfl⟩)
  intro n
  exact key n _ rfl rfl rfl rfl (Or.inl rfl)

/-! ### the cost is the reprojection error -/

theorem hi_inCam {A P : CPose} (hA : IsRot A.R) {x : V3} (hx : x 2 ≠ 0) :
    hi A P x = x 2 • Spec.inCam P (A.R.transpose.mulVec ![x 0 / x 2, x 1 / x 2, 1 / x 2] + A.p) := by
  have e0 : (![x 0, x 1, 1] : V3) = x 2 • ![x 0 / x 2, x 1 / x 2, 1 / x 2] := by
    apply v3_ext <;> simp <;> field_simp
  rw [hi, e0, Spec.inCam, relR, relP, Matrix.mulVec_smul, ← smul_add]
  congr 1
  simp only [Matrix.neg_mulVec, ← Matrix.mulVec_mulVec]
  rw [Matrix.mulVec_mulVec (P.p - A.p) A.R.transpose, hA.orth, Matrix.one_mulVec, ← Matrix.mulVec_neg, ← Matrix.mulVec_add]
  congr 1
  abel

theorem proj_reproj {A P : CPose} (hA : IsRot A.R) (uv : V2) {x : V3} (hx : x 2 ≠ 0) :
    (uv - proj A P x) 0 ^ 2 + (uv - proj A P x) 1 ^ 2 = Spec.reproj2 P uv (A.R.transpose.mulVec ![x 0 / x 2, x 1 / x 2, 1 / x 2] + A.p) := by
  simp only [proj, Pi.sub_apply, hi_inCam hA hx, Spec.reproj2, Pi.smul_apply, smul_eq_mul, Matrix.cons_val_zero, Matrix.cons_val_one]
  rw [mul_div_mul_left _ _ hx, mul_div_mul_left _ _ hx]

theorem foldl_add_sum {α : Type*} (F : α → ℝ) : ∀ (l : List α) (e : ℝ), l.foldl (fun e m => e + F m) e = e + (l.map F).sum
  | [], e => by simp
  | m :: l, e => by rw [List.foldl_cons, foldl_add_sum F l, List.map_cons, List.sum_cons]; ring

theorem computeError_sum (A : CPose) (ms : List (CPose × V2)) (x : V3) :
    computeError A ms x = (ms.map fun m => (m.2 - proj A m.1 x) 0 ^ 2 + (m.2 - proj A m.1 x) 1 ^ 2).sum := by
  rw [computeError, foldl_add_sum fun m : CPose × V2 => (m.2 - proj A m.1 x) 0 ^ 2 + (m.2 - proj A m.1 x) 1 ^ 2, zero_add]

/-- the cost is the summed squared reprojection error of the point the parameters stand for. -/
theorem computeError_reproj {clones : ℕ → ℝ → Option CPose} {A : CPose} (hA : IsRot A.R) {obs : Obs} {ms : List (CPose × V2)}
    (h : poses clones (flat obs) = some ms) {x : V3} (hx : x 2 ≠ 0) :
    computeError A ms x = Spec.totalReproj2 clones obs (A.R.transpose.mulVec ![x 0 / x 2, x 1 / x 2, 1 / x 2] + A.p) := by
  rw [computeError_sum]
  generalize hy : A.R.transpose.mulVec ![x 0 / x 2, x 1 / x 2, 1 / x 2] + A.p = y
  have h1 : ∀ (l : List (ℕ × ℕ × ℝ × V2)) (ms : List (CPose × V2)), poses clones l = some ms →
      (ms.map fun m => (m.2 - proj A m.1 x) 0 ^ 2 + (m.2 - proj A m.1 x) 1 ^ 2).sum =
        (l.map fun m => match clones m.1 m.2.2.1 with | some P => Spec.reproj2 P m.2.2.2 y | none => 0).sum := by
    intro l
    induction l with
    | nil => intro ms h; simp [poses] at h; subst h; simp
    | cons z l ih =>
      intro ms h
      simp only [poses, List.mapM_cons, Option.bind_eq_bind, Option.bind_eq_some_iff] at h
      obtain ⟨w, hw, ys, hys, h⟩ := h
      obtain rfl := Option.some.inj h
      obtain ⟨P, hP, rfl⟩ := Option.map_eq_some_iff.1 hw
      rw [List.map_cons, List.map_cons, List.sum_cons, List.sum_cons, ih ys hys, hP, proj_reproj hA _ hx, hy]
  rw [h1 _ _ h, Spec.totalReproj2, flat]
  clear h h1
  induction obs with
  | nil => simp
  | cons c obs ih =>
    rw [List.flatMap_cons, List.map_append, List.sum_append, ih, List.map_cons, List.sum_cons]
    congr 1
    have : ∀ (L : List (ℝ × V2)), (List.map (fun m : ℕ × ℕ × ℝ × V2 => match clones m.1 m.2.2.1 with
          | some P => Spec.reproj2 P m.2.2.2 y | none => 0) (L.mapIdx fun i m => (c.1, i, m.1, m.2))) =
        L.map fun m => match clones c.1 m.1 with | some P => Spec.reproj2 P m.2 y | none => 0 := by
      intro L
      apply List.ext_getElem <;> simp
    rw [this]

/-- **C36** (never worse) If refinement accepts, the point it returns has a summed squared reprojection error no larger than the starting point's,
its depth lies within the gates, and its two positions agree. The solver is arbitrary. -/
theorem C36_no_worse (o : Opts) (hmin : 0 < o.minDist) (solve : M3 → V3 → V3) (n : ℕ) {clones : ℕ → ℝ → Option CPose} {obs : Obs}
    (hR : Spec.Rigid clones) {f f' : Fix} {A : CPose} (hA : clones f.cam f.t = some A) (hf : Spec.inCam A f.pG = f.pA) (hz : f.pA 2 ≠ 0)
    (h : refine o solve n clones obs f = some (some f')) :
    Spec.totalReproj2 clones obs f'.pG ≤ Spec.totalReproj2 clones obs f.pG ∧ Spec.inCam A f'.pG = f'.pA ∧ f'.cam = f.cam ∧ f'.t = f.t ∧
      o.minDist ≤ f'.pA 2 ∧ f'.pA 2 ≤ o.maxDist := by
  have hAr := hR _ _ _ hA
  simp only [refine, hA, Option.bind_eq_bind, Option.bind_some, Option.bind_eq_some_iff] at h
  obtain ⟨ms, hms, s, hs, h⟩ := h
  split_ifs at h with hg
  · simp at h
  · push Not at hg
    obtain rfl := Option.some.inj (Option.some.inj h)
    have hp2 : (1 / s.x 2) ≥ o.minDist := by simpa using hg.1
    have hx : s.x 2 ≠ 0 := by
      intro h0
      rw [h0] at hp2
      norm_num at hp2
      linarith
    have hcost := lm_no_worse n _ _ rfl hs
    rw [computeError_reproj hAr hms hx, computeError_reproj hAr hms (by simp [lmStart, hz])] at hcost
    have e : (![(lmStart o (computeError A ms) f.pA).x 0 / (lmStart o (computeError A ms) f.pA).x 2,
        (lmStart o (computeError A ms) f.pA).x 1 / (lmStart o (computeError A ms) f.pA).x 2, 1 / (lmStart o (computeError A ms) f.pA).x 2] : V3) = f.pA := by
      apply v3_ext <;> simp [lmStart] <;> field_simp
    rw [e, ← hf, Spec.inCam, Matrix.mulVec_mulVec, hAr.orth, Matrix.one_mulVec, sub_add_cancel] at hcost
    refine ⟨hcost, ?_, rfl, rfl, hg.1, hg.2.1⟩
    rw [Spec.inCam, add_sub_cancel_right, Matrix.mulVec_mulVec, hAr.orth', Matrix.one_mulVec]

/-- the hypotheses of `C36_no_worse` are met: from the exact point of the example of C35 refinement returns the point itself. -/
example (o : Opts) (solve : M3 → V3 → V3) (hs : ∀ M, solve M 0 = 0) (h1 : 0 < o.maxRuns) (h2 : o.initLam < o.maxLam) (h3 : 0 ≤ o.minDx) (h4 : o.minDx < 10000)
    (h5 : o.minDist ≤ 2) (h6 : 2 ≤ o.maxDist) (h7 : 2 ≤ o.maxBaseline) :
    refine o solve 1 exClones exObs ⟨0, 1, exG, exG⟩ = some (some ⟨0, 1, exG, exG⟩) := by
  let A : CPose := ⟨1, ![0, 0, 0]⟩
  let B : CPose := ⟨1, ![1, 0, 0]⟩
  have hA : exClones 0 1 = some A := by simp [exClones, A]
  have hms : poses exClones (flat exObs) = some [(A, ![0, 0]), (A, ![0, 0]), (B, ![-1 / 2, 0])] := by
    simp [poses, flat, exObs, exClones, A, B]
  let x0 : V3 := ![0, 0, 1 / 2]
  have hst : (lmStart o (computeError A [(A, ![0, 0]), (A, ![0, 0]), (B, ![-1 / 2, 0])]) exG).x = x0 := by
    apply v3_ext <;> simp [lmStart, exG, x0]
  have pA : (![0, 0] : V2) - proj A A x0 = 0 := by
    funext i; fin_cases i <;> simp [proj, hi, relR, relP, A, x0, m3_mulVec_apply]
  have pB : (![-1 / 2, 0] : V2) - proj A B x0 = 0 := by
    funext i; fin_cases i <;> simp [proj, hi, relR, relP, A, B, x0, m3_mulVec_apply] <;> norm_num
  have herr : computeError A [(A, ![0, 0]), (A, ![0, 0]), (B, ![-1 / 2, 0])] x0 = 0 := by
    simp only [computeError, List.foldl_cons, List.foldl_nil, pA, pB, Pi.zero_apply]; norm_num
  have hgrad : (gnSystem A [(A, ![0, 0]), (A, ![0, 0]), (B, ![-1 / 2, 0])] x0).2 = 0 := by
    simp only [gnSystem, List.foldl_cons, List.foldl_nil, pA, pB, Matrix.mulVec_zero, add_zero]
  have hn0 : norm3 (0 : V3) = 0 := norm3_eq_zero.2 rfl
  have hloop : ∃ s, lmLoop o (computeError A [(A, ![0, 0]), (A, ![0, 0]), (B, ![-1 / 2, 0])]) (gnSystem A [(A, ![0, 0]), (A, ![0, 0]), (B, ![-1 / 2, 0])])
      solve 1 (lmStart o (computeError A [(A, ![0, 0]), (A, ![0, 0]), (B, ![-1 / 2, 0])]) exG) = some s ∧ s.x = x0 := by
    rw [lmLoop, if_pos ⟨h1, h2, h4⟩]
    have hrec : (lmStart o (computeError A [(A, ![0, 0]), (A, ![0, 0]), (B, ![-1 / 2, 0])]) exG).recompute = true := rfl
    have hcost : (lmStart o (computeError A [(A, ![0, 0]), (A, ![0, 0]), (B, ![-1 / 2, 0])]) exG).cost = 0 := by
      have : (lmStart o (computeError A [(A, ![0, 0]), (A, ![0, 0]), (B, ![-1 / 2, 0])]) exG).cost =
        computeError A [(A, ![0, 0]), (A, ![0, 0]), (B, ![-1 / 2, 0])] (lmStart o (computeError A [(A, ![0, 0]), (A, ![0, 0]), (B, ![-1 / 2, 0])]) exG).x := rfl
      rw [this, hst, herr]
    simp only [lmIter, hrec, if_true, hst, hgrad, hs, add_zero, herr, hcost, le_refl, ne_eq, not_true_eq_false, false_and, and_false, if_false, hn0,
      Bool.false_eq_true]
    rw [lmLoop, if_neg (by rintro ⟨-, -, h⟩; simp only at h; linarith)]
    exact ⟨_, rfl, rfl⟩
  obtain ⟨s, hs1, hs2⟩ := hloop
  have hp : (![s.x 0 / s.x 2, s.x 1 / s.x 2, 1 / s.x 2] : V3) = exG := by
    rw [hs2]; apply v3_ext <;> simp [x0, exG]
  have hb : baseMax A [(A, ![0, 0]), (A, ![0, 0]), (B, ![-1 / 2, 0])] exG = 1 := by
    have e1 : baseLine exG (relP A A) = 0 := by
      simp [baseLine, relP, dot3, A, exG]
    have e2 : baseLine exG (relP A B) = 1 := by
      simp [baseLine, relP, dot3, A, B, exG]
    simp only [baseMax, List.foldl_cons, List.foldl_nil, e1, e2]
    norm_num
  have hnorm : norm3 exG = 2 := by
    rw [norm3, show dot3 exG exG = 2 * 2 by simp [dot3, exG]]
    exact Real.sqrt_mul_self (by norm_num)
  have h2' : exG 2 = 2 := by simp [exG]
  have hback : A.R.transpose.mulVec exG + A.p = exG := by
    apply v3_ext <;> simp [A]
  simp only [refine, hA, hms, Option.bind_eq_bind, Option.bind_some, hs1, hp, hb, hnorm, h2', hback]
  refine if_neg ?_
  push Not
  exact ⟨h5, h6, by norm_num, by simpa using h7⟩

/-! ## C81 -/

theorem hi_affine (A P : CPose) (x u : V3) (t : ℝ) (i : Fin 3) : hi A P (x + t • u) i = hi A P x i +
    t * (relR A P i 0 * u 0 + relR A P i 1 * u 1 + (-(relR A P)).mulVec (relP A P) i * u 2) := by
  simp only [hi, Pi.add_apply, Pi.smul_apply, smul_eq_mul, m3_mulVec_apply, Matrix.cons_val_zero, Matrix.cons_val_one, Matrix.cons_val]
  ring

theorem affine_deriv (a b : ℝ) : HasDerivAt (fun t : ℝ => a + t * b) b 0 := by
  simpa using ((hasDerivAt_id (0 : ℝ)).mul_const b).const_add a

/-- **C81** (Jacobian) The matrix of the refinement is the derivative of the predicted normalised coordinates with respect to the inverse depth
parameters, in every direction, wherever the point is not in the camera's focal plane. -/
theorem C81_jacobian (A P : CPose) (x u : V3) (hz : hi A P x 2 ≠ 0) (i : Fin 2) :
    HasDerivAt (fun t : ℝ => proj A P (x + t • u) i) ((gnJac A P x).mulVec u i) 0 := by
  have h := fun i => affine_deriv (hi A P x i) (relR A P i 0 * u 0 + relR A P i 1 * u 1 + (-(relR A P)).mulVec (relP A P) i * u 2)
  have q : ∀ j : Fin 3, HasDerivAt (fun t : ℝ => hi A P (x + t • u) j / hi A P (x + t • u) 2) _ 0 := fun j => by
    simp only [hi_affine]
    exact (h j).fun_div (h 2) (by simpa using hz)
  fin_cases i
  · refine (q 0).congr_deriv ?_
    simp only [gnJac, Matrix.mulVec, dotProduct, Fin.sum_univ_three, zero_mul, add_zero]
    simp
    field_simp
    ring
  · refine (q 1).congr_deriv ?_
    simp only [gnJac, Matrix.mulVec, dotProduct, Fin.sum_univ_three, zero_mul, add_zero]
    simp
    field_simp
    ring

theorem gn_grad (A : CPose) (x u : V3) : ∀ (ms : List (CPose × V2)) (s : M3 × V3),
    dot3 u (ms.foldl (fun s m => (s.1 + (gnJac A m.1 x).transpose * gnJac A m.1 x, s.2 + (gnJac A m.1 x).transpose.mulVec (m.2 - proj A m.1 x))) s).2 =
      dot3 u s.2 + (ms.map fun m => (m.2 - proj A m.1 x) 0 * (gnJac A m.1 x).mulVec u 0 + (m.2 - proj A m.1 x) 1 * (gnJac A m.1 x).mulVec u 1).sum
  | [], s => by simp
  | m :: ms, s => by
    rw [List.foldl_cons, gn_grad A x u ms, List.map_cons, List.sum_cons]
    simp only [dot3, Matrix.mulVec, dotProduct, Fin.sum_univ_three, Fin.sum_univ_two, Pi.add_apply, Matrix.transpose_apply]
    ring

theorem gn_hess (A : CPose) (x u : V3) : ∀ (ms : List (CPose × V2)) (s : M3 × V3),
    dot3 u ((ms.foldl (fun s m => (s.1 + (gnJac A m.1 x).transpose * gnJac A m.1 x, s.2 + (gnJac A m.1 x).transpose.mulVec (m.2 - proj A m.1 x))) s).1.mulVec u) =
      dot3 u (s.1.mulVec u) + (ms.map fun m => (gnJac A m.1 x).mulVec u 0 ^ 2 + (gnJac A m.1 x).mulVec u 1 ^ 2).sum
  | [], s => by simp
  | m :: ms, s => by
    rw [List.foldl_cons, gn_hess A x u ms, List.map_cons, List.sum_cons]
    simp only [dot3, Matrix.mulVec, dotProduct, Fin.sum_univ_three, Fin.sum_univ_two, Matrix.add_apply, Matrix.transpose_apply, Matrix.mul_apply]
    ring

/-- **C81** (gradient and Hessian) The right-hand side of the refinement's linear system is minus half the gradient of the cost, and its matrix is the
quadratic form `Σ ‖J u‖²` of the measurement Jacobians. -/
theorem C81_system (A : CPose) (ms : List (CPose × V2)) (x u : V3) (hz : ∀ m ∈ ms, hi A m.1 x 2 ≠ 0) :
    HasDerivAt (fun t : ℝ => computeError A ms (x + t • u)) (-2 * dot3 u (gnSystem A ms x).2) 0 ∧
    dot3 u ((gnSystem A ms x).1.mulVec u) = (ms.map fun m => (gnJac A m.1 x).mulVec u 0 ^ 2 + (gnJac A m.1 x).mulVec u 1 ^ 2).sum := by
  constructor
  · rw [gnSystem, gn_grad]
    simp only [computeError_sum]
    have : ∀ (L : List (CPose × V2)), (∀ m ∈ L, hi A m.1 x 2 ≠ 0) →
        HasDerivAt (fun t : ℝ => (L.map fun m => (m.2 - proj A m.1 (x + t • u)) 0 ^ 2 + (m.2 - proj A m.1 (x + t • u)) 1 ^ 2).sum)
          (-2 * (L.map fun m => (m.2 - proj A m.1 x) 0 * (gnJac A m.1 x).mulVec u 0 + (m.2 - proj A m.1 x) 1 * (gnJac A m.1 x).mulVec u 1).sum) 0 := by
      intro L
      induction L with
      | nil => intro _; simpa using hasDerivAt_const (0 : ℝ) (0 : ℝ)
      | cons m L ih =>
        intro hL
        simp only [List.map_cons, List.sum_cons]
        have h0 := (C81_jacobian A m.1 x u (hL m (by simp)) 0).const_sub (m.2 0)
        have h1 := (C81_jacobian A m.1 x u (hL m (by simp)) 1).const_sub (m.2 1)
        have := ((h0.fun_pow 2).fun_add (h1.fun_pow 2)).fun_add (ih (fun m hm => hL m (by simp [hm])))
        simp only [Pi.sub_apply] at this ⊢
        refine this.congr_deriv ?_
        simp only [zero_smul, add_zero]
        push_cast
        ring
    refine (this ms hz).congr_deriv ?_
    simp [dot3]
  · rw [gnSystem, gn_hess]
    simp [dot3]

/-- the hypothesis of C81 holds in the example. -/
example : hi (⟨1, ![0, 0, 0]⟩ : CPose) ⟨1, ![1, 0, 0]⟩ ![0, 0, 1 / 2] 2 ≠ 0 := by
  simp [hi, relR, relP, m3_mulVec_apply]

end Verif.Tri
