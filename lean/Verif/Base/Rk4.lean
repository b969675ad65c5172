import Mathlib.Analysis.Analytic.Basic
import Mathlib.Analysis.Calculus.MeanValue
import Mathlib.Analysis.Normed.Module.Multilinear.Curry
import Mathlib.Analysis.Calculus.FDeriv.Analytic
import Mathlib.Analysis.Analytic.Constructions
import Mathlib.Tactic.Module
import Mathlib.Analysis.ODE.ExistUnique
import Mathlib.Analysis.Calculus.Deriv.Pow
import Mathlib.Analysis.Calculus.Deriv.Mul

/-!
# The classical Runge-Kutta step has order four

A general fact, independent of the code: for an analytic right-hand side the step of length `h` differs from any solution by `O(h⁵)`.
-/

namespace Verif.Rk

open Asymptotics Filter Topology

set_option maxSynthPendingDepth 3

variable {E : Type*} [NormedAddCommGroup E] [NormedSpace ℝ E]

/-- equal up to terms of order `n`. -/
def Eqn (n : ℕ) (a b : ℝ → E) : Prop := (fun h => a h - b h) =O[𝓝 (0 : ℝ)] fun h : ℝ => h ^ n

theorem Eqn.refl (n : ℕ) (a : ℝ → E) : Eqn n a a := by
  simp only [Eqn, sub_self]; exact isBigO_zero _ _
theorem Eqn.symm {n : ℕ} {a b : ℝ → E} (h : Eqn n a b) : Eqn n b a := by
  have := h.neg_left
  simpa only [Eqn, neg_sub] using this
theorem Eqn.trans {n : ℕ} {a b c : ℝ → E} (h : Eqn n a b) (h' : Eqn n b c) : Eqn n a c := by
  have := IsBigO.add h h'
  simpa only [Eqn, sub_add_sub_cancel] using this
theorem Eqn.add {n : ℕ} {a b c d : ℝ → E} (h : Eqn n a b) (h' : Eqn n c d) : Eqn n (fun t => a t + c t) fun t => b t + d t := by
  have := IsBigO.add h h'
  exact this.congr_left fun t => sub_add_sub_comm _ _ _ _
theorem Eqn.csmul {n : ℕ} {a b : ℝ → E} (c : ℝ) (h : Eqn n a b) : Eqn n (fun t => c • a t) fun t => c • b t := by
  have := h.const_smul_left c
  refine this.congr_left fun t => ?_
  exact smul_sub _ _ _

theorem pow_mono {m n : ℕ} (h : m ≤ n) : (fun t : ℝ => t ^ n) =O[𝓝 (0 : ℝ)] fun t : ℝ => t ^ m := by
  obtain ⟨k, rfl⟩ := Nat.exists_eq_add_of_le h
  have h1 : (fun t : ℝ => t ^ k) =O[𝓝 (0 : ℝ)] fun _ : ℝ => (1 : ℝ) :=
    (continuous_pow k).continuousAt.tendsto.isBigO_one ℝ
  have h2 := (isBigO_refl (fun t : ℝ => t ^ m) (𝓝 0)).mul h1
  simpa only [pow_add, mul_one] using h2

theorem Eqn.mono {m n : ℕ} (h : m ≤ n) {a b : ℝ → E} (hab : Eqn n a b) : Eqn m a b := IsBigO.trans hab (pow_mono h)

/-- a multiplication by the step gains one order. -/
theorem Eqn.smul_id {n : ℕ} {a b : ℝ → E} (h : Eqn n a b) : Eqn (n + 1) (fun t => t • a t) fun t => t • b t := by
  have h2 := (isBigO_refl (fun t : ℝ => t) (𝓝 0)).smul h
  refine (h2.congr_left fun t => smul_sub _ _ _).congr_right fun t => ?_
  simp only [smul_eq_mul]; ring

theorem Eqn.of_pow {n : ℕ} {a b : ℝ → E} (z : ℝ → E) (hz : Continuous z) (h : ∀ t, a t - b t = t ^ n • z t) : Eqn n a b := by
  have h1 : z =O[𝓝 (0 : ℝ)] fun _ : ℝ => (1 : ℝ) := hz.continuousAt.tendsto.isBigO_one ℝ
  have h2 := (isBigO_refl (fun t : ℝ => t ^ n) (𝓝 0)).smul h1
  refine (h2.congr_left fun t => (h t).symm).congr_right fun t => ?_
  simp

theorem lin_O (P : E →L[ℝ] E) {n : ℕ} {a : ℝ → E} (ha : a =O[𝓝 (0 : ℝ)] fun h : ℝ => h ^ n) : (fun h => P (a h)) =O[𝓝 (0 : ℝ)] fun h : ℝ => h ^ n :=
  (P.isBigO_comp a _).trans ha

theorem bil_O (P : E →L[ℝ] E →L[ℝ] E) {m n : ℕ} {a b : ℝ → E} (ha : a =O[𝓝 (0 : ℝ)] fun h : ℝ => h ^ m) (hb : b =O[𝓝 (0 : ℝ)] fun h : ℝ => h ^ n) :
    (fun h => P (a h) (b h)) =O[𝓝 (0 : ℝ)] fun h : ℝ => h ^ (m + n) := by
  have h1 : (fun h => P (a h) (b h)) =O[𝓝 (0 : ℝ)] fun h => ‖a h‖ * ‖b h‖ := by
    refine IsBigO.of_bound ‖P‖ (Eventually.of_forall fun h => ?_)
    rw [Real.norm_of_nonneg (by positivity), ← mul_assoc]
    exact P.le_opNorm₂ _ _
  refine (h1.trans (ha.norm_left.mul hb.norm_left)).congr_right fun t => (pow_add _ _ _).symm

theorem tri_O (P : E →L[ℝ] E →L[ℝ] E →L[ℝ] E) {k m n : ℕ} {a b c : ℝ → E} (ha : a =O[𝓝 (0 : ℝ)] fun h : ℝ => h ^ k)
    (hb : b =O[𝓝 (0 : ℝ)] fun h : ℝ => h ^ m) (hc : c =O[𝓝 (0 : ℝ)] fun h : ℝ => h ^ n) :
    (fun h => P (a h) (b h) (c h)) =O[𝓝 (0 : ℝ)] fun h : ℝ => h ^ (k + m + n) := by
  have h1 : (fun h => P (a h) (b h) (c h)) =O[𝓝 (0 : ℝ)] fun h => ‖a h‖ * ‖b h‖ * ‖c h‖ := by
    refine IsBigO.of_bound ‖P‖ (Eventually.of_forall fun h => ?_)
    rw [Real.norm_of_nonneg (by positivity)]
    calc ‖P (a h) (b h) (c h)‖ ≤ ‖P (a h)‖ * ‖b h‖ * ‖c h‖ := (P (a h)).le_opNorm₂ _ _
      _ ≤ ‖P‖ * ‖a h‖ * ‖b h‖ * ‖c h‖ := by gcongr; exact P.le_opNorm _
      _ = ‖P‖ * (‖a h‖ * ‖b h‖ * ‖c h‖) := by ring
  refine (h1.trans ((ha.norm_left.mul hb.norm_left).mul hc.norm_left)).congr_right fun t => by rw [pow_add, pow_add]

/-- the third-order expansion of a right-hand side. -/
structure Jet (f : E → E) (y0 : E) where
  P1 : E →L[ℝ] E
  P2 : E →L[ℝ] E →L[ℝ] E
  P3 : E →L[ℝ] E →L[ℝ] E →L[ℝ] E
  exp : (fun u => f (y0 + u) - (f y0 + P1 u + P2 u u + P3 u u u)) =O[𝓝 (0 : E)] fun u => ‖u‖ ^ 4

/-- cubic polynomials of the step. -/
def poly (a b c d : E) : ℝ → E := fun h => a + h • b + h ^ 2 • c + h ^ 3 • d

theorem poly_O (a b c : E) : poly (0 : E) a b c =O[𝓝 (0 : ℝ)] fun h : ℝ => h ^ 1 := by
  have : Eqn 1 (poly (0 : E) a b c) fun _ => 0 := Eqn.of_pow (fun h => a + h • b + h ^ 2 • c) (by fun_prop) fun t => by simp only [poly]; module
  simpa [Eqn] using this

/-- substituting a small curve known to order `n ≤ 4` into the right-hand side. -/
theorem subst {f : E → E} {y0 : E} (j : Jet f y0) {n : ℕ} (hn1 : 1 ≤ n) (hn : n ≤ 4) (u : ℝ → E) (a b c : E) (hu : Eqn n u (poly 0 a b c)) :
    Eqn n (fun h => f (y0 + u h)) (poly (f y0) (j.P1 a) (j.P1 b + j.P2 a a) (j.P1 c + j.P2 a b + j.P2 b a + j.P3 a a a)) := by
  set w := poly (0 : E) a b c with hw
  have hwO : w =O[𝓝 (0 : ℝ)] fun h : ℝ => h ^ 1 := poly_O a b c
  have hdO : (fun h => u h - w h) =O[𝓝 (0 : ℝ)] fun h : ℝ => h ^ n := hu
  have huO : u =O[𝓝 (0 : ℝ)] fun h : ℝ => h ^ 1 := by
    have := (hdO.trans (pow_mono hn1)).add hwO
    exact this.congr_left fun t => by abel
  have hu0 : Tendsto u (𝓝 0) (𝓝 0) := huO.trans_tendsto (by simpa using (continuous_pow 1).tendsto (0 : ℝ))
  have e1 : Eqn n (fun h => f (y0 + u h)) fun h => f y0 + j.P1 (u h) + j.P2 (u h) (u h) + j.P3 (u h) (u h) (u h) := by
    have h1 := j.exp.comp_tendsto hu0
    have h2 : (fun h => ‖u h‖ ^ 4) =O[𝓝 (0 : ℝ)] fun h : ℝ => h ^ 4 := by
      have := huO.norm_left.pow 4
      refine this.congr_right fun t => by ring
    exact (h1.trans h2).trans (pow_mono hn)
  have e2 : Eqn n (fun h => f y0 + j.P1 (u h) + j.P2 (u h) (u h) + j.P3 (u h) (u h) (u h))
      fun h => f y0 + j.P1 (w h) + j.P2 (w h) (w h) + j.P3 (w h) (w h) (w h) := by
    have a1 : Eqn n (fun h => j.P1 (u h)) fun h => j.P1 (w h) := (lin_O j.P1 hdO).congr_left fun t => by simp
    have a2 : Eqn n (fun h => j.P2 (u h) (u h)) fun h => j.P2 (w h) (w h) := by
      have := ((bil_O j.P2 hdO huO).trans (pow_mono (by omega : n ≤ n + 1))).add ((bil_O j.P2 hwO hdO).trans (pow_mono (by omega : n ≤ 1 + n)))
      refine this.congr_left fun t => ?_
      simp only [map_sub, _root_.sub_apply]; abel
    have a3 : Eqn n (fun h => j.P3 (u h) (u h) (u h)) fun h => j.P3 (w h) (w h) (w h) := by
      have := (((tri_O j.P3 hdO huO huO).trans (pow_mono (by omega : n ≤ n + 1 + 1))).add
        ((tri_O j.P3 hwO hdO huO).trans (pow_mono (by omega : n ≤ 1 + n + 1)))).add ((tri_O j.P3 hwO hwO hdO).trans (pow_mono (by omega : n ≤ 1 + 1 + n)))
      refine this.congr_left fun t => ?_
      simp only [map_sub, _root_.sub_apply]; abel
    exact (((Eqn.refl n fun _ => f y0).add a1).add a2).add a3
  have e3 : Eqn 4 (fun h => f y0 + j.P1 (w h) + j.P2 (w h) (w h) + j.P3 (w h) (w h) (w h))
      (poly (f y0) (j.P1 a) (j.P1 b + j.P2 a a) (j.P1 c + j.P2 a b + j.P2 b a + j.P3 a a a)) := by
    set w1 : ℝ → E := fun h => h • a with hw1
    set w2 : ℝ → E := fun h => h • a + h ^ 2 • b with hw2
    have o1 : w1 =O[𝓝 (0 : ℝ)] fun h : ℝ => h ^ 1 := by
      have := poly_O a 0 (0 : E); exact this.congr_left fun t => by simp [poly, hw1]
    have o2 : w2 =O[𝓝 (0 : ℝ)] fun h : ℝ => h ^ 1 := by
      have := poly_O a b (0 : E); exact this.congr_left fun t => by simp [poly, hw2]
    have d1 : (fun h => w h - w1 h) =O[𝓝 (0 : ℝ)] fun h : ℝ => h ^ 2 :=
      Eqn.of_pow (fun h => b + h • c) (by fun_prop) fun t => by simp only [hw, hw1, poly]; module
    have d2 : (fun h => w h - w2 h) =O[𝓝 (0 : ℝ)] fun h : ℝ => h ^ 3 :=
      Eqn.of_pow (fun _ => c) (by fun_prop) fun t => by simp only [hw, hw2, poly]; module
    have a2 : Eqn 4 (fun h => j.P2 (w h) (w h)) fun h => j.P2 (w2 h) (w2 h) := by
      have := (bil_O j.P2 d2 hwO : _ =O[𝓝 0] fun h : ℝ => h ^ 4).add (bil_O j.P2 o2 d2 : _ =O[𝓝 0] fun h : ℝ => h ^ (1 + 3))
      refine this.congr_left fun t => ?_
      simp only [map_sub, _root_.sub_apply]; abel
    have a3 : Eqn 4 (fun h => j.P3 (w h) (w h) (w h)) fun h => j.P3 (w1 h) (w1 h) (w1 h) := by
      have := ((tri_O j.P3 d1 hwO hwO : _ =O[𝓝 0] fun h : ℝ => h ^ 4).add (tri_O j.P3 o1 d1 hwO : _ =O[𝓝 0] fun h : ℝ => h ^ (1 + 2 + 1))).add
        (tri_O j.P3 o1 o1 d1 : _ =O[𝓝 0] fun h : ℝ => h ^ (1 + 1 + 2))
      refine this.congr_left fun t => ?_
      simp only [map_sub, _root_.sub_apply]; abel
    refine ((((Eqn.refl 4 fun _ => f y0).add (Eqn.refl 4 fun h => j.P1 (w h))).add a2).add a3).trans ?_
    refine Eqn.of_pow (fun _ => j.P2 b b) (by fun_prop) fun t => ?_
    simp only [hw, hw1, hw2, poly, map_add, map_smul, _root_.add_apply, _root_.smul_apply, map_zero]
    module
  exact (e1.trans e2).trans (e3.mono hn)

/-- integrating an expansion. -/
theorem integ (y g : ℝ → E) (hy : ∀ᶠ t in 𝓝 (0 : ℝ), HasDerivAt y (g t) t) {n : ℕ} (a b c d : E) (hg : Eqn n g (poly a b c d)) :
    Eqn (n + 1) (fun h => y h - y 0) fun h => h • a + (h ^ 2 / 2) • b + (h ^ 3 / 3) • c + (h ^ 4 / 4) • d := by
  obtain ⟨C, hC0, hC'⟩ := IsBigO.exists_nonneg hg
  have hC := hC'.bound
  obtain ⟨ε, hε, hb⟩ := Metric.eventually_nhds_iff.1 (hy.and hC)
  refine IsBigO.of_bound C ?_
  refine Metric.eventually_nhds_iff.2 ⟨ε, hε, fun h hh => ?_⟩
  set r : ℝ → E := fun t => y t - (t • a + (t ^ 2 / 2) • b + (t ^ 3 / 3) • c + (t ^ 4 / 4) • d) with hr
  have hsmall : ∀ t ∈ Set.uIcc 0 h, dist t 0 < ε ∧ |t| ≤ |h| := by
    intro t ht
    have : |t| ≤ |h| := by
      rw [Set.mem_uIcc] at ht
      rcases ht with ht | ht
      · rw [abs_of_nonneg ht.1, abs_of_nonneg (ht.1.trans ht.2)]; exact ht.2
      · rw [abs_of_nonpos ht.2, abs_of_nonpos (ht.1.trans ht.2)]; linarith [ht.1]
    refine ⟨?_, this⟩
    rw [Real.dist_eq, sub_zero] at hh ⊢
    exact this.trans_lt hh
  have hd : ∀ t ∈ Set.uIcc 0 h, HasDerivWithinAt r (g t - poly a b c d t) (Set.uIcc 0 h) t := by
    intro t ht
    have h1 := (hb (hsmall t ht).1).1
    have p1 : HasDerivAt (fun t : ℝ => t • a) a t := by simpa using (hasDerivAt_id t).smul_const a
    have p2 : HasDerivAt (fun t : ℝ => (t ^ 2 / 2) • b) (t • b) t := by
      have := ((hasDerivAt_pow 2 t).div_const 2).smul_const b
      convert this using 2; norm_num
    have p3 : HasDerivAt (fun t : ℝ => (t ^ 3 / 3) • c) (t ^ 2 • c) t := by
      have := ((hasDerivAt_pow 3 t).div_const 3).smul_const c
      convert this using 2; norm_num
    have p4 : HasDerivAt (fun t : ℝ => (t ^ 4 / 4) • d) (t ^ 3 • d) t := by
      have := ((hasDerivAt_pow 4 t).div_const 4).smul_const d
      convert this using 2; norm_num
    exact (h1.sub (((p1.add p2).add p3).add p4)).hasDerivWithinAt
  have hm := (convex_uIcc (0 : ℝ) h).norm_image_sub_le_of_norm_hasDerivWithin_le (C := C * |h| ^ n) hd (fun t ht => by
    have := (hb (hsmall t ht).1).2
    refine this.trans ?_
    rw [norm_pow, Real.norm_eq_abs]
    exact mul_le_mul_of_nonneg_left (pow_le_pow_left₀ (abs_nonneg t) (hsmall t ht).2 n) hC0) Set.left_mem_uIcc Set.right_mem_uIcc
  have he : y h - y 0 - (h • a + (h ^ 2 / 2) • b + (h ^ 3 / 3) • c + (h ^ 4 / 4) • d) = r h - r 0 := by
    simp only [hr]; simp; module
  rw [he]
  refine hm.trans (le_of_eq ?_)
  rw [norm_pow, Real.norm_eq_abs, sub_zero, Real.norm_eq_abs, pow_succ]; ring

/-- the classical Runge-Kutta step of length `h` of `y' = f(y)`. -/
noncomputable def rk4 (f : E → E) (y0 : E) (h : ℝ) : E :=
  let k1 := f y0
  let k2 := f (y0 + (h / 2) • k1)
  let k3 := f (y0 + (h / 2) • k2)
  let k4 := f (y0 + h • k3)
  y0 + (h / 6) • (k1 + (2 : ℝ) • k2 + (2 : ℝ) • k3 + k4)

/-- the expansion of a solution. -/
theorem sol_exp {f : E → E} {y0 : E} (j : Jet f y0) (y : ℝ → E) (h0 : y 0 = y0) (hy : ∀ᶠ t in 𝓝 (0 : ℝ), HasDerivAt y (f (y t)) t) :
    Eqn 5 (fun h => y h - y0) fun h => h • f y0 + (h ^ 2 / 2) • j.P1 (f y0) + (h ^ 3 / 3) • ((1 / 2 : ℝ) • j.P1 (j.P1 (f y0)) + j.P2 (f y0) (f y0))
      + (h ^ 4 / 4) • (j.P1 ((1 / 6 : ℝ) • j.P1 (j.P1 (f y0)) + (1 / 3 : ℝ) • j.P2 (f y0) (f y0)) + (1 / 2 : ℝ) • j.P2 (f y0) (j.P1 (f y0))
        + (1 / 2 : ℝ) • j.P2 (j.P1 (f y0)) (f y0) + j.P3 (f y0) (f y0) (f y0)) := by
  have hf : ∀ h, f (y0 + (y h - y0)) = f (y h) := fun h => by rw [add_sub_cancel]
  have key : ∀ {n : ℕ} (_ : 1 ≤ n) (_ : n ≤ 4) (a b c : E), Eqn n (fun h => y h - y0) (poly 0 a b c) →
      Eqn (n + 1) (fun h => y h - y0) fun h => h • f y0 + (h ^ 2 / 2) • j.P1 a + (h ^ 3 / 3) • (j.P1 b + j.P2 a a)
        + (h ^ 4 / 4) • (j.P1 c + j.P2 a b + j.P2 b a + j.P3 a a a) := by
    intro n h1 h4 a b c h
    have := subst j h1 h4 _ a b c h
    simp only [hf] at this
    have := integ y _ hy _ _ _ _ this
    rwa [h0] at this
  have s1 : Eqn 1 (fun h => y h - y0) (poly 0 0 0 0) := by
    have := (hy.self_of_nhds).differentiableAt.isBigO_sub
    rw [h0] at this
    simpa [Eqn, poly] using this
  have s2 : Eqn 2 (fun h => y h - y0) (poly 0 (f y0) 0 0) := by
    refine (key le_rfl (by norm_num) _ _ _ s1).trans ?_
    refine Eqn.of_pow (fun h => 0) (by fun_prop) fun t => ?_
    simp only [poly, map_zero, _root_.zero_apply]; module
  have s3 : Eqn 3 (fun h => y h - y0) (poly 0 (f y0) ((1 / 2 : ℝ) • j.P1 (f y0)) 0) := by
    refine (key (by norm_num) (by norm_num) _ _ _ s2).trans ?_
    refine Eqn.of_pow (fun h => (1 / 3 : ℝ) • j.P2 (f y0) (f y0) + (h / 4) • j.P3 (f y0) (f y0) (f y0)) (by fun_prop) fun t => ?_
    simp only [poly, map_zero, _root_.zero_apply]; module
  have s4 : Eqn 4 (fun h => y h - y0) (poly 0 (f y0) ((1 / 2 : ℝ) • j.P1 (f y0)) ((1 / 6 : ℝ) • j.P1 (j.P1 (f y0)) + (1 / 3 : ℝ) • j.P2 (f y0) (f y0))) := by
    refine (key (by norm_num) (by norm_num) _ _ _ s3).trans ?_
    refine Eqn.of_pow (fun h => (1 / 4 : ℝ) • (j.P2 (f y0) ((1 / 2 : ℝ) • j.P1 (f y0)) + j.P2 ((1 / 2 : ℝ) • j.P1 (f y0)) (f y0) + j.P3 (f y0) (f y0) (f y0))) (by fun_prop) fun t => ?_
    simp only [poly, map_zero, map_smul, _root_.smul_apply, _root_.zero_apply]; module
  have s5 := key (by norm_num) le_rfl _ _ _ s4
  refine s5.trans ?_
  refine Eqn.of_pow (fun h => 0) (by fun_prop) fun t => ?_
  simp only [map_smul, map_add, _root_.smul_apply]; module

/-- **the step is of order four** (with the third-order expansion of the right-hand side). -/
theorem rk4_order_jet {f : E → E} {y0 : E} (j : Jet f y0) (y : ℝ → E) (h0 : y 0 = y0) (hy : ∀ᶠ t in 𝓝 (0 : ℝ), HasDerivAt y (f (y t)) t) :
    (fun h => rk4 f y0 h - y h) =O[𝓝 0] fun h : ℝ => h ^ 5 := by
  set A := f y0 with hA
  have up : ∀ (c : ℝ) {k : ℝ → E} {a b d e : E}, Eqn 4 k (poly a b d e) → Eqn 4 (fun h => (c * h) • k h) (poly 0 (c • a) (c • b) (c • d)) := by
    intro c k a b d e hk
    have h1 := (hk.smul_id.csmul c).mono (by norm_num : 4 ≤ 5)
    have h2 : Eqn 4 (fun h => (c * h) • k h) fun h => c • h • poly a b d e h := by
      refine h1.congr_left fun t => by simp only [mul_smul]
    refine h2.trans (Eqn.of_pow (fun _ => c • e) (by fun_prop) fun t => ?_)
    simp only [poly]; module
  have k1 : Eqn 4 (fun _ => A) (poly A 0 0 0) := by
    have : (fun _ : ℝ => A) = poly A 0 0 0 := by funext t; simp [poly]
    rw [this]; exact Eqn.refl _ _
  have k2 := subst j (by norm_num) le_rfl _ _ _ _ (up (1 / 2) k1)
  have k3 := subst j (by norm_num) le_rfl _ _ _ _ (up (1 / 2) k2)
  have k4 := subst j (by norm_num) le_rfl _ _ _ _ (up 1 k3)
  have hs := ((((k1.add (k2.csmul 2)).add (k3.csmul 2)).add k4).smul_id).csmul (1 / 6)
  have he := sol_exp j y h0 hy
  rw [← hA] at he hs
  have hrk : ∀ h : ℝ, rk4 f y0 h - y0 = (1 / 6 : ℝ) • h • (A + (2 : ℝ) • f (y0 + (1 / 2 * h) • A) + (2 : ℝ) • f (y0 + (1 / 2 * h) • f (y0 + (1 / 2 * h) • A))
      + f (y0 + (1 * h) • f (y0 + (1 / 2 * h) • f (y0 + (1 / 2 * h) • A)))) := by
    intro h
    simp only [rk4, ← hA]
    rw [show (1 / 2 * h : ℝ) = h / 2 by ring, one_mul, ← mul_smul, show (1 / 6 * h : ℝ) = h / 6 by ring]
    abel
  have hfin : Eqn 5 (fun h => rk4 f y0 h - y0) fun h => y h - y0 := by
    refine Eqn.trans ?_ he.symm
    rw [show (fun h => rk4 f y0 h - y0) = _ from funext hrk]
    refine hs.trans ?_
    refine Eqn.of_pow (fun _ => 0) (by fun_prop) fun t => ?_
    simp only [poly, map_smul, map_add, map_zero, _root_.smul_apply, _root_.add_apply, _root_.zero_apply]
    module
  exact hfin.congr_left fun t => sub_sub_sub_cancel_right _ _ _

/-- the bilinear and trilinear terms of a power series. -/
noncomputable def cur2 : (E [×2]→L[ℝ] E) →L[ℝ] (E →L[ℝ] E →L[ℝ] E) :=
  (ContinuousLinearMap.compL ℝ E (E [×1]→L[ℝ] E) (E →L[ℝ] E) (continuousMultilinearCurryFin1 ℝ E E).toContinuousLinearEquiv.toContinuousLinearMap).comp
    (continuousMultilinearCurryLeftEquiv ℝ (fun _ : Fin 2 => E) E).toContinuousLinearEquiv.toContinuousLinearMap

theorem cur2_apply (m : E [×2]→L[ℝ] E) (a b : E) : cur2 m a b = m (Fin.cons a fun _ => b) := rfl

theorem nonempty_jet {f : E → E} {y0 : E} (hf : AnalyticAt ℝ f y0) : Nonempty (Jet f y0) := by
  obtain ⟨p, hp⟩ := hf
  have h := hp.isBigO_sub_partialSum_pow 4
  refine ⟨⟨continuousMultilinearCurryFin1 ℝ E E (p 1), cur2 (p 2), cur2.comp (p 3).curryLeft, ?_⟩⟩
  refine h.congr_left fun u => ?_
  have h0 : p 0 (fun _ => u) = f y0 := hp.coeff_zero _
  have c2 : (Fin.cons u fun _ => u : Fin 2 → E) = fun _ => u := by
    funext i; refine Fin.cases rfl (fun _ => rfl) i
  have h2 : cur2 (p 2) u u = p 2 fun _ => u := by rw [cur2_apply, c2]
  have h3 : cur2.comp (p 3).curryLeft u u u = p 3 fun _ => u := by
    rw [ContinuousLinearMap.comp_apply, cur2_apply, c2, ContinuousMultilinearMap.curryLeft_apply]
    congr 1
    funext i; refine Fin.cases rfl (fun _ => rfl) i
  have h1 : continuousMultilinearCurryFin1 ℝ E E (p 1) u = p 1 fun _ => u := by
    rw [continuousMultilinearCurryFin1_apply]
    congr 1
  rw [h1, h2, h3]
  simp only [FormalMultilinearSeries.partialSum, Finset.sum_range_succ, Finset.sum_range_zero, zero_add, h0]

/-- **the step is of order four** for an analytic right-hand side. -/
theorem rk4_order {f : E → E} {y0 : E} (hf : AnalyticAt ℝ f y0) (y : ℝ → E) (h0 : y 0 = y0) (hy : ∀ᶠ t in 𝓝 (0 : ℝ), HasDerivAt y (f (y t)) t) :
    (fun h => rk4 f y0 h - y h) =O[𝓝 0] fun h : ℝ => h ^ 5 :=
  let ⟨j⟩ := nonempty_jet hf
  rk4_order_jet j y h0 hy

/-- the classical Runge-Kutta step of length `h` of `y' = f(t, y)` from `t = 0`. -/
noncomputable def rk4t (f : ℝ → E → E) (y0 : E) (h : ℝ) : E :=
  let k1 := f 0 y0
  let k2 := f (h / 2) (y0 + (h / 2) • k1)
  let k3 := f (h / 2) (y0 + (h / 2) • k2)
  let k4 := f h (y0 + h • k3)
  y0 + (h / 6) • (k1 + (2 : ℝ) • k2 + (2 : ℝ) • k3 + k4)

/-- **the step is of order four**, right-hand side depending on the time. -/
theorem rk4t_order {f : ℝ → E → E} {y0 : E} (hf : AnalyticAt ℝ (fun z : ℝ × E => f z.1 z.2) (0, y0)) (y : ℝ → E) (h0 : y 0 = y0)
    (hy : ∀ᶠ t in 𝓝 (0 : ℝ), HasDerivAt y (f t (y t)) t) :
    (fun h => rk4t f y0 h - y h) =O[𝓝 0] fun h : ℝ => h ^ 5 := by
  set F : ℝ × E → ℝ × E := fun z => (1, f z.1 z.2) with hF
  have hFa : AnalyticAt ℝ F (0, y0) := analyticAt_const.prod hf
  have hY : ∀ᶠ t in 𝓝 (0 : ℝ), HasDerivAt (fun t => (t, y t)) (F (t, y t)) t := by
    filter_upwards [hy] with t ht
    exact (hasDerivAt_id t).prodMk ht
  have h := rk4_order hFa (fun t => (t, y t)) (by rw [h0]) hY
  have h2 : (fun h => rk4t f y0 h - y h) =O[𝓝 0] fun h => rk4 F (0, y0) h - (h, y h) := by
    refine IsBigO.of_bound 1 (Eventually.of_forall fun h => ?_)
    have : (rk4 F (0, y0) h - (h, y h)).2 = rk4t f y0 h - y h := by
      simp [rk4, rk4t, hF]
    rw [← this, one_mul]
    exact norm_snd_le _
  exact h2.trans h

theorem const_near {f : ℝ → E} (h : ∀ᶠ t in 𝓝 (0 : ℝ), HasDerivAt f 0 t) : ∀ᶠ t in 𝓝 (0 : ℝ), f t = f 0 := by
  obtain ⟨ε, hε, hb⟩ := Metric.eventually_nhds_iff_ball.1 h
  refine Metric.eventually_nhds_iff_ball.2 ⟨ε, hε, fun t ht => ?_⟩
  have := (convex_ball (0 : ℝ) ε).norm_image_sub_le_of_norm_hasDerivWithin_le (C := 0) (fun s hs => (hb s hs).hasDerivWithinAt) (fun s _ => by simp)
    (Metric.mem_ball_self hε) ht
  rw [zero_mul, norm_le_zero_iff, sub_eq_zero] at this
  exact this

/-- an analytic right-hand side has a solution. -/
theorem exists_sol [CompleteSpace E] {f : ℝ → E → E} {y0 : E} (hf : AnalyticAt ℝ (fun z : ℝ × E => f z.1 z.2) (0, y0)) :
    ∃ y : ℝ → E, y 0 = y0 ∧ ∀ᶠ t in 𝓝 (0 : ℝ), HasDerivAt y (f t (y t)) t := by
  set F : ℝ × E → ℝ × E := fun z => (1, f z.1 z.2) with hF
  have hFa : AnalyticAt ℝ F (0, y0) := analyticAt_const.prod hf
  obtain ⟨z, hz0, ε, hε, hz⟩ := (hFa.contDiffAt (n := 1)).exists_forall_mem_closedBall_exists_eq_forall_mem_Ioo_hasDerivAt₀ 0
  have hz' : ∀ᶠ t in 𝓝 (0 : ℝ), HasDerivAt z (F (z t)) t :=
    Filter.eventually_of_mem (Ioo_mem_nhds (by linarith) (by linarith)) hz
  have h1 : ∀ᶠ t in 𝓝 (0 : ℝ), HasDerivAt (fun t => (z t).1 - t) 0 t := by
    filter_upwards [hz'] with t ht
    have h3 : HasDerivAt (fun t => (z t).1) 1 t := (hasFDerivAt_fst (𝕜 := ℝ) (p := z t)).comp_hasDerivAt t ht
    simpa using h3.fun_sub (hasDerivAt_id t)
  refine ⟨fun t => (z t).2, by simp only [hz0], ?_⟩
  filter_upwards [hz', const_near h1] with t ht h2
  have e : (z t).1 = t := by
    rw [hz0] at h2; simp at h2; linarith
  have h3 : HasDerivAt (fun t => (z t).2) (f (z t).1 (z t).2) t := (hasFDerivAt_snd (𝕜 := ℝ) (p := z t)).comp_hasDerivAt t ht
  rw [e] at h3
  exact h3

end Verif.Rk
