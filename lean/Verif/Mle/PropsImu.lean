import Verif.Mle.PropsMan
import Verif.Cpi.PropsB

/-!
# C101: the preintegration factor of the dynamic initialiser's optimisation
-/

set_option linter.unusedSimpArgs false

open Classical

namespace Verif.Mle

open Verif Matrix Verif.QuatProps

/-! ## curves of quaternions -/

/-- component-wise derivative at `0` of a curve of quaternions. -/
structure HasDq (f : ℝ → Quat) (f' : Quat) : Prop where
  x : HasDerivAt (fun e => (f e).x) f'.x 0
  y : HasDerivAt (fun e => (f e).y) f'.y 0
  z : HasDerivAt (fun e => (f e).z) f'.z 0
  w : HasDerivAt (fun e => (f e).w) f'.w 0

/-- component-wise sum. -/
def qadd (a b : Quat) : Quat := ⟨a.x + b.x, a.y + b.y, a.z + b.z, a.w + b.w⟩

theorem HasDq.const (q : Quat) : HasDq (fun _ => q) ⟨0, 0, 0, 0⟩ := ⟨hasDerivAt_const _ _, hasDerivAt_const _ _, hasDerivAt_const _ _, hasDerivAt_const _ _⟩

theorem HasDq.inv {f : ℝ → Quat} {f' : Quat} (h : HasDq f f') : HasDq (fun e => quatInv (f e)) (quatInv f') :=
  ⟨h.x.fun_neg, h.y.fun_neg, h.z.fun_neg, h.w⟩

theorem HasDq.smul {f : ℝ → Quat} {f' : Quat} (c : ℝ) (h : HasDq f f') : HasDq (fun e => Quat.smul c (f e)) (Quat.smul c f') :=
  ⟨h.x.const_mul c, h.y.const_mul c, h.z.const_mul c, h.w.const_mul c⟩

theorem HasDq.mul {f g : ℝ → Quat} {f' g' : Quat} (hf : HasDq f f') (hg : HasDq g g') :
    HasDq (fun e => quatMulRaw (f e) (g e)) (qadd (quatMulRaw f' (g 0)) (quatMulRaw (f 0) g')) := by
  constructor
  · refine ((((hf.w.fun_mul hg.x).fun_add (hf.z.fun_mul hg.y)).fun_sub (hf.y.fun_mul hg.z)).fun_add (hf.x.fun_mul hg.w)).congr_deriv ?_
    simp only [qadd, quatMulRaw]; ring
  · refine ((((hf.z.fun_neg.fun_mul hg.x).fun_add (hf.w.fun_mul hg.y)).fun_add (hf.x.fun_mul hg.z)).fun_add (hf.y.fun_mul hg.w)).congr_deriv ?_
    simp only [qadd, quatMulRaw]; ring
  · refine ((((hf.y.fun_mul hg.x).fun_sub (hf.x.fun_mul hg.y)).fun_add (hf.w.fun_mul hg.z)).fun_add (hf.z.fun_mul hg.w)).congr_deriv ?_
    simp only [qadd, quatMulRaw]; ring
  · refine ((((hf.x.fun_neg.fun_mul hg.x).fun_sub (hf.y.fun_mul hg.y)).fun_sub (hf.z.fun_mul hg.z)).fun_add (hf.w.fun_mul hg.w)).congr_deriv ?_
    simp only [qadd, quatMulRaw]; ring

theorem HasDq.congr_ev {f g : ℝ → Quat} {f' : Quat} (hf : HasDq f f') (h : ∀ᶠ e in nhds (0:ℝ), g e = f e) : HasDq g f' :=
  ⟨hf.x.congr_of_eventuallyEq (h.mono fun e he => by simp [he]), hf.y.congr_of_eventuallyEq (h.mono fun e he => by simp [he]),
    hf.z.congr_of_eventuallyEq (h.mono fun e he => by simp [he]), hf.w.congr_of_eventuallyEq (h.mono fun e he => by simp [he])⟩

theorem HasDq.vec {f : ℝ → Quat} {f' : Quat} (h : HasDq f f') : HasDv (fun e => (f e).vec) f'.vec := by
  intro i
  fin_cases i
  · exact h.x
  · exact h.y
  · exact h.z

/-- the quaternion `[½ v; 1]` normalised. -/
noncomputable def half (v : V3) : Quat := (Quat.mk (0.5 * v 0) (0.5 * v 1) (0.5 * v 2) 1).divS (Quat.mk (0.5 * v 0) (0.5 * v 1) (0.5 * v 2) 1).norm

theorem half_norm (v : V3) : (Quat.mk (0.5 * v 0) (0.5 * v 1) (0.5 * v 2) 1).norm = Real.sqrt (1 + dot3 v v / 4) := by
  unfold Quat.norm
  congr 1
  simp only [Quat.normSq, dot3]; norm_num; ring

theorem half_pos (v : V3) : 0 < Real.sqrt (1 + dot3 v v / 4) := Real.sqrt_pos.2 (by linarith [dot3_self_nonneg v])

theorem half_unit (v : V3) : IsUnitQ (half v) := unit_divS (by
  have := dot3_self_nonneg v
  simp only [Quat.normSq]; positivity)

theorem half_eq_quatnorm (v : V3) : half v = quatnorm ⟨0.5 * v 0, 0.5 * v 1, 0.5 * v 2, 1⟩ := by
  unfold quatnorm half
  simp only [if_neg (show ¬ ((1:ℝ) < 0) by norm_num)]

theorem half_zero : half 0 = ⟨0, 0, 0, 1⟩ := by
  simp [half, Quat.divS, Quat.norm, Quat.normSq]

/-- derivative of `half` along a curve through `0`. -/
theorem HasDv.half {v : ℝ → V3} {v' : V3} (h : HasDv v v') (h0 : v 0 = 0) : HasDq (fun e => half (v e)) ⟨v' 0 / 2, v' 1 / 2, v' 2 / 2, 0⟩ := by
  have hn : HasDerivAt (fun e => Real.sqrt (1 + dot3 (v e) (v e) / 4)) 0 0 := by
    have hd : HasDerivAt (fun e => 1 + dot3 (v e) (v e) / 4) 0 0 := by
      have := (((((h 0).fun_mul (h 0)).fun_add ((h 1).fun_mul (h 1))).fun_add ((h 2).fun_mul (h 2))).div_const 4).const_add 1
      refine this.congr_deriv ?_
      simp [h0]
    have := hd.sqrt (by simp [h0, dot3])
    simpa using this
  have n0 : Real.sqrt (1 + dot3 (v 0) (v 0) / 4) = 1 := by simp [h0, dot3]
  have e : ∀ t, Mle.half (v t) = ⟨0.5 * v t 0 / Real.sqrt (1 + dot3 (v t) (v t) / 4), 0.5 * v t 1 / Real.sqrt (1 + dot3 (v t) (v t) / 4),
      0.5 * v t 2 / Real.sqrt (1 + dot3 (v t) (v t) / 4), 1 / Real.sqrt (1 + dot3 (v t) (v t) / 4)⟩ := by
    intro t
    unfold Mle.half
    rw [half_norm]; rfl
  simp only [e]
  have hne : Real.sqrt (1 + dot3 (v 0) (v 0) / 4) ≠ 0 := by rw [n0]; norm_num
  constructor
  · refine (((h 0).const_mul 0.5).fun_div hn hne).congr_deriv ?_
    rw [n0, h0]; norm_num; ring
  · refine (((h 1).const_mul 0.5).fun_div hn hne).congr_deriv ?_
    rw [n0, h0]; norm_num; ring
  · refine (((h 2).const_mul 0.5).fun_div hn hne).congr_deriv ?_
    rw [n0, h0]; norm_num; ring
  · refine ((hasDerivAt_const (0:ℝ) (1:ℝ)).fun_div hn hne).congr_deriv ?_
    simp

/-! ## the stored sign -/

/-- the stored form of a unit quaternion is it or its negative; which one is decided by the scalar part. -/
noncomputable def sgn (q : Quat) : ℝ := if q.w < 0 then -1 else 1

theorem quatMul_smul {a b : Quat} (ha : IsUnitQ a) (hb : IsUnitQ b) : quatMul a b = Quat.smul (sgn (quatMulRaw a b)) (quatMulRaw a b) := by
  rw [quatMul_eq_quatnorm, quatnorm_of_unit (unit_mulRaw ha hb), sgn]
  split_ifs <;> simp [Quat.neg, Quat.smul]

theorem smul_mulRaw (c : ℝ) (a b : Quat) : quatMulRaw (Quat.smul c a) b = Quat.smul c (quatMulRaw a b) := by
  simp only [quatMulRaw, Quat.smul]; ext <;> simp <;> ring

theorem mulRaw_smul (c : ℝ) (a b : Quat) : quatMulRaw a (Quat.smul c b) = Quat.smul c (quatMulRaw a b) := by
  simp only [quatMulRaw, Quat.smul]; ext <;> simp <;> ring

theorem smul_smul_q (c d : ℝ) (a : Quat) : Quat.smul c (Quat.smul d a) = Quat.smul (c * d) a := by
  simp only [Quat.smul]; ext <;> simp <;> ring

theorem mulRaw_assoc (a b c : Quat) : quatMulRaw (quatMulRaw a b) c = quatMulRaw a (quatMulRaw b c) := by
  simp only [quatMulRaw]; ext <;> simp <;> ring

theorem sgn_cases (q : Quat) : sgn q = 1 ∨ sgn q = -1 := by unfold sgn; split_ifs <;> simp

theorem inv_mulRaw (a b : Quat) : quatInv (quatMulRaw a b) = quatMulRaw (quatInv b) (quatInv a) := by
  simp only [quatMulRaw, quatInv]; ext <;> simp <;> ring

theorem inv_smul (c : ℝ) (a : Quat) : quatInv (Quat.smul c a) = Quat.smul c (quatInv a) := by
  simp only [Quat.smul, quatInv]; ext <;> simp

theorem unit_inv {q : Quat} (h : IsUnitQ q) : IsUnitQ (quatInv q) := (C23_quat_inverse q h).1

theorem unit_mul {a b : Quat} (ha : IsUnitQ a) (hb : IsUnitQ b) : IsUnitQ (quatMul a b) := (C23_quat_multiply a b ha hb).1

/-- two unit quaternions that differ by a factor and both have a non-negative scalar part are equal, unless the scalar part is zero. -/
theorem eq_of_smul {a b : Quat} {c : ℝ} (h : a = Quat.smul c b) (hc : c = 1 ∨ c = -1) (ha : 0 ≤ a.w) (hb : 0 < b.w) : a = b := by
  rcases hc with rfl | rfl
  · rw [h]; simp [Quat.smul]
  · rw [h] at ha
    simp only [Quat.smul] at ha
    linarith

/-! ## the orientation residual -/

/-- a change of one state: orientation, gyroscope bias, velocity, accelerometer bias, position. -/
structure Dir where
  th : V3
  bg : V3
  v : V3
  ba : V3
  p : V3

/-- a state moved by `e` along a change: the orientation by the manifold, the rest by addition. -/
noncomputable def Spec.movedNav (x : Nav) (d : Dir) (e : ℝ) : Nav :=
  ⟨plus x.q (e • d.th), x.bg + e • d.bg, x.v + e • d.v, x.ba + e • d.ba, x.p + e • d.p⟩

theorem plus_smul {q : Quat} (hq : IsUnitQ q) (d : V3) :
    ∀ᶠ e in nhds (0:ℝ), ∃ c : ℝ, (c = 1 ∨ c = -1) ∧ plus q (e • d) = Quat.smul c (quatMulRaw (half (e • d)) q) := by
  filter_upwards [plus_ev q d] with e he
  refine ⟨_, sgn_cases (quatMulRaw (half (e • d)) q), ?_⟩
  rw [he, quatUpdate, ← half_eq_quatnorm, quatMul_smul (half_unit _) hq]

theorem pm_mul {c d : ℝ} (hc : c = 1 ∨ c = -1) (hd : d = 1 ∨ d = -1) : c * d = 1 ∨ c * d = -1 := by
  rcases hc with rfl | rfl <;> rcases hd with rfl | rfl <;> simp

theorem pm_sq {c : ℝ} (hc : c = 1 ∨ c = -1) : c * c = 1 := by rcases hc with rfl | rfl <;> simp

theorem unit_smul {c : ℝ} {q : Quat} (hc : c = 1 ∨ c = -1) (hq : IsUnitQ q) : IsUnitQ (Quat.smul c q) := by
  unfold IsUnitQ at *
  simp only [Quat.smul]
  have := pm_sq hc
  linear_combination c * c * hq + this

theorem qBias_eq (f : ImuF) (x : Nav) : f.qBias x = half (f.Jq.mulVec (x.bg - f.bgLin)) := rfl

/-- the product of the four quaternions of the orientation residual, without signs. -/
def chain (q2 q1 qb B : Quat) : Quat := quatMulRaw (quatMulRaw (quatMulRaw q2 (quatInv q1)) (quatInv qb)) B

theorem chain_unit {q2 q1 qb B : Quat} (h2 : IsUnitQ q2) (h1 : IsUnitQ q1) (hb : IsUnitQ qb) (hB : IsUnitQ B) : IsUnitQ (chain q2 q1 qb B) :=
  unit_mulRaw (unit_mulRaw (unit_mulRaw h2 (unit_inv h1)) (unit_inv hb)) hB

theorem chain_smul (c d : ℝ) (q2 q1 qb B : Quat) : chain (Quat.smul c q2) (Quat.smul d q1) qb B = Quat.smul (c * d) (chain q2 q1 qb B) := by
  simp only [chain, inv_smul, smul_mulRaw, mulRaw_smul, smul_smul_q, mul_comm d c]

theorem qMinus_smul {f : ImuF} {x y : Nav} (hx : IsUnitQ x.q) (hy : IsUnitQ y.q) (hb : IsUnitQ f.qb) :
    ∃ c : ℝ, (c = 1 ∨ c = -1) ∧ f.qMinus x y = Quat.smul c (quatMulRaw (quatMulRaw y.q (quatInv x.q)) (quatInv f.qb)) := by
  refine ⟨_, pm_mul (sgn_cases (quatMulRaw (q12 x y) (quatInv f.qb))) (sgn_cases (quatMulRaw y.q (quatInv x.q))), ?_⟩
  have h := quatMul_smul hy (unit_inv hx)
  have h2 : f.qMinus x y = Quat.smul (sgn (quatMulRaw (q12 x y) (quatInv f.qb))) (quatMulRaw (q12 x y) (quatInv f.qb)) :=
    quatMul_smul (unit_mul hy (unit_inv hx)) (unit_inv hb)
  have h3 : quatMulRaw (q12 x y) (quatInv f.qb) = Quat.smul (sgn (quatMulRaw y.q (quatInv x.q))) (quatMulRaw (quatMulRaw y.q (quatInv x.q)) (quatInv f.qb)) := by
    rw [q12, h, smul_mulRaw]
  rw [h2, ← smul_smul_q, ← h3]

theorem qPlus_smul {f : ImuF} {x y : Nav} (hx : IsUnitQ x.q) (hy : IsUnitQ y.q) (hb : IsUnitQ f.qb) :
    ∃ c : ℝ, (c = 1 ∨ c = -1) ∧ f.qPlus x y = Quat.smul c (chain y.q x.q f.qb (f.qBias x)) := by
  obtain ⟨c, hc, h⟩ := qMinus_smul hx hy hb
  have hu : IsUnitQ (f.qMinus x y) := unit_mul (unit_mul hy (unit_inv hx)) (unit_inv hb)
  refine ⟨_, pm_mul (sgn_cases (quatMulRaw (f.qMinus x y) (f.qBias x))) hc, ?_⟩
  have h2 : f.qPlus x y = Quat.smul (sgn (quatMulRaw (f.qMinus x y) (f.qBias x))) (quatMulRaw (f.qMinus x y) (f.qBias x)) :=
    quatMul_smul hu (half_unit _)
  have h3 : quatMulRaw (f.qMinus x y) (f.qBias x) = Quat.smul c (chain y.q x.q f.qb (f.qBias x)) := by
    rw [h, smul_mulRaw]; rfl
  rw [h2, ← smul_smul_q, ← h3]

theorem qPlus_canon {f : ImuF} {x y : Nav} (hx : IsUnitQ x.q) (hy : IsUnitQ y.q) (hb : IsUnitQ f.qb) : CanonQ (f.qPlus x y) := by
  obtain ⟨a, b, -⟩ := C23_quat_multiply (f.qMinus x y) (f.qBias x) (unit_mul (unit_mul hy (unit_inv hx)) (unit_inv hb)) (half_unit _)
  exact ⟨a, b⟩

/-- derivative of the orientation residual's quaternion while both orientations move and the bias quaternion follows a curve. -/
theorem qPlus_deriv (f : ImuF) (x y : Nav) (hx : IsUnitQ x.q) (hy : IsUnitQ y.q) (hb : IsUnitQ f.qb) (a b : Dir)
    (hw : (chain y.q x.q f.qb (f.qBias x)).w ≠ 0) {B' : Quat} (hB : HasDq (fun e => f.qBias (Spec.movedNav x a e)) B') :
    HasDq (fun e => f.qPlus (Spec.movedNav x a e) (Spec.movedNav y b e))
      (Quat.smul (sgn (chain y.q x.q f.qb (f.qBias x)))
        (qadd (chain (quatMulRaw ⟨b.th 0 / 2, b.th 1 / 2, b.th 2 / 2, 0⟩ y.q) x.q f.qb (f.qBias x))
          (qadd (chain y.q (quatMulRaw ⟨a.th 0 / 2, a.th 1 / 2, a.th 2 / 2, 0⟩ x.q) f.qb (f.qBias x)) (chain y.q x.q f.qb B')))) := by
  have lin : ∀ d : V3, HasDv (fun e : ℝ => e • d) d := fun d => by
    have := HasDv.line 0 d
    simpa using this
  have h1 := (HasDv.half (lin a.th) (by simp)).mul (HasDq.const x.q)
  have h2 := (HasDv.half (lin b.th) (by simp)).mul (HasDq.const y.q)
  have hT := (((h2.mul h1.inv).mul (HasDq.const (quatInv f.qb))).mul hB).smul (sgn (chain y.q x.q f.qb (f.qBias x)))
  have m0 : Spec.movedNav x a 0 = { x with q := plus x.q 0 } := by simp [Spec.movedNav]
  have b0 : f.qBias (Spec.movedNav x a 0) = f.qBias x := by rw [m0]; rfl
  have hz : quatMulRaw (half ((0:ℝ) • a.th)) x.q = x.q := by rw [zero_smul, half_zero]; simp [quatMulRaw]
  have hz2 : quatMulRaw (half ((0:ℝ) • b.th)) y.q = y.q := by rw [zero_smul, half_zero]; simp [quatMulRaw]
  have hT0 : (quatMulRaw (quatMulRaw (quatMulRaw (quatMulRaw (half ((0:ℝ) • b.th)) y.q) (quatInv (quatMulRaw (half ((0:ℝ) • a.th)) x.q))) (quatInv f.qb))
      (f.qBias (Spec.movedNav x a 0))) = chain y.q x.q f.qb (f.qBias x) := by
    rw [hz, hz2, b0]; rfl
  have hpos : 0 < (Quat.smul (sgn (chain y.q x.q f.qb (f.qBias x))) (quatMulRaw (quatMulRaw (quatMulRaw (quatMulRaw (half ((0:ℝ) • b.th)) y.q)
      (quatInv (quatMulRaw (half ((0:ℝ) • a.th)) x.q))) (quatInv f.qb)) (f.qBias (Spec.movedNav x a 0)))).w := by
    rw [hT0]
    simp only [Quat.smul, sgn]
    split_ifs with h
    · linarith
    · have := lt_of_le_of_ne (not_lt.1 h) (Ne.symm hw)
      linarith
  have hev := hT.w.continuousAt.eventually (lt_mem_nhds hpos)
  have hfin : HasDq (fun e => f.qPlus (Spec.movedNav x a e) (Spec.movedNav y b e)) _ := hT.congr_ev (by
    filter_upwards [hev, plus_smul hx a.th, plus_smul hy b.th] with e he hxe hye
    obtain ⟨c, hc, hxe⟩ := hxe
    obtain ⟨d, hd, hye⟩ := hye
    have ux : IsUnitQ (Spec.movedNav x a e).q := ((C99_plus x.q hx).1 _).1
    have uy : IsUnitQ (Spec.movedNav y b e).q := ((C99_plus y.q hy).1 _).1
    obtain ⟨g, hg, hp⟩ := qPlus_smul (f := f) ux uy hb
    have hcan := qPlus_canon (f := f) ux uy hb
    have e1 : (Spec.movedNav x a e).q = Quat.smul c (quatMulRaw (half (e • a.th)) x.q) := hxe
    have e2 : (Spec.movedNav y b e).q = Quat.smul d (quatMulRaw (half (e • b.th)) y.q) := hye
    rw [e1, e2, chain_smul, smul_smul_q] at hp
    refine eq_of_smul (c := g * (d * c) * sgn (chain y.q x.q f.qb (f.qBias x))) ?_ (pm_mul (pm_mul hg (pm_mul hd hc)) (sgn_cases _)) hcan.2 he
    rw [hp, smul_smul_q, mul_assoc (g * (d * c)), pm_sq (sgn_cases _), mul_one]
    rfl)
  have hz3 : quatMulRaw (half ((0:ℝ) • a.th)) ⟨0, 0, 0, 0⟩ = ⟨0, 0, 0, 0⟩ := by simp [quatMulRaw]
  have hz4 : quatMulRaw (half ((0:ℝ) • b.th)) ⟨0, 0, 0, 0⟩ = ⟨0, 0, 0, 0⟩ := by simp [quatMulRaw]
  simp only [hz, hz2, hz3, hz4, b0] at hfin
  have hfe : ∀ s : ℝ, Quat.smul s (qadd (quatMulRaw (qadd (quatMulRaw (qadd (quatMulRaw (qadd (quatMulRaw ⟨b.th 0 / 2, b.th 1 / 2, b.th 2 / 2, 0⟩ y.q) ⟨0, 0, 0, 0⟩)
      (quatInv x.q)) (quatMulRaw y.q (quatInv (qadd (quatMulRaw ⟨a.th 0 / 2, a.th 1 / 2, a.th 2 / 2, 0⟩ x.q) ⟨0, 0, 0, 0⟩)))) (quatInv f.qb))
      (quatMulRaw (quatMulRaw y.q (quatInv x.q)) ⟨0, 0, 0, 0⟩)) (f.qBias x)) (quatMulRaw (quatMulRaw (quatMulRaw y.q (quatInv x.q)) (quatInv f.qb)) B')) =
    Quat.smul s (qadd (chain (quatMulRaw ⟨b.th 0 / 2, b.th 1 / 2, b.th 2 / 2, 0⟩ y.q) x.q f.qb (f.qBias x))
          (qadd (chain y.q (quatMulRaw ⟨a.th 0 / 2, a.th 1 / 2, a.th 2 / 2, 0⟩ x.q) f.qb (f.qBias x)) (chain y.q x.q f.qb B'))) := by
    intro s
    generalize f.qBias x = B
    generalize quatMulRaw ⟨b.th 0 / 2, b.th 1 / 2, b.th 2 / 2, 0⟩ y.q = Y
    generalize quatMulRaw ⟨a.th 0 / 2, a.th 1 / 2, a.th 2 / 2, 0⟩ x.q = X
    have z0 : ∀ q, qadd q ⟨0, 0, 0, 0⟩ = q := fun q => by simp [qadd]
    have z1 : ∀ q, quatMulRaw q ⟨0, 0, 0, 0⟩ = ⟨0, 0, 0, 0⟩ := fun q => by simp [quatMulRaw]
    have z2 : ∀ p q r, quatMulRaw (qadd p q) r = qadd (quatMulRaw p r) (quatMulRaw q r) := fun p q r => by
      simp only [quatMulRaw, qadd]; ext <;> simp <;> ring
    have z3 : ∀ p q r, qadd (qadd p q) r = qadd p (qadd q r) := fun p q r => by simp only [qadd]; ext <;> simp <;> ring
    simp only [z0, z1, z2, z3, chain]
  rw [hfe] at hfin
  exact hfin

theorem qv0 (q : Quat) : q.vec 0 = q.x := rfl
theorem qv1 (q : Quat) : q.vec 1 = q.y := rfl
theorem qv2 (q : Quat) : q.vec 2 = q.z := rfl

/-! ## C101: the Jacobians -/

/-- the changes of both states as one vector, in the order of the parameter blocks. -/
def Spec.dirs (a b : Dir) : Fin 10 → V3
  | 0 => a.th | 1 => a.bg | 2 => a.v | 3 => a.ba | 4 => a.p | 5 => b.th | 6 => b.bg | 7 => b.v | 8 => b.ba | 9 => b.p

theorem blk_sum (f : ImuF) (x y : Nav) (D : Fin 10 → V3) (i : I5) :
    ((Matrix.of fun (i : I5) (j : I10) => imuBlk f x y i.1 j.1 i.2 j.2).mulVec (fun j : I10 => D j.1 j.2)) i =
      ∑ b : Fin 10, (imuBlk f x y i.1 b).mulVec (D b) i.2 := by
  simp only [Matrix.mulVec, dotProduct, Matrix.of_apply, Fintype.sum_prod_type]

theorem rot_vec_deriv {q : Quat} (hq : IsUnitQ q) (d : V3) {u : ℝ → V3} {u' : V3} (hu : HasDv u u') :
    HasDv (fun e => (quat2Rot (plus q (e • d))).mulVec (u e)) ((skew ((quat2Rot q).mulVec (u 0))).mulVec d + (quat2Rot q).mulVec u') := by
  obtain ⟨-, -, h, h0⟩ := C99_plus q hq
  have := (h d).mulVec hu
  simp only [zero_smul, h0] at this
  refine this.congr' ?_
  congr 1
  rw [← Matrix.mulVec_mulVec, Matrix.neg_mulVec]
  apply v3_ext <;> simp only [m3_mulVec_apply, Pi.neg_apply, skew00, skew01, skew02, skew10, skew11, skew12, skew20, skew21, skew22] <;> ring

/-- the orientation rows. -/
theorem imu_rot (f : ImuF) (x y : Nav) (hx : IsUnitQ x.q) (hy : IsUnitQ y.q) (hb : IsUnitQ f.qb) (a b : Dir)
    (hpos : 0 < (quatMulRaw (q12 x y) (f.qMeas x)).w) (hbias : f.Jq.mulVec (x.bg - f.bgLin) = 0 ∨ f.Jq.mulVec a.bg = 0) :
    HasDv (fun e => (2:ℝ) • (f.qPlus (Spec.movedNav x a e) (Spec.movedNav y b e)).vec)
      ((imuBlk f x y 0 0).mulVec a.th + (imuBlk f x y 0 1).mulVec a.bg + (imuBlk f x y 0 5).mulVec b.th) := by
  set A := quatMulRaw y.q (quatInv x.q) with hA
  set N := quatInv f.qb with hN
  set B := f.qBias x with hBd
  obtain ⟨c1, hc1, h1⟩ : ∃ c : ℝ, (c = 1 ∨ c = -1) ∧ q12 x y = Quat.smul c A := ⟨_, sgn_cases _, quatMul_smul hy (unit_inv hx)⟩
  obtain ⟨c2, hc2, h2⟩ : ∃ c : ℝ, (c = 1 ∨ c = -1) ∧ f.qMeas x = Quat.smul c (quatMulRaw N B) := ⟨_, sgn_cases _, quatMul_smul (unit_inv hb) (half_unit _)⟩
  obtain ⟨c3, hc3, h3⟩ := qPlus_smul (f := f) hx hy hb
  obtain ⟨c4, hc4, h4⟩ := qMinus_smul (f := f) hx hy hb
  have hT : chain y.q x.q f.qb B = quatMulRaw A (quatMulRaw N B) := by rw [← mulRaw_assoc]; rfl
  have hpe : quatMulRaw (q12 x y) (f.qMeas x) = Quat.smul (c1 * c2) (chain y.q x.q f.qb B) := by
    rw [h1, h2, hT, smul_mulRaw, mulRaw_smul, smul_smul_q]
  have hcan := qPlus_canon (f := f) hx hy hb
  have hw : (chain y.q x.q f.qb B).w ≠ 0 := by
    intro h
    rw [hpe] at hpos
    simp [Quat.smul, h] at hpos
  have hs : sgn (chain y.q x.q f.qb B) = c1 * c2 := by
    rw [hpe] at hpos
    simp only [Quat.smul] at hpos
    unfold sgn
    rcases pm_mul hc1 hc2 with h | h <;> rw [h] at hpos ⊢ <;> [rw [if_neg (by linarith)]; rw [if_pos (by linarith)]]
  have hp : f.qPlus x y = quatMulRaw (q12 x y) (f.qMeas x) := by
    refine eq_of_smul (c := c3 * (c1 * c2)) ?_ (pm_mul hc3 (pm_mul hc1 hc2)) hcan.2 hpos
    rw [h3, hpe, smul_smul_q, mul_assoc, pm_sq (pm_mul hc1 hc2), mul_one]
  -- the curve of the bias quaternion
  obtain ⟨B', hB', hcol⟩ : ∃ B', HasDq (fun e => f.qBias (Spec.movedNav x a e)) B' ∧
      (2:ℝ) • (Quat.smul (c1 * c2) (chain y.q x.q f.qb B')).vec = (imuBlk f x y 0 1).mulVec a.bg := by
    by_cases hz : f.Jq.mulVec a.bg = 0
    · refine ⟨⟨0, 0, 0, 0⟩, ?_, ?_⟩
      · refine (HasDq.const (f.qBias x)).congr_ev (Filter.Eventually.of_forall fun e => ?_)
        rw [qBias_eq, qBias_eq]
        congr 1
        simp only [Spec.movedNav]
        rw [add_sub_right_comm, Matrix.mulVec_add, Matrix.mulVec_smul, hz, smul_zero, add_zero]
      · simp only [imuBlk]
        rw [← Matrix.mulVec_mulVec, hz, Matrix.mulVec_zero]
        funext i
        fin_cases i <;> simp [chain, quatMulRaw, Quat.smul, Quat.vec]
    · have hz0 := hbias.resolve_right hz
      have hBid : B = ⟨0, 0, 0, 1⟩ := by rw [hBd, qBias_eq, hz0, half_zero]
      refine ⟨⟨f.Jq.mulVec a.bg 0 / 2, f.Jq.mulVec a.bg 1 / 2, f.Jq.mulVec a.bg 2 / 2, 0⟩, ?_, ?_⟩
      · have hl : HasDv (fun e : ℝ => f.Jq.mulVec ((Spec.movedNav x a e).bg - f.bgLin)) (f.Jq.mulVec a.bg) := by
          have := HasDv.line (0 : V3) (f.Jq.mulVec a.bg)
          refine HasDv.congr_fun this fun e => ?_
          simp only [Spec.movedNav]
          rw [add_sub_right_comm, Matrix.mulVec_add, Matrix.mulVec_smul, hz0]
        exact HasDv.half hl (by simpa [Spec.movedNav] using hz0)
      · have hAN : chain y.q x.q f.qb B = quatMulRaw A N := by
          rw [hT, hBid]
          congr 1
          simp [quatMulRaw]
        have hcm : CanonQ (f.qMinus x y) := by
          obtain ⟨u, v, -⟩ := C23_quat_multiply (q12 x y) N (unit_mul hy (unit_inv hx)) (unit_inv hb)
          exact ⟨u, v⟩
        have hr : f.qMinus x y = Quat.smul (c1 * c2) (quatMulRaw A N) := by
          refine eq_of_smul (c := c4 * (c1 * c2)) ?_ (pm_mul hc4 (pm_mul hc1 hc2)) hcm.2 ?_
          · rw [h4, smul_smul_q, mul_assoc, pm_sq (pm_mul hc1 hc2), mul_one]
          · rw [← hAN, ← hpe]; exact hpos
        have e1 : Quat.smul (c1 * c2) (chain y.q x.q f.qb ⟨f.Jq.mulVec a.bg 0 / 2, f.Jq.mulVec a.bg 1 / 2, f.Jq.mulVec a.bg 2 / 2, 0⟩) =
            quatMulRaw (f.qMinus x y) ⟨f.Jq.mulVec a.bg 0 / 2, f.Jq.mulVec a.bg 1 / 2, f.Jq.mulVec a.bg 2 / 2, 0⟩ := by
          rw [hr, smul_mulRaw]; rfl
        rw [e1]
        simp only [imuBlk]
        rw [← Matrix.mulVec_mulVec]
        generalize f.Jq.mulVec a.bg = d
        generalize f.qMinus x y = r
        apply v3_ext <;> simp only [m3_mulVec_apply, Matrix.sub_apply, Matrix.smul_apply, smul_eq_mul, skew00, skew01, skew02, skew10, skew11, skew12,
          skew20, skew21, skew22, one00, one01, one02, one10, one11, one12, one20, one21, one22, quatMulRaw, Pi.smul_apply, qv0, qv1, qv2] <;> ring
  have hD := (qPlus_deriv f x y hx hy hb a b hw hB').vec.smul 2
  refine hD.congr' ?_
  rw [hs, ← hcol]
  have e2 : Quat.smul (c1 * c2) (chain (quatMulRaw ⟨b.th 0 / 2, b.th 1 / 2, b.th 2 / 2, 0⟩ y.q) x.q f.qb B) =
      quatMulRaw ⟨b.th 0 / 2, b.th 1 / 2, b.th 2 / 2, 0⟩ (f.qPlus x y) := by
    rw [hp, hpe, mulRaw_smul]
    simp only [chain, mulRaw_assoc]
  have e3 : Quat.smul (c1 * c2) (chain y.q (quatMulRaw ⟨a.th 0 / 2, a.th 1 / 2, a.th 2 / 2, 0⟩ x.q) f.qb B) =
      quatMulRaw (quatMulRaw (q12 x y) ⟨-(a.th 0 / 2), -(a.th 1 / 2), -(a.th 2 / 2), 0⟩) (f.qMeas x) := by
    rw [h1, h2, smul_mulRaw, smul_mulRaw, mulRaw_smul, smul_smul_q]
    simp only [chain, inv_mulRaw, mulRaw_assoc, hA, hN]
    rfl
  have hadd : ∀ (s : ℝ) (p q r : Quat), (Quat.smul s (qadd p (qadd q r))).vec = (Quat.smul s p).vec + (Quat.smul s q).vec + (Quat.smul s r).vec := by
    intro s p q r
    apply v3_ext <;> simp only [qv0, qv1, qv2, Quat.smul, qadd, Pi.add_apply] <;> ring
  rw [hadd, e2, e3, smul_add, smul_add]
  generalize (2:ℝ) • (Quat.smul (c1 * c2) (chain y.q x.q f.qb B')).vec = Z
  simp only [imuBlk]
  generalize f.qPlus x y = P
  generalize q12 x y = Q
  generalize f.qMeas x = M
  have s1 : (2:ℝ) • (quatMulRaw ⟨b.th 0 / 2, b.th 1 / 2, b.th 2 / 2, 0⟩ P).vec = (P.w • (1 : M3) + skew P.vec).mulVec b.th := by
    apply v3_ext <;> simp only [m3_mulVec_apply, Matrix.add_apply, Matrix.smul_apply, smul_eq_mul, skew00, skew01, skew02, skew10, skew11, skew12,
          skew20, skew21, skew22, one00, one01, one02, one10, one11, one12, one20, one21, one22, quatMulRaw, Pi.smul_apply, qv0, qv1, qv2] <;> ring
  have s2 : (2:ℝ) • (quatMulRaw (quatMulRaw Q ⟨-(a.th 0 / 2), -(a.th 1 / 2), -(a.th 2 / 2), 0⟩) M).vec =
      (-((Q.w • (1 : M3) - skew Q.vec) * (M.w • (1 : M3) + skew M.vec) - outer Q.vec M.vec)).mulVec a.th := by
    apply v3_ext <;> simp only [m3_mulVec_apply, m3_mul_apply, outer, Matrix.of_apply, Matrix.neg_apply, Matrix.sub_apply, Matrix.add_apply, Matrix.smul_apply, smul_eq_mul, skew00, skew01, skew02, skew10, skew11, skew12,
          skew20, skew21, skew22, one00, one01, one02, one10, one11, one12, one20, one21, one22, quatMulRaw, Pi.smul_apply, qv0, qv1, qv2] <;> ring
  rw [s1, s2]
  abel

/-- **C101** (partial) The Jacobian blocks the preintegration factor returns are the derivatives of its residual with respect to every one of its ten
parameter blocks (orientations in the increments of the manifold), at any two states with the residual rotation formed without a sign change, and in the
directions of the gyroscope bias only where the bias is at the linearisation point. Both conditions are needed: `C101_sign_defect`,
`C101_bias_jacobian_defect`. -/
theorem C101_jacobian_partial (f : ImuF) (x y : Nav) (hx : IsUnitQ x.q) (hy : IsUnitQ y.q) (hb : IsUnitQ f.qb) (a b : Dir)
    (hpos : 0 < (quatMulRaw (q12 x y) (f.qMeas x)).w) (hbias : f.Jq.mulVec (x.bg - f.bgLin) = 0 ∨ f.Jq.mulVec a.bg = 0) (i : I5) :
    HasDerivAt (fun e => imuRes f (Spec.movedNav x a e) (Spec.movedNav y b e) i)
      ((imuJac f x y).mulVec (fun j : I10 => Spec.dirs a b j.1 j.2) i) 0 := by
  have key : ∀ i : I5, HasDerivAt (fun e => imuErr f (Spec.movedNav x a e) (Spec.movedNav y b e) i)
      (∑ k : Fin 10, (imuBlk f x y i.1 k).mulVec (Spec.dirs a b k) i.2) 0 := by
    rintro ⟨r, c⟩
    have ten : ∀ g : Fin 10 → ℝ, ∑ k, g k = g 0 + g 1 + g 2 + g 3 + g 4 + g 5 + g 6 + g 7 + g 8 + g 9 := by
      intro g
      rw [Fin.sum_univ_castSucc, Fin.sum_univ_castSucc, Fin.sum_univ_eight]; rfl
    have lin : ∀ u d : V3, HasDv (fun e : ℝ => u + e • d) d := HasDv.line
    have hdv : HasDv (fun e => f.dv (Spec.movedNav x a e) (Spec.movedNav y b e)) (b.v - a.v) :=
      (((lin y.v b.v).sub (lin x.v a.v)).add (HasDv.const (f.dt • f.grav))).congr' (by simp)
    have hdp : HasDv (fun e => f.dp (Spec.movedNav x a e) (Spec.movedNav y b e)) (b.p - a.p - f.dt • a.v) :=
      ((((lin y.p b.p).sub (lin x.p a.p)).sub ((lin x.v a.v).smul f.dt)).add (HasDv.const ((0.5 * f.dt ^ 2) • f.grav))).congr' (by simp)
    have dv0 : f.dv (Spec.movedNav x a 0) (Spec.movedNav y b 0) = f.dv x y := by simp [ImuF.dv, Spec.movedNav]
    have dp0 : f.dp (Spec.movedNav x a 0) (Spec.movedNav y b 0) = f.dp x y := by simp [ImuF.dp, Spec.movedNav]
    have hw : HasDv (fun e : ℝ => (Spec.movedNav x a e).bg - f.bgLin) a.bg := ((lin x.bg a.bg).sub (HasDv.const f.bgLin)).congr' (by simp)
    have ha : HasDv (fun e : ℝ => (Spec.movedNav x a e).ba - f.baLin) a.ba := ((lin x.ba a.ba).sub (HasDv.const f.baLin)).congr' (by simp)
    have hmc : ∀ (M : M3) {u : ℝ → V3} {u' : V3}, HasDv u u' → HasDv (fun e => M.mulVec (u e)) (M.mulVec u') := fun M u u' h =>
      ((HasDm.const M).mulVec h).congr' (by simp)
    fin_cases r
    · refine (imu_rot f x y hx hy hb a b hpos hbias c).congr_deriv ?_
      show _ = ∑ k : Fin 10, (imuBlk f x y 0 k).mulVec (Spec.dirs a b k) c
      rw [ten]
      simp only [imuBlk, Spec.dirs, Matrix.zero_mulVec, Pi.add_apply, Pi.zero_apply]; ring
    · refine (((lin y.bg b.bg).sub (lin x.bg a.bg)) c).congr_deriv ?_
      show _ = ∑ k : Fin 10, (imuBlk f x y 1 k).mulVec (Spec.dirs a b k) c
      rw [ten]
      simp only [imuBlk, Spec.dirs, Matrix.zero_mulVec, Matrix.neg_mulVec, Matrix.smul_mulVec, Matrix.one_mulVec, Matrix.mulVec_sub, Matrix.mulVec_smul, Pi.smul_apply, smul_eq_mul, Pi.add_apply, Pi.sub_apply, Pi.neg_apply, Pi.zero_apply]; ring
    · refine ((((rot_vec_deriv hx a.th hdv).sub (hmc f.Jb hw)).sub (hmc f.Hb ha)).sub (HasDv.const f.beta) c).congr_deriv ?_
      show _ = ∑ k : Fin 10, (imuBlk f x y 2 k).mulVec (Spec.dirs a b k) c
      rw [dv0, ten]
      simp only [imuBlk, Spec.dirs, Matrix.zero_mulVec, Matrix.neg_mulVec, Matrix.smul_mulVec, Matrix.one_mulVec, Matrix.mulVec_sub, Matrix.mulVec_smul, Pi.smul_apply, smul_eq_mul, Pi.add_apply, Pi.sub_apply, Pi.neg_apply, Pi.zero_apply]; ring
    · refine (((lin y.ba b.ba).sub (lin x.ba a.ba)) c).congr_deriv ?_
      show _ = ∑ k : Fin 10, (imuBlk f x y 3 k).mulVec (Spec.dirs a b k) c
      rw [ten]
      simp only [imuBlk, Spec.dirs, Matrix.zero_mulVec, Matrix.neg_mulVec, Matrix.smul_mulVec, Matrix.one_mulVec, Matrix.mulVec_sub, Matrix.mulVec_smul, Pi.smul_apply, smul_eq_mul, Pi.add_apply, Pi.sub_apply, Pi.neg_apply, Pi.zero_apply]; ring
    · refine ((((rot_vec_deriv hx a.th hdp).sub (hmc f.Ja hw)).sub (hmc f.Ha ha)).sub (HasDv.const f.alpha) c).congr_deriv ?_
      show _ = ∑ k : Fin 10, (imuBlk f x y 4 k).mulVec (Spec.dirs a b k) c
      rw [dp0, ten]
      simp only [imuBlk, Spec.dirs, Matrix.zero_mulVec, Matrix.neg_mulVec, Matrix.smul_mulVec, Matrix.one_mulVec, Matrix.mulVec_sub, Matrix.mulVec_smul, Pi.smul_apply, smul_eq_mul, Pi.add_apply, Pi.sub_apply, Pi.neg_apply, Pi.zero_apply]; ring
  have := HasDerivAt.fun_sum (u := Finset.univ) fun (k : I5) _ => (key k).const_mul (f.sqrtI i k)
  refine this.congr_deriv ?_
  rw [imuJac, ← Matrix.mulVec_mulVec]
  simp only [← blk_sum]
  rfl

/-- Non-vacuity: a turn of 2·atan(3/4) rad between the states that the preintegration has measured as well, at the linearisation biases, every weight kept. -/
example : ∃ (f : ImuF) (x y : Nav), IsUnitQ x.q ∧ IsUnitQ y.q ∧ IsUnitQ f.qb ∧ 0 < (quatMulRaw (q12 x y) (f.qMeas x)).w ∧
    f.Jq.mulVec (x.bg - f.bgLin) = 0 ∧ f.Jq ≠ 0 ∧ (f.qb.z ≠ 0) ∧ imuErr f x y = 0 := by
  have hid : IsUnitQ ⟨0, 0, 0, 1⟩ := by simp [IsUnitQ]
  have hq : IsUnitQ ⟨0, 0, 3 / 5, 4 / 5⟩ := by simp [IsUnitQ]; norm_num
  have h1 : quatMul ⟨0, 0, 3 / 5, 4 / 5⟩ (quatInv ⟨0, 0, 0, 1⟩) = ⟨0, 0, 3 / 5, 4 / 5⟩ := by
    rw [quatMul_smul hq (unit_inv hid)]
    simp [quatMulRaw, quatInv, Quat.smul, sgn]; norm_num
  have h2 : quatMul (quatInv ⟨0, 0, 3 / 5, 4 / 5⟩) (half 0) = ⟨0, 0, -(3 / 5), 4 / 5⟩ := by
    rw [quatMul_smul (unit_inv hq) (half_unit _), half_zero]
    simp [quatMulRaw, quatInv, Quat.smul, sgn]; norm_num
  have h3 : quatMul ⟨0, 0, 3 / 5, 4 / 5⟩ (quatInv ⟨0, 0, 3 / 5, 4 / 5⟩) = ⟨0, 0, 0, 1⟩ := (C23_quat_inverse _ hq).2.2.1
  have h4 : quatMul ⟨0, 0, 0, 1⟩ (half 0) = ⟨0, 0, 0, 1⟩ := by
    rw [half_zero, quatMul_smul hid hid]
    simp [quatMulRaw, Quat.smul, sgn]
  refine ⟨⟨0, 0, ⟨0, 0, 3 / 5, 4 / 5⟩, 0, 0, 0, 0, 1, 0, 0, 0, 0, 1⟩, ⟨⟨0, 0, 0, 1⟩, 0, 0, 0, 0⟩, ⟨⟨0, 0, 3 / 5, 4 / 5⟩, 0, 0, 0, 0⟩, hid, hq, hq, ?_, ?_, ?_, ?_, ?_⟩
  · simp only [q12, ImuF.qMeas, qBias_eq, sub_zero, Matrix.mulVec_zero, h1, h2]
    simp [quatMulRaw]; norm_num
  · simp
  · exact one_ne_zero
  · norm_num
  · funext ⟨r, c⟩
    simp only [imuErr, ImuF.qPlus, ImuF.qMinus, q12, qBias_eq, sub_zero, Matrix.mulVec_zero, h1, h3, h4, ImuF.dv, ImuF.dp]
    fin_cases r <;> fin_cases c <;> simp [stack5, Quat.vec]

end Verif.Mle
