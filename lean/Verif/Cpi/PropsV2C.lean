import Verif.Cpi.PropsV2B
import Verif.Cpi.PropsCov4

/-!
# C127: covariance and Runge-Kutta Jacobians of preintegration with constant local acceleration, to fifth order
-/

set_option autoImplicit false
set_option linter.unusedSimpArgs false
set_option linter.unusedVariables false

open Classical

namespace Verif.Cpi

open Verif Verif.Prop_ Topology Filter Asymptotics ContDiff
open scoped Matrix.Norms.Elementwise

namespace Spec

/-- the linear dynamics of the errors in an interval in which the local acceleration `f - R₀ g` is constant, `R₀` being the orientation at the start of the interval and `g` gravity in the frame of the first time.  The errors are those of the
orientation, the gyroscope bias, the velocity, the accelerometer bias and the position, of the orientation at the start of the interval and of that at the first time; the noises those of the gyroscope, its bias, the accelerometer and its bias.
An error of size `e` in the direction `x` and a noise `e n` turn the orientation into `(1 - e⌊θ⌋) R`, that at the start likewise, gravity into `(1 - e⌊θ₀⌋) g`, the angular velocity into `w - e (b_w + n_w)` and the force into
`f - e (b_a + n_a)`; the rates of the errors are the first-order changes of the rates of the kinematics `Ṙ = -⌊w⌋ R`, `v̇ = Rᵀ (f - R₀ g)`, `ṗ = v`. -/
def LocalDynamics (w f g : V3) (R0 R : M3) (F : M21) (G : Matrix (Fin 21) (Fin 12) ℝ) : Prop :=
  ∀ (x : Fin 21 → ℝ) (n : Fin 12 → ℝ),
    let d := F.mulVec x + G.mulVec n
    let Re : ℝ → M3 := fun e => (1 - e • skew (seg3 x 0 (by omega))) * R
    let R0e : ℝ → M3 := fun e => (1 - e • skew (seg3 x 15 (by omega))) * R0
    let ge : ℝ → V3 := fun e => (1 - e • skew (seg3 x 18 (by omega))).mulVec g
    let we : ℝ → V3 := fun e => w - e • (seg3 x 3 (by omega) + seg3 n 0 (by omega))
    let fe : ℝ → V3 := fun e => f - e • (seg3 x 9 (by omega) + seg3 n 6 (by omega))
    HasDm (fun e => (-skew (we e) * Re e) * R.transpose + Re e * (-skew w * R).transpose) (-skew (seg3 d 0 (by omega))) ∧
    seg3 d 3 (by omega) = seg3 n 3 (by omega) ∧
    HasDv (fun e => (Re e).transpose.mulVec (fe e - (R0e e).mulVec (ge e))) (seg3 d 6 (by omega)) ∧
    seg3 d 9 (by omega) = seg3 n 9 (by omega) ∧
    seg3 d 12 (by omega) = seg3 x 6 (by omega) ∧
    seg3 d 15 (by omega) = 0 ∧ seg3 d 18 (by omega) = 0

/-- around the time `0`, `P` is a covariance of the errors, with the constant rate `w`, the constant force `f` and the orientation `R`, `R 0` at the start: it solves the Lyapunov equation of the linear error dynamics, with the noise densities -/
def LocalCov (k : Conf) (w f g : V3) (R : ℝ → M3) (P : ℝ → M21) : Prop :=
  ∀ᶠ t in 𝓝 (0 : ℝ), ∃ F G, LocalDynamics w f g (R 0) (R t) F G ∧
    ∀ i j, HasDerivAt (fun s => P s i j) ((F * P t + P t * F.transpose + G * densities k * G.transpose) i j) t

/-- around the time `0`, the errors `x` follow the linear error dynamics without noise -/
def LocalErr (w f g : V3) (R : ℝ → M3) (x : ℝ → Fin 21 → ℝ) : Prop :=
  ∀ᶠ t in 𝓝 (0 : ℝ), ∃ F G, LocalDynamics w f g (R 0) (R t) F G ∧ ∀ i, HasDerivAt (fun s => x s i) (F.mulVec (x t) i) t

/-- the covariance of all errors at the start of an interval: the error of the orientation at the start is that of the orientation, the orientation at the first time has no error -/
def withStart (P : M15) : M21 := fun i j =>
  let at_ : Fin 21 → Option (Fin 15) := fun i => if h : i.1 < 15 then some ⟨i.1, h⟩ else if h : i.1 < 18 then some ⟨i.1 - 15, by omega⟩ else none
  match at_ i, at_ j with
  | some a, some b => P a b
  | _, _ => 0

/-- the errors at the start of an interval that moving the gyroscope's bias by `dw`, the accelerometer's by `da` and the orientation at the first time by `dq` causes, according to the Jacobians of the preintegration -/
noncomputable def caused (s : Res2) (dw da dq : V3) : Fin 21 → ℝ := fun i =>
  if h : i.1 < 3 then -(s.Jq.mulVec dw) ⟨i.1, h⟩
  else if h : i.1 < 6 then dw ⟨i.1 - 3, by omega⟩
  else if h : i.1 < 9 then (s.Jb.mulVec dw + s.Hb.mulVec da + s.Ob.mulVec dq) ⟨i.1 - 6, by omega⟩
  else if h : i.1 < 12 then da ⟨i.1 - 9, by omega⟩
  else if h : i.1 < 15 then (s.Ja.mulVec dw + s.Ha.mulVec da + s.Oa.mulVec dq) ⟨i.1 - 12, by omega⟩
  else if h : i.1 < 18 then -(s.Jq.mulVec dw) ⟨i.1 - 15, by omega⟩
  else dq ⟨i.1 - 18, by omega⟩

end Spec

/-! ## the code's matrices are the linear dynamics -/

theorem Fk2_dead (w a g : V3) (Rt R : M3) (x : Fin 21 → ℝ) {i : Fin 21} (h : (3 ≤ i.1 ∧ i.1 < 6) ∨ (9 ≤ i.1 ∧ i.1 < 12) ∨ 15 ≤ i.1) : (Fk2 w a g Rt R).mulVec x i = 0 := by
  simp [Matrix.mulVec, dotProduct, Fk2_row w a g Rt R h]

theorem seg_Gk2 (R : M3) (n : Fin 12 → ℝ) :
    let d := (Gk2 R).mulVec n
    Spec.seg3 d 0 (by omega) = -Spec.seg3 n 0 (by omega) ∧ Spec.seg3 d 3 (by omega) = Spec.seg3 n 3 (by omega) ∧
    Spec.seg3 d 6 (by omega) = -(R.transpose.mulVec (Spec.seg3 n 6 (by omega))) ∧ Spec.seg3 d 9 (by omega) = Spec.seg3 n 9 (by omega) ∧
    Spec.seg3 d 12 (by omega) = 0 ∧ Spec.seg3 d 15 (by omega) = 0 ∧ Spec.seg3 d 18 (by omega) = 0 := by
  intro d
  refine ⟨?_, ?_, ?_, ?_, ?_, ?_, ?_⟩ <;>
    · apply v3_ext <;>
      · simp [d, Spec.seg3, Gk2, setB, Matrix.mulVec, dotProduct, Fin.sum_univ_succ]
        try simp [Matrix.one_apply, Fin.ext_iff]
        try ring

theorem hasDm_turn (u : V3) (R : M3) : HasDm (fun e : ℝ => (1 - e • skew u) * R) (-skew u * R) := by
  intro i j
  have := ((hasDerivAt_id (0 : ℝ)).mul_const ((skew u * R) i j)).const_sub (R i j)
  refine (this.congr_of_eventuallyEq (Filter.Eventually.of_forall fun e => ?_)).congr_deriv ?_
  · simp [Matrix.sub_mul]
  · simp

theorem seg_add {n : ℕ} (x y : Fin n → ℝ) (c : ℕ) (h : c + 3 ≤ n) : Spec.seg3 (x + y) c h = Spec.seg3 x c h + Spec.seg3 y c h := rfl

theorem Fk2_dynamics (w f g : V3) {R0 R : M3} (hR : IsRot R) : Spec.LocalDynamics w f g R0 R (Fk2 w (f - R0.mulVec g) g R0 R) (Gk2 R) := by
  intro x n d Re R0e ge we fe
  obtain ⟨a0, a6, a12⟩ := seg_Fk2 w (f - R0.mulVec g) g R0 R x
  obtain ⟨b0, b3, b6, b9, b12, b15, b18⟩ := seg_Gk2 R n
  have dead : ∀ c (h : c + 3 ≤ 21), c = 3 ∨ c = 9 ∨ c = 15 ∨ c = 18 → Spec.seg3 ((Fk2 w (f - R0.mulVec g) g R0 R).mulVec x) c h = 0 := by
    intro c h hc
    funext l
    exact Fk2_dead _ _ _ _ _ x (by simp only; omega)
  have h1 : HasDm Re (-skew (Spec.seg3 x 0 (by omega)) * R) := hasDm_turn _ R
  have h15 : HasDm R0e (-skew (Spec.seg3 x 15 (by omega)) * R0) := hasDm_turn _ R0
  have h18 : HasDv ge ((-skew (Spec.seg3 x 18 (by omega))).mulVec g) :=
    (HasDv.line g ((-skew (Spec.seg3 x 18 (by omega))).mulVec g)).congr_fun fun e => by
      simp only [ge, Matrix.sub_mulVec, Matrix.one_mulVec, Matrix.smul_mulVec, Matrix.neg_mulVec]; module
  have h2 : HasDv we (-(Spec.seg3 x 3 (by omega) + Spec.seg3 n 0 (by omega))) :=
    (HasDv.line w (-(Spec.seg3 x 3 (by omega) + Spec.seg3 n 0 (by omega)))).congr_fun fun e => by simp only [we]; module
  have h4 : HasDv fe (-(Spec.seg3 x 9 (by omega) + Spec.seg3 n 6 (by omega))) :=
    (HasDv.line f (-(Spec.seg3 x 9 (by omega) + Spec.seg3 n 6 (by omega)))).congr_fun fun e => by simp only [fe]; module
  have r0 : Re 0 = R := by simp [Re]
  have r00 : R0e 0 = R0 := by simp [R0e]
  have g0 : ge 0 = g := by simp [ge]
  have w0 : we 0 = w := by simp [we]
  have f0 : fe 0 = f := by simp [fe]
  have hRR : R * R.transpose = 1 := hR.orth'
  have hRR' : ∀ A : M3, R * (R.transpose * A) = A := fun A => by rw [← Matrix.mul_assoc, hRR, Matrix.one_mul]
  refine ⟨?_, ?_, ?_, ?_, ?_, ?_, ?_⟩
  · refine (((h2.skew.neg.mul h1).mul (HasDm.const R.transpose)).add (h1.mul (HasDm.const (-skew w * R).transpose))).congr' ?_
    rw [r0, w0, seg_add, a0, b0]
    simp only [Matrix.mul_zero, add_zero, Matrix.transpose_mul, Matrix.transpose_neg, skew_transpose, neg_neg, Matrix.add_mul, Matrix.mul_assoc, hRR, hRR', Matrix.mul_one]
    apply m3_ext <;> simp only [m3_mul_apply, Matrix.add_apply, Matrix.neg_apply, skew00, skew01, skew02, skew10, skew11, skew12, skew20, skew21, skew22,
      Pi.add_apply, Pi.sub_apply, Pi.neg_apply, m3_mulVec_apply] <;> ring
  · rw [seg_add, dead 3 _ (by omega), b3, zero_add]
  · refine (h1.tr.mulVec (h4.sub (h15.mulVec h18))).congr' ?_
    rw [r0, f0, r00, g0, seg_add, a6, b6]
    generalize f - R0.mulVec g = A
    have e0 : ∀ u v : V3, (skew u).mulVec v = -(skew v).mulVec u := fun u v => (QuatProps.C25_skew_vee u v).2.1
    simp only [Matrix.transpose_mul, Matrix.transpose_neg, skew_transpose, neg_neg, ← Matrix.mulVec_mulVec, Matrix.neg_mulVec, Matrix.mulVec_neg, Matrix.mulVec_add, Matrix.mulVec_sub]
    rw [e0 (Spec.seg3 x 0 (by omega)), e0 (Spec.seg3 x 15 (by omega)), e0 (Spec.seg3 x 18 (by omega))]
    simp only [Matrix.mulVec_neg, Matrix.mulVec_sub, Matrix.mulVec_add, neg_neg]
    module
  · rw [seg_add, dead 9 _ (by omega), b9, zero_add]
  · rw [seg_add, a12, b12, add_zero]
  · rw [seg_add, dead 15 _ (by omega), b15, zero_add]
  · rw [seg_add, dead 18 _ (by omega), b18, zero_add]

theorem seg_ext21 {x y : Fin 21 → ℝ} (h : ∀ c (hc : c + 3 ≤ 21), c = 0 ∨ c = 3 ∨ c = 6 ∨ c = 9 ∨ c = 12 ∨ c = 15 ∨ c = 18 → Spec.seg3 x c hc = Spec.seg3 y c hc) : x = y := by
  funext i
  have := congrFun (h (3 * (i.1 / 3)) (by omega) (by omega)) ⟨i.1 % 3, by omega⟩
  simp only [Spec.seg3] at this
  convert this using 2 <;> exact Fin.ext (by simp only; omega)

/-- the linear error dynamics are determined by their description. -/
theorem local_unique {w f g : V3} {R0 R : M3} {F F' : M21} {G G' : Matrix (Fin 21) (Fin 12) ℝ} (h : Spec.LocalDynamics w f g R0 R F G) (h' : Spec.LocalDynamics w f g R0 R F' G') : F = F' ∧ G = G' := by
  have key : ∀ x n, F.mulVec x + G.mulVec n = F'.mulVec x + G'.mulVec n := by
    intro x n
    obtain ⟨a0, a3, a6, a9, a12, a15, a18⟩ := h x n
    obtain ⟨b0, b3, b6, b9, b12, b15, b18⟩ := h' x n
    refine seg_ext21 fun c hc hcs => ?_
    rcases hcs with rfl | rfl | rfl | rfl | rfl | rfl | rfl
    · exact skew_inj' (neg_injective (HasDm.unique a0 b0))
    · exact a3.trans b3.symm
    · funext i; exact (a6 i).unique (b6 i)
    · exact a9.trans b9.symm
    · exact a12.trans b12.symm
    · exact a15.trans b15.symm
    · exact a18.trans b18.symm
  constructor
  · ext i j
    have := congrFun (key (Pi.single j 1) 0) i
    simpa using this
  · ext i j
    have := congrFun (key 0 (Pi.single j 1)) i
    simpa using this

/-! ## smoothness -/

section
variable {X : Type*} [NormedAddCommGroup X] [NormedSpace ℝ X] {z : X}

theorem Fk2_smooth (w a g : V3) (R0 : M3) {R : X → M3} (hR : SmM R z) : SmM (fun s => Fk2 w a g R0 (R s)) z := by
  unfold Fk2
  exact SmM.setB _ _ (SmM.setB _ _ (SmM.setB _ _ (SmM.setB _ _ (SmM.setB _ _ (SmM.const _) (hR.tr.neg.mul (SmM.const _))) hR.tr.neg) (hR.tr.neg.mul (SmM.const _))) ((hR.tr.neg.mul (SmM.const _)).mul (SmM.const _))) (SmM.const _)

theorem Gk2_smooth {R : X → M3} (hR : SmM R z) : SmM (fun s => Gk2 (R s)) z := by
  unfold Gk2
  exact SmM.setB _ _ (SmM.setB _ _ (SmM.const _) hR.tr.neg) (SmM.const _)

theorem Pdot2_smooth (k : Conf) (w a g : V3) (R0 : M3) {R : X → M3} {P : X → M21} (hR : SmM R z) (hP : SmM P z) : SmM (fun s => Pdot2 k (Fk2 w a g R0 (R s)) (Gk2 (R s)) (P s)) z := by
  unfold Pdot2
  exact (((Fk2_smooth w a g R0 hR).mul hP).add (hP.mul (Fk2_smooth w a g R0 hR).tr)).add (((Gk2_smooth hR).mul (SmM.const _)).mul (Gk2_smooth hR).tr)

end

/-- the Lyapunov equation along the code's orientation -/
noncomputable def lyap2 (k : Conf) (w a g : V3) (R0 : M3) (t : ℝ) (P : M21) : M21 := Pdot2 k (Fk2 w a g R0 (relRot w t * R0)) (Gk2 (relRot w t * R0)) P

/-- the error equation along the code's orientation -/
noncomputable def err2 (w a g : V3) (R0 : M3) (t : ℝ) (x : Fin 21 → ℝ) : Fin 21 → ℝ := (Fk2 w a g R0 (relRot w t * R0)).mulVec x

theorem lyap2_analytic (k : Conf) (w a g : V3) (R0 : M3) (P0 : M21) : AnalyticAt ℝ (fun z : ℝ × M21 => lyap2 k w a g R0 z.1 z.2) (0, P0) := by
  refine ContDiffAt.analyticAt (contDiffAt_m fun i j => ?_)
  refine Pdot2_smooth k w a g R0 (R := fun z : ℝ × M21 => relRot w z.1 * R0) (P := fun z => z.2) ?_ ?_ i j
  · refine SmM.mul (fun i j => ?_) (SmM.const _)
    exact (relRot_smooth w 0 i j).comp (0, P0) contDiffAt_fst
  · intro i j
    have h1 : ContDiffAt ℝ ω (fun z : ℝ × M21 => z.2) (0, P0) := contDiffAt_snd
    exact (entry_smooth i j P0).comp (0, P0) h1

theorem err2_analytic (w a g : V3) (R0 : M3) (x0 : Fin 21 → ℝ) : AnalyticAt ℝ (fun z : ℝ × (Fin 21 → ℝ) => err2 w a g R0 z.1 z.2) (0, x0) := by
  refine ContDiffAt.analyticAt (contDiffAt_pi' fun i => ?_)
  have hF : SmM (fun z : ℝ × (Fin 21 → ℝ) => Fk2 w a g R0 (relRot w z.1 * R0)) (0, x0) := by
    refine Fk2_smooth w a g R0 (SmM.mul (fun i j => ?_) (SmM.const _))
    exact (relRot_smooth w 0 i j).comp (0, x0) contDiffAt_fst
  simp only [err2, Matrix.mulVec, dotProduct]
  refine ContDiffAt.sum fun j _ => (hF i j).mul ?_
  have h1 : ContDiffAt ℝ ω (fun z : ℝ × (Fin 21 → ℝ) => z.2) (0, x0) := contDiffAt_snd
  exact contDiffAt_pi.1 h1 j

/-! ## the code's steps are Runge-Kutta steps -/

theorem Pdot2_symm (k : Conf) (F : M21) (G : Matrix (Fin 21) (Fin 12) ℝ) {P : M21} (h : P.transpose = P) : (Pdot2 k F G P).transpose = Pdot2 k F G P := by
  have hq : (Qc k).transpose = Qc k := by rw [Qc_eq]; simp [Spec.densities]
  simp only [Pdot2, Matrix.transpose_add, Matrix.transpose_mul, Matrix.transpose_transpose, h, hq, Matrix.mul_assoc]
  abel

theorem relRot_at_zero (w : V3) : relRot w 0 = 1 := by unfold relRot; split_ifs <;> simp

theorem rk4_lyap2 (k : Conf) (w a g : V3) (R0 : M3) (dt : ℝ) (P0 : M21) :
    Rk.rk4t (lyap2 k w a g R0) P0 dt = P0 + (dt / 6) • stages k w a g R0 (relRot w (dt / 2) * R0) (relRot w dt * R0) dt P0 := by
  simp only [Rk.rk4t, lyap2, relRot_at_zero, Matrix.one_mul, stages]

theorem stages_symm (k : Conf) (w a g : V3) (R0 Rm R1 : M3) (dt : ℝ) {P0 : M21} (h : P0.transpose = P0) : (stages k w a g R0 Rm R1 dt P0).transpose = stages k w a g R0 Rm R1 dt P0 := by
  unfold stages
  extract_lets p1 p2 p3 p4
  have s1 : p1.transpose = p1 := Pdot2_symm k _ _ h
  have s2 : p2.transpose = p2 := Pdot2_symm k _ _ (by rw [Matrix.transpose_add, Matrix.transpose_smul, h, s1])
  have s3 : p3.transpose = p3 := Pdot2_symm k _ _ (by rw [Matrix.transpose_add, Matrix.transpose_smul, h, s2])
  have s4 : p4.transpose = p4 := Pdot2_symm k _ _ (by rw [Matrix.transpose_add, Matrix.transpose_smul, h, s3])
  simp only [Matrix.transpose_add, Matrix.transpose_smul, s1, s2, s3, s4]

theorem rk4_err2 (w a g : V3) (R0 : M3) (dt : ℝ) (x0 : Fin 21 → ℝ) :
    Rk.rk4t (err2 w a g R0) x0 dt = (phiStep w a g R0 (relRot w (dt / 2) * R0) (relRot w dt * R0) dt).mulVec x0 := by
  simp only [Rk.rk4t, err2, relRot_at_zero, Matrix.one_mul, phiStep, Matrix.add_mulVec, Matrix.smul_mulVec, ← Matrix.mulVec_mulVec, Matrix.one_mulVec]

/-! ## starts -/

theorem withStart_eq {P : M21} (h : CovInv P) {Q : M15} (hQ : ∀ i j, Q i j = P (Fin.castLE (by omega) i) (Fin.castLE (by omega) j)) : Spec.withStart Q = P := by
  have hc : ∀ i j, P i j = P i (src j) := fun i j => by
    have := congrFun (congrFun h.sym i) j
    rw [Matrix.transpose_apply] at this
    rw [← this, h.start j i, ← congrFun (congrFun h.sym i) (src j), Matrix.transpose_apply]
  have hl : ∀ (i j : Fin 21), 18 ≤ j.1 → P i j = 0 := fun i j hj => by rw [← congrFun (congrFun h.sym i) j, Matrix.transpose_apply, h.first j i hj]
  have hs : ∀ (i : Fin 21), ¬ 18 ≤ i.1 → ∃ a : Fin 15, src i = Fin.castLE (by omega) a ∧ (if h : i.1 < 15 then some (⟨i.1, h⟩ : Fin 15) else if h : i.1 < 18 then some ⟨i.1 - 15, by omega⟩ else none) = some a := by
    intro i hi
    by_cases h1 : i.1 < 15
    · exact ⟨⟨i.1, h1⟩, by rw [src_eq (by omega)]; rfl, by rw [dif_pos h1]⟩
    · refine ⟨⟨i.1 - 15, by omega⟩, ?_, by rw [dif_neg h1, dif_pos (by omega)]⟩
      unfold src
      rw [if_pos ⟨by omega, by omega⟩]; rfl
  ext i j
  unfold Spec.withStart
  by_cases hi : 18 ≤ i.1
  · rw [h.first i j hi]
    simp only [dif_neg (show ¬ i.1 < 15 by omega), dif_neg (show ¬ i.1 < 18 by omega)]
  by_cases hj : 18 ≤ j.1
  · rw [hl i j hj]
    obtain ⟨a, ha, ha'⟩ := hs i hi
    simp only [dif_neg (show ¬ j.1 < 15 by omega), dif_neg (show ¬ j.1 < 18 by omega), ha']
  rw [h.start i j, hc (src i) j]
  obtain ⟨a, ha, ha'⟩ := hs i hi
  obtain ⟨b, hb, hb'⟩ := hs j hj
  rw [ha, hb, ← hQ]
  simp only [ha', hb']

/-- the moved biases and orientation at the first time, as errors at the first time -/
noncomputable def moved0 (dw da dq : V3) : Fin 21 → ℝ := fun i =>
  if h : 3 ≤ i.1 ∧ i.1 < 6 then dw ⟨i.1 - 3, by omega⟩ else if h : 9 ≤ i.1 ∧ i.1 < 12 then da ⟨i.1 - 9, by omega⟩ else if h : 18 ≤ i.1 then dq ⟨i.1 - 18, by omega⟩ else 0

theorem seg_moved (D : M21) (dw da dq : V3) (r : ℕ) (hr : r + 3 ≤ 21) :
    Spec.seg3 (D.mulVec (moved0 dw da dq)) r hr = (getB D r 3 hr (by omega)).mulVec dw + (getB D r 9 hr (by omega)).mulVec da + (getB D r 18 hr (by omega)).mulVec dq := by
  funext i
  simp [Spec.seg3, moved0, getB, Matrix.mulVec, dotProduct, Fin.sum_univ_succ]
  ring

theorem caused_eq {s : Res2} (hD : DiscInv s.Disc) (hB : Blocks s) (dw da dq : V3) : Spec.caused s dw da dq = s.Disc.mulVec (moved0 dw da dq) := by
  have fix : ∀ (r c : ℕ) (hr : r + 3 ≤ 21) (hc : c + 3 ≤ 21), r = 3 ∨ r = 9 ∨ r = 18 → getB s.Disc r c hr hc = getB 1 r c hr hc := by
    intro r c hr hc h
    ext i j
    exact hD.fixed _ _ (by simp only; omega)
  have clone : ∀ (c : ℕ) (hc : c + 3 ≤ 21), 3 ≤ c → c + 3 ≤ 15 ∨ 18 ≤ c → getB s.Disc 15 c (by omega) hc = getB s.Disc 0 c (by omega) hc := by
    intro c hc h3 h15
    ext i j
    have := hD.start ⟨15 + i.1, by omega⟩ ⟨c + j.1, by omega⟩ (by simp only; omega)
    refine this.trans ?_
    unfold getB src
    rw [if_pos (by simp only; omega)]
    simp
  have turn : ∀ (c : ℕ) (hc : c + 3 ≤ 21), c = 9 ∨ c = 18 → getB s.Disc 0 c (by omega) hc = 0 := by
    intro c hc h
    ext i j
    exact hD.turn _ _ (by simp only; omega) (by simp only; omega)
  have one : ∀ (r : ℕ) (hr : r + 3 ≤ 21), getB (1 : M21) r r hr hr = 1 := by
    intro r hr
    ext i j
    unfold getB
    simp [Matrix.one_apply, Fin.ext_iff]
  refine seg_ext21 fun c hc hcs => ?_
  rw [seg_moved]
  rcases hcs with rfl | rfl | rfl | rfl | rfl | rfl | rfl
  · rw [turn 9 _ (by omega), turn 18 _ (by omega)]
    simp only [Matrix.zero_mulVec, add_zero]
    funext l; fin_cases l <;> simp [Spec.seg3, Spec.caused, hB.q, Matrix.neg_mulVec]
  · rw [fix 3 3 _ _ (by omega), fix 3 9 _ _ (by omega), fix 3 18 _ _ (by omega), one, getB_one _ _ (by omega), getB_one _ _ (by omega)]
    simp only [Matrix.zero_mulVec, add_zero, Matrix.one_mulVec]
    funext l; fin_cases l <;> simp [Spec.seg3, Spec.caused]
  · rw [← hB.jb, ← hB.hb, ← hB.ob]
    funext l; fin_cases l <;> simp [Spec.seg3, Spec.caused]
  · rw [fix 9 3 _ _ (by omega), fix 9 9 _ _ (by omega), fix 9 18 _ _ (by omega), one, getB_one _ _ (by omega), getB_one _ _ (by omega)]
    simp only [Matrix.zero_mulVec, add_zero, zero_add, Matrix.one_mulVec]
    funext l; fin_cases l <;> simp [Spec.seg3, Spec.caused]
  · rw [← hB.ja, ← hB.ha, ← hB.oa]
    funext l; fin_cases l <;> simp [Spec.seg3, Spec.caused]
  · rw [clone 3 _ (by omega) (by omega), clone 9 _ (by omega) (by omega), clone 18 _ (by omega) (by omega), turn 9 _ (by omega), turn 18 _ (by omega)]
    simp only [Matrix.zero_mulVec, add_zero]
    funext l; fin_cases l <;> simp [Spec.seg3, Spec.caused, hB.q, Matrix.neg_mulVec]
  · rw [fix 18 3 _ _ (by omega), fix 18 9 _ _ (by omega), fix 18 18 _ _ (by omega), one, getB_one _ _ (by omega), getB_one _ _ (by omega)]
    simp only [Matrix.zero_mulVec, add_zero, zero_add, Matrix.one_mulVec]
    funext l; fin_cases l <;> simp [Spec.seg3, Spec.caused]

/-! ## C127 -/

theorem localAcc_start {k : Conf2} (havg : k.avg = false) (R0 R1 : M3) (x : Seg) : localAcc k.toConf (Spec.gK k) R0 R1 x = Spec.force k.toConf x - R0.mulVec (Spec.gK k) := by
  simp only [localAcc, Spec.force, havg]
  simp

/-- **C127 (covariance, partial).** Without averaging, after any sequence of intervals whose corrected rates are zero or at least the threshold and for a next interval of length `dt` of that kind, the covariance of the preintegrated measurement
differs by `O(dt⁵)` from the solution of the Lyapunov equation of the linear dynamics of its errors over an interval of constant local acceleration, started at the covariance at the start of the interval. Missing: averaging (where the
orientation at the end, too, enters the local acceleration, which the code's dynamics leave out), and smaller rates. -/
theorem C127_covariance_order_partial (k : Conf2) (havg : k.avg = false) (xs : List Seg) (h : ∀ x ∈ xs, Spec.rate k.toConf x = 0 ∨ thr ≤ norm3 (Spec.rate k.toConf x)) (t0 : ℝ) (w0 a0 w1 a1 : V3)
    (hx : Spec.rate k.toConf ⟨t0, t0, w0, a0, w1, a1⟩ = 0 ∨ thr ≤ norm3 (Spec.rate k.toConf ⟨t0, t0, w0, a0, w1, a1⟩)) (R : ℝ → M3) (P : ℝ → M21)
    (hR : Spec.Turns (Spec.rate k.toConf ⟨t0, t0, w0, a0, w1, a1⟩) R) (hR0 : R 0 = (run2 k xs).R)
    (hP : Spec.LocalCov k.toConf (Spec.rate k.toConf ⟨t0, t0, w0, a0, w1, a1⟩) (Spec.force k.toConf ⟨t0, t0, w0, a0, w1, a1⟩) (Spec.gK k) R P) (hP0 : P 0 = Spec.withStart (run2 k xs).P) (i j : Fin 15) :
    (fun dt => (run2 k (xs ++ [⟨t0, t0 + dt, w0, a0, w1, a1⟩])).P i j - P dt (Fin.castLE (by omega) i) (Fin.castLE (by omega) j)) =O[𝓝 0] fun dt : ℝ => dt ^ 5 := by
  have hrot := (C127_rotation_partial k xs h).1
  obtain ⟨hI, hPb⟩ := run2_inv k xs
  rw [withStart_eq hI hPb] at hP0
  simp only [run2_snoc]
  generalize run2 k xs = s at *
  set w := Spec.rate k.toConf ⟨t0, t0, w0, a0, w1, a1⟩ with hw
  set f := Spec.force k.toConf ⟨t0, t0, w0, a0, w1, a1⟩ with hf
  set g := Spec.gK k with hg
  set I : Fin 21 := Fin.castLE (by omega) i with hIi
  set J : Fin 21 := Fin.castLE (by omega) j with hJj
  have hfeed : ∀ dt, (feed2 k s ⟨t0, t0 + dt, w0, a0, w1, a1⟩).P i j = Rk.rk4t (lyap2 k.toConf w (f - s.R.mulVec g) g s.R) s.Pbig dt I J := by
    intro dt
    rw [rk4_lyap2]
    by_cases h0 : dt = 0
    · rw [feed2_zero (by simp [h0])]; simp [h0, hPb, I, J]
    · have e1 : corrected k.toConf k.bw w0 w1 = w := rate_eq k.toConf ⟨t0, t0, w0, a0, w1, a1⟩
      simp only [feed2, add_sub_cancel_left, if_neg h0, e1]
      change covStep k.toConf w (localAcc k.toConf g s.R _ ⟨t0, t0 + dt, w0, a0, w1, a1⟩) g s.R (relRot w (dt / 2) * s.R) (relRot w dt * s.R) dt s.Pbig I J = _
      rw [localAcc_start havg, covStep_apply, src_top, src_top]
      change 1 / 2 * (s.Pbig I J + dt / 6 * stages k.toConf w (f - s.R.mulVec g) g s.R (relRot w (dt / 2) * s.R) (relRot w dt * s.R) dt s.Pbig I J +
        (s.Pbig J I + dt / 6 * stages k.toConf w (f - s.R.mulVec g) g s.R (relRot w (dt / 2) * s.R) (relRot w dt * s.R) dt s.Pbig J I)) = _
      have e2 : s.Pbig J I = s.Pbig I J := congrFun (congrFun hI.sym I) J
      have e3 := congrFun (congrFun (stages_symm k.toConf w (f - s.R.mulVec g) g s.R (relRot w (dt / 2) * s.R) (relRot w dt * s.R) dt hI.sym) I) J
      rw [Matrix.transpose_apply] at e3
      rw [e2, e3]
      simp only [Matrix.add_apply, Matrix.smul_apply, smul_eq_mul]
      ring
  simp only [hfeed]
  have hsol : ∀ᶠ t in 𝓝 (0 : ℝ), HasDerivAt P (lyap2 k.toConf w (f - s.R.mulVec g) g s.R t (P t)) t := by
    filter_upwards [hP, turns_eq hx hrot hR hR0] with t ht hRt
    obtain ⟨F, G, hd, hder⟩ := ht
    rw [hRt, hR0] at hd
    obtain ⟨rfl, rfl⟩ := local_unique hd (Fk2_dynamics w f g ((relRot_rot hx t).mul hrot))
    rw [← Qc_eq] at hder
    exact hasDerivAt_m hder
  have hO := Rk.rk4t_order (lyap2_analytic k.toConf w (f - s.R.mulVec g) g s.R s.Pbig) P hP0 hsol
  refine (IsBigO.of_bound 1 (Eventually.of_forall fun dt => ?_)).trans hO
  rw [one_mul]
  exact Matrix.norm_entry_le_entrywise_sup_norm (Rk.rk4t (lyap2 k.toConf w (f - s.R.mulVec g) g s.R) s.Pbig dt - P dt)

/-- **C127 (Jacobians from the transition, partial).** With the default Jacobians and without averaging, after any sequence of intervals whose corrected rates are zero or at least the threshold and for a next interval of length `dt` of that
kind: whatever moves of both biases and of the orientation at the first time, the errors of orientation, velocity and position they cause according to the Jacobians differ by `O(dt⁵)` from those that the linear error dynamics make, over the
interval, of the errors caused at its start. Missing: averaging, and smaller rates. -/
theorem C127_transition_order_partial (k : Conf2) (hk : k.trans = true) (havg : k.avg = false) (xs : List Seg) (h : ∀ x ∈ xs, Spec.rate k.toConf x = 0 ∨ thr ≤ norm3 (Spec.rate k.toConf x)) (t0 : ℝ) (w0 a0 w1 a1 : V3)
    (hx : Spec.rate k.toConf ⟨t0, t0, w0, a0, w1, a1⟩ = 0 ∨ thr ≤ norm3 (Spec.rate k.toConf ⟨t0, t0, w0, a0, w1, a1⟩)) (R : ℝ → M3) (hR : Spec.Turns (Spec.rate k.toConf ⟨t0, t0, w0, a0, w1, a1⟩) R) (hR0 : R 0 = (run2 k xs).R)
    (dw da dq : V3) (x : ℝ → Fin 21 → ℝ) (hE : Spec.LocalErr (Spec.rate k.toConf ⟨t0, t0, w0, a0, w1, a1⟩) (Spec.force k.toConf ⟨t0, t0, w0, a0, w1, a1⟩) (Spec.gK k) R x) (hx0 : x 0 = Spec.caused (run2 k xs) dw da dq)
    (i : Fin 21) (hi : i.1 < 15 ∨ 18 ≤ i.1) :
    (fun dt => Spec.caused (run2 k (xs ++ [⟨t0, t0 + dt, w0, a0, w1, a1⟩])) dw da dq i - x dt i) =O[𝓝 0] fun dt : ℝ => dt ^ 5 := by
  have hrot := (C127_rotation_partial k xs h).1
  obtain ⟨hD, hB⟩ := run2_disc k hk xs
  have hn : ∀ dt, Spec.caused (run2 k (xs ++ [⟨t0, t0 + dt, w0, a0, w1, a1⟩])) dw da dq = (run2 k (xs ++ [⟨t0, t0 + dt, w0, a0, w1, a1⟩])).Disc.mulVec (moved0 dw da dq) := fun dt =>
    caused_eq (run2_disc k hk _).1 (run2_disc k hk _).2 dw da dq
  rw [caused_eq hD hB] at hx0
  simp only [hn]
  simp only [run2_snoc]
  clear hn
  generalize run2 k xs = s at *
  set w := Spec.rate k.toConf ⟨t0, t0, w0, a0, w1, a1⟩ with hw
  set f := Spec.force k.toConf ⟨t0, t0, w0, a0, w1, a1⟩ with hf
  set g := Spec.gK k with hg
  have sI : src i = i := src_eq (by omega)
  have hfeed : ∀ dt, (feed2 k s ⟨t0, t0 + dt, w0, a0, w1, a1⟩).Disc.mulVec (moved0 dw da dq) i = Rk.rk4t (err2 w (f - s.R.mulVec g) g s.R) (s.Disc.mulVec (moved0 dw da dq)) dt i := by
    intro dt
    by_cases h0 : dt = 0
    · rw [feed2_zero (by simp [h0])]
      subst h0
      simp only [Rk.rk4t]
      rw [zero_div, zero_smul, add_zero]
    · rw [rk4_err2]
      have e1 : corrected k.toConf k.bw w0 w1 = w := rate_eq k.toConf ⟨t0, t0, w0, a0, w1, a1⟩
      simp only [feed2, add_sub_cancel_left, if_neg h0, e1]
      change (Bk * phiStep w (localAcc k.toConf g s.R _ ⟨t0, t0 + dt, w0, a0, w1, a1⟩) g s.R (relRot w (dt / 2) * s.R) (relRot w dt * s.R) dt * s.Disc).mulVec (moved0 dw da dq) i = _
      rw [localAcc_start havg, ← Matrix.mulVec_mulVec, Matrix.mulVec_mulVec, Matrix.mulVec_mulVec, Matrix.mul_assoc, ← Matrix.mulVec_mulVec, Matrix.mulVec_mulVec]
      simp only [Matrix.mulVec, dotProduct, Matrix.mul_assoc, Bk_mul, sI]
      rfl
  simp only [hfeed]
  have hsol : ∀ᶠ t in 𝓝 (0 : ℝ), HasDerivAt x (err2 w (f - s.R.mulVec g) g s.R t (x t)) t := by
    filter_upwards [hE, turns_eq hx hrot hR hR0] with t ht hRt
    obtain ⟨F, G, hd, hder⟩ := ht
    rw [hRt, hR0] at hd
    obtain ⟨rfl, rfl⟩ := local_unique hd (Fk2_dynamics w f g ((relRot_rot hx t).mul hrot))
    exact hasDerivAt_pi.2 hder
  have hO := Rk.rk4t_order (err2_analytic w (f - s.R.mulVec g) g s.R (s.Disc.mulVec (moved0 dw da dq))) x hx0 hsol
  refine (IsBigO.of_bound 1 (Eventually.of_forall fun dt => ?_)).trans hO
  rw [one_mul]
  exact norm_le_pi_norm (Rk.rk4t (err2 w (f - s.R.mulVec g) g s.R) (s.Disc.mulVec (moved0 dw da dq)) dt - x dt) i

/-- non-vacuity: the orientation, the covariance and the errors that the theorems compare with exist, from every start. -/
theorem local_exists (k : Conf) (w f g : V3) (hw : w = 0 ∨ thr ≤ norm3 w) (R0 : M3) (hR0 : IsRot R0) (P0 : M21) (x0 : Fin 21 → ℝ) :
    ∃ R P x, Spec.Turns w R ∧ R 0 = R0 ∧ Spec.LocalCov k w f g R P ∧ P 0 = P0 ∧ Spec.LocalErr w f g R x ∧ x 0 = x0 := by
  haveI : CompleteSpace M21 := FiniteDimensional.complete ℝ M21
  obtain ⟨P, h0, hP⟩ := Rk.exists_sol (lyap2_analytic k w (f - R0.mulVec g) g R0 P0)
  obtain ⟨x, hx0, hx⟩ := Rk.exists_sol (err2_analytic w (f - R0.mulVec g) g R0 x0)
  have hz : relRot w 0 * R0 = R0 := by rw [relRot_at_zero, Matrix.one_mul]
  refine ⟨fun t => relRot w t * R0, P, x, Eventually.of_forall fun t i j => ?_, hz, ?_, h0, ?_, hx0⟩
  · have h1 : Sim.HasDmAt (relRot w) (-(skew w) * relRot w t) t := fun i j => relRot_turns hw t i j
    refine ((h1.mul (Sim.HasDmAt.const R0)) i j).congr_deriv ?_
    rw [Matrix.mul_zero, add_zero, Matrix.mul_assoc]
  · filter_upwards [hP] with t ht
    refine ⟨_, _, by rw [hz]; exact Fk2_dynamics w f g ((relRot_rot hw t).mul hR0), fun i j => ?_⟩
    rw [← Qc_eq]
    exact hasDerivAt_pi.1 (hasDerivAt_pi (E' := fun _ : Fin 21 => Fin 21 → ℝ) (φ := P) |>.1 ht i) j
  · filter_upwards [hx] with t ht
    exact ⟨_, _, by rw [hz]; exact Fk2_dynamics w f g ((relRot_rot hw t).mul hR0), fun i => hasDerivAt_pi.1 ht i⟩

/-- a turning and accelerating body under gravity: all hypotheses of both theorems are met -/
example : ∃ R P x, Spec.Turns ![0, 0, 1] R ∧ R 0 = (1 : M3) ∧ Spec.LocalCov ⟨1, 1, 1, 1, false, 0, 0⟩ ![0, 0, 1] ![1, 2, 9.81] ![0, 0, 9.81] R P ∧ P 0 = Spec.withStart 0 ∧
    Spec.LocalErr ![0, 0, 1] ![1, 2, 9.81] ![0, 0, 9.81] R x ∧ x 0 = Spec.caused Res2.init ![1, 0, 0] ![0, 1, 0] ![0, 0, 1] :=
  local_exists _ _ _ _ (Or.inr (by
    have : norm3 (![0, 0, 1] : V3) = 1 := by simp [norm3, dot3]
    rw [this]; unfold thr; norm_num)) 1 IsRot.one _ _

end Verif.Cpi
