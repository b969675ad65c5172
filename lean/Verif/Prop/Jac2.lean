import Verif.Prop.Jac

/-! # Derivatives of the corrected readings and rows of the transition matrices -/

set_option linter.unusedSimpArgs false
set_option linter.unusedVariables false

open Classical

namespace Verif.Prop_

open Verif Verif.Types Verif.St Verif.Imu Matrix Finset

/-- velocity of the intrinsics along a perturbation. -/
structure Tan where
  dw : ℕ → ℝ
  da : ℕ → ℝ
  tg : ℕ → ℝ
  θw : V3
  θa : V3

/-- the slices of `δ`; zero where nothing is calibrated. -/
noncomputable def tan (o : Opts) (δ : ℕ → ℝ) : Tan :=
  if o.calibImu then
    { dw := fun i => δ (15 + i)
      da := fun i => δ (21 + i)
      tg := if o.calibG then fun i => δ (27 + i) else 0
      θw := if o.kalibr then sl δ (rotId o) else 0
      θa := if o.kalibr then 0 else sl δ (rotId o) }
  else ⟨0, 0, 0, 0, 0⟩

theorem Dm_zero (k : Bool) : Dm k 0 = 0 := by
  unfold Dm
  split <;> apply m3_ext <;> simp

theorem Tm_zero : Tm 0 = 0 := by
  unfold Tm
  apply m3_ext <;> simp

theorem skew_zero : skew 0 = 0 := by
  apply m3_ext <;> simp [skew]

theorem skew_anti (a b : V3) : (skew a).mulVec b = -(skew b).mulVec a := by
  apply v3_ext <;> simp only [m3_mulVec_apply, skew00, skew01, skew02, skew10, skew11, skew12, skew20, skew21, skew22, Pi.neg_apply] <;> ring

/-- the curve of perturbed intrinsics. -/
noncomputable def pc (o : Opts) (c : Cal) (δ : ℕ → ℝ) (e : ℝ) : Cal := Spec.perturbCal o c (fun i => e * δ i)

theorem pc_unit {o : Opts} {c : Cal} (δ : ℕ → ℝ) (hw : IsUnitQ c.qw) (ha : IsUnitQ c.qa) (e : ℝ) :
    IsUnitQ (pc o c δ e).qw ∧ IsUnitQ (pc o c δ e).qa := by
  unfold pc Spec.perturbCal
  split
  · dsimp only
    constructor <;> split <;> first | exact unit_update (by assumption) _ | assumption
  · exact ⟨hw, ha⟩

theorem pc_deriv {o : Opts} {c : Cal} (δ : ℕ → ℝ) (hw : IsUnitQ c.qw) (ha : IsUnitQ c.qa) (k : Bool) :
    HasDm (fun e => Dm k (pc o c δ e).dw) (Dm k (tan o δ).dw) ∧
    HasDm (fun e => Dm k (pc o c δ e).da) (Dm k (tan o δ).da) ∧
    HasDm (fun e => Tm (pc o c δ e).tg) (Tm (tan o δ).tg) ∧
    HasDm (fun e => quat2Rot (pc o c δ e).qw) (-(skew (tan o δ).θw) * quat2Rot c.qw) ∧
    HasDm (fun e => quat2Rot (pc o c δ e).qa) (-(skew (tan o δ).θa) * quat2Rot c.qa) := by
  unfold pc Spec.perturbCal tan rotId
  by_cases hi : o.calibImu = true
  · simp only [if_pos hi, sl_smul]
    refine ⟨Dm_deriv _ _ _, Dm_deriv _ _ _, ?_, ?_, ?_⟩
    · by_cases hg : o.calibG = true
      · simp only [if_pos hg]; exact Tm_deriv _ _
      · simp only [if_neg hg, Tm_zero]; exact HasDm.const _
    · by_cases hk : o.kalibr = true
      · simp only [if_pos hk]; exact quat_deriv hw _
      · simp only [if_neg hk, skew_zero, neg_zero, Matrix.zero_mul]; exact HasDm.const _
    · by_cases hk : o.kalibr = true
      · simp only [if_pos hk, skew_zero, neg_zero, Matrix.zero_mul]; exact HasDm.const _
      · simp only [if_neg hk]; exact quat_deriv ha _
  · simp only [if_neg hi, Dm_zero, Tm_zero, skew_zero, neg_zero, Matrix.zero_mul]
    exact ⟨HasDm.const _, HasDm.const _, HasDm.const _, HasDm.const _, HasDm.const _⟩

theorem pc_zero {o : Opts} {c : Cal} (δ : ℕ → ℝ) (hw : IsUnitQ c.qw) (ha : IsUnitQ c.qa) :
    (pc o c δ 0).dw = c.dw ∧ (pc o c δ 0).da = c.da ∧ (pc o c δ 0).tg = c.tg ∧
    quat2Rot (pc o c δ 0).qw = quat2Rot c.qw ∧ quat2Rot (pc o c δ 0).qa = quat2Rot c.qa := by
  have h1 : quat2Rot (quatUpdate c.qw 0) = quat2Rot c.qw := by simpa using quat_deriv0 hw 0
  have h2 : quat2Rot (quatUpdate c.qa 0) = quat2Rot c.qa := by simpa using quat_deriv0 ha 0
  have h3 : ∀ k, sl (fun _ => (0:ℝ)) k = 0 := fun k => rfl
  unfold pc Spec.perturbCal
  cases o.calibImu <;> cases o.calibG <;> cases o.kalibr <;>
    simp only [Bool.false_eq_true, if_true, if_false, zero_mul, add_zero, h1, h2, h3, and_self]

/-- velocity of the corrected acceleration. -/
noncomputable def aDot (kb : Bool) (c : Cal) (k : Corr) (τ : Tan) (δba : V3) : V3 :=
  (skew k.a).mulVec τ.θa + (quat2Rot c.qa).mulVec ((Dm kb τ.da).mulVec k.au) -
    (quat2Rot c.qa).mulVec ((Dm kb c.da).mulVec δba)

/-- velocity of the corrected angular rate. -/
noncomputable def wDot (kb : Bool) (c : Cal) (k : Corr) (τ : Tan) (δbg δba : V3) : V3 :=
  (skew k.w).mulVec τ.θw + (quat2Rot c.qw).mulVec ((Dm kb τ.dw).mulVec k.wu) +
    (quat2Rot c.qw).mulVec ((Dm kb c.dw).mulVec (-δbg - (Tm τ.tg).mulVec k.a - (Tm c.tg).mulVec (aDot kb c k τ δba)))

theorem corr_a (kb : Bool) (c : Cal) (bg ba : V3) (d0 d1 : Reading) :
    (correct kb c bg ba d0 d1).a =
      (quat2Rot c.qa).mulVec ((Dm kb c.da).mulVec ((0.5 : ℝ) • (d0.am - ba + (d1.am - ba)))) := by
  simp only [correct, Matrix.mulVec_mulVec]

theorem corr_au (kb : Bool) (c : Cal) (bg ba : V3) (d0 d1 : Reading) :
    (correct kb c bg ba d0 d1).au = (0.5 : ℝ) • (d0.am - ba + (d1.am - ba)) := rfl

theorem corr_wu (kb : Bool) (c : Cal) (bg ba : V3) (d0 d1 : Reading) :
    (correct kb c bg ba d0 d1).wu =
      (0.5 : ℝ) • (d0.wm - bg + (d1.wm - bg)) - (Tm c.tg).mulVec (correct kb c bg ba d0 d1).a := by
  simp only [correct, Matrix.mulVec_smul, Matrix.mulVec_add]
  module

theorem corr_w (kb : Bool) (c : Cal) (bg ba : V3) (d0 d1 : Reading) :
    (correct kb c bg ba d0 d1).w = (quat2Rot c.qw).mulVec ((Dm kb c.dw).mulVec (correct kb c bg ba d0 d1).wu) := by
  simp only [correct, Matrix.mulVec_mulVec]

theorem au_deriv (d0 d1 ba δ : V3) : HasDv (fun e => (0.5 : ℝ) • (d0 - (ba + e • δ) + (d1 - (ba + e • δ)))) (-δ) := by
  refine ((((HasDv.const d0).sub (HasDv.line ba δ)).add ((HasDv.const d1).sub (HasDv.line ba δ))).smul 0.5).congr' ?_
  ext i
  simp
  norm_num
  ring

theorem corr_deriv {o : Opts} {c : Cal} (δ : ℕ → ℝ) (hw : IsUnitQ c.qw) (ha : IsUnitQ c.qa) (kb : Bool) (bg ba : V3)
    (d0 d1 : Reading) :
    let k := correct kb c bg ba d0 d1
    let ke := fun e : ℝ => correct kb (pc o c δ e) (bg + e • sl δ 9) (ba + e • sl δ 12) d0 d1
    HasDv (fun e => (ke e).a) (aDot kb c k (tan o δ) (sl δ 12)) ∧
    HasDv (fun e => (ke e).w) (wDot kb c k (tan o δ) (sl δ 9) (sl δ 12)) ∧ (ke 0).a = k.a ∧ (ke 0).w = k.w := by
  intro k ke
  obtain ⟨e1, e2, e3, e4, e5⟩ := pc_deriv (o := o) δ hw ha kb
  obtain ⟨z1, z2, z3, z4, z5⟩ := pc_zero (o := o) δ hw ha
  have hau := au_deriv d0.am d1.am ba (sl δ 12)
  have hau0 : (0.5 : ℝ) • (d0.am - (ba + (0:ℝ) • sl δ 12) + (d1.am - (ba + (0:ℝ) • sl δ 12))) = k.au := by
    simp only [zero_smul, add_zero]; rfl
  have k0a : (ke 0).a = k.a := by
    simp only [ke, k, corr_a, z2, z5, zero_smul, add_zero]
  have k0wu : (ke 0).wu = k.wu := by
    have : (correct kb (pc o c δ 0) (bg + (0:ℝ) • sl δ 9) (ba + (0:ℝ) • sl δ 12) d0 d1).a = k.a := k0a
    show (correct kb (pc o c δ 0) (bg + (0:ℝ) • sl δ 9) (ba + (0:ℝ) • sl δ 12) d0 d1).wu = k.wu
    rw [corr_wu, this, z3, zero_smul, add_zero]
    exact (corr_wu kb c bg ba d0 d1).symm
  have k0w : (ke 0).w = k.w := by
    have : (correct kb (pc o c δ 0) (bg + (0:ℝ) • sl δ 9) (ba + (0:ℝ) • sl δ 12) d0 d1).wu = k.wu := k0wu
    show (correct kb (pc o c δ 0) (bg + (0:ℝ) • sl δ 9) (ba + (0:ℝ) • sl δ 12) d0 d1).w = k.w
    rw [corr_w, this, z1, z4]
    exact (corr_w kb c bg ba d0 d1).symm
  have hA : HasDv (fun e => (ke e).a) (aDot kb c k (tan o δ) (sl δ 12)) := by
    refine ((e5.mulVec (e2.mulVec hau)).congr_fun fun e => corr_a _ _ _ _ _ _).congr' ?_
    simp only [z2, z5, hau0]
    have : k.a = (quat2Rot c.qa).mulVec ((Dm kb c.da).mulVec k.au) := corr_a _ _ _ _ _ _
    rw [aDot, skew_anti, this]
    simp only [← Matrix.mulVec_mulVec, Matrix.mulVec_add, Matrix.mulVec_neg, Matrix.neg_mulVec]
    abel
  refine ⟨hA, ?_, k0a, k0w⟩
  have hwu : HasDv (fun e => (ke e).wu) (-(sl δ 9) - ((Tm (tan o δ).tg).mulVec k.a + (Tm c.tg).mulVec (aDot kb c k (tan o δ) (sl δ 12)))) := by
    refine (((au_deriv d0.wm d1.wm bg (sl δ 9)).sub (e3.mulVec hA)).congr_fun fun e => corr_wu _ _ _ _ _ _).congr' ?_
    simp only [z3, k0a]
  refine ((e4.mulVec (e1.mulVec hwu)).congr_fun fun e => corr_w _ _ _ _ _ _).congr' ?_
  simp only [z1, z4, k0wu]
  have : k.w = (quat2Rot c.qw).mulVec ((Dm kb c.dw).mulVec k.wu) := corr_w _ _ _ _ _ _
  rw [wDot, skew_anti, this]
  simp only [← Matrix.mulVec_mulVec, Matrix.mulVec_add, Matrix.mulVec_neg, Matrix.neg_mulVec, Matrix.mulVec_sub]
  abel

theorem HD_mulVec (kb : Bool) (w : V3) (δ : ℕ → ℝ) (k : ℕ) :
    (HD kb w).mulVec (slF 6 δ k) = (Dm kb fun i => δ (k + i)).mulVec w := by
  unfold HD Dm
  cases kb <;> apply v3_ext <;>
    simp [Matrix.mulVec, dotProduct, Fin.sum_univ_succ, slF] <;> ring

theorem HT_mulVec (a : V3) (δ : ℕ → ℝ) (k : ℕ) :
    (HT a).mulVec (slF 9 δ k) = (Tm fun i => δ (k + i)).mulVec a := by
  unfold HT Tm
  apply v3_ext <;>
    simp [Matrix.mulVec, dotProduct, Fin.sum_univ_succ, slF] <;> ring

theorem slF_three (δ : ℕ → ℝ) (k : ℕ) : slF 3 δ k = sl δ k := rfl


/-! ## Rows of the transition matrices -/

/-- number of columns. -/
theorem row_dim (o : Opts) : intrSize o + 15 = if o.calibImu then (if o.calibG then 39 else 30) else 15 := by
  unfold intrSize
  cases o.calibImu <;> cases o.calibG <;> rfl

theorem fAnalytic_rowP (o : Opts) (X : Xi) (A : FArgs) {r0 : ℕ} (hr : r0 = 0 ∨ r0 = 3 ∨ r0 = 6 ∨ r0 = 9 ∨ r0 = 12) :
    RowP r0 3 (intrSize o + 15) (fAnalytic o X A) := by
  apply rowP_of_ok
  rw [row_dim]
  unfold fAnalytic rotId
  cases o.calibImu <;> cases o.calibG <;> cases o.kalibr <;> rcases hr with rfl | rfl | rfl | rfl | rfl <;> rfl

/-- a block of rows of a product. -/
noncomputable def rowV (d : ℕ) (F : Mat) (δ : ℕ → ℝ) (r0 : ℕ) : V3 := sl (Mat.mulVec d F δ) r0

theorem rowV_eq {r0 d : ℕ} {l : List Blk} (δ : ℕ → ℝ) (H : RowP r0 3 d l) (i : Fin 3) :
    rowV d (assemble l) δ r0 i = rowSum r0 3 δ l i := assemble_row δ H i.2

/-- the corrected averages are the corrections of the uncorrected ones. -/
structure KOK (o : Opts) (A : FArgs) : Prop where
  a : A.k.a = (quat2Rot A.c.qa).mulVec ((Dm o.kalibr A.c.da).mulVec A.k.au)
  w : A.k.w = (quat2Rot A.c.qw).mulVec ((Dm o.kalibr A.c.dw).mulVec A.k.wu)

set_option maxHeartbeats 1000000 in
theorem fAnalytic_rows (o : Opts) (X : Xi) (A : FArgs) (hk : KOK o A) (δ : ℕ → ℝ) :
    let d := intrSize o + 15
    let F := assemble (fAnalytic o X A)
    let dR := quat2Rot A.q1 * A.R.transpose
    let wd := wDot o.kalibr A.c A.k (tan o δ) (sl δ 9) (sl δ 12)
    let ad := aDot o.kalibr A.c A.k (tan o δ) (sl δ 12)
    rowV d F δ 0 = dR.mulVec (sl δ 0) + A.dt • dR.mulVec (X.Jr.mulVec wd) ∧
    rowV d F δ 3 = sl δ 3 + A.dt • sl δ 6 + A.R.transpose.mulVec (X.x2.mulVec ad - X.x4.mulVec wd) -
      (skew (A.p1 - A.p - A.dt • A.v + (0.5 * A.dt * A.dt) • A.g)).mulVec (A.R.transpose.mulVec (sl δ 0)) ∧
    rowV d F δ 6 = sl δ 6 + A.R.transpose.mulVec (X.x1.mulVec ad - X.x3.mulVec wd) -
      (skew (A.v1 - A.v + A.dt • A.g)).mulVec (A.R.transpose.mulVec (sl δ 0)) ∧
    rowV d F δ 9 = sl δ 9 ∧ rowV d F δ 12 = sl δ 12 := by
  intro d F dR wd ad
  have e0 := fun i => rowV_eq δ (fAnalytic_rowP o X A (r0 := 0) (by simp)) i
  have e3 := fun i => rowV_eq δ (fAnalytic_rowP o X A (r0 := 3) (by simp)) i
  have e6 := fun i => rowV_eq δ (fAnalytic_rowP o X A (r0 := 6) (by simp)) i
  have e9 := fun i => rowV_eq δ (fAnalytic_rowP o X A (r0 := 9) (by simp)) i
  have e12 := fun i => rowV_eq δ (fAnalytic_rowP o X A (r0 := 12) (by simp)) i
  have hka := hk.a
  have hkw := hk.w
  refine ⟨?_, ?_, ?_, ?_, ?_⟩ <;> ext i
  · show rowV d F δ 0 i = _
    rw [e0]
    simp only [wd, ad, wDot, aDot, tan, dR, hka, hkw]
    unfold fAnalytic rotId
    cases o.calibImu <;> cases o.calibG <;> cases o.kalibr <;>
      simp (decide := true) only [Bool.false_eq_true, if_true, if_false, List.cons_append, List.nil_append, List.append_nil, rowSum_cons_in, rowSum_cons_out, rowSum_nil,
        slF_three, HD_mulVec, HT_mulVec, not_false_eq_true, Dm_zero, Tm_zero, ← Matrix.mulVec_mulVec, Matrix.zero_mulVec, Matrix.mulVec_zero,
        Matrix.add_mulVec, Matrix.mulVec_add, Matrix.mulVec_sub, Matrix.mulVec_neg, Matrix.neg_mulVec, Matrix.smul_mulVec, Matrix.mulVec_smul, Matrix.one_mulVec,
        Pi.add_apply, Pi.sub_apply, Pi.neg_apply, Pi.smul_apply, Pi.zero_apply, smul_eq_mul] <;> ring
  · show rowV d F δ 3 i = _
    rw [e3]
    simp only [wd, ad, wDot, aDot, tan, dR, hka, hkw]
    unfold fAnalytic rotId
    cases o.calibImu <;> cases o.calibG <;> cases o.kalibr <;>
      simp (decide := true) only [Bool.false_eq_true, if_true, if_false, List.cons_append, List.nil_append, List.append_nil, rowSum_cons_in, rowSum_cons_out, rowSum_nil,
        slF_three, HD_mulVec, HT_mulVec, not_false_eq_true, Dm_zero, Tm_zero, ← Matrix.mulVec_mulVec, Matrix.zero_mulVec, Matrix.mulVec_zero,
        Matrix.add_mulVec, Matrix.mulVec_add, Matrix.mulVec_sub, Matrix.mulVec_neg, Matrix.neg_mulVec, Matrix.smul_mulVec, Matrix.mulVec_smul, Matrix.one_mulVec,
        Pi.add_apply, Pi.sub_apply, Pi.neg_apply, Pi.smul_apply, Pi.zero_apply, smul_eq_mul] <;> ring
  · show rowV d F δ 6 i = _
    rw [e6]
    simp only [wd, ad, wDot, aDot, tan, dR, hka, hkw]
    unfold fAnalytic rotId
    cases o.calibImu <;> cases o.calibG <;> cases o.kalibr <;>
      simp (decide := true) only [Bool.false_eq_true, if_true, if_false, List.cons_append, List.nil_append, List.append_nil, rowSum_cons_in, rowSum_cons_out, rowSum_nil,
        slF_three, HD_mulVec, HT_mulVec, not_false_eq_true, Dm_zero, Tm_zero, ← Matrix.mulVec_mulVec, Matrix.zero_mulVec, Matrix.mulVec_zero,
        Matrix.add_mulVec, Matrix.mulVec_add, Matrix.mulVec_sub, Matrix.mulVec_neg, Matrix.neg_mulVec, Matrix.smul_mulVec, Matrix.mulVec_smul, Matrix.one_mulVec,
        Pi.add_apply, Pi.sub_apply, Pi.neg_apply, Pi.smul_apply, Pi.zero_apply, smul_eq_mul] <;> ring
  · show rowV d F δ 9 i = _
    rw [e9]
    unfold fAnalytic rotId
    cases o.calibImu <;> cases o.calibG <;> cases o.kalibr <;>
      simp (decide := true) only [Bool.false_eq_true, if_true, if_false, List.cons_append, List.nil_append, List.append_nil, rowSum_cons_in, rowSum_cons_out, rowSum_nil,
        slF_three, HD_mulVec, HT_mulVec, not_false_eq_true, Dm_zero, Tm_zero, ← Matrix.mulVec_mulVec, Matrix.zero_mulVec, Matrix.mulVec_zero,
        Matrix.add_mulVec, Matrix.mulVec_add, Matrix.mulVec_sub, Matrix.mulVec_neg, Matrix.neg_mulVec, Matrix.smul_mulVec, Matrix.mulVec_smul, Matrix.one_mulVec,
        Pi.add_apply, Pi.sub_apply, Pi.neg_apply, Pi.smul_apply, Pi.zero_apply, smul_eq_mul] <;> ring
  · show rowV d F δ 12 i = _
    rw [e12]
    unfold fAnalytic rotId
    cases o.calibImu <;> cases o.calibG <;> cases o.kalibr <;>
      simp (decide := true) only [Bool.false_eq_true, if_true, if_false, List.cons_append, List.nil_append, List.append_nil, rowSum_cons_in, rowSum_cons_out, rowSum_nil,
        slF_three, HD_mulVec, HT_mulVec, not_false_eq_true, Dm_zero, Tm_zero, ← Matrix.mulVec_mulVec, Matrix.zero_mulVec, Matrix.mulVec_zero,
        Matrix.add_mulVec, Matrix.mulVec_add, Matrix.mulVec_sub, Matrix.mulVec_neg, Matrix.neg_mulVec, Matrix.smul_mulVec, Matrix.mulVec_smul, Matrix.one_mulVec,
        Pi.add_apply, Pi.sub_apply, Pi.neg_apply, Pi.smul_apply, Pi.zero_apply, smul_eq_mul] <;> ring

theorem fDiscrete_rowP (o : Opts) (A : FArgs) {r0 : ℕ} (hr : r0 = 0 ∨ r0 = 3 ∨ r0 = 6 ∨ r0 = 9 ∨ r0 = 12) :
    RowP r0 3 (intrSize o + 15) (fDiscrete o A) := by
  apply rowP_of_ok
  rw [row_dim]
  unfold fDiscrete rotId
  cases o.calibImu <;> cases o.calibG <;> cases o.kalibr <;> rcases hr with rfl | rfl | rfl | rfl | rfl <;> rfl


set_option maxHeartbeats 1000000 in
/-- In the discrete mode the orientation rows contain an extra term: line 928 lacks the factor `Dw`. -/
theorem fDiscrete_rows (o : Opts) (A : FArgs) (hk : KOK o A) (δ : ℕ → ℝ) :
    let d := intrSize o + 15
    let F := assemble (fDiscrete o A)
    let dR := quat2Rot A.q1 * A.R.transpose
    let wd := wDot o.kalibr A.c A.k (tan o δ) (sl δ 9) (sl δ 12)
    let ad := aDot o.kalibr A.c A.k (tan o δ) (sl δ 12)
    let u := (Tm A.c.tg).mulVec ((quat2Rot A.c.qa).mulVec ((Dm o.kalibr (tan o δ).da).mulVec A.k.au))
    rowV d F δ 0 = dR.mulVec (sl δ 0) + A.dt • dR.mulVec ((JrSO3 (logSO3 dR)).mulVec
      (wd + (quat2Rot A.c.qw).mulVec ((Dm o.kalibr A.c.dw).mulVec u - u))) ∧
    rowV d F δ 3 = sl δ 3 + A.dt • sl δ 6 + (0.5 * A.dt * A.dt) • A.R.transpose.mulVec ad -
      (skew (A.p1 - A.p - A.dt • A.v + (0.5 * A.dt * A.dt) • A.g)).mulVec (A.R.transpose.mulVec (sl δ 0)) ∧
    rowV d F δ 6 = sl δ 6 + A.dt • A.R.transpose.mulVec ad -
      (skew (A.v1 - A.v + A.dt • A.g)).mulVec (A.R.transpose.mulVec (sl δ 0)) ∧
    rowV d F δ 9 = sl δ 9 ∧ rowV d F δ 12 = sl δ 12 := by
  intro d F dR wd ad u
  have e0 := fun i => rowV_eq δ (fDiscrete_rowP o A (r0 := 0) (by simp)) i
  have e3 := fun i => rowV_eq δ (fDiscrete_rowP o A (r0 := 3) (by simp)) i
  have e6 := fun i => rowV_eq δ (fDiscrete_rowP o A (r0 := 6) (by simp)) i
  have e9 := fun i => rowV_eq δ (fDiscrete_rowP o A (r0 := 9) (by simp)) i
  have e12 := fun i => rowV_eq δ (fDiscrete_rowP o A (r0 := 12) (by simp)) i
  have hka := hk.a
  have hkw := hk.w
  refine ⟨?_, ?_, ?_, ?_, ?_⟩ <;> ext i
  · show rowV d F δ 0 i = _
    rw [e0]
    simp only [u, wd, ad, wDot, aDot, tan, dR, hka, hkw]
    unfold fDiscrete rotId
    cases o.calibImu <;> cases o.calibG <;> cases o.kalibr <;>
      simp (decide := true) only [Bool.false_eq_true, if_true, if_false, List.cons_append, List.nil_append, List.append_nil, rowSum_cons_in, rowSum_cons_out, rowSum_nil,
        slF_three, HD_mulVec, HT_mulVec, not_false_eq_true, Dm_zero, Tm_zero, ← Matrix.mulVec_mulVec, Matrix.zero_mulVec, Matrix.mulVec_zero,
        Matrix.add_mulVec, Matrix.mulVec_add, Matrix.mulVec_sub, Matrix.mulVec_neg, Matrix.neg_mulVec, Matrix.smul_mulVec, Matrix.mulVec_smul, Matrix.one_mulVec,
        Pi.add_apply, Pi.sub_apply, Pi.neg_apply, Pi.smul_apply, Pi.zero_apply, smul_eq_mul] <;> ring
  · show rowV d F δ 3 i = _
    rw [e3]
    simp only [u, wd, ad, wDot, aDot, tan, dR, hka, hkw]
    unfold fDiscrete rotId
    cases o.calibImu <;> cases o.calibG <;> cases o.kalibr <;>
      simp (decide := true) only [Bool.false_eq_true, if_true, if_false, List.cons_append, List.nil_append, List.append_nil, rowSum_cons_in, rowSum_cons_out, rowSum_nil,
        slF_three, HD_mulVec, HT_mulVec, not_false_eq_true, Dm_zero, Tm_zero, ← Matrix.mulVec_mulVec, Matrix.zero_mulVec, Matrix.mulVec_zero,
        Matrix.add_mulVec, Matrix.mulVec_add, Matrix.mulVec_sub, Matrix.mulVec_neg, Matrix.neg_mulVec, Matrix.smul_mulVec, Matrix.mulVec_smul, Matrix.one_mulVec,
        Pi.add_apply, Pi.sub_apply, Pi.neg_apply, Pi.smul_apply, Pi.zero_apply, smul_eq_mul] <;> ring
  · show rowV d F δ 6 i = _
    rw [e6]
    simp only [u, wd, ad, wDot, aDot, tan, dR, hka, hkw]
    unfold fDiscrete rotId
    cases o.calibImu <;> cases o.calibG <;> cases o.kalibr <;>
      simp (decide := true) only [Bool.false_eq_true, if_true, if_false, List.cons_append, List.nil_append, List.append_nil, rowSum_cons_in, rowSum_cons_out, rowSum_nil,
        slF_three, HD_mulVec, HT_mulVec, not_false_eq_true, Dm_zero, Tm_zero, ← Matrix.mulVec_mulVec, Matrix.zero_mulVec, Matrix.mulVec_zero,
        Matrix.add_mulVec, Matrix.mulVec_add, Matrix.mulVec_sub, Matrix.mulVec_neg, Matrix.neg_mulVec, Matrix.smul_mulVec, Matrix.mulVec_smul, Matrix.one_mulVec,
        Pi.add_apply, Pi.sub_apply, Pi.neg_apply, Pi.smul_apply, Pi.zero_apply, smul_eq_mul] <;> ring
  · show rowV d F δ 9 i = _
    rw [e9]
    unfold fDiscrete rotId
    cases o.calibImu <;> cases o.calibG <;> cases o.kalibr <;>
      simp (decide := true) only [Bool.false_eq_true, if_true, if_false, List.cons_append, List.nil_append, List.append_nil, rowSum_cons_in, rowSum_cons_out, rowSum_nil,
        slF_three, HD_mulVec, HT_mulVec, not_false_eq_true, Dm_zero, Tm_zero, ← Matrix.mulVec_mulVec, Matrix.zero_mulVec, Matrix.mulVec_zero,
        Matrix.add_mulVec, Matrix.mulVec_add, Matrix.mulVec_sub, Matrix.mulVec_neg, Matrix.neg_mulVec, Matrix.smul_mulVec, Matrix.mulVec_smul, Matrix.one_mulVec,
        Pi.add_apply, Pi.sub_apply, Pi.neg_apply, Pi.smul_apply, Pi.zero_apply, smul_eq_mul] <;> ring
  · show rowV d F δ 12 i = _
    rw [e12]
    unfold fDiscrete rotId
    cases o.calibImu <;> cases o.calibG <;> cases o.kalibr <;>
      simp (decide := true) only [Bool.false_eq_true, if_true, if_false, List.cons_append, List.nil_append, List.append_nil, rowSum_cons_in, rowSum_cons_out, rowSum_nil,
        slF_three, HD_mulVec, HT_mulVec, not_false_eq_true, Dm_zero, Tm_zero, ← Matrix.mulVec_mulVec, Matrix.zero_mulVec, Matrix.mulVec_zero,
        Matrix.add_mulVec, Matrix.mulVec_add, Matrix.mulVec_sub, Matrix.mulVec_neg, Matrix.neg_mulVec, Matrix.smul_mulVec, Matrix.mulVec_smul, Matrix.one_mulVec,
        Pi.add_apply, Pi.sub_apply, Pi.neg_apply, Pi.smul_apply, Pi.zero_apply, smul_eq_mul] <;> ring

/-- The intrinsics are constant: identity rows. -/
theorem f_rows_intr (o : Opts) (X : Xi) (A : FArgs) (δ : ℕ → ℝ) (i : ℕ) (h1 : 15 ≤ i) (h2 : i < intrSize o + 15) :
    Mat.mulVec (intrSize o + 15) (assemble (fAnalytic o X A)) δ i = δ i ∧
    Mat.mulVec (intrSize o + 15) (assemble (fDiscrete o A)) δ i = δ i := by
  have key : ∀ (l : List Blk) (r0 h : ℕ), rowOK r0 h (intrSize o + 15) (l.map Blk.geom) = true →
      (∀ k : Fin h, rowSum r0 h δ l k = δ (r0 + k)) → ∀ k, k < h → Mat.mulVec (intrSize o + 15) (assemble l) δ (r0 + k) = δ (r0 + k) := by
    intro l r0 h ok hs k hk
    rw [assemble_row δ (rowP_of_ok ok) hk]
    exact hs ⟨k, hk⟩
  have split : ∀ (P : ℕ → Prop), o.calibImu = true →
      (∀ k, k < 6 → P (15 + k)) → (∀ k, k < 6 → P (21 + k)) → (o.calibG = true → ∀ k, k < 9 → P (27 + k)) →
      (∀ k, k < 3 → P (rotId o + k)) → P i := by
    intro P hi p1 p2 p3 p4
    rw [row_dim, if_pos hi] at h2
    unfold rotId at p4
    by_cases a1 : i < 21
    · have := p1 (i - 15) (by omega); rwa [show 15 + (i - 15) = i by omega] at this
    by_cases a2 : i < 27
    · have := p2 (i - 21) (by omega); rwa [show 21 + (i - 21) = i by omega] at this
    by_cases hg : o.calibG = true
    · rw [if_pos hg] at h2 p4
      by_cases a3 : i < 36
      · have := p3 hg (i - 27) (by omega); rwa [show 27 + (i - 27) = i by omega] at this
      · have := p4 (i - 36) (by omega); rwa [show 36 + (i - 36) = i by omega] at this
    · rw [if_neg hg] at h2 p4
      have := p4 (i - 27) (by omega); rwa [show 27 + (i - 27) = i by omega] at this
  by_cases hi : o.calibImu = true
  swap
  · rw [row_dim, if_neg hi] at h2; omega
  have simps : ∀ (l : List Blk), (∀ r0 h, (r0, h) ∈ [(15, 6), (21, 6)] ++ (if o.calibG then [(27, 9), (36, 3)] else [(27, 3), (27, 3)]) →
      rowOK r0 h (intrSize o + 15) (l.map Blk.geom) = true ∧ ∀ k : Fin h, rowSum r0 h δ l k = δ (r0 + k)) →
      Mat.mulVec (intrSize o + 15) (assemble l) δ i = δ i := by
    intro l H
    refine split (fun i => Mat.mulVec (intrSize o + 15) (assemble l) δ i = δ i) hi ?_ ?_ ?_ ?_
    · exact key l 15 6 (H 15 6 (by simp)).1 (H 15 6 (by simp)).2
    · exact key l 21 6 (H 21 6 (by simp)).1 (H 21 6 (by simp)).2
    · intro hg
      exact key l 27 9 (H 27 9 (by simp [hg])).1 (H 27 9 (by simp [hg])).2
    · unfold rotId
      by_cases hg : o.calibG = true
      · rw [if_pos hg]; exact key l 36 3 (H 36 3 (by simp [hg])).1 (H 36 3 (by simp [hg])).2
      · rw [if_neg hg]; exact key l 27 3 (H 27 3 (by simp [hg])).1 (H 27 3 (by simp [hg])).2
  constructor <;> refine simps _ fun r0 h hm => ?_
  · rw [row_dim, hi]
    unfold fAnalytic rotId
    rw [hi]
    revert hm
    cases o.calibG <;> cases o.kalibr <;> intro hm <;>
      simp only [Bool.false_eq_true, if_true, if_false, List.cons_append, List.nil_append, List.mem_cons, List.not_mem_nil, or_false, Prod.mk.injEq] at hm <;>
      rcases hm with ⟨rfl, rfl⟩ | ⟨rfl, rfl⟩ | ⟨rfl, rfl⟩ | ⟨rfl, rfl⟩ <;>
      refine ⟨rfl, fun k => ?_⟩ <;>
      simp (decide := true) only [Bool.false_eq_true, if_true, if_false, List.cons_append, List.nil_append, List.append_nil, rowSum_cons_in, rowSum_cons_out, rowSum_nil,
        not_false_eq_true, Matrix.one_mulVec, slF, add_zero]
  · rw [row_dim, hi]
    unfold fDiscrete rotId
    rw [hi]
    revert hm
    cases o.calibG <;> cases o.kalibr <;> intro hm <;>
      simp only [Bool.false_eq_true, if_true, if_false, List.cons_append, List.nil_append, List.mem_cons, List.not_mem_nil, or_false, Prod.mk.injEq] at hm <;>
      rcases hm with ⟨rfl, rfl⟩ | ⟨rfl, rfl⟩ | ⟨rfl, rfl⟩ | ⟨rfl, rfl⟩ <;>
      refine ⟨rfl, fun k => ?_⟩ <;>
      simp (decide := true) only [Bool.false_eq_true, if_true, if_false, List.cons_append, List.nil_append, List.append_nil, rowSum_cons_in, rowSum_cons_out, rowSum_nil,
        not_false_eq_true, Matrix.one_mulVec, slF, add_zero]

end Verif.Prop_
