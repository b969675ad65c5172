import Verif.Vio.PropsImage
import Verif.State.PropsSure

/-!
# What the filter knows about calibration, window and landmarks is never lost (C112)
-/

set_option autoImplicit false
set_option linter.unusedVariables false
open Classical

namespace Verif.Vio

open Verif Verif.Types Verif.St Verif.Imu Verif.Prop_ Verif.Feat Verif.Disp

variable {lib : Lib} {o : Opts} {s s' s'' : State} {M M' : ℕ → Upd.LMeta} {F : FCfg} {I : Img} {A : ℕ → Prop}

/-! ## the relation -/

/-- variables do not come back, and joint covariances of the variables in `A` that are there before and after do not go up. -/
structure Sure (A : ℕ → Prop) (s s' : State) : Prop where
  next : s.next ≤ s'.next
  old : ∀ u ∈ s'.vars, u < s.next → u ∈ s.vars
  cov : ∀ order : List Ref, (∀ r ∈ order, A r.1 ∧ r.1 ∈ s.vars ∧ r.1 ∈ s'.vars) → St.Spec.NotAbove (getMarginal s' order) (getMarginal s order)

theorem Sure.refl (A : ℕ → Prop) (s : State) : Sure A s s := ⟨le_refl _, fun _ h _ => h, fun _ _ => notAbove_refl _⟩

theorem Sure.trans (hI : Inv s) (h : Sure A s s') (h' : Sure A s' s'') : Sure A s s'' := by
  refine ⟨h.next.trans h'.next, fun u hu hl => h.old u (h'.old u hu (lt_of_lt_of_le hl h.next)) hl, fun order ho => ?_⟩
  have hm : ∀ r ∈ order, r.1 ∈ s'.vars := fun r hr => h'.old _ (ho r hr).2.2 (lt_of_lt_of_le (hI.alloc _ (ho r hr).2.1) h.next)
  exact notAbove_trans (h'.cov order fun r hr => ⟨(ho r hr).1, hm r hr, (ho r hr).2.2⟩) (h.cov order fun r hr => ⟨(ho r hr).1, (ho r hr).2.1, hm r hr⟩)

theorem Sure.mono {B : ℕ → Prop} (h : Sure A s s') (hB : ∀ u, B u → A u) : Sure B s s' := ⟨h.next, h.old, fun order ho => h.cov order fun r hr => ⟨hB _ (ho r hr).1, (ho r hr).2⟩⟩

/-- an operation of the state that does not bring an object into the state. -/
theorem sure_step (hlib : St.Spec.LibOK lib) (hs : St.Spec.ProgOK lib o s) {op : Op} (ha : St.Spec.ArgsOK s op) (h : St.step lib s op = some s') (hA : ∀ u, A u → ¬ St.Spec.Raised op u)
    (h1 : ∀ u ord HR HL R res, op ≠ .initInv u ord HR HL R res) (h2 : ∀ u ord HR HL R res mult, op ≠ .initDelayed u ord HR HL R res mult) : Sure A s s' := by
  obtain ⟨a, b⟩ := step_old (reach_inv hs.prog.reach) h
  exact ⟨a, b h1 h2, fun order ho => C112_step hlib (Upd.progOK_reach hs) ha h order fun r hr => ⟨(ho r hr).2.1, (ho r hr).2.2, hA _ (ho r hr).1⟩⟩

theorem sure_time (t : ℝ) : Sure A s { s with ts := t } := ⟨le_refl _, fun _ h _ => h, fun _ _ => by rw [marginal_congr (s := s) (s' := { s with ts := t }) (fun r _ => rfl) rfl]; exact notAbove_refl _⟩

/-! ## posteriors -/

theorem gram_psd {m n : ℕ} (F : Matrix (Fin m) (Fin n) ℝ) (x : Fin n → ℝ) : 0 ≤ dotProduct x ((F.transpose * F).mulVec x) := by
  rw [← Matrix.mulVec_mulVec, Matrix.dotProduct_mulVec, Matrix.vecMul_transpose]
  exact Finset.sum_nonneg fun i _ => mul_self_nonneg _

theorem sum_psd {n : ℕ} {ι : Type} (f : ι → Matrix (Fin n) (Fin n) ℝ) : ∀ l : List ι, (∀ i ∈ l, (f i).transpose = f i ∧ ∀ x, 0 ≤ dotProduct x ((f i).mulVec x)) →
    (l.map f).sum.transpose = (l.map f).sum ∧ ∀ x, 0 ≤ dotProduct x ((l.map f).sum.mulVec x)
  | [], _ => by simp
  | i :: l, h => by
    obtain ⟨a, b⟩ := h i (by simp)
    obtain ⟨c, d⟩ := sum_psd f l fun j hj => h j (by simp [hj])
    refine ⟨by rw [List.map_cons, List.sum_cons, Matrix.transpose_add, a, c], fun x => ?_⟩
    rw [List.map_cons, List.sum_cons, Matrix.add_mulVec, dotProduct_add]
    exact add_nonneg (b x) (d x)

/-- with a positive semidefinite information matrix the posterior covariance is not above the prior one. -/
theorem posterior_le {n : ℕ} {P P' L : Matrix (Fin n) (Fin n) ℝ} (hP : P.transpose = P) (hP' : P'.transpose = P') (hL : L.transpose = L) (hps : ∀ x, 0 ≤ dotProduct x (P.mulVec x)) (hpl : ∀ x, 0 ≤ dotProduct x (L.mulVec x))
    (h : P' * (1 + L * P) = P) (x : Fin n → ℝ) : 0 ≤ dotProduct x ((P - P').mulVec x) := by
  have h' : (1 + P * L) * P' = P := by
    have := congrArg Matrix.transpose h
    simpa [Matrix.transpose_mul, hP, hP', hL] using this
  have e1 : P = P' + P' * L * P := by
    conv_lhs => rw [← h]
    rw [Matrix.mul_add, Matrix.mul_one, Matrix.mul_assoc]
  have e2 : P = P' + P * L * P' := by
    conv_lhs => rw [← h']
    rw [Matrix.add_mul, Matrix.one_mul]
  have e3 : P - P' = P' * L * P' + P' * (L * P * L) * P' := by
    have : P - P' = P' * L * P := by rw [sub_eq_iff_eq_add, add_comm]; exact e1
    rw [this]
    conv_lhs => rw [e2]
    rw [Matrix.mul_add]
    simp only [Matrix.mul_assoc]
  have q : ∀ (B : Matrix (Fin n) (Fin n) ℝ), dotProduct x ((P' * B * P').mulVec x) = dotProduct (P'.mulVec x) (B.mulVec (P'.mulVec x)) := fun B => by
    rw [← Matrix.mulVec_mulVec, ← Matrix.mulVec_mulVec, Matrix.dotProduct_mulVec, ← Matrix.mulVec_transpose, hP']
  have q2 : ∀ y, dotProduct y ((L * P * L).mulVec y) = dotProduct (L.mulVec y) (P.mulVec (L.mulVec y)) := fun y => by
    rw [← Matrix.mulVec_mulVec, ← Matrix.mulVec_mulVec, Matrix.dotProduct_mulVec, ← Matrix.mulVec_transpose, hL]
  rw [e3, Matrix.add_mulVec, dotProduct_add, q, q, q2]
  exact add_nonneg (hpl _) (hps _)

theorem cov_facts (hlib : St.Spec.LibOK lib) (hs : St.Spec.ProgOK lib o s) : (St.Spec.cov s).transpose = St.Spec.cov s ∧ ∀ x, 0 ≤ dotProduct x ((St.Spec.cov s).mulVec x) := by
  have h1 := reach_sym hs.prog.reach
  refine ⟨?_, fun x => Mat.psd_iff.1 (reach_psd hlib (Upd.progOK_reach hs)) x⟩
  ext i j
  exact h1 j i j.2 i.2

theorem sure_posterior (hlib : St.Spec.LibOK lib) (hs : St.Spec.ProgOK lib o s) (hs' : St.Spec.ProgOK lib o s') {L : Matrix (Fin s.n) (Fin s.n) ℝ} {b : Fin s.n → ℝ} (hL : L.transpose = L) (hpl : ∀ x, 0 ≤ dotProduct x (L.mulVec x))
    (h : St.Spec.Posterior s s' L b) (hn : s'.next = s.next) : Sure A s s' := by
  obtain ⟨a1, a2⟩ := cov_facts hlib hs
  refine ⟨hn.ge, fun u hu _ => by rw [← h.vars]; exact hu, fun order _ => notAbove_le (resolveAll_congr fun q _ => ?_) fun x => ?_⟩
  · refine SameLayout.resolve ⟨h.n, h.vars, hn, fun u => (h.same u).1, fun u => ?_, fun u => by rw [(h.same u).2]; exact sameKind_refl _⟩ q
    by_cases hu : u ∈ s.vars
    · obtain ⟨k, -, dx, -, e⟩ := h.val u hu
      rw [e]; exact sameKind_update _ _
    · rw [h.other u hu]; exact sameKind_refl _
  · refine posterior_le a1 ?_ hL a2 hpl h.cov x
    ext i j
    have := reach_sym hs'.prog.reach
    rw [h.n] at this
    exact this j i j.2 i.2

/-! ## propagation -/

theorem assemble_zero (l : List Blk) {i : ℕ} (j : ℕ) (h : ∀ b ∈ l, b.r + b.nr ≤ i) : assemble l i j = 0 := by
  unfold assemble
  have : ∀ (l : List Blk) (G : Mat), (∀ b ∈ l, b.r + b.nr ≤ i) → G i j = 0 → l.foldl (fun F b => Mat.setBlock b.r b.c b.nr b.nc b.a F) G i j = 0 := by
    intro l
    induction l with
    | nil => intro G _ h; exact h
    | cons b l ih =>
      intro G hb hG
      refine ih _ (fun c hc => hb c (by simp [hc])) ?_
      have := hb b (by simp)
      show (if (b.r ≤ i ∧ i < b.r + b.nr) ∧ b.c ≤ j ∧ j < b.c + b.nc then b.a (i - b.r) (j - b.c) else G i j) = 0
      rw [if_neg (by omega)]; exact hG
  exact this l _ h rfl

/-- `F` and `Qd` of one step, on the rows of the IMU intrinsics: they stay as they are, without noise. -/
def Inert (d : ℕ) (FQ : Mat × Mat) : Prop := (∀ r k, 15 ≤ r → r < d → k < d → FQ.1 r k = if r = k then 1 else 0) ∧ ∀ r k, 15 ≤ r → 15 ≤ k → r < d → k < d → FQ.2 r k = 0

theorem predict_inert (o : Opts) (po : POpts) (N : Noise) (c : Cal) (x xf : Imu16) (d0 d1 : Reading) : Inert (intrSize o + 15) (predictAndCompute o po N c x xf d0 d1).2 := by
  have row : ∀ (G : Mat) (r k : ℕ), (∀ δ : ℕ → ℝ, Mat.mulVec (intrSize o + 15) G δ r = δ r) → k < intrSize o + 15 → G r k = if r = k then 1 else 0 := by
    intro G r k h hk
    have := h fun j => if j = k then 1 else 0
    simp only [Mat.mulVec, mul_ite, mul_one, mul_zero, Finset.sum_ite_eq', Finset.mem_range, hk, if_true] at this
    exact this
  have ncov : ∀ (l : List Blk) (Qc : Mat) (r k : ℕ), (∀ b ∈ l, b.r + b.nr ≤ 15) → 15 ≤ r → 15 ≤ k → noiseCov (assemble l) Qc r k = 0 := by
    intro l Qc r k hl h1 h2
    have z : ∀ {r : ℕ} (j : ℕ), 15 ≤ r → assemble l r j = 0 := fun {r} j h => assemble_zero l j fun b hb => (hl b hb).trans h
    simp [noiseCov, Mat.mul, Mat.tr, z _ h1, z _ h2]
  unfold predictAndCompute
  simp only
  constructor
  · intro r k h1 h2 h3
    cases po.method
    · exact row _ r k (fun δ => (f_rows_intr o ⟨0,0,0,0,0,0⟩ _ δ r h1 h2).2) h3
    · exact row _ r k (fun δ => (f_rows_intr o _ _ δ r h1 h2).1) h3
    · exact row _ r k (fun δ => (f_rows_intr o _ _ δ r h1 h2).1) h3
  · intro r k h1 h2 h3 h4
    cases po.method
    · exact ncov _ _ r k (by simp [gDiscrete, blk]) h1 h2
    · exact ncov _ _ r k (by simp [gAnalytic, blk]) h1 h2
    · exact ncov _ _ r k (by simp [gAnalytic, blk]) h1 h2

theorem propLoop_inert (o : Opts) (po : POpts) (N : Noise) (c : Cal) : ∀ (l : List Reading) (x xf : Imu16) (acc : List (Mat × Mat)), (∀ a ∈ acc, Inert (intrSize o + 15) a) →
    ∀ a ∈ (propLoop o po N c l x xf acc).2.2, Inert (intrSize o + 15) a
  | [], _, _, _, h => h
  | [_], _, _, _, h => h
  | d0 :: d1 :: rest, x, xf, acc, h => by
    rw [propLoop]
    refine propLoop_inert o po N c (d1 :: rest) _ _ _ fun a ha => ?_
    rcases List.mem_append.1 ha with ha | ha
    · exact h a ha
    · obtain rfl := List.mem_singleton.1 ha; exact predict_inert o po N c x xf d0 d1

theorem accum_inert (d : ℕ) : ∀ (steps : List (Mat × Mat)) (acc : Mat × Mat), (∀ a ∈ steps, Inert d a) → Inert d acc → Inert d (steps.foldl (accumStep d) acc)
  | [], _, _, h => h
  | a :: l, acc, hl, h => by
    refine accum_inert d l _ (fun b hb => hl b (by simp [hb])) ?_
    obtain ⟨f1, f2⟩ := hl a (by simp)
    obtain ⟨g1, g2⟩ := h
    have row : ∀ (B : Mat) (r k : ℕ), 15 ≤ r → r < d → Mat.mul d a.1 B r k = B r k := by
      intro B r k h1 h2
      rw [Mat.mul, Finset.sum_eq_single r]
      · rw [f1 r r h1 h2 h2, if_pos rfl, one_mul]
      · intro j hj hne
        rw [f1 r j h1 h2 (Finset.mem_range.1 hj), if_neg (Ne.symm hne), zero_mul]
      · intro hn; exact absurd (Finset.mem_range.2 h2) hn
    have col : ∀ (B : Mat) (r k : ℕ), 15 ≤ k → k < d → Mat.mul d B (Mat.tr a.1) r k = B r k := by
      intro B r k h1 h2
      rw [Mat.mul, Finset.sum_eq_single k]
      · rw [Mat.tr, f1 k k h1 h2 h2, if_pos rfl, mul_one]
      · intro j hj hne
        rw [Mat.tr, f1 k j h1 h2 (Finset.mem_range.1 hj), if_neg (Ne.symm hne), mul_zero]
      · intro hn; exact absurd (Finset.mem_range.2 h2) hn
    refine ⟨fun r k h1 h2 h3 => ?_, fun r k h1 h2 h3 h4 => ?_⟩
    · simp only [accumStep]; rw [row _ _ _ h1 h2]; exact g1 r k h1 h2 h3
    · simp only [accumStep]
      rw [col _ _ _ h2 h4, col _ _ _ h1 h3, row _ _ _ h1 h3, row _ _ _ h2 h4, g2 r k h1 h2 h3 h4, g2 k r h2 h1 h4 h3, f2 r k h1 h2 h3 h4, f2 k r h2 h1 h4 h3]
      simp

theorem sure_prop (hlib : St.Spec.LibOK lib) {po : POpts} {N : Noise} {buf : List Reading} {lo : Option ℝ} {t off : ℝ} (hs : St.Spec.Prog lib o s)
    (h : propagateAndClone po N buf lo s t = some (s', off)) : Sure (fun u => u ≠ imuUid) s s' := by
  unfold propagateAndClone at h
  split_ifs at h with h0
  rw [Option.bind_eq_bind, Option.bind_eq_some_iff] at h
  obtain ⟨c, hc, h⟩ := h
  rw [Option.bind_eq_bind, Option.bind_eq_some_iff] at h
  obtain ⟨off', hoff, h⟩ := h
  rw [Option.bind_eq_bind, Option.bind_eq_some_iff] at h
  obtain ⟨⟨x, f⟩, hx, h⟩ := h
  simp only at h
  split_ifs at h with h1
  rw [Option.bind_eq_bind, Option.bind_eq_some_iff] at h
  obtain ⟨s2, h2, h⟩ := h
  rw [Option.bind_eq_some_iff] at h
  obtain ⟨s3, h3, h⟩ := h
  simp only [Option.pure_def, Option.some.injEq, Prod.mk.injEq] at h
  obtain ⟨rfl, rfl⟩ := h
  have hst := propLoop_inert s.opts po N c (select buf (s.ts + lo.getD off') (t + off')) x f [] (by simp)
  generalize (propLoop s.opts po N c (select buf (s.ts + lo.getD off') (t + off')) x f []) = R at *
  obtain ⟨x0, f0, hx0, hf0⟩ := prog_imu hs
  have p1 := hs.step (op := .setVal imuUid (.imu R.1)) trivial (s' := { s with obj := fun w => if w = imuUid then { s.obj imuUid with val := .imu R.1 } else s.obj w }) (by simp [St.step, hx0, sameKind])
  have p2 : St.Spec.Prog lib o (setImu s R.1 R.2.1) := p1.step (op := .setFej imuUid (.imu R.2.1)) trivial (by
    simp only [St.step, if_pos, hf0, sameKind, setImu]
    simp only [if_true, Option.some.injEq, State.mk.injEq, true_and, and_true]
    funext w
    by_cases e : w = imuUid <;> simp [e])
  have k1 : Sure (fun u => u ≠ imuUid) s (setImu s R.1 R.2.1) := by
    refine ⟨le_refl _, fun _ h _ => h, fun order ho => ?_⟩
    rw [marginal_congr (s := s) (s' := setImu s R.1 R.2.1) (fun r hr => ?_) rfl]
    · exact notAbove_refl _
    · unfold resolve; simp only [setImu, if_neg (ho r hr).1]
  have hp := h2
  unfold propagateSummed at hp
  have p3 := p2.step (op := .propagate _ _ _ _) trivial hp
  have p4 : St.Spec.Prog lib o { s2 with ts := t } := p3.step (op := .setTime t) trivial rfl
  have k2 : Sure (fun u => u ≠ imuUid) (setImu s R.1 R.2.1) s2 := by
    refine ⟨(propagate_same hp).1.next.ge, fun u hu _ => by rw [← (propagate_same hp).1.vars]; exact hu, fun order ho => ?_⟩
    have hh : Inert (intrSize (setImu s R.1 R.2.1).opts + 15) (accum (intrSize (setImu s R.1 R.2.1).opts + 15) R.2.2) := by
      refine accum_inert _ _ _ hst ⟨fun r k _ _ _ => ?_, fun _ _ _ _ _ _ => rfl⟩
      simp [Mat.one]
    obtain ⟨q1, q2⟩ := hh
    refine propagate_keep (lo := 15) p2.reach hp (fun b hb => ?_) (fun r k a1 a2 a3 => q1 r k a1 a2 a3) (fun r k a1 a2 a3 a4 => q2 r k a1 a2 a3 a4) fun r hr => (ho r hr).1
    unfold resolve at hb
    simp only [setImu, if_true, Val.part] at hb
    split_ifs at hb
    obtain rfl := Option.some.inj hb
    rfl
  have k4 : Sure (fun u => u ≠ imuUid) { s2 with ts := t } s3 := by
    have hI := reach_inv p4.reach
    obtain ⟨-, -, -, -, -, e6, e7, -⟩ := augment_maps hI h3
    refine ⟨by omega, fun u hu hl => ?_, fun order ho => ?_⟩
    · rw [e7, List.mem_append, List.mem_singleton] at hu
      rcases hu with hu | rfl
      · exact hu
      · exact absurd hl (lt_irrefl _)
    · obtain ⟨b1, b2⟩ := augment_sure hI h3 fun q hq => (ho q hq).2.1
      exact notAbove_block b1 fun L hL i j hi hj => b2 _ _ (ix_lt (resolveAll_le hL) hi) (ix_lt (resolveAll_le hL) hj)
  exact (k1.trans (reach_inv hs.reach) (k2.trans (reach_inv p2.reach) ((sure_time t).trans (reach_inv p3.reach) k4)))

/-! ## the updates -/

theorem scaled_psd {m n : ℕ} {c : ℝ} (hc : 0 ≤ c) (F : Matrix (Fin m) (Fin n) ℝ) : (c • (F.transpose * F)).transpose = c • (F.transpose * F) ∧ ∀ x, 0 ≤ dotProduct x ((c • (F.transpose * F)).mulVec x) := by
  refine ⟨by rw [Matrix.transpose_smul, Matrix.transpose_mul, Matrix.transpose_transpose], fun x => ?_⟩
  rw [Matrix.smul_mulVec, dotProduct_smul, smul_eq_mul]
  exact mul_nonneg hc (gram_psd F x)

theorem sure_msckf (hlib : St.Spec.LibOK lib) (hs : St.Spec.ProgOK lib o s) {C : Upd.MCfg} (hS : 0 < C.sig2) {tri : Upd.Track → Option Upd.Fix} {fs : List Upd.Track} (hfs : ∀ f ∈ fs, (f.obs.map Prod.fst).Nodup) {used : List ℕ}
    (h : Upd.msckfUpdate lib s C tri fs = some (s', used)) : Sure A s s' := by
  obtain ⟨items, -, -, -, i4, i5, hp, -⟩ := Upd.C95_msckf_update hlib hs hS tri fs hfs h
  have hn : s'.next = s.next := by
    simp only [Upd.msckfUpdate, Option.bind_eq_bind, Option.bind_eq_some_iff] at h
    obtain ⟨B, -, h⟩ := h
    split_ifs at h
    · simp only [Option.some.injEq, Prod.mk.injEq] at h; obtain ⟨rfl, -⟩ := h; rfl
    · simp only [Option.some.injEq, Prod.mk.injEq] at h; obtain ⟨rfl, -⟩ := h; rfl
    · simp only [Option.bind_eq_some_iff, Option.some.injEq, Prod.mk.injEq] at h
      obtain ⟨s1, h1, rfl, -⟩ := h
      exact (update_same (reach_inv hs.prog.reach).nodup h1).next
  by_cases hacc : (items.filter fun i => decide (i.Pass lib s C)) = []
  · rw [i4 hacc]; exact Sure.refl _ _
  · obtain ⟨a, b⟩ := sum_psd (fun i : Upd.Spec.Item => (i.F s).transpose * i.F s) (items.filter fun i => decide (i.Pass lib s C)) fun i _ => by
      have := scaled_psd (c := 1) zero_le_one (i.F s); simpa using this
    refine sure_posterior hlib hs hp ?_ (fun x => ?_) (i5 hacc) hn
    · rw [Matrix.transpose_smul, a]
    · rw [Matrix.smul_mulVec, dotProduct_smul, smul_eq_mul]
      exact mul_nonneg (by positivity) (b x)

theorem sure_slam (hlib : St.Spec.LibOK lib) (hs : St.Spec.ProgOK lib o s) (hsz : Upd.Spec.Sizes s M) {C : Upd.SCfg} (hS : 0 < C.sigS) (hA : 0 < C.sigA) {fs : List Upd.Track} (hfs : ∀ f ∈ fs, (f.obs.map Prod.fst).Nodup) {R : Upd.SOut}
    (h : Upd.slamUpdate lib s M C fs = some R) : Sure A s R.s := by
  obtain ⟨-, items, -, -, -, i4, i5, -, -, hp, -⟩ := Upd.C96_slam_update hlib hs hsz hS hA fs hfs h
  have hn : R.s.next = s.next := by
    simp only [Upd.slamUpdate, Option.bind_eq_bind, Option.bind_eq_some_iff] at h
    obtain ⟨cs, -, A, -, h⟩ := h
    split_ifs at h
    · obtain rfl := Option.some.inj h; rfl
    · simp only [Option.bind_eq_some_iff, Option.some.injEq] at h
      obtain ⟨s1, h1, rfl⟩ := h
      exact (update_same (reach_inv hs.prog.reach).nodup h1).next
  by_cases hacc : (items.filter fun i => decide (i.Pass lib s C)) = []
  · rw [i4 hacc]; exact Sure.refl _ _
  · obtain ⟨a, b⟩ := sum_psd (fun i : Upd.Spec.SItem => (1 / i.sig s C) • ((i.F s).transpose * i.F s)) (items.filter fun i => decide (i.Pass lib s C)) fun i _ =>
      scaled_psd (by unfold Upd.Spec.SItem.sig; split_ifs <;> positivity) (i.F s)
    exact sure_posterior hlib hs hp a b (i5 hacc) hn

theorem sure_batches (hlib : St.Spec.LibOK lib) {C : Upd.SCfg} (hS : 0 < C.sigS) (hA : 0 < C.sigA) : ∀ (bs : List (List Upd.Track)) (s : State) (M : ℕ → Upd.LMeta), Spec.FrameOK lib o s M →
    (∀ b ∈ bs, ∀ f ∈ b, TrackOK o f ∧ ∃ u, (f.id, u) ∈ s.slam) →
    ∀ s' M', slamBatches lib C bs (s, M) = some (s', M') → Sure A s s' ∧ ∀ u, (M' u).t = (M u).t
  | [], s, M, hs, _, s', M', h => by
    simp only [slamBatches, Option.some.injEq, Prod.mk.injEq] at h
    obtain ⟨rfl, rfl⟩ := h
    exact ⟨Sure.refl _ _, fun _ => rfl⟩
  | b :: bs, s, M, hs, hb, s', M', h => by
    simp only [slamBatches, Option.bind_eq_bind, Option.bind_eq_some_iff] at h
    obtain ⟨R, hR, h⟩ := h
    obtain ⟨-, items, i1, i2, -, i4, i5, hM, -, hp, hc, hl, -, ht⟩ := Upd.C96_slam_update hlib hs.prog hs.lms.sizes hS hA b (fun f hf => (hb b (by simp) f hf).1.1) hR
    have hk := slam_kind (reach_inv hs.prog.prog.reach).nodup hR
    have h1 : Spec.FrameOK lib o R.s R.M := by
      refine ⟨hp, lms_keep hs.lms (fun e he => by rw [hl] at he; exact he) (fun c h => by rw [hc]; exact h) (fun e _ => hk e.2) fun e _ => ?_, ?_, ?_⟩
      · rw [hM]; exact ⟨rfl, rfl, rfl⟩
      · rw [hl]; intro e he; rw [hM]; exact hs.ucam e he
      · rw [hc, ht]; exact hs.times
    obtain ⟨a, c⟩ := sure_batches hlib hS hA bs R.s R.M h1 (fun b' hb' f hf => by rw [hl]; exact hb b' (by simp [hb']) f hf) s' M' h
    exact ⟨(sure_slam hlib hs.prog hs.lms.sizes hS hA (fun f hf => (hb b (by simp) f hf).1.1) hR).trans (reach_inv hs.prog.prog.reach) a, fun u => by rw [c, hM]⟩

theorem sure_delayStep (hlib : St.Spec.LibOK lib) {C : Upd.SCfg} (hS : 0 < C.sigS) (hA : 0 < C.sigA) {g : Upd.Track × Upd.Fix} {D D' : Upd.DAcc} (hs : St.Spec.ProgOK lib o D.s) (h : Upd.delayStep lib C g D = some D') :
    Sure A D.s D'.s ∧ ∀ u, u < D.s.next → D'.M u = D.M u := by
  have hI := reach_inv hs.prog.reach
  simp only [Upd.delayStep, Option.bind_eq_bind, Option.bind_eq_some_iff] at h
  obtain ⟨y, -, l, -, s1, h1, ⟨R1, b⟩, h2, h⟩ := h
  have hs1 := progOK_step hs (op := .alloc _ _) trivial trivial h1
  have hsig : 0 < C.sig D.s g.1.id := by unfold Upd.SCfg.sig; split_ifs <;> assumption
  have k1 : Sure A D.s s1 := sure_step hlib hs (op := .alloc _ _) trivial h1 (fun _ _ h => h) (by simp) (by simp)
  have hI1 := step_inv hI h1
  have e1 : s1.vars = D.s.vars ∧ s1.next = D.s.next + 1 := by
    simp only [St.step] at h1
    split_ifs at h1
    obtain rfl := Option.some.inj h1
    exact ⟨rfl, rfl⟩
  have k2 : Sure A D.s R1 := by
    have hv : s1.next ≤ R1.next ∧ ∀ u ∈ R1.vars, u ∈ s1.vars ∨ u = D.s.next := by
      obtain ⟨-, -, -, -, -, -, -, -, -, ⟨-, rfl⟩ | ⟨-, s2, h3, h4⟩⟩ := initDelayed_some h2
      · exact ⟨le_refl _, fun u hu => .inl hu⟩
      · have hI2 := initInv_inv hI1 h3
        have e : s2.next = s1.next ∧ s2.vars = s1.vars ++ [D.s.next] := by
          obtain ⟨_, _, _, _, _, _, _, _, _, _, _, _, _, _, _, rfl⟩ := initInv_some h3
          exact ⟨rfl, rfl⟩
        rcases h4 with ⟨-, rfl⟩ | ⟨-, h4⟩
        · refine ⟨e.1.ge, fun u hu => ?_⟩
          rw [e.2, List.mem_append, List.mem_singleton] at hu; exact hu
        · have q := update_same hI2.nodup h4
          refine ⟨(q.next.trans e.1).ge, fun u hu => ?_⟩
          rw [q.vars, e.2, List.mem_append, List.mem_singleton] at hu; exact hu
    refine ⟨k1.next.trans hv.1, fun u hu hl => ?_, fun order ho => ?_⟩
    · rcases hv.2 u hu with h | rfl
      · rw [← e1.1]; exact h
      · exact absurd hl (lt_irrefl _)
    · have c1 := initDelayed_sure hlib (Upd.progOK_reach hs1) (by simpa [Mat.one] using hsig) h2 (ord := order) fun r hr => by rw [e1.1]; exact (ho r hr).2.1
      exact notAbove_trans c1 (k1.cov order fun r hr => ⟨(ho r hr).1, (ho r hr).2.1, by rw [e1.1]; exact (ho r hr).2.1⟩)
  cases b
  rotate_left
  · simp only [if_true] at h
    rw [Option.bind_eq_some_iff] at h
    obtain ⟨s2, h3, h⟩ := h
    obtain rfl := Option.some.inj h
    refine ⟨?_, fun u hu => if_neg hu.ne⟩
    simp only [St.step] at h3
    split_ifs at h3
    · obtain rfl := Option.some.inj h3; exact k2
    · obtain rfl := Option.some.inj h3
      refine ⟨k2.next, k2.old, fun order ho => ?_⟩
      have := k2.cov order ho
      rw [← marginal_congr (s := R1) (s' := { R1 with slam := R1.slam ++ [(g.1.id, D.s.next)] }) (fun r _ => rfl) rfl] at this
      exact this
  · simp only [Bool.false_eq_true, if_false] at h
    obtain rfl := Option.some.inj h
    exact ⟨k2, fun _ _ => rfl⟩

theorem sure_delayLoop (hlib : St.Spec.LibOK lib) {C : Upd.SCfg} (hS : 0 < C.sigS) (hA : 0 < C.sigA) : ∀ (gs : List (Upd.Track × Upd.Fix)) {D R : Upd.DAcc}, St.Spec.ProgOK lib o D.s → (∀ g ∈ gs, (g.1.obs.map Prod.fst).Nodup) →
    Upd.delayLoop lib C gs D = some R → Sure A D.s R.s ∧ ∀ u, u < D.s.next → R.M u = D.M u
  | [], D, R, hI, _, h => by obtain rfl := Option.some.inj h; exact ⟨Sure.refl _ _, fun _ _ => rfl⟩
  | g :: t, D, R, hs, hg, h => by
    simp only [Upd.delayLoop, Option.bind_eq_bind, Option.bind_eq_some_iff] at h
    obtain ⟨D', h1, h2⟩ := h
    obtain ⟨a, b⟩ := sure_delayStep (A := A) hlib hS hA hs h1
    obtain ⟨-, -, -, hs', -⟩ := Upd.delayStep_spec hlib hs hS hA (hg g (by simp)) h1
    obtain ⟨c, d⟩ := sure_delayLoop hlib hS hA t hs' (fun g' hg' => hg g' (by simp [hg'])) h2
    exact ⟨a.trans (reach_inv hs.prog.reach) c, fun u hu => (d u (lt_of_lt_of_le hu a.next)).trans (b u hu)⟩

theorem sure_anchors (hlib : St.Spec.LibOK lib) {C : Upd.SCfg} {mt : ℝ} : ∀ (l : List (ℕ × ℕ)) (s : State) (M : ℕ → Upd.LMeta), St.Spec.ProgOK lib o s → Upd.Spec.LmsOK o s M →
    (∃ w, (s.ts, w) ∈ s.clones) → (∀ c ∈ s.clones, mt ≤ c.1) → (∀ e ∈ l, e ∈ s.slam) →
    ∀ s' M', Upd.anchorLoop lib C mt l (s, M) = some (s', M') → Sure (fun u => ∀ e ∈ l, e.2 = u → ¬ (Land.Spec.Anchored (M u).rep ∧ (M u).t = mt)) s s'
  | [], s, M, hs, hl, _, _, _, s', M', h => by
    simp only [Upd.anchorLoop, Option.some.injEq, Prod.mk.injEq] at h
    obtain ⟨rfl, rfl⟩ := h
    exact Sure.refl _ _
  | e :: l, s, M, hs, hl, hts, hmt, he, s', M', h => by
    have hW := prog_W hs.prog
    simp only [Upd.anchorLoop, Option.bind_eq_bind, Option.bind_eq_some_iff] at h
    obtain ⟨⟨s1, M1⟩, h1, h⟩ := h
    obtain ⟨s1', M1', k1, k2, m1⟩ := Upd.anchorOne_spec (C := C) (mt := mt) hlib hs hl hts hmt (he e (by simp))
    rw [h1] at k1
    obtain ⟨rfl, rfl⟩ := Prod.mk.inj (Option.some.inj k1)
    have g1 : s1.clones = s.clones ∧ s1.ts = s.ts ∧ s1.slam = s.slam := by obtain ⟨P, b, rfl⟩ := m1.only; exact ⟨rfl, rfl, rfl⟩
    have hrest := sure_anchors hlib (C := C) (mt := mt) l s1 M1 k2 m1.ok (by rw [g1.1, g1.2.1]; exact hts) (by rw [g1.1]; exact hmt) (fun x hx => by rw [g1.2.2]; exact he x (by simp [hx])) s' M' h
    have hfirst : Sure (fun u => ∀ x ∈ e :: l, x.2 = u → ¬ (Land.Spec.Anchored (M u).rep ∧ (M u).t = mt)) s s1 := by
      obtain ⟨a1, a2⟩ := hl.1 e (he e (by simp))
      unfold Upd.anchorOne at h1
      simp only at h1
      by_cases hg : (M e.2).rep = .global3d ∨ (M e.2).rep = .globalFull
      · rw [if_pos hg] at h1
        obtain ⟨rfl, rfl⟩ := Prod.mk.inj (Option.some.inj h1)
        exact Sure.refl _ _
      rw [if_neg hg] at h1
      have ha : Land.Spec.Anchored (M e.2).rep := by
        push Not at hg
        revert a1 hg
        cases (M e.2).rep <;> simp [Land.Spec.Anchored]
      obtain ⟨⟨c, hc, hcn⟩, w, hw⟩ := a2 ((Land.C28_relative _).2 ha)
      rw [if_neg (not_not.2 (hmt _ hw))] at h1
      by_cases ht : (M e.2).t = mt
      · rw [if_pos ht, hc, Option.bind_some] at h1
        simp only [Upd.anchorStep, Option.bind_eq_bind, Option.bind_eq_some_iff] at h1
        obtain ⟨R, -, refs, -, t1, b1, t2, b2, t3, b3, h1⟩ := h1
        obtain ⟨rfl, -⟩ := Prod.mk.inj (Option.some.inj h1)
        have hu : ∀ u, (∀ x ∈ e :: l, x.2 = u → ¬ (Land.Spec.Anchored (M u).rep ∧ (M u).t = mt)) → e.2 ≠ u := fun u h heq => h e (by simp) heq (by rw [← heq]; exact ⟨ha, ht⟩)
        have n1 : t1.next = s.next ∧ t1.vars = s.vars := by
          have b1' : propagate _ _ _ _ _ = some t1 := b1
          obtain ⟨_, _, _, _, _, _, _, _, _, _, _, _, _, _, _, rfl⟩ := propagate_some b1'; exact ⟨rfl, rfl⟩
        have e2 : t2.next = t1.next ∧ t2.vars = t1.vars ∧ t2.P = t1.P ∧ t2.n = t1.n ∧ ∀ u, e.2 ≠ u → t2.obj u = t1.obj u := by
          simp only [St.step] at b2; split_ifs at b2; obtain rfl := Option.some.inj b2
          exact ⟨rfl, rfl, rfl, rfl, fun u hu => if_neg (Ne.symm hu)⟩
        have e3 : t3.next = t2.next ∧ t3.vars = t2.vars ∧ t3.P = t2.P ∧ t3.n = t2.n ∧ ∀ u, e.2 ≠ u → t3.obj u = t2.obj u := by
          simp only [St.step] at b3; split_ifs at b3; obtain rfl := Option.some.inj b3
          exact ⟨rfl, rfl, rfl, rfl, fun u hu => if_neg (Ne.symm hu)⟩
        refine ⟨by omega, fun u hu _ => by rw [← n1.2, ← e2.2.1, ← e3.2.1]; exact hu, fun order ho => ?_⟩
        have c1 : St.Spec.NotAbove (getMarginal t1 order) (getMarginal s order) := propagate_sure hs.prog.reach b1 fun r hr q hq => by
          obtain rfl := List.mem_singleton.1 hq
          exact hu _ (ho r hr).1
        rw [marginal_congr (s := t1) (s' := t3) (fun r hr => ?_) (by rw [e3.2.2.1, e2.2.2.1])]
        · exact c1
        · have := hu _ (ho r hr).1
          unfold resolve
          rw [e3.2.2.2.2 _ this, e2.2.2.2.2 _ this, e3.2.2.2.1, e2.2.2.2.1]
      · rw [if_neg ht] at h1
        obtain ⟨rfl, rfl⟩ := Prod.mk.inj (Option.some.inj h1)
        exact Sure.refl _ _
    refine hfirst.trans (reach_inv hs.prog.reach) (hrest.mono fun u hu x hx hxu => ?_)
    have := hu x (by simp [hx]) hxu
    rw [(m1.stay u this).1]; exact this

/-! ## zero velocity -/

theorem sure_try (hlib : St.Spec.LibOK lib) {Z : ZCfg} (hm : 0 < Z.mult) {mem mem' : ZMem} {buf : List Reading} {db db' : DB ℝ Uv} {t : ℝ} {b : Bool} (hs : St.Spec.ProgOK lib o s)
    (hsp : ∀ off, tOff s = some off → Imu.Spec.Spaced (select buf (s.ts + mem.off.getD off) (t + off)))
    (h : tryUpdate lib Z mem buf db s t = some (b, mem', s', db')) : Sure (fun u => u ≠ imuUid) s s' := by
  have triv : ∀ {m1 : ZMem} {d1 : DB ℝ Uv}, some (false, m1, s, d1) = some (b, mem', s', db') → Sure (fun u => u ≠ imuUid) s s' := by
    intro m1 d1 h
    simp only [Option.some.injEq, Prod.mk.injEq] at h
    obtain ⟨rfl, _, rfl, _⟩ := h
    exact Sure.refl _ _
  have fin : ∀ {D : Option (DB ℝ Uv)} {dt : ℝ} {k : ℕ} {H : DMat} {r : DVec} {m1 : ZMem}, 0 ≤ dt → (D.bind fun db' => (propagate s biasOrder biasOrder ⟨6, 6, Mat.one⟩ ⟨6, 6, qBias Z.noise dt⟩).bind fun s1 =>
      (update lib s1 zOrder H r ⟨k, k, zR Z.mult⟩).bind fun s2 => some (true, m1, { s2 with ts := t }, db')) = some (b, mem', s', db') → Sure (fun u => u ≠ imuUid) s s' := by
    intro D dt k H r m1 hdt h
    simp only [Option.bind_eq_some_iff, Option.some.injEq, Prod.mk.injEq] at h
    obtain ⟨db1, _, s1, e1, s2, e2, rfl, _, rfl, _⟩ := h
    obtain ⟨P1, b1, b2, -⟩ := bias_prop hlib hs Z.noise hdt
    rw [e1] at b1
    obtain rfl := Option.some.inj b1
    have k1 : Sure (fun u => u ≠ imuUid) s { s with P := P1 } := by
      refine ⟨le_refl _, fun _ h _ => h, fun order ho => propagate_sure hs.prog.reach e1 fun r hr q hq => ?_⟩
      have : q.1 = imuUid := by
        simp only [biasOrder, List.mem_cons, List.not_mem_nil, or_false] at hq
        rcases hq with rfl | rfl <;> rfl
      rw [this]; exact fun e => (ho r hr).1 e.symm
    have harg : Mat.Sym k (zR Z.mult) ∧ Mat.PD k (zR Z.mult) := by
      rw [show zR Z.mult = (Upd.Spec.iso k Z.mult).a by rw [← zR_iso]]
      exact ⟨iso_sym _ _, iso_pd _ hm⟩
    have k2 : Sure (fun u => u ≠ imuUid) { s with P := P1 } s2 := sure_step hlib b2 (op := .update zOrder H r ⟨k, k, zR Z.mult⟩) harg e2 (fun _ _ h => h) (by simp) (by simp)
    exact (k1.trans (reach_inv hs.prog.reach) k2).trans (reach_inv hs.prog.reach) (sure_time t)
  unfold tryUpdate at h
  by_cases h1 : buf = []
  · rw [if_pos h1] at h; exact triv h
  rw [if_neg h1] at h
  by_cases h2 : s.ts = t
  · rw [if_pos h2] at h; exact triv h
  rw [if_neg h2] at h
  rw [Option.bind_eq_bind, Option.bind_eq_some_iff] at h
  obtain ⟨c, hc, h⟩ := h
  rw [Option.bind_eq_bind, Option.bind_eq_some_iff] at h
  obtain ⟨off, hoff, h⟩ := h
  rw [Option.bind_eq_bind, Option.bind_eq_some_iff] at h
  obtain ⟨⟨x, f⟩, hx, h⟩ := h
  simp only at h
  by_cases h3 : (select buf (s.ts + mem.off.getD off) (t + off)).length < 2
  · rw [if_pos h3] at h; exact triv h
  rw [if_neg h3] at h
  by_cases h4 : (zSystem s Z c x f (select buf (s.ts + mem.off.getD off) (t + off))).1 < 1
  · rw [if_pos h4] at h; exact triv h
  rw [if_neg h4] at h
  rw [Option.bind_eq_bind, Option.bind_eq_some_iff] at h
  obtain ⟨Pm, hPm, h⟩ := h
  rw [Option.bind_eq_bind, Option.bind_eq_some_iff] at h
  obtain ⟨st, hst, h⟩ := h
  have hdt := dtSum_nonneg _ (hsp off hoff)
  by_cases h6 : 2 ≤ mem.count
  all_goals
    simp only [h6, if_true, if_false] at h
    split_ifs at h with h5
    · exact triv h
    · exact fin hdt h

/-! ## the updates of an image -/

theorem sure_marg (hlib : St.Spec.LibOK lib) (hs : St.Spec.ProgOK lib o s) {fl : ℕ × ℕ → Bool} {l : List (ℕ × ℕ)} {s1 s2 : State} (h1 : run lib s (l.map fun e => Op.setMarg e.2 (fl e)) = some s1) (h2 : margSlam s1 = some s2) : Sure A s s2 := by
  obtain ⟨s1', k1, k2, ⟨obj, k3⟩, -⟩ := flags_run (lib := lib) (o := o) fl l s hs
  rw [h1] at k1
  obtain rfl := Option.some.inj k1
  obtain ⟨e1, e2, e3⟩ := flags_same fl l h1
  have a : Sure A s s1 := ⟨by rw [k3], fun u hu _ => by rw [k3] at hu; exact hu, fun order _ => by
    rw [marginal_obj (fun u => ⟨(e3 u).1, (e3 u).2.1⟩) e1 e2]; exact notAbove_refl _⟩
  exact a.trans (reach_inv hs.prog.reach) (sure_step hlib k2 (op := .margSlam) trivial h2 (fun _ _ h => h) (by simp) (by simp))

/-- what the updates of an image do: variables that stay, and are not landmarks whose anchor is changed, do not become less certain. -/
theorem updateAll_sure (hlib : St.Spec.LibOK lib) (hF : Spec.CfgOK o F) (hI : Spec.ImgOK o I) (hs : Spec.FrameOK lib o s M) (hts : ∃ w, (s.ts, w) ∈ s.clones) (hlen : s.clones.length ≤ o.maxClones + 1)
    {p : Plan} (hp : plan lib F I I.db s M = some p) (hu : updateAll lib F I p M = some (s', M')) :
    Sure (fun u => u ∈ s.vars ∧ ∀ e ∈ s'.slam, e.2 = u → (M' u).t = (M u).t) s s' := by
  have hW := prog_W hs.prog.prog
  have hIs := reach_inv hs.prog.prog.reach
  have hdp : ∃ s1, run lib s (flagOps s.slam ((s.slam.map (lmSeen s M)).map (lmFlag I.db I.cams))) = some s1 ∧ margSlam s1 = some p.s := by
    unfold plan at hp
    simp only [Option.bind_eq_bind, Option.bind_eq_some_iff, Option.some.injEq] at hp
    obtain ⟨mt, -, lms, h2, s1, h3, s2, h4, up, -, rfl⟩ := hp
    rw [lmView_eq hs.ucam] at h2
    obtain rfl := Option.some.inj h2
    exact ⟨s1, h3, h4⟩
  obtain ⟨lms, q1, q2, q3, q4, q5⟩ := plan_some hp
  obtain ⟨s1, hd1, hd2⟩ := hdp
  obtain ⟨s1', s2', a1, a2, a3, a4, a5, -⟩ := marg_step hs I.db I.cams
  rw [hd1] at a1
  obtain rfl := Option.some.inj a1
  rw [hd2] at a2
  obtain rfl := Option.some.inj a2
  set r := frameRoles F I I.db s p.mt lms with hr
  have hmem := roles_mem (c := F.sel s.opts) (db := I.db) (ar := I.aruco) (ts := s.ts) (mt := p.mt) (nc := s.clones.length) (dl := decide (F.dtSlam ≤ I.t - F.startup)) (cams := I.cams)
    (lms := lms)
  have hcand : ∀ f ∈ r.candidates, TrackOK o (toTrack f) := fun f hf => hI.db.track (hmem.1 f hf)
  have hslam : ∀ x ∈ r.slam, TrackOK o (toTrack x.f) := fun x hx => by
    rcases hmem.2 x hx with h | ⟨a, k, h, hk⟩
    · exact hI.db.track h
    · exact (hI.aruco a h).track ⟨k, hk⟩
  have hups : ∀ f ∈ p.up, f ∈ r.candidates := fun f hf => (hF.sort r.candidates).subset ((cut_sub q3).subset hf)
  have hupt : ∀ f ∈ p.up.map toTrack, TrackOK o f := fun f hf => by
    obtain ⟨g, hg, rfl⟩ := List.mem_map.1 hf
    exact hcand g (hups g hg)
  unfold updateAll at hu
  simp only [Option.bind_eq_bind, Option.bind_eq_some_iff] at hu
  obtain ⟨s3, b1, bs, c1, ⟨s4, M4⟩, e1, ⟨s5, M5⟩, f1, hu⟩ := hu
  obtain ⟨s3', b1', b2, b3, b4, b5, -⟩ := msckf_ok (I := I) hlib hF a3 (fs := p.up.map toTrack) hupt
  rw [b1] at b1'
  obtain rfl := Option.some.inj b1'
  obtain ⟨bs', c1', c2, c3⟩ := C42_batches_partial F.maxUp hF.batch p.upd.length p.upd le_rfl
  rw [c1] at c1'
  obtain rfl := Option.some.inj c1'
  have hbs : ∀ b ∈ bs.map (fun b => b.map fun x => toTrack x.f), ∀ f ∈ b, TrackOK o f ∧ ∃ u, (f.id, u) ∈ s3.slam := by
    intro b hb f hf
    obtain ⟨b0, hb0, rfl⟩ := List.mem_map.1 hb
    obtain ⟨x, hx, rfl⟩ := List.mem_map.1 hf
    have hx' : x ∈ r.slam.filter (isLm p.s) := by
      rw [← q4, ← c2]; exact List.mem_flatten.2 ⟨b0, hb0, hx⟩
    obtain ⟨h1, h2⟩ := List.mem_filter.1 hx'
    refine ⟨hslam x h1, ?_⟩
    simp only [isLm, List.contains_iff_mem, List.mem_map] at h2
    obtain ⟨e, he, h⟩ := h2
    exact ⟨e.2, by rw [b5]; show (x.f.featid, e.2) ∈ _; rw [← h]; exact he⟩
  obtain ⟨s4', M4', e1', e2, e3, e4, e5, -⟩ := batches_ok hlib hF.sigS hF.sigA _ s3 M b2 hbs
  rw [e1] at e1'
  obtain ⟨rfl, rfl⟩ := Prod.mk.inj (Option.some.inj e1')
  have hdt : ∀ f ∈ p.del.map (fun x => toTrack x.f), TrackOK o f := fun f hf => by
    obtain ⟨x, hx, rfl⟩ := List.mem_map.1 hf
    rw [q5] at hx
    exact hslam x (List.mem_filter.1 hx).1
  obtain ⟨s5', M5', f1', f2, f3, f4, -⟩ := delay_ok (I := I) hlib hF e2 (fs := p.del.map fun x => toTrack x.f) hdt
  rw [f1] at f1'
  obtain ⟨rfl, rfl⟩ := Prod.mk.inj (Option.some.inj f1')
  have hcl : s5.clones = s.clones := by rw [f3, e3, b3, a4]
  have ht5 : s5.ts = s.ts := by rw [f4, e4, b4, a5]
  simp only at hu
  rw [if_neg hI.cams] at hu
  simp only [Option.bind_eq_some_iff, Option.some.injEq, Prod.mk.injEq] at hu
  obtain ⟨⟨s6, M6⟩, g1, s7, g2, rfl, rfl⟩ := hu
  simp only at g2
  obtain ⟨used, b6⟩ : ∃ used, Upd.msckfUpdate lib p.s F.msckf (triOf F.tri I p.s) (p.up.map toTrack) = some (s3, used) := by
    unfold msckfStep at b1
    simp only [Option.bind_eq_bind, Option.bind_eq_some_iff, Option.some.injEq] at b1
    obtain ⟨-, -, ⟨x, used⟩, h, rfl⟩ := b1
    exact ⟨used, h⟩
  obtain ⟨R, f6, f7, f8⟩ : ∃ R, Upd.delayedInit lib s4 M4 F.slam (triOf F.tri I s4) (p.del.map fun x => toTrack x.f) = some R ∧ R.s = s5 ∧ R.M = M5 := by
    unfold delayAll at f1
    simp only [Option.bind_eq_bind, Option.bind_eq_some_iff, Option.some.injEq, Prod.mk.injEq] at f1
    obtain ⟨-, -, R, h, h1, h2⟩ := f1
    exact ⟨R, h, h1, h2⟩
  set B : ℕ → Prop := fun u => u ∈ s.vars ∧ ∀ e ∈ s7.slam, e.2 = u → (M6 u).t = (M u).t with hB
  have w1 : Sure B s p.s := by
    rw [List.map_map, flagOps_eq] at hd1
    exact sure_marg hlib hs.prog hd1 hd2
  have w2 : Sure B p.s s3 := sure_msckf hlib a3.prog hF.sigM (fun f hf => (hupt f hf).1) b6
  obtain ⟨w3, w3'⟩ := sure_batches (A := B) hlib hF.sigS hF.sigA _ s3 M b2 hbs s4 M4 e1
  obtain ⟨w4, w4'⟩ : Sure B s4 s5 ∧ ∀ u, u < s4.next → M5 u = M4 u := by
    unfold Upd.delayedInit at f6
    rw [Upd.located_candidates] at f6
    have hin : ∀ f : Upd.Track, (Upd.Spec.inWindow s4 f).obs.map Prod.fst = f.obs.map Prod.fst := fun f => by simp [Upd.Spec.inWindow, Function.comp_def]
    have := sure_delayLoop (A := B) hlib hF.sigS hF.sigA _ (D := ⟨s4, M4, []⟩) (R := R) e2.prog (fun g hg => by
      simp only [Upd.Spec.candidates, List.mem_filterMap] at hg
      obtain ⟨f, hf, hg⟩ := hg
      split_ifs at hg
      rw [Option.map_eq_some_iff] at hg
      obtain ⟨x, -, rfl⟩ := hg
      simp only [hin]
      exact (hdt f hf).1) f6
    rw [f7, f8] at this
    exact this
  have w14 : Sure B s s4 := (w1.trans hIs w2).trans hIs w3
  have w15 : Sure B s s5 := w14.trans hIs w4
  obtain ⟨w5, hp6⟩ : Sure B s5 s6 ∧ St.Spec.ProgOK lib o s6 := by
    unfold Upd.anchorsState at g1
    by_cases hsm : s.clones.length ≤ o.maxClones
    · rw [hcl, prog_opts f2.prog.prog, if_pos hsm] at g1
      obtain ⟨rfl, rfl⟩ := Prod.mk.inj (Option.some.inj g1)
      exact ⟨Sure.refl _ _, f2.prog⟩
    · rw [hcl, prog_opts f2.prog.prog, if_neg hsm, Option.bind_eq_bind, Option.bind_eq_some_iff] at g1
      obtain ⟨mt, hmt, g1⟩ := g1
      obtain ⟨s6', M6', mt', k1, k2, ⟨P, obj, k3⟩, -, ⟨wm, k5⟩, k6, k7, -, k8⟩ := Upd.C105_change_anchors (C := F.slam) hlib f2.prog f2.lms hF.clones (by rw [hcl, ht5]; exact hts) f2.times (by rw [hcl]; omega)
      unfold Upd.anchorsState at k1
      rw [hcl, prog_opts f2.prog.prog, if_neg hsm, hmt, Option.bind_eq_bind, Option.bind_some, g1] at k1
      obtain ⟨rfl, rfl⟩ := Prod.mk.inj (Option.some.inj k1)
      have hmc : mt = mt' := by
        cases hl : s5.clones with
        | nil => rw [hl] at k5; simp at k5
        | cons d l =>
          have h0 := margtimestep_sorted hl (prog_W f2.prog.prog).sorted
          rw [hmt] at h0
          obtain rfl := Option.some.inj h0
          have h1 := (prog_W f2.prog.prog).sorted
          rw [hl] at k5 k6 h1
          refine le_antisymm ?_ (k6 d (by simp))
          rcases List.mem_cons.1 k5 with h | h
          · rw [← h]
          · exact ((List.pairwise_cons.1 h1).1 _ h).le
      subst hmc
      have s67 : s7.slam = s6.slam := (margOld_keep k2.prog g2).1
      refine ⟨?_, k2⟩
      refine (sure_anchors hlib s5.slam s5 M5 f2.prog f2.lms (by rw [hcl, ht5]; exact hts) k6 (fun _ h => h) s6 M6 g1).mono fun u ⟨hu1, hu2⟩ e he heu hbad => ?_
      have hlt : u < s4.next := lt_of_lt_of_le (hIs.alloc u hu1) w14.next
      have h1 := hu2 e (by rw [s67, k3]; exact he) heu
      have h2 : (M6 u).t = s5.ts := by have := (k8 e he).2.1; rw [heu] at this; exact this hbad
      have h3 : (M u).t = mt := by rw [← w3' u, ← w4' u hlt]; exact hbad.2
      rw [h2, h3] at h1
      exact absurd h1 k7.ne'
  exact (w15.trans hIs w5).trans hIs (sure_step hlib hp6 (op := .margOld) trivial g2 (fun _ _ h => h) (by simp) (by simp))

/-! ## the theorems -/

/-- **C112** (one image) For every manager state between events and every image that can be processed (C106), whatever the databases hold: processing it returns, and for every joint covariance of variables other than the IMU state (clones of the window,
calibration, landmarks) that are in the state before and after, landmarks among them with unchanged anchor, no combination of their errors has a larger variance afterwards. The measurements themselves do not raise the uncertainty of the IMU state
either: without the zero velocity updater, the same holds from the propagated state to the end for all variables, the IMU state and the new clone included. -/
theorem C112_image (hlib : St.Spec.LibOK lib) (hF : Spec.CfgOK o F) (hI : Spec.ImgOK o I) {x : FMgr} (hx : Spec.MgrOK lib o x) (ht : Spec.Timely F x.m I.t) :
    ∃ y, frame lib F x I = some y ∧
      (∀ order : List Ref, (∀ r ∈ order, r.1 ≠ imuUid ∧ r.1 ∈ x.m.st.vars ∧ r.1 ∈ y.m.st.vars ∧ ∀ e ∈ y.m.st.slam, e.2 = r.1 → (y.M r.1).t = (x.M r.1).t) →
        St.Spec.NotAbove (getMarginal y.m.st order) (getMarginal x.m.st order)) ∧
      (zuptOn F.mgr x.m = none → x.m.st.ts < I.t → ∀ s1 off, propagateAndClone F.mgr.po F.mgr.N x.m.buf x.m.off x.m.st I.t = some (s1, off) →
        ∀ order : List Ref, (∀ r ∈ order, r.1 ∈ s1.vars ∧ r.1 ∈ y.m.st.vars ∧ ∀ e ∈ y.m.st.slam, e.2 = r.1 → (y.M r.1).t = (x.M r.1).t) → St.Spec.NotAbove (getMarginal y.m.st order) (getMarginal s1 order)) := by
  obtain ⟨y, h, k⟩ := frame_steps hlib hF hI hx ht
  refine ⟨y, h, ?_, ?_⟩
  · intro order ho
    rcases k with ⟨Z, hZ, -, -, -, k⟩ | ⟨s1, h1, k⟩
    · rcases k with ⟨h1, h2⟩ | ⟨-, -, h2, -⟩
      · have hsp : ∀ off, tOff x.m.st = some off → Imu.Spec.Spaced (select x.m.zbuf (x.m.st.ts + x.m.zmem.off.getD off) (I.t + off)) := by
          rcases ht with ⟨-, -, hz⟩ | ⟨h, -⟩
          · exact fun off hoff => hz (by rw [hZ]; simp) off hoff
          · exact absurd h h1.ne
        exact (sure_try hlib (hF.zupt Z (zuptOn_cfg hZ)) hx.frame.prog hsp h2).cov order fun r hr => ⟨(ho r hr).1, (ho r hr).2.1, (ho r hr).2.2.1⟩
      · rw [h2]; exact notAbove_refl _
    · have hIx := reach_inv hx.frame.prog.prog.reach
      have hw : Sure (fun u => u ≠ imuUid) x.m.st s1 := by
        rcases h1 with ⟨-, off, h1⟩ | ⟨-, rfl⟩
        · exact sure_prop hlib hx.frame.prog.prog h1
        · exact Sure.refl _ _
      rcases k with ⟨-, k1, k2, -⟩ | ⟨-, k1, k2, k3, p, k4, k5, -⟩
      · rw [k1] at ho ⊢
        exact hw.cov order fun r hr => ⟨(ho r hr).1, (ho r hr).2.1, (ho r hr).2.2.1⟩
      · have hu := updateAll_sure hlib hF hI k1 k2 k3 k4 k5
        have hm : ∀ r ∈ order, r.1 ∈ s1.vars := fun r hr => hu.old _ (ho r hr).2.2.1 (lt_of_lt_of_le (hIx.alloc _ (ho r hr).2.1) hw.next)
        exact notAbove_trans (hu.cov order fun r hr => ⟨⟨hm r hr, (ho r hr).2.2.2⟩, hm r hr, (ho r hr).2.2.1⟩) (hw.cov order fun r hr => ⟨(ho r hr).1, (ho r hr).2.1, hm r hr⟩)
  · intro hZ hlt s1 off hs1 order ho
    rcases k with ⟨Z, hZ', -⟩ | ⟨s1', h1, k⟩
    · rw [hZ] at hZ'; cases hZ'
    · obtain rfl : s1' = s1 := by
        rcases h1 with ⟨-, off', h1⟩ | ⟨h1, -⟩
        · rw [h1] at hs1; exact (Prod.mk.inj (Option.some.inj hs1)).1
        · exact absurd h1 hlt.ne
      rcases k with ⟨-, k1, -⟩ | ⟨-, k1, k2, k3, p, k4, k5, -⟩
      · rw [k1]; exact notAbove_refl _
      · exact (updateAll_sure hlib hF hI k1 k2 k3 k4 k5).cov order fun r hr => ⟨⟨(ho r hr).1, (ho r hr).2.2⟩, (ho r hr).1, (ho r hr).2.1⟩

/-- throughout the events the variable is in the state and, if it is a landmark, keeps its anchor. -/
def Spec.Settled (lib : Lib) (F : FCfg) : FMgr → List FEv → ℕ → Prop
  | x, [], u => u ∈ x.m.st.vars
  | x, e :: es, u => u ∈ x.m.st.vars ∧ ∀ z, e.run lib F x = some z → (∀ p ∈ z.m.st.slam, p.2 = u → (z.M u).t = (x.M u).t) ∧ Spec.Settled lib F z es u

theorem settled_mem {x : FMgr} {es : List FEv} {u : ℕ} (h : Spec.Settled lib F x es u) : u ∈ x.m.st.vars := by
  cases es with
  | nil => exact h
  | cons e es => exact h.1

/-- **C112** (streams) Over every sequence, of any length, of readings and images that are admissible when they arrive: for every joint covariance of variables other than the IMU state that stay in the state, landmarks among them with unchanged
anchor, no combination of their errors has a larger variance at the end than at the start. -/
theorem C112_stream (hlib : St.Spec.LibOK lib) (hF : Spec.CfgOK o F) : ∀ (evs : List FEv) (x y : FMgr), Spec.MgrOK lib o x → Spec.Admissible lib o F x evs → runF lib F x evs = some y →
    ∀ order : List Ref, (∀ r ∈ order, r.1 ≠ imuUid ∧ Spec.Settled lib F x evs r.1) → St.Spec.NotAbove (getMarginal y.m.st order) (getMarginal x.m.st order)
  | [], x, y, _, _, h, order, _ => by obtain rfl := Option.some.inj h; exact notAbove_refl _
  | .imu r :: es, x, y, hx, ha, h, order, ho =>
    C112_stream hlib hF es { x with m := feedImu F.mgr x.m r } y ⟨hx.frame, hx.window⟩ ha h order fun q hq => ⟨(ho q hq).1, ((ho q hq).2.2 _ rfl).2⟩
  | .image I :: es, x, y, hx, ⟨hI, ht, hn⟩, h, order, ho => by
    obtain ⟨z, k1, k2, -⟩ := frame_all hlib hF hI hx ht
    obtain ⟨z', k1', k3, -⟩ := C112_image hlib hF hI hx ht
    rw [k1] at k1'
    obtain rfl := Option.some.inj k1'
    simp only [runF, FEv.run, k1, Option.bind_some] at h
    refine notAbove_trans (C112_stream hlib hF es z y k2.1 (hn z k1) h order fun q hq => ⟨(ho q hq).1, ((ho q hq).2.2 z k1).2⟩) (k3 order fun q hq => ?_)
    obtain ⟨h1, h2, h3⟩ := ho q hq
    obtain ⟨h4, h5⟩ := h3 z k1
    exact ⟨h1, h2, settled_mem h5, h4⟩

theorem settled_ctor (hlib : St.Spec.LibOK lib) (hF : Spec.CfgOK o F) {u : ℕ} (hu : u ∈ ctorVars o) : ∀ (evs : List FEv) (x : FMgr), Spec.MgrOK lib o x → Spec.Admissible lib o F x evs → Spec.Settled lib F x evs u
  | [], x, hx, _ => (prog_W hx.frame.prog.prog).mem hu
  | .imu r :: es, x, hx, ha => by
    refine ⟨(prog_W hx.frame.prog.prog).mem hu, fun z hz => ?_⟩
    obtain rfl := Option.some.inj hz
    exact ⟨fun _ _ _ => rfl, settled_ctor hlib hF hu es { x with m := feedImu F.mgr x.m r } ⟨hx.frame, hx.window⟩ ha⟩
  | .image I :: es, x, hx, ⟨hI, ht, hn⟩ => by
    refine ⟨(prog_W hx.frame.prog.prog).mem hu, fun z hz => ?_⟩
    obtain ⟨z', k1, k2, -⟩ := frame_all hlib hF hI hx ht
    have hz' : frame lib F x I = some z := hz
    rw [hz'] at k1
    obtain rfl := Option.some.inj k1
    have hW := prog_W k2.1.frame.prog.prog
    refine ⟨fun e he heu => ?_, settled_ctor hlib hF hu es z k2.1 (hn z hz')⟩
    have h1 := (hW.sin e he).2
    rw [heu, hW.low u ((ctorVars_spec o).2 u hu)] at h1
    cases h1

/-- **C112** (calibration) Over every admissible sequence of readings and images, of any length: the joint covariance of all calibration parameters that are estimated (time offset, camera poses and intrinsics, IMU intrinsics), or of any of them, never goes
up: no combination of their errors ever has a larger variance than it had before. -/
theorem C112_calibration (hlib : St.Spec.LibOK lib) (hF : Spec.CfgOK o F) (evs : List FEv) (x y : FMgr) (hx : Spec.MgrOK lib o x) (ha : Spec.Admissible lib o F x evs) (h : runF lib F x evs = some y)
    (order : List Ref) (ho : ∀ r ∈ order, r.1 ∈ ctorVars o ∧ r.1 ≠ imuUid) : St.Spec.NotAbove (getMarginal y.m.st order) (getMarginal x.m.st order) :=
  C112_stream hlib hF evs x y hx ha h order fun r hr => ⟨(ho r hr).2, settled_ctor hlib hF (ho r hr).1 evs x hx ha⟩

/-- the hypotheses are met: over 9000 images with any databases, from the constructed state, IMU intrinsics, camera poses and intrinsics together never become less certain than the priors say. -/
example (hlib : St.Spec.LibOK lib) (db : ℕ → DB ℝ Uv) (hdb : ∀ k, Spec.DbOK ⟨true, true, true, false, true, true, 2, 11, 0⟩ (db k)) : ∃ y,
    runF lib exG (exStart ⟨true, true, true, false, true, true, 2, 11, 0⟩) (exEvs db 0 9000) = some y ∧
    St.Spec.NotAbove (getMarginal y.m.st [(1, .self), (2, .self), (3, .self), (4, .self), (7, .self), (8, .self), (9, .self), (10, .self)]) (getMarginal (exStart ⟨true, true, true, false, true, true, 2, 11, 0⟩).m.st [(1, .self), (2, .self), (3, .self), (4, .self), (7, .self), (8, .self), (9, .self), (10, .self)]) := by
  have hF : Spec.CfgOK ⟨true, true, true, false, true, true, 2, 11, 0⟩ exG := exG_ok (by simp)
  have hst := exEvs_stream ⟨true, true, true, false, true, true, 2, 11, 0⟩ db hdb 9000 0 [⟨0, 0, 0⟩] (by simp) (by simp) (by simp)
  push_cast at hst
  obtain ⟨y, h1, -, -, h4⟩ := C106_stream hlib hF 0 _ _ _ (exStart_ok lib _) (exStart_has rfl exG) hst
  refine ⟨y, h1, C112_calibration hlib hF _ _ y (exStart_ok lib _) h4 h1 _ fun r hr => ?_⟩
  simp only [List.mem_cons, List.not_mem_nil, or_false] at hr
  rcases hr with rfl | rfl | rfl | rfl | rfl | rfl | rfl | rfl <;> simp [ctorVars, intrUid, imuUid, List.range_succ]

end Verif.Vio
