import Verif.State.PropsInfo
import Verif.State.PropsC

/-!
# Uncertainty is not raised except where the model says so (C112)
-/

set_option autoImplicit false
set_option linter.unusedVariables false
open Classical

namespace Verif.St

open Verif Verif.Types Finset Mat

variable {lib : Lib} {o : Opts} {s s' s'' : State}

/-! ## specification -/

namespace Spec

/-- the variance of the combination with coefficients `x` of the errors whose joint covariance is `A`. -/
noncomputable def variance (A : DMat) (x : ℕ → ℝ) : ℝ := ∑ i ∈ range A.rows, ∑ j ∈ range A.rows, x i * A.a i j * x j

/-- the first joint covariance is not above the second: no combination of the errors has a larger variance. (Both queries fail or none.) -/
def NotAbove : Option DMat → Option DMat → Prop
  | none, none => True
  | some B, some A => B.rows = A.rows ∧ B.cols = A.cols ∧ ∀ x, variance B x ≤ variance A x
  | _, _ => False

/-- the variables whose uncertainty an operation may raise by what it models: those that a propagation moves on, and those whose covariance is set. -/
def Raised : Op → ℕ → Prop
  | .propagate nw _ _ _, u => ∃ r ∈ nw, r.1 = u
  | .setInit _ _, _ => True
  | _, _ => False

end Spec

/-! ## lemmas -/

theorem notAbove_refl (A : Option DMat) : Spec.NotAbove A A := by
  cases A with
  | none => trivial
  | some A => exact ⟨rfl, rfl, fun x => le_refl _⟩

theorem notAbove_trans {A B C : Option DMat} (h : Spec.NotAbove A B) (h' : Spec.NotAbove B C) : Spec.NotAbove A C := by
  cases A <;> cases B <;> cases C <;> simp only [Spec.NotAbove] at h h' ⊢
  exact ⟨h.1.trans h'.1, h.2.1.trans h'.2.1, fun x => (h.2.2 x).trans (h'.2.2 x)⟩

theorem notAbove_same {A B : Option DMat} (h : Spec.SameMat A B) (hsq : ∀ M, A = some M → M.cols = M.rows) : Spec.NotAbove A B := by
  cases A <;> cases B <;> simp only [Spec.SameMat, Spec.NotAbove] at h ⊢
  obtain ⟨h1, h2, h3⟩ := h
  refine ⟨h1, h2, fun x => le_of_eq ?_⟩
  unfold Spec.variance
  rw [← h1]
  refine Finset.sum_congr rfl fun i hi => Finset.sum_congr rfl fun j hj => ?_
  rw [h3 i j (Finset.mem_range.1 hi) (by rw [hsq _ rfl]; exact Finset.mem_range.1 hj)]

theorem getMarginal_square {order : List Ref} {M : DMat} (h : getMarginal s order = some M) : M.cols = M.rows := by
  unfold getMarginal at h
  rw [Option.bind_eq_bind, Option.bind_eq_some_iff] at h
  obtain ⟨L, -, h⟩ := h
  obtain rfl := Option.some.inj h; rfl

/-- the variance of a combination of listed errors as a quadratic form in the full covariance. -/
theorem variance_full {n : ℕ} {L : List (ℕ × ℕ)} (hL : ∀ b ∈ L, b.1 + b.2 ≤ n) (P : Mat) (x : ℕ → ℝ) :
    Spec.variance ⟨tot L, tot L, margCov P L⟩ x = dotProduct (fun k : Fin n => ∑ i ∈ range (tot L), if ix L i = k then x i else 0)
      ((Spec.mat n n P).mulVec fun k : Fin n => ∑ i ∈ range (tot L), if ix L i = k then x i else 0) := by
  have key : ∀ g : ℕ → ℝ, ∑ k : Fin n, (∑ i ∈ range (tot L), if ix L i = (k : ℕ) then x i else 0) * g k = ∑ i ∈ range (tot L), x i * g (ix L i) := by
    intro g
    simp only [Finset.sum_mul]
    rw [Finset.sum_comm]
    refine Finset.sum_congr rfl fun i hi => ?_
    rw [Finset.sum_eq_single (⟨ix L i, ix_lt hL (Finset.mem_range.1 hi)⟩ : Fin n)]
    · simp
    · intro k _ hk
      rw [if_neg fun h => hk (Fin.ext h.symm), zero_mul]
    · simp
  simp only [Spec.variance, dotProduct, Matrix.mulVec]
  refine Eq.trans ?_ (key fun k => ∑ l : Fin n, P k l * ∑ i ∈ range (tot L), if ix L i = (l : ℕ) then x i else 0).symm
  · refine Finset.sum_congr rfl fun i hi => ?_
    have := key fun l => P (ix L i) l
    simp only [mul_comm _ (P _ _)] at this
    rw [this, Finset.mul_sum]
    refine Finset.sum_congr rfl fun j hj => ?_
    rw [margCov_eq _ _ (Finset.mem_range.1 hi) (Finset.mem_range.1 hj)]
    ring

theorem notAbove_le {order : List Ref} (hr : resolveAll s' order = resolveAll s order) (hP : ∀ x, 0 ≤ dotProduct x ((Spec.cov s - Spec.mat s.n s.n s'.P).mulVec x)) :
    Spec.NotAbove (getMarginal s' order) (getMarginal s order) := by
  unfold getMarginal
  rw [hr]
  cases hL : resolveAll s order with
  | none => trivial
  | some L =>
    refine ⟨rfl, rfl, fun x => ?_⟩
    have h1 := variance_full (resolveAll_le hL) s.P x
    have h2 := variance_full (resolveAll_le hL) s'.P x
    have h3 := hP fun k : Fin s.n => ∑ i ∈ range (tot L), if ix L i = k then x i else 0
    rw [Matrix.sub_mulVec, dotProduct_sub] at h3
    have e : Spec.cov s = Spec.mat s.n s.n s.P := rfl
    rw [e, ← h1, ← h2] at h3
    exact sub_nonneg.1 h3

theorem notAbove_block {order : List Ref} (hr : resolveAll s' order = resolveAll s order) (hP : ∀ L, resolveAll s order = some L → ∀ i j, i < tot L → j < tot L → s'.P (ix L i) (ix L j) = s.P (ix L i) (ix L j)) :
    Spec.NotAbove (getMarginal s' order) (getMarginal s order) := by
  unfold getMarginal
  rw [hr]
  cases hL : resolveAll s order with
  | none => trivial
  | some L =>
    refine ⟨rfl, rfl, fun x => le_of_eq ?_⟩
    unfold Spec.variance
    refine Finset.sum_congr rfl fun i hi => Finset.sum_congr rfl fun j hj => ?_
    have hi := Finset.mem_range.1 hi
    have hj := Finset.mem_range.1 hj
    simp only at hi hj ⊢
    rw [margCov_eq _ _ hi hj, margCov_eq _ _ hi hj, hP L hL i j hi hj]

theorem resolveAll_congr {order : List Ref} (h : ∀ r ∈ order, resolve s' r = resolve s r) : resolveAll s' order = resolveAll s order := by
  induction order with
  | nil => rfl
  | cons r t ih => simp only [resolveAll, h r (by simp), ih fun q hq => h q (by simp [hq])]

/-- an appended variable does not change what old variables resolve to. -/
theorem resolve_append (hI : Inv s) (hn : s.n ≤ s'.n) {r : Ref} (hm : r.1 ∈ s.vars) (ho : (s'.obj r.1).id = (s.obj r.1).id ∧ (s'.obj r.1).val = (s.obj r.1).val) : resolve s' r = resolve s r := by
  unfold resolve
  rw [ho.1, ho.2]
  cases hp : (s.obj r.1).val.part r.2 with
  | none => rfl
  | some x =>
    obtain ⟨off, w⟩ := x
    obtain ⟨i, hi, -, hle⟩ := hI.resolve_part hm hp
    simp only
    rw [if_pos ⟨by rw [hi]; omega, by rw [hi]; simp; omega⟩, if_pos ⟨by rw [hi]; omega, by rw [hi]; simp; omega⟩]

theorem clone_sure (hI : Inv s) {r : Ref} {u : ℕ} (h : clone s r = some (s', u)) {order : List Ref} (ho : ∀ q ∈ order, q.1 ∈ s.vars) : resolveAll s' order = resolveAll s order ∧ (∀ i j, i < s.n → j < s.n → s'.P i j = s.P i j) := by
  obtain ⟨k, off, v, f, hu, hk, p1, p2, p3, hle, hr, rfl, rfl⟩ := clone_eq hI h
  refine ⟨resolveAll_congr fun q hq => resolve_append hI (by simp) (ho q hq) ?_, fun i j hi hj => ?_⟩
  · have : q.1 ≠ s.next := (hI.alloc _ (ho q hq)).ne
    simp only [if_neg this]; exact ⟨trivial, trivial⟩
  · simp only [cloneCov, setBlock]
    rw [if_neg (by omega), if_neg (by omega), if_neg (by omega), if_pos ⟨hi, hj⟩]

theorem augment_sure (hI : Inv s) {w : V3} (h : augment s w = some s') {order : List Ref} (ho : ∀ q ∈ order, q.1 ∈ s.vars) : resolveAll s' order = resolveAll s order ∧ (∀ i j, i < s.n → j < s.n → s'.P i j = s.P i j) := by
  obtain ⟨-, s1, u, h1, h2⟩ := augment_some h
  obtain ⟨c1, c2⟩ := clone_sure hI h1 ho
  obtain ⟨b0, -, hb0⟩ := (clone_resolve hI h1 (u, .self)).2
  rcases h2 with ⟨-, rfl⟩ | ⟨-, x, b, d, -, hb, -, -, -, rfl⟩
  · exact ⟨by rw [← c1]; exact resolveAll_congr fun q _ => rfl, c2⟩
  · refine ⟨by rw [← c1]; exact resolveAll_congr fun q _ => rfl, fun i j hi hj => ?_⟩
    rw [hb0] at hb
    obtain rfl := Option.some.inj hb
    simp only [dtCov]
    rw [if_neg (by omega), if_neg (by omega)]
    exact c2 i j hi hj

theorem initInv_sure (hI : Inv s) {u order HR HL R res} (h : initInv lib s u order HR HL R res = some s') {ord : List Ref} (ho : ∀ q ∈ ord, q.1 ∈ s.vars) : resolveAll s' ord = resolveAll s ord ∧ (∀ i j, i < s.n → j < s.n → s'.P i j = s.P i j) := by
  obtain ⟨hu, hnx, hRc, hR0, hiso, hrr, hHL, hHR, hHLc, hk, L0, Ma, hL0, hc, hM, rfl⟩ := initInv_some h
  refine ⟨resolveAll_congr fun q hq => resolve_append hI (by simp) (ho q hq) ?_, fun i j hi hj => ?_⟩
  · have : q.1 ≠ u := fun e => hu (e ▸ ho q hq)
    simp only [if_neg this]; exact ⟨trivial, trivial⟩
  · simp only [initCov, setBlock]
    rw [if_neg (by omega), if_neg (by omega), if_neg (by omega), if_pos ⟨hi, hj⟩]

theorem ix_in (L : List (ℕ × ℕ)) : ∀ {j : ℕ}, j < tot L → ∃ b ∈ L, b.1 ≤ ix L j ∧ ix L j < b.1 + b.2 := by
  induction L with
  | nil => intro j h; simp [tot] at h
  | cons b t ih =>
    intro j h
    simp only [ix]
    split_ifs with h1
    · exact ⟨b, by simp, by omega, by omega⟩
    · simp only [tot] at h
      obtain ⟨c, hc, h2⟩ := ih (j := j - b.2) (by omega)
      exact ⟨c, by simp [hc], h2⟩

theorem resolveAll_mem : ∀ {order : List Ref} {L : List (ℕ × ℕ)}, resolveAll s order = some L → ∀ b ∈ L, ∃ r ∈ order, resolve s r = some b
  | [], L, h, b, hb => by simp only [resolveAll, Option.some.injEq] at h; subst h; cases hb
  | r :: t, L, h, b, hb => by
    obtain ⟨c, bs, h1, h2, rfl⟩ := resolveAll_cons.1 h
    rcases List.mem_cons.1 hb with rfl | hb
    · exact ⟨r, by simp, h1⟩
    · obtain ⟨q, hq, h3⟩ := resolveAll_mem h2 b hb
      exact ⟨q, by simp [hq], h3⟩

/-- blocks of different variables do not overlap. -/
theorem resolve_apart (hI : Inv s) {r q : Ref} {a b : ℕ × ℕ} (ha : resolve s r = some a) (hb : resolve s q = some b) (hne : r.1 ≠ q.1) {i : ℕ} (h1 : a.1 ≤ i) (h2 : i < a.1 + a.2) (h3 : b.1 ≤ i) (h4 : i < b.1 + b.2) : False := by
  have hr := hI.resolve_mem ha
  have hq := hI.resolve_mem hb
  have key : ∀ {r : Ref} {a : ℕ × ℕ}, r.1 ∈ s.vars → resolve s r = some a → (s.obj r.1).id ≤ a.1 ∧ ((a.1 + a.2 : ℕ) : ℤ) ≤ (s.obj r.1).id + osz s.obj r.1 := by
    intro r a hm h
    have h' := h
    unfold resolve at h'
    cases hp : (s.obj r.1).val.part r.2 with
    | none => rw [hp] at h'; cases h'
    | some x =>
      obtain ⟨off, w⟩ := x
      obtain ⟨k, hk, hres, -⟩ := hI.resolve_part hm hp
      rw [h] at hres
      obtain rfl := Option.some.inj hres
      have := part_size hp
      have hz : osz s.obj r.1 = (s.obj r.1).val.size := rfl
      rw [hk, hz]
      push_cast
      omega
  have k1 := key hr ha
  have k2 := key hq hb
  have := hI.contig.disjoint hr hq hne
  push_cast at k1 k2
  omega

theorem propagate_sure (hs : Spec.Reach lib s) {nw old : List Ref} {Phi Q : DMat} (h : propagate s nw old Phi Q = some s') {order : List Ref} (ho : ∀ r ∈ order, ∀ q ∈ nw, q.1 ≠ r.1) :
    Spec.NotAbove (getMarginal s' order) (getMarginal s order) := by
  have hI := reach_inv hs
  obtain ⟨N, O, b, t, hN, hO, rfl, _, hcon, hr, _, _, hq, hle, _, rfl⟩ := propagate_some h
  refine notAbove_block (resolveAll_congr fun q _ => rfl) fun L hL i j hi hj => ?_
  have hout : ∀ {i}, i < tot L → ¬ (b.1 ≤ ix L i ∧ ix L i < b.1 + Phi.rows) := by
    intro i hi hin
    obtain ⟨c, hc, c1, c2⟩ := ix_in L hi
    obtain ⟨r, hr', hres⟩ := resolveAll_mem hL c hc
    have hin' : ∃ d ∈ b :: t, d.1 ≤ ix L i ∧ ix L i < d.1 + d.2 := by
      obtain ⟨h1, h2⟩ := hin
      rw [← hr] at h2
      clear * - hcon h1 h2
      generalize ix L i = k at *
      induction t generalizing b with
      | nil => exact ⟨b, by simp, h1, by simpa [tot] using h2⟩
      | cons c t ih =>
        simp only [contiguous, Bool.and_eq_true, beq_iff_eq] at hcon
        by_cases hb : k < b.1 + b.2
        · exact ⟨b, by simp, h1, hb⟩
        · obtain ⟨d, hd, h⟩ := ih c hcon.2 (by omega) (by simp only [tot] at h2 ⊢; omega)
          exact ⟨d, by simp [hd], h⟩
    obtain ⟨d, hd, d1, d2⟩ := hin'
    obtain ⟨q, hq', hqr⟩ := resolveAll_mem hN d hd
    exact resolve_apart hI hres hqr (fun e => ho r hr' q hq' e.symm) c1 c2 d1 d2
  have a1 := hout hi
  have a2 := hout hj
  simp only [propCov]
  rw [setBlock_outside _ _ (by tauto), setBlock_outside _ _ (by tauto), setBlock_outside _ _ (by tauto)]

/-- variables that are propagated with themselves only, and without noise, keep their covariances (the rows after the first variable of `nw`). -/
theorem propagate_keep (hs : Spec.Reach lib s) {r0 : Ref} {nw : List Ref} {Phi Q : DMat} (h : propagate s (r0 :: nw) (r0 :: nw) Phi Q = some s') {lo : ℕ} (hlo : ∀ b, resolve s r0 = some b → b.2 = lo)
    (hPhi : ∀ r k, lo ≤ r → r < Phi.rows → k < Phi.rows → Phi.a r k = if r = k then 1 else 0) (hQ : ∀ r k, lo ≤ r → lo ≤ k → r < Phi.rows → k < Phi.rows → Q.a r k = 0)
    {order : List Ref} (ho : ∀ r ∈ order, r.1 ≠ r0.1) : Spec.NotAbove (getMarginal s' order) (getMarginal s order) := by
  have hI := reach_inv hs
  have hsym := reach_sym hs
  obtain ⟨N, O, b, t, hN, hO, rfl, _, hcon, hr, hc, _, hq, hle, _, rfl⟩ := propagate_some h
  rw [hN] at hO
  obtain rfl := Option.some.inj hO
  have hb : resolve s r0 = some b := by
    have hN' : ((resolve s r0).bind fun b => (resolveAll s nw).bind fun bs => some (b :: bs)) = some (b :: t) := hN
    obtain ⟨b', h1, hN'⟩ := Option.bind_eq_some_iff.1 hN'
    obtain ⟨t', h2, hN'⟩ := Option.bind_eq_some_iff.1 hN'
    simp only [Option.some.injEq, List.cons.injEq] at hN'
    rw [h1, hN'.1]
  have hb2 := hlo b hb
  refine notAbove_block (resolveAll_congr fun q _ => rfl) fun L hL i j hi hj => ?_
  have hout : ∀ {i}, i < tot L → ix L i < s.n ∧ ¬ (b.1 ≤ ix L i ∧ ix L i < b.1 + lo) := by
    intro i hi
    refine ⟨ix_lt (resolveAll_le hL) hi, fun hin => ?_⟩
    obtain ⟨c, hc, c1, c2⟩ := ix_in L hi
    obtain ⟨r, hr', hres⟩ := resolveAll_mem hL c hc
    exact resolve_apart hI hres hb (ho r hr') c1 c2 hin.1 (by rw [hb2]; exact hin.2)
  obtain ⟨n1, a1⟩ := hout hi
  obtain ⟨n2, a2⟩ := hout hj
  generalize ix L i = a at *
  generalize ix L j = c at *
  have hix : ∀ k, k < Phi.rows → ix (b :: t) k = b.1 + k := fun k hk => ix_contig b t hcon k (by rw [hr]; exact hk)
  have row : ∀ (g : ℕ → ℝ) (r : ℕ), lo ≤ r → r < Phi.rows → sumB (b :: t) 0 (fun x k => g x * Phi.a r k) = g (b.1 + r) := by
    intro g r h1 h2
    rw [sumB_eq, hr, Finset.sum_eq_single r]
    · rw [hix r h2, Nat.zero_add, hPhi r r h1 h2 h2, if_pos rfl, mul_one]
    · intro k hk hne
      rw [Nat.zero_add, hPhi r k h1 h2 (Finset.mem_range.1 hk), if_neg (Ne.symm hne), mul_zero]
    · intro hn; exact absurd (Finset.mem_range.2 h2) hn
  have cv : ∀ x r, lo ≤ r → r < Phi.rows → sumB (b :: t) 0 (fun g k => s.P x g * Phi.a r k) = s.P x (b.1 + r) := fun x r h1 h2 => row (fun g => s.P x g) r h1 h2
  simp only [propCov, Mat.setBlock]
  by_cases ha : b.1 ≤ a ∧ a < b.1 + Phi.rows <;> by_cases hc' : b.1 ≤ c ∧ c < b.1 + Phi.rows
  · have l1 : lo ≤ a - b.1 := by omega
    have l2 : lo ≤ c - b.1 := by omega
    rw [if_pos ⟨ha, hc'⟩]
    have hz : Mat.mirrorU Q.a (a - b.1) (c - b.1) = 0 := by
      unfold Mat.mirrorU
      split_ifs
      · exact hQ _ _ l1 l2 (by omega) (by omega)
      · exact hQ _ _ l2 l1 (by omega) (by omega)
    rw [hz, zero_add]
    have e : ∀ g, sumB (b :: t) 0 (fun g' k => s.P g g' * Phi.a (c - b.1) k) = s.P g c := fun g => by
      rw [cv g _ l2 (by omega), show b.1 + (c - b.1) = c by omega]
    simp only [e]
    have := row (fun g => s.P g c) (a - b.1) l1 (by omega)
    rw [show b.1 + (a - b.1) = a by omega] at this
    rw [← this]
    congr 1
    funext g k; ring
  · rw [if_neg (by tauto), if_neg (by omega), if_pos ⟨ha, by omega, by omega⟩]
    simp only [Mat.tr]
    rw [cv _ _ (by omega) (by omega), show b.1 + (a - b.1) = a by omega]
    simpa using hsym c a n2 n1
  · rw [if_neg (by tauto), if_pos ⟨⟨by omega, by omega⟩, hc'⟩]
    rw [cv _ _ (by omega) (by omega), show b.1 + (c - b.1) = c by omega]
    simp
  · rw [if_neg (by tauto), if_neg (by omega), if_neg (by omega)]

theorem update_sure (hlib : Spec.LibOK lib) (hs : Spec.ReachOK lib s) {order : List Ref} {H R : DMat} {res : DVec} (hRs : Mat.Sym R.rows R.a) (hR : PD R.rows R.a)
    (h : update lib s order H res R = some s') (ord : List Ref) : Spec.NotAbove (getMarginal s' ord) (getMarginal s ord) := by
  obtain ⟨L, hL, -, -, -, h4, -⟩ := C06_update_is_kalman hlib hs order H R res hRs hR h
  exact notAbove_le (resolveAll_congr fun q _ => (update_same (reach_inv hs.reach).nodup h).resolve q) h4

theorem marginalize_sure (hs : Spec.Reach lib s) {u : ℕ} (h : marginalize s u = some s') {order : List Ref} (ho : ∀ r ∈ order, r.1 ∈ s'.vars) : Spec.NotAbove (getMarginal s' order) (getMarginal s order) := by
  obtain ⟨h1, -, h3, -⟩ := C04_marginalize hs u h
  refine notAbove_same (h1 order fun r hr e => ?_) fun M hM => getMarginal_square hM
  have := ho r hr
  rw [h3, (reach_inv hs).nodup.mem_erase_iff] at this
  exact this.1 e

theorem marginal_congr {order : List Ref} (hr : ∀ r ∈ order, resolve s' r = resolve s r) (hP : s'.P = s.P) : getMarginal s' order = getMarginal s order := by
  unfold getMarginal
  rw [resolveAll_congr hr, hP]

theorem dropClone_sure (hs : Spec.Reach lib s) {t : ℝ} (h : dropClone s t = some s') {order : List Ref} (ho : ∀ r ∈ order, r.1 ∈ s'.vars) : Spec.NotAbove (getMarginal s' order) (getMarginal s order) := by
  obtain ⟨c, s1, -, h1, rfl⟩ := dropClone_some h
  rw [marginal_congr (s := s1) (s' := { s1 with clones := s1.clones.filter fun c => decide (c.1 ≠ t) }) (fun r _ => rfl) rfl]
  exact marginalize_sure hs h1 ho

theorem margOld_sure (hs : Spec.Reach lib s) (h : margOld s = some s') {order : List Ref} (ho : ∀ r ∈ order, r.1 ∈ s'.vars) : Spec.NotAbove (getMarginal s' order) (getMarginal s order) := by
  unfold margOld at h
  split_ifs at h
  · rw [Option.bind_eq_bind, Option.bind_eq_some_iff] at h
    obtain ⟨t, -, h⟩ := h
    exact dropClone_sure hs h ho
  · obtain rfl := Option.some.inj h; exact notAbove_refl _

theorem margSlam_sure (hs : Spec.Reach lib s) (h : margSlam s = some s') {order : List Ref} (ho : ∀ r ∈ order, r.1 ∈ s'.vars) : Spec.NotAbove (getMarginal s' order) (getMarginal s order) := by
  obtain ⟨-, -, -, -, -, h6, h7⟩ := margSlamLoop_rest s.slam [] s s' hs h
  refine notAbove_same (h7 order fun r hr => ?_) fun M hM => getMarginal_square hM
  have := ho r hr
  rw [h6, List.mem_filter, decide_eq_true_eq] at this
  exact this.2

theorem initDelayed_sure (hlib : Spec.LibOK lib) (hs : Spec.ReachOK lib s) {u : ℕ} {order : List Ref} {HR HL R : DMat} {res : DVec} {mult : ℝ} {b : Bool} (hR : 0 < R.a 0 0)
    (h : initDelayed lib s u order HR HL R res mult = some (s', b)) {ord : List Ref} (ho : ∀ r ∈ ord, r.1 ∈ s.vars) : Spec.NotAbove (getMarginal s' ord) (getMarginal s ord) := by
  have hI := reach_inv hs.reach
  obtain ⟨L, HL', HR', r', hL, -, -, hle, -, h1, h2⟩ := C10_initialize hlib hs u order HR HL R res mult b hR h
  obtain ⟨hiso, -⟩ := initDelayed_some h
  cases b with
  | false => rw [h1 rfl]; exact notAbove_refl _
  | true =>
    obtain ⟨s1, k1, k2, k3⟩ := h2 rfl
    obtain ⟨c1, c2⟩ := initInv_sure hI k1 ho
    have hs1 : Spec.NotAbove (getMarginal s1 ord) (getMarginal s ord) :=
      notAbove_block c1 fun L hL i j hi hj => c2 _ _ (ix_lt (resolveAll_le hL) hi) (ix_lt (resolveAll_le hL) hj)
    rcases hle.eq_or_lt with e | e
    · rw [k2 e]; exact hs1
    · refine notAbove_trans (update_sure hlib ?_ ?_ ?_ (k3 e) ord) hs1
      · obtain ⟨o, ops, ho, hr⟩ := hs
        refine ⟨o, ops ++ [.initInv u order ⟨HL.cols, HR.cols, HR'⟩ ⟨HL.cols, HL.cols, HL'⟩ ⟨HL.cols, HL.cols, R.a⟩ ⟨HL.cols, r'⟩], ?_, ?_⟩
        · exact histOK_append ho hr ⟨hR.le, fun s' _ => trivial⟩
        · rw [run_append, hr]; simp [run, step, k1]
      · exact isoNoise_sym (isoNoise_block hiso e)
      · refine isoNoise_pd (isoNoise_block hiso e) ?_
        have := (hiso HL.cols HL.cols e e).1 rfl
        simp only [block, Nat.add_zero]
        rw [← this]; exact hR

/-! ## no variable comes back -/

theorem margSlamLoop_next : ∀ (l kept : List (ℕ × ℕ)) {s s' : State}, Inv s → margSlamLoop l kept s = some s' → s'.next = s.next ∧ s'.vars.Sublist s.vars
  | [], kept, s, s', _, h => by obtain rfl := Option.some.inj h; exact ⟨rfl, List.Sublist.refl _⟩
  | f :: t, kept, s, s', hI, h => by
    simp only [margSlamLoop] at h
    split_ifs at h
    · rw [Option.bind_eq_bind, Option.bind_eq_some_iff] at h
      obtain ⟨s1, h1, h⟩ := h
      obtain ⟨k, -, -, s2, h2, -, -, e3, e4, -⟩ := marginalize_eq hI (marginalize_mem h1)
      rw [h1] at h2
      obtain rfl := Option.some.inj h2
      obtain ⟨a, b⟩ := margSlamLoop_next t kept (marginalize_inv hI h1) h
      exact ⟨a.trans e4, b.trans (by rw [e3]; exact List.filter_sublist)⟩
    · exact margSlamLoop_next t _ hI h

/-- objects are not freed, and the only variables an operation adds are new ones or the one it initialises. -/
theorem step_old (hI : Inv s) {op : Op} (h : step lib s op = some s') : s.next ≤ s'.next ∧
    ((∀ u ord HR HL R res, op ≠ .initInv u ord HR HL R res) → (∀ u ord HR HL R res mult, op ≠ .initDelayed u ord HR HL R res mult) → ∀ u ∈ s'.vars, u < s.next → u ∈ s.vars) := by
  have eqv : s'.next = s.next → s'.vars = s.vars → s.next ≤ s'.next ∧
      ((∀ u ord HR HL R res, op ≠ .initInv u ord HR HL R res) → (∀ u ord HR HL R res mult, op ≠ .initDelayed u ord HR HL R res mult) → ∀ u ∈ s'.vars, u < s.next → u ∈ s.vars) := fun h1 h2 => ⟨h1.ge, fun _ _ u hu _ => by rw [← h2]; exact hu⟩
  have marg : ∀ {u : ℕ} {s1 : State}, marginalize s u = some s1 → s1.next = s.next ∧ s1.vars.Sublist s.vars := by
    intro u s1 h1
    obtain ⟨k, -, -, s2, h2, -, -, e3, e4, -⟩ := marginalize_eq hI (marginalize_mem h1)
    rw [h1] at h2
    obtain rfl := Option.some.inj h2
    exact ⟨e4, by rw [e3]; exact List.filter_sublist⟩
  have drop : ∀ {t : ℝ}, dropClone s t = some s' → s'.next = s.next ∧ s'.vars.Sublist s.vars := by
    intro t h
    obtain ⟨c, s1, -, h1, rfl⟩ := dropClone_some h
    obtain ⟨a, b⟩ := marg h1
    exact ⟨a, b⟩
  have sub : s'.next = s.next ∧ s'.vars.Sublist s.vars → s.next ≤ s'.next ∧
      ((∀ u ord HR HL R res, op ≠ .initInv u ord HR HL R res) → (∀ u ord HR HL R res mult, op ≠ .initDelayed u ord HR HL R res mult) → ∀ u ∈ s'.vars, u < s.next → u ∈ s.vars) := fun h => ⟨h.1.ge, fun _ _ u hu _ => h.2.subset hu⟩
  cases op with
  | propagate nw old Phi Q => exact eqv (propagate_same h).1.next (propagate_same h).1.vars
  | update ord H res R => exact eqv (update_same hI.nodup h).next (update_same hI.nodup h).vars
  | setInit C ord => exact eqv (setInit_same h).next (setInit_same h).vars
  | marginalize u => exact sub (marg h)
  | clone r =>
    simp only [step, Option.map_eq_some_iff] at h
    obtain ⟨⟨s1, u⟩, h, rfl⟩ := h
    obtain ⟨k, off, v, f, -, -, -, -, -, -, -, rfl, rfl⟩ := clone_eq hI h
    refine ⟨by simp, fun _ _ u hu hl => ?_⟩
    simp only [List.mem_append, List.mem_singleton] at hu
    rcases hu with hu | rfl
    · exact hu
    · exact absurd hl (lt_irrefl _)
  | initInv u ord HR HL R res =>
    obtain ⟨_, _, _, _, _, _, _, _, _, _, _, _, _, _, _, rfl⟩ := initInv_some h
    exact ⟨le_refl _, fun h => absurd rfl (h u ord HR HL R res)⟩
  | initDelayed u ord HR HL R res mult =>
    simp only [step, Option.map_eq_some_iff] at h
    obtain ⟨⟨s1, b⟩, h, rfl⟩ := h
    refine ⟨?_, fun _ h => absurd rfl (h u ord HR HL R res mult)⟩
    obtain ⟨-, -, -, -, -, -, -, -, -, ⟨-, rfl⟩ | ⟨-, s2, h3, h4⟩⟩ := initDelayed_some h
    · exact le_refl _
    · have hI2 := initInv_inv hI h3
      obtain ⟨_, _, _, _, _, _, _, _, _, _, _, _, _, _, _, rfl⟩ := initInv_some h3
      rcases h4 with ⟨-, rfl⟩ | ⟨-, h4⟩
      · exact le_refl _
      · exact (update_same hI2.nodup h4).next.ge
  | augment w =>
    obtain ⟨-, -, -, -, -, e6, e7, -⟩ := augment_maps hI h
    refine ⟨by omega, fun _ _ u hu hl => ?_⟩
    rw [e7, List.mem_append, List.mem_singleton] at hu
    rcases hu with hu | rfl
    · exact hu
    · exact absurd hl (lt_irrefl _)
  | margOld =>
    have h' : margOld s = some s' := h
    unfold margOld at h'
    split_ifs at h'
    · rw [Option.bind_eq_bind, Option.bind_eq_some_iff] at h'
      obtain ⟨t, -, h'⟩ := h'
      exact sub (drop h')
    · obtain rfl := Option.some.inj h'; exact eqv rfl rfl
  | dropClone t => exact sub (drop h)
  | margSlam => exact sub (margSlamLoop_next _ _ hI h)
  | alloc v f =>
    simp only [step] at h
    split_ifs at h
    obtain rfl := Option.some.inj h
    exact ⟨by simp, fun _ _ u hu _ => hu⟩
  | setVal u v => simp only [step] at h; split_ifs at h; obtain rfl := Option.some.inj h; exact eqv rfl rfl
  | setFej u v => simp only [step] at h; split_ifs at h; obtain rfl := Option.some.inj h; exact eqv rfl rfl
  | setMarg u b => obtain rfl := Option.some.inj h; exact eqv rfl rfl
  | addSlam fid u =>
    simp only [step] at h
    split_ifs at h
    · obtain rfl := Option.some.inj h; exact eqv rfl rfl
    · obtain rfl := Option.some.inj h; exact eqv rfl rfl
  | setTime t => obtain rfl := Option.some.inj h; exact eqv rfl rfl
  | setCam i v => obtain rfl := Option.some.inj h; exact eqv rfl rfl

/-! ## the theorems -/

/-- **C112** One operation never raises the uncertainty of what it does not model as uncertain: for every joint covariance of variables that are in the state before and after, and that the operation does not propagate (or set), no combination of
their errors has a larger variance afterwards. -/
theorem C112_step (hlib : Spec.LibOK lib) (hs : Spec.ReachOK lib s) {op : Op} (ha : Spec.ArgsOK s op) (h : step lib s op = some s') (order : List Ref)
    (ho : ∀ r ∈ order, r.1 ∈ s.vars ∧ r.1 ∈ s'.vars ∧ ¬ Spec.Raised op r.1) : Spec.NotAbove (getMarginal s' order) (getMarginal s order) := by
  have hI := reach_inv hs.reach
  have hold : ∀ r ∈ order, r.1 ∈ s.vars := fun r hr => (ho r hr).1
  have hnew : ∀ r ∈ order, r.1 ∈ s'.vars := fun r hr => (ho r hr).2.1
  have same : (∀ r ∈ order, resolve s' r = resolve s r) → s'.P = s.P → Spec.NotAbove (getMarginal s' order) (getMarginal s order) := fun h1 h2 => by rw [marginal_congr h1 h2]; exact notAbove_refl _
  have keepBlock : (resolveAll s' order = resolveAll s order ∧ ∀ i j, i < s.n → j < s.n → s'.P i j = s.P i j) → Spec.NotAbove (getMarginal s' order) (getMarginal s order) := fun h =>
    notAbove_block h.1 fun L hL i j hi hj => h.2 _ _ (ix_lt (resolveAll_le hL) hi) (ix_lt (resolveAll_le hL) hj)
  cases op with
  | propagate nw old Phi Q => exact propagate_sure hs.reach h fun r hr q hq e => (ho r hr).2.2 ⟨q, hq, e⟩
  | update ord H res R => exact update_sure hlib hs ha.1 ha.2 h order
  | setInit C ord =>
    cases order with
    | nil =>
      refine notAbove_block rfl fun L hL i j hi hj => ?_
      simp only [resolveAll, Option.some.injEq] at hL
      subst hL
      simp [tot] at hi
    | cons r t => exact absurd trivial (ho r (by simp)).2.2
  | marginalize u => exact marginalize_sure hs.reach h hnew
  | clone r =>
    simp only [step, Option.map_eq_some_iff] at h
    obtain ⟨⟨s1, u⟩, h, rfl⟩ := h
    exact keepBlock (clone_sure hI h hold)
  | initInv u ord HR HL R res => exact keepBlock (initInv_sure hI h hold)
  | initDelayed u ord HR HL R res mult =>
    simp only [step, Option.map_eq_some_iff] at h
    obtain ⟨⟨s1, b⟩, h, rfl⟩ := h
    exact initDelayed_sure hlib hs ha h hold
  | augment w => exact keepBlock (augment_sure hI h hold)
  | margOld => exact margOld_sure hs.reach h hnew
  | dropClone t => exact dropClone_sure hs.reach h hnew
  | margSlam => exact margSlam_sure hs.reach h hnew
  | alloc v f =>
    simp only [step] at h
    split_ifs at h
    obtain rfl := Option.some.inj h
    refine same (fun r hr => ?_) rfl
    have : r.1 ≠ s.next := (hI.alloc _ (hold r hr)).ne
    unfold resolve; simp only [if_neg this]
  | setVal u v =>
    simp only [step] at h
    split_ifs at h with hk
    obtain rfl := Option.some.inj h
    have e : SameLayout s { s with obj := fun w => if w = u then { s.obj u with val := v } else s.obj w } := by
      refine ⟨rfl, rfl, rfl, fun w => ?_, fun w => ?_, fun w => ?_⟩
      · simp only; split_ifs with e
        · rw [e]
        · rfl
      · simp only; split_ifs with e
        · rw [e]; exact hk
        · exact sameKind_refl _
      · simp only; split_ifs with e
        · rw [e]; exact sameKind_refl _
        · exact sameKind_refl _
    exact same (fun r hr => e.resolve r) rfl
  | setFej u v =>
    simp only [step] at h
    split_ifs at h with hk
    obtain rfl := Option.some.inj h
    refine same (fun r hr => ?_) rfl
    unfold resolve; simp only
    by_cases e : r.1 = u
    · rw [if_pos e, e]
    · rw [if_neg e]
  | setMarg u b =>
    simp only [step] at h
    obtain rfl := Option.some.inj h
    refine same (fun r hr => ?_) rfl
    unfold resolve; simp only
    by_cases e : r.1 = u
    · rw [if_pos e, e]
    · rw [if_neg e]
  | addSlam fid u =>
    simp only [step] at h
    split_ifs at h
    · obtain rfl := Option.some.inj h; exact notAbove_refl _
    · obtain rfl := Option.some.inj h; exact same (fun r hr => rfl) rfl
  | setTime t => obtain rfl := Option.some.inj h; exact same (fun r hr => rfl) rfl
  | setCam i v => obtain rfl := Option.some.inj h; exact same (fun r hr => rfl) rfl

/-- the variable is in the state before, between and after the operations. -/
def Spec.Stays (lib : Lib) : State → List Op → ℕ → Prop
  | s, [], u => u ∈ s.vars
  | s, op :: t, u => u ∈ s.vars ∧ ∀ s', step lib s op = some s' → Spec.Stays lib s' t u

theorem stays_now {ops : List Op} {u : ℕ} (h : Spec.Stays lib s ops u) : u ∈ s.vars := by
  cases ops with
  | nil => exact h
  | cons op t => exact h.1

/-- **C112** (histories) Over any history of operations with admissible arguments: for every joint covariance of variables that stay in the state and are not propagated (or set) by any operation, no combination of their errors has a larger variance
at the end than at the start. -/
theorem C112_history (hlib : Spec.LibOK lib) : ∀ (ops : List Op) {s s' : State}, Spec.ReachOK lib s → Spec.HistOK lib s ops → run lib s ops = some s' → ∀ order : List Ref,
    (∀ r ∈ order, Spec.Stays lib s ops r.1 ∧ ∀ op ∈ ops, ¬ Spec.Raised op r.1) → Spec.NotAbove (getMarginal s' order) (getMarginal s order)
  | [], s, s', _, _, h, order, _ => by obtain rfl := Option.some.inj h; exact notAbove_refl _
  | op :: t, s, s', hs, ⟨ha, hh⟩, h, order, ho => by
    simp only [run, Option.bind_eq_bind, Option.bind_eq_some_iff] at h
    obtain ⟨s1, h1, h⟩ := h
    have hs1 : Spec.ReachOK lib s1 := by
      obtain ⟨o, ops, k1, k2⟩ := hs
      refine ⟨o, ops ++ [op], histOK_append k1 k2 ⟨ha, fun _ _ => trivial⟩, ?_⟩
      rw [run_append, k2]; simp [run, h1]
    exact notAbove_trans (C112_history hlib t hs1 (hh s1 h1) h order fun r hr => ⟨(ho r hr).1.2 s1 h1, fun x hx => (ho r hr).2 x (by simp [hx])⟩)
      (C112_step hlib hs ha h1 order fun r hr => ⟨(ho r hr).1.1, stays_now ((ho r hr).1.2 s1 h1), (ho r hr).2 op (by simp)⟩)

/-- the hypotheses are met: two position measurements in a row from the constructed state; the bound is on the joint covariance of the whole IMU state. -/
example (hlib : Spec.LibOK lib) : ∃ ops s', ops.length = 2 ∧ Spec.ReachOK lib (ctor Spec.o0) ∧ Spec.HistOK lib (ctor Spec.o0) ops ∧ run lib (ctor Spec.o0) ops = some s' ∧
    (∀ r ∈ [((0, .self) : Ref)], Spec.Stays lib (ctor Spec.o0) ops r.1 ∧ ∀ op ∈ ops, ¬ Spec.Raised op r.1) ∧ (getMarginal (ctor Spec.o0) [(0, .self)]).isSome := by
  obtain ⟨h1, h2, h3, h4, h5, h6, h7, h8, h9⟩ := ctor_o0
  have hr0 : resolveAll (ctor Spec.o0) [(0, .p)] = some [(3, 3)] := by simp [resolveAll, resolve, h8, Val.part, h7, h2, Val.size]
  have hsym : Mat.Sym 3 one := by intro i j _ _; simp only [one]; split_ifs <;> first | rfl | omega
  have hpd : PD 3 one := by
    have hi : isoNoise 3 one := by
      intro r c _ _; simp only [one]; exact ⟨fun e => by simp [e], fun e => by simp [e]⟩
    exact isoNoise_pd hi (by simp [one])
  set op : Op := .update [(0, .p)] ⟨3, 3, one⟩ ⟨3, fun _ => 1⟩ ⟨3, 3, one⟩ with hop
  obtain ⟨s1, e1⟩ := Option.isSome_iff_exists.1 (C03_update_returns hlib Spec.o0 [] trivial rfl [(0, .p)] ⟨3, 3, one⟩ ⟨3, 3, one⟩ ⟨3, fun _ => 1⟩ [(3, 3)] hr0 rfl rfl rfl rfl hsym hpd)
  have hs1 := update_same (reach_inv (lib := lib) (s := ctor Spec.o0) ⟨Spec.o0, [], rfl⟩).nodup e1
  have hh1 : Spec.HistOK lib (ctor Spec.o0) [op] := ⟨⟨hsym, hpd⟩, fun _ _ => trivial⟩
  have hr1 : run lib (ctor Spec.o0) [op] = some s1 := by simp [run, step, hop, e1]
  obtain ⟨s2, e2⟩ := Option.isSome_iff_exists.1 (C03_update_returns hlib Spec.o0 [op] hh1 hr1 [(0, .p)] ⟨3, 3, one⟩ ⟨3, 3, one⟩ ⟨3, fun _ => 1⟩ [(3, 3)]
    (by rw [resolveAll_congr fun q _ => hs1.resolve q]; exact hr0) rfl rfl rfl rfl hsym hpd)
  have hm : 0 ∈ (ctor Spec.o0).vars := by rw [h1]; simp
  have hI1 : Inv s1 := (reach_inv (lib := lib) (s := ctor Spec.o0) ⟨Spec.o0, [], rfl⟩).same hs1
  refine ⟨[op, op], s2, rfl, ⟨Spec.o0, [], trivial, rfl⟩, ⟨⟨hsym, hpd⟩, fun _ _ => ⟨⟨hsym, hpd⟩, fun _ _ => trivial⟩⟩, ?_, ?_, ?_⟩
  · simp [run, step, hop, e1, e2]
  · intro r hr
    rw [List.mem_singleton.1 hr]
    refine ⟨⟨hm, fun s' hs' => ?_⟩, fun x hx => ?_⟩
    · have : s' = s1 := by
        have e : update lib (ctor Spec.o0) [(0, .p)] ⟨3, 3, one⟩ ⟨3, fun _ => 1⟩ ⟨3, 3, one⟩ = some s' := hs'
        rw [e1] at e; exact (Option.some.inj e).symm
      rw [this]
      refine ⟨by rw [hs1.vars]; exact hm, fun s3 hs3 => ?_⟩
      have := update_same hI1.nodup hs3
      show 0 ∈ s3.vars
      rw [this.vars, hs1.vars]; exact hm
    · have : x = op := by simpa using hx
      rw [this]; exact id
  · simp [getMarginal, resolveAll, resolve, h8, Val.part, h7, h2, Val.size]

end Verif.St
