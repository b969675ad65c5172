import Verif.State.Cov

/-!
# Property theorems: state layout and covariance (C01 – C05, C13)
-/

set_option linter.unusedVariables false
set_option linter.unusedSimpArgs false
open Classical

namespace Verif.St

open Verif Verif.Types Finset Mat

variable {lib : Lib} {s s' : State}

/-! ### histories -/

theorem run_inv (ops : List Op) : ∀ {s s' : State}, Inv s → run lib s ops = some s' → Inv s' := by
  induction ops with
  | nil => intro s s' hI h; obtain rfl := Option.some.inj h; exact hI
  | cons op t ih =>
    intro s s' hI h
    simp only [run, Option.bind_eq_bind, Option.bind_eq_some_iff] at h
    obtain ⟨s1, h1, h⟩ := h
    exact ih (step_inv hI h1) h

theorem run_sym (ops : List Op) : ∀ {s s' : State}, Inv s → Mat.Sym s.n s.P → run lib s ops = some s' →
    Mat.Sym s'.n s'.P := by
  induction ops with
  | nil => intro s s' hI hP h; obtain rfl := Option.some.inj h; exact hP
  | cons op t ih =>
    intro s s' hI hP h
    simp only [run, Option.bind_eq_bind, Option.bind_eq_some_iff] at h
    obtain ⟨s1, h1, h⟩ := h
    exact ih (step_inv hI h1) (step_sym hI hP h1) h

theorem run_psd (hlib : Spec.LibOK lib) (ops : List Op) : ∀ {s s' : State}, Inv s → Mat.Sym s.n s.P → PSD s.n s.P →
    Spec.HistOK lib s ops → run lib s ops = some s' → PSD s'.n s'.P := by
  induction ops with
  | nil => intro s s' hI hP hp _ h; obtain rfl := Option.some.inj h; exact hp
  | cons op t ih =>
    intro s s' hI hP hp ho h
    simp only [run, Option.bind_eq_bind, Option.bind_eq_some_iff] at h
    obtain ⟨s1, h1, h⟩ := h
    exact ih (step_inv hI h1) (step_sym hI hP h1) (step_psd hlib hI hP hp ho.1 h1) (ho.2 s1 h1) h

theorem reach_inv (h : Spec.Reach lib s) : Inv s := by
  obtain ⟨o, ops, h⟩ := h
  exact run_inv ops (ctor_inv o) h

theorem reach_sym (h : Spec.Reach lib s) : Mat.Sym s.n s.P := by
  obtain ⟨o, ops, h⟩ := h
  exact run_sym ops (ctor_inv o) ((ctor_diag o).sym _) h

/-! ### C01 -/

theorem Contig.start {obj : ℕ → Obj} {l : List ℕ} {a b : ℕ} (h : Contig obj l a b) :
    (∀ k u, l[k]? = some u → (obj u).id = (a + ((l.take k).map (osz obj)).sum : ℕ)) ∧
      b = a + (l.map (osz obj)).sum := by
  induction l generalizing a with
  | nil => exact ⟨by simp, by simp only [Contig] at h; simp; omega⟩
  | cons v t ih =>
    obtain ⟨h1, h2⟩ := ih h.2
    constructor
    · intro k u hk
      cases k with
      | zero => simp at hk; subst hk; simp [h.1]
      | succ k =>
        rw [h1 k u (by simpa using hk)]
        simp only [List.take_succ_cons, List.map_cons, List.sum_cons]; push_cast; ring
    · simp only [List.map_cons, List.sum_cons]; omega

theorem Contig.cover {obj : ℕ → Obj} {l : List ℕ} {a b : ℕ} (h : Contig obj l a b) (i : ℕ) (hi : a ≤ i) (hb : i < b) :
    ∃! u, u ∈ l ∧ (obj u).id ≤ i ∧ (i : ℤ) < (obj u).id + osz obj u := by
  induction l generalizing a with
  | nil => simp only [Contig] at h; omega
  | cons v t ih =>
    by_cases hc : i < a + osz obj v
    · refine ⟨v, ⟨by simp, by rw [h.1]; omega, by rw [h.1]; omega⟩, ?_⟩
      rintro w ⟨hw, h1, h2⟩
      rcases List.mem_cons.1 hw with rfl | hw
      · rfl
      · have := (h.2.mem hw).1
        push_cast at this
        omega
    · obtain ⟨u, ⟨hu, h1, h2⟩, huni⟩ := ih h.2 (by omega)
      refine ⟨u, ⟨by simp [hu], h1, h2⟩, ?_⟩
      rintro w ⟨hw, h3, h4⟩
      rcases List.mem_cons.1 hw with rfl | hw
      · rw [h.1] at h4; omega
      · exact huni w ⟨hw, h3, h4⟩

/-- **C01** After constructing a state with any options and applying any history of operations that returns, the active
variables tile the covariance: consecutive ranges from 0, no gap, no overlap, no repetition, and every variable that is
not (or no longer) active has id −1. -/
theorem C01_layout (o : Opts) (ops : List Op) (h : run lib (ctor o) ops = some s) : Spec.Layout s := by
  have hI := run_inv ops (ctor_inv o) h
  have hst := hI.contig.start
  refine ⟨hI.nodup, ?_, ?_, ?_, hI.out⟩
  · intro k u hk
    have := hst.1 k u hk
    rw [Nat.zero_add] at this
    exact this
  · have := hst.2
    rw [Nat.zero_add] at this
    exact this
  · intro i hi
    exact hI.contig.cover i (by omega) hi

/-- all options off, one clone in the window. -/
def Spec.o0 : Opts := ⟨false, false, true, false, false, false, 0, 1, 0⟩

theorem ctor_o0 : (ctor Spec.o0).vars = [0] ∧ (ctor Spec.o0).n = 15 ∧ (ctor Spec.o0).clones = [] ∧
    (ctor Spec.o0).opts = Spec.o0 ∧ (ctor Spec.o0).ts = -1 ∧ (ctor Spec.o0).next = 7 ∧
    ((ctor Spec.o0).obj 0).id = 0 ∧ ((ctor Spec.o0).obj 0).val = .imu imu0 ∧ ((ctor Spec.o0).obj 0).fej = .imu imu0 := by
  simp [ctor, ctorVars, Spec.o0, push, heap0, Val.size]

/-- A non-trivial history that meets the hypothesis: two clones are added, then the older one is marginalised, and the
result has 15 + 6 rows. -/
theorem C01_example : ∃ s, run lib (ctor Spec.o0) [.augment 0, .setTime 1, .augment 0, .margOld] = some s ∧
    s.vars = [0, 8] ∧ s.n = 21 ∧ s.clones = [(1, 8)] := by
  obtain ⟨h1, h2, h3, h4, h5, h6, h7, h8, h9⟩ := ctor_o0
  generalize ctor Spec.o0 = c at *
  have hlt : ¬ ((1:ℝ) < -1) := by norm_num
  have hne : ¬ ((-1:ℝ) = 1) := by norm_num
  have hne' : ¬ ((1:ℝ) = -1) := by norm_num
  simp [run, step, augment, clone, h1, h2, h3, h4, h5, h6, h7, h8, h9, imuUid, resolve, Val.part, Val.size, Spec.o0,
    insertClone, margOld, margtimestep, dropClone, marginalize, List.find?, hne, hne', hlt]

/-! ### C02, C03 -/

/-- **C02** After any history the matrix returned by `get_full_covariance` is symmetric. No assumption on the numerical
library or on the arguments. -/
theorem C02_covariance_symmetric (o : Opts) (ops : List Op) (h : run lib (ctor o) ops = some s) :
    ∀ i j, i < (getFull s).rows → j < (getFull s).cols → (getFull s).a i j = (getFull s).a j i := by
  intro i j hi hj
  have := run_sym ops (ctor_inv o) ((ctor_diag o).sym _) h i j hi hj
  simp only [getFull] at hi hj ⊢
  simp only [setBlock]
  rw [if_pos ⟨by omega, by omega⟩, if_pos ⟨by omega, by omega⟩]
  exact this

/-- **C03** After any history whose noise arguments are covariances, the covariance is positive semi-definite. -/
theorem C03_covariance_psd (hlib : Spec.LibOK lib) (o : Opts) (ops : List Op) (hok : Spec.HistOK lib (ctor o) ops)
    (h : run lib (ctor o) ops = some s) :
    ∀ x : ℕ → ℝ, 0 ≤ ∑ i ∈ range s.n, ∑ j ∈ range s.n, x i * s.P i j * x j :=
  run_psd hlib ops (ctor_inv o) ((ctor_diag o).sym _) ((ctor_diag o).psd _) hok h

/-- The library assumption is satisfiable. -/
example : Spec.LibOK mathlibLib := mathlibLib_spec

/-- an admissible history exists (the one of `C01_example`). -/
example : Spec.HistOK lib (ctor Spec.o0) [.augment 0, .setTime 1, .augment 0, .margOld] :=
  ⟨trivial, fun _ _ => ⟨trivial, fun _ _ => ⟨trivial, fun _ _ => ⟨trivial, fun _ _ => trivial⟩⟩⟩⟩

/-- **C03** (exits) In such a state the "negative diagonal" exit of `EKFPropagation` is unreachable: with sizes that match
the listed variables the call returns. -/
theorem C03_propagation_returns (hlib : Spec.LibOK lib) (o : Opts) (ops : List Op) (hok : Spec.HistOK lib (ctor o) ops)
    (h : run lib (ctor o) ops = some s) (nw old : List Ref) (Phi Q : DMat) (b : ℕ × ℕ) (N O : List (ℕ × ℕ))
    (hN : resolveAll s nw = some (b :: N)) (hO : resolveAll s old = some O) (hO' : O ≠ [])
    (hc : contiguous (b :: N) = true) (e1 : tot (b :: N) = Phi.rows) (e2 : tot O = Phi.cols) (e3 : Q.rows = Phi.rows)
    (e4 : Q.cols = Phi.rows) (hQ : PSD Q.rows (mirrorU Q.a)) : (propagate s nw old Phi Q).isSome := by
  have hI := run_inv ops (ctor_inv o) h
  have hP := run_sym ops (ctor_inv o) ((ctor_diag o).sym _) h
  have hp := run_psd hlib ops (ctor_inv o) ((ctor_diag o).sym _) ((ctor_diag o).psd _) hok h
  have hle := contiguous_tot (resolveAll_le hN) rfl hc
  rw [e1] at hle
  have hd : ¬ hasNegDiag s.n (propCov s.n s.P b.1 Phi.rows O Phi.a Q.a) := by
    rintro ⟨i, hi, hneg⟩
    rw [e3] at hQ
    have := (psd_congr _ hp (fullG_psd hle hQ) (propCov_eq s.P Phi.a Q.a (resolveAll_le hO) hle hP)).diag hi
    linarith
  unfold propagate
  rw [hN, hO]
  simp only [Option.bind_eq_bind, Option.bind_some]
  rw [if_neg hO', if_neg (by rw [hc]; simp), if_neg (by rw [e1, e2, e3, e4]; simp), if_neg hd]
  rfl

/-- **C03** (exits) Likewise for `EKFUpdate`. -/
theorem C03_update_returns (hlib : Spec.LibOK lib) (o : Opts) (ops : List Op) (hok : Spec.HistOK lib (ctor o) ops)
    (h : run lib (ctor o) ops = some s) (order : List Ref) (H R : DMat) (res : DVec) (L : List (ℕ × ℕ))
    (hL : resolveAll s order = some L) (e1 : res.rows = R.rows) (e2 : H.rows = R.rows) (e3 : R.cols = R.rows)
    (e4 : H.cols = tot L) (hRs : Mat.Sym R.rows R.a) (hR : PD R.rows R.a) : (update lib s order H res R).isSome := by
  have hI := run_inv ops (ctor_inv o) h
  have hP := run_sym ops (ctor_inv o) ((ctor_diag o).sym _) h
  have hp := run_psd hlib ops (ctor_inv o) ((ctor_diag o).sym _) ((ctor_diag o).psd _) hok h
  obtain ⟨Ma, hM⟩ := Option.isSome_iff_exists.1 (fillMa_ok s L R.rows H.a s.vars (fun _ _ => 0) fun u hu => by
    obtain ⟨k, _, _, hr⟩ := hI.resolve_self hu
    rw [hr]; rfl)
  have hMa := Ma_eq hI hL hM
  have hd : ¬ hasNegDiag s.n (updCov R.rows s.P (gain lib R.rows Ma (resCov H.cols H.a (margCov s.P L) R.a)) Ma) := by
    rintro ⟨i, hi, hneg⟩
    rw [e4] at hneg
    have hpsd : PSD s.n (updCov R.rows s.P (gain lib R.rows Ma (resCov (tot L) H.a (margCov s.P L) R.a)) Ma) :=
      updCov_psd hlib (resolveAll_le hL) hP hp hRs hR hMa
    have := hpsd.diag hi
    linarith
  unfold update
  rw [hL]
  simp only [Option.bind_eq_bind, Option.bind_some]
  rw [if_neg (by rw [e1, e2, e3, e4]; simp), hM]
  simp only [Option.bind_some]
  rw [if_neg hd]
  rfl

/-! ### C13: queries -/

theorem off_ix (L : List (ℕ × ℕ)) (i a : ℕ) (b : ℕ × ℕ) (hb : L[i]? = some b) (ha : a < b.2) :
    Spec.off L i + a < tot L ∧ ix L (Spec.off L i + a) = b.1 + a := by
  induction L generalizing i with
  | nil => simp at hb
  | cons c t ih =>
    have ht : tot (c :: t) = c.2 + tot t := rfl
    cases i with
    | zero =>
      simp at hb; subst hb
      simp only [Spec.off, List.take_zero, List.map_nil, List.sum_nil, Nat.zero_add, ix]
      rw [if_pos ha]
      exact ⟨by omega, rfl⟩
    | succ i =>
      obtain ⟨h1, h2⟩ := ih i (by simpa using hb)
      have ho : Spec.off (c :: t) (i + 1) = c.2 + Spec.off t i := by simp [Spec.off]
      refine ⟨by omega, ?_⟩
      simp only [ix]
      rw [if_neg (by omega), ho, show c.2 + Spec.off t i + a - c.2 = Spec.off t i + a by omega, h2]

theorem tot_sum (L : List (ℕ × ℕ)) : tot L = (L.map (·.2)).sum := by
  induction L with
  | nil => rfl
  | cons c t ih => simp [tot, ih]

/-- **C13** `get_marginal_covariance` returns the matrix whose (i,j) block is the covariance block between the i-th and
the j-th listed (sub-)variable, for any list (repetitions allowed), whenever all of them are in the state. -/
theorem C13_marginal_blocks (order : List Ref) (L : List (ℕ × ℕ)) (hL : resolveAll s order = some L) :
    ∃ M, getMarginal s order = some M ∧ M.rows = (L.map (·.2)).sum ∧ M.cols = (L.map (·.2)).sum ∧
      ∀ i j bi bj, L[i]? = some bi → L[j]? = some bj → ∀ a b, a < bi.2 → b < bj.2 →
        M.a (Spec.off L i + a) (Spec.off L j + b) = s.P (bi.1 + a) (bj.1 + b) := by
  refine ⟨⟨tot L, tot L, margCov s.P L⟩, ?_, tot_sum L, tot_sum L, ?_⟩
  · simp [getMarginal, hL]
  · intro i j bi bj hi hj a b ha hb
    obtain ⟨h1, h2⟩ := off_ix L i a bi hi ha
    obtain ⟨h3, h4⟩ := off_ix L j b bj hj hb
    show margCov s.P L _ _ = _
    rw [margCov_eq _ _ h1 h3, h2, h4]

/-- In a reachable state a listed variable's block is its id range: the handle of a whole variable resolves to
`(id, size)` exactly when the variable is active. -/
theorem C13_resolves (hs : Spec.Reach lib s) (u : ℕ) :
    (u ∈ s.vars → ∃ k : ℕ, (s.obj u).id = k ∧ resolve s (u, .self) = some (k, Spec.dim s u)) ∧
    (u ∉ s.vars → ∀ x, resolve s (u, x) = none) := by
  have hI := reach_inv hs
  refine ⟨fun hu => ?_, fun hu x => resolve_out (hI.out u hu)⟩
  obtain ⟨k, hk, _, hr⟩ := hI.resolve_self hu
  exact ⟨k, hk, hr⟩

/-- **C13** `get_full_covariance` returns the whole matrix. -/
theorem C13_full (s : State) : (getFull s).rows = s.n ∧ (getFull s).cols = s.n ∧
    ∀ i j, i < s.n → j < s.n → (getFull s).a i j = s.P i j := by
  refine ⟨rfl, rfl, fun i j hi hj => ?_⟩
  simp only [getFull, setBlock]
  rw [if_pos ⟨by omega, by omega⟩]; simp

/-- **C13** `set_initial_covariance(C, vars)` followed by `get_marginal_covariance(vars)` returns `C`, for distinct
variables and symmetric `C` of the right size; entries not between two listed variables are unchanged, and so are all
estimates and ids. -/
theorem C13_set_then_get (hs : Spec.Reach lib s) (order : List Ref) (C : DMat) (L : List (ℕ × ℕ))
    (hL : resolveAll s order = some L) (hd : Spec.Disjoint L) (hr : C.rows = tot L) (hc : C.cols = tot L)
    (hC : ∀ i j, i < C.rows → j < C.rows → C.a i j = C.a j i) :
    ∃ s', setInit s C order = some s' ∧ Spec.SameMat (getMarginal s' order) (some C) ∧
      (∀ i j, i < s.n → j < s.n → ¬ (Spec.In L i ∧ Spec.In L j) → s'.P i j = s.P i j) ∧
      s'.obj = s.obj ∧ s'.vars = s.vars ∧ s'.n = s.n := by
  have hP := reach_sym hs
  have h : setInit s C order = some { s with P := mirrorU (setLoop C.a L L 0 s.P) } := by
    unfold setInit
    rw [hL]
    simp only [Option.bind_eq_bind, Option.bind_some]
    rw [if_neg (by omega)]
  refine ⟨_, h, ?_, ?_, rfl, rfl, rfl⟩
  · obtain ⟨L', hL', _, h1, _⟩ := setInit_entry h
    obtain rfl : L = L' := by rw [hL] at hL'; exact Option.some.inj hL'
    have h1 := h1 (disjoint_inj hd) (by rw [hr] at hC; exact hC)
    have hres : resolveAll { s with P := mirrorU (setLoop C.a L L 0 s.P) } order = some L := by
      rw [← hL]
      clear * -
      induction order with
      | nil => rfl
      | cons r t ih => simp only [resolveAll]; rw [ih]; rfl
    simp only [getMarginal, hres]
    refine ⟨hr.symm, hc.symm, fun i j hi hj => ?_⟩
    have hi' : i < tot L := hi
    have hj' : j < tot L := hj
    show margCov _ L i j = _
    rw [margCov_eq _ _ hi' hj']
    exact h1 i j hi' hj'
  · obtain ⟨L', hL', _, _, h2⟩ := setInit_entry h
    obtain rfl : L = L' := by rw [hL] at hL'; exact Option.some.inj hL'
    intro i j hi hj hn
    exact h2 hP i j hi hj (by rw [covered_iff, covered_iff]; exact hn)

/-- a state with two active variables, to which the C13 statements apply with a list of two (sub-)variables. -/
example : ∃ s, Spec.Reach lib s ∧ resolveAll s [(8, .self), (0, .pose)] = some [(15, 6), (0, 6)] ∧
    Spec.Disjoint [(15, 6), (0, 6)] := by
  obtain ⟨s, h, hv, hn, _⟩ := C01_example (lib := lib)
  refine ⟨s, ⟨_, _, h⟩, ?_, by simp [Spec.Disjoint]⟩
  obtain ⟨h1, h2, h3, h4, h5, h6, h7, h8, h9⟩ := ctor_o0
  generalize ctor Spec.o0 = c at *
  have hlt : ¬ ((1:ℝ) < -1) := by norm_num
  have hne : ¬ ((-1:ℝ) = 1) := by norm_num
  have hne' : ¬ ((1:ℝ) = -1) := by norm_num
  simp [run, step, augment, clone, h1, h2, h3, h4, h5, h6, h7, h8, h9, imuUid, resolve, Val.part, Val.size, Spec.o0,
    insertClone, margOld, margtimestep, dropClone, marginalize, List.find?, hne, hne', hlt] at h
  subst h
  simp [resolveAll, resolve, Val.part, Val.size, shiftId, h7, h8]

/-! ### C04: marginalize -/

theorem Contig.disjoint {obj : ℕ → Obj} {l : List ℕ} {a b : ℕ} (h : Contig obj l a b) {u w : ℕ} (hu : u ∈ l)
    (hw : w ∈ l) (hne : u ≠ w) : (obj u).id + osz obj u ≤ (obj w).id ∨ (obj w).id + osz obj w ≤ (obj u).id := by
  induction l generalizing a with
  | nil => simp at hu
  | cons v t ih =>
    rcases List.mem_cons.1 hu with rfl | hu' <;> rcases List.mem_cons.1 hw with rfl | hw'
    · exact absurd rfl hne
    · left; have := (h.2.mem hw').1; have := h.1; push_cast at *; omega
    · right; have := (h.2.mem hu').1; have := h.1; push_cast at *; omega
    · exact ih h.2 hu' hw'

theorem margin_resolve (hI : Inv s) {u : ℕ} (h : marginalize s u = some s') (r : Ref) (hr : r.1 ≠ u) (k : ℕ)
    (hk : (s.obj u).id = k) :
    (resolve s r = none ∧ resolve s' r = none) ∨
      ∃ b b', resolve s r = some b ∧ resolve s' r = some b' ∧ b.2 = b'.2 ∧
        ∀ a, a < b.2 → margIx k (osz s.obj u) (b'.1 + a) = b.1 + a := by
  have hu := marginalize_mem h
  obtain ⟨k', hk', hkn, s1, h1, e1, e2, e3, _, _, _, _, _, _, e4⟩ := marginalize_eq hI hu
  rw [h] at h1
  obtain rfl := Option.some.inj h1
  obtain rfl : k = k' := by have := hk.symm.trans hk'; exact_mod_cast this
  have hI' := marginalize_inv hI h
  by_cases hm : r.1 ∈ s.vars
  · have hm' : r.1 ∈ s'.vars := by rw [e3]; simp [hm, hr]
    have hval : (s'.obj r.1).val = (s.obj r.1).val := by
      rw [e4, if_neg hr]; split_ifs <;> rfl
    cases hp : (s.obj r.1).val.part r.2 with
    | none => left; simp [resolve, hp, hval]
    | some x =>
      obtain ⟨off, v⟩ := x
      right
      obtain ⟨i, hi, hri, _⟩ := hI.resolve_part hm hp
      obtain ⟨i', hi', hri', _⟩ := hI'.resolve_part hm' (by rw [hval]; exact hp)
      refine ⟨_, _, hri, hri', rfl, ?_⟩
      intro a ha
      simp only at ha
      have hoff := part_size hp
      -- the two ranges are disjoint
      have hdis : i + osz s.obj r.1 ≤ k ∨ k + osz s.obj u ≤ i := by
        have := hI.contig.disjoint hm hu hr
        rw [hi, hk] at this
        omega
      have hso : osz s.obj r.1 = (s.obj r.1).val.size := rfl
      have hid := e4 r.1
      rw [if_neg hr] at hid
      simp only [margIx]
      by_cases hlt : (k : ℤ) < (s.obj r.1).id
      · rw [if_pos ⟨hm, hlt⟩] at hid
        have : (s'.obj r.1).id = (s.obj r.1).id - osz s.obj u := by rw [hid]
        rw [hi, hi'] at this
        rw [hi] at hlt
        split_ifs <;> omega
      · rw [if_neg (by tauto)] at hid
        have : (s'.obj r.1).id = (s.obj r.1).id := by rw [hid]
        rw [hi, hi'] at this
        rw [hi] at hlt
        split_ifs <;> omega
  · left
    refine ⟨resolve_out (hI.out _ hm), resolve_out (hI'.out _ ?_)⟩
    rw [e3]; simp [hm]

theorem margin_resolveAll (hI : Inv s) {u : ℕ} (h : marginalize s u = some s') (order : List Ref)
    (hr : ∀ r ∈ order, r.1 ≠ u) (k : ℕ) (hk : (s.obj u).id = k) :
    (resolveAll s order = none ∧ resolveAll s' order = none) ∨
      ∃ L L', resolveAll s order = some L ∧ resolveAll s' order = some L' ∧ tot L = tot L' ∧
        ∀ i, i < tot L → margIx k (osz s.obj u) (ix L' i) = ix L i := by
  induction order with
  | nil => right; exact ⟨[], [], rfl, rfl, rfl, by simp [tot]⟩
  | cons r t ih =>
    rcases margin_resolve hI h r (hr r (by simp)) k hk with ⟨a1, a2⟩ | ⟨b, b', a1, a2, a3, a4⟩
    · left; simp [resolveAll, a1, a2]
    · rcases ih (fun x hx => hr x (by simp [hx])) with ⟨c1, c2⟩ | ⟨L, L', c1, c2, c3, c4⟩
      · left; simp [resolveAll, a1, a2, c1, c2]
      · right
        refine ⟨b :: L, b' :: L', by simp [resolveAll, a1, c1], by simp [resolveAll, a2, c2], ?_, ?_⟩
        · simp only [tot]; omega
        · intro i hi
          have ht : tot (b :: L) = b.2 + tot L := rfl
          simp only [ix, ← a3]
          by_cases hb : i < b.2
          · rw [if_pos hb, if_pos hb]; exact a4 i hb
          · rw [if_neg hb, if_neg hb]; exact c4 _ (by omega)

/-- **C04** Marginalising `u` removes exactly `u` from the state; every joint marginal covariance over the other
(sub-)variables, in any order, is the same before and after; no estimate changes, and neither do the clone and feature
maps. -/
theorem C04_marginalize (hs : Spec.Reach lib s) (u : ℕ) (h : marginalize s u = some s') :
    (∀ order : List Ref, (∀ r ∈ order, r.1 ≠ u) → Spec.SameMat (getMarginal s' order) (getMarginal s order)) ∧
    (∀ v, (s'.obj v).val = (s.obj v).val ∧ (s'.obj v).fej = (s.obj v).fej) ∧
    s'.vars = s.vars.erase u ∧ (s'.obj u).id = -1 ∧ s'.n + Spec.dim s u = s.n ∧
    s'.clones = s.clones ∧ s'.slam = s.slam ∧ s'.ts = s.ts ∧ s'.cam = s.cam := by
  have hI := reach_inv hs
  have hP := reach_sym hs
  have hu := marginalize_mem h
  obtain ⟨k, hk, hkn, s1, h1, e1, e2, e3, _, _, e5, e6, e7, e8, e4⟩ := marginalize_eq hI hu
  rw [h] at h1
  obtain rfl := Option.some.inj h1
  refine ⟨?_, ?_, ?_, ?_, ?_, e6, e7, e5, e8⟩
  · intro order hr
    rcases margin_resolveAll hI h order hr k hk with ⟨a1, a2⟩ | ⟨L, L', a1, a2, a3, a4⟩
    · simp [getMarginal, a1, a2, Spec.SameMat]
    · simp only [getMarginal, a1, a2]
      refine ⟨a3.symm, a3.symm, fun i j hi hj => ?_⟩
      have hi' : i < tot L' := hi
      have hj' : j < tot L' := hj
      show margCov s'.P L' i j = margCov s.P L i j
      rw [margCov_eq _ _ hi' hj', margCov_eq _ _ (by omega) (by omega)]
      have l1 : ix L' i < s'.n := ix_lt (resolveAll_le a2) hi'
      have l2 : ix L' j < s'.n := ix_lt (resolveAll_le a2) hj'
      rw [e1] at l1 l2
      rw [e2, margPcov_eq hkn hP _ _ l1 l2, a4 i (by omega), a4 j (by omega)]
  · intro v
    rw [e4]
    split_ifs with h1 h2
    · subst h1; exact ⟨rfl, rfl⟩
    · exact ⟨rfl, rfl⟩
    · exact ⟨rfl, rfl⟩
  · rw [e3, hI.nodup.erase_eq_filter]
    congr 1; funext x; by_cases hx : x = u <;> simp [hx]
  · rw [e4, if_pos rfl]
  · have hd : Spec.dim s u = osz s.obj u := rfl
    omega

/-- marginalising an active variable of a reachable state never fails. -/
theorem C04_marginalize_returns (hs : Spec.Reach lib s) (u : ℕ) (hu : u ∈ s.vars) : (marginalize s u).isSome := by
  obtain ⟨_, _, _, s1, h1, _⟩ := marginalize_eq (reach_inv hs) hu
  rw [h1]; rfl

/-- C04 applies to a reachable state with several variables. -/
example : ∃ s s', Spec.Reach lib s ∧ 0 ∈ s.vars ∧ 8 ∈ s.vars ∧ marginalize s 0 = some s' := by
  obtain ⟨s, h, hv, _⟩ := C01_example (lib := lib)
  have hr : Spec.Reach lib s := ⟨_, _, h⟩
  obtain ⟨s', h'⟩ := Option.isSome_iff_exists.1 (C04_marginalize_returns hr 0 (by rw [hv]; simp))
  exact ⟨s, s', hr, by rw [hv]; simp, by rw [hv]; simp, h'⟩

/-! ### C05: clone -/

theorem clone_resolve (hI : Inv s) {r : Ref} {u : ℕ} (h : clone s r = some (s', u)) (q : Ref) :
    (q.1 ≠ u → resolve s' q = resolve s q) ∧ ∃ b, resolve s r = some b ∧ resolve s' (u, .self) = some (s.n, b.2) := by
  obtain ⟨k, off, v, f, hu, hk, p1, p2, p3, hle, hr, rfl, rfl⟩ := clone_eq hI h
  constructor
  · intro hq
    by_cases hm : q.1 ∈ s.vars
    · simp only [resolve, if_neg hq]
      cases hp : (s.obj q.1).val.part q.2 with
      | none => rfl
      | some x =>
        obtain ⟨o, w⟩ := x
        obtain ⟨i, hi, hri, hle'⟩ := hI.resolve_part hm hp
        simp only
        rw [if_pos ⟨by rw [hi]; omega, by rw [hi]; simp; omega⟩, if_pos ⟨by rw [hi]; omega, by rw [hi]; simp; omega⟩]
    · rw [resolve_out (hI.out _ hm), resolve_out]
      simp only [if_neg hq]; exact hI.out _ hm
  · refine ⟨_, hr, ?_⟩
    simp [resolve, Val.part]

theorem clone_resolveAll (hI : Inv s) {r : Ref} {u : ℕ} (h : clone s r = some (s', u)) (order : List Ref) :
    (resolveAll s' order = none ∧ resolveAll s (order.map fun q => if q.1 = u ∧ q.2 = .self then r else q) = none) ∨
      (∃ q ∈ order, q.1 = u ∧ q.2 ≠ .self) ∨
      ∃ b L L', resolve s r = some b ∧ resolveAll s' order = some L' ∧
        resolveAll s (order.map fun q => if q.1 = u ∧ q.2 = .self then r else q) = some L ∧ tot L = tot L' ∧
        ∀ i, i < tot L → cloneIx s.n b.1 (ix L' i) = ix L i := by
  obtain ⟨b, hb, hself⟩ := (clone_resolve hI h r).2
  have hfresh : ∀ q : Ref, q.1 = u → resolve s q = none := by
    intro q hq
    obtain ⟨_, _, _, _, _, _, _, _, _, _, _, rfl, _⟩ := clone_eq hI h
    refine resolve_out (hI.out _ fun hm => ?_)
    have := hI.alloc _ hm
    omega
  induction order with
  | nil => right; right; exact ⟨b, [], [], hb, rfl, rfl, rfl, by simp [tot]⟩
  | cons q t ih =>
    rcases ih with ⟨c1, c2⟩ | ⟨q', hq', h1⟩ | ⟨b', L, L', hb', c1, c2, c3, c4⟩
    · left
      simp only [List.map_cons, resolveAll, c1, c2]
      constructor
      · cases resolve s' q <;> rfl
      · cases resolve s (if q.1 = u ∧ q.2 = Sub.self then r else q) <;> rfl
    · right; left; exact ⟨q', by simp [hq'], h1⟩
    · obtain rfl : b = b' := by rw [hb] at hb'; exact Option.some.inj hb'
      by_cases hq : q.1 = u
      · by_cases hq2 : q.2 = .self
        · right; right
          have : q = (u, Sub.self) := by ext <;> simp [hq, hq2]
          subst this
          refine ⟨b, b :: L, (s.n, b.2) :: L', hb, by simp [resolveAll, hself, c1], ?_, ?_, ?_⟩
          · simp only [List.map_cons, and_self, if_true, resolveAll, hb, c2]; rfl
          · simp only [tot]; omega
          · intro i hi
            have ht : tot (b :: L) = b.2 + tot L := rfl
            simp only [ix]
            by_cases hi2 : i < b.2
            · rw [if_pos hi2, if_pos hi2]; unfold cloneIx; rw [if_neg (by omega)]; omega
            · rw [if_neg hi2, if_neg hi2]; exact c4 _ (by omega)
        · right; left; exact ⟨q, by simp, hq, hq2⟩
      · have hr1 := (clone_resolve hI h q).1 hq
        cases hq3 : resolve s q with
        | none => left; simp [resolveAll, hr1, hq3, hq]
        | some c =>
          right; right
          refine ⟨b, c :: L, c :: L', hb, by simp [resolveAll, hr1, hq3, c1], by simp [resolveAll, hq3, hq, c2], ?_, ?_⟩
          · simp only [tot]; omega
          · intro i hi
            have ht : tot (c :: L) = c.2 + tot L := rfl
            simp only [ix]
            by_cases hi2 : i < c.2
            · rw [if_pos hi2, if_pos hi2]
              have : c.1 + c.2 ≤ s.n := resolve_le hq3
              unfold cloneIx; rw [if_pos (by omega)]
            · rw [if_neg hi2, if_neg hi2]; exact c4 _ (by omega)

/-- **C05** `clone(x)` appends one new variable `u`: its estimate and first estimate are those of `x`; and every joint
covariance query on the new state, over any list of (sub-)variables in which the new variable may appear anywhere, equals
the query on the old state with `x` in place of the new variable. All old variables keep estimate and id. -/
theorem C05_clone (hs : Spec.Reach lib s) (r : Ref) (u : ℕ) (h : clone s r = some (s', u)) :
    u ∉ s.vars ∧ s'.vars = s.vars ++ [u] ∧ (s'.obj u).id = s.n ∧ (∀ v, v ≠ u → s'.obj v = s.obj v) ∧
    ((s.obj r.1).val.part r.2).map (·.2) = some (s'.obj u).val ∧
    ((s.obj r.1).fej.part r.2).map (·.2) = some (s'.obj u).fej ∧
    ∀ order : List Ref, (∀ q ∈ order, q.1 = u → q.2 = .self) →
      Spec.SameMat (getMarginal s' order) (getMarginal s (order.map fun q => if q.1 = u ∧ q.2 = .self then r else q)) := by
  have hI := reach_inv hs
  have hcov := clone_cov hI h
  have hres := clone_resolveAll hI h
  obtain ⟨k, off, v, f, hu, hk, p1, p2, p3, hle, hr, rfl, rfl⟩ := clone_eq hI h
  refine ⟨fun hm => absurd (hI.alloc _ hm) (lt_irrefl _), rfl, by simp, fun v hv => by simp only [if_neg hv],
    by simp [p1], by simp [p2], ?_⟩
  intro order hq
  rcases hres order with ⟨c1, c2⟩ | ⟨q, hq1, hq2, hq3⟩ | ⟨b, L, L', hb, c1, c2, c3, c4⟩
  · simp only [getMarginal, c1, c2]; exact trivial
  · exact absurd (hq q hq1 hq2) hq3
  · obtain ⟨b', hb', e1, e2, e3⟩ := hcov
    obtain rfl : b = b' := by rw [hb] at hb'; exact Option.some.inj hb'
    simp only [getMarginal, c1, c2]
    refine ⟨c3.symm, c3.symm, fun i j hi hj => ?_⟩
    have hi' : i < tot L' := hi
    have hj' : j < tot L' := hj
    show margCov _ L' i j = margCov s.P L i j
    have l1 := ix_lt (resolveAll_le c1) hi'
    have l2 := ix_lt (resolveAll_le c1) hj'
    rw [margCov_eq _ _ hi' hj', margCov_eq _ _ (by omega) (by omega)]
    refine (e3 _ _ l1 l2).trans ?_
    rw [c4 i (by omega), c4 j (by omega)]

/-- **C05** Marginalising the clone immediately restores covariance, layout and every object (the clone itself is
detached). -/
theorem C05_clone_then_marginalize (hs : Spec.Reach lib s) (r : Ref) (u : ℕ) (h : clone s r = some (s', u)) :
    ∃ s2, marginalize s' u = some s2 ∧ s2.n = s.n ∧ (∀ i j, i < s.n → j < s.n → s2.P i j = s.P i j) ∧
      s2.vars = s.vars ∧ (∀ v, v ≠ u → s2.obj v = s.obj v) ∧ (s2.obj u).id = -1 := by
  have hI := reach_inv hs
  have hP := reach_sym hs
  have hI' := clone_inv hI h
  have hP' := clone_sym hI hP h
  have hcov := clone_cov hI h
  obtain ⟨k, off, v, f, hu, hk, p1, p2, p3, hle, hr, rfl, rfl⟩ := clone_eq hI h
  have hnv : s.next ∉ s.vars := fun hm => absurd (hI.alloc _ hm) (lt_irrefl _)
  obtain ⟨k', hk', hkn, s2, h2, e1, e2, e3, _, _, _, _, _, _, e4⟩ := marginalize_eq hI' (u := s.next) (by simp)
  have hk'' : k' = s.n := by
    simp only [if_true] at hk'
    exact_mod_cast hk'.symm
  subst hk''
  simp only [osz, if_true] at e1 e2 hkn e4
  refine ⟨s2, h2, by omega, ?_, ?_, ?_, ?_⟩
  · intro i j hi hj
    rw [e2, margPcov_eq hkn hP' i j (by omega) (by omega)]
    obtain ⟨b, _, _, _, e⟩ := hcov
    unfold margIx
    rw [if_pos hi, if_pos hj]
    rw [e i j (by show i < s.n + _; omega) (by show j < s.n + _; omega)]
    unfold cloneIx; rw [if_pos hi, if_pos hj]
  · rw [e3, List.filter_append]
    simp
    intro a ha; rintro rfl; exact hnv ha
  · intro w hw
    rw [e4, if_neg hw, if_neg]
    · simp only [if_neg hw]
    · rintro ⟨hm, hlt⟩
      have hm' : w ∈ s.vars := by simpa [hw] using hm
      have := hI.contig.mem hm'
      simp only [if_neg hw] at hlt
      have hz : osz s.obj w = (s.obj w).val.size := rfl
      omega
  · rw [e4, if_pos rfl]

/-- cloning the pose of the IMU succeeds in a reachable state. -/
example : ∃ s s' u, Spec.Reach lib s ∧ clone s (0, .pose) = some (s', u) := by
  obtain ⟨h1, h2, h3, h4, h5, h6, h7, h8, h9⟩ := ctor_o0
  refine ⟨ctor Spec.o0, ?_⟩
  have : ∃ x, clone (ctor Spec.o0) (0, .pose) = some x := by
    unfold clone
    simp [h1, resolve, h8, h9, Val.part, h7, h2, Val.size]
  obtain ⟨⟨a, b⟩, hx⟩ := this
  exact ⟨a, b, ⟨_, [], rfl⟩, hx⟩

end Verif.St
