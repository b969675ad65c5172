import Verif.State.PropsA

/-!
# Property theorems: EKF update, propagation and initialisation (C06, C07, C09, C10, C72)
-/

set_option linter.unusedVariables false
set_option linter.unusedSimpArgs false
open Classical

namespace Verif.St

open Verif Verif.Types Finset Mat

variable {lib : Lib} {s s' : State}

theorem sum_tot (L : List (ℕ × ℕ)) (g : ℕ → ℕ → ℝ) :
    ∑ j ∈ range (tot L), g j (ix L j) =
      ∑ i ∈ range L.length, ∑ a ∈ range (L.getD i (0, 0)).2, g (Spec.off L i + a) ((L.getD i (0, 0)).1 + a) := by
  induction L generalizing g with
  | nil => simp [tot]
  | cons b t ih =>
    have ht : tot (b :: t) = b.2 + tot t := rfl
    rw [ht, Finset.sum_range_add, List.length_cons, Finset.sum_range_succ']
    have h1 : ∑ j ∈ range b.2, g j (ix (b :: t) j) =
        ∑ a ∈ range ((b :: t).getD 0 (0, 0)).2, g (Spec.off (b :: t) 0 + a) (((b :: t).getD 0 (0, 0)).1 + a) := by
      simp only [List.getD_cons_zero, Spec.off, List.take_zero, List.map_nil, List.sum_nil, Nat.zero_add]
      refine Finset.sum_congr rfl fun j hj => ?_
      simp only [ix]; rw [if_pos (Finset.mem_range.1 hj)]
    have h2 : ∑ j ∈ range (tot t), g (b.2 + j) (ix (b :: t) (b.2 + j)) =
        ∑ j ∈ range (tot t), (fun j x => g (b.2 + j) x) j (ix t j) := by
      refine Finset.sum_congr rfl fun j hj => ?_
      simp only [ix]; rw [if_neg (by omega), Nat.add_sub_cancel_left]
    rw [h1, h2, ih, add_comm]
    congr 1
    refine Finset.sum_congr rfl fun i hi => ?_
    simp only [List.getD_cons_succ]
    refine Finset.sum_congr rfl fun a _ => ?_
    have ho : Spec.off (b :: t) (i + 1) = b.2 + Spec.off t i := by simp [Spec.off]
    rw [ho, Nat.add_assoc]

theorem full_eq (L : List (ℕ × ℕ)) (m n : ℕ) (H : Mat) : Spec.full L m n H = toM m n (scatter L H) := by
  ext r c
  simp only [Spec.full, toM, scatter]
  rw [sum_tot L fun j x => if x = (c : ℕ) then H r j else 0]

/-- a state reached by a history with admissible arguments. -/
def Spec.ReachOK (lib : Lib) (s : State) : Prop := ∃ o ops, Spec.HistOK lib (ctor o) ops ∧ run lib (ctor o) ops = some s

theorem Spec.ReachOK.reach (h : Spec.ReachOK lib s) : Spec.Reach lib s := by
  obtain ⟨o, ops, _, h⟩ := h; exact ⟨o, ops, h⟩

theorem reach_psd (hlib : Spec.LibOK lib) (h : Spec.ReachOK lib s) : PSD s.n s.P := by
  obtain ⟨o, ops, ho, h⟩ := h
  exact run_psd hlib ops (ctor_inv o) ((ctor_diag o).sym _) ((ctor_diag o).psd _) ho h

theorem cov_eq (s : State) : Spec.cov s = toM s.n s.n s.P := rfl
theorem mat_eq (r c : ℕ) (A : Mat) : Spec.mat r c A = toM r c A := rfl

theorem run_append (ops ops' : List Op) (s : State) : run lib s (ops ++ ops') = (run lib s ops).bind fun s' => run lib s' ops' := by
  induction ops generalizing s with
  | nil => rfl
  | cons op t ih =>
    simp only [List.cons_append, run, Option.bind_eq_bind]
    cases step lib s op with
    | none => rfl
    | some s1 => simp only [Option.bind_some]; exact ih s1

theorem histOK_append {ops ops' : List Op} (ho : Spec.HistOK lib s ops) (h : run lib s ops = some s')
    (ho' : Spec.HistOK lib s' ops') : Spec.HistOK lib s (ops ++ ops') := by
  induction ops generalizing s with
  | nil => simp only [run, Option.some.injEq] at h; subst h; exact ho'
  | cons op t ih =>
    simp only [run, Option.bind_eq_bind, Option.bind_eq_some_iff] at h
    obtain ⟨s1, h1, h2⟩ := h
    refine ⟨ho.1, fun s2 hs2 => ?_⟩
    rw [h1] at hs2
    obtain rfl := Option.some.inj hs2
    exact ih (ho.2 _ h1) h2

/-- handles that resolve keep resolving to the same block when a new variable is appended. -/
theorem initInv_resolveAll {u order HR HL R res} (hI : Inv s) (h : initInv lib s u order HR HL R res = some s') :
    ∀ {ord : List Ref} {L}, resolveAll s ord = some L → resolveAll s' ord = some L := by
  obtain ⟨hu, hnx, hRc, hR0, hiso, hrr, hHL, hHR, hHLc, hk, L0, Ma, hL0, hc, hM, rfl⟩ := initInv_some h
  have hgone := hI.out u hu
  intro ord
  induction ord with
  | nil => intro L h; exact h
  | cons r t ih =>
    intro L hL
    simp only [resolveAll, Option.bind_eq_bind, Option.bind_eq_some_iff, Option.pure_def, Option.some.injEq] at hL ⊢
    obtain ⟨b, hb, bs, hbs, rfl⟩ := hL
    refine ⟨b, ?_, bs, ih hbs, rfl⟩
    have hne : r.1 ≠ u := by
      intro e
      simp only [resolve, e, hgone] at hb
      split at hb
      · simp at hb
      · rw [if_neg (by omega)] at hb; simp at hb
    simp only [resolve, if_neg hne] at hb ⊢
    split at hb
    · simp at hb
    · rename_i off v hp
      split_ifs at hb with h1
      rw [if_pos ⟨h1.1, by omega⟩]; exact hb

/-! ### C06 -/

/-- **C06** `EKFUpdate` is the Kalman update. With `H` the Jacobian placed in the columns of the listed variables and
`S = H P Hᵀ + R` (which is invertible), the new covariance is `P − P Hᵀ S⁻¹ H P`, it never exceeds the old one, and every
active variable is corrected by its own slice of `P Hᵀ S⁻¹ res`; ids, the list of variables, first estimates and all
other objects are untouched. -/
theorem C06_update_is_kalman (hlib : Spec.LibOK lib) (hs : Spec.ReachOK lib s) (order : List Ref) (H R : DMat) (res : DVec)
    (hRs : Mat.Sym R.rows R.a) (hR : PD R.rows R.a) (h : update lib s order H res R = some s') :
    ∃ L, resolveAll s order = some L ∧
      let P := Spec.cov s
      let Hf := Spec.full L R.rows s.n H.a
      let S := Hf * P * Hf.transpose + Spec.mat R.rows R.rows R.a
      let K := P * Hf.transpose * S⁻¹
      IsUnit S ∧ s'.n = s.n ∧
      Spec.mat s.n s.n s'.P = P - P * Hf.transpose * S⁻¹ * (Hf * P) ∧
      (∀ x, 0 ≤ dotProduct x ((P - Spec.mat s.n s.n s'.P).mulVec x)) ∧
      (∀ u ∈ s.vars, ∃ k : ℕ, (s.obj u).id = k ∧ ∃ dx : ℕ → ℝ,
        (∀ i, i < Spec.dim s u → ∃ hi : k + i < s.n, dx i = K.mulVec (Spec.vec R.rows res.a) ⟨k + i, hi⟩) ∧
        (s'.obj u).val = (s.obj u).val.update dx) ∧
      (∀ u, u ∉ s.vars → s'.obj u = s.obj u) ∧
      (∀ u, (s'.obj u).id = (s.obj u).id ∧ (s'.obj u).fej = (s.obj u).fej) ∧ s'.vars = s.vars := by
  have hI := reach_inv hs.reach
  have hP := reach_sym hs.reach
  have hp := reach_psd hlib hs
  obtain ⟨L, Ma, hL, e1, e2, e3, hc, hM, rfl⟩ := update_some h
  refine ⟨L, hL, ?_⟩
  simp only [full_eq, cov_eq, mat_eq]
  have hMa := Ma_eq hI hL hM
  have hcore := update_core hlib (resolveAll_le hL) hP hp hRs hR hMa
  have hS : toM R.rows s.n (scatter L H.a) * toM s.n s.n s.P * (toM R.rows s.n (scatter L H.a)).transpose +
      toM R.rows R.rows R.a = toM R.rows R.rows (innov s.n (scatter L H.a) s.P R.a) := by
    rw [show toM R.rows R.rows (innov s.n (scatter L H.a) s.P R.a) =
      toM R.rows R.rows (mul s.n (mul s.n (scatter L H.a) s.P) (tr (scatter L H.a))) + toM R.rows R.rows R.a from rfl,
      toM_mul, toM_mul, toM_tr]
  rw [hS]
  have hSp : PD R.rows (innov s.n (scatter L H.a) s.P R.a) := innov_pd hp hR
  have hSs : Mat.Sym R.rows (innov s.n (scatter L H.a) s.P R.a) := innov_sym hP hRs
  have hu := pd_isUnit hSp
  rw [hc]
  have hcov : toM s.n s.n (updCov R.rows s.P (gain lib R.rows Ma (resCov (tot L) H.a (margCov s.P L) R.a)) Ma) =
      toM s.n s.n s.P - toM s.n s.n s.P * (toM R.rows s.n (scatter L H.a)).transpose *
        (toM R.rows R.rows (innov s.n (scatter L H.a) s.P R.a))⁻¹ * (toM R.rows s.n (scatter L H.a) * toM s.n s.n s.P) := by
    rw [hcore.2, Matrix.transpose_mul, Matrix.transpose_transpose, sym_iff.1 hP]
  refine ⟨hu, trivial, hcov, ?_, ?_, ?_, ?_, trivial⟩
  · intro x
    rw [hcov, sub_sub_cancel]
    set Hm := toM R.rows s.n (scatter L H.a)
    set Sm := toM R.rows R.rows (innov s.n (scatter L H.a) s.P R.a)
    have hPs := sym_iff.1 hP
    have hSs' := sym_iff.1 hSs
    -- with y = S⁻¹ H P x the value is yᵀ S y
    set y := Sm⁻¹.mulVec ((Hm * toM s.n s.n s.P).mulVec x) with hy
    have hval : dotProduct x ((toM s.n s.n s.P * Hm.transpose * Sm⁻¹ * (Hm * toM s.n s.n s.P)).mulVec x) =
        dotProduct y (Sm.mulVec y) := by
      have hdet := (Matrix.isUnit_iff_isUnit_det _).1 hu
      have e : Sm.mulVec y = (Hm * toM s.n s.n s.P).mulVec x := by
        rw [hy, Matrix.mulVec_mulVec, Matrix.mul_nonsing_inv _ hdet, Matrix.one_mulVec]
      rw [e, ← Matrix.mulVec_mulVec, ← Matrix.mulVec_mulVec, ← hy]
      rw [Matrix.dotProduct_mulVec, dotProduct_comm]
      congr 1
      rw [← Matrix.mulVec_transpose, Matrix.transpose_mul, Matrix.transpose_transpose, hPs]
    rw [hval]
    have := psd_iff.1 hSp.psd y
    exact this
  · intro u hu
    obtain ⟨k, hk, hkn, _⟩ := hI.resolve_self hu
    refine ⟨k, hk, _, fun i hi => ?_, by rw [foldl_applyDx _ _ hI.nodup, if_pos hu]⟩
    have hki : k + i < s.n := by
      have hz : osz s.obj u = (s.obj u).val.size := rfl
      have hd : Spec.dim s u = (s.obj u).val.size := rfl
      omega
    refine ⟨hki, ?_⟩
    rw [← hcore.1, hk]
    have := congrFun (toV_mulVec s.n R.rows (gain lib R.rows Ma (resCov H.cols H.a (margCov s.P L) R.a)) res.a)
      ⟨k + i, hki⟩
    rw [hc] at this
    exact this
  · intro u hu
    simp only [foldl_applyDx _ _ hI.nodup]
    rw [if_neg hu]
  · intro u
    simp only [foldl_applyDx _ _ hI.nodup]
    split_ifs <;> exact ⟨rfl, rfl⟩

/-- C06 is not vacuous: a position measurement on the freshly constructed state is accepted. -/
example (hlib : Spec.LibOK lib) : ∃ s', update lib (ctor Spec.o0) [(0, .p)] ⟨3, 3, one⟩ ⟨3, fun _ => 1⟩ ⟨3, 3, one⟩ = some s' := by
  obtain ⟨h1, h2, h3, h4, h5, h6, h7, h8, h9⟩ := ctor_o0
  refine Option.isSome_iff_exists.1 (C03_update_returns hlib Spec.o0 [] trivial rfl _ _ _ _ [(3, 3)] ?_ rfl rfl rfl rfl ?_ ?_)
  · simp [resolveAll, resolve, h8, Val.part, h7, h2, Val.size]
  · intro i j _ _; simp only [one]; split_ifs <;> first | rfl | omega
  · have hi : isoNoise 3 one := by
      intro r c _ _; simp only [one]; exact ⟨fun e => by simp [e], fun e => by simp [e]⟩
    exact isoNoise_pd hi (by simp [one])

/-- **C72** After an update with intrinsic calibration on, every camera object holds exactly the estimate of its intrinsics
variable (so the projection functions use the corrected intrinsics); with it off the camera objects are unchanged. -/
theorem C72_cameras_follow_intrinsics (order : List Ref) (H R : DMat) (res : DVec)
    (h : update lib s order H res R = some s') :
    (s.opts.calibIntr = true → ∀ i, i < s.opts.numCams → s'.cam i = (s'.obj (intrUid i)).val) ∧
    (s.opts.calibIntr = false → s'.cam = s.cam) := by
  obtain ⟨L, Ma, hL, e1, e2, e3, hc, hM, rfl⟩ := update_some h
  constructor
  · intro ho i hi
    simp only [syncCams]
    rw [if_pos ⟨ho, hi⟩]
  · intro ho
    funext i
    show (if s.opts.calibIntr = true ∧ i < s.opts.numCams then _ else s.cam i) = s.cam i
    rw [ho]; simp

/-! ### C07 -/

namespace Spec

/-- full transition: identity rows outside `[start, start+rows)`, and there `Phi` on the columns of the OLD blocks. -/
noncomputable def transition (n start rows : ℕ) (O : List (ℕ × ℕ)) (Phi : Mat) : Matrix (Fin n) (Fin n) ℝ := fun i c =>
  if h : start ≤ i ∧ i < start + rows then full O rows n Phi ⟨i - start, by omega⟩ c
  else if i = c then 1 else 0

/-- full noise: `Q` on the block `[start, start+rows)²`, zero elsewhere. -/
noncomputable def noise (n start rows : ℕ) (Q : Mat) : Matrix (Fin n) (Fin n) ℝ := fun i c =>
  if (start ≤ i ∧ i < start + rows) ∧ (start ≤ c ∧ c < start + rows) then Q (i - start) (c - start) else 0

end Spec

theorem transition_eq (n start rows : ℕ) (O : List (ℕ × ℕ)) (Phi : Mat) :
    Spec.transition n start rows O Phi = toM n n (fullF start rows O Phi) := by
  ext i c
  simp only [Spec.transition, toM, fullF]
  by_cases h : start ≤ (i : ℕ) ∧ (i : ℕ) < start + rows
  · rw [dif_pos h, if_pos h, full_eq]; rfl
  · rw [dif_neg h, if_neg h]
    simp only [one, Fin.ext_iff]

theorem noise_eq (n start rows : ℕ) (Q : Mat) (hQ : Mat.Sym rows Q) :
    Spec.noise n start rows Q = toM n n (fullG start rows Q) := by
  ext i c
  simp only [Spec.noise, toM, fullG]
  split_ifs with h
  · rw [mirrorU_eq hQ (by omega) (by omega)]
  · rfl

/-- **C07** `EKFPropagation` with contiguous NEW variables starting at row `b.1` makes the covariance `F P Fᵀ + G`, and
changes nothing else in the state. -/
theorem C07_propagation (hs : Spec.Reach lib s) (nw old : List Ref) (Phi Q : DMat) (hQ : Mat.Sym Q.rows Q.a)
    (h : propagate s nw old Phi Q = some s') :
    ∃ b N O, resolveAll s nw = some (b :: N) ∧ resolveAll s old = some O ∧
      (let F := Spec.transition s.n b.1 Phi.rows O Phi.a
       Spec.mat s.n s.n s'.P = F * Spec.cov s * F.transpose + Spec.noise s.n b.1 Phi.rows Q.a) ∧
      (∀ i j, i < s.n → j < s.n → ¬ Spec.In (b :: N) i → ¬ Spec.In (b :: N) j → s'.P i j = s.P i j) ∧
      s' = { s with P := s'.P } := by
  have hP := reach_sym hs
  obtain ⟨N, O, b, t, hN, hO, rfl, _, hcon, hr, _, _, hq, hle, _, rfl⟩ := propagate_some h
  refine ⟨b, t, O, hN, hO, ?_, ?_, rfl⟩
  · have hQ' : Mat.Sym Phi.rows Q.a := by rw [← hr, hq]; exact hQ
    have := propCov_eq s.P Phi.a Q.a (resolveAll_le hO) hle hP
    simp only [mat_eq, cov_eq, transition_eq, noise_eq _ _ _ _ hQ']
    rw [eqOn_iff.1 this, ← toM_tr, ← toM_mul, ← toM_mul]
    rfl
  · intro i j hi hj hni hnj
    have hin : ∀ i, b.1 ≤ i → i < b.1 + Phi.rows → Spec.In (b :: t) i := by
      intro i h1 h2
      rw [← hr] at h2
      clear * - hcon h1 h2
      induction t generalizing b with
      | nil => exact ⟨b, by simp, h1, by simpa [tot] using h2⟩
      | cons c t ih =>
        simp only [contiguous, Bool.and_eq_true, beq_iff_eq] at hcon
        by_cases hb : i < b.1 + b.2
        · exact ⟨b, by simp, h1, hb⟩
        · obtain ⟨d, hd, hd'⟩ := ih c hcon.2 (by omega) (by simp only [tot] at h2 ⊢; omega)
          exact ⟨d, by simp at hd ⊢; tauto, hd'⟩
    have a1 : ¬ (b.1 ≤ i ∧ i < b.1 + Phi.rows) := fun hc => hni (hin i hc.1 hc.2)
    have a2 : ¬ (b.1 ≤ j ∧ j < b.1 + Phi.rows) := fun hc => hnj (hin j hc.1 hc.2)
    simp only [propCov]
    rw [setBlock_outside _ _ (by tauto), setBlock_outside _ _ (by tauto), setBlock_outside _ _ (by tauto)]

/-! ### C09 -/

/-- **C09** `initialize_invertible` appends exactly the new variable; with `H` the Jacobian of the old state, the old block
is unchanged, the joint covariance is that of the new error `f̃ = −H_L⁻¹ (H x̃ + n)`, i.e. cross block `−P Hᵀ H_L⁻ᵀ` and own block
`H_L⁻¹ (H P Hᵀ + R) H_L⁻ᵀ`; hence for invertible `H_L` the linearised measurement `H x̃ + H_L f̃` has exactly covariance `R` and is
uncorrelated with `x̃`. The estimate of the new variable is moved by `H_L⁻¹ res` and nothing else changes. -/
theorem C09_initialize_invertible (hlib : Spec.LibOK lib) (hs : Spec.Reach lib s) (u : ℕ) (order : List Ref) (HR HL R : DMat)
    (res : DVec) (hinv : IsUnit (Spec.mat R.rows R.rows HL.a)) (h : initInv lib s u order HR HL R res = some s') :
    ∃ L, resolveAll s order = some L ∧
      let k := R.rows
      let P := Spec.cov s
      let H := Spec.full L k s.n HR.a
      let M := Spec.mat k k HL.a
      let Rm := Spec.mat k k R.a
      let Pxf : Matrix (Fin s.n) (Fin k) ℝ := fun i a => s'.P i (s.n + a)
      let Pff : Matrix (Fin k) (Fin k) ℝ := fun a b => s'.P (s.n + a) (s.n + b)
      s'.vars = s.vars ++ [u] ∧ u ∉ s.vars ∧ (s'.obj u).id = s.n ∧ s'.n = s.n + k ∧ k = Spec.dim s u ∧
      (∀ v, v ≠ u → s'.obj v = s.obj v) ∧
      (∀ i j, i < s.n → j < s.n → s'.P i j = s.P i j) ∧
      (∀ (i : Fin s.n) (a : Fin k), s'.P (s.n + a) i = Pxf i a) ∧
      Pxf = - (P * H.transpose * (M⁻¹).transpose) ∧
      Pff = M⁻¹ * (H * P * H.transpose + Rm) * (M⁻¹).transpose ∧
      H * P * H.transpose + H * Pxf * M.transpose + M * Pxf.transpose * H.transpose + M * Pff * M.transpose = Rm ∧
      P * H.transpose + Pxf * M.transpose = 0 ∧
      (∃ dx : ℕ → ℝ, (∀ i (hi : i < k), dx i = (M⁻¹).mulVec (Spec.vec k res.a) ⟨i, hi⟩) ∧
        (s'.obj u).val = (s.obj u).val.update dx) := by
  have hI := reach_inv hs
  have hP := reach_sym hs
  have hsym := initInv_sym hI hP h
  obtain ⟨hu, hnx, hRc, hR0, hiso, hrr, hHL, hHR, hHLc, hk, L, Ma, hL, hc, hM, rfl⟩ := initInv_some h
  refine ⟨L, hL, ?_⟩
  simp only [full_eq, cov_eq, mat_eq]
  have hMa := Ma_eq hI hL hM
  set k := R.rows with hkdef
  set Hf := scatter L HR.a with hHf
  set n := s.n with hn
  have hdet : IsUnit (toM k k HL.a).det := (Matrix.isUnit_iff_isUnit_det _).1 hinv
  have hinvM : toM k k (lib.inv k HL.a) = (toM k k HL.a)⁻¹ := by
    have := hlib.inv k HL.a ⟨extM (toM k k HL.a)⁻¹, by
      rw [eqOn_iff, toM_mul, toM_one, toM_extM]; exact Matrix.mul_nonsing_inv _ hdet⟩
    rw [eqOn_iff, toM_mul, toM_one] at this
    exact (Matrix.inv_eq_right_inv this).symm
  have hSs : Mat.Sym k (innov n Hf s.P R.a) := innov_sym hP (isoNoise_sym hiso)
  have hSm : toM k k (resCov HR.cols HR.a (margCov s.P L) R.a) =
      toM k n Hf * toM n n s.P * (toM k n Hf).transpose + toM k k R.a := by
    rw [hc, resCov_eq (resolveAll_le hL)]
    have := toM_mirrorU hSs
    rw [show (fun i j => mul n (mul n Hf s.P) (tr Hf) i j + R.a i j) = innov n Hf s.P R.a from rfl] at *
    rw [this, show toM k k (innov n Hf s.P R.a) = toM k k (mul n (mul n Hf s.P) (tr Hf)) + toM k k R.a from rfl,
      toM_mul, toM_mul, toM_tr]
  have hxx : ∀ i j, i < n → j < n → initCov n k s.P Ma (lib.inv k HL.a) (resCov HR.cols HR.a (margCov s.P L) R.a) i j =
      s.P i j := by
    intro i j hi hj
    simp only [initCov]
    rw [setBlock_outside _ _ (by omega), setBlock_outside _ _ (by omega), setBlock_outside _ _ (by omega),
      if_pos ⟨hi, hj⟩]
  have hxf : (fun (i : Fin n) (a : Fin k) => initCov n k s.P Ma (lib.inv k HL.a)
      (resCov HR.cols HR.a (margCov s.P L) R.a) i (n + a)) =
      - (toM n n s.P * (toM k n Hf).transpose * ((toM k k HL.a)⁻¹).transpose) := by
    rw [← hinvM, ← toM_tr, ← toM_mul, ← eqOn_iff.1 hMa, ← toM_tr, ← toM_mul]
    funext i a
    have := i.2
    have := a.2
    simp only [initCov]
    rw [setBlock_outside _ _ (by omega), setBlock_outside _ _ (by omega), setBlock_in _ _ ⟨by omega, by omega⟩]
    simp [toM]
  have hff : (fun (a : Fin k) (b : Fin k) => initCov n k s.P Ma (lib.inv k HL.a)
      (resCov HR.cols HR.a (margCov s.P L) R.a) (n + a) (n + b)) =
      (toM k k HL.a)⁻¹ * (toM k n Hf * toM n n s.P * (toM k n Hf).transpose + toM k k R.a) *
        ((toM k k HL.a)⁻¹).transpose := by
    rw [← hinvM, ← hSm, ← toM_mul, ← toM_tr, ← toM_mul]
    funext a b
    have := a.2
    have := b.2
    simp only [initCov]
    rw [setBlock_in _ _ ⟨by omega, by omega⟩]
    simp [toM]
  have hPs := sym_iff.1 hP
  refine ⟨trivial, hu, by simp, trivial, hk.symm, fun v hv => by simp only [if_neg hv], hxx, ?_, hxf, hff, ?_, ?_, ?_⟩
  · intro i a
    exact hsym _ _ (by show n + (a : ℕ) < n + k; have := a.2; omega) (by show (i : ℕ) < n + k; have := i.2; omega)
  · rw [hxf, hff]
    set A := toM k k HL.a
    have h1 : A * A⁻¹ = 1 := Matrix.mul_nonsing_inv _ hdet
    have h2 : (A⁻¹).transpose * A.transpose = 1 := by rw [← Matrix.transpose_mul, h1, Matrix.transpose_one]
    have h3 : ∀ X : Matrix (Fin k) (Fin k) ℝ, A * (A⁻¹ * X * (A⁻¹).transpose) * A.transpose = X := by
      intro X
      rw [← Matrix.mul_assoc, ← Matrix.mul_assoc, h1, Matrix.one_mul, Matrix.mul_assoc, h2, Matrix.mul_one]
    rw [h3]
    have h4 : toM k n Hf * -(toM n n s.P * (toM k n Hf).transpose * (A⁻¹).transpose) * A.transpose =
        - (toM k n Hf * toM n n s.P * (toM k n Hf).transpose) := by
      rw [Matrix.mul_neg, Matrix.neg_mul]
      congr 1
      rw [← Matrix.mul_assoc, ← Matrix.mul_assoc, Matrix.mul_assoc _ _ A.transpose, h2, Matrix.mul_one]
    have h5 : A * (-(toM n n s.P * (toM k n Hf).transpose * (A⁻¹).transpose)).transpose * (toM k n Hf).transpose =
        - (toM k n Hf * toM n n s.P * (toM k n Hf).transpose) := by
      rw [Matrix.transpose_neg, Matrix.mul_neg, Matrix.neg_mul]
      congr 1
      rw [Matrix.transpose_mul, Matrix.transpose_mul, Matrix.transpose_transpose, Matrix.transpose_transpose, hPs,
        ← Matrix.mul_assoc, h1, Matrix.one_mul]
    rw [h4, h5]
    abel
  · rw [hxf]
    set A := toM k k HL.a
    have h1 : A * A⁻¹ = 1 := Matrix.mul_nonsing_inv _ hdet
    have h2 : (A⁻¹).transpose * A.transpose = 1 := by rw [← Matrix.transpose_mul, h1, Matrix.transpose_one]
    rw [Matrix.neg_mul, Matrix.mul_assoc _ _ A.transpose, h2, Matrix.mul_one, add_neg_cancel]
  · refine ⟨mulVec k (lib.inv k HL.a) res.a, fun i hi => ?_, by simp only [if_true]⟩
    rw [← hinvM]
    exact congrFun (toV_mulVec k k (lib.inv k HL.a) res.a) ⟨i, hi⟩

/-- `initialize_invertible` returns whenever the call is well formed: a new object of the right size, isotropic noise and
matching dimensions. -/
theorem C09_returns (hs : Spec.Reach lib s) (u : ℕ) (order : List Ref) (HR HL R : DMat) (res : DVec) (L : List (ℕ × ℕ))
    (hu : u ∉ s.vars) (hx : u < s.next) (hL : resolveAll s order = some L) (hk : Spec.dim s u = R.rows) (h0 : 0 < R.rows)
    (e1 : R.cols = R.rows) (e2 : res.rows = R.rows) (e3 : HL.rows = R.rows) (e4 : HR.rows = R.rows) (e5 : HL.cols = R.rows)
    (e6 : HR.cols = tot L) (hR : isoNoise R.rows R.a) : (initInv lib s u order HR HL R res).isSome := by
  have hI := reach_inv hs
  obtain ⟨Ma, hM⟩ := Option.isSome_iff_exists.1 (fillMa_ok s L R.rows HR.a s.vars (fun _ _ => 0) fun u hu => by
    obtain ⟨k, _, _, hr⟩ := hI.resolve_self hu
    rw [hr]; rfl)
  have hk' : (s.obj u).val.size = R.rows := hk
  unfold initInv
  rw [if_neg (by push Not; exact ⟨hu, hx⟩), if_neg (by rw [e1]; simp; omega), if_neg (not_not.2 hR),
    if_neg (by rw [e2, e3, e4]; simp), hL]
  simp only [Option.bind_eq_bind, Option.bind_some]
  rw [if_neg (not_not.2 e6), hM]
  simp only [Option.bind_some]
  rw [if_neg (by rw [e3, e5, hk']; simp)]
  rfl

/-- a landmark has been created (uid 7) but is not yet in the state. -/
theorem run_alloc : ∃ s, run lib (ctor Spec.o0) [.alloc (.vec 3 0) (.vec 3 0)] = some s ∧ s.vars = [0] ∧ s.n = 15 ∧
    s.next = 8 ∧ (s.obj 0).id = 0 ∧ (s.obj 0).val = .imu imu0 ∧ (s.obj 7).val = .vec 3 0 := by
  obtain ⟨h1, h2, h3, h4, h5, h6, h7, h8, h9⟩ := ctor_o0
  generalize ctor Spec.o0 = c at *
  simp [run, step, sameKind, h1, h2, h6, h7, h8]

theorem one_iso (k : ℕ) : isoNoise k one := by
  intro r c _ _; simp only [one]; exact ⟨fun e => by simp [e], fun e => by simp [e]⟩

/-- C09 is not vacuous: a three-dimensional landmark seen through the IMU position is added to the constructed state, with
an invertible `H_L`. -/
example : ∃ s s', Spec.Reach lib s ∧ IsUnit (Spec.mat 3 3 (fun i j => 2 * one i j)) ∧
    initInv lib s 7 [(0, .p)] ⟨3, 3, one⟩ ⟨3, 3, fun i j => 2 * one i j⟩ ⟨3, 3, one⟩ ⟨3, fun _ => 1⟩ = some s' := by
  obtain ⟨s, hr, h1, h2, h3, h4, h5, h6⟩ := run_alloc (lib := lib)
  have hs : Spec.Reach lib s := ⟨_, _, hr⟩
  obtain ⟨s', h'⟩ := Option.isSome_iff_exists.1 (C09_returns (lib := lib) hs 7 [(0, .p)] ⟨3, 3, one⟩
    ⟨3, 3, fun i j => 2 * one i j⟩ ⟨3, 3, one⟩ ⟨3, fun _ => 1⟩ [(3, 3)] (by rw [h1]; simp) (by omega)
    (by simp [resolveAll, resolve, h5, Val.part, h4, h2, Val.size]) (by simp [Spec.dim, h6, Val.size]) (by norm_num) rfl rfl
    rfl rfl rfl rfl (one_iso 3))
  refine ⟨s, s', hs, ?_, h'⟩
  have : Spec.mat 3 3 (fun i j => 2 * one i j) = (2 : ℝ) • (1 : Matrix (Fin 3) (Fin 3) ℝ) := by
    ext i j; simp [Spec.mat, one, Matrix.one_apply, Fin.ext_iff]
  rw [this, Matrix.isUnit_iff_isUnit_det]
  simp

/-! ### C10 -/

theorem initDelayed_gate {u order HR HL R res mult b} (h : initDelayed lib s u order HR HL R res mult = some (s', b)) :
    ∃ L, resolveAll s order = some L ∧ HR.cols = tot L ∧
      (b = false ↔ mult * lib.chi2 R.rows < ∑ i ∈ range (R.rows - HL.cols),
        (Givens.run R.rows HL.cols ⟨HL.a, HR.a, res.a⟩).v (HL.cols + i) *
          lib.lltSolve (R.rows - HL.cols) (fun i j =>
            mul (tot L) (mul (tot L) (block HL.cols 0 (Givens.run R.rows HL.cols ⟨HL.a, HR.a, res.a⟩).B) (margCov s.P L))
              (tr (block HL.cols 0 (Givens.run R.rows HL.cols ⟨HL.a, HR.a, res.a⟩).B)) i j + block HL.cols HL.cols R.a i j)
            (fun i => (Givens.run R.rows HL.cols ⟨HL.a, HR.a, res.a⟩).v (HL.cols + i)) i) := by
  unfold initDelayed at h
  split_ifs at h with h1 h2 h3
  simp only at h
  by_cases h4 : (s.obj u).val.size = HL.cols ∧ HL.rows = HR.rows ∧ res.rows = HL.rows ∧ R.rows = HL.rows ∧
    (s.obj u).val.size ≤ HL.rows
  · rw [if_neg (not_not.2 h4)] at h
    obtain ⟨e1, e2, e3, e4, e5⟩ := h4
    rw [e1, e3, ← e4] at h
    cases hL : resolveAll s order with
    | none => rw [hL] at h; simp at h
    | some L =>
      rw [hL] at h
      simp only [Option.bind_eq_bind, Option.bind_some] at h
      by_cases h5 : HR.cols = tot L
      · rw [if_neg (not_not.2 h5)] at h
        refine ⟨L, rfl, h5, ?_⟩
        rw [h5] at h
        split at h
        · rename_i hg
          simp only [Option.some.injEq, Prod.mk.injEq] at h
          exact ⟨fun _ => hg, fun _ => h.2.symm⟩
        · rename_i hg
          refine ⟨fun hb => ?_, fun hc => absurd hc hg⟩
          exfalso
          rw [hb] at h
          rw [Option.bind_eq_some_iff] at h
          obtain ⟨s1, g1, g2⟩ := h
          by_cases h7 : 0 < R.rows - HL.cols
          · rw [if_pos h7, Option.bind_eq_some_iff] at g2
            obtain ⟨s2, g2, g3⟩ := g2
            simp at g3
          · rw [if_neg h7] at g2
            simp at g2
      · rw [if_pos h5] at h; simp at h
  · rw [if_pos h4] at h; simp at h

/-- `(H_L', H_R', r')` is an orthogonally rotated copy of the `m`-row system `(H_L, H_R, r)` whose first `k` rows contain all
of the dependence on the `k` new variables: below them the new `H_L` is zero. -/
structure Spec.Split (m k c : ℕ) (HL HR : Mat) (r : Vect) (HL' HR' : Mat) (r' : Vect) : Prop where
  rot : ∃ Q : Matrix (Fin m) (Fin m) ℝ, Q.transpose * Q = 1 ∧ Spec.mat m k HL' = Q * Spec.mat m k HL ∧
    Spec.mat m c HR' = Q * Spec.mat m c HR ∧ Spec.vec m r' = Q.mulVec (Spec.vec m r)
  zero : ∀ i j, j < k → j < i → i < m → HL' i j = 0

/-- The Mahalanobis distance of the rows `k …` of the system, with `R` isotropic noise. -/
noncomputable def Spec.gateStat (s : State) (L : List (ℕ × ℕ)) (m k : ℕ) (HR' : Mat) (r' : Vect) (R : Mat) : ℝ :=
  let H2 := Spec.full L (m - k) s.n (fun i j => HR' (k + i) j)
  let S := H2 * Spec.cov s * H2.transpose + Spec.mat (m - k) (m - k) (fun i j => R (k + i) (k + j))
  let r2 := Spec.vec (m - k) fun i => r' (k + i)
  dotProduct r2 (S⁻¹.mulVec r2)

/-- **C10** `initialize` splits the measurement by an orthogonal rotation into rows that determine the new variable and rows
that do not depend on it. It returns false exactly when the squared Mahalanobis distance of the second part exceeds
`mult · χ²₀.₉₅(m)`, and then nothing has changed. Otherwise the first part is used by `initialize_invertible` and exactly
the second part (if there is any) by one `EKFUpdate`. (The threshold takes the number of *all* rows, not of the rows tested.) -/
theorem C10_initialize (hlib : Spec.LibOK lib) (hs : Spec.ReachOK lib s) (u : ℕ) (order : List Ref) (HR HL R : DMat)
    (res : DVec) (mult : ℝ) (b : Bool) (hR : 0 < R.a 0 0)
    (h : initDelayed lib s u order HR HL R res mult = some (s', b)) :
    ∃ L HL' HR' res', resolveAll s order = some L ∧ Spec.Split R.rows HL.cols HR.cols HL.a HR.a res.a HL' HR' res' ∧
      HL.cols = Spec.dim s u ∧ HL.cols ≤ R.rows ∧
      (b = false ↔ mult * lib.chi2 R.rows < Spec.gateStat s L R.rows HL.cols HR' res' R.a) ∧
      (b = false → s' = s) ∧
      (b = true → ∃ s1, initInv lib s u order ⟨HL.cols, HR.cols, HR'⟩ ⟨HL.cols, HL.cols, HL'⟩ ⟨HL.cols, HL.cols, R.a⟩
            ⟨HL.cols, res'⟩ = some s1 ∧
        (HL.cols = R.rows → s' = s1) ∧
        (HL.cols < R.rows →
          update lib s1 order ⟨R.rows - HL.cols, HR.cols, fun i j => HR' (HL.cols + i) j⟩
            ⟨R.rows - HL.cols, fun i => res' (HL.cols + i)⟩
            ⟨R.rows - HL.cols, R.rows - HL.cols, fun i j => R.a (HL.cols + i) (HL.cols + j)⟩ = some s')) := by
  have hP := reach_sym hs.reach
  have hp := reach_psd hlib hs
  obtain ⟨L, hL, hcL, hgate⟩ := initDelayed_gate h
  obtain ⟨hiso, _, _, _, hk, hr, _, _, hle, hcase⟩ := initDelayed_some h
  obtain ⟨⟨Q, hQ, qA, qB, qv⟩, hlow⟩ := Givens.run_spec R.rows HL.cols ⟨HL.a, HR.a, res.a⟩
  have hb : (Mat.block HL.cols 0 (Givens.run R.rows HL.cols ⟨HL.a, HR.a, res.a⟩).B) =
      fun i j => (Givens.run R.rows HL.cols ⟨HL.a, HR.a, res.a⟩).B (HL.cols + i) j := by
    funext i j; simp [Mat.block]
  rw [hb] at hcase hgate
  set G := Givens.run R.rows HL.cols ⟨HL.a, HR.a, res.a⟩ with hG
  refine ⟨L, G.A, G.B, G.v, hL, ⟨⟨Q, hQ, ?_, ?_, ?_⟩, ?_⟩, hk.symm, hle, ?_, ?_, ?_⟩
  · ext i j; simp only [Spec.mat, Matrix.mul_apply]; exact qA i j
  · ext i j; simp only [Spec.mat, Matrix.mul_apply]; exact qB i j
  · ext i; simp only [Spec.vec, Matrix.mulVec, dotProduct]; exact qv i
  · intro i j hj hij hi; exact hlow j hj i hij hi
  · rw [hgate]
    refine iff_of_eq (congrArg _ ?_)
    set m := R.rows - HL.cols with hm
    have hSm := small_eq_full (resolveAll_le hL) s.P (fun i j => G.B (HL.cols + i) j)
    have hsc : (fun i j => mul (tot L) (mul (tot L) (fun i j => G.B (HL.cols + i) j) (margCov s.P L))
        (tr fun i j => G.B (HL.cols + i) j) i j + block HL.cols HL.cols R.a i j) =
        innov s.n (scatter L fun i j => G.B (HL.cols + i) j) s.P (block HL.cols HL.cols R.a) := by
      funext i j; rw [hSm]; rfl
    rw [hsc]
    rcases Nat.eq_zero_or_pos m with hm0 | hm0
    · rw [hm0, Finset.sum_range_zero]
      symm
      unfold Spec.gateStat
      simp only [dotProduct]
      refine Finset.sum_eq_zero fun i _ => ?_
      exact absurd i.2 (by omega)
    have hiso' : isoNoise m (block HL.cols HL.cols R.a) := isoNoise_block hiso (by omega)
    have h00 : 0 < block HL.cols HL.cols R.a 0 0 := by
      have := (hiso HL.cols HL.cols (by omega) (by omega)).1 rfl
      simp only [block, Nat.add_zero]
      rw [← this]; exact hR
    have hSp := innov_pd (Hf := scatter L fun i j => G.B (HL.cols + i) j) hp (isoNoise_pd hiso' h00)
    have hSs := innov_sym (Hf := scatter L fun i j => G.B (HL.cols + i) j) hP (isoNoise_sym hiso')
    have hsol := hlib.lltSolve m _ (fun i => G.v (HL.cols + i)) hSs hSp
    have hu := (Matrix.isUnit_iff_isUnit_det _).1 (pd_isUnit hSp)
    have hx : toV m (lib.lltSolve m (innov s.n (scatter L fun i j => G.B (HL.cols + i) j) s.P
        (block HL.cols HL.cols R.a)) fun i => G.v (HL.cols + i)) =
        (toM m m (innov s.n (scatter L fun i j => G.B (HL.cols + i) j) s.P
          (block HL.cols HL.cols R.a)))⁻¹.mulVec (toV m fun i => G.v (HL.cols + i)) := by
      have e : (toM m m (innov s.n (scatter L fun i j => G.B (HL.cols + i) j) s.P (block HL.cols HL.cols R.a))).mulVec
          (toV m (lib.lltSolve m (innov s.n (scatter L fun i j => G.B (HL.cols + i) j) s.P
            (block HL.cols HL.cols R.a)) fun i => G.v (HL.cols + i))) = toV m fun i => G.v (HL.cols + i) := by
        rw [← toV_mulVec]; funext i; exact hsol i i.2
      rw [← e, Matrix.mulVec_mulVec, Matrix.nonsing_inv_mul _ hu, Matrix.one_mulVec]
    have hfin : Spec.gateStat s L R.rows HL.cols G.B G.v R.a = dotProduct (toV m fun i => G.v (HL.cols + i))
        ((toM m m (innov s.n (scatter L fun i j => G.B (HL.cols + i) j) s.P
          (block HL.cols HL.cols R.a)))⁻¹.mulVec (toV m fun i => G.v (HL.cols + i))) := by
      simp only [Spec.gateStat, full_eq, cov_eq, mat_eq, ← hm]
      rw [show toM m m (innov s.n (scatter L fun i j => G.B (HL.cols + i) j) s.P (block HL.cols HL.cols R.a)) =
        toM m m (mul s.n (mul s.n (scatter L fun i j => G.B (HL.cols + i) j) s.P)
          (tr (scatter L fun i j => G.B (HL.cols + i) j))) + toM m m (block HL.cols HL.cols R.a) from rfl,
        toM_mul, toM_mul, toM_tr]
      rfl
    rw [hfin, ← hx, Finset.sum_range]
    rfl
  · intro hb'
    rcases hcase with h | ⟨h, _⟩
    · exact h.2
    · rw [hb'] at h; exact absurd h (by simp)
  · intro hb'
    rcases hcase with h | ⟨_, s1, h1, h2⟩
    · rw [h.1] at hb'; exact absurd hb' (by simp)
    · refine ⟨s1, h1, ?_, ?_⟩
      · intro e
        rcases h2 with ⟨_, h2⟩ | ⟨h2, _⟩
        · exact h2
        · omega
      · intro e
        rcases h2 with ⟨h2, _⟩ | ⟨_, h2⟩
        · omega
        · exact h2

/-- `initialize` returns (true or false) whenever the call is well formed. -/
theorem C10_returns (hlib : Spec.LibOK lib) (hs : Spec.ReachOK lib s) (u : ℕ) (order : List Ref) (HR HL R : DMat)
    (res : DVec) (mult : ℝ) (L : List (ℕ × ℕ)) (hu : u ∉ s.vars) (hx : u < s.next) (hL : resolveAll s order = some L)
    (hk : Spec.dim s u = HL.cols) (hk0 : 0 < HL.cols) (hle : HL.cols ≤ R.rows) (e1 : R.cols = R.rows)
    (e2 : res.rows = R.rows) (e3 : HL.rows = R.rows) (e4 : HR.rows = R.rows) (e6 : HR.cols = tot L)
    (hiso : isoNoise R.rows R.a) (hR : 0 < R.a 0 0) : (initDelayed lib s u order HR HL R res mult).isSome := by
  have hk' : (s.obj u).val.size = HL.cols := hk
  unfold initDelayed
  rw [if_neg (by push Not; exact ⟨hu, hx⟩), if_neg (by rw [e1]; simp; omega), if_neg (not_not.2 hiso)]
  simp only
  rw [if_neg (by rw [e2, e3, e4, hk']; simpa using hle), hL, hk', e2, e3]
  simp only [Option.bind_eq_bind, Option.bind_some]
  rw [if_neg (not_not.2 e6)]
  split
  · rfl
  · set G := Givens.run R.rows HL.cols ⟨HL.a, HR.a, res.a⟩
    obtain ⟨s1, h1⟩ := Option.isSome_iff_exists.1 (C09_returns (lib := lib) hs.reach u order ⟨HL.cols, HR.cols, G.B⟩
      ⟨HL.cols, HL.cols, G.A⟩ ⟨HL.cols, HL.cols, R.a⟩ ⟨HL.cols, G.v⟩ L hu hx hL hk hk0 rfl rfl rfl rfl rfl e6
      (fun r c hr hc => hiso r c (by simp only at hr; omega) (by simp only at hc; omega)))
    rw [h1]
    simp only [Option.bind_some]
    split
    · rename_i hup
      have hs1 : Spec.ReachOK lib s1 := by
        obtain ⟨o, ops, ho, hr⟩ := hs
        refine ⟨o, ops ++ [.initInv u order ⟨HL.cols, HR.cols, G.B⟩
          ⟨HL.cols, HL.cols, G.A⟩ ⟨HL.cols, HL.cols, R.a⟩ ⟨HL.cols, G.v⟩], ?_, ?_⟩
        · exact histOK_append ho hr ⟨hR.le, fun s' _ => trivial⟩
        · rw [run_append, hr]; simp [run, step, h1]
      obtain ⟨o, ops, ho, hr⟩ := hs1
      have hL1 : resolveAll s1 order = some L := by
        have hI := reach_inv hs.reach
        exact initInv_resolveAll hI h1 hL
      obtain ⟨s2, h2⟩ := Option.isSome_iff_exists.1 (C03_update_returns hlib o ops ho hr order
        ⟨R.rows - HL.cols, HR.cols, Mat.block HL.cols 0 G.B⟩
        ⟨R.rows - HL.cols, R.rows - HL.cols, Mat.block HL.cols HL.cols R.a⟩
        ⟨R.rows - HL.cols, fun i => G.v (HL.cols + i)⟩ L hL1 rfl rfl rfl e6
        (isoNoise_sym (isoNoise_block hiso (by omega)))
        (isoNoise_pd (isoNoise_block hiso (by omega)) (by
          have := (hiso HL.cols HL.cols (by omega) (by omega)).1 rfl
          simp only [block, Nat.add_zero]
          rw [← this]; exact hR)))
      rw [h2]; rfl
    · rfl

/-- Both outcomes of C10 occur: the same six-row system for a three-dimensional landmark is accepted or rejected depending
on the multiplier. -/
example (hlib : Spec.LibOK lib) (hq : 0 < lib.chi2 6) :
    ∃ s, Spec.ReachOK lib s ∧ ∀ b : Bool, ∃ mult s',
      initDelayed lib s 7 [(0, .p)] ⟨6, 3, fun i j => one i j⟩ ⟨6, 3, fun i j => i + j⟩ ⟨6, 6, one⟩ ⟨6, fun i => i⟩ mult =
        some (s', b) := by
  obtain ⟨s, hr, h1, h2, h3, h4, h5, h6⟩ := run_alloc (lib := lib)
  have hs : Spec.ReachOK lib s := ⟨Spec.o0, [.alloc (.vec 3 0) (.vec 3 0)], ⟨trivial, fun _ _ => trivial⟩, hr⟩
  refine ⟨s, hs, fun b => ?_⟩
  have hL : resolveAll s [(0, .p)] = some [(3, 3)] := by simp [resolveAll, resolve, h5, Val.part, h4, h2, Val.size]
  have hret := fun mult => C10_returns hlib hs 7 [(0, .p)] ⟨6, 3, fun i j => one i j⟩ ⟨6, 3, fun i j => i + j⟩ ⟨6, 6, one⟩
    ⟨6, fun i => i⟩ mult [(3, 3)] (by rw [h1]; simp) (by omega) hL (by simp [Spec.dim, h6, Val.size]) (by norm_num)
    (by norm_num) rfl rfl rfl rfl rfl (one_iso 6) (by simp [one])
  obtain ⟨st, hst⟩ : ∃ st : ℝ, ∀ mult s' b,
      initDelayed lib s 7 [(0, .p)] ⟨6, 3, fun i j => one i j⟩ ⟨6, 3, fun i j => i + j⟩ ⟨6, 6, one⟩ ⟨6, fun i => i⟩ mult =
        some (s', b) → (b = false ↔ mult * lib.chi2 6 < st) := by
    have hg := fun mult s' b h => initDelayed_gate (mult := mult) (lib := lib) (s := s) (s' := s') (b := b) (u := 7)
      (order := [(0, .p)]) (HR := ⟨6, 3, fun i j => one i j⟩) (HL := ⟨6, 3, fun i j => i + j⟩) (R := ⟨6, 6, one⟩)
      (res := ⟨6, fun i => i⟩) h
    simp only [hL, Option.some.injEq, exists_eq_left'] at hg
    exact ⟨_, fun mult s' b h => (hg mult s' b h).2⟩
  cases b with
  | false =>
    obtain ⟨⟨s', b⟩, h⟩ := Option.isSome_iff_exists.1 (hret ((st - 1) / lib.chi2 6))
    have := (hst _ _ _ h).2 (by rw [div_mul_cancel₀ _ hq.ne']; linarith)
    exact ⟨_, s', by rw [h, this]⟩
  | true =>
    obtain ⟨⟨s', b⟩, h⟩ := Option.isSome_iff_exists.1 (hret (st / lib.chi2 6))
    have := (hst _ _ _ h).not.2 (by rw [div_mul_cancel₀ _ hq.ne']; exact lt_irrefl _)
    exact ⟨_, s', by rw [h]; cases b <;> simp_all⟩

end Verif.St
