import Verif.Upd.PropsSlam
import Verif.State.PropsFlat

/-!
# Delayed initialisation of landmarks as a whole (C98)
-/

set_option linter.unusedVariables false
set_option linter.unusedSectionVars false
open Classical

namespace Verif.Upd

open Verif Mat Verif.Land Verif.Types Finset

variable {lib : St.Lib} {o : St.Opts} {s s' : St.State} {M : ℕ → LMeta}

/-! ## specification -/

namespace Spec

/-- `s` with one more object, which is not part of the estimated state. -/
def fresh (s : St.State) (v f : Val) : St.State :=
  { s with obj := fun w => if w = s.next then ⟨-1, v, f, false, true⟩ else s.obj w, next := s.next + 1 }

/-- a linearised new landmark: track and triangulated position, number `b` of landmark directions that are eliminated (two for a single depth), number `k` that
are estimated, the stacked Jacobians and residual of C79, where the variables are in the state, and a matrix `N`. -/
structure DItem where
  g : Track × Fix
  b : ℕ
  k : ℕ
  out : Out
  refs : List St.Ref
  L : List (ℕ × ℕ)
  N : Matrix (Fin (out.rows - b)) (Fin out.rows) ℝ

/-- the representation configured for tags or other points. -/
def DItem.rep (s : St.State) (C : SCfg) (i : DItem) : Rep := if i.g.1.id < s.opts.maxAruco then C.repA else C.repS

/-- the pixel noise configured for tags or other points. -/
noncomputable def DItem.sig (s : St.State) (C : SCfg) (i : DItem) : ℝ := if i.g.1.id < s.opts.maxAruco then C.sigA else C.sigS

/-- the triangulated position, in the frame of the representation. -/
def DItem.pt (s : St.State) (C : SCfg) (i : DItem) : V3 := if isRelative (i.rep s C) then i.g.2.pA else i.g.2.pG

/-- the data belong to the track, linearised at the triangulated position and the current state; the rows of `N` are orthonormal, annihilate the bearing of a
single-depth landmark, and span that null space; without single depth nothing is eliminated. -/
structure DItem.OK (s : St.State) (C : SCfg) (i : DItem) : Prop where
  b : i.b = if i.rep s C = .anchoredSingle then 2 else 0
  k : i.k = if i.rep s C = .anchoredSingle then 1 else 3
  out : full (view s C.fej C.kind) (toFeat (msckfRep (i.rep s C)) i.g.1 i.g.2) = some i.out
  rows : i.out.rows = 2 * (i.g.1.obs.map fun c => c.2.length).sum
  refs : i.out.order.mapM (refOf s) = some i.refs
  L : St.resolveAll s i.refs = some i.L
  nodup : i.refs.Nodup
  orth : i.N * i.N.transpose = 1
  null : i.N * mat i.out.rows i.b i.out.Hf = 0
  span : (∀ x, (mat i.out.rows i.b i.out.Hf).mulVec x = 0 → x = 0) → ∀ y, Matrix.vecMul y (mat i.out.rows i.b i.out.Hf) = 0 → ∃ z, y = Matrix.vecMul z i.N

/-- Jacobian with respect to the whole error state. -/
noncomputable def DItem.Hx (s : St.State) (i : DItem) : Matrix (Fin (i.out.rows - i.b)) (Fin s.n) ℝ := i.N * St.Spec.full i.L i.out.rows s.n i.out.Hx

/-- Jacobian with respect to the estimated directions of the new landmark. -/
noncomputable def DItem.Hf (i : DItem) : Matrix (Fin (i.out.rows - i.b)) (Fin i.k) ℝ := i.N * mat i.out.rows i.k (fun r c => i.out.Hf r (i.b + c))

/-- residual. -/
noncomputable def DItem.r (i : DItem) : Fin (i.out.rows - i.b) → ℝ := i.N.mulVec (vec i.out.rows i.out.res)

/-- the measurement determines the new landmark. -/
def DItem.Determined (i : DItem) : Prop := ∀ x, i.Hf.mulVec x = 0 → x = 0

/-- the test: the part of the measurement that does not depend on the landmark (a basis `N₂` of the left null space of its Jacobian) has squared Mahalanobis
distance at most the configured multiple of `χ²₀.₉₅` of the number of *all* rows. -/
def DItem.Test (lib : St.Lib) (s : St.State) (C : SCfg) (i : DItem) (ok : Bool) : Prop :=
  ∃ N2 : Matrix (Fin (i.out.rows - i.b - i.k)) (Fin (i.out.rows - i.b)) ℝ, N2 * N2.transpose = 1 ∧ N2 * i.Hf = 0 ∧
    (i.Determined → ∀ y, Matrix.vecMul y i.Hf = 0 → ∃ z, y = Matrix.vecMul z N2) ∧
    (ok = true ↔ dotProduct (N2.mulVec i.r) (((N2 * i.Hx s) * St.Spec.cov s * (N2 * i.Hx s).transpose + i.sig s C • (1 : Matrix _ _ ℝ))⁻¹.mulVec (N2.mulVec i.r)) ≤
      (if i.g.1.id < s.opts.maxAruco then C.multA else C.multS) * lib.chi2 (i.out.rows - i.b))

/-- one feature is tried: `ok` tells if it became a landmark. The new landmark starts at the triangulated position. If the test fails nothing changes (but for an
object that is not used). Otherwise the variable is appended and, if the measurement determines it, the state becomes the Bayesian posterior of the old state and
the landmark given all rows once, without prior knowledge of the landmark (C97); and the id is entered in the map unless it is already there. -/
def Tried (lib : St.Lib) (C : SCfg) (g : Track × Fix) (s : St.State) (M : ℕ → LMeta) (s' : St.State) (M' : ℕ → LMeta) (ok : Bool) : Prop :=
  ∃ (i : DItem) (v f uv uvf : V3), i.g = g ∧ i.OK s C ∧ i.Test lib s C ok ∧ f = v ∧ uvf = uv ∧
    (Land.Spec.Dom (i.rep s C) (i.pt s C) → (⟨i.rep s C, i.k, v, f, uv, uvf⟩ : Lm).getXyz false = some (i.pt s C)) ∧
    (ok = false → s' = fresh s (lmVal i.k v) (lmVal i.k f) ∧ M' = M) ∧
    (ok = true →
      (i.Determined → St.Spec.PosteriorNew (fresh s (lmVal i.k v) (lmVal i.k f)) s' s.next i.k
        ((1 / i.sig s C) • ((Matrix.fromCols (i.Hx s) i.Hf).transpose * Matrix.fromCols (i.Hx s) i.Hf))
        ((1 / i.sig s C) • (Matrix.fromCols (i.Hx s) i.Hf).transpose.mulVec i.r)) ∧
      s'.vars = s.vars ++ [s.next] ∧
      ((∀ e ∈ s.slam, e.1 ≠ g.1.id) → s'.slam = s.slam ++ [(g.1.id, s.next)]) ∧ ((∃ e ∈ s.slam, e.1 = g.1.id) → s'.slam = s.slam) ∧
      M' = fun w => if w = s.next then ⟨i.rep s C, if isRelative (i.rep s C) then some g.2.cam else none, if isRelative (i.rep s C) then g.2.t else -1, uv, uvf, 0, some g.2.cam⟩
        else M w)

/-- the features are tried one after the other; the last argument lists the ids that were accepted. -/
inductive Chain (lib : St.Lib) (C : SCfg) : List (Track × Fix) → St.State → (ℕ → LMeta) → St.State → (ℕ → LMeta) → List ℕ → Prop
  | nil (s : St.State) (M : ℕ → LMeta) : Chain lib C [] s M s M []
  | cons {g : Track × Fix} {t : List (Track × Fix)} {s s1 s2 : St.State} {M M1 M2 : ℕ → LMeta} {ids : List ℕ} {ok : Bool} : Tried lib C g s M s1 M1 ok → Chain lib C t s1 M1 s2 M2 ids →
      Chain lib C (g :: t) s M s2 M2 ((if ok then [g.1.id] else []) ++ ids)

end Spec

/-! ## the split of a measurement -/

theorem full_left {L : List (ℕ × ℕ)} {m p n : ℕ} {A B : Mat} {N : Matrix (Fin m) (Fin p) ℝ} (h : Spec.mat m (St.tot L) B = N * Spec.mat p (St.tot L) A) :
    St.Spec.full L m n B = N * St.Spec.full L p n A := by
  rw [full_factor, full_factor, h, Matrix.mul_assoc]

theorem split_null {L : List (ℕ × ℕ)} {m k n : ℕ} {HL HR HL' HR' : Mat} {r r' : Vect} (h : St.Spec.Split m k (St.tot L) HL HR r HL' HR' r') (hle : k ≤ m) :
    ∃ N : Matrix (Fin (m - k)) (Fin m) ℝ, N * N.transpose = 1 ∧ N * Spec.mat m k HL = 0 ∧
      ((∀ x, (Spec.mat m k HL).mulVec x = 0 → x = 0) → ∀ y, Matrix.vecMul y (Spec.mat m k HL) = 0 → ∃ z, y = Matrix.vecMul z N) ∧
      St.Spec.full L (m - k) n (fun i j => HR' (k + i) j) = N * St.Spec.full L m n HR ∧
      Spec.vec (m - k) (fun i => r' (k + i)) = N.mulVec (Spec.vec m r) := by
  obtain ⟨⟨Q, hQ, qA, qB, qv⟩, hzero⟩ := h
  refine ⟨lastRows m k hle Q, lastRows_orth hle hQ, ?_, ?_, ?_, ?_⟩
  · ext i j
    have h1 := congr_fun (congr_fun qA ⟨k + i, by omega⟩) j
    simp only [Matrix.mul_apply, lastRows, Spec.mat, St.Spec.mat, Matrix.zero_apply] at h1 ⊢
    rw [← h1]; exact hzero _ _ j.2 (by have := j.2; omega) (by omega)
  · intro hinj y hy
    set R : Matrix (Fin k) (Fin k) ℝ := fun i j => HL' i j with hR
    have hfull : ∀ (i : Fin m) (j : Fin k), (Q * Spec.mat m k HL) i j = if h : (i : ℕ) < k then R ⟨i, h⟩ j else 0 := by
      intro i j
      have h1 := congr_fun (congr_fun qA i) j
      have e : (Q * Spec.mat m k HL) i j = HL' i j := h1.symm
      rw [e]
      split_ifs with hi
      · rfl
      · exact hzero i j j.2 (by omega) i.2
    have hRinj : ∀ x, R.mulVec x = 0 → x = 0 := by
      intro x hx
      apply hinj
      have : (Q * Spec.mat m k HL).mulVec x = 0 := by
        ext i
        simp only [Matrix.mulVec, dotProduct, hfull, Pi.zero_apply]
        by_cases hi : (i : ℕ) < k
        · simp only [hi, dif_pos]
          exact congr_fun hx ⟨i, hi⟩
        · simp [hi]
      have h2 : (Q.transpose * (Q * Spec.mat m k HL)).mulVec x = 0 := by
        rw [← Matrix.mulVec_mulVec, this, Matrix.mulVec_zero]
      rwa [← Matrix.mul_assoc, hQ, Matrix.one_mul] at h2
    have hRu : IsUnit R := by
      rw [← Matrix.mulVec_injective_iff_isUnit]
      intro a b hab
      have := hRinj (a - b) (by rw [Matrix.mulVec_sub]; simp [hab])
      exact sub_eq_zero.1 this
    set w := Q.mulVec y with hw
    have hyw : y = Matrix.vecMul w Q := by
      rw [hw, ← Matrix.mulVec_transpose, Matrix.mulVec_mulVec, hQ, Matrix.one_mulVec]
    have hz : ∀ i : Fin k, w ⟨i, by omega⟩ = 0 := by
      have h1 : Matrix.vecMul w (Q * Spec.mat m k HL) = 0 := by
        rw [← Matrix.vecMul_vecMul, ← hyw, hy]
      have h2 : Matrix.vecMul (fun i : Fin k => w ⟨i, by omega⟩) R = 0 := by
        ext j
        have := congr_fun h1 j
        simp only [Matrix.vecMul, dotProduct, hfull, Pi.zero_apply] at this ⊢
        rw [← this]
        obtain ⟨d, rfl⟩ := Nat.exists_eq_add_of_le hle
        rw [Fin.sum_univ_add]
        simp
        rfl
      have h3 := (Matrix.vecMul_injective_iff_isUnit.2 hRu) (h2.trans (Matrix.zero_vecMul R).symm)
      intro i
      exact congr_fun h3 i
    refine ⟨fun i => w ⟨k + i, by omega⟩, ?_⟩
    rw [hyw]
    ext j
    obtain ⟨d, rfl⟩ := Nat.exists_eq_add_of_le hle
    simp only [Matrix.vecMul, dotProduct, lastRows]
    rw [Fin.sum_univ_add]
    have e1 : ∀ i : Fin k, w (Fin.castAdd d i) = 0 := fun i => hz i
    simp only [e1, zero_mul, Finset.sum_const_zero, zero_add]
    refine Fintype.sum_equiv (finCongr (by omega)) _ _ fun i => ?_
    simp [Fin.natAdd]
  · refine full_left ?_
    ext i j
    exact congr_fun (congr_fun qB ⟨k + i, by omega⟩) j
  · ext i
    exact congr_fun qv ⟨k + i, by omega⟩

/-! ## one feature -/

theorem delaySys_spec (hW : St.W o s) (hI : St.Inv s) {C : SCfg} {g : Track × Fix} (hcams : (g.1.obs.map Prod.fst).Nodup) {y : LSys}
    (h : delaySys s C.fej C.kind (C.rep s g.1.id) (toFeat (msckfRep (C.rep s g.1.id)) g.1 g.2) = some y) :
    ∃ (i : Spec.DItem) (Hx Hf : Mat) (r : Vect), i.g = g ∧ i.OK s C ∧ y = ⟨i.refs, i.out.rows - i.b, St.tot i.L, Hx, Hf, r⟩ ∧
      St.Spec.full i.L (i.out.rows - i.b) s.n Hx = i.Hx s ∧ Spec.mat (i.out.rows - i.b) i.k Hf = i.Hf ∧ Spec.vec (i.out.rows - i.b) r = i.r := by
  obtain ⟨ho, hr⟩ := toFeat_obs (msckfRep (C.rep s g.1.id)) g.1 g.2
  unfold delaySys at h
  simp only [Option.bind_eq_bind, Option.bind_eq_some_iff] at h
  obtain ⟨out, hout, refs, hrefs, h⟩ := h
  obtain ⟨-, erows, -, -⟩ := full_some hout
  have erows' : out.rows = 2 * (g.1.obs.map fun c => c.2.length).sum := by rw [erows, flat_length, ho]
  have hcams' : ((toFeat (msckfRep (C.rep s g.1.id)) g.1 g.2).obs.map Prod.fst).Nodup := by rw [ho]; exact hcams
  have htot := total_refs hW hout hcams' hrefs
  have hnd := refs_nodup hW hout hcams' hrefs
  obtain ⟨L, hL⟩ := resolveAll_isSome.1 fun v hv => whole_resolve hI (refs_plain hW hout hcams' hrefs v hv).whole
  have hw : total out.order = St.tot L := by rw [htot, tot_totR hL]
  by_cases hs : C.rep s g.1.id = .anchoredSingle
  · rw [if_pos hs] at h
    simp only [Option.bind_eq_some_iff] at h
    obtain ⟨p, hp, h⟩ := h
    obtain ⟨q1, q2⟩ := C30_projection out.rows 2 out.Hf
    have h2 : 2 ≤ out.rows := by
      by_contra hc
      rw [q1 (by omega)] at hp
      cases hp
    obtain ⟨N, n1, n2, n3, n4⟩ := q2 h2
    obtain ⟨H', r', e, eH, er⟩ := n3 (St.tot L + 1) (hstack out.rows (total out.order) 1 out.Hx (Mat.block 0 2 out.Hf)) out.res
    rw [e] at hp
    obtain rfl := (Option.some.inj hp).symm
    obtain rfl := (Option.some.inj h).symm
    refine ⟨⟨g, 2, 1, out, refs, L, N⟩, H', Mat.block 0 (total out.order) H', r', rfl,
      ⟨?_, ?_, hout, erows', hrefs, hL, hnd, n1, n2, n4⟩, by rw [hw], ?_, ?_, er⟩
    · have : Spec.DItem.rep s C ⟨g, 2, 1, out, refs, L, N⟩ = .anchoredSingle := hs
      rw [this]; rfl
    · have : Spec.DItem.rep s C ⟨g, 2, 1, out, refs, L, N⟩ = .anchoredSingle := hs
      rw [this]; rfl
    · refine full_left ?_
      ext i j
      have hj : (j : ℕ) < St.tot L := j.2
      have := congr_fun (congr_fun eH i) ⟨j, by omega⟩
      simp only [Spec.mat, Matrix.mul_apply] at this ⊢
      rw [this]
      refine Finset.sum_congr rfl fun l _ => ?_
      rw [hstack_eq _ _ _ _ _ l.2 (by omega), if_pos (by omega)]
    · ext i j
      have hj : (j : ℕ) < 1 := j.2
      have := congr_fun (congr_fun eH i) ⟨St.tot L + j, by omega⟩
      simp only [Spec.mat, Spec.DItem.Hf, Matrix.mul_apply, Mat.block, Nat.zero_add, hw] at this ⊢
      rw [this]
      refine Finset.sum_congr rfl fun l _ => ?_
      rw [hstack_eq _ _ _ _ _ l.2 (by omega), if_neg (by omega)]
      simp [Mat.block]
  · rw [if_neg hs] at h
    obtain rfl := (Option.some.inj h).symm
    have hs' : ∀ N, Spec.DItem.rep s C ⟨g, 0, 3, out, refs, L, N⟩ ≠ .anchoredSingle := fun _ => hs
    refine ⟨⟨g, 0, 3, out, refs, L, (1 : Matrix (Fin out.rows) (Fin out.rows) ℝ)⟩, out.Hx, out.Hf, out.res, rfl,
      ⟨by rw [if_neg (hs' _)], by rw [if_neg (hs' _)], hout, erows', hrefs, hL, hnd, ?_, ?_, ?_⟩, by rw [hw]; rfl, ?_, ?_, ?_⟩
    · simp only [Nat.sub_zero]; simp
    · ext i j; exact j.elim0
    · intro _ y _
      exact ⟨y, by simp only [Nat.sub_zero]; simp⟩
    · simp only [Spec.DItem.Hx, Nat.sub_zero]
      rw [Matrix.one_mul]
    · simp only [Spec.DItem.Hf, Nat.sub_zero]
      rw [Matrix.one_mul]
      ext i j; simp [Spec.mat]
    · simp only [Spec.DItem.r, Nat.sub_zero]
      rw [Matrix.one_mulVec]

theorem fresh_resolve (hI : St.Inv s) {v f : Val} {L : List (ℕ × ℕ)} : ∀ {refs : List St.Ref}, (∀ r ∈ refs, Whole s r) → St.resolveAll s refs = some L →
    St.resolveAll (Spec.fresh s v f) refs = some L := by
  intro refs
  induction refs generalizing L with
  | nil => intro _ h; exact h
  | cons r t ih =>
    intro hw h
    simp only [St.resolveAll, Option.bind_eq_bind, Option.bind_eq_some_iff] at h ⊢
    obtain ⟨b, hb, bs, hbs, h⟩ := h
    refine ⟨b, ?_, bs, ih (fun r hr => hw r (by simp [hr])) hbs, h⟩
    have hne : r.1 ≠ s.next := (hI.alloc _ (hw r (by simp)).2).ne
    simpa [St.resolve, Spec.fresh, hne] using hb

theorem newLm_spec {r : Rep} {p : V3} {l : Lm} (h : newLm r p = some l) :
    l.rep = r ∧ l.dim = (if r = .anchoredSingle then 1 else 3) ∧ (Land.Spec.Dom r p → l.getXyz false = some p) ∧ l.fej = l.val ∧ l.uv0f = l.uv0 := by
  have hd : ∀ hD : Land.Spec.Dom r p, l.getXyz false = some p := by
    intro hD
    obtain ⟨l1, h1, h2, h3, h4, -, -⟩ := C27_value_roundtrip ⟨r, jacobsize r, 0, 0, 0, 0⟩ p rfl hD
    unfold newLm at h
    rw [h1] at h
    simp only [Option.bind_eq_bind, Option.bind_some] at h
    rw [← h2]
    obtain ⟨r1, n1, v1, f1, u1, w1⟩ := l1
    simp only at h3 h4
    subst h3 h4
    cases r1 <;> simp [Lm.setFromXyz, Lm.set, jacobsize] at h <;> subst h <;> rfl
  refine ⟨?_, ?_, hd, ?_, ?_⟩ <;> clear hd <;> unfold newLm at h <;> cases r <;>
    simp [Lm.setFromXyz, Lm.set, jacobsize] at h <;> subst h <;> rfl

theorem initDelayed_frame (hI : St.Inv s) {u order HR HL R res mult b} (h : St.initDelayed lib s u order HR HL R res mult = some (s', b)) :
    s'.clones = s.clones ∧ s'.slam = s.slam ∧ s'.opts = s.opts ∧ s'.ts = s.ts ∧ s'.next = s.next ∧
      (∀ w, (s'.obj w).lm = (s.obj w).lm ∧ St.sameKind (s.obj w).val (s'.obj w).val) ∧ (b = true → s'.vars = s.vars ++ [u]) := by
  obtain ⟨_, _, _, _, _, _, _, _, _, h2 | ⟨_, s1, h2, h3⟩⟩ := St.initDelayed_some h
  · rw [h2.2]
    exact ⟨rfl, rfl, rfl, rfl, rfl, fun _ => ⟨rfl, St.sameKind_refl _⟩, fun hb => by rw [h2.1] at hb; cases hb⟩
  · have hI1 := St.initInv_inv hI h2
    obtain ⟨hu, hnx, hRc, hR0, hiso, hrr, hHL, hHR, hHLc, hk, L, Ma, hL, hc, hM, e⟩ := St.initInv_some h2
    have h1 : ∀ w, (s1.obj w).lm = (s.obj w).lm ∧ St.sameKind (s.obj w).val (s1.obj w).val := by
      intro w
      rw [e]; simp only
      split_ifs with hw
      · subst hw; exact ⟨rfl, St.sameKind_update _ _⟩
      · exact ⟨rfl, St.sameKind_refl _⟩
    have hcl : s1.clones = s.clones ∧ s1.slam = s.slam ∧ s1.opts = s.opts ∧ s1.ts = s.ts ∧ s1.next = s.next ∧ s1.vars = s.vars ++ [u] := by
      rw [e]; exact ⟨rfl, rfl, rfl, rfl, rfl, rfl⟩
    rcases h3 with ⟨_, rfl⟩ | ⟨_, h3⟩
    · exact ⟨hcl.1, hcl.2.1, hcl.2.2.1, hcl.2.2.2.1, hcl.2.2.2.2.1, h1, fun _ => hcl.2.2.2.2.2⟩
    · obtain ⟨k1, k2, k3, k4, k5, k6⟩ := St.update_lm hI1.nodup h3
      have hts : s'.ts = s1.ts := by
        obtain ⟨L, Ma, _, _, _, _, _, _, rfl⟩ := St.update_some h3; rfl
      refine ⟨by rw [k5, hcl.1], by rw [k6, hcl.2.1], by rw [k2, hcl.2.2.1], by rw [hts, hcl.2.2.2.1], by rw [k3, hcl.2.2.2.2.1], fun w => ⟨?_, ?_⟩, fun _ => by rw [k4, hcl.2.2.2.2.2]⟩
      · rw [(k1 w).1, (h1 w).1]
      · exact St.sameKind_trans (h1 w).2 (k1 w).2

/-- what one step keeps. -/
structure Kept (s s' : St.State) (k : ℕ) : Prop where
  clones : s'.clones = s.clones
  opts : s'.opts = s.opts
  ts : s'.ts = s.ts
  old : ∀ w, w < s.next → (s'.obj w).val.size = (s.obj w).val.size
  new : (s'.obj s.next).val.size = k
  kind : ∀ w, w < s.next → St.sameKind (s.obj w).val (s'.obj w).val
  vec : ∃ v, (s'.obj s.next).val = .vec k v

set_option maxHeartbeats 800000 in
theorem delayStep_spec (hlib : St.Spec.LibOK lib) {A A' : DAcc} (hs : St.Spec.ProgOK lib o A.s) {C : SCfg} (hS : 0 < C.sigS) (hA : 0 < C.sigA) {g : Track × Fix}
    (hcams : (g.1.obs.map Prod.fst).Nodup) (h : delayStep lib C g A = some A') :
    ∃ ok, Spec.Tried lib C g A.s A.M A'.s A'.M ok ∧ A'.added = A.added ++ (if ok then [g.1.id] else []) ∧ St.Spec.ProgOK lib o A'.s ∧
      Kept A.s A'.s (if C.rep A.s g.1.id = .anchoredSingle then 1 else 3) := by
  obtain ⟨s, M, added⟩ := A
  simp only at hs ⊢
  have hW := St.prog_W hs.prog
  have hI := St.reach_inv hs.prog.reach
  unfold delayStep at h
  simp only [Option.bind_eq_bind, Option.bind_eq_some_iff] at h
  obtain ⟨y, hy, l, hl, s1, hs1, ⟨s2, ok⟩, hR, h⟩ := h
  obtain ⟨i, Hx, Hf, r, hg, hi, rfl, eHx, eHf, er⟩ := delaySys_spec hW hI hcams hy
  simp only at hR h
  obtain ⟨l1, l2, l3, l4, l5⟩ := newLm_spec hl
  have hrep : i.rep s C = C.rep s g.1.id := by unfold Spec.DItem.rep SCfg.rep; rw [hg]
  have hpt : i.pt s C = if isRelative (msckfRep (C.rep s g.1.id)) = true then g.2.pA else g.2.pG := by
    unfold Spec.DItem.pt; rw [hrep, hg, isRelative_msckf]
  have hsig : i.sig s C = C.sig s g.1.id := by unfold Spec.DItem.sig SCfg.sig; rw [hg]
  have hpos : 0 < C.sig s g.1.id := by unfold SCfg.sig; split_ifs <;> assumption
  have hk : l.dim = i.k := by rw [l2, hi.k, hrep]
  rw [hk] at hR hs1
  -- the new object
  have hp1 : St.Spec.ProgOK lib o s1 := Prop_.progOK_step hs (op := .alloc _ _) trivial trivial hs1
  have e1 : s1 = Spec.fresh s (lmVal i.k l.val) (lmVal i.k l.fej) := by
    simp only [St.step] at hs1
    split_ifs at hs1
    exact (Option.some.inj hs1).symm
  have hI1 := St.reach_inv hp1.prog.reach
  have hR1 := progOK_reach hp1
  have hnx : s1.next = s.next + 1 := by rw [e1]; rfl
  have hobj : (s1.obj s.next).val = lmVal i.k l.val := by rw [e1]; simp [Spec.fresh]
  have hp2 : St.Spec.ProgOK lib o s2 := Prop_.progOK_step hp1 (op := .initDelayed s.next i.refs ⟨i.out.rows - i.b, St.tot i.L, Hx⟩ ⟨i.out.rows - i.b, i.k, Hf⟩
    ⟨i.out.rows - i.b, i.out.rows - i.b, fun a b => C.sig s g.1.id * Mat.one a b⟩ ⟨i.out.rows - i.b, r⟩ (C.mult s g.1.id)) trivial
    (by simpa [St.Spec.ArgsOK, Mat.one] using hpos) (by simp [St.step, hR])
  obtain ⟨f1, f2, f3, f4, f5, f6, f7⟩ := initDelayed_frame hI1 hR
  have hwh : ∀ v ∈ i.refs, Whole s v := by
    intro v hv
    obtain ⟨ho, hr⟩ := toFeat_obs (msckfRep (i.rep s C)) i.g.1 i.g.2
    exact (refs_plain hW hi.out (by rw [ho, hg]; exact hcams) hi.refs v hv).whole
  have hL1 : St.resolveAll s1 i.refs = some i.L := by rw [e1]; exact fresh_resolve hI hwh hi.L
  have h00 : (0 : ℝ) < (fun a b => C.sig s g.1.id * Mat.one a b) 0 0 := by simpa [Mat.one] using hpos
  -- the test
  obtain ⟨L', HL', HR', r', hL', hsplit, hdim, hle, hgate, hrej, -⟩ := St.C10_initialize hlib hR1 s.next i.refs _ _
    ⟨i.out.rows - i.b, i.out.rows - i.b, fun a b => C.sig s g.1.id * Mat.one a b⟩ _ _ ok h00 hR
  rw [hL1] at hL'
  obtain rfl := Option.some.inj hL'
  simp only at hsplit hle hgate
  obtain ⟨N2, n1, n2, n3, n4, n5⟩ := split_null (n := s1.n) hsplit hle
  have en : s1.n = s.n := by rw [e1]; rfl
  have hfresh : ∀ k, k < s.next → (s1.obj k) = s.obj k := by
    intro k hk; rw [e1]; simp only [Spec.fresh]; rw [if_neg (by omega)]
  have hT : i.Test lib s C ok := by
    refine ⟨N2, n1, by rw [← eHf]; exact n2, fun hd => ?_, ?_⟩
    · unfold Spec.DItem.Determined at hd
      rw [← eHf] at hd ⊢
      exact n3 hd
    · subst e1
      have hg2 : (ok = true) ↔ ¬ (ok = false) := by cases ok <;> simp
      rw [hg2, hgate, not_lt]
      unfold St.Spec.gateStat
      simp only
      rw [n4]
      have n5' : St.Spec.vec (i.out.rows - i.b - i.k) (fun a => r' (i.k + a)) = N2.mulVec (Spec.vec (i.out.rows - i.b) r) := n5
      rw [n5', er]
      have e2 : St.Spec.full i.L (i.out.rows - i.b) (Spec.fresh s (lmVal i.k l.val) (lmVal i.k l.fej)).n Hx = i.Hx s := eHx
      have e3 : St.Spec.mat (i.out.rows - i.b - i.k) (i.out.rows - i.b - i.k) (fun a b => C.sig s g.1.id * Mat.one (i.k + a) (i.k + b)) =
          i.sig s C • (1 : Matrix (Fin (i.out.rows - i.b - i.k)) (Fin (i.out.rows - i.b - i.k)) ℝ) := by
        ext a b; simp [St.Spec.mat, Mat.one, Matrix.one_apply, Fin.ext_iff, hsig]
      rw [e2, e3]
      have e4 : St.Spec.cov (Spec.fresh s (lmVal i.k l.val) (lmVal i.k l.fej)) = St.Spec.cov s := rfl
      unfold SCfg.mult
      rw [hg]
      exact Iff.rfl
  have hD : Land.Spec.Dom (i.rep s C) (i.pt s C) → (⟨i.rep s C, i.k, l.val, l.fej, l.uv0, l.uv0f⟩ : Lm).getXyz false = some (i.pt s C) := by
    intro hd
    rw [hrep, hpt] at hd ⊢
    have e : (⟨C.rep s g.1.id, i.k, l.val, l.fej, l.uv0, l.uv0f⟩ : Lm) = l := by rw [← hk]; conv_lhs => rw [← l1]
    rw [e]
    exact l3 hd
  have hsz : ∀ w, (s2.obj w).val.size = (s1.obj w).val.size := fun w => (St.sameKind_size (f6 w).2).symm
  have hnew : (s2.obj s.next).val.size = if C.rep s g.1.id = .anchoredSingle then 1 else 3 := by
    rw [hsz, hobj, ← hrep, ← hi.k]; rfl
  have hold : ∀ w, w < s.next → (s2.obj w).val.size = (s.obj w).val.size := fun w hw => by rw [hsz, hfresh w hw]
  have hkind : ∀ w, w < s.next → St.sameKind (s.obj w).val (s2.obj w).val := fun w hw => by
    have := (f6 w).2
    rwa [hfresh w hw] at this
  have hvec : ∃ v, (s2.obj s.next).val = .vec (if C.rep s g.1.id = .anchoredSingle then 1 else 3) v := by
    have := (f6 s.next).2
    rw [hobj] at this
    cases hv : (s2.obj s.next).val with
    | vec n v => exact ⟨v, by rw [hv] at hnew; simp only [Val.size] at hnew; rw [hnew]⟩
    | _ => rw [hv] at this; simp [lmVal, St.sameKind] at this
  cases ok with
  | false =>
    simp only [Bool.false_eq_true, if_false, Option.some.injEq] at h
    subst h
    refine ⟨false, ⟨i, l.val, l.fej, l.uv0, l.uv0f, hg, hi, hT, l4, l5, hD, fun _ => ⟨?_, rfl⟩, fun h => by cases h⟩, by simp, hp2, ?_⟩
    · simp only; rw [hrej rfl, e1]
    · exact ⟨by simp only; rw [f1, e1]; rfl, by simp only; rw [f3, e1]; rfl, by simp only; rw [f4, e1]; rfl, hold, hnew, hkind, hvec⟩
  | true =>
    simp only [if_true, Option.bind_eq_some_iff] at h
    obtain ⟨s3, hs3, h⟩ := h
    obtain rfl := (Option.some.inj h).symm
    have hp3 : St.Spec.ProgOK lib o s3 := Prop_.progOK_step hp2 (op := .addSlam _ _) trivial trivial hs3
    have hsl : s2.slam = s.slam := by rw [f2, e1]; rfl
    have hv2 : s2.vars = s.vars ++ [s.next] := by rw [f7 rfl, e1]; rfl
    obtain ⟨t1, t2, t3⟩ : (∃ sl, s3 = { s2 with slam := sl }) ∧ ((∀ e ∈ s.slam, e.1 ≠ g.1.id) → s3.slam = s.slam ++ [(g.1.id, s.next)]) ∧
        ((∃ e ∈ s.slam, e.1 = g.1.id) → s3.slam = s.slam) := by
      simp only [St.step] at hs3
      rw [hsl] at hs3
      split_ifs at hs3 with c1 c2
      · obtain rfl := (Option.some.inj hs3).symm
        refine ⟨⟨s3.slam, rfl⟩, fun hno => ?_, fun _ => hsl⟩
        rw [List.find?_isSome] at c1
        obtain ⟨e, he, h⟩ := c1
        exact absurd (by simpa using h) (hno e he)
      · obtain rfl := (Option.some.inj hs3).symm
        refine ⟨⟨_, rfl⟩, fun _ => rfl, fun ⟨e, he, h⟩ => ?_⟩
        exact absurd (List.find?_isSome.2 ⟨e, he, by simpa using h⟩) c1
    obtain ⟨sl, rfl⟩ := t1
    refine ⟨true, ⟨i, l.val, l.fej, l.uv0, l.uv0f, hg, hi, hT, l4, l5, hD, fun h => (by cases h), fun _ => ⟨fun hd => ?_, hv2, t2, t3, ?_⟩⟩, by simp, hp3, ?_⟩
    · obtain ⟨L', hL', hpn⟩ := St.C97_flat_prior hlib hR1 s.next i.refs _ _
        ⟨i.out.rows - i.b, i.out.rows - i.b, fun a b => C.sig s g.1.id * Mat.one a b⟩ _ _ h00 (k := i.k) hobj (by
          intro x hx
          unfold Spec.DItem.Determined at hd
          rw [← eHf] at hd
          exact hd x hx) hR
      rw [hL1] at hL'
      obtain rfl := Option.some.inj hL'
      have e00 : C.sig s g.1.id * Mat.one 0 0 = i.sig s C := by rw [hsig]; simp [Mat.one]
      simp only [e00] at hpn
      subst e1
      have e2 : St.Spec.full i.L (i.out.rows - i.b) (Spec.fresh s (lmVal i.k l.val) (lmVal i.k l.fej)).n Hx = i.Hx s := eHx
      have e3 : St.Spec.mat (i.out.rows - i.b) i.k Hf = i.Hf := eHf
      have e4 : St.Spec.vec (i.out.rows - i.b) r = i.r := er
      rw [e2, e3, e4] at hpn
      exact ⟨hpn.n, hpn.unit, hpn.cov, hpn.vars, hpn.id, hpn.val, hpn.new, hpn.other, hpn.same⟩
    · funext w
      simp only [hrep, isRelative_msckf]
    · exact ⟨by simp only; rw [f1, e1]; rfl, by simp only; rw [f3, e1]; rfl, by simp only; rw [f4, e1]; rfl, hold, hnew, hkind, hvec⟩

/-! ## all features -/

theorem delayLoop_spec (hlib : St.Spec.LibOK lib) {C : SCfg} (hS : 0 < C.sigS) (hA : 0 < C.sigA) : ∀ (gs : List (Track × Fix)) (A R : DAcc),
    St.Spec.ProgOK lib o A.s → (∀ g ∈ gs, (g.1.obs.map Prod.fst).Nodup) → delayLoop lib C gs A = some R →
    ∃ ids, Spec.Chain lib C gs A.s A.M R.s R.M ids ∧ R.added = A.added ++ ids ∧ St.Spec.ProgOK lib o R.s ∧ R.s.clones = A.s.clones ∧ R.s.opts = A.s.opts ∧ R.s.ts = A.s.ts
  | [], A, R, hs, _, h => by
    simp only [delayLoop, Option.some.injEq] at h
    subst h
    exact ⟨[], .nil _ _, by simp, hs, rfl, rfl, rfl⟩
  | g :: t, A, R, hs, hc, h => by
    simp only [delayLoop, Option.bind_eq_bind, Option.bind_eq_some_iff] at h
    obtain ⟨A', hA', h⟩ := h
    obtain ⟨ok, h1, h2, h3, h4⟩ := delayStep_spec hlib hs hS hA (hc g (by simp)) hA'
    obtain ⟨ids, i1, i2, i3, i4, i5, i6⟩ := delayLoop_spec hlib hS hA t A' R h3 (fun g' hg' => hc g' (by simp [hg'])) h
    exact ⟨_, .cons h1 i1, by rw [i2, h2, List.append_assoc], i3, by rw [i4, h4.clones], by rw [i5, h4.opts], by rw [i6, h4.ts]⟩

/-- **C98** (`UpdaterSLAM::delayed_init`) For every state of the program, every set of tracks and whatever the triangulation returns: if the call completes, then the
tracks with at least two measurements in the window that could be triangulated were tried one after the other, each linearised (C79) at the state left by the
previous ones and at its triangulated position. A feature is accepted if and only if the part of its measurement that does not depend on its position passes the
chi-square test; a rejected one changes nothing. An accepted one whose measurement determines it becomes a landmark, and the state becomes exactly the Bayesian
posterior of old state and landmark given all its measurements, each used once, without prior knowledge of the landmark. Clones, options and time stay. -/
theorem C98_delayed_init (hlib : St.Spec.LibOK lib) (hs : St.Spec.ProgOK lib o s) {C : SCfg} (hS : 0 < C.sigS) (hA : 0 < C.sigA) (tri : Track → Option Fix)
    (fs : List Track) (hcams : ∀ f ∈ fs, (f.obs.map Prod.fst).Nodup) {R : DAcc} (h : delayedInit lib s M C tri fs = some R) :
    Spec.Chain lib C (Spec.candidates s tri fs) s M R.s R.M R.added ∧ St.Spec.ProgOK lib o R.s ∧ R.s.clones = s.clones ∧ R.s.opts = s.opts ∧ R.s.ts = s.ts := by
  unfold delayedInit at h
  rw [located_candidates] at h
  have hin : ∀ f : Track, (Spec.inWindow s f).obs.map Prod.fst = f.obs.map Prod.fst := fun f => by simp [Spec.inWindow, Function.comp_def]
  have hc : ∀ g ∈ Spec.candidates s tri fs, (g.1.obs.map Prod.fst).Nodup := by
    intro g hg
    simp only [Spec.candidates, List.mem_filterMap] at hg
    obtain ⟨f, hf, hg⟩ := hg
    split_ifs at hg
    rw [Option.map_eq_some_iff] at hg
    obtain ⟨x, -, rfl⟩ := hg
    simp only [hin]
    exact hcams f hf
  obtain ⟨ids, i1, i2, i3⟩ := delayLoop_spec hlib hS hA _ ⟨s, M, []⟩ R hs hc h
  rw [i2]
  exact ⟨i1, i3⟩

/-! ## completion -/

theorem isoN_iso (m : ℕ) (c : ℝ) : St.isoNoise m fun i j => c * Mat.one i j := by
  intro i j hi hj
  refine ⟨fun e => ?_, fun e => ?_⟩
  · subst e; simp [Mat.one]
  · simp [Mat.one, e]

theorem newLm_some {r : Rep} (hr : r ≠ .unknown) (p : V3) : ∃ l, newLm r p = some l := by
  unfold newLm
  cases r <;> simp [Lm.setFromXyz, Lm.set, jacobsize] at *

theorem delaySys_returns (hW : St.W o s) (hI : St.Inv s) {C : SCfg} {r : Rep} (hk : r ≠ .unknown) {g : Track × Fix} (hg : Spec.Usable o s g) :
    ∃ y, delaySys s C.fej C.kind r (toFeat (msckfRep r) g.1 g.2) = some y := by
  obtain ⟨ho, hr⟩ := toFeat_obs (msckfRep r) g.1 g.2
  have hanc : isRelative (toFeat (msckfRep r) g.1 g.2).rep = true → (∃ c, (toFeat (msckfRep r) g.1 g.2).ancCam = some c ∧ c < o.numCams) ∧
      ∃ u, ((toFeat (msckfRep r) g.1 g.2).ancT, u) ∈ s.clones := by
    intro h
    rw [hr] at h
    simp only [toFeat, h, if_true]
    exact ⟨⟨_, rfl, hg.cam⟩, hg.anc⟩
  obtain ⟨out, hout⟩ := full_returns hW hI C.fej C.kind (f := toFeat (msckfRep r) g.1 g.2) (by
    rw [hr]; revert hk; cases r <;> simp [msckfRep]) (by rw [ho]; exact hg.lt) (by rw [ho]; exact hg.win) hanc
  obtain ⟨refs, hrefs⟩ := refs_returns hout (by rw [ho]; exact hg.cams) (by rw [ho]; exact hg.win) fun h => (hanc h).2
  obtain ⟨-, erows, -, -⟩ := full_some hout
  rw [flat_length, ho] at erows
  have h2 := hg.two
  unfold delaySys
  rw [hout, Option.bind_eq_bind, Option.bind_some, hrefs, Option.bind_eq_bind, Option.bind_some]
  by_cases hs : r = .anchoredSingle
  · obtain ⟨P, hP⟩ : ∃ P, nullspaceProject out.rows 2 out.Hf (hstack out.rows (total out.order) 1 out.Hx (Mat.block 0 2 out.Hf)) out.res = some P :=
      ⟨_, if_neg (by omega)⟩
    simp only
    rw [if_pos hs, hP]
    exact ⟨_, rfl⟩
  · simp only
    rw [if_neg hs]
    exact ⟨_, rfl⟩

theorem delayStep_returns (hlib : St.Spec.LibOK lib) (A : DAcc) (hs : St.Spec.ProgOK lib o A.s) {C : SCfg} (hS : 0 < C.sigS) (hA : 0 < C.sigA)
    (hrS : C.repS ≠ .unknown) (hrA : C.repA ≠ .unknown) {g : Track × Fix} (hg : Spec.Usable o A.s g) : ∃ A', delayStep lib C g A = some A' := by
  obtain ⟨s, M, added⟩ := A
  simp only at hs hg
  have hW := St.prog_W hs.prog
  have hI := St.reach_inv hs.prog.reach
  have hrep : C.rep s g.1.id ≠ .unknown := by unfold SCfg.rep; split_ifs <;> assumption
  have hpos : 0 < C.sig s g.1.id := by unfold SCfg.sig; split_ifs <;> assumption
  obtain ⟨y, hy⟩ := delaySys_returns hW hI (C := C) hrep hg
  obtain ⟨l, hl⟩ := newLm_some hrep (if isRelative (msckfRep (C.rep s g.1.id)) = true then g.2.pA else g.2.pG)
  obtain ⟨i, Hx, Hf, r, hgi, hi, rfl, -⟩ := delaySys_spec hW hI hg.cams hy
  obtain ⟨l1, l2, l3, l4, l5⟩ := newLm_spec hl
  have hrep' : i.rep s C = C.rep s g.1.id := by unfold Spec.DItem.rep SCfg.rep; rw [hgi]
  have hk : l.dim = i.k := by rw [l2, hi.k, hrep']
  have hwh : ∀ v ∈ i.refs, Whole s v := by
    intro v hv
    obtain ⟨ho, hr⟩ := toFeat_obs (msckfRep (i.rep s C)) i.g.1 i.g.2
    exact (refs_plain hW hi.out (by rw [ho, hgi]; exact hg.cams) hi.refs v hv).whole
  have hs1 : St.step lib s (.alloc (lmVal l.dim l.val) (lmVal l.dim l.fej)) = some (Spec.fresh s (lmVal l.dim l.val) (lmVal l.dim l.fej)) := by
    simp [St.step, St.sameKind, lmVal, Spec.fresh]
  have hp1 : St.Spec.ProgOK lib o (Spec.fresh s (lmVal l.dim l.val) (lmVal l.dim l.fej)) := Prop_.progOK_step hs (op := .alloc _ _) trivial trivial hs1
  have hk0 : 0 < i.k ∧ i.k ≤ i.out.rows - i.b := by
    have h1 := hi.k; have h2 := hi.b; have h3 := hi.rows; have h4 := hg.two
    rw [hgi] at h3
    split_ifs at h1 h2 <;> omega
  have hret := St.C10_returns hlib (progOK_reach hp1) s.next i.refs ⟨i.out.rows - i.b, St.tot i.L, Hx⟩ ⟨i.out.rows - i.b, l.dim, Hf⟩
    ⟨i.out.rows - i.b, i.out.rows - i.b, fun a b => C.sig s g.1.id * Mat.one a b⟩ ⟨i.out.rows - i.b, r⟩ (C.mult s g.1.id) i.L
    (fun h => absurd (hI.alloc _ h) (lt_irrefl _)) (Nat.lt_succ_self _) (fresh_resolve hI hwh hi.L) (by simp [St.Spec.dim, Spec.fresh, lmVal, Val.size])
    (by simp only; omega) (by simp only; omega) rfl rfl rfl rfl rfl (isoN_iso _ _) (by simpa [Mat.one] using hpos)
  obtain ⟨⟨s2, ok⟩, hR⟩ := Option.isSome_iff_exists.1 hret
  obtain ⟨f1, f2, f3, f4, f5, f6, f7⟩ := initDelayed_frame (St.reach_inv hp1.prog.reach) hR
  unfold delayStep
  simp only [Option.bind_eq_bind]
  rw [hy, Option.bind_some, hl, Option.bind_some, hs1, Option.bind_some, hR, Option.bind_some]
  cases ok with
  | false => exact ⟨_, rfl⟩
  | true =>
    simp only [if_true]
    have hadd : ∃ s3, St.step lib s2 (.addSlam g.1.id s.next) = some s3 := by
      simp only [St.step]
      split_ifs with c1 c2
      · exact ⟨_, rfl⟩
      · exact ⟨_, rfl⟩
      · exfalso
        apply c2
        refine ⟨by rw [f7 rfl]; simp, by rw [(f6 _).1]; simp [Spec.fresh], fun e he => ?_⟩
        rw [f2] at he
        exact (hI.alloc _ (hW.sin e he).1).ne
    obtain ⟨s3, hs3⟩ := hadd
    rw [hs3]
    exact ⟨_, rfl⟩

theorem delayLoop_returns (hlib : St.Spec.LibOK lib) {C : SCfg} (hS : 0 < C.sigS) (hA : 0 < C.sigA) (hrS : C.repS ≠ .unknown) (hrA : C.repA ≠ .unknown) :
    ∀ (gs : List (Track × Fix)) (A : DAcc), St.Spec.ProgOK lib o A.s → (∀ g ∈ gs, Spec.Usable o A.s g) → ∃ R, delayLoop lib C gs A = some R
  | [], A, _, _ => ⟨A, rfl⟩
  | g :: t, A, hs, hg => by
    obtain ⟨A', hA'⟩ := delayStep_returns hlib A hs hS hA hrS hrA (hg g (by simp))
    obtain ⟨ok, h1, h2, h3, h4⟩ := delayStep_spec hlib hs hS hA (hg g (by simp)).cams hA'
    obtain ⟨R, hR⟩ := delayLoop_returns hlib hS hA hrS hrA t A' h3 fun g' hg' => by
      obtain ⟨a, b, c, d, e, f⟩ := hg g' (by simp [hg'])
      exact ⟨a, b, by rw [h4.clones]; exact c, d, e, by rw [h4.clones]; exact f⟩
    simp only [delayLoop, Option.bind_eq_bind]
    rw [hA', Option.bind_some]
    exact ⟨R, hR⟩

theorem candidates_usable {tri : Track → Option Fix} {fs : List Track} (hcams : ∀ f ∈ fs, (f.obs.map Prod.fst).Nodup ∧ ∀ c ∈ f.obs, c.1 < o.numCams)
    (htri : ∀ f x, tri f = some x → x.cam < o.numCams ∧ ∃ u, (x.t, u) ∈ s.clones) : ∀ g ∈ Spec.candidates s tri fs, Spec.Usable o s g := by
  intro g hg
  simp only [Spec.candidates, List.mem_filterMap] at hg
  obtain ⟨f, hf, hg⟩ := hg
  split_ifs at hg with h2
  rw [Option.map_eq_some_iff] at hg
  obtain ⟨x, hx, rfl⟩ := hg
  have hin : (Spec.inWindow s f).obs.map Prod.fst = f.obs.map Prod.fst := by simp [Spec.inWindow, Function.comp_def]
  obtain ⟨t1, t2⟩ := htri _ _ hx
  refine ⟨by simp only [hin]; exact (hcams f hf).1, fun c hc => ?_, fun c hc m hm => ?_, h2, t1, t2⟩
  · have : c.1 ∈ (Spec.inWindow s f).obs.map Prod.fst := List.mem_map.2 ⟨c, hc, rfl⟩
    rw [hin] at this
    obtain ⟨d, hd, e⟩ := List.mem_map.1 this
    rw [← e]; exact (hcams f hf).2 d hd
  · simp only [Spec.inWindow, List.mem_map] at hc
    obtain ⟨d, hd, rfl⟩ := hc
    simpa using (List.mem_filter.1 hm).2

/-- **C98** (completes) Delayed initialisation completes in every state of the program, for every known representation and every set of tracks of existing cameras,
provided the triangulation anchors at an existing camera and clone. -/
theorem C98_returns (hlib : St.Spec.LibOK lib) (hs : St.Spec.ProgOK lib o s) {C : SCfg} (hS : 0 < C.sigS) (hA : 0 < C.sigA) (hrS : C.repS ≠ .unknown)
    (hrA : C.repA ≠ .unknown) (tri : Track → Option Fix) (fs : List Track) (hcams : ∀ f ∈ fs, (f.obs.map Prod.fst).Nodup ∧ ∀ c ∈ f.obs, c.1 < o.numCams)
    (htri : ∀ f x, tri f = some x → x.cam < o.numCams ∧ ∃ u, (x.t, u) ∈ s.clones) : ∃ R, delayedInit lib s M C tri fs = some R := by
  unfold delayedInit
  rw [located_candidates]
  exact delayLoop_returns hlib hS hA hrS hrA _ ⟨s, M, []⟩ hs (candidates_usable hcams htri)

theorem delayLoop_ready (hlib : St.Spec.LibOK lib) {C : SCfg} (hS : 0 < C.sigS) (hA : 0 < C.sigA) (hrS : C.repS ≠ .unknown) (hrA : C.repA ≠ .unknown) :
    ∀ (gs : List (Track × Fix)) (A R : DAcc), St.Spec.ProgOK lib o A.s → (∀ g ∈ gs, Spec.Usable o A.s g) → Spec.Sizes A.s A.M → Spec.Anchored o A.s A.M →
      delayLoop lib C gs A = some R → Spec.Sizes R.s R.M ∧ Spec.Anchored o R.s R.M
  | [], A, R, _, _, h1, h2, h => by
    simp only [delayLoop, Option.some.injEq] at h
    subst h; exact ⟨h1, h2⟩
  | g :: t, A, R, hs, hg, h1, h2, h => by
    simp only [delayLoop, Option.bind_eq_bind, Option.bind_eq_some_iff] at h
    obtain ⟨A', hA', h⟩ := h
    have hu := hg g (by simp)
    obtain ⟨ok, k1, -, k3, k4⟩ := delayStep_spec hlib hs hS hA hu.cams hA'
    have hW := St.prog_W hs.prog
    have hI := St.reach_inv hs.prog.reach
    have hlt : ∀ e ∈ A.s.slam, e.2 < A.s.next := fun e he => hI.alloc _ (hW.sin e he).1
    have hrep : C.rep A.s g.1.id ≠ .unknown := by unfold SCfg.rep; split_ifs <;> assumption
    obtain ⟨i, v, f, uv, uvf, hgi, hi, -, -, -, -, hno, hyes⟩ := k1
    have hrep' : i.rep A.s C = C.rep A.s g.1.id := by unfold Spec.DItem.rep SCfg.rep; rw [hgi]
    refine delayLoop_ready hlib hS hA hrS hrA t A' R k3 (fun g' hg' => ?_) ?_ ?_ h
    · obtain ⟨a, b, c, d, e, f⟩ := hg g' (by simp [hg'])
      exact ⟨a, b, by rw [k4.clones]; exact c, d, e, by rw [k4.clones]; exact f⟩
    all_goals
      cases ok with
      | false =>
        obtain ⟨e1, e2⟩ := hno rfl
        have hsl : A'.s.slam = A.s.slam := by rw [e1]; rfl
        intro e he
        rw [hsl] at he
        have := hlt e he
        first
        | (rw [k4.old _ this, e2]; exact h1 e he)
        | (rw [e2, k4.clones]; exact h2 e he)
      | true =>
        obtain ⟨-, -, s1, s2, m⟩ := hyes rfl
        have hmem : ∀ e ∈ A'.s.slam, e ∈ A.s.slam ∨ e = (g.1.id, A.s.next) := by
          intro e he
          by_cases hex : ∃ e ∈ A.s.slam, e.1 = g.1.id
          · rw [s2 hex] at he; exact .inl he
          · push Not at hex
            rw [s1 hex] at he
            rcases List.mem_append.1 he with h | h
            · exact .inl h
            · exact .inr (List.mem_singleton.1 h)
        intro e he
        rcases hmem e he with h | rfl
        · have := hlt e h
          have hm : A'.M e.2 = A.M e.2 := by rw [m]; simp only; rw [if_neg (by omega)]
          first
          | (rw [k4.old _ this, hm]; exact h1 e h)
          | (rw [hm, k4.clones]; exact h2 e h)
        · have hm : A'.M A.s.next = ⟨C.rep A.s g.1.id, if isRelative (C.rep A.s g.1.id) then some g.2.cam else none, if isRelative (C.rep A.s g.1.id) then g.2.t else -1, uv, uvf, 0, some g.2.cam⟩ := by
            rw [m]; simp only [if_true, hrep']
          simp only
          first
          | (rw [k4.new, hm])
          | (rw [hm]; exact ⟨hrep, fun hr => by simp only at hr; simp only [hr, if_true]; exact ⟨⟨_, rfl, hu.cam⟩, by rw [k4.clones]; exact hu.anc⟩⟩)

/-- **C98** (what the landmark update needs) Delayed initialisation keeps landmark sizes fitting their representations and landmarks anchored at existing cameras and
clones, so that a landmark update (C96) can follow. -/
theorem C98_ready (hlib : St.Spec.LibOK lib) (hs : St.Spec.ProgOK lib o s) {C : SCfg} (hS : 0 < C.sigS) (hA : 0 < C.sigA) (hrS : C.repS ≠ .unknown)
    (hrA : C.repA ≠ .unknown) (tri : Track → Option Fix) (fs : List Track) (hcams : ∀ f ∈ fs, (f.obs.map Prod.fst).Nodup ∧ ∀ c ∈ f.obs, c.1 < o.numCams)
    (htri : ∀ f x, tri f = some x → x.cam < o.numCams ∧ ∃ u, (x.t, u) ∈ s.clones) (hsz : Spec.Sizes s M) (hanc : Spec.Anchored o s M) {R : DAcc}
    (h : delayedInit lib s M C tri fs = some R) : Spec.Sizes R.s R.M ∧ Spec.Anchored o R.s R.M := by
  unfold delayedInit at h
  rw [located_candidates] at h
  exact delayLoop_ready hlib hS hA hrS hrA _ ⟨s, M, []⟩ R hs (candidates_usable hcams htri) hsz hanc h

/-- **C98** (finding) If the id of an accepted feature is already that of a landmark, the map keeps the old landmark: the new variable is estimated but can never
be found again. (The manager only passes ids that are not in the map.) -/
theorem C98_duplicate_orphan {C : SCfg} {g : Track × Fix} {M' : ℕ → LMeta} (hI : St.Inv s) (hW : St.W o s) (h : Spec.Tried lib C g s M s' M' true)
    (he : ∃ e ∈ s.slam, e.1 = g.1.id) : s.next ∈ s'.vars ∧ ∀ e ∈ s'.slam, e.2 ≠ s.next := by
  obtain ⟨i, v, f, uv, uvf, -, -, -, -, -, -, -, hy⟩ := h
  obtain ⟨-, h1, -, h2, -⟩ := hy rfl
  refine ⟨by rw [h1]; simp, fun e h' => ?_⟩
  rw [h2 he] at h'
  exact (hI.alloc _ (hW.sin e h').1).ne

/-! ## a concrete case -/

/-- the hypotheses of C98 and then those of C96 are met: a point seen straight ahead from two clones becomes a landmark, whose next observation is used by a landmark
update that completes. -/
example (hlib : St.Spec.LibOK lib) (hq : 0 ≤ lib.chi2 4) (M : ℕ → LMeta) : ∃ s C tri fs R S, St.Spec.ProgOK lib exO s ∧ (∀ f ∈ fs, (f.obs.map Prod.fst).Nodup) ∧
    delayedInit lib s M C tri fs = some R ∧ R.added = [7] ∧ R.s.slam = [(7, s.next)] ∧ St.Spec.ProgOK lib exO R.s ∧ Spec.Sizes R.s R.M ∧ Spec.Anchored exO R.s R.M ∧
    slamUpdate lib R.s R.M C fs = some S := by
  obtain ⟨s, hs, hc, hv1, hv2, hv3, hv4, hsl, -⟩ := exState lib
  let C : SCfg := ⟨true, fun _ => .radtan, .global3d, .global3d, 1, 1, 1, 1⟩
  let f : Track := ⟨7, [(0, [(1, 0), (2, 0)])]⟩
  let x : Fix := ⟨0, 1, ![0, 0, 1], ![0, 0, 1]⟩
  have hmem : ∀ t : ℝ, t = 1 ∨ t = 2 → ∃ u, (t, u) ∈ s.clones := by
    intro t ht
    have : t ∈ s.clones.map Prod.fst := by rw [hc]; simpa using ht
    obtain ⟨c, h, e⟩ := List.mem_map.1 this
    exact ⟨c.2, by rw [← e]; exact h⟩
  have hin : Spec.inWindow s f = f := by
    simp [Spec.inWindow, f, hmem 1 (.inl rfl), hmem 2 (.inr rfl)]
  have hcams : ∀ g ∈ [f], (g.obs.map Prod.fst).Nodup ∧ ∀ c ∈ g.obs, c.1 < exO.numCams := by simp [f, exO]
  have htri : ∀ (g : Track) (y : Fix), some x = some y → y.cam < exO.numCams ∧ ∃ u, (y.t, u) ∈ s.clones := by
    rintro g y e; obtain rfl := Option.some.inj e; exact ⟨by simp [x, exO], hmem 1 (.inl rfl)⟩
  obtain ⟨R, hR⟩ := C98_returns (M := M) hlib hs (C := C) one_pos one_pos (by simp [C]) (by simp [C]) (fun _ => some x) [f] hcams htri
  obtain ⟨hch, hp, hcl, -⟩ := C98_delayed_init hlib hs (C := C) one_pos one_pos (fun _ => some x) [f] (by simp [f]) hR
  obtain ⟨hsz, hanc⟩ := C98_ready hlib hs (C := C) one_pos one_pos (by simp [C]) (by simp [C]) (fun _ => some x) [f] hcams htri
    (by intro e he; rw [hsl] at he; cases he) (by intro e he; rw [hsl] at he; cases he) hR
  have hcand : Spec.candidates s (fun _ => some x) [f] = [(f, x)] := by
    simp only [Spec.candidates, List.filterMap_cons, hin, List.filterMap_nil]; simp [f]
  rw [hcand] at hch
  have key : R.added = [7] ∧ R.s.slam = [(7, s.next)] := by
    generalize hids : R.added = ids at hch
    generalize R.s = s2 at hch
    generalize R.M = M2 at hch
    cases hch with
    | @cons _ _ _ s1 _ _ M1 _ ids' ok ht hrest =>
    cases hrest
    obtain ⟨i, v, f', uv, uvf, hg, hi, hT, -, -, -, -, hyes⟩ := ht
    have hrep : i.rep s C = .global3d := by unfold Spec.DItem.rep; simp [C]
    have hb : i.b = 0 := by have := hi.b; rwa [hrep, if_neg (by simp)] at this
    have hrow : i.out.rows - i.b = 4 := by
      have := hi.rows; rw [hg] at this; simp [f] at this; omega
    have hpose : pose1.R = 1 := by
      unfold Pose.R pose1
      funext i j; fin_cases i <;> fin_cases j <;> simp [quat2Rot, skew, outer, Quat.vec] <;> norm_num
    have hres : ∀ k, i.out.res k = 0 := by
      have ho := hi.out
      rw [hg, hrep] at ho
      unfold full at ho
      simp only [Option.bind_eq_bind, Option.bind_eq_some_iff] at ho
      obtain ⟨_, _, ms, hms, g, hg, j, _, ho⟩ := ho
      rw [← Option.some.inj ho]
      have hgx : g = ![0, 0, 1] := by
        simp only [toFeat, msckfRep, globalPos, isRelative] at hg
        simpa [x] using hg.symm
      refine fold_res_zero _ _ _ _ _ _ _ _ _ (fun _ => rfl) fun m hm => ?_
      have hms' : ms = [⟨0, 1, 0, ⟨pose1, pose1⟩, pose1, .radtan, fun i => if i.val < 2 then 1 else 0⟩,
          ⟨0, 2, 0, ⟨pose1, pose1⟩, pose1, .radtan, fun i => if i.val < 2 then 1 else 0⟩] := by
        have e : flat (toFeat (msckfRep .global3d) f x) = [(0, 1, 0), (0, 2, 0)] := by simp [flat, toFeat, msckfRep, isRelative, f]
        rw [e] at hms
        simp only [List.mapM_cons, List.mapM_nil, look, C, hv1, hv2, hv3, hv4] at hms
        exact (Option.some.inj hms).symm
      have hpix : (0 : Cam.V2) = Spec.pixel .radtan (fun i => if i.val < 2 then 1 else 0) pose1 pose1 g := by
        rw [hgx]
        simp only [Spec.pixel, Spec.inCam, hpose, Cam.distort, Cam.radtan]
        funext i; fin_cases i <;> simp [pose1]
      rw [hms'] at hm
      simp only [List.mem_cons, List.not_mem_nil, or_false] at hm
      rcases hm with rfl | rfl <;> exact hpix
    have hr0 : i.r = 0 := by
      have : Spec.vec i.out.rows i.out.res = 0 := by funext k; exact hres k
      unfold Spec.DItem.r
      rw [this, Matrix.mulVec_zero]
    obtain ⟨N2, -, -, -, htest⟩ := hT
    have hok : ok = true := by
      rw [htest, hr0, Matrix.mulVec_zero, Matrix.mulVec_zero, dotProduct_zero, hrow]
      simpa [C] using hq
    subst hok
    obtain ⟨-, -, h1, -, -⟩ := hyes rfl
    refine ⟨rfl, ?_⟩
    rw [h1 (by rw [hsl]; simp), hsl]; rfl
  obtain ⟨S, hS⟩ := C96_returns hlib hp hsz hanc (C := C) one_pos one_pos [f] (by simp [key.2, f]) hcams
  exact ⟨s, C, fun _ => some x, [f], R, S, hs, by simp [f], hR, key.1, key.2, hp, hsz, hanc, hS⟩

end Verif.Upd
