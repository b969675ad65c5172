import Verif.Upd.Stack
import Verif.Upd.Props
import Verif.Upd.PropsB
import Verif.State.PropsC
import Verif.Prop.PropsC

/-!
# The MSCKF update as a whole (C95)
-/

set_option linter.unusedVariables false
set_option linter.unusedSectionVars false
open Classical

namespace Verif.Upd

open Verif Mat Verif.Land Verif.Types Finset

variable {lib : St.Lib} {o : St.Opts} {s s' : St.State}

/-! ## specification -/

namespace Spec

/-- the measurements of a track that were taken at the time of a clone in the window. -/
noncomputable def inWindow (s : St.State) (f : Track) : Track :=
  ⟨f.id, f.obs.map fun c => (c.1, c.2.filter fun m => decide (∃ u, (m.1, u) ∈ s.clones))⟩

/-- the tracks an update can use: at least two measurements in the window, and triangulated. -/
noncomputable def candidates (s : St.State) (tri : Track → Option Fix) (fs : List Track) : List (Track × Fix) :=
  fs.filterMap fun f => if 2 ≤ ((inWindow s f).obs.map fun c => c.2.length).sum then (tri (inWindow s f)).map fun x => (inWindow s f, x) else none

/-- a linearised feature: its track and position, the stacked Jacobians and residual of C79, where its variables are in the state, and a matrix `N`. -/
structure Item where
  f : Track
  x : Fix
  out : Out
  refs : List St.Ref
  L : List (ℕ × ℕ)
  N : Matrix (Fin (out.rows - 3)) (Fin out.rows) ℝ

/-- the data belong to the track, and the rows of `N` are orthonormal, annihilate the landmark's Jacobian, and span its left null space if that Jacobian
has full rank. -/
structure Item.OK (s : St.State) (C : MCfg) (i : Item) : Prop where
  out : full (view s C.fej C.kind) (toFeat (msckfRep C.rep) i.f i.x) = some i.out
  rows : i.out.rows = 2 * (i.f.obs.map fun c => c.2.length).sum
  refs : i.out.order.mapM (refOf s) = some i.refs
  L : St.resolveAll s i.refs = some i.L
  nodup : i.refs.Nodup
  orth : i.N * i.N.transpose = 1
  null : i.N * mat i.out.rows 3 i.out.Hf = 0
  span : (∀ x, (mat i.out.rows 3 i.out.Hf).mulVec x = 0 → x = 0) → ∀ y, Matrix.vecMul y (mat i.out.rows 3 i.out.Hf) = 0 → ∃ z, y = Matrix.vecMul z i.N

/-- the feature's measurement of the error state once the landmark is eliminated. -/
noncomputable def Item.F (s : St.State) (i : Item) : Matrix (Fin (i.out.rows - 3)) (Fin s.n) ℝ := i.N * St.Spec.full i.L i.out.rows s.n i.out.Hx

/-- its residual. -/
noncomputable def Item.r (i : Item) : Fin (i.out.rows - 3) → ℝ := i.N.mulVec (vec i.out.rows i.out.res)

/-- its squared Mahalanobis distance from the prior. -/
noncomputable def Item.stat (s : St.State) (sig2 : ℝ) (i : Item) : ℝ :=
  dotProduct i.r ((i.F s * St.Spec.cov s * (i.F s).transpose + sig2 • (1 : Matrix _ _ ℝ))⁻¹.mulVec i.r)

/-- the chi-square test. -/
def Item.Pass (lib : St.Lib) (s : St.State) (C : MCfg) (i : Item) : Prop := i.stat s C.sig2 ≤ C.mult * lib.chi2 (i.out.rows - 3)

end Spec

/-! ## variables behind the columns -/

theorem cloneUid_mem {t : ℝ} {u : ℕ} (h : cloneUid s t = some u) : (t, u) ∈ s.clones := by
  unfold cloneUid at h
  rw [Option.map_eq_some_iff] at h
  obtain ⟨c, hc, rfl⟩ := h
  have h1 := List.mem_of_find?_eq_some hc
  have h2 : c.1 = t := by simpa using List.find?_some hc
  rw [← h2]; exact h1

theorem cloneUid_some {t : ℝ} (h : ∃ u, (t, u) ∈ s.clones) : ∃ u, cloneUid s t = some u := by
  obtain ⟨u, hu⟩ := h
  unfold cloneUid
  have : (s.clones.find? fun c => decide (c.1 = t)).isSome := by
    rw [List.find?_isSome]; exact ⟨(t, u), hu, by simp⟩
  obtain ⟨c, hc⟩ := Option.isSome_iff_exists.1 this
  exact ⟨c.2, by rw [hc]; rfl⟩

/-- the camera exists. -/
def camOf (o : St.Opts) : Var → Prop
  | .clone _ => True
  | .calib c => c < o.numCams
  | .intr c => c < o.numCams

theorem refOf_inj (hW : St.W o s) {v w : Var} (hv : camOf o v) (hw : camOf o w) {r : St.Ref} (h1 : refOf s v = some r) (h2 : refOf s w = some r) : v = w := by
  have hcl : ∀ t u, cloneUid s t = some u → 7 + 2 * o.numCams ≤ u := fun t u hu => by
    have := (hW.cin _ (cloneUid_mem hu)).2.2.1
    unfold St.base at this; exact this
  have key : ∀ v, camOf o v → refOf s v = some r → (∃ t, v = .clone t ∧ (t, r.1) ∈ s.clones ∧ 7 + 2 * o.numCams ≤ r.1) ∨
      (∃ c, v = .calib c ∧ r.1 = 7 + 2 * c ∧ c < o.numCams) ∨ ∃ c, v = .intr c ∧ r.1 = 8 + 2 * c ∧ c < o.numCams := by
    intro v hv h
    cases v with
    | clone t =>
      simp only [refOf, Option.map_eq_some_iff] at h
      obtain ⟨u, hu, rfl⟩ := h
      exact .inl ⟨t, rfl, cloneUid_mem hu, hcl t u hu⟩
    | calib c =>
      simp only [refOf, Option.some.injEq] at h
      subst h
      exact .inr (.inl ⟨c, rfl, rfl, hv⟩)
    | intr c =>
      simp only [refOf, Option.some.injEq] at h
      subst h
      exact .inr (.inr ⟨c, rfl, by simp [St.intrUid, add_comm], hv⟩)
  rcases key v hv h1 with ⟨t, rfl, a1, a2⟩ | ⟨c, rfl, a1, a2⟩ | ⟨c, rfl, a1, a2⟩ <;>
    rcases key w hw h2 with ⟨t', rfl, b1, b2⟩ | ⟨c', rfl, b1, b2⟩ | ⟨c', rfl, b1, b2⟩
  · by_contra hne
    have hne' : (t, r.1) ≠ (t', r.1) := fun e => hne (by rw [(Prod.mk.inj e).1])
    have : Std.Symm (fun a b : ℝ × ℕ => a.2 ≠ b.2) := ⟨fun _ _ h => h.symm⟩
    exact hW.cuid.forall a1 b1 hne' rfl
  all_goals first | omega | (congr 1; omega)

theorem mapM_nodup {α β : Type} {F : α → Option β} : ∀ {l : List α} {r : List β}, l.Nodup → (∀ a ∈ l, ∀ b ∈ l, ∀ x, F a = some x → F b = some x → a = b) →
    l.mapM F = some r → r.Nodup ∧ ∀ x ∈ r, ∃ a ∈ l, F a = some x
  | [], r, _, _, h => by
    simp at h; subst h; simp
  | a :: t, r, hn, hinj, h => by
    rw [List.mapM_cons] at h
    simp only [Option.bind_eq_bind, Option.bind_eq_some_iff] at h
    obtain ⟨b, hb, bs, hbs, h⟩ := h
    obtain rfl := (Option.some.inj h).symm
    obtain ⟨ha, hn⟩ := List.nodup_cons.1 hn
    obtain ⟨h1, h2⟩ := mapM_nodup hn (fun x hx y hy => hinj x (by simp [hx]) y (by simp [hy])) hbs
    refine ⟨List.nodup_cons.2 ⟨fun hbm => ?_, h1⟩, fun x hx => ?_⟩
    · obtain ⟨c, hc, hcb⟩ := h2 b hbm
      exact ha (hinj a (by simp) c (by simp [hc]) b hb hcb ▸ hc)
    · rcases List.mem_cons.1 hx with rfl | hx
      · exact ⟨a, by simp, hb⟩
      · obtain ⟨c, hc, hcx⟩ := h2 x hx; exact ⟨c, by simp [hc], hcx⟩

/-- what `full` looked up. -/
theorem full_some {st : St} {f : Feat} {out : Out} (h : full st f = some out) :
    out.order = layout st f ∧ out.rows = 2 * (flat f).length ∧ (∀ c ∈ f.obs, (st.calib c.1).isSome) ∧
      (isRelative f.rep = true → ∃ c, f.ancCam = some c ∧ (st.calib c).isSome) := by
  unfold full at h
  simp only [Option.bind_eq_bind, Option.bind_eq_some_iff] at h
  obtain ⟨us, hus, ms, hms, g, hg, j, hj, h⟩ := h
  obtain rfl := (Option.some.inj h).symm
  obtain ⟨hlen, -⟩ := mapM_spec hms
  obtain ⟨-, hget⟩ := mapM_spec hus
  refine ⟨rfl, by simp [hlen], fun c hc => ?_, fun hr => ?_⟩
  · obtain ⟨n, hn, rfl⟩ := List.mem_iff_getElem.1 hc
    have hl := (mapM_spec hus).1
    have := hget n hn (by omega)
    simp only [hasCam, Option.bind_eq_bind, Option.bind_eq_some_iff] at this
    obtain ⟨x, hx, -⟩ := this
    simp [hx]
  · simp only [globalPos, hr, if_true, Option.bind_eq_bind, Option.bind_eq_some_iff] at hg
    obtain ⟨c, hc, cal, hcal, -⟩ := hg
    exact ⟨c, hc, by simp [hcal]⟩

theorem view_calib_lt {fej : Bool} {kind : ℕ → Cam.Kind} {c : ℕ} (h : ((view s fej kind).calib c).isSome) : c < s.opts.numCams := by
  by_contra hc
  simp [view, hc] at h

/-- the variables of a feature's Jacobian are distinct objects. -/
theorem refs_nodup (hW : St.W o s) {fej : Bool} {kind : ℕ → Cam.Kind} {f : Feat} {out : Out} (hout : full (view s fej kind) f = some out)
    (hcams : (f.obs.map Prod.fst).Nodup) {refs : List St.Ref} (hrefs : out.order.mapM (refOf s) = some refs) : refs.Nodup := by
  obtain ⟨e1, -, h1, h2⟩ := full_some hout
  obtain ⟨hnd, hmem⟩ := layout_spec (view s fej kind) f hcams
  rw [e1] at hrefs
  have hcam : ∀ v ∈ layout (view s fej kind) f, camOf o v := by
    intro v hv
    rcases (hmem v).1 hv with ⟨c, hc, ⟨-, rfl⟩ | ⟨-, rfl⟩ | ⟨m, hm, rfl⟩⟩ | ⟨hr, rfl | ⟨-, c, hc, rfl⟩⟩
    · rw [camOf, ← hW.opts]; exact view_calib_lt (h1 c hc)
    · rw [camOf, ← hW.opts]; exact view_calib_lt (h1 c hc)
    · trivial
    · trivial
    · obtain ⟨c', hc', h⟩ := h2 hr
      rw [hc] at hc'
      obtain rfl := Option.some.inj hc'
      rw [camOf, ← hW.opts]; exact view_calib_lt h
  exact (mapM_nodup hnd (fun a ha b hb x hxa hxb => refOf_inj hW (hcam a ha) (hcam b hb) hxa hxb) hrefs).1

/-! ## one feature -/

theorem full_factor (L : List (ℕ × ℕ)) (m n : ℕ) (A : Mat) :
    St.Spec.full L m n A = Spec.mat m (St.tot L) A * toM (St.tot L) n (Mat.sel (St.ix L)) := by
  rw [St.full_eq, St.scatter_eq, toM_mul]; rfl

theorem toFeat_obs (r : Rep) (f : Track) (x : Fix) : (toFeat r f x).obs = f.obs ∧ (toFeat r f x).rep = r := by
  unfold toFeat; split_ifs <;> exact ⟨rfl, rfl⟩

theorem flat_length (f : Feat) : (flat f).length = (f.obs.map fun c => c.2.length).sum := by
  simp [flat, List.length_flatMap]

theorem jacobsize_msckf (r : Rep) : jacobsize (msckfRep r) = 3 := by cases r <;> rfl

/-- the projected system of a feature. -/
theorem msckfSys_spec (hW : St.W o s) {C : MCfg} {f : Track} {x : Fix} {y : Sys} (hcams : (f.obs.map Prod.fst).Nodup)
    (h : msckfSys s C.fej C.kind (toFeat (msckfRep C.rep) f x) = some y) {L : List (ℕ × ℕ)} (hL : St.resolveAll s y.order = some L) :
    ∃ i : Spec.Item, i.f = f ∧ i.x = x ∧ i.OK s C ∧ y.order = i.refs ∧ i.L = L ∧ ∃ hm : y.m = i.out.rows - 3,
      (∀ k : Fin y.m, ∀ c : Fin s.n, St.Spec.full L y.m s.n y.H k c = i.F s (Fin.cast hm k) c) ∧ ∀ k : Fin y.m, y.r k = i.r (Fin.cast hm k) := by
  unfold msckfSys at h
  simp only [Option.bind_eq_bind, Option.bind_eq_some_iff] at h
  obtain ⟨out, hout, p, hp, refs, hrefs, h⟩ := h
  obtain rfl := (Option.some.inj h).symm
  obtain ⟨ho, hr⟩ := toFeat_obs (msckfRep C.rep) f x
  rw [hr, jacobsize_msckf] at hp
  obtain ⟨q1, q2⟩ := C30_projection out.rows 3 out.Hf
  have h3 : 3 ≤ out.rows := by
    by_contra hc
    rw [q1 (by omega)] at hp
    cases hp
  obtain ⟨N, n1, n2, n3, n4⟩ := q2 h3
  obtain ⟨H', r', e, eH, er⟩ := n3 (St.tot L) out.Hx out.res
  rw [e] at hp
  obtain rfl := (Option.some.inj hp).symm
  obtain ⟨-, erows, -, -⟩ := full_some hout
  simp only at hL
  refine ⟨⟨f, x, out, refs, L, N⟩, rfl, rfl, ⟨hout, ?_, hrefs, hL, refs_nodup hW hout (by rw [ho]; exact hcams) hrefs, n1, n2, n4⟩, rfl, rfl, rfl, ?_, ?_⟩
  · simp only [erows, flat_length, ho]
  · intro k c
    simp only [Spec.Item.F, full_factor, Fin.cast_eq_self]
    rw [← Matrix.mul_assoc, ← eH]
  · intro k
    exact congr_fun er k

/-- the test of the loop is the chi-square test. -/
theorem gate_spec (hlib : St.Spec.LibOK lib) (hs : St.Spec.ReachOK lib s) {sig2 mult : ℝ} (hsig : 0 < sig2) {y : Sys} {ok : Bool}
    (h : gate lib s sig2 mult y = some ok) :
    ∃ L, St.resolveAll s y.order = some L ∧
      (ok = true ↔ dotProduct (Spec.vec y.m y.r) ((St.Spec.full L y.m s.n y.H * St.Spec.cov s * (St.Spec.full L y.m s.n y.H).transpose +
        sig2 • (1 : Matrix (Fin y.m) (Fin y.m) ℝ))⁻¹.mulVec (Spec.vec y.m y.r)) ≤ mult * lib.chi2 y.m) := by
  have hP := St.reach_sym hs.reach
  have hp := St.reach_psd hlib hs
  unfold gate St.getMarginal at h
  simp only [Option.bind_eq_bind, Option.bind_eq_some_iff] at h
  obtain ⟨Pm, ⟨L, hL, hPm⟩, h⟩ := h
  obtain rfl := (Option.some.inj hPm).symm
  have h := Option.some.inj h
  refine ⟨L, hL, ?_⟩
  rw [← h, decide_eq_true_iff, not_lt]
  refine iff_of_eq (congrArg (· ≤ _) ?_)
  simp only
  have hSm := St.small_eq_full (St.resolveAll_le hL) s.P y.H
  have hsc : (fun i j => Mat.mul (St.tot L) (Mat.mul (St.tot L) y.H (St.margCov s.P L)) (Mat.tr y.H) i j + (if i = j then sig2 else 0)) =
      St.innov s.n (St.scatter L y.H) s.P (Spec.iso y.m sig2).a := by
    funext i j; rw [hSm]; simp [St.innov, Spec.iso]
  rw [hsc]
  have isoM : toM y.m y.m (Spec.iso y.m sig2).a = sig2 • 1 := by
    ext i j; simp [toM, Spec.iso, Matrix.one_apply, Fin.ext_iff]
  have isoS : Mat.Sym y.m (Spec.iso y.m sig2).a := fun i j _ _ => by simp only [Spec.iso, eq_comm]
  have isoP : PD y.m (Spec.iso y.m sig2).a := by
    rw [pd_iff, isoM]
    intro x hx
    simp only [mquad, Matrix.smul_mulVec, Matrix.one_mulVec, dotProduct_smul, smul_eq_mul]
    have : 0 < dotProduct x x := by
      have h0 : 0 ≤ dotProduct x x := Finset.sum_nonneg fun i _ => mul_self_nonneg _
      rcases h0.lt_or_eq with h | h
      · exact h
      · exact absurd (dotProduct_self_eq_zero.1 h.symm) hx
    positivity
  have hSp := St.innov_pd (Hf := St.scatter L y.H) hp isoP
  have hSs := St.innov_sym (Hf := St.scatter L y.H) hP isoS
  have hsol := hlib.lltSolve y.m _ y.r hSs hSp
  have hu := (Matrix.isUnit_iff_isUnit_det _).1 (St.pd_isUnit hSp)
  have hx : toV y.m (lib.lltSolve y.m (St.innov s.n (St.scatter L y.H) s.P (Spec.iso y.m sig2).a) y.r) =
      (toM y.m y.m (St.innov s.n (St.scatter L y.H) s.P (Spec.iso y.m sig2).a))⁻¹.mulVec (toV y.m y.r) := by
    have e : (toM y.m y.m (St.innov s.n (St.scatter L y.H) s.P (Spec.iso y.m sig2).a)).mulVec
        (toV y.m (lib.lltSolve y.m (St.innov s.n (St.scatter L y.H) s.P (Spec.iso y.m sig2).a) y.r)) = toV y.m y.r := by
      rw [← toV_mulVec]; funext i; exact hsol i i.2
    rw [← e, Matrix.mulVec_mulVec, Matrix.nonsing_inv_mul _ hu, Matrix.one_mulVec]
  have hinn : toM y.m y.m (St.innov s.n (St.scatter L y.H) s.P (Spec.iso y.m sig2).a) =
      St.Spec.full L y.m s.n y.H * St.Spec.cov s * (St.Spec.full L y.m s.n y.H).transpose + sig2 • (1 : Matrix (Fin y.m) (Fin y.m) ℝ) := by
    rw [← isoM, St.full_eq, St.cov_eq, show toM y.m y.m (St.innov s.n (St.scatter L y.H) s.P (Spec.iso y.m sig2).a) =
      toM y.m y.m (Mat.mul s.n (Mat.mul s.n (St.scatter L y.H) s.P) (Mat.tr (St.scatter L y.H))) + toM y.m y.m (Spec.iso y.m sig2).a from rfl,
      toM_mul, toM_mul, toM_tr]
  rw [← hinn, show Spec.vec y.m y.r = toV y.m y.r from rfl, ← hx, Finset.sum_range]
  rfl

/-! ## the loop -/

/-- information matrix of a stack with unit noise. -/
noncomputable def Big.gram (s : St.State) (B : Big) : Matrix (Fin s.n) (Fin s.n) ℝ :=
  (toM B.rows s.n (B.row s)).transpose * toM B.rows s.n (B.row s)

/-- information vector of a stack with unit noise. -/
noncomputable def Big.rhs (s : St.State) (B : Big) : Fin s.n → ℝ := (toM B.rows s.n (B.row s)).transpose.mulVec (toV B.rows B.r)

theorem append_gram {maxR maxC : ℕ} {sig2 : ℝ} {B B' : Big} {y : Sys} (hB : BigOK s B) (hn : y.order.Nodup)
    {L : List (ℕ × ℕ)} (hL : St.resolveAll s y.order = some L) (h : append (szOf s) maxR maxC sig2 B y = some B') :
    B'.gram s = B.gram s + (St.Spec.full L y.m s.n y.H).transpose * St.Spec.full L y.m s.n y.H ∧
      B'.rhs s = B.rhs s + (St.Spec.full L y.m s.n y.H).transpose.mulVec (Spec.vec y.m y.r) := by
  have ha := resolveAll_isSome.2 ⟨L, hL⟩
  rw [Sys.full_row hn hL]
  constructor
  · ext c c'
    simp only [Big.gram, Matrix.add_apply, Matrix.mul_apply, Matrix.transpose_apply, toM]
    have := append_sum hB hn ha h (fun ρ _ _ => ρ c * ρ c')
    rw [Finset.sum_range, Finset.sum_range, Finset.sum_range] at this
    exact this
  · ext c
    simp only [Big.rhs, Pi.add_apply, Matrix.mulVec, dotProduct, Matrix.transpose_apply, toM, toV, Spec.vec]
    have := append_sum hB hn ha h (fun ρ r _ => ρ c * r)
    rw [Finset.sum_range, Finset.sum_range, Finset.sum_range] at this
    exact this

theorem cast_gram {m m' n : ℕ} (hm : m = m') (A : Matrix (Fin m) (Fin n) ℝ) (B : Matrix (Fin m') (Fin n) ℝ) (a : Fin m → ℝ) (b : Fin m' → ℝ)
    (h : ∀ k c, A k c = B (Fin.cast hm k) c) (h' : ∀ k, a k = b (Fin.cast hm k)) :
    A.transpose * A = B.transpose * B ∧ A.transpose.mulVec a = B.transpose.mulVec b ∧ ∀ (P : Matrix (Fin n) (Fin n) ℝ) (σ : ℝ),
      dotProduct a ((A * P * A.transpose + σ • (1 : Matrix (Fin m) (Fin m) ℝ))⁻¹.mulVec a) =
        dotProduct b ((B * P * B.transpose + σ • (1 : Matrix (Fin m') (Fin m') ℝ))⁻¹.mulVec b) := by
  subst hm
  obtain rfl : A = B := by ext k c; exact h k c
  obtain rfl : a = b := by funext k; exact h' k
  exact ⟨rfl, rfl, fun _ _ => rfl⟩

theorem msckfLoop_spec (hlib : St.Spec.LibOK lib) (hs : St.Spec.ReachOK lib s) (hW : St.W o s) {C : MCfg} (hsig : 0 < C.sig2) {maxR maxC : ℕ} :
    ∀ (gs : List (Track × Fix)) (B : Big) (ids : List ℕ) (R : Big × List ℕ), (∀ g ∈ gs, (g.1.obs.map Prod.fst).Nodup) → BigOK s B →
    msckfLoop lib s C maxR maxC (gs.map fun g => (g.1.id, toFeat (msckfRep C.rep) g.1 g.2)) (B, ids) = some R →
    ∃ items : List Spec.Item, items.map (fun i => (i.f, i.x)) = gs ∧ (∀ i ∈ items, i.OK s C) ∧
      BigOK s R.1 ∧ R.2 = ids ++ (items.filter fun i => decide (i.Pass lib s C)).map (fun i => i.f.id) ∧
      R.1.rows = B.rows + ((items.filter fun i => decide (i.Pass lib s C)).map fun i => i.out.rows - 3).sum ∧
      (∀ v, v ∈ R.1.order ↔ v ∈ B.order ∨ ∃ i ∈ items, i.Pass lib s C ∧ v ∈ i.refs) ∧
      R.1.gram s = B.gram s + ((items.filter fun i => decide (i.Pass lib s C)).map fun i => (i.F s).transpose * i.F s).sum ∧
      R.1.rhs s = B.rhs s + ((items.filter fun i => decide (i.Pass lib s C)).map fun i => (i.F s).transpose.mulVec i.r).sum
  | [], B, ids, R, _, hB, h => by
    simp only [List.map_nil, msckfLoop, Option.some.injEq] at h
    subst h
    exact ⟨[], rfl, by simp, hB, by simp, by simp, by simp, by simp, by simp⟩
  | g :: gs, B, ids, R, hc, hB, h => by
    simp only [List.map_cons, msckfLoop, Option.bind_eq_bind, Option.bind_eq_some_iff] at h
    obtain ⟨y, hy, ok, hok, h⟩ := h
    obtain ⟨L, hL, hgate⟩ := gate_spec hlib hs hsig hok
    obtain ⟨i, e1, e2, hi, e3, e4, hm, hF, hr⟩ := msckfSys_spec hW (hc g (by simp)) hy hL
    obtain ⟨c1, c2, c3⟩ := cast_gram hm _ _ (Spec.vec y.m y.r) _ hF hr
    have hpass : ok = true ↔ i.Pass lib s C := by
      rw [hgate, c3]; unfold Spec.Item.Pass Spec.Item.stat; rw [hm]
    have hc' : ∀ g ∈ gs, (g.1.obs.map Prod.fst).Nodup := fun g' h' => hc g' (by simp [h'])
    have hyn : y.order.Nodup := by rw [e3]; exact hi.nodup
    cases ok with
    | false =>
      simp only [Bool.false_eq_true, if_false] at h
      obtain ⟨items, i1, i2, i3, i4, i5, i6, i7, i8⟩ := msckfLoop_spec hlib hs hW hsig gs B ids R hc' hB h
      have hnp : ¬ i.Pass lib s C := fun hp => by simpa using hpass.2 hp
      have hfil : (i :: items).filter (fun i => decide (i.Pass lib s C)) = items.filter fun i => decide (i.Pass lib s C) := by
        rw [List.filter_cons, if_neg (by simpa using hnp)]
      refine ⟨i :: items, by rw [List.map_cons, i1, e1, e2], ?_, i3, ?_, ?_, ?_, ?_, ?_⟩
      · intro j hj
        rcases List.mem_cons.1 hj with rfl | hj
        · exact hi
        · exact i2 j hj
      all_goals first | (rw [hfil]; assumption) | skip
      intro v
      rw [i6]
      constructor
      · rintro (h | ⟨j, hj, hp, hv⟩)
        · exact .inl h
        · exact .inr ⟨j, by simp [hj], hp, hv⟩
      · rintro (h | ⟨j, hj, hp, hv⟩)
        · exact .inl h
        · rcases List.mem_cons.1 hj with rfl | hj
          · exact absurd hp hnp
          · exact .inr ⟨j, hj, hp, hv⟩
    | true =>
      simp only [if_true, Option.bind_eq_some_iff] at h
      obtain ⟨B', hB', h⟩ := h
      obtain ⟨b1, b2, b3, -, -⟩ := append_spec hB hyn (resolveAll_isSome.2 ⟨L, hL⟩) hB'
      obtain ⟨g1, g2⟩ := append_gram hB hyn hL hB'
      obtain ⟨items, i1, i2, i3, i4, i5, i6, i7, i8⟩ := msckfLoop_spec hlib hs hW hsig gs B' _ R hc' b1 h
      have hp : i.Pass lib s C := hpass.1 rfl
      have hfil : (i :: items).filter (fun i => decide (i.Pass lib s C)) = i :: items.filter fun i => decide (i.Pass lib s C) := by
        rw [List.filter_cons, if_pos (by simpa using hp)]
      refine ⟨i :: items, by rw [List.map_cons, i1, e1, e2], ?_, i3, ?_, ?_, ?_, ?_, ?_⟩
      · intro j hj
        rcases List.mem_cons.1 hj with rfl | hj
        · exact hi
        · exact i2 j hj
      · rw [hfil, i4, List.map_cons, e1]; simp
      · rw [hfil, i5, b2, List.map_cons, List.sum_cons, hm, add_assoc]
      · intro v
        rw [i6, b3, e3]
        constructor
        · rintro ((h | h) | ⟨j, hj, hp, hv⟩)
          · exact .inl h
          · exact .inr ⟨i, by simp, hp, h⟩
          · exact .inr ⟨j, by simp [hj], hp, hv⟩
        · rintro (h | ⟨j, hj, hp, hv⟩)
          · exact .inl (.inl h)
          · rcases List.mem_cons.1 hj with rfl | hj
            · exact .inl (.inr hv)
            · exact .inr ⟨j, hj, hp, hv⟩
      · rw [hfil, i7, g1, c1, List.map_cons, List.sum_cons, add_assoc]
      · rw [hfil, i8, g2, c2, List.map_cons, List.sum_cons, add_assoc]

theorem located_candidates (tri : Track → Option Fix) (fs : List Track) : located tri (cleaned s 2 fs) = Spec.candidates s tri fs := by
  have hc : ∀ f : Track, f.clean s = Spec.inWindow s f := fun f => by
    simp only [Track.clean, Spec.inWindow, List.mem_map, Prod.exists, exists_and_right, exists_eq_right]
  induction fs with
  | nil => rfl
  | cons f t ih =>
    simp only [cleaned, located, Spec.candidates, List.map_cons, List.filter_cons, List.filterMap_cons, hc, Track.count] at ih ⊢
    by_cases h2 : 2 ≤ ((Spec.inWindow s f).obs.map fun c => c.2.length).sum
    · simp only [h2, decide_true, if_true, List.filterMap_cons]
      rw [← ih]
    · simp only [h2, decide_false, Bool.false_eq_true, if_false]
      exact ih

theorem progOK_reach (h : St.Spec.ProgOK lib o s) : St.Spec.ReachOK lib s := by
  obtain ⟨ops, _, h2, h3⟩ := h; exact ⟨o, ops, h2, h3⟩

theorem progOK_update (h : St.Spec.ProgOK lib o s) {order : List St.Ref} {H R : St.DMat} {r : St.DVec} (hRs : Mat.Sym R.rows R.a) (hR : PD R.rows R.a)
    (hu : St.update lib s order H r R = some s') : St.Spec.ProgOK lib o s' := by
  obtain ⟨ops, h1, h2, h3⟩ := h
  refine ⟨ops ++ [.update order H r R], ?_, ?_, ?_⟩
  · intro x hx
    rcases List.mem_append.1 hx with hx | hx
    · exact h1 x hx
    · obtain rfl := List.mem_singleton.1 hx; trivial
  · exact St.histOK_append h2 h3 ⟨⟨hRs, hR⟩, fun _ _ => trivial⟩
  · rw [St.run_append, h3]; simp [St.run, St.step, hu]

theorem isoN_sym (m : ℕ) (c : ℝ) : Mat.Sym m (fun i j => c * Mat.one i j) := fun i j _ _ => by simp only [Mat.one, eq_comm]

theorem isoN_toM (m : ℕ) (c : ℝ) : toM m m (fun i j => c * Mat.one i j) = c • (1 : Matrix (Fin m) (Fin m) ℝ) := by
  ext i j; simp [toM, Mat.one, Matrix.one_apply, Fin.ext_iff]

theorem isoN_pd (m : ℕ) {c : ℝ} (hc : 0 < c) : PD m (fun i j => c * Mat.one i j) := by
  rw [pd_iff, isoN_toM]
  intro x hx
  simp only [mquad, Matrix.smul_mulVec, Matrix.one_mulVec, dotProduct_smul, smul_eq_mul]
  have : 0 < dotProduct x x := by
    have h0 : 0 ≤ dotProduct x x := Finset.sum_nonneg fun i _ => mul_self_nonneg _
    rcases h0.lt_or_eq with h | h
    · exact h
    · exact absurd (dotProduct_self_eq_zero.1 h.symm) hx
  positivity

/-- the update with a compressed stack adds the information of the stack. -/
theorem update_stack (hlib : St.Spec.LibOK lib) (hs : St.Spec.ReachOK lib s) {B : Big} (hB : BigOK s B) {sig2 : ℝ} (hsig : 0 < sig2)
    (h : St.update lib s B.order ⟨(compress B.rows (totR (szOf s) B.order) B.H B.r).1, totR (szOf s) B.order, (compress B.rows (totR (szOf s) B.order) B.H B.r).2.1⟩
      ⟨(compress B.rows (totR (szOf s) B.order) B.H B.r).1, (compress B.rows (totR (szOf s) B.order) B.H B.r).2.2⟩
      ⟨(compress B.rows (totR (szOf s) B.order) B.H B.r).1, (compress B.rows (totR (szOf s) B.order) B.H B.r).1, fun i j => sig2 * Mat.one i j⟩ = some s') :
    St.Spec.Posterior s s' ((1 / sig2) • B.gram s) ((1 / sig2) • B.rhs s) := by
  obtain ⟨L, hL, hp⟩ := St.C06_information_form hlib hs _ _ _ _ (isoN_sym _ _) (isoN_pd _ hsig) h
  simp only at hp
  rw [← tot_totR hL] at hp
  obtain ⟨-, hG, hr, -⟩ := C31_information B.rows (St.tot L) B.H B.r
  generalize compress B.rows (St.tot L) B.H B.r = c at hp hG hr
  have hinv : (St.Spec.mat c.1 c.1 (fun i j => sig2 * Mat.one i j))⁻¹ = (1 / sig2) • (1 : Matrix (Fin c.1) (Fin c.1) ℝ) := by
    rw [show St.Spec.mat c.1 c.1 (fun i j => sig2 * Mat.one i j) = sig2 • 1 from isoN_toM _ _]
    apply Matrix.inv_eq_left_inv
    rw [Matrix.smul_mul, Matrix.mul_smul, Matrix.one_mul, smul_smul, one_div, inv_mul_cancel₀ hsig.ne', one_smul]
  have hg : (St.Spec.full L c.1 s.n c.2.1).transpose * St.Spec.full L c.1 s.n c.2.1 = B.gram s := by
    rw [full_factor, Matrix.transpose_mul, Matrix.mul_assoc, ← Matrix.mul_assoc (Spec.mat c.1 (St.tot L) c.2.1).transpose, hG]
    unfold Big.gram
    rw [← Big.full_row hB hL, full_factor, Matrix.transpose_mul]
    simp only [Matrix.mul_assoc]
  have hv : (St.Spec.full L c.1 s.n c.2.1).transpose.mulVec (St.Spec.vec c.1 c.2.2) = B.rhs s := by
    rw [full_factor, Matrix.transpose_mul, ← Matrix.mulVec_mulVec, show St.Spec.vec c.1 c.2.2 = Spec.vec c.1 c.2.2 from rfl, hr]
    unfold Big.rhs
    rw [← Big.full_row hB hL, full_factor, Matrix.transpose_mul, ← Matrix.mulVec_mulVec]
    rfl
  rw [hinv] at hp
  simp only [Matrix.mul_smul, Matrix.mul_one, Matrix.smul_mul, Matrix.smul_mulVec, hg, hv] at hp
  exact hp

theorem empty_gram (s : St.State) : Big.empty.gram s = 0 ∧ Big.empty.rhs s = 0 := by
  constructor
  · ext i j; simp only [Big.gram, Matrix.mul_apply]; exact Finset.sum_eq_zero fun k _ => absurd k.2 (by simp [Big.empty])
  · ext i; simp only [Big.rhs, Matrix.mulVec, dotProduct]; exact Finset.sum_eq_zero fun k _ => absurd k.2 (by simp [Big.empty])

theorem mapM_mem {α β : Type} {F : α → Option β} : ∀ {l : List α} {r : List β}, l.mapM F = some r → ∀ a ∈ l, ∃ x ∈ r, F a = some x
  | [], _, _ => by simp
  | a :: t, r, h => by
    rw [List.mapM_cons] at h
    simp only [Option.bind_eq_bind, Option.bind_eq_some_iff] at h
    obtain ⟨b, hb, bs, hbs, h⟩ := h
    obtain rfl := (Option.some.inj h).symm
    intro c hc
    rcases List.mem_cons.1 hc with rfl | hc
    · exact ⟨b, by simp, hb⟩
    · obtain ⟨x, hx, e⟩ := mapM_mem hbs c hc
      exact ⟨x, by simp [hx], e⟩

/-- a feature with a measurement has a clone among its variables. -/
theorem item_clone (hW : St.W o s) {C : MCfg} {i : Spec.Item} (hi : i.OK s C) (hcams : (i.f.obs.map Prod.fst).Nodup)
    (h0 : 0 < (i.f.obs.map fun c => c.2.length).sum) : ∃ v ∈ i.refs, szOf s v = 6 := by
  obtain ⟨e1, -, -, -⟩ := full_some hi.out
  obtain ⟨ho, -⟩ := toFeat_obs (msckfRep C.rep) i.f i.x
  have hm : ∃ c ∈ i.f.obs, ∃ m, m ∈ c.2 := by
    by_contra hno
    push Not at hno
    have : (i.f.obs.map fun c => c.2.length).sum = 0 := by
      rw [List.sum_eq_zero]
      intro x hx
      obtain ⟨c, hc, rfl⟩ := List.mem_map.1 hx
      rw [List.length_eq_zero_iff]
      exact List.eq_nil_iff_forall_not_mem.2 fun m => hno c hc m
    omega
  obtain ⟨c, hc, m, hm⟩ := hm
  have hv : Var.clone m.1 ∈ i.out.order := by
    rw [e1, (layout_spec _ _ (by rw [ho]; exact hcams)).2]
    exact .inl ⟨c, by rw [ho]; exact hc, .inr (.inr ⟨m, hm, rfl⟩)⟩
  obtain ⟨v, hv, hr⟩ := mapM_mem hi.refs _ hv
  refine ⟨v, hv, ?_⟩
  simp only [refOf, Option.map_eq_some_iff] at hr
  obtain ⟨u, hu, rfl⟩ := hr
  obtain ⟨q, p, hp⟩ := hW.cpose _ (cloneUid_mem hu)
  simp only at hp
  simp [szOf, hp, Val.part, Val.size]

/-- **C95** The MSCKF update. For every state of the program, every set of feature tracks and whatever the triangulation returns, an update that completes
does the following. The features considered are those with at least two measurements at clone times for which the triangulation succeeded. Each is
linearised (C79) at the state before the update and its landmark eliminated by projecting onto the left null space of its Jacobian (C30). Exactly
those whose squared Mahalanobis distance is at most `chi2_multipler · χ²₀.₉₅(2n - 3)` are used. If there are none, nothing changes. Otherwise the
result is the Bayesian posterior given all of them: the information `FᵀF/σ²` of the used features is added to that of the prior, each counted once,
whatever variables they share, and the estimate is corrected by the new covariance times the sum of `Fᵀr/σ²`. Clones, landmarks, options and time stay. -/
theorem C95_msckf_update (hlib : St.Spec.LibOK lib) (hs : St.Spec.ProgOK lib o s) {C : MCfg} (hsig : 0 < C.sig2) (tri : Track → Option Fix) (fs : List Track)
    (hcams : ∀ f ∈ fs, (f.obs.map Prod.fst).Nodup) {used : List ℕ} (h : msckfUpdate lib s C tri fs = some (s', used)) :
    ∃ items : List Spec.Item, items.map (fun i => (i.f, i.x)) = Spec.candidates s tri fs ∧ (∀ i ∈ items, i.OK s C) ∧
      let acc := items.filter fun i => decide (i.Pass lib s C)
      used = acc.map (fun i => i.f.id) ∧ (acc = [] → s' = s) ∧
      (acc ≠ [] → St.Spec.Posterior s s' ((1 / C.sig2) • (acc.map fun i => (i.F s).transpose * i.F s).sum)
          ((1 / C.sig2) • (acc.map fun i => (i.F s).transpose.mulVec i.r).sum)) ∧
      St.Spec.ProgOK lib o s' ∧ s'.clones = s.clones ∧ s'.slam = s.slam ∧ s'.opts = s.opts ∧ s'.ts = s.ts := by
  have hW := St.prog_W hs.prog
  have hR := progOK_reach hs
  unfold msckfUpdate at h
  simp only [located_candidates, Option.bind_eq_bind, Option.bind_eq_some_iff] at h
  obtain ⟨B, hloop, h⟩ := h
  have hin : ∀ f : Track, (Spec.inWindow s f).obs.map Prod.fst = f.obs.map Prod.fst := fun f => by simp [Spec.inWindow, Function.comp_def]
  have hcand : ∀ g ∈ Spec.candidates s tri fs, (g.1.obs.map Prod.fst).Nodup ∧ 2 ≤ (g.1.obs.map fun c => c.2.length).sum := by
    intro g hg
    simp only [Spec.candidates, List.mem_filterMap] at hg
    obtain ⟨f, hf, hg⟩ := hg
    split_ifs at hg with h2
    rw [Option.map_eq_some_iff] at hg
    obtain ⟨x, -, rfl⟩ := hg
    exact ⟨by simp only [hin]; exact hcams f hf, h2⟩
  obtain ⟨items, i1, i2, i3, i4, i5, i6, i7, i8⟩ := msckfLoop_spec hlib hR hW hsig _ _ _ _ (fun g hg => (hcand g hg).1) (empty_ok s) hloop
  have hitem : ∀ i ∈ items, (i.f.obs.map Prod.fst).Nodup ∧ 2 ≤ (i.f.obs.map fun c => c.2.length).sum := fun i hi =>
    hcand (i.f, i.x) (by rw [← i1]; exact List.mem_map.2 ⟨i, hi, rfl⟩)
  rw [(empty_gram s).1, zero_add] at i7
  rw [(empty_gram s).2, zero_add] at i8
  refine ⟨items, i1, i2, ?_⟩
  simp only
  have hrows : B.1.rows = ((items.filter fun i => decide (i.Pass lib s C)).map fun i => i.out.rows - 3).sum := by
    rw [i5]; simp [Big.empty]
  rw [← i7, ← i8]
  cases hacc : items.filter fun i => decide (i.Pass lib s C) with
  | nil =>
    rw [hacc] at hrows i4
    rw [if_pos (by rw [hrows]; simp)] at h
    simp only [Option.some.injEq, Prod.mk.injEq] at h
    obtain ⟨rfl, rfl⟩ := h
    exact ⟨by rw [i4]; simp, fun _ => rfl, fun h => absurd rfl h, hs, rfl, rfl, rfl, rfl⟩
  | cons i t =>
    have hi : i ∈ items ∧ i.Pass lib s C := by
      have : i ∈ items.filter fun i => decide (i.Pass lib s C) := by rw [hacc]; simp
      obtain ⟨a, b⟩ := List.mem_filter.1 this
      exact ⟨a, by simpa using b⟩
    have hpos : 0 < B.1.rows := by
      rw [hrows, hacc, List.map_cons, List.sum_cons]
      have := (i2 i hi.1).rows
      have := (hitem i hi.1).2
      omega
    have hcols : 0 < totR (szOf s) B.1.order := by
      obtain ⟨v, hv, hz⟩ := item_clone hW (i2 i hi.1) (hitem i hi.1).1 (by have := (hitem i hi.1).2; omega)
      have hv' : v ∈ B.1.order := (i6 v).2 (.inr ⟨i, hi.1, hi.2, hv⟩)
      have := offR_le (sz := szOf s) hv'
      omega
    rw [if_neg (by omega)] at h
    split_ifs at h with hfit
    · exfalso
      have := (C31_information B.1.rows (totR (szOf s) B.1.order) B.1.H B.1.r).1
      omega
    · simp only [Option.bind_eq_some_iff] at h
      obtain ⟨s1, hu, h⟩ := h
      simp only [Option.some.injEq, Prod.mk.injEq] at h
      obtain ⟨rfl, rfl⟩ := h
      obtain ⟨-, u2, -, -, u5, u6⟩ := St.update_lm (St.reach_inv hR.reach).nodup hu
      have hts : s1.ts = s.ts := by
        obtain ⟨L, Ma, _, _, _, _, _, _, rfl⟩ := St.update_some hu; rfl
      exact ⟨by rw [i4, hacc]; simp, fun h => absurd h (by simp), fun _ => update_stack hlib hR i3 hsig hu,
        progOK_update hs (isoN_sym _ _) (isoN_pd _ hsig) hu, u5, u6, u2, hts⟩

/-! ## the update completes -/

theorem contig_sum {obj : ℕ → St.Obj} : ∀ {l : List ℕ} {a b : ℕ}, St.Contig obj l a b → a + (l.map (St.osz obj)).sum = b
  | [], a, b, h => by simpa [St.Contig] using h
  | u :: t, a, b, h => by
    have := contig_sum h.2
    simp only [List.map_cons, List.sum_cons]
    omega

/-- a whole active variable that is not a landmark. -/
def Plain (s : St.State) (v : St.Ref) : Prop := v.2 = .self ∧ v.1 ∈ s.vars ∧ (s.obj v.1).lm = false

theorem plain_size {v : St.Ref} (h : Plain s v) : szOf s v = St.osz s.obj v.1 := by
  obtain ⟨u, r⟩ := v
  obtain ⟨rfl, -, -⟩ := h
  have : ∀ x : Val, x.part .self = some (0, x) := fun x => by cases x <;> rfl
  simp [szOf, this, St.osz]

theorem plain_bound (hW : St.W o s) (hI : St.Inv s) {l : List St.Ref} (hn : l.Nodup) (hp : ∀ v ∈ l, Plain s v) : totR (szOf s) l ≤ hxSize s := by
  have hsum := contig_sum hI.contig
  rw [Nat.zero_add] at hsum
  have hl1 : (l.map Prod.fst).Nodup := by
    rw [List.nodup_map_iff_inj_on hn]
    intro a ha b hb e
    exact Prod.ext e (by rw [(hp a ha).1, (hp b hb).1])
  have hl2 : (s.slam.map Prod.snd).Nodup := by
    rw [List.nodup_iff_pairwise_ne, List.pairwise_map]; exact hW.suid
  have e1 : totR (szOf s) l = ∑ u ∈ (l.map Prod.fst).toFinset, St.osz s.obj u := by
    rw [List.sum_toFinset _ hl1, List.map_map]
    unfold totR
    congr 1
    exact List.map_congr_left fun v hv => plain_size (hp v hv)
  have e2 : (s.slam.map fun f => (s.obj f.2).val.size).sum = ∑ u ∈ (s.slam.map Prod.snd).toFinset, St.osz s.obj u := by
    rw [List.sum_toFinset _ hl2, List.map_map]; rfl
  have hd : Disjoint (l.map Prod.fst).toFinset (s.slam.map Prod.snd).toFinset := by
    rw [Finset.disjoint_left]
    intro u h1 h2
    simp only [List.mem_toFinset, List.mem_map] at h1 h2
    obtain ⟨v, hv, rfl⟩ := h1
    obtain ⟨f, hf, e⟩ := h2
    have := (hW.sin f hf).2
    rw [e, (hp v hv).2.2] at this
    cases this
  have hle : ∑ u ∈ (l.map Prod.fst).toFinset ∪ (s.slam.map Prod.snd).toFinset, St.osz s.obj u ≤ ∑ u ∈ s.vars.toFinset, St.osz s.obj u := by
    refine Finset.sum_le_sum_of_subset ?_
    intro u hu
    simp only [Finset.mem_union, List.mem_toFinset, List.mem_map] at hu ⊢
    rcases hu with ⟨v, hv, rfl⟩ | ⟨f, hf, rfl⟩
    · exact (hp v hv).2.1
    · exact (hW.sin f hf).1
  rw [Finset.sum_union hd, List.sum_toFinset _ hI.nodup, hsum] at hle
  unfold hxSize
  rw [e2, e1]
  omega

theorem placeVars_returns (hW : St.W o s) (hI : St.Inv s) {maxR row m : ℕ} (H : Mat) (hr : row + m ≤ maxR) : ∀ (t : List St.Ref) (hx : ℕ) (A : List St.Ref × Mat),
    A.1.Nodup → (∀ v ∈ A.1, Plain s v) → (∀ v ∈ t, Plain s v) → ∃ A', placeVars (szOf s) maxR (hxSize s) row m H t hx A = some A'
  | [], hx, A, _, _, _ => ⟨A, rfl⟩
  | v :: t, hx, A, hn, hA, ht => by
    simp only [placeVars]
    generalize ho : (if v ∈ A.1 then A.1 else A.1 ++ [v]) = l
    have hvl : v ∈ l := by rw [← ho]; split_ifs with hv <;> simp [hv]
    have hln : l.Nodup := by
      rw [← ho]; split_ifs with hv
      · exact hn
      · rw [List.nodup_append]
        exact ⟨hn, by simp, fun a ha b hb => by simp at hb; subst hb; exact fun e => hv (e ▸ ha)⟩
    have hlp : ∀ w ∈ l, Plain s w := by
      rw [← ho]; split_ifs with hv
      · exact hA
      · intro w hw
        rcases List.mem_append.1 hw with h | h
        · exact hA w h
        · obtain rfl := List.mem_singleton.1 h; exact ht _ (by simp)
    have h1 := offR_le (sz := szOf s) hvl
    have h2 := plain_bound hW hI hln hlp
    rw [if_pos ⟨hr, by omega⟩]
    exact placeVars_returns hW hI H hr t _ _ hln hlp fun w hw => ht w (by simp [hw])

theorem calib_kind (hW : St.W o s) {c : ℕ} (hc : c < o.numCams) : ∃ q p, (s.obj (7 + 2 * c)).val = .pose q p := by
  have := hW.kind (7 + 2 * c) (by unfold St.base; omega)
  have e : (St.heap0 (7 + 2 * c)).val = .pose St.idQuat 0 := by
    have h1 : (7 + 2 * c) % 2 = 1 := by omega
    simp only [St.heap0]
    rw [if_neg (by omega), if_neg (by omega), if_neg (by omega), if_neg (by omega), if_neg (by omega), if_pos h1]
  rw [e] at this
  exact St.sameKind_pose this

theorem view_clone_some (hW : St.W o s) (hI : St.Inv s) (fej : Bool) (kind : ℕ → Cam.Kind) {t : ℝ} (h : ∃ u, (t, u) ∈ s.clones) :
    ((view s fej kind).clone t).isSome := by
  obtain ⟨u, hu⟩ := cloneUid_some h
  obtain ⟨q, p, hp⟩ := hW.cpose _ (cloneUid_mem hu)
  have := hI.kind u
  simp only at hp
  rw [hp] at this
  obtain ⟨q', p', hf⟩ := St.sameKind_pose this
  simp [view, hu, hp, hf, valPose]

theorem view_calib_some (hW : St.W o s) (fej : Bool) (kind : ℕ → Cam.Kind) {c : ℕ} (h : c < o.numCams) : ((view s fej kind).calib c).isSome := by
  obtain ⟨q, p, hp⟩ := calib_kind hW h
  have : c < s.opts.numCams := by rw [hW.opts]; exact h
  simp [view, this, hp, valPose]

theorem view_cam_some (hW : St.W o s) (fej : Bool) (kind : ℕ → Cam.Kind) {c : ℕ} (h : c < o.numCams) : ((view s fej kind).cam c).isSome := by
  have : c < s.opts.numCams := by rw [hW.opts]; exact h
  simp [view, this]

/-- a feature whose cameras exist and whose measurements and anchor are at clone times can be linearised. -/
theorem full_returns (hW : St.W o s) (hI : St.Inv s) (fej : Bool) (kind : ℕ → Cam.Kind) {f : Feat}
    (hk : f.rep ≠ .unknown) (hc : ∀ c ∈ f.obs, c.1 < o.numCams) (hm : ∀ c ∈ f.obs, ∀ m ∈ c.2, ∃ u, (m.1, u) ∈ s.clones)
    (ha : isRelative f.rep = true → (∃ c, f.ancCam = some c ∧ c < o.numCams) ∧ ∃ u, (f.ancT, u) ∈ s.clones) :
    ∃ out, full (view s fej kind) f = some out := by
  obtain ⟨us, hus⟩ := mapM_some (F := fun c : ℕ × List (ℝ × Cam.V2) => hasCam (view s fej kind) c.1) (l := f.obs) fun c h => by
    obtain ⟨y, hy⟩ := Option.isSome_iff_exists.1 (view_calib_some hW fej kind (hc c h))
    obtain ⟨z, hz⟩ := Option.isSome_iff_exists.1 (view_cam_some hW fej kind (hc c h))
    simp [hasCam, hy, hz]
  obtain ⟨ms, hms⟩ := mapM_some (F := look (view s fej kind)) (l := flat f) fun x hx => by
    obtain ⟨c, h, e, m, hm', e'⟩ := mem_flat hx
    obtain ⟨y, hy⟩ := Option.isSome_iff_exists.1 (view_calib_some hW fej kind (hc c h))
    obtain ⟨z, hz⟩ := Option.isSome_iff_exists.1 (view_cam_some hW fej kind (hc c h))
    obtain ⟨w, hw⟩ := Option.isSome_iff_exists.1 (view_clone_some hW hI fej kind (hm c h m hm'))
    rw [e] at hy hz
    rw [e'] at hw
    simp [look, hy, hz, hw]
  unfold full
  rw [hus, hms]
  simp only [Option.bind_eq_bind, Option.bind_some]
  by_cases hr : isRelative f.rep = true
  · obtain ⟨⟨c, hcc, hcn⟩, hcl⟩ := ha hr
    obtain ⟨y, hy⟩ := Option.isSome_iff_exists.1 (view_calib_some hW fej kind hcn)
    obtain ⟨w, hw⟩ := Option.isSome_iff_exists.1 (view_clone_some hW hI fej kind hcl)
    have h1 : ∃ g, globalPos (view s fej kind) f = some g := by simp [globalPos, hr, hcc, hy, hw]
    have h2 : ∃ j, repJac (view s fej kind) f = some j := by
      unfold repJac
      revert hr
      cases f.rep <;> simp [isRelative, hcc, hy, hw]
    obtain ⟨g, hg⟩ := h1
    obtain ⟨j, hj⟩ := h2
    rw [hg, hj]
    exact ⟨_, rfl⟩
  · have h2 : ∃ j, repJac (view s fej kind) f = some j := by
      unfold repJac
      revert hr hk
      cases f.rep <;> simp [isRelative]
    obtain ⟨j, hj⟩ := h2
    rw [hj]
    simp only [globalPos, hr]
    exact ⟨_, rfl⟩

theorem refOf_plain (hW : St.W o s) {v : Var} {r : St.Ref} (h : refOf s v = some r) (hc : ∀ c, v = .calib c → c < o.numCams ∧ o.calibPose = true)
    (hi : ∀ c, v = .intr c → c < o.numCams ∧ o.calibIntr = true) : Plain s r := by
  cases v with
  | clone t =>
    simp only [refOf, Option.map_eq_some_iff] at h
    obtain ⟨u, hu, rfl⟩ := h
    obtain ⟨h1, h2, -, -⟩ := hW.cin _ (cloneUid_mem hu)
    exact ⟨rfl, h1, h2⟩
  | calib c =>
    simp only [refOf, Option.some.injEq] at h
    subst h
    obtain ⟨h1, h2⟩ := hc c rfl
    refine ⟨rfl, hW.mem ?_, hW.low _ (by unfold St.base; omega)⟩
    simp only [St.ctorVars, List.mem_append, List.mem_flatMap, List.mem_range]
    exact .inr ⟨c, h1, .inl (by simp [h2])⟩
  | intr c =>
    simp only [refOf, Option.some.injEq] at h
    subst h
    obtain ⟨h1, h2⟩ := hi c rfl
    refine ⟨rfl, hW.mem ?_, hW.low _ (by unfold St.base St.intrUid; omega)⟩
    simp only [St.ctorVars, List.mem_append, List.mem_flatMap, List.mem_range]
    exact .inr ⟨c, h1, .inr (by simp [h2])⟩

theorem plain_resolve (hI : St.Inv s) {v : St.Ref} (h : Plain s v) : (St.resolve s v).isSome := by
  obtain ⟨u, r⟩ := v
  obtain ⟨rfl, h, -⟩ := h
  obtain ⟨k, -, -, e⟩ := hI.resolve_self h
  rw [e]; rfl

/-- the variables of a linearised feature are whole, active and no landmarks. -/
theorem refs_plain (hW : St.W o s) {fej : Bool} {kind : ℕ → Cam.Kind} {f : Feat} {out : Out} (hout : full (view s fej kind) f = some out)
    (hcams : (f.obs.map Prod.fst).Nodup) {refs : List St.Ref} (hrefs : out.order.mapM (refOf s) = some refs) : ∀ v ∈ refs, Plain s v := by
  obtain ⟨e1, -, h1, h2⟩ := full_some hout
  obtain ⟨hnd, hmem⟩ := layout_spec (view s fej kind) f hcams
  rw [e1] at hrefs
  have hcam : ∀ v ∈ layout (view s fej kind) f, (∀ c, v = .calib c → c < o.numCams ∧ o.calibPose = true) ∧
      (∀ c, v = .intr c → c < o.numCams ∧ o.calibIntr = true) ∧ camOf o v := by
    intro v hv
    rcases (hmem v).1 hv with ⟨c, hc, ⟨hp, rfl⟩ | ⟨hp, rfl⟩ | ⟨m, hm, rfl⟩⟩ | ⟨hr, rfl | ⟨hp, c, hc, rfl⟩⟩
    · have h : c.1 < o.numCams := by rw [← hW.opts]; exact view_calib_lt (h1 c hc)
      have hp' : o.calibPose = true := by rw [← hW.opts]; exact hp
      exact ⟨fun d e => (by cases e; exact ⟨h, hp'⟩), fun d e => (by cases e), h⟩
    · have h : c.1 < o.numCams := by rw [← hW.opts]; exact view_calib_lt (h1 c hc)
      have hp' : o.calibIntr = true := by rw [← hW.opts]; exact hp
      exact ⟨fun d e => (by cases e), fun d e => (by cases e; exact ⟨h, hp'⟩), h⟩
    · exact ⟨fun d e => (by cases e), fun d e => (by cases e), trivial⟩
    · exact ⟨fun d e => (by cases e), fun d e => (by cases e), trivial⟩
    · obtain ⟨c', hc', h⟩ := h2 hr
      rw [hc] at hc'
      obtain rfl := Option.some.inj hc'
      have h : c < o.numCams := by rw [← hW.opts]; exact view_calib_lt h
      have hp' : o.calibPose = true := by rw [← hW.opts]; exact hp
      exact ⟨fun d e => (by cases e; exact ⟨h, hp'⟩), fun d e => (by cases e), h⟩
  intro v hv
  obtain ⟨-, h4⟩ := mapM_nodup hnd (fun a ha b hb x hxa hxb => refOf_inj hW (hcam a ha).2.2 (hcam b hb).2.2 hxa hxb) hrefs
  obtain ⟨a, ha, e⟩ := h4 v hv
  exact refOf_plain hW e (hcam a ha).1 (hcam a ha).2.1

/-- a track that is usable and located. -/
structure Spec.Usable (o : St.Opts) (s : St.State) (g : Track × Fix) : Prop where
  cams : (g.1.obs.map Prod.fst).Nodup
  lt : ∀ c ∈ g.1.obs, c.1 < o.numCams
  win : ∀ c ∈ g.1.obs, ∀ m ∈ c.2, ∃ u, (m.1, u) ∈ s.clones
  two : 2 ≤ (g.1.obs.map fun c => c.2.length).sum
  cam : g.2.cam < o.numCams
  anc : ∃ u, (g.2.t, u) ∈ s.clones

theorem msckfSys_returns (hW : St.W o s) (hI : St.Inv s) (C : MCfg) (hk : C.rep ≠ .unknown) {g : Track × Fix} (hg : Spec.Usable o s g) :
    ∃ y, msckfSys s C.fej C.kind (toFeat (msckfRep C.rep) g.1 g.2) = some y ∧ (∀ v ∈ y.order, Plain s v) ∧ y.order.Nodup ∧ y.m ≤ 2 * g.1.count := by
  obtain ⟨ho, hr⟩ := toFeat_obs (msckfRep C.rep) g.1 g.2
  obtain ⟨out, hout⟩ := full_returns hW hI C.fej C.kind (f := toFeat (msckfRep C.rep) g.1 g.2) (by
    rw [hr]; revert hk; cases C.rep <;> simp [msckfRep]) (by rw [ho]; exact hg.lt) (by rw [ho]; exact hg.win) (by
    intro h
    rw [hr] at h
    simp only [toFeat, h, if_true]
    exact ⟨⟨_, rfl, hg.cam⟩, hg.anc⟩)
  obtain ⟨-, erows, -, -⟩ := full_some hout
  rw [flat_length, ho] at erows
  have h3 : ¬ out.rows < 3 := by have := hg.two; omega
  obtain ⟨refs, hrefs⟩ := mapM_some (F := refOf s) (l := out.order) fun v hv => by
    obtain ⟨e1, -, -, -⟩ := full_some hout
    rw [e1, (layout_spec _ _ (by rw [ho]; exact hg.cams)).2] at hv
    cases v with
    | clone t =>
      have : ∃ u, (t, u) ∈ s.clones := by
        rcases hv with ⟨c, hc, ⟨-, e⟩ | ⟨-, e⟩ | ⟨m, hm, e⟩⟩ | ⟨h, e | ⟨-, c, -, e⟩⟩
        · cases e
        · cases e
        · cases e; rw [ho] at hc; exact hg.win c hc m hm
        · rw [hr] at h
          simp only [toFeat, h, if_true] at e
          cases e; exact hg.anc
        · cases e
      obtain ⟨u, hu⟩ := cloneUid_some this
      simp [refOf, hu]
    | calib c => rfl
    | intr c => rfl
  obtain ⟨p, hp, hp1⟩ : ∃ p, nullspaceProject out.rows (jacobsize (msckfRep C.rep)) out.Hf out.Hx out.res = some p ∧ p.1 = out.rows - 3 := by
    rw [jacobsize_msckf]; exact ⟨_, if_neg h3, rfl⟩
  refine ⟨⟨refs, p.1, p.2.1, p.2.2⟩, ?_, refs_plain hW hout (by rw [ho]; exact hg.cams) hrefs, refs_nodup hW hout (by rw [ho]; exact hg.cams) hrefs, ?_⟩
  · unfold msckfSys
    rw [hout, Option.bind_eq_bind, Option.bind_some, hr, hp, Option.bind_eq_bind, Option.bind_some, hrefs]
    rfl
  · simp only [Track.count]
    omega

theorem msckfLoop_returns (hW : St.W o s) (hI : St.Inv s) (C : MCfg) (hk : C.rep ≠ .unknown) {maxR : ℕ} : ∀ (gs : List (Track × Fix)) (B : Big) (ids : List ℕ),
    (∀ g ∈ gs, Spec.Usable o s g) → BigOK s B → (∀ v ∈ B.order, Plain s v) → B.rows + (gs.map fun g => 2 * g.1.count).sum ≤ maxR →
    ∃ R, msckfLoop lib s C maxR (hxSize s) (gs.map fun g => (g.1.id, toFeat (msckfRep C.rep) g.1 g.2)) (B, ids) = some R ∧ BigOK s R.1 ∧
      (∀ v ∈ R.1.order, Plain s v) ∧ R.1.rows ≤ maxR
  | [], B, ids, _, hB, hp, hr => ⟨(B, ids), rfl, hB, hp, by simpa using hr⟩
  | g :: gs, B, ids, hg, hB, hp, hr => by
    obtain ⟨y, hy, hyp, hyn, hym⟩ := msckfSys_returns hW hI C hk (hg g (by simp))
    have hact : ∀ v ∈ y.order, (St.resolve s v).isSome := fun v hv => plain_resolve hI (hyp v hv)
    obtain ⟨L, hL⟩ := resolveAll_isSome.1 hact
    have hgate : ∃ ok, gate lib s C.sig2 C.mult y = some ok := by
      unfold gate St.getMarginal
      rw [hL]
      exact ⟨_, rfl⟩
    obtain ⟨ok, hok⟩ := hgate
    have hg' : ∀ g ∈ gs, Spec.Usable o s g := fun g' h' => hg g' (by simp [h'])
    simp only [List.map_cons, List.sum_cons] at hr
    simp only [List.map_cons, msckfLoop, hy, hok, Option.bind_eq_bind, Option.bind_some]
    cases ok with
    | false =>
      simp only [Bool.false_eq_true, if_false]
      exact msckfLoop_returns hW hI C hk gs B ids hg' hB hp (by omega)
    | true =>
      simp only [if_true]
      obtain ⟨A, hA⟩ := placeVars_returns hW hI (maxR := maxR) (row := B.rows) (m := y.m) y.H (by omega) y.order 0 (B.order, B.H) hB.nodup hp hyp
      have happ : ∃ B', append (szOf s) maxR (hxSize s) C.sig2 B y = some B' := by
        unfold append
        rw [hA, Option.bind_eq_bind, Option.bind_some, if_pos (by omega)]
        exact ⟨_, rfl⟩
      obtain ⟨B', hB'⟩ := happ
      obtain ⟨b1, b2, b3, -, -⟩ := append_spec hB hyn hact hB'
      rw [hB', Option.bind_some]
      refine msckfLoop_returns hW hI C hk gs B' _ hg' b1 (fun v hv => ?_) (by omega)
      rcases (b3 v).1 hv with h | h
      · exact hp v h
      · exact hyp v h

/-- **C95** (completes) The MSCKF update completes in every state of the program, for every feature representation and every set of tracks of existing
cameras, provided the triangulation anchors at an existing camera and clone: no lookup fails, the stack never exceeds the matrix allocated for it, no variance becomes negative. -/
theorem C95_returns (hlib : St.Spec.LibOK lib) (hs : St.Spec.ProgOK lib o s) {C : MCfg} (hsig : 0 < C.sig2) (hk : C.rep ≠ .unknown) (tri : Track → Option Fix) (fs : List Track)
    (hcams : ∀ f ∈ fs, (f.obs.map Prod.fst).Nodup ∧ ∀ c ∈ f.obs, c.1 < o.numCams)
    (htri : ∀ f x, tri f = some x → x.cam < o.numCams ∧ ∃ u, (x.t, u) ∈ s.clones) : ∃ s' used, msckfUpdate lib s C tri fs = some (s', used) := by
  have hW := St.prog_W hs.prog
  have hI := St.reach_inv hs.prog.reach
  have hcand : ∀ g ∈ Spec.candidates s tri fs, Spec.Usable o s g := by
    intro g hg
    simp only [Spec.candidates, List.mem_filterMap] at hg
    obtain ⟨f, hf, hg⟩ := hg
    split_ifs at hg with h2
    rw [Option.map_eq_some_iff] at hg
    obtain ⟨x, hx, rfl⟩ := hg
    have hin : (Spec.inWindow s f).obs.map Prod.fst = f.obs.map Prod.fst := by simp [Spec.inWindow, Function.comp_def]
    obtain ⟨t1, t2⟩ := htri _ _ hx
    refine ⟨by simp only [hin]; exact (hcams f hf).1, fun c hc => ?_, fun c hc m hm => ?_, h2, t1, t2⟩
    · have : c.1 ∈ (Spec.inWindow s f).obs.map Prod.fst := List.mem_map.2 ⟨c, hc, rfl⟩
      rw [hin] at this
      obtain ⟨d, hd, e⟩ := List.mem_map.1 this
      rw [← e]; exact (hcams f hf).2 d hd
    · simp only [Spec.inWindow, List.mem_map] at hc
      obtain ⟨d, hd, rfl⟩ := hc
      simpa using (List.mem_filter.1 hm).2
  unfold msckfUpdate
  simp only [located_candidates, Option.bind_eq_bind]
  obtain ⟨R, hR, hB, hp, hr⟩ := msckfLoop_returns (lib := lib) hW hI C hk (maxR := ((Spec.candidates s tri fs).map fun g => 2 * g.1.count).sum)
    (Spec.candidates s tri fs) .empty [] hcand (empty_ok s) (by simp [Big.empty]) (by simp [Big.empty])
  rw [hR, Option.bind_some]
  have hbound := plain_bound hW hI hB.nodup hp
  by_cases h1 : R.1.rows < 1
  · rw [if_pos h1]; exact ⟨_, _, rfl⟩
  rw [if_neg h1, if_neg (not_not.2 ⟨hr, hbound⟩)]
  by_cases h3 : (compress R.1.rows (totR (szOf s) R.1.order) R.1.H R.1.r).1 < 1
  · simp only [h3, if_true]; exact ⟨_, _, rfl⟩
  · simp only [h3, if_false]
    obtain ⟨L, hL⟩ := resolveAll_isSome.1 hB.act
    obtain ⟨ops, -, hok, hrun⟩ := hs
    have := St.C03_update_returns hlib o ops hok hrun R.1.order ⟨(compress R.1.rows (totR (szOf s) R.1.order) R.1.H R.1.r).1, totR (szOf s) R.1.order, (compress R.1.rows (totR (szOf s) R.1.order) R.1.H R.1.r).2.1⟩
      ⟨(compress R.1.rows (totR (szOf s) R.1.order) R.1.H R.1.r).1, (compress R.1.rows (totR (szOf s) R.1.order) R.1.H R.1.r).1, fun i j => C.sig2 * Mat.one i j⟩
      ⟨(compress R.1.rows (totR (szOf s) R.1.order) R.1.H R.1.r).1, (compress R.1.rows (totR (szOf s) R.1.order) R.1.H R.1.r).2.2⟩ L hL rfl rfl rfl
      (tot_totR hL).symm (isoN_sym _ _) (isoN_pd _ hsig)
    obtain ⟨s1, h1⟩ := Option.isSome_iff_exists.1 this
    rw [h1]
    exact ⟨_, _, rfl⟩

/-! ## a concrete case -/

theorem fold_res_zero (st : St) (order : List Var) (pG pGf : V3) (dl : M3) (xs : List (Var × Matrix (Fin 3) (Fin 6) ℝ)) (jf : ℕ) :
    ∀ (ms : List Meas) (A : Acc), (∀ i, A.res i = 0) → (∀ m ∈ ms, m.uv = Spec.pixel m.kind m.intr m.clone.val m.cal pG) →
    ∀ i, (ms.foldl (writeMeas st order pG pGf dl xs jf) A).res i = 0
  | [], A, hA, _, i => hA i
  | m :: ms, A, hA, h, i => by
    rw [List.foldl_cons]
    refine fold_res_zero st order pG pGf dl xs jf ms _ (fun j => ?_) (fun m' hm' => h m' (by simp [hm'])) i
    by_cases hj : 2 * A.c ≤ j ∧ j < 2 * A.c + 2
    · have := write_res st order pG pGf dl xs jf A m ⟨j - 2 * A.c, by omega⟩
      rw [show 2 * A.c + ((⟨j - 2 * A.c, by omega⟩ : Fin 2) : ℕ) = j by simp; omega] at this
      rw [this, h m (by simp)]; simp
    · rw [(write_other st order pG pGf dl xs jf A m hj).2.2]; exact hA j

/-- one camera, its extrinsics and intrinsics estimated. -/
def exO : St.Opts := ⟨false, false, false, false, true, true, 1, 11, 0⟩

/-- after loading a pinhole camera and taking clones at times 1 and 2. -/
theorem exState (lib : St.Lib) : ∃ s, St.Spec.ProgOK lib exO s ∧ (s.clones.map Prod.fst = [1, 2]) ∧
    (view s true fun _ => .radtan).clone 1 = some ⟨pose1, pose1⟩ ∧ (view s true fun _ => .radtan).clone 2 = some ⟨pose1, pose1⟩ ∧
    (view s true fun _ => .radtan).calib 0 = some pose1 ∧ (view s true fun _ => .radtan).cam 0 = some (.radtan, fun i => if i.val < 2 then 1 else 0) ∧
    s.slam = [] ∧ s.clones = [(1, 9), (2, 10)] := by
  let c1 : Val := .vec 8 fun i => if i < 2 then 1 else 0
  let s1 : St.State := { St.ctor exO with ts := 1, cam := fun j => if j = 0 then c1 else (St.ctor exO).cam j }
  have hcl : (St.ctor exO).clones = [] := by simp [St.ctor, St.ctorVars, exO, St.push, List.range_succ, St.ctorBase]
  have hnx : (St.ctor exO).next = 9 := by simp [St.ctor, St.ctorVars, exO, St.push, List.range_succ, St.ctorBase]
  have hop : (St.ctor exO).opts = exO := by simp [St.ctor, St.ctorVars, exO, St.push, List.range_succ, St.ctorBase]
  have hp1 : St.Spec.ProgOK lib exO s1 := by
    refine ⟨[.setCam 0 c1, .setTime 1], ?_, ⟨trivial, fun _ _ => ⟨trivial, fun _ _ => trivial⟩⟩, rfl⟩
    intro op hop
    simp only [List.mem_cons, List.not_mem_nil, or_false] at hop
    rcases hop with rfl | rfl <;> trivial
  obtain ⟨s2, h2⟩ := Prop_.augment_returns hp1.prog (by simp [s1, hcl]) 0
  have hp2 : St.Spec.ProgOK lib exO s2 := Prop_.progOK_step hp1 (op := .augment 0) trivial trivial h2
  obtain ⟨a0, a1, a2, a3, a4, a5, a6, a7, off, v, f, p1, p2, a8⟩ := St.augment_maps (St.reach_inv hp1.prog.reach) h2
  simp only [s1, hcl, hnx, hop, St.insertClone] at a1 a3 a4 a5 a7 a8
  let s3 : St.State := { s2 with ts := 2 }
  have hp3 : St.Spec.ProgOK lib exO s3 := Prop_.progOK_step hp2 (op := .setTime 2) trivial trivial rfl
  obtain ⟨s4, h4⟩ := Prop_.augment_returns hp3.prog (by simp [s3, a1]) 0
  have hp4 : St.Spec.ProgOK lib exO s4 := Prop_.progOK_step hp3 (op := .augment 0) trivial trivial h4
  obtain ⟨b0, b1, b2, b3, b4, b5, b6, b7, off', v', f', q1, q2, b8⟩ := St.augment_maps (St.reach_inv hp3.prog.reach) h4
  simp only [s3, a1, a3, a5] at b1 b3 b5 b7 b8
  have hc4 : s4.clones = [(1, 9), (2, 10)] := by rw [b1]; norm_num [St.insertClone]
  have hcam2 : s2.cam = s1.cam := by
    obtain ⟨_, t1, u, t2, t3⟩ := St.augment_some h2
    obtain ⟨_, _, _, _, _, _, _, _, _, _, _, rfl, rfl⟩ := St.clone_eq (St.reach_inv hp1.prog.reach) t2
    rcases t3 with ⟨_, rfl⟩ | ⟨_, x, b, d, _, _, _, _, _, rfl⟩ <;> rfl
  have hcam4 : s4.cam = s1.cam := by
    obtain ⟨_, t1, u, t2, t3⟩ := St.augment_some h4
    obtain ⟨_, _, _, _, _, _, _, _, _, _, _, rfl, rfl⟩ := St.clone_eq (St.reach_inv hp3.prog.reach) t2
    rcases t3 with ⟨_, rfl⟩ | ⟨_, x, b, d, _, _, _, _, _, rfl⟩ <;> exact hcam2
  have him : ((St.ctor exO).obj 0).val = .imu imu0 ∧ ((St.ctor exO).obj 0).fej = .imu imu0 ∧ ((St.ctor exO).obj 7).val = .pose St.idQuat 0 := by
    simp [St.ctor, St.ctorVars, exO, St.push, List.range_succ, St.ctorBase, St.heap0, St.intrUid, St.imuUid]
  have e1 : v = .pose ⟨0, 0, 0, 1⟩ 0 ∧ f = .pose ⟨0, 0, 0, 1⟩ 0 := by
    simp only [s1, St.imuUid, him.1, him.2.1, Val.part, Option.some.injEq, Prod.mk.injEq] at p1 p2
    exact ⟨p1.2.symm, p2.2.symm⟩
  have e2 : v' = .pose ⟨0, 0, 0, 1⟩ 0 ∧ f' = .pose ⟨0, 0, 0, 1⟩ 0 := by
    simp only [s3, St.imuUid, a7 0 (by norm_num), him.1, him.2.1, Val.part, Option.some.injEq, Prod.mk.injEq] at q1 q2
    exact ⟨q1.2.symm, q2.2.symm⟩
  have o9 : (s4.obj 9).val = .pose ⟨0, 0, 0, 1⟩ 0 ∧ (s4.obj 9).fej = .pose ⟨0, 0, 0, 1⟩ 0 := by
    rw [b7 9 (by norm_num)]; simp only [a8]; exact e1
  have o10 : (s4.obj 10).val = .pose ⟨0, 0, 0, 1⟩ 0 ∧ (s4.obj 10).fej = .pose ⟨0, 0, 0, 1⟩ 0 := by
    simp only [b8]; exact e2
  have o7 : (s4.obj 7).val = .pose St.idQuat 0 := by
    rw [b7 7 (by norm_num)]; simp only [a7 7 (by norm_num)]; exact him.2.2
  have hsl : (St.ctor exO).slam = [] := by simp [St.ctor, St.ctorVars, exO, St.push, List.range_succ, St.ctorBase]
  refine ⟨s4, hp4, by rw [hc4]; rfl, ?_, ?_, ?_, ?_, by rw [b2]; simp only [s3]; rw [a2]; exact hsl, hc4⟩
  · simp [view, cloneUid, hc4, o9.1, o9.2, valPose, pose1]
  · simp [view, cloneUid, hc4, o10.1, o10.2, valPose, pose1]
  · simp [view, b3, exO, o7, valPose, pose1, St.idQuat]
  · simp [view, b3, exO, hcam4, s1, c1, valIntr]

/-- the hypotheses of C95 are met, and a feature is used: a point seen straight ahead from two clones, with first-estimate Jacobians, camera pose and
intrinsics estimated, in the global representation. -/
example (hlib : St.Spec.LibOK lib) (hq : 0 ≤ lib.chi2 1) : ∃ s s' C tri fs, St.Spec.ProgOK lib exO s ∧ (∀ f ∈ fs, (f.obs.map Prod.fst).Nodup) ∧ 0 < C.sig2 ∧
    msckfUpdate lib s C tri fs = some (s', [7]) := by
  obtain ⟨s, hs, hc, hv1, hv2, hv3, hv4, -⟩ := exState lib
  let C : MCfg := ⟨true, fun _ => .radtan, .global3d, 1, 1⟩
  let f : Track := ⟨7, [(0, [(1, 0), (2, 0)])]⟩
  let x : Fix := ⟨0, 1, ![0, 0, 1], ![0, 0, 1]⟩
  have hmem : ∀ t : ℝ, t = 1 ∨ t = 2 → ∃ u, (t, u) ∈ s.clones := by
    intro t ht
    have : t ∈ s.clones.map Prod.fst := by rw [hc]; simpa using ht
    obtain ⟨c, h, e⟩ := List.mem_map.1 this
    exact ⟨c.2, by rw [← e]; exact h⟩
  have hin : Spec.inWindow s f = f := by
    simp [Spec.inWindow, f, hmem 1 (.inl rfl), hmem 2 (.inr rfl)]
  obtain ⟨s', used, h⟩ := C95_returns hlib hs (C := C) one_pos (by simp [C]) (fun _ => some x) [f]
    (by simp [f, exO]) (by rintro g y e; obtain rfl := Option.some.inj e; exact ⟨by simp [x, exO], hmem 1 (.inl rfl)⟩)
  obtain ⟨items, i1, i2, i3, -⟩ := C95_msckf_update hlib hs (C := C) one_pos (fun _ => some x) [f] (by simp [f]) h
  have hcand : Spec.candidates s (fun _ => some x) [f] = [(f, x)] := by
    simp only [Spec.candidates, List.filterMap_cons, hin, List.filterMap_nil]; simp [f]
  rw [hcand] at i1
  obtain ⟨i, rfl⟩ : ∃ i, items = [i] := by
    cases items with
    | nil => simp at i1
    | cons i t =>
      cases t with
      | nil => exact ⟨i, rfl⟩
      | cons j t => simp at i1
  simp only [List.map_cons, List.map_nil, List.cons.injEq, Prod.mk.injEq, and_true] at i1
  have hi := i2 i (by simp)
  have hrow : i.out.rows - 3 = 1 := by
    have := hi.rows; rw [i1.1] at this; simp [f] at this; omega
  have hR : pose1.R = 1 := by
    unfold Pose.R pose1
    funext i j; fin_cases i <;> fin_cases j <;> simp [quat2Rot, skew, outer, Quat.vec] <;> norm_num
  have hres : ∀ k, i.out.res k = 0 := by
    have ho := hi.out
    rw [i1.1, i1.2] at ho
    unfold full at ho
    simp only [Option.bind_eq_bind, Option.bind_eq_some_iff] at ho
    obtain ⟨_, _, ms, hms, g, hg, j, _, ho⟩ := ho
    rw [← Option.some.inj ho]
    have hgx : g = ![0, 0, 1] := by
      simp only [toFeat, msckfRep, C, globalPos, isRelative] at hg
      simpa [x] using hg.symm
    refine fold_res_zero _ _ _ _ _ _ _ _ _ (fun _ => rfl) fun m hm => ?_
    have hms' : ms = [⟨0, 1, 0, ⟨pose1, pose1⟩, pose1, .radtan, fun i => if i.val < 2 then 1 else 0⟩,
        ⟨0, 2, 0, ⟨pose1, pose1⟩, pose1, .radtan, fun i => if i.val < 2 then 1 else 0⟩] := by
      have e : flat (toFeat (msckfRep C.rep) f x) = [(0, 1, 0), (0, 2, 0)] := by simp [flat, toFeat, msckfRep, C, isRelative, f]
      rw [e] at hms
      simp only [List.mapM_cons, List.mapM_nil, look, C, hv1, hv2, hv3, hv4] at hms
      exact (Option.some.inj hms).symm
    have hpix : (0 : Cam.V2) = Spec.pixel .radtan (fun i => if i.val < 2 then 1 else 0) pose1 pose1 g := by
      rw [hgx]
      simp only [Spec.pixel, Spec.inCam, hR, Cam.distort, Cam.radtan]
      funext i; fin_cases i <;> simp [pose1]
    rw [hms'] at hm
    simp only [List.mem_cons, List.not_mem_nil, or_false] at hm
    rcases hm with rfl | rfl <;> exact hpix
  have hr0 : i.r = 0 := by
    have : Spec.vec i.out.rows i.out.res = 0 := by funext k; exact hres k
    unfold Spec.Item.r
    rw [this, Matrix.mulVec_zero]
  have hpass : i.Pass lib s C := by
    unfold Spec.Item.Pass Spec.Item.stat
    rw [hr0]
    simp only [zero_dotProduct, C, one_mul]
    rw [hrow]; exact hq
  refine ⟨s, s', C, fun _ => some x, [f], hs, by simp [f], one_pos, ?_⟩
  rw [h, i3]
  simp [hpass, i1.1, f]

end Verif.Upd
