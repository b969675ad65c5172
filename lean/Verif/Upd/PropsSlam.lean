import Verif.Upd.Slam
import Verif.Upd.PropsMsckf

/-!
# The SLAM landmark update as a whole (C96)
-/

set_option linter.unusedVariables false
set_option linter.unusedSectionVars false
open Classical

namespace Verif.Upd

open Verif Mat Verif.Land Verif.Types Finset

variable {lib : St.Lib} {o : St.Opts} {s s' : St.State} {M : ℕ → LMeta}

/-! ## specification -/

namespace Spec

/-- the track of a landmark has a measurement (two for a landmark that is only a depth). -/
def Enough (s : St.State) (M : ℕ → LMeta) (f : Track) : Prop :=
  ∃ u, (f.id, u) ∈ s.slam ∧ (if (M u).rep = .anchoredSingle then 2 else 1) ≤ (f.obs.map fun c => c.2.length).sum

/-- the tracks a landmark update uses: those with enough measurements at clone times. -/
noncomputable def slamTracks (s : St.State) (M : ℕ → LMeta) (fs : List Track) : List Track := (fs.map (inWindow s)).filter fun f => decide (Enough s M f)

/-- the landmark objects fit their representation: one number for a single depth, otherwise three. -/
def Sizes (s : St.State) (M : ℕ → LMeta) : Prop := ∀ e ∈ s.slam, (s.obj e.2).val.size = if (M e.2).rep = .anchoredSingle then 1 else 3

/-- a linearised landmark observation: track, landmark variable, number `b` of landmark directions that are eliminated (two for a single depth), stacked
Jacobians and residual of C79, where its variables are in the state, the landmark last, and a matrix `N`. -/
structure SItem where
  f : Track
  u : ℕ
  b : ℕ
  out : Out
  refs : List St.Ref
  L : List (ℕ × ℕ)
  N : Matrix (Fin (out.rows - b)) (Fin out.rows) ℝ

/-- the data belong to the track and the landmark at its current estimate; the rows of `N` are orthonormal and annihilate the bearing of a single-depth
landmark, and span that null space; without single depth nothing is eliminated. -/
structure SItem.OK (s : St.State) (M : ℕ → LMeta) (C : SCfg) (i : SItem) : Prop where
  lm : (i.f.id, i.u) ∈ s.slam
  b : i.b = if (M i.u).rep = .anchoredSingle then 2 else 0
  out : ∃ g, slamFeat s M i.u i.f = some g ∧ full (view s C.fej C.kind) g = some i.out
  rows : i.out.rows = 2 * (i.f.obs.map fun c => c.2.length).sum
  refs : i.out.order.mapM (refOf s) = some i.refs
  L : St.resolveAll s (i.refs ++ [(i.u, .self)]) = some i.L
  nodup : (i.refs ++ [(i.u, Sub.self)]).Nodup
  orth : i.N * i.N.transpose = 1
  null : i.N * mat i.out.rows i.b i.out.Hf = 0
  span : (∀ x, (mat i.out.rows i.b i.out.Hf).mulVec x = 0 → x = 0) → ∀ y, Matrix.vecMul y (mat i.out.rows i.b i.out.Hf) = 0 → ∃ z, y = Matrix.vecMul z i.N

/-- the measurement's Jacobian with respect to the variables and, behind them, the landmark's remaining directions. -/
noncomputable def SItem.H (i : SItem) : Mat := fun r c => if c < total i.out.order then i.out.Hx r c else i.out.Hf r (i.b + (c - total i.out.order))

/-- the measurement of the whole error state. -/
noncomputable def SItem.F (s : St.State) (i : SItem) : Matrix (Fin (i.out.rows - i.b)) (Fin s.n) ℝ := i.N * St.Spec.full i.L i.out.rows s.n i.H

/-- its residual. -/
noncomputable def SItem.r (i : SItem) : Fin (i.out.rows - i.b) → ℝ := i.N.mulVec (vec i.out.rows i.out.res)

/-- its pixel noise: that of tags for the ids below the number of tags. -/
noncomputable def SItem.sig (s : St.State) (C : SCfg) (i : SItem) : ℝ := if i.f.id < s.opts.maxAruco then C.sigA else C.sigS

/-- its squared Mahalanobis distance from the prior. -/
noncomputable def SItem.stat (s : St.State) (C : SCfg) (i : SItem) : ℝ :=
  dotProduct i.r ((i.F s * St.Spec.cov s * (i.F s).transpose + i.sig s C • (1 : Matrix _ _ ℝ))⁻¹.mulVec i.r)

/-- the chi-square test. -/
def SItem.Pass (lib : St.Lib) (s : St.State) (C : SCfg) (i : SItem) : Prop :=
  i.stat s C ≤ (if i.f.id < s.opts.maxAruco then C.multA else C.multS) * lib.chi2 (i.out.rows - i.b)

end Spec

/-! ## one landmark -/

theorem slamUid_mem (hW : St.W o s) {fid u : ℕ} : slamUid s fid = some u ↔ (fid, u) ∈ s.slam := by
  unfold slamUid
  rw [Option.map_eq_some_iff]
  constructor
  · rintro ⟨c, hc, rfl⟩
    have h1 := List.mem_of_find?_eq_some hc
    have h2 : c.1 = fid := by simpa using List.find?_some hc
    rw [← h2]; exact h1
  · intro h
    have : (s.slam.find? fun c => decide (c.1 = fid)).isSome := by
      rw [List.find?_isSome]; exact ⟨(fid, u), h, by simp⟩
    obtain ⟨c, hc⟩ := Option.isSome_iff_exists.1 this
    refine ⟨c, hc, ?_⟩
    have h1 := List.mem_of_find?_eq_some hc
    have h2 : c.1 = fid := by simpa using List.find?_some hc
    by_contra hne
    have : Std.Symm (fun a b : ℕ × ℕ => a.1 ≠ b.1) := ⟨fun _ _ h => h.symm⟩
    exact hW.skey.forall h1 h (fun e => hne (by rw [e])) h2

theorem slamFeat_spec {u : ℕ} {f : Track} {g : Feat} (h : slamFeat s M u f = some g) : g.obs = f.obs ∧ g.rep = msckfRep (M u).rep := by
  unfold slamFeat at h
  simp only [Option.bind_eq_bind, Option.bind_eq_some_iff] at h
  obtain ⟨p, -, pf, -, h⟩ := h
  obtain rfl := (Option.some.inj h).symm
  split_ifs <;> exact ⟨rfl, rfl⟩

theorem hstack_eq (rows w k : ℕ) (A B : Mat) {i j : ℕ} (hi : i < rows) (hj : j < w + k) : hstack rows w k A B i j = if j < w then A i j else B i (j - w) := by
  unfold hstack setBlock
  by_cases h : j < w
  · rw [if_neg (by omega), if_pos h]
  · rw [if_pos (by omega), if_neg h, Nat.sub_zero]

theorem total_refs (hW : St.W o s) {fej : Bool} {kind : ℕ → Cam.Kind} {f : Feat} {out : Out} (hout : full (view s fej kind) f = some out)
    (hcams : (f.obs.map Prod.fst).Nodup) {refs : List St.Ref} (hrefs : out.order.mapM (refOf s) = some refs) : total out.order = totR (szOf s) refs := by
  obtain ⟨e1, -, h1, h2⟩ := full_some hout
  obtain ⟨hnd, hmem⟩ := layout_spec (view s fej kind) f hcams
  have hcam : ∀ v ∈ out.order, camOf o v := by
    intro v hv
    rw [e1] at hv
    rcases (hmem v).1 hv with ⟨c, hc, ⟨-, rfl⟩ | ⟨-, rfl⟩ | ⟨m, hm, rfl⟩⟩ | ⟨hr, rfl | ⟨-, c, hc, rfl⟩⟩
    · rw [camOf, ← hW.opts]; exact view_calib_lt (h1 c hc)
    · rw [camOf, ← hW.opts]; exact view_calib_lt (h1 c hc)
    · trivial
    · trivial
    · obtain ⟨c', hc', h⟩ := h2 hr
      rw [hc] at hc'
      obtain rfl := Option.some.inj hc'
      rw [camOf, ← hW.opts]; exact view_calib_lt h
  clear e1 hout
  have self : ∀ x : Val, x.part .self = some (0, x) := fun x => by cases x <;> rfl
  have hsz : ∀ v r, camOf o v → refOf s v = some r → szOf s r = v.size := by
    intro v r hc hr
    cases v with
    | clone t =>
      simp only [refOf, Option.map_eq_some_iff] at hr
      obtain ⟨u, hu, rfl⟩ := hr
      obtain ⟨q, p, hp⟩ := hW.cpose _ (cloneUid_mem hu)
      simp only at hp
      simp [szOf, hp, Val.part, Val.size, Var.size]
    | calib c =>
      simp only [refOf, Option.some.injEq] at hr
      subst hr
      obtain ⟨q, p, hp⟩ := calib_kind hW hc
      simp [szOf, hp, Val.part, Val.size, Var.size]
    | intr c =>
      simp only [refOf, Option.some.injEq] at hr
      subst hr
      have hk := hW.kind (St.intrUid c) (by have : c < o.numCams := hc; unfold St.base St.intrUid; omega)
      have e : (St.heap0 (St.intrUid c)).val = .vec 8 fun _ => 0 := by
        have hi : St.intrUid c = 8 + 2 * c := rfl
        simp only [St.heap0]
        rw [if_neg (by omega), if_neg (by omega), if_neg (by omega), if_neg (by omega), if_neg (by omega), if_neg (by omega)]
      have := St.sameKind_size hk
      rw [e] at this
      simp only [szOf, self]
      rw [← this]; rfl
  generalize out.order = l at hrefs hcam
  clear hmem hnd
  induction l generalizing refs with
  | nil => simp at hrefs; subst hrefs; rfl
  | cons a t ih =>
    rw [List.mapM_cons] at hrefs
    simp only [Option.bind_eq_bind, Option.bind_eq_some_iff] at hrefs
    obtain ⟨b, hb, bs, hbs, h⟩ := hrefs
    obtain rfl := (Option.some.inj h).symm
    have := ih hbs fun v hv => hcam v (by simp [hv])
    simp only [total, totR, List.map_cons, List.sum_cons] at this ⊢
    rw [this, hsz a b (hcam a (by simp)) hb]

theorem refs_lm (hW : St.W o s) {fej : Bool} {kind : ℕ → Cam.Kind} {f : Feat} {out : Out} (hout : full (view s fej kind) f = some out)
    (hcams : (f.obs.map Prod.fst).Nodup) {refs : List St.Ref} (hrefs : out.order.mapM (refOf s) = some refs) {fid u : ℕ} (hu : (fid, u) ∈ s.slam) :
    (refs ++ [(u, Sub.self)]).Nodup := by
  rw [List.nodup_append]
  refine ⟨refs_nodup hW hout hcams hrefs, by simp, fun a ha b hb e => ?_⟩
  rw [List.mem_singleton] at hb
  have h1 := (refs_plain hW hout hcams hrefs a ha).2.2
  rw [e, hb, (hW.sin _ hu).2] at h1
  cases h1

theorem full_congr {L : List (ℕ × ℕ)} {m n : ℕ} {A B : Mat} (h : ∀ i j, i < m → j < St.tot L → A i j = B i j) : St.Spec.full L m n A = St.Spec.full L m n B := by
  rw [full_factor, full_factor]
  congr 1
  ext i j
  exact h i j i.2 j.2

/-- the system of a landmark. -/
theorem slamSys_spec (hW : St.W o s) (hsz : Spec.Sizes s M) {C : SCfg} {f : Track} {u : ℕ} (hu : (f.id, u) ∈ s.slam) {g : Feat} (hg : slamFeat s M u f = some g)
    {y : Sys} (hcams : (f.obs.map Prod.fst).Nodup) (h : slamSys s C.fej C.kind u (M u).rep g = some y)
    {L : List (ℕ × ℕ)} (hL : St.resolveAll s y.order = some L) :
    ∃ i : Spec.SItem, i.f = f ∧ i.u = u ∧ i.OK s M C ∧ y.order = i.refs ++ [(i.u, .self)] ∧ i.L = L ∧ ∃ hm : y.m = i.out.rows - i.b,
      (∀ k : Fin y.m, ∀ c : Fin s.n, St.Spec.full L y.m s.n y.H k c = i.F s (Fin.cast hm k) c) ∧ ∀ k : Fin y.m, y.r k = i.r (Fin.cast hm k) := by
  obtain ⟨ho, hr⟩ := slamFeat_spec hg
  unfold slamSys at h
  simp only [Option.bind_eq_bind, Option.bind_eq_some_iff] at h
  obtain ⟨out, hout, refs, hrefs, h⟩ := h
  obtain ⟨-, erows, -, -⟩ := full_some hout
  have erows' : out.rows = 2 * (f.obs.map fun c => c.2.length).sum := by rw [erows, flat_length, ho]
  have hcams' : (g.obs.map Prod.fst).Nodup := by rw [ho]; exact hcams
  have htot := total_refs hW hout hcams' hrefs
  have hnd := refs_lm hW hout hcams' hrefs hu
  have self : ∀ x : Val, x.part .self = some (0, x) := fun x => by cases x <;> rfl
  have hsu : szOf s (u, .self) = if (M u).rep = .anchoredSingle then 1 else 3 := by
    simp only [szOf, self]; exact hsz _ hu
  by_cases hs : (M u).rep = .anchoredSingle
  · rw [if_pos hs] at h hsu
    simp only [Option.bind_eq_some_iff] at h
    obtain ⟨p, hp, h⟩ := h
    obtain rfl := (Option.some.inj h).symm
    simp only at hL
    have hw : St.tot L = total out.order + 1 := by
      rw [tot_totR hL, totR_append, htot]; simp [totR, hsu]
    obtain ⟨q1, q2⟩ := C30_projection out.rows 2 out.Hf
    have h2 : 2 ≤ out.rows := by
      by_contra hc
      rw [q1 (by omega)] at hp
      cases hp
    obtain ⟨N, n1, n2, n3, n4⟩ := q2 h2
    obtain ⟨H', r', e, eH, er⟩ := n3 (St.tot L) (hstack out.rows (total out.order) 1 out.Hx (Mat.block 0 2 out.Hf)) out.res
    rw [e] at hp
    obtain rfl := (Option.some.inj hp).symm
    refine ⟨⟨f, u, 2, out, refs, L, N⟩, rfl, rfl, ⟨hu, by simp [hs], ⟨g, hg, hout⟩, erows', hrefs, hL, hnd, n1, n2, n4⟩, rfl, rfl, rfl, ?_, ?_⟩
    · intro k c
      have hF : St.Spec.full L out.rows s.n (Spec.SItem.H ⟨f, u, 2, out, refs, L, N⟩) =
          St.Spec.full L out.rows s.n (hstack out.rows (total out.order) 1 out.Hx (Mat.block 0 2 out.Hf)) := by
        refine full_congr fun i j hi hj => ?_
        rw [hstack_eq _ _ _ _ _ hi (by omega)]
        simp [Spec.SItem.H, Mat.block]
      simp only [Spec.SItem.F, Fin.cast_eq_self]
      rw [hF, full_factor, full_factor, ← Matrix.mul_assoc, ← eH]
    · intro k
      exact congr_fun er k
  · rw [if_neg hs] at h hsu
    obtain rfl := (Option.some.inj h).symm
    simp only at hL
    have hw : St.tot L = total out.order + 3 := by
      rw [tot_totR hL, totR_append, htot]; simp [totR, hsu]
    refine ⟨⟨f, u, 0, out, refs, L, (1 : Matrix (Fin out.rows) (Fin out.rows) ℝ)⟩, rfl, rfl, ⟨hu, by simp [hs], ⟨g, hg, hout⟩, erows', hrefs, hL, hnd, ?_, ?_, ?_⟩, rfl, rfl, rfl, ?_, ?_⟩
    · simp only [Nat.sub_zero]; simp
    · ext i j; exact j.elim0
    · intro _ y _
      exact ⟨y, by simp only [Nat.sub_zero]; simp⟩
    · intro k c
      have hF : St.Spec.full L out.rows s.n (Spec.SItem.H ⟨f, u, 0, out, refs, L, (1 : Matrix (Fin out.rows) (Fin out.rows) ℝ)⟩) =
          St.Spec.full L out.rows s.n (hstack out.rows (total out.order) 3 out.Hx out.Hf) := by
        refine full_congr fun i j hi hj => ?_
        rw [hstack_eq _ _ _ _ _ hi (by omega)]
        simp [Spec.SItem.H]
      simp only [Spec.SItem.F]
      rw [hF]
      simp only [Nat.sub_zero]
      rw [Matrix.one_mul]; rfl
    · intro k
      simp only [Spec.SItem.r, Nat.sub_zero]
      rw [Matrix.one_mulVec]; rfl

/-! ## the loop -/

/-- information matrix of a stack. -/
noncomputable def Big.wgram (s : St.State) (B : Big) : Matrix (Fin s.n) (Fin s.n) ℝ :=
  Matrix.of fun c c' => ∑ r ∈ range B.rows, B.row s r c * B.row s r c' * (1 / B.R r)

/-- information vector of a stack. -/
noncomputable def Big.wrhs (s : St.State) (B : Big) : Fin s.n → ℝ := fun c => ∑ r ∈ range B.rows, B.row s r c * B.r r * (1 / B.R r)

theorem append_wgram {maxR maxC : ℕ} {sig2 : ℝ} {B B' : Big} {y : Sys} (hB : BigOK s B) (hn : y.order.Nodup)
    {L : List (ℕ × ℕ)} (hL : St.resolveAll s y.order = some L) (h : append (szOf s) maxR maxC sig2 B y = some B') :
    B'.wgram s = B.wgram s + (1 / sig2) • ((St.Spec.full L y.m s.n y.H).transpose * St.Spec.full L y.m s.n y.H) ∧
      B'.wrhs s = B.wrhs s + (1 / sig2) • (St.Spec.full L y.m s.n y.H).transpose.mulVec (Spec.vec y.m y.r) := by
  have ha := resolveAll_isSome.2 ⟨L, hL⟩
  rw [Sys.full_row hn hL]
  constructor
  · ext c c'
    have := append_sum hB hn ha h (fun ρ _ w => ρ c * ρ c' * (1 / w))
    simp only [Big.wgram, Matrix.of_apply, Matrix.add_apply, Matrix.smul_apply, Matrix.mul_apply, Matrix.transpose_apply, toM]
    rw [this, ← Finset.sum_mul, smul_eq_mul, mul_comm (1 / sig2), Finset.sum_range (fun k => y.row s k c * y.row s k c')]
  · ext c
    have := append_sum hB hn ha h (fun ρ r w => ρ c * r * (1 / w))
    simp only [Big.wrhs, Pi.add_apply, Pi.smul_apply, Matrix.mulVec, dotProduct, Matrix.transpose_apply, toM, Spec.vec]
    rw [this, ← Finset.sum_mul, smul_eq_mul, mul_comm (1 / sig2), Finset.sum_range (fun k => y.row s k c * y.r k)]

/-- the landmark objects only differ in their counter. -/
def SameLm (M M' : ℕ → LMeta) : Prop := ∀ v, ∃ n, M' v = { M v with fails := n }

theorem slamFeat_same {M' : ℕ → LMeta} (h : SameLm M M') (u : ℕ) (f : Track) : slamFeat s M' u f = slamFeat s M u f ∧ (M' u).rep = (M u).rep := by
  obtain ⟨n, hn⟩ := h u
  have : lmOf s M' u = lmOf s M u := by simp [lmOf, hn]
  unfold slamFeat
  rw [this, hn]
  exact ⟨rfl, rfl⟩

/-- failed tests of a landmark that is no tag. -/
noncomputable def Spec.misses (lib : St.Lib) (s : St.State) (C : SCfg) (items : List Spec.SItem) (u : ℕ) : ℕ :=
  (items.filter fun i => decide (i.u = u ∧ ¬ i.Pass lib s C ∧ ¬ i.f.id < s.opts.maxAruco)).length

theorem slamLoop_spec (hlib : St.Spec.LibOK lib) (hs : St.Spec.ReachOK lib s) (hW : St.W o s) (hsz : Spec.Sizes s M) {C : SCfg}
    (hS : 0 < C.sigS) (hA : 0 < C.sigA) {maxR maxC : ℕ} :
    ∀ (fs : List Track) (A R : SAcc), (∀ f ∈ fs, (f.obs.map Prod.fst).Nodup) → BigOK s A.B → (∀ i, 0 < A.B.R i) → SameLm M A.M →
    slamLoop lib s C maxR maxC fs A = some R →
    ∃ items : List Spec.SItem, items.map (fun i => i.f) = fs ∧ (∀ i ∈ items, i.OK s M C) ∧
      BigOK s R.B ∧ (∀ i, 0 < R.B.R i) ∧ R.used = A.used ++ (items.filter fun i => decide (i.Pass lib s C)).map (fun i => i.f.id) ∧
      R.B.rows = A.B.rows + ((items.filter fun i => decide (i.Pass lib s C)).map fun i => i.out.rows - i.b).sum ∧
      R.B.wgram s = A.B.wgram s + ((items.filter fun i => decide (i.Pass lib s C)).map fun i => (1 / i.sig s C) • ((i.F s).transpose * i.F s)).sum ∧
      R.B.wrhs s = A.B.wrhs s + ((items.filter fun i => decide (i.Pass lib s C)).map fun i => (1 / i.sig s C) • (i.F s).transpose.mulVec i.r).sum ∧
      ∀ u, R.M u = { A.M u with fails := (A.M u).fails + Spec.misses lib s C items u }
  | [], A, R, _, hB, hpos, hM, h => by
    simp only [slamLoop, Option.some.injEq] at h
    subst h
    exact ⟨[], rfl, by simp, hB, hpos, by simp, by simp, by simp, by simp, by simp [Spec.misses]⟩
  | f :: fs, A, R, hc, hB, hpos, hM, h => by
    simp only [slamLoop, Option.bind_eq_bind, Option.bind_eq_some_iff] at h
    obtain ⟨u, hu, g, hg, y, hy, ok, hok, h⟩ := h
    rw [(slamFeat_same hM u f).1] at hg
    rw [(slamFeat_same (s := s) hM u f).2] at hy
    have hu' := (slamUid_mem hW).1 hu
    have hsig : 0 < C.sig s f.id := by unfold SCfg.sig; split_ifs <;> assumption
    obtain ⟨L, hL, hgate⟩ := gate_spec hlib hs hsig hok
    obtain ⟨i, e1, e2, hi, e3, e4, hm, hF, hr⟩ := slamSys_spec hW hsz hu' hg (hc f (by simp)) hy hL
    obtain ⟨c1, c2, c3⟩ := cast_gram hm _ _ (Spec.vec y.m y.r) _ hF hr
    have hisig : i.sig s C = C.sig s f.id := by unfold Spec.SItem.sig SCfg.sig; rw [e1]
    have hpass : ok = true ↔ i.Pass lib s C := by
      rw [hgate, c3]; unfold Spec.SItem.Pass Spec.SItem.stat; rw [hm, hisig, e1]; rfl
    have hc' : ∀ g ∈ fs, (g.obs.map Prod.fst).Nodup := fun g' h' => hc g' (by simp [h'])
    have hyn : y.order.Nodup := by rw [e3]; exact hi.nodup
    cases ok with
    | false =>
      simp only [Bool.false_eq_true, if_false] at h
      have hM' : SameLm M (if f.id < s.opts.maxAruco then A.M else bump A.M u) := by
        split_ifs
        · exact hM
        · intro v
          obtain ⟨n, hn⟩ := hM v
          by_cases hv : v = u
          · subst hv; exact ⟨n + 1, by simp [bump, hn]⟩
          · exact ⟨n, by simp [bump, hv, hn]⟩
      obtain ⟨items, i1, i2, i3, i3', i4, i5, i7, i8, i9⟩ := slamLoop_spec hlib hs hW hsz hS hA fs { A with M := if f.id < s.opts.maxAruco then A.M else bump A.M u } R hc' hB hpos hM' h
      have hnp : ¬ i.Pass lib s C := fun hp => by simpa using hpass.2 hp
      have hfil : (i :: items).filter (fun i => decide (i.Pass lib s C)) = items.filter fun i => decide (i.Pass lib s C) := by
        rw [List.filter_cons, if_neg (by simpa using hnp)]
      refine ⟨i :: items, by rw [List.map_cons, i1, e1], ?_, i3, i3', ?_, ?_, ?_, ?_, fun v => ?_⟩
      · intro j hj
        rcases List.mem_cons.1 hj with rfl | hj
        · exact hi
        · exact i2 j hj
      all_goals first | (rw [hfil]; assumption) | skip
      rw [i9 v]
      have hcount : Spec.misses lib s C (i :: items) v = Spec.misses lib s C items v + if u = v ∧ ¬ f.id < s.opts.maxAruco then 1 else 0 := by
        unfold Spec.misses
        rw [List.filter_cons]
        simp only [e1, e2, hnp, not_false_eq_true, true_and]
        split_ifs with h1 h2 h2
        · simp
        · exact absurd (by simpa using h1) h2
        · exact absurd (by simpa using h2) h1
        · simp
      rw [hcount]
      by_cases ht : f.id < s.opts.maxAruco
      · simp [ht]
      · by_cases hv : v = u
        · subst hv; simp [ht, bump]; omega
        · have : ¬ u = v := fun e => hv e.symm
          simp [ht, bump, hv, this]
    | true =>
      simp only [if_true, Option.bind_eq_some_iff] at h
      obtain ⟨B', hB', h⟩ := h
      obtain ⟨b1, b2, b3, b4, b5⟩ := append_spec hB hyn (resolveAll_isSome.2 ⟨L, hL⟩) hB'
      obtain ⟨g1, g2⟩ := append_wgram hB hyn hL hB'
      have hpos' : ∀ i, 0 < B'.R i := by
        intro k
        by_cases h1 : k < A.B.rows
        · rw [(b4 k h1).2.2]; exact hpos k
        · by_cases h2 : k < A.B.rows + y.m
          · have := (b5 (k - A.B.rows) (by omega)).2.2
            rw [show A.B.rows + (k - A.B.rows) = k by omega] at this
            rw [this]; exact hsig
          · rw [b1.noise k (by omega)]; exact one_pos
      obtain ⟨items, i1, i2, i3, i3', i4, i5, i7, i8, i9⟩ := slamLoop_spec hlib hs hW hsz hS hA fs ⟨B', A.used ++ [f.id], A.M⟩ R hc' b1 hpos' hM h
      have hp : i.Pass lib s C := hpass.1 rfl
      have hfil : (i :: items).filter (fun i => decide (i.Pass lib s C)) = i :: items.filter fun i => decide (i.Pass lib s C) := by
        rw [List.filter_cons, if_pos (by simpa using hp)]
      refine ⟨i :: items, by rw [List.map_cons, i1, e1], ?_, i3, i3', ?_, ?_, ?_, ?_, fun v => ?_⟩
      · intro j hj
        rcases List.mem_cons.1 hj with rfl | hj
        · exact hi
        · exact i2 j hj
      · rw [hfil, i4, List.map_cons, e1]; simp
      · rw [hfil, i5, b2, List.map_cons, List.sum_cons, hm, add_assoc]
      · rw [hfil, i7, g1, c1, List.map_cons, List.sum_cons, add_assoc, hisig]
      · rw [hfil, i8, g2, c2, List.map_cons, List.sum_cons, add_assoc, hisig]
      · rw [i9 v]
        have : Spec.misses lib s C (i :: items) v = Spec.misses lib s C items v := by
          unfold Spec.misses
          rw [List.filter_cons, if_neg (by simp [hp])]
        rw [this]

/-! ## the whole update -/

theorem clean_inWindow (f : Track) : f.clean s = Spec.inWindow s f := by
  simp only [Track.clean, Spec.inWindow, List.mem_map, Prod.exists, exists_and_right, exists_eq_right]

theorem filter_dec_pos {α : Type*} {p : α → Prop} {i : DecidablePred p} {a : α} {l : List α} (h : p a) :
    (a :: l).filter (fun x => @decide (p x) (i x)) = a :: l.filter fun x => @decide (p x) (i x) :=
  List.filter_cons_of_pos (decide_eq_true h)

theorem filter_dec_neg {α : Type*} {p : α → Prop} {i : DecidablePred p} {a : α} {l : List α} (h : ¬ p a) :
    (a :: l).filter (fun x => @decide (p x) (i x)) = l.filter fun x => @decide (p x) (i x) :=
  List.filter_cons_of_neg (by simpa using h)

theorem slamClean_spec (hW : St.W o s) : ∀ {fs : List Track} {cs : List (Track × ℕ)}, slamClean s M fs = some cs →
    (∀ f ∈ fs, ∃ u, (f.id, u) ∈ s.slam) ∧
    (cs.filter fun c => decide (¬ c.1.count < 1 ∧ ¬ c.1.count < c.2)).map Prod.fst = Spec.slamTracks s M fs ∧
    ((cs.filter fun c => decide (c.1.count < 1 ∨ ¬ c.1.count < c.2)).map fun c => c.1.id) =
      ((fs.map (Spec.inWindow s)).filter fun f => decide ((f.obs.map fun c => c.2.length).sum = 0 ∨ Spec.Enough s M f)).map fun f => f.id
  | [], cs, h => by
    simp [slamClean] at h; subst h; simp [Spec.slamTracks]
  | f :: t, cs, h => by
    unfold slamClean at h
    rw [List.mapM_cons] at h
    simp only [Option.bind_eq_bind, Option.bind_eq_some_iff] at h
    obtain ⟨c, ⟨u, hu, hc⟩, bs, hbs, h⟩ := h
    obtain rfl := (Option.some.inj h).symm
    obtain rfl := (Option.some.inj hc).symm
    have hu' := (slamUid_mem hW).1 hu
    obtain ⟨h0, h1, h2⟩ := slamClean_spec hW (fs := t) hbs
    have hen : Spec.Enough s M (Spec.inWindow s f) ↔ required (M u).rep ≤ ((Spec.inWindow s f).obs.map fun c => c.2.length).sum := by
      constructor
      · rintro ⟨v, hv, h⟩
        have : slamUid s f.id = some v := (slamUid_mem hW).2 hv
        rw [hu] at this
        obtain rfl := Option.some.inj this
        exact h
      · exact fun h => ⟨u, hu', h⟩
    have hreq : 1 ≤ required (M u).rep := by unfold required; split_ifs <;> omega
    refine ⟨fun g hg => ?_, ?_, ?_⟩
    · rcases List.mem_cons.1 hg with rfl | hg
      · exact ⟨u, hu'⟩
      · exact h0 g hg
    · rw [clean_inWindow]
      unfold Spec.slamTracks at h1 ⊢
      rw [List.map_cons]
      by_cases hb : required (M u).rep ≤ (Spec.inWindow s f).count
      · refine (congrArg _ (filter_dec_pos (p := fun c : Track × ℕ => ¬ c.1.count < 1 ∧ ¬ c.1.count < c.2) ?_)).trans ?_
        · exact ⟨by simp only; omega, by simp only; omega⟩
        refine Eq.trans ?_ (filter_dec_pos (p := Spec.Enough s M) (hen.2 hb)).symm
        rw [List.map_cons, h1]
      · refine (congrArg _ (filter_dec_neg (p := fun c : Track × ℕ => ¬ c.1.count < 1 ∧ ¬ c.1.count < c.2) ?_)).trans ?_
        · exact fun h => h.2 (by simp only; omega)
        refine Eq.trans ?_ (filter_dec_neg (p := Spec.Enough s M) (fun h => hb (hen.1 h))).symm
        rw [h1]
    · rw [clean_inWindow, List.map_cons]
      by_cases hb : (Spec.inWindow s f).count = 0 ∨ required (M u).rep ≤ (Spec.inWindow s f).count
      · refine (congrArg _ (filter_dec_pos (p := fun c : Track × ℕ => c.1.count < 1 ∨ ¬ c.1.count < c.2) ?_)).trans ?_
        · simp only; omega
        refine Eq.trans ?_ (congrArg _ (filter_dec_pos (p := fun f : Track => (f.obs.map fun c => c.2.length).sum = 0 ∨ Spec.Enough s M f)
          (hb.imp id hen.2))).symm
        rw [List.map_cons, List.map_cons, h2]
      · refine (congrArg _ (filter_dec_neg (p := fun c : Track × ℕ => c.1.count < 1 ∨ ¬ c.1.count < c.2) ?_)).trans ?_
        · simp only; omega
        refine Eq.trans ?_ (congrArg _ (filter_dec_neg (p := fun f : Track => (f.obs.map fun c => c.2.length).sum = 0 ∨ Spec.Enough s M f)
          (fun h => hb (h.imp id hen.1)))).symm
        rw [h2]

theorem diagN_sym (m : ℕ) (R : ℕ → ℝ) : Mat.Sym m (fun i j => if i = j then R i else 0) := fun i j _ _ => by
  by_cases h : i = j
  · subst h; rfl
  · simp [h, Ne.symm h]

theorem diagN_toM (m : ℕ) (R : ℕ → ℝ) : toM m m (fun i j => if i = j then R i else 0) = Matrix.diagonal fun i : Fin m => R i := by
  ext i j; simp [toM, Matrix.diagonal_apply, Fin.ext_iff]

theorem diagN_pd (m : ℕ) {R : ℕ → ℝ} (hR : ∀ i, 0 < R i) : PD m (fun i j => if i = j then R i else 0) := by
  rw [pd_iff, diagN_toM]
  intro x hx
  simp only [mquad, Matrix.mulVec_diagonal, dotProduct]
  have h0 : ∀ i, 0 ≤ x i * (R i * x i) := fun i => by have := (hR i).le; nlinarith [mul_self_nonneg (x i), mul_nonneg this (mul_self_nonneg (x i))]
  obtain ⟨j, hj⟩ := Function.ne_iff.1 hx
  refine Finset.sum_pos' (fun i _ => h0 i) ⟨j, Finset.mem_univ j, ?_⟩
  have h1 : 0 < x j * x j := mul_self_pos.2 hj
  have := mul_pos (hR j) h1
  nlinarith

/-- the update with a stack adds the information of the stack. -/
theorem update_wstack (hlib : St.Spec.LibOK lib) (hs : St.Spec.ReachOK lib s) {B : Big} (hB : BigOK s B) (hpos : ∀ i, 0 < B.R i)
    (h : St.update lib s B.order ⟨B.rows, totR (szOf s) B.order, B.H⟩ ⟨B.rows, B.r⟩ ⟨B.rows, B.rows, fun i j => if i = j then B.R i else 0⟩ = some s') :
    St.Spec.Posterior s s' (B.wgram s) (B.wrhs s) := by
  obtain ⟨L, hL, hp⟩ := St.C06_information_form hlib hs B.order ⟨B.rows, totR (szOf s) B.order, B.H⟩
    ⟨B.rows, B.rows, fun i j => if i = j then B.R i else 0⟩ ⟨B.rows, B.r⟩ (diagN_sym B.rows B.R) (diagN_pd B.rows hpos) h
  simp only at hp
  have hinv : (St.Spec.mat B.rows B.rows (fun i j => if i = j then B.R i else 0))⁻¹ = Matrix.diagonal fun i : Fin B.rows => 1 / B.R i := by
    rw [show St.Spec.mat B.rows B.rows (fun i j => if i = j then B.R i else 0) = Matrix.diagonal fun i : Fin B.rows => B.R i from diagN_toM _ _]
    apply Matrix.inv_eq_left_inv
    rw [Matrix.diagonal_mul_diagonal, ← Matrix.diagonal_one]
    congr 1
    funext i
    have := (hpos i).ne'
    field_simp
  rw [hinv, Big.full_row hB hL] at hp
  have e1 : (toM B.rows s.n (B.row s)).transpose * Matrix.diagonal (fun i : Fin B.rows => 1 / B.R i) * toM B.rows s.n (B.row s) = B.wgram s := by
    ext c c'
    rw [Matrix.mul_apply]
    simp only [Matrix.mul_diagonal, Matrix.transpose_apply, toM, Big.wgram, Matrix.of_apply]
    rw [Finset.sum_range]
    exact Finset.sum_congr rfl fun r _ => by ring
  have e2 : ((toM B.rows s.n (B.row s)).transpose * Matrix.diagonal (fun i : Fin B.rows => 1 / B.R i)).mulVec (St.Spec.vec B.rows B.r) = B.wrhs s := by
    ext c
    simp only [Matrix.mulVec, dotProduct, Matrix.mul_diagonal, Matrix.transpose_apply, toM, Big.wrhs, St.Spec.vec]
    rw [Finset.sum_range]
    exact Finset.sum_congr rfl fun r _ => by ring
  rw [e1, e2] at hp
  exact hp

theorem empty_wgram (s : St.State) : Big.empty.wgram s = 0 ∧ Big.empty.wrhs s = 0 := by
  constructor
  · ext i j; simp [Big.wgram, Big.empty]
  · ext i; simp [Big.wrhs, Big.empty]

/-- **C96** The update with the landmarks of the state. For every state of the program and every set of tracks, an update that completes does the
following. Every track belongs to a landmark of the state. The tracks considered are those with a measurement at a clone time (two for a landmark that is
only a depth). Each is linearised (C79) at the state and landmark before the update; the bearing of a single-depth landmark is eliminated (C30). Exactly
those whose squared Mahalanobis distance is at most the multiple for tags or others of `χ²₀.₉₅` of the number of its rows are used. If there are none the
state stays. Otherwise it becomes the Bayesian posterior given all of them: the information `FᵀF/σ²` of the used observations is added to that of the
prior, each counted once, with the noise of tags or of other points. The failure counter of each landmark grows by the number of failed tests, except for
tags. All tracks are marked for deletion but those that still have some, though too few, measurements. Clones, map of landmarks, options and time stay. -/
theorem C96_slam_update (hlib : St.Spec.LibOK lib) (hs : St.Spec.ProgOK lib o s) (hsz : Spec.Sizes s M) {C : SCfg} (hS : 0 < C.sigS) (hA : 0 < C.sigA)
    (fs : List Track) (hcams : ∀ f ∈ fs, (f.obs.map Prod.fst).Nodup) {R : SOut} (h : slamUpdate lib s M C fs = some R) :
    (∀ f ∈ fs, ∃ u, (f.id, u) ∈ s.slam) ∧
    ∃ items : List Spec.SItem, items.map (fun i => i.f) = Spec.slamTracks s M fs ∧ (∀ i ∈ items, i.OK s M C) ∧
      let acc := items.filter fun i => decide (i.Pass lib s C)
      R.used = acc.map (fun i => i.f.id) ∧ (acc = [] → R.s = s) ∧
      (acc ≠ [] → St.Spec.Posterior s R.s (acc.map fun i => (1 / i.sig s C) • ((i.F s).transpose * i.F s)).sum
          (acc.map fun i => (1 / i.sig s C) • (i.F s).transpose.mulVec i.r).sum) ∧
      (∀ u, R.M u = { M u with fails := (M u).fails + Spec.misses lib s C items u }) ∧
      (R.del = ((fs.map (Spec.inWindow s)).filter fun f => decide ((f.obs.map fun c => c.2.length).sum = 0 ∨ Spec.Enough s M f)).map fun f => f.id) ∧
      St.Spec.ProgOK lib o R.s ∧ R.s.clones = s.clones ∧ R.s.slam = s.slam ∧ R.s.opts = s.opts ∧ R.s.ts = s.ts := by
  have hW := St.prog_W hs.prog
  have hR := progOK_reach hs
  unfold slamUpdate at h
  simp only [Option.bind_eq_bind, Option.bind_eq_some_iff] at h
  obtain ⟨cs, hcs, A, hloop, h⟩ := h
  obtain ⟨hmem, htr, hdel⟩ := slamClean_spec hW hcs
  refine ⟨hmem, ?_⟩
  rw [htr] at hloop h
  rw [hdel] at h
  have hin : ∀ f : Track, (Spec.inWindow s f).obs.map Prod.fst = f.obs.map Prod.fst := fun f => by simp [Spec.inWindow, Function.comp_def]
  have hcand : ∀ g ∈ Spec.slamTracks s M fs, (g.obs.map Prod.fst).Nodup ∧ Spec.Enough s M g := by
    intro g hg
    obtain ⟨hg, he⟩ := List.mem_filter.1 hg
    obtain ⟨f, hf, rfl⟩ := List.mem_map.1 hg
    exact ⟨by rw [hin]; exact hcams f hf, by simpa using he⟩
  obtain ⟨items, i1, i2, i3, i3', i4, i5, i7, i8, i9⟩ := slamLoop_spec hlib hR hW hsz hS hA _ _ _ (fun g hg => (hcand g hg).1) (empty_ok s)
    (fun _ => one_pos) (fun v => ⟨(M v).fails, rfl⟩) hloop
  simp only [(empty_wgram s).1, (empty_wgram s).2, zero_add] at i7 i8
  refine ⟨items, i1, i2, ?_⟩
  simp only
  have hrows : A.B.rows = ((items.filter fun i => decide (i.Pass lib s C)).map fun i => i.out.rows - i.b).sum := by
    rw [i5]; simp [Big.empty]
  rw [← i7, ← i8]
  cases hacc : items.filter fun i => decide (i.Pass lib s C) with
  | nil =>
    rw [hacc] at hrows i4
    rw [if_pos (by rw [hrows]; simp)] at h
    obtain rfl := (Option.some.inj h).symm
    exact ⟨by rw [i4]; simp, fun _ => rfl, fun h => absurd rfl h, i9, rfl, hs, rfl, rfl, rfl, rfl⟩
  | cons i t =>
    have hi : i ∈ items ∧ i.Pass lib s C := by
      have : i ∈ items.filter fun i => decide (i.Pass lib s C) := by rw [hacc]; simp
      obtain ⟨a, b⟩ := List.mem_filter.1 this
      exact ⟨a, by simpa using b⟩
    have hpos : 0 < A.B.rows := by
      rw [hrows, hacc, List.map_cons, List.sum_cons]
      have h1 := (i2 i hi.1).rows
      have h2 := (i2 i hi.1).b
      obtain ⟨v, hv, h3⟩ := (hcand i.f (by rw [← i1]; exact List.mem_map.2 ⟨i, hi.1, rfl⟩)).2
      have e1 := (slamUid_mem hW).2 hv
      have e2 := (slamUid_mem hW).2 (i2 i hi.1).lm
      rw [e1] at e2
      obtain rfl := Option.some.inj e2
      split_ifs at h2 h3 <;> omega
    rw [if_neg (by omega)] at h
    split_ifs at h with hfit
    simp only [Option.bind_eq_some_iff] at h
    obtain ⟨s1, hu, h⟩ := h
    obtain rfl := (Option.some.inj h).symm
    obtain ⟨-, u2, -, -, u5, u6⟩ := St.update_lm (St.reach_inv hR.reach).nodup hu
    have hts : s1.ts = s.ts := by
      obtain ⟨L, Ma, _, _, _, _, _, _, rfl⟩ := St.update_some hu; rfl
    exact ⟨by rw [i4, hacc]; simp, fun h => absurd h (by simp), fun _ => update_wstack hlib hR i3 i3' hu, i9, rfl,
      progOK_update (R := ⟨A.B.rows, A.B.rows, fun i j => if i = j then A.B.R i else 0⟩) hs (diagN_sym A.B.rows A.B.R) (diagN_pd A.B.rows i3') hu, u5, u6, u2, hts⟩

/-! ## the update completes -/

/-- a whole active variable. -/
def Whole (s : St.State) (v : St.Ref) : Prop := v.2 = .self ∧ v.1 ∈ s.vars

theorem Plain.whole {v : St.Ref} (h : Plain s v) : Whole s v := ⟨h.1, h.2.1⟩

theorem whole_bound (hI : St.Inv s) {l : List St.Ref} (hn : l.Nodup) (hp : ∀ v ∈ l, Whole s v) : totR (szOf s) l ≤ s.n := by
  have hsum := contig_sum hI.contig
  rw [Nat.zero_add] at hsum
  have hl1 : (l.map Prod.fst).Nodup := by
    rw [List.nodup_map_iff_inj_on hn]
    intro a ha b hb e
    exact Prod.ext e (by rw [(hp a ha).1, (hp b hb).1])
  have self : ∀ x : Val, x.part .self = some (0, x) := fun x => by cases x <;> rfl
  have e1 : totR (szOf s) l = ∑ u ∈ (l.map Prod.fst).toFinset, St.osz s.obj u := by
    rw [List.sum_toFinset _ hl1, List.map_map]
    unfold totR
    congr 1
    refine List.map_congr_left fun v hv => ?_
    simp [szOf, (hp v hv).1, self, St.osz]
  have hle : ∑ u ∈ (l.map Prod.fst).toFinset, St.osz s.obj u ≤ ∑ u ∈ s.vars.toFinset, St.osz s.obj u := by
    refine Finset.sum_le_sum_of_subset ?_
    intro u hu
    simp only [List.mem_toFinset, List.mem_map] at hu ⊢
    obtain ⟨v, hv, rfl⟩ := hu
    exact (hp v hv).2
  rw [List.sum_toFinset _ hI.nodup, hsum] at hle
  omega

theorem placeVars_whole (hI : St.Inv s) {maxR row m : ℕ} (H : Mat) (hr : row + m ≤ maxR) : ∀ (t : List St.Ref) (hx : ℕ) (A : List St.Ref × Mat),
    A.1.Nodup → (∀ v ∈ A.1, Whole s v) → (∀ v ∈ t, Whole s v) → ∃ A', placeVars (szOf s) maxR s.n row m H t hx A = some A'
  | [], hx, A, _, _, _ => ⟨A, rfl⟩
  | v :: t, hx, A, hn, hA, ht => by
    simp only [placeVars]
    generalize ho : (if v ∈ A.1 then A.1 else A.1 ++ [v]) = l
    have hvl : v ∈ l := by rw [← ho]; split_ifs with hv <;> simp [hv]
    have hln : l.Nodup := by
      rw [← ho]; split_ifs with hv
      · exact hn
      · rw [List.nodup_append]
        exact ⟨hn, by simp, fun a ha b hb => by simp at hb; subst hb; exact fun e => hv (e ▸ ha)⟩
    have hlp : ∀ w ∈ l, Whole s w := by
      rw [← ho]; split_ifs with hv
      · exact hA
      · intro w hw
        rcases List.mem_append.1 hw with h | h
        · exact hA w h
        · obtain rfl := List.mem_singleton.1 h; exact ht _ (by simp)
    have h1 := offR_le (sz := szOf s) hvl
    have h2 := whole_bound hI hln hlp
    rw [if_pos ⟨hr, by omega⟩]
    exact placeVars_whole hI H hr t _ _ hln hlp fun w hw => ht w (by simp [hw])

theorem whole_resolve (hI : St.Inv s) {v : St.Ref} (h : Whole s v) : (St.resolve s v).isSome := by
  obtain ⟨u, r⟩ := v
  obtain ⟨rfl, h⟩ := h
  obtain ⟨k, -, -, e⟩ := hI.resolve_self h
  rw [e]; rfl

/-- the variables of a linearised feature with measurements and anchor at clone times are found. -/
theorem refs_returns {fej : Bool} {kind : ℕ → Cam.Kind} {f : Feat} {out : Out} (hout : full (view s fej kind) f = some out)
    (hcams : (f.obs.map Prod.fst).Nodup) (hm : ∀ c ∈ f.obs, ∀ m ∈ c.2, ∃ u, (m.1, u) ∈ s.clones)
    (ha : isRelative f.rep = true → ∃ u, (f.ancT, u) ∈ s.clones) : ∃ refs, out.order.mapM (refOf s) = some refs := by
  refine mapM_some (F := refOf s) (l := out.order) fun v hv => ?_
  obtain ⟨e1, -, -, -⟩ := full_some hout
  rw [e1, (layout_spec _ _ hcams).2] at hv
  cases v with
  | clone t =>
    have : ∃ u, (t, u) ∈ s.clones := by
      rcases hv with ⟨c, hc, ⟨-, e⟩ | ⟨-, e⟩ | ⟨m, hm', e⟩⟩ | ⟨h, e | ⟨-, c, -, e⟩⟩
      · cases e
      · cases e
      · cases e; exact hm c hc m hm'
      · cases e; exact ha h
      · cases e
    obtain ⟨u, hu⟩ := cloneUid_some this
    simp [refOf, hu]
  | calib c => rfl
  | intr c => rfl

/-- the landmarks' representations are known, and the relative ones are anchored at an existing camera and clone. -/
def Spec.Anchored (o : St.Opts) (s : St.State) (M : ℕ → LMeta) : Prop :=
  ∀ e ∈ s.slam, (M e.2).rep ≠ .unknown ∧
    (isRelative (M e.2).rep = true → (∃ c, (M e.2).cam = some c ∧ c < o.numCams) ∧ ∃ u, ((M e.2).t, u) ∈ s.clones)

theorem isRelative_msckf (r : Rep) : isRelative (msckfRep r) = isRelative r := by cases r <;> rfl

/-- a track of a landmark whose measurements are in the window. -/
structure Spec.SUsable (o : St.Opts) (s : St.State) (M : ℕ → LMeta) (f : Track) : Prop where
  cams : (f.obs.map Prod.fst).Nodup
  lt : ∀ c ∈ f.obs, c.1 < o.numCams
  win : ∀ c ∈ f.obs, ∀ m ∈ c.2, ∃ u, (m.1, u) ∈ s.clones
  enough : Spec.Enough s M f

theorem slamSys_returns (hW : St.W o s) (hI : St.Inv s) (hanc : Spec.Anchored o s M) (C : SCfg) {f : Track} (hf : Spec.SUsable o s M f) :
    ∃ u g y, slamUid s f.id = some u ∧ slamFeat s M u f = some g ∧ slamSys s C.fej C.kind u (M u).rep g = some y ∧ (∀ v ∈ y.order, Whole s v) ∧ y.order.Nodup ∧
      y.m ≤ 2 * f.count := by
  obtain ⟨u, hu, hen⟩ := hf.enough
  obtain ⟨hk, ha⟩ := hanc _ hu
  simp only at hk ha
  have hget : ∀ b, ((lmOf s M u).getXyz b).isSome := by
    intro b
    unfold Lm.getXyz lmOf
    revert hk
    cases (M u).rep <;> simp
  obtain ⟨p, hp⟩ := Option.isSome_iff_exists.1 (hget false)
  obtain ⟨pf, hpf⟩ := Option.isSome_iff_exists.1 (hget true)
  obtain ⟨g, hg⟩ : ∃ g, slamFeat s M u f = some g := by
    unfold slamFeat
    rw [hp, hpf]; exact ⟨_, rfl⟩
  obtain ⟨ho, hr⟩ := slamFeat_spec hg
  have hanc' : isRelative g.rep = true → (∃ c, g.ancCam = some c ∧ c < o.numCams) ∧ ∃ u, (g.ancT, u) ∈ s.clones := by
    intro h
    rw [hr] at h
    unfold slamFeat at hg
    rw [hp, hpf] at hg
    simp only [Option.bind_eq_bind, Option.bind_some, Option.some.injEq, h, if_true] at hg
    subst hg
    exact ha (by rw [← isRelative_msckf]; exact h)
  obtain ⟨out, hout⟩ := full_returns hW hI C.fej C.kind (f := g) (by rw [hr]; revert hk; cases (M u).rep <;> simp [msckfRep]) (by rw [ho]; exact hf.lt)
    (by rw [ho]; exact hf.win) hanc'
  obtain ⟨refs, hrefs⟩ := refs_returns hout (by rw [ho]; exact hf.cams) (by rw [ho]; exact hf.win) fun h => (hanc' h).2
  obtain ⟨-, erows, -, -⟩ := full_some hout
  rw [flat_length, ho] at erows
  have hwh : ∀ v ∈ refs ++ [(u, Sub.self)], Whole s v := by
    intro v hv
    rcases List.mem_append.1 hv with h | h
    · exact (refs_plain hW hout (by rw [ho]; exact hf.cams) hrefs v h).whole
    · obtain rfl := List.mem_singleton.1 h
      exact ⟨rfl, (hW.sin _ hu).1⟩
  have hnd := refs_lm hW hout (by rw [ho]; exact hf.cams) hrefs hu
  refine ⟨u, g, ?_⟩
  by_cases hs : (M u).rep = .anchoredSingle
  · rw [if_pos hs] at hen
    obtain ⟨P, hP, hP1⟩ : ∃ P, nullspaceProject out.rows 2 out.Hf (hstack out.rows (total out.order) 1 out.Hx (Mat.block 0 2 out.Hf)) out.res = some P ∧ P.1 = out.rows - 2 :=
      ⟨_, if_neg (by omega), rfl⟩
    refine ⟨⟨refs ++ [(u, .self)], P.1, P.2.1, P.2.2⟩, (slamUid_mem hW).2 hu, hg, ?_, hwh, hnd, ?_⟩
    · unfold slamSys
      rw [hout, Option.bind_eq_bind, Option.bind_some, hrefs, Option.bind_eq_bind, Option.bind_some, if_pos hs, hP]
      rfl
    · simp only [Track.count]; omega
  · refine ⟨⟨refs ++ [(u, .self)], out.rows, hstack out.rows (total out.order) 3 out.Hx out.Hf, out.res⟩, (slamUid_mem hW).2 hu, hg, ?_, hwh, hnd, ?_⟩
    · unfold slamSys
      rw [hout, Option.bind_eq_bind, Option.bind_some, hrefs, Option.bind_eq_bind, Option.bind_some, if_neg hs]
    · simp only [Track.count]; omega

theorem slamLoop_returns (hW : St.W o s) (hI : St.Inv s) (hanc : Spec.Anchored o s M) (C : SCfg) {maxR : ℕ} : ∀ (fs : List Track) (A : SAcc),
    (∀ f ∈ fs, Spec.SUsable o s M f) → SameLm M A.M → BigOK s A.B → (∀ v ∈ A.B.order, Whole s v) → A.B.rows + (fs.map fun g => 2 * g.count).sum ≤ maxR →
    ∃ R, slamLoop lib s C maxR s.n fs A = some R ∧ BigOK s R.B ∧ (∀ v ∈ R.B.order, Whole s v) ∧ R.B.rows ≤ maxR
  | [], A, _, _, hB, hp, hr => ⟨A, rfl, hB, hp, by simpa using hr⟩
  | f :: fs, A, hf, hsm, hB, hp, hr => by
    obtain ⟨u, g, y, hu, hg, hy, hyp, hyn, hym⟩ := slamSys_returns hW hI hanc C (hf f (by simp))
    have hact : ∀ v ∈ y.order, (St.resolve s v).isSome := fun v hv => whole_resolve hI (hyp v hv)
    obtain ⟨L, hL⟩ := resolveAll_isSome.1 hact
    have hgate : ∃ ok, gate lib s (C.sig s f.id) (C.mult s f.id) y = some ok := by
      unfold gate St.getMarginal
      rw [hL]
      exact ⟨_, rfl⟩
    obtain ⟨ok, hok⟩ := hgate
    have hf' : ∀ f ∈ fs, Spec.SUsable o s M f := fun g' h' => hf g' (by simp [h'])
    simp only [List.map_cons, List.sum_cons] at hr
    rw [← (slamFeat_same hsm u f).1] at hg
    rw [← (slamFeat_same (s := s) hsm u f).2] at hy
    simp only [slamLoop, hu, hg, hy, hok, Option.bind_eq_bind, Option.bind_some]
    cases ok with
    | false =>
      simp only [Bool.false_eq_true, if_false]
      refine slamLoop_returns hW hI hanc C fs _ hf' ?_ hB hp (by simp only; omega)
      simp only
      split_ifs
      · exact hsm
      · intro v
        unfold bump
        split_ifs with hv
        · subst hv
          obtain ⟨n, hn⟩ := hsm v
          exact ⟨n + 1, by rw [hn]⟩
        · exact hsm v
    | true =>
      simp only [if_true]
      obtain ⟨P, hP⟩ := placeVars_whole hI (maxR := maxR) (row := A.B.rows) (m := y.m) y.H (by omega) y.order 0 (A.B.order, A.B.H) hB.nodup hp hyp
      have happ : ∃ B', append (szOf s) maxR s.n (C.sig s f.id) A.B y = some B' := by
        unfold append
        rw [hP, Option.bind_eq_bind, Option.bind_some, if_pos (by omega)]
        exact ⟨_, rfl⟩
      obtain ⟨B', hB'⟩ := happ
      obtain ⟨b1, b2, b3, -, -⟩ := append_spec hB hyn hact hB'
      rw [hB', Option.bind_some]
      refine slamLoop_returns hW hI hanc C fs ⟨B', A.used ++ [f.id], A.M⟩ hf' hsm b1 (fun v hv => ?_) (by simp only; omega)
      rcases (b3 v).1 hv with h | h
      · exact hp v h
      · exact hyp v h

/-- **C96** (completes) The landmark update completes in every state of the program for every set of tracks of its landmarks taken by existing cameras,
provided each landmark's anchor is an existing camera and clone. -/
theorem C96_returns (hlib : St.Spec.LibOK lib) (hs : St.Spec.ProgOK lib o s) (hsz : Spec.Sizes s M) (hanc : Spec.Anchored o s M) {C : SCfg} (hS : 0 < C.sigS)
    (hA : 0 < C.sigA) (fs : List Track) (hlm : ∀ f ∈ fs, ∃ u, (f.id, u) ∈ s.slam)
    (hcams : ∀ f ∈ fs, (f.obs.map Prod.fst).Nodup ∧ ∀ c ∈ f.obs, c.1 < o.numCams) : ∃ R, slamUpdate lib s M C fs = some R := by
  have hW := St.prog_W hs.prog
  have hI := St.reach_inv hs.prog.reach
  have hR := progOK_reach hs
  obtain ⟨cs, hcs⟩ : ∃ cs, slamClean s M fs = some cs := by
    refine mapM_some fun f hf => ?_
    obtain ⟨u, hu⟩ := hlm f hf
    rw [(slamUid_mem hW).2 hu]; rfl
  obtain ⟨-, htr, -⟩ := slamClean_spec hW hcs
  have hcand : ∀ g ∈ Spec.slamTracks s M fs, Spec.SUsable o s M g := by
    intro g hg
    obtain ⟨hg, he⟩ := List.mem_filter.1 hg
    obtain ⟨f, hf, rfl⟩ := List.mem_map.1 hg
    have hin : (Spec.inWindow s f).obs.map Prod.fst = f.obs.map Prod.fst := by simp [Spec.inWindow, Function.comp_def]
    refine ⟨by rw [hin]; exact (hcams f hf).1, fun c hc => ?_, fun c hc m hm => ?_, by simpa using he⟩
    · have : c.1 ∈ (Spec.inWindow s f).obs.map Prod.fst := List.mem_map.2 ⟨c, hc, rfl⟩
      rw [hin] at this
      obtain ⟨d, hd, e⟩ := List.mem_map.1 this
      rw [← e]; exact (hcams f hf).2 d hd
    · simp only [Spec.inWindow, List.mem_map] at hc
      obtain ⟨d, hd, rfl⟩ := hc
      simpa using (List.mem_filter.1 hm).2
  unfold slamUpdate
  rw [hcs, Option.bind_eq_bind, Option.bind_some]
  simp only [htr, Option.bind_eq_bind]
  obtain ⟨R, hR', hB, hp, hr⟩ := slamLoop_returns (lib := lib) hW hI hanc C (maxR := ((Spec.slamTracks s M fs).map fun g => 2 * g.count).sum)
    (Spec.slamTracks s M fs) ⟨.empty, [], M⟩ hcand (fun v => ⟨(M v).fails, rfl⟩) (empty_ok s) (by simp [Big.empty]) (by simp [Big.empty])
  obtain ⟨items, i1, i2, i3, i3', -⟩ := slamLoop_spec hlib hR hW hsz hS hA _ _ _ (fun g hg => (hcand g hg).cams) (empty_ok s)
    (fun _ => one_pos) (fun v => ⟨(M v).fails, rfl⟩) hR'
  rw [hR', Option.bind_some]
  have hbound := whole_bound hI hB.nodup hp
  by_cases h1 : R.B.rows < 1
  · rw [if_pos h1]; exact ⟨_, rfl⟩
  rw [if_neg h1, if_neg (not_not.2 ⟨hr, hbound⟩)]
  obtain ⟨L, hL⟩ := resolveAll_isSome.1 hB.act
  obtain ⟨ops, -, hok, hrun⟩ := hs
  have := St.C03_update_returns hlib o ops hok hrun R.B.order ⟨R.B.rows, totR (szOf s) R.B.order, R.B.H⟩
    ⟨R.B.rows, R.B.rows, fun i j => if i = j then R.B.R i else 0⟩ ⟨R.B.rows, R.B.r⟩ L hL rfl rfl rfl
    (tot_totR hL).symm (diagN_sym R.B.rows R.B.R) (diagN_pd R.B.rows i3')
  obtain ⟨s1, h1⟩ := Option.isSome_iff_exists.1 this
  rw [h1]
  exact ⟨_, rfl⟩

end Verif.Upd
