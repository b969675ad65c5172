import Verif.Upd.AnchorState
import Verif.Upd.PropsC
import Verif.Upd.PropsView
import Mathlib.Tactic

/-!
# The anchor changes carried out on the filter state (C105)
-/

set_option linter.unusedVariables false
open Classical

namespace Verif.Upd

open Verif Mat Verif.Land Verif.Types Verif.Prop_ Finset

variable {lib : St.Lib} {o : St.Opts} {s s' : St.State} {M : ℕ → LMeta}

namespace Spec

/-- the errors `x` of all rows of the state, read variable by variable: the error of a clone is at its rows, that of an extrinsic calibration too if it is estimated,
otherwise there is none. -/
def Reads (s : St.State) (x : ℕ → ℝ) (δ : Var → ℕ → ℝ) : Prop :=
  (∀ t u k, k < 6 → (t, u) ∈ s.clones → δ (.clone t) k = x ((s.obj u).id.toNat + k)) ∧
  (∀ c k, k < 6 → c < s.opts.numCams → s.opts.calibPose = true → δ (.calib c) k = x ((s.obj (7 + 2 * c)).id.toNat + k)) ∧
  (∀ c k, s.opts.calibPose = false → δ (.calib c) k = 0)

/-- the error `x` of the state, at landmark `u`. -/
def lmErr (s : St.State) (x : ℕ → ℝ) (u : ℕ) : V3 := fun a => if (a : ℕ) < (s.obj u).val.size then x ((s.obj u).id.toNat + a) else 0

/-- landmark `u`, anchored in camera `oc` and a clone of the window, can be moved to camera `nc` and the clone at `nt`. -/
structure Movable (o : St.Opts) (s : St.State) (M : ℕ → LMeta) (u oc nc : ℕ) (nt : ℝ) : Prop where
  inState : u ∈ s.vars
  value : ∃ v, (s.obj u).val = .vec (Land.Spec.dimOf (M u).rep) v
  rep : Land.Spec.Anchored (M u).rep
  cam : (M u).cam = some oc
  oldCam : oc < o.numCams
  oldClone : ∃ w, ((M u).t, w) ∈ s.clones
  newCam : nc < o.numCams
  newClone : ∃ w, (nt, w) ∈ s.clones

/-- a vector over the rows of the state. -/
def rows {n : ℕ} (x : Fin n → ℝ) (i : ℕ) : ℝ := if h : i < n then x ⟨i, h⟩ else 0

end Spec

/-- an anchor variable: a clone of the window, or an estimated extrinsic calibration. -/
def AncVar (o : St.Opts) (s : St.State) : Var → Prop
  | .clone t => ∃ u, (t, u) ∈ s.clones
  | .calib c => c < o.numCams ∧ o.calibPose = true
  | .intr _ => False

theorem ancVar_ref (hW : St.W o s) (hI : St.Inv s) {v : Var} (hv : AncVar o s v) {x : ℕ → ℝ} {δ : Var → ℕ → ℝ} (hx : Spec.Reads s x δ) :
    ∃ r k, refOf s v = some r ∧ St.resolve s r = some (k, v.size) ∧ k + v.size ≤ s.n ∧ ∀ i, i < v.size → δ v i = x (k + i) := by
  cases v with
  | clone t =>
    obtain ⟨u, hu⟩ := cloneUid_some hv
    have hm := cloneUid_mem hu
    obtain ⟨h1, h2, h3, h4⟩ := hW.cin _ hm
    obtain ⟨k, e1, e2, e3⟩ := hI.resolve_self h1
    simp only at h4 e1 e2 e3
    rw [h4] at e2 e3
    exact ⟨(u, .self), k, by simp [refOf, hu], e3, e2, fun i hi => by rw [hx.1 t u i hi hm, e1, Int.toNat_natCast]⟩
  | calib c =>
    obtain ⟨h1, h2⟩ := hv
    have hp := refOf_plain hW (v := .calib c) (r := (7 + 2 * c, .self)) rfl (fun d hd => by cases hd; exact ⟨h1, h2⟩) (fun d hd => by cases hd)
    obtain ⟨-, hp, -⟩ := hp
    obtain ⟨k, e1, e2, e3⟩ := hI.resolve_self hp
    obtain ⟨q, p, hq⟩ := calib_kind hW h1
    have hz : St.osz s.obj (7 + 2 * c) = 6 := by simp [St.osz, hq, Val.size]
    simp only at e1 e2 e3
    rw [hz] at e2 e3
    exact ⟨_, k, rfl, e3, e2, fun i hi => by rw [hx.2.1 c i hi (by rw [hW.opts]; exact h1) (by rw [hW.opts]; exact h2), e1, Int.toNat_natCast]⟩
  | intr c => exact absurd hv (by simp [AncVar])

theorem clone_uid_unique (hW : St.W o s) {t : ℝ} {u w : ℕ} (h1 : (t, u) ∈ s.clones) (h2 : (t, w) ∈ s.clones) : u = w := by
  have hl := hW.sorted
  obtain ⟨i, hi, e1⟩ := List.mem_iff_getElem.1 h1
  obtain ⟨j, hj, e2⟩ := List.mem_iff_getElem.1 h2
  rw [List.pairwise_iff_getElem] at hl
  rcases lt_trichotomy i j with h | h | h
  · have := hl i j hi hj h; rw [e1, e2] at this; exact absurd this (lt_irrefl _)
  · subst h; rw [e1] at e2; exact (Prod.mk.inj e2).2
  · have := hl j i hj hi h; rw [e1, e2] at this; exact absurd this (lt_irrefl _)

theorem reads_exists (s : St.State) (hW : St.W o s) (x : ℕ → ℝ) : ∃ δ, Spec.Reads s x δ := by
  refine ⟨fun v k => match v with
    | .clone t => match cloneUid s t with
      | some u => x ((s.obj u).id.toNat + k)
      | none => 0
    | .calib c => if s.opts.calibPose then x ((s.obj (7 + 2 * c)).id.toNat + k) else 0
    | .intr _ => 0, ?_, ?_, ?_⟩
  · intro t u k _ hu
    have : cloneUid s t = some u := by
      obtain ⟨w, hw⟩ := cloneUid_some ⟨u, hu⟩
      rw [hw, clone_uid_unique hW (cloneUid_mem hw) hu]
    simp only [this]
  · intro c k _ _ h; simp [h]
  · intro c k h; simp [h]

theorem ancVars_refs (hW : St.W o s) (hI : St.Inv s) {x : ℕ → ℝ} {δ : Var → ℕ → ℝ} (hx : Spec.Reads s x δ) : ∀ (order : List Var), (∀ v ∈ order, AncVar o s v) →
    ∃ refs O, order.mapM (refOf s) = some refs ∧ St.resolveAll s refs = some O ∧ St.tot O = total order ∧ (∀ b ∈ O, b.1 + b.2 ≤ s.n) ∧
      ∀ k, k < total order → x (St.ix O k) = Spec.stack δ order k
  | [], _ => ⟨[], [], rfl, rfl, rfl, by simp, fun k hk => by simp [total] at hk⟩
  | v :: t, h => by
    obtain ⟨r, k, h1, h2, h3, h4⟩ := ancVar_ref hW hI (h v (by simp)) hx
    obtain ⟨refs, O, i1, i2, i3, i4, i5⟩ := ancVars_refs hW hI hx t fun w hw => h w (by simp [hw])
    refine ⟨r :: refs, (k, v.size) :: O, ?_, ?_, ?_, ?_, ?_⟩
    · simp [List.mapM_cons, h1, i1]
    · simp [St.resolveAll, h2, i2]
    · simp [St.tot, i3, total]
    · intro b hb
      rcases List.mem_cons.1 hb with rfl | hb
      · exact h3
      · exact i4 b hb
    · intro j hj
      simp only [St.ix, Spec.stack]
      split_ifs with hc
      · exact (h4 j hc).symm
      · refine i5 _ ?_
        simp only [total, List.map_cons, List.sum_cons] at hj ⊢
        omega

theorem resolveAll_append {a b : List St.Ref} {A B : List (ℕ × ℕ)} (ha : St.resolveAll s a = some A) (hb : St.resolveAll s b = some B) :
    St.resolveAll s (a ++ b) = some (A ++ B) := by
  induction a generalizing A with
  | nil => simp [St.resolveAll] at ha; subst ha; simpa using hb
  | cons r t ih =>
    simp only [St.resolveAll, Option.bind_eq_bind, Option.bind_eq_some_iff] at ha
    obtain ⟨x, hx, xs, hxs, ha⟩ := ha
    obtain rfl := Option.some.inj ha
    simp [St.resolveAll, hx, ih hxs]

theorem tot_append (A B : List (ℕ × ℕ)) : St.tot (A ++ B) = St.tot A + St.tot B := by
  induction A with
  | nil => simp [St.tot]
  | cons a t ih => simp [St.tot, ih, add_assoc]

theorem ix_append (A B : List (ℕ × ℕ)) (k : ℕ) : (k < St.tot A → St.ix (A ++ B) k = St.ix A k) ∧ (¬ k < St.tot A → St.ix (A ++ B) k = St.ix B (k - St.tot A)) := by
  induction A generalizing k with
  | nil => simp [St.tot]
  | cons a t ih =>
    have e : St.tot (a :: t) = a.2 + St.tot t := rfl
    simp only [List.cons_append, St.ix, e]
    by_cases h : k < a.2
    · simp only [if_pos h]
      exact ⟨fun _ => trivial, fun h' => by omega⟩
    · simp only [if_neg h, ← Nat.sub_sub]
      exact ⟨fun h' => (ih _).1 (by omega), fun h' => (ih _).2 (by omega)⟩

theorem mirror_zero (n : ℕ) : PSD n (mirrorU fun _ _ => 0) := by
  intro x
  simp [quad, mirrorU]

/-- the error of the landmark after the transition. -/
theorem transition_apply {n k sz : ℕ} {O : List (ℕ × ℕ)} (Phi : Mat) (hO : ∀ b ∈ O, b.1 + b.2 ≤ n) (hk : k + sz ≤ n) (x : Fin n → ℝ) :
    (∀ i : Fin n, ¬ (k ≤ i ∧ (i : ℕ) < k + sz) → ((St.Spec.transition n k sz O Phi).mulVec x) i = x i) ∧
    ∀ a, a < sz → Spec.rows ((St.Spec.transition n k sz O Phi).mulVec x) (k + a) = ∑ j ∈ range (St.tot O), Phi a j * Spec.rows x (St.ix O j) := by
  rw [St.transition_eq]
  refine ⟨fun i hi => ?_, fun a ha => ?_⟩
  · simp only [Matrix.mulVec, dotProduct, toM, St.fullF, if_neg hi]
    rw [Finset.sum_eq_single i]
    · simp [one]
    · intro j _ hj; simp [one, Fin.val_ne_of_ne (Ne.symm hj)]
    · simp
  · rw [Spec.rows, dif_pos (by omega)]
    simp only [Matrix.mulVec, dotProduct, toM, St.fullF]
    rw [Finset.sum_congr rfl (fun j _ => by rw [if_pos ⟨by omega, by omega⟩])]
    simp only [Nat.add_sub_cancel_left, St.scatter, Finset.sum_mul]
    rw [Finset.sum_comm]
    refine Finset.sum_congr rfl fun j hj => ?_
    have hlt := St.ix_lt hO (Finset.mem_range.1 hj)
    rw [Finset.sum_eq_single (⟨St.ix O j, hlt⟩ : Fin n)]
    · simp [Spec.rows, hlt]
    · intro b _ hb
      have : ¬ St.ix O j = b := fun h => hb (Fin.ext h.symm)
      simp [this]
    · simp

set_option maxHeartbeats 1000000 in
theorem anchorStep_core (hlib : St.Spec.LibOK lib) (hs : St.Spec.ProgOK lib o s) {C : SCfg} {u : ℕ} (hu : u ∈ s.vars)
    (hv : ∃ v, (s.obj u).val = .vec (Land.Spec.dimOf (M u).rep) v) (hr : Land.Spec.Anchored (M u).rep) {oc nc : ℕ} {nt : ℝ} (hc : (M u).cam = some oc)
    (hoc : oc < o.numCams) (ht : ∃ w, ((M u).t, w) ∈ s.clones) (hnc : nc < o.numCams) (hnt : ∃ w, (nt, w) ∈ s.clones) :
    ∃ R s', performAnchorChange (view s C.fej C.kind) (almOf s M u) nt nc = some R ∧
      anchorStep lib C u nc nt s M = some (s', fun v => if v = u then { M u with cam := R.lm.cam, t := R.lm.t, uv0 := R.lm.lm.uv0, uv0f := R.lm.lm.uv0f } else M v) ∧
      St.Spec.ProgOK lib o s' ∧
      s' = { s with P := s'.P, obj := fun w => if w = u then { s.obj u with val := lmVal R.lm.lm.dim R.lm.lm.val, fej := lmVal R.lm.lm.dim R.lm.lm.fej } else s.obj w } ∧
      R.lm.lm.dim = Land.Spec.dimOf (M u).rep ∧ R.lm.lm.rep = (M u).rep ∧ R.lm.cam = some nc ∧ R.lm.t = nt ∧ R.size = Land.Spec.dimOf (M u).rep ∧
      ∃ F : Matrix (Fin s.n) (Fin s.n) ℝ, St.Spec.mat s.n s.n s'.P = F * St.Spec.cov s * F.transpose ∧ ∀ (x : Fin s.n → ℝ) (δ : Var → ℕ → ℝ), Spec.Reads s (Spec.rows x) δ →
        (∀ i : Fin s.n, ¬ ((s.obj u).id ≤ (i : ℤ) ∧ (i : ℤ) < (s.obj u).id + (s.obj u).val.size) → F.mulVec x i = x i) ∧
        Spec.lmErr s (Spec.rows (F.mulVec x)) u = Spec.applyPhi R.Phi R.size (total R.order + R.size) (Spec.withLandmark δ R.order (Spec.lmErr s (Spec.rows x) u)) := by
  have hW := St.prog_W hs.prog
  have hI := St.reach_inv hs.prog.reach
  obtain ⟨v, hv⟩ := hv
  obtain ⟨ao, hao⟩ := Option.isSome_iff_exists.1 (view_clone_some hW hI C.fej C.kind ht)
  obtain ⟨an, han⟩ := Option.isSome_iff_exists.1 (view_clone_some hW hI C.fej C.kind hnt)
  obtain ⟨co, hco⟩ := Option.isSome_iff_exists.1 (view_calib_some hW C.fej C.kind hoc)
  obtain ⟨cn, hcn⟩ := Option.isSome_iff_exists.1 (view_calib_some hW C.fej C.kind hnc)
  have hsize : (s.obj u).val.size = Land.Spec.dimOf (M u).rep := by rw [hv]; rfl
  obtain ⟨p, pf, jo, jn, lm1, lm2, h1, h2, h3, h4, h5, h6, h7, h8, h9, h10, h11, -, h12⟩ :=
    anchor_unfold (view s C.fej C.kind) (almOf s M u) (oc := oc) (nc := nc) (nt := nt) hr hsize hc hao han hco hcn
  have hjs : jacobsize (M u).rep = Land.Spec.dimOf (M u).rep := by
    revert hr; cases (M u).rep <;> simp [Land.Spec.dimOf, Land.Spec.Anchored, jacobsize]
  have hdim : lm2.dim = Land.Spec.dimOf (M u).rep := by rw [h11]; exact hsize
  generalize hRdef : (⟨⟨lm2, some nc, nt⟩, phiOrder jo.2 jn.2, jacobsize (almOf s M u).lm.rep,
        anchorPhi (phiOrder jo.2 jn.2) (jacobsize (almOf s M u).lm.rep) (hfInv (almOf s M u).lm.rep jn.1) jo.1 jo.2 jn.2⟩ : AChange) = R at h12
  have r1 : R.lm.lm = lm2 := by rw [← hRdef]
  have r2 : R.lm.cam = some nc := by rw [← hRdef]
  have r3 : R.lm.t = nt := by rw [← hRdef]
  have r4 : R.order = phiOrder jo.2 jn.2 := by rw [← hRdef]
  have r5 : R.size = Land.Spec.dimOf (M u).rep := by rw [← hRdef]; exact hjs
  have hord : ∀ w ∈ R.order, AncVar o s w := by
    intro w hw
    rw [r4, (phiOrder_mem _ _).2] at hw
    have key : ∀ (f : Feat) (c : ℕ) (j : M3 × List (Var × Matrix (Fin 3) (Fin 6) ℝ)), f.ancCam = some c → c < o.numCams → (∃ w, (f.ancT, w) ∈ s.clones) →
        repJac (view s C.fej C.kind) f = some j → ∀ x ∈ j.2, AncVar o s x.1 := by
      intro f c j k1 k2 k3 k4 x hx
      obtain ⟨-, h | ⟨hd, c', hc', h⟩⟩ := repJac_vars (Hf := j.1) (xs := j.2) k4 x hx
      · rw [h]; exact k3
      · rw [k1] at hc'
        obtain rfl := Option.some.inj hc'
        rw [h]
        exact ⟨k2, by rw [← hW.opts]; exact hd⟩
    rcases hw with ⟨x, hx, rfl⟩ | ⟨x, hx, rfl⟩
    · exact key _ oc jo rfl hoc ht h3 x hx
    · exact key _ nc jn rfl hnc hnt h4 x hx
  obtain ⟨k, e1, e2, e3⟩ := hI.resolve_self hu
  have hosz : St.osz s.obj u = Land.Spec.dimOf (M u).rep := hsize
  rw [hosz] at e2 e3
  obtain ⟨δ0, hδ0⟩ := reads_exists s hW (Spec.rows (fun _ : Fin s.n => 0))
  obtain ⟨refs, O, i1, i2, i3, i4, -⟩ := ancVars_refs hW hI hδ0 R.order hord
  have hN : St.resolveAll s [(u, .self)] = some [(k, Land.Spec.dimOf (M u).rep)] := by simp [St.resolveAll, e3]
  have hO := resolveAll_append i2 hN
  have hcols : St.tot (O ++ [(k, Land.Spec.dimOf (M u).rep)]) = total R.order + (s.obj u).val.size := by
    rw [tot_append, i3, hsize]; simp [St.tot]
  obtain ⟨ops, ho1, ho2, ho3⟩ := id hs
  have hret := St.C03_propagation_returns hlib o ops ho2 ho3 [(u, .self)] (refs ++ [(u, .self)]) ⟨R.size, total R.order + (s.obj u).val.size, R.Phi⟩ ⟨R.size, R.size, fun _ _ => 0⟩
    (k, Land.Spec.dimOf (M u).rep) [] _ hN hO (by simp) rfl (by simp [St.tot, r5]) hcols rfl rfl (mirror_zero _)
  obtain ⟨s1, hs1⟩ := Option.isSome_iff_exists.1 hret
  have hP1 : St.Spec.ProgOK lib o s1 := progOK_step hs (op := .propagate [(u, Sub.self)] (refs ++ [(u, Sub.self)]) ⟨R.size, total R.order + (s.obj u).val.size, R.Phi⟩ ⟨R.size, R.size, fun _ _ => 0⟩) trivial (mirror_zero _) hs1
  obtain ⟨b, N, O', c1, c2, c3, -, c4⟩ := St.C07_propagation hs.prog.reach [(u, .self)] (refs ++ [(u, .self)]) _ _ (by intro i j _ _; rfl) hs1
  rw [hN] at c1
  rw [hO] at c2
  obtain ⟨rfl, rfl⟩ := List.cons.inj (Option.some.inj c1)
  obtain rfl := Option.some.inj c2
  have hob1 : s1.obj = s.obj := by rw [c4]
  have hs2 : St.step lib s1 (.setVal u (lmVal R.lm.lm.dim R.lm.lm.val)) =
      some { s1 with obj := fun w => if w = u then { s.obj u with val := lmVal R.lm.lm.dim R.lm.lm.val } else s.obj w } := by
    simp only [St.step, hob1]
    rw [if_pos (by rw [hv, r1, hdim]; simp [lmVal, St.sameKind])]
  have hfk : ∃ f, (s.obj u).fej = .vec (Land.Spec.dimOf (M u).rep) f := by
    have := hI.kind u
    rw [hv] at this
    revert this
    cases (s.obj u).fej <;> simp [St.sameKind]
    rintro rfl; rfl
  obtain ⟨f, hf⟩ := hfk
  have hs3 : St.step lib { s1 with obj := fun w => if w = u then { s.obj u with val := lmVal R.lm.lm.dim R.lm.lm.val } else s.obj w } (.setFej u (lmVal R.lm.lm.dim R.lm.lm.fej)) =
      some { s1 with obj := fun w => if w = u then { s.obj u with val := lmVal R.lm.lm.dim R.lm.lm.val, fej := lmVal R.lm.lm.dim R.lm.lm.fej } else s.obj w } := by
    simp only [St.step]
    rw [if_pos (by simp only [if_true]; rw [hf, r1, hdim]; simp [lmVal, St.sameKind])]
    simp only [if_true]
    congr 2
    funext w
    split_ifs <;> rfl
  have hP2 := progOK_step hP1 (op := .setVal _ _) trivial trivial hs2
  have hP3 := progOK_step hP2 (op := .setFej _ _) trivial trivial hs3
  refine ⟨R, _, h12, ?_, hP3, ?_, by rw [r1, hdim], by rw [r1, h10]; rfl, r2, r3, r5, St.Spec.transition s.n k R.size (O ++ [(k, Land.Spec.dimOf (M u).rep)]) R.Phi, ?_, ?_⟩
  · unfold anchorStep
    have hs1' : St.step lib s (.propagate [(u, .self)] (refs ++ [(u, .self)]) ⟨R.size, total R.order + (s.obj u).val.size, R.Phi⟩ ⟨R.size, R.size, fun _ _ => 0⟩) = some s1 := hs1
    simp only [h12, i1, hs1', hs2, hs3, Option.bind_eq_bind, Option.bind_some]
  · simp only
    rw [c4]
  · simp only
    simp only at c3
    rw [c3]
    have : St.Spec.noise s.n k R.size (fun _ _ => 0) = 0 := by
      ext i j; simp [St.Spec.noise]
    rw [this, add_zero]
  · intro x δ hx
    have hOb : ∀ b ∈ O ++ [(k, Land.Spec.dimOf (M u).rep)], b.1 + b.2 ≤ s.n := by
      intro b hb
      rcases List.mem_append.1 hb with hb | hb
      · exact i4 b hb
      · obtain rfl := List.mem_singleton.1 hb; exact e2
    obtain ⟨t1, t2⟩ := transition_apply R.Phi hOb (by rw [r5]; exact e2 : k + R.size ≤ s.n) x
    obtain ⟨refs', O', j1, j2, j3, j4, j5⟩ := ancVars_refs hW hI hx R.order hord
    rw [i1] at j1
    obtain rfl := Option.some.inj j1
    rw [i2] at j2
    obtain rfl := Option.some.inj j2
    refine ⟨fun i hi => t1 i fun h => hi ?_, ?_⟩
    · rw [e1, hsize, ← r5]; omega
    · funext a
      simp only [Spec.applyPhi]
      rw [Spec.lmErr]
      simp only [hsize, e1, Int.toNat_natCast]
      by_cases ha : (a : ℕ) < Land.Spec.dimOf (M u).rep
      · rw [if_pos ha, if_pos (by rw [r5]; exact ha), t2 a (by rw [r5]; exact ha), tot_append, i3, r5]
        have : St.tot [(k, Land.Spec.dimOf (M u).rep)] = Land.Spec.dimOf (M u).rep := by simp [St.tot]
        rw [this]
        refine Finset.sum_congr rfl fun j hj => ?_
        congr 1
        rw [Finset.mem_range] at hj
        rw [Spec.withLandmark]
        by_cases hj' : j < total R.order
        · rw [(ix_append _ _ _).1 (by rw [i3]; exact hj'), if_pos hj', j5 j hj']
        · rw [(ix_append _ _ _).2 (by rw [i3]; exact hj'), if_neg hj', i3]
          have hj3 : j - total R.order < Land.Spec.dimOf (M u).rep := by omega
          have hd3 : Land.Spec.dimOf (M u).rep ≤ 3 := by unfold Land.Spec.dimOf; split_ifs <;> omega
          simp only [St.ix, if_pos hj3, extV, Spec.lmErr, hsize, e1, Int.toNat_natCast]
          rw [dif_pos (by omega)]
      · rw [if_neg ha, if_neg (by rw [r5]; exact ha)]

theorem clone_ne (hW : St.W o s) {u : ℕ} (hv : ∃ n v, (s.obj u).val = .vec n v) {c : ℝ × ℕ} (hc : c ∈ s.clones) : c.2 ≠ u := by
  rintro rfl
  obtain ⟨q, p, h⟩ := hW.cpose c hc
  obtain ⟨n, v, hv⟩ := hv
  rw [hv] at h; cases h

theorem calib_ne (hW : St.W o s) {u : ℕ} (hv : ∃ n v, (s.obj u).val = .vec n v) {c : ℕ} (hc : c < o.numCams) : 7 + 2 * c ≠ u := by
  rintro rfl
  obtain ⟨q, p, h⟩ := calib_kind hW hc
  obtain ⟨n, v, hv⟩ := hv
  rw [hv] at h; cases h

/-- only the object of landmark `u` has changed, and the covariance. -/
def OnlyLm (s s' : St.State) (u : ℕ) : Prop := ∃ P b, s' = { s with P := P, obj := fun w => if w = u then b else s.obj w }

theorem OnlyLm.obj (h : OnlyLm s s' u) {w : ℕ} (hw : w ≠ u) : s'.obj w = s.obj w := by
  obtain ⟨P, b, rfl⟩ := h; simp [hw]

theorem OnlyLm.cloneAt (hW : St.W o s) {u : ℕ} (hv : ∃ n v, (s.obj u).val = .vec n v) (h : OnlyLm s s' u) (t : ℝ) (A A' : Pose) :
    Spec.CloneAt s' t A A' ↔ Spec.CloneAt s t A A' := by
  have hc : s'.clones = s.clones := by obtain ⟨P, b, rfl⟩ := h; rfl
  unfold Spec.CloneAt
  rw [hc]
  constructor
  · rintro ⟨w, h1, h2, h3⟩
    rw [h.obj (clone_ne hW hv h1)] at h2 h3
    exact ⟨w, h1, h2, h3⟩
  · rintro ⟨w, h1, h2, h3⟩
    exact ⟨w, h1, by rw [h.obj (clone_ne hW hv h1)]; exact h2, by rw [h.obj (clone_ne hW hv h1)]; exact h3⟩

theorem OnlyLm.extrAt (hW : St.W o s) {u : ℕ} (hv : ∃ n v, (s.obj u).val = .vec n v) (h : OnlyLm s s' u) (c : ℕ) (E : Pose) :
    Spec.ExtrAt s' c E ↔ Spec.ExtrAt s c E := by
  have hc : s'.opts = s.opts := by obtain ⟨P, b, rfl⟩ := h; rfl
  unfold Spec.ExtrAt
  rw [hc]
  constructor
  · rintro ⟨h1, h2⟩
    rw [h.obj (calib_ne hW hv (by rw [hW.opts] at h1; exact h1))] at h2
    exact ⟨h1, h2⟩
  · rintro ⟨h1, h2⟩
    exact ⟨h1, by rw [h.obj (calib_ne hW hv (by rw [hW.opts] at h1; exact h1))]; exact h2⟩

theorem cloneAt_unique (hW : St.W o s) {t : ℝ} {A A' B B' : Pose} (h1 : Spec.CloneAt s t A A') (h2 : Spec.CloneAt s t B B') : A = B ∧ A' = B' := by
  obtain ⟨u, hu, e1, e2⟩ := h1
  obtain ⟨w, hw, e3, e4⟩ := h2
  obtain rfl := clone_uid_unique hW hu hw
  rw [e1] at e3; rw [e2] at e4
  injection e3; injection e4
  obtain ⟨q, p⟩ := A; obtain ⟨q, p⟩ := A'; obtain ⟨q, p⟩ := B; obtain ⟨q, p⟩ := B'
  simp_all

theorem extrAt_unique {c : ℕ} {E F : Pose} (h1 : Spec.ExtrAt s c E) (h2 : Spec.ExtrAt s c F) : E = F := by
  have := h1.2.symm.trans h2.2
  injection this
  obtain ⟨q, p⟩ := E; obtain ⟨q, p⟩ := F
  simp_all

theorem valV3_lmVal {r : Rep} (hr : Land.Spec.Anchored r) {l : Lm} (hd : l.dim = Land.Spec.dimOf r) (hl : l.rep = r) (b : Bool) :
    (⟨r, (lmVal l.dim l.val).size, valV3 (lmVal l.dim l.val), valV3 (lmVal l.dim l.fej), l.uv0, l.uv0f⟩ : Lm).getXyz b = l.getXyz b := by
  obtain ⟨r', n, v, f, u, w⟩ := l
  simp only at hd hl
  subst hl hd
  cases r' <;> simp only [Land.Spec.Anchored] at hr <;> cases b <;> simp [Lm.getXyz, lmVal, valV3, Val.size, Land.Spec.dimOf]

/-- what the step does, with the objects of `Upd.Anchor`. -/
theorem anchorStep_spec (hlib : St.Spec.LibOK lib) (hs : St.Spec.ProgOK lib o s) {C : SCfg} {u oc nc : ℕ} {nt : ℝ} (hm : Spec.Movable o s M u oc nc nt) {M' : ℕ → LMeta}
    (h : anchorStep lib C u nc nt s M = some (s', M')) :
    ∃ R, performAnchorChange (view s C.fej C.kind) (almOf s M u) nt nc = some R ∧ OnlyLm s s' u ∧ (s'.obj u).id = (s.obj u).id ∧ (s'.obj u).val.size = (s.obj u).val.size ∧
      (∀ b, (lmOf s' M' u).getXyz b = R.lm.lm.getXyz b) ∧ (M' u).rep = (M u).rep ∧ R.size = Land.Spec.dimOf (M u).rep ∧
      ∃ F : Matrix (Fin s.n) (Fin s.n) ℝ, St.Spec.mat s.n s.n s'.P = F * St.Spec.cov s * F.transpose ∧ ∀ (x : Fin s.n → ℝ) (δ : Var → ℕ → ℝ), Spec.Reads s (Spec.rows x) δ →
        (∀ i : Fin s.n, ¬ ((s.obj u).id ≤ (i : ℤ) ∧ (i : ℤ) < (s.obj u).id + (s.obj u).val.size) → F.mulVec x i = x i) ∧
        Spec.lmErr s (Spec.rows (F.mulVec x)) u = Spec.applyPhi R.Phi R.size (total R.order + R.size) (Spec.withLandmark δ R.order (Spec.lmErr s (Spec.rows x) u)) := by
  obtain ⟨R, s1, h1, h2, h3, h4, h5, h6, h7, h8, h9, F, h10, h11⟩ :=
    anchorStep_core (C := C) hlib hs hm.inState hm.value hm.rep hm.cam hm.oldCam hm.oldClone hm.newCam hm.newClone
  rw [h] at h2
  obtain ⟨e1, e2⟩ := Prod.mk.inj (Option.some.inj h2)
  subst e1
  obtain ⟨v, hv⟩ := hm.value
  have ho : s'.obj u = { s.obj u with val := lmVal R.lm.lm.dim R.lm.lm.val, fej := lmVal R.lm.lm.dim R.lm.lm.fej } := by rw [h4]; simp
  refine ⟨R, h1, ⟨_, _, h4⟩, by rw [ho], by rw [ho, hv]; exact h5, fun b => ?_, by rw [e2]; simp, h9, F, h10, h11⟩
  rw [← valV3_lmVal hm.rep h5 h6 b]
  unfold lmOf
  rw [ho, e2]
  simp

/-- **C105** An anchor change on the filter state completes. Apart from the covariance it changes only the landmark: its value and first estimate keep their dimension, its
representation, failure count and camera of first sight stay, and it is now anchored in the new camera and clone. -/
theorem C105_anchor_change (hlib : St.Spec.LibOK lib) (hs : St.Spec.ProgOK lib o s) {C : SCfg} {u oc nc : ℕ} {nt : ℝ} (hm : Spec.Movable o s M u oc nc nt) :
    ∃ s' M' P v f, anchorStep lib C u nc nt s M = some (s', M') ∧ St.Spec.ProgOK lib o s' ∧
      s' = { s with P := P, obj := fun w => if w = u then { s.obj u with val := .vec (Land.Spec.dimOf (M u).rep) v, fej := .vec (Land.Spec.dimOf (M u).rep) f } else s.obj w } ∧
      (∀ w, w ≠ u → M' w = M w) ∧ (M' u).rep = (M u).rep ∧ (M' u).cam = some nc ∧ (M' u).t = nt ∧ (M' u).fails = (M u).fails ∧ (M' u).ucam = (M u).ucam := by
  obtain ⟨R, s1, h1, h2, h3, h4, h5, h6, h7, h8, h9, F, h10, h11⟩ :=
    anchorStep_core (C := C) hlib hs hm.inState hm.value hm.rep hm.cam hm.oldCam hm.oldClone hm.newCam hm.newClone
  rw [h5] at h4
  exact ⟨s1, _, _, _, _, h2, h3, h4, fun w hw => by simp [hw], by simp, by simp [h7], by simp [h8], by simp, by simp⟩

/-- **C105** (position) An anchor change leaves the landmark where it is in the world, provided its representation can express the point in the new camera. -/
theorem C105_position (hlib : St.Spec.LibOK lib) (hs : St.Spec.ProgOK lib o s) {C : SCfg} {u oc nc : ℕ} {nt : ℝ} (hm : Spec.Movable o s M u oc nc nt)
    (hu : Spec.UnitPoses s) {p g : V3} (hp : (lmOf s M u).getXyz false = some p) (hg : Spec.At s (M u).rep oc (M u).t p g)
    (hdom : ∀ A A' E, Spec.CloneAt s nt A A' → Spec.ExtrAt s nc E → Land.Spec.Dom (M u).rep (Spec.inCam A E g)) {M' : ℕ → LMeta}
    (h : anchorStep lib C u nc nt s M = some (s', M')) :
    ∃ p', (lmOf s' M' u).getXyz false = some p' ∧ Spec.At s' (M' u).rep nc nt p' g := by
  have hW := St.prog_W hs.prog
  have hI := St.reach_inv hs.prog.reach
  obtain ⟨R, h1, h2, -, -, h4, h5, -⟩ := anchorStep_spec hlib hs hm h
  obtain ⟨ao, hao⟩ := Option.isSome_iff_exists.1 (view_clone_some hW hI C.fej C.kind hm.oldClone)
  obtain ⟨an, han⟩ := Option.isSome_iff_exists.1 (view_clone_some hW hI C.fej C.kind hm.newClone)
  obtain ⟨co, hco⟩ := Option.isSome_iff_exists.1 (view_calib_some hW C.fej C.kind hm.oldCam)
  obtain ⟨cn, hcn⟩ := Option.isSome_iff_exists.1 (view_calib_some hW C.fej C.kind hm.newCam)
  obtain ⟨v, hv⟩ := hm.value
  have hd : (lmOf s M u).dim = Land.Spec.dimOf (M u).rep := by simp [lmOf, hv, Val.size]
  unfold Spec.At at hg
  rw [if_pos hm.rep] at hg
  obtain ⟨A, A', E, c1, c2, rfl⟩ := hg
  obtain ⟨rfl, rfl⟩ := cloneAt_unique hW c1 (view_clone _ _ hao)
  obtain rfl := extrAt_unique c2 (view_calib _ _ hco)
  obtain ⟨R', p', k1, k2, k3, -⟩ := C29_position (view s C.fej C.kind) (view_units hu) (almOf s M u) hm.rep hd hm.cam hao han hco hcn hp
    (hdom _ _ _ (view_clone _ _ han) (view_calib _ _ hcn))
  rw [h1] at k1
  obtain rfl := Option.some.inj k1
  refine ⟨p', (h4 false).trans k2, ?_⟩
  unfold Spec.At
  rw [h5, if_pos hm.rep]
  have hvv : ∃ n v, (s.obj u).val = .vec n v := ⟨_, v, hv⟩
  exact ⟨an.val, an.fej, cn, (h2.cloneAt hW hvv _ _ _).2 (view_clone _ _ han), (h2.extrAt hW hvv _ _).2 (view_calib _ _ hcn), k3.symm⟩

theorem reads_after (hW : St.W o s) (hI : St.Inv s) {u : ℕ} (hu : u ∈ s.vars) (hv : ∃ n v, (s.obj u).val = .vec n v) (ho : OnlyLm s s' u) {x y : Fin s.n → ℝ}
    (hy : ∀ i : Fin s.n, ¬ ((s.obj u).id ≤ (i : ℤ) ∧ (i : ℤ) < (s.obj u).id + (s.obj u).val.size) → y i = x i) {δ : Var → ℕ → ℝ}
    (h : Spec.Reads s (Spec.rows x) δ) : Spec.Reads s' (Spec.rows y) δ := by
  have hop : s'.opts = s.opts := by obtain ⟨P, b, rfl⟩ := ho; rfl
  have hcl : s'.clones = s.clones := by obtain ⟨P, b, rfl⟩ := ho; rfl
  have key : ∀ w k, w ∈ s.vars → w ≠ u → (s.obj w).val.size = 6 → k < 6 → Spec.rows y ((s'.obj w).id.toNat + k) = Spec.rows x ((s.obj w).id.toNat + k) := by
    intro w k hw hne hsz hk
    rw [ho.obj hne]
    unfold Spec.rows
    split_ifs with hlt
    · refine hy _ fun hc => ?_
      have hd := hI.contig.disjoint hw hu hne
      obtain ⟨kk, e1, -, -⟩ := hI.resolve_self hw
      simp only [St.osz, hsz] at hd
      simp only at hc
      rw [e1] at hd hc
      push_cast at hd hc
      simp only [Int.toNat_natCast] at hc
      omega
    · rfl
  refine ⟨fun t w k hk hw => ?_, fun c k hk hc hp => ?_, fun c k hp => h.2.2 c k (by rw [← hop]; exact hp)⟩
  · rw [hcl] at hw
    obtain ⟨a1, -, -, a2⟩ := hW.cin _ hw
    rw [key w k a1 (clone_ne hW hv hw) a2 hk, h.1 t w k hk hw]
  · rw [hop] at hc hp
    have hc' : c < o.numCams := by rw [← hW.opts]; exact hc
    have hpl := refOf_plain hW (v := .calib c) (r := (7 + 2 * c, .self)) rfl (fun d hd => by cases hd; exact ⟨hc', by rw [← hW.opts]; exact hp⟩) (fun d hd => by cases hd)
    obtain ⟨q, p, hq⟩ := calib_kind hW hc'
    rw [key _ k hpl.2.1 (calib_ne hW hv hc') (by rw [hq]; rfl) hk, h.2.1 c k hk hc hp]

set_option maxHeartbeats 1000000 in
/-- **C105** (covariance) After an anchor change the covariance is `F P Fᵀ`, where `F` leaves the errors of everything but the landmark as they are and gives the landmark the
error in its new parameters that moves the global point, to first order, exactly as its old error did: for every error `x` of the state the point given by the old anchor and
parameters under `x`, and the one given by the new anchor and parameters under `F x`, have the same derivative. Clones are perturbed at the poses at which Jacobians are taken,
the parameters are those that put the landmark at its global position there. -/
theorem C105_covariance (hlib : St.Spec.LibOK lib) (hs : St.Spec.ProgOK lib o s) {C : SCfg} {u oc nc : ℕ} {nt : ℝ} (hm : Spec.Movable o s M u oc nc nt)
    (hns : (M u).rep ≠ .anchoredSingle) (hu : Spec.UnitPoses s) {p g : V3} (hp : (lmOf s M u).getXyz false = some p) (hg : Spec.At s (M u).rep oc (M u).t p g)
    {M' : ℕ → LMeta} (h : anchorStep lib C u nc nt s M = some (s', M')) :
    s'.n = s.n ∧ ∃ F : Matrix (Fin s.n) (Fin s.n) ℝ, St.Spec.mat s.n s.n s'.P = F * St.Spec.cov s * F.transpose ∧
      ∀ (x : Fin s.n → ℝ) (δ : Var → ℕ → ℝ) (bo lo bn ln : V3), Spec.Reads s (Spec.rows x) δ →
        (∀ i : Fin s.n, ¬ ((s.obj u).id ≤ (i : ℤ) ∧ (i : ℤ) < (s.obj u).id + (s.obj u).val.size) → F.mulVec x i = x i) ∧
        Spec.Reads s' (Spec.rows (F.mulVec x)) δ ∧
        (Spec.Chart (M u).rep bo lo → Spec.Chart (M u).rep bn ln →
          (∀ B B' E, Spec.CloneAt s (M u).t B B' → Spec.ExtrAt s oc E → Spec.world (Spec.linPose C.fej B B') E (Spec.xyz (M u).rep bo lo) = g) →
          (∀ B B' E, Spec.CloneAt s' nt B B' → Spec.ExtrAt s' nc E → Spec.world (Spec.linPose C.fej B B') E (Spec.xyz (M u).rep bn ln) = g) →
          ∃ G G' D, Spec.Moves s C.fej (M u).rep oc (M u).t bo lo δ (Spec.lmErr s (Spec.rows x) u) G ∧
            Spec.Moves s' C.fej (M' u).rep nc nt bn ln δ (Spec.lmErr s' (Spec.rows (F.mulVec x)) u) G' ∧ HasDv G D ∧ HasDv G' D) := by
  have hW := St.prog_W hs.prog
  have hI := St.reach_inv hs.prog.reach
  obtain ⟨R, h1, h2, hid, hsz, h4, h5, h6, F, h7, h8⟩ := anchorStep_spec hlib hs hm h
  obtain ⟨ao, hao⟩ := Option.isSome_iff_exists.1 (view_clone_some hW hI C.fej C.kind hm.oldClone)
  obtain ⟨an, han⟩ := Option.isSome_iff_exists.1 (view_clone_some hW hI C.fej C.kind hm.newClone)
  obtain ⟨co, hco⟩ := Option.isSome_iff_exists.1 (view_calib_some hW C.fej C.kind hm.oldCam)
  obtain ⟨cn, hcn⟩ := Option.isSome_iff_exists.1 (view_calib_some hW C.fej C.kind hm.newCam)
  obtain ⟨v, hv⟩ := hm.value
  have hvv : ∃ n v, (s.obj u).val = .vec n v := ⟨_, v, hv⟩
  have hd : (lmOf s M u).dim = Land.Spec.dimOf (M u).rep := by simp [lmOf, hv, Val.size]
  unfold Spec.At at hg
  rw [if_pos hm.rep] at hg
  obtain ⟨A, A', E, c1, c2, rfl⟩ := hg
  obtain ⟨rfl, rfl⟩ := cloneAt_unique hW c1 (view_clone _ _ hao)
  obtain rfl := extrAt_unique c2 (view_calib _ _ hco)
  refine ⟨by obtain ⟨P, b, rfl⟩ := h2; rfl, F, h7, fun x δ bo lo bn ln hx => ?_⟩
  obtain ⟨k1, k2⟩ := h8 x δ hx
  refine ⟨k1, reads_after hW hI hm.inState hvv h2 k1 hx, fun hlo hln eo en => ?_⟩
  have en' := en _ _ _ ((h2.cloneAt hW hvv _ _ _).2 (view_clone _ _ han)) ((h2.extrAt hW hvv _ _).2 (view_calib _ _ hcn))
  have eo' := eo _ _ _ (view_clone _ _ hao) (view_calib _ _ hco)
  obtain ⟨-, -, D, d1, d2⟩ := C80_covariance (view s C.fej C.kind) (view_units hu) (almOf s M u) hm.rep hns hd hm.cam hao han hco hcn hp h1 hlo hln eo' en' δ
    (Spec.lmErr s (Spec.rows x) u) (fun hf c k => hx.2.2 c k hf)
  refine ⟨_, _, D, ?_, ?_, d1, d2⟩
  · unfold Spec.Moves
    rw [if_pos hm.rep]
    exact ⟨_, _, _, view_clone _ _ hao, view_calib _ _ hco, fun e => rfl⟩
  · unfold Spec.Moves
    rw [h5, if_pos hm.rep]
    refine ⟨_, _, _, (h2.cloneAt hW hvv _ _ _).2 (view_clone _ _ han), (h2.extrAt hW hvv _ _).2 (view_calib _ _ hcn), fun e => ?_⟩
    have : Spec.lmErr s' (Spec.rows (F.mulVec x)) u = Spec.lmErr s (Spec.rows (F.mulVec x)) u := by
      unfold Spec.lmErr; rw [hid, hsz]
    rw [this, k2]
    rfl

set_option maxHeartbeats 1000000 in
/-- **C105** (covariance of a single depth, partial) As `C105_covariance`, but a single depth follows only the component of the motion along the new viewing ray: `ray` is how the
point moves with the new depth. The components across the ray are lost, because the bearing is not part of the state. -/
theorem C105_covariance_single_partial (hlib : St.Spec.LibOK lib) (hs : St.Spec.ProgOK lib o s) {C : SCfg} {u oc nc : ℕ} {nt : ℝ} (hm : Spec.Movable o s M u oc nc nt)
    (hns : (M u).rep = .anchoredSingle) (hu : Spec.UnitPoses s) {p g : V3} (hp : (lmOf s M u).getXyz false = some p) (hg : Spec.At s (M u).rep oc (M u).t p g)
    {M' : ℕ → LMeta} (h : anchorStep lib C u nc nt s M = some (s', M')) :
    s'.n = s.n ∧ ∃ F : Matrix (Fin s.n) (Fin s.n) ℝ, St.Spec.mat s.n s.n s'.P = F * St.Spec.cov s * F.transpose ∧
      ∀ (x : Fin s.n → ℝ) (δ : Var → ℕ → ℝ) (bo lo bn ln : V3), Spec.Reads s (Spec.rows x) δ →
        (∀ i : Fin s.n, ¬ ((s.obj u).id ≤ (i : ℤ) ∧ (i : ℤ) < (s.obj u).id + (s.obj u).val.size) → F.mulVec x i = x i) ∧
        Spec.Reads s' (Spec.rows (F.mulVec x)) δ ∧
        (Spec.Chart (M u).rep bo lo → Spec.Chart (M u).rep bn ln →
          (∀ B B' E, Spec.CloneAt s (M u).t B B' → Spec.ExtrAt s oc E → Spec.world (Spec.linPose C.fej B B') E (Spec.xyz (M u).rep bo lo) = g) →
          (∀ B B' E, Spec.CloneAt s' nt B B' → Spec.ExtrAt s' nc E → Spec.world (Spec.linPose C.fej B B') E (Spec.xyz (M u).rep bn ln) = g) →
          ∃ G G' D D' ray, Spec.Moves s C.fej (M u).rep oc (M u).t bo lo δ (Spec.lmErr s (Spec.rows x) u) G ∧
            Spec.Moves s' C.fej (M' u).rep nc nt bn ln δ (Spec.lmErr s' (Spec.rows (F.mulVec x)) u) G' ∧ HasDv G D ∧ HasDv G' D' ∧
            (∀ B B' E, Spec.CloneAt s' nt B B' → Spec.ExtrAt s' nc E →
              HasDv (fun e => Spec.world (Spec.linPose C.fej B B') E (Spec.xyz (M u).rep bn (ln + e • ![1, 0, 0]))) ray) ∧ ray ≠ 0 ∧ ray ⬝ᵥ D' = ray ⬝ᵥ D) := by
  have hW := St.prog_W hs.prog
  have hI := St.reach_inv hs.prog.reach
  obtain ⟨R, h1, h2, hid, hsz, h4, h5, h6, F, h7, h8⟩ := anchorStep_spec hlib hs hm h
  obtain ⟨ao, hao⟩ := Option.isSome_iff_exists.1 (view_clone_some hW hI C.fej C.kind hm.oldClone)
  obtain ⟨an, han⟩ := Option.isSome_iff_exists.1 (view_clone_some hW hI C.fej C.kind hm.newClone)
  obtain ⟨co, hco⟩ := Option.isSome_iff_exists.1 (view_calib_some hW C.fej C.kind hm.oldCam)
  obtain ⟨cn, hcn⟩ := Option.isSome_iff_exists.1 (view_calib_some hW C.fej C.kind hm.newCam)
  obtain ⟨v, hv⟩ := hm.value
  have hvv : ∃ n v, (s.obj u).val = .vec n v := ⟨_, v, hv⟩
  have hd : (lmOf s M u).dim = 1 := by simp [lmOf, hv, Val.size, Land.Spec.dimOf, hns]
  unfold Spec.At at hg
  rw [if_pos hm.rep] at hg
  obtain ⟨A, A', E, c1, c2, rfl⟩ := hg
  obtain ⟨rfl, rfl⟩ := cloneAt_unique hW c1 (view_clone _ _ hao)
  obtain rfl := extrAt_unique c2 (view_calib _ _ hco)
  refine ⟨by obtain ⟨P, b, rfl⟩ := h2; rfl, F, h7, fun x δ bo lo bn ln hx => ?_⟩
  obtain ⟨k1, k2⟩ := h8 x δ hx
  refine ⟨k1, reads_after hW hI hm.inState hvv h2 k1 hx, fun hlo hln eo en => ?_⟩
  have en' := en _ _ _ ((h2.cloneAt hW hvv _ _ _).2 (view_clone _ _ han)) ((h2.extrAt hW hvv _ _).2 (view_calib _ _ hcn))
  have eo' := eo _ _ _ (view_clone _ _ hao) (view_calib _ _ hco)
  obtain ⟨-, -, D, D', ray, d1, d2, d3, d4, d5⟩ := C80_covariance_single_partial (view s C.fej C.kind) (view_units hu) (almOf s M u) hns hd hm.cam hao han hco hcn hp h1 hlo hln
    eo' en' δ (Spec.lmErr s (Spec.rows x) u) (fun hf c k => hx.2.2 c k hf)
  refine ⟨_, _, D, D', ray, ?_, ?_, d1, d2, ?_, d4, d5⟩
  · unfold Spec.Moves
    rw [if_pos hm.rep]
    exact ⟨_, _, _, view_clone _ _ hao, view_calib _ _ hco, fun e => rfl⟩
  · unfold Spec.Moves
    rw [h5, if_pos hm.rep]
    refine ⟨_, _, _, (h2.cloneAt hW hvv _ _ _).2 (view_clone _ _ han), (h2.extrAt hW hvv _ _).2 (view_calib _ _ hcn), fun e => ?_⟩
    have : Spec.lmErr s' (Spec.rows (F.mulVec x)) u = Spec.lmErr s (Spec.rows (F.mulVec x)) u := by
      unfold Spec.lmErr; rw [hid, hsz]
    rw [this, k2]
    rfl
  · intro B B' E hB hE
    obtain ⟨rfl, rfl⟩ := cloneAt_unique hW ((h2.cloneAt hW hvv _ _ _).1 hB) (view_clone _ _ han)
    obtain rfl := extrAt_unique ((h2.extrAt hW hvv _ _).1 hE) (view_calib _ _ hcn)
    exact d3

/-! ## all landmarks -/

/-- every landmark is a vector of its representation's dimension in a known representation and, if it is anchored, anchored in an existing camera and a clone of the window. -/
def Spec.LmsOK (o : St.Opts) (s : St.State) (M : ℕ → LMeta) : Prop :=
  Spec.Anchored o s M ∧ ∀ e ∈ s.slam, ∃ v, (s.obj e.2).val = .vec (Land.Spec.dimOf (M e.2).rep) v

theorem Spec.LmsOK.sizes (h : Spec.LmsOK o s M) : Spec.Sizes s M := by
  intro e he
  obtain ⟨v, hv⟩ := h.2 e he
  rw [hv]; rfl

/-- the fields of a landmark that an anchor change does not touch. -/
def Spec.SameLm (a b : LMeta) : Prop := b.rep = a.rep ∧ b.cam = a.cam ∧ b.fails = a.fails ∧ b.ucam = a.ucam

theorem Spec.SameLm.refl (a : LMeta) : Spec.SameLm a a := ⟨rfl, rfl, rfl, rfl⟩

theorem Spec.SameLm.trans {a b c : LMeta} (h : Spec.SameLm a b) (h' : Spec.SameLm b c) : Spec.SameLm a c :=
  ⟨h'.1.trans h.1, h'.2.1.trans h.2.1, h'.2.2.1.trans h.2.2.1, h'.2.2.2.trans h.2.2.2⟩

/-- the result of moving the landmarks in `l` that are anchored at `mt` to the clone of the current time. -/
structure Moved (o : St.Opts) (mt : ℝ) (l : List (ℕ × ℕ)) (s : St.State) (M : ℕ → LMeta) (s' : St.State) (M' : ℕ → LMeta) : Prop where
  only : ∃ P obj, s' = { s with P := P, obj := obj }
  ok : Spec.LmsOK o s' M'
  same : ∀ w, Spec.SameLm (M w) (M' w)
  out : ∀ w, (∀ e ∈ l, e.2 ≠ w) → M' w = M w ∧ s'.obj w = s.obj w
  stay : ∀ w, ¬ (Land.Spec.Anchored (M w).rep ∧ (M w).t = mt) → M' w = M w ∧ s'.obj w = s.obj w
  move : ∀ e ∈ l, Land.Spec.Anchored (M e.2).rep → (M e.2).t = mt → (M' e.2).t = s.ts

theorem anchorOne_spec (hlib : St.Spec.LibOK lib) {C : SCfg} {mt : ℝ} (hs : St.Spec.ProgOK lib o s) (hl : Spec.LmsOK o s M) (hts : ∃ w, (s.ts, w) ∈ s.clones)
    (hmt : ∀ c ∈ s.clones, mt ≤ c.1) {e : ℕ × ℕ} (he : e ∈ s.slam) :
    ∃ s' M', anchorOne lib C mt e.2 (s, M) = some (s', M') ∧ St.Spec.ProgOK lib o s' ∧ Moved o mt [e] s M s' M' := by
  have hW := St.prog_W hs.prog
  unfold anchorOne
  simp only
  by_cases hg : (M e.2).rep = .global3d ∨ (M e.2).rep = .globalFull
  · rw [if_pos hg]
    have hna : ¬ Land.Spec.Anchored (M e.2).rep := by rcases hg with h | h <;> rw [h] <;> simp [Land.Spec.Anchored]
    exact ⟨s, M, rfl, hs, ⟨s.P, s.obj, rfl⟩, hl, fun w => Spec.SameLm.refl _, fun w _ => ⟨rfl, rfl⟩, fun w _ => ⟨rfl, rfl⟩, fun e' he' ha => by
      obtain rfl := List.mem_singleton.1 he'; exact absurd ha hna⟩
  rw [if_neg hg]
  obtain ⟨a1, a2⟩ := hl.1 e he
  have ha : Land.Spec.Anchored (M e.2).rep := by
    push Not at hg
    revert a1 hg
    cases (M e.2).rep <;> simp [Land.Spec.Anchored]
  obtain ⟨⟨c, hc, hcn⟩, w, hw⟩ := a2 ((rel_anchored _).2 ha)
  rw [if_neg (not_not.2 (hmt _ hw))]
  by_cases ht : (M e.2).t = mt
  · rw [if_pos ht, hc, Option.bind_some]
    have hm : Spec.Movable o s M e.2 c c s.ts := ⟨(hW.sin e he).1, hl.2 e he, ha, hc, hcn, ⟨w, hw⟩, hcn, hts⟩
    obtain ⟨s', M', P, v, f, h1, h2, h3, h4, h5, h6, h7, h8, h9⟩ := C105_anchor_change (C := C) hlib hs hm
    have hob : ∀ w, w ≠ e.2 → s'.obj w = s.obj w := fun w hw => by rw [h3]; simp [hw]
    have hsl : s'.slam = s.slam := by rw [h3]
    have hcl : s'.clones = s.clones := by rw [h3]
    refine ⟨s', M', h1, h2, ⟨P, _, h3⟩, ⟨fun e' he' => ?_, fun e' he' => ?_⟩, fun w => ?_, fun w hw => ?_, fun w hw => ?_, fun e' he' _ _ => ?_⟩
    · rw [hsl] at he'
      rw [hcl]
      by_cases hee : e'.2 = e.2
      · rw [hee, h5]
        exact ⟨a1, fun _ => ⟨⟨c, h6, hcn⟩, by rw [h7]; exact hts⟩⟩
      · rw [h4 _ hee]; exact hl.1 e' he'
    · rw [hsl] at he'
      by_cases hee : e'.2 = e.2
      · rw [hee, h5]
        exact ⟨v, by rw [h3]; simp⟩
      · rw [h4 _ hee, hob _ hee]; exact hl.2 e' he'
    · by_cases hee : w = e.2
      · subst hee; exact ⟨h5, by rw [h6, hc], h8, h9⟩
      · rw [h4 w hee]; exact Spec.SameLm.refl _
    · have := (hw e (by simp)).symm
      exact ⟨h4 w this, hob w this⟩
    · by_cases hee : w = e.2
      · subst hee; exact absurd ⟨ha, ht⟩ hw
      · exact ⟨h4 w hee, hob w hee⟩
    · obtain rfl := List.mem_singleton.1 he'; exact h7
  · rw [if_neg ht]
    exact ⟨s, M, rfl, hs, ⟨s.P, s.obj, rfl⟩, hl, fun w => Spec.SameLm.refl _, fun w _ => ⟨rfl, rfl⟩, fun w _ => ⟨rfl, rfl⟩, fun e' he' _ h => by
      obtain rfl := List.mem_singleton.1 he'; exact absurd h ht⟩

theorem anchorLoop_spec (hlib : St.Spec.LibOK lib) {C : SCfg} {mt : ℝ} : ∀ (l : List (ℕ × ℕ)) (s : St.State) (M : ℕ → LMeta), St.Spec.ProgOK lib o s → Spec.LmsOK o s M →
    (∃ w, (s.ts, w) ∈ s.clones) → (∀ c ∈ s.clones, mt ≤ c.1) → mt ≠ s.ts → (∀ e ∈ l, e ∈ s.slam) →
    ∃ s' M', anchorLoop lib C mt l (s, M) = some (s', M') ∧ St.Spec.ProgOK lib o s' ∧ Moved o mt l s M s' M'
  | [], s, M, hs, hl, _, _, _, _ => ⟨s, M, rfl, hs, ⟨s.P, s.obj, rfl⟩, hl, fun w => Spec.SameLm.refl _, fun w _ => ⟨rfl, rfl⟩, fun w _ => ⟨rfl, rfl⟩, by simp⟩
  | e :: t, s, M, hs, hl, hts, hmt, hne, he => by
    obtain ⟨s1, M1, h1, h2, m1⟩ := anchorOne_spec (C := C) (mt := mt) hlib hs hl hts hmt (he e (by simp))
    have g1 : s1.clones = s.clones ∧ s1.ts = s.ts ∧ s1.slam = s.slam := by obtain ⟨P, b, rfl⟩ := m1.only; exact ⟨rfl, rfl, rfl⟩
    obtain ⟨s2, M2, k1, k2, m2⟩ := anchorLoop_spec hlib (C := C) t s1 M1 h2 m1.ok (by rw [g1.1, g1.2.1]; exact hts) (by rw [g1.1]; exact hmt) (by rw [g1.2.1]; exact hne)
      (fun x hx => by rw [g1.2.2]; exact he x (by simp [hx]))
    refine ⟨s2, M2, by simp only [anchorLoop, h1, Option.bind_eq_bind, Option.bind_some, k1], k2, ?_, m2.ok, fun w => (m1.same w).trans (m2.same w), fun w hw => ?_, fun w hw => ?_,
      fun x hx ha ht => ?_⟩
    · obtain ⟨P, b, rfl⟩ := m1.only
      obtain ⟨P', b', rfl⟩ := m2.only
      exact ⟨P', b', rfl⟩
    · obtain ⟨a1, a2⟩ := m1.out w (fun x hx => hw x (by simp at hx; simp [hx]))
      obtain ⟨b1, b2⟩ := m2.out w (fun x hx => hw x (by simp [hx]))
      exact ⟨b1.trans a1, b2.trans a2⟩
    · obtain ⟨a1, a2⟩ := m1.stay w hw
      obtain ⟨b1, b2⟩ := m2.stay w (by rw [a1]; exact hw)
      exact ⟨b1.trans a1, b2.trans a2⟩
    · by_cases hx' : x.2 = e.2
      · have ht' := m1.move e (by simp) (by rw [← hx']; exact ha) (by rw [← hx']; exact ht)
        rw [hx', (m2.stay e.2 (fun h => hne (by rw [← ht', h.2]))).1, ht']
      · have hx1 : x ∈ t := by
          rcases List.mem_cons.1 hx with rfl | h
          · exact absurd rfl hx'
          · exact h
        have e1 := (m1.out x.2 (fun y hy => by obtain rfl := List.mem_singleton.1 hy; exact fun h => hx' h.symm)).1
        rw [m2.move x hx1 (by rw [e1]; exact ha) (by rw [e1]; exact ht), g1.2.1]

/-- **C105** (all landmarks) When the window has one clone too many, the anchor changes before the oldest clone is dropped complete; they change nothing but landmarks and the
covariance. A landmark that is global, or anchored elsewhere, is not touched. One anchored at the oldest clone keeps representation, camera and failure count and is anchored at
the newest clone afterwards; so no anchored landmark refers to the clone that is going to be dropped. -/
theorem C105_change_anchors (hlib : St.Spec.LibOK lib) (hs : St.Spec.ProgOK lib o s) {C : SCfg} (hl : Spec.LmsOK o s M) (h1 : 1 ≤ o.maxClones)
    (hts : ∃ w, (s.ts, w) ∈ s.clones) (hnew : ∀ c ∈ s.clones, c.1 ≤ s.ts) (hbig : o.maxClones < s.clones.length) :
    ∃ s' M' mt, anchorsState lib C s M = some (s', M') ∧ St.Spec.ProgOK lib o s' ∧ (∃ P obj, s' = { s with P := P, obj := obj }) ∧ Spec.LmsOK o s' M' ∧
      (∃ w, (mt, w) ∈ s.clones) ∧ (∀ c ∈ s.clones, mt ≤ c.1) ∧ mt < s.ts ∧
      (∀ w, (∀ e ∈ s.slam, e.2 ≠ w) → s'.obj w = s.obj w) ∧
      ∀ e ∈ s.slam, Spec.SameLm (M e.2) (M' e.2) ∧
        (Land.Spec.Anchored (M e.2).rep ∧ (M e.2).t = mt → (M' e.2).t = s.ts) ∧
        (¬ (Land.Spec.Anchored (M e.2).rep ∧ (M e.2).t = mt) → M' e.2 = M e.2 ∧ s'.obj e.2 = s.obj e.2) := by
  have hW := St.prog_W hs.prog
  have hop := hW.opts
  obtain ⟨c, c', t, hc⟩ : ∃ c c' t, s.clones = c :: c' :: t := by
    rcases hcl : s.clones with _ | ⟨c, _ | ⟨c', t⟩⟩
    · rw [hcl] at hbig; simp at hbig
    · rw [hcl] at hbig; simp at hbig; omega
    · exact ⟨c, c', t, rfl⟩
  have hmt := St.margtimestep_sorted hc hW.sorted
  have hso := hW.sorted
  rw [hc] at hso
  have hmin : ∀ x ∈ s.clones, c.1 ≤ x.1 := by
    rw [hc]; intro x hx
    rcases List.mem_cons.1 hx with rfl | hx
    · exact le_refl _
    · exact ((List.pairwise_cons.1 hso).1 x hx).le
  have hlt : c.1 < s.ts := lt_of_lt_of_le ((List.pairwise_cons.1 hso).1 c' (by simp)) (hnew c' (by rw [hc]; simp))
  obtain ⟨s', M', k1, k2, m⟩ := anchorLoop_spec hlib (C := C) s.slam s M hs hl hts hmin hlt.ne fun _ h => h
  refine ⟨s', M', c.1, ?_, k2, m.only, m.ok, ⟨c.2, by rw [hc]; simp⟩, hmin, hlt, fun w hw => (m.out w hw).2, fun e he => ⟨m.same _, fun h => m.move e he h.1 h.2, m.stay _⟩⟩
  unfold anchorsState
  rw [if_neg (by rw [hop]; omega), hmt]
  simp only [Option.bind_eq_bind, Option.bind_some, k1]

/-! ## a concrete case -/

/-- after clones at times 1 and 2, the second one a step to the side, and a landmark of dimension `n` with value `v`. -/
theorem exLandmark (lib : St.Lib) {n : ℕ} (hn : 0 < n) (v : ℕ → ℝ) : ∃ s u, St.Spec.ProgOK lib exO s ∧ s.clones = [(1, 9), (2, 10)] ∧ s.slam = [(7, u)] ∧ u ∈ s.vars ∧
    (s.obj u).val = .vec n v ∧ Spec.CloneAt s 1 pose1 pose1 ∧ Spec.CloneAt s 2 ⟨pose1.q, ![1, 0, 0]⟩ pose1 ∧ Spec.ExtrAt s 0 pose1 := by
  obtain ⟨s0, hs0, hc0, hv1, hv2, hv3, hv4, hsl, hcl⟩ := exState lib
  have hW0 := St.prog_W hs0.prog
  have c1 := view_clone _ _ hv1
  have c2 := view_clone _ _ hv2
  have c3 := view_calib _ _ hv3
  have p1 : (s0.obj 9).val = .pose pose1.q pose1.p ∧ (s0.obj 9).fej = .pose pose1.q pose1.p := by
    obtain ⟨u, hu, h1, h2⟩ := c1; rw [hcl] at hu; simp at hu; subst hu; exact ⟨h1, h2⟩
  have p2 : (s0.obj 10).val = .pose pose1.q pose1.p ∧ (s0.obj 10).fej = .pose pose1.q pose1.p := by
    obtain ⟨u, hu, h1, h2⟩ := c2; rw [hcl] at hu; simp at hu; subst hu; exact ⟨h1, h2⟩
  let s1 : St.State := { s0 with obj := fun w => if w = 10 then { s0.obj 10 with val := .pose pose1.q ![1, 0, 0] } else s0.obj w }
  have hs1 : St.Spec.ProgOK lib exO s1 := Prop_.progOK_step hs0 (op := .setVal 10 (.pose pose1.q ![1, 0, 0])) trivial trivial (by simp [St.step, p2.1, St.sameKind, s1])
  have hI0 := St.reach_inv hs0.prog.reach
  have hnx : 10 < s0.next := hI0.alloc 10 (hW0.cin (2, 10) (by rw [hcl]; simp)).1
  let u := s0.next
  let s2 : St.State := { s1 with obj := fun w => if w = u then ⟨-1, .vec n v, .vec n v, false, true⟩ else s1.obj w, next := u + 1 }
  have hs2 : St.Spec.ProgOK lib exO s2 := Prop_.progOK_step hs1 (op := .alloc (.vec n v) (.vec n v)) trivial trivial (by simp [St.step, St.sameKind, s2, s1, u])
  have hI2 := St.reach_inv hs2.prog.reach
  have hun : u ∉ s2.vars := fun h => lt_irrefl _ (hI0.alloc u h)
  obtain ⟨Ma, hMa⟩ := Option.isSome_iff_exists.1 (St.fillMa_ok s2 [] n (fun _ _ => 0) s2.vars (fun _ _ => 0) fun w hw => by
    obtain ⟨k, -, -, e⟩ := hI2.resolve_self hw; rw [e]; rfl)
  have h3 : St.initInv lib s2 u [] ⟨n, 0, fun _ _ => 0⟩ ⟨n, n, one⟩ ⟨n, n, one⟩ ⟨n, fun _ => 0⟩ = some { s2 with
        n := s2.n + n,
        P := St.initCov s2.n n s2.P Ma (lib.inv n one) (St.resCov 0 (fun _ _ => 0) (St.margCov s2.P []) one),
        obj := fun w => if w = u then { s2.obj u with val := (s2.obj u).val.update (Mat.mulVec n (lib.inv n one) fun _ => 0), id := s2.n } else s2.obj w,
        vars := s2.vars ++ [u] } := by
    have hz : (s2.obj u).val.size = n := by simp [s2, Val.size]
    unfold St.initInv
    rw [if_neg (by push Not; exact ⟨hun, by simp [s2]⟩), if_neg (by simp [hn]), if_neg (not_not.2 (show St.isoNoise n one from fun r c _ _ => ⟨by rintro rfl; simp [one], fun h => by simp [one, h]⟩)),
      if_neg (by simp)]
    simp only [St.resolveAll, St.tot, Option.bind_eq_bind, Option.bind_some, ne_eq, not_true_eq_false, if_false, hMa, hz, and_self]
  have hs3 := Prop_.progOK_step hs2 (op := .initInv u [] ⟨n, 0, fun _ _ => 0⟩ ⟨n, n, one⟩ ⟨n, n, one⟩ ⟨n, fun _ => 0⟩) trivial (by simp [St.Spec.ArgsOK, one]) h3
  generalize hs3d : ({ s2 with
        n := s2.n + n,
        P := St.initCov s2.n n s2.P Ma (lib.inv n one) (St.resCov 0 (fun _ _ => 0) (St.margCov s2.P []) one),
        obj := fun w => if w = u then { s2.obj u with val := (s2.obj u).val.update (Mat.mulVec n (lib.inv n one) fun _ => 0), id := s2.n } else s2.obj w,
        vars := s2.vars ++ [u] } : St.State) = s3 at hs3
  have hlow : ∀ w, w < u → s3.obj w = s1.obj w := by
    intro w hw
    rw [← hs3d]; simp [s2, hw.ne]
  have hou : s3.obj u = ⟨s2.n, (Val.vec n v).update (Mat.mulVec n (lib.inv n one) fun _ => 0), .vec n v, false, true⟩ := by
    rw [← hs3d]; simp [s2]
  have hvu : (s3.obj u).val = .vec n v := by
    rw [hou]
    simp [Val.update, Mat.mulVec]
  have hin : u ∈ s3.vars := by rw [← hs3d]; simp
  have hsl3 : s3.slam = [] := by rw [← hs3d]; exact hsl
  have hcl3 : s3.clones = [(1, 9), (2, 10)] := by rw [← hs3d]; exact hcl
  have hop3 : s3.opts = s0.opts := by rw [← hs3d]
  have hs4 : St.Spec.ProgOK lib exO { s3 with slam := [(7, u)] } :=
    Prop_.progOK_step hs3 (op := .addSlam 7 u) trivial trivial (by simp [St.step, hsl3, hin, hou])
  refine ⟨_, u, hs4, hcl3, rfl, hin, hvu, ⟨9, by rw [hcl3]; simp, ?_, ?_⟩, ⟨10, by rw [hcl3]; simp, ?_, ?_⟩, by rw [hop3]; exact c3.1, ?_⟩
  · simp only [hlow 9 (by omega)]; simpa [s1] using p1.1
  · simp only [hlow 9 (by omega)]; simpa [s1] using p1.2
  · simp only [hlow 10 (by omega)]; simp [s1]
  · simp only [hlow 10 (by omega)]; simpa [s1] using p2.2
  · simp only [mul_zero, add_zero, hlow 7 (by omega)]
    have := c3.2
    simp only [mul_zero, add_zero] at this
    simpa [s1] using this

/-- the hypotheses of C105 are met by a landmark anchored at the first clone, in Cartesian form and as a single depth; it is moved to the second, which is elsewhere. -/
example {r : Rep} (hr : r = .anchored3d ∨ r = .anchoredSingle) : ∃ (s : St.State) (M : ℕ → LMeta) (u : ℕ) (p g : V3), St.Spec.ProgOK lib exO s ∧
    Spec.Movable exO s M u 0 0 2 ∧ (M u).rep = r ∧ (M u).t = 1 ∧ Spec.UnitPoses s ∧ (lmOf s M u).getXyz false = some p ∧ Spec.At s (M u).rep 0 (M u).t p g ∧
    Spec.LmsOK exO s M ∧ s.slam = [(7, u)] ∧ (∀ A A' E, Spec.CloneAt s 2 A A' → Spec.ExtrAt s 0 E → Land.Spec.Dom (M u).rep (Spec.inCam A E g)) ∧
    ∃ bo lo bn ln, Spec.Chart r bo lo ∧ Spec.Chart r bn ln ∧
      (∀ B B' E, Spec.CloneAt s 1 B B' → Spec.ExtrAt s 0 E → Spec.world (Spec.linPose false B B') E (Spec.xyz r bo lo) = g) ∧
      (∀ B B' E, Spec.CloneAt s 2 B B' → Spec.ExtrAt s 0 E → Spec.world (Spec.linPose false B B') E (Spec.xyz r bn ln) = g) := by
  have ha : Land.Spec.Anchored r := by rcases hr with rfl | rfl <;> trivial
  obtain ⟨s, u, hs, hcl, hsl, hu, hv, c1, c2, c3⟩ := exLandmark lib (n := Land.Spec.dimOf r) (by unfold Land.Spec.dimOf; split_ifs <;> norm_num)
    (fun i => if r = .anchoredSingle then 1 else if i = 2 then 1 else 0)
  have hW := St.prog_W hs.prog
  have hm1 : ∃ w, ((1 : ℝ), w) ∈ s.clones := ⟨9, by rw [hcl]; simp⟩
  have hm2 : ∃ w, ((2 : ℝ), w) ∈ s.clones := ⟨10, by rw [hcl]; simp⟩
  have hR : ∀ p, (⟨⟨0, 0, 0, 1⟩, p⟩ : Pose).R = 1 := by
    intro p
    unfold Pose.R
    funext i j; fin_cases i <;> fin_cases j <;> simp [quat2Rot, skew, outer, Quat.vec] <;> norm_num
  have hR1 : pose1.R = 1 := hR 0
  have hR2 : ∀ p, (⟨pose1.q, p⟩ : Pose).R = 1 := hR
  have hp1 : pose1.p = 0 := rfl
  have hE : ∀ c E, Spec.ExtrAt s c E → c = 0 ∧ E = pose1 := by
    intro c E h
    have : c = 0 := by
      have h1 := h.1
      rw [hW.opts] at h1
      simpa [exO] using h1
    subst this
    exact ⟨rfl, extrAt_unique h c3⟩
  have hA : ∀ t A A', Spec.CloneAt s t A A' → A.q = pose1.q ∧ A' = pose1 := by
    intro t A A' h
    obtain ⟨w, hw, -⟩ := id h
    rw [hcl] at hw
    simp only [List.mem_cons, Prod.mk.injEq, List.not_mem_nil, or_false] at hw
    rcases hw with ⟨rfl, -⟩ | ⟨rfl, -⟩
    · obtain ⟨rfl, rfl⟩ := cloneAt_unique hW h c1; exact ⟨rfl, rfl⟩
    · obtain ⟨rfl, rfl⟩ := cloneAt_unique hW h c2; exact ⟨rfl, rfl⟩
  refine ⟨s, fun _ => ⟨r, some 0, 1, ![0, 0, 1], ![0, 0, 1], 0, some 0⟩, u, ![0, 0, 1], ![0, 0, 1], hs, ⟨hu, ⟨_, hv⟩, ha, rfl, by simp [exO], hm1, by simp [exO], hm2⟩, rfl, rfl,
    ⟨fun t A A' h => ?_, fun c E h => ?_⟩, ?_, ?_, ⟨fun e he => ⟨by rcases hr with rfl | rfl <;> simp, fun _ => ⟨⟨0, rfl, by simp [exO]⟩, hm1⟩⟩, fun e he => ?_⟩, hsl,
    fun A A' E h1 h2 => ?_, ![0, 0, 1], if r = .anchoredSingle then ![1, 0, 0] else ![0, 0, 1], ![-1, 0, 1], if r = .anchoredSingle then ![1, 0, 0] else ![-1, 0, 1], ?_, ?_,
    fun B B' E h1 h2 => ?_, fun B B' E h1 h2 => ?_⟩
  · obtain ⟨h1, h2⟩ := hA t A A' h; rw [h1, h2]; simp [pose1, IsUnitQ]
  · rw [(hE c E h).2]; simp [pose1, IsUnitQ]
  · rcases hr with rfl | rfl
    · simp only [lmOf, Lm.getXyz, hv, valV3, Land.Spec.dimOf]
      congr 1
      funext i; fin_cases i <;> simp
    · simp only [lmOf, Lm.getXyz, hv, valV3, Land.Spec.dimOf]
      congr 1
      funext i; fin_cases i <;> simp
  · unfold Spec.At
    rw [if_pos ha]
    exact ⟨pose1, pose1, pose1, c1, c3, by simp [Spec.world, hR1, hp1]⟩
  · rw [hsl] at he
    obtain rfl := List.mem_singleton.1 he
    exact ⟨_, hv⟩
  · obtain ⟨rfl, rfl⟩ := cloneAt_unique hW h1 c2
    rw [(hE _ _ h2).2]
    rcases hr with rfl | rfl
    · trivial
    · simp only [Land.Spec.Dom, Spec.inCam, hR1, hR2, hp1]
      simp
  · rcases hr with rfl | rfl <;> simp [Spec.Chart]
  · rcases hr with rfl | rfl <;> simp [Spec.Chart]
  · obtain ⟨rfl, rfl⟩ := cloneAt_unique hW h1 c1
    rw [(hE _ _ h2).2]
    rcases hr with rfl | rfl <;> simp [Spec.world, Spec.linPose, hR1, hp1, Spec.xyz]
  · obtain ⟨rfl, rfl⟩ := cloneAt_unique hW h1 c2
    rw [(hE _ _ h2).2]
    rcases hr with rfl | rfl <;> simp [Spec.world, Spec.linPose, hR1, hR2, hp1, Spec.xyz]

end Verif.Upd
