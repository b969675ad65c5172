import Verif.Mle.SpecProblem
import Mathlib.Tactic.IntervalCases

/-! # Lemmas: the problem built refines the specification -/

open Classical

namespace Verif.Mle

open Verif Verif.Imu Verif.Feat

/-! ## Index maps -/

/-- position in a list. -/
noncomputable def ix {κ : Type} : List κ → κ → ℕ
  | [], _ => 0
  | a :: l, k => if a = k then 0 else ix l k + 1

theorem ix_new {κ : Type} (d r : List κ) (k : κ) (h : k ∉ d) : ix (d ++ k :: r) k = d.length := by
  induction d with
  | nil => simp [ix]
  | cons a d ih =>
    simp only [List.mem_cons, not_or] at h
    simp [ix, Ne.symm h.1, ih h.2]

theorem idx_zip {κ : Type} (l : List κ) (k : κ) (n : ℕ) : idx (l.zipIdx n) k = if k ∈ l then some (n + ix l k) else none := by
  induction l generalizing n with
  | nil => simp [idx]
  | cons a l ih =>
    rw [List.zipIdx_cons, idx, ih]
    by_cases h : a = k
    · simp [h, ix]
    · have : k ≠ a := Ne.symm h
      simp only [h, if_false, List.mem_cons, this, false_or, ix]
      split_ifs <;> simp; omega

theorem get_ix {κ : Type} (l : List κ) (k : κ) (h : k ∈ l) : l[ix l k]? = some k := by
  induction l with
  | nil => simp at h
  | cons a l ih =>
    by_cases ha : a = k
    · simp [ix, ha]
    · have : k ∈ l := by
        rcases List.mem_cons.1 h with h | h
        · exact absurd h.symm ha
        · exact h
      simp [ix, ha, ih this]

theorem idx_mem {κ : Type} (l : List κ) (k : κ) (h : k ∈ l) : idx l.zipIdx k = some (ix l k) := by
  rw [idx_zip, if_pos h, Nat.zero_add]
theorem idx_not {κ : Type} (l : List κ) (k : κ) (h : k ∉ l) : idx l.zipIdx k = none := by
  rw [idx_zip, if_neg h]
theorem get_map_ix {κ α : Type} (l : List κ) (f : κ → α) (k : κ) (h : k ∈ l) : (l.map f)[ix l k]? = some (f k) := by
  rw [List.getElem?_map, get_ix l k h]; rfl
theorem ins_new {κ : Type} (l : List κ) (k : κ) (h : k ∉ l) : ins l.zipIdx k l.length = (l ++ [k]).zipIdx := by
  rw [ins, idx_not l k h, List.zipIdx_append]; simp

/-! ## Addresses -/

/-- where the array of an unknown is. -/
noncomputable def adr (T : List ℝ) (C L : List ℕ) : Var → Ptr
  | .ori t => 5 * ix T t
  | .pos t => 5 * ix T t + 1
  | .vel t => 5 * ix T t + 2
  | .bg t => 5 * ix T t + 3
  | .ba t => 5 * ix T t + 4
  | .extO c => 5 * T.length + 3 * ix C c
  | .extP c => 5 * T.length + 3 * ix C c + 1
  | .intr c => 5 * T.length + 3 * ix C c + 2
  | .feat f => 5 * T.length + 3 * C.length + ix L f

def Term.to {α β : Type} (A : α → β) (t : Term α) : Term β := ⟨t.fac, t.cauchy, t.vars.map A⟩

def blkOf (A : Var → Ptr) (v : Var) : Blk Ptr := ⟨A v, v.size, v.isQuat⟩

/-- the program state when the unknowns `vs` have been allocated, the blocks `cn` are constant, the terms are `tm`, and the index maps hold `Td`, `Ed`, `Cd`,
`Ld`. -/
noncomputable def gOf (A : Var → Ptr) (X : Est) (vs cn : List Var) (tm : List (Term Var)) (Td : List ℝ) (Ed Cd Ld : List ℕ) : G where
  heap := vs.map X.enc
  blks := vs.map (blkOf A)
  const := cn.map A
  terms := tm.map (Term.to A)
  states := Td.zipIdx
  ori := Td.map fun t => A (.ori t)
  pos := Td.map fun t => A (.pos t)
  vel := Td.map fun t => A (.vel t)
  bg := Td.map fun t => A (.bg t)
  ba := Td.map fun t => A (.ba t)
  exts := Ed.zipIdx
  extO := Ed.map fun c => A (.extO c)
  extP := Ed.map fun c => A (.extP c)
  cams := Cd.zipIdx
  intr := Cd.map fun c => A (.intr c)
  feats := Ld.zipIdx
  feat := Ld.map fun f => A (.feat f)

def stVars (t : ℝ) : List Var := [.ori t, .pos t, .vel t, .bg t, .ba t]
def camVars (c : ℕ) : List Var := [.extO c, .extP c, .intr c]
def navVars (t : ℝ) : List Var := [.ori t, .bg t, .vel t, .ba t, .pos t]

/-- the prior on the state of a time. -/
noncomputable def priorTerm (p : PIn) (t : ℝ) : Term Var := ⟨firstPrior (p.nav t), false, [.ori t, .pos t, .bg t, .ba t]⟩

/-- the terms of the remaining times after `prev`. -/
noncomputable def stTerms (p : PIn) : Option ℝ → List ℝ → List (Term Var)
  | _, [] => []
  | none, t :: l => priorTerm p t :: stTerms p (some t) l
  | some s, t :: l => (match p.cpi t with
      | none => []
      | some c => [⟨.imu c, false, navVars s ++ navVars t⟩]) ++ stTerms p (some t) l

noncomputable def camTerms (p : PIn) (c : ℕ) : List (Term Var) :=
  [⟨extPrior ((Spec.start p).ext c).1 ((Spec.start p).ext c).2, false, [.extO c, .extP c]⟩, ⟨intrPrior ((Spec.start p).intr c), false, [.intr c]⟩]

def obsTerm (o : Spec.Obs) : Term Var := ⟨.img o.uv o.kind, true, [.ori o.t, .pos o.t, .feat o.id, .extO o.cam, .extP o.cam, .intr o.cam]⟩

/-! ## The states -/

section
variable (p : PIn) (A : Var → Ptr)

theorem statePtrs_gOf (X : Est) (vs cn : List Var) (tm : List (Term Var)) (Td : List ℝ) (Ed Cd Ld : List ℕ) (t : ℝ) (h : t ∈ Td) :
    statePtrs (gOf A X vs cn tm Td Ed Cd Ld) t = some ((navVars t).map A) := by
  simp only [statePtrs, gOf, idx_mem Td t h, Option.bind_eq_bind, Option.bind_some, get_map_ix Td _ t h, navVars, List.map_cons, List.map_nil]

theorem pushed (vs : List Var) (tm : List (Term Var)) (Td : List ℝ) (t : ℝ) (hA : ∀ i (h : i < 5), A ((stVars t)[i]'h) = vs.length + i) (ht : t ∉ Td) :
    pushState (priorState (allocState (gOf A (Spec.start p) vs [] tm Td [] [] []) (p.nav t)) vs.length (p.nav t)) vs.length t =
      gOf A (Spec.start p) (vs ++ stVars t) [] (tm ++ if Td = [] then [priorTerm p t] else []) (Td ++ [t]) [] [] [] := by
  have h0 : A (.ori t) = vs.length := hA 0 (by norm_num)
  have h1 : A (.pos t) = vs.length + 1 := hA 1 (by norm_num)
  have h2 : A (.vel t) = vs.length + 2 := hA 2 (by norm_num)
  have h3 : A (.bg t) = vs.length + 3 := hA 3 (by norm_num)
  have h4 : A (.ba t) = vs.length + 4 := hA 4 (by norm_num)
  have hi := ins_new Td t ht
  have hst : ∀ u, (Spec.start p).nav u = p.nav u := fun _ => rfl
  by_cases hT : Td = []
  · subst hT
    simp [pushState, priorState, allocState, gOf, stVars, Est.enc, blkOf, Var.size, Var.isQuat, priorTerm, Term.to, h0, h1, h2, h3, h4, hst, ins, idx]
  · have : Td.zipIdx.isEmpty = false := by cases Td <;> simp_all
    simp [pushState, priorState, allocState, gOf, stVars, Est.enc, blkOf, Var.size, Var.isQuat, h0, h1, h2, h3, h4, hst, this, hi, hT]

theorem addStates_gOf (rest : List ℝ) : ∀ (vs : List Var) (tm : List (Term Var)) (Td : List ℝ) (tk : ℝ), (Td ++ rest).Nodup → (-1 : ℝ) ∉ Td ++ rest →
    (∀ t ∈ rest, ∀ d r, Td ++ rest = d ++ t :: r → ∀ i (h : i < 5), A ((stVars t)[i]'h) = 5 * d.length + i) → vs.length = 5 * Td.length →
    (Td = [] → ∀ t l, rest = t :: l → p.cpi t = none) → (Td ≠ [] → Td.getLast? = some tk) →
    addStates p (gOf A (Spec.start p) vs [] tm Td [] [] []) tk rest =
      some (gOf A (Spec.start p) (vs ++ rest.flatMap stVars) [] (tm ++ stTerms p Td.getLast? rest) (Td ++ rest) [] [] []) := by
  induction rest with
  | nil => intro vs tm Td tk _ _ _ _ _ _; simp [addStates, stTerms]
  | cons t l ih =>
    intro vs tm Td tk hnd hm hA hv hf hk
    have ht : t ∉ Td := by
      intro h
      exact (List.nodup_append.1 hnd).2.2 t h t (by simp) rfl
    have hlen : (gOf A (Spec.start p) vs [] tm Td [] [] []).heap.length = vs.length := by simp [gOf]
    have hp := pushed p A vs tm Td t (fun i h => by rw [hA t (by simp) Td l rfl i h, hv]) ht
    have key : addState p (gOf A (Spec.start p) vs [] tm Td [] [] []) tk t =
        some (gOf A (Spec.start p) (vs ++ stVars t) [] (tm ++ (stTerms p Td.getLast? [t])) (Td ++ [t]) [] [] []) := by
      simp only [addState, hlen, hp]
      by_cases hT : Td = []
      · rw [hf hT t l rfl]
        subst hT
        simp [imuState, stTerms]
      · have hl := hk hT
        have hmem : tk ∈ Td := List.mem_of_mem_getLast? hl
        have hne : tk ≠ -1 := fun h => hm (h ▸ List.mem_append_left _ hmem)
        cases hc : p.cpi t with
        | none => simp [imuState, stTerms, hl, hc, hT]
        | some c =>
          rw [imuState, if_neg hne, statePtrs_gOf _ _ _ _ _ _ _ _ _ _ (List.mem_append_left _ hmem), statePtrs_gOf _ _ _ _ _ _ _ _ _ _ (by simp)]
          simp [stTerms, hl, hc, hT, gOf, Term.to]
    rw [addStates, key]
    simp only [Option.bind_eq_bind, Option.bind_some]
    have hcat : Td ++ [t] ++ l = Td ++ t :: l := by simp
    rw [ih (vs ++ stVars t) _ (Td ++ [t]) t (by rw [hcat]; exact hnd) (by rw [hcat]; exact hm)
      (fun u hu d r h => hA u (List.mem_cons_of_mem _ hu) d r (by rw [← h, hcat])) (by simp [stVars, hv]; ring) (by simp) (by simp), hcat]
    congr 2
    · simp [List.flatMap_cons]
    · rw [List.append_assoc]
      congr 1
      cases hL : Td.getLast? <;> simp [stTerms]

/-! ## The cameras -/

theorem addCams_gOf (T : List ℝ) (rest : List ℕ) : ∀ (vs cn : List Var) (tm : List (Term Var)) (Cd : List ℕ), (Cd ++ rest).Nodup →
    (∀ c ∈ rest, (p.ext c).isSome ∧ (p.intr c).isSome) →
    (∀ c ∈ rest, ∀ d r, Cd ++ rest = d ++ c :: r → ∀ i (h : i < 3), A ((camVars c)[i]'h) = 5 * T.length + 3 * d.length + i) →
    vs.length = 5 * T.length + 3 * Cd.length →
    addCams p (gOf A (Spec.start p) vs cn tm T Cd Cd []) rest =
      some (gOf A (Spec.start p) (vs ++ rest.flatMap camVars) (cn ++ if p.optCalib then [] else rest.flatMap camVars) (tm ++ rest.flatMap (camTerms p)) T
        (Cd ++ rest) (Cd ++ rest) []) := by
  induction rest with
  | nil => intro vs cn tm Cd _ _ _ _; simp [addCams]
  | cons c l ih =>
    intro vs cn tm Cd hnd hs hA hv
    have hc : c ∉ Cd := by
      intro h
      exact (List.nodup_append.1 hnd).2.2 c h c (by simp) rfl
    have hA' := hA c (by simp) Cd l rfl
    rw [← hv] at hA'
    have h0 : A (.extO c) = vs.length := hA' 0 (by norm_num)
    have h1 : A (.extP c) = vs.length + 1 := hA' 1 (by norm_num)
    have h2 : A (.intr c) = vs.length + 2 := hA' 2 (by norm_num)
    obtain ⟨he, hk⟩ := hs c (by simp)
    obtain ⟨e, he⟩ := Option.isSome_iff_exists.1 he
    obtain ⟨k, hk⟩ := Option.isSome_iff_exists.1 hk
    have hi := ins_new Cd c hc
    have e1 : addExt p (gOf A (Spec.start p) vs cn tm T Cd Cd []) c = some (gOf A (Spec.start p) (vs ++ [.extO c, .extP c])
        (cn ++ if p.optCalib then [] else [.extO c, .extP c]) (tm ++ (camTerms p c).take 1) T (Cd ++ [c]) Cd []) := by
      have hx : (Spec.start p).ext c = e := by simp [Spec.start, he]
      have : (idx (gOf A (Spec.start p) vs cn tm T Cd Cd []).exts c).isSome = false := by simp [gOf, idx_not Cd c hc]
      rw [addExt, this, he]
      cases p.optCalib <;>
      simp [gOf, Est.enc, blkOf, Var.size, Var.isQuat, h0, h1, hi, hx, camTerms, Term.to]
    have e2 : addIntr p (gOf A (Spec.start p) (vs ++ [.extO c, .extP c])
        (cn ++ if p.optCalib then [] else [.extO c, .extP c]) (tm ++ (camTerms p c).take 1) T (Cd ++ [c]) Cd []) c =
        some (gOf A (Spec.start p) (vs ++ camVars c) (cn ++ if p.optCalib then [] else camVars c) (tm ++ camTerms p c) T (Cd ++ [c]) (Cd ++ [c]) []) := by
      have hx : (Spec.start p).intr c = k.2 := by simp [Spec.start, hk]
      have : ∀ a b d, (idx (gOf A (Spec.start p) a b d T (Cd ++ [c]) Cd []).cams c).isSome = false := by intro a b d; simp [gOf, idx_not Cd c hc]
      rw [addIntr, this, hk]
      cases p.optCalib <;>
      simp [gOf, Est.enc, blkOf, Var.size, Var.isQuat, h0, h1, h2, hi, hx, camTerms, Term.to, camVars]
    rw [addCams, e1]
    simp only [Option.bind_eq_bind, Option.bind_some]
    rw [e2]
    simp only [Option.bind_some]
    have hcat : Cd ++ [c] ++ l = Cd ++ c :: l := by simp
    rw [ih _ _ _ (Cd ++ [c]) (by rw [hcat]; exact hnd) (fun u hu => hs u (List.mem_cons_of_mem _ hu))
      (fun u hu d r h => hA u (List.mem_cons_of_mem _ hu) d r (by rw [← h, hcat])) (by simp [camVars, hv]; ring), hcat]
    cases p.optCalib <;> simp [List.flatMap_cons]

/-! ## The features -/

/-- the list of features seen after some more observations. -/
noncomputable def see (L : List ℕ) (o : Spec.Obs) : List ℕ := if o.id ∈ L then L else L ++ [o.id]

/-- the program state in the loop over the features. -/
noncomputable def fG (V cn : List Var) (tm : List (Term Var)) (os : List Spec.Obs) (Ld : List ℕ) : G :=
  gOf A (Spec.start p) (V ++ Ld.map .feat) cn (tm ++ os.map obsTerm) p.times p.cams p.cams Ld

/-- the addresses of the features are those of the specification, for those seen so far. -/
def AOk (V : List Var) (Ld : List ℕ) : Prop := ∀ d f r, Ld = d ++ f :: r → A (.feat f) = V.length + d.length

theorem addFeat_fG (V cn : List Var) (tm : List (Term Var)) (os : List Spec.Obs) (Ld : List ℕ) (o : Spec.Obs) (hi : (p.inG o.id).isSome)
    (hA : AOk A V (see Ld o)) : addFeat p (fG p A V cn tm os Ld) o.id = some (fG p A V cn tm os (see Ld o)) := by
  by_cases h : o.id ∈ Ld
  · have : (idx (fG p A V cn tm os Ld).feats o.id).isSome = true := by simp [fG, gOf, idx_mem Ld _ h]
    rw [addFeat, this, see, if_pos h]; rfl
  · have : (idx (fG p A V cn tm os Ld).feats o.id).isSome = false := by simp [fG, gOf, idx_not Ld _ h]
    obtain ⟨v, hv⟩ := Option.isSome_iff_exists.1 hi
    have hx : (Spec.start p).feat o.id = v := by simp [Spec.start, hv]
    rw [see, if_neg h] at hA
    have ha := hA Ld o.id [] (by simp)
    have hn := ins_new Ld o.id h
    rw [addFeat, this, see, if_neg h, hv]
    simp [fG, gOf, Est.enc, blkOf, Var.size, Var.isQuat, ha, hn, hx]

theorem addImg_fG (V cn : List Var) (tm : List (Term Var)) (os : List Spec.Obs) (Ld : List ℕ) (o : Spec.Obs) (ht : o.t ∈ p.times) (hc : o.cam ∈ p.cams)
    (hf : o.id ∈ Ld) : addImg (fG p A V cn tm os Ld) o.id o.cam o.t o.uv o.kind = some (fG p A V cn tm (os ++ [o]) Ld) := by
  simp only [addImg, fG, gOf, idx_mem _ _ ht, idx_mem _ _ hc, idx_mem _ _ hf, Option.bind_eq_bind, Option.bind_some, get_map_ix _ _ _ ht,
    get_map_ix _ _ _ hc, get_map_ix _ _ _ hf]
  simp [obsTerm, Term.to]

theorem mem_see (L : List ℕ) (o : Spec.Obs) : o.id ∈ see L o := by
  rw [see]; split_ifs with h
  · exact h
  · simp

theorem see_prefix (os : List Spec.Obs) : ∀ L, L <+: os.foldl see L := by
  induction os with
  | nil => intro L; exact List.prefix_rfl
  | cons o os ih =>
    intro L
    refine List.IsPrefix.trans ?_ (ih (see L o))
    rw [see]; split_ifs
    · exact List.prefix_rfl
    · exact List.prefix_append _ _

theorem AOk_prefix {V : List Var} {L L' : List ℕ} (h : L <+: L') (hA : AOk A V L') : AOk A V L := by
  obtain ⟨r', rfl⟩ := h
  intro d f r e
  exact hA d f (r ++ r') (by simp [e])

theorem addObs_fG (V cn : List Var) (tm : List (Term Var)) (id cam : ℕ) (kind : Cam.Kind) (f : Feature ℝ Cam.V2) (hi : (p.inG id).isSome)
    (us : List Cam.V2) (hu : f.uvs.get? cam = some us) (ts : List ℝ) : ∀ (os : List Spec.Obs) (Ld : List ℕ) (i : ℕ), us.length = i + ts.length →
    (∀ t ∈ ts, t ∈ p.times → cam ∈ p.cams) → AOk A V ((Spec.camObs p id cam kind ts (us.drop i)).foldl see Ld) →
    addObs p f id cam kind (fG p A V cn tm os Ld) i ts =
      some (fG p A V cn tm (os ++ Spec.camObs p id cam kind ts (us.drop i)) ((Spec.camObs p id cam kind ts (us.drop i)).foldl see Ld)) := by
  induction ts with
  | nil => intro os Ld i _ _ _; simp [addObs, Spec.camObs]
  | cons t ts ih =>
    intro os Ld i hl hc hA
    have hlt : i < us.length := by rw [hl]; simp
    have hd : us.drop i = us[i] :: us.drop (i + 1) := List.drop_eq_getElem_cons hlt
    have hl' : us.length = i + 1 + ts.length := by rw [hl, List.length_cons]; ring
    have hc' : ∀ u ∈ ts, u ∈ p.times → cam ∈ p.cams := fun u hu => hc u (List.mem_cons_of_mem _ hu)
    rw [addObs]
    by_cases ht : t ∈ p.times
    · have hco : Spec.camObs p id cam kind (t :: ts) (us.drop i) = ⟨id, cam, t, us[i], kind⟩ :: Spec.camObs p id cam kind ts (us.drop (i + 1)) := by
        rw [hd]; simp only [Spec.camObs, List.zip_cons_cons, List.filter_cons, ht, decide_true, if_true, List.map_cons]
      rw [hco] at hA ⊢
      rw [List.foldl_cons] at hA ⊢
      rw [if_pos ht, hu]
      simp only [Option.bind_eq_bind, Option.bind_some, List.getElem?_eq_getElem hlt]
      have e1 := addFeat_fG p A V cn tm os Ld ⟨id, cam, t, us[i], kind⟩ hi (AOk_prefix A (see_prefix _ _) hA)
      have e2 := addImg_fG p A V cn tm os (see Ld ⟨id, cam, t, us[i], kind⟩) ⟨id, cam, t, us[i], kind⟩ ht (hc t (by simp) ht) (mem_see _ _)
      simp only at e1 e2
      rw [e1]
      simp only [Option.bind_some]
      rw [e2]
      simp only [Option.bind_some]
      rw [ih _ _ _ hl' hc' hA]
      simp
    · have hco : Spec.camObs p id cam kind (t :: ts) (us.drop i) = Spec.camObs p id cam kind ts (us.drop (i + 1)) := by
        rw [hd]; simp only [Spec.camObs, List.zip_cons_cons, List.filter_cons, ht, decide_false, Bool.false_eq_true, if_false]
      rw [hco] at hA ⊢
      rw [if_neg ht, ih _ _ _ hl' hc' hA]

/-- the observations of a feature in some of its cameras. -/
noncomputable def fcObs (id : ℕ) (f : Feature ℝ Cam.V2) (l : AMap (List ℝ)) : List Spec.Obs :=
  l.flatMap fun ct => match p.intr ct.1 with
    | none => []
    | some k => Spec.camObs p id ct.1 k.1 ct.2 (f.uvs.getL ct.1)

theorem addFCams_fG (V cn : List Var) (tm : List (Term Var)) (id : ℕ) (f : Feature ℝ Cam.V2) (hi : (p.inG id).isSome) (l : AMap (List ℝ)) :
    ∀ (os : List Spec.Obs) (Ld : List ℕ), (∀ ct ∈ l, (p.intr ct.1).isSome ∧ (∃ us, f.uvs.get? ct.1 = some us ∧ us.length = ct.2.length) ∧
      ∀ t ∈ ct.2, t ∈ p.times → ct.1 ∈ p.cams) → AOk A V ((fcObs p id f l).foldl see Ld) →
    addFCams p f id (fG p A V cn tm os Ld) l = some (fG p A V cn tm (os ++ fcObs p id f l) ((fcObs p id f l).foldl see Ld)) := by
  induction l with
  | nil => intro os Ld _ _; simp [addFCams, fcObs]
  | cons ct l ih =>
    intro os Ld h hA
    obtain ⟨cam, ts⟩ := ct
    obtain ⟨hk, ⟨us, hu, hl⟩, hc⟩ := h (cam, ts) (by simp)
    obtain ⟨k, hk⟩ := Option.isSome_iff_exists.1 hk
    simp only at hk hu hl hc
    have hg : f.uvs.getL cam = us := by rw [AMap.getL, hu]; rfl
    have hco : fcObs p id f ((cam, ts) :: l) = Spec.camObs p id cam k.1 ts (us.drop 0) ++ fcObs p id f l := by
      simp [fcObs, hk, hg]
    rw [hco] at hA ⊢
    rw [List.foldl_append] at hA ⊢
    rw [addFCams, hk]
    simp only [Option.bind_eq_bind, Option.bind_some]
    rw [addObs_fG p A V cn tm id cam k.1 f hi us hu ts os Ld 0 (by rw [hl]; simp) hc (AOk_prefix A (see_prefix _ _) hA)]
    simp only [Option.bind_some]
    rw [ih _ _ (fun ct h' => h ct (List.mem_cons_of_mem _ h')) hA, List.append_assoc]

/-- the observations of some of the features. -/
noncomputable def fsObs (l : DB ℝ Cam.V2) : List Spec.Obs := l.flatMap fun e => if Spec.Used p e.1 then Spec.featObs p e.1 e.2 else []

theorem addFeats_fG (V cn : List Var) (tm : List (Term Var)) (l : DB ℝ Cam.V2) : ∀ (os : List Spec.Obs) (Ld : List ℕ),
    (∀ e ∈ l, Spec.Used p e.1 → ∀ ct ∈ e.2.times, (p.intr ct.1).isSome ∧ (∃ us, e.2.uvs.get? ct.1 = some us ∧ us.length = ct.2.length) ∧
      ∀ t ∈ ct.2, t ∈ p.times → ct.1 ∈ p.cams) → AOk A V ((fsObs p l).foldl see Ld) →
    addFeats p (fG p A V cn tm os Ld) l = some (fG p A V cn tm (os ++ fsObs p l) ((fsObs p l).foldl see Ld)) := by
  induction l with
  | nil => intro os Ld _ _; simp [addFeats, fsObs]
  | cons e l ih =>
    intro os Ld h hA
    obtain ⟨id, f⟩ := e
    have h' : ∀ e ∈ l, Spec.Used p e.1 → ∀ ct ∈ e.2.times, (p.intr ct.1).isSome ∧ (∃ us, e.2.uvs.get? ct.1 = some us ∧ us.length = ct.2.length) ∧
      ∀ t ∈ ct.2, t ∈ p.times → ct.1 ∈ p.cams := fun e he => h e (List.mem_cons_of_mem _ he)
    rw [addFeats]
    by_cases hu : Spec.Used p id
    · have hco : fsObs p ((id, f) :: l) = fcObs p id f f.times ++ fsObs p l := by
        rw [fsObs, List.flatMap_cons, if_pos hu]; rfl
      rw [hco] at hA ⊢
      rw [List.foldl_append] at hA ⊢
      have hn : (p.inG id).isNone = false := by
        obtain ⟨v, hv⟩ := Option.isSome_iff_exists.1 hu.2
        simp [hv]
      rw [if_neg (by have := hu.1; omega), hn, if_neg (by simp), addFCams_fG p A V cn tm id f hu.2 f.times os Ld (h (id, f) (by simp) hu)
        (AOk_prefix A (see_prefix _ _) hA)]
      simp only [Option.bind_eq_bind, Option.bind_some]
      rw [ih _ _ h' hA, List.append_assoc]
    · have hco : fsObs p ((id, f) :: l) = fsObs p l := by simp [fsObs, hu]
      rw [hco] at hA ⊢
      by_cases hm : p.num id < p.minNum
      · rw [if_pos hm, ih _ _ h' hA]
      · have hn : (p.inG id).isNone = true := by
          by_contra hne
          refine hu ⟨by omega, ?_⟩
          rw [Option.isSome_iff_ne_none]
          intro h0
          exact hne (by simp [h0])
        rw [if_neg hm, hn, if_pos rfl, ih _ _ h' hA]

end

/-! ## The whole problem -/

theorem see_same (i : ℕ) (os : List Spec.Obs) (h : ∀ o ∈ os, o.id = i) : ∀ L, i ∈ L → os.foldl see L = L := by
  induction os with
  | nil => intro L _; rfl
  | cons o os ih =>
    intro L hi
    have : see L o = L := by rw [see, if_pos (by rw [h o (by simp)]; exact hi)]
    rw [List.foldl_cons, this, ih (fun o' ho => h o' (List.mem_cons_of_mem _ ho)) L hi]

theorem see_one (i : ℕ) (os : List Spec.Obs) (h : ∀ o ∈ os, o.id = i) (L : List ℕ) (hi : i ∉ L) :
    os.foldl see L = L ++ if os = [] then [] else [i] := by
  cases os with
  | nil => simp
  | cons o os =>
    have h0 : o.id = i := h o (by simp)
    have : see L o = L ++ [i] := by rw [see, if_neg (by rw [h0]; exact hi), h0]
    rw [List.foldl_cons, this, see_same i os (fun o' ho => h o' (List.mem_cons_of_mem _ ho)) _ (by simp)]
    simp

theorem featObs_id (p : PIn) (id : ℕ) (f : Feature ℝ Cam.V2) : ∀ o ∈ Spec.featObs p id f, o.id = id := by
  intro o ho
  rw [Spec.featObs, List.mem_flatMap] at ho
  obtain ⟨ct, -, ho⟩ := ho
  cases hk : p.intr ct.1 with
  | none => simp [hk] at ho
  | some k =>
    simp only [hk, Spec.camObs, List.mem_map] at ho
    obtain ⟨_, -, rfl⟩ := ho
    rfl

theorem see_ids (p : PIn) (l : DB ℝ Cam.V2) (hnd : l.keys.Nodup) : ∀ L : List ℕ, (∀ k ∈ l.keys, k ∉ L) →
    (fsObs p l).foldl see L = L ++ l.keys.filter fun id => decide (∃ o ∈ fsObs p l, o.id = id) := by
  induction l with
  | nil => intro L _; simp [fsObs]
  | cons e l ih =>
    intro L hL
    obtain ⟨id, f⟩ := e
    rw [AMap.keys_cons, List.nodup_cons] at hnd
    have hco : fsObs p ((id, f) :: l) = (if Spec.Used p id then Spec.featObs p id f else []) ++ fsObs p l := by
      rw [fsObs, List.flatMap_cons]; rfl
    set os := (if Spec.Used p id then Spec.featObs p id f else []) with hos
    have hid : ∀ o ∈ os, o.id = id := by
      intro o ho
      rw [hos] at ho
      split_ifs at ho
      · exact featObs_id p id f o ho
      · simp at ho
    have hin : ∀ o ∈ fsObs p l, o.id ∈ AMap.keys l := by
      intro o ho
      rw [fsObs, List.mem_flatMap] at ho
      obtain ⟨e, he, ho⟩ := ho
      split_ifs at ho
      · rw [featObs_id p _ _ o ho]; exact List.mem_map_of_mem he
      · simp at ho
    rw [hco, List.foldl_append, see_one id os hid L (hL id (by simp)), ih hnd.2, AMap.keys_cons, List.filter_cons]
    · have h1 : (∃ o ∈ os ++ fsObs p l, o.id = id) ↔ os ≠ [] := by
        constructor
        · rintro ⟨o, ho, h⟩ h0
          rw [h0, List.nil_append] at ho
          exact hnd.1 (h ▸ hin o ho)
        · intro h0
          obtain ⟨o, ho⟩ := List.exists_mem_of_ne_nil _ h0
          exact ⟨o, List.mem_append_left _ ho, hid o ho⟩
      have h2 : ((AMap.keys l).filter fun k => decide (∃ o ∈ os ++ fsObs p l, o.id = k)) = (AMap.keys l).filter fun k => decide (∃ o ∈ fsObs p l, o.id = k) := by
        refine List.filter_congr ?_
        intro k hk
        have : (∃ o ∈ os ++ fsObs p l, o.id = k) ↔ ∃ o ∈ fsObs p l, o.id = k := by
          constructor
          · rintro ⟨o, ho, h⟩
            rcases List.mem_append.1 ho with ho | ho
            · exact absurd (by rw [← h, hid o ho] at hk; exact hk) hnd.1
            · exact ⟨o, ho, h⟩
          · rintro ⟨o, ho, h⟩
            exact ⟨o, List.mem_append_right _ ho, h⟩
        simp only [this]
      rw [h2]
      simp only [h1]
      by_cases h0 : os = [] <;> simp [h0]
    · intro k hk hkL
      have hne : k ≠ id := fun h => hnd.1 (h ▸ hk)
      rcases List.mem_append.1 hkL with h | h
      · exact hL k (List.mem_cons_of_mem _ hk) h
      · split_ifs at h <;> simp [hne] at h

/-- the terms of the problem. -/
noncomputable def sTerms (p : PIn) : List (Term Var) :=
  stTerms p none p.times ++ p.cams.flatMap (camTerms p) ++ (Spec.obs p).map obsTerm

noncomputable def adrOf (p : PIn) : Var → Ptr := adr p.times p.cams (Spec.ids p)

theorem build_gOf (p : PIn) (h : p.Ok) : build p = some (gOf (adrOf p) (Spec.start p) (Spec.vars p) (if p.optCalib then [] else Spec.calib p) (sTerms p)
    p.times p.cams p.cams (Spec.ids p)) := by
  have hE : G.empty = gOf (adrOf p) (Spec.start p) [] [] [] [] [] [] [] := rfl
  have hids : (fsObs p p.feats).foldl see [] = Spec.ids p := by rw [see_ids p _ h.feats [] (by simp)]; rfl
  have hsplit : ∀ {κ : Type} (l d r : List κ) (k : κ), l.Nodup → l = d ++ k :: r → ix l k = d.length := by
    intro κ l d r k hn e
    subst e
    exact ix_new d r k fun hk => (List.nodup_append.1 hn).2.2 k hk k (by simp) rfl
  have s1 := addStates_gOf p (adrOf p) p.times [] [] [] (-1) (by simpa using h.times) (by simpa using h.sentinel) (by
    intro t _ d r e i hi
    have := hsplit p.times d r t h.times (by simpa using e)
    interval_cases i <;> simp [stVars, adrOf, adr, this]) rfl (fun _ => h.first) (by simp)
  have s2 := addCams_gOf p (adrOf p) p.times p.cams (p.times.flatMap stVars) [] (stTerms p none p.times) [] (by simpa using h.cams) h.calib (by
    intro c _ d r e i hi
    have := hsplit p.cams d r c h.cams (by simpa using e)
    interval_cases i <;> simp [camVars, adrOf, adr, this]) (by simp [List.length_flatMap, stVars]; ring)
  have s3 := addFeats_fG p (adrOf p) (p.times.flatMap stVars ++ p.cams.flatMap camVars) (if p.optCalib then [] else p.cams.flatMap camVars)
    (stTerms p none p.times ++ p.cams.flatMap (camTerms p)) p.feats [] [] h.obs (by
      rw [hids]
      intro d f r e
      have hn : (Spec.ids p).Nodup := h.feats.filter _
      have := hsplit (Spec.ids p) d r f hn e
      simp [adrOf, adr, this, List.length_flatMap, stVars, camVars]; ring)
  rw [build, hE, s1]
  simp only [Option.bind_eq_bind, Option.bind_some, List.nil_append, List.getLast?_nil] at s2 ⊢
  rw [s2]
  simp only [Option.bind_some]
  have e0 : fG p (adrOf p) (p.times.flatMap stVars ++ p.cams.flatMap camVars) (if p.optCalib then [] else p.cams.flatMap camVars)
    (stTerms p none p.times ++ p.cams.flatMap (camTerms p)) [] [] = gOf (adrOf p) (Spec.start p) (p.times.flatMap stVars ++ p.cams.flatMap camVars)
      (if p.optCalib then [] else p.cams.flatMap camVars) (stTerms p none p.times ++ p.cams.flatMap (camTerms p)) p.times p.cams p.cams [] := by
    simp [fG]
  rw [e0, hids] at s3
  rw [s3]
  rfl

/-! ## Addresses -/

theorem map_block {κ : Type} (l : List κ) (hn : l.Nodup) (b m : ℕ) (g : κ → List ℕ) (hg : ∀ k ∈ l, g k = (List.range m).map (b + m * ix l k + ·)) :
    l.flatMap g = (List.range (m * l.length)).map (b + ·) := by
  induction l generalizing b with
  | nil => simp
  | cons a l ih =>
    rw [List.nodup_cons] at hn
    rw [List.flatMap_cons, ih hn.2 (b + m) (by
      intro k hk
      rw [hg k (List.mem_cons_of_mem _ hk)]
      have : a ≠ k := fun h => hn.1 (h ▸ hk)
      simp only [ix, this, if_false]
      refine List.map_congr_left fun i _ => by ring), hg a (by simp)]
    have : m * (a :: l).length = m + m * l.length := by simp; ring
    rw [this, List.range_add, List.map_append, List.map_map]
    congr 1
    · simp [ix]
    · refine List.map_congr_left fun i _ => by simp; ring

theorem adr_range (p : PIn) (h : p.Ok) : (Spec.vars p).map (adrOf p) = List.range (Spec.vars p).length := by
  have hn : (Spec.ids p).Nodup := h.feats.filter _
  have hv : Spec.vars p = p.times.flatMap stVars ++ p.cams.flatMap camVars ++ (Spec.ids p).flatMap fun f => [.feat f] := by
    rw [Spec.vars]
    congr 1
    exact (List.flatMap_pure_eq_map _ _).symm
  have hr : ∀ m, List.range m = (List.range m).map (0 + ·) := by intro m; simp
  rw [hv, List.map_append, List.map_append, List.map_flatMap, List.map_flatMap, List.map_flatMap,
    map_block p.times h.times 0 5 _ (by intro t _; simp [stVars, adrOf, adr, List.range_succ]),
    map_block p.cams h.cams (5 * p.times.length) 3 _ (by intro t _; simp [camVars, adrOf, adr, List.range_succ]),
    map_block (Spec.ids p) hn (5 * p.times.length + 3 * p.cams.length) 1 _ (by intro t _; simp [adrOf, adr, List.range_succ])]
  have hl : (p.times.flatMap stVars ++ p.cams.flatMap camVars ++ (Spec.ids p).flatMap fun f => [Var.feat f]).length =
      5 * p.times.length + 3 * p.cams.length + 1 * (Spec.ids p).length := by
    simp [List.length_flatMap, stVars, camVars]; ring
  rw [hl, List.range_add, List.range_add]
  simp

theorem vars_at (p : PIn) (h : p.Ok) (v : Var) (hv : v ∈ Spec.vars p) : (Spec.vars p)[adrOf p v]? = some v := by
  obtain ⟨i, hi, rfl⟩ := List.mem_iff_getElem.1 hv
  have : ((Spec.vars p).map (adrOf p))[i]? = (List.range (Spec.vars p).length)[i]? := by rw [adr_range p h]
  rw [List.getElem?_map, List.getElem?_eq_getElem hi, List.getElem?_range hi] at this
  simp only [Option.map_some, Option.some.injEq] at this
  rw [this, List.getElem?_eq_getElem hi]

/-! ## The cost -/

theorem qOf_qL (q : Quat) : qOf (qL q) = q := by simp [qOf, qL, q4]
theorem vOf_vL (v : V3) : vOf (vL v) = v := by ext i; fin_cases i <;> simp [vOf, vL]
theorem iOf_iL (v : Cam.Intr) : iOf (iL v) = v := by ext i; fin_cases i <;> simp [iOf, iL]

theorem prior_sq (k : PConf) (lin : List ℝ) (ty : List Ty) (info : List ℝ) (hp : ∀ x ∈ info, 0 ≤ x) (vs : List (List ℝ)) :
    (Fac.prior lin ty info).sq k vs = ∑ i ∈ Finset.range (lSum ty),
      info.getD i 0 * prLoop (fun i => lin.getD i 0) ty 0 0 (fun i j => (vs.getD i []).getD j 0) (fun _ => 0) i ^ 2 := by
  rw [Fac.sq]
  refine Finset.sum_congr rfl fun i hi => ?_
  have h0 : 0 ≤ info.getD i 0 := by
    rw [List.getD_eq_getElem?_getD]
    cases h : info[i]? with
    | none => simp
    | some x => exact hp x (List.mem_of_getElem? h)
  have : prRes (prFac lin ty info) (fun i j => (vs.getD i []).getD j 0) i = Real.sqrt (info.getD i 0) *
      prLoop (fun i => lin.getD i 0) ty 0 0 (fun i j => (vs.getD i []).getD j 0) (fun _ => 0) i := by
    simp only [prRes, prFac, add_zero, ite_mul, zero_mul]
    rw [Finset.sum_ite_eq, if_pos hi]
  rw [this, mul_pow, Real.sq_sqrt h0]

theorem first_sq (k : PConf) (x x0 : Nav) : (firstPrior x0).sq k [qL x.q, vL x.p, vL x.bg, vL x.ba] = Spec.firstCost x x0 := by
  rw [firstPrior, prior_sq]
  · have hq : ∀ q : Quat, q4 (fun j => (qL q).getD j 0) 0 = q := qOf_qL
    have hq2 : q4 (fun i => (qL x0.q ++ vL x0.p ++ vL x0.bg ++ vL x0.ba).getD i 0) 0 = x0.q := by simp [qL, q4]
    rw [show lSum [.quatYaw, .vec3, .vec3, .vec3] = 10 from rfl]
    simp only [Finset.sum_range_succ, Finset.sum_range_zero]
    simp [prLoop, Ty.l, Ty.g, prErr, Spec.firstCost, Spec.nsq, Fin.sum_univ_succ, Spec.rotErr, thErr, qL, vL, q4, List.replicate]
    ring
  · intro y hy
    simp only [List.mem_append, List.mem_replicate] at hy
    rcases hy with (⟨-, rfl⟩ | ⟨-, rfl⟩) | ⟨-, rfl⟩ <;> positivity

theorem ext_sq (k : PConf) (x x0 : Quat × V3) : (extPrior x0.1 x0.2).sq k [qL x.1, vL x.2] = Spec.extCost x x0 := by
  rw [extPrior, prior_sq]
  · rw [show lSum [.quat, .vec3] = 6 from rfl]
    simp only [Finset.sum_range_succ, Finset.sum_range_zero]
    simp [prLoop, Ty.l, Ty.g, prErr, Spec.extCost, Spec.nsq, Fin.sum_univ_succ, Spec.rotErr, thErr, qL, vL, q4, List.replicate]
    ring
  · intro y hy
    simp only [List.mem_append, List.mem_replicate] at hy
    rcases hy with ⟨-, rfl⟩ | ⟨-, rfl⟩ <;> positivity

theorem intr_sq (k : PConf) (x x0 : Cam.Intr) : (intrPrior x0).sq k [iL x] = Spec.intrCost x x0 := by
  rw [intrPrior, prior_sq]
  · rw [show lSum [.vec8] = 8 from rfl]
    simp only [Finset.sum_range_succ, Finset.sum_range_zero]
    simp [prLoop, Ty.l, prErr, Spec.intrCost, iL, List.replicate]
    ring
  · intro y hy
    simp only [List.mem_append, List.mem_replicate] at hy
    rcases hy with ⟨-, rfl⟩ | ⟨-, rfl⟩ <;> norm_num

theorem st_cost (k : PConf) (p : PIn) (X : Est) (h : Var → List ℝ) (l : List ℝ) : ∀ s, (∀ t ∈ s :: l, ∀ v ∈ stVars t, h v = X.enc v) →
    ((stTerms p (some s) l).map (Term.val k h)).sum = (((s :: l).zip l).map fun st => match p.cpi st.2 with
      | some c => Spec.imuCost k c (X.nav st.1) (X.nav st.2)
      | none => 0).sum := by
  induction l with
  | nil => intro s _; simp [stTerms]
  | cons t l ih =>
    intro s hs
    have h1 := ih t fun u hu => hs u (List.mem_cons_of_mem _ hu)
    rw [stTerms, List.map_append, List.sum_append, h1, List.zip_cons_cons, List.map_cons, List.sum_cons]
    congr 1
    have e1 := hs s (by simp)
    have e2 := hs t (by simp)
    simp only [stVars, List.forall_mem_cons, List.not_mem_nil, false_imp_iff, implies_true, and_true] at e1 e2
    cases hc : p.cpi t with
    | none => simp
    | some c =>
      simp [Term.val, Fac.sq, navVars, blkNav, e1, e2, Est.enc, qOf_qL, vOf_vL, Spec.imuCost]

theorem obs_cost (k : PConf) (X : Est) (h : Var → List ℝ) (o : Spec.Obs)
    (hv : ∀ v ∈ [Var.ori o.t, .pos o.t, .feat o.id, .extO o.cam, .extP o.cam, .intr o.cam], h v = X.enc v) :
    (obsTerm o).val k h = Spec.obsCost k X o := by
  simp only [List.forall_mem_cons, List.not_mem_nil, false_imp_iff, implies_true, and_true] at hv
  simp [Term.val, obsTerm, Fac.sq, imgOf, hv, Est.enc, qOf_qL, vOf_vL, iOf_iL, Spec.obsCost, Spec.nsq]

theorem cam_cost (k : PConf) (p : PIn) (X : Est) (h : Var → List ℝ) (c : ℕ) (hv : ∀ v ∈ camVars c, h v = X.enc v) :
    ((camTerms p c).map (Term.val k h)).sum =
      Spec.extCost (X.ext c) ((Spec.start p).ext c) + Spec.intrCost (X.intr c) ((Spec.start p).intr c) := by
  simp only [camVars, List.forall_mem_cons, List.not_mem_nil, false_imp_iff, implies_true, and_true] at hv
  simp [Term.val, camTerms, hv, Est.enc, ext_sq, intr_sq]

theorem obs_vars (p : PIn) (hok : p.Ok) (o : Spec.Obs) (ho : o ∈ Spec.obs p) :
    ∀ v ∈ [Var.ori o.t, .pos o.t, .feat o.id, .extO o.cam, .extP o.cam, .intr o.cam], v ∈ Spec.vars p := by
  have ho' := ho
  rw [Spec.obs, List.mem_flatMap] at ho
  obtain ⟨e, he, ho⟩ := ho
  split_ifs at ho with hu
  · have hid := featObs_id p e.1 e.2 o ho
    have hi : o.id ∈ Spec.ids p := by
      rw [Spec.ids, List.mem_filter]
      refine ⟨?_, by simpa using ⟨o, ho', rfl⟩⟩
      rw [hid]; exact List.mem_map_of_mem he
    rw [Spec.featObs, List.mem_flatMap] at ho
    obtain ⟨ct, hct, ho⟩ := ho
    obtain ⟨-, -, hc⟩ := hok.obs e he hu ct hct
    cases hk : p.intr ct.1 with
    | none => simp [hk] at ho
    | some k =>
      simp only [hk, Spec.camObs, List.mem_map, List.mem_filter, decide_eq_true_eq] at ho
      obtain ⟨tu, ⟨hz, ht⟩, rfl⟩ := ho
      have hc' := hc tu.1 (List.of_mem_zip hz).1 ht
      simp only [List.forall_mem_cons, List.not_mem_nil, false_imp_iff, implies_true, and_true]
      simp only [Spec.vars, List.mem_append, List.mem_flatMap, List.mem_map]
      refine ⟨?_, ?_, ?_, ?_, ?_, ?_⟩
      · exact Or.inl (Or.inl ⟨_, ht, by simp⟩)
      · exact Or.inl (Or.inl ⟨_, ht, by simp⟩)
      · exact Or.inr ⟨_, hi, rfl⟩
      · exact Or.inl (Or.inr ⟨_, hc', by simp⟩)
      · exact Or.inl (Or.inr ⟨_, hc', by simp⟩)
      · exact Or.inl (Or.inr ⟨_, hc', by simp⟩)
  · simp at ho

theorem sTerms_cost (k : PConf) (p : PIn) (hok : p.Ok) (X : Est) (h : Var → List ℝ) (hv : ∀ v ∈ Spec.vars p, h v = X.enc v) :
    1 / 2 * ((sTerms p).map (Term.val k h)).sum = Spec.cost k p X := by
  have hst : ∀ t ∈ p.times, ∀ v ∈ stVars t, h v = X.enc v := fun t ht v hv' => hv v
    (List.mem_append_left _ (List.mem_append_left _ (List.mem_flatMap.2 ⟨t, ht, hv'⟩)))
  have hcv : ∀ c ∈ p.cams, ∀ v ∈ camVars c, h v = X.enc v := fun c hc v hv' => hv v
    (List.mem_append_left _ (List.mem_append_right _ (List.mem_flatMap.2 ⟨c, hc, hv'⟩)))
  have h1 : ((stTerms p none p.times).map (Term.val k h)).sum = ((p.times.take 1).map fun t => Spec.firstCost (X.nav t) (p.nav t)).sum +
      ((p.times.zip p.times.tail).map fun st => match p.cpi st.2 with
        | some c => Spec.imuCost k c (X.nav st.1) (X.nav st.2)
        | none => 0).sum := by
    cases hT : p.times with
    | nil => simp [stTerms]
    | cons t l =>
      rw [hT] at hst
      rw [stTerms, List.map_cons, List.sum_cons, st_cost k p X h l t hst]
      have e1 := hst t (by simp)
      simp only [stVars, List.forall_mem_cons, List.not_mem_nil, false_imp_iff, implies_true, and_true] at e1
      simp [Term.val, priorTerm, e1, Est.enc, first_sq]
  have h2 : ((p.cams.flatMap (camTerms p)).map (Term.val k h)).sum =
      (p.cams.map fun c => Spec.extCost (X.ext c) ((Spec.start p).ext c) + Spec.intrCost (X.intr c) ((Spec.start p).intr c)).sum := by
    generalize p.cams = C at hcv
    induction C with
    | nil => simp
    | cons c C ih =>
      rw [List.flatMap_cons, List.map_append, List.sum_append, ih fun u hu => hcv u (List.mem_cons_of_mem _ hu), cam_cost k p X h c (hcv c (by simp))]
      simp
  have h3 : (((Spec.obs p).map obsTerm).map (Term.val k h)).sum = ((Spec.obs p).map (Spec.obsCost k X)).sum := by
    rw [List.map_map]
    congr 1
    refine List.map_congr_left fun o ho => ?_
    exact obs_cost k X h o fun v hv' => hv v (obs_vars p hok o ho v hv')
  rw [sTerms, List.map_append, List.map_append, List.sum_append, List.sum_append, h1, h2, h3, Spec.cost]
  rfl

theorem val_to (k : PConf) (A : Var → Ptr) (hp : Ptr → List ℝ) (t : Term Var) : (t.to A).val k hp = t.val k (hp ∘ A) := by
  simp [Term.val, Term.to]

/-! ## The answer -/

theorem getPose_gOf (p : PIn) (A : Var → Ptr) (hp : Ptr → List ℝ) (X : Est) (vs cn : List Var) (tm : List (Term Var)) (Td : List ℝ) (Ed Cd Ld : List ℕ) (t : ℝ)
    (ht : t ∈ Td) (h : ∀ v ∈ stVars t, hp (A v) = X.enc v) : getPose (gOf A (Spec.start p) vs cn tm Td Ed Cd Ld) hp t = some (X.nav t) := by
  simp only [stVars, List.forall_mem_cons, List.not_mem_nil, false_imp_iff, implies_true, and_true] at h
  simp only [getPose, gOf, idx_mem Td t ht, Option.getD_some, Option.bind_eq_bind, Option.bind_some, get_map_ix Td _ t ht, h, Est.enc, qOf_qL, vOf_vL]

theorem mapM_zip {κ β : Type} (l : List κ) (g : κ × ℕ → Option β) (f : κ → β) (hg : ∀ k i, l[i]? = some k → g (k, i) = some (f k)) :
    l.zipIdx.mapM g = some (l.map f) := by
  have : ∀ (m : List κ) (n : ℕ), (∀ k i, m[i]? = some k → g (k, n + i) = some (f k)) → (m.zipIdx n).mapM g = some (m.map f) := by
    intro m
    induction m with
    | nil => intro n _; simp
    | cons a m ih =>
      intro n hm
      have h0 := hm a 0 (by simp)
      have h1 := ih (n + 1) fun k i hk => by
        have := hm k (i + 1) (by simpa using hk)
        rwa [show n + (i + 1) = n + 1 + i by ring] at this
      rw [List.zipIdx_cons, List.mapM_cons, show n = n + 0 from rfl, h0]
      simp only [Option.bind_eq_bind, Option.bind_some, add_zero] at h1 ⊢
      rw [h1]; rfl
  exact this l 0 fun k i hk => by rw [Nat.zero_add]; exact hg k i hk

theorem readOut_gOf (p : PIn) (A : Var → Ptr) (hp : Ptr → List ℝ) (X : Est) (vs cn : List Var) (tm : List (Term Var)) (Td : List ℝ) (Ed Cd Ld : List ℕ)
    (newest : ℝ) (hn : newest ∈ Td) (hs : ∀ t ∈ Td, ∀ v ∈ stVars t, hp (A v) = X.enc v) (hf : ∀ f ∈ Ld, hp (A (.feat f)) = X.enc (.feat f)) :
    readOut (gOf A (Spec.start p) vs cn tm Td Ed Cd Ld) hp newest =
      some ⟨X.nav newest, Td.map fun t => (t, (X.nav t).q, (X.nav t).p), Ld.map fun f => (f, X.feat f)⟩ := by
  have h0 : (idx (gOf A (Spec.start p) vs cn tm Td Ed Cd Ld).states newest).isNone = false := by simp [gOf, idx_mem Td newest hn]
  have h1 := mapM_zip Td (fun s => do
      let y ← getPose (gOf A (Spec.start p) vs cn tm Td Ed Cd Ld) hp s.1
      some (s.1, y.q, y.p)) (fun t => (t, (X.nav t).q, (X.nav t).p)) fun t i hi => by
    have ht := List.mem_of_getElem? hi
    simp only [getPose_gOf p A hp X vs cn tm Td Ed Cd Ld t ht (hs t ht)]
    rfl
  have h2 := mapM_zip Ld (fun s => do
      let o ← (Ld.map fun f => A (.feat f))[s.2]?
      some (s.1, vOf (hp o))) (fun f => (f, X.feat f)) fun f i hi => by
    have := hf f (List.mem_of_getElem? hi)
    simp only [List.getElem?_map, hi, Option.map_some, Option.bind_eq_bind, Option.bind_some, this, Est.enc, vOf_vL]
  rw [readOut, h0]
  simp only [Bool.false_eq_true, if_false, getPose_gOf p A hp X vs cn tm Td Ed Cd Ld newest hn (hs _ hn), Option.bind_eq_bind, Option.bind_some]
  simp only [Option.bind_eq_bind] at h1 h2
  rw [show (gOf A (Spec.start p) vs cn tm Td Ed Cd Ld).states = Td.zipIdx from rfl, h1]
  simp only [Option.bind_some]
  rw [show (gOf A (Spec.start p) vs cn tm Td Ed Cd Ld).feats = Ld.zipIdx from rfl,
    show (gOf A (Spec.start p) vs cn tm Td Ed Cd Ld).feat = Ld.map fun f => A (.feat f) from rfl, h2]
  rfl

end Verif.Mle
