import Verif.Mle.ProblemLemmas
import Verif.Init.PropsC

/-!
# C128: the optimisation problem of the dynamic initialiser

The specification is `Verif/Mle/SpecProblem.lean`.
-/

open Classical

namespace Verif.Mle

open Verif Verif.Imu Verif.Feat

/-! ## Selection -/

theorem pickCam_fold (avg newest : ℝ) (poses : List ℝ) (obs : List (ℕ × ℝ)) : ∀ acc,
    (obs.foldl (pickCam avg newest poses) acc).map Prod.snd = (obs.map Prod.snd).foldl (Init.pickTime avg newest poses) (acc.map Prod.snd) ∧
    ∃ b, obs.foldl (pickCam avg newest poses) acc = acc ++ b ∧ b.Sublist obs := by
  induction obs with
  | nil => intro acc; exact ⟨rfl, [], by simp, List.Sublist.refl _⟩
  | cons o obs ih =>
    intro acc
    rw [List.foldl_cons, List.map_cons, List.foldl_cons]
    obtain ⟨h1, b, h2, h3⟩ := ih (pickCam avg newest poses acc o)
    rw [h1, h2]
    by_cases hc : Init.minDist o.2 newest (poses ++ acc.map Prod.snd) ≥ avg ∨ Init.minDist o.2 newest (poses ++ acc.map Prod.snd) = 0
    · have e : pickCam avg newest poses acc o = acc ++ [o] := by rw [pickCam]; exact if_pos hc
      have e' : Init.pickTime avg newest poses (acc.map Prod.snd) o.2 = acc.map Prod.snd ++ [o.2] := by rw [Init.pickTime]; exact if_pos hc
      rw [e, e']
      exact ⟨by simp, o :: b, by simp, h3.cons_cons o⟩
    · have e : pickCam avg newest poses acc o = acc := by rw [pickCam]; exact if_neg hc
      have e' : Init.pickTime avg newest poses (acc.map Prod.snd) o.2 = acc.map Prod.snd := by rw [Init.pickTime]; exact if_neg hc
      rw [e, e']
      exact ⟨rfl, b, rfl, h3.cons o⟩

theorem picks_filter (avg newest : ℝ) (poses : List ℝ) (hn : newest ∈ poses) (hP : Init.Spec.Apart avg poses) (F : List ℝ) (hF : Init.Spec.Apart avg F)
    (obs : List (ℕ × ℝ)) (hsub : ∀ x ∈ poses ++ (obs.foldl (pickCam avg newest poses) []).map Prod.snd, x ∈ F) :
    obs.foldl (pickCam avg newest poses) [] = obs.filter fun o => decide (o.2 ∈ F) := by
  obtain ⟨h1, b, h2, h3⟩ := pickCam_fold avg newest poses obs []
  rw [List.nil_append] at h2
  have h4 := Init.pickTimes_filter avg newest poses hn F hF (obs.map Prod.snd) [] (by rwa [List.append_nil]) (by rw [h1] at hsub; exact hsub)
  rw [h1] at hsub
  rw [List.map_nil, h4, List.nil_append] at h1
  rw [h2] at h1 ⊢
  have hs : b.Sublist (obs.filter fun o => decide (o.2 ∈ F)) := by
    have : b.filter (fun o => decide (o.2 ∈ F)) = b := by
      rw [List.filter_eq_self]
      intro o ho
      have : o.2 ∈ b.map Prod.snd := List.mem_map_of_mem ho
      rw [h1, List.mem_filter] at this
      exact this.2
    rw [← this]
    exact h3.filter _
  refine hs.eq_of_length ?_
  have := congrArg List.length h1
  rw [List.length_map, List.filter_map, List.length_map] at this
  exact this

theorem selCams_proj (avg newest : ℝ) (minNum : ℕ) (l : DB ℝ Cam.V2) : ∀ (s : SelC) (s' : Init.Sel), s.poses = s'.poses →
    (l.foldl (selCam avg newest minNum) s).poses = ((l.map fun e => (camTimes e.2).map Prod.snd).foldl (Init.selStep avg newest minNum) s').poses := by
  induction l with
  | nil => intro s s' h; exact h
  | cons e l ih =>
    intro s s' h
    rw [List.foldl_cons, List.map_cons, List.foldl_cons]
    refine ih _ _ ?_
    have hp := (pickCam_fold avg newest s.poses (camTimes e.2) []).1
    have hl := congrArg List.length hp
    rw [List.length_map] at hl
    by_cases hc : ((camTimes e.2).foldl (pickCam avg newest s.poses) []).length < minNum
    · have e1 : (selCam avg newest minNum s e).poses = s.poses := by rw [selCam, if_pos hc]
      have e2 : (Init.selStep avg newest minNum s' ((camTimes e.2).map Prod.snd)).poses = s'.poses := by
        rw [Init.selStep, if_pos (by rw [Init.pickTimes, ← h]; rw [hl] at hc; exact hc)]
      rw [e1, e2, h]
    · have e1 : (selCam avg newest minNum s e).poses = s.poses ++ ((camTimes e.2).foldl (pickCam avg newest s.poses) []).map Prod.snd := by
        rw [selCam, if_neg hc]
      have e2 : (Init.selStep avg newest minNum s' ((camTimes e.2).map Prod.snd)).poses = s'.poses ++
          Init.pickTimes avg newest s'.poses ((camTimes e.2).map Prod.snd) := by
        rw [Init.selStep, if_neg (by rw [Init.pickTimes, ← h]; rw [hl] at hc; exact hc)]
      rw [e1, e2, hp, h]; rfl

theorem selCams_spec (avg newest : ℝ) (minNum : ℕ) (l : DB ℝ Cam.V2) : ∀ s : SelC, newest ∈ s.poses → Init.Spec.Apart avg s.poses →
    let r := l.foldl (selCam avg newest minNum) s
    (∀ x ∈ s.poses, x ∈ r.poses) ∧ (∀ c ∈ s.cams, c ∈ r.cams) ∧ (∃ ns : List (ℕ × ℕ), r.num = s.num ++ ns ∧ ns.map Prod.fst = l.keys ∧
    ∀ e ∈ l, ∃ a : List (ℕ × ℝ), (e.1, a.length) ∈ ns ∧
      (minNum ≤ a.length → a = (camTimes e.2).filter (fun o => decide (o.2 ∈ r.poses)) ∧ ∀ o ∈ a, o.1 ∈ r.cams)) ∧
    (∀ c ∈ r.cams, c ∈ s.cams ∨ ∃ e ∈ l, ∃ o ∈ camTimes e.2, o.1 = c) := by
  induction l with
  | nil => intro s _ _; exact ⟨fun _ h => h, fun _ h => h, ⟨[], by simp, by simp [AMap.keys], by simp⟩, fun _ h => Or.inl h⟩
  | cons e l ih =>
    intro s hn hA
    rw [List.foldl_cons]
    have hp := pickCam_fold avg newest s.poses (camTimes e.2) []
    obtain ⟨hp1, b, hp2, hp3⟩ := hp
    have hA1 := (Init.pickTimes_apart avg newest s.poses hn ((camTimes e.2).map Prod.snd) [] (by rwa [List.append_nil])).1
    set a := (camTimes e.2).foldl (pickCam avg newest s.poses) [] with ha
    by_cases hc : a.length < minNum
    · have e1 : selCam avg newest minNum s e = { s with num := s.num ++ [(e.1, a.length)] } := by rw [selCam, if_pos hc]
      obtain ⟨r1, r2, ⟨ns, r3, r4, r5⟩, r6⟩ := ih (selCam avg newest minNum s e) (by rw [e1]; exact hn) (by rw [e1]; exact hA)
      generalize l.foldl (selCam avg newest minNum) (selCam avg newest minNum s e) = r at *
      rw [e1] at r1 r2 r3 r6
      refine ⟨r1, r2, ⟨(e.1, a.length) :: ns, by rw [r3]; simp, by simp [r4], ?_⟩, ?_⟩
      · intro e' he'
        rcases List.mem_cons.1 he' with rfl | he'
        · exact ⟨a, by simp, fun h => absurd h (by omega)⟩
        · obtain ⟨a', h1, h2⟩ := r5 e' he'
          exact ⟨a', List.mem_cons_of_mem _ h1, h2⟩
      · intro c hc'
        rcases r6 c hc' with h | ⟨e', he', h⟩
        · exact Or.inl h
        · exact Or.inr ⟨e', List.mem_cons_of_mem _ he', h⟩
    · have e1 : selCam avg newest minNum s e = ⟨s.poses ++ a.map Prod.snd, s.cams ++ a.map Prod.fst, s.num ++ [(e.1, a.length)]⟩ := by
        rw [selCam, if_neg hc]
      have hA2 : Init.Spec.Apart avg (s.poses ++ a.map Prod.snd) := by rw [hp1]; exact hA1
      obtain ⟨r1, r2, ⟨ns, r3, r4, r5⟩, r6⟩ := ih (selCam avg newest minNum s e) (by rw [e1]; exact List.mem_append_left _ hn) (by rw [e1]; exact hA2)
      have hAr : Init.Spec.Apart avg (l.foldl (selCam avg newest minNum) (selCam avg newest minNum s e)).poses := by
        rw [selCams_proj avg newest minNum l (selCam avg newest minNum s e) ⟨s.poses ++ a.map Prod.snd, 0, 0, []⟩ (by rw [e1])]
        exact (Init.selLoop_spec avg newest minNum _ ⟨s.poses ++ a.map Prod.snd, 0, 0, []⟩ (List.mem_append_left _ hn) hA2).1
      generalize l.foldl (selCam avg newest minNum) (selCam avg newest minNum s e) = r at *
      rw [e1] at r1 r2 r3 r6
      refine ⟨fun x hx => r1 x (List.mem_append_left _ hx), fun c hc' => r2 c (List.mem_append_left _ hc'),
        ⟨(e.1, a.length) :: ns, by rw [r3]; simp, by simp [r4], ?_⟩, ?_⟩
      · intro e' he'
        rcases List.mem_cons.1 he' with rfl | he'
        · refine ⟨a, by simp, fun _ => ⟨?_, fun o ho => r2 o.1 (List.mem_append_right _ (List.mem_map_of_mem ho))⟩⟩
          exact picks_filter avg newest s.poses hn hA r.poses hAr (camTimes e'.2) r1
        · obtain ⟨a', h1, h2⟩ := r5 e' he'
          exact ⟨a', List.mem_cons_of_mem _ h1, h2⟩
      · intro c hc'
        rcases r6 c hc' with h | ⟨e', he', h⟩
        · rcases List.mem_append.1 h with h | h
          · exact Or.inl h
          · rw [List.mem_map] at h
            obtain ⟨o, ho, rfl⟩ := h
            rw [hp2, List.nil_append] at ho
            exact Or.inr ⟨e, by simp, o, hp3.subset ho, rfl⟩
        · exact Or.inr ⟨e', List.mem_cons_of_mem _ he', h⟩

theorem idx_nodup {κ : Type} (l : List (κ × ℕ)) (hn : (l.map Prod.fst).Nodup) (k : κ) (n : ℕ) (h : (k, n) ∈ l) : idx l k = some n := by
  induction l with
  | nil => simp at h
  | cons e l ih =>
    rw [List.map_cons, List.nodup_cons] at hn
    rw [idx]
    rcases List.mem_cons.1 h with rfl | h
    · simp
    · have : e.1 ≠ k := fun h' => hn.1 (h' ▸ List.mem_map_of_mem h)
      rw [if_neg this, ih hn.2 h]

/-- the problem is built from what the selection loop chose: the sorted camera times and camera ids, and the number of times of every feature. -/
structure PIn.Selected (p : PIn) (avg newest : ℝ) : Prop where
  sorted : p.times.Pairwise (· < ·)
  times : ∀ t, t ∈ p.times ↔ t ∈ (selCams avg newest p.minNum p.feats).poses
  camSorted : p.cams.Pairwise (· < ·)
  cams : ∀ c, c ∈ p.cams ↔ c ∈ (selCams avg newest p.minNum p.feats).cams
  num : ∀ id, p.num id = (idx (selCams avg newest p.minNum p.feats).num id).getD 0

/-- what a front end guarantees and a configuration must: distinct features, a pixel for every time, no observation at time -1, and a calibration for every
camera with an observation. -/
structure PIn.Front (p : PIn) (newest : ℝ) : Prop where
  feats : p.feats.keys.Nodup
  pixels : ∀ e ∈ p.feats, ∀ ct ∈ e.2.times, ∃ us, e.2.uvs.get? ct.1 = some us ∧ us.length = ct.2.length
  calib : ∀ e ∈ p.feats, ∀ ct ∈ e.2.times, (p.ext ct.1).isSome ∧ (p.intr ct.1).isSome
  sentinel : newest ≠ -1 ∧ ∀ e ∈ p.feats, ∀ ct ∈ e.2.times, (-1 : ℝ) ∉ ct.2

theorem sel_poses (avg newest : ℝ) (minNum : ℕ) (l : DB ℝ Cam.V2) (t : ℝ) (h : t ∈ (selCams avg newest minNum l).poses) :
    t = newest ∨ ∃ e ∈ l, ∃ ct ∈ e.2.times, t ∈ ct.2 := by
  rw [selCams, selCams_proj avg newest minNum l _ ⟨[newest], 0, 0, []⟩ rfl] at h
  have h0 : Init.Spec.Apart avg [newest] := by
    intro a ha b hb hne
    rw [List.mem_singleton] at ha hb
    exact absurd (ha.trans hb.symm) hne
  obtain ⟨-, -, h3, -⟩ := Init.selLoop_spec avg newest minNum (l.map fun e => (camTimes e.2).map Prod.snd) ⟨[newest], 0, 0, []⟩ (by simp) h0
  rcases h3 t h with h | ⟨f, hf, h⟩
  · exact Or.inl (by simpa using h)
  · right
    obtain ⟨e, he, rfl⟩ := List.mem_map.1 hf
    obtain ⟨o, ho, rfl⟩ := List.mem_map.1 h
    rw [camTimes, List.mem_flatMap] at ho
    obtain ⟨ct, hct, ho⟩ := ho
    obtain ⟨t, ht, rfl⟩ := List.mem_map.1 ho
    exact ⟨e, he, ct, hct, ht⟩

/-- **C128** The choice of camera times and cameras suits the problem: whatever the selection loop picks, every camera looked up while the problem is built
has been added to it, and every camera of a used feature has a calibration. -/
theorem C128_selection (p : PIn) (avg newest : ℝ) (hs : p.Selected avg newest) (hf : p.Front newest)
    (hfirst : ∀ t l, p.times = t :: l → p.cpi t = none) : p.Ok := by
  have h0 : Init.Spec.Apart avg [newest] := by
    intro a ha b hb hne
    rw [List.mem_singleton] at ha hb
    exact absurd (ha.trans hb.symm) hne
  obtain ⟨-, -, ⟨ns, r3, r4, r5⟩, r6⟩ := selCams_spec avg newest p.minNum p.feats ⟨[newest], [], []⟩ (by simp) h0
  have hsel : p.feats.foldl (selCam avg newest p.minNum) ⟨[newest], [], []⟩ = selCams avg newest p.minNum p.feats := rfl
  rw [hsel] at r3 r5 r6
  rw [List.nil_append] at r3
  refine ⟨hs.sorted.imp ne_of_lt, ?_, hfirst, hs.camSorted.imp ne_of_lt, ?_, hf.feats, ?_⟩
  · rw [hs.times]
    intro h
    rcases sel_poses _ _ _ _ _ h with h | ⟨e, he, ct, hct, h⟩
    · exact hf.sentinel.1 h.symm
    · exact hf.sentinel.2 e he ct hct h
  · intro c hc
    rcases r6 c ((hs.cams c).1 hc) with h | ⟨e, he, o, ho, rfl⟩
    · simp at h
    · rw [camTimes, List.mem_flatMap] at ho
      obtain ⟨ct, hct, ho⟩ := ho
      obtain ⟨t, -, rfl⟩ := List.mem_map.1 ho
      exact hf.calib e he ct hct
  · intro e he hu ct hct
    refine ⟨(hf.calib e he ct hct).2, hf.pixels e he ct hct, ?_⟩
    intro t ht htp
    obtain ⟨a, h1, h2⟩ := r5 e he
    have hnum : p.num e.1 = a.length := by
      rw [hs.num, r3, idx_nodup ns (by rw [r4]; exact hf.feats) _ _ h1]; rfl
    obtain ⟨h3, h4⟩ := h2 (by rw [← hnum]; exact hu.1)
    rw [hs.cams]
    refine h4 (ct.1, t) ?_
    rw [h3, List.mem_filter]
    refine ⟨?_, by simpa using (hs.times t).1 htp⟩
    rw [camTimes, List.mem_flatMap]
    exact ⟨ct, hct, List.mem_map_of_mem ht⟩

/-! ## The problem -/

/-- **C128** Building the problem never fails, and there is a place `A v` for every unknown `v` such that: different unknowns have different places; the array
there has the starting value; the parameter blocks are exactly the unknowns, with their sizes, orientations on the quaternion manifold; the calibration is
held fixed exactly when it is not to be optimised; whenever the arrays hold an estimate, the cost Ceres evaluates is the specified cost of that estimate, and
what is returned is that estimate's newest state, its poses and its points. -/
theorem C128_problem (p : PIn) (h : p.Ok) : ∃ g, ∃ A : Var → Ptr, build p = some g ∧
    (∀ v ∈ Spec.vars p, ∀ w ∈ Spec.vars p, A v = A w → v = w) ∧
    g.heap.length = (Spec.vars p).length ∧ (∀ v ∈ Spec.vars p, g.heap[A v]? = some ((Spec.start p).enc v)) ∧
    g.blks = (Spec.vars p).map (fun v => ⟨A v, v.size, v.isQuat⟩) ∧
    g.const = (if p.optCalib then [] else (Spec.calib p).map A) ∧
    ∀ (X : Est) (hp : Ptr → List ℝ), (∀ v ∈ Spec.vars p, hp (A v) = X.enc v) →
      (∀ k, g.cost k hp = Spec.cost k p X) ∧
      ∀ newest ∈ p.times, readOut g hp newest = some ⟨X.nav newest, p.times.map fun t => (t, (X.nav t).q, (X.nav t).p),
        (Spec.ids p).map fun f => (f, X.feat f)⟩ := by
  refine ⟨_, adrOf p, build_gOf p h, ?_, ?_, ?_, rfl, ?_, ?_⟩
  · intro v hv w hw e
    have h1 := vars_at p h v hv
    rw [e, vars_at p h w hw] at h1
    exact (Option.some.inj h1).symm
  · simp [gOf]
  · intro v hv
    rw [gOf, List.getElem?_map, vars_at p h v hv]; rfl
  · rw [gOf]; split_ifs <;> rfl
  · intro X hp hX
    refine ⟨fun k => ?_, fun newest hn => ?_⟩
    · rw [← sTerms_cost k p h X (hp ∘ adrOf p) hX, G.cost, gOf, List.map_map]
      congr 2
      exact List.map_congr_left fun t _ => val_to k _ hp t
    · refine readOut_gOf p _ hp X _ _ _ _ _ _ _ newest hn (fun t ht v hv => hX v ?_) (fun f hf => hX _ ?_)
      · exact List.mem_append_left _ (List.mem_append_left _ (List.mem_flatMap.2 ⟨t, ht, hv⟩))
      · exact List.mem_append_right _ (List.mem_map_of_mem hf)

theorem qL_qOf (l : List ℝ) (h : l.length = 4) : qL (qOf l) = l := by
  match l, h with
  | [a, b, c, d], _ => rfl
theorem vL_vOf (l : List ℝ) (h : l.length = 3) : vL (vOf l) = l := by
  match l, h with
  | [a, b, c], _ => rfl
theorem iL_iOf (l : List ℝ) (h : l.length = 8) : iL (iOf l) = l := by
  match l, h with
  | [a, b, c, d, e, f, g, i], _ => rfl

/-- **C128** Nothing else can be in the arrays: whatever the minimiser writes into arrays of the right sizes is an estimate, so the cost it sees is always the
specified one. -/
theorem C128_every_point (A : Var → Ptr) (hp : Ptr → List ℝ) (hl : ∀ v, (hp (A v)).length = v.size) : ∃ X : Est, ∀ v, hp (A v) = X.enc v := by
  refine ⟨⟨fun t => ⟨qOf (hp (A (.ori t))), vOf (hp (A (.bg t))), vOf (hp (A (.vel t))), vOf (hp (A (.ba t))), vOf (hp (A (.pos t)))⟩,
    fun c => (qOf (hp (A (.extO c))), vOf (hp (A (.extP c)))), fun c => iOf (hp (A (.intr c))), fun f => vOf (hp (A (.feat f)))⟩, fun v => ?_⟩
  cases v with
  | ori t => exact (qL_qOf _ (hl _)).symm
  | pos t => exact (vL_vOf _ (hl _)).symm
  | vel t => exact (vL_vOf _ (hl _)).symm
  | bg t => exact (vL_vOf _ (hl _)).symm
  | ba t => exact (vL_vOf _ (hl _)).symm
  | extO c => exact (qL_qOf _ (hl _)).symm
  | extP c => exact (vL_vOf _ (hl _)).symm
  | intr c => exact (iL_iOf _ (hl _)).symm
  | feat f => exact (vL_vOf _ (hl _)).symm

/-- **C128** The reprojection terms of a used feature are exactly the measurements counted for it when it was chosen. -/
theorem C128_counted (p : PIn) (avg newest : ℝ) (hs : p.Selected avg newest) (hf : p.Front newest) :
    ∀ e ∈ p.feats, Spec.Used p e.1 → (Spec.featObs p e.1 e.2).length = p.num e.1 := by
  have h0 : Init.Spec.Apart avg [newest] := by
    intro a ha b hb hne
    rw [List.mem_singleton] at ha hb
    exact absurd (ha.trans hb.symm) hne
  obtain ⟨-, -, ⟨ns, r3, r4, r5⟩, -⟩ := selCams_spec avg newest p.minNum p.feats ⟨[newest], [], []⟩ (by simp) h0
  have hsel : p.feats.foldl (selCam avg newest p.minNum) ⟨[newest], [], []⟩ = selCams avg newest p.minNum p.feats := rfl
  rw [hsel] at r3 r5
  rw [List.nil_append] at r3
  intro e he hu
  obtain ⟨a, h1, h2⟩ := r5 e he
  have hnum : p.num e.1 = a.length := by
    rw [hs.num, r3, idx_nodup ns (by rw [r4]; exact hf.feats) _ _ h1]; rfl
  obtain ⟨h3, -⟩ := h2 (by rw [← hnum]; exact hu.1)
  rw [hnum, h3, Spec.featObs, camTimes]
  have hpix := hf.pixels e he
  have hcal := hf.calib e he
  generalize e.2.times = l at hpix hcal
  induction l with
  | nil => rfl
  | cons ct l ih =>
    rw [List.flatMap_cons, List.flatMap_cons, List.length_append, List.filter_append, List.length_append,
      ih (fun c hc => hpix c (List.mem_cons_of_mem _ hc)) (fun c hc => hcal c (List.mem_cons_of_mem _ hc))]
    congr 1
    obtain ⟨us, hu1, hu2⟩ := hpix ct (by simp)
    obtain ⟨k, hk⟩ := Option.isSome_iff_exists.1 (hcal ct (by simp)).2
    have hg : e.2.uvs.getL ct.1 = us := by rw [AMap.getL, hu1]; rfl
    rw [hk, hg]
    simp only [Spec.camObs, List.length_map]
    rw [List.filter_map, List.length_map]
    have hz : ((ct.2.zip us).map Prod.fst) = ct.2 := List.map_fst_zip (by omega)
    have : (ct.2.zip us).filter (fun tu => decide (tu.1 ∈ p.times)) =
        (ct.2.zip us).filter ((fun t => decide (t ∈ p.times)) ∘ Prod.fst) := rfl
    rw [this, ← List.length_map (f := Prod.fst), ← List.filter_map, hz]
    congr 1
    refine List.filter_congr fun t _ => ?_
    simp only [Function.comp, hs.times t]

/-! ## A concrete problem -/

namespace Ex128

/-- one feature seen by camera 3 at times 0, 0.4 and 1. -/
def feature : Feature ℝ Cam.V2 := ⟨7, false, [(3, [![1, 2], ![3, 4], ![5, 6]])], [(3, [![1, 2], ![3, 4], ![5, 6]])], [(3, [0, 0.4, 1])]⟩

/-- two camera times, one camera, one feature; spacing 1, newest time 1. -/
noncomputable def pin : PIn where
  times := [0, 1]
  cpi := fun t => if t = 0 then none else some (Cpi.run ⟨0, 0, 0, 0, false, 0, 0⟩ [])
  nav := fun t => ⟨⟨0, 0, 0, 1⟩, 0, ![t, 0, 0], 0, ![t, 0, 0]⟩
  cams := [3]
  ext := fun _ => some (⟨0, 0, 0, 1⟩, 0)
  intr := fun _ => some (.radtan, 1)
  optCalib := false
  feats := [(7, feature)]
  num := fun id => if id = 7 then 2 else 0
  minNum := 2
  inG := fun _ => some ![0, 0, 4]

theorem sel : selCams 1 1 2 [(7, feature)] = ⟨[1, 0, 1], [3, 3], [(7, 2)]⟩ := by
  have e : (camTimes feature).foldl (pickCam 1 1 [1]) [] = [(3, 0), (3, 1)] := by
    simp only [camTimes, feature, List.flatMap_cons, List.flatMap_nil, List.map_cons, List.map_nil, List.append_nil, List.foldl_cons, List.foldl_nil, pickCam,
      Init.minDist, List.nil_append, List.cons_append]
    norm_num [abs_of_pos, abs_of_neg]
  simp only [selCams, List.foldl_cons, List.foldl_nil, selCam, e]
  simp

theorem selected : pin.Selected 1 1 := by
  refine ⟨by simp [pin], ?_, by simp [pin], ?_, ?_⟩
  · intro t
    rw [show selCams 1 1 pin.minNum pin.feats = _ from sel]
    simp [pin]; tauto
  · intro c
    rw [show selCams 1 1 pin.minNum pin.feats = _ from sel]
    simp [pin]
  · intro id
    rw [show selCams 1 1 pin.minNum pin.feats = _ from sel]
    simp only [pin, idx]
    by_cases h : id = 7
    · simp [h]
    · simp [h, Ne.symm h]

theorem front : pin.Front 1 := by
  refine ⟨by simp [pin, AMap.keys], ?_, ?_, by norm_num, ?_⟩
  · intro e he ct hct
    simp only [pin, List.mem_singleton] at he
    subst he
    simp only [feature, List.mem_singleton] at hct
    subst hct
    exact ⟨[![1, 2], ![3, 4], ![5, 6]], by simp [feature, AMap.get?], by simp⟩
  · intro e he ct hct; simp [pin]
  · intro e he ct hct
    simp only [pin, List.mem_singleton] at he
    subst he
    simp only [feature, List.mem_singleton] at hct
    subst hct
    norm_num

/-- the hypotheses of the theorems hold for it -/
theorem ok : pin.Ok := C128_selection pin 1 1 selected front (by
  intro t l h
  simp only [pin, List.cons.injEq] at h
  simp [pin, ← h.1])

/-- and its reprojection terms are the two observations at the camera times, with their own pixels. -/
example : Spec.obs pin = [⟨7, 3, 0, ![1, 2], .radtan⟩, ⟨7, 3, 1, ![5, 6], .radtan⟩] := by
  have hu : Spec.Used pin 7 := by simp [Spec.Used, pin]
  have h4 : ¬ ((0.4 : ℝ) = 0 ∨ (0.4 : ℝ) = 1) := by norm_num
  simp only [Spec.obs, show pin.feats = [(7, feature)] from rfl, List.flatMap_cons, List.flatMap_nil, if_pos hu, Spec.featObs, feature,
    show pin.intr 3 = some (.radtan, 1) from rfl, Spec.camObs, AMap.getL, AMap.get?, if_true, Option.getD_some, List.zip_cons_cons, List.zip_nil_right,
    show pin.times = [0, 1] from rfl, List.filter_cons, List.mem_cons, List.not_mem_nil, or_false, true_or, or_true, decide_true, h4, decide_false,
    Bool.false_eq_true, if_false, List.filter_nil, List.map_cons, List.map_nil, List.append_nil]

end Ex128

end Verif.Mle
