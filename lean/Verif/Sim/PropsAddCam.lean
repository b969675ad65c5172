import Verif.Sim.PropsPoints

/-! # C143: what more cameras change for the first ones (the note at Simulator.cpp:169-170 and SimulatorInit.cpp:163-164) -/

set_option autoImplicit false

namespace Verif.Sim

open Verif Verif.Types Matrix

namespace Spec

/-- The larger map is visited like the smaller one as far as that goes: the points of the smaller map come first and in the order in
which the smaller map alone is visited. -/
def OldFirst (ord ord' : List (ℕ × V3)) : Prop := ∃ l, ord' = ord ++ l

/-- The points of the smaller map (the ids below `n`) are visited in the same order, with others anywhere between them. -/
def SameOrder (n : ℕ) (ord ord' : List (ℕ × V3)) : Prop := ord'.filter (fun f => decide (f.1 < n)) = ord

end Spec

theorem generate_extends (k : SCam) (R : M3) (p : V3) (rnd : ℕ → ℝ × ℝ × ℝ) (n : ℕ) (m : FMap) :
    ∃ l, (generate k R p rnd n m).feats = m.feats ++ l := by
  induction n generalizing m with
  | zero => exact ⟨[], by simp [generate]⟩
  | succ n ih =>
    unfold generate
    obtain ⟨l, hl⟩ := ih
      { feats := if m.next ∈ m.feats.map Prod.fst then m.feats else m.feats ++ [(m.next, newPoint k R p (rnd m.next))]
        next := m.next + 1 }
    rw [hl]
    dsimp only
    split_ifs
    · exact ⟨l, rfl⟩
    · exact ⟨(m.next, newPoint k R p (rnd m.next)) :: l, by simp⟩

theorem buildCam_extends (c : PCfg) (cps : Poses) (k : SCam) (rnd : ℕ → ℝ × ℝ × ℝ) (fuel : ℕ) (t : ℝ) (m m' : FMap)
    (h : buildCam c cps k rnd fuel t m = some m') : ∃ l, m'.feats = m.feats ++ l := by
  induction fuel generalizing t m with
  | zero => simp [buildCam] at h
  | succ fuel ih =>
    unfold buildCam at h
    cases hg : getPose cps t with
    | none =>
      rw [hg] at h
      simp only [Option.some.injEq] at h
      exact ⟨[], by rw [h]; simp⟩
    | some x =>
      obtain ⟨R, p⟩ := x
      rw [hg] at h
      dsimp only at h
      obtain ⟨l, hl⟩ := ih _ _ h
      by_cases hc : (project c k R p m.feats).length < c.num
      · rw [if_pos hc] at hl
        obtain ⟨l', hl'⟩ := generate_extends k R p rnd (c.num - (project c k R p m.feats).length) m
        exact ⟨l' ++ l, by rw [hl, hl', List.append_assoc]⟩
      · rw [if_neg hc] at hl
        exact ⟨l, hl⟩

theorem buildMap_extends (c : PCfg) (cps : Poses) (start : ℝ) (rnd : ℕ → ℝ × ℝ × ℝ) (fuel : ℕ) (ks : List SCam) (m m' : FMap)
    (h : buildMap c cps start rnd fuel ks m = some m') : ∃ l, m'.feats = m.feats ++ l := by
  induction ks generalizing m with
  | nil =>
    simp only [buildMap, Option.some.injEq] at h
    exact ⟨[], by rw [h]; simp⟩
  | cons k ks ih =>
    unfold buildMap at h
    rw [Option.bind_eq_some_iff] at h
    obtain ⟨m1, e1, e2⟩ := h
    obtain ⟨l, hl⟩ := buildCam_extends c cps k rnd fuel start m m1 e1
    obtain ⟨l', hl'⟩ := ih m1 e2
    exact ⟨l ++ l', by rw [hl', hl, List.append_assoc]⟩

theorem buildMap_append (c : PCfg) (cps : Poses) (start : ℝ) (rnd : ℕ → ℝ × ℝ × ℝ) (fuel : ℕ) (ks ks' : List SCam) (m : FMap) :
    buildMap c cps start rnd fuel (ks ++ ks') m =
      (buildMap c cps start rnd fuel ks m).bind fun m1 => buildMap c cps start rnd fuel ks' m1 := by
  induction ks generalizing m with
  | nil => rfl
  | cons k ks ih =>
    simp only [List.cons_append, buildMap]
    cases buildCam c cps k rnd fuel start m with
    | none => rfl
    | some m1 => exact ih m1

theorem buildCam_ok (c : PCfg) (cps : Poses) (k : SCam) (rnd : ℕ → ℝ × ℝ × ℝ) (fuel : ℕ) (t : ℝ) (m m' : FMap) (hm : MapOK m)
    (h : buildCam c cps k rnd fuel t m = some m') : MapOK m' := by
  induction fuel generalizing t m with
  | zero => simp [buildCam] at h
  | succ fuel ih =>
    unfold buildCam at h
    cases hg : getPose cps t with
    | none => rw [hg] at h; simp only [Option.some.injEq] at h; rw [← h]; exact hm
    | some x =>
      obtain ⟨R, p⟩ := x
      rw [hg] at h
      dsimp only at h
      refine ih _ _ ?_ h
      by_cases hc : (project c k R p m.feats).length < c.num
      · rw [if_pos hc]; exact (generate_spec k R p rnd _ m hm).1
      · rw [if_neg hc]; exact hm

theorem buildMap_ok (c : PCfg) (cps : Poses) (start : ℝ) (rnd : ℕ → ℝ × ℝ × ℝ) (fuel : ℕ) (ks : List SCam) (m m' : FMap)
    (hm : MapOK m) (h : buildMap c cps start rnd fuel ks m = some m') : MapOK m' := by
  induction ks generalizing m with
  | nil => simp only [buildMap, Option.some.injEq] at h; rw [← h]; exact hm
  | cons k ks ih =>
    unfold buildMap at h
    rw [Option.bind_eq_some_iff] at h
    obtain ⟨m1, e1, e2⟩ := h
    exact ih m1 (buildCam_ok c cps k rnd fuel start m m1 hm e1) e2

/-- **C143** The map of a simulation with more cameras contains that of the simulation with the first ones: the same ids with the same
positions, and further points under larger ids. Both are built with the same random numbers. -/
theorem C143_map (c : PCfg) (cps : Poses) (start : ℝ) (rnd : ℕ → ℝ × ℝ × ℝ) (fuel : ℕ) (ks ks' : List SCam) (m' : FMap)
    (h : buildMap c cps start rnd fuel (ks ++ ks') ⟨[], 0⟩ = some m') :
    ∃ m, buildMap c cps start rnd fuel ks ⟨[], 0⟩ = some m ∧
      (∀ f ∈ m.feats, f ∈ m'.feats) ∧ (∀ f ∈ m'.feats, f ∈ m.feats ∨ m.feats.length ≤ f.1) ∧
      ∃ l, m'.feats = m.feats ++ l := by
  rw [buildMap_append, Option.bind_eq_some_iff] at h
  obtain ⟨m, h1, h2⟩ := h
  obtain ⟨l, hl⟩ := buildMap_extends c cps start rnd fuel ks' m m' h2
  have e' : m'.feats.map Prod.fst = List.range m'.feats.length := by
    have h3 : MapOK m' := buildMap_ok c cps start rnd fuel (ks ++ ks') ⟨[], 0⟩ m' rfl
      (by rw [buildMap_append, Option.bind_eq_some_iff]; exact ⟨m, h1, h2⟩)
    have h4 : m'.feats.length = m'.next := by simpa using congrArg List.length h3
    rw [h4]; exact h3
  refine ⟨m, h1, fun f hf => by rw [hl]; exact List.mem_append_left _ hf, ?_, l, hl⟩
  intro f hf
  obtain ⟨j, hj, rfl⟩ := List.getElem_of_mem hf
  have hj' : (m'.feats[j]).1 = j := by
    have h3 : (m'.feats.map Prod.fst)[j]? = (List.range m'.feats.length)[j]? := by rw [e']
    rw [List.getElem?_map, List.getElem?_eq_getElem hj, List.getElem?_range hj] at h3
    simpa using h3
  by_cases hlt : j < m.feats.length
  · left
    have h4 : m'.feats[j]? = m.feats[j]? := by rw [hl, List.getElem?_append_left hlt]
    rw [List.getElem?_eq_getElem hj, List.getElem?_eq_getElem hlt, Option.some.injEq] at h4
    rw [h4]; exact List.getElem_mem hlt
  · right; rw [hj']; omega

theorem camFeats_take (c : PCfg) (k : SCam) (i : ℕ) (R : M3) (p : V3) (ord : List (ℕ × V3)) (nz : ℕ → Cam.V2)
    (hi : i = 0 ∨ c.stereo = true) :
    camFeats c k i R p ord nz = ((project c k R p ord).take c.num).mapIdx fun j x => (x.1, x.2 + nz j) := by
  unfold camFeats
  congr 1
  rw [List.map_congr_left (g := id), List.map_id]
  intro x _
  rcases hi with rfl | hs
  · simp
  · rw [if_pos hs]; rfl

theorem project_append (c : PCfg) (k : SCam) (R : M3) (p : V3) (a b : List (ℕ × V3)) :
    project c k R p (a ++ b) = project c k R p a ++ project c k R p b := by
  unfold project; exact List.filterMap_append

theorem project_cons_seen (c : PCfg) (k : SCam) (R : M3) (p : V3) (f : ℕ × V3) (fs : List (ℕ × V3)) (h : Seen c k R p f.2) :
    ∀ y, y = project c k R p (f :: fs) → ∃ u, y = (f.1, u) :: project c k R p fs := by
  rintro y rfl
  unfold project
  rw [List.filterMap_cons]
  simp only [if_pos h]
  exact ⟨_, rfl⟩

/-- **C143, partial** Take the first camera, or with stereo any of the first cameras, at a pose at which the map of the smaller
simulation has enough visible points, and the same noise. If the larger map is visited with the old points first, the camera reports
the same features in both simulations: ids, pixels and order. Missing: other orders, for which it is false
(`C143_order_counterexample`). -/
theorem C143_old_first_partial (c : PCfg) (k : SCam) (i : ℕ) (hi : i = 0 ∨ c.stereo = true) (R : M3) (p : V3)
    (feats ord ord' : List (ℕ × V3)) (hperm : ord.Perm feats) (hord : Spec.OldFirst ord ord')
    (hen : c.num ≤ Spec.visible c k R p feats) (nz : ℕ → Cam.V2) :
    camFeats c k i R p ord' nz = camFeats c k i R p ord nz := by
  obtain ⟨l, rfl⟩ := hord
  rw [camFeats_take c k i R p _ nz hi, camFeats_take c k i R p _ nz hi, project_append, List.take_append_of_le_length]
  rw [project_length]
  unfold Spec.visible at hen ⊢
  rw [hperm.countP_eq]; exact hen

/-- **C143** At the poses the map was built at there are enough points, so the premise of `C143_old_first_partial` holds there. -/
theorem C143_build_frames (c : PCfg) (cps : Poses) (start : ℝ) (rnd : ℕ → ℝ × ℝ × ℝ) (fuel : ℕ) (ks : List SCam)
    (hq : ∀ k ∈ ks, IsUnitQ k.q) (hrnd : ∀ k ∈ ks, Spec.Draws c k rnd)
    (hR : ∀ t R p, getPose cps t = some (R, p) → R * R.transpose = 1) (m : FMap)
    (h : buildMap c cps start rnd fuel ks ⟨[], 0⟩ = some m) (k : SCam) (hk : k ∈ ks) (i : ℕ) (hi : i = 0 ∨ c.stereo = true)
    (ord ord' : List (ℕ × V3)) (hperm : ord.Perm m.feats) (hord : Spec.OldFirst ord ord') :
    ∃ n : ℕ, getPose cps (start + n * 0.25) = none ∧ ∀ j : ℕ, j < n → ∃ R p, getPose cps (start + j * 0.25) = some (R, p) ∧
      ∀ nz, camFeats c k i R p ord' nz = camFeats c k i R p ord nz := by
  obtain ⟨-, h2⟩ := C91_enough_points c cps start rnd fuel ks hq hrnd hR m h
  obtain ⟨n, h3, h4⟩ := h2 k hk
  refine ⟨n, h3, fun j hj => ?_⟩
  obtain ⟨R, p, h5, h6⟩ := h4 j hj
  exact ⟨R, p, h5, fun nz => C143_old_first_partial c k i hi R p m.feats ord ord' hperm hord h6 nz⟩

/-- **C143** In any order that keeps the old points in theirs, the features are the same if no point of the other cameras is visible to
this one at the pose. -/
theorem C143_not_seen (c : PCfg) (k : SCam) (i : ℕ) (hi : i = 0 ∨ c.stereo = true) (R : M3) (p : V3) (n : ℕ)
    (ord ord' : List (ℕ × V3)) (hord : Spec.SameOrder n ord ord') (hun : ∀ f ∈ ord', n ≤ f.1 → ¬ Spec.Visible c k R p f.2)
    (nz : ℕ → Cam.V2) : camFeats c k i R p ord' nz = camFeats c k i R p ord nz := by
  rw [camFeats_take c k i R p _ nz hi, camFeats_take c k i R p _ nz hi]
  suffices h : project c k R p ord' = project c k R p ord by rw [h]
  unfold Spec.SameOrder at hord
  rw [← hord]
  clear hord
  unfold project
  induction ord' with
  | nil => rfl
  | cons f fs ih =>
    have ih' := ih fun g hg => hun g (List.mem_cons_of_mem _ hg)
    by_cases hf : f.1 < n
    · rw [List.filter_cons_of_pos (by simpa using hf), List.filterMap_cons, List.filterMap_cons, ih']
    · rw [List.filter_cons_of_neg (by simpa using hf), List.filterMap_cons]
      have : ¬ Seen c k R p f.2 := fun h => hun f (by simp) (by omega) ((seen_iff c k R p f.2).1 h)
      simp only [if_neg this]
      exact ih'

/-! ### The order of the hash map -/

theorem exLine_pose (t : ℝ) (h : 1 ≤ t ∧ t < 3) : getPose exLine t = some (1, ![t, 0, 0]) := by
  have hs : Sorted exLine := by unfold exLine; simp [Sorted]; norm_num
  have hom : ∀ x y : V3, omegaOf (mkSE3 1 x 1) (mkSE3 1 y 1) = (0, y - x) := by
    intro x y
    unfold omegaOf invSE3 logSE3
    dsimp only
    rw [rotBlock_mkSE3, posBlock_mkSE3, Matrix.transpose_one, mkSE3_mul, rotBlock_mkSE3, posBlock_mkSE3, Matrix.one_mul, log_one]
    have : norm3 0 = 0 := norm3_eq_zero.2 rfl
    rw [this, if_pos (by norm_num)]
    simp [sub_eq_add_neg]
  have hex : ∀ (b : ℝ) (u : V3), expOf b (0, u) = mkSE3 1 (b • u) 1 := by
    intro b u
    unfold expOf expSE3
    dsimp only
    have hk : skew (0 : V3) = 0 := by apply m3_ext <;> simp [skew]
    rw [smul_zero, hk]
    simp
  have hip : ∀ (q : ℝ), (q ≤ t ∧ t < q + 1) →
      interpPose t (q - 1, mkSE3 1 ![q - 1, 0, 0] 1) (q, mkSE3 1 ![q, 0, 0] 1) (q + 1, mkSE3 1 ![q + 1, 0, 0] 1)
        (q + 2, mkSE3 1 ![q + 2, 0, 0] 1) = mkSE3 1 ![t, 0, 0] 1 := by
    intro q _
    unfold interpPose
    dsimp only
    rw [hom, hom, hom, hex, hex, hex, mkSE3_mul, mkSE3_mul, mkSE3_mul]
    simp only [Matrix.one_mul, Matrix.one_mulVec, one_smul, mul_one]
    congr 1
    apply v3_ext
    · simp [b0, b1, b2]; ring
    · simp
    · simp
  rcases lt_or_ge t 2 with h2 | h2
  · have hf : findCtl t exLine = some ((1 - 1, mkSE3 1 ![1 - 1, 0, 0] 1), (1, mkSE3 1 ![1, 0, 0] 1), (1 + 1, mkSE3 1 ![1 + 1, 0, 0] 1),
        (1 + 2, mkSE3 1 ![1 + 2, 0, 0] 1)) := (findCtl_iff hs _ _ _ _).2 ⟨[], [(4, mkSE3 1 ![4, 0, 0] 1)], by norm_num [exLine], h.1, by norm_num; exact h2⟩
    unfold getPose
    rw [hf]
    dsimp only
    rw [hip 1 ⟨h.1, by linarith⟩, rotBlock_mkSE3, posBlock_mkSE3, Matrix.transpose_one]
  · have hf : findCtl t exLine = some ((2 - 1, mkSE3 1 ![2 - 1, 0, 0] 1), (2, mkSE3 1 ![2, 0, 0] 1), (2 + 1, mkSE3 1 ![2 + 1, 0, 0] 1),
        (2 + 2, mkSE3 1 ![2 + 2, 0, 0] 1)) := (findCtl_iff hs _ _ _ _).2 ⟨[(0, mkSE3 1 ![0, 0, 0] 1)], [], by norm_num [exLine], h2, by norm_num; exact h.2⟩
    unfold getPose
    rw [hf]
    dsimp only
    rw [hip 2 ⟨h2, by linarith [h.2]⟩, rotBlock_mkSE3, posBlock_mkSE3, Matrix.transpose_one]

theorem exLine_only (t : ℝ) (R : M3) (p : V3) (h : getPose exLine t = some (R, p)) : (1 ≤ t ∧ t < 3) ∧ R = 1 ∧ p = ![t, 0, 0] := by
  have ht : 1 ≤ t ∧ t < 3 := (exLine_covers t).1 (by rw [h]; rfl)
  rw [exLine_pose t ht] at h
  simp only [Option.some.injEq, Prod.mk.injEq] at h
  exact ⟨ht, h.1.symm, h.2.symm⟩

/-- a camera that leaves the map alone: enough points at every pose. -/
theorem buildCam_keep (c : PCfg) (cps : Poses) (k : SCam) (rnd : ℕ → ℝ × ℝ × ℝ) (m : FMap)
    (hen : ∀ t R p, getPose cps t = some (R, p) → c.num ≤ Spec.visible c k R p m.feats) (fuel : ℕ) (t : ℝ) (m' : FMap)
    (h : buildCam c cps k rnd fuel t m = some m') : m' = m := by
  induction fuel generalizing t with
  | zero => simp [buildCam] at h
  | succ fuel ih =>
    unfold buildCam at h
    cases hg : getPose cps t with
    | none => rw [hg] at h; simp only [Option.some.injEq] at h; exact h.symm
    | some x =>
      obtain ⟨R, p⟩ := x
      rw [hg] at h
      dsimp only at h
      rw [if_neg (by rw [project_length]; exact not_lt.2 (hen t R p hg))] at h
      exact ih _ h

/-- the camera of the example with the upper left part of the image only. -/
noncomputable def exNarrow : SCam := { exSCam with w := 20, h := 20 }

/-- the random numbers: the first point in the middle of the image, the others in its corner, all a hundred metres away. -/
noncomputable def exRnd (i : ℕ) : ℝ × ℝ × ℝ := if i = 0 then (50, 50, 100) else (10, 10, 100)

/-- the first point of the example. -/
noncomputable def exF0 : ℕ × V3 := (0, ![1, 0, 100])
/-- the second point of the example. -/
noncomputable def exF1 : ℕ × V3 := (1, ![-79, -80, 100])

theorem ex_visible (k : SCam) (hk : k = exSCam ∨ k = exNarrow) (t : ℝ) (f : V3) (hf : f 2 = 100) (s : Bool) :
    Spec.Visible ⟨1, 1000, s⟩ k 1 ![t, 0, 0] f ↔ 0 ≤ (f 0 - t) / 2 + 50 ∧ (f 0 - t) / 2 + 50 ≤ k.w ∧
      0 ≤ f 1 / 2 + 50 ∧ f 1 / 2 + 50 ≤ k.h := by
  have hq : quat2Rot k.q = 1 := by
    have : k.q = ⟨0, 0, 0, 1⟩ := by rcases hk with rfl | rfl <;> rfl
    rw [this]
    apply m3_ext <;> simp [quat2Rot, skew, outer, Quat.vec] <;> norm_num
  have hp : k.p = 0 := by rcases hk with rfl | rfl <;> rfl
  have hd : ∀ n : Cam.V2, Cam.distort k.kind k.intr n = ![50 * n 0 + 50, 50 * n 1 + 50] := by
    intro n
    have h1 : k.kind = .radtan := by rcases hk with rfl | rfl <;> rfl
    have h2 : k.intr = ![50, 50, 50, 50, 0, 0, 0, 0] := by rcases hk with rfl | rfl <;> rfl
    rw [h1, h2]
    ext j
    fin_cases j <;> simp [Cam.distort, Cam.radtan]
  unfold Spec.Visible Spec.pixel Spec.depth
  rw [hq, hp]
  dsimp only
  rw [hd]
  simp only [Matrix.one_mulVec, add_zero, Pi.sub_apply]
  simp only [Matrix.cons_val_zero, Matrix.cons_val_one, Matrix.cons_val]
  rw [hf]
  have e1 : 50 * ((f 0 - t) / (100 - 0)) + 50 = (f 0 - t) / 2 + 50 := by ring
  have e2 : 50 * ((f 1 - 0) / (100 - 0)) + 50 = f 1 / 2 + 50 := by ring
  rw [e1, e2]
  constructor
  · rintro ⟨-, -, h⟩; exact h
  · intro h; exact ⟨by norm_num, by norm_num, h⟩

/-- **C143, the code does not do it**: two simulations on the same trajectory with the same random numbers, one with a camera and one
with a second, narrower camera added. The first has one point, the second the same point and one more. Nothing fixes the order in
which the hash map is visited; if the newer point comes first, the first camera reports point 1 in place of point 0 at the same
time. -/
theorem C143_order_counterexample : ∃ (c : PCfg) (fuel : ℕ) (k k' : SCam) (m m' : FMap) (ord' : List (ℕ × V3)) (R : M3) (p : V3),
    buildMap c exLine 1 exRnd fuel [k] ⟨[], 0⟩ = some m ∧ buildMap c exLine 1 exRnd fuel [k, k'] ⟨[], 0⟩ = some m' ∧
    ord'.Perm m'.feats ∧ getPose exLine 2 = some (R, p) ∧
    ∀ (ord : List (ℕ × V3)) (nz : ℕ → Cam.V2), ord.Perm m.feats →
      (camFeats c k 0 R p ord nz).map Prod.fst = [0] ∧ (camFeats c k 0 R p ord' nz).map Prod.fst = [1] := by
  obtain ⟨N, hN⟩ := C91_building_ends ⟨1, 1000, true⟩ exLine 1 3 exLine_covers 1 exRnd
  have hn0 : newPoint exSCam 1 ![1, 0, 0] (exRnd 0) = exF0.2 := by
    have hq : quat2Rot exSCam.q = 1 := by apply m3_ext <;> simp [exSCam, quat2Rot, skew, outer, Quat.vec] <;> norm_num
    unfold newPoint
    rw [hq]
    apply v3_ext <;> simp [exRnd, exSCam, exF0]
  have hn1 : newPoint exNarrow 1 ![1, 0, 0] (exRnd 1) = exF1.2 := by
    have hq : quat2Rot exNarrow.q = 1 := by apply m3_ext <;> simp [exNarrow, exSCam, quat2Rot, skew, outer, Quat.vec] <;> norm_num
    unfold newPoint
    rw [hq]
    apply v3_ext <;> simp [exRnd, exNarrow, exSCam, exF1] <;> norm_num
  -- what is visible
  have v00 : ∀ t, 1 ≤ t ∧ t < 3 → Spec.Visible ⟨1, 1000, true⟩ exSCam 1 ![t, 0, 0] exF0.2 := by
    intro t ht
    rw [ex_visible _ (Or.inl rfl) _ _ (by simp [exF0])]
    refine ⟨?_, ?_, ?_, ?_⟩ <;> norm_num [exF0, exSCam] <;> linarith [ht.1, ht.2]
  have v01 : ∀ t, 1 ≤ t ∧ t < 3 → Spec.Visible ⟨1, 1000, true⟩ exSCam 1 ![t, 0, 0] exF1.2 := by
    intro t ht
    rw [ex_visible _ (Or.inl rfl) _ _ (by simp [exF1])]
    simp [exF1, exSCam]
    refine ⟨by linarith [ht.1, ht.2], by linarith [ht.1, ht.2], by norm_num, by norm_num⟩
  have v10 : ∀ t, 1 ≤ t ∧ t < 3 → ¬ Spec.Visible ⟨1, 1000, true⟩ exNarrow 1 ![t, 0, 0] exF0.2 := by
    intro t ht
    rw [ex_visible _ (Or.inr rfl) _ _ (by simp [exF0])]
    simp [exF0, exNarrow]
    intro _ h; exfalso; linarith [ht.1, ht.2]
  have v11 : ∀ t, 1 ≤ t ∧ t < 3 → Spec.Visible ⟨1, 1000, true⟩ exNarrow 1 ![t, 0, 0] exF1.2 := by
    intro t ht
    rw [ex_visible _ (Or.inr rfl) _ _ (by simp [exF1])]
    simp [exF1, exNarrow]
    refine ⟨by linarith [ht.1, ht.2], by linarith [ht.1, ht.2], by norm_num, by norm_num⟩
  have hp1 : getPose exLine 1 = some (1, ![1, 0, 0]) := exLine_pose 1 (by norm_num)
  -- the first camera
  have b1 : buildCam ⟨1, 1000, true⟩ exLine exSCam exRnd (N + 1) 1 ⟨[], 0⟩ = some ⟨[exF0], 1⟩ := by
    obtain ⟨m1, e⟩ := Option.isSome_iff_exists.1 (hN (N + 1) (by omega) [exSCam] ⟨[], 0⟩)
    simp only [buildMap, Option.bind_eq_some_iff, Option.some.injEq] at e
    obtain ⟨m2, e, -⟩ := e
    rw [e]
    unfold buildCam at e
    rw [hp1] at e
    have hg : generate exSCam 1 ![1, 0, 0] exRnd (1 - 0) ⟨[], 0⟩ = ⟨[exF0], 1⟩ := by
      simp only [Nat.sub_zero, generate]
      simp [hn0, exF0]
    have hl : (project ⟨1, 1000, true⟩ exSCam 1 ![1, 0, 0] []).length = 0 := rfl
    dsimp only at e
    rw [hl, if_pos (by norm_num), hg] at e
    rw [buildCam_keep _ _ _ _ _ ?_ _ _ _ e]
    intro t R p hg
    obtain ⟨ht, rfl, rfl⟩ := exLine_only t R p hg
    have := v00 t ht
    simp [Spec.visible, this]
  have b2 : buildCam ⟨1, 1000, true⟩ exLine exNarrow exRnd (N + 1) 1 ⟨[exF0], 1⟩ = some ⟨[exF0, exF1], 2⟩ := by
    obtain ⟨m1, e⟩ := Option.isSome_iff_exists.1 (hN (N + 1) (by omega) [exNarrow] ⟨[exF0], 1⟩)
    simp only [buildMap, Option.bind_eq_some_iff, Option.some.injEq] at e
    obtain ⟨m2, e, -⟩ := e
    rw [e]
    unfold buildCam at e
    rw [hp1] at e
    have hg : generate exNarrow 1 ![1, 0, 0] exRnd (1 - 0) ⟨[exF0], 1⟩ = ⟨[exF0, exF1], 2⟩ := by
      simp only [Nat.sub_zero, generate]
      simp [hn1, exF0, exF1]
    have hl : (project ⟨1, 1000, true⟩ exNarrow 1 ![1, 0, 0] [exF0]).length = 0 := by
      rw [project_length]
      have := v10 1 (by norm_num)
      simp [Spec.visible, this]
    dsimp only at e
    rw [hl, if_pos (by norm_num), hg] at e
    rw [buildCam_keep _ _ _ _ _ ?_ _ _ _ e]
    intro t R p hg
    obtain ⟨ht, rfl, rfl⟩ := exLine_only t R p hg
    have := v11 t ht
    unfold Spec.visible
    rw [List.countP_cons, List.countP_cons]
    simp [this]
  refine ⟨⟨1, 1000, true⟩, N + 1, exSCam, exNarrow, ⟨[exF0], 1⟩, ⟨[exF0, exF1], 2⟩, [exF1, exF0], 1, ![2, 0, 0], ?_, ?_,
    List.Perm.swap _ _ _, exLine_pose 2 (by norm_num), ?_⟩
  · simp only [buildMap, b1, Option.bind_some]
  · simp only [buildMap, b1, b2, Option.bind_some]
  · intro ord nz ho
    have ho' : ord = [exF0] := List.perm_singleton.1 ho
    rw [ho', camFeats_take _ _ _ _ _ _ _ (Or.inl rfl), camFeats_take _ _ _ _ _ _ _ (Or.inl rfl)]
    have s0 := (seen_iff _ _ _ _ _).2 (v00 2 (by norm_num))
    have s1 := (seen_iff _ _ _ _ _).2 (v01 2 (by norm_num))
    obtain ⟨u0, h0⟩ := project_cons_seen _ _ _ _ _ [] s0 _ rfl
    obtain ⟨u1, h1⟩ := project_cons_seen _ _ _ _ _ [exF0] s1 _ rfl
    rw [h0, h1]
    exact ⟨by simp [exF0], by simp [exF1]⟩

/-- Non-vacuity of `C143_old_first_partial` and `C143_not_seen`: the two maps of the example with the old point first, seen by the
first camera at time 2; and a newer point behind that camera, visited first. -/
example : (∃ ord ord' : List (ℕ × V3), ord = [exF0] ∧ ord' = [exF0, exF1] ∧ Spec.OldFirst ord ord' ∧
      (1 : ℕ) ≤ Spec.visible ⟨1, 1000, true⟩ exSCam 1 ![2, 0, 0] ord) ∧
    Spec.SameOrder 1 [exF0] [(1, ![1, 0, -100]), exF0] ∧
    ∀ f ∈ [(1, ![1, 0, -100]), exF0], 1 ≤ f.1 → ¬ Spec.Visible ⟨1, 1000, true⟩ exSCam 1 ![2, 0, 0] f.2 := by
  refine ⟨⟨[exF0], [exF0, exF1], rfl, rfl, ⟨[exF1], rfl⟩, ?_⟩, ?_, ?_⟩
  · have : Spec.Visible ⟨1, 1000, true⟩ exSCam 1 ![2, 0, 0] exF0.2 := by
      rw [ex_visible _ (Or.inl rfl) _ _ (by simp [exF0])]
      refine ⟨?_, ?_, ?_, ?_⟩ <;> norm_num [exF0, exSCam]
    simp [Spec.visible, this]
  · simp [Spec.SameOrder, exF0]
  · intro f hf h1 hv
    simp only [List.mem_cons, List.not_mem_nil, or_false] at hf
    rcases hf with rfl | rfl
    · have h2 := hv.1
      have hq : quat2Rot exSCam.q = 1 := by apply m3_ext <;> simp [exSCam, quat2Rot, skew, outer, Quat.vec] <;> norm_num
      unfold Spec.depth at h2
      rw [hq] at h2
      simp [exSCam] at h2
      norm_num at h2
    · simp [exF0] at h1

end Verif.Sim
