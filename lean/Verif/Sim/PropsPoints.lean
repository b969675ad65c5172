import Verif.Sim.Points
import Verif.Sim.PropsSim

/-! # C91: the simulated features -/

set_option autoImplicit false

namespace Verif.Sim

open Verif Verif.Types Matrix

namespace Spec

/-- The pixel of a global point `f` for an IMU pose `(R, p)`: rotate and move to the camera, divide by the depth, distort. -/
noncomputable def pixel (k : SCam) (R : M3) (p f : V3) : Cam.V2 :=
  let x := (quat2Rot k.q).mulVec (R.mulVec (f - p)) + k.p
  Cam.distort k.kind k.intr ![x 0 / x 2, x 1 / x 2]

/-- its depth in that camera. -/
noncomputable def depth (k : SCam) (R : M3) (p f : V3) : ℝ := ((quat2Rot k.q).mulVec (R.mulVec (f - p)) + k.p) 2

/-- visible: depth between 0.1 m and the largest distance, pixel inside the image. -/
def Visible (c : PCfg) (k : SCam) (R : M3) (p f : V3) : Prop :=
  0.1 ≤ depth k R p f ∧ depth k R p f ≤ c.maxD ∧ 0 ≤ pixel k R p f 0 ∧ pixel k R p f 0 ≤ k.w ∧ 0 ≤ pixel k R p f 1 ∧
    pixel k R p f 1 ≤ k.h

/-- the number of visible points of a map. -/
noncomputable def visible (c : PCfg) (k : SCam) (R : M3) (p : V3) (fs : List (ℕ × V3)) : ℕ := by
  classical exact fs.countP fun f => decide (Visible c k R p f.2)

/-- random numbers in the ranges of the distributions that draw them, with a nearest distance of at least 0.1 m, for which the
iterative undistortion converged. -/
def Draws (c : PCfg) (k : SCam) (rnd : ℕ → ℝ × ℝ × ℝ) : Prop :=
  ∀ i, 0 ≤ (rnd i).1 ∧ (rnd i).1 ≤ k.w ∧ 0 ≤ (rnd i).2.1 ∧ (rnd i).2.1 ≤ k.h ∧ 0.1 ≤ (rnd i).2.2 ∧ (rnd i).2.2 ≤ c.maxD ∧
    Cam.distort k.kind k.intr (k.undist ![(rnd i).1, (rnd i).2.1]) = ![(rnd i).1, (rnd i).2.1]

end Spec

theorem seen_iff (c : PCfg) (k : SCam) (R : M3) (p f : V3) : Seen c k R p f ↔ Spec.Visible c k R p f := by
  unfold Seen Spec.Visible Spec.depth Spec.pixel inCam
  dsimp only
  constructor
  · rintro ⟨h1, h2⟩
    push Not at h1 h2
    exact ⟨h1.2, h1.1, h2.1, h2.2.1, h2.2.2.1, h2.2.2.2⟩
  · rintro ⟨h1, h2, h3, h4, h5, h6⟩
    push Not
    exact ⟨⟨h2, h1⟩, h3, h4, h5, h6⟩

theorem project_length (c : PCfg) (k : SCam) (R : M3) (p : V3) (fs : List (ℕ × V3)) :
    (project c k R p fs).length = Spec.visible c k R p fs := by
  classical
  unfold project Spec.visible
  induction fs with
  | nil => rfl
  | cons f fs ih =>
    rw [List.filterMap_cons, List.countP_cons]
    by_cases h : Seen c k R p f.2
    · have h' := (seen_iff c k R p f.2).1 h
      simp only [if_pos h, List.length_cons, ih]
      simp [h']
    · have h' := fun x => h ((seen_iff c k R p f.2).2 x)
      simp only [if_neg h, ih]
      simp
      exact h'

/-- **C91** A new map point reprojects to the pixel it was drawn at, at the depth it was drawn with. -/
theorem C91_point_reprojects (k : SCam) (R : M3) (p : V3) (hR : R * R.transpose = 1) (hq : IsUnitQ k.q) (u v d : ℝ) (hd : d ≠ 0)
    (hu : Cam.distort k.kind k.intr (k.undist ![u, v]) = ![u, v]) :
    Spec.pixel k R p (newPoint k R p (u, v, d)) = ![u, v] ∧ Spec.depth k R p (newPoint k R p (u, v, d)) = d := by
  have hx : (quat2Rot k.q).mulVec (R.mulVec (newPoint k R p (u, v, d) - p)) + k.p = d • ![k.undist ![u, v] 0, k.undist ![u, v] 1, 1] := by
    unfold newPoint
    dsimp only
    have e1 : ∀ x : V3, R.mulVec (R.transpose.mulVec x) = x := fun x => by rw [Matrix.mulVec_mulVec, hR, Matrix.one_mulVec]
    rw [add_sub_cancel_right, e1, Matrix.mulVec_mulVec, (quat2Rot_isRot hq).orth', Matrix.one_mulVec, sub_add_cancel]
  unfold Spec.pixel Spec.depth
  rw [hx]
  constructor
  · have e : (![(d • ![k.undist ![u, v] 0, k.undist ![u, v] 1, 1] : V3) 0 / (d • ![k.undist ![u, v] 0, k.undist ![u, v] 1, 1] : V3) 2,
        (d • ![k.undist ![u, v] 0, k.undist ![u, v] 1, 1] : V3) 1 / (d • ![k.undist ![u, v] 0, k.undist ![u, v] 1, 1] : V3) 2] :
          Cam.V2) = k.undist ![u, v] := by
      ext i
      fin_cases i <;> simp [hd]
    dsimp only
    rw [e, hu]
  · simp

/-- the ids of the map are `0, 1, …`. -/
def MapOK (m : FMap) : Prop := m.feats.map Prod.fst = List.range m.next

theorem generate_spec (k : SCam) (R : M3) (p : V3) (rnd : ℕ → ℝ × ℝ × ℝ) (n : ℕ) (m : FMap) (h : MapOK m) :
    MapOK (generate k R p rnd n m) ∧
    (generate k R p rnd n m).feats = m.feats ++ (List.range n).map fun j : ℕ => (m.next + j, newPoint k R p (rnd (m.next + j))) := by
  induction n generalizing m with
  | zero => exact ⟨h, by simp [generate]⟩
  | succ n ih =>
    have hn : m.next ∉ m.feats.map Prod.fst := by rw [h]; simp
    unfold generate
    rw [if_neg hn]
    have h' : MapOK ⟨m.feats ++ [(m.next, newPoint k R p (rnd m.next))], m.next + 1⟩ := by
      unfold MapOK at h ⊢
      rw [List.map_append, h, List.range_succ]; rfl
    obtain ⟨h1, h2⟩ := ih _ h'
    refine ⟨h1, ?_⟩
    rw [h2, List.append_assoc, List.range_succ_eq_map, List.map_cons, List.map_map]
    congr 1
    simp only [List.singleton_append, Nat.add_zero]
    congr 1
    apply List.map_congr_left
    intro j _
    simp only [Function.comp]
    rw [show m.next + 1 + j = m.next + (j + 1) by omega]

theorem visible_append (c : PCfg) (k : SCam) (R : M3) (p : V3) (a b : List (ℕ × V3)) :
    Spec.visible c k R p (a ++ b) = Spec.visible c k R p a + Spec.visible c k R p b := by
  unfold Spec.visible; exact List.countP_append

/-- what the loop for one camera leaves: a valid extension of the map in which every frame time from `t` on has enough points. -/
theorem buildCam_spec (c : PCfg) (cps : Poses) (k : SCam) (rnd : ℕ → ℝ × ℝ × ℝ) (hq : IsUnitQ k.q) (hrnd : Spec.Draws c k rnd)
    (hR : ∀ t R p, getPose cps t = some (R, p) → R * R.transpose = 1) (fuel : ℕ) (t : ℝ) (m m' : FMap) (hm : MapOK m)
    (h : buildCam c cps k rnd fuel t m = some m') :
    MapOK m' ∧ (∃ l, m'.feats = m.feats ++ l) ∧
    ∃ n : ℕ, getPose cps (t + n * 0.25) = none ∧ ∀ i : ℕ, i < n → ∃ R p, getPose cps (t + i * 0.25) = some (R, p) ∧
      c.num ≤ Spec.visible c k R p m'.feats := by
  induction fuel generalizing t m with
  | zero => simp [buildCam] at h
  | succ fuel ih =>
    unfold buildCam at h
    cases hg : getPose cps t with
    | none =>
      rw [hg] at h
      simp only [Option.some.injEq] at h
      rw [← h]
      exact ⟨hm, ⟨[], by simp⟩, 0, by simpa using hg, fun i hi => absurd hi (Nat.not_lt_zero i)⟩
    | some x =>
      obtain ⟨R, p⟩ := x
      rw [hg] at h
      dsimp only at h
      -- the map after this frame
      obtain ⟨m1, hm1⟩ : ∃ m1, m1 = if (project c k R p m.feats).length < c.num then
          generate k R p rnd (c.num - (project c k R p m.feats).length) m else m := ⟨_, rfl⟩
      have key : MapOK m1 ∧ (∃ l, m1.feats = m.feats ++ l) ∧ c.num ≤ Spec.visible c k R p m1.feats := by
        rw [hm1]
        split_ifs with hl
        · obtain ⟨g1, g2⟩ := generate_spec k R p rnd (c.num - (project c k R p m.feats).length) m hm
          refine ⟨g1, ⟨_, g2⟩, ?_⟩
          rw [g2, visible_append, ← project_length]
          have : Spec.visible c k R p ((List.range (c.num - (project c k R p m.feats).length)).map fun j : ℕ =>
              (m.next + j, newPoint k R p (rnd (m.next + j)))) = c.num - (project c k R p m.feats).length := by
            unfold Spec.visible
            classical
            rw [List.countP_eq_length.2]
            · simp
            · intro f hf
              obtain ⟨j, -, rfl⟩ := List.mem_map.1 hf
              obtain ⟨d1, d2, d3, d4, d5, d6, d7⟩ := hrnd (m.next + j)
              obtain ⟨r1, r2⟩ := C91_point_reprojects k R p (hR t R p hg) hq (rnd (m.next + j)).1 (rnd (m.next + j)).2.1
                (rnd (m.next + j)).2.2 (by intro h0; rw [h0] at d5; norm_num at d5) d7
              rw [decide_eq_true_iff]
              unfold Spec.Visible
              dsimp only
              rw [r1, r2]
              exact ⟨d5, d6, d1, d2, d3, d4⟩
          rw [this]
          omega
        · exact ⟨hm, ⟨[], by simp⟩, by rw [← project_length]; omega⟩
      rw [← hm1] at h
      obtain ⟨k1, ⟨l1, k2⟩, n, k3, k4⟩ := ih _ _ key.1 h
      obtain ⟨l0, hl0⟩ := key.2.1
      refine ⟨k1, ⟨l0 ++ l1, by rw [k2, hl0, List.append_assoc]⟩, n + 1, ?_, ?_⟩
      · rw [← k3]; congr 1; push_cast; ring
      · intro i hi
        rcases i with _ | i
        · refine ⟨R, p, by simpa using hg, ?_⟩
          rw [k2, visible_append]
          exact le_trans key.2.2 (Nat.le_add_right _ _)
        · obtain ⟨R', p', h1, h2⟩ := k4 i (by omega)
          refine ⟨R', p', ?_, h2⟩
          rw [← h1]; congr 1; push_cast; ring

/-- **C91** After the constructor: the map ids are `0, 1, …` in order of creation, and for every camera there is a number `n` of
synthetic frames, at `start, start + 0.25, …` up to where the spline ends, in each of which at least `num_pts` map points are visible
to that camera. -/
theorem C91_enough_points (c : PCfg) (cps : Poses) (start : ℝ) (rnd : ℕ → ℝ × ℝ × ℝ) (fuel : ℕ) (ks : List SCam)
    (hq : ∀ k ∈ ks, IsUnitQ k.q) (hrnd : ∀ k ∈ ks, Spec.Draws c k rnd)
    (hR : ∀ t R p, getPose cps t = some (R, p) → R * R.transpose = 1) (m' : FMap)
    (h : buildMap c cps start rnd fuel ks ⟨[], 0⟩ = some m') :
    m'.feats.map Prod.fst = List.range m'.feats.length ∧
    ∀ k ∈ ks, ∃ n : ℕ, getPose cps (start + n * 0.25) = none ∧ ∀ i : ℕ, i < n → ∃ R p, getPose cps (start + i * 0.25) = some (R, p) ∧
      c.num ≤ Spec.visible c k R p m'.feats := by
  have key : ∀ (ks : List SCam) (m : FMap), (∀ k ∈ ks, IsUnitQ k.q) → (∀ k ∈ ks, Spec.Draws c k rnd) → MapOK m →
      buildMap c cps start rnd fuel ks m = some m' → MapOK m' ∧ (∃ l, m'.feats = m.feats ++ l) ∧
      ∀ k ∈ ks, ∃ n : ℕ, getPose cps (start + n * 0.25) = none ∧ ∀ i : ℕ, i < n → ∃ R p, getPose cps (start + i * 0.25) = some (R, p) ∧
        c.num ≤ Spec.visible c k R p m'.feats := by
    intro ks
    induction ks with
    | nil =>
      intro m _ _ hm h
      simp only [buildMap, Option.some.injEq] at h
      rw [← h]
      exact ⟨hm, ⟨[], by simp⟩, by simp⟩
    | cons k ks ih =>
      intro m h1 h2 hm h
      unfold buildMap at h
      rw [Option.bind_eq_some_iff] at h
      obtain ⟨m1, e1, e2⟩ := h
      obtain ⟨a1, ⟨l1, a2⟩, n, a3, a4⟩ := buildCam_spec c cps k rnd (h1 k (by simp)) (h2 k (by simp)) hR fuel start m m1 hm e1
      obtain ⟨b1, ⟨l2, b2⟩, b3⟩ := ih m1 (fun k hk => h1 k (by simp [hk])) (fun k hk => h2 k (by simp [hk])) a1 e2
      refine ⟨b1, ⟨l1 ++ l2, by rw [b2, a2, List.append_assoc]⟩, ?_⟩
      intro k' hk'
      rcases List.mem_cons.1 hk' with rfl | hk'
      · refine ⟨n, a3, fun i hi => ?_⟩
        obtain ⟨R, p, g1, g2⟩ := a4 i hi
        refine ⟨R, p, g1, ?_⟩
        rw [b2, visible_append]
        exact le_trans g2 (Nat.le_add_right _ _)
      · exact b3 k' hk'
  obtain ⟨h1, -, h3⟩ := key ks ⟨[], 0⟩ hq hrnd rfl h
  refine ⟨?_, h3⟩
  have : m'.feats.length = m'.next := by
    have := congrArg List.length h1
    simpa using this
  rw [this]; exact h1

/-- **C91** The map building ends by itself, on every spline with an end. -/
theorem C91_building_ends (c : PCfg) (cps : Poses) (a b : ℝ) (hcov : Spec.Covers cps a b) (start : ℝ) (rnd : ℕ → ℝ × ℝ × ℝ) :
    ∃ N, ∀ fuel, N ≤ fuel → ∀ (ks : List SCam) (m : FMap), (buildMap c cps start rnd fuel ks m).isSome := by
  obtain ⟨N, hN⟩ := exists_nat_gt ((b - start) / 0.25)
  rw [div_lt_iff₀ (by norm_num)] at hN
  have key : ∀ (n : ℕ) (k : SCam) (t : ℝ) (m : FMap), b ≤ t + n * 0.25 → ∀ fuel, n < fuel → (buildCam c cps k rnd fuel t m).isSome := by
    intro n
    induction n with
    | zero =>
      intro k t m hb fuel hf
      obtain ⟨f, rfl⟩ : ∃ f, fuel = f + 1 := ⟨fuel - 1, by omega⟩
      unfold buildCam
      have : getPose cps t = none := by
        rw [← Option.not_isSome_iff_eq_none, hcov]
        push_cast at hb
        rintro ⟨_, h⟩; linarith
      rw [this]; rfl
    | succ n ih =>
      intro k t m hb fuel hf
      obtain ⟨f, rfl⟩ : ∃ f, fuel = f + 1 := ⟨fuel - 1, by omega⟩
      unfold buildCam
      cases getPose cps t with
      | none => rfl
      | some x =>
        dsimp only
        apply ih
        · push_cast at hb; linarith
        · omega
  refine ⟨N + 1, fun fuel hf ks => ?_⟩
  induction ks with
  | nil => intro m; rfl
  | cons k ks ih =>
    intro m
    obtain ⟨m1, e⟩ := Option.isSome_iff_exists.1 (key N k start m (by linarith) fuel (by omega))
    unfold buildMap
    rw [e]
    exact ih m1

theorem mem_project {c : PCfg} {k : SCam} {R : M3} {p : V3} {fs : List (ℕ × V3)} {x : ℕ × Cam.V2} (h : x ∈ project c k R p fs) :
    ∃ f ∈ fs, x = (f.1, Spec.pixel k R p f.2) ∧ Spec.Visible c k R p f.2 := by
  unfold project at h
  obtain ⟨f, hf, hx⟩ := List.mem_filterMap.1 h
  dsimp only at hx
  split_ifs at hx with hs
  simp only [Option.some.injEq] at hx
  exact ⟨f, hf, hx.symm, (seen_iff c k R p f.2).1 hs⟩

theorem project_ids_sub (c : PCfg) (k : SCam) (R : M3) (p : V3) (fs : List (ℕ × V3)) :
    ((project c k R p fs).map Prod.fst).Sublist (fs.map Prod.fst) := by
  induction fs with
  | nil => simp [project]
  | cons f fs ih =>
    unfold project at ih ⊢
    rw [List.filterMap_cons]
    dsimp only
    split_ifs with hs
    · simp only [List.map_cons]
      exact ih.cons_cons _
    · exact ih.cons _

/-- **C91** One camera in one frame, for every order in which the map is visited and every noise: the number of features is the
smaller of `num_pts` and the number of visible map points; no id occurs twice; and every returned feature is a visible map point,
with its exact pixel plus noise, under the point's id (shifted by the camera's number times the map size without stereo). -/
theorem C91_camera_features (c : PCfg) (k : SCam) (i : ℕ) (R : M3) (p : V3) (feats ord : List (ℕ × V3)) (hperm : ord.Perm feats)
    (hids : feats.map Prod.fst = List.range feats.length) (nz : ℕ → Cam.V2) :
    let out := camFeats c k i R p ord nz
    out.length = min c.num (Spec.visible c k R p feats) ∧ (out.map Prod.fst).Nodup ∧
    ∀ j (hj : j < out.length), ∃ f ∈ feats, (out[j]).1 = f.1 + (if c.stereo then 0 else i * feats.length) ∧
      Spec.Visible c k R p f.2 ∧ (out[j]).2 = Spec.pixel k R p f.2 + nz j := by
  intro out
  have hlen : ord.length = feats.length := hperm.length_eq
  have hmapid : out.map Prod.fst = ((project c k R p ord).take c.num).map (fun x => x.1 + if c.stereo then 0 else i * ord.length) := by
    simp only [out, camFeats]
    apply List.ext_getElem
    · simp
    · intro j h1 h2
      simp only [List.getElem_map, List.getElem_mapIdx]
      split_ifs <;> rfl
  refine ⟨?_, ?_, ?_⟩
  · have h1 : (project c k R p ord).length = Spec.visible c k R p feats := by
      rw [project_length]
      unfold Spec.visible
      exact hperm.countP_eq _
    simp only [out, camFeats, List.length_mapIdx, List.length_map, List.length_take, h1]
  · rw [hmapid]
    have h1 : ((project c k R p ord).map Prod.fst).Nodup := by
      apply (project_ids_sub c k R p ord).nodup
      rw [(hperm.map Prod.fst).nodup_iff, hids]
      exact List.nodup_range
    have h2 : (((project c k R p ord).take c.num).map Prod.fst).Nodup := by
      rw [List.map_take]
      exact h1.sublist (List.take_sublist _ _)
    have : ((project c k R p ord).take c.num).map (fun x => x.1 + if c.stereo then 0 else i * ord.length) =
        (((project c k R p ord).take c.num).map Prod.fst).map (· + if c.stereo then 0 else i * ord.length) := by
      rw [List.map_map]; rfl
    rw [this]
    exact h2.map (fun a b h => Nat.add_right_cancel h)
  · intro j hj
    have hj' : j < ((project c k R p ord).take c.num).length := by
      have : out.length = ((project c k R p ord).take c.num).length := by simp [out, camFeats]
      rw [← this]; exact hj
    obtain ⟨f, hf, hx, hv⟩ := mem_project (List.mem_of_mem_take (List.getElem_mem hj'))
    refine ⟨f, hperm.mem_iff.1 hf, ?_, hv, ?_⟩
    · simp only [out, camFeats, List.getElem_mapIdx, List.getElem_map]
      rw [hx]
      split_ifs
      · rfl
      · rw [hlen]
    · simp only [out, camFeats, List.getElem_mapIdx, List.getElem_map]
      rw [hx]
      split_ifs <;> rfl

/-- **C91** Across the cameras of one frame (each may visit the map in its own order): without stereo no id of one camera occurs in
another; with stereo, equal ids in two cameras are the same map point. -/
theorem C91_across_cameras (c : PCfg) (k k' : SCam) (i i' : ℕ) (hii : i ≠ i') (R : M3) (p : V3) (feats ord ord' : List (ℕ × V3))
    (hperm : ord.Perm feats) (hperm' : ord'.Perm feats) (hids : feats.map Prod.fst = List.range feats.length) (nz nz' : ℕ → Cam.V2) :
    let out := camFeats c k i R p ord nz
    let out' := camFeats c k' i' R p ord' nz'
    (c.stereo = false → ∀ x ∈ out, ∀ x' ∈ out', x.1 ≠ x'.1) ∧
    (c.stereo = true → ∀ j (hj : j < out.length) j' (hj' : j' < out'.length), (out[j]).1 = (out'[j']).1 →
      ∃ f ∈ feats, (out[j]).2 = Spec.pixel k R p f.2 + nz j ∧ (out'[j']).2 = Spec.pixel k' R p f.2 + nz' j') := by
  intro out out'
  obtain ⟨-, -, h⟩ := C91_camera_features c k i R p feats ord hperm hids nz
  obtain ⟨-, -, h'⟩ := C91_camera_features c k' i' R p feats ord' hperm' hids nz'
  have hlt : ∀ f ∈ feats, f.1 < feats.length := by
    intro f hf
    have : f.1 ∈ feats.map Prod.fst := List.mem_map_of_mem hf
    rw [hids] at this
    exact List.mem_range.1 this
  constructor
  · intro hs x hx x' hx' he
    obtain ⟨j, hj, rfl⟩ := List.getElem_of_mem hx
    obtain ⟨j', hj', rfl⟩ := List.getElem_of_mem hx'
    obtain ⟨f, hf, h1, -, -⟩ := h j hj
    obtain ⟨f', hf', h1', -, -⟩ := h' j' hj'
    rw [h1, h1', hs] at he
    simp only [Bool.false_eq_true, if_false] at he
    have l1 := hlt f hf
    have l2 := hlt f' hf'
    rcases lt_or_gt_of_ne hii with hlt | hlt
    · have := Nat.mul_le_mul_right feats.length (Nat.succ_le_of_lt hlt)
      rw [Nat.succ_mul] at this
      omega
    · have := Nat.mul_le_mul_right feats.length (Nat.succ_le_of_lt hlt)
      rw [Nat.succ_mul] at this
      omega
  · intro hs j hj j' hj' he
    obtain ⟨f, hf, h1, -, h2⟩ := h j hj
    obtain ⟨f', hf', h1', -, h2'⟩ := h' j' hj'
    rw [h1, h1', hs] at he
    simp only [if_true, Nat.add_zero] at he
    have : f = f' := by
      have hnd : (feats.map Prod.fst).Nodup := by rw [hids]; exact List.nodup_range
      exact List.inj_on_of_nodup_map hnd hf hf' he
    rw [← this] at h2'
    exact ⟨f, hf, h2, h2'⟩

/-! ### a concrete case -/

/-- the orientation of a spline without relative rotations is a rotation matrix at every time. -/
theorem pose_orth_of_steps {m : Poses} (hs : Sorted m) (hse : ∀ q ∈ m, IsSE3 q.2)
    (hst : ∀ q ∈ m, ∀ q' ∈ m, rotBlock (invSE3 q.2 * q'.2) = 1) (t : ℝ) (R : M3) (p : V3) (h : getPose m t = some (R, p)) :
    R * R.transpose = 1 := by
  unfold getPose at h
  cases hf : findCtl t m with
  | none => rw [hf] at h; simp at h
  | some x =>
    obtain ⟨q0, q1, q2, q3⟩ := x
    rw [hf] at h
    simp only [Option.some.injEq, Prod.mk.injEq] at h
    obtain ⟨l, r, hm, h1, h2⟩ := (findCtl_iff hs q0 q1 q2 q3).1 hf
    have hz : ∀ q ∈ m, ∀ q' ∈ m, (omegaOf q.2 q'.2).1 = 0 := by
      intro q hq q' hq'
      unfold omegaOf logSE3
      rw [hst q hq q' hq']
      dsimp only
      split_ifs <;> exact log_one
    have m0 : q0 ∈ m := by rw [hm]; simp
    have m1 : q1 ∈ m := by rw [hm]; simp
    have m2 : q2 ∈ m := by rw [hm]; simp
    have m3 : q3 ∈ m := by rw [hm]; simp
    have hlt : q1.1 < q2.1 := lt_of_le_of_lt h1 h2
    have hr := (vel_rot (t := t) (hse q0 m0) (div_nonneg (by linarith) (by linarith))
      (by rw [div_le_one (by linarith)]; linarith)
      ⟨Or.inl (hz q0 m0 q1 m1), Or.inl (hz q1 m1 q2 m2), Or.inl (hz q2 m2 q3 m3)⟩).1
    rw [← h.1, Matrix.transpose_transpose]
    exact hr.orth

/-- a pinhole camera with a 100 x 100 image. -/
noncomputable def exSCam : SCam :=
  { kind := .radtan, intr := ![50, 50, 50, 50, 0, 0, 0, 0], w := 100, h := 100, q := ⟨0, 0, 0, 1⟩, p := 0
    undist := fun u => ![(u 0 - 50) / 50, (u 1 - 50) / 50] }

/-- Non-vacuity: the straight line with this camera and draws at pixel (10, 20), depth 5, satisfies the hypotheses of
`C91_enough_points`, and the building ends; the features of a frame then satisfy those of `C91_camera_features`. -/
example : ∃ m', (∀ t R p, getPose exLine t = some (R, p) → R * R.transpose = 1) ∧ IsUnitQ exSCam.q ∧
    Spec.Draws ⟨3, 10, true⟩ exSCam (fun _ => (10, 20, 5)) ∧
    (∃ fuel, buildMap ⟨3, 10, true⟩ exLine 1 (fun _ => (10, 20, 5)) fuel [exSCam, exSCam] ⟨[], 0⟩ = some m') ∧
    m'.feats.map Prod.fst = List.range m'.feats.length := by
  have h1 : IsRot (1 : M3) := ⟨by simp, by simp⟩
  have hs : Sorted exLine := by unfold exLine; simp [Sorted]; norm_num
  have hstep : ∀ x y : V3, rotBlock (invSE3 (mkSE3 1 x 1) * (mkSE3 1 y 1)) = 1 := by
    intro x y
    unfold invSE3
    rw [rotBlock_mkSE3, posBlock_mkSE3, Matrix.transpose_one, mkSE3_mul, rotBlock_mkSE3, Matrix.one_mul]
  have hall : ∀ q ∈ exLine, ∃ x, q.2 = mkSE3 1 x 1 := by
    intro p hp
    simp only [exLine, List.mem_cons, List.not_mem_nil, or_false] at hp
    rcases hp with rfl | rfl | rfl | rfl | rfl <;> exact ⟨_, rfl⟩
  have hR := pose_orth_of_steps hs (fun q hq => by obtain ⟨x, e⟩ := hall q hq; rw [e]; exact isSE3_mk h1 _) (by
    intro q hq q' hq'
    obtain ⟨x, e⟩ := hall q hq
    obtain ⟨y, e'⟩ := hall q' hq'
    rw [e, e']; exact hstep x y)
  have hq : IsUnitQ exSCam.q := by simp [exSCam, IsUnitQ]
  have hd : Spec.Draws ⟨3, 10, true⟩ exSCam (fun _ => (10, 20, 5)) := by
    intro i
    refine ⟨by norm_num, by norm_num [exSCam], by norm_num, by norm_num [exSCam], by norm_num, by norm_num, ?_⟩
    ext j
    fin_cases j <;> simp [exSCam, Cam.distort, Cam.radtan] <;> norm_num
  obtain ⟨N, hN⟩ := C91_building_ends ⟨3, 10, true⟩ exLine 1 3 exLine_covers 1 (fun _ => (10, 20, 5))
  obtain ⟨m', hm⟩ := Option.isSome_iff_exists.1 (hN N le_rfl [exSCam, exSCam] ⟨[], 0⟩)
  refine ⟨m', hR, hq, hd, ⟨N, hm⟩, ?_⟩
  refine (C91_enough_points _ exLine 1 _ N [exSCam, exSCam] ?_ ?_ hR m' hm).1
  · intro k hk; simp at hk; rw [hk]; exact hq
  · intro k hk; simp at hk; rw [hk]; exact hd

end Verif.Sim
