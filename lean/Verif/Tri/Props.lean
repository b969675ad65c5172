import Verif.Tri.Model
import Mathlib.LinearAlgebra.Matrix.ToLinearEquiv
import Verif.Prop.Jac3
import Verif.Upd.Props

/-!
# Triangulation and its refinement (C35, C36, C81)
-/

set_option linter.unusedSimpArgs false

open Classical

namespace Verif.Tri

open Verif Verif.Prop_

namespace Spec

/-- the global point `g` in the frame of a camera. -/
def inCam (P : CPose) (g : V3) : V3 := P.R.mulVec (g - P.p)

/-- a camera's pose is a rigid motion. -/
def Rigid (clones : ℕ → ℝ → Option CPose) : Prop := ∀ c t P, clones c t = some P → IsRot P.R

/-- every observation was made from a known clone. -/
def Known (clones : ℕ → ℝ → Option CPose) (obs : Obs) : Prop := ∀ c ∈ obs, ∀ m ∈ c.2, (clones c.1 m.1).isSome

/-- an observation of the list: camera, time, normalised coordinates. -/
def IsObs (obs : Obs) (c : ℕ) (t : ℝ) (uv : V2) : Prop := ∃ x ∈ obs, x.1 = c ∧ (t, uv) ∈ x.2

/-- all observations are exact images of the point `g`. -/
def Sees (clones : ℕ → ℝ → Option CPose) (obs : Obs) (g : V3) : Prop :=
  ∀ c t uv P, IsObs obs c t uv → clones c t = some P →
    inCam P g 2 ≠ 0 ∧ uv = ![inCam P g 0 / inCam P g 2, inCam P g 1 / inCam P g 2]

/-- two observations were made from places from which the point is seen in different directions. -/
def Parallax (clones : ℕ → ℝ → Option CPose) (obs : Obs) (g : V3) : Prop :=
  ∃ c t uv P c' t' uv' P', IsObs obs c t uv ∧ clones c t = some P ∧ IsObs obs c' t' uv' ∧ clones c' t' = some P' ∧
    (skew (g - P.p)).mulVec (g - P'.p) ≠ 0

/-- squared distance of the global point `x` from the viewing ray of an observation (`‖d × (x - c)‖² / ‖d‖²`, `c` the camera centre). -/
noncomputable def rayDist2 (P : CPose) (uv : V2) (x : V3) : ℝ :=
  let d := P.R.transpose.mulVec ![uv 0, uv 1, 1]
  let e := (skew d).mulVec (x - P.p)
  dot3 e e / dot3 d d

/-- sum over all observations. -/
noncomputable def totalDist2 (clones : ℕ → ℝ → Option CPose) (obs : Obs) (x : V3) : ℝ :=
  (obs.map fun c => (c.2.map fun m => match clones c.1 m.1 with | some P => rayDist2 P m.2 x | none => 0).sum).sum

end Spec

/-! ## helpers -/

theorem dot3_rot {R : M3} (h : IsRot R) (v w : V3) : dot3 (R.mulVec v) (R.mulVec w) = dot3 v w := by
  obtain ⟨c00, c11, c22, c01, c02, c12, -⟩ := h.rel
  simp only [dot3, m3_mulVec_apply]
  linear_combination v 0 * w 0 * c00 + v 1 * w 1 * c11 + v 2 * w 2 * c22 + (v 0 * w 1 + v 1 * w 0) * c01 + (v 0 * w 2 + v 2 * w 0) * c02 +
    (v 1 * w 2 + v 2 * w 1) * c12

theorem norm3_rot {R : M3} (h : IsRot R) (v : V3) : norm3 (R.mulVec v) = norm3 v := by rw [norm3, dot3_rot h, norm3]

theorem skew_rot {R : M3} (h : IsRot R) (v w : V3) : (skew (R.mulVec v)).mulVec (R.mulVec w) = R.mulVec ((skew v).mulVec w) := by
  rw [← rot_skew h, Matrix.mulVec_mulVec, Matrix.mul_assoc _ _ R, h.orth, Matrix.mul_one, Matrix.mulVec_mulVec]

theorem dot3_smul (c : ℝ) (v : V3) : dot3 (c • v) (c • v) = c ^ 2 * dot3 v v := by
  simp [dot3]; ring

/-- the residual of the linear system at a point is its distance from the ray. -/
theorem bperp_dist {A P : CPose} (hA : IsRot A.R) (uv : V2) (q : V3) :
    dot3 ((bperp A P uv).mulVec (q - relP A P)) ((bperp A P uv).mulVec (q - relP A P)) = Spec.rayDist2 P uv (A.R.transpose.mulVec q + A.p) := by
  have e1 : q - relP A P = A.R.mulVec (A.R.transpose.mulVec q + A.p - P.p) := by
    rw [show A.R.transpose.mulVec q + A.p - P.p = A.R.transpose.mulVec q - (P.p - A.p) by abel, Matrix.mulVec_sub, Matrix.mulVec_mulVec, hA.orth',
      Matrix.one_mulVec]
    rfl
  have e2 : (relR A P).transpose.mulVec (homog uv) = A.R.mulVec (P.R.transpose.mulVec (homog uv)) := by
    rw [relR, Matrix.transpose_mul, Matrix.transpose_transpose, Matrix.mulVec_mulVec]
  rw [bperp, unit, e2, norm3_rot hA, skew_smul, Matrix.smul_mulVec, e1, skew_rot hA, dot3_smul, dot3_rot hA, Spec.rayDist2]
  show _ = dot3 _ _ / dot3 (P.R.transpose.mulVec (homog uv)) (P.R.transpose.mulVec (homog uv))
  rw [one_div, inv_pow, sq (norm3 (P.R.transpose.mulVec (homog uv))), norm3_sq, inv_mul_eq_div]
  rfl

noncomputable def lsCost (A : CPose) (ms : List (CPose × V2)) (q : V3) : ℝ :=
  (ms.map fun m => dot3 ((bperp A m.1 m.2).mulVec (q - relP A m.1)) ((bperp A m.1 m.2).mulVec (q - relP A m.1))).sum

noncomputable def lsQuad (A : CPose) (ms : List (CPose × V2)) (d : V3) : ℝ :=
  (ms.map fun m => dot3 ((bperp A m.1 m.2).mulVec d) ((bperp A m.1 m.2).mulVec d)).sum

theorem quad_expand (B : M3) (p q c : V3) : dot3 (B.mulVec (q - c)) (B.mulVec (q - c)) =
    dot3 (B.mulVec (p - c)) (B.mulVec (p - c)) + dot3 (B.mulVec (q - p)) (B.mulVec (q - p)) +
      2 * dot3 (q - p) ((B.transpose * B).mulVec p - (B.transpose * B).mulVec c) := by
  simp only [dot3, ← Matrix.mulVec_mulVec, m3_mulVec_apply, Matrix.transpose_apply, Pi.sub_apply]
  ring

theorem dot3_add (a b c : V3) : dot3 a (b + c) = dot3 a b + dot3 a c := by simp [dot3]; ring

theorem ls_expand (A : CPose) (p q : V3) : ∀ (ms : List (CPose × V2)) (s : M3 × V3),
    lsCost A ms q + 2 * dot3 (q - p) (s.1.mulVec p - s.2) =
      lsCost A ms p + lsQuad A ms (q - p) + 2 * dot3 (q - p) ((ms.foldl (addMeas A) s).1.mulVec p - (ms.foldl (addMeas A) s).2)
  | [], s => by simp [lsCost, lsQuad]
  | m :: ms, s => by
    have ih := ls_expand A p q ms (addMeas A s m)
    simp only [lsCost, lsQuad, List.map_cons, List.sum_cons, List.foldl_cons] at ih ⊢
    rw [quad_expand _ p q]
    have e : (addMeas A s m).1.mulVec p - (addMeas A s m).2 = (s.1.mulVec p - s.2) +
        (((bperp A m.1 m.2).transpose * bperp A m.1 m.2).mulVec p - ((bperp A m.1 m.2).transpose * bperp A m.1 m.2).mulVec (relP A m.1)) := by
      simp only [addMeas, Matrix.add_mulVec]; abel
    rw [e, dot3_add] at ih
    linarith

theorem lsQuad_nonneg (A : CPose) (ms : List (CPose × V2)) (d : V3) : 0 ≤ lsQuad A ms d := by
  apply List.sum_nonneg
  intro x hx
  obtain ⟨m, -, rfl⟩ := List.mem_map.1 hx
  exact dot3_self_nonneg _

/-- the solution of the normal equations minimises the cost. -/
theorem ls_min (A : CPose) (ms : List (CPose × V2)) (hd : (ms.foldl (addMeas A) (0, 0)).1.det ≠ 0) (q : V3) :
    lsCost A ms q = lsCost A ms ((ms.foldl (addMeas A) (0, 0)).1⁻¹.mulVec (ms.foldl (addMeas A) (0, 0)).2) +
      lsQuad A ms (q - (ms.foldl (addMeas A) (0, 0)).1⁻¹.mulVec (ms.foldl (addMeas A) (0, 0)).2) := by
  have h := ls_expand A ((ms.foldl (addMeas A) (0, 0)).1⁻¹.mulVec (ms.foldl (addMeas A) (0, 0)).2) q ms (0, 0)
  rw [Matrix.mulVec_mulVec _ (ms.foldl (addMeas A) (0, 0)).1, Matrix.mul_nonsing_inv _ (isUnit_iff_ne_zero.2 hd), Matrix.one_mulVec, sub_self] at h
  have z : ∀ v : V3, dot3 v 0 = 0 := fun v => by simp [dot3]
  simpa [z] using h

/-- the matrix of the system as a quadratic form. -/
theorem sys_quad (A : CPose) (x : V3) : ∀ (ms : List (CPose × V2)) (s : M3 × V3),
    dot3 x ((ms.foldl (addMeas A) s).1.mulVec x) = dot3 x (s.1.mulVec x) + lsQuad A ms x
  | [], s => by simp [lsQuad]
  | m :: ms, s => by
    rw [List.foldl_cons, sys_quad A x ms]
    simp only [lsQuad, List.map_cons, List.sum_cons, addMeas, Matrix.add_mulVec, dot3_add]
    have : dot3 x (((bperp A m.1 m.2).transpose * bperp A m.1 m.2).mulVec x) = dot3 ((bperp A m.1 m.2).mulVec x) ((bperp A m.1 m.2).mulVec x) := by
      rw [← Matrix.mulVec_mulVec]
      simp only [dot3, m3_mulVec_apply, Matrix.transpose_apply]; ring
    rw [this]; ring

theorem dot3_self_zero {v : V3} (h : dot3 v v = 0) : v = 0 := by
  rw [← norm3_eq_zero]
  rw [norm3, h, Real.sqrt_zero]

theorem det_ne_of_inj {M : M3} (h : ∀ x, M.mulVec x = 0 → x = 0) : M.det ≠ 0 := by
  intro hd
  obtain ⟨v, hv, hv0⟩ := Matrix.exists_mulVec_eq_zero_iff.2 hd
  exact hv (h v hv0)

/-! ## observations and poses -/

theorem mem_flat {obs : Obs} {c i : ℕ} {t : ℝ} {uv : V2} (h : (c, i, t, uv) ∈ flat obs) : Spec.IsObs obs c t uv := by
  simp only [flat, List.mem_flatMap, List.mem_mapIdx] at h
  obtain ⟨x, hx, j, hj, he⟩ := h
  simp only [Prod.mk.injEq] at he
  exact ⟨x, hx, he.1, by rw [← he.2.2.1, ← he.2.2.2]; exact List.getElem_mem hj⟩

theorem flat_mem {obs : Obs} {c : ℕ} {t : ℝ} {uv : V2} (h : Spec.IsObs obs c t uv) : ∃ i, (c, i, t, uv) ∈ flat obs := by
  obtain ⟨x, hx, rfl, hm⟩ := h
  obtain ⟨j, hj, he⟩ := List.getElem_of_mem hm
  refine ⟨j, ?_⟩
  simp only [flat, List.mem_flatMap, List.mem_mapIdx]
  exact ⟨x, hx, j, hj, by rw [he]⟩

theorem poses_some {clones : ℕ → ℝ → Option CPose} {obs : Obs} (h : Spec.Known clones obs) : ∃ ms, poses clones (flat obs) = some ms := by
  apply Upd.mapM_some
  rintro ⟨c, i, t, uv⟩ hm
  obtain ⟨x, hx, rfl, hm'⟩ := mem_flat hm
  obtain ⟨P, hP⟩ := Option.isSome_iff_exists.1 (h x hx _ hm')
  simp only at hP
  simp [hP]

theorem poses_mem {clones : ℕ → ℝ → Option CPose} : ∀ {l : List (ℕ × ℕ × ℝ × V2)} {ms : List (CPose × V2)}, poses clones l = some ms →
    (∀ m ∈ ms, ∃ c i t, (c, i, t, m.2) ∈ l ∧ clones c t = some m.1) ∧ ∀ c i t uv P, (c, i, t, uv) ∈ l → clones c t = some P → (P, uv) ∈ ms
  | [], ms, h => by simp [poses] at h; subst h; simp
  | x :: l, ms, h => by
    simp only [poses, List.mapM_cons, Option.bind_eq_bind, Option.bind_eq_some_iff] at h
    obtain ⟨y, hy, ys, hys, h⟩ := h
    obtain rfl := Option.some.inj h
    obtain ⟨P, hP, rfl⟩ := Option.map_eq_some_iff.1 hy
    obtain ⟨h1, h2⟩ := poses_mem (l := l) (ms := ys) hys
    constructor
    · intro m hm
      rcases List.mem_cons.1 hm with rfl | hm
      · exact ⟨x.1, x.2.1, x.2.2.1, by simp, hP⟩
      · obtain ⟨c, i, t, h3, h4⟩ := h1 m hm
        exact ⟨c, i, t, by simp [h3], h4⟩
    · intro c i t uv P' hm hP'
      rcases List.mem_cons.1 hm with h | hm
      · subst h
        simp only at hP
        rw [hP'] at hP
        obtain rfl := Option.some.inj hP
        simp
      · exact List.mem_cons_of_mem _ (h2 c i t uv P' hm hP')

/-- summed squared ray distance over the visited observations. -/
noncomputable def flatDist (clones : ℕ → ℝ → Option CPose) (l : List (ℕ × ℕ × ℝ × V2)) (x : V3) : ℝ :=
  (l.map fun m => match clones m.1 m.2.2.1 with | some P => Spec.rayDist2 P m.2.2.2 x | none => 0).sum

theorem lsCost_flat {clones : ℕ → ℝ → Option CPose} {A : CPose} (hA : IsRot A.R) (q : V3) : ∀ (l : List (ℕ × ℕ × ℝ × V2)) (ms : List (CPose × V2)),
    poses clones l = some ms → lsCost A ms q = flatDist clones l (A.R.transpose.mulVec q + A.p) := by
  intro l
  induction l with
  | nil => intro ms h; simp [poses] at h; subst h; simp [lsCost, flatDist]
  | cons x l ih =>
    intro ms h
    simp only [poses, List.mapM_cons, Option.bind_eq_bind, Option.bind_eq_some_iff] at h
    obtain ⟨y, hy, ys, hys, h⟩ := h
    obtain rfl := Option.some.inj h
    obtain ⟨P, hP, rfl⟩ := Option.map_eq_some_iff.1 hy
    have := ih ys hys
    simp only [lsCost, flatDist, List.map_cons, List.sum_cons] at this ⊢
    rw [this, bperp_dist hA, hP]

theorem flatDist_total (clones : ℕ → ℝ → Option CPose) (obs : Obs) (x : V3) : flatDist clones (flat obs) x = Spec.totalDist2 clones obs x := by
  rw [Spec.totalDist2, flatDist, flat]
  induction obs with
  | nil => simp
  | cons c obs ih =>
    rw [List.flatMap_cons, List.map_append, List.sum_append, ih, List.map_cons, List.sum_cons]
    congr 1
    have : ∀ (L : List (ℝ × V2)), (List.map (fun m : ℕ × ℕ × ℝ × V2 => match clones m.1 m.2.2.1 with
          | some P => Spec.rayDist2 P m.2.2.2 x | none => 0) (L.mapIdx fun i m => (c.1, i, m.1, m.2))) =
        L.map fun m => match clones c.1 m.1 with | some P => Spec.rayDist2 P m.2 x | none => 0 := by
      intro L
      apply List.ext_getElem <;> simp
    rw [this]

theorem totalDist_eq {clones : ℕ → ℝ → Option CPose} {A : CPose} (hA : IsRot A.R) (q : V3) {obs : Obs} {ms : List (CPose × V2)}
    (h : poses clones (flat obs) = some ms) : lsCost A ms q = Spec.totalDist2 clones obs (A.R.transpose.mulVec q + A.p) := by
  rw [lsCost_flat hA q _ _ h, flatDist_total]

/-- the system is regular as soon as two rays are not parallel. -/
theorem sys_det {A : CPose} {ms : List (CPose × V2)} {m m' : CPose × V2} (hm : m ∈ ms) (hm' : m' ∈ ms)
    (hne : (skew ((relR A m.1).transpose.mulVec (homog m.2))).mulVec ((relR A m'.1).transpose.mulVec (homog m'.2)) ≠ 0) :
    (ms.foldl (addMeas A) (0, 0)).1.det ≠ 0 := by
  apply det_ne_of_inj
  intro x hx
  have h := sys_quad A x ms (0, 0)
  have z : ∀ v : V3, dot3 v 0 = 0 := fun v => by simp [dot3]
  rw [hx, z] at h
  simp only [Matrix.zero_mulVec, z, zero_add] at h
  have hz : ∀ k ∈ ms, (bperp A k.1 k.2).mulVec x = 0 := by
    intro k hk
    apply dot3_self_zero
    have h1 : dot3 ((bperp A k.1 k.2).mulVec x) ((bperp A k.1 k.2).mulVec x) ≤ lsQuad A ms x :=
      List.single_le_sum (by
        intro y hy
        obtain ⟨k', -, rfl⟩ := List.mem_map.1 hy
        exact dot3_self_nonneg _) _ (List.mem_map.2 ⟨k, hk, rfl⟩)
    exact le_antisymm (h ▸ h1) (dot3_self_nonneg _)
  have h1 := hz m hm
  have h2 := hz m' hm'
  set a := (relR A m.1).transpose.mulVec (homog m.2) with ha
  set b := (relR A m'.1).transpose.mulVec (homog m'.2) with hb
  have na : norm3 a ≠ 0 := fun h => hne (by rw [norm3_eq_zero.1 h]; simp [skew, Matrix.mulVec, dotProduct, Fin.sum_univ_succ])
  have nb : norm3 b ≠ 0 := fun h => hne (by rw [norm3_eq_zero.1 h, Matrix.mulVec_zero])
  have h1' : (skew a).mulVec x = 0 := by
    rw [bperp, ← ha, unit, skew_smul, Matrix.smul_mulVec] at h1
    exact (smul_eq_zero.1 h1).resolve_left (by simpa using na)
  have h2' : (skew b).mulVec x = 0 := by
    rw [bperp, ← hb, unit, skew_smul, Matrix.smul_mulVec] at h2
    exact (smul_eq_zero.1 h2).resolve_left (by simpa using nb)
  clear_value a b
  by_contra hx0
  apply hne
  have i0 := congrFun h1' 0
  have i1 := congrFun h1' 1
  have i2 := congrFun h1' 2
  have j0 := congrFun h2' 0
  have j1 := congrFun h2' 1
  have j2 := congrFun h2' 2
  simp only [m3_mulVec_apply, skew00, skew01, skew02, skew10, skew11, skew12, skew20, skew21, skew22, Pi.zero_apply] at i0 i1 i2 j0 j1 j2
  have hnx : x 0 ≠ 0 ∨ x 1 ≠ 0 ∨ x 2 ≠ 0 := by
    by_contra hh
    push Not at hh
    exact hx0 (v3_ext hh.1 hh.2.1 hh.2.2)
  apply v3_ext <;> simp only [m3_mulVec_apply, skew00, skew01, skew02, skew10, skew11, skew12, skew20, skew21, skew22, Pi.zero_apply] <;>
    rcases hnx with hk | hk | hk <;> apply mul_left_cancel₀ hk <;> grind

/-- an exact observation's ray passes through the point. -/
theorem exact_ray {P : CPose} (hP : IsRot P.R) {g : V3} {uv : V2} (hz : Spec.inCam P g 2 ≠ 0)
    (h : uv = ![Spec.inCam P g 0 / Spec.inCam P g 2, Spec.inCam P g 1 / Spec.inCam P g 2]) :
    P.R.transpose.mulVec (homog uv) = (1 / Spec.inCam P g 2) • (g - P.p) := by
  have e : homog uv = (1 / Spec.inCam P g 2) • Spec.inCam P g := by
    rw [h]
    apply v3_ext <;> simp [homog] <;> field_simp
  rw [e, Matrix.mulVec_smul, Spec.inCam, Matrix.mulVec_mulVec, hP.orth, Matrix.one_mulVec]

theorem anchor_spec {obs : Obs} {a : ℕ × ℝ × V2} (h : anchor obs = some a) : Spec.IsObs obs a.1 a.2.1 a.2.2 := by
  simp only [anchor, Option.bind_eq_bind, Option.bind_eq_some_iff] at h
  obtain ⟨ms, h1, m, h2, h3⟩ := h
  obtain rfl := Option.some.inj h3
  simp only [camObs, Option.map_eq_some_iff] at h1
  obtain ⟨x, hx, rfl⟩ := h1
  exact ⟨x, List.mem_of_find?_eq_some hx, by simpa using List.find?_some hx, List.mem_of_mem_getLast? h2⟩

theorem anchorCam_fold (obs : Obs) : ∀ (a : ℕ × ℕ), (∀ c ∈ obs, c.2.length ≤ (obs.foldl (fun a c => if c.2.length > a.2 then (c.1, c.2.length) else a) a).2) ∧
    a.2 ≤ (obs.foldl (fun a c => if c.2.length > a.2 then (c.1, c.2.length) else a) a).2 ∧
    (obs.foldl (fun a c => if c.2.length > a.2 then (c.1, c.2.length) else a) a = a ∨
      ∃ c ∈ obs, obs.foldl (fun a c => if c.2.length > a.2 then (c.1, c.2.length) else a) a = (c.1, c.2.length)) := by
  induction obs with
  | nil => intro a; simp
  | cons x xs ih =>
    intro a
    obtain ⟨h1, h2, h3⟩ := ih (if x.2.length > a.2 then (x.1, x.2.length) else a)
    rw [List.foldl_cons]
    refine ⟨?_, ?_, ?_⟩
    · intro c hc
      rcases List.mem_cons.1 hc with rfl | hc
      · refine le_trans ?_ h2
        split_ifs with hh
        · exact le_rfl
        · exact not_lt.1 hh
      · exact h1 c hc
    · refine le_trans ?_ h2
      split_ifs with hh
      · exact le_of_lt hh
      · exact le_rfl
    · rcases h3 with h3 | ⟨c, hc, h3⟩
      · by_cases hh : x.2.length > a.2
        · right; rw [if_pos hh] at h3 ⊢; exact ⟨x, by simp, h3⟩
        · left; rw [if_neg hh] at h3 ⊢; exact h3
      · right; exact ⟨c, by simp [hc], h3⟩

theorem find_key {obs : Obs} (hn : (obs.map Prod.fst).Nodup) {y : ℕ × List (ℝ × V2)} (hy : y ∈ obs) : obs.find? (fun z => z.1 = y.1) = some y := by
  induction obs with
  | nil => simp at hy
  | cons z zs ih =>
    rw [List.map_cons, List.nodup_cons] at hn
    by_cases hz : z.1 = y.1
    · rw [List.find?_cons_of_pos (by simpa using hz)]
      rcases List.mem_cons.1 hy with rfl | hy'
      · rfl
      · exact absurd (List.mem_map.2 ⟨y, hy', hz.symm⟩) hn.1
    · rw [List.find?_cons_of_neg (by simpa using hz)]
      rcases List.mem_cons.1 hy with rfl | hy'
      · exact absurd rfl hz
      · exact ih hn.2 hy'

/-- the anchor is the last observation of a camera with the most observations. -/
theorem anchor_info {obs : Obs} (hn : (obs.map Prod.fst).Nodup) {a : ℕ × ℝ × V2} (h : anchor obs = some a) :
    ∃ x ∈ obs, x.1 = a.1 ∧ x.2.getLast? = some (a.2.1, a.2.2) ∧ (∀ y ∈ obs, y.2.length ≤ x.2.length) ∧ (anchorCam obs).2 = x.2.length := by
  simp only [anchor, Option.bind_eq_bind, Option.bind_eq_some_iff] at h
  obtain ⟨ms, h1, m, h2, h3⟩ := h
  obtain rfl := Option.some.inj h3
  simp only [camObs, Option.map_eq_some_iff] at h1
  obtain ⟨x, hx, rfl⟩ := h1
  have hxm := List.mem_of_find?_eq_some hx
  have hx1 : x.1 = (anchorCam obs).1 := by simpa using List.find?_some hx
  obtain ⟨k1, -, k3⟩ := anchorCam_fold obs (0, 0)
  have hlen : 0 < x.2.length := List.length_pos_of_mem (List.mem_of_mem_getLast? h2)
  have k4 := k1 x hxm
  rcases k3 with k3 | ⟨y, hy, k3⟩
  · rw [k3] at k4; simp only at k4; omega
  · have hk : (anchorCam obs) = (y.1, y.2.length) := k3
    have e := find_key hn hy
    rw [show y.1 = (anchorCam obs).1 by rw [hk], hx] at e
    obtain rfl := Option.some.inj e
    refine ⟨x, hxm, hx1, h2, fun z hz => ?_, by rw [hk]⟩
    have := k1 z hz
    rwa [k3] at this

/-- there is an anchor as soon as there is an observation. -/
theorem anchor_some {obs : Obs} (hn : (obs.map Prod.fst).Nodup) {c : ℕ} {t : ℝ} {uv : V2} (h : Spec.IsObs obs c t uv) : ∃ a, anchor obs = some a := by
  obtain ⟨x, hx, -, hm⟩ := h
  obtain ⟨h1, -, h3⟩ := anchorCam_fold obs (0, 0)
  have hlen : 0 < x.2.length := List.length_pos_of_mem hm
  have h4 := h1 x hx
  rcases h3 with h3 | ⟨y, hy, h3⟩
  · rw [h3] at h4; simp only at h4; omega
  · have h5 : camObs obs (anchorCam obs).1 = some y.2 := by
      have hk : (anchorCam obs).1 = y.1 := by rw [anchorCam, h3]
      rw [camObs, hk]
      rw [find_key hn hy]; rfl
    rw [h3] at h4
    simp only at h4
    have hne : y.2 ≠ [] := by intro hh; rw [hh, List.length_nil] at h4; omega
    refine ⟨((anchorCam obs).1, (y.2.getLast hne).1, (y.2.getLast hne).2), ?_⟩
    rw [anchor, h5, Option.bind_eq_bind, Option.bind_some, List.getLast?_eq_getLast_of_ne_nil hne]
    rfl

/-! ## C35 -/

/-- **C35** (anchor) The anchor is the last observation of a camera that no other camera beats in number of observations. -/
theorem C35_anchor {obs : Obs} (hn : (obs.map Prod.fst).Nodup) {a : ℕ × ℝ × V2} (h : anchor obs = some a) :
    ∃ x ∈ obs, x.1 = a.1 ∧ x.2.getLast? = some (a.2.1, a.2.2) ∧ ∀ y ∈ obs, y.2.length ≤ x.2.length := by
  obtain ⟨x, h1, h2, h3, h4, -⟩ := anchor_info hn h
  exact ⟨x, h1, h2, h3, h4⟩

/-- **C35** (least squares) Whatever the observations, a point that triangulation accepts minimises, over all points of space, the sum of squared
distances from the viewing rays; its position in the anchor camera lies within the depth gates and corresponds to the global one. -/
theorem C35_least_squares (o : Opts) (cond : M3 → ℝ) {clones : ℕ → ℝ → Option CPose} {obs : Obs} (hR : Spec.Rigid clones) {f : Fix}
    (h : triangulate o cond clones obs = some (some f)) :
    (∀ x, Spec.totalDist2 clones obs f.pG ≤ Spec.totalDist2 clones obs x) ∧
    ∃ A, clones f.cam f.t = some A ∧ Spec.inCam A f.pG = f.pA ∧ o.minDist ≤ f.pA 2 ∧ f.pA 2 ≤ o.maxDist := by
  simp only [triangulate, Option.bind_eq_bind, Option.bind_eq_some_iff] at h
  obtain ⟨a, ha, A, hA, ms, hms, h⟩ := h
  split_ifs at h with hg
  · simp at h
  · push Not at hg
    obtain rfl := Option.some.inj (Option.some.inj h)
    have hAr := hR _ _ _ hA
    have back : ∀ x, A.R.transpose.mulVec (A.R.mulVec (x - A.p)) + A.p = x := by
      intro x; rw [Matrix.mulVec_mulVec, hAr.orth, Matrix.one_mulVec, sub_add_cancel]
    refine ⟨fun x => ?_, A, hA, ?_, hg.2.2.1, hg.2.2.2⟩
    · rw [← totalDist_eq hAr _ hms, ← back x, ← totalDist_eq hAr _ hms, ls_min A ms hg.1 (A.R.mulVec (x - A.p))]
      linarith [lsQuad_nonneg A ms (A.R.mulVec (x - A.p) - (ms.foldl (addMeas A) (0, 0)).1⁻¹.mulVec (ms.foldl (addMeas A) (0, 0)).2)]
    · rw [Spec.inCam, add_sub_cancel_right, Matrix.mulVec_mulVec, hAr.orth', Matrix.one_mulVec]

/-- **C35** (exactness) With exact observations of a point `g`, two of which see it in different directions, triangulation does not throw, its linear
system is regular, and it returns `g` exactly — unless the conditioning or depth gates (evaluated at the true depth) reject it. -/
theorem C35_exact (o : Opts) (cond : M3 → ℝ) {clones : ℕ → ℝ → Option CPose} {obs : Obs} (hn : (obs.map Prod.fst).Nodup) (hR : Spec.Rigid clones)
    (hk : Spec.Known clones obs) {g : V3} (hs : Spec.Sees clones obs g) (hp : Spec.Parallax clones obs g) :
    ∃ (c : ℕ) (t : ℝ) (A : CPose) (M : M3), clones c t = some A ∧ M.det ≠ 0 ∧ triangulate o cond clones obs =
      some (if cond M > o.maxCond ∨ Spec.inCam A g 2 < o.minDist ∨ Spec.inCam A g 2 > o.maxDist then none
        else some ⟨c, t, Spec.inCam A g, g⟩) := by
  obtain ⟨c1, t1, u1, P1, c2, t2, u2, P2, o1, k1, o2, k2, hpar⟩ := hp
  obtain ⟨a, ha⟩ := anchor_some hn o1
  have hao := anchor_spec ha
  obtain ⟨A, hA⟩ : ∃ A, clones a.1 a.2.1 = some A := by
    obtain ⟨x, hx, h1, h2⟩ := hao
    exact h1 ▸ Option.isSome_iff_exists.1 (hk x hx _ h2)
  obtain ⟨ms, hms⟩ := poses_some hk
  have hAr := hR _ _ _ hA
  have hmem : ∀ c t uv P, Spec.IsObs obs c t uv → clones c t = some P → (P, uv) ∈ ms := by
    intro c t uv P ho hP
    obtain ⟨i, hi⟩ := flat_mem ho
    exact (poses_mem hms).2 c i t uv P hi hP
  have hray : ∀ c t uv P, Spec.IsObs obs c t uv → clones c t = some P →
      (relR A P).transpose.mulVec (homog uv) = (1 / Spec.inCam P g 2) • A.R.mulVec (g - P.p) := by
    intro c t uv P ho hP
    obtain ⟨h1, h2⟩ := hs c t uv P ho hP
    rw [relR, Matrix.transpose_mul, Matrix.transpose_transpose, ← Matrix.mulVec_mulVec, exact_ray (hR _ _ _ hP) h1 h2, Matrix.mulVec_smul]
  have hdet : (ms.foldl (addMeas A) (0, 0)).1.det ≠ 0 := by
    refine sys_det (m := (P1, u1)) (m' := (P2, u2)) (hmem _ _ _ _ o1 k1) (hmem _ _ _ _ o2 k2) ?_
    simp only
    rw [hray _ _ _ _ o1 k1, hray _ _ _ _ o2 k2, skew_smul, Matrix.smul_mulVec, Matrix.mulVec_smul, skew_rot hAr]
    have z1 := (hs _ _ _ _ o1 k1).1
    have z2 := (hs _ _ _ _ o2 k2).1
    intro h0
    have h1 := (smul_eq_zero.1 ((smul_eq_zero.1 h0).resolve_left (by simpa using z1))).resolve_left (by simpa using z2)
    apply hpar
    have h2 := congrArg A.R.transpose.mulVec h1
    rwa [Matrix.mulVec_mulVec, hAr.orth, Matrix.one_mulVec, Matrix.mulVec_zero] at h2
  have hsol : (ms.foldl (addMeas A) (0, 0)).1⁻¹.mulVec (ms.foldl (addMeas A) (0, 0)).2 = Spec.inCam A g := by
    have hzero : lsCost A ms (Spec.inCam A g) = 0 := by
      apply List.sum_eq_zero
      intro y hy
      obtain ⟨⟨P, uv⟩, hm, rfl⟩ := List.mem_map.1 hy
      obtain ⟨c, i, t, h1, h2⟩ := (poses_mem hms).1 _ hm
      have ho := mem_flat h1
      obtain ⟨h3, h4⟩ := hs c t uv P ho h2
      simp only
      rw [bperp_dist hAr]
      have e : A.R.transpose.mulVec (Spec.inCam A g) + A.p = g := by
        rw [Spec.inCam, Matrix.mulVec_mulVec, hAr.orth, Matrix.one_mulVec, sub_add_cancel]
      have e2 : P.R.transpose.mulVec ![uv 0, uv 1, 1] = (1 / Spec.inCam P g 2) • (g - P.p) := exact_ray (hR _ _ _ h2) h3 h4
      have e3 : (skew (g - P.p)).mulVec (g - P.p) = 0 := by
        apply v3_ext <;> simp [m3_mulVec_apply, skew00, skew01, skew02, skew10, skew11, skew12, skew20, skew21, skew22] <;> ring
      simp only [Spec.rayDist2, e, e2, skew_smul, Matrix.smul_mulVec, e3]
      simp [dot3]
    have h1 := ls_min A ms hdet (Spec.inCam A g)
    have h2 : 0 ≤ lsCost A ms ((ms.foldl (addMeas A) (0, 0)).1⁻¹.mulVec (ms.foldl (addMeas A) (0, 0)).2) := by
      apply List.sum_nonneg
      intro y hy
      obtain ⟨m, -, rfl⟩ := List.mem_map.1 hy
      exact dot3_self_nonneg _
    have h3 := lsQuad_nonneg A ms (Spec.inCam A g - (ms.foldl (addMeas A) (0, 0)).1⁻¹.mulVec (ms.foldl (addMeas A) (0, 0)).2)
    have h4 : lsQuad A ms (Spec.inCam A g - (ms.foldl (addMeas A) (0, 0)).1⁻¹.mulVec (ms.foldl (addMeas A) (0, 0)).2) = 0 := by linarith
    have h5 := sys_quad A (Spec.inCam A g - (ms.foldl (addMeas A) (0, 0)).1⁻¹.mulVec (ms.foldl (addMeas A) (0, 0)).2) ms (0, 0)
    by_contra hne
    -- the form is definite: the system matrix restricted to the difference vanishes
    have hd0 : Spec.inCam A g - (ms.foldl (addMeas A) (0, 0)).1⁻¹.mulVec (ms.foldl (addMeas A) (0, 0)).2 ≠ 0 := fun h => hne (sub_eq_zero.1 h).symm
    generalize Spec.inCam A g - (ms.foldl (addMeas A) (0, 0)).1⁻¹.mulVec (ms.foldl (addMeas A) (0, 0)).2 = d at h4 hd0
    apply hd0
    have h6 : ∀ m ∈ ms, (bperp A m.1 m.2).mulVec d = 0 := by
      intro k hk
      apply dot3_self_zero
      have h1 : dot3 ((bperp A k.1 k.2).mulVec d) ((bperp A k.1 k.2).mulVec d) ≤ lsQuad A ms d :=
        List.single_le_sum (by
          intro y hy
          obtain ⟨k', -, rfl⟩ := List.mem_map.1 hy
          exact dot3_self_nonneg _) _ (List.mem_map.2 ⟨k, hk, rfl⟩)
      exact le_antisymm (h4 ▸ h1) (dot3_self_nonneg _)
    have h7 : ∀ (L : List (CPose × V2)) (s : M3 × V3), (∀ m ∈ L, (bperp A m.1 m.2).mulVec d = 0) → s.1.mulVec d = 0 →
        (L.foldl (addMeas A) s).1.mulVec d = 0 := by
      intro L
      induction L with
      | nil => intro s _ h; exact h
      | cons m L ih =>
        intro s hL h
        apply ih _ (fun m hm => hL m (by simp [hm]))
        simp only [addMeas, Matrix.add_mulVec, h, ← Matrix.mulVec_mulVec, hL m (by simp), Matrix.mulVec_zero, add_zero]
    have h8 := h7 ms (0, 0) h6 (by simp)
    have h9 := congrArg ((ms.foldl (addMeas A) (0, 0)).1⁻¹).mulVec h8
    rwa [Matrix.mulVec_mulVec, Matrix.nonsing_inv_mul _ (isUnit_iff_ne_zero.2 hdet), Matrix.one_mulVec, Matrix.mulVec_zero] at h9
  refine ⟨a.1, a.2.1, A, (ms.foldl (addMeas A) (0, 0)).1, hA, hdet, ?_⟩
  have e : A.R.transpose.mulVec (Spec.inCam A g) + A.p = g := by
    rw [Spec.inCam, Matrix.mulVec_mulVec, hAr.orth, Matrix.one_mulVec, sub_add_cancel]
  simp only [triangulate, ha, hA, hms, Option.bind_eq_bind, Option.bind_some, hsol, hdet, false_or, e]
  split_ifs <;> rfl

/-! ### depth only -/

theorem ls_line (A : CPose) (b : V3) (d : ℝ) : ∀ (ms : List (CPose × V2)) (s : ℝ × ℝ),
    lsCost A ms (d • b) = lsCost A ms 0 - 2 * d * ((ms.foldl (addMeas1 A b) s).2 - s.2) + d ^ 2 * ((ms.foldl (addMeas1 A b) s).1 - s.1)
  | [], s => by simp [lsCost]
  | m :: ms, s => by
    have ih := ls_line A b d ms (addMeas1 A b s m)
    simp only [lsCost, List.map_cons, List.sum_cons, List.foldl_cons] at ih ⊢
    rw [ih]
    simp only [addMeas1, Matrix.mulVec_sub, Matrix.mulVec_smul]
    simp only [dot3, Pi.sub_apply, Pi.smul_apply, smul_eq_mul, Matrix.mulVec_zero, Pi.zero_apply]
    ring

theorem line_quad (A : CPose) (b : V3) : ∀ (ms : List (CPose × V2)) (s : ℝ × ℝ), (ms.foldl (addMeas1 A b) s).1 = s.1 + lsQuad A ms b
  | [], s => by simp [lsQuad]
  | m :: ms, s => by
    rw [List.foldl_cons, line_quad A b ms]
    simp only [lsQuad, addMeas1, List.map_cons, List.sum_cons]; ring

theorem sum_filter_zero {α : Type*} (p : α → Prop) [DecidablePred p] (F : α → ℝ) : ∀ l : List α, (∀ x ∈ l, ¬ p x → F x = 0) →
    ((l.filter fun x => p x).map F).sum = (l.map F).sum
  | [], _ => rfl
  | x :: l, h => by
    have ih := sum_filter_zero p F l (fun y hy => h y (by simp [hy]))
    by_cases hx : p x
    · rw [List.filter_cons_of_pos (by simpa using hx), List.map_cons, List.map_cons, List.sum_cons, List.sum_cons, ih]
    · rw [List.filter_cons_of_neg (by simpa using hx), List.map_cons, List.sum_cons, ih, h x (by simp) hx, zero_add]

theorem mem_flat_idx {obs : Obs} {c i : ℕ} {t : ℝ} {uv : V2} (h : (c, i, t, uv) ∈ flat obs) : ∃ x ∈ obs, x.1 = c ∧ x.2[i]? = some (t, uv) := by
  simp only [flat, List.mem_flatMap, List.mem_mapIdx] at h
  obtain ⟨x, hx, j, hj, he⟩ := h
  simp only [Prod.mk.injEq] at he
  obtain ⟨h1, rfl, h2, h3⟩ := he
  exact ⟨x, hx, h1, by rw [List.getElem?_eq_getElem hj, ← h2, ← h3]⟩

/-- the skipped observation is the anchor's. -/
theorem skipped_is_anchor {obs : Obs} (hn : (obs.map Prod.fst).Nodup) {a : ℕ × ℝ × V2} (h : anchor obs = some a) {m : ℕ × ℕ × ℝ × V2}
    (hm : m ∈ flat obs) (hs : m.1 = a.1 ∧ m.2.1 = (anchorCam obs).2 - 1) : m.2.2.1 = a.2.1 ∧ m.2.2.2 = a.2.2 := by
  obtain ⟨x, hx, h1, h2, -, h4⟩ := anchor_info hn h
  obtain ⟨c, i, t, uv⟩ := m
  obtain ⟨y, hy, k1, k2⟩ := mem_flat_idx hm
  simp only at hs
  have e1 := find_key hn hx
  have e2 := find_key hn hy
  rw [k1, hs.1, ← h1, e1] at e2
  obtain rfl := Option.some.inj e2
  rw [List.getLast?_eq_getElem?, ← h4, ← hs.2, k2] at h2
  have := Option.some.inj h2
  simp only [Prod.mk.injEq] at this
  exact this

theorem anchor_ray_zero {A : CPose} (hA : IsRot A.R) (uv : V2) (d : ℝ) : Spec.rayDist2 A uv (A.R.transpose.mulVec (d • homog uv) + A.p) = 0 := by
  have e3 : ∀ v : V3, (skew v).mulVec v = 0 := fun v => by
    apply v3_ext <;> simp [m3_mulVec_apply, skew00, skew01, skew02, skew10, skew11, skew12, skew20, skew21, skew22] <;> ring
  have e4 : (![uv 0, uv 1, 1] : V3) = homog uv := rfl
  simp only [Spec.rayDist2, add_sub_cancel_right, Matrix.mulVec_smul, e3, e4]
  simp [dot3]

theorem homog_norm (uv : V2) : norm3 (homog uv) ≠ 0 := by
  intro h
  have := congrFun (norm3_eq_zero.1 h) 2
  simp [homog] at this

theorem unit_homog (uv : V2) (d : ℝ) : d • homog uv = (d * norm3 (homog uv)) • unit (homog uv) := by
  rw [unit, smul_smul, mul_assoc, mul_one_div_cancel (homog_norm uv), mul_one]

theorem filtered_cost {clones : ℕ → ℝ → Option CPose} {obs : Obs} (hn : (obs.map Prod.fst).Nodup) {a : ℕ × ℝ × V2} (ha : anchor obs = some a)
    {A : CPose} (hA : clones a.1 a.2.1 = some A) (hAr : IsRot A.R) {ms : List (CPose × V2)}
    (hms : poses clones ((flat obs).filter fun m => ¬ (m.1 = a.1 ∧ m.2.1 = (anchorCam obs).2 - 1)) = some ms) (d : ℝ) :
    lsCost A ms (d • homog a.2.2) = Spec.totalDist2 clones obs (A.R.transpose.mulVec (d • homog a.2.2) + A.p) := by
  rw [lsCost_flat hAr _ _ _ hms, ← flatDist_total, flatDist, flatDist]
  refine sum_filter_zero (fun m : ℕ × ℕ × ℝ × V2 => ¬ (m.1 = a.1 ∧ m.2.1 = (anchorCam obs).2 - 1)) _ _ ?_
  intro m hm hs
  have hs := not_not.1 hs
  obtain ⟨h1, h2⟩ := skipped_is_anchor hn ha hm hs
  rw [hs.1, h1, hA]
  simp only
  rw [h2, anchor_ray_zero hAr]

/-- **C35** (depth only) The one-dimensional triangulation returns a point on the anchor's viewing ray that minimises, among all points of that ray,
the sum of squared distances from all viewing rays. -/
theorem C35_depth_least_squares (o : Opts) {clones : ℕ → ℝ → Option CPose} {obs : Obs} (hn : (obs.map Prod.fst).Nodup) (hR : Spec.Rigid clones) {f : Fix}
    (h : triangulate1 o clones obs = some (some f)) :
    ∃ A uv, clones f.cam f.t = some A ∧ Spec.IsObs obs f.cam f.t uv ∧ (∃ d : ℝ, f.pA = d • ![uv 0, uv 1, 1]) ∧ Spec.inCam A f.pG = f.pA ∧
      o.minDist ≤ f.pA 2 ∧ f.pA 2 ≤ o.maxDist ∧
      ∀ d : ℝ, Spec.totalDist2 clones obs f.pG ≤ Spec.totalDist2 clones obs (A.R.transpose.mulVec (d • ![uv 0, uv 1, 1]) + A.p) := by
  simp only [triangulate1, Option.bind_eq_bind, Option.bind_eq_some_iff] at h
  obtain ⟨a, ha, A, hA, ms, hms, h⟩ := h
  split_ifs at h with hg
  · simp at h
  · push Not at hg
    obtain rfl := Option.some.inj (Option.some.inj h)
    have hAr := hR _ _ _ hA
    set b := unit (homog a.2.2) with hb
    set S := ms.foldl (addMeas1 A b) (0, 0) with hS
    have hb2 : (S.2 / S.1) • b = ((S.2 / S.1) / norm3 (homog a.2.2)) • homog a.2.2 := by
      rw [unit_homog, div_mul_cancel₀ _ (homog_norm _)]
    refine ⟨A, a.2.2, hA, anchor_spec ha, ⟨_, hb2⟩, ?_, hg.2.1, hg.2.2, ?_⟩
    · rw [Spec.inCam, add_sub_cancel_right, Matrix.mulVec_mulVec, hAr.orth', Matrix.one_mulVec]
    · intro d
      show Spec.totalDist2 clones obs (A.R.transpose.mulVec ((S.2 / S.1) • b) + A.p) ≤ Spec.totalDist2 clones obs (A.R.transpose.mulVec (d • homog a.2.2) + A.p)
      rw [hb2, ← filtered_cost hn ha hA hAr hms, ← filtered_cost hn ha hA hAr hms, ← hb2, unit_homog]
      rw [ls_line A b _ ms (0, 0), ls_line A b _ ms (0, 0), ← hS]
      have hpos : 0 < S.1 := by
        refine lt_of_le_of_ne ?_ (Ne.symm hg.1)
        rw [hS, line_quad]
        simpa using lsQuad_nonneg A ms b
      simp only [sub_zero]
      have : ∀ y : ℝ, -(2 * (S.2 / S.1) * S.2) + (S.2 / S.1) ^ 2 * S.1 ≤ -(2 * y * S.2) + y ^ 2 * S.1 := by
        intro y
        have e : -(2 * y * S.2) + y ^ 2 * S.1 - (-(2 * (S.2 / S.1) * S.2) + (S.2 / S.1) ^ 2 * S.1) = S.1 * (y - S.2 / S.1) ^ 2 := by
          field_simp; ring
        have := mul_nonneg hpos.le (sq_nonneg (y - S.2 / S.1))
        linarith
      linarith [this (d * norm3 (homog a.2.2))]

theorem poses_some_sub {clones : ℕ → ℝ → Option CPose} {obs : Obs} (h : Spec.Known clones obs) {l : List (ℕ × ℕ × ℝ × V2)} (hl : ∀ m ∈ l, m ∈ flat obs) :
    ∃ ms, poses clones l = some ms := by
  apply Upd.mapM_some
  rintro ⟨c, i, t, uv⟩ hm
  obtain ⟨x, hx, rfl, hm'⟩ := mem_flat (hl _ hm)
  obtain ⟨P, hP⟩ := Option.isSome_iff_exists.1 (h x hx _ hm')
  simp only at hP
  simp [hP]

theorem lsQuad_zero {A : CPose} {ms : List (CPose × V2)} {d : V3} (h : lsQuad A ms d = 0) : ∀ m ∈ ms, (bperp A m.1 m.2).mulVec d = 0 := by
  intro k hk
  apply dot3_self_zero
  have h1 : dot3 ((bperp A k.1 k.2).mulVec d) ((bperp A k.1 k.2).mulVec d) ≤ lsQuad A ms d :=
    List.single_le_sum (by
      intro y hy
      obtain ⟨k', -, rfl⟩ := List.mem_map.1 hy
      exact dot3_self_nonneg _) _ (List.mem_map.2 ⟨k, hk, rfl⟩)
  exact le_antisymm (h ▸ h1) (dot3_self_nonneg _)

theorem bperp_self {A : CPose} (hA : IsRot A.R) (uv : V2) (c : ℝ) : (bperp A A uv).mulVec (c • homog uv) = 0 := by
  have e3 : ∀ v : V3, (skew v).mulVec v = 0 := fun v => by
    apply v3_ext <;> simp [m3_mulVec_apply, skew00, skew01, skew02, skew10, skew11, skew12, skew20, skew21, skew22] <;> ring
  rw [bperp, relR, hA.orth', Matrix.transpose_one, Matrix.one_mulVec, unit, skew_smul, Matrix.smul_mulVec, Matrix.mulVec_smul, e3, smul_zero, smul_zero]

/-- **C35** (depth only, exactness) With exact observations of `g`, two of which see it in different directions, the one-dimensional triangulation
does not throw and returns `g`, unless the depth gates reject the true depth. -/
theorem C35_depth_exact (o : Opts) {clones : ℕ → ℝ → Option CPose} {obs : Obs} (hn : (obs.map Prod.fst).Nodup) (hR : Spec.Rigid clones)
    (hk : Spec.Known clones obs) {g : V3} (hs : Spec.Sees clones obs g) (hp : Spec.Parallax clones obs g) :
    ∃ (c : ℕ) (t : ℝ) (A : CPose), clones c t = some A ∧ triangulate1 o clones obs =
      some (if Spec.inCam A g 2 < o.minDist ∨ Spec.inCam A g 2 > o.maxDist then none else some ⟨c, t, Spec.inCam A g, g⟩) := by
  obtain ⟨c1, t1, u1, P1, c2, t2, u2, P2, o1, k1, o2, k2, hpar⟩ := hp
  obtain ⟨a, ha⟩ := anchor_some hn o1
  have hao := anchor_spec ha
  obtain ⟨A, hA⟩ : ∃ A, clones a.1 a.2.1 = some A := by
    obtain ⟨x, hx, h1, h2⟩ := hao
    exact h1 ▸ Option.isSome_iff_exists.1 (hk x hx _ h2)
  have hAr := hR _ _ _ hA
  obtain ⟨ms, hms⟩ := poses_some_sub (l := (flat obs).filter fun m => ¬ (m.1 = a.1 ∧ m.2.1 = (anchorCam obs).2 - 1)) hk
    (fun m hm => (List.mem_filter.1 hm).1)
  obtain ⟨hz, huv⟩ := hs _ _ _ _ hao hA
  have hh : homog a.2.2 = (1 / Spec.inCam A g 2) • Spec.inCam A g := by
    rw [huv]; apply v3_ext <;> simp [homog] <;> field_simp
  have hgA : Spec.inCam A g = Spec.inCam A g 2 • homog a.2.2 := by
    rw [hh, smul_smul, mul_one_div_cancel hz, one_smul]
  have e : A.R.transpose.mulVec (Spec.inCam A g) + A.p = g := by
    rw [Spec.inCam, Matrix.mulVec_mulVec, hAr.orth, Matrix.one_mulVec, sub_add_cancel]
  -- all rays pass through `g`
  have hzero : lsCost A ms (Spec.inCam A g) = 0 := by
    rw [hgA, filtered_cost hn ha hA hAr hms, ← hgA, e]
    apply List.sum_eq_zero
    intro y hy
    obtain ⟨x, hx, rfl⟩ := List.mem_map.1 hy
    apply List.sum_eq_zero
    intro y hy
    obtain ⟨m, hm, rfl⟩ := List.mem_map.1 hy
    obtain ⟨P, hP⟩ := Option.isSome_iff_exists.1 (hk x hx m hm)
    obtain ⟨h3, h4⟩ := hs x.1 m.1 m.2 P ⟨x, hx, rfl, hm⟩ hP
    rw [hP]
    have e2 : P.R.transpose.mulVec ![m.2 0, m.2 1, 1] = (1 / Spec.inCam P g 2) • (g - P.p) := exact_ray (hR _ _ _ hP) h3 h4
    have e3 : (skew (g - P.p)).mulVec (g - P.p) = 0 := by
      apply v3_ext <;> simp [m3_mulVec_apply, skew00, skew01, skew02, skew10, skew11, skew12, skew20, skew21, skew22] <;> ring
    simp only [Spec.rayDist2, e2, skew_smul, Matrix.smul_mulVec, e3]
    simp [dot3]
  set b := unit (homog a.2.2) with hb
  have hne : (ms.foldl (addMeas1 A b) (0, 0)).1 ≠ 0 := by
    intro h0
    rw [line_quad, zero_add] at h0
    have hq := lsQuad_zero h0
    -- every observation's ray is parallel to the anchor's
    obtain ⟨ms', hms'⟩ := poses_some hk
    have hall : ∀ m ∈ ms', (bperp A m.1 m.2).mulVec b = 0 := by
      rintro ⟨P, uv⟩ hm
      obtain ⟨c, i, t, h1, h2⟩ := (poses_mem hms').1 _ hm
      by_cases hskip : c = a.1 ∧ i = (anchorCam obs).2 - 1
      · obtain ⟨h3, h4⟩ := skipped_is_anchor hn ha h1 hskip
        simp only at h3 h4
        simp only at h2
        rw [hskip.1, h3, hA] at h2
        obtain rfl := Option.some.inj h2
        simp only [h4]
        rw [hb, unit]
        exact bperp_self hAr _ _
      · exact hq _ ((poses_mem hms).2 c i t uv P (List.mem_filter.2 ⟨h1, decide_eq_true hskip⟩) h2)
    have hmem : ∀ c t uv P, Spec.IsObs obs c t uv → clones c t = some P → (P, uv) ∈ ms' := by
      intro c t uv P ho hP
      obtain ⟨i, hi⟩ := flat_mem ho
      exact (poses_mem hms').2 c i t uv P hi hP
    have hray : ∀ c t uv P, Spec.IsObs obs c t uv → clones c t = some P →
        (relR A P).transpose.mulVec (homog uv) = (1 / Spec.inCam P g 2) • A.R.mulVec (g - P.p) := by
      intro c t uv P ho hP
      obtain ⟨h1, h2⟩ := hs c t uv P ho hP
      rw [relR, Matrix.transpose_mul, Matrix.transpose_transpose, ← Matrix.mulVec_mulVec, exact_ray (hR _ _ _ hP) h1 h2, Matrix.mulVec_smul]
    have hdet : (ms'.foldl (addMeas A) (0, 0)).1.det ≠ 0 := by
      refine sys_det (m := (P1, u1)) (m' := (P2, u2)) (hmem _ _ _ _ o1 k1) (hmem _ _ _ _ o2 k2) ?_
      simp only
      rw [hray _ _ _ _ o1 k1, hray _ _ _ _ o2 k2, skew_smul, Matrix.smul_mulVec, Matrix.mulVec_smul, skew_rot hAr]
      have z1 := (hs _ _ _ _ o1 k1).1
      have z2 := (hs _ _ _ _ o2 k2).1
      intro h0
      have h1 := (smul_eq_zero.1 ((smul_eq_zero.1 h0).resolve_left (by simpa using z1))).resolve_left (by simpa using z2)
      apply hpar
      have h2 := congrArg A.R.transpose.mulVec h1
      rwa [Matrix.mulVec_mulVec, hAr.orth, Matrix.one_mulVec, Matrix.mulVec_zero] at h2
    have h7 : ∀ (L : List (CPose × V2)) (s : M3 × V3), (∀ m ∈ L, (bperp A m.1 m.2).mulVec b = 0) → s.1.mulVec b = 0 →
        (L.foldl (addMeas A) s).1.mulVec b = 0 := by
      intro L
      induction L with
      | nil => intro s _ h; exact h
      | cons m L ih =>
        intro s hL h
        apply ih _ (fun m hm => hL m (by simp [hm]))
        simp only [addMeas, Matrix.add_mulVec, h, ← Matrix.mulVec_mulVec, hL m (by simp), Matrix.mulVec_zero, add_zero]
    have h9 := congrArg ((ms'.foldl (addMeas A) (0, 0)).1⁻¹).mulVec (h7 ms' (0, 0) hall (by simp))
    rw [Matrix.mulVec_mulVec, Matrix.nonsing_inv_mul _ (isUnit_iff_ne_zero.2 hdet), Matrix.one_mulVec, Matrix.mulVec_zero] at h9
    have h10 := unit_homog a.2.2 1
    rw [← hb, h9, smul_zero, one_smul] at h10
    have := congrFun h10 2
    simp [homog] at this
  have hsol : ((ms.foldl (addMeas1 A b) (0, 0)).2 / (ms.foldl (addMeas1 A b) (0, 0)).1) • b = Spec.inCam A g := by
    have hg2 : Spec.inCam A g = (Spec.inCam A g 2 * norm3 (homog a.2.2)) • b := by rw [hb, ← unit_homog]; exact hgA
    rw [hg2]
    congr 1
    generalize Spec.inCam A g 2 * norm3 (homog a.2.2) = d at hg2
    -- the cost along the ray is nonnegative and vanishes at the truth
    have hc : ∀ y : ℝ, 0 ≤ lsCost A ms (y • b) := by
      intro y
      apply List.sum_nonneg
      intro z hz
      obtain ⟨m, -, rfl⟩ := List.mem_map.1 hz
      exact dot3_self_nonneg _
    rw [hg2] at hzero
    have h1 := hc ((ms.foldl (addMeas1 A b) (0, 0)).2 / (ms.foldl (addMeas1 A b) (0, 0)).1)
    rw [ls_line A b _ ms (0, 0)] at h1 hzero
    simp only [sub_zero] at h1 hzero
    have hpos : 0 < (ms.foldl (addMeas1 A b) (0, 0)).1 := by
      refine lt_of_le_of_ne ?_ (Ne.symm hne)
      rw [line_quad]
      simpa using lsQuad_nonneg A ms b
    generalize ms.foldl (addMeas1 A b) (0, 0) = S at *
    generalize lsCost A ms 0 = C at *
    have e : C - 2 * (S.2 / S.1) * S.2 + (S.2 / S.1) ^ 2 * S.1 = -(S.1 * (d - S.2 / S.1) ^ 2) := by
      have : C = 2 * d * S.2 - d ^ 2 * S.1 := by linarith
      rw [this]; field_simp; ring
    rw [e] at h1
    have h2 : S.1 * (d - S.2 / S.1) ^ 2 = 0 := le_antisymm (by linarith) (mul_nonneg hpos.le (sq_nonneg _))
    have h3 := pow_eq_zero_iff (two_ne_zero) |>.1 ((mul_eq_zero.1 h2).resolve_left hpos.ne')
    linarith
  refine ⟨a.1, a.2.1, A, hA, ?_⟩
  simp only [triangulate1, ha, hA, hms, Option.bind_eq_bind, Option.bind_some, ← hb, hsol, hne, false_or, e]
  split_ifs <;> rfl

/-! ### a concrete case: two cameras one metre apart looking at a point two metres ahead -/

noncomputable def exClones (c : ℕ) (_ : ℝ) : Option CPose := if c = 0 then some ⟨1, ![0, 0, 0]⟩ else some ⟨1, ![1, 0, 0]⟩

noncomputable def exObs : Obs := [(0, [(0, ![0, 0]), (1, ![0, 0])]), (1, [(0, ![-1 / 2, 0])])]

noncomputable def exG : V3 := ![0, 0, 2]

theorem ex_rigid : Spec.Rigid exClones := by
  intro c t P h
  have : IsRot (1 : M3) := ⟨by simp, by simp⟩
  unfold exClones at h
  split_ifs at h <;> obtain rfl := Option.some.inj h <;> exact this

theorem ex_known : Spec.Known exClones exObs := by
  intro c hc m hm
  unfold exClones
  split_ifs <;> rfl

theorem ex_sees : Spec.Sees exClones exObs exG := by
  rintro c t uv P ⟨x, hx, rfl, hm⟩ hP
  simp only [exObs, List.mem_cons, List.not_mem_nil, or_false] at hx
  rcases hx with rfl | rfl
  · simp only [exClones, if_true] at hP
    obtain rfl := Option.some.inj hP
    simp only [List.mem_cons, List.not_mem_nil, or_false, Prod.mk.injEq] at hm
    rcases hm with ⟨rfl, rfl⟩ | ⟨rfl, rfl⟩ <;> refine ⟨by simp [Spec.inCam, exG], ?_⟩ <;> funext i <;> fin_cases i <;> simp [Spec.inCam, exG]
  · simp only [exClones, one_ne_zero, if_false] at hP
    obtain rfl := Option.some.inj hP
    simp only [List.mem_cons, List.not_mem_nil, or_false, Prod.mk.injEq] at hm
    obtain ⟨rfl, rfl⟩ := hm
    refine ⟨by simp [Spec.inCam, exG], ?_⟩
    funext i; fin_cases i <;> simp [Spec.inCam, exG] <;> norm_num

theorem ex_parallax : Spec.Parallax exClones exObs exG := by
  refine ⟨0, 0, ![0, 0], ⟨1, ![0, 0, 0]⟩, 1, 0, ![-1 / 2, 0], ⟨1, ![1, 0, 0]⟩, ⟨_, by simp [exObs]; left; rfl, rfl, by simp⟩, by simp [exClones],
    ⟨_, by simp [exObs]; right; rfl, rfl, by simp⟩, by simp [exClones], ?_⟩
  intro h
  have := congrFun h 1
  simp [m3_mulVec_apply, exG, skew10, skew11, skew12] at this

/-- the hypotheses of the exactness theorems are met, and with ordinary gates the point is recovered. -/
example (o : Opts) (h1 : o.minDist = 1 / 10) (h2 : o.maxDist = 60) : ∃ c t, ∃ f, triangulate1 o exClones exObs = some (some f) ∧ f.pG = exG ∧ f.cam = c ∧ f.t = t := by
  obtain ⟨c, t, A, hA, h⟩ := C35_depth_exact o (by simp [exObs]) ex_rigid ex_known ex_sees ex_parallax
  have hz : Spec.inCam A exG 2 = 2 := by
    unfold exClones at hA
    split_ifs at hA <;> obtain rfl := Option.some.inj hA <;> simp [Spec.inCam, exG]
  rw [hz, h1, h2, if_neg (by norm_num)] at h
  exact ⟨c, t, _, h, rfl, rfl, rfl⟩

example (o : Opts) (cond : M3 → ℝ) (hc : ∀ M, cond M ≤ o.maxCond) (h1 : o.minDist = 1 / 10) (h2 : o.maxDist = 60) :
    ∃ f, triangulate o cond exClones exObs = some (some f) ∧ f.pG = exG := by
  obtain ⟨c, t, A, M, hA, -, h⟩ := C35_exact o cond (by simp [exObs]) ex_rigid ex_known ex_sees ex_parallax
  have hz : Spec.inCam A exG 2 = 2 := by
    unfold exClones at hA
    split_ifs at hA <;> obtain rfl := Option.some.inj hA <;> simp [Spec.inCam, exG]
  rw [hz, h1, h2, if_neg (by rintro (h | h | h) <;> [exact absurd h (not_lt.2 (hc M)); norm_num at h; norm_num at h])] at h
  exact ⟨_, h, rfl⟩

end Verif.Tri
