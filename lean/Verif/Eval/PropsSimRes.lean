import Verif.Eval.SimRes
import Verif.Vio.PropsMgr
import Verif.Quat.PropsC

/-!
# The saved states of a simulated run and their evaluation (C120)
-/

set_option autoImplicit false
set_option linter.unusedVariables false
open Classical

namespace Verif.Eval

open Verif Verif.Types Verif.St Verif.Ros Verif.Prop_

variable {lib : Lib} {o : Opts} {s : State} {T : TruePar} {mx : ℝ}

namespace Spec

/-- the number read from a file in which `x` was written with `k` digits after the point: the nearest multiple of `10^-k` -/
noncomputable def pr (k : ℕ) (x : ℝ) : ℝ := (round (x * 10 ^ k) : ℝ) / 10 ^ k

/-- the standard deviation of component `j` of a variable: from its block of the covariance. Zero if the variable is not estimated. -/
noncomputable def sigma (s : State) (r : Ref) (j : ℕ) : ℝ :=
  match getMarginal s [r] with
  | some M => Real.sqrt (M.a j j)
  | none => 0

/-- the estimates -/
noncomputable def imu (s : State) : Imu16 := match (s.obj imuUid).val with
  | .imu x => x
  | _ => ⟨idQuat, 0, 0, 0, 0⟩
noncomputable def vec (s : State) (u : ℕ) : ℕ → ℝ := match (s.obj u).val with
  | .vec _ x => x
  | _ => fun _ => 0
noncomputable def quat (s : State) (u : ℕ) : Quat := match (s.obj u).val with
  | .quat q => q
  | .pose q _ => q
  | _ => idQuat
noncomputable def pos (s : State) (u : ℕ) : V3 := match (s.obj u).val with
  | .pose _ p => p
  | _ => 0

/-- errors of the components of a vector, with three standard deviations, at a time; all numbers as they were written -/
noncomputable def errs {m : ℕ} (k : ℕ) (t : ℝ) (a b σ : Fin m → ℝ) : List Pt := List.ofFn fun j => ⟨pr 5 t, pr k (a j) - pr k (b j), 3 * pr k (σ j)⟩

/-- the error, as a rotation vector in degrees, between a true and an estimated rotation -/
noncomputable def turn (q q' : Quat) : V3 := (-180 / Real.pi) • logSO3 (quat2Rot q * (quat2Rot q').transpose)

/-- a quaternion as it was written -/
noncomputable def prq (k : ℕ) (q : Quat) : Quat := ⟨pr k q.x, pr k q.y, pr k q.z, pr k q.w⟩

/-- errors of a rotation and three standard deviations, in degrees -/
noncomputable def rots (k : ℕ) (t : ℝ) (q q' : Quat) (σ : Fin 3 → ℝ) : List Pt := List.ofFn fun j : Fin 3 => ⟨pr 5 t, turn (prq k q) (prq k q') j, 3 * 180 / Real.pi * pr k (σ j)⟩

end Spec

/-- `m` columns for the standard deviations of a variable -/
noncomputable def sg (k : ℕ) (s : State) (r : Ref) (m : ℕ) : Row := List.ofFn fun j : Fin m => dec k (Spec.sigma s r j)

theorem mapM_fin {α : Type} {m : ℕ} (F : ℕ → Option α) (G : Fin m → α) (h : ∀ j : Fin m, F j = some (G j)) : ∀ l : List (Fin m), (l.map Fin.val).mapM F = some (l.map G) := by
  intro l
  induction l with
  | nil => rfl
  | cons a t ih => simp [h a, ih]

theorem mapM_range {α : Type} (m : ℕ) (F : ℕ → Option α) (G : Fin m → α) (h : ∀ j : Fin m, F j = some (G j)) : (List.range m).mapM F = some (List.ofFn G) := by
  rw [← List.map_coe_finRange_eq_range, mapM_fin F G h, List.ofFn_eq_map]

theorem sigma_at {r : Ref} {off : ℕ} {v : Val} (hp : (s.obj r.1).val.part r.2 = some (off, v)) (h0 : 0 ≤ (s.obj r.1).id) (hn : (s.obj r.1).id.toNat + off + v.size ≤ s.n) {j : ℕ} (hj : j < v.size) :
    Spec.sigma s r j = Real.sqrt (s.P ((s.obj r.1).id.toNat + off + j) ((s.obj r.1).id.toNat + off + j)) := by
  have hr : resolveAll s [r] = some [((s.obj r.1).id.toNat + off, v.size)] := by
    simp only [resolveAll, resolve, hp]
    rw [if_pos ⟨h0, hn⟩]; rfl
  obtain ⟨M, hM, _, _, hb⟩ := C13_marginal_blocks (s := s) [r] _ hr
  have := hb 0 0 _ _ rfl rfl j j hj hj
  simp only [Spec.sigma, hM]
  simp [St.Spec.off] at this
  rw [this]

theorem sdAt_sigma {r : Ref} {off : ℕ} {v : Val} (k : ℕ) (hp : (s.obj r.1).val.part r.2 = some (off, v)) (h0 : 0 ≤ (s.obj r.1).id) (hn : (s.obj r.1).id.toNat + off + v.size ≤ s.n) {j : ℕ} (hj : j < v.size) :
    sdAt k (getFull s) ((s.obj r.1).id + off + j) = some (dec k (Spec.sigma s r j)) := by
  have e : ((s.obj r.1).id + off + j).toNat = (s.obj r.1).id.toNat + off + j := by omega
  unfold sdAt
  rw [if_pos ⟨by omega, by rw [e]; show _ < s.n; omega, by rw [e]; show _ < s.n; omega⟩, sigma_at hp h0 hn hj, e, (C13_full s).2.2 _ _ (by omega) (by omega)]

theorem sdList_sigma {r : Ref} {off m : ℕ} {v : Val} (k : ℕ) (hp : (s.obj r.1).val.part r.2 = some (off, v)) (hm : v.size = m) (h0 : 0 ≤ (s.obj r.1).id) (hn : (s.obj r.1).id.toNat + off + v.size ≤ s.n) :
    sdList k (getFull s) ((s.obj r.1).id + off) m = some (sg k s r m) := by
  subst hm
  unfold sdList sg
  exact mapM_range _ (fun j => sdAt k (getFull s) ((s.obj r.1).id + off + j)) (fun j : Fin v.size => dec k (Spec.sigma s r j)) fun j => sdAt_sigma k hp h0 hn j.2

/-- where the variables of the constructor are -/
theorem var_at (h : St.Spec.Prog lib o s) {u : ℕ} (hu : u ∈ ctorVars o) : 0 ≤ (s.obj u).id ∧ (s.obj u).id.toNat + (s.obj u).val.size ≤ s.n := by
  obtain ⟨k, hk, hb, hr⟩ := (reach_inv (St.Spec.Prog.reach h)).resolve_self ((prog_W h).mem hu)
  have : (s.obj u).id.toNat = k := by omega
  exact ⟨by omega, by rw [this]; exact hb⟩

theorem imu_val (h : St.Spec.Prog lib o s) : (s.obj imuUid).val = .imu (Spec.imu s) := by
  have := (prog_W h).kind 0 (by unfold base; omega)
  unfold Spec.imu
  have e : (heap0 0).val = .imu imu0 := rfl
  rw [e] at this
  show (s.obj 0).val = _
  cases hv : (s.obj 0).val <;> simp_all [sameKind, imuUid]

theorem vec_val (h : St.Spec.Prog lib o s) {u n : ℕ} {f : Vect} (hu : u < base o) (e : (heap0 u).val = .vec n f) : (s.obj u).val = .vec n (Spec.vec s u) := by
  have := (prog_W h).kind u hu
  unfold Spec.vec
  rw [e] at this
  cases hv : (s.obj u).val <;> simp_all [sameKind]

theorem quat_val (h : St.Spec.Prog lib o s) {u : ℕ} {q : Quat} (hu : u < base o) (e : (heap0 u).val = .quat q) : (s.obj u).val = .quat (Spec.quat s u) := by
  have := (prog_W h).kind u hu
  unfold Spec.quat
  rw [e] at this
  cases hv : (s.obj u).val <;> simp_all [sameKind]

theorem pose_val (h : St.Spec.Prog lib o s) {u : ℕ} {q : Quat} {p : V3} (hu : u < base o) (e : (heap0 u).val = .pose q p) : (s.obj u).val = .pose (Spec.quat s u) (Spec.pos s u) := by
  have := (prog_W h).kind u hu
  unfold Spec.quat Spec.pos
  rw [e] at this
  cases hv : (s.obj u).val <;> simp_all [sameKind]

theorem heap_cam (i : ℕ) : (heap0 (7 + 2 * i)).val = .pose idQuat 0 ∧ (heap0 (intrUid i)).val = .vec 8 fun _ => 0 := by
  constructor
  · unfold heap0
    rw [if_neg (by omega), if_neg (by omega), if_neg (by omega), if_neg (by omega), if_neg (by omega), if_pos (by omega)]
  · unfold heap0 intrUid
    rw [if_neg (by omega), if_neg (by omega), if_neg (by omega), if_neg (by omega), if_neg (by omega), if_neg (by omega)]

/-- the columns of the cameras, as one list -/
theorem mapM_cams {α : Type} (n : ℕ) (F : ℕ → Option (List α)) (G : ℕ → List α) (h : ∀ i, i < n → F i = some (G i)) : (List.range n).mapM F = some ((List.range n).map G) := by
  have : ∀ l : List ℕ, (∀ i ∈ l, i < n) → l.mapM F = some (l.map G) := by
    intro l
    induction l with
    | nil => intro _; rfl
    | cons a t ih => intro hl; simp [h a (hl a (by simp)), ih fun i hi => hl i (by simp [hi])]
  exact this _ fun i hi => List.mem_range.1 hi

/-- the line of the estimate -/
theorem estRow_eq (h : St.Spec.Prog lib o s) (t : ℝ) : estRow s t = some (moveCols t (Spec.imu s).q (Spec.imu s).p (Spec.imu s).v (Spec.imu s).bg (Spec.imu s).ba ++ [dec 7 (Spec.vec s dtUid 0), (o.numCams : ℝ)] ++
    ((List.range o.numCams).map fun i => camCols (Spec.vec s (intrUid i)) (Spec.quat s (7 + 2 * i)) (Spec.pos s (7 + 2 * i))).flatten ++ imuCols o.kalibr (Spec.vec s 1) (Spec.vec s 2) (Spec.vec s 3) (Spec.quat s 4) (Spec.quat s 5)) := by
  have ho := (prog_W h).opts
  have hi := imu_val h
  have hf : ∃ f, (s.obj imuUid).fej = .imu f := by
    have := (reach_inv (St.Spec.Prog.reach h)).kind imuUid
    rw [hi] at this
    cases hv : (s.obj imuUid).fej <;> simp_all [sameKind]
  obtain ⟨f, hf⟩ := hf
  have hb : 7 ≤ base o := by unfold base; omega
  have hc := mapM_cams s.opts.numCams (fun i => (vecOf s (intrUid i)).bind fun c => (poseOf s (7 + 2 * i)).map fun e => camCols c e.1 e.2)
    (fun i => camCols (Spec.vec s (intrUid i)) (Spec.quat s (7 + 2 * i)) (Spec.pos s (7 + 2 * i))) (by
      intro i hi
      rw [ho] at hi
      simp only [Ros.vecOf, poseOf, vec_val h (by unfold base intrUid; omega) (heap_cam i).2, pose_val h (by unfold base; omega) (heap_cam i).1, Option.bind_some, Option.map_some])
  unfold estRow
  rw [hc]
  simp only [imuOf, hi, hf, tOff, Ros.vecOf, estRow.quatOf, vec_val h (u := 1) (by omega) rfl, vec_val h (u := 2) (by omega) rfl, vec_val h (u := 3) (by omega) rfl, vec_val h (u := dtUid) (show 6 < base o by omega) rfl,
    quat_val h (u := 4) (by omega) rfl, quat_val h (u := 5) (by omega) rfl, Option.bind_some, Option.map_some, ho]

/-- the rotation of a sensor that the model has -/
def rotUid (o : Opts) : ℕ := if o.kalibr then 4 else 5

/-- the fourth number written for it -/
noncomputable def extra (s : State) : ℝ := dec 8 (Real.sqrt (s.P ((s.obj (rotUid s.opts)).id.toNat + 3) ((s.obj (rotUid s.opts)).id.toNat + 3)))

/-- the columns of the standard deviations of a camera -/
noncomputable def sgCam (s : State) (i : ℕ) : Row :=
  (if s.opts.calibIntr then sg 6 s (intrUid i, .self) 8 else List.replicate 8 0) ++ (if s.opts.calibPose then sg 6 s (7 + 2 * i, .q) 3 ++ sg 6 s (7 + 2 * i, .p) 3 else List.replicate 6 0)

theorem mem_imu {o : Opts} (h : o.calibImu = true) : 1 ∈ ctorVars o ∧ 2 ∈ ctorVars o ∧ (o.calibG = true → 3 ∈ ctorVars o) ∧ rotUid o ∈ ctorVars o := by
  refine ⟨?_, ?_, ?_, ?_⟩
  · simp [ctorVars, h]
  · simp [ctorVars, h]
  · intro hg; simp [ctorVars, h, hg]
  · simp [ctorVars, h, rotUid]

theorem mem_cam {o : Opts} {i : ℕ} (hi : i < o.numCams) : (o.calibPose = true → 7 + 2 * i ∈ ctorVars o) ∧ (o.calibIntr = true → intrUid i ∈ ctorVars o) := by
  refine ⟨fun h => ?_, fun h => ?_⟩
  · simp only [ctorVars, List.mem_append, List.mem_flatMap, List.mem_range]
    exact Or.inr ⟨i, hi, by simp [h]⟩
  · simp only [ctorVars, List.mem_append, List.mem_flatMap, List.mem_range]
    exact Or.inr ⟨i, hi, by simp [h]⟩

theorem sdList_add (k : ℕ) (C : DMat) (id : ℤ) (a b : ℕ) {x y : Row} (hx : sdList k C id a = some x) (hy : sdList k C (id + a) b = some y) : sdList k C id (a + b) = some (x ++ y) := by
  unfold sdList at *
  rw [List.range_add, List.mapM_append, hx]
  have : List.mapM (fun j : ℕ => sdAt k C (id + j)) ((List.range b).map fun x => a + x) = some y := by
    rw [← hy]
    generalize List.range b = l
    induction l with
    | nil => rfl
    | cons c t ih =>
      simp only [List.map_cons, List.mapM_cons, ih]
      rw [show id + ((a + c : ℕ) : ℤ) = id + a + c by push_cast; ring]
  rw [this]; rfl

theorem sdVec (h : St.Spec.Prog lib o s) {u n k : ℕ} {f : Vect} (hu : u ∈ ctorVars o) (hb : u < base o) (e : (heap0 u).val = .vec n f) : sdList k (getFull s) (s.obj u).id n = some (sg k s (u, .self) n) := by
  obtain ⟨h0, hn⟩ := var_at h hu
  have := sdList_sigma (s := s) (r := (u, .self)) (off := 0) (v := (s.obj u).val) (m := n) k (by cases (s.obj u).val <;> rfl) (by rw [vec_val h hb e]; rfl) h0 (by simpa using hn)
  simpa using this

theorem sdImu (h : St.Spec.Prog lib o s) (k : ℕ) : sdList k (getFull s) (s.obj imuUid).id 3 = some (sg k s (imuUid, .q) 3) ∧ sdList k (getFull s) ((s.obj imuUid).id + 3) 3 = some (sg k s (imuUid, .p) 3) ∧
    sdList k (getFull s) ((s.obj imuUid).id + 6) 3 = some (sg k s (imuUid, .v) 3) ∧ sdList k (getFull s) ((s.obj imuUid).id + 9) 3 = some (sg k s (imuUid, .bg) 3) ∧
    sdList k (getFull s) ((s.obj imuUid).id + 12) 3 = some (sg k s (imuUid, .ba) 3) := by
  obtain ⟨h0, hn⟩ := var_at h (zero_mem_ctorVars o)
  have hv := imu_val h
  have hn' : (s.obj imuUid).id.toNat + 15 ≤ s.n := by
    have : (s.obj 0).val.size = 15 := by rw [show (s.obj 0).val = _ from hv]; rfl
    rw [this] at hn; exact hn
  refine ⟨?_, ?_, ?_, ?_, ?_⟩
  · have := sdList_sigma (s := s) (r := (imuUid, .q)) (m := 3) k (by rw [hv]; rfl) rfl h0 (by simp only [Val.size]; omega)
    simpa using this
  · exact sdList_sigma (s := s) (r := (imuUid, .p)) (m := 3) (off := 3) k (by rw [hv]; rfl) rfl h0 (by simp only [Val.size]; omega)
  · exact sdList_sigma (s := s) (r := (imuUid, .v)) (m := 3) (off := 6) k (by rw [hv]; rfl) rfl h0 (by simp only [Val.size]; omega)
  · exact sdList_sigma (s := s) (r := (imuUid, .bg)) (m := 3) (off := 9) k (by rw [hv]; rfl) rfl h0 (by simp only [Val.size]; omega)
  · exact sdList_sigma (s := s) (r := (imuUid, .ba)) (m := 3) (off := 12) k (by rw [hv]; rfl) rfl h0 (by simp only [Val.size]; omega)

theorem sdPose (h : St.Spec.Prog lib o s) {u k : ℕ} (hu : u ∈ ctorVars o) (hb : u < base o) (e : (heap0 u).val = .pose idQuat 0) : sdList k (getFull s) (s.obj u).id 6 = some (sg k s (u, .q) 3 ++ sg k s (u, .p) 3) := by
  obtain ⟨h0, hn⟩ := var_at h hu
  have hv := pose_val h hb e
  rw [hv] at hn
  have hn' : (s.obj u).id.toNat + 6 ≤ s.n := hn
  refine sdList_add k _ _ 3 3 ?_ ?_
  · have := sdList_sigma (s := s) (r := (u, .q)) (m := 3) k (by rw [hv]; rfl) rfl h0 (by simp only [Val.size]; omega)
    simpa using this
  · exact sdList_sigma (s := s) (r := (u, .p)) (m := 3) (off := 3) k (by rw [hv]; rfl) rfl h0 (by simp only [Val.size]; omega)

/-- four numbers for a rotation: the fourth is outside of it -/
theorem sdRot (h : St.Spec.Prog lib o s) (hc : o.calibImu = true) : sdList 8 (getFull s) (s.obj (rotUid o)).id 4 = if (s.obj (rotUid o)).id + 3 < s.n then some (sg 8 s (rotUid o, .self) 3 ++ [extra s]) else none := by
  have ho := (prog_W h).opts
  obtain ⟨h0, hn⟩ := var_at h (mem_imu hc).2.2.2
  have hb : rotUid o < base o := by unfold rotUid base; split_ifs <;> omega
  have hv : (s.obj (rotUid o)).val = .quat (Spec.quat s (rotUid o)) := by
    refine quat_val (q := idQuat) h hb ?_
    unfold rotUid; split_ifs <;> rfl
  rw [hv] at hn
  have hn' : (s.obj (rotUid o)).id.toNat + 3 ≤ s.n := hn
  have h3 : sdList 8 (getFull s) (s.obj (rotUid o)).id 3 = some (sg 8 s (rotUid o, .self) 3) := by
    have := sdList_sigma (s := s) (r := (rotUid o, .self)) (m := 3) 8 (by rw [hv]; rfl) rfl h0 (by simp only [Val.size]; omega)
    simpa using this
  have e : ((s.obj (rotUid o)).id + 3).toNat = (s.obj (rotUid o)).id.toNat + 3 := by omega
  by_cases hr : (s.obj (rotUid o)).id + 3 < s.n
  · rw [if_pos hr]
    refine sdList_add 8 _ _ 3 1 h3 ?_
    simp only [sdList, List.range_one, List.mapM_cons, List.mapM_nil]
    have : sdAt 8 (getFull s) ((s.obj (rotUid o)).id + ((3 : ℕ) : ℤ) + ((0 : ℕ) : ℤ)) = some (extra s) := by
      unfold sdAt extra
      simp only [Nat.cast_ofNat, Nat.cast_zero, add_zero, ho]
      rw [if_pos ⟨by omega, by rw [e]; show _ < s.n; omega, by rw [e]; show _ < s.n; omega⟩, e, (C13_full s).2.2 _ _ (by omega) (by omega)]
    rw [this]; rfl
  · rw [if_neg hr]
    have : sdAt 8 (getFull s) ((s.obj (rotUid o)).id + ((3 : ℕ) : ℤ)) = none := by
      unfold sdAt
      rw [if_neg]
      rintro ⟨_, h1, _⟩
      have : ((s.obj (rotUid o)).id + ((3 : ℕ) : ℤ)).toNat < s.n := h1
      omega
    unfold sdList
    rw [show List.range 4 = [0, 1, 2] ++ [3] from rfl, List.mapM_append]
    simp only [List.mapM_cons, List.mapM_nil, this]
    cases sdAt 8 (getFull s) ((s.obj (rotUid o)).id + ((0 : ℕ) : ℤ)) <;> cases sdAt 8 (getFull s) ((s.obj (rotUid o)).id + ((1 : ℕ) : ℤ)) <;> cases sdAt 8 (getFull s) ((s.obj (rotUid o)).id + ((2 : ℕ) : ℤ)) <;> rfl

/-! ## The lines as segments -/

/-- the numbers of a line of values -/
structure Vals where
  t : ℝ
  q : Quat
  p : V3
  v : V3
  bg : V3
  ba : V3
  dt : ℝ
  n : ℕ
  ci : ℕ → ℕ → ℝ
  cq : ℕ → Quat
  cp : ℕ → V3
  kalibr : Bool
  dw : ℕ → ℝ
  da : ℕ → ℝ
  tg : ℕ → ℝ
  qG : Quat
  qA : Quat

noncomputable def camSegs (x : Vals) (i : ℕ) : List Row := [((List.range 4).map (x.ci i)).map (dec 6), ((List.range 4).map fun j => x.ci i (4 + j)).map (dec 6), (quatList (x.cq i)).map (dec 6), (v3List (x.cp i)).map (dec 6)]

noncomputable def valSegs (x : Vals) : List Row :=
  [[dec 5 x.t], (quatList x.q).map (dec 6), (v3List x.p).map (dec 6), (v3List x.v).map (dec 6), (v3List x.bg).map (dec 6), (v3List x.ba).map (dec 6), [dec 7 x.dt], [(x.n : ℝ)],
    ((List.range x.n).map fun i => (camSegs x i).flatten).flatten, [modelNum x.kalibr], (vecList 6 x.dw).map (dec 8), (vecList 6 x.da).map (dec 8), (vecList 9 x.tg).map (dec 8), (quatList x.qG).map (dec 8), (quatList x.qA).map (dec 8)]

theorem camCols_segs (x : Vals) (i : ℕ) : camCols (x.ci i) (x.cq i) (x.cp i) = (camSegs x i).flatten := by
  simp [camCols, camSegs, vecList, List.range_succ]

theorem valRow_eq (x : Vals) : moveCols x.t x.q x.p x.v x.bg x.ba ++ [dec 7 x.dt, (x.n : ℝ)] ++ ((List.range x.n).map fun i => camCols (x.ci i) (x.cq i) (x.cp i)).flatten ++ imuCols x.kalibr x.dw x.da x.tg x.qG x.qA =
    (valSegs x).flatten := by
  simp only [camCols_segs]
  simp [moveCols, imuCols, valSegs]

/-- the estimates of a state, with the time of the line -/
noncomputable def valsOf (s : State) (t : ℝ) : Vals :=
  ⟨t, (Spec.imu s).q, (Spec.imu s).p, (Spec.imu s).v, (Spec.imu s).bg, (Spec.imu s).ba, Spec.vec s dtUid 0, s.opts.numCams, fun i => Spec.vec s (intrUid i), fun i => Spec.quat s (7 + 2 * i), fun i => Spec.pos s (7 + 2 * i), s.opts.kalibr,
    Spec.vec s 1, Spec.vec s 2, Spec.vec s 3, Spec.quat s 4, Spec.quat s 5⟩

theorem estRow_segs (h : St.Spec.Prog lib o s) (t : ℝ) : estRow s t = some (valSegs (valsOf s t)).flatten := by
  rw [estRow_eq h t, ← valRow_eq]
  simp only [valsOf, (prog_W h).opts]

/-- the true values -/
noncomputable def truthOf (T : TruePar) (ci : ℕ → ℕ → ℝ) (ce : ℕ → Quat × V3) (g : Sim.Truth) : Vals :=
  ⟨g.t, g.q, g.p, g.v, g.bg, g.ba, T.dt, T.numCams, ci, fun i => (ce i).1, fun i => (ce i).2, T.kalibr, T.dw, T.da, T.tg, T.qG, T.qA⟩

theorem gtRow_segs {n : ℕ} (hn : n = T.numCams) {ci : ℕ → ℕ → ℝ} {ce : ℕ → Quat × V3} (hc : ∀ i, i < T.numCams → T.intr i = some (ci i) ∧ T.extr i = some (ce i)) (g : Sim.Truth) :
    gtRow T n g = some (valSegs (truthOf T ci ce g)).flatten := by
  subst hn
  unfold gtRow
  rw [if_neg (by simp), mapM_cams T.numCams _ (fun i => camCols (ci i) (ce i).1 (ce i).2) (by intro i hi; rw [(hc i hi).1, (hc i hi).2]; rfl), Option.map_some, ← valRow_eq]
  rfl

noncomputable def sgSegs (s : State) (t : ℝ) : List Row :=
  [[dec 5 t], sg 6 s (imuUid, .q) 3, sg 6 s (imuUid, .p) 3, sg 6 s (imuUid, .v) 3, sg 6 s (imuUid, .bg) 3, sg 6 s (imuUid, .ba) 3, if s.opts.calibDt then sg 6 s (dtUid, .self) 1 else [0], [(s.opts.numCams : ℝ)],
    ((List.range s.opts.numCams).map (sgCam s)).flatten, [modelNum s.opts.kalibr], if s.opts.calibImu then sg 8 s (1, .self) 6 else List.replicate 6 0, if s.opts.calibImu then sg 8 s (2, .self) 6 else List.replicate 6 0,
    if s.opts.calibImu && s.opts.calibG then sg 8 s (3, .self) 9 else List.replicate 9 0, if s.opts.calibImu && s.opts.kalibr then sg 8 s (4, .self) 3 ++ [extra s] else List.replicate 3 0,
    if s.opts.calibImu && !s.opts.kalibr then sg 8 s (5, .self) 3 ++ [extra s] else List.replicate 3 0]

theorem bind_sd {b : Bool} {k m' m : ℕ} {C : DMat} {id : ℤ} {x : Row} (h : b = true → sdList k C id m' = some x) : sdIf b k C id m' m = some (if b then x else List.replicate m 0) := by
  unfold sdIf
  cases b with
  | true => simp [h rfl]
  | false => simp

theorem sdCam_eq (h : St.Spec.Prog lib o s) {i : ℕ} (hi : i < o.numCams) : sdCam s (getFull s) i = some (sgCam s i) := by
  have ho := (prog_W h).opts
  unfold sdCam
  rw [bind_sd (x := sg 6 s (intrUid i, .self) 8) fun hb => sdVec h ((mem_cam hi).2 (by rw [← ho]; exact hb)) (by unfold base intrUid; omega) (heap_cam i).2,
    bind_sd (x := sg 6 s (7 + 2 * i, .q) 3 ++ sg 6 s (7 + 2 * i, .p) 3) fun hb => sdPose h ((mem_cam hi).1 (by rw [← ho]; exact hb)) (by unfold base; omega) (heap_cam i).1]
  rfl

theorem stdRow_segs (h : St.Spec.Prog lib o s) (hr : o.calibImu = true → (s.obj (rotUid o)).id + 3 < s.n) (t : ℝ) : stdRow s t = some (sgSegs s t).flatten := by
  have ho := (prog_W h).opts
  have hb : 7 ≤ base o := by unfold base; omega
  obtain ⟨e1, e2, e3, e4, e5⟩ := sdImu h 6
  have hrot := fun hc => (sdRot h hc).trans (if_pos (hr hc))
  unfold stdRow
  simp only
  rw [e1, e2, e3, e4, e5, mapM_cams s.opts.numCams (sdCam s (getFull s)) (sgCam s) fun i hi => sdCam_eq h (by rw [ho] at hi; exact hi),
    bind_sd (x := sg 6 s (dtUid, .self) 1) fun hd => sdVec h (by rw [ho] at hd; simp [ctorVars, hd, dtUid]) (show 6 < base o by omega) rfl,
    bind_sd (x := sg 8 s (1, .self) 6) fun hd => sdVec h (mem_imu (by rw [← ho]; exact hd)).1 (by omega) rfl,
    bind_sd (x := sg 8 s (2, .self) 6) fun hd => sdVec h (mem_imu (by rw [← ho]; exact hd)).2.1 (by omega) rfl,
    bind_sd (x := sg 8 s (3, .self) 9) fun hd => by
      rw [ho, Bool.and_eq_true] at hd
      exact sdVec h ((mem_imu hd.1).2.2.1 hd.2) (by omega) rfl,
    bind_sd (x := sg 8 s (4, .self) 3 ++ [extra s]) fun hd => by
      rw [ho, Bool.and_eq_true] at hd
      have := hrot hd.1
      simpa only [rotUid, hd.2, if_true] using this,
    bind_sd (x := sg 8 s (5, .self) 3 ++ [extra s]) fun hd => by
      rw [ho, Bool.and_eq_true, Bool.not_eq_true'] at hd
      have := hrot hd.1
      simpa [rotUid, hd.2] using this]
  simp only [Option.bind_some, Option.map_some, sgSegs]
  simp

/-- without room for the fourth number nothing is saved -/
theorem stdRow_none (h : St.Spec.Prog lib o s) (hc : o.calibImu = true) (hr : ¬ (s.obj (rotUid o)).id + 3 < s.n) (t : ℝ) : stdRow s t = none := by
  have ho := (prog_W h).opts
  have hrot := (sdRot h hc).trans (if_neg hr)
  have key : sdIf (o.calibImu && o.kalibr) 8 (getFull s) (s.obj 4).id 4 3 = none ∨ sdIf (o.calibImu && !o.kalibr) 8 (getFull s) (s.obj 5).id 4 3 = none := by
    cases hk : o.kalibr with
    | true => left; simpa [sdIf, hc, hk, rotUid] using hrot
    | false => right; simpa [sdIf, hc, hk, rotUid] using hrot
  unfold stdRow
  simp only [ho]
  rcases key with k | k
  · rw [k]; simp
  · rw [k]; simp

/-! ## Columns -/

/-- the list `L` is in the line `r` from column `i` on -/
def At (r : Row) (i : ℕ) (L : Row) : Prop := ∀ j, j < L.length → r[i + j]? = L[j]?

theorem At.trans {r L K : Row} {i j : ℕ} (h : At r i L) (h' : At L j K) (hl : j + K.length ≤ L.length) : At r (i + j) K := by
  intro k hk
  rw [Nat.add_assoc, h (j + k) (by omega), h' k hk]

theorem at_seg : ∀ (segs : List Row) (n : ℕ) (L : Row), segs[n]? = some L → At segs.flatten (((segs.take n).map List.length).sum) L
  | [], n, L, h => by simp at h
  | a :: t, 0, L, h => by
    simp only [List.getElem?_cons_zero, Option.some.injEq] at h
    subst h
    intro j hj
    simp [List.getElem?_append_left hj]
  | a :: t, n + 1, L, h => by
    simp only [List.getElem?_cons_succ] at h
    have ih := at_seg t n L h
    intro j hj
    simp only [List.take_succ_cons, List.map_cons, List.sum_cons, List.flatten_cons]
    rw [List.getElem?_append_right (by omega), show a.length + ((t.take n).map List.length).sum + j - a.length = ((t.take n).map List.length).sum + j by omega, ih j hj]

theorem at_seg' (segs : List Row) (n i : ℕ) (L : Row) (h : segs[n]? = some L) (hi : ((segs.take n).map List.length).sum = i) : At segs.flatten i L := hi ▸ at_seg segs n L h

theorem sum_const {k : ℕ} (G : ℕ → Row) (hG : ∀ i, (G i).length = k) (l : List ℕ) : ((l.map G).map List.length).sum = k * l.length := by
  induction l with
  | nil => simp
  | cons a t ih => simp only [List.map_cons, List.sum_cons, ih, hG, List.length_cons]; ring

theorem at_flat {n k : ℕ} (G : ℕ → Row) (hG : ∀ i, (G i).length = k) {i : ℕ} (hi : i < n) : At ((List.range n).map G).flatten (k * i) (G i) := by
  refine at_seg' _ i _ _ (by simp [hi]) ?_
  rw [← List.map_take, sum_const G hG, List.length_take, List.length_range, Nat.min_eq_left hi.le]

theorem flat_len {n k : ℕ} (G : ℕ → Row) (hG : ∀ i, (G i).length = k) : ((List.range n).map G).flatten.length = k * n := by
  rw [List.length_flatten, sum_const G hG, List.length_range]

theorem sg_len (k : ℕ) (s : State) (r : Ref) (m : ℕ) : (sg k s r m).length = m := by simp [sg]

theorem camSegs_len (x : Vals) (i : ℕ) : (camSegs x i).flatten.length = 15 := by simp [camSegs, quatList, v3List]

theorem sgCam_len (s : State) (i : ℕ) : (sgCam s i).length = 14 := by
  unfold sgCam
  rw [List.length_append]
  split_ifs <;> simp [sg_len]

theorem at_val (x : Vals) : At (valSegs x).flatten 0 [dec 5 x.t] ∧ At (valSegs x).flatten 1 ((quatList x.q).map (dec 6)) ∧ At (valSegs x).flatten 5 ((v3List x.p).map (dec 6)) ∧ At (valSegs x).flatten 8 ((v3List x.v).map (dec 6)) ∧
    At (valSegs x).flatten 11 ((v3List x.bg).map (dec 6)) ∧ At (valSegs x).flatten 14 ((v3List x.ba).map (dec 6)) ∧ At (valSegs x).flatten 17 [dec 7 x.dt] ∧ At (valSegs x).flatten 18 [(x.n : ℝ)] := by
  refine ⟨at_seg' _ 0 _ _ rfl ?_, at_seg' _ 1 _ _ rfl ?_, at_seg' _ 2 _ _ rfl ?_, at_seg' _ 3 _ _ rfl ?_, at_seg' _ 4 _ _ rfl ?_, at_seg' _ 5 _ _ rfl ?_, at_seg' _ 6 _ _ rfl ?_, at_seg' _ 7 _ _ rfl ?_⟩ <;>
    simp [valSegs, quatList, v3List]

theorem at_cam (x : Vals) {i : ℕ} (hi : i < x.n) : At (valSegs x).flatten (19 + 15 * i) (((List.range 4).map (x.ci i)).map (dec 6)) ∧ At (valSegs x).flatten (19 + 4 + 15 * i) (((List.range 4).map fun j => x.ci i (4 + j)).map (dec 6)) ∧
    At (valSegs x).flatten (27 + 15 * i) ((quatList (x.cq i)).map (dec 6)) ∧ At (valSegs x).flatten (27 + 4 + 15 * i) ((v3List (x.cp i)).map (dec 6)) := by
  have h0 : At (valSegs x).flatten 19 ((List.range x.n).map fun i => (camSegs x i).flatten).flatten := at_seg' _ 8 _ _ rfl (by simp [valSegs, quatList, v3List])
  have h1 : At (valSegs x).flatten (19 + 15 * i) (camSegs x i).flatten := h0.trans (at_flat _ (camSegs_len x) hi) (by rw [flat_len _ (camSegs_len x), camSegs_len]; omega)
  refine ⟨?_, ?_, ?_, ?_⟩
  · exact h1.trans (j := 0) (at_seg' _ 0 _ _ rfl (by simp)) (by rw [camSegs_len]; simp)
  · rw [show 19 + 4 + 15 * i = 19 + 15 * i + 4 by omega]
    exact h1.trans (at_seg' _ 1 _ _ rfl (by simp [camSegs])) (by rw [camSegs_len]; simp)
  · rw [show 27 + 15 * i = 19 + 15 * i + 8 by omega]
    exact h1.trans (at_seg' _ 2 _ _ rfl (by simp [camSegs])) (by rw [camSegs_len]; simp [quatList])
  · rw [show 27 + 4 + 15 * i = 19 + 15 * i + 12 by omega]
    exact h1.trans (at_seg' _ 3 _ _ rfl (by simp [camSegs, quatList])) (by rw [camSegs_len]; simp [v3List])

theorem at_imu (x : Vals) : At (valSegs x).flatten (19 + 15 * x.n) [modelNum x.kalibr] ∧ At (valSegs x).flatten (20 + 15 * x.n) ((vecList 6 x.dw).map (dec 8)) ∧ At (valSegs x).flatten (26 + 15 * x.n) ((vecList 6 x.da).map (dec 8)) ∧
    At (valSegs x).flatten (32 + 15 * x.n) ((vecList 9 x.tg).map (dec 8)) ∧ At (valSegs x).flatten (41 + 15 * x.n) ((quatList x.qG).map (dec 8)) ∧ At (valSegs x).flatten (45 + 15 * x.n) ((quatList x.qA).map (dec 8)) := by
  have hl := flat_len (n := x.n) (fun i => (camSegs x i).flatten) (camSegs_len x)
  refine ⟨at_seg' _ 9 _ _ rfl ?_, at_seg' _ 10 _ _ rfl ?_, at_seg' _ 11 _ _ rfl ?_, at_seg' _ 12 _ _ rfl ?_, at_seg' _ 13 _ _ rfl ?_, at_seg' _ 14 _ _ rfl ?_⟩ <;>
    simp only [valSegs, List.take_succ_cons, List.take_zero, List.map_cons, List.map_nil, List.sum_cons, List.sum_nil, hl, List.length_cons, List.length_nil, List.length_map, quatList, v3List, vecList, List.length_range] <;> omega

theorem at_sg (s : State) (t : ℝ) : At (sgSegs s t).flatten 1 (sg 6 s (imuUid, .q) 3) ∧ At (sgSegs s t).flatten 4 (sg 6 s (imuUid, .p) 3) ∧ At (sgSegs s t).flatten 7 (sg 6 s (imuUid, .v) 3) ∧ At (sgSegs s t).flatten 10 (sg 6 s (imuUid, .bg) 3) ∧
    At (sgSegs s t).flatten 13 (sg 6 s (imuUid, .ba) 3) ∧ At (sgSegs s t).flatten 16 (if s.opts.calibDt then sg 6 s (dtUid, .self) 1 else [0]) := by
  refine ⟨at_seg' _ 1 _ _ rfl ?_, at_seg' _ 2 _ _ rfl ?_, at_seg' _ 3 _ _ rfl ?_, at_seg' _ 4 _ _ rfl ?_, at_seg' _ 5 _ _ rfl ?_, at_seg' _ 6 _ _ rfl ?_⟩ <;>
    simp [sgSegs, sg_len]

theorem dt_len (s : State) : (if s.opts.calibDt then sg 6 s (dtUid, .self) 1 else [0]).length = 1 := by split_ifs <;> simp [sg_len]

theorem at_sgCam (s : State) (t : ℝ) {i : ℕ} (hi : i < s.opts.numCams) : At (sgSegs s t).flatten (18 + 14 * i) (sgCam s i) := by
  have h0 : At (sgSegs s t).flatten 18 ((List.range s.opts.numCams).map (sgCam s)).flatten := at_seg' _ 8 _ _ rfl (by
    simp only [sgSegs, List.take_succ_cons, List.take_zero, List.map_cons, List.map_nil, List.sum_cons, List.sum_nil, sg_len, dt_len, List.length_cons, List.length_nil]; omega)
  exact h0.trans (at_flat _ (sgCam_len s) hi) (by rw [flat_len _ (sgCam_len s), sgCam_len]; omega)

theorem at_sgIntr (s : State) (t : ℝ) {i : ℕ} (hi : i < s.opts.numCams) : At (sgSegs s t).flatten (18 + 14 * i) (if s.opts.calibIntr then sg 6 s (intrUid i, .self) 8 else List.replicate 8 0) := by
  have := at_sgCam s t hi
  intro j hj
  have hj8 : j < 8 := by split_ifs at hj <;> simpa [sg_len] using hj
  rw [this j (by rw [sgCam_len]; omega)]
  unfold sgCam
  rw [List.getElem?_append_left hj]

theorem at_sgPose (s : State) (t : ℝ) {i : ℕ} (hi : i < s.opts.numCams) : At (sgSegs s t).flatten (26 + 14 * i) (if s.opts.calibPose then sg 6 s (7 + 2 * i, .q) 3 ++ sg 6 s (7 + 2 * i, .p) 3 else List.replicate 6 0) := by
  have h8 : (if s.opts.calibIntr then sg 6 s (intrUid i, .self) 8 else List.replicate 8 0).length = 8 := by split_ifs <;> simp [sg_len]
  have := at_sgCam s t hi
  intro j hj
  have hj6 : j < 6 := by split_ifs at hj <;> simpa [sg_len] using hj
  rw [show 26 + 14 * i + j = 18 + 14 * i + (8 + j) by omega, this (8 + j) (by rw [sgCam_len]; omega)]
  unfold sgCam
  rw [List.getElem?_append_right (by omega), h8, Nat.add_sub_cancel_left]

/-- the end of the line of standard deviations: both rotations -/
noncomputable def rotCols (s : State) : Row := if s.opts.kalibr then (sg 8 s (4, .self) 3 ++ [extra s]) ++ List.replicate 3 0 else List.replicate 3 0 ++ (sg 8 s (5, .self) 3 ++ [extra s])

theorem at_sgImu (s : State) (t : ℝ) (hc : s.opts.calibImu = true) : At (sgSegs s t).flatten (19 + 14 * s.opts.numCams) (sg 8 s (1, .self) 6) ∧ At (sgSegs s t).flatten (25 + 14 * s.opts.numCams) (sg 8 s (2, .self) 6) ∧
    At (sgSegs s t).flatten (31 + 14 * s.opts.numCams) (if s.opts.calibG then sg 8 s (3, .self) 9 else List.replicate 9 0) ∧
    At (sgSegs s t).flatten (40 + 14 * s.opts.numCams) (rotCols s) := by
  have hl := flat_len (n := s.opts.numCams) (sgCam s) (sgCam_len s)
  have h9 : (if s.opts.calibG then sg 8 s (3, .self) 9 else List.replicate 9 0).length = 9 := by split_ifs <;> simp [sg_len]
  have e : (sgSegs s t).flatten = [[dec 5 t], sg 6 s (imuUid, .q) 3, sg 6 s (imuUid, .p) 3, sg 6 s (imuUid, .v) 3, sg 6 s (imuUid, .bg) 3, sg 6 s (imuUid, .ba) 3, if s.opts.calibDt then sg 6 s (dtUid, .self) 1 else [0], [(s.opts.numCams : ℝ)],
    ((List.range s.opts.numCams).map (sgCam s)).flatten, [modelNum s.opts.kalibr], sg 8 s (1, .self) 6, sg 8 s (2, .self) 6,
    if s.opts.calibG then sg 8 s (3, .self) 9 else List.replicate 9 0, rotCols s].flatten := by
    unfold sgSegs rotCols
    rw [hc]
    cases s.opts.kalibr <;> simp
  rw [e]
  refine ⟨at_seg' _ 10 _ _ rfl ?_, at_seg' _ 11 _ _ rfl ?_, at_seg' _ 12 _ _ rfl ?_, at_seg' _ 13 _ _ rfl ?_⟩
  · simp only [List.take_succ_cons, List.take_zero, List.map_cons, List.map_nil, List.sum_cons, List.sum_nil, hl, sg_len, dt_len, List.length_cons, List.length_nil]; omega
  · simp only [List.take_succ_cons, List.take_zero, List.map_cons, List.map_nil, List.sum_cons, List.sum_nil, hl, sg_len, dt_len, List.length_cons, List.length_nil]; omega
  · simp only [List.take_succ_cons, List.take_zero, List.map_cons, List.map_nil, List.sum_cons, List.sum_nil, hl, sg_len, dt_len, List.length_cons, List.length_nil]; omega
  · simp only [List.take_succ_cons, List.take_zero, List.map_cons, List.map_nil, List.sum_cons, List.sum_nil, hl, sg_len, dt_len, h9, List.length_cons, List.length_nil]; omega

theorem sg_get (k : ℕ) (s : State) (r : Ref) {m j : ℕ} (hj : j < m) : (sg k s r m)[j]? = some (Spec.pr k (Spec.sigma s r j)) := by
  unfold sg
  rw [List.getElem?_ofFn, dif_pos hj]; rfl

/-! ## Points -/

theorem vecPts_eq {m i k : ℕ} {r : ℝ} {e c g : Row} {t : ℝ} {X Y Z : Fin m → ℝ} (h0 : e[0]? = some t) (he : ∀ j : Fin m, e[i + j]? = some (X j)) (hg : ∀ j : Fin m, g[i + j]? = some (Y j)) (hc : ∀ j : Fin m, c[k + j]? = some (Z j)) :
    vecPts r i k m e c g = some (List.ofFn fun j => ⟨t, r * (X j - Y j), 3 * Z j⟩) := by
  unfold vecPts
  exact mapM_range m (fun j : ℕ => (e[0]?).bind fun t => (e[i + j]?).bind fun x => (g[i + j]?).bind fun y => (c[k + j]?).map fun b => (⟨t, r * (x - y), 3 * b⟩ : Pt)) _ fun j => by
    simp only [h0, he j, hg j, hc j, Option.bind_some, Option.map_some]

theorem At.fin {r L : Row} {i m : ℕ} {X : Fin m → ℝ} (h : At r i L) (hL : L = List.ofFn X) (j : Fin m) : r[i + j]? = some (X j) := by
  subst hL
  rw [h j (by simp)]
  simp

theorem At.sub {r L : Row} {i a m : ℕ} {X : Fin m → ℝ} (h : At r i L) (hL : ∀ j : Fin m, L[a + j]? = some (X j)) (j : Fin m) : r[i + a + j]? = some (X j) := by
  rw [Nat.add_assoc, h (a + j) ?_, hL j]
  have := hL j
  by_contra hc
  rw [List.getElem?_eq_none (by omega)] at this
  cases this

theorem v3_ofFn (v : V3) (k : ℕ) : (v3List v).map (dec k) = List.ofFn fun j : Fin 3 => Spec.pr k (v j) := by
  simp [v3List, List.ofFn_succ]; exact ⟨rfl, rfl, rfl⟩

theorem vec_ofFn (m k : ℕ) (f : ℕ → ℝ) : (vecList m f).map (dec k) = List.ofFn fun j : Fin m => Spec.pr k (f j) := by
  rw [vecList, List.map_map, ← List.map_coe_finRange_eq_range, List.map_map, List.ofFn_eq_map]; rfl

theorem At.quat {r : Row} {i k : ℕ} {q : Quat} (h : At r i ((quatList q).map (dec k))) : quatAt r i = some (Spec.prq k q) := by
  have h0 := h 0 (by simp [quatList])
  have h1 := h 1 (by simp [quatList])
  have h2 := h 2 (by simp [quatList])
  have h3 := h 3 (by simp [quatList])
  simp only [Nat.add_zero] at h0
  unfold quatAt
  rw [h0, h1, h2, h3]
  rfl

theorem rotPts_eq {i k : ℕ} {e c g : Row} {t : ℝ} {q q' : Quat} {Z : Fin 3 → ℝ} (h0 : e[0]? = some t) (he : quatAt e i = some q') (hg : quatAt g i = some q) (hc : ∀ j : Fin 3, c[k + j]? = some (Z j)) :
    rotPts i k e c g = some (List.ofFn fun j : Fin 3 => ⟨t, Spec.turn q q' j, 3 * 180 / Real.pi * Z j⟩) := by
  have c0 := hc 0
  have c1 := hc 1
  have c2 := hc 2
  simp only [Fin.val_zero, Nat.add_zero, Fin.val_one, Fin.val_two] at c0 c1 c2
  unfold rotPts
  rw [he, hg, h0, c0, c1, c2]
  simp [List.ofFn_succ]
  refine ⟨?_, ?_, ?_⟩ <;> rfl

theorem neg_errs {m k : ℕ} (t : ℝ) (a b σ : Fin m → ℝ) : (List.ofFn fun j => (⟨Spec.pr 5 t, -1 * (Spec.pr k (b j) - Spec.pr k (a j)), 3 * Spec.pr k (σ j)⟩ : Pt)) = Spec.errs k t a b σ := by
  unfold Spec.errs
  congr 1; funext j; congr 1; ring

theorem pos_errs {m k : ℕ} (t : ℝ) (a b σ : Fin m → ℝ) : (List.ofFn fun j => (⟨Spec.pr 5 t, 1 * (Spec.pr k (a j) - Spec.pr k (b j)), 3 * Spec.pr k (σ j)⟩ : Pt)) = Spec.errs k t a b σ := by
  unfold Spec.errs
  congr 1; funext j; congr 1; ring

namespace Spec

/-- one saved moment: the state of the filter and the truth -/
abbrev Step := State × Sim.Truth

/-- the points shown for the motion: truth minus estimate of orientation, position, velocity and biases -/
noncomputable def statePts (T : TruePar) (x : Step) : List Pt :=
  let t := x.1.ts + T.dt
  rots 6 t x.2.q (imu x.1).q (fun j => sigma x.1 (imuUid, .q) j) ++ errs 6 t x.2.p (imu x.1).p (fun j => sigma x.1 (imuUid, .p) j) ++ errs 6 t x.2.v (imu x.1).v (fun j => sigma x.1 (imuUid, .v) j) ++
    errs 6 t x.2.bg (imu x.1).bg (fun j => sigma x.1 (imuUid, .bg) j) ++ errs 6 t x.2.ba (imu x.1).ba (fun j => sigma x.1 (imuUid, .ba) j)

/-- the point shown for the time offset: estimate minus truth. The estimate is written with seven digits, its deviation with six. -/
noncomputable def offPts (T : TruePar) (x : Step) : List Pt := [⟨pr 5 (x.1.ts + T.dt), pr 7 (vec x.1 dtUid 0) - pr 7 T.dt, 3 * pr 6 (sigma x.1 (dtUid, .self) 0)⟩]

/-- the points shown for the intrinsics of a camera: four of the projection, four of the distortion -/
noncomputable def intrPts (T : TruePar) (ci : ℕ → ℕ → ℝ) (x : Step) (i : ℕ) : List Pt :=
  let t := x.1.ts + T.dt
  errs 6 t (fun j : Fin 4 => vec x.1 (intrUid i) j) (fun j => ci i j) (fun j => sigma x.1 (intrUid i, .self) j) ++
    errs 6 t (fun j : Fin 4 => vec x.1 (intrUid i) (4 + j)) (fun j => ci i (4 + j)) (fun j => sigma x.1 (intrUid i, .self) (4 + j))

/-- the points shown for the extrinsics of a camera -/
noncomputable def extrPts (T : TruePar) (ce : ℕ → Quat × V3) (x : Step) (i : ℕ) : List Pt :=
  let t := x.1.ts + T.dt
  rots 6 t (ce i).1 (quat x.1 (7 + 2 * i)) (fun j => sigma x.1 (7 + 2 * i, .q) j) ++ errs 6 t (pos x.1 (7 + 2 * i)) (ce i).2 (fun j => sigma x.1 (7 + 2 * i, .p) j)

/-- the points shown for the inertial unit: the matrices of the sensors, the gravity sensitivity (without deviation if it is not estimated), and the rotation that the model has -/
noncomputable def imuPts (T : TruePar) (x : Step) : List Pt :=
  let t := x.1.ts + T.dt
  errs 8 t (fun j : Fin 6 => vec x.1 1 j) (fun j => T.dw j) (fun j => sigma x.1 (1, .self) j) ++ errs 8 t (fun j : Fin 6 => vec x.1 2 j) (fun j => T.da j) (fun j => sigma x.1 (2, .self) j) ++
    errs 8 t (fun j : Fin 9 => vec x.1 3 j) (fun j => T.tg j) (fun j => if x.1.opts.calibG then sigma x.1 (3, .self) j else 0) ++
    if x.1.opts.kalibr then rots 8 t T.qG (quat x.1 4) (fun j => sigma x.1 (4, .self) j) else rots 8 t T.qA (quat x.1 5) (fun j => sigma x.1 (5, .self) j)

end Spec

theorem at0 (x : Vals) : (valSegs x).flatten[0]? = some (Spec.pr 5 x.t) := (at_val x).1 0 (by simp)

/-- the row of points for the motion -/
theorem state_pts (x : Spec.Step) (ci : ℕ → ℕ → ℝ) (ce : ℕ → Quat × V3) :
    let e := (valSegs (valsOf x.1 (x.1.ts + T.dt))).flatten
    let c := (sgSegs x.1 (x.1.ts + T.dt)).flatten
    let g := (valSegs (truthOf T ci ce x.2)).flatten
    ((rotPts 1 1 e c g).bind fun a => (vecPts (-1) 5 4 3 e c g).bind fun p => (vecPts (-1) 8 7 3 e c g).bind fun v =>
    (vecPts (-1) 11 10 3 e c g).bind fun bg => (vecPts (-1) 14 13 3 e c g).map fun ba => a ++ p ++ v ++ bg ++ ba) = some (Spec.statePts T x) := by
  intro e c g
  obtain ⟨_, eq, ep, ev, eg, ea, _, _⟩ := at_val (valsOf x.1 (x.1.ts + T.dt))
  obtain ⟨_, gq, gp, gv, gg, ga, _, _⟩ := at_val (truthOf T ci ce x.2)
  obtain ⟨sq, sp, sv, sgg, sa, _⟩ := at_sg x.1 (x.1.ts + T.dt)
  have h0 := at0 (valsOf x.1 (x.1.ts + T.dt))
  rw [rotPts_eq h0 eq.quat gq.quat (sq.fin rfl), vecPts_eq h0 (ep.fin (v3_ofFn _ _)) (gp.fin (v3_ofFn _ _)) (sp.fin rfl), vecPts_eq h0 (ev.fin (v3_ofFn _ _)) (gv.fin (v3_ofFn _ _)) (sv.fin rfl),
    vecPts_eq h0 (eg.fin (v3_ofFn _ _)) (gg.fin (v3_ofFn _ _)) (sgg.fin rfl), vecPts_eq h0 (ea.fin (v3_ofFn _ _)) (ga.fin (v3_ofFn _ _)) (sa.fin rfl)]
  simp only [Option.bind_some, Option.map_some, Option.some.injEq]
  unfold Spec.statePts
  simp only [← neg_errs]
  rfl

/-- the row of points for the time offset -/
theorem off_pts (x : Spec.Step) (ci : ℕ → ℕ → ℝ) (ce : ℕ → Quat × V3) (hd : x.1.opts.calibDt = true) :
    let e := (valSegs (valsOf x.1 (x.1.ts + T.dt))).flatten
    let c := (sgSegs x.1 (x.1.ts + T.dt)).flatten
    let g := (valSegs (truthOf T ci ce x.2)).flatten
    zeroAt 16 c = some (decide (Spec.pr 6 (Spec.sigma x.1 (dtUid, .self) 0) = 0)) ∧ vecPts 1 17 16 1 e c g = some (Spec.offPts T x) := by
  intro e c g
  obtain ⟨_, _, _, _, _, _, ed, _⟩ := at_val (valsOf x.1 (x.1.ts + T.dt))
  obtain ⟨_, _, _, _, _, _, gd, _⟩ := at_val (truthOf T ci ce x.2)
  obtain ⟨_, _, _, _, _, sd⟩ := at_sg x.1 (x.1.ts + T.dt)
  rw [hd, if_pos rfl] at sd
  have h0 := at0 (valsOf x.1 (x.1.ts + T.dt))
  refine ⟨?_, ?_⟩
  · have := sd.fin (X := fun j : Fin 1 => Spec.pr 6 (Spec.sigma x.1 (dtUid, .self) j)) rfl 0
    simp only [Fin.val_zero, Nat.add_zero] at this
    simp only [zeroAt, c, this, Option.map_some]
  · rw [vecPts_eq h0 (X := fun _ => Spec.pr 7 (Spec.vec x.1 dtUid 0)) (Y := fun _ => Spec.pr 7 T.dt) (Z := fun j : Fin 1 => Spec.pr 6 (Spec.sigma x.1 (dtUid, .self) j)) (ed.fin rfl) (gd.fin rfl) (sd.fin rfl)]
    simp [Spec.offPts]
    rfl

theorem map_range_ofFn (m k : ℕ) (f : ℕ → ℝ) : ((List.range m).map f).map (dec k) = List.ofFn fun j : Fin m => Spec.pr k (f j) := vec_ofFn m k f

/-- the row of points for the intrinsics of one camera -/
theorem intr_pts (x : Spec.Step) (ci : ℕ → ℕ → ℝ) (ce : ℕ → Quat × V3) (hn : x.1.opts.numCams = T.numCams) (hb : x.1.opts.calibIntr = true) {i : ℕ} (hi : i < T.numCams) :
    let e := (valSegs (valsOf x.1 (x.1.ts + T.dt))).flatten
    let c := (sgSegs x.1 (x.1.ts + T.dt)).flatten
    let g := (valSegs (truthOf T ci ce x.2)).flatten
    zeroAt (18 + 14 * i) c = some (decide (Spec.pr 6 (Spec.sigma x.1 (intrUid i, .self) 0) = 0)) ∧
    ((vecPts 1 (19 + 15 * i) (18 + 14 * i) 4 e c g).bind fun k => (vecPts 1 (19 + 4 + 15 * i) (18 + 4 + 14 * i) 4 e c g).map fun d => k ++ d) = some (Spec.intrPts T ci x i) := by
  intro e c g
  obtain ⟨e1, e2, _, _⟩ := at_cam (valsOf x.1 (x.1.ts + T.dt)) (i := i) (by show i < x.1.opts.numCams; omega)
  obtain ⟨g1, g2, _, _⟩ := at_cam (truthOf T ci ce x.2) (i := i) hi
  have hs := at_sgIntr x.1 (x.1.ts + T.dt) (i := i) (by omega)
  rw [if_pos hb] at hs
  have h0 := at0 (valsOf x.1 (x.1.ts + T.dt))
  have hsg := fun j (hj : j < 8) => sg_get 6 x.1 (intrUid i, .self) hj
  have s1 : ∀ j : Fin 4, c[18 + 14 * i + j]? = some (Spec.pr 6 (Spec.sigma x.1 (intrUid i, .self) j)) := fun j => by
    rw [hs j (by rw [sg_len]; omega), hsg j (by omega)]
  have s2 : ∀ j : Fin 4, c[18 + 4 + 14 * i + j]? = some (Spec.pr 6 (Spec.sigma x.1 (intrUid i, .self) (4 + j))) := fun j => by
    rw [show 18 + 4 + 14 * i + (j : ℕ) = 18 + 14 * i + (4 + j) by omega, hs (4 + j) (by rw [sg_len]; omega), hsg _ (by omega)]
  refine ⟨?_, ?_⟩
  · have := s1 0
    simp only [Fin.val_zero, Nat.add_zero] at this
    simp only [zeroAt, c, this, Option.map_some]
  · rw [vecPts_eq h0 (e1.fin (map_range_ofFn 4 6 _)) (g1.fin (map_range_ofFn 4 6 _)) s1, vecPts_eq h0 (e2.fin (map_range_ofFn 4 6 _)) (g2.fin (map_range_ofFn 4 6 _)) s2]
    simp only [Option.bind_some, Option.map_some, Option.some.injEq]
    unfold Spec.intrPts
    simp only [← pos_errs]
    rfl

/-- the row of points for the extrinsics of one camera -/
theorem extr_pts (x : Spec.Step) (ci : ℕ → ℕ → ℝ) (ce : ℕ → Quat × V3) (hn : x.1.opts.numCams = T.numCams) (hb : x.1.opts.calibPose = true) {i : ℕ} (hi : i < T.numCams) :
    let e := (valSegs (valsOf x.1 (x.1.ts + T.dt))).flatten
    let c := (sgSegs x.1 (x.1.ts + T.dt)).flatten
    let g := (valSegs (truthOf T ci ce x.2)).flatten
    zeroAt (26 + 14 * i) c = some (decide (Spec.pr 6 (Spec.sigma x.1 (7 + 2 * i, .q) 0) = 0)) ∧
    ((rotPts (27 + 15 * i) (26 + 14 * i) e c g).bind fun k => (vecPts 1 (27 + 4 + 15 * i) (26 + 3 + 14 * i) 3 e c g).map fun d => k ++ d) = some (Spec.extrPts T ce x i) := by
  intro e c g
  obtain ⟨_, _, e1, e2⟩ := at_cam (valsOf x.1 (x.1.ts + T.dt)) (i := i) (by show i < x.1.opts.numCams; omega)
  obtain ⟨_, _, g1, g2⟩ := at_cam (truthOf T ci ce x.2) (i := i) hi
  have hs := at_sgPose x.1 (x.1.ts + T.dt) (i := i) (by omega)
  rw [if_pos hb] at hs
  have h0 := at0 (valsOf x.1 (x.1.ts + T.dt))
  have hsg := fun r j (hj : j < 3) => sg_get 6 x.1 r hj
  have s1 : ∀ j : Fin 3, c[26 + 14 * i + j]? = some (Spec.pr 6 (Spec.sigma x.1 (7 + 2 * i, .q) j)) := fun j => by
    rw [hs j (by rw [List.length_append, sg_len, sg_len]; omega), List.getElem?_append_left (by rw [sg_len]; omega), hsg _ j (by omega)]
  have s2 : ∀ j : Fin 3, c[26 + 3 + 14 * i + j]? = some (Spec.pr 6 (Spec.sigma x.1 (7 + 2 * i, .p) j)) := fun j => by
    rw [show 26 + 3 + 14 * i + (j : ℕ) = 26 + 14 * i + (3 + j) by omega, hs (3 + j) (by rw [List.length_append, sg_len, sg_len]; omega), List.getElem?_append_right (by rw [sg_len]; omega), sg_len, Nat.add_sub_cancel_left, hsg _ _ (by omega)]
  refine ⟨?_, ?_⟩
  · have := s1 0
    simp only [Fin.val_zero, Nat.add_zero] at this
    simp only [zeroAt, c, this, Option.map_some]
  · rw [rotPts_eq h0 e1.quat g1.quat s1, vecPts_eq h0 (e2.fin (v3_ofFn _ _)) (g2.fin (v3_ofFn _ _)) s2]
    simp only [Option.bind_some, Option.map_some, Option.some.injEq]
    unfold Spec.extrPts
    simp only [← pos_errs]
    rfl

theorem pr_zero (k : ℕ) : Spec.pr k 0 = 0 := by simp [Spec.pr]

/-- the row of points for the inertial unit -/
theorem imu_pts (x : Spec.Step) (ci : ℕ → ℕ → ℝ) (ce : ℕ → Quat × V3) (hn : x.1.opts.numCams = T.numCams) (hb : x.1.opts.calibImu = true) {n model : ℕ} (hn' : n = T.numCams) (hm : model = if x.1.opts.kalibr then 0 else 1) :
    let e := (valSegs (valsOf x.1 (x.1.ts + T.dt))).flatten
    let c := (sgSegs x.1 (x.1.ts + T.dt)).flatten
    let g := (valSegs (truthOf T ci ce x.2)).flatten
    zeroAt (19 + 14 * n) c = some (decide (Spec.pr 8 (Spec.sigma x.1 (1, .self) 0) = 0)) ∧
    ((vecPts 1 (20 + 15 * n) (19 + 14 * n) 6 e c g).bind fun x => (vecPts 1 (26 + 15 * n) (25 + 14 * n) 6 e c g).bind fun y => (vecPts 1 (32 + 15 * n) (31 + 14 * n) 9 e c g).bind fun z =>
        (rotPts (41 + 15 * n) (40 + 14 * n) e c g).bind fun r => (rotPts (45 + 15 * n) (43 + 14 * n) e c g).map fun r' => x ++ y ++ z ++ if model = 0 then r else r') = some (Spec.imuPts T x) := by
  intro e c g
  subst hn'
  obtain ⟨_, e1, e2, e3, e4, e5⟩ := at_imu (valsOf x.1 (x.1.ts + T.dt))
  obtain ⟨_, g1, g2, g3, g4, g5⟩ := at_imu (truthOf T ci ce x.2)
  obtain ⟨s1, s2, s3, s4⟩ := at_sgImu x.1 (x.1.ts + T.dt) hb
  have hn1 : (valsOf x.1 (x.1.ts + T.dt)).n = T.numCams := hn
  have hn2 : (truthOf T ci ce x.2).n = T.numCams := rfl
  rw [hn1] at e1 e2 e3 e4 e5
  rw [hn2] at g1 g2 g3 g4 g5
  rw [hn] at s1 s2 s3 s4
  have h0 := at0 (valsOf x.1 (x.1.ts + T.dt))
  have c1 : ∀ j : Fin 6, c[19 + 14 * T.numCams + j]? = some (Spec.pr 8 (Spec.sigma x.1 (1, .self) j)) := fun j => by rw [s1 j (by rw [sg_len]; omega), sg_get _ _ _ (by omega)]
  have c2 : ∀ j : Fin 6, c[25 + 14 * T.numCams + j]? = some (Spec.pr 8 (Spec.sigma x.1 (2, .self) j)) := fun j => by rw [s2 j (by rw [sg_len]; omega), sg_get _ _ _ (by omega)]
  have c3 : ∀ j : Fin 9, c[31 + 14 * T.numCams + j]? = some (Spec.pr 8 (if x.1.opts.calibG then Spec.sigma x.1 (3, .self) j else 0)) := fun j => by
    cases hg : x.1.opts.calibG with
    | true =>
      rw [hg, if_pos rfl] at s3
      rw [s3 j (by rw [sg_len]; omega), sg_get _ _ _ (by omega)]; rfl
    | false =>
      rw [hg] at s3
      simp only [Bool.false_eq_true, if_false] at s3 ⊢
      rw [s3 j (by rw [List.length_replicate]; omega), List.getElem?_replicate, if_pos (by omega), pr_zero]
  refine ⟨?_, ?_⟩
  · have := c1 0
    simp only [Fin.val_zero, Nat.add_zero] at this
    simp only [zeroAt, c, this, Option.map_some]
  · rw [vecPts_eq h0 (e1.fin (vec_ofFn 6 8 _)) (g1.fin (vec_ofFn 6 8 _)) c1, vecPts_eq h0 (e2.fin (vec_ofFn 6 8 _)) (g2.fin (vec_ofFn 6 8 _)) c2, vecPts_eq h0 (e3.fin (vec_ofFn 9 8 _)) (g3.fin (vec_ofFn 9 8 _)) c3]
    have hlen : (rotCols x.1).length = 7 := by unfold rotCols; split_ifs <;> simp [sg_len]
    cases hk : x.1.opts.kalibr with
    | true =>
      have r1 : ∀ j : Fin 3, c[40 + 14 * T.numCams + j]? = some (Spec.pr 8 (Spec.sigma x.1 (4, .self) j)) := fun j => by
        rw [s4 j (by rw [hlen]; omega), rotCols, if_pos hk, List.append_assoc, List.getElem?_append_left (by rw [sg_len]; omega), sg_get _ _ _ (by omega)]
      have r2 : ∀ j : Fin 3, c[43 + 14 * T.numCams + j]? = some ((rotCols x.1)[3 + (j : ℕ)]'(by rw [hlen]; omega)) := fun j => by
        rw [show 43 + 14 * T.numCams + (j : ℕ) = 40 + 14 * T.numCams + (3 + j) by omega, s4 (3 + j) (by rw [hlen]; omega), List.getElem?_eq_getElem]
      rw [rotPts_eq h0 e4.quat g4.quat r1, rotPts_eq h0 e5.quat g5.quat r2, hm, hk]
      simp only [Option.bind_some, Option.map_some, Option.some.injEq, if_true]
      unfold Spec.imuPts
      simp only [← pos_errs, hk, if_true]
      rfl
    | false =>
      have r1 : ∀ j : Fin 3, c[40 + 14 * T.numCams + j]? = some ((rotCols x.1)[(j : ℕ)]'(by rw [hlen]; omega)) := fun j => by
        rw [s4 j (by rw [hlen]; omega), List.getElem?_eq_getElem]
      have r2 : ∀ j : Fin 3, c[43 + 14 * T.numCams + j]? = some (Spec.pr 8 (Spec.sigma x.1 (5, .self) j)) := fun j => by
        rw [show 43 + 14 * T.numCams + (j : ℕ) = 40 + 14 * T.numCams + (3 + j) by omega, s4 (3 + j) (by rw [hlen]; omega), rotCols, if_neg (by simp [hk]), List.getElem?_append_right (by simp), List.length_replicate, Nat.add_sub_cancel_left,
          List.getElem?_append_left (by rw [sg_len]; omega), sg_get _ _ _ (by omega)]
      rw [rotPts_eq h0 e4.quat g4.quat r1, rotPts_eq h0 e5.quat g5.quat r2, hm, hk]
      simp only [Option.bind_some, Option.map_some, Option.some.injEq, Bool.false_eq_true, if_false, one_ne_zero]
      unfold Spec.imuPts
      simp only [← pos_errs, hk, Bool.false_eq_true, if_false]
      rfl

/-! ## The loops -/

theorem sweep_all {α : Type} {mx t0 : ℝ} {off : Row → Option Bool} {f : Row → Row → Row → Option (List Pt)} (E C G : α → Row) (τ : α → ℝ) (pts : α → List Pt) : ∀ (l : List α), (∀ x ∈ l, (E x)[0]? = some (τ x) ∧ (G x)[0]? = some (τ x)) →
    (∀ x ∈ l.takeWhile fun x => decide (τ x - t0 ≤ mx), off (C x) = some false ∧ f (E x) (C x) (G x) = some (pts x)) →
    sweep mx t0 off f (l.map fun x => (E x, C x, G x)) = some (some ((l.takeWhile fun x => decide (τ x - t0 ≤ mx)).map pts)) := by
  intro l
  induction l with
  | nil => intro _ _; rfl
  | cons a t ih =>
    intro h1 h2
    obtain ⟨ha, hg⟩ := h1 a (by simp)
    simp only [List.map_cons, sweep, ha, hg, Option.bind_some]
    by_cases hc : τ a - t0 ≤ mx
    · rw [if_neg (by linarith), if_neg (by simp)]
      rw [List.takeWhile_cons_of_pos (by simpa using hc)] at h2 ⊢
      obtain ⟨o1, o2⟩ := h2 a (by simp)
      rw [o1, o2, ih (fun x hx => h1 x (List.mem_cons_of_mem _ hx)) (fun x hx => h2 x (List.mem_cons_of_mem _ hx))]
      simp
    · rw [if_pos (by linarith), List.takeWhile_cons_of_neg (by simpa using hc)]
      simp

theorem sweep_off {α : Type} {mx t0 : ℝ} {off : Row → Option Bool} {f : Row → Row → Row → Option (List Pt)} (E C G : α → Row) (τ : α → ℝ) : ∀ (l : List α), (∀ x ∈ l, (E x)[0]? = some (τ x) ∧ (G x)[0]? = some (τ x)) →
    (∀ x ∈ l, (off (C x)).isSome ∧ (off (C x) = some false → (f (E x) (C x) (G x)).isSome)) → (∃ x ∈ l.takeWhile fun x => decide (τ x - t0 ≤ mx), off (C x) = some true) →
    sweep mx t0 off f (l.map fun x => (E x, C x, G x)) = some none := by
  intro l
  induction l with
  | nil => rintro _ _ ⟨x, hx, _⟩; simp at hx
  | cons a t ih =>
    rintro h1 h2 ⟨x, hx, ho⟩
    obtain ⟨ha, hg⟩ := h1 a (by simp)
    simp only [List.map_cons, sweep, ha, hg, Option.bind_some]
    by_cases hc : τ a - t0 ≤ mx
    · rw [if_neg (by linarith), if_neg (by simp)]
      rw [List.takeWhile_cons_of_pos (by simpa using hc)] at hx
      obtain ⟨o1, o2⟩ := h2 a (by simp)
      obtain ⟨b, hb⟩ := Option.isSome_iff_exists.1 o1
      rw [hb]
      cases b with
      | true => simp
      | false =>
        obtain ⟨p, hp⟩ := Option.isSome_iff_exists.1 (o2 hb)
        rw [hp, Option.bind_some]
        simp only [Bool.false_eq_true, if_false, Option.bind_some]
        have hx' : x ∈ t.takeWhile fun x => decide (τ x - t0 ≤ mx) := by
          rcases List.mem_cons.1 hx with rfl | hx
          · rw [hb] at ho; simp at ho
          · exact hx
        rw [ih (fun y hy => h1 y (by simp [hy])) (fun y hy => h2 y (by simp [hy])) ⟨x, hx', ho⟩]
        rfl
    · rw [List.takeWhile_cons_of_neg (by simpa using hc)] at hx
      simp at hx

namespace Spec

/-- a run: states of the program, with the true state at each, at the time of the state by the true offset between the clocks; the simulator has the cameras of the filter -/
structure Run (lib : Lib) (o : Opts) (T : TruePar) (ci : ℕ → ℕ → ℝ) (ce : ℕ → Quat × V3) (steps : List Step) : Prop where
  some : steps ≠ []
  prog : ∀ x ∈ steps, St.Spec.Prog lib o x.1
  time : ∀ x ∈ steps, x.2.t = x.1.ts + T.dt
  num : o.numCams = T.numCams
  cams : ∀ i, i < T.numCams → T.intr i = Option.some (ci i) ∧ T.extr i = Option.some (ce i)

/-- the calls by which the run is saved: at each `get_state` gives the truth of the run -/
def Calls (T : TruePar) (calls : List (State × (ℝ → Option Sim.Truth))) (steps : List Step) : Prop := List.Forall₂ (fun c x => c.1 = x.1 ∧ c.2 (c.1.ts + T.dt) = Option.some x.2) calls steps

/-- what is shown: the run as long as no more than `mx` has passed since its start -/
noncomputable def shown (T : TruePar) (mx : ℝ) (steps : List Step) : List Step :=
  match steps with
  | [] => []
  | x0 :: _ => steps.takeWhile fun x => decide (pr 5 (x.1.ts + T.dt) - pr 5 (x0.1.ts + T.dt) ≤ mx)

end Spec

/-- the lines of a step -/
noncomputable def lineE (T : TruePar) (x : Spec.Step) : Row := (valSegs (valsOf x.1 (x.1.ts + T.dt))).flatten
noncomputable def lineC (T : TruePar) (x : Spec.Step) : Row := (sgSegs x.1 (x.1.ts + T.dt)).flatten
noncomputable def lineG (T : TruePar) (ci : ℕ → ℕ → ℝ) (ce : ℕ → Quat × V3) (x : Spec.Step) : Row := (valSegs (truthOf T ci ce x.2)).flatten

theorem valRow_len (x : Vals) : (valSegs x).flatten.length = 49 + 15 * x.n := by
  have hl := flat_len (n := x.n) (fun i => (camSegs x i).flatten) (camSegs_len x)
  rw [List.length_flatten]
  simp only [valSegs, List.map_cons, List.map_nil, List.sum_cons, List.sum_nil, hl, List.length_cons, List.length_nil, List.length_map, quatList, v3List, vecList, List.length_range]
  omega

theorem sgRow_len (s : State) (t : ℝ) : (sgSegs s t).flatten.length = 46 + 14 * s.opts.numCams + if s.opts.calibImu then 1 else 0 := by
  have hl := flat_len (n := s.opts.numCams) (sgCam s) (sgCam_len s)
  rw [List.length_flatten]
  simp only [sgSegs, List.map_cons, List.map_nil, List.sum_cons, List.sum_nil, hl, sg_len, dt_len, List.length_cons, List.length_nil, apply_ite List.length, List.length_append, List.length_replicate]
  cases s.opts.calibImu <;> cases s.opts.calibG <;> cases s.opts.kalibr <;> simp <;> omega

theorem saved_lines {ci : ℕ → ℕ → ℝ} {ce : ℕ → Quat × V3} {x : Spec.Step} {get : ℝ → Option Sim.Truth} (hp : St.Spec.Prog lib o x.1) (hn : o.numCams = T.numCams) (hc : ∀ i, i < T.numCams → T.intr i = some (ci i) ∧ T.extr i = some (ce i))
    (hg : get (x.1.ts + T.dt) = some x.2) {l : Row × Row × Option Row} (h : save x.1 T get = some l) : l = (lineE T x, lineC T x, some (lineG T ci ce x)) := by
  have ho := (prog_W hp).opts
  unfold save at h
  simp only [hg] at h
  rw [ho, gtRow_segs hn hc, estRow_segs hp] at h
  simp only [Option.map_some, Option.bind_some] at h
  by_cases hr : o.calibImu = true → (x.1.obj (rotUid o)).id + 3 < x.1.n
  · rw [stdRow_segs hp hr, Option.map_some, Option.some.injEq] at h
    exact h.symm
  · push Not at hr
    rw [stdRow_none hp hr.1 (by omega)] at h
    cases h

theorem saveAll_lines {ci : ℕ → ℕ → ℝ} {ce : ℕ → Quat × V3} (hn : o.numCams = T.numCams) (hc : ∀ i, i < T.numCams → T.intr i = some (ci i) ∧ T.extr i = some (ce i)) :
    ∀ {calls : List (State × (ℝ → Option Sim.Truth))} {steps : List Spec.Step}, Spec.Calls T calls steps → (∀ x ∈ steps, St.Spec.Prog lib o x.1) → ∀ {F : List Row × List Row × List Row}, saveAll T calls = some F →
      F = (steps.map (lineE T), steps.map (lineC T), steps.map (lineG T ci ce)) := by
  intro calls steps h
  induction h with
  | nil => intro _ F hF; simp only [saveAll, Option.some.injEq] at hF; exact hF.symm
  | @cons c x cs xs hcx _ ih =>
    intro hp F hF
    obtain ⟨h1, h2⟩ := hcx
    simp only [saveAll] at hF
    rw [Option.bind_eq_some_iff] at hF
    obtain ⟨l, hl, hF⟩ := hF
    rw [Option.map_eq_some_iff] at hF
    obtain ⟨F', hF', rfl⟩ := hF
    rw [h1] at h2 hl
    have := saved_lines (x := x) (hp x (by simp)) hn hc h2 hl
    rw [this, ih (fun y hy => hp y (by simp [hy])) hF']
    simp

theorem loadSim_const {α : Type} (f : α → Row) {k : ℕ} (l : List α) (hl : l ≠ []) (hf : ∀ x ∈ l, (f x).length = k) : loadSim (l.map f) = some (l.map f) := by
  cases l with
  | nil => exact absurd rfl hl
  | cons a t =>
    unfold loadSim
    simp only [List.map_cons]
    rw [if_pos]
    rw [List.all_eq_true]
    intro y hy
    rw [← List.map_cons, List.mem_map] at hy
    obtain ⟨z, hz, rfl⟩ := hy
    simp [hf z hz, hf a (by simp)]

theorem zip_map3 {α : Type} (f g h : α → Row) (l : List α) : (l.map f).zip ((l.map g).zip (l.map h)) = l.map fun x => (f x, g x, h x) := by
  induction l with
  | nil => rfl
  | cons a t ih => simp [ih]

theorem opened {ci : ℕ → ℕ → ℝ} {ce : ℕ → Quat × V3} {steps : List Spec.Step} (R : Spec.Run lib o T ci ce steps) {calls : List (State × (ℝ → Option Sim.Truth))} (hc : Spec.Calls T calls steps)
    {F : List Row × List Row × List Row} (hF : saveAll T calls = some F) : openSim F.1 F.2.1 F.2.2 = some (steps.map fun x => (lineE T x, lineC T x, lineG T ci ce x)) := by
  rw [saveAll_lines R.num R.cams hc R.prog hF]
  have ho : ∀ x ∈ steps, x.1.opts = o := fun x hx => (prog_W (R.prog x hx)).opts
  unfold openSim
  rw [loadSim_const (k := 49 + 15 * o.numCams) (lineE T) steps R.some fun x hx => by rw [lineE, valRow_len]; simp only [valsOf, ho x hx],
    loadSim_const (k := 46 + 14 * o.numCams + if o.calibImu then 1 else 0) (lineC T) steps R.some fun x hx => by rw [lineC, sgRow_len, ho x hx],
    loadSim_const (k := 49 + 15 * T.numCams) (lineG T ci ce) steps R.some fun x hx => by rw [lineG, valRow_len]; rfl]
  simp only [Option.bind_some]
  rw [if_pos, zip_map3]
  refine ⟨by simp, by simp, ?_⟩
  intro r hr
  cases hs : steps with
  | nil => exact absurd hs R.some
  | cons a t =>
    rw [hs] at hr
    simp only [List.map_cons, List.head?_cons, Option.mem_def, Option.some.injEq] at hr
    subst hr
    rw [lineE, valRow_len]; omega

section Runs

variable {ci : ℕ → ℕ → ℝ} {ce : ℕ → Quat × V3} {steps : List Spec.Step}

theorem run_times (R : Spec.Run lib o T ci ce steps) : ∀ x ∈ steps, (lineE T x)[0]? = some (Spec.pr 5 (x.1.ts + T.dt)) ∧ (lineG T ci ce x)[0]? = some (Spec.pr 5 (x.1.ts + T.dt)) := by
  intro x hx
  refine ⟨at0 _, ?_⟩
  have := at0 (truthOf T ci ce x.2)
  rw [show (truthOf T ci ce x.2).t = x.1.ts + T.dt from R.time x hx] at this
  exact this

theorem run_first {x0 : Spec.Step} {r : List Spec.Step} : firstTime ((x0 :: r).map fun x => (lineE T x, lineC T x, lineG T ci ce x)) = some (Spec.pr 5 (x0.1.ts + T.dt)) := by
  simp only [firstTime, List.map_cons, List.head?_cons, Option.bind_some]
  exact at0 _

theorem run_num {x0 : Spec.Step} {r : List Spec.Step} (h : x0.1.opts = o) : intAt 18 ((x0 :: r).map fun x => (lineE T x, lineC T x, lineG T ci ce x)) = some o.numCams := by
  simp only [intAt, List.map_cons, List.head?_cons, Option.bind_some]
  have := (at_val (valsOf x0.1 (x0.1.ts + T.dt))).2.2.2.2.2.2.2 0 (by simp)
  simp only [Nat.add_zero, List.getElem?_cons_zero] at this
  rw [lineE, this]
  simp [valsOf, h]

theorem run_model {x0 : Spec.Step} {r : List Spec.Step} (h : x0.1.opts = o) : intAt (19 + 15 * o.numCams) ((x0 :: r).map fun x => (lineE T x, lineC T x, lineG T ci ce x)) = some (if o.kalibr then 0 else 1) := by
  simp only [intAt, List.map_cons, List.head?_cons, Option.bind_some]
  have := (at_imu (valsOf x0.1 (x0.1.ts + T.dt))).1 0 (by simp)
  simp only [Nat.add_zero, List.getElem?_cons_zero] at this
  rw [show (valsOf x0.1 (x0.1.ts + T.dt)).n = o.numCams by simp [valsOf, h]] at this
  rw [lineE, this]
  simp only [valsOf, h, modelNum, Option.map_some]
  cases o.kalibr <;> simp

/-- **C120** What is shown for the motion of a simulated run: for each saved state, until the maximal time, the true minus the estimated orientation, position, velocity and biases at the time of the state, with three times the standard deviation of that
component. The files always open. -/
theorem C120_state (R : Spec.Run lib o T ci ce steps) {calls : List (State × (ℝ → Option Sim.Truth))} (hc : Spec.Calls T calls steps) {F : List Row × List Row × List Row} (hF : saveAll T calls = some F) (mx : ℝ) :
    ∃ L, openSim F.1 F.2.1 F.2.2 = some L ∧ plotState mx L = some (some ((Spec.shown T mx steps).map (Spec.statePts T))) := by
  refine ⟨_, opened R hc hF, ?_⟩
  cases hs : steps with
  | nil => exact absurd hs R.some
  | cons x0 r =>
    unfold plotState
    rw [run_first, Option.bind_some]
    have ht := run_times R
    rw [hs] at ht
    exact sweep_all (lineE T) (lineC T) (lineG T ci ce) (fun x => Spec.pr 5 (x.1.ts + T.dt)) (Spec.statePts T) (x0 :: r) ht fun x hx => ⟨rfl, state_pts x ci ce⟩

/-- **C120** What is shown for the time offset, if it is estimated and none of the deviations was written as zero. -/
theorem C120_time_offset (R : Spec.Run lib o T ci ce steps) {calls : List (State × (ℝ → Option Sim.Truth))} (hc : Spec.Calls T calls steps) {F : List Row × List Row × List Row} (hF : saveAll T calls = some F) (mx : ℝ)
    (hd : o.calibDt = true) (hz : ∀ x ∈ Spec.shown T mx steps, Spec.pr 6 (Spec.sigma x.1 (dtUid, .self) 0) ≠ 0) :
    ∃ L, openSim F.1 F.2.1 F.2.2 = some L ∧ plotTimeoff mx L = some (some ((Spec.shown T mx steps).map (Spec.offPts T))) := by
  refine ⟨_, opened R hc hF, ?_⟩
  cases hs : steps with
  | nil => exact absurd hs R.some
  | cons x0 r =>
    unfold plotTimeoff
    rw [run_first, Option.bind_some]
    have ht := run_times R
    rw [hs] at ht hz
    refine sweep_all (lineE T) (lineC T) (lineG T ci ce) (fun x => Spec.pr 5 (x.1.ts + T.dt)) (Spec.offPts T) (x0 :: r) ht fun x hx => ?_
    have hx' : x ∈ steps := by rw [hs]; exact (List.takeWhile_sublist _).subset hx
    obtain ⟨h1, h2⟩ := off_pts (T := T) x ci ce (by rw [(prog_W (R.prog x hx')).opts]; exact hd)
    exact ⟨h1.trans (by rw [decide_eq_false (hz x hx)]), h2⟩

/-- **C120** What is shown for the intrinsics of the cameras. -/
theorem C120_intrinsics (R : Spec.Run lib o T ci ce steps) {calls : List (State × (ℝ → Option Sim.Truth))} (hc : Spec.Calls T calls steps) {F : List Row × List Row × List Row} (hF : saveAll T calls = some F) (mx : ℝ)
    (hn : 0 < o.numCams) (hd : o.calibIntr = true) (hz : ∀ x ∈ Spec.shown T mx steps, Spec.pr 6 (Spec.sigma x.1 (intrUid 0, .self) 0) ≠ 0) :
    ∃ L, openSim F.1 F.2.1 F.2.2 = some L ∧ plotIntr mx L = some (some ((Spec.shown T mx steps).map fun x => (List.range o.numCams).flatMap (Spec.intrPts T ci x))) := by
  refine ⟨_, opened R hc hF, ?_⟩
  cases hs : steps with
  | nil => exact absurd hs R.some
  | cons x0 r =>
    unfold plotIntr
    rw [run_num (prog_W (R.prog x0 (by rw [hs]; simp))).opts, Option.bind_some, if_neg (by omega), run_first, Option.bind_some]
    have ht := run_times R
    rw [hs] at ht hz
    refine sweep_all (lineE T) (lineC T) (lineG T ci ce) (fun x => Spec.pr 5 (x.1.ts + T.dt)) _ (x0 :: r) ht fun x hx => ?_
    have hx' : x ∈ steps := by rw [hs]; exact (List.takeWhile_sublist _).subset hx
    have ho := (prog_W (R.prog x hx')).opts
    have key := fun i (hi : i < o.numCams) => intr_pts (T := T) x ci ce (by rw [ho]; exact R.num) (by rw [ho]; exact hd) (i := i) (by rw [← R.num]; exact hi)
    refine ⟨(key 0 hn).1.trans (by rw [decide_eq_false (hz x hx)]), ?_⟩
    unfold lineE lineC lineG
    rw [mapM_cams o.numCams _ (Spec.intrPts T ci x) fun i hi => (key i hi).2]
    rfl

/-- **C120** What is shown for the extrinsics of the cameras. -/
theorem C120_extrinsics (R : Spec.Run lib o T ci ce steps) {calls : List (State × (ℝ → Option Sim.Truth))} (hc : Spec.Calls T calls steps) {F : List Row × List Row × List Row} (hF : saveAll T calls = some F) (mx : ℝ)
    (hn : 0 < o.numCams) (hd : o.calibPose = true) (hz : ∀ x ∈ Spec.shown T mx steps, Spec.pr 6 (Spec.sigma x.1 (7, .q) 0) ≠ 0) :
    ∃ L, openSim F.1 F.2.1 F.2.2 = some L ∧ plotExtr mx L = some (some ((Spec.shown T mx steps).map fun x => (List.range o.numCams).flatMap (Spec.extrPts T ce x))) := by
  refine ⟨_, opened R hc hF, ?_⟩
  cases hs : steps with
  | nil => exact absurd hs R.some
  | cons x0 r =>
    unfold plotExtr
    rw [run_num (prog_W (R.prog x0 (by rw [hs]; simp))).opts, Option.bind_some, if_neg (by omega), run_first, Option.bind_some]
    have ht := run_times R
    rw [hs] at ht hz
    refine sweep_all (lineE T) (lineC T) (lineG T ci ce) (fun x => Spec.pr 5 (x.1.ts + T.dt)) _ (x0 :: r) ht fun x hx => ?_
    have hx' : x ∈ steps := by rw [hs]; exact (List.takeWhile_sublist _).subset hx
    have ho := (prog_W (R.prog x hx')).opts
    have key := fun i (hi : i < o.numCams) => extr_pts (T := T) x ci ce (by rw [ho]; exact R.num) (by rw [ho]; exact hd) (i := i) (by rw [← R.num]; exact hi)
    refine ⟨(key 0 hn).1.trans (by rw [decide_eq_false (hz x hx)]), ?_⟩
    unfold lineE lineC lineG
    rw [mapM_cams o.numCams _ (Spec.extrPts T ce x) fun i hi => (key i hi).2]
    rfl

/-- **C120** What is shown for the inertial unit. -/
theorem C120_imu (R : Spec.Run lib o T ci ce steps) {calls : List (State × (ℝ → Option Sim.Truth))} (hc : Spec.Calls T calls steps) {F : List Row × List Row × List Row} (hF : saveAll T calls = some F) (mx : ℝ)
    (hn : 0 < o.numCams) (hd : o.calibImu = true) (hz : ∀ x ∈ Spec.shown T mx steps, Spec.pr 8 (Spec.sigma x.1 (1, .self) 0) ≠ 0) :
    ∃ L, openSim F.1 F.2.1 F.2.2 = some L ∧ plotImu mx L = some (some ((Spec.shown T mx steps).map (Spec.imuPts T))) := by
  refine ⟨_, opened R hc hF, ?_⟩
  cases hs : steps with
  | nil => exact absurd hs R.some
  | cons x0 r =>
    unfold plotImu
    have h0 := (prog_W (R.prog x0 (by rw [hs]; simp))).opts
    rw [run_num h0, Option.bind_some, if_neg (by omega), show 1 + 16 + 1 + 1 + 15 * o.numCams = 19 + 15 * o.numCams by omega, run_model h0, Option.bind_some]
    simp only
    rw [run_first, Option.bind_some]
    have ht := run_times R
    rw [hs] at ht hz
    refine sweep_all (lineE T) (lineC T) (lineG T ci ce) (fun x => Spec.pr 5 (x.1.ts + T.dt)) _ (x0 :: r) ht fun x hx => ?_
    have hx' : x ∈ steps := by rw [hs]; exact (List.takeWhile_sublist _).subset hx
    have ho := (prog_W (R.prog x hx')).opts
    have key := imu_pts (T := T) x ci ce (by rw [ho]; exact R.num) (by rw [ho]; exact hd) (n := o.numCams) R.num (by rw [ho])
    have hz' := hz x hx
    refine ⟨?_, ?_⟩
    · rw [show 1 + 15 + 1 + 1 + 14 * o.numCams + 1 = 19 + 14 * o.numCams by omega]
      exact key.1.trans (by rw [decide_eq_false hz'])
    · have e := key.2
      rw [show 20 + 15 * o.numCams = 19 + 15 * o.numCams + 1 by omega, show 19 + 14 * o.numCams = 1 + 15 + 1 + 1 + 14 * o.numCams + 1 by omega, show 26 + 15 * o.numCams = 19 + 15 * o.numCams + 1 + 6 by omega,
        show 25 + 14 * o.numCams = 1 + 15 + 1 + 1 + 14 * o.numCams + 1 + 6 by omega, show 32 + 15 * o.numCams = 19 + 15 * o.numCams + 1 + 6 + 6 by omega, show 31 + 14 * o.numCams = 1 + 15 + 1 + 1 + 14 * o.numCams + 1 + 6 + 6 by omega,
        show 41 + 15 * o.numCams = 19 + 15 * o.numCams + 1 + 6 + 6 + 9 by omega, show 40 + 14 * o.numCams = 1 + 15 + 1 + 1 + 14 * o.numCams + 1 + 6 + 6 + 9 by omega,
        show 45 + 15 * o.numCams = 19 + 15 * o.numCams + 1 + 6 + 6 + 9 + 4 by omega, show 43 + 14 * o.numCams = 1 + 15 + 1 + 1 + 14 * o.numCams + 1 + 6 + 6 + 9 + 3 by omega] at e
      exact e

end Runs

/-- **C120** Saving succeeds exactly if inertial calibration is off or the rotation of the sensor is not the last variable of the state; then one line is added to each file. -/
theorem C120_saved_iff (h : St.Spec.Prog lib o s) (hn : o.numCams = T.numCams) (hc : ∀ i, i < T.numCams → (T.intr i).isSome ∧ (T.extr i).isSome) {get : ℝ → Option Sim.Truth} {g : Sim.Truth} (hg : get (s.ts + T.dt) = some g) :
    (∃ e c r, save s T get = some (e, c, some r)) ↔ (o.calibImu = true → (s.obj (if o.kalibr then 4 else 5)).id + 3 < s.n) := by
  have ho := (prog_W h).opts
  have hci : ∀ i, i < T.numCams → T.intr i = some ((T.intr i).getD fun _ => 0) ∧ T.extr i = some ((T.extr i).getD (idQuat, 0)) := by
    intro i hi
    obtain ⟨h1, h2⟩ := hc i hi
    obtain ⟨a, ha⟩ := Option.isSome_iff_exists.1 h1
    obtain ⟨b, hb⟩ := Option.isSome_iff_exists.1 h2
    rw [ha, hb]; exact ⟨rfl, rfl⟩
  unfold save
  simp only [hg]
  rw [ho, gtRow_segs hn hci, estRow_segs h]
  simp only [Option.map_some, Option.bind_some]
  constructor
  · rintro ⟨e, c, r, he⟩ hb
    by_contra hr
    rw [stdRow_none h hb hr] at he
    cases he
  · intro hr
    rw [stdRow_segs h hr]
    exact ⟨_, _, _, rfl⟩

/-- **C120** Once there is a clone of the pose, saving succeeds. -/
theorem C120_clone_saved (h : St.Spec.Prog lib o s) (hcl : s.clones ≠ []) (hn : o.numCams = T.numCams) (hc : ∀ i, i < T.numCams → (T.intr i).isSome ∧ (T.extr i).isSome) {get : ℝ → Option Sim.Truth} {g : Sim.Truth}
    (hg : get (s.ts + T.dt) = some g) : ∃ e c r, save s T get = some (e, c, some r) := by
  refine (C120_saved_iff h hn hc hg).2 fun hb => ?_
  obtain ⟨c, hc⟩ := List.exists_mem_of_ne_nil _ hcl
  have W := prog_W h
  obtain ⟨cv, _, cb, c6⟩ := W.cin c hc
  obtain ⟨rest, hr⟩ := W.pre
  have hI := (reach_inv (St.Spec.Prog.reach h)).contig
  rw [hr, Contig.append] at hI
  obtain ⟨m, h1, h2⟩ := hI
  have hu := (mem_imu hb).2.2.2
  have hrot := h1.mem hu
  have hcr : c.2 ∈ rest := by
    rw [hr] at cv
    rcases List.mem_append.1 cv with hx | hx
    · exfalso
      have : c.2 < base o := by
        simp only [ctorVars, List.mem_append, List.mem_flatMap, List.mem_range] at hx
        unfold base intrUid at *
        rcases hx with ((hx | hx) | hx) | ⟨i, hi, hx⟩
        · simp at hx; omega
        · split_ifs at hx <;> simp at hx <;> omega
        · split_ifs at hx <;> simp at hx; omega
        · rcases hx with hx | hx <;> split_ifs at hx <;> simp at hx <;> omega
      omega
    · exact hx
  have hcm := h2.mem hcr
  have h3 : osz s.obj (rotUid o) = 3 := by
    have hv : (s.obj (rotUid o)).val = .quat (Spec.quat s (rotUid o)) := by
      refine quat_val (q := idQuat) h (by unfold rotUid base; split_ifs <;> omega) ?_
      unfold rotUid; split_ifs <;> rfl
    unfold osz; rw [hv]; rfl
  show (s.obj (rotUid o)).id + 3 < s.n
  omega

/-- **C120, disagreement with the claim that a state can always be saved.** Four standard deviations are written for the three of a sensor's rotation. If of the calibrations only that of the inertial unit is on, then after the start of the filter and before
the first clone the fourth is outside of the covariance: the access is out of range. -/
theorem C120_save_out_of_range (h : St.Spec.Prog lib o s) (hv : s.vars = ctorVars o) (hi : o.calibImu = true) (hd : o.calibDt = false) (hp : o.calibPose = false) (hk : o.calibIntr = false) (get : ℝ → Option Sim.Truth) : save s T get = none := by
  have hl : ∃ l, ctorVars o = l ++ [rotUid o] := by
    have hf : ∀ l : List ℕ, l.flatMap (fun i => (if o.calibPose then [7 + 2 * i] else []) ++ (if o.calibIntr then [intrUid i] else [])) = [] := by
      intro l; induction l with
      | nil => rfl
      | cons a t ih => simp [hp, hk]
    unfold ctorVars
    rw [hf, hi, hd]
    refine ⟨[0] ++ ([1, 2] ++ if o.calibG then [3] else []), ?_⟩
    simp [rotUid]
  obtain ⟨l, hl⟩ := hl
  have hI := (reach_inv (St.Spec.Prog.reach h)).contig
  rw [hv, hl, Contig.append] at hI
  obtain ⟨m, _, h1, h2⟩ := hI
  have h3 : osz s.obj (rotUid o) = 3 := by
    have hv : (s.obj (rotUid o)).val = .quat (Spec.quat s (rotUid o)) := by
      refine quat_val (q := idQuat) h (by unfold rotUid base; split_ifs <;> omega) ?_
      unfold rotUid; split_ifs <;> rfl
    unfold osz; rw [hv]; rfl
  have h2' : m + 3 = s.n := by rw [← h3]; exact h2
  unfold save
  simp only [stdRow_none h hi (by omega), Option.map_none]
  simp

/-- such a state: the constructed one, for either model of the inertial unit -/
example (kalibr calibG : Bool) (get : ℝ → Option Sim.Truth) : save (ctor ⟨true, calibG, kalibr, false, false, false, 2, 11, 0⟩) T get = none :=
  C120_save_out_of_range (lib := ⟨fun _ _ _ _ => 0, fun _ _ _ _ => 0, fun _ _ _ _ => 0, fun _ => 0⟩) ⟨[], by simp, rfl⟩ (by
    obtain ⟨r, hr⟩ := (ctor_W ⟨true, calibG, kalibr, false, false, false, 2, 11, 0⟩).pre
    cases calibG <;> cases kalibr <;> rfl) rfl rfl rfl rfl get

/-- **C120** If at some time the simulator has no true state, the estimate and its deviations are saved but no truth; the files of that run, of whatever length, do not open. -/
theorem C120_missing_truth (calls : List (State × (ℝ → Option Sim.Truth))) {F : List Row × List Row × List Row} (hF : saveAll T calls = some F) : (∃ c ∈ calls, c.2 (c.1.ts + T.dt) = none) → openSim F.1 F.2.1 F.2.2 = none := by
  have key : ∀ (calls : List (State × (ℝ → Option Sim.Truth))) {F : List Row × List Row × List Row}, saveAll T calls = some F → F.1.length = calls.length ∧ F.2.2.length ≤ calls.length ∧ ((∃ c ∈ calls, c.2 (c.1.ts + T.dt) = none) → F.2.2.length < calls.length) := by
    intro calls
    induction calls with
    | nil => intro F h; simp only [saveAll, Option.some.injEq] at h; subst h; simp
    | cons x r ih =>
      intro F h
      simp only [saveAll] at h
      rw [Option.bind_eq_some_iff] at h
      obtain ⟨l, hl, h⟩ := h
      rw [Option.map_eq_some_iff] at h
      obtain ⟨F', hF', rfl⟩ := h
      obtain ⟨h1, h2, h3⟩ := ih hF'
      have hle : l.2.2.toList.length ≤ 1 := by cases l.2.2 <;> simp
      refine ⟨by simp [h1], by simp only [List.length_append, List.length_cons]; omega, ?_⟩
      rintro ⟨c, hc, hn⟩
      rcases List.mem_cons.1 hc with rfl | hc
      · have : l.2.2 = none := by
          unfold save at hl
          simp only [hn, Option.bind_some] at hl
          rw [Option.bind_eq_some_iff] at hl
          obtain ⟨e, _, hl⟩ := hl
          rw [Option.map_eq_some_iff] at hl
          obtain ⟨c', _, rfl⟩ := hl
          rfl
        simp [this]; omega
      · have := h3 ⟨c, hc, hn⟩
        simp only [List.length_append, List.length_cons]; omega
  intro hex
  obtain ⟨h1, _, h3⟩ := key calls hF
  have h3 := h3 hex
  have hload : ∀ {r r' : List Row}, loadSim r = some r' → r' = r := by
    intro r r' h
    unfold loadSim at h
    split at h
    · cases h
    · split_ifs at h
      exact (Option.some.inj h).symm
  unfold openSim
  cases he : loadSim F.1 with
  | none => rfl
  | some e =>
    cases hc : loadSim F.2.1 with
    | none => rfl
    | some c =>
      cases hg : loadSim F.2.2 with
      | none => rfl
      | some g =>
        simp only [Option.bind_some]
        rw [if_neg]
        rintro ⟨_, hl, _⟩
        rw [hload he, hload hg] at hl
        omega

/-- **C120** Numbers are written to within half of the last digit. -/
theorem C120_rounding (k : ℕ) (x : ℝ) : |Spec.pr k x - x| ≤ 1 / (2 * 10 ^ k) := by
  have hk : (0 : ℝ) < 10 ^ k := by positivity
  unfold Spec.pr
  have h := abs_sub_round (x * 10 ^ k)
  rw [abs_sub_comm] at h
  rw [show (round (x * 10 ^ k) : ℝ) / 10 ^ k - x = ((round (x * 10 ^ k) : ℝ) - x * 10 ^ k) / 10 ^ k by field_simp, abs_div, abs_of_pos hk, div_le_div_iff₀ hk (by positivity)]
  nlinarith

/-- a deviation below half of the last digit is written as zero -/
theorem pr_small {k : ℕ} {x : ℝ} (h0 : 0 ≤ x) (h : x < 1 / (2 * 10 ^ k)) : Spec.pr k x = 0 := by
  have hk : (0 : ℝ) < 10 ^ k := by positivity
  unfold Spec.pr
  have : round (x * 10 ^ k) = 0 := by
    rw [round_eq, Int.floor_eq_zero_iff]
    rw [lt_div_iff₀ (by positivity)] at h
    refine ⟨by positivity, ?_⟩
    linarith
  rw [this]; simp

theorem sigma_nonneg (s : State) (r : Ref) (j : ℕ) : 0 ≤ Spec.sigma s r j := by
  unfold Spec.sigma
  split
  · exact Real.sqrt_nonneg _
  · exact le_refl 0

/-- **C120, disagreement with the claim that the error of what is estimated is shown.** If at one of the times that would be shown the deviation of the time offset is below half a microsecond, its plot is empty: the deviation was written as zero, which is taken
to mean that the offset is not estimated. -/
theorem C120_small_deviation {ci : ℕ → ℕ → ℝ} {ce : ℕ → Quat × V3} {steps : List Spec.Step} (R : Spec.Run lib o T ci ce steps) {calls : List (State × (ℝ → Option Sim.Truth))} (hc : Spec.Calls T calls steps) {F : List Row × List Row × List Row}
    (hF : saveAll T calls = some F) (mx : ℝ) (hd : o.calibDt = true) (hz : ∃ x ∈ Spec.shown T mx steps, Spec.sigma x.1 (dtUid, .self) 0 < 1 / 2 * 1e-6) :
    ∃ L, openSim F.1 F.2.1 F.2.2 = some L ∧ plotTimeoff mx L = some none := by
  refine ⟨_, opened R hc hF, ?_⟩
  cases hs : steps with
  | nil => exact absurd hs R.some
  | cons x0 r =>
    unfold plotTimeoff
    rw [run_first, Option.bind_some]
    have ht := run_times R
    rw [hs] at ht hz
    have key := fun x (hx : x ∈ x0 :: r) => off_pts (T := T) x ci ce (by rw [(prog_W (R.prog x (by rw [hs]; exact hx))).opts]; exact hd)
    refine sweep_off (lineE T) (lineC T) (lineG T ci ce) (fun x => Spec.pr 5 (x.1.ts + T.dt)) (x0 :: r) ht (fun x hx => ?_) ?_
    · obtain ⟨h1, h2⟩ := key x hx
      exact ⟨Option.isSome_iff_exists.2 ⟨_, h1⟩, fun _ => Option.isSome_iff_exists.2 ⟨_, h2⟩⟩
    · obtain ⟨x, hx, hlt⟩ := hz
      refine ⟨x, hx, ?_⟩
      have hx' := (List.takeWhile_sublist _).subset hx
      refine (key x hx').1.trans ?_
      rw [decide_eq_true]
      refine pr_small (sigma_nonneg _ _ _) (hlt.trans_le ?_)
      norm_num

/-- **C120** The error shown for a rotation is the correction that takes the estimate to the truth in the filter's own sense (`R = exp(-θ) R'`), in degrees. -/
theorem C120_turn (q q' : Quat) (hq : IsUnitQ q) (hq' : IsUnitQ q') (h : quat2Rot q * (quat2Rot q').transpose = 1 ∨ 1e-10 ≤ tr3 (quat2Rot q * (quat2Rot q').transpose) + 1 ∧ tr3 (quat2Rot q * (quat2Rot q').transpose) - 3 < -1e-7) :
    expSO3 (-((Real.pi / 180) • Spec.turn q q')) * quat2Rot q' = quat2Rot q := by
  have e : -((Real.pi / 180) • Spec.turn q q') = logSO3 (quat2Rot q * (quat2Rot q').transpose) := by
    unfold Spec.turn
    rw [smul_smul, ← neg_smul, show -(Real.pi / 180 * (-180 / Real.pi)) = 1 by field_simp [Real.pi_ne_zero], one_smul]
  rw [e, (QuatProps.C25_exp_log _ ((quat2Rot_isRot hq).mul (quat2Rot_isRot hq').transpose) h).1, Matrix.mul_assoc, (quat2Rot_isRot hq').orth, Matrix.mul_one]

/-! ## A run -/

/-- options with everything calibrated, two cameras -/
def exO : Opts := ⟨true, true, true, true, true, true, 2, 11, 0⟩

/-- a simulator -/
noncomputable def exT : TruePar := ⟨1 / 100, 2, fun _ => some fun j => j, fun _ => some (idQuat, 0), true, fun _ => 1, fun _ => 1, fun _ => 0, idQuat, idQuat⟩

noncomputable def exG : Sim.Truth := ⟨-1 + 1 / 100, idQuat, 0, 0, 0, 0⟩

theorem exRun : Spec.Run ⟨fun _ _ _ _ => 0, fun _ _ _ _ => 0, fun _ _ _ _ => 0, fun _ => 0⟩ exO exT (fun _ j => j) (fun _ => (idQuat, 0)) [(ctor exO, exG)] :=
  ⟨by simp, fun x hx => by simp only [List.mem_singleton] at hx; subst hx; exact ⟨[], by simp, rfl⟩, fun x hx => by simp only [List.mem_singleton] at hx; subst hx; rfl, rfl, fun i hi => ⟨rfl, rfl⟩⟩

theorem exCalls : Spec.Calls exT [(ctor exO, fun _ => some exG)] [(ctor exO, exG)] := List.Forall₂.cons ⟨rfl, rfl⟩ List.Forall₂.nil

theorem exId : ((ctor exO).obj 0).id = 0 ∧ ((ctor exO).obj 1).id = 15 ∧ ((ctor exO).obj 4).id = 36 ∧ ((ctor exO).obj 6).id = 39 ∧ ((ctor exO).obj 7).id = 40 ∧ ((ctor exO).obj 8).id = 46 ∧ (ctor exO).n = 68 := by
  refine ⟨?_, ?_, ?_, ?_, ?_, ?_, ?_⟩ <;> rfl

theorem exSaved : ∃ F, saveAll exT [(ctor exO, fun _ => some exG)] = some F := by
  obtain ⟨e, c, r, h⟩ := (C120_saved_iff (s := ctor exO) (T := exT) (get := fun _ => some exG) (exRun.prog (ctor exO, exG) (by simp)) rfl (fun i hi => ⟨rfl, rfl⟩) rfl).2 (fun _ => by
    obtain ⟨_, _, h, _, _, _, h'⟩ := exId
    show ((ctor exO).obj 4).id + 3 < ((ctor exO).n : ℤ)
    rw [h, h']; norm_num)
  exact ⟨([e], [c], (some r).toList ++ []), by simp only [saveAll, h, Option.bind_some, Option.map_some]⟩

theorem exShown : Spec.shown exT 10 [(ctor exO, exG)] = [(ctor exO, exG)] := by simp [Spec.shown, List.takeWhile]

theorem exP : (ctor exO).P 39 39 = 0.01 ^ 2 ∧ (ctor exO).P 46 46 = 1 ^ 2 ∧ (ctor exO).P 40 40 = 0.005 ^ 2 ∧ (ctor exO).P 15 15 = 0.005 ^ 2 := by
  have e : (ctor exO).P = priors exO (fun u => ((ctor exO).obj u).id.toNat) (fun i j => (1e-3) ^ 2 * Mat.one i j) := rfl
  have j1 : ((ctor exO).obj 1).id.toNat = 15 := rfl
  have j2 : ((ctor exO).obj 2).id.toNat = 21 := rfl
  have j3 : ((ctor exO).obj 3).id.toNat = 27 := rfl
  have j4 : ((ctor exO).obj 4).id.toNat = 36 := rfl
  have j6 : ((ctor exO).obj 6).id.toNat = 39 := rfl
  have j7 : ((ctor exO).obj 7).id.toNat = 40 := rfl
  have j8 : ((ctor exO).obj 8).id.toNat = 46 := rfl
  have j9 : ((ctor exO).obj 9).id.toNat = 54 := rfl
  have j10 : ((ctor exO).obj 10).id.toNat = 60 := rfl
  rw [e]
  simp only [priors, show exO.calibImu = true from rfl, show exO.calibG = true from rfl, show exO.kalibr = true from rfl, show exO.calibDt = true from rfl, show exO.calibPose = true from rfl, show exO.calibIntr = true from rfl,
    show exO.numCams = 2 from rfl, if_true, List.range_succ, List.range_zero, List.nil_append, List.cons_append, List.foldl_cons, List.foldl_nil, intrUid, j1, j2, j3, j4, j6, Nat.mul_zero, Nat.mul_one, Nat.add_zero, Nat.reduceAdd, Nat.reduceMul, j7, j8, j9, j10,
    diagBlock, Mat.setBlock, Mat.one]
  norm_num

theorem exSig : Spec.sigma (ctor exO) (dtUid, .self) 0 = 0.01 ∧ Spec.sigma (ctor exO) (intrUid 0, .self) 0 = 1 ∧ Spec.sigma (ctor exO) (7, .q) 0 = 0.005 ∧ Spec.sigma (ctor exO) (1, .self) 0 = 0.005 := by
  obtain ⟨i0, i1, i4, i6, i7, i8, hn⟩ := exId
  obtain ⟨p1, p2, p3, p4⟩ := exP
  refine ⟨?_, ?_, ?_, ?_⟩
  · rw [sigma_at (s := ctor exO) (r := (dtUid, .self)) (off := 0) (v := ((ctor exO).obj dtUid).val) rfl (by show 0 ≤ ((ctor exO).obj 6).id; rw [i6]; norm_num) (by show ((ctor exO).obj 6).id.toNat + 0 + 1 ≤ _; rw [i6, hn]; decide) (by show 0 < 1; omega)]
    show Real.sqrt ((ctor exO).P (((ctor exO).obj 6).id.toNat + 0 + 0) (((ctor exO).obj 6).id.toNat + 0 + 0)) = _
    rw [i6]
    show Real.sqrt ((ctor exO).P 39 39) = _
    rw [p1, Real.sqrt_sq (by norm_num)]
  · show Spec.sigma (ctor exO) (8, .self) 0 = 1
    rw [sigma_at (s := ctor exO) (r := (8, .self)) (off := 0) (v := ((ctor exO).obj 8).val) rfl (by show 0 ≤ ((ctor exO).obj 8).id; rw [i8]; norm_num) (by show ((ctor exO).obj 8).id.toNat + 0 + 8 ≤ _; rw [i8, hn]; decide) (by show 0 < 8; omega)]
    show Real.sqrt ((ctor exO).P (((ctor exO).obj 8).id.toNat + 0 + 0) (((ctor exO).obj 8).id.toNat + 0 + 0)) = _
    rw [i8]
    show Real.sqrt ((ctor exO).P 46 46) = _
    rw [p2, Real.sqrt_sq (by norm_num)]
  · rw [sigma_at (s := ctor exO) (r := (7, .q)) (off := 0) (v := .quat idQuat) rfl (by show 0 ≤ ((ctor exO).obj 7).id; rw [i7]; norm_num) (by show ((ctor exO).obj 7).id.toNat + 0 + 3 ≤ _; rw [i7, hn]; decide) (by show 0 < 3; omega)]
    show Real.sqrt ((ctor exO).P (((ctor exO).obj 7).id.toNat + 0 + 0) (((ctor exO).obj 7).id.toNat + 0 + 0)) = _
    rw [i7]
    show Real.sqrt ((ctor exO).P 40 40) = _
    rw [p3, Real.sqrt_sq (by norm_num)]
  · rw [sigma_at (s := ctor exO) (r := (1, .self)) (off := 0) (v := ((ctor exO).obj 1).val) rfl (by show 0 ≤ ((ctor exO).obj 1).id; rw [i1]; norm_num) (by show ((ctor exO).obj 1).id.toNat + 0 + 6 ≤ _; rw [i1, hn]; decide) (by show 0 < 6; omega)]
    show Real.sqrt ((ctor exO).P (((ctor exO).obj 1).id.toNat + 0 + 0) (((ctor exO).obj 1).id.toNat + 0 + 0)) = _
    rw [i1]
    show Real.sqrt ((ctor exO).P 15 15) = _
    rw [p4, Real.sqrt_sq (by norm_num)]

theorem pr_ne {k : ℕ} {x : ℝ} (h : 1 / (2 * 10 ^ k) < x) : Spec.pr k x ≠ 0 := by
  intro h0
  have := C120_rounding k x
  rw [h0, zero_sub, abs_neg, abs_of_pos (lt_trans (by positivity) h)] at this
  linarith

/-- the hypotheses of all the theorems on what is shown hold together for this run -/
example : ∃ F, saveAll exT [(ctor exO, fun _ => some exG)] = some F ∧ (∃ L, openSim F.1 F.2.1 F.2.2 = some L ∧ plotState 10 L = some (some [Spec.statePts exT (ctor exO, exG)])) ∧
    (∃ L, openSim F.1 F.2.1 F.2.2 = some L ∧ plotTimeoff 10 L = some (some [Spec.offPts exT (ctor exO, exG)])) ∧
    (∃ L, openSim F.1 F.2.1 F.2.2 = some L ∧ plotIntr 10 L = some (some [(List.range 2).flatMap (Spec.intrPts exT (fun _ j => j) (ctor exO, exG))])) ∧
    (∃ L, openSim F.1 F.2.1 F.2.2 = some L ∧ plotExtr 10 L = some (some [(List.range 2).flatMap (Spec.extrPts exT (fun _ => (idQuat, 0)) (ctor exO, exG))])) ∧
    (∃ L, openSim F.1 F.2.1 F.2.2 = some L ∧ plotImu 10 L = some (some [Spec.imuPts exT (ctor exO, exG)])) := by
  obtain ⟨F, hF⟩ := exSaved
  obtain ⟨s1, s2, s3, s4⟩ := exSig
  have h1 := C120_state exRun exCalls hF 10
  have h2 := C120_time_offset exRun exCalls hF 10 rfl (by rw [exShown]; intro x hx; simp only [List.mem_singleton] at hx; subst hx; rw [s1]; exact pr_ne (by norm_num))
  have h3 := C120_intrinsics exRun exCalls hF 10 (by decide) rfl (by rw [exShown]; intro x hx; simp only [List.mem_singleton] at hx; subst hx; rw [s2]; exact pr_ne (by norm_num))
  have h4 := C120_extrinsics exRun exCalls hF 10 (by decide) rfl (by rw [exShown]; intro x hx; simp only [List.mem_singleton] at hx; subst hx; rw [s3]; exact pr_ne (by norm_num))
  have h5 := C120_imu exRun exCalls hF 10 (by decide) rfl (by rw [exShown]; intro x hx; simp only [List.mem_singleton] at hx; subst hx; rw [s4]; exact pr_ne (by norm_num))
  rw [exShown] at h1 h2 h3 h4 h5
  exact ⟨F, hF, h1, h2, h3, h4, h5⟩

end Verif.Eval
