import Verif.Types.Model
import Verif.Base.Givens

/-!
# Model of the filter state and of StateHelper

`ov_msckf/src/state/State.{h,cpp}` and `ov_msckf/src/state/StateHelper.cpp`.

* Objects behind `shared_ptr<Type>` live in a heap `obj : ℕ → Obj`, indexed by a unique id ("uid"). A handle to a
  sub-variable is `(uid of the top-level variable, part)`; its local id is the parent's id plus the part's offset
  (this is what `set_local_id` maintains, theorem `C71_local_ids`).
* A negative or out-of-range block access (an Eigen assertion / undefined behaviour), `std::exit`, a failing `assert` and
  `.at()` on a missing key all give `none`.
* Matrices are functions `ℕ → ℕ → ℝ` with separately stored dimensions; arithmetic is exact.
* Eigen's `llt`, `inverse` and Boost's chi-squared quantile are the parameter `Lib`.
* Mutexes are not modelled (all calls are sequential here).
-/

open Classical

namespace Verif.St

open Verif Verif.Types Finset

/-- `Eigen::MatrixXd` argument with its dimensions. -/
structure DMat where
  rows : ℕ
  cols : ℕ
  a : Mat

/-- `Eigen::VectorXd` argument with its dimension. -/
structure DVec where
  rows : ℕ
  a : Vect

/-- Library numerics: `S.llt().solveInPlace(I)` (StateHelper.cpp:163), `S.llt().solve(b)` (462), `H.inverse()` (549) and
`boost::math::quantile(chi_squared(k), 0.95)` (465-466). -/
structure Lib where
  lltInv : ℕ → Mat → Mat
  lltSolve : ℕ → Mat → Vect → Vect
  inv : ℕ → Mat → Mat
  chi2 : ℕ → ℝ

/-- The part of `StateOptions` (StateOptions.h:36-111) that the modelled functions read. -/
structure Opts where
  calibImu : Bool
  calibG : Bool
  kalibr : Bool
  calibDt : Bool
  calibPose : Bool
  calibIntr : Bool
  numCams : ℕ
  maxClones : ℕ
  maxAruco : ℕ

/-- A state variable (`ov_type::Type`, Type.h:33-141) with its `id`, estimate, first estimate; `marg` is
`Landmark::should_marg` (Landmark.h:57) and `lm` records that the object is a `Landmark`. -/
structure Obj where
  id : ℤ
  val : Val
  fej : Val
  marg : Bool
  lm : Bool

/-- `ov_msckf::State` (State.h:49-193). `vars` is `_variables`, `n`/`P` is `_Cov`, `clones` is the ordered map
`_clones_IMU`, `slam` is `_features_SLAM` (in iteration order), `cam` are the values held by the camera objects
`_cam_intrinsics_cameras`. `next` is the first unused uid. -/
structure State where
  opts : Opts
  n : ℕ
  P : Mat
  obj : ℕ → Obj
  next : ℕ
  vars : List ℕ
  ts : ℝ
  clones : List (ℝ × ℕ)
  slam : List (ℕ × ℕ)
  cam : ℕ → Val

/-- Handle to a (sub-)variable. -/
abbrev Ref := ℕ × Sub

/-- `var->id()` and `var->size()` of a handle, provided the block is inside the covariance. -/
def resolve (s : State) (r : Ref) : Option (ℕ × ℕ) :=
  match (s.obj r.1).val.part r.2 with
  | none => none
  | some (off, v) =>
    if 0 ≤ (s.obj r.1).id ∧ (s.obj r.1).id.toNat + off + v.size ≤ s.n then
      some ((s.obj r.1).id.toNat + off, v.size)
    else none

/-- `id()`/`size()` of a list of handles. -/
def resolveAll (s : State) : List Ref → Option (List (ℕ × ℕ))
  | [] => some []
  | r :: t => do
    let b ← resolve s r
    let bs ← resolveAll s t
    return b :: bs

/-- total size of a list of blocks. -/
def tot : List (ℕ × ℕ) → ℕ
  | [] => 0
  | b :: t => b.2 + tot t

/-- The recurring loop `for i: acc += (something at block id_i) * (something at running offset)`, with the running offset
`Phi_id`/`H_id` (StateHelper.cpp:69-74, 128-133): `Σ_i Σ_{k<size_i} f (id_i + k) (off_i + k)`. -/
noncomputable def sumB : List (ℕ × ℕ) → ℕ → (ℕ → ℕ → ℝ) → ℝ
  | [], _, _ => 0
  | (id, sz) :: t, off, f => (∑ k ∈ range sz, f (id + k) (off + k)) + sumB t (off + sz) f

/-! ## Queries -/

/-- Inner loop over `k` of `get_marginal_covariance` (StateHelper.cpp:243-248). -/
def margRow (P : Mat) (b : ℕ × ℕ) (iIdx : ℕ) : List (ℕ × ℕ) → ℕ → Mat → Mat
  | [], _, M => M
  | c :: t, kIdx, M => margRow P b iIdx t (kIdx + c.2) (Mat.setBlock iIdx kIdx b.2 c.2 (Mat.block b.1 c.1 P) M)

/-- Outer loop over `i` of `get_marginal_covariance` (StateHelper.cpp:241-250). -/
def margLoop (P : Mat) (all : List (ℕ × ℕ)) : List (ℕ × ℕ) → ℕ → Mat → Mat
  | [], _, M => M
  | b :: t, iIdx, M => margLoop P all t (iIdx + b.2) (margRow P b iIdx all 0 M)

/-- The copied matrix of `get_marginal_covariance`, StateHelper.cpp:229-253. -/
def margCov (P : Mat) (L : List (ℕ × ℕ)) : Mat := margLoop P L L 0 (fun _ _ => 0)

/-- `StateHelper::get_marginal_covariance`, StateHelper.cpp:226-254. -/
def getMarginal (s : State) (order : List Ref) : Option DMat := do
  let L ← resolveAll s order
  return ⟨tot L, tot L, margCov s.P L⟩

/-- `StateHelper::get_full_covariance`, StateHelper.cpp:256-269. -/
def getFull (s : State) : DMat := ⟨s.n, s.n, Mat.setBlock 0 0 s.n s.n s.P (fun _ _ => 0)⟩

/-! ## EKFPropagation -/

/-- The contiguity loop over `order_NEW`, StateHelper.cpp:47-57. -/
def contiguous : List (ℕ × ℕ) → Bool
  | [] => true
  | [_] => true
  | a :: b :: t => (a.1 + a.2 == b.1) && contiguous (b :: t)

/-- The new covariance of `EKFPropagation`, StateHelper.cpp:76-100. -/
noncomputable def propCov (n : ℕ) (P : Mat) (start rows : ℕ) (L : List (ℕ × ℕ)) (Phi Q : Mat) : Mat :=
  let covPhiT : Mat := fun a r => sumB L 0 fun g k => P a g * Phi r k
  let phiCovPhiT : Mat := fun r c => Mat.mirrorU Q r c + sumB L 0 fun g k => Phi r k * covPhiT g c
  Mat.setBlock start start rows rows phiCovPhiT
    (Mat.setBlock 0 start n rows covPhiT (Mat.setBlock start 0 rows n (Mat.tr covPhiT) P))

/-- The `found_neg` loop, StateHelper.cpp:103-113 and 173-184. -/
def hasNegDiag (n : ℕ) (P : Mat) : Prop := ∃ i, i < n ∧ P i i < 0

/-- `StateHelper::EKFPropagation`, StateHelper.cpp:36-114. -/
noncomputable def propagate (s : State) (new old : List Ref) (Phi Q : DMat) : Option State := do
  let N ← resolveAll s new
  let O ← resolveAll s old
  match N with
  | [] => none
  | b :: _ =>
    if O = [] then none
    else if contiguous N = false then none
    else if ¬ (tot N = Phi.rows ∧ tot O = Phi.cols ∧ tot N = Q.cols ∧ tot N = Q.rows) then none
    else
      let P' := propCov s.n s.P b.1 Phi.rows O Phi.a Q.a
      if hasNegDiag s.n P' then none else some { s with P := P' }

/-! ## EKFUpdate -/

/-- The loop over `_variables` filling `M_a`, StateHelper.cpp:138-147 and 525-534. -/
noncomputable def fillMa (s : State) (L : List (ℕ × ℕ)) (m : ℕ) (H : Mat) : List ℕ → Mat → Option Mat
  | [], M => some M
  | u :: t, M => do
    let b ← resolve s (u, .self)
    let Mi : Mat := fun a r => sumB L 0 fun g k => s.P (b.1 + a) g * H r k
    fillMa s L m H t (Mat.setBlock b.1 0 b.2 m Mi M)

/-- The upper triangle of `H P_small Hᵀ + R`, mirrored (StateHelper.cpp:152-159 with the `selfadjointView` of 163;
StateHelper.cpp:541-543 with 550). `k` is the number of columns of `H`. -/
noncomputable def resCov (k : ℕ) (H Psmall R : Mat) : Mat :=
  Mat.mirrorU fun i j => Mat.mul k (Mat.mul k H Psmall) (Mat.tr H) i j + R i j

/-- `K = M_a * Sinv.selfadjointView<Upper>()`, StateHelper.cpp:162-164. -/
noncomputable def gain (lib : Lib) (m : ℕ) (Ma S : Mat) : Mat := Mat.mul m Ma (Mat.mirrorU (lib.lltInv m S))

/-- The covariance write of `EKFUpdate`, StateHelper.cpp:168-169: subtract in the upper triangle, then mirror. -/
noncomputable def updCov (m : ℕ) (P K Ma : Mat) : Mat :=
  Mat.mirrorU fun i j => if i ≤ j then P i j - Mat.mul m K (Mat.tr Ma) i j else P i j

/-- One `variable->update(dx.block(id,0,size,1))`, StateHelper.cpp:189. -/
noncomputable def applyDx (dx : Vect) (obj : ℕ → Obj) (u : ℕ) : ℕ → Obj := fun v =>
  if v = u then { obj u with val := (obj u).val.update fun i => dx ((obj u).id.toNat + i) } else obj v

/-- uid of the intrinsics variable of camera `i` (see `ctor`). -/
def intrUid (i : ℕ) : ℕ := 8 + 2 * i

/-- `_cam_intrinsics_cameras.at(i)->set_value(_cam_intrinsics.at(i)->value())`, StateHelper.cpp:194-198. -/
def syncCams (o : Opts) (obj : ℕ → Obj) (cam : ℕ → Val) : ℕ → Val := fun i =>
  if o.calibIntr = true ∧ i < o.numCams then (obj (intrUid i)).val else cam i

/-- `StateHelper::EKFUpdate`, StateHelper.cpp:116-197. -/
noncomputable def update (lib : Lib) (s : State) (order : List Ref) (H : DMat) (res : DVec) (R : DMat) :
    Option State := do
  let L ← resolveAll s order
  if ¬ (res.rows = R.rows ∧ H.rows = res.rows ∧ R.cols = R.rows ∧ H.cols = tot L) then none
  else
    let m := R.rows
    let Ma ← fillMa s L m H.a s.vars (fun _ _ => 0)
    let S := resCov H.cols H.a (margCov s.P L) R.a
    let K := gain lib m Ma S
    let P' := updCov m s.P K Ma
    if hasNegDiag s.n P' then none
    else
      let dx := Mat.mulVec m K res.a
      let obj' := s.vars.foldl (applyDx dx) s.obj
      some { s with P := P', obj := obj', cam := syncCams s.opts obj' s.cam }

/-! ## set_initial_covariance -/

/-- Inner loop of `set_initial_covariance`, StateHelper.cpp:215-219. -/
def setRow (C : Mat) (b : ℕ × ℕ) (iIdx : ℕ) : List (ℕ × ℕ) → ℕ → Mat → Mat
  | [], _, P => P
  | c :: t, kIdx, P => setRow C b iIdx t (kIdx + c.2) (Mat.setBlock b.1 c.1 b.2 c.2 (Mat.block iIdx kIdx C) P)

/-- Outer loop of `set_initial_covariance`, StateHelper.cpp:213-221. -/
def setLoop (C : Mat) (all : List (ℕ × ℕ)) : List (ℕ × ℕ) → ℕ → Mat → Mat
  | [], _, P => P
  | b :: t, iIdx, P => setLoop C all t (iIdx + b.2) (setRow C b iIdx all 0 P)

/-- `StateHelper::set_initial_covariance`, StateHelper.cpp:199-224. -/
def setInit (s : State) (C : DMat) (order : List Ref) : Option State := do
  let L ← resolveAll s order
  if ¬ (tot L ≤ C.rows ∧ tot L ≤ C.cols) then none
  else some { s with P := Mat.mirrorU (setLoop C.a L L 0 s.P) }

/-! ## marginalize -/

/-- The four block copies of `marginalize`, StateHelper.cpp:299-312 (`Cov_new` starts uninitialised; zero here). -/
def margPcov (n id sz : ℕ) (P : Mat) : Mat :=
  let x2 := n - id - sz
  let c1 : Mat := Mat.setBlock 0 0 id id (Mat.block 0 0 P) (fun _ _ => 0)
  let c2 := Mat.setBlock 0 id id x2 (Mat.block 0 (id + sz) P) c1
  let c3 := Mat.setBlock id 0 x2 id (Mat.tr (Mat.block 0 id c2)) c2
  Mat.setBlock id id x2 x2 (Mat.block (id + sz) (id + sz) P) c3

/-- Loop body over `_variables` moving the later ones forward, StateHelper.cpp:323-331. -/
def shiftId (u : ℕ) (mid : ℤ) (sz : ℕ) (obj : ℕ → Obj) (v : ℕ) : ℕ → Obj := fun w =>
  if w = v ∧ v ≠ u ∧ mid < (obj v).id then { obj v with id := (obj v).id - sz } else obj w

/-- `StateHelper::marginalize`, StateHelper.cpp:271-339. -/
def marginalize (s : State) (u : ℕ) : Option State :=
  if u ∈ s.vars then do
    let b ← resolve s (u, .self)
    let obj1 := s.vars.foldl (shiftId u b.1 b.2) s.obj
    let obj2 : ℕ → Obj := fun w => if w = u then { obj1 u with id := -1 } else obj1 w
    return { s with n := s.n - b.2, P := margPcov s.n b.1 b.2 s.P, obj := obj2, vars := s.vars.filter (· ≠ u) }
  else none

/-! ## clone -/

/-- The covariance of `clone`, StateHelper.cpp:349 (zero padding) and 369-371. -/
def cloneCov (n loc sz : ℕ) (P : Mat) : Mat :=
  let p0 : Mat := fun i j => if i < n ∧ j < n then P i j else 0
  let p1 := Mat.setBlock n n sz sz (Mat.block loc loc p0) p0
  let p2 := Mat.setBlock 0 n n sz (Mat.block 0 loc p1) p1
  Mat.setBlock n 0 sz n (Mat.block loc 0 p2) p2

/-- `StateHelper::clone`, StateHelper.cpp:341-391. The scan over `_variables` for a top-level or sub-variable match is
"the handle's top-level variable is in `_variables` and has that part". Returns the new uid. -/
def clone (s : State) (r : Ref) : Option (State × ℕ) :=
  if r.1 ∈ s.vars then do
    let b ← resolve s r
    let v ← (s.obj r.1).val.part r.2
    let f ← (s.obj r.1).fej.part r.2
    let o : Obj := ⟨s.n, v.2, f.2, false, false⟩
    return ({ s with n := s.n + b.2, P := cloneCov s.n b.1 b.2 s.P,
                     obj := fun w => if w = s.next then o else s.obj w,
                     next := s.next + 1, vars := s.vars ++ [s.next] }, s.next)
  else none

/-! ## initialize_invertible and initialize -/

/-- The noise check, StateHelper.cpp:405-420 and 497-512. -/
def isoNoise (k : ℕ) (R : Mat) : Prop := ∀ r c, r < k → c < k → (r = c → R 0 0 = R r c) ∧ (r ≠ c → R r c = 0)

/-- The augmented covariance, StateHelper.cpp:553-558. -/
noncomputable def initCov (n k : ℕ) (P Ma Hinv M : Mat) : Mat :=
  let p0 : Mat := fun i j => if i < n ∧ j < n then P i j else 0
  let p1 := Mat.setBlock 0 n n k (fun a c => -(Mat.mul k Ma (Mat.tr Hinv)) a c) p0
  let p2 := Mat.setBlock n 0 k n (Mat.tr (Mat.block 0 n p1)) p1
  Mat.setBlock n n k k (Mat.mul k (Mat.mul k Hinv M) (Mat.tr Hinv)) p2

/-- `StateHelper::initialize_invertible`, StateHelper.cpp:484-577. (`next ≤ u` is a pointer to no object.) -/
noncomputable def initInv (lib : Lib) (s : State) (u : ℕ) (order : List Ref) (HR HL R : DMat) (res : DVec) :
    Option State := do
  if u ∈ s.vars ∨ s.next ≤ u then none
  else if ¬ (R.rows = R.cols ∧ 0 < R.rows) then none
  else if ¬ isoNoise R.rows R.a then none
  else if ¬ (res.rows = R.rows ∧ HL.rows = res.rows ∧ HL.rows = HR.rows) then none
  else
    let L ← resolveAll s order
    let m := R.rows
    if HR.cols ≠ tot L then none
    else
      let Ma ← fillMa s L m HR.a s.vars (fun _ _ => 0)
      let M := resCov HR.cols HR.a (margCov s.P L) R.a
      let k := (s.obj u).val.size
      if ¬ (HL.rows = HL.cols ∧ HL.rows = k) then none
      else
        let Hinv := lib.inv k HL.a
        let P' := initCov s.n k s.P Ma Hinv M
        let dx := Mat.mulVec k Hinv res.a
        let o := s.obj u
        let o' : Obj := { o with val := o.val.update dx, id := s.n }
        some { s with n := s.n + k, P := P', obj := fun w => if w = u then o' else s.obj w, vars := s.vars ++ [u] }

/-- rows `r0 …` of a matrix (`block(r0, 0, rows, cols)`). -/
def rowsFrom (r0 rows : ℕ) (A : DMat) : DMat := ⟨rows, A.cols, Mat.block r0 0 A.a⟩

/-- `StateHelper::initialize`, StateHelper.cpp:393-482. Returns the state and the returned flag. -/
noncomputable def initDelayed (lib : Lib) (s : State) (u : ℕ) (order : List Ref) (HR HL R : DMat) (res : DVec)
    (mult : ℝ) : Option (State × Bool) := do
  if u ∈ s.vars ∨ s.next ≤ u then none
  else if ¬ (R.rows = R.cols ∧ 0 < R.rows) then none
  else if ¬ isoNoise R.rows R.a then none
  else
    let k := (s.obj u).val.size
    if ¬ (k = HL.cols ∧ HL.rows = HR.rows ∧ res.rows = HL.rows ∧ R.rows = HL.rows ∧ k ≤ HL.rows) then none
    else
      let G := Givens.run HL.rows HL.cols ⟨HL.a, HR.a, res.a⟩
      let up := HL.rows - k
      let HxInit : DMat := ⟨k, HR.cols, G.B⟩
      let HfInit : DMat := ⟨k, k, G.A⟩
      let resInit : DVec := ⟨k, G.v⟩
      let RInit : DMat := ⟨k, k, R.a⟩
      let Hup : DMat := ⟨up, HR.cols, Mat.block k 0 G.B⟩
      let resUp : DVec := ⟨up, fun i => G.v (k + i)⟩
      let Rup : DMat := ⟨up, up, Mat.block k k R.a⟩
      let L ← resolveAll s order
      if HR.cols ≠ tot L then none
      else
        let S : Mat := fun i j => Mat.mul Hup.cols (Mat.mul Hup.cols Hup.a (margCov s.P L)) (Mat.tr Hup.a) i j + Rup.a i j
        let chi2 := ∑ i ∈ range up, resUp.a i * lib.lltSolve up S resUp.a i
        if mult * lib.chi2 res.rows < chi2 then some (s, false)
        else
          let s1 ← initInv lib s u order HxInit HfInit RInit resInit
          if 0 < up then
            let s2 ← update lib s1 order Hup resUp Rup
            return (s2, true)
          else return (s1, true)

/-! ## augment_clone, marginalize_old_clone, marginalize_slam -/

/-- `_clones_IMU[t] = u` on the ordered map. -/
noncomputable def insertClone (t : ℝ) (u : ℕ) : List (ℝ × ℕ) → List (ℝ × ℕ)
  | [] => [(t, u)]
  | c :: l => if t < c.1 then (t, u) :: c :: l else if c.1 = t then (t, u) :: l else c :: insertClone t u l

/-- `dnc_dt`: last angular velocity and current velocity, StateHelper.cpp:606-608. -/
def dncDt (w v : V3) : Vect := fun i =>
  if h : i < 3 then w ⟨i, h⟩ else if h : i - 3 < 3 then v ⟨i - 3, h⟩ else 0

/-- The two `+=` of StateHelper.cpp:611-614; the second reads the already modified matrix. -/
def dtCov (n pose dt : ℕ) (d : Vect) (P : Mat) : Mat :=
  let p1 : Mat := fun i j => if i < n ∧ pose ≤ j ∧ j < pose + 6 then P i j + P i dt * d (j - pose) else P i j
  fun i j => if j < n ∧ pose ≤ i ∧ i < pose + 6 then p1 i j + d (i - pose) * p1 dt j else p1 i j

/-- uid of the IMU, of the time offset (see `ctor`). -/
def imuUid : ℕ := 0
def dtUid : ℕ := 6

/-- `StateHelper::augment_clone`, StateHelper.cpp:579-616. -/
noncomputable def augment (s : State) (w : V3) : Option State :=
  if (s.clones.find? fun c => decide (c.1 = s.ts)).isSome then none
  else do
    let (s1, u) ← clone s (imuUid, .pose)
    let s2 := { s1 with clones := insertClone s1.ts u s1.clones }
    if s2.opts.calibDt then
      match (s2.obj imuUid).val with
      | .imu x => do
        let b ← resolve s2 (u, .self)
        let d ← resolve s2 (dtUid, .self)
        -- Eigen's bounds assertions for the 6-wide and 1-wide blocks
        if ¬ (b.1 + 6 ≤ s2.n ∧ d.1 + 1 ≤ s2.n) then none
        else return { s2 with P := dtCov s2.n b.1 d.1 (dncDt w x.v) s2.P }
      | _ => none
    else return s2

/-- `State::margtimestep`, State.h:66-75; `none` is `INFINITY`. -/
noncomputable def margtimestep (s : State) : Option ℝ :=
  s.clones.foldl (fun acc c => match acc with
    | none => some c.1
    | some t => if c.1 < t then some c.1 else some t) none

/-- `StateHelper::marginalize(state, state->_clones_IMU.at(t)); state->_clones_IMU.erase(t)`,
StateHelper.cpp:624-627 and UpdaterZeroVelocity.cpp:322-323. -/
noncomputable def dropClone (s : State) (t : ℝ) : Option State := do
  let c ← s.clones.find? fun c => decide (c.1 = t)
  let s1 ← marginalize s c.2
  return { s1 with clones := s1.clones.filter fun c => decide (c.1 ≠ t) }

/-- `StateHelper::marginalize_old_clone`, StateHelper.cpp:618-629. -/
noncomputable def margOld (s : State) : Option State :=
  if s.opts.maxClones < s.clones.length then do
    let t ← margtimestep s
    dropClone s t
  else some s

/-- The loop of `marginalize_slam`: `todo` is the part of the map not yet visited, `kept` the visited entries that
stay. `(int)featid` is exact for ids below 2³¹. -/
noncomputable def margSlamLoop : List (ℕ × ℕ) → List (ℕ × ℕ) → State → Option State
  | [], kept, s => some { s with slam := kept }
  | f :: t, kept, s =>
    if (s.obj f.2).marg = true ∧ 4 * s.opts.maxAruco < f.1 then do
      let s1 ← marginalize s f.2
      margSlamLoop t kept s1
    else margSlamLoop t (kept ++ [f]) s

/-- `StateHelper::marginalize_slam`, StateHelper.cpp:631-645. -/
noncomputable def margSlam (s : State) : Option State := margSlamLoop s.slam [] s

/-! ## Constructor -/

/-- `var->set_local_id(current_id); _variables.push_back(var); current_id += var->size()` (e.g. State.cpp:36-38). -/
def push (s : State) (u : ℕ) : State :=
  { s with obj := fun w => if w = u then { s.obj u with id := s.n } else s.obj w,
           vars := s.vars ++ [u], n := s.n + (s.obj u).val.size }

def vecOf (l : List ℝ) : Vect := fun i => l.getD i 0

/-- The initial intrinsics vector, State.cpp:48 and 56 (the same numbers for both models). -/
def imuDefault : Vect := vecOf [1, 0, 0, 1, 0, 1]

def idQuat : Quat := ⟨0, 0, 0, 1⟩

/-- The objects created by the constructor, with our fixed uids: 0 imu, 1 dw, 2 da, 3 tg, 4 GYROtoIMU, 5 ACCtoIMU,
6 time offset, 7+2i pose and 8+2i intrinsics of camera i (State.cpp:35, 43-64, 98, 109-112). -/
def heap0 (u : ℕ) : Obj :=
  let mk (v : Val) : Obj := ⟨-1, v, v, false, false⟩
  if u = 0 then mk (.imu imu0)
  else if u = 1 ∨ u = 2 then mk (.vec 6 imuDefault)
  else if u = 3 then mk (.vec 9 fun _ => 0)
  else if u = 4 ∨ u = 5 then mk (.quat idQuat)
  else if u = 6 then mk (.vec 1 fun _ => 0)
  else if u % 2 = 1 then mk (.pose idQuat 0)
  else mk (.vec 8 fun _ => 0)

/-- The variables pushed by the constructor in order (State.cpp:33-131). -/
def ctorVars (o : Opts) : List ℕ :=
  [0] ++ (if o.calibImu then [1, 2] ++ (if o.calibG then [3] else []) ++ [if o.kalibr then 4 else 5] else []) ++
  (if o.calibDt then [6] else []) ++
  (List.range o.numCams).flatMap fun i =>
    (if o.calibPose then [7 + 2 * i] else []) ++ (if o.calibIntr then [intrUid i] else [])

/-- `_Cov.block(id,id,k,k) = v * Identity`. -/
def diagBlock (id k : ℕ) (v : ℝ) (P : Mat) : Mat := Mat.setBlock id id k k (fun i j => v * Mat.one i j) P

/-- The priors, State.cpp:137-165. -/
noncomputable def priors (o : Opts) (id : ℕ → ℕ) (P : Mat) : Mat :=
  let p1 := if o.calibImu then
      let a := diagBlock (id 2) 6 (0.008 ^ 2) (diagBlock (id 1) 6 (0.005 ^ 2) P)
      let b := if o.calibG then diagBlock (id 3) 9 (0.005 ^ 2) a else a
      if o.kalibr then diagBlock (id 4) 3 (0.005 ^ 2) b else diagBlock (id 5) 3 (0.005 ^ 2) b
    else P
  let p2 := if o.calibDt then diagBlock (id 6) 1 (0.01 ^ 2) p1 else p1
  let p3 := if o.calibPose then
      (List.range o.numCams).foldl (fun p i =>
        diagBlock (id (7 + 2 * i) + 3) 3 (0.015 ^ 2) (diagBlock (id (7 + 2 * i)) 3 (0.005 ^ 2) p)) p2
    else p2
  if o.calibIntr then
    (List.range o.numCams).foldl (fun p i =>
      diagBlock (id (intrUid i) + 4) 4 (0.005 ^ 2) (diagBlock (id (intrUid i)) 4 (1 ^ 2) p)) p3
  else p3

/-- `State::State`, State.cpp:28-166 (`_timestamp = -1`, State.h:141). -/
noncomputable def ctor (o : Opts) : State :=
  let s0 : State := ⟨o, 0, fun _ _ => 0, heap0, 7 + 2 * o.numCams, [], -1, [], [], fun _ => .vec 8 fun _ => 0⟩
  let s1 := (ctorVars o).foldl push s0
  { s1 with P := priors o (fun u => (s1.obj u).id.toNat) (fun i j => (1e-3) ^ 2 * Mat.one i j) }

/-! ## Histories -/

/-- the kind (constructor and dimension) of a value, fixed at construction of the object. -/
def sameKind : Val → Val → Prop
  | .vec n _, .vec m _ => n = m
  | .quat _, .quat _ => True
  | .pose _ _, .pose _ _ => True
  | .imu _, .imu _ => True
  | _, _ => False

/-- What the rest of the program does to a state: the StateHelper calls, and the direct writes to objects
(`set_value`, `set_fej`, `should_marg`, creating landmarks, inserting in `_features_SLAM`, `_timestamp = …`) made by
Propagator.cpp:127-137, UpdaterSLAM.cpp:205-245, VioManager.cpp:460-476 and VioManagerHelper.cpp. -/
inductive Op where
  | propagate (new old : List Ref) (Phi Q : DMat)
  | update (order : List Ref) (H : DMat) (res : DVec) (R : DMat)
  | setInit (C : DMat) (order : List Ref)
  | marginalize (u : ℕ)
  | clone (r : Ref)
  | initInv (u : ℕ) (order : List Ref) (HR HL R : DMat) (res : DVec)
  | initDelayed (u : ℕ) (order : List Ref) (HR HL R : DMat) (res : DVec) (mult : ℝ)
  | augment (w : V3)
  | margOld
  | dropClone (t : ℝ)
  | margSlam
  | alloc (v f : Val)
  | setVal (u : ℕ) (v : Val)
  | setFej (u : ℕ) (v : Val)
  | setMarg (u : ℕ) (b : Bool)
  | addSlam (fid u : ℕ)
  | setTime (t : ℝ)
  | setCam (i : ℕ) (v : Val)

/-- Execute one operation. -/
noncomputable def step (lib : Lib) (s : State) : Op → Option State
  | .propagate nw old Phi Q => propagate s nw old Phi Q
  | .update order H res R => update lib s order H res R
  | .setInit C order => setInit s C order
  | .marginalize u => marginalize s u
  | .clone r => (clone s r).map (·.1)
  | .initInv u order HR HL R res => initInv lib s u order HR HL R res
  | .initDelayed u order HR HL R res mult => (initDelayed lib s u order HR HL R res mult).map (·.1)
  | .augment w => augment s w
  | .margOld => margOld s
  | .dropClone t => dropClone s t
  | .margSlam => margSlam s
  -- constructing a landmark; value and first estimate have the same type and dimension
  | .alloc v f =>
    if sameKind v f then
      some { s with obj := fun w => if w = s.next then ⟨-1, v, f, false, true⟩ else s.obj w, next := s.next + 1 }
    else none
  | .setVal u v =>
    if sameKind (s.obj u).val v then
      some { s with obj := fun w => if w = u then { s.obj u with val := v } else s.obj w }
    else none
  | .setFej u v =>
    if sameKind (s.obj u).fej v then
      some { s with obj := fun w => if w = u then { s.obj u with fej := v } else s.obj w }
    else none
  | .setMarg u b => some { s with obj := fun w => if w = u then { s.obj u with marg := b } else s.obj w }
  -- `_features_SLAM.insert({fid, landmark})`, UpdaterSLAM.cpp:236-241: no effect if the key exists, and only reached
  -- for the landmark object that was just created and put in the state.
  | .addSlam fid u =>
    if (s.slam.find? fun e => decide (e.1 = fid)).isSome then some s
    else if u ∈ s.vars ∧ (s.obj u).lm = true ∧ ∀ e ∈ s.slam, e.2 ≠ u then some { s with slam := s.slam ++ [(fid, u)] }
    else none
  | .setTime t => some { s with ts := t }
  -- `_cam_intrinsics_cameras = params.camera_intrinsics`, VioManager.cpp:92, one camera
  | .setCam i v => some { s with cam := fun j => if j = i then v else s.cam j }

/-- Execute a history. -/
noncomputable def run (lib : Lib) (s : State) : List Op → Option State
  | [] => some s
  | op :: t => do
    let s' ← step lib s op
    run lib s' t

end Verif.St
