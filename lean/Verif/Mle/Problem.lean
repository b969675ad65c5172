import Verif.Mle.Start
import Verif.Feat.Model

/-!
# Model of the optimisation problem built by `DynamicInitializer::initialize`

DynamicInitializer.cpp:573-965: the arrays that are allocated, the parameter blocks, the residual blocks with the pointers they are given, the constant
blocks, and how the answer is read from the arrays afterwards. A pointer is the index of its array in the order of allocation; `std::map::at` and
`std::vector::at` on a missing entry, and the asserts, are `none`. Ceres' minimiser is not modelled: afterwards the arrays may hold anything of their size.
-/

open Classical

namespace Verif.Mle

open Verif Verif.Imu Verif.Feat

/-- a pointer to one of the arrays. -/
abbrev Ptr := ℕ

/-- a cost function: `Factor_GenericPrior` with `x_lin`, `x_type`, the diagonal of `prior_Info` and zero gradient; `Factor_ImuCPIv1` of a preintegration;
`Factor_ImageReprojCalib` of a pixel. -/
inductive Fac where
  | prior (lin : List ℝ) (ty : List Ty) (info : List ℝ)
  | imu (c : Cpi.Res)
  | img (uv : Cam.V2) (kind : Cam.Kind)

/-- one `problem.AddResidualBlock(factor, loss, params)`; the loss is `CauchyLoss(1.0)` or none. -/
structure Term (α : Type) where
  fac : Fac
  cauchy : Bool
  vars : List α

/-- one `problem.AddParameterBlock(ptr, size[, State_JPLQuatLocal])`. -/
structure Blk (α : Type) where
  ptr : α
  size : ℕ
  quat : Bool

/-- the local variables of DynamicInitializer.cpp:573-597: the arrays, the problem, the index maps and the vectors of pointers. -/
structure G where
  heap : List (List ℝ)
  blks : List (Blk Ptr)
  const : List Ptr
  terms : List (Term Ptr)
  states : List (ℝ × ℕ)
  ori : List Ptr
  pos : List Ptr
  vel : List Ptr
  bg : List Ptr
  ba : List Ptr
  exts : List (ℕ × ℕ)
  extO : List Ptr
  extP : List Ptr
  cams : List (ℕ × ℕ)
  intr : List Ptr
  feats : List (ℕ × ℕ)
  feat : List Ptr

/-- the empty problem, DynamicInitializer.cpp:575-597. -/
def G.empty : G := ⟨[], [], [], [], [], [], [], [], [], [], [], [], [], [], [], [], []⟩

/-- `std::map::find`: the index stored for a key. -/
noncomputable def idx {κ : Type} : List (κ × ℕ) → κ → Option ℕ
  | [], _ => none
  | e :: m, k => if e.1 = k then some e.2 else idx m k

/-- `std::map::insert({key, index})`: no effect if the key is there. -/
noncomputable def ins {κ : Type} (m : List (κ × ℕ)) (k : κ) (i : ℕ) : List (κ × ℕ) := if (idx m k).isSome then m else m ++ [(k, i)]

/-- the numbers of a quaternion, of a 3-vector and of the eight intrinsics in an array, DynamicInitializer.cpp:656-671, 758-765, 800-803. -/
def qL (q : Quat) : List ℝ := [q.x, q.y, q.z, q.w]
/-- see `qL`. -/
def vL (v : V3) : List ℝ := [v 0, v 1, v 2]
/-- see `qL`. -/
def iL (v : Cam.Intr) : List ℝ := [v 0, v 1, v 2, v 3, v 4, v 5, v 6, v 7]

/-- the inputs: the sorted `map_camera_times`, `map_camera_cpi_IitoIi1`, the starting states (`ori_GtoIi`, `vel_IiinG`, `pos_IiinG` and the biases), the
sorted `map_camera_ids`, `params.camera_extrinsics`, `params.camera_intrinsics`, `init_dyn_mle_opt_calib`, `features`, `map_features_num_meas`,
`min_num_meas_to_optimize`, `features_inG`. -/
structure PIn where
  times : List ℝ
  cpi : ℝ → Option Cpi.Res
  nav : ℝ → Nav
  cams : List ℕ
  ext : ℕ → Option (Quat × V3)
  intr : ℕ → Option (Cam.Kind × Cam.Intr)
  optCalib : Bool
  feats : DB ℝ Cam.V2
  num : ℕ → ℕ
  minNum : ℕ
  inG : ℕ → Option V3

/-! ## The choice of camera times and cameras -/

/-- the camera and time of every observation of a feature, in the order of the loops, DynamicInitializer.cpp:118-119. -/
def camTimes (f : Feature ℝ Cam.V2) : List (ℕ × ℝ) := f.times.flatMap fun ct => ct.2.map fun t => (ct.1, t)

/-- one observation, DynamicInitializer.cpp:120-132: `acc` is what the feature has so far (`times` and `camids`); `poses` is `map_camera_times`. -/
noncomputable def pickCam (avg newest : ℝ) (poses : List ℝ) (acc : List (ℕ × ℝ)) (o : ℕ × ℝ) : List (ℕ × ℝ) :=
  let dt := Init.minDist o.2 newest (poses ++ acc.map Prod.snd)
  if dt ≥ avg ∨ dt = 0 then acc ++ [o] else acc

/-- `map_camera_times`, `map_camera_ids`, `map_features_num_meas`, DynamicInitializer.cpp:107-112 (in the order of insertion, with repetitions). -/
structure SelC where
  poses : List ℝ
  cams : List ℕ
  num : List (ℕ × ℕ)

/-- one feature, DynamicInitializer.cpp:113-153 (`Init.selStep` with the camera ids). -/
noncomputable def selCam (avg newest : ℝ) (minNum : ℕ) (s : SelC) (e : ℕ × Feature ℝ Cam.V2) : SelC :=
  let a := (camTimes e.2).foldl (pickCam avg newest s.poses) []
  if a.length < minNum then { s with num := s.num ++ [(e.1, a.length)] }
  else ⟨s.poses ++ a.map Prod.snd, s.cams ++ a.map Prod.fst, s.num ++ [(e.1, a.length)]⟩

/-- the selection loop, DynamicInitializer.cpp:107-154. -/
noncomputable def selCams (avg newest : ℝ) (minNum : ℕ) (feats : DB ℝ Cam.V2) : SelC :=
  feats.foldl (selCam avg newest minNum) ⟨[newest], [], []⟩

/-! ## The states -/

/-- the prior on the first state, DynamicInitializer.cpp:685-716. -/
noncomputable def firstPrior (x : Nav) : Fac :=
  .prior (qL x.q ++ vL x.p ++ vL x.bg ++ vL x.ba) [.quatYaw, .vec3, .vec3, .vec3]
    (List.replicate 4 (1 / (1e-5 : ℝ) ^ 2) ++ List.replicate 3 (1 / (0.05 : ℝ) ^ 2) ++ List.replicate 3 (1 / (0.10 : ℝ) ^ 2))

/-- the five pointers of the state with a given time, DynamicInitializer.cpp:733-737 and 738-742. -/
noncomputable def statePtrs (g : G) (t : ℝ) : Option (List Ptr) := do
  let i ← idx g.states t
  let o ← g.ori[i]?
  let w ← g.bg[i]?
  let v ← g.vel[i]?
  let a ← g.ba[i]?
  let p ← g.pos[i]?
  some [o, w, v, a, p]

/-- allocation of the five arrays of a state with their parameter blocks, DynamicInitializer.cpp:654-680. -/
def allocState (g : G) (x : Nav) : G :=
  let o := g.heap.length
  { g with
    heap := g.heap ++ [qL x.q, vL x.p, vL x.v, vL x.bg, vL x.ba]
    blks := g.blks ++ [⟨o, 4, true⟩, ⟨o + 1, 3, false⟩, ⟨o + 2, 3, false⟩, ⟨o + 3, 3, false⟩, ⟨o + 4, 3, false⟩] }

/-- the prior of the first state, DynamicInitializer.cpp:686-717; `o` is `var_ori`, allocated before the others. -/
noncomputable def priorState (g : G) (o : Ptr) (x : Nav) : G :=
  if g.states.isEmpty then { g with terms := g.terms ++ [⟨firstPrior x, false, [o, o + 1, o + 3, o + 4]⟩] } else g

/-- the state appended to the index map and the vectors, DynamicInitializer.cpp:720-725. -/
noncomputable def pushState (g : G) (o : Ptr) (t : ℝ) : G :=
  { g with
    states := ins g.states t g.ori.length
    ori := g.ori ++ [o]
    pos := g.pos ++ [o + 1]
    vel := g.vel ++ [o + 2]
    bg := g.bg ++ [o + 3]
    ba := g.ba ++ [o + 4] }

/-- the preintegration factor, DynamicInitializer.cpp:732-747; `tk` is `timestamp_k`. -/
noncomputable def imuState (g : G) (tk t : ℝ) : Option Cpi.Res → Option G
  | none => some g
  | some c =>
    if tk = -1 then none
    else do
      let a ← statePtrs g tk
      let b ← statePtrs g t
      some { g with terms := g.terms ++ [⟨.imu c, false, a ++ b⟩] }

/-- one camera time, DynamicInitializer.cpp:639-750. -/
noncomputable def addState (p : PIn) (g : G) (tk t : ℝ) : Option G :=
  let x := p.nav t
  let o := g.heap.length
  imuState (pushState (priorState (allocState g x) o x) o t) tk t (p.cpi t)

/-- the loop over the camera times, DynamicInitializer.cpp:638-751. -/
noncomputable def addStates (p : PIn) : G → ℝ → List ℝ → Option G
  | g, _, [] => some g
  | g, tk, t :: l => do addStates p (← addState p g tk t) t l

/-! ## The cameras -/

/-- the prior on the extrinsics, DynamicInitializer.cpp:773-793. -/
noncomputable def extPrior (q : Quat) (v : V3) : Fac :=
  .prior (qL q ++ vL v) [.quat, .vec3] (List.replicate 3 (1 / (0.001 : ℝ) ^ 2) ++ List.replicate 3 (1 / (0.01 : ℝ) ^ 2))

/-- the prior on the intrinsics, DynamicInitializer.cpp:809-823. -/
noncomputable def intrPrior (k : Cam.Intr) : Fac :=
  .prior (iL k) [.vec8] (List.replicate 4 (1 / (1 : ℝ) ^ 2) ++ List.replicate 4 (1 / (0.005 : ℝ) ^ 2))

/-- the extrinsics of a camera, DynamicInitializer.cpp:756-798. -/
noncomputable def addExt (p : PIn) (g : G) (c : ℕ) : Option G :=
  if (idx g.exts c).isSome then some g
  else do
    let e ← p.ext c
    let o := g.heap.length
    some { g with
      heap := g.heap ++ [qL e.1, vL e.2]
      blks := g.blks ++ [⟨o, 4, true⟩, ⟨o + 1, 3, false⟩]
      exts := ins g.exts c g.extO.length
      extO := g.extO ++ [o]
      extP := g.extP ++ [o + 1]
      terms := g.terms ++ [⟨extPrior e.1 e.2, false, [o, o + 1]⟩]
      const := g.const ++ if p.optCalib then [] else [o, o + 1] }

/-- the intrinsics of a camera, DynamicInitializer.cpp:799-827. -/
noncomputable def addIntr (p : PIn) (g : G) (c : ℕ) : Option G :=
  if (idx g.cams c).isSome then some g
  else do
    let k ← p.intr c
    let o := g.heap.length
    some { g with
      heap := g.heap ++ [iL k.2]
      blks := g.blks ++ [⟨o, 8, false⟩]
      cams := ins g.cams c g.intr.length
      intr := g.intr ++ [o]
      terms := g.terms ++ [⟨intrPrior k.2, false, [o]⟩]
      const := g.const ++ if p.optCalib then [] else [o] }

/-- the loop over the cameras, DynamicInitializer.cpp:754-828. -/
noncomputable def addCams (p : PIn) : G → List ℕ → Option G
  | g, [] => some g
  | g, c :: l => do addCams p (← addIntr p (← addExt p g c) c) l

/-! ## The features -/

/-- the array of a feature, allocated at its first observation, DynamicInitializer.cpp:860-868. -/
noncomputable def addFeat (p : PIn) (g : G) (id : ℕ) : Option G :=
  if (idx g.feats id).isSome then some g
  else do
    let v ← p.inG id
    let o := g.heap.length
    some { g with
      heap := g.heap ++ [vL v]
      blks := g.blks ++ [⟨o, 3, false⟩]
      feats := ins g.feats id g.feat.length
      feat := g.feat ++ [o] }

/-- the factor of one observation, DynamicInitializer.cpp:871-881. -/
noncomputable def addImg (g : G) (id cam : ℕ) (t : ℝ) (u : Cam.V2) (kind : Cam.Kind) : Option G := do
  let i ← idx g.states t
  let o ← g.ori[i]?
  let q ← g.pos[i]?
  let f ← g.feat[← idx g.feats id]?
  let eo ← g.extO[← idx g.exts cam]?
  let ep ← g.extP[← idx g.exts cam]?
  let k ← g.intr[← idx g.cams cam]?
  some { g with terms := g.terms ++ [⟨.img u kind, true, [o, q, f, eo, ep, k]⟩] }

/-- the loop over the observations of a feature in one camera, DynamicInitializer.cpp:846-882; `i` is the loop index, `camtime.second` the list. -/
noncomputable def addObs (p : PIn) (f : Feature ℝ Cam.V2) (id cam : ℕ) (kind : Cam.Kind) : G → ℕ → List ℝ → Option G
  | g, _, [] => some g
  | g, i, t :: l =>
    if t ∈ p.times then do
      let us ← f.uvs.get? cam
      let u ← us[i]?
      addObs p f id cam kind (← addImg (← addFeat p g id) id cam t u kind) (i + 1) l
    else addObs p f id cam kind g (i + 1) l

/-- the loop over the cameras of a feature, DynamicInitializer.cpp:838-883. -/
noncomputable def addFCams (p : PIn) (f : Feature ℝ Cam.V2) (id : ℕ) : G → AMap (List ℝ) → Option G
  | g, [] => some g
  | g, (cam, ts) :: l => do
    let k ← p.intr cam
    addFCams p f id (← addObs p f id cam k.1 g 0 ts) l

/-- the loop over the features, DynamicInitializer.cpp:831-884. -/
noncomputable def addFeats (p : PIn) : G → DB ℝ Cam.V2 → Option G
  | g, [] => some g
  | g, (id, f) :: l =>
    if p.num id < p.minNum then addFeats p g l
    else if (p.inG id).isNone then addFeats p g l
    else do addFeats p (← addFCams p f id g f.times) l

/-- the whole problem, DynamicInitializer.cpp:637-884. -/
noncomputable def build (p : PIn) : Option G := do
  let g ← addStates p G.empty (-1) p.times
  let g ← addCams p g p.cams
  addFeats p g p.feats

/-! ## The cost -/

/-- an array read as a quaternion, a 3-vector, the intrinsics: the `Eigen::Map`s in the factors. -/
def qOf (l : List ℝ) : Quat := q4 (fun i => l.getD i 0) 0
/-- see `qOf`. -/
def vOf (l : List ℝ) : V3 := fun i => l.getD i.1 0
/-- see `qOf`. -/
def iOf (l : List ℝ) : Cam.Intr := fun i => l.getD i.1 0

/-- the prior factor made by the constructor, Factor_GenericPrior.cpp:28-68. The information is diagonal, so its Cholesky factor is the square root of the
diagonal; the gradient is zero, hence `b` too. -/
noncomputable def prFac (lin : List ℝ) (ty : List Ty) (info : List ℝ) : PrF :=
  ⟨ty, fun i => lin.getD i 0, fun i j => if i = j then Real.sqrt (info.getD i 0) else 0, fun _ => 0⟩

/-- the settings the factors use: biases and noises of the preintegration, gravity, weight of a preintegration, `params.sigma_pix`. -/
structure PConf where
  cpi : Cpi.Conf
  gmag : ℝ
  W : Cpi.Res → Matrix I5 I5 ℝ
  sigma : ℝ

/-- the parameters of a preintegration factor in their order, Factor_ImuCPIv1.cpp:65-74, 87-105. -/
def blkNav (l : List (List ℝ)) : Nav := ⟨qOf (l.getD 0 []), vOf (l.getD 1 []), vOf (l.getD 2 []), vOf (l.getD 3 []), vOf (l.getD 4 [])⟩
/-- the parameters of an image factor in their order, Factor_ImageReprojCalib.cpp:38-58. -/
def imgOf (l : List (List ℝ)) : ImgX :=
  ⟨qOf (l.getD 0 []), vOf (l.getD 1 []), vOf (l.getD 2 []), qOf (l.getD 3 []), vOf (l.getD 4 []), iOf (l.getD 5 [])⟩

/-- squared norm of the residual of a factor given its parameter arrays: `Factor_GenericPrior`, `Factor_ImuCPIv1`, `Factor_ImageReprojCalib::Evaluate`
(the gate is 1). -/
noncomputable def Fac.sq (k : PConf) : Fac → List (List ℝ) → ℝ
  | .prior lin ty info, vs => ∑ i ∈ Finset.range (lSum ty), prRes (prFac lin ty info) (fun i j => (vs.getD i []).getD j 0) i ^ 2
  | .imu c, vs => ∑ i, imuRes (imuFac k.cpi k.gmag k.W c) (blkNav (vs.take 5)) (blkNav (vs.drop 5)) i ^ 2
  | .img uv kind, vs => ∑ i, imgRes ⟨uv, k.sigma, 1, kind⟩ (imgOf vs) i ^ 2

/-- what a residual block adds to twice the cost: the squared norm, through `ceres::CauchyLoss(1.0)` (`ρ(s) = log(1 + s)`) if it has one. -/
noncomputable def Term.val {α : Type} (k : PConf) (h : α → List ℝ) (t : Term α) : ℝ :=
  let s := t.fac.sq k (t.vars.map h)
  if t.cauchy then Real.log (1 + s) else s

/-- the cost Ceres minimises, with the arrays `h`: half of the sum over the residual blocks. -/
noncomputable def G.cost (k : PConf) (g : G) (h : Ptr → List ℝ) : ℝ := 1 / 2 * (g.terms.map (Term.val k h)).sum

/-! ## The answer -/

/-- `get_pose`, DynamicInitializer.cpp:909-921; `h` are the arrays after the minimisation. -/
noncomputable def getPose (g : G) (h : Ptr → List ℝ) (t : ℝ) : Option Nav := do
  let i := (idx g.states t).getD 0
  let o ← g.ori[i]?
  let p ← g.pos[i]?
  let v ← g.vel[i]?
  let w ← g.bg[i]?
  let a ← g.ba[i]?
  some ⟨qOf (h o), vOf (h w), vOf (h v), vOf (h a), vOf (h p)⟩

/-- what is returned: the inertial state of the newest camera time (its position is set to zero later, see `retNav`), the poses and the features,
DynamicInitializer.cpp:923-967. -/
structure Out where
  imu : Nav
  clones : List (ℝ × Quat × V3)
  feats : List (ℕ × V3)

/-- see `Out`. -/
noncomputable def readOut (g : G) (h : Ptr → List ℝ) (newest : ℝ) : Option Out := do
  if (idx g.states newest).isNone then none
  else do
    let x ← getPose g h newest
    let cl ← g.states.mapM fun s => do
      let y ← getPose g h s.1
      some (s.1, y.q, y.p)
    let fs ← g.feats.mapM fun s => do
      let o ← g.feat[s.2]?
      some (s.1, vOf (h o))
    some ⟨x, cl, fs⟩

end Verif.Mle
