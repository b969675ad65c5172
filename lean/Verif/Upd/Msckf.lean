import Verif.Upd.Model
import Verif.State.Model

/-!
# Model of `UpdaterMSCKF::update`, `ov_msckf/src/update/UpdaterMSCKF.cpp`

The functions it calls are those of `Upd.Model` (Jacobians, projection, compression) and `State.Model` (marginal covariance, EKF update). The
triangulation (`Tri.Model`) is a parameter here: whatever it returns. The chi-square table and the quantile computed for 500 rows or more are the same
function `Lib.chi2`. Timing output is left out.
-/

open Classical

namespace Verif.Upd

open Verif Mat Verif.Land Verif.Types

/-- pose value of a `PoseJPL` object. -/
def valPose : Val → Option Pose
  | .pose q p => some ⟨q, p⟩
  | _ => none

/-- the eight numbers held by a camera object. -/
def valIntr : Val → Cam.Intr
  | .vec _ v => fun i => v i
  | _ => 0

/-- `state->_clones_IMU.at(t)`. -/
noncomputable def cloneUid (s : St.State) (t : ℝ) : Option ℕ := (s.clones.find? fun c => decide (c.1 = t)).map Prod.snd

/-- the part of the filter state that the Jacobians read: clones with their first estimates, extrinsics (objects `7 + 2 i`), the camera objects, the
options. `fej` is `_options.do_fej`, `kind` the camera models. -/
noncomputable def view (s : St.State) (fej : Bool) (kind : ℕ → Cam.Kind) : St where
  clone t := do
    let u ← cloneUid s t
    let v ← valPose (s.obj u).val
    let f ← valPose (s.obj u).fej
    some ⟨v, f⟩
  calib c := if c < s.opts.numCams then valPose (s.obj (7 + 2 * c)).val else none
  cam c := if c < s.opts.numCams then some (kind c, valIntr (s.cam c)) else none
  doFej := fej
  doPose := s.opts.calibPose
  doIntr := s.opts.calibIntr

/-- the variable behind a column block, as a handle. -/
noncomputable def refOf (s : St.State) : Var → Option St.Ref
  | .clone t => (cloneUid s t).map fun u => (u, .self)
  | .calib c => some (7 + 2 * c, .self)
  | .intr c => some (St.intrUid c, .self)

/-- a feature track handed to an updater: `featid`, and per camera the times and pixels (`timestamps`, `uvs`, kept aligned, C14). -/
structure Track where
  id : ℕ
  obs : List (ℕ × List (ℝ × Cam.V2))

/-- `Feature::clean_old_measurements(clonetimes)`, Feature.cpp:26-52 (a camera whose list becomes empty stays in the map). -/
noncomputable def Track.clean (s : St.State) (f : Track) : Track :=
  { f with obs := f.obs.map fun c => (c.1, c.2.filter fun m => decide (m.1 ∈ s.clones.map Prod.fst)) }

/-- `ct_meas`, UpdaterMSCKF.cpp:81-84. -/
def Track.count (f : Track) : ℕ := (f.obs.map fun c => c.2.length).sum

/-- what the triangulation leaves in the feature: `anchor_cam_id`, `anchor_clone_timestamp`, `p_FinA`, `p_FinG`. -/
structure Fix where
  cam : ℕ
  t : ℝ
  pA : V3
  pG : V3

/-- single inverse depth is treated as MSCKF inverse depth, UpdaterMSCKF.cpp:186-189. -/
def msckfRep (r : Rep) : Rep := if r = .anchoredSingle then .anchoredMsckf else r

/-- the `UpdaterHelperFeature`, UpdaterMSCKF.cpp:178-200. The fields that are not set keep their constructor values (the points are zero here). -/
def toFeat (r : Rep) (f : Track) (x : Fix) : Feat :=
  if isRelative r then ⟨r, f.obs, some x.cam, x.t, x.pA, 0, 0⟩ else ⟨r, f.obs, none, -1, 0, x.pG, x.pG⟩

/-- a linear system over listed variables. -/
structure Sys where
  order : List St.Ref
  m : ℕ
  H : Mat
  r : Vect

/-- Jacobian and projection of one feature, UpdaterMSCKF.cpp:202-213. -/
noncomputable def msckfSys (s : St.State) (fej : Bool) (kind : ℕ → Cam.Kind) (f : Feat) : Option Sys := do
  let o ← full (view s fej kind) f
  let p ← nullspaceProject o.rows (jacobsize f.rep) o.Hf o.Hx o.res
  let refs ← o.order.mapM (refOf s)
  some ⟨refs, p.1, p.2.1, p.2.2⟩

/-- the chi-square test, UpdaterMSCKF.cpp:216-231 and UpdaterSLAM.cpp:390-411: `true` if the feature is kept. -/
noncomputable def gate (lib : St.Lib) (s : St.State) (sig2 mult : ℝ) (y : Sys) : Option Bool := do
  let Pm ← St.getMarginal s y.order
  let S : Mat := fun i j => Mat.mul Pm.cols (Mat.mul Pm.cols y.H Pm.a) (Mat.tr y.H) i j + (if i = j then sig2 else 0)
  let chi2 := ∑ i ∈ Finset.range y.m, y.r i * lib.lltSolve y.m S y.r i
  some (decide (¬ mult * lib.chi2 y.m < chi2))

/-- `Hx_order_big`, `ct_meas`, `Hx_big`, `res_big`, and the diagonal of `R_big` (only used by UpdaterSLAM). -/
structure Big where
  order : List St.Ref
  rows : ℕ
  H : Mat
  r : Vect
  R : ℕ → ℝ

/-- the matrices before the loop, UpdaterMSCKF.cpp:162-168 and UpdaterSLAM.cpp:301-307. -/
def Big.empty : Big := ⟨[], 0, fun _ _ => 0, fun _ => 0, fun _ => 1⟩

/-- `var->size()`. -/
def szOf (s : St.State) (v : St.Ref) : ℕ := match (s.obj v.1).val.part v.2 with
  | some (_, x) => x.size
  | none => 0

/-- `Hx_mapping[var]`: the columns of the variables listed before. -/
noncomputable def offR (sz : St.Ref → ℕ) : List St.Ref → St.Ref → ℕ
  | [], _ => 0
  | a :: l, v => if a = v then 0 else sz a + offR sz l v

/-- `ct_jacob`. -/
def totR (sz : St.Ref → ℕ) (o : List St.Ref) : ℕ := (o.map sz).sum

/-- the loop over the variables of one feature, UpdaterMSCKF.cpp:245-257 and UpdaterSLAM.cpp:430-442; `hx` is `ct_hx`, `row` is `ct_meas`. A block that
does not fit the allocated `maxR × maxC` matrix is an assertion of Eigen. -/
noncomputable def placeVars (sz : St.Ref → ℕ) (maxR maxC row m : ℕ) (H : Mat) : List St.Ref → ℕ → List St.Ref × Mat → Option (List St.Ref × Mat)
  | [], _, A => some A
  | v :: t, hx, A =>
    let o := if v ∈ A.1 then A.1 else A.1 ++ [v]
    if row + m ≤ maxR ∧ offR sz o v + sz v ≤ maxC then
      placeVars sz maxR maxC row m H t (hx + sz v) (o, setBlock row (offR sz o v) m (sz v) (Mat.block 0 hx H) A.2)
    else none

/-- appending one accepted feature, UpdaterMSCKF.cpp:243-263 and UpdaterSLAM.cpp:428-451. -/
noncomputable def append (sz : St.Ref → ℕ) (maxR maxC : ℕ) (sig2 : ℝ) (B : Big) (y : Sys) : Option Big := do
  let A ← placeVars sz maxR maxC B.rows y.m y.H y.order 0 (B.order, B.H)
  if B.rows + y.m ≤ maxR then
    some ⟨A.1, B.rows + y.m, A.2, fun i => if B.rows ≤ i ∧ i < B.rows + y.m then y.r (i - B.rows) else B.r i,
      fun i => if B.rows ≤ i ∧ i < B.rows + y.m then B.R i * sig2 else B.R i⟩
  else none

/-- options of the MSCKF update: `do_fej`, camera models, `feat_rep_msckf`, `sigma_pix_sq`, `chi2_multipler`. -/
structure MCfg where
  fej : Bool
  kind : ℕ → Cam.Kind
  rep : Rep
  sig2 : ℝ
  mult : ℝ

/-- the loop over the features, UpdaterMSCKF.cpp:171-266. The second component lists the ids of the features that were kept. -/
noncomputable def msckfLoop (lib : St.Lib) (s : St.State) (C : MCfg) (maxR maxC : ℕ) : List (ℕ × Feat) → Big × List ℕ → Option (Big × List ℕ)
  | [], B => some B
  | f :: t, B => do
    let y ← msckfSys s C.fej C.kind f.2
    let ok ← gate lib s C.sig2 C.mult y
    if ok then do
      let B' ← append (szOf s) maxR maxC C.sig2 B.1 y
      msckfLoop lib s C maxR maxC t (B', B.2 ++ [f.1])
    else msckfLoop lib s C maxR maxC t B

/-- the features left after cleaning, UpdaterMSCKF.cpp:66-95. -/
noncomputable def cleaned (s : St.State) (need : ℕ) (fs : List Track) : List Track := (fs.map (Track.clean s)).filter fun f => decide (need ≤ f.count)

/-- the features left after triangulation with what it stored, UpdaterMSCKF.cpp:117-143. -/
def located (tri : Track → Option Fix) (fs : List Track) : List (Track × Fix) := fs.filterMap fun f => (tri f).map fun x => (f, x)

/-- `max_hx_size`, UpdaterMSCKF.cpp:155-160: the covariance without the landmarks. -/
def hxSize (s : St.State) : ℕ := s.n - (s.slam.map fun f => (s.obj f.2).val.size).sum

/-- `UpdaterMSCKF::update`, UpdaterMSCKF.cpp:58-305: the state afterwards and the ids of the features that took part in the update. (Every feature is
marked for deletion: on each of the lines 88, 138, 234, or 272.) -/
noncomputable def msckfUpdate (lib : St.Lib) (s : St.State) (C : MCfg) (tri : Track → Option Fix) (fs : List Track) : Option (St.State × List ℕ) := do
  let gs := located tri (cleaned s 2 fs)
  let maxR := (gs.map fun g => 2 * g.1.count).sum
  let maxC := hxSize s
  let B ← msckfLoop lib s C maxR maxC (gs.map fun g => (g.1.id, toFeat (msckfRep C.rep) g.1 g.2)) (.empty, [])
  if B.1.rows < 1 then some (s, B.2)
  else if ¬ (B.1.rows ≤ maxR ∧ totR (szOf s) B.1.order ≤ maxC) then none
  else
    let c := compress B.1.rows (totR (szOf s) B.1.order) B.1.H B.1.r
    if c.1 < 1 then some (s, B.2)
    else do
      let s' ← St.update lib s B.1.order ⟨c.1, totR (szOf s) B.1.order, c.2.1⟩ ⟨c.1, c.2.2⟩ ⟨c.1, c.1, fun i j => C.sig2 * Mat.one i j⟩
      some (s', B.2)

end Verif.Upd
