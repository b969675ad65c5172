import Verif.Vio.Manager
import Verif.Vio.Select
import Verif.Upd.AnchorState
import Verif.Tri.Model

/-!
# Model of one whole camera frame

Source: `ov_msckf/src/core/VioManager.cpp`, `track_image_and_update` from the zero velocity attempt on and `do_feature_propagate_update`, with the updaters, the triangulation, the anchor changes and the marginalisations of the other
modules put together.

Simplifications: the databases after tracking are an input of a frame (`Vio.Loop` closes the loop). `retriangulate_active_tracks` (VioManager.cpp:558), the lists kept for display, timing and printing are left out: nothing modelled
here reads them. The deletion flags set inside the updaters are collected and applied at the end of the frame, where the database is cleaned: nothing in between reads them.
-/

set_option autoImplicit false
open Classical

namespace Verif.Vio

open Verif Verif.Types Verif.St Verif.Imu Verif.Prop_ Verif.Feat Verif.Disp

/-- the triangulator of the updaters: `FeatureInitializerOptions` with `triangulate_1d`, `refine_features`, the library's condition number and QR solve, and how many passes of the refinement loop are allowed before the model gives up. -/
structure TriCfg where
  o : Tri.Opts
  oneD : Bool
  refine : Bool
  cond : M3 → ℝ
  solve : M3 → V3 → V3
  passes : ℕ

/-- options of the frame: manager, landmark counts (`max_slam_features`, `max_msckf_in_update`, `max_slam_in_update`), the two updaters, the triangulator, `startup_time`, `dt_slam_delay`, and `std::sort` with the comparison of
VioManager.cpp:507-517. -/
structure FCfg where
  mgr : MCfg
  maxSlam : ℤ
  maxMsckf : ℤ
  maxUp : ℤ
  msckf : Upd.MCfg
  slam : Upd.SCfg
  tri : TriCfg
  startup : ℝ
  dtSlam : ℝ
  sort : List (Feature ℝ Uv) → List (Feature ℝ Uv)

/-- the options the selection reads, all members of `StateOptions`. -/
def FCfg.sel (F : FCfg) (o : Opts) : SelCfg := ⟨o.maxClones, F.maxSlam, o.maxAruco, F.maxMsckf⟩

/-- what comes with an image: the two databases after tracking (`trackARUCO` may be null), its time, `sensor_ids`; the normalised coordinates of the observations (feature, camera, time), and what `p_FinA` of a feature holds before it is
triangulated. -/
structure Img where
  db : DB ℝ Uv
  aruco : Option (DB ℝ Uv)
  t : ℝ
  cams : List ℕ
  norm : ℕ → ℕ → ℝ → Tri.V2
  stale : ℕ → V3

/-- one measurement: feature, camera and time. -/
abbrev Meas := ℕ × ℕ × ℝ

/-- the manager with its landmark objects and the database of the tag tracker. `log` is not in the code: it records, for the specification, the measurements that were given to the updaters. -/
structure FMgr where
  m : Mgr
  M : ℕ → Upd.LMeta
  aruco : Option (DB ℝ Uv)
  log : List Meas

/-- a database feature as an updater's track. -/
def toTrack (f : Feature ℝ Uv) : Upd.Track := ⟨f.featid, f.times.map fun e => (e.1, (e.2.zip (f.uvs.getL e.1)).map fun m => (m.1, ![m.2.1, m.2.2]))⟩

/-- camera poses at the clones, UpdaterMSCKF.cpp:97-115 and UpdaterSLAM.cpp:100-118. -/
noncomputable def camPose (s : State) (c : ℕ) (t : ℝ) : Option Tri.CPose := do
  let E ← (if c < s.opts.numCams then Upd.valPose (s.obj (7 + 2 * c)).val else none)
  let u ← Upd.cloneUid s t
  let K ← Upd.valPose (s.obj u).val
  some ⟨E.R * K.R, K.p - (E.R * K.R).transpose.mulVec E.p⟩

/-- the normalised observations of a track. -/
def normObs (norm : ℕ → ℕ → ℝ → Tri.V2) (f : Upd.Track) : Tri.Obs := f.obs.map fun c => (c.1, c.2.map fun m => (m.1, norm f.id c.1 m.1))

/-- the triangulation of one track, UpdaterMSCKF.cpp:120-143 and UpdaterSLAM.cpp:123-143. The outer `none` is an exception (or a refinement that does not end within the passes allowed), the inner `none` a feature that is given up. The
refinement is run even when the triangulation failed, from whatever `p_FinA` holds. -/
noncomputable def locate (T : TriCfg) (I : Img) (s : State) (f : Upd.Track) : Option (Option Upd.Fix) := do
  let obs := normObs I.norm f
  let r ← (if T.oneD then Tri.triangulate1 T.o (camPose s) obs else Tri.triangulate T.o T.cond (camPose s) obs)
  match r with
  | none => do
    let a ← Tri.anchor obs
    let _ ← (if T.refine then Tri.refine T.o T.solve T.passes (camPose s) obs ⟨a.1, a.2.1, I.stale f.id, 0⟩ else some none)
    some none
  | some x => do
    let y ← (if T.refine then Tri.refine T.o T.solve T.passes (camPose s) obs x else some (some x))
    some (y.map fun z => ⟨z.cam, z.t, z.pA, z.pG⟩)

/-- the triangulation handed to the updaters. -/
noncomputable def triOf (T : TriCfg) (I : Img) (s : State) (f : Upd.Track) : Option Upd.Fix := (locate T I s f).join

/-- `updaterMSCKF->update`, with the exceptions of the triangulation. -/
noncomputable def msckfStep (lib : Lib) (F : FCfg) (I : Img) (s : State) (fs : List Upd.Track) : Option State := do
  let _ ← (Upd.cleaned s 2 fs).mapM (locate F.tri I s)
  let r ← Upd.msckfUpdate lib s F.msckf (triOf F.tri I s) fs
  some r.1

/-- `updaterSLAM->delayed_init`, with the exceptions of the triangulation. -/
noncomputable def delayAll (lib : Lib) (F : FCfg) (I : Img) (s : State) (M : ℕ → Upd.LMeta) (fs : List Upd.Track) : Option (State × (ℕ → Upd.LMeta)) := do
  let _ ← (Upd.cleaned s 2 fs).mapM (locate F.tri I s)
  let r ← Upd.delayedInit lib s M F.slam (triOf F.tri I s) fs
  some (r.s, r.M)

/-- the calls of `updaterSLAM->update`, VioManager.cpp:532-545, one per batch. -/
noncomputable def slamBatches (lib : Lib) (C : Upd.SCfg) : List (List Upd.Track) → State × (ℕ → Upd.LMeta) → Option (State × (ℕ → Upd.LMeta))
  | [], A => some A
  | b :: bs, A => do
    let r ← Upd.slamUpdate lib A.1 A.2 C b
    slamBatches lib C bs (r.s, r.M)

/-- the landmarks as the selection sees them; a landmark without camera fails the assertion of VioManager.cpp:469. -/
def lmView (s : State) (M : ℕ → Upd.LMeta) : Option (List (ℕ × Lm)) :=
  s.slam.mapM fun e => (M e.2).ucam.map fun c => (e.1, ⟨c, (M e.2).fails, (s.obj e.2).marg⟩)

/-- the writes of `should_marg`, VioManager.cpp:472-475. -/
def flagOps (slam : List (ℕ × ℕ)) (flags : List (ℕ × Lm)) : List Op := (slam.zip flags).map fun p => .setMarg p.1.2 p.2.2.marg

/-- is there a landmark of this id, `_features_SLAM.find(id) != end()`, VioManager.cpp:486. -/
def isLm (s : State) (x : Track ℝ Uv) : Bool := (s.slam.map Prod.fst).contains x.f.featid

/-- the selection of one frame, VioManager.cpp:366-476. -/
noncomputable def frameRoles (F : FCfg) (I : Img) (db : DB ℝ Uv) (s : State) (mt : ℝ) (lms : List (ℕ × Lm)) : Roles ℝ Uv :=
  roles (F.sel s.opts) db I.aruco s.ts mt s.clones.length (decide (F.dtSlam ≤ I.t - F.startup)) I.cams lms

/-- what the selection leaves for the updaters: the oldest clone time, the state without the landmarks that were dropped, the features for the MSCKF update, the tracks of landmarks and of features that are to become landmarks. -/
structure Plan where
  mt : ℝ
  s : State
  up : List (Feature ℝ Uv)
  upd : List (Track ℝ Uv)
  del : List (Track ℝ Uv)

/-- selection and `marginalize_slam`, VioManager.cpp:366-523. -/
noncomputable def plan (lib : Lib) (F : FCfg) (I : Img) (db : DB ℝ Uv) (s : State) (M : ℕ → Upd.LMeta) : Option Plan := do
  let mt ← margtimestep s
  let lms ← lmView s M
  let r := frameRoles F I db s mt lms
  let s1 ← run lib s (flagOps s.slam (lms.map (lmFlag db I.cams)))
  let s2 ← margSlam s1
  let up ← cutMsckf (F.sel s.opts) (F.sort r.candidates)
  some ⟨mt, s2, up, r.slam.filter (isLm s2), r.slam.filter fun x => !isLm s2 x⟩

/-- the updates, VioManager.cpp:524-590: MSCKF update, landmark updates in batches, delayed initialisation, anchor changes, `marginalize_old_clone`. -/
noncomputable def updateAll (lib : Lib) (F : FCfg) (I : Img) (p : Plan) (M : ℕ → Upd.LMeta) : Option (State × (ℕ → Upd.LMeta)) := do
  let s3 ← msckfStep lib F I p.s (p.up.map toTrack)
  let bs ← batches F.maxUp p.upd.length p.upd
  let (s4, M4) ← slamBatches lib F.slam (bs.map fun b => b.map fun x => toTrack x.f) (s3, M)
  let (s5, M5) ← delayAll lib F I s4 M4 (p.del.map fun x => toTrack x.f)
  if I.cams = [] then none
  else do
    let (s6, M6) ← Upd.anchorsState lib F.slam s5 M5
    let s7 ← margOld s6
    some (s7, M6)

/-- a landmark's track with too few measurements for its representation is put back without being marked, UpdaterSLAM.cpp:286-294. -/
noncomputable def putBack (s : State) (M : ℕ → Upd.LMeta) (x : Track ℝ Uv) : Bool := match Upd.slamUid s x.f.featid with
  | none => false
  | some u => decide (1 ≤ ((toTrack x.f).clean s).count ∧ ((toTrack x.f).clean s).count < Upd.required (M u).rep)

/-- what happens to the database of one tracker (`tag`: the tag tracker), VioManager.cpp:566-586: every feature given to an updater is marked (UpdaterMSCKF.cpp:89, 137, 226, 262, UpdaterSLAM.cpp:92, 140, 235, 238, 290, 417, 456, VioManager.cpp:569) but
for those put back, which are only cleaned (UpdaterSLAM.cpp:274); then `cleanup` and, with a full window, `cleanup_measurements`. -/
noncomputable def endOps (s : State) (M : ℕ → Upd.LMeta) (p : Plan) (tag : Bool) : List (Feat.Op ℝ Uv) :=
  (if tag then [] else p.up.map fun f => .markDelete f.featid) ++
  ((p.del.filter fun x => x.tag == tag).map fun x => .markDelete x.f.featid) ++
  ((p.upd.filter fun x => x.tag == tag).map fun x => if putBack p.s M x then .cleanOldOf x.f.featid (s.clones.map Prod.fst) else .markDelete x.f.featid) ++
  [.cleanup] ++ (if s.opts.maxClones < s.clones.length then [.cleanupMeasurements p.mt] else [])

/-- a sequence of database operations. -/
noncomputable def dbRun (db : DB ℝ Uv) : List (Feat.Op ℝ Uv) → Option (DB ℝ Uv)
  | [] => some db
  | o :: os => (Feat.Op.run db o).bind fun db' => dbRun db' os

/-- the measurements of a track. -/
def measOf (f : Upd.Track) : List Meas := f.obs.flatMap fun c => c.2.map fun m => (f.id, c.1, m.1)

/-- the measurements that go into the updaters (after their cleaning): MSCKF features and features to be initialised need two, landmarks as many as their representation requires. -/
noncomputable def usedBy (s : State) (M : ℕ → Upd.LMeta) (p : Plan) : List Meas :=
  (Upd.cleaned s 2 (p.up.map toTrack)).flatMap measOf ++
  (((p.upd.filter fun x => !putBack p.s M x).map fun x => (toTrack x.f).clean s).flatMap measOf) ++
  (Upd.cleaned s 2 (p.del.map fun x => toTrack x.f)).flatMap measOf

/-- `VioManager::do_feature_propagate_update`, VioManager.cpp:323-596. -/
noncomputable def frameUpdate (lib : Lib) (F : FCfg) (x : FMgr) (I : Img) : Option FMgr :=
  if x.m.st.ts > I.t then some x
  else do
    let m1 ← propTo F.mgr x.m I.t
    if m1.st.clones.length < min m1.st.opts.maxClones 5 then some { x with m := m1 }
    else if m1.st.ts ≠ I.t then some { x with m := m1 }
    else do
      let p ← plan lib F I m1.db m1.st x.M
      let (s', M') ← updateAll lib F I p x.M
      let db' ← dbRun m1.db (endOps m1.st x.M p false)
      let ar' ← (match I.aruco with
        | none => some none
        | some a => (dbRun a (endOps m1.st x.M p true)).map some)
      some ⟨{ m1 with st := s', moved := true, db := db' }, M', ar', x.log ++ usedBy m1.st x.M p⟩

/-- an image when initialised, VioManager.cpp:291-320 (216-251 in simulation). -/
noncomputable def frame (lib : Lib) (F : FCfg) (x : FMgr) (I : Img) : Option FMgr :=
  match zuptOn F.mgr x.m with
  | none => frameUpdate lib F { x with m := { x.m with db := I.db }, aruco := I.aruco } I
  | some Z => do
    let m1 ← zuptTry lib Z { x.m with db := I.db } I.t
    if m1.did then
      if m1.st.ts = I.t then do
        let off ← tOff m1.st
        some { x with m := { m1 with buf := cleanOld (I.t + off - 0.10) m1.buf, zbuf := cleanOld (I.t + off - 0.10) m1.zbuf }, aruco := I.aruco }
      else none
    else frameUpdate lib F { x with m := m1, aruco := I.aruco } I

/-- what is fed to the manager. -/
inductive FEv where
  | imu (r : Reading)
  | image (I : Img)

noncomputable def FEv.run (lib : Lib) (F : FCfg) (x : FMgr) : FEv → Option FMgr
  | .imu r => some { x with m := feedImu F.mgr x.m r }
  | .image I => frame lib F x I

noncomputable def runF (lib : Lib) (F : FCfg) : FMgr → List FEv → Option FMgr
  | x, [] => some x
  | x, e :: es => (e.run lib F x).bind fun y => runF lib F y es

end Verif.Vio
