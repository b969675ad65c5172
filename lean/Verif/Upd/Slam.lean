import Verif.Upd.Msckf

/-!
# Model of `UpdaterSLAM::update` and `UpdaterSLAM::delayed_init`, `ov_msckf/src/update/UpdaterSLAM.cpp:62-479`

As in `Upd.Msckf` the triangulation is a parameter and the chi-square table and quantile are `Lib.chi2`. Ids are below 2³¹, so `(int)featid` is exact.
-/

open Classical

namespace Verif.Upd

open Verif Mat Verif.Land Verif.Types

/-- what a `Landmark` object holds besides its vector, Landmark.h:44-73: `_feat_representation`, `_anchor_cam_id` (`none` is `-1`),
`_anchor_clone_timestamp`, `uv_norm_zero`, `uv_norm_zero_fej`, `update_fail_count`, `_unique_camera_id` (`none` is `-1`). (`_featid` is the key in `_features_SLAM`, set once; the other fields are
not read here.) -/
structure LMeta where
  rep : Rep
  cam : Option ℕ
  t : ℝ
  uv0 : V3
  uv0f : V3
  fails : ℕ
  ucam : Option ℕ

/-- the numbers of a `Vec` of size one or three. -/
def valV3 : Val → V3
  | .vec n v => fun i => if (i : ℕ) < n then v i else 0
  | _ => 0

/-- the landmark object. -/
def lmOf (s : St.State) (M : ℕ → LMeta) (u : ℕ) : Lm := ⟨(M u).rep, (s.obj u).val.size, valV3 (s.obj u).val, valV3 (s.obj u).fej, (M u).uv0, (M u).uv0f⟩

/-- options of the SLAM updater: `do_fej`, camera models, `feat_rep_slam`, `feat_rep_aruco`, and `sigma_pix_sq`, `chi2_multipler` of `_options_slam` and
`_options_aruco`. -/
structure SCfg where
  fej : Bool
  kind : ℕ → Cam.Kind
  repS : Rep
  repA : Rep
  sigS : ℝ
  sigA : ℝ
  multS : ℝ
  multA : ℝ

/-- `sigma_pix_sq`, UpdaterSLAM.cpp:226-227 and 392-393. -/
def SCfg.sig (C : SCfg) (s : St.State) (fid : ℕ) : ℝ := if fid < s.opts.maxAruco then C.sigA else C.sigS

/-- `chi2_multipler`, UpdaterSLAM.cpp:231-232 and 408-409. -/
def SCfg.mult (C : SCfg) (s : St.State) (fid : ℕ) : ℝ := if fid < s.opts.maxAruco then C.multA else C.multS

/-- `feat_rep`, UpdaterSLAM.cpp:157-158. -/
def SCfg.rep (C : SCfg) (s : St.State) (fid : ℕ) : Rep := if fid < s.opts.maxAruco then C.repA else C.repS

/-- `_features_SLAM.at(featid)`. -/
noncomputable def slamUid (s : St.State) (fid : ℕ) : Option ℕ := (s.slam.find? fun e => decide (e.1 = fid)).map Prod.snd

/-- `required_meas`, UpdaterSLAM.cpp:286. -/
def required (r : Rep) : ℕ := if r = .anchoredSingle then 2 else 1

/-- the `UpdaterHelperFeature` of a landmark, UpdaterSLAM.cpp:331-353. -/
noncomputable def slamFeat (s : St.State) (M : ℕ → LMeta) (u : ℕ) (f : Track) : Option Feat := do
  let r := msckfRep (M u).rep
  let p ← (lmOf s M u).getXyz false
  let pf ← (lmOf s M u).getXyz true
  some (if isRelative r then ⟨r, f.obs, (M u).cam, (M u).t, p, 0, 0⟩ else ⟨r, f.obs, none, -1, 0, p, pf⟩)

/-- `H_xf` after `conservativeResize`: the columns of `A` and behind them `k` columns of `B`, UpdaterSLAM.cpp:369-370 and 381-382. -/
def hstack (rows w k : ℕ) (A B : Mat) : Mat := setBlock 0 w rows k B A

/-- Jacobian, projection of the bearing for the single depth, and the order with the landmark last, UpdaterSLAM.cpp:362-387. -/
noncomputable def slamSys (s : St.State) (fej : Bool) (kind : ℕ → Cam.Kind) (u : ℕ) (r : Rep) (f : Feat) : Option Sys := do
  let o ← full (view s fej kind) f
  let refs ← o.order.mapM (refOf s)
  if r = .anchoredSingle then do
    let p ← nullspaceProject o.rows 2 o.Hf (hstack o.rows (total o.order) 1 o.Hx (Mat.block 0 2 o.Hf)) o.res
    some ⟨refs ++ [(u, .self)], p.1, p.2.1, p.2.2⟩
  else some ⟨refs ++ [(u, .self)], o.rows, hstack o.rows (total o.order) 3 o.Hx o.Hf, o.res⟩

/-- what the loop carries: the stack, the ids used, the landmark objects. -/
structure SAcc where
  B : Big
  used : List ℕ
  M : ℕ → LMeta

/-- `update_fail_count++`. -/
def bump (M : ℕ → LMeta) (u : ℕ) : ℕ → LMeta := fun v => if v = u then { M u with fails := (M u).fails + 1 } else M v

/-- the loop over the features, UpdaterSLAM.cpp:319-452. -/
noncomputable def slamLoop (lib : St.Lib) (s : St.State) (C : SCfg) (maxR maxC : ℕ) : List Track → SAcc → Option SAcc
  | [], A => some A
  | f :: t, A => do
    let u ← slamUid s f.id
    let g ← slamFeat s A.M u f
    let y ← slamSys s C.fej C.kind u (A.M u).rep g
    let ok ← gate lib s (C.sig s f.id) (C.mult s f.id) y
    if ok then do
      let B' ← append (szOf s) maxR maxC (C.sig s f.id) A.B y
      slamLoop lib s C maxR maxC t ⟨B', A.used ++ [f.id], A.M⟩
    else slamLoop lib s C maxR maxC t { A with M := if f.id < s.opts.maxAruco then A.M else bump A.M u }

/-- cleaning, UpdaterSLAM.cpp:269-298: the tracks with their landmark's representation. -/
noncomputable def slamClean (s : St.State) (M : ℕ → LMeta) (fs : List Track) : Option (List (Track × ℕ)) :=
  fs.mapM fun f => do
    let u ← slamUid s f.id
    some (f.clean s, required (M u).rep)

/-- result: state, landmark objects, ids used, ids marked for deletion. -/
structure SOut where
  s : St.State
  M : ℕ → LMeta
  used : List ℕ
  del : List ℕ

/-- `UpdaterSLAM::update`, UpdaterSLAM.cpp:253-479. -/
noncomputable def slamUpdate (lib : St.Lib) (s : St.State) (M : ℕ → LMeta) (C : SCfg) (fs : List Track) : Option SOut := do
  let cs ← slamClean s M fs
  let gs := (cs.filter fun c => decide (¬ c.1.count < 1 ∧ ¬ c.1.count < c.2)).map Prod.fst
  let del := (cs.filter fun c => decide (c.1.count < 1 ∨ ¬ c.1.count < c.2)).map fun c => c.1.id
  let maxR := (gs.map fun g => 2 * g.count).sum
  let A ← slamLoop lib s C maxR s.n gs ⟨.empty, [], M⟩
  if A.B.rows < 1 then some ⟨s, A.M, A.used, del⟩
  else if ¬ (A.B.rows ≤ maxR ∧ totR (szOf s) A.B.order ≤ s.n) then none
  else do
    let s' ← St.update lib s A.B.order ⟨A.B.rows, totR (szOf s) A.B.order, A.B.H⟩ ⟨A.B.rows, A.B.r⟩
      ⟨A.B.rows, A.B.rows, fun i j => if i = j then A.B.R i else 0⟩
    some ⟨s', A.M, A.used, del⟩

/-! ## delayed initialisation -/

/-- `set_from_xyz` on a new `Landmark(landmark_size)`, UpdaterSLAM.cpp:209-223: the object. (A new `Vec` is zero, Vec.h:43-47.) -/
noncomputable def newLm (r : Rep) (p : V3) : Option Lm := do
  let l ← (⟨r, jacobsize r, 0, 0, 0, 0⟩ : Lm).setFromXyz p false
  l.setFromXyz p true

/-- a landmark's vector as a value of the state model. -/
def lmVal (n : ℕ) (x : V3) : Val := .vec n fun i => if h : i < 3 then x ⟨i, h⟩ else 0

/-- the system handed to `StateHelper::initialize`, UpdaterSLAM.cpp:181-203: order, `H_x`, `H_f`, residual. -/
structure LSys where
  order : List St.Ref
  m : ℕ
  w : ℕ
  Hx : Mat
  Hf : Mat
  r : Vect

/-- UpdaterSLAM.cpp:175-203. -/
noncomputable def delaySys (s : St.State) (fej : Bool) (kind : ℕ → Cam.Kind) (r : Rep) (f : Feat) : Option LSys := do
  let o ← full (view s fej kind) f
  let refs ← o.order.mapM (refOf s)
  let w := total o.order
  if r = .anchoredSingle then do
    let p ← nullspaceProject o.rows 2 o.Hf (hstack o.rows w 1 o.Hx (Mat.block 0 2 o.Hf)) o.res
    some ⟨refs, p.1, w, p.2.1, Mat.block 0 w p.2.1, p.2.2⟩
  else some ⟨refs, o.rows, w, o.Hx, o.Hf, o.res⟩

/-- what the loop carries: filter state, landmark objects, ids of the new landmarks. -/
structure DAcc where
  s : St.State
  M : ℕ → LMeta
  added : List ℕ

/-- the loop body of `delayed_init`, UpdaterSLAM.cpp:146-242. -/
noncomputable def delayStep (lib : St.Lib) (C : SCfg) (g : Track × Fix) (A : DAcc) : Option DAcc := do
  let s := A.s
  let rep := C.rep s g.1.id
  let y ← delaySys s C.fej C.kind rep (toFeat (msckfRep rep) g.1 g.2)
  let rel := isRelative (msckfRep rep)
  let l ← newLm rep (if rel then g.2.pA else g.2.pG)
  let u := s.next
  let s1 ← St.step lib s (.alloc (lmVal l.dim l.val) (lmVal l.dim l.fej))
  let k := l.dim
  let R ← St.initDelayed lib s1 u y.order ⟨y.m, y.w, y.Hx⟩ ⟨y.m, k, y.Hf⟩ ⟨y.m, y.m, fun i j => C.sig s g.1.id * Mat.one i j⟩ ⟨y.m, y.r⟩ (C.mult s g.1.id)
  if R.2 then do
    let s2 ← St.step lib R.1 (.addSlam g.1.id u)
    some ⟨s2, fun v => if v = u then ⟨rep, if rel then some g.2.cam else none, if rel then g.2.t else -1, l.uv0, l.uv0f, 0, some g.2.cam⟩ else A.M v, A.added ++ [g.1.id]⟩
  else some { A with s := R.1 }

/-- the loop of `delayed_init`. -/
noncomputable def delayLoop (lib : St.Lib) (C : SCfg) : List (Track × Fix) → DAcc → Option DAcc
  | [], A => some A
  | g :: t, A => do
    let A' ← delayStep lib C g A
    delayLoop lib C t A'

/-- `UpdaterSLAM::delayed_init`, UpdaterSLAM.cpp:62-251. -/
noncomputable def delayedInit (lib : St.Lib) (s : St.State) (M : ℕ → LMeta) (C : SCfg) (tri : Track → Option Fix) (fs : List Track) : Option DAcc :=
  delayLoop lib C (located tri (cleaned s 2 fs)) ⟨s, M, []⟩

end Verif.Upd
