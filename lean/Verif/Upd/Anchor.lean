import Verif.Upd.Model

/-!
# Model of the anchor changes, `ov_msckf/src/update/UpdaterSLAM.cpp:481-647`
-/

open Classical

namespace Verif.Upd

open Verif Mat Verif.Land Verif.Types

/-- a SLAM landmark with its anchor: `_anchor_cam_id` (`none` is `-1`) and `_anchor_clone_timestamp`, Landmark.h:50-55. -/
structure ALm where
  lm : Lm
  cam : Option ℕ
  t : ℝ

/-- `R_GtoX`, `p_XinG`, UpdaterSLAM.cpp:538-547 and 558-567. -/
def camPose (A cal : Pose) : M3 × V3 := (cal.R * A.R, A.p - (cal.R * A.R).transpose.mulVec cal.p)

/-- `R_OLDtoNEW * p + p_OLDinNEW`, UpdaterSLAM.cpp:550-552 and 570-572. -/
def moveAnchor (Ao co An cn : Pose) (p : V3) : V3 :=
  let O := camPose Ao co
  let N := camPose An cn
  (N.1 * O.1.transpose).mulVec p + N.1.mulVec (O.2 - N.2)

/-- `H_f_new_inv`, UpdaterSLAM.cpp:614-620. The QR solve against the identity is a library call, modelled by the matrix inverse. The 3×1 matrix of the
single-depth form is padded by two zero columns, so that its transpose has two zero rows. -/
noncomputable def hfInv (r : Rep) (H : M3) : M3 :=
  if r = .anchoredSingle then (1 / (H 0 0 ^ 2 + H 1 0 ^ 2 + H 2 0 ^ 2)) • H.transpose else H⁻¹

/-- `phi_order_OLD` without the landmark at its end, UpdaterSLAM.cpp:589-607. -/
noncomputable def phiOrder (xo xn : List (Var × Matrix (Fin 3) (Fin 6) ℝ)) : List Var :=
  xn.foldl (fun o x => addVar o x.1) (xo.foldl (fun o x => addVar o x.1) [])

/-- `Phi`, UpdaterSLAM.cpp:610-634: `sz` rows, `total order + sz` columns, the landmark last. -/
noncomputable def anchorPhi (order : List Var) (sz : ℕ) (Hi Hfo : M3) (xo xn : List (Var × Matrix (Fin 3) (Fin 6) ℝ)) : Mat :=
  let P : Mat := xo.foldl (fun P x => addBlock 0 (off order x.1) sz 6 (extM (Hi * x.2)) P) (fun _ _ => 0)
  let P := setBlock 0 (total order) sz sz (extM (Hi * Hfo)) P
  xn.foldl (fun P x => addBlock 0 (off order x.1) sz 6 (extM (-(Hi * x.2))) P) P

/-- what an anchor change does: the landmark afterwards, and the arguments of its `EKFPropagation` call (the process noise is zero). -/
structure AChange where
  lm : ALm
  order : List Var
  size : ℕ
  Phi : Mat

/-- `perform_anchor_change`, UpdaterSLAM.cpp:505-647 (`none`: an assertion or a lookup of a missing clone or camera). The covariance is changed by
`EKFPropagation` with the returned arguments, see C07. -/
noncomputable def performAnchorChange (st : St) (l : ALm) (nt : ℝ) (nc : ℕ) : Option AChange :=
  if isRelative l.lm.rep = false then none
  else do
    let oc ← l.cam
    let pO ← l.lm.getXyz false
    let pOf ← l.lm.getXyz true
    let jo ← repJac st ⟨l.lm.rep, [], some oc, l.t, pO, 0, 0⟩
    let ao ← st.clone l.t
    let co ← st.calib oc
    let an ← st.clone nt
    let cn ← st.calib nc
    let pN := moveAnchor ao.val co an.val cn pO
    let pNf := moveAnchor ao.fej co an.fej cn pOf
    let jn ← repJac st ⟨l.lm.rep, [], some nc, nt, pN, 0, 0⟩
    let order := phiOrder jo.2 jn.2
    let sz := jacobsize l.lm.rep
    let Phi := anchorPhi order sz (hfInv l.lm.rep jn.1) jo.1 jo.2 jn.2
    let lm1 ← l.lm.setFromXyz pN false
    let lm2 ← lm1.setFromXyz pNf true
    some ⟨⟨lm2, some nc, nt⟩, order, sz, Phi⟩

/-- `State::margtimestep`, State.h:66-75 (`none`: no clone, the code's `INFINITY`). -/
noncomputable def margTime : List ℝ → Option ℝ
  | [] => none
  | t :: ts => some (ts.foldl (fun m x => if x < m then x else m) t)

/-- body of the loop of `change_anchors`, UpdaterSLAM.cpp:491-502. -/
noncomputable def changeAnchor (st : St) (mt now : ℝ) (l : ALm) : Option ALm :=
  if l.lm.rep = .global3d ∨ l.lm.rep = .globalFull then some l
  else if ¬ mt ≤ l.t then none
  else if l.t = mt then
    l.cam.bind fun c => (performAnchorChange st l now c).map AChange.lm
  else some l

/-- `change_anchors`, UpdaterSLAM.cpp:481-503. `times` are the keys of `_clones_IMU`; the order of the hash map of landmarks is that of the list. -/
noncomputable def changeAnchors (st : St) (maxClones : ℕ) (now : ℝ) (times : List ℝ) (lms : List ALm) : Option (List ALm) :=
  if times.length ≤ maxClones then some lms
  else (margTime times).bind fun mt => lms.mapM (changeAnchor st mt now)

/-- `marginalize_old_clone`, StateHelper.cpp:618-629, on the window only (its effect on the covariance is in `Verif.State`). -/
noncomputable def dropOldest (st : St) (maxClones : ℕ) (times : List ℝ) : St × List ℝ :=
  if maxClones < times.length then
    match margTime times with
    | none => (st, times)
    | some mt => ({ st with clone := fun t => if t = mt then none else st.clone t }, times.erase mt)
  else (st, times)

/-- the window part of the filter: poses, keys of `_clones_IMU` in order, SLAM landmarks. -/
structure Win where
  st : St
  times : List ℝ
  lms : List ALm

/-- what happens between two looks at the window. `frame`: a camera frame at `t` was processed up to the anchor changes; `st` and `lms` are the state
with the new clone and the landmarks after the updates, delayed initialisations and landmark marginalisations. `other`: anything that adds no clone
(zero velocity updates, IMU-only work, frames that are dropped). -/
inductive Ev where
  | frame (t : ℝ) (st : St) (lms : List ALm)
  | other (st : St) (lms : List ALm)

/-- end of `do_feature_propagate_update`, VioManager.cpp:585-596: anchor changes, then marginalisation of the oldest clone. -/
noncomputable def winStep (maxClones : ℕ) (w : Win) : Ev → Option Win
  | .frame t st lms =>
    (changeAnchors st maxClones t (w.times ++ [t]) lms).map fun l =>
      ⟨(dropOldest st maxClones (w.times ++ [t])).1, (dropOldest st maxClones (w.times ++ [t])).2, l⟩
  | .other st lms => some ⟨st, w.times, lms⟩

end Verif.Upd
