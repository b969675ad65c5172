import Verif.Land.Model
import Verif.Cam.Model
import Verif.Base.Givens
import Verif.Types.Model

/-!
# Model of `ov_msckf/src/update/UpdaterHelper.cpp`

State variables are named (`Var`) instead of being shared pointers: two pointers are equal in the code exactly if they are the same clone, the same
extrinsic calibration or the same intrinsics. `std::map::at` on a missing key throws, here `none`. The order in which the hash map of measurements is
visited is arbitrary and fixed by the given list.
-/

open Classical

namespace Verif.Upd

open Verif Mat Verif.Land Verif.Types

/-- value of a `PoseJPL`. -/
structure Pose where
  q : Quat
  p : V3

/-- `PoseJPL::Rot()`. -/
def Pose.R (x : Pose) : M3 := quat2Rot x.q

/-- `PoseJPL::update`, PoseJPL.h:74-91 on the pose's value. -/
noncomputable def Pose.update (x : Pose) (dx : ℕ → ℝ) : Pose := ⟨quatUpdate x.q (sl dx 0), x.p + sl dx 3⟩

/-- a clone: value and first estimate. -/
structure PoseE where
  val : Pose
  fej : Pose

/-- the state variables a feature's Jacobian can involve. -/
inductive Var where
  | clone (t : ℝ)
  | calib (c : ℕ)
  | intr (c : ℕ)

noncomputable instance : DecidableEq Var := Classical.decEq _

/-- `Type::size()` of these variables. -/
def Var.size : Var → ℕ
  | .clone _ => 6
  | .calib _ => 6
  | .intr _ => 8

/-- the part of `State` read here: `_clones_IMU`, `_calib_IMUtoCAM`, `_cam_intrinsics`/`_cam_intrinsics_cameras` (whose values agree, see C73), and
the three options. -/
structure St where
  clone : ℝ → Option PoseE
  calib : ℕ → Option Pose
  cam : ℕ → Option (Cam.Kind × Cam.Intr)
  doFej : Bool
  doPose : Bool
  doIntr : Bool

/-- `UpdaterHelperFeature`, UpdaterHelper.h:54-88. `obs` lists for each camera its measurements (time and pixel); `ancCam = none` is `-1`. -/
structure Feat where
  rep : Rep
  obs : List (ℕ × List (ℝ × Cam.V2))
  ancCam : Option ℕ
  ancT : ℝ
  pA : V3
  pG : V3
  pGf : V3

/-- `d_pfinA_dpinv` (or the global equivalent) for full inverse depth, UpdaterHelper.cpp:47-70 and 124-147: the derivative matrix evaluated at the
spherical coordinates recomputed from the point. -/
noncomputable def fullJac (p : V3) : M3 :=
  let v := toFull p
  let sth := Real.sin (v 0)
  let cth := Real.cos (v 0)
  let sphi := Real.sin (v 1)
  let cphi := Real.cos (v 1)
  let rho := v 2
  !![-(1 / rho) * sth * sphi, (1 / rho) * cth * cphi, -(1 / (rho * rho)) * cth * sphi;
     (1 / rho) * cth * sphi, (1 / rho) * sth * cphi, -(1 / (rho * rho)) * sth * sphi;
     0, -(1 / rho) * sphi, -(1 / (rho * rho)) * cphi]

/-- MSCKF inverse depth, UpdaterHelper.cpp:154-168. -/
noncomputable def msckfJac (p : V3) : M3 :=
  let v := toMsckf p
  !![1 / v 2, 0, -(1 / (v 2 * v 2)) * v 0; 0, 1 / v 2, -(1 / (v 2 * v 2)) * v 1; 0, 0, -(1 / (v 2 * v 2))]

/-- single inverse depth, UpdaterHelper.cpp:176-182: a 3×1 matrix, here padded with two zero columns. -/
noncomputable def singleJac (p : V3) : M3 :=
  let rho := 1 / p 2
  let b := rho • p
  !![-(1 / (rho * rho)) * b 0, 0, 0; -(1 / (rho * rho)) * b 1, 0, 0; -(1 / (rho * rho)) * b 2, 0, 0]

/-- `R_GtoI, p_IinG, p_FinA` at which the anchored Jacobians are evaluated, UpdaterHelper.cpp:80-96. -/
noncomputable def linAnchor (doFej : Bool) (an : PoseE) (cal : Pose) (pA : V3) : M3 × V3 × V3 :=
  if doFej then
    let best := (an.val.R.transpose * cal.R.transpose).mulVec (pA - cal.p) + an.val.p
    (an.fej.R, an.fej.p, (an.fej.R.transpose * cal.R.transpose).transpose.mulVec (best - an.fej.p) + cal.p)
  else (an.val.R, an.val.p, pA)

/-- two 3×3 blocks side by side. -/
def hcat (A B : M3) : Matrix (Fin 3) (Fin 6) ℝ := fun i j => if h : (j : ℕ) < 3 then A i ⟨j, h⟩ else B i ⟨j - 3, by omega⟩

/-- `get_feature_jacobian_representation`, UpdaterHelper.cpp:32-190: `H_f`, and `(x_order, H_x)`. -/
noncomputable def repJac (st : St) (f : Feat) : Option (M3 × List (Var × Matrix (Fin 3) (Fin 6) ℝ)) :=
  match f.rep with
  | .global3d => some (1, [])
  | .globalFull => some (fullJac (if st.doFej then f.pGf else f.pG), [])
  | r => do
    let c ← f.ancCam
    let cal ← st.calib c
    let an ← st.clone f.ancT
    let L := linAnchor st.doFej an cal f.pA
    let RCG := L.1.transpose * cal.R.transpose
    let Hanc := hcat (-L.1.transpose * skew (cal.R.transpose.mulVec (L.2.2 - cal.p))) 1
    let Hcal := hcat (-RCG * skew (L.2.2 - cal.p)) (-RCG)
    let xs := (Var.clone f.ancT, Hanc) :: (if st.doPose then [(Var.calib c, Hcal)] else [])
    match r with
    | .anchored3d => some (RCG, xs)
    | .anchoredFull => some (RCG * fullJac L.2.2, xs)
    | .anchoredMsckf => some (RCG * msckfJac L.2.2, xs)
    | .anchoredSingle => some (RCG * singleJac L.2.2, xs)
    | _ => none

/-- `if (map_hx.find(v) == map_hx.end()) { … x_order.push_back(v) … }`. -/
noncomputable def addVar (o : List Var) (v : Var) : List Var := if v ∈ o then o else o ++ [v]

/-- body of the first loop, UpdaterHelper.cpp:205-236: extrinsics, intrinsics, then the clones not there yet. -/
noncomputable def layoutCam (st : St) (o : List Var) (c : ℕ × List (ℝ × Cam.V2)) : List Var :=
  let o := if st.doPose then o ++ [.calib c.1] else o
  let o := if st.doIntr then o ++ [.intr c.1] else o
  c.2.foldl (fun o m => addVar o (.clone m.1)) o

/-- `x_order`, UpdaterHelper.cpp:202-262. -/
noncomputable def layout (st : St) (f : Feat) : List Var :=
  let o := f.obs.foldl (layoutCam st) []
  if isRelative f.rep then
    let o := addVar o (.clone f.ancT)
    match st.doPose, f.ancCam with
    | true, some c => addVar o (.calib c)
    | _, _ => o
  else o

/-- `map_hx[v]`: the number of columns of the variables before `v`. -/
noncomputable def off : List Var → Var → ℕ
  | [], _ => 0
  | a :: l, v => if a = v then 0 else a.size + off l v

/-- `total_hx`. -/
def total (o : List Var) : ℕ := (o.map Var.size).sum

/-- one measurement with everything the loop looks up for it (UpdaterHelper.cpp:313-331). -/
structure Meas where
  cam : ℕ
  t : ℝ
  uv : Cam.V2
  clone : PoseE
  cal : Pose
  kind : Cam.Kind
  intr : Cam.Intr

/-- the lookups of the two nested loops, which visit the measurements camera by camera. -/
def look (st : St) (o : ℕ × ℝ × Cam.V2) : Option Meas := do
  let cl ← st.clone o.2.1
  let ca ← st.calib o.1
  let k ← st.cam o.1
  some ⟨o.1, o.2.1, o.2.2, cl, ca, k.1, k.2⟩

/-- all measurements in the order of the nested loops. -/
def flat (f : Feat) : List (ℕ × ℝ × Cam.V2) := f.obs.flatMap fun c => c.2.map fun m => (c.1, m.1, m.2)

/-- `M.block(r0,c0,h,w) += B`. -/
noncomputable def addBlock (r0 c0 h w : ℕ) (B A : Mat) : Mat := fun i j =>
  if r0 ≤ i ∧ i < r0 + h ∧ c0 ≤ j ∧ j < c0 + w then A i j + B (i - r0) (j - c0) else A i j

/-- residual and Jacobians being filled, with the measurement counter. -/
structure Acc where
  c : ℕ
  Hx : Mat
  Hf : Mat
  res : Vect

/-- `dzn_dpfc`, UpdaterHelper.cpp:366-367. -/
noncomputable def projJac (p : V3) : Matrix (Fin 2) (Fin 3) ℝ :=
  !![1 / p 2, 0, -(p 0) / (p 2 * p 2); 0, 1 / p 2, -(p 1) / (p 2 * p 2)]

/-- body of the measurement loop, UpdaterHelper.cpp:328-421. `jf` is the number of columns of `H_f`. -/
noncomputable def writeMeas (st : St) (order : List Var) (pG pGf : V3) (dl : M3) (xs : List (Var × Matrix (Fin 3) (Fin 6) ℝ)) (jf : ℕ)
    (A : Acc) (m : Meas) : Acc :=
  let RIC := m.cal.R
  let pIC := m.cal.p
  let pFI := m.clone.val.R.mulVec (pG - m.clone.val.p)
  let pFC := RIC.mulVec pFI + pIC
  let uvn : Cam.V2 := ![pFC 0 / pFC 2, pFC 1 / pFC 2]
  let uvd := Cam.distort m.kind m.intr uvn
  let res := fun i => if 2 * A.c ≤ i ∧ i < 2 * A.c + 2 then extV (m.uv - uvd) (i - 2 * A.c) else A.res i
  let R := if st.doFej then m.clone.fej.R else m.clone.val.R
  let pFI := if st.doFej then m.clone.fej.R.mulVec (pGf - m.clone.fej.p) else pFI
  let pFC := if st.doFej then RIC.mulVec pFI + pIC else pFC
  let dzn := Cam.distortN m.kind m.intr uvn
  let dzeta := Cam.distortZ m.kind m.intr uvn
  let dpg := RIC * R
  let dclone := hcat (RIC * skew pFI) (-dpg)
  let dzc := dzn * projJac pFC
  let dzg := dzc * dpg
  let Hf := setBlock (2 * A.c) 0 2 jf (extM (dzg * dl)) A.Hf
  let Hx := setBlock (2 * A.c) (off order (.clone m.t)) 2 6 (extM (dzc * dclone)) A.Hx
  let Hx := xs.foldl (fun H x => addBlock (2 * A.c) (off order x.1) 2 6 (extM (dzg * x.2)) H) Hx
  let Hx := if st.doPose then
      addBlock (2 * A.c) (off order (.calib m.cam)) 2 6 (extM (dzc * hcat (skew (pFC - pIC)) 1)) Hx
    else Hx
  let Hx := if st.doIntr then setBlock (2 * A.c) (off order (.intr m.cam)) 2 8 (extM dzeta) Hx else Hx
  ⟨A.c + 1, Hx, Hf, res⟩

/-- `jacobsize`, UpdaterHelper.cpp:292. -/
def jacobsize (r : Rep) : ℕ := if r = .anchoredSingle then 1 else 3

/-- what `get_feature_jacobian_full` returns. -/
structure Out where
  order : List Var
  rows : ℕ
  Hx : Mat
  Hf : Mat
  res : Vect

/-- the feature's global position, UpdaterHelper.cpp:267-279. -/
noncomputable def globalPos (st : St) (f : Feat) : Option V3 :=
  if isRelative f.rep then do
    let c ← f.ancCam
    let cal ← st.calib c
    let an ← st.clone f.ancT
    some ((an.val.R.transpose * cal.R.transpose).mulVec (f.pA - cal.p) + an.val.p)
  else some f.pG

/-- `_calib_IMUtoCAM.at(c)` and `_cam_intrinsics.at(c)`, UpdaterHelper.cpp:208-209: also done for a camera without measurements. -/
def hasCam (st : St) (c : ℕ) : Option Unit := do
  let _ ← st.calib c
  let _ ← st.cam c
  some ()

/-- `get_feature_jacobian_full`, UpdaterHelper.cpp:192-424. -/
noncomputable def full (st : St) (f : Feat) : Option Out := do
  let _ ← f.obs.mapM fun c => hasCam st c.1
  let order := layout st f
  let ms ← (flat f).mapM (look st)
  let pG ← globalPos st f
  let pGf := if isRelative f.rep then pG else f.pGf
  let j ← repJac st f
  let A := ms.foldl (writeMeas st order pG pGf j.1 j.2 (jacobsize f.rep)) ⟨0, fun _ _ => 0, fun _ _ => 0, fun _ => 0⟩
  some ⟨order, 2 * ms.length, A.Hx, A.Hf, A.res⟩

/-- `nullspace_project_inplace`, UpdaterHelper.cpp:426-454: result `H_x`, `res` and their number of rows. `none`: a block of negative size. -/
noncomputable def nullspaceProject (rows fc : ℕ) (Hf Hx : Mat) (res : Vect) : Option (ℕ × Mat × Vect) :=
  if rows < fc then none
  else
    let S := Givens.run rows fc ⟨Hf, Hx, res⟩
    some (rows - fc, fun i j => S.B (fc + i) j, fun i => S.v (fc + i))

/-- `measurement_compress_inplace`, UpdaterHelper.cpp:456-487 (`B` of the Givens loop is not used). -/
noncomputable def compress (rows cols : ℕ) (Hx : Mat) (res : Vect) : ℕ × Mat × Vect :=
  if rows ≤ cols then (rows, Hx, res)
  else
    let S := Givens.run rows cols ⟨Hx, fun _ _ => 0, res⟩
    (min rows cols, S.A, S.v)

end Verif.Upd
