import Verif.Vio.Manager
import Verif.Upd.Msckf

/-!
# Model of what the manager tells about its progress: `initialized()` and the distance travelled

Source: `ov_msckf/src/core/VioManager.cpp`:646-651 (the end of `do_feature_propagate_update`), `VioManager.h`:99 (`initialized`) and 218-220.
-/

set_option autoImplicit false
open Classical

namespace Verif.Vio

open Verif Verif.Types Verif.St Verif.Imu Verif.Prop_ Verif.Feat Verif.Disp

/-- `timelastupdate` and `distance`, VioManager.h:219-220 -/
structure Odo where
  last : ℝ
  dist : ℝ

/-- their values at first, VioManager.h:219-220 -/
def odo0 : Odo := ⟨-1, 0⟩

/-- `initialized()` once `is_initialized_vio` is set, VioManager.h:99 -/
def Odo.initialized (d : Odo) : Prop := d.last ≠ -1

/-- `state->_imu->pos()` -/
def imuAt (s : State) : Option V3 := match (s.obj imuUid).val with
  | .imu x => some x.p
  | _ => none

/-- VioManager.cpp:646-651 -/
noncomputable def odoEnd (d : Odo) (s : State) (t : ℝ) : Option Odo :=
  if d.last ≠ -1 ∧ (Upd.cloneUid s d.last).isSome then do
    let u ← Upd.cloneUid s d.last
    let p ← imuAt s
    let K ← Upd.valPose (s.obj u).val
    some ⟨t, d.dist + norm3 (p - K.p)⟩
  else some ⟨t, d.dist⟩

/-- `do_feature_propagate_update` with its end, VioManager.cpp:323-596 and 646-651 -/
noncomputable def featOdo (lib : Lib) (cfg : MCfg) (m : Mgr) (d : Odo) (t : ℝ) (upd : List Op) : Option (Mgr × Odo) :=
  if m.st.ts > t then some (m, d)
  else do
    let m1 ← propTo cfg m t
    if m1.st.clones.length < min m1.st.opts.maxClones 5 then some (m1, d)
    else if m1.st.ts ≠ t then some (m1, d)
    else do
      let s2 ← run lib m1.st upd
      let s3 ← margOld s2
      let d1 ← odoEnd d s3 t
      some ({ m1 with st := s3, moved := true }, d1)

/-- an image when initialised, VioManager.cpp:253-320 -/
noncomputable def imageOdo (lib : Lib) (cfg : MCfg) (m : Mgr) (d : Odo) (db : DB ℝ Uv) (t : ℝ) (upd : List Op) : Option (Mgr × Odo) :=
  match zuptOn cfg m with
  | none => featOdo lib cfg { m with db := db } d t upd
  | some Z => do
    let m1 ← zuptTry lib Z { m with db := db } t
    if m1.did then
      if m1.st.ts = t then do
        let off ← tOff m1.st
        some ({ m1 with buf := cleanOld (t + off - 0.10) m1.buf, zbuf := cleanOld (t + off - 0.10) m1.zbuf }, d)
      else none
    else featOdo lib cfg m1 d t upd

noncomputable def Ev.odo (lib : Lib) (cfg : MCfg) (x : Mgr × Odo) : Ev → Option (Mgr × Odo)
  | .imu r => some (feedImu cfg x.1 r, x.2)
  | .image db t upd => imageOdo lib cfg x.1 x.2 db t upd

noncomputable def runOdo (lib : Lib) (cfg : MCfg) : Mgr × Odo → List Ev → Option (Mgr × Odo)
  | x, [] => some x
  | x, e :: es => (e.odo lib cfg x).bind fun y => runOdo lib cfg y es

end Verif.Vio
