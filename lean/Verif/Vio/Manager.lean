import Verif.Vio.Zupt

/-!
# Model of the manager after initialisation

Source: `ov_msckf/src/core/VioManager.cpp`: `feed_measurement_imu`, `track_image_and_update` (and `feed_measurement_simulation`, which does the same with simulated tracks), `do_feature_propagate_update`.
-/

set_option autoImplicit false
open Classical

namespace Verif.Vio

open Verif Verif.Types Verif.St Verif.Imu Verif.Prop_ Verif.Feat Verif.Disp

/-- options: the zero velocity updater if `try_zupt` is set (VioManager.cpp:159), `zupt_only_at_beginning`, the propagator's options and noises -/
structure MCfg where
  Z : Option ZCfg
  onlyBeg : Bool
  po : POpts
  N : Noise

/-- members of the manager and of its propagator and zero velocity updater: `state`, the updater's memory, the propagator's `last_prop_time_offset` (`none` before its first use), `has_moved_since_zupt`, `did_zupt_update`, the
IMU buffers of the propagator and of the updater, the feature database -/
structure Mgr where
  st : State
  zmem : ZMem
  off : Option ℝ
  moved : Bool
  did : Bool
  buf : List Reading
  zbuf : List Reading
  db : DB ℝ Uv

/-- the zero velocity updater when it is used, VioManager.cpp:186, 294 -/
def zuptOn (cfg : MCfg) (m : Mgr) : Option ZCfg := match cfg.Z with
  | some Z => if cfg.onlyBeg = false ∨ m.moved = false then some Z else none
  | none => none

/-- `oldest_time`, VioManager.cpp:170-173 (an empty window gives infinity, hence `-1`) -/
noncomputable def oldestTime (s : State) : ℝ := match margtimestep s with
  | none => -1
  | some o => if o > s.ts then -1 else o

/-- `VioManager::feed_measurement_imu` when initialised, VioManager.cpp:166-189 -/
noncomputable def feedImu (cfg : MCfg) (m : Mgr) (r : Reading) : Mgr :=
  { m with buf := feed m.buf r (oldestTime m.st), zbuf := if (zuptOn cfg m).isSome then feed m.zbuf r (oldestTime m.st) else m.zbuf }

/-- propagation to the image, VioManager.cpp:340-342 -/
noncomputable def propTo (cfg : MCfg) (m : Mgr) (t : ℝ) : Option Mgr :=
  if m.st.ts ≠ t then (propagateAndClone cfg.po cfg.N m.buf m.off m.st t).map fun r => { m with st := r.1, off := some r.2 } else some m

/-- `VioManager::do_feature_propagate_update`, VioManager.cpp:323-596. `upd` are the operations which the MSCKF and SLAM updaters, `delayed_init`, `marginalize_slam` and `change_anchors` perform on the state; the clean up of the database is left to the
caller (each image may come with any database). -/
noncomputable def featUpdate (lib : Lib) (cfg : MCfg) (m : Mgr) (t : ℝ) (upd : List Op) : Option Mgr :=
  if m.st.ts > t then some m
  else do
    let m1 ← propTo cfg m t
    if m1.st.clones.length < min m1.st.opts.maxClones 5 then some m1
    else if m1.st.ts ≠ t then some m1
    else do
      let s2 ← run lib m1.st upd
      let s3 ← margOld s2
      some { m1 with st := s3, moved := true }

/-- the attempt of a zero velocity update, VioManager.cpp:296-298 -/
noncomputable def zuptTry (lib : Lib) (Z : ZCfg) (m : Mgr) (t : ℝ) : Option Mgr :=
  if m.st.ts ≠ t then (tryUpdate lib Z m.zmem m.zbuf m.db m.st t).map fun r => { m with did := r.1, zmem := r.2.1, st := r.2.2.1, db := r.2.2.2 } else some m

/-- an image when initialised, VioManager.cpp:253-320 (191-251 in simulation): `db` is the database after tracking. The assertion at 300 is `none`. -/
noncomputable def image (lib : Lib) (cfg : MCfg) (m : Mgr) (db : DB ℝ Uv) (t : ℝ) (upd : List Op) : Option Mgr :=
  match zuptOn cfg m with
  | none => featUpdate lib cfg { m with db := db } t upd
  | some Z => do
    let m1 ← zuptTry lib Z { m with db := db } t
    if m1.did then
      if m1.st.ts = t then do
        let off ← tOff m1.st
        some { m1 with buf := cleanOld (t + off - 0.10) m1.buf, zbuf := cleanOld (t + off - 0.10) m1.zbuf }
      else none
    else featUpdate lib cfg m1 t upd

/-- what is fed to the manager -/
inductive Ev where
  | imu (r : Reading)
  | image (db : DB ℝ Uv) (t : ℝ) (upd : List Op)

noncomputable def Ev.run (lib : Lib) (cfg : MCfg) (m : Mgr) : Ev → Option Mgr
  | .imu r => some (feedImu cfg m r)
  | .image db t upd => Vio.image lib cfg m db t upd

noncomputable def runEvs (lib : Lib) (cfg : MCfg) : Mgr → List Ev → Option Mgr
  | m, [] => some m
  | m, e :: es => (e.run lib cfg m).bind fun m1 => runEvs lib cfg m1 es

end Verif.Vio
