import Verif.Base.AMap
import Mathlib.Order.Basic

/-!
# Model of `ov_core::Feature` and `ov_core::FeatureDatabase`

Sources: `ov_core/src/feat/Feature.{h,cpp}`, `ov_core/src/feat/FeatureDatabase.{h,cpp}`.

Simplifications: `T` (the type of timestamps, `double` in the code) is any linear order, `U` (pixel
coordinates, `Eigen::Vector2f`) is any type.  `none` as a result means that the C++ code aborts
(a failed `assert`, or `.at()` throwing).  The triangulation fields (`anchor_*`, `p_FinA`, `p_FinG`)
are not touched by these operations and are left out.
-/

namespace Verif.Feat

open Verif

variable {T U : Type}

/-- `ov_core::Feature`, Feature.h:39-67. The three per-camera maps are kept separately, as in the code. -/
structure Feature (T U : Type) where
  featid : Nat
  toDelete : Bool
  uvs : AMap (List U)
  uvsNorm : AMap (List U)
  times : AMap (List T)
deriving DecidableEq, Repr

/-- `FeatureDatabase::features_idlookup`, FeatureDatabase.h (member). -/
abbrev DB (T U : Type) := AMap (Feature T U)

/-- The erase loop with three iterators, Feature.cpp:31-51 (also 60-80, 89-109): walk the three vectors
in lockstep and erase the entries whose time satisfies `p`. `none`: the size asserts fail. -/
def eraseLoop (p : T → Bool) : List T → List U → List U → Option (List T × List U × List U)
  | [], [], [] => some ([], [], [])
  | t :: ts, u :: us, n :: ns => do
    let (ts', us', ns') ← eraseLoop p ts us ns
    if p t then pure (ts', us', ns') else pure (t :: ts', u :: us', n :: ns')
  | _, _, _ => none

/-- One iteration of the camera loop of the three `clean_*` functions, Feature.cpp:29-52. -/
def cleanCam (p : T → Bool) (f : Feature T U) (cam : Nat) : Option (Feature T U) := do
  let (ts, us, ns) ← eraseLoop p (f.times.getL cam) (f.uvs.getL cam) (f.uvsNorm.getL cam)
  pure { f with
    times := f.times.set cam ts, uvs := f.uvs.set cam us, uvsNorm := f.uvsNorm.set cam ns }

/-- Common shape of the `clean_*` functions: loop over all cameras in `timestamps`. Feature.cpp:26-111 -/
def cleanWith (p : T → Bool) (f : Feature T U) : Option (Feature T U) :=
  f.times.keys.foldlM (cleanCam p) f

/-- `Feature::clean_old_measurements`, Feature.cpp:26-53 -/
def cleanOld [DecidableEq T] (valid : List T) (f : Feature T U) : Option (Feature T U) :=
  cleanWith (fun t => !(valid.contains t)) f

/-- `Feature::clean_invalid_measurements`, Feature.cpp:55-82 -/
def cleanInvalid [DecidableEq T] (invalid : List T) (f : Feature T U) : Option (Feature T U) :=
  cleanWith (fun t => invalid.contains t) f

/-- `Feature::clean_older_measurements`, Feature.cpp:84-111 -/
def cleanOlder [LinearOrder T] (t0 : T) (f : Feature T U) : Option (Feature T U) :=
  cleanWith (fun t => decide (t ≤ t0)) f

/-- `FeatureDatabase::get_feature`, FeatureDatabase.cpp:29-39 -/
def getFeature (db : DB T U) (id : Nat) (remove : Bool) : Option (Feature T U) × DB T U :=
  match db.get? id with
  | some f => (some f, if remove then db.erase id else db)
  | none => (none, db)

/-- Push one observation to the three maps, FeatureDatabase.cpp:67-69 and 79-81. -/
def Feature.pushObs (f : Feature T U) (cam : Nat) (t : T) (u n : U) : Feature T U :=
  { f with uvs := f.uvs.push cam u, uvsNorm := f.uvsNorm.push cam n, times := f.times.push cam t }

/-- a default constructed feature, Feature.h:39-67 with FeatureDatabase.cpp:77-78
(`make_shared<Feature>()` value-initialises, so `to_delete` is false). -/
def Feature.fresh (id : Nat) : Feature T U :=
  { featid := id, toDelete := false, uvs := [], uvsNorm := [], times := [] }

/-- `FeatureDatabase::update_feature`, FeatureDatabase.cpp:59-85 -/
def updateFeature (db : DB T U) (id : Nat) (t : T) (cam : Nat) (u n : U) : DB T U :=
  match db.get? id with
  | some f => db.set id (f.pushObs cam t u n)
  | none => db.set id ((Feature.fresh id).pushObs cam t u n)

/-- the erase-while-iterating loop shared by the three queries: FeatureDatabase.cpp:94-119, 135-160, 176-201.
`hit` is the per-feature test. Returned features in iteration order, and the database left behind. -/
def queryLoop (hit : Feature T U → Bool) (remove skipDeleted : Bool) :
    DB T U → List (Feature T U) × DB T U
  | [] => ([], [])
  | e :: db =>
    let (fs, db') := queryLoop hit remove skipDeleted db
    if skipDeleted && e.2.toDelete then (fs, e :: db')
    else if hit e.2 then (e.2 :: fs, if remove then db' else e :: db')
    else (fs, e :: db')

/-- the camera loop of `features_not_containing_newer`, FeatureDatabase.cpp:102-108 -/
def hasNewer [LinearOrder T] (t : T) (f : Feature T U) : Bool :=
  f.times.any fun pr => match pr.2.getLast? with | some l => decide (t ≤ l) | none => false

/-- `FeatureDatabase::features_not_containing_newer`, FeatureDatabase.cpp:87-126 -/
def featuresNotContainingNewer [LinearOrder T] (db : DB T U) (t : T) (remove skipDeleted : Bool) :=
  queryLoop (fun f => !(hasNewer t f)) remove skipDeleted db

/-- the camera loop of `features_containing_older`, FeatureDatabase.cpp:143-149 -/
def hasOlder [LinearOrder T] (t : T) (f : Feature T U) : Bool :=
  f.times.any fun pr => match pr.2.head? with | some l => decide (l < t) | none => false

/-- `FeatureDatabase::features_containing_older`, FeatureDatabase.cpp:128-167 -/
def featuresContainingOlder [LinearOrder T] (db : DB T U) (t : T) (remove skipDeleted : Bool) :=
  queryLoop (hasOlder t) remove skipDeleted db

/-- the camera loop of `features_containing`, FeatureDatabase.cpp:184-190 -/
def hasTime [DecidableEq T] (t : T) (f : Feature T U) : Bool :=
  f.times.any fun pr => pr.2.contains t

/-- `FeatureDatabase::features_containing`, FeatureDatabase.cpp:169-209 -/
def featuresContaining [DecidableEq T] (db : DB T U) (t : T) (remove skipDeleted : Bool) :=
  queryLoop (hasTime t) remove skipDeleted db

/-- `FeatureDatabase::cleanup`, FeatureDatabase.cpp:211-224 -/
def cleanup (db : DB T U) : DB T U := db.filter fun e => !e.2.toDelete

/-- number of measurements of a feature, FeatureDatabase.cpp:232-235 -/
def ctMeas (f : Feature T U) : Nat := (f.times.map fun e => e.2.length).sum

/-- the loop of `cleanup_measurements(_exact)`, FeatureDatabase.cpp:228-242 and 248-262 -/
def cleanupLoop (clean : Feature T U → Option (Feature T U)) : DB T U → Option (DB T U)
  | [] => some []
  | e :: db => do
    let f ← clean e.2
    let db' ← cleanupLoop clean db
    if ctMeas f < 1 then pure db' else pure ((e.1, f) :: db')

/-- `FeatureDatabase::cleanup_measurements`, FeatureDatabase.cpp:226-243 -/
def cleanupMeasurements [LinearOrder T] (db : DB T U) (t : T) : Option (DB T U) :=
  cleanupLoop (cleanOlder t) db

/-- `FeatureDatabase::cleanup_measurements_exact`, FeatureDatabase.cpp:245-263 -/
def cleanupMeasurementsExact [DecidableEq T] (db : DB T U) (t : T) : Option (DB T U) :=
  cleanupLoop (cleanInvalid [t]) db

/-- `FeatureDatabase::get_oldest_timestamp`, FeatureDatabase.cpp:265-276; `m1` is the `-1` sentinel. -/
def getOldestTimestamp [LinearOrder T] (m1 : T) (db : DB T U) : T :=
  db.foldl (fun o e => e.2.times.foldl (fun o pr =>
    match pr.2.head? with
    | some h => if o = m1 ∨ o > h then h else o
    | none => o) o) m1

/-- Inner loop of `append_new_measurements` for a camera both databases have,
FeatureDatabase.cpp:297-305. `seen` is the copy `temp_times` taken before the loop.
`none`: the source vectors have different lengths and `.at(i)` throws. -/
def appendLoop [DecidableEq T] (seen : List T) :
    List T → List U → List U → List T × List U × List U → Option (List T × List U × List U)
  | [], _, _, acc => some acc
  | t :: ts, u :: us, n :: ns, (a, b, c) =>
    if seen.contains t then appendLoop seen ts us ns (a, b, c)
    else appendLoop seen ts us ns (a ++ [t], b ++ [u], c ++ [n])
  | t :: ts, us, ns, acc =>
    -- a vector is exhausted: only reached by a `.at(i)` that throws if the time has to be copied
    if seen.contains t then appendLoop seen ts us.tail ns.tail acc else none

/-- body of the camera loop, FeatureDatabase.cpp:288-307 -/
def appendCam [DecidableEq T] (src : Feature T U) (f : Feature T U) (cam : Nat) : Option (Feature T U) :=
  match f.times.get? cam with
  | none => do
    let ts ← src.times.get? cam
    let us ← src.uvs.get? cam
    let ns ← src.uvsNorm.get? cam
    pure { f with times := f.times.set cam ts, uvs := f.uvs.set cam us, uvsNorm := f.uvsNorm.set cam ns }
  | some seen => do
    let us ← f.uvs.get? cam
    let ns ← f.uvsNorm.get? cam
    let sus ← src.uvs.get? cam
    let sns ← src.uvsNorm.get? cam
    let (a, b, c) ← appendLoop seen (src.times.getL cam) sus sns (seen, us, ns)
    pure { f with times := f.times.set cam a, uvs := f.uvs.set cam b, uvsNorm := f.uvsNorm.set cam c }

/-- body of the feature loop, FeatureDatabase.cpp:283-318 -/
def appendFeat [DecidableEq T] (db : DB T U) (e : Nat × Feature T U) : Option (DB T U) :=
  match db.get? e.1 with
  | some f => do
    let f' ← e.2.times.keys.foldlM (appendCam e.2) f
    pure (db.set e.1 f')
  | none => pure (db.set e.1 { e.2 with toDelete := false })

/-- `FeatureDatabase::append_new_measurements`, FeatureDatabase.cpp:278-321 -/
def appendNew [DecidableEq T] (db other : DB T U) : Option (DB T U) :=
  other.foldlM appendFeat db

/-- Operations a user can apply to a database. `markDelete`, `cleanOldOf`, `cleanInvalidOf` are the mutations done through
the shared pointers that queries hand out (e.g. VioManager.cpp:567-570, UpdaterMSCKF.cpp clean_old_measurements). -/
inductive Op (T U : Type)
  | update (id : Nat) (t : T) (cam : Nat) (u n : U)
  | getFeature (id : Nat) (remove : Bool)
  | notContainingNewer (t : T) (remove skipDeleted : Bool)
  | containingOlder (t : T) (remove skipDeleted : Bool)
  | containing (t : T) (remove skipDeleted : Bool)
  | cleanup
  | cleanupMeasurements (t : T)
  | cleanupMeasurementsExact (t : T)
  | markDelete (id : Nat)
  | cleanOldOf (id : Nat) (valid : List T)
  | cleanInvalidOf (id : Nat) (invalid : List T)

/-- One database operation; `none` means the process aborts. -/
def Op.run [LinearOrder T] (db : DB T U) : Op T U → Option (DB T U)
  | .update id t cam u n => some (updateFeature db id t cam u n)
  | .getFeature id r => some (Feat.getFeature db id r).2
  | .notContainingNewer t r s => some (featuresNotContainingNewer db t r s).2
  | .containingOlder t r s => some (featuresContainingOlder db t r s).2
  | .containing t r s => some (featuresContaining db t r s).2
  | .cleanup => some (Feat.cleanup db)
  | .cleanupMeasurements t => Feat.cleanupMeasurements db t
  | .cleanupMeasurementsExact t => Feat.cleanupMeasurementsExact db t
  | .markDelete id => some (db.modify id fun f => { f with toDelete := true })
  | .cleanOldOf id valid =>
    match db.get? id with
    | some f => do let f' ← cleanOld valid f; pure (db.set id f')
    | none => some db
  | .cleanInvalidOf id invalid =>
    match db.get? id with
    | some f => do let f' ← cleanInvalid invalid f; pure (db.set id f')
    | none => some db

/-- Histories: built from an empty database by any sequence of operations, including appending
(`append_new_measurements`) another database that was itself built by a history. -/
inductive Hist (T U : Type)
  | empty
  | step (h : Hist T U) (op : Op T U)
  | append (h other : Hist T U)

/-- The database after a history (`none`: the process aborted somewhere on the way). -/
def Hist.run [LinearOrder T] : Hist T U → Option (DB T U)
  | .empty => some []
  | .step h op => do op.run (← h.run)
  | .append h o => do appendNew (← h.run) (← o.run)

end Verif.Feat
