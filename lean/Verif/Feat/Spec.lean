import Verif.Feat.Model

/-!
# Specification of the feature database: a log of observations

The abstract state is a flat list of observations in insertion order, plus which feature ids exist and
which are flagged for deletion.  Nothing here refers to the per-camera maps of the implementation.
-/

namespace Verif.Feat

/-- Observer: the observations a feature stores for a camera, as (time, raw uv, normalised uv) triples. -/
def Feature.obs {T U : Type} (f : Feature T U) (cam : Nat) : List (T × U × U) :=
  (f.times.getL cam).zip ((f.uvs.getL cam).zip (f.uvsNorm.getL cam))

/-- Observer: the observations a database stores for a feature id and a camera. -/
def obs {T U : Type} (db : DB T U) (id cam : Nat) : List (T × U × U) :=
  match db.get? id with
  | some f => f.obs cam
  | none => []

end Verif.Feat

namespace Verif.Feat.Spec

variable {T U : Type}

/-- one observation: feature `id` seen by camera `cam` at time `t` at raw pixel `u`, normalised `n` -/
structure Obs (T U : Type) where
  id : Nat
  cam : Nat
  t : T
  u : U
  n : U
deriving DecidableEq, Repr

/-- abstract database -/
structure Log (T U : Type) where
  log : List (Obs T U)
  present : Nat → Bool
  flagged : Nat → Bool

/-- the observations of feature `id` by camera `cam`, oldest insertion first -/
def track (log : List (Obs T U)) (id cam : Nat) : List (Obs T U) :=
  log.filter fun o => o.id == id && o.cam == cam

/-- forget the features selected by `p` completely -/
def Log.drop (s : Log T U) (p : Nat → Bool) : Log T U :=
  { log := s.log.filter fun o => !p o.id
    present := fun i => s.present i && !p i
    flagged := fun i => s.flagged i && !p i }

/-- keep only observations satisfying `p`; features without observations disappear -/
def Log.restrict (s : Log T U) (p : Obs T U → Bool) : Log T U :=
  let log' := s.log.filter p
  { log := log'
    present := fun i => s.present i && log'.any (fun o => o.id == i)
    flagged := fun i => s.flagged i && log'.any (fun o => o.id == i) }

/-- some camera's most recently inserted observation of the feature is at time `≥ t` -/
def newer [LinearOrder T] (log : List (Obs T U)) (t : T) (id : Nat) : Bool :=
  log.any fun o => o.id == id &&
    match (track log id o.cam).getLast? with | some l => decide (t ≤ l.t) | none => false

/-- some camera's first inserted observation of the feature is at time `< t` -/
def older [LinearOrder T] (log : List (Obs T U)) (t : T) (id : Nat) : Bool :=
  log.any fun o => o.id == id &&
    match (track log id o.cam).head? with | some l => decide (l.t < t) | none => false

/-- some observation of the feature is at time `t` -/
def seenAt [LinearOrder T] (log : List (Obs T U)) (t : T) (id : Nat) : Bool :=
  log.any fun o => o.id == id && decide (o.t = t)

/-- ids returned by a query with test `hit` -/
def Log.returned (s : Log T U) (hit : Nat → Bool) (skipDeleted : Bool) (i : Nat) : Bool :=
  s.present i && !(skipDeleted && s.flagged i) && hit i

/-- abstract operations -/
def Log.run [LinearOrder T] (s : Log T U) : Op T U → Log T U
  | .update id t cam u n =>
    { s with log := s.log ++ [⟨id, cam, t, u, n⟩], present := fun i => s.present i || i == id }
  | .getFeature id r => if r then s.drop (fun i => i == id) else s
  | .notContainingNewer t r sk => if r then s.drop (s.returned (fun i => !newer s.log t i) sk) else s
  | .containingOlder t r sk => if r then s.drop (s.returned (older s.log t) sk) else s
  | .containing t r sk => if r then s.drop (s.returned (seenAt s.log t) sk) else s
  | .cleanup => s.drop s.flagged
  | .cleanupMeasurements t => s.restrict fun o => decide (t < o.t)
  | .cleanupMeasurementsExact t => s.restrict fun o => decide (o.t ≠ t)
  | .markDelete id => { s with flagged := fun i => s.flagged i || (i == id && s.present i) }
  | .cleanOldOf id valid => { s with log := s.log.filter fun o => !(o.id == id) || valid.contains o.t }
  | .cleanInvalidOf id invalid =>
    { s with log := s.log.filter fun o => !(o.id == id) || !(invalid.contains o.t) }

/-- abstract append: add the other log's observations whose (feature, camera, time) is not yet known -/
def Log.append [DecidableEq T] (s o : Log T U) : Log T U :=
  { log := s.log ++ o.log.filter fun x =>
      !(s.log.any fun y => y.id == x.id && y.cam == x.cam && decide (y.t = x.t))
    present := fun i => s.present i || o.present i
    flagged := s.flagged }

/-- the abstract database after a history -/
def hist [LinearOrder T] : Hist T U → Log T U
  | .empty => { log := [], present := fun _ => false, flagged := fun _ => false }
  | .step h op => (hist h).run op
  | .append h o => (hist h).append (hist o)

end Verif.Feat.Spec

/-- the abstract log's observations of a feature by a camera, in the shape of the observer `obs` -/
def Verif.Feat.logObs {T U : Type} (log : List (Spec.Obs T U)) (id cam : Nat) : List (T × U × U) :=
  (Spec.track log id cam).map fun o => (o.t, o.u, o.n)
