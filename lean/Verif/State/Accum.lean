import Verif.State.Model

/-!
# The covariance part of `Propagator::propagate_and_clone`
-/

open Classical

namespace Verif.St

open Verif Verif.Types Finset

/-- `State::imu_intrinsic_size`, State.h:126-135. -/
def intrSize (o : Opts) : ℕ := if o.calibImu then 15 + (if o.calibG then 9 else 0) else 0

/-- `Phi_order`, Propagator.cpp:116-129. -/
def phiOrder (o : Opts) : List Ref :=
  [(imuUid, .self)] ++
    (if o.calibImu then
      [(1, .self), (2, .self)] ++ (if o.calibG then [(3, .self)] else []) ++
        (if o.kalibr then [(4, .self)] else [(5, .self)])
     else [])

/-- One turn of the loop of Propagator.cpp:83-99 with the interval's `F` and `Qdi`:
`Phi_summed = F*Phi_summed; Qd_summed = F*Qd_summed*Fᵀ + Qdi; Qd_summed = 0.5*(Qd_summed + Qd_summedᵀ)`. -/
noncomputable def accumStep (d : ℕ) (acc : Mat × Mat) (FQ : Mat × Mat) : Mat × Mat :=
  let X : Mat := fun i j => Mat.mul d (Mat.mul d FQ.1 acc.2) (Mat.tr FQ.1) i j + FQ.2 i j
  (Mat.mul d FQ.1 acc.1, fun i j => 0.5 * (X i j + X j i))

/-- The loop, started with identity and zero (Propagator.cpp:76-100). -/
noncomputable def accum (d : ℕ) (steps : List (Mat × Mat)) : Mat × Mat :=
  steps.foldl (accumStep d) (Mat.one, fun _ _ => 0)

/-- Propagator.cpp:116-130: one `EKFPropagation` with the accumulated matrices. -/
noncomputable def propagateSummed (s : State) (steps : List (Mat × Mat)) : Option State :=
  let d := intrSize s.opts + 15
  let a := accum d steps
  propagate s (phiOrder s.opts) (phiOrder s.opts) ⟨d, d, a.1⟩ ⟨d, d, a.2⟩

/-- Specification: apply one `EKFPropagation` per IMU interval instead. -/
noncomputable def propagateEach (s : State) : List (Mat × Mat) → Option State
  | [] => some s
  | FQ :: t =>
    let d := intrSize s.opts + 15
    (propagate s (phiOrder s.opts) (phiOrder s.opts) ⟨d, d, FQ.1⟩ ⟨d, d, FQ.2⟩).bind fun s' => propagateEach s' t

end Verif.St
