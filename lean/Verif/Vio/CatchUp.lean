import Verif.Vio.Boot
import Verif.Vio.InitSm

/-!
# Model of the catching up after an initialisation in the background

Source: `ov_msckf/src/core/VioManagerHelper.cpp` (`try_to_initialize`, lines 145-165): the image times that came while the initialiser was running (`camera_queue_init`) are in a queue; `initTargets` (InitSm) selects from it, and here the
state is moved through the selected times.
-/

set_option autoImplicit false
open Classical

namespace Verif.Vio

open Verif Verif.Types Verif.St Verif.Imu Verif.Prop_

/-- the loop of VioManagerHelper.cpp:160-163; the second component is the propagator's `last_prop_time_offset`. `none`: a call ends the program (or throws). -/
noncomputable def catchUp (po : POpts) (N : Noise) (buf : List Reading) : State → Option ℝ → List ℝ → Option (State × Option ℝ)
  | s, lo, [] => some (s, lo)
  | s, lo, t :: ts => do
    let (s1, off) ← propagateAndClone po N buf lo s t
    let s2 ← margOld s1
    catchUp po N buf s2 (some off) ts

/-- VioManagerHelper.cpp:145-165. -/
noncomputable def catchUpAll (po : POpts) (N : Noise) (buf : List Reading) (s : State) (lo : Option ℝ) (queue : List ℝ) : Option (State × Option ℝ) :=
  catchUp po N buf s lo (initTargets s.opts.maxClones s.ts queue)

end Verif.Vio
