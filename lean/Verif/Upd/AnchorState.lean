import Verif.Upd.Anchor
import Verif.Upd.Slam

/-!
# Model of the anchor changes on the filter state, `ov_msckf/src/update/UpdaterSLAM.cpp:481-647`

`Upd.Anchor` models what an anchor change computes (new values, arguments of `EKFPropagation`); here it is carried out on the state.
-/

open Classical

namespace Verif.Upd

open Verif Mat Verif.Land Verif.Types

/-- the landmark object with its anchor. -/
def almOf (s : St.State) (M : ℕ → LMeta) (u : ℕ) : ALm := ⟨lmOf s M u, (M u).cam, (M u).t⟩

/-- `perform_anchor_change`, UpdaterSLAM.cpp:505-647, on the state: the covariance propagation of 636 (`phi_order_NEW` is the landmark, `phi_order_OLD` the anchors' variables
and the landmark, `Q` is zero), then the new value and first estimate, and the fields of the landmark object. -/
noncomputable def anchorStep (lib : St.Lib) (C : SCfg) (u nc : ℕ) (nt : ℝ) (s : St.State) (M : ℕ → LMeta) : Option (St.State × (ℕ → LMeta)) := do
  let R ← performAnchorChange (view s C.fej C.kind) (almOf s M u) nt nc
  let refs ← R.order.mapM (refOf s)
  let s1 ← St.step lib s (.propagate [(u, .self)] (refs ++ [(u, .self)]) ⟨R.size, total R.order + (s.obj u).val.size, R.Phi⟩ ⟨R.size, R.size, fun _ _ => 0⟩)
  let s2 ← St.step lib s1 (.setVal u (lmVal R.lm.lm.dim R.lm.lm.val))
  let s3 ← St.step lib s2 (.setFej u (lmVal R.lm.lm.dim R.lm.lm.fej))
  some (s3, fun v => if v = u then { M u with cam := R.lm.cam, t := R.lm.t, uv0 := R.lm.lm.uv0, uv0f := R.lm.lm.uv0f } else M v)

/-- body of the loop of `change_anchors`, UpdaterSLAM.cpp:491-502. -/
noncomputable def anchorOne (lib : St.Lib) (C : SCfg) (mt : ℝ) (u : ℕ) (A : St.State × (ℕ → LMeta)) : Option (St.State × (ℕ → LMeta)) :=
  if (A.2 u).rep = .global3d ∨ (A.2 u).rep = .globalFull then some A
  else if ¬ mt ≤ (A.2 u).t then none
  else if (A.2 u).t = mt then
    (A.2 u).cam.bind fun c => anchorStep lib C u c A.1.ts A.1 A.2
  else some A

/-- the loop of `change_anchors`. -/
noncomputable def anchorLoop (lib : St.Lib) (C : SCfg) (mt : ℝ) : List (ℕ × ℕ) → St.State × (ℕ → LMeta) → Option (St.State × (ℕ → LMeta))
  | [], A => some A
  | e :: t, A => do
    let A' ← anchorOne lib C mt e.2 A
    anchorLoop lib C mt t A'

/-- `change_anchors`, UpdaterSLAM.cpp:481-503. -/
noncomputable def anchorsState (lib : St.Lib) (C : SCfg) (s : St.State) (M : ℕ → LMeta) : Option (St.State × (ℕ → LMeta)) :=
  if s.clones.length ≤ s.opts.maxClones then some (s, M)
  else do
    let mt ← St.margtimestep s
    anchorLoop lib C mt s.slam (s, M)

end Verif.Upd
