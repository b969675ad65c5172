import Verif.Prop.PropsC

/-!
# The columns of the transition matrix belong to the variables in the order in which they are listed (C66)

`C74` says that the transition matrix is the derivative of the propagated mean with respect to `perturbImu` and `perturbCal`, which take their slices
of the error vector at fixed places. Here: these are the places of the variables in the list handed to the covariance propagation.
-/

namespace Verif.Prop_

open Verif Verif.Types Verif.St

namespace Spec

/-- the number of error components of the variables listed before `u` (`none`: not listed). -/
def place (s : State) : List Ref → ℕ → Option ℕ
  | [], _ => none
  | r :: rs, u => if r = (u, .self) then some 0 else (place s rs u).map (· + St.Spec.dim s r.1)

/-- the state in which each listed variable is corrected by its own components of `δ`, counted through the list. -/
noncomputable def movedBy (s : State) (order : List Ref) (δ : ℕ → ℝ) : State :=
  { s with obj := fun u => match place s order u with
      | some k => { s.obj u with val := (s.obj u).val.update fun i => δ (k + i) }
      | none => s.obj u }

end Spec

variable {lib : Lib} {o : Opts} {s : State}

/-- **C66** (columns) In every state of the program and for every option combination, correcting each listed variable by the components of an error
vector at its own place in the list is the perturbation with respect to which the transition matrix is the derivative (`C74`), for the IMU and all
its intrinsics. -/
theorem C66_columns (h : St.Spec.Prog lib o s) {c : Cal} (hc : calOf s = some c) {x f : Imu16} (hx : imuOf s = some (x, f)) (δ : ℕ → ℝ) :
    calOf (Spec.movedBy s (phiOrder o) δ) = some (Spec.perturbCal o c δ) ∧
      imuOf (Spec.movedBy s (phiOrder o) δ) = some (Spec.perturbImu x δ, f) := by
  have hW := prog_W h
  have hsz : ∀ u, u < 7 → St.Spec.dim s u = (heap0 u).val.size := fun u hu => (sameKind_size (hW.kind u (by unfold base; omega))).symm
  have z0 : St.Spec.dim s 0 = 15 := by rw [hsz 0 (by norm_num)]; simp [heap0, Val.size]
  have z1 : St.Spec.dim s 1 = 6 := by rw [hsz 1 (by norm_num)]; simp [heap0, Val.size]
  have z2 : St.Spec.dim s 2 = 6 := by rw [hsz 2 (by norm_num)]; simp [heap0, Val.size]
  have z3 : St.Spec.dim s 3 = 9 := by rw [hsz 3 (by norm_num)]; simp [heap0, Val.size]
  unfold imuOf at hx
  unfold calOf at hc
  cases h0 : (s.obj 0).val <;> simp only [imuUid, h0] at hx <;> try cases hx
  rename_i x0
  cases hf : (s.obj 0).fej <;> simp only [hf] at hx <;> try cases hx
  cases h1 : (s.obj 1).val <;> simp only [h1] at hc <;> try cases hc
  cases h2 : (s.obj 2).val <;> simp only [h2] at hc <;> try cases hc
  cases h3 : (s.obj 3).val <;> simp only [h3] at hc <;> try cases hc
  cases h4 : (s.obj 4).val <;> simp only [h4] at hc <;> try cases hc
  cases h5 : (s.obj 5).val <;> simp only [h5] at hc <;> try cases hc
  cases g1 : o.calibImu <;> cases g2 : o.calibG <;> cases g3 : o.kalibr <;>
    simp [calOf, imuOf, Spec.movedBy, phiOrder, Spec.place, g1, g2, g3, imuUid, z0, z1, z2, z3, h0, h1, h2, h3, h4, h5, hf, Spec.perturbCal,
      Spec.perturbImu, Val.update]
  all_goals
    congr 1
    funext i
    fin_cases i <;> simp [sl]

/-- Non-vacuity: the state of the example of `C22` with two intrinsics calibrated has the gyroscope rotation at place 27. -/
example : Spec.place exS (phiOrder { St.Spec.o0 with calibImu := true, calibG := false, kalibr := true }) 4 = some 27 ∧
    calOf exS = some ⟨imuDefault, imuDefault, fun _ => 0, idQuat, idQuat⟩ := by
  refine ⟨?_, exS_cal⟩
  simp [Spec.place, phiOrder, St.Spec.dim, exS, ctor, ctorVars, St.Spec.o0, push, heap0, imuUid, Val.size]

end Verif.Prop_
