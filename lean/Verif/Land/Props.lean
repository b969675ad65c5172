import Verif.Land.Model
import Verif.Quat.Lemmas

/-!
# Properties of the landmark representations (C27, C28)
-/

open Classical

namespace Verif.Land

open Verif

namespace Spec

/-- points a representation can express: any point in Cartesian form, any point but the origin in spherical form, any point off the plane of the
camera centre in inverse depth form. -/
def Dom (r : Rep) (p : V3) : Prop :=
  match r with
  | .global3d | .anchored3d => True
  | .globalFull | .anchoredFull => p ≠ 0
  | .anchoredMsckf | .anchoredSingle => p 2 ≠ 0
  | .unknown => False

/-- the dimension the filter gives a landmark of this representation (UpdaterSLAM.cpp:142). -/
def dimOf (r : Rep) : ℕ := if r = .anchoredSingle then 1 else 3

/-- the landmark lives relative to a camera pose. -/
def Anchored : Rep → Prop
  | .anchored3d | .anchoredFull | .anchoredMsckf | .anchoredSingle => True
  | _ => False

end Spec

/-- spherical coordinates invert, including on the polar axis. -/
theorem fullXyz_toFull (p : V3) (h : p ≠ 0) : fullXyz (toFull p) = p := by
  have hn : norm3 p ≠ 0 := by
    intro h0
    apply h
    have h2 : p 0 * p 0 + p 1 * p 1 + p 2 * p 2 = 0 := by
      have := Real.sqrt_eq_zero'.1 (show Real.sqrt _ = 0 from h0)
      simp only [dot3] at this
      nlinarith [mul_self_nonneg (p 0), mul_self_nonneg (p 1), mul_self_nonneg (p 2)]
    funext i
    fin_cases i <;> simp <;> nlinarith [mul_self_nonneg (p 0), mul_self_nonneg (p 1), mul_self_nonneg (p 2)]
  have hpos : 0 < norm3 p := lt_of_le_of_ne (Real.sqrt_nonneg _) (Ne.symm hn)
  have hsq : norm3 p ^ 2 = p 0 ^ 2 + p 1 ^ 2 + p 2 ^ 2 := by
    have : norm3 p ^ 2 = dot3 p p := by
      apply Real.sq_sqrt
      simp only [dot3]; nlinarith [mul_self_nonneg (p 0), mul_self_nonneg (p 1), mul_self_nonneg (p 2)]
    rw [this]; simp only [dot3]; ring
  generalize hN : norm3 p = N at *
  have hle : |p 2| ≤ N := abs_le_of_sq_le_sq (by nlinarith [sq_nonneg (p 0), sq_nonneg (p 1)]) hpos.le
  obtain ⟨hl, hu⟩ := abs_le.1 hle
  have hcos : Real.cos (Real.arccos (1 / N * p 2)) = 1 / N * p 2 := by
    apply Real.cos_arccos
    · rw [one_div, inv_mul_eq_div, le_div_iff₀ hpos]; linarith
    · rw [one_div, inv_mul_eq_div, div_le_iff₀ hpos]; linarith
  have hsin : Real.sin (Real.arccos (1 / N * p 2)) = Real.sqrt (p 0 ^ 2 + p 1 ^ 2) / N := by
    rw [Real.sin_arccos, show 1 - (1 / N * p 2) ^ 2 = (p 0 ^ 2 + p 1 ^ 2) / N ^ 2 by field_simp; linarith,
      Real.sqrt_div (by positivity), Real.sqrt_sq hpos.le]
  have hz : ‖(⟨p 0, p 1⟩ : ℂ)‖ = Real.sqrt (p 0 ^ 2 + p 1 ^ 2) := by
    rw [Complex.norm_def, Complex.normSq_mk]; congr 1; ring
  have hc : Real.sqrt (p 0 ^ 2 + p 1 ^ 2) * Real.cos (atan2 (p 1) (p 0)) = p 0 := by
    rw [← hz]; exact Complex.norm_mul_cos_arg _
  have hs : Real.sqrt (p 0 ^ 2 + p 1 ^ 2) * Real.sin (atan2 (p 1) (p 0)) = p 1 := by
    rw [← hz]; exact Complex.norm_mul_sin_arg _
  funext i
  fin_cases i <;> simp only [fullXyz, toFull, hN] <;> simp only [Matrix.cons_val_zero, Matrix.cons_val_one, Matrix.cons_val,
    Fin.zero_eta, Fin.mk_one, Fin.reduceFinMk]
  · rw [hsin]; field_simp; linarith
  · rw [hsin]; field_simp; linarith
  · rw [hcos]; field_simp

theorem msckfXyz_toMsckf (p : V3) (h : p 2 ≠ 0) : msckfXyz (toMsckf p) = p := by
  funext i
  fin_cases i <;> simp [msckfXyz, toMsckf] <;> field_simp

/-- **C27** (estimate) Setting the estimate of a landmark to a point its representation can express succeeds, reading it back gives that point,
and neither the first estimate nor what reading it returns in the representations that store it apart is touched. -/
theorem C27_value_roundtrip (l : Lm) (p : V3) (hd : l.dim = Spec.dimOf l.rep) (hp : Spec.Dom l.rep p) :
    ∃ l', l.setFromXyz p false = some l' ∧ l'.getXyz false = some p ∧ l'.rep = l.rep ∧ l'.dim = l.dim ∧ l'.fej = l.fej ∧ l'.uv0f = l.uv0f := by
  obtain ⟨r, n, v, f, u, w⟩ := l
  cases r <;> simp only [Spec.Dom, Spec.dimOf] at hp hd <;> simp at hd <;> subst hd
  · exact ⟨_, rfl, rfl, rfl, rfl, rfl, rfl⟩
  · exact ⟨_, rfl, congrArg some (fullXyz_toFull p hp), rfl, rfl, rfl, rfl⟩
  · exact ⟨_, rfl, rfl, rfl, rfl, rfl, rfl⟩
  · exact ⟨_, rfl, congrArg some (fullXyz_toFull p hp), rfl, rfl, rfl, rfl⟩
  · exact ⟨_, rfl, congrArg some (msckfXyz_toMsckf p hp), rfl, rfl, rfl, rfl⟩
  · refine ⟨_, rfl, congrArg some ?_, rfl, rfl, rfl, rfl⟩
    funext i
    simp
    field_simp

/-- **C27** (first estimate) For the Cartesian and the full inverse depth representations the same holds of the first estimate, and the estimate
is untouched. Missing: the other two anchored representations, for which it is false (`C27_fej_ignored`). -/
theorem C27_fej_roundtrip_partial (l : Lm) (p : V3) (hd : l.dim = Spec.dimOf l.rep) (hp : Spec.Dom l.rep p)
    (hr : l.rep ≠ .anchoredMsckf ∧ l.rep ≠ .anchoredSingle) :
    ∃ l', l.setFromXyz p true = some l' ∧ l'.getXyz true = some p ∧ l'.getXyz false = l.getXyz false ∧ l'.val = l.val ∧ l'.uv0 = l.uv0 := by
  obtain ⟨r, n, v, f, u, w⟩ := l
  cases r <;> simp only [Spec.Dom, Spec.dimOf] at hp hd hr <;> simp at hd hr <;> subst hd
  · exact ⟨_, rfl, rfl, rfl, rfl, rfl⟩
  · exact ⟨_, rfl, congrArg some (fullXyz_toFull p hp), rfl, rfl, rfl⟩
  · exact ⟨_, rfl, rfl, rfl, rfl, rfl⟩
  · exact ⟨_, rfl, congrArg some (fullXyz_toFull p hp), rfl, rfl, rfl⟩

/-- **C27** (finding) For the MSCKF and the single inverse depth representation the first estimate that is set is never read: whatever point is set
as first estimate, asking for the first estimate returns the current estimate. -/
theorem C27_fej_ignored (l : Lm) (p : V3) (hr : l.rep = .anchoredMsckf ∨ l.rep = .anchoredSingle) (hd : l.dim = Spec.dimOf l.rep) :
    ∃ l', l.setFromXyz p true = some l' ∧ l'.getXyz true = l.getXyz false ∧ l'.getXyz false = l.getXyz false := by
  obtain ⟨r, n, v, f, u, w⟩ := l
  rcases hr with hr | hr <;> simp only at hr <;> subst hr <;> simp [Spec.dimOf] at hd <;> subst hd
  · exact ⟨_, rfl, rfl, rfl⟩
  · exact ⟨_, rfl, rfl, rfl⟩

/-- so its round trip fails: the estimate is at depth 1, the first estimate is set to depth 2, and reading the first estimate gives depth 1. -/
theorem C27_fej_roundtrip_fails : ∃ (l : Lm) (p : V3), l.dim = Spec.dimOf l.rep ∧ Spec.Dom l.rep p ∧
    ∃ l', l.setFromXyz p true = some l' ∧ l'.getXyz true ≠ some p := by
  refine ⟨⟨.anchoredMsckf, 3, ![0, 0, 1], 0, 0, 0⟩, ![0, 0, 2], rfl, by simp [Spec.Dom], _, rfl, ?_⟩
  intro h
  have := congrFun (Option.some.inj h) 2
  simp [msckfXyz] at this

/-- **C27** A correction moves the estimate by exactly the correction and never the first estimate. -/
theorem C27_update_keeps_fej (l : Lm) (dx : V3) :
    ∃ l', l.update l.dim dx = some l' ∧ l'.val = l.val + dx ∧ l'.fej = l.fej ∧ l'.uv0 = l.uv0 ∧ l'.uv0f = l.uv0f ∧ l'.rep = l.rep := by
  refine ⟨{ l with val := l.val + dx }, ?_, rfl, rfl, rfl, rfl, rfl⟩
  simp [Lm.update, Lm.set]

/-- the hypotheses are met by, e.g., a landmark in every known representation and the point `(1, 2, 3)`. -/
example (r : Rep) (h : r ≠ .unknown) : Spec.Dom r ![1, 2, 3] := by
  cases r <;> simp [Spec.Dom] at *

/-- **C28** Every representation (the unknown one included) survives the round trip through its name. -/
theorem C28_roundtrip (r : Rep) : fromString (asString r) = r := by cases r <;> decide

/-- **C28** Names are distinct. -/
theorem C28_names_distinct (r s : Rep) (h : asString r = asString s) : r = s := by
  rw [← C28_roundtrip r, h, C28_roundtrip]

/-- **C28** A string parses to a known representation exactly if it is that representation's name; every other string parses to unknown. -/
theorem C28_parse (s : String) (r : Rep) (hr : r ≠ .unknown) : fromString s = r ↔ s = asString r := by
  constructor
  · intro h
    unfold fromString at h
    split_ifs at h with h1 h2 h3 h4 h5 h6 <;> subst h <;> first | (exact absurd rfl hr) | (subst s; rfl)
  · rintro rfl; exact C28_roundtrip r

theorem C28_unknown (s : String) (h : ∀ r, r ≠ .unknown → s ≠ asString r) : fromString s = .unknown := by
  by_contra hc
  exact h _ hc ((C28_parse s _ hc).1 rfl)

/-- **C28** The relative representations are exactly the anchored ones. -/
theorem C28_relative (r : Rep) : isRelative r = true ↔ Spec.Anchored r := by cases r <;> simp [isRelative, Spec.Anchored]

/-- **C28** and those are the ones whose name starts with `ANCHORED`. -/
theorem C28_relative_name (r : Rep) : isRelative r = true ↔ (asString r).toList.take 8 = "ANCHORED".toList := by
  cases r <;> decide

end Verif.Land
