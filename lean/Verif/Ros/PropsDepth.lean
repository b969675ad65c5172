import Verif.Ros.Depth
import Verif.Tri.PropsRetri

/-!
# The depth image for loop closure (C142)
-/

set_option autoImplicit false
set_option linter.unusedVariables false
open Classical

namespace Verif.Ros

open Verif Verif.Tri Verif.Retri

namespace Spec

/-- the feature is at least four pixels inside the image and its pixel is in row `r` and column `c`. -/
def AtPixel (w h : ℤ) (z : V2 × ℝ) (r c : ℤ) : Prop := 4 ≤ z.1 0 ∧ z.1 0 ≤ w - 4 ∧ 4 ≤ z.1 1 ∧ z.1 1 ≤ h - 4 ∧ r ≤ z.1 1 ∧ z.1 1 < r + 1 ∧ c ≤ z.1 0 ∧ z.1 0 < c + 1

/-- what an image of the features `zs` must be: zero where there is none, and elsewhere the depth of one that is there, in whole millimetres, rounded down. -/
def Shows (w h : ℤ) (zs : List (V2 × ℝ)) (img : DImg) : Prop :=
  ∀ r c, ((∀ z ∈ zs, ¬ AtPixel w h z r c) ∧ img r c = 0) ∨ ∃ z ∈ zs, AtPixel w h z r c ∧ (img r c : ℝ) ≤ 1000 * z.2 ∧ 1000 * z.2 < img r c + 1

end Spec

theorem toInt_floor {x : ℝ} (h : 0 ≤ x) : toInt x = ⌊x⌋ := if_pos h

theorem depthStep_spec {w h : ℤ} {zs : List (V2 × ℝ)} {img : DImg} (hi : Spec.Shows w h zs img) (z : V2 × ℝ) (h0 : 0 ≤ z.2) (h1 : 1000 * z.2 < 65536) :
    ∃ img', depthStep w h img z = some img' ∧ Spec.Shows w h (zs ++ [z]) img' := by
  unfold depthStep
  by_cases hc : z.1 0 < 4 ∨ (w : ℝ) - 4 < z.1 0 ∨ z.1 1 < 4 ∨ (h : ℝ) - 4 < z.1 1
  · rw [if_pos hc]
    refine ⟨img, rfl, fun r c => ?_⟩
    rcases hi r c with ⟨a, b⟩ | ⟨y, hy, b⟩
    · refine .inl ⟨fun y hy => ?_, b⟩
      rcases List.mem_append.1 hy with hy | hy
      · exact a y hy
      · rw [List.mem_singleton.1 hy]
        rintro ⟨k1, k2, k3, k4, -⟩
        rcases hc with hc | hc | hc | hc <;> linarith
    · exact .inr ⟨y, List.mem_append_left _ hy, b⟩
  · rw [if_neg hc]
    simp only [not_or, not_lt] at hc
    obtain ⟨c1, c2, c3, c4⟩ := hc
    have hu : toInt (z.1 0) = ⌊z.1 0⌋ := toInt_floor (by linarith)
    have hv : toInt (z.1 1) = ⌊z.1 1⌋ := toInt_floor (by linarith)
    have hd : toInt (1000 * z.2) = ⌊1000 * z.2⌋ := toInt_floor (by linarith)
    have e1 : 0 ≤ ⌊z.1 1⌋ := Int.floor_nonneg.2 (by linarith)
    have e2 : ⌊z.1 1⌋ < h := Int.floor_lt.2 (by linarith)
    have e3 : 0 ≤ ⌊z.1 0⌋ := Int.floor_nonneg.2 (by linarith)
    have e4 : ⌊z.1 0⌋ < w := Int.floor_lt.2 (by linarith)
    have e5 : 0 ≤ ⌊1000 * z.2⌋ := Int.floor_nonneg.2 (by linarith)
    have e6 : ⌊1000 * z.2⌋ < 65536 := Int.floor_lt.2 (by push_cast; linarith)
    simp only [hu, hv, if_pos (And.intro e1 (And.intro e2 (And.intro e3 e4))), toU16, hd, if_pos (And.intro e5 e6), Option.map_some]
    refine ⟨_, rfl, fun r c => ?_⟩
    by_cases hp : r = ⌊z.1 1⌋ ∧ c = ⌊z.1 0⌋
    · refine .inr ⟨z, by simp, ⟨c1, c2, c3, c4, ?_, ?_, ?_, ?_⟩, ?_, ?_⟩
      · rw [hp.1]; exact Int.floor_le _
      · rw [hp.1]; exact Int.lt_floor_add_one _
      · rw [hp.2]; exact Int.floor_le _
      · rw [hp.2]; exact Int.lt_floor_add_one _
      · simp only [if_pos hp]; exact Int.floor_le _
      · simp only [if_pos hp]; exact Int.lt_floor_add_one _
    · simp only [if_neg hp]
      rcases hi r c with ⟨a, b⟩ | ⟨y, hy, b⟩
      · refine .inl ⟨fun y hy => ?_, b⟩
        rcases List.mem_append.1 hy with hy | hy
        · exact a y hy
        · rw [List.mem_singleton.1 hy]
          rintro ⟨-, -, -, -, k1, k2, k3, k4⟩
          exact hp ⟨(Int.floor_eq_iff.2 ⟨k1, k2⟩).symm, (Int.floor_eq_iff.2 ⟨k3, k4⟩).symm⟩
      · exact .inr ⟨y, List.mem_append_left _ hy, b⟩

theorem depthImage_spec {w h : ℤ} {zs : List (V2 × ℝ)} (hz : ∀ z ∈ zs, 0 ≤ z.2 ∧ 1000 * z.2 < 65536) : ∃ img, depthImage w h zs = some img ∧ Spec.Shows w h zs img := by
  have key : ∀ (l pre : List (V2 × ℝ)) (img : DImg), (∀ z ∈ l, 0 ≤ z.2 ∧ 1000 * z.2 < 65536) → Spec.Shows w h pre img → ∃ img', l.foldlM (depthStep w h) img = some img' ∧ Spec.Shows w h (pre ++ l) img' := by
    intro l
    induction l with
    | nil => exact fun pre img _ h => ⟨img, rfl, by simpa using h⟩
    | cons z l ih =>
      intro pre img hl hp
      obtain ⟨a, b⟩ := hl z (by simp)
      obtain ⟨i1, h1, h2⟩ := depthStep_spec hp z a b
      obtain ⟨i2, h3, h4⟩ := ih (pre ++ [z]) i1 (fun y hy => hl y (List.mem_cons_of_mem _ hy)) h2
      exact ⟨i2, by simp [List.foldlM_cons, h1, h3], by simpa using h4⟩
  unfold depthImage
  simpa using key zs [] DImg.zero hz fun r c => .inl ⟨by simp, rfl⟩

/-- **C142** (partial: depths below 65.536 m, see `C142_far_counterexample`) For every sequence of images and whatever is tracked, if every feature reported for the last (C116) is closer than 65.536 m, then for every size of the image, and in whatever order the features are
stored, the depth image is made without a write outside it: a pixel is zero exactly if no feature, four pixels or more from the border, is in it; otherwise it is the depth of a feature in it, in millimetres, rounded down. -/
theorem C142_depth_partial (F : RCfg) (Ms : List RMsg) (M : RMsg) (hI : IsRot M.clone.R) (hC : IsRot (M.calib 0).R) (w h : ℤ) (zs : List (V2 × ℝ)) (hz : ∀ z, z ∈ zs ↔ ∃ f, (retris F (Ms ++ [M])).uvd f = some z)
    (hfar : ∀ z ∈ zs, z.2 < 65.536) :
    ∃ img, depthImage w h zs = some img ∧ Spec.Shows w h zs img ∧ ∀ r c, img r c = 0 ↔ ∀ z ∈ zs, ¬ Spec.AtPixel w h z r c := by
  have hlo : ∀ z ∈ zs, 0.1 ≤ z.2 := fun z hm => by
    obtain ⟨f, hf⟩ := (hz z).1 hm
    obtain ⟨p, -, -, -, hd, -⟩ := (C116_depth F Ms M f z.1 z.2 hI hC).1 hf
    exact hd
  obtain ⟨img, h1, h2⟩ := depthImage_spec (w := w) (h := h) (zs := zs) fun z hm => ⟨by have := hlo z hm; norm_num at this ⊢; linarith, by have := hfar z hm; norm_num at this ⊢; linarith⟩
  refine ⟨img, h1, h2, fun r c => ?_⟩
  rcases h2 r c with ⟨a, b⟩ | ⟨z, hm, ha, -, hb⟩
  · exact ⟨fun _ => a, fun _ => b⟩
  · refine ⟨fun h => ?_, fun h => absurd ha (h z hm)⟩
    have := hlo z hm
    rw [h] at hb
    norm_num at this hb
    linarith

/-- a camera at the origin whose state has one landmark, `x` metres ahead, seen at `(320, 240)`. -/
def exFar (x : ℝ) : RMsg := ⟨⟨1, 0⟩, fun _ => ⟨1, 0⟩, [⟨0, [(7, ![320, 240], ![0, 0])]⟩], fun f => if f = 7 then some ⟨![0, 0, x], none⟩ else none, 640, 480⟩

theorem exFar_uvd (F : RCfg) {x : ℝ} (hx : 1 ≤ x) (f : ℕ) : (retris F ([] ++ [exFar x])).uvd f = if f = 7 then some (![320, 240], x) else none := by
  rw [retris_snoc]
  simp only [retri]
  by_cases hf : f = 7
  · subst hf
    have h1 : ¬ x < 0.1 := by norm_num; linarith
    have h2 : uvs0 (exFar x) 7 = some ![320, 240] := by simp [uvs0, exFar]
    rw [if_pos rfl, h2]
    simp only [exFar, slamPos, depthOf, if_true]
    have e : toInt 320 = 320 := by rw [toInt_floor (by norm_num)]; norm_num
    have e' : toInt 240 = 240 := by rw [toInt_floor (by norm_num)]; norm_num
    simp [h1, e, e']
  · rw [if_neg hf]
    have h2 : uvs0 (exFar x) f = none := by simp [uvs0, exFar, hf]
    rw [h2]
    unfold depthOf
    split <;> simp_all

/-- the hypotheses of C142 are met: a landmark 20.0005 m ahead is shown as 20000 mm. -/
example (F : RCfg) : ∃ img, depthImage 640 480 [(![320, 240], 20.0005)] = some img ∧ img 240 320 = 20000 ∧ img 241 320 = 0 := by
  obtain ⟨img, h1, h2, h3⟩ := C142_depth_partial F [] (exFar 20.0005) (by exact ⟨by simp [exFar], by simp [exFar]⟩) (by exact ⟨by simp [exFar], by simp [exFar]⟩) 640 480 [(![320, 240], 20.0005)] (fun z => by
    simp only [List.mem_singleton]
    constructor
    · rintro rfl; exact ⟨7, by rw [exFar_uvd F (by norm_num)]; rfl⟩
    · rintro ⟨f, hf⟩
      rw [exFar_uvd F (by norm_num)] at hf
      split_ifs at hf
      exact (Option.some.inj hf).symm) (by simp; norm_num)
  refine ⟨img, h1, ?_, ?_⟩
  · rcases h2 240 320 with ⟨a, -⟩ | ⟨z, hz, -, a, b⟩
    · exact absurd (show Spec.AtPixel 640 480 (![320, 240], 20.0005) 240 320 by unfold Spec.AtPixel; norm_num) (a _ (by simp))
    · rw [List.mem_singleton.1 hz] at a b
      have k1 : (img 240 320 : ℝ) < (20001 : ℤ) := by push_cast; norm_num at a; linarith
      have k2 : ((19999 : ℤ) : ℝ) < img 240 320 := by push_cast; norm_num at b; linarith
      have := Int.cast_lt.1 k1
      have := Int.cast_lt.1 k2
      omega
  · rw [h3]
    intro z hz
    rw [List.mem_singleton.1 hz]
    unfold Spec.AtPixel
    norm_num

/-- **C142** (far) What the partial theorem excludes, and why: depths of landmarks are not limited, and one of 65.536 m or more (here 70 m ahead in the middle of the image) is converted to sixteen bits although it does not fit, which is undefined. -/
theorem C142_far_counterexample (F : RCfg) : ∃ z : V2 × ℝ, (∀ f y, (retris F ([] ++ [exFar 70])).uvd f = some y ↔ f = 7 ∧ y = z) ∧ z.2 = 70 ∧ depthImage 640 480 [z] = none := by
  refine ⟨(![320, 240], 70), fun f y => ?_, rfl, ?_⟩
  · rw [exFar_uvd F (by norm_num)]
    split_ifs with h
    · simp [h, eq_comm]
    · simp [h]
  · have e : toInt 320 = 320 := by rw [toInt_floor (by norm_num)]; norm_num
    have e' : toInt 240 = 240 := by rw [toInt_floor (by norm_num)]; norm_num
    have e2 : toInt 70000 = 70000 := by rw [toInt_floor (by norm_num)]; norm_num
    simp [depthImage, depthStep, e, e', toU16]
    norm_num [e2]

end Verif.Ros
