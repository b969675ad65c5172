import Verif.Cfg.Down
import Verif.Cfg.PropsExample

/-!
# C151: halving the images does not change the geometry
-/

namespace Verif.Cfg

open Verif

namespace Spec

/-- the same point of two images, the second with pixels twice as wide and twice as high -/
def SamePoint (z z' : Cam.V2) : Prop := z 0 = 2 * z' 0 ∧ z 1 = 2 * z' 1

end Spec

theorem distort_half (k : Cam.Kind) (a b c d k1 k2 k3 k4 : ℝ) (u : Cam.V2) :
    Spec.SamePoint (Cam.distort k ![a, b, c, d, k1, k2, k3, k4] u) (Cam.distort k ![a / 2, b / 2, c / 2, d / 2, k1, k2, k3, k4] u) := by
  have e : ∀ i : Fin 8, 4 ≤ i.val → (![a / 2, b / 2, c / 2, d / 2, k1, k2, k3, k4] : Fin 8 → ℝ) i = (![a, b, c, d, k1, k2, k3, k4] : Fin 8 → ℝ) i := by
    intro i hi
    fin_cases i <;> first | rfl | (simp at hi)
  have e0 : (![a / 2, b / 2, c / 2, d / 2, k1, k2, k3, k4] : Fin 8 → ℝ) 0 = (![a, b, c, d, k1, k2, k3, k4] : Fin 8 → ℝ) 0 / 2 := rfl
  have e1 : (![a / 2, b / 2, c / 2, d / 2, k1, k2, k3, k4] : Fin 8 → ℝ) 1 = (![a, b, c, d, k1, k2, k3, k4] : Fin 8 → ℝ) 1 / 2 := rfl
  have e2 : (![a / 2, b / 2, c / 2, d / 2, k1, k2, k3, k4] : Fin 8 → ℝ) 2 = (![a, b, c, d, k1, k2, k3, k4] : Fin 8 → ℝ) 2 / 2 := rfl
  have e3 : (![a / 2, b / 2, c / 2, d / 2, k1, k2, k3, k4] : Fin 8 → ℝ) 3 = (![a, b, c, d, k1, k2, k3, k4] : Fin 8 → ℝ) 3 / 2 := rfl
  have e4 := e 4 (by decide)
  have e5 := e 5 (by decide)
  have e6 := e 6 (by decide)
  have e7 := e 7 (by decide)
  generalize (![a / 2, b / 2, c / 2, d / 2, k1, k2, k3, k4] : Fin 8 → ℝ) = q at *
  generalize (![a, b, c, d, k1, k2, k3, k4] : Fin 8 → ℝ) = p at *
  cases k
  · simp only [Spec.SamePoint, Cam.distort, Cam.radtan, e0, e1, e2, e3, e4, e5, e6, e7, Matrix.cons_val_zero, Matrix.cons_val_one]
    constructor <;> ring
  · simp only [Spec.SamePoint, Cam.distort, Cam.equi, Cam.thetaD, e0, e1, e2, e3, e4, e5, e6, e7, Matrix.cons_val_zero, Matrix.cons_val_one]
    constructor <;> ring

theorem loadCam_full {E : Env} {i : ℕ} {c : CamOut} (h : loadCam E true i = L.val c true) :
    ∃ f, loadCam E false i = L.val f true ∧ c.equi = f.equi ∧ c.q = f.q ∧ c.p = f.p ∧ c.w = f.w.tdiv 2 ∧ c.h = f.h.tdiv 2 ∧
      ∃ a b x y k1 k2 k3 k4, f.calib = ![a, b, x, y, k1, k2, k3, k4] ∧ c.calib = ![a / 2, b / 2, x / 2, y / 2, k1, k2, k3, k4] := by
  unfold loadCam at h
  simp only [bind_ok, pure_ok, at_ok] at h
  obtain ⟨model, h1, c1, h2, c2, h3, fx, f1, fy, f2, cx, f3, cy, f4, k1, g1, k2, g2, k3, g3, k4, g4, wh, h4, w, w1, hh, w2, T, h5, rfl⟩ := h
  refine ⟨⟨decide (model = "equidistant"), ![fx / 1, fy / 1, cx / 1, cy / 1, k1, k2, k3, k4], w, hh, rot2quat (rotBlock T).transpose, -((rotBlock T).transpose.mulVec (posBlock T))⟩, ?_, rfl, rfl, rfl, rfl, rfl,
    fx, fy, cx, cy, k1, k2, k3, k4, by simp, by simp⟩
  unfold loadCam
  simp only [bind_ok, pure_ok, at_ok]
  exact ⟨model, h1, c1, h2, c2, h3, fx, f1, fy, f2, cx, f3, cy, f4, k1, g1, k2, g2, k3, g3, k4, g4, wh, h4, w, w1, hh, w2, T, h5, rfl⟩

/-- **C151.** A program running with `downsample_cameras`. Let `f` be the camera of the same files without the option. The camera of the program is of the same class and at the same place of the IMU. A
direction `u` is seen in the halved image at the place where the full image shows it, so that a pixel of the halved image is the image of a direction if and only if the same point of the full image is. The size the program takes the camera to
have is the size of the images its trackers are given, whatever that size is, odd or even, if the files state the size of the images that arrive. -/
theorem C151_halved (E : Env) (o : Opts) (h : launch E = some o) (hd : o.bool "downsample_cameras" = true) (k : ℕ) (c : CamOut) (hc : o.cams[k]? = some c) :
    ∃ f, loadCam E false k = L.val f true ∧ c.kind = f.kind ∧ c.q = f.q ∧ c.p = f.p ∧
      (∀ u, Spec.SamePoint (Cam.distort f.kind f.calib u) (Cam.distort c.kind c.calib u)) ∧
      (∀ u z z', Spec.SamePoint z z' → (Cam.distort c.kind c.calib u = z' ↔ Cam.distort f.kind f.calib u = z)) ∧
      trackedSize (o.bool "downsample_cameras") f.w f.h = (c.w, c.h) := by
  have hl := cam_parts h hc
  rw [hd] at hl
  obtain ⟨f, hf, e1, e2, e3, e4, e5, a, b, x, y, k1, k2, k3, k4, g1, g2⟩ := loadCam_full hl
  have ek : c.kind = f.kind := by simp [CamOut.kind, e1]
  have key : ∀ u, Spec.SamePoint (Cam.distort f.kind f.calib u) (Cam.distort c.kind c.calib u) := by
    intro u
    rw [ek, g1, g2]
    exact distort_half _ _ _ _ _ _ _ _ _ _
  refine ⟨f, hf, ek, e2, e3, key, ?_, by simp [trackedSize, hd, e4, e5]⟩
  intro u z z' hz
  obtain ⟨p0, p1⟩ := key u
  obtain ⟨q0, q1⟩ := hz
  constructor
  · intro e
    funext i
    fin_cases i
    · show Cam.distort f.kind f.calib u 0 = z 0
      rw [p0, q0, e]
    · show Cam.distort f.kind f.calib u 1 = z 1
      rw [p1, q1, e]
  · intro e
    rw [e] at p0 p1
    funext i
    fin_cases i
    · show Cam.distort c.kind c.calib u 0 = z' 0
      linarith
    · show Cam.distort c.kind c.calib u 1 = z' 1
      linarith

/-- **C151.** Without the option the camera is that of the files and the trackers are given the images as they arrive. -/
theorem C151_full (E : Env) (o : Opts) (h : launch E = some o) (hd : o.bool "downsample_cameras" = false) (k : ℕ) (c : CamOut) (hc : o.cams[k]? = some c) (w l : ℤ) :
    loadCam E false k = L.val c true ∧ trackedSize (o.bool "downsample_cameras") w l = (w, l) := by
  have hl := cam_parts h hc
  rw [hd] at hl
  exact ⟨hl, by simp [trackedSize, hd]⟩

/-- **C151.** The halved image has at least one pixel if the image has two columns and two rows, and all its pixels are pixels of the image: the same point of the full image is inside it. -/
theorem C151_inside (w h : ℤ) (hw : 2 ≤ w) (hh : 2 ≤ h) (z z' : Cam.V2) (hz : Spec.SamePoint z z') :
    1 ≤ (trackedSize true w h).1 ∧ 1 ≤ (trackedSize true w h).2 ∧
      (z' 0 < (trackedSize true w h).1 → z 0 < w) ∧ (z' 1 < (trackedSize true w h).2 → z 1 < h) ∧
      (z 0 < w → z' 0 < (trackedSize true w h).1 + 1 / 2) ∧ (z 1 < h → z' 1 < (trackedSize true w h).2 + 1 / 2) := by
  have key : ∀ n : ℤ, 2 ≤ n → 1 ≤ n.tdiv 2 ∧ (2 : ℝ) * (n.tdiv 2 : ℤ) ≤ n ∧ (n : ℝ) ≤ 2 * (n.tdiv 2 : ℤ) + 1 := by
    intro n hn
    rw [Int.tdiv_eq_ediv_of_nonneg (by omega)]
    refine ⟨by omega, ?_, ?_⟩
    · exact_mod_cast (by omega : 2 * (n / 2) ≤ n)
    · exact_mod_cast (by omega : n ≤ 2 * (n / 2) + 1)
  obtain ⟨a1, a2, a3⟩ := key w hw
  obtain ⟨b1, b2, b3⟩ := key h hh
  obtain ⟨q0, q1⟩ := hz
  simp only [trackedSize, if_true]
  refine ⟨a1, b1, ?_, ?_, ?_, ?_⟩ <;> intro hx <;> linarith

/-- a program that halves its images -/
example : ∃ E o c, launch E = some o ∧ o.bool "downsample_cameras" = true ∧ o.cams[0]? = some c ∧ c.equi = true := by
  obtain ⟨o, h, -, -, hd, c, hc, he⟩ := Ex.runs "GLOBAL_3D" "equidistant" []
  exact ⟨_, o, c, h, hd, by simp [hc], by simp [he]⟩

example : trackedSize true 753 480 = (376, 240) := by decide

/-- **C151 (masks).** If the images arrive in the size that the files state, and the images are not halved or no masks are configured, the trackers are given a mask of the size of the image. Missing: masks with halved images, where this is
false, see below. -/
theorem C151_mask_partial (E : Env) (o : Opts) (h : launch E = some o) (k : ℕ) (c f : CamOut) (hc : o.cams[k]? = some c) (hf : loadCam E false k = L.val f true) (file : Option (ℤ × ℤ))
    (hn : o.bool "downsample_cameras" = false ∨ file = none) (s : ℤ × ℤ) (hs : maskSeen (o.bool "downsample_cameras") c file (f.w, f.h) = some s) :
    s = trackedSize (o.bool "downsample_cameras") f.w f.h := by
  rcases hn with hd | rfl
  · have hl := cam_parts h hc
    rw [hd, hf, val_inj] at hl
    obtain ⟨rfl, -⟩ := hl
    cases file with
    | none => simpa [maskSeen, eq_comm] using hs
    | some m =>
      simp only [maskSeen, loadMask, hd] at hs
      split at hs
      · simp at hs
      · rename_i hm
        simp only [ne_eq, not_or, not_not] at hm
        simp only [Option.map_some, Option.some.injEq, trackedSize] at hs
        rw [← hs, hd]
        simp [trackedSize, hm.1, hm.2]
  · simpa [maskSeen, eq_comm] using hs

/-- **C151 (masks, false of the code).** With halved images no mask file has the right size. A mask of the size of the images is refused: the program ends. The only masks that are accepted have the size of the halved images; they
are halved once more with the images, so that the mask the trackers are given has fewer columns and rows than the image, and the trackers look up pixels outside it. -/
theorem C151_mask_halved_twice (E : Env) (o : Opts) (h : launch E = some o) (hd : o.bool "downsample_cameras" = true) (k : ℕ) (c f : CamOut) (hc : o.cams[k]? = some c) (hf : loadCam E false k = L.val f true)
    (hw : 2 ≤ f.w) (hh : 2 ≤ f.h) :
    maskSeen (o.bool "downsample_cameras") c (some (f.w, f.h)) (f.w, f.h) = none ∧
      ∀ m s, maskSeen (o.bool "downsample_cameras") c (some m) (f.w, f.h) = some s →
        m = trackedSize true f.w f.h ∧ s.1 < (trackedSize true f.w f.h).1 ∧ s.2 < (trackedSize true f.w f.h).2 := by
  have hl := cam_parts h hc
  rw [hd] at hl
  obtain ⟨f', hf', -, -, -, e4, e5, -⟩ := loadCam_full hl
  rw [hf, val_inj] at hf'
  obtain ⟨rfl, -⟩ := hf'
  have t : ∀ n : ℤ, 2 ≤ n → n.tdiv 2 ≠ n ∧ (n.tdiv 2).tdiv 2 < n.tdiv 2 := by
    intro n hn
    rw [Int.tdiv_eq_ediv_of_nonneg (by omega : 0 ≤ n), Int.tdiv_eq_ediv_of_nonneg (by omega : 0 ≤ n / 2)]
    omega
  refine ⟨?_, ?_⟩
  · simp only [maskSeen, loadMask, e4]
    rw [if_pos (Or.inl (t _ hw).1.symm)]
    rfl
  · intro m s hs
    simp only [maskSeen, loadMask] at hs
    split at hs
    · simp at hs
    · rename_i hm
      simp only [ne_eq, not_or, not_not] at hm
      simp only [Option.map_some, Option.some.injEq, trackedSize, hd, if_true] at hs
      subst hs
      rw [hm.1, hm.2, e4, e5]
      refine ⟨?_, (t _ hw).2, (t _ hh).2⟩
      simp [trackedSize, ← e4, ← e5, ← hm.1, ← hm.2]

/-- **C151 (masks, false of the code): a program.** It halves images of 641 by 480 pixels to 320 by 240, and accepts a mask of that size; its trackers are given a mask of 160 by 120 pixels. -/
theorem C151_mask_counterexample : ∃ E o c f, launch E = some o ∧ o.bool "downsample_cameras" = true ∧ o.cams[0]? = some c ∧ loadCam E false 0 = L.val f true ∧ f.w = 641 ∧ f.h = 480 ∧
    trackedSize (o.bool "downsample_cameras") f.w f.h = (320, 240) ∧ maskSeen (o.bool "downsample_cameras") c (some (320, 240)) (f.w, f.h) = some (160, 120) := by
  obtain ⟨o, h, -, -, hd, c, hc, he⟩ := Ex.runs "GLOBAL_3D" "equidistant" []
  have hc0 : o.cams[0]? = some c := by simp [hc]
  have hl := cam_parts h hc0
  rw [hd] at hl
  obtain ⟨f, hf, -, -, -, e4, e5, -⟩ := loadCam_full hl
  obtain ⟨-, -, -, wh, -, -, -, -, hwh, -, -, -, ⟨w, l, w1, w2, w3, w4⟩, -⟩ := loadCam_parts hf
  have hg := (extern_given (Ex.sensor_cam (fun _ => none) "GLOBAL_3D" "equidistant" []) hwh).1
  have hg' : wh = [641, 480] := by rw [hg]; rfl
  subst hg'
  simp only [List.getElem?_cons_zero, List.getElem?_cons_succ, Option.some.injEq] at w1 w2
  subst w1 w2
  simp only [Bool.false_eq_true, if_false] at w3 w4
  rw [w3] at e4
  rw [w4] at e5
  refine ⟨_, o, c, f, h, hd, hc0, hf, w3, w4, ?_, ?_⟩
  · rw [hd, w3, w4]; decide
  · rw [hd]
    simp only [maskSeen, loadMask, e4, e5]
    decide

end Verif.Cfg
