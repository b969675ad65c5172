import Verif.Track.PropsGrid
import Verif.Track.PropsDetect

/-! # C129: which tracked points the detection keeps, by the bytes of the mask -/

set_option autoImplicit false

namespace Verif.Grid

open Verif.Track

namespace Spec

/-- a tracked point that can be kept: at least ten pixels inside the image, in a cell inside the image, on a byte of the mask of at most 127 -/
def Allowed (cfg : TCfg) (F : Frame) (p : Pt) : Prop :=
  10 ≤ trunc p.1 ∧ trunc p.1 < F.cols - 10 ∧ 10 ≤ trunc p.2 ∧ trunc p.2 < F.rows - 10 ∧
  0 ≤ (Verif.Track.Spec.cell cfg p).1 ∧ ((Verif.Track.Spec.cell cfg p).1 + 1) * cfg.minDist ≤ F.cols ∧ 0 ≤ (Verif.Track.Spec.cell cfg p).2 ∧ ((Verif.Track.Spec.cell cfg p).2 + 1) * cfg.minDist ≤ F.rows ∧ F.mask (trunc p.1) (trunc p.2) ≤ 127

end Spec

open Spec

theorem allowed_iff (cfg : TCfg) (F : Frame) (p : Pt) : Spec.Allowed cfg F p ↔ Verif.Track.Spec.Usable cfg F.img p := by
  simp [Spec.Allowed, Verif.Track.Spec.Usable, Verif.Track.Spec.InCells, Frame.img, and_assoc]

theorem detectMono_kept {cfg : TCfg} {I : Img} {pts : List Pt} {ids : List ℕ} {e e' : List Pt} {ps ps' : List Pt} {is is' : List ℕ} {n n' : List Pt}
    (h : detectMono cfg I pts ids e = some (ps, is, n)) (h' : detectMono cfg I pts ids e' = some (ps', is', n')) : ps = ps' ∧ is = is' := by
  unfold detectMono at h h'
  cases hp : prune cfg I (fun _ => false) [] pts ids with
  | none => rw [hp] at h; simp at h
  | some r =>
    obtain ⟨a, b, c⟩ := r
    rw [hp] at h h'
    simp only [Option.some.injEq, Prod.mk.injEq] at h h'
    exact ⟨h.1.symm.trans h'.1 ▸ rfl, h.2.1.symm.trans h'.2.1 ▸ rfl⟩

open Classical in
/-- **C129** For every image, mask and list of tracked points: of none, none is kept; and one more point at the end of the list is kept, with its number, exactly if it lies at least ten pixels inside the image, in a cell that no point kept before lies in, and on a byte of the mask of
at most 127; it changes nothing of what is kept before it. -/
theorem C129_kept {cfg : TCfg} {F : Frame} {fast : Roi → List Kp} {srt : List Kp → List Kp} (refine : List Pt → List Pt) {sched : List (List Kp) → List (ℕ × Kp)}
    (hf : FastOk fast) (hs : SortOk srt) (hsc : ∀ tasks, Interleaves tasks (sched tasks)) (hx : 0 < cfg.gx) (hxc : cfg.gx ≤ F.cols) (hy : 0 < cfg.gy) (hyc : cfg.gy ≤ F.rows) (hn : 0 < cfg.num)
    (hd : 0 < cfg.minDist) :
    (∃ new, detect cfg F fast srt refine sched [] [] = some ([], [], new)) ∧
    ∀ (pts : List Pt) (ids : List ℕ), pts.length = ids.length → ∀ (p : Pt) (i : ℕ), ∃ ps is new new', detect cfg F fast srt refine sched pts ids = some (ps, is, new) ∧
      detect cfg F fast srt refine sched (pts ++ [p]) (ids ++ [i]) =
        some (if Spec.Allowed cfg F p ∧ ∀ q ∈ ps, Verif.Track.Spec.cell cfg q ≠ Verif.Track.Spec.cell cfg p then (ps ++ [p], is ++ [i], new') else (ps, is, new')) := by
  have hS : Verif.Track.Spec.Sound cfg F.img := ⟨hd, hx, hy, by show 0 ≤ F.cols; omega, by show 0 ≤ F.rows; omega⟩
  constructor
  · obtain ⟨ps, is, new, ext, h1, h2, -⟩ := C129_detect refine hf hs hsc hx hxc hy hyc hn [] [] rfl
    obtain ⟨⟨new', h3⟩, -⟩ := C87_kept cfg F.img hS (ext.map Kp.pt)
    rw [h2] at h3
    simp only [Option.some.injEq, Prod.mk.injEq] at h3
    obtain ⟨rfl, rfl, rfl⟩ := h3
    exact ⟨_, h1⟩
  · intro pts ids hl p i
    obtain ⟨ps, is, new, ext, h1, h2, -⟩ := C129_detect (cfg := cfg) (F := F) refine hf hs hsc hx hxc hy hyc hn pts ids hl
    obtain ⟨ps2, is2, new2, ext2, g1, g2, -⟩ := C129_detect (cfg := cfg) (F := F) refine hf hs hsc hx hxc hy hyc hn (pts ++ [p]) (ids ++ [i]) (by simp [hl])
    obtain ⟨-, hk⟩ := C87_kept cfg F.img hS (ext2.map Kp.pt)
    obtain ⟨qs, js, n1, n2, k1, k2⟩ := hk pts ids hl p i
    obtain ⟨rfl, rfl⟩ := detectMono_kept h2 k1
    refine ⟨ps, is, new, n2, h1, ?_⟩
    rw [g1, ← g2, k2]
    simp only [← allowed_iff]

/-- the hypotheses are met by the usual settings of a 640 × 480 image and any mask, corners and tracked points. -/
example (mask : ℤ → ℤ → ℕ) (ks : List Kp) : ∃ new, detect ⟨10, 5, 5, 200⟩ ⟨640, 480, mask⟩ (imageCorners ks) sortResp id inOrder [] [] = some ([], [], new) :=
  (C129_kept (cfg := ⟨10, 5, 5, 200⟩) (F := ⟨640, 480, mask⟩) id (imageCorners_ok ks) sortResp_ok inOrder_ok (by norm_num) (by norm_num) (by norm_num) (by norm_num) (by norm_num) (by norm_num)).1

end Verif.Grid
