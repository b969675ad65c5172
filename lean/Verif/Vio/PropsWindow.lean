import Verif.Vio.PropsStream

/-!
# The window is the last images (C106, continued)
-/

set_option autoImplicit false
set_option linter.unusedVariables false
open Classical

namespace Verif.Vio

open Verif Verif.Types Verif.St Verif.Imu Verif.Prop_ Verif.Feat Verif.Disp

variable {lib : Lib} {o : Opts} {F : FCfg} {I : Img}

theorem insertClone_last (t : ℝ) (u : ℕ) : ∀ l : List (ℝ × ℕ), (∀ c ∈ l, c.1 < t) → insertClone t u l = l ++ [(t, u)]
  | [], _ => rfl
  | c :: l, h => by
    have h1 := h c (by simp)
    simp only [insertClone]
    rw [if_neg (not_lt.2 h1.le), if_neg h1.ne, insertClone_last t u l fun d hd => h d (by simp [hd])]
    rfl

/-- **C106** (window, one image) Without zero velocity detection, a new image adds a clone at its time to the window; if the window is then over its size, the oldest one is removed. -/
theorem C106_window (hlib : St.Spec.LibOK lib) (hF : Spec.CfgOK o F) (hI : Spec.ImgOK o I) {x y : FMgr} (hx : Spec.MgrOK lib o x) (hz : zuptOn F.mgr x.m = none) (hn : x.m.st.ts < I.t) (hcov : Spec.Covered x.m I.t)
    (h : frame lib F x I = some y) : y.m.st.clones.map Prod.fst = (x.m.st.clones.map Prod.fst ++ [I.t]).drop (x.m.st.clones.length + 1 - o.maxClones) := by
  unfold frame at h
  rw [hz] at h
  simp only at h
  obtain ⟨m1, hp, ⟨q, h'⟩ | ⟨q, p, s', M', db', ar', h', k0, k1, k2, k3, k4, k5, k6, k7, k8, -⟩⟩ := frameUpdate_spec (x := { x with m := { x.m with db := I.db }, aruco := I.aruco }) hlib hF hI ⟨hx.frame, hx.window⟩ rfl (.inl ⟨hn, hcov⟩)
  all_goals
    rw [h] at h'
    obtain rfl := Option.some.inj h'
    obtain ⟨g1, -, g2⟩ := hp.grow hn
    simp only at g1 g2
    rw [insertClone_last _ _ _ fun c hc => (hx.frame.times c hc).trans_lt hn] at g2
  · simp only [g2]
    rw [Nat.sub_eq_zero_of_le (by omega)]
    simp
  · simp only [k8.2, g1]
    rw [List.map_drop, g2]
    simp

/-- **C106** (window) Without zero velocity detection, for every sequence, of any length, of readings and images with increasing times: the times of the window are the times of the last images, as many as the window may have (and, in the
beginning, those of the window at the start). -/
theorem C106_last_images (hlib : St.Spec.LibOK lib) (hF : Spec.CfgOK o F) (hZ : F.mgr.Z = none) : ∀ (evs : List FEv) (x y : FMgr), Spec.MgrOK lib o x → Spec.Admissible lib o F x evs → (x.m.st.ts :: Spec.frameTimes evs).Pairwise (· < ·) →
    runF lib F x evs = some y → y.m.st.clones.map Prod.fst = (x.m.st.clones.map Prod.fst ++ Spec.frameTimes evs).drop (x.m.st.clones.length + (Spec.frameTimes evs).length - o.maxClones)
  | [], x, y, hx, _, _, h => by
    obtain rfl := Option.some.inj h
    simp only [Spec.frameTimes, List.append_nil, List.length_nil, Nat.add_zero]
    rw [Nat.sub_eq_zero_of_le hx.window]; rfl
  | .imu r :: es, x, y, hx, ha, hp, h => C106_last_images hlib hF hZ es { x with m := feedImu F.mgr x.m r } y ⟨hx.frame, hx.window⟩ ha hp h
  | .image I :: es, x, y, hx, ⟨hI, ht, hn⟩, hp, h => by
    obtain ⟨z, k1, k2, k3, -⟩ := C106_frame hlib hF hI hx ht
    simp only [Spec.frameTimes] at hp ⊢
    have hlt : x.m.st.ts < I.t := (List.pairwise_cons.1 hp).1 _ (by simp)
    have hcov : Spec.Covered x.m I.t := by
      rcases ht with h | h
      · exact h.2.1
      · exact absurd h.1 hlt.ne
    have hw := C106_window hlib hF hI hx (by unfold zuptOn; rw [hZ]) hlt hcov k1
    simp only [runF, FEv.run, k1, Option.bind_some] at h
    rw [C106_last_images hlib hF hZ es z y k2 (hn z k1) (by rw [k3]; exact (List.pairwise_cons.1 hp).2) h, hw]
    have hl : z.m.st.clones.length = x.m.st.clones.length + 1 - (x.m.st.clones.length + 1 - o.maxClones) := by
      have := congrArg List.length hw
      simpa using this
    rw [hl, show x.m.st.clones.map Prod.fst ++ I.t :: Spec.frameTimes es = (x.m.st.clones.map Prod.fst ++ [I.t]) ++ Spec.frameTimes es by simp]
    have hc := hx.window
    have h1 := hF.clones
    rw [← List.drop_append_of_le_length (by simp), List.drop_drop]
    congr 1
    simp only [List.length_cons]
    omega

end Verif.Vio
