import Verif.Vio.PropsFrame

/-!
# Calibration that is not estimated (C107), and streams that are processed whatever the images show (C106)
-/

set_option autoImplicit false
set_option linter.unusedVariables false
open Classical

namespace Verif.Vio

open Verif Verif.Types Verif.St Verif.Imu Verif.Prop_ Verif.Feat Verif.Disp

variable {lib : Lib} {o : Opts} {s s' : State} {M M' : ℕ → Upd.LMeta} {F : FCfg} {I : Img}

/-! ## C107 -/

theorem run_keep (hlib : St.Spec.LibOK lib) (hF : Spec.CfgOK o F) : ∀ (evs : List FEv) (x y : FMgr), Spec.MgrOK lib o x → Spec.Admissible lib o F x evs → runF lib F x evs = some y → Keep x.m.st y.m.st
  | [], x, y, _, _, h => by obtain rfl := Option.some.inj h; exact Keep.refl _
  | .imu r :: es, x, y, hx, ha, h => run_keep hlib hF es { x with m := feedImu F.mgr x.m r } y ⟨hx.frame, hx.window⟩ ha h
  | .image I :: es, x, y, hx, ⟨hI, ht, hn⟩, h => by
    obtain ⟨z, k1, k2, k3⟩ := frame_all hlib hF hI hx ht
    simp only [runF, FEv.run, k1, Option.bind_some] at h
    exact k3.keep.trans (run_keep hlib hF es z y k2.1 (hn z k1) h)

namespace Spec

/-- among the objects made by the constructor only those to be estimated (`_variables` after the constructor) are variables. -/
def OnlyCtor (o : Opts) (s : State) : Prop := ∀ u ∈ s.vars, u < base o → u ∈ ctorVars o

end Spec

theorem ctor_vars (o : Opts) : (ctor o).vars = ctorVars o := by
  obtain ⟨_, _, h3, _⟩ := foldl_push_same (ctorVars o) (ctorBase o)
  exact h3.trans (by simp [ctorBase])

theorem onlyCtor_ctor (o : Opts) : Spec.OnlyCtor o (ctor o) := by
  intro u hu _
  rwa [ctor_vars] at hu

/-- **C107** For every sequence, of any length, of readings and images that are admissible when they arrive, started with the constructor's variables: the filter never changes a calibration parameter it was told not to estimate — the time offset,
the camera poses, the intrinsics (with the camera objects used to undistort), the IMU intrinsics (all of them, or only the gravity sensitivity, or the rotation that is fixed in the chosen IMU model) keep value and first estimate. -/
theorem C107_fixed_calibration (hlib : St.Spec.LibOK lib) (hF : Spec.CfgOK o F) (evs : List FEv) (x y : FMgr) (hx : Spec.MgrOK lib o x) (hv : Spec.OnlyCtor o x.m.st) (ha : Spec.Admissible lib o F x evs) (h : runF lib F x evs = some y) :
    (o.calibDt = false → tOff y.m.st = tOff x.m.st ∧ y.m.st.obj dtUid = x.m.st.obj dtUid) ∧
    (o.calibPose = false → ∀ i, i < o.numCams → y.m.st.obj (7 + 2 * i) = x.m.st.obj (7 + 2 * i)) ∧
    (o.calibIntr = false → y.m.st.cam = x.m.st.cam ∧ ∀ i, i < o.numCams → y.m.st.obj (intrUid i) = x.m.st.obj (intrUid i)) ∧
    (o.calibImu = false → ∀ u, 1 ≤ u → u ≤ 5 → y.m.st.obj u = x.m.st.obj u) ∧
    (o.calibG = false → y.m.st.obj 3 = x.m.st.obj 3) ∧
    (o.kalibr = true → y.m.st.obj 5 = x.m.st.obj 5) ∧ (o.kalibr = false → y.m.st.obj 4 = x.m.st.obj 4) ∧
    Spec.OnlyCtor o y.m.st := by
  have hk := run_keep hlib hF evs x y hx ha h
  have hW := prog_W hx.frame.prog.prog
  have key : ∀ u, u < base o → u ∉ ctorVars o → y.m.st.obj u = x.m.st.obj u := fun u h1 h2 => (hk.obj u (fun h => h2 (hv u h h1)) (lt_of_lt_of_le h1 hW.next)).2.2
  have hmem : ∀ u, u ∈ ctorVars o ↔ u = 0 ∨ (o.calibImu = true ∧ (u = 1 ∨ u = 2 ∨ (o.calibG = true ∧ u = 3) ∨ u = if o.kalibr then 4 else 5)) ∨ (o.calibDt = true ∧ u = 6) ∨
      ∃ i, i < o.numCams ∧ ((o.calibPose = true ∧ u = 7 + 2 * i) ∨ (o.calibIntr = true ∧ u = 8 + 2 * i)) := by
    intro u
    simp only [ctorVars, intrUid]
    cases o.calibImu <;> cases o.calibG <;> cases o.calibDt <;> cases o.calibPose <;> cases o.calibIntr <;> simp [or_assoc]
  have hb : base o = 7 + 2 * o.numCams := rfl
  refine ⟨fun h => ?_, fun h i hi => key _ (by omega) ?_, fun h => ⟨hk.cam (by rw [hW.opts]; exact h), fun i hi => key _ (by simp only [intrUid]; omega) ?_⟩, fun h u h1 h2 => key _ (by omega) ?_,
    fun h => key _ (by omega) ?_, fun h => key _ (by omega) ?_, fun h => key _ (by omega) ?_, fun u hu hlt => ?_⟩
  · have e : y.m.st.obj dtUid = x.m.st.obj dtUid := key _ (by simp only [dtUid]; omega) (by
      rw [hmem]; simp only [dtUid, h]
      rintro (h | ⟨-, h⟩ | ⟨h, -⟩ | ⟨i, -, h⟩)
      · omega
      · split_ifs at h <;> omega
      · cases h
      · omega)
    exact ⟨by simp only [tOff, e], e⟩
  · rw [hmem]; simp only [h]
    rintro (h | ⟨-, h⟩ | ⟨-, h⟩ | ⟨j, -, ⟨h, -⟩ | ⟨-, h⟩⟩)
    · omega
    · split_ifs at h <;> omega
    · omega
    · cases h
    · omega
  · rw [hmem]; simp only [h, intrUid]
    rintro (h | ⟨-, h⟩ | ⟨-, h⟩ | ⟨j, -, ⟨-, h⟩ | ⟨h, -⟩⟩)
    · omega
    · split_ifs at h <;> omega
    · omega
    · omega
    · cases h
  · rw [hmem]; simp only [h]
    rintro (h | ⟨h, -⟩ | ⟨-, h⟩ | ⟨j, -, h⟩)
    · omega
    · cases h
    · omega
    · omega
  · rw [hmem]; simp only [h]
    rintro (h | ⟨-, h⟩ | ⟨-, h⟩ | ⟨j, -, h⟩)
    · omega
    · simp at h; split_ifs at h <;> omega
    · omega
    · omega
  · rw [hmem]; simp only [h]
    rintro (h | ⟨-, h⟩ | ⟨-, h⟩ | ⟨j, -, h⟩)
    · omega
    · simp at h
    · omega
    · omega
  · rw [hmem]; simp only [h]
    rintro (h | ⟨-, h⟩ | ⟨-, h⟩ | ⟨j, -, h⟩)
    · omega
    · simp at h
    · omega
    · omega
  · by_cases hm : u ∈ x.m.st.vars
    · exact hv u hm hlt
    · exact absurd hu (hk.obj u hm (lt_of_lt_of_le hlt hW.next)).1

/-! ## streams -/

namespace Spec

/-- a stream of sensor data described without reference to what the filter does with it: `ts` is the time of the image before (or of initialisation), `prior` the readings so far, `off` the camera-IMU time offset. Readings come in order; images
are newer than the one before; when an image comes, a reading at or after its time (on the IMU clock) has come, there is one at most a tenth of a second before the time of the image before, and there are fewer than ten million in between. -/
def Stream (o : Opts) (off : ℝ) : ℝ → List Reading → List FEv → Prop
  | _, _, [] => True
  | ts, prior, .imu r :: es => (∀ a ∈ prior, a.t < r.t) ∧ Stream o off ts (prior ++ [r]) es
  | ts, prior, .image I :: es => ImgOK o I ∧ ts < I.t ∧ (∃ a ∈ prior, ts - 0.1 ≤ a.t ∧ ts + off - 0.1 ≤ a.t ∧ a.t ≤ ts + off) ∧ (∃ b ∈ prior, I.t + off ≤ b.t) ∧
      (Imu.Spec.inside (ts + off) (I.t + off) prior).length < 10 ^ 7 ∧ Stream o off I.t prior es

/-- the manager has had the readings `prior`: those that may still be needed are in its buffers. -/
structure Has (F : FCfg) (off : ℝ) (prior : List Reading) (x : FMgr) : Prop where
  toff : tOff x.m.st = some off
  fixed : dtUid ∉ x.m.st.vars
  poff : x.m.off = none ∨ x.m.off = some off
  zoff : x.m.zmem.off = none ∨ x.m.zmem.off = some off
  sub : x.m.buf.Sublist prior
  sorted : Imu.Spec.Sorted prior
  has : ∀ r ∈ prior, x.m.st.ts - 0.1 ≤ r.t → x.m.st.ts + off - 0.1 ≤ r.t → r ∈ x.m.buf
  zsub : x.m.zbuf.Sublist prior

end Spec

/-- what the selection has collected is in order and not after the end of the interval, however little of the interval the buffer covers. -/
theorem selLoop_le {t0 t1 : ℝ} (h01 : t0 < t1) : ∀ (l : List Reading) (prev : Option Reading) (acc : List Reading), Imu.Spec.Sorted l →
    acc.Pairwise (fun a b => a.t ≤ b.t) → (∀ x ∈ acc, x.t ≤ t1) → (∀ x ∈ acc, ∀ a ∈ l.head?, x.t ≤ a.t) →
    (Imu.selLoop t0 t1 prev l acc).Pairwise (fun a b => a.t ≤ b.t) ∧ ∀ x ∈ Imu.selLoop t0 t1 prev l acc, x.t ≤ t1
  | [], prev, acc, _, h1, h2, _ => by simp only [Imu.selLoop]; exact ⟨h1, h2⟩
  | [_], prev, acc, _, h1, h2, _ => by simp only [Imu.selLoop]; exact ⟨h1, h2⟩
  | a :: b :: rest, prev, acc, hs, h1, h2, h3 => by
    have hs' : Imu.Spec.Sorted (b :: rest) := (List.pairwise_cons.1 hs).2
    have hab : a.t < b.t := (List.pairwise_cons.1 hs).1 b (by simp)
    have h3' : ∀ x ∈ acc, x.t ≤ a.t := fun x hx => h3 x hx a (by simp)
    have app : ∀ (l : List Reading) (e : Reading), l.Pairwise (fun a b => a.t ≤ b.t) → (∀ x ∈ l, x.t ≤ t1) → (∀ x ∈ l, x.t ≤ e.t) → e.t ≤ t1 →
        (l ++ [e]).Pairwise (fun a b => a.t ≤ b.t) ∧ ∀ x ∈ l ++ [e], x.t ≤ t1 := by
      intro l e k1 k2 k3 k4
      refine ⟨List.pairwise_append.2 ⟨k1, by simp, by simpa using k3⟩, fun x hx => ?_⟩
      rcases List.mem_append.1 hx with hx | hx
      · exact k2 x hx
      · rw [List.mem_singleton.1 hx]; exact k4
    have endA : ∀ (l : List Reading), l.Pairwise (fun a b => a.t ≤ b.t) → (∀ x ∈ l, x.t ≤ t1) →
        (endAt a b t1 l).Pairwise (fun a b => a.t ≤ b.t) ∧ ∀ x ∈ endAt a b t1 l, x.t ≤ t1 := by
      intro l k1 k2
      unfold endAt
      split_ifs
      · exact ⟨k1, k2⟩
      · exact app l _ k1 k2 k2 le_rfl
    rw [selLoop_cons]
    split_ifs with c1 c2 c3 c4
    · obtain ⟨k1, k2⟩ := app acc (interp a b t0) h1 h2 (fun x hx => (h3' x hx).trans c1.2.le) h01.le
      refine selLoop_le h01 _ _ _ hs' k1 k2 (fun x hx y hy => ?_)
      simp only [List.head?_cons, Option.mem_some_iff] at hy
      subst hy
      rcases List.mem_append.1 hx with hx | hx
      · exact (h3' x hx).trans hab.le
      · rw [List.mem_singleton.1 hx]; exact c1.1.le
    · obtain ⟨k1, k2⟩ := app acc a h1 h2 h3' (hab.le.trans c2.2)
      refine selLoop_le h01 _ _ _ hs' k1 k2 (fun x hx y hy => ?_)
      simp only [List.head?_cons, Option.mem_some_iff] at hy
      subst hy
      rcases List.mem_append.1 hx with hx | hx
      · exact (h3' x hx).trans hab.le
      · rw [List.mem_singleton.1 hx]; exact hab.le
    · cases prev with
      | none => exact ⟨h1, h2⟩
      | some z =>
        obtain ⟨k1, k2⟩ := app acc (interp z a t1) h1 h2 h2 le_rfl
        exact endA _ k1 k2
    · obtain ⟨k1, k2⟩ := app acc a h1 h2 h3' (not_lt.1 c4)
      exact endA _ k1 k2
    · refine selLoop_le h01 _ _ _ hs' h1 h2 (fun x hx y hy => ?_)
      simp only [List.head?_cons, Option.mem_some_iff] at hy
      subst hy
      exact (h3' x hx).trans hab.le

theorem dropZero_spaced : ∀ (l : List Reading), l.Pairwise (fun a b => a.t ≤ b.t) → Imu.Spec.Spaced (dropZero l)
  | [], _ => by simp [dropZero, Imu.Spec.Spaced]
  | [_], _ => by simp [dropZero, Imu.Spec.Spaced]
  | a :: b :: l, h => by
    obtain ⟨h1, h2⟩ := List.pairwise_cons.1 h
    have ih := dropZero_spaced (b :: l) h2
    rw [dropZero]
    split_ifs with hc
    · exact ih
    · have hab : a.t ≤ b.t := h1 b (by simp)
      rw [abs_of_nonneg (by linarith), not_lt] at hc
      unfold Imu.Spec.Spaced at ih ⊢
      cases e : dropZero (b :: l) with
      | nil => simp
      | cons c m =>
        rw [e] at ih
        rw [List.isChain_cons_cons]
        refine ⟨?_, ih⟩
        have hm : c ∈ b :: l := (dropZero_sublist (b :: l)).subset (by rw [e]; simp)
        have : b.t ≤ c.t := by
          rcases List.mem_cons.1 hm with rfl | hm
          · exact le_rfl
          · exact (List.pairwise_cons.1 h2).1 c hm
        linarith

/-- the times selected from any buffer in order are in order and at least `1e-12` apart, however little of the interval the buffer covers. -/
theorem select_spaced {t0 t1 : ℝ} (h01 : t0 < t1) (buf : List Reading) (hs : Imu.Spec.Sorted buf) : Imu.Spec.Spaced (select buf t0 t1) := by
  unfold Imu.select
  obtain ⟨h1, h2⟩ := selLoop_le h01 buf none [] hs (by simp) (by simp) (by simp)
  simp only
  split_ifs
  · simp [Imu.Spec.Spaced]
  · apply dropZero_spaced
    unfold stretch
    split_ifs
    · exact h1
    · split
      · exact List.pairwise_append.2 ⟨h1, by simp, by simpa [interp] using h2⟩
      · exact h1

theorem cleanOld_sub (a : ℝ) (l : List Reading) : (cleanOld a l).Sublist l := by
  unfold Imu.cleanOld
  split_ifs
  · exact List.Sublist.refl _
  · exact List.filter_sublist

theorem getD_off {q : Option ℝ} {off : ℝ} (h : q = none ∨ q = some off) : q.getD off = off := by rcases h with h | h <;> rw [h] <;> rfl

theorem has_imu {off : ℝ} {prior : List Reading} {x : FMgr} (h : Spec.Has F off prior x) {r : Reading} (hr : ∀ a ∈ prior, a.t < r.t) : Spec.Has F off (prior ++ [r]) { x with m := feedImu F.mgr x.m r } := by
  refine ⟨h.toff, h.fixed, h.poff, h.zoff, ?_, ?_, fun q hq h1 h2 => ?_, ?_⟩
  · exact (cleanOld_sub _ _).trans (h.sub.append (List.Sublist.refl _))
  · unfold Imu.Spec.Sorted
    rw [List.pairwise_append]
    exact ⟨h.sorted, by simp, by simpa using hr⟩
  · simp only [feedImu] at h1 h2 ⊢
    refine mem_cleanOld ?_ ?_
    · rcases List.mem_append.1 hq with hq | hq
      · exact List.mem_append_left _ (h.has q hq h1 h2)
      · exact List.mem_append_right _ hq
    · rcases oldest_le x.m.st with h | h
      · right; linarith
      · left; rw [h]; norm_num
  · simp only [feedImu]
    split_ifs
    · exact (cleanOld_sub _ _).trans (h.zsub.append (List.Sublist.refl _))
    · exact h.zsub.trans (List.sublist_append_left _ _)

theorem has_timely {off : ℝ} {prior : List Reading} {x : FMgr} (h : Spec.Has F off prior x) {t : ℝ} (ht : x.m.st.ts < t)
    (h0 : ∃ a ∈ prior, x.m.st.ts - 0.1 ≤ a.t ∧ x.m.st.ts + off - 0.1 ≤ a.t ∧ a.t ≤ x.m.st.ts + off) (h1 : ∃ b ∈ prior, t + off ≤ b.t)
    (hl : (Imu.Spec.inside (x.m.st.ts + off) (t + off) prior).length < 10 ^ 7) : Spec.Timely F x.m t := by
  obtain ⟨a, a1, a2, a3, a4⟩ := h0
  obtain ⟨b, b1, b2⟩ := h1
  have hab : a.t < b.t := by linarith
  have ha := h.has a a1 a2 a3
  have hb := h.has b b1 (by linarith) (by linarith)
  have hs : Imu.Spec.Sorted x.m.buf := h.sorted.sublist h.sub
  refine .inl ⟨ht, ⟨off, h.toff, hs, ?_, ⟨a, ha, ?_⟩, ⟨b, hb, b2⟩, ?_⟩, fun hz off' ho => ?_⟩
  · rw [getD_off h.poff]; linarith
  · rw [getD_off h.poff]; exact a4
  · rw [getD_off h.poff]
    exact lt_of_le_of_lt (h.sub.filter _).length_le hl
  · rw [h.toff] at ho
    obtain rfl := Option.some.inj ho
    rw [getD_off h.zoff]
    exact select_spaced (by linarith) _ (h.sorted.sublist h.zsub)

theorem has_frame {off : ℝ} {prior : List Reading} {x y : FMgr} (hx : Spec.MgrOK lib o x) (h : Spec.Has F off prior x) (he : Extra F x y I) (hts : y.m.st.ts = I.t) (hle : x.m.st.ts ≤ I.t) : Spec.Has F off prior y := by
  have hW := prog_W hx.frame.prog.prog
  obtain ⟨k1, -, k3⟩ := he.keep.obj dtUid h.fixed (lt_of_lt_of_le (by simp only [dtUid, base]; omega) hW.next)
  have htoff : tOff y.m.st = some off := by rw [← h.toff]; simp only [tOff, k3]
  refine ⟨htoff, k1, ?_, ?_, ?_, h.sorted, fun r hr h1 h2 => ?_, ?_⟩
  · rcases he.off with e | e
    · rw [e]; exact h.poff
    · rw [e]; exact .inr h.toff
  · rcases he.zoff with e | e
    · rw [e]; exact h.zoff
    · rw [e]; exact .inr h.toff
  · rcases he.bufs with ⟨e, -⟩ | ⟨a, -, e, -⟩
    · rw [e]; exact h.sub
    · rw [e]; exact (cleanOld_sub _ _).trans h.sub
  · rw [hts] at h1 h2
    have hin := h.has r hr (by linarith) (by linarith)
    rcases he.bufs with ⟨e, -⟩ | ⟨a, ha, e, -⟩
    · rw [e]; exact hin
    · rw [htoff] at ha
      obtain rfl := Option.some.inj ha
      rw [e]
      exact mem_cleanOld hin (.inr (by norm_num at h2 ⊢; linarith))
  · rcases he.bufs with ⟨-, e⟩ | ⟨a, -, -, e⟩
    · rw [e]; exact h.zsub
    · rw [e]; exact (cleanOld_sub _ _).trans h.zsub

/-- **C106** (streams) With a camera-IMU time offset that is not estimated, for every stream of readings and images as described by `Stream`, of any length and whatever the images show: all of it is processed, with zero velocity updates, window and
landmark updates, initialisations and marginalisations as they happen to occur, and at the end the state is at the time of the last image, with a window within its size and anchors within the window (and, being a state of the program, with
all invariants of C01 to C13). -/
theorem C106_stream (hlib : St.Spec.LibOK lib) (hF : Spec.CfgOK o F) (off : ℝ) : ∀ (evs : List FEv) (prior : List Reading) (x : FMgr), Spec.MgrOK lib o x → Spec.Has F off prior x → Spec.Stream o off x.m.st.ts prior evs →
    ∃ y, runF lib F x evs = some y ∧ Spec.MgrOK lib o y ∧ y.m.st.ts = (Spec.frameTimes evs).getLastD x.m.st.ts ∧ Spec.Admissible lib o F x evs
  | [], prior, x, hx, _, _ => ⟨x, rfl, hx, rfl, trivial⟩
  | .imu r :: es, prior, x, hx, hh, ⟨hr, hst⟩ => C106_stream hlib hF off es (prior ++ [r]) { x with m := feedImu F.mgr x.m r } ⟨hx.frame, hx.window⟩ (has_imu hh hr) hst
  | .image I :: es, prior, x, hx, hh, ⟨hI, ht, h0, h1, hl, hst⟩ => by
    have htm := has_timely hh ht h0 h1 hl
    obtain ⟨z, k1, ⟨k2, k3, k4⟩, k5⟩ := frame_all hlib hF hI hx htm
    obtain ⟨y, q1, q2, q3, q4⟩ := C106_stream hlib hF off es prior z k2 (has_frame hx hh k5 k3 ht.le) (by rw [k3]; exact hst)
    refine ⟨y, ?_, q2, ?_, hI, htm, fun w hw => ?_⟩
    · simp only [runF, FEv.run, k1, Option.bind_some, q1]
    · rw [q3, k3]
      simp only [Spec.frameTimes]
      cases Spec.frameTimes es <;> rfl
    · rw [k1] at hw
      obtain rfl := Option.some.inj hw
      exact q4

/-! ## the hypotheses are met -/

/-- a freshly constructed filter at time zero that has had one reading, at time zero. -/
noncomputable def exStart (o : Opts) : FMgr :=
  ⟨⟨{ ctor o with ts := 0 }, ⟨0, 0, none⟩, none, false, false, [⟨0, 0, 0⟩], [⟨0, 0, 0⟩], []⟩, fun _ => ⟨.global3d, none, 0, 0, 0, 0, none⟩, none, []⟩

theorem exStart_ok (lib : Lib) (o : Opts) : Spec.MgrOK lib o (exStart o) := by
  obtain ⟨h1, h2, h3, h4, h5, h6, h7⟩ := foldl_push_same (ctorVars o) (ctorBase o)
  have hc : (ctor o).clones = [] := h4
  have hs : (ctor o).slam = [] := h5
  refine ⟨⟨⟨[.setTime 0], ?_, ⟨trivial, fun _ _ => trivial⟩, rfl⟩, ⟨?_, ?_⟩, ?_, ?_⟩, ?_⟩
  · intro op hop
    obtain rfl := List.mem_singleton.1 hop
    trivial
  all_goals simp [exStart, hc, hs, Upd.Spec.Anchored]

theorem exStart_has {o : Opts} (ho : o.calibDt = false) (F : FCfg) : Spec.Has F 0 [⟨0, 0, 0⟩] (exStart o) := by
  obtain ⟨h1, h2, h3, h4, h5, h6, h7⟩ := foldl_push_same (ctorVars o) (ctorBase o)
  have hv : (ctor o).vars = ctorVars o := ctor_vars o
  refine ⟨?_, ?_, .inl rfl, .inl rfl, List.Sublist.refl _, by simp [Imu.Spec.Sorted], fun r hr _ _ => hr, List.Sublist.refl _⟩
  · have : ((ctor o).obj 6).val = (heap0 6).val := (h7 6).2.1
    simp [tOff, exStart, dtUid, this, heap0]
  · simp only [exStart, hv, ctorVars, ho, dtUid, intrUid]
    cases o.calibImu <;> cases o.calibG <;> cases o.kalibr <;> cases o.calibPose <;> cases o.calibIntr <;> simp <;> omega

/-- one reading and one image per second, with any databases in the images. -/
noncomputable def exEvs (db : ℕ → DB ℝ Uv) : ℕ → ℕ → List FEv
  | _, 0 => []
  | k, n + 1 => .imu ⟨k + 1, 0, 0⟩ :: .image ⟨db k, none, k + 1, [0], fun _ _ _ => 0, fun _ => 0⟩ :: exEvs db (k + 1) n

theorem exEvs_stream (o : Opts) (db : ℕ → DB ℝ Uv) (hdb : ∀ k, Spec.DbOK o (db k)) : ∀ (n k : ℕ) (prior : List Reading), (∀ a ∈ prior, a.t ≤ (k : ℝ)) → (⟨k, 0, 0⟩ : Reading) ∈ prior → prior.length + n < 10 ^ 7 → Spec.Stream o 0 k prior (exEvs db k n)
  | 0, k, prior, _, _, _ => trivial
  | n + 1, k, prior, h1, h2, h3 => by
    refine ⟨fun a ha => ?_, ⟨hdb k, by simp, by simp⟩, by simp, ⟨_, List.mem_append_left _ h2, by simp; norm_num, by simp; norm_num, by simp⟩, ⟨_, List.mem_append_right _ (List.mem_singleton.2 rfl), by simp⟩, ?_, ?_⟩
    · have := h1 a ha
      simp only; linarith
    · refine lt_of_le_of_lt (List.length_filter_le _ _) ?_
      simp only [List.length_append, List.length_singleton]; omega
    · have := exEvs_stream o db hdb n (k + 1) (prior ++ [⟨k + 1, 0, 0⟩]) (fun a ha => ?_) ?_ ?_
      · push_cast at this; exact this
      · rcases List.mem_append.1 ha with ha | ha
        · have := h1 a ha
          push_cast; linarith
        · rw [List.mem_singleton.1 ha]; push_cast; exact le_rfl
      · push_cast; simp
      · simp only [List.length_append, List.length_singleton]; omega

/-- a configuration: zero velocity updates until the platform moves, inverse depth landmarks anchored in the window, at most fifty window features and batches of twenty five landmarks. -/
noncomputable def exF : FCfg :=
  ⟨⟨some ⟨⟨1, 1, 1, 1, 9.81⟩, 1, 1, 1, 1, true⟩, true, ⟨.rk4, true⟩, ⟨1, 1, 1, 1, 9.81⟩⟩, 50, 40, 25, ⟨true, fun _ => .radtan, .global3d, 1, 1⟩, ⟨true, fun _ => .radtan, .anchoredMsckf, .anchored3d, 1, 1, 1, 1⟩,
    ⟨⟨5, 1e-3, 1e10, 1e-6, 1e-6, 10, 0.1, 60, 40, 10000⟩, false, true, fun _ => 1, fun _ _ => 0, 100⟩, 0, 2, id⟩

theorem exF_ok {o : Opts} (ho : 1 ≤ o.maxClones) : Spec.CfgOK o exF := by
  refine ⟨by simp [exF], by simp [exF], by simp [exF], by simp [exF], by simp [exF], by simp [exF], by simp [exF], by simp [exF], fun l => List.Perm.refl _, by simp [exF], by simp [exF]; norm_num, ⟨13, ?_, by simp [exF]⟩, ho, fun Z hZ => ?_⟩
  · simp only [exF]; norm_num
  · obtain rfl := Option.some.inj hZ
    norm_num

/-- a database with one feature seen twice by camera zero. -/
example {o : Opts} (ho : 0 < o.numCams) : Spec.DbOK o [(3, ⟨3, false, [(0, [(10, 20), (11, 21)])], [(0, [(10, 20), (11, 21)])], [(0, [1, 2])]⟩)] :=
  ⟨⟨.step (.step .empty (.update 3 1 0 (10, 20) (10, 20))) (.update 3 2 0 (11, 21) (11, 21)), rfl⟩, by simp [AMap.keys]; exact ho⟩

/-- the hypotheses of C106 and C107 are met, for options that estimate everything but the time offset, by a stream of nine thousand images with any databases. -/
example (hlib : St.Spec.LibOK lib) (db : ℕ → DB ℝ Uv) (o : Opts) (ho : o = ⟨true, true, true, false, true, true, 2, 11, 0⟩) (hdb : ∀ k, Spec.DbOK o (db k)) : ∃ y, runF lib exF (exStart o) (exEvs db 0 9000) = some y ∧ Spec.MgrOK lib o y ∧
    tOff y.m.st = some 0 ∧ y.m.st.obj 5 = (ctor o).obj 5 := by
  subst ho
  have hF : Spec.CfgOK ⟨true, true, true, false, true, true, 2, 11, 0⟩ exF := exF_ok (by simp)
  obtain ⟨y, h1, h2, -, h3⟩ := C106_stream hlib hF 0 _ _ _ (exStart_ok lib _) (exStart_has rfl exF) (by
    have := exEvs_stream ⟨true, true, true, false, true, true, 2, 11, 0⟩ db hdb 9000 0 [⟨0, 0, 0⟩] (by simp) (by simp) (by simp)
    push_cast at this
    exact this)
  obtain ⟨k1, -, -, -, -, k2, -⟩ := C107_fixed_calibration hlib hF _ _ y (exStart_ok lib _) (fun u hu hlt => onlyCtor_ctor _ u hu hlt) h3 h1
  exact ⟨y, h1, h2, (k1 rfl).1.trans (exStart_has rfl exF).toff, k2 rfl⟩

end Verif.Vio
