import Verif.Vio.Wanted
import Verif.Vio.PropsBoot

/-!
# How many features a tracker looks for (C150)
-/

set_option autoImplicit false
open Classical

namespace Verif.Vio

open Verif Verif.Types Verif.St Verif.Imu Verif.Prop_ Verif.Feat Verif.Disp

variable {lib : Lib} {W : WCfg}

namespace Spec

/-- `k` is the share of each of `cams` cameras in `total` features: the largest number that all cameras can have. -/
def Share (total : ℤ) (cams : ℕ) (k : ℤ) : Prop := k * cams ≤ total ∧ total < (k + 1) * cams

end Spec

theorem share_floor {total : ℤ} {cams : ℕ} (hc : 0 < cams) (k : ℤ) : k = ⌊(total : ℚ) / (cams : ℚ)⌋ ↔ Spec.Share total cams k := by
  have h : (0 : ℚ) < cams := by exact_mod_cast hc
  rw [eq_comm, Int.floor_eq_iff, le_div_iff₀ h, div_lt_iff₀ h]
  unfold Spec.Share
  constructor
  · rintro ⟨a, b⟩; exact ⟨by exact_mod_cast a, by exact_mod_cast b⟩
  · rintro ⟨a, b⟩; exact ⟨by exact_mod_cast a, by exact_mod_cast b⟩

theorem tryInitW_fst (b : Boot) (n : ℤ) : (tryInitW W b n).map Prod.fst = tryInit W.B b := by
  unfold tryInitW tryInit
  cases runInit W.B b.x.m.db b.ibuf W.B.F.mgr.Z.isNone with
  | none => rfl
  | some q =>
    obtain ⟨out, db, ibuf⟩ := q
    simp only [Option.bind_eq_bind, Option.bind_some]
    cases out with
    | no => rfl
    | bad x => rfl
    | ok t x C =>
      simp only
      cases start { b with x := { b.x with m := { b.x.m with db := db } }, ibuf := ibuf } t x C <;> rfl

theorem wanted_fst (b : Boot) (n : ℤ) (e : LEv) : (e.wanted lib W b n).map Prod.fst = e.boot lib W.B b := by
  cases e with
  | imu r => simp only [LEv.wanted, LEv.boot, Option.map_map]; exact Option.map_id'
  | shot S =>
    simp only [LEv.wanted, LEv.boot]
    split_ifs with h1 h2
    · rw [Option.map_map]; exact Option.map_id'
    · rw [Option.map_map]; exact Option.map_id'
    · rw [tryInitW_fst, bootShot, if_neg h1, if_neg h2]

/-- **C150** The number of features looked for has no influence on the manager of C113: the runs are the same. -/
theorem C150_observer : ∀ (evs : List LEv) (b : Boot) (n : ℤ), (runW lib W (b, n) evs).map Prod.fst = runB lib W.B b evs
  | [], _, _ => rfl
  | e :: es, b, n => by
    simp only [runW, runB]
    rw [← wanted_fst (lib := lib) (W := W) b n e]
    cases e.wanted lib W b n with
    | none => rfl
    | some q => exact C150_observer es q.1 q.2

theorem tryInitW_snd {b b' : Boot} {n k : ℤ} (hs : b.success = false) (hi : b.inited = false) (h : tryInitW W b n = some (b', k)) :
    b'.inited = false ∧ k = if b'.success then wantedRun W else n := by
  unfold tryInitW at h
  rw [Option.bind_eq_bind, Option.bind_eq_some_iff] at h
  obtain ⟨⟨out, db, ibuf⟩, -, h⟩ := h
  cases out with
  | no => simp only [Option.some.injEq, Prod.mk.injEq] at h; obtain ⟨rfl, rfl⟩ := h; simp [hs, hi]
  | bad x => simp only [Option.some.injEq, Prod.mk.injEq] at h; obtain ⟨rfl, rfl⟩ := h; simp [hs, hi]
  | ok t x C =>
    simp only [Option.bind_eq_bind, Option.bind_eq_some_iff] at h
    obtain ⟨b2, h1, h⟩ := h
    simp only [Option.some.injEq, Prod.mk.injEq] at h
    obtain ⟨rfl, rfl⟩ := h
    exact ⟨(start_flags h1).1.trans hi, by simp⟩

theorem wanted_step {b b' : Boot} {n k : ℤ} {e : LEv} (hi : b.inited = true → b.success = true) (h : e.wanted lib W b n = some (b', k)) :
    (b'.inited = true → b'.success = true) ∧ (b.success = true → b'.success = true ∧ k = n) ∧ (b.success = false → k = if b'.success then wantedRun W else n) := by
  cases e with
  | imu r =>
    simp only [LEv.wanted, Option.map_eq_some_iff, Prod.mk.injEq] at h
    obtain ⟨b1, h, rfl, rfl⟩ := h
    have : b1.inited = b.inited ∧ b1.success = b.success := by
      unfold bootImu at h
      split_ifs at h
      · obtain rfl := Option.some.inj h; exact ⟨rfl, rfl⟩
      · rw [Option.bind_eq_bind, Option.bind_eq_some_iff] at h
        obtain ⟨off, -, h⟩ := h
        obtain rfl := Option.some.inj h; exact ⟨rfl, rfl⟩
    rw [this.1, this.2]
    exact ⟨hi, fun h => ⟨h, rfl⟩, fun h => by simp [h]⟩
  | shot S =>
    simp only [LEv.wanted] at h
    split_ifs at h with c1 c2
    · simp only [Option.map_eq_some_iff, Prod.mk.injEq] at h
      obtain ⟨b1, h, rfl, rfl⟩ := h
      rw [bootShot, if_pos c1, Option.map_eq_some_iff] at h
      obtain ⟨y, -, rfl⟩ := h
      exact ⟨hi, fun h => ⟨h, rfl⟩, fun h => by rw [hi c1] at h; cases h⟩
    · simp only [Option.map_eq_some_iff, Prod.mk.injEq] at h
      obtain ⟨b1, h, rfl, rfl⟩ := h
      rw [bootShot, if_neg c1, if_pos c2, Option.map_eq_some_iff] at h
      obtain ⟨y, -, rfl⟩ := h
      exact ⟨fun _ => c2, fun h => ⟨h, rfl⟩, fun h => by rw [c2] at h; cases h⟩
    · have c1' : b.inited = false := by simpa using c1
      have c2' : b.success = false := by simpa using c2
      obtain ⟨q1, q2⟩ := tryInitW_snd (b := { b with x := { b.x with m := { b.x.m with db := trackAll b.x.m.db S.t S.feats } } }) c2' c1' h
      exact ⟨fun h => (by rw [q1] at h; cases h), fun h => absurd h c2, fun _ => q2⟩

theorem runW_num : ∀ (evs : List LEv) (b y : Boot) (n k : ℤ), (b.inited = true → b.success = true) → runW lib W (b, n) evs = some (y, k) →
    (y.inited = true → y.success = true) ∧ (b.success = true → y.success = true ∧ k = n) ∧ (b.success = false → k = if y.success then wantedRun W else n)
  | [], b, y, n, k, hi, h => by
    simp only [runW, Option.some.injEq, Prod.mk.injEq] at h
    obtain ⟨rfl, rfl⟩ := h
    exact ⟨hi, fun h => ⟨h, rfl⟩, fun h => by simp [h]⟩
  | e :: es, b, y, n, k, hi, h => by
    simp only [runW, Option.bind_eq_some_iff] at h
    obtain ⟨⟨b1, n1⟩, h1, h2⟩ := h
    obtain ⟨p1, p2, p3⟩ := wanted_step hi h1
    obtain ⟨q1, q2, q3⟩ := runW_num es b1 y n1 k p1 h2
    refine ⟨q1, fun hb => ?_, fun hb => ?_⟩
    · obtain ⟨a, c⟩ := p2 hb
      obtain ⟨a', c'⟩ := q2 a
      exact ⟨a', c'.trans c⟩
    · have e3 := p3 hb
      rcases hs : b1.success with _ | _
      · rw [hs] at e3
        rw [q3 hs]
        simp only [Bool.false_eq_true, if_false] at e3
        rw [e3]
      · rw [hs] at e3
        obtain ⟨a', c'⟩ := q2 hs
        rw [c', a', e3]

/-- **C150** (started by itself) For every sequence of readings and images after power on: until the initialisation has succeeded, each camera is asked for its share of `init_max_features`; from then on, in particular while the filter runs, for its share of `num_pts`. -/
theorem C150_own_start_partial (hc : 0 < W.cams) (b y : Boot) (h0 : b.success = false ∧ b.inited = false) (evs : List LEv) (k : ℤ) (h : runW lib W (b, wanted0 W) evs = some (y, k)) :
    (y.success = false → Spec.Share W.B.maxFeat W.cams k) ∧ (y.success = true → Spec.Share W.numPts W.cams k) ∧ (y.inited = true → Spec.Share W.numPts W.cams k) := by
  obtain ⟨q1, -, q3⟩ := runW_num evs b y (wanted0 W) k (by simp [h0.2]) h
  have e := q3 h0.1
  have hr : y.success = true → Spec.Share W.numPts W.cams k := fun hs => by
    rw [hs] at e
    exact (share_floor hc k).1 e
  refine ⟨fun hs => ?_, hr, fun hi => hr (q1 hi)⟩
  rw [hs] at e
  simp only [Bool.false_eq_true, if_false] at e
  exact (share_floor hc k).1 e

/-- a running filter does not change the number. -/
theorem runW_inited : ∀ (evs : List LEv) (b y : Boot) (n k : ℤ), b.inited = true → runW lib W (b, n) evs = some (y, k) → y.inited = true ∧ k = n
  | [], b, y, n, k, hi, h => by
    simp only [runW, Option.some.injEq, Prod.mk.injEq] at h
    obtain ⟨rfl, rfl⟩ := h
    exact ⟨hi, rfl⟩
  | e :: es, b, y, n, k, hi, h => by
    simp only [runW, Option.bind_eq_some_iff] at h
    obtain ⟨⟨b1, n1⟩, h1, h2⟩ := h
    have h3 : e.boot lib W.B b = some b1 := by rw [← wanted_fst (W := W) b n e, h1]; rfl
    have hb1 : b1.inited = true := (C113_only_once lib W.B [e] b b1 (by simp [runB, h3])).1 hi
    have hn : n1 = n := by
      cases e with
      | imu r => simp only [LEv.wanted, Option.map_eq_some_iff, Prod.mk.injEq] at h1; obtain ⟨_, _, _, e⟩ := h1; exact e.symm
      | shot S =>
        simp only [LEv.wanted, if_pos hi, Option.map_eq_some_iff, Prod.mk.injEq] at h1
        obtain ⟨_, _, _, e⟩ := h1; exact e.symm
    subst hn
    exact runW_inited es b1 y n1 k hb1 h2

/-- **C150** (started with ground truth) The claim is false of the code: started with ground truth, the filter runs at once, but each camera is for ever asked for its share of `init_max_features` only, whatever comes in. -/
theorem C150_ground_truth_never_raised (hc : 0 < W.cams) (b b1 y : Boot) (n1 : ℤ) (t : ℝ) (x : Imu16) (hg : withGtW b (wanted0 W) t x = some (b1, n1)) (evs : List LEv) (k : ℤ)
    (h : runW lib W (b1, n1) evs = some (y, k)) : y.inited = true ∧ Spec.Share W.B.maxFeat W.cams k := by
  unfold withGtW withGt at hg
  simp only [Option.map_map, Option.map_eq_some_iff, Function.comp, Prod.mk.injEq] at hg
  obtain ⟨b2, -, rfl, rfl⟩ := hg
  obtain ⟨q1, rfl⟩ := runW_inited evs _ y _ k rfl h
  exact ⟨q1, (share_floor hc _).1 rfl⟩

/-- the usual settings: `num_pts` 150, `init_max_features` 50, two cameras. -/
noncomputable def exW : WCfg := ⟨exB, 150, 2⟩

/-- **C150** With the usual settings a filter started with ground truth runs and has 25 features per camera looked for instead of 75. -/
theorem C150_ground_truth_counterexample {o : Opts} (ho : o.calibDt = false) (t : ℝ) (x : Imu16) :
    ∃ b1 n1, withGtW (exBoot o) (wanted0 exW) t x = some (b1, n1) ∧ b1.inited = true ∧ n1 = 25 ∧ ¬Spec.Share exW.numPts exW.cams n1 ∧ Spec.Share exW.numPts exW.cams 75 := by
  obtain ⟨b', h1, -⟩ := gt_loop (lib := ⟨fun _ _ _ _ => 0, fun _ _ _ _ => 0, fun _ _ _ _ => 0, fun _ => 0⟩) (exBoot_ok ho) exF t x
  have hn : wanted0 exW = 25 := (share_floor (total := 50) (cams := 2) (by norm_num) 25).2 (by norm_num [Spec.Share]) |>.symm
  refine ⟨{ b' with inited := true }, 25, ?_, rfl, rfl, ?_, ?_⟩
  · unfold withGtW withGt; rw [h1, hn]; rfl
  · norm_num [Spec.Share, exW]
  · norm_num [Spec.Share, exW]

/-- the run of C113's example: at rest for three tenths of a second, the initialisation succeeds and each camera is asked for 75 features. -/
example {o : Opts} (ho : o.calibDt = false) (hc : 2 ≤ o.maxClones) (hn : 0 < o.numCams) (hlib : St.Spec.LibOK lib) :
    ∃ y, runW lib exW (exBoot o, wanted0 exW) (exBevs o) = some (y, 75) ∧ y.success = true := by
  obtain ⟨y, h1, h2, -⟩ := ex_started (lib := lib) ho hc hn hlib
  have h := C150_observer (lib := lib) (W := exW) (exBevs o) (exBoot o) (wanted0 exW)
  rw [show runB lib exW.B (exBoot o) (exBevs o) = some y from h1, Option.map_eq_some_iff] at h
  obtain ⟨⟨y', k⟩, h3, rfl⟩ := h
  have hk := (runW_num _ _ _ _ _ (by simp [exBoot]) h3).2.2 rfl
  rw [h2] at hk
  have : wantedRun exW = 75 := (share_floor (total := 150) (cams := 2) (by norm_num) 75).2 (by norm_num [Spec.Share]) |>.symm
  simp only [if_true, this] at hk
  exact ⟨y', by rw [h3, hk], h2⟩

end Verif.Vio
