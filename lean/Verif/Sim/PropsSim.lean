import Verif.Sim.Simulator
import Verif.Sim.PropsSplineD
import Verif.Prop.Props

/-! # C60, C90: the simulator's sensor streams -/

set_option autoImplicit false

namespace Verif.Sim

open Verif Verif.Types Verif.St Verif.Imu Verif.Prop_ Matrix

namespace Spec

/-- The spline has poses exactly on `[a, b)` (`C61_control_points` gives this for every fed trajectory). -/
def Covers (cps : Poses) (a b : ℝ) : Prop := ∀ t, (getPose cps t).isSome ↔ a ≤ t ∧ t < b

/-- time of an output on the IMU clock. -/
def Out.time : Out → ℝ
  | .imu r _ _ => r.t
  | .cam _ t => t

/-- the times of the IMU readings, in order. -/
def imuTimes (os : List Out) : List ℝ := os.filterMap fun o => match o with | .imu r _ _ => some r.t | .cam _ _ => none
/-- the reported times of the camera frames, in order. -/
def camTimes (os : List Out) : List ℝ := os.filterMap fun o => match o with | .imu _ _ _ => none | .cam t _ => some t

end Spec

theorem acc_some_iff (m : Poses) (t : ℝ) : (getAcceleration m t).isSome = (getPose m t).isSome := by
  unfold getAcceleration getPose
  cases findCtl t m <;> rfl

/-- The bookkeeping invariant of the streams: `n` readings and `k` frames are out. -/
structure Inv (c : SimCfg) (t0 b : ℝ) (bg ba : V3) (s : SimSt) (os : List Out) (n k : ℕ) : Prop where
  imuT : Spec.imuTimes os = (List.range n).map fun i : ℕ => t0 + ((i : ℝ) + 1) / c.freqImu
  camT : Spec.camTimes os = (List.range k).map fun i : ℕ => t0 + ((i : ℝ) + 1) / c.freqCam - c.camDt
  sorted : (os.map Spec.Out.time).Pairwise (· ≤ ·)
  leI : ∀ o ∈ os, Spec.Out.time o ≤ s.imu + 1 / c.freqImu
  leC : ∀ o ∈ os, Spec.Out.time o ≤ s.cam + 1 / c.freqCam
  ltb : ∀ o ∈ os, Spec.Out.time o < b
  camO : ∀ r t, Out.cam r t ∈ os → r = t - c.camDt
  on : s.run = true → s.imu = t0 + (n : ℝ) / c.freqImu ∧ s.cam = t0 + (k : ℝ) / c.freqCam ∧ t0 ≤ s.imu ∧ t0 ≤ s.cam
  off : s.run = false → b ≤ s.imu + 1 / c.freqImu ∧ b ≤ s.cam + 1 / c.freqCam ∧ b ≤ t0 + ((n : ℝ) + 1) / c.freqImu ∧
    b ≤ t0 + ((k : ℝ) + 1) / c.freqCam
  histT : s.hist.map Prod.fst = (List.range (if s.skipped then n + 2 else 3)).map fun i : ℕ => t0 + ((i : ℝ) - 1) / c.freqImu
  skip : s.skipped = true ↔ 0 < n
  skipB : s.skipped = false → s.hist = [(t0 - 1 / c.freqImu, bg, ba), (t0, bg, ba), (t0 + 1 / c.freqImu, bg, ba)] ∧ s.bg = bg ∧ s.ba = ba
  bias : ∀ r bg ba, Out.imu r bg ba ∈ os → (r.t, bg, ba) ∈ s.hist
  read : ∀ r bg ba, Out.imu r bg ba ∈ os → ∃ R p w v al a nw na, getAcceleration c.cps r.t = some (R, p, w, v, al, a) ∧
    r.wm = (simReading c.kalibr c.cal c.g r.t R a w bg ba).wm + nw ∧ r.am = (simReading c.kalibr c.cal c.g r.t R a w bg ba).am + na

theorem range_map_succ (n : ℕ) (f : ℕ → ℝ) : (List.range (n + 1)).map f = (List.range n).map f ++ [f n] := by
  rw [List.range_succ, List.map_append]; rfl

theorem inv_init (c : SimCfg) (t0 b : ℝ) (bg ba : V3) : Inv c t0 b bg ba (simInit c t0 bg ba) [] 0 0 where
  imuT := rfl
  camT := rfl
  sorted := List.Pairwise.nil
  leI := by simp
  leC := by simp
  ltb := by simp
  camO := by simp
  on := by simp [simInit]
  off := by simp [simInit]
  histT := by
    have : List.range 3 = [0, 1, 2] := rfl
    simp [simInit, this, neg_div]
    refine ⟨by ring, ?_⟩
    norm_num
  skip := by simp [simInit]
  skipB := by simp [simInit]
  bias := by simp
  read := by simp

theorem inv_imu {c : SimCfg} {t0 a b : ℝ} {bg ba : V3} (hfi : 0 < c.freqImu) (hfc : 0 < c.freqCam) (hcov : Spec.Covers c.cps a b)
    (ha : a ≤ t0) {s : SimSt} {os : List Out} {n k : ℕ} (h : Inv c t0 b bg ba s os n k) (dbg dba nw na : V3) :
    ∃ n', Inv c t0 b bg ba (nextImu c s dbg dba nw na).1 (os ++ (nextImu c s dbg dba nw na).2.toList) n' k ∧
      (s.imu + 1 / c.freqImu ≤ s.cam + 1 / c.freqCam → (nextImu c s dbg dba nw na).1.imu = s.imu + 1 / c.freqImu) ∧
      (nextImu c s dbg dba nw na).1.cam = s.cam ∧ s.imu ≤ (nextImu c s dbg dba nw na).1.imu ∧
      ((nextImu c s dbg dba nw na).1.run = true → s.run = true) := by
  have pi : 0 < 1 / c.freqImu := by positivity
  have pc : 0 < 1 / c.freqCam := by positivity
  unfold nextImu
  by_cases hw : s.cam + 1 / c.freqCam < s.imu + 1 / c.freqImu
  · rw [if_pos hw]
    refine ⟨n, by simpa using h, fun h' => absurd h' (not_le.2 hw), rfl, le_rfl, fun h => h⟩
  · rw [if_neg hw]
    push Not at hw
    dsimp only
    cases hg : getAcceleration c.cps (s.imu + 1 / c.freqImu) with
    | none =>
      dsimp only
      refine ⟨n, ?_, fun _ => rfl, rfl, by linarith, by simp⟩
      have hnc : ¬ (a ≤ s.imu + 1 / c.freqImu ∧ s.imu + 1 / c.freqImu < b) := by
        rw [← hcov, ← acc_some_iff, hg]; simp
      have hb : b ≤ s.imu + 1 / c.freqImu ∧ b ≤ t0 + ((n : ℝ) + 1) / c.freqImu ∧ b ≤ t0 + ((k : ℝ) + 1) / c.freqCam := by
        cases hr : s.run with
        | true =>
          obtain ⟨e1, e2, e3, e4⟩ := h.on hr
          have : b ≤ s.imu + 1 / c.freqImu := by
            by_contra hlt
            push Not at hlt
            exact hnc ⟨by linarith, hlt⟩
          have e5 : t0 + ((n : ℝ) + 1) / c.freqImu = s.imu + 1 / c.freqImu := by rw [e1]; ring
          have e6 : t0 + ((k : ℝ) + 1) / c.freqCam = s.cam + 1 / c.freqCam := by rw [e2]; ring
          rw [e5, e6]
          exact ⟨this, this, this.trans hw⟩
        | false =>
          obtain ⟨e1, e2, e3, e4⟩ := h.off hr
          exact ⟨e1, e3, e4⟩
      refine { imuT := ?_, camT := ?_, sorted := ?_, leI := ?_, leC := ?_, ltb := ?_, camO := ?_, on := ?_, off := ?_, histT := h.histT, skip := h.skip, skipB := h.skipB, bias := ?_, read := ?_ } <;> simp only [Option.toList_none, List.append_nil]
      · exact h.imuT
      · exact h.camT
      · exact h.sorted
      · intro o ho; linarith [h.leI o ho]
      · exact h.leC
      · exact h.ltb
      · exact h.camO
      · intro h'; cases h'
      · intro _; exact ⟨by linarith [hb.1], hb.1.trans hw, hb.2⟩
      · exact h.bias
      · exact h.read
    | some x =>
      obtain ⟨R, p, w, v, al, ac⟩ := x
      have hc : a ≤ s.imu + 1 / c.freqImu ∧ s.imu + 1 / c.freqImu < b := by
        rw [← hcov, ← acc_some_iff, hg]; rfl
      have hr : s.run = true := by
        cases hr : s.run with
        | true => rfl
        | false => exact absurd hc.2 (not_lt.2 (h.off hr).1)
      obtain ⟨e1, e2, e3, e4⟩ := h.on hr
      have et : s.imu + 1 / c.freqImu = t0 + ((n : ℝ) + 1) / c.freqImu := by rw [e1]; ring
      dsimp only
      have hrun : ∀ s2 : SimSt, s2 = (if s.skipped then
          { s with imu := s.imu + 1 / c.freqImu, bg := s.bg + dbg, ba := s.ba + dba,
                   hist := s.hist ++ [(s.imu + 1 / c.freqImu, s.bg + dbg, s.ba + dba)] }
          else { s with imu := s.imu + 1 / c.freqImu }) →
          s2.imu = s.imu + 1 / c.freqImu ∧ s2.cam = s.cam ∧ s2.run = true ∧ (∀ y ∈ s.hist, y ∈ s2.hist) ∧
          (s.imu + 1 / c.freqImu, s2.bg, s2.ba) ∈ s2.hist ∧
          s2.hist.map Prod.fst = (List.range (n + 1 + 2)).map fun i : ℕ => t0 + ((i : ℝ) - 1) / c.freqImu := by
        rintro s2 rfl
        cases hsk : s.skipped with
        | true =>
          refine ⟨rfl, rfl, hr, fun y hy => by simp [hy], by simp, ?_⟩
          have := h.histT
          rw [hsk] at this
          simp only [if_true] at this ⊢
          rw [List.map_append, this, range_map_succ (n + 2)]
          simp only [List.map_cons, List.map_nil]
          congr 2
          rw [et]; push_cast; ring
        | false =>
          obtain ⟨g1, g2, g3⟩ := h.skipB hsk
          have hn : n = 0 := by
            by_contra hn
            have := h.skip.2 (Nat.pos_of_ne_zero hn)
            rw [hsk] at this; cases this
          refine ⟨rfl, rfl, hr, fun y hy => hy, ?_, ?_⟩
          · simp only [Bool.false_eq_true, if_false]
            rw [g1, g2, g3, e1, hn]; simp
          · have := h.histT
            rw [hsk] at this
            simp only [Bool.false_eq_true, if_false] at this ⊢
            rw [this, hn]
      generalize (if s.skipped then
          { s with imu := s.imu + 1 / c.freqImu, bg := s.bg + dbg, ba := s.ba + dba,
                   hist := s.hist ++ [(s.imu + 1 / c.freqImu, s.bg + dbg, s.ba + dba)] }
          else { s with imu := s.imu + 1 / c.freqImu }) = s2 at *
      obtain ⟨g1, g2, g3, g4, g5, g6⟩ := hrun s2 rfl
      have ht : (simReading c.kalibr c.cal c.g (s.imu + 1 / c.freqImu) R ac w s2.bg s2.ba).t = s.imu + 1 / c.freqImu := rfl
      refine ⟨n + 1, ?_, fun _ => g1, g2, by rw [g1]; linarith, fun _ => hr⟩
      refine { imuT := ?_, camT := ?_, sorted := ?_, leI := ?_, leC := ?_, ltb := ?_, camO := ?_, on := ?_, off := ?_, histT := ?_, skip := ?_, skipB := ?_, bias := ?_, read := ?_ } <;> simp only [Option.toList_some]
      · unfold Spec.imuTimes
        rw [List.filterMap_append]
        have := h.imuT
        unfold Spec.imuTimes at this
        rw [this, range_map_succ]
        show _ ++ [s.imu + 1 / c.freqImu] = _
        rw [et]
      · unfold Spec.camTimes
        rw [List.filterMap_append]
        have := h.camT
        unfold Spec.camTimes at this
        rw [this]
        simp
      · rw [List.map_append, List.pairwise_append]
        refine ⟨h.sorted, by simp, ?_⟩
        intro x hx y hy
        obtain ⟨o, ho, rfl⟩ := List.mem_map.1 hx
        simp only [List.map_cons, List.map_nil, List.mem_singleton] at hy
        rw [hy]
        exact h.leI o ho
      · intro o ho
        rcases List.mem_append.1 ho with ho | ho
        · rw [g1]; linarith [h.leI o ho]
        · rw [List.mem_singleton.1 ho, g1]
          show s.imu + 1 / c.freqImu ≤ _
          linarith
      · intro o ho
        rw [g2]
        rcases List.mem_append.1 ho with ho | ho
        · exact h.leC o ho
        · rw [List.mem_singleton.1 ho]
          exact hw
      · intro o ho
        rcases List.mem_append.1 ho with ho | ho
        · exact h.ltb o ho
        · rw [List.mem_singleton.1 ho]
          exact hc.2
      · intro r t hm
        rcases List.mem_append.1 hm with hm | hm
        · exact h.camO r t hm
        · simp at hm
      · intro _
        rw [g1, g2]
        refine ⟨by rw [et]; push_cast; ring, e2, by linarith, e4⟩
      · intro h'; rw [g3] at h'; cases h'
      · simpa using g6
      · simp
      · intro h'; cases h'
      · intro r bg' ba' hm
        rcases List.mem_append.1 hm with hm | hm
        · exact g4 _ (h.bias r bg' ba' hm)
        · simp only [List.mem_singleton, Out.imu.injEq] at hm
          obtain ⟨rfl, rfl, rfl⟩ := hm
          exact g5
      · intro r bg' ba' hm
        rcases List.mem_append.1 hm with hm | hm
        · exact h.read r bg' ba' hm
        · simp only [List.mem_singleton, Out.imu.injEq] at hm
          obtain ⟨rfl, rfl, rfl⟩ := hm
          exact ⟨R, p, w, v, al, ac, nw, na, hg, rfl, rfl⟩

theorem inv_cam {c : SimCfg} {t0 a b : ℝ} {bg ba : V3} (hfi : 0 < c.freqImu) (hfc : 0 < c.freqCam) (hcov : Spec.Covers c.cps a b)
    (ha : a ≤ t0) {s : SimSt} {os : List Out} {n k : ℕ} (h : Inv c t0 b bg ba s os n k) :
    ∃ k', Inv c t0 b bg ba (nextCam c s).1 (os ++ (nextCam c s).2.toList) n k' ∧
      (s.cam + 1 / c.freqCam ≤ s.imu + 1 / c.freqImu → (nextCam c s).1.cam = s.cam + 1 / c.freqCam) ∧
      (nextCam c s).1.imu = s.imu ∧ s.cam ≤ (nextCam c s).1.cam ∧ ((nextCam c s).1.run = true → s.run = true) := by
  have pi : 0 < 1 / c.freqImu := by positivity
  have pc : 0 < 1 / c.freqCam := by positivity
  unfold nextCam
  by_cases hw : s.imu + 1 / c.freqImu < s.cam + 1 / c.freqCam
  · rw [if_pos hw]
    refine ⟨k, by simpa using h, fun h' => absurd h' (not_le.2 hw), rfl, le_rfl, fun h => h⟩
  · rw [if_neg hw]
    push Not at hw
    dsimp only
    cases hg : getPose c.cps (s.cam + 1 / c.freqCam) with
    | none =>
      dsimp only
      refine ⟨k, ?_, fun _ => rfl, rfl, by linarith, by simp⟩
      have hnc : ¬ (a ≤ s.cam + 1 / c.freqCam ∧ s.cam + 1 / c.freqCam < b) := by
        rw [← hcov, hg]; simp
      have hb : b ≤ s.cam + 1 / c.freqCam ∧ b ≤ t0 + ((n : ℝ) + 1) / c.freqImu ∧ b ≤ t0 + ((k : ℝ) + 1) / c.freqCam := by
        cases hr : s.run with
        | true =>
          obtain ⟨e1, e2, e3, e4⟩ := h.on hr
          have : b ≤ s.cam + 1 / c.freqCam := by
            by_contra hlt
            push Not at hlt
            exact hnc ⟨by linarith, hlt⟩
          have e5 : t0 + ((n : ℝ) + 1) / c.freqImu = s.imu + 1 / c.freqImu := by rw [e1]; ring
          have e6 : t0 + ((k : ℝ) + 1) / c.freqCam = s.cam + 1 / c.freqCam := by rw [e2]; ring
          rw [e5, e6]
          exact ⟨this, this.trans hw, this⟩
        | false =>
          obtain ⟨e1, e2, e3, e4⟩ := h.off hr
          exact ⟨e2, e3, e4⟩
      refine { imuT := ?_, camT := ?_, sorted := ?_, leI := ?_, leC := ?_, ltb := ?_, camO := ?_, on := ?_, off := ?_, histT := h.histT, skip := h.skip, skipB := h.skipB, bias := ?_, read := ?_ } <;> simp only [Option.toList_none, List.append_nil]
      · exact h.imuT
      · exact h.camT
      · exact h.sorted
      · exact h.leI
      · intro o ho; linarith [h.leC o ho]
      · exact h.ltb
      · exact h.camO
      · intro h'; cases h'
      · intro _; exact ⟨hb.1.trans hw, by linarith [hb.1], hb.2⟩
      · exact h.bias
      · exact h.read
    | some x =>
      have hc : a ≤ s.cam + 1 / c.freqCam ∧ s.cam + 1 / c.freqCam < b := by
        rw [← hcov, hg]; rfl
      have hr : s.run = true := by
        cases hr : s.run with
        | true => rfl
        | false => exact absurd hc.2 (not_lt.2 (h.off hr).2.1)
      obtain ⟨e1, e2, e3, e4⟩ := h.on hr
      have et : s.cam + 1 / c.freqCam = t0 + ((k : ℝ) + 1) / c.freqCam := by rw [e2]; ring
      dsimp only
      refine ⟨k + 1, ?_, fun _ => rfl, rfl, by linarith, fun _ => hr⟩
      refine { imuT := ?_, camT := ?_, sorted := ?_, leI := ?_, leC := ?_, ltb := ?_, camO := ?_, on := ?_, off := ?_, histT := h.histT, skip := h.skip, skipB := h.skipB, bias := ?_, read := ?_ } <;> simp only [Option.toList_some]
      · unfold Spec.imuTimes
        rw [List.filterMap_append]
        have := h.imuT
        unfold Spec.imuTimes at this
        rw [this]
        simp
      · unfold Spec.camTimes
        rw [List.filterMap_append]
        have := h.camT
        unfold Spec.camTimes at this
        rw [this, range_map_succ]
        show _ ++ [s.cam + 1 / c.freqCam - c.camDt] = _
        rw [et]
      · rw [List.map_append, List.pairwise_append]
        refine ⟨h.sorted, by simp, ?_⟩
        intro x hx y hy
        obtain ⟨o, ho, rfl⟩ := List.mem_map.1 hx
        simp only [List.map_cons, List.map_nil, List.mem_singleton] at hy
        rw [hy]
        exact h.leC o ho
      · intro o ho
        rcases List.mem_append.1 ho with ho | ho
        · exact h.leI o ho
        · rw [List.mem_singleton.1 ho]
          exact hw
      · intro o ho
        rcases List.mem_append.1 ho with ho | ho
        · linarith [h.leC o ho]
        · rw [List.mem_singleton.1 ho]
          show s.cam + 1 / c.freqCam ≤ _
          linarith
      · intro o ho
        rcases List.mem_append.1 ho with ho | ho
        · exact h.ltb o ho
        · rw [List.mem_singleton.1 ho]
          exact hc.2
      · intro r t hm
        rcases List.mem_append.1 hm with hm | hm
        · exact h.camO r t hm
        · simp only [List.mem_singleton, Out.cam.injEq] at hm
          rw [hm.1, hm.2]
      · intro _
        refine ⟨e1, by rw [et]; push_cast; ring, e3, by linarith⟩
      · intro h'; rw [hr] at h'; cases h'
      · intro r bg' ba' hm
        rcases List.mem_append.1 hm with hm | hm
        · exact h.bias r bg' ba' hm
        · simp at hm
      · intro r bg' ba' hm
        rcases List.mem_append.1 hm with hm | hm
        · exact h.read r bg' ba' hm
        · simp at hm

theorem inv_calls {c : SimCfg} {t0 a b : ℝ} {bg ba : V3} (hfi : 0 < c.freqImu) (hfc : 0 < c.freqCam)
    (hcov : Spec.Covers c.cps a b) (ha : a ≤ t0) (ks : List Call) {s : SimSt} {os : List Out} {n k : ℕ}
    (h : Inv c t0 b bg ba s os n k) : ∃ n' k', Inv c t0 b bg ba (calls c s ks).1 (os ++ (calls c s ks).2) n' k' := by
  induction ks generalizing s os n k with
  | nil => exact ⟨n, k, by simpa [calls] using h⟩
  | cons x ks ih =>
    have : ∃ n' k', Inv c t0 b bg ba (call c s x).1 (os ++ (call c s x).2.toList) n' k' := by
      cases x with
      | imu dbg dba nw na =>
        obtain ⟨n', h', _⟩ := inv_imu hfi hfc hcov ha h dbg dba nw na
        exact ⟨n', k, h'⟩
      | cam =>
        obtain ⟨k', h', _⟩ := inv_cam hfi hfc hcov ha h
        exact ⟨n, k', h'⟩
    obtain ⟨n', k', h'⟩ := this
    obtain ⟨n'', k'', h''⟩ := ih h'
    refine ⟨n'', k'', ?_⟩
    simpa [calls, List.append_assoc] using h''

/-- **C60** Whatever the order of the calls to `get_next_imu` and `get_next_cam`, and whatever the noise: the returned readings and
frames are in order of time (on the IMU clock); the IMU readings are at `t0 + 1/f, t0 + 2/f, …` without a gap and the frames at
`t0 + 1/f', t0 + 2/f', …` without a gap, reported with the camera clock offset; none is at or after the end `b` of the spline; and
once the simulator stops running, every reading and every frame before the end has been returned. -/
theorem C60_streams (c : SimCfg) (hfi : 0 < c.freqImu) (hfc : 0 < c.freqCam) (a b t0 : ℝ) (hcov : Spec.Covers c.cps a b)
    (ha : a ≤ t0) (bg ba : V3) (ks : List Call) :
    let r := calls c (simInit c t0 bg ba) ks
    (r.2.map Spec.Out.time).Pairwise (· ≤ ·) ∧ (∀ o ∈ r.2, Spec.Out.time o < b) ∧
    (∀ rep t, Out.cam rep t ∈ r.2 → rep = t - c.camDt) ∧
    ∃ n k : ℕ, Spec.imuTimes r.2 = (List.range n).map (fun i : ℕ => t0 + ((i : ℝ) + 1) / c.freqImu) ∧
      Spec.camTimes r.2 = (List.range k).map (fun i : ℕ => t0 + ((i : ℝ) + 1) / c.freqCam - c.camDt) ∧
      (r.1.run = false → b ≤ t0 + ((n : ℝ) + 1) / c.freqImu ∧ b ≤ t0 + ((k : ℝ) + 1) / c.freqCam) := by
  intro r
  obtain ⟨n, k, h⟩ := inv_calls hfi hfc hcov ha ks (inv_init c t0 b bg ba)
  rw [List.nil_append] at h
  exact ⟨h.sorted, h.ltb, h.camO, n, k, h.imuT, h.camT, fun hr => ⟨(h.off hr).2.2.1, (h.off hr).2.2.2⟩⟩

/-- one round of the main loop of `run_simulation.cpp:144-190`: `get_next_imu`, then `get_next_cam`. -/
def round (x : V3 × V3 × V3 × V3) : List Call := [.imu x.1 x.2.1 x.2.2.1 x.2.2.2, .cam]

/-- **C60** The main loop ends: there is a bound on the number of rounds after which the simulator has stopped, for every noise. -/
theorem C60_loop_ends (c : SimCfg) (hfi : 0 < c.freqImu) (hfc : 0 < c.freqCam) (a b t0 : ℝ) (hcov : Spec.Covers c.cps a b)
    (ha : a ≤ t0) (bg ba : V3) :
    ∃ N : ℕ, ∀ xs : List (V3 × V3 × V3 × V3), N ≤ xs.length →
      (calls c (simInit c t0 bg ba) (xs.flatMap round)).1.run = false := by
  have pi : 0 < 1 / c.freqImu := by positivity
  have pc : 0 < 1 / c.freqCam := by positivity
  obtain ⟨d, hd, hd1, hd2⟩ : ∃ d, 0 < d ∧ d ≤ 1 / c.freqImu ∧ d ≤ 1 / c.freqCam :=
    ⟨min (1 / c.freqImu) (1 / c.freqCam), lt_min pi pc, min_le_left _ _, min_le_right _ _⟩
  -- every round moves the two clocks by at least `d` together
  have key : ∀ (xs : List (V3 × V3 × V3 × V3)) (s : SimSt) (os : List Out) (n k : ℕ), Inv c t0 b bg ba s os n k →
      let s' := (calls c s (xs.flatMap round)).1
      s.imu + s.cam + (xs.length : ℝ) * d ≤ s'.imu + s'.cam ∧ (∃ os' n' k', Inv c t0 b bg ba s' os' n' k') := by
    intro xs
    induction xs with
    | nil => intro s os n k h; simp [calls]; exact ⟨os, n, k, h⟩
    | cons x xs ih =>
      intro s os n k h
      obtain ⟨n1, h1, m1, c1, l1, -⟩ := inv_imu hfi hfc hcov ha h x.1 x.2.1 x.2.2.1 x.2.2.2
      obtain ⟨k1, h2, m2, c2, l2, -⟩ := inv_cam hfi hfc hcov ha h1
      obtain ⟨h3, h4⟩ := ih _ _ _ _ h2
      have e : ∀ s, (calls c s ((x :: xs).flatMap round)).1 =
          (calls c (nextCam c (nextImu c s x.1 x.2.1 x.2.2.1 x.2.2.2).1).1 (xs.flatMap round)).1 := by
        intro s; simp [round, calls, call]
      dsimp only
      rw [e s]
      refine ⟨?_, h4⟩
      refine le_trans ?_ h3
      have hmove : s.imu + s.cam + d ≤ (nextCam c (nextImu c s x.1 x.2.1 x.2.2.1 x.2.2.2).1).1.imu +
          (nextCam c (nextImu c s x.1 x.2.1 x.2.2.1 x.2.2.2).1).1.cam := by
        rw [c2]
        by_cases hw : s.imu + 1 / c.freqImu ≤ s.cam + 1 / c.freqCam
        · have := m1 hw
          rw [c1] at l2
          rw [this]; linarith
        · push Not at hw
          have : (nextImu c s x.1 x.2.1 x.2.2.1 x.2.2.2).1 = s := by
            unfold nextImu; rw [if_pos hw]
          rw [this] at m2 l2 ⊢
          have := m2 hw.le
          rw [this]; linarith
      simp only [List.length_cons]
      push_cast
      linarith
  obtain ⟨M, hM1, hM2⟩ : ∃ M, b ≤ M ∧ t0 ≤ M := ⟨max b t0, le_max_left _ _, le_max_right _ _⟩
  obtain ⟨N, hN⟩ := exists_nat_gt ((2 * M - 2 * t0) / d)
  refine ⟨N, fun xs hx => ?_⟩
  obtain ⟨h1, os, n, k, h2⟩ := key xs _ _ _ _ (inv_init c t0 b bg ba)
  by_contra hr
  have hr : (calls c (simInit c t0 bg ba) (xs.flatMap round)).1.run = true := by simpa using hr
  obtain ⟨e1, e2, -, -⟩ := h2.on hr
  have hi : (calls c (simInit c t0 bg ba) (xs.flatMap round)).1.imu ≤ M := by
    rw [e1]
    rcases Nat.eq_zero_or_pos n with hn | hn
    · rw [hn]; simpa using hM2
    · have hm : t0 + ((((n - 1 : ℕ) : ℝ)) + 1) / c.freqImu ∈ Spec.imuTimes os := by
        rw [h2.imuT]
        exact List.mem_map.2 ⟨n - 1, List.mem_range.2 (by omega), rfl⟩
      obtain ⟨o, ho, hot⟩ := List.mem_filterMap.1 hm
      have := h2.ltb o ho
      cases o with
      | imu r _ _ =>
        simp only [Option.some.injEq] at hot
        have h4 : r.t < b := this
        rw [hot, Nat.cast_sub hn] at h4
        push_cast at h4
        rw [sub_add_cancel] at h4
        linarith
      | cam _ _ => simp at hot
  have hc : (calls c (simInit c t0 bg ba) (xs.flatMap round)).1.cam ≤ M := by
    rw [e2]
    rcases Nat.eq_zero_or_pos k with hn | hn
    · rw [hn]; simpa using hM2
    · have hm : t0 + ((((k - 1 : ℕ) : ℝ)) + 1) / c.freqCam - c.camDt ∈ Spec.camTimes os := by
        rw [h2.camT]
        exact List.mem_map.2 ⟨k - 1, List.mem_range.2 (by omega), rfl⟩
      obtain ⟨o, ho, hot⟩ := List.mem_filterMap.1 hm
      have := h2.ltb o ho
      cases o with
      | imu r _ _ => simp at hot
      | cam r t =>
        simp only [Option.some.injEq] at hot
        have h4 : t < b := this
        have h5 := h2.camO r t ho
        rw [Nat.cast_sub hn] at hot
        push_cast at hot
        rw [sub_add_cancel] at hot
        linarith
  rw [div_lt_iff₀ hd] at hN
  have h3 : (N : ℝ) * d ≤ (xs.length : ℝ) * d := by
    apply mul_le_mul_of_nonneg_right _ hd.le
    exact_mod_cast hx
  have h4 : (simInit c t0 bg ba).imu = t0 ∧ (simInit c t0 bg ba).cam = t0 := ⟨rfl, rfl⟩
  rw [h4.1, h4.2] at h1
  linarith

/-! ## C90: the ground truth -/

theorem findBias_at (l r : List (ℝ × V3 × V3)) (x y : ℝ × V3 × V3) (hs : ((l ++ x :: y :: r).map Prod.fst).Pairwise (· < ·)) :
    findBias y.1 (l ++ x :: y :: r) = some (x, y) := by
  have hxy : x.1 < y.1 := by
    rw [List.map_append, List.pairwise_append] at hs
    have := hs.2.1
    simp only [List.map_cons, List.pairwise_cons] at this
    exact this.1 _ (by simp)
  induction l with
  | nil => simp [findBias, hxy]
  | cons z l ih =>
    have hs' : ((l ++ x :: y :: r).map Prod.fst).Pairwise (· < ·) := by
      simp only [List.cons_append, List.map_cons, List.pairwise_cons] at hs
      exact hs.2
    cases l with
    | nil =>
      simp only [List.nil_append, List.cons_append] at ih ⊢
      unfold findBias
      rw [if_neg (by rintro ⟨_, h2⟩; exact absurd h2 (not_le.2 hxy))]
      exact ih hs'
    | cons z' l =>
      simp only [List.cons_append] at ih ⊢
      unfold findBias
      have hz : z'.1 < y.1 := by
        simp only [List.cons_append, List.map_cons, List.pairwise_cons] at hs'
        exact hs'.1 _ (by simp)
      rw [if_neg (by rintro ⟨_, h2⟩; exact absurd h2 (not_le.2 hz))]
      exact ih hs'

/-- the search succeeds strictly after the first entry and up to the last one. -/
theorem findBias_some (t : ℝ) (x y : ℝ × V3 × V3) (l : List (ℝ × V3 × V3)) (h0 : x.1 < t) (hm : y ∈ l) (hy : t ≤ y.1) :
    ∃ u v, findBias t (x :: l) = some (u, v) ∧ u.1 < t ∧ t ≤ v.1 := by
  induction l generalizing x with
  | nil => simp at hm
  | cons z l ih =>
    unfold findBias
    by_cases hz : z.1 ≥ t
    · rw [if_pos ⟨h0, hz⟩]; exact ⟨x, z, rfl, h0, hz⟩
    · rw [if_neg (fun h => hz h.2)]
      push Not at hz
      rcases List.mem_cons.1 hm with rfl | hm
      · exact absurd hy (not_le.2 hz)
      · exact ih z hz hm

theorem vel_of_acc {m : Poses} {t : ℝ} {R : M3} {p w v al a : V3} (h : getAcceleration m t = some (R, p, w, v, al, a)) :
    getVelocity m t = some (R, p, w, v) := by
  unfold getAcceleration at h
  unfold getVelocity
  cases hf : findCtl t m with
  | none => rw [hf] at h; simp at h
  | some x =>
    rw [hf] at h
    obtain ⟨q0, q1, q2, q3⟩ := x
    simp only [Option.some.injEq, Prod.mk.injEq] at h ⊢
    exact ⟨h.1, h.2.1, h.2.2.1, h.2.2.2.1⟩

theorem vel_some_iff (m : Poses) (t : ℝ) : (getVelocity m t).isSome = (getPose m t).isSome := by
  unfold getVelocity getPose
  cases findCtl t m <;> rfl

theorem hist_sorted {c : SimCfg} {t0 b : ℝ} {bg ba : V3} {s : SimSt} {os : List Out} {n k : ℕ} (hfi : 0 < c.freqImu)
    (h : Inv c t0 b bg ba s os n k) : (s.hist.map Prod.fst).Pairwise (· < ·) := by
  rw [h.histT, List.pairwise_map]
  refine List.Pairwise.imp ?_ List.pairwise_lt_range
  intro i j hij
  have : (i : ℝ) < j := by exact_mod_cast hij
  have := div_lt_div_of_pos_right (sub_lt_sub_right this 1) hfi
  linarith

/-- the history starts before `t0`. -/
theorem hist_head {c : SimCfg} {t0 b : ℝ} {bg ba : V3} {s : SimSt} {os : List Out} {n k : ℕ}
    (h : Inv c t0 b bg ba s os n k) : ∃ x l, s.hist = x :: l ∧ x.1 = t0 - 1 / c.freqImu := by
  cases hh : s.hist with
  | nil =>
    have := congrArg List.length h.histT
    rw [hh] at this
    simp at this
    split_ifs at this
  | cons x l =>
    refine ⟨x, l, rfl, ?_⟩
    have := h.histT
    rw [hh, List.map_cons] at this
    have h2 := congrArg List.head? this
    obtain ⟨m, hm⟩ : ∃ m, (if s.skipped then n + 2 else 3) = m + 1 := by
      split_ifs
      · exact ⟨n + 1, rfl⟩
      · exact ⟨2, rfl⟩
    rw [hm, List.range_succ_eq_map] at h2
    simp only [List.map_cons, List.head?_cons, Option.some.injEq] at h2
    rw [h2]; push_cast; ring

/-- **C90** The ground truth belongs to the readings: after any sequence of calls, for every IMU reading that was returned,
`get_state` at the time of that reading succeeds; its biases are exactly the biases added to that reading, its orientation, position
and velocity are those of the spline there, and removing those biases and that reading's noise and undoing the intrinsics gives the
spline's angular velocity and specific force. -/
theorem C90_truth_of_reading (c : SimCfg) (hfi : 0 < c.freqImu) (hfc : 0 < c.freqCam) (a b t0 : ℝ) (hcov : Spec.Covers c.cps a b)
    (ha : a ≤ t0) (bg ba : V3) (hDw : (Dm c.kalibr c.cal.dw).det ≠ 0) (hDa : (Dm c.kalibr c.cal.da).det ≠ 0)
    (hqw : IsUnitQ c.cal.qw) (hqa : IsUnitQ c.cal.qa) (ks : List Call) (r : Reading) (bg' ba' : V3)
    (hr : Out.imu r bg' ba' ∈ (calls c (simInit c t0 bg ba) ks).2) :
    ∃ tr, getState c (calls c (simInit c t0 bg ba) ks).1 r.t = some tr ∧ tr.t = r.t ∧ tr.bg = bg' ∧ tr.ba = ba' ∧
      ∃ R p w v al aG nw na, getAcceleration c.cps r.t = some (R, p, w, v, al, aG) ∧ tr.q = rot2quat R ∧ tr.p = p ∧ tr.v = v ∧
        (quat2Rot c.cal.qa * Dm c.kalibr c.cal.da).mulVec (r.am - na - tr.ba) = R.mulVec (aG + c.g) ∧
        (quat2Rot c.cal.qw * Dm c.kalibr c.cal.dw).mulVec (r.wm - nw - tr.bg - (Tm c.cal.tg).mulVec (R.mulVec (aG + c.g))) = w := by
  obtain ⟨n, k, h⟩ := inv_calls hfi hfc hcov ha ks (inv_init c t0 b bg ba)
  rw [List.nil_append] at h
  generalize calls c (simInit c t0 bg ba) ks = st at *
  have hm := h.bias r bg' ba' hr
  obtain ⟨R, p, w, v, al, aG, nw, na, hg, hw, hA⟩ := h.read r bg' ba' hr
  have hs := hist_sorted hfi h
  -- the time of the reading is after t0
  have hrt : t0 < r.t := by
    have : r.t ∈ Spec.imuTimes st.2 := List.mem_filterMap.2 ⟨_, hr, rfl⟩
    rw [h.imuT] at this
    obtain ⟨i, _, hi⟩ := List.mem_map.1 this
    rw [← hi]
    have : 0 < ((i : ℝ) + 1) / c.freqImu := by positivity
    linarith
  obtain ⟨x0, l0, hh, hx0⟩ := hist_head h
  have hx0' : x0.1 < t0 := by
    have : 0 < 1 / c.freqImu := by positivity
    linarith
  -- the entry before it
  obtain ⟨u, v', hu⟩ := List.append_of_mem hm
  have hu0 : u ≠ [] := by
    rintro rfl
    rw [hh, List.nil_append] at hu
    have := (List.cons.inj hu).1
    rw [this] at hx0'
    exact absurd hx0' (not_lt.2 hrt.le)
  obtain ⟨u', x, rfl⟩ : ∃ u' x, u = u' ++ [x] := ⟨u.dropLast, u.getLast hu0, (List.dropLast_append_getLast hu0).symm⟩
  rw [List.append_assoc, List.singleton_append] at hu
  rw [hu] at hs
  have hf := findBias_at u' v' x (r.t, bg', ba') hs
  have hxr : x.1 < r.t := by
    rw [List.map_append, List.pairwise_append] at hs
    have := hs.2.1
    simp only [List.map_cons, List.pairwise_cons] at this
    exact this.1 _ (by simp)
  have hlam : (r.t - x.1) / (r.t - x.1) = 1 := div_self (by linarith)
  have hst : getState c st.1 r.t = some ⟨r.t, rot2quat R, p, v, bg', ba'⟩ := by
    unfold getState
    rw [vel_of_acc hg, hu]
    dsimp only at hf ⊢
    rw [hf]
    dsimp only
    rw [hlam]
    simp
  obtain ⟨s1, s2⟩ := sensor_inv c.kalibr c.cal hDw hDa hqw hqa c.g r.t R aG w bg' ba'
  refine ⟨_, hst, rfl, rfl, rfl, R, p, w, v, al, aG, nw, na, hg, rfl, rfl, rfl, ?_, ?_⟩
  · rw [hA, add_sub_cancel_right]; exact s1
  · rw [hw, add_sub_cancel_right]; exact s2

/-- **C90** `get_state` succeeds at every time after the start that the spline covers and that is not later than a returned IMU
reading; in particular for every returned camera frame, once an IMU reading at or after it has been returned. -/
theorem C90_truth_available (c : SimCfg) (hfi : 0 < c.freqImu) (hfc : 0 < c.freqCam) (a b t0 : ℝ) (hcov : Spec.Covers c.cps a b)
    (ha : a ≤ t0) (bg ba : V3) (ks : List Call) (t : ℝ) (ht : t0 ≤ t) (htb : t < b) (r : Reading) (bg' ba' : V3)
    (hr : Out.imu r bg' ba' ∈ (calls c (simInit c t0 bg ba) ks).2) (hle : t ≤ r.t) :
    ∃ tr, getState c (calls c (simInit c t0 bg ba) ks).1 t = some tr := by
  obtain ⟨n, k, h⟩ := inv_calls hfi hfc hcov ha ks (inv_init c t0 b bg ba)
  rw [List.nil_append] at h
  generalize calls c (simInit c t0 bg ba) ks = st at *
  have hm := h.bias r bg' ba' hr
  obtain ⟨x0, l0, hh, hx0⟩ := hist_head h
  have hx : x0.1 < t := by
    have : 0 < 1 / c.freqImu := by positivity
    linarith
  have hm' : (r.t, bg', ba') ∈ l0 := by
    rw [hh] at hm
    rcases List.mem_cons.1 hm with he | he
    · rw [← he] at hx; exact absurd hx (not_lt.2 hle)
    · exact he
  obtain ⟨u, v, hf, -, -⟩ := findBias_some t x0 _ l0 hx hm' hle
  have hv : (getVelocity c.cps t).isSome := by
    rw [vel_some_iff, hcov]; exact ⟨ha.trans ht, htb⟩
  obtain ⟨⟨R, p, w, vel⟩, hv⟩ := Option.isSome_iff_exists.1 hv
  unfold getState
  rw [hv, hh, hf]
  exact ⟨_, rfl⟩

/-- **C90** Before any call, `get_state` at the time of the first IMU reading — what the filter is initialised from — succeeds if
that time is covered, with the initial biases, and the first IMU reading returned carries these biases. -/
theorem C90_initial_truth (c : SimCfg) (hfi : 0 < c.freqImu) (a b t0 : ℝ) (hcov : Spec.Covers c.cps a b) (ha : a ≤ t0) (bg ba : V3)
    (hb : t0 + 1 / c.freqImu < b) :
    ∃ tr, getState c (simInit c t0 bg ba) (t0 + 1 / c.freqImu) = some tr ∧ tr.t = t0 + 1 / c.freqImu ∧ tr.bg = bg ∧ tr.ba = ba ∧
      ∀ dbg dba nw na o, (nextImu c (simInit c t0 bg ba) dbg dba nw na).2 = some o →
        ∃ r, o = .imu r bg ba ∧ r.t = t0 + 1 / c.freqImu := by
  have pi : 0 < 1 / c.freqImu := by positivity
  have hv : (getVelocity c.cps (t0 + 1 / c.freqImu)).isSome := by
    rw [vel_some_iff, hcov]; exact ⟨by linarith, hb⟩
  obtain ⟨⟨R, p, w, vel⟩, hv⟩ := Option.isSome_iff_exists.1 hv
  have hf := findBias_at [(t0 - 1 / c.freqImu, bg, ba)] [] (t0, bg, ba) (t0 + 1 / c.freqImu, bg, ba) (by
    simp
    have : 0 < c.freqImu⁻¹ := by positivity
    exact ⟨⟨hfi, by linarith⟩, hfi⟩)
  have hst : getState c (simInit c t0 bg ba) (t0 + 1 / c.freqImu) = some ⟨t0 + 1 / c.freqImu, rot2quat R, p, vel, bg, ba⟩ := by
    unfold getState
    rw [hv]
    have : findBias (t0 + 1 / c.freqImu) (simInit c t0 bg ba).hist = some ((t0, bg, ba), (t0 + 1 / c.freqImu, bg, ba)) := hf
    rw [this]
    dsimp only
    simp only [add_sub_cancel_left]
    rw [div_self pi.ne']
    simp
  refine ⟨_, hst, rfl, rfl, rfl, ?_⟩
  intro dbg dba nw na o ho
  unfold nextImu at ho
  split_ifs at ho
  dsimp only at ho
  cases hg : getAcceleration c.cps ((simInit c t0 bg ba).imu + 1 / c.freqImu) with
  | none => rw [hg] at ho; simp at ho
  | some x =>
    obtain ⟨R', p', w', v', al', a'⟩ := x
    rw [hg] at ho
    simp [simInit] at ho
    exact ⟨_, ho.symm, by simp [simReading]⟩

/-! ### a concrete simulator -/

theorem exLine_covers : Spec.Covers exLine 1 3 := by
  intro t
  rw [getPose_isSome, covered_iff (K := 5) (t0 := 0) (dt := 1) one_pos]
  · norm_num
  · have : List.range 5 = [0, 1, 2, 3, 4] := rfl
    simp [exLine, this]

/-- a straight line at one metre a second, readings at 4 Hz and frames at 3 Hz, with a camera clock 10 ms late. -/
noncomputable def exCfg : SimCfg :=
  { freqImu := 4, freqCam := 3, camDt := 1 / 100, kalibr := true
    cal := { dw := defaultD, da := defaultD, tg := 0, qw := ⟨0, 0, 0, 1⟩, qa := ⟨0, 0, 0, 1⟩ }
    g := ![0, 0, 9.81], cps := exLine }

theorem ex_acc (t : ℝ) (h : 1 ≤ t ∧ t < 3) : ∃ x, getAcceleration exLine t = some x := by
  rw [← Option.isSome_iff_exists, acc_some_iff]
  exact (exLine_covers t).2 h

theorem ex_pose (t : ℝ) (h : 1 ≤ t ∧ t < 3) : ∃ x, getPose exLine t = some x := by
  rw [← Option.isSome_iff_exists]
  exact (exLine_covers t).2 h

theorem ex_run : ∃ r : Reading, r.t = 1 + 1 / 4 ∧ calls exCfg (simInit exCfg 1 0 0) [.imu 0 0 0 0, .cam] =
    ({ simInit exCfg 1 0 0 with imu := 1 + 1 / 4, skipped := true, cam := 1 + 1 / 3 },
      [.imu r 0 0, .cam (1 + 1 / 3 - 1 / 100) (1 + 1 / 3)]) := by
  obtain ⟨⟨R, p, w, v, al, a⟩, hA⟩ := ex_acc (1 + 1 / 4) (by norm_num)
  obtain ⟨x, hP⟩ := ex_pose (1 + 1 / 3) (by norm_num)
  have h1 : (nextImu exCfg (simInit exCfg 1 0 0) 0 0 0 0) = ({ simInit exCfg 1 0 0 with imu := 1 + 1 / 4, skipped := true },
      some (.imu ⟨1 + 1 / 4, (simReading true exCfg.cal exCfg.g (1 + 1 / 4) R a w 0 0).wm + 0,
        (simReading true exCfg.cal exCfg.g (1 + 1 / 4) R a w 0 0).am + 0⟩ 0 0)) := by
    unfold nextImu
    rw [if_neg (by norm_num [simInit, exCfg])]
    dsimp only [simInit, exCfg]
    rw [hA]
    rfl
  have h2 : nextCam exCfg { simInit exCfg 1 0 0 with imu := 1 + 1 / 4, skipped := true } =
      ({ simInit exCfg 1 0 0 with imu := 1 + 1 / 4, skipped := true, cam := 1 + 1 / 3 }, some (.cam (1 + 1 / 3 - 1 / 100) (1 + 1 / 3))) := by
    unfold nextCam
    rw [if_neg (by norm_num [simInit, exCfg])]
    dsimp only [simInit, exCfg]
    rw [hP]
  refine ⟨⟨1 + 1 / 4, (simReading true exCfg.cal exCfg.g (1 + 1 / 4) R a w 0 0).wm + 0,
        (simReading true exCfg.cal exCfg.g (1 + 1 / 4) R a w 0 0).am + 0⟩, rfl, ?_⟩
  simp only [calls, call]
  rw [h1]
  dsimp only
  rw [h2]
  rfl

/-- Non-vacuity: the hypotheses on the simulator hold, and it returns readings and frames (first a reading at 1.25, then a frame at
1 + 1/3 reported at 1 + 1/3 - 0.01). -/
example : 0 < exCfg.freqImu ∧ 0 < exCfg.freqCam ∧ Spec.Covers exCfg.cps 1 3 ∧
    (∃ r, (calls exCfg (simInit exCfg 1 0 0) [.imu 0 0 0 0, .cam]).2 = [.imu r 0 0, .cam (1 + 1 / 3 - 1 / 100) (1 + 1 / 3)] ∧ r.t = 1 + 1 / 4) ∧
    (Dm exCfg.kalibr exCfg.cal.dw).det ≠ 0 ∧ (Dm exCfg.kalibr exCfg.cal.da).det ≠ 0 ∧ IsUnitQ exCfg.cal.qw ∧ IsUnitQ exCfg.cal.qa := by
  obtain ⟨r, h1, h2⟩ := ex_run
  refine ⟨by norm_num [exCfg], by norm_num [exCfg], exLine_covers, ⟨r, by rw [h2], h1⟩, ?_, ?_, ?_, ?_⟩
  · simp [exCfg, Dm, defaultD, Matrix.det_fin_three]
  · simp [exCfg, Dm, defaultD, Matrix.det_fin_three]
  · simp [exCfg, IsUnitQ]
  · simp [exCfg, IsUnitQ]

/-- **C90, disagreement with the intention of `get_state`** (Simulator.cpp:280-294): after the first reading and the first frame of
the simulator above, `get_state` fails at the time of the frame that was just returned, because the bias history only reaches the
last reading. -/
theorem C90_truth_not_yet_available :
    ∃ (ks : List Call) (rep t : ℝ), Out.cam rep t ∈ (calls exCfg (simInit exCfg 1 0 0) ks).2 ∧
      getState exCfg (calls exCfg (simInit exCfg 1 0 0) ks).1 t = none := by
  obtain ⟨r, h1, h2⟩ := ex_run
  refine ⟨_, 1 + 1 / 3 - 1 / 100, 1 + 1 / 3, by rw [h2]; simp, ?_⟩
  rw [h2]
  have : findBias (1 + 1 / 3) (simInit exCfg 1 0 0).hist = none := by
    simp only [simInit, exCfg, findBias]
    norm_num
  unfold getState
  dsimp only
  rw [this]
  cases getVelocity exCfg.cps (1 + 1 / 3) <;> rfl

/-- The start time found by the constructor is a multiple of the camera period after the start of the search, has a pose, and so has
every camera time before it. -/
theorem findMove_spec (c : SimCfg) (thr : ℝ) (n : ℕ) (t d : ℝ) (p : V3) (r : ℝ) (h : findMove c thr n t d p = some r) :
    ∃ k : ℕ, r = t + (k : ℝ) * (1 / c.freqCam) ∧ ∀ j : ℕ, j ≤ k → (getPose c.cps (t + (j : ℝ) * (1 / c.freqCam))).isSome := by
  induction n generalizing t d p with
  | zero => simp [findMove] at h
  | succ n ih =>
    unfold findMove at h
    cases hg : getPose c.cps t with
    | none => rw [hg] at h; simp at h
    | some x =>
      rw [hg] at h
      dsimp only at h
      split_ifs at h with hd
      · refine ⟨0, by simpa using h.symm, ?_⟩
        intro j hj
        rw [Nat.le_zero.1 hj]; simp [hg]
      · obtain ⟨k, h1, h2⟩ := ih _ _ _ h
        refine ⟨k + 1, by rw [h1]; push_cast; ring, ?_⟩
        intro j hj
        rcases j with _ | j
        · simp [hg]
        · have := h2 j (by omega)
          have e : t + 1 / c.freqCam + (j : ℝ) * (1 / c.freqCam) = t + ((j + 1 : ℕ) : ℝ) * (1 / c.freqCam) := by push_cast; ring
          rwa [e] at this

/-- **C60** The start time found by the constructor lies on the spline, so the hypothesis `a ≤ t0` of the stream theorems holds for
it; and the whole set-up can be built from a trajectory: if `feed_trajectory` made the spline, the streams have the properties of
`C60_streams` on `[tmin + dt, tmin + (K-2) dt)`. -/
theorem C60_start_on_spline (c : SimCfg) (a b : ℝ) (hcov : Spec.Covers c.cps a b) (thr : ℝ) (n : ℕ) (t : ℝ) (p : V3) (t0 : ℝ)
    (h : findMove c thr n t 0 p = some t0) : a ≤ t0 ∧ t0 < b := by
  obtain ⟨k, h1, h2⟩ := findMove_spec c thr n t 0 p t0 h
  have := h2 k le_rfl
  rw [← h1] at this
  exact (hcov t0).1 this

end Verif.Sim
