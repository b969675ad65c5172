import Verif.Sim.SimInit
import Verif.Sim.PropsSim

/-! # C131: the ground truth of the initialisation simulator against its readings -/

set_option autoImplicit false

namespace Verif.SimI

open Verif Verif.Types Verif.St Verif.Imu Verif.Prop_ Verif.Sim Matrix

namespace Spec

/-- the times of the readings, in order. -/
def imuTimesI (os : List OutI) : List ℝ := os.filterMap fun o => match o with | .imu r _ _ _ => some r.t | .cam _ _ => none
/-- the reported times of the frames, in order. -/
def camTimesI (os : List OutI) : List ℝ := os.filterMap fun o => match o with | .imu _ _ _ _ => none | .cam t _ => some t

/-- time of an output on the IMU clock. -/
def OutI.time : OutI → ℝ
  | .imu r _ _ _ => r.t
  | .cam _ t => t

end Spec

/-! ## Same streams as the other simulator -/

/-- the two simulators agree on the clocks. -/
def SameClock (s s' : SimSt) : Prop := s.imu = s'.imu ∧ s.cam = s'.cam ∧ s.run = s'.run

/-- the two outputs are of the same kind and carry the same times. -/
def SameOut : OutI → Out → Prop
  | .imu r _ _ _, .imu r' _ _ => r.t = r'.t
  | .cam a b, .cam a' b' => a = a' ∧ b = b'
  | _, _ => False

def toCall : Option Draw → Call
  | some x => .imu x.dbg x.dba x.nw x.na
  | none => .cam

theorem same_call (c : SimCfg) (s s' : SimSt) (h : SameClock s s') (k : Option Draw) :
    SameClock (callI c s k).1 (call c s' (toCall k)).1 ∧
    List.Forall₂ SameOut (callI c s k).2.toList (call c s' (toCall k)).2.toList := by
  obtain ⟨h1, h2, h3⟩ := h
  cases k with
  | some x =>
    simp only [callI, toCall, call, nextImuI, nextImu, h1, h2]
    by_cases hc : s'.cam + 1 / c.freqCam < s'.imu + 1 / c.freqImu
    · rw [if_pos hc, if_pos hc]; exact ⟨⟨h1, h2, h3⟩, by simp⟩
    · rw [if_neg hc, if_neg hc]
      cases hg : getAcceleration c.cps (s'.imu + 1 / c.freqImu) with
      | none => exact ⟨⟨rfl, rfl, rfl⟩, by simp⟩
      | some y =>
        obtain ⟨R, p, w, v, al, a⟩ := y
        dsimp only
        cases hs : s'.skipped
        · refine ⟨⟨by simp, by simp, by simp [h3]⟩, ?_⟩
          simp only [Option.toList_some, List.forall₂_cons, List.Forall₂.nil, and_true]
          simp [SameOut, simReading]
        · refine ⟨⟨by simp, by simp, by simp [h3]⟩, ?_⟩
          simp only [Option.toList_some, List.forall₂_cons, List.Forall₂.nil, and_true]
          simp [SameOut, simReading]
  | none =>
    simp only [callI, toCall, call, nextCamI, nextCam, h1, h2]
    by_cases hc : s'.imu + 1 / c.freqImu < s'.cam + 1 / c.freqCam
    · rw [if_pos hc, if_pos hc]; exact ⟨⟨h1, h2, h3⟩, by simp⟩
    · rw [if_neg hc, if_neg hc]
      cases hg : getPose c.cps (s'.cam + 1 / c.freqCam) with
      | none => exact ⟨⟨rfl, rfl, rfl⟩, by simp⟩
      | some y => exact ⟨⟨rfl, rfl, h3⟩, by simp [SameOut]⟩

theorem same_calls (c : SimCfg) (ks : List (Option Draw)) : ∀ (s s' : SimSt), SameClock s s' →
    SameClock (callsI c s ks).1 (calls c s' (ks.map toCall)).1 ∧
    List.Forall₂ SameOut (callsI c s ks).2 (calls c s' (ks.map toCall)).2 := by
  induction ks with
  | nil => intro s s' h; exact ⟨h, List.Forall₂.nil⟩
  | cons k ks ih =>
    intro s s' h
    obtain ⟨h1, h2⟩ := same_call c s s' h k
    obtain ⟨h3, h4⟩ := ih _ _ h1
    exact ⟨h3, List.rel_append h2 h4⟩

theorem same_times : ∀ (os : List OutI) (os' : List Out), List.Forall₂ SameOut os os' →
    Spec.imuTimesI os = Sim.Spec.imuTimes os' ∧ Spec.camTimesI os = Sim.Spec.camTimes os' ∧
    os.map Spec.OutI.time = os'.map Sim.Spec.Out.time ∧
    ∀ rep t, OutI.cam rep t ∈ os → Out.cam rep t ∈ os' := by
  intro os os' h
  induction h with
  | nil => exact ⟨rfl, rfl, rfl, fun _ _ h => by cases h⟩
  | @cons a b l l' hab _ ih =>
    obtain ⟨i1, i2, i3, i4⟩ := ih
    unfold Spec.imuTimesI Sim.Spec.imuTimes at *
    unfold Spec.camTimesI Sim.Spec.camTimes at *
    cases a with
    | imu r x bg ba =>
      cases b with
      | imu r' bg' ba' =>
        have : r.t = r'.t := hab
        refine ⟨by simp [i1, this], by simp [i2], by simp [i3, Spec.OutI.time, Sim.Spec.Out.time, this], ?_⟩
        intro rep t hm
        rcases List.mem_cons.1 hm with hm | hm
        · cases hm
        · exact List.mem_cons_of_mem _ (i4 _ _ hm)
      | cam => exact absurd hab (by simp [SameOut])
    | cam a1 a2 =>
      cases b with
      | imu r' bg' ba' => exact absurd hab (by simp [SameOut])
      | cam b1 b2 =>
        obtain ⟨e1, e2⟩ : a1 = b1 ∧ a2 = b2 := hab
        subst e1; subst e2
        refine ⟨by simp [i1], by simp [i2], by simp [i3, Spec.OutI.time, Sim.Spec.Out.time], ?_⟩
        intro rep t hm
        rcases List.mem_cons.1 hm with hm | hm
        · cases hm; simp
        · exact List.mem_cons_of_mem _ (i4 _ _ hm)

/-- **C131.** For every interleaving of calls and all noise, the streams are ordered on the IMU clock, lie on the spline, and are
exactly the first samples of the two regular grids after the start; a frame is reported at its time minus the clock offset. -/
theorem C131_streams (c : SimCfg) (hfi : 0 < c.freqImu) (hfc : 0 < c.freqCam) (a b t0 : ℝ) (hcov : Sim.Spec.Covers c.cps a b)
    (ha : a ≤ t0) (per : Option (V3 × V3)) (ks : List (Option Draw)) :
    let r := callsI c (initI c t0 per) ks
    (r.2.map Spec.OutI.time).Pairwise (· ≤ ·) ∧ (∀ o ∈ r.2, Spec.OutI.time o < b) ∧
    (∀ rep t, OutI.cam rep t ∈ r.2 → rep = t - c.camDt) ∧
    ∃ n k : ℕ, Spec.imuTimesI r.2 = (List.range n).map (fun i : ℕ => t0 + ((i : ℝ) + 1) / c.freqImu) ∧
      Spec.camTimesI r.2 = (List.range k).map (fun i : ℕ => t0 + ((i : ℝ) + 1) / c.freqCam - c.camDt) ∧
      (r.1.run = false → b ≤ t0 + ((n : ℝ) + 1) / c.freqImu ∧ b ≤ t0 + ((k : ℝ) + 1) / c.freqCam) := by
  intro r
  obtain ⟨h1, h2, h3, n, k, h4, h5, h6⟩ := C60_streams c hfi hfc a b t0 hcov ha 0 0 (ks.map toCall)
  obtain ⟨⟨-, -, e1⟩, e2⟩ := same_calls c ks (initI c t0 per) (simInit c t0 0 0) ⟨rfl, rfl, rfl⟩
  obtain ⟨t1, t2, t3, t4⟩ := same_times _ _ e2
  refine ⟨by rw [t3]; exact h1, ?_, fun rep t hm => h3 rep t (t4 rep t hm), n, k, by rw [t1]; exact h4, by rw [t2]; exact h5,
    fun hr => h6 (by rw [← e1]; exact hr)⟩
  intro o ho
  have : Spec.OutI.time o ∈ r.2.map Spec.OutI.time := List.mem_map_of_mem ho
  rw [t3] at this
  obtain ⟨o', ho', he⟩ := List.mem_map.1 this
  rw [← he]; exact h2 o' ho'

/-! ## The truth -/

/-- what a reading is made of, and that its moved biases are in the history. -/
structure InvI (c : SimCfg) (t0 : ℝ) (s : SimSt) (os : List OutI) : Prop where
  ex : ∃ l, s.hist = (t0 - 1 / c.freqImu, 0, 0) :: l
  sorted : (s.hist.map Prod.fst).Pairwise (· < ·)
  le : ∀ x ∈ s.hist, x.1 ≤ s.imu
  mem : ∀ r x bg ba, OutI.imu r x bg ba ∈ os → t0 < r.t ∧ (r.t, bg + x.dbg, ba + x.dba) ∈ s.hist ∧
    ∃ R p w v al a, getAcceleration c.cps r.t = some (R, p, w, v, al, a) ∧
      r.wm = w + bg + x.nw ∧ r.am = R.mulVec (a + c.g) + ba + x.na
  ge : t0 ≤ s.imu

theorem invI_init (c : SimCfg) (hfi : 0 < c.freqImu) (t0 : ℝ) (per : Option (V3 × V3)) : InvI c t0 (initI c t0 per) [] where
  ex := ⟨[(t0, 0, 0)], rfl⟩
  sorted := by
    have : 0 < 1 / c.freqImu := by positivity
    simp [initI]; exact hfi
  le := by
    intro x hx
    have : 0 < 1 / c.freqImu := by positivity
    simp only [initI, List.mem_cons, List.not_mem_nil, or_false] at hx ⊢
    rcases hx with rfl | rfl
    · dsimp only; linarith
    · exact le_rfl
  mem := fun r x bg ba h => by cases h
  ge := le_rfl

theorem invI_call {c : SimCfg} (hfi : 0 < c.freqImu) {t0 : ℝ} {s : SimSt} {os : List OutI} (h : InvI c t0 s os) (k : Option Draw) :
    InvI c t0 (callI c s k).1 (os ++ (callI c s k).2.toList) := by
  have hp : 0 < 1 / c.freqImu := by positivity
  obtain ⟨⟨l, hl⟩, hs, hle, hm, hge⟩ := h
  cases k with
  | some x =>
    simp only [callI, nextImuI]
    by_cases hc : s.cam + 1 / c.freqCam < s.imu + 1 / c.freqImu
    · rw [if_pos hc]; simpa using ⟨⟨l, hl⟩, hs, hle, hm, hge⟩
    · rw [if_neg hc]
      cases hg : getAcceleration c.cps (s.imu + 1 / c.freqImu) with
      | none =>
        simp only [Option.toList_none, List.append_nil]
        exact ⟨⟨l, hl⟩, hs, fun x hx => by have := hle x hx; dsimp only; linarith, hm, by dsimp only; linarith⟩
      | some y =>
        obtain ⟨R, p, w, v, al, a⟩ := y
        simp only [Option.toList_some]
        refine ⟨⟨l ++ [(s.imu + 1 / c.freqImu, s.bg + x.dbg, s.ba + x.dba)], by dsimp only; rw [hl]; rfl⟩, ?_, ?_, ?_,
          by dsimp only; linarith⟩
        · dsimp only
          rw [List.map_append, List.pairwise_append]
          refine ⟨hs, by simp, ?_⟩
          intro u hu z hz
          obtain ⟨u', hu', rfl⟩ := List.mem_map.1 hu
          simp only [List.map_cons, List.map_nil, List.mem_singleton] at hz
          subst hz
          have := hle u' hu'; linarith
        · intro u hu
          dsimp only at hu ⊢
          rcases List.mem_append.1 hu with hu | hu
          · have := hle u hu; linarith
          · rw [List.mem_singleton] at hu; subst hu; exact le_rfl
        · intro r x' bg ba hr
          dsimp only
          rcases List.mem_append.1 hr with hr | hr
          · obtain ⟨h1, h2, h3⟩ := hm r x' bg ba hr
            exact ⟨h1, List.mem_append_left _ h2, h3⟩
          · rw [List.mem_singleton] at hr
            cases hr
            exact ⟨by dsimp only; linarith, List.mem_append_right _ (by simp), R, p, w, v, al, a, hg, rfl, rfl⟩
  | none =>
    simp only [callI, nextCamI]
    by_cases hc : s.imu + 1 / c.freqImu < s.cam + 1 / c.freqCam
    · rw [if_pos hc]; simpa using ⟨⟨l, hl⟩, hs, hle, hm, hge⟩
    · rw [if_neg hc]
      cases hg : getPose c.cps (s.cam + 1 / c.freqCam) with
      | none =>
        simp only [Option.toList_none, List.append_nil]
        exact ⟨⟨l, hl⟩, hs, hle, hm, hge⟩
      | some y =>
        refine ⟨⟨l, hl⟩, hs, hle, ?_, hge⟩
        intro r x' bg ba hr
        rcases List.mem_append.1 hr with hr | hr
        · exact hm r x' bg ba hr
        · simp at hr

theorem invI_calls {c : SimCfg} (hfi : 0 < c.freqImu) {t0 : ℝ} (ks : List (Option Draw)) :
    ∀ {s : SimSt} {os : List OutI}, InvI c t0 s os → InvI c t0 (callsI c s ks).1 (os ++ (callsI c s ks).2) := by
  induction ks with
  | nil => intro s os h; simpa [callsI] using h
  | cons k ks ih =>
    intro s os h
    have h1 := ih (invI_call hfi h k)
    simpa [callsI, List.append_assoc] using h1

/-- **C131 (part).** For every returned reading, at every later moment, the ground truth at its time has the orientation, position and
velocity of the spline there, and the reading is the spline's rate and specific force plus its noise plus its biases. The biases in
the ground truth, however, are those of the reading after the bias step drawn with it: the truth of a reading is off by exactly that
step, and it is right exactly when the biases do not walk. -/
theorem C131_truth_of_reading_partial (c : SimCfg) (hfi : 0 < c.freqImu) (t0 : ℝ) (per : Option (V3 × V3)) (ks : List (Option Draw))
    (r : Reading) (x : Draw) (bg ba : V3) (hr : OutI.imu r x bg ba ∈ (callsI c (initI c t0 per) ks).2) :
    ∃ tr, getStateI c (callsI c (initI c t0 per) ks).1 r.t = some tr ∧ tr.t = r.t ∧
      tr.bg - bg = x.dbg ∧ tr.ba - ba = x.dba ∧
      ∃ R p w v al a, getAcceleration c.cps r.t = some (R, p, w, v, al, a) ∧ tr.q = rot2quat R ∧ tr.p = p ∧ tr.v = v ∧
        r.wm - x.nw - bg = w ∧ r.am - x.na - ba = R.mulVec (a + c.g) := by
  have h := invI_calls hfi ks (invI_init c hfi t0 per)
  rw [List.nil_append] at h
  obtain ⟨⟨l, hl⟩, hs, -, hm, -⟩ := h
  obtain ⟨ht, hmem, R, p, w, v, al, a, hg, hw, hA⟩ := hm r x bg ba hr
  generalize (callsI c (initI c t0 per) ks).1 = st at *
  have hp : 0 < 1 / c.freqImu := by positivity
  obtain ⟨u, v', hu⟩ := List.append_of_mem hmem
  have hu0 : u ≠ [] := by
    rintro rfl
    rw [hl, List.nil_append] at hu
    have := congrArg Prod.fst (List.cons.inj hu).1
    dsimp only at this
    linarith
  obtain ⟨u', y, rfl⟩ : ∃ u' y, u = u' ++ [y] := ⟨u.dropLast, u.getLast hu0, (List.dropLast_append_getLast hu0).symm⟩
  rw [List.append_assoc, List.singleton_append] at hu
  rw [hu] at hs
  have hf := findBias_at u' v' y (r.t, bg + x.dbg, ba + x.dba) hs
  have hyr : y.1 < r.t := by
    rw [List.map_append, List.pairwise_append] at hs
    have := hs.2.1
    simp only [List.map_cons, List.pairwise_cons] at this
    exact this.1 _ (by simp)
  have hlam : (r.t - y.1) / (r.t - y.1) = 1 := div_self (by linarith)
  have hst : getStateI c st r.t = some ⟨r.t, rot2quat R, p, v, bg + x.dbg, ba + x.dba⟩ := by
    unfold getStateI
    rw [vel_of_acc hg, hu]
    dsimp only at hf ⊢
    rw [hf]
    dsimp only
    rw [hlam]
    simp
  refine ⟨_, hst, rfl, by simp, by simp, R, p, w, v, al, a, hg, rfl, rfl, rfl, ?_, ?_⟩
  · rw [hw]; abel
  · rw [hA]; abel

theorem ex_imuI (per : Option (V3 × V3)) (x : Draw) : ∃ r : Reading, r.t = 1 + 1 / 4 ∧
    callsI exCfg (initI exCfg 1 per) [some x] =
      ({ initI exCfg 1 per with
          imu := 1 + 1 / 4, bg := (initI exCfg 1 per).bg + x.dbg, ba := (initI exCfg 1 per).ba + x.dba
          hist := [(1 - 1 / 4, 0, 0), (1, 0, 0), (1 + 1 / 4, (initI exCfg 1 per).bg + x.dbg, (initI exCfg 1 per).ba + x.dba)] },
        [.imu r x (initI exCfg 1 per).bg (initI exCfg 1 per).ba]) := by
  obtain ⟨⟨R, p, w, v, al, a⟩, hA⟩ := ex_acc (1 + 1 / 4) (by norm_num)
  have h1 : (exCfg).cps = exLine := rfl
  refine ⟨⟨1 + 1 / 4, w + (initI exCfg 1 per).bg + x.nw, R.mulVec (a + exCfg.g) + (initI exCfg 1 per).ba + x.na⟩, rfl, ?_⟩
  simp only [callsI, callI, nextImuI]
  rw [if_neg (by norm_num [initI, exCfg])]
  have h2 : (initI exCfg 1 per).imu + 1 / exCfg.freqImu = 1 + 1 / 4 := rfl
  rw [h2, h1, hA]
  rfl

/-- **C131, disagreement.** The truth at the time of a reading need not be the biases in the reading: a reading made with zero biases
whose ground truth has the biases of the next one. (`Simulator` in ov_msckf was corrected: C90.) -/
theorem C131_truth_one_step_late_counterexample : ∃ (ks : List (Option Draw)) (r : Reading) (x : Draw) (tr : Truth),
    OutI.imu r x 0 0 ∈ (callsI exCfg (initI exCfg 1 none) ks).2 ∧
    getStateI exCfg (callsI exCfg (initI exCfg 1 none) ks).1 r.t = some tr ∧ tr.bg ≠ 0 ∧ tr.ba ≠ 0 := by
  let x : Draw := ⟨0, 0, ![1, 0, 0], ![0, 1, 0]⟩
  obtain ⟨r, hr, hc⟩ := ex_imuI none x
  have hm : OutI.imu r x 0 0 ∈ (callsI exCfg (initI exCfg 1 none) [some x]).2 := by rw [hc]; simp [initI]
  obtain ⟨tr, h1, -, h2, h3, -⟩ := C131_truth_of_reading_partial exCfg (by norm_num [exCfg]) 1 none [some x] r x 0 0 hm
  refine ⟨[some x], r, x, tr, hm, h1, ?_, ?_⟩
  · intro h; rw [h] at h2
    have := congrFun h2 0
    simp [x] at this
  · intro h; rw [h] at h3
    have := congrFun h3 1
    simp [x] at this

/-- **C131, disagreement.** With `sim_do_perturbation` the biases are drawn after the history was started with zeros: although the
true biases are the constant `p` (no walk, so `p` is in the first reading), the ground truth at the start of the simulation is zero
and halfway to the first reading it is half of `p`. -/
theorem C131_perturbed_history_counterexample (p : V3 × V3) : ∃ (r : Reading) (x : Draw) (tr tr' : Truth),
    OutI.imu r x p.1 p.2 ∈ (callsI exCfg (initI exCfg 1 (some p)) [some x]).2 ∧ x.dbg = 0 ∧ x.dba = 0 ∧
    getStateI exCfg (callsI exCfg (initI exCfg 1 (some p)) [some x]).1 1 = some tr ∧ tr.bg = 0 ∧ tr.ba = 0 ∧
    getStateI exCfg (callsI exCfg (initI exCfg 1 (some p)) [some x]).1 (1 + 1 / 8) = some tr' ∧
    tr'.bg = (1 / 2 : ℝ) • p.1 ∧ tr'.ba = (1 / 2 : ℝ) • p.2 := by
  let x : Draw := ⟨0, 0, 0, 0⟩
  obtain ⟨r, hr, hc⟩ := ex_imuI (some p) x
  have hv : ∀ t : ℝ, 1 ≤ t ∧ t < 3 → ∃ y, getVelocity exLine t = some y := by
    intro t ht
    rw [← Option.isSome_iff_exists, vel_some_iff]
    exact (exLine_covers t).2 ht
  obtain ⟨⟨R, p1, w, v⟩, hv1⟩ := hv 1 (by norm_num)
  obtain ⟨⟨R', p1', w', v'⟩, hv2⟩ := hv (1 + 1 / 8) (by norm_num)
  have hcps : exCfg.cps = exLine := rfl
  refine ⟨r, x, ⟨1, rot2quat R, p1, v, 0, 0⟩, ⟨1 + 1 / 8, rot2quat R', p1', v', (1 / 2 : ℝ) • p.1, (1 / 2 : ℝ) • p.2⟩,
    by rw [hc]; simp [initI], rfl, rfl, ?_, rfl, rfl, ?_, rfl, rfl⟩
  · rw [hc]
    unfold getStateI
    rw [hcps, hv1]
    simp only [findBias]
    rw [if_pos (by norm_num)]
    simp
  · rw [hc]
    unfold getStateI
    rw [hcps, hv2]
    simp only [findBias]
    rw [if_neg (by norm_num), if_pos (by norm_num)]
    simp only [initI, x]
    norm_num

/-- The hypotheses are met: a simulator with a reading. -/
example (x : Draw) : 0 < exCfg.freqImu ∧ 0 < exCfg.freqCam ∧ Sim.Spec.Covers exCfg.cps 1 3 ∧
    ∃ r, OutI.imu r x ![1, 2, 3] ![4, 5, 6] ∈ (callsI exCfg (initI exCfg 1 (some (![1, 2, 3], ![4, 5, 6]))) [some x]).2 := by
  obtain ⟨r, -, hc⟩ := ex_imuI (some (![1, 2, 3], ![4, 5, 6])) x
  exact ⟨by norm_num [exCfg], by norm_num [exCfg], exLine_covers, r, by rw [hc]; simp [initI]⟩

end Verif.SimI
