import Verif.Vio.Props

/-!
# The zero velocity update at rest, and a stale image (C44, C43)
-/

open Classical

namespace Verif.Vio

open Verif Verif.Types Verif.St Verif.Imu Verif.Prop_ Verif.Feat Verif.Disp Finset

variable {lib : Lib} {o : Opts} {s s' : State}

/-- the calibrated reading shows no rotation and exactly the reaction to gravity. -/
def Spec.AtRest (kalibr : Bool) (g : V3) (c : Cal) (x : Imu16) (d : Reading) : Prop :=
  wHat kalibr c x d = 0 ∧ aHat kalibr c x d = (quat2Rot x.q).mulVec g

theorem zRes_rest {kalibr : Bool} {N : Noise} {c : Cal} {x : Imu16} {data : List Reading}
    (h : ∀ d ∈ data, Spec.AtRest kalibr N.grav c x d) : zRes kalibr N c x data = fun _ => 0 := by
  funext r
  unfold zRes
  cases hz : (data.zip data.tail)[r / 6]? with
  | none => rfl
  | some p =>
    obtain ⟨d0, d1⟩ := p
    have hm := List.mem_of_getElem? hz
    obtain ⟨hw, ha⟩ := h d0 (List.of_mem_zip hm).1
    simp only [zRes6, hw, ha, sub_self, Pi.zero_apply, mul_zero, neg_zero, dite_eq_ite, ite_self]

theorem compress_zero (rows cols : ℕ) (H : Mat) (i : ℕ) (hi : i < min rows cols) : (Upd.compress rows cols H fun _ => 0).2.2 i = 0 := by
  by_cases hle : rows ≤ cols
  · rw [Upd.compress, if_pos hle]
  · rw [Upd.compress, if_neg hle]
    obtain ⟨⟨Q, hQ, hA, -, hv⟩, _⟩ := Givens.run_spec rows cols ⟨H, fun _ _ => 0, fun _ => 0⟩
    have := hv ⟨i, by omega⟩
    simpa using this

/-- **C44** (at rest) For every program state at or below the speed bound, every buffer and every image time at which at least two readings in time order are selected: if each selected reading, calibrated
and bias-corrected, shows no rotation and exactly the reaction to gravity in the estimated attitude, then the update is accepted, whatever the covariance, the noise levels and the number of readings; the
quantile table only has to be non-negative. -/
theorem C44_rest_accepted (hlib : St.Spec.LibOK lib) (hs : St.Spec.ProgOK lib o s) (Z : ZCfg) (hm : 0 < Z.mult) (mem : ZMem) (buf : List Reading)
    {hist : Hist ℝ Uv} {db : DB ℝ Uv} (hdb : hist.run = some db) (t : ℝ) {off : ℝ} {c : Cal} {x f : Imu16} (hoff : tOff s = some off)
    (hc : calOf s = some c) (hx : imuOf s = some (x, f))
    (hsp : Imu.Spec.Spaced (select buf (s.ts + mem.off.getD off) (t + off)))
    (hlen : 2 ≤ (select buf (s.ts + mem.off.getD off) (t + off)).length) (hne : s.ts ≠ t)
    (hrest : ∀ d ∈ select buf (s.ts + mem.off.getD off) (t + off), Spec.AtRest s.opts.kalibr Z.noise.grav c x d)
    (hv : norm3 x.v ≤ Z.maxVel) (hq : ∀ k, 0 ≤ Z.chiMult * lib.chi2 k) :
    ∃ mem' s' db', tryUpdate lib Z mem buf db s t = some (true, mem', s', db') ∧ St.Spec.ProgOK lib o s' ∧ s'.ts = t ∧ s'.clones = s.clones ∧
      s'.n = s.n := by
  obtain ⟨b, mem', s', db', h1, h2, h3, _, h5⟩ := C44_zero_velocity hlib hs Z hm mem buf hdb t hoff hc hx hsp
  have hb : b = true := by
    rw [h3]
    refine ⟨?_, hne, hlen, .inr ⟨?_, hv⟩⟩
    · rintro rfl
      simp [select, selLoop] at hlen
    · rw [zRes_rest hrest]
      have hz : St.Spec.vec (min (6 * ((select buf (s.ts + mem.off.getD off) (t + off)).length - 1)) 9)
          (Upd.compress (6 * ((select buf (s.ts + mem.off.getD off) (t + off)).length - 1)) 9
            (zH Z.noise (if Z.fej then quat2Rot f.q else quat2Rot x.q) (select buf (s.ts + mem.off.getD off) (t + off))) fun _ => 0).2.2 = 0 := by
        funext i
        exact compress_zero _ _ _ i i.2
      unfold Spec.dist2
      simp only [hz, zero_dotProduct]
      exact hq _
  subst hb
  obtain ⟨e1, e2, _, e3, _⟩ := h5 rfl
  exact ⟨mem', s', db', h1, h2, e1, e3, e2⟩

theorem selLoop_skip {t0 t1 : ℝ} (h10 : t1 < t0) {a b : Reading} {rest : List Reading} (ha : a.t ≤ t1) (hb : t1 < b.t) (hb0 : b.t ≤ t0) :
    ∀ (pre : List Reading) (prev : Option Reading), Imu.Spec.Sorted (pre ++ a :: b :: rest) →
      selLoop t0 t1 prev (pre ++ a :: b :: rest) [] = endAt a b t1 [a]
  | [], prev, _ => by
    rw [List.nil_append, selLoop_cons, if_neg (by rintro ⟨h, _⟩; linarith), if_neg (by rintro ⟨h, _⟩; linarith), if_pos hb, if_neg (by linarith)]
    rfl
  | [y], prev, hs => by
    rw [Imu.Spec.Sorted, List.singleton_append, List.pairwise_cons] at hs
    have h1 := hs.1 a (by simp)
    rw [List.singleton_append, selLoop_cons, if_neg (by rintro ⟨h, _⟩; linarith), if_neg (by rintro ⟨h, _⟩; linarith), if_neg (by linarith)]
    exact selLoop_skip h10 ha hb hb0 [] (some y) hs.2
  | y :: z :: pre, prev, hs => by
    rw [Imu.Spec.Sorted, List.cons_append, List.pairwise_cons] at hs
    have h1 := hs.1 z (by simp)
    have h2 : z.t < a.t := by
      have := hs.2
      rw [List.cons_append, List.pairwise_cons] at this
      exact this.1 a (by simp)
    rw [List.cons_append, List.cons_append, selLoop_cons, if_neg (by rintro ⟨h, _⟩; linarith), if_neg (by rintro ⟨h, _⟩; linarith), if_neg (by linarith)]
    exact selLoop_skip h10 ha hb hb0 (z :: pre) (some y) hs.2

/-- selection with an end before its start: the last reading at or before the end, and the interpolated reading at the end. -/
theorem select_backwards {t0 t1 : ℝ} (h10 : t1 < t0) {pre rest : List Reading} {a b : Reading} (hs : Imu.Spec.Sorted (pre ++ a :: b :: rest))
    (ha : a.t + 1e-12 ≤ t1) (hb : t1 < b.t) (hb0 : b.t ≤ t0) :
    select (pre ++ a :: b :: rest) t0 t1 = [a, interp a b t1] := by
  have ha' : a.t < t1 := lt_of_lt_of_le (by norm_num) ha
  have e : endAt a b t1 [a] = [a, interp a b t1] := endAt_ne a b t1 [] a ha'.ne
  rw [select, selLoop_skip h10 ha'.le hb hb0 pre none hs, e]
  simp only [List.cons_ne_nil, if_false]
  rw [stretch, if_pos (by simp [interp])]
  refine dropZero_id _ ?_
  simp only [Imu.Spec.Spaced, List.isChain_cons_cons, List.isChain_singleton, and_true, interp]
  linarith

theorem rest_interp {kalibr : Bool} {g : V3} {c : Cal} {x : Imu16} {a b : Reading} (ha : Spec.AtRest kalibr g c x a) (hb : Spec.AtRest kalibr g c x b) (t : ℝ) :
    Spec.AtRest kalibr g c x (interp a b t) := by
  obtain ⟨a1, a2⟩ := ha
  obtain ⟨b1, b2⟩ := hb
  unfold interp
  simp only
  set l := (t - a.t) / (b.t - a.t)
  have e2 : aHat kalibr c x ⟨t, (1 - l) • a.wm + l • b.wm, (1 - l) • a.am + l • b.am⟩ = (1 - l) • aHat kalibr c x a + l • aHat kalibr c x b := by
    simp only [aHat]
    rw [← Matrix.mulVec_smul, ← Matrix.mulVec_smul, ← Matrix.mulVec_add]
    congr 1
    module
  have e1 : wHat kalibr c x ⟨t, (1 - l) • a.wm + l • b.wm, (1 - l) • a.am + l • b.am⟩ = (1 - l) • wHat kalibr c x a + l • wHat kalibr c x b := by
    simp only [wHat]
    rw [e2, ← Matrix.mulVec_smul, ← Matrix.mulVec_smul, ← Matrix.mulVec_add, Matrix.mulVec_add, Matrix.mulVec_smul, Matrix.mulVec_smul]
    congr 1
    module
  refine ⟨?_, ?_⟩
  · rw [e1, a1, b1]; simp
  · rw [e2, a2, b2]; module

/-- **C43** (what is false) With the zero velocity updater the state's time is not monotone.  For every program state at or below the speed bound and every sorted buffer with two consecutive readings at
rest around an image time *before* the state's time, that stale image is accepted and the state's time is set back to it. -/
theorem C43_stale_zero_velocity (hlib : St.Spec.LibOK lib) (hs : St.Spec.ProgOK lib o s) (Z : ZCfg) (hm : 0 < Z.mult) (mem : ZMem)
    {pre rest : List Reading} {a b : Reading} (hbuf : Imu.Spec.Sorted (pre ++ a :: b :: rest))
    {hist : Hist ℝ Uv} {db : DB ℝ Uv} (hdb : hist.run = some db) (t : ℝ) {off : ℝ} {c : Cal} {x f : Imu16} (hoff : tOff s = some off)
    (hc : calOf s = some c) (hx : imuOf s = some (x, f)) (hstale : t < s.ts)
    (ha : a.t + 1e-12 ≤ t + off) (hb : t + off < b.t) (hb0 : b.t ≤ s.ts + mem.off.getD off)
    (ra : Spec.AtRest s.opts.kalibr Z.noise.grav c x a) (rb : Spec.AtRest s.opts.kalibr Z.noise.grav c x b)
    (hv : norm3 x.v ≤ Z.maxVel) (hq : ∀ k, 0 ≤ Z.chiMult * lib.chi2 k) :
    ∃ mem' s' db', tryUpdate lib Z mem (pre ++ a :: b :: rest) db s t = some (true, mem', s', db') ∧ s'.ts < s.ts := by
  have hsel := select_backwards (by linarith) hbuf ha hb hb0
  obtain ⟨mem', s', db', h1, _, h2, _⟩ := C44_rest_accepted hlib hs Z hm mem _ hdb t hoff hc hx
    (by
      rw [hsel]
      simp only [Imu.Spec.Spaced, List.isChain_cons_cons, List.isChain_singleton, and_true, interp]
      linarith)
    (by rw [hsel]; simp) hstale.ne'
    (by
      rw [hsel]
      intro d hd
      simp only [List.mem_cons, List.not_mem_nil, or_false] at hd
      rcases hd with rfl | rfl
      · exact ra
      · exact rest_interp ra rb _) hv hq
  exact ⟨mem', s', db', h1, by rw [h2]; exact hstale⟩

/-! ### a concrete resting state -/

/-- the state `exS` at time `5`. -/
noncomputable def exR : State := { exS with ts := 5 }

/-- a resting reading. -/
def exRd (g t : ℝ) : Reading := ⟨t, 0, ![0, 0, g]⟩

theorem exS_prog (lib : Lib) : St.Spec.ProgOK lib St.Spec.o0 exS := by
  refine ⟨[.setVal 6 (.vec 1 fun _ => 1), .setTime 0], ?_, ⟨trivial, fun _ _ => ⟨trivial, fun _ _ => trivial⟩⟩, ?_⟩
  · intro op hop
    simp only [List.mem_cons, List.not_mem_nil, or_false] at hop
    rcases hop with rfl | rfl <;> trivial
  · simp [run, St.step, ctor, ctorVars, St.Spec.o0, push, heap0, sameKind, exS]

theorem exR_prog (lib : Lib) : St.Spec.ProgOK lib St.Spec.o0 exR :=
  progOK_step (exS_prog lib) (op := .setTime 5) trivial trivial rfl

theorem exR_rest (g t : ℝ) : Spec.AtRest true ![0, 0, g] ⟨imuDefault, imuDefault, fun _ => 0, idQuat, idQuat⟩ imu0 (exRd g t) := by
  have hD : Dm true imuDefault = 1 := by
    ext i j; fin_cases i <;> fin_cases j <;> simp [Dm, imuDefault, vecOf]
  have hq : quat2Rot idQuat = 1 := exCal_rot
  have hq' : quat2Rot imu0.q = 1 := exCal_rot
  have hT : Tm (fun _ => 0) = 0 := by
    ext i j; fin_cases i <;> fin_cases j <;> simp [Tm]
  refine ⟨?_, ?_⟩
  · simp [wHat, hD, hq, hT, imu0, exRd]
  · rw [hq']; simp [aHat, hD, hq, imu0, exRd]

/-- an image two seconds later is accepted at rest; one three seconds in the past is accepted too and sets the time back from 5 to 2. -/
example (hlib : St.Spec.LibOK lib) (N : Noise) (hq : ∀ k, 0 ≤ lib.chi2 k) :
    let Z : ZCfg := ⟨N, 10, 0.5, 1, 1, true⟩
    let buf := [exRd N.g 0, exRd N.g 4, exRd N.g 10]
    (∃ mem' s' db', tryUpdate lib Z ⟨0, 0, none⟩ buf [] exR 7 = some (true, mem', s', db') ∧ s'.ts = 7) ∧
    ∃ mem' s' db', tryUpdate lib Z ⟨0, 0, none⟩ buf [] exR 2 = some (true, mem', s', db') ∧ s'.ts < exR.ts := by
  intro Z buf
  have hso : Imu.Spec.Sorted buf := by simp [Imu.Spec.Sorted, buf, exRd]; norm_num
  have hts : exR.ts = 5 := rfl
  have hk : exR.opts.kalibr = true := rfl
  have hg : Z.noise.grav = ![0, 0, N.g] := rfl
  have hv : norm3 imu0.v ≤ Z.maxVel := by
    have : norm3 imu0.v = 0 := norm3_eq_zero.2 rfl
    rw [this]; norm_num [Z]
  have hdb : (Hist.run (.empty : Hist ℝ Uv)) = some [] := rfl
  constructor
  · obtain ⟨x, y, x1, y1, ox, oy, e1, _⟩ := C19_select (t0 := 6) (t1 := 8) (by norm_num) buf hso ⟨exRd N.g 0, by simp [buf], by norm_num [exRd]⟩
      ⟨exRd N.g 10, by simp [buf], by norm_num [exRd]⟩
    have hin : Imu.Spec.inside 6 8 buf = [] := by
      simp [Imu.Spec.inside, buf, exRd]; norm_num
    simp only [hin, List.cons_append, List.nil_append] at e1
    have hsel := (e1 (by simp only [Imu.Spec.Spaced, List.isChain_cons_cons, List.isChain_singleton, and_true, x1, y1]; norm_num)).1
    have hsig : ∀ z, Imu.Spec.OnSignal buf z → Spec.AtRest true ![0, 0, N.g] ⟨imuDefault, imuDefault, fun _ => 0, idQuat, idQuat⟩ imu0 z := by
      have hall : ∀ d ∈ buf, d.wm = 0 ∧ d.am = ![0, 0, N.g] := by
        intro d hd
        simp only [buf, List.mem_cons, List.not_mem_nil, or_false] at hd
        rcases hd with rfl | rfl | rfl <;> exact ⟨rfl, rfl⟩
      intro z hz
      have hz' : z.wm = 0 ∧ z.am = ![0, 0, N.g] := by
        rcases hz with h | ⟨a, b, hab, h1, h2, h⟩
        · exact hall z h
        · obtain ⟨a1, a2⟩ := hall a (hab.subset (by simp))
          obtain ⟨b1, b2⟩ := hall b (hab.subset (by simp))
          have hd : b.t - a.t ≠ 0 := by linarith
          constructor <;> funext i
          · have := (h i).1
            rw [a1, b1, sub_self, zero_mul] at this
            simpa [hd] using this
          · have := (h i).2
            rw [a2, b2, sub_self, zero_mul] at this
            rcases mul_eq_zero.1 this with h | h
            · linarith
            · exact absurd h hd
      obtain ⟨t, wm, am⟩ := z
      obtain ⟨rfl, rfl⟩ := hz'
      exact exR_rest N.g t
    have h6 : select buf (exR.ts + (none : Option ℝ).getD 1) (7 + 1) = [x, y] := by rw [hts, ← hsel]; norm_num
    obtain ⟨mem', s', db', h1, _, h2, _⟩ := C44_rest_accepted hlib (exR_prog lib) Z (by norm_num [Z]) ⟨0, 0, none⟩ buf hdb 7 exS_off exS_cal exS_imu
      (by rw [h6]; simp only [Imu.Spec.Spaced, List.isChain_cons_cons, List.isChain_singleton, and_true, x1, y1]; norm_num) (by rw [h6]; simp) (by rw [hts]; norm_num)
      (by
        rw [h6, hk, hg]
        intro d hd
        simp only [List.mem_cons, List.not_mem_nil, or_false] at hd
        rcases hd with rfl | rfl
        · exact hsig _ ox
        · exact hsig _ oy) hv (by intro k; have := hq k; simpa [Z] using this)
    exact ⟨mem', s', db', h1, h2⟩
  · exact C43_stale_zero_velocity hlib (exR_prog lib) Z (by norm_num [Z]) ⟨0, 0, none⟩ (pre := []) (rest := [exRd N.g 10]) hso hdb 2 exS_off exS_cal exS_imu
      (by rw [hts]; norm_num) (by norm_num [exRd]) (by norm_num [exRd]) (by rw [hts]; norm_num [exRd]) (by rw [hk, hg]; exact exR_rest _ _) (by rw [hk, hg]; exact exR_rest _ _) hv
      (by intro k; have := hq k; simpa [Z] using this)

end Verif.Vio
