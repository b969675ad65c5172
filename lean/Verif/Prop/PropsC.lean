import Verif.Prop.PropsB
import Verif.Imu.Props
import Verif.State.PropsC
import Mathlib.Tactic.IntervalCases

/-!
# Properties of the process noise, of `propagate_and_clone` and of `fast_state_propagate` (C76, C78, C22)
-/

open Classical

namespace Verif.Prop_

open Verif Verif.Types Verif.St Verif.Imu Matrix

/-! ## C76: process noise -/

theorem qc_diag (a b c d : ℝ) {i j : ℕ} (hi : i < 12) (hj : j < 12) :
    assemble [blk 0 0 (a • (1 : M3)), blk 3 3 (b • (1 : M3)), blk 6 6 (c • (1 : M3)), blk 9 9 (d • (1 : M3))] i j =
      if i = j then (if i < 3 then a else if i < 6 then b else if i < 9 then c else d) else 0 := by
  interval_cases i <;> interval_cases j <;> simp [assemble, blk, Mat.setBlock, Mat.extM]

theorem psd_diag {n : ℕ} {P : Mat} (d : ℕ → ℝ) (h : ∀ i j, i < n → j < n → P i j = if i = j then d i else 0) (hd : ∀ i, 0 ≤ d i) :
    Mat.PSD n P := by
  intro x
  refine Finset.sum_nonneg fun i hi => Finset.sum_nonneg fun j hj => ?_
  rw [h i j (Finset.mem_range.1 hi) (Finset.mem_range.1 hj)]
  split_ifs with e
  · subst e; nlinarith [mul_nonneg (hd i) (mul_self_nonneg (x i))]
  · simp

theorem noise_sym (n : ℕ) (G Qc : Mat) : Mat.Sym n (noiseCov G Qc) := fun i j _ _ => by simp only [noiseCov]; ring

theorem noise_eq {n : ℕ} {G Qc : Mat} (hs : Mat.Sym 12 Qc) {i j : ℕ} (hi : i < n) (hj : j < n) :
    noiseCov G Qc i j = Mat.mul 12 (Mat.mul 12 G Qc) (Mat.tr G) i j := by
  have hX : Mat.Sym n (fun i j => Mat.mul 12 (Mat.mul 12 G Qc) (Mat.tr G) i j + 0) :=
    Mat.sym_congr (G := fun _ _ => 0) G hs (fun _ _ _ _ => rfl) (Mat.EqOn.refl _)
  have := hX i j hi hj
  simp only [add_zero] at this
  simp only [noiseCov, ← this]; ring

theorem noise_psd (n : ℕ) (G : Mat) {Qc : Mat} (hs : Mat.Sym 12 Qc) (hp : Mat.PSD 12 Qc) : Mat.PSD n (noiseCov G Qc) := by
  refine Mat.psd_congr (G := fun _ _ => 0) G hp (Mat.psd_zero n) fun i j hi hj => ?_
  rw [noise_eq hs hi hj]; simp

theorem sym_of_diag {n : ℕ} {P : Mat} (d : ℕ → ℝ) (h : ∀ i j, i < n → j < n → P i j = if i = j then d i else 0) : Mat.Sym n P := by
  intro i j hi hj
  rw [h i j hi hj, h j i hj hi]
  by_cases e : i = j
  · subst e; rfl
  · rw [if_neg e, if_neg (Ne.symm e)]

/-- the continuous noise strengths along the diagonal. -/
noncomputable def dP (N : Noise) (dt : ℝ) (i : ℕ) : ℝ :=
  if i < 3 then N.sw ^ 2 / dt else if i < 6 then N.sa ^ 2 / dt else if i < 9 then N.swb ^ 2 / dt else N.sab ^ 2 / dt

noncomputable def dF (N : Noise) (dt : ℝ) (i : ℕ) : ℝ :=
  if i < 3 then N.sw ^ 2 / dt else if i < 6 then N.sa ^ 2 / dt else if i < 9 then N.swb ^ 2 * dt else N.sab ^ 2 * dt

theorem qcPredict_diag (N : Noise) (dt : ℝ) (i j : ℕ) (hi : i < 12) (hj : j < 12) : qcPredict N dt i j = if i = j then dP N dt i else 0 :=
  qc_diag _ _ _ _ hi hj
theorem qcFast_diag (N : Noise) (dt : ℝ) (i j : ℕ) (hi : i < 12) (hj : j < 12) : qcFast N dt i j = if i = j then dF N dt i else 0 :=
  qc_diag _ _ _ _ hi hj

theorem dP_nonneg (N : Noise) {dt : ℝ} (h : 0 ≤ dt) (i : ℕ) : 0 ≤ dP N dt i := by unfold dP; split_ifs <;> positivity
theorem dF_nonneg (N : Noise) {dt : ℝ} (h : 0 ≤ dt) (i : ℕ) : 0 ≤ dF N dt i := by unfold dF; split_ifs <;> positivity

/-- entry of the discretised noise in terms of the rows of `G`. -/
theorem noise_entry {G Qc : Mat} (d : ℕ → ℝ) (hd : ∀ i j, i < 12 → j < 12 → Qc i j = if i = j then d i else 0) (i j : ℕ) :
    noiseCov G Qc i j = ∑ x ∈ Finset.range 12, G i x * d x * G j x := by
  rw [noise_eq (n := max i j + 1) (sym_of_diag d hd) (by omega) (by omega)]
  unfold Mat.mul Mat.tr
  refine Finset.sum_congr rfl fun x hx => ?_
  congr 1
  rw [Finset.sum_eq_single_of_mem x hx]
  · rw [hd x x (Finset.mem_range.1 hx) (Finset.mem_range.1 hx), if_pos rfl]
  · intro b hb hbx
    rw [hd b x (Finset.mem_range.1 hb) (Finset.mem_range.1 hx), if_neg hbx, mul_zero]

theorem gAnalytic_bias (o : Opts) (X : Xi) (A : FArgs) {i x : ℕ} (hi : i < 6) (hx : x < 12) :
    assemble (gAnalytic o X A) (9 + i) x = if x = 6 + i then A.dt else 0 := by
  unfold gAnalytic
  interval_cases i <;> interval_cases x <;> simp [assemble, blk, Mat.setBlock, Mat.extM]

theorem gDiscrete_bias (o : Opts) (A : FArgs) {i x : ℕ} (hi : i < 6) (hx : x < 12) :
    assemble (gDiscrete o A) (9 + i) x = if x = 6 + i then A.dt else 0 := by
  unfold gDiscrete
  interval_cases i <;> interval_cases x <;> simp [assemble, blk, Mat.setBlock, Mat.extM]

theorem gFast_bias (R : M3) (dt : ℝ) (w : V3) {i x : ℕ} (hi : i < 6) (hx : x < 12) :
    assemble (gFast R dt w) (9 + i) x = if x = 6 + i then 1 else 0 := by
  unfold gFast
  interval_cases i <;> interval_cases x <;> simp [assemble, blk, Mat.setBlock, Mat.extM]

theorem bias_noise {G Qc : Mat} (d : ℕ → ℝ) (hd : ∀ i j, i < 12 → j < 12 → Qc i j = if i = j then d i else 0) {g : ℝ}
    (hG : ∀ i x, i < 6 → x < 12 → G (9 + i) x = if x = 6 + i then g else 0) {i j : ℕ} (hi : i < 6) (hj : j < 6) :
    noiseCov G Qc (9 + i) (9 + j) = if i = j then g * g * d (6 + i) else 0 := by
  rw [noise_entry d hd]
  rw [Finset.sum_eq_single_of_mem (6 + i) (Finset.mem_range.2 (by omega))]
  · rw [hG i _ hi (by omega), hG j _ hj (by omega), if_pos rfl]
    by_cases e : i = j
    · subst e; simp; ring
    · rw [if_neg (by omega), if_neg e, mul_zero]
  · intro x hx hne
    rw [hG i x hi (Finset.mem_range.1 hx), if_neg hne]; ring

namespace Spec

/-- the random-walk variance of the six bias components (gyroscope first) accumulated over `dt`. -/
noncomputable def walk (N : Noise) (dt : ℝ) (i : ℕ) : ℝ := if i < 3 then N.swb ^ 2 * dt else N.sab ^ 2 * dt

end Spec

/-- **C76** For every interval of positive length, every integration method and all noise parameters, the process noise added by a prediction
step is symmetric and positive semidefinite, and its bias block is the random walk: variance `σ²·dt` on the diagonal, nothing off it. -/
theorem C76_process_noise (o : Opts) (po : POpts) (N : Noise) (c : Cal) (x xf : Imu16) (d0 d1 : Reading) (h : d0.t < d1.t) (n : ℕ) :
    let Q := (predictAndCompute o po N c x xf d0 d1).2.2
    Mat.Sym n Q ∧ Mat.PSD n Q ∧
    ∀ i j, i < 6 → j < 6 → Q (9 + i) (9 + j) = if i = j then Spec.walk N (d1.t - d0.t) i else 0 := by
  intro Q
  have hdt : 0 < d1.t - d0.t := by linarith
  have hd := qcPredict_diag N (d1.t - d0.t)
  refine ⟨noise_sym _ _ _, noise_psd _ _ (sym_of_diag _ hd) (psd_diag _ hd (dP_nonneg N hdt.le)), fun i j hi hj => ?_⟩
  have hw : (d1.t - d0.t) * (d1.t - d0.t) * dP N (d1.t - d0.t) (6 + i) = Spec.walk N (d1.t - d0.t) i := by
    unfold dP Spec.walk
    rw [if_neg (by omega), if_neg (by omega)]
    by_cases e : i < 3
    · rw [if_pos (by omega), if_pos e]; field_simp
    · rw [if_neg (by omega), if_neg e]; field_simp
  rw [← hw]
  show noiseCov _ _ _ _ = _
  cases hm : po.method with
  | discrete => exact bias_noise _ hd (fun i x hi hx => gDiscrete_bias _ _ hi hx) hi hj
  | rk4 => exact bias_noise _ hd (fun i x hi hx => gAnalytic_bias _ _ _ hi hx) hi hj
  | analytical => exact bias_noise _ hd (fun i x hi hx => gAnalytic_bias _ _ _ hi hx) hi hj

/-- **C76** (linearity in time) Over consecutive intervals the random-walk variances add up to that of the whole interval: the noise a bias
receives does not depend on the rate of the IMU. -/
theorem C76_walk_additive (N : Noise) (t0 t1 t2 : ℝ) (i : ℕ) :
    Spec.walk N (t1 - t0) i + Spec.walk N (t2 - t1) i = Spec.walk N (t2 - t0) i := by
  unfold Spec.walk; split_ifs <;> ring

/-- **C76** (fast propagation) The fast propagation adds the same bias noise, and keeps the covariance symmetric positive semidefinite over any
number of readings with increasing times. -/
theorem C76_fast_noise (kalibr : Bool) (N : Noise) (c : Cal) (x : Imu16) (P : Mat) (d0 d1 : Reading) (h : d0.t < d1.t) :
    (Mat.Sym 15 P → Mat.Sym 15 (fastStep kalibr N c x P d0 d1).2) ∧ (Mat.PSD 15 P → Mat.PSD 15 (fastStep kalibr N c x P d0 d1).2) ∧
    ∀ i j, i < 6 → j < 6 → (fastStep kalibr N c x P d0 d1).2 (9 + i) (9 + j) =
      P (9 + i) (9 + j) + if i = j then Spec.walk N (d1.t - d0.t) i else 0 := by
  have hdt : 0 < d1.t - d0.t := by linarith
  have hd := qcFast_diag N (d1.t - d0.t)
  refine ⟨fun hs => ?_, fun hp => ?_, fun i j hi hj => ?_⟩
  · exact Mat.sym_congr _ hs (noise_sym _ _ _) (Mat.EqOn.refl _)
  · exact Mat.psd_congr _ hp (noise_psd 15 _ (sym_of_diag _ hd) (psd_diag _ hd (dF_nonneg N hdt.le))) (Mat.EqOn.refl _)
  · simp only [fastStep]
    have hF : ∀ (R : M3) (dt : ℝ) (w a : V3) (i x : ℕ), i < 6 → x < 15 →
        assemble (fFast R dt w a) (9 + i) x = if x = 9 + i then 1 else 0 := by
      intro R dt w a i x hi hx
      unfold fFast
      interval_cases i <;> interval_cases x <;> simp [assemble, blk, Mat.setBlock, Mat.extM]
    congr 1
    · unfold Mat.mul Mat.tr
      rw [Finset.sum_eq_single_of_mem (9 + j) (Finset.mem_range.2 (by omega))]
      · rw [hF _ _ _ _ j _ hj (by omega), if_pos rfl, mul_one, Finset.sum_eq_single_of_mem (9 + i) (Finset.mem_range.2 (by omega))]
        · rw [hF _ _ _ _ i _ hi (by omega), if_pos rfl, one_mul]
        · intro b hb hne
          rw [hF _ _ _ _ i _ hi (Finset.mem_range.1 hb), if_neg hne, zero_mul]
      · intro b hb hne
        rw [hF _ _ _ _ j _ hj (Finset.mem_range.1 hb), if_neg hne, mul_zero]
    · rw [bias_noise _ hd (fun i x hi hx => gFast_bias _ _ _ hi hx) hi hj]
      congr 1
      unfold dF Spec.walk
      rw [if_neg (by omega), if_neg (by omega)]
      by_cases e : i < 3
      · rw [if_pos (by omega), if_pos e]; ring
      · rw [if_neg (by omega), if_neg e]; ring


/-- blocks to the right of column `15` do not matter left of it. -/
theorem assemble_left (l l' : List Blk) (h : ∀ b ∈ l', 15 ≤ b.c) (i j : ℕ) (hj : j < 15) : assemble (l ++ l') i j = assemble l i j := by
  unfold assemble
  rw [List.foldl_append]
  generalize l.foldl (fun F b => Mat.setBlock b.r b.c b.nr b.nc b.a F) (fun _ _ => 0) = F0
  induction l' generalizing F0 with
  | nil => rfl
  | cons b t ih =>
    rw [List.foldl_cons, ih (fun x hx => h x (by simp [hx]))]
    simp only [Mat.setBlock]
    rw [if_neg]
    have := h b (by simp)
    omega

/-- **C76** (measurement noise) In every integration method and in the fast propagation, the white noise of the readings enters orientation,
position and velocity exactly like an error of the corresponding bias: the noise Jacobian equals the bias columns of the transition matrix. -/
theorem C76_noise_enters_like_bias (o : Opts) (X : Xi) (A : FArgs) (R : M3) (dt : ℝ) (w a : V3) {i x : ℕ} (hi : i < 9) (hx : x < 6) :
    assemble (gAnalytic o X A) i x = assemble (fAnalytic o X A) i (9 + x) ∧
    assemble (gDiscrete o A) i x = assemble (fDiscrete o A) i (9 + x) ∧
    assemble (gFast R dt w) i x = assemble (fFast R dt w a) i (9 + x) := by
  refine ⟨?_, ?_, ?_⟩
  · unfold fAnalytic gAnalytic
    simp only []
    rw [assemble_left _ _ _ _ _ (by omega)]
    · interval_cases i <;> interval_cases x <;> simp [assemble, blk, Mat.setBlock, Mat.extM]
    · intro b hb
      split_ifs at hb <;> simp at hb <;> (repeat' (first | (rcases hb with rfl | hb) | subst hb)) <;> simp [blk, rotId, *]
  · unfold fDiscrete gDiscrete
    simp only []
    rw [assemble_left _ _ _ _ _ (by omega)]
    · interval_cases i <;> interval_cases x <;> simp [assemble, blk, Mat.setBlock, Mat.extM]
    · intro b hb
      split_ifs at hb <;> simp at hb <;> (repeat' (first | (rcases hb with rfl | hb) | subst hb)) <;> simp [blk, rotId, *]
  · unfold fFast gFast
    interval_cases i <;> interval_cases x <;> simp [assemble, blk, Mat.setBlock, Mat.extM]


/-- the hypotheses of C76 are met: a reading of half a second; the bias variance then is `σ²/2`. -/
example (N : Noise) : Spec.walk N ((exR 0.5).t - (exR 0).t) 0 = N.swb ^ 2 * 0.5 ∧ (exR 0).t < (exR 0.5).t := by
  norm_num [Spec.walk, exR]

/-! ## C22: fast propagation and the time offset -/

namespace Spec

/-- the angular rate of a reading, corrected by the calibration and the biases. -/
noncomputable def rate (kalibr : Bool) (c : Cal) (bg ba : V3) (y : Reading) : V3 :=
  (quat2Rot c.qw).mulVec ((Dm kalibr c.dw).mulVec (y.wm - bg - (Tm c.tg).mulVec ((quat2Rot c.qa).mulVec ((Dm kalibr c.da).mulVec (y.am - ba)))))

/-- the cache after any history of queries to the state `s` since it was last invalidated, the buffer being arbitrary at each query. -/
inductive CacheOf (s : State) : Option Cache → Prop
  | fresh : CacheOf s none
  | query {ca ca' : _} {N : Noise} {buf : List Reading} {t : ℝ} {out : Option FastOut} (h : CacheOf s ca)
      (hq : fastPropagate N buf ca s t = some (ca', out)) : CacheOf s (some ca')

end Spec

theorem fastLoop_bias (kalibr : Bool) (N : Noise) (c : Cal) : ∀ (l : List Reading) (x : Imu16) (P : Mat),
    (fastLoop kalibr N c l x P).1.bg = x.bg ∧ (fastLoop kalibr N c l x P).1.ba = x.ba := by
  intro l
  induction l with
  | nil => intro x P; exact ⟨rfl, rfl⟩
  | cons d0 l ih =>
    cases l with
    | nil => intro x P; exact ⟨rfl, rfl⟩
    | cons d1 rest => intro x P; rw [fastLoop]; exact ih _ _

theorem lastW_eq (kalibr : Bool) (c : Cal) (x : Imu16) {l : List Reading} {y : Reading} (h : l.getLast? = some y) :
    lastW kalibr c x l = Spec.rate kalibr c x.bg x.ba y := by
  cases l with
  | nil => simp at h
  | cons d l =>
    rw [List.getLast?_eq_some_getLast (by simp), Option.some.injEq] at h
    simp only [lastW, Spec.rate, h, ← Matrix.mulVec_mulVec]

theorem fast_some {N : Noise} {buf : List Reading} {ca : Option Cache} {s : State} {t : ℝ} {ca' : Cache} {out : Option FastOut}
    (h : fastPropagate N buf ca s t = some (ca', out)) :
    ∃ c k, calOf s = some c ∧ (ca = some k ∨ (ca = none ∧ initCache s = some k)) ∧
      ((ca' = k ∧ out = none) ∨
       ∃ r, r = fastLoop s.opts.kalibr N c (select buf (k.time + k.toff) (t + k.toff)) k.x k.P ∧
        ca' = ⟨t + k.toff, 0, r.1, r.2⟩ ∧ out = some (fastOut s.opts.kalibr N c (select buf (k.time + k.toff) (t + k.toff)) r.1 r.2)) := by
  unfold fastPropagate at h
  rw [Option.bind_eq_bind, Option.bind_eq_some_iff] at h
  obtain ⟨c, hc, h⟩ := h
  rw [Option.bind_eq_bind, Option.bind_eq_some_iff] at h
  obtain ⟨k, hk, h⟩ := h
  refine ⟨c, k, hc, ?_, ?_⟩
  · cases ca with
    | none => exact .inr ⟨rfl, by simpa using hk⟩
    | some k' => exact .inl (by simpa using hk)
  · simp only at h
    split_ifs at h with hl
    · simp only [Option.pure_def, Option.some.injEq, Prod.mk.injEq] at h
      exact .inl ⟨h.1.symm, h.2.symm⟩
    · simp only [Option.pure_def, Option.some.injEq, Prod.mk.injEq] at h
      exact .inr ⟨_, rfl, h.1.symm, h.2.symm⟩

theorem init_some {s : State} {k : Cache} (h : initCache s = some k) :
    ∃ off x f, tOff s = some off ∧ imuOf s = some (x, f) ∧ k.time = s.ts ∧ k.toff = off ∧ k.x = x := by
  unfold initCache at h
  rw [Option.bind_eq_bind, Option.bind_eq_some_iff] at h
  obtain ⟨off, ho, h⟩ := h
  rw [Option.bind_eq_bind, Option.bind_eq_some_iff] at h
  obtain ⟨⟨x, f⟩, hx, h⟩ := h
  simp only at h
  rw [Option.bind_eq_bind, Option.bind_eq_some_iff] at h
  obtain ⟨M, hM, h⟩ := h
  simp only [Option.pure_def, Option.some.injEq] at h
  subst h
  exact ⟨off, x, f, ho, hx, rfl, rfl, rfl⟩

/-- the offset of a cache is the state's or zero, and its biases are the state's. -/
theorem cache_inv {s : State} {ca : Option Cache} (h : Spec.CacheOf s ca) : ∀ k, ca = some k →
    ∃ off x f, tOff s = some off ∧ imuOf s = some (x, f) ∧ (k.toff = off ∨ k.toff = 0) ∧ k.x.bg = x.bg ∧ k.x.ba = x.ba := by
  induction h with
  | fresh => intro k hk; exact absurd hk (by simp)
  | @query ca ca' N buf t out h hq ih =>
    intro k hk
    obtain rfl := Option.some.inj hk
    obtain ⟨c, k', _, hca, hr⟩ := fast_some hq
    have base : ∃ off x f, tOff s = some off ∧ imuOf s = some (x, f) ∧ (k'.toff = off ∨ k'.toff = 0) ∧ k'.x.bg = x.bg ∧ k'.x.ba = x.ba := by
      rcases hca with rfl | ⟨rfl, hi⟩
      · exact ih k' rfl
      · obtain ⟨off, x, f, h1, h2, _, h4, h5⟩ := init_some hi
        exact ⟨off, x, f, h1, h2, .inl h4, by rw [h5], by rw [h5]⟩
    rcases hr with ⟨rfl, _⟩ | ⟨r, hr, rfl, _⟩
    · exact base
    · obtain ⟨off, x, f, h1, h2, _, h4, h5⟩ := base
      obtain ⟨b1, b2⟩ := fastLoop_bias s.opts.kalibr N c (select buf (k'.time + k'.toff) (t + k'.toff)) k'.x k'.P
      exact ⟨off, x, f, h1, h2, .inr rfl, by rw [hr]; exact b1.trans h4, by rw [hr]; exact b2.trans h5⟩

/-- what a successful query reports, in terms of the cache entry it starts from. -/
theorem fast_rate {N : Noise} {buf : List Reading} {ca : Option Cache} {s : State} {t : ℝ} {ca' : Cache} {out : FastOut}
    (h : fastPropagate N buf ca s t = some (ca', some out)) (hs : Spec.Sorted buf) {k : Cache}
    (hk : ca = some k ∨ (ca = none ∧ initCache s = some k)) (h01 : k.time < t) (h0 : ∃ a ∈ buf, a.t ≤ k.time + k.toff)
    (h1 : ∃ b ∈ buf, t + k.toff ≤ b.t) :
    ∃ c y, calOf s = some c ∧ Spec.OnSignal buf y ∧ y.t = t + k.toff ∧ out.w = Spec.rate s.opts.kalibr c k.x.bg k.x.ba y ∧
      ca'.toff = 0 ∧ ca'.time = t + k.toff := by
  obtain ⟨c, k', hc, hca, hr⟩ := fast_some h
  have hkk : k' = k := by
    rcases hk with rfl | ⟨rfl, hk⟩ <;> rcases hca with hca | ⟨hca, hi⟩
    · exact (Option.some.inj hca).symm
    · simp at hca
    · simp at hca
    · exact Option.some.inj (hi.symm.trans hk)
  subst hkk
  rcases hr with ⟨_, h'⟩ | ⟨r, hr, rfl, ho⟩
  · simp at h'
  · obtain ⟨x, y, _, y1, _, y2, _, _, y3, _⟩ := C19_select (by linarith : k'.time + k'.toff < t + k'.toff) buf hs h0 h1
    refine ⟨c, y, hc, y2, y1, ?_, rfl, rfl⟩
    rw [Option.some.inj ho]
    show lastW _ _ _ _ = _
    rw [lastW_eq _ _ _ y3]
    obtain ⟨b1, b2⟩ := fastLoop_bias s.opts.kalibr N c (select buf (k'.time + k'.toff) (t + k'.toff)) k'.x k'.P
    rw [hr, b1, b2]

/-- **C22** (first query) The first query after an update reports the state at IMU time `t + offset`: the reported angular rate is the
corrected IMU signal at that time. -/
theorem C22_first_query {N : Noise} {buf : List Reading} {s : State} {t off : ℝ} {ca' : Cache} {out : FastOut}
    (h : fastPropagate N buf none s t = some (ca', some out)) (hoff : tOff s = some off) (hs : Spec.Sorted buf) (h01 : s.ts < t)
    (h0 : ∃ a ∈ buf, a.t ≤ s.ts + off) (h1 : ∃ b ∈ buf, t + off ≤ b.t) :
    ∃ c x f y, calOf s = some c ∧ imuOf s = some (x, f) ∧ Spec.OnSignal buf y ∧ y.t = t + off ∧
      out.w = Spec.rate s.opts.kalibr c x.bg x.ba y := by
  obtain ⟨c, k, hc, hca, hr⟩ := fast_some h
  rcases hca with hca | ⟨_, hi⟩
  · simp at hca
  · obtain ⟨off', x, f, h2, h3, h4, h5, h6⟩ := init_some hi
    obtain rfl := Option.some.inj (h2.symm.trans hoff)
    obtain ⟨c, y, q1, q2, q3, q4, _, _⟩ := fast_rate h hs (.inr ⟨rfl, hi⟩) (by rw [h4]; exact h01) (by rw [h4, h5]; exact h0) (by rw [h5]; exact h1)
    exact ⟨c, x, f, y, q1, h3, q2, by rw [q3, h5], by rw [q4, h6]⟩

/-- **C22** (holds without offset) If the estimated offset is zero, every query after any history of earlier queries reports the state at
time `t`. Missing: a non-zero offset, for which the claim is false, see `C22_offset_dropped`. -/
theorem C22_every_query_partial {N : Noise} {buf : List Reading} {ca : Option Cache} {s : State} {t : ℝ} {ca' : Cache} {out : FastOut}
    (hca : Spec.CacheOf s ca) (h : fastPropagate N buf ca s t = some (ca', some out)) (hoff : tOff s = some 0) (hs : Spec.Sorted buf)
    (h01 : (ca.elim s.ts Cache.time) < t) (h0 : ∃ a ∈ buf, a.t ≤ ca.elim s.ts Cache.time) (h1 : ∃ b ∈ buf, t ≤ b.t) :
    ∃ c x f y, calOf s = some c ∧ imuOf s = some (x, f) ∧ Spec.OnSignal buf y ∧ y.t = t ∧
      out.w = Spec.rate s.opts.kalibr c x.bg x.ba y := by
  cases ca with
  | none =>
    have := C22_first_query h hoff hs h01 (by simpa using h0) (by simpa using h1)
    simpa using this
  | some k =>
    obtain ⟨off, x, f, i1, i2, i3, i4, i5⟩ := cache_inv hca k rfl
    obtain rfl := Option.some.inj (i1.symm.trans hoff)
    have hk : k.toff = 0 := by rcases i3 with h | h <;> exact h
    obtain ⟨c, y, q1, q2, q3, q4, _, _⟩ := fast_rate h hs (.inl rfl) h01 (by rw [hk, add_zero]; exact h0) (by rw [hk, add_zero]; exact h1)
    exact ⟨c, x, f, y, q1, i2, q2, by rw [q3, hk, add_zero], by rw [q4, i4, i5]⟩

/-- **C22** (finding, every later query) For every state, offset and history: once one query has succeeded, the next query for time `t` reports
the state at IMU time `t` — the offset is not applied any more. -/
theorem C22_later_query_ignores_offset {N N' : Noise} {buf buf' : List Reading} {ca : Option Cache} {s : State} {t t' : ℝ} {ca' ca'' : Cache}
    {out out' : FastOut} (hca : Spec.CacheOf s ca) (h : fastPropagate N buf ca s t = some (ca', some out))
    (h' : fastPropagate N' buf' (some ca') s t' = some (ca'', some out')) (hs : Spec.Sorted buf') (h01 : ca'.time < t')
    (h0 : ∃ a ∈ buf', a.t ≤ ca'.time) (h1 : ∃ b ∈ buf', t' ≤ b.t) :
    ∃ c x f y, calOf s = some c ∧ imuOf s = some (x, f) ∧ Spec.OnSignal buf' y ∧ y.t = t' ∧
      out'.w = Spec.rate s.opts.kalibr c x.bg x.ba y := by
  have hk : ca'.toff = 0 := by
    obtain ⟨c, k, _, _, hr⟩ := fast_some h
    rcases hr with ⟨_, h'⟩ | ⟨r, _, rfl, _⟩
    · simp at h'
    · rfl
  obtain ⟨off, x, f, i1, i2, i3, i4, i5⟩ := cache_inv (Spec.CacheOf.query hca h) ca' rfl
  obtain ⟨c, y, q1, q2, q3, q4, _, _⟩ := fast_rate h' hs (.inl rfl) h01 (by rw [hk, add_zero]; exact h0) (by rw [hk, add_zero]; exact h1)
  exact ⟨c, x, f, y, q1, i2, q2, by rw [q3, hk, add_zero], by rw [q4, i4, i5]⟩


/-! ### the counterexample -/

/-- a state at time `0` with a time offset of one second and the default calibration. -/
noncomputable def exS : State :=
  { ctor Spec.o0 with ts := 0, obj := fun w => if w = 6 then { (ctor Spec.o0).obj 6 with val := .vec 1 fun _ => 1 } else (ctor Spec.o0).obj w }

theorem exS_reach (lib : Lib) : Spec.Reach lib exS := by
  refine ⟨Spec.o0, [.setVal 6 (.vec 1 fun _ => 1), .setTime 0], ?_⟩
  simp [run, St.step, ctor, ctorVars, Spec.o0, push, heap0, sameKind, exS]

/-- the gyroscope reads `t` about the vertical axis at time `t`. -/
def exG (t : ℝ) : Reading := ⟨t, ![0, 0, t], 0⟩

theorem exS_cal : calOf exS = some ⟨imuDefault, imuDefault, fun _ => 0, idQuat, idQuat⟩ := by
  simp [calOf, exS, ctor, ctorVars, Spec.o0, push, heap0]

theorem exS_off : tOff exS = some 1 := by simp [tOff, exS, dtUid]

theorem exS_imu : imuOf exS = some (imu0, imu0) := by
  simp [imuOf, exS, ctor, ctorVars, Spec.o0, push, heap0, imuUid]

theorem exS_init : ∃ k, initCache exS = some k := by
  have : ∃ M, getMarginal exS [(imuUid, .self)] = some M := by
    have h := C13_resolves (exS_reach ⟨fun _ _ => fun _ _ => 0, fun _ _ b => b, fun _ _ => fun _ _ => 0, fun _ => 0⟩) 0
    obtain ⟨k, _, hk⟩ := h.1 (by simp [exS, ctor, ctorVars, Spec.o0, push, heap0])
    exact ⟨_, by simp only [getMarginal, resolveAll]; rw [show (imuUid : ℕ) = 0 from rfl, hk]; rfl⟩
  obtain ⟨M, hM⟩ := this
  exact ⟨_, by simp only [initCache, exS_off, exS_imu, hM]; rfl⟩

theorem exG_signal {y : Reading} (h : Spec.OnSignal [exG 0, exG 10] y) : y = exG y.t := by
  rcases h with h | ⟨a, b, hab, _, _, h⟩
  · simp only [List.mem_cons, List.not_mem_nil, or_false] at h
    rcases h with rfl | rfl <;> rfl
  · have e : a = exG 0 ∧ b = exG 10 := by
      have h1 := hab.eq_of_length_le (by simp)
      simpa using h1
    obtain ⟨rfl, rfl⟩ := e
    have w : y.wm = ![0, 0, y.t] := by
      ext i
      have := (h i).1
      fin_cases i <;> simp [exG] at this ⊢ <;> linarith
    have a : y.am = 0 := by
      ext i
      have := (h i).2
      fin_cases i <;> simp [exG] at this ⊢ <;> linarith
    cases y
    simp only at w a
    simp [exG, w, a]

theorem exG_rate (t : ℝ) : Spec.rate true ⟨imuDefault, imuDefault, fun _ => 0, idQuat, idQuat⟩ imu0.bg imu0.ba (exG t) = ![0, 0, t] := by
  have hD : Dm true imuDefault = 1 := by apply m3_ext <;> simp [Dm, imuDefault, vecOf]
  have hT : Tm (fun _ => 0) = 0 := by apply m3_ext <;> simp [Tm]
  simp only [Spec.rate, idQuat, exCal_rot, hD, Matrix.one_mulVec, hT, imu0, exG]
  ext i; fin_cases i <;> simp

theorem exG_query {N : Noise} {ca : Option Cache} {k : Cache} (hk : ca.or (initCache exS) = some k) {t : ℝ} (h1 : 0 ≤ k.time + k.toff)
    (h2 : k.time + 1 ≤ t) (h3 : t + k.toff ≤ 10) :
    ∃ out, fastPropagate N [exG 0, exG 10] ca exS t = some (⟨t + k.toff, 0, (fastLoop exS.opts.kalibr N ⟨imuDefault, imuDefault, fun _ => 0, idQuat, idQuat⟩
      (select [exG 0, exG 10] (k.time + k.toff) (t + k.toff)) k.x k.P).1, (fastLoop exS.opts.kalibr N ⟨imuDefault, imuDefault, fun _ => 0, idQuat, idQuat⟩
      (select [exG 0, exG 10] (k.time + k.toff) (t + k.toff)) k.x k.P).2⟩, some out) := by
  obtain ⟨x, y, x1, y1, _, _, e, _⟩ := C19_select (by linarith : k.time + k.toff < t + k.toff) [exG 0, exG 10]
    (by simp [Spec.Sorted, exG]) ⟨exG 0, by simp, h1⟩ ⟨exG 10, by simp, h3⟩
  have hin : Spec.inside (k.time + k.toff) (t + k.toff) [exG 0, exG 10] = [] := by
    simp only [Spec.inside, exG, List.filter_eq_nil_iff, List.mem_cons, List.not_mem_nil, or_false]
    rintro a (rfl | rfl) <;> simp only [decide_eq_true_eq, not_and, not_lt]
    · intro h; linarith
    · intro _; linarith
  rw [hin] at e
  have hsp : Spec.Spaced ([x] ++ [y]) := by
    simp only [Spec.Spaced, List.cons_append, List.nil_append, List.isChain_cons_cons, List.isChain_singleton, and_true]
    rw [x1, y1]; norm_num; linarith
  have hsel := (e hsp).1
  refine ⟨fastOut exS.opts.kalibr N ⟨imuDefault, imuDefault, fun _ => 0, idQuat, idQuat⟩ (select [exG 0, exG 10] (k.time + k.toff) (t + k.toff))
    (fastLoop exS.opts.kalibr N ⟨imuDefault, imuDefault, fun _ => 0, idQuat, idQuat⟩
      (select [exG 0, exG 10] (k.time + k.toff) (t + k.toff)) k.x k.P).1 (fastLoop exS.opts.kalibr N ⟨imuDefault, imuDefault, fun _ => 0, idQuat, idQuat⟩
      (select [exG 0, exG 10] (k.time + k.toff) (t + k.toff)) k.x k.P).2, ?_⟩
  unfold fastPropagate
  rw [exS_cal, Option.bind_eq_bind, Option.bind_some, hk, Option.bind_eq_bind, Option.bind_some]
  simp only []
  rw [if_neg (by rw [hsel]; simp)]
  rfl

/-- **C22** (finding) The claim is false of the code with a non-zero offset: for the reachable state `exS` (offset one second) and a gyroscope
whose reading about the vertical axis equals the time, queries at `2` and then `4` report the rates `3` and `4` instead of `3` and `5`. -/
theorem C22_offset_dropped (lib : Lib) (N : Noise) : Spec.Reach lib exS ∧ tOff exS = some 1 ∧
    ∃ c1 c2 o1 o2, fastPropagate N [exG 0, exG 10] none exS 2 = some (c1, some o1) ∧
      fastPropagate N [exG 0, exG 10] (some c1) exS 4 = some (c2, some o2) ∧
      o1.w = ![0, 0, 2 + 1] ∧ o2.w = ![0, 0, 4] ∧ o2.w ≠ ![0, 0, 4 + 1] := by
  obtain ⟨k, hk⟩ := exS_init
  obtain ⟨off, x, f, i1, i2, i3, i4, i5⟩ := init_some hk
  obtain rfl := Option.some.inj (i1.symm.trans exS_off)
  have hts : exS.ts = 0 := rfl
  have hkal : exS.opts.kalibr = true := rfl
  obtain ⟨o1, h1⟩ := exG_query (N := N) (ca := none) (k := k) (by simpa using hk) (t := 2) (by rw [i3, i4, hts]; norm_num)
    (by rw [i3, hts]; norm_num) (by rw [i4]; norm_num)
  have hso : Spec.Sorted [exG 0, exG 10] := by simp [Spec.Sorted, exG]
  obtain ⟨c, x', f', y, a1, a2, a3, a4, a5⟩ := C22_first_query h1 exS_off hso (by rw [hts]; norm_num)
    ⟨exG 0, by simp, by rw [hts]; norm_num [exG]⟩ ⟨exG 10, by simp, by norm_num [exG]⟩
  rw [exS_cal] at a1
  obtain rfl := Option.some.inj a1
  rw [exS_imu] at a2
  obtain ⟨rfl, rfl⟩ := Prod.mk.inj (Option.some.inj a2)
  rw [exG_signal a3, a4, hkal, exG_rate] at a5
  generalize hc1 : (Cache.mk _ _ _ _) = c1 at h1
  have t1 : c1.time = 3 := by rw [← hc1]; simp only [i4]; norm_num
  have t2 : c1.toff = 0 := by rw [← hc1]
  obtain ⟨o2, h2⟩ := exG_query (N := N) (ca := some c1) (k := c1) (by simp) (t := 4) (by rw [t1, t2]; norm_num)
    (by rw [t1]; norm_num) (by rw [t2]; norm_num)
  obtain ⟨c, x', f', y, b1, b2, b3, b4, b5⟩ := C22_later_query_ignores_offset .fresh h1 h2 hso (by rw [t1]; norm_num)
    ⟨exG 0, by simp, by rw [t1]; norm_num [exG]⟩ ⟨exG 10, by simp, by norm_num [exG]⟩
  rw [exS_cal] at b1
  obtain rfl := Option.some.inj b1
  rw [exS_imu] at b2
  obtain ⟨rfl, rfl⟩ := Prod.mk.inj (Option.some.inj b2)
  rw [exG_signal b3, b4, hkal, exG_rate] at b5
  refine ⟨exS_reach lib, exS_off, c1, _, o1, o2, h1, h2, a5, b5, ?_⟩
  rw [b5]
  intro h
  have := congrFun h 2
  simp at this


/-! ## C78: propagate_and_clone -/

variable {lib : Lib} {o : Opts} {s s' : State}

theorem prog_imu (h : Spec.Prog lib o s) : ∃ x f, (s.obj imuUid).val = .imu x ∧ (s.obj imuUid).fej = .imu f := by
  have hW := prog_W h
  have hI := reach_inv h.reach
  have k1 := hW.kind imuUid (by simp [base, imuUid])
  have k2 := hI.kind imuUid
  simp only [heap0, imuUid, if_true] at k1
  cases hv : (s.obj 0).val <;> rw [hv] at k1 <;> simp [sameKind] at k1
  rename_i x
  simp only [imuUid, hv] at k2
  cases hf : (s.obj 0).fej <;> rw [hf] at k2 <;> simp [sameKind] at k2
  rename_i f
  exact ⟨x, f, hv, hf⟩

theorem prog_cal (h : Spec.Prog lib o s) : (∃ c, calOf s = some c) ∧ (∃ off, tOff s = some off) := by
  have hW := prog_W h
  have k (u : ℕ) (hu : u < 7) := hW.kind u (by unfold base; omega)
  have k1 := k 1 (by omega)
  have k2 := k 2 (by omega)
  have k3 := k 3 (by omega)
  have k4 := k 4 (by omega)
  have k5 := k 5 (by omega)
  have k6 := k 6 (by omega)
  simp [heap0] at k1 k2 k3 k4 k5 k6
  constructor
  · unfold calOf
    cases h1 : (s.obj 1).val <;> rw [h1] at k1 <;> simp [sameKind] at k1
    cases h2 : (s.obj 2).val <;> rw [h2] at k2 <;> simp [sameKind] at k2
    cases h3 : (s.obj 3).val <;> rw [h3] at k3 <;> simp [sameKind] at k3
    cases h4 : (s.obj 4).val <;> rw [h4] at k4 <;> simp [sameKind] at k4
    cases h5 : (s.obj 5).val <;> rw [h5] at k5 <;> simp [sameKind] at k5
    exact ⟨_, rfl⟩
  · unfold tOff
    cases h6 : (s.obj 6).val <;> rw [h6] at k6 <;> simp [sameKind] at k6
    exact ⟨_, by simp only [dtUid, h6]; rfl⟩

/-- cloning the IMU pose never fails in a program state without a clone at the current time. -/
theorem augment_returns (h : Spec.Prog lib o s) (hn : ∀ c ∈ s.clones, c.1 ≠ s.ts) (w : V3) : ∃ s', augment s w = some s' := by
  have hW := prog_W h
  have hI := reach_inv h.reach
  obtain ⟨x, f, hx, hf⟩ := prog_imu h
  have hu : imuUid ∈ s.vars := hW.mem (zero_mem_ctorVars o)
  obtain ⟨k, hk, hle, hr⟩ := hI.resolve_self hu
  have hsz : osz s.obj imuUid = 15 := by simp [osz, hx, Val.size]
  rw [hsz] at hle
  have hres : resolve s (imuUid, .pose) = some (k, 6) := by
    unfold resolve
    simp only [hx, Val.part, hk, Int.toNat_natCast, Val.size]
    rw [if_pos ⟨by omega, by omega⟩]
    simp
  have hcl : clone s (imuUid, .pose) = some ({ s with
      n := s.n + 6, P := cloneCov s.n k 6 s.P
      obj := fun w => if w = s.next then ⟨s.n, .pose x.q x.p, .pose f.q f.p, false, false⟩ else s.obj w
      next := s.next + 1, vars := s.vars ++ [s.next] }, s.next) := by
    unfold clone
    simp only [hu, if_true, hres, hx, hf, Val.part]
    rfl
  unfold augment
  rw [if_neg]
  · rw [hcl, Option.bind_eq_bind, Option.bind_some]
    simp only []
    by_cases hdt : s.opts.calibDt = true
    · rw [if_pos hdt]
      have hne : imuUid ≠ s.next := by have := hI.alloc _ hu; omega
      rw [if_neg hne, hx]
      simp only []
      have hd : dtUid ∈ s.vars := hW.mem (by
        have : o.calibDt = true := by rw [← hW.opts]; exact hdt
        simp [ctorVars, this, dtUid])
      obtain ⟨k6, hk6, hle6, hr6⟩ := hI.resolve_self hd
      have hne6 : dtUid ≠ s.next := by have := hI.alloc _ hd; omega
      obtain ⟨v6, hs6⟩ : ∃ v, (s.obj dtUid).val = .vec 1 v := by
        have k6 := hW.kind 6 (by unfold base; omega)
        simp [heap0] at k6
        cases h6 : (s.obj 6).val <;> rw [h6] at k6 <;> simp [sameKind] at k6
        subst k6; exact ⟨_, h6⟩
      have hle6' : k6 + 1 ≤ s.n := by simp only [osz, hs6, Val.size] at hle6; omega
      simp only [resolve, Val.part, if_true, if_neg hne6, hk6, Int.toNat_natCast, hs6, Val.size]
      rw [if_pos ⟨by omega, by omega⟩, if_pos ⟨by omega, by omega⟩]
      simp only [Option.bind_eq_bind, Option.bind_some]
      rw [if_neg (by push Not; exact ⟨by omega, by omega⟩)]
      exact ⟨_, rfl⟩
    · rw [if_neg hdt]; exact ⟨_, rfl⟩
  · intro hc
    rw [List.find?_isSome] at hc
    obtain ⟨c, hc, e⟩ := hc
    exact hn c hc (by simpa using e)

theorem progOK_step (h : Spec.ProgOK lib o s) {op : Op} (hr : Spec.NotRaw op) (ha : Spec.ArgsOK s op) (hs : St.step lib s op = some s') :
    Spec.ProgOK lib o s' := by
  obtain ⟨ops, ho, hok, hrun⟩ := h
  refine ⟨ops ++ [op], ?_, histOK_append hok hrun ⟨ha, fun _ _ => trivial⟩, ?_⟩
  · intro x hx
    rcases List.mem_append.1 hx with hx | hx
    · exact ho x hx
    · obtain rfl := List.mem_singleton.1 hx; exact hr
  · rw [run_append, hrun]; simp [run, hs]

theorem setImu_prog (h : Spec.ProgOK lib o s) (x f : Imu16) : Spec.ProgOK lib o (setImu s x f) := by
  obtain ⟨x0, f0, hx, hf⟩ := prog_imu h.prog
  have h1 := progOK_step h (op := .setVal imuUid (.imu x)) trivial trivial (s' := { s with obj := fun w => if w = imuUid then { s.obj imuUid with val := .imu x } else s.obj w })
    (by simp [St.step, hx, sameKind])
  have h2 := progOK_step h1 (op := .setFej imuUid (.imu f)) trivial trivial (s' := setImu s x f)
    (by
      simp only [St.step, if_true, hf, sameKind]
      congr 1
      simp only [setImu]
      congr 1
      funext w
      by_cases e : w = imuUid <;> simp [e])
  exact h2

theorem dtSum_eq : ∀ l : List Reading, dtSum l = Spec.elapsed l
  | [] => rfl
  | [_] => rfl
  | a :: b :: l => by rw [dtSum, Spec.elapsed, dtSum_eq (b :: l)]

/-- every accumulated step of the loop has a symmetric positive semidefinite noise if the times increase. -/
theorem loop_noise (o : Opts) (po : POpts) (N : Noise) (c : Cal) (n : ℕ) : ∀ (l : List Reading) (x xf : Imu16) (acc : List (Mat × Mat)),
    Spec.Spaced l → (∀ FQ ∈ acc, Mat.Sym n FQ.2 ∧ Mat.PSD n FQ.2) →
    ∀ FQ ∈ (propLoop o po N c l x xf acc).2.2, Mat.Sym n FQ.2 ∧ Mat.PSD n FQ.2 := by
  intro l
  induction l with
  | nil => intro x xf acc _ h; exact h
  | cons d0 l ih =>
    cases l with
    | nil => intro x xf acc _ h; exact h
    | cons d1 rest =>
      intro x xf acc hs h
      rw [propLoop]
      simp only [Spec.Spaced, List.isChain_cons_cons] at hs
      refine ih _ _ _ hs.2 fun FQ hFQ => ?_
      rcases List.mem_append.1 hFQ with hFQ | hFQ
      · exact h FQ hFQ
      · obtain rfl := List.mem_singleton.1 hFQ
        have := C76_process_noise o po N c x xf d0 d1 (by have := hs.1; norm_num at this; linarith) n
        exact ⟨this.1, this.2.1⟩

/-- **C78** For every state the program can be in, every buffer of readings in order that covers the interval from the last propagation to the new
image with fewer than ten million readings inside, and every new image time after the current one, `propagate_and_clone` returns, and the result is again a program state (so all state
invariants hold: layout, symmetry, positive semidefiniteness, window). Its time is the image time, it has exactly one new clone, at that time,
with value and first estimate of the propagated IMU pose; all other objects are unchanged, and the offset is remembered. -/
theorem C78_propagate_and_clone (hlib : Spec.LibOK lib) (h : Spec.ProgOK lib o s) (po : POpts) (N : Noise) (buf : List Reading)
    (hs : Spec.Sorted buf) (lastOff : Option ℝ) {off t : ℝ} (hoff : tOff s = some off) (ht : s.ts < t)
    (h01 : s.ts + lastOff.getD off < t + off) (h0 : ∃ a ∈ buf, a.t ≤ s.ts + lastOff.getD off) (h1 : ∃ b ∈ buf, t + off ≤ b.t)
    (hlen : (Spec.inside (s.ts + lastOff.getD off) (t + off) buf).length < 10 ^ 7) (hc : ∀ c ∈ s.clones, c.1 ≠ t) :
    ∃ s', propagateAndClone po N buf lastOff s t = some (s', off) ∧ Spec.ProgOK lib o s' ∧ s'.ts = t ∧ s'.n = s.n + 6 ∧
      s'.clones = insertClone t s.next s.clones ∧ s'.vars = s.vars ++ [s.next] ∧
      (∀ u, u ≠ imuUid → u < s.next → s'.obj u = s.obj u) ∧
      ∃ c x f x' f', calOf s = some c ∧ imuOf s = some (x, f) ∧ imuOf s' = some (x', f') ∧
        (x', f') = (let r := propLoop s.opts po N c (select buf (s.ts + lastOff.getD off) (t + off)) x f []; (r.1, r.2.1)) ∧
        (s'.obj s.next).val = .pose x'.q x'.p ∧ (s'.obj s.next).fej = .pose f'.q f'.p := by
  obtain ⟨⟨c, hcal⟩, _⟩ := prog_cal h.prog
  obtain ⟨x, f, hx, hf⟩ := prog_imu h.prog
  have himu : imuOf s = some (x, f) := by simp only [imuOf, hx, hf]
  obtain ⟨xr, yr, _, _, _, _, _, hsub, _, hsp, hel⟩ := C19_select h01 buf hs h0 h1
  generalize hdata : select buf (s.ts + lastOff.getD off) (t + off) = data at *
  obtain ⟨x', f', steps, hr⟩ : ∃ x' f' steps, propLoop s.opts po N c data x f [] = (x', f', steps) := ⟨_, _, _, rfl⟩
  have hq : ∀ FQ ∈ steps, Mat.Sym (intrSize o + 15) FQ.2 ∧ Mat.PSD (intrSize o + 15) FQ.2 := by
    have := loop_noise s.opts po N c (intrSize o + 15) data x f [] hsp (by simp)
    rw [hr] at this; exact this
  have h1' := setImu_prog h x' f'
  obtain ⟨ho, hprop⟩ : s.opts = o ∧ ∃ s2, propagateSummed (setImu s x' f') steps = some s2 ∧ Spec.ProgOK lib o s2 := by
    have ho : (setImu s x' f').opts = o := (prog_W h1'.prog).opts
    have hz : Mat.Sym (intrSize o + 15) (fun _ _ => (0 : ℝ)) := fun _ _ _ _ => rfl
    have hz' : Mat.PSD (intrSize o + 15) (fun _ _ => (0 : ℝ)) := Mat.psd_zero _
    obtain ⟨s2, hs2, hp2⟩ := propagate_ok hlib h1' (F := (accum (intrSize o + 15) steps).1) rfl
      (accum_sym _ steps (Mat.one, fun _ _ => 0) hz) (accum_psd _ steps hq (Mat.one, fun _ _ => 0) hz hz')
    exact ⟨ho, s2, by simp only [propagateSummed, ho]; exact hs2, hp2⟩
  obtain ⟨s2, hs2, hp2⟩ := hprop
  have heq2 : ∃ P, s2 = { setImu s x' f' with P := P } := by
    unfold propagateSummed at hs2
    obtain ⟨_, _, _, _, _, _, _, _, _, _, _, _, _, _, _, e⟩ := propagate_some hs2
    exact ⟨_, e⟩
  obtain ⟨P, rfl⟩ := heq2
  have hp3 := progOK_step hp2 (op := .setTime t) trivial trivial (s' := { setImu s x' f' with P := P, ts := t }) rfl
  obtain ⟨s', hs'⟩ := augment_returns hp3.prog (by simpa [setImu] using hc) (lastW s.opts.kalibr c x' data)
  have hp4 := progOK_step hp3 (op := .augment (lastW s.opts.kalibr c x' data)) trivial trivial (s' := s') hs'
  obtain ⟨_, a1, a2, a3, a4, a5, a6, a7, off', v, f0, a8, a9, a10⟩ := augment_maps (reach_inv hp3.prog.reach) hs'
  have hb : imuUid < s.next := by
    have := (prog_W h.prog).next
    unfold base at this
    simp only [imuUid]; omega
  have hv : off' = 0 ∧ v = .pose x'.q x'.p := by simp [setImu, Val.part] at a8; exact ⟨a8.1.symm, a8.2.symm⟩
  have hf0 : f0 = .pose f'.q f'.p := by simp [setImu, Val.part] at a9; exact a9.2.symm
  refine ⟨s', ?_, hp4, a4, ?_, a1, a6, ?_, c, x, f, x', f', hcal, himu, ?_, ?_, ?_, ?_⟩
  · unfold propagateAndClone
    rw [if_neg (by push Not; exact ⟨ht.ne, ht.le⟩), hcal, hoff, himu]
    simp only [Option.bind_eq_bind, Option.bind_some, hdata, hr]
    rw [if_neg]
    · rw [hs2, Option.bind_some]
      simp only []
      have : augment { setImu s x' f' with P := P, ts := t } (lastW s.opts.kalibr c x' data) = some s' := hs'
      rw [show ({ ({ setImu s x' f' with P := P } : State) with ts := t } : State) = { setImu s x' f' with P := P, ts := t } from rfl, this]
      rfl
    · rw [not_not, dtSum_eq]
      refine lt_of_le_of_lt hel ?_
      have hl : ((xr :: Spec.inside (s.ts + lastOff.getD off) (t + off) buf ++ [yr]).length : ℝ) ≤ 10 ^ 7 + 2 := by
        have h7 : (xr :: Spec.inside (s.ts + lastOff.getD off) (t + off) buf ++ [yr]).length ≤ 10 ^ 7 + 2 := by
          simp only [List.cons_append, List.length_cons, List.length_append, List.length_nil]; omega
        exact_mod_cast h7
      have : (0:ℝ) ≤ data.length := Nat.cast_nonneg _
      norm_num at hl ⊢
      linarith
  · obtain ⟨_, s1, u, h1, h2⟩ := augment_some hs'
    obtain ⟨k, off1, v1, f1, _, _, p1, _, _, _, _, _, rfl⟩ := clone_eq (reach_inv hp3.prog.reach) h1
    have hv1 : v1 = .pose x'.q x'.p := by simp [setImu, Val.part] at p1; exact p1.2.symm
    subst hv1
    rcases h2 with ⟨_, rfl⟩ | ⟨_, _, _, _, _, _, _, _, _, rfl⟩ <;> simp [setImu, Val.size]
  · intro u hu hlt
    rw [a7 u hlt]
    simp [setImu, hu]
  · have := a7 imuUid hb
    simp only [imuOf, this]
    simp [setImu]
  · rw [hr]
  · have : s'.obj s.next = _ := a10
    rw [this, hv.2]
  · have : s'.obj s.next = _ := a10
    rw [this, hf0]

/-- the hypotheses of C78 are met: the state `exS` (offset one second) is propagated to the image time `2`. -/
example (hlib : Spec.LibOK lib) (po : POpts) (N : Noise) : ∃ s', propagateAndClone po N [exG 0, exG 10] none exS 2 = some (s', 1) ∧ s'.n = 21 := by
  have hp : Spec.ProgOK lib Spec.o0 exS := by
    refine ⟨[.setVal 6 (.vec 1 fun _ => 1), .setTime 0], ?_, ⟨trivial, fun _ _ => ⟨trivial, fun _ _ => trivial⟩⟩, ?_⟩
    · intro op hop
      simp only [List.mem_cons, List.not_mem_nil, or_false] at hop
      rcases hop with rfl | rfl <;> trivial
    · simp [run, St.step, ctor, ctorVars, Spec.o0, push, heap0, sameKind, exS]
  have hts : exS.ts = 0 := rfl
  obtain ⟨s', h1, _, _, h2, _⟩ := C78_propagate_and_clone hlib hp po N [exG 0, exG 10] (by simp [Spec.Sorted, exG]) none exS_off
    (t := 2) (by rw [hts]; norm_num) (by rw [hts]; norm_num) ⟨exG 0, by simp, by rw [hts]; norm_num [exG]⟩
    ⟨exG 10, by simp, by norm_num [exG]⟩ (lt_of_le_of_lt (List.length_filter_le _ _) (by simp)) (by simp [exS, ctor, ctorVars, Spec.o0, push, heap0])
  refine ⟨s', h1, ?_⟩
  rw [h2]
  simp [exS, ctor, ctorVars, Spec.o0, push, heap0, Val.size]

end Verif.Prop_
