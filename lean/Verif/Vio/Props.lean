import Verif.Vio.Zupt
import Verif.Prop.PropsC
import Verif.Upd.PropsB
import Verif.Disp.Props

/-!
# The zero velocity update: decision and effect (C44)
-/

open Classical

namespace Verif.Vio

open Verif Verif.Types Verif.St Verif.Imu Verif.Prop_ Verif.Feat Verif.Disp Finset

variable {lib : Lib} {o : Opts} {s s' : State}

namespace Spec

/-- growth of the covariance by the random walks of the two biases over `dt` (rows 9-11 gyroscope bias, 12-14 accelerometer bias). -/
noncomputable def walkCov (N : Noise) (dt : ℝ) (n : ℕ) : Matrix (Fin n) (Fin n) ℝ := fun i j =>
  if i = j then
    (if 9 ≤ (i : ℕ) ∧ (i : ℕ) < 12 then dt * N.swb ^ 2 else if 12 ≤ (i : ℕ) ∧ (i : ℕ) < 15 then dt * N.sab ^ 2 else 0)
  else 0

/-- where orientation, gyroscope bias and accelerometer bias live. -/
def blocks : List (ℕ × ℕ) := [(0, 3), (9, 3), (12, 3)]

/-- squared Mahalanobis distance of a residual: `rᵀ (H P Hᵀ + ρ I)⁻¹ r` with `P` the covariance after the bias walk. -/
noncomputable def dist2 (s : State) (N : Noise) (dt ρ : ℝ) (m : ℕ) (H : Mat) (r : Vect) : ℝ :=
  let F := St.Spec.full blocks m s.n H
  dotProduct (St.Spec.vec m r) (((F * (St.Spec.cov s + walkCov N dt s.n) * F.transpose + ρ • 1)⁻¹).mulVec (St.Spec.vec m r))

/-- more than twenty (feature, camera) pairs are seen at both times and their mean image displacement is below the bound. -/
def SmallMotion (db : DB ℝ Uv) (t0 t1 bound : ℝ) : Prop :=
  ∃ es : List (ℕ × ℕ), es.Nodup ∧
    (∀ id cam, (id, cam) ∈ es ↔ (∃ f, db.get? id = some f ∧ f.toDelete = false) ∧ (∃ o ∈ obs db id cam, o.1 = t0) ∧ (∃ o ∈ obs db id cam, o.1 = t1)) ∧
    20 < es.length ∧
    (es.map fun e => Disp.Spec.pixDist (Disp.Spec.pixelAt (obs db e.1 e.2) t0) (Disp.Spec.pixelAt (obs db e.1 e.2) t1)).sum / es.length < bound

end Spec

theorem prog_blocks (h : St.Spec.Prog lib o s) : resolveAll s zOrder = some Spec.blocks ∧ resolveAll s biasOrder = some [(9, 3), (12, 3)] ∧ 15 ≤ s.n ∧
    (s.obj imuUid).id = 0 := by
  obtain ⟨x, f, hx, hf⟩ := prog_imu h
  have hI := reach_inv h.reach
  have hW := prog_W h
  have hu : imuUid ∈ s.vars := hW.mem (zero_mem_ctorVars o)
  obtain ⟨k, hk, hle, hr⟩ := hI.resolve_self hu
  have hsz : osz s.obj imuUid = 15 := by simp [osz, hx, Val.size]
  rw [hsz] at hle
  have h0 : k = 0 := by
    have h66 := (C66_phi_order h).1
    have : ∃ t, phiOrder o = (imuUid, .self) :: t := ⟨_, rfl⟩
    obtain ⟨t, ht⟩ := this
    have : ∃ t, St.Spec.phiBlocks o = (0, 15) :: t := ⟨_, rfl⟩
    obtain ⟨t', ht'⟩ := this
    rw [ht, ht', resolveAll, hr] at h66
    simp only [Option.bind_eq_bind, Option.bind_some, Option.bind_eq_some_iff] at h66
    obtain ⟨_, _, h66⟩ := h66
    simp at h66
    exact h66.1.1
  subst h0
  have hres : ∀ (p : Sub) (off : ℕ) (v : Val), (Val.imu x).part p = some (off, v) → off + v.size ≤ 15 → resolve s (imuUid, p) = some (off, v.size) := by
    intro p off v hp hl
    unfold resolve
    simp only [hx, hp, hk]
    rw [if_pos ⟨by simp, by simp; omega⟩]
    simp
  refine ⟨?_, ?_, by omega, hk⟩
  · simp only [zOrder, resolveAll]
    rw [hres .q 0 _ rfl (by simp [Val.size]), hres .bg 9 _ rfl (by simp [Val.size]), hres .ba 12 _ rfl (by simp [Val.size])]
    rfl
  · simp only [biasOrder, resolveAll]
    rw [hres .bg 9 _ rfl (by simp [Val.size]), hres .ba 12 _ rfl (by simp [Val.size])]
    rfl

theorem qBias_sym (N : Noise) (dt : ℝ) (n : ℕ) : Mat.Sym n (qBias N dt) := by
  intro i j _ _
  unfold qBias
  by_cases e : i = j
  · subst e; rfl
  · rw [if_neg e, if_neg (Ne.symm e)]

theorem qBias_psd (N : Noise) {dt : ℝ} (hdt : 0 ≤ dt) (n : ℕ) : Mat.PSD n (qBias N dt) :=
  psd_diag (fun i => if i < 3 then dt * N.swb ^ 2 else dt * N.sab ^ 2) (fun i j _ _ => rfl) (fun i => by split_ifs <;> positivity)

/-- the bias propagation: the covariance grows by the walk, nothing else changes. -/
theorem bias_prop (hlib : St.Spec.LibOK lib) (h : St.Spec.ProgOK lib o s) (N : Noise) {dt : ℝ} (hdt : 0 ≤ dt) :
    ∃ P1, propagate s biasOrder biasOrder ⟨6, 6, Mat.one⟩ ⟨6, 6, qBias N dt⟩ = some { s with P := P1 } ∧
      St.Spec.ProgOK lib o { s with P := P1 } ∧ St.Spec.mat s.n s.n P1 = St.Spec.cov s + Spec.walkCov N dt s.n := by
  obtain ⟨_, hb, hn, _⟩ := prog_blocks h.prog
  have hq := mirrorU_psd (qBias_sym N dt 6) (qBias_psd N hdt 6)
  obtain ⟨ops, ho, hok, hr⟩ := id h
  have hret := C03_propagation_returns hlib o ops hok hr biasOrder biasOrder ⟨6, 6, Mat.one⟩ ⟨6, 6, qBias N dt⟩ _ _ _ hb hb (by simp)
    (by simp [contiguous]) rfl rfl rfl rfl hq
  obtain ⟨s1, hs1⟩ := Option.isSome_iff_exists.1 hret
  obtain ⟨b, N', O, h1, h2, h3, _, h5⟩ := C07_propagation (lib := lib) h.prog.reach biasOrder biasOrder ⟨6, 6, Mat.one⟩ ⟨6, 6, qBias N dt⟩ (qBias_sym N dt 6) hs1
  rw [hb] at h1 h2
  simp only [Option.some.injEq, List.cons.injEq] at h1 h2
  obtain ⟨rfl, rfl⟩ := h1
  subst h2
  have hp1 := progOK_step h (op := .propagate biasOrder biasOrder ⟨6, 6, Mat.one⟩ ⟨6, 6, qBias N dt⟩) trivial hq hs1
  refine ⟨s1.P, by rw [hs1, ← h5], by rw [← h5]; exact hp1, ?_⟩
  simp only at h3
  have hF : St.Spec.transition s.n 9 6 [(9, 3), (12, 3)] Mat.one = 1 := by
    ext i j
    simp only [St.Spec.transition, Matrix.one_apply, Fin.ext_iff]
    split_ifs with h1 h2 h2
    · simp only [St.Spec.full, St.Spec.off, sum_range_succ, sum_range_zero, List.length_cons, List.length_nil, Mat.one]
      simp
      have : (i : ℕ) - 9 < 6 := by omega
      generalize hd : (i : ℕ) - 9 = d at *
      have hj : (j : ℕ) = d + 9 := by omega
      rw [hj]
      interval_cases d <;> simp [sum_range_succ]
    · simp only [St.Spec.full, St.Spec.off, sum_range_succ, sum_range_zero, List.length_cons, List.length_nil, Mat.one]
      simp
      have : (i : ℕ) - 9 < 6 := by omega
      generalize hd : (i : ℕ) - 9 = d at *
      have hj : (j : ℕ) ≠ d + 9 := by omega
      interval_cases d <;> simp [sum_range_succ] <;> omega
    · rfl
    · rfl
  rw [hF, Matrix.one_mul, Matrix.transpose_one, Matrix.mul_one] at h3
  rw [h3]
  congr 1
  ext i j
  simp only [St.Spec.noise, Spec.walkCov, qBias, Fin.ext_iff]
  by_cases e : (i : ℕ) = j
  · rw [if_pos e]
    split_ifs <;> first | rfl | omega
  · rw [if_neg e]
    split_ifs <;> first | rfl | omega

theorem zR_iso (m : ℕ) (c : ℝ) : (⟨m, m, zR c⟩ : DMat) = Upd.Spec.iso m c := by
  simp only [Upd.Spec.iso, DMat.mk.injEq, true_and]
  funext i j; simp [zR, Mat.one]

theorem iso_sym (m : ℕ) (c : ℝ) : Mat.Sym m (Upd.Spec.iso m c).a := fun i j _ _ => by simp only [Upd.Spec.iso, eq_comm]

theorem iso_noise (m : ℕ) (c : ℝ) : isoNoise m (Upd.Spec.iso m c).a := fun i j _ _ => ⟨fun e => by simp [Upd.Spec.iso, e], fun e => by simp [Upd.Spec.iso, e]⟩

theorem iso_pd (m : ℕ) {c : ℝ} (hc : 0 < c) : Mat.PD m (Upd.Spec.iso m c).a := isoNoise_pd (iso_noise m c) (by simpa [Upd.Spec.iso] using hc)

/-- the statistic computed by the code is the Mahalanobis distance under the covariance grown by the bias walk. -/
theorem zChi2_eq (hlib : St.Spec.LibOK lib) (h : St.Spec.ProgOK lib o s) (Z : ZCfg) (hm : 0 < Z.mult) {dt : ℝ} (hdt : 0 ≤ dt) (sys : ℕ × Mat × Vect) :
    zChi2 lib Z (margCov s.P Spec.blocks) dt sys = Spec.dist2 s Z.noise dt Z.mult sys.1 sys.2.1 sys.2.2 := by
  obtain ⟨hz, _, hn, _⟩ := prog_blocks h.prog
  obtain ⟨P1, _, hp1, hP1⟩ := bias_prop hlib h Z.noise hdt
  obtain ⟨m, H, r⟩ := sys
  have hle : ∀ b ∈ Spec.blocks, b.1 + b.2 ≤ s.n := resolveAll_le hz
  have hPs : Mat.Sym s.n P1 := reach_sym hp1.prog.reach
  have hPp : Mat.PSD s.n P1 := by
    obtain ⟨ops, h1, h2, h3⟩ := hp1
    exact reach_psd hlib (s := { s with P := P1 }) ⟨o, ops, h2, h3⟩
  have hent : ∀ i j, i < 9 → j < 9 → addBias (margCov s.P Spec.blocks) (qBias Z.noise dt) i j = margCov P1 Spec.blocks i j := by
    intro i j hi hj
    have hix : ∀ i, i < 9 → ix Spec.blocks i < s.n := fun i hi => ix_lt hle (by simpa [tot, Spec.blocks] using hi)
    rw [margCov_eq P1 _ (by simpa [tot, Spec.blocks] using hi) (by simpa [tot, Spec.blocks] using hj)]
    have e := congrFun (congrFun hP1 ⟨_, hix i hi⟩) ⟨_, hix j hj⟩
    simp only [St.Spec.mat, St.Spec.cov, Matrix.add_apply, Spec.walkCov, Fin.ext_iff] at e
    rw [e]
    simp only [addBias]
    rw [margCov_eq s.P _ (by simpa [tot, Spec.blocks] using hi) (by simpa [tot, Spec.blocks] using hj)]
    unfold qBias
    interval_cases i <;> interval_cases j <;> simp [ix, Spec.blocks]
  have hS : Mat.EqOn m m (fun i j => Mat.mul 9 (Mat.mul 9 H (addBias (margCov s.P Spec.blocks) (qBias Z.noise dt))) (Mat.tr H) i j + zR Z.mult i j)
      (innov s.n (scatter Spec.blocks H) P1 (zR Z.mult)) := by
    intro i j hi hj
    have := small_eq_full hle P1 H i j
    simp only [innov]
    rw [← this]
    congr 1
    simp only [Mat.mul]
    refine sum_congr rfl fun a ha => ?_
    congr 1
    refine sum_congr rfl fun b hb => ?_
    rw [hent b a (by simpa [tot, Spec.blocks] using hb) (by simpa [tot, Spec.blocks] using ha)]
  have hiso : Mat.PD m (zR Z.mult) := by
    have := iso_pd m hm
    rw [← zR_iso] at this; exact this
  have hisos : Mat.Sym m (zR Z.mult) := by
    have := iso_sym m Z.mult
    rw [← zR_iso] at this; exact this
  unfold zChi2
  simp only
  generalize hSd : (fun i j => Mat.mul 9 (Mat.mul 9 H (addBias (margCov s.P Spec.blocks) (qBias Z.noise dt))) (Mat.tr H) i j + zR Z.mult i j) = S at *
  have hSs : Mat.Sym m S := (Mat.eqOn_sym hS).2 (innov_sym hPs hisos)
  have hSp : Mat.PD m S := (eqOn_pd hS).2 (innov_pd hPp hiso)
  have hsol := hlib.lltSolve m S r hSs hSp
  have hu := (Matrix.isUnit_iff_isUnit_det _).1 (pd_isUnit hSp)
  have hx : Mat.toV m (lib.lltSolve m S r) = (Mat.toM m m S)⁻¹.mulVec (Mat.toV m r) := by
    have e : (Mat.toM m m S).mulVec (Mat.toV m (lib.lltSolve m S r)) = Mat.toV m r := by
      rw [← Mat.toV_mulVec]; funext i; exact hsol i i.2
    rw [← e, Matrix.mulVec_mulVec, Matrix.nonsing_inv_mul _ hu, Matrix.one_mulVec]
  have hfin : Spec.dist2 s Z.noise dt Z.mult m H r = dotProduct (Mat.toV m r) ((Mat.toM m m S)⁻¹.mulVec (Mat.toV m r)) := by
    unfold Spec.dist2
    simp only [full_eq, ← hP1, mat_eq]
    have e : Mat.toM m m (zR Z.mult) = Z.mult • 1 := by
      ext i j; simp [Mat.toM, zR, Mat.one, Matrix.one_apply, Fin.ext_iff]
    rw [Mat.eqOn_iff.1 hS, show Mat.toM m m (innov s.n (scatter Spec.blocks H) P1 (zR Z.mult)) =
        Mat.toM m m (Mat.mul s.n (Mat.mul s.n (scatter Spec.blocks H) P1) (Mat.tr (scatter Spec.blocks H))) + Mat.toM m m (zR Z.mult) from rfl,
      Mat.toM_mul, Mat.toM_mul, Mat.toM_tr, e]
    rfl
  rw [hfin, ← hx, sum_range]
  rfl

theorem dtSum_nonneg : ∀ l : List Reading, Imu.Spec.Spaced l → 0 ≤ dtSum l
  | [], _ => le_rfl
  | [_], _ => le_rfl
  | a :: b :: l, h => by
    simp only [Imu.Spec.Spaced, List.isChain_cons_cons] at h
    have := dtSum_nonneg (b :: l) h.2
    have h1 := h.1
    norm_num at h1
    rw [dtSum]; linarith

/-- the disparity branch of the code is the specification's `SmallMotion`. -/
theorem zDisp_iff {h : Hist ℝ Uv} {db : DB ℝ Uv} (hdb : h.run = some db) (Z : ZCfg) (t0 t1 : ℝ) :
    ∃ st, computeDisparity db t0 t1 = some st ∧ (zDisp Z st ↔ Spec.SmallMotion db t0 t1 Z.maxDisp) := by
  obtain ⟨st, es, h1, h2, h3, h4, h5⟩ := C65_two_images_partial h db hdb t0 t1
  refine ⟨st, h1, ?_⟩
  constructor
  · rintro ⟨⟨m, hm, hlt⟩, hn⟩
    rw [h5] at hn
    have h4' := (h4 (by omega))
    refine ⟨es, h2, h3, hn, ?_⟩
    have e := h4'.2.1
    rw [hm] at e
    rw [List.length_map] at e
    rw [← Option.some.inj e]; exact hlt
  · rintro ⟨es', e2, e3, e4, e5⟩
    have hp : es'.Perm es := (List.perm_ext_iff_of_nodup e2 h2).2 fun a => by
      obtain ⟨i, j⟩ := a; rw [e3, h3]
    have hl := hp.length_eq
    have h4' := h4 (by omega)
    refine ⟨⟨_, h4'.2.1, ?_⟩, by rw [h5]; omega⟩
    rw [List.length_map, ← hl, ← (hp.map _).sum_eq]
    exact e5

set_option maxHeartbeats 1600000 in
/-- **C44** (decision) For every program state, feature database built by any history, options with positive noise multiplier and image time, provided the
selected readings are in time order: the updater returns; it accepts exactly when there are readings, the image is not at the state's time, at least two readings were selected,
and either more than twenty features are seen in both images with a mean displacement below the bound, or the whitened residual's Mahalanobis distance is at most the scaled
quantile and the speed at most the bound.  When it declines the state and the database are untouched, and if it declined after evaluating the measurements its count of
accepted images in a row restarts from zero. When it accepts the result is the Kalman update
of the bias-walk-grown state by the whole (uncompressed) whitened stack, with the time moved to the image time; if the two previous images were accepted too the measurements at the last one are
dropped from the database. The result is a program state again. -/
theorem C44_zero_velocity (hlib : St.Spec.LibOK lib) (hs : St.Spec.ProgOK lib o s) (Z : ZCfg) (hm : 0 < Z.mult) (mem : ZMem) (buf : List Reading)
    {hist : Hist ℝ Uv} {db : DB ℝ Uv} (hdb : hist.run = some db) (t : ℝ) {off : ℝ} {c : Cal} {x f : Imu16} (hoff : tOff s = some off)
    (hc : calOf s = some c) (hx : imuOf s = some (x, f))
    (hsp : Imu.Spec.Spaced (select buf (s.ts + mem.off.getD off) (t + off))) :
    let data := select buf (s.ts + mem.off.getD off) (t + off)
    let N := 6 * (data.length - 1)
    let H := zH Z.noise (if Z.fej then quat2Rot f.q else quat2Rot x.q) data
    let r := zRes s.opts.kalibr Z.noise c x data
    let cmp := Upd.compress N 9 H r
    ∃ b mem' s' db', tryUpdate lib Z mem buf db s t = some (b, mem', s', db') ∧ St.Spec.ProgOK lib o s' ∧
      (b = true ↔ buf ≠ [] ∧ s.ts ≠ t ∧ 2 ≤ data.length ∧ (Spec.SmallMotion db s.ts t Z.maxDisp ∨
        (Spec.dist2 s Z.noise (dtSum data) Z.mult (min N 9) cmp.2.1 cmp.2.2 ≤ Z.chiMult * lib.chi2 (min N 9) ∧ norm3 x.v ≤ Z.maxVel))) ∧
      (b = false → s' = s ∧ db' = db ∧ mem'.count = if buf ≠ [] ∧ s.ts ≠ t ∧ 2 ≤ data.length then 0 else mem.count) ∧
      (b = true → s'.ts = t ∧ s'.n = s.n ∧ s'.vars = s.vars ∧ s'.clones = s.clones ∧ s'.slam = s.slam ∧ (∀ u, (s'.obj u).id = (s.obj u).id ∧ (s'.obj u).fej = (s.obj u).fej) ∧
        (if 2 ≤ mem.count then cleanupMeasurementsExact db mem.last = some db' else db' = db) ∧
        mem' = ⟨t, mem.count + 1, some off⟩ ∧
        ∃ P1 s2, St.Spec.mat s.n s.n P1 = St.Spec.cov s + Spec.walkCov Z.noise (dtSum data) s.n ∧ St.Spec.ProgOK lib o { s with P := P1 } ∧
          update lib { s with P := P1 } zOrder ⟨N, 9, H⟩ ⟨N, r⟩ (Upd.Spec.iso N Z.mult) = some s2 ∧
          (∀ i j, i < s.n → j < s.n → s'.P i j = s2.P i j) ∧ ∀ u, Upd.Spec.SameVal (s2.obj u).val (s'.obj u).val) := by
  intro data N H r cmp
  unfold tryUpdate
  by_cases h1 : buf = []
  · rw [if_pos h1]
    exact ⟨_, _, _, _, rfl, hs, by simp [h1], fun _ => ⟨rfl, rfl, by simp [h1]⟩, by simp⟩
  rw [if_neg h1]
  by_cases h2 : s.ts = t
  · rw [if_pos h2]
    exact ⟨_, _, _, _, rfl, hs, by simp [h2], fun _ => ⟨rfl, rfl, by simp [h2]⟩, by simp⟩
  rw [if_neg h2, hc, hoff, hx]
  simp only [Option.bind_eq_bind, Option.bind_some]
  by_cases h3 : data.length < 2
  · rw [if_pos h3]
    refine ⟨_, _, _, _, rfl, hs, ?_, fun _ => ⟨rfl, rfl, by rw [if_neg fun h => by omega]⟩, by simp⟩
    simp only [Bool.false_eq_true, false_iff]
    rintro ⟨_, _, h, _⟩; omega
  rw [if_neg h3]
  have hsys : zSystem s Z c x f data = cmp := rfl
  have hrows : cmp.1 = min N 9 := (Upd.C31_information N 9 H r).1
  have hN : 6 ≤ N := by simp only [N]; omega
  rw [show zSystem s Z c x f (select buf (s.ts + mem.off.getD off) (t + off)) = cmp from rfl]
  rw [if_neg (by rw [hrows]; omega)]
  obtain ⟨hz, _, hn, _⟩ := prog_blocks hs.prog
  have hdt : 0 ≤ dtSum data := dtSum_nonneg _ hsp
  have hmarg : getMarginal s zOrder = some ⟨9, 9, margCov s.P Spec.blocks⟩ := by
    unfold getMarginal; rw [hz]; rfl
  obtain ⟨st, hst, hdisp⟩ := zDisp_iff hdb Z s.ts t
  rw [hmarg]
  simp only [Option.bind_some, hst]
  rw [show dtSum (select buf (s.ts + mem.off.getD off) (t + off)) = dtSum data from rfl, zChi2_eq hlib hs Z hm hdt]
  by_cases h4 : ¬ zDisp Z st ∧ (Z.chiMult * lib.chi2 cmp.1 < Spec.dist2 s Z.noise (dtSum data) Z.mult cmp.1 cmp.2.1 cmp.2.2 ∨ Z.maxVel < norm3 x.v)
  · rw [if_pos h4]
    refine ⟨_, _, _, _, rfl, hs, ?_, fun _ => ⟨rfl, rfl, by rw [if_pos ⟨h1, h2, by omega⟩]⟩, by simp⟩
    simp only [Bool.false_eq_true, false_iff]
    rintro ⟨_, _, _, h | ⟨h5, h6⟩⟩
    · exact h4.1 (hdisp.2 h)
    · rw [← hrows] at h5
      rcases h4.2 with h | h <;> linarith
  rw [if_neg h4]
  have hacc : Spec.SmallMotion db s.ts t Z.maxDisp ∨
        (Spec.dist2 s Z.noise (dtSum data) Z.mult (min N 9) cmp.2.1 cmp.2.2 ≤ Z.chiMult * lib.chi2 (min N 9) ∧ norm3 x.v ≤ Z.maxVel) := by
    by_cases hd : zDisp Z st
    · exact Or.inl (hdisp.1 hd)
    · right
      rw [← hrows]
      constructor
      · by_contra h; exact h4 ⟨hd, Or.inl (not_le.1 h)⟩
      · by_contra h; exact h4 ⟨hd, Or.inr (not_le.1 h)⟩
  obtain ⟨P1, hp1, hP1, hcov⟩ := bias_prop hlib hs Z.noise hdt
  obtain ⟨hz1, _, _, _⟩ := prog_blocks hP1.prog
  have hR1 : St.Spec.ReachOK lib { s with P := P1 } := by
    obtain ⟨ops, _, h2, h3⟩ := hP1; exact ⟨o, ops, h2, h3⟩
  obtain ⟨sA, sB, hA, hB, nA, nB, hP, hV⟩ := Upd.C31_same_update hlib hR1 zOrder hz1 N H r hm
  have hB' : update lib { s with P := P1 } zOrder ⟨cmp.1, 9, cmp.2.1⟩ ⟨cmp.1, cmp.2.2⟩ ⟨cmp.1, cmp.1, zR Z.mult⟩ = some sB := by
    rw [zR_iso]; exact hB
  have hprog : St.Spec.ProgOK lib o sB := by
    refine progOK_step hP1 (op := .update zOrder ⟨cmp.1, 9, cmp.2.1⟩ ⟨cmp.1, cmp.2.2⟩ ⟨cmp.1, cmp.1, zR Z.mult⟩) trivial ?_ hB'
    simp only [St.Spec.ArgsOK]
    rw [show zR Z.mult = (Upd.Spec.iso cmp.1 Z.mult).a by rw [← zR_iso]]
    exact ⟨iso_sym _ _, iso_pd _ hm⟩
  have hlm := update_lm (reach_inv hP1.prog.reach).nodup hB'
  obtain ⟨_, _, _, _, _, _, _, _, hids, _⟩ := C06_update_is_kalman hlib hR1 zOrder _ _ _ (iso_sym _ _) (iso_pd _ hm) hB
  have hfin := progOK_step hprog (op := .setTime t) trivial trivial (s' := { sB with ts := t }) rfl
  have hdb' : ∃ db', (if 2 ≤ mem.count then cleanupMeasurementsExact db mem.last = some db' else db' = db) := by
    split_ifs with h
    · obtain ⟨db', h, _⟩ := C17_cleanup_measurements_exact hist db hdb mem.last
      exact ⟨db', h⟩
    · exact ⟨db, rfl⟩
  obtain ⟨db', hd⟩ := hdb'
  simp only [hp1, Option.bind_some, hB']
  refine ⟨true, ⟨t, mem.count + 1, some off⟩, { sB with ts := t }, db', ?_, hfin, ?_, by simp, fun _ => ⟨rfl, nB, hlm.2.2.2.1, hlm.2.2.2.2.1, hlm.2.2.2.2.2, fun u => hids u, hd, rfl, P1, sA, hcov, hP1, hA, ?_, hV⟩⟩
  · split_ifs at hd ⊢ with h
    · rw [hd]; rfl
    · rw [hd]
  · simp only [true_iff]
    exact ⟨h1, h2, by omega, hacc⟩
  · intro i j hi hj; exact (hP i j hi hj).symm

end Verif.Vio
