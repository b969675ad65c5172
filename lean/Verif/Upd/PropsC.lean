import Verif.Upd.Props
import Verif.Upd.Anchor
import Verif.Land.Props

/-!
# Anchor changes (C29)
-/

set_option linter.unusedSimpArgs false

open Classical

namespace Verif.Upd

open Verif Mat Verif.Land Verif.Types Verif.Prop_ Finset

/-- re-anchoring is a change of coordinates of the same global point. -/
theorem moveAnchor_world {Ao co An cn : Pose} (h2 : IsUnitQ co.q) (h3 : IsUnitQ An.q) (h4 : IsUnitQ cn.q)
    (p : V3) : Spec.world An cn (moveAnchor Ao co An cn p) = Spec.world Ao co p := by
  have r2 : co.R.transpose * co.R = 1 := (quat2Rot_isRot h2).orth
  have r3 : An.R.transpose * An.R = 1 := (quat2Rot_isRot h3).orth
  have r4 : cn.R.transpose * cn.R = 1 := (quat2Rot_isRot h4).orth
  have c3 : ∀ x, An.R.transpose.mulVec (An.R.mulVec x) = x := fun x => by rw [Matrix.mulVec_mulVec, r3, Matrix.one_mulVec]
  have c4 : ∀ x, cn.R.transpose.mulVec (cn.R.mulVec x) = x := fun x => by rw [Matrix.mulVec_mulVec, r4, Matrix.one_mulVec]
  simp only [Spec.world, moveAnchor, camPose]
  simp only [Matrix.transpose_mul, ← Matrix.mulVec_mulVec, Matrix.mulVec_add, Matrix.mulVec_sub, Matrix.transpose_transpose, c3, c4]
  abel

theorem repJac_some {st : St} {f : Feat} {c : ℕ} {cal : Pose} {an : PoseE} (hr : Land.Spec.Anchored f.rep) (hc : f.ancCam = some c)
    (hcal : st.calib c = some cal) (han : st.clone f.ancT = some an) : ∃ j, repJac st f = some j := by
  obtain ⟨rep, obs, ac, at_, pA, pG, pGf⟩ := f
  simp only at *
  subst hc
  cases rep <;> simp only [Land.Spec.Anchored] at hr <;> simp only [repJac, hcal, han, Option.bind_eq_bind, Option.bind_some] <;> exact ⟨_, rfl⟩

theorem setFej_ok (l : Lm) (q : V3) (hd : l.dim = Land.Spec.dimOf l.rep) (hr : Land.Spec.Anchored l.rep) :
    ∃ l', l.setFromXyz q true = some l' ∧ l'.getXyz false = l.getXyz false ∧ l'.rep = l.rep ∧ l'.dim = l.dim := by
  obtain ⟨r, n, v, f, u, w⟩ := l
  cases r <;> simp only [Land.Spec.Anchored] at hr <;> simp only [Land.Spec.dimOf] at hd <;> simp at hd <;> subst hd <;>
    exact ⟨_, rfl, rfl, rfl, rfl⟩

theorem setVal_ok (l : Lm) (q : V3) (hd : l.dim = Land.Spec.dimOf l.rep) (hr : Land.Spec.Anchored l.rep) :
    ∃ l', l.setFromXyz q false = some l' ∧ l'.rep = l.rep ∧ l'.dim = l.dim ∧ l'.fej = l.fej := by
  obtain ⟨r, n, v, f, u, w⟩ := l
  cases r <;> simp only [Land.Spec.Anchored] at hr <;> simp only [Land.Spec.dimOf] at hd <;> simp at hd <;> subst hd <;>
    exact ⟨_, rfl, rfl, rfl, rfl⟩

theorem getXyz_some (l : Lm) (hr : Land.Spec.Anchored l.rep) (b : Bool) : ∃ p, l.getXyz b = some p := by
  obtain ⟨r, n, v, f, u, w⟩ := l
  cases r <;> simp only [Land.Spec.Anchored] at hr <;> exact ⟨_, rfl⟩

/-- everything about one re-anchoring in one place. -/
theorem anchor_unfold (st : St) (l : ALm) {oc nc : ℕ} {nt : ℝ} {ao an : PoseE} {co cn : Pose}
    (hr : Land.Spec.Anchored l.lm.rep) (hd : l.lm.dim = Land.Spec.dimOf l.lm.rep) (hc : l.cam = some oc) (hao : st.clone l.t = some ao)
    (han : st.clone nt = some an) (hco : st.calib oc = some co) (hcn : st.calib nc = some cn) :
    ∃ p pf jo jn lm1 lm2, l.lm.getXyz false = some p ∧ l.lm.getXyz true = some pf ∧
      repJac st ⟨l.lm.rep, [], some oc, l.t, p, 0, 0⟩ = some jo ∧
      repJac st ⟨l.lm.rep, [], some nc, nt, moveAnchor ao.val co an.val cn p, 0, 0⟩ = some jn ∧
      l.lm.setFromXyz (moveAnchor ao.val co an.val cn p) false = some lm1 ∧
      lm1.setFromXyz (moveAnchor ao.fej co an.fej cn pf) true = some lm2 ∧
      lm2.getXyz false = lm1.getXyz false ∧ lm1.rep = l.lm.rep ∧ lm1.dim = l.lm.dim ∧ lm2.rep = l.lm.rep ∧ lm2.dim = l.lm.dim ∧ lm1.fej = l.lm.fej ∧
      performAnchorChange st l nt nc = some ⟨⟨lm2, some nc, nt⟩, phiOrder jo.2 jn.2, jacobsize l.lm.rep,
        anchorPhi (phiOrder jo.2 jn.2) (jacobsize l.lm.rep) (hfInv l.lm.rep jn.1) jo.1 jo.2 jn.2⟩ := by
  obtain ⟨p, hp⟩ := getXyz_some l.lm hr false
  obtain ⟨pf, hpf⟩ := getXyz_some l.lm hr true
  obtain ⟨jo, hjo⟩ := repJac_some (f := ⟨l.lm.rep, [], some oc, l.t, p, 0, 0⟩) hr rfl hco hao
  obtain ⟨jn, hjn⟩ := repJac_some (f := ⟨l.lm.rep, [], some nc, nt, moveAnchor ao.val co an.val cn p, 0, 0⟩) hr rfl hcn han
  obtain ⟨lm1, h1, r1, d1, f1⟩ := setVal_ok l.lm (moveAnchor ao.val co an.val cn p) hd hr
  obtain ⟨lm2, h2, g2, r2, d2⟩ := setFej_ok lm1 (moveAnchor ao.fej co an.fej cn pf) (by rw [d1, r1, hd]) (by rw [r1]; exact hr)
  refine ⟨p, pf, jo, jn, lm1, lm2, hp, hpf, hjo, hjn, h1, h2, g2, r1, d1, r2.trans r1, d2.trans d1, f1, ?_⟩
  have hrel : ¬ isRelative l.lm.rep = false := by
    rw [Bool.not_eq_false]; exact (rel_anchored _).2 hr
  unfold performAnchorChange
  rw [if_neg hrel]
  simp only [hc, hp, hpf, hjo, hao, hco, han, hcn, hjn, h1, h2, Option.bind_eq_bind, Option.bind_some]

theorem inCam_world {A cal : Pose} (hA : IsUnitQ A.q) (hc : IsUnitQ cal.q) (p : V3) : Spec.inCam A cal (Spec.world A cal p) = p := by
  have r1 : A.R * A.R.transpose = 1 := (quat2Rot_isRot hA).orth'
  have r2 : cal.R * cal.R.transpose = 1 := (quat2Rot_isRot hc).orth'
  simp only [Spec.inCam, Spec.world, add_sub_cancel_right]
  rw [Matrix.mulVec_mulVec _ A.R, r1, Matrix.one_mulVec, Matrix.mulVec_mulVec, r2, Matrix.one_mulVec, sub_add_cancel]

/-- **C29** (position) Re-anchoring a landmark at a live clone and camera succeeds, keeps its representation and leaves its global position unchanged,
provided the point is one the representation can express in the new camera. -/
theorem C29_position (st : St) (hu : Spec.Units st) (l : ALm) {oc nc : ℕ} {nt : ℝ} {ao an : PoseE} {co cn : Pose}
    (hr : Land.Spec.Anchored l.lm.rep) (hd : l.lm.dim = Land.Spec.dimOf l.lm.rep) (hc : l.cam = some oc) (hao : st.clone l.t = some ao)
    (han : st.clone nt = some an) (hco : st.calib oc = some co) (hcn : st.calib nc = some cn) {p : V3} (hp : l.lm.getXyz false = some p)
    (hdom : Land.Spec.Dom l.lm.rep (Spec.inCam an.val cn (Spec.world ao.val co p))) :
    ∃ R p', performAnchorChange st l nt nc = some R ∧ R.lm.lm.getXyz false = some p' ∧ Spec.world an.val cn p' = Spec.world ao.val co p ∧
      R.lm.cam = some nc ∧ R.lm.t = nt ∧ R.lm.lm.rep = l.lm.rep ∧ R.lm.lm.dim = l.lm.dim := by
  obtain ⟨p1, pf, jo, jn, lm1, lm2, h1, h2, h3, h4, h5, h6, h7, h8, h9, h10, h11, -, h12⟩ := anchor_unfold st l hr hd hc hao han hco hcn
  obtain rfl : p1 = p := Option.some.inj (h1.symm.trans hp)
  have hw := moveAnchor_world (Ao := ao.val) (hu.2 _ _ hco) (hu.1 _ _ han).1 (hu.2 _ _ hcn) p1
  refine ⟨_, moveAnchor ao.val co an.val cn p1, h12, ?_, hw, rfl, rfl, h10, h11⟩
  rw [← hw, inCam_world (hu.1 _ _ han).1 (hu.2 _ _ hcn)] at hdom
  obtain ⟨l', e1, e2, -⟩ := C27_value_roundtrip l.lm _ hd hdom
  rw [h5] at e1
  obtain rfl := Option.some.inj e1
  exact h7.trans e2

/-- **C29** (first estimate) In the Cartesian and the spherical form the first estimate of the landmark is re-anchored in the same way, with the first
estimates of the two clones. -/
theorem C29_fej_position_partial (st : St) (hu : Spec.Units st) (l : ALm) {oc nc : ℕ} {nt : ℝ} {ao an : PoseE} {co cn : Pose}
    (hr : l.lm.rep = .anchored3d ∨ l.lm.rep = .anchoredFull) (hd : l.lm.dim = Land.Spec.dimOf l.lm.rep) (hc : l.cam = some oc)
    (hao : st.clone l.t = some ao) (han : st.clone nt = some an) (hco : st.calib oc = some co) (hcn : st.calib nc = some cn) {p : V3}
    (hp : l.lm.getXyz true = some p) (hdom : Land.Spec.Dom l.lm.rep (Spec.inCam an.fej cn (Spec.world ao.fej co p))) :
    ∃ R p', performAnchorChange st l nt nc = some R ∧ R.lm.lm.getXyz true = some p' ∧ Spec.world an.fej cn p' = Spec.world ao.fej co p := by
  have hra : Land.Spec.Anchored l.lm.rep := by rcases hr with h | h <;> rw [h] <;> trivial
  obtain ⟨p1, pf, jo, jn, lm1, lm2, h1, h2, h3, h4, h5, h6, h7, h8, h9, h10, h11, -, h12⟩ := anchor_unfold st l hra hd hc hao han hco hcn
  obtain rfl : pf = p := Option.some.inj (h2.symm.trans hp)
  have hw := moveAnchor_world (Ao := ao.fej) (hu.2 _ _ hco) (hu.1 _ _ han).2 (hu.2 _ _ hcn) pf
  refine ⟨_, moveAnchor ao.fej co an.fej cn pf, h12, ?_, hw⟩
  rw [← hw, inCam_world (hu.1 _ _ han).2 (hu.2 _ _ hcn)] at hdom
  obtain ⟨l', e1, e2, -⟩ := C27_fej_roundtrip_partial lm1 _ (by rw [h9, h8, hd]) (by rw [h8]; exact hdom) (by rw [h8]; rcases hr with h | h <;> simp [h])
  rw [h6] at e1
  obtain rfl := Option.some.inj e1
  exact e2

/-! ## the covariance transition -/

theorem fold_addB {sz d : ℕ} (g : Var → ℕ) (F : Matrix (Fin 3) (Fin 6) ℝ → Matrix (Fin 3) (Fin 6) ℝ) (s : ℕ → ℝ) (a : Fin 3) (ha : (a : ℕ) < sz) :
    ∀ (xs : List (Var × Matrix (Fin 3) (Fin 6) ℝ)) (M : Mat), (∀ x ∈ xs, g x.1 + 6 ≤ d) →
      ∑ j ∈ range d, (xs.foldl (fun P x => addBlock 0 (g x.1) sz 6 (extM (F x.2)) P) M) a j * s j =
        (xs.map fun x => (F x.2).mulVec (fun k => s (g x.1 + k)) a).sum + ∑ j ∈ range d, M a j * s j
  | [], M, _ => by simp
  | x :: xs, M, h => by
    rw [List.foldl_cons, fold_addB g F s a ha xs _ (fun y hy => h y (by simp [hy])),
      sum_addBlock s ⟨by omega, by omega⟩ (h x (by simp)), Nat.sub_zero, sum_extM _ (fun k => s (g x.1 + k))]
    simp only [List.map_cons, List.sum_cons]
    ring

theorem fold_addB_col {sz i j : ℕ} (g : Var → ℕ) (F : Matrix (Fin 3) (Fin 6) ℝ → Matrix (Fin 3) (Fin 6) ℝ) :
    ∀ (xs : List (Var × Matrix (Fin 3) (Fin 6) ℝ)) (M : Mat), (∀ x ∈ xs, ¬ (g x.1 ≤ j ∧ j < g x.1 + 6)) →
      (xs.foldl (fun P x => addBlock 0 (g x.1) sz 6 (extM (F x.2)) P) M) i j = M i j
  | [], _, _ => rfl
  | x :: xs, M, h => by
    rw [List.foldl_cons, fold_addB_col g F xs _ (fun y hy => h y (by simp [hy])), addBlock_col (h x (by simp))]

namespace Spec

/-- the error vector of the listed variables followed by that of the landmark. -/
noncomputable def withLandmark (δ : Var → ℕ → ℝ) (o : List Var) (dl : V3) (k : ℕ) : ℝ :=
  if k < total o then stack δ o k else extV dl (k - total o)

/-- what a transition matrix of `n` rows makes of an error vector of length `d`, as the error of a landmark parameter. -/
noncomputable def applyPhi (Phi : Mat) (n d : ℕ) (x : ℕ → ℝ) : V3 := fun a => if (a : ℕ) < n then ∑ k ∈ range d, Phi a k * x k else 0

end Spec

theorem phiOrder_mem (xo xn : List (Var × Matrix (Fin 3) (Fin 6) ℝ)) : (phiOrder xo xn).Nodup ∧
    ∀ v, v ∈ phiOrder xo xn ↔ (∃ x ∈ xo, x.1 = v) ∨ ∃ x ∈ xn, x.1 = v := by
  have gen : ∀ (xs : List (Var × Matrix (Fin 3) (Fin 6) ℝ)) (o : List Var), o.Nodup →
      (xs.foldl (fun o x => addVar o x.1) o).Nodup ∧ ∀ v, v ∈ xs.foldl (fun o x => addVar o x.1) o ↔ v ∈ o ∨ ∃ x ∈ xs, x.1 = v := by
    intro xs
    induction xs with
    | nil => intro o h; exact ⟨h, by simp⟩
    | cons x xs ih =>
      intro o h
      obtain ⟨h1, h2⟩ := ih _ (addVar_nodup h x.1)
      refine ⟨h1, fun v => ?_⟩
      rw [List.foldl_cons, h2, mem_addVar, @eq_comm _ v x.1]
      simp [or_assoc]
  obtain ⟨h1, h2⟩ := gen xo [] List.nodup_nil
  obtain ⟨h3, h4⟩ := gen xn _ h1
  exact ⟨h3, fun v => by rw [phiOrder, h4, h2]; simp⟩

/-- the new landmark error is `H_new⁻¹ (H_old dl + old terms − new terms)`. -/
theorem anchorPhi_apply {order : List Var} {sz : ℕ} (Hi Hfo : M3) (xo xn : List (Var × Matrix (Fin 3) (Fin 6) ℝ)) (δ : Var → ℕ → ℝ) (dl : V3)
    (hsz : sz = 3 ∨ sz = 1 ∧ ∀ i, Hfo i 1 = 0 ∧ Hfo i 2 = 0)
    (ho : ∀ x ∈ xo, x.1 ∈ order ∧ x.1.size = 6) (hn : ∀ x ∈ xn, x.1 ∈ order ∧ x.1.size = 6) (a : Fin 3) (ha : (a : ℕ) < sz) :
    ∑ k ∈ range (total order + sz), anchorPhi order sz Hi Hfo xo xn a k * Spec.withLandmark δ order dl k =
      Hi.mulVec (Hfo.mulVec dl + (xo.map fun x => x.2.mulVec (fun i => δ x.1 i)).sum - (xn.map fun x => x.2.mulVec (fun i => δ x.1 i)).sum) a := by
  have hs : ∀ x : Var × Matrix (Fin 3) (Fin 6) ℝ, x.1 ∈ order ∧ x.1.size = 6 → ∀ k : Fin 6,
      Spec.withLandmark δ order dl (off order x.1 + k) = δ x.1 k := by
    intro x hx k
    have h1 := off_le hx.1
    have h2 := k.2
    rw [hx.2] at h1
    rw [Spec.withLandmark, if_pos (by omega), stack_off (by rw [hx.2]; exact h2) hx.1]
  have hb : ∀ x : Var × Matrix (Fin 3) (Fin 6) ℝ, x.1 ∈ order ∧ x.1.size = 6 → off order x.1 + 6 ≤ total order + sz := by
    intro x hx
    have h1 := off_le hx.1
    rw [hx.2] at h1
    omega
  have hlin : ∀ (F : Matrix (Fin 3) (Fin 6) ℝ → Matrix (Fin 3) (Fin 6) ℝ) (M : M3) (_ : ∀ B, F B = M * B)
      (xs : List (Var × Matrix (Fin 3) (Fin 6) ℝ)) (_ : ∀ x ∈ xs, x.1 ∈ order ∧ x.1.size = 6),
      (xs.map fun x => (F x.2).mulVec (fun k => Spec.withLandmark δ order dl (off order x.1 + k)) a).sum =
        M.mulVec ((xs.map fun x => x.2.mulVec (fun i => δ x.1 i)).sum) a := by
    intro F M hF xs
    induction xs with
    | nil => simp
    | cons x xs ih =>
      intro h
      simp only [List.map_cons, List.sum_cons, Matrix.mulVec_add, Pi.add_apply]
      rw [ih (fun y hy => h y (by simp [hy])), hF, Matrix.mulVec_mulVec]
      simp only [hs x (h x (by simp))]
  unfold anchorPhi
  rw [fold_addB (off order) (fun B => -(Hi * B)) _ a ha xn _ (fun x hx => hb x (hn x hx)),
    sum_setBlock _ ⟨by omega, by omega⟩ le_rfl, fold_addB (off order) (fun B => Hi * B) _ a ha xo _ (fun x hx => hb x (ho x hx)),
    hlin (fun B => -(Hi * B)) (-Hi) (fun B => by rw [Matrix.neg_mul]) xn hn, hlin (fun B => Hi * B) Hi (fun B => rfl) xo ho]
  · have hl : ∑ j ∈ range sz, extM (Hi * Hfo) ((a : ℕ) - 0) j * Spec.withLandmark δ order dl (total order + j) = (Hi * Hfo).mulVec dl a := by
      have e : ∀ j : ℕ, Spec.withLandmark δ order dl (total order + j) = extV dl j := by
        intro j
        rw [Spec.withLandmark, if_neg (by omega), Nat.add_sub_cancel_left]
      simp only [e, Nat.sub_zero]
      rcases hsz with rfl | ⟨rfl, hz⟩
      · rw [sum_extM (Hi * Hfo) (extV dl)]
        congr 1
        funext j
        simp [extV]
      · have z : ∀ i, (Hi * Hfo) i 1 = 0 ∧ (Hi * Hfo) i 2 = 0 := by
          intro i
          simp [Matrix.mul_apply, Fin.sum_univ_succ, hz]
        have h0 : extM (Hi * Hfo) (a : ℕ) 0 = (Hi * Hfo) a 0 := by simp [extM]
        simp [h0, extV, Matrix.mulVec, dotProduct, Fin.sum_univ_succ, z]
    rw [hl]
    simp only [Matrix.neg_mulVec, Matrix.mulVec_sub, Matrix.mulVec_add, ← Matrix.mulVec_mulVec, Pi.add_apply, Pi.sub_apply, Pi.neg_apply, zero_mul,
      sum_const_zero]
    ring
  · intro j h1 h2
    rw [fold_addB_col (off order) (fun B => Hi * B)]
    intro x hx h3
    have h4 := off_le (ho x hx).1
    rw [(ho x hx).2] at h4
    omega

theorem lamJac_det {r : Rep} {b l : V3} (h : Spec.Chart r b l) (hs : r ≠ .anchoredSingle) : (lamJac r (Spec.xyz r b l)).det ≠ 0 := by
  have full : 0 < l 2 → 0 < Real.sin (l 1) → (fullJac (Spec.xyz .globalFull 0 l)).det ≠ 0 := by
    intro h1 h2
    obtain ⟨e1, e2, e3, e4, e5⟩ := toFull_trig h1 h2
    have d : (fullJac (Spec.xyz .globalFull 0 l)).det = Real.sin (l 1) / l 2 ^ 4 := by
      rw [Matrix.det_fin_three]
      simp only [fullJac, e1, e2, e3, e4, e5]
      have p1 := Real.sin_sq_add_cos_sq (l 0)
      have p2 := Real.sin_sq_add_cos_sq (l 1)
      simp
      generalize Real.sin (l 0) = s0 at *
      generalize Real.cos (l 0) = c0 at *
      generalize Real.sin (l 1) = s1 at *
      generalize Real.cos (l 1) = c1 at *
      generalize l 2 = r at *
      have hr : r ≠ 0 := h1.ne'
      field_simp
      grind
    rw [d]
    positivity
  cases r <;> simp only [Spec.Chart] at h
  · simp [lamJac]
  · exact full h.1 h.2
  · simp [lamJac]
  · exact full h.1 h.2
  · rw [Matrix.det_fin_three]
    simp [lamJac, msckfJac, toMsckf, Spec.xyz, h]
  · exact absurd rfl hs

theorem HasDv.uniq {f : ℝ → V3} {a b : V3} (h1 : HasDv f a) (h2 : HasDv f b) : a = b := funext fun i => (h1 i).unique (h2 i)

/-- the landmark Jacobian, as a product. -/
theorem hf_eq {A cal : Pose} (hA : IsUnitQ A.q) (hc : IsUnitQ cal.q) {r : Rep} {b l : V3} (hl : Spec.Chart r b l) {Hf : M3}
    {Ha Hc : Matrix (Fin 3) (Fin 6) ℝ} (h : ∀ (dA dc : ℕ → ℝ) (dl : V3), HasDv (fun e => Spec.world (A.update (fun i => e * dA i))
          (cal.update (fun i => e * dc i)) (Spec.xyz r b (l + e • dl)))
        (Hf.mulVec dl + Ha.mulVec (fun i => dA i) + Hc.mulVec (fun i => dc i))) :
    Hf = A.R.transpose * cal.R.transpose * lamJac r (Spec.xyz r b l) := by
  apply Matrix.ext_of_mulVec_single
  intro i
  have e := HasDv.uniq (h (fun _ => 0) (fun _ => 0) (Pi.single i 1)) (world_deriv hA hc (fun _ => 0) (fun _ => 0) (lamJac_deriv (Pi.single i 1) hl))
  have z : (fun _ : Fin 6 => (0:ℝ)) = 0 := rfl
  rw [← Matrix.mulVec_mulVec]
  simpa only [z, Matrix.mulVec_zero, add_zero] using e

theorem phi_core (st : St) (hu : Spec.Units st) (l : ALm) {oc nc : ℕ} {nt : ℝ} {ao an : PoseE} {co cn : Pose}
    (hr : Land.Spec.Anchored l.lm.rep) (hd : l.lm.dim = Land.Spec.dimOf l.lm.rep) (hc : l.cam = some oc)
    (hao : st.clone l.t = some ao) (han : st.clone nt = some an) (hco : st.calib oc = some co) (hcn : st.calib nc = some cn)
    {p : V3} (hp : l.lm.getXyz false = some p) {R : AChange} (hR : performAnchorChange st l nt nc = some R) {bo lo bn ln : V3}
    (hlo : Spec.Chart l.lm.rep bo lo) (hln : Spec.Chart l.lm.rep bn ln)
    (ho : Spec.world (if st.doFej then ao.fej else ao.val) co (Spec.xyz l.lm.rep bo lo) = Spec.world ao.val co p)
    (hn : Spec.world (if st.doFej then an.fej else an.val) cn (Spec.xyz l.lm.rep bn ln) = Spec.world ao.val co p)
    (δ : Var → ℕ → ℝ) (dl : V3) (hδ : st.doPose = false → ∀ c k, δ (.calib c) k = 0) :
    R.order.Nodup ∧ R.size = l.lm.dim ∧ ∃ (Do Xn : V3) (Hn : M3),
      Hn = (if st.doFej then an.fej else an.val).R.transpose * cn.R.transpose * lamJac l.lm.rep (Spec.xyz l.lm.rep bn ln) ∧
      HasDv (fun e => Spec.world ((if st.doFej then ao.fej else ao.val).update (fun i => e * δ (.clone l.t) i))
        (co.update (fun i => e * δ (.calib oc) i)) (Spec.xyz l.lm.rep bo (lo + e • dl))) Do ∧
      (∀ dn, HasDv (fun e => Spec.world ((if st.doFej then an.fej else an.val).update (fun i => e * δ (.clone nt) i))
        (cn.update (fun i => e * δ (.calib nc) i)) (Spec.xyz l.lm.rep bn (ln + e • dn))) (Hn.mulVec dn + Xn)) ∧
      Spec.applyPhi R.Phi R.size (total R.order + R.size) (Spec.withLandmark δ R.order dl) =
        fun a : Fin 3 => if (a : ℕ) < l.lm.dim then (hfInv l.lm.rep Hn).mulVec (Do - Xn) a else 0 := by
  obtain ⟨p1, pf, jo, jn, lm1, lm2, h1, h2, h3, h4, h5, h6, h7, h8, h9, h10, h11, -, h12⟩ := anchor_unfold st l hr hd hc hao han hco hcn
  obtain rfl : p1 = p := Option.some.inj (h1.symm.trans hp)
  obtain rfl := Option.some.inj (h12.symm.trans hR)
  have hw := moveAnchor_world (Ao := ao.val) (hu.2 _ _ hco) (hu.1 _ _ han).1 (hu.2 _ _ hcn) p1
  obtain ⟨Ho, Hao, Hco, g1, g2, g3⟩ := C34_anchored_partial st ⟨l.lm.rep, [], some oc, l.t, p1, 0, 0⟩ hr rfl hco hao hu hlo ho
  obtain ⟨Hn, Han, Hcn, k1, -, k3⟩ := C34_anchored_partial st ⟨l.lm.rep, [], some nc, nt, moveAnchor ao.val co an.val cn p1, 0, 0⟩ hr rfl hcn han hu hln
    (by rw [hn]; exact hw.symm)
  obtain rfl := Option.some.inj (h3.symm.trans g1)
  obtain rfl := Option.some.inj (h4.symm.trans k1)
  have hsz : jacobsize l.lm.rep = l.lm.dim := by
    rw [hd]; revert hr; cases l.lm.rep <;> simp [Land.Spec.dimOf, Land.Spec.Anchored, jacobsize]
  have h13 : l.lm.dim = 3 ∨ l.lm.dim = 1 ∧ ∀ i, Ho i 1 = 0 ∧ Ho i 2 = 0 := by
    rcases Nat.lt_or_ge (jacobsize l.lm.rep) 2 with h | h
    · have h1 : jacobsize l.lm.rep = 1 := by unfold jacobsize at h ⊢; split_ifs at h ⊢; rfl; omega
      exact Or.inr ⟨by omega, g2 h1⟩
    · left; unfold jacobsize at h hsz; split_ifs at h hsz <;> omega
  have hAu : IsUnitQ (if st.doFej then an.fej else an.val).q := by split_ifs; exacts [(hu.1 _ _ han).2, (hu.1 _ _ han).1]
  refine ⟨(phiOrder_mem _ _).1, hsz, _, Han.mulVec (fun i => δ (.clone nt) i) + Hcn.mulVec (fun i => δ (.calib nc) i), Hn,
    hf_eq hAu (hu.2 _ _ hcn) hln k3, g3 (δ (.clone l.t)) (δ (.calib oc)) dl,
    fun dn => (k3 (δ (.clone nt)) (δ (.calib nc)) dn).congr' (by abel), ?_⟩
  have sums : ∀ (t : ℝ) (c : ℕ) (Ha Hc : Matrix (Fin 3) (Fin 6) ℝ),
      (((Var.clone t, Ha) :: (if st.doPose then [(Var.calib c, Hc)] else [])).map fun x => x.2.mulVec (fun i => δ x.1 i)).sum =
        Ha.mulVec (fun i => δ (.clone t) i) + Hc.mulVec (fun i => δ (.calib c) i) := by
    intro t c Ha Hc
    by_cases hd : st.doPose = true
    · simp [hd]
    · have z : (fun i : Fin 6 => δ (.calib c) i) = 0 := funext fun i => hδ (by simpa using hd) c i
      simp [hd, z]
  have vars : ∀ (t : ℝ) (c : ℕ) (Ha Hc : Matrix (Fin 3) (Fin 6) ℝ), ∀ x ∈ (Var.clone t, Ha) :: (if st.doPose then [(Var.calib c, Hc)] else []),
      x.1.size = 6 := by
    intro t c Ha Hc x hx
    by_cases hd : st.doPose = true
    · simp [hd] at hx; rcases hx with rfl | rfl <;> rfl
    · simp [hd] at hx; subst hx; rfl
  have happ : ∀ xo xn : List (Var × Matrix (Fin 3) (Fin 6) ℝ), (∀ x ∈ xo, x.1.size = 6) → (∀ x ∈ xn, x.1.size = 6) →
      Spec.applyPhi (anchorPhi (phiOrder xo xn) (jacobsize l.lm.rep) (hfInv l.lm.rep Hn) Ho xo xn) (jacobsize l.lm.rep)
        (total (phiOrder xo xn) + jacobsize l.lm.rep) (Spec.withLandmark δ (phiOrder xo xn) dl) =
      fun a : Fin 3 => if (a : ℕ) < l.lm.dim then (hfInv l.lm.rep Hn).mulVec
        (Ho.mulVec dl + (xo.map fun x => x.2.mulVec (fun i => δ x.1 i)).sum - (xn.map fun x => x.2.mulVec (fun i => δ x.1 i)).sum) a else 0 := by
    intro xo xn ho hn
    funext a
    unfold Spec.applyPhi
    rw [hsz]
    by_cases ha : (a : ℕ) < l.lm.dim
    · rw [if_pos ha, if_pos ha, anchorPhi_apply _ _ _ _ δ dl h13 _ _ a ha]
      · exact fun x hx => ⟨((phiOrder_mem _ _).2 _).2 (Or.inl ⟨x, hx, rfl⟩), ho x hx⟩
      · exact fun x hx => ⟨((phiOrder_mem _ _).2 _).2 (Or.inr ⟨x, hx, rfl⟩), hn x hx⟩
    · rw [if_neg ha, if_neg ha]
  rw [happ _ _ (vars _ _ _ _) (vars _ _ _ _), sums, sums]
  funext a
  congr 3
  abel

/-- **C80** The matrix handed to the covariance propagation expresses, to first order, the landmark in its new anchor as the same global point:
whatever the errors `δ` of the poses and `dl` of the landmark, perturbing the old parameters by `dl` and the new ones by the matrix's image of
`(δ, dl)` moves the landmark's global position in the same way. The linearisation point is the one of C34. The calibration is perturbed only if it is
estimated. -/
theorem C80_covariance (st : St) (hu : Spec.Units st) (l : ALm) {oc nc : ℕ} {nt : ℝ} {ao an : PoseE} {co cn : Pose}
    (hr : Land.Spec.Anchored l.lm.rep) (hs : l.lm.rep ≠ .anchoredSingle) (hd : l.lm.dim = Land.Spec.dimOf l.lm.rep) (hc : l.cam = some oc)
    (hao : st.clone l.t = some ao) (han : st.clone nt = some an) (hco : st.calib oc = some co) (hcn : st.calib nc = some cn)
    {p : V3} (hp : l.lm.getXyz false = some p) {R : AChange} (hR : performAnchorChange st l nt nc = some R) {bo lo bn ln : V3}
    (hlo : Spec.Chart l.lm.rep bo lo) (hln : Spec.Chart l.lm.rep bn ln)
    (ho : Spec.world (if st.doFej then ao.fej else ao.val) co (Spec.xyz l.lm.rep bo lo) = Spec.world ao.val co p)
    (hn : Spec.world (if st.doFej then an.fej else an.val) cn (Spec.xyz l.lm.rep bn ln) = Spec.world ao.val co p)
    (δ : Var → ℕ → ℝ) (dl : V3) (hδ : st.doPose = false → ∀ c k, δ (.calib c) k = 0) :
    R.order.Nodup ∧ R.size = l.lm.dim ∧ ∃ D : V3,
      HasDv (fun e => Spec.world ((if st.doFej then ao.fej else ao.val).update (fun i => e * δ (.clone l.t) i))
        (co.update (fun i => e * δ (.calib oc) i)) (Spec.xyz l.lm.rep bo (lo + e • dl))) D ∧
      HasDv (fun e => Spec.world ((if st.doFej then an.fej else an.val).update (fun i => e * δ (.clone nt) i))
        (cn.update (fun i => e * δ (.calib nc) i)) (Spec.xyz l.lm.rep bn
          (ln + e • Spec.applyPhi R.Phi R.size (total R.order + R.size) (Spec.withLandmark δ R.order dl)))) D := by
  obtain ⟨h1, h2, Do, Xn, Hn, h3, h4, h5, h6⟩ := phi_core st hu l hr hd hc hao han hco hcn hp hR hlo hln ho hn δ dl hδ
  refine ⟨h1, h2, Do, h4, (h5 _).congr' ?_⟩
  have hdet : IsUnit Hn.det := by
    have hAu : IsUnitQ (if st.doFej then an.fej else an.val).q := by split_ifs; exacts [(hu.1 _ _ han).2, (hu.1 _ _ han).1]
    rw [h3, Matrix.det_mul, Matrix.det_mul, Matrix.det_transpose, Matrix.det_transpose]
    rw [show (if st.doFej then an.fej else an.val).R.det = 1 from (quat2Rot_isRot hAu).det, show cn.R.det = 1 from (quat2Rot_isRot (hu.2 _ _ hcn)).det,
      one_mul, one_mul, isUnit_iff_ne_zero]
    exact lamJac_det hln hs
  have h3 : l.lm.dim = 3 := by rw [hd]; revert hr hs; cases l.lm.rep <;> simp [Land.Spec.dimOf, Land.Spec.Anchored]
  have e : (fun a : Fin 3 => if (a : ℕ) < l.lm.dim then (hfInv l.lm.rep Hn).mulVec (Do - Xn) a else 0) = Hn⁻¹.mulVec (Do - Xn) := by
    funext a
    rw [h3, if_pos a.2, hfInv, if_neg hs]
  rw [h6, e, Matrix.mulVec_mulVec, Matrix.mul_nonsing_inv _ hdet, Matrix.one_mulVec, sub_add_cancel]

/-- **C80** (single inverse depth, partial) A single depth cannot follow every motion of the point. The new depth's error reproduces the component of
the motion along the new viewing ray `u`; the components across the ray are not represented, because the bearing is not part of the state. -/
theorem C80_covariance_single_partial (st : St) (hu : Spec.Units st) (l : ALm) {oc nc : ℕ} {nt : ℝ} {ao an : PoseE} {co cn : Pose}
    (hs : l.lm.rep = .anchoredSingle) (hd : l.lm.dim = 1) (hc : l.cam = some oc)
    (hao : st.clone l.t = some ao) (han : st.clone nt = some an) (hco : st.calib oc = some co) (hcn : st.calib nc = some cn)
    {p : V3} (hp : l.lm.getXyz false = some p) {R : AChange} (hR : performAnchorChange st l nt nc = some R) {bo lo bn ln : V3}
    (hlo : Spec.Chart l.lm.rep bo lo) (hln : Spec.Chart l.lm.rep bn ln)
    (ho : Spec.world (if st.doFej then ao.fej else ao.val) co (Spec.xyz l.lm.rep bo lo) = Spec.world ao.val co p)
    (hn : Spec.world (if st.doFej then an.fej else an.val) cn (Spec.xyz l.lm.rep bn ln) = Spec.world ao.val co p)
    (δ : Var → ℕ → ℝ) (dl : V3) (hδ : st.doPose = false → ∀ c k, δ (.calib c) k = 0) :
    R.order.Nodup ∧ R.size = 1 ∧ ∃ Do Dn u : V3,
      HasDv (fun e => Spec.world ((if st.doFej then ao.fej else ao.val).update (fun i => e * δ (.clone l.t) i))
        (co.update (fun i => e * δ (.calib oc) i)) (Spec.xyz l.lm.rep bo (lo + e • dl))) Do ∧
      HasDv (fun e => Spec.world ((if st.doFej then an.fej else an.val).update (fun i => e * δ (.clone nt) i))
        (cn.update (fun i => e * δ (.calib nc) i)) (Spec.xyz l.lm.rep bn
          (ln + e • Spec.applyPhi R.Phi R.size (total R.order + R.size) (Spec.withLandmark δ R.order dl)))) Dn ∧
      HasDv (fun e => Spec.world (if st.doFej then an.fej else an.val) cn (Spec.xyz l.lm.rep bn (ln + e • ![1, 0, 0]))) u ∧ u ≠ 0 ∧
      u ⬝ᵥ Dn = u ⬝ᵥ Do := by
  have hr : Land.Spec.Anchored l.lm.rep := by rw [hs]; trivial
  obtain ⟨h1, h2, Do, Xn, Hn, h3, h4, h5, h6⟩ := phi_core st hu l hr (by rw [hd, hs]; rfl) hc hao han hco hcn hp hR hlo hln ho hn δ dl hδ
  have hAu : IsUnitQ (if st.doFej then an.fej else an.val).q := by split_ifs; exacts [(hu.1 _ _ han).2, (hu.1 _ _ han).1]
  generalize hA : (if st.doFej then an.fej else an.val) = A at *
  have hcu := hu.2 _ _ hcn
  have hu' : HasDv (fun e => Spec.world A cn (Spec.xyz l.lm.rep bn (ln + e • ![1, 0, 0]))) (Hn.mulVec ![1, 0, 0]) := by
    have hx := lamJac_deriv ![1, 0, 0] hln
    rw [h3, ← Matrix.mulVec_mulVec, ← Matrix.mulVec_mulVec]
    have := (((hx.sub (HasDv.const cn.p)).mulc cn.R.transpose).mulc A.R.transpose).add (HasDv.const A.p)
    simpa [Spec.world] using this
  have hz : ∀ i, Hn i 1 = 0 ∧ Hn i 2 = 0 := by
    intro i
    rw [h3, hs]
    simp [lamJac, singleJac, Matrix.mul_apply, Fin.sum_univ_succ]
  have hne : Hn.mulVec ![1, 0, 0] ≠ 0 := by
    intro h0
    have r1 : A.R * A.R.transpose = 1 := (quat2Rot_isRot hAu).orth'
    have r2 : cn.R * cn.R.transpose = 1 := (quat2Rot_isRot hcu).orth'
    have h7 : (lamJac l.lm.rep (Spec.xyz l.lm.rep bn ln)).mulVec ![1, 0, 0] = 0 := by
      have h8 := congrArg (fun v => cn.R.mulVec (A.R.mulVec v)) h0
      simp only [h3, Matrix.mulVec_zero] at h8
      rwa [← Matrix.mulVec_mulVec, ← Matrix.mulVec_mulVec, Matrix.mulVec_mulVec _ A.R, r1, Matrix.one_mulVec, Matrix.mulVec_mulVec _ cn.R, r2,
        Matrix.one_mulVec] at h8
    have h9 := congrFun h7 2
    rw [hs] at hln h9
    obtain ⟨h10, h11⟩ := hln
    simp [lamJac, singleJac, Matrix.mulVec, dotProduct, Fin.sum_univ_succ, Spec.xyz, h11, h10] at h9
  refine ⟨h1, h2.trans hd, Do, _, Hn.mulVec ![1, 0, 0], h4, h5 _, hu', hne, ?_⟩
  rw [h6, hd]
  have hq : Hn 0 0 ^ 2 + Hn 1 0 ^ 2 + Hn 2 0 ^ 2 ≠ 0 := by
    intro h0
    apply hne
    have a0 : Hn 0 0 = 0 := by nlinarith [sq_nonneg (Hn 0 0), sq_nonneg (Hn 1 0), sq_nonneg (Hn 2 0)]
    have a1 : Hn 1 0 = 0 := by nlinarith [sq_nonneg (Hn 0 0), sq_nonneg (Hn 1 0), sq_nonneg (Hn 2 0)]
    have a2 : Hn 2 0 = 0 := by nlinarith [sq_nonneg (Hn 0 0), sq_nonneg (Hn 1 0), sq_nonneg (Hn 2 0)]
    funext i
    fin_cases i <;> simp [Matrix.mulVec, dotProduct, Fin.sum_univ_succ, a0, a1, a2, hz]
  simp [hfInv, hs, Matrix.mulVec, dotProduct, Fin.sum_univ_succ, hz, Matrix.smul_apply]
  field_simp
  ring

/-! ## anchors are always live -/

namespace Spec

/-- a landmark after some updates: its parameters may have changed, its form and anchor have not. -/
def Same (a b : ALm) : Prop := b.lm.rep = a.lm.rep ∧ b.lm.dim = a.lm.dim ∧ b.cam = a.cam ∧ b.t = a.t

/-- a landmark that was just created: a known form of the right dimension and, if relative, anchored in one of the clones by a calibrated camera. -/
def Fresh (st : St) (times : List ℝ) (l : ALm) : Prop :=
  l.lm.rep ≠ .unknown ∧ l.lm.dim = Land.Spec.dimOf l.lm.rep ∧
    (Land.Spec.Anchored l.lm.rep → l.t ∈ times ∧ ∃ c, l.cam = some c ∧ (st.calib c).isSome)

/-- what the rest of the filter may do before the anchor changes: new frames are newer than the clones, the state holds exactly the clones of the
window, calibrations do not appear or vanish, landmarks are old ones or fresh ones. -/
def Allowed (w : Win) : Ev → Prop
  | .frame t st lms => (∀ s ∈ w.times, s < t) ∧ (∀ s, (st.clone s).isSome ↔ s ∈ w.times ++ [t]) ∧ (∀ c, (st.calib c).isSome ↔ (w.st.calib c).isSome) ∧
      ∀ l ∈ lms, (∃ l0 ∈ w.lms, Same l0 l) ∨ Fresh st (w.times ++ [t]) l
  | .other st lms => (∀ s, (st.clone s).isSome ↔ s ∈ w.times) ∧ (∀ c, (st.calib c).isSome ↔ (w.st.calib c).isSome) ∧ ∀ l ∈ lms, ∃ l0 ∈ w.lms, Same l0 l

/-- a history of allowed events from `w`, with the window it ends in; it stops where the program would. -/
inductive Reaches (maxClones : ℕ) : Win → Win → Prop
  | refl (w) : Reaches maxClones w w
  | step {w w' w''} (e : Ev) : Reaches maxClones w w' → Allowed w' e → winStep maxClones w' e = some w'' → Reaches maxClones w w''

/-- no clone, no landmark yet. -/
def Empty (w : Win) : Prop := w.times = [] ∧ w.lms = [] ∧ ∀ s, w.st.clone s = none

end Spec

theorem margTime_sorted {t : ℝ} {ts : List ℝ} (h : (t :: ts).Pairwise (· < ·)) : margTime (t :: ts) = some t := by
  have : ∀ ts : List ℝ, (∀ s ∈ ts, t < s) → ts.foldl (fun m x => if x < m then x else m) t = t := by
    intro ts
    induction ts with
    | nil => intro _; rfl
    | cons x xs ih =>
      intro hx
      rw [List.foldl_cons, if_neg (not_lt.2 (hx x (by simp)).le)]
      exact ih (fun s hs => hx s (by simp [hs]))
  rw [margTime, this _ (fun s hs => List.rel_of_pairwise_cons h hs)]

/-- what holds between frames. -/
structure WInv (maxClones : ℕ) (w : Win) : Prop where
  sorted : w.times.Pairwise (· < ·)
  keys : ∀ s, (w.st.clone s).isSome ↔ s ∈ w.times
  bound : w.times.length ≤ maxClones
  lms : ∀ l ∈ w.lms, Spec.Fresh w.st w.times l

theorem Fresh_same {st st' : St} {times times' : List ℝ} {l0 l : ALm} (h : Spec.Fresh st times l0) (hs : Spec.Same l0 l)
    (hc : ∀ c, (st'.calib c).isSome ↔ (st.calib c).isSome) (ht : ∀ s ∈ times, s ∈ times') : Spec.Fresh st' times' l := by
  obtain ⟨h1, h2, h3⟩ := h
  obtain ⟨s1, s2, s3, s4⟩ := hs
  refine ⟨by rw [s1]; exact h1, by rw [s2, s1, h2], fun ha => ?_⟩
  rw [s1] at ha
  obtain ⟨h4, c, h5, h6⟩ := h3 ha
  exact ⟨by rw [s4]; exact ht _ h4, c, by rw [s3, h5], (hc c).2 h6⟩

theorem winStep_ok {maxClones : ℕ} (hm : 1 ≤ maxClones) {w : Win} (hw : WInv maxClones w) {e : Ev} (he : Spec.Allowed w e) :
    ∃ w', winStep maxClones w e = some w' ∧ WInv maxClones w' ∧ ∀ c, (w'.st.calib c).isSome ↔ (w.st.calib c).isSome := by
  cases e with
  | other st lms =>
    obtain ⟨h1, h2, h3⟩ := he
    refine ⟨_, rfl, ⟨hw.sorted, h1, hw.bound, fun l hl => ?_⟩, h2⟩
    obtain ⟨l0, h0, hs⟩ := h3 l hl
    exact Fresh_same (hw.lms l0 h0) hs h2 (fun s hs => hs)
  | frame t st lms =>
    obtain ⟨h1, h2, h3, h4⟩ := he
    have hsort : (w.times ++ [t]).Pairwise (· < ·) := by
      rw [List.pairwise_append]
      exact ⟨hw.sorted, by simp, fun a ha b hb => by rw [List.mem_singleton] at hb; subst hb; exact h1 a ha⟩
    have hl : ∀ l ∈ lms, Spec.Fresh st (w.times ++ [t]) l := by
      intro l hl
      rcases h4 l hl with ⟨l0, h0, hs⟩ | h
      · exact Fresh_same (hw.lms l0 h0) hs h3 (fun s hs => by simp [hs])
      · exact h
    by_cases hlen : (w.times ++ [t]).length ≤ maxClones
    · refine ⟨⟨st, w.times ++ [t], lms⟩, ?_, ⟨hsort, h2, hlen, hl⟩, h3⟩
      simp only [winStep, changeAnchors, if_pos hlen, dropOldest, if_neg (not_lt.2 hlen), Option.map_some]
    · have hlen' : maxClones < (w.times ++ [t]).length := not_le.1 hlen
      have hlen2 : (w.times ++ [t]).length = maxClones + 1 := by
        have := hw.bound
        simp only [List.length_append, List.length_cons, List.length_nil] at hlen' ⊢
        omega
      obtain ⟨m, ts, hts⟩ : ∃ m ts, w.times ++ [t] = m :: ts := by
        cases hc : w.times ++ [t] with
        | nil => simp at hc
        | cons m ts => exact ⟨m, ts, rfl⟩
      have htl : t ∈ ts := by
        have h5 : t ∈ m :: ts := by rw [← hts]; simp
        rcases List.mem_cons.1 h5 with h6 | h6
        · exfalso
          subst h6
          have h7 : ts = [] := by
            cases hw' : w.times with
            | nil => rw [hw'] at hts; simpa using (List.cons.inj hts).2.symm
            | cons a as =>
              rw [hw'] at hts
              have h8 := (List.cons.inj hts).1
              have h9 := h1 a (by rw [hw']; simp)
              rw [h8] at h9
              exact absurd h9 (lt_irrefl _)
          rw [hts, h7] at hlen2
          simp at hlen2
          omega
        · exact h6
      rw [hts] at hsort hl h2 hlen2 hlen hlen'
      have hmt := margTime_sorted hsort
      have hmlt : ∀ s ∈ ts, m < s := fun s hs => List.rel_of_pairwise_cons hsort hs
      have hone : ∀ l ∈ lms, ∃ l', changeAnchor st m t l = some l' ∧ Spec.Fresh st ts l' := by
        intro l hlm
        obtain ⟨f1, f2, f3⟩ := hl l hlm
        by_cases ha : Land.Spec.Anchored l.lm.rep
        · have hng : ¬ (l.lm.rep = .global3d ∨ l.lm.rep = .globalFull) := by
            rintro (h | h) <;> rw [h] at ha <;> exact ha
          obtain ⟨g1, c, g2, g3⟩ := f3 ha
          have hle : m ≤ l.t := by
            rcases List.mem_cons.1 g1 with h | h
            · rw [h]
            · exact (hmlt _ h).le
          by_cases hm : l.t = m
          · obtain ⟨ao, hao⟩ := Option.isSome_iff_exists.1 ((h2 l.t).2 g1)
            obtain ⟨an, han⟩ := Option.isSome_iff_exists.1 ((h2 t).2 (by simp [htl]))
            obtain ⟨cal, hcal⟩ := Option.isSome_iff_exists.1 g3
            obtain ⟨p1, pf, jo, jn, lm1, lm2, -, -, -, -, -, -, -, -, -, k10, k11, -, k12⟩ :=
              anchor_unfold st l (nc := c) ha f2 g2 hao han hcal hcal
            refine ⟨⟨lm2, some c, t⟩, ?_, ?_⟩
            · rw [changeAnchor, if_neg hng, if_neg (not_not.2 hle), if_pos hm, g2, Option.bind_some, k12, Option.map_some]
            · refine ⟨by show lm2.rep ≠ _; rw [k10]; exact f1, by show lm2.dim = _; rw [k11, f2]; show _ = Land.Spec.dimOf lm2.rep; rw [k10],
                fun _ => ⟨htl, c, rfl, g3⟩⟩
          · refine ⟨l, ?_, f1, f2, fun _ => ⟨?_, c, g2, g3⟩⟩
            · rw [changeAnchor, if_neg hng, if_neg (not_not.2 hle), if_neg hm]
            · rcases List.mem_cons.1 g1 with h | h
              · exact absurd h hm
              · exact h
        · have hg : l.lm.rep = .global3d ∨ l.lm.rep = .globalFull := by
            revert ha f1; cases l.lm.rep <;> simp [Land.Spec.Anchored]
          exact ⟨l, by rw [changeAnchor, if_pos hg], f1, f2, fun h => absurd h ha⟩
      obtain ⟨lms', hlms'⟩ := mapM_some (F := changeAnchor st m t) (l := lms) (fun l hl => by
        obtain ⟨l', h, -⟩ := hone l hl; rw [h]; rfl)
      have hall : ∀ l' ∈ lms', Spec.Fresh st ts l' := by
        have gen : ∀ (l : List ALm) (r : List ALm), l.mapM (changeAnchor st m t) = some r → (∀ x ∈ l, x ∈ lms) → ∀ l' ∈ r, Spec.Fresh st ts l' := by
          intro l
          induction l with
          | nil => intro r hr _ l' hl'; simp at hr; subst hr; simp at hl'
          | cons x xs ih =>
            intro r hr hx l' hl'
            rw [List.mapM_cons] at hr
            simp only [Option.bind_eq_bind, Option.bind_eq_some_iff] at hr
            obtain ⟨y, hy, ys, hys, hr⟩ := hr
            obtain rfl := Option.some.inj hr
            rcases List.mem_cons.1 hl' with rfl | h
            · obtain ⟨z, hz1, hz2⟩ := hone x (hx x (by simp))
              rw [hy] at hz1
              exact Option.some.inj hz1 ▸ hz2
            · exact ih ys hys (fun z hz => hx z (by simp [hz])) l' h
        exact gen lms lms' hlms' (fun x hx => hx)
      refine ⟨⟨{ st with clone := fun s => if s = m then none else st.clone s }, ts, lms'⟩, ?_, ⟨hsort.of_cons, ?_, ?_, ?_⟩, h3⟩
      · simp only [winStep, changeAnchors, dropOldest, hts, if_neg hlen, if_pos hlen', hmt, Option.bind_some, hlms', Option.map_some, List.erase_cons_head]
      · intro s
        by_cases hs : s = m
        · subst hs
          simp only [if_true, Option.isSome_none, Bool.false_eq_true, false_iff]
          exact fun h => lt_irrefl _ (hmlt _ h)
        · show (if s = m then none else st.clone s).isSome ↔ _
          rw [if_neg hs, h2 s, List.mem_cons]
          exact ⟨fun h => h.resolve_left hs, Or.inr⟩
      · simpa using hlen2.le
      · exact hall

/-- **C29** (anchors) With a window of at least one clone, whatever the history of frames, updates and landmark creations: the next frame never meets a
failed assertion or a missing clone in the anchor changes, and after every frame each relative landmark is anchored in a clone of the window (and in
the state), by a calibrated camera. -/
theorem C29_anchors_live {maxClones : ℕ} (hm : 1 ≤ maxClones) {w0 w : Win} (h0 : Spec.Empty w0) (h : Spec.Reaches maxClones w0 w) :
    (∀ l ∈ w.lms, Land.Spec.Anchored l.lm.rep → l.t ∈ w.times ∧ (w.st.clone l.t).isSome ∧ ∃ c, l.cam = some c ∧ (w.st.calib c).isSome) ∧
    w.times.length ≤ maxClones ∧ ∀ e, Spec.Allowed w e → (winStep maxClones w e).isSome := by
  have hi : WInv maxClones w := by
    induction h with
    | refl => exact ⟨by rw [h0.1]; exact List.Pairwise.nil, fun s => by simp [h0.1, h0.2.2 s], by simp [h0.1], by simp [h0.2.1]⟩
    | step e _ ha hs ih =>
      obtain ⟨w', h1, h2, -⟩ := winStep_ok hm ih ha
      rw [hs] at h1
      exact Option.some.inj h1 ▸ h2
  refine ⟨fun l hl ha => ?_, hi.bound, fun e he => ?_⟩
  · obtain ⟨h1, h2⟩ := (hi.lms l hl).2.2 ha
    exact ⟨h1, (hi.keys _).2 h1, h2⟩
  · obtain ⟨w', h1, -⟩ := winStep_ok hm hi he
    rw [h1]; rfl

/-! ## the hypotheses can be met -/

/-- two clones one metre apart, one camera. -/
noncomputable def exSt : St where
  clone t := if t = 0 then some ⟨pose1, pose1⟩ else if t = 1 then some ⟨⟨⟨0, 0, 0, 1⟩, ![1, 0, 0]⟩, ⟨⟨0, 0, 0, 1⟩, ![1, 0, 0]⟩⟩ else none
  calib c := if c = 0 then some pose1 else none
  cam _ := none
  doFej := true
  doPose := true
  doIntr := false

/-- a landmark two metres in front of the first clone, in MSCKF inverse depth form. -/
noncomputable def exLm : ALm := ⟨⟨.anchoredMsckf, 3, ![0, 0, 1 / 2], ![0, 0, 1 / 2], 0, 0⟩, some 0, 0⟩

theorem exUnits : Spec.Units exSt := by
  have u : IsUnitQ (⟨0, 0, 0, 1⟩ : Quat) := by norm_num [IsUnitQ, Quat.normSq]
  constructor
  · intro t x hx
    simp only [exSt] at hx
    split_ifs at hx
    · obtain rfl := Option.some.inj hx; exact ⟨u, u⟩
    · obtain rfl := Option.some.inj hx; exact ⟨u, u⟩
  · intro c x hx
    simp only [exSt] at hx
    split_ifs at hx
    obtain rfl := Option.some.inj hx; exact u

theorem exR (p : V3) : (⟨⟨0, 0, 0, 1⟩, p⟩ : Pose).R = 1 := by
  simp only [Pose.R]
  ext i j
  fin_cases i <;> fin_cases j <;> norm_num [quat2Rot, Quat.vec, skew, outer, Matrix.vecMulVec] <;> simp

theorem exR1 : pose1.R = 1 := exR 0

theorem exWorld : Spec.world pose1 pose1 ![0, 0, 2] = ![0, 0, 2] := by
  simp only [Spec.world, exR1]
  simp [pose1]

theorem exInCam : Spec.inCam ⟨⟨0, 0, 0, 1⟩, ![1, 0, 0]⟩ pose1 ![0, 0, 2] = ![-1, 0, 2] := by
  simp only [Spec.inCam, exR1, exR]
  simp [pose1]

theorem exXyz : exLm.lm.getXyz false = some ![0, 0, 2] := by
  simp only [exLm, Lm.getXyz, msckfXyz]
  exact congrArg some (by funext i; fin_cases i <;> simp)

/-- C29_position applies to re-anchoring the landmark from clone 0 to clone 1. -/
example : ∃ R p', performAnchorChange exSt exLm 1 0 = some R ∧ R.lm.lm.getXyz false = some p' ∧
    Spec.world ⟨⟨0, 0, 0, 1⟩, ![1, 0, 0]⟩ pose1 p' = ![0, 0, 2] := by
  obtain ⟨R, p', h1, h2, h3, -⟩ := C29_position exSt exUnits exLm (oc := 0) (nc := 0) (nt := 1) (ao := ⟨pose1, pose1⟩)
    (an := ⟨⟨⟨0, 0, 0, 1⟩, ![1, 0, 0]⟩, ⟨⟨0, 0, 0, 1⟩, ![1, 0, 0]⟩⟩) (co := pose1) (cn := pose1) trivial rfl rfl
    (by simp [exSt, exLm]) (by simp [exSt]) (by simp [exSt]) (by simp [exSt]) exXyz
    (by simp only [exWorld, exInCam]; simp [Land.Spec.Dom, exLm])
  exact ⟨R, p', h1, h2, h3.trans exWorld⟩

/-- C80 applies to the same change, with errors in everything. -/
example : ∃ R, performAnchorChange exSt exLm 1 0 = some R ∧ ∃ D : V3,
    HasDv (fun e => Spec.world (pose1.update (fun _ => e * 1)) (pose1.update (fun _ => e * 1)) (Spec.xyz .anchoredMsckf 0 (![0, 0, 1 / 2] + e • ![1, 1, 1]))) D := by
  obtain ⟨R, p', h1, h2, h3, -⟩ := C29_position exSt exUnits exLm (oc := 0) (nc := 0) (nt := 1) (ao := ⟨pose1, pose1⟩)
    (an := ⟨⟨⟨0, 0, 0, 1⟩, ![1, 0, 0]⟩, ⟨⟨0, 0, 0, 1⟩, ![1, 0, 0]⟩⟩) (co := pose1) (cn := pose1) trivial rfl rfl
    (by simp [exSt, exLm]) (by simp [exSt]) (by simp [exSt]) (by simp [exSt]) exXyz
    (by simp only [exWorld, exInCam]; simp [Land.Spec.Dom, exLm])
  have u : IsUnitQ (⟨0, 0, 0, 1⟩ : Quat) := by norm_num [IsUnitQ, Quat.normSq]
  have e1 : Spec.xyz .anchoredMsckf 0 ![0, 0, 1 / 2] = ![0, 0, 2] := by
    funext i; fin_cases i <;> simp [Spec.xyz]
  have e2 : Spec.xyz .anchoredMsckf 0 ![-1 / 2, 0, 1 / 2] = ![-1, 0, 2] := by
    funext i; fin_cases i <;> simp [Spec.xyz]
  have e3 : Spec.world ⟨⟨0, 0, 0, 1⟩, ![1, 0, 0]⟩ pose1 ![-1, 0, 2] = ![0, 0, 2] := by
    simp only [Spec.world, exR1, exR]
    simp [pose1]
  obtain ⟨-, -, D, hD, -⟩ := C80_covariance exSt exUnits exLm (oc := 0) (nc := 0) (nt := 1) (ao := ⟨pose1, pose1⟩)
    (an := ⟨⟨⟨0, 0, 0, 1⟩, ![1, 0, 0]⟩, ⟨⟨0, 0, 0, 1⟩, ![1, 0, 0]⟩⟩) (co := pose1) (cn := pose1) trivial (by simp [exLm]) rfl rfl
    (by simp [exSt, exLm]) (by simp [exSt]) (by simp [exSt]) (by simp [exSt]) exXyz h1 (bo := 0) (lo := ![0, 0, 1 / 2]) (bn := 0) (ln := ![-1 / 2, 0, 1 / 2])
    (by simp [exLm, Spec.Chart]) (by simp [exLm, Spec.Chart])
    (by simp only [exLm, exSt, if_true, e1]) (by simp only [exLm, exSt, if_true, e2, e3, exWorld]) (fun _ _ => 1) ![1, 1, 1] (by simp [exSt])
  exact ⟨R, h1, D, by simpa [exSt, exLm] using hD⟩

/-- a history: an empty window of one clone, a first frame that creates the landmark, a second frame that must re-anchor it. -/
example : ∃ w0 w1 e, Spec.Empty w0 ∧ Spec.Reaches 1 w0 w1 ∧ (∃ l ∈ w1.lms, Land.Spec.Anchored l.lm.rep ∧ l.t = 0) ∧ Spec.Allowed w1 e ∧
    ∃ st lms, e = .frame 1 st lms ∧ lms ≠ [] := by
  let st0 : St := { exSt with clone := fun _ => none }
  let st1 : St := { exSt with clone := fun t => if t = 0 then some ⟨pose1, pose1⟩ else none }
  have hw : winStep 1 ⟨st0, [], []⟩ (.frame 0 st1 [exLm]) = some ⟨st1, [0], [exLm]⟩ := by
    simp [winStep, changeAnchors, dropOldest]
  refine ⟨⟨st0, [], []⟩, ⟨st1, [0], [exLm]⟩, .frame 1 exSt [exLm], ⟨rfl, rfl, fun _ => rfl⟩,
    .step (.frame 0 st1 [exLm]) (.refl _) ⟨by simp, ?_, fun _ => Iff.rfl, ?_⟩ hw, ⟨exLm, by simp, trivial, rfl⟩, ⟨by simp, ?_, fun _ => Iff.rfl, ?_⟩,
    exSt, [exLm], rfl, by simp⟩
  · intro s; by_cases h : s = 0 <;> simp [st1, h]
  · intro l hl
    rw [List.mem_singleton] at hl
    subst hl
    exact Or.inr ⟨by simp [exLm], rfl, fun _ => ⟨by simp [exLm], 0, rfl, by simp [st1, exSt]⟩⟩
  · intro s
    by_cases h : s = 0
    · simp [exSt, h]
    · by_cases h1 : s = 1 <;> simp [exSt, h, h1]
  · intro l hl
    rw [List.mem_singleton] at hl
    subst hl
    exact Or.inl ⟨exLm, by simp, rfl, rfl, rfl, rfl⟩

end Verif.Upd
