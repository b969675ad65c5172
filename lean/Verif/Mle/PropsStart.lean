import Verif.Mle.Start
import Verif.Mle.PropsImuB
import Verif.Cpi.Props
import Verif.Imu.Props
import Verif.Init.PropsC

/-!
# C103: the starting point of the initialiser's optimisation, and the concatenation of preintegrations
-/

set_option linter.unusedSimpArgs false

open Classical

namespace Verif.Cpi

open Verif Matrix

/-- the composition of two preintegrated motions. -/
def Spec.joined (a b c : Res) : Prop :=
  c.DT = a.DT + b.DT ∧ c.R = b.R * a.R ∧ c.beta = a.beta + a.R.transpose.mulVec b.beta ∧
    c.alpha = a.alpha + b.DT • a.beta + a.R.transpose.mulVec b.alpha

theorem joined_feed (k : Conf) (x : Seg) (a b c : Res) (h : Spec.joined a b c) : Spec.joined a (feed k b x) (feed k c x) := by
  obtain ⟨h1, h2, h3, h4⟩ := h
  by_cases h0 : x.t1 - x.t0 = 0
  · rw [feed_zero h0, feed_zero h0]
    exact ⟨by simp [h1, h0], h2, h3, by simp [h4, h0]⟩
  · refine ⟨?_, ?_, ?_, ?_⟩
    · have : ∀ s : Res, (feed k s x).DT = s.DT + (x.t1 - x.t0) := fun s => by simp only [feed, if_neg h0]
      rw [this, this, h1, add_assoc]
    · rw [feed_R h0, feed_R h0, h2, Matrix.mul_assoc]
    · rw [feed_beta h0, feed_beta h0, h2, h3, Matrix.mulVec_add, Matrix.mulVec_mulVec, ← Matrix.mul_assoc (relRot _ _), Matrix.transpose_mul _ a.R,
        Matrix.mul_assoc a.R.transpose, add_assoc]
    · have : (feed k b x).DT = b.DT + (x.t1 - x.t0) := by simp only [feed, if_neg h0]
      rw [feed_alpha h0, feed_alpha h0, this, h2, h3, h4, Matrix.mulVec_add, Matrix.mulVec_add, Matrix.mulVec_mulVec, ← Matrix.mul_assoc (relRot _ _),
        Matrix.transpose_mul _ a.R, Matrix.mul_assoc a.R.transpose, Matrix.mulVec_smul]
      module

/-- **C103** Preintegrating one sequence of intervals and then another gives the composition of the two preintegrated motions: any configuration, any
sequences, no condition on the rates. -/
theorem C103_concatenation (k : Conf) (xs ys : List Seg) : Spec.joined (run k xs) (run k ys) (run k (xs ++ ys)) := by
  induction ys using List.reverseRecOn with
  | nil => simp [Spec.joined, run, Res.init]
  | append_singleton ys y ih =>
    rw [← List.append_assoc, run_snoc, run_snoc]
    exact joined_feed k y _ _ _ ih

end Verif.Cpi

namespace Verif.Mle

open Verif Matrix Verif.QuatProps Verif.Imu

theorem segs_append (l m : List Reading) (y : Reading) : segs (l ++ y :: m) = segs (l ++ [y]) ++ segs (y :: m) := by
  induction l with
  | nil => simp [segs]
  | cons a l ih =>
    cases l with
    | nil => simp [segs]
    | cons b l =>
      simp only [List.cons_append, segs] at ih ⊢
      rw [ih]


/-- consecutive readings are at least `1e-12` s apart (so in particular sorted). -/
def Spec.Apart (buf : List Reading) : Prop := buf.Pairwise fun a b => 1e-12 ≤ b.t - a.t

theorem Spec.Apart.sorted {buf : List Reading} (h : Spec.Apart buf) : Imu.Spec.Sorted buf := by
  refine List.Pairwise.imp ?_ h
  intro a b hab
  have : (0 : ℝ) < 1e-12 := by norm_num
  linarith

theorem inside_mid {A M C : List Reading} {x z : Reading} (h : Imu.Spec.Sorted (A ++ (x :: M ++ [z]) ++ C)) :
    Imu.Spec.inside x.t z.t (A ++ (x :: M ++ [z]) ++ C) = M := by
  unfold Imu.Spec.Sorted at h
  simp only [List.pairwise_append, List.pairwise_cons, List.mem_append, List.mem_cons, List.cons_append, List.mem_singleton] at h
  obtain ⟨⟨-, ⟨h1, h2, h3, h4⟩, h5⟩, h6, h7⟩ := h
  unfold Imu.Spec.inside
  have e1 : A.filter (fun r => decide (x.t < r.t ∧ r.t < z.t)) = [] := by
    rw [List.filter_eq_nil_iff]
    intro a ha
    have := h5 a ha x (by simp)
    simp; intro; linarith
  have e2 : C.filter (fun r => decide (x.t < r.t ∧ r.t < z.t)) = [] := by
    rw [List.filter_eq_nil_iff]
    intro a ha
    have := h7 z (by simp) a ha
    simp; intro; linarith
  have e3 : M.filter (fun r => decide (x.t < r.t ∧ r.t < z.t)) = M := by
    rw [List.filter_eq_self]
    intro a ha
    simp
    exact ⟨h1 a (by simp [ha]), h4 a ha z (Or.inl rfl)⟩
  rw [List.filter_append, List.filter_append, List.filter_append, List.filter_cons_of_neg (by simp), List.filter_cons_of_neg (by simp), e1, e2, e3]
  simp

theorem signal_at {buf : List Reading} (hs : Imu.Spec.Sorted buf) {x r : Reading} (hr : r ∈ buf) (ht : x.t = r.t) (h : Imu.Spec.OnSignal buf x) : x = r := by
  have hu : ∀ a ∈ buf, ∀ b ∈ buf, a.t = b.t → a = b := by
    intro a ha b hb hab
    obtain ⟨p, q, rfl⟩ := List.append_of_mem ha
    unfold Imu.Spec.Sorted at hs
    rw [List.pairwise_append, List.pairwise_cons] at hs
    rcases List.mem_append.1 hb with h | h
    · have := hs.2.2 b h a (by simp); linarith
    · rcases List.mem_cons.1 h with rfl | h
      · rfl
      · have := hs.2.1.1 b h; linarith
  rcases h with h | ⟨a, b, hab, h1, h2, -⟩
  · exact hu x h r hr ht
  · exfalso
    obtain ⟨p, q, rfl⟩ := hab
    unfold Imu.Spec.Sorted at hs
    simp only [List.pairwise_append, List.pairwise_cons, List.mem_append, List.mem_cons, List.append_assoc, List.cons_append, List.nil_append] at hs hr
    obtain ⟨-, ⟨g1, g2, -⟩, g3⟩ := hs
    rcases hr with h | rfl | rfl | h
    · have := g3 r h a (by simp); linarith
    · linarith
    · linarith
    · have := g2 r h; linarith

theorem cpi_at (k : Cpi.Conf) {A M C : List Reading} {x z : Reading} (hC : C ≠ []) (h : Spec.Apart (A ++ (x :: M ++ [z]) ++ C)) :
    cpiOf k (A ++ (x :: M ++ [z]) ++ C) x.t z.t = some (Cpi.run k (segs (x :: M ++ [z]))) := by
  have hs := h.sorted
  have hm := inside_mid hs
  set buf := A ++ (x :: M ++ [z]) ++ C with hbuf
  have hxz : x.t < z.t := by
    have := hs
    rw [hbuf] at this
    unfold Imu.Spec.Sorted at this
    simp only [List.pairwise_append, List.pairwise_cons, List.cons_append, List.mem_append, List.mem_singleton] at this
    exact this.1.2.1.1 z (by simp)
  obtain ⟨c, hc⟩ := List.exists_mem_of_ne_nil C hC
  have hzc : z.t < c.t := by
    have := hs
    rw [hbuf] at this
    unfold Imu.Spec.Sorted at this
    simp only [List.pairwise_append] at this
    exact this.2.2 z (by simp) c hc
  have hxm : x ∈ buf := by simp [hbuf]
  have hzm : z ∈ buf := by simp [hbuf]
  have hdl : buf.dropLast = A ++ (x :: M ++ [z]) ++ C.dropLast := by rw [hbuf, List.dropLast_append_of_ne_nil hC]
  obtain ⟨x', z', hx, hz, sx, sz, hall⟩ := Imu.C19_selectInit hxz buf hs ⟨x, hxm, le_rfl⟩ ⟨c, by simp [hbuf, hc], hzc⟩
    ⟨x, by rw [hdl]; simp, le_rfl⟩
  obtain rfl := signal_at hs hxm hx sx
  obtain rfl := signal_at hs hzm hz sz
  rw [hm] at hall
  have hsp : Imu.Spec.Spaced (x' :: M ++ [z']) := by
    refine List.Pairwise.isChain ?_
    have := h
    unfold Spec.Apart at this
    rw [hbuf, List.pairwise_append, List.pairwise_append] at this
    exact this.1.2.1
  have hsel := (hall hsp).1
  obtain ⟨b, l, hbl⟩ : ∃ b l, M ++ [z'] = b :: l := by
    cases M with
    | nil => exact ⟨z', [], rfl⟩
    | cons b l => exact ⟨b, l ++ [z'], rfl⟩
  have hlast : (x' :: b :: l).getLast (by simp) = z' := by
    have : x' :: b :: l = (x' :: M) ++ [z'] := by rw [List.cons_append, hbl]
    simp [this]
  rw [List.cons_append, hbl] at hsel ⊢
  unfold cpiOf
  rw [hsel]
  simp only [hlast, sub_self, abs_zero]
  rw [if_neg (by norm_num)]

theorem run_q_some (k : Cpi.Conf) (xs : List Cpi.Seg) (h : ∃ x ∈ xs, x.t1 - x.t0 ≠ 0) : ∃ q, (Cpi.run k xs).q = some q := by
  induction xs using List.reverseRecOn with
  | nil => simp at h
  | append_singleton xs x ih =>
    rw [Cpi.run_snoc]
    by_cases h0 : x.t1 - x.t0 = 0
    · rw [Cpi.feed_zero h0]
      apply ih
      obtain ⟨y, hy, hy0⟩ := h
      rcases List.mem_append.1 hy with hy | hy
      · exact ⟨y, hy, hy0⟩
      · simp at hy; subst hy; exact absurd h0 hy0
    · exact ⟨_, Cpi.feed_q h0 _⟩

theorem dyn_rot {Rk : M3} (hR : IsRot Rk) (alpha beta : V3) (DT : ℝ) (vel : V3) {grav : V3} (hg : grav ≠ 0) :
    IsUnitQ (Init.dynPose Rk alpha beta DT vel grav).1 ∧ quat2Rot (Init.dynPose Rk alpha beta DT vel grav).1 = Rk * Init.gramSchmidt grav := by
  obtain ⟨h1, h2, h3⟩ := Init.C50_gram_schmidt grav hg
  obtain ⟨c1, e1⟩ := C24_rotation_round_trip.2 _ hR
  obtain ⟨c2, e2⟩ := C24_rotation_round_trip.2 _ h1
  obtain ⟨u, -, hq⟩ := C23_quat_multiply _ _ c1.1 c2.1
  rw [e1, e2] at hq
  exact ⟨u, hq⟩

theorem dyn_grav {grav : V3} (hg : grav ≠ 0) : (Init.gramSchmidt grav).transpose.mulVec grav = ![0, 0, norm3 grav] := by
  obtain ⟨h1, h2, h3⟩ := Init.C50_gram_schmidt grav hg
  have := congrArg (Init.gramSchmidt grav).transpose.mulVec h3
  rw [Matrix.mulVec_mulVec, h1.orth, Matrix.one_mulVec] at this
  exact this.symm

/-- the state at the start of the optimisation, from one preintegration. -/
noncomputable def navOf (k : Cpi.Conf) (vel grav : V3) (r : Cpi.Res) : Nav := startNav k vel grav (some (r, r))

theorem startNav_none (k : Cpi.Conf) (vel grav : V3) : startNav k vel grav none = navOf k vel grav (Cpi.run k []) := rfl
theorem startNav_some (k : Cpi.Conf) (vel grav : V3) (r s : Cpi.Res) : startNav k vel grav (some (r, s)) = navOf k vel grav r := rfl

theorem start_motion (k : Cpi.Conf) (vel : V3) {grav : V3} (hg : grav ≠ 0) (a b c : Cpi.Res) (ha : IsRot a.R) (hb : IsRot b.R) (h : Cpi.Spec.joined a b c) :
    Spec.motion b.R b.beta b.alpha b.DT ![0, 0, norm3 grav] (navOf k vel grav a) (navOf k vel grav c) := by
  obtain ⟨h1, h2, h3, h4⟩ := h
  have hc : IsRot c.R := by rw [h2]; exact hb.mul ha
  obtain ⟨ua, ra⟩ := dyn_rot ha a.alpha a.beta a.DT vel hg
  obtain ⟨uc, rc⟩ := dyn_rot hc c.alpha c.beta c.DT vel hg
  have hG := dyn_grav hg
  refine ⟨?_, ?_, ?_, rfl, rfl⟩
  · show quat2Rot (Init.dynPose c.R c.alpha c.beta c.DT vel grav).1 = b.R * quat2Rot (Init.dynPose a.R a.alpha a.beta a.DT vel grav).1
    rw [ra, rc, h2, Matrix.mul_assoc]
  · show (Init.dynPose c.R c.alpha c.beta c.DT vel grav).2.2 = (Init.dynPose a.R a.alpha a.beta a.DT vel grav).2.2 - _ +
      (quat2Rot (Init.dynPose a.R a.alpha a.beta a.DT vel grav).1).transpose.mulVec b.beta
    rw [ra, ← hG]
    simp only [Init.dynPose]
    rw [h3, h1, Matrix.transpose_mul, ← Matrix.mulVec_mulVec]
    simp only [Matrix.mulVec_add, Matrix.mulVec_sub, Matrix.mulVec_smul]
    module
  · show (Init.dynPose c.R c.alpha c.beta c.DT vel grav).2.1 = (Init.dynPose a.R a.alpha a.beta a.DT vel grav).2.1 +
      b.DT • (Init.dynPose a.R a.alpha a.beta a.DT vel grav).2.2 - _ +
      (quat2Rot (Init.dynPose a.R a.alpha a.beta a.DT vel grav).1).transpose.mulVec b.alpha
    rw [ra, ← hG]
    simp only [Init.dynPose]
    rw [h4, h1, Matrix.transpose_mul, ← Matrix.mulVec_mulVec]
    simp only [Matrix.mulVec_add, Matrix.mulVec_sub, Matrix.mulVec_smul]
    module

theorem segs_infix : ∀ (l : List Reading) (s : Cpi.Seg), s ∈ segs l → ∃ a b, [a, b] <:+: l ∧ s = ⟨a.t, b.t, a.wm, a.am, b.wm, b.am⟩
  | [], s, h => by simp [segs] at h
  | [_], s, h => by simp [segs] at h
  | a :: b :: l, s, h => by
    simp only [segs, List.mem_cons] at h
    rcases h with rfl | h
    · exact ⟨a, b, ⟨[], l, by simp⟩, rfl⟩
    · obtain ⟨c, d, hcd, rfl⟩ := segs_infix (b :: l) s h
      exact ⟨c, d, hcd.trans (List.suffix_cons a _).isInfix, rfl⟩

/-- every interval between consecutive readings turns at a rate the preintegration handles exactly. -/
def Spec.regularRates (k : Cpi.Conf) (buf : List Reading) : Prop := ∀ a b, [a, b] <:+: buf →
  Cpi.Spec.rate k ⟨a.t, b.t, a.wm, a.am, b.wm, b.am⟩ = 0 ∨ Cpi.thr ≤ norm3 (Cpi.Spec.rate k ⟨a.t, b.t, a.wm, a.am, b.wm, b.am⟩)

theorem graph_zero (k : Cpi.Conf) (buf : List Reading) (off t0 : ℝ) (W : Cpi.Res → Matrix I5 I5 ℝ) (vel grav : V3) (hg : grav ≠ 0)
    (hap : Spec.Apart buf) (hr : Spec.regularRates k buf) (x : Reading) (hx : x.t = t0 + off) :
    ∀ (l : List ℝ) (last : ℝ) (A M C : List Reading) (y : Reading), buf = A ++ (M ++ [y]) ++ C → (∃ N, M ++ [y] = x :: N) → y.t = last + off →
      l.Pairwise (· < ·) → (∀ t ∈ l, last < t) → (∀ t ∈ l, t0 < t) → (∀ t ∈ l, ∃ r ∈ buf, r.t = t + off) → (∃ z ∈ buf, ∀ t ∈ l, t + off < z.t) →
      ∃ pre, preint k buf off t0 last l = some pre ∧ pre.map Prod.fst = l ∧
        (graph k (norm3 grav) W vel grav (some (navOf k vel grav (Cpi.run k (segs (M ++ [y]))))) pre).length = l.length ∧
        ∀ e ∈ graph k (norm3 grav) W vel grav (some (navOf k vel grav (Cpi.run k (segs (M ++ [y]))))) pre, imuErr e.1 e.2.1 e.2.2 = 0 := by
  intro l
  induction l with
  | nil => intro last A M C y _ _ _ _ _ _ _ _; exact ⟨[], rfl, rfl, rfl, by simp [graph]⟩
  | cons t l ih =>
    intro last A M C y hbuf hN hy hp hlt ht0 hon hz
    obtain ⟨hp1, hp2⟩ := List.pairwise_cons.1 hp
    have hs := hap.sorted
    obtain ⟨r, hrb, hrt⟩ := hon t (by simp)
    have hyr : y.t < r.t := by rw [hy, hrt]; have := hlt t (by simp); linarith
    have hrC : r ∈ C := by
      have hs' := hs
      rw [hbuf] at hs' hrb
      unfold Imu.Spec.Sorted at hs'
      simp only [List.pairwise_append, List.mem_append, List.mem_singleton, List.pairwise_singleton] at hs' hrb
      rcases hrb with (h | h | rfl) | h
      · have := hs'.1.2.2 r h y (by simp); linarith
      · have := hs'.1.2.1.2.2 r h y rfl; linarith
      · linarith
      · exact h
    obtain ⟨C1, C2, rfl⟩ := List.append_of_mem hrC
    have hC2 : C2 ≠ [] := by
      rintro rfl
      obtain ⟨z, hzb, hzt⟩ := hz
      have hzr : r.t < z.t := by rw [hrt]; exact hzt t (by simp)
      have hs' := hs
      rw [hbuf] at hs' hzb
      unfold Imu.Spec.Sorted at hs'
      rw [← List.append_assoc, List.pairwise_append] at hs'
      rw [← List.append_assoc] at hzb
      rcases List.mem_append.1 hzb with h | h
      · have := hs'.2.2 z h r (by simp); linarith
      · simp at h; subst h; linarith
    obtain ⟨N, hN⟩ := hN
    have hb1 : buf = (A ++ M) ++ (y :: C1 ++ [r]) ++ C2 := by rw [hbuf]; simp
    have hb2 : buf = A ++ ((x :: (N ++ C1)) ++ [r]) ++ C2 := by
      rw [hbuf, hN]; simp
    have hb3 : buf = A ++ ((M ++ [y] ++ C1) ++ [r]) ++ C2 := by rw [hbuf]; simp
    have hl0 : M ++ [y] ++ C1 ++ [r] = x :: (N ++ C1) ++ [r] := by rw [hN]; simp
    have c0 : cpiOf k buf (t0 + off) (t + off) = some (Cpi.run k (segs (M ++ [y] ++ C1 ++ [r]))) := by
      rw [← hx, ← hrt, hl0]
      conv_lhs => rw [hb2]
      exact cpi_at k hC2 (by rw [← hb2]; exact hap)
    have c1 : cpiOf k buf (last + off) (t + off) = some (Cpi.run k (segs (y :: C1 ++ [r]))) := by
      rw [← hy, ← hrt]
      conv_lhs => rw [hb1]
      exact cpi_at k hC2 (by rw [← hb1]; exact hap)
    have hsplit : segs (M ++ [y] ++ C1 ++ [r]) = segs (M ++ [y]) ++ segs (y :: C1 ++ [r]) := by
      have := segs_append M (C1 ++ [r]) y
      simpa using this
    obtain ⟨pre, hpre, hfst, hlen, hzero⟩ := ih t A (M ++ [y] ++ C1) C2 r hb3 ⟨N ++ C1 ++ [r], by rw [hN]; simp⟩ hrt hp2 hp1
      (fun u hu => ht0 u (by simp [hu])) (fun u hu => hon u (by simp [hu]))
      (by obtain ⟨z, hz1, hz2⟩ := hz; exact ⟨z, hz1, fun u hu => hz2 u (by simp [hu])⟩)
    have hne : t ≠ t0 := (ht0 t (by simp)).ne'
    refine ⟨(t, some (Cpi.run k (segs (M ++ [y] ++ C1 ++ [r])), Cpi.run k (segs (y :: C1 ++ [r])))) :: pre, ?_, ?_, ?_, ?_⟩
    · unfold preint
      rw [if_neg hne, c0, c1, hpre]
      rfl
    · simp [hfst]
    · simp only [graph, startNav_some, List.length_cons]
      rw [hlen]
    · intro e he
      simp only [graph, startNav_some, List.mem_cons] at he
      rcases he with rfl | he
      · have hrate : ∀ l', l' <:+: buf → ∀ s ∈ segs l', Cpi.Spec.rate k s = 0 ∨ Cpi.thr ≤ norm3 (Cpi.Spec.rate k s) := by
          intro l' hl' s hsm
          obtain ⟨a, b, hab, rfl⟩ := segs_infix l' s hsm
          exact hr a b (hab.trans hl')
        have ra := Cpi.C40_rotation_partial k (segs (M ++ [y])) (hrate _ ⟨A, C1 ++ r :: C2, by rw [hbuf]⟩)
        have rb := Cpi.C40_rotation_partial k (segs (y :: C1 ++ [r])) (hrate _ ⟨A ++ M, C2, hb1.symm⟩)
        have rc := Cpi.C40_rotation_partial k (segs (M ++ [y] ++ C1 ++ [r])) (hrate _ ⟨A, C2, hb3.symm⟩)
        obtain ⟨q, hq⟩ := run_q_some k (segs (y :: C1 ++ [r])) (by
          obtain ⟨b, l', hbl⟩ : ∃ b l', C1 ++ [r] = b :: l' := by
            cases C1 with
            | nil => exact ⟨r, [], rfl⟩
            | cons b l' => exact ⟨b, l' ++ [r], rfl⟩
          rw [List.cons_append, hbl]
          refine ⟨_, by rw [segs]; exact List.mem_cons_self, ?_⟩
          have hs' := hs
          rw [hb1, List.cons_append, hbl] at hs'
          unfold Imu.Spec.Sorted at hs'
          simp only [List.pairwise_append, List.pairwise_cons, List.mem_cons] at hs'
          have := hs'.1.2.1.1 b (Or.inl rfl)
          exact (sub_pos.2 this).ne')
        have hj : Cpi.Spec.joined (Cpi.run k (segs (M ++ [y]))) (Cpi.run k (segs (y :: C1 ++ [r]))) (Cpi.run k (segs (M ++ [y] ++ C1 ++ [r]))) := by
          rw [hsplit]; exact Cpi.C103_concatenation k _ _
        obtain ⟨hqc, hqr⟩ := rb.2 q hq
        have hm := start_motion k vel hg _ _ _ ra.1 rb.1 hj
        rw [C101_zero_at_linearisation]
        · show Spec.motion (quat2Rot ((Cpi.run k (segs (y :: C1 ++ [r]))).q.getD _)) _ _ _ _ _ _
          rw [hq, Option.getD_some, hqr]
          exact hm
        · exact (dyn_rot ra.1 (Cpi.run k (segs (M ++ [y]))).alpha (Cpi.run k (segs (M ++ [y]))).beta (Cpi.run k (segs (M ++ [y]))).DT vel hg).1
        · exact (dyn_rot rc.1 (Cpi.run k (segs (M ++ [y] ++ C1 ++ [r]))).alpha (Cpi.run k (segs (M ++ [y] ++ C1 ++ [r]))).beta
            (Cpi.run k (segs (M ++ [y] ++ C1 ++ [r]))).DT vel hg).1
        · show IsUnitQ ((Cpi.run k (segs (y :: C1 ++ [r]))).q.getD _)
          rw [hq, Option.getD_some]; exact hqc.1
        · rfl
        · rfl
      · exact hzero e he

/-- **C103** The starting point of the optimisation satisfies all its inertial constraints: if the camera times fall on IMU readings (with a later reading
buffered) and the rates are ones the preintegration handles exactly, every preintegration succeeds, there is one factor for each pair of consecutive
camera times, and each of them is exactly zero at the start. -/
theorem C103_start (k : Cpi.Conf) (buf : List Reading) (off t0 : ℝ) (ts : List ℝ) (W : Cpi.Res → Matrix I5 I5 ℝ) (vel grav : V3) (hg : grav ≠ 0) (last : ℝ)
    (hap : Spec.Apart buf) (hr : Spec.regularRates k buf) (hs : (t0 :: ts).Pairwise (· < ·)) (hon : ∀ t ∈ t0 :: ts, ∃ r ∈ buf, r.t = t + off)
    (hz : ∃ z ∈ buf, ∀ t ∈ t0 :: ts, t + off < z.t) :
    ∃ pre, preint k buf off t0 last (t0 :: ts) = some pre ∧ pre.map Prod.fst = t0 :: ts ∧
      (graph k (norm3 grav) W vel grav none pre).length = ts.length ∧
      ∀ e ∈ graph k (norm3 grav) W vel grav none pre, imuErr e.1 e.2.1 e.2.2 = 0 := by
  obtain ⟨x, hxb, hxt⟩ := hon t0 (by simp)
  obtain ⟨A, C, hbuf⟩ := List.append_of_mem hxb
  obtain ⟨hs1, hs2⟩ := List.pairwise_cons.1 hs
  obtain ⟨pre, h1, h2, h3, h4⟩ := graph_zero k buf off t0 W vel grav hg hap hr x hxt ts t0 A [] C x (by rw [hbuf]; simp) ⟨[], rfl⟩ hxt hs2 hs1 hs1
    (fun t ht => hon t (by simp [ht])) (by obtain ⟨z, hz1, hz2⟩ := hz; exact ⟨z, hz1, fun u hu => hz2 u (by simp [hu])⟩)
  refine ⟨(t0, none) :: pre, ?_, by simp [h2], ?_, ?_⟩
  · unfold preint
    rw [if_pos rfl, h1]
    rfl
  · exact h3
  · exact h4

/-- the hypotheses of `C103_start` are met by a platform that accelerates without turning, three camera times, averaging on. -/
example : ∃ pre, preint ⟨1, 1, 1, 1, true, 0, 0⟩ [⟨0, 0, ![0, 0, 9]⟩, ⟨1, 0, ![1, 0, 9]⟩, ⟨2, 0, ![2, 1, 9]⟩, ⟨3, 0, ![0, 0, 9]⟩] 1 (-1) 0 [-1, 0, 1] = some pre ∧
    (graph ⟨1, 1, 1, 1, true, 0, 0⟩ (norm3 ![0, 0, 9]) (fun _ => 1) ![1, 2, 3] ![0, 0, 9] none pre).length = 2 ∧
    ∀ e ∈ graph ⟨1, 1, 1, 1, true, 0, 0⟩ (norm3 ![0, 0, 9]) (fun _ => 1) ![1, 2, 3] ![0, 0, 9] none pre, imuErr e.1 e.2.1 e.2.2 = 0 := by
  obtain ⟨pre, h1, -, h3, h4⟩ := C103_start ⟨1, 1, 1, 1, true, 0, 0⟩ [⟨0, 0, ![0, 0, 9]⟩, ⟨1, 0, ![1, 0, 9]⟩, ⟨2, 0, ![2, 1, 9]⟩, ⟨3, 0, ![0, 0, 9]⟩] 1 (-1) [0, 1]
    (fun _ => 1) ![1, 2, 3] ![0, 0, 9] (fun h => by have : (9 : ℝ) = 0 := congrFun h 2; norm_num at this) 0 (by unfold Spec.Apart; norm_num)
    (by
      intro a b h
      have ha := h.subset (List.mem_cons_self)
      have hb := h.subset (List.mem_cons_of_mem a (List.mem_cons_self))
      have ha0 : a.wm = 0 := by simp only [List.mem_cons, List.not_mem_nil, or_false] at ha; rcases ha with rfl | rfl | rfl | rfl <;> rfl
      have hb0 : b.wm = 0 := by simp only [List.mem_cons, List.not_mem_nil, or_false] at hb; rcases hb with rfl | rfl | rfl | rfl <;> rfl
      left
      simp [Cpi.Spec.rate, ha0, hb0])
    (by norm_num) (by norm_num) (by norm_num)
  exact ⟨pre, h1, h3, h4⟩

/-- the readings `r` span the interval `[t0, t1]` to within ten milliseconds. -/
def Spec.Spans (r : List Reading) (t0 t1 : ℝ) : Prop := ∃ a b l, r = a :: b :: l ∧ |((b :: l).getLast (by simp)).t - a.t - (t1 - t0)| ≤ 0.01

theorem cpiOf_iff (k : Cpi.Conf) (buf : List Reading) (t0 t1 : ℝ) (c : Cpi.Res) :
    cpiOf k buf t0 t1 = some c ↔ Spec.Spans (selectInit buf t0 t1) t0 t1 ∧ c = Cpi.run k (segs (selectInit buf t0 t1)) := by
  unfold cpiOf Spec.Spans
  rcases selectInit buf t0 t1 with _ | ⟨a, _ | ⟨b, l⟩⟩
  · simp
  · simp
  · simp only
    constructor
    · intro h
      split_ifs at h with h1
      exact ⟨⟨a, b, l, rfl, by simpa using h1⟩, (Option.some.inj h).symm⟩
    · rintro ⟨⟨a', b', l', h, h1⟩, rfl⟩
      simp only [List.cons.injEq] at h
      obtain ⟨rfl, rfl, rfl⟩ := h
      rw [if_neg (by simpa using h1)]

/-- **C103** (coverage) For any readings and camera times (none of them needs to fall on a reading): when the preintegrations succeed, there is an entry for every camera time in order, none at the oldest time, and at every other one the first
preintegration is over readings that span the time since the oldest camera time to within ten milliseconds, the second over readings that span the time since the camera time before. Whenever the readings of one of these intervals do not, no
preintegration is returned. -/
theorem C103_coverage (k : Cpi.Conf) (buf : List Reading) (off t0 : ℝ) : ∀ (ts : List ℝ) (last : ℝ),
    (∀ pre, preint k buf off t0 last ts = some pre → pre.map Prod.fst = ts ∧ ∀ A p B, last :: ts = A ++ p :: B → ∀ t D, B = t :: D →
      ∃ c, (t, c) ∈ pre ∧ (t = t0 → c = none) ∧ (t ≠ t0 → ∃ c0 c1, c = some (c0, c1) ∧
        Spec.Spans (selectInit buf (t0 + off) (t + off)) (t0 + off) (t + off) ∧ c0 = Cpi.run k (segs (selectInit buf (t0 + off) (t + off))) ∧
        Spec.Spans (selectInit buf (p + off) (t + off)) (p + off) (t + off) ∧ c1 = Cpi.run k (segs (selectInit buf (p + off) (t + off))))) ∧
    ((∃ A p t D, last :: ts = A ++ p :: t :: D ∧ t ≠ t0 ∧ (¬ Spec.Spans (selectInit buf (t0 + off) (t + off)) (t0 + off) (t + off) ∨ ¬ Spec.Spans (selectInit buf (p + off) (t + off)) (p + off) (t + off))) →
      preint k buf off t0 last ts = none)
  | [], last => by
    refine ⟨fun pre h => ?_, ?_⟩
    · obtain rfl := Option.some.inj h
      refine ⟨rfl, fun A p B h t D hB => ?_⟩
      have := congrArg List.length h
      rw [hB] at this
      simp at this
      omega
    · rintro ⟨A, p, t, D, h, -⟩
      have := congrArg List.length h
      simp at this
      omega
  | t :: l, last => by
    obtain ⟨ih1, ih2⟩ := C103_coverage k buf off t0 l t
    have hsplit : ∀ {A p B}, last :: t :: l = A ++ p :: B → (A = [] ∧ p = last ∧ B = t :: l) ∨ ∃ A', A = last :: A' ∧ t :: l = A' ++ p :: B := by
      intro A p B h
      cases A with
      | nil => simp only [List.nil_append, List.cons.injEq] at h; exact .inl ⟨rfl, h.1.symm, h.2.symm⟩
      | cons a A' => simp only [List.cons_append, List.cons.injEq] at h; exact .inr ⟨A', by rw [← h.1], h.2⟩
    refine ⟨fun pre h => ?_, ?_⟩
    · unfold preint at h
      split_ifs at h with ht
      · rw [Option.map_eq_some_iff] at h
        obtain ⟨pre', h, rfl⟩ := h
        obtain ⟨q1, q2⟩ := ih1 pre' h
        refine ⟨by simp [q1], fun A p B h t' D hB => ?_⟩
        rcases hsplit h with ⟨-, rfl, hB'⟩ | ⟨A', -, h'⟩
        · rw [hB, List.cons.injEq] at hB'
          obtain ⟨rfl, rfl⟩ := hB'
          exact ⟨none, by simp, fun _ => rfl, fun h => absurd ht h⟩
        · obtain ⟨c, hc, h1, h2⟩ := q2 A' p B h' t' D hB
          exact ⟨c, by simp [hc], h1, h2⟩
      · simp only [Option.bind_eq_bind, Option.bind_eq_some_iff, Option.map_eq_some_iff] at h
        obtain ⟨c0, h0, c1, h1, pre', h, rfl⟩ := h
        obtain ⟨q1, q2⟩ := ih1 pre' h
        refine ⟨by simp [q1], fun A p B h t' D hB => ?_⟩
        rcases hsplit h with ⟨-, rfl, hB'⟩ | ⟨A', -, h'⟩
        · rw [hB, List.cons.injEq] at hB'
          obtain ⟨rfl, rfl⟩ := hB'
          obtain ⟨a1, a2⟩ := (cpiOf_iff ..).1 h0
          obtain ⟨b1, b2⟩ := (cpiOf_iff ..).1 h1
          exact ⟨some (c0, c1), by simp, fun h => absurd h ht, fun _ => ⟨c0, c1, rfl, a1, a2, b1, b2⟩⟩
        · obtain ⟨c, hc, h1, h2⟩ := q2 A' p B h' t' D hB
          exact ⟨c, by simp [hc], h1, h2⟩
    · rintro ⟨A, p, t', D, h, hne, hno⟩
      unfold preint
      rcases hsplit h with ⟨-, rfl, hB'⟩ | ⟨A', -, h'⟩
      · simp only [List.cons.injEq] at hB'
        obtain ⟨rfl, rfl⟩ := hB'
        rw [if_neg hne]
        cases h0 : cpiOf k buf (t0 + off) (t' + off) with
        | none => rfl
        | some c0 =>
          cases h1 : cpiOf k buf (p + off) (t' + off) with
          | none => rfl
          | some c1 =>
            rcases hno with h | h
            · exact absurd ((cpiOf_iff ..).1 h0).1 h
            · exact absurd ((cpiOf_iff ..).1 h1).1 h
      · have := ih2 ⟨A', p, t', D, h', hne, hno⟩
        rw [this]
        split_ifs
        · rfl
        · cases cpiOf k buf (t0 + off) (t + off) with
          | none => rfl
          | some c0 => cases cpiOf k buf (last + off) (t + off) <;> rfl


end Verif.Mle
