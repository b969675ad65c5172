import Verif.Sim.Lemmas
import Mathlib.Tactic
import Mathlib.Order.Bounds.Basic
import Mathlib.Algebra.Order.Floor.Semiring
import Mathlib.Algebra.Order.Archimedean.Real.Basic

/-! # C61: the bracketing of the spline and its control points -/

set_option autoImplicit false

namespace Verif.Sim

open Verif Matrix

/-- **C61** `find_bounding_poses` finds a pair exactly when two neighbouring entries of the map enclose the time (the first at or
before it, the second after it), and it returns that pair; its assertion `t0 < t1` holds. -/
theorem C61_bounding_poses (t : ℝ) (m : Poses) (h : Sorted m) (b c : ℝ × M4) :
    (findPoses t m = some (b, c) ↔ ∃ l r, m = l ++ b :: c :: r ∧ b.1 ≤ t ∧ t < c.1) ∧
    (findPoses t m = some (b, c) → b.1 < c.1 ∧ ∀ p ∈ m, p.1 ≤ b.1 ∨ c.1 ≤ p.1) := by
  refine ⟨findPoses_iff h b c, fun e => ?_⟩
  obtain ⟨l, r, rfl, h1, h2⟩ := (findPoses_iff h b c).1 e
  refine ⟨h1.trans_lt h2, fun p hp => ?_⟩
  obtain ⟨_, hs, hl⟩ := h.append
  rcases List.mem_append.1 hp with hp | hp
  · exact Or.inl (hl p hp b (by simp)).le
  · obtain ⟨_, hs2⟩ := List.pairwise_cons.1 hs
    rcases List.mem_cons.1 hp with rfl | hp
    · exact Or.inl le_rfl
    · rcases List.mem_cons.1 hp with rfl | hp
      · exact Or.inr le_rfl
      · exact Or.inr ((List.pairwise_cons.1 hs2).1 p hp).le

/-- **C61** `find_bounding_control_points` succeeds exactly when four neighbouring control points enclose the time between the
second (inclusive) and the third (exclusive), and it returns these four; then `t0 < t1 < t2 < t3` and the spline coordinate is in
`[0, 1)`. -/
theorem C61_control_point_bracket (t : ℝ) (m : Poses) (h : Sorted m) (a b c d : ℝ × M4) :
    (findCtl t m = some (a, b, c, d) ↔ ∃ l r, m = l ++ a :: b :: c :: d :: r ∧ b.1 ≤ t ∧ t < c.1) ∧
    (findCtl t m = some (a, b, c, d) →
      a.1 < b.1 ∧ b.1 < c.1 ∧ c.1 < d.1 ∧ 0 ≤ (t - b.1) / (c.1 - b.1) ∧ (t - b.1) / (c.1 - b.1) < 1) := by
  refine ⟨findCtl_iff h a b c d, fun e => ?_⟩
  obtain ⟨l, r, rfl, h1, h2⟩ := (findCtl_iff h a b c d).1 e
  obtain ⟨_, hs, _⟩ := h.append
  obtain ⟨ha, hs⟩ := List.pairwise_cons.1 hs
  obtain ⟨hb, hs⟩ := List.pairwise_cons.1 hs
  obtain ⟨hc, hs⟩ := List.pairwise_cons.1 hs
  have hbc := hb c (by simp)
  have hp : 0 < c.1 - b.1 := by linarith
  refine ⟨ha b (by simp), hbc, hc d (by simp), div_nonneg (by linarith) hp.le, ?_⟩
  rw [div_lt_one hp]; linarith

/-- Non-vacuity: five control points one second apart enclose 1.5 s. -/
example : Sorted [(0, 1), (1, 1), (2, 1), (3, 1), (4, 1)] ∧
    findCtl 1.5 [(0, 1), (1, 1), (2, 1), (3, 1), (4, 1)] = some ((0, 1), (1, 1), (2, 1), (3, 1)) := by
  have h : Sorted [(0, 1), (1, 1), (2, 1), (3, 1), (4, 1)] := by simp [Sorted]; norm_num
  exact ⟨h, (findCtl_iff h _ _ _ _).2 ⟨[], [(4, 1)], rfl, by norm_num, by norm_num⟩⟩

/-! ## The control points made from a trajectory -/

theorem mapInsert_mem {t : ℝ} {T : M4} {m : Poses} {p : ℝ × M4} (h : p ∈ mapInsert t T m) : p = (t, T) ∨ p ∈ m := by
  induction m with
  | nil => simpa [mapInsert] using h
  | cons a m ih =>
    unfold mapInsert at h
    split_ifs at h with h1 h2
    · simpa using h
    · exact Or.inr h
    · rcases List.mem_cons.1 h with rfl | h
      · exact Or.inr (by simp)
      · rcases ih h with rfl | h
        · exact Or.inl rfl
        · exact Or.inr (by simp [h])

theorem mapInsert_keeps {t : ℝ} {T : M4} {m : Poses} {p : ℝ × M4} (h : p ∈ m) : p ∈ mapInsert t T m := by
  induction m with
  | nil => cases h
  | cons a m ih =>
    unfold mapInsert
    split_ifs with h1 h2
    · exact List.mem_cons_of_mem _ h
    · exact h
    · rcases List.mem_cons.1 h with rfl | h
      · simp
      · exact List.mem_cons_of_mem _ (ih h)

theorem mapInsert_key {t : ℝ} {T : M4} {m : Poses} : ∃ T', (t, T') ∈ mapInsert t T m := by
  induction m with
  | nil => exact ⟨T, by simp [mapInsert]⟩
  | cons a m ih =>
    unfold mapInsert
    split_ifs with h1 h2
    · exact ⟨T, by simp⟩
    · exact ⟨a.2, by simp [h2]⟩
    · obtain ⟨T', h⟩ := ih
      exact ⟨T', List.mem_cons_of_mem _ h⟩

theorem mapInsert_sorted {t : ℝ} {T : M4} {m : Poses} (h : Sorted m) : Sorted (mapInsert t T m) := by
  induction m with
  | nil => simp [mapInsert, Sorted]
  | cons a m ih =>
    obtain ⟨h1, h2⟩ := List.pairwise_cons.1 h
    unfold mapInsert
    split_ifs with c1 c2
    · refine List.pairwise_cons.2 ⟨fun p hp => ?_, h⟩
      rcases List.mem_cons.1 hp with rfl | hp
      · exact c1
      · exact c1.trans (h1 p hp)
    · exact h
    · refine List.pairwise_cons.2 ⟨fun p hp => ?_, ih h2⟩
      rcases mapInsert_mem hp with rfl | hp
      · exact lt_of_le_of_ne (not_lt.1 c1) (Ne.symm c2)
      · exact h1 p hp

theorem mapInsert_last {t : ℝ} {T : M4} {m : Poses} (h : ∀ p ∈ m, p.1 < t) : mapInsert t T m = m ++ [(t, T)] := by
  induction m with
  | nil => rfl
  | cons a m ih =>
    unfold mapInsert
    have ha := h a (by simp)
    rw [if_neg (not_lt.2 ha.le), if_neg ha.ne', ih fun p hp => h p (by simp [hp])]
    rfl

theorem trajFold (l : List TrajPt) (m : Poses) (h : Sorted m) :
    Sorted (l.foldl (fun m a => mapInsert a.t (trajPose a) m) m) ∧
    (∀ p ∈ l.foldl (fun m a => mapInsert a.t (trajPose a) m) m, p ∈ m ∨ ∃ a ∈ l, p = (a.t, trajPose a)) ∧
    (∀ p ∈ m, p ∈ l.foldl (fun m a => mapInsert a.t (trajPose a) m) m) ∧
    (∀ a ∈ l, ∃ T, (a.t, T) ∈ l.foldl (fun m a => mapInsert a.t (trajPose a) m) m) := by
  induction l generalizing m with
  | nil => exact ⟨h, fun p hp => Or.inl hp, fun p hp => hp, by simp⟩
  | cons a l ih =>
    obtain ⟨h1, h2, h3, h4⟩ := ih (mapInsert a.t (trajPose a) m) (mapInsert_sorted h)
    refine ⟨h1, fun p hp => ?_, fun p hp => h3 p (mapInsert_keeps hp), fun b hb => ?_⟩
    · rcases h2 p hp with hp | ⟨b, hb, e⟩
      · rcases mapInsert_mem hp with rfl | hp
        · exact Or.inr ⟨a, by simp, rfl⟩
        · exact Or.inl hp
      · exact Or.inr ⟨b, by simp [hb], e⟩
    · rcases List.mem_cons.1 hb with rfl | hb
      · obtain ⟨T, hT⟩ := mapInsert_key (t := b.t) (T := trajPose b) (m := m)
        exact ⟨T, h3 _ hT⟩
      · exact h4 b hb

theorem sumDt_eq (a : TrajPt) (l : List TrajPt) : sumDt (a :: l) = ((a :: l).getLast (by simp)).t - a.t := by
  induction l generalizing a with
  | nil => simp [sumDt]
  | cons b l ih =>
    unfold sumDt
    rw [ih b, List.getLast_cons (a := a) (List.cons_ne_nil b l)]
    ring

namespace Spec

/-- the times of the rows that are used: all but the last. -/
def usedTimes (traj : List TrajPt) : Set ℝ := {t | ∃ a ∈ traj.dropLast, a.t = t}

end Spec

theorem ctlLoop_spec (pts : Poses) (dt : ℝ) (t0 tmax : ℝ) (hdt : 0 < dt) (n k : ℕ) (acc : Poses)
    (hf : ∀ t, t0 ≤ t → ((findPoses t pts).isSome ↔ t < tmax))
    (hk : acc.map Prod.fst = (List.range k).map fun i : ℕ => t0 + (i : ℝ) * dt)
    (hT : ∀ p ∈ acc, ∃ a b, findPoses p.1 pts = some (a, b) ∧ p.2 = ctlPose p.1 a b)
    (K : ℕ) (hK : ∀ i : ℕ, i < K ↔ t0 + (i : ℝ) * dt < tmax) (hkK : k ≤ K) (hn : K - k ≤ n) :
    ((ctlLoop pts dt n (t0 + (k : ℝ) * dt) acc).map Prod.fst = (List.range K).map fun i : ℕ => t0 + (i : ℝ) * dt) ∧
    ∀ p ∈ ctlLoop pts dt n (t0 + (k : ℝ) * dt) acc, ∃ a b, findPoses p.1 pts = some (a, b) ∧ p.2 = ctlPose p.1 a b := by
  induction n generalizing k acc with
  | zero =>
    have : k = K := by omega
    subst this
    exact ⟨hk, hT⟩
  | succ n ih =>
    unfold ctlLoop
    have h0 : t0 ≤ t0 + (k : ℝ) * dt := by
      have : 0 ≤ (k : ℝ) * dt := by positivity
      linarith
    cases hp : findPoses (t0 + (k : ℝ) * dt) pts with
    | none =>
      have h2 := (hf _ h0).not.1 (by simp [hp])
      have : ¬ k < K := fun h => h2 ((hK k).1 h)
      have : k = K := by omega
      subst this
      exact ⟨hk, hT⟩
    | some x =>
      obtain ⟨a, b⟩ := x
      have h2 := (hf _ h0).1 (by simp [hp])
      have hlt := (hK k).2 h2
      have hlast : ∀ p ∈ acc, p.1 < t0 + (k : ℝ) * dt := by
        intro p hp'
        have : p.1 ∈ acc.map Prod.fst := List.mem_map_of_mem hp'
        rw [hk] at this
        obtain ⟨i, hi, e⟩ := List.mem_map.1 this
        have hi : (i : ℝ) < k := by exact_mod_cast List.mem_range.1 hi
        rw [← e]
        have := mul_lt_mul_of_pos_right hi hdt
        linarith
      dsimp only
      rw [mapInsert_last hlast]
      have e : t0 + (k : ℝ) * dt + dt = t0 + ((k + 1 : ℕ) : ℝ) * dt := by push_cast; ring
      rw [e]
      refine ih (k + 1) _ ?_ ?_ (by omega) (by omega)
      · rw [List.map_append, hk, List.range_succ, List.map_append]; rfl
      · intro p hp'
        rcases List.mem_append.1 hp' with hp' | hp'
        · exact hT p hp'
        · rw [List.mem_singleton.1 hp']
          exact ⟨a, b, hp, rfl⟩

theorem sorted_of_keys {m : Poses} {K : ℕ} {t0 dt : ℝ} (hdt : 0 < dt)
    (h : m.map Prod.fst = (List.range K).map fun i : ℕ => t0 + (i : ℝ) * dt) : Sorted m := by
  have : (m.map Prod.fst).Pairwise (· < ·) := by
    rw [h, List.pairwise_map]
    refine List.pairwise_lt_range.imp fun {a b} hab => ?_
    have hab : (a : ℝ) < b := by exact_mod_cast hab
    have := mul_lt_mul_of_pos_right hab hdt
    linarith
  rwa [List.pairwise_map] at this

/-- the times with a pose, for uniformly spaced control points. -/
theorem covered_iff {m : Poses} {K : ℕ} {t0 dt : ℝ} (hdt : 0 < dt)
    (h : m.map Prod.fst = (List.range K).map fun i : ℕ => t0 + (i : ℝ) * dt) (t : ℝ) :
    (findCtl t m).isSome ↔ t0 + dt ≤ t ∧ t < t0 + ((K : ℝ) - 2) * dt := by
  have hs := sorted_of_keys hdt h
  have hlen : m.length = K := by simpa using congrArg List.length h
  have hkey : ∀ (i : ℕ) (hi : i < m.length), (m[i]).1 = t0 + (i : ℝ) * dt := by
    intro i hi
    have : (m.map Prod.fst)[i]'(by simpa using hi) = t0 + (i : ℝ) * dt := by simp [h]
    simpa using this
  constructor
  · intro e
    obtain ⟨⟨a, b, c, d⟩, e⟩ := Option.isSome_iff_exists.1 e
    obtain ⟨l, r, rfl, h1, h2⟩ := (findCtl_iff hs a b c d).1 e
    have hl : l.length + 4 ≤ K := by rw [← hlen]; simp
    have hl' : (l.length : ℝ) + 4 ≤ K := by exact_mod_cast hl
    have kb := hkey (l.length + 1) (by simp)
    have kc := hkey (l.length + 2) (by simp)
    simp at kb kc
    rw [kb] at h1
    rw [kc] at h2
    have p1 : 0 ≤ (l.length : ℝ) * dt := by positivity
    have p2 := mul_le_mul_of_nonneg_right hl' hdt.le
    constructor <;> nlinarith
  · rintro ⟨h1, h2⟩
    obtain ⟨j, hj⟩ : ∃ j : ℕ, j = ⌊(t - t0) / dt⌋₊ := ⟨_, rfl⟩
    have hq : 1 ≤ (t - t0) / dt := by rw [le_div_iff₀ hdt]; linarith
    have hj1 : 1 ≤ j := by rw [hj]; exact (Nat.one_le_floor_iff _).2 hq
    have hjle : (j : ℝ) ≤ (t - t0) / dt := by rw [hj]; exact Nat.floor_le (by linarith)
    have hjlt : (t - t0) / dt < j + 1 := by rw [hj]; exact Nat.lt_floor_add_one _
    have hjK : (t - t0) / dt < K - 2 := by rw [div_lt_iff₀ hdt]; linarith
    have hjK' : j + 2 < K := by
      have : (j : ℝ) + 2 < K := by linarith
      exact_mod_cast this
    rw [le_div_iff₀ hdt] at hjle
    rw [div_lt_iff₀ hdt] at hjlt
    rw [Option.isSome_iff_exists]
    have hL : j - 1 + 3 < m.length := by omega
    have hsplit : m = m.take (j - 1) ++ m[j - 1] :: m[j - 1 + 1] :: m[j - 1 + 1 + 1] :: m[j - 1 + 1 + 1 + 1] ::
        m.drop (j - 1 + 1 + 1 + 1 + 1) := by
      rw [← List.drop_eq_getElem_cons, ← List.drop_eq_getElem_cons, ← List.drop_eq_getElem_cons,
        ← List.drop_eq_getElem_cons, List.take_append_drop]
    refine ⟨(m[j - 1], m[j - 1 + 1], m[j - 1 + 1 + 1], m[j - 1 + 1 + 1 + 1]), (findCtl_iff hs _ _ _ _).2
      ⟨_, _, hsplit, ?_, ?_⟩⟩
    · rw [hkey]
      have : j - 1 + 1 = j := by omega
      rw [this]; linarith
    · rw [hkey]
      have : j - 1 + 1 + 1 = j + 1 := by omega
      rw [this]; push_cast; linarith

theorem getPose_isSome (m : Poses) (t : ℝ) : (getPose m t).isSome = (findCtl t m).isSome := by
  unfold getPose
  split <;> simp_all

theorem exp_zero_se3 (w u : V3) : expSE3 ((0 : ℝ) • w) ((0 : ℝ) • u) = 1 := by
  have hz : skew 0 = 0 := by apply m3_ext <;> simp [skew]
  simp [expSE3, hz, mkSE3_one]

/-- **C61** The control points made by `feed_trajectory`, for every trajectory of at least two rows in any order: the loop ends by
itself; the control points sit at `tmin + k dt` for exactly the `k` with `tmin + k dt < tmax`, where `tmin` and `tmax` are the
least and greatest times of the rows before the last one and `dt` is the mean row spacing, but at least 0.05 s; a control point at
the time of a row (of pairwise different row times) has that row's pose; `get_start_time` is `tmin + 2 dt`, and `get_pose` succeeds
exactly on `[tmin + dt, tmin + (K - 2) dt)`, `K` the number of control points. -/
theorem C61_control_points (traj : List TrajPt) (a z : TrajPt) (mid : List TrajPt) (htraj : traj = a :: mid ++ [z]) :
    ∃ (N : ℕ) (f : Fed) (tmin tmax : ℝ) (K : ℕ), (∀ n, N ≤ n → feedTrajectory n traj = some f) ∧
      IsLeast (Spec.usedTimes traj) tmin ∧ IsGreatest (Spec.usedTimes traj) tmax ∧
      f.dt = max 0.05 ((z.t - a.t) / (mid.length + 1)) ∧ f.start = tmin + 2 * f.dt ∧
      (∀ k : ℕ, k < K ↔ tmin + (k : ℝ) * f.dt < tmax) ∧
      f.cps.map Prod.fst = (List.range K).map (fun k : ℕ => tmin + (k : ℝ) * f.dt) ∧ Sorted f.cps ∧
      ((traj.map TrajPt.t).Nodup → ∀ r ∈ traj.dropLast, ∀ T, (r.t, T) ∈ f.cps → T = mkSE3 (quat2Rot r.q).transpose r.p 1) ∧
      ∀ t, (getPose f.cps t).isSome ↔ tmin + f.dt ≤ t ∧ t < tmin + ((K : ℝ) - 2) * f.dt := by
  obtain ⟨hs, hmem, _, hkeys⟩ := trajFold traj.dropLast [] List.Pairwise.nil
  have hdrop : traj.dropLast = a :: mid := by rw [htraj, List.dropLast_concat]
  change Sorted (trajMap traj) at hs
  change ∀ p ∈ trajMap traj, _ at hmem
  change ∀ r ∈ traj.dropLast, ∃ T, (r.t, T) ∈ trajMap traj at hkeys
  obtain ⟨T0, hT0⟩ := hkeys a (by simp [hdrop])
  have hused : ∀ t, t ∈ Spec.usedTimes traj ↔ ∃ T, (t, T) ∈ trajMap traj := by
    intro t
    constructor
    · rintro ⟨r, hr, rfl⟩; exact hkeys r hr
    · rintro ⟨T, hT⟩
      rcases hmem _ hT with h | ⟨r, hr, e⟩
      · cases h
      · exact ⟨r, hr, (congrArg Prod.fst e).symm⟩
  obtain ⟨dt, hdt⟩ : ∃ dt, dt = avgDt traj := ⟨_, rfl⟩
  have hdteq : dt = max 0.05 ((z.t - a.t) / (mid.length + 1)) := by
    rw [hdt]
    unfold avgDt
    have e1 : sumDt traj = z.t - a.t := by
      rw [htraj, List.cons_append, sumDt_eq]; simp
    have e2 : (traj.length : ℝ) - 1 = mid.length + 1 := by rw [htraj]; simp
    rw [e1, e2]
    dsimp only
    split_ifs with c
    · exact (max_eq_left c.le).symm
    · exact (max_eq_right (not_lt.1 c)).symm
  have hdt0 : 0 < dt := by rw [hdteq]; exact lt_max_of_lt_left (by norm_num)
  cases hm : trajMap traj with
  | nil => rw [hm] at hT0; cases hT0
  | cons p r =>
    rw [hm] at hs hmem hkeys
    simp only [hm] at hused
    obtain ⟨z', hz'⟩ : ∃ z', z' = (p :: r).getLast (by simp) := ⟨_, rfl⟩
    have hpr : (p :: r).dropLast ++ [z'] = p :: r := by rw [hz']; exact List.dropLast_append_getLast _
    have hmin : ∀ x ∈ p :: r, p.1 ≤ x.1 := by
      intro x hx
      rcases List.mem_cons.1 hx with rfl | hx
      · exact le_rfl
      · exact ((List.pairwise_cons.1 hs).1 x hx).le
    have hmax : ∀ x ∈ p :: r, x.1 ≤ z'.1 := by
      intro x hx
      have hs' := hs
      rw [← hpr] at hx hs'
      rcases List.mem_append.1 hx with hx | hx
      · exact (hs'.append.2.2 x hx z' (by simp)).le
      · rw [List.mem_singleton.1 hx]
    have hz'mem : z' ∈ p :: r := by rw [hz']; exact List.getLast_mem _
    have hf : ∀ t, p.1 ≤ t → ((findPoses t (p :: r)).isSome ↔ t < z'.1) := by
      intro t ht
      constructor
      · intro h
        by_contra hc
        push Not at hc
        rw [findPoses_none_right fun x hx => (hmax x hx).trans hc] at h
        cases h
      · intro h
        obtain ⟨A, B, e, hA, hB⟩ := split_at t (p :: r) hs
        rcases List.eq_nil_or_concat A with rfl | ⟨A', b', rfl⟩
        · rw [List.nil_append] at e
          exact absurd (hB p (by rw [← e]; simp)) (not_lt.2 ht)
        · cases B with
          | nil =>
            rw [List.append_nil] at e
            exact absurd h (not_lt.2 (hA z' (by rw [← e]; exact hz'mem)))
          | cons c' B =>
            rw [List.concat_eq_append, List.append_assoc, List.singleton_append] at e
            rw [e] at hs ⊢
            rw [findPoses_at hs (hA b' (by simp)) (hB c' (by simp))]
            rfl
    obtain ⟨K, hK⟩ : ∃ K : ℕ, ∀ k : ℕ, k < K ↔ p.1 + (k : ℝ) * dt < z'.1 := by
      refine ⟨⌈(z'.1 - p.1) / dt⌉₊, fun k => ?_⟩
      rw [Nat.lt_ceil, lt_div_iff₀ hdt0]
      constructor <;> intro h <;> linarith
    have key : ∀ n, K ≤ n → feedTrajectory n traj = some ⟨ctlLoop (p :: r) dt n p.1 [], dt, p.1 + 2 * dt⟩ := by
      intro n _
      unfold feedTrajectory
      rw [if_neg (by rw [htraj]; simp), hm]
      simp only [← hdt]
    have stab : ∀ n t acc, (∃ k : ℕ, t = p.1 + (k : ℝ) * dt ∧ K - k ≤ n) →
        ctlLoop (p :: r) dt (n + 1) t acc = ctlLoop (p :: r) dt n t acc := by
      intro n
      induction n with
      | zero =>
        rintro t acc ⟨k, rfl, hk⟩
        have hp : findPoses (p.1 + (k : ℝ) * dt) (p :: r) = none := by
          have h0 : p.1 ≤ p.1 + (k : ℝ) * dt := by
            have : 0 ≤ (k : ℝ) * dt := by positivity
            linarith
          have : ¬ k < K := by omega
          have := (hf _ h0).not.2 fun h => this ((hK k).2 h)
          simpa using this
        simp [ctlLoop, hp]
      | succ n ih =>
        rintro t acc ⟨k, rfl, hk⟩
        unfold ctlLoop
        cases findPoses (p.1 + (k : ℝ) * dt) (p :: r) with
        | none => rfl
        | some x =>
          obtain ⟨x, y⟩ := x
          exact ih _ _ ⟨k + 1, by push_cast; ring, by omega⟩
    have stab' : ∀ n, K ≤ n → ctlLoop (p :: r) dt n p.1 [] = ctlLoop (p :: r) dt K p.1 [] := by
      intro n hn
      induction n, hn using Nat.le_induction with
      | base => rfl
      | succ n hn ih => rw [stab n p.1 [] ⟨0, by simp, by omega⟩, ih]
    have hspec := ctlLoop_spec (p :: r) dt p.1 z'.1 hdt0 K 0 [] hf (by simp) (by simp) K hK (Nat.zero_le _) (by omega)
    have h0' : p.1 + ((0 : ℕ) : ℝ) * dt = p.1 := by simp
    rw [h0'] at hspec
    refine ⟨K, ⟨ctlLoop (p :: r) dt K p.1 [], dt, p.1 + 2 * dt⟩, p.1, z'.1, K, fun n hn => ?_, ⟨?_, ?_⟩, ⟨?_, ?_⟩, hdteq, rfl, hK,
      hspec.1, sorted_of_keys hdt0 hspec.1, ?_, fun t => ?_⟩
    · rw [key n hn, stab' n hn]
    · exact (hused _).2 ⟨p.2, by simp⟩
    · intro t ht
      obtain ⟨T, hT⟩ := (hused t).1 ht
      exact hmin _ hT
    · exact (hused _).2 ⟨z'.2, hz'mem⟩
    · intro t ht
      obtain ⟨T, hT⟩ := (hused t).1 ht
      exact hmax _ hT
    · intro hnd q hq T hT
      obtain ⟨x, y, e1, e2⟩ := hspec.2 _ hT
      obtain ⟨l, r', e3, g1, g2⟩ := (findPoses_iff hs x y).1 e1
      obtain ⟨Tq, hTq⟩ := hkeys q hq
      dsimp only at e1 e2 g1 g2
      -- the older bounding pose is the one of the row
      have hxq : x = (q.t, Tq) := by
        rw [e3] at hTq hs
        obtain ⟨_, hs1, hl⟩ := hs.append
        obtain ⟨hx1, hs2⟩ := List.pairwise_cons.1 hs1
        rcases List.mem_append.1 hTq with h | h
        · have := hl _ h x (by simp)
          exact absurd this (not_lt.2 g1)
        · rcases List.mem_cons.1 h with h | h
          · exact h.symm
          · have : y.1 ≤ q.t := by
              rcases List.mem_cons.1 h with h | h
              · rw [← h]
              · exact ((List.pairwise_cons.1 hs2).1 _ h).le
            exact absurd g2 (not_lt.2 this)
      have hTq' : Tq = trajPose q := by
        rcases hmem _ hTq with h | ⟨q', hq', e⟩
        · cases h
        · have et : q'.t = q.t := (congrArg Prod.fst e).symm
          have : q' = q := by
            have hin : ∀ b ∈ traj.dropLast, b ∈ traj := fun b hb => List.mem_of_mem_dropLast hb
            exact List.inj_on_of_nodup_map hnd (hin _ hq') (hin _ hq) et
          rw [this] at e
          exact congrArg Prod.snd e
      rw [e2, hxq, hTq']
      unfold ctlPose
      simp only [sub_self, zero_div]
      rw [exp_zero_se3, one_mul]
      rfl
    · rw [getPose_isSome]
      exact covered_iff hdt0 hspec.1 t

/-- **C61** The pose of the last row of a trajectory is never used: changing it changes nothing. -/
theorem C61_last_row_unused (n : ℕ) (l : List TrajPt) (z z' : TrajPt) (ht : z.t = z'.t) :
    feedTrajectory n (l ++ [z]) = feedTrajectory n (l ++ [z']) := by
  have hm : trajMap (l ++ [z]) = trajMap (l ++ [z']) := by simp [trajMap]
  have hd : avgDt (l ++ [z]) = avgDt (l ++ [z']) := by
    unfold avgDt
    have : sumDt (l ++ [z]) = sumDt (l ++ [z']) := by
      cases l with
      | nil => simp [sumDt]
      | cons a l =>
        rw [List.cons_append, List.cons_append, sumDt_eq, sumDt_eq]
        simp [ht]
    rw [this]
    simp
  unfold feedTrajectory
  rw [hm, hd]
  simp

end Verif.Sim
