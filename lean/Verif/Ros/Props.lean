import Verif.Ros.Model

/-!
# Order of camera messages (C47) and queue discipline of the front-end (C46)
-/

set_option autoImplicit false

namespace Verif.Ros

theorem foldl_min (is : List ℤ) : ∀ i : ℤ, (is.foldl (fun m j => if j < m then j else m) i) ∈ i :: is ∧ ∀ j ∈ i :: is, is.foldl (fun m j => if j < m then j else m) i ≤ j := by
  induction is with
  | nil => intro i; simp
  | cons k ks ih =>
    intro i
    simp only [List.foldl_cons]
    obtain ⟨h1, h2⟩ := ih (if k < i then k else i)
    refine ⟨?_, ?_⟩
    · rcases List.mem_cons.mp h1 with h | h
      · rw [h]; split_ifs <;> simp
      · simp [h]
    · intro j hj
      have hle := h2 (if k < i then k else i) (by simp)
      simp only [List.mem_cons] at hj
      rcases hj with rfl | rfl | hj
      · split_ifs at hle ⊢ <;> omega
      · split_ifs at hle ⊢ <;> omega
      · exact h2 j (by simp [hj])

/-- `minElem` is the minimum -/
theorem minElem_spec (l : List ℤ) (h : l ≠ []) : ∃ m, minElem l = some m ∧ m ∈ l ∧ ∀ j ∈ l, m ≤ j := by
  cases l with
  | nil => exact absurd rfl h
  | cons i is => exact ⟨_, rfl, (foldl_min is i).1, (foldl_min is i).2⟩

/-- **C47** For all camera messages with at least one sensor id: comparing them is defined; `a` is before `b` exactly if its time is smaller or the times are equal and its smallest sensor id is smaller; the relation is
irreflexive, asymmetric and transitive, and "neither is before the other" is transitive: a strict weak order, as `std::sort` requires. -/
theorem C47_strict_weak_order (a b c : CMsg) (ha : a.ids ≠ []) (hb : b.ids ≠ []) (hc : c.ids ≠ []) :
    (a.less b).isSome ∧ (a.less b = some true ↔ a.t < b.t ∨ (a.t = b.t ∧ ∃ i ∈ a.ids, ∀ j ∈ b.ids, i < j)) ∧
    a.less a = some false ∧ (a.less b = some true → b.less a = some false) ∧ (a.less b = some true → b.less c = some true → a.less c = some true) ∧
    (a.less b = some false → b.less a = some false → b.less c = some false → c.less b = some false → a.less c = some false ∧ c.less a = some false) := by
  obtain ⟨ma, a1, a2, a3⟩ := minElem_spec a.ids ha
  obtain ⟨mb, b1, b2, b3⟩ := minElem_spec b.ids hb
  obtain ⟨mc, c1, c2, c3⟩ := minElem_spec c.ids hc
  have key : ∀ (x y : CMsg) (mx my : ℤ), minElem x.ids = some mx → minElem y.ids = some my →
      (∃ r, x.less y = some r ∧ (r = true ↔ x.t < y.t ∨ (x.t = y.t ∧ mx < my))) := by
    intro x y mx my hx hy
    unfold CMsg.less
    split_ifs with h
    · refine ⟨decide (mx < my), by rw [hx, hy], ?_⟩
      rw [decide_eq_true_eq, h]
      simp
    · refine ⟨_, rfl, ?_⟩
      rw [decide_eq_true_eq]
      exact ⟨Or.inl, fun h' => h'.resolve_right fun e => h e.1⟩
  have kt : ∀ (x y : CMsg) (mx my : ℤ), minElem x.ids = some mx → minElem y.ids = some my → (x.less y = some true ↔ x.t < y.t ∨ (x.t = y.t ∧ mx < my)) := by
    intro x y mx my hx hy
    obtain ⟨r, h1, h2⟩ := key x y mx my hx hy
    rw [h1, Option.some.injEq]; exact h2
  have kf : ∀ (x y : CMsg) (mx my : ℤ), minElem x.ids = some mx → minElem y.ids = some my → (x.less y = some false ↔ ¬(x.t < y.t ∨ (x.t = y.t ∧ mx < my))) := by
    intro x y mx my hx hy
    obtain ⟨r, h1, h2⟩ := key x y mx my hx hy
    rw [h1, Option.some.injEq, ← h2]; simp
  refine ⟨?_, ?_, ?_, ?_, ?_, ?_⟩
  · obtain ⟨r, h1, -⟩ := key a b ma mb a1 b1; rw [h1]; rfl
  · rw [kt a b ma mb a1 b1]
    have : ma < mb ↔ ∃ i ∈ a.ids, ∀ j ∈ b.ids, i < j :=
      ⟨fun h => ⟨ma, a2, fun j hj => lt_of_lt_of_le h (b3 j hj)⟩, fun ⟨i, hi, h⟩ => lt_of_le_of_lt (a3 i hi) (h mb b2)⟩
    rw [this]
  · rw [kf a a ma ma a1 a1]; simp
  · rw [kt a b ma mb a1 b1, kf b a mb ma b1 a1]
    rintro (h | ⟨h, h'⟩) (g | ⟨g, g'⟩)
    · linarith
    · linarith
    · linarith
    · omega
  · rw [kt a b ma mb a1 b1, kt b c mb mc b1 c1, kt a c ma mc a1 c1]
    rintro (h | ⟨h, h'⟩) (g | ⟨g, g'⟩)
    · left; linarith
    · left; linarith
    · left; linarith
    · right; exact ⟨h.trans g, h'.trans g'⟩
  · rw [kf a b ma mb a1 b1, kf b a mb ma b1 a1, kf b c mb mc b1 c1, kf c b mc mb c1 b1, kf a c ma mc a1 c1, kf c a mc ma c1 a1]
    intro h1 h2 h3 h4
    push Not at h1 h2 h3 h4
    have e1 : a.t = b.t := le_antisymm h2.1 h1.1
    have e2 : b.t = c.t := le_antisymm h4.1 h3.1
    have i1 := h1.2 e1
    have i2 := h2.2 e1.symm
    have i3 := h3.2 e2
    have i4 := h4.2 e2.symm
    rw [e1, e2]
    constructor <;> push Not <;> exact ⟨le_refl _, fun _ => by omega⟩

/-- a later message of camera 0, and two messages at the same time -/
example : (⟨1, [3, 0], 7⟩ : CMsg).less ⟨1, [2, 1], 8⟩ = some true ∧ (⟨2, [0], 7⟩ : CMsg).less ⟨1, [1], 8⟩ = some false := by
  constructor <;> norm_num [CMsg.less, minElem]

/-- comparing messages without sensor ids is undefined -/
theorem C47_empty_ids_undefined (t : ℝ) (b : CMsg) (h : b.t = t) (u : ℕ) : CMsg.less ⟨t, [], u⟩ b = none := by
  rw [CMsg.less, if_pos (by simp [h])]; rfl

/-! ## queue -/

/-- what the estimator has been fed, in order -/
def Node.fed (s : Node) : List CMsg := s.batches.flatMap fun b => b.2.2

theorem sorted_times {q : List CMsg} (hid : ∀ m ∈ q, m.ids ≠ []) (h : Sorted q) : q.Pairwise fun a b => a.t ≤ b.t := by
  refine List.Pairwise.imp_of_mem ?_ h
  intro a b ha hb hab
  by_contra hlt
  push Not at hlt
  have := (C47_strict_weak_order b a a (hid b hb) (hid a ha) (hid a ha)).2.1.mpr (Or.inl hlt)
  rw [hab] at this
  simp at this

structure Inv (delta : ℝ) (s : Node) : Prop where
  perm : (s.fed ++ s.queue ++ s.inflight).Perm s.accepted
  ids : ∀ m ∈ s.accepted, m.ids ≠ []
  sorted : Sorted s.queue
  run : s.running = s.thread.isSome
  bat : ∀ b ∈ s.batches, b.1 ∈ s.imus ∧ b.2.2.Pairwise (fun a c => a.t ≤ c.t) ∧ ∀ m ∈ b.2.2, m.t < b.1 - b.2.1
  thr : ∀ t ∈ s.thread, t ∈ s.imus
  last : ∀ m ∈ s.accepted, ∃ l, s.last m.cam = some l ∧ m.t ≤ l
  gap : s.accepted.Pairwise fun a b => a.cam = b.cam → a.t + delta ≤ b.t

theorem inv_step {multi : Bool} {delta : ℝ} {num : ℕ} (hd : 0 ≤ delta) {s s' : Node} (h : Inv delta s) (hs : Step multi delta num s (some s')) : Inv delta s' := by
  cases hs with
  | imuBusy t h1 h2 =>
    exact ⟨h.perm, h.ids, h.sorted, h.run, fun b hb => ⟨List.mem_append.mpr (Or.inl (h.bat b hb).1), (h.bat b hb).2⟩, fun x hx => List.mem_append.mpr (Or.inl (h.thr x hx)), h.last, h.gap⟩
  | imuStart t h1 h2 =>
    exact ⟨h.perm, h.ids, h.sorted, rfl, fun b hb => ⟨List.mem_append.mpr (Or.inl (h.bat b hb).1), (h.bat b hb).2⟩, fun x hx => by simp only [Option.mem_some_iff] at hx; simp [hx], h.last, h.gap⟩
  | ret h1 h2 => exact ⟨h.perm, h.ids, h.sorted, h.run, h.bat, h.thr, h.last, h.gap⟩
  | wait t h1 h2 => exact ⟨h.perm, h.ids, h.sorted, rfl, h.bat, by simp, h.last, h.gap⟩
  | feed t dt batch rest h1 h2 h3 h4 h5 h6 =>
    have hq : ∀ m ∈ s.queue, m.ids ≠ [] := fun m hm => h.ids m (h.perm.subset (by simp [hm]))
    have hp := h.perm
    have hst := h.sorted
    have htimes := sorted_times hq hst
    rw [h4] at hst htimes
    refine ⟨?_, h.ids, (List.pairwise_append.mp hst).2.1, rfl, ?_, by simp, h.last, h.gap⟩
    · simp only [Node.fed, List.flatMap_append, List.flatMap_cons, List.flatMap_nil, List.append_nil]
      rw [h4] at hp
      simpa [Node.fed, List.append_assoc] using hp
    · intro b hb
      rw [List.mem_append] at hb
      rcases hb with hb | hb
      · exact h.bat b hb
      · rw [List.mem_singleton] at hb
        subst hb
        exact ⟨h.thr t (by rw [h1]; rfl), (List.pairwise_append.mp htimes).1, h5⟩
  | drop m h1 => exact h
  | bad m h1 =>
    refine ⟨h.perm, h.ids, h.sorted, h.run, h.bat, h.thr, ?_, h.gap⟩
    intro a ha
    obtain ⟨l, hl, hle⟩ := h.last a ha
    by_cases hc : a.cam = m.cam
    · refine ⟨m.t, by simp [hc], ?_⟩
      by_contra hlt
      exact h1 ⟨l, by rw [← hc]; exact hl, by push Not at hlt; linarith⟩
    · exact ⟨l, by dsimp only; rw [Function.update_of_ne hc]; exact hl, hle⟩
  | accept m h0 h1 =>
    have hm : ∀ a ∈ s.accepted, a.cam = m.cam → a.t + delta ≤ m.t := by
      intro a ha hc
      obtain ⟨l, hl, hle⟩ := h.last a ha
      by_contra hlt
      exact h1 ⟨l, by rw [← hc]; exact hl, by push Not at hlt; linarith⟩
    refine ⟨?_, ?_, h.sorted, h.run, h.bat, h.thr, ?_, ?_⟩
    · have := h.perm.append_right [m]
      simpa [Node.fed, List.append_assoc] using this
    · intro a ha
      rcases List.mem_append.mp ha with ha | ha
      · exact h.ids a ha
      · rw [List.mem_singleton] at ha; rw [ha]; exact h0
    · intro a ha
      rcases List.mem_append.mp ha with ha | ha
      · by_cases hc : a.cam = m.cam
        · exact ⟨m.t, by simp [hc], by have := hm a ha hc; linarith⟩
        · obtain ⟨l, hl, hle⟩ := h.last a ha
          exact ⟨l, by dsimp only; rw [Function.update_of_ne hc]; exact hl, hle⟩
      · rw [List.mem_singleton] at ha; subst ha
        exact ⟨a.t, by simp, le_refl _⟩
    · rw [List.pairwise_append]
      refine ⟨h.gap, List.pairwise_singleton _ _, ?_⟩
      intro a ha b hb hc
      rw [List.mem_singleton] at hb; subst hb
      exact hm a ha hc
  | push m rest q h1 h2 h3 =>
    refine ⟨?_, h.ids, h3, h.run, h.bat, h.thr, h.last, h.gap⟩
    refine List.Perm.trans ?_ h.perm
    have e1 : (s.queue ++ s.inflight).Perm (s.queue ++ (m :: rest)) := h1.append_left _
    have e2 : (q ++ rest).Perm (s.queue ++ [m] ++ rest) := h2.append_right _
    have e3 : (q ++ rest).Perm (s.queue ++ s.inflight) := e2.trans (by simpa using e1.symm)
    have := e3.append_left s.fed
    simpa [Node.fed, List.append_assoc] using this

theorem inv_reach {multi : Bool} {delta : ℝ} {num : ℕ} (hd : 0 ≤ delta) {s : Node} (h : Reach multi delta num s) : Inv delta s := by
  induction h with
  | init => exact ⟨by simp [Node.init, Node.fed], by simp [Node.init], List.Pairwise.nil, rfl, by simp [Node.init], by simp [Node.init], by simp [Node.init], by simp [Node.init]⟩
  | step _ hs ih => exact inv_step hd ih hs

/-- **C46** For every interleaving of IMU callbacks, camera callbacks and the update thread (in both modes, as long as no undefined behaviour occurred): the accepted messages are exactly those fed to the estimator, those
waiting in the queue and those whose callback waits for the lock, each once: nothing is lost or fed twice. The thread's runs are disjoint, and within each run messages are fed in time order and only if an IMU
reading was received whose time, minus the estimated offset, is later. Accepted messages of a camera are at least one tracking period apart. -/
theorem C46_queue_discipline_partial (multi : Bool) (delta : ℝ) (num : ℕ) (hd : 0 ≤ delta) (s : Node) (h : Reach multi delta num s) :
    (s.fed ++ s.queue ++ s.inflight).Perm s.accepted ∧ (s.running = true ↔ s.thread.isSome) ∧
    (∀ b ∈ s.batches, b.1 ∈ s.imus ∧ b.2.2.Pairwise (fun a c => a.t ≤ c.t) ∧ ∀ m ∈ b.2.2, m.t + b.2.1 < b.1) ∧
    s.accepted.Pairwise (fun a b => a.cam = b.cam → a.t + delta ≤ b.t) := by
  have hi := inv_reach hd h
  refine ⟨hi.perm, by rw [hi.run], fun b hb => ⟨(hi.bat b hb).1, (hi.bat b hb).2.1, fun m hm => ?_⟩, hi.gap⟩
  have := (hi.bat b hb).2.2 m hm
  linarith

/-- **C46** (nothing is left behind) A run of the update thread leaves no message in the queue that it could have processed. -/
theorem C46_batch_complete (multi : Bool) (delta : ℝ) (num : ℕ) (hd : 0 ≤ delta) (s s' : Node) (h : Reach multi delta num s) (hs : Step multi delta num s (some s'))
    (t dt : ℝ) (batch : List CMsg) (hb : s'.batches = s.batches ++ [(t, dt, batch)]) : ∀ m ∈ s'.queue, t ≤ m.t + dt := by
  have hi := inv_reach hd h
  have hne : ¬(s.batches = s.batches ++ [(t, dt, batch)]) := by
    intro e
    have := congrArg List.length e
    simp at this
  cases hs with
  | feed t' dt' batch' rest h1 h2 h3 h4 h5 h6 =>
    simp only [List.append_cancel_left_eq, List.cons.injEq, Prod.mk.injEq, and_true] at hb
    obtain ⟨rfl, rfl, rfl⟩ := hb
    intro m hm
    simp only at hm
    have hq : ∀ m ∈ s.queue, m.ids ≠ [] := fun m hm => hi.ids m (hi.perm.subset (by simp [hm]))
    have htimes := sorted_times hq hi.sorted
    rw [h4] at htimes
    have hrest := (List.pairwise_append.mp htimes).2.1
    cases rest with
    | nil => simp at hm
    | cons r rs =>
      have hr := h6 r (by simp)
      rcases List.mem_cons.mp hm with rfl | hm
      · linarith
      · have := (List.pairwise_cons.mp hrest).1 m hm
        linarith
  | _ => exact absurd hb hne

/-- **C46** (single-threaded mode) If the callback joins the thread, undefined behaviour is not reachable. -/
theorem C46_join_safe (delta : ℝ) (num : ℕ) (s : Node) (h : Reach false delta num s) : ¬Step false delta num s none := by
  have hop : ∀ t ∈ s.thread, s.open_ = true := by
    induction h with
    | init => simp [Node.init]
    | step _ hs ih =>
      cases hs with
      | imuBusy t h1 h2 => exact ih
      | imuStart t h1 h2 => intro _ _; rfl
      | ret h1 h2 =>
        intro t ht
        simp only [Bool.false_eq_true, false_or] at h2
        simp only [h2] at ht
        simp at ht
      | wait t h1 h2 => intro t ht; simp at ht
      | feed t dt batch rest h1 h2 h3 h4 h5 h6 => intro t ht; simp at ht
      | drop m h1 => exact ih
      | bad m h1 => exact ih
      | accept m h0 h1 => exact ih
      | push m rest q h1 h2 h3 => exact ih
  intro hs
  cases hs with
  | dangling t h1 h2 h3 =>
    have := hop t (by rw [h1]; rfl)
    rw [h2] at this
    simp at this

/-- states for the example: one image of camera 0 is queued, the thread was started by an IMU reading at time 2 -/
def exS1 : Node := ⟨[], [⟨1, [0], 5⟩], Function.update (fun _ => none) 0 (some 1), false, none, false, [⟨1, [0], 5⟩], [], []⟩
def exS2 : Node := ⟨[⟨1, [0], 5⟩], [], Function.update (fun _ => none) 0 (some 1), false, none, false, [⟨1, [0], 5⟩], [], []⟩
def exS3 : Node := ⟨[⟨1, [0], 5⟩], [], Function.update (fun _ => none) 0 (some 1), true, some 2, true, [⟨1, [0], 5⟩], [2], []⟩

theorem exS3_reach (multi : Bool) : Reach multi (1 / 20) 1 exS3 := by
  refine .step (.step (.step .init (s' := exS1) ?_) (s' := exS2) ?_) ?_
  · exact .accept Node.init ⟨1, [0], 5⟩ (by simp) (by rintro ⟨l, h, -⟩; simp [Node.init] at h)
  · exact .push exS1 ⟨1, [0], 5⟩ [] [⟨1, [0], 5⟩] (List.Perm.refl _) (List.Perm.refl _) (List.pairwise_singleton _ _)
  · exact .imuStart exS2 2 rfl rfl

/-- a batch is fed -/
example : ∃ s', Step false (1 / 20) 1 exS3 (some s') ∧ s'.fed = [⟨1, [0], 5⟩] :=
  ⟨_, .feed exS3 2 (1 / 100) [⟨1, [0], 5⟩] [] rfl rfl (by simp [Node.enough, exS3, CMsg.cam]) rfl (by intro m hm; simp only [List.mem_singleton] at hm; subst hm; norm_num) (by simp), rfl⟩

/-- **C46** (what is false) In the multi-threaded mode the thread captures the callback's local message by reference and is detached: undefined behaviour is reachable whenever the callback returns before the thread has read
the IMU time. -/
theorem C46_dangling_reference : ∃ s, Reach true (1 / 20) 1 s ∧ Step true (1 / 20) 1 s none :=
  ⟨{ exS3 with open_ := false }, .step (exS3_reach true) (.ret exS3 rfl (Or.inl rfl)), .dangling _ 2 rfl rfl (by simp [Node.enough, exS3, CMsg.cam])⟩

end Verif.Ros
