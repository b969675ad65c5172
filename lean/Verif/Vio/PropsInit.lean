import Verif.Vio.InitSm

/-!
# Initialisation state machine (C45) and races on the clone window (C88)
-/

set_option autoImplicit false

namespace Verif.Vio

theorem stride_sublist (r : ℕ) : ∀ l : List ℝ, (stride r l).Sublist l
  | [] => by rw [stride]
  | x :: xs => by
    rw [stride]
    exact ((stride_sublist r (xs.drop (r - 1))).trans (List.drop_sublist _ _)).cons_cons x
termination_by l => l.length
decreasing_by simp only [List.length_drop, List.length_cons]; omega

theorem stride_length (r : ℕ) (hr : 0 < r) : ∀ l : List ℝ, (stride r l).length * r < l.length + r
  | [] => by rw [stride]; simpa using hr
  | x :: xs => by
    rw [stride]
    have ih := stride_length r hr (xs.drop (r - 1))
    simp only [List.length_drop, List.length_cons] at ih ⊢
    rw [Nat.add_mul, one_mul]
    by_cases h : r - 1 ≤ xs.length
    · omega
    · have : stride r (xs.drop (r - 1)) = [] := by
        rw [List.drop_eq_nil_of_le (by omega), stride]
      rw [this]
      simp only [List.length_nil, Nat.zero_mul]; omega
termination_by l => l.length
decreasing_by simp only [List.length_drop, List.length_cons]; omega

structure SmInv (s : Sm) : Prop where
  one : s.threads = [] ∨ ∃ p, s.threads = [p]
  run : s.running = true ↔ s.threads ≠ []
  succ : s.success = true → s.committed ≠ []
  movec : ∀ ts, TPc.move ts ∈ s.threads → ts ∈ s.committed ∧ s.time = ts
  fin : s.success = true → ∀ p ∈ s.threads, p = .fin
  comm : s.committed ≠ [] → s.success = true ∨ ∃ ts, TPc.move ts ∈ s.threads
  inits : s.inited = true → s.success = true ∧ s.threads = [] ∧ s.main = .idle
  rs : ∀ t, s.main = .readSuccess t → s.threads = []
  sp : ∀ t, s.main = .spawn t → s.threads = [] ∧ s.success = false
  q : s.queue ++ (match s.main with | .push t => [t] | .readRunning t => [t] | _ => []) |>.Sublist s.imgs
  nogt : s.gt = false
  moved : ∀ t ∈ s.moved, t ∈ s.imgs ∧ ∃ ts ∈ s.committed, ts < t
  once : s.committed.length ≤ 1
  mv0 : s.success = false → s.moved = []

theorem split_single {α : Type} {l a b : List α} {x : α} (h : l = [] ∨ ∃ p, l = [p]) (e : l = a ++ x :: b) : a = [] ∧ b = [] ∧ l = [x] := by
  rcases h with h | ⟨p, h⟩
  · rw [h] at e; simp at e
  · rw [h] at e
    cases a with
    | nil => simp only [List.nil_append, List.cons.injEq] at e; exact ⟨rfl, e.2.symm, by rw [h, e.1]⟩
    | cons y ys => simp at e

theorem filter_mem_targets {maxClone : ℕ} {ts t : ℝ} {q : List ℝ} (h : t ∈ initTargets maxClone ts q) : t ∈ q ∧ ts < t := by
  unfold initTargets at h
  have := (stride_sublist _ _).subset h
  simp only [List.mem_filter, decide_eq_true_eq] at this
  exact this

theorem sm_inv {multi : Bool} {maxClone : ℕ} {s : Sm} (h : SmReach multi maxClone s) : SmInv s := by
  induction h with
  | init => exact ⟨Or.inl rfl, by simp [Sm.init], by simp [Sm.init], by simp [Sm.init], by simp [Sm.init], by simp [Sm.init], by simp [Sm.init], by simp [Sm.init], by simp [Sm.init], by simp [Sm.init], rfl,
      by simp [Sm.init], by simp [Sm.init], by simp [Sm.init]⟩
  | @step s0 _ _ hs ih =>
    cases hs with
    | image t h1 h2 => exact ⟨ih.one, ih.run, ih.succ, fun ts h => by rw [(ih.inits h2).2.1] at h; simp at h, ih.fin, ih.comm, ih.inits, ih.rs, ih.sp, ih.q, ih.nogt, ih.moved, ih.once, ih.mv0⟩
    | arrive t h1 h2 =>
      refine ⟨ih.one, ih.run, ih.succ, ih.movec, ih.fin, ih.comm, fun h => by simp [h2] at h, by simp, by simp, ?_, ih.nogt, fun t h => ⟨List.mem_append.mpr (Or.inl (ih.moved t h).1), (ih.moved t h).2⟩, ih.once, ih.mv0⟩
      have := ih.q
      rw [h1] at this
      simp only [List.append_nil] at this
      exact this.append (List.Sublist.refl [t])
    | busy t h1 h2 =>
      refine ⟨ih.one, ih.run, ih.succ, ih.movec, ih.fin, ih.comm, fun h => ?_, by simp, by simp, ?_, ih.nogt, ih.moved, ih.once, ih.mv0⟩
      · have := (ih.inits h).2.2; rw [h1] at this; simp at this
      · have := ih.q; rw [h1] at this; exact this
    | notBusy t h1 h2 =>
      refine ⟨ih.one, ih.run, ih.succ, ih.movec, ih.fin, ih.comm, fun h => ?_, ?_, by simp, ?_, ih.nogt, ih.moved, ih.once, ih.mv0⟩
      · have := (ih.inits h).2.2; rw [h1] at this; simp at this
      · intro _ _
        by_contra hne
        have := ih.run.mpr hne
        rw [h2] at this; simp at this
      · have := ih.q; rw [h1] at this
        simp only [List.append_nil]
        exact (List.sublist_append_left _ _).trans this
    | pushed t h1 =>
      refine ⟨ih.one, ih.run, ih.succ, ih.movec, ih.fin, ih.comm, fun h => ?_, by simp, by simp, ?_, ih.nogt, ih.moved, ih.once, ih.mv0⟩
      · have := (ih.inits h).2.2; rw [h1] at this; simp at this
      · have := ih.q; rw [h1] at this; simpa using this
    | done t h1 h2 =>
      refine ⟨ih.one, ih.run, ih.succ, ih.movec, ih.fin, ih.comm, fun _ => ⟨h2, ih.rs t h1, rfl⟩, by simp, by simp, ?_, ih.nogt, ih.moved, ih.once, ih.mv0⟩
      have := ih.q; rw [h1] at this; exact this
    | retry t h1 h2 =>
      refine ⟨ih.one, ih.run, ih.succ, ih.movec, ih.fin, ih.comm, fun h => ?_, by simp, fun _ _ => ⟨ih.rs t h1, h2⟩, ?_, ih.nogt, ih.moved, ih.once, ih.mv0⟩
      · have := (ih.inits h).2.2; rw [h1] at this; simp at this
      · have := ih.q; rw [h1] at this; exact this
    | spawn t h1 =>
      obtain ⟨e1, e2⟩ := ih.sp t h1
      refine ⟨Or.inr ⟨.run, by simp [e1]⟩, by simp, ih.succ, ?_, fun h => ?_, ?_, fun h => ?_, ?_, ?_, ?_, ih.nogt, ih.moved, ih.once, ih.mv0⟩
      · intro ts hm; simp [e1] at hm
      · simp only at h; rw [e2] at h; simp at h
      · intro hc
        rcases ih.comm hc with h | ⟨ts, h⟩
        · rw [e2] at h; simp at h
        · rw [e1] at h; simp at h
      · have := (ih.inits h).2.2; rw [h1] at this; simp at this
      · intro t' h; simp only at h; split_ifs at h
      · intro t' h; simp only at h; split_ifs at h
      · have := ih.q; rw [h1] at this
        cases multi <;> exact this
    | joined h1 h2 =>
      refine ⟨ih.one, ih.run, ih.succ, ih.movec, ih.fin, ih.comm, fun h => ?_, by simp, by simp, ?_, ih.nogt, ih.moved, ih.once, ih.mv0⟩
      · have := (ih.inits h).2.2; rw [h1] at this; simp at this
      · have := ih.q; rw [h1] at this; exact this
    | commit a b ts h1 =>
      obtain ⟨rfl, rfl, e⟩ := split_single ih.one h1
      have hns : ¬_ = true := fun h => by have := ih.fin h .run (by rw [e]; simp); simp at this
      have hc : s0.committed = [] := by
        by_contra hne
        rcases ih.comm hne with h | ⟨ts', h⟩
        · exact hns h
        · rw [e] at h; simp at h
      refine ⟨Or.inr ⟨_, rfl⟩, ?_, fun h => absurd h hns, ?_, fun h => absurd h hns, fun _ => Or.inr ⟨ts, by simp⟩, fun h => absurd (ih.inits h).1 hns, ?_, ?_, ih.q, ih.nogt, ?_, ?_, ih.mv0⟩
      · simpa [e] using ih.run
      · intro ts' hm; simp only [List.nil_append, List.mem_singleton, TPc.move.injEq] at hm; subst hm; simp
      · intro t h; have := ih.rs t h; rw [e] at this; simp at this
      · intro t h; have := (ih.sp t h).1; rw [e] at this; simp at this
      · intro t ht
        obtain ⟨m1, ts', m2, m3⟩ := ih.moved t ht
        exact ⟨m1, ts', List.mem_append.mpr (Or.inl m2), m3⟩
      · simp only [hc]; simp
    | moved a b ts h1 =>
      obtain ⟨rfl, rfl, e⟩ := split_single ih.one h1
      obtain ⟨c1, c2⟩ := ih.movec ts (by rw [e]; simp)
      have hne : _ ≠ [] := List.ne_nil_of_mem c1
      have hns : ¬_ = true := fun h => by have := ih.fin h (.move ts) (by rw [e]; simp); simp at this
      refine ⟨Or.inr ⟨_, rfl⟩, ?_, fun _ => hne, ?_, fun _ p hp => by simpa using hp, fun _ => Or.inl rfl, fun h => absurd (ih.inits h).1 hns, ?_, ?_, ?_, ih.nogt, ?_, ih.once, by simp⟩
      · simpa [e] using ih.run
      · intro ts' hm; simp at hm
      · intro t h; have := ih.rs t h; rw [e] at this; simp at this
      · intro t h; have := (ih.sp t h).1; rw [e] at this; simp at this
      · exact (List.sublist_append_right _ _).trans ih.q
      · intro t ht
        rcases List.mem_append.mp ht with ht | ht
        · exact ih.moved t ht
        · obtain ⟨f1, f2⟩ := filter_mem_targets ht
          exact ⟨ih.q.subset (List.mem_append.mpr (Or.inl f1)), ts, c1, f2⟩
    | fails a b h1 =>
      obtain ⟨rfl, rfl, e⟩ := split_single ih.one h1
      have hns : ¬_ = true := fun h => by have := ih.fin h .run (by rw [e]; simp); simp at this
      refine ⟨Or.inr ⟨_, rfl⟩, ?_, fun h => absurd h hns, ?_, fun h => absurd h hns, ?_, fun h => absurd (ih.inits h).1 hns, ?_, ?_, ih.q, ih.nogt, ih.moved, ih.once, ih.mv0⟩
      · simpa [e] using ih.run
      · intro ts' hm; simp at hm
      · intro h
        rcases ih.comm h with h | ⟨ts, h⟩
        · exact Or.inl h
        · rw [e] at h; simp at h
      · intro t h; have := ih.rs t h; rw [e] at this; simp at this
      · intro t h; have := (ih.sp t h).1; rw [e] at this; simp at this
    | notSuccess a b h1 =>
      obtain ⟨rfl, rfl, e⟩ := split_single ih.one h1
      have hns : ¬_ = true := fun h => by have := ih.fin h .failed (by rw [e]; simp); simp at this
      refine ⟨Or.inr ⟨_, rfl⟩, ?_, by simp, ?_, by simp, ?_, fun h => absurd (ih.inits h).1 hns, ?_, ?_, ih.q, ih.nogt, ih.moved, ih.once, fun _ => ih.mv0 (by simpa using hns)⟩
      · simpa [e] using ih.run
      · intro ts' hm; simp at hm
      · intro h
        rcases ih.comm h with h | ⟨ts, h⟩
        · exact absurd h hns
        · rw [e] at h; simp at h
      · intro t h; have := ih.rs t h; rw [e] at this; simp at this
      · intro t h; have := (ih.sp t h).1; rw [e] at this; simp at this
    | cleared a b h1 =>
      obtain ⟨rfl, rfl, e⟩ := split_single ih.one h1
      have hns : ¬_ = true := fun h => by have := ih.fin h .clear (by rw [e]; simp); simp at this
      refine ⟨Or.inr ⟨_, rfl⟩, ?_, fun h => absurd h hns, ?_, fun h => absurd h hns, ?_, fun h => absurd (ih.inits h).1 hns, ?_, ?_, (List.sublist_append_right _ _).trans ih.q, ih.nogt, ih.moved, ih.once, ih.mv0⟩
      · simpa [e] using ih.run
      · intro ts' hm; simp at hm
      · intro h
        rcases ih.comm h with h | ⟨ts, h⟩
        · exact Or.inl h
        · rw [e] at h; simp at h
      · intro t h; have := ih.rs t h; rw [e] at this; simp at this
      · intro t h; have := (ih.sp t h).1; rw [e] at this; simp at this
    | finish a b h1 =>
      obtain ⟨rfl, rfl, e⟩ := split_single ih.one h1
      refine ⟨Or.inl rfl, by simp, ih.succ, by simp, by simp, ?_, ?_, fun _ _ => rfl, ?_, ih.q, ih.nogt, ih.moved, ih.once, ih.mv0⟩
      · intro h
        rcases ih.comm h with h | ⟨ts, h⟩
        · exact Or.inl h
        · rw [e] at h; simp at h
      · intro h
        exact ⟨(ih.inits h).1, rfl, (ih.inits h).2.2⟩
      · intro t h
        exact ⟨rfl, (ih.sp t h).2⟩

/-- **C45** Under every interleaving of image arrivals with the background initialiser, in both threading modes: at most one background thread exists and the running flag tells whether it does; the system is marked initialised only after a
successful result was committed and its thread has ended, so nothing else writes the state of an initialised system; there is at most one committed result; the times the background thread propagates to are times of
images received before, later than the initialisation time. -/
theorem C45_state_machine (multi : Bool) (maxClone : ℕ) (s : Sm) (h : SmReach multi maxClone s) :
    s.threads.length ≤ 1 ∧ (s.running = true ↔ s.threads ≠ []) ∧ (s.inited = true → s.committed.length = 1 ∧ s.threads = []) ∧ s.committed.length ≤ 1 ∧
    ∀ t ∈ s.moved, t ∈ s.imgs ∧ ∃ ts ∈ s.committed, ts < t := by
  have hi := sm_inv h
  refine ⟨?_, hi.run, fun hin => ⟨?_, (hi.inits hin).2.1⟩, hi.once, hi.moved⟩
  · rcases hi.one with h | ⟨p, h⟩ <;> rw [h] <;> simp
  · have := List.length_pos_iff.mpr (hi.succ (hi.inits hin).1)
    have := hi.once
    omega

/-- **C45** (stays initialised) No step of any thread takes an initialised system back, nor changes its committed result or its thread flags. -/
theorem C45_stays_initialised (multi : Bool) (maxClone : ℕ) (s s' : Sm) (h : SmReach multi maxClone s) (hs : SmStep multi maxClone s s') (hin : s.inited = true) :
    s'.inited = true ∧ s'.committed = s.committed ∧ s'.threads = [] ∧ s'.moved = s.moved := by
  have hi := (sm_inv h).inits hin
  cases hs with
  | image t h1 h2 => exact ⟨hin, rfl, hi.2.1, rfl⟩
  | arrive t h1 h2 => rw [hin] at h2; simp at h2
  | busy t h1 h2 => rw [hi.2.2] at h1; simp at h1
  | notBusy t h1 h2 => rw [hi.2.2] at h1; simp at h1
  | pushed t h1 => rw [hi.2.2] at h1; simp at h1
  | done t h1 h2 => rw [hi.2.2] at h1; simp at h1
  | retry t h1 h2 => rw [hi.2.2] at h1; simp at h1
  | spawn t h1 => rw [hi.2.2] at h1; simp at h1
  | joined h1 h2 => rw [hi.2.2] at h1; simp at h1
  | commit a b ts h1 => rw [hi.2.1] at h1; simp at h1
  | moved a b ts h1 => rw [hi.2.1] at h1; simp at h1
  | fails a b h1 => rw [hi.2.1] at h1; simp at h1
  | notSuccess a b h1 => rw [hi.2.1] at h1; simp at h1
  | cleared a b h1 => rw [hi.2.1] at h1; simp at h1
  | finish a b h1 => rw [hi.2.1] at h1; simp at h1

/-- **C45** (moving forward) For every set of queued image times and every window size: after initialisation the state is moved to at most `max_clone_size` image times, all later than the initialisation time, in the
order in which the images arrived, beginning with the first of them. -/
theorem C45_move_forward (maxClone : ℕ) (hm : 0 < maxClone) (ts : ℝ) (queue : List ℝ) :
    (initTargets maxClone ts queue).length ≤ maxClone ∧ (initTargets maxClone ts queue).Sublist queue ∧ (∀ t ∈ initTargets maxClone ts queue, ts < t) ∧
    (initTargets maxClone ts queue).head? = queue.find? (fun t => decide (ts < t)) := by
  classical
  have hs := stride_sublist ((queue.filter fun t => decide (t > ts)).length / maxClone + 1) (queue.filter fun t => decide (t > ts))
  refine ⟨?_, ?_, fun t ht => (filter_mem_targets ht).2, ?_⟩
  · have := stride_length ((queue.filter fun t => decide (t > ts)).length / maxClone + 1) (Nat.succ_pos _) (queue.filter fun t => decide (t > ts))
    unfold initTargets
    simp only
    generalize (queue.filter fun t => decide (t > ts)).length = n at *
    generalize (stride _ _).length = k at *
    by_contra hk
    push Not at hk
    have h1 : (maxClone + 1) * (n / maxClone + 1) ≤ k * (n / maxClone + 1) := Nat.mul_le_mul_right _ hk
    have h2 := Nat.div_add_mod n maxClone
    have h3 := Nat.mod_lt n hm
    have h4 : (maxClone + 1) * (n / maxClone + 1) = maxClone * (n / maxClone) + n / maxClone + maxClone + 1 := by ring
    omega
  · exact hs.trans (List.filter_sublist)
  · unfold initTargets
    simp only
    rw [← List.head?_filter]
    have e : (queue.filter fun t => decide (ts < t)) = queue.filter fun t => decide (t > ts) := rfl
    rw [e]
    cases queue.filter fun t => decide (t > ts) with
    | nil => rw [stride]
    | cons x xs => rw [stride]; rfl

example : initTargets 2 1 [0.5, 2, 3, 4, 5] = [2, 5] := by
  norm_num [initTargets, stride]

/-- an execution that initialises: the first image starts the thread, a second is queued, the result is committed at time 1 and moved to the second image, a third image finds success -/
example : ∃ s, SmReach true 11 s ∧ s.inited = true ∧ s.committed = [1] ∧ s.moved = [2] := by
  refine ⟨_, .step (.step (.step (.step (.step (.step (.step (.step (.step (.step (.step (.step (.step .init (.arrive _ (3 / 2) rfl rfl)) (.notBusy _ _ rfl rfl)) (.retry _ _ rfl rfl)) (.spawn _ _ rfl))
    (.arrive _ 2 rfl rfl)) (.busy _ _ rfl rfl)) (.pushed _ _ rfl)) (.commit _ [] [] 1 rfl)) (.moved _ [] [] 1 rfl)) (.finish _ [] [] rfl)) (.arrive _ 3 rfl rfl)) (.notBusy _ _ rfl rfl)) (.done _ _ rfl rfl), rfl, rfl, ?_⟩
  norm_num [initTargets, stride, Sm.init]

/-- **C45** (finding) If ground truth is given while the background initialiser runs (nothing prevents it), the initialised system's state is overwritten later by the initialiser. -/
theorem C45_gt_race : ∃ s1 s2 s3, SmReach true 11 s1 ∧ GtStep s1 s2 ∧ s2.inited = true ∧ SmStep true 11 s2 s3 ∧ s3.time ≠ s2.time ∧ s3.committed ≠ s2.committed := by
  refine ⟨_, _, _, .step (.step (.step (.step .init (.arrive _ 1 rfl rfl)) (.notBusy _ _ rfl rfl)) (.retry _ _ rfl rfl)) (.spawn _ _ rfl), .gt _ 5 rfl, rfl, .commit _ [] [] 1 rfl, ?_, ?_⟩
  · norm_num
  · simp [Sm.init]

/-- both threads use the object at the same time -/
def Spec.Race (s : Two) : Prop := s.imu ≠ .idle ∧ s.img ≠ .idle

theorem acc_locked {o : Shared} (h1 : ∀ a ∈ o.imu, a = .locked) (h2 : ∀ a ∈ o.img, a = .locked) {s : Two} (h : AccReach o s) :
    (s.imu = .idle ∨ s.imu = .locked) ∧ (s.img = .idle ∨ s.img = .locked) ∧ ¬Spec.Race s := by
  induction h with
  | init => simp [Spec.Race]
  | step _ hs ih =>
    obtain ⟨i1, i2, i3⟩ := ih
    cases hs with
    | imuBegin a ha hi hl =>
      have e := h1 a ha
      subst e
      have := hl rfl
      refine ⟨.inr rfl, i2, fun h => h.2 (i2.resolve_right this)⟩
    | imuEnd => exact ⟨.inl rfl, i2, fun h => h.1 rfl⟩
    | imgBegin a ha hi hl =>
      have e := h2 a ha
      subst e
      have := hl rfl
      exact ⟨i1, .inr rfl, fun h => h.1 (i1.resolve_right this)⟩
    | imgEnd => exact ⟨i1, .inl rfl, fun h => h.2 rfl⟩

/-- **C88** (partial) Under every interleaving the two threads never use the propagator's readings at the same time if no zero velocity updater is used. Missing: the other cases, in which it is false, see `C88_races`. -/
theorem C88_propagator_buffer_partial (s : Two) (h : AccReach propBufferNoZupt s) : ¬Spec.Race s :=
  (acc_locked (by simp [propBufferNoZupt]) (by simp [propBufferNoZupt]) h).2.2

/-- **C88** (what is false) The lock is not taken everywhere: an interleaving makes the IMU thread read the window of clones while the image thread inserts into it, change the propagator's readings while a zero velocity update erases from them,
and change the zero velocity updater's readings while they are used. -/
theorem C88_races : (∃ s, AccReach cloneMap s ∧ s.imu = .locked ∧ s.img = .bare) ∧ (∃ s, AccReach propBuffer s ∧ s.imu = .locked ∧ s.img = .bare) ∧
    ∃ s, AccReach zuptBuffer s ∧ s.imu = .bare ∧ s.img = .bare :=
  ⟨⟨_, .step (.step .init (.imuBegin _ .locked (by simp [cloneMap]) rfl (by simp))) (.imgBegin _ .bare (by simp [cloneMap]) rfl (by simp)), rfl, rfl⟩,
   ⟨_, .step (.step .init (.imuBegin _ .locked (by simp [propBuffer]) rfl (by simp))) (.imgBegin _ .bare (by simp [propBuffer]) rfl (by simp)), rfl, rfl⟩,
   ⟨_, .step (.step .init (.imuBegin _ .bare (by simp [zuptBuffer]) rfl (by simp))) (.imgBegin _ .bare (by simp [zuptBuffer]) rfl (by simp)), rfl, rfl⟩⟩

end Verif.Vio
