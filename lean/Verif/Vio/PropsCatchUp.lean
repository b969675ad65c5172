import Verif.Vio.CatchUp
import Verif.Vio.PropsBoot
import Verif.Vio.PropsInit
import Verif.Vio.PropsWindow

/-!
# Catching up after an initialisation in the background (C114)
-/

set_option autoImplicit false
set_option linter.unusedVariables false
open Classical

namespace Verif.Vio

open Verif Verif.Types Verif.St Verif.Imu Verif.Prop_ Verif.Feat Verif.Disp

variable {lib : Lib} {o : Opts} {s s' : State} {off : ℝ} {buf : List Reading}

/-- fewer than `r` elements of an increasing list are above the last one of every `r`-th. -/
theorem stride_rest (r : ℕ) (hr : 0 < r) (d : ℝ) : ∀ l : List ℝ, l.Pairwise (· < ·) → l ≠ [] → (l.filter fun t => decide ((stride r l).getLastD d < t)).length < r
  | [], _, h => absurd rfl h
  | x :: xs, hp, _ => by
    obtain ⟨h1, h2⟩ := List.pairwise_cons.1 hp
    rw [stride]
    by_cases e : xs.drop (r - 1) = []
    · rw [e, stride]
      simp only [List.getLastD_cons, List.getLastD_nil]
      rw [List.filter_cons, if_neg (by simp)]
      have := List.length_filter_le (fun t => decide (x < t)) xs
      rw [List.drop_eq_nil_iff] at e
      omega
    · have ih := stride_rest r hr d (xs.drop (r - 1)) (h2.sublist (List.drop_sublist _ _)) e
      obtain ⟨y, ys, he⟩ := List.exists_cons_of_ne_nil e
      have hs : stride r (xs.drop (r - 1)) ≠ [] := by rw [he, stride]; simp
      have hl : (x :: stride r (xs.drop (r - 1))).getLastD d = (stride r (xs.drop (r - 1))).getLastD d := by
        cases hq : stride r (xs.drop (r - 1)) with
        | nil => exact absurd hq hs
        | cons a b => simp
      rw [hl]
      generalize hL : (stride r (xs.drop (r - 1))).getLastD d = L at *
      have hLm : L ∈ xs.drop (r - 1) := by
        rw [← hL]
        refine (stride_sublist r _).subset ?_
        rw [List.getLastD_eq_getLast?, List.getLast?_eq_some_getLast hs, Option.getD_some]
        exact List.getLast_mem hs
      have hsplit : (x :: xs).filter (fun t => decide (L < t)) = (xs.drop (r - 1)).filter fun t => decide (L < t) := by
        have hx : ¬ L < x := not_lt.2 (h1 L (List.drop_subset _ _ hLm)).le
        rw [List.filter_cons, if_neg (by simpa using hx)]
        conv_lhs => rw [← List.take_append_drop (r - 1) xs, List.filter_append]
        have : (xs.take (r - 1)).filter (fun t => decide (L < t)) = [] := by
          rw [List.filter_eq_nil_iff]
          intro a ha
          have hpw := h2
          rw [← List.take_append_drop (r - 1) xs] at hpw
          have := (List.pairwise_append.1 hpw).2.2 a ha L hLm
          simpa using this.le
        rw [this, List.nil_append]
      rw [hsplit]
      exact ih
termination_by l => l.length
decreasing_by simp only [List.length_drop, List.length_cons]; omega

/-- the state `s'` is `s` with more clones. -/
structure Moved (s s' : State) (ts : List ℝ) : Prop where
  time : s'.ts = ts.getLastD s.ts
  clones : s'.clones.map Prod.fst = s.clones.map Prod.fst ++ ts
  old : s.clones <+: s'.clones
  vars : ∃ l, s'.vars = s.vars ++ l ∧ s'.clones.map Prod.snd = s.clones.map Prod.snd ++ l
  obj : ∀ u, u ≠ imuUid → u < s.next → s'.obj u = s.obj u
  slam : s'.slam = s.slam
  n : s'.n = s.n + 6 * ts.length
  next : s.next ≤ s'.next

theorem catchUp_ok (hlib : St.Spec.LibOK lib) (po : POpts) (N : Noise) (hbuf : Imu.Spec.Sorted buf) : ∀ (ts : List ℝ) (s : State) (lo : Option ℝ), St.Spec.ProgOK lib o s → tOff s = some off → (lo = none ∨ lo = some off) →
    (∀ c ∈ s.clones, c.1 ≤ s.ts) → (s.ts :: ts).Pairwise (· < ·) → s.clones.length + ts.length ≤ o.maxClones → (∃ a ∈ buf, a.t ≤ s.ts + off) → (∀ t ∈ ts, ∃ b ∈ buf, t + off ≤ b.t) →
    (∀ t ∈ ts, (Imu.Spec.inside (s.ts + off) (t + off) buf).length < 10 ^ 7) →
    ∃ s' lo', catchUp po N buf s lo ts = some (s', lo') ∧ St.Spec.ProgOK lib o s' ∧ Moved s s' ts ∧ tOff s' = some off ∧ (lo' = none ∨ lo' = some off) ∧ ∀ c ∈ s'.clones, c.1 ≤ s'.ts
  | [], s, lo, hp, h1, h2, h3, _, _, _, _, _ => ⟨s, lo, rfl, hp, ⟨rfl, by simp, List.prefix_rfl, ⟨[], by simp⟩, fun _ _ _ => rfl, rfl, by simp, le_rfl⟩, h1, h2, h3⟩
  | t :: ts, s, lo, hp, h1, h2, h3, h4, h5, h6, h7, h8 => by
    obtain ⟨q1, q2⟩ := List.pairwise_cons.1 h4
    have hlt : s.ts < t := q1 t (by simp)
    have hg := getD_off h2
    have hne : ∀ c ∈ s.clones, c.1 ≠ t := fun c hc => ((h3 c hc).trans_lt hlt).ne
    obtain ⟨a, a1, a2⟩ := h6
    obtain ⟨s1, p1, p2, p3, p4, p5, p6, p7, -⟩ := C78_propagate_and_clone hlib hp po N buf hbuf lo h1 hlt (by rw [hg]; linarith) ⟨a, a1, by rw [hg]; exact a2⟩ (h7 t (by simp)) (by rw [hg]; exact h8 t (by simp)) hne
    rw [insertClone_last _ _ _ fun c hc => (h3 c hc).trans_lt hlt] at p5
    have hsl := prop_slam hp.prog p1
    have hopt : s1.opts = o := prog_opts p2.prog
    have hW := prog_W hp.prog
    have hmo : margOld s1 = some s1 := by
      unfold margOld
      rw [if_neg]
      rw [hopt, p5]
      simp only [List.length_append, List.length_cons, List.length_nil] at h5 ⊢
      omega
    have hdt : s1.obj dtUid = s.obj dtUid := p7 dtUid (by simp [dtUid, imuUid]) (lt_of_lt_of_le (by simp only [dtUid, base]; omega) hW.next)
    have htoff : tOff s1 = some off := by rw [← h1]; simp only [tOff, hdt]
    have hnext : s.next < s1.next := by
      have := (reach_inv p2.prog.reach).alloc s.next (by rw [p6]; simp)
      exact this
    obtain ⟨s', lo', r1, r2, r3, r4, r5, r6⟩ := catchUp_ok hlib po N hbuf ts s1 (some off) p2 htoff (.inr rfl) (by
        rw [p5, p3]
        intro c hc
        rcases List.mem_append.1 hc with hc | hc
        · exact (h3 c hc).trans hlt.le
        · rw [List.mem_singleton.1 hc])
      (by rw [p3]; exact q2) (by rw [p5]; simp only [List.length_append, List.length_cons, List.length_nil] at h5 ⊢; omega) ⟨a, a1, by rw [p3]; linarith⟩ (fun x hx => h7 x (by simp [hx]))
      (fun x hx => by
        refine lt_of_le_of_lt ?_ (h8 x (by simp [hx]))
        refine List.Sublist.length_le (List.monotone_filter_right _ fun q hq => ?_)
        simp only [decide_eq_true_eq, p3] at hq ⊢
        exact ⟨by linarith [hq.1], hq.2⟩)
    refine ⟨s', lo', ?_, r2, ?_, r4, r5, r6⟩
    · simp only [catchUp, p1, Option.bind_eq_bind, Option.bind_some, hmo, r1]
    · obtain ⟨l, l1, l2⟩ := r3.vars
      refine ⟨?_, ?_, ?_, ⟨s.next :: l, ?_, ?_⟩, fun u hu hlt => ?_, r3.slam.trans hsl, ?_, hnext.le.trans r3.next⟩
      · rw [r3.time, p3]; cases ts <;> rfl
      · rw [r3.clones, p5]; simp
      · exact (by rw [p5]; exact List.prefix_append _ _ : s.clones <+: s1.clones).trans r3.old
      · rw [l1, p6]; simp
      · rw [l2, p5]; simp
      · rw [r3.obj u hu (hlt.trans hnext), p7 u hu hlt]
      · rw [r3.n, p4, List.length_cons]; ring

/-- **C114** After an initialisation in the background: for every state just started (no clones), every queue of image times in increasing order that came meanwhile, and readings that cover the time from the start to them, the state is moved
forward without error. It then has one clone at each selected time, no more than the window allows, and none has been marginalised; the first image after the start is among them; its time is that of the last one selected, which is not after the
last image; fewer images than the selection step lie between it and the end of the queue. Everything but the IMU state and the new clones is unchanged. The filter is then ready for the next image (`MgrOK`, C106). -/
theorem C114_catch_up (hlib : St.Spec.LibOK lib) (ho : 1 ≤ o.maxClones) (po : POpts) (N : Noise) (x : FMgr) (hp : St.Spec.ProgOK lib o x.m.st) (hc : x.m.st.clones = []) (hsl : x.m.st.slam = []) (hoff : tOff x.m.st = some off) (hlo : x.m.off = none ∨ x.m.off = some off)
    (hbuf : Imu.Spec.Sorted x.m.buf) (queue : List ℝ) (hq : queue.Pairwise (· < ·)) (h0 : ∃ a ∈ x.m.buf, a.t ≤ x.m.st.ts + off) (h1 : ∀ t ∈ queue, ∃ b ∈ x.m.buf, t + off ≤ b.t) (hl : ∀ t ∈ queue, (Imu.Spec.inside (x.m.st.ts + off) (t + off) x.m.buf).length < 10 ^ 7) :
    ∃ s' lo' T, catchUpAll po N x.m.buf x.m.st x.m.off queue = some (s', lo') ∧ s'.clones.map Prod.fst = T ∧ T.Sublist queue ∧ (∀ t ∈ T, x.m.st.ts < t) ∧ T.length ≤ o.maxClones ∧ T.head? = queue.find? (fun t => decide (x.m.st.ts < t)) ∧
      s'.ts = T.getLastD x.m.st.ts ∧ (queue.filter fun t => decide (s'.ts < t)).length < (queue.filter fun t => decide (x.m.st.ts < t)).length / o.maxClones + 1 ∧
      s'.vars = x.m.st.vars ++ s'.clones.map Prod.snd ∧ s'.n = x.m.st.n + 6 * T.length ∧ s'.slam = [] ∧ (∀ u, u ≠ imuUid → u < x.m.st.next → s'.obj u = x.m.st.obj u) ∧ Spec.MgrOK lib o { x with m := { x.m with st := s', off := lo' } } := by
  have hop : x.m.st.opts = o := prog_opts hp.prog
  obtain ⟨t1, t2, t3, t4⟩ := C45_move_forward o.maxClones ho x.m.st.ts queue
  set T := initTargets o.maxClones x.m.st.ts queue with hT
  obtain ⟨s', lo', k1, k2, k3, k4, k5, k6⟩ := catchUp_ok hlib po N hbuf T x.m.st x.m.off hp hoff hlo (by simp [hc]) (List.pairwise_cons.2 ⟨t3, hq.sublist t2⟩) (by rw [hc]; simpa using t1) h0 (fun t ht => h1 t (t2.subset ht)) (fun t ht => hl t (t2.subset ht))
  obtain ⟨l, l1, l2⟩ := k3.vars
  have hcl : s'.clones.map Prod.fst = T := by rw [k3.clones, hc]; simp
  refine ⟨s', lo', T, ?_, hcl, t2, t3, t1, t4, k3.time, ?_, ?_, k3.n, k3.slam.trans hsl, k3.obj, ⟨⟨k2, ⟨?_, ?_⟩, ?_, k6⟩, ?_⟩⟩
  · unfold catchUpAll; rw [hop]; exact k1
  · by_cases e : (queue.filter fun t => decide (x.m.st.ts < t)) = []
    · have hT0 : T = [] := by
        rw [hT]; unfold initTargets
        simp only [gt_iff_lt]
        rw [e, stride]
      have hts : s'.ts = x.m.st.ts := by rw [k3.time, hT0]; rfl
      rw [hts, e]; simp
    · have := stride_rest ((queue.filter fun t => decide (x.m.st.ts < t)).length / o.maxClones + 1) (Nat.succ_pos _) x.m.st.ts (queue.filter fun t => decide (x.m.st.ts < t)) (hq.sublist List.filter_sublist) e
      refine lt_of_le_of_lt (le_of_eq ?_) this
      have e' : stride ((queue.filter fun t => decide (x.m.st.ts < t)).length / o.maxClones + 1) (queue.filter fun t => decide (x.m.st.ts < t)) = T := by rw [hT]; rfl
      rw [e', ← k3.time, List.filter_filter]
      congr 1
      refine List.filter_congr fun t ht => ?_
      have : x.m.st.ts ≤ s'.ts := by
        rw [k3.time]
        cases hh : T.getLast? with
        | none => rw [List.getLastD_eq_getLast?, hh]; simp
        | some z => rw [List.getLastD_eq_getLast?, hh]; exact (t3 z (List.mem_of_getLast? hh)).le
      by_cases c : s'.ts < t
      · simp [c, this.trans_lt c]
      · simp [c]
  · rw [l1, l2, hc]; simp
  all_goals simp [k3.slam, hsl, Upd.Spec.Anchored]
  have := congrArg List.length hcl
  simp only [List.length_map] at this
  omega

/-- the hypotheses are met: a state started at time zero, readings until time five, and images at one, two and three. -/
example (hlib : St.Spec.LibOK lib) (po : POpts) (N : Noise) {o : Opts} (ho : o.calibDt = false) (h1 : 3 ≤ o.maxClones) :
    ∃ s' lo', catchUpAll po N [⟨0, 0, 0⟩, ⟨5, 0, 0⟩] (exStart o).m.st none [1, 2, 3] = some (s', lo') ∧ s'.clones.map Prod.fst = initTargets o.maxClones 0 [1, 2, 3] := by
  obtain ⟨_, _, _, h4, h5, _, _⟩ := foldl_push_same (ctorVars o) (ctorBase o)
  have ht : tOff (exStart o).m.st = some 0 := (exStart_has ho exF).toff
  obtain ⟨t1, t2, t3, t4⟩ := C45_move_forward o.maxClones (by omega) 0 [1, 2, 3]
  have hcl : (exStart o).m.st.clones = [] := h4
  obtain ⟨s', lo', k1, k2, k3, -⟩ := catchUp_ok (off := 0) (buf := [⟨0, 0, 0⟩, ⟨5, 0, 0⟩]) hlib po N (by simp [Imu.Spec.Sorted]) (initTargets o.maxClones 0 [1, 2, 3]) (exStart o).m.st none (exStart_ok lib o).frame.prog ht (.inl rfl)
    (by rw [hcl]; simp) (List.pairwise_cons.2 ⟨t3, List.Pairwise.sublist t2 (by simp; norm_num)⟩) (by rw [hcl]; simpa using t1) ⟨⟨0, 0, 0⟩, by simp, by simp [exStart]⟩
    (fun t ht => ⟨⟨5, 0, 0⟩, by simp, by have := t2.subset ht; simp at this; rcases this with rfl | rfl | rfl <;> norm_num⟩) (fun t _ => lt_of_le_of_lt (List.length_filter_le _ _) (by simp))
  have hop : (exStart o).m.st.opts = o := prog_opts (exStart_ok lib o).frame.prog.prog
  exact ⟨s', lo', by unfold catchUpAll; rw [hop]; exact k1, by rw [k3.clones, hcl]; simp⟩

/-- **C114** (equal times) What the increasing order excludes, and why: two images of the same time in the queue (cameras triggered together whose images come as separate messages) that are both selected end the program, although the manager
accepts such images once it is running (C108). -/
theorem C114_equal_times (po : POpts) (N : Noise) (hp : St.Spec.Prog lib o s) (hm : 1 ≤ o.maxClones) (lo : Option ℝ) (t : ℝ) (rest : List ℝ) : catchUp po N buf s lo (t :: t :: rest) = none := by
  simp only [catchUp]
  cases h1 : propagateAndClone po N buf lo s t with
  | none => rfl
  | some r =>
    obtain ⟨s1, off⟩ := r
    simp only [Option.bind_eq_bind, Option.bind_some]
    obtain ⟨k1, k2, -⟩ := prop_some hp h1
    cases h2 : margOld s1 with
    | none => rfl
    | some s2 =>
      obtain ⟨-, m2, -⟩ := margOld_keep k1 h2
      simp only [Option.bind_some]
      have : propagateAndClone po N buf (some off) s2 t = none := by
        unfold propagateAndClone
        rw [if_pos (.inl (m2.trans k2))]
      rw [this]; rfl

/-- such a queue is selected as it is, for instance. -/
example : initTargets 11 1 [2, 2] = [2, 2] := by norm_num [initTargets, stride]

end Verif.Vio
