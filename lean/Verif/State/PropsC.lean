import Verif.State.Window
import Verif.State.Accum

/-!
# Property theorems: sliding window, landmark marginalisation, propagation order (C08, C11, C12, C66)
-/

set_option linter.unusedVariables false
set_option linter.unusedSimpArgs false
open Classical

namespace Verif.St

open Verif Verif.Types Finset Mat

variable {lib : Lib} {s s' : State} {o : Opts}

/-! ### C11 -/

namespace Spec

/-- calls between two changes of the clone window: everything except adding or removing clones. -/
def Quiet : Op → Prop
  | .augment _ | .margOld | .dropClone _ | .marginalize _ => False
  | _ => True

/-- One camera frame as processed by the estimator: `propagate_and_clone` ends with `augment_clone`; then either the frame is
used for an update that ends with `marginalize_old_clone`, or it returns early because the window is still shorter than
`min(max_clone_size, 5)` (VioManager.cpp:348), or the zero-velocity updater removes the new clone again
(UpdaterZeroVelocity.cpp:321-323). Before and in between there are any other operations. -/
inductive Round (lib : Lib) : State → State → Prop
  | full {s s0 s1 s2 s3 : State} (pre mid : List Op) (w : V3) (hpre : ∀ op ∈ pre, Quiet op) (hmid : ∀ op ∈ mid, Quiet op)
      (h0 : run lib s pre = some s0) (h1 : augment s0 w = some s1) (h2 : run lib s1 mid = some s2)
      (h3 : margOld s2 = some s3) : Round lib s s3
  | early {s s0 s1 : State} (pre : List Op) (w : V3) (hpre : ∀ op ∈ pre, Quiet op) (h0 : run lib s pre = some s0)
      (h1 : augment s0 w = some s1) (h2 : s1.clones.length < min s1.opts.maxClones 5) : Round lib s s1
  | still {s s0 s1 s2 s3 : State} (pre mid : List Op) (w : V3) (hpre : ∀ op ∈ pre, Quiet op) (hmid : ∀ op ∈ mid, Quiet op)
      (h0 : run lib s pre = some s0) (h1 : augment s0 w = some s1) (h2 : run lib s1 mid = some s2)
      (h3 : dropClone s2 s2.ts = some s3) : Round lib s s3
  | idle {s s0 : State} (pre : List Op) (hpre : ∀ op ∈ pre, Quiet op) (h0 : run lib s pre = some s0) : Round lib s s0

/-- states after any number of rounds. -/
inductive Rounds (lib : Lib) (o : Opts) : State → Prop
  | start : Rounds lib o (ctor o)
  | next {s s' : State} (h : Rounds lib o s) (h' : Round lib s s') : Rounds lib o s'

end Spec

theorem quiet_step {op : Op} (hI : Inv s) (hop : Spec.Quiet op) (h : step lib s op = some s') :
    s'.clones = s.clones ∧ s'.opts = s.opts := by
  cases op with
  | propagate nw old Phi Q =>
    obtain ⟨N, O, b, t, hN, hO, rfl, _, hcon, hr, _, _, hq, hle, _, rfl⟩ := propagate_some h
    exact ⟨rfl, rfl⟩
  | update order H res R =>
    have := update_lm hI.nodup h
    exact ⟨this.2.2.2.2.1, this.2.1⟩
  | setInit C order => obtain ⟨L, _, _, _, rfl⟩ := setInit_some h; exact ⟨rfl, rfl⟩
  | marginalize u => exact absurd hop (by simp [Spec.Quiet])
  | clone r =>
    simp only [step, Option.map_eq_some_iff] at h
    obtain ⟨⟨a, u⟩, h1, rfl⟩ := h
    obtain ⟨k, off, v, f, hu, hk, p1, p2, p3, hle, hr, rfl, rfl⟩ := clone_eq hI h1
    exact ⟨rfl, rfl⟩
  | initInv u order HR HL R res =>
    obtain ⟨hu, hnx, hRc, hR0, hiso, hrr, hHL, hHR, hHLc, hk, L, Ma, hL, hc, hM, rfl⟩ := initInv_some h
    exact ⟨rfl, rfl⟩
  | initDelayed u order HR HL R res mult =>
    simp only [step, Option.map_eq_some_iff] at h
    obtain ⟨⟨a, b⟩, h1, rfl⟩ := h
    obtain ⟨_, _, _, _, _, _, _, _, _, h2 | ⟨_, s1, h2, h3⟩⟩ := initDelayed_some h1
    · rw [h2.2]; exact ⟨rfl, rfl⟩
    · have hI1 := initInv_inv hI h2
      obtain ⟨hu, hnx, hRc, hR0, hiso, hrr, hHL, hHR, hHLc, hk, L, Ma, hL, hc, hM, rfl⟩ := initInv_some h2
      rcases h3 with ⟨_, rfl⟩ | ⟨_, h3⟩
      · exact ⟨rfl, rfl⟩
      · have := update_lm hI1.nodup h3
        exact ⟨this.2.2.2.2.1, this.2.1⟩
  | augment w => exact absurd hop (by simp [Spec.Quiet])
  | margOld => exact absurd hop (by simp [Spec.Quiet])
  | dropClone t => exact absurd hop (by simp [Spec.Quiet])
  | margSlam =>
    have key : ∀ (todo kept : List (ℕ × ℕ)) (s s' : State), Inv s → margSlamLoop todo kept s = some s' →
        s'.clones = s.clones ∧ s'.opts = s.opts := by
      intro todo
      induction todo with
      | nil => intro kept s s' _ h; simp only [margSlamLoop, Option.some.injEq] at h; subst h; exact ⟨rfl, rfl⟩
      | cons f t ih =>
        intro kept s s' hI h
        simp only [margSlamLoop] at h
        split_ifs at h with h1
        · rw [Option.bind_eq_bind, Option.bind_eq_some_iff] at h
          obtain ⟨s1, h2, h3⟩ := h
          obtain ⟨k, hk, hkn, s2, h1', e1, e2, e3, e4, e5, e7, ec, es, ecam, e6⟩ := marginalize_eq hI (marginalize_mem h2)
          rw [h2] at h1'
          obtain rfl := Option.some.inj h1'
          have := ih kept s1 s' (marginalize_inv hI h2) h3
          exact ⟨this.1.trans ec, this.2.trans e5⟩
        · exact ih _ s s' hI h
    exact key _ _ _ _ hI h
  | alloc v f => simp only [step] at h; split_ifs at h; obtain rfl := Option.some.inj h; exact ⟨rfl, rfl⟩
  | setVal u v => simp only [step] at h; split_ifs at h; obtain rfl := Option.some.inj h; exact ⟨rfl, rfl⟩
  | setCam i v => simp only [step] at h; obtain rfl := Option.some.inj h; exact ⟨rfl, rfl⟩
  | setFej u v => simp only [step] at h; split_ifs at h; obtain rfl := Option.some.inj h; exact ⟨rfl, rfl⟩
  | setMarg u b => simp only [step] at h; obtain rfl := Option.some.inj h; exact ⟨rfl, rfl⟩
  | addSlam fid u => simp only [step] at h; split_ifs at h <;> obtain rfl := Option.some.inj h <;> exact ⟨rfl, rfl⟩
  | setTime t => simp only [step] at h; obtain rfl := Option.some.inj h; exact ⟨rfl, rfl⟩

theorem quiet_notRaw {op : Op} (h : Spec.Quiet op) : Spec.NotRaw op := by cases op <;> simp_all [Spec.Quiet, Spec.NotRaw]

theorem quiet_run (ops : List Op) : ∀ {s : State}, Inv s → W o s → (∀ op ∈ ops, Spec.Quiet op) → run lib s ops = some s' →
    s'.clones = s.clones ∧ s'.opts = s.opts ∧ Inv s' ∧ W o s' := by
  induction ops with
  | nil => intro s hI hW _ h; simp only [run, Option.some.injEq] at h; subst h; exact ⟨rfl, rfl, hI, hW⟩
  | cons op t ih =>
    intro s hI hW ho h
    simp only [run, Option.bind_eq_bind, Option.bind_eq_some_iff] at h
    obtain ⟨s1, h1, h2⟩ := h
    have q := quiet_step hI (ho op (by simp)) h1
    have := ih (step_inv hI h1) (hW.step hI (quiet_notRaw (ho op (by simp))) h1) (fun x hx => ho x (by simp [hx])) h2
    exact ⟨this.1.trans q.1, this.2.1.trans q.2, this.2.2⟩

/-- `margtimestep` is the time of the first entry of a sorted map. -/
theorem margtimestep_sorted {c : ℝ × ℕ} {t : List (ℝ × ℕ)} (hc : s.clones = c :: t)
    (hs : s.clones.Pairwise fun a b => a.1 < b.1) : margtimestep s = some c.1 := by
  unfold margtimestep
  rw [hc] at hs ⊢
  have h1 := (List.pairwise_cons.1 hs).1
  simp only [List.foldl_cons]
  clear hs hc
  induction t with
  | nil => rfl
  | cons d t ih =>
    rw [List.foldl_cons]
    have : ¬ d.1 < c.1 := not_lt.2 (h1 d (by simp)).le
    simp only [if_neg this]
    exact ih fun e he => h1 e (by simp [he])

/-- **C11** After any number of camera frames: at most `max_clone_size` clones, strictly increasing (so distinct)
timestamps, and every clone is an active 6-dof variable of the state, no two entries sharing one. -/
theorem C11_window (h : Spec.Rounds lib o s) :
    s.clones.length ≤ o.maxClones ∧ s.clones.Pairwise (fun a b => a.1 < b.1) ∧
      (∀ c ∈ s.clones, c.2 ∈ s.vars ∧ Spec.dim s c.2 = 6) ∧ s.clones.Pairwise (fun a b => a.2 ≠ b.2) := by
  suffices hh : s.clones.length ≤ o.maxClones ∧ Inv s ∧ W o s by
    exact ⟨hh.1, hh.2.2.sorted, fun c hc => ⟨(hh.2.2.cin c hc).1, (hh.2.2.cin c hc).2.2.2⟩, hh.2.2.cuid⟩
  induction h with
  | start => exact ⟨by
      have hc : (ctor o).clones = [] := (foldl_push_same (ctorVars o) (ctorBase o)).2.2.2.1
      rw [hc]; simp, ctor_inv o, ctor_W o⟩
  | next h h' ih =>
    obtain ⟨ih, hI, hW⟩ := ih
    cases h' with
    | full pre mid w hpre hmid h0 h1 h2 h3 =>
      obtain ⟨q1, q2, q3, q4⟩ := quiet_run pre hI hW hpre h0
      obtain ⟨a0, a1, a2, a3, _⟩ := augment_maps q3 h1
      obtain ⟨m1, m2, m3, m4⟩ := quiet_run mid (augment_inv q3 h1) (q4.augment q3 h1) hmid h2
      refine ⟨?_, margOld_inv m3 h3, m4.margOld m3 h3⟩
      have hlen := congrArg List.length a1
      rw [insertClone_length _ _ _ a0, ← m1, q1] at hlen
      rcases margOld_cases h3 with ⟨l1, rfl⟩ | ⟨l1, t, _, l2⟩
      · rw [m4.opts] at l1; exact l1
      · have := (m4.dropClone m3 l2).2.2
        omega
    | early pre w hpre h0 h1 h2 =>
      obtain ⟨q1, q2, q3, q4⟩ := quiet_run pre hI hW hpre h0
      have hW' := q4.augment q3 h1
      rw [hW'.opts] at h2
      exact ⟨by omega, augment_inv q3 h1, hW'⟩
    | still pre mid w hpre hmid h0 h1 h2 h3 =>
      obtain ⟨q1, q2, q3, q4⟩ := quiet_run pre hI hW hpre h0
      obtain ⟨a0, a1, a2, a3, _⟩ := augment_maps q3 h1
      obtain ⟨m1, m2, m3, m4⟩ := quiet_run mid (augment_inv q3 h1) (q4.augment q3 h1) hmid h2
      have hlen := congrArg List.length a1
      rw [insertClone_length _ _ _ a0, ← m1, q1] at hlen
      have := m4.dropClone m3 h3
      exact ⟨by omega, dropClone_inv m3 h3, this.1⟩
    | idle pre hpre h0 =>
      obtain ⟨q1, q2, q3, q4⟩ := quiet_run pre hI hW hpre h0
      exact ⟨by rw [q1]; exact ih, q3, q4⟩

/-- **C11** `marginalize_old_clone` always returns; when the window is too long it removes exactly the clone with the smallest
timestamp from the map and from the state, otherwise it does nothing. -/
theorem C11_oldest_removed (h : Spec.Prog lib o s) :
    ∃ s', margOld s = some s' ∧
      (s.clones.length ≤ o.maxClones → s' = s) ∧
      (o.maxClones < s.clones.length → ∃ c ∈ s.clones, (∀ d ∈ s.clones, c.1 ≤ d.1) ∧
        s'.clones = s.clones.erase c ∧ s'.vars = s.vars.erase c.2 ∧ (s'.obj c.2).id = -1) := by
  have hI := reach_inv h.reach
  have hW := prog_W h
  by_cases hl : o.maxClones < s.clones.length
  · cases hc : s.clones with
    | nil => rw [hc] at hl; simp at hl
    | cons c t =>
      have hsort := hW.sorted
      have hmt := margtimestep_sorted hc hsort
      rw [hc] at hsort
      obtain ⟨g1, g2⟩ := List.pairwise_cons.1 hsort
      obtain ⟨hcv, _⟩ := hW.cin c (by rw [hc]; simp)
      obtain ⟨k, hk, hkn, s1, h1, e1, e2, e3, e4, e5, _, ec, es, _, e6⟩ := marginalize_eq hI hcv
      have hfind : s.clones.find? (fun d => decide (d.1 = c.1)) = some c := by rw [hc]; simp
      refine ⟨{ s1 with clones := s1.clones.filter fun d => decide (d.1 ≠ c.1) }, ?_, fun hle => ?_, fun _ => ?_⟩
      · unfold margOld
        rw [hW.opts, if_pos hl, hmt]
        simp only [Option.bind_eq_bind, Option.bind_some, dropClone, hfind, h1, Option.pure_def]
      · rw [hc] at hl; omega
      · refine ⟨c, by simp, ?_, ?_, ?_, ?_⟩
        · intro d hd
          rcases List.mem_cons.1 hd with rfl | hd
          · exact le_rfl
          · exact (g1 d hd).le
        · show s1.clones.filter _ = _
          rw [ec, hc, List.filter_cons, if_neg (by simp), List.erase_cons_head, List.filter_eq_self]
          intro d hd; simp; exact (g1 d hd).ne'
        · show s1.vars = _
          rw [e3, hI.nodup.erase_eq_filter]
          congr 1; funext x; by_cases hx : x = c.2 <;> simp [hx]
        · show (s1.obj c.2).id = -1
          rw [e6, if_pos rfl]
  · refine ⟨s, ?_, fun _ => rfl, fun h => absurd h hl⟩
    unfold margOld
    rw [hW.opts, if_neg hl]

/-- The hypotheses of C11 are met by three frames with a window of one clone. -/
theorem C11_example : ∃ s, Spec.Rounds lib Spec.o0 s ∧ s.clones = [(1, 8)] := by
  obtain ⟨s, h, _, _, hc⟩ := C01_example (lib := lib)
  simp only [run, Option.bind_eq_bind, Option.bind_eq_some_iff, Option.some.injEq, exists_eq_right'] at h
  obtain ⟨s1, h1, s2, h2, s3, h3, s4, h4, rfl⟩ := h
  refine ⟨s4, ?_, hc⟩
  have q1 : Spec.Round lib (ctor Spec.o0) s1 := by
    have hlen : s1.clones.length ≤ s1.opts.maxClones := by
      have hI := ctor_inv Spec.o0
      obtain ⟨a0, a1, a2, a3, _⟩ := augment_maps hI h1
      rw [a1, insertClone_length _ _ _ a0, a3, ctor_o0.2.2.1, ctor_o0.2.2.2.1]; simp [Spec.o0]
    refine .full [] [] 0 (by simp) (by simp) rfl h1 rfl ?_
    unfold margOld
    rw [if_neg (by omega)]
  have q2 : Spec.Round lib s1 s4 := by
    refine .full [.setTime 1] [] 0 (by simp [Spec.Quiet]) (by simp) (s0 := s2) ?_ h3 rfl h4
    simp [run, h2]
  exact .next (.next .start q1) q2

/-- one state of the program after a propagation is a state of the program. -/
theorem Spec.Prog.step (h : Spec.Prog lib o s) {op : Op} (hop : Spec.NotRaw op) (hs : St.step lib s op = some s') :
    Spec.Prog lib o s' := by
  obtain ⟨ops, ho, hr⟩ := h
  refine ⟨ops ++ [op], ?_, ?_⟩
  · intro x hx
    rcases List.mem_append.1 hx with hx | hx
    · exact ho x hx
    · obtain rfl := List.mem_singleton.1 hx; exact hop
  · rw [run_append, hr]; simp [run, hs]

/-! ### C12 -/

theorem sameMat_refl (A : Option DMat) : Spec.SameMat A A := by
  cases A with
  | none => trivial
  | some A => exact ⟨rfl, rfl, fun _ _ _ _ => rfl⟩

theorem sameMat_trans {A B C : Option DMat} (h : Spec.SameMat A B) (h' : Spec.SameMat B C) : Spec.SameMat A C := by
  cases A <;> cases B <;> cases C <;> simp only [Spec.SameMat] at h h' ⊢
  obtain ⟨a1, a2, a3⟩ := h
  obtain ⟨b1, b2, b3⟩ := h'
  exact ⟨a1.trans b1, a2.trans b2, fun i j hi hj => (a3 i j hi hj).trans (b3 i j (by omega) (by omega))⟩

theorem margSlamLoop_rest (todo : List (ℕ × ℕ)) : ∀ (kept : List (ℕ × ℕ)) (s s' : State), Spec.Reach lib s →
    margSlamLoop todo kept s = some s' →
    s'.clones = s.clones ∧ s'.ts = s.ts ∧ s'.cam = s.cam ∧ s'.opts = s.opts ∧
    (∀ u, (s'.obj u).val = (s.obj u).val ∧ (s'.obj u).fej = (s.obj u).fej ∧ (s'.obj u).marg = (s.obj u).marg) ∧
    s'.vars = s.vars.filter (fun u => decide (¬ ∃ f ∈ todo, f.2 = u ∧ (s.obj f.2).marg = true ∧ 4 * s.opts.maxAruco < f.1)) ∧
    ∀ order : List Ref,
      (∀ r ∈ order, ¬ ∃ f ∈ todo, f.2 = r.1 ∧ (s.obj f.2).marg = true ∧ 4 * s.opts.maxAruco < f.1) →
      Spec.SameMat (getMarginal s' order) (getMarginal s order) := by
  induction todo with
  | nil =>
    intro kept s s' hr h
    simp only [margSlamLoop, Option.some.injEq] at h
    subst h
    refine ⟨rfl, rfl, rfl, rfl, fun _ => ⟨rfl, rfl, rfl⟩, by simp, fun order _ => ?_⟩
    have h1 : ∀ r, resolve { s with slam := kept } r = resolve s r := fun r => rfl
    have h2 : ∀ l, resolveAll { s with slam := kept } l = resolveAll s l := by
      intro l; induction l with
      | nil => rfl
      | cons r t ih => simp only [resolveAll, h1, ih]
    simp only [getMarginal, h2]
    exact sameMat_refl _
  | cons f t ih =>
    intro kept s s' hr h
    have hI := reach_inv hr
    simp only [margSlamLoop] at h
    split_ifs at h with hc
    · rw [Option.bind_eq_bind, Option.bind_eq_some_iff] at h
      obtain ⟨s1, h1, h2⟩ := h
      have hr1 : Spec.Reach lib s1 := by
        obtain ⟨o, ops, hro⟩ := hr
        refine ⟨o, ops ++ [.marginalize f.2], ?_⟩
        rw [run_append, hro]; simp [run, step, h1]
      obtain ⟨m1, m2, m3, m4, m5, m6, m7, m8, m9⟩ := C04_marginalize hr f.2 h1
      obtain ⟨k, hk, hkn, s2, h1', e1, e2, e3, e4, e5, _, _, _, _, e6⟩ := marginalize_eq hI (marginalize_mem h1)
      rw [h1] at h1'
      obtain rfl := Option.some.inj h1'
      have hmg : ∀ u, (s1.obj u).marg = (s.obj u).marg := by
        intro u; rw [e6]; split_ifs with a b
        · subst a; rfl
        · rfl
        · rfl
      obtain ⟨i1, i2, i3, i4, i5, i6, i7⟩ := ih kept s1 s' hr1 h2
      refine ⟨i1.trans m6, i2.trans m8, i3.trans m9, i4.trans e5, fun u => ?_, ?_, fun order ho => ?_⟩
      · obtain ⟨j1, j2, j3⟩ := i5 u
        exact ⟨j1.trans (m2 u).1, j2.trans (m2 u).2, j3.trans (hmg u)⟩
      · rw [i6, e3, List.filter_filter]
        refine List.filter_congr fun u hu => ?_
        simp only [hmg, e5, ← Bool.decide_and, decide_eq_decide]
        rw [List.exists_mem_cons_iff, not_or]
        constructor
        · rintro ⟨a, b⟩; exact ⟨fun hx => b hx.1.symm, a⟩
        · rintro ⟨a, b⟩; exact ⟨b, fun hx => a ⟨hx.symm, hc⟩⟩
      · refine sameMat_trans (i7 order fun r hr' => ?_) (m1 order fun r hr' he => ?_)
        · simp only [hmg, e5]
          rintro ⟨g, hg, hg2⟩
          exact ho r hr' ⟨g, by simp [hg], hg2⟩
        · exact ho r hr' ⟨f, by simp, he.symm, hc⟩
    · obtain ⟨i1, i2, i3, i4, i5, i6, i7⟩ := ih (kept ++ [f]) s s' hr h
      refine ⟨i1, i2, i3, i4, i5, ?_, fun order ho => i7 order fun r hr' => ?_⟩
      · rw [i6]
        refine List.filter_congr fun u hu => ?_
        rw [decide_eq_decide]
        rw [List.exists_mem_cons_iff, not_or]
        constructor
        · intro a; exact ⟨fun hx => hc hx.2, a⟩
        · exact fun a => a.2
      · rintro ⟨g, hg, hg2⟩
        exact ho r hr' ⟨g, by simp [hg], hg2⟩

/-- **C12** In every state of the program, `marginalize_slam` returns; it removes from the landmark map exactly the entries
that are marked and whose id is above `4 · max_aruco_features`, and from the state exactly those landmarks; no estimate, flag,
clone or joint covariance among the remaining variables changes. -/
theorem C12_marginalize_slam (h : Spec.Prog lib o s) :
    let gone := fun f : ℕ × ℕ => (s.obj f.2).marg = true ∧ 4 * o.maxAruco < f.1
    ∃ s', margSlam s = some s' ∧
      s'.slam = s.slam.filter (fun f => decide (¬ gone f)) ∧
      s'.vars = s.vars.filter (fun u => decide (¬ ∃ f ∈ s.slam, f.2 = u ∧ gone f)) ∧
      (∀ f ∈ s.slam, gone f → (s'.obj f.2).id = -1) ∧
      (∀ u, (s'.obj u).val = (s.obj u).val ∧ (s'.obj u).fej = (s.obj u).fej ∧ (s'.obj u).marg = (s.obj u).marg) ∧
      s'.clones = s.clones ∧ s'.ts = s.ts ∧
      ∀ order : List Ref, (∀ r ∈ order, ¬ ∃ f ∈ s.slam, f.2 = r.1 ∧ gone f) →
        Spec.SameMat (getMarginal s' order) (getMarginal s order) := by
  intro gone
  have hI := reach_inv h.reach
  have hW := prog_W h
  obtain ⟨s', g1, g2, g3⟩ := margSlamLoop_spec s.slam [] s hI (by simpa using hW)
  obtain ⟨r1, r2, r3, r4, r5, r6, r7⟩ := margSlamLoop_rest s.slam [] s s' h.reach g1
  rw [hW.opts] at r6 r7
  refine ⟨s', g1, by rw [g3, List.nil_append], r6, ?_, r5, r1, r2, r7⟩
  intro f hf hg
  refine (margSlamLoop_inv _ _ hI g1).out _ fun hm => ?_
  rw [r6] at hm
  have := (List.mem_filter.1 hm).2
  simp only [decide_eq_true_eq] at this
  exact this ⟨f, hf, rfl, hg⟩

/-- C12 is not vacuous: a landmark is created, initialised, entered in the map under a non-aruco id and marked. -/
example : ∃ s, Spec.Prog lib Spec.o0 s ∧ ∃ f ∈ s.slam, (s.obj f.2).marg = true ∧ 4 * Spec.o0.maxAruco < f.1 := by
  obtain ⟨s, hr, h1, h2, h3, h4, h5, h6⟩ := run_alloc (lib := lib)
  have hs : Spec.Reach lib s := ⟨_, _, hr⟩
  have hp : Spec.Prog lib Spec.o0 s := ⟨_, by simp [Spec.NotRaw], hr⟩
  obtain ⟨s1, h'⟩ := Option.isSome_iff_exists.1 (C09_returns (lib := lib) hs 7 [(0, .p)] ⟨3, 3, one⟩
    ⟨3, 3, fun i j => 2 * one i j⟩ ⟨3, 3, one⟩ ⟨3, fun _ => 1⟩ [(3, 3)] (by rw [h1]; simp) (by omega)
    (by simp [resolveAll, resolve, h5, Val.part, h4, h2, Val.size]) (by simp [Spec.dim, h6, Val.size]) (by norm_num) rfl rfl
    rfl rfl rfl rfl (one_iso 3))
  have hp1 := hp.step (op := .initInv 7 [(0, .p)] ⟨3, 3, one⟩ ⟨3, 3, fun i j => 2 * one i j⟩ ⟨3, 3, one⟩ ⟨3, fun _ => 1⟩)
    trivial h'
  have hlm : (s.obj 7).lm = true ∧ s.slam = [] := by
    simp only [run, St.step, sameKind, and_self, if_true, Option.bind_eq_bind, Option.bind_some, Option.some.injEq] at hr
    subst hr
    have := (ctor_o0).2.2.2.2.2.1
    exact ⟨by simp only [this, if_true], by show (ctor Spec.o0).slam = []; unfold ctor; simp [foldl_push_same, ctorBase]⟩
  obtain ⟨_, _, _, _, _, _, _, _, _, _, L, Ma, _, _, _, e⟩ := initInv_some h'
  have hv : 7 ∈ s1.vars := by rw [e]; simp
  have hl1 : (s1.obj 7).lm = true := by rw [e]; simpa using hlm.1
  have hs1 : s1.slam = [] := by rw [e]; exact hlm.2
  have hp2 := hp1.step (op := .addSlam 5000 7) trivial (by
    simp only [St.step]
    rw [if_neg (by simp [hs1]), if_pos ⟨hv, hl1, by simp [hs1]⟩])
  have hp3 := hp2.step (op := .setMarg 7 true) trivial rfl
  exact ⟨_, hp3, (5000, 7), by simp [hs1], by simp, by simp [Spec.o0]⟩

/-! ### C66 and C08 -/

/-- where the variables of the IMU transition are in the covariance: the IMU first, then `D_w`, `D_a`, (`T_g`,) and one
rotation. -/
def Spec.phiBlocks (o : Opts) : List (ℕ × ℕ) :=
  [(0, 15)] ++ if o.calibImu then [(15, 6), (21, 6)] ++ (if o.calibG then [(27, 9), (36, 3)] else [(27, 3)]) else []

/-- **C66** In every state of the program and for every option combination, the variables handed to `EKFPropagation` are the
consecutive blocks `phiBlocks`, whose total size is the size of `Phi_summed` and `Qd_summed`. -/
theorem C66_phi_order (h : Spec.Prog lib o s) :
    resolveAll s (phiOrder o) = some (Spec.phiBlocks o) ∧ contiguous (Spec.phiBlocks o) = true ∧
      tot (Spec.phiBlocks o) = intrSize o + 15 := by
  have hI := reach_inv h.reach
  have hW := prog_W h
  obtain ⟨rest, hr⟩ := hW.pre
  have hc := hI.contig
  rw [hr] at hc
  have hsz : ∀ u, u < base o → osz s.obj u = (heap0 u).val.size := fun u hu => (sameKind_size (hW.kind u hu)).symm
  have hb : ∀ u, u < 7 → u < base o := fun u hu => by unfold base; omega
  have z0 : osz s.obj 0 = 15 := by rw [hsz 0 (hb 0 (by norm_num))]; simp [heap0, Val.size]
  have z1 : osz s.obj 1 = 6 := by rw [hsz 1 (hb 1 (by norm_num))]; simp [heap0, Val.size]
  have z2 : osz s.obj 2 = 6 := by rw [hsz 2 (hb 2 (by norm_num))]; simp [heap0, Val.size]
  have z3 : osz s.obj 3 = 9 := by rw [hsz 3 (hb 3 (by norm_num))]; simp [heap0, Val.size]
  have z4 : osz s.obj 4 = 3 := by rw [hsz 4 (hb 4 (by norm_num))]; simp [heap0, Val.size]
  have z5 : osz s.obj 5 = 3 := by rw [hsz 5 (hb 5 (by norm_num))]; simp [heap0, Val.size]
  have hres : ∀ u ∈ s.vars, ∀ k : ℕ, (s.obj u).id = k → resolve s (u, .self) = some (k, osz s.obj u) := by
    intro u hu k hk
    obtain ⟨k', hk', _, hr'⟩ := hI.resolve_self hu
    rw [hr']
    have : k = k' := by have := hk.symm.trans hk'; exact_mod_cast this
    rw [this]
  have hm : ∀ u ∈ ctorVars o, u ∈ s.vars := fun u hu => hW.mem hu
  unfold ctorVars at hc hm
  unfold phiOrder Spec.phiBlocks intrSize
  cases h1 : o.calibImu <;> cases h2 : o.calibG <;> cases h3 : o.kalibr <;>
    simp [h1, h2, h3, Contig, z0, z1, z2, z3, z4, z5] at hc hm ⊢ <;>
    simp only [resolveAll, imuUid] <;>
    refine ⟨?_, by simp [contiguous], by simp [tot]⟩
  all_goals simp (disch := (first | tauto)) [hres, hc, hm, z0, z1, z2, z3, z4, z5]

/-- the embedding of the IMU block in the whole state. -/
private def emb (n d : ℕ) : Matrix (Fin n) (Fin d) ℝ := fun i a => if (i : ℕ) = a then 1 else 0

private theorem emb_tr_mul {n d : ℕ} (h : d ≤ n) : (emb n d).transpose * emb n d = 1 := by
  ext a b
  simp only [Matrix.mul_apply, Matrix.transpose_apply, emb, Matrix.one_apply]
  rw [Finset.sum_eq_single (⟨a, by omega⟩ : Fin n)]
  · simp [Fin.ext_iff]
  · intro i _ hi
    have : (i : ℕ) ≠ a := fun e => hi (Fin.ext e)
    simp [this]
  · simp

private theorem emb_mul {n d : ℕ} (h : d ≤ n) (A : Mat) : emb n d * toM d d A * (emb n d).transpose =
    toM n n (fun i j => if i < d ∧ j < d then A i j else 0) := by
  ext i j
  simp only [Matrix.mul_apply, Matrix.transpose_apply, emb, toM, ite_mul, one_mul, zero_mul, mul_ite, mul_one, mul_zero]
  by_cases hj : (j : ℕ) < d
  · rw [Finset.sum_eq_single (⟨j, hj⟩ : Fin d)]
    · rw [if_pos rfl]
      by_cases hi : (i : ℕ) < d
      · rw [Finset.sum_eq_single (⟨i, hi⟩ : Fin d)]
        · simp [hi, hj]
        · intro b _ hb
          rw [if_neg fun e => hb (Fin.ext e.symm)]
        · simp
      · rw [if_neg (by tauto)]
        exact Finset.sum_eq_zero fun b _ => if_neg (by have := b.2; omega)
    · intro b _ hb
      rw [if_neg fun e => hb (Fin.ext e.symm)]
    · simp
  · rw [if_neg (by tauto)]
    exact Finset.sum_eq_zero fun b _ => if_neg (by have := b.2; omega)

/-- whole-state transition and noise of one call. -/
private noncomputable def bigF (n d : ℕ) (F : Matrix (Fin d) (Fin d) ℝ) : Matrix (Fin n) (Fin n) ℝ :=
  emb n d * F * (emb n d).transpose + (1 - emb n d * (emb n d).transpose)

private noncomputable def bigG (n d : ℕ) (Q : Matrix (Fin d) (Fin d) ℝ) : Matrix (Fin n) (Fin n) ℝ :=
  emb n d * Q * (emb n d).transpose

private theorem bigF_emb {n d : ℕ} (h : d ≤ n) (F : Matrix (Fin d) (Fin d) ℝ) : bigF n d F * emb n d = emb n d * F := by
  unfold bigF
  rw [Matrix.add_mul, Matrix.sub_mul, Matrix.one_mul, Matrix.mul_assoc, Matrix.mul_assoc _ _ (emb n d), emb_tr_mul h,
    Matrix.mul_one, Matrix.mul_one, sub_self, add_zero]

private theorem bigF_mul {n d : ℕ} (h : d ≤ n) (A B : Matrix (Fin d) (Fin d) ℝ) :
    bigF n d A * bigF n d B = bigF n d (A * B) := by
  have e : bigF n d A * (1 - emb n d * (emb n d).transpose) = 1 - emb n d * (emb n d).transpose := by
    rw [Matrix.mul_sub, Matrix.mul_one, ← Matrix.mul_assoc, bigF_emb h]
    unfold bigF
    abel
  have e2 : bigF n d A * (emb n d * B * (emb n d).transpose) = emb n d * (A * B) * (emb n d).transpose := by
    rw [← Matrix.mul_assoc, ← Matrix.mul_assoc, bigF_emb h, Matrix.mul_assoc (emb n d) A B]
  have : bigF n d B = emb n d * B * (emb n d).transpose + (1 - emb n d * (emb n d).transpose) := rfl
  rw [this, Matrix.mul_add, e, e2]
  rfl

private theorem bigF_one {n d : ℕ} : bigF n d 1 = 1 := by
  unfold bigF; rw [Matrix.mul_one]; abel

private theorem bigG_cong {n d : ℕ} (h : d ≤ n) (A Q : Matrix (Fin d) (Fin d) ℝ) :
    bigF n d A * bigG n d Q * (bigF n d A).transpose = bigG n d (A * Q * A.transpose) := by
  unfold bigG
  have e : (emb n d).transpose * (bigF n d A).transpose = A.transpose * (emb n d).transpose := by
    rw [← Matrix.transpose_mul, bigF_emb h, Matrix.transpose_mul]
  rw [← Matrix.mul_assoc, ← Matrix.mul_assoc, bigF_emb h]
  simp only [Matrix.mul_assoc]
  rw [e]

theorem ix_contig : ∀ (b : ℕ × ℕ) (t : List (ℕ × ℕ)), contiguous (b :: t) = true → ∀ j, j < tot (b :: t) →
    ix (b :: t) j = b.1 + j := by
  intro b t
  induction t generalizing b with
  | nil =>
    intro _ j hj
    simp only [tot] at hj
    simp only [ix]; rw [if_pos (by omega)]
  | cons c t ih =>
    intro h j hj
    simp only [contiguous, Bool.and_eq_true, beq_iff_eq] at h
    have ht : tot (b :: c :: t) = b.2 + tot (c :: t) := rfl
    by_cases hb : j < b.2
    · simp only [ix]; rw [if_pos hb]
    · have : ix (b :: c :: t) j = ix (c :: t) (j - b.2) := by simp only [ix]; rw [if_neg hb]
      rw [this, ih c h.2 _ (by omega)]
      omega

/-- the result of one `EKFPropagation` on the IMU block. -/
theorem propagate_big (h : Spec.Prog lib o s) {F Q : Mat} {d : ℕ} (hd : d = intrSize o + 15) (hQ : Mat.Sym d Q)
    (hs : propagate s (phiOrder o) (phiOrder o) ⟨d, d, F⟩ ⟨d, d, Q⟩ = some s') :
    d ≤ s.n ∧ s' = { s with P := s'.P } ∧
      toM s.n s.n s'.P = bigF s.n d (toM d d F) * toM s.n s.n s.P * (bigF s.n d (toM d d F)).transpose +
        bigG s.n d (toM d d Q) := by
  obtain ⟨hN, hcon, htot⟩ := C66_phi_order h
  have hP := reach_sym h.reach
  obtain ⟨N, O, b, t, hN', hO', rfl, _, _, hr, _, _, hq, hle, _, rfl⟩ := propagate_some hs
  rw [hN] at hN' hO'
  obtain rfl := Option.some.inj hO'
  have hbt := Option.some.inj hN'
  have hb1 : b.1 = 0 := by
    have : (Spec.phiBlocks o).head? = some b := by rw [hbt]; rfl
    simp [Spec.phiBlocks] at this
    rw [← this]
  have hle' : d ≤ s.n := by simp only at hle; omega
  refine ⟨hle', rfl, ?_⟩
  have heq := propCov_eq (rows := d) s.P F Q (resolveAll_le hN) hle hP
  have hE : toM s.n s.n (fullF b.1 d (Spec.phiBlocks o) F) = bigF s.n d (toM d d F) := by
    unfold bigF
    rw [emb_mul hle']
    have h1 : emb s.n d * (emb s.n d).transpose = toM s.n s.n (fun i j => if i < d ∧ j < d then one i j else 0) := by
      rw [← emb_mul hle' one, toM_one, Matrix.mul_one]
    rw [h1]
    ext i j
    have hsc : scatter (Spec.phiBlocks o) F i j = if (j : ℕ) < d then F i j else 0 := by
      simp only [scatter]
      have : ∀ x ∈ range (tot (Spec.phiBlocks o)), (if ix (Spec.phiBlocks o) x = (j : ℕ) then F i x else 0) =
          if x = (j : ℕ) then F i x else 0 := by
        intro x hx
        rw [hbt] at hx ⊢
        rw [ix_contig b t (by rw [← hbt]; exact hcon) x (Finset.mem_range.1 hx), hb1, Nat.zero_add]
      rw [Finset.sum_congr rfl this, Finset.sum_ite_eq']
      simp only [Finset.mem_range, htot, hd]
    simp only [toM, fullF, hb1, Matrix.add_apply, Matrix.sub_apply, Nat.zero_le, true_and, Nat.zero_add, Nat.sub_zero, hsc,
      Matrix.one_apply, Fin.ext_iff]
    by_cases hi : (i : ℕ) < d <;> by_cases hj : (j : ℕ) < d <;> simp [hi, hj, one]
    · by_cases hij : (i : ℕ) = j
      · omega
      · exact hij
  have hG : toM s.n s.n (fullG b.1 d Q) = bigG s.n d (toM d d Q) := by
    unfold bigG
    rw [emb_mul hle']
    ext i j
    simp only [toM, fullG, hb1, Nat.zero_le, true_and, Nat.zero_add, Nat.sub_zero]
    split_ifs with hij
    · rw [mirrorU_eq hQ hij.1 hij.2]
    · rfl
  have := eqOn_iff.1 heq
  rw [← hE, ← hG, ← toM_mul, ← toM_tr, ← toM_mul]
  exact this

theorem accum_sym (d : ℕ) (steps : List (Mat × Mat)) : ∀ acc : Mat × Mat, Mat.Sym d acc.2 →
    Mat.Sym d (steps.foldl (accumStep d) acc).2 := by
  induction steps with
  | nil => intro acc h; exact h
  | cons x t ih =>
    intro acc _
    rw [List.foldl_cons]
    refine ih _ ?_
    intro i j _ _
    simp only [accumStep]; ring

theorem propagateEach_big (steps : List (Mat × Mat)) : ∀ {s s1 : State} {acc : Mat × Mat} {d : ℕ} {X : Mat},
    Spec.Prog lib o s → d = intrSize o + 15 → d ≤ s.n →
    (∀ FQ ∈ steps, Mat.Sym d FQ.2) → Mat.Sym d acc.2 →
    toM s.n s.n s.P = bigF s.n d (toM d d acc.1) * toM s.n s.n X * (bigF s.n d (toM d d acc.1)).transpose +
      bigG s.n d (toM d d acc.2) →
    propagateEach s steps = some s1 →
    s1 = { s with P := s1.P } ∧
    toM s.n s.n s1.P = bigF s.n d (toM d d (steps.foldl (accumStep d) acc).1) * toM s.n s.n X *
      (bigF s.n d (toM d d (steps.foldl (accumStep d) acc).1)).transpose +
      bigG s.n d (toM d d (steps.foldl (accumStep d) acc).2) := by
  induction steps with
  | nil =>
    intro s s1 acc d X _ _ _ _ _ hX h
    simp only [propagateEach, Option.some.injEq] at h
    subst h
    exact ⟨rfl, hX⟩
  | cons FQ t ih =>
    intro s s1 acc d X hp hd hle hQ hacc hX h
    have ho : s.opts = o := (prog_W hp).opts
    simp only [propagateEach, ho, ← hd, Option.bind_eq_some_iff] at h
    obtain ⟨s2, h1, h2⟩ := h
    have hQ1 := hQ FQ (by simp)
    obtain ⟨_, e1, e2⟩ := propagate_big hp hd hQ1 h1
    have hp2 : Spec.Prog lib o s2 := hp.step (op := .propagate _ _ _ _) trivial h1
    have en : s2.n = s.n := by rw [e1]
    have hstep : toM d d (accumStep d acc FQ).2 = toM d d FQ.1 * toM d d acc.2 * (toM d d FQ.1).transpose + toM d d FQ.2 := by
      have hXs : Mat.Sym d (fun i j => mul d (mul d FQ.1 acc.2) (tr FQ.1) i j + FQ.2 i j) :=
        innov_sym hacc hQ1
      have : EqOn d d (accumStep d acc FQ).2 (fun i j => mul d (mul d FQ.1 acc.2) (tr FQ.1) i j + FQ.2 i j) := by
        intro i j hi hj
        have := hXs i j hi hj
        simp only at this
        simp only [accumStep, ← this]; ring
      rw [eqOn_iff.1 this, ← toM_mul, ← toM_tr, ← toM_mul]; rfl
    rw [List.foldl_cons]
    have hX2 : toM s2.n s2.n s2.P = bigF s2.n d (toM d d (accumStep d acc FQ).1) * toM s2.n s2.n X *
        (bigF s2.n d (toM d d (accumStep d acc FQ).1)).transpose + bigG s2.n d (toM d d (accumStep d acc FQ).2) := by
      rw [en, e2, hX, hstep]
      have h1 : toM d d (accumStep d acc FQ).1 = toM d d FQ.1 * toM d d acc.1 := toM_mul _ _ _ _ _
      rw [h1, ← bigF_mul hle, Matrix.mul_add, Matrix.add_mul, bigG_cong hle, add_assoc]
      have h2 : bigG s.n d (toM d d FQ.1 * toM d d acc.2 * (toM d d FQ.1).transpose) + bigG s.n d (toM d d FQ.2) =
          bigG s.n d (toM d d FQ.1 * toM d d acc.2 * (toM d d FQ.1).transpose + toM d d FQ.2) := by
        unfold bigG; rw [Matrix.mul_add, Matrix.add_mul]
      rw [h2, Matrix.transpose_mul]
      simp only [Matrix.mul_assoc]
    obtain ⟨i1, i2⟩ := ih hp2 hd (by rw [en]; exact hle) (fun x hx => hQ x (by simp [hx])) (by
      intro i j _ _; simp only [accumStep]; ring) hX2 h2
    rw [en] at i2
    refine ⟨?_, i2⟩
    rw [i1, e1]

/-- **C08** In every state of the program and for every list of per-interval transitions `F_i` and symmetric noises `Q_i` (any
number of them), one `EKFPropagation` with the accumulated matrices gives exactly the covariance of one `EKFPropagation` per
interval, applied in order; nothing but the covariance is changed by either. -/
theorem C08_summed_propagation (h : Spec.Prog lib o s) (steps : List (Mat × Mat))
    (hQ : ∀ FQ ∈ steps, Mat.Sym (intrSize o + 15) FQ.2) {s1 s2 : State} (h1 : propagateEach s steps = some s1)
    (h2 : propagateSummed s steps = some s2) :
    (∀ i j, i < s.n → j < s.n → s1.P i j = s2.P i j) ∧ s1 = { s with P := s1.P } ∧ s2 = { s with P := s2.P } := by
  have ho : s.opts = o := (prog_W h).opts
  have hz : Mat.Sym (intrSize o + 15) (fun _ _ => (0 : ℝ)) := fun _ _ _ _ => rfl
  have hsym : Mat.Sym (intrSize o + 15) (accum (intrSize o + 15) steps).2 := accum_sym _ _ _ hz
  simp only [propagateSummed, ho] at h2
  obtain ⟨hle, e1, e2⟩ := propagate_big h rfl hsym h2
  have h0 : toM (intrSize o + 15) (intrSize o + 15) (fun _ _ => (0 : ℝ)) = 0 := rfl
  let acc0 : Mat × Mat := (one, fun _ _ => 0)
  have hX : toM s.n s.n s.P = bigF s.n (intrSize o + 15) (toM _ _ acc0.1) * toM s.n s.n s.P *
      (bigF s.n (intrSize o + 15) (toM _ _ acc0.1)).transpose + bigG s.n (intrSize o + 15) (toM _ _ acc0.2) := by
    show toM s.n s.n s.P = bigF s.n (intrSize o + 15) (toM _ _ one) * toM s.n s.n s.P *
      (bigF s.n (intrSize o + 15) (toM _ _ one)).transpose + bigG s.n (intrSize o + 15) (toM _ _ (fun _ _ => (0 : ℝ)))
    simp only [toM_one, bigF_one, Matrix.one_mul, Matrix.transpose_one, Matrix.mul_one, h0, bigG, Matrix.mul_zero,
      Matrix.zero_mul, add_zero]
  obtain ⟨i1, i2⟩ := propagateEach_big steps h rfl hle hQ hz hX h1
  refine ⟨?_, i1, e1⟩
  have : EqOn s.n s.n s1.P s2.P := by
    rw [eqOn_iff, i2, e2]; rfl
  exact this

/-- a state of the program reached with admissible arguments. -/
def Spec.ProgOK (lib : Lib) (o : Opts) (s : State) : Prop :=
  ∃ ops, (∀ op ∈ ops, Spec.NotRaw op) ∧ Spec.HistOK lib (ctor o) ops ∧ run lib (ctor o) ops = some s

theorem Spec.ProgOK.prog (h : Spec.ProgOK lib o s) : Spec.Prog lib o s := by
  obtain ⟨ops, h1, _, h2⟩ := h; exact ⟨ops, h1, h2⟩

theorem mirrorU_psd {d : ℕ} {Q : Mat} (hs : Mat.Sym d Q) (hp : PSD d Q) : PSD d (mirrorU Q) := by
  rw [psd_iff] at hp ⊢
  rw [show toM d d (mirrorU Q) = toM d d Q from eqOn_iff.1 fun i j hi hj => mirrorU_eq hs hi hj]
  exact hp

theorem propagate_ok (hlib : Spec.LibOK lib) (h : Spec.ProgOK lib o s) {F Q : Mat} {d : ℕ} (hd : d = intrSize o + 15)
    (hQ : Mat.Sym d Q) (hp : PSD d Q) :
    ∃ s', propagate s (phiOrder o) (phiOrder o) ⟨d, d, F⟩ ⟨d, d, Q⟩ = some s' ∧ Spec.ProgOK lib o s' := by
  obtain ⟨hN, hcon, htot⟩ := C66_phi_order h.prog
  obtain ⟨ops, ho, hok, hr⟩ := h
  have hb : ∃ t, Spec.phiBlocks o = (0, 15) :: t := ⟨_, rfl⟩
  obtain ⟨t, hb⟩ := hb
  rw [hb] at hN hcon htot
  have hq := mirrorU_psd hQ hp
  have := C03_propagation_returns hlib o ops hok hr (phiOrder o) (phiOrder o) ⟨d, d, F⟩ ⟨d, d, Q⟩ _ _ _ hN hN (by simp) hcon
    (by rw [htot]; exact hd.symm) (by rw [htot]; exact hd.symm) rfl rfl hq
  obtain ⟨s', hs'⟩ := Option.isSome_iff_exists.1 this
  refine ⟨s', hs', ops ++ [.propagate (phiOrder o) (phiOrder o) ⟨d, d, F⟩ ⟨d, d, Q⟩], ?_, ?_, ?_⟩
  · intro x hx
    rcases List.mem_append.1 hx with hx | hx
    · exact ho x hx
    · obtain rfl := List.mem_singleton.1 hx; trivial
  · exact histOK_append hok hr ⟨hq, fun _ _ => trivial⟩
  · rw [run_append, hr]; simp [run, St.step, hs']

theorem accum_psd (d : ℕ) (steps : List (Mat × Mat)) (hQ : ∀ FQ ∈ steps, Mat.Sym d FQ.2 ∧ PSD d FQ.2) :
    ∀ acc : Mat × Mat, Mat.Sym d acc.2 → PSD d acc.2 → PSD d (steps.foldl (accumStep d) acc).2 := by
  induction steps with
  | nil => intro acc _ h; exact h
  | cons FQ t ih =>
    intro acc hs hp
    rw [List.foldl_cons]
    refine ih (fun x hx => hQ x (by simp [hx])) _ (fun i j _ _ => by simp only [accumStep]; ring) ?_
    obtain ⟨q1, q2⟩ := hQ FQ (by simp)
    have hXs : Mat.Sym d (fun i j => mul d (mul d FQ.1 acc.2) (tr FQ.1) i j + FQ.2 i j) := innov_sym hs q1
    refine psd_congr FQ.1 hp q2 fun i j hi hj => ?_
    have := hXs i j hi hj
    simp only at this
    simp only [accumStep, ← this]; ring

/-- **C08** (both calls return) With positive semidefinite noises neither way of propagating hits an assertion or exit. -/
theorem C08_returns (hlib : Spec.LibOK lib) (steps : List (Mat × Mat))
    (hQ : ∀ FQ ∈ steps, Mat.Sym (intrSize o + 15) FQ.2 ∧ PSD (intrSize o + 15) FQ.2) :
    ∀ s, Spec.ProgOK lib o s → (propagateEach s steps).isSome ∧ (propagateSummed s steps).isSome := by
  intro s h
  constructor
  · induction steps generalizing s with
    | nil => rfl
    | cons FQ t ih =>
      obtain ⟨q1, q2⟩ := hQ FQ (by simp)
      obtain ⟨s', hs', hp⟩ := propagate_ok hlib h (F := FQ.1) rfl q1 q2
      have ho : s.opts = o := (prog_W h.prog).opts
      simp only [propagateEach, ho, hs', Option.bind_some]
      exact ih (fun x hx => hQ x (by simp [hx])) s' hp
  · have ho : s.opts = o := (prog_W h.prog).opts
    have hz : Mat.Sym (intrSize o + 15) (fun _ _ => (0 : ℝ)) := fun _ _ _ _ => rfl
    have hz' : PSD (intrSize o + 15) (fun _ _ => (0 : ℝ)) := by intro x; simp [quad]
    obtain ⟨s', hs', _⟩ := propagate_ok hlib h (F := (accum (intrSize o + 15) steps).1) rfl
      (accum_sym _ steps (one, fun _ _ => 0) hz) (accum_psd _ steps hQ (one, fun _ _ => 0) hz hz')
    simp only [propagateSummed, ho]
    have : propagate s (phiOrder o) (phiOrder o) ⟨intrSize o + 15, intrSize o + 15, (accum (intrSize o + 15) steps).1⟩
      ⟨intrSize o + 15, intrSize o + 15, (accum (intrSize o + 15) steps).2⟩ = some s' := hs'
    rw [this]; rfl

/-- the hypotheses of C07, C08 and C66 are met: a fresh state, three intervals with transition `2·1` and unit noise. -/
example (hlib : Spec.LibOK lib) : ∃ s1 s2,
    propagateEach (ctor Spec.o0) (List.replicate 3 ((fun i j => 2 * one i j), one)) = some s1 ∧
    propagateSummed (ctor Spec.o0) (List.replicate 3 ((fun i j => 2 * one i j), one)) = some s2 ∧
    Spec.Prog lib Spec.o0 (ctor Spec.o0) := by
  have hp : Spec.ProgOK lib Spec.o0 (ctor Spec.o0) := ⟨[], by simp, trivial, rfl⟩
  have := C08_returns hlib (o := Spec.o0) (List.replicate 3 ((fun i j => 2 * one i j), one)) (by
    intro FQ h
    obtain ⟨_, rfl⟩ := List.mem_replicate.1 h
    refine ⟨fun i j _ _ => by simp only [one]; split_ifs <;> first | rfl | omega, ?_⟩
    intro x
    refine Finset.sum_nonneg fun i _ => Finset.sum_nonneg fun j _ => ?_
    simp only [one]; split_ifs with e
    · subst e; nlinarith [mul_self_nonneg (x i)]
    · simp) _ hp
  obtain ⟨s1, h1⟩ := Option.isSome_iff_exists.1 this.1
  obtain ⟨s2, h2⟩ := Option.isSome_iff_exists.1 this.2
  exact ⟨s1, s2, h1, h2, hp.prog⟩

end Verif.St
