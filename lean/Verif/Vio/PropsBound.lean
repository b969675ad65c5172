import Verif.Vio.PropsUsed

/-!
# The size of the state (C110)
-/

set_option autoImplicit false
set_option linter.unusedVariables false
open Classical

namespace Verif.Vio

open Verif Verif.Types Verif.St Verif.Imu Verif.Prop_ Verif.Feat Verif.Disp

variable {lib : Lib} {o : Opts} {F : FCfg} {s : State}

namespace Spec

/-- the error dimension of the IMU state and of the calibration that is estimated: 15 for orientation, position, velocity and biases; 6 + 6 + 3 for the IMU intrinsics and 9 for the g-sensitivity; 1 for the time offset; for each camera 6 for
the extrinsics and 8 for the intrinsics. -/
def calibDim (o : Opts) : ℕ :=
  15 + (if o.calibImu then 15 + (if o.calibG then 9 else 0) else 0) + (if o.calibDt then 1 else 0) + o.numCams * ((if o.calibPose then 6 else 0) + (if o.calibIntr then 8 else 0))

end Spec

theorem contig_sum {obj : ℕ → Obj} : ∀ {l : List ℕ} {a b : ℕ}, Contig obj l a b → b = a + (l.map (osz obj)).sum
  | [], a, b, h => by simp only [Contig] at h; simp [h]
  | u :: t, a, b, h => by have := contig_sum h.2; simp only [List.map_cons, List.sum_cons]; omega

theorem sum_flat (f : ℕ → List ℕ) (g : ℕ → ℕ) (k : ℕ) (h : ∀ i, ((f i).map g).sum = k) : ∀ n, (((List.range n).flatMap f).map g).sum = n * k
  | 0 => by simp
  | n + 1 => by
    rw [List.range_succ, List.flatMap_append, List.map_append, List.sum_append, sum_flat f g k h n]
    simp only [List.flatMap_cons, List.flatMap_nil, List.append_nil, h]
    ring

theorem ctor_size (o : Opts) : ((ctorVars o).map fun u => (heap0 u).val.size).sum = Spec.calibDim o := by
  unfold ctorVars Spec.calibDim
  rw [List.map_append, List.sum_append, sum_flat _ _ ((if o.calibPose then 6 else 0) + (if o.calibIntr then 8 else 0))]
  · congr 1
    cases o.calibImu <;> cases o.calibG <;> cases o.calibDt <;> cases o.kalibr <;> simp [heap0, Val.size]
  · intro i
    have e1 : (heap0 (7 + 2 * i)).val.size = 6 := by
      unfold heap0
      simp only
      rw [if_neg (by omega), if_neg (by omega), if_neg (by omega), if_neg (by omega), if_neg (by omega), if_pos (by omega)]
      rfl
    have e2 : (heap0 (intrUid i)).val.size = 8 := by
      unfold heap0 intrUid
      simp only
      rw [if_neg (by omega), if_neg (by omega), if_neg (by omega), if_neg (by omega), if_neg (by omega), if_neg (by omega)]
      rfl
    cases o.calibPose <;> cases o.calibIntr <;> simp [e1, e2]

theorem sum_const {α : Type} (f : α → ℕ) (k : ℕ) : ∀ l : List α, (∀ a ∈ l, f a = k) → (l.map f).sum = k * l.length
  | [], _ => by simp
  | a :: l, h => by
    rw [List.map_cons, List.sum_cons, h a (by simp), sum_const f k l fun b hb => h b (by simp [hb]), List.length_cons]; ring

/-- the dimension of a state all of whose variables are accounted for. -/
theorem dim_of_owned (hs : St.Spec.Prog lib o s) (ho : Spec.Owned o s) (hl : ∀ e ∈ s.slam, (s.obj e.2).val.size = 3) : s.n = Spec.calibDim o + 6 * s.clones.length + 3 * s.slam.length := by
  have hW := prog_W hs
  have hI := reach_inv hs.reach
  have hsum := contig_sum hI.contig
  rw [Nat.zero_add] at hsum
  have hlt : ∀ u ∈ ctorVars o, u < base o := (ctorVars_spec o).2
  have hperm : s.vars.Perm (ctorVars o ++ (s.clones.map Prod.snd ++ s.slam.map Prod.snd)) := by
    rw [List.perm_ext_iff_of_nodup hI.nodup]
    · intro u
      simp only [List.mem_append]
      refine ⟨ho u, ?_⟩
      rintro (h | h | h)
      · exact hW.mem h
      · obtain ⟨c, hc, rfl⟩ := List.mem_map.1 h; exact (hW.cin c hc).1
      · obtain ⟨c, hc, rfl⟩ := List.mem_map.1 h; exact (hW.sin c hc).1
    · refine List.nodup_append.2 ⟨(ctorVars_spec o).1, List.nodup_append.2 ⟨List.pairwise_map.2 hW.cuid, List.pairwise_map.2 hW.suid, ?_⟩, ?_⟩
      · rintro a ha b hb rfl
        obtain ⟨c, hc, rfl⟩ := List.mem_map.1 ha
        obtain ⟨e, he, h⟩ := List.mem_map.1 hb
        have h1 := (hW.cin c hc).2.1
        rw [← h, (hW.sin e he).2] at h1
        cases h1
      · rintro a ha b hb rfl
        rcases List.mem_append.1 hb with h | h
        · obtain ⟨c, hc, rfl⟩ := List.mem_map.1 h
          exact absurd (hlt _ ha) (not_lt.2 (hW.cin c hc).2.2.1)
        · obtain ⟨e, he, rfl⟩ := List.mem_map.1 h
          have h1 := hW.low _ (hlt _ ha)
          rw [(hW.sin e he).2] at h1
          cases h1
  rw [hsum, (hperm.map (osz s.obj)).sum_eq, List.map_append, List.map_append, List.sum_append, List.sum_append, ← ctor_size, List.map_map, List.map_map,
    sum_const (osz s.obj ∘ Prod.snd) 6 _ fun c hc => (hW.cin c hc).2.2.2, sum_const (osz s.obj ∘ Prod.snd) 3 _ fun e he => hl e he, ← Nat.add_assoc]
  congr 3
  exact List.map_congr_left fun u hu => (sameKind_size (hW.kind u (hlt u hu))).symm

theorem tags_le (h : s.slam.Pairwise fun a b => a.1 ≠ b.1) : s.slam.length ≤ Spec.plainLms o s + (4 * o.maxAruco + 1) := by
  have h1 : (s.slam.filter fun e => decide (4 * o.maxAruco < e.1)).length + (s.slam.filter fun e => !decide (4 * o.maxAruco < e.1)).length = s.slam.length := by
    rw [← List.length_append]
    exact (List.filter_append_perm _ _).length_eq
  have hnd : ((s.slam.filter fun e => !decide (4 * o.maxAruco < e.1)).map Prod.fst).Nodup := List.pairwise_map.2 (h.sublist List.filter_sublist)
  have hsub : ((s.slam.filter fun e => !decide (4 * o.maxAruco < e.1)).map Prod.fst) ⊆ List.range (4 * o.maxAruco + 1) := by
    intro i hi
    obtain ⟨e, he, rfl⟩ := List.mem_map.1 hi
    have := (List.mem_filter.1 he).2
    simp only [Bool.not_eq_true', decide_eq_false_iff_not] at this
    rw [List.mem_range]; omega
  have := (hnd.subperm hsub).length_le
  rw [List.length_map, List.length_range] at this
  unfold Spec.plainLms
  omega

theorem grown_all (hlib : St.Spec.LibOK lib) (hF : Spec.CfgOK o F) (h2 : 2 ≤ o.maxClones) (hrS : F.slam.repS ≠ .anchoredSingle) (hrA : F.slam.repA ≠ .anchoredSingle) :
    ∀ (evs : List LEv) (seen : List Meas) (x : FMgr), Spec.LoopOK lib o F seen x → Spec.LAdm lib o F seen x evs → ∃ y, runL lib F x evs = some y ∧ Spec.LoopOK lib o F (seen ++ Spec.seenIn evs) y ∧ Grown o F x.m.st y.m.st
  | [], seen, x, hx, _ => ⟨x, rfl, by simp only [Spec.seenIn, List.append_nil]; exact hx, Grown.same rfl rfl rfl⟩
  | .imu r :: es, seen, x, hx, ha => grown_all hlib hF h2 hrS hrA es seen { x with m := feedImu F.mgr x.m r } (loop_imu hx r) ha
  | .shot S :: es, seen, x, hx, ⟨hS, ht, hn⟩ => by
    obtain ⟨z, k1, k2, k3, -, -, -, k7⟩ := shot_ok hlib hF h2 hrS hrA hx hS ht
    obtain ⟨y, q1, q2, q3⟩ := grown_all hlib hF h2 hrS hrA es _ z k2 (hn z k1)
    rw [List.append_assoc] at q2
    refine ⟨y, by simp only [runL, LEv.run, k1, Option.bind_some, q1], q2, fun h => q3.own (k7.own h), ?_⟩
    have a := q3.plain
    have b := k7.plain
    omega

/-- **C110** With a window of at least two and landmarks that are not represented by a single depth, for every sequence, of any length, of readings and images that can be processed when they arrive, whatever the trackers find: the dimension
of the state is always exactly that of the IMU state and the estimated calibration, plus 6 for each clone of the window and 3 for each landmark (nothing else is left in the state); there are never more clones than the window allows; and the
landmarks outside the tag ids are never more than `max_slam_features` (or than there were at the start), those with tag ids at most one for each. So the dimension has a bound that does not depend on the length of the run. -/
theorem C110_dimension (hlib : St.Spec.LibOK lib) (hF : Spec.CfgOK o F) (h2 : 2 ≤ o.maxClones) (hrS : F.slam.repS ≠ .anchoredSingle) (hrA : F.slam.repA ≠ .anchoredSingle) (evs : List LEv) (seen : List Meas) (x : FMgr)
    (hx : Spec.LoopOK lib o F seen x) (ho : Spec.Owned o x.m.st) (ha : Spec.LAdm lib o F seen x evs) :
    ∃ y, runL lib F x evs = some y ∧ y.m.st.n = Spec.calibDim o + 6 * y.m.st.clones.length + 3 * y.m.st.slam.length ∧ y.m.st.clones.length ≤ o.maxClones ∧
      (Spec.plainLms o y.m.st : ℤ) ≤ max F.maxSlam (Spec.plainLms o x.m.st) ∧
      (y.m.st.n : ℤ) ≤ Spec.calibDim o + 6 * o.maxClones + 3 * (max F.maxSlam (Spec.plainLms o x.m.st) + (4 * o.maxAruco + 1)) := by
  obtain ⟨y, h1, h3, h4⟩ := grown_all hlib hF h2 hrS hrA evs seen x hx ha
  have hd := dim_of_owned h3.mgr.frame.prog.prog (h4.own ho) fun e he => by
    obtain ⟨v, hv⟩ := h3.mgr.frame.lms.2 e he
    rw [hv]
    simp only [Val.size, Land.Spec.dimOf, if_neg (h3.rep e he)]
  have hw := h3.mgr.window
  have ht := tags_le (o := o) (prog_W h3.mgr.frame.prog.prog).skey
  have hp := h4.plain
  refine ⟨y, h1, hd, hw, hp, ?_⟩
  omega

/-- the state of the constructor. -/
theorem owned_ctor (o : Opts) : Spec.Owned o (exStart o).m.st := by
  have hv : (ctor o).vars = ctorVars o := (foldl_push_same (ctorVars o) (ctorBase o)).2.2.1.trans (by simp [ctorBase])
  intro u hu
  exact .inl (hv ▸ hu)

/-- two and a half hours with two cameras, eleven clones, all calibration but the time offset, 50 landmarks: the dimension is never over 286. -/
example (hlib : St.Spec.LibOK lib) (feats : ℕ → List Seen) (hf : ∀ k, (∀ z ∈ feats k, z.2.1 < 2 ∧ 4 * 0 < z.1) ∧ ((feats k).map fun z => (z.1, z.2.1)).Nodup) (n : ℕ) (hn : n ≤ 9000) :
    ∃ y, runL lib { exF with maxSlam := 50 } (exStart ⟨true, true, true, false, true, true, 2, 11, 0⟩) (exShots feats 0 n) = some y ∧ y.m.st.n ≤ 286 := by
  have h0 : Spec.CfgOK ⟨true, true, true, false, true, true, 2, 11, 0⟩ exF := exF_ok (by simp)
  have hF : Spec.CfgOK ⟨true, true, true, false, true, true, 2, 11, 0⟩ { exF with maxSlam := 50 } := ⟨h0.1, h0.2, h0.3, h0.4, h0.5, h0.6, h0.7, h0.8, h0.9, h0.10, h0.11, h0.12, h0.13, h0.14⟩
  have hst := exShots_stream ⟨true, true, true, false, true, true, 2, 11, 0⟩ feats hf n 0 false [⟨0, 0, 0⟩] [] (by simp) (by simp) (by simp) (by simp; omega)
  push_cast at hst
  obtain ⟨y, h1, -, -, -, h2⟩ := C110_dimension hlib hF (by simp) (by simp [exF]) (by simp [exF]) _ _ _ (exStart_loop lib _ _) (owned_ctor _)
    (C108_stream hlib hF (by simp) (by simp [exF]) (by simp [exF]) 0 _ false _ _ _ (exStart_loop lib _ _) (exStart_has rfl _) (by simp) hst)
  refine ⟨y, h1, ?_⟩
  have hs : Spec.plainLms ⟨true, true, true, false, true, true, 2, 11, 0⟩ (exStart ⟨true, true, true, false, true, true, 2, 11, 0⟩).m.st = 0 := by
    have : (ctor ⟨true, true, true, false, true, true, 2, 11, 0⟩).slam = [] := (foldl_push_same _ (ctorBase _)).2.2.2.2.1
    simp [Spec.plainLms, exStart, this]
  rw [hs] at h2
  simp [Spec.calibDim] at h2
  omega

end Verif.Vio
