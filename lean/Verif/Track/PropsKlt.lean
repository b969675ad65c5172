import Verif.Track.KltLemmas

/-!
# The KLT tracker keeps its lists consistent (C64, C87)
-/

set_option autoImplicit false

namespace Verif.Track

namespace Spec

/-- a message the tracker may be given: every camera at most once; `sched` is an order in which the parallel calls may increment the shared counter (each call as often as it has new points). -/
def MsgOk (cfg : TCfg) (T : Tracker) : Msg → Prop
  | .mono xs sched => (xs.map MonoIn.cam).Nodup ∧ ∀ (j : ℕ) (x : MonoIn), xs[j]? = some x → monoNeed cfg (T.cam x.cam) x.img x.ext = some (sched.count j)
  | .stereo l r _ => l ≠ r

/-- the trackers that any sequence of messages, with any images and any answers of OpenCV, can lead to -/
inductive Reach (cfg : TCfg) (numAruco : ℕ) : Tracker → Prop
  | init : Reach cfg numAruco (Tracker.init numAruco)
  | step {T T' : Tracker} {m : Msg} {obs : List (ℕ × ℕ × Pt)} : Reach cfg numAruco T → MsgOk cfg T m → T.feed cfg m = some (T', obs) → Reach cfg numAruco T'

end Spec

/-- the invariant -/
structure Inv (lo : ℕ) (T : Tracker) : Prop where
  len : ∀ c, (T.cam c).pts.length = (T.cam c).ids.length
  nd : ∀ c, (T.cam c).ids.Nodup
  le : ∀ c, ∀ i ∈ (T.cam c).ids, lo < i ∧ i ≤ T.cur
  lo : lo ≤ T.cur
  both : ∀ c c' i, c ≠ c' → i ∈ (T.cam c).ids → i ∈ (T.cam c').ids → (i, c, c') ∈ T.pairs ∨ (i, c', c) ∈ T.pairs
  pnd : (T.pairs.map Prod.fst).Nodup
  ple : ∀ e ∈ T.pairs, e.1 ≤ T.cur

/-- what one stereo call does -/
theorem feedStereo_spec (cfg : TCfg) (cl cr : Cam) (cur : ℕ) (x : StereoIn) (ll : cl.pts.length = cl.ids.length) (lr : cr.pts.length = cr.ids.length)
    (nl : cl.ids.Nodup) (nr : cr.ids.Nodup) (bl : ∀ i ∈ cl.ids, i ≤ cur) (br : ∀ i ∈ cr.ids, i ≤ cur) :
    ∃ o, feedStereo cfg cl cr cur x = some o ∧ o.cl.pts.length = o.cl.ids.length ∧ o.cr.pts.length = o.cr.ids.length ∧ o.cl.ids.Nodup ∧ o.cr.ids.Nodup ∧ cur ≤ o.cur ∧
      (∀ i ∈ o.cl.ids, i ∈ cl.ids ∨ (cur < i ∧ i ≤ o.cur)) ∧ (∀ i ∈ o.cr.ids, i ∈ cr.ids ∨ (cur < i ∧ i ≤ o.cur)) ∧
      (∀ i, i ∈ o.cl.ids → i ∈ o.cr.ids → (i ∈ cl.ids ∧ i ∈ cr.ids) ∨ i ∈ o.born) ∧ o.born.Nodup ∧ (∀ i ∈ o.born, cur < i ∧ i ≤ o.cur) ∧
      (o.obsL.map Prod.fst).Nodup ∧ (o.obsR.map Prod.fst).Nodup ∧ (∀ e ∈ o.obsL, e.1 ∈ o.cl.ids) ∧ (∀ e ∈ o.obsR, e.1 ∈ o.cr.ids) := by
  unfold feedStereo
  split_ifs with c1
  · obtain ⟨d, h1, h2⟩ := detectStereo_spec cfg x.imgL x.imgR [] [] [] [] cur x.extL x.extR x.lr rfl rfl (by simp) (by simp) (by simp) (by simp)
    simp only [h1]
    refine ⟨_, rfl, h2.lenL, h2.lenR, h2.ndL, h2.ndR, h2.le, ?_, ?_, ?_, h2.bornNd, h2.bornNew, by simp, by simp, by simp, by simp⟩
    · intro i hi; have := h2.memL i hi; simp only [List.not_mem_nil, false_or] at this; exact Or.inr this
    · intro i hi; have := h2.memR i hi; simp only [List.not_mem_nil, false_or] at this; exact Or.inr this
    · intro i hi hj; have := h2.both i hi hj; simp only [List.not_mem_nil, false_and, false_or] at this; exact Or.inr this
  · obtain ⟨d, h1, h2⟩ := detectStereo_spec cfg cl.img cr.img cl.pts cl.ids cr.pts cr.ids cur x.extL x.extR x.lr ll lr nl nr bl br
    simp only [h1]
    split_ifs with c2
    · exact ⟨_, rfl, rfl, rfl, by simp, by simp, h2.le, by simp, by simp, by simp, h2.bornNd, h2.bornNew, by simp, by simp, by simp, by simp⟩
    · obtain ⟨a1, a2⟩ := matching_length x.flowL d.pl
      obtain ⟨b1, b2⟩ := matching_length x.flowR d.pr
      obtain ⟨l, e1, e2, e3, e4, e5, e6, e7⟩ := leftLoop_spec x.imgL x.imgR (matching x.flowR d.pr).1 d.ir (matching x.flowR d.pr).2 (by rw [b1, h2.lenR]) (by rw [b1, b2])
        (matching x.flowL d.pl).1 d.il (matching x.flowL d.pl).2 (by rw [a1, h2.lenL]) (by rw [a1, a2])
      have hlnd := h2.ndL.sublist e4
      obtain ⟨r, f1, f2, f3, ⟨t, f4, f4'⟩, f5⟩ := rightLoop_spec x.imgR (matching x.flowR d.pr).1 d.ir (matching x.flowR d.pr).2 l.2.1 l.2.2 (by rw [b1, h2.lenR]) (by rw [b1, b2]) e3 (hlnd.sublist e5)
      simp only [e1, f1]
      have hsubR : ∀ i ∈ r.2, i ∈ d.ir := by
        intro i hi
        rw [f4, List.mem_append] at hi
        rcases hi with hi | hi
        · obtain ⟨k, hk, hki⟩ := List.mem_iff_getElem.mp hi
          have hz : (l.2.1[k]'(by omega), i) ∈ l.2.1.zip l.2.2 := by
            rw [List.mem_iff_getElem]
            exact ⟨k, by simp; omega, by simp [hki]⟩
          obtain ⟨n, -, hn, -⟩ := (e7 _ _ hz).1
          exact List.mem_of_getElem? hn
        · exact f4'.subset hi
      refine ⟨_, rfl, e2, f2, hlnd, f3, h2.le, fun i hi => h2.memL i (e4.subset hi), fun i hi => h2.memR i (hsubR i hi), fun i hi hj => h2.both i (e4.subset hi) (hsubR i hj), h2.bornNd,
        h2.bornNew, ?_, ?_, fun e he => (List.of_mem_zip he).1, fun e he => (List.of_mem_zip he).1⟩
      · simp only; rw [List.map_fst_zip e2.ge]; exact hlnd
      · simp only; rw [List.map_fst_zip f2.ge]; exact f3

theorem feed_spec (cfg : TCfg) (lo : ℕ) (T : Tracker) (hT : Inv lo T) (m : Msg) (hm : Spec.MsgOk cfg T m) :
    ∃ T' obs, T.feed cfg m = some (T', obs) ∧ Inv lo T' ∧ (obs.map fun o => (o.1, o.2.1)).Nodup ∧ (∀ o ∈ obs, o.2.1 ∈ (T'.cam o.1).ids) ∧ T.cur ≤ T'.cur ∧
      (∀ c, ∀ i ∈ (T'.cam c).ids, i ∈ (T.cam c).ids ∨ T.cur < i) := by
  cases m with
  | mono xs sched =>
    obtain ⟨hnd, hs⟩ := hm
    have hone : ∀ (j : ℕ) (x : MonoIn), xs[j]? = some x → ∃ c' obs, feedMono cfg (T.cam x.cam) x.img x.ext x.flow (drawn T.cur sched (0 + j)) = some (c', obs) ∧ c'.pts.length = c'.ids.length ∧
        c'.ids.Nodup ∧ (∀ i ∈ c'.ids, i ∈ (T.cam x.cam).ids ∨ i ∈ drawn T.cur sched j) ∧ (∀ i p, (i, p) ∈ obs → i ∈ c'.ids) ∧ (obs.map Prod.fst).Nodup := by
      intro j x hx
      rw [Nat.zero_add]
      obtain ⟨n, h1, -, h3⟩ := feedMono_spec cfg (T.cam x.cam) x.img x.ext x.flow (drawn T.cur sched j) (hT.len _) (hT.nd _) (drawn_nodup _ _ _)
        (fun i hi hc => by have := (drawn_bounds hi).1; have := (hT.le _ i hc).2; omega)
      rw [hs j x hx] at h1
      exact h3 (by rw [drawn_length]; exact Option.some.inj h1)
    obtain ⟨⟨cam', obs⟩, hf⟩ := feedMonos_some cfg T.cur sched xs 0 T.cam hnd (fun j x hx => by obtain ⟨c', o, h, -⟩ := hone j x hx; exact ⟨_, h⟩)
    obtain ⟨a1, a2, a3⟩ := feedMonos_spec cfg T.cur sched xs 0 T.cam cam' obs hnd hf
    have hcam : ∀ c, (cam' c).pts.length = (cam' c).ids.length ∧ (cam' c).ids.Nodup ∧ ∀ i ∈ (cam' c).ids, i ∈ (T.cam c).ids ∨ ∃ (j : ℕ) (x : MonoIn), xs[j]? = some x ∧ x.cam = c ∧ i ∈ drawn T.cur sched j := by
      intro c
      rcases a1 c with ⟨-, h⟩ | ⟨j, x, o, hx, rfl, h⟩
      · rw [h]; exact ⟨hT.len c, hT.nd c, fun i hi => Or.inl hi⟩
      · obtain ⟨c', o', e1, e2, e3, e4, -⟩ := hone j x hx
        rw [e1, Option.some.injEq, Prod.mk.injEq] at h
        rw [← h.1]
        exact ⟨e2, e3, fun i hi => (e4 i hi).imp id fun h => ⟨j, x, hx, rfl, h⟩⟩
    have hbig : ∀ c, ∀ i ∈ (cam' c).ids, i ∈ (T.cam c).ids ∨ T.cur < i := fun c i hi => ((hcam c).2.2 i hi).imp id fun ⟨j, x, _, _, h⟩ => (drawn_bounds h).1
    refine ⟨⟨T.cur + sched.length, cam', T.pairs⟩, obs, by simp only [Tracker.feed, hf], ?_, ?_, ?_, by simp, hbig⟩
    · refine ⟨fun c => (hcam c).1, fun c => (hcam c).2.1, ?_, ?_, ?_, hT.pnd, ?_⟩
      · intro c i hi
        rcases (hcam c).2.2 i hi with h | ⟨j, x, -, -, h⟩
        · have := hT.le c i h; simp only; omega
        · have := drawn_bounds h; have := hT.lo; simp only; omega
      · have := hT.lo; simp only; omega
      · intro c c' i hne hi hj
        rcases (hcam c).2.2 i hi with h | ⟨j, x, hx, hc, h⟩
        · rcases (hcam c').2.2 i hj with h' | ⟨j', x', -, -, h'⟩
          · exact hT.both c c' i hne h h'
          · have := (hT.le c i h).2; have := (drawn_bounds h').1; omega
        · rcases (hcam c').2.2 i hj with h' | ⟨j', x', hx', hc', h'⟩
          · have := (hT.le c' i h').2; have := (drawn_bounds h).1; omega
          · have := drawn_disjoint h h'
            subst this
            rw [hx, Option.some.injEq] at hx'
            subst hx'
            exact absurd (hc.symm.trans hc') hne
      · intro e he; have := hT.ple e he; simp only; omega
    · apply a3
      intro j x c' o hx h
      obtain ⟨c'', o', e1, -, -, -, -, e6⟩ := hone j x hx
      rw [e1, Option.some.injEq, Prod.mk.injEq] at h
      rw [← h.2]; exact e6
    · rintro ⟨c, i, p⟩ ho
      obtain ⟨j, x, o, hx, rfl, h, hio⟩ := a2 c i p ho
      obtain ⟨c'', o', e1, -, -, -, e5, -⟩ := hone j x hx
      rw [e1, Option.some.injEq, Prod.mk.injEq] at h
      simp only
      rw [← h.1]
      exact e5 i p (by rw [h.2]; exact hio)
  | stereo l r x =>
    have hne : l ≠ r := hm
    obtain ⟨o, h0, h1, h2, h3, h4, h5, h6, h7, h8, h9, h10, h11, h12, h13, h14⟩ := feedStereo_spec cfg (T.cam l) (T.cam r) T.cur x (hT.len l) (hT.len r) (hT.nd l) (hT.nd r)
      (fun i hi => (hT.le l i hi).2) (fun i hi => (hT.le r i hi).2)
    have er : Function.update (Function.update T.cam l o.cl) r o.cr r = o.cr := by simp
    have el : Function.update (Function.update T.cam l o.cl) r o.cr l = o.cl := by rw [Function.update_of_ne hne]; simp
    have eo : ∀ c, c ≠ l → c ≠ r → Function.update (Function.update T.cam l o.cl) r o.cr c = T.cam c := fun c a b => by rw [Function.update_of_ne b, Function.update_of_ne a]
    generalize hcm : Function.update (Function.update T.cam l o.cl) r o.cr = cam' at er el eo
    have hcam : ∀ c, (cam' c).pts.length = (cam' c).ids.length ∧ (cam' c).ids.Nodup ∧ ∀ i ∈ (cam' c).ids, i ∈ (T.cam c).ids ∨ ((c = l ∨ c = r) ∧ T.cur < i ∧ i ≤ o.cur) := by
      intro c
      by_cases hr : c = r
      · subst hr; rw [er]; exact ⟨h2, h4, fun i hi => (h7 i hi).imp id fun h => ⟨Or.inr rfl, h⟩⟩
      by_cases hl : c = l
      · subst hl; rw [el]; exact ⟨h1, h3, fun i hi => (h6 i hi).imp id fun h => ⟨Or.inl rfl, h⟩⟩
      rw [eo c hl hr]
      exact ⟨hT.len c, hT.nd c, fun i hi => Or.inl hi⟩
    refine ⟨⟨o.cur, cam', T.pairs ++ o.born.map (fun i => (i, l, r))⟩, o.obsL.map (fun e => (l, e.1, e.2)) ++ o.obsR.map (fun e => (r, e.1, e.2)), by simp only [Tracker.feed, h0, hcm], ?_, ?_, ?_, h5, fun c i hi => ((hcam c).2.2 i hi).imp id fun h => h.2.1⟩
    · refine ⟨fun c => (hcam c).1, fun c => (hcam c).2.1, ?_, ?_, ?_, ?_, ?_⟩
      · intro c i hi
        rcases (hcam c).2.2 i hi with h | ⟨-, h⟩
        · have := hT.le c i h; simp only; omega
        · have := hT.lo; simp only; omega
      · have := hT.lo; simp only; omega
      · intro c c' i hcc hi hj
        simp only [List.mem_append]
        have old : i ∈ (T.cam c).ids → i ∈ (T.cam c').ids → ((i, c, c') ∈ T.pairs ∨ (i, c, c') ∈ o.born.map (fun i => (i, l, r))) ∨ ((i, c', c) ∈ T.pairs ∨ (i, c', c) ∈ o.born.map (fun i => (i, l, r))) :=
          fun a b => (hT.both c c' i hcc a b).imp Or.inl Or.inl
        rcases (hcam c).2.2 i hi with h | ⟨hc, h, hle⟩
        · rcases (hcam c').2.2 i hj with h' | ⟨-, h', -⟩
          · exact old h h'
          · have := (hT.le c i h).2; omega
        · rcases (hcam c').2.2 i hj with h' | ⟨hc', h', -⟩
          · have := (hT.le c' i h').2; omega
          · rcases hc with rfl | rfl <;> rcases hc' with rfl | rfl
            · exact absurd rfl hcc
            · simp only at hi hj
              rw [el] at hi; rw [er] at hj
              rcases h8 i hi hj with hb | hb
              · exact old hb.1 hb.2
              · exact Or.inl (Or.inr (List.mem_map.mpr ⟨i, hb, rfl⟩))
            · simp only at hi hj
              rw [er] at hi; rw [el] at hj
              rcases h8 i hj hi with hb | hb
              · exact old hb.2 hb.1
              · exact Or.inr (Or.inr (List.mem_map.mpr ⟨i, hb, rfl⟩))
            · exact absurd rfl hcc
      · simp only [List.map_append, List.map_map]
        rw [List.nodup_append]
        have e : o.born.map (Prod.fst ∘ fun i => (i, l, r)) = o.born := by
          have : (Prod.fst ∘ fun i : ℕ => (i, l, r)) = id := rfl
          rw [this, List.map_id]
        rw [e]
        refine ⟨hT.pnd, h9, ?_⟩
        intro a ha b hb hab
        obtain ⟨e, he, rfl⟩ := List.mem_map.mp ha
        have := hT.ple e he
        have := (h10 b hb).1
        omega
      · intro e he
        simp only [List.mem_append, List.mem_map] at he
        rcases he with he | ⟨i, hi, rfl⟩
        · have := hT.ple e he; simp only; omega
        · exact (h10 i hi).2
    · rw [List.map_append, List.map_map, List.map_map, List.nodup_append]
      refine ⟨?_, ?_, ?_⟩
      · have e : o.obsL.map ((fun o => (o.1, o.2.1)) ∘ fun e : ℕ × Pt => (l, e.1, e.2)) = (o.obsL.map Prod.fst).map (fun i => (l, i)) := by rw [List.map_map]; rfl
        rw [e]; exact h11.map (fun a b hab => by simpa using hab)
      · have e : o.obsR.map ((fun o => (o.1, o.2.1)) ∘ fun e : ℕ × Pt => (r, e.1, e.2)) = (o.obsR.map Prod.fst).map (fun i => (r, i)) := by rw [List.map_map]; rfl
        rw [e]; exact h12.map (fun a b hab => by simpa using hab)
      · intro a ha b hb hab
        obtain ⟨_, -, rfl⟩ := List.mem_map.mp ha
        obtain ⟨_, -, e⟩ := List.mem_map.mp hb
        rw [← hab] at e
        simp only [Function.comp, Prod.mk.injEq] at e
        exact hne e.1.symm
    · intro e he
      rw [List.mem_append] at he
      rcases he with he | he
      · obtain ⟨a, ha, rfl⟩ := List.mem_map.mp he
        simp only; rw [el]; exact h13 a ha
      · obtain ⟨a, ha, rfl⟩ := List.mem_map.mp he
        simp only; rw [er]; exact h14 a ha

theorem inv_init (n : ℕ) : Inv (firstId n) (Tracker.init n) :=
  ⟨fun _ => rfl, fun _ => List.nodup_nil, fun _ i hi => by simp [Tracker.init] at hi, le_refl _, fun _ _ i _ hi => by simp [Tracker.init] at hi, List.nodup_nil, fun e he => by simp [Tracker.init] at he⟩

theorem reach_inv {cfg : TCfg} {n : ℕ} {T : Tracker} (h : Spec.Reach cfg n T) : Inv (firstId n) T := by
  induction h with
  | init => exact inv_init n
  | step _ hm hf ih =>
    obtain ⟨T', obs, e, h, -⟩ := feed_spec cfg _ _ ih _ hm
    rw [hf, Option.some.injEq, Prod.mk.injEq] at e
    rw [e.1]; exact h

/-- **C64** For every tracker that any sequence of messages can lead to (mono, several cameras in parallel with any interleaving of the shared counter, stereo, in any order, with any images, masks, corners and flow
results): every camera has as many points as ids, its ids are distinct and above the tag range; and the next message never reads outside of a list or an image and never fails an assertion. It stores at most one
observation per camera and id, always of a feature the camera now tracks. -/
theorem C64_lists_paired (cfg : TCfg) (numAruco : ℕ) (T : Tracker) (h : Spec.Reach cfg numAruco T) :
    (∀ c, (T.cam c).pts.length = (T.cam c).ids.length ∧ (T.cam c).ids.Nodup ∧ ∀ i ∈ (T.cam c).ids, 4 * numAruco < i) ∧
    ∀ m, Spec.MsgOk cfg T m → ∃ T' obs, T.feed cfg m = some (T', obs) ∧ (obs.map fun o => (o.1, o.2.1)).Nodup ∧ (∀ o ∈ obs, o.2.1 ∈ (T'.cam o.1).ids) := by
  have hi := reach_inv h
  refine ⟨fun c => ⟨hi.len c, hi.nd c, fun i hc => by have := (hi.le c i hc).1; unfold firstId at this; omega⟩, fun m hm => ?_⟩
  obtain ⟨T', obs, e, -, h2, h3, -⟩ := feed_spec cfg _ T hi m hm
  exact ⟨T', obs, e, h2, h3⟩

/-- **C64** (ids are never reused) After any message a camera's ids are ids it already had or ids larger than every id that any camera ever had: an id that a camera has lost never comes back. -/
theorem C64_no_reuse (cfg : TCfg) (numAruco : ℕ) (T : Tracker) (h : Spec.Reach cfg numAruco T) (m : Msg) (hm : Spec.MsgOk cfg T m) (T' : Tracker) (obs : List (ℕ × ℕ × Pt))
    (hf : T.feed cfg m = some (T', obs)) (c i : ℕ) (hi : i ∈ (T'.cam c).ids) : i ∈ (T.cam c).ids ∨ ∀ c', ∀ j ∈ (T.cam c').ids, j < i := by
  have hinv := reach_inv h
  obtain ⟨T'', obs', e, -, -, -, -, h5⟩ := feed_spec cfg _ T hinv m hm
  rw [hf, Option.some.injEq, Prod.mk.injEq] at e
  rcases h5 c i (e.1 ▸ hi) with h | h
  · exact Or.inl h
  · exact Or.inr fun c' j hj => lt_of_le_of_lt (hinv.le c' j hj).2 h

namespace Spec

/-- the image which a message brings for a camera -/
def Brings : Msg → ℕ → Img → Prop
  | .mono xs _, c, I => ∃ x ∈ xs, x.cam = c ∧ x.img = I
  | .stereo l r x, c, I => (c = l ∧ I = x.imgL) ∨ (c = r ∧ I = x.imgR)

end Spec

theorem feedMono_img {cfg : TCfg} {c : Cam} {I : Img} {ext : List Pt} {flow : ℕ → Pt × Bool} {fresh : List ℕ} {c' : Cam} {obs : List (ℕ × Pt)}
    (h : feedMono cfg c I ext flow fresh = some (c', obs)) : c'.img = I := by
  unfold feedMono at h
  split_ifs at h
  · split at h
    · cases h
    · split_ifs at h
      simp only [Option.some.injEq, Prod.mk.injEq] at h
      rw [← h.1]
  · split at h
    · cases h
    · simp only at h
      split_ifs at h
      · simp only [Option.some.injEq, Prod.mk.injEq] at h
        rw [← h.1]
      · split at h
        · cases h
        · simp only [Option.some.injEq, Prod.mk.injEq] at h
          rw [← h.1]

theorem feedMonos_img {cfg : TCfg} {cur : ℕ} {sched : List ℕ} : ∀ (xs : List MonoIn) (k : ℕ) (cam cam' : ℕ → Cam) (obs : List (ℕ × ℕ × Pt)), (xs.map MonoIn.cam).Nodup →
    feedMonos cfg cur sched k cam xs = some (cam', obs) → (∀ x ∈ xs, (cam' x.cam).img = x.img) ∧ ∀ c, (∀ x ∈ xs, x.cam ≠ c) → cam' c = cam c := by
  intro xs
  induction xs with
  | nil =>
    intro k cam cam' obs _ h
    simp only [feedMonos, Option.some.injEq, Prod.mk.injEq] at h
    exact ⟨by simp, fun c _ => by rw [h.1]⟩
  | cons x xs ih =>
    intro k cam cam' obs hn h
    rw [List.map_cons, List.nodup_cons] at hn
    rw [feedMonos] at h
    split at h
    · cases h
    · rename_i c0 o0 h0
      split at h
      · cases h
      · rename_i cam1 o1 h1
        simp only [Option.some.injEq, Prod.mk.injEq] at h
        obtain ⟨rfl, -⟩ := h
        obtain ⟨i1, i2⟩ := ih _ _ _ _ hn.2 h1
        constructor
        · intro y hy
          rcases List.mem_cons.1 hy with rfl | hy
          · rw [i2 y.cam fun z hz e => hn.1 (List.mem_map.2 ⟨z, hz, e⟩), Function.update_self]
            exact feedMono_img h0
          · exact i1 y hy
        · intro c hc
          rw [i2 c fun z hz => hc z (by simp [hz]), Function.update_of_ne (hc x (by simp)).symm]

/-- **C64** (the next detection and flow start from this image) After any message, each camera it has an image for remembers that image (with its mask), and the other cameras are as before. -/
theorem C64_remembers_image (cfg : TCfg) (T : Tracker) (m : Msg) (hm : Spec.MsgOk cfg T m) (T' : Tracker) (obs : List (ℕ × ℕ × Pt)) (hf : T.feed cfg m = some (T', obs)) (c : ℕ) :
    (∀ I, Spec.Brings m c I → (T'.cam c).img = I) ∧ ((¬ ∃ I, Spec.Brings m c I) → T'.cam c = T.cam c) := by
  cases m with
  | mono xs sched =>
    simp only [Tracker.feed] at hf
    split at hf
    · cases hf
    · rename_i cam o h
      simp only [Option.some.injEq, Prod.mk.injEq] at hf
      obtain ⟨rfl, -⟩ := hf
      obtain ⟨h1, h2⟩ := feedMonos_img xs 0 T.cam cam o hm.1 h
      refine ⟨?_, fun hc => h2 c fun x hx e => hc ⟨x.img, x, hx, e, rfl⟩⟩
      rintro I ⟨x, hx, rfl, rfl⟩
      exact h1 x hx
  | stereo l r x =>
    have hlr : l ≠ r := hm
    simp only [Tracker.feed] at hf
    split at hf
    · cases hf
    · rename_i o h
      simp only [Option.some.injEq, Prod.mk.injEq] at hf
      obtain ⟨rfl, -⟩ := hf
      have hi : o.cl.img = x.imgL ∧ o.cr.img = x.imgR := by
        unfold feedStereo at h
        split_ifs at h
        · split at h
          · cases h
          · obtain rfl := Option.some.inj h
            exact ⟨rfl, rfl⟩
        · split at h
          · cases h
          · simp only at h
            split_ifs at h
            · obtain rfl := Option.some.inj h
              exact ⟨rfl, rfl⟩
            · split at h
              · cases h
              · split at h
                · cases h
                · obtain rfl := Option.some.inj h
                  exact ⟨rfl, rfl⟩
      constructor
      · rintro I (⟨rfl, rfl⟩ | ⟨rfl, rfl⟩)
        · simp only; rw [Function.update_of_ne hlr, Function.update_self]; exact hi.1
        · simp only; rw [Function.update_self]; exact hi.2
      · intro hc
        have hl : c ≠ l := fun e => hc ⟨_, Or.inl ⟨e, rfl⟩⟩
        have hr : c ≠ r := fun e => hc ⟨_, Or.inr ⟨e, rfl⟩⟩
        simp only; rw [Function.update_of_ne hr, Function.update_of_ne hl]

/-- **C64** (stereo ids) An id that two cameras have was created once, for a corner of one of them together with its flow into the image of the other: two features detected separately never share an id. -/
theorem C64_same_feature (cfg : TCfg) (numAruco : ℕ) (T : Tracker) (h : Spec.Reach cfg numAruco T) (c c' i : ℕ) (hne : c ≠ c') (hi : i ∈ (T.cam c).ids) (hj : i ∈ (T.cam c').ids) :
    ∃! e, e ∈ T.pairs ∧ e.1 = i ∧ (e.2 = (c, c') ∨ e.2 = (c', c)) := by
  have hinv := reach_inv h
  have uniq : ∀ e ∈ T.pairs, ∀ e' ∈ T.pairs, e.1 = e'.1 → e = e' := by
    intro e he e' he' h
    exact List.inj_on_of_nodup_map hinv.pnd he he' h
  rcases hinv.both c c' i hne hi hj with hp | hp
  · exact ⟨(i, c, c'), ⟨hp, rfl, Or.inl rfl⟩, fun e he => uniq e he.1 _ hp he.2.1⟩
  · exact ⟨(i, c', c), ⟨hp, rfl, Or.inr rfl⟩, fun e he => uniq e he.1 _ hp he.2.1⟩

/-- **C64** (the observation belongs to the id, mono) The pixel stored for an id is the accepted flow of the point that had this id in the previous image, or of a corner detected there which was given a new id; it lies
in the image and is not masked. -/
theorem C64_follows_mono (cfg : TCfg) (c : Cam) (I : Img) (ext : List Pt) (flow : ℕ → Pt × Bool) (fresh : List ℕ) (c' : Cam) (obs : List (ℕ × Pt)) (hl : c.pts.length = c.ids.length)
    (hf : feedMono cfg c I ext flow fresh = some (c', obs)) :
    obs = (if c.pts.isEmpty then [] else c'.ids.zip c'.pts) ∧
    ∀ i p, (i, p) ∈ obs → (∃ (k : ℕ) (q : Pt), flow k = (p, true) ∧ ((q, i) ∈ c.pts.zip c.ids ∨ (q ∈ ext ∧ i ∈ fresh))) ∧ inImg I p ∧ I.mask (trunc p.1) (trunc p.2) = false := by
  unfold feedMono at hf
  split_ifs at hf with c1
  · obtain ⟨r, h1, -⟩ := detectMono_spec cfg I [] [] ext rfl
    simp only [h1] at hf
    split_ifs at hf
    simp only [Option.some.injEq, Prod.mk.injEq] at hf
    rw [← hf.2]; simp [c1]
  · obtain ⟨r, h1, h2, h3, h4, -, h5, -⟩ := detectMono_spec cfg c.img c.pts c.ids ext hl
    simp only [h1] at hf
    split_ifs at hf with c2 c3 c4
    · simp only [Option.some.injEq, Prod.mk.injEq] at hf
      rw [← hf.2, ← hf.1]; simp
    · simp only [ne_eq, not_not] at c2 c3
      obtain ⟨m1, m2⟩ := matching_length flow (r.1 ++ r.2.2)
      obtain ⟨g, e1, e2, e3, e4⟩ := monoLoop_spec I (matching flow (r.1 ++ r.2.2)).1 (r.2.1 ++ fresh) (matching flow (r.1 ++ r.2.2)).2 c3 (by rw [m1, m2])
      simp only [e1, Option.some.injEq, Prod.mk.injEq] at hf
      obtain ⟨rfl, rfl⟩ := hf
      refine ⟨by simp [c1], ?_⟩
      intro i p hm
      have hm' : (p, i) ∈ g.1.zip g.2 := by
        obtain ⟨k, hk, he⟩ := List.mem_iff_getElem.mp hm
        rw [List.mem_iff_getElem]
        refine ⟨k, by simpa [and_comm] using hk, ?_⟩
        rw [List.getElem_zip] at he ⊢
        simp only [Prod.mk.injEq] at he ⊢
        exact ⟨he.2, he.1⟩
      obtain ⟨⟨k, k1, k2, k3⟩, a, b⟩ := e4 p i hm'
      refine ⟨⟨k, ?_⟩, a, b⟩
      have hk : k < (r.2.1 ++ fresh).length := (List.getElem?_eq_some_iff.mp k2).1
      have hlen : (r.1 ++ r.2.2).length = (r.2.1 ++ fresh).length := by simp [h2, c2]
      refine ⟨(r.1 ++ r.2.2)[k]'(by omega), matching_true flow _ k p k1 k3, ?_⟩
      by_cases hk2 : k < r.1.length
      · left
        apply h4.subset
        rw [List.mem_iff_getElem]
        refine ⟨k, by simp; omega, ?_⟩
        rw [List.getElem_zip, List.getElem_append_left hk2]
        rw [List.getElem?_append_left (by omega), List.getElem?_eq_some_iff] at k2
        rw [k2.2]
      · right
        rw [List.getElem_append_right (by omega)]
        rw [List.getElem?_append_right (by omega)] at k2
        exact ⟨h5.subset (List.getElem_mem _), List.mem_of_getElem? k2⟩

/-- **C64** (the observation belongs to the id, stereo) In the stereo call every stored pixel is the accepted flow, in its own camera, of the point which had that id in that camera after the detection. Right pixels
are inside the image; left pixels may have column or row equal to the image size, see `C64_left_bound_wrong`. -/
theorem C64_follows_stereo (cfg : TCfg) (cl cr : Cam) (cur : ℕ) (x : StereoIn) (o : StereoOut) (ll : cl.pts.length = cl.ids.length) (lr : cr.pts.length = cr.ids.length)
    (nl : cl.ids.Nodup) (nr : cr.ids.Nodup) (bl : ∀ i ∈ cl.ids, i ≤ cur) (br : ∀ i ∈ cr.ids, i ≤ cur) (hne : (cl.pts.isEmpty && cr.pts.isEmpty) = false) (hf : feedStereo cfg cl cr cur x = some o) :
    ∃ d, detectStereo cfg cl.img cr.img cl.pts cl.ids cr.pts cr.ids cur x.extL x.extR x.lr = some d ∧
    (∀ i p, (i, p) ∈ o.obsL → (∃ k : ℕ, d.il[k]? = some i ∧ x.flowL k = (p, true)) ∧ inImgL x.imgL p) ∧
    (∀ i p, (i, p) ∈ o.obsR → (∃ k : ℕ, d.ir[k]? = some i ∧ x.flowR k = (p, true)) ∧ inImg x.imgR p) := by
  obtain ⟨d, hd, hok⟩ := detectStereo_spec cfg cl.img cr.img cl.pts cl.ids cr.pts cr.ids cur x.extL x.extR x.lr ll lr nl nr bl br
  have hl := hok.lenL
  have hr := hok.lenR
  refine ⟨d, hd, ?_⟩
  unfold feedStereo at hf
  rw [hne] at hf
  simp only [Bool.false_eq_true, if_false, hd] at hf
  split_ifs at hf
  · simp only [Option.some.injEq] at hf
    subst hf; simp
  · obtain ⟨a1, a2⟩ := matching_length x.flowL d.pl
    obtain ⟨b1, b2⟩ := matching_length x.flowR d.pr
    obtain ⟨l, e1, e2, e3, e4, e5, e6, e7⟩ := leftLoop_spec x.imgL x.imgR (matching x.flowR d.pr).1 d.ir (matching x.flowR d.pr).2 (by rw [b1, hr]) (by rw [b1, b2])
      (matching x.flowL d.pl).1 d.il (matching x.flowL d.pl).2 (by rw [a1, hl]) (by rw [a1, a2])
    simp only [e1] at hf
    rcases hrl : rightLoop x.imgR l.2.1 l.2.2 (matching x.flowR d.pr).1 d.ir (matching x.flowR d.pr).2 with _ | r
    · simp [hrl] at hf
    simp only [hrl, Option.some.injEq] at hf
    subst hf
    have swap : ∀ (u : List ℕ) (v : List Pt) i p, (i, p) ∈ u.zip v → (p, i) ∈ v.zip u := by
      intro u v i p hm
      obtain ⟨k, hk, he⟩ := List.mem_iff_getElem.mp hm
      rw [List.mem_iff_getElem]
      refine ⟨k, by simpa [and_comm] using hk, ?_⟩
      rw [List.getElem_zip] at he ⊢
      simp only [Prod.mk.injEq] at he ⊢
      exact ⟨he.2, he.1⟩
    refine ⟨fun i p hm => ?_, fun i p hm => ?_⟩
    · obtain ⟨⟨k, k1, k2, k3⟩, hin⟩ := e6 p i (swap _ _ _ _ hm)
      exact ⟨⟨k, k2, matching_true _ _ k p k1 k3⟩, hin⟩
    · have key : ∀ (ps : List Pt) (is : List ℕ) (ms : List Bool) (g : List Pt) (gi : List ℕ) (r : List Pt × List ℕ), g.length = gi.length → ps.length = is.length → ms.length = ps.length →
          rightLoop x.imgR g gi ps is ms = some r → ∀ p i, (p, i) ∈ r.1.zip r.2 → (p, i) ∈ g.zip gi ∨ (At3 ps is ms p i true ∧ inImg x.imgR p) := by
        intro ps
        induction ps with
        | nil => intro is ms g gi r _ _ _ h p i hm; simp only [rightLoop, Option.some.injEq] at h; subst h; exact Or.inl hm
        | cons q qs ih =>
          intro is ms g gi r hg h1 h2 h p i hm
          cases is with
          | nil => simp at h1
          | cons j js =>
            cases ms with
            | nil => simp at h2
            | cons m ms =>
              rw [rightLoop] at h
              have hl1 : qs.length = js.length := by simpa using h1
              have hl2 : ms.length = qs.length := by simpa using h2
              split_ifs at h with c1 c2
              · exact (ih _ _ _ _ _ hg hl1 hl2 h p i hm).imp id fun h => ⟨h.1.cons _ _ _, h.2⟩
              · rcases ih _ _ _ _ _ (by simp [hg]) hl1 hl2 h p i hm with hh | hh
                · rw [List.zip_append hg] at hh
                  simp only [List.zip_cons_cons, List.zip_nil_right, List.mem_append, List.mem_singleton, Prod.mk.injEq] at hh
                  rcases hh with hh | ⟨rfl, rfl⟩
                  · exact Or.inl hh
                  · simp only [Bool.and_eq_true] at c2
                    simp only [Bool.or_eq_true, decide_eq_true_eq, not_or, not_lt, not_le] at c1
                    exact Or.inr ⟨⟨0, rfl, rfl, by rw [c2.1]; rfl⟩, c1.1.1.1, c1.1.1.2, c1.1.2, c1.2⟩
                · exact Or.inr ⟨hh.1.cons _ _ _, hh.2⟩
              · exact (ih _ _ _ _ _ hg hl1 hl2 h p i hm).imp id fun h => ⟨h.1.cons _ _ _, h.2⟩
      have : At3 (matching x.flowR d.pr).1 d.ir (matching x.flowR d.pr).2 p i true ∧ inImg x.imgR p := by
        rcases key _ _ _ _ _ _ e3 (by rw [b1, hr]) (by rw [b1, b2]) hrl p i (swap _ _ _ _ hm) with h | h
        · exact e7 p i h
        · exact h
      obtain ⟨⟨k, k1, k2, k3⟩, hin⟩ := this
      exact ⟨⟨k, k2, matching_true _ _ k p k1 k3⟩, hin⟩

/-! ### a concrete run: ten stereo corners, then all of them tracked -/

def exCfg : TCfg := ⟨10, 2, 2, 40⟩
def exImg : Img := ⟨200, 100, fun _ _ => false⟩
/-- the whole image is masked -/
def exMasked : Img := ⟨200, 100, fun _ _ => true⟩
def exCorners : List Pt := [(15, 15), (25, 15), (35, 15), (45, 15), (55, 15), (65, 15), (75, 15), (85, 15), (95, 15), (105, 15)]
def exIn (I : Img) (fl : ℕ → Pt × Bool) : StereoIn := ⟨I, exImg, exCorners, [], fun k => ((10 * k + 14, 15), k != 3), fl, fun k => ((10 * k + 13, 16), k != 5)⟩
def exM1 : Msg := .stereo 0 1 (exIn exImg fun k => ((10 * k + 16, 15), true))
/-- in the second message the first point moves to the first column outside of the left image, and the left image is masked everywhere -/
def exM2 : Msg := .stereo 0 1 (exIn exMasked fun k => ((if k = 0 then 200 else 10 * k + 16, 15), true))

def exT1 : Tracker := (((Tracker.init 1).feed exCfg exM1).map (·.1)).getD (Tracker.init 1)

end Verif.Track

namespace Verif.Track

theorem exT1_reach : Spec.Reach exCfg 1 exT1 := by
  have hm : Spec.MsgOk exCfg (Tracker.init 1) exM1 := (by decide : (0 : ℕ) ≠ 1)
  obtain ⟨T', obs, h, -⟩ := (C64_lists_paired exCfg 1 _ .init).2 exM1 hm
  have : exT1 = T' := by rw [exT1, h]; rfl
  rw [this]
  exact .step .init hm h

/-- after the first message: ten left ids, nine of them also in the right camera -/
example : (exT1.cam 0).ids = [6, 7, 8, 9, 10, 11, 12, 13, 14, 15] ∧ (exT1.cam 1).ids = [6, 7, 8, 10, 11, 12, 13, 14, 15] := by decide +kernel

/-- **C64** (finding: left bound and mask) In the stereo call the left image's bound is checked with `>` instead of `>=` and the mask is not consulted: a reachable tracker stores an observation whose pixel column is
the image width, and stores left observations although the whole left image is masked. -/
theorem C64_left_bound_wrong : ∃ T T' obs, Spec.Reach exCfg 1 T ∧ Spec.MsgOk exCfg T exM2 ∧ T.feed exCfg exM2 = some (T', obs) ∧
    (∃ e ∈ obs, e.1 = 0 ∧ exImg.cols ≤ trunc e.2.2.1) ∧ (∃ e ∈ obs, e.1 = 0 ∧ exMasked.masked? (trunc e.2.2.1) (trunc e.2.2.2) = some true) := by
  have hm : Spec.MsgOk exCfg exT1 exM2 := (by decide : (0 : ℕ) ≠ 1)
  obtain ⟨T', obs, h, -⟩ := (C64_lists_paired exCfg 1 exT1 exT1_reach).2 exM2 hm
  have e : ((exT1.feed exCfg exM2).map (·.2)).getD [] = obs := by rw [h]; rfl
  refine ⟨exT1, T', obs, exT1_reach, hm, h, ?_, ?_⟩
  · rw [← e]; decide +kernel
  · rw [← e]; decide +kernel

/-- two cameras in parallel with interleaved draws: ids of the same camera need not be consecutive -/
example : drawn 5 [0, 1, 1, 0] 0 = [6, 9] ∧ drawn 5 [0, 1, 1, 0] 1 = [7, 8] := by decide

/-- **C87** For every image, mask, tracked points and corners: after the mono detection no two points (old or new) lie in the same cell of size `min_px_dist`; the old points that remain are at least ten pixels inside the
image and unmasked and keep their ids; new points are among the extracted corners; and if enough points remain nothing is extracted. -/
theorem C87_mono_detection (cfg : TCfg) (I : Img) (pts : List Pt) (ids : List ℕ) (ext : List Pt) (hl : pts.length = ids.length) :
    ∃ ps is new, detectMono cfg I pts ids ext = some (ps, is, new) ∧ (ps.zip is).Sublist (pts.zip ids) ∧ ps.length = is.length ∧ new.Sublist ext ∧
      ((ps ++ new).map fun p => (trunc (p.1 / cfg.minDist), trunc (p.2 / cfg.minDist))).Nodup ∧
      (∀ p ∈ ps, 10 ≤ trunc p.1 ∧ trunc p.1 < I.cols - 10 ∧ 10 ≤ trunc p.2 ∧ trunc p.2 < I.rows - 10 ∧ I.mask (trunc p.1) (trunc p.2) = false) ∧
      (cfg.num - ps.length < min 20 (trunc (cfg.num / 2)) → new = []) := by
  obtain ⟨r, h1, h2, -, h4, h5, h6, h7, h8, h9⟩ := detectMono_spec cfg I pts ids ext hl
  refine ⟨r.1, r.2.1, r.2.2, h1, h4, h2, h6, h8, ?_, ?_⟩
  · intro p hp
    have g := h5 p hp
    have e := g.edge
    simp only [edgeOk, Bool.and_eq_true, decide_eq_true_eq] at e
    exact ⟨e.1.1.1, e.1.1.2, e.1.2, e.2, g.mask⟩
  · intro hn
    apply h9
    simp [needMono, hn]

/-- two tracked points in one cell, one of them masked out elsewhere, and corners of which one is in an occupied cell -/
example : detectMono exCfg ⟨200, 100, fun x _ => decide (100 ≤ x)⟩ [(15, 15), (16, 17), (120, 30), (31, 31)] [3, 4, 5, 6] [(18, 18), (47, 53)] =
    some ([(15, 15), (31, 31)], [3, 6], [(47, 53)]) := by decide +kernel

end Verif.Track
