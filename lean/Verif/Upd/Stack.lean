import Verif.Upd.Msckf
import Verif.State.PropsInfo

/-!
# Stacking the accepted features of an update

The rows of the stacked Jacobian, seen as rows over the whole error state (`St.scatter`), are the rows of the features' own Jacobians.
-/

set_option linter.unusedVariables false
set_option linter.unusedSectionVars false
open Classical

namespace Verif.Upd

open Verif Mat Verif.Land Verif.Types Finset

section Off

variable {sz : St.Ref → ℕ}

theorem offR_le {v : St.Ref} : ∀ {o : List St.Ref}, v ∈ o → offR sz o v + sz v ≤ totR sz o
  | a :: l, h => by
    by_cases e : a = v
    · subst e; simp [offR, totR]
    · have := offR_le (o := l) (v := v) (by simpa [Ne.symm e] using h)
      simp only [offR, if_neg e, totR, List.map_cons, List.sum_cons] at this ⊢
      omega

theorem offR_disj {v w : St.Ref} (hne : v ≠ w) : ∀ {o : List St.Ref}, v ∈ o → w ∈ o →
    offR sz o v + sz v ≤ offR sz o w ∨ offR sz o w + sz w ≤ offR sz o v
  | a :: l, hv, hw => by
    by_cases ev : a = v
    · subst ev; left; simp [offR, hne]
    · by_cases ew : a = w
      · subst ew; right; simp [offR, ev]
      · have := offR_disj hne (o := l) (by simpa [Ne.symm ev] using hv) (by simpa [Ne.symm ew] using hw)
        simp only [offR, if_neg ev, if_neg ew]
        omega

theorem offR_append {v : St.Ref} {l : List St.Ref} : ∀ {o : List St.Ref}, v ∈ o → offR sz (o ++ l) v = offR sz o v
  | a :: o, h => by
    by_cases e : a = v
    · subst e; simp [offR]
    · simp only [List.cons_append, offR, if_neg e]
      rw [offR_append (by simpa [Ne.symm e] using h)]

theorem offR_append_right {v : St.Ref} {l : List St.Ref} : ∀ {o : List St.Ref}, v ∉ o → offR sz (o ++ l) v = totR sz o + offR sz l v
  | [], _ => by simp [totR]
  | a :: o, h => by
    simp only [List.mem_cons, not_or] at h
    simp only [List.cons_append, offR, if_neg (Ne.symm h.1), totR, List.map_cons, List.sum_cons]
    rw [offR_append_right h.2, totR, add_assoc]

theorem totR_append (o l : List St.Ref) : totR sz (o ++ l) = totR sz o + totR sz l := by simp [totR]

end Off

/-- what the loop over one feature's variables leaves. -/
structure Placed (sz : St.Ref → ℕ) (row m hx : ℕ) (H : Mat) (t : List St.Ref) (A A' : List St.Ref × Mat) : Prop where
  order : ∃ new, A'.1 = A.1 ++ new ∧ ∀ v ∈ new, v ∈ t
  nodup : A'.1.Nodup
  sub : ∀ v ∈ t, v ∈ A'.1
  out : ∀ i j, ¬ (row ≤ i ∧ i < row + m) → A'.2 i j = A.2 i j
  own : ∀ i, row ≤ i → i < row + m → ∀ v ∈ t, ∀ a, a < sz v → A'.2 i (offR sz A'.1 v + a) = H (i - row) (hx + offR sz t v + a)
  oth : ∀ i v, v ∈ A'.1 → v ∉ t → ∀ a, a < sz v → A'.2 i (offR sz A'.1 v + a) = A.2 i (offR sz A'.1 v + a)
  big : ∀ i j, totR sz A'.1 ≤ j → A'.2 i j = A.2 i j

theorem placeVars_spec {sz : St.Ref → ℕ} {maxR maxC row m : ℕ} {H : Mat} : ∀ (t : List St.Ref) (hx : ℕ) (A A' : List St.Ref × Mat),
    t.Nodup → A.1.Nodup → placeVars sz maxR maxC row m H t hx A = some A' → Placed sz row m hx H t A A'
  | [], hx, A, A', _, hA, h => by
    simp only [placeVars, Option.some.injEq] at h
    subst h
    exact ⟨⟨[], by simp, by simp⟩, hA, by simp, fun _ _ _ => rfl, by simp, fun _ _ _ _ _ _ => rfl, fun _ _ _ => rfl⟩
  | v :: t, hx, A, A', ht, hA, h => by
    simp only [placeVars] at h
    generalize ho : (if v ∈ A.1 then A.1 else A.1 ++ [v]) = o at h
    split_ifs at h with hfit
    have hvo : v ∈ o := by rw [← ho]; split_ifs with hv <;> simp [hv]
    have hond : o.Nodup := by
      rw [← ho]; split_ifs with hv
      · exact hA
      · rw [List.nodup_append]
        exact ⟨hA, by simp, fun a ha b hb => by simp at hb; subst hb; exact fun e => hv (e ▸ ha)⟩
    have hoA : ∃ new, o = A.1 ++ new ∧ ∀ w ∈ new, w = v := by
      rw [← ho]; split_ifs with hv
      · exact ⟨[], by simp, by simp⟩
      · exact ⟨[v], rfl, by simp⟩
    obtain ⟨hvt, htn⟩ := List.nodup_cons.1 ht
    obtain ⟨⟨new, e1, e2⟩, hnd, hsub, hout, hown, hoth, hbig⟩ := placeVars_spec t _ _ A' htn (by exact hond) h
    simp only at e1 hout hoth hbig
    have hoff : ∀ w ∈ o, offR sz A'.1 w = offR sz o w := fun w hw => by rw [e1, offR_append hw]
    have hmem : v ∈ A'.1 := by rw [e1]; simp [hvo]
    obtain ⟨n0, e3, e4⟩ := hoA
    refine ⟨⟨n0 ++ new, by rw [e1, e3, List.append_assoc], fun w hw => ?_⟩, hnd, ?_, ?_, ?_, ?_, ?_⟩
    · rcases List.mem_append.1 hw with h' | h'
      · rw [e4 w h']; simp
      · exact List.mem_cons_of_mem _ (e2 w h')
    · intro w hw
      rcases List.mem_cons.1 hw with rfl | hw
      · exact hmem
      · exact hsub w hw
    · intro i j hi
      rw [hout i j hi]
      simp only [setBlock]
      rw [if_neg (by tauto)]
    · intro i h1 h2 w hw a ha
      by_cases e : w = v
      · subst e
        rw [hoth i w hmem hvt a ha, hoff w hvo]
        simp only [setBlock]
        rw [if_pos (by omega)]
        simp [Mat.block, offR]
      · have hwt : w ∈ t := by simpa [e] using hw
        rw [hown i h1 h2 w hwt a ha]
        simp only [offR, if_neg (Ne.symm e)]
        rw [add_assoc hx]
    · intro i w hw hwn a ha
      simp only [List.mem_cons, not_or] at hwn
      rw [hoth i w hw hwn.2 a ha]
      simp only [setBlock]
      rw [if_neg]
      rintro ⟨⟨-, -⟩, h3, h4⟩
      rcases offR_disj (sz := sz) hwn.1 hw hmem with h' | h' <;> rw [hoff v hvo] at h' <;> omega
    · intro i j hj
      rw [hbig i j hj]
      simp only [setBlock]
      rw [if_neg]
      rintro ⟨⟨-, -⟩, h3, h4⟩
      have := offR_le (sz := sz) hmem
      rw [hoff v hvo] at this
      omega

/-! ## rows over the whole state -/

/-- first index of a variable in the state. -/
noncomputable def idOf (s : St.State) (v : St.Ref) : ℕ := ((St.resolve s v).getD (0, 0)).1

theorem resolve_sz {s : St.State} {v : St.Ref} {b : ℕ × ℕ} (h : St.resolve s v = some b) : b = (idOf s v, szOf s v) := by
  have h' := h
  unfold St.resolve at h
  rw [idOf, h', szOf]
  cases hp : (s.obj v.1).val.part v.2 with
  | none => rw [hp] at h; simp at h
  | some x =>
    rw [hp] at h
    obtain ⟨off, w⟩ := x
    simp only at h
    split_ifs at h
    have h := Option.some.inj h
    rw [← h]; simp

theorem resolveAll_map {s : St.State} : ∀ {order : List St.Ref} {L : List (ℕ × ℕ)}, St.resolveAll s order = some L →
    L = order.map fun v => (idOf s v, szOf s v)
  | [], L, h => by simpa [St.resolveAll] using h.symm
  | v :: t, L, h => by
    simp only [St.resolveAll, Option.bind_eq_bind, Option.bind_eq_some_iff] at h
    obtain ⟨b, hb, bs, hbs, h⟩ := h
    obtain rfl := (Option.some.inj h).symm
    rw [List.map_cons, ← resolve_sz hb, ← resolveAll_map hbs]

theorem resolveAll_isSome {s : St.State} : ∀ {order : List St.Ref}, (∀ v ∈ order, (St.resolve s v).isSome) ↔ ∃ L, St.resolveAll s order = some L
  | [] => by simp [St.resolveAll]
  | v :: t => by
    constructor
    · intro h
      obtain ⟨b, hb⟩ := Option.isSome_iff_exists.1 (h v (by simp))
      obtain ⟨L, hL⟩ := (resolveAll_isSome (order := t)).1 fun w hw => h w (by simp [hw])
      exact ⟨b :: L, by simp [St.resolveAll, hb, hL]⟩
    · rintro ⟨L, h⟩ w hw
      simp only [St.resolveAll, Option.bind_eq_bind, Option.bind_eq_some_iff] at h
      obtain ⟨b, hb, bs, hbs, h⟩ := h
      rcases List.mem_cons.1 hw with rfl | hw
      · simp [hb]
      · exact (resolveAll_isSome (order := t)).2 ⟨bs, hbs⟩ w hw

theorem tot_totR {s : St.State} {order : List St.Ref} {L : List (ℕ × ℕ)} (h : St.resolveAll s order = some L) : St.tot L = totR (szOf s) order := by
  rw [resolveAll_map h]
  clear h
  induction order with
  | nil => rfl
  | cons v t ih => simp only [List.map_cons, St.tot, ih, totR, List.sum_cons]

theorem scatter_cons (b : ℕ × ℕ) (L : List (ℕ × ℕ)) (H : Mat) (r c : ℕ) :
    St.scatter (b :: L) H r c = (∑ a ∈ range b.2, if b.1 + a = c then H r a else 0) + St.scatter L (fun i j => H i (b.2 + j)) r c := by
  unfold St.scatter
  rw [show St.tot (b :: L) = b.2 + St.tot L from rfl, Finset.sum_range_add]
  congr 1
  · refine Finset.sum_congr rfl fun a ha => ?_
    rw [St.ix, if_pos (Finset.mem_range.1 ha)]
  · refine Finset.sum_congr rfl fun a ha => ?_
    have e : St.ix (b :: L) (b.2 + a) = St.ix L a := by
      show (if b.2 + a < b.2 then _ else _) = _
      rw [if_neg (by omega), Nat.add_sub_cancel_left]
    simp only [e]

/-- the part of a row that belongs to one variable. -/
noncomputable def part (s : St.State) (o : List St.Ref) (H : Mat) (r c : ℕ) (v : St.Ref) : ℝ :=
  ∑ a ∈ range (szOf s v), if idOf s v + a = c then H r (offR (szOf s) o v + a) else 0

theorem scatter_parts {s : St.State} : ∀ {o : List St.Ref} {L : List (ℕ × ℕ)} (H : Mat) (r c : ℕ), o.Nodup → St.resolveAll s o = some L →
    St.scatter L H r c = ∑ v ∈ o.toFinset, part s o H r c v
  | [], L, H, r, c, _, h => by
    obtain rfl : L = [] := by simpa [St.resolveAll] using h.symm
    simp [St.scatter, St.tot]
  | v :: t, L, H, r, c, hn, h => by
    simp only [St.resolveAll, Option.bind_eq_bind, Option.bind_eq_some_iff] at h
    obtain ⟨b, hb, bs, hbs, h⟩ := h
    obtain rfl := (Option.some.inj h).symm
    obtain ⟨hv, ht⟩ := List.nodup_cons.1 hn
    rw [scatter_cons, scatter_parts _ r c ht hbs, List.toFinset_cons, Finset.sum_insert (by simpa using hv), resolve_sz hb]
    congr 1
    · simp [part, offR]
    · refine Finset.sum_congr rfl fun w hw => ?_
      have hne : v ≠ w := fun e => hv (by rw [e]; simpa using hw)
      unfold part
      refine Finset.sum_congr rfl fun a _ => ?_
      simp only [offR, if_neg hne]
      rw [add_assoc]

/-- the stack is well formed: variables listed once and active, nothing outside the rows and columns in use. -/
structure BigOK (s : St.State) (B : Big) : Prop where
  nodup : B.order.Nodup
  act : ∀ v ∈ B.order, (St.resolve s v).isSome
  rowz : ∀ i j, B.rows ≤ i → B.H i j = 0
  colz : ∀ i j, totR (szOf s) B.order ≤ j → B.H i j = 0
  noise : ∀ i, B.rows ≤ i → B.R i = 1

theorem empty_ok (s : St.State) : BigOK s .empty := ⟨by simp [Big.empty], by simp [Big.empty], fun _ _ _ => rfl, fun _ _ _ => rfl, fun _ _ => rfl⟩

/-- rows of a stack over the whole error state. -/
noncomputable def Big.row (s : St.State) (B : Big) : Mat := fun r c => ∑ v ∈ B.order.toFinset, part s B.order B.H r c v

/-- rows of one feature over the whole error state. -/
noncomputable def Sys.row (s : St.State) (y : Sys) : Mat := fun r c => ∑ v ∈ y.order.toFinset, part s y.order y.H r c v

/-- appending a feature keeps the rows there are and adds the feature's. -/
theorem append_spec {s : St.State} {maxR maxC : ℕ} {sig2 : ℝ} {B B' : Big} {y : Sys} (hB : BigOK s B) (hn : y.order.Nodup)
    (ha : ∀ v ∈ y.order, (St.resolve s v).isSome) (h : append (szOf s) maxR maxC sig2 B y = some B') :
    BigOK s B' ∧ B'.rows = B.rows + y.m ∧ (∀ v, v ∈ B'.order ↔ v ∈ B.order ∨ v ∈ y.order) ∧
    (∀ r, r < B.rows → (∀ c, B'.row s r c = B.row s r c) ∧ B'.r r = B.r r ∧ B'.R r = B.R r) ∧
    (∀ k, k < y.m → (∀ c, B'.row s (B.rows + k) c = y.row s k c) ∧ B'.r (B.rows + k) = y.r k ∧ B'.R (B.rows + k) = sig2) := by
  unfold append at h
  rw [Option.bind_eq_bind, Option.bind_eq_some_iff] at h
  obtain ⟨A, hA, h⟩ := h
  split_ifs at h with hfit
  obtain rfl := (Option.some.inj h).symm
  obtain ⟨⟨new, e1, e2⟩, hnd, hsub, hout, hown, hoth, hbig⟩ := placeVars_spec _ _ _ _ hn hB.nodup hA
  simp only at e1 hout hown hoth hbig
  have hmem : ∀ v, v ∈ A.1 ↔ v ∈ B.order ∨ v ∈ y.order := fun v => by
    constructor
    · intro hv; rw [e1] at hv
      rcases List.mem_append.1 hv with h' | h'
      · exact .inl h'
      · exact .inr (e2 v h')
    · rintro (h' | h')
      · rw [e1]; simp [h']
      · exact hsub v h'
  have htot : totR (szOf s) B.order ≤ totR (szOf s) A.1 := by rw [e1, totR_append]; omega
  refine ⟨⟨hnd, fun v hv => ?_, fun i j hi => ?_, fun i j hj => ?_, fun i hi => ?_⟩, rfl, hmem, fun r hr => ⟨fun c => ?_, ?_, ?_⟩,
    fun k hk => ⟨fun c => ?_, ?_, ?_⟩⟩
  · rcases (hmem v).1 hv with h' | h'
    · exact hB.act v h'
    · exact ha v h'
  · simp only at hi ⊢
    rw [hout i j (by omega)]; exact hB.rowz i j (by omega)
  · simp only at hj ⊢
    rw [hbig i j hj]; exact hB.colz i j (by omega)
  · simp only at hi ⊢
    rw [if_neg (by omega)]; exact hB.noise i (by omega)
  · simp only [Big.row]
    have hBs : B.order.toFinset ⊆ A.1.toFinset := by
      intro v hv; rw [List.mem_toFinset] at hv ⊢; exact (hmem v).2 (.inl hv)
    rw [← Finset.sum_subset hBs]
    · refine Finset.sum_congr rfl fun v hv => ?_
      unfold part
      refine Finset.sum_congr rfl fun a _ => ?_
      rw [hout r _ (by omega), e1, offR_append (by simpa using hv)]
    · intro v hv hv'
      rw [List.mem_toFinset] at hv hv'
      unfold part
      refine Finset.sum_eq_zero fun a _ => ?_
      rw [hout r _ (by omega), e1, offR_append_right hv', hB.colz _ _ (by omega)]
      simp
  · simp only; rw [if_neg (by omega)]
  · simp only; rw [if_neg (by omega)]
  · simp only [Big.row, Sys.row]
    have hys : y.order.toFinset ⊆ A.1.toFinset := by
      intro v hv; rw [List.mem_toFinset] at hv ⊢; exact (hmem v).2 (.inr hv)
    rw [← Finset.sum_subset hys]
    · refine Finset.sum_congr rfl fun v hv => ?_
      unfold part
      refine Finset.sum_congr rfl fun a ha' => ?_
      rw [hown (B.rows + k) (by omega) (by omega) v (by simpa using hv) a (Finset.mem_range.1 ha')]
      simp
    · intro v hv hv'
      rw [List.mem_toFinset] at hv hv'
      unfold part
      refine Finset.sum_eq_zero fun a ha' => ?_
      rw [hoth (B.rows + k) v hv hv' a (Finset.mem_range.1 ha'), hB.rowz _ _ (by omega)]
      simp
  · simp only; rw [if_pos (by omega)]; simp
  · simp only; rw [if_pos (by omega), hB.noise _ (by omega), one_mul]

/-- a sum over the rows of the stack is the sum over the rows of its features. -/
theorem append_sum {s : St.State} {maxR maxC : ℕ} {sig2 : ℝ} {B B' : Big} {y : Sys} (hB : BigOK s B) (hn : y.order.Nodup)
    (ha : ∀ v ∈ y.order, (St.resolve s v).isSome) (h : append (szOf s) maxR maxC sig2 B y = some B') (φ : (ℕ → ℝ) → ℝ → ℝ → ℝ) :
    ∑ r ∈ range B'.rows, φ (B'.row s r) (B'.r r) (B'.R r) =
      ∑ r ∈ range B.rows, φ (B.row s r) (B.r r) (B.R r) + ∑ k ∈ range y.m, φ (y.row s k) (y.r k) sig2 := by
  obtain ⟨-, e, -, h1, h2⟩ := append_spec hB hn ha h
  rw [e, Finset.sum_range_add]
  congr 1
  · refine Finset.sum_congr rfl fun r hr => ?_
    obtain ⟨a1, a2, a3⟩ := h1 r (Finset.mem_range.1 hr)
    rw [a2, a3, show B'.row s r = B.row s r from funext a1]
  · refine Finset.sum_congr rfl fun k hk => ?_
    obtain ⟨a1, a2, a3⟩ := h2 k (Finset.mem_range.1 hk)
    rw [a2, a3, show B'.row s (B.rows + k) = y.row s k from funext a1]

theorem Big.full_row {s : St.State} {B : Big} (hB : BigOK s B) {L : List (ℕ × ℕ)} (hL : St.resolveAll s B.order = some L) (m : ℕ) :
    St.Spec.full L m s.n B.H = toM m s.n (B.row s) := by
  rw [St.full_eq]
  ext i j
  simp only [toM]
  exact scatter_parts _ _ _ hB.nodup hL

theorem Sys.full_row {s : St.State} {y : Sys} (hn : y.order.Nodup) {L : List (ℕ × ℕ)} (hL : St.resolveAll s y.order = some L) (m : ℕ) :
    St.Spec.full L m s.n y.H = toM m s.n (y.row s) := by
  rw [St.full_eq]
  ext i j
  simp only [toM]
  exact scatter_parts _ _ _ hn hL

end Verif.Upd
