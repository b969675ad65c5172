import Mathlib.Data.List.Nodup
import Mathlib.Data.List.Perm.Basic

/-!
# Association maps

`std::unordered_map<size_t, α>` and `std::map` are modelled as association lists.  The model functions
below pick one concrete iteration order (insertion order); every property theorem is stated through
lookups or membership so that it does not depend on the order.
-/

namespace Verif

/-- Model of `std::unordered_map<size_t, α>` (libstdc++): list of key/value pairs. -/
abbrev AMap (α : Type*) := List (Nat × α)

namespace AMap

variable {α β : Type*}

/-- keys in iteration order -/
def keys (m : AMap α) : List Nat := List.map Prod.fst m

/-- `m.find(k)`: value at a key -/
def get? : AMap α → Nat → Option α
  | [], _ => none
  | (k', v) :: m, k => if k' = k then some v else get? m k

/-- apply a function to the value stored at `k` (the in-place mutation through a pointer/reference) -/
def modify (m : AMap α) (k : Nat) (f : α → α) : AMap α :=
  m.map fun e => if e.1 = k then (e.1, f e.2) else e

/-- `m[k] = v` -/
def set (m : AMap α) (k : Nat) (v : α) : AMap α :=
  if k ∈ m.keys then m.modify k (fun _ => v) else m ++ [(k, v)]

/-- `m.erase(k)` -/
def erase (m : AMap α) (k : Nat) : AMap α := m.filter fun e => e.1 ≠ k

/-- `m[k]` on a map of vectors: value, with the default (empty vector) for a missing key -/
def getL (m : AMap (List α)) (k : Nat) : List α := (m.get? k).getD []

/-- `m[k].push_back(x)` -/
def push (m : AMap (List α)) (k : Nat) (x : α) : AMap (List α) := m.set k (m.getL k ++ [x])

@[simp] theorem keys_nil : keys ([] : AMap α) = [] := rfl
@[simp] theorem keys_cons (e : Nat × α) (m : AMap α) : keys (e :: m) = e.1 :: keys m := rfl
@[simp] theorem keys_append (m m' : AMap α) : keys (m ++ m') = keys m ++ keys m' := by simp [keys]
@[simp] theorem get?_nil (k : Nat) : get? ([] : AMap α) k = none := rfl

theorem get?_cons (e : Nat × α) (m : AMap α) (k : Nat) :
    get? (e :: m) k = if e.1 = k then some e.2 else get? m k := rfl

theorem get?_eq_none {m : AMap α} {k : Nat} : m.get? k = none ↔ k ∉ m.keys := by
  induction m with
  | nil => simp
  | cons e m ih =>
    rw [get?_cons]; split
    · simp_all
    · rename_i h; simp [ih, Ne.symm h]

theorem mem_keys_iff {m : AMap α} {k : Nat} : k ∈ m.keys ↔ ∃ v, m.get? k = some v := by
  rw [← Option.isSome_iff_exists, Option.isSome_iff_ne_none, ne_eq, get?_eq_none, not_not]

theorem mem_of_get? {m : AMap α} {k : Nat} {v : α} (h : m.get? k = some v) : (k, v) ∈ m := by
  induction m with
  | nil => simp at h
  | cons e m ih =>
    rw [get?_cons] at h
    split at h
    · rename_i h'; cases h; subst h'; simp
    · exact List.mem_cons_of_mem _ (ih h)

theorem get?_of_mem {m : AMap α} (hn : m.keys.Nodup) {k : Nat} {v : α} (h : (k, v) ∈ m) :
    m.get? k = some v := by
  induction m with
  | nil => simp at h
  | cons e m ih =>
    rw [keys_cons, List.nodup_cons] at hn
    rw [get?_cons]
    rcases List.mem_cons.1 h with h | h
    · subst h; simp
    · have : k ∈ keys m := List.mem_map.2 ⟨_, h, rfl⟩
      have hne : e.1 ≠ k := fun he => hn.1 (he ▸ this)
      simp [hne, ih hn.2 h]

theorem mem_iff_get? {m : AMap α} (hn : m.keys.Nodup) {k : Nat} {v : α} :
    (k, v) ∈ m ↔ m.get? k = some v := ⟨get?_of_mem hn, mem_of_get?⟩

theorem get?_append (m m' : AMap α) (k : Nat) :
    get? (m ++ m') k = (get? m k).or (get? m' k) := by
  induction m with
  | nil => simp
  | cons e m ih => rw [List.cons_append, get?_cons, get?_cons]; split <;> simp [ih]

@[simp] theorem keys_modify (m : AMap α) (k : Nat) (f : α → α) : (m.modify k f).keys = m.keys := by
  induction m with
  | nil => rfl
  | cons e m ih =>
    simp only [modify, keys, List.map_cons, List.map_map] at *
    congr 1
    split <;> rfl

theorem get?_modify (m : AMap α) (k : Nat) (f : α → α) (k' : Nat) :
    (m.modify k f).get? k' = if k' = k then (m.get? k').map f else m.get? k' := by
  induction m with
  | nil => simp [modify]
  | cons e m ih =>
    simp only [modify, List.map_cons] at *
    rw [get?_cons, get?_cons, ih]
    by_cases h1 : e.1 = k <;> by_cases h2 : e.1 = k' <;> by_cases h3 : k' = k <;> simp_all

theorem keys_set (m : AMap α) (k : Nat) (v : α) :
    (m.set k v).keys = if k ∈ m.keys then m.keys else m.keys ++ [k] := by
  unfold set; split <;> simp

theorem nodup_set {m : AMap α} (h : m.keys.Nodup) (k : Nat) (v : α) : (m.set k v).keys.Nodup := by
  rw [keys_set]; split
  · exact h
  · rename_i hk
    rw [List.nodup_append]
    exact ⟨h, by simp, by
      intro a ha b hb
      rw [List.mem_singleton] at hb; subst hb; rintro rfl; exact hk ha⟩

theorem get?_set (m : AMap α) (k : Nat) (v : α) (k' : Nat) :
    (m.set k v).get? k' = if k' = k then some v else m.get? k' := by
  unfold set; split
  · rename_i hk
    rw [get?_modify]
    split
    · rename_i h; subst h
      obtain ⟨w, hw⟩ := mem_keys_iff.1 hk
      simp [hw]
    · rfl
  · rename_i hk
    rw [get?_append, get?_cons]
    by_cases h : k' = k
    · subst h; simp [get?_eq_none.2 hk]
    · simp [h, Ne.symm h]

theorem keys_filter (m : AMap α) (p : Nat → Bool) :
    keys (m.filter fun e => p e.1) = (keys m).filter p := by
  simp [keys, List.filter_map, Function.comp_def]

theorem nodup_filter {m : AMap α} (h : m.keys.Nodup) (p : Nat × α → Bool) :
    (keys (m.filter p)).Nodup := by
  unfold keys at *
  exact h.sublist (List.Sublist.map _ List.filter_sublist)

theorem get?_filter {m : AMap α} (hn : m.keys.Nodup) (p : Nat × α → Bool) (k : Nat) :
    get? (m.filter p) k = (get? m k).filter (fun v => p (k, v)) := by
  induction m with
  | nil => simp
  | cons e m ih =>
    rw [keys_cons, List.nodup_cons] at hn
    rw [List.filter_cons, get?_cons]
    by_cases hk : e.1 = k
    · subst hk
      simp only [if_true, Option.filter_some]
      split
      · rw [get?_cons]; simp
      · rw [ih hn.2, get?_eq_none.2 hn.1]; rfl
    · simp only [hk, if_false]
      split
      · rw [get?_cons]; simp [hk, ih hn.2]
      · exact ih hn.2

theorem get?_erase {m : AMap α} (hn : m.keys.Nodup) (k k' : Nat) :
    (m.erase k).get? k' = if k' = k then none else m.get? k' := by
  unfold erase; rw [get?_filter hn]
  by_cases h : k' = k
  · simp [h]
  · cases hm : m.get? k' <;> simp [h]

theorem getL_set (m : AMap (List α)) (k : Nat) (v : List α) (k' : Nat) :
    (m.set k v).getL k' = if k' = k then v else m.getL k' := by
  unfold getL; rw [get?_set]; split <;> simp

theorem getL_push (m : AMap (List α)) (k : Nat) (x : α) (k' : Nat) :
    (m.push k x).getL k' = if k' = k then m.getL k ++ [x] else m.getL k' := by
  unfold push; rw [getL_set]

end AMap
end Verif
