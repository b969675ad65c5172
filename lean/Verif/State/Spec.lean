import Verif.State.Model

/-!
# Specification vocabulary for the state properties

Only plain notions: index ranges, matrix entries, Mathlib matrices. Nothing here refers to how the model computes.
-/

open Classical

namespace Verif.St

open Verif Verif.Types Finset

namespace Spec

/-- A state the program can be in: a constructed state after some history of operations that all returned. -/
def Reach (lib : Lib) (s : State) : Prop := ∃ o ops, run lib (ctor o) ops = some s

/-- error-state dimension of a variable. -/
def dim (s : State) (u : ℕ) : ℕ := (s.obj u).val.size

/-- The active variables tile `[0, n)`, in order, without gap or overlap; everything else has id −1. -/
structure Layout (s : State) : Prop where
  /-- no variable appears twice -/
  nodup : s.vars.Nodup
  /-- the k-th variable starts where the first k end -/
  start : ∀ k u, s.vars[k]? = some u → (s.obj u).id = ((s.vars.take k).map (dim s)).sum
  /-- they fill the covariance exactly -/
  total : s.n = (s.vars.map (dim s)).sum
  /-- each row belongs to exactly one active variable -/
  cover : ∀ i, i < s.n → ∃! u, u ∈ s.vars ∧ (s.obj u).id ≤ i ∧ (i : ℤ) < (s.obj u).id + dim s u
  /-- a variable that is not in the state has id −1 -/
  gone : ∀ u, u ∉ s.vars → (s.obj u).id = -1

/-- the two results of a covariance query are the same matrix (or both are errors). -/
def SameMat : Option DMat → Option DMat → Prop
  | none, none => True
  | some A, some B => A.rows = B.rows ∧ A.cols = B.cols ∧ ∀ i j, i < A.rows → j < A.cols → A.a i j = B.a i j
  | _, _ => False

/-- position of the i-th block in a stacked vector. -/
def off (L : List (ℕ × ℕ)) (i : ℕ) : ℕ := ((L.take i).map (·.2)).sum

/-- pairwise non-overlapping blocks. -/
def Disjoint (L : List (ℕ × ℕ)) : Prop := L.Pairwise fun a b => a.1 + a.2 ≤ b.1 ∨ b.1 + b.2 ≤ a.1

/-- row `i` lies in one of the blocks. -/
def In (L : List (ℕ × ℕ)) (i : ℕ) : Prop := ∃ b ∈ L, b.1 ≤ i ∧ i < b.1 + b.2

/-- What is assumed of the numerical library: `llt` inverts and solves symmetric positive definite systems and
`inverse` inverts invertible matrices. -/
structure LibOK (lib : Lib) : Prop where
  lltInv : ∀ m S, Mat.Sym m S → Mat.PD m S → Mat.EqOn m m (Mat.mul m S (lib.lltInv m S)) Mat.one
  lltSolve : ∀ m S b, Mat.Sym m S → Mat.PD m S → ∀ i, i < m → Mat.mulVec m S (lib.lltSolve m S b) i = b i
  inv : ∀ m A, (∃ B, Mat.EqOn m m (Mat.mul m A B) Mat.one) → Mat.EqOn m m (Mat.mul m A (lib.inv m A)) Mat.one

/-- Conditions on the arguments of one operation: noises are covariance matrices; `set_initial_covariance` is given a
covariance for distinct variables that were uncorrelated with the others. -/
def ArgsOK (s : State) : Op → Prop
  | .propagate _ _ _ Q => Mat.PSD Q.rows (Mat.mirrorU Q.a)
  | .update _ _ _ R => Mat.Sym R.rows R.a ∧ Mat.PD R.rows R.a
  | .initInv _ _ _ _ R _ => 0 ≤ R.a 0 0
  | .initDelayed _ _ _ _ R _ _ => 0 < R.a 0 0
  | .setInit C order => ∀ L, resolveAll s order = some L → Disjoint L ∧ Mat.Sym (tot L) C.a ∧ Mat.PSD (tot L) C.a ∧
      ∀ i j, i < s.n → j < s.n → In L i → ¬ In L j → s.P i j = 0
  | _ => True

/-- every operation of the history gets admissible arguments. -/
def HistOK (lib : Lib) : State → List Op → Prop
  | _, [] => True
  | s, op :: t => ArgsOK s op ∧ ∀ s', step lib s op = some s' → HistOK lib s' t

/-- the Jacobian `H`, given for the stacked listed blocks, as a matrix over the whole state: the columns of block `i` of
`H` are placed at that block's rows of the state (added, should a variable be listed twice). -/
noncomputable def full (L : List (ℕ × ℕ)) (m n : ℕ) (H : Mat) : Matrix (Fin m) (Fin n) ℝ := fun r c =>
  ∑ i ∈ range L.length, ∑ a ∈ range (L.getD i (0, 0)).2,
    if (L.getD i (0, 0)).1 + a = c then H r (off L i + a) else 0

/-- `n × n` covariance as a Mathlib matrix. -/
def cov (s : State) : Matrix (Fin s.n) (Fin s.n) ℝ := fun i j => s.P i j

/-- the leading `r × c` part of a matrix argument as a Mathlib matrix. -/
def mat (r c : ℕ) (A : Mat) : Matrix (Fin r) (Fin c) ℝ := fun i j => A i j

/-- a vector argument as a Mathlib vector. -/
def vec (r : ℕ) (x : Vect) : Fin r → ℝ := fun i => x i

end Spec

end Verif.St
