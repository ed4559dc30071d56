import Mathlib.Algebra.BigOperators.Intervals
import Mathlib.Algebra.BigOperators.Fin
import Mathlib.Algebra.BigOperators.Ring.Finset
import Mathlib.Data.Matrix.Mul
import Mathlib.LinearAlgebra.Matrix.Trace
import Mathlib.Algebra.Field.Basic
import Mathlib.Algebra.Order.Field.Basic
import Mathlib.Tactic.Ring
import Mathlib.Tactic.Linarith
import Verif.Py

/-!
Tensors of rank 1, 2, 3 with run-time shapes, and the torch primitives the code uses.
A tensor is a shape together with an index function that vanishes outside the shape, so that Lean's `=` is
"same shape and same entries". Data types, devices, strides and storage sharing are not represented here.
Entries live in an arbitrary field (exact arithmetic; floating point is not modelled).
-/

open Finset

/-- 1d tensor -/
structure Vec (α : Type) [Zero α] where
  len : ℕ
  get : ℕ → α
  supp : ∀ i, len ≤ i → get i = 0

/-- 2d tensor -/
structure Mat (α : Type) [Zero α] where
  rows : ℕ
  cols : ℕ
  get : ℕ → ℕ → α
  supp : ∀ i j, (rows ≤ i ∨ cols ≤ j) → get i j = 0

/-- 3d tensor -/
structure T3 (α : Type) [Zero α] where
  d0 : ℕ
  d1 : ℕ
  d2 : ℕ
  get : ℕ → ℕ → ℕ → α
  supp : ∀ i j k, (d0 ≤ i ∨ d1 ≤ j ∨ d2 ≤ k) → get i j k = 0

section basic
variable {α : Type} [Zero α]

/-- tensor from an entry function -/
def Vec.ofFn (n : ℕ) (f : ℕ → α) : Vec α :=
  ⟨n, fun i => if i < n then f i else 0, fun i h => if_neg (by omega)⟩
/-- tensor from an entry function -/
def Mat.ofFn (r c : ℕ) (f : ℕ → ℕ → α) : Mat α :=
  ⟨r, c, fun i j => if i < r ∧ j < c then f i j else 0, fun i j h => if_neg (by omega)⟩
/-- tensor from an entry function -/
def T3.ofFn (a b c : ℕ) (f : ℕ → ℕ → ℕ → α) : T3 α :=
  ⟨a, b, c, fun i j k => if i < a ∧ j < b ∧ k < c then f i j k else 0, fun i j k h => if_neg (by omega)⟩

@[simp] theorem Vec.len_ofFn (n) (f : ℕ → α) : (Vec.ofFn n f).len = n := rfl
@[simp] theorem Vec.get_ofFn (n) (f : ℕ → α) (i) : (Vec.ofFn n f).get i = if i < n then f i else 0 := rfl
@[simp] theorem Mat.rows_ofFn (r c) (f : ℕ → ℕ → α) : (Mat.ofFn r c f).rows = r := rfl
@[simp] theorem Mat.cols_ofFn (r c) (f : ℕ → ℕ → α) : (Mat.ofFn r c f).cols = c := rfl
@[simp] theorem Mat.get_ofFn (r c) (f : ℕ → ℕ → α) (i j) :
    (Mat.ofFn r c f).get i j = if i < r ∧ j < c then f i j else 0 := rfl
@[simp] theorem T3.d0_ofFn (a b c) (f : ℕ → ℕ → ℕ → α) : (T3.ofFn a b c f).d0 = a := rfl
@[simp] theorem T3.d1_ofFn (a b c) (f : ℕ → ℕ → ℕ → α) : (T3.ofFn a b c f).d1 = b := rfl
@[simp] theorem T3.d2_ofFn (a b c) (f : ℕ → ℕ → ℕ → α) : (T3.ofFn a b c f).d2 = c := rfl
@[simp] theorem T3.get_ofFn (a b c) (f : ℕ → ℕ → ℕ → α) (i j k) :
    (T3.ofFn a b c f).get i j k = if i < a ∧ j < b ∧ k < c then f i j k else 0 := rfl

theorem Vec.ext' {u v : Vec α} (hl : u.len = v.len) (h : ∀ i < u.len, u.get i = v.get i) : u = v := by
  obtain ⟨n, f, hf⟩ := u; obtain ⟨m, g, hg⟩ := v
  simp only at hl h; subst hl
  congr 1; funext i
  rcases lt_or_ge i n with hi | hi
  · exact h i hi
  · rw [hf i hi, hg i hi]

theorem Mat.ext' {A B : Mat α} (hr : A.rows = B.rows) (hc : A.cols = B.cols)
    (h : ∀ i < A.rows, ∀ j < A.cols, A.get i j = B.get i j) : A = B := by
  obtain ⟨r, c, f, hf⟩ := A; obtain ⟨r', c', g, hg⟩ := B
  simp only at hr hc h; subst hr; subst hc
  congr 1; funext i j
  by_cases hi : i < r ∧ j < c
  · exact h i hi.1 j hi.2
  · have : r ≤ i ∨ c ≤ j := by omega
    rw [hf i j this, hg i j this]

theorem T3.ext' {A B : T3 α} (h0 : A.d0 = B.d0) (h1 : A.d1 = B.d1) (h2 : A.d2 = B.d2)
    (h : ∀ i < A.d0, ∀ j < A.d1, ∀ k < A.d2, A.get i j k = B.get i j k) : A = B := by
  obtain ⟨a, b, c, f, hf⟩ := A; obtain ⟨a', b', c', g, hg⟩ := B
  simp only at h0 h1 h2 h; subst h0; subst h1; subst h2
  congr 1; funext i j k
  by_cases hi : i < a ∧ j < b ∧ k < c
  · exact h i hi.1 j hi.2.1 k hi.2.2
  · have : a ≤ i ∨ b ≤ j ∨ c ≤ k := by omega
    rw [hf i j k this, hg i j k this]

theorem Vec.ofFn_eta (v : Vec α) {n} (h : v.len = n) : Vec.ofFn n v.get = v :=
  Vec.ext' h.symm (fun i hi => by simp at hi; simp [hi])
theorem Mat.ofFn_eta (A : Mat α) {n m} (h : A.rows = n) (h' : A.cols = m) : Mat.ofFn n m A.get = A :=
  Mat.ext' h.symm h'.symm (fun i hi j hj => by simp at hi hj; simp [hi, hj])

/-- entries as a Mathlib matrix: the denotation used in all specifications -/
def Mat.M (A : Mat α) (n m : ℕ) : Matrix (Fin n) (Fin m) α := fun i j => A.get i j

theorem Mat.M_inj {A B : Mat α} {n m : ℕ} (hA : A.rows = n ∧ A.cols = m) (hB : B.rows = n ∧ B.cols = m)
    (h : A.M n m = B.M n m) : A = B := by
  refine Mat.ext' (hA.1.trans hB.1.symm) (hA.2.trans hB.2.symm) fun i hi j hj => ?_
  have := congrFun (congrFun h ⟨i, hA.1 ▸ hi⟩) ⟨j, hA.2 ▸ hj⟩
  simpa [Mat.M] using this

/-- all entries as nested lists (used to display concrete examples) -/
def Mat.toLists (A : Mat α) : List (List α) :=
  (List.range A.rows).map fun i => (List.range A.cols).map fun j => A.get i j
/-- all entries as a list -/
def Vec.toList (v : Vec α) : List α := (List.range v.len).map v.get
/-- tensor literal -/
def Vec.ofList (l : List α) : Vec α := Vec.ofFn l.length fun i => l.getD i 0
/-- tensor literal -/
def Mat.ofLists (r c : ℕ) (l : List (List α)) : Mat α := Mat.ofFn r c fun i j => (l.getD i []).getD j 0
end basic

section ops
variable {α : Type} [Field α]

/-- `torch.zeros(n)` -/
def Vec.zeros (n : ℕ) : Vec α := Vec.ofFn n fun _ => 0
/-- `torch.ones(n)` -/
def Vec.ones (n : ℕ) : Vec α := Vec.ofFn n fun _ => 1
/-- `v.flip(0)` -/
def Vec.flip (v : Vec α) : Vec α := Vec.ofFn v.len fun i => v.get (v.len - 1 - i)
/-- `torch.cat([u, v])` -/
def Vec.cat (u v : Vec α) : Vec α :=
  Vec.ofFn (u.len + v.len) fun i => if i < u.len then u.get i else v.get (i - u.len)
/-- `v[a:b]` (Python slices clamp) -/
def Vec.slice (v : Vec α) (a b : ℕ) : Vec α := Vec.ofFn (min b v.len - a) fun i => v.get (a + i)
/-- `v * s` -/
def Vec.smul (v : Vec α) (s : α) : Vec α := Vec.ofFn v.len fun i => v.get i * s
/-- `u + v` for equal shapes -/
def Vec.add (u v : Vec α) : Vec α := Vec.ofFn u.len fun i => u.get i + v.get i
/-- `u * v` for equal shapes -/
def Vec.had (u v : Vec α) : Vec α := Vec.ofFn u.len fun i => u.get i * v.get i
/-- `v.sum()` -/
def Vec.sum (v : Vec α) : α := ∑ i ∈ range v.len, v.get i
/-- `v + s` (every entry) -/
def Vec.addScalar (v : Vec α) (s : α) : Vec α := Vec.ofFn v.len fun i => v.get i + s

/-- `torch.zeros((r, c))` -/
def Mat.zeros (r c : ℕ) : Mat α := Mat.ofFn r c fun _ _ => 0
/-- `torch.eye(n)` -/
def Mat.eye (n : ℕ) : Mat α := Mat.ofFn n n fun i j => if i = j then 1 else 0
/-- `A.T` -/
def Mat.T (A : Mat α) : Mat α := Mat.ofFn A.cols A.rows fun i j => A.get j i
/-- `A * s` -/
def Mat.smul (A : Mat α) (s : α) : Mat α := Mat.ofFn A.rows A.cols fun i j => A.get i j * s
/-- `A + B` for equal shapes -/
def Mat.add (A B : Mat α) : Mat α := Mat.ofFn A.rows A.cols fun i j => A.get i j + B.get i j
/-- `A @ B` for matching inner dimension -/
def Mat.mul (A B : Mat α) : Mat α :=
  Mat.ofFn A.rows B.cols fun i j => ∑ k ∈ range A.cols, A.get i k * B.get k j
/-- `A[r0:r1, c0:c1]` (Python slices clamp) -/
def Mat.slice (A : Mat α) (r0 r1 c0 c1 : ℕ) : Mat α :=
  Mat.ofFn (min r1 A.rows - r0) (min c1 A.cols - c0) fun i j => A.get (r0 + i) (c0 + j)
/-- `torch.cat([A, B], dim=0)` -/
def Mat.vcat (A B : Mat α) : Mat α :=
  Mat.ofFn (A.rows + B.rows) A.cols fun i j => if i < A.rows then A.get i j else B.get (i - A.rows) j
/-- `torch.cat([A, B], dim=1)` -/
def Mat.hcat (A B : Mat α) : Mat α :=
  Mat.ofFn A.rows (A.cols + B.cols) fun i j => if j < A.cols then A.get i j else B.get i (j - A.cols)
/-- `A.diag()` of a 2d tensor -/
def Mat.diag (A : Mat α) : Vec α := Vec.ofFn (min A.rows A.cols) fun i => A.get i i
/-- `v.diag()` of a 1d tensor -/
def Vec.diagMat (v : Vec α) : Mat α := Mat.ofFn v.len v.len fun i j => if i = j then v.get i else 0
/-- slice assignment `A[r0:r0+B.rows, c0:c0+B.cols] = B` -/
def Mat.setBlock (A : Mat α) (r0 c0 : ℕ) (B : Mat α) : Mat α :=
  Mat.ofFn A.rows A.cols fun i j =>
    if r0 ≤ i ∧ i < r0 + B.rows ∧ c0 ≤ j ∧ j < c0 + B.cols then B.get (i - r0) (j - c0) else A.get i j
/-- `A[idx, idx] += s` with `idx = arange(min(rows, cols))` -/
def Mat.diagAdd (A : Mat α) (s : α) : Mat α :=
  Mat.ofFn A.rows A.cols fun i j => if i = j then A.get i j + s else A.get i j
/-- `(A ** 2).sum(1)` -/
def Mat.rowSq (A : Mat α) : Vec α := Vec.ofFn A.rows fun i => ∑ k ∈ range A.cols, A.get i k * A.get i k
/-- `(A ** 2).sum(0)` -/
def Mat.colSq (A : Mat α) : Vec α := Vec.ofFn A.cols fun j => ∑ k ∈ range A.rows, A.get k j * A.get k j
/-- `einsum("i,ij->ij", v, A)` -/
def Mat.scaleRows (v : Vec α) (A : Mat α) : Mat α := Mat.ofFn A.rows A.cols fun i j => v.get i * A.get i j
/-- `einsum("ij,j->ij", A, v)` -/
def Mat.scaleCols (A : Mat α) (v : Vec α) : Mat α := Mat.ofFn A.rows A.cols fun i j => A.get i j * v.get j

/-- `A + B` for equal shapes -/
def T3.add (A B : T3 α) : T3 α := T3.ofFn A.d0 A.d1 A.d2 fun i j k => A.get i j k + B.get i j k
/-- `A * s` -/
def T3.smul (A : T3 α) (s : α) : T3 α := T3.ofFn A.d0 A.d1 A.d2 fun i j k => A.get i j k * s
/-- `einsum("nij,njk->nik", A, B)` -/
def T3.bmm (A B : T3 α) : T3 α :=
  T3.ofFn A.d0 A.d1 B.d2 fun n i k => ∑ j ∈ range A.d2, A.get n i j * B.get n j k
/-- `einsum("nij,nkj->nik", A, B)` -/
def T3.bmmT (A B : T3 α) : T3 α :=
  T3.ofFn A.d0 A.d1 B.d1 fun n i k => ∑ j ∈ range A.d2, A.get n i j * B.get n k j
/-- `A[n, :, :]` -/
def T3.at (A : T3 α) (n : ℕ) : Mat α := Mat.ofFn A.d1 A.d2 fun i j => A.get n i j

/-! ### shape-checked versions (what torch raises on a mismatch)

Broadcasting of size-1 dimensions is not modelled: where torch would broadcast, the model raises. -/

/-- `A @ B` -/
def Mat.matmul (A B : Mat α) : Except PyErr (Mat α) :=
  if A.cols = B.rows then .ok (A.mul B) else .error .runtimeError
/-- `A + B` -/
def Mat.add? (A B : Mat α) : Except PyErr (Mat α) :=
  if A.rows = B.rows ∧ A.cols = B.cols then .ok (A.add B) else .error .runtimeError
/-- `u + v` -/
def Vec.add? (u v : Vec α) : Except PyErr (Vec α) :=
  if u.len = v.len then .ok (u.add v) else .error .runtimeError
/-- `u * v` -/
def Vec.had? (u v : Vec α) : Except PyErr (Vec α) :=
  if u.len = v.len then .ok (u.had v) else .error .runtimeError
/-- `A + B` -/
def T3.add? (A B : T3 α) : Except PyErr (T3 α) :=
  if A.d0 = B.d0 ∧ A.d1 = B.d1 ∧ A.d2 = B.d2 then .ok (A.add B) else .error .runtimeError
/-- `einsum("nij,njk->nik", A, B)` -/
def T3.bmm? (A B : T3 α) : Except PyErr (T3 α) :=
  if A.d0 = B.d0 ∧ A.d2 = B.d1 then .ok (A.bmm B) else .error .runtimeError
/-- `torch.cat([A, B], dim=0)` -/
def Mat.vcat? (A B : Mat α) : Except PyErr (Mat α) :=
  if A.cols = B.cols then .ok (A.vcat B) else .error .runtimeError
/-- `torch.cat([A, B], dim=1)` -/
def Mat.hcat? (A B : Mat α) : Except PyErr (Mat α) :=
  if A.rows = B.rows then .ok (A.hcat B) else .error .runtimeError
/-- `einsum("i,ij->ij", v, A)` -/
def Mat.scaleRows? (v : Vec α) (A : Mat α) : Except PyErr (Mat α) :=
  if v.len = A.rows then .ok (Mat.scaleRows v A) else .error .runtimeError
/-- `einsum("ij,j->ij", A, v)` -/
def Mat.scaleCols? (A : Mat α) (v : Vec α) : Except PyErr (Mat α) :=
  if A.cols = v.len then .ok (Mat.scaleCols A v) else .error .runtimeError
/-- `A.split([a, b])` -/
def Mat.split2 (A : Mat α) (a b : ℕ) : Except PyErr (Mat α × Mat α) :=
  if a + b = A.rows then .ok (A.slice 0 a 0 A.cols, A.slice a (a + b) 0 A.cols) else .error .runtimeError
/-- `A.split([a, b], dim=1)` -/
def Mat.split2c (A : Mat α) (a b : ℕ) : Except PyErr (Mat α × Mat α) :=
  if a + b = A.cols then .ok (A.slice 0 A.rows 0 a, A.slice 0 A.rows a (a + b)) else .error .runtimeError
/-- `A.split([a, b, c])` -/
def Mat.split3 (A : Mat α) (a b c : ℕ) : Except PyErr (Mat α × Mat α × Mat α) :=
  if a + b + c = A.rows then
    .ok (A.slice 0 a 0 A.cols, A.slice a (a + b) 0 A.cols, A.slice (a + b) (a + b + c) 0 A.cols)
  else .error .runtimeError
end ops
