import Verif.Model.StructUtils

/-! Model of `/repo/singd/structures/hierarchical.py` (`HierarchicalMatrixTemplate`). -/

open Finset

/-- An instance of a hierarchical class with `MAX_K1 = max1`, `MAX_K2 = max2` (`hierarchical.py:76-143`). -/
structure Hier (α : Type) [Zero α] where
  max1 : ℕ
  max2 : ℕ
  A : Mat α
  B : Mat α
  C : Vec α
  D : Mat α
  E : Mat α

variable {α : Type} [Field α]
namespace Hier

/-- `self.K1` (`hierarchical.py:110`) -/
def K1 (h : Hier α) : ℕ := h.A.rows
/-- `self.K2` (`hierarchical.py:111`) -/
def K2 (h : Hier α) : ℕ := h.E.rows
/-- `self.diag_dim` (`hierarchical.py:112`) -/
def diagDim (h : Hier α) : ℕ := h.C.len
/-- `self.dim` (`hierarchical.py:113`) -/
def dim (h : Hier α) : ℕ := h.K1 + h.K2 + h.diagDim

/-- `__init__` (`hierarchical.py:79-143`); the `ndim` checks are implied by the types -/
def init (max1 max2 : ℕ) (A B : Mat α) (C : Vec α) (D E : Mat α) : Except PyErr (Hier α) :=
  if A.rows ≠ A.cols then .error .valueError
  else if E.rows ≠ E.cols then .error .valueError
  else if max1 < A.rows ∨ max2 < E.rows then .error .valueError
  else if ¬(D.rows = E.rows ∧ D.cols = C.len) then .error .valueError
  else if ¬(B.rows = A.rows ∧ B.cols = C.len + E.rows) then .error .valueError
  else .ok ⟨max1, max2, A, B, C, D, E⟩

/-- `_compute_block_dims` (`hierarchical.py:429-445`): `(K1, diag_dim, K2)` -/
def blockDims (max1 max2 dim : ℕ) : ℕ × ℕ × ℕ :=
  if dim ≤ max1 then (dim, 0, 0)
  else if dim ≤ max1 + max2 then (max1, 0, dim - max1)
  else (max1, dim - max1 - max2, max2)

/-- `from_dense` (`hierarchical.py:145-166`), including the factors 2 on `B` and `D` -/
def fromDense (max1 max2 : ℕ) (m : Mat α) : Except PyErr (Hier α) :=
  if m.rows ≠ m.cols then .error .valueError
  else
    let dims := blockDims max1 max2 m.rows
    let K1 := dims.1
    let dd := dims.2.1
    init max1 max2
      (m.slice 0 K1 0 K1)
      ((m.slice 0 K1 K1 m.cols).smul 2)
      (m.diag.slice K1 (K1 + dd))
      ((m.slice (K1 + dd) m.rows K1 (K1 + dd)).smul 2)
      (m.slice (K1 + dd) m.rows (K1 + dd) m.cols)

/-- `mat[idx, idx] = v` with `idx = arange(start, start + len(v))` (`hierarchical.py:178-179`) -/
def setDiag (m : Mat α) (start : ℕ) (v : Vec α) : Mat α :=
  Mat.ofFn m.rows m.cols fun i j =>
    if i = j ∧ start ≤ i ∧ i < start + v.len then v.get (i - start) else m.get i j

/-- `to_dense` (`hierarchical.py:168-183`): zero matrix followed by the five slice assignments -/
def toDense (h : Hier α) : Mat α :=
  let m := Mat.zeros h.dim h.dim
  let m := m.setBlock 0 0 h.A
  let m := m.setBlock 0 h.K1 h.B
  let m := setDiag m h.K1 h.C
  let m := m.setBlock (h.K1 + h.diagDim) h.K1 h.D
  m.setBlock (h.K1 + h.diagDim) (h.K1 + h.diagDim) h.E

/-- `__matmul__` with a tensor (`hierarchical.py:199-211`) -/
def matmulT (h : Hier α) (other : Mat α) : Except PyErr (Mat α) := do
  let (BC, BE) ← h.B.split2c h.diagDim h.K2
  let (ot, om, ob) ← other.split3 h.K1 h.diagDim h.K2
  let t1 ← h.A.matmul ot
  let t2 ← BC.matmul om
  let t3 ← BE.matmul ob
  let top ← (← t1.add? t2).add? t3
  let middle ← Mat.scaleRows? h.C om
  let bottom ← (← h.D.matmul om).add? (← h.E.matmul ob)
  Mat.vcat? (← Mat.vcat? top middle) bottom

/-- `__matmul__` with a hierarchical matrix (`hierarchical.py:199-200, 213-230`) -/
def matmulS (h o : Hier α) : Except PyErr (Hier α) := do
  let (BC, BE) ← h.B.split2c h.diagDim h.K2
  let A ← h.A.matmul o.A
  let C ← Vec.had? h.C o.C
  let E ← h.E.matmul o.E
  let D ← (← Mat.scaleCols? h.D o.C).add? (← h.E.matmul o.D)
  let (BCo, BEo) ← o.B.split2c o.diagDim o.K2
  let B1 ← (← (← h.A.matmul BCo).add? (← Mat.scaleCols? BC o.C)).add? (← BE.matmul o.D)
  let B2 ← (← h.A.matmul BEo).add? (← BE.matmul o.E)
  let B ← Mat.hcat? B1 B2
  init h.max1 h.max2 A B C D E

/-- `__add__` (`hierarchical.py:232-247`) -/
def add (h o : Hier α) : Except PyErr (Hier α) := do
  let A ← Mat.add? h.A o.A
  let B ← Mat.add? h.B o.B
  let C ← Vec.add? h.C o.C
  let D ← Mat.add? h.D o.D
  let E ← Mat.add? h.E o.E
  init h.max1 h.max2 A B C D E

/-- `__mul__` (`hierarchical.py:249-264`) -/
def smul (h : Hier α) (s : α) : Except PyErr (Hier α) :=
  init h.max1 h.max2 (h.A.smul s) (h.B.smul s) (h.C.smul s) (h.D.smul s) (h.E.smul s)

/-- `rmatmat` (`hierarchical.py:266-293`; casts are in `Model/Dtype.lean`) -/
def rmatmat (h : Hier α) (mat : Mat α) : Except PyErr (Mat α) := do
  let (mt, mm, mb) ← mat.split3 h.K1 h.diagDim h.K2
  let (BC, BE) ← h.B.split2c h.diagDim h.K2
  let top ← h.A.T.matmul mt
  let m1 ← BC.T.matmul mt
  let m2 ← Mat.scaleRows? h.C mm
  let m3 ← h.D.T.matmul mb
  let middle ← (← m1.add? m2).add? m3
  let bottom ← (← BE.T.matmul mt).add? (← h.E.T.matmul mb)
  Mat.vcat? (← Mat.vcat? top middle) bottom

/-- `from_inner` (`hierarchical.py:299-327`) -/
def fromInner (h : Hier α) (X : Option (Mat α)) : Except PyErr (Hier α) :=
  match X with
  | none => do
    let A ← h.A.T.matmul h.A
    let B ← (h.A.T.smul 2).matmul h.B
    let (BC, BE) ← h.B.split2c h.diagDim h.K2
    let C ← (← Vec.add? (Vec.had h.C h.C) BC.colSq).add? h.D.colSq
    let D0 ← (← BE.T.matmul BC).add? (← h.E.T.matmul h.D)
    let E ← (← h.E.T.matmul h.E).add? (← BE.T.matmul BE)
    init h.max1 h.max2 A B C (D0.smul 2) E
  | some X => do
    let S ← h.rmatmat X
    let (SA, SC, SE) ← S.split3 h.K1 h.diagDim h.K2
    let A ← SA.matmul SA.T
    let B0 ← Mat.hcat? (← SA.matmul SC.T) (← SA.matmul SE.T)
    let D ← (SE.smul 2).matmul SC.T
    let E ← SE.matmul SE.T
    init h.max1 h.max2 A (B0.smul 2) SC.rowSq D E

/-- `average_trace` (`hierarchical.py:329-341`) -/
def averageTrace (h : Hier α) : α :=
  let dim : α := ((h.A.rows + h.C.len + h.E.rows : ℕ) : α)
  (∑ i ∈ range h.A.diag.len, h.A.diag.get i / dim) + (∑ i ∈ range h.C.len, h.C.get i / dim)
    + ∑ i ∈ range h.E.diag.len, h.E.diag.get i / dim

/-- `diag_add_` (`hierarchical.py:343-355`) -/
def diagAdd (h : Hier α) (s : α) : Except PyErr (Hier α) := do
  let A ← utilsDiagAdd h.A s
  let E ← utilsDiagAdd h.E s
  return { h with A := A, C := h.C.addScalar s, E := E }

/-- `zeros` (`hierarchical.py:371-398`) -/
def zeros (max1 max2 n : ℕ) : Except PyErr (Hier α) :=
  let dims := blockDims max1 max2 n
  init max1 max2 (Mat.zeros dims.1 dims.1) (Mat.zeros dims.1 (dims.2.1 + dims.2.2)) (Vec.zeros dims.2.1)
    (Mat.zeros dims.2.2 dims.2.1) (Mat.zeros dims.2.2 dims.2.2)

/-- `eye` (`hierarchical.py:400-427`) -/
def eye (max1 max2 n : ℕ) : Except PyErr (Hier α) :=
  let dims := blockDims max1 max2 n
  init max1 max2 (Mat.eye dims.1) (Mat.zeros dims.1 (dims.2.1 + dims.2.2)) (Vec.ones dims.2.1)
    (Mat.zeros dims.2.2 dims.2.1) (Mat.eye dims.2.2)

/-- entries of `named_tensors()`, one list per tensor (order of `hierarchical.py:130-143`) -/
def parts (h : Hier α) : List (List α) :=
  let f := fun (m : Mat α) => (rowMajor m.rows m.cols).map fun p => m.get p.1 p.2
  [f h.A, f h.B, h.C.toList, f h.D, f h.E]
end Hier
