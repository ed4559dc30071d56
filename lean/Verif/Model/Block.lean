import Verif.Model.StructUtils

/-! Model of `/repo/singd/structures/blockdiagonal.py` (`BlockDiagonalMatrixTemplate`). -/

open Finset

/-- An instance of a block-diagonal class with `BLOCK_DIM = D` (`blockdiagonal.py:67-110`). -/
structure BlockDiag (α : Type) [Zero α] where
  D : ℕ
  blocks : T3 α
  last : Mat α

variable {α : Type} [Field α]
namespace BlockDiag

/-- `__init__` (`blockdiagonal.py:69-110`). Line 93 is the *chained* comparison
`shape[1] != shape[2] != BLOCK_DIM`, i.e. `shape[1] != shape[2] and shape[2] != BLOCK_DIM`.
The checks of `ndim` are implied by the types. -/
def init (D : ℕ) (blocks : T3 α) (last : Mat α) : Except PyErr (BlockDiag α) :=
  if blocks.d1 ≠ blocks.d2 ∧ blocks.d2 ≠ D then .error .valueError
  else if last.rows ≠ last.cols then .error .valueError
  else if D ≤ last.rows ∨ D ≤ last.cols then .error .valueError
  else .ok ⟨D, blocks, last⟩

/-- `from_dense` (`blockdiagonal.py:112-134`). `BLOCK_DIM = 0` divides by zero; `narrow` raises if there are
fewer than `blocks_end` columns. -/
def fromDense (D : ℕ) (mat : Mat α) : Except PyErr (BlockDiag α) :=
  if D = 0 then .error .zeroDivisionError
  else
    let num := mat.rows / D
    let lastStart := num * D
    let last := mat.slice lastStart mat.rows lastStart mat.cols
    if mat.cols < num * D then .error .runtimeError
    else
      let blocks := T3.ofFn num D D fun n i j => mat.get (n * D + i) (n * D + j)
      init D blocks last

/-- the dimension `total_dim` (`blockdiagonal.py:142-144`) -/
def dim (b : BlockDiag α) : ℕ := b.blocks.d0 * b.D + b.last.rows

/-- `to_dense` (`blockdiagonal.py:136-157`): zero matrix, then the loop of slice assignments. torch raises if a
block does not have shape `[BLOCK_DIM, BLOCK_DIM]`; the model overwrites the block's own extent instead. -/
def toDense (b : BlockDiag α) : Mat α :=
  let mat := (List.range b.blocks.d0).foldl (fun m i => m.setBlock (i * b.D) (i * b.D) (b.blocks.at i))
    (Mat.zeros b.dim b.dim)
  mat.setBlock (b.blocks.d0 * b.D) (b.blocks.d0 * b.D) b.last

/-- `rearrange(x, "(block row) col -> block row col")` -/
def toBlocks (num D : ℕ) (m : Mat α) : Except PyErr (T3 α) :=
  if m.rows = num * D then .ok (T3.ofFn num D m.cols fun n i c => m.get (n * D + i) c)
  else .error .runtimeError

/-- `rearrange(x, "block row col -> (block row) col")` -/
def fromBlocks (num D : ℕ) (t : T3 α) : Except PyErr (Mat α) :=
  if t.d0 = num ∧ t.d1 = D then .ok (Mat.ofFn (num * D) t.d2 fun i c => t.get (i / D) (i % D) c)
  else .error .runtimeError

/-- `__matmul__` with a tensor (`blockdiagonal.py:176-208`; casts are in `Model/Dtype.lean`) -/
def matmulT (b : BlockDiag α) (other : Mat α) : Except PyErr (Mat α) :=
  if other.rows ≠ b.dim then .error .valueError
  else do
    let (ob, ol) ← other.split2 (b.blocks.d0 * b.D) b.last.rows
    let ob ← toBlocks b.blocks.d0 b.D ob
    let rb ← T3.bmm? b.blocks ob
    let rb ← fromBlocks b.blocks.d0 b.D rb
    let rl ← b.last.matmul ol
    Mat.vcat? rb rl

/-- `__matmul__` with a block-diagonal matrix (`blockdiagonal.py:210-213`) -/
def matmulS (b c : BlockDiag α) : Except PyErr (BlockDiag α) := do
  let ob ← T3.bmm? b.blocks c.blocks
  let ol ← b.last.matmul c.last
  init b.D ob ol

/-- `__add__` (`blockdiagonal.py:215-226`) -/
def add (b c : BlockDiag α) : Except PyErr (BlockDiag α) := do
  let ob ← T3.add? b.blocks c.blocks
  let ol ← Mat.add? b.last c.last
  init b.D ob ol

/-- `__mul__` (`blockdiagonal.py:228-237`) -/
def smul (b : BlockDiag α) (s : α) : Except PyErr (BlockDiag α) := init b.D (b.blocks.smul s) (b.last.smul s)

/-- `rmatmat` (`blockdiagonal.py:239-249`): literally `self @ mat`, without a transpose -/
def rmatmat (b : BlockDiag α) (mat : Mat α) : Except PyErr (Mat α) := b.matmulT mat

/-- `from_mat_inner` (`blockdiagonal.py:283-303`) -/
def fromMatInner (D : ℕ) (X : Mat α) : Except PyErr (BlockDiag α) :=
  if D = 0 then .error .zeroDivisionError
  else do
    let num := X.rows / D
    let lastDim := X.rows % D
    let (xb, xl) ← X.split2 (num * D) lastDim
    let xb ← toBlocks num D xb
    let ol ← xl.matmul xl.T
    init D (xb.bmmT xb) ol

/-- `from_inner` (`blockdiagonal.py:255-281`); the case `X is None` uses `"nij,nkj->nik"`, i.e. `A Aᵀ` -/
def fromInner (b : BlockDiag α) (X : Option (Mat α)) : Except PyErr (BlockDiag α) :=
  match X with
  | none => do
    let ol ← b.last.matmul b.last.T
    init b.D (b.blocks.bmmT b.blocks) ol
  | some X => do
    let S ← b.rmatmat X
    fromMatInner b.D S

/-- `average_trace` (`blockdiagonal.py:305-313`) -/
def averageTrace (b : BlockDiag α) : α :=
  (∑ n ∈ range b.blocks.d0, ∑ i ∈ range (min b.blocks.d1 b.blocks.d2), b.blocks.get n i i / b.dim)
    + ∑ i ∈ range (min b.last.rows b.last.cols), b.last.get i i / b.dim

/-- `diag_add_` (`blockdiagonal.py:315-330`) -/
def diagAdd (b : BlockDiag α) (s : α) : BlockDiag α :=
  ⟨b.D,
   T3.ofFn b.blocks.d0 b.blocks.d1 b.blocks.d2 fun n i j =>
     if i = j ∧ i < b.D then b.blocks.get n i j + s else b.blocks.get n i j,
   b.last.diagAdd s⟩

/-- `zeros` (`blockdiagonal.py:346-370`) -/
def zeros (D n : ℕ) : Except PyErr (BlockDiag α) :=
  if D = 0 then .error .zeroDivisionError
  else init D (T3.ofFn (n / D) D D fun _ _ _ => 0) (Mat.zeros (n % D) (n % D))

/-- `eye` (`blockdiagonal.py:372-398`) -/
def eye (D n : ℕ) : Except PyErr (BlockDiag α) :=
  if D = 0 then .error .zeroDivisionError
  else init D (T3.ofFn (n / D) D D fun _ i j => (Mat.eye D).get i j) (Mat.eye (n % D))

/-- entries of `named_tensors()`, one list per tensor (order of `blockdiagonal.py:106-110`) -/
def parts (b : BlockDiag α) : List (List α) :=
  [(List.range b.blocks.d0).flatMap fun n => (rowMajor b.blocks.d1 b.blocks.d2).map fun p => b.blocks.get n p.1 p.2,
   (rowMajor b.last.rows b.last.cols).map fun p => b.last.get p.1 p.2]
end BlockDiag
