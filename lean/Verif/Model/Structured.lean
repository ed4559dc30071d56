import Verif.Model.Diagonal
import Verif.Model.Block
import Verif.Model.Hier
import Verif.Model.Toeplitz

/-!
Model of the `StructuredMatrix` interface (`/repo/singd/structures/base.py`), the recursive templates
(`/repo/singd/structures/recursive.py`) and Python's method dispatch over all classes.

In-place methods (`mul_`, `add_`, `diag_add_`) return the new value of the object; sharing of storage between
objects is not represented here (see `Model/Alias.lean` for the places where it matters).
-/

open Finset

/-- An entry of `MAX_DIMS`: an `int` or `float("inf")` (`recursive.py:140`). -/
inductive MaxDim where
  | int (n : ℕ)
  | inf
  deriving DecidableEq, Repr

/-- `dim > max_dim` (`recursive.py:173, 175`) -/
def MaxDim.lt (m : MaxDim) (d : ℕ) : Prop := match m with
  | .int n => n < d
  | .inf => False
instance (m : MaxDim) (d : ℕ) : Decidable (m.lt d) := by unfold MaxDim.lt; cases m <;> infer_instance

/-- The structured matrix classes: the concrete classes and every instantiation of the templates.
User-defined subclasses that override methods are not represented. -/
inductive Cls where
  | dense
  | diagonal
  | block (D : ℕ)
  | hier (max1 max2 : ℕ)
  | tril
  | triu
  | topRight (maxA maxC : MaxDim) (clsA clsC : Cls)
  | bottomLeft (maxA maxC : MaxDim) (clsA clsC : Cls)
  deriving DecidableEq, Repr

/-- A structured matrix object together with its class. -/
inductive SM (α : Type) [Zero α] where
  | dense (mat : Mat α)
  | diagonal (d : Vec α)
  | block (b : BlockDiag α)
  | hier (h : Hier α)
  | tril (d : Vec α)
  | triu (d : Vec α)
  | topRight (maxA maxC : MaxDim) (clsA clsC : Cls) (A : SM α) (B : Mat α) (C : SM α)
  | bottomLeft (maxA maxC : MaxDim) (clsA clsC : Cls) (A : SM α) (B : Mat α) (C : SM α)

/-- `_get_boundary` (`recursive.py:361-392`) -/
def getBoundary (dim : ℕ) (maxA maxC : MaxDim) : Except PyErr ℕ :=
  match maxA, maxC with
  | .inf, .int c => .ok (dim - c)
  | .int a, .inf => .ok (min a dim)
  | _, _ => .error .valueError

variable {α : Type} [Field α]

namespace SM

/-- `type(self)`; `isinstance(x, cls)` is modelled as equality of classes -/
def cls : SM α → Cls
  | dense _ => .dense
  | diagonal _ => .diagonal
  | block b => .block b.D
  | hier h => .hier h.max1 h.max2
  | tril _ => .tril
  | triu _ => .triu
  | topRight a c ca cc _ _ _ => .topRight a c ca cc
  | bottomLeft a c ca cc _ _ _ => .bottomLeft a c ca cc

/-- `to_dense` of every class (recursive templates: `recursive.py:207-220, 345-358`, `block_diag` followed by a
slice assignment) -/
def toDense : SM α → Mat α
  | dense m => m
  | diagonal d => Diagonal.toDense d
  | block b => b.toDense
  | hier h => h.toDense
  | tril d => Tril.toDense d
  | triu d => Triu.toDense d
  | topRight _ _ _ _ A B C =>
    let a := A.toDense; let c := C.toDense
    let m := ((Mat.zeros (a.rows + c.rows) (a.cols + c.cols)).setBlock 0 0 a).setBlock a.rows a.cols c
    m.setBlock 0 a.rows B
  | bottomLeft _ _ _ _ A B C =>
    let a := A.toDense; let c := C.toDense
    let m := ((Mat.zeros (a.rows + c.rows) (a.cols + c.cols)).setBlock 0 0 a).setBlock a.rows a.cols c
    m.setBlock a.rows 0 B

/-- `RecursiveTopRightMatrixTemplate.__init__` (`recursive.py:144-185`) -/
def initTopRight (maxA maxC : MaxDim) (clsA clsC : Cls) (A : SM α) (B : Mat α) (C : SM α) : Except PyErr (SM α) :=
  if A.cls ≠ clsA ∨ C.cls ≠ clsC then .error .valueError
  else if ¬(B.rows = A.toDense.rows ∧ B.cols = C.toDense.rows) then .error .valueError
  else if maxA.lt A.toDense.rows then .error .valueError
  else if maxC.lt C.toDense.rows then .error .valueError
  else .ok (topRight maxA maxC clsA clsC A B C)

/-- `RecursiveBottomLeftMatrixTemplate.__init__` (`recursive.py:282-323`) -/
def initBottomLeft (maxA maxC : MaxDim) (clsA clsC : Cls) (A : SM α) (B : Mat α) (C : SM α) : Except PyErr (SM α) :=
  if A.cls ≠ clsA ∨ C.cls ≠ clsC then .error .valueError
  else if ¬(B.rows = C.toDense.rows ∧ B.cols = A.toDense.rows) then .error .valueError
  else if maxA.lt A.toDense.rows then .error .valueError
  else if maxC.lt C.toDense.rows then .error .valueError
  else .ok (bottomLeft maxA maxC clsA clsC A B C)

/-- `cls.from_dense(mat)` for every class (`dense.py:39-49`; recursive templates: `recursive.py:187-205,
325-343`; the other classes in their own files) -/
def fromDense : Cls → Mat α → Except PyErr (SM α)
  | .dense, m => .ok (dense m)
  | .diagonal, m => do return diagonal (← Diagonal.fromDense m)
  | .block D, m => do return block (← BlockDiag.fromDense D m)
  | .hier a b, m => do return hier (← Hier.fromDense a b m)
  | .tril, m => do return tril (← Tril.fromDense m)
  | .triu, m => do return triu (← Triu.fromDense m)
  | .topRight maxA maxC clsA clsC, m =>
    if m.rows ≠ m.cols then .error .valueError
    else do
      let b ← getBoundary m.rows maxA maxC
      let A ← fromDense clsA (m.slice 0 b 0 b)
      let B ← Mat.add? (m.slice 0 b b m.cols) (m.slice b m.rows 0 b).T
      let C ← fromDense clsC (m.slice b m.rows b m.cols)
      initTopRight maxA maxC clsA clsC A B C
  | .bottomLeft maxA maxC clsA clsC, m =>
    if m.rows ≠ m.cols then .error .valueError
    else do
      let b ← getBoundary m.rows maxA maxC
      let A ← fromDense clsA (m.slice 0 b 0 b)
      let B ← Mat.add? (m.slice b m.rows 0 b) (m.slice 0 b b m.cols).T
      let C ← fromDense clsC (m.slice b m.rows b m.cols)
      initBottomLeft maxA maxC clsA clsC A B C

/-- `self @ tensor` (`base.py:99-103` for dense and recursive classes) -/
def matmulT (K : SM α) (other : Mat α) : Except PyErr (Mat α) :=
  match K with
  | diagonal d => Diagonal.matmulT d other
  | block b => b.matmulT other
  | hier h => h.matmulT other
  | tril d => Tril.matmulT d other
  | triu d => Triu.matmulT d other
  | K => K.toDense.matmul other

/-- `self @ other` for a structured `other` (`base.py:99-106` for dense and recursive classes). The specialised
methods access attributes of `other` (`other._blocks`, …), which raises `AttributeError` on another class. -/
def matmulS (K L : SM α) : Except PyErr (SM α) :=
  match K, L with
  | diagonal d, diagonal e => do return diagonal (← Diagonal.matmulS d e)
  | block b, block c => do return block (← b.matmulS c)
  | hier h, hier o => do return hier (← h.matmulS o)
  | tril d, tril e => do return tril (← Tril.matmulS d e)
  | triu d, triu e => do return triu (← Triu.matmulS d e)
  | diagonal _, _ | block _, _ | hier _, _ | tril _, _ | triu _, _ => .error .attributeError
  | K, L => do fromDense K.cls (← K.toDense.matmul L.toDense)

/-- `self + other` (`base.py:169-179` for dense and recursive classes) -/
def add (K L : SM α) : Except PyErr (SM α) :=
  match K, L with
  | diagonal d, diagonal e => do return diagonal (← Diagonal.add d e)
  | block b, block c => do return block (← b.add c)
  | hier h, hier o => do return hier (← h.add o)
  | tril d, tril e => do return tril (← Toeplitz.add d e)
  | triu d, triu e => do return triu (← Toeplitz.add d e)
  | diagonal _, _ | block _, _ | hier _, _ | tril _, _ | triu _, _ => .error .attributeError
  | K, L => do fromDense K.cls (← K.toDense.add? L.toDense)

/-- `self * scalar` (`base.py:143-153` for dense and recursive classes) -/
def smul (K : SM α) (s : α) : Except PyErr (SM α) :=
  match K with
  | diagonal d => .ok (diagonal (Diagonal.smul d s))
  | block b => do return block (← b.smul s)
  | hier h => do return hier (← h.smul s)
  | tril d => .ok (tril (Toeplitz.smul d s))
  | triu d => .ok (triu (Toeplitz.smul d s))
  | K => fromDense K.cls (K.toDense.smul s)

/-- `self.mul_(value)` (`base.py:155-167`): every tensor of `named_tensors()` (including substructures,
`recursive.py:42-59`) is scaled in place -/
def mul_ (K : SM α) (s : α) : SM α :=
  match K with
  | dense m => dense (m.smul s)
  | diagonal d => diagonal (d.smul s)
  | block b => block ⟨b.D, b.blocks.smul s, b.last.smul s⟩
  | hier h => hier ⟨h.max1, h.max2, h.A.smul s, h.B.smul s, h.C.smul s, h.D.smul s, h.E.smul s⟩
  | tril d => tril (d.smul s)
  | triu d => triu (d.smul s)
  | topRight a c ca cc A B C => topRight a c ca cc (A.mul_ s) (B.smul s) (C.mul_ s)
  | bottomLeft a c ca cc A B C => bottomLeft a c ca cc (A.mul_ s) (B.smul s) (C.mul_ s)

/-- `self.add_(other, alpha)` (`base.py:181-197`): tensor-wise over the zipped `named_tensors()`.
Operands of different classes (for which `zip` would truncate) raise in the model. -/
def add_ (K L : SM α) (s : α) : Except PyErr (SM α) :=
  match K, L with
  | dense m, dense m' => do return dense (← m.add? (m'.smul s))
  | diagonal d, diagonal e => do return diagonal (← d.add? (e.smul s))
  | block b, block c => do
    return block ⟨b.D, ← b.blocks.add? (c.blocks.smul s), ← b.last.add? (c.last.smul s)⟩
  | hier h, hier o => do
    return hier ⟨h.max1, h.max2, ← h.A.add? (o.A.smul s), ← h.B.add? (o.B.smul s), ← h.C.add? (o.C.smul s),
      ← h.D.add? (o.D.smul s), ← h.E.add? (o.E.smul s)⟩
  | tril d, tril e => do return tril (← d.add? (e.smul s))
  | triu d, triu e => do return triu (← d.add? (e.smul s))
  | topRight a c ca cc A B C, topRight _ _ _ _ A' B' C' => do
    let B'' ← B.add? (B'.smul s)
    let A'' ← A.add_ A' s
    let C'' ← C.add_ C' s
    return topRight a c ca cc A'' B'' C''
  | bottomLeft a c ca cc A B C, bottomLeft _ _ _ _ A' B' C' => do
    let B'' ← B.add? (B'.smul s)
    let A'' ← A.add_ A' s
    let C'' ← C.add_ C' s
    return bottomLeft a c ca cc A'' B'' C''
  | _, _ => .error .runtimeError

/-- `self.rmatmat(mat)` (`base.py:199-209` for dense and recursive classes) -/
def rmatmat (K : SM α) (mat : Mat α) : Except PyErr (Mat α) :=
  match K with
  | diagonal d => Diagonal.rmatmat d mat
  | block b => b.rmatmat mat
  | hier h => h.rmatmat mat
  | tril d => Tril.rmatmat d mat
  | triu d => Triu.rmatmat d mat
  | K => K.toDense.T.matmul mat

/-- `cls.from_mat_inner(X)` (`base.py:286-297`; overridden in `diagonal.py:151-161`,
`blockdiagonal.py:283-303`) -/
def fromMatInner (c : Cls) (X : Mat α) : Except PyErr (SM α) :=
  match c with
  | .diagonal => do return diagonal (← Diagonal.fromMatInner X)
  | .block D => do return block (← BlockDiag.fromMatInner D X)
  | c => do fromDense c (← X.matmul X.T)

/-- `self.from_inner(X)` (`base.py:270-284`; overridden in `diagonal.py:131-149`, `blockdiagonal.py:255-281`,
`hierarchical.py:299-327`) -/
def fromInner (K : SM α) (X : Option (Mat α)) : Except PyErr (SM α) :=
  match K with
  | diagonal d => do return diagonal (← Diagonal.fromInner d X)
  | block b => do return block (← b.fromInner X)
  | hier h => do return hier (← h.fromInner X)
  | K => do
    let S ← match X with
      | none => pure K.toDense.T
      | some X => K.rmatmat X
    fromMatInner K.cls S

/-- `self.from_inner2(XXT)` (`base.py:303-314`; overridden in `diagonal.py:163-173`) -/
def fromInner2 (K : SM α) (XXT : Mat α) : Except PyErr (SM α) :=
  match K with
  | diagonal d => do return diagonal (← Diagonal.fromInner2 d XXT)
  | K => do
    let dense := K.toDense
    fromDense K.cls (← (← dense.T.matmul XXT).matmul dense)

/-- `self.average_trace()` (`base.py:316-323` for dense and recursive classes) -/
def averageTrace (K : SM α) : Except PyErr α :=
  match K with
  | diagonal d => .ok (Diagonal.averageTrace d)
  | block b => .ok b.averageTrace
  | hier h => .ok h.averageTrace
  | tril d => Toeplitz.averageTrace d
  | triu d => Toeplitz.averageTrace d
  | K => .ok (K.toDense.diag.sum / K.toDense.diag.len)

/-- `self.diag_add_(value)` (`base.py:325-343` for dense and recursive classes) -/
def diagAdd (K : SM α) (s : α) : Except PyErr (SM α) :=
  match K with
  | diagonal d => .ok (diagonal (Diagonal.diagAdd d s))
  | block b => .ok (block (b.diagAdd s))
  | hier h => do return hier (← h.diagAdd s)
  | tril d => do return tril (← Toeplitz.diagAdd d s)
  | triu d => do return triu (← Toeplitz.diagAdd d s)
  | K => do fromDense K.cls (← utilsDiagAdd K.toDense s)

/-- `cls.zeros(dim)` (`base.py:372-392` for dense and recursive classes) -/
def zeros (c : Cls) (n : ℕ) : Except PyErr (SM α) :=
  match c with
  | .diagonal => .ok (diagonal (Diagonal.zeros n))
  | .block D => do return block (← BlockDiag.zeros D n)
  | .hier a b => do return hier (← Hier.zeros a b n)
  | .tril => .ok (tril (Toeplitz.zeros n))
  | .triu => .ok (triu (Toeplitz.zeros n))
  | c => fromDense c (Mat.zeros n n)

/-- `cls.eye(dim)` (`base.py:394-414` for dense and recursive classes) -/
def eye (c : Cls) (n : ℕ) : Except PyErr (SM α) :=
  match c with
  | .diagonal => .ok (diagonal (Diagonal.eye n))
  | .block D => do return block (← BlockDiag.eye D n)
  | .hier a b => do return hier (← Hier.eye a b n)
  | .tril => do return tril (← Toeplitz.eye n)
  | .triu => do return triu (← Toeplitz.eye n)
  | c => fromDense c (Mat.eye n)

/-- entries of `named_tensors()`, one list per tensor; for recursive classes the own tensor `B` comes first
(`recursive.py:54-59`) -/
def parts : SM α → List (List α)
  | dense m => [(rowMajor m.rows m.cols).map fun p => m.get p.1 p.2]
  | diagonal d => [d.toList]
  | block b => b.parts
  | hier h => h.parts
  | tril d => [d.toList]
  | triu d => [d.toList]
  | topRight _ _ _ _ A B C => ((rowMajor B.rows B.cols).map fun p => B.get p.1 p.2) :: (A.parts ++ C.parts)
  | bottomLeft _ _ _ _ A B C => ((rowMajor B.rows B.cols).map fun p => B.get p.1 p.2) :: (A.parts ++ C.parts)

/-- Python `max(...)` of a non-empty list -/
def listMax [LinearOrder α] : List α → Except PyErr α
  | [] => .error .valueError
  | x :: xs => .ok (xs.foldl max x)

/-- `infinity_vector_norm` (`base.py:345-358`): maximum over all non-empty tensors of `t.abs().max()`;
`max()` of no arguments raises `ValueError` -/
def infNorm [LinearOrder α] (K : SM α) : Except PyErr α := do
  let ms ← (K.parts.filter (fun l => l ≠ [])).mapM fun l => listMax (l.map fun x => |x|)
  listMax ms

/-- `frobenius_norm` (`base.py:360-367`, `diagonal.py:195-201`, `blockdiagonal.py:332-340`,
`hierarchical.py:357-365`, `triltoeplitz.py:195-209`, `recursive.py:70-82`).
`cat([])` for an all-empty object would raise in torch; the model returns `0` there. -/
def frobNorm [HasSqrt α] : SM α → α
  | dense m => vectorNorm ((rowMajor m.rows m.cols).map fun p => m.get p.1 p.2)
  | diagonal d => vectorNorm d.toList
  | block b => vectorNorm (b.parts.flatten)
  | hier h => vectorNorm (h.parts.flatten)
  | tril d => Toeplitz.frobNorm d
  | triu d => Toeplitz.frobNorm d
  | topRight _ _ _ _ A B C =>
    HasSqrt.sqrt (((rowMajor B.rows B.cols).map fun p => B.get p.1 p.2 * B.get p.1 p.2).sum
      + (A.frobNorm * A.frobNorm + C.frobNorm * C.frobNorm))
  | bottomLeft _ _ _ _ A B C =>
    HasSqrt.sqrt (((rowMajor B.rows B.cols).map fun p => B.get p.1 p.2 * B.get p.1 p.2).sum
      + (A.frobNorm * A.frobNorm + C.frobNorm * C.frobNorm))
end SM
