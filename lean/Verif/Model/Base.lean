import Verif.Model.Structured

/-!
Model of the methods of the base class `StructuredMatrix` (`/repo/singd/structures/base.py`) for a class written by a user, who provides `to_dense`,
`from_dense` and registers tensors (`base.py:17-38`) and overrides nothing else.
-/

variable {α : Type} [Field α]

/-- A class written by a user: its objects, `to_dense`, `from_dense` (which may raise), the registered tensors of an object in the order of
`named_tensors` (`base.py:74-83`), flattened, and the object after its registered tensors were changed in place to given ones. -/
structure UserClass (α : Type) [Field α] where
  Inst : Type
  toDense : Inst → Mat α
  fromDense : Mat α → Except PyErr Inst
  tensors : Inst → List (Vec α)
  put : Inst → List (Vec α) → Inst

namespace UserClass
variable (c : UserClass α)

/-- `__matmul__` with a tensor (`base.py:85-104`) -/
def matmulT (A : c.Inst) (X : Mat α) : Except PyErr (Mat α) := (c.toDense A).matmul X

/-- `__matmul__` with an object of the class (`base.py:101-107`) -/
def matmulS (A B : c.Inst) : Except PyErr c.Inst := do c.fromDense (← (c.toDense A).matmul (c.toDense B))

/-- `__mul__` (`base.py:143-153`) -/
def smul (A : c.Inst) (s : α) : Except PyErr c.Inst := c.fromDense ((c.toDense A).smul s)

/-- `mul_` (`base.py:155-167`) -/
def mul_ (A : c.Inst) (s : α) : c.Inst := c.put A ((c.tensors A).map fun v => v.smul s)

/-- `__add__` (`base.py:169-179`) -/
def add (A B : c.Inst) : Except PyErr c.Inst := do c.fromDense (← (c.toDense A).add? (c.toDense B))

/-- the loop of `add_` (`base.py:192-195`); `zip` stops at the shorter list. Broadcasting of tensors of different shape is not modelled (it raises here). -/
def addTensors (s : α) : List (Vec α) → List (Vec α) → Except PyErr (List (Vec α))
  | v :: vs, u :: us => do
    let v' ← v.add? (u.smul s)
    let vs' ← addTensors s vs us
    return v' :: vs'
  | vs, _ => .ok vs

/-- `add_` (`base.py:181-197`) -/
def add_ (A B : c.Inst) (s : α) : Except PyErr c.Inst := do return c.put A (← addTensors s (c.tensors A) (c.tensors B))

/-- `rmatmat` (`base.py:199-209`) -/
def rmatmat (A : c.Inst) (X : Mat α) : Except PyErr (Mat α) := (c.toDense A).T.matmul X

/-- `from_mat_inner` (`base.py:286-297`) -/
def fromMatInner (X : Mat α) : Except PyErr c.Inst := do c.fromDense (← X.matmul X.T)

/-- `from_inner` (`base.py:270-284`) -/
def fromInner (A : c.Inst) (X : Option (Mat α)) : Except PyErr c.Inst := do
  let S ← match X with
    | none => pure (c.toDense A).T
    | some X => c.rmatmat A X
  c.fromMatInner S

/-- `from_inner2` (`base.py:303-314`) -/
def fromInner2 (A : c.Inst) (XXT : Mat α) : Except PyErr c.Inst := do
  c.fromDense (← (← (c.toDense A).T.matmul XXT).matmul (c.toDense A))

/-- `average_trace` (`base.py:316-323`); the mean of an empty diagonal is `nan` in torch, 0 here -/
def averageTrace (A : c.Inst) : α := (c.toDense A).diag.sum / (c.toDense A).diag.len

/-- `diag_add_` (`base.py:325-343`): the object takes over the state of the new one -/
def diagAdd (A : c.Inst) (s : α) : Except PyErr c.Inst := do c.fromDense (← utilsDiagAdd (c.toDense A) s)

/-- `infinity_vector_norm` (`base.py:345-358`) -/
def infNorm [LinearOrder α] (A : c.Inst) : Except PyErr α := do
  let ms ← (((c.tensors A).map Vec.toList).filter (fun l => l ≠ [])).mapM fun l => SM.listMax (l.map fun x => |x|)
  SM.listMax ms

/-- `frobenius_norm` (`base.py:360-367`) -/
def frobNorm [HasSqrt α] (A : c.Inst) : α :=
  vectorNorm ((rowMajor (c.toDense A).rows (c.toDense A).cols).map fun p => (c.toDense A).get p.1 p.2)

/-- `zeros` (`base.py:372-392`) -/
def zeros (n : ℕ) : Except PyErr c.Inst := c.fromDense (Mat.zeros n n)

/-- `eye` (`base.py:394-414`) -/
def eye (n : ℕ) : Except PyErr c.Inst := c.fromDense (Mat.eye n)

end UserClass
