import Verif.Py

/-! Model of the tensor registry of structured matrices (`/repo/singd/structures/base.py:55-83`,
`/repo/singd/structures/recursive.py:11-69`). -/

/-- A structured matrix object as seen by the registry: attribute names that exist independently of registrations
(methods, class attributes, `_tensor_names`, attributes set by a subclass), the registered tensors in order, and
the registered substructures in order. In Python `_tensor_names` holds the names and `getattr(self, name)` the
tensor; re-assignment of an attribute after registration is not modelled. Non-recursive classes have no
substructures. -/
inductive Obj (τ : Type) where
  | node (reserved : List String) (tensors : List (String × τ)) (subs : List (String × Obj τ))

namespace Obj
variable {τ : Type}

/-- attribute names that are not registrations -/
def reserved : Obj τ → List String | node r _ _ => r
/-- `_tensor_names` with the tensors (`base.py:57`) -/
def tensors : Obj τ → List (String × τ) | node _ t _ => t
/-- `_substructure_names` with the objects (`recursive.py:22`) -/
def subs : Obj τ → List (String × Obj τ) | node _ _ s => s

/-- `hasattr(self, name)` -/
def hasAttr (o : Obj τ) (name : String) : Bool :=
  o.reserved.contains name || (o.tensors.map Prod.fst).contains name || (o.subs.map Prod.fst).contains name

/-- `register_tensor` (`base.py:59-74`) -/
def registerTensor (tensor : τ) (name : String) : Py (Obj τ) Unit := do
  let self ← Py.get
  if self.hasAttr name then Py.raise .valueError
  else Py.modify fun o => node o.reserved (o.tensors ++ [(name, tensor)]) o.subs

/-- `register_substructure` (`recursive.py:24-40`) -/
def registerSubstructure (sub : Obj τ) (name : String) : Py (Obj τ) Unit := do
  let self ← Py.get
  if self.hasAttr name then Py.raise .valueError
  else Py.modify fun o => node o.reserved o.tensors (o.subs ++ [(name, sub)])

mutual
/-- `named_tensors()` (`base.py:76-83`, `recursive.py:42-59`): own tensors, then those of the substructures under
the name `f"{name}.{subname}"` -/
def named : Obj τ → List (String × τ)
  | node _ ts ss => ts ++ namedSubs ss
/-- the loop over `named_substructures()` (`recursive.py:56-59`) -/
def namedSubs : List (String × Obj τ) → List (String × τ)
  | [] => []
  | p :: ss => namedSub p ++ namedSubs ss
/-- one iteration of that loop -/
def namedSub : String × Obj τ → List (String × τ)
  | (sub, o) => o.named.map fun q => (q.1 ++ "." ++ sub, q.2)
end
end Obj
