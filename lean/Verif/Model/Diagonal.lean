import Verif.Model.StructUtils

/-! Model of `/repo/singd/structures/diagonal.py`. The object is its only tensor, `_mat_diag`. -/

open Finset
variable {α : Type} [Field α]
namespace Diagonal

/-- `to_dense` (`diagonal.py:107-113`) -/
def toDense (d : Vec α) : Mat α := d.diagMat
/-- `from_dense` (`diagonal.py:91-105`) -/
def fromDense (m : Mat α) : Except PyErr (Vec α) := .ok m.diag
/-- `__matmul__` with a tensor (`diagonal.py:64-65`, `einsum("i,i...->i...")`) -/
def matmulT (d : Vec α) (other : Mat α) : Except PyErr (Mat α) := Mat.scaleRows? d other
/-- `__matmul__` with a diagonal matrix (`diagonal.py:67`) -/
def matmulS (d e : Vec α) : Except PyErr (Vec α) := Vec.had? d e
/-- `__add__` (`diagonal.py:69-78`) -/
def add (d e : Vec α) : Except PyErr (Vec α) := Vec.add? d e
/-- `__mul__` (`diagonal.py:80-89`) -/
def smul (d : Vec α) (s : α) : Vec α := d.smul s
/-- `rmatmat` (`diagonal.py:115-125`): `self @ mat` -/
def rmatmat (d : Vec α) (mat : Mat α) : Except PyErr (Mat α) := matmulT d mat
/-- `from_inner` (`diagonal.py:131-149`) -/
def fromInner (d : Vec α) (X : Option (Mat α)) : Except PyErr (Vec α) :=
  let sq := Vec.had d d
  match X with
  | none => .ok sq
  | some X => Vec.had? sq X.rowSq
/-- `from_mat_inner` (`diagonal.py:151-161`) -/
def fromMatInner (X : Mat α) : Except PyErr (Vec α) := .ok X.rowSq
/-- `from_inner2` (`diagonal.py:163-173`) -/
def fromInner2 (d : Vec α) (XXT : Mat α) : Except PyErr (Vec α) := Vec.had? (Vec.had d d) XXT.diag
/-- `average_trace` (`diagonal.py:175-181`); the mean of an empty tensor is `nan` in torch, `0` here -/
def averageTrace (d : Vec α) : α := d.sum / d.len
/-- `diag_add_` (`diagonal.py:183-193`) -/
def diagAdd (d : Vec α) (s : α) : Vec α := d.addScalar s
/-- `zeros` (`diagonal.py:206-225`) -/
def zeros (n : ℕ) : Vec α := Vec.zeros n
/-- `eye` (`diagonal.py:227-246`) -/
def eye (n : ℕ) : Vec α := Vec.ones n
end Diagonal
