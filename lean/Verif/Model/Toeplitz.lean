import Verif.Model.StructUtils

/-! Model of `/repo/singd/structures/triltoeplitz.py` and `triutoeplitz.py`. Both objects are their only
tensor (`_lower_diags` / `_upper_diags`). -/

open Finset
variable {α : Type} [Field α]

/-- The vector of normalised diagonal sums computed by `from_dense`, identical code in both classes
(`triltoeplitz.py:69-81`, `triutoeplitz.py:69-81`). -/
def toeplitzFromDense (mat : Mat α) : Except PyErr (Vec α) :=
  if mat.rows ≠ mat.cols then .error .assertionError
  else do
    let traces ← allTraces mat
    let dim := mat.rows
    let idxMain := dim - 1
    let right := traces.slice (idxMain + 1) traces.len
    let left := (traces.slice 0 idxMain).flip
    return Vec.ofFn dim fun k =>
      (if k = 0 then traces.get idxMain else right.get (k - 1) + left.get (k - 1)) / ((dim - k : ℕ) : α)

/-- `conv1d(pad(other, (dim - 1, 0)).unsqueeze(0), self.flip(0)...)` used for the structured product in both
classes (`triltoeplitz.py:145-148`, `triutoeplitz.py:143-146`). The two vectors are not required to have the
same length. For `dim = 0` the kernel is empty and torch raises. -/
def toeplitzCoeffProduct (d e : Vec α) : Except PyErr (Vec α) :=
  if d.len = 0 then .error .runtimeError
  else
    let padded := (Vec.zeros (d.len - 1)).cat e
    if padded.len < d.len then .error .runtimeError
    else .ok <| Vec.ofFn (padded.len - d.len + 1) fun o =>
      ∑ k ∈ range d.len, d.flip.get k * padded.get (o + k)

namespace Tril
/-- `to_dense` (`triltoeplitz.py:85-97`) -/
def toDense (d : Vec α) : Mat α := Mat.ofFn d.len d.len fun i j => if j ≤ i then d.get (i - j) else 0
/-- `from_dense` (`triltoeplitz.py:58-83`) -/
def fromDense (mat : Mat α) : Except PyErr (Vec α) := toeplitzFromDense mat
/-- `__matmul__` with a tensor (`triltoeplitz.py:138-142`); `zeros(dim - 1)` raises for `dim = 0` -/
def matmulT (d : Vec α) (other : Mat α) : Except PyErr (Mat α) :=
  if d.len = 0 then .error .runtimeError
  else toeplitzMatmul (d.flip.cat (Vec.zeros (d.len - 1))) other
/-- `__matmul__` with a structured matrix (`triltoeplitz.py:144-149`) -/
def matmulS (d e : Vec α) : Except PyErr (Vec α) := toeplitzCoeffProduct d e
/-- `rmatmat` (`triltoeplitz.py:151-169`; casts are in `Model/Dtype.lean`) -/
def rmatmat (d : Vec α) (mat : Mat α) : Except PyErr (Mat α) :=
  if d.len = 0 then .error .runtimeError
  else toeplitzMatmul ((Vec.zeros (d.len - 1)).cat d) mat
end Tril

namespace Triu
/-- `to_dense` (`triutoeplitz.py:85-97`) -/
def toDense (d : Vec α) : Mat α := Mat.ofFn d.len d.len fun i j => if i ≤ j then d.get (j - i) else 0
/-- `from_dense` (`triutoeplitz.py:58-83`) -/
def fromDense (mat : Mat α) : Except PyErr (Vec α) := toeplitzFromDense mat
/-- `__matmul__` with a tensor (`triutoeplitz.py:138-140`) -/
def matmulT (d : Vec α) (other : Mat α) : Except PyErr (Mat α) :=
  if d.len = 0 then .error .runtimeError
  else toeplitzMatmul ((Vec.zeros (d.len - 1)).cat d) other
/-- `__matmul__` with a structured matrix (`triutoeplitz.py:142-147`) -/
def matmulS (d e : Vec α) : Except PyErr (Vec α) := toeplitzCoeffProduct d e
/-- `rmatmat` (`triutoeplitz.py:149-167`; casts are in `Model/Dtype.lean`) -/
def rmatmat (d : Vec α) (mat : Mat α) : Except PyErr (Mat α) :=
  if d.len = 0 then .error .runtimeError
  else toeplitzMatmul (d.flip.cat (Vec.zeros (d.len - 1))) mat
end Triu

namespace Toeplitz
/-- `__add__` (`triltoeplitz.py:99-108`, `triutoeplitz.py:99-108`) -/
def add (d e : Vec α) : Except PyErr (Vec α) := Vec.add? d e
/-- `__mul__` (`triltoeplitz.py:110-119`, `triutoeplitz.py:110-119`) -/
def smul (d : Vec α) (s : α) : Vec α := d.smul s
/-- `average_trace` (`triltoeplitz.py:175-181`, `triutoeplitz.py:173-179`); indexing an empty tensor raises -/
def averageTrace (d : Vec α) : Except PyErr α := if d.len = 0 then .error .indexError else .ok (d.get 0)
/-- `diag_add_` (`triltoeplitz.py:183-193`, `triutoeplitz.py:181-191`) -/
def diagAdd (d : Vec α) (s : α) : Except PyErr (Vec α) :=
  if d.len = 0 then .error .indexError
  else .ok (Vec.ofFn d.len fun k => if k = 0 then d.get k + s else d.get k)
/-- `frobenius_norm` (`triltoeplitz.py:195-209`, `triutoeplitz.py:193-207`) -/
def frobNorm [HasSqrt α] (d : Vec α) : α :=
  vectorNorm ((List.range d.len).map fun k => d.get k * HasSqrt.sqrt (((d.len - k : ℕ)) : α))
/-- `zeros` (`triltoeplitz.py:214-233`, `triutoeplitz.py:212-231`) -/
def zeros (n : ℕ) : Vec α := Vec.zeros n
/-- `eye` (`triltoeplitz.py:235-256`, `triutoeplitz.py:233-254`); `coeffs[0] = 1.0` raises on an empty tensor -/
def eye (n : ℕ) : Except PyErr (Vec α) :=
  if n = 0 then .error .indexError else .ok (Vec.ofFn n fun k => if k = 0 then 1 else 0)
end Toeplitz
