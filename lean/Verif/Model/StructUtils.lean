import Verif.Tensor

/-! Model of `/repo/singd/structures/utils.py` (the numerical helpers; dtype logic is in `Model/Dtype.lean`). -/

open Finset

variable {α : Type} [Field α]

/-- Square root as a primitive operation of the scalar type (`Tensor.sqrt`, `vector_norm`). -/
class HasSqrt (α : Type) where
  sqrt : α → α

/-- What is assumed of the square root: exact on nonnegative numbers. -/
class LawfulSqrt (α : Type) [Field α] [LinearOrder α] extends HasSqrt α where
  sqrt_nonneg : ∀ x : α, 0 ≤ sqrt x
  sqrt_mul_self : ∀ x : α, 0 ≤ x → sqrt x * sqrt x = x

/-- indices of an `r × c` matrix in `flatten()` (row-major) order -/
def rowMajor (r c : ℕ) : List (ℕ × ℕ) :=
  (List.range r).flatMap fun i => (List.range c).map fun j => (i, j)

/-- `t[i] += v` -/
def Vec.addAt (t : Vec α) (i : ℕ) (v : α) : Vec α :=
  Vec.ofFn t.len fun k => if k = i then t.get k + v else t.get k

/-- `traces.scatter_add_(0, idxs, vals)` processed in the order of the list
(`/repo/singd/structures/utils.py:78`). -/
def Vec.scatterAdd (t : Vec α) (l : List (ℕ × α)) : Vec α :=
  l.foldl (fun t p => t.addAt p.1 p.2) t

/-- `all_traces` (`/repo/singd/structures/utils.py:54-80`): `idxs[i, j] = j - i + (num_rows - 1)`, then
scatter-add of the flattened matrix into `zeros(num_diags)`. For a `0 × 0` matrix `num_diags = -1` and
`zeros(-1)` raises `RuntimeError`. -/
def allTraces (mat : Mat α) : Except PyErr (Vec α) :=
  if mat.rows + mat.cols = 0 then .error .runtimeError
  else .ok <| (Vec.zeros (mat.rows + mat.cols - 1)).scatterAdd
    ((rowMajor mat.rows mat.cols).map fun p => (p.2 + (mat.rows - 1) - p.1, mat.get p.1 p.2))

/-- `conv1d(inp, weight.expand(C, -1, -1), padding=pad, groups=C)` with `inp` of shape `[C, L]` and one kernel
`w` shared by all channels (`/repo/singd/structures/utils.py:110-112`). torch raises when there is no channel
(`groups=0`), the kernel is empty, or the kernel is longer than the padded input. -/
def conv1dGroups (inp : Mat α) (w : Vec α) (pad : ℕ) : Except PyErr (Mat α) :=
  if inp.rows = 0 ∨ w.len = 0 ∨ inp.cols + 2 * pad < w.len then .error .runtimeError
  else .ok <| Mat.ofFn inp.rows (inp.cols + 2 * pad - w.len + 1) fun c o =>
    ∑ k ∈ range w.len, w.get k * (if pad ≤ o + k then inp.get c (o + k - pad) else 0)

/-- `toeplitz_matmul` (`/repo/singd/structures/utils.py:83-114`). `padding = num_rows - 1` is `-1` for an
empty matrix, which `conv1d` rejects. -/
def toeplitzMatmul (coeffs : Vec α) (mat : Mat α) : Except PyErr (Mat α) :=
  if (coeffs.len + 1) / 2 ≠ mat.rows then .error .runtimeError
  else if mat.rows = 0 then .error .runtimeError
  else do
    let res ← conv1dGroups mat.T coeffs (mat.rows - 1)
    return res.T

/-- `diag_add_` (`/repo/singd/structures/utils.py:117-137`); returns the mutated matrix. -/
def utilsDiagAdd (mat : Mat α) (value : α) : Except PyErr (Mat α) :=
  if mat.rows ≠ mat.cols then .error .valueError else .ok (mat.diagAdd value)

/-- `vector_norm` of the listed entries -/
def vectorNorm [HasSqrt α] (l : List α) : α := HasSqrt.sqrt ((l.map fun x => x * x).sum)
