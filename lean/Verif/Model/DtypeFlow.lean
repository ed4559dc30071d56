import Verif.Model.Dtype
import Verif.Model.Structured

/-!
Data types of all tensors in a training run.

This is a second model of the optimiser, next to the one in `Model/Optimizer.lean`: every tensor is represented by its `torch.dtype` alone (values and shapes are
dropped), and every torch operation by its rule on data types. An operation either gives the data type of its result or raises as torch does for operands of
different types. Only floating point types are meant (`float16`, `bfloat16`, `float32`, `float64`); kernels that torch has not implemented for some type
on some device are not represented.

`τ` is a parameter of the model: whether `torch.einsum` without a summed index (`"i,ij->ij"`) insists on operands of one type (`true`) or promotes, as a product
of tensors does (`false`). The theorems hold for both.
-/

namespace Dt

/-! ### Rules of torch -/

/-- type promotion of two floating point tensors (torch's `result_type`) -/
def promote (a b : DType) : DType :=
  if a = b then a else
  match a, b with
  | .float64, _ | _, .float64 => .float64
  | .float32, _ | _, .float32 => .float32
  | .float16, .bfloat16 | .bfloat16, .float16 => .float32
  | x, _ => x

/-- `mm`, `bmm` and `conv1d`: a `RuntimeError` unless both operands have the same type -/
def mm (a b : DType) : Except PyErr DType := if a = b then .ok a else .error .runtimeError

/-- `einsum` of two operands without a summed index -/
def ein (τ : Bool) (a b : DType) : Except PyErr DType := if τ && a ≠ b then .error .runtimeError else .ok (promote a b)

/-- `mat[i, j] = src` with index tensors: a `RuntimeError` unless the types agree; the target keeps its type -/
def indexPut (mat src : DType) : Except PyErr DType := if mat = src then .ok mat else .error .runtimeError

/-- `tensor.to(d)`; `to(None)` is the identity -/
def castTo (x : DType) (d : Option DType) : DType := d.getD x

/-! ### Structured matrices -/

/-- the types of the tensors of a structured matrix -/
inductive TM where
  | dense (d : DType)
  | diagonal (d : DType)
  | block (D : ℕ) (blocks last : DType)
  | hier (max1 max2 : ℕ) (A B C D E : DType)
  | tril (d : DType)
  | triu (d : DType)
  | topRight (maxA maxC : MaxDim) (clsA clsC : Cls) (A : TM) (B : DType) (C : TM)
  | bottomLeft (maxA maxC : MaxDim) (clsA clsC : Cls) (A : TM) (B : DType) (C : TM)
  deriving DecidableEq, Repr

/-- `from_dense` on a matrix of type `d` (`dense.py:40`, `diagonal.py:92`, `blockdiagonal.py:113`, `hierarchical.py:146`, `triltoeplitz.py:59`, `triutoeplitz.py:59`,
`recursive.py:188, 326`): slices, sums of slices and traces of the matrix, all of type `d`. `zeros` and `eye` with `dtype=d` (`base.py:373, 395` and the overrides)
give the same types. -/
def fromDense : Cls → DType → TM
  | .dense, d => .dense d
  | .diagonal, d => .diagonal d
  | .block D, d => .block D d d
  | .hier a b, d => .hier a b d d d d d
  | .tril, d => .tril d
  | .triu, d => .triu d
  | .topRight a c cA cC, d => .topRight a c cA cC (fromDense cA d) (promote d d) (fromDense cC d)
  | .bottomLeft a c cA cC, d => .bottomLeft a c cA cC (fromDense cA d) (promote d d) (fromDense cC d)

/-- `cls.zeros(dim, dtype=d)` (`base.py:373`, `diagonal.py:207`, `blockdiagonal.py:347`, `hierarchical.py:372`, `triltoeplitz.py:215`, `triutoeplitz.py:213`) -/
def zeros (c : Cls) (d : DType) : TM := fromDense c d

/-- `cls.eye(dim, dtype=d)` (`base.py:395`, `diagonal.py:228`, `blockdiagonal.py:373`, `hierarchical.py:401`, `triltoeplitz.py:236`, `triutoeplitz.py:234`).
`supported_eye` (`utils.py:32`) makes a `float32` identity for `bfloat16` and converts it. -/
def eye (c : Cls) (d : DType) : TM := fromDense c d

namespace TM

/-- the class of a structured matrix -/
def cls : TM → Cls
  | dense _ => .dense
  | diagonal _ => .diagonal
  | block D _ _ => .block D
  | hier a b .. => .hier a b
  | tril _ => .tril
  | triu _ => .triu
  | topRight a c cA cC .. => .topRight a c cA cC
  | bottomLeft a c cA cC .. => .bottomLeft a c cA cC

/-- `to_dense` (`dense.py:51`, `diagonal.py:107`, `blockdiagonal.py:136`, `hierarchical.py:168`, `triltoeplitz.py:85`, `recursive.py:207, 345`). Assignment to a slice
converts; assignment with index tensors (`hierarchical.py:179`, `triltoeplitz.py:96`) does not; `block_diag` promotes. -/
def toDense : TM → Except PyErr DType
  | dense d => .ok d
  | diagonal d => .ok d
  | block _ b _ => .ok b
  | hier _ _ A _ C _ _ => indexPut A C
  | tril d => indexPut d d
  | triu d => indexPut d d
  | topRight _ _ _ _ A _ C => do return promote (← A.toDense) (← C.toDense)
  | bottomLeft _ _ _ _ A _ C => do return promote (← A.toDense) (← C.toDense)

/-- `blocks @ tensor` of `BlockDiagonalMatrixTemplate.__matmul__` for a tensor (`blockdiagonal.py:186-208`) -/
def blockMatmul (b l x : DType) : Except PyErr DType := do
  let compute ← lowestPrecision [b, x]
  let r ← mm (castTo b compute) (castTo x compute)
  let resultBlocks := castTo r b
  let compute ← lowestPrecision [l, x]
  let r ← mm (castTo l compute) (castTo x compute)
  let resultLast := castTo r l
  return promote resultBlocks resultLast

/-- `self @ tensor` (`base.py:85-107`, `diagonal.py:50`, `blockdiagonal.py:159`, `hierarchical.py:200-211`, `triltoeplitz.py:137-142`) -/
def matmulT (τ : Bool) : TM → DType → Except PyErr DType
  | dense d, x => mm d x
  | diagonal d, x => ein τ d x
  | block _ b l, x => blockMatmul b l x
  | hier _ _ A B C D E, x => do
      let top := promote (promote (← mm A x) (← mm B x)) (← mm B x)
      let middle ← ein τ C x
      let bottom := promote (← mm D x) (← mm E x)
      return promote (promote top middle) bottom
  | tril d, x => mm x d
  | triu d, x => mm x d
  | K@(topRight ..), x => do mm (← K.toDense) x
  | K@(bottomLeft ..), x => do mm (← K.toDense) x

/-- `rmatmat` (`base.py:199`, `diagonal.py:115`, `blockdiagonal.py:239`, `hierarchical.py:266-293`, `triltoeplitz.py:151-169`, `triutoeplitz.py:149-167`) -/
def rmatmat (τ : Bool) : TM → DType → Except PyErr DType
  | dense d, x => mm d x
  | diagonal d, x => matmulT τ (.diagonal d) x
  | block D b l, x => matmulT τ (.block D b l) x
  | hier _ _ A B C D E, x => do
      let top ← mm A x
      let compute ← lowestPrecision [C, x]
      let middle := promote (promote (← mm B x) (castTo (← ein τ (castTo C compute) (castTo x compute)) C)) (← mm D x)
      let bottom := promote (← mm B x) (← mm E x)
      return promote (promote top middle) bottom
  | tril d, x => do
      let compute ← lowestPrecision [d, x]
      return castTo (← mm (castTo x compute) (castTo d compute)) d
  | triu d, x => do
      let compute ← lowestPrecision [d, x]
      return castTo (← mm (castTo x compute) (castTo d compute)) d
  | K@(topRight ..), x => do mm (← K.toDense) x
  | K@(bottomLeft ..), x => do mm (← K.toDense) x

/-- `self @ other` for two structured matrices of the same class (`base.py:85-107`, `diagonal.py:50`, `blockdiagonal.py:210-213`, `hierarchical.py:213-230`,
`triltoeplitz.py:144-149`) -/
def matmulS (τ : Bool) : TM → TM → Except PyErr TM
  | diagonal d, diagonal d' => .ok (.diagonal (promote d d'))
  | block D b l, block _ b' l' => do return .block D (← mm b b') (← mm l l')
  | hier a b A B C D E, hier _ _ A' B' C' D' E' => do
      let An ← mm A A'
      let Cn := promote C C'
      let En ← mm E E'
      let Dn := promote (← ein τ D C') (← mm E D')
      let left := promote (promote (← mm A B') (← ein τ B C')) (← mm B D')
      let right := promote (← mm A B') (← mm B E')
      return .hier a b An (promote left right) Cn Dn En
  | tril d, tril d' => do return .tril (← mm d' d)
  | triu d, triu d' => do return .triu (← mm d' d)
  | K, L => do
      let dense ← K.toDense
      return fromDense K.cls (← mm dense (← L.toDense))

/-- `from_mat_inner` for a tensor of type `x` (`base.py:287`, `diagonal.py:152`, `blockdiagonal.py:284`) -/
def fromMatInner (c : Cls) (x : DType) : Except PyErr TM := do return fromDense c (← mm x x)

/-- `from_inner(X)` (`base.py:270-284`, `diagonal.py:131-149`, `blockdiagonal.py:275-281`, `hierarchical.py:320-326`) -/
def fromInner (τ : Bool) : TM → DType → Except PyErr TM
  | diagonal d, _ => .ok (.diagonal d)   -- `mat_diag *= …` works in place
  | hier a b A B C D E, x => do
      let S ← rmatmat τ (.hier a b A B C D E) x
      let An ← mm S S
      let Bn := promote (← mm S S) (← mm S S)
      let Dn ← mm S S
      let En ← mm S S
      return .hier a b An Bn S Dn En
  | K, x => do fromMatInner K.cls (← rmatmat τ K x)

/-- `from_inner()` without argument (`base.py:270-284`, `diagonal.py:131-149`, `blockdiagonal.py:271-274`, `hierarchical.py:309-319`) -/
def fromInner0 : TM → Except PyErr TM
  | diagonal d => .ok (.diagonal d)
  | block D b l => do return .block D (← mm b b) (← mm l l)
  | hier a b A B C D E => do
      let An ← mm A A
      let Bn ← mm A B
      let Cn := promote (promote C B) D
      let Dn := promote (← mm B B) (← mm E D)
      let En := promote (← mm E E) (← mm B B)
      return .hier a b An Bn Cn Dn En
  | K => do fromMatInner K.cls (← K.toDense)

/-- whether `average_trace` raises (`base.py:316`, `diagonal.py:175`, `blockdiagonal.py:305`, `hierarchical.py:329`, `triltoeplitz.py:175`); the type of its result
does not matter, as it is only used as the number `alpha` of an in-place addition -/
def averageTrace : TM → Except PyErr Unit
  | K@(dense _) => do let _ ← K.toDense
  | K@(topRight ..) => do let _ ← K.toDense
  | K@(bottomLeft ..) => do let _ ← K.toDense
  | _ => .ok ()

/-- `diag_add_` (`base.py:325-343`, `diagonal.py:183`, `blockdiagonal.py:315`, `hierarchical.py:343`, `triltoeplitz.py:183`): in place, except in the base class, which
replaces the object's tensors by those of `from_dense` -/
def diagAdd : TM → Except PyErr TM
  | K@(dense _) => do return fromDense K.cls (← K.toDense)
  | K@(topRight ..) => do return fromDense K.cls (← K.toDense)
  | K@(bottomLeft ..) => do return fromDense K.cls (← K.toDense)
  | K => .ok K

/-- `add_` (`base.py:181`): in-place additions of floating point tensors; any two floating point types are accepted and the target keeps its type -/
def add_ (K _other : TM) : TM := K

/-- `mul_` (`base.py:155`): in place -/
def mul_ (K : TM) : TM := K

end TM

/-! ### The optimiser -/

/-- what determines the types in one layer: types of its weight and bias, and the entries of its parameter group. The values of the other hyper-parameters do
not matter for types (`lr_cov`, `normalize_lr_cov`, `damping`, … only enter as the number `alpha`). -/
structure Spec where
  /-- `module.weight.dtype`, also the type of `module.weight.grad` -/
  weight : DType
  /-- `module.bias.dtype`, also the type of `module.bias.grad` -/
  bias : Option DType
  /-- `group["preconditioner_dtype"]` -/
  pre : Option DType × Option DType
  clsK : Cls
  clsC : Cls
  T : ℕ
  kfacLike : Bool
  /-- `alpha1 != 0.0` -/
  riem : Bool
  deriving DecidableEq

/-- `_get_preconditioner_dtypes_and_device` (`optimizer.py:385-403`) -/
def Spec.dtypes (p : Spec) : DType × DType := (p.pre.1.getD p.weight, p.pre.2.getD p.weight)

/-- a layer's specification and the types of the optimiser's tensors for it -/
structure LState where
  spec : Spec
  K : TM
  C : TM
  mK : Option TM
  mC : Option TM
  HK : Option TM
  HC : Option TM
  deriving DecidableEq

/-- `_initialize_buffers` for one layer (`optimizer.py:405-428`) -/
def LState.init (p : Spec) : LState where
  spec := p
  K := eye p.clsK p.dtypes.1
  C := eye p.clsC p.dtypes.2
  mK := if p.riem then some (zeros p.clsK p.dtypes.1) else none
  mC := if p.riem then some (zeros p.clsC p.dtypes.2) else none
  HK := none
  HC := none

/-- `_accumulate_H_terms` (`optimizer.py:578-635`). Inputs and gradients of any type are converted first; `process_input` and `process_grad_output` keep the type
(`/repo/singd/optim/utils.py`: rearrangements, means, `unfold`, `einsum` with patterns of type `x.dtype`, `new_ones`, scaling by a number). -/
def LState.accumulate (τ : Bool) (l : LState) (input gradOutput : DType) : Except PyErr LState := do
  let (dK, dC) := l.spec.dtypes
  let a := castTo input dK
  let g := castTo gradOutput dC
  let hK ← l.K.fromInner τ a
  let hC ← l.C.fromInner τ g
  return { l with HK := some (match l.HK with | some h => h.add_ hK | none => hK), HC := some (match l.HC with | some h => h.add_ hC | none => hC) }

/-- Python's `dict.pop(key)` / `dict[key]` -/
def need {β : Type} : Option β → Except PyErr β
  | some b => .ok b
  | none => .error .keyError

/-- `_update_preconditioner` (`optimizer.py:456-546`) -/
def LState.update (τ : Bool) (steps : ℕ) (l : LState) : Except PyErr LState := do
  if l.spec.T = 0 then .error .zeroDivisionError
  else if steps % l.spec.T ≠ 0 then .ok l
  else
    let hK ← need l.HK
    let hC ← need l.HC
    let kTk ← l.K.fromInner0
    let cTc ← l.C.fromInner0
    let (dK, dC) := l.spec.dtypes
    let newK := zeros l.K.cls dK
    if !l.spec.kfacLike then hC.averageTrace
    let newK := newK.add_ hK
    if !l.spec.kfacLike then cTc.averageTrace
    let newK := (← (newK.add_ kTk).diagAdd).mul_
    let newC := zeros l.C.cls dC
    if !l.spec.kfacLike then hK.averageTrace
    let newC := newC.add_ hC
    if !l.spec.kfacLike then kTk.averageTrace
    let newC := (← (newC.add_ cTc).diagAdd).mul_
    let (newK, newC, mK, mC) ← (if l.spec.riem then do
        let newC := newC.add_ (← need l.mC)
        let newK := newK.add_ (← need l.mK)
        return (newK, newC, some newK, some newC)
      else return (newK, newC, l.mK, l.mC) : Except PyErr (TM × TM × Option TM × Option TM))
    let pK ← l.K.matmulS τ newK
    let pC ← l.C.matmulS τ newC
    return { l with HK := none, HC := none, mK := mK, mC := mC, K := l.K.add_ pK, C := l.C.add_ pC }

/-- the type of the matrix of weight and bias gradients (`optimizer.py:683-692`); `cat` promotes -/
def Spec.gradMat (p : Spec) : DType := match p.bias with
  | some b => promote p.weight b
  | none => p.weight

/-- `_compute_natural_gradient` (`optimizer.py:666-730`); note that `dtype_K, dtype_C` are here the entries of the parameter group, which may be `None` -/
def LState.naturalGradient (τ : Bool) (l : LState) : Except PyErr DType := do
  let gradMat := l.spec.gradMat
  let (dK, dC) := l.spec.pre
  let nat ← l.K.matmulT τ (← l.K.rmatmat τ (castTo gradMat dK))
  let nat ← l.C.matmulT τ (← l.C.rmatmat τ (castTo nat dC))
  return castTo nat gradMat

/-- one iteration of the loop in `_step` (`optimizer.py:783-814`). What follows the natural gradient are in-place additions to the natural gradient, the momentum
buffer and the parameter; they accept all floating point types and keep the type of their target. -/
def LState.step (τ : Bool) (steps : ℕ) (l : LState) : Except PyErr LState := do
  let l ← l.update τ steps
  let _ ← l.naturalGradient τ
  return l

/-- an optimiser: the step counter and its layers -/
structure State where
  steps : ℕ
  layers : List LState
  deriving DecidableEq

/-- construction -/
def init (ps : List Spec) : State := ⟨0, ps.map LState.init⟩

/-- what can happen to the types in a training run -/
inductive Op where
  /-- a tensor hook of the `i`-th layer runs in a backward pass, with a layer input and an output gradient of the given types (which need not be the layer's:
  under autocast, or because of a conversion in the model). Hooks are not tracked: a hook may run at any time. -/
  | backward (i : ℕ) (input gradOutput : DType)
  /-- `optimizer.step()`, with or without infinities in the gradients -/
  | step (foundInf : Bool)
  /-- `model.to(d)`: parameters and gradients are converted -/
  | cast (d : DType)
  deriving DecidableEq

/-- one operation -/
def exec (τ : Bool) (s : State) : Op → Except PyErr State
  | .backward i x g => match s.layers[i]? with
      | none => .ok s
      | some l => do return { s with layers := s.layers.set i (← l.accumulate τ x g) }
  | .step foundInf => do
      let layers ← (if foundInf then .ok (s.layers.map fun l => { l with HK := none, HC := none }) else s.layers.mapM (LState.step τ s.steps) :
        Except PyErr (List LState))
      return ⟨s.steps + 1, layers⟩
  | .cast d => .ok { s with layers := s.layers.map fun l => { l with spec := { l.spec with weight := d, bias := l.spec.bias.map fun _ => d } } }

/-- a training run; it ends at the first exception -/
def run (τ : Bool) (s : State) : List Op → Except PyErr State
  | [] => .ok s
  | op :: ops => do run τ (← exec τ s op) ops

end Dt
