import Verif.Model.Structured

/-!
# What the methods allocate and what objects keep alive

A tensor is represented by its shape and the storage it lies in. Slices, transposes and `diag`-free reshapes are views: they lie in the storage of their argument, however small they
are, and torch frees a storage only when no tensor lies in it any more. Arithmetic, `cat`, `zeros`, `einsum` and `diag()` allocate a storage of the size of the result. The state is the
list of the sizes (numbers of entries) of all storages made so far.

All methods called by the optimizer are re-told at this level (`Model/Structured.lean` has their values), with every tensor that their expressions create, named or not.

Simplifications: entries are counted, whatever their type (index tensors too). Copies that torch makes depending on types and layouts (`.to`, `flatten`) are counted as made. Workspace within a
torch function is not counted. Python numbers and 0-dimensional tensors are not counted. Only shapes that fit: `n` is the dimension of the matrix, `m` the number of columns of a
tensor argument; errors are those of `_get_boundary` only.
-/

namespace Sto

/-- a tensor: shape and storage -/
structure Tn where
  shape : List ℕ
  st : ℕ
  deriving DecidableEq, Repr, Inhabited

/-- sizes of the storages made so far -/
abbrev Heap := List ℕ

/-- an object: a class without blocks and its tensors in the order of `named_tensors()`, or a matrix of a recursive template (`recursive.py:78-357`) -/
inductive Obj where
  | leaf (c : Cls) (n : ℕ) (ts : List Tn)
  | node (c : Cls) (n : ℕ) (A : Obj) (B : Tn) (C : Obj)

namespace Obj

/-- `named_tensors()` -/
def tensors : Obj → List Tn
  | leaf _ _ ts => ts
  | node _ _ A B C => B :: (A.tensors ++ C.tensors)

/-- the class -/
def cls : Obj → Cls
  | leaf c .. => c
  | node c .. => c

/-- the dimension -/
def dim : Obj → ℕ
  | leaf _ n _ => n
  | node _ n .. => n

end Obj

/-- a new tensor -/
def new (shape : List ℕ) : Py Heap Tn := fun s => (.ok ⟨shape, s.length⟩, s ++ [shape.prod])

/-- tensors that are dropped before the method returns -/
def tmp (shapes : List (List ℕ)) : Py Heap Unit := fun s => (.ok (), s ++ shapes.map List.prod)

/-- a view of a tensor -/
def Tn.view (t : Tn) (shape : List ℕ) : Tn := ⟨shape, t.st⟩

/-- `to_dense()`: the stored tensor of a dense matrix (`dense.py:51-57`); a new one for all other classes (`diagonal.py:107-113`, `blockdiagonal.py:136-157`,
`hierarchical.py:168-183`, `triltoeplitz.py:85-97` with index tensors, `recursive.py:207-220, 345-358` with those of the blocks) -/
def toDense : Obj → Py Heap Tn
  | .leaf .dense _ ts => pure (ts.headD default)
  | .leaf (.hier a b) n _ => do
    tmp [[(Hier.blockDims a b n).2.1]]
    new [n, n]
  | .leaf .tril n _ | .leaf .triu n _ => do
    tmp [[2, n * (n + 1) / 2], [n * (n + 1) / 2], [n * (n + 1) / 2]]
    new [n, n]
  | .leaf _ n _ => new [n, n]
  | .node _ n A _ C => do
    let _ ← toDense A
    let _ ← toDense C
    new [n, n]

/-- `from_dense(mat)`: which parts are views of `mat` and which are new tensors (as `Mem.fromDense`, `Model/Alias.lean`). `C` of a hierarchical matrix is a view of
`sym_mat.diag()` (`hierarchical.py:162`). Toeplitz classes: `all_traces` (`utils.py:51-78`), then `triltoeplitz.py:59-83`. The constructors of recursive templates call `to_dense()` of
their blocks (`recursive.py:168, 306`). -/
def fromDense : Cls → ℕ → Tn → Py Heap Obj
  | .dense, n, d => pure (.leaf .dense n [d])
  | .diagonal, n, _ => do return .leaf .diagonal n [← new [n]]
  | .block D, n, d => do
    tmp [[n / D]]
    return .leaf (.block D) n [← new [n / D, D, D], d.view [n % D, n % D]]
  | .hier a b, n, d => do
    let (k1, q, k2) := Hier.blockDims a b n
    let B ← new [k1, q + k2]
    let C ← new [n]
    let D ← new [k2, q]
    return .leaf (.hier a b) n [d.view [k1, k1], B, C.view [q], D, d.view [k2, k2]]
  | .tril, n, _ => do
    tmp [[n], [n], [n, n], [n, n], [n, n], [2 * n - 1], [n - 1], [n]]
    return .leaf .tril n [← new [n]]
  | .triu, n, _ => do
    tmp [[n], [n], [n, n], [n, n], [n, n], [2 * n - 1], [n - 1], [n]]
    return .leaf .triu n [← new [n]]
  | .topRight x y ca cc, n, d => do
    let b ← Py.lift (getBoundary n x y)
    let A ← fromDense ca b (d.view [b, b])
    let B ← new [b, n - b]
    let C ← fromDense cc (n - b) (d.view [n - b, n - b])
    let _ ← toDense A
    let _ ← toDense C
    return .node (.topRight x y ca cc) n A B C
  | .bottomLeft x y ca cc, n, d => do
    let b ← Py.lift (getBoundary n x y)
    let A ← fromDense ca b (d.view [b, b])
    let B ← new [n - b, b]
    let C ← fromDense cc (n - b) (d.view [n - b, n - b])
    let _ ← toDense A
    let _ ← toDense C
    return .node (.bottomLeft x y ca cc) n A B C

/-- `self @ mat` (`diagonal.py:50-67`, `blockdiagonal.py:159-213`, `hierarchical.py:185-230`, `triltoeplitz.py:121-149`, `triutoeplitz.py:121-147`, `utils.py:81-106`; else
`base.py:85-106`) -/
def matmulT (o : Obj) (m : ℕ) : Py Heap Tn := match o with
  | .leaf .diagonal n _ => new [n, m]
  | .leaf (.block D) n _ => do
    tmp [[n / D, D, D], [n / D, D, m], [n / D, D, m], [n / D, D, m], [n % D, n % D], [n % D, m], [n % D, m], [n % D, m]]
    new [n, m]
  | .leaf (.hier a b) n _ => do
    let (k1, q, k2) := Hier.blockDims a b n
    tmp [[k1, m], [k1, m], [k1, m], [k1, m], [k1, m], [q, m], [k2, m], [k2, m], [k2, m]]
    new [n, m]
  | .leaf .tril n _ => do
    tmp [[n], [n - 1], [2 * n - 1]]
    return (← new [m, n]).view [n, m]
  | .leaf .triu n _ => do
    tmp [[n - 1], [2 * n - 1]]
    return (← new [m, n]).view [n, m]
  | o => do
    let _ ← toDense o
    new [o.dim, m]

/-- `self.rmatmat(mat)` (`diagonal.py:115-125`, `blockdiagonal.py:239-249`, `hierarchical.py:266-293`, `triltoeplitz.py:151-169`, `triutoeplitz.py:149-167`; else `base.py:199-209`) -/
def rmatmat (o : Obj) (m : ℕ) : Py Heap Tn := match o with
  | .leaf .diagonal _ _ | .leaf (.block _) _ _ => matmulT o m
  | .leaf (.hier a b) n _ => do
    let (k1, q, k2) := Hier.blockDims a b n
    tmp [[k1, m], [q], [q, m], [q, m], [q, m], [q, m], [q, m], [q, m], [q, m], [k2, m], [k2, m], [k2, m]]
    new [n, m]
  | .leaf .tril n _ => do
    tmp [[n - 1], [2 * n - 1], [2 * n - 1], [n, m], [m, n]]
    new [n, m]
  | .leaf .triu n _ => do
    tmp [[n], [n - 1], [2 * n - 1], [2 * n - 1], [n, m], [m, n]]
    new [n, m]
  | o => do
    let _ ← toDense o
    new [o.dim, m]

/-- new tensors for all parts of a class with methods of its own, in the order of `named_tensors()` -/
def parts (c : Cls) (n : ℕ) : Py Heap Obj := match c with
  | .block D => do
    let b ← new [n / D, D, D]
    let l ← new [n % D, n % D]
    return .leaf (.block D) n [b, l]
  | .hier a b => do
    let (k1, q, k2) := Hier.blockDims a b n
    let A ← new [k1, k1]
    let B ← new [k1, q + k2]
    let C ← new [q]
    let D ← new [k2, q]
    let E ← new [k2, k2]
    return .leaf (.hier a b) n [A, B, C, D, E]
  | c => do return .leaf c n [← new [n]]

/-- methods of the base class: a dense tensor with the result, then `from_dense` -/
def naive (c : Cls) (n : ℕ) : Py Heap Obj := do fromDense c n (← new [n, n])

/-- `self @ other` for a matrix of the same class (`diagonal.py:50-67`, `blockdiagonal.py:159-213`, `hierarchical.py:185-230`, `triltoeplitz.py:121-149`; else `base.py:85-106`) -/
def matmulS (o p : Obj) : Py Heap Obj := match o with
  | .leaf .diagonal n _ => parts .diagonal n
  | .leaf (.block D) n _ => parts (.block D) n
  | .leaf (.hier a b) n _ => do
    let (k1, q, k2) := Hier.blockDims a b n
    tmp [[k2, q], [k2, q], [k1, q], [k1, q], [k1, q], [k1, q], [k1, q], [k1, k2], [k1, k2], [k1, k2]]
    parts (.hier a b) n
  | .leaf .tril n _ => do
    tmp [[2 * n - 1], [n]]
    parts .tril n
  | .leaf .triu n _ => do
    tmp [[2 * n - 1], [n]]
    parts .triu n
  | o => do
    let _ ← toDense o
    let _ ← toDense p
    naive o.cls o.dim

/-- `self.from_inner()` (`diagonal.py:131-149`, `blockdiagonal.py:255-281`, `hierarchical.py:299-327`; else `base.py:270-301`) -/
def inner (o : Obj) : Py Heap Obj := match o with
  | .leaf .diagonal n _ => parts .diagonal n
  | .leaf (.block D) n _ => parts (.block D) n
  | .leaf (.hier a b) n _ => do
    let (k1, q, k2) := Hier.blockDims a b n
    tmp [[k1, k1], [q], [k1, q], [q], [k2, q], [q], [q], [k2, q], [k2, q], [k2, q], [k2, k2], [k2, k2]]
    parts (.hier a b) n
  | o => do
    let _ ← toDense o
    naive o.cls o.dim

/-- `self.from_inner(X)` for `X` with `m` columns (`diagonal.py:131-149`, `blockdiagonal.py:255-303`, `hierarchical.py:299-327`; else `base.py:270-301`) -/
def innerX (o : Obj) (m : ℕ) : Py Heap Obj := match o with
  | .leaf .diagonal n _ => do
    tmp [[n, m], [n]]
    parts .diagonal n
  | .leaf (.block D) n _ => do
    let _ ← rmatmat o m
    parts (.block D) n
  | .leaf (.hier a b) n _ => do
    let (k1, q, k2) := Hier.blockDims a b n
    let _ ← rmatmat o m
    tmp [[k1, q], [k1, k2], [k1, q + k2], [q, m], [k2, m]]
    parts (.hier a b) n
  | o => do
    let _ ← rmatmat o m
    naive o.cls o.dim

/-- `self.average_trace()` (`diagonal.py:175-181`, `blockdiagonal.py:305-313`, `hierarchical.py:329-341`, `triltoeplitz.py:175-181`; else `base.py:316-323`) -/
def averageTrace (o : Obj) : Py Heap Unit := match o with
  | .leaf (.block D) n _ => tmp [[n / D, D, D], [n % D], [n % D]]
  | .leaf (.hier a b) n _ => do
    let (k1, q, k2) := Hier.blockDims a b n
    tmp [[k1], [k1], [q], [k2], [k2]]
  | .leaf .diagonal _ _ | .leaf .tril _ _ | .leaf .triu _ _ => pure ()
  | o => do
    let _ ← toDense o
    tmp [[o.dim]]

/-- `self.diag_add_(value)` (`diagonal.py:183-193`, `blockdiagonal.py:315-330`, `hierarchical.py:343-355`, `triltoeplitz.py:183-193`; else `base.py:325-343`); the object afterwards -/
def diagAdd (o : Obj) : Py Heap Obj := match o with
  | .leaf (.block D) n _ => do
    tmp [[D], [n / D, D], [n % D], [n % D]]
    return o
  | .leaf (.hier a b) n _ => do
    let (k1, _, k2) := Hier.blockDims a b n
    tmp [[k1], [k1], [k2], [k2]]
    return o
  | .leaf .diagonal _ _ | .leaf .tril _ _ | .leaf .triu _ _ => return o
  | o => do
    let d ← toDense o
    tmp [[o.dim], [o.dim]]
    fromDense o.cls o.dim d

/-- `self.infinity_vector_norm()` (`base.py:345-358`) -/
def infNorm (o : Obj) : Py Heap Unit := tmp (o.tensors.map Tn.shape)

/-- `cls.zeros(n)` (`diagonal.py:207-225`, `blockdiagonal.py:347-370`, `hierarchical.py:372-398`, `triltoeplitz.py:215-233`; else `base.py:373-392`) -/
def zeros (c : Cls) (n : ℕ) : Py Heap Obj := match c with
  | .dense | .topRight .. | .bottomLeft .. => naive c n
  | c => parts c n

/-- `cls.eye(n)` (`diagonal.py:228-246`, `blockdiagonal.py:373-398`, `hierarchical.py:401-427`, `triltoeplitz.py:236-256`; else `base.py:395-414`); `supported_eye` may convert
(`utils.py:28-48`) -/
def eye (c : Cls) (n : ℕ) : Py Heap Obj := match c with
  | .dense | .topRight .. | .bottomLeft .. => do
    tmp [[n, n]]
    naive c n
  | .block D => do
    tmp [[D, D], [D, D], [n % D, n % D]]
    parts (.block D) n
  | .hier a b => do
    let (k1, _, k2) := Hier.blockDims a b n
    tmp [[k1, k1], [k2, k2]]
    parts (.hier a b) n
  | c => parts c n

/-! ### The optimizer -/

/-- what is kept for a layer: factors, momenta and statistics -/
structure Lay where
  K : Obj
  C : Obj
  mK : Option Obj
  mC : Option Obj
  HK : Option Obj
  HC : Option Obj

/-- all objects of a layer -/
def Lay.objs (l : Lay) : List Obj := [l.K, l.C] ++ l.mK.toList ++ l.mC.toList ++ l.HK.toList ++ l.HC.toList

/-- `_initialize_buffers` (`optimizer.py:415-430`) for a layer with factors of the classes `cc` and dimensions `n`, `d`; `al`: whether `alpha1` is not 0 -/
def init (cc : Cls × Cls) (n d : ℕ) (al : Bool) : Py Heap Lay := do
  let K ← eye cc.1 n
  let C ← eye cc.2 d
  if al then do
    let mK ← zeros cc.1 n
    let mC ← zeros cc.2 d
    return ⟨K, C, some mK, some mC, none, none⟩
  else return ⟨K, C, none, none, none, none⟩

/-- `_accumulate_H_terms` (`optimizer.py:602-635`) from the processed input (`a` rows) and output gradient (`g` rows) on: `add_` writes into the tensors of the stored statistics -/
def backward (a g : ℕ) (l : Lay) : Py Heap Lay := do
  let HK ← innerX l.K a
  tmp [[g, l.C.dim]]
  let HC ← innerX l.C g
  return { l with HK := l.HK.or (some HK), HC := l.HC.or (some HC) }

/-- options of an update -/
structure Flags where
  kfac : Bool
  norm : Bool
  al : Bool

/-- two average traces, used unless `kfac_like` -/
def traces (kfac : Bool) (o p : Obj) : Py Heap Unit := if kfac then pure () else do
  averageTrace o
  averageTrace p

/-- norms, used with `normalize_lr_cov` -/
def norms (norm : Bool) (o p : Obj) : Py Heap Unit := if norm then do
  infNorm o
  infNorm p
else pure ()

/-- `_update_preconditioner` (`optimizer.py:467-546`) in a step that updates. `add_` and `mul_` write into existing tensors. Without statistics, and without momenta although
`alpha1` is not 0, it raises. -/
def update (f : Flags) (l : Lay) : Py Heap Lay := match l.HK, l.HC with
  | some HK, some HC =>
    if f.al ∧ (l.mC.isNone ∨ l.mK.isNone) then Py.raise .keyError
    else do
      let KtK ← inner l.K
      let CtC ← inner l.C
      let zK ← zeros l.K.cls l.K.dim
      traces f.kfac HC CtC
      let nK ← diagAdd zK
      let zC ← zeros l.C.cls l.C.dim
      traces f.kfac HK KtK
      let nC ← diagAdd zC
      norms f.norm nK nC
      let _ ← matmulS l.K nK
      let _ ← matmulS l.C nC
      return { l with HK := none, HC := none, mK := if f.al then some nK else l.mK, mC := if f.al then some nC else l.mC }
  | _, _ => Py.raise .keyError

/-- `_compute_natural_gradient` (`optimizer.py:676-712`) -/
def natGrad (l : Lay) : Py Heap Unit := do
  let n := l.K.dim
  let d := l.C.dim
  tmp [[d, n], [d, n], [n, d]]
  let _ ← rmatmat l.K d
  let _ ← matmulT l.K d
  tmp [[d, n]]
  let _ ← rmatmat l.C n
  let _ ← matmulT l.C n
  tmp [[d, n]]

/-- operations on the tensors of a layer -/
inductive Op where
  | backward (a g : ℕ)
  | update (f : Flags)
  | natGrad

/-- one operation -/
def step (l : Lay) : Op → Py Heap Lay
  | .backward a g => backward a g l
  | .update f => update f l
  | .natGrad => do
    natGrad l
    return l

/-- operations in the given order -/
def run : List Op → Lay → Py Heap Lay
  | [], l => pure l
  | op :: ops, l => do run ops (← step l op)

end Sto
