import Verif.Model.Optimizer

/-!
Model of the storage behind the tensors: which tensors share memory, what in-place operations write to, and which
objects are affected. The other models treat matrices as values; here a tensor is a table of addresses and its entries
live in a memory. `Model/Structured.lean` and `Model/Optimizer.lean` are re-told at this level, with the same
computations but with torch's sharing: a slice is a view of the same memory, arithmetic allocates new memory,
`add_`, `mul_` and `+=` write into existing memory.

A reference to a structured matrix is an `SM ℕ`: the same tree of parts with addresses in place of entries.

Simplifications: memory is never freed or re-used; temporaries that are dropped within one expression are not
allocated; an in-place operation reads all its operands before it writes (torch raises for partially overlapping
operands; for identical and for disjoint operands the order is irrelevant). The Python object that holds the
references is identified with the references (two names for one Python object are not represented).
-/

/-- contents of the memory and the first address that was never used -/
structure Mem (α : Type) where
  val : ℕ → α
  next : ℕ

namespace Mem
variable {α : Type} [Field α]

/-! ### tensors of addresses -/

/-- the entries of a 1d tensor -/
def readV (m : Mem α) (d : Vec ℕ) : Vec α := Vec.ofFn d.len fun i => m.val (d.get i)
/-- the entries of a 2d tensor -/
def readM (m : Mem α) (d : Mat ℕ) : Mat α := Mat.ofFn d.rows d.cols fun i j => m.val (d.get i j)
/-- the entries of a 3d tensor -/
def readT (m : Mem α) (d : T3 ℕ) : T3 α := T3.ofFn d.d0 d.d1 d.d2 fun i j k => m.val (d.get i j k)

/-- addresses of a 1d tensor -/
def locV (d : Vec ℕ) : List ℕ := (List.range d.len).map d.get
/-- addresses of a 2d tensor, row by row -/
def locM (d : Mat ℕ) : List ℕ := (rowMajor d.rows d.cols).map fun p => d.get p.1 p.2
/-- addresses of a 3d tensor -/
def locT (d : T3 ℕ) : List ℕ :=
  (List.range d.d0).flatMap fun n => (rowMajor d.d1 d.d2).map fun p => d.get n p.1 p.2

/-- the view `A[r0:r1, c0:c1]` (no memory is copied) -/
def view (A : Mat ℕ) (r0 r1 c0 c1 : ℕ) : Mat ℕ :=
  Mat.ofFn (min r1 A.rows - r0) (min c1 A.cols - c0) fun i j => A.get (r0 + i) (c0 + j)

/-- the structured matrix behind a reference -/
def read (m : Mem α) : SM ℕ → SM α
  | .dense d => .dense (m.readM d)
  | .diagonal d => .diagonal (m.readV d)
  | .block b => .block ⟨b.D, m.readT b.blocks, m.readM b.last⟩
  | .hier h => .hier ⟨h.max1, h.max2, m.readM h.A, m.readM h.B, m.readV h.C, m.readM h.D, m.readM h.E⟩
  | .tril d => .tril (m.readV d)
  | .triu d => .triu (m.readV d)
  | .topRight a c ca cc A B C => .topRight a c ca cc (m.read A) (m.readM B) (m.read C)
  | .bottomLeft a c ca cc A B C => .bottomLeft a c ca cc (m.read A) (m.readM B) (m.read C)

/-- all addresses of a structured matrix -/
def loc : SM ℕ → List ℕ
  | .dense d => locM d
  | .diagonal d => locV d
  | .block b => locT b.blocks ++ locM b.last
  | .hier h => locM h.A ++ locM h.B ++ locV h.C ++ locM h.D ++ locM h.E
  | .tril d => locV d
  | .triu d => locV d
  | .topRight _ _ _ _ A B C => locM B ++ loc A ++ loc C
  | .bottomLeft _ _ _ _ A B C => locM B ++ loc A ++ loc C

/-! ### new memory -/

/-- a new 1d tensor with the given entries -/
def newV (v : Vec α) : Py (Mem α) (Vec ℕ) := fun m =>
  (.ok (Vec.ofFn v.len fun i => m.next + i),
   ⟨fun a => if m.next ≤ a ∧ a < m.next + v.len then v.get (a - m.next) else m.val a, m.next + v.len⟩)

/-- a new (contiguous) 2d tensor with the given entries -/
def newM (v : Mat α) : Py (Mem α) (Mat ℕ) := fun m =>
  (.ok (Mat.ofFn v.rows v.cols fun i j => m.next + (i * v.cols + j)),
   ⟨fun a => if m.next ≤ a ∧ a < m.next + v.rows * v.cols
      then v.get ((a - m.next) / v.cols) ((a - m.next) % v.cols) else m.val a,
    m.next + v.rows * v.cols⟩)

/-- a new (contiguous) 3d tensor with the given entries -/
def newT (v : T3 α) : Py (Mem α) (T3 ℕ) := fun m =>
  (.ok (T3.ofFn v.d0 v.d1 v.d2 fun n i j => m.next + (n * (v.d1 * v.d2) + (i * v.d2 + j))),
   ⟨fun a => if m.next ≤ a ∧ a < m.next + v.d0 * (v.d1 * v.d2)
      then v.get ((a - m.next) / (v.d1 * v.d2)) ((a - m.next) % (v.d1 * v.d2) / v.d2) ((a - m.next) % (v.d1 * v.d2) % v.d2)
      else m.val a,
    m.next + v.d0 * (v.d1 * v.d2)⟩)

/-- a new object all of whose tensors are new (results of arithmetic on the parts) -/
def new : SM α → Py (Mem α) (SM ℕ)
  | .dense x => do return .dense (← newM x)
  | .diagonal d => do return .diagonal (← newV d)
  | .block b => do
    let bs ← newT b.blocks
    let l ← newM b.last
    return .block ⟨b.D, bs, l⟩
  | .hier h => do
    let A ← newM h.A
    let B ← newM h.B
    let C ← newV h.C
    let D ← newM h.D
    let E ← newM h.E
    return .hier ⟨h.max1, h.max2, A, B, C, D, E⟩
  | .tril d => do return .tril (← newV d)
  | .triu d => do return .triu (← newV d)
  | .topRight a c ca cc A B C => do
    let A ← new A
    let B ← newM B
    let C ← new C
    return .topRight a c ca cc A B C
  | .bottomLeft a c ca cc A B C => do
    let A ← new A
    let B ← newM B
    let C ← new C
    return .bottomLeft a c ca cc A B C

/-! ### in-place operations on one tensor -/

/-- `t.mul_(s)` -/
def mulAt (l : List ℕ) (s : α) (m : Mem α) : Mem α := { m with val := fun a => if a ∈ l then m.val a * s else m.val a }
/-- `t += s` -/
def incAt (l : List ℕ) (s : α) (m : Mem α) : Mem α := { m with val := fun a => if a ∈ l then m.val a + s else m.val a }
/-- `t.add_(t', alpha=s)` for tensors of the same shape with addresses `l` and `l'` -/
def addAt (l l' : List ℕ) (s : α) (m : Mem α) : Mem α :=
  { m with val := fun a => match (l.zip l').lookup a with
      | some b => m.val a + m.val b * s
      | none => m.val a }

/-- `t.copy_(x)` for a tensor `x` of the same shape -/
def copyAt (d : Mat ℕ) (x : Mat α) (m : Mem α) : Mem α :=
  { m with val := fun a => match ((locM d).zip (rowMajor d.rows d.cols)).lookup a with
      | some p => x.get p.1 p.2
      | none => m.val a }

/-- `t.add_(t', alpha=s)`, 1d -/
def addV (d e : Vec ℕ) (s : α) : Py (Mem α) Unit :=
  if d.len = e.len then Py.modify (addAt (locV d) (locV e) s) else Py.raise .runtimeError
/-- `t.add_(t', alpha=s)`, 2d -/
def addM (d e : Mat ℕ) (s : α) : Py (Mem α) Unit :=
  if d.rows = e.rows ∧ d.cols = e.cols then Py.modify (addAt (locM d) (locM e) s) else Py.raise .runtimeError
/-- `t.add_(t', alpha=s)`, 3d -/
def addT (d e : T3 ℕ) (s : α) : Py (Mem α) Unit :=
  if d.d0 = e.d0 ∧ d.d1 = e.d1 ∧ d.d2 = e.d2 then Py.modify (addAt (locT d) (locT e) s) else Py.raise .runtimeError

/-- addresses of the main diagonal of a 2d tensor -/
def diagLoc (d : Mat ℕ) : List ℕ := (List.range (min d.rows d.cols)).map fun i => d.get i i

/-- `utils.diag_add_` (`structures/utils.py:109-130`) -/
def diagAddM (d : Mat ℕ) (s : α) : Py (Mem α) Unit :=
  if d.rows ≠ d.cols then Py.raise .valueError else Py.modify (incAt (diagLoc d) s)

/-! ### structured matrices -/

/-- `cls.from_dense(mat)`. `DenseMatrix` keeps `mat` itself (`dense.py:49`); the last block of a block-diagonal matrix
(`blockdiagonal.py:126`) and `A`, `E` of a hierarchical one (`hierarchical.py:160, 164`) are views of `mat`; recursive
templates pass views on to the classes of their blocks (`recursive.py:201-203, 339-341`). Everything else is new memory:
`mat.diag()`, advanced indexing (`blockdiagonal.py:132`), sums and multiples. -/
def fromDense : Cls → Mat ℕ → Py (Mem α) (SM ℕ)
  | .dense, d => pure (.dense d)
  | .diagonal, d => do
    let m ← Py.get
    let v ← Py.lift (Diagonal.fromDense (m.readM d))
    return .diagonal (← newV v)
  | .block D, d => do
    let m ← Py.get
    let b ← Py.lift (BlockDiag.fromDense D (m.readM d))
    let bs ← newT b.blocks
    return .block ⟨D, bs, view d (d.rows / D * D) d.rows (d.rows / D * D) d.cols⟩
  | .hier a b, d => do
    let m ← Py.get
    let h ← Py.lift (Hier.fromDense a b (m.readM d))
    let dims := Hier.blockDims a b d.rows
    let B ← newM h.B
    let C ← newV h.C
    let D ← newM h.D
    return .hier ⟨a, b, view d 0 dims.1 0 dims.1, B, C, D,
      view d (dims.1 + dims.2.1) d.rows (dims.1 + dims.2.1) d.cols⟩
  | .tril, d => do
    let m ← Py.get
    let v ← Py.lift (Tril.fromDense (m.readM d))
    return .tril (← newV v)
  | .triu, d => do
    let m ← Py.get
    let v ← Py.lift (Triu.fromDense (m.readM d))
    return .triu (← newV v)
  | .topRight maxA maxC clsA clsC, d =>
    if d.rows ≠ d.cols then Py.raise .valueError
    else do
      let b ← Py.lift (getBoundary d.rows maxA maxC)
      let A ← fromDense clsA (view d 0 b 0 b)
      let m ← Py.get
      let x ← Py.lift (Mat.add? (m.readM (view d 0 b b d.cols)) (m.readM (view d b d.rows 0 b)).T)
      let B ← newM x
      let C ← fromDense clsC (view d b d.rows b d.cols)
      let m ← Py.get
      let _ ← Py.lift (SM.initTopRight maxA maxC clsA clsC (m.read A) (m.readM B) (m.read C))
      return .topRight maxA maxC clsA clsC A B C
  | .bottomLeft maxA maxC clsA clsC, d =>
    if d.rows ≠ d.cols then Py.raise .valueError
    else do
      let b ← Py.lift (getBoundary d.rows maxA maxC)
      let A ← fromDense clsA (view d 0 b 0 b)
      let m ← Py.get
      let x ← Py.lift (Mat.add? (m.readM (view d b d.rows 0 b)) (m.readM (view d 0 b b d.cols)).T)
      let B ← newM x
      let C ← fromDense clsC (view d b d.rows b d.cols)
      let m ← Py.get
      let _ ← Py.lift (SM.initBottomLeft maxA maxC clsA clsC (m.read A) (m.readM B) (m.read C))
      return .bottomLeft maxA maxC clsA clsC A B C

/-- `self.to_dense()`: the stored tensor itself for `DenseMatrix` (`dense.py:57`), a new tensor for all other classes -/
def toDense (K : SM ℕ) : Py (Mem α) (Mat ℕ) := match K with
  | .dense d => pure d
  | K => do newM ((← Py.get).read K).toDense

/-- classes that use the base class's operations (a dense product followed by `from_dense`) -/
def naive : Cls → Bool
  | .dense | .topRight .. | .bottomLeft .. => true
  | _ => false

/-- the result `x` of a method of class `c`: classes with their own methods build it from new tensors; the base class
computes a new dense tensor `d` and applies `from_dense` (`base.py:99-106, 143-153, 169-179, 270-297, 303-314`).
`x` is the value of the result, used for the former. -/
def result (c : Cls) (x : Except PyErr (SM α)) (d : Except PyErr (Mat α)) : Py (Mem α) (SM ℕ) :=
  if naive c then do
    let d ← Py.lift d
    fromDense c (← newM d)
  else do
    let x ← Py.lift x
    new x

/-- `self @ other` for a structured `other` -/
def matmulS (K L : SM ℕ) : Py (Mem α) (SM ℕ) := do
  let m ← Py.get
  result (m.read K).cls ((m.read K).matmulS (m.read L)) ((m.read K).toDense.matmul (m.read L).toDense)

/-- `self + other` -/
def add (K L : SM ℕ) : Py (Mem α) (SM ℕ) := do
  let m ← Py.get
  result (m.read K).cls ((m.read K).add (m.read L)) ((m.read K).toDense.add? (m.read L).toDense)

/-- `self * scalar` -/
def smul (K : SM ℕ) (s : α) : Py (Mem α) (SM ℕ) := do
  let m ← Py.get
  result (m.read K).cls ((m.read K).smul s) (.ok ((m.read K).toDense.smul s))

/-- the dense matrix from which the base class extracts `from_inner(X)` (`base.py:283-284, 297`) -/
def innerDense (K : SM α) (X : Option (Mat α)) : Except PyErr (Mat α) := do
  let S ← match X with
    | none => pure K.toDense.T
    | some X => K.rmatmat X
  S.matmul S.T

/-- `self.from_inner(X)`. The Toeplitz classes use the base class's method, too; their `from_dense` copies. -/
def fromInner (K : SM ℕ) (X : Option (Mat α)) : Py (Mem α) (SM ℕ) := do
  let m ← Py.get
  result (m.read K).cls ((m.read K).fromInner X) (innerDense (m.read K) X)

/-- `cls.zeros(dim)` -/
def zeros (c : Cls) (n : ℕ) : Py (Mem α) (SM ℕ) := result c (SM.zeros c n) (.ok (Mat.zeros n n))
/-- `cls.eye(dim)` -/
def eye (c : Cls) (n : ℕ) : Py (Mem α) (SM ℕ) := result c (SM.eye c n) (.ok (Mat.eye n))

/-- `self.mul_(value)` (`base.py:155-167`) -/
def mul_ : SM ℕ → α → Py (Mem α) Unit
  | .dense d, s => Py.modify (mulAt (locM d) s)
  | .diagonal d, s => Py.modify (mulAt (locV d) s)
  | .block b, s => do
    Py.modify (mulAt (locT b.blocks) s)
    Py.modify (mulAt (locM b.last) s)
  | .hier h, s => do
    Py.modify (mulAt (locM h.A) s)
    Py.modify (mulAt (locM h.B) s)
    Py.modify (mulAt (locV h.C) s)
    Py.modify (mulAt (locM h.D) s)
    Py.modify (mulAt (locM h.E) s)
  | .tril d, s => Py.modify (mulAt (locV d) s)
  | .triu d, s => Py.modify (mulAt (locV d) s)
  | .topRight _ _ _ _ A B C, s => do
    Py.modify (mulAt (locM B) s)
    mul_ A s
    mul_ C s
  | .bottomLeft _ _ _ _ A B C, s => do
    Py.modify (mulAt (locM B) s)
    mul_ A s
    mul_ C s

/-- `self.add_(other, alpha)` (`base.py:181-197`), tensor by tensor. Operands of different classes raise in the model. -/
def add_ : SM ℕ → SM ℕ → α → Py (Mem α) Unit
  | .dense d, .dense e, s => addM d e s
  | .diagonal d, .diagonal e, s => addV d e s
  | .block b, .block c, s => do
    addT b.blocks c.blocks s
    addM b.last c.last s
  | .hier h, .hier o, s => do
    addM h.A o.A s
    addM h.B o.B s
    addV h.C o.C s
    addM h.D o.D s
    addM h.E o.E s
  | .tril d, .tril e, s => addV d e s
  | .triu d, .triu e, s => addV d e s
  | .topRight _ _ _ _ A B C, .topRight _ _ _ _ A' B' C', s => do
    addM B B' s
    add_ A A' s
    add_ C C' s
  | .bottomLeft _ _ _ _ A B C, .bottomLeft _ _ _ _ A' B' C', s => do
    addM B B' s
    add_ A A' s
    add_ C C' s
  | _, _, _ => Py.raise .runtimeError

/-- addresses that `self._blocks[:, idxs, idxs] += value` writes to (`blockdiagonal.py:324-325`) -/
def blockDiagLoc (D : ℕ) (t : T3 ℕ) : List ℕ :=
  (List.range t.d0).flatMap fun n => ((List.range D).filter fun i => i < t.d1 ∧ i < t.d2).map fun i => t.get n i i

/-- `self.diag_add_(value)`; returns the references the object holds afterwards. Specialised classes write into their
tensors (`diagonal.py:192`, `blockdiagonal.py:324-328`, `hierarchical.py:352-354`, `triltoeplitz.py:192`). The base class
(`base.py:325-343`) adds to `self.to_dense()` and lets `self` refer to the parts of the result: for `DenseMatrix` this is the
stored tensor, for recursive templates it is new memory. -/
def diagAdd (K : SM ℕ) (s : α) : Py (Mem α) (SM ℕ) := match K with
  | .diagonal d => do
    Py.modify (incAt (locV d) s)
    return .diagonal d
  | .block b => do
    Py.modify (incAt (blockDiagLoc b.D b.blocks) s)
    Py.modify (incAt (diagLoc b.last) s)
    return .block b
  | .hier h => do
    diagAddM h.A s
    Py.modify (incAt (locV h.C) s)
    diagAddM h.E s
    return .hier h
  | .tril d => if d.len = 0 then Py.raise .indexError else do
    Py.modify (incAt [d.get 0] s)
    return .tril d
  | .triu d => if d.len = 0 then Py.raise .indexError else do
    Py.modify (incAt [d.get 0] s)
    return .triu d
  | K => do
    let c := ((← Py.get (σ := Mem α)).read K).cls
    let d ← toDense K
    diagAddM d s
    fromDense c d

end Mem
