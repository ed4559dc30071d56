import Verif.Model.Structured

/-!
# `StructuredMatrix.all_reduce` and memory layouts

`all_reduce` (`base.py:230-264`) executes, for each tensor of `named_tensors()`,

    tensor = tensor.contiguous()
    dist.all_reduce(tensor, op=op, group=group)

`contiguous()` returns the tensor itself if it is contiguous, and a copy otherwise. `dist.all_reduce` works in place. A tensor that
is not contiguous is therefore left alone: its copy is reduced and dropped.

Simplifications:

* All processes call `all_reduce` on matrices of the same class and dimension; parts of different shapes raise in the model (in
  PyTorch the result is undefined, or an error of the communication library).
* Only synchronous calls (`async_op=False`), the only ones used by the optimizer, on the default process group. `Model/Async.lean` has `async_op=True`.
* Floating-point reductions are exact and do not depend on the order of ranks.
* Layouts: sizes and strides of matrices, as PyTorch's slicing produces them. Results of arithmetic (`S @ S.T`, `2 * A`, `A + B.T`,
  `einsum`, `cat`, `diag`, advanced indexing) are new tensors with contiguous memory.
-/

/-- sizes and strides of a matrix in memory -/
structure View where
  rows : ℕ
  cols : ℕ
  rowStride : ℕ
  colStride : ℕ
  deriving DecidableEq

namespace View

/-- a new `r x c` tensor in row-major order -/
def fresh (r c : ℕ) : View := ⟨r, c, c, 1⟩

/-- `v[r0:r1, c0:c1]` for `r0 <= r1 <= rows`, `c0 <= c1 <= cols` (slicing keeps strides) -/
def slice (v : View) (r0 r1 c0 c1 : ℕ) : View := ⟨r1 - r0, c1 - c0, v.rowStride, v.colStride⟩

/-- PyTorch's `is_contiguous()`: true for empty tensors; otherwise strides of dimensions of size other than 1 must be those of a row-major tensor -/
def contiguous (v : View) : Bool :=
  v.rows * v.cols = 0 ∨ ((v.cols = 1 ∨ v.colStride = 1) ∧ (v.rows = 1 ∨ v.rowStride = v.cols))

end View

/-- `is_contiguous()` of every tensor of a structured matrix -/
inductive Contig where
  /-- dense, diagonal and Toeplitz matrices: one tensor -/
  | one (a : Bool)
  /-- `_blocks`, `_last` -/
  | block (blocks last : Bool)
  /-- `A, B, C, D, E` -/
  | hier (A B C D E : Bool)
  /-- recursive classes: `A`, `B`, `C` -/
  | node (A : Contig) (B : Bool) (C : Contig)
  deriving DecidableEq

namespace Contig

/-- all tensors are contiguous -/
def all : Contig → Bool
  | one a => a
  | block a b => a && b
  | hier a b c d e => a && b && c && d && e
  | node A b C => A.all && b && C.all

end Contig

/-- Which tensors of `cls.from_dense(sym_mat)` are contiguous, for a matrix `sym_mat` of layout `v`:

* dense (`dense.py:40-49`): `sym_mat` itself;
* diagonal, Toeplitz (`diagonal.py:105`, `triltoeplitz.py:70-83`, `triutoeplitz.py:70-83`): new vectors;
* block-diagonal (`blockdiagonal.py:123-134`): `blocks` is new (advanced indexing), `last = mat[last_start:, last_start:]` is a view;
* hierarchical (`hierarchical.py:156-166`): `A`, `E` are views, `B`, `D` are new (`2 * ...`), `C` is a slice of the new vector `diag()`;
* recursive (`recursive.py:198-205, 336-343`): `A`, `C` are built from views; `B` is new (a sum). -/
def Cls.fromDenseContig : Cls → View → Contig
  | .dense, v => .one v.contiguous
  | .diagonal, _ => .one true
  | .tril, _ => .one true
  | .triu, _ => .one true
  | .block D, v => .block true (v.slice (v.rows / D * D) v.rows (v.rows / D * D) v.cols).contiguous
  | .hier m1 m2, v =>
    let k := Hier.blockDims m1 m2 v.rows
    .hier (v.slice 0 k.1 0 k.1).contiguous true true true (v.slice (k.1 + k.2.1) v.rows (k.1 + k.2.1) v.cols).contiguous
  | .topRight a c ca cc, v => match _root_.getBoundary v.rows a c with
    | .ok b => .node (ca.fromDenseContig (v.slice 0 b 0 b)) true (cc.fromDenseContig (v.slice b v.rows b v.cols))
    | .error _ => .one true
  | .bottomLeft a c ca cc, v => match _root_.getBoundary v.rows a c with
    | .ok b => .node (ca.fromDenseContig (v.slice 0 b 0 b)) true (cc.fromDenseContig (v.slice b v.rows b v.cols))
    | .error _ => .one true

/-- Which tensors of `K.from_inner(X)` are contiguous, for `K` of class `c` and dimension `n`. Diagonal, block-diagonal and hierarchical
matrices implement `from_inner` with results of arithmetic (`diagonal.py:145-149`, `blockdiagonal.py:265-281`, `hierarchical.py:311-327`);
the other classes call `cls.from_dense(S @ S.T)` (`base.py:283-297`). -/
def Cls.fromInnerContig (c : Cls) (n : ℕ) : Contig := match c with
  | .diagonal => .one true
  | .block _ => .block true true
  | .hier _ _ => .hier true true true true true
  | c => c.fromDenseContig (.fresh n n)

/-- `dist.ReduceOp.AVG`, `dist.ReduceOp.SUM` -/
inductive ReduceOp where
  | avg
  | sum
  deriving DecidableEq

/-- the factor a sum over `R` ranks is multiplied with -/
def ReduceOp.factor {α : Type} [Field α] (op : ReduceOp) (R : ℕ) : α := match op with
  | .avg => 1 / R
  | .sum => 1

variable {α : Type} [Field α]

namespace SM

/-- the parts of `L` where tensors are contiguous, those of `K` elsewhere -/
def pick : Contig → SM α → SM α → SM α
  | .one f, dense m, dense m' => dense (if f then m' else m)
  | .one f, diagonal d, diagonal d' => diagonal (if f then d' else d)
  | .one f, tril d, tril d' => tril (if f then d' else d)
  | .one f, triu d, triu d' => triu (if f then d' else d)
  | .block f g, block b, block b' => block ⟨b.D, if f then b'.blocks else b.blocks, if g then b'.last else b.last⟩
  | .hier fA fB fC fD fE, hier h, hier h' => hier ⟨h.max1, h.max2, if fA then h'.A else h.A, if fB then h'.B else h.B,
      if fC then h'.C else h.C, if fD then h'.D else h.D, if fE then h'.E else h.E⟩
  | .node fA fB fC, topRight a c ca cc A B C, topRight _ _ _ _ A' B' C' => topRight a c ca cc (pick fA A A') (if fB then B' else B) (pick fC C C')
  | .node fA fB fC, bottomLeft a c ca cc A B C, bottomLeft _ _ _ _ A' B' C' => bottomLeft a c ca cc (pick fA A A') (if fB then B' else B) (pick fC C C')
  | _, K, _ => K

/-- the sum or mean of all parts over ranks -/
def reduceParts (op : ReduceOp) {R : ℕ} (Ks : Fin R → SM α) : Except PyErr (SM α) := match List.ofFn Ks with
  | [] => .error .valueError
  | K :: Ls => do
    let S ← Ls.foldlM (fun S L => S.add_ L 1) K
    return S.mul_ (op.factor R)

/-- `all_reduce` (`base.py:230-264`), executed by all ranks: the matrix of rank `r` afterwards, if the tensors of rank `r` are contiguous as in `f r` -/
def allReduce (op : ReduceOp) {R : ℕ} (f : Fin R → Contig) (Ks : Fin R → SM α) : Except PyErr (Fin R → SM α) := do
  let S ← reduceParts op Ks
  return fun r => pick (f r) (Ks r) S

end SM
