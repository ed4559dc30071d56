import Verif.Model.Structured

/-!
Specification vocabulary for structured matrices, independent of how the operations are computed:
which objects are well formed (class `c`, dimension `n`), and the Mathlib matrix an object denotes.
-/

variable {α : Type} [Field α]

/-- Canonical tensor shapes of a block-diagonal matrix of dimension `n` (`blockdiagonal.py:35-42`). -/
structure BlockDiag.WF (D n : ℕ) (b : BlockDiag α) : Prop where
  pos : 0 < D
  hD : b.D = D
  d0 : b.blocks.d0 = n / D
  d1 : b.blocks.d1 = D
  d2 : b.blocks.d2 = D
  lr : b.last.rows = n % D
  lc : b.last.cols = n % D

/-- Canonical tensor shapes of a hierarchical matrix with top-left block of dimension `k1`, diagonal part of
dimension `d` and bottom-right block of dimension `k2` (`hierarchical.py:36-40`). -/
structure Hier.Shape (m1 m2 k1 d k2 : ℕ) (h : Hier α) : Prop where
  h1 : h.max1 = m1
  h2 : h.max2 = m2
  le1 : k1 ≤ m1
  le2 : k2 ≤ m2
  Ar : h.A.rows = k1
  Ac : h.A.cols = k1
  Br : h.B.rows = k1
  Bc : h.B.cols = d + k2
  Cl : h.C.len = d
  Dr : h.D.rows = k2
  Dc : h.D.cols = d
  Er : h.E.rows = k2
  Ec : h.E.cols = k2

/-- The documented prioritisation of the block dimensions (`hierarchical.py:42-48`), stated without the code:
`A` is filled first, then `E`, the rest is diagonal. -/
structure HierDims (m1 m2 n k1 d k2 : ℕ) : Prop where
  sum : k1 + d + k2 = n
  k1_eq : k1 = min m1 n
  k2_eq : k2 = min m2 (n - k1)

/-- Boundary between `A` and `C` in a recursive matrix of dimension `n` (`recursive.py:107-111`): the block with
a finite maximum is filled first, from its own side. -/
def RecBoundary (n : ℕ) : MaxDim → MaxDim → ℕ → Prop
  | .int a, .inf, b => b = min a n
  | .inf, .int c, b => b = n - min c n
  | _, _, _ => False

/-- `WF c n K`: `K` is an object of class `c` that represents an `n × n` matrix, with the tensor shapes that
`c.from_dense`, `c.zeros`, `c.eye` produce, and the class supports that dimension. -/
inductive WF : Cls → ℕ → SM α → Prop
  | dense {n : ℕ} {m : Mat α} (hr : m.rows = n) (hc : m.cols = n) : WF .dense n (.dense m)
  | diagonal {n : ℕ} {d : Vec α} (h : d.len = n) : WF .diagonal n (.diagonal d)
  | block {D n : ℕ} {b : BlockDiag α} (h : b.WF D n) : WF (.block D) n (.block b)
  | hier {m1 m2 n k1 d k2 : ℕ} {h : Hier α} (hd : HierDims m1 m2 n k1 d k2) (hs : h.Shape m1 m2 k1 d k2) :
      WF (.hier m1 m2) n (.hier h)
  | tril {n : ℕ} {d : Vec α} (hn : 0 < n) (h : d.len = n) : WF .tril n (.tril d)
  | triu {n : ℕ} {d : Vec α} (hn : 0 < n) (h : d.len = n) : WF .triu n (.triu d)
  | topRight {a c : MaxDim} {ca cc : Cls} {n b : ℕ} {A C : SM α} {B : Mat α} (hb : RecBoundary n a c b)
      (hA : WF ca b A) (hr : B.rows = b) (hc : B.cols = n - b) (hC : WF cc (n - b) C) :
      WF (.topRight a c ca cc) n (.topRight a c ca cc A B C)
  | bottomLeft {a c : MaxDim} {ca cc : Cls} {n b : ℕ} {A C : SM α} {B : Mat α} (hb : RecBoundary n a c b)
      (hA : WF ca b A) (hr : B.rows = n - b) (hc : B.cols = b) (hC : WF cc (n - b) C) :
      WF (.bottomLeft a c ca cc) n (.bottomLeft a c ca cc A B C)

/-- Class `c` supports dimension `n`: block dimension nonzero, Toeplitz parts nonempty, and `MAX_DIMS` of
recursive classes consists of one `int` and one `inf`. -/
def Cls.Supports : Cls → ℕ → Prop
  | .dense, _ => True
  | .diagonal, _ => True
  | .block D, _ => 0 < D
  | .hier _ _, _ => True
  | .tril, n => 0 < n
  | .triu, n => 0 < n
  | .topRight a c ca cc, n => ∃ b, RecBoundary n a c b ∧ ca.Supports b ∧ cc.Supports (n - b)
  | .bottomLeft a c ca cc, n => ∃ b, RecBoundary n a c b ∧ ca.Supports b ∧ cc.Supports (n - b)

/-- No hierarchical class occurs strictly inside a recursive template. -/
def Cls.NoHier : Cls → Prop
  | .hier _ _ => False
  | .topRight _ _ ca cc => ca.NoHier ∧ cc.NoHier
  | .bottomLeft _ _ ca cc => ca.NoHier ∧ cc.NoHier
  | _ => True

/-- Hierarchical classes are allowed at the top level only. -/
def Cls.Regular : Cls → Prop
  | .hier _ _ => True
  | c => c.NoHier

/-- The `n × n` matrix an object stands for: the entries of `to_dense()`. -/
def SM.den (K : SM α) (n : ℕ) : Matrix (Fin n) (Fin n) α := K.toDense.M n n
