import Verif.Model.Structured

/-!
# How NaN spreads

Every tensor is represented by the set of its entries that are NaN. Arithmetic is strict: the result is NaN if an operand is (`0 * nan` too). Which operands enter which entry is read off the
methods called by the optimizer (`Model/Structured.lean` has their values): zeros that are stored or padded take part, zeros that a structure leaves out do not.

Simplifications: numbers do not overflow, so NaN only comes from NaN (no infinities). Tensors have the right shapes; entries outside the shape have no meaning. One layer; its weight and bias are one
matrix with `d` rows and `n` columns, its processed inputs and output gradients are matrices with `n` and `d` rows. Hyper-parameters and gradient scales are numbers.
-/

namespace Nn

/-- NaN entries of a vector -/
abbrev V := ℕ → Prop
/-- NaN entries of a matrix -/
abbrev M := ℕ → ℕ → Prop

/-- `A @ B` with inner dimension `k` -/
def mm (k : ℕ) (A B : M) : M := fun i j => ∃ t < k, A i t ∨ B t j

/-- transpose -/
def tr (A : M) : M := fun i j => A j i

/-- a structured matrix: NaN entries of its tensors (`dense.py:25-38`, `diagonal.py:40-48`, `blockdiagonal.py:69-111`, `hierarchical.py:79-144`, `triltoeplitz.py:47-57`, `triutoeplitz.py:47-57`, `recursive.py:144-186, 282-324`) -/
inductive Obj where
  | dense (d : M)
  | diagonal (v : V)
  | block (D : ℕ) (b : ℕ → M) (l : M)
  | hier (m1 m2 : ℕ) (A B : M) (C : V) (D E : M)
  | tril (v : V)
  | triu (v : V)
  | topRight (x y : MaxDim) (ca cc : Cls) (A : Obj) (B : M) (C : Obj)
  | bottomLeft (x y : MaxDim) (ca cc : Cls) (A : Obj) (B : M) (C : Obj)

/-- `_get_boundary` where it does not raise (`recursive.py:361-392`) -/
def bnd (n : ℕ) : MaxDim → MaxDim → ℕ
  | .int a, _ => min a n
  | .inf, .int c => n - c
  | .inf, .inf => 0

/-- class of an object -/
def Obj.cls : Obj → Cls
  | dense _ => .dense
  | diagonal _ => .diagonal
  | block D _ _ => .block D
  | hier a b .. => .hier a b
  | tril _ => .tril
  | triu _ => .triu
  | topRight x y ca cc .. => .topRight x y ca cc
  | bottomLeft x y ca cc .. => .bottomLeft x y ca cc

/-- `to_dense()` (`dense.py:51-57`, `diagonal.py:107-113`, `blockdiagonal.py:136-157`, `hierarchical.py:168-183`, `triltoeplitz.py:85-97`, `triutoeplitz.py:85-97`, `recursive.py:207-220, 345-358`) -/
def toDense : ℕ → Obj → M
  | _, .dense d => d
  | _, .diagonal v => fun i j => i = j ∧ v i
  | n, .block D b l => fun i j => if i < n / D * D then i / D = j / D ∧ b (i / D) (i % D) (j % D) else n / D * D ≤ j ∧ l (i - n / D * D) (j - n / D * D)
  | n, .hier m1 m2 A B C D E =>
    let (k1, q, _) := Hier.blockDims m1 m2 n
    fun i j => if i < k1 then if j < k1 then A i j else B i (j - k1)
      else if i < k1 + q then i = j ∧ C (i - k1)
      else if j < k1 then False else if j < k1 + q then D (i - (k1 + q)) (j - k1) else E (i - (k1 + q)) (j - (k1 + q))
  | _, .tril v => fun i j => j ≤ i ∧ v (i - j)
  | _, .triu v => fun i j => i ≤ j ∧ v (j - i)
  | n, .topRight x y _ _ A B C =>
    let b := bnd n x y
    fun i j => if i < b then if j < b then toDense b A i j else B i (j - b) else b ≤ j ∧ toDense (n - b) C (i - b) (j - b)
  | n, .bottomLeft x y _ _ A B C =>
    let b := bnd n x y
    fun i j => if i < b then j < b ∧ toDense b A i j else if j < b then B (i - b) j else toDense (n - b) C (i - b) (j - b)

/-- `from_dense(mat)` (`dense.py:40-49`, `diagonal.py:92-105`, `blockdiagonal.py:113-134`, `hierarchical.py:146-166`, `triltoeplitz.py:59-83` with `utils.py:54-80`, `triutoeplitz.py:59-83`,
`recursive.py:188-205, 326-343`) -/
def fromDense : Cls → ℕ → M → Obj
  | .dense, _, d => .dense d
  | .diagonal, _, d => .diagonal fun i => d i i
  | .block D, n, d => .block D (fun k i j => d (k * D + i) (k * D + j)) fun i j => d (n / D * D + i) (n / D * D + j)
  | .hier m1 m2, n, d =>
    let (k1, q, _) := Hier.blockDims m1 m2 n
    .hier m1 m2 d (fun i j => d i (k1 + j)) (fun i => d (k1 + i) (k1 + i)) (fun i j => d (k1 + q + i) (k1 + j)) fun i j => d (k1 + q + i) (k1 + q + j)
  | .tril, n, d => .tril fun t => ∃ i < n, ∃ j < n, (i = j + t ∨ j = i + t) ∧ d i j
  | .triu, n, d => .triu fun t => ∃ i < n, ∃ j < n, (i = j + t ∨ j = i + t) ∧ d i j
  | .topRight x y ca cc, n, d =>
    let b := bnd n x y
    .topRight x y ca cc (fromDense ca b d) (fun i j => d i (b + j) ∨ d (b + j) i) (fromDense cc (n - b) fun i j => d (b + i) (b + j))
  | .bottomLeft x y ca cc, n, d =>
    let b := bnd n x y
    .bottomLeft x y ca cc (fromDense ca b d) (fun i j => d (b + i) j ∨ d j (b + i)) (fromDense cc (n - b) fun i j => d (b + i) (b + j))

/-- `self @ mat` (`diagonal.py:50-67`, `blockdiagonal.py:159-213`, `hierarchical.py:200-212`, `triltoeplitz.py:138-142`, `triutoeplitz.py:136-138`, `utils.py:83-114`; else `base.py:85-107`). The
product with a Toeplitz matrix multiplies its zeros, too; whether the convolution also multiplies the zeros it pads `mat` with depends on the backend and is left out (no difference for matrices whose
entries are all NaN, or none). -/
def matmulT (n : ℕ) (o : Obj) (X : M) : M := match o with
  | .diagonal v => fun i j => v i ∨ X i j
  | .block D b l => fun i j => if i < n / D * D then ∃ t < D, b (i / D) (i % D) t ∨ X (i / D * D + t) j else ∃ t < n % D, l (i - n / D * D) t ∨ X (n / D * D + t) j
  | .hier m1 m2 A B C D E =>
    let (k1, q, k2) := Hier.blockDims m1 m2 n
    fun i j =>
      if i < k1 then mm k1 A X i j ∨ mm q B (fun t j => X (k1 + t) j) i j ∨ mm k2 (fun i t => B i (q + t)) (fun t j => X (k1 + q + t) j) i j
      else if i < k1 + q then C (i - k1) ∨ X i j
      else mm q D (fun t j => X (k1 + t) j) (i - (k1 + q)) j ∨ mm k2 E (fun t j => X (k1 + q + t) j) (i - (k1 + q)) j
  | o => mm n (toDense n o) X

/-- `self.rmatmat(mat)` (`diagonal.py:115-125`, `blockdiagonal.py:239-249`, `hierarchical.py:266-293`, `triltoeplitz.py:151-169`, `triutoeplitz.py:149-167`; else `base.py:199-209`) -/
def rmatmat (n : ℕ) (o : Obj) (X : M) : M := match o with
  | .diagonal v => matmulT n (.diagonal v) X
  | .block D b l => matmulT n (.block D b l) X
  | .hier m1 m2 A B C D E =>
    let (k1, q, k2) := Hier.blockDims m1 m2 n
    fun i j =>
      if i < k1 then mm k1 (tr A) X i j
      else if i < k1 + q then mm k1 (tr B) X (i - k1) j ∨ (C (i - k1) ∨ X i j) ∨ mm k2 (tr D) (fun t j => X (k1 + q + t) j) (i - k1) j
      else mm k1 (tr fun i t => B i (q + t)) X (i - (k1 + q)) j ∨ mm k2 (tr E) (fun t j => X (k1 + q + t) j) (i - (k1 + q)) j
  | o => mm n (tr (toDense n o)) X

/-- `self @ other` for a matrix of the same class (`diagonal.py:50-67`, `blockdiagonal.py:159-213`, `hierarchical.py:214-230`, `triltoeplitz.py:143-149`, `triutoeplitz.py:140-145`; else `base.py:85-107`).
The convolution of Toeplitz classes multiplies every coefficient of `self` with padded zeros. -/
def product (n : ℕ) : Obj → Obj → Obj
  | .diagonal v, .diagonal w => .diagonal fun i => v i ∨ w i
  | .block D b l, .block _ b' l' => .block D (fun k => mm D (b k) (b' k)) (mm (n % D) l l')
  | .hier m1 m2 A B C D E, .hier _ _ A' B' C' D' E' =>
    let (k1, q, k2) := Hier.blockDims m1 m2 n
    .hier m1 m2 (mm k1 A A')
      (fun i j => if j < q then mm k1 A B' i j ∨ (B i j ∨ C' j) ∨ mm k2 (fun i t => B i (q + t)) D' i j else mm k1 A B' i j ∨ mm k2 (fun i t => B i (q + t)) E' i (j - q))
      (fun i => C i ∨ C' i) (fun i j => (D i j ∨ C' j) ∨ mm k2 E D' i j) (mm k2 E E')
  | .tril v, .tril w => .tril fun t => (∃ k < n, v k) ∨ ∃ k ≤ t, w k
  | .triu v, .triu w => .triu fun t => (∃ k < n, v k) ∨ ∃ k ≤ t, w k
  | o, p => fromDense o.cls n (mm n (toDense n o) (toDense n p))

/-- `self.from_inner()` (`diagonal.py:131-149`, `blockdiagonal.py:275-278`, `hierarchical.py:309-318`; else `base.py:270-301`) -/
def inner (n : ℕ) : Obj → Obj
  | .diagonal v => .diagonal v
  | .block D b l => .block D (fun k => mm D (b k) (tr (b k))) (mm (n % D) l (tr l))
  | .hier m1 m2 A B C D E =>
    let (k1, q, k2) := Hier.blockDims m1 m2 n
    let BE : M := fun i t => B i (q + t)
    .hier m1 m2 (mm k1 (tr A) A) (mm k1 (tr A) B) (fun i => C i ∨ (∃ t < k1, B t i) ∨ ∃ t < k2, D t i)
      (fun i j => mm k1 (tr BE) B i j ∨ mm k2 (tr E) D i j) (fun i j => mm k2 (tr E) E i j ∨ mm k1 (tr BE) BE i j)
  | o => fromDense o.cls n (mm n (tr (toDense n o)) (toDense n o))

/-- `self.from_inner(X)` for `X` with `m` columns (`diagonal.py:131-149`, `blockdiagonal.py:279-303`, `hierarchical.py:319-325`; else `base.py:270-301`) -/
def innerX (n : ℕ) (o : Obj) (m : ℕ) (X : M) : Obj := match o with
  | .diagonal v => .diagonal fun i => v i ∨ ∃ j < m, X i j
  | .hier m1 m2 A B C D E =>
    let (k1, q, _) := Hier.blockDims m1 m2 n
    let S := rmatmat n (.hier m1 m2 A B C D E) X
    let SC : M := fun i j => S (k1 + i) j
    let SE : M := fun i j => S (k1 + q + i) j
    .hier m1 m2 (mm m S (tr S)) (mm m S (tr SC)) (fun i => ∃ j < m, SC i j) (mm m SE (tr SC)) (mm m SE (tr SE))
  | o =>
    let S := rmatmat n o X
    fromDense o.cls n (mm m S (tr S))

/-- `self.average_trace()` (`diagonal.py:175-181`, `blockdiagonal.py:305-313`, `hierarchical.py:329-341`, `triltoeplitz.py:175-181`, `triutoeplitz.py:173-179`; else `base.py:316-323`) -/
def averageTrace (n : ℕ) : Obj → Prop
  | .diagonal v => ∃ i < n, v i
  | .block D b l => (∃ k < n / D, ∃ i < D, b k i i) ∨ ∃ i < n % D, l i i
  | .hier m1 m2 A _ C _ E =>
    let (k1, q, k2) := Hier.blockDims m1 m2 n
    (∃ i < k1, A i i) ∨ (∃ i < q, C i) ∨ ∃ i < k2, E i i
  | .tril v => v 0
  | .triu v => v 0
  | o => ∃ i < n, toDense n o i i

/-- `self.add_(other, alpha)`: tensor by tensor (`base.py:181-197`) -/
def add (α : Prop) : Obj → Obj → Obj
  | .dense d, .dense d' => .dense fun i j => d i j ∨ d' i j ∨ α
  | .diagonal v, .diagonal v' => .diagonal fun i => v i ∨ v' i ∨ α
  | .block D b l, .block _ b' l' => .block D (fun k i j => b k i j ∨ b' k i j ∨ α) fun i j => l i j ∨ l' i j ∨ α
  | .hier m1 m2 A B C D E, .hier _ _ A' B' C' D' E' => .hier m1 m2 (fun i j => A i j ∨ A' i j ∨ α) (fun i j => B i j ∨ B' i j ∨ α) (fun i => C i ∨ C' i ∨ α)
      (fun i j => D i j ∨ D' i j ∨ α) fun i j => E i j ∨ E' i j ∨ α
  | .tril v, .tril v' => .tril fun i => v i ∨ v' i ∨ α
  | .triu v, .triu v' => .triu fun i => v i ∨ v' i ∨ α
  | .topRight x y ca cc A B C, .topRight _ _ _ _ A' B' C' => .topRight x y ca cc (add α A A') (fun i j => B i j ∨ B' i j ∨ α) (add α C C')
  | .bottomLeft x y ca cc A B C, .bottomLeft _ _ _ _ A' B' C' => .bottomLeft x y ca cc (add α A A') (fun i j => B i j ∨ B' i j ∨ α) (add α C C')
  | o, _ => o

/-- `self.diag_add_(number)` (`diagonal.py:183-193`, `blockdiagonal.py:315-330`, `hierarchical.py:343-355`, `triltoeplitz.py:183-193`, `triutoeplitz.py:181-191`; else `base.py:325-343`) -/
def diagAdd (n : ℕ) : Obj → Obj
  | .topRight x y ca cc A B C => fromDense (.topRight x y ca cc) n (toDense n (.topRight x y ca cc A B C))
  | .bottomLeft x y ca cc A B C => fromDense (.bottomLeft x y ca cc) n (toDense n (.bottomLeft x y ca cc A B C))
  | o => o

/-- `cls.zeros(n)` (`base.py:373-392` and class files) -/
def zeros : Cls → ℕ → Obj := fun c n => fromDense c n fun _ _ => False

/-- what is kept for a layer: factors, momenta, statistics, parameters, momentum buffers -/
structure Lay where
  K : Obj
  C : Obj
  mK : Obj
  mC : Obj
  H : Option (Obj × Obj)
  W : M
  P : M

/-- options of a step: `kfac_like`; whether `alpha1 ≠ 0`, `momentum ≠ 0`, `weight_decay ≠ 0` -/
structure Flags where
  kfac : Bool
  al : Bool
  mom : Bool
  wd : Bool

/-- the hook of a backward pass (`optimizer.py:608-635`), from the processed input (`m` rows, transposed) and output gradient (`m'` rows, transposed) on -/
def backward (n d : ℕ) (m : ℕ) (X : M) (m' : ℕ) (g : M) (l : Lay) : Lay :=
  let HK := innerX n l.K m X
  let HC := innerX d l.C m' g
  { l with H := some (match l.H with
    | none => (HK, HC)
    | some (HK₀, HC₀) => (add False HK₀ HK, add False HC₀ HC)) }

/-- the new momentum of a factor before the old one is added (`optimizer.py:506-519`); `α`, `γ`: coefficients of statistics and of damping -/
def newMomentum (n : ℕ) (c : Cls) (H : Obj) (α : Prop) (I : Obj) (γ : Prop) : Obj := diagAdd n (add γ (add α (zeros c n) H) I)

/-- `_update_preconditioner` (`optimizer.py:466-546`) in a step that updates. The rate of `normalize_lr_cov` is a number even if the norm is NaN: `max(1.0, nan)` is `1.0`. Without statistics
it raises, here: leaves the layer as it is. -/
def update (n d : ℕ) (f : Flags) (l : Lay) : Lay := match l.H with
  | none => l
  | some (HK, HC) =>
    let KtK := inner n l.K
    let CtC := inner d l.C
    let nK := newMomentum n l.K.cls HK (if f.kfac then False else averageTrace d HC) KtK (if f.kfac then False else averageTrace d CtC)
    let nC := newMomentum d l.C.cls HC (if f.kfac then False else averageTrace n HK) CtC (if f.kfac then False else averageTrace n KtK)
    let mK := if f.al then add False nK l.mK else nK
    let mC := if f.al then add False nC l.mC else nC
    { l with H := none, K := add False l.K (product n l.K mK), C := add False l.C (product d l.C mC), mK := if f.al then mK else l.mK, mC := if f.al then mC else l.mC }

/-- `_compute_natural_gradient` (`optimizer.py:681-712`) -/
def natGrad (n d : ℕ) (l : Lay) (G : M) : M := matmulT d l.C (rmatmat d l.C (tr (matmulT n l.K (rmatmat n l.K (tr G)))))

/-- `_step` for the layer with the gradient `G` (`optimizer.py:783-814`); `due`: whether the pre-conditioner is updated in this step -/
def step (n d : ℕ) (f : Flags) (due : Bool) (G : M) (l : Lay) : Lay :=
  let l := if due then update n d f l else l
  let s : M := fun i j => natGrad n d l G i j ∨ (f.wd ∧ l.W i j)
  let P : M := if f.mom then fun i j => l.P i j ∨ s i j else l.P
  { l with W := fun i j => l.W i j ∨ (if f.mom then P i j else s i j), P := P }

/-- operations on a layer: a backward pass; a step that the gradient scaler reports as infinite (`optimizer.py:763-774`); a step; assignment of parameters -/
inductive Op where
  | backward (m : ℕ) (X : M) (m' : ℕ) (g : M)
  | skip
  | step (f : Flags) (due : Bool) (G : M)
  | setParam (W : M)

/-- one operation -/
def exec (n d : ℕ) (l : Lay) : Op → Lay
  | .backward m X m' g => backward n d m X m' g l
  | .skip => { l with H := none }
  | .step f due G => step n d f due G l
  | .setParam W => { l with W := W }

/-- operations in the given order -/
def run (n d : ℕ) (l : Lay) (ops : List Op) : Lay := ops.foldl (exec n d) l

end Nn
