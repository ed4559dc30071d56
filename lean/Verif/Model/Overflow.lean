import Verif.Model.Nan

/-!
# Infinite values and overflow

Numbers of a floating point type without rounding: elements of an ordered field, both infinities and NaN, with the arithmetic of IEEE 754. What a tensor operation stores passes through a function
`st`, for instance one that replaces numbers beyond the largest representable one by an infinity (`clip`). Sums are accumulated in a wider type: only their result is stored.

Simplifications: no rounding. One type for all tensors of the layer. Tensors have the right shapes; entries outside the shape have no meaning. One layer in one process; its weight and bias are one
matrix with `d` rows and `n` columns. Hyper-parameters and gradient scales are numbers. The norms that `normalize_lr_cov` divides by are inputs (any value, also infinite or NaN).
-/

/-- a floating point value: a number, an infinity (`true`: negative) or NaN -/
inductive Fl (α : Type) where
  | fin (x : α)
  | inf (neg : Bool)
  | nan
  deriving DecidableEq

namespace Fl

variable {α : Type} [Field α] [LinearOrder α]

/-- infinite or NaN -/
def Bad : Fl α → Prop
  | fin _ => False
  | _ => True

instance : DecidablePred (Bad (α := α))
  | fin _ => isFalse id
  | inf _ => isTrue trivial
  | nan => isTrue trivial

/-- IEEE 754 addition without rounding -/
def add : Fl α → Fl α → Fl α
  | fin x, fin y => fin (x + y)
  | fin _, inf s => inf s
  | inf s, fin _ => inf s
  | inf s, inf s' => if s = s' then inf s else nan
  | _, _ => nan

/-- an infinity times a number -/
def infMul (s : Bool) (x : α) : Fl α := if x = 0 then nan else inf (s.xor (decide (x < 0)))

/-- IEEE 754 multiplication without rounding -/
def mul : Fl α → Fl α → Fl α
  | fin x, fin y => fin (x * y)
  | fin x, inf s => infMul s x
  | inf s, fin x => infMul s x
  | inf s, inf s' => inf (s.xor s')
  | _, _ => nan

instance : Add (Fl α) := ⟨add⟩
instance : Mul (Fl α) := ⟨mul⟩

/-- sum of `k` values -/
def sum : ℕ → (ℕ → Fl α) → Fl α
  | 0, _ => fin 0
  | k + 1, f => sum k f + f k

/-- storing a value in a type whose largest number is `Ω` -/
def clip (Ω : α) : Fl α → Fl α
  | fin x => if Ω < x then inf false else if x < -Ω then inf true else fin x
  | x => x

/-- `beta / max(1.0, norm)` (`optimizer.py:542-543`): Python's `max` keeps `1.0` unless the norm is larger, so a NaN norm counts as 1; division by infinity is zero -/
def rate (β : α) : Fl α → α
  | fin x => β / max 1 x
  | inf false => 0
  | inf true => β
  | nan => β

end Fl

namespace Ov

variable {α : Type} [Field α] [LinearOrder α]

/-- a vector -/
abbrev V (α : Type) := ℕ → Fl α
/-- a matrix -/
abbrev M (α : Type) := ℕ → ℕ → Fl α

/-- a structured matrix: its tensors (`dense.py:25-38`, `diagonal.py:40-48`, `blockdiagonal.py:69-111`, `hierarchical.py:79-144`, `triltoeplitz.py:47-57`, `triutoeplitz.py:47-57`,
`recursive.py:144-186, 282-324`) -/
inductive Obj (α : Type) where
  | dense (d : M α)
  | diagonal (v : V α)
  | block (D : ℕ) (b : ℕ → M α) (l : M α)
  | hier (m1 m2 : ℕ) (A B : M α) (C : V α) (D E : M α)
  | tril (v : V α)
  | triu (v : V α)
  | topRight (x y : MaxDim) (ca cc : Cls) (A : Obj α) (B : M α) (C : Obj α)
  | bottomLeft (x y : MaxDim) (ca cc : Cls) (A : Obj α) (B : M α) (C : Obj α)

/-- class of an object -/
def Obj.cls : Obj α → Cls
  | dense _ => .dense
  | diagonal _ => .diagonal
  | block D _ _ => .block D
  | hier a b .. => .hier a b
  | tril _ => .tril
  | triu _ => .triu
  | topRight x y ca cc .. => .topRight x y ca cc
  | bottomLeft x y ca cc .. => .bottomLeft x y ca cc

section
variable (st : Fl α → Fl α)

/-- `A @ B` with inner dimension `k` -/
def mm (k : ℕ) (A B : M α) : M α := fun i j => st (Fl.sum k fun t => A i t * B t j)

/-- transpose -/
def tr (A : M α) : M α := fun i j => A j i

/-- a stored sum of two tensors -/
def plus (A B : M α) : M α := fun i j => st (A i j + B i j)

/-- a tensor times a number -/
def times (c : α) (A : M α) : M α := fun i j => st (.fin c * A i j)

/-- `to_dense()` (`dense.py:51-57`, `diagonal.py:107-113`, `blockdiagonal.py:136-157`, `hierarchical.py:168-183`, `triltoeplitz.py:85-97`, `triutoeplitz.py:85-97`, `recursive.py:207-220, 345-358`) -/
def toDense : ℕ → Obj α → M α
  | _, .dense d => d
  | _, .diagonal v => fun i j => if i = j then v i else .fin 0
  | n, .block D b l => fun i j =>
    if i < n / D * D then if i / D = j / D then b (i / D) (i % D) (j % D) else .fin 0 else if n / D * D ≤ j then l (i - n / D * D) (j - n / D * D) else .fin 0
  | n, .hier m1 m2 A B C D E =>
    let (k1, q, _) := Hier.blockDims m1 m2 n
    fun i j => if i < k1 then if j < k1 then A i j else B i (j - k1)
      else if i < k1 + q then if i = j then C (i - k1) else .fin 0
      else if j < k1 then .fin 0 else if j < k1 + q then D (i - (k1 + q)) (j - k1) else E (i - (k1 + q)) (j - (k1 + q))
  | _, .tril v => fun i j => if j ≤ i then v (i - j) else .fin 0
  | _, .triu v => fun i j => if i ≤ j then v (j - i) else .fin 0
  | n, .topRight x y _ _ A B C =>
    let b := Nn.bnd n x y
    fun i j => if i < b then if j < b then toDense b A i j else B i (j - b) else if b ≤ j then toDense (n - b) C (i - b) (j - b) else .fin 0
  | n, .bottomLeft x y _ _ A B C =>
    let b := Nn.bnd n x y
    fun i j => if i < b then if j < b then toDense b A i j else .fin 0 else if j < b then B (i - b) j else toDense (n - b) C (i - b) (j - b)

/-- coefficient `t` of a Toeplitz matrix made from a dense matrix (`triltoeplitz.py:59-83`, `triutoeplitz.py:59-83`, `utils.py:54-80`): the traces of the diagonals `t` and `-t`, stored, and then
divided by their length -/
def coeff (n : ℕ) (d : M α) (t : ℕ) : Fl α :=
  st (.fin (1 / ((n : α) - t)) * st (Fl.sum n fun i => Fl.sum n fun j => if i = j + t ∨ j = i + t then d i j else .fin 0))

/-- `from_dense(mat)` (`dense.py:40-49`, `diagonal.py:92-105`, `blockdiagonal.py:113-134`, `hierarchical.py:146-166`, `triltoeplitz.py:59-83`, `triutoeplitz.py:59-83`, `recursive.py:188-205, 326-343`) -/
def fromDense : Cls → ℕ → M α → Obj α
  | .dense, _, d => .dense d
  | .diagonal, _, d => .diagonal fun i => d i i
  | .block D, n, d => .block D (fun k i j => d (k * D + i) (k * D + j)) fun i j => d (n / D * D + i) (n / D * D + j)
  | .hier m1 m2, n, d =>
    let (k1, q, _) := Hier.blockDims m1 m2 n
    .hier m1 m2 d (fun i j => st (.fin 2 * d i (k1 + j))) (fun i => d (k1 + i) (k1 + i)) (fun i j => st (.fin 2 * d (k1 + q + i) (k1 + j))) fun i j => d (k1 + q + i) (k1 + q + j)
  | .tril, n, d => .tril (coeff st n d)
  | .triu, n, d => .triu (coeff st n d)
  | .topRight x y ca cc, n, d =>
    let b := Nn.bnd n x y
    .topRight x y ca cc (fromDense ca b d) (fun i j => st (d i (b + j) + d (b + j) i)) (fromDense cc (n - b) fun i j => d (b + i) (b + j))
  | .bottomLeft x y ca cc, n, d =>
    let b := Nn.bnd n x y
    .bottomLeft x y ca cc (fromDense ca b d) (fun i j => st (d (b + i) j + d j (b + i))) (fromDense cc (n - b) fun i j => d (b + i) (b + j))

/-- `self @ mat` (`diagonal.py:50-67`, `blockdiagonal.py:159-213`, `hierarchical.py:200-212`, `triltoeplitz.py:138-142`, `triutoeplitz.py:136-138`, `utils.py:83-114`; else `base.py:85-107`). As in
`Nn.matmulT`, implicit padding of convolutions is not multiplied. -/
def matmulT (n : ℕ) (o : Obj α) (X : M α) : M α := match o with
  | .diagonal v => fun i j => st (v i * X i j)
  | .block D b l => fun i j => if i < n / D * D then st (Fl.sum D fun t => b (i / D) (i % D) t * X (i / D * D + t) j)
      else st (Fl.sum (n % D) fun t => l (i - n / D * D) t * X (n / D * D + t) j)
  | .hier m1 m2 A B C D E =>
    let (k1, q, k2) := Hier.blockDims m1 m2 n
    fun i j =>
      if i < k1 then st (st (mm st k1 A X i j + mm st q B (fun t j => X (k1 + t) j) i j) + mm st k2 (fun i t => B i (q + t)) (fun t j => X (k1 + q + t) j) i j)
      else if i < k1 + q then st (C (i - k1) * X i j)
      else st (mm st q D (fun t j => X (k1 + t) j) (i - (k1 + q)) j + mm st k2 E (fun t j => X (k1 + q + t) j) (i - (k1 + q)) j)
  | o => mm st n (toDense n o) X

/-- `self.rmatmat(mat)` (`diagonal.py:115-125`, `blockdiagonal.py:239-249`, `hierarchical.py:266-293`, `triltoeplitz.py:151-169`, `triutoeplitz.py:149-167`; else `base.py:199-209`) -/
def rmatmat (n : ℕ) (o : Obj α) (X : M α) : M α := match o with
  | .diagonal v => matmulT st n (.diagonal v) X
  | .block D b l => matmulT st n (.block D b l) X
  | .hier m1 m2 A B C D E =>
    let (k1, q, k2) := Hier.blockDims m1 m2 n
    fun i j =>
      if i < k1 then mm st k1 (tr A) X i j
      else if i < k1 + q then st (st (mm st k1 (tr B) X (i - k1) j + st (C (i - k1) * X i j)) + mm st k2 (tr D) (fun t j => X (k1 + q + t) j) (i - k1) j)
      else st (mm st k1 (tr fun i t => B i (q + t)) X (i - (k1 + q)) j + mm st k2 (tr E) (fun t j => X (k1 + q + t) j) (i - (k1 + q)) j)
  | o => mm st n (tr (toDense n o)) X

/-- coefficient `t` of a product of Toeplitz matrices: `conv1d` of the coefficients of `self` with the padded coefficients of `other` (`triltoeplitz.py:143-149`, `triutoeplitz.py:140-145`); coefficients
from `n` on have no meaning -/
def conv (n : ℕ) (v w : V α) (t : ℕ) : Fl α :=
  st (if t < n then Fl.sum n fun k => v k * (if k ≤ t then w (t - k) else .fin 0) else Fl.sum n v + Fl.sum (t + 1) w)

/-- `self @ other` for a matrix of the same class (`diagonal.py:50-67`, `blockdiagonal.py:159-213`, `hierarchical.py:214-230`, `triltoeplitz.py:143-149`, `triutoeplitz.py:140-145`; else
`base.py:85-107`) -/
def product (n : ℕ) : Obj α → Obj α → Obj α
  | .diagonal v, .diagonal w => .diagonal fun i => st (v i * w i)
  | .block D b l, .block _ b' l' => .block D (fun k => mm st D (b k) (b' k)) (mm st (n % D) l l')
  | .hier m1 m2 A B C D E, .hier _ _ A' B' C' D' E' =>
    let (k1, q, k2) := Hier.blockDims m1 m2 n
    .hier m1 m2 (mm st k1 A A')
      (fun i j => if j < q then st (st (mm st k1 A B' i j + st (B i j * C' j)) + mm st k2 (fun i t => B i (q + t)) D' i j)
        else st (mm st k1 A B' i j + mm st k2 (fun i t => B i (q + t)) E' i (j - q)))
      (fun i => st (C i * C' i)) (fun i j => st (st (D i j * C' j) + mm st k2 E D' i j)) (mm st k2 E E')
  | .tril v, .tril w => .tril (conv st n v w)
  | .triu v, .triu w => .triu (conv st n v w)
  | o, p => fromDense st o.cls n (mm st n (toDense n o) (toDense n p))

/-- `self.from_inner()` (`diagonal.py:131-149`, `blockdiagonal.py:275-278`, `hierarchical.py:309-318`; else `base.py:270-301`) -/
def inner (n : ℕ) : Obj α → Obj α
  | .diagonal v => .diagonal fun i => st (v i * v i)
  | .block D b l => .block D (fun k => mm st D (b k) (tr (b k))) (mm st (n % D) l (tr l))
  | .hier m1 m2 A B C D E =>
    let (k1, q, k2) := Hier.blockDims m1 m2 n
    let BE : M α := fun i t => B i (q + t)
    .hier m1 m2 (mm st k1 (tr A) A) (mm st k1 (times st 2 (tr A)) B)
      (fun i => st (st (st (C i * C i) + st (Fl.sum k1 fun t => B t i * B t i)) + st (Fl.sum k2 fun t => D t i * D t i)))
      (times st 2 (plus st (mm st k1 (tr BE) B) (mm st k2 (tr E) D))) (plus st (mm st k2 (tr E) E) (mm st k1 (tr BE) BE))
  | o => fromDense st o.cls n (mm st n (tr (toDense n o)) (toDense n o))

/-- `self.from_inner(X)` for `X` with `m` columns (`diagonal.py:131-149`, `blockdiagonal.py:279-303`, `hierarchical.py:319-325`; else `base.py:270-301`) -/
def innerX (n : ℕ) (o : Obj α) (m : ℕ) (X : M α) : Obj α := match o with
  | .diagonal v => .diagonal fun i => st (st (v i * v i) * st (Fl.sum m fun j => X i j * X i j))
  | .hier m1 m2 A B C D E =>
    let (k1, q, _) := Hier.blockDims m1 m2 n
    let S := rmatmat st n (.hier m1 m2 A B C D E) X
    let SC : M α := fun i j => S (k1 + i) j
    let SE : M α := fun i j => S (k1 + q + i) j
    .hier m1 m2 (mm st m S (tr S)) (times st 2 (mm st m S (tr SC))) (fun i => st (Fl.sum m fun j => SC i j * SC i j)) (mm st m (times st 2 SE) (tr SC)) (mm st m SE (tr SE))
  | o =>
    let S := rmatmat st n o X
    fromDense st o.cls n (mm st m S (tr S))

/-- `self.average_trace()` (`diagonal.py:175-181`, `blockdiagonal.py:305-313`, `hierarchical.py:329-341`, `triltoeplitz.py:175-181`, `triutoeplitz.py:173-179`; else `base.py:316-323`) -/
def averageTrace (n : ℕ) : Obj α → Fl α
  | .diagonal v => st (.fin (1 / n) * Fl.sum n v)
  | .block D b l => st (st (Fl.sum (n / D) fun k => Fl.sum D fun i => st (.fin (1 / n) * b k i i)) + st (Fl.sum (n % D) fun i => st (.fin (1 / n) * l i i)))
  | .hier m1 m2 A _ C _ E =>
    let (k1, q, k2) := Hier.blockDims m1 m2 n
    st (st (st (Fl.sum k1 fun i => st (.fin (1 / n) * A i i)) + st (Fl.sum q fun i => st (.fin (1 / n) * C i))) + st (Fl.sum k2 fun i => st (.fin (1 / n) * E i i)))
  | .tril v => v 0
  | .triu v => v 0
  | o => st (.fin (1 / n) * Fl.sum n fun i => toDense n o i i)

/-- `self.add_(other, alpha)`: tensor by tensor (`base.py:181-197`) -/
def add (a : Fl α) : Obj α → Obj α → Obj α
  | .dense d, .dense d' => .dense fun i j => st (d i j + a * d' i j)
  | .diagonal v, .diagonal v' => .diagonal fun i => st (v i + a * v' i)
  | .block D b l, .block _ b' l' => .block D (fun k i j => st (b k i j + a * b' k i j)) fun i j => st (l i j + a * l' i j)
  | .hier m1 m2 A B C D E, .hier _ _ A' B' C' D' E' => .hier m1 m2 (fun i j => st (A i j + a * A' i j)) (fun i j => st (B i j + a * B' i j)) (fun i => st (C i + a * C' i))
      (fun i j => st (D i j + a * D' i j)) fun i j => st (E i j + a * E' i j)
  | .tril v, .tril v' => .tril fun i => st (v i + a * v' i)
  | .triu v, .triu v' => .triu fun i => st (v i + a * v' i)
  | .topRight x y ca cc A B C, .topRight _ _ _ _ A' B' C' => .topRight x y ca cc (add a A A') (fun i j => st (B i j + a * B' i j)) (add a C C')
  | .bottomLeft x y ca cc A B C, .bottomLeft _ _ _ _ A' B' C' => .bottomLeft x y ca cc (add a A A') (fun i j => st (B i j + a * B' i j)) (add a C C')
  | o, _ => o

/-- a tensor with a number added to its diagonal -/
def diagPlus (a : α) (d : M α) : M α := fun i j => if i = j then st (d i j + .fin a) else d i j

/-- `self.diag_add_(number)` (`diagonal.py:183-193`, `blockdiagonal.py:315-330`, `hierarchical.py:343-355`, `triltoeplitz.py:183-193`, `triutoeplitz.py:181-191`; else `base.py:325-343`) -/
def diagAdd (n : ℕ) (a : α) : Obj α → Obj α
  | .dense d => .dense (diagPlus st a d)
  | .diagonal v => .diagonal fun i => st (v i + .fin a)
  | .block D b l => .block D (fun k => diagPlus st a (b k)) (diagPlus st a l)
  | .hier m1 m2 A B C D E => .hier m1 m2 (diagPlus st a A) B (fun i => st (C i + .fin a)) D (diagPlus st a E)
  | .tril v => .tril fun t => if t = 0 then st (v t + .fin a) else v t
  | .triu v => .triu fun t => if t = 0 then st (v t + .fin a) else v t
  | .topRight x y ca cc A B C => fromDense st (.topRight x y ca cc) n (diagPlus st a (toDense n (.topRight x y ca cc A B C)))
  | .bottomLeft x y ca cc A B C => fromDense st (.bottomLeft x y ca cc) n (diagPlus st a (toDense n (.bottomLeft x y ca cc A B C)))

/-- `self.mul_(number)`: tensor by tensor (`base.py:161-179`) -/
def scale (c : α) : Obj α → Obj α
  | .dense d => .dense (times st c d)
  | .diagonal v => .diagonal fun i => st (.fin c * v i)
  | .block D b l => .block D (fun k => times st c (b k)) (times st c l)
  | .hier m1 m2 A B C D E => .hier m1 m2 (times st c A) (times st c B) (fun i => st (.fin c * C i)) (times st c D) (times st c E)
  | .tril v => .tril fun i => st (.fin c * v i)
  | .triu v => .triu fun i => st (.fin c * v i)
  | .topRight x y ca cc A B C => .topRight x y ca cc (scale c A) (times st c B) (scale c C)
  | .bottomLeft x y ca cc A B C => .bottomLeft x y ca cc (scale c A) (times st c B) (scale c C)

/-- `cls.zeros(n)` (`base.py:373-392` and class files) -/
def zeros : Cls → ℕ → Obj α := fun c n => fromDense st c n fun _ _ => .fin 0

end

/-- what is kept for a layer: factors, momenta, statistics, parameters, momentum buffers -/
structure Lay (α : Type) where
  K : Obj α
  C : Obj α
  mK : Obj α
  mC : Obj α
  H : Option (Obj α × Obj α)
  W : M α
  P : M α

/-- hyper-parameters in a step. `unscale`: `prev_grad_scale / grad_scale ** 2`; `inv`: `1 / grad_scale`; `half`: `0.5 * (1 - alpha1 if normalize_lr_cov else 1)`; `norms`: the two norms if
`normalize_lr_cov` is on -/
structure Hyp (α : Type) where
  kfac : Bool
  alpha1 : α
  damping : α
  half : α
  lrCov : α
  norms : Option (Fl α × Fl α)
  momentum : α
  weightDecay : α
  lr : α
  unscale : α
  inv : α

section
variable (st : Fl α → Fl α)

/-- the hook of a backward pass (`optimizer.py:608-635`), from the processed input (`m` rows, transposed) and output gradient (`m'` rows, transposed) on; `c`: `1 / sqrt(prev_grad_scale)` -/
def backward (n d : ℕ) (m : ℕ) (X : M α) (m' : ℕ) (g : M α) (c : α) (l : Lay α) : Lay α :=
  let HK := innerX st n l.K m X
  let HC := innerX st d l.C m' (times st c g)
  { l with H := some (match l.H with
    | none => (HK, HC)
    | some (HK₀, HC₀) => (add st (.fin 1) HK₀ HK, add st (.fin 1) HC₀ HC)) }

/-- the new momentum of a factor before the old one is added (`optimizer.py:506-519`); `a`, `γ`: coefficients of statistics and of damping -/
def newMomentum (n : ℕ) (c : Cls) (h : Hyp α) (H : Obj α) (a : Fl α) (I : Obj α) (γ : Fl α) : Obj α :=
  scale st h.half (diagAdd st n (-1) (add st γ (add st a (zeros st c n) H) I))

/-- `_update_preconditioner` (`optimizer.py:466-546`) in a step that updates. Without statistics it raises, here: leaves the layer as it is. -/
def update (n d : ℕ) (h : Hyp α) (l : Lay α) : Lay α := match l.H with
  | none => l
  | some (HK, HC) =>
    let KtK := inner st n l.K
    let CtC := inner st d l.C
    let nK := newMomentum st n l.K.cls h HK (if h.kfac then .fin 1 else st (.fin h.unscale * averageTrace st d HC)) KtK
      (if h.kfac then .fin h.damping else st (.fin h.damping * averageTrace st d CtC))
    let nC := newMomentum st d l.C.cls h HC (if h.kfac then .fin h.unscale else st (.fin h.unscale * averageTrace st n HK)) CtC
      (if h.kfac then .fin h.damping else st (.fin h.damping * averageTrace st n KtK))
    let mK := if h.alpha1 ≠ 0 then add st (.fin h.alpha1) nK l.mK else nK
    let mC := if h.alpha1 ≠ 0 then add st (.fin h.alpha1) nC l.mC else nC
    let βK := h.norms.elim h.lrCov fun ν => Fl.rate h.lrCov ν.1
    let βC := h.norms.elim h.lrCov fun ν => Fl.rate h.lrCov ν.2
    { l with
      H := none
      K := add st (.fin (-βK)) l.K (product st n l.K mK)
      C := add st (.fin (-βC)) l.C (product st d l.C mC)
      mK := if h.alpha1 ≠ 0 then mK else l.mK
      mC := if h.alpha1 ≠ 0 then mC else l.mC }

/-- `_compute_natural_gradient` (`optimizer.py:681-712`) -/
def natGrad (n d : ℕ) (h : Hyp α) (l : Lay α) (G : M α) : M α :=
  matmulT st d l.C (rmatmat st d l.C (tr (matmulT st n l.K (rmatmat st n l.K (tr (times st h.inv G))))))

/-- `_step` for the layer with the gradient `G` (`optimizer.py:783-814`); `due`: whether the pre-conditioner is updated in this step -/
def step (n d : ℕ) (h : Hyp α) (due : Bool) (G : M α) (l : Lay α) : Lay α :=
  let l := if due then update st n d h l else l
  let N := natGrad st n d h l G
  let s : M α := fun i j => if h.weightDecay ≠ 0 then st (N i j + .fin h.weightDecay * l.W i j) else N i j
  let P : M α := if h.momentum ≠ 0 then fun i j => st (st (.fin h.momentum * l.P i j) + s i j) else l.P
  { l with W := fun i j => st (l.W i j + .fin (-h.lr) * (if h.momentum ≠ 0 then P i j else s i j)), P := P }

/-- operations on a layer: a backward pass; a step that the gradient scaler reports as infinite (`optimizer.py:763-774`); a step; assignment of parameters -/
inductive Op (α : Type) where
  | backward (m : ℕ) (X : M α) (m' : ℕ) (g : M α) (c : α)
  | skip
  | step (h : Hyp α) (due : Bool) (G : M α)
  | setParam (W : M α)

/-- one operation -/
def exec (n d : ℕ) (l : Lay α) : Op α → Lay α
  | .backward m X m' g c => backward st n d m X m' g c l
  | .skip => { l with H := none }
  | .step h due G => step st n d h due G l
  | .setParam W => { l with W := W }

/-- operations in the given order -/
def run (n d : ℕ) (l : Lay α) (ops : List (Op α)) : Lay α := ops.foldl (exec st n d) l

end

end Ov
