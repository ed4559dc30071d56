import Verif.Model.Overflow
import Verif.Model.StructUtils
import Mathlib.Algebra.Order.Group.Abs

/-!
# The norm of `normalize_lr_cov` with infinite values and NaN

`infinity_vector_norm` takes torch's maximum of every tensor and Python's maximum of these.
-/

namespace Fl

variable {α : Type} [Field α] [LinearOrder α]

/-- absolute value -/
def abs : Fl α → Fl α
  | fin x => fin |x|
  | inf _ => inf false
  | nan => nan

/-- IEEE 754 comparison `<`: false if an operand is NaN -/
def lt : Fl α → Fl α → Bool
  | fin x, fin y => decide (x < y)
  | fin _, inf s => !s
  | inf s, fin _ => s
  | inf s, inf s' => s && !s'
  | _, _ => false

/-- one step of torch's `max`: NaN wins -/
def tstep : Fl α → Fl α → Fl α
  | nan, _ => nan
  | _, nan => nan
  | x, y => if x.lt y then y else x

/-- `t.abs().max()` of a tensor with the given entries (`base.py:358`); torch raises for an empty one, which is never asked for -/
def tmax (l : List (Fl α)) : Fl α := match l.map abs with
  | [] => nan
  | x :: xs => xs.foldl tstep x

/-- one step of Python's `max`: a new value wins if it is larger -/
def pstep (x y : Fl α) : Fl α := if x.lt y then y else x

/-- `max(t.abs().max() for _, t in self.named_tensors() if t.numel() > 0)` (`base.py:357-358`); `ts`: the entries of the tensors. Without a non-empty tensor it raises (`none`). -/
def norm (ts : List (List (Fl α))) : Option (Fl α) := match ts.filter (fun l => !l.isEmpty) with
  | [] => none
  | t :: ts => some ((ts.map tmax).foldl pstep (tmax t))

end Fl

namespace Ov

variable {α : Type} [Field α] [LinearOrder α]

/-- entries of a matrix with `r` rows and `c` columns -/
def entries (r c : ℕ) (A : M α) : List (Fl α) := (rowMajor r c).map fun p => A p.1 p.2

/-- entries of `named_tensors()`, tensor by tensor, in the order of registration (`dense.py:37`, `diagonal.py:48`, `blockdiagonal.py:106-110`, `hierarchical.py:130-143`, `triltoeplitz.py:56`,
`triutoeplitz.py:56`; recursive classes yield their own tensor `B` first, then those of `A` and `C`, `recursive.py:54-59`) -/
def parts : ℕ → Obj α → List (List (Fl α))
  | n, .dense d => [entries n n d]
  | n, .diagonal v => [(List.range n).map v]
  | n, .block D b l => [(List.range (n / D)).flatMap fun k => entries D D (b k), entries (n % D) (n % D) l]
  | n, .hier m1 m2 A B C D E =>
    let (k1, q, k2) := Hier.blockDims m1 m2 n
    [entries k1 k1 A, entries k1 (q + k2) B, (List.range q).map C, entries k2 q D, entries k2 k2 E]
  | n, .tril v => [(List.range n).map v]
  | n, .triu v => [(List.range n).map v]
  | n, .topRight x y _ _ A B C =>
    let b := Nn.bnd n x y
    entries b (n - b) B :: (parts b A ++ parts (n - b) C)
  | n, .bottomLeft x y _ _ A B C =>
    let b := Nn.bnd n x y
    entries (n - b) b B :: (parts b A ++ parts (n - b) C)

/-- `self.infinity_vector_norm()` (`base.py:345-358`) -/
def infNorm (n : ℕ) (o : Obj α) : Option (Fl α) := Fl.norm (parts n o)

/-- the momenta of an update, whose norms are taken (`optimizer.py:488-527`); without statistics the update raises, here: the old ones -/
def momentaOf (st : Fl α → Fl α) (n d : ℕ) (h : Hyp α) (l : Lay α) : Obj α × Obj α := match l.H with
  | none => (l.mK, l.mC)
  | some (HK, HC) =>
    let KtK := inner st n l.K
    let CtC := inner st d l.C
    let nK := newMomentum st n l.K.cls h HK (if h.kfac then .fin 1 else st (.fin h.unscale * averageTrace st d HC)) KtK
      (if h.kfac then .fin h.damping else st (.fin h.damping * averageTrace st d CtC))
    let nC := newMomentum st d l.C.cls h HC (if h.kfac then .fin h.unscale else st (.fin h.unscale * averageTrace st n HK)) CtC
      (if h.kfac then .fin h.damping else st (.fin h.damping * averageTrace st n KtK))
    (if h.alpha1 ≠ 0 then add st (.fin h.alpha1) nK l.mK else nK, if h.alpha1 ≠ 0 then add st (.fin h.alpha1) nC l.mC else nC)

/-- the hyper-parameters of a step with the norms that the code computes (`optimizer.py:541-543`), if `normalize_lr_cov` is on. A norm that raises (a factor without entries) is NaN here. -/
def Hyp.normed (st : Fl α → Fl α) (n d : ℕ) (h : Hyp α) (l : Lay α) : Hyp α :=
  { h with norms := h.norms.map fun _ => ((infNorm n (momentaOf st n d h l).1).getD .nan, (infNorm d (momentaOf st n d h l).2).getD .nan) }

/-- one operation, with computed norms -/
def execN (st : Fl α → Fl α) (n d : ℕ) (l : Lay α) : Op α → Lay α
  | .step h due G => exec st n d l (.step (h.normed st n d l) due G)
  | op => exec st n d l op

/-- a history with computed norms -/
def runN (st : Fl α → Fl α) (n d : ℕ) (l : Lay α) (ops : List (Op α)) : Lay α := ops.foldl (execN st n d) l

end Ov
