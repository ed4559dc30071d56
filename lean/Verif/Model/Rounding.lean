import Verif.Model.Structured
import Verif.Model.Optimizer

/-!
Rounding. The other models compute in a field. Here the computation of the applied direction and of a parameter update
(`optimizer.py:666-815`) is modelled with rounded arithmetic. The model is a relation between inputs and possible results:

* every arithmetic operation returns any number within relative distance `u` of the exact result (`u` is the unit round-off of the
  coarsest type involved). This covers all rounding modes, and different precisions in different places;
* sums of products (`matmul`, `einsum`, `conv1d`) may be evaluated in any order, blocked, with fused multiply-add, or with exact
  (wider) accumulators, as BLAS libraries do;
* conversions between types (`.to(dtype)`) round, or do nothing.

Overflow, underflow and `nan` are not modelled: the exponent range is unbounded.
-/

variable {α : Type} [Field α] [LinearOrder α]

/-- `y` is a rounded value of `x` -/
def Rnd (u x y : α) : Prop := |y - x| ≤ u * |x|

/-- `Dot u k ts y`: `y` is a result of summing the products of the pairs `ts` in some order, with at most `k` roundings between
an input and the result. -/
inductive Dot (u : α) : ℕ → List (α × α) → α → Prop
  /-- nothing to add -/
  | nil : Dot u 0 [] 0
  /-- a single product -/
  | mul {a b y : α} (h : Rnd u (a * b) y) : Dot u 1 [(a, b)] y
  /-- the sum of two partial results -/
  | add {k : ℕ} {xs zs : List (α × α)} {y z s : α} (hx : Dot u k xs y) (hz : Dot u k zs z) (h : Rnd u (y + z) s) :
      Dot u (k + 1) (xs ++ zs) s
  /-- fused multiply-add -/
  | fma {k : ℕ} {xs : List (α × α)} {a b y s : α} (hx : Dot u k xs y) (h : Rnd u (y + a * b) s) : Dot u (k + 1) (xs ++ [(a, b)]) s
  /-- another order of the terms -/
  | perm {k : ℕ} {xs zs : List (α × α)} {y : α} (h : xs.Perm zs) (hx : Dot u k xs y) : Dot u k zs y
  /-- fewer roundings than allowed -/
  | weaken {k l : ℕ} {xs : List (α × α)} {y : α} (h : k ≤ l) (hx : Dot u k xs y) : Dot u l xs y

/-- `t.to(dtype)` -/
structure Mat.Cast (u : α) (A B : Mat α) : Prop where
  rows : B.rows = A.rows
  cols : B.cols = A.cols
  get : ∀ i j, Rnd u (A.get i j) (B.get i j)

/-- `t.to(dtype)` for a vector -/
structure Vec.Cast (u : α) (v w : Vec α) : Prop where
  len : w.len = v.len
  get : ∀ i, Rnd u (v.get i) (w.get i)

/-- `t.to(dtype)` for a stack of matrices -/
structure T3.Cast (u : α) (A B : T3 α) : Prop where
  d0 : B.d0 = A.d0
  d1 : B.d1 = A.d1
  d2 : B.d2 = A.d2
  get : ∀ n i j, Rnd u (A.get n i j) (B.get n i j)

/-- the tensors of a structured matrix, converted -/
def SM.Cast (u : α) : SM α → SM α → Prop
  | .dense m, .dense m' => m.Cast u m'
  | .diagonal d, .diagonal d' => d.Cast u d'
  | .block b, .block b' => b'.D = b.D ∧ b.blocks.Cast u b'.blocks ∧ b.last.Cast u b'.last
  | .hier h, .hier h' => h'.max1 = h.max1 ∧ h'.max2 = h.max2 ∧ h.A.Cast u h'.A ∧ h.B.Cast u h'.B ∧ h.C.Cast u h'.C ∧ h.D.Cast u h'.D ∧
    h.E.Cast u h'.E
  | .tril d, .tril d' => d.Cast u d'
  | .triu d, .triu d' => d.Cast u d'
  | .topRight x y ca cc A B C, .topRight x' y' ca' cc' A' B' C' => (x' = x ∧ y' = y ∧ ca' = ca ∧ cc' = cc) ∧ A.Cast u A' ∧ B.Cast u B' ∧ C.Cast u C'
  | .bottomLeft x y ca cc A B C, .bottomLeft x' y' ca' cc' A' B' C' =>
    (x' = x ∧ y' = y ∧ ca' = ca ∧ cc' = cc) ∧ A.Cast u A' ∧ B.Cast u B' ∧ C.Cast u C'
  | _, _ => False

/-- pairs of factors of row `i` of `A` and column `j` of `X` -/
def Mat.terms (A X : Mat α) (i j : ℕ) : List (α × α) := (List.range A.cols).map fun k => (A.get i k, X.get k j)

/-- pairs of factors multiplied and added for entry `(i, j)` of `self @ X` (`blockdiagonal.py:176-208`) -/
def BlockDiag.terms (b : BlockDiag α) (X : Mat α) (i j : ℕ) : List (α × α) :=
  if i < b.blocks.d0 * b.D then (List.range b.D).map fun k => (b.blocks.get (i / b.D) (i % b.D) k, X.get (i / b.D * b.D + k) j)
  else (List.range b.last.cols).map fun k => (b.last.get (i - b.blocks.d0 * b.D) k, X.get (b.blocks.d0 * b.D + k) j)

/-- pairs of factors multiplied and added for entry `(i, j)` of `self @ X` (`hierarchical.py:199-211`) -/
def Hier.terms (h : Hier α) (X : Mat α) (i j : ℕ) : List (α × α) :=
  if i < h.K1 then
    ((List.range h.K1).map fun k => (h.A.get i k, X.get k j)) ++
    ((List.range h.diagDim).map fun k => (h.B.get i k, X.get (h.K1 + k) j)) ++
    ((List.range h.K2).map fun k => (h.B.get i (h.diagDim + k), X.get (h.K1 + h.diagDim + k) j))
  else if i < h.K1 + h.diagDim then [(h.C.get (i - h.K1), X.get i j)]
  else
    ((List.range h.diagDim).map fun k => (h.D.get (i - h.K1 - h.diagDim) k, X.get (h.K1 + k) j)) ++
    ((List.range h.K2).map fun k => (h.E.get (i - h.K1 - h.diagDim) k, X.get (h.K1 + h.diagDim + k) j))

/-- pairs of factors multiplied and added for entry `(i, j)` of `self.rmatmat(X)` (`hierarchical.py:266-293`) -/
def Hier.rterms (h : Hier α) (X : Mat α) (i j : ℕ) : List (α × α) :=
  if i < h.K1 then (List.range h.K1).map fun k => (h.A.get k i, X.get k j)
  else if i < h.K1 + h.diagDim then
    ((List.range h.K1).map fun k => (h.B.get k (i - h.K1), X.get k j)) ++ [(h.C.get (i - h.K1), X.get i j)] ++
    ((List.range h.K2).map fun k => (h.D.get k (i - h.K1), X.get (h.K1 + h.diagDim + k) j))
  else
    ((List.range h.K1).map fun k => (h.B.get k (i - h.K1), X.get k j)) ++
    ((List.range h.K2).map fun k => (h.E.get k (i - h.K1 - h.diagDim), X.get (h.K1 + h.diagDim + k) j))

/-- pairs of factors multiplied and added for entry `(i, j)` of `toeplitz_matmul(w, X)`: a convolution of the zero-padded column
with the coefficients (`structures/utils.py:83-114`) -/
def convTerms (w : Vec α) (X : Mat α) (i j : ℕ) : List (α × α) :=
  (List.range w.len).map fun k => (w.get k, if X.rows - 1 ≤ i + k then X.get (i + k - (X.rows - 1)) j else 0)

namespace SM

/-- pairs of factors multiplied and added for entry `(i, j)` of `self @ X` (see `SM.matmulT`) -/
def terms (K : SM α) (X : Mat α) (i j : ℕ) : List (α × α) := match K with
  | .diagonal d => [(d.get i, X.get i j)]
  | .block b => b.terms X i j
  | .hier h => h.terms X i j
  | .tril d => convTerms (d.flip.cat (Vec.zeros (d.len - 1))) X i j
  | .triu d => convTerms ((Vec.zeros (d.len - 1)).cat d) X i j
  | K => K.toDense.terms X i j

/-- pairs of factors multiplied and added for entry `(i, j)` of `self.rmatmat(X)` (see `SM.rmatmat`) -/
def rterms (K : SM α) (X : Mat α) (i j : ℕ) : List (α × α) := match K with
  | .diagonal d => [(d.get i, X.get i j)]
  | .block b => b.terms X i j
  | .hier h => h.rterms X i j
  | .tril d => convTerms ((Vec.zeros (d.len - 1)).cat d) X i j
  | .triu d => convTerms (d.flip.cat (Vec.zeros (d.len - 1))) X i j
  | K => K.toDense.T.terms X i j

/-- Longest chain of roundings in a product: at most one per term of a dot product, and two more for the sums of partial products of
hierarchical matrices. -/
def chain (K : SM α) : ℕ := match K with
  | .diagonal _ => 1
  | .block b => max b.D b.last.cols
  | .hier h => h.dim + 2
  | .tril d => 2 * d.len - 1
  | .triu d => 2 * d.len - 1
  | K => K.toDense.cols

/-- `self @ X` with rounding: operands are converted, multiplied, the result is converted (`blockdiagonal.py:186-208`,
`diagonal.py:64`, `hierarchical.py:199-211`, `utils.py:83-114`, `base.py:99-103`) -/
def FMatmul (u : α) (K : SM α) (X Y : Mat α) : Prop := ∃ (K' : SM α) (X' Y' : Mat α), K.Cast u K' ∧ X.Cast u X' ∧ Y'.Cast u Y ∧
  Y'.rows = X.rows ∧ Y'.cols = X.cols ∧ ∀ i < X.rows, ∀ j < X.cols, Dot u K'.chain (K'.terms X' i j) (Y'.get i j)

/-- `self.rmatmat(X)` with rounding -/
def FRmatmat (u : α) (K : SM α) (X Y : Mat α) : Prop := ∃ (K' : SM α) (X' Y' : Mat α), K.Cast u K' ∧ X.Cast u X' ∧ Y'.Cast u Y ∧
  Y'.rows = X.rows ∧ Y'.cols = X.cols ∧ ∀ i < X.rows, ∀ j < X.cols, Dot u K'.chain (K'.rterms X' i j) (Y'.get i j)
end SM

/-- `_compute_natural_gradient` with rounding (`optimizer.py:692-713`), from the concatenated gradient `G` to the natural gradient `N`.
Division by the scale rounds (the code skips it for scale 1), all conversions round. Single process. -/
def FNatGrad (u : α) (K C : SM α) (s : α) (G N : Mat α) : Prop := ∃ G1 G2 R1 R2 R3 R4 R5 : Mat α,
  (G1.rows = G.rows ∧ G1.cols = G.cols ∧ ∀ i j, Rnd u (G.get i j / s) (G1.get i j)) ∧ G1.T.Cast u G2 ∧
  K.FRmatmat u G2 R1 ∧ K.FMatmul u R1 R2 ∧ R2.T.Cast u R3 ∧ C.FRmatmat u R3 R4 ∧ C.FMatmul u R4 R5 ∧ R5.Cast u N

/-- `x.add(y, alpha=a)` on one entry -/
def FAxpy (u x a y z : α) : Prop := ∃ t, Rnd u (a * y) t ∧ Rnd u (x + t) z

/-- One entry of the loop over parameters in `_step` (`optimizer.py:797-814`) with rounding: value `p`, momentum buffer `b` (0 if there is
none yet), natural gradient `n`; new value `p'` and buffer `b'`. -/
def FParam (u : α) (h : Hyper α) (p b n p' b' : α) : Prop := ∃ step,
  (if h.weightDecay ≠ 0 then FAxpy u n h.weightDecay p step else step = n) ∧
  (if h.momentum ≠ 0 then (∃ t, Rnd u (b * h.momentum) t ∧ Rnd u (t + step) b') ∧ FAxpy u p (-h.lr) b' p'
    else b' = b ∧ FAxpy u p (-h.lr) step p')
