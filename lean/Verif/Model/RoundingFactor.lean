import Verif.Model.Rounding
import Verif.Spec

/-!
Rounding in the update of a factor (`optimizer.py:528-548`), with the arithmetic of `Verif.Model.Rounding`. Given are the factor `K` and the
new momentum `M` as stored, any structured matrix of the class; its computation is described in `Model/RoundingUpdate.lean`.
-/

variable {α : Type} [Field α] [LinearOrder α]

/-- the numbers added for coefficient `k` by `from_dense` of the Toeplitz classes: entries of the `k`-th lower and upper diagonal
(`triltoeplitz.py:72-80`, `structures/utils.py:77-79`) -/
def diagTerms (Q : Mat α) (n k : ℕ) : List (α × α) :=
  if k = 0 then (List.range n).map fun i => (Q.get i i, 1)
  else ((List.range (n - k)).map fun i => (Q.get i (i + k), 1)) ++ (List.range (n - k)).map fun i => (Q.get (i + k) i, 1)

/-- `from_dense` of the Toeplitz classes with rounding (`triltoeplitz.py:59-83`, `triutoeplitz.py:59-83`): sums in any order
(`scatter_add_` does not specify one), then a division by an integer -/
def FToeplitz (u : α) (Q : Mat α) (d : Vec α) : Prop := d.len = Q.rows ∧ ∀ k < Q.rows, ∃ s,
  Dot u (2 * Q.rows + 1) (diagTerms Q Q.rows k) s ∧ Rnd u (s / ((Q.rows - k : ℕ) : α)) (d.get k)

namespace SM

/-- `cls.from_dense(Q)` with rounding. Most classes copy entries or multiply them by two (converted to another type or not); recursive classes add
entries (`recursive.py:188-205, 326-343`), Toeplitz classes average diagonals. -/
def FFromDense (u : α) : Cls → Mat α → SM α → Prop
  | .tril, Q, P => ∃ d, P = .tril d ∧ FToeplitz u Q d
  | .triu, Q, P => ∃ d, P = .triu d ∧ FToeplitz u Q d
  | .topRight x y ca cc, Q, P => ∃ (b : ℕ) (A C : SM α) (B S : Mat α), getBoundary Q.rows x y = .ok b ∧ P = .topRight x y ca cc A B C ∧
    FFromDense u ca (Q.slice 0 b 0 b) A ∧ FFromDense u cc (Q.slice b Q.rows b Q.cols) C ∧
    Mat.add? (Q.slice 0 b b Q.cols) (Q.slice b Q.rows 0 b).T = .ok S ∧ S.Cast u B
  | .bottomLeft x y ca cc, Q, P => ∃ (b : ℕ) (A C : SM α) (B S : Mat α), getBoundary Q.rows x y = .ok b ∧ P = .bottomLeft x y ca cc A B C ∧
    FFromDense u ca (Q.slice 0 b 0 b) A ∧ FFromDense u cc (Q.slice b Q.rows b Q.cols) C ∧
    Mat.add? (Q.slice b Q.rows 0 b) (Q.slice 0 b b Q.cols).T = .ok S ∧ S.Cast u B
  | .dense, Q, P => ∃ P0, SM.fromDense .dense Q = .ok P0 ∧ P0.Cast u P
  | .diagonal, Q, P => ∃ P0, SM.fromDense .diagonal Q = .ok P0 ∧ P0.Cast u P
  | .block D, Q, P => ∃ P0, SM.fromDense (.block D) Q = .ok P0 ∧ P0.Cast u P
  | .hier a b, Q, P => ∃ P0, SM.fromDense (.hier a b) Q = .ok P0 ∧ P0.Cast u P
end SM

/-- `K @ M` with rounding (`base.py:99-106`, `blockdiagonal.py:209-215`, `diagonal.py:66-67`, `hierarchical.py:213-229`,
`triltoeplitz.py:144-149`, `triutoeplitz.py:144-149`): the operands are converted, every entry is a rounded sum of products, the result is
converted. The recursive classes inherit the product of the base class, which sends the dense product through `from_dense`. Simplified: all
classes are described by their dense matrices (terms with a zero are listed, too). -/
def SM.FProduct (u : α) (c : Cls) (n : ℕ) (K M P : SM α) : Prop := WF c n P ∧ ∃ (K' M' : SM α) (Q : Mat α), K.Cast u K' ∧ M.Cast u M' ∧
  Q.rows = n ∧ Q.cols = n ∧ (∀ i < n, ∀ j < n, Dot u (2 * n + 2) (K'.toDense.terms M'.toDense i j) (Q.get i j)) ∧
  match c with
  | .topRight x y ca cc => ∃ P', SM.FFromDense u (.topRight x y ca cc) Q P' ∧ P'.Cast u P
  | .bottomLeft x y ca cc => ∃ P', SM.FFromDense u (.bottomLeft x y ca cc) Q P' ∧ P'.Cast u P
  | _ => ∀ i < n, ∀ j < n, Rnd u (Q.get i j) (P.toDense.get i j)

/-- `beta1_K /= max(1.0, new_m_K.infinity_vector_norm())` (`optimizer.py:528-543`): the division rounds, and so does the conversion of the
rate to the type of the factor. Norm and maximum are exact. -/
def FRate (u : α) (h : Hyper α) (t : ℕ) (M : SM α) (b : α) : Prop := ∃ b0 q, factorRate h t M = .ok b0 ∧ Rnd u b0 q ∧ Rnd u q b

/-- `self.Ks[module_name].add_(K @ new_m_K, alpha=-beta1_K)` (`optimizer.py:545-546`) with rounding: `K` becomes `K'` -/
def FFactor (u : α) (h : Hyper α) (t : ℕ) (c : Cls) (n : ℕ) (K M K' : SM α) : Prop := WF c n K' ∧ ∃ (b : α) (P : SM α), FRate u h t M b ∧
  SM.FProduct u c n K M P ∧ ∀ i < n, ∀ j < n, FAxpy u (K.toDense.get i j) (-b) (P.toDense.get i j) (K'.toDense.get i j)
