import Verif.Model.RoundingFactor

/-!
Rounding in everything that leads to the update of the factors: statistics of a mini-batch and their accumulation
(`optimizer.py:608-635`), inner products of the factors, traces, new momenta (`optimizer.py:483-527`), rate and update (`optimizer.py:528-546`,
`Model/RoundingFactor.lean`), with the arithmetic of `Model/Rounding.lean`. Single process. The description begins with the processed inputs and
gradients. As there, a relation between inputs and possible results.
-/

variable {α : Type} [Field α] [LinearOrder α]

namespace SM

/-- `self.from_inner(X)` of diagonal matrices with rounding (`diagonal.py:131-149`): squares, sums of squares, products -/
def FInnerDiag (u : α) (d : Vec α) (X : Option (Mat α)) (e : Vec α) : Prop := e.len = d.len ∧ ∀ i < d.len, ∃ q, Rnd u (d.get i * d.get i) q ∧
  match X with
  | none => e.get i = q
  | some X => ∃ s, Dot u X.cols ((List.range X.cols).map fun j => (X.get i j, X.get i j)) s ∧ Rnd u (q * s) (e.get i)

/-- `self.from_inner(X)` with rounding (`base.py:270-301`, `blockdiagonal.py:255-303`, `hierarchical.py:299-327`): the product `S` with `X`, the inner
products `Q` of its rows, and `from_dense`. Without `X`, `S` is the (transposed) matrix itself. Simplified: `Q` is described as a whole and
through sums that also list products with zeros, of which block-diagonal and hierarchical classes compute a part only; products that were
not computed have no influence. Doubling does not round. -/
def FInner (u : α) (K : SM α) (X : Option (Mat α)) (H : SM α) : Prop := match K with
  | .diagonal d => ∃ e, H = .diagonal e ∧ FInnerDiag u d X e
  | K => ∃ S Q : Mat α, (match X with
      | none => S = match K with
        | .block b => b.toDense
        | K => K.toDense.T
      | some X => K.FRmatmat u X S) ∧ Q.rows = S.rows ∧ Q.cols = S.rows ∧
    (∀ i < S.rows, ∀ j < S.rows, Dot u (S.cols + 2) (S.terms S.T i j) (Q.get i j)) ∧ FFromDense u K.cls Q H

/-- `self.average_trace()` with rounding: the mean of the diagonal as a sum of quotients (`blockdiagonal.py:311-313`, `hierarchical.py:335-341`) or a
quotient of a sum (`base.py:323`, `diagonal.py:181`); the first coefficient of Toeplitz matrices (`triltoeplitz.py:181`, `triutoeplitz.py:179`) -/
def FTrace (u : α) (n : ℕ) (A : SM α) (t : α) : Prop := match A with
  | .tril d => t = d.get 0
  | .triu d => t = d.get 0
  | A => Dot u (n + 2) ((List.range n).map fun i => (A.toDense.get i i, 1 / (n : α))) t ∨
    ∃ s, Dot u (n + 1) ((List.range n).map fun i => (A.toDense.get i i, 1)) s ∧ Rnd u (s / n) t

/-- `self.add_(other, alpha=a)` with rounding (`base.py:181-198`), on the entries of the represented matrices -/
def FAdd (u : α) (c : Cls) (n : ℕ) (A : SM α) (a : α) (B A' : SM α) : Prop := WF c n A' ∧
  ∀ i < n, ∀ j < n, FAxpy u (A.toDense.get i j) a (B.toDense.get i j) (A'.toDense.get i j)

/-- `self.mul_(a)` with rounding (`base.py:155-168`) -/
def FMul (u : α) (c : Cls) (n : ℕ) (A : SM α) (a : α) (A' : SM α) : Prop := WF c n A' ∧
  ∀ i < n, ∀ j < n, Rnd u (A.toDense.get i j * a) (A'.toDense.get i j)

/-- `self.diag_add_(a)` with rounding. The base class goes through a dense matrix and `from_dense` (`base.py:325-343`, for dense and recursive classes), the
others add to their diagonals (`diagonal.py:183-193`, `blockdiagonal.py:315-329`, `hierarchical.py:343-355`, `triltoeplitz.py:183-193`,
`triutoeplitz.py:181-191`). -/
def FDiagAdd (u : α) (c : Cls) (n : ℕ) (A : SM α) (a : α) (A' : SM α) : Prop :=
  let added (D : Mat α) := ∀ i < n, ∀ j < n, if i = j then Rnd u (A.toDense.get i i + a) (D.get i i) else D.get i j = A.toDense.get i j
  match c with
  | .dense => ∃ D : Mat α, D.rows = n ∧ D.cols = n ∧ added D ∧ FFromDense u .dense D A'
  | .topRight x y ca cc => ∃ D : Mat α, D.rows = n ∧ D.cols = n ∧ added D ∧ FFromDense u (.topRight x y ca cc) D A'
  | .bottomLeft x y ca cc => ∃ D : Mat α, D.rows = n ∧ D.cols = n ∧ added D ∧ FFromDense u (.bottomLeft x y ca cc) D A'
  | c => WF c n A' ∧ added A'.toDense

/-- Accumulation of the statistics of several mini-batches with rounding (`optimizer.py:608, 629-635`): the first one is stored, later ones are added.
The list has the last one first. -/
inductive FStat (u : α) (c : Cls) (n : ℕ) (K : SM α) : List (Mat α) → SM α → Prop
  | first {X : Mat α} {H : SM α} (h : K.FInner u (some X) H) : FStat u c n K [X] H
  | next {X : Mat α} {Xs : List (Mat α)} {H B H' : SM α} (h : FStat u c n K Xs H) (hB : K.FInner u (some X) B) (hw : WF c n H')
      (ha : ∀ i < n, ∀ j < n, Rnd u (H.toDense.get i j + B.toDense.get i j) (H'.toDense.get i j)) : FStat u c n K (X :: Xs) H'
end SM

/-- `g / sqrt(prev_grad_scale)` with rounding (`optimizer.py:612-618`), for one entry; the code skips it for scale 1 -/
def FDescale [HasSqrt α] (u p g g' : α) : Prop := ∃ r, Rnd u (HasSqrt.sqrt p) r ∧ Rnd u (g / r) g'

/-- `prev_grad_scale / grad_scale**2` with rounding (`optimizer.py:482`) -/
def FUnscale (u p s v : α) : Prop := ∃ q, Rnd u (s ^ 2) q ∧ Rnd u (p / q) v

/-- a number computed in one type and converted to another one -/
def Rnd2 (u x y : α) : Prop := ∃ z, Rnd u x z ∧ Rnd u z y

/-- The new momentum of a factor with rounding (`optimizer.py:505-511, 522-527`, `514-520` for `C`): `a` and `b` are the coefficients of the statistic `H` and of the inner
product `G`, `M0` is the old momentum. -/
def FMomentum (u : α) (h : Hyper α) (c : Cls) (n : ℕ) (a b : α) (H G M0 M : SM α) : Prop := ∃ (s : α) (Z M1 M2 M3 M4 : SM α),
  SM.zeros c n = .ok Z ∧ Z.FAdd u c n a H M1 ∧ M1.FAdd u c n b G M2 ∧ M2.FDiagAdd u c n (-1) M3 ∧
  Rnd2 u (1 / 2 * if h.normalize then 1 - h.alpha1 else 1) s ∧ M3.FMul u c n s M4 ∧
  if h.alpha1 ≠ 0 then ∃ a1, Rnd u h.alpha1 a1 ∧ M4.FAdd u c n a1 M0 M else M = M4

/-- `1.0 if kfac_like else x.average_trace()` with rounding -/
def FTraceOr1 (u : α) (h : Hyper α) (n : ℕ) (A : SM α) (t : α) : Prop := if h.kfacLike then t = 1 else A.FTrace u n t

/-- Part 1 of `_update_preconditioner` with rounding (`optimizer.py:483-527`): new momenta from factors, statistics, old momenta and `grad_unscaling`.
Products of scalars round, and so does their conversion to the type of the momentum. -/
def FMomenta (u : α) (h : Hyper α) (cK cC : Cls) (nK nC : ℕ) (v : α) (K C HK HC mK mC mK' mC' : SM α) : Prop :=
  ∃ (KtK CtC : SM α) (tHC tCC tHK tKK aK bK aC bC : α), K.FInner u none KtK ∧ C.FInner u none CtC ∧
    FTraceOr1 u h nC HC tHC ∧ FTraceOr1 u h nC CtC tCC ∧ FTraceOr1 u h nK HK tHK ∧ FTraceOr1 u h nK KtK tKK ∧
    (if h.kfacLike then aK = 1 ∧ Rnd u v aC else Rnd2 u (v * tHC) aK ∧ Rnd2 u (v * tHK) aC) ∧
    Rnd2 u (h.damping * tCC) bK ∧ Rnd2 u (h.damping * tKK) bC ∧
    FMomentum u h cK nK aK bK HK KtK mK mK' ∧ FMomentum u h cC nC aC bC HC CtC mC mC'

/-- `_update_preconditioner` with rounding, from the accumulated statistics on (`optimizer.py:475-548`): new momenta `mK'`, `mC'` and new factors
`K'`, `C'` -/
def FUpdate [HasSqrt α] (u : α) (h : Hyper α) (t : ℕ) (cK cC : Cls) (nK nC : ℕ) (v : α) (K C HK HC mK mC mK' mC' K' C' : SM α) : Prop :=
  FMomenta u h cK cC nK nC v K C HK HC mK mC mK' mC' ∧ FFactor u h t cK nK K mK' K' ∧ FFactor u h t cC nC C mC' C'
