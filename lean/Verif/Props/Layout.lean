import Verif.Proofs.Norms
import Verif.Props.Samples

/-! C14-C17: block layouts, constructor checks, Toeplitz and trace helpers. -/

open Finset Matrix
variable {α : Type} [Field α]

/-! ### C14 -/

/-- C14: the hierarchical layout tiles the dimension, respects the maxima, fills `A` first, then `E`. -/
theorem C14_hier_layout (m1 m2 dim : ℕ) : ∃ k1 d k2, Hier.blockDims m1 m2 dim = (k1, d, k2) ∧ k1 + d + k2 = dim ∧
    k1 ≤ m1 ∧ k2 ≤ m2 ∧ (k1 < m1 → d = 0 ∧ k2 = 0) ∧ (k2 < m2 → d = 0) := by
  have h := Hier.hierDims_blockDims m1 m2 dim
  obtain ⟨k1, d, k2, e⟩ : ∃ k1 d k2, Hier.blockDims m1 m2 dim = (k1, d, k2) := ⟨_, _, _, rfl⟩
  rw [e] at h
  obtain ⟨h1, h2, h3⟩ := h
  simp only at h1 h2 h3
  exact ⟨k1, d, k2, e, h1, by omega, by omega, by omega, by omega⟩

/-- C14: a boundary is returned exactly if one entry of `MAX_DIMS` is infinite and the other is not, otherwise
ValueError; it lies in `[0, dim]`, both blocks respect their maximum, and the finite block is filled first. -/
theorem C14_boundary (dim : ℕ) (a c : MaxDim) :
    (((a = .inf) ↔ (c = .inf)) → getBoundary dim a c = .error .valueError) ∧
    (¬((a = .inf) ↔ (c = .inf)) → ∃ b, getBoundary dim a c = .ok b ∧ b ≤ dim ∧
      (∀ m, a = .int m → b ≤ m ∧ (b < m → b = dim)) ∧
      (∀ m, c = .int m → dim - b ≤ m ∧ (dim - b < m → b = 0))) := by
  cases a <;> cases c <;> simp [getBoundary] <;> omega

example : Hier.blockDims 3 2 10 = (3, 5, 2) ∧ Hier.blockDims 3 2 4 = (3, 0, 1) ∧ getBoundary 10 (.int 3) .inf = .ok 3 ∧
    getBoundary 2 .inf (.int 5) = .ok 0 ∧ getBoundary 10 .inf .inf = .error .valueError := by decide

/-! ### C15 -/

/-- documented layout of hierarchical parts (`hierarchical.py:79-97`) -/
def HierPartsFit (m1 m2 : ℕ) (A B : Mat α) (C : Vec α) (D E : Mat α) : Prop :=
  ∃ k1 d k2, k1 ≤ m1 ∧ k2 ≤ m2 ∧ (A.rows, A.cols) = (k1, k1) ∧ (B.rows, B.cols) = (k1, d + k2) ∧ C.len = d ∧
    (D.rows, D.cols) = (k2, d) ∧ (E.rows, E.cols) = (k2, k2)

/-- C15 for hierarchical matrices: accepted exactly if the shapes fit, ValueError otherwise. -/
theorem C15_hier_init (m1 m2 : ℕ) (A B : Mat α) (C : Vec α) (D E : Mat α) :
    (HierPartsFit m1 m2 A B C D E → Hier.init m1 m2 A B C D E = .ok ⟨m1, m2, A, B, C, D, E⟩) ∧
    (¬ HierPartsFit m1 m2 A B C D E → Hier.init m1 m2 A B C D E = .error .valueError) := by
  constructor
  · rintro ⟨k1, d, k2, h1, h2, hA, hB, hC, hD, hE⟩
    simp only [Prod.mk.injEq] at hA hB hD hE
    exact Hier.init_ok (k1 := k1) (d := d) (k2 := k2) ⟨rfl, rfl, h1, h2, hA.1, hA.2, hB.1, hB.2, hC, hD.1, hD.2, hE.1, hE.2⟩
  · intro h
    unfold Hier.init
    split_ifs with g1 g2 g3 g4 g5 <;> try rfl
    exfalso; apply h
    simp only [not_not, not_or, not_lt] at *
    exact ⟨A.rows, C.len, E.rows, g3.1, g3.2, by simp [← g1], by simp [g5], rfl, by simp [g4], by simp [← g2]⟩

/-- documented layout of block-diagonal parts (`blockdiagonal.py:72-87`) -/
def BlockPartsFit (D : ℕ) (blocks : T3 α) (last : Mat α) : Prop :=
  blocks.d1 = D ∧ blocks.d2 = D ∧ last.rows = last.cols ∧ last.rows < D

/-- C15 for block-diagonal matrices. Full statement: ValueError for *all* parts that do not fit. Missing: parts
whose blocks are square of a wrong size, or not square with last dimension `BLOCK_DIM`, see `C15_block_false`. -/
theorem C15_block_init_partial (D : ℕ) (blocks : T3 α) (last : Mat α) :
    (BlockPartsFit D blocks last → BlockDiag.init D blocks last = .ok ⟨D, blocks, last⟩) ∧
    (¬ BlockPartsFit D blocks last → (blocks.d1 = blocks.d2 → blocks.d1 = D) → (blocks.d2 = D → blocks.d1 = D) →
      BlockDiag.init D blocks last = .error .valueError) := by
  constructor
  · rintro ⟨h1, h2, h3, h4⟩
    rw [BlockDiag.init, if_neg (by omega), if_neg (by omega), if_neg (by omega)]
  · intro h h' h''
    unfold BlockDiag.init
    split_ifs with g1 g2 g3 <;> try rfl
    exact absurd ⟨by omega, by omega, by omega, by omega⟩ h

/-- C15 is false for block-diagonal matrices: `3 × 3` blocks are accepted for `BLOCK_DIM = 2`, and so are
`1 × 2` blocks (the check is a chained comparison). -/
theorem C15_block_false : ∃ (b b' : BlockDiag ℚ) (B B' : T3 ℚ) (l : Mat ℚ), ¬ BlockPartsFit 2 B l ∧ ¬ BlockPartsFit 2 B' l ∧
    BlockDiag.init 2 B l = .ok b ∧ BlockDiag.init 2 B' l = .ok b' :=
  ⟨_, _, T3.ofFn 1 3 3 fun _ _ _ => 1, T3.ofFn 1 1 2 fun _ _ _ => 1, Mat.zeros 0 0,
    by rintro ⟨h, -⟩; exact absurd h (by decide), by rintro ⟨h, -⟩; exact absurd h (by decide), rfl, rfl⟩

example : BlockPartsFit 2 (T3.ofFn 3 2 2 fun _ _ _ => (1 : ℚ)) (Mat.eye 1) := by
  refine ⟨rfl, rfl, rfl, by decide⟩
example : ¬ BlockPartsFit 2 (T3.ofFn 1 3 4 fun _ _ _ => (1 : ℚ)) (Mat.eye 1) ∧
    BlockDiag.init 2 (T3.ofFn 1 3 4 fun _ _ _ => (1 : ℚ)) (Mat.eye 1) = .error .valueError :=
  ⟨by rintro ⟨h, -⟩; exact absurd h (by decide), rfl⟩
example : HierPartsFit 2 2 (Mat.eye 1 : Mat ℚ) (Mat.zeros 1 3) (Vec.ones 2) (Mat.zeros 1 2) (Mat.eye 1) :=
  ⟨1, 2, 1, by decide, by decide, rfl, rfl, rfl, rfl, rfl⟩
example : Hier.init 2 2 (Mat.eye 1 : Mat ℚ) (Mat.zeros 1 3) (Vec.ones 2) (Mat.zeros 2 1) (Mat.eye 1) |>.toOption.isNone := by decide

/-! ### C16 -/

/-- C16: the product with the Toeplitz matrix of the coefficients. -/
theorem C16_toeplitz_matmul {N : ℕ} (hN : 0 < N) {w : Vec α} {X : Mat α} (hw : w.len = 2 * N - 1) (hX : X.rows = N)
    (hk : 0 < X.cols) :
    ∃ Y, toeplitzMatmul w X = .ok Y ∧ Y.rows = N ∧ Y.cols = X.cols ∧
      Y.M N X.cols = (Matrix.of fun i j : Fin N => w.get ((j : ℕ) + (N - 1) - i)) * X.M N X.cols := by
  refine ⟨_, toeplitzMatmul_spec hN hw hX hk, by simp, by simp, ?_⟩
  rw [Mat.M_mul _ _ (show (Mat.ofFn N N fun i j => w.get (N - 1 + j - i)).cols = N from rfl)]
  congr 1
  ext i j
  simp [Mat.M, Nat.add_comm]

/-- C16, rejection. Full statement: RuntimeError whenever `w.len ≠ 2N - 1`. Missing: `w.len = 2N` with `N ≥ 2`, see
`C16_even_length_accepted`. -/
theorem C16_rejects_partial {w : Vec α} {X : Mat α} (hw : w.len + 1 ≠ 2 * X.rows) (hw' : w.len ≠ 2 * X.rows ∨ X.rows ≤ 1) :
    toeplitzMatmul w X = .error .runtimeError := by
  unfold toeplitzMatmul
  by_cases h : (w.len + 1) / 2 ≠ X.rows
  · rw [if_pos h]
  · rw [if_neg h]
    by_cases h0 : X.rows = 0
    · rw [if_pos h0]
    · rw [if_neg h0, conv1dGroups, if_pos (by simp; omega)]; rfl

/-- C16 is false: with `2N` coefficients (`N ≥ 2`) nothing is raised and the result has `N - 1` rows. -/
theorem C16_even_length_accepted {w : Vec α} {X : Mat α} (hw : w.len = 2 * X.rows) (hN : 2 ≤ X.rows) (hk : 0 < X.cols) :
    ∃ Y, toeplitzMatmul w X = .ok Y ∧ Y.rows = X.rows - 1 := by
  rw [toeplitzMatmul, if_neg (by omega), if_neg (by omega), conv1dGroups, if_neg (by simp; omega)]
  refine ⟨_, rfl, ?_⟩
  simp; omega

example : ∃ Y, toeplitzMatmul (Vec.ofList [1, 2, 3, (4 : ℚ)]) (Mat.ofLists 2 1 [[1], [1]]) = .ok Y ∧ Y.rows = 1 :=
  C16_even_length_accepted rfl (by decide) (by decide)
example : Sample.tlists (toeplitzMatmul (Vec.ofList [1, 2, (3 : ℚ)]) (Mat.ofLists 2 1 [[1], [10]])) = .ok [[32], [21]] := by decide +kernel
example : toeplitzMatmul (Vec.ofList [1, 2, 3, 4, (5 : ℚ)]) (Mat.ofLists 2 1 [[1], [1]]) = .error .runtimeError :=
  C16_rejects_partial (by decide) (.inl (by decide))

/-! ### C17 -/

/-- C17: entry `k` is the sum over all entries with `j - i = k - (rows - 1)`, and every entry of the matrix belongs
to exactly one trace. -/
theorem C17_all_traces (m : Mat α) (hr : 0 < m.rows) (hc : 0 < m.cols) :
    ∃ t, allTraces m = .ok t ∧ t.len = m.rows + m.cols - 1 ∧
      (∀ k < t.len, t.get k = ∑ p ∈ (range m.rows ×ˢ range m.cols).filter
        (fun p => (p.2 : ℤ) - p.1 = k - ((m.rows : ℤ) - 1)), m.get p.1 p.2) ∧
      (∀ i < m.rows, ∀ j < m.cols, ∃! k, k < t.len ∧ (j : ℤ) - i = k - ((m.rows : ℤ) - 1)) := by
  obtain ⟨t, e, hl, h⟩ := allTraces_spec m (by omega)
  refine ⟨t, e, hl, ?_, ?_⟩
  · intro k hk
    rw [h k hk, sum_filter, sum_product]
    refine sum_congr rfl fun i hi => sum_congr rfl fun j hj => ?_
    simp only [mem_range] at hi hj
    congr 1
    exact propext ⟨fun _ => by omega, fun _ => by omega⟩
  · intro i hi j hj
    refine ⟨j + (m.rows - 1) - i, ⟨by omega, by omega⟩, ?_⟩
    rintro k ⟨_, hk⟩
    omega

example : (do return (← allTraces (Mat.ofLists 2 3 [[1, 2, 3], [4, 5, (6 : ℚ)]])).toList : Except PyErr (List ℚ)) =
    .ok [4, 6, 8, 3] := by decide +kernel
