import Verif.Proofs.Norms
import Verif.Props.Samples
import Mathlib.Analysis.Real.Sqrt

/-! C01-C13: structured matrices. `SM.den A n` is the Mathlib matrix of the entries of `A.to_dense()`. -/

open Finset Matrix
variable {α : Type} [Field α] {c : Cls} {n : ℕ} {A B : SM α}

theorem Mat.M_mul' {X Y : Mat α} {n m p : ℕ} (h : X.cols = m) : (X.mul Y).M n p = X.M n m * Y.M m p := Mat.M_mul _ _ h

/-! ### C01 -/

/-- C01: `A @ B` succeeds, stays in the class and is the matrix product. Every class, with hierarchical classes at
the top level only (nested ones: `C13_nested_hier_corrupts_product`). -/
theorem C01_matmul_exact [CharZero α] (hc : c.Regular) (hA : WF c n A) (hB : WF c n B) :
    ∃ P, A.matmulS B = .ok P ∧ WF c n P ∧ P.den n = A.den n * B.den n := by
  obtain ⟨P, e, w, h⟩ := matmulS_spec hc hA hB
  exact ⟨P, e, w, by rw [SM.den, h, Mat.M_mul' hA.cols]; rfl⟩

example : ∃ P, Sample.nested.matmulS Sample.nested = .ok P ∧ WF Sample.nestedCls 3 P ∧
    P.den 3 = Sample.nested.den 3 * Sample.nested.den 3 :=
  C01_matmul_exact Sample.regular_nested Sample.wf_nested Sample.wf_nested
example : ∃ P, Sample.hier.matmulS Sample.hier = .ok P ∧ WF (.hier 1 1) 3 P ∧
    P.den 3 = Sample.hier.den 3 * Sample.hier.den 3 := C01_matmul_exact trivial Sample.wf_hier Sample.wf_hier
example : Sample.lists (Sample.nested.matmulS Sample.nested) = .ok [[4, 45, 36], [0, 25, 0], [0, 72, 49]] := by decide +kernel

/-! ### C02 -/

/-- C02: `A @ X` is the matrix product (every class, every number of columns except 0). -/
theorem C02_matmul_tensor_exact (hA : WF c n A) {X : Mat α} (hX : X.rows = n) (hk : 0 < X.cols) :
    ∃ Y, A.matmulT X = .ok Y ∧ Y.rows = n ∧ Y.cols = X.cols ∧ Y.M n X.cols = A.den n * X.M n X.cols :=
  ⟨_, matmulT_spec hA hX hk, by simp [hA.rows], by simp, Mat.M_mul' hA.cols⟩

example : ∃ Y, Sample.tril.matmulT Sample.X = .ok Y ∧ Y.rows = 3 ∧ Y.cols = 2 ∧ Y.M 3 2 = Sample.tril.den 3 * Sample.X.M 3 2 :=
  C02_matmul_tensor_exact Sample.wf_tril rfl (by decide)
example : Sample.tlists (Sample.tril.matmulT Sample.X) = .ok [[1, 0], [4, 1], [7, 5]] := by decide +kernel

/-! ### C03 -/

/-- C03 for every class except block-diagonal. Full statement: no hypothesis `hc`. It fails for block-diagonal
classes, see `C03_block_iff_symmetric`. -/
theorem C03_rmatmat_partial (hc : ¬ c.IsBlock) (hA : WF c n A) {X : Mat α} (hX : X.rows = n) (hk : 0 < X.cols) :
    ∃ Y, A.rmatmat X = .ok Y ∧ Y.rows = n ∧ Y.cols = X.cols ∧ Y.M n X.cols = (A.den n)ᵀ * X.M n X.cols :=
  ⟨_, rmatmat_spec hc hA hX hk, by simp [hA.cols], by simp, by
    rw [Mat.M_mul' (show A.toDense.T.cols = n by simp [hA.rows]), Mat.M_T]; rfl⟩

/-- C03 for block-diagonal matrices: `rmatmat` is the product with the matrix itself, so it multiplies with the
transpose exactly if the matrix is symmetric. -/
theorem C03_block_iff_symmetric {D : ℕ} (hA : WF (.block D) n A) :
    (∀ X : Mat α, X.rows = n → 0 < X.cols → ∃ Y, A.rmatmat X = .ok Y ∧ Y.M n X.cols = (A.den n)ᵀ * X.M n X.cols) ↔
    (A.den n)ᵀ = A.den n := by
  constructor
  · intro h
    rcases Nat.eq_zero_or_pos n with rfl | hn
    · exact Matrix.ext fun i => i.elim0
    · obtain ⟨Y, e, hY⟩ := h (Mat.eye n) (by simp) (by simpa using hn)
      rw [rmatmat_block hA (by simp)] at e
      injection e with e; subst e
      have e1 : (Mat.eye n : Mat α).cols = n := by simp
      rw [Mat.M_mul' hA.cols, e1, Mat.M_eye, Matrix.mul_one, Matrix.mul_one] at hY
      exact hY.symm
  · intro h X hX _
    exact ⟨_, rmatmat_block hA hX, by rw [h]; exact Mat.M_mul' hA.cols⟩

/-- C03 is false: a block-diagonal matrix for which `rmatmat` does not multiply with the transpose. -/
theorem C03_false : ∃ (D n : ℕ) (A : SM ℚ) (X : Mat ℚ), WF (.block D) n A ∧ X.rows = n ∧ 0 < X.cols ∧
    ∃ Y, A.rmatmat X = .ok Y ∧ Y.M n X.cols ≠ (A.den n)ᵀ * X.M n X.cols := by
  refine ⟨2, 3, Sample.block, Sample.X, Sample.wf_block, rfl, by decide, _, rmatmat_block Sample.wf_block rfl, ?_⟩
  intro h
  have := congrFun (congrFun h 0) ⟨0, by decide⟩
  revert this
  decide +kernel

example : ∃ Y, Sample.hier.rmatmat Sample.X = .ok Y ∧ Y.rows = 3 ∧ Y.cols = 2 ∧ Y.M 3 2 = (Sample.hier.den 3)ᵀ * Sample.X.M 3 2 :=
  C03_rmatmat_partial id Sample.wf_hier rfl (by decide)

/-! ### C04 -/

/-- C04 for `add_` and `mul_` (every class, arbitrarily nested). -/
theorem C04_inplace_exact (hA : WF c n A) (hB : WF c n B) (s : α) :
    (∃ P, A.add_ B s = .ok P ∧ WF c n P ∧ P.den n = A.den n + s • B.den n) ∧
    (WF c n (A.mul_ s) ∧ (A.mul_ s).den n = s • A.den n) := by
  constructor
  · obtain ⟨P, e, w, h⟩ := add__spec hA hB s
    refine ⟨P, e, w, ?_⟩
    rw [SM.den, h, Mat.M_add (by simp [hA.rows, hB.rows]) (by simp [hA.cols, hB.cols]), Mat.M_smul]; rfl
  · obtain ⟨w, h⟩ := mul__spec hA s
    exact ⟨w, by rw [SM.den, h, Mat.M_smul]; rfl⟩

/-- C04 for `+` and `*`. Full statement: every class; here hierarchical classes are allowed at the top level only,
because `C04_nested_hier_false` holds. -/
theorem C04_add_smul_exact_partial [CharZero α] (hc : c.Regular) (hA : WF c n A) (hB : WF c n B) (s : α) :
    (∃ P, A.add B = .ok P ∧ WF c n P ∧ P.den n = A.den n + B.den n) ∧
    (∃ P, A.smul s = .ok P ∧ WF c n P ∧ P.den n = s • A.den n) := by
  constructor
  · obtain ⟨P, e, w, h⟩ := smadd_spec hc hA hB
    refine ⟨P, e, w, ?_⟩
    rw [SM.den, h, Mat.M_add (by simp [hA.rows, hB.rows]) (by simp [hA.cols, hB.cols])]; rfl
  · obtain ⟨P, e, w, h⟩ := smsmul_spec hc hA s
    exact ⟨P, e, w, by rw [SM.den, h, Mat.M_smul]; rfl⟩

/-- C04 is false for a hierarchical class nested in a recursive template: `A * 1` is not `A`. -/
theorem C04_nested_hier_false : ∃ (c : Cls) (n : ℕ) (A P : SM ℚ), WF c n A ∧ A.smul 1 = .ok P ∧ P.den n ≠ A.den n := by
  obtain ⟨P, hP⟩ : ∃ P, Sample.bad.smul 1 = .ok P := ⟨_, rfl⟩
  refine ⟨_, 3, Sample.bad, P, Sample.wf_bad, hP, ?_⟩
  intro h
  have := congrFun (congrFun h 1) 2
  injection hP with hP
  subst hP
  revert this
  decide +kernel

example : (∃ P, Sample.nested.add_ Sample.nested 2 = .ok P ∧ WF Sample.nestedCls 3 P ∧
      P.den 3 = Sample.nested.den 3 + (2 : ℚ) • Sample.nested.den 3) :=
  (C04_inplace_exact Sample.wf_nested Sample.wf_nested 2).1
example : (∃ P, Sample.block.add Sample.block = .ok P ∧ WF (.block 2) 3 P ∧ P.den 3 = Sample.block.den 3 + Sample.block.den 3) :=
  (C04_add_smul_exact_partial (c := .block 2) trivial Sample.wf_block Sample.wf_block 2).1

/-! ### C05 -/

/-- C05 for every class except block-diagonal. Full statement: no hypothesis `hc`. -/
theorem C05_from_inner_partial (hc : ¬ c.IsBlock) (hA : WF c n A) :
    (∀ X M : Mat α, X.rows = n → 0 < X.cols → M.rows = n → M.cols = n →
      M.M n n = (A.den n)ᵀ * X.M n X.cols * (X.M n X.cols)ᵀ * A.den n → A.fromInner (some X) = SM.fromDense c M) ∧
    (∀ M : Mat α, M.rows = n → M.cols = n → M.M n n = (A.den n)ᵀ * A.den n → A.fromInner none = SM.fromDense c M) := by
  constructor
  · intro X M hX hk hr hc' hM
    rw [fromInner_some_spec hc hA hX hk]
    congr 1
    refine Mat.M_inj (n := n) (m := n) ⟨by simp [hA.cols], by simp [hA.cols]⟩ ⟨hr, hc'⟩ ?_
    rw [hM, Mat.M_mul' (show (A.toDense.T.mul X).cols = X.cols by simp), Mat.M_T,
      Mat.M_mul' (show A.toDense.T.cols = n by simp [hA.rows]), Mat.M_T, Matrix.transpose_mul, Matrix.transpose_transpose]
    simp only [SM.den, Matrix.mul_assoc]
  · intro M hr hc' hM
    rw [fromInner_none_spec hc hA]
    congr 1
    refine Mat.M_inj (n := n) (m := n) ⟨by simp [hA.cols], by simp [hA.cols]⟩ ⟨hr, hc'⟩ ?_
    rw [hM, Mat.M_mul' (show A.toDense.T.cols = n by simp [hA.rows]), Mat.M_T]; rfl

/-- C05 for block-diagonal classes: what is extracted is the structure of `A X Xᵀ Aᵀ` and `A Aᵀ` (transposes
swapped); it is the documented matrix for symmetric `A`. -/
theorem C05_block {D : ℕ} (hA : WF (.block D) n A) :
    (∀ X M : Mat α, X.rows = n → M.rows = n → M.cols = n →
      M.M n n = A.den n * X.M n X.cols * (X.M n X.cols)ᵀ * (A.den n)ᵀ → A.fromInner (some X) = SM.fromDense (.block D) M) ∧
    (∀ M : Mat α, M.rows = n → M.cols = n → M.M n n = A.den n * (A.den n)ᵀ →
      A.fromInner none = SM.fromDense (.block D) M) := by
  constructor
  · intro X M hX hr hc' hM
    rw [(fromInner_block hA).2 X hX]
    congr 1
    refine Mat.M_inj (n := n) (m := n) ⟨by simp [hA.rows], by simp [hA.rows]⟩ ⟨hr, hc'⟩ ?_
    rw [hM, Mat.M_mul' (show (A.toDense.mul X).cols = X.cols by simp), Mat.M_T,
      Mat.M_mul' hA.cols, Matrix.transpose_mul]
    simp only [SM.den, Matrix.mul_assoc]
  · intro M hr hc' hM
    rw [(fromInner_block hA).1]
    congr 1
    refine Mat.M_inj (n := n) (m := n) ⟨by simp [hA.rows], by simp [hA.rows]⟩ ⟨hr, hc'⟩ ?_
    rw [hM, Mat.M_mul' hA.cols, Mat.M_T]; rfl

/-- C05 is false for block-diagonal classes. -/
theorem C05_false : ∃ (D n : ℕ) (A P Q : SM ℚ) (M : Mat ℚ), WF (.block D) n A ∧ M.rows = n ∧ M.cols = n ∧
    M.M n n = (A.den n)ᵀ * A.den n ∧ A.fromInner none = .ok P ∧ SM.fromDense (.block D) M = .ok Q ∧ P.den n ≠ Q.den n := by
  obtain ⟨P, hP⟩ : ∃ P, Sample.block.fromInner none = .ok P := ⟨_, rfl⟩
  obtain ⟨Q, hQ⟩ : ∃ Q, SM.fromDense (.block 2) (Sample.block.toDense.T.mul Sample.block.toDense) = .ok Q := ⟨_, rfl⟩
  refine ⟨2, 3, Sample.block, P, Q, _, Sample.wf_block, rfl, rfl, ?_, hP, hQ, ?_⟩
  · rw [Mat.M_mul' (m := 3) rfl, Mat.M_T]; rfl
  · intro h
    have := congrFun (congrFun h 0) 0
    injection hP with hP
    injection hQ with hQ
    subst hP; subst hQ
    revert this
    decide +kernel

example : ∃ M : Mat ℚ, M.rows = 3 ∧ M.cols = 3 ∧ M.M 3 3 = (Sample.nested.den 3)ᵀ * Sample.nested.den 3 ∧
    Sample.nested.fromInner none = SM.fromDense Sample.nestedCls M :=
  ⟨Sample.nested.toDense.T.mul Sample.nested.toDense, rfl, rfl, by rw [Mat.M_mul' (m := 3) rfl, Mat.M_T]; rfl,
    (C05_from_inner_partial id Sample.wf_nested).2 _ rfl rfl (by rw [Mat.M_mul' (m := 3) rfl, Mat.M_T]; rfl)⟩

/-! ### C06 -/

/-- C06: `from_mat_inner(X) = from_dense(X Xᵀ)`, `from_inner2(M) = from_dense(Aᵀ M A)`. -/
theorem C06_from_mat_inner (h : c.Supports n) {X M : Mat α} (hX : X.rows = n) (hr : M.rows = n) (hc : M.cols = n)
    (hM : M.M n n = X.M n X.cols * (X.M n X.cols)ᵀ) : SM.fromMatInner c X = SM.fromDense c M := by
  rw [fromMatInner_spec h hX]
  congr 1
  refine Mat.M_inj (n := n) (m := n) ⟨by simp [hX], by simp [hX]⟩ ⟨hr, hc⟩ ?_
  rw [hM, Mat.M_mul' rfl, Mat.M_T]

/-- C06, second part (`Y` need not even be symmetric). -/
theorem C06_from_inner2 (hA : WF c n A) {Y M : Mat α} (hr : Y.rows = n) (hc : Y.cols = n) (hr' : M.rows = n)
    (hc' : M.cols = n) (hM : M.M n n = (A.den n)ᵀ * Y.M n n * A.den n) : A.fromInner2 Y = SM.fromDense c M := by
  rw [fromInner2_spec hA hr hc]
  congr 1
  refine Mat.M_inj (n := n) (m := n) ⟨by simp [hA.cols], by simp [hA.cols]⟩ ⟨hr', hc'⟩ ?_
  rw [hM, Mat.M_mul' (show (A.toDense.T.mul Y).cols = n by simp [hc]), Mat.M_mul' (show A.toDense.T.cols = n by simp [hA.rows]),
    Mat.M_T]; rfl

example : SM.fromMatInner (.hier 1 1) Sample.X = SM.fromDense (.hier 1 1) (Sample.X.mul Sample.X.T) :=
  C06_from_mat_inner (c := .hier 1 1) trivial rfl rfl rfl (by rw [Mat.M_mul' rfl, Mat.M_T])
example : Sample.lists (Sample.tril.fromInner2 Sample.S) =
    Sample.lists (SM.fromDense .tril ((Sample.tril.toDense.T.mul Sample.S).mul Sample.tril.toDense)) := by decide +kernel

/-! ### C07 -/

/-- C07: for a symmetric matrix `M` and any member `Q` of the class, the symmetric part of `from_dense(M)` is at
least as close to `M` (in the Frobenius norm) as the symmetric part of `Q`. -/
theorem C07_from_dense_projection [LinearOrder α] [IsStrictOrderedRing α] {P Q : SM α} {m : Mat α} (hr : m.rows = n)
    (hc : m.cols = n) (hs : (m.M n n)ᵀ = m.M n n) (hP : SM.fromDense c m = .ok P) (hQ : WF c n Q) :
    WF c n P ∧
    ∑ i, ∑ j, (m.M n n - (2 : α)⁻¹ • (P.den n + (P.den n)ᵀ)) i j ^ 2 ≤
    ∑ i, ∑ j, (m.M n n - (2 : α)⁻¹ • (Q.den n + (Q.den n)ᵀ)) i j ^ 2 := by
  have hs' : ∀ i j, m.get i j = m.get j i := by
    intro i j
    by_cases h : i < n ∧ j < n
    · exact congrFun (congrFun hs ⟨j, h.2⟩) ⟨i, h.1⟩
    · rw [m.supp i j (by omega), m.supp j i (by omega)]
  have wP : WF c n P := by
    obtain ⟨P', e, w⟩ := fromDense_wf hQ.supports hr hc
    rw [hP] at e; cases e; exact w
  refine ⟨wP, ?_⟩
  have key := best_of_orth (n := n) hs' (fromDense_orth hr hc hs' hP wP) (fromDense_orth hr hc hs' hP hQ)
  have conv : ∀ R : SM α, ∑ i, ∑ j, (m.M n n - (2 : α)⁻¹ • (R.den n + (R.den n)ᵀ)) i j ^ 2 =
      ∑ i ∈ range n, ∑ j ∈ range n, (m.get i j - (R.toDense.get i j + R.toDense.get j i) / 2) ^ 2 := by
    intro R
    rw [← Fin.sum_univ_eq_sum_range]
    refine sum_congr rfl fun i _ => ?_
    rw [← Fin.sum_univ_eq_sum_range]
    refine sum_congr rfl fun j _ => ?_
    simp only [Matrix.sub_apply, Matrix.smul_apply, Matrix.add_apply, Matrix.transpose_apply, SM.den, Mat.M, smul_eq_mul]
    ring
  rw [conv, conv]
  exact key

example : (Sample.S.M 3 3)ᵀ = Sample.S.M 3 3 ∧ (∃ P, SM.fromDense Sample.nestedCls Sample.S = .ok P) ∧
    WF Sample.nestedCls 3 Sample.nested := by
  refine ⟨?_, ⟨_, rfl⟩, Sample.wf_nested⟩
  ext i j
  have : ∀ i j : Fin 3, Sample.S.get j i = Sample.S.get i j := by decide +kernel
  exact this i j

/-! ### C08 -/

/-- C08 for classes without hierarchical parts. Full statement: no hypothesis `hc`; it fails for hierarchical classes,
see `C08_false`. -/
theorem C08_round_trip_partial [CharZero α] (hc : c.NoHier) (hA : WF c n A) : SM.fromDense c A.toDense = .ok A :=
  fromDense_toDense hA hc

/-- C08 for hierarchical matrices holds exactly if the off-diagonal parts `B` and `D` vanish: they are doubled. -/
theorem C08_hier_iff [CharZero α] {m1 m2 : ℕ} {h : Hier α} (hA : WF (.hier m1 m2) n (.hier h)) :
    (∃ P, SM.fromDense (.hier m1 m2) (SM.hier h).toDense = .ok P ∧ P.den n = (SM.hier h).den n) ↔
    (∀ i j, h.B.get i j = 0) ∧ (∀ i j, h.D.get i j = 0) := by
  cases hA with | @hier _ _ _ k1 d k2 _ hd H =>
  have hsum := hd.sum
  have w := WF.hier hd H
  obtain ⟨p, e', wp, hp⟩ := Hier.fromDense_spec (m := h.toDense) hd w.rows w.cols
  have two : ∀ x : α, x * 2 = x → x = 0 := by
    intro x hx
    have : x + x = x + 0 := by rw [add_zero, ← mul_two]; exact hx
    exact add_left_cancel this
  have ent : ∀ (P : SM α), P.den n = (SM.hier h).den n → ∀ i < n, ∀ j < n, P.toDense.get i j = h.toDense.get i j :=
    fun P hP i hi j hj => congrFun (congrFun hP ⟨i, hi⟩) ⟨j, hj⟩
  constructor
  · rintro ⟨P, e, hP⟩
    rw [SM.fromDense, SM.toDense, e'] at e
    injection e with e; subst e
    have := ent _ hP
    simp only [SM.toDense] at this
    constructor
    · intro i j
      by_cases hi : i < k1
      · by_cases hj : j < d
        · have t := this i (by omega) (k1 + j) (by omega)
          rw [Hier.get_tm wp hi hj, Hier.get_tm H hi hj, hp.b _ hi _ (by omega), Hier.get_tm H hi hj] at t
          exact two _ t
        · by_cases hj' : j < d + k2
          · obtain ⟨t, rfl⟩ := Nat.exists_eq_add_of_le (not_lt.1 hj)
            have t' := this i (by omega) (k1 + d + t) (by omega)
            rw [Hier.get_tb wp hi (by omega), Hier.get_tb H hi (by omega), hp.b _ hi _ (by omega), ← Nat.add_assoc,
              Hier.get_tb H hi (by omega)] at t'
            exact two _ t'
          · exact h.B.supp _ _ (by rw [H.Bc]; omega)
      · exact h.B.supp _ _ (by rw [H.Br]; omega)
    · intro i j
      by_cases hi : i < k2
      · by_cases hj : j < d
        · have t := this (k1 + d + i) (by omega) (k1 + j) (by omega)
          rw [Hier.get_bm wp hi hj, Hier.get_bm H hi hj, hp.dd _ hi _ hj, Hier.get_bm H hi hj] at t
          exact two _ t
        · exact h.D.supp _ _ (by rw [H.Dc]; omega)
      · exact h.D.supp _ _ (by rw [H.Dr]; omega)
  · rintro ⟨hB, hD⟩
    refine ⟨.hier p, by rw [SM.fromDense, SM.toDense, e']; rfl, ?_⟩
    ext ⟨i, hi⟩ ⟨j, hj⟩
    show p.toDense.get i j = h.toDense.get i j
    have key : ∀ k < n, k < k1 ∨ (∃ t < d, k = k1 + t) ∨ ∃ t < k2, k = k1 + d + t := by
      intro k hk
      by_cases h1 : k < k1
      · exact .inl h1
      · by_cases h2 : k < k1 + d
        · exact .inr (.inl ⟨k - k1, by omega, by omega⟩)
        · exact .inr (.inr ⟨k - (k1 + d), by omega, by omega⟩)
    rcases key i hi with h1 | ⟨i, h1, rfl⟩ | ⟨i, h1, rfl⟩ <;> rcases key j hj with h2 | ⟨j, h2, rfl⟩ | ⟨j, h2, rfl⟩
    · rw [Hier.get_tt wp h1 h2, hp.a _ h1 _ h2]
    · rw [Hier.get_tm wp h1 h2, hp.b _ h1 _ (by omega), Hier.get_tm H h1 h2, hB]; simp
    · rw [Hier.get_tb wp h1 h2, hp.b _ h1 _ (by omega), ← Nat.add_assoc, Hier.get_tb H h1 h2, hB]; simp
    · rw [Hier.get_mt wp h1 h2, Hier.get_mt H h1 h2]
    · rw [Hier.get_mm wp h1 h2, Hier.get_mm H h1 h2]
      split_ifs with hij
      · rw [hp.c _ h1, Hier.get_mm H h1 h1, if_pos rfl]
      · rfl
    · rw [Hier.get_mb wp h1 h2, Hier.get_mb H h1 h2]
    · rw [Hier.get_bt wp h1 h2, Hier.get_bt H h1 h2]
    · rw [Hier.get_bm wp h1 h2, hp.dd _ h1 _ h2, Hier.get_bm H h1 h2, hD]; simp
    · rw [Hier.get_bb wp h1 h2, hp.e _ h1 _ h2]

/-- C08 is false for hierarchical classes. -/
theorem C08_false : ∃ (c : Cls) (n : ℕ) (A : SM ℚ), WF c n A ∧
    ¬ ∃ P, SM.fromDense c A.toDense = .ok P ∧ P.den n = A.den n := by
  refine ⟨_, 3, Sample.hier, Sample.wf_hier, fun h => ?_⟩
  have := ((C08_hier_iff Sample.wf_hier).1 h).1 0 0
  revert this; decide +kernel

example : SM.fromDense Sample.nestedCls Sample.nested.toDense = .ok Sample.nested :=
  C08_round_trip_partial Sample.noHier_nested Sample.wf_nested

/-! ### C09 -/

/-- C09: `average_trace` is the trace over the dimension. -/
theorem C09_average_trace [CharZero α] (hA : WF c n A) : A.averageTrace = .ok ((A.den n).trace / n) := by
  rw [averageTrace_spec hA, ← Fin.sum_univ_eq_sum_range (fun i => A.toDense.get i i)]; rfl

/-- C09: `from_dense` preserves the trace. -/
theorem C09_from_dense_trace [CharZero α] (h : c.Supports n) {m : Mat α} (hr : m.rows = n) (hc : m.cols = n) :
    ∃ P, SM.fromDense c m = .ok P ∧ WF c n P ∧ (P.den n).trace = (m.M n n).trace := by
  obtain ⟨P, e, w⟩ := fromDense_wf h hr hc
  refine ⟨P, e, w, ?_⟩
  have := fromDense_trace h hr hc e
  rw [← Fin.sum_univ_eq_sum_range (fun i => P.toDense.get i i), ← Fin.sum_univ_eq_sum_range (fun i => m.get i i)] at this
  exact this

theorem trace_mul_T_nonneg [LinearOrder α] [IsStrictOrderedRing α] {m k : ℕ} (X : Matrix (Fin m) (Fin k) α) :
    0 ≤ (X * Xᵀ).trace :=
  sum_nonneg fun i _ => by
    rw [Matrix.diag_apply, Matrix.mul_apply]
    exact sum_nonneg fun j _ => mul_self_nonneg _

/-- C09: `average_trace` of any `from_inner` result is nonnegative (block-diagonal classes included). -/
theorem C09_from_inner_trace_nonneg [LinearOrder α] [IsStrictOrderedRing α] (hA : WF c n A) {X : Mat α} (hX : X.rows = n)
    (hk : 0 < X.cols) :
    ∃ P v, A.fromInner (some X) = .ok P ∧ P.averageTrace = .ok v ∧ 0 ≤ v := by
  have key : ∀ S : Mat α, S.rows = n → A.fromInner (some X) = SM.fromDense c (S.mul S.T) →
      ∃ P v, A.fromInner (some X) = .ok P ∧ P.averageTrace = .ok v ∧ 0 ≤ v := by
    intro S hS e
    obtain ⟨P, e', w, ht⟩ := C09_from_dense_trace hA.supports (m := S.mul S.T) (by simp [hS]) (by simp [hS])
    refine ⟨P, _, e.trans e', C09_average_trace w, ?_⟩
    rw [ht, Mat.M_mul' rfl, Mat.M_T]
    exact div_nonneg (trace_mul_T_nonneg _) (Nat.cast_nonneg n)
  by_cases hc : c.IsBlock
  · cases c with
    | block D => exact key _ (by simp [hA.rows]) ((fromInner_block hA).2 X hX)
    | _ => exact absurd hc id
  · exact key _ (by simp [hA.cols]) (fromInner_some_spec hc hA hX hk)

example : Sample.hier.averageTrace = .ok ((Sample.hier.den 3).trace / 3) := C09_average_trace Sample.wf_hier
example : Sample.hier.averageTrace = .ok (11 / 3) := by decide +kernel
example : ∃ P v, Sample.block.fromInner (some Sample.X) = .ok P ∧ P.averageTrace = .ok v ∧ 0 ≤ v :=
  C09_from_inner_trace_nonneg Sample.wf_block rfl (by decide)

/-! ### C10 -/

/-- C10. Full statement: every class; here hierarchical classes are allowed at the top level only, because
`C10_nested_hier_false` holds. -/
theorem C10_diag_add_partial [CharZero α] (hc : c.Regular) (hA : WF c n A) (v : α) :
    ∃ P, A.diagAdd v = .ok P ∧ WF c n P ∧ P.den n = A.den n + v • 1 := by
  obtain ⟨P, e, w, h⟩ := smdiagAdd_spec hc hA v
  exact ⟨P, e, w, by rw [SM.den, h, Mat.M_diagAdd _ hA.rows hA.cols]; rfl⟩

/-- C10 is false for a hierarchical class nested in a recursive template: adding 0 changes the matrix. -/
theorem C10_nested_hier_false : ∃ (c : Cls) (n : ℕ) (A P : SM ℚ), WF c n A ∧ A.diagAdd 0 = .ok P ∧ P.den n ≠ A.den n := by
  obtain ⟨P, hP⟩ : ∃ P, Sample.bad.diagAdd 0 = .ok P := ⟨_, rfl⟩
  refine ⟨_, 3, Sample.bad, P, Sample.wf_bad, hP, ?_⟩
  intro h
  have := congrFun (congrFun h 1) 2
  injection hP with hP
  subst hP
  revert this
  decide +kernel

example : ∃ P, Sample.nested.diagAdd 5 = .ok P ∧ WF Sample.nestedCls 3 P ∧ P.den 3 = Sample.nested.den 3 + (5 : ℚ) • 1 :=
  C10_diag_add_partial Sample.regular_nested Sample.wf_nested 5

/-! ### C11 -/

/-- C11: the infinity norm is attained by an entry and bounds all entries. -/
theorem C11_infinity_norm [LinearOrder α] [IsStrictOrderedRing α] (hA : WF c n A) (hn : 0 < n) :
    ∃ v, A.infNorm = .ok v ∧ (∃ i j, v = |A.den n i j|) ∧ ∀ i j, |A.den n i j| ≤ v := by
  obtain ⟨v, e, ⟨i, hi, j, hj, h⟩, hle⟩ := infNorm_spec hA hn
  exact ⟨v, e, ⟨⟨i, hi⟩, ⟨j, hj⟩, h⟩, fun i j => hle i i.2 j j.2⟩

/-- C11: the Frobenius norm is the nonnegative number whose square is the sum of the squared entries. -/
theorem C11_frobenius_norm [LinearOrder α] [IsStrictOrderedRing α] [LawfulSqrt α] (hA : WF c n A) :
    0 ≤ A.frobNorm ∧ A.frobNorm ^ 2 = ∑ i, ∑ j, A.den n i j ^ 2 := by
  refine ⟨frobNorm_nonneg A, ?_⟩
  rw [pow_two, frobNorm_sq hA, ip, ← Fin.sum_univ_eq_sum_range]
  refine sum_congr rfl fun i _ => ?_
  rw [← Fin.sum_univ_eq_sum_range]
  exact sum_congr rfl fun j _ => (pow_two _).symm

/-- the real numbers have the assumed square root -/
noncomputable instance : LawfulSqrt ℝ where
  sqrt := Real.sqrt
  sqrt_nonneg := Real.sqrt_nonneg
  sqrt_mul_self _ h := Real.mul_self_sqrt h

example : ∃ v, Sample.nested.infNorm = .ok v ∧ (∃ i j, v = |Sample.nested.den 3 i j|) ∧
    ∀ i j, |Sample.nested.den 3 i j| ≤ v := C11_infinity_norm Sample.wf_nested (by decide)
example : (SM.tril (Vec.ofList [1, 2, (3 : ℝ)])).frobNorm ^ 2 =
    ∑ i, ∑ j, (SM.tril (Vec.ofList [1, 2, (3 : ℝ)])).den 3 i j ^ 2 :=
  (C11_frobenius_norm (c := .tril) (.tril (by decide) rfl)).2

/-! ### C12 -/

/-- C12: `eye` and `zeros` represent identity and zero and are valid instances. -/
theorem C12_eye_zeros [CharZero α] (h : c.Supports n) :
    (∃ P : SM α, SM.eye c n = .ok P ∧ WF c n P ∧ P.den n = 1) ∧
    (∃ P : SM α, SM.zeros c n = .ok P ∧ WF c n P ∧ P.den n = 0) := by
  constructor
  · obtain ⟨P, e, w, h⟩ := smeye_spec (α := α) h
    exact ⟨P, e, w, by rw [SM.den, h, Mat.M_eye]⟩
  · obtain ⟨P, e, w, h⟩ := smzeros_spec (α := α) h
    exact ⟨P, e, w, by rw [SM.den, h, Mat.M_zeros]⟩

example : (∃ P : SM ℚ, SM.eye Sample.nestedCls 3 = .ok P ∧ WF Sample.nestedCls 3 P ∧ P.den 3 = 1) :=
  (C12_eye_zeros Sample.wf_nested.supports).1

/-! ### C13 -/

/-- C13: the laws for recursive templates nested to any depth over classes with the round trip. Full statement: any
sub-classes; hierarchical sub-classes are excluded by `NoHier`, see `C13_nested_hier_corrupts_product`. -/
theorem C13_recursive_laws_partial [LinearOrder α] [IsStrictOrderedRing α] [LawfulSqrt α] {x y : MaxDim} {ca cc : Cls}
    (hc : ca.NoHier ∧ cc.NoHier) (h : c = .topRight x y ca cc ∨ c = .bottomLeft x y ca cc)
    (hA : WF c n A) (hB : WF c n B) (s : α) {X : Mat α} (hX : X.rows = n) (hk : 0 < X.cols) :
    (∃ P, A.matmulS B = .ok P ∧ WF c n P ∧ P.den n = A.den n * B.den n) ∧
    (∃ Y, A.rmatmat X = .ok Y ∧ Y.M n X.cols = (A.den n)ᵀ * X.M n X.cols) ∧
    (∃ P, A.add B = .ok P ∧ WF c n P ∧ P.den n = A.den n + B.den n) ∧
    (∃ P, A.smul s = .ok P ∧ WF c n P ∧ P.den n = s • A.den n) ∧
    (∃ M : Mat α, M.rows = n ∧ M.cols = n ∧ M.M n n = (A.den n)ᵀ * X.M n X.cols * (X.M n X.cols)ᵀ * A.den n ∧
      A.fromInner (some X) = SM.fromDense c M) ∧
    A.frobNorm ^ 2 = ∑ i, ∑ j, A.den n i j ^ 2 := by
  have hcr : c.Regular := by rcases h with rfl | rfl <;> exact hc
  have hcb : ¬ c.IsBlock := by rcases h with rfl | rfl <;> exact id
  obtain ⟨Y, e, -, -, hY⟩ := C03_rmatmat_partial hcb hA hX hk
  refine ⟨C01_matmul_exact hcr hA hB, ⟨Y, e, hY⟩, (C04_add_smul_exact_partial hcr hA hB s).1,
    (C04_add_smul_exact_partial hcr hA hB s).2, ?_, (C11_frobenius_norm hA).2⟩
  let M := ((A.toDense.T.mul X).mul X.T).mul A.toDense
  have hM : M.M n n = (A.den n)ᵀ * X.M n X.cols * (X.M n X.cols)ᵀ * A.den n := by
    show (((A.toDense.T.mul X).mul X.T).mul A.toDense).M n n = _
    rw [Mat.M_mul' (show ((A.toDense.T.mul X).mul X.T).cols = n by simp [hX]),
      Mat.M_mul' (show (A.toDense.T.mul X).cols = X.cols by simp), Mat.M_mul' (show A.toDense.T.cols = n by simp [hA.rows]),
      Mat.M_T, Mat.M_T]; rfl
  have hr : M.rows = n := by simp [M, hA.cols]
  have hc' : M.cols = n := by simp [M, hA.cols]
  exact ⟨M, hr, hc', hM, (C05_from_inner_partial hcb hA).1 X M hX hk hr hc' hM⟩

/-- C13 is false when a hierarchical class is nested: the product with the identity is not the matrix itself. -/
theorem C13_nested_hier_corrupts_product : ∃ (c : Cls) (n : ℕ) (A I P : SM ℚ), WF c n A ∧ SM.eye c n = .ok I ∧
    I.den n = 1 ∧ A.matmulS I = .ok P ∧ P.den n ≠ A.den n := by
  obtain ⟨I, hI, wI, eI⟩ := (C12_eye_zeros (α := ℚ) Sample.wf_bad.supports).1
  obtain ⟨I', hI'⟩ : ∃ P : SM ℚ, SM.eye Sample.badCls 3 = .ok P := ⟨_, rfl⟩
  have : I = I' := by rw [hI] at hI'; injection hI'
  subst this
  obtain ⟨P, hP⟩ : ∃ P : SM ℚ, (do Sample.bad.matmulS (← SM.eye Sample.badCls 3)) = .ok P := ⟨_, rfl⟩
  have hP' : Sample.bad.matmulS I = .ok P := by rw [hI] at hP; exact hP
  refine ⟨_, 3, Sample.bad, I, P, Sample.wf_bad, hI, eI, hP', ?_⟩
  intro h
  have := congrFun (congrFun h 1) 2
  injection hP with hP
  subst hP
  revert this
  decide +kernel

example : Sample.nestedCls = .topRight (.int 1) .inf .diagonal (.bottomLeft .inf (.int 1) .tril .dense) ∧
    WF Sample.nestedCls 3 Sample.nested ∧ Sample.X.rows = 3 ∧ 0 < Sample.X.cols :=
  ⟨rfl, Sample.wf_nested, rfl, by decide⟩
