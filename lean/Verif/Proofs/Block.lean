import Verif.Proofs.TensorLemmas
import Mathlib.Algebra.BigOperators.Field
import Verif.Spec
import Verif.Proofs.Diagonal

open Finset
set_option linter.unusedSimpArgs false
variable {α : Type} [Field α]
namespace BlockDiag
variable {b c : BlockDiag α} {D n : ℕ}

theorem WF.dim_eq (h : b.WF D n) : b.dim = n := by
  rw [dim, h.d0, h.hD, h.lr, Nat.mul_comm]; exact Nat.div_add_mod n D

/-- entry `(r, r')` of the `q`-th diagonal block, the last block being number `num_blocks` -/
def ent (b : BlockDiag α) (q r r' : ℕ) : α :=
  if q < b.blocks.d0 then b.blocks.get q r r' else if q = b.blocks.d0 then b.last.get r r' else 0

theorem div_mod_add {q r : ℕ} (hr : r < D) : (q * D + r) / D = q ∧ (q * D + r) % D = r := by
  constructor
  · exact Nat.div_eq_of_lt_le (by omega) (by rw [Nat.succ_mul]; omega)
  · rw [Nat.mul_comm, Nat.mul_add_mod, Nat.mod_eq_of_lt hr]

theorem get_mul_add {q r q' r' : ℕ} (hr : r < D) (hr' : r' < D) (k : ℕ) :
    (k * D ≤ q * D + r ∧ q * D + r < k * D + D ∧ k * D ≤ q' * D + r' ∧ q' * D + r' < k * D + D) ↔
    q = k ∧ q' = k := by
  constructor
  · rintro ⟨h1, h2, h3, h4⟩
    constructor
    · have : (q * D + r) / D = k := by
        apply Nat.div_eq_of_lt_le (by linarith) (by rw [Nat.add_mul]; linarith)
      rw [← this, (div_mod_add hr).1]
    · have : (q' * D + r') / D = k := by
        apply Nat.div_eq_of_lt_le (by linarith) (by rw [Nat.add_mul]; linarith)
      rw [← this, (div_mod_add hr').1]
  · rintro ⟨rfl, rfl⟩; omega

theorem lt_mul_iff {q r N : ℕ} (hr : r < D) : q * D + r < N * D ↔ q < N := by
  constructor
  · intro h; by_contra hq; push Not at hq
    have := Nat.mul_le_mul_right D hq; omega
  · intro h
    have := Nat.mul_le_mul_right D (Nat.succ_le_of_lt h)
    rw [Nat.succ_mul] at this; omega

theorem get_loop (h : b.WF D n) (k : ℕ) (hk : k ≤ b.blocks.d0) {q r q' r' : ℕ} (hr : r < D) (hr' : r' < D) :
    ((List.range k).foldl (fun m i => m.setBlock (i * b.D) (i * b.D) (b.blocks.at i))
      (Mat.zeros b.dim b.dim)).get (q * D + r) (q' * D + r') =
    if q = q' ∧ q < k then b.blocks.get q r r' else 0 := by
  have hrows : ∀ k, ((List.range k).foldl (fun m i => m.setBlock (i * b.D) (i * b.D) (b.blocks.at i))
      (Mat.zeros b.dim b.dim)).rows = n ∧ ((List.range k).foldl (fun m i => m.setBlock (i * b.D) (i * b.D) (b.blocks.at i))
      (Mat.zeros b.dim b.dim)).cols = n := by
    intro k; induction k with
    | zero => simp [h.dim_eq]
    | succ k ih => simp [List.range_succ, ih]
  induction k with
  | zero => simp
  | succ k ih =>
    specialize ih (by omega)
    have hkn : k * D + D ≤ n := by
      have h1 : (k + 1) * D ≤ n / D * D := Nat.mul_le_mul_right _ (h.d0 ▸ hk)
      have := Nat.div_mul_le_self n D
      rw [Nat.succ_mul] at h1; omega
    rw [List.range_succ, List.foldl_append, List.foldl_cons, List.foldl_nil, Mat.setBlock, Mat.get_ofFn,
      (hrows k).1, (hrows k).2, h.hD]
    rw [h.hD] at ih
    rw [ih]
    simp only [T3.at, Mat.rows_ofFn, Mat.cols_ofFn, h.d1, h.d2, get_mul_add hr hr' k, Mat.get_ofFn]
    by_cases hq : q = k ∧ q' = k
    · obtain ⟨rfl, rfl⟩ := hq
      rw [if_pos (by omega), if_pos ⟨rfl, rfl⟩, if_pos (by omega), if_pos ⟨rfl, by omega⟩]
      congr 1 <;> omega
    · rw [if_neg hq]
      by_cases hqq : q = q'
      · subst hqq
        by_cases hlt : q < k
        · have : q * D + r < n ∧ q * D + r' < n := by
            have := (lt_mul_iff (q := q) (N := k) hr).2 hlt
            have := (lt_mul_iff (q := q) (N := k) hr').2 hlt
            omega
          rw [if_pos this, if_pos ⟨rfl, hlt⟩, if_pos ⟨rfl, by omega⟩]
        · rw [if_neg (show ¬(q = q ∧ q < k) by omega), ite_self, if_neg (show ¬(q = q ∧ q < k + 1) by omega)]
      · rw [if_neg (show ¬(q = q' ∧ q < k) by tauto), if_neg (show ¬(q = q' ∧ q < k + 1) by tauto), ite_self]

theorem rows_loop (b : BlockDiag α) (k : ℕ) : ((List.range k).foldl (fun m i => m.setBlock (i * b.D) (i * b.D) (b.blocks.at i))
      (Mat.zeros b.dim b.dim)).rows = b.dim ∧ ((List.range k).foldl (fun m i => m.setBlock (i * b.D) (i * b.D) (b.blocks.at i))
      (Mat.zeros b.dim b.dim)).cols = b.dim := by
  induction k with
  | zero => simp
  | succ k ih => simp [List.range_succ, ih]

@[simp] theorem rows_toDense (b : BlockDiag α) : b.toDense.rows = b.dim := by
  simp [toDense, (rows_loop b b.blocks.d0).1]
@[simp] theorem cols_toDense (b : BlockDiag α) : b.toDense.cols = b.dim := by
  simp [toDense, (rows_loop b b.blocks.d0).2]

/-- the entries of `to_dense()` -/
theorem get_toDense (h : b.WF D n) {q r q' r' : ℕ} (hr : r < D) (hr' : r' < D) :
    b.toDense.get (q * D + r) (q' * D + r') = if q = q' then b.ent q r r' else 0 := by
  have hn : n = b.blocks.d0 * D + n % D := by rw [h.d0, Nat.mul_comm]; exact (Nat.div_add_mod n D).symm
  have hm : n % D < D := Nat.mod_lt _ h.pos
  rw [toDense, Mat.setBlock, Mat.get_ofFn, (rows_loop b _).1, (rows_loop b _).2,
    get_loop h _ le_rfl hr hr', h.dim_eq, h.lr, h.lc, h.hD]
  generalize hN : b.blocks.d0 = N at *
  unfold ent; rw [hN]
  by_cases hqq : q = q'
  · subst hqq
    rw [if_pos rfl]
    rcases lt_trichotomy q N with hq | hq | hq
    · have h1 := (lt_mul_iff (q := q) (N := N) hr).2 hq
      have h2 := (lt_mul_iff (q := q) (N := N) hr').2 hq
      rw [if_pos (by omega), if_neg (by omega), if_pos ⟨rfl, hq⟩, if_pos hq]
    · subst hq
      rw [if_neg (lt_irrefl _)]
      rw [if_pos rfl]
      by_cases hlt : r < n % D ∧ r' < n % D
      · rw [if_pos (by omega), if_pos (by omega)]; congr 1 <;> omega
      · rw [if_neg (by omega), b.last.supp _ _ (by rw [h.lr, h.lc]; omega)]
    · have := Nat.mul_le_mul_right D (Nat.succ_le_of_lt hq)
      rw [Nat.succ_mul] at this
      rw [if_neg (by omega), if_neg (by omega), if_neg (by omega)]
  · rw [if_neg hqq]
    by_cases hb : q * D + r < n ∧ q' * D + r' < n
    · rw [if_pos hb]
      rw [if_neg (show ¬(q = q' ∧ _) by tauto)]
      rw [if_neg]
      rintro ⟨h1, h2, h3, h4⟩
      apply hqq
      have e1 := (get_mul_add (q := q) (q' := q') hr hr' N).1 (by omega)
      omega
    · rw [if_neg hb]

/-- every index is `q * D + r` -/
theorem exists_qr (hD : 0 < D) (i : ℕ) : ∃ q r, r < D ∧ i = q * D + r :=
  ⟨i / D, i % D, Nat.mod_lt _ hD, by rw [Nat.mul_comm]; exact (Nat.div_add_mod i D).symm⟩

theorem ent_supp (h : b.WF D n) {q r r' : ℕ} (hr : r < D) (hr' : r' < D) (hn : n ≤ q * D + r ∨ n ≤ q * D + r') : b.ent q r r' = 0 := by
  have e := get_toDense h (q := q) (q' := q) hr hr'
  rw [if_pos rfl] at e
  rw [← e]; apply Mat.supp; simpa [h.dim_eq] using hn

/-- equality of matrices by blocks -/
theorem ext_qr (hD : 0 < D) {A B : Mat α} (hr : A.rows = B.rows) (hc : A.cols = B.cols)
    (h : ∀ q r q' r', r < D → r' < D → A.get (q * D + r) (q' * D + r') = B.get (q * D + r) (q' * D + r')) : A = B := by
  refine Mat.ext' hr hc fun i _ j _ => ?_
  obtain ⟨q, r, hr, rfl⟩ := exists_qr hD i
  obtain ⟨q', r', hr', rfl⟩ := exists_qr hD j
  exact h q r q' r' hr hr'

/-- product of the represented matrix with a dense one, by blocks -/
theorem get_toDense_mul (h : b.WF D n) (X : Mat α) {q r : ℕ} (hr : r < D) (j : ℕ) :
    (b.toDense.mul X).get (q * D + r) j = ∑ k ∈ range D, b.ent q r k * X.get (q * D + k) j := by
  rw [Mat.get_mul, cols_toDense, h.dim_eq]
  rw [sum_range_eq_block (a := q * D) (m := D)]
  · refine sum_congr rfl fun k hk => ?_
    rw [get_toDense h hr (by simpa using hk), if_pos rfl]
  · intro k _ hk
    obtain ⟨q', r', hr', rfl⟩ := exists_qr h.pos k
    rw [get_toDense h hr hr', if_neg, zero_mul]
    rintro rfl; omega
  · intro k hk h1 h2
    rw [Mat.supp _ _ _ (by simp [h.dim_eq, hk]), zero_mul]

theorem init_ok {D n : ℕ} (hD : 0 < D) {blocks : T3 α} {last : Mat α} (h0 : blocks.d0 = n / D) (h1 : blocks.d1 = D) (h2 : blocks.d2 = D)
    (hr : last.rows = n % D) (hc : last.cols = n % D) :
    init D blocks last = .ok ⟨D, blocks, last⟩ ∧ WF D n (⟨D, blocks, last⟩ : BlockDiag α) := by
  have := Nat.mod_lt n hD
  refine ⟨?_, ⟨hD, rfl, h0, h1, h2, hr, hc⟩⟩
  simp [init, h1, h2, hr, hc]; omega

theorem matmulS_spec (h : b.WF D n) (h' : c.WF D n) :
    ∃ p, b.matmulS c = .ok p ∧ p.WF D n ∧ p.toDense = b.toDense.mul c.toDense := by
  obtain ⟨e, w⟩ := init_ok (D := D) (n := n) h.pos (blocks := b.blocks.bmm c.blocks) (last := b.last.mul c.last)
    (by simp [T3.bmm, h.d0]) (by simp [T3.bmm, h.d1]) (by simp [T3.bmm, h'.d2]) (by simp [h.lr]) (by simp [h'.lc])
  refine ⟨_, ?_, w, ?_⟩
  · simp only [matmulS, T3.bmm?, Mat.matmul, h.d0, h'.d0, h.d2, h'.d1, h.lc, h'.lr, and_self, if_true, h.hD]
    exact e
  · refine ext_qr h.pos (by simp [w.dim_eq, h.dim_eq]) (by simp [w.dim_eq, h'.dim_eq]) ?_
    intro q r q' r' hr hr'
    rw [get_toDense w hr hr', get_toDense_mul h _ hr]
    by_cases hqq : q = q'
    · subst hqq
      rw [if_pos rfl]
      have : ∀ k ∈ range D, b.ent q r k * c.toDense.get (q * D + k) (q * D + r') = b.ent q r k * c.ent q k r' := by
        intro k hk; rw [get_toDense h' (by simpa using hk) hr', if_pos rfl]
      rw [sum_congr rfl this]
      unfold ent
      simp only [T3.bmm, T3.d0_ofFn, T3.get_ofFn, h.d0, h.d1, h.d2, h'.d2, hr, hr', and_true, Mat.get_mul, h.lc, h'.d0]
      split_ifs with h1 h2
      · rfl
      · apply sum_range_extend (Nat.mod_lt _ h.pos).le
        intro k hk; rw [Mat.supp _ r k (by rw [h.lc]; omega), zero_mul]
      · simp
    · rw [if_neg hqq]; symm; apply sum_eq_zero; intro k hk
      rw [get_toDense h' (by simpa using hk) hr', if_neg hqq, mul_zero]

theorem num_mul_add_mod (h : b.WF D n) : b.blocks.d0 * D + n % D = n := by
  rw [h.d0, Nat.mul_comm]; exact Nat.div_add_mod n D

theorem matmulT_spec (h : b.WF D n) {X : Mat α} (hX : X.rows = n) : b.matmulT X = .ok (b.toDense.mul X) := by
  have hn := num_mul_add_mod h
  have hm : n % D < D := Nat.mod_lt _ h.pos
  have htb : toBlocks b.blocks.d0 D (X.slice 0 (b.blocks.d0 * D) 0 X.cols) =
      .ok (T3.ofFn b.blocks.d0 D X.cols fun n i c => (X.slice 0 (b.blocks.d0 * D) 0 X.cols).get (n * D + i) c) := by
    have : (X.slice 0 (b.blocks.d0 * D) 0 X.cols).rows = b.blocks.d0 * D := by simp; omega
    rw [toBlocks, if_pos this]; simp
  rw [matmulT, if_neg (by simp [hX, h.dim_eq]), h.hD, Mat.split2_ok (by rw [h.lr, hX, hn]), Except.bind_ok']
  dsimp only
  rw [htb, Except.bind_ok',
    T3.bmm?_ok (by simp) (by simp [h.d2]), Except.bind_ok', fromBlocks, if_pos (by simp [T3.bmm, h.d1]), Except.bind_ok',
    Mat.matmul_ok (by simp [h.lc, h.lr, hX, hn]; omega), Except.bind_ok', Mat.vcat?_ok (by simp [T3.bmm])]
  congr 1
  refine Mat.ext' (by simp [h.lr, h.dim_eq, hn]) (by simp [T3.bmm]) fun i hi j hj => ?_
  simp only [Mat.rows_vcat, Mat.rows_ofFn, Mat.rows_mul, h.lr, hn, Mat.cols_vcat, Mat.cols_ofFn, T3.bmm, T3.d2_ofFn] at hi hj
  obtain ⟨q, r, hr, rfl⟩ := exists_qr h.pos i
  rw [get_toDense_mul h X hr]
  simp only [Mat.vcat, Mat.get_ofFn, Mat.rows_ofFn, Mat.rows_mul, h.lr, hn, hi, Mat.cols_ofFn, hj, and_self, if_true,
    lt_mul_iff hr, (div_mod_add hr).1, (div_mod_add hr).2, T3.get_ofFn, hr, Mat.get_mul, h.lc, T3.bmm, T3.d2_ofFn, h.d1, h.d2]
  unfold ent
  rcases lt_or_ge q b.blocks.d0 with hq | hq
  · simp only [hq, if_true, and_self]
    refine sum_congr rfl fun k hk => ?_
    have hk : k < D := by simpa using hk
    have := (lt_mul_iff (N := b.blocks.d0) hk).2 hq
    simp only [hk, hj, true_and, if_true, Mat.get_slice, Nat.zero_add, this]
  · have hq' : q = b.blocks.d0 := by
      by_contra hne
      have := Nat.mul_le_mul_right D (show b.blocks.d0 + 1 ≤ q by omega)
      rw [Nat.succ_mul] at this; omega
    subst hq'
    simp only [lt_irrefl, if_false, if_true]
    rw [← sum_range_extend (n := n % D) hm.le]
    · refine sum_congr rfl fun k hk => ?_
      have hk : k < n % D := by simpa using hk
      rw [Mat.get_slice, if_pos (by omega)]
      congr 2 <;> omega
    · intro k hk; rw [b.last.supp _ _ (by rw [h.lc]; omega), zero_mul]

theorem add_spec (h : b.WF D n) (h' : c.WF D n) :
    ∃ p, b.add c = .ok p ∧ p.WF D n ∧ p.toDense = b.toDense.add c.toDense := by
  obtain ⟨e, w⟩ := init_ok (D := D) (n := n) h.pos (blocks := b.blocks.add c.blocks) (last := b.last.add c.last)
    (by simp [T3.add, h.d0]) (by simp [T3.add, h.d1]) (by simp [T3.add, h.d2]) (by simp [h.lr]) (by simp [h.lc])
  refine ⟨_, ?_, w, ?_⟩
  · simp only [add, T3.add?, Mat.add?, h.d0, h'.d0, h.d1, h.d2, h'.d1, h'.d2, h.lc, h'.lr, h.lr, h'.lc, and_self, if_true, h.hD]
    exact e
  · refine ext_qr h.pos (by simp [w.dim_eq, h.dim_eq]) (by simp [w.dim_eq, h.dim_eq]) ?_
    intro q r q' r' hr hr'
    rw [Mat.get_add (by simp [h.dim_eq, h'.dim_eq]) (by simp [h.dim_eq, h'.dim_eq]), get_toDense w hr hr',
      get_toDense h hr hr', get_toDense h' hr hr']
    split_ifs with hqq
    · unfold ent
      simp only [T3.add, T3.d0_ofFn, T3.get_ofFn, h.d0, h.d1, h.d2, hr, hr', and_true, h'.d0,
        Mat.get_add (h.lr.trans h'.lr.symm) (h.lc.trans h'.lc.symm)]
      split_ifs <;> simp
    · simp

/-- the common core of `__mul__` and `mul_` -/
theorem smul_core (h : b.WF D n) (s : α) :
    WF D n (⟨D, b.blocks.smul s, b.last.smul s⟩ : BlockDiag α) ∧
    toDense (⟨D, b.blocks.smul s, b.last.smul s⟩ : BlockDiag α) = b.toDense.smul s := by
  have w : WF D n (⟨D, b.blocks.smul s, b.last.smul s⟩ : BlockDiag α) :=
    ⟨h.pos, rfl, h.d0, h.d1, h.d2, h.lr, h.lc⟩
  refine ⟨w, ext_qr h.pos (by simp [w.dim_eq, h.dim_eq]) (by simp [w.dim_eq, h.dim_eq]) ?_⟩
  intro q r q' r' hr hr'
  rw [Mat.get_smul, get_toDense w hr hr', get_toDense h hr hr']
  split_ifs with hqq
  · unfold ent
    simp only [T3.smul, T3.d0_ofFn, T3.get_ofFn, h.d0, h.d1, h.d2, hr, hr', and_true, Mat.get_smul]
    split_ifs <;> simp
  · simp

theorem smul_spec (h : b.WF D n) (s : α) :
    ∃ p, b.smul s = .ok p ∧ p.WF D n ∧ p.toDense = b.toDense.smul s := by
  obtain ⟨w, e⟩ := smul_core h s
  refine ⟨_, ?_, w, e⟩
  rw [smul, h.hD]
  exact (init_ok (n := n) (blocks := b.blocks.smul s) (last := b.last.smul s) h.pos h.d0 h.d1 h.d2 h.lr h.lc).1

theorem diagAdd_spec (h : b.WF D n) (s : α) :
    (b.diagAdd s).WF D n ∧ (b.diagAdd s).toDense = b.toDense.diagAdd s := by
  have w : (b.diagAdd s).WF D n := ⟨h.pos, h.hD, h.d0, h.d1, h.d2, h.lr, h.lc⟩
  refine ⟨w, ext_qr h.pos (by simp [w.dim_eq, h.dim_eq]) (by simp [w.dim_eq, h.dim_eq]) ?_⟩
  intro q r q' r' hr hr'
  have hn := num_mul_add_mod h
  have hm : n % D < D := Nat.mod_lt _ h.pos
  rw [get_toDense w hr hr']
  simp only [Mat.diagAdd, Mat.get_ofFn, rows_toDense, cols_toDense, h.dim_eq, get_toDense h hr hr']
  by_cases hqq : q = q'
  · subst hqq
    simp only [if_true]
    simp only [ent, diagAdd, T3.d0_ofFn, T3.get_ofFn, Mat.diagAdd, Mat.get_ofFn, h.d1, h.d2, h.hD, hr, hr', and_true, h.lr, h.lc]
    rcases lt_trichotomy q b.blocks.d0 with hq | hq | hq
    · have h1 := (lt_mul_iff (N := b.blocks.d0) hr).2 hq
      have h2 := (lt_mul_iff (N := b.blocks.d0) hr').2 hq
      simp only [hq, if_true]
      rw [if_pos (show q * D + r < n ∧ q * D + r' < n by omega)]
      by_cases hrr : r = r'
      · simp [hrr]
      · rw [if_neg hrr, if_neg (by omega)]
    · subst hq
      simp only [lt_irrefl, if_false, if_true]
      by_cases hlt : r < n % D ∧ r' < n % D
      · rw [if_pos hlt, if_pos (show b.blocks.d0 * D + r < n ∧ b.blocks.d0 * D + r' < n by omega)]
        by_cases hrr : r = r'
        · simp [hrr]
        · rw [if_neg hrr, if_neg (by omega)]
      · rw [if_neg hlt, if_neg (by omega)]
    · have := Nat.mul_le_mul_right D (Nat.succ_le_of_lt hq)
      rw [Nat.succ_mul] at this
      rw [if_neg (by omega), if_neg (by omega), if_neg (by omega)]
  · have : ¬ (q * D + r = q' * D + r') := by
      intro e
      have := (div_mod_add (q := q) hr).1
      rw [e, (div_mod_add hr').1] at this; exact hqq this.symm
    simp [hqq, this]

/-- `from_dense` keeps exactly the entries inside the diagonal blocks -/
theorem fromDense_spec (hD : 0 < D) {m : Mat α} (hr : m.rows = n) (hc : m.cols = n) :
    ∃ p, fromDense D m = .ok p ∧ p.WF D n ∧ ∀ q r r', r < D → r' < D → p.ent q r r' = m.get (q * D + r) (q * D + r') := by
  have hdm := Nat.div_add_mod n D
  rw [Nat.mul_comm] at hdm
  have hm : n % D < D := Nat.mod_lt _ hD
  obtain ⟨e, w⟩ := init_ok (D := D) (n := n) hD
    (blocks := T3.ofFn (n / D) D D fun k i j => m.get (k * D + i) (k * D + j))
    (last := m.slice (n / D * D) n (n / D * D) n) rfl rfl rfl (by simp [hr]; omega) (by simp [hc]; omega)
  refine ⟨_, ?_, w, ?_⟩
  · rw [fromDense, if_neg hD.ne']
    simp only [hr, hc]
    rw [if_neg (by omega)]; exact e
  · intro q r r' hr0 hr0'
    simp only [ent, T3.d0_ofFn, T3.get_ofFn, hr0, hr0', and_true, Mat.get_slice]
    rcases lt_trichotomy q (n / D) with hq | hq | hq
    · simp [hq]
    · subst hq
      simp only [lt_irrefl, if_false, if_true]
      split_ifs with hlt
      · rfl
      · rw [m.supp _ _ (by omega)]
    · have := Nat.mul_le_mul_right D (Nat.succ_le_of_lt hq)
      rw [Nat.succ_mul] at this
      rw [if_neg (by omega), if_neg (by omega), m.supp _ _ (by omega)]

/-- two well-formed objects with the same block entries are equal -/
theorem ext_ent (h : b.WF D n) (h' : c.WF D n)
    (he : ∀ q r r', r < D → r' < D → b.ent q r r' = c.ent q r r') : b = c := by
  have hm : n % D < D := Nat.mod_lt _ h.pos
  obtain ⟨D1, B1, L1⟩ := b
  obtain ⟨D2, B2, L2⟩ := c
  have e1 : D1 = D2 := h.hD.trans h'.hD.symm
  have e2 : B1 = B2 := by
    refine T3.ext' (h.d0.trans h'.d0.symm) (h.d1.trans h'.d1.symm) (h.d2.trans h'.d2.symm) ?_
    intro i hi j hj k hk
    have := he i j k (h.d1 ▸ hj) (h.d2 ▸ hk)
    have hi' : i < B2.d0 := by have a := h.d0; have b := h'.d0; simp at a b; omega
    simpa [ent, hi, hi'] using this
  have e3 : L1 = L2 := by
    refine Mat.ext' (h.lr.trans h'.lr.symm) (h.lc.trans h'.lc.symm) ?_
    intro i hi j hj
    have hi' : i < n % D := h.lr ▸ hi
    have hj' : j < n % D := h.lc ▸ hj
    have := he B1.d0 i j (by omega) (by omega)
    have h00 : B1.d0 = B2.d0 := h.d0.trans h'.d0.symm
    simpa [ent, ← h00] using this
  subst e1; subst e2; subst e3; rfl

theorem fromDense_toDense (h : b.WF D n) : fromDense D b.toDense = .ok b := by
  obtain ⟨p, e, w, he⟩ := fromDense_spec h.pos (m := b.toDense) (n := n) (by simp [h.dim_eq]) (by simp [h.dim_eq])
  rw [e]; congr 1
  refine ext_ent w h fun q r r' hr hr' => ?_
  rw [he q r r' hr hr', get_toDense h hr hr', if_pos rfl]

theorem zeros_spec (hD : 0 < D) : ∃ p : BlockDiag α, zeros D n = .ok p ∧ p.WF D n ∧ p.toDense = Mat.zeros n n := by
  obtain ⟨e, w⟩ := init_ok (α := α) (D := D) (n := n) hD (blocks := T3.ofFn (n / D) D D fun _ _ _ => 0)
    (last := Mat.zeros (n % D) (n % D)) rfl rfl rfl rfl rfl
  refine ⟨_, by rw [zeros, if_neg hD.ne', e], w, ext_qr hD (by simp [w.dim_eq]) (by simp [w.dim_eq]) ?_⟩
  intro q r q' r' hr hr'
  rw [get_toDense w hr hr']; simp [ent]

theorem eye_spec (hD : 0 < D) : ∃ p : BlockDiag α, eye D n = .ok p ∧ p.WF D n ∧ p.toDense = Mat.eye n := by
  have hdm := Nat.div_add_mod n D
  rw [Nat.mul_comm] at hdm
  have hm : n % D < D := Nat.mod_lt _ hD
  obtain ⟨e, w⟩ := init_ok (α := α) (D := D) (n := n) hD (blocks := T3.ofFn (n / D) D D fun _ i j => (Mat.eye D).get i j)
    (last := Mat.eye (n % D)) rfl rfl rfl rfl rfl
  refine ⟨_, by rw [eye, if_neg hD.ne', e], w, ext_qr hD (by simp [w.dim_eq]) (by simp [w.dim_eq]) ?_⟩
  intro q r q' r' hr hr'
  rw [get_toDense w hr hr', Mat.get_eye]
  by_cases hqq : q = q'
  · subst hqq
    rw [if_pos rfl]
    simp only [ent, T3.d0_ofFn, T3.get_ofFn, hr, hr', and_true, Mat.get_eye]
    rcases lt_trichotomy q (n / D) with hq | hq | hq
    · have h1 := (lt_mul_iff (N := n / D) hr).2 hq
      simp only [hq, if_true]
      by_cases hrr : r = r'
      · subst hrr; rw [if_pos rfl, if_pos (by omega)]
      · rw [if_neg hrr, if_neg (by omega)]
    · subst hq
      simp only [lt_irrefl, if_false, if_true]
      by_cases hrr : r = r' ∧ r < n % D
      · rw [if_pos hrr, if_pos (by omega)]
      · rw [if_neg hrr, if_neg (by omega)]
    · have := Nat.mul_le_mul_right D (Nat.succ_le_of_lt hq)
      rw [Nat.succ_mul] at this
      rw [if_neg (by omega), if_neg (by omega), if_neg (by omega)]
  · rw [if_neg hqq, if_neg]
    rintro ⟨e, -⟩
    have := (div_mod_add (q := q) hr).1
    rw [e, (div_mod_add hr').1] at this; exact hqq this.symm

/-- `from_mat_inner` agrees with `from_dense(X @ X.T)` -/
theorem fromMatInner_eq (hD : 0 < D) (X : Mat α) : fromMatInner D X = fromDense D (X.mul X.T) := by
  generalize hn : X.rows = n
  have hdm := Nat.div_add_mod n D
  rw [Nat.mul_comm] at hdm
  have hm : n % D < D := Nat.mod_lt _ hD
  obtain ⟨p, e, w, he⟩ := fromDense_spec hD (m := X.mul X.T) (n := n) (by simp [hn]) (by simp [hn])
  rw [e, fromMatInner, if_neg hD.ne']
  simp only [hn, Mat.split2, hdm, if_true, Except.bind_ok', toBlocks, Mat.rows_slice]
  rw [if_pos (by omega)]
  simp only [Except.bind_ok', Mat.matmul, Mat.cols_slice, Mat.rows_T, if_true]
  obtain ⟨e', w'⟩ := init_ok (D := D) (n := n) hD
    (blocks := (T3.ofFn (n / D) D (min X.cols X.cols - 0) fun k i c => (X.slice 0 (n / D * D) 0 X.cols).get (k * D + i) c).bmmT
      (T3.ofFn (n / D) D (min X.cols X.cols - 0) fun k i c => (X.slice 0 (n / D * D) 0 X.cols).get (k * D + i) c))
    (last := (X.slice (n / D * D) n 0 X.cols).mul (X.slice (n / D * D) n 0 X.cols).T) rfl rfl rfl
      (by simp [hn]; omega) (by simp [hn]; omega)
  rw [e']; congr 1
  refine ext_ent w' w fun q r r' hr hr' => ?_
  rw [he q r r' hr hr']
  simp only [ent, T3.bmmT, T3.d0_ofFn, T3.d1_ofFn, T3.d2_ofFn, T3.get_ofFn, hr, hr', and_true, Mat.get_mul, Mat.get_T, Mat.cols_slice,
    Mat.get_slice, Nat.zero_add, min_self, Nat.sub_zero]
  rcases lt_trichotomy q (n / D) with hq | hq | hq
  · have h1 := (lt_mul_iff (N := n / D) hr).2 hq
    have h2 := (lt_mul_iff (N := n / D) hr').2 hq
    simp only [hq, if_true, h1, h2, true_and]
    refine sum_congr rfl fun k hk => ?_
    have : k < X.cols := by simpa using hk
    simp [this]
  · subst hq
    simp only [lt_irrefl, if_false, if_true]
    refine sum_congr rfl fun k hk => ?_
    have : k < X.cols := by simpa using hk
    simp only [this, and_true]
    by_cases hlt : r < n % D
    · by_cases hlt' : r' < n % D
      · rw [if_pos (by omega), if_pos (by omega)]
      · rw [if_neg (show ¬ (n / D * D + r' < n) by omega), X.supp (n / D * D + r') _ (by omega)]; simp
    · rw [if_neg (show ¬ (n / D * D + r < n) by omega), X.supp (n / D * D + r) _ (by omega)]; simp
  · have := Nat.mul_le_mul_right D (Nat.succ_le_of_lt hq)
    rw [Nat.succ_mul] at this
    rw [if_neg (by omega), if_neg (by omega)]
    symm; apply sum_eq_zero; intro k _; rw [X.supp _ _ (by omega), zero_mul]

/-- the transpose of a block-diagonal object, block by block -/
def transpose (b : BlockDiag α) : BlockDiag α :=
  ⟨b.D, T3.ofFn b.blocks.d0 b.blocks.d2 b.blocks.d1 fun n i j => b.blocks.get n j i, b.last.T⟩

theorem transpose_spec (h : b.WF D n) : b.transpose.WF D n ∧ b.transpose.toDense = b.toDense.T := by
  have w : b.transpose.WF D n := ⟨h.pos, h.hD, h.d0, h.d2, h.d1, h.lc, h.lr⟩
  refine ⟨w, ext_qr h.pos (by simp [w.dim_eq, h.dim_eq]) (by simp [w.dim_eq, h.dim_eq]) ?_⟩
  intro q r q' r' hr hr'
  rw [get_toDense w hr hr', Mat.get_T, get_toDense h hr' hr]
  by_cases hqq : q = q'
  · subst hqq; simp only [if_true, ent, transpose, T3.d0_ofFn, T3.get_ofFn, h.d1, h.d2, hr, hr', and_true, Mat.get_T]
    split_ifs <;> simp
  · rw [if_neg hqq, if_neg (Ne.symm hqq)]

/-- `from_inner()` without argument agrees with `from_dense(self @ self.T)` (not `self.T @ self`) -/
theorem fromInner_none (h : b.WF D n) : b.fromInner none = fromDense D (b.toDense.mul b.toDense.T) := by
  obtain ⟨p, e, w, he⟩ := fromDense_spec h.pos (m := b.toDense.mul b.toDense.T) (n := n) (by simp [h.dim_eq]) (by simp [h.dim_eq])
  obtain ⟨e', w'⟩ := init_ok (D := D) (n := n) h.pos (blocks := b.blocks.bmmT b.blocks)
    (last := b.last.mul b.last.T) h.d0 h.d1 h.d1 (by simp [h.lr]) (by simp [h.lr])
  rw [e]
  simp only [fromInner, Mat.matmul, Mat.rows_T, if_true, Except.bind_ok', h.hD]
  rw [e']; congr 1
  refine ext_ent w' w fun q r r' hr hr' => ?_
  rw [he q r r' hr hr', get_toDense_mul h _ hr]
  have : ∀ k ∈ range D, b.ent q r k * b.toDense.T.get (q * D + k) (q * D + r') = b.ent q r k * b.ent q r' k := by
    intro k hk; rw [Mat.get_T, get_toDense h hr' (by simpa using hk), if_pos rfl]
  rw [sum_congr rfl this]
  simp only [ent, T3.bmmT, T3.d0_ofFn, T3.get_ofFn, h.d0, h.d1, h.d2, hr, hr', and_true, Mat.get_mul, Mat.get_T, h.lc]
  split_ifs with h1 h2
  · rfl
  · apply sum_range_extend (Nat.mod_lt _ h.pos).le
    intro k hk; rw [Mat.supp _ r k (by rw [h.lc]; omega), zero_mul]
  · simp

/-- `from_inner(X)` agrees with `from_dense(S @ S.T)` for `S = self @ X` (not `self.T @ X`) -/
theorem fromInner_some (h : b.WF D n) {X : Mat α} (hX : X.rows = n) :
    b.fromInner (some X) = fromDense D ((b.toDense.mul X).mul (b.toDense.mul X).T) := by
  simp only [fromInner, rmatmat, matmulT_spec h hX, Except.bind_ok', h.hD]
  exact fromMatInner_eq h.pos _

theorem sum_range_mul (N D : ℕ) (f : ℕ → α) :
    ∑ i ∈ range (N * D), f i = ∑ q ∈ range N, ∑ r ∈ range D, f (q * D + r) := by
  induction N with
  | zero => simp
  | succ N ih => rw [Nat.succ_mul, sum_range_add, ih, sum_range_succ]

theorem averageTrace_spec (h : b.WF D n) : b.averageTrace = (∑ i ∈ range n, b.toDense.get i i) / n := by
  have hn := num_mul_add_mod h
  have hm : n % D < D := Nat.mod_lt _ h.pos
  rw [averageTrace, h.dim_eq, h.d1, h.d2, h.lr, h.lc, min_self, min_self]
  conv_rhs => rw [← hn]
  rw [sum_range_add, sum_range_mul, add_div, sum_div, sum_div, hn]
  congr 1
  · refine sum_congr rfl fun q hq => ?_
    rw [sum_div]
    refine sum_congr rfl fun r hr => ?_
    simp at hq hr
    rw [get_toDense h hr hr, if_pos rfl]; simp [ent, hq]
  · refine sum_congr rfl fun r hr => ?_
    simp at hr
    rw [get_toDense h (hr.trans hm) (hr.trans hm), if_pos rfl]; simp [ent]
end BlockDiag
