import Verif.Proofs.TensorLemmas

/-! Proofs about `all_traces` and `toeplitz_matmul`. -/

open Finset
variable {α : Type} [Field α]

theorem sum_list_range (n : ℕ) (f : ℕ → α) : ((List.range n).map f).sum = ∑ i ∈ range n, f i := by
  induction n with
  | zero => simp
  | succ n ih => rw [List.range_succ, List.map_append, List.sum_append, ih, sum_range_succ]; simp

theorem sum_rowMajor (r c : ℕ) (g : ℕ × ℕ → α) :
    ((rowMajor r c).map g).sum = ∑ i ∈ range r, ∑ j ∈ range c, g (i, j) := by
  unfold rowMajor
  rw [List.map_flatMap, ← sum_list_range]
  generalize List.range r = l
  induction l with
  | nil => simp
  | cons x l ih =>
    rw [List.flatMap_cons, List.sum_append, ih, List.map_cons, List.sum_cons, List.map_map, ← sum_list_range]; rfl

theorem Vec.get_scatterAdd (l : List (ℕ × α)) (t : Vec α) (k : ℕ) (hk : k < t.len) :
    (t.scatterAdd l).len = t.len ∧
    (t.scatterAdd l).get k = t.get k + (l.map fun p => if p.1 = k then p.2 else 0).sum := by
  induction l generalizing t with
  | nil => simp [Vec.scatterAdd]
  | cons p l ih =>
    have hl : (t.addAt p.1 p.2).len = t.len := rfl
    have := ih (t.addAt p.1 p.2) (by rw [hl]; exact hk)
    unfold Vec.scatterAdd at this ⊢
    rw [List.foldl_cons]
    refine ⟨by rw [this.1, hl], ?_⟩
    rw [this.2, List.map_cons, List.sum_cons, Vec.addAt, Vec.get_ofFn, if_pos hk]
    by_cases h : k = p.1
    · subst h; simp [add_assoc]
    · simp [h, Ne.symm h]

theorem Vec.len_scatterAdd (l : List (ℕ × α)) (t : Vec α) : (t.scatterAdd l).len = t.len := by
  induction l generalizing t with
  | nil => rfl
  | cons p l ih => unfold Vec.scatterAdd at ih ⊢; rw [List.foldl_cons, ih]; rfl

/-- `all_traces` computes the sum of every diagonal -/
theorem allTraces_spec (m : Mat α) (h : 0 < m.rows + m.cols) :
    ∃ t, allTraces m = .ok t ∧ t.len = m.rows + m.cols - 1 ∧
      ∀ k < t.len, t.get k = ∑ i ∈ range m.rows, ∑ j ∈ range m.cols, if j + (m.rows - 1) = k + i then m.get i j else 0 := by
  refine ⟨_, by rw [allTraces, if_neg (by omega)], ?_, ?_⟩
  · rw [Vec.len_scatterAdd]; rfl
  · intro k hk
    rw [Vec.len_scatterAdd] at hk
    rw [(Vec.get_scatterAdd _ _ k hk).2, List.map_map, Vec.get_zeros, zero_add]
    have := sum_rowMajor m.rows m.cols
      ((fun p : ℕ × α => if p.1 = k then p.2 else 0) ∘ fun p => (p.2 + (m.rows - 1) - p.1, m.get p.1 p.2))
    rw [this]
    refine sum_congr rfl fun i hi => sum_congr rfl fun j hj => ?_
    simp at hi hj ⊢
    by_cases h' : j + (m.rows - 1) = k + i
    · rw [if_pos (by omega), if_pos h']
    · rw [if_neg (by omega), if_neg h']

/-- diagonal `+k` (upper) -/
theorem allTraces_upper {m : Mat α} {n : ℕ} (hr : m.rows = n) (hc : m.cols = n) {t : Vec α}
    (ht : allTraces m = .ok t) (k : ℕ) (hk : k < n) :
    t.get (n - 1 + k) = ∑ i ∈ range n, m.get i (i + k) := by
  obtain ⟨t', e, hl, h⟩ := allTraces_spec m (by omega)
  rw [ht] at e; cases e
  rw [h _ (by omega), hr, hc]
  refine sum_congr rfl fun i hi => ?_
  have : ∀ j ∈ range n, (if j + (n - 1) = n - 1 + k + i then m.get i j else 0) = if j = i + k then m.get i j else 0 := by
    intro j _; congr 1; exact propext ⟨fun _ => by omega, fun _ => by omega⟩
  rw [sum_congr rfl this, sum_ite_eq' (range n) (i + k)]
  split_ifs with h'
  · rfl
  · rw [m.supp _ _ (by simp at h'; omega)]

/-- diagonal `-k` (lower) -/
theorem allTraces_lower {m : Mat α} {n : ℕ} (hr : m.rows = n) (hc : m.cols = n) {t : Vec α}
    (ht : allTraces m = .ok t) (k : ℕ) (hk : k < n) :
    t.get (n - 1 - k) = ∑ j ∈ range n, m.get (j + k) j := by
  obtain ⟨t', e, hl, h⟩ := allTraces_spec m (by omega)
  rw [ht] at e; cases e
  rw [h _ (by omega), hr, hc, sum_comm]
  refine sum_congr rfl fun j hj => ?_
  have : ∀ i ∈ range n, (if j + (n - 1) = n - 1 - k + i then m.get i j else 0) = if i = j + k then m.get i j else 0 := by
    intro i _; congr 1; exact propext ⟨fun _ => by omega, fun _ => by omega⟩
  rw [sum_congr rfl this, sum_ite_eq' (range n) (j + k)]
  split_ifs with h'
  · rfl
  · rw [m.supp _ _ (by simp at h'; omega)]

/-- `toeplitz_matmul` multiplies with the Toeplitz matrix whose entry `(i, j)` is `coeffs[N - 1 + j - i]` -/
theorem toeplitzMatmul_spec {w : Vec α} {X : Mat α} {n : ℕ} (hn : 0 < n) (hw : w.len = 2 * n - 1) (hX : X.rows = n)
    (hc : 0 < X.cols) :
    toeplitzMatmul w X = .ok (Mat.mul (Mat.ofFn n n fun i j => w.get (n - 1 + j - i)) X) := by
  have hcond : ¬(X.T.rows = 0 ∨ w.len = 0 ∨ X.T.cols + 2 * (n - 1) < w.len) := by simp [hX, hw]; omega
  rw [toeplitzMatmul, if_neg (by omega), if_neg (by omega), conv1dGroups, hX, if_neg hcond, Except.bind_ok', Except.pure_ok]
  congr 1
  refine Mat.ext' (by simp [hX, hw]; omega) (by simp) fun i hi j hj => ?_
  simp [hX, hw] at hi hj
  rw [Mat.get_T, Mat.get_ofFn, if_pos (by simp [hX, hw]; omega), Mat.get_mul]
  simp only [Mat.cols_ofFn, Mat.get_T, Mat.get_ofFn]
  have hi' : i < n := by omega
  rw [sum_range_eq_block (a := n - 1 - i) (m := n)]
  · refine sum_congr rfl fun k hk => ?_
    simp at hk
    rw [if_pos (by omega), if_pos (by omega)]
    congr 2 <;> omega
  · intro k hk h
    split_ifs
    · rw [X.supp _ _ (by omega), mul_zero]
    · simp
  · intro k h1 h2 h3; rw [w.supp _ h1, zero_mul]
