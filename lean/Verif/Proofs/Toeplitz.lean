import Mathlib.Algebra.CharZero.Defs
import Mathlib.Algebra.Order.Ring.Cast
import Verif.Proofs.StructUtils
import Verif.Model.Toeplitz

open Finset
variable {α : Type} [Field α]

theorem sum_antidiag (d e : ℕ → α) (o : ℕ) :
    ∑ s ∈ range (o + 1), d s * e (o - s) = ∑ t ∈ range (o + 1), d (o - t) * e t := by
  rw [← sum_range_reflect]
  refine sum_congr rfl fun k hk => ?_
  simp at hk
  congr 2; omega

theorem toeplitzCoeffProduct_spec {d e : Vec α} {n : ℕ} (hn : 0 < n) (hd : d.len = n) (he : e.len = n) :
    ∃ p, toeplitzCoeffProduct d e = .ok p ∧ p.len = n ∧
      ∀ o < n, p.get o = ∑ s ∈ range (o + 1), d.get s * e.get (o - s) := by
  refine ⟨_, by rw [toeplitzCoeffProduct, if_neg (by omega)]; dsimp only; rw [if_neg (by simp; omega)], by simp [hd, he]; omega, ?_⟩
  intro o ho
  rw [Vec.get_ofFn, if_pos (by simp [hd, he]; omega), hd, ← sum_range_reflect]
  have key : ∀ k ∈ range n, d.flip.get (n - 1 - k) * ((Vec.zeros (n - 1)).cat e).get (o + (n - 1 - k)) =
      if k < o + 1 then d.get k * e.get (o - k) else 0 := by
    intro k hk
    simp at hk
    rw [Vec.get_flip _ _ (by omega), Vec.get_cat, Vec.len_zeros, Vec.get_zeros, hd]
    have : n - 1 - (n - 1 - k) = k := by omega
    rw [this]
    by_cases h : k < o + 1
    · rw [if_neg (by omega), if_pos h]; congr 2; omega
    · rw [if_pos (by omega), if_neg h, mul_zero]
  rw [sum_congr rfl key]
  rw [← sum_range_extend (n := o + 1) (m := n) (by omega)]
  · exact sum_congr rfl fun k hk => if_pos (by simpa using hk)
  · intro k hk; exact if_neg (by omega)

namespace Tril
variable {d e : Vec α} {n : ℕ}
@[simp] theorem rows_toDense : (toDense d).rows = d.len := rfl
@[simp] theorem cols_toDense : (toDense d).cols = d.len := rfl
theorem get_toDense (i j : ℕ) : (toDense d).get i j = if j ≤ i then (if i < d.len then d.get (i - j) else 0) else 0 := by
  simp only [toDense, Mat.get_ofFn]
  split_ifs <;> first | rfl | (exfalso; omega)

theorem matmulT_spec (hn : 0 < n) (hd : d.len = n) {X : Mat α} (hX : X.rows = n) (hc : 0 < X.cols) :
    matmulT d X = .ok ((toDense d).mul X) := by
  rw [matmulT, if_neg (by omega), toeplitzMatmul_spec hn (by simp; omega) hX hc]
  congr 2
  refine Mat.ext' (by simp [hd]) (by simp [hd]) fun i hi j hj => ?_
  simp at hi hj
  rw [get_toDense, Mat.get_ofFn, if_pos ⟨hi, hj⟩, Vec.get_cat, Vec.len_flip, hd, Vec.get_zeros]
  by_cases h : j ≤ i
  · rw [if_pos (by omega), if_pos h, if_pos hi, Vec.get_flip _ _ (by omega)]; congr 1; omega
  · rw [if_neg (by omega), if_neg h]

theorem rmatmat_spec (hn : 0 < n) (hd : d.len = n) {X : Mat α} (hX : X.rows = n) (hc : 0 < X.cols) :
    rmatmat d X = .ok ((toDense d).T.mul X) := by
  rw [rmatmat, if_neg (by omega), toeplitzMatmul_spec hn (by simp; omega) hX hc]
  congr 2
  refine Mat.ext' (by simp [hd]) (by simp [hd]) fun i hi j hj => ?_
  simp at hi hj
  rw [Mat.get_T, get_toDense, Mat.get_ofFn, if_pos ⟨hi, hj⟩, Vec.get_cat, Vec.len_zeros, hd, Vec.get_zeros]
  by_cases h : i ≤ j
  · rw [if_neg (by omega), if_pos h, if_pos hj]; congr 1; omega
  · rw [if_pos (by omega), if_neg h]

theorem matmulS_spec (hn : 0 < n) (hd : d.len = n) (he : e.len = n) :
    ∃ p, matmulS d e = .ok p ∧ p.len = n ∧ toDense p = (toDense d).mul (toDense e) := by
  obtain ⟨p, e1, hl, hp⟩ := toeplitzCoeffProduct_spec hn hd he
  refine ⟨p, e1, hl, Mat.ext' (by simp [hl, hd]) (by simp [hl, he]) fun i hi j hj => ?_⟩
  simp [hl] at hi hj
  rw [get_toDense, Mat.get_mul, cols_toDense, hd, hl]
  simp only [get_toDense]
  by_cases h : j ≤ i
  · rw [if_pos h, if_pos hi, hp _ (by omega), sum_antidiag d.get e.get]
    symm
    rw [sum_range_eq_block (a := j) (m := i - j + 1)]
    · refine sum_congr rfl fun t ht => ?_
      simp at ht
      rw [if_pos (by omega), if_pos (by omega), if_pos (by omega), if_pos (by omega)]
      congr 2 <;> omega
    · intro k hk hk'
      by_cases h1 : k ≤ i
      · rw [if_neg (show ¬ j ≤ k by omega), mul_zero]
      · rw [if_neg h1, zero_mul]
    · intro k _ _ _; omega
  · rw [if_neg h]; symm; apply sum_eq_zero; intro k hk
    by_cases h1 : k ≤ i
    · rw [if_neg (show ¬ j ≤ k by omega), mul_zero]
    · rw [if_neg h1, zero_mul]

theorem add_spec (hd : d.len = n) (he : e.len = n) : toDense (d.add e) = (toDense d).add (toDense e) := by
  refine Mat.ext' (by simp) (by simp) fun i hi j hj => ?_
  rw [Mat.get_add (by simp [hd, he]) (by simp [hd, he])]
  simp only [get_toDense, Vec.get_add (hd.trans he.symm), Vec.len_add, hd, he]
  split_ifs <;> simp

theorem smul_spec (s : α) : toDense (d.smul s) = (toDense d).smul s := by
  refine Mat.ext' (by simp) (by simp) fun i hi j hj => ?_
  simp only [Mat.get_smul, get_toDense, Vec.get_smul, Vec.len_smul]
  split_ifs <;> simp

theorem diagAdd_spec (hn : 0 < n) (hd : d.len = n) (s : α) :
    ∃ p, Toeplitz.diagAdd d s = .ok p ∧ p.len = n ∧ toDense p = (toDense d).diagAdd s := by
  refine ⟨_, by rw [Toeplitz.diagAdd, if_neg (by omega)], by simp [hd], Mat.ext' (by simp) (by simp) fun i hi j hj => ?_⟩
  simp [hd] at hi hj
  simp only [Mat.diagAdd, Mat.get_ofFn, get_toDense, rows_toDense, cols_toDense, hd, hi, hj, Vec.get_ofFn, Vec.len_ofFn]
  rcases lt_trichotomy i j with h | h | h
  · simp [h, h.ne, show ¬ j ≤ i by omega]
  · subst h; simp [hn]
  · have h1 : ¬ (i - j = 0) := by omega
    simp [h.le, h.ne', h1, show i - j < n by omega]

theorem zeros_spec : toDense (Toeplitz.zeros n : Vec α) = Mat.zeros n n := by
  refine Mat.ext' (by simp [Toeplitz.zeros]) (by simp [Toeplitz.zeros]) fun i hi j hj => ?_
  simp [get_toDense, Toeplitz.zeros]

theorem eye_spec (hn : 0 < n) : ∃ p : Vec α, Toeplitz.eye n = .ok p ∧ p.len = n ∧ toDense p = Mat.eye n := by
  refine ⟨_, by rw [Toeplitz.eye, if_neg (by omega)], by simp, Mat.ext' (by simp) (by simp) fun i hi j hj => ?_⟩
  simp at hi hj
  simp only [get_toDense, Mat.get_eye, Vec.get_ofFn, Vec.len_ofFn, hi, and_true, if_true]
  rcases lt_trichotomy i j with h | h | h
  · simp [h.ne, show ¬ j ≤ i by omega]
  · subst h; simp [hn]
  · have h1 : ¬ (i - j = 0) := by omega
    simp [h.le, h.ne', h1]
end Tril

theorem Triu.toDense_eq (d : Vec α) : Triu.toDense d = (Tril.toDense d).T := by
  refine Mat.ext' rfl rfl fun i hi j hj => ?_
  have hi : i < d.len := hi
  have hj : j < d.len := hj
  simp only [Mat.get_T, Triu.toDense, Tril.toDense, Mat.get_ofFn, hi, hj, and_self, if_true]

theorem Mat.mul_T' {A B : Mat α} (h : A.cols = B.rows) : (A.mul B).T = B.T.mul A.T := by
  refine Mat.ext' rfl rfl fun i hi j hj => ?_
  simp only [Mat.get_T, Mat.get_mul, Mat.cols_T, h]
  exact sum_congr rfl fun k _ => mul_comm _ _

namespace Triu
variable {d e : Vec α} {n : ℕ}
@[simp] theorem rows_toDense : (toDense d).rows = d.len := rfl
@[simp] theorem cols_toDense : (toDense d).cols = d.len := rfl

theorem matmulT_spec (hn : 0 < n) (hd : d.len = n) {X : Mat α} (hX : X.rows = n) (hc : 0 < X.cols) :
    matmulT d X = .ok ((toDense d).mul X) := by
  rw [toDense_eq]; exact Tril.rmatmat_spec hn hd hX hc

theorem rmatmat_spec (hn : 0 < n) (hd : d.len = n) {X : Mat α} (hX : X.rows = n) (hc : 0 < X.cols) :
    rmatmat d X = .ok ((toDense d).T.mul X) := by
  rw [toDense_eq, Mat.T_T]; exact Tril.matmulT_spec hn hd hX hc

/-- lower-triangular Toeplitz matrices commute, so the same coefficient product serves the transposed class -/
theorem matmulS_spec (hn : 0 < n) (hd : d.len = n) (he : e.len = n) :
    ∃ p, matmulS d e = .ok p ∧ p.len = n ∧ toDense p = (toDense d).mul (toDense e) := by
  obtain ⟨p, e1, hl, hp⟩ := toeplitzCoeffProduct_spec hn hd he
  obtain ⟨p', e2, hl', hp'⟩ := toeplitzCoeffProduct_spec hn he hd
  have hpp : p = p' := by
    refine Vec.ext' (by omega) fun o ho => ?_
    rw [hp o (by omega), hp' o (by omega), sum_antidiag d.get e.get]
    exact sum_congr rfl fun k _ => mul_comm _ _
  obtain ⟨p'', e3, _, h3⟩ := Tril.matmulS_spec hn he hd
  have : p'' = p' := by
    have := e3.symm.trans (show Tril.matmulS e d = .ok p' from e2)
    injection this
  subst this
  refine ⟨p, e1, hl, ?_⟩
  rw [hpp, toDense_eq, h3, Mat.mul_T' (by simp [hd, he]), toDense_eq, toDense_eq]

theorem add_spec (hd : d.len = n) (he : e.len = n) : toDense (d.add e) = (toDense d).add (toDense e) := by
  rw [toDense_eq, toDense_eq, toDense_eq, Tril.add_spec hd he]
  refine Mat.ext' (by simp [hd, he]) (by simp [hd, he]) fun i _ j _ => ?_
  rw [Mat.get_T, Mat.get_add (by simp [hd, he]) (by simp [hd, he]), Mat.get_add (by simp [hd, he]) (by simp [hd, he])]; simp

theorem smul_spec (s : α) : toDense (d.smul s) = (toDense d).smul s := by
  rw [toDense_eq, toDense_eq, Tril.smul_spec]
  exact Mat.ext' (by simp) (by simp) fun i _ j _ => by simp

theorem diagAdd_spec (hn : 0 < n) (hd : d.len = n) (s : α) :
    ∃ p, Toeplitz.diagAdd d s = .ok p ∧ p.len = n ∧ toDense p = (toDense d).diagAdd s := by
  obtain ⟨p, e, hl, h⟩ := Tril.diagAdd_spec hn hd s
  refine ⟨p, e, hl, ?_⟩
  rw [toDense_eq, toDense_eq, h]
  refine Mat.ext' (by simp) (by simp) fun i hi j hj => ?_
  simp at hi hj
  simp only [Mat.get_T, Mat.diagAdd, Mat.get_ofFn, Mat.rows_T, Mat.cols_T, Tril.rows_toDense, Tril.cols_toDense, hi, hj, and_self, if_true]
  by_cases h : i = j
  · subst h; rfl
  · rw [if_neg h, if_neg (Ne.symm h)]

theorem zeros_spec : toDense (Toeplitz.zeros n : Vec α) = Mat.zeros n n := by
  rw [toDense_eq, Tril.zeros_spec]; exact Mat.ext' (by simp) (by simp) fun i _ j _ => by simp

theorem eye_spec (hn : 0 < n) : ∃ p : Vec α, Toeplitz.eye n = .ok p ∧ p.len = n ∧ toDense p = Mat.eye n := by
  obtain ⟨p, e, hl, h⟩ := Tril.eye_spec (α := α) hn
  refine ⟨p, e, hl, ?_⟩
  rw [toDense_eq, h]; refine Mat.ext' (by simp) (by simp) fun i hi j hj => ?_
  simp at hi hj
  rw [Mat.get_T, Mat.get_eye, Mat.get_eye]
  by_cases h : i = j
  · subst h; rfl
  · rw [if_neg (by omega), if_neg (by omega)]
end Triu

/-- what `from_dense` of the Toeplitz classes computes -/
theorem toeplitzFromDense_spec {m : Mat α} {n : ℕ} (hn : 0 < n) (hr : m.rows = n) (hc : m.cols = n) :
    ∃ p, toeplitzFromDense m = .ok p ∧ p.len = n ∧ ∀ k < n, p.get k =
      (if k = 0 then ∑ i ∈ range n, m.get i i
       else (∑ i ∈ range n, m.get i (i + k)) + ∑ i ∈ range n, m.get (i + k) i) / ((n - k : ℕ) : α) := by
  obtain ⟨t, e, hl, -⟩ := allTraces_spec m (by omega)
  refine ⟨_, by rw [toeplitzFromDense, if_neg (by omega), e, Except.bind_ok']; rfl, by simp [hr], ?_⟩
  intro k hk
  have h0 := allTraces_upper hr hc e 0 hn
  have hu := allTraces_upper hr hc e k hk
  have hlo := allTraces_lower hr hc e k hk
  rw [Vec.get_ofFn, hr, if_pos hk]
  congr 1
  by_cases h : k = 0
  · subst h; simpa using h0
  · rw [if_neg h, if_neg h, ← hu, ← hlo]
    congr 1
    · rw [Vec.get_slice, if_pos (by omega)]; congr 1; omega
    · rw [Vec.get_flip _ _ (by simp; omega), Vec.get_slice, if_pos (by simp; omega)]; congr 1; simp; omega

theorem toeplitz_cast_ne [CharZero α] {n k : ℕ} (h : k < n) : ((n - k : ℕ) : α) ≠ 0 := by
  rw [Nat.cast_ne_zero]; omega

theorem Tril.fromDense_toDense [CharZero α] {d : Vec α} {n : ℕ} (hn : 0 < n) (hd : d.len = n) :
    Tril.fromDense (Tril.toDense d) = .ok d := by
  obtain ⟨p, e, hl, h⟩ := toeplitzFromDense_spec (m := Tril.toDense d) hn (by simp [hd]) (by simp [hd])
  rw [Tril.fromDense, e]; congr 1
  refine Vec.ext' (by omega) fun k hk => ?_
  rw [hl] at hk
  rw [h k hk]
  have lo : ∑ i ∈ range n, (Tril.toDense d).get (i + k) i = ((n - k : ℕ) : α) * d.get k := by
    have : ∀ i ∈ range n, (Tril.toDense d).get (i + k) i = if i < n - k then d.get k else 0 := by
      intro i _
      rw [Tril.get_toDense, if_pos (by omega), hd]
      by_cases h' : i + k < n
      · rw [if_pos h', if_pos (by omega)]; congr 1; omega
      · rw [if_neg h', if_neg (by omega)]
    rw [sum_congr rfl this, ← sum_range_extend (n := n - k) (m := n) (by omega) (fun i hi => if_neg (by omega)),
      sum_congr rfl (fun i hi => if_pos (by simpa using hi)), sum_const, card_range, nsmul_eq_mul]
  have up : k ≠ 0 → ∑ i ∈ range n, (Tril.toDense d).get i (i + k) = 0 := by
    intro hk0; apply sum_eq_zero; intro i _; rw [Tril.get_toDense, if_neg (by omega)]
  by_cases hk0 : k = 0
  · subst hk0
    rw [if_pos rfl]
    simp only [Nat.add_zero] at lo
    rw [lo, mul_div_cancel_left₀ _ (toeplitz_cast_ne hk)]
  · rw [if_neg hk0, lo, up hk0, zero_add, mul_div_cancel_left₀ _ (toeplitz_cast_ne hk)]

theorem toeplitzFromDense_T {m : Mat α} (h : m.rows = m.cols) (hn : 0 < m.rows) : toeplitzFromDense m.T = toeplitzFromDense m := by
  obtain ⟨p, e, hl, h1⟩ := toeplitzFromDense_spec (m := m) hn rfl h.symm
  obtain ⟨p', e', hl', h2⟩ := toeplitzFromDense_spec (m := m.T) hn (by simp [h]) (by simp)
  rw [e, e']; congr 1
  refine Vec.ext' (by omega) fun k hk => ?_
  rw [h1 k (by omega), h2 k (by omega)]
  simp [add_comm]

theorem Triu.fromDense_toDense [CharZero α] {d : Vec α} {n : ℕ} (hn : 0 < n) (hd : d.len = n) :
    Triu.fromDense (Triu.toDense d) = .ok d := by
  rw [Triu.toDense_eq, Triu.fromDense, toeplitzFromDense_T (by simp) (by simp [hd, hn])]
  exact Tril.fromDense_toDense hn hd

theorem Toeplitz.averageTrace_spec [CharZero α] {d : Vec α} {n : ℕ} (hn : 0 < n) (hd : d.len = n) :
    Toeplitz.averageTrace d = .ok ((∑ i ∈ range n, (Tril.toDense d).get i i) / n) := by
  rw [Toeplitz.averageTrace, if_neg (by omega)]
  congr 1
  have : ∀ i ∈ range n, (Tril.toDense d).get i i = d.get 0 := by
    intro i hi; simp at hi; simp [Tril.get_toDense, hd, hi]
  rw [sum_congr rfl this, sum_const, card_range, nsmul_eq_mul, mul_div_cancel_left₀]
  exact_mod_cast hn.ne'
