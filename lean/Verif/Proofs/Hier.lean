import Verif.Spec
import Verif.Proofs.Toeplitz
import Mathlib.Algebra.BigOperators.Field

/-! Hierarchical matrices: the operations agree with dense matrices. -/

open Finset
variable {α : Type} [Field α]

/-- discharge shape side conditions -/
macro "shp" : tactic => `(tactic| first | omega | (simp; done) | (simp; omega))

theorem sum_range3 (f : ℕ → α) (a b c : ℕ) : ∑ k ∈ range (a + b + c), f k =
    ∑ t ∈ range a, f t + ∑ t ∈ range b, f (a + t) + ∑ t ∈ range c, f (a + b + t) := by
  rw [sum_range_add, sum_range_add]

theorem Mat.ext_region {a b c : ℕ} {X Y : Mat α} (hXr : X.rows = a + b + c) (hXc : X.cols = a + b + c)
    (hYr : Y.rows = a + b + c) (hYc : Y.cols = a + b + c)
    (tt : ∀ i < a, ∀ j < a, X.get i j = Y.get i j)
    (tm : ∀ i < a, ∀ j < b, X.get i (a + j) = Y.get i (a + j))
    (tb : ∀ i < a, ∀ j < c, X.get i (a + b + j) = Y.get i (a + b + j))
    (mt : ∀ i < b, ∀ j < a, X.get (a + i) j = Y.get (a + i) j)
    (mm : ∀ i < b, ∀ j < b, X.get (a + i) (a + j) = Y.get (a + i) (a + j))
    (mb : ∀ i < b, ∀ j < c, X.get (a + i) (a + b + j) = Y.get (a + i) (a + b + j))
    (bt : ∀ i < c, ∀ j < a, X.get (a + b + i) j = Y.get (a + b + i) j)
    (bm : ∀ i < c, ∀ j < b, X.get (a + b + i) (a + j) = Y.get (a + b + i) (a + j))
    (bb : ∀ i < c, ∀ j < c, X.get (a + b + i) (a + b + j) = Y.get (a + b + i) (a + b + j)) : X = Y := by
  refine Mat.ext' (by omega) (by omega) fun i hi j hj => ?_
  have key : ∀ k < a + b + c, k < a ∨ (∃ t < b, k = a + t) ∨ ∃ t < c, k = a + b + t := by
    intro k hk
    by_cases h1 : k < a
    · exact .inl h1
    · by_cases h2 : k < a + b
      · exact .inr (.inl ⟨k - a, by omega, by omega⟩)
      · exact .inr (.inr ⟨k - (a + b), by omega, by omega⟩)
  rcases key i (by omega) with hi | ⟨i, hi, rfl⟩ | ⟨i, hi, rfl⟩ <;>
    rcases key j (by omega) with hj | ⟨j, hj, rfl⟩ | ⟨j, hj, rfl⟩
  · exact tt i ‹_› j ‹_›
  · exact tm i ‹_› j ‹_›
  · exact tb i ‹_› j ‹_›
  · exact mt i ‹_› j ‹_›
  · exact mm i ‹_› j ‹_›
  · exact mb i ‹_› j ‹_›
  · exact bt i ‹_› j ‹_›
  · exact bm i ‹_› j ‹_›
  · exact bb i ‹_› j ‹_›

/-- equality of matrices with three row regions -/
theorem Mat.ext_rows3 {a b c : ℕ} {X Y : Mat α} (hXr : X.rows = a + b + c) (hYr : Y.rows = a + b + c)
    (hc : X.cols = Y.cols)
    (t : ∀ i < a, ∀ j < X.cols, X.get i j = Y.get i j)
    (m : ∀ i < b, ∀ j < X.cols, X.get (a + i) j = Y.get (a + i) j)
    (bo : ∀ i < c, ∀ j < X.cols, X.get (a + b + i) j = Y.get (a + b + i) j) : X = Y := by
  refine Mat.ext' (by omega) hc fun i hi j hj => ?_
  by_cases h1 : i < a
  · exact t i h1 j hj
  · by_cases h2 : i < a + b
    · have := m (i - a) (by omega) j hj
      rwa [show a + (i - a) = i by omega] at this
    · have := bo (i - (a + b)) (by omega) j hj
      rwa [show a + b + (i - (a + b)) = i by omega] at this

theorem Mat.get_vcat {A B : Mat α} (i j : ℕ) (h : A.cols = B.cols) :
    (A.vcat B).get i j = if i < A.rows then A.get i j else B.get (i - A.rows) j := by
  simp only [Mat.vcat, Mat.get_ofFn]
  by_cases h1 : i < A.rows
  · by_cases h2 : j < A.cols
    · simp [h1, h2, show i < A.rows + B.rows by omega]
    · simp [h1, h2, A.supp i j (by omega)]
  · by_cases h2 : j < A.cols ∧ i < A.rows + B.rows
    · simp [h1, h2]
    · rw [if_neg (by omega), if_neg h1, B.supp _ _ (by omega)]

theorem Mat.get_hcat {A B : Mat α} (i j : ℕ) (h : A.rows = B.rows) :
    (A.hcat B).get i j = if j < A.cols then A.get i j else B.get i (j - A.cols) := by
  simp only [Mat.hcat, Mat.get_ofFn]
  by_cases h1 : j < A.cols
  · by_cases h2 : i < A.rows
    · simp [h1, h2, show j < A.cols + B.cols by omega]
    · simp [h1, h2, A.supp i j (by omega)]
  · by_cases h2 : i < A.rows ∧ j < A.cols + B.cols
    · simp [h1, h2]
    · rw [if_neg (by omega), if_neg h1, B.supp _ _ (by omega)]

theorem Mat.get_setBlock {A B : Mat α} (r c i j : ℕ) (hr : r + B.rows ≤ A.rows) (hc : c + B.cols ≤ A.cols) :
    (A.setBlock r c B).get i j =
      if r ≤ i ∧ i < r + B.rows ∧ c ≤ j ∧ j < c + B.cols then B.get (i - r) (j - c) else A.get i j := by
  simp only [Mat.setBlock, Mat.get_ofFn]
  by_cases h : i < A.rows ∧ j < A.cols
  · rw [if_pos h]
  · rw [if_neg h, if_neg (by omega), A.supp _ _ (by omega)]

namespace Hier

theorem get_setDiag {m : Mat α} {s : ℕ} {v : Vec α} (i j : ℕ) (hr : s + v.len ≤ m.rows) (hc : s + v.len ≤ m.cols) :
    (setDiag m s v).get i j = if i = j ∧ s ≤ i ∧ i < s + v.len then v.get (i - s) else m.get i j := by
  simp only [setDiag, Mat.get_ofFn]
  by_cases h : i < m.rows ∧ j < m.cols
  · rw [if_pos h]
  · rw [if_neg h, if_neg (by omega), m.supp _ _ (by omega)]

variable {m1 m2 k1 d k2 n : ℕ} {h o : Hier α}

theorem Shape.dim_eq (H : h.Shape m1 m2 k1 d k2) : h.dim = k1 + d + k2 := by
  simp only [dim, K1, K2, diagDim, H.Ar, H.Er, H.Cl]; omega
theorem Shape.K1_eq (H : h.Shape m1 m2 k1 d k2) : h.K1 = k1 := H.Ar
theorem Shape.K2_eq (H : h.Shape m1 m2 k1 d k2) : h.K2 = k2 := H.Er
theorem Shape.dd_eq (H : h.Shape m1 m2 k1 d k2) : h.diagDim = d := H.Cl

@[simp] theorem rows_toDense : h.toDense.rows = h.dim := rfl
@[simp] theorem cols_toDense : h.toDense.cols = h.dim := rfl

theorem get_toDense (H : h.Shape m1 m2 k1 d k2) (i j : ℕ) : h.toDense.get i j =
    if k1 + d ≤ i ∧ i < k1 + d + k2 ∧ k1 + d ≤ j ∧ j < k1 + d + k2 then h.E.get (i - (k1 + d)) (j - (k1 + d))
    else if k1 + d ≤ i ∧ i < k1 + d + k2 ∧ k1 ≤ j ∧ j < k1 + d then h.D.get (i - (k1 + d)) (j - k1)
    else if i = j ∧ k1 ≤ i ∧ i < k1 + d then h.C.get (i - k1)
    else if 0 ≤ i ∧ i < 0 + k1 ∧ k1 ≤ j ∧ j < k1 + (d + k2) then h.B.get (i - 0) (j - k1)
    else if 0 ≤ i ∧ i < 0 + k1 ∧ 0 ≤ j ∧ j < 0 + k1 then h.A.get (i - 0) (j - 0) else 0 := by
  have hd := H.dim_eq
  have h1 := H.K1_eq
  have h3 := H.dd_eq
  have := H.Ar; have := H.Ac; have := H.Br; have := H.Bc; have := H.Cl; have := H.Dr; have := H.Dc; have := H.Er
  have := H.Ec
  simp only [toDense]
  rw [Mat.get_setBlock _ _ _ _ (by simp [setDiag]; omega) (by simp [setDiag]; omega),
    Mat.get_setBlock _ _ _ _ (by simp [setDiag]; omega) (by simp [setDiag]; omega),
    get_setDiag _ _ (by shp) (by shp),
    Mat.get_setBlock _ _ _ _ (by shp) (by shp),
    Mat.get_setBlock _ _ _ _ (by shp) (by shp), Mat.get_zeros, h1, h3, H.Ar, H.Ac, H.Br, H.Bc, H.Cl,
    H.Dr, H.Dc, H.Er, H.Ec]

section regions
variable (H : h.Shape m1 m2 k1 d k2) {i j : ℕ}
include H
theorem get_tt (hi : i < k1) (hj : j < k1) : h.toDense.get i j = h.A.get i j := by
  rw [get_toDense H, if_neg (by omega), if_neg (by omega), if_neg (by omega), if_neg (by omega), if_pos (by omega)]; rfl
theorem get_tm (hi : i < k1) (hj : j < d) : h.toDense.get i (k1 + j) = h.B.get i j := by
  rw [get_toDense H, if_neg (by omega), if_neg (by omega), if_neg (by omega), if_pos (by omega)]; congr 1; omega
theorem get_tb (hi : i < k1) (hj : j < k2) : h.toDense.get i (k1 + d + j) = h.B.get i (d + j) := by
  rw [get_toDense H, if_neg (by omega), if_neg (by omega), if_neg (by omega), if_pos (by omega)]; congr 1; omega
theorem get_mt (hi : i < d) (hj : j < k1) : h.toDense.get (k1 + i) j = 0 := by
  rw [get_toDense H, if_neg (by omega), if_neg (by omega), if_neg (by omega), if_neg (by omega), if_neg (by omega)]
theorem get_mm (hi : i < d) (hj : j < d) : h.toDense.get (k1 + i) (k1 + j) = if i = j then h.C.get i else 0 := by
  rw [get_toDense H, if_neg (by omega), if_neg (by omega)]
  by_cases hij : i = j
  · rw [if_pos (by omega), if_pos hij]; congr 1; omega
  · rw [if_neg (by omega), if_neg (by omega), if_neg (by omega), if_neg hij]
theorem get_mb (hi : i < d) (hj : j < k2) : h.toDense.get (k1 + i) (k1 + d + j) = 0 := by
  rw [get_toDense H, if_neg (by omega), if_neg (by omega), if_neg (by omega), if_neg (by omega), if_neg (by omega)]
theorem get_bt (hi : i < k2) (hj : j < k1) : h.toDense.get (k1 + d + i) j = 0 := by
  rw [get_toDense H, if_neg (by omega), if_neg (by omega), if_neg (by omega), if_neg (by omega), if_neg (by omega)]
theorem get_bm (hi : i < k2) (hj : j < d) : h.toDense.get (k1 + d + i) (k1 + j) = h.D.get i j := by
  rw [get_toDense H, if_neg (by omega), if_pos (by omega)]; congr 1 <;> omega
theorem get_bb (hi : i < k2) (hj : j < k2) : h.toDense.get (k1 + d + i) (k1 + d + j) = h.E.get i j := by
  rw [get_toDense H, if_pos (by omega)]; congr 1 <;> omega
end regions

theorem init_ok {A B : Mat α} {C : Vec α} {D E : Mat α} (H : (⟨m1, m2, A, B, C, D, E⟩ : Hier α).Shape m1 m2 k1 d k2) :
    init m1 m2 A B C D E = .ok ⟨m1, m2, A, B, C, D, E⟩ := by
  have := H.Ar; have := H.Ac; have := H.Br; have := H.Bc; have := H.Cl; have := H.Dr; have := H.Dc; have := H.Er
  have := H.Ec; have := H.le1; have := H.le2
  simp only at *
  rw [init, if_neg (by omega), if_neg (by omega), if_neg (by omega), if_neg (by omega), if_neg (by omega)]

section sums
variable (H : h.Shape m1 m2 k1 d k2) {i j : ℕ} (f : ℕ → α)
include H
theorem sum_top (hi : i < k1) : ∑ k ∈ range (k1 + d + k2), h.toDense.get i k * f k =
    ∑ t ∈ range k1, h.A.get i t * f t + ∑ t ∈ range d, h.B.get i t * f (k1 + t) +
      ∑ t ∈ range k2, h.B.get i (d + t) * f (k1 + d + t) := by
  rw [sum_range3]
  congr 1
  · congr 1
    · exact sum_congr rfl fun t ht => by rw [get_tt H hi (by simpa using ht)]
    · exact sum_congr rfl fun t ht => by rw [get_tm H hi (by simpa using ht)]
  · exact sum_congr rfl fun t ht => by rw [get_tb H hi (by simpa using ht)]
theorem sum_mid (hi : i < d) : ∑ k ∈ range (k1 + d + k2), h.toDense.get (k1 + i) k * f k = h.C.get i * f (k1 + i) := by
  rw [sum_range3, sum_eq_zero, sum_eq_single i, zero_add, get_mm H hi hi, if_pos rfl, sum_eq_zero, add_zero]
  · intro t ht; rw [get_mb H hi (by simpa using ht), zero_mul]
  · intro t ht hne; rw [get_mm H hi (by simpa using ht), if_neg hne.symm, zero_mul]
  · intro hh; exact absurd hi (by simpa using hh)
  · intro t ht; rw [get_mt H hi (by simpa using ht), zero_mul]
theorem sum_bot (hi : i < k2) : ∑ k ∈ range (k1 + d + k2), h.toDense.get (k1 + d + i) k * f k =
    ∑ t ∈ range d, h.D.get i t * f (k1 + t) + ∑ t ∈ range k2, h.E.get i t * f (k1 + d + t) := by
  rw [sum_range3, sum_eq_zero, zero_add]
  · congr 1
    · exact sum_congr rfl fun t ht => by rw [get_bm H hi (by simpa using ht)]
    · exact sum_congr rfl fun t ht => by rw [get_bb H hi (by simpa using ht)]
  · intro t ht; rw [get_bt H hi (by simpa using ht), zero_mul]
theorem sum_left (hj : j < k1) : ∑ k ∈ range (k1 + d + k2), h.toDense.get k j * f k =
    ∑ t ∈ range k1, h.A.get t j * f t := by
  rw [sum_range3, add_assoc, ← add_zero (∑ t ∈ range k1, h.A.get t j * f t)]
  congr 1
  · exact sum_congr rfl fun t ht => by rw [get_tt H (by simpa using ht) hj]
  · rw [sum_eq_zero, sum_eq_zero, add_zero]
    · intro t ht; rw [get_bt H (by simpa using ht) hj, zero_mul]
    · intro t ht; rw [get_mt H (by simpa using ht) hj, zero_mul]
theorem sum_center (hj : j < d) : ∑ k ∈ range (k1 + d + k2), h.toDense.get k (k1 + j) * f k =
    ∑ t ∈ range k1, h.B.get t j * f t + h.C.get j * f (k1 + j) + ∑ t ∈ range k2, h.D.get t j * f (k1 + d + t) := by
  rw [sum_range3]
  congr 1
  · congr 1
    · exact sum_congr rfl fun t ht => by rw [get_tm H (by simpa using ht) hj]
    · rw [sum_eq_single j, get_mm H hj hj, if_pos rfl]
      · intro t ht hne; rw [get_mm H (by simpa using ht) hj, if_neg hne, zero_mul]
      · intro hh; exact absurd hj (by simpa using hh)
  · exact sum_congr rfl fun t ht => by rw [get_bm H (by simpa using ht) hj]
theorem sum_right (hj : j < k2) : ∑ k ∈ range (k1 + d + k2), h.toDense.get k (k1 + d + j) * f k =
    ∑ t ∈ range k1, h.B.get t (d + j) * f t + ∑ t ∈ range k2, h.E.get t j * f (k1 + d + t) := by
  rw [sum_range3]
  congr 1
  · conv_rhs => rw [← add_zero (∑ t ∈ range k1, _)]
    congr 1
    · exact sum_congr rfl fun t ht => by rw [get_tb H (by simpa using ht) hj]
    · exact sum_eq_zero fun t ht => by rw [get_mb H (by simpa using ht) hj, zero_mul]
  · exact sum_congr rfl fun t ht => by rw [get_bb H (by simpa using ht) hj]
end sums

theorem matmulT_spec (H : h.Shape m1 m2 k1 d k2) {X : Mat α} (hX : X.rows = k1 + d + k2) :
    h.matmulT X = .ok (h.toDense.mul X) := by
  have a1 := H.Ar; have a2 := H.Ac; have a3 := H.Br; have a4 := H.Bc; have a5 := H.Cl; have a6 := H.Dr
  have a7 := H.Dc; have a8 := H.Er; have a9 := H.Ec
  rw [matmulT, H.K1_eq, H.K2_eq, H.dd_eq, Mat.split2c_ok (by omega), Except.bind_ok']
  dsimp only
  rw [Mat.split3_ok hX.symm, Except.bind_ok']
  dsimp only
  rw [Mat.matmul_ok (by shp), Except.bind_ok', Mat.matmul_ok (by shp), Except.bind_ok',
    Mat.matmul_ok (by shp), Except.bind_ok', Mat.add?_ok (by shp) (by simp), Except.bind_ok',
    Mat.add?_ok (by shp) (by simp), Except.bind_ok', Mat.scaleRows?_ok (by shp), Except.bind_ok',
    Mat.matmul_ok (by shp), Except.bind_ok', Mat.matmul_ok (by shp), Except.bind_ok',
    Mat.add?_ok (by shp) (by simp), Except.bind_ok', Mat.vcat?_ok (by simp), Except.bind_ok',
    Mat.vcat?_ok (by simp)]
  congr 1
  refine Mat.ext_rows3 (a := k1) (b := d) (c := k2) (by shp) (by simp [H.dim_eq]) (by simp) ?_ ?_ ?_
  · intro i hi j hj
    simp at hj
    rw [Mat.get_mul, cols_toDense, H.dim_eq, sum_top H _ hi]
    rw [Mat.get_vcat _ _ (by simp), if_pos (by shp), Mat.get_vcat _ _ (by simp), if_pos (by shp),
      Mat.get_add (by shp) (by simp), Mat.get_add (by shp) (by simp), Mat.get_mul, Mat.get_mul, Mat.get_mul]
    simp only [Mat.cols_slice, a2, a4, Mat.get_slice, a3]
    congr 1
    · congr 1
      · refine sum_congr rfl fun t ht => ?_
        simp at ht
        rw [if_pos (by omega)]; simp
      · rw [show min d (d + k2) - 0 = d by omega]
        refine sum_congr rfl fun t ht => ?_
        simp at ht
        rw [if_pos (by omega), if_pos (by omega)]; simp
    · rw [show min (d + k2) (d + k2) - d = k2 by omega]
      refine sum_congr rfl fun t ht => ?_
      simp at ht
      rw [if_pos (by omega), if_pos (by omega)]; simp
  · intro i hi j hj
    simp at hj
    rw [Mat.get_mul, cols_toDense, H.dim_eq, sum_mid H _ hi]
    rw [Mat.get_vcat _ _ (by simp), if_pos (by shp), Mat.get_vcat _ _ (by simp), if_neg (by shp),
      Mat.get_scaleRows, Mat.get_slice, if_pos (by shp)]
    simp [a1]
  · intro i hi j hj
    simp at hj
    rw [Mat.get_mul, cols_toDense, H.dim_eq, sum_bot H _ hi]
    rw [Mat.get_vcat _ _ (by simp), if_neg (by shp), 
      Mat.get_add (by shp) (by simp), Mat.get_mul, Mat.get_mul]
    simp only [Mat.rows_vcat, Mat.rows_add, Mat.rows_mul, Mat.rows_scaleRows, Mat.rows_slice]
    rw [show k1 + d + i - (h.A.rows + (min (k1 + d) X.rows - k1)) = i by omega, a7, a9]
    simp only [Mat.get_slice]
    congr 1
    · refine sum_congr rfl fun t ht => ?_
      simp at ht
      rw [if_pos (by omega)]; simp
    · refine sum_congr rfl fun t ht => ?_
      simp at ht
      rw [if_pos (by omega)]; simp

theorem rmatmat_spec (H : h.Shape m1 m2 k1 d k2) {X : Mat α} (hX : X.rows = k1 + d + k2) :
    h.rmatmat X = .ok (h.toDense.T.mul X) := by
  have a1 := H.Ar; have a2 := H.Ac; have a3 := H.Br; have a4 := H.Bc; have a5 := H.Cl; have a6 := H.Dr
  have a7 := H.Dc; have a8 := H.Er; have a9 := H.Ec
  rw [rmatmat, H.K1_eq, H.K2_eq, H.dd_eq, Mat.split3_ok hX.symm, Except.bind_ok']
  dsimp only
  rw [Mat.split2c_ok (by omega), Except.bind_ok']
  dsimp only
  rw [Mat.matmul_ok (by shp), Except.bind_ok', Mat.matmul_ok (by shp), Except.bind_ok',
    Mat.scaleRows?_ok (by shp), Except.bind_ok', Mat.matmul_ok (by shp), Except.bind_ok',
    Mat.add?_ok (by shp) (by simp), Except.bind_ok', Mat.add?_ok (by shp) (by simp), Except.bind_ok',
    Mat.matmul_ok (by shp), Except.bind_ok', Mat.matmul_ok (by shp), Except.bind_ok',
    Mat.add?_ok (by shp) (by simp), Except.bind_ok', Mat.vcat?_ok (by simp), Except.bind_ok',
    Mat.vcat?_ok (by simp)]
  congr 1
  refine Mat.ext_rows3 (a := k1) (b := d) (c := k2) (by shp) (by simp [H.dim_eq]) (by simp) ?_ ?_ ?_
  · intro i hi j hj
    simp at hj
    rw [Mat.get_mul, Mat.cols_T, rows_toDense, H.dim_eq]
    simp only [Mat.get_T]
    rw [sum_left H _ hi]
    rw [Mat.get_vcat _ _ (by simp), if_pos (by shp), Mat.get_vcat _ _ (by simp), if_pos (by shp),
      Mat.get_mul]
    simp only [Mat.cols_T, a1, Mat.get_slice, Mat.get_T]
    refine sum_congr rfl fun t ht => ?_
    simp at ht
    rw [if_pos (by omega)]; simp
  · intro i hi j hj
    simp at hj
    rw [Mat.get_mul, Mat.cols_T, rows_toDense, H.dim_eq]
    simp only [Mat.get_T]
    rw [sum_center H _ hi]
    rw [Mat.get_vcat _ _ (by simp), if_pos (by shp), Mat.get_vcat _ _ (by simp), if_neg (by shp),
      Mat.get_add (by shp) (by simp), Mat.get_add (by shp) (by simp), Mat.get_mul, Mat.get_mul,
      Mat.get_scaleRows, Mat.get_slice, if_pos (by shp)]
    simp only [Mat.cols_T, Mat.rows_mul, Mat.rows_T, Mat.rows_slice, a2, a3, a6, Mat.get_T]
    rw [show k1 + i - k1 = i by omega]
    simp only [Mat.get_slice]
    congr 1
    · congr 1
      · refine sum_congr (by simp) fun t ht => ?_
        simp at ht
        rw [if_pos (by omega), if_pos (by omega)]; simp
      · simp
    · refine sum_congr rfl fun t ht => ?_
      simp at ht
      rw [if_pos (by omega)]; simp
  · intro i hi j hj
    simp at hj
    rw [Mat.get_mul, Mat.cols_T, rows_toDense, H.dim_eq]
    simp only [Mat.get_T]
    rw [sum_right H _ hi]
    rw [Mat.get_vcat _ _ (by simp), if_neg (by shp),
      Mat.get_add (by shp) (by simp), Mat.get_mul, Mat.get_mul]
    simp only [Mat.rows_vcat, Mat.rows_add, Mat.rows_mul, Mat.rows_T, Mat.cols_T, Mat.cols_slice, Mat.rows_slice, Mat.get_T]
    rw [show k1 + d + i - (h.A.cols + (min d h.B.cols - 0)) = i by omega, a8]
    simp only [Mat.get_slice]
    congr 1
    · refine sum_congr (by simp [a3]) fun t ht => ?_
      simp [a3] at ht
      rw [if_pos (by omega), if_pos (by omega)]; simp
    · refine sum_congr rfl fun t ht => ?_
      simp at ht
      rw [if_pos (by omega)]; simp

theorem matmulS_spec (H : h.Shape m1 m2 k1 d k2) (O : o.Shape m1 m2 k1 d k2) :
    ∃ p, h.matmulS o = .ok p ∧ p.Shape m1 m2 k1 d k2 ∧ p.toDense = h.toDense.mul o.toDense := by
  have a1 := H.Ar; have a2 := H.Ac; have a3 := H.Br; have a4 := H.Bc; have a5 := H.Cl; have a6 := H.Dr
  have a7 := H.Dc; have a8 := H.Er; have a9 := H.Ec
  have b1 := O.Ar; have b2 := O.Ac; have b3 := O.Br; have b4 := O.Bc; have b5 := O.Cl; have b6 := O.Dr
  have b7 := O.Dc; have b8 := O.Er; have b9 := O.Ec
  rw [matmulS, H.K2_eq, H.dd_eq, O.K2_eq, O.dd_eq, Mat.split2c_ok (by omega), Except.bind_ok']
  dsimp only
  rw [Mat.matmul_ok (by shp), Except.bind_ok', Vec.had?_ok (by omega), Except.bind_ok',
    Mat.matmul_ok (by shp), Except.bind_ok', Mat.scaleCols?_ok (by shp), Except.bind_ok',
    Mat.matmul_ok (by shp), Except.bind_ok', Mat.add?_ok (by shp) (by shp), Except.bind_ok',
    Mat.split2c_ok (by omega), Except.bind_ok']
  dsimp only
  rw [Mat.matmul_ok (by shp), Except.bind_ok', Mat.scaleCols?_ok (by shp), Except.bind_ok',
    Mat.add?_ok (by shp) (by shp), Except.bind_ok', Mat.matmul_ok (by shp), Except.bind_ok',
    Mat.add?_ok (by shp) (by shp), Except.bind_ok', Mat.matmul_ok (by shp), Except.bind_ok',
    Mat.matmul_ok (by shp), Except.bind_ok',
    Mat.add?_ok (by shp) (by shp), Except.bind_ok', Mat.hcat?_ok (by simp), Except.bind_ok',
    H.h1, H.h2]
  have S : Shape m1 m2 k1 d k2 (⟨m1, m2, h.A.mul o.A,
      ((((h.A.mul (o.B.slice 0 o.B.rows 0 d)).add ((h.B.slice 0 h.B.rows 0 d).scaleCols o.C)).add
                ((h.B.slice 0 h.B.rows d (d + k2)).mul o.D)).hcat
            ((h.A.mul (o.B.slice 0 o.B.rows d (d + k2))).add ((h.B.slice 0 h.B.rows d (d + k2)).mul o.E))),
      h.C.had o.C, (h.D.scaleCols o.C).add (h.E.mul o.D), h.E.mul o.E⟩ : Hier α) := by
    refine ⟨rfl, rfl, H.le1, H.le2, ?_, ?_, ?_, ?_, ?_, ?_, ?_, ?_, ?_⟩ <;> dsimp only <;> shp
  refine ⟨_, init_ok S, S, ?_⟩
  refine Mat.ext_region (a := k1) (b := d) (c := k2) S.dim_eq S.dim_eq H.dim_eq O.dim_eq ?_ ?_ ?_ ?_ ?_ ?_ ?_ ?_ ?_ <;>
    intro i hi j hj <;> rw [Mat.get_mul, cols_toDense, H.dim_eq]
  · rw [get_tt S hi hj, sum_top H _ hi, Mat.get_mul, a2, sum_eq_zero (s := range d), sum_eq_zero (s := range k2),
      add_zero, add_zero]
    · exact sum_congr rfl fun t ht => by rw [get_tt O (by simpa using ht) hj]
    · intro t ht; rw [get_bt O (by simpa using ht) hj, mul_zero]
    · intro t ht; rw [get_mt O (by simpa using ht) hj, mul_zero]
  · rw [get_tm S hi hj, sum_top H _ hi]
    dsimp only
    rw [Mat.get_hcat _ _ (by simp), if_pos (by shp), Mat.get_add (by shp) (by shp),
      Mat.get_add (by shp) (by shp), Mat.get_mul, Mat.get_mul, Mat.get_scaleCols, a2]
    simp only [Mat.cols_slice, Mat.get_slice]
    congr 1
    · congr 1
      · refine sum_congr rfl fun t ht => ?_
        simp at ht
        rw [if_pos (by omega), get_tm O ht hj]; simp
      · rw [sum_eq_single j, get_mm O hj hj, if_pos rfl, if_pos (by omega)]
        · simp
        · intro t ht hne; rw [get_mm O (by simpa using ht) hj, if_neg hne, mul_zero]
        · intro hh; exact absurd hj (by simpa using hh)
    · refine sum_congr (by simp [a4]) fun t ht => ?_
      simp [a4] at ht
      rw [if_pos (by omega), get_bm O ht hj]; simp
  · rw [get_tb S hi hj, sum_top H _ hi]
    dsimp only
    rw [Mat.get_hcat _ _ (by simp), if_neg (by shp), Mat.get_add (by shp) (by shp),
      Mat.get_mul, Mat.get_mul, a2]
    simp only [Mat.cols_slice, Mat.get_slice, Mat.cols_add, Mat.cols_mul]
    rw [show d + j - (min d o.B.cols - 0) = j by omega]
    congr 1
    · conv_lhs => rw [← add_zero (∑ t ∈ range k1, _)]
      congr 1
      · refine sum_congr rfl fun t ht => ?_
        simp at ht
        rw [if_pos (by omega), get_tb O ht hj]; simp
      · symm; exact sum_eq_zero fun t ht => by rw [get_mb O (by simpa using ht) hj, mul_zero]
    · refine sum_congr (by simp [a4]) fun t ht => ?_
      simp [a4] at ht
      rw [if_pos (by omega), get_bb O ht hj]; simp
  · rw [get_mt S hi hj, sum_mid H _ hi, get_mt O hi hj, mul_zero]
  · rw [get_mm S hi hj, sum_mid H _ hi, get_mm O hi hj]
    by_cases hij : i = j
    · simp [hij]
    · simp [hij]
  · rw [get_mb S hi hj, sum_mid H _ hi, get_mb O hi hj, mul_zero]
  · rw [get_bt S hi hj, sum_bot H _ hi, sum_eq_zero, sum_eq_zero, add_zero]
    · intro t ht; rw [get_bt O (by simpa using ht) hj, mul_zero]
    · intro t ht; rw [get_mt O (by simpa using ht) hj, mul_zero]
  · rw [get_bm S hi hj, sum_bot H _ hi]
    dsimp only
    rw [Mat.get_add (by shp) (by shp), Mat.get_mul, Mat.get_scaleCols, a9]
    congr 1
    · rw [sum_eq_single j, get_mm O hj hj, if_pos rfl]
      · intro t ht hne; rw [get_mm O (by simpa using ht) hj, if_neg hne, mul_zero]
      · intro hh; exact absurd hj (by simpa using hh)
    · exact sum_congr rfl fun t ht => by rw [get_bm O (by simpa using ht) hj]
  · rw [get_bb S hi hj, sum_bot H _ hi]
    dsimp only
    rw [Mat.get_mul, a9, sum_eq_zero (s := range d), zero_add]
    · exact sum_congr rfl fun t ht => by rw [get_bb O (by simpa using ht) hj]
    · intro t ht; rw [get_mb O (by simpa using ht) hj, mul_zero]

theorem add_spec (H : h.Shape m1 m2 k1 d k2) (O : o.Shape m1 m2 k1 d k2) :
    ∃ p, h.add o = .ok p ∧ p.Shape m1 m2 k1 d k2 ∧ p.toDense = h.toDense.add o.toDense := by
  have a1 := H.Ar; have a2 := H.Ac; have a3 := H.Br; have a4 := H.Bc; have a5 := H.Cl; have a6 := H.Dr
  have a7 := H.Dc; have a8 := H.Er; have a9 := H.Ec
  have b1 := O.Ar; have b2 := O.Ac; have b3 := O.Br; have b4 := O.Bc; have b5 := O.Cl; have b6 := O.Dr
  have b7 := O.Dc; have b8 := O.Er; have b9 := O.Ec
  rw [add, Mat.add?_ok (by omega) (by omega), Except.bind_ok', Mat.add?_ok (by omega) (by omega), Except.bind_ok',
    Vec.add?_ok (by omega), Except.bind_ok', Mat.add?_ok (by omega) (by omega), Except.bind_ok',
    Mat.add?_ok (by omega) (by omega), Except.bind_ok', H.h1, H.h2]
  have S : Shape m1 m2 k1 d k2 (⟨m1, m2, h.A.add o.A, h.B.add o.B, h.C.add o.C, h.D.add o.D, h.E.add o.E⟩ : Hier α) :=
    ⟨rfl, rfl, H.le1, H.le2, a1, a2, a3, a4, a5, a6, a7, a8, a9⟩
  refine ⟨_, init_ok S, S, Mat.ext' (by simp [S.dim_eq, H.dim_eq]) (by simp [S.dim_eq, H.dim_eq]) fun i _ j _ => ?_⟩
  rw [Mat.get_add (by simp [O.dim_eq, H.dim_eq]) (by simp [O.dim_eq, H.dim_eq]), get_toDense S, get_toDense H, get_toDense O]
  dsimp only
  rw [Mat.get_add (by omega) (by omega), Mat.get_add (by omega) (by omega), Mat.get_add (by omega) (by omega),
    Mat.get_add (by omega) (by omega), Vec.get_add (by omega)]
  split_ifs <;> simp

theorem smul_core (H : h.Shape m1 m2 k1 d k2) (s : α) :
    (⟨m1, m2, h.A.smul s, h.B.smul s, h.C.smul s, h.D.smul s, h.E.smul s⟩ : Hier α).Shape m1 m2 k1 d k2 ∧
    (⟨m1, m2, h.A.smul s, h.B.smul s, h.C.smul s, h.D.smul s, h.E.smul s⟩ : Hier α).toDense = h.toDense.smul s := by
  have S : Shape m1 m2 k1 d k2 (⟨m1, m2, h.A.smul s, h.B.smul s, h.C.smul s, h.D.smul s, h.E.smul s⟩ : Hier α) :=
    ⟨rfl, rfl, H.le1, H.le2, H.Ar, H.Ac, H.Br, H.Bc, H.Cl, H.Dr, H.Dc, H.Er, H.Ec⟩
  refine ⟨S, Mat.ext' (by simp [S.dim_eq, H.dim_eq]) (by simp [S.dim_eq, H.dim_eq]) fun i _ j _ => ?_⟩
  rw [Mat.get_smul, get_toDense S, get_toDense H]
  dsimp only
  simp only [Mat.get_smul, Vec.get_smul]
  split_ifs <;> simp

theorem smul_spec (H : h.Shape m1 m2 k1 d k2) (s : α) :
    ∃ p, h.smul s = .ok p ∧ p.Shape m1 m2 k1 d k2 ∧ p.toDense = h.toDense.smul s := by
  obtain ⟨S, e⟩ := smul_core H s
  refine ⟨_, ?_, S, e⟩
  rw [smul, H.h1, H.h2, init_ok S]

theorem get_diagAdd' {m : Mat α} (s : α) {i j : ℕ} (hi : i < m.rows) (hj : j < m.cols) :
    (m.diagAdd s).get i j = m.get i j + if i = j then s else 0 := by
  simp only [Mat.diagAdd, Mat.get_ofFn, hi, hj, and_self, if_true]
  split_ifs <;> simp

theorem utilsDiagAdd_ok {m : Mat α} (s : α) (h : m.rows = m.cols) : utilsDiagAdd m s = .ok (m.diagAdd s) := by
  rw [utilsDiagAdd, if_neg (by omega)]

theorem diagAdd_spec (H : h.Shape m1 m2 k1 d k2) (s : α) :
    ∃ p, h.diagAdd s = .ok p ∧ p.Shape m1 m2 k1 d k2 ∧ p.toDense = h.toDense.diagAdd s := by
  have a1 := H.Ar; have a2 := H.Ac; have a3 := H.Br; have a4 := H.Bc; have a5 := H.Cl; have a6 := H.Dr
  have a7 := H.Dc; have a8 := H.Er; have a9 := H.Ec
  rw [diagAdd, utilsDiagAdd_ok _ (by omega), Except.bind_ok', utilsDiagAdd_ok _ (by omega), Except.bind_ok', Except.pure_ok]
  have S : Shape m1 m2 k1 d k2 ({ h with A := h.A.diagAdd s, C := h.C.addScalar s, E := h.E.diagAdd s } : Hier α) :=
    ⟨H.h1, H.h2, H.le1, H.le2, a1, a2, a3, a4, a5, a6, a7, a8, a9⟩
  refine ⟨_, rfl, S, ?_⟩
  refine Mat.ext_region (a := k1) (b := d) (c := k2) S.dim_eq S.dim_eq H.dim_eq H.dim_eq ?_ ?_ ?_ ?_ ?_ ?_ ?_ ?_ ?_ <;>
    intro i hi j hj <;> rw [get_diagAdd' _ (by simp [H.dim_eq]; omega) (by simp [H.dim_eq]; omega)]
  · rw [get_tt S hi hj, get_tt H hi hj, get_diagAdd' _ (by omega) (by omega)]
  · rw [get_tm S hi hj, get_tm H hi hj, if_neg (by omega), add_zero]
  · rw [get_tb S hi hj, get_tb H hi hj, if_neg (by omega), add_zero]
  · rw [get_mt S hi hj, get_mt H hi hj, if_neg (by omega), add_zero]
  · rw [get_mm S hi hj, get_mm H hi hj]
    by_cases hij : i = j
    · simp [hij, Vec.addScalar, a5, hj]
    · simp [hij]
  · rw [get_mb S hi hj, get_mb H hi hj, if_neg (by omega), add_zero]
  · rw [get_bt S hi hj, get_bt H hi hj, if_neg (by omega), add_zero]
  · rw [get_bm S hi hj, get_bm H hi hj, if_neg (by omega), add_zero]
  · rw [get_bb S hi hj, get_bb H hi hj, get_diagAdd' _ (by omega) (by omega)]
    simp

theorem blockDims_eq (hd : HierDims m1 m2 n k1 d k2) : blockDims m1 m2 n = (k1, d, k2) := by
  obtain ⟨h1, h2, h3⟩ := hd
  rw [blockDims]
  by_cases c1 : n ≤ m1
  · rw [if_pos c1]; ext <;> simp <;> omega
  · rw [if_neg c1]
    by_cases c2 : n ≤ m1 + m2
    · rw [if_pos c2]; ext <;> simp <;> omega
    · rw [if_neg c2]; ext <;> simp <;> omega

theorem hierDims_blockDims (m1 m2 n : ℕ) :
    HierDims m1 m2 n (blockDims m1 m2 n).1 (blockDims m1 m2 n).2.1 (blockDims m1 m2 n).2.2 := by
  rw [blockDims]
  split_ifs <;> constructor <;> simp <;> omega

theorem HierDims.le1 (hd : HierDims m1 m2 n k1 d k2) : k1 ≤ m1 := by have := hd.k1_eq; omega
theorem HierDims.le2 (hd : HierDims m1 m2 n k1 d k2) : k2 ≤ m2 := by have := hd.k2_eq; omega

theorem zeros_spec (hd : HierDims m1 m2 n k1 d k2) :
    ∃ p : Hier α, zeros m1 m2 n = .ok p ∧ p.Shape m1 m2 k1 d k2 ∧ p.toDense = Mat.zeros n n := by
  have S : Shape m1 m2 k1 d k2 (⟨m1, m2, Mat.zeros k1 k1, Mat.zeros k1 (d + k2), Vec.zeros d, Mat.zeros k2 d,
    Mat.zeros k2 k2⟩ : Hier α) := ⟨rfl, rfl, HierDims.le1 hd, HierDims.le2 hd, rfl, rfl, rfl, rfl, rfl, rfl, rfl, rfl, rfl⟩
  refine ⟨_, by rw [zeros, blockDims_eq hd]; exact init_ok S, S,
    Mat.ext' (by simp [S.dim_eq, hd.sum]) (by simp [S.dim_eq, hd.sum]) fun i _ j _ => ?_⟩
  rw [get_toDense S]; simp

theorem eye_spec (hd : HierDims m1 m2 n k1 d k2) :
    ∃ p : Hier α, eye m1 m2 n = .ok p ∧ p.Shape m1 m2 k1 d k2 ∧ p.toDense = Mat.eye n := by
  have S : Shape m1 m2 k1 d k2 (⟨m1, m2, Mat.eye k1, Mat.zeros k1 (d + k2), Vec.ones d, Mat.zeros k2 d,
    Mat.eye k2⟩ : Hier α) := ⟨rfl, rfl, HierDims.le1 hd, HierDims.le2 hd, rfl, rfl, rfl, rfl, rfl, rfl, rfl, rfl, rfl⟩
  refine ⟨_, by rw [eye, blockDims_eq hd]; exact init_ok S, S, ?_⟩
  have hn := hd.sum
  refine Mat.ext_region (a := k1) (b := d) (c := k2) S.dim_eq S.dim_eq hn.symm hn.symm ?_ ?_ ?_ ?_ ?_ ?_ ?_ ?_ ?_ <;>
    intro i hi j hj <;> rw [Mat.get_eye]
  · rw [get_tt S hi hj, Mat.get_eye]; congr 1; simp; omega
  · rw [get_tm S hi hj, if_neg (by omega)]; simp
  · rw [get_tb S hi hj, if_neg (by omega)]; simp
  · rw [get_mt S hi hj, if_neg (by omega)]
  · rw [get_mm S hi hj]
    by_cases hij : i = j
    · rw [if_pos hij, if_pos (by omega)]; simp [hi]
    · rw [if_neg hij, if_neg (by omega)]
  · rw [get_mb S hi hj, if_neg (by omega)]
  · rw [get_bt S hi hj, if_neg (by omega)]
  · rw [get_bm S hi hj, if_neg (by omega)]; simp
  · rw [get_bb S hi hj, Mat.get_eye]
    by_cases hij : i = j
    · rw [if_pos (by omega), if_pos (by omega)]
    · rw [if_neg (by omega), if_neg (by omega)]

/-- what `from_dense` stores -/
structure FromDense (k1 d k2 : ℕ) (m : Mat α) (h : Hier α) : Prop where
  a : ∀ i < k1, ∀ j < k1, h.A.get i j = m.get i j
  b : ∀ i < k1, ∀ j < d + k2, h.B.get i j = m.get i (k1 + j) * 2
  c : ∀ i < d, h.C.get i = m.get (k1 + i) (k1 + i)
  dd : ∀ i < k2, ∀ j < d, h.D.get i j = m.get (k1 + d + i) (k1 + j) * 2
  e : ∀ i < k2, ∀ j < k2, h.E.get i j = m.get (k1 + d + i) (k1 + d + j)

theorem ext_shape {p : Hier α} {m : Mat α} (H : h.Shape m1 m2 k1 d k2) (P : p.Shape m1 m2 k1 d k2)
    (f : FromDense k1 d k2 m h) (g : FromDense k1 d k2 m p) : h = p := by
  have eA : h.A = p.A := Mat.ext' (H.Ar.trans P.Ar.symm) (H.Ac.trans P.Ac.symm) fun i hi j hj => by
    rw [H.Ar] at hi; rw [H.Ac] at hj; rw [f.a i hi j hj, g.a i hi j hj]
  have eB : h.B = p.B := Mat.ext' (H.Br.trans P.Br.symm) (H.Bc.trans P.Bc.symm) fun i hi j hj => by
    rw [H.Br] at hi; rw [H.Bc] at hj; rw [f.b i hi j hj, g.b i hi j hj]
  have eC : h.C = p.C := Vec.ext' (H.Cl.trans P.Cl.symm) fun i hi => by
    rw [H.Cl] at hi; rw [f.c i hi, g.c i hi]
  have eD : h.D = p.D := Mat.ext' (H.Dr.trans P.Dr.symm) (H.Dc.trans P.Dc.symm) fun i hi j hj => by
    rw [H.Dr] at hi; rw [H.Dc] at hj; rw [f.dd i hi j hj, g.dd i hi j hj]
  have eE : h.E = p.E := Mat.ext' (H.Er.trans P.Er.symm) (H.Ec.trans P.Ec.symm) fun i hi j hj => by
    rw [H.Er] at hi; rw [H.Ec] at hj; rw [f.e i hi j hj, g.e i hi j hj]
  have e1 := H.h1.trans P.h1.symm
  have e2 := H.h2.trans P.h2.symm
  cases h; cases p; simp_all

theorem fromDense_spec (hd : HierDims m1 m2 n k1 d k2) {m : Mat α} (hr : m.rows = n) (hc : m.cols = n) :
    ∃ p, fromDense m1 m2 m = .ok p ∧ p.Shape m1 m2 k1 d k2 ∧ FromDense k1 d k2 m p := by
  have hn := hd.sum
  have S : Shape m1 m2 k1 d k2 (⟨m1, m2, m.slice 0 k1 0 k1, (m.slice 0 k1 k1 m.cols).smul 2, m.diag.slice k1 (k1 + d),
      (m.slice (k1 + d) m.rows k1 (k1 + d)).smul 2, m.slice (k1 + d) m.rows (k1 + d) m.cols⟩ : Hier α) := by
    refine ⟨rfl, rfl, HierDims.le1 hd, HierDims.le2 hd, ?_, ?_, ?_, ?_, ?_, ?_, ?_, ?_, ?_⟩ <;> simp <;> omega
  refine ⟨_, ?_, S, ?_⟩
  · rw [fromDense, if_neg (by omega), hr, blockDims_eq hd]; exact hr ▸ init_ok S
  · constructor
    · intro i hi j hj; rw [Mat.get_slice, if_pos (by omega)]; simp
    · intro i hi j hj; rw [Mat.get_smul, Mat.get_slice, if_pos (by omega)]; simp
    · intro i hi; rw [Vec.get_slice, if_pos (by omega)]; simp
    · intro i hi j hj; rw [Mat.get_smul, Mat.get_slice, if_pos (by omega)]
    · intro i hi j hj; rw [Mat.get_slice, if_pos (by omega)]

theorem averageTrace_spec (H : h.Shape m1 m2 k1 d k2) :
    h.averageTrace = (∑ i ∈ range (k1 + d + k2), h.toDense.get i i) / ((k1 + d + k2 : ℕ) : α) := by
  rw [averageTrace, sum_range3]
  simp only [Mat.len_diag, Mat.get_diag, H.Ar, H.Ac, H.Cl, H.Er, H.Ec, min_self]
  rw [add_div, add_div, sum_div, sum_div, sum_div]
  congr 1
  · congr 1
    · exact sum_congr rfl fun t ht => by rw [get_tt H (by simpa using ht) (by simpa using ht)]
    · exact sum_congr rfl fun t ht => by rw [get_mm H (by simpa using ht) (by simpa using ht), if_pos rfl]
  · exact sum_congr rfl fun t ht => by rw [get_bb H (by simpa using ht) (by simpa using ht)]

/-- `from_inner()` is `from_dense` of `Kᵀ K` -/
theorem fromInner_none (hd : HierDims m1 m2 n k1 d k2) (H : h.Shape m1 m2 k1 d k2) :
    h.fromInner none = fromDense m1 m2 (h.toDense.T.mul h.toDense) := by
  have a1 := H.Ar; have a2 := H.Ac; have a3 := H.Br; have a4 := H.Bc; have a5 := H.Cl; have a6 := H.Dr
  have a7 := H.Dc; have a8 := H.Er; have a9 := H.Ec
  obtain ⟨p, e, P, f⟩ := fromDense_spec hd (m := h.toDense.T.mul h.toDense) (by simp [H.dim_eq, hd.sum])
    (by simp [H.dim_eq, hd.sum])
  rw [e, fromInner, H.K2_eq, H.dd_eq]
  dsimp only
  rw [Mat.matmul_ok (by simp), Except.bind_ok', Mat.matmul_ok (by shp), Except.bind_ok', Mat.split2c_ok (by omega),
    Except.bind_ok']
  dsimp only
  rw [Vec.add?_ok (by shp), Except.bind_ok', Vec.add?_ok (by shp), Except.bind_ok',
    Mat.matmul_ok (by simp), Except.bind_ok', Mat.matmul_ok (by shp), Except.bind_ok',
    Mat.add?_ok (by shp) (by shp), Except.bind_ok', Mat.matmul_ok (by simp), Except.bind_ok',
    Mat.matmul_ok (by simp), Except.bind_ok', Mat.add?_ok (by shp) (by shp), Except.bind_ok', H.h1, H.h2]
  have S : Shape m1 m2 k1 d k2 (⟨m1, m2, h.A.T.mul h.A, (h.A.T.smul 2).mul h.B,
      ((h.C.had h.C).add (h.B.slice 0 h.B.rows 0 d).colSq).add h.D.colSq,
      (((h.B.slice 0 h.B.rows d (d + k2)).T.mul (h.B.slice 0 h.B.rows 0 d)).add (h.E.T.mul h.D)).smul 2,
      (h.E.T.mul h.E).add ((h.B.slice 0 h.B.rows d (d + k2)).T.mul (h.B.slice 0 h.B.rows d (d + k2)))⟩ : Hier α) := by
    refine ⟨rfl, rfl, H.le1, H.le2, ?_, ?_, ?_, ?_, ?_, ?_, ?_, ?_, ?_⟩ <;> dsimp only <;> shp
  rw [init_ok S]
  congr 1
  refine ext_shape S P ?_ f
  constructor
  · intro i hi j hj
    rw [Mat.get_mul, Mat.get_mul, Mat.cols_T, Mat.cols_T, rows_toDense, H.dim_eq, a1]
    simp only [Mat.get_T]
    rw [sum_left H _ hi]
    exact sum_congr rfl fun t ht => by rw [get_tt H (by simpa using ht) hj]
  · intro i hi j hj
    rw [Mat.get_mul, Mat.get_mul, Mat.cols_smul, Mat.cols_T, Mat.cols_T, rows_toDense, H.dim_eq, a1]
    simp only [Mat.get_T, Mat.get_smul]
    rw [sum_left H _ hi, sum_mul]
    refine sum_congr rfl fun t ht => ?_
    simp at ht
    by_cases hjd : j < d
    · rw [get_tm H ht hjd]; ring
    · rw [show k1 + j = k1 + d + (j - d) by omega, get_tb H ht (by omega), show d + (j - d) = j by omega]; ring
  · intro i hi
    rw [Vec.get_add (by shp), Vec.get_add (by shp), Vec.get_had, Mat.get_colSq, Mat.get_colSq,
      Mat.get_mul, Mat.cols_T, rows_toDense, H.dim_eq]
    simp only [Mat.get_T]
    rw [sum_center H _ hi, get_mm H hi hi, if_pos rfl]
    simp only [Mat.rows_slice, Mat.get_slice, a3, a6]
    rw [add_comm (h.C.get i * h.C.get i)]
    congr 1
    · congr 1
      refine sum_congr (by simp) fun t ht => ?_
      simp at ht
      rw [if_pos (by omega), get_tm H ht hi]; simp
    · exact sum_congr rfl fun t ht => by rw [get_bm H (by simpa using ht) hi]
  · intro i hi j hj
    dsimp only
    rw [Mat.get_smul, Mat.get_add (by shp) (by shp), Mat.get_mul, Mat.get_mul, Mat.get_mul, Mat.cols_T,
      Mat.cols_T, Mat.cols_T, rows_toDense, H.dim_eq]
    simp only [Mat.get_T]
    rw [sum_right H _ hi]
    simp only [Mat.rows_slice, Mat.get_slice, a3, a8]
    congr 2
    · refine sum_congr (by simp) fun t ht => ?_
      simp at ht
      rw [if_pos (by omega), if_pos (by omega), get_tm H ht hj]; simp
    · exact sum_congr rfl fun t ht => by rw [get_bm H (by simpa using ht) hj]
  · intro i hi j hj
    dsimp only
    rw [Mat.get_add (by shp) (by shp), Mat.get_mul, Mat.get_mul, Mat.get_mul, Mat.cols_T,
      Mat.cols_T, Mat.cols_T, rows_toDense, H.dim_eq]
    simp only [Mat.get_T]
    rw [sum_right H _ hi]
    simp only [Mat.rows_slice, Mat.get_slice, a3, a8]
    rw [add_comm]
    congr 1
    · refine sum_congr (by simp) fun t ht => ?_
      simp at ht
      rw [if_pos (by omega), if_pos (by omega), get_tb H ht hj]; simp
    · exact sum_congr rfl fun t ht => by rw [get_bb H (by simpa using ht) hj]

/-- `from_inner(X)` is `from_dense` of `S Sᵀ` with `S = Kᵀ X` -/
theorem fromInner_some (hd : HierDims m1 m2 n k1 d k2) (H : h.Shape m1 m2 k1 d k2) {X : Mat α}
    (hX : X.rows = n) :
    h.fromInner (some X) = fromDense m1 m2 ((h.toDense.T.mul X).mul (h.toDense.T.mul X).T) := by
  have hn := hd.sum
  obtain ⟨p, e, P, f⟩ := fromDense_spec hd (m := (h.toDense.T.mul X).mul (h.toDense.T.mul X).T) (by simp [H.dim_eq, hd.sum])
    (by simp [H.dim_eq, hd.sum])
  rw [e, fromInner, H.K1_eq, H.K2_eq, H.dd_eq]
  dsimp only
  rw [rmatmat_spec H (by omega), Except.bind_ok']
  have hr : (h.toDense.T.mul X).rows = k1 + d + k2 := by simp [H.dim_eq]
  generalize h.toDense.T.mul X = Z at *
  rw [Mat.split3_ok (by omega), Except.bind_ok']
  dsimp only
  rw [Mat.matmul_ok (by simp), Except.bind_ok', Mat.matmul_ok (by simp), Except.bind_ok', Mat.matmul_ok (by simp),
    Except.bind_ok', Mat.hcat?_ok (by simp), Except.bind_ok', Mat.matmul_ok (by simp), Except.bind_ok',
    Mat.matmul_ok (by simp), Except.bind_ok', H.h1, H.h2]
  have S : Shape m1 m2 k1 d k2 (⟨m1, m2, (Z.slice 0 k1 0 Z.cols).mul (Z.slice 0 k1 0 Z.cols).T,
      (((Z.slice 0 k1 0 Z.cols).mul (Z.slice k1 (k1 + d) 0 Z.cols).T).hcat
            ((Z.slice 0 k1 0 Z.cols).mul (Z.slice (k1 + d) (k1 + d + k2) 0 Z.cols).T)).smul 2,
      (Z.slice k1 (k1 + d) 0 Z.cols).rowSq,
      ((Z.slice (k1 + d) (k1 + d + k2) 0 Z.cols).smul 2).mul (Z.slice k1 (k1 + d) 0 Z.cols).T,
      (Z.slice (k1 + d) (k1 + d + k2) 0 Z.cols).mul (Z.slice (k1 + d) (k1 + d + k2) 0 Z.cols).T⟩ : Hier α) := by
    refine ⟨rfl, rfl, H.le1, H.le2, ?_, ?_, ?_, ?_, ?_, ?_, ?_, ?_, ?_⟩ <;> dsimp only <;> shp
  rw [init_ok S]
  congr 1
  refine ext_shape S P ?_ f
  have key : ∀ a b c c', (∑ k ∈ range (min Z.cols Z.cols - 0), (if a < b ∧ 0 + k < Z.cols then Z.get a (0 + k) else 0) *
      (if c < c' ∧ 0 + k < Z.cols then Z.get c (0 + k) else 0)) =
      if a < b ∧ c < c' then ∑ k ∈ range Z.cols, Z.get a k * Z.get c k else 0 := by
    intro a b c c'
    by_cases h1 : a < b ∧ c < c'
    · rw [if_pos h1]
      refine sum_congr (by simp) fun t ht => ?_
      simp at ht
      rw [if_pos (by omega), if_pos (by omega)]; simp
    · rw [if_neg h1]
      refine sum_eq_zero fun t ht => ?_
      rcases not_and_or.1 h1 with h1 | h1
      · rw [if_neg (by omega), zero_mul]
      · rw [if_neg (c := c < c' ∧ 0 + t < Z.cols) (by omega), mul_zero]
  constructor
  · intro i hi j hj
    dsimp only
    rw [Mat.get_mul, Mat.get_mul]
    simp only [Mat.get_T, Mat.get_slice, Mat.cols_slice]
    rw [key, if_pos (by omega)]; simp
  · intro i hi j hj
    dsimp only
    rw [Mat.get_smul, Mat.get_hcat _ _ (by simp), Mat.get_mul, Mat.get_mul, Mat.get_mul]
    simp only [Mat.get_T, Mat.get_slice, Mat.cols_slice, Mat.cols_mul, Mat.cols_T, Mat.rows_slice]
    congr 1
    rw [key, key]
    by_cases hjd : j < d
    · rw [if_pos (by omega), if_pos (by omega)]; simp
    · rw [if_neg (by omega), if_pos (by omega)]
      refine sum_congr rfl fun t _ => ?_
      congr 2 <;> omega
  · intro i hi
    dsimp only
    rw [Mat.get_rowSq, Mat.get_mul]
    simp only [Mat.get_T, Mat.get_slice, Mat.cols_slice]
    rw [key, if_pos (by omega)]
  · intro i hi j hj
    dsimp only
    rw [Mat.get_mul, Mat.get_mul]
    simp only [Mat.get_T, Mat.get_smul, Mat.get_slice, Mat.cols_slice, Mat.cols_smul]
    have : ∀ x y : α, x * 2 * y = x * y * 2 := fun x y => by ring
    simp only [this]
    rw [← sum_mul, key, if_pos (by omega)]
  · intro i hi j hj
    dsimp only
    rw [Mat.get_mul, Mat.get_mul]
    simp only [Mat.get_T, Mat.get_slice, Mat.cols_slice]
    rw [key, if_pos (by omega)]

end Hier
