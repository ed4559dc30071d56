import Verif.Model.StructUtils

/-! Basic lemmas about tensors and their Mathlib denotation. -/

open Finset
variable {α : Type} [Field α]

theorem sum_range_eq_block {n a m : ℕ} {f : ℕ → α}
    (h0 : ∀ k < n, (k < a ∨ a + m ≤ k) → f k = 0)
    (h1 : ∀ k, n ≤ k → a ≤ k → k < a + m → f k = 0) :
    ∑ k ∈ range n, f k = ∑ j ∈ range m, f (a + j) := by
  have e1 : ∑ k ∈ range n, f k = ∑ k ∈ range n ∩ Ico a (a + m), f k := by
    symm; apply sum_subset inter_subset_left
    intro x hx hx'
    simp at hx hx'
    exact h0 x hx (by by_contra h; push Not at h; exact absurd (hx' hx h.1) (by omega))
  have e2 : ∑ k ∈ Ico a (a + m), f k = ∑ k ∈ range n ∩ Ico a (a + m), f k := by
    symm; apply sum_subset inter_subset_right
    intro x hx hx'
    simp at hx hx'
    refine h1 x ?_ hx.1 hx.2
    by_contra h; push Not at h; exact absurd (hx' h hx.1) (by omega)
  rw [e1, ← e2, sum_Ico_eq_sum_range]; simp

theorem sum_range_extend {n m : ℕ} {f : ℕ → α} (h : n ≤ m) (h0 : ∀ k, n ≤ k → f k = 0) :
    ∑ k ∈ range n, f k = ∑ k ∈ range m, f k := by
  apply sum_subset (by simpa using h)
  intro x _ hx; exact h0 x (by simpa using hx)

namespace Mat
variable (A B : Mat α)

@[simp] theorem rows_zeros (r c) : (Mat.zeros r c : Mat α).rows = r := rfl
@[simp] theorem cols_zeros (r c) : (Mat.zeros r c : Mat α).cols = c := rfl
@[simp] theorem get_zeros (r c i j) : (Mat.zeros r c : Mat α).get i j = 0 := by simp [Mat.zeros]
@[simp] theorem rows_eye (n) : (Mat.eye n : Mat α).rows = n := rfl
@[simp] theorem cols_eye (n) : (Mat.eye n : Mat α).cols = n := rfl
theorem get_eye (n i j) : (Mat.eye n : Mat α).get i j = if i = j ∧ i < n then 1 else 0 := by
  simp only [Mat.eye, get_ofFn]; split_ifs <;> first | rfl | (exfalso; omega)
@[simp] theorem rows_T : A.T.rows = A.cols := rfl
@[simp] theorem cols_T : A.T.cols = A.rows := rfl
@[simp] theorem get_T (i j) : A.T.get i j = A.get j i := by
  simp only [Mat.T, get_ofFn]; split_ifs with h
  · rfl
  · exact (A.supp _ _ (by omega)).symm
@[simp] theorem T_T : A.T.T = A := Mat.ext' rfl rfl (by simp)
@[simp] theorem rows_smul (s) : (A.smul s).rows = A.rows := rfl
@[simp] theorem cols_smul (s) : (A.smul s).cols = A.cols := rfl
@[simp] theorem get_smul (s i j) : (A.smul s).get i j = A.get i j * s := by
  simp only [Mat.smul, get_ofFn]; split_ifs with h
  · rfl
  · rw [A.supp _ _ (by omega), zero_mul]
@[simp] theorem rows_add : (A.add B).rows = A.rows := rfl
@[simp] theorem cols_add : (A.add B).cols = A.cols := rfl
theorem get_add {A B : Mat α} (hr : A.rows = B.rows) (hc : A.cols = B.cols) (i j) :
    (A.add B).get i j = A.get i j + B.get i j := by
  simp only [Mat.add, get_ofFn]; split_ifs with h
  · rfl
  · rw [A.supp _ _ (by omega), B.supp _ _ (by omega), zero_add]
@[simp] theorem rows_mul : (A.mul B).rows = A.rows := rfl
@[simp] theorem cols_mul : (A.mul B).cols = B.cols := rfl
theorem get_mul (i j) : (A.mul B).get i j = ∑ k ∈ range A.cols, A.get i k * B.get k j := by
  simp only [Mat.mul, get_ofFn]; split_ifs with h
  · rfl
  · symm; apply sum_eq_zero; intro k _
    rcases not_and_or.1 h with h | h
    · rw [A.supp _ _ (by omega), zero_mul]
    · rw [B.supp k j (by omega), mul_zero]
@[simp] theorem rows_slice (r0 r1 c0 c1) : (A.slice r0 r1 c0 c1).rows = min r1 A.rows - r0 := rfl
@[simp] theorem cols_slice (r0 r1 c0 c1) : (A.slice r0 r1 c0 c1).cols = min c1 A.cols - c0 := rfl
@[simp] theorem rows_vcat : (A.vcat B).rows = A.rows + B.rows := rfl
@[simp] theorem cols_vcat : (A.vcat B).cols = A.cols := rfl
@[simp] theorem rows_hcat : (A.hcat B).rows = A.rows := rfl
@[simp] theorem cols_hcat : (A.hcat B).cols = A.cols + B.cols := rfl
@[simp] theorem rows_diagAdd (s) : (A.diagAdd s).rows = A.rows := rfl
@[simp] theorem cols_diagAdd (s) : (A.diagAdd s).cols = A.cols := rfl
@[simp] theorem rows_setBlock (r c) : (A.setBlock r c B).rows = A.rows := rfl
@[simp] theorem cols_setBlock (r c) : (A.setBlock r c B).cols = A.cols := rfl
@[simp] theorem rows_scaleRows (v : Vec α) : (Mat.scaleRows v A).rows = A.rows := rfl
@[simp] theorem cols_scaleRows (v : Vec α) : (Mat.scaleRows v A).cols = A.cols := rfl
@[simp] theorem rows_scaleCols (v : Vec α) : (Mat.scaleCols A v).rows = A.rows := rfl
@[simp] theorem cols_scaleCols (v : Vec α) : (Mat.scaleCols A v).cols = A.cols := rfl
@[simp] theorem get_scaleRows (v : Vec α) (i j) : (Mat.scaleRows v A).get i j = v.get i * A.get i j := by
  simp only [Mat.scaleRows, get_ofFn]; split_ifs with h
  · rfl
  · rw [A.supp _ _ (by omega), mul_zero]
@[simp] theorem get_scaleCols (v : Vec α) (i j) : (Mat.scaleCols A v).get i j = A.get i j * v.get j := by
  simp only [Mat.scaleCols, get_ofFn]; split_ifs with h
  · rfl
  · rw [A.supp _ _ (by omega), zero_mul]
@[simp] theorem len_diag : A.diag.len = min A.rows A.cols := rfl
@[simp] theorem get_diag (i) : A.diag.get i = A.get i i := by
  simp only [Mat.diag, Vec.get_ofFn]; split_ifs with h
  · rfl
  · rw [A.supp _ _ (by omega)]
@[simp] theorem len_rowSq : A.rowSq.len = A.rows := rfl
@[simp] theorem len_colSq : A.colSq.len = A.cols := rfl
@[simp] theorem get_rowSq (i) : A.rowSq.get i = ∑ k ∈ range A.cols, A.get i k * A.get i k := by
  simp only [Mat.rowSq, Vec.get_ofFn]; split_ifs with h
  · rfl
  · symm; apply sum_eq_zero; intro k _; rw [A.supp _ _ (by omega), zero_mul]
@[simp] theorem get_colSq (j) : A.colSq.get j = ∑ k ∈ range A.rows, A.get k j * A.get k j := by
  simp only [Mat.colSq, Vec.get_ofFn]; split_ifs with h
  · rfl
  · symm; apply sum_eq_zero; intro k _; rw [A.supp _ _ (by omega), zero_mul]

theorem get_slice (r0 r1 c0 c1 i j) : (A.slice r0 r1 c0 c1).get i j =
    if r0 + i < r1 ∧ c0 + j < c1 then A.get (r0 + i) (c0 + j) else 0 := by
  simp only [Mat.slice, get_ofFn]
  by_cases h : r0 + i < r1 ∧ c0 + j < c1
  · by_cases h2 : r0 + i < A.rows ∧ c0 + j < A.cols
    · rw [if_pos (by omega), if_pos h]
    · rw [if_neg (by omega), if_pos h, A.supp _ _ (by omega)]
  · rw [if_neg (by omega), if_neg h]

/-- a matrix has the given shape -/
def HasShape (A : Mat α) (n m : ℕ) : Prop := A.rows = n ∧ A.cols = m

theorem M_mul {n m p : ℕ} (h : A.cols = m) : (A.mul B).M n p = A.M n m * B.M m p := by
  ext i j; simp only [Mat.M, get_mul, Matrix.mul_apply, h]
  exact (Fin.sum_univ_eq_sum_range (fun k => A.get i k * B.get k j) m).symm
theorem M_T {n m : ℕ} : A.T.M n m = (A.M m n).transpose := by ext i j; simp [Mat.M]
theorem M_smul {n m : ℕ} (s : α) : (A.smul s).M n m = s • A.M n m := by
  ext i j; simp [Mat.M, mul_comm]
theorem M_add {A B : Mat α} {n m : ℕ} (hr : A.rows = B.rows) (hc : A.cols = B.cols) :
    (A.add B).M n m = A.M n m + B.M n m := by ext i j; simp [Mat.M, get_add hr hc]
theorem M_eye {n : ℕ} : (Mat.eye n : Mat α).M n n = 1 := by
  ext i j; simp only [Mat.M, get_eye, Matrix.one_apply, Fin.ext_iff, i.2, and_true]
theorem M_zeros {n m : ℕ} : (Mat.zeros n m : Mat α).M n m = 0 := by ext i j; simp [Mat.M]
theorem M_diagAdd {n : ℕ} (hr : A.rows = n) (hc : A.cols = n) (s : α) :
    (A.diagAdd s).M n n = A.M n n + s • 1 := by
  ext i j
  simp only [Mat.M, diagAdd, get_ofFn, hr, hc, i.2, j.2, and_self, if_true, Matrix.add_apply, Matrix.smul_apply,
    Matrix.one_apply, Fin.ext_iff, smul_eq_mul, mul_ite, mul_one, mul_zero]
  split_ifs <;> simp

end Mat

namespace Vec
variable (u v : Vec α)
@[simp] theorem len_zeros (n) : (Vec.zeros n : Vec α).len = n := rfl
@[simp] theorem get_zeros (n i) : (Vec.zeros n : Vec α).get i = 0 := by simp [Vec.zeros]
@[simp] theorem len_ones (n) : (Vec.ones n : Vec α).len = n := rfl
@[simp] theorem get_ones (n i) : (Vec.ones n : Vec α).get i = if i < n then 1 else 0 := rfl
@[simp] theorem len_flip : v.flip.len = v.len := rfl
@[simp] theorem len_cat : (u.cat v).len = u.len + v.len := rfl
@[simp] theorem len_slice (a b) : (v.slice a b).len = min b v.len - a := rfl
@[simp] theorem len_smul (s) : (v.smul s).len = v.len := rfl
@[simp] theorem get_smul (s i) : (v.smul s).get i = v.get i * s := by
  simp only [Vec.smul, get_ofFn]; split_ifs with h
  · rfl
  · rw [v.supp _ (by omega), zero_mul]
@[simp] theorem len_add : (u.add v).len = u.len := rfl
theorem get_add {u v : Vec α} (h : u.len = v.len) (i) : (u.add v).get i = u.get i + v.get i := by
  simp only [Vec.add, get_ofFn]; split_ifs with h'
  · rfl
  · rw [u.supp _ (by omega), v.supp _ (by omega), zero_add]
@[simp] theorem len_had : (u.had v).len = u.len := rfl
@[simp] theorem get_had (i) : (u.had v).get i = u.get i * v.get i := by
  simp only [Vec.had, get_ofFn]; split_ifs with h'
  · rfl
  · rw [u.supp _ (by omega), zero_mul]
@[simp] theorem len_addScalar (s) : (v.addScalar s).len = v.len := rfl
@[simp] theorem rows_diagMat : v.diagMat.rows = v.len := rfl
@[simp] theorem cols_diagMat : v.diagMat.cols = v.len := rfl
@[simp] theorem get_diagMat (i j) : v.diagMat.get i j = if i = j then v.get i else 0 := by
  simp only [Vec.diagMat, Mat.get_ofFn]
  by_cases h : i = j
  · subst h
    by_cases h' : i < v.len
    · simp [h']
    · simp [h', v.supp i (by omega)]
  · simp [h]
theorem get_flip (i) (h : i < v.len) : v.flip.get i = v.get (v.len - 1 - i) := by simp [Vec.flip, h]
theorem get_cat (i) : (u.cat v).get i = if i < u.len then u.get i else v.get (i - u.len) := by
  simp only [Vec.cat, get_ofFn]; split_ifs with h h' h'
  · rfl
  · rfl
  · exact absurd h' (by omega)
  · rw [v.supp _ (by omega)]
theorem get_slice (a b i) : (v.slice a b).get i = if a + i < b then v.get (a + i) else 0 := by
  simp only [Vec.slice, get_ofFn]
  by_cases h : a + i < b
  · by_cases h2 : a + i < v.len
    · rw [if_pos (by omega), if_pos h]
    · rw [if_neg (by omega), if_pos h, v.supp _ (by omega)]
  · rw [if_neg (by omega), if_neg h]
end Vec

/-! ### the shape checks succeed -/
theorem Except.bind_ok' {β γ : Type} (b : β) (f : β → Except PyErr γ) : (Except.ok b >>= f) = f b := rfl
theorem Except.pure_ok {β : Type} (b : β) : (pure b : Except PyErr β) = .ok b := rfl
theorem Except.bind_error' {β γ : Type} (e : PyErr) (f : β → Except PyErr γ) : (Except.error e >>= f) = .error e := rfl

namespace Mat
variable {A B : Mat α} {v : Vec α}
theorem matmul_ok (h : A.cols = B.rows) : A.matmul B = .ok (A.mul B) := if_pos h
theorem add?_ok (hr : A.rows = B.rows) (hc : A.cols = B.cols) : A.add? B = .ok (A.add B) := if_pos ⟨hr, hc⟩
theorem vcat?_ok (h : A.cols = B.cols) : A.vcat? B = .ok (A.vcat B) := if_pos h
theorem hcat?_ok (h : A.rows = B.rows) : A.hcat? B = .ok (A.hcat B) := if_pos h
theorem scaleRows?_ok (h : v.len = A.rows) : Mat.scaleRows? v A = .ok (Mat.scaleRows v A) := if_pos h
theorem scaleCols?_ok (h : A.cols = v.len) : Mat.scaleCols? A v = .ok (Mat.scaleCols A v) := if_pos h
theorem split2_ok {a b : ℕ} (h : a + b = A.rows) :
    A.split2 a b = .ok (A.slice 0 a 0 A.cols, A.slice a (a + b) 0 A.cols) := if_pos h
theorem split2c_ok {a b : ℕ} (h : a + b = A.cols) :
    A.split2c a b = .ok (A.slice 0 A.rows 0 a, A.slice 0 A.rows a (a + b)) := if_pos h
theorem split3_ok {a b c : ℕ} (h : a + b + c = A.rows) :
    A.split3 a b c = .ok (A.slice 0 a 0 A.cols, A.slice a (a + b) 0 A.cols, A.slice (a + b) (a + b + c) 0 A.cols) :=
  if_pos h
end Mat
theorem Vec.add?_ok {u v : Vec α} (h : u.len = v.len) : u.add? v = .ok (u.add v) := if_pos h
theorem Vec.had?_ok {u v : Vec α} (h : u.len = v.len) : u.had? v = .ok (u.had v) := if_pos h
theorem T3.add?_ok {A B : T3 α} (h0 : A.d0 = B.d0) (h1 : A.d1 = B.d1) (h2 : A.d2 = B.d2) : A.add? B = .ok (A.add B) :=
  if_pos ⟨h0, h1, h2⟩
theorem T3.bmm?_ok {A B : T3 α} (h0 : A.d0 = B.d0) (h1 : A.d2 = B.d1) : A.bmm? B = .ok (A.bmm B) :=
  if_pos ⟨h0, h1⟩
