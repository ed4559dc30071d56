import Verif.Proofs.Opt.Den
import Verif.SpecOpt

/-! Inner products and projections at the level of Mathlib matrices. -/

set_option linter.unusedSectionVars false
open Finset Mat Matrix
variable {α : Type} [Field α]

@[simp] theorem Mat.rows_ofMatrix {n m : ℕ} (A : Matrix (Fin n) (Fin m) α) : (Mat.ofMatrix A).rows = n := rfl
@[simp] theorem Mat.cols_ofMatrix {n m : ℕ} (A : Matrix (Fin n) (Fin m) α) : (Mat.ofMatrix A).cols = m := rfl
@[simp] theorem Mat.M_ofMatrix {n m : ℕ} (A : Matrix (Fin n) (Fin m) α) : (Mat.ofMatrix A).M n m = A := by
  funext i j; simp [Mat.M, Mat.ofMatrix]
theorem Mat.ofMatrix_M {n m : ℕ} {X : Mat α} (hr : X.rows = n) (hc : X.cols = m) : Mat.ofMatrix (X.M n m) = X :=
  Mat.M_inj ⟨rfl, rfl⟩ ⟨hr, hc⟩ (Mat.M_ofMatrix _)

theorem Mat.get_M {n m : ℕ} (A : Mat α) (i : Fin n) (j : Fin m) : A.M n m i j = A.get i j := rfl

section
variable {c : Cls} {n : ℕ}

theorem fromDense_proj (h : c.Supports n) {M : Mat α} (hr : M.rows = n) (hc : M.cols = n) :
    ∃ P, SM.fromDense c M = .ok P ∧ WF c n P ∧ P.den n = c.proj n (M.M n n) := by
  obtain ⟨P, e, w⟩ := fromDense_wf h hr hc
  refine ⟨P, e, w, ?_⟩
  rw [Cls.proj, Mat.ofMatrix_M hr hc, e]

variable [CharZero α]

theorem proj_add_smul (h : c.Supports n) (G G' : Matrix (Fin n) (Fin n) α) (s : α) :
    c.proj n (G + s • G') = c.proj n G + s • c.proj n G' := by
  obtain ⟨P1, e1, w1, d1⟩ := fromDense_proj h (M := Mat.ofMatrix G) rfl rfl
  obtain ⟨P2, e2, w2, d2⟩ := fromDense_proj h (M := Mat.ofMatrix G') rfl rfl
  obtain ⟨P3, e3, w3, d3⟩ := fromDense_proj h (M := Mat.ofMatrix (G + s • G')) rfl rfl
  rw [Mat.M_ofMatrix] at d1 d2 d3
  rw [← d1, ← d2, ← d3]
  have := fromDense_lin s h (M1 := Mat.ofMatrix G) (M2 := Mat.ofMatrix G') (M3 := Mat.ofMatrix (G + s • G')) rfl rfl rfl rfl rfl rfl
    (fun i j => by simp [Mat.ofMatrix]; split_ifs <;> simp) e1 e2 e3
  funext i j
  exact this i i.2 j j.2

theorem proj_zero (h : c.Supports n) : c.proj n (0 : Matrix (Fin n) (Fin n) α) = 0 := by
  have := proj_add_smul h (0 : Matrix (Fin n) (Fin n) α) 0 (-1)
  simpa using this
theorem proj_smul (h : c.Supports n) (s : α) (G : Matrix (Fin n) (Fin n) α) : c.proj n (s • G) = s • c.proj n G := by
  have := proj_add_smul h 0 G s
  simpa [proj_zero h] using this
theorem proj_add (h : c.Supports n) (G G' : Matrix (Fin n) (Fin n) α) : c.proj n (G + G') = c.proj n G + c.proj n G' := by
  have := proj_add_smul h G G' 1
  simpa using this
theorem proj_sum (h : c.Supports n) {ι : Type} (s : Finset ι) (f : ι → Matrix (Fin n) (Fin n) α) :
    c.proj n (∑ i ∈ s, f i) = ∑ i ∈ s, c.proj n (f i) := by
  classical
  induction s using Finset.induction_on with
  | empty => simp [proj_zero h]
  | insert a s ha ih => rw [sum_insert ha, sum_insert ha, proj_add h, ih]
theorem proj_trace (h : c.Supports n) (G : Matrix (Fin n) (Fin n) α) : (c.proj n G).trace = G.trace := by
  obtain ⟨P, e, w, hP⟩ := C09_from_dense_trace h (m := Mat.ofMatrix G) rfl rfl
  rw [Mat.M_ofMatrix] at hP
  rw [← hP, Cls.proj, e]
theorem proj_one (h : c.Supports n) : c.proj n (1 : Matrix (Fin n) (Fin n) α) = 1 := by
  obtain ⟨P, e, w, hP⟩ := fromDense_eye (α := α) h
  have : Mat.ofMatrix (1 : Matrix (Fin n) (Fin n) α) = Mat.eye n := by
    rw [← Mat.M_eye]; exact Mat.ofMatrix_M rfl rfl
  rw [Cls.proj, this, e]
  simp only [SM.den, hP, Mat.M_eye]
end

section
variable {c : Cls} {n : ℕ} {A : Matrix (Fin n) (Fin n) α}

theorem sandwich_add_smul (c : Cls) (G G' : Matrix (Fin n) (Fin n) α) (s : α) :
    c.sandwich A (G + s • G') = c.sandwich A G + s • c.sandwich A G' := by
  cases c <;> simp [Cls.sandwich, Matrix.mul_add, Matrix.add_mul]
theorem sandwich_smul (c : Cls) (G : Matrix (Fin n) (Fin n) α) (s : α) : c.sandwich A (s • G) = s • c.sandwich A G := by
  cases c <;> simp [Cls.sandwich]
theorem sandwich_add (c : Cls) (G G' : Matrix (Fin n) (Fin n) α) : c.sandwich A (G + G') = c.sandwich A G + c.sandwich A G' := by
  simpa using sandwich_add_smul (A := A) c G G' 1
theorem sandwich_not_block (hc : ¬ c.IsBlock) (G : Matrix (Fin n) (Fin n) α) : c.sandwich A G = Aᵀ * G * A := by
  cases c <;> simp [Cls.sandwich, Cls.IsBlock] at hc ⊢
end

section
variable {c : Cls} {n : ℕ} {K : SM α}

/-- `from_inner(X)` depends on `X` only through `XXᵀ` -/
theorem fromInner_some_den (hK : WF c n K) {X : Mat α} (hX : X.rows = n) (hk : 0 < X.cols) :
    ∃ P, K.fromInner (some X) = .ok P ∧ WF c n P ∧
      P.den n = c.proj n (c.sandwich (K.den n) (X.M n X.cols * (X.M n X.cols)ᵀ)) := by
  obtain ⟨P, e, w, d⟩ := fromDense_proj hK.supports (M := Mat.ofMatrix (c.sandwich (K.den n) (X.M n X.cols * (X.M n X.cols)ᵀ))) rfl rfl
  rw [Mat.M_ofMatrix] at d
  refine ⟨P, ?_, w, d⟩
  rw [← e]
  by_cases hc : c.IsBlock
  · cases c <;> simp only [Cls.IsBlock] at hc
    exact (C05_block hK).1 X _ hX rfl rfl (by rw [Mat.M_ofMatrix, Cls.sandwich]; simp only [Matrix.mul_assoc])
  · exact (C05_from_inner_partial hc hK).1 X _ hX hk rfl rfl
      (by rw [Mat.M_ofMatrix, sandwich_not_block hc]; simp only [Matrix.mul_assoc])

/-- `from_inner()` -/
theorem fromInner_none_den (hK : WF c n K) :
    ∃ P, K.fromInner none = .ok P ∧ WF c n P ∧ P.den n = c.proj n (c.sandwich (K.den n) 1) := by
  obtain ⟨P, e, w, d⟩ := fromDense_proj hK.supports (M := Mat.ofMatrix (c.sandwich (K.den n) 1)) rfl rfl
  rw [Mat.M_ofMatrix] at d
  refine ⟨P, ?_, w, d⟩
  rw [← e]
  by_cases hc : c.IsBlock
  · cases c <;> simp only [Cls.IsBlock] at hc
    exact (C05_block hK).2 _ rfl rfl (by rw [Mat.M_ofMatrix, Cls.sandwich, Matrix.mul_one])
  · exact (C05_from_inner_partial hc hK).2 _ rfl rfl (by rw [Mat.M_ofMatrix, sandwich_not_block hc, Matrix.mul_one])
end
