import Verif.Proofs.FixedData
import Verif.SpecOpt
import Mathlib.LinearAlgebra.Matrix.Kronecker
import Mathlib.Topology.Instances.Matrix
import Mathlib.Data.Real.StarOrdered
import Mathlib.Analysis.SpecialFunctions.Log.Basic
import Mathlib.Analysis.SpecialFunctions.Exponential
open Matrix

namespace Coupled

/-- one eigenvalue of a direction -/
theorem one_mode {ν ε : ℝ} (h0 : -1 ≤ ν) (e0 : 0 ≤ ε) (e8 : 8 * ε ≤ 1) (h : ε * (9 * ν + 8) ≤ 1) {x : ℝ} (hx : x = 2 * Real.log (1 - ε * ν)) :
    0 < 1 - ε * ν ∧ |x| ≤ 1 / 2 ∧ ν * x + 2 * (1 + ν) * x ^ 2 ≤ - (ε / 2) * ν ^ 2 := by
  have hp : 8 / 9 ≤ 1 - ε * ν := by nlinarith
  have pos : 0 < 1 - ε * ν := by linarith
  have l1 := Real.log_le_sub_one_of_pos pos
  have l2 := Real.one_sub_inv_le_log_of_pos pos
  have l3 : -(ε * ν) ≤ (1 - ε * ν) * Real.log (1 - ε * ν) := by
    have := mul_le_mul_of_nonneg_left l2 pos.le
    rwa [mul_sub, mul_inv_cancel₀ pos.ne', mul_one, show 1 - ε * ν - 1 = -(ε * ν) by ring] at this
  generalize Real.log (1 - ε * ν) = L at *
  refine ⟨pos, ?_, ?_⟩
  · rw [hx, abs_le]
    constructor
    · nlinarith
    · nlinarith
  · rcases le_total 0 ν with hν | hν
    · -- `x` is negative
      have x0 : L ≤ -(ε * ν) := by linarith
      have hL : (1 - ε * ν) * (-L) ≤ ε * ν := by linarith
      have hL0 : 0 ≤ -L := by nlinarith
      have key : 8 * (1 + ν) * (-L) ≤ ν := by
        have h1 : 8 * (1 + ν) * ε ≤ 1 - ε * ν := by linarith
        have : (1 - ε * ν) * (8 * (1 + ν) * (-L)) ≤ (1 - ε * ν) * ν := by
          nlinarith [mul_le_mul_of_nonneg_left hL (show 0 ≤ 8 * (1 + ν) by linarith), mul_le_mul_of_nonneg_right h1 hν]
        exact le_of_mul_le_mul_left this pos
      rw [hx]
      nlinarith [mul_le_mul_of_nonneg_left key hL0, mul_nonneg hL0 hν, mul_nonneg e0 (sq_nonneg ν), mul_le_mul_of_nonneg_left x0 hν]
    · have x0 : 0 ≤ L := by nlinarith
      have key : 8 * (1 + ν) * L ≤ -ν := by nlinarith
      have low : ε * (-ν) / 2 ≤ L := by
        have : (1 - ε * ν) ≤ 2 := by nlinarith
        nlinarith
      rw [hx]
      nlinarith [mul_le_mul_of_nonneg_left key x0, mul_le_mul_of_nonneg_left low (neg_nonneg.2 hν)]

theorem exp_le_quad {z : ℝ} (h : |z| ≤ 1) : Real.exp z ≤ 1 + z + z ^ 2 := by
  have := (abs_le.1 (Real.abs_exp_sub_one_sub_id_le h)).2
  linarith

/-- descent in eigenvalues -/
theorem scal_descent {n d : ℕ} (n0 : 0 < n) (d0 : 0 < d) {u a ν x : Fin n → ℝ} {g b μ y : Fin d → ℝ} {l ε ε' : ℝ} (u0 : ∀ i, 0 ≤ u i) (a0 : ∀ i, 0 ≤ a i)
    (g0 : ∀ j, 0 ≤ g j) (b0 : ∀ j, 0 ≤ b j) (l0 : 0 ≤ l) (hν : ∀ i, (∑ j, g j) / d * u i + l * ((∑ j, b j) / d) * a i = 1 + ν i)
    (hμ : ∀ j, (∑ i, u i) / n * g j + l * ((∑ i, a i) / n) * b j = 1 + μ j) (e0 : 0 ≤ ε) (e8 : 8 * ε ≤ 1) (he : ∀ i, ε * (9 * ν i + 8) ≤ 1)
    (e0' : 0 ≤ ε') (e8' : 8 * ε' ≤ 1) (he' : ∀ j, ε' * (9 * μ j + 8) ≤ 1) (hx : ∀ i, x i = 2 * Real.log (1 - ε * ν i))
    (hy : ∀ j, y j = 2 * Real.log (1 - ε' * μ j)) :
    (∑ i, (1 - ε * ν i) ^ 2 * u i) * (∑ j, (1 - ε' * μ j) ^ 2 * g j) + l * ((∑ i, (1 - ε * ν i) ^ 2 * a i) * ∑ j, (1 - ε' * μ j) ^ 2 * b j) -
      d * (∑ i, x i) - n * (∑ j, y j) + d * (ε / 2 * ∑ i, ν i ^ 2) + n * (ε' / 2 * ∑ j, μ j ^ 2) ≤
    (∑ i, u i) * (∑ j, g j) + l * ((∑ i, a i) * ∑ j, b j) := by
  have n0' : (n : ℝ) ≠ 0 := by positivity
  have d0' : (d : ℝ) ≠ 0 := by positivity
  have ν1 : ∀ i, -1 ≤ ν i := fun i => by
    have : 0 ≤ (∑ j, g j) / d * u i + l * ((∑ j, b j) / d) * a i := by
      have := Finset.sum_nonneg fun j (_ : j ∈ Finset.univ) => g0 j
      have := Finset.sum_nonneg fun j (_ : j ∈ Finset.univ) => b0 j
      have := u0 i; have := a0 i
      positivity
    linarith [hν i]
  have μ1 : ∀ j, -1 ≤ μ j := fun j => by
    have : 0 ≤ (∑ i, u i) / n * g j + l * ((∑ i, a i) / n) * b j := by
      have := Finset.sum_nonneg fun j (_ : j ∈ Finset.univ) => u0 j
      have := Finset.sum_nonneg fun j (_ : j ∈ Finset.univ) => a0 j
      have := g0 j; have := b0 j
      positivity
    linarith [hμ j]
  have mx := fun i => one_mode (ν1 i) e0 e8 (he i) (hx i)
  have my := fun j => one_mode (μ1 j) e0' e8' (he' j) (hy j)
  have ex : ∀ i, (1 - ε * ν i) ^ 2 = Real.exp (x i) := fun i => by
    rw [hx i, two_mul, Real.exp_add, Real.exp_log (mx i).1, sq]
  have ey : ∀ j, (1 - ε' * μ j) ^ 2 = Real.exp (y j) := fun j => by
    rw [hy j, two_mul, Real.exp_add, Real.exp_log (my j).1, sq]
  have hrow : ∀ i, ∑ j, (u i * g j + l * (a i * b j)) = d * (1 + ν i) := fun i => by
    rw [← hν i, Finset.sum_add_distrib, ← Finset.mul_sum, ← Finset.mul_sum, ← Finset.mul_sum]
    field_simp
  have hcol : ∀ j, ∑ i, (u i * g j + l * (a i * b j)) = n * (1 + μ j) := fun j => by
    rw [← hμ j, Finset.sum_add_distrib, ← Finset.sum_mul, ← Finset.mul_sum, ← Finset.sum_mul]
    field_simp
  have w0 : ∀ i j, 0 ≤ u i * g j + l * (a i * b j) := fun i j => by
    have := u0 i; have := a0 i; have := g0 j; have := b0 j
    positivity
  have e1 : (∑ i, (1 - ε * ν i) ^ 2 * u i) * (∑ j, (1 - ε' * μ j) ^ 2 * g j) + l * ((∑ i, (1 - ε * ν i) ^ 2 * a i) * ∑ j, (1 - ε' * μ j) ^ 2 * b j) =
      ∑ i, ∑ j, (u i * g j + l * (a i * b j)) * Real.exp (x i + y j) := by
    rw [Finset.sum_mul_sum, Finset.sum_mul_sum, Finset.mul_sum, ← Finset.sum_add_distrib]
    refine Finset.sum_congr rfl fun i _ => ?_
    rw [Finset.mul_sum, ← Finset.sum_add_distrib]
    refine Finset.sum_congr rfl fun j _ => ?_
    rw [Real.exp_add, ← ex, ← ey]; ring
  have e2 : (∑ i, u i) * (∑ j, g j) + l * ((∑ i, a i) * ∑ j, b j) = ∑ i, ∑ j, (u i * g j + l * (a i * b j)) := by
    rw [Finset.sum_mul_sum, Finset.sum_mul_sum, Finset.mul_sum, ← Finset.sum_add_distrib]
    refine Finset.sum_congr rfl fun i _ => ?_
    rw [Finset.mul_sum, ← Finset.sum_add_distrib]
  have le1 : ∑ i, ∑ j, (u i * g j + l * (a i * b j)) * Real.exp (x i + y j) ≤
      ∑ i, ∑ j, ((u i * g j + l * (a i * b j)) + (u i * g j + l * (a i * b j)) * (x i + 2 * x i ^ 2) +
        (u i * g j + l * (a i * b j)) * (y j + 2 * y j ^ 2)) := by
    refine Finset.sum_le_sum fun i _ => Finset.sum_le_sum fun j _ => ?_
    have hz : |x i + y j| ≤ 1 := (abs_add_le _ _).trans (by linarith [(mx i).2.1, (my j).2.1])
    have := mul_le_mul_of_nonneg_left (exp_le_quad hz) (w0 i j)
    refine this.trans ?_
    have : (x i + y j) ^ 2 ≤ 2 * x i ^ 2 + 2 * y j ^ 2 := by nlinarith [sq_nonneg (x i - y j)]
    nlinarith [w0 i j, mul_le_mul_of_nonneg_left this (w0 i j)]
  have e3 : ∑ i, ∑ j, ((u i * g j + l * (a i * b j)) + (u i * g j + l * (a i * b j)) * (x i + 2 * x i ^ 2) +
        (u i * g j + l * (a i * b j)) * (y j + 2 * y j ^ 2)) =
      ∑ i, ∑ j, (u i * g j + l * (a i * b j)) + ∑ i, d * (1 + ν i) * (x i + 2 * x i ^ 2) + ∑ j, n * (1 + μ j) * (y j + 2 * y j ^ 2) := by
    simp only [Finset.sum_add_distrib]
    congr 1
    · congr 1
      refine Finset.sum_congr rfl fun i _ => ?_
      rw [← Finset.sum_mul, ← hrow, Finset.sum_add_distrib]
    · rw [Finset.sum_comm]
      refine Finset.sum_congr rfl fun j _ => ?_
      rw [← Finset.sum_mul, ← hcol, Finset.sum_add_distrib]
  have fx : ∑ i, d * (1 + ν i) * (x i + 2 * x i ^ 2) - d * (∑ i, x i) + d * (ε / 2 * ∑ i, ν i ^ 2) ≤ 0 := by
    have : ∑ i, d * (1 + ν i) * (x i + 2 * x i ^ 2) - d * (∑ i, x i) + d * (ε / 2 * ∑ i, ν i ^ 2) =
        ∑ i, d * (ν i * x i + 2 * (1 + ν i) * x i ^ 2 + ε / 2 * ν i ^ 2) := by
      rw [Finset.mul_sum, Finset.mul_sum, Finset.mul_sum, ← Finset.sum_sub_distrib, ← Finset.sum_add_distrib]
      exact Finset.sum_congr rfl fun i _ => by ring
    rw [this]
    refine Finset.sum_nonpos fun i _ => mul_nonpos_of_nonneg_of_nonpos (by positivity) ?_
    linarith [(mx i).2.2]
  have fy : ∑ j, n * (1 + μ j) * (y j + 2 * y j ^ 2) - n * (∑ j, y j) + n * (ε' / 2 * ∑ j, μ j ^ 2) ≤ 0 := by
    have : ∑ j, n * (1 + μ j) * (y j + 2 * y j ^ 2) - n * (∑ j, y j) + n * (ε' / 2 * ∑ j, μ j ^ 2) =
        ∑ j, n * (μ j * y j + 2 * (1 + μ j) * y j ^ 2 + ε' / 2 * μ j ^ 2) := by
      rw [Finset.mul_sum, Finset.mul_sum, Finset.mul_sum, ← Finset.sum_sub_distrib, ← Finset.sum_add_distrib]
      exact Finset.sum_congr rfl fun i _ => by ring
    rw [this]
    refine Finset.sum_nonpos fun i _ => mul_nonpos_of_nonneg_of_nonpos (by positivity) ?_
    linarith [(my i).2.2]
  rw [e1, e2]
  linarith

variable {n d : ℕ}

/-- spectral theorem -/
theorem spectral {N : Matrix (Fin n) (Fin n) ℝ} (h : Nᵀ = N) : ∃ (V : Matrix (Fin n) (Fin n) ℝ) (ν : Fin n → ℝ), Vᵀ * V = 1 ∧ V * Vᵀ = 1 ∧
    N = V * diagonal ν * Vᵀ := by
  obtain ⟨V, ν, h1, h2⟩ := Verif.FixedData.eigenbasis (Y := N) (by rw [IsHermitian, conjTranspose_eq_transpose_of_trivial]; exact h)
  have h3 : V * Vᵀ = 1 := mul_eq_one_comm.1 h1
  refine ⟨V, ν, h1, h3, ?_⟩
  have : N * V = V * diagonal ν := by
    ext i j
    have := congrFun (h2 j) i
    rw [mul_diagonal, mul_comm]
    exact this
  rw [← this, Matrix.mul_assoc, h3, Matrix.mul_one]

theorem trace_modes {V A : Matrix (Fin n) (Fin n) ℝ} (h : V * Vᵀ = 1) : A.trace = ∑ i, (Vᵀ * A * V) i i := by
  show _ = (Vᵀ * A * V).trace
  rw [Matrix.trace_mul_comm, ← Matrix.mul_assoc, h, Matrix.one_mul]

/-- trace of `A` times a function of a symmetric matrix -/
theorem trace_mul_modes {V A : Matrix (Fin n) (Fin n) ℝ} (p : Fin n → ℝ) : (V * diagonal p * Vᵀ * A).trace = ∑ i, p i * (Vᵀ * A * V) i i := by
  rw [Matrix.mul_assoc, Matrix.mul_assoc, Matrix.trace_mul_comm, Matrix.mul_assoc, Matrix.mul_assoc, ← Matrix.mul_assoc Vᵀ]
  simp [Matrix.trace, diagonal_mul]

theorem det_modes {V : Matrix (Fin n) (Fin n) ℝ} (h : V * Vᵀ = 1) (p : Fin n → ℝ) : (V * diagonal p * Vᵀ).det = ∏ i, p i := by
  have : V.det * Vᵀ.det = 1 := by rw [← det_mul, h, det_one]
  rw [det_mul, det_mul, det_diagonal]
  linear_combination (∏ i, p i) * this

theorem psd_mode {A V : Matrix (Fin n) (Fin n) ℝ} (h : A.PosSemidef) (i : Fin n) : 0 ≤ (Vᵀ * A * V) i i := by
  have := h.conjTranspose_mul_mul_same V
  rw [conjTranspose_eq_transpose_of_trivial] at this
  exact this.diag_nonneg

/-- the coupled curvature of a factor: `tr(CᵀGC)/d KᵀUK + λ tr(CᵀC)/d KᵀK` -/
noncomputable def curv (l : ℝ) (U K : Matrix (Fin n) (Fin n) ℝ) (G C : Matrix (Fin d) (Fin d) ℝ) : Matrix (Fin n) (Fin n) ℝ :=
  avgTr (Cᵀ * G * C) • (Kᵀ * U * K) + (l * avgTr (Cᵀ * C)) • (Kᵀ * K)

/-- `tr((G ⊗ U + λ) (CCᵀ ⊗ KKᵀ)) − log det (CCᵀ ⊗ KKᵀ)` in terms of the factors -/
noncomputable def objective (l : ℝ) (U K : Matrix (Fin n) (Fin n) ℝ) (G C : Matrix (Fin d) (Fin d) ℝ) : ℝ :=
  (Kᵀ * U * K).trace * (Cᵀ * G * C).trace + l * ((Kᵀ * K).trace * (Cᵀ * C).trace) - d * Real.log (K.det ^ 2) - n * Real.log (C.det ^ 2)

theorem curv_symm {l : ℝ} {U K : Matrix (Fin n) (Fin n) ℝ} {G C : Matrix (Fin d) (Fin d) ℝ} (hU : U.PosSemidef) : (curv l U K G C)ᵀ = curv l U K G C := by
  have := hU.isHermitian
  rw [IsHermitian, conjTranspose_eq_transpose_of_trivial] at this
  simp only [curv, transpose_add, transpose_smul, transpose_mul, transpose_transpose, this, Matrix.mul_assoc]

/-- changing a factor from the right -/
theorem objective_step {l : ℝ} {U K L : Matrix (Fin n) (Fin n) ℝ} {G C R : Matrix (Fin d) (Fin d) ℝ} (hK : K.det ≠ 0) (hC : C.det ≠ 0) (hL : L.det ≠ 0)
    (hR : R.det ≠ 0) : objective l U (K * L) G (C * R) = (L * Lᵀ * (Kᵀ * U * K)).trace * (R * Rᵀ * (Cᵀ * G * C)).trace +
      l * ((L * Lᵀ * (Kᵀ * K)).trace * (R * Rᵀ * (Cᵀ * C)).trace) - d * Real.log (L.det ^ 2) - n * Real.log (R.det ^ 2) -
      d * Real.log (K.det ^ 2) - n * Real.log (C.det ^ 2) := by
  have t1 : ∀ {m : ℕ} (K U L : Matrix (Fin m) (Fin m) ℝ), ((K * L)ᵀ * U * (K * L)).trace = (L * Lᵀ * (Kᵀ * U * K)).trace := by
    intro m K U L
    rw [transpose_mul, Matrix.mul_assoc L, Matrix.trace_mul_comm L]
    simp only [Matrix.mul_assoc]
  have t2 : ∀ {m : ℕ} (K L : Matrix (Fin m) (Fin m) ℝ), ((K * L)ᵀ * (K * L)).trace = (L * Lᵀ * (Kᵀ * K)).trace := by
    intro m K L
    have := t1 K 1 L
    rwa [Matrix.mul_one, Matrix.mul_one] at this
  unfold objective
  rw [t1, t1, t2, t2, det_mul, det_mul, mul_pow, mul_pow, Real.log_mul (pow_ne_zero 2 hK) (pow_ne_zero 2 hL),
    Real.log_mul (pow_ne_zero 2 hC) (pow_ne_zero 2 hR)]
  ring

theorem curv_mode {l : ℝ} {U K V : Matrix (Fin n) (Fin n) ℝ} {G C W : Matrix (Fin d) (Fin d) ℝ} (hW : W * Wᵀ = 1) (i : Fin n) :
    (Vᵀ * curv l U K G C * V) i i = (∑ j, (Wᵀ * (Cᵀ * G * C) * W) j j) / d * (Vᵀ * (Kᵀ * U * K) * V) i i +
      l * ((∑ j, (Wᵀ * (Cᵀ * C) * W) j j) / d) * (Vᵀ * (Kᵀ * K) * V) i i := by
  rw [curv, avgTr, avgTr, ← trace_modes hW, ← trace_modes hW]
  simp only [Matrix.mul_add, Matrix.add_mul, Matrix.mul_smul, Matrix.smul_mul, Matrix.add_apply, Matrix.smul_apply, smul_eq_mul]

theorem psd_gram (K : Matrix (Fin n) (Fin n) ℝ) : (Kᵀ * K).PosSemidef := by
  have := posSemidef_conjTranspose_mul_self K
  rwa [conjTranspose_eq_transpose_of_trivial] at this

theorem psd_sandwich {U : Matrix (Fin n) (Fin n) ℝ} (h : U.PosSemidef) (K : Matrix (Fin n) (Fin n) ℝ) : (Kᵀ * U * K).PosSemidef := by
  have := h.conjTranspose_mul_mul_same K
  rwa [conjTranspose_eq_transpose_of_trivial] at this

/-- sum of squares of the entries -/
def sqs (N : Matrix (Fin n) (Fin n) ℝ) : ℝ := (N * Nᵀ).trace

theorem one_sub_modes {V : Matrix (Fin n) (Fin n) ℝ} (h : V * Vᵀ = 1) (ν : Fin n → ℝ) (e : ℝ) :
    1 - e • (V * diagonal ν * Vᵀ) = V * diagonal (fun i => 1 - e * ν i) * Vᵀ := by
  have : diagonal (fun i => 1 - e * ν i) = 1 - e • diagonal ν := by
    rw [← diagonal_one, ← diagonal_smul, diagonal_sub]; rfl
  rw [this, Matrix.mul_sub, Matrix.sub_mul, Matrix.mul_one, h, Matrix.mul_smul, Matrix.smul_mul]

theorem sq_modes {V : Matrix (Fin n) (Fin n) ℝ} (h : Vᵀ * V = 1) (p : Fin n → ℝ) :
    (V * diagonal p * Vᵀ) * (V * diagonal p * Vᵀ)ᵀ = V * diagonal (fun i => p i ^ 2) * Vᵀ := by
  rw [transpose_mul, transpose_mul, transpose_transpose, diagonal_transpose]
  have : V * diagonal p * Vᵀ * (V * (diagonal p * Vᵀ)) = V * diagonal p * (Vᵀ * V) * diagonal p * Vᵀ := by simp only [Matrix.mul_assoc]
  rw [this, h, Matrix.mul_one, Matrix.mul_assoc V, diagonal_mul_diagonal]
  simp only [sq]

theorem sqs_modes {V : Matrix (Fin n) (Fin n) ℝ} (h : Vᵀ * V = 1) (ν : Fin n → ℝ) : sqs (V * diagonal ν * Vᵀ) = ∑ i, ν i ^ 2 := by
  rw [sqs, sq_modes h, Matrix.trace_mul_comm, ← Matrix.mul_assoc, h, Matrix.one_mul, trace_diagonal]

/-- `x` bounds the eigenvalues of a symmetric matrix from above -/
def Below (x : ℝ) (N : Matrix (Fin n) (Fin n) ℝ) : Prop := (x • (1 : Matrix (Fin n) (Fin n) ℝ) - N).PosSemidef

theorem Below.mode {x : ℝ} {V : Matrix (Fin n) (Fin n) ℝ} (h : Vᵀ * V = 1) {ν : Fin n → ℝ} (hb : Below x (V * diagonal ν * Vᵀ)) (i : Fin n) : ν i ≤ x := by
  have := psd_mode (V := V) hb i
  have e : Vᵀ * (x • (1 : Matrix (Fin n) (Fin n) ℝ) - V * diagonal ν * Vᵀ) * V = x • 1 - diagonal ν := by
    rw [Matrix.mul_sub, Matrix.sub_mul, Matrix.mul_smul, Matrix.smul_mul, Matrix.mul_one, h]
    congr 1
    have : Vᵀ * (V * diagonal ν * Vᵀ) * V = (Vᵀ * V) * diagonal ν * (Vᵀ * V) := by simp only [Matrix.mul_assoc]
    rw [this, h, Matrix.one_mul, Matrix.mul_one]
  rw [e] at this
  simpa using this

/-- **one update decreases the objective** -/
theorem descent (n0 : 0 < n) (d0 : 0 < d) {l : ℝ} (l0 : 0 ≤ l) {U K : Matrix (Fin n) (Fin n) ℝ} {G C : Matrix (Fin d) (Fin d) ℝ} (hU : U.PosSemidef)
    (hG : G.PosSemidef) (hK : K.det ≠ 0) (hC : C.det ≠ 0) {ε ε' x y : ℝ} (e0 : 0 ≤ ε) (e8 : 8 * ε ≤ 1) (hx : Below x (curv l U K G C - 1))
    (he : ε * (9 * x + 8) ≤ 1) (e0' : 0 ≤ ε') (e8' : 8 * ε' ≤ 1) (hy : Below y (curv l G C U K - 1)) (he' : ε' * (9 * y + 8) ≤ 1) :
    (1 - ε • (curv l U K G C - 1)).det ≠ 0 ∧ (1 - ε' • (curv l G C U K - 1)).det ≠ 0 ∧
    objective l U (K * (1 - ε • (curv l U K G C - 1))) G (C * (1 - ε' • (curv l G C U K - 1))) +
      d * (ε / 2 * sqs (curv l U K G C - 1)) + n * (ε' / 2 * sqs (curv l G C U K - 1)) ≤ objective l U K G C := by
  obtain ⟨V, ν, v1, v2, eN⟩ := spectral (N := curv l U K G C - 1) (by rw [transpose_sub, curv_symm hU, transpose_one])
  obtain ⟨W, μ, w1, w2, eM⟩ := spectral (N := curv l G C U K - 1) (by rw [transpose_sub, curv_symm hG, transpose_one])
  have hv : ∀ i, (Vᵀ * curv l U K G C * V) i i = 1 + ν i := fun i => by
    have : curv l U K G C = 1 + V * diagonal ν * Vᵀ := by rw [← eN]; abel
    rw [this, Matrix.mul_add, Matrix.add_mul, Matrix.mul_one, v1]
    have : Vᵀ * (V * diagonal ν * Vᵀ) * V = (Vᵀ * V) * diagonal ν * (Vᵀ * V) := by simp only [Matrix.mul_assoc]
    rw [this, v1, Matrix.one_mul, Matrix.mul_one]
    simp
  have hw : ∀ i, (Wᵀ * curv l G C U K * W) i i = 1 + μ i := fun i => by
    have : curv l G C U K = 1 + W * diagonal μ * Wᵀ := by rw [← eM]; abel
    rw [this, Matrix.mul_add, Matrix.add_mul, Matrix.mul_one, w1]
    have : Wᵀ * (W * diagonal μ * Wᵀ) * W = (Wᵀ * W) * diagonal μ * (Wᵀ * W) := by simp only [Matrix.mul_assoc]
    rw [this, w1, Matrix.one_mul, Matrix.mul_one]
    simp
  rw [eN] at hx ⊢
  rw [eM] at hy ⊢
  have hνx := hx.mode v1
  have hμy := hy.mode w1
  have heν : ∀ i, ε * (9 * ν i + 8) ≤ 1 := fun i => le_trans (mul_le_mul_of_nonneg_left (by linarith [hνx i]) e0) he
  have heμ : ∀ i, ε' * (9 * μ i + 8) ≤ 1 := fun i => le_trans (mul_le_mul_of_nonneg_left (by linarith [hμy i]) e0') he'
  have S := scal_descent n0 d0 (fun i => psd_mode (V := V) (psd_sandwich hU K) i) (fun i => psd_mode (V := V) (psd_gram K) i)
    (fun i => psd_mode (V := W) (psd_sandwich hG C) i) (fun i => psd_mode (V := W) (psd_gram C) i) l0 (ν := ν) (μ := μ)
    (fun i => by rw [← hv, curv_mode w2]) (fun j => by rw [← hw, curv_mode v2]) e0 e8 heν e0' e8' heμ (fun _ => rfl) (fun _ => rfl)
  have ν1 : ∀ i, 0 < 1 - ε * ν i := fun i => by
    by_cases h : 0 ≤ ν i
    · have := heν i; nlinarith
    · nlinarith
  have μ1 : ∀ i, 0 < 1 - ε' * μ i := fun i => by
    by_cases h : 0 ≤ μ i
    · have := heμ i; nlinarith
    · nlinarith
  rw [one_sub_modes v2, one_sub_modes w2]
  have dL : (V * diagonal (fun i => 1 - ε * ν i) * Vᵀ).det = ∏ i, (1 - ε * ν i) := det_modes v2 _
  have dR : (W * diagonal (fun i => 1 - ε' * μ i) * Wᵀ).det = ∏ i, (1 - ε' * μ i) := det_modes w2 _
  have pL : 0 < ∏ i, (1 - ε * ν i) := Finset.prod_pos fun i _ => ν1 i
  have pR : 0 < ∏ i, (1 - ε' * μ i) := Finset.prod_pos fun i _ => μ1 i
  refine ⟨by rw [dL]; exact pL.ne', by rw [dR]; exact pR.ne', ?_⟩
  rw [objective_step hK hC (by rw [dL]; exact pL.ne') (by rw [dR]; exact pR.ne'), dL, dR, sq_modes v1, sq_modes w1, sqs_modes v1, sqs_modes w1,
    trace_mul_modes, trace_mul_modes, trace_mul_modes, trace_mul_modes, Real.log_pow, Real.log_pow, Real.log_prod (fun i _ => (ν1 i).ne'),
    Real.log_prod (fun i _ => (μ1 i).ne'), objective, trace_modes v2 (A := Kᵀ * U * K), trace_modes w2 (A := Cᵀ * G * C),
    trace_modes v2 (A := Kᵀ * K), trace_modes w2 (A := Cᵀ * C)]
  simp only [← Finset.mul_sum] at S
  push_cast
  linarith

/-! ### Stationary pairs are optimal -/

/-- optimality in eigenvalues -/
theorem scal_opt (n0 : 0 < n) (d0 : 0 < d) {u a p : Fin n → ℝ} {g b q : Fin d → ℝ} {l : ℝ} (u0 : ∀ i, 0 ≤ u i) (a0 : ∀ i, 0 ≤ a i)
    (g0 : ∀ j, 0 ≤ g j) (b0 : ∀ j, 0 ≤ b j) (l0 : 0 ≤ l) (hν : ∀ i, (∑ j, g j) / d * u i + l * ((∑ j, b j) / d) * a i = 1)
    (hμ : ∀ j, (∑ i, u i) / n * g j + l * ((∑ i, a i) / n) * b j = 1) (p0 : ∀ i, 0 < p i) (q0 : ∀ j, 0 < q j) :
    (∑ i, u i) * (∑ j, g j) + l * ((∑ i, a i) * ∑ j, b j) ≤
      (∑ i, p i * u i) * (∑ j, q j * g j) + l * ((∑ i, p i * a i) * ∑ j, q j * b j) - d * (∑ i, Real.log (p i)) - n * (∑ j, Real.log (q j)) ∧
    ((∑ i, u i) * (∑ j, g j) + l * ((∑ i, a i) * ∑ j, b j) =
      (∑ i, p i * u i) * (∑ j, q j * g j) + l * ((∑ i, p i * a i) * ∑ j, q j * b j) - d * (∑ i, Real.log (p i)) - n * (∑ j, Real.log (q j)) →
      (∀ i, 0 < l * a i) → (∀ j, 0 < b j) → ∀ i j, p i * q j = 1) := by
  have n0' : (n : ℝ) ≠ 0 := by positivity
  have d0' : (d : ℝ) ≠ 0 := by positivity
  have hrow : ∀ i, ∑ j, (u i * g j + l * (a i * b j)) = d := fun i => by
    rw [show (d : ℝ) = d * 1 by ring, ← hν i, Finset.sum_add_distrib, ← Finset.mul_sum, ← Finset.mul_sum, ← Finset.mul_sum]
    field_simp
  have hcol : ∀ j, ∑ i, (u i * g j + l * (a i * b j)) = n := fun j => by
    rw [show (n : ℝ) = n * 1 by ring, ← hμ j, Finset.sum_add_distrib, ← Finset.sum_mul, ← Finset.mul_sum, ← Finset.sum_mul]
    field_simp
  have w0 : ∀ i j, 0 ≤ u i * g j + l * (a i * b j) := fun i j => by
    have := u0 i; have := a0 i; have := g0 j; have := b0 j
    positivity
  have e1 : (∑ i, p i * u i) * (∑ j, q j * g j) + l * ((∑ i, p i * a i) * ∑ j, q j * b j) =
      ∑ i, ∑ j, (u i * g j + l * (a i * b j)) * (p i * q j) := by
    rw [Finset.sum_mul_sum, Finset.sum_mul_sum, Finset.mul_sum, ← Finset.sum_add_distrib]
    refine Finset.sum_congr rfl fun i _ => ?_
    rw [Finset.mul_sum, ← Finset.sum_add_distrib]
    refine Finset.sum_congr rfl fun j _ => ?_
    ring
  have e2 : (∑ i, u i) * (∑ j, g j) + l * ((∑ i, a i) * ∑ j, b j) = ∑ i, ∑ j, (u i * g j + l * (a i * b j)) := by
    rw [Finset.sum_mul_sum, Finset.sum_mul_sum, Finset.mul_sum, ← Finset.sum_add_distrib]
    refine Finset.sum_congr rfl fun i _ => ?_
    rw [Finset.mul_sum, ← Finset.sum_add_distrib]
  have e3 : d * (∑ i, Real.log (p i)) + n * (∑ j, Real.log (q j)) = ∑ i, ∑ j, (u i * g j + l * (a i * b j)) * (Real.log (p i) + Real.log (q j)) := by
    simp only [mul_add]
    rw [Finset.sum_congr rfl fun i _ => Finset.sum_add_distrib (s := Finset.univ) (f := fun j => (u i * g j + l * (a i * b j)) * Real.log (p i))
      (g := fun j => (u i * g j + l * (a i * b j)) * Real.log (q j)), Finset.sum_add_distrib]
    congr 1
    · rw [Finset.mul_sum]
      exact Finset.sum_congr rfl fun i _ => by rw [← Finset.sum_mul, hrow]
    · rw [Finset.mul_sum, Finset.sum_comm]
      exact Finset.sum_congr rfl fun i _ => by rw [← Finset.sum_mul, hcol]
  have e4 : (∑ i, p i * u i) * (∑ j, q j * g j) + l * ((∑ i, p i * a i) * ∑ j, q j * b j) - d * (∑ i, Real.log (p i)) - n * (∑ j, Real.log (q j)) -
      ((∑ i, u i) * (∑ j, g j) + l * ((∑ i, a i) * ∑ j, b j)) =
      ∑ i, ∑ j, (u i * g j + l * (a i * b j)) * (p i * q j - (Real.log (p i) + Real.log (q j)) - 1) := by
    have : ∑ i, ∑ j, (u i * g j + l * (a i * b j)) * (p i * q j - (Real.log (p i) + Real.log (q j)) - 1) =
        ∑ i, ∑ j, (u i * g j + l * (a i * b j)) * (p i * q j) - ∑ i, ∑ j, (u i * g j + l * (a i * b j)) * (Real.log (p i) + Real.log (q j)) -
        ∑ i, ∑ j, (u i * g j + l * (a i * b j)) := by
      simp only [← Finset.sum_sub_distrib]
      exact Finset.sum_congr rfl fun i _ => Finset.sum_congr rfl fun j _ => by ring
    rw [this, ← e1, ← e2, ← e3]
    ring
  have h0 : ∀ i j, 0 ≤ p i * q j - (Real.log (p i) + Real.log (q j)) - 1 := fun i j => by
    have := Real.log_le_sub_one_of_pos (mul_pos (p0 i) (q0 j))
    rw [Real.log_mul (p0 i).ne' (q0 j).ne'] at this
    linarith
  have t0 : ∀ i j, 0 ≤ (u i * g j + l * (a i * b j)) * (p i * q j - (Real.log (p i) + Real.log (q j)) - 1) := fun i j => mul_nonneg (w0 i j) (h0 i j)
  constructor
  · have : 0 ≤ ∑ i, ∑ j, (u i * g j + l * (a i * b j)) * (p i * q j - (Real.log (p i) + Real.log (q j)) - 1) :=
      Finset.sum_nonneg fun i _ => Finset.sum_nonneg fun j _ => t0 i j
    linarith
  · intro e ha hb i j
    have z : ∑ i, ∑ j, (u i * g j + l * (a i * b j)) * (p i * q j - (Real.log (p i) + Real.log (q j)) - 1) = 0 := by rw [← e4, e]; ring
    have z1 := (Finset.sum_eq_zero_iff_of_nonneg fun i _ => Finset.sum_nonneg fun j _ => t0 i j).1 z i (Finset.mem_univ i)
    have z2 := (Finset.sum_eq_zero_iff_of_nonneg fun j _ => t0 i j).1 z1 j (Finset.mem_univ j)
    have wp : 0 < u i * g j + l * (a i * b j) := by
      have h1 := mul_pos (ha i) (hb j)
      have h2 := mul_nonneg (u0 i) (g0 j)
      nlinarith
    have z3 := (mul_eq_zero.1 z2).resolve_left wp.ne'
    by_contra hne
    have hl := Real.log_lt_sub_one_of_pos (mul_pos (p0 i) (q0 j)) hne
    rw [Real.log_mul (p0 i).ne' (q0 j).ne'] at hl
    linarith

/-- eigenvalues of `LLᵀ` -/
theorem gram_modes {L : Matrix (Fin n) (Fin n) ℝ} (hL : L.det ≠ 0) : ∃ (V : Matrix (Fin n) (Fin n) ℝ) (p : Fin n → ℝ), Vᵀ * V = 1 ∧ V * Vᵀ = 1 ∧
    L * Lᵀ = V * diagonal p * Vᵀ ∧ (∀ i, 0 < p i) ∧ Real.log (L.det ^ 2) = ∑ i, Real.log (p i) := by
  obtain ⟨V, p, h1, h2, e⟩ := spectral (N := L * Lᵀ) (by rw [transpose_mul, transpose_transpose])
  have hd : L.det ^ 2 = ∏ i, p i := by rw [← det_modes h2, ← e, det_mul, det_transpose, sq]
  have p0 : ∀ i, 0 ≤ p i := fun i => by
    have := psd_mode (V := V) (psd_gram Lᵀ) i
    rw [transpose_transpose, e] at this
    have e' : Vᵀ * (V * diagonal p * Vᵀ) * V = (Vᵀ * V) * diagonal p * (Vᵀ * V) := by simp only [Matrix.mul_assoc]
    rw [e', h1, Matrix.one_mul, Matrix.mul_one, diagonal_apply_eq] at this
    exact this
  have p1 : ∀ i, 0 < p i := fun i => lt_of_le_of_ne (p0 i) fun h => by
    have : ∏ i, p i = 0 := Finset.prod_eq_zero (Finset.mem_univ i) h.symm
    rw [← hd] at this
    exact hL (pow_eq_zero_iff (two_ne_zero) |>.1 this)
  exact ⟨V, p, h1, h2, e, p1, by rw [hd, Real.log_prod fun i _ => (p1 i).ne']⟩

theorem pos_mode {K V : Matrix (Fin n) (Fin n) ℝ} (hK : K.det ≠ 0) (hV : Vᵀ * V = 1) (i : Fin n) : 0 < (Vᵀ * (Kᵀ * K) * V) i i := by
  have hu : IsUnit (K * V) := by
    rw [isUnit_iff_isUnit_det, isUnit_iff_ne_zero, det_mul]
    refine mul_ne_zero hK fun h => ?_
    have := congrArg det hV
    rw [det_mul, h, mul_zero, det_one] at this
    exact zero_ne_one this
  have : ((K * V)ᵀ * (K * V)).PosDef := by
    have h := PosDef.conjTranspose_mul_self (K * V) (Matrix.mulVec_injective_of_isUnit hu)
    rwa [conjTranspose_eq_transpose_of_trivial] at h
  have := this.diag_pos (i := i)
  rw [transpose_mul] at this
  simpa only [Matrix.mul_assoc] using this

/-- **stationary pairs are global minima, unique up to the common scale** -/
theorem optimal (n0 : 0 < n) (d0 : 0 < d) {l : ℝ} (l0 : 0 ≤ l) {U K K₁ : Matrix (Fin n) (Fin n) ℝ} {G C C₁ : Matrix (Fin d) (Fin d) ℝ} (hU : U.PosSemidef)
    (hG : G.PosSemidef) (hK : K.det ≠ 0) (hC : C.det ≠ 0) (h1 : curv l U K G C = 1) (h2 : curv l G C U K = 1) (hK₁ : K₁.det ≠ 0) (hC₁ : C₁.det ≠ 0) :
    objective l U K G C ≤ objective l U K₁ G C₁ ∧
    (0 < l → objective l U K G C = objective l U K₁ G C₁ → ∃ s : ℝ, 0 < s ∧ K₁ * K₁ᵀ = s • (K * Kᵀ) ∧ C₁ * C₁ᵀ = s⁻¹ • (C * Cᵀ)) := by
  have uK : IsUnit K.det := isUnit_iff_ne_zero.2 hK
  have uC : IsUnit C.det := isUnit_iff_ne_zero.2 hC
  obtain ⟨L, eL⟩ : ∃ L, K * L = K₁ := ⟨K⁻¹ * K₁, by rw [← Matrix.mul_assoc, mul_nonsing_inv _ uK, Matrix.one_mul]⟩
  obtain ⟨R, eR⟩ : ∃ R, C * R = C₁ := ⟨C⁻¹ * C₁, by rw [← Matrix.mul_assoc, mul_nonsing_inv _ uC, Matrix.one_mul]⟩
  have hL : L.det ≠ 0 := fun h => hK₁ (by rw [← eL, det_mul, h, mul_zero])
  have hR : R.det ≠ 0 := fun h => hC₁ (by rw [← eR, det_mul, h, mul_zero])
  obtain ⟨V, p, v1, v2, eV, p0, lp⟩ := gram_modes hL
  obtain ⟨W, q, w1, w2, eW, q0, lq⟩ := gram_modes hR
  have S := scal_opt n0 d0 (fun i => psd_mode (V := V) (psd_sandwich hU K) i) (fun i => psd_mode (V := V) (psd_gram K) i)
    (fun i => psd_mode (V := W) (psd_sandwich hG C) i) (fun i => psd_mode (V := W) (psd_gram C) i) l0
    (fun i => by rw [← curv_mode w2, h1, Matrix.mul_one, v1, one_apply_eq]) (fun j => by rw [← curv_mode v2, h2, Matrix.mul_one, w1, one_apply_eq]) p0 q0
  have e1 : objective l U K₁ G C₁ = (∑ i, p i * (Vᵀ * (Kᵀ * U * K) * V) i i) * (∑ j, q j * (Wᵀ * (Cᵀ * G * C) * W) j j) +
      l * ((∑ i, p i * (Vᵀ * (Kᵀ * K) * V) i i) * ∑ j, q j * (Wᵀ * (Cᵀ * C) * W) j j) - d * (∑ i, Real.log (p i)) - n * (∑ j, Real.log (q j)) -
      d * Real.log (K.det ^ 2) - n * Real.log (C.det ^ 2) := by
    rw [← eL, ← eR, objective_step hK hC hL hR, lp, lq, eV, eW, trace_mul_modes, trace_mul_modes, trace_mul_modes, trace_mul_modes]
  have e2 : objective l U K G C = (∑ i, (Vᵀ * (Kᵀ * U * K) * V) i i) * (∑ j, (Wᵀ * (Cᵀ * G * C) * W) j j) +
      l * ((∑ i, (Vᵀ * (Kᵀ * K) * V) i i) * ∑ j, (Wᵀ * (Cᵀ * C) * W) j j) - d * Real.log (K.det ^ 2) - n * Real.log (C.det ^ 2) := by
    rw [objective, trace_modes v2 (A := Kᵀ * U * K), trace_modes w2 (A := Cᵀ * G * C), trace_modes v2 (A := Kᵀ * K), trace_modes w2 (A := Cᵀ * C)]
  refine ⟨by rw [e1, e2]; linarith [S.1], fun lp e => ?_⟩
  have pq := S.2 (by rw [e1, e2] at e; linarith) (fun i => mul_pos lp (pos_mode hK v1 i)) fun j => pos_mode hC w1 j
  let i0 : Fin n := ⟨0, n0⟩
  let j0 : Fin d := ⟨0, d0⟩
  have hp : ∀ i, p i = p i0 := fun i => mul_right_cancel₀ (q0 j0).ne' (by rw [pq, pq])
  have hq : ∀ j, q j = (p i0)⁻¹ := fun j => eq_inv_of_mul_eq_one_right (pq i0 j)
  refine ⟨p i0, p0 i0, ?_, ?_⟩
  · have : diagonal p = p i0 • (1 : Matrix (Fin n) (Fin n) ℝ) := by
      rw [← diagonal_one, ← diagonal_smul]; congr 1; funext i; simp [hp i]
    rw [← eL, transpose_mul, Matrix.mul_assoc K, ← Matrix.mul_assoc L, eV, this, Matrix.mul_smul, Matrix.mul_one, Matrix.smul_mul, v2, Matrix.smul_mul,
      Matrix.one_mul, Matrix.mul_smul]
  · have : diagonal q = (p i0)⁻¹ • (1 : Matrix (Fin d) (Fin d) ℝ) := by
      rw [← diagonal_one, ← diagonal_smul]; congr 1; funext i; simp [hq i]
    rw [← eR, transpose_mul, Matrix.mul_assoc C, ← Matrix.mul_assoc R, eW, this, Matrix.mul_smul, Matrix.mul_one, Matrix.smul_mul, w2, Matrix.smul_mul,
      Matrix.one_mul, Matrix.mul_smul]

theorem Below.of_modes {x : ℝ} {V : Matrix (Fin n) (Fin n) ℝ} (h : V * Vᵀ = 1) {ν : Fin n → ℝ} (hν : ∀ i, ν i ≤ x) : Below x (V * diagonal ν * Vᵀ) := by
  have : x • (1 : Matrix (Fin n) (Fin n) ℝ) - V * diagonal ν * Vᵀ = V * diagonal (fun i => x - ν i) * Vᵀ := by
    have e : diagonal (fun i => x - ν i) = x • 1 - diagonal ν := by
      rw [← diagonal_one, ← diagonal_smul, diagonal_sub]; congr 1; funext i; simp
    rw [e, Matrix.mul_sub, Matrix.sub_mul, Matrix.mul_smul, Matrix.mul_one, Matrix.smul_mul, h]
  rw [Below, this]
  have := (PosSemidef.diagonal (n := Fin n) (d := fun i => x - ν i) (fun i => sub_nonneg.2 (hν i))).mul_mul_conjTranspose_same V
  rwa [conjTranspose_eq_transpose_of_trivial] at this

theorem exists_below {N : Matrix (Fin n) (Fin n) ℝ} (h : Nᵀ = N) : ∃ x, 0 ≤ x ∧ Below x N := by
  obtain ⟨V, ν, h1, h2, rfl⟩ := spectral h
  refine ⟨∑ i, |ν i|, Finset.sum_nonneg fun _ _ => abs_nonneg _, Below.of_modes h2 fun i => ?_⟩
  exact (le_abs_self _).trans (Finset.single_le_sum (f := fun i => |ν i|) (fun _ _ => abs_nonneg _) (Finset.mem_univ i))

theorem sqs_nonneg (N : Matrix (Fin n) (Fin n) ℝ) : 0 ≤ sqs N := by
  have := (psd_gram Nᵀ).trace_nonneg
  rwa [transpose_transpose] at this

theorem sqs_eq_zero {N : Matrix (Fin n) (Fin n) ℝ} (h : sqs N = 0) : N = 0 := by
  have := (trace_mul_conjTranspose_self_eq_zero_iff (A := N)).1 (by rw [conjTranspose_eq_transpose_of_trivial]; exact h)
  exact this

/-- minimal pairs are stationary; it suffices to compare with pairs obtained by multiplying with polynomials in the directions -/
theorem stationary_of_min (n0 : 0 < n) (d0 : 0 < d) {l : ℝ} (l0 : 0 ≤ l) {U K : Matrix (Fin n) (Fin n) ℝ} {G C : Matrix (Fin d) (Fin d) ℝ} (hU : U.PosSemidef)
    (hG : G.PosSemidef) (hK : K.det ≠ 0) (hC : C.det ≠ 0)
    (h : ∀ e : ℝ, (1 - e • (curv l U K G C - 1)).det ≠ 0 → (1 - e • (curv l G C U K - 1)).det ≠ 0 →
      objective l U K G C ≤ objective l U (K * (1 - e • (curv l U K G C - 1))) G (C * (1 - e • (curv l G C U K - 1)))) :
    curv l U K G C = 1 ∧ curv l G C U K = 1 := by
  obtain ⟨x, x0, hx⟩ := exists_below (N := curv l U K G C - 1) (by rw [transpose_sub, curv_symm hU, transpose_one])
  obtain ⟨y, y0, hy⟩ := exists_below (N := curv l G C U K - 1) (by rw [transpose_sub, curv_symm hG, transpose_one])
  have pz : 0 < 9 * (x + y) + 8 := by positivity
  have e0 : 0 < 1 / (9 * (x + y) + 8) := by positivity
  have h1 : 1 / (9 * (x + y) + 8) * (9 * (x + y) + 8) = 1 := one_div_mul_cancel pz.ne'
  generalize 1 / (9 * (x + y) + 8) = e at *
  obtain ⟨d1, d2, D⟩ := descent n0 d0 l0 hU hG hK hC e0.le (by nlinarith [mul_nonneg e0.le x0, mul_nonneg e0.le y0]) hx
    (by nlinarith [mul_nonneg e0.le x0, mul_nonneg e0.le y0]) e0.le (by nlinarith [mul_nonneg e0.le x0, mul_nonneg e0.le y0]) hy
    (by nlinarith [mul_nonneg e0.le x0, mul_nonneg e0.le y0])
  have m := h e d1 d2
  have s1 := sqs_nonneg (curv l U K G C - 1)
  have s2 := sqs_nonneg (curv l G C U K - 1)
  have dp : (0 : ℝ) < d := by exact_mod_cast d0
  have np : (0 : ℝ) < n := by exact_mod_cast n0
  have t1 : 0 ≤ d * (e / 2 * sqs (curv l U K G C - 1)) := by positivity
  have t2 : 0 ≤ n * (e / 2 * sqs (curv l G C U K - 1)) := by positivity
  have z1 : d * (e / 2 * sqs (curv l U K G C - 1)) = 0 := by linarith
  have z2 : n * (e / 2 * sqs (curv l G C U K - 1)) = 0 := by linarith
  constructor
  · refine sub_eq_zero.1 (sqs_eq_zero ?_)
    rcases mul_eq_zero.1 z1 with h | h
    · exact absurd h dp.ne'
    · rcases mul_eq_zero.1 h with h | h
      · linarith
      · exact h
  · refine sub_eq_zero.1 (sqs_eq_zero ?_)
    rcases mul_eq_zero.1 z2 with h | h
    · exact absurd h np.ne'
    · rcases mul_eq_zero.1 h with h | h
      · linarith
      · exact h

/-! ### Convergence -/

theorem trace_gram_pos (n0 : 0 < n) {K : Matrix (Fin n) (Fin n) ℝ} (hK : K.det ≠ 0) : 0 < (Kᵀ * K).trace := by
  have : ∀ i, 0 < (Kᵀ * K) i i := fun i => by
    have := pos_mode hK (V := 1) (by simp) i
    simpa using this
  exact Finset.sum_pos (fun i _ => this i) ⟨⟨0, n0⟩, Finset.mem_univ _⟩

theorem log_det_le (n0 : 0 < n) {K : Matrix (Fin n) (Fin n) ℝ} (hK : K.det ≠ 0) : Real.log (K.det ^ 2) ≤ n * Real.log ((Kᵀ * K).trace / n) := by
  have n0' : (0 : ℝ) < n := by exact_mod_cast n0
  have tp := trace_gram_pos n0 hK
  obtain ⟨V, p, h1, h2, e, p0, hl⟩ := gram_modes hK
  have ht : (Kᵀ * K).trace = ∑ i, p i := by
    rw [Matrix.trace_mul_comm, e, Matrix.trace_mul_comm, ← Matrix.mul_assoc, h1, Matrix.one_mul, trace_diagonal]
  set s := (Kᵀ * K).trace / n with hs
  have s0 : 0 < s := by positivity
  have : ∀ i, Real.log (p i) ≤ p i / s - 1 + Real.log s := fun i => by
    have := Real.log_le_sub_one_of_pos (div_pos (p0 i) s0)
    rw [Real.log_div (p0 i).ne' s0.ne'] at this
    linarith
  rw [hl]
  refine (Finset.sum_le_sum fun i _ => this i).trans (le_of_eq ?_)
  rw [Finset.sum_add_distrib, Finset.sum_sub_distrib, ← Finset.sum_div, ← ht]
  have : (Kᵀ * K).trace / s = n := by rw [hs]; field_simp
  rw [this]
  simp

theorem traces_nonneg {U K : Matrix (Fin n) (Fin n) ℝ} (hU : U.PosSemidef) : 0 ≤ (Kᵀ * U * K).trace := (psd_sandwich hU K).trace_nonneg

/-- the objective controls the common scale -/
theorem objective_ge (n0 : 0 < n) (d0 : 0 < d) {l : ℝ} {U K : Matrix (Fin n) (Fin n) ℝ} {G C : Matrix (Fin d) (Fin d) ℝ} (hU : U.PosSemidef)
    (hG : G.PosSemidef) (hK : K.det ≠ 0) (hC : C.det ≠ 0) {s : ℝ} (hs : s = (Kᵀ * K).trace / n * ((Cᵀ * C).trace / d)) :
    n * d * (l * s - Real.log s) ≤ objective l U K G C := by
  have n0' : (0 : ℝ) < n := by exact_mod_cast n0
  have d0' : (0 : ℝ) < d := by exact_mod_cast d0
  have tK := trace_gram_pos n0 hK
  have tC := trace_gram_pos d0 hC
  have lK := mul_le_mul_of_nonneg_left (log_det_le n0 hK) d0'.le
  have lC := mul_le_mul_of_nonneg_left (log_det_le d0 hC) n0'.le
  have t := mul_nonneg (traces_nonneg (K := K) hU) (traces_nonneg (K := C) hG)
  rw [hs, Real.log_mul (by positivity) (by positivity), objective]
  have : n * d * (l * ((Kᵀ * K).trace / n * ((Cᵀ * C).trace / d))) = l * ((Kᵀ * K).trace * (Cᵀ * C).trace) := by field_simp
  rw [mul_sub, this]
  linarith

theorem scale_bound {l s B : ℝ} (l0 : 0 < l) (s0 : 0 < s) (h : l * s - Real.log s ≤ B) : s ≤ 2 / l * (B + Real.log (2 / l)) := by
  have := Real.log_le_sub_one_of_pos (show 0 < s * (l / 2) by positivity)
  rw [Real.log_mul s0.ne' (by positivity)] at this
  have e : Real.log (2 / l) = - Real.log (l / 2) := by rw [← Real.log_inv, inv_div]
  rw [e]
  have : l / 2 * s ≤ B - Real.log (l / 2) := by linarith
  have h2 : s = 2 / l * (l / 2 * s) := by field_simp
  rw [h2]
  exact mul_le_mul_of_nonneg_left (by linarith) (by positivity)

/-- the objective is bounded below -/
theorem objective_low (n0 : 0 < n) (d0 : 0 < d) {l : ℝ} (l0 : 0 < l) {U K : Matrix (Fin n) (Fin n) ℝ} {G C : Matrix (Fin d) (Fin d) ℝ} (hU : U.PosSemidef)
    (hG : G.PosSemidef) (hK : K.det ≠ 0) (hC : C.det ≠ 0) : n * d * (1 + Real.log l) ≤ objective l U K G C := by
  have n0' : (0 : ℝ) < n := by exact_mod_cast n0
  have d0' : (0 : ℝ) < d := by exact_mod_cast d0
  refine le_trans ?_ (objective_ge n0 d0 hU hG hK hC rfl)
  refine mul_le_mul_of_nonneg_left ?_ (by positivity)
  have s0 : 0 < (Kᵀ * K).trace / n * ((Cᵀ * C).trace / d) := mul_pos (div_pos (trace_gram_pos n0 hK) n0') (div_pos (trace_gram_pos d0 hC) d0')
  have := Real.log_le_sub_one_of_pos (mul_pos l0 s0)
  rw [Real.log_mul l0.ne' s0.ne'] at this
  linarith

/-- Factors updated by the default rule with fixed second moments `U`, `G`, damping `l`, and rates `a t`, `b t` that are small compared with the
largest eigenvalue of the directions. -/
structure Run (l r : ℝ) (U : Matrix (Fin n) (Fin n) ℝ) (G : Matrix (Fin d) (Fin d) ℝ) (a b : ℕ → ℝ) (K : ℕ → Matrix (Fin n) (Fin n) ℝ)
    (C : ℕ → Matrix (Fin d) (Fin d) ℝ) : Prop where
  stepK : ∀ t, K (t + 1) = K t * (1 - (a t / 2) • (curv l U (K t) G (C t) - 1))
  stepC : ∀ t, C (t + 1) = C t * (1 - (b t / 2) • (curv l G (C t) U (K t) - 1))
  a0 : ∀ t, r ≤ a t
  b0 : ∀ t, r ≤ b t
  a8 : ∀ t, 4 * a t ≤ 1
  b8 : ∀ t, 4 * b t ≤ 1
  aN : ∀ t, ∃ x, Below x (curv l U (K t) G (C t) - 1) ∧ a t * (9 * x + 8) ≤ 2
  bN : ∀ t, ∃ x, Below x (curv l G (C t) U (K t) - 1) ∧ b t * (9 * x + 8) ≤ 2

section
variable {l r : ℝ} {U : Matrix (Fin n) (Fin n) ℝ} {G : Matrix (Fin d) (Fin d) ℝ} {a b : ℕ → ℝ} {K : ℕ → Matrix (Fin n) (Fin n) ℝ}
    {C : ℕ → Matrix (Fin d) (Fin d) ℝ}

theorem Run.one (R : Run l r U G a b K C) (n0 : 0 < n) (d0 : 0 < d) (l0 : 0 ≤ l) (r0 : 0 ≤ r) (hU : U.PosSemidef) (hG : G.PosSemidef) {t : ℕ}
    (hK : (K t).det ≠ 0) (hC : (C t).det ≠ 0) : (K (t + 1)).det ≠ 0 ∧ (C (t + 1)).det ≠ 0 ∧
    objective l U (K (t + 1)) G (C (t + 1)) + d * (r / 4 * sqs (curv l U (K t) G (C t) - 1)) + n * (r / 4 * sqs (curv l G (C t) U (K t) - 1)) ≤
      objective l U (K t) G (C t) := by
  obtain ⟨x, hx, ex⟩ := R.aN t
  obtain ⟨y, hy, ey⟩ := R.bN t
  have a0 := R.a0 t
  have b0 := R.b0 t
  obtain ⟨h1, h2, h3⟩ := descent n0 d0 l0 hU hG hK hC (ε := a t / 2) (ε' := b t / 2) (by linarith) (by linarith [R.a8 t]) hx (by linarith)
    (by linarith) (by linarith [R.b8 t]) hy (by linarith)
  rw [← R.stepK, ← R.stepC] at h3
  refine ⟨by rw [R.stepK, det_mul]; exact mul_ne_zero hK h1, by rw [R.stepC, det_mul]; exact mul_ne_zero hC h2, ?_⟩
  have s1 := sqs_nonneg (curv l U (K t) G (C t) - 1)
  have s2 := sqs_nonneg (curv l G (C t) U (K t) - 1)
  have m1 : r / 4 * sqs (curv l U (K t) G (C t) - 1) ≤ a t / 2 / 2 * sqs (curv l U (K t) G (C t) - 1) := mul_le_mul_of_nonneg_right (by linarith) s1
  have m2 : r / 4 * sqs (curv l G (C t) U (K t) - 1) ≤ b t / 2 / 2 * sqs (curv l G (C t) U (K t) - 1) := mul_le_mul_of_nonneg_right (by linarith) s2
  have := mul_le_mul_of_nonneg_left m1 (Nat.cast_nonneg d : (0 : ℝ) ≤ d)
  have := mul_le_mul_of_nonneg_left m2 (Nat.cast_nonneg n : (0 : ℝ) ≤ n)
  linarith

theorem Run.det (R : Run l r U G a b K C) (n0 : 0 < n) (d0 : 0 < d) (l0 : 0 ≤ l) (r0 : 0 ≤ r) (hU : U.PosSemidef) (hG : G.PosSemidef)
    (hK : (K 0).det ≠ 0) (hC : (C 0).det ≠ 0) : ∀ t, (K t).det ≠ 0 ∧ (C t).det ≠ 0
  | 0 => ⟨hK, hC⟩
  | t + 1 => by
    obtain ⟨h1, h2⟩ := R.det n0 d0 l0 r0 hU hG hK hC t
    obtain ⟨h3, h4, -⟩ := R.one n0 d0 l0 r0 hU hG h1 h2
    exact ⟨h3, h4⟩

open Filter Topology

/-- the objective never increases, and the directions tend to zero -/
theorem Run.vanish (R : Run l r U G a b K C) (n0 : 0 < n) (d0 : 0 < d) (l0 : 0 < l) (r0 : 0 < r) (hU : U.PosSemidef) (hG : G.PosSemidef)
    (hK : (K 0).det ≠ 0) (hC : (C 0).det ≠ 0) : Antitone (fun t => objective l U (K t) G (C t)) ∧
    Tendsto (fun t => sqs (curv l U (K t) G (C t) - 1)) atTop (𝓝 0) ∧ Tendsto (fun t => sqs (curv l G (C t) U (K t) - 1)) atTop (𝓝 0) := by
  have hd := R.det n0 d0 l0.le r0.le hU hG hK hC
  have n0' : (0 : ℝ) < n := by exact_mod_cast n0
  have d0' : (0 : ℝ) < d := by exact_mod_cast d0
  have one := fun t => (R.one n0 d0 l0.le r0.le hU hG (hd t).1 (hd t).2).2.2
  have s1 := fun t => sqs_nonneg (curv l U (K t) G (C t) - 1)
  have s2 := fun t => sqs_nonneg (curv l G (C t) U (K t) - 1)
  have anti : Antitone (fun t => objective l U (K t) G (C t)) := antitone_nat_of_succ_le fun t => by
    have h1 : 0 ≤ d * (r / 4 * sqs (curv l U (K t) G (C t) - 1)) := by have := s1 t; positivity
    have h2 : 0 ≤ n * (r / 4 * sqs (curv l G (C t) U (K t) - 1)) := by have := s2 t; positivity
    linarith [one t]
  have lim := tendsto_atTop_ciInf anti ⟨n * d * (1 + Real.log l), by rintro _ ⟨t, rfl⟩; exact objective_low n0 d0 l0 hU hG (hd t).1 (hd t).2⟩
  have diff : Tendsto (fun t => objective l U (K t) G (C t) - objective l U (K (t + 1)) G (C (t + 1))) atTop (𝓝 0) := by
    have := lim.sub ((tendsto_add_atTop_iff_nat 1).2 lim)
    simpa using this
  refine ⟨anti, ?_, ?_⟩
  · have up := diff.const_mul (4 / (r * d))
    rw [mul_zero] at up
    refine squeeze_zero s1 (fun t => ?_) up
    have h2 : 0 ≤ n * (r / 4 * sqs (curv l G (C t) U (K t) - 1)) := by have := s2 t; positivity
    have : sqs (curv l U (K t) G (C t) - 1) = 4 / (r * d) * (d * (r / 4 * sqs (curv l U (K t) G (C t) - 1))) := by field_simp
    rw [this]
    exact mul_le_mul_of_nonneg_left (by linarith [one t]) (by positivity)
  · have up := diff.const_mul (4 / (r * n))
    rw [mul_zero] at up
    refine squeeze_zero s2 (fun t => ?_) up
    have h2 : 0 ≤ d * (r / 4 * sqs (curv l U (K t) G (C t) - 1)) := by have := s1 t; positivity
    have : sqs (curv l G (C t) U (K t) - 1) = 4 / (r * n) * (n * (r / 4 * sqs (curv l G (C t) U (K t) - 1))) := by field_simp
    rw [this]
    exact mul_le_mul_of_nonneg_left (by linarith [one t]) (by positivity)

theorem entry_sq_le (K : Matrix (Fin n) (Fin n) ℝ) (i j : Fin n) : K i j ^ 2 ≤ (Kᵀ * K).trace := by
  have : (Kᵀ * K).trace = ∑ j, ∑ i, K i j ^ 2 := by simp [Matrix.trace, Matrix.mul_apply, sq]
  rw [this]
  exact (Finset.single_le_sum (f := fun i => K i j ^ 2) (fun _ _ => sq_nonneg _) (Finset.mem_univ i)).trans
    (Finset.single_le_sum (f := fun j => ∑ i, K i j ^ 2) (fun _ _ => Finset.sum_nonneg fun _ _ => sq_nonneg _) (Finset.mem_univ j))

theorem entry_sq_le_sqs (N : Matrix (Fin n) (Fin n) ℝ) (i j : Fin n) : N i j ^ 2 ≤ sqs N := by
  have := entry_sq_le Nᵀ j i
  rwa [transpose_transpose] at this

/-- the scale of the factors does not matter -/
theorem curv_scale {c : ℝ} (hc : c ≠ 0) (K : Matrix (Fin n) (Fin n) ℝ) (C : Matrix (Fin d) (Fin d) ℝ) :
    curv l U (c • K) G (c⁻¹ • C) = curv l U K G C := by
  have e : c * c * (c⁻¹ * c⁻¹) = 1 := by field_simp
  simp only [curv, avgTr, transpose_smul, Matrix.smul_mul, Matrix.mul_smul, Matrix.trace_smul, smul_smul, smul_eq_mul]
  congr 2
  · linear_combination ((Cᵀ * G * C).trace / d) * e
  · linear_combination (l * ((Cᵀ * C).trace / d)) * e

theorem curv_scale' {c : ℝ} (hc : c ≠ 0) (K : Matrix (Fin n) (Fin n) ℝ) (C : Matrix (Fin d) (Fin d) ℝ) :
    curv l G (c⁻¹ • C) U (c • K) = curv l G C U K := by
  have := curv_scale (l := l) (U := G) (G := U) (inv_ne_zero hc) C K
  rwa [inv_inv] at this

open scoped Kronecker

theorem kron_scale {c : ℝ} (hc : c ≠ 0) (K : Matrix (Fin n) (Fin n) ℝ) (C : Matrix (Fin d) (Fin d) ℝ) :
    ((c⁻¹ • C) * (c⁻¹ • C)ᵀ) ⊗ₖ ((c • K) * (c • K)ᵀ) = (C * Cᵀ) ⊗ₖ (K * Kᵀ) := by
  have e : c * c * (c⁻¹ * c⁻¹) = 1 := by field_simp
  ext ⟨i, j⟩ ⟨i', j'⟩
  simp only [kronecker_apply, transpose_smul, Matrix.smul_mul, Matrix.mul_smul, Matrix.smul_apply, smul_eq_mul]
  linear_combination ((C * Cᵀ) i i' * (K * Kᵀ) j j') * e

theorem det_scale {c : ℝ} (hc : c ≠ 0) (K : Matrix (Fin n) (Fin n) ℝ) (C : Matrix (Fin d) (Fin d) ℝ) :
    ((c • K).det ^ 2) ^ d * ((c⁻¹ • C).det ^ 2) ^ n = (K.det ^ 2) ^ d * (C.det ^ 2) ^ n := by
  have e : c * c⁻¹ = 1 := mul_inv_cancel₀ hc
  have : (c * c⁻¹) ^ (n * 2 * d) = 1 := by rw [e, one_pow]
  rw [mul_pow] at this
  rw [det_smul, det_smul, Fintype.card_fin, Fintype.card_fin]
  have e1 : ((c ^ n * K.det) ^ 2) ^ d = c ^ (n * 2 * d) * (K.det ^ 2) ^ d := by ring
  have e2 : ((c⁻¹ ^ d * C.det) ^ 2) ^ n = c⁻¹ ^ (n * 2 * d) * (C.det ^ 2) ^ n := by ring
  rw [e1, e2]
  linear_combination ((K.det ^ 2) ^ d * (C.det ^ 2) ^ n) * this

/-- the determinants cannot become small -/
theorem det_low {l : ℝ} (l0 : 0 ≤ l) {K : Matrix (Fin n) (Fin n) ℝ} {C : Matrix (Fin d) (Fin d) ℝ} (hU : U.PosSemidef)
    (hG : G.PosSemidef) (hK : K.det ≠ 0) (hC : C.det ≠ 0) {B : ℝ} (hB : objective l U K G C ≤ B) : Real.exp (-B) ≤ (K.det ^ 2) ^ d * (C.det ^ 2) ^ n := by
  have t := mul_nonneg (traces_nonneg (K := K) hU) (traces_nonneg (K := C) hG)
  have t2 := mul_nonneg l0 (mul_nonneg (psd_gram K).trace_nonneg (psd_gram C).trace_nonneg)
  have pK : 0 < K.det ^ 2 := by positivity
  have pC : 0 < C.det ^ 2 := by positivity
  rw [← Real.le_log_iff_exp_le (by positivity), Real.log_mul (by positivity) (by positivity), Real.log_pow (K.det ^ 2) d, Real.log_pow (C.det ^ 2) n]
  unfold objective at hB
  linarith

theorem continuous_curv : Continuous fun p : Matrix (Fin n) (Fin n) ℝ × Matrix (Fin d) (Fin d) ℝ => curv l U p.1 G p.2 := by
  unfold curv avgTr
  have c1 : Continuous fun p : Matrix (Fin n) (Fin n) ℝ × Matrix (Fin d) (Fin d) ℝ => p.1 := continuous_fst
  have c2 : Continuous fun p : Matrix (Fin n) (Fin n) ℝ × Matrix (Fin d) (Fin d) ℝ => p.2 := continuous_snd
  have k1 := (c1.matrix_transpose.matrix_mul (continuous_const (y := U))).matrix_mul c1
  have k2 := c1.matrix_transpose.matrix_mul c1
  have k3 := (c2.matrix_transpose.matrix_mul (continuous_const (y := G))).matrix_mul c2
  have k4 := c2.matrix_transpose.matrix_mul c2
  exact ((k3.matrix_trace.div_const _).smul k1).add ((continuous_const.mul (k4.matrix_trace.div_const _)).smul k2)

theorem continuous_kron : Continuous fun p : Matrix (Fin n) (Fin n) ℝ × Matrix (Fin d) (Fin d) ℝ => (p.2 * p.2ᵀ) ⊗ₖ (p.1 * p.1ᵀ) := by
  have c1 : Continuous fun p : Matrix (Fin n) (Fin n) ℝ × Matrix (Fin d) (Fin d) ℝ => p.1 := continuous_fst
  have c2 : Continuous fun p : Matrix (Fin n) (Fin n) ℝ × Matrix (Fin d) (Fin d) ℝ => p.2 := continuous_snd
  refine continuous_matrix fun i j => ?_
  change Continuous fun p : Matrix (Fin n) (Fin n) ℝ × Matrix (Fin d) (Fin d) ℝ => (p.2 * p.2ᵀ) i.1 j.1 * (p.1 * p.1ᵀ) i.2 j.2
  exact ((c2.matrix_mul c2.matrix_transpose).matrix_elem _ _).mul ((c1.matrix_mul c1.matrix_transpose).matrix_elem _ _)

theorem continuous_dets : Continuous fun p : Matrix (Fin n) (Fin n) ℝ × Matrix (Fin d) (Fin d) ℝ => (p.1.det ^ 2) ^ d * (p.2.det ^ 2) ^ n := by
  have c1 : Continuous fun p : Matrix (Fin n) (Fin n) ℝ × Matrix (Fin d) (Fin d) ℝ => p.1 := continuous_fst
  have c2 : Continuous fun p : Matrix (Fin n) (Fin n) ℝ × Matrix (Fin d) (Fin d) ℝ => p.2 := continuous_snd
  exact ((c1.matrix_det.pow 2).pow d).mul ((c2.matrix_det.pow 2).pow n)

theorem tendsto_of_sqs {N : ℕ → Matrix (Fin n) (Fin n) ℝ} (h : Tendsto (fun t => sqs (N t)) atTop (𝓝 0)) : Tendsto N atTop (𝓝 0) := by
  refine tendsto_pi_nhds.2 fun i => tendsto_pi_nhds.2 fun j => ?_
  have : Tendsto (fun t => N t i j ^ 2) atTop (𝓝 0) := squeeze_zero (fun t => sq_nonneg _) (fun t => entry_sq_le_sqs (N t) i j) h
  have h2 := this.sqrt
  simp only [Real.sqrt_sq_eq_abs, Real.sqrt_zero] at h2
  exact (tendsto_zero_iff_abs_tendsto_zero _).2 h2

/-- two stationary pairs have the same Kronecker product -/
theorem stationary_kron (n0 : 0 < n) (d0 : 0 < d) {l : ℝ} (l0 : 0 < l) {U K K₁ : Matrix (Fin n) (Fin n) ℝ} {G C C₁ : Matrix (Fin d) (Fin d) ℝ} (hU : U.PosSemidef)
    (hG : G.PosSemidef) (hK : K.det ≠ 0) (hC : C.det ≠ 0) (h1 : curv l U K G C = 1) (h2 : curv l G C U K = 1) (hK₁ : K₁.det ≠ 0) (hC₁ : C₁.det ≠ 0)
    (h3 : objective l U K₁ G C₁ ≤ objective l U K G C) : (C₁ * C₁ᵀ) ⊗ₖ (K₁ * K₁ᵀ) = (C * Cᵀ) ⊗ₖ (K * Kᵀ) := by
  obtain ⟨o1, o2⟩ := optimal n0 d0 l0.le hU hG hK hC h1 h2 hK₁ hC₁
  obtain ⟨s, s0, e1, e2⟩ := o2 l0 (le_antisymm o1 h3)
  rw [e1, e2]
  ext ⟨i, j⟩ ⟨i', j'⟩
  simp only [kronecker_apply, Matrix.smul_apply, smul_eq_mul]
  field_simp

/-- along every subsequence some further subsequence converges to a stationary pair -/
theorem Run.sub (R : Run l r U G a b K C) (n0 : 0 < n) (d0 : 0 < d) (l0 : 0 < l) (r0 : 0 < r) (hU : U.PosSemidef) (hG : G.PosSemidef)
    (hK : (K 0).det ≠ 0) (hC : (C 0).det ≠ 0) (ns : ℕ → ℕ) (hns : Tendsto ns atTop atTop) : ∃ ms : ℕ → ℕ, ∃ Ks Cs, Ks.det ≠ 0 ∧ Cs.det ≠ 0 ∧
    curv l U Ks G Cs = 1 ∧ curv l G Cs U Ks = 1 ∧ (∀ i j, (∀ t, K t i j = 0) → Ks i j = 0) ∧ (∀ i j, (∀ t, C t i j = 0) → Cs i j = 0) ∧
    Tendsto (fun t => (C (ns (ms t)) * (C (ns (ms t)))ᵀ) ⊗ₖ (K (ns (ms t)) * (K (ns (ms t)))ᵀ)) atTop (𝓝 ((Cs * Csᵀ) ⊗ₖ (Ks * Ksᵀ))) := by
  obtain ⟨anti, z1, z2⟩ := R.vanish n0 d0 l0 r0 hU hG hK hC
  have hd := R.det n0 d0 l0.le r0.le hU hG hK hC
  have n0' : (0 : ℝ) < n := by exact_mod_cast n0
  have d0' : (0 : ℝ) < d := by exact_mod_cast d0
  obtain ⟨f0, hf0⟩ : ∃ f0, ∀ t, objective l U (K t) G (C t) ≤ f0 := ⟨_, fun t => anti (Nat.zero_le t)⟩
  have tC : ∀ t, 0 < ((C t)ᵀ * C t).trace / d := fun t => div_pos (trace_gram_pos d0 (hd t).2) d0'
  have tK : ∀ t, 0 < ((K t)ᵀ * K t).trace / n := fun t => div_pos (trace_gram_pos n0 (hd t).1) n0'
  obtain ⟨c, hc⟩ : ∃ c : ℕ → ℝ, ∀ t, c t ≠ 0 ∧ c t * c t = ((C t)ᵀ * C t).trace / d :=
    ⟨fun t => √(((C t)ᵀ * C t).trace / d), fun t => ⟨(Real.sqrt_pos.2 (tC t)).ne', Real.mul_self_sqrt (tC t).le⟩⟩
  obtain ⟨S, hS⟩ : ∃ S, ∀ t, ((K t)ᵀ * K t).trace / n * (((C t)ᵀ * C t).trace / d) ≤ S :=
    ⟨2 / l * (f0 / (n * d) + Real.log (2 / l)), fun t => scale_bound l0 (mul_pos (tK t) (tC t)) (by
      rw [le_div_iff₀ (by positivity), mul_comm]
      exact (objective_ge n0 d0 hU hG (hd t).1 (hd t).2 rfl).trans (hf0 t))⟩
  obtain ⟨B, hB⟩ : ∃ B : ℝ, ∀ t, (∀ i j, |(c t • K t) i j| ≤ B) ∧ ∀ i j, |((c t)⁻¹ • C t) i j| ≤ B := by
    refine ⟨max (n * S) d + 1, fun t => ⟨fun i j => ?_, fun i j => ?_⟩⟩
    · have h := entry_sq_le (c t • K t) i j
      have e : ((c t • K t)ᵀ * (c t • K t)).trace = n * (((K t)ᵀ * K t).trace / n * (((C t)ᵀ * C t).trace / d)) := by
        rw [transpose_smul, Matrix.smul_mul, Matrix.mul_smul, smul_smul, (hc t).2, Matrix.trace_smul, smul_eq_mul]
        field_simp
      rw [e] at h
      have h' : |(c t • K t) i j| ^ 2 ≤ max (n * S) d := by
        rw [sq_abs]
        exact h.trans ((mul_le_mul_of_nonneg_left (hS t) n0'.le).trans (le_max_left _ _))
      nlinarith [abs_nonneg ((c t • K t) i j)]
    · have h := entry_sq_le ((c t)⁻¹ • C t) i j
      have e : (((c t)⁻¹ • C t)ᵀ * ((c t)⁻¹ • C t)).trace = d := by
        have ne := (hc t).1
        have tr : ((C t)ᵀ * C t).trace = c t * c t * d := by rw [(hc t).2]; field_simp
        rw [transpose_smul, Matrix.smul_mul, Matrix.mul_smul, smul_smul, Matrix.trace_smul, smul_eq_mul, tr]
        field_simp
      rw [e] at h
      have h' : |((c t)⁻¹ • C t) i j| ^ 2 ≤ max (n * S) d := by
        rw [sq_abs]
        exact h.trans (le_max_right _ _)
      nlinarith [abs_nonneg (((c t)⁻¹ • C t) i j)]
  have cpt : IsCompact ((Set.univ.pi fun _ : Fin n => Set.univ.pi fun _ : Fin n => Set.Icc (-B) B) ×ˢ
      (Set.univ.pi fun _ : Fin d => Set.univ.pi fun _ : Fin d => Set.Icc (-B) B)) :=
    (isCompact_univ_pi fun _ => isCompact_univ_pi fun _ => isCompact_Icc).prod (isCompact_univ_pi fun _ => isCompact_univ_pi fun _ => isCompact_Icc)
  obtain ⟨p, -, φ, hφ, lim⟩ := cpt.tendsto_subseq (x := fun t => ((fun i j => (c (ns t) • K (ns t)) i j), fun i j => ((c (ns t))⁻¹ • C (ns t)) i j))
    (fun t => ⟨fun i _ j _ => abs_le.1 ((hB (ns t)).1 i j), fun i _ j _ => abs_le.1 ((hB (ns t)).2 i j)⟩)
  have lim' : Tendsto (fun t => ((c (ns (φ t)) • K (ns (φ t)), (c (ns (φ t)))⁻¹ • C (ns (φ t))) : Matrix (Fin n) (Fin n) ℝ × Matrix (Fin d) (Fin d) ℝ)) atTop
      (𝓝 ((p.1, p.2) : Matrix (Fin n) (Fin n) ℝ × Matrix (Fin d) (Fin d) ℝ)) := lim
  have nφ : Tendsto (fun t => ns (φ t)) atTop atTop := hns.comp hφ.tendsto_atTop
  have dets : Real.exp (-f0) ≤ (Matrix.det p.1 ^ 2) ^ d * (Matrix.det p.2 ^ 2) ^ n := by
    refine ge_of_tendsto' ((continuous_dets.tendsto _).comp lim') fun t => ?_
    simp only [Function.comp]
    rw [det_scale (hc _).1]
    exact det_low l0.le hU hG (hd _).1 (hd _).2 (hf0 _)
  have dets0 := (Real.exp_pos (-f0)).trans_le dets
  have cur1 : curv l U p.1 G p.2 = 1 := by
    have h1 := (continuous_curv (l := l) (U := U) (G := G)).tendsto ((p.1, p.2) : Matrix (Fin n) (Fin n) ℝ × Matrix (Fin d) (Fin d) ℝ) |>.comp lim'
    have h2 := ((tendsto_of_sqs z1).comp nφ).add_const 1
    simp only [Function.comp_def, curv_scale (hc _).1, sub_add_cancel, zero_add] at h1 h2
    exact tendsto_nhds_unique h1 h2
  have cur2 : curv l G p.2 U p.1 = 1 := by
    have h1 := (continuous_curv (l := l) (U := G) (G := U)).tendsto ((p.2, p.1) : Matrix (Fin d) (Fin d) ℝ × Matrix (Fin n) (Fin n) ℝ) |>.comp
      ((continuous_swap.tendsto _).comp lim')
    have h2 := ((tendsto_of_sqs z2).comp nφ).add_const 1
    simp only [Function.comp_def, Prod.swap_prod_mk, curv_scale' (hc _).1, sub_add_cancel, zero_add] at h1 h2
    exact tendsto_nhds_unique h1 h2
  refine ⟨φ, p.1, p.2, fun h => ?_, fun h => ?_, cur1, cur2, fun i j h => ?_, fun i j h => ?_, ?_⟩
  · rw [h] at dets0
    simp [d0.ne'] at dets0
  · rw [h] at dets0
    simp [n0.ne'] at dets0
  · have h1 := (((continuous_fst.tendsto _).comp lim').apply_nhds i).apply_nhds j
    simp only [Function.comp_def, Matrix.smul_apply, h, smul_zero] at h1
    exact (tendsto_nhds_unique h1 tendsto_const_nhds)
  · have h1 := (((continuous_snd.tendsto _).comp lim').apply_nhds i).apply_nhds j
    simp only [Function.comp_def, Matrix.smul_apply, h, smul_zero] at h1
    exact (tendsto_nhds_unique h1 tendsto_const_nhds)
  · have h1 := (continuous_kron.tendsto _).comp lim'
    simp only [Function.comp_def, kron_scale (hc _).1] at h1
    exact h1

/-- **the default update converges**: the Kronecker product of the factors tends to that of a stationary pair -/
theorem Run.tendsto (R : Run l r U G a b K C) (n0 : 0 < n) (d0 : 0 < d) (l0 : 0 < l) (r0 : 0 < r) (hU : U.PosSemidef) (hG : G.PosSemidef)
    (hK : (K 0).det ≠ 0) (hC : (C 0).det ≠ 0) : ∃ Ks Cs, Ks.det ≠ 0 ∧ Cs.det ≠ 0 ∧ curv l U Ks G Cs = 1 ∧ curv l G Cs U Ks = 1 ∧
    (∀ i j, (∀ t, K t i j = 0) → Ks i j = 0) ∧ (∀ i j, (∀ t, C t i j = 0) → Cs i j = 0) ∧
    Tendsto (fun t => (C t * (C t)ᵀ) ⊗ₖ (K t * (K t)ᵀ)) atTop (𝓝 ((Cs * Csᵀ) ⊗ₖ (Ks * Ksᵀ))) := by
  obtain ⟨-, Ks, Cs, h1, h2, h3, h4, h5, h6, -⟩ := R.sub n0 d0 l0 r0 hU hG hK hC id tendsto_id
  refine ⟨Ks, Cs, h1, h2, h3, h4, h5, h6, tendsto_of_subseq_tendsto fun ns hns => ?_⟩
  obtain ⟨ms, Ks', Cs', g1, g2, g3, g4, -, -, g5⟩ := R.sub n0 d0 l0 r0 hU hG hK hC ns hns
  refine ⟨ms, ?_⟩
  rwa [stationary_kron n0 d0 l0 hU hG h1 h2 h3 h4 g1 g2 (optimal n0 d0 l0.le hU hG g1 g2 g3 g4 h1 h2).1] at g5

end

/-! ### Rates -/

theorem below_of_quad {N : Matrix (Fin n) (Fin n) ℝ} (hN : Nᵀ = N) {x : ℝ} (h : ∀ v, v ⬝ᵥ N *ᵥ v ≤ x * (v ⬝ᵥ v)) : Below x N := by
  refine PosSemidef.of_dotProduct_mulVec_nonneg ?_ fun v => ?_
  · rw [IsHermitian, conjTranspose_eq_transpose_of_trivial, transpose_sub, transpose_smul, transpose_one, hN]
  · have := h v
    simp only [star_trivial, sub_mulVec, smul_mulVec, one_mulVec, dotProduct_sub, dotProduct_smul, smul_eq_mul]
    linarith

theorem Below.mono {N : Matrix (Fin n) (Fin n) ℝ} {x y : ℝ} (h : Below x N) (hxy : x ≤ y) : Below y N := by
  have : y • (1 : Matrix (Fin n) (Fin n) ℝ) - N = x • 1 - N + (y - x) • 1 := by rw [sub_smul]; abel
  rw [Below, this]
  exact PosSemidef.add h (PosSemidef.one.smul (by linarith))

theorem Below.sub_one {N : Matrix (Fin n) (Fin n) ℝ} {x : ℝ} (h : Below x N) : Below x (N - 1) := by
  have : x • (1 : Matrix (Fin n) (Fin n) ℝ) - (N - 1) = x • 1 - N + 1 := by abel
  rw [Below, this]
  exact PosSemidef.add h PosSemidef.one

/-- a positive semidefinite matrix and its entries are at most its trace -/
theorem below_trace {X : Matrix (Fin n) (Fin n) ℝ} (h : X.PosSemidef) : Below X.trace X ∧ ∀ i j, |X i j| ≤ X.trace := by
  have hs : Xᵀ = X := by have := h.isHermitian; rwa [IsHermitian, conjTranspose_eq_transpose_of_trivial] at this
  obtain ⟨V, ν, v1, v2, e⟩ := spectral hs
  have ν0 : ∀ i, 0 ≤ ν i := fun i => by
    have := psd_mode (V := V) h i
    have e2 : Vᵀ * (V * diagonal ν * Vᵀ) * V = (Vᵀ * V) * diagonal ν * (Vᵀ * V) := by simp only [Matrix.mul_assoc]
    rwa [e, e2, v1, Matrix.one_mul, Matrix.mul_one, diagonal_apply_eq] at this
  have ht : X.trace = ∑ i, ν i := by
    rw [e, Matrix.trace_mul_comm, ← Matrix.mul_assoc, v1, Matrix.one_mul, trace_diagonal]
  have le : ∀ i, ν i ≤ X.trace := fun i => by
    rw [ht]; exact Finset.single_le_sum (fun j _ => ν0 j) (Finset.mem_univ i)
  refine ⟨?_, fun i j => ?_⟩
  · have := Below.of_modes v2 le
    rwa [← e] at this
  · have hq : sqs X = ∑ i, ν i ^ 2 := by
      rw [sqs, e]
      have : V * diagonal ν * Vᵀ * (V * diagonal ν * Vᵀ)ᵀ = V * (diagonal ν * (Vᵀ * V) * diagonal ν) * Vᵀ := by
        simp only [transpose_mul, transpose_transpose, diagonal_transpose, Matrix.mul_assoc]
      rw [this, v1, Matrix.mul_one, Matrix.trace_mul_comm, ← Matrix.mul_assoc, v1, Matrix.one_mul, diagonal_mul_diagonal, trace_diagonal]
      exact Finset.sum_congr rfl fun i _ => by ring
    have h1 : sqs X ≤ X.trace ^ 2 := by
      rw [hq, sq]
      nth_rw 2 [ht]
      rw [Finset.mul_sum]
      exact Finset.sum_le_sum fun i _ => by rw [sq]; exact mul_le_mul_of_nonneg_right (le i) (ν0 i)
    have := (entry_sq_le_sqs X i j).trans h1
    rw [← abs_of_nonneg h.trace_nonneg]
    exact sq_le_sq.1 this

theorem curv_psd {l : ℝ} (l0 : 0 ≤ l) {U : Matrix (Fin n) (Fin n) ℝ} {G : Matrix (Fin d) (Fin d) ℝ} (hU : U.PosSemidef) (hG : G.PosSemidef)
    (K : Matrix (Fin n) (Fin n) ℝ) (C : Matrix (Fin d) (Fin d) ℝ) : (curv l U K G C).PosSemidef := by
  have t1 := traces_nonneg (K := C) hG
  have t2 := (psd_gram C).trace_nonneg
  refine PosSemidef.add ((psd_sandwich hU K).smul ?_) ((psd_gram K).smul ?_) <;> unfold avgTr <;> positivity

/-- the part of the objective without determinants -/
noncomputable def traces (l : ℝ) (U K : Matrix (Fin n) (Fin n) ℝ) (G C : Matrix (Fin d) (Fin d) ℝ) : ℝ :=
  (Kᵀ * U * K).trace * (Cᵀ * G * C).trace + l * ((Kᵀ * K).trace * (Cᵀ * C).trace)

theorem trace_curv (l : ℝ) (U K : Matrix (Fin n) (Fin n) ℝ) (G C : Matrix (Fin d) (Fin d) ℝ) : (curv l U K G C).trace = traces l U K G C / d ∧
    (curv l G C U K).trace = traces l U K G C / n := by
  simp only [curv, avgTr, traces, Matrix.trace_add, Matrix.trace_smul, smul_eq_mul]
  constructor <;> ring

theorem traces_le (n0 : 0 < n) (d0 : 0 < d) {l : ℝ} (l0 : 0 < l) {U K : Matrix (Fin n) (Fin n) ℝ} {G C : Matrix (Fin d) (Fin d) ℝ} (hU : U.PosSemidef)
    (hG : G.PosSemidef) (hK : K.det ≠ 0) (hC : C.det ≠ 0) {f : ℝ} (hf : objective l U K G C ≤ f) :
    0 < traces l U K G C ∧ traces l U K G C ≤ n * d * (2 * (f / (n * d) + Real.log (2 / l))) := by
  have n0' : (0 : ℝ) < n := by exact_mod_cast n0
  have d0' : (0 : ℝ) < d := by exact_mod_cast d0
  have tK := trace_gram_pos n0 hK
  have tC := trace_gram_pos d0 hC
  have t := mul_nonneg (traces_nonneg (K := K) hU) (traces_nonneg (K := C) hG)
  have t2 : 0 < l * ((Kᵀ * K).trace * (Cᵀ * C).trace) := by positivity
  have T0 : 0 < traces l U K G C := by unfold traces; linarith
  refine ⟨T0, ?_⟩
  have s0 : 0 < (Kᵀ * K).trace / n * ((Cᵀ * C).trace / d) := by positivity
  have lK := mul_le_mul_of_nonneg_left (log_det_le n0 hK) d0'.le
  have lC := mul_le_mul_of_nonneg_left (log_det_le d0 hC) n0'.le
  have le : (Kᵀ * K).trace / n * ((Cᵀ * C).trace / d) ≤ traces l U K G C / (n * d) / l := by
    rw [le_div_iff₀ l0, le_div_iff₀ (by positivity)]
    have : (Kᵀ * K).trace / n * ((Cᵀ * C).trace / d) * l * (n * d) = l * ((Kᵀ * K).trace * (Cᵀ * C).trace) := by field_simp
    rw [this]; unfold traces; linarith
  have le2 := Real.log_le_log s0 le
  rw [Real.log_mul (by positivity) (by positivity), Real.log_div (by positivity) l0.ne'] at le2
  have le3 := mul_le_mul_of_nonneg_left le2 (show (0 : ℝ) ≤ n * d by positivity)
  have e : objective l U K G C = traces l U K G C - d * Real.log (K.det ^ 2) - n * Real.log (C.det ^ 2) := rfl
  have := scale_bound (l := 1) (s := traces l U K G C / (n * d)) (B := f / (n * d) - Real.log l) one_pos (by positivity) (by
    rw [one_mul, sub_le_iff_le_add, ← sub_le_iff_le_add', sub_sub_eq_add_sub]
    have : (traces l U K G C - n * d * (Real.log (traces l U K G C / (n * d)) - Real.log l)) / (n * d) ≤ f / (n * d) :=
      div_le_div_of_nonneg_right (by linarith) (by positivity)
    rw [sub_div, mul_div_cancel_left₀ _ (by positivity)] at this
    linarith)
  rw [div_le_iff₀ (by positivity)] at this
  have e2 : Real.log (2 / l) = Real.log 2 - Real.log l := Real.log_div two_ne_zero l0.ne'
  rw [e2]
  have e3 : (2 : ℝ) / 1 = 2 := by norm_num
  rw [e3] at this
  linarith

/-- a bound of both curvatures -/
noncomputable def cap (n d : ℕ) (l f : ℝ) : ℝ := max (n : ℝ) (d : ℝ) * (2 * (f / (n * d) + Real.log (2 / l)))

theorem curv_cap (n0 : 0 < n) (d0 : 0 < d) {l : ℝ} (l0 : 0 < l) {U K : Matrix (Fin n) (Fin n) ℝ} {G C : Matrix (Fin d) (Fin d) ℝ} (hU : U.PosSemidef)
    (hG : G.PosSemidef) (hK : K.det ≠ 0) (hC : C.det ≠ 0) {f : ℝ} (hf : objective l U K G C ≤ f) :
    (Below (cap n d l f) (curv l U K G C) ∧ ∀ i j, |curv l U K G C i j| ≤ cap n d l f) ∧
    (Below (cap n d l f) (curv l G C U K) ∧ ∀ i j, |curv l G C U K i j| ≤ cap n d l f) := by
  have n0' : (0 : ℝ) < n := by exact_mod_cast n0
  have d0' : (0 : ℝ) < d := by exact_mod_cast d0
  obtain ⟨T0, T1⟩ := traces_le n0 d0 l0 hU hG hK hC hf
  have q0 : 0 ≤ 2 * (f / (n * d) + Real.log (2 / l)) := by
    by_contra h
    have := mul_neg_of_pos_of_neg (show (0 : ℝ) < n * d by positivity) (not_le.1 h)
    linarith
  obtain ⟨e1, e2⟩ := trace_curv l U K G C
  obtain ⟨b1, c1⟩ := below_trace (curv_psd l0.le hU hG K C)
  obtain ⟨b2, c2⟩ := below_trace (curv_psd l0.le hG hU C K)
  have m1 : (curv l U K G C).trace ≤ cap n d l f := by
    rw [e1, div_le_iff₀ d0', cap]
    calc _ ≤ _ := T1
      _ = n * (2 * (f / (n * d) + Real.log (2 / l))) * d := by ring
      _ ≤ _ := mul_le_mul_of_nonneg_right (mul_le_mul_of_nonneg_right (le_max_left (n : ℝ) (d : ℝ)) q0) d0'.le
  have m2 : (curv l G C U K).trace ≤ cap n d l f := by
    rw [e2, div_le_iff₀ n0', cap]
    calc _ ≤ _ := T1
      _ = d * (2 * (f / (n * d) + Real.log (2 / l))) * n := by ring
      _ ≤ _ := mul_le_mul_of_nonneg_right (mul_le_mul_of_nonneg_right (le_max_right (n : ℝ) (d : ℝ)) q0) n0'.le
  exact ⟨⟨b1.mono m1, fun i j => (c1 i j).trans m1⟩, ⟨b2.mono m2, fun i j => (c2 i j).trans m2⟩⟩

section
variable {l r : ℝ} {U : Matrix (Fin n) (Fin n) ℝ} {G : Matrix (Fin d) (Fin d) ℝ} {a b : ℕ → ℝ} {K : ℕ → Matrix (Fin n) (Fin n) ℝ}
    {C : ℕ → Matrix (Fin d) (Fin d) ℝ}

theorem Run.anti (R : Run l r U G a b K C) (n0 : 0 < n) (d0 : 0 < d) (l0 : 0 ≤ l) (r0 : 0 ≤ r) (hU : U.PosSemidef) (hG : G.PosSemidef)
    (hK : (K 0).det ≠ 0) (hC : (C 0).det ≠ 0) : Antitone (fun t => objective l U (K t) G (C t)) := by
  have hd := R.det n0 d0 l0 r0 hU hG hK hC
  refine antitone_nat_of_succ_le fun t => ?_
  have := (R.one n0 d0 l0 r0 hU hG (hd t).1 (hd t).2).2.2
  have h1 : 0 ≤ d * (r / 4 * sqs (curv l U (K t) G (C t) - 1)) := by have := sqs_nonneg (curv l U (K t) G (C t) - 1); positivity
  have h2 : 0 ≤ n * (r / 4 * sqs (curv l G (C t) U (K t) - 1)) := by have := sqs_nonneg (curv l G (C t) U (K t) - 1); positivity
  linarith

/-- rates that are small compared with the first objective -/
theorem Run.of_small (n0 : 0 < n) (d0 : 0 < d) (l0 : 0 < l) (r0 : 0 ≤ r) (hU : U.PosSemidef) (hG : G.PosSemidef)
    (hK : (K 0).det ≠ 0) (hC : (C 0).det ≠ 0) (stepK : ∀ t, K (t + 1) = K t * (1 - (a t / 2) • (curv l U (K t) G (C t) - 1)))
    (stepC : ∀ t, C (t + 1) = C t * (1 - (b t / 2) • (curv l G (C t) U (K t) - 1))) {β : ℝ} (a0 : ∀ t, r ≤ a t ∧ a t ≤ β) (b0 : ∀ t, r ≤ b t ∧ b t ≤ β)
    (β4 : 4 * β ≤ 1) (hβ : β * (9 * cap n d l (objective l U (K 0) G (C 0)) + 8) ≤ 2) : Run l r U G a b K C := by
  have key : ∀ x y : ℝ, 0 ≤ y → y ≤ β → 0 ≤ x → β * (9 * x + 8) ≤ 2 → y * (9 * x + 8) ≤ 2 := fun x y y0 y1 x0 h =>
    (mul_le_mul_of_nonneg_right y1 (by linarith)).trans h
  have P : ∀ t, (K t).det ≠ 0 ∧ (C t).det ≠ 0 ∧ objective l U (K t) G (C t) ≤ objective l U (K 0) G (C 0) := by
    intro t
    induction t with
    | zero => exact ⟨hK, hC, le_rfl⟩
    | succ t ih =>
      obtain ⟨h1, h2, h3⟩ := ih
      obtain ⟨⟨c1, c2⟩, ⟨c3, c4⟩⟩ := curv_cap n0 d0 l0 hU hG h1 h2 h3
      have cp : 0 ≤ cap n d l (objective l U (K 0) G (C 0)) := (abs_nonneg _).trans (c2 ⟨0, n0⟩ ⟨0, n0⟩)
      have ka := key _ _ (r0.trans (a0 t).1) (a0 t).2 cp hβ
      have kb := key _ _ (r0.trans (b0 t).1) (b0 t).2 cp hβ
      have at0 := r0.trans (a0 t).1
      have bt0 := r0.trans (b0 t).1
      obtain ⟨g1, g2, g3⟩ := descent n0 d0 l0.le hU hG h1 h2 (ε := a t / 2) (ε' := b t / 2) (by linarith) (by linarith [(a0 t).2]) c1.sub_one (by linarith)
        (by linarith) (by linarith [(b0 t).2]) c3.sub_one (by linarith)
      rw [← stepK, ← stepC] at g3
      refine ⟨by rw [stepK, det_mul]; exact mul_ne_zero h1 g1, by rw [stepC, det_mul]; exact mul_ne_zero h2 g2, le_trans ?_ h3⟩
      have p1 : 0 ≤ d * (a t / 2 / 2 * sqs (curv l U (K t) G (C t) - 1)) := by have := sqs_nonneg (curv l U (K t) G (C t) - 1); positivity
      have p2 : 0 ≤ n * (b t / 2 / 2 * sqs (curv l G (C t) U (K t) - 1)) := by have := sqs_nonneg (curv l G (C t) U (K t) - 1); positivity
      linarith
  have Q := fun t => curv_cap n0 d0 l0 hU hG (P t).1 (P t).2.1 (P t).2.2
  have cp : 0 ≤ cap n d l (objective l U (K 0) G (C 0)) := (abs_nonneg _).trans ((Q 0).1.2 ⟨0, n0⟩ ⟨0, n0⟩)
  exact ⟨stepK, stepC, fun t => (a0 t).1, fun t => (b0 t).1, fun t => by linarith [(a0 t).2], fun t => by linarith [(b0 t).2],
    fun t => ⟨_, (Q t).1.1.sub_one, key _ _ (r0.trans (a0 t).1) (a0 t).2 cp hβ⟩, fun t => ⟨_, (Q t).2.1.sub_one, key _ _ (r0.trans (b0 t).1) (b0 t).2 cp hβ⟩⟩

end

/-! ### Rates that are too large -/

theorem scal_grow (n0 : 0 < n) (d0 : 0 < d) {l : ℝ} (l0 : 0 ≤ l) {u k ν p : Fin n → ℝ} {g c μ q : Fin d → ℝ} (hu : ∀ i, 0 ≤ u i) (hk : ∀ i, 0 ≤ k i)
    (hg : ∀ j, 0 ≤ g j) (hc : ∀ j, 0 ≤ c j) (hν : ∀ i, 1 + ν i = (∑ j, g j) / d * u i + l * ((∑ j, c j) / d) * k i)
    (hμ : ∀ j, 1 + μ j = (∑ i, u i) / n * g j + l * ((∑ i, k i) / n) * c j) {b T : ℝ} (b0 : 0 < b) (hp : ∀ i, p i = (1 - b / 2 * ν i) ^ 2)
    (hq : ∀ j, q j = (1 - b / 2 * μ j) ^ 2) (hT : T = (∑ i, u i) * (∑ j, g j) + l * ((∑ i, k i) * (∑ j, c j)))
    (hb : n * (1 + 2 * (1 + 2 * (n * d)) / b) ≤ T / (n * d)) :
    2 * T ≤ (∑ i, p i * u i) * (∑ j, q j * g j) + l * ((∑ i, p i * k i) * (∑ j, q j * c j)) := by
  have n1 : (1 : ℝ) ≤ n := by exact_mod_cast n0
  have d1 : (1 : ℝ) ≤ d := by exact_mod_cast d0
  have n0' : (0 : ℝ) < n := by linarith
  have d0' : (0 : ℝ) < d := by linarith
  have p0 : ∀ i, 0 ≤ p i := fun i => by rw [hp]; positivity
  have q0 : ∀ i, 0 ≤ q i := fun i => by rw [hq]; positivity
  have sx : ∑ i, (1 + ν i) = T / d := by
    simp only [hν, Finset.sum_add_distrib, ← Finset.mul_sum, hT]
    ring
  obtain ⟨i, -, hi⟩ : ∃ i ∈ Finset.univ, T / (n * d) ≤ 1 + ν i := by
    refine Finset.exists_le_of_sum_le ⟨⟨0, n0⟩, Finset.mem_univ _⟩ ?_
    rw [sx, Finset.sum_const, Finset.card_univ, Fintype.card_fin, nsmul_eq_mul]
    apply le_of_eq; field_simp
  have sw : ∑ j, (u i * g j + l * (k i * c j)) = d * (1 + ν i) := by
    rw [hν, Finset.sum_add_distrib, ← Finset.mul_sum, ← Finset.mul_sum, ← Finset.mul_sum]
    field_simp
  obtain ⟨j, -, hj⟩ : ∃ j ∈ Finset.univ, 1 + ν i ≤ u i * g j + l * (k i * c j) := by
    refine Finset.exists_le_of_sum_le ⟨⟨0, d0⟩, Finset.mem_univ _⟩ ?_
    rw [sw, Finset.sum_const, Finset.card_univ, Fintype.card_fin, nsmul_eq_mul]
  have hy : T / (n * d) / n ≤ 1 + μ j := by
    rw [hμ, div_le_iff₀ n0']
    have e : ((∑ i, u i) / n * g j + l * ((∑ i, k i) / n) * c j) * n = (∑ i, u i) * g j + l * ((∑ i, k i) * c j) := by field_simp
    rw [e]
    have m1 : u i * g j ≤ (∑ i, u i) * g j := mul_le_mul_of_nonneg_right (Finset.single_le_sum (fun i _ => hu i) (Finset.mem_univ i)) (hg j)
    have m2 : l * (k i * c j) ≤ l * ((∑ i, k i) * c j) :=
      mul_le_mul_of_nonneg_left (mul_le_mul_of_nonneg_right (Finset.single_le_sum (fun i _ => hk i) (Finset.mem_univ i)) (hc j)) l0
    linarith
  set Q : ℝ := 2 * (n * d) with hQ
  have Q1 : 1 ≤ Q := by nlinarith
  have hτ : 1 + 2 * (1 + Q) / b ≤ T / (n * d) / n := by rw [le_div_iff₀ n0']; linarith
  have τn : T / (n * d) / n ≤ T / (n * d) := by
    refine div_le_self ?_ n1
    have : 0 ≤ 2 * (1 + Q) / b := by positivity
    have : 0 ≤ T / (n * d) / n := by linarith
    have := mul_nonneg this n0'.le
    rwa [div_mul_cancel₀ _ n0'.ne'] at this
  have sq : ∀ z, 1 + 2 * (1 + Q) / b ≤ 1 + z → Q ≤ (1 - b / 2 * z) ^ 2 := fun z hz => by
    have h1 : 2 * (1 + Q) / b ≤ z := by linarith
    rw [div_le_iff₀ b0] at h1
    have h2 : Q ≤ b / 2 * z - 1 := by linarith
    nlinarith
  have hpQ : Q ≤ p i := by rw [hp]; exact sq _ (hτ.trans (τn.trans hi))
  have hqQ : Q ≤ q j := by rw [hq]; exact sq _ (hτ.trans hy)
  have x0 : 0 ≤ 1 + ν i := by
    rw [hν]
    have := Finset.sum_nonneg (s := Finset.univ) fun j _ => hg j
    have := Finset.sum_nonneg (s := Finset.univ) fun j _ => hc j
    have := hu i
    have := hk i
    positivity
  have low : (p i * q j) * (u i * g j + l * (k i * c j)) ≤ (∑ i, p i * u i) * (∑ j, q j * g j) + l * ((∑ i, p i * k i) * (∑ j, q j * c j)) := by
    have a1 := Finset.single_le_sum (f := fun i => p i * u i) (fun i _ => mul_nonneg (p0 i) (hu i)) (Finset.mem_univ i)
    have a2 := Finset.single_le_sum (f := fun j => q j * g j) (fun i _ => mul_nonneg (q0 i) (hg i)) (Finset.mem_univ j)
    have a3 := Finset.single_le_sum (f := fun i => p i * k i) (fun i _ => mul_nonneg (p0 i) (hk i)) (Finset.mem_univ i)
    have a4 := Finset.single_le_sum (f := fun j => q j * c j) (fun i _ => mul_nonneg (q0 i) (hc i)) (Finset.mem_univ j)
    have b1 := mul_le_mul a1 a2 (mul_nonneg (q0 j) (hg j)) (Finset.sum_nonneg fun i _ => mul_nonneg (p0 i) (hu i))
    have b2 := mul_le_mul_of_nonneg_left (mul_le_mul a3 a4 (mul_nonneg (q0 j) (hc j)) (Finset.sum_nonneg fun i _ => mul_nonneg (p0 i) (hk i))) l0
    have e : (p i * q j) * (u i * g j + l * (k i * c j)) = p i * u i * (q j * g j) + l * (p i * k i * (q j * c j)) := by ring
    rw [e]
    exact add_le_add b1 b2
  refine le_trans ?_ low
  have T2 : T = n * d * (T / (n * d)) := by field_simp
  calc 2 * T = Q * (T / (n * d)) := by rw [hQ]; nth_rw 1 [T2]; ring
    _ ≤ Q * (1 + ν i) := mul_le_mul_of_nonneg_left hi (by linarith)
    _ ≤ (p i * q j) * (1 + ν i) := mul_le_mul_of_nonneg_right (by nlinarith) x0
    _ ≤ _ := mul_le_mul_of_nonneg_left hj (mul_nonneg (p0 i) (q0 j))

/-- above a threshold, every update at least doubles the trace -/
theorem traces_grow (n0 : 0 < n) (d0 : 0 < d) {l : ℝ} (l0 : 0 ≤ l) {U K : Matrix (Fin n) (Fin n) ℝ} {G C : Matrix (Fin d) (Fin d) ℝ} (hU : U.PosSemidef)
    (hG : G.PosSemidef) {b : ℝ} (b0 : 0 < b) (hb : n * (1 + 2 * (1 + 2 * (n * d)) / b) ≤ traces l U K G C / (n * d)) :
    2 * traces l U K G C ≤ traces l U (K * (1 - (b / 2) • (curv l U K G C - 1))) G (C * (1 - (b / 2) • (curv l G C U K - 1))) := by
  obtain ⟨V, ν, v1, v2, eN⟩ := spectral (N := curv l U K G C - 1) (by rw [transpose_sub, curv_symm hU, transpose_one])
  obtain ⟨W, μ, w1, w2, eM⟩ := spectral (N := curv l G C U K - 1) (by rw [transpose_sub, curv_symm hG, transpose_one])
  have hv : ∀ i, (Vᵀ * curv l U K G C * V) i i = 1 + ν i := fun i => by
    have : curv l U K G C = 1 + V * diagonal ν * Vᵀ := by rw [← eN]; abel
    rw [this, Matrix.mul_add, Matrix.add_mul, Matrix.mul_one, v1]
    have : Vᵀ * (V * diagonal ν * Vᵀ) * V = (Vᵀ * V) * diagonal ν * (Vᵀ * V) := by simp only [Matrix.mul_assoc]
    rw [this, v1, Matrix.one_mul, Matrix.mul_one]
    simp
  have hw : ∀ i, (Wᵀ * curv l G C U K * W) i i = 1 + μ i := fun i => by
    have : curv l G C U K = 1 + W * diagonal μ * Wᵀ := by rw [← eM]; abel
    rw [this, Matrix.mul_add, Matrix.add_mul, Matrix.mul_one, w1]
    have : Wᵀ * (W * diagonal μ * Wᵀ) * W = (Wᵀ * W) * diagonal μ * (Wᵀ * W) := by simp only [Matrix.mul_assoc]
    rw [this, w1, Matrix.one_mul, Matrix.mul_one]
    simp
  have t1 : ∀ {m : ℕ} (K U L : Matrix (Fin m) (Fin m) ℝ), ((K * L)ᵀ * U * (K * L)).trace = (L * Lᵀ * (Kᵀ * U * K)).trace := by
    intro m K U L
    rw [transpose_mul, Matrix.mul_assoc L, Matrix.trace_mul_comm L]
    simp only [Matrix.mul_assoc]
  have t2 : ∀ {m : ℕ} (K L : Matrix (Fin m) (Fin m) ℝ), ((K * L)ᵀ * (K * L)).trace = (L * Lᵀ * (Kᵀ * K)).trace := by
    intro m K L
    have := t1 K 1 L
    rwa [Matrix.mul_one, Matrix.mul_one] at this
  have S := scal_grow n0 d0 l0 (fun i => psd_mode (V := V) (psd_sandwich hU K) i) (fun i => psd_mode (V := V) (psd_gram K) i)
    (fun i => psd_mode (V := W) (psd_sandwich hG C) i) (fun i => psd_mode (V := W) (psd_gram C) i) (ν := ν) (μ := μ)
    (fun i => by rw [← hv, curv_mode w2]) (fun j => by rw [← hw, curv_mode v2]) b0 (fun _ => rfl) (fun _ => rfl) (T := traces l U K G C)
    (by rw [traces, trace_modes v2 (A := Kᵀ * U * K), trace_modes w2 (A := Cᵀ * G * C), trace_modes v2 (A := Kᵀ * K), trace_modes w2 (A := Cᵀ * C)]) hb
  rw [eN, eM, one_sub_modes v2, one_sub_modes w2]
  refine S.trans (le_of_eq ?_)
  rw [traces, t1, t1, t2, t2, sq_modes v1, sq_modes w1, trace_mul_modes, trace_mul_modes, trace_mul_modes, trace_mul_modes]

/-- beyond the threshold the trace tends to infinity -/
theorem traces_diverge (n0 : 0 < n) (d0 : 0 < d) {l : ℝ} (l0 : 0 ≤ l) {U : Matrix (Fin n) (Fin n) ℝ} {G : Matrix (Fin d) (Fin d) ℝ}
    {K : ℕ → Matrix (Fin n) (Fin n) ℝ} {C : ℕ → Matrix (Fin d) (Fin d) ℝ} (hU : U.PosSemidef) (hG : G.PosSemidef) {b : ℝ} (b0 : 0 < b)
    (stepK : ∀ t, K (t + 1) = K t * (1 - (b / 2) • (curv l U (K t) G (C t) - 1)))
    (stepC : ∀ t, C (t + 1) = C t * (1 - (b / 2) • (curv l G (C t) U (K t) - 1)))
    (hb : n * (1 + 2 * (1 + 2 * (n * d)) / b) ≤ traces l U (K 0) G (C 0) / (n * d)) :
    Filter.Tendsto (fun t => traces l U (K t) G (C t)) Filter.atTop Filter.atTop := by
  have n0' : (0 : ℝ) < n := by exact_mod_cast n0
  have d0' : (0 : ℝ) < d := by exact_mod_cast d0
  have T0 : 0 < traces l U (K 0) G (C 0) := by
    have : 0 < traces l U (K 0) G (C 0) / (n * d) := lt_of_lt_of_le (by positivity) hb
    exact (div_pos_iff_of_pos_right (by positivity)).1 this
  have P : ∀ t, 2 ^ t * traces l U (K 0) G (C 0) ≤ traces l U (K t) G (C t) := by
    intro t
    induction t with
    | zero => simp
    | succ t ih =>
      have h1 : traces l U (K 0) G (C 0) ≤ traces l U (K t) G (C t) := le_trans (by nlinarith [one_le_pow₀ (one_le_two (α := ℝ)) (n := t)]) ih
      have := traces_grow n0 d0 l0 hU hG b0 (hb.trans (div_le_div_of_nonneg_right h1 (by positivity)))
      rw [← stepK, ← stepC] at this
      rw [pow_succ]
      linarith
  refine Filter.tendsto_atTop_mono P ?_
  exact (tendsto_pow_atTop_atTop_of_one_lt one_lt_two).atTop_mul_const T0
end Coupled
