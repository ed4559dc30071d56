import Verif.Proofs.FixedData
import Mathlib.Algebra.Order.Chebyshev

/-!
# One update of a factor with a small rate

`K ← K (1 − ρ M)`, `M = ½ (Kᵀ S K − 1)`, where `S ≥ d` is arbitrary: the squared norm of `K` is not increased once it is large.
-/

open Matrix Filter Topology

namespace Verif.Normalized

theorem sub_one_smul {n : ℕ} (a : ℝ) (x : Fin n → ℝ) : (a - 1) • x = a • x - x := by rw [sub_smul, one_smul]

open Verif.FixedData

variable {n : ℕ}

/-- sum of the squared entries -/
def sq (K : Matrix (Fin n) (Fin n) ℝ) : ℝ := ∑ i, ∑ j, K i j ^ 2

theorem sq_eq_trace (K : Matrix (Fin n) (Fin n) ℝ) : sq K = (Kᵀ * K).trace := by
  rw [sq, Finset.sum_comm, trace]
  simp only [diag_apply, Matrix.mul_apply, transpose_apply, pow_two]

theorem sq_nonneg' (K : Matrix (Fin n) (Fin n) ℝ) : 0 ≤ sq K := Finset.sum_nonneg fun _ _ => Finset.sum_nonneg fun _ _ => sq_nonneg _

theorem sq_mul_orth (K : Matrix (Fin n) (Fin n) ℝ) {Q : Matrix (Fin n) (Fin n) ℝ} (hQ : Qᵀ * Q = 1) : sq (K * Q) = sq K := by
  rw [sq_eq_trace, sq_eq_trace, transpose_mul, Matrix.mul_assoc, trace_mul_comm, Matrix.mul_assoc, Matrix.mul_assoc, mul_eq_one_comm.1 hQ, Matrix.mul_one]

theorem sq_cols (K : Matrix (Fin n) (Fin n) ℝ) : sq K = ∑ j, (fun i => K i j) ⬝ᵥ fun i => K i j := by
  rw [sq, Finset.sum_comm]
  simp only [dotProduct, pow_two]

/-- the update -/
noncomputable def upd (r : ℝ) (S K : Matrix (Fin n) (Fin n) ℝ) : Matrix (Fin n) (Fin n) ℝ := K * (1 - (r / 2) • (Kᵀ * S * K - 1))

/-- the update in an eigenbasis: weights `z`, eigenvalues `p` -/
theorem upd_modes {S : Matrix (Fin n) (Fin n) ℝ} (hs : Sᵀ = S) {d : ℝ} (hS : (S - d • (1 : Matrix (Fin n) (Fin n) ℝ)).PosSemidef)
    (K : Matrix (Fin n) (Fin n) ℝ) (r : ℝ) {a : ℝ} (ha : ∀ x, x ⬝ᵥ ((r / 2) • (Kᵀ * S * K - 1)) *ᵥ x ≤ a * (x ⬝ᵥ x)) :
    ∃ z p : Fin n → ℝ, (∀ j, 0 ≤ z j) ∧ (∀ j, d * z j ≤ p j) ∧ (∀ j, r / 2 * (p j - 1) ≤ a) ∧ sq K = ∑ j, z j ∧
      sq (upd r S K) = ∑ j, z j * (1 - r / 2 * (p j - 1)) ^ 2 := by
  set P := Kᵀ * S * K with hP
  have sP : P.IsHermitian := by
    rw [IsHermitian, conjTranspose_eq_transpose_of_trivial, hP, transpose_mul, transpose_mul, transpose_transpose, hs, Matrix.mul_assoc]
  obtain ⟨Q, p, QQ, col⟩ := eigenbasis sP
  have unit : ∀ j, (fun i => Q i j) ⬝ᵥ (fun i => Q i j) = 1 := by
    intro j
    have := congrFun (congrFun QQ j) j
    rwa [Matrix.mul_apply, one_apply_eq] at this
  have colK : ∀ j, (fun i => (K * Q) i j) = K *ᵥ fun i => Q i j := fun j => by
    funext i; rw [Matrix.mul_apply]; rfl
  refine ⟨fun j => (fun i => (K * Q) i j) ⬝ᵥ (fun i => (K * Q) i j), p, fun j => ?_, fun j => ?_, fun j => ?_, ?_, ?_⟩
  · exact Finset.sum_nonneg fun i _ => mul_self_nonneg _
  · have := hS.dotProduct_mulVec_nonneg (fun i => (K * Q) i j)
    rw [star_trivial, sub_mulVec, smul_mulVec, one_mulVec, dotProduct_sub, dotProduct_smul, smul_eq_mul] at this
    have e : (fun i => (K * Q) i j) ⬝ᵥ S *ᵥ (fun i => (K * Q) i j) = p j := by
      have h1 : (fun i => Q i j) ⬝ᵥ P *ᵥ (fun i => Q i j) = p j := by rw [col, dotProduct_smul, unit, smul_eq_mul, mul_one]
      rw [← h1, colK, hP, ← mulVec_mulVec, ← mulVec_mulVec, dotProduct_mulVec _ Kᵀ, vecMul_transpose]
    rw [e] at this
    linarith
  · have := ha fun i => Q i j
    rwa [smul_mulVec, sub_mulVec, one_mulVec, col, ← sub_one_smul, dotProduct_smul, dotProduct_smul, unit, smul_eq_mul, smul_eq_mul, mul_one, mul_one] at this
  · rw [← sq_mul_orth K QQ, sq_cols]
  · rw [← sq_mul_orth _ QQ, sq_cols]
    refine Finset.sum_congr rfl fun j _ => ?_
    have e : (fun i => (upd r S K * Q) i j) = (1 - r / 2 * (p j - 1)) • fun i => (K * Q) i j := by
      have h1 : (fun i => (upd r S K * Q) i j) = upd r S K *ᵥ fun i => Q i j := by funext i; rw [Matrix.mul_apply]; rfl
      rw [h1, upd, ← mulVec_mulVec, sub_mulVec, one_mulVec, smul_mulVec, sub_mulVec, one_mulVec, col, ← sub_one_smul, smul_smul, colK, mulVec_sub, mulVec_smul,
        sub_smul, one_smul]
    rw [e, dotProduct_smul, smul_dotProduct, smul_eq_mul, smul_eq_mul]
    ring

/-- the threshold of the squared norm -/
noncomputable def thr (n : ℕ) (d k : ℝ) : ℝ := n * (max 3 (3 * n / (2 * k)) / d)

/-- a step increases the squared norm by a bounded amount at most, and not at all above the threshold -/
theorem upd_bound {S : Matrix (Fin n) (Fin n) ℝ} (hs : Sᵀ = S) {d : ℝ} (d0 : 0 < d) (hS : (S - d • (1 : Matrix (Fin n) (Fin n) ℝ)).PosSemidef)
    (K : Matrix (Fin n) (Fin n) ℝ) {r k : ℝ} (r0 : 0 ≤ r) (r2 : r ≤ 2) (k0 : 0 < k)
    (ha : ∀ x, x ⬝ᵥ ((r / 2) • (Kᵀ * S * K - 1)) *ᵥ x ≤ (2 - k) * (x ⬝ᵥ x)) :
    sq (upd r S K) ≤ max (thr n d k) (sq K) + (if sq K ≤ thr n d k then 3 * n / d else 0) := by
  obtain ⟨z, p, z0, zp, pa, e, e'⟩ := upd_modes hs hS K r ha
  have p0 : ∀ j, 0 ≤ p j := fun j => (mul_nonneg d0.le (z0 j)).trans (zp j)
  -- one mode
  have up : ∀ j, z j * (1 - r / 2 * (p j - 1)) ^ 2 ≤ z j + 3 / 2 * r / d := by
    intro j
    by_cases h1 : 1 ≤ p j
    · have x0 : 0 ≤ r / 2 * (p j - 1) := mul_nonneg (by linarith) (by linarith)
      have : (1 - r / 2 * (p j - 1)) ^ 2 ≤ 1 := by nlinarith [pa j]
      have hr : 0 ≤ 3 / 2 * r / d := by positivity
      nlinarith [z0 j]
    · rw [not_le] at h1
      have hz : z j ≤ 1 / d := by rw [le_div_iff₀ d0]; linarith [zp j]
      have x0 : 0 ≤ r / 2 * (1 - p j) := mul_nonneg (by linarith) (by linarith)
      have x1 : r / 2 * (1 - p j) ≤ r / 2 := by nlinarith [p0 j]
      have : (1 - r / 2 * (p j - 1)) ^ 2 ≤ 1 + 3 / 2 * r := by nlinarith
      calc z j * (1 - r / 2 * (p j - 1)) ^ 2 ≤ z j * (1 + 3 / 2 * r) := mul_le_mul_of_nonneg_left this (z0 j)
        _ = z j + z j * (3 / 2 * r) := by ring
        _ ≤ z j + 1 / d * (3 / 2 * r) := by nlinarith
        _ = _ := by ring
  have tot : sq (upd r S K) ≤ sq K + n * (3 / 2 * r / d) := by
    rw [e, e']
    calc _ ≤ ∑ j, (z j + 3 / 2 * r / d) := Finset.sum_le_sum fun j _ => up j
      _ = _ := by rw [Finset.sum_add_distrib, Finset.sum_const, Finset.card_univ, Fintype.card_fin, nsmul_eq_mul]
  split
  next h =>
    have : n * (3 / 2 * r / d) ≤ 3 * n / d := by
      rw [← mul_div_assoc, div_le_div_iff_of_pos_right d0]
      nlinarith [(Nat.cast_nonneg n : (0 : ℝ) ≤ n)]
    linarith [le_max_right (thr n d k) (sq K)]
  next h =>
    rw [not_le] at h
    rw [add_zero]
    refine le_trans ?_ (le_max_right _ _)
    -- some mode is large
    obtain ⟨j, -, hj⟩ : ∃ j ∈ Finset.univ, max 3 (3 * n / (2 * k)) / d < z j := by
      refine Finset.exists_lt_of_sum_lt ?_
      rw [Finset.sum_const, Finset.card_univ, Fintype.card_fin, nsmul_eq_mul, ← e]
      exact h
    have hd : max 3 (3 * n / (2 * k)) < d * z j := by rw [div_lt_iff₀ d0] at hj; linarith
    have p3 : 3 < p j := lt_of_lt_of_le (lt_of_le_of_lt (le_max_left _ _) hd) (zp j)
    have zk : 3 * n / (2 * k) < d * z j := lt_of_le_of_lt (le_max_right _ _) hd
    have zk' : 3 / 2 * n / d ≤ k * z j := by
      rw [div_lt_iff₀ (by linarith)] at zk
      rw [div_le_iff₀ d0]
      nlinarith
    -- it shrinks enough
    have dn : z j * (1 - r / 2 * (p j - 1)) ^ 2 ≤ z j - n * (3 / 2 * r / d) := by
      have x1 : r ≤ r / 2 * (p j - 1) := by nlinarith
      have : (1 - r / 2 * (p j - 1)) ^ 2 ≤ 1 - k * r := by nlinarith [pa j]
      have h2 : n * (3 / 2 * r / d) = r * (3 / 2 * n / d) := by ring
      rw [h2]
      calc z j * (1 - r / 2 * (p j - 1)) ^ 2 ≤ z j * (1 - k * r) := mul_le_mul_of_nonneg_left this (z0 j)
        _ = z j - r * (k * z j) := by ring
        _ ≤ _ := by nlinarith
    rw [e, e', ← Finset.sum_erase_add _ _ (Finset.mem_univ j), ← Finset.sum_erase_add _ z (Finset.mem_univ j)]
    have rest : ∑ i ∈ Finset.univ.erase j, z i * (1 - r / 2 * (p i - 1)) ^ 2 ≤ ∑ i ∈ Finset.univ.erase j, z i + n * (3 / 2 * r / d) := by
      calc _ ≤ ∑ i ∈ Finset.univ.erase j, (z i + 3 / 2 * r / d) := Finset.sum_le_sum fun i _ => up i
        _ = ∑ i ∈ Finset.univ.erase j, z i + (Finset.univ.erase j).card * (3 / 2 * r / d) := by
          rw [Finset.sum_add_distrib, Finset.sum_const, nsmul_eq_mul]
        _ ≤ _ := by
          have c : ((Finset.univ.erase j).card : ℝ) ≤ n := by
            have := Finset.card_le_univ (Finset.univ.erase j)
            rw [Fintype.card_fin] at this
            exact_mod_cast this
          have : 0 ≤ 3 / 2 * r / d := by positivity
          nlinarith
    linarith

/-- the bound that is kept for ever -/
noncomputable def cap (n : ℕ) (d k s : ℝ) : ℝ := max (thr n d k + 3 * n / d) s

theorem upd_cap {S : Matrix (Fin n) (Fin n) ℝ} (hs : Sᵀ = S) {d : ℝ} (d0 : 0 < d) (hS : (S - d • (1 : Matrix (Fin n) (Fin n) ℝ)).PosSemidef)
    {K : Matrix (Fin n) (Fin n) ℝ} {r k : ℝ} (r0 : 0 ≤ r) (r2 : r ≤ 2) (k0 : 0 < k)
    (ha : ∀ x, x ⬝ᵥ ((r / 2) • (Kᵀ * S * K - 1)) *ᵥ x ≤ (2 - k) * (x ⬝ᵥ x)) {s : ℝ} (h : sq K ≤ cap n d k s) :
    sq (upd r S K) ≤ cap n d k s := by
  have b := upd_bound hs d0 hS K r0 r2 k0 ha
  split at b
  next c => exact b.trans (by rw [max_eq_left c]; exact le_max_left _ _)
  next c => exact b.trans (by rw [add_zero, max_eq_right (not_le.1 c).le]; exact h)

/-- a quadratic form with entries at most `b` -/
theorem quad_le_max {A : Matrix (Fin n) (Fin n) ℝ} {b : ℝ} (h : ∀ i j, |A i j| ≤ b) (x : Fin n → ℝ) : x ⬝ᵥ A *ᵥ x ≤ n * b * (x ⬝ᵥ x) := by
  have e : x ⬝ᵥ A *ᵥ x = ∑ i, ∑ j, x i * (A i j * x j) := by
    simp only [dotProduct, mulVec, Finset.mul_sum]
  have f : (n : ℝ) * b * (x ⬝ᵥ x) = ∑ i : Fin n, ∑ j : Fin n, b * ((x i ^ 2 + x j ^ 2) / 2) := by
    simp only [← Finset.mul_sum, ← Finset.sum_div, Finset.sum_add_distrib, Finset.sum_const, Finset.card_univ, Fintype.card_fin, nsmul_eq_mul, dotProduct, ← pow_two]
    ring
  rw [e, f]
  refine Finset.sum_le_sum fun i _ => Finset.sum_le_sum fun j _ => ?_
  calc x i * (A i j * x j) ≤ |A i j| * |x i * x j| := by
        rw [← abs_mul]; refine le_trans (le_of_eq ?_) (le_abs_self _); ring
    _ ≤ b * ((x i ^ 2 + x j ^ 2) / 2) := by
        refine mul_le_mul (h i j) ?_ (abs_nonneg _) ((abs_nonneg _).trans (h i j))
        rw [abs_mul]
        nlinarith [sq_nonneg (|x i| - |x j|), sq_abs (x i), sq_abs (x j)]

/-- for a diagonal matrix -/
theorem quad_le_diag {A : Matrix (Fin n) (Fin n) ℝ} {b : ℝ} (h : ∀ i, A i i ≤ b) (hd : ∀ i j, i ≠ j → A i j = 0) (x : Fin n → ℝ) :
    x ⬝ᵥ A *ᵥ x ≤ b * (x ⬝ᵥ x) := by
  have e : ∀ i, (A *ᵥ x) i = A i i * x i := fun i => by
    rw [mulVec, dotProduct, Finset.sum_eq_single i (fun j _ hj => by rw [hd i j (Ne.symm hj), zero_mul]) (by simp)]
  simp only [dotProduct, e, Finset.mul_sum]
  exact Finset.sum_le_sum fun i _ => by nlinarith [h i, mul_self_nonneg (x i)]

/-! ## Steady statistics, rates that may change -/

/-- the recursion with rates `b t` -/
def RecV (b : ℕ → ℝ) (S : Matrix (Fin n) (Fin n) ℝ) (K : ℕ → Matrix (Fin n) (Fin n) ℝ) : Prop := ∀ t, K (t + 1) = upd (b t) S (K t)

/-- the multiplier along an eigenvector with eigenvalue `y` -/
noncomputable def orb (b : ℕ → ℝ) (y : ℝ) : ℕ → ℝ
  | 0 => 1
  | t + 1 => orb b y t * (1 - b t / 2 * (y * orb b y t ^ 2 - 1))

/-- along an eigenvector of `K₀ᵀSK₀` -/
theorem RecV.eigen {b : ℕ → ℝ} {S : Matrix (Fin n) (Fin n) ℝ} {K : ℕ → Matrix (Fin n) (Fin n) ℝ} (h : RecV b S K) (hS : Sᵀ = S) {y : ℝ} {v : Fin n → ℝ}
    (hv : ((K 0)ᵀ * S * K 0) *ᵥ v = y • v) (t : ℕ) :
    K t *ᵥ v = orb b y t • (K 0 *ᵥ v) ∧ ((K t)ᵀ * S * K t) *ᵥ v = (y * orb b y t ^ 2) • v := by
  induction t with
  | zero => simp [orb, hv]
  | succ t ih =>
    obtain ⟨i1, i2⟩ := ih
    set Y := (K t)ᵀ * S * K t with hY
    set A := 1 - (b t / 2) • (Y - 1) with hA
    have sY : Yᵀ = Y := by rw [hY, transpose_mul, transpose_mul, transpose_transpose, hS, Matrix.mul_assoc]
    have sA : Aᵀ = A := by rw [hA, transpose_sub, transpose_smul, transpose_sub, sY, transpose_one]
    have Av : A *ᵥ v = (1 - b t / 2 * (y * orb b y t ^ 2 - 1)) • v := by
      rw [hA, sub_mulVec, smul_mulVec, sub_mulVec, i2, one_mulVec]
      module
    have eY : (K (t + 1))ᵀ * S * K (t + 1) = A * (Y * A) := by
      rw [h t, upd, ← hY, ← hA, transpose_mul, sA, hY]
      simp only [Matrix.mul_assoc]
    constructor
    · rw [h t, upd, ← hY, ← hA, ← mulVec_mulVec, Av, mulVec_smul, i1, smul_smul, orb]
      congr 1; ring
    · rw [eY, ← mulVec_mulVec, ← mulVec_mulVec, Av, mulVec_smul, i2, smul_smul, mulVec_smul, Av, smul_smul, orb]
      congr 1; ring

/-- the factors in an eigenbasis of `K₀ᵀSK₀` -/
theorem RecV.form {b : ℕ → ℝ} {S : Matrix (Fin n) (Fin n) ℝ} {K : ℕ → Matrix (Fin n) (Fin n) ℝ} (h : RecV b S K) (hS : S.PosDef) (hK : IsUnit (K 0).det) :
    ∃ (Q : Matrix (Fin n) (Fin n) ℝ) (d : Fin n → ℝ), Qᵀ * Q = 1 ∧ (∀ j, 0 < d j) ∧ (∀ j, ((K 0)ᵀ * S * K 0) *ᵥ (fun i => Q i j) = d j • fun i => Q i j) ∧
      (∀ j, (fun i => Q i j) ≠ 0) ∧ (∀ t, K t = K 0 * Q * diagonal (fun j => orb b (d j) t) * Qᵀ) ∧
      ∀ t, (K t)ᵀ * S * K t = Q * diagonal (fun j => d j * orb b (d j) t ^ 2) * Qᵀ := by
  set Y := (K 0)ᵀ * S * K 0 with hY
  have sS : Sᵀ = S := by have := hS.isHermitian; rwa [IsHermitian, conjTranspose_eq_transpose_of_trivial] at this
  have pY : Y.PosDef := by
    have := hS.conjTranspose_mul_mul_same (B := K 0) (mulVec_injective_iff_isUnit.2 ((isUnit_iff_isUnit_det _).2 hK))
    rwa [conjTranspose_eq_transpose_of_trivial] at this
  obtain ⟨Q, d, QQ, col⟩ := eigenbasis pY.isHermitian
  have QQ' : Q * Qᵀ = 1 := mul_eq_one_comm.1 QQ
  have nz : ∀ j, (fun i => Q i j) ≠ 0 := by
    intro j e
    have := congrFun (congrFun QQ j) j
    rw [Matrix.mul_apply, one_apply_eq] at this
    simp only [transpose_apply, congrFun e] at this
    simp at this
  refine ⟨Q, d, QQ, fun j => ?_, col, nz, fun t => ?_, fun t => ?_⟩
  · have := pY.dotProduct_mulVec_pos (nz j)
    rw [col, star_trivial, dotProduct_smul, smul_eq_mul] at this
    exact (pos_iff_pos_of_mul_pos this).2 (dot_pos (nz j))
  · have : K t * Q = K 0 * Q * diagonal fun j => orb b (d j) t := by
      ext i j
      have := congrFun (h.eigen sS (col j) t).1 i
      rw [mul_diagonal, Matrix.mul_apply, Matrix.mul_apply]
      simp only [mulVec, dotProduct, Pi.smul_apply, smul_eq_mul] at this
      rw [this, mul_comm]
    rw [← this, Matrix.mul_assoc, QQ', Matrix.mul_one]
  · have : (K t)ᵀ * S * K t * Q = Q * diagonal fun j => d j * orb b (d j) t ^ 2 := by
      ext i j
      have := congrFun (h.eigen sS (col j) t).2 i
      rw [mul_diagonal, Matrix.mul_apply]
      simp only [mulVec, dotProduct, Pi.smul_apply, smul_eq_mul] at this
      rw [this, mul_comm]
    rw [← this, Matrix.mul_assoc _ Q, QQ', Matrix.mul_one]

/-- the cubic map with changing rates that never overshoot below 0 -/
def CubicV (b : ℕ → ℝ) (q : ℕ → ℝ) : Prop := ∀ t, q (t + 1) = q t * (1 - b t / 2 * (q t ^ 2 - 1))

theorem orb_cubic (b : ℕ → ℝ) {y : ℝ} (hy : 0 ≤ y) : CubicV b fun t => √y * orb b y t := fun t => by
  show √y * orb b y (t + 1) = _
  rw [orb, mul_pow, Real.sq_sqrt hy]; ring

theorem CubicV.pos {b q : ℕ → ℝ} (h : CubicV b q) {c : ℝ} (c1 : c < 1) (hc : ∀ t, b t / 2 * (q t ^ 2 - 1) ≤ c) (p0 : 0 < q 0) : ∀ t, 0 < q t
  | 0 => p0
  | t + 1 => by rw [h t]; exact mul_pos (h.pos c1 hc p0 t) (by linarith [hc t])

theorem CubicV.sub_one {b q : ℕ → ℝ} (h : CubicV b q) (t : ℕ) : q (t + 1) - 1 = (q t - 1) * (1 - b t / 2 * (q t * (q t + 1))) := by
  rw [h t]; ring

theorem CubicV.le_one {b q : ℕ → ℝ} (h : CubicV b q) (b0 : ∀ t, 0 ≤ b t) (b1 : ∀ t, b t ≤ 1) {t : ℕ} (p0 : 0 < q t) (p1 : q t ≤ 1) :
    q t ≤ q (t + 1) ∧ q (t + 1) ≤ 1 := by
  constructor
  · rw [h t]
    have : 0 ≤ b t / 2 * (1 - q t ^ 2) := mul_nonneg (by linarith [b0 t]) (by nlinarith)
    nlinarith [mul_nonneg p0.le this]
  · have e := h.sub_one t
    have : q t * (q t + 1) ≤ 2 := by nlinarith
    have : 0 ≤ 1 - b t / 2 * (q t * (q t + 1)) := by nlinarith [b0 t, b1 t, mul_pos p0 (by linarith : 0 < q t + 1)]
    nlinarith [mul_nonneg (sub_nonneg.2 p1) this]

theorem CubicV.bounded {b q : ℕ → ℝ} (h : CubicV b q) {c : ℝ} (c1 : c < 1) (hc : ∀ t, b t / 2 * (q t ^ 2 - 1) ≤ c) (p0 : 0 < q 0) (b0 : ∀ t, 0 ≤ b t)
    (b1 : ∀ t, b t ≤ 1) : ∀ t, q t ≤ max 1 (q 0)
  | 0 => le_max_right _ _
  | t + 1 => by
    have p := h.pos c1 hc p0 t
    by_cases h1 : q t ≤ 1
    · exact (h.le_one b0 b1 p h1).2.trans (le_max_left _ _)
    · refine le_trans ?_ (h.bounded c1 hc p0 b0 b1 t)
      rw [h t]
      have : 0 ≤ b t / 2 * (q t ^ 2 - 1) := mul_nonneg (by linarith [b0 t]) (by nlinarith)
      nlinarith [mul_nonneg p.le this]

theorem CubicV.tendsto {b q : ℕ → ℝ} (h : CubicV b q) {c : ℝ} (c1 : c < 1) (hc : ∀ t, b t / 2 * (q t ^ 2 - 1) ≤ c) (p0 : 0 < q 0) {r : ℝ} (r0 : 0 < r)
    (rb : ∀ t, r ≤ b t) (b1 : ∀ t, b t ≤ 1) : Tendsto q atTop (𝓝 1) := by
  have b0 : ∀ t, 0 ≤ b t := fun t => r0.le.trans (rb t)
  have r1 : r ≤ 1 := (rb 0).trans (b1 0)
  have pos := h.pos c1 hc p0
  by_cases hq : ∃ t, q t ≤ 1
  · obtain ⟨N, hN⟩ := hq
    have inv : ∀ t, q N ≤ q (t + N) ∧ q (t + N) ≤ 1 := by
      intro t
      induction t with
      | zero => simpa using hN
      | succ t ih =>
        have := h.le_one b0 b1 (pos (t + N)) ih.2
        rw [show t + 1 + N = t + N + 1 by ring]
        exact ⟨ih.1.trans this.1, this.2⟩
    refine (tendsto_add_atTop_iff_nat N).1 (tendsto_of_geom (r := 1 - r / 2 * (q N * (q N + 1))) ?_ ?_ fun t => ?_)
    · nlinarith [mul_pos (pos N) (by linarith [pos N] : 0 < q N + 1), mul_nonneg (pos N).le (sub_nonneg.2 hN)]
    · nlinarith [mul_pos r0 (mul_pos (pos N) (by linarith [pos N] : 0 < q N + 1))]
    · obtain ⟨i1, i2⟩ := inv t
      have i0 := pos (t + N)
      rw [show t + 1 + N = t + N + 1 by ring, h.sub_one, abs_mul, mul_comm]
      refine mul_le_mul_of_nonneg_right ?_ (abs_nonneg _)
      have g : q N * (q N + 1) ≤ q (t + N) * (q (t + N) + 1) := by nlinarith [pos N]
      have g2 : q (t + N) * (q (t + N) + 1) ≤ 2 := by nlinarith
      have g0 : 0 < q N * (q N + 1) := mul_pos (pos N) (by linarith [pos N])
      have f0 : 0 ≤ 1 - b (t + N) / 2 * (q (t + N) * (q (t + N) + 1)) := by nlinarith [b0 (t + N), b1 (t + N)]
      rw [abs_of_nonneg f0]
      nlinarith [rb (t + N), mul_nonneg (sub_nonneg.2 (rb (t + N))) g0.le, mul_nonneg (b0 (t + N)) (sub_nonneg.2 g)]
  · push Not at hq
    have f1 : ∀ t, 0 ≤ 1 - b t / 2 * (q t * (q t + 1)) := by
      intro t
      have := h.sub_one t
      have p : 0 < (q t - 1) * (1 - b t / 2 * (q t * (q t + 1))) := by rw [← this]; linarith [hq (t + 1)]
      exact ((pos_iff_pos_of_mul_pos p).1 (by linarith [hq t])).le
    refine tendsto_of_geom (r := 1 - r) (by linarith) (by linarith) fun t => ?_
    rw [h.sub_one t, abs_mul, mul_comm]
    refine mul_le_mul_of_nonneg_right ?_ (abs_nonneg _)
    rw [abs_of_nonneg (f1 t)]
    have g2 : 2 ≤ q t * (q t + 1) := by nlinarith [hq t]
    nlinarith [rb t, mul_nonneg (b0 t) (sub_nonneg.2 g2)]

section
variable {b : ℕ → ℝ} {S : Matrix (Fin n) (Fin n) ℝ} {K : ℕ → Matrix (Fin n) (Fin n) ℝ}

theorem RecV.mode_le (h : RecV b S K) (sS : Sᵀ = S) {c : ℝ} (hc : ∀ t x, x ⬝ᵥ ((b t / 2) • ((K t)ᵀ * S * K t - 1)) *ᵥ x ≤ c * (x ⬝ᵥ x)) {y : ℝ}
    {v : Fin n → ℝ} (v0 : v ≠ 0) (hv : ((K 0)ᵀ * S * K 0) *ᵥ v = y • v) (t : ℕ) : b t / 2 * (y * orb b y t ^ 2 - 1) ≤ c := by
  have := hc t v
  rw [smul_mulVec, sub_mulVec, one_mulVec, (h.eigen sS hv t).2, ← sub_one_smul, dotProduct_smul, dotProduct_smul, smul_eq_mul, smul_eq_mul, ← mul_assoc] at this
  exact le_of_mul_le_mul_right this (dot_pos v0)

/-- the matrix `KᵀSK` stays bounded -/
theorem RecV.bounded (h : RecV b S K) (hS : S.PosDef) (hK : IsUnit (K 0).det) (b0 : ∀ t, 0 ≤ b t) (b1 : ∀ t, b t ≤ 1) {c : ℝ} (c1 : c < 1)
    (hc : ∀ t x, x ⬝ᵥ ((b t / 2) • ((K t)ᵀ * S * K t - 1)) *ᵥ x ≤ c * (x ⬝ᵥ x)) : ∃ B, ∀ t i j, |((K t)ᵀ * S * K t) i j| ≤ B := by
  obtain ⟨Q, d, QQ, d0, col, nz, -, form⟩ := h.form hS hK
  have sS : Sᵀ = S := by have := hS.isHermitian; rwa [IsHermitian, conjTranspose_eq_transpose_of_trivial] at this
  have bd : ∀ t j, d j * orb b (d j) t ^ 2 ≤ max 1 (√(d j)) ^ 2 := by
    intro t j
    have cub := orb_cubic b (d0 j).le
    have s0 := Real.sqrt_pos.2 (d0 j)
    have lim : ∀ t, b t / 2 * ((√(d j) * orb b (d j) t) ^ 2 - 1) ≤ c := fun t => by
      rw [mul_pow, Real.sq_sqrt (d0 j).le]; exact h.mode_le sS hc (nz j) (col j) t
    have := cub.bounded c1 lim (by simpa [orb] using s0) b0 b1 t
    have p := cub.pos c1 lim (by simpa [orb] using s0) t
    simp only [orb, mul_one] at this
    have e : d j * orb b (d j) t ^ 2 = (√(d j) * orb b (d j) t) ^ 2 := by rw [mul_pow, Real.sq_sqrt (d0 j).le]
    rw [e]
    exact pow_le_pow_left₀ p.le this 2
  refine ⟨∑ i, ∑ k, ∑ j, |Q i j| * max 1 (√(d j)) ^ 2 * |Q k j|, fun t i k => ?_⟩
  have nn : ∀ i k j, 0 ≤ |Q i j| * max 1 (√(d j)) ^ 2 * |Q k j| := fun i k j => by positivity
  calc |((K t)ᵀ * S * K t) i k| ≤ ∑ j, |Q i j| * max 1 (√(d j)) ^ 2 * |Q k j| := by
        rw [form t, Matrix.mul_apply]
        refine (Finset.abs_sum_le_sum_abs _ _).trans (Finset.sum_le_sum fun j _ => ?_)
        rw [mul_diagonal, abs_mul, abs_mul, transpose_apply, abs_of_nonneg (mul_nonneg (d0 j).le (sq_nonneg _))]
        exact mul_le_mul_of_nonneg_right (mul_le_mul_of_nonneg_left (bd t j) (abs_nonneg _)) (abs_nonneg _)
    _ ≤ ∑ k, ∑ j, |Q i j| * max 1 (√(d j)) ^ 2 * |Q k j| :=
        Finset.single_le_sum (f := fun k => ∑ j, |Q i j| * max 1 (√(d j)) ^ 2 * |Q k j|) (fun k _ => Finset.sum_nonneg fun j _ => nn i k j) (Finset.mem_univ k)
    _ ≤ _ := Finset.single_le_sum (f := fun i => ∑ k, ∑ j, |Q i j| * max 1 (√(d j)) ^ 2 * |Q k j|)
        (fun i _ => Finset.sum_nonneg fun k _ => Finset.sum_nonneg fun j _ => nn i k j) (Finset.mem_univ i)

/-- rates bounded away from 0: convergence to a root of the inverse -/
theorem RecV.tendsto (h : RecV b S K) (hS : S.PosDef) (hK : IsUnit (K 0).det) {r : ℝ} (r0 : 0 < r) (rb : ∀ t, r ≤ b t) (b1 : ∀ t, b t ≤ 1) {c : ℝ} (c1 : c < 1)
    (hc : ∀ t x, x ⬝ᵥ ((b t / 2) • ((K t)ᵀ * S * K t - 1)) *ᵥ x ≤ c * (x ⬝ᵥ x)) : ∃ L, Tendsto K atTop (𝓝 L) ∧ L * Lᵀ = S⁻¹ := by
  obtain ⟨Q, d, QQ, d0, col, nz, form, -⟩ := h.form hS hK
  have QQ' : Q * Qᵀ = 1 := mul_eq_one_comm.1 QQ
  have sS : Sᵀ = S := by have := hS.isHermitian; rwa [IsHermitian, conjTranspose_eq_transpose_of_trivial] at this
  have lim : ∀ j, Tendsto (orb b (d j)) atTop (𝓝 (√(d j))⁻¹) := by
    intro j
    have s0 := Real.sqrt_pos.2 (d0 j)
    have := ((orb_cubic b (d0 j).le).tendsto c1 (fun t => by
      rw [mul_pow, Real.sq_sqrt (d0 j).le]; exact h.mode_le sS hc (nz j) (col j) t) (by simpa [orb] using s0) r0 rb b1).const_mul (√(d j))⁻¹
    rw [mul_one] at this
    refine this.congr fun t => ?_
    rw [← mul_assoc, inv_mul_cancel₀ s0.ne', one_mul]
  set Y := (K 0)ᵀ * S * K 0 with hY
  refine ⟨K 0 * Q * diagonal (fun j => (√(d j))⁻¹) * Qᵀ, ?_, ?_⟩
  · have c : Continuous fun e : Fin n → ℝ => K 0 * Q * diagonal e * Qᵀ := by fun_prop
    have l : Tendsto (fun t j => orb b (d j) t) atTop (𝓝 fun j => (√(d j))⁻¹) := tendsto_pi_nhds.2 lim
    exact ((c.tendsto _).comp l).congr fun t => (form t).symm
  · set D : Matrix (Fin n) (Fin n) ℝ := diagonal fun j => (√(d j))⁻¹ with hD
    have YQ : Y * Q = Q * diagonal d := by
      ext i j
      have := congrFun (col j) i
      rw [mul_diagonal, Matrix.mul_apply]
      simp only [mulVec, dotProduct, Pi.smul_apply, smul_eq_mul] at this
      rw [this, mul_comm]
    have DdD : D * diagonal d * D = 1 := by
      rw [hD, diagonal_mul_diagonal, diagonal_mul_diagonal, ← diagonal_one]
      congr 1
      funext j
      have := (Real.sqrt_pos.2 (d0 j)).ne'
      field_simp
      exact (Real.sq_sqrt (d0 j).le).symm
    have one : (K 0 * Q * D * Qᵀ)ᵀ * S * (K 0 * Q * D * Qᵀ) = 1 := by
      have tD : Dᵀ = D := diagonal_transpose _
      calc _ = Q * D * (Qᵀ * (Y * Q)) * D * Qᵀ := by
            rw [hY]
            simp only [transpose_mul, transpose_transpose, tD, Matrix.mul_assoc]
        _ = Q * (D * diagonal d * D) * Qᵀ := by
            rw [YQ, ← Matrix.mul_assoc Qᵀ, QQ, Matrix.one_mul]
            simp only [Matrix.mul_assoc]
        _ = 1 := by rw [DdD, Matrix.mul_one, QQ']
    have := mul_eq_one_comm.1 one
    rw [← Matrix.mul_assoc] at this
    exact (inv_eq_left_inv this).symm
end

/-! ## All inputs equal: the normalisation by the largest entry does not prevent divergence -/

/-- a multiple of the all-ones matrix plus a multiple of the identity -/
def flat (n : ℕ) (s d : ℝ) : Matrix (Fin n) (Fin n) ℝ := fun i j => s + if i = j then d else 0

theorem flat_ones (n : ℕ) (s d : ℝ) : flat n s d *ᵥ (fun _ => 1) = (n * s + d) • fun _ => (1 : ℝ) := by
  funext i
  simp [flat, mulVec, dotProduct, Finset.sum_add_distrib]

theorem flat_zero {n : ℕ} (s d : ℝ) {v : Fin n → ℝ} (hv : ∑ i, v i = 0) : flat n s d *ᵥ v = d • v := by
  funext i
  simp [flat, mulVec, dotProduct, Finset.sum_add_distrib, add_mul, ← Finset.mul_sum, hv]

/-- a matrix that acts like that -/
theorem eq_flat {n : ℕ} (n0 : 0 < n) {P : Matrix (Fin n) (Fin n) ℝ} {y z : ℝ} (h1 : P *ᵥ (fun _ => 1) = y • fun _ => (1 : ℝ))
    (h2 : ∀ v : Fin n → ℝ, ∑ i, v i = 0 → P *ᵥ v = z • v) (i j : Fin n) : P i j = (y - z) / n + if i = j then z else 0 := by
  have n0' : (n : ℝ) ≠ 0 := Nat.cast_ne_zero.2 n0.ne'
  have e : (Pi.single j 1 : Fin n → ℝ) = (1 / n : ℝ) • (fun _ => 1) + (Pi.single j 1 - (1 / n : ℝ) • fun _ => 1) := by abel
  have s0 : ∑ i, (Pi.single j 1 - (1 / n : ℝ) • (fun _ => 1) : Fin n → ℝ) i = 0 := by
    simp [Finset.sum_sub_distrib, n0']
  have := congrFun (mulVec_single_one P j) i
  rw [e, mulVec_add, mulVec_smul, h1, h2 _ s0] at this
  rw [show P i j = P.col j i from rfl, ← this]
  simp only [Pi.add_apply, Pi.smul_apply, Pi.sub_apply, smul_eq_mul, mul_one, Pi.single_apply]
  split <;> field_simp <;> ring

theorem small_mode {z b : ℝ} (z0 : 0 < z) (z1 : z ≤ 1) (b0 : 0 ≤ b) (b1 : b ≤ 1) : z * (1 - b / 2 * (z - 1)) ^ 2 ≤ 1 := by
  obtain ⟨w, w0, wz⟩ : ∃ w, 0 ≤ w ∧ w ^ 2 = z := ⟨√z, Real.sqrt_nonneg _, Real.sq_sqrt z0.le⟩
  have w1 : w ≤ 1 := by nlinarith
  have g : w * (1 - b / 2 * (w ^ 2 - 1)) ≤ 1 := by
    have : w * (w + 1) ≤ 2 := by nlinarith
    have : 0 ≤ 1 - b / 2 * (w * (w + 1)) := by nlinarith
    nlinarith [mul_nonneg (sub_nonneg.2 w1) this]
  have g0 : 0 ≤ w * (1 - b / 2 * (w ^ 2 - 1)) := mul_nonneg w0 (by nlinarith)
  calc z * (1 - b / 2 * (z - 1)) ^ 2 = (w * (1 - b / 2 * (w ^ 2 - 1))) ^ 2 := by rw [wz, mul_pow, wz]
    _ ≤ 1 := by nlinarith

theorem row_sq {n : ℕ} (n0 : 0 < n) {K : Matrix (Fin n) (Fin n) ℝ} {q : ℝ} (e : K *ᵥ (fun _ => 1) = q • fun _ => (1 : ℝ)) : q ^ 2 ≤ sq K := by
  have row : ∀ i, ∑ j, K i j = q := fun i => by
    have := congrFun e i
    simpa [mulVec, dotProduct] using this
  have cs : ∀ i, q ^ 2 ≤ n * ∑ j, K i j ^ 2 := fun i => by
    rw [← row i]
    have := sq_sum_le_card_mul_sum_sq (s := (Finset.univ : Finset (Fin n))) (f := fun j => K i j)
    rwa [Finset.card_univ, Fintype.card_fin] at this
  have := Finset.sum_le_sum fun (i : Fin n) (_ : i ∈ Finset.univ) => cs i
  rw [Finset.sum_const, Finset.card_univ, Fintype.card_fin, nsmul_eq_mul, ← Finset.mul_sum] at this
  exact le_of_mul_le_mul_left this (Nat.cast_pos.2 n0)

theorem RecV.blow_up {n : ℕ} (n2 : 2 ≤ n) {b : ℕ → ℝ} {K : ℕ → Matrix (Fin n) (Fin n) ℝ} {β s d : ℝ} (β1 : β ≤ 1) (nβ : 2 < n * β) (d0 : 0 < d) (d1 : d ≤ 1)
    (hs1 : 2 * n + 1 ≤ n * s) (hs2 : 2 * (n * β) / (n * β - 2) ≤ n * s) (h : RecV b (flat n s d) K) (K0 : K 0 = 1)
    (hr : ∀ t, ∃ v, (∃ i j, v = |((1 / 2 : ℝ) • ((K t)ᵀ * flat n s d * K t - 1)) i j|) ∧
      (∀ i j, |((1 / 2 : ℝ) • ((K t)ᵀ * flat n s d * K t - 1)) i j| ≤ v) ∧ b t = β / max 1 v) :
    Tendsto (fun t => sq (K t)) atTop atTop := by
  set S := flat n s d with hS
  have sS : Sᵀ = S := by ext i j; simp [hS, flat, eq_comm]
  have n0 : (0 : ℝ) < n := by have : (2 : ℝ) ≤ n := by exact_mod_cast n2
                              linarith
  have β0 : 0 < β := by by_contra hc; nlinarith
  have P0 : (K 0)ᵀ * S * K 0 = S := by rw [K0]; simp
  set ε := (n * β - 2) / 2 with hε
  have ε0 : 0 < ε := by rw [hε]; linarith
  have E1 : ∀ t, ((K t)ᵀ * S * K t) *ᵥ (fun _ => 1) = ((n * s + d) * orb b (n * s + d) t ^ 2) • fun _ => (1 : ℝ) := fun t =>
    (h.eigen sS (by rw [P0, flat_ones]) t).2
  have E2 : ∀ t (v : Fin n → ℝ), ∑ i, v i = 0 → ((K t)ᵀ * S * K t) *ᵥ v = (d * orb b d t ^ 2) • v := fun t v hv =>
    (h.eigen sS (by rw [P0, flat_zero _ _ hv]) t).2
  have inv : ∀ t, (n * s + d) * (1 + ε) ^ t ≤ (n * s + d) * orb b (n * s + d) t ^ 2 ∧ 0 < orb b d t ∧ d * orb b d t ^ 2 ≤ 1 := by
    intro t
    induction t with
    | zero => simp [orb, d1]
    | succ t ih =>
      obtain ⟨i1, i2, i3⟩ := ih
      set y := (n * s + d) * orb b (n * s + d) t ^ 2 with hy
      set z := d * orb b d t ^ 2 with hz
      have z0 : 0 < z := mul_pos d0 (pow_pos i2 2)
      have ent : ∀ i j, ((1 / 2 : ℝ) • ((K t)ᵀ * S * K t - 1)) i j = ((y - z) / n + if i = j then z - 1 else 0) / 2 := by
        intro i j
        rw [Matrix.smul_apply, Matrix.sub_apply, eq_flat (by omega) (E1 t) (E2 t), Matrix.one_apply, smul_eq_mul]
        split <;> ring
      have pw : 1 ≤ (1 + ε) ^ t := one_le_pow₀ (by linarith)
      have ylow : n * s + d ≤ y := by nlinarith
      have y1 : 2 * n + 1 ≤ y := by linarith
      have q1 : 2 ≤ (y - z) / n := by rw [le_div_iff₀ n0]; linarith
      obtain ⟨v, ⟨i, j, hv⟩, hmax, hb⟩ := hr t
      have ve : v = (y - z) / n / 2 := by
        apply le_antisymm
        · rw [hv, ent]
          rw [abs_le]; split <;> constructor <;> linarith
        · have := hmax ⟨0, by omega⟩ ⟨1, by omega⟩
          rw [ent, if_neg (by simp [Fin.ext_iff]), add_zero] at this
          exact (le_abs_self _).trans this
      have bt : b t = 2 * (n * β) / (y - z) := by
        have h0 : y - z ≠ 0 := by linarith
        rw [hb, max_eq_right (by rw [ve]; linarith), ve]
        field_simp
      have yz : 0 < y - z := by linarith
      have b0 : 0 < b t := by rw [bt]; exact div_pos (by linarith) yz
      have b1 : b t ≤ 1 := by
        rw [hb]
        exact (div_le_self β0.le (le_max_left _ _)).trans β1
      refine ⟨?_, ?_, ?_⟩
      · -- the large direction grows
        have x2 : 2 + ε ≤ b t / 2 * (y - 1) := by
          rw [bt]
          have e : 2 * (n * β) / (y - z) / 2 * (y - 1) = n * β * (y - 1) / (y - z) := by ring
          rw [e, le_div_iff₀ yz]
          have hs3 : n * β ≤ ε * y := by
            rw [div_le_iff₀ (by linarith)] at hs2
            have : 2 * (n * β) ≤ y * (n * β - 2) := hs2.trans (mul_le_mul_of_nonneg_right (by linarith) (by linarith))
            rw [hε]; linarith
          have : n * β = 2 + 2 * ε := by rw [hε]; ring
          nlinarith
        have f : (1 + ε) ≤ (1 - b t / 2 * (y - 1)) ^ 2 := by nlinarith
        have e : (n * s + d) * orb b (n * s + d) (t + 1) ^ 2 = y * (1 - b t / 2 * (y - 1)) ^ 2 := by rw [orb, ← hy, hy]; ring
        rw [e, pow_succ, ← mul_assoc]
        exact mul_le_mul i1 f (by linarith) (by linarith)
      · rw [orb, ← hz]
        refine mul_pos i2 ?_
        nlinarith
      · have e : d * orb b d (t + 1) ^ 2 = z * (1 - b t / 2 * (z - 1)) ^ 2 := by rw [orb, ← hz, hz]; ring
        rw [e]
        exact small_mode z0 i3 b0.le b1
  have y0 : 0 < n * s + d := by linarith
  have low : ∀ t, (1 + ε) ^ t ≤ sq (K t) := by
    intro t
    have i1 := le_of_mul_le_mul_left (inv t).1 y0
    refine i1.trans ?_
    have e := (h.eigen sS (show ((K 0)ᵀ * S * K 0) *ᵥ (fun _ => 1) = _ by rw [P0, flat_ones]) t).1
    rw [K0, one_mulVec] at e
    exact row_sq (by omega) e
  exact tendsto_atTop_mono low (tendsto_pow_atTop_atTop_of_one_lt (by linarith))

end Verif.Normalized
