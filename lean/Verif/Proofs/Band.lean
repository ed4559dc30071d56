import Verif.Proofs.Coupled

/-! Bounds on the factors for bounded statistics that may change from update to update. -/

open Matrix

namespace Band
variable {n : ℕ}

/-- squared length -/
theorem sq_nonneg (x : Fin n → ℝ) : 0 ≤ x ⬝ᵥ x := by
  simp only [dotProduct]; exact Finset.sum_nonneg fun i _ => mul_self_nonneg _

theorem mulVec_dot (A : Matrix (Fin n) (Fin n) ℝ) (x y : Fin n → ℝ) : (A *ᵥ x) ⬝ᵥ y = x ⬝ᵥ (Aᵀ *ᵥ y) := by
  rw [dotProduct_comm, dotProduct_mulVec, vecMul_transpose_aux, dotProduct_comm]
where
  vecMul_transpose_aux : y ᵥ* A = Aᵀ *ᵥ y := (mulVec_transpose A y).symm

theorem orth_dot {V : Matrix (Fin n) (Fin n) ℝ} (h : Vᵀ * V = 1) (x y : Fin n → ℝ) : (V *ᵥ x) ⬝ᵥ (V *ᵥ y) = x ⬝ᵥ y := by
  rw [mulVec_dot, mulVec_mulVec, h, one_mulVec]

/-- a vector in the eigenbasis of a symmetric matrix, and what an update makes of it -/
theorem modes {X : Matrix (Fin n) (Fin n) ℝ} (hX : Xᵀ = X) {y1 : ℝ} (h0 : ∀ x, 0 ≤ x ⬝ᵥ X *ᵥ x) (h1 : ∀ x, x ⬝ᵥ X *ᵥ x ≤ y1 * (x ⬝ᵥ x)) (b : ℝ) (y : Fin n → ℝ) :
    ∃ ν c : Fin n → ℝ, (∀ i, 0 ≤ ν i ∧ ν i ≤ y1) ∧ y ⬝ᵥ y = ∑ i, c i ^ 2 ∧
      ((1 - b • (X - 1)) *ᵥ y) ⬝ᵥ ((1 - b • (X - 1)) *ᵥ y) = ∑ i, (1 + b - b * ν i) ^ 2 * c i ^ 2 ∧
      ((1 - b • (X - 1)) *ᵥ y) ⬝ᵥ X *ᵥ ((1 - b • (X - 1)) *ᵥ y) = ∑ i, ν i * (1 + b - b * ν i) ^ 2 * c i ^ 2 := by
  obtain ⟨V, ν, v1, v2, e⟩ := Coupled.spectral hX
  have ev : ∀ x, X *ᵥ (V *ᵥ x) = V *ᵥ fun i => ν i * x i := by
    intro x
    rw [e, mulVec_mulVec]
    have : V * diagonal ν * Vᵀ * V = V * diagonal ν := by rw [Matrix.mul_assoc, v1, Matrix.mul_one]
    rw [this, ← mulVec_mulVec]
    congr 1
    funext i
    rw [mulVec_diagonal]
  have hν : ∀ i, 0 ≤ ν i ∧ ν i ≤ y1 := by
    intro i
    have q : (V *ᵥ Pi.single i 1) ⬝ᵥ X *ᵥ (V *ᵥ Pi.single i 1) = ν i := by
      rw [ev, orth_dot v1]; simp
    have l : (V *ᵥ Pi.single i 1) ⬝ᵥ (V *ᵥ Pi.single i 1) = (1 : ℝ) := by
      rw [orth_dot v1]; simp
    have a := h0 (V *ᵥ Pi.single i 1)
    have b := h1 (V *ᵥ Pi.single i 1)
    rw [q] at a; rw [q, l, mul_one] at b
    exact ⟨a, b⟩
  have ey : y = V *ᵥ (Vᵀ *ᵥ y) := by rw [mulVec_mulVec, v2, one_mulVec]
  obtain ⟨c, hc⟩ : ∃ c, c = Vᵀ *ᵥ y := ⟨_, rfl⟩
  rw [← hc] at ey
  have eD : (1 - b • (X - 1)) *ᵥ y = V *ᵥ fun i => (1 + b - b * ν i) * c i := by
    rw [ey, sub_mulVec, one_mulVec, smul_mulVec, sub_mulVec, one_mulVec, ev, ← mulVec_sub, ← mulVec_smul, ← mulVec_sub]
    congr 1
    funext i
    simp only [Pi.sub_apply, Pi.smul_apply, smul_eq_mul]
    ring
  refine ⟨ν, c, hν, ?_, ?_, ?_⟩
  · rw [ey, orth_dot v1, dotProduct]
    exact Finset.sum_congr rfl fun i _ => by ring
  · rw [eD, orth_dot v1, dotProduct]
    exact Finset.sum_congr rfl fun i _ => by ring
  · rw [eD, ev, orth_dot v1, dotProduct]
    exact Finset.sum_congr rfl fun i _ => by ring

/-- how an update changes the length of a vector: upper bound -/
theorem upper {X : Matrix (Fin n) (Fin n) ℝ} (hX : Xᵀ = X) {y1 b : ℝ} (h0 : ∀ x, 0 ≤ x ⬝ᵥ X *ᵥ x) (h1 : ∀ x, x ⬝ᵥ X *ᵥ x ≤ y1 * (x ⬝ᵥ x)) (b0 : 0 ≤ b) (hb : b * y1 ≤ 1 + b)
    (y : Fin n → ℝ) : (1 + b) * (((1 - b • (X - 1)) *ᵥ y) ⬝ᵥ ((1 - b • (X - 1)) *ᵥ y)) + 2 * b * (((1 - b • (X - 1)) *ᵥ y) ⬝ᵥ X *ᵥ ((1 - b • (X - 1)) *ᵥ y)) ≤ (1 + b) ^ 3 * (y ⬝ᵥ y) := by
  obtain ⟨ν, c, hν, e1, e2, e3⟩ := modes hX h0 h1 b y
  rw [e1, e2, e3, Finset.mul_sum, Finset.mul_sum, Finset.mul_sum, ← Finset.sum_add_distrib]
  refine Finset.sum_le_sum fun i _ => ?_
  obtain ⟨n0, n1⟩ := hν i
  have z0 : 0 ≤ b * ν i := mul_nonneg b0 n0
  have z1 : b * ν i ≤ 1 + b := (mul_le_mul_of_nonneg_left n1 b0).trans hb
  have key : (1 + b) * (1 + b - b * ν i) ^ 2 + 2 * b * (ν i * (1 + b - b * ν i) ^ 2) ≤ (1 + b) ^ 3 := by
    have : (1 + b) ^ 3 - ((1 + b) * (1 + b - b * ν i) ^ 2 + 2 * b * (ν i * (1 + b - b * ν i) ^ 2)) = (b * ν i) ^ 2 * (3 * (1 + b) - 2 * (b * ν i)) := by ring
    have p : 0 ≤ (b * ν i) ^ 2 * (3 * (1 + b) - 2 * (b * ν i)) := mul_nonneg (by positivity) (by linarith)
    linarith
  have := mul_le_mul_of_nonneg_right key (by positivity : 0 ≤ c i ^ 2)
  linarith

/-- the same: lower bound -/
theorem lower {X : Matrix (Fin n) (Fin n) ℝ} (hX : Xᵀ = X) {y1 b z : ℝ} (h0 : ∀ x, 0 ≤ x ⬝ᵥ X *ᵥ x) (h1 : ∀ x, x ⬝ᵥ X *ᵥ x ≤ y1 * (x ⬝ᵥ x)) (b0 : 0 ≤ b) (z1 : z < 1)
    (hb : b * y1 ≤ z * (1 + b)) (y : Fin n → ℝ) : (1 - z) ^ 2 * ((1 + b) ^ 3 * (y ⬝ᵥ y)) ≤ (1 - z) ^ 2 * ((1 + b) * (((1 - b • (X - 1)) *ᵥ y) ⬝ᵥ ((1 - b • (X - 1)) *ᵥ y))) +
      (2 - z) * (b * (((1 - b • (X - 1)) *ᵥ y) ⬝ᵥ X *ᵥ ((1 - b • (X - 1)) *ᵥ y))) := by
  obtain ⟨ν, c, hν, e1, e2, e3⟩ := modes hX h0 h1 b y
  rw [e1, e2, e3]
  simp only [Finset.mul_sum]
  rw [← Finset.sum_add_distrib]
  refine Finset.sum_le_sum fun i _ => ?_
  obtain ⟨n0, n1⟩ := hν i
  have t0 : 0 ≤ b * ν i := mul_nonneg b0 n0
  have t1 : b * ν i ≤ z * (1 + b) := (mul_le_mul_of_nonneg_left n1 b0).trans hb
  have a0 : 0 < 1 + b := by linarith
  obtain ⟨t, ht⟩ : ∃ t, t = b * ν i / (1 + b) := ⟨_, rfl⟩
  have e : b * ν i = t * (1 + b) := by rw [ht]; field_simp
  have s0 : 0 ≤ t := by rw [ht]; exact div_nonneg t0 a0.le
  have s1 : t ≤ z := by rw [ht, div_le_iff₀ a0]; exact t1
  have key : (1 - z) ^ 2 ≤ (1 - z) ^ 2 * (1 - t) ^ 2 + (2 - z) * t * (1 - t) ^ 2 := by
    have : (1 - z) ^ 2 * (1 - t) ^ 2 + (2 - z) * t * (1 - t) ^ 2 - (1 - z) ^ 2 = t * (z - t) * ((2 - z) * (1 - t) + (1 - z)) := by ring
    have p : 0 ≤ t * (z - t) * ((2 - z) * (1 - t) + (1 - z)) := mul_nonneg (mul_nonneg s0 (by linarith)) (add_nonneg (mul_nonneg (by linarith) (by linarith)) (by linarith))
    linarith
  have k2 := mul_le_mul_of_nonneg_right key (by positivity : 0 ≤ (1 + b) ^ 3 * c i ^ 2)
  have f1 : (1 - z) ^ 2 * ((1 + b) * ((1 + b - b * ν i) ^ 2 * c i ^ 2)) + (2 - z) * (b * (ν i * (1 + b - b * ν i) ^ 2 * c i ^ 2)) =
      ((1 - z) ^ 2 * (1 - t) ^ 2 + (2 - z) * t * (1 - t) ^ 2) * ((1 + b) ^ 3 * c i ^ 2) := by
    have : (2 - z) * (b * (ν i * (1 + b - b * ν i) ^ 2 * c i ^ 2)) = (2 - z) * ((b * ν i) * (1 + b - b * ν i) ^ 2 * c i ^ 2) := by ring
    rw [this, e]; ring
  rw [f1]
  linarith [k2, show (1 - z) ^ 2 * ((1 + b) ^ 3 * c i ^ 2) = (1 - z) ^ 2 * ((1 + b) ^ 3 * c i ^ 2) from rfl]

/-- the squared singular values of `K` are between `1/κ` and `1/q` -/
def Within (q κ : ℝ) (K : Matrix (Fin n) (Fin n) ℝ) : Prop := ∀ x, q * ((K *ᵥ x) ⬝ᵥ (K *ᵥ x)) ≤ x ⬝ᵥ x ∧ x ⬝ᵥ x ≤ κ * ((K *ᵥ x) ⬝ᵥ (K *ᵥ x))

/-- **one update**: rate `2b`, damping `l`, damped statistics `S` between `l` and `s` -/
theorem Within.update {q κ l s b z : ℝ} {K S : Matrix (Fin n) (Fin n) ℝ} (h : Within q κ K) (hS : Sᵀ = S) (hl : ∀ x, l * (x ⬝ᵥ x) ≤ x ⬝ᵥ S *ᵥ x) (hs : ∀ x, x ⬝ᵥ S *ᵥ x ≤ s * (x ⬝ᵥ x))
    (q0 : 0 < q) (l0 : 0 < l) (s0 : 0 < s) (b0 : 0 ≤ b) (z1 : z < 1) (hz : b * s ≤ z * q) (hq : q * ((2 + b) * (1 + b)) ≤ 2 * l) (hκ : (2 - z) * s ≤ 2 * (1 - z) ^ 2 * κ) :
    Within q κ (K * (1 - b • (Kᵀ * S * K - 1))) := by
  have quad : ∀ x, x ⬝ᵥ (Kᵀ * S * K) *ᵥ x = (K *ᵥ x) ⬝ᵥ S *ᵥ (K *ᵥ x) := by
    intro x
    rw [mulVec_dot, ← mulVec_mulVec, ← mulVec_mulVec]
  have hX : (Kᵀ * S * K)ᵀ = Kᵀ * S * K := by rw [transpose_mul, transpose_mul, transpose_transpose, hS, Matrix.mul_assoc]
  have x0 : ∀ x, 0 ≤ x ⬝ᵥ (Kᵀ * S * K) *ᵥ x := fun x => by
    rw [quad]; exact le_trans (mul_nonneg l0.le (sq_nonneg _)) (hl _)
  have x1 : ∀ x, x ⬝ᵥ (Kᵀ * S * K) *ᵥ x ≤ s / q * (x ⬝ᵥ x) := fun x => by
    rw [quad]
    refine (hs _).trans ?_
    rw [div_mul_eq_mul_div, le_div_iff₀ q0]
    have := mul_le_mul_of_nonneg_left (h x).1 s0.le
    linarith
  have bz : b * (s / q) ≤ z := by rw [← mul_div_assoc, div_le_iff₀ q0]; exact hz
  have z0 : 0 ≤ z := le_trans (mul_nonneg b0 (div_nonneg s0.le q0.le)) bz
  have a0 : 0 < 1 + b := by linarith
  intro y
  obtain ⟨v, hv⟩ : ∃ v, v = (1 - b • (Kᵀ * S * K - 1)) *ᵥ y := ⟨_, rfl⟩
  have ev : (K * (1 - b • (Kᵀ * S * K - 1))) *ᵥ y = K *ᵥ v := by rw [hv, mulVec_mulVec]
  have U := upper hX x0 x1 b0 (bz.trans (by linarith)) y
  have L := lower hX x0 x1 b0 z1 (bz.trans (by nlinarith)) y
  rw [← hv, quad] at U L
  rw [ev]
  obtain ⟨k, hk⟩ : ∃ k, k = (K *ᵥ v) ⬝ᵥ (K *ᵥ v) := ⟨_, rfl⟩
  have k0 : 0 ≤ k := by rw [hk]; exact sq_nonneg _
  obtain ⟨h1, h2⟩ := h v
  have l1 := hl (K *ᵥ v)
  have s1 := hs (K *ᵥ v)
  rw [← hk] at h1 h2 l1 s1 ⊢
  generalize (K *ᵥ v) ⬝ᵥ S *ᵥ (K *ᵥ v) = r at *
  generalize v ⬝ᵥ v = vv at *
  generalize y ⬝ᵥ y = yy at *
  have p3 : 0 < (1 + b) ^ 3 := by positivity
  constructor
  · have e1 : (1 + b) ^ 3 * (q * k) ≤ (1 + b) ^ 3 * yy := by
      refine le_trans ?_ U
      have u1 : (1 + b) * (q * k) ≤ (1 + b) * vv := mul_le_mul_of_nonneg_left h1 a0.le
      have u2 : 2 * b * (l * k) ≤ 2 * b * r := mul_le_mul_of_nonneg_left l1 (by linarith)
      have u3 : b * k * (q * ((2 + b) * (1 + b))) ≤ b * k * (2 * l) := mul_le_mul_of_nonneg_left hq (mul_nonneg b0 k0)
      have : (1 + b) ^ 3 * (q * k) = (1 + b) * (q * k) + b * k * (q * ((2 + b) * (1 + b))) := by ring
      linarith
    exact le_of_mul_le_mul_left e1 p3
  · have z2 : 0 < (1 - z) ^ 2 := by have : 0 < 1 - z := by linarith
                                    positivity
    have κ0 : 0 ≤ κ := by
      by_contra hneg
      have : (2 - z) * s ≤ 0 := hκ.trans (by nlinarith)
      nlinarith
    have e1 : (1 - z) ^ 2 * ((1 + b) ^ 3 * yy) ≤ (1 - z) ^ 2 * ((1 + b) ^ 3 * (κ * k)) := by
      refine L.trans ?_
      have u1 : (1 - z) ^ 2 * ((1 + b) * vv) ≤ (1 - z) ^ 2 * ((1 + b) * (κ * k)) := mul_le_mul_of_nonneg_left (mul_le_mul_of_nonneg_left h2 a0.le) z2.le
      have u2 : (2 - z) * (b * r) ≤ (2 - z) * (b * (s * k)) := mul_le_mul_of_nonneg_left (mul_le_mul_of_nonneg_left s1 b0) (by linarith)
      have u3 : b * k * ((2 - z) * s) ≤ b * k * (2 * (1 - z) ^ 2 * κ) := mul_le_mul_of_nonneg_left hκ (mul_nonneg b0 k0)
      have u4 : 0 ≤ (1 - z) ^ 2 * (κ * k) * (b * (3 * b + b ^ 2)) := by positivity
      nlinarith
    exact le_of_mul_le_mul_left (le_of_mul_le_mul_left e1 z2) p3

/-- Cauchy-Schwarz -/
theorem cauchy (x y : Fin n → ℝ) : (x ⬝ᵥ y) ^ 2 ≤ (x ⬝ᵥ x) * (y ⬝ᵥ y) := by
  have := Finset.sum_mul_sq_le_sq_mul_sq Finset.univ x y
  simpa only [dotProduct, sq] using this

/-- the same bounds for the transpose -/
theorem Within.transpose {q κ : ℝ} {K : Matrix (Fin n) (Fin n) ℝ} (h : Within q κ K) (q0 : 0 < q) : Within q κ Kᵀ := by
  intro x
  obtain ⟨p, hp⟩ : ∃ p, p = (Kᵀ *ᵥ x) ⬝ᵥ (Kᵀ *ᵥ x) := ⟨_, rfl⟩
  have p0 : 0 ≤ p := by rw [hp]; exact sq_nonneg _
  have x0 := sq_nonneg x
  rw [← hp]
  constructor
  · have e : p = x ⬝ᵥ (K *ᵥ (Kᵀ *ᵥ x)) := by rw [hp, ← mulVec_dot, dotProduct_comm]
    have c := cauchy x (K *ᵥ (Kᵀ *ᵥ x))
    rw [← e] at c
    have b := (h (Kᵀ *ᵥ x)).1
    rw [← hp] at b
    rcases p0.eq_or_lt with z | z
    · rw [← z, mul_zero]; exact x0
    · have : q * p * p ≤ (x ⬝ᵥ x) * p := by nlinarith
      exact le_of_mul_le_mul_right this z
  · have κ0 : x ⬝ᵥ x = 0 ∨ 0 < κ := by
      by_contra hh
      push Not at hh
      have := (h x).2
      have s := sq_nonneg (K *ᵥ x)
      have : x ⬝ᵥ x ≤ 0 := this.trans (mul_nonpos_of_nonpos_of_nonneg hh.2 s)
      exact hh.1 (le_antisymm this x0)
    have inj : Function.Injective K.mulVec := by
      intro a b hab
      have := (h (a - b)).2
      rw [mulVec_sub, show K *ᵥ a = K *ᵥ b from hab, sub_self, dotProduct_zero, mul_zero] at this
      have := dotProduct_self_eq_zero.1 (le_antisymm this (sq_nonneg _))
      exact sub_eq_zero.1 this
    have un : IsUnit K := mulVec_injective_iff_isUnit.1 inj
    obtain ⟨y, hy⟩ : ∃ y, K *ᵥ y = x := by
      refine ⟨K⁻¹ *ᵥ x, ?_⟩
      rw [mulVec_mulVec, mul_nonsing_inv _ ((isUnit_iff_isUnit_det K).1 un), one_mulVec]
    rcases κ0 with z | κ0
    · rw [z] at x0 ⊢
      have : x = 0 := dotProduct_self_eq_zero.1 z
      rw [this] at hp
      rw [hp]; simp
    · have e : x ⬝ᵥ x = (Kᵀ *ᵥ x) ⬝ᵥ y := by
        rw [mulVec_dot, transpose_transpose, hy]
      have c := cauchy (Kᵀ *ᵥ x) y
      rw [← e, ← hp] at c
      have b := (h y).2
      rw [hy] at b
      rcases x0.eq_or_lt with z | z
      · rw [← z]; positivity
      · have : (x ⬝ᵥ x) * (x ⬝ᵥ x) ≤ (κ * p) * (x ⬝ᵥ x) := by nlinarith
        exact le_of_mul_le_mul_right this z

theorem Within.one {q κ : ℝ} (h0 : q ≤ 1) (h1 : 1 ≤ κ) : Within q κ (1 : Matrix (Fin n) (Fin n) ℝ) := fun x => by
  rw [one_mulVec]
  have := sq_nonneg x
  constructor <;> nlinarith

/-! ### matrices -/

/-- sum of the squared entries -/
def fro {n k : ℕ} (A : Matrix (Fin n) (Fin k) ℝ) : ℝ := ∑ i, ∑ j, A i j ^ 2

theorem fro_nonneg {n k : ℕ} (A : Matrix (Fin n) (Fin k) ℝ) : 0 ≤ fro A := Finset.sum_nonneg fun _ _ => Finset.sum_nonneg fun _ _ => _root_.sq_nonneg _

theorem fro_transpose {n k : ℕ} (A : Matrix (Fin n) (Fin k) ℝ) : fro Aᵀ = fro A := Finset.sum_comm

theorem fro_cols {n k : ℕ} (A : Matrix (Fin n) (Fin k) ℝ) : fro A = ∑ j, (fun i => A i j) ⬝ᵥ fun i => A i j := by
  rw [fro, Finset.sum_comm]
  simp only [dotProduct, sq]

theorem Within.mul {q κ : ℝ} {C : Matrix (Fin n) (Fin n) ℝ} (h : Within q κ C) {k : ℕ} (Y : Matrix (Fin n) (Fin k) ℝ) :
    q * fro (C * Y) ≤ fro Y ∧ fro Y ≤ κ * fro (C * Y) := by
  have e : ∀ j, (fun i => (C * Y) i j) = C *ᵥ fun i => Y i j := fun j => rfl
  simp only [fro_cols, e, Finset.mul_sum]
  exact ⟨Finset.sum_le_sum fun j _ => (h _).1, Finset.sum_le_sum fun j _ => (h _).2⟩

theorem inner_trace {n k : ℕ} (A B : Matrix (Fin n) (Fin k) ℝ) : ∑ i, ∑ j, A i j * B i j = (Aᵀ * B).trace := by
  rw [Finset.sum_comm]
  simp only [Matrix.trace, Matrix.diag, Matrix.mul_apply, Matrix.transpose_apply]

/-- a direction preconditioned from both sides: angle with the gradient, length, and the gradient in terms of the angle -/
theorem precond {q κ : ℝ} {k : ℕ} {C : Matrix (Fin n) (Fin n) ℝ} {K : Matrix (Fin k) (Fin k) ℝ} (hC : Within q κ C) (hK : Within q κ K) (q0 : 0 < q) (κ0 : 0 ≤ κ)
    (G : Matrix (Fin n) (Fin k) ℝ) : ∑ i, ∑ j, G i j * (C * Cᵀ * G * (K * Kᵀ)) i j = fro (Cᵀ * G * K) ∧
      q ^ 2 * fro (C * Cᵀ * G * (K * Kᵀ)) ≤ fro (Cᵀ * G * K) ∧ fro G ≤ κ ^ 2 * fro (Cᵀ * G * K) := by
  have e : C * Cᵀ * G * (K * Kᵀ) = C * (Cᵀ * G * K * Kᵀ) := by simp only [Matrix.mul_assoc]
  refine ⟨?_, ?_, ?_⟩
  · rw [inner_trace, e]
    have : fro (Cᵀ * G * K) = ((Cᵀ * G * K)ᵀ * (Cᵀ * G * K)).trace := by rw [← inner_trace]; simp only [fro, sq]
    rw [this, ← Matrix.mul_assoc, ← Matrix.mul_assoc, Matrix.trace_mul_comm]
    simp only [transpose_mul, transpose_transpose, Matrix.mul_assoc]
  · have a := (hC.mul (Cᵀ * G * K * Kᵀ)).1
    have b := (hK.mul (Cᵀ * G * K)ᵀ).1
    rw [fro_transpose] at b
    have t : fro (Cᵀ * G * K * Kᵀ) = fro (K * (Cᵀ * G * K)ᵀ) := by rw [← fro_transpose, transpose_mul, transpose_transpose]
    rw [e, sq, mul_assoc]
    rw [t] at a
    exact (mul_le_mul_of_nonneg_left a q0.le).trans b
  · have a := ((hC.transpose q0).mul G).2
    have b := ((hK.transpose q0).mul (Cᵀ * G)ᵀ).2
    have t : fro (Kᵀ * (Cᵀ * G)ᵀ) = fro (Cᵀ * G * K) := by rw [← transpose_mul, fro_transpose]
    rw [fro_transpose, t] at b
    rw [sq, mul_assoc]
    exact a.trans (mul_le_mul_of_nonneg_left b κ0)

/-- products with a preconditioned direction -/
theorem precond_inner {k : ℕ} (C : Matrix (Fin n) (Fin n) ℝ) (K : Matrix (Fin k) (Fin k) ℝ) (G H : Matrix (Fin n) (Fin k) ℝ) :
    ∑ i, ∑ j, G i j * (C * Cᵀ * H * (K * Kᵀ)) i j = ∑ i, ∑ j, (Cᵀ * G * K) i j * (Cᵀ * H * K) i j := by
  have e : C * Cᵀ * H * (K * Kᵀ) = C * (Cᵀ * H * K * Kᵀ) := by simp only [Matrix.mul_assoc]
  rw [inner_trace, inner_trace, e, ← Matrix.mul_assoc, ← Matrix.mul_assoc, Matrix.trace_mul_comm]
  simp only [transpose_mul, transpose_transpose, Matrix.mul_assoc]

/-- a matrix multiplied with the factors -/
theorem precond_le {q κ : ℝ} {k : ℕ} {C : Matrix (Fin n) (Fin n) ℝ} {K : Matrix (Fin k) (Fin k) ℝ} (hC : Within q κ C) (hK : Within q κ K) (q0 : 0 < q)
    (E : Matrix (Fin n) (Fin k) ℝ) : q ^ 2 * fro (Cᵀ * E * K) ≤ fro E := by
  have a := ((hC.transpose q0).mul E).1
  have b := ((hK.transpose q0).mul (Cᵀ * E)ᵀ).1
  have t : fro (Kᵀ * (Cᵀ * E)ᵀ) = fro (Cᵀ * E * K) := by rw [← transpose_mul, fro_transpose]
  rw [fro_transpose, t] at b
  rw [sq, mul_assoc]
  exact (mul_le_mul_of_nonneg_left b q0.le).trans a

/-- a positive semi-definite matrix is at most its trace -/
theorem le_trace {U : Matrix (Fin n) (Fin n) ℝ} (h : U.PosSemidef) (x : Fin n → ℝ) : x ⬝ᵥ U *ᵥ x ≤ U.trace * (x ⬝ᵥ x) := by
  have hU : Uᵀ = U := by have := h.1; rwa [IsHermitian, conjTranspose_eq_transpose_of_trivial] at this
  obtain ⟨V, ν, v1, v2, e⟩ := Coupled.spectral hU
  have tr : U.trace = ∑ i, ν i := by rw [e, Matrix.mul_assoc, Matrix.trace_mul_comm, Matrix.mul_assoc, v1, Matrix.mul_one, trace_diagonal]
  have ev : ∀ x, (V *ᵥ x) ⬝ᵥ U *ᵥ (V *ᵥ x) = ∑ i, ν i * x i ^ 2 := by
    intro x
    have : V * diagonal ν * Vᵀ * V = V * diagonal ν := by rw [Matrix.mul_assoc, v1, Matrix.mul_one]
    rw [e, mulVec_mulVec, this, ← mulVec_mulVec, orth_dot v1, dotProduct]
    exact Finset.sum_congr rfl fun i _ => by rw [mulVec_diagonal]; ring
  have hν : ∀ i, 0 ≤ ν i := fun i => by
    have := h.dotProduct_mulVec_nonneg (V *ᵥ Pi.single i 1)
    rw [star_trivial, ev] at this
    simpa [Pi.single_apply] using this
  have ex : x = V *ᵥ (Vᵀ *ᵥ x) := by rw [mulVec_mulVec, v2, one_mulVec]
  rw [ex, ev, orth_dot v1, tr, dotProduct, Finset.mul_sum]
  refine Finset.sum_le_sum fun i _ => ?_
  rw [← sq]
  exact mul_le_mul_of_nonneg_right (Finset.single_le_sum (f := ν) (fun j _ => hν j) (Finset.mem_univ i)) (_root_.sq_nonneg _)

end Band
