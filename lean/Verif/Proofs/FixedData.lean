import Mathlib.Analysis.SpecificLimits.Basic
import Mathlib.Analysis.SpecialFunctions.Pow.NNReal
import Mathlib.Analysis.Matrix.Spectrum
import Mathlib.LinearAlgebra.Matrix.PosDef
import Mathlib.Topology.Instances.Matrix
import Mathlib.Tactic.Linarith
import Mathlib.Tactic.Positivity
import Mathlib.Tactic.FieldSimp
import Mathlib.Tactic.LinearCombination

/-!
# The recursion of a factor whose statistics are always the same

`K ← K (1 − β M)`, `M = ½ (Kᵀ S K − 1)`, for a fixed symmetric `S`. Along an eigenvector of `KᵀSK` this is the cubic map
`q ← q (1 − β/2 (q² − 1))`.
-/

open Matrix Filter Topology

namespace Verif.FixedData

/-- orbits of the cubic map -/
def Cubic (b : ℝ) (q : ℕ → ℝ) : Prop := ∀ t, q (t + 1) = q t * (1 - b / 2 * (q t ^ 2 - 1))

theorem Cubic.neg {b : ℝ} {q : ℕ → ℝ} (h : Cubic b q) : Cubic b fun t => - q t := fun t => by
  show - q (t + 1) = _
  rw [h t]; ring

theorem Cubic.shift {b : ℝ} {q : ℕ → ℝ} (h : Cubic b q) (k : ℕ) : Cubic b fun t => q (t + k) := fun t => by
  show q (t + 1 + k) = _
  rw [show t + 1 + k = t + k + 1 by ring, h (t + k)]

theorem Cubic.zero {b : ℝ} {q : ℕ → ℝ} (h : Cubic b q) (h0 : q 0 = 0) : ∀ t, q t = 0
  | 0 => h0
  | t + 1 => by rw [h t, h.zero h0 t, zero_mul]

theorem Cubic.sub_one {b : ℝ} {q : ℕ → ℝ} (h : Cubic b q) (t : ℕ) : q (t + 1) - 1 = (q t - 1) * (1 - b / 2 * (q t * (q t + 1))) := by
  rw [h t]; ring

/-- a geometric bound gives convergence -/
theorem tendsto_of_geom {q : ℕ → ℝ} {r : ℝ} (h0 : 0 ≤ r) (h1 : r < 1) (h : ∀ t, |q (t + 1) - 1| ≤ r * |q t - 1|) : Tendsto q atTop (𝓝 1) := by
  have hb : ∀ t, |q t - 1| ≤ r ^ t * |q 0 - 1| := by
    intro t
    induction t with
    | zero => simp
    | succ t ih =>
      refine (h t).trans ?_
      rw [pow_succ, mul_comm (r ^ t) r, mul_assoc]
      exact mul_le_mul_of_nonneg_left ih h0
  have hz : Tendsto (fun t => r ^ t * |q 0 - 1|) atTop (𝓝 0) := by
    have := (tendsto_pow_atTop_nhds_zero_of_lt_one h0 h1).mul_const |q 0 - 1|
    rwa [zero_mul] at this
  have := squeeze_zero (fun t => abs_nonneg (q t - 1)) hb hz
  have := (tendsto_zero_iff_abs_tendsto_zero _).2 this
  have := this.add_const 1
  simpa using this

theorem Cubic.low {b : ℝ} (b0 : 0 < b) (b1 : b ≤ 1) {q : ℕ → ℝ} (h : Cubic b q) (p0 : 0 < q 0) (p1 : q 0 ≤ 1) : Tendsto q atTop (𝓝 1) := by
  have inv : ∀ t, q 0 ≤ q t ∧ q t ≤ 1 := by
    intro t
    induction t with
    | zero => exact ⟨le_refl _, p1⟩
    | succ t ih =>
      obtain ⟨i1, i2⟩ := ih
      have i0 : 0 < q t := lt_of_lt_of_le p0 i1
      have f0 : 0 ≤ 1 - b / 2 * (q t * (q t + 1)) := by nlinarith [mul_nonneg i0.le (sub_nonneg.2 i2)]
      constructor
      · rw [h t]
        have : 0 ≤ b / 2 * (1 - q t ^ 2) := by apply mul_nonneg (by linarith); nlinarith
        nlinarith [mul_nonneg i0.le this]
      · have := h.sub_one t
        have : q (t + 1) - 1 ≤ 0 := by rw [this]; exact mul_nonpos_of_nonpos_of_nonneg (by linarith) f0
        linarith
  refine tendsto_of_geom (r := 1 - b / 2 * (q 0 * (q 0 + 1))) ?_ ?_ fun t => ?_
  · nlinarith [mul_nonneg p0.le (sub_nonneg.2 p1)]
  · nlinarith [mul_pos b0 p0, mul_pos (mul_pos b0 p0) p0]
  · obtain ⟨i1, i2⟩ := inv t
    have i0 : 0 < q t := lt_of_lt_of_le p0 i1
    rw [h.sub_one t, abs_mul, mul_comm]
    refine mul_le_mul_of_nonneg_right ?_ (abs_nonneg _)
    have f0 : 0 ≤ 1 - b / 2 * (q t * (q t + 1)) := by nlinarith [mul_nonneg i0.le (sub_nonneg.2 i2)]
    rw [abs_of_nonneg f0]
    have : q 0 * (q 0 + 1) ≤ q t * (q t + 1) := by nlinarith
    nlinarith

theorem Cubic.pos {b : ℝ} (b0 : 0 < b) (b1 : b ≤ 1) {q : ℕ → ℝ} (h : Cubic b q) (p0 : 0 < q 0) (p1 : q 0 ^ 2 < 1 + 2 / b) : Tendsto q atTop (𝓝 1) := by
  have hb : b * (2 / b) = 2 := by field_simp
  by_cases hq : ∃ t, q t ≤ 1
  · classical
    obtain ⟨h1, h2⟩ := And.intro (Nat.find_spec hq) (fun s hs => Nat.find_min (H := hq) (m := s) hs)
    set N := Nat.find hq
    have dec : ∀ t, t ≤ N → 0 < q t ∧ q t ^ 2 < 1 + 2 / b := by
      intro t
      induction t with
      | zero => exact fun _ => ⟨p0, p1⟩
      | succ t ih =>
        intro ht
        obtain ⟨i0, i1⟩ := ih (by omega)
        have g1 : 1 < q t := not_le.1 (h2 t (by omega))
        have f0 : 0 < 1 - b / 2 * (q t ^ 2 - 1) := by nlinarith
        have pos : 0 < q (t + 1) := by rw [h t]; exact mul_pos i0 f0
        refine ⟨pos, ?_⟩
        have le : q (t + 1) ≤ q t := by
          rw [h t]
          have : 0 ≤ b / 2 * (q t ^ 2 - 1) := by apply mul_nonneg (by linarith); nlinarith
          nlinarith [mul_nonneg i0.le this]
        nlinarith
    have := (h.shift N).low b0 b1 (by simpa using (dec N le_rfl).1) (by simpa using h1)
    exact (tendsto_add_atTop_iff_nat N).1 this
  · push Not at hq
    have f1 : ∀ t, 0 ≤ 1 - b / 2 * (q t * (q t + 1)) := by
      intro t
      have := h.sub_one t
      have p : 0 < (q t - 1) * (1 - b / 2 * (q t * (q t + 1))) := by rw [← this]; linarith [hq (t + 1)]
      exact ((pos_iff_pos_of_mul_pos p).1 (by linarith [hq t])).le
    refine tendsto_of_geom (r := 1 - b) (by linarith) (by linarith) fun t => ?_
    rw [h.sub_one t, abs_mul, mul_comm]
    refine mul_le_mul_of_nonneg_right ?_ (abs_nonneg _)
    rw [abs_of_nonneg (f1 t)]
    have : 2 ≤ q t * (q t + 1) := by nlinarith [hq t]
    nlinarith

/-- at `q² = 1 + 2/β` one step gives 0 -/
theorem Cubic.hit {b : ℝ} (b0 : 0 < b) {q : ℕ → ℝ} (h : Cubic b q) (p : q 0 ^ 2 = 1 + 2 / b) : q 1 = 0 := by
  have := h 0
  rw [this, p]
  field_simp
  ring

/-- between `1 + 2/β` and `1 + 4/β` the orbit comes down, to 0 or into the region of convergence -/
theorem Cubic.down {b : ℝ} (b0 : 0 < b) {q : ℕ → ℝ} (h : Cubic b q) (p1 : q 0 ^ 2 < 1 + 4 / b) :
    ∃ N, q N = 0 ∨ (0 < q N ^ 2 ∧ q N ^ 2 < 1 + 2 / b) := by
  have hb : b * (2 / b) = 2 := by field_simp
  have hb4 : b * (4 / b) = 4 := by field_simp
  by_contra hc
  push Not at hc
  have hi : ∀ t, 1 + 2 / b ≤ q t ^ 2 := fun t => (hc t).2 (by have := (hc t).1; positivity)
  set r := b / 2 * (q 0 ^ 2 - 1) - 1 with hr
  have r1 : r < 1 := by nlinarith
  have r0 : 0 ≤ r := by nlinarith [hi 0]
  have step : ∀ t, q t ^ 2 ≤ q 0 ^ 2 → q (t + 1) ^ 2 ≤ r ^ 2 * q t ^ 2 := by
    intro t ht
    have e : q (t + 1) ^ 2 = (b / 2 * (q t ^ 2 - 1) - 1) ^ 2 * q t ^ 2 := by rw [h t]; ring
    rw [e]
    refine mul_le_mul_of_nonneg_right (pow_le_pow_left₀ ?_ ?_ 2) (sq_nonneg _)
    · nlinarith [hi t]
    · nlinarith
  have bound : ∀ t, q t ^ 2 ≤ (r ^ 2) ^ t * q 0 ^ 2 := by
    intro t
    induction t with
    | zero => simp
    | succ t ih =>
      have r2 : r ^ 2 ≤ 1 := by nlinarith
      have : (r ^ 2) ^ t * q 0 ^ 2 ≤ q 0 ^ 2 := mul_le_of_le_one_left (sq_nonneg _) (pow_le_one₀ (sq_nonneg _) r2)
      refine (step t (ih.trans this)).trans ?_
      rw [pow_succ (r ^ 2) t, mul_comm ((r ^ 2) ^ t), mul_assoc]
      exact mul_le_mul_of_nonneg_left ih (sq_nonneg _)
  have hz : Tendsto (fun t => (r ^ 2) ^ t * q 0 ^ 2) atTop (𝓝 0) := by
    have := (tendsto_pow_atTop_nhds_zero_of_lt_one (sq_nonneg r) (by nlinarith)).mul_const (q 0 ^ 2)
    rwa [zero_mul] at this
  have := ge_of_tendsto' hz fun t => (hi t).trans (bound t)
  have : 0 < 2 / b := by positivity
  linarith

/-- beyond `1 + 4/β` the orbit grows geometrically -/
theorem Cubic.up {b : ℝ} (b0 : 0 < b) {q : ℕ → ℝ} (h : Cubic b q) (p1 : 1 + 4 / b < q 0 ^ 2) : Tendsto (fun t => |q t|) atTop atTop := by
  have hb4 : b * (4 / b) = 4 := by field_simp
  set r := b / 2 * (q 0 ^ 2 - 1) - 1 with hr
  have r1 : 1 < r := by nlinarith
  have q0 : 0 < |q 0| := by
    rw [abs_pos]; intro e; rw [e] at p1
    have : 0 < 4 / b := by positivity
    norm_num at p1; linarith
  have key : ∀ t, |q 0| ≤ |q t| ∧ r ^ t * |q 0| ≤ |q t| := by
    intro t
    induction t with
    | zero => simp
    | succ t ih =>
      have le : q 0 ^ 2 ≤ q t ^ 2 := sq_le_sq.2 ih.1
      have f : r ≤ |1 - b / 2 * (q t ^ 2 - 1)| := by
        rw [abs_sub_comm]
        refine le_trans ?_ (le_abs_self _)
        nlinarith
      have s : r * |q t| ≤ |q (t + 1)| := by
        rw [h t, abs_mul, mul_comm]
        exact mul_le_mul_of_nonneg_left f (abs_nonneg _)
      constructor
      · nlinarith [abs_nonneg (q t)]
      · rw [pow_succ, mul_comm (r ^ t), mul_assoc]
        exact (mul_le_mul_of_nonneg_left ih.2 (by linarith)).trans s
  exact tendsto_atTop_mono (fun t => (key t).2) ((tendsto_pow_atTop_atTop_of_one_lt r1).atTop_mul_const q0)

theorem Cubic.two_cycle {b : ℝ} (b0 : 0 < b) {q : ℕ → ℝ} (h : Cubic b q) (p1 : q 0 ^ 2 = 1 + 4 / b) (t : ℕ) : q (t + 1) = - q t := by
  have hs : ∀ t, q t ^ 2 = 1 + 4 / b := by
    intro t
    induction t with
    | zero => exact p1
    | succ t ih =>
      rw [h t, mul_pow, ih]
      have : 1 - b / 2 * (1 + 4 / b - 1) = -1 := by field_simp; ring
      rw [this]; ring
  rw [h t, hs t]
  have : 1 - b / 2 * (1 + 4 / b - 1) = -1 := by field_simp; ring
  rw [this]; ring

/-- orbits that start within `q² ≤ 1 + 4/β` stay there -/
theorem Cubic.bounded {b : ℝ} (b0 : 0 < b) (b1 : b ≤ 1) {q : ℕ → ℝ} (h : Cubic b q) (p1 : q 0 ^ 2 ≤ 1 + 4 / b) : ∀ t, q t ^ 2 ≤ 1 + 4 / b := by
  have hb4 : b * (4 / b) = 4 := by field_simp
  have f4 : 4 ≤ 4 / b := by rw [le_div_iff₀ b0]; linarith
  intro t
  induction t with
  | zero => exact p1
  | succ t ih =>
    rw [h t, mul_pow]
    generalize q t ^ 2 = x at ih ⊢
    rcases le_total x 1 with h1 | h1
    · rcases le_total 0 x with h0 | h0
      · have f0 : 0 ≤ 1 - b / 2 * (x - 1) := by nlinarith
        have f1 : 1 - b / 2 * (x - 1) ≤ 2 := by nlinarith
        have : (1 - b / 2 * (x - 1)) ^ 2 ≤ 4 := by nlinarith
        nlinarith
      · have := mul_nonpos_of_nonpos_of_nonneg h0 (sq_nonneg (1 - b / 2 * (x - 1)))
        linarith
    · have f0 : -1 ≤ 1 - b / 2 * (x - 1) := by nlinarith
      have f1 : 1 - b / 2 * (x - 1) ≤ 1 := by nlinarith
      have : (1 - b / 2 * (x - 1)) ^ 2 ≤ 1 := by nlinarith
      nlinarith

/-! Matrices -/

variable {n : ℕ}

/-- the recursion of the factor -/
def Rec (b : ℝ) (S : Matrix (Fin n) (Fin n) ℝ) (K : ℕ → Matrix (Fin n) (Fin n) ℝ) : Prop :=
  ∀ t, K (t + 1) = K t * (1 - (b / 2) • ((K t)ᵀ * S * K t - 1))

/-- the multiplier along an eigenvector with eigenvalue `y` -/
noncomputable def orbit (b y : ℝ) : ℕ → ℝ
  | 0 => 1
  | t + 1 => orbit b y t * (1 - b / 2 * (y * orbit b y t ^ 2 - 1))

theorem orbit_cubic (b : ℝ) {y : ℝ} (hy : 0 ≤ y) : Cubic b fun t => √y * orbit b y t := fun t => by
  show √y * orbit b y (t + 1) = _
  rw [orbit, mul_pow, Real.sq_sqrt hy]; ring

/-- along an eigenvector of `K₀ᵀSK₀` -/
theorem Rec.eigen {b : ℝ} {S : Matrix (Fin n) (Fin n) ℝ} {K : ℕ → Matrix (Fin n) (Fin n) ℝ} (h : Rec b S K) (hS : Sᵀ = S) {y : ℝ} {v : Fin n → ℝ}
    (hv : ((K 0)ᵀ * S * K 0) *ᵥ v = y • v) (t : ℕ) :
    K t *ᵥ v = orbit b y t • (K 0 *ᵥ v) ∧ ((K t)ᵀ * S * K t) *ᵥ v = (y * orbit b y t ^ 2) • v := by
  induction t with
  | zero => simp [orbit, hv]
  | succ t ih =>
    obtain ⟨i1, i2⟩ := ih
    set Y := (K t)ᵀ * S * K t with hY
    set A := 1 - (b / 2) • (Y - 1) with hA
    have sY : Yᵀ = Y := by rw [hY, transpose_mul, transpose_mul, transpose_transpose, hS, Matrix.mul_assoc]
    have sA : Aᵀ = A := by rw [hA, transpose_sub, transpose_smul, transpose_sub, sY, transpose_one]
    have Av : A *ᵥ v = (1 - b / 2 * (y * orbit b y t ^ 2 - 1)) • v := by
      rw [hA, sub_mulVec, smul_mulVec, sub_mulVec, i2, one_mulVec]
      module
    have eY : (K (t + 1))ᵀ * S * K (t + 1) = A * (Y * A) := by
      rw [h t, ← hY, ← hA, transpose_mul, sA, hY]
      simp only [Matrix.mul_assoc]
    constructor
    · rw [h t, ← hY, ← hA, ← mulVec_mulVec, Av, mulVec_smul, i1, smul_smul, orbit, mul_comm]
    · rw [eY, ← mulVec_mulVec, ← mulVec_mulVec, Av, mulVec_smul, i2, mulVec_smul, mulVec_smul, Av, smul_smul, smul_smul, orbit]
      congr 1; ring

/-- `0 < y < 1 + 2/β`: convergence -/
theorem orbit_tendsto {b y : ℝ} (b0 : 0 < b) (b1 : b ≤ 1) (y0 : 0 < y) (y1 : y < 1 + 2 / b) : Tendsto (orbit b y) atTop (𝓝 (√y)⁻¹) := by
  have s := Real.sqrt_pos.2 y0
  have c := (orbit_cubic b y0.le).pos b0 b1 (by simpa [orbit] using s) (by simpa [orbit, Real.sq_sqrt y0.le] using y1)
  have := c.const_mul (√y)⁻¹
  rw [mul_one] at this
  refine this.congr fun t => ?_
  field_simp

theorem orbit_up {b y : ℝ} (b0 : 0 < b) (y1 : 1 + 4 / b < y) : Tendsto (fun t => |orbit b y t|) atTop atTop := by
  have y0 : 0 < y := lt_trans (by positivity) y1
  have s := Real.sqrt_pos.2 y0
  have c := (orbit_cubic b y0.le).up b0 (by simpa [orbit, Real.sq_sqrt y0.le] using y1)
  have := c.const_mul_atTop (inv_pos.2 s)
  refine this.congr fun t => ?_
  rw [abs_mul, abs_of_pos s]
  field_simp

theorem orbit_hit {b : ℝ} (b0 : 0 < b) (t : ℕ) : orbit b (1 + 2 / b) (t + 1) = 0 := by
  induction t with
  | zero => simp only [orbit]; field_simp; ring
  | succ t ih => rw [orbit, ih, zero_mul]

theorem orbit_cycle {b : ℝ} (b0 : 0 < b) (t : ℕ) : orbit b (1 + 4 / b) t = (-1) ^ t := by
  induction t with
  | zero => rfl
  | succ t ih =>
    rw [orbit, ih, ← pow_mul, mul_comm t 2, pow_mul, neg_one_sq, one_pow, pow_succ]
    field_simp
    ring

/-- `1 + 2/β < y < 1 + 4/β`: the limit is `±1/√y`, or the multiplier is 0 from some time on -/
theorem orbit_mid {b y : ℝ} (b0 : 0 < b) (b1 : b ≤ 1) (y0 : 0 < y) (y1 : y < 1 + 4 / b) :
    (∃ N, ∀ t, N ≤ t → orbit b y t = 0) ∨ Tendsto (orbit b y) atTop (𝓝 (√y)⁻¹) ∨ Tendsto (orbit b y) atTop (𝓝 (-(√y)⁻¹)) := by
  have s := Real.sqrt_pos.2 y0
  have c := orbit_cubic b y0.le
  obtain ⟨N, hN⟩ := c.down b0 (by simpa [orbit, Real.sq_sqrt y0.le] using y1)
  have back : ∀ l, Tendsto (fun t => √y * orbit b y (t + N)) atTop (𝓝 l) → Tendsto (orbit b y) atTop (𝓝 ((√y)⁻¹ * l)) := by
    intro l hl
    refine (tendsto_add_atTop_iff_nat N).1 ((hl.const_mul (√y)⁻¹).congr fun t => ?_)
    field_simp
  rcases hN with h0 | ⟨h0, h1⟩
  · left
    refine ⟨N, fun t ht => ?_⟩
    have := (c.shift N).zero (by simpa using h0) (t - N)
    rw [Nat.sub_add_cancel ht] at this
    exact (mul_eq_zero.1 this).resolve_left s.ne'
  · right
    have hne : √y * orbit b y N ≠ 0 := fun e => by rw [e] at h0; norm_num at h0
    rcases lt_or_gt_of_ne hne with hn | hp
    · right
      have T := (c.shift N).neg.pos b0 b1 (by simpa using hn) (by simpa using h1)
      have T2 := T.neg
      simp only [neg_neg] at T2
      have := back _ T2
      simpa using this
    · left
      have T := (c.shift N).pos b0 b1 (by simpa using hp) (by simpa using h1)
      simpa using back _ T

/-- an orthonormal basis of eigenvectors -/
theorem eigenbasis {Y : Matrix (Fin n) (Fin n) ℝ} (h : Y.IsHermitian) : ∃ (Q : Matrix (Fin n) (Fin n) ℝ) (d : Fin n → ℝ), Qᵀ * Q = 1 ∧
    ∀ j, Y *ᵥ (fun i => Q i j) = d j • fun i => Q i j := by
  refine ⟨Matrix.of fun i j => h.eigenvectorBasis j i, h.eigenvalues, ?_, fun j => h.mulVec_eigenvectorBasis j⟩
  have := Unitary.coe_star_mul_self h.eigenvectorUnitary
  rw [star_eq_conjTranspose, conjTranspose_eq_transpose_of_trivial] at this
  exact this

theorem dot_pos {v : Fin n → ℝ} (h : v ≠ 0) : 0 < v ⬝ᵥ v := by
  rcases (Finset.sum_nonneg fun i _ => mul_self_nonneg (v i)).lt_or_eq with p | p
  · exact p
  · exact absurd (dotProduct_self_eq_zero.1 p.symm) h

theorem orbit_bounded {b y : ℝ} (b0 : 0 < b) (b1 : b ≤ 1) (y0 : 0 < y) (y1 : y ≤ 1 + 4 / b) : ∃ B, ∀ t, |orbit b y t| ≤ B := by
  have s := Real.sqrt_pos.2 y0
  have c := (orbit_cubic b y0.le).bounded b0 b1 (by simpa [orbit, Real.sq_sqrt y0.le] using y1)
  refine ⟨(1 + 4 / b) / y + 1, fun t => ?_⟩
  have := c t
  rw [mul_pow, Real.sq_sqrt y0.le] at this
  have h2 : orbit b y t ^ 2 ≤ (1 + 4 / b) / y := by rw [le_div_iff₀ y0]; linarith
  have h3 := sq_abs (orbit b y t)
  nlinarith [abs_nonneg (orbit b y t), sq_nonneg (|orbit b y t| - 1)]

/-- directions that the data never show, without damping -/
theorem orbit_zero (b : ℝ) (t : ℕ) : orbit b 0 t = (1 + b / 2) ^ t := by
  induction t with
  | zero => rfl
  | succ t ih => rw [orbit, ih, pow_succ]; ring

/-- the factors in an eigenbasis of `K₀ᵀSK₀` -/
theorem Rec.form {b : ℝ} {S : Matrix (Fin n) (Fin n) ℝ} {K : ℕ → Matrix (Fin n) (Fin n) ℝ} (h : Rec b S K) (hS : S.PosDef) (hK : IsUnit (K 0).det) :
    ∃ (Q : Matrix (Fin n) (Fin n) ℝ) (d : Fin n → ℝ), Qᵀ * Q = 1 ∧ (∀ j, 0 < d j) ∧ (∀ j, ((K 0)ᵀ * S * K 0) *ᵥ (fun i => Q i j) = d j • fun i => Q i j) ∧
      (∀ j, (fun i => Q i j) ≠ 0) ∧ ∀ t, K t = K 0 * Q * diagonal (fun j => orbit b (d j) t) * Qᵀ := by
  set Y := (K 0)ᵀ * S * K 0 with hY
  have sS : Sᵀ = S := by have := hS.isHermitian; rwa [IsHermitian, conjTranspose_eq_transpose_of_trivial] at this
  have pY : Y.PosDef := by
    have := hS.conjTranspose_mul_mul_same (B := K 0) (mulVec_injective_iff_isUnit.2 ((isUnit_iff_isUnit_det _).2 hK))
    rwa [conjTranspose_eq_transpose_of_trivial] at this
  obtain ⟨Q, d, QQ, col⟩ := eigenbasis pY.isHermitian
  have QQ' : Q * Qᵀ = 1 := mul_eq_one_comm.1 QQ
  have nz : ∀ j, (fun i => Q i j) ≠ 0 := by
    intro j e
    have := congrFun (congrFun QQ j) j
    rw [Matrix.mul_apply, one_apply_eq] at this
    simp only [transpose_apply, congrFun e] at this
    simp at this
  refine ⟨Q, d, QQ, fun j => ?_, col, nz, fun t => ?_⟩
  · have := pY.dotProduct_mulVec_pos (nz j)
    rw [col, star_trivial, dotProduct_smul, smul_eq_mul] at this
    exact (pos_iff_pos_of_mul_pos this).2 (dot_pos (nz j))
  · have : K t * Q = K 0 * Q * diagonal fun j => orbit b (d j) t := by
      ext i j
      have := congrFun (h.eigen sS (col j) t).1 i
      rw [mul_diagonal, Matrix.mul_apply, Matrix.mul_apply]
      simp only [mulVec, dotProduct, Pi.smul_apply, smul_eq_mul] at this
      rw [this, mul_comm]
    rw [← this, Matrix.mul_assoc, QQ', Matrix.mul_one]

/-- all eigenvalues of `K₀ᵀSK₀` in `(0, 1 + 2/β)`: `K Kᵀ` converges to the inverse of `S` -/
theorem Rec.tendsto {b : ℝ} {S : Matrix (Fin n) (Fin n) ℝ} {K : ℕ → Matrix (Fin n) (Fin n) ℝ} (h : Rec b S K) (b0 : 0 < b) (b1 : b ≤ 1) (hS : S.PosDef)
    (hK : IsUnit (K 0).det) (hy : ((1 + 2 / b) • (1 : Matrix (Fin n) (Fin n) ℝ) - (K 0)ᵀ * S * K 0).PosDef) :
    ∃ L, Tendsto K atTop (𝓝 L) ∧ L * Lᵀ = S⁻¹ := by
  obtain ⟨Q, d, QQ, d0, col, nz, form⟩ := h.form hS hK
  have QQ' : Q * Qᵀ = 1 := mul_eq_one_comm.1 QQ
  set Y := (K 0)ᵀ * S * K 0 with hY
  have d1 : ∀ j, d j < 1 + 2 / b := by
    intro j
    have := hy.dotProduct_mulVec_pos (nz j)
    rw [sub_mulVec, smul_mulVec, one_mulVec, col, ← sub_smul, star_trivial, dotProduct_smul, smul_eq_mul] at this
    linarith [(pos_iff_pos_of_mul_pos this).2 (dot_pos (nz j))]
  refine ⟨K 0 * Q * diagonal (fun j => (√(d j))⁻¹) * Qᵀ, ?_, ?_⟩
  · have c : Continuous fun e : Fin n → ℝ => K 0 * Q * diagonal e * Qᵀ := by fun_prop
    have l : Tendsto (fun t j => orbit b (d j) t) atTop (𝓝 fun j => (√(d j))⁻¹) := tendsto_pi_nhds.2 fun j => orbit_tendsto b0 b1 (d0 j) (d1 j)
    exact ((c.tendsto _).comp l).congr fun t => (form t).symm
  · set D : Matrix (Fin n) (Fin n) ℝ := diagonal fun j => (√(d j))⁻¹ with hD
    have YQ : Y * Q = Q * diagonal d := by
      ext i j
      have := congrFun (col j) i
      rw [mul_diagonal, Matrix.mul_apply]
      simp only [mulVec, dotProduct, Pi.smul_apply, smul_eq_mul] at this
      rw [this, mul_comm]
    have DdD : D * diagonal d * D = 1 := by
      rw [hD, diagonal_mul_diagonal, diagonal_mul_diagonal, ← diagonal_one]
      congr 1
      funext j
      have := (Real.sqrt_pos.2 (d0 j)).ne'
      field_simp
      exact (Real.sq_sqrt (d0 j).le).symm
    have one : (K 0 * Q * D * Qᵀ)ᵀ * S * (K 0 * Q * D * Qᵀ) = 1 := by
      have tD : Dᵀ = D := diagonal_transpose _
      calc _ = Q * D * (Qᵀ * (Y * Q)) * D * Qᵀ := by
            rw [hY]
            simp only [transpose_mul, transpose_transpose, tD, Matrix.mul_assoc]
        _ = Q * (D * diagonal d * D) * Qᵀ := by
            rw [YQ, ← Matrix.mul_assoc Qᵀ, QQ, Matrix.one_mul]
            simp only [Matrix.mul_assoc]
        _ = 1 := by rw [DdD, Matrix.mul_one, QQ']
    have := mul_eq_one_comm.1 one
    rw [← Matrix.mul_assoc] at this
    exact (inv_eq_left_inv this).symm

/-- along an eigenvector with an eigenvalue beyond `1 + 4/β` the factor grows without bound -/
theorem Rec.diverges {b : ℝ} {S : Matrix (Fin n) (Fin n) ℝ} {K : ℕ → Matrix (Fin n) (Fin n) ℝ} (h : Rec b S K) (b0 : 0 < b) (hS : Sᵀ = S) {y : ℝ} {v : Fin n → ℝ}
    (hv : ((K 0)ᵀ * S * K 0) *ᵥ v = y • v) (v0 : v ≠ 0) (hy : 1 + 4 / b < y) : Tendsto (fun t => ∑ i, ∑ j, K t i j ^ 2) atTop atTop := by
  have y0 : 0 < y := lt_trans (by positivity) hy
  have k0 : K 0 *ᵥ v ≠ 0 := by
    intro e
    rw [← mulVec_mulVec, e, mulVec_zero] at hv
    exact v0 ((smul_eq_zero.1 hv.symm).resolve_left y0.ne')
  have c0 := dot_pos k0
  have w0 := dot_pos v0
  have key : ∀ t, (K 0 *ᵥ v ⬝ᵥ K 0 *ᵥ v) / (v ⬝ᵥ v) * (|orbit b y t| * |orbit b y t|) ≤ ∑ i, ∑ j, K t i j ^ 2 := by
    intro t
    have e := (h.eigen hS hv t).1
    have : orbit b y t ^ 2 * (K 0 *ᵥ v ⬝ᵥ K 0 *ᵥ v) ≤ (∑ i, ∑ j, K t i j ^ 2) * (v ⬝ᵥ v) := by
      calc orbit b y t ^ 2 * (K 0 *ᵥ v ⬝ᵥ K 0 *ᵥ v) = K t *ᵥ v ⬝ᵥ K t *ᵥ v := by
            rw [e, smul_dotProduct, dotProduct_smul, smul_eq_mul, smul_eq_mul]; ring
        _ = ∑ i, (∑ j, K t i j * v j) ^ 2 := by
            simp only [mulVec, dotProduct, pow_two]
        _ ≤ ∑ i, (∑ j, K t i j ^ 2) * ∑ j, v j ^ 2 := Finset.sum_le_sum fun i _ => Finset.sum_mul_sq_le_sq_mul_sq _ _ _
        _ = _ := by rw [← Finset.sum_mul]; simp only [dotProduct, pow_two]
    rw [abs_mul_abs_self, div_mul_eq_mul_div, div_le_iff₀ w0]
    linarith
  have T := orbit_up b0 hy
  exact tendsto_atTop_mono key ((T.atTop_mul_atTop₀ T).const_mul_atTop (div_pos c0 w0))

/-- exact condition for the factors to stay bounded -/
theorem Rec.bounded_iff {b : ℝ} {S : Matrix (Fin n) (Fin n) ℝ} {K : ℕ → Matrix (Fin n) (Fin n) ℝ} (h : Rec b S K) (b0 : 0 < b) (b1 : b ≤ 1) (hS : S.PosDef)
    (hK : IsUnit (K 0).det) : (∃ B, ∀ t i j, |K t i j| ≤ B) ↔ ∀ x, x ⬝ᵥ ((K 0)ᵀ * S * K 0) *ᵥ x ≤ (1 + 4 / b) * (x ⬝ᵥ x) := by
  obtain ⟨Q, d, QQ, d0, col, nz, form⟩ := h.form hS hK
  have QQ' : Q * Qᵀ = 1 := mul_eq_one_comm.1 QQ
  have sS : Sᵀ = S := by have := hS.isHermitian; rwa [IsHermitian, conjTranspose_eq_transpose_of_trivial] at this
  constructor
  · rintro ⟨B, hB⟩
    have d1 : ∀ j, d j ≤ 1 + 4 / b := by
      intro j
      by_contra hc
      have T := h.diverges b0 sS (col j) (nz j) (not_le.1 hc)
      obtain ⟨t, ht⟩ := (tendsto_atTop.1 T (∑ i : Fin n, ∑ j : Fin n, B ^ 2 + 1)).exists
      have : ∑ i, ∑ j, K t i j ^ 2 ≤ ∑ i : Fin n, ∑ j : Fin n, B ^ 2 := Finset.sum_le_sum fun i _ => Finset.sum_le_sum fun j _ => by
        rw [← sq_abs]
        exact pow_le_pow_left₀ (abs_nonneg _) (hB t i j) 2
      linarith
    intro x
    have YQ : ((K 0)ᵀ * S * K 0) * Q = Q * diagonal d := by
      ext i j
      have := congrFun (col j) i
      rw [mul_diagonal, Matrix.mul_apply]
      simp only [mulVec, dotProduct, Pi.smul_apply, smul_eq_mul] at this
      rw [this, mul_comm]
    have ex : x = Q *ᵥ (Qᵀ *ᵥ x) := by rw [mulVec_mulVec, QQ', one_mulVec]
    set z := Qᵀ *ᵥ x with hz
    have e1 : x ⬝ᵥ x = z ⬝ᵥ z := by
      conv_lhs => rw [ex]
      rw [dotProduct_mulVec, vecMul_mulVec, QQ, ← mulVec_transpose, transpose_one, one_mulVec]
    have e2 : x ⬝ᵥ ((K 0)ᵀ * S * K 0) *ᵥ x = z ⬝ᵥ diagonal d *ᵥ z := by
      have : x ⬝ᵥ ((K 0)ᵀ * S * K 0) *ᵥ (Q *ᵥ z) = x ⬝ᵥ Q *ᵥ (diagonal d *ᵥ z) := by rw [mulVec_mulVec, YQ, ← mulVec_mulVec]
      rw [← ex] at this
      rw [this, dotProduct_mulVec, ← mulVec_transpose, ← hz]
    rw [e1, e2]
    simp only [dotProduct, mulVec_diagonal]
    rw [Finset.mul_sum]
    exact Finset.sum_le_sum fun j _ => by nlinarith [mul_self_nonneg (z j), d1 j, mul_nonneg (sub_nonneg.2 (d1 j)) (mul_self_nonneg (z j))]
  · intro hx
    have d1 : ∀ j, d j ≤ 1 + 4 / b := by
      intro j
      have := hx fun i => Q i j
      rw [col, dotProduct_smul, smul_eq_mul] at this
      exact le_of_mul_le_mul_right this (dot_pos (nz j))
    choose B hB using fun j => orbit_bounded b0 b1 (d0 j) (d1 j)
    refine ⟨∑ i, ∑ k, ∑ j, |(K 0 * Q) i j| * B j * |Qᵀ j k|, fun t i k => ?_⟩
    have nn : ∀ i k j, 0 ≤ |(K 0 * Q) i j| * B j * |Qᵀ j k| := fun i k j =>
      mul_nonneg (mul_nonneg (abs_nonneg _) ((abs_nonneg _).trans (hB j 0))) (abs_nonneg _)
    calc |K t i k| ≤ ∑ j, |(K 0 * Q) i j| * B j * |Qᵀ j k| := by
          rw [form t, Matrix.mul_apply]
          refine (Finset.abs_sum_le_sum_abs _ _).trans (Finset.sum_le_sum fun j _ => ?_)
          rw [mul_diagonal, abs_mul, abs_mul]
          exact mul_le_mul_of_nonneg_right (mul_le_mul_of_nonneg_left (hB j t) (abs_nonneg _)) (abs_nonneg _)
      _ ≤ ∑ k, ∑ j, |(K 0 * Q) i j| * B j * |Qᵀ j k| :=
          Finset.single_le_sum (f := fun k => ∑ j, |(K 0 * Q) i j| * B j * |Qᵀ j k|) (fun k _ => Finset.sum_nonneg fun j _ => nn i k j) (Finset.mem_univ k)
      _ ≤ _ := Finset.single_le_sum (f := fun i => ∑ k, ∑ j, |(K 0 * Q) i j| * B j * |Qᵀ j k|)
          (fun i _ => Finset.sum_nonneg fun k _ => Finset.sum_nonneg fun j _ => nn i k j) (Finset.mem_univ i)

/-- the sequence of factors -/
noncomputable def seq (b : ℝ) (S K : Matrix (Fin n) (Fin n) ℝ) : ℕ → Matrix (Fin n) (Fin n) ℝ
  | 0 => K
  | t + 1 => seq b S K t * (1 - (b / 2) • ((seq b S K t)ᵀ * S * seq b S K t - 1))

theorem seq_rec (b : ℝ) (S K : Matrix (Fin n) (Fin n) ℝ) : Rec b S (seq b S K) := fun _ => rfl

end Verif.FixedData
