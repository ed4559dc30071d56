import Verif.Proofs.Coupled
import Mathlib.Analysis.Matrix.Normed

/-! Descent of the divergence of two Kronecker factors along projected directions. -/

open Matrix

namespace Coupled

variable {n d : ℕ}

/-! ### The Frobenius norm -/

/-- the Frobenius norm -/
noncomputable def nrm (N : Matrix (Fin n) (Fin n) ℝ) : ℝ := √(sqs N)

theorem sqs_eq_sum (N : Matrix (Fin n) (Fin n) ℝ) : sqs N = ∑ i, ∑ j, N i j ^ 2 := by
  simp only [sqs, Matrix.trace, diag_apply, Matrix.mul_apply, transpose_apply, sq]

section
attribute [local instance] Matrix.frobeniusNormedAddCommGroup Matrix.frobeniusNormedSpace

theorem nrm_eq (N : Matrix (Fin n) (Fin n) ℝ) : nrm N = ‖N‖ := by
  rw [nrm, frobenius_norm_def, Real.sqrt_eq_rpow, sqs_eq_sum]
  simp

theorem nrm_add (A B : Matrix (Fin n) (Fin n) ℝ) : nrm (A + B) ≤ nrm A + nrm B := by
  simp only [nrm_eq]; exact norm_add_le _ _
theorem nrm_mul (A B : Matrix (Fin n) (Fin n) ℝ) : nrm (A * B) ≤ nrm A * nrm B := by
  simp only [nrm_eq]; exact frobenius_norm_mul _ _
theorem nrm_transpose (A : Matrix (Fin n) (Fin n) ℝ) : nrm Aᵀ = nrm A := by
  simp only [nrm_eq]; exact frobenius_norm_transpose _
theorem nrm_smul (s : ℝ) (A : Matrix (Fin n) (Fin n) ℝ) : nrm (s • A) = |s| * nrm A := by
  simp only [nrm_eq]; exact norm_smul _ _
theorem nrm_nonneg (A : Matrix (Fin n) (Fin n) ℝ) : 0 ≤ nrm A := Real.sqrt_nonneg _
theorem nrm_sq (A : Matrix (Fin n) (Fin n) ℝ) : nrm A ^ 2 = sqs A := Real.sq_sqrt (sqs_nonneg A)

end

theorem abs_trace_mul (A B : Matrix (Fin n) (Fin n) ℝ) : |(A * B).trace| ≤ nrm A * nrm B := by
  have h : (A * B).trace ^ 2 ≤ sqs A * sqs B := by
    have e1 : (A * B).trace = ∑ p : Fin n × Fin n, A p.1 p.2 * B p.2 p.1 := by
      rw [Fintype.sum_prod_type]; rfl
    have e2 : sqs A = ∑ p : Fin n × Fin n, A p.1 p.2 ^ 2 := by rw [Fintype.sum_prod_type, sqs_eq_sum]
    have e3 : sqs B = ∑ p : Fin n × Fin n, B p.2 p.1 ^ 2 := by rw [Fintype.sum_prod_type, sqs_eq_sum, Finset.sum_comm]
    rw [e1, e2, e3]
    exact Finset.sum_mul_sq_le_sq_mul_sq _ _ _
  rw [nrm, nrm, ← Real.sqrt_mul (sqs_nonneg A)]
  exact Real.abs_le_sqrt h

/-- the Frobenius norm of a positive semidefinite matrix is at most its trace -/
theorem nrm_le_trace {A : Matrix (Fin n) (Fin n) ℝ} (h : A.PosSemidef) : nrm A ≤ A.trace := by
  have hs : Aᵀ = A := by have := h.isHermitian; rwa [IsHermitian, conjTranspose_eq_transpose_of_trivial] at this
  obtain ⟨V, ν, v1, v2, e⟩ := spectral hs
  have ν0 : ∀ i, 0 ≤ ν i := fun i => by
    have := psd_mode (V := V) h i
    have e2 : Vᵀ * (V * diagonal ν * Vᵀ) * V = (Vᵀ * V) * diagonal ν * (Vᵀ * V) := by simp only [Matrix.mul_assoc]
    rwa [e, e2, v1, Matrix.one_mul, Matrix.mul_one, diagonal_apply_eq] at this
  have ht : A.trace = ∑ i, ν i := by
    rw [e, Matrix.trace_mul_comm, ← Matrix.mul_assoc, v1, Matrix.one_mul, trace_diagonal]
  have hq : sqs A = ∑ i, ν i ^ 2 := by rw [e]; exact sqs_modes v1 ν
  rw [nrm, hq, ht]
  exact Real.sqrt_le_iff.2 ⟨Finset.sum_nonneg fun i _ => ν0 i, Finset.sum_sq_le_sq_sum_of_nonneg fun i _ => ν0 i⟩

/-! ### The change of the determinant -/

theorem log_one_add {x : ℝ} (h : -(1 / 3) ≤ x) : x - 3 / 2 * x ^ 2 ≤ Real.log (1 + x) := by
  have p : 0 < 1 + x := by linarith
  refine le_trans ?_ (Real.one_sub_inv_le_log_of_pos p)
  rw [le_sub_iff_add_le, ← le_sub_iff_add_le', inv_le_comm₀ p (by nlinarith [sq_nonneg (x - 1 / 3)]), inv_le_iff_one_le_mul₀ (by nlinarith [sq_nonneg (x - 1 / 3)])]
  nlinarith [sq_nonneg x, mul_nonneg (sq_nonneg x) (show (0 : ℝ) ≤ 1 / 3 + x by linarith)]

/-- `log det (1 + M)` for a small symmetric `M` -/
theorem log_det_one_add {M : Matrix (Fin n) (Fin n) ℝ} (hM : Mᵀ = M) (h : nrm M ≤ 1 / 3) :
    0 < (1 + M).det ∧ M.trace - 3 / 2 * sqs M ≤ Real.log (1 + M).det := by
  obtain ⟨V, ν, v1, v2, e⟩ := spectral hM
  have hq : sqs M = ∑ i, ν i ^ 2 := by rw [e]; exact sqs_modes v1 ν
  have ht : M.trace = ∑ i, ν i := by
    rw [e, Matrix.trace_mul_comm, ← Matrix.mul_assoc, v1, Matrix.one_mul, trace_diagonal]
  have hν : ∀ i, -(1 / 3) ≤ ν i := fun i => by
    have h1 : ν i ^ 2 ≤ nrm M ^ 2 := by
      rw [nrm_sq, hq]; exact Finset.single_le_sum (fun j _ => sq_nonneg (ν j)) (Finset.mem_univ i)
    exact (abs_le.1 ((sq_le_sq.1 h1).trans (by rw [abs_of_nonneg (nrm_nonneg M)]; exact h))).1
  have hd : (1 + M).det = ∏ i, (1 + ν i) := by
    have : 1 + M = V * diagonal (fun i => 1 - (-1) * ν i) * Vᵀ := by
      rw [← one_sub_modes v2, ← e]; simp
    rw [this, det_modes v2]
    simp
  have p : ∀ i, 0 < 1 + ν i := fun i => by linarith [hν i]
  refine ⟨by rw [hd]; exact Finset.prod_pos fun i _ => p i, ?_⟩
  rw [hd, Real.log_prod fun i _ => (p i).ne', ht, hq, Finset.mul_sum, ← Finset.sum_sub_distrib]
  exact Finset.sum_le_sum fun i _ => log_one_add (hν i)

/-! ### One factor -/

/-- `L Lᵀ − 1` for `L = 1 − ε X` -/
def change (ε : ℝ) (X : Matrix (Fin n) (Fin n) ℝ) : Matrix (Fin n) (Fin n) ℝ := (1 - ε • X) * (1 - ε • X)ᵀ - 1

theorem change_eq (ε : ℝ) (X : Matrix (Fin n) (Fin n) ℝ) : change ε X = (-ε) • (X + Xᵀ) + ε ^ 2 • (X * Xᵀ) := by
  rw [change, transpose_sub, transpose_one, transpose_smul, Matrix.sub_mul, Matrix.one_mul, Matrix.mul_sub, Matrix.mul_one, Matrix.smul_mul, Matrix.mul_smul, smul_smul, ← sq,
    smul_add, neg_smul, neg_smul]
  abel

theorem change_symm (ε : ℝ) (X : Matrix (Fin n) (Fin n) ℝ) : (change ε X)ᵀ = change ε X := by
  rw [change, transpose_sub, transpose_mul, transpose_transpose, transpose_one]

theorem change_nrm {ε : ℝ} (e0 : 0 ≤ ε) (X : Matrix (Fin n) (Fin n) ℝ) : nrm (change ε X) ≤ ε * nrm X * (2 + ε * nrm X) := by
  rw [change_eq]
  refine (nrm_add _ _).trans ?_
  rw [nrm_smul, nrm_smul, abs_neg, abs_of_nonneg e0, abs_of_nonneg (sq_nonneg ε)]
  have h1 := nrm_add X Xᵀ
  have h2 := nrm_mul X Xᵀ
  rw [nrm_transpose] at h1 h2
  have h3 := mul_le_mul_of_nonneg_left h1 e0
  have h4 := mul_le_mul_of_nonneg_left h2 (sq_nonneg ε)
  linarith

theorem change_trace (ε : ℝ) (X A : Matrix (Fin n) (Fin n) ℝ) (hA : Aᵀ = A) :
    (change ε X * A).trace = -2 * ε * (A * X).trace + ε ^ 2 * (X * Xᵀ * A).trace := by
  have h : (Xᵀ * A).trace = (A * X).trace := by rw [← Matrix.trace_transpose (A * X), transpose_mul, hA]
  rw [change_eq, Matrix.add_mul, Matrix.smul_mul, Matrix.smul_mul, Matrix.add_mul, trace_add, trace_smul, trace_smul, trace_add, h, Matrix.trace_mul_comm X]
  simp only [smul_eq_mul]
  ring

/-- what a direction `X` and a rate `ε` have to satisfy for a curvature `H` -/
structure Good (H X : Matrix (Fin n) (Fin n) ℝ) (ε : ℝ) : Prop where
  nonneg : 0 ≤ ε
  dir : sqs X ≤ 2 * ((H - 1) * X).trace
  small : 8 * (ε * nrm X) ≤ 1
  rate : ε * (15 + 7 * H.trace) ≤ 1

/-- the part of the objective that belongs to one factor -/
theorem Good.one {H X : Matrix (Fin n) (Fin n) ℝ} {ε : ℝ} (g : Good H X ε) (hH : H.PosSemidef) {δ : ℝ} (hδ : δ = ε * nrm X * (2 + ε * nrm X)) :
    0 < (1 + change ε X).det ∧ (change ε X * H).trace - Real.log (1 + change ε X).det + 1 / 2 * δ ^ 2 * H.trace ≤ -(ε / 2 * sqs X) := by
  have hs : Hᵀ = H := by have := hH.isHermitian; rwa [IsHermitian, conjTranspose_eq_transpose_of_trivial] at this
  have e0 := g.nonneg
  have x0 := nrm_nonneg X
  have ex0 := mul_nonneg e0 x0
  have sm := g.small
  have cn := change_nrm e0 X
  rw [← hδ] at cn
  have d1 : δ ≤ 1 / 3 := by rw [hδ]; nlinarith
  have d0 : 0 ≤ δ := (nrm_nonneg _).trans cn
  have d2 : δ ^ 2 ≤ 5 * (ε ^ 2 * sqs X) := by
    rw [hδ, mul_pow, mul_pow, nrm_sq]
    have : (2 + ε * nrm X) ^ 2 ≤ 5 := by nlinarith
    have := mul_le_mul_of_nonneg_left this (mul_nonneg (sq_nonneg ε) (sqs_nonneg X))
    linarith
  obtain ⟨p, hl⟩ := log_det_one_add (change_symm ε X) (cn.trans d1)
  refine ⟨p, ?_⟩
  have hq : sqs (change ε X) ≤ δ ^ 2 := by
    rw [← nrm_sq]; exact pow_le_pow_left₀ (nrm_nonneg _) cn 2
  have t0 := hH.trace_nonneg
  have ht : (change ε X).trace = -2 * ε * X.trace + ε ^ 2 * sqs X := by
    have := change_trace ε X 1 transpose_one
    rwa [Matrix.mul_one, Matrix.one_mul, Matrix.mul_one] at this
  have hT : (X * Xᵀ * H).trace ≤ sqs X * H.trace := by
    refine (le_abs_self _).trans ((abs_trace_mul _ _).trans ?_)
    have h1 := nrm_mul X Xᵀ
    rw [nrm_transpose, ← sq, nrm_sq] at h1
    exact mul_le_mul h1 (nrm_le_trace hH) (nrm_nonneg _) (sqs_nonneg X)
  have hT' := mul_le_mul_of_nonneg_left hT (sq_nonneg ε)
  have hd := g.dir
  rw [Matrix.sub_mul, Matrix.one_mul, trace_sub] at hd
  rw [change_trace ε X H hs]
  have q0 := sqs_nonneg X
  have r := mul_le_mul_of_nonneg_left g.rate (mul_nonneg e0 q0)
  have hd' := mul_le_mul_of_nonneg_left hd e0
  have d3 := mul_le_mul_of_nonneg_right d2 t0
  have z := mul_nonneg (sq_nonneg ε) q0
  nlinarith

/-! ### Both factors -/

theorem curv_trace_mul (l : ℝ) (U K M : Matrix (Fin n) (Fin n) ℝ) (d0 : 0 < d) (G C : Matrix (Fin d) (Fin d) ℝ) :
    d * (M * curv l U K G C).trace = (M * (Kᵀ * U * K)).trace * (Cᵀ * G * C).trace + l * ((M * (Kᵀ * K)).trace * (Cᵀ * C).trace) := by
  have d0' : (d : ℝ) ≠ 0 := by exact_mod_cast d0.ne'
  simp only [curv, avgTr, Matrix.mul_add, Matrix.mul_smul, trace_add, trace_smul, smul_eq_mul]
  field_simp

/-- One update with good rates decreases the objective. -/
theorem good_descent (n0 : 0 < n) (d0 : 0 < d) {l : ℝ} (l0 : 0 ≤ l) {U K X : Matrix (Fin n) (Fin n) ℝ} {G C Y : Matrix (Fin d) (Fin d) ℝ} (hU : U.PosSemidef)
    (hG : G.PosSemidef) (hK : K.det ≠ 0) (hC : C.det ≠ 0) {ε ε' : ℝ} (gK : Good (curv l U K G C) X ε) (gC : Good (curv l G C U K) Y ε') :
    (1 - ε • X).det ≠ 0 ∧ (1 - ε' • Y).det ≠ 0 ∧
    objective l U (K * (1 - ε • X)) G (C * (1 - ε' • Y)) + d * (ε / 2 * sqs X) + n * (ε' / 2 * sqs Y) ≤ objective l U K G C := by
  have pH := curv_psd l0 hU hG K C
  have pH' := curv_psd l0 hG hU C K
  obtain ⟨pX, oX⟩ := gK.one pH rfl
  obtain ⟨pY, oY⟩ := gC.one pH' rfl
  have cX := change_nrm gK.nonneg X
  have cY := change_nrm gC.nonneg Y
  have dsq : ∀ {k : ℕ} (e : ℝ) (Z : Matrix (Fin k) (Fin k) ℝ), (1 + change e Z) = (1 - e • Z) * (1 - e • Z)ᵀ := fun e Z => by rw [change]; abel
  have det2 : ∀ {k : ℕ} (e : ℝ) (Z : Matrix (Fin k) (Fin k) ℝ), (1 + change e Z).det = (1 - e • Z).det ^ 2 := fun e Z => by
    rw [dsq, det_mul, det_transpose, sq]
  have nX : (1 - ε • X).det ≠ 0 := fun h => by rw [det2, h] at pX; simp at pX
  have nY : (1 - ε' • Y).det ≠ 0 := fun h => by rw [det2, h] at pY; simp at pY
  refine ⟨nX, nY, ?_⟩
  rw [objective_step hK hC nX nY, ← dsq, ← dsq, ← det2, ← det2]
  have sp : ∀ {k : ℕ} (M A : Matrix (Fin k) (Fin k) ℝ), ((1 + M) * A).trace = A.trace + (M * A).trace := fun M A => by
    rw [Matrix.add_mul, Matrix.one_mul, trace_add]
  rw [sp, sp, sp, sp]
  generalize eM : change ε X = M at *
  generalize eN : change ε' Y = N at *
  generalize eδ : ε * nrm X * (2 + ε * nrm X) = δ at *
  generalize eη : ε' * nrm Y * (2 + ε' * nrm Y) = η at *
  have δ0 : 0 ≤ δ := (nrm_nonneg _).trans cX
  have η0 : 0 ≤ η := (nrm_nonneg _).trans cY
  have bd : ∀ {k : ℕ} {M A : Matrix (Fin k) (Fin k) ℝ} {x : ℝ}, nrm M ≤ x → A.PosSemidef → |(M * A).trace| ≤ x * A.trace := fun h p =>
    (abs_trace_mul _ _).trans (mul_le_mul h (nrm_le_trace p) (nrm_nonneg _) ((nrm_nonneg _).trans h))
  have a1 := bd cX (psd_sandwich hU K)
  have a2 := bd cX (psd_gram K)
  have b1 := bd cY (psd_sandwich hG C)
  have b2 := bd cY (psd_gram C)
  have tA := traces_nonneg (K := K) hU
  have tB := traces_nonneg (K := C) hG
  have tA' := (psd_gram K).trace_nonneg
  have tB' := (psd_gram C).trace_nonneg
  have cr1 : (M * (Kᵀ * U * K)).trace * (N * (Cᵀ * G * C)).trace ≤ δ * η * ((Kᵀ * U * K).trace * (Cᵀ * G * C).trace) := by
    refine (le_abs_self _).trans ?_
    rw [abs_mul]
    refine (mul_le_mul a1 b1 (abs_nonneg _) (mul_nonneg δ0 tA)).trans (le_of_eq (by ring))
  have cr2 : (M * (Kᵀ * K)).trace * (N * (Cᵀ * C)).trace ≤ δ * η * ((Kᵀ * K).trace * (Cᵀ * C).trace) := by
    refine (le_abs_self _).trans ?_
    rw [abs_mul]
    refine (mul_le_mul a2 b2 (abs_nonneg _) (mul_nonneg δ0 tA')).trans (le_of_eq (by ring))
  have cr2' := mul_le_mul_of_nonneg_left cr2 l0
  obtain ⟨t1, t2⟩ := trace_curv l U K G C
  have n0' : (0 : ℝ) < n := by exact_mod_cast n0
  have d0' : (0 : ℝ) < d := by exact_mod_cast d0
  have T1 : d * (curv l U K G C).trace = traces l U K G C := by rw [t1]; field_simp
  have T2 : n * (curv l G C U K).trace = traces l U K G C := by rw [t2]; field_simp
  have T0 : 0 ≤ traces l U K G C := by rw [← T1]; exact mul_nonneg d0'.le pH.trace_nonneg
  have am : δ * η * traces l U K G C ≤ (1 / 2 * δ ^ 2 + 1 / 2 * η ^ 2) * traces l U K G C :=
    mul_le_mul_of_nonneg_right (by nlinarith [sq_nonneg (δ - η)]) T0
  have oX' := mul_le_mul_of_nonneg_left oX d0'.le
  have oY' := mul_le_mul_of_nonneg_left oY n0'.le
  have m1 := curv_trace_mul l U K M d0 G C
  have m2 := curv_trace_mul l G C N n0 U K
  have f1 : d * (1 / 2 * δ ^ 2 * (curv l U K G C).trace) = 1 / 2 * δ ^ 2 * traces l U K G C := by rw [← T1]; ring
  have f2 : n * (1 / 2 * η ^ 2 * (curv l G C U K).trace) = 1 / 2 * η ^ 2 * traces l U K G C := by rw [← T2]; ring
  have eT : traces l U K G C = (Kᵀ * U * K).trace * (Cᵀ * G * C).trace + l * ((Kᵀ * K).trace * (Cᵀ * C).trace) := rfl
  rw [objective]
  rw [eT] at am f1 f2
  rw [mul_add, mul_sub] at oX' oY'
  linarith

/-! ### Limit points -/

open Filter Topology

/-- where the objective is bounded, suitably rescaled factors have a convergent subsequence with invertible limits -/
theorem rescaled_sub (n0 : 0 < n) (d0 : 0 < d) {l : ℝ} (l0 : 0 < l) {U : Matrix (Fin n) (Fin n) ℝ} {G : Matrix (Fin d) (Fin d) ℝ} (hU : U.PosSemidef) (hG : G.PosSemidef)
    {K : ℕ → Matrix (Fin n) (Fin n) ℝ} {C : ℕ → Matrix (Fin d) (Fin d) ℝ} (hd : ∀ t, (K t).det ≠ 0 ∧ (C t).det ≠ 0) {f0 : ℝ}
    (hf0 : ∀ t, objective l U (K t) G (C t) ≤ f0) : ∃ (φ : ℕ → ℕ) (c : ℕ → ℝ) (Ks : Matrix (Fin n) (Fin n) ℝ) (Cs : Matrix (Fin d) (Fin d) ℝ), StrictMono φ ∧ (∀ t, c t ≠ 0) ∧
    Ks.det ≠ 0 ∧ Cs.det ≠ 0 ∧ Tendsto (fun t => (c t • K (φ t), (c t)⁻¹ • C (φ t))) atTop (𝓝 (Ks, Cs)) := by
  have n0' : (0 : ℝ) < n := by exact_mod_cast n0
  have d0' : (0 : ℝ) < d := by exact_mod_cast d0
  have tC : ∀ t, 0 < ((C t)ᵀ * C t).trace / d := fun t => div_pos (trace_gram_pos d0 (hd t).2) d0'
  have tK : ∀ t, 0 < ((K t)ᵀ * K t).trace / n := fun t => div_pos (trace_gram_pos n0 (hd t).1) n0'
  obtain ⟨c, hc⟩ : ∃ c : ℕ → ℝ, ∀ t, c t ≠ 0 ∧ c t * c t = ((C t)ᵀ * C t).trace / d :=
    ⟨fun t => √(((C t)ᵀ * C t).trace / d), fun t => ⟨(Real.sqrt_pos.2 (tC t)).ne', Real.mul_self_sqrt (tC t).le⟩⟩
  obtain ⟨S, hS⟩ : ∃ S, ∀ t, ((K t)ᵀ * K t).trace / n * (((C t)ᵀ * C t).trace / d) ≤ S :=
    ⟨2 / l * (f0 / (n * d) + Real.log (2 / l)), fun t => scale_bound l0 (mul_pos (tK t) (tC t)) (by
      rw [le_div_iff₀ (by positivity), mul_comm]
      exact (objective_ge n0 d0 hU hG (hd t).1 (hd t).2 rfl).trans (hf0 t))⟩
  obtain ⟨B, hB⟩ : ∃ B : ℝ, ∀ t, (∀ i j, |(c t • K t) i j| ≤ B) ∧ ∀ i j, |((c t)⁻¹ • C t) i j| ≤ B := by
    refine ⟨max (n * S) d + 1, fun t => ⟨fun i j => ?_, fun i j => ?_⟩⟩
    · have h := entry_sq_le (c t • K t) i j
      have e : ((c t • K t)ᵀ * (c t • K t)).trace = n * (((K t)ᵀ * K t).trace / n * (((C t)ᵀ * C t).trace / d)) := by
        rw [transpose_smul, Matrix.smul_mul, Matrix.mul_smul, smul_smul, (hc t).2, Matrix.trace_smul, smul_eq_mul]
        field_simp
      rw [e] at h
      have h' : |(c t • K t) i j| ^ 2 ≤ max (n * S) d := by
        rw [sq_abs]
        exact h.trans ((mul_le_mul_of_nonneg_left (hS t) n0'.le).trans (le_max_left _ _))
      nlinarith [abs_nonneg ((c t • K t) i j)]
    · have h := entry_sq_le ((c t)⁻¹ • C t) i j
      have e : (((c t)⁻¹ • C t)ᵀ * ((c t)⁻¹ • C t)).trace = d := by
        have ne := (hc t).1
        have tr : ((C t)ᵀ * C t).trace = c t * c t * d := by rw [(hc t).2]; field_simp
        rw [transpose_smul, Matrix.smul_mul, Matrix.mul_smul, smul_smul, Matrix.trace_smul, smul_eq_mul, tr]
        field_simp
      rw [e] at h
      have h' : |((c t)⁻¹ • C t) i j| ^ 2 ≤ max (n * S) d := by
        rw [sq_abs]
        exact h.trans (le_max_right _ _)
      nlinarith [abs_nonneg (((c t)⁻¹ • C t) i j)]
  have cpt : IsCompact ((Set.univ.pi fun _ : Fin n => Set.univ.pi fun _ : Fin n => Set.Icc (-B) B) ×ˢ
      (Set.univ.pi fun _ : Fin d => Set.univ.pi fun _ : Fin d => Set.Icc (-B) B)) :=
    (isCompact_univ_pi fun _ => isCompact_univ_pi fun _ => isCompact_Icc).prod (isCompact_univ_pi fun _ => isCompact_univ_pi fun _ => isCompact_Icc)
  obtain ⟨p, -, φ, hφ, lim⟩ := cpt.tendsto_subseq (x := fun t => ((fun i j => (c t • K t) i j), fun i j => ((c t)⁻¹ • C t) i j))
    (fun t => ⟨fun i _ j _ => abs_le.1 ((hB t).1 i j), fun i _ j _ => abs_le.1 ((hB t).2 i j)⟩)
  have lim' : Tendsto (fun t => ((c (φ t) • K (φ t), (c (φ t))⁻¹ • C (φ t)) : Matrix (Fin n) (Fin n) ℝ × Matrix (Fin d) (Fin d) ℝ)) atTop
      (𝓝 ((p.1, p.2) : Matrix (Fin n) (Fin n) ℝ × Matrix (Fin d) (Fin d) ℝ)) := lim
  have dets : Real.exp (-f0) ≤ (Matrix.det p.1 ^ 2) ^ d * (Matrix.det p.2 ^ 2) ^ n := by
    refine ge_of_tendsto' ((continuous_dets.tendsto _).comp lim') fun t => ?_
    simp only [Function.comp]
    rw [det_scale (hc _).1]
    exact det_low l0.le hU hG (hd _).1 (hd _).2 (hf0 _)
  have dets0 := (Real.exp_pos (-f0)).trans_le dets
  refine ⟨φ, fun t => c (φ t), p.1, p.2, hφ, fun t => (hc _).1, fun h => ?_, fun h => ?_, lim'⟩
  · rw [h] at dets0
    simp [d0.ne'] at dets0
  · rw [h] at dets0
    simp [n0.ne'] at dets0

/-- `x² ≤ y (1 + x)` makes `x` small with `y` -/
theorem tendsto_of_quad {x y : ℕ → ℝ} (x0 : ∀ t, 0 ≤ x t) (h : ∀ t, x t ^ 2 ≤ y t * (1 + x t)) (hy : Tendsto y atTop (𝓝 0)) : Tendsto x atTop (𝓝 0) := by
  have y0 : ∀ t, 0 ≤ y t := fun t => by
    have := (sq_nonneg (x t)).trans (h t)
    exact nonneg_of_mul_nonneg_left this (by linarith [x0 t])
  have hz : Tendsto (fun t => y t + √(y t)) atTop (𝓝 0) := by
    have := hy.add hy.sqrt
    simpa using this
  refine squeeze_zero x0 (fun t => ?_) hz
  have s := Real.sq_sqrt (y0 t)
  have s0 := Real.sqrt_nonneg (y t)
  by_contra hlt
  push Not at hlt
  nlinarith [h t, x0 t, y0 t]

end Coupled
