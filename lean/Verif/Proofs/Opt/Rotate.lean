import Verif.Props.KFAC
import Verif.Proofs.Opt.Scale
import Mathlib.Data.Matrix.Block

/-! Change of basis of a layer's inputs and outputs. -/

set_option linter.unusedSectionVars false
open Finset Matrix PIO IOProof
variable {α : Type} [Field α] [LinearOrder α] [IsStrictOrderedRing α]

/-- `QᵀMQ` -/
def conjBy {n : ℕ} (Q M : Matrix (Fin n) (Fin n) α) : Matrix (Fin n) (Fin n) α := Qᵀ * M * Q

section
variable {n : ℕ} {Q : Matrix (Fin n) (Fin n) α}
theorem conjBy_add (M N : Matrix (Fin n) (Fin n) α) : conjBy Q (M + N) = conjBy Q M + conjBy Q N := by simp [conjBy, Matrix.mul_add, Matrix.add_mul]
theorem conjBy_sub (M N : Matrix (Fin n) (Fin n) α) : conjBy Q (M - N) = conjBy Q M - conjBy Q N := by simp [conjBy, Matrix.mul_sub, Matrix.sub_mul]
theorem conjBy_smul (s : α) (M : Matrix (Fin n) (Fin n) α) : conjBy Q (s • M) = s • conjBy Q M := by simp [conjBy]
theorem conjBy_zero : conjBy Q 0 = 0 := by simp [conjBy]
theorem conjBy_transpose (M : Matrix (Fin n) (Fin n) α) : (conjBy Q M)ᵀ = conjBy Q Mᵀ := by simp [conjBy, Matrix.mul_assoc]
variable (hQ : Qᵀ * Q = 1)
include hQ
theorem orth_right : Q * Qᵀ = 1 := mul_eq_one_comm.1 hQ
theorem conjBy_one : conjBy Q 1 = 1 := by simp [conjBy, hQ]
theorem conjBy_mul (M N : Matrix (Fin n) (Fin n) α) : conjBy Q (M * N) = conjBy Q M * conjBy Q N := by
  have := orth_right hQ
  rw [conjBy, conjBy, conjBy, show Qᵀ * M * Q * (Qᵀ * N * Q) = Qᵀ * M * (Q * Qᵀ) * N * Q by simp only [Matrix.mul_assoc], this]
  simp only [Matrix.mul_one, Matrix.mul_assoc]
theorem conjBy_trace (M : Matrix (Fin n) (Fin n) α) : (conjBy Q M).trace = M.trace := by
  rw [conjBy, Matrix.trace_mul_comm, ← Matrix.mul_assoc, orth_right hQ, Matrix.one_mul]
theorem conjBy_avgTr (M : Matrix (Fin n) (Fin n) α) : avgTr (conjBy Q M) = avgTr M := by rw [avgTr, avgTr, conjBy_trace hQ]
theorem conjBy_gram (c : Cls) (M : Matrix (Fin n) (Fin n) α) : c.gram (conjBy Q M) = conjBy Q (c.gram M) := by
  unfold Cls.gram
  split
  · rw [conjBy_mul hQ]
  · rw [conjBy_transpose, conjBy_mul hQ]
theorem conjBy_sandwich (c : Cls) (M N : Matrix (Fin n) (Fin n) α) : c.sandwich (conjBy Q M) (conjBy Q N) = conjBy Q (c.sandwich M N) := by
  unfold Cls.sandwich
  split <;> rw [conjBy_transpose, conjBy_mul hQ, conjBy_mul hQ]
end

theorem sandwich_symm (c : Cls) {n : ℕ} (A : Matrix (Fin n) (Fin n) α) {G : Matrix (Fin n) (Fin n) α} (h : Gᵀ = G) : (c.sandwich A G)ᵀ = c.sandwich A G := by
  unfold Cls.sandwich
  split <;> simp only [transpose_mul, transpose_transpose, h, Matrix.mul_assoc]

/-- a change of basis that the structure of a class does not notice -/
structure Cls.Keeps (c : Cls) (n : ℕ) (Q : Matrix (Fin n) (Fin n) α) : Prop where
  orth : Qᵀ * Q = 1
  proj : ∀ G, c.proj n (conjBy Q G) = conjBy Q (c.proj n G)

/-- `A` is the matrix of a well-formed object of the class -/
def Cls.Rep (c : Cls) (n : ℕ) (A : Matrix (Fin n) (Fin n) α) : Prop := ∃ K : SM α, WF c n K ∧ K.den n = A

/-- In the basis `Q`, class `c` computes with the matrices of class `c'` what `c'` computes: the conversion from symmetric dense matrices, the products with the
transpose and the weighting. -/
structure Cls.Acts (c c' : Cls) (n : ℕ) (Q : Matrix (Fin n) (Fin n) α) : Prop where
  orth : Qᵀ * Q = 1
  proj : ∀ G, Gᵀ = G → c.proj n (conjBy Q G) = conjBy Q (c'.proj n G)
  sandwich : ∀ A, c'.Rep n A → ∀ G, c.sandwich (conjBy Q A) (conjBy Q G) = conjBy Q (c'.sandwich A G)
  gram : ∀ A, c'.Rep n A → c.gram (conjBy Q A) = conjBy Q (c'.gram A)

theorem Cls.Keeps.acts {c : Cls} {n : ℕ} {Q : Matrix (Fin n) (Fin n) α} (k : c.Keeps n Q) : c.Acts c n Q :=
  ⟨k.orth, fun G _ => k.proj G, fun _ _ _ => conjBy_sandwich k.orth c _ _, fun _ _ => conjBy_gram k.orth c _⟩

theorem Cls.keeps_dense {n : ℕ} {Q : Matrix (Fin n) (Fin n) α} (h : Qᵀ * Q = 1) : Cls.Keeps .dense n Q := ⟨h, fun G => by rw [proj_dense, proj_dense]⟩

theorem Cls.keeps_one (c : Cls) (n : ℕ) : Cls.Keeps c n (1 : Matrix (Fin n) (Fin n) α) := ⟨by simp, fun G => by simp [conjBy]⟩

/-- the matrix that permutes coordinates and changes signs: column `j` is `s j` times the unit vector `σ j` -/
def signPerm {n : ℕ} (σ : Equiv.Perm (Fin n)) (s : Fin n → α) : Matrix (Fin n) (Fin n) α := fun i j => if i = σ j then s j else 0

theorem signPerm_conjBy {n : ℕ} (σ : Equiv.Perm (Fin n)) (s : Fin n → α) (M : Matrix (Fin n) (Fin n) α) (i j : Fin n) :
    conjBy (signPerm σ s) M i j = s i * M (σ i) (σ j) * s j := by
  simp only [conjBy, Matrix.mul_apply, Matrix.transpose_apply, signPerm, ite_mul, zero_mul, mul_ite, mul_zero, Finset.sum_ite_eq', Finset.mem_univ, if_true]

theorem signPerm_orth {n : ℕ} (σ : Equiv.Perm (Fin n)) {s : Fin n → α} (hs : ∀ i, s i * s i = 1) : (signPerm σ s)ᵀ * signPerm σ s = 1 := by
  have := signPerm_conjBy σ s 1
  funext i j
  rw [← Matrix.mul_one (signPerm σ s)ᵀ]
  rw [show (signPerm σ s)ᵀ * 1 * signPerm σ s = conjBy (signPerm σ s) 1 from rfl, this]
  by_cases e : i = j
  · subst e; simp [hs]
  · simp [Matrix.one_apply, e]

theorem Cls.keeps_diagonal {n : ℕ} (σ : Equiv.Perm (Fin n)) {s : Fin n → α} (hs : ∀ i, s i * s i = 1) : Cls.Keeps .diagonal n (signPerm σ s) := by
  refine ⟨signPerm_orth σ hs, fun G => ?_⟩
  rw [proj_diagonal, proj_diagonal]
  funext i j
  rw [signPerm_conjBy]
  by_cases e : i = j
  · subst e; simp [signPerm_conjBy]
  · rw [diagonal_apply_ne _ e, diagonal_apply_ne _ (fun h => e (σ.injective h))]; ring

theorem signPerm_maxAbs {n : ℕ} (σ : Equiv.Perm (Fin n)) {s : Fin n → α} (hs : ∀ i, s i * s i = 1)
    (M : Matrix (Fin n) (Fin n) α) (v : α) (h : IsMaxAbs M v) : IsMaxAbs (conjBy (signPerm σ s) M) v := by
  have ha : ∀ i, |s i| = 1 := fun i => by
    have : |s i| * |s i| = 1 := by rw [← abs_mul, hs, abs_one]
    nlinarith [abs_nonneg (s i)]
  obtain ⟨⟨i, j, e⟩, h⟩ := h
  refine ⟨⟨σ.symm i, σ.symm j, ?_⟩, fun i j => ?_⟩
  · rw [signPerm_conjBy, abs_mul, abs_mul, ha, ha]; simp [e]
  · rw [signPerm_conjBy, abs_mul, abs_mul, ha, ha]; simpa using h _ _

/-! Layers -/

variable [LawfulSqrt α]

/-- change of basis of the bias-extended inputs: the inputs are transformed by `R`, the constant feature of the bias stays -/
def Layer.extend (m : Layer) (R : Matrix (Fin m.din) (Fin m.din) α) : Matrix (Fin m.nK) (Fin m.nK) α :=
  (fromBlocks R 0 0 (1 : Matrix (Fin (if m.bias.isSome then 1 else 0)) (Fin (if m.bias.isSome then 1 else 0)) α)).submatrix finSumFinEquiv.symm finSumFinEquiv.symm

theorem extend_orth (m : Layer) {R : Matrix (Fin m.din) (Fin m.din) α} (h : Rᵀ * R = 1) : (m.extend R)ᵀ * m.extend R = 1 := by
  unfold Layer.extend Layer.nK
  rw [transpose_submatrix, submatrix_mul_equiv, fromBlocks_transpose, fromBlocks_multiply]
  simp [h]

theorem mul_extend_weight (m : Layer) {r : ℕ} (R : Matrix (Fin m.din) (Fin m.din) α) (N : Matrix (Fin r) (Fin m.nK) α) (i : Fin r) (j : Fin m.din) :
    (N * m.extend R) i ⟨j.1, by unfold Layer.nK; omega⟩ = ∑ k : Fin m.din, N i ⟨k.1, by unfold Layer.nK; omega⟩ * R k j := by
  rw [Matrix.mul_apply]
  unfold Layer.extend
  unfold Layer.nK at N ⊢
  rw [← finSumFinEquiv.sum_comp, Fintype.sum_sum_type]
  have e : (⟨j.1, by omega⟩ : Fin (m.din + if m.bias.isSome then 1 else 0)) = finSumFinEquiv (Sum.inl j) := by ext; simp
  rw [e]
  simp only [submatrix_apply, Equiv.symm_apply_apply, fromBlocks_apply₁₁, fromBlocks_apply₂₁, Matrix.zero_apply, mul_zero, sum_const_zero, add_zero]
  refine sum_congr rfl fun k _ => ?_
  congr 2

theorem mul_extend_bias (m : Layer) {r : ℕ} (R : Matrix (Fin m.din) (Fin m.din) α) (N : Matrix (Fin r) (Fin m.nK) α) (i : Fin r) (hb : m.bias.isSome) :
    (N * m.extend R) i ⟨m.din, by unfold Layer.nK; simp [hb]⟩ = N i ⟨m.din, by unfold Layer.nK; simp [hb]⟩ := by
  rw [Matrix.mul_apply]
  unfold Layer.extend
  unfold Layer.nK at N ⊢
  rw [← finSumFinEquiv.sum_comp, Fintype.sum_sum_type]
  have e : (⟨m.din, by simp [hb]⟩ : Fin (m.din + if m.bias.isSome then 1 else 0)) = finSumFinEquiv (Sum.inr ⟨0, by simp [hb]⟩) := by ext; simp
  rw [e]
  simp only [submatrix_apply, Equiv.symm_apply_apply, fromBlocks_apply₁₂, fromBlocks_apply₂₂, Matrix.zero_apply, mul_zero, sum_const_zero, zero_add,
    Matrix.one_apply, mul_ite, mul_one, Finset.sum_ite_eq', Finset.mem_univ, if_true]

theorem secMom_rotate {a a' : Mat α} {n : ℕ} {Q : Matrix (Fin n) (Fin n) α} (hr : a'.rows = a.rows)
    (h : ∀ r < a.rows, ∀ j : Fin n, a'.get r j = ∑ k : Fin n, a.get r k * Q k j) : secMom a' n = conjBy Q (secMom a n) := by
  funext i j
  simp only [secMom, conjBy, Matrix.mul_apply, Matrix.transpose_apply, hr]
  rw [sum_congr rfl fun r hm => by rw [h r (mem_range.1 hm) i, h r (mem_range.1 hm) j, sum_mul_sum]]
  rw [sum_comm]
  rw [show (∑ x : Fin n, (∑ y : Fin n, Q y i * ∑ r ∈ range a.rows, a.get r y * a.get r x) * Q x j) =
    ∑ y : Fin n, ∑ x : Fin n, (∑ r ∈ range a.rows, Q y i * (a.get r y * a.get r x) * Q x j) by
      rw [sum_comm]
      refine sum_congr rfl fun x _ => ?_
      rw [sum_mul]
      refine sum_congr rfl fun y _ => ?_
      rw [mul_sum, sum_mul]]
  refine sum_congr rfl fun y _ => ?_
  rw [sum_comm]
  refine sum_congr rfl fun x _ => sum_congr rfl fun r _ => ?_
  ring

/-- multiply every row (last axis of size `d`) with a matrix from the right -/
def ND.rotate (x : ND α) {d : ℕ} (R : Matrix (Fin d) (Fin d) α) : ND α :=
  ⟨x.shape, fun k => ∑ i : Fin d, x.flat (k / d * d + i) * (if h : k % d < d then R i ⟨k % d, h⟩ else 0)⟩

theorem ND.rotate_flat (x : ND α) {d : ℕ} (R : Matrix (Fin d) (Fin d) α) (i : ℕ) (j : Fin d) :
    (x.rotate R).flat (i * d + j) = ∑ k : Fin d, x.flat (i * d + k) * R k j := by
  have hd : 0 < d := j.pos
  have e1 : (i * d + j) / d = i := by rw [mul_comm, Nat.mul_add_div hd, Nat.div_eq_of_lt j.2, add_zero]
  have e2 : (i * d + j) % d = j := by rw [mul_comm, Nat.mul_add_mod, Nat.mod_eq_of_lt j.2]
  simp only [ND.rotate, e1]
  refine sum_congr rfl fun k _ => ?_
  congr 1
  rw [dif_pos (by rw [e2]; exact j.2)]
  congr 1
  ext; exact e2

/-- rows of the processed input: the features, and 1 for the bias -/
theorem rows_rotate (m : Layer) {Y Y' : Mat α} (R : Matrix (Fin m.din) (Fin m.din) α) (hr : Y'.rows = Y.rows) (hc : Y.cols = m.din) (hc' : Y'.cols = m.din)
    (h : ∀ r < Y.rows, ∀ j : Fin m.din, Y'.get r j = ∑ k : Fin m.din, Y.get r k * R k j) :
    secMom (divSqrtRows (if m.bias.isSome then appendOnes Y' else Y')) m.nK =
      conjBy (m.extend R) (secMom (divSqrtRows (if m.bias.isSome then appendOnes Y else Y)) m.nK) := by
  have rows : ∀ Z : Mat α, (divSqrtRows (if m.bias.isSome then appendOnes Z else Z)).rows = Z.rows := by
    intro Z; split <;> rfl
  have cols : ∀ Z : Mat α, Z.cols = m.din → (if m.bias.isSome then appendOnes Z else Z).cols = m.nK := by
    intro Z hZ; unfold Layer.nK
    split
    · show Z.cols + 1 = _; rw [hZ]
    · rw [hZ]; rfl
  have ent : ∀ Z : Mat α, Z.cols = m.din → ∀ r < Z.rows, ∀ j < m.nK, (divSqrtRows (if m.bias.isSome then appendOnes Z else Z)).get r j =
      (if j < m.din then Z.get r j else 1) / HasSqrt.sqrt (Z.rows : α) := by
    intro Z hZ r hr j hj
    have hrow : (if m.bias.isSome then appendOnes Z else Z).rows = Z.rows := by split <;> rfl
    unfold divSqrtRows
    rw [Mat.get_ofFn, if_pos ⟨by rw [hrow]; exact hr, by rw [cols Z hZ]; exact hj⟩, hrow]
    congr 1
    unfold Layer.nK at hj
    by_cases hb : m.bias.isSome
    · rw [if_pos hb]
      rw [if_pos hb] at hj
      have h1 : r < Z.rows := hr
      have h2 : j < Z.cols + 1 := by rw [hZ]; exact hj
      simp only [appendOnes, Mat.hcat, Mat.get_ofFn, Mat.cols_ofFn, hZ, h1]
      have h3 : j < m.din + 1 := hj
      by_cases h4 : j < m.din
      · simp [h3, h4]
      · simp [h3, h4, show j - m.din = 0 by omega]
    · rw [if_neg hb]
      rw [if_neg hb] at hj
      rw [if_pos (by simpa using hj)]
  refine secMom_rotate (by rw [rows, rows, hr]) fun r hrr j => ?_
  rw [rows] at hrr
  rw [ent Y' hc' r (by rw [hr]; exact hrr) j j.2, hr]
  let N : Matrix (Fin 1) (Fin m.nK) α := fun _ k => (divSqrtRows (if m.bias.isSome then appendOnes Y else Y)).get r k
  show _ = (N * m.extend R) 0 j
  by_cases hj : j.1 < m.din
  · rw [if_pos hj, show j = ⟨(⟨j.1, hj⟩ : Fin m.din).1, by unfold Layer.nK; omega⟩ from rfl, mul_extend_weight, h r hrr ⟨j.1, hj⟩, sum_div]
    refine sum_congr rfl fun k _ => ?_
    show _ = (divSqrtRows (if m.bias.isSome then appendOnes Y else Y)).get r k * _
    rw [ent Y hc r hrr k (by unfold Layer.nK; omega), if_pos k.2]
    ring
  · have hb : m.bias.isSome := by
      by_contra hb
      have h1 : j.1 < m.nK := j.2
      have h2 : m.nK = m.din + if m.bias.isSome then 1 else 0 := rfl
      rw [if_neg hb] at h2
      omega
    have hj' : j = ⟨m.din, by unfold Layer.nK; simp [hb]⟩ := by
      ext
      have h1 : j.1 < m.nK := j.2
      have h2 : m.nK = m.din + if m.bias.isSome then 1 else 0 := rfl
      rw [if_pos hb] at h2
      show j.1 = m.din
      omega
    rw [if_neg hj, hj', mul_extend_bias _ _ _ _ hb]
    show _ = (divSqrtRows (if m.bias.isSome then appendOnes Y else Y)).get r m.din
    rw [ent Y hc r hrr m.din (by unfold Layer.nK; simp [hb]), if_neg (lt_irrefl _)]

/-- inputs of a linear layer multiplied with a matrix have a transformed second moment -/
theorem inputMoment_rotate (h : Hyper α) {m : Layer} (hk : m.kind = .linear) {approx : String} {x : ND α} (hx : InputFits m approx x)
    (R : Matrix (Fin m.din) (Fin m.din) α) : inputMoment h m (x.rotate R) = conjBy (m.extend R) (inputMoment h m x) := by
  unfold InputFits at hx
  rw [hk] at hx
  obtain ⟨b, sh, hs, _⟩ := hx
  have hs' : (x.rotate R).shape = b :: (sh ++ [m.din]) := hs
  unfold inputMoment processInput
  by_cases ha : h.kfacApprox = "expand" ∨ h.kfacApprox = "reduce"
  · rw [if_neg (not_not.2 ha), if_neg (not_not.2 ha), hk]
    simp only [linearProcessInput, mergeLeading, meanMiddle, hs, hs', split3_eq]
    by_cases he : h.kfacApprox = "expand"
    · simp only [he, if_true, Except.bind_ok', Except.pure_ok]
      refine rows_rotate m R rfl rfl rfl fun r hr j => ?_
      have hr' : r < b * sh.prod := hr
      simp only [Mat.get_ofFn, hr', j.2, and_self, if_true, ND.rotate_flat, Fin.is_lt]
    · simp only [he, if_false, Except.bind_ok', Except.pure_ok]
      refine rows_rotate m R rfl rfl rfl fun r hr j => ?_
      have hr' : r < b := hr
      simp only [Mat.get_ofFn, hr', j.2, and_self, if_true, ND.rotate_flat, Fin.is_lt]
      rw [sum_comm, sum_div]
      refine sum_congr rfl fun k _ => ?_
      rw [← sum_mul, div_mul_eq_mul_div]
  · rw [if_pos ha, if_pos ha]; simp [conjBy]

/-- output gradients of a linear layer multiplied with a matrix have a transformed second moment -/
theorem gradMoment_rotate (h : Hyper α) {m : Layer} (hk : m.kind = .linear) {g : ND α} (hg : GradFits m g)
    (S : Matrix (Fin m.dout) (Fin m.dout) α) : gradMoment h m (g.rotate S) = conjBy (n := m.nC) S (gradMoment h m g) := by
  unfold GradFits at hg
  rw [hk] at hg
  obtain ⟨b, sh, hs, _⟩ := hg
  have hs' : (g.rotate S).shape = b :: (sh ++ [m.dout]) := hs
  unfold gradMoment processGradOutput
  by_cases hl : h.lossAverage = none ∨ h.lossAverage = some "batch" ∨ h.lossAverage = some "batch+sequence"
  · rw [if_neg (not_not.2 hl), if_neg (not_not.2 hl)]
    by_cases ha : h.kfacApprox = "expand" ∨ h.kfacApprox = "reduce"
    · rw [if_neg (not_not.2 ha), if_neg (not_not.2 ha), hk]
      simp only [linearProcessGrad, mergeLeading, sumMiddle, hs, hs', split3_eq]
      rcases linearScaling (b :: (sh ++ [m.dout])) h.lossAverage with e | z
      · simp only [Except.bind_error']
        exact (conjBy_zero (n := m.nC) (Q := S)).symm
      by_cases he : h.kfacApprox = "expand"
      · simp only [he, if_true, Except.bind_ok', Except.pure_ok]
        refine secMom_rotate rfl fun r hr j => ?_
        have hr' : r < b * sh.prod := hr
        have hj : j.1 < m.dout := j.2
        simp only [Mat.get_smul, Mat.get_ofFn, hr', hj, and_self, if_true]
        rw [ND.rotate_flat _ _ _ (⟨j.1, hj⟩ : Fin m.dout), sum_mul]
        refine sum_congr rfl fun k _ => ?_
        have hk : k.1 < m.dout := k.2
        simp only [hk, and_self, if_true]
        show _ * S k ⟨j.1, hj⟩ * z = _ * z * S k ⟨j.1, hj⟩
        ring
      · simp only [he, if_false, Except.bind_ok', Except.pure_ok]
        refine secMom_rotate rfl fun r hr j => ?_
        have hr' : r < b := hr
        have hj : j.1 < m.dout := j.2
        simp only [Mat.get_smul, Mat.get_ofFn, hr', hj, and_self, if_true]
        rw [sum_congr rfl fun k _ => ND.rotate_flat g S (r * sh.prod + k) (⟨j.1, hj⟩ : Fin m.dout), sum_comm, sum_mul]
        refine sum_congr rfl fun k _ => ?_
        have hk : k.1 < m.dout := k.2
        simp only [hk, and_self, if_true]
        rw [← sum_mul]
        show _ * S k ⟨j.1, hj⟩ * z = _ * z * S k ⟨j.1, hj⟩
        ring
    · rw [if_pos ha, if_pos ha]; exact (conjBy_zero (n := m.nC) (Q := S)).symm
  · rw [if_pos hl, if_pos hl]; exact (conjBy_zero (n := m.nC) (Q := S)).symm
