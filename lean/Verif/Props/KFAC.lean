import Verif.Props.Accumulate
import Mathlib.LinearAlgebra.Matrix.NonsingularInverse

/-! C48: the `kfac_like` update against KFAC's running average. -/

set_option linter.unusedSectionVars false
open Matrix Construct

/-- The identity behind C48: if `2m + I = Kᵀ(S + λI)K` and `K' = K(I − βm)`, then `K'K'ᵀ` inverts `(1−β)(KKᵀ)⁻¹ + β(S + λI)` up to `β²K(3m² − 2βm³)K⁻¹`. -/
theorem kfac_identity {α : Type} [Field α] {n : ℕ} {K K' S m : Matrix (Fin n) (Fin n) α} {b d : α} (hK : IsUnit K.det) (hS : Sᵀ = S) (h2 : (2 : α) ≠ 0)
    (hm : (2 : α) • m + 1 = Kᵀ * (S + d • 1) * K) (hK' : K' = K * (1 - b • m)) :
    K' * K'ᵀ * ((1 - b) • (K * Kᵀ)⁻¹ + b • (S + d • 1)) = 1 - b ^ 2 • (K * ((3 : α) • m ^ 2 - (2 * b) • m ^ 3) * K⁻¹) := by
  have sm : mᵀ = m := by
    have := congrArg Matrix.transpose hm
    simp only [transpose_add, transpose_smul, transpose_mul, transpose_transpose, hS, transpose_one] at this
    rw [← Matrix.mul_assoc, ← hm] at this
    have := add_right_cancel this
    ext i j
    have := congrFun (congrFun this i) j
    simpa [h2] using this
  have hKt : IsUnit Kᵀ.det := by rwa [det_transpose]
  have e1 : (1 - b) • (K * Kᵀ)⁻¹ + b • (S + d • 1) = Kᵀ⁻¹ * (1 + (2 * b) • m) * K⁻¹ := by
    have : S + d • 1 = Kᵀ⁻¹ * ((2 : α) • m + 1) * K⁻¹ := by
      rw [hm, ← Matrix.mul_assoc, ← Matrix.mul_assoc, nonsing_inv_mul _ hKt, Matrix.one_mul, Matrix.mul_assoc, mul_nonsing_inv _ hK, Matrix.mul_one]
    rw [this, Matrix.mul_inv_rev]
    simp only [Matrix.mul_add, Matrix.add_mul, Matrix.mul_one, Matrix.mul_smul, Matrix.smul_mul, smul_add, sub_smul, one_smul, smul_smul]
    rw [mul_comm b 2]
    abel
  rw [e1, hK', transpose_mul, transpose_sub, transpose_one, transpose_smul, sm]
  have e2 : K * (1 - b • m) * ((1 - b • m) * Kᵀ) * (Kᵀ⁻¹ * (1 + (2 * b) • m) * K⁻¹) =
      K * ((1 - b • m) * (1 - b • m) * (1 + (2 * b) • m)) * K⁻¹ := by
    have : Kᵀ * (Kᵀ⁻¹ * ((1 + (2 * b) • m) * K⁻¹)) = (1 + (2 * b) • m) * K⁻¹ := by rw [← Matrix.mul_assoc, mul_nonsing_inv _ hKt, Matrix.one_mul]
    simp only [Matrix.mul_assoc]
    rw [this]
  have e3 : (1 - b • m) * (1 - b • m) * (1 + (2 * b) • m) = 1 - b ^ 2 • ((3 : α) • m ^ 2 - (2 * b) • m ^ 3) := by
    simp only [Matrix.mul_add, Matrix.add_mul, Matrix.sub_mul, Matrix.mul_sub, Matrix.mul_one, Matrix.one_mul, Matrix.mul_smul, Matrix.smul_mul, smul_sub, smul_smul,
      pow_two, pow_three, Matrix.mul_assoc]
    module
  rw [e2, e3, Matrix.mul_sub, Matrix.sub_mul, Matrix.mul_one, mul_nonsing_inv _ hK, Matrix.mul_smul, Matrix.smul_mul]

variable {α : Type} [Field α] [LinearOrder α] [IsStrictOrderedRing α] [LawfulSqrt α]

theorem secMom_symm (A : Mat α) (n : ℕ) : (secMom A n)ᵀ = secMom A n := by
  ext i j
  simp only [transpose_apply, secMom]
  exact Finset.sum_congr rfl fun r _ => mul_comm _ _

theorem inputMoment_symm (h : Hyper α) (m : Layer) (x : ND α) : (inputMoment h m x)ᵀ = inputMoment h m x := by
  unfold inputMoment; split
  · exact secMom_symm _ _
  · rfl

theorem gradMoment_symm (h : Hyper α) (m : Layer) (x : ND α) : (gradMoment h m x)ᵀ = gradMoment h m x := by
  unfold gradMoment; split
  · exact secMom_symm _ _
  · rfl

theorem list_sum_symm {β : Type} {n : ℕ} (f : β → Matrix (Fin n) (Fin n) α) (hf : ∀ e, (f e)ᵀ = f e) : ∀ l : List β, ((l.map f).sum)ᵀ = (l.map f).sum
  | [] => by simp
  | e :: l => by rw [List.map_cons, List.sum_cons, transpose_add, hf, list_sum_symm f hf l]

omit [LawfulSqrt α] in
theorem ofMatrix_M' {n k : ℕ} (G : Matrix (Fin n) (Fin k) α) : (Mat.ofMatrix G).M n k = G := by
  ext i j
  simp [Mat.M, Mat.ofMatrix, Mat.ofFn]

omit [LawfulSqrt α] in
theorem proj_dense {n : ℕ} (G : Matrix (Fin n) (Fin n) α) : Cls.proj .dense n G = G := ofMatrix_M' G

omit [LawfulSqrt α] in
theorem proj_diagonal {n : ℕ} (G : Matrix (Fin n) (Fin n) α) : Cls.proj .diagonal n G = Matrix.diagonal fun i => G i i := by
  ext i j
  show (Mat.ofMatrix G).diag.diagMat.get i j = _
  by_cases e : i = j
  · subst e; simp [Vec.diagMat, Mat.diag, Mat.ofFn, Vec.ofFn, Mat.ofMatrix]
  · have : i.1 ≠ j.1 := fun h => e (Fin.ext h)
    simp [Vec.diagMat, Mat.diag, Mat.ofFn, Vec.ofFn, Mat.ofMatrix, e, this]

/-- the projection commutes with `Kᵀ · K` -/
def Commutes (c : Cls) {n : ℕ} (K : Matrix (Fin n) (Fin n) α) : Prop := ∀ G, c.proj n (c.sandwich K G) = Kᵀ * c.proj n G * K

theorem commutes_dense {n : ℕ} (K : Matrix (Fin n) (Fin n) α) : Commutes .dense K := fun G => by rw [proj_dense, proj_dense]; rfl

theorem commutes_diagonal {n : ℕ} (k : Fin n → α) : Commutes .diagonal (Matrix.diagonal k) := fun G => by
  rw [proj_diagonal, proj_diagonal]
  show Matrix.diagonal (fun i => ((Matrix.diagonal k)ᵀ * G * Matrix.diagonal k) i i) = _
  rw [diagonal_transpose, diagonal_mul_diagonal, diagonal_mul_diagonal]
  congr 1
  ext i
  rw [mul_diagonal, diagonal_mul]

theorem commutes_of_wf {c : Cls} (hc : c = .dense ∨ c = .diagonal) {n : ℕ} {A : SM α} (h : WF c n A) : Commutes c (denO (some A) n) := by
  rcases hc with rfl | rfl
  · exact commutes_dense _
  · cases h with
    | @diagonal _ d h =>
      have : denO (some (SM.diagonal d)) n = Matrix.diagonal fun i : Fin n => d.get i := by
        ext i j
        show d.diagMat.get i j = _
        by_cases e : i = j
        · subst e; simp [Vec.diagMat, Mat.ofFn, h]
        · have : i.1 ≠ j.1 := fun h => e (Fin.ext h)
          simp [Vec.diagMat, Mat.ofFn, e, this]
      rw [this]; exact commutes_diagonal _

theorem sum_commutes {β : Type} {c : Cls} {n : ℕ} {K : Matrix (Fin n) (Fin n) α} (hc : Commutes c K) (f : β → Matrix (Fin n) (Fin n) α) : ∀ l : List β,
    (l.map fun e => c.proj n (c.sandwich K (f e))).sum = Kᵀ * (l.map fun e => c.proj n (f e)).sum * K
  | [] => by simp
  | e :: l => by rw [List.map_cons, List.sum_cons, List.map_cons, List.sum_cons, sum_commutes hc f l, hc, Matrix.mul_add, Matrix.add_mul]

theorem proj_symm {c : Cls} (hc : c = .dense ∨ c = .diagonal) {n : ℕ} {G : Matrix (Fin n) (Fin n) α} (h : Gᵀ = G) : (c.proj n G)ᵀ = c.proj n G := by
  rcases hc with rfl | rfl
  · rw [proj_dense, h]
  · rw [proj_diagonal, diagonal_transpose]

/-- one factor -/
theorem kfac_factor {c : Cls} (hc : c = .dense ∨ c = .diagonal) {n : ℕ} (h1 : c.Supports n) {K K' S M : Matrix (Fin n) (Fin n) α} {b d : α} (hK : IsUnit K.det) (hS : Sᵀ = S)
    (cm : Commutes c K) (hM : M = updDir c 1 1 1 d K (Kᵀ * S * K)) (hK' : K' = K * (1 - b • M)) :
    M = (1 / 2 : α) • (Kᵀ * (S + d • 1) * K - 1) ∧
    K' * K'ᵀ * ((1 - b) • (K * Kᵀ)⁻¹ + b • (S + d • 1)) = 1 - b ^ 2 • (K * ((3 : α) • M ^ 2 - (2 * b) • M ^ 3) * K⁻¹) := by
  have e : M = (1 / 2 : α) • (Kᵀ * (S + d • 1) * K - 1) := by
    rw [hM, updDir, cm, proj_one h1]
    simp only [Matrix.mul_add, Matrix.add_mul, Matrix.mul_one, Matrix.mul_smul, Matrix.smul_mul, one_smul, mul_one]
  refine ⟨e, kfac_identity hK hS two_ne_zero ?_ hK'⟩
  rw [e, smul_smul]
  norm_num

/-- **C48.** For every layer with dense (or diagonal) factors, every state, history of passes since the last update, batch shapes, data, gradient scale, damping and rate: after
a `kfac_like` step without factor momentum and normalisation, if `K` (`C`) was invertible, the new factor satisfies
`K'K'ᵀ ((1−β)(KKᵀ)⁻¹ + β(S + λI)) = I − β² K(3M² − 2βM³)K⁻¹`, where `S` is the sum of the (un-scaled) second moments of the passes, restricted to the diagonal
for a diagonal factor, and `M = ½(Kᵀ(S + λI)K − I)` does not depend on `β`: the pre-conditioner is the inverse of KFAC's running average up to an explicit
term of second order. -/
theorem C48_kfac {cl : String → Cls × Cls} {w : World α} {ops : List (Op α)} {attr : Option α} (lv : w.Live cl) (hf : FitsRun w ops) (q : ∀ op ∈ ops, op.Quiet)
    (ho : FitsOp (run ops w) (.step false attr false)) {m : Layer} (hm : m ∈ w.opt.layers) {h : Hyper α} (hh : w.opt.hyperOf m = .ok h)
    (h0 : w.opt.HKs m.name = none ∧ w.opt.HCs m.name = none) (hT : w.opt.steps % h.T = 0) (hl : h.kfacLike = true) (ha : h.alpha1 = 0) (hn : h.normalize = false) :
    ∃ w', exec (.step false attr false) (run ops w) = (.ok (), w') ∧
    (∀ c, (cl m.name).1 = c → c = .dense ∨ c = .diagonal →
      ∀ K K' S M b d, K = denO (w.opt.Ks m.name) m.nK → IsUnit K.det → K' = denO (w'.opt.Ks m.name) m.nK → b = h.lrCov.at w.opt.steps → d = h.damping →
      S = ((fired m.name ops w).map fun e => if c = .dense then inputMoment h m e.1 else Matrix.diagonal fun i => inputMoment h m e.1 i i).sum →
      M = (1 / 2 : α) • (Kᵀ * (S + d • 1) * K - 1) →
      K' * K'ᵀ * ((1 - b) • (K * Kᵀ)⁻¹ + b • (S + d • 1)) = 1 - b ^ 2 • (K * ((3 : α) • M ^ 2 - (2 * b) • M ^ 3) * K⁻¹)) ∧
    (∀ c, (cl m.name).2 = c → c = .dense ∨ c = .diagonal →
      ∀ C C' S M b d, C = denO (w.opt.Cs m.name) m.nC → IsUnit C.det → C' = denO (w'.opt.Cs m.name) m.nC → b = h.lrCov.at w.opt.steps → d = h.damping →
      S = (1 / (run ops w).curScale attr ^ 2) • ((fired m.name ops w).map fun e =>
        if c = .dense then gradMoment h m e.2 else Matrix.diagonal fun i => gradMoment h m e.2 i i).sum →
      M = (1 / 2 : α) • (Cᵀ * (S + d • 1) * C - 1) →
      C' * C'ᵀ * ((1 - b) • (C * Cᵀ)⁻¹ + b • (S + d • 1)) = 1 - b ^ 2 • (C * ((3 : α) • M ^ 2 - (2 * b) • M ^ 3) * C⁻¹)) := by
  have W := lv.window hf q
  obtain ⟨w', e, sp, -⟩ := W.live.step ho
  obtain ⟨p, hp⟩ := lv.prev
  have p0 := (lv.pos _ _ hp).ne'
  have St := W.stats m hm h p hh hp
  have good := lv.sound.good m hm
  obtain ⟨mK, mC, bK, bC, -, e2, e3, e4, e5, e6, e7⟩ := ((sp.layer m (by rw [W.layers]; exact hm) h (by rw [W.hyperOf]; exact hh)).upd (by rw [W.steps]; exact hT)).eqs
  have hsum : ∀ {n : ℕ} (c : Cls), c = .dense ∨ c = .diagonal → ∀ f : ND α × ND α → Matrix (Fin n) (Fin n) α,
      (fun e => c.proj n (f e)) = fun e => if c = .dense then f e else Matrix.diagonal fun i => f e i i := by
    rintro n c (rfl | rfl) f
    · funext e; rw [if_pos rfl, proj_dense]
    · funext e; rw [if_neg (by simp), proj_diagonal]
  rw [IsRate, if_neg (by simp [hn]), W.steps] at e4 e5
  rw [ha, zero_smul, zero_add] at e2 e3
  have dS : dirScale h = 1 := by simp [dirScale, hn]
  refine ⟨w', e, ?_, ?_⟩
  · rintro c hcc hc K K' S M b d hK hU hK' rfl rfl hS hM
    have eS : S = ((fired m.name ops w).map fun e => c.proj m.nK (inputMoment h m e.1)).sum := by rw [hsum c hc fun e => inputMoment h m e.1]; exact hS
    obtain ⟨A, eA, wA⟩ := (lv.sound.lay m hm).K
    rw [hcc] at wA
    have cm : Commutes c K := by rw [hK, eA]; exact commutes_of_wf hc wA
    have eH : denO ((run ops w).opt.HKs m.name) m.nK = Kᵀ * S * K := by
      rw [St.HK, h0.1, show denO (none : Option (SM α)) m.nK = 0 from rfl, zero_add, hcc, ← hK, eS, sum_commutes cm]
    obtain ⟨f1, f2⟩ := kfac_factor hc (hcc ▸ good.supK) (K' := K') (b := h.lrCov.at w.opt.steps) (d := h.damping) (S := S) (M := mK) hU
      (by rw [eS]; exact list_sum_symm _ (fun e => proj_symm hc (inputMoment_symm h m e.1)) _) cm
      (by rw [e2, dirK, dS, hcc, eH, W.Ks, ← hK]; simp [hl]) (by rw [hK', e6, W.Ks, ← hK, e4])
    rw [← hM] at f1
    rw [← f1]; exact f2
  · rintro c hcc hc K K' S M b d hK hU hK' rfl rfl hS hM
    have eS : S = (1 / (run ops w).curScale attr ^ 2) • ((fired m.name ops w).map fun e => c.proj m.nC (gradMoment h m e.2)).sum := by
      rw [hsum c hc fun e => gradMoment h m e.2]; exact hS
    obtain ⟨A, eA, wA⟩ := (lv.sound.lay m hm).C
    rw [hcc] at wA
    have cm : Commutes c K := by rw [hK, eA]; exact commutes_of_wf hc wA
    have eH : (run ops w).unscale attr • denO ((run ops w).opt.HCs m.name) m.nC = Kᵀ * S * K := by
      rw [St.HC, h0.2, show denO (none : Option (SM α)) m.nC = 0 from rfl, zero_add, hcc, ← hK, eS, sum_commutes cm, Matrix.mul_smul, Matrix.smul_mul, smul_smul,
        World.unscale, W.steps, W.prev, hp]
      congr 1
      simp only [Option.getD_some]
      field_simp
    obtain ⟨f1, f2⟩ := kfac_factor hc (hcc ▸ good.supC) (K' := K') (b := h.lrCov.at w.opt.steps) (d := h.damping) (S := S) (M := mC) hU
      (by rw [eS, transpose_smul, list_sum_symm _ (fun e => proj_symm hc (gradMoment_symm h m e.2))]) cm
      (by rw [e3, dirC, dS, hcc, updDir, updDir, one_smul, ← eH, W.Cs, ← hK]; simp [hl]) (by rw [hK', e7, W.Cs, ← hK, e5])
    rw [← hM] at f1
    rw [← f1]; exact f2

/-- The sample model (dense `K`, diagonal `C`) and a batch of two inputs meet the hypotheses of `C48_kfac`, with non-zero statistics. -/
example : ∃ (cl : String → Cls × Cls) (w : World ℝ) (h : Hyper ℝ), w.Live cl ∧ FitsRun w Sample.full ∧ (∀ op ∈ (Sample.full : List (Op ℝ)), op.Quiet) ∧
    FitsOp (run Sample.full w) (.step false none false) ∧ Sample.la ∈ w.opt.layers ∧ w.opt.hyperOf Sample.la = .ok h ∧
    (w.opt.HKs "a" = none ∧ w.opt.HCs "a" = none) ∧ w.opt.steps % h.T = 0 ∧ h.kfacLike = true ∧ h.alpha1 = 0 ∧ h.normalize = false ∧ cl "a" = (.dense, .diagonal) ∧
    IsUnit (denO (w.opt.Ks "a") Sample.la.nK).det ∧ IsUnit (denO (w.opt.Cs "a") Sample.la.nC).det ∧ denO ((run Sample.full w).opt.HKs "a") Sample.la.nK ≠ 0 := by
  have h2 : ¬ ((2⁻¹ : ℝ) < 0) := by simp
  obtain ⟨cl, w, lv, h0, f1, -, -, hm, st, hy, -, -, -, -, -, hyF, stF, hmF, ne, -, hk, hc, hK, hC⟩ := Sample.micro_step (a := Sample.margs true (some "batch"))
    (by simp [validate, Sample.margs, Sample.gargs, PyNum.rejected, PyRate.rejected, h2]) rfl rfl ⟨Or.inl rfl, Or.inr (Or.inl rfl)⟩
    (by simp [checked, defaults, Sample.margs, Sample.gargs, PyNum.val]) (show (2 : ℕ) ≠ 0 by decide) rfl rfl
  obtain ⟨fF, fS⟩ := along_append.1 f1
  refine ⟨cl, w, _, lv, fF, Sample.bpass_quiet, fS.1, hm, hy, h0 _ hm, by rw [st]; rfl, rfl, rfl, rfl, (hc _ hm).2, ?_, ?_, ?_⟩
  · rw [show denO (w.opt.Ks "a") Sample.la.nK = 1 from hK, det_one]; exact isUnit_one
  · rw [show denO (w.opt.Cs "a") Sample.la.nC = 1 from hC, det_one]; exact isUnit_one
  · exact fun e => ne (by rw [show denO ((run Sample.full w).opt.HKs Sample.la.name) Sample.la.nK = 0 from e, Matrix.mul_zero])
