import Verif.Props.Normalized
import Verif.Proofs.Coupled
import Mathlib.Analysis.Matrix.Order

/-! C67: the default update (without `kfac_like`) decreases a Kullback-Leibler divergence, and converges to its minimum. -/

set_option linter.unusedSectionVars false
open Matrix Construct Filter Topology
open scoped Kronecker

/-! ## The divergence -/

/-- The Kullback-Leibler divergence of the normal distribution with mean 0 and covariance `S` from the one with mean 0 and precision `M`,
`½ (tr (M S) − log det (M S) − n)` (textbook formula; `C67_divergence`: nonnegative, and zero only for `S = M⁻¹`). -/
noncomputable def gaussKL {ι : Type} [Fintype ι] [DecidableEq ι] (M S : Matrix ι ι ℝ) : ℝ := ((M * S).trace - Real.log (M * S).det - Fintype.card ι) / 2

/-- The damped curvature of the weight of a layer: the Kronecker product of the second moments of output gradients and inputs, plus the damping. -/
def damped {n d : ℕ} (l : ℝ) (U : Matrix (Fin n) (Fin n) ℝ) (G : Matrix (Fin d) (Fin d) ℝ) : Matrix (Fin d × Fin n) (Fin d × Fin n) ℝ := G ⊗ₖ U + l • 1

/-- The preconditioner made of factors `K` and `C` (C27: a step multiplies the gradient of the weight with it). -/
def kronOf {n d : ℕ} (K : Matrix (Fin n) (Fin n) ℝ) (C : Matrix (Fin d) (Fin d) ℝ) : Matrix (Fin d × Fin n) (Fin d × Fin n) ℝ := (C * Cᵀ) ⊗ₖ (K * Kᵀ)

/-- invertible and of a class (dense: any matrix) -/
def Shaped (c : Cls) {n : ℕ} (K : Matrix (Fin n) (Fin n) ℝ) : Prop := K.det ≠ 0 ∧ (c = .dense ∨ ∀ i j, i ≠ j → K i j = 0)

/-- `K`, `C` make the best preconditioner among all invertible pairs of their classes -/
def BestPair (cl : Cls × Cls) {n d : ℕ} (l : ℝ) (U K : Matrix (Fin n) (Fin n) ℝ) (G C : Matrix (Fin d) (Fin d) ℝ) : Prop :=
  Shaped cl.1 K ∧ Shaped cl.2 C ∧ ∀ K₁ C₁, Shaped cl.1 K₁ → Shaped cl.2 C₁ → gaussKL (damped l U G) (kronOf K C) ≤ gaussKL (damped l U G) (kronOf K₁ C₁)

theorem log_sub_one {x : ℝ} (h : 0 < x) : 0 ≤ x - Real.log x - 1 ∧ (x - Real.log x - 1 = 0 → x = 1) := by
  have h1 := Real.log_le_sub_one_of_pos h
  refine ⟨by linarith, fun e => ?_⟩
  by_contra hx
  have := Real.log_lt_sub_one_of_pos h hx
  linarith

/-- **C67 (the divergence).** For a positive definite `M` and an invertible `A`, the divergence of the covariance `A Aᵀ` is nonnegative, and zero
exactly if `A Aᵀ = M⁻¹`. -/
theorem C67_divergence {ι : Type} [Fintype ι] [DecidableEq ι] {M A : Matrix ι ι ℝ} (hM : M.PosDef) (hA : A.det ≠ 0) :
    0 ≤ gaussKL M (A * Aᵀ) ∧ (gaussKL M (A * Aᵀ) = 0 ↔ A * Aᵀ = M⁻¹) := by
  have uA : IsUnit A := (isUnit_iff_isUnit_det A).2 (isUnit_iff_ne_zero.2 hA)
  have hX : (Aᵀ * M * A).PosDef := by
    have := hM.conjTranspose_mul_mul_same (B := A) (mulVec_injective_iff_isUnit.2 uA)
    rwa [conjTranspose_eq_transpose_of_trivial] at this
  have hH := hX.isHermitian
  have e0 := hX.eigenvalues_pos
  have et : (M * (A * Aᵀ)).trace = ∑ i, hH.eigenvalues i := by
    have := hH.trace_eq_sum_eigenvalues
    rw [← Matrix.mul_assoc, Matrix.trace_mul_comm, ← Matrix.mul_assoc, this]
    simp
  have ed : (M * (A * Aᵀ)).det = ∏ i, hH.eigenvalues i := by
    have := hH.det_eq_prod_eigenvalues
    rw [det_mul, det_mul] at this
    rw [det_mul, det_mul]
    simp only [RCLike.ofReal_real_eq_id, id_eq] at this
    rw [← this]; ring
  have ek : gaussKL M (A * Aᵀ) = (∑ i, (hH.eigenvalues i - Real.log (hH.eigenvalues i) - 1)) / 2 := by
    rw [gaussKL, et, ed, Real.log_prod (fun i _ => (e0 i).ne')]
    simp [Finset.sum_sub_distrib]
  have nn : ∀ i ∈ Finset.univ, 0 ≤ hH.eigenvalues i - Real.log (hH.eigenvalues i) - 1 := fun i _ => (log_sub_one (e0 i)).1
  have uM : IsUnit M.det := isUnit_iff_ne_zero.2 hM.det_pos.ne'
  refine ⟨by rw [ek]; exact div_nonneg (Finset.sum_nonneg nn) two_pos.le, fun e => ?_, fun e => ?_⟩
  · rw [ek, div_eq_zero_iff, or_iff_left two_ne_zero, Finset.sum_eq_zero_iff_of_nonneg nn] at e
    have e1 : ∀ i, hH.eigenvalues i = 1 := fun i => (log_sub_one (e0 i)).2 (e i (Finset.mem_univ i))
    have hone : Aᵀ * M * A = 1 := by
      rw [hH.spectral_theorem]
      have : diagonal (RCLike.ofReal ∘ hH.eigenvalues : ι → ℝ) = 1 := by
        rw [← diagonal_one]; congr 1; funext i; simp [e1]
      rw [this, map_one]
    have h2 : M * (A * Aᵀ) = 1 := by
      rw [← Matrix.mul_assoc, mul_eq_one_comm, ← Matrix.mul_assoc]; exact hone
    exact (Matrix.inv_eq_right_inv h2).symm
  · rw [gaussKL, e, Matrix.mul_nonsing_inv _ uM, trace_one, det_one, Real.log_one]; simp

theorem trace_shaped {c : Cls} {n : ℕ} {K : Matrix (Fin n) (Fin n) ℝ} (h : c = .dense ∨ ∀ i j, i ≠ j → K i j = 0) (U : Matrix (Fin n) (Fin n) ℝ) :
    (U * (K * Kᵀ)).trace = (Kᵀ * seen c U * K).trace := by
  rw [← Matrix.mul_assoc, Matrix.trace_mul_comm, ← Matrix.mul_assoc]
  unfold seen
  split
  · rfl
  next hc =>
    have hK := h.resolve_left hc
    refine Finset.sum_congr rfl fun i _ => ?_
    simp only [diag_apply, Matrix.mul_apply, transpose_apply]
    refine Finset.sum_congr rfl fun j _ => ?_
    by_cases e : j = i
    · subst e
      congr 1
      rw [Finset.sum_eq_single j (fun k _ hk => by rw [hK k j hk, zero_mul]) (by simp), Finset.sum_eq_single j (fun k _ hk => by rw [hK k j hk, zero_mul]) (by simp),
        diagonal_apply_eq]
    · rw [hK j i e, mul_zero, mul_zero]

/-- the divergence in terms of the factors -/
theorem kl_eq {cl : Cls × Cls} {n d : ℕ} {l : ℝ} {U K : Matrix (Fin n) (Fin n) ℝ} {G C : Matrix (Fin d) (Fin d) ℝ} (hM : (damped l U G).det ≠ 0) (hK : Shaped cl.1 K)
    (hC : Shaped cl.2 C) : gaussKL (damped l U G) (kronOf K C) = (Coupled.objective l (seen cl.1 U) K (seen cl.2 G) C - Real.log (damped l U G).det - d * n) / 2 := by
  have hs : (kronOf K C).det = (K.det ^ 2) ^ d * (C.det ^ 2) ^ n := by
    rw [kronOf, det_kronecker, det_mul, det_mul, det_transpose, det_transpose, Fintype.card_fin, Fintype.card_fin, sq, sq, mul_comm]
  have p1 := pow_ne_zero 2 hK.1
  have p2 := pow_ne_zero 2 hC.1
  have ht : (damped l U G * kronOf K C).trace = Coupled.traces l (seen cl.1 U) K (seen cl.2 G) C := by
    rw [damped, kronOf, Matrix.add_mul, ← mul_kronecker_mul, Matrix.smul_mul, Matrix.one_mul, trace_add, trace_smul, trace_kronecker, trace_kronecker,
      trace_shaped hK.2, trace_shaped hC.2, Coupled.traces, smul_eq_mul, Matrix.trace_mul_comm K, Matrix.trace_mul_comm C]
    ring
  rw [gaussKL, ht, det_mul, hs, Real.log_mul hM (mul_ne_zero (pow_ne_zero _ p1) (pow_ne_zero _ p2)), Real.log_mul (pow_ne_zero _ p1) (pow_ne_zero _ p2),
    Real.log_pow (K.det ^ 2) d, Real.log_pow (C.det ^ 2) n, Fintype.card_prod, Fintype.card_fin, Fintype.card_fin]
  have : Coupled.objective l (seen cl.1 U) K (seen cl.2 G) C = Coupled.traces l (seen cl.1 U) K (seen cl.2 G) C - d * Real.log (K.det ^ 2) - n * Real.log (C.det ^ 2) := rfl
  rw [this]
  push_cast
  ring

theorem damped_pos {n d : ℕ} {l : ℝ} (l0 : 0 < l) {U : Matrix (Fin n) (Fin n) ℝ} {G : Matrix (Fin d) (Fin d) ℝ} (hU : U.PosSemidef) (hG : G.PosSemidef) :
    (damped l U G).PosDef := PosDef.posSemidef_add (hG.kronecker hU) (PosDef.one.smul l0)

/-- differences of divergences are differences of objectives -/
theorem kl_le {cl : Cls × Cls} {n d : ℕ} {l : ℝ} (l0 : 0 < l) {U K K₁ : Matrix (Fin n) (Fin n) ℝ} {G C C₁ : Matrix (Fin d) (Fin d) ℝ} (hU : U.PosSemidef)
    (hG : G.PosSemidef) (hK : Shaped cl.1 K) (hC : Shaped cl.2 C) (hK₁ : Shaped cl.1 K₁) (hC₁ : Shaped cl.2 C₁) :
    gaussKL (damped l U G) (kronOf K C) ≤ gaussKL (damped l U G) (kronOf K₁ C₁) ↔
      Coupled.objective l (seen cl.1 U) K (seen cl.2 G) C ≤ Coupled.objective l (seen cl.1 U) K₁ (seen cl.2 G) C₁ := by
  have hM := (damped_pos l0 hU hG).det_pos.ne'
  rw [kl_eq hM hK hC, kl_eq hM hK₁ hC₁, div_le_div_iff_of_pos_right two_pos]
  constructor <;> intro h <;> linarith

/-! ## The rounds of the default update -/

section
variable {cl : String → Cls × Cls} {m : Layer} {h : Hyper ℝ} {ops : ℕ → List (Op ℝ)} {attr : ℕ → Option ℝ} {w : World ℝ}

/-- Training in rounds, seen from layer `m` with hyper-parameters `h`: not `kfac_like`, dense or diagonal factors without momentum, positive damping;
between steps only forward and backward passes, assignments of gradients and of the scale; no backward pass through `m` before steps that do not
update the factors. -/
structure Coupling (cl : String → Cls × Cls) (m : Layer) (h : Hyper ℝ) (ops : ℕ → List (Op ℝ)) (attr : ℕ → Option ℝ) (w : World ℝ) : Prop where
  live : w.Live cl
  fits : ∀ t, FitsRun (w.rounds ops attr t) (ops t ++ [.step false (attr t) false])
  quiet : ∀ t, ∀ op ∈ ops t, op.Quiet
  mem : m ∈ w.opt.layers
  hyper : w.opt.hyperOf m = .ok h
  fresh : w.opt.HKs m.name = none ∧ w.opt.HCs m.name = none
  kfac : h.kfacLike = false
  alpha : h.alpha1 = 0
  damping : 0 < h.damping
  idle : ∀ t, (w.opt.steps + t) % h.T ≠ 0 → fired m.name (ops t) (w.rounds ops attr t) = []
  clsK : (cl m.name).1 = .dense ∨ (cl m.name).1 = .diagonal
  clsC : (cl m.name).2 = .dense ∨ (cl m.name).2 = .diagonal

/-- `K` after `t` rounds -/
noncomputable def facK (m : Layer) (ops : ℕ → List (Op ℝ)) (attr : ℕ → Option ℝ) (w : World ℝ) (t : ℕ) : Matrix (Fin m.nK) (Fin m.nK) ℝ :=
  denO ((w.rounds ops attr t).opt.Ks m.name) m.nK
/-- `C` after `t` rounds -/
noncomputable def facC (m : Layer) (ops : ℕ → List (Op ℝ)) (attr : ℕ → Option ℝ) (w : World ℝ) (t : ℕ) : Matrix (Fin m.nC) (Fin m.nC) ℝ :=
  denO ((w.rounds ops attr t).opt.Cs m.name) m.nC
/-- the second moment of the inputs of round `t` -/
noncomputable def momK (m : Layer) (h : Hyper ℝ) (ops : ℕ → List (Op ℝ)) (attr : ℕ → Option ℝ) (w : World ℝ) (t : ℕ) : Matrix (Fin m.nK) (Fin m.nK) ℝ :=
  ((fired m.name (ops t) (w.rounds ops attr t)).map fun e => inputMoment h m e.1).sum
/-- the second moment of the output gradients of round `t`, divided by the scale -/
noncomputable def momC (m : Layer) (h : Hyper ℝ) (ops : ℕ → List (Op ℝ)) (attr : ℕ → Option ℝ) (w : World ℝ) (t : ℕ) : Matrix (Fin m.nC) (Fin m.nC) ℝ :=
  (1 / (run (ops t) (w.rounds ops attr t)).curScale (attr t) ^ 2) • ((fired m.name (ops t) (w.rounds ops attr t)).map fun e => gradMoment h m e.2).sum

/-- the curvature `X_K` of the input factor; the direction of an update is `½ (X_K − 1)` -/
noncomputable def curvK (cl : Cls × Cls) {n d : ℕ} (l : ℝ) (U K : Matrix (Fin n) (Fin n) ℝ) (G C : Matrix (Fin d) (Fin d) ℝ) : Matrix (Fin n) (Fin n) ℝ :=
  Coupled.curv l (seen cl.1 U) K (seen cl.2 G) C
/-- the curvature `X_C` of the output factor -/
noncomputable def curvC (cl : Cls × Cls) {n d : ℕ} (l : ℝ) (U K : Matrix (Fin n) (Fin n) ℝ) (G C : Matrix (Fin d) (Fin d) ℝ) : Matrix (Fin d) (Fin d) ℝ :=
  Coupled.curv l (seen cl.2 G) C (seen cl.1 U) K

theorem sandwich_one {c : Cls} (hc : c = .dense ∨ c = .diagonal) {n : ℕ} (A : Matrix (Fin n) (Fin n) ℝ) : c.sandwich A 1 = Aᵀ * A := by
  rcases hc with rfl | rfl <;> exact congrArg (· * A) (Matrix.mul_one Aᵀ)

/-- one round -/
theorem Coupling.round (R : Coupling cl m h ops attr w) {t : ℕ} (B : Between cl m h t w (w.rounds ops attr t)) :
    Between cl m h (t + 1) w (w.rounds ops attr (t + 1)) ∧
    ((w.opt.steps + t) % h.T ≠ 0 → facK m ops attr w (t + 1) = facK m ops attr w t ∧ facC m ops attr w (t + 1) = facC m ops attr w t) ∧
    ((w.opt.steps + t) % h.T = 0 → ∀ K C X Y, K = facK m ops attr w t → C = facC m ops attr w t →
      X = curvK (cl m.name) h.damping (momK m h ops attr w t) K (momC m h ops attr w t) C - 1 →
      Y = curvC (cl m.name) h.damping (momK m h ops attr w t) K (momC m h ops attr w t) C - 1 →
      ∃ a b, IsRate h (w.opt.steps + t) ((1 / 2 : ℝ) • X) a ∧ IsRate h (w.opt.steps + t) ((1 / 2 : ℝ) • Y) b ∧
        facK m ops attr w (t + 1) = K * (1 - (a / 2) • X) ∧ facC m ops attr w (t + 1) = C * (1 - (b / 2) • Y)) := by
  unfold momK momC facK facC curvK curvC Coupled.curv
  generalize hv : w.rounds ops attr t = v at B
  have f := R.fits t
  rw [hv] at f
  obtain ⟨f1, f2, -⟩ := along_append.1 f
  have W := B.live.window f1 (R.quiet t)
  obtain ⟨v', e, sp, lv'⟩ := W.live.step f2
  have er : w.rounds ops attr (t + 1) = v' := by
    rw [World.rounds, hv, run_append, run_cons, e]; rfl
  rw [er]
  have hm' : m ∈ (run (ops t) v).opt.layers := by rw [W.layers]; exact B.mem
  have hh' : (run (ops t) v).opt.hyperOf m = .ok h := by rw [W.hyperOf]; exact B.hyper
  have L := sp.layer m hm' h hh'
  obtain ⟨p, hp⟩ := B.live.prev
  have p0 := (B.live.pos _ _ hp).ne'
  have St := W.stats m B.mem h p B.hyper hp
  have good := B.live.sound.good m B.mem
  have hs : (run (ops t) v).opt.steps = w.opt.steps + t := by rw [W.steps, B.steps]
  have nofire : (w.opt.steps + t) % h.T ≠ 0 → fired m.name (ops t) v = [] := by
    intro h1; have := R.idle t h1; rwa [hv] at this
  refine ⟨⟨lv', by rw [sp.layers]; exact hm', ?_, ?_, by rw [sp.steps, hs]; ring⟩, fun h1 => ?_, fun h1 => ?_⟩
  · have : v'.opt.hyperOf m = (run (ops t) v).opt.hyperOf m := by unfold Opt.hyperOf; rw [sp.ptrGroup, sp.groups]
    rw [this, hh']
  · by_cases h1 : (w.opt.steps + t) % h.T = 0
    · have U := L.upd (by rw [hs]; exact h1)
      exact ⟨U.HK, U.HC⟩
    · have s := L.noupd (by rw [hs]; exact h1)
      have g1 := St.HK0.2 ⟨B.fresh.1, nofire h1⟩
      have g2 := St.HC0.2 ⟨B.fresh.2, nofire h1⟩
      exact ⟨by rw [s.HKs]; exact g1, by rw [s.HCs]; exact g2⟩
  · have s := L.noupd (by rw [hs]; exact h1)
    exact ⟨by rw [s.Ks, W.Ks], by rw [s.Cs, W.Cs]⟩
  · obtain ⟨mK, mC, bK, bC, -, e2, e3, e4, e5, e6, e7⟩ := (L.upd (by rw [hs]; exact h1)).eqs
    rw [hs] at e4 e5
    rw [R.alpha, zero_smul, zero_add] at e2 e3
    have dS : dirScale h = 1 := by unfold dirScale; split <;> simp [R.alpha]
    rintro K C X Y rfl rfl rfl rfl
    obtain ⟨A, eA, wA⟩ := (B.live.sound.lay m B.mem).K
    obtain ⟨A', eA', wA'⟩ := (B.live.sound.lay m B.mem).C
    have cm : Commutes (cl m.name).1 (denO (v.opt.Ks m.name) m.nK) := by rw [eA]; exact commutes_of_wf R.clsK wA
    have cm' : Commutes (cl m.name).2 (denO (v.opt.Cs m.name) m.nC) := by rw [eA']; exact commutes_of_wf R.clsC wA'
    have eH := St.HK
    rw [B.fresh.1, show denO (none : Option (SM ℝ)) m.nK = 0 from rfl, zero_add, sum_commutes cm, proj_seen R.clsK] at eH
    have eH' := St.HC
    rw [B.fresh.2, show denO (none : Option (SM ℝ)) m.nC = 0 from rfl, zero_add, sum_commutes cm', proj_seen R.clsC] at eH'
    have eu : (run (ops t) v).unscale (attr t) = p * (1 / (run (ops t) v).curScale (attr t) ^ 2) := by
      rw [World.unscale, W.steps, W.prev, hp]
      simp only [Option.getD_some]
      field_simp
    have hpp : p * (1 / (run (ops t) v).curScale (attr t) ^ 2) * (1 / p) = 1 / (run (ops t) v).curScale (attr t) ^ 2 := by field_simp
    have e2' : mK = (1 / 2 : ℝ) • (avgTr ((denO (v.opt.Cs m.name) m.nC)ᵀ * seen (cl m.name).2 ((1 / (run (ops t) v).curScale (attr t) ^ 2) •
          ((fired m.name (ops t) v).map fun e => gradMoment h m e.2).sum) * denO (v.opt.Cs m.name) m.nC) •
        ((denO (v.opt.Ks m.name) m.nK)ᵀ * seen (cl m.name).1 ((fired m.name (ops t) v).map fun e => inputMoment h m e.1).sum * denO (v.opt.Ks m.name) m.nK) +
        (h.damping * avgTr ((denO (v.opt.Cs m.name) m.nC)ᵀ * denO (v.opt.Cs m.name) m.nC)) • ((denO (v.opt.Ks m.name) m.nK)ᵀ * denO (v.opt.Ks m.name) m.nK) - 1) := by
      rw [e2, dirK, dS, eH, eH', W.Ks, W.Cs, updDir, cm, proj_one good.supK, sandwich_one R.clsC, eu, seen_smul]
      simp only [R.kfac, Bool.false_eq_true, if_false, Matrix.mul_one, Matrix.mul_smul, Matrix.smul_mul, avgTr_smul, mul_one]
      congr 4
      field_simp
    have e3' : mC = (1 / 2 : ℝ) • (avgTr ((denO (v.opt.Ks m.name) m.nK)ᵀ * seen (cl m.name).1 ((fired m.name (ops t) v).map fun e => inputMoment h m e.1).sum *
          denO (v.opt.Ks m.name) m.nK) •
        ((denO (v.opt.Cs m.name) m.nC)ᵀ * seen (cl m.name).2 ((1 / (run (ops t) v).curScale (attr t) ^ 2) •
          ((fired m.name (ops t) v).map fun e => gradMoment h m e.2).sum) * denO (v.opt.Cs m.name) m.nC) +
        (h.damping * avgTr ((denO (v.opt.Ks m.name) m.nK)ᵀ * denO (v.opt.Ks m.name) m.nK)) • ((denO (v.opt.Cs m.name) m.nC)ᵀ * denO (v.opt.Cs m.name) m.nC) - 1) := by
      rw [e3, dirC, dS, eH, eH', W.Ks, W.Cs, updDir, cm', proj_one good.supC, sandwich_one R.clsK, eu, seen_smul]
      simp only [R.kfac, Bool.false_eq_true, if_false, Matrix.mul_one, Matrix.mul_smul, Matrix.smul_mul, avgTr_smul, mul_one, smul_smul]
      congr 4
      field_simp
    refine ⟨bK, bC, by rw [← e2']; exact e4, by rw [← e3']; exact e5, ?_, ?_⟩
    · rw [e6, e2', W.Ks, smul_smul]
      congr 3
      ring
    · rw [e7, e3', W.Cs, smul_smul]
      congr 3
      ring

theorem Coupling.between (R : Coupling cl m h ops attr w) : ∀ t, Between cl m h t w (w.rounds ops attr t)
  | 0 => ⟨R.live, R.mem, R.hyper, R.fresh, rfl⟩
  | t + 1 => (R.round (R.between t)).1

theorem Coupling.T_ne (R : Coupling cl m h ops attr w) : h.T ≠ 0 := by
  obtain ⟨h', e, hT⟩ := R.live.sound.hyper m R.mem
  rw [R.hyper] at e; cases e
  exact hT

/-- the factors stay in their classes -/
theorem Coupling.off (R : Coupling cl m h ops attr w) (t : ℕ) : ((cl m.name).1 = .dense ∨ ∀ i j, i ≠ j → facK m ops attr w t i j = 0) ∧
    ((cl m.name).2 = .dense ∨ ∀ i j, i ≠ j → facC m ops attr w t i j = 0) := by
  have B := R.between t
  constructor
  · refine R.clsK.imp_right fun hd i j hij => ?_
    obtain ⟨A, eA, wA⟩ := (B.live.sound.lay m B.mem).K
    rw [facK, eA]; rw [hd] at wA; exact wf_diagonal wA hij
  · refine R.clsC.imp_right fun hd i j hij => ?_
    obtain ⟨A, eA, wA⟩ := (B.live.sound.lay m B.mem).C
    rw [facC, eA]; rw [hd] at wA; exact wf_diagonal wA hij

theorem curv_off {c : Cls} {n d : ℕ} {l : ℝ} {U K : Matrix (Fin n) (Fin n) ℝ} {G C : Matrix (Fin d) (Fin d) ℝ} (hK : c = .dense ∨ ∀ i j, i ≠ j → K i j = 0) :
    c = .dense ∨ ∀ i j, i ≠ j → (Coupled.curv l (seen c U) K G C - 1) i j = 0 := by
  by_cases hc : c = .dense
  · exact Or.inl hc
  refine Or.inr fun i j hij => ?_
  have hK := hK.resolve_left hc
  have h1 : (Kᵀ * seen c U * K) i j = 0 := sandwich_diagonal (fun i j hij => by rw [seen, if_neg hc, diagonal_apply_ne _ hij]) hK hij
  have h2 : (Kᵀ * (1 : Matrix (Fin n) (Fin n) ℝ) * K) i j = 0 := sandwich_diagonal (fun i j hij => one_apply_ne hij) hK hij
  rw [Matrix.mul_one] at h2
  rw [Coupled.curv, Matrix.sub_apply, Matrix.add_apply, Matrix.smul_apply, Matrix.smul_apply, h1, h2, one_apply_ne hij]
  simp

theorem mul_off {c : Cls} {n : ℕ} {K N : Matrix (Fin n) (Fin n) ℝ} (hK : c = .dense ∨ ∀ i j, i ≠ j → K i j = 0) (hN : c = .dense ∨ ∀ i j, i ≠ j → N i j = 0) (e : ℝ) :
    c = .dense ∨ ∀ i j, i ≠ j → (K * (1 - e • N)) i j = 0 := by
  rcases hK with hK | hK
  · exact Or.inl hK
  refine hN.imp_right fun hN i j hij => ?_
  rw [Matrix.mul_apply]
  refine Finset.sum_eq_zero fun k _ => ?_
  by_cases hk : i = k
  · subst hk
    rw [Matrix.sub_apply, Matrix.smul_apply, hN i j hij, one_apply_ne hij]; simp
  · rw [hK i k hk, zero_mul]

/-- what the rates have to satisfy -/
structure Tame {n : ℕ} (X : Matrix (Fin n) (Fin n) ℝ) (a : ℝ) : Prop where
  nonneg : 0 ≤ a
  le : 4 * a ≤ 1
  below : ∃ x, Coupled.Below x X ∧ a * (9 * x + 8) ≤ 2

/-- a normalised rate -/
theorem tame_norm (hn : h.normalize = true) {c : Cls} {n t : ℕ} {X : Matrix (Fin n) (Fin n) ℝ} (hX : Xᵀ = X) (ho : c = .dense ∨ ∀ i j, i ≠ j → X i j = 0) {a : ℝ}
    (hr : IsRate h t ((1 / 2 : ℝ) • X) a) (b0 : 0 ≤ h.lrCov.at t) (b1 : (9 * c.width n + 4) * h.lrCov.at t ≤ 1) : Tame X a := by
  rw [IsRate, if_pos hn] at hr
  obtain ⟨v, hv, rfl⟩ := hr
  have m0 : 0 < max 1 v := lt_max_of_lt_left one_pos
  have r := Normed.rate (v := v) b0
  have w0 : (0 : ℝ) ≤ c.width n := Nat.cast_nonneg _
  have v0 : 0 ≤ v := by obtain ⟨i, j, e⟩ := hv.1; rw [e]; exact abs_nonneg _
  have ent : ∀ i j, |X i j| ≤ 2 * v := fun i j => by
    have := hv.2 i j
    rw [Matrix.smul_apply, smul_eq_mul, abs_mul, abs_of_pos (by norm_num : (0 : ℝ) < 1 / 2)] at this
    linarith
  refine ⟨r.1, by nlinarith [r.2], c.width n * (2 * v), Coupled.below_of_quad hX fun x => ?_, ?_⟩
  · unfold Cls.width
    split
    next => exact Verif.Normalized.quad_le_max ent x
    next hc =>
      rw [Nat.cast_one, one_mul]
      exact Verif.Normalized.quad_le_diag (fun i => (le_abs_self _).trans (ent i i)) (ho.resolve_left hc) x
  · have h1 : v ≤ max 1 v := le_max_right _ _
    have h2 : 1 ≤ max 1 v := le_max_left _ _
    rw [div_mul_eq_mul_div, div_le_iff₀ m0]
    have h3 : (9 * c.width n + 4) * h.lrCov.at t * (2 * max 1 v) ≤ 1 * (2 * max 1 v) := mul_le_mul_of_nonneg_right b1 (by linarith)
    have h4 : h.lrCov.at t * (c.width n * v) ≤ h.lrCov.at t * (c.width n * max 1 v) := mul_le_mul_of_nonneg_left (mul_le_mul_of_nonneg_left h1 w0) b0
    have h5 : h.lrCov.at t * 1 ≤ h.lrCov.at t * max 1 v := mul_le_mul_of_nonneg_left h2 b0
    linarith

theorem tame_plain (hn : h.normalize = false) {n t : ℕ} {X : Matrix (Fin n) (Fin n) ℝ} (hX : (X - 1)ᵀ = X - 1) {a : ℝ}
    (hr : IsRate h t ((1 / 2 : ℝ) • (X - 1)) a) (b0 : 0 ≤ h.lrCov.at t) (b1 : 4 * h.lrCov.at t ≤ 1) {x : ℝ} (hx : ∀ v, v ⬝ᵥ X *ᵥ v ≤ x * (v ⬝ᵥ v))
    (b2 : h.lrCov.at t * (9 * x - 1) ≤ 2) : Tame (X - 1) a := by
  rw [IsRate, if_neg (by simp [hn])] at hr
  subst hr
  refine ⟨b0, b1, x - 1, Coupled.below_of_quad hX fun v => ?_, by linarith⟩
  have := hx v
  rw [sub_mulVec, one_mulVec, dotProduct_sub, sub_mul, one_mul]
  linarith

/-- one update with tame rates -/
theorem kl_descent {cc : Cls × Cls} {n d : ℕ} (n0 : 0 < n) (d0 : 0 < d) {l : ℝ} (l0 : 0 < l) {U K X : Matrix (Fin n) (Fin n) ℝ} {G C Y : Matrix (Fin d) (Fin d) ℝ}
    (hU : U.PosSemidef) (hG : G.PosSemidef) (hK : Shaped cc.1 K) (hC : Shaped cc.2 C) (eX : X = curvK cc l U K G C - 1) (eY : Y = curvC cc l U K G C - 1) {a b : ℝ}
    (ha : Tame X a) (hb : Tame Y b) : Shaped cc.1 (K * (1 - (a / 2) • X)) ∧ Shaped cc.2 (C * (1 - (b / 2) • Y)) ∧
    gaussKL (damped l U G) (kronOf (K * (1 - (a / 2) • X)) (C * (1 - (b / 2) • Y))) ≤ gaussKL (damped l U G) (kronOf K C) ∧
    (gaussKL (damped l U G) (kronOf (K * (1 - (a / 2) • X)) (C * (1 - (b / 2) • Y))) = gaussKL (damped l U G) (kronOf K C) →
      K * (1 - (a / 2) • X) = K ∧ C * (1 - (b / 2) • Y) = C) := by
  obtain ⟨a0, a4, x, hx, ax⟩ := ha
  obtain ⟨b0, b4, y, hy, bY⟩ := hb
  rw [eX] at hx
  rw [eY] at hy
  obtain ⟨h1, h2, h3⟩ := Coupled.descent n0 d0 l0.le (seen_psd cc.1 hU) (seen_psd cc.2 hG) hK.1 hC.1 (ε := a / 2) (ε' := b / 2) (by linarith) (by linarith) hx
    (by linarith) (by linarith) (by linarith) hy (by linarith)
  have sK : Shaped cc.1 (K * (1 - (a / 2) • X)) := ⟨by rw [det_mul, eX]; exact mul_ne_zero hK.1 h1, mul_off hK.2 (by rw [eX]; exact curv_off hK.2) _⟩
  have sC : Shaped cc.2 (C * (1 - (b / 2) • Y)) := ⟨by rw [det_mul, eY]; exact mul_ne_zero hC.1 h2, mul_off hC.2 (by rw [eY]; exact curv_off hC.2) _⟩
  have h3' : Coupled.objective l (seen cc.1 U) (K * (1 - (a / 2) • X)) (seen cc.2 G) (C * (1 - (b / 2) • Y)) + d * (a / 2 / 2 * Coupled.sqs X) +
      n * (b / 2 / 2 * Coupled.sqs Y) ≤ Coupled.objective l (seen cc.1 U) K (seen cc.2 G) C := by rw [eX, eY]; exact h3
  have n0' : (0 : ℝ) < n := by exact_mod_cast n0
  have d0' : (0 : ℝ) < d := by exact_mod_cast d0
  have p1 : 0 ≤ a / 2 / 2 * Coupled.sqs X := mul_nonneg (by linarith) (Coupled.sqs_nonneg X)
  have p2 : 0 ≤ b / 2 / 2 * Coupled.sqs Y := mul_nonneg (by linarith) (Coupled.sqs_nonneg Y)
  refine ⟨sK, sC, (kl_le l0 hU hG sK sC hK hC).2 ?_, fun e => ?_⟩
  · have := mul_nonneg d0'.le p1
    have := mul_nonneg n0'.le p2
    linarith
  · have e' := (kl_le l0 hU hG hK hC sK sC).1 e.ge
    have q1 : a / 2 / 2 * Coupled.sqs X = 0 := by
      have := mul_nonneg d0'.le p1
      have := mul_nonneg n0'.le p2
      have : d * (a / 2 / 2 * Coupled.sqs X) = 0 := by linarith
      exact (mul_eq_zero.1 this).resolve_left d0'.ne'
    have q2 : b / 2 / 2 * Coupled.sqs Y = 0 := by
      have := mul_nonneg d0'.le p1
      have := mul_nonneg n0'.le p2
      have : n * (b / 2 / 2 * Coupled.sqs Y) = 0 := by linarith
      exact (mul_eq_zero.1 this).resolve_left n0'.ne'
    constructor
    · rcases mul_eq_zero.1 q1 with h | h
      · rw [show a / 2 = 0 by linarith, zero_smul, sub_zero, Matrix.mul_one]
      · rw [Coupled.sqs_eq_zero h, smul_zero, sub_zero, Matrix.mul_one]
    · rcases mul_eq_zero.1 q2 with h | h
      · rw [show b / 2 = 0 by linarith, zero_smul, sub_zero, Matrix.mul_one]
      · rw [Coupled.sqs_eq_zero h, smul_zero, sub_zero, Matrix.mul_one]

theorem momK_psd (t : ℕ) : (momK m h ops attr w t).PosSemidef := inputs_psd h m _
theorem momC_psd (t : ℕ) : (momC m h ops attr w t).PosSemidef := grads_psd h m _ _

theorem curvK_symm {cc : Cls × Cls} {n d : ℕ} {l : ℝ} {U K : Matrix (Fin n) (Fin n) ℝ} {G C : Matrix (Fin d) (Fin d) ℝ} (hU : U.PosSemidef) :
    (curvK cc l U K G C - 1)ᵀ = curvK cc l U K G C - 1 := by rw [transpose_sub, transpose_one, curvK, Coupled.curv_symm (seen_psd _ hU)]
theorem curvC_symm {cc : Cls × Cls} {n d : ℕ} {l : ℝ} {U K : Matrix (Fin n) (Fin n) ℝ} {G C : Matrix (Fin d) (Fin d) ℝ} (hG : G.PosSemidef) :
    (curvC cc l U K G C - 1)ᵀ = curvC cc l U K G C - 1 := by rw [transpose_sub, transpose_one, curvC, Coupled.curv_symm (seen_psd _ hG)]

/-- The divergence of the preconditioner after `t` rounds from the damped curvature with second moments `U` and `G`. -/
noncomputable def klAt (m : Layer) (h : Hyper ℝ) (ops : ℕ → List (Op ℝ)) (attr : ℕ → Option ℝ) (w : World ℝ) (U : Matrix (Fin m.nK) (Fin m.nK) ℝ)
    (G : Matrix (Fin m.nC) (Fin m.nC) ℝ) (t : ℕ) : ℝ := gaussKL (damped h.damping U G) (kronOf (facK m ops attr w t) (facC m ops attr w t))

/-- **C67 (descent for all data).** With `normalize_lr_cov` and `(9 n + 4) lr_cov ≤ 1`, where `n` is the largest number of entries in a row of the factors
that may differ from zero (the dimension of a dense factor, 1 for a diagonal one): on any data, an update keeps invertible factors invertible and does
not increase the divergence of the preconditioner `C Cᵀ ⊗ K Kᵀ` from the inverse of the damped curvature `G ⊗ U + damping` of the round; the divergence stays
the same only if the factors do. -/
theorem C67_descent (R : Coupling cl m h ops attr w) (hn : h.normalize = true) (t : ℕ) (hu : (w.opt.steps + t) % h.T = 0) {b : ℝ} (hb : b = h.lrCov.at (w.opt.steps + t))
    (b0 : 0 ≤ b) (bK : (9 * (cl m.name).1.width m.nK + 4) * b ≤ 1) (bC : (9 * (cl m.name).2.width m.nC + 4) * b ≤ 1)
    (hK : (facK m ops attr w t).det ≠ 0) (hC : (facC m ops attr w t).det ≠ 0) : (facK m ops attr w (t + 1)).det ≠ 0 ∧ (facC m ops attr w (t + 1)).det ≠ 0 ∧
    klAt m h ops attr w (momK m h ops attr w t) (momC m h ops attr w t) (t + 1) ≤ klAt m h ops attr w (momK m h ops attr w t) (momC m h ops attr w t) t ∧
    (klAt m h ops attr w (momK m h ops attr w t) (momC m h ops attr w t) (t + 1) = klAt m h ops attr w (momK m h ops attr w t) (momC m h ops attr w t) t →
      facK m ops attr w (t + 1) = facK m ops attr w t ∧ facC m ops attr w (t + 1) = facC m ops attr w t) := by
  subst hb
  have g := R.live.sound.good m R.mem
  obtain ⟨a, b, r1, r2, e1, e2⟩ := (R.round (R.between t)).2.2 hu _ _ _ _ rfl rfl rfl rfl
  have o := R.off t
  have U := momK_psd (m := m) (h := h) (ops := ops) (attr := attr) (w := w) t
  have G := momC_psd (m := m) (h := h) (ops := ops) (attr := attr) (w := w) t
  obtain ⟨d1, d2, d3, d4⟩ := kl_descent (cc := cl m.name) g.posK g.posC R.damping U G ⟨hK, o.1⟩ ⟨hC, o.2⟩ rfl rfl
    (tame_norm hn (c := (cl m.name).1) (curvK_symm U) (curv_off o.1) r1 b0 bK) (tame_norm hn (c := (cl m.name).2) (curvC_symm G) (curv_off o.2) r2 b0 bC)
  unfold klAt
  rw [e1, e2]
  exact ⟨d1.1, d2.1, d3, d4⟩

/-- **C67 (descent without normalisation).** Without `normalize_lr_cov` the same holds if `lr_cov ≤ 1/4` and `lr_cov (9 x − 1) ≤ 2` for a bound `x` of the
eigenvalues of the curvatures `X_K` and `X_C`. -/
theorem C67_descent_plain (R : Coupling cl m h ops attr w) (hn : h.normalize = false) (t : ℕ) (hu : (w.opt.steps + t) % h.T = 0) {b : ℝ}
    (hb : b = h.lrCov.at (w.opt.steps + t)) (b0 : 0 ≤ b) (b4 : 4 * b ≤ 1) {x : ℝ} (bx : b * (9 * x - 1) ≤ 2) {K : Matrix (Fin m.nK) (Fin m.nK) ℝ}
    {C : Matrix (Fin m.nC) (Fin m.nC) ℝ} (eK : K = facK m ops attr w t) (eC : C = facC m ops attr w t)
    (hx : ∀ v, v ⬝ᵥ curvK (cl m.name) h.damping (momK m h ops attr w t) K (momC m h ops attr w t) C *ᵥ v ≤ x * (v ⬝ᵥ v))
    (hy : ∀ v, v ⬝ᵥ curvC (cl m.name) h.damping (momK m h ops attr w t) K (momC m h ops attr w t) C *ᵥ v ≤ x * (v ⬝ᵥ v))
    (hK : K.det ≠ 0) (hC : C.det ≠ 0) : (facK m ops attr w (t + 1)).det ≠ 0 ∧ (facC m ops attr w (t + 1)).det ≠ 0 ∧
    klAt m h ops attr w (momK m h ops attr w t) (momC m h ops attr w t) (t + 1) ≤ klAt m h ops attr w (momK m h ops attr w t) (momC m h ops attr w t) t ∧
    (klAt m h ops attr w (momK m h ops attr w t) (momC m h ops attr w t) (t + 1) = klAt m h ops attr w (momK m h ops attr w t) (momC m h ops attr w t) t →
      facK m ops attr w (t + 1) = facK m ops attr w t ∧ facC m ops attr w (t + 1) = facC m ops attr w t) := by
  subst hb eK eC
  have g := R.live.sound.good m R.mem
  obtain ⟨a, b, r1, r2, e1, e2⟩ := (R.round (R.between t)).2.2 hu _ _ _ _ rfl rfl rfl rfl
  have o := R.off t
  have U := momK_psd (m := m) (h := h) (ops := ops) (attr := attr) (w := w) t
  have G := momC_psd (m := m) (h := h) (ops := ops) (attr := attr) (w := w) t
  obtain ⟨d1, d2, d3, d4⟩ := kl_descent (cc := cl m.name) g.posK g.posC R.damping U G ⟨hK, o.1⟩ ⟨hC, o.2⟩ rfl rfl
    (tame_plain hn (curvK_symm U) r1 b0 b4 hx bx) (tame_plain hn (curvC_symm G) r2 b0 b4 hy bx)
  unfold klAt
  rw [e1, e2]
  exact ⟨d1.1, d2.1, d3, d4⟩

/-! ## Stationary factors -/

theorem best_of_curv {cc : Cls × Cls} {n d : ℕ} (n0 : 0 < n) (d0 : 0 < d) {l : ℝ} (l0 : 0 < l) {U K : Matrix (Fin n) (Fin n) ℝ} {G C : Matrix (Fin d) (Fin d) ℝ}
    (hU : U.PosSemidef) (hG : G.PosSemidef) (hK : Shaped cc.1 K) (hC : Shaped cc.2 C) :
    BestPair cc l U K G C ↔ curvK cc l U K G C = 1 ∧ curvC cc l U K G C = 1 := by
  constructor
  · rintro ⟨-, -, hb⟩
    refine Coupled.stationary_of_min n0 d0 l0.le (seen_psd _ hU) (seen_psd _ hG) hK.1 hC.1 fun e h1 h2 => ?_
    have sK : Shaped cc.1 (K * (1 - e • (Coupled.curv l (seen cc.1 U) K (seen cc.2 G) C - 1))) := ⟨by rw [det_mul]; exact mul_ne_zero hK.1 h1, mul_off hK.2 (curv_off hK.2) _⟩
    have sC : Shaped cc.2 (C * (1 - e • (Coupled.curv l (seen cc.2 G) C (seen cc.1 U) K - 1))) := ⟨by rw [det_mul]; exact mul_ne_zero hC.1 h2, mul_off hC.2 (curv_off hC.2) _⟩
    exact (kl_le l0 hU hG hK hC sK sC).1 (hb _ _ sK sC)
  · rintro ⟨h1, h2⟩
    exact ⟨hK, hC, fun K₁ C₁ hK₁ hC₁ => (kl_le l0 hU hG hK hC hK₁ hC₁).2
      (Coupled.optimal n0 d0 l0.le (seen_psd _ hU) (seen_psd _ hG) hK.1 hC.1 h1 h2 hK₁.1 hC₁.1).1⟩

/-- **C67 (the best preconditioner is unique).** All best pairs make the same preconditioner. -/
theorem C67_unique {cc : Cls × Cls} {n d : ℕ} (n0 : 0 < n) (d0 : 0 < d) {l : ℝ} (l0 : 0 < l) {U K K₁ : Matrix (Fin n) (Fin n) ℝ} {G C C₁ : Matrix (Fin d) (Fin d) ℝ}
    (hU : U.PosSemidef) (hG : G.PosSemidef) (h : BestPair cc l U K G C) (h₁ : BestPair cc l U K₁ G C₁) : kronOf K₁ C₁ = kronOf K C := by
  obtain ⟨e1, e2⟩ := (best_of_curv n0 d0 l0 hU hG h.1 h.2.1).1 h
  exact Coupled.stationary_kron n0 d0 l0 (seen_psd _ hU) (seen_psd _ hG) h.1.1 h.2.1.1 e1 e2 h₁.1.1 h₁.2.1.1
    ((kl_le l0 hU hG h₁.1 h₁.2.1 h.1 h.2.1).1 (h₁.2.2 _ _ h.1 h.2.1))

theorem rate_ne {t n : ℕ} {X : Matrix (Fin n) (Fin n) ℝ} {a : ℝ} (hr : IsRate h t X a) (b0 : h.lrCov.at t ≠ 0) : a ≠ 0 := by
  unfold IsRate at hr
  split at hr
  · obtain ⟨v, -, rfl⟩ := hr
    exact div_ne_zero b0 (lt_max_of_lt_left one_pos).ne'
  · rw [hr]; exact b0

theorem fixed_iff {n : ℕ} {K X : Matrix (Fin n) (Fin n) ℝ} (hK : K.det ≠ 0) {a : ℝ} (a0 : a ≠ 0) : K * (1 - (a / 2) • X) = K ↔ X = 0 := by
  constructor
  · intro e
    rw [Matrix.mul_sub, Matrix.mul_one, sub_eq_self] at e
    have := congrArg (K⁻¹ * ·) e
    simp only [Matrix.mul_zero] at this
    rw [← Matrix.mul_assoc, nonsing_inv_mul _ (isUnit_iff_ne_zero.2 hK), Matrix.one_mul, smul_eq_zero] at this
    exact this.resolve_left (div_ne_zero a0 two_ne_zero)
  · rintro rfl; simp

/-- **C67 (stationary factors).** In a round that updates the factors with `lr_cov ≠ 0`, invertible factors stay as they are exactly if they are a best pair:
no other invertible factors of their classes make a preconditioner with a smaller divergence from the inverse of the damped curvature of the round. -/
theorem C67_stationary (R : Coupling cl m h ops attr w) (t : ℕ) (hu : (w.opt.steps + t) % h.T = 0) (b0 : h.lrCov.at (w.opt.steps + t) ≠ 0)
    (hK : (facK m ops attr w t).det ≠ 0) (hC : (facC m ops attr w t).det ≠ 0) :
    (facK m ops attr w (t + 1) = facK m ops attr w t ∧ facC m ops attr w (t + 1) = facC m ops attr w t) ↔
      BestPair (cl m.name) h.damping (momK m h ops attr w t) (facK m ops attr w t) (momC m h ops attr w t) (facC m ops attr w t) := by
  have g := R.live.sound.good m R.mem
  obtain ⟨a, b, r1, r2, e1, e2⟩ := (R.round (R.between t)).2.2 hu _ _ _ _ rfl rfl rfl rfl
  have o := R.off t
  rw [best_of_curv g.posK g.posC R.damping (momK_psd t) (momC_psd t) ⟨hK, o.1⟩ ⟨hC, o.2⟩, e1, e2, fixed_iff hK (rate_ne r1 b0), fixed_iff hC (rate_ne r2 b0),
    sub_eq_zero, sub_eq_zero]

/-! ## Steady statistics -/

open Classical in
/-- the sequence of updates -/
theorem Coupling.seq (R : Coupling cl m h ops attr w) {b : ℝ} (hb : h.lrCov = .const b) {U : Matrix (Fin m.nK) (Fin m.nK) ℝ} {G : Matrix (Fin m.nC) (Fin m.nC) ℝ}
    (hU : SteadyK m h ops attr w U) (hG : SteadyC m h ops attr w G) : ∃ (a c : ℕ → ℝ) (K : ℕ → Matrix (Fin m.nK) (Fin m.nK) ℝ) (C : ℕ → Matrix (Fin m.nC) (Fin m.nC) ℝ),
    (∀ t, facK m ops attr w t = K (updates w.opt.steps h.T t) ∧ facC m ops attr w t = C (updates w.opt.steps h.T t)) ∧ ∀ k,
      ((cl m.name).1 = .dense ∨ ∀ i j, i ≠ j → K k i j = 0) ∧ ((cl m.name).2 = .dense ∨ ∀ i j, i ≠ j → C k i j = 0) ∧
      (∃ t, IsRate h t ((1 / 2 : ℝ) • (curvK (cl m.name) h.damping U (K k) G (C k) - 1)) (a k)) ∧
      (∃ t, IsRate h t ((1 / 2 : ℝ) • (curvC (cl m.name) h.damping U (K k) G (C k) - 1)) (c k)) ∧
      K (k + 1) = K k * (1 - (a k / 2) • (curvK (cl m.name) h.damping U (K k) G (C k) - 1)) ∧
      C (k + 1) = C k * (1 - (c k / 2) • (curvC (cl m.name) h.damping U (K k) G (C k) - 1)) := by
  set p : ℕ → Prop := fun t => (w.opt.steps + t) % h.T = 0 with hp
  have inf : (setOf p).Infinite := updates_infinite _ R.T_ne
  have pn : ∀ k, p (Nat.nth p k) := fun k => Nat.nth_mem_of_infinite inf k
  have cn : ∀ k, updates w.opt.steps h.T (Nat.nth p k) = k := fun k => Nat.count_nth_of_infinite inf k
  have const : ∀ {s t : ℕ}, s ≤ t → updates w.opt.steps h.T s = updates w.opt.steps h.T t → facK m ops attr w t = facK m ops attr w s ∧ facC m ops attr w t = facC m ops attr w s := by
    intro s t hst
    induction t, hst using Nat.le_induction with
    | base => exact fun _ => ⟨rfl, rfl⟩
    | succ t h1 ih =>
      intro e
      have m1 : updates w.opt.steps h.T s ≤ updates w.opt.steps h.T t := Nat.count_monotone _ h1
      rw [updates_succ] at e
      by_cases hpt : (w.opt.steps + t) % h.T = 0
      · rw [if_pos hpt] at e; omega
      · rw [if_neg hpt] at e
        have s1 := (R.round (R.between t)).2.1 hpt
        have i1 := ih (by omega)
        exact ⟨s1.1.trans i1.1, s1.2.trans i1.2⟩
  have kj : ∀ t, facK m ops attr w t = facK m ops attr w (Nat.nth p (updates w.opt.steps h.T t)) ∧ facC m ops attr w t = facC m ops attr w (Nat.nth p (updates w.opt.steps h.T t)) := fun t => by
    have c1 := cn (updates w.opt.steps h.T t)
    rcases le_total t (Nat.nth p (updates w.opt.steps h.T t)) with h1 | h1
    · have := const h1 c1.symm
      exact ⟨this.1.symm, this.2.symm⟩
    · exact const h1 c1
  choose a c r1 r2 e1 e2 using fun k => (R.round (R.between (Nat.nth p k))).2.2 (pn k) _ _ _ _ rfl rfl rfl rfl
  have mU : ∀ k, momK m h ops attr w (Nat.nth p k) = U := fun k => hU _ (pn k)
  have mG : ∀ k, momC m h ops attr w (Nat.nth p k) = G := fun k => hG _ (pn k)
  refine ⟨a, c, fun k => facK m ops attr w (Nat.nth p k), fun k => facC m ops attr w (Nat.nth p k), kj, fun k => ?_⟩
  have c2 : updates w.opt.steps h.T (Nat.nth p k + 1) = k + 1 := by
    rw [updates_succ, cn, if_pos (show (w.opt.steps + Nat.nth p k) % h.T = 0 from pn k)]
  have k1 := kj (Nat.nth p k + 1)
  rw [c2] at k1
  have r1' := r1 k
  have r2' := r2 k
  have e1' := e1 k
  have e2' := e2 k
  rw [mU, mG] at r1' r2' e1' e2'
  exact ⟨(R.off _).1, (R.off _).2, ⟨_, r1'⟩, ⟨_, r2'⟩, k1.1.symm.trans e1', k1.2.symm.trans e2'⟩

/-- what convergence means: the divergence never increases, and the preconditioner tends to the best one -/
theorem Coupling.limit (R : Coupling cl m h ops attr w) {U : Matrix (Fin m.nK) (Fin m.nK) ℝ} {G : Matrix (Fin m.nC) (Fin m.nC) ℝ}
    (hU : U.PosSemidef) (hG : G.PosSemidef) {a c : ℕ → ℝ} {K : ℕ → Matrix (Fin m.nK) (Fin m.nK) ℝ} {C : ℕ → Matrix (Fin m.nC) (Fin m.nC) ℝ}
    (hf : ∀ t, facK m ops attr w t = K (updates w.opt.steps h.T t) ∧ facC m ops attr w t = C (updates w.opt.steps h.T t))
    (ho : ∀ k, ((cl m.name).1 = .dense ∨ ∀ i j, i ≠ j → K k i j = 0) ∧ ((cl m.name).2 = .dense ∨ ∀ i j, i ≠ j → C k i j = 0)) {r : ℝ} (r0 : 0 < r)
    (run : Coupled.Run h.damping r (seen (cl m.name).1 U) (seen (cl m.name).2 G) a c K C) (hK : (K 0).det ≠ 0) (hC : (C 0).det ≠ 0) :
    (∀ t, (facK m ops attr w t).det ≠ 0 ∧ (facC m ops attr w t).det ≠ 0) ∧ Antitone (klAt m h ops attr w U G) ∧
    ∃ Ks Cs, BestPair (cl m.name) h.damping U Ks G Cs ∧ Tendsto (fun t => kronOf (facK m ops attr w t) (facC m ops attr w t)) atTop (𝓝 (kronOf Ks Cs)) := by
  have g := R.live.sound.good m R.mem
  have sU := seen_psd (cl m.name).1 hU
  have sG := seen_psd (cl m.name).2 hG
  have dets := run.det g.posK g.posC R.damping.le r0.le sU sG hK hC
  have anti := run.anti g.posK g.posC R.damping.le r0.le sU sG hK hC
  refine ⟨fun t => by rw [(hf t).1, (hf t).2]; exact dets _, fun s t hst => ?_, ?_⟩
  · unfold klAt
    rw [(hf s).1, (hf s).2, (hf t).1, (hf t).2]
    refine (kl_le R.damping hU hG ⟨(dets _).1, (ho _).1⟩ ⟨(dets _).2, (ho _).2⟩ ⟨(dets _).1, (ho _).1⟩ ⟨(dets _).2, (ho _).2⟩).2 ?_
    exact anti (Nat.count_monotone _ hst)
  · obtain ⟨Ks, Cs, h1, h2, h3, h4, h5, h6, h7⟩ := run.tendsto g.posK g.posC R.damping r0 sU sG hK hC
    have sK : Shaped (cl m.name).1 Ks := ⟨h1, (em _).imp_right fun hc i j hij => h5 i j fun k => (ho k).1.resolve_left hc i j hij⟩
    have sC : Shaped (cl m.name).2 Cs := ⟨h2, (em _).imp_right fun hc i j hij => h6 i j fun k => (ho k).2.resolve_left hc i j hij⟩
    refine ⟨Ks, Cs, (best_of_curv g.posK g.posC R.damping hU hG sK sC).2 ⟨h3, h4⟩, ?_⟩
    have := h7.comp (updates_tendsto w.opt.steps R.T_ne)
    refine this.congr fun t => ?_
    simp only [Function.comp, (hf t).1, (hf t).2, kronOf]

/-- **C67 (convergence with `normalize_lr_cov`).** Second moments `U` of the inputs and `G` of the output gradients (divided by the scale) that are the same at
every update, however large; a constant positive `lr_cov` with `(9 n + 4) lr_cov ≤ 1` (`n` as in `C67_descent`); invertible factors at the start. Then the factors
stay invertible, the divergence never increases, and the preconditioner converges to the best one of the factors' classes. -/
theorem C67_converges (R : Coupling cl m h ops attr w) (hn : h.normalize = true) {b : ℝ} (hb : h.lrCov = .const b) (b0 : 0 < b)
    (bK : (9 * (cl m.name).1.width m.nK + 4) * b ≤ 1) (bC : (9 * (cl m.name).2.width m.nC + 4) * b ≤ 1) {U : Matrix (Fin m.nK) (Fin m.nK) ℝ}
    {G : Matrix (Fin m.nC) (Fin m.nC) ℝ} (hU : SteadyK m h ops attr w U) (hG : SteadyC m h ops attr w G)
    (hK : (denO (w.opt.Ks m.name) m.nK).det ≠ 0) (hC : (denO (w.opt.Cs m.name) m.nC).det ≠ 0) :
    (∀ t, (facK m ops attr w t).det ≠ 0 ∧ (facC m ops attr w t).det ≠ 0) ∧ Antitone (klAt m h ops attr w U G) ∧
    ∃ Ks Cs, BestPair (cl m.name) h.damping U Ks G Cs ∧ Tendsto (fun t => kronOf (facK m ops attr w t) (facC m ops attr w t)) atTop (𝓝 (kronOf Ks Cs)) := by
  obtain ⟨a, c, K, C, hf, hs⟩ := R.seq hb hU hG
  have g := R.live.sound.good m R.mem
  have pU := hU.psd R.T_ne
  have pG := hG.psd R.T_ne
  have u0 : updates w.opt.steps h.T 0 = 0 := Nat.count_zero _
  have k0 : K 0 = denO (w.opt.Ks m.name) m.nK := by have := (hf 0).1; rw [u0] at this; rw [← this]; rfl
  have c0 : C 0 = denO (w.opt.Cs m.name) m.nC := by have := (hf 0).2; rw [u0] at this; rw [← this]; rfl
  have lr : ∀ t, h.lrCov.at t = b := fun t => by rw [hb]; rfl
  have tK : ∀ k, Tame (curvK (cl m.name) h.damping U (K k) G (C k) - 1) (a k) := fun k => by
    obtain ⟨o1, -, ⟨t, r⟩, -⟩ := hs k
    exact tame_norm hn (c := (cl m.name).1) (curvK_symm pU) (curv_off o1) r (by rw [lr]; exact b0.le) (by rw [lr]; exact bK)
  have tC : ∀ k, Tame (curvC (cl m.name) h.damping U (K k) G (C k) - 1) (c k) := fun k => by
    obtain ⟨-, o2, -, ⟨t, r⟩, -⟩ := hs k
    exact tame_norm hn (c := (cl m.name).2) (curvC_symm pG) (curv_off o2) r (by rw [lr]; exact b0.le) (by rw [lr]; exact bC)
  have run0 : Coupled.Run h.damping 0 (seen (cl m.name).1 U) (seen (cl m.name).2 G) a c K C :=
    ⟨fun k => (hs k).2.2.2.2.1, fun k => (hs k).2.2.2.2.2, fun k => (tK k).nonneg, fun k => (tC k).nonneg, fun k => (tK k).le, fun k => (tC k).le,
      fun k => (tK k).below, fun k => (tC k).below⟩
  have sU := seen_psd (cl m.name).1 pU
  have sG := seen_psd (cl m.name).2 pG
  have hK0 : (K 0).det ≠ 0 := by rw [k0]; exact hK
  have hC0 : (C 0).det ≠ 0 := by rw [c0]; exact hC
  have dets := run0.det g.posK g.posC R.damping.le le_rfl sU sG hK0 hC0
  have anti := run0.anti g.posK g.posC R.damping.le le_rfl sU sG hK0 hC0
  obtain ⟨x, hx⟩ : ∃ x, ∀ k, (∀ i j, |curvK (cl m.name) h.damping U (K k) G (C k) i j| ≤ x) ∧ ∀ i j, |curvC (cl m.name) h.damping U (K k) G (C k) i j| ≤ x :=
    ⟨_, fun k => by
      have := Coupled.curv_cap g.posK g.posC R.damping sU sG (dets k).1 (dets k).2 (anti (Nat.zero_le k))
      exact ⟨this.1.2, this.2.2⟩⟩
  have low : ∀ {n t : ℕ} {X : Matrix (Fin n) (Fin n) ℝ} {a : ℝ}, (∀ i j, |X i j| ≤ x) → IsRate h t ((1 / 2 : ℝ) • (X - 1)) a → b / max 1 ((x + 1) / 2) ≤ a := by
    intro n t X a hX hr
    rw [IsRate, if_pos hn] at hr
    obtain ⟨v, ⟨⟨i, j, hv⟩, -⟩, rfl⟩ := hr
    rw [lr]
    refine div_le_div_of_nonneg_left b0.le (lt_max_of_lt_left one_pos) (max_le_max le_rfl ?_)
    rw [hv, Matrix.smul_apply, Matrix.sub_apply, smul_eq_mul, abs_mul, abs_of_pos (by norm_num : (0 : ℝ) < 1 / 2)]
    have h1 := abs_sub (X i j) ((1 : Matrix (Fin n) (Fin n) ℝ) i j)
    have h2 : |(1 : Matrix (Fin n) (Fin n) ℝ) i j| ≤ 1 := by rw [one_apply]; split <;> simp
    linarith [hX i j]
  refine R.limit pU pG (a := a) (c := c) hf (fun k => ⟨(hs k).1, (hs k).2.1⟩) (div_pos b0 (lt_max_of_lt_left one_pos)) (r := b / max 1 ((x + 1) / 2)) ?_ hK0 hC0
  refine ⟨run0.stepK, run0.stepC, fun k => ?_, fun k => ?_, run0.a8, run0.b8, run0.aN, run0.bN⟩
  · obtain ⟨-, -, ⟨t, r⟩, -⟩ := hs k
    exact low (hx k).1 r
  · obtain ⟨-, -, -, ⟨t, r⟩, -⟩ := hs k
    exact low (hx k).2 r

/-- **C67 (convergence without normalisation).** Without `normalize_lr_cov`, for a constructed optimizer (identity factors): the same if `lr_cov` is small compared
with the data: `lr_cov ≤ 1/4` and `lr_cov (9 x + 8) ≤ 2` with `x = 2 max(n, d) (tr U tr G / (n d) + λ + log (2 / λ))` where `λ` is the damping and `n`, `d` are the
dimensions of `K` and `C`. -/
theorem C67_converges_plain (R : Coupling cl m h ops attr w) (hn : h.normalize = false) {b : ℝ} (hb : h.lrCov = .const b) (b0 : 0 < b) (b4 : 4 * b ≤ 1)
    {U : Matrix (Fin m.nK) (Fin m.nK) ℝ} {G : Matrix (Fin m.nC) (Fin m.nC) ℝ} (hU : SteadyK m h ops attr w U) (hG : SteadyC m h ops attr w G) {x : ℝ}
    (hx : x = max (m.nK : ℝ) m.nC * (2 * (U.trace * G.trace / (m.nK * m.nC) + h.damping + Real.log (2 / h.damping)))) (bx : b * (9 * x + 8) ≤ 2)
    (hK : denO (w.opt.Ks m.name) m.nK = 1) (hC : denO (w.opt.Cs m.name) m.nC = 1) :
    (∀ t, (facK m ops attr w t).det ≠ 0 ∧ (facC m ops attr w t).det ≠ 0) ∧ Antitone (klAt m h ops attr w U G) ∧
    ∃ Ks Cs, BestPair (cl m.name) h.damping U Ks G Cs ∧ Tendsto (fun t => kronOf (facK m ops attr w t) (facC m ops attr w t)) atTop (𝓝 (kronOf Ks Cs)) := by
  obtain ⟨a, c, K, C, hf, hs⟩ := R.seq hb hU hG
  have g := R.live.sound.good m R.mem
  have n0' : (0 : ℝ) < m.nK := by exact_mod_cast g.posK
  have d0' : (0 : ℝ) < m.nC := by exact_mod_cast g.posC
  have pU := hU.psd R.T_ne
  have pG := hG.psd R.T_ne
  have u0 : updates w.opt.steps h.T 0 = 0 := Nat.count_zero _
  have k0 : K 0 = 1 := by have := (hf 0).1; rw [u0] at this; rw [← this, ← hK]; rfl
  have c0 : C 0 = 1 := by have := (hf 0).2; rw [u0] at this; rw [← this, ← hC]; rfl
  have lr : ∀ t, h.lrCov.at t = b := fun t => by rw [hb]; rfl
  have eq : ∀ {n t : ℕ} {X : Matrix (Fin n) (Fin n) ℝ} {a : ℝ}, IsRate h t X a → a = b := fun hr => by
    rw [IsRate, if_neg (by simp [hn])] at hr
    rw [hr, lr]
  have tr : ∀ (c : Cls) {n : ℕ} (U : Matrix (Fin n) (Fin n) ℝ), (seen c U).trace = U.trace := fun c n U => by
    unfold seen; split
    · rfl
    · rw [trace_diagonal]; rfl
  have hK0 : (K 0).det ≠ 0 := by rw [k0, det_one]; exact one_ne_zero
  have hC0 : (C 0).det ≠ 0 := by rw [c0, det_one]; exact one_ne_zero
  have ob : Coupled.objective h.damping (seen (cl m.name).1 U) (K 0) (seen (cl m.name).2 G) (C 0) = U.trace * G.trace + h.damping * (m.nK * m.nC) := by
    rw [k0, c0, Coupled.objective]
    simp only [transpose_one, Matrix.one_mul, Matrix.mul_one, det_one, one_pow, Real.log_one, mul_zero, sub_zero, tr, trace_one, Fintype.card_fin]
  refine R.limit pU pG (a := a) (c := c) hf (fun k => ⟨(hs k).1, (hs k).2.1⟩) b0 ?_ hK0 hC0
  refine Coupled.Run.of_small g.posK g.posC R.damping b0.le (seen_psd _ pU) (seen_psd _ pG) hK0 hC0 (fun k => (hs k).2.2.2.2.1) (fun k => (hs k).2.2.2.2.2) (β := b)
    (fun k => ?_) (fun k => ?_) b4 ?_
  · obtain ⟨-, -, ⟨t, r⟩, -⟩ := hs k
    have := eq r
    exact ⟨this.ge, this.le⟩
  · obtain ⟨-, -, -, ⟨t, r⟩, -⟩ := hs k
    have := eq r
    exact ⟨this.ge, this.le⟩
  · rw [ob, Coupled.cap]
    have : (U.trace * G.trace + h.damping * (m.nK * m.nC)) / (m.nK * m.nC) = U.trace * G.trace / (m.nK * m.nC) + h.damping := by field_simp
    rw [this, ← hx]
    exact bx

/-- **C67 (divergence without normalisation).** Without `normalize_lr_cov`, for a constructed optimizer: if the data are large compared with `1 / lr_cov`,
`tr U tr G / (n d) + λ ≥ n (1 + 2 (1 + 2 n d) / lr_cov)`, the preconditioner diverges: `tr ((G ⊗ U + λ) (C Cᵀ ⊗ K Kᵀ))` tends to infinity although the data never change. -/
theorem C67_diverges (R : Coupling cl m h ops attr w) (hn : h.normalize = false) {b : ℝ} (hb : h.lrCov = .const b) (b0 : 0 < b)
    {U : Matrix (Fin m.nK) (Fin m.nK) ℝ} {G : Matrix (Fin m.nC) (Fin m.nC) ℝ} (hU : SteadyK m h ops attr w U) (hG : SteadyC m h ops attr w G)
    (hx : m.nK * (1 + 2 * (1 + 2 * (m.nK * m.nC)) / b) ≤ U.trace * G.trace / (m.nK * m.nC) + h.damping)
    (hK : denO (w.opt.Ks m.name) m.nK = 1) (hC : denO (w.opt.Cs m.name) m.nC = 1) :
    Tendsto (fun t => (damped h.damping U G * kronOf (facK m ops attr w t) (facC m ops attr w t)).trace) atTop atTop := by
  obtain ⟨a, c, K, C, hf, hs⟩ := R.seq hb hU hG
  have g := R.live.sound.good m R.mem
  have n0' : (0 : ℝ) < m.nK := by exact_mod_cast g.posK
  have d0' : (0 : ℝ) < m.nC := by exact_mod_cast g.posC
  have pU := hU.psd R.T_ne
  have pG := hG.psd R.T_ne
  have u0 : updates w.opt.steps h.T 0 = 0 := Nat.count_zero _
  have k0 : K 0 = 1 := by have := (hf 0).1; rw [u0] at this; rw [← this, ← hK]; rfl
  have c0 : C 0 = 1 := by have := (hf 0).2; rw [u0] at this; rw [← this, ← hC]; rfl
  have lr : ∀ t, h.lrCov.at t = b := fun t => by rw [hb]; rfl
  have eq : ∀ {n t : ℕ} {X : Matrix (Fin n) (Fin n) ℝ} {a : ℝ}, IsRate h t X a → a = b := fun hr => by
    rw [IsRate, if_neg (by simp [hn])] at hr
    rw [hr, lr]
  have tr : ∀ (c : Cls) {n : ℕ} (U : Matrix (Fin n) (Fin n) ℝ), (seen c U).trace = U.trace := fun c n U => by
    unfold seen; split
    · rfl
    · rw [trace_diagonal]; rfl
  have ea : ∀ k, a k = b := fun k => by
    obtain ⟨-, -, ⟨t, r⟩, -⟩ := hs k
    exact eq r
  have ec : ∀ k, c k = b := fun k => by
    obtain ⟨-, -, -, ⟨t, r⟩, -⟩ := hs k
    exact eq r
  have T := Coupled.traces_diverge g.posK g.posC R.damping.le (seen_psd (cl m.name).1 pU) (seen_psd (cl m.name).2 pG) b0 (K := K) (C := C)
    (fun k => by have := (hs k).2.2.2.2.1; rw [ea] at this; exact this) (fun k => by have := (hs k).2.2.2.2.2; rw [ec] at this; exact this) (by
      rw [k0, c0, Coupled.traces]
      simp only [transpose_one, Matrix.one_mul, Matrix.mul_one, tr, trace_one, Fintype.card_fin]
      refine hx.trans (le_of_eq ?_)
      field_simp)
  refine (T.comp (updates_tendsto w.opt.steps R.T_ne)).congr fun t => ?_
  simp only [Function.comp]
  have ho := R.off t
  rw [(hf t).1, (hf t).2] at ho ⊢
  rw [damped, kronOf, Matrix.add_mul, ← mul_kronecker_mul, Matrix.smul_mul, Matrix.one_mul, trace_add, trace_smul, trace_kronecker, trace_kronecker,
      trace_shaped ho.1, trace_shaped ho.2, Coupled.traces, smul_eq_mul, Matrix.trace_mul_comm (K _), Matrix.trace_mul_comm (C _)]
  ring

/-- **C67 (from construction).** The last three theorems for a constructed optimizer (its factors are identities). `n`, `d`: dimensions of `K`, `C`; `λ`: damping;
`U`, `G`: the second moments of inputs and output gradients, the same at every update; `b`: the constant positive `lr_cov`. The factors stay invertible, the divergence
never increases and the preconditioner converges to the best one of its classes if `normalize_lr_cov` is set and `b` is small compared with the dimensions,
or if it is not set and `b` is small compared with the data. It diverges if it is not set and the data are large compared with `1 / b`. -/
theorem C67_from_construction {structs : String → Option Cls} {model : Model} {p : ParamArg ℝ} {args : Args ℝ} {o : Opt ℝ} {ws : List Warn}
    (nodup : (model.layers.map (·.name)).Nodup) (hi : Construct.init structs model p args = .ok (o, ws)) {data : ℕ → Mat ℝ} {grad : ℕ → Option (Mat ℝ)}
    (ht : Trainable o data) (hw : w = ⟨o, data, grad, []⟩) (R : Coupling cl m h ops attr w) {b : ℝ} (hb : h.lrCov = .const b) (b0 : 0 < b)
    {U : Matrix (Fin m.nK) (Fin m.nK) ℝ} {G : Matrix (Fin m.nC) (Fin m.nC) ℝ} (hU : SteadyK m h ops attr w U) (hG : SteadyC m h ops attr w G) :
    ((h.normalize = true ∧ (9 * (cl m.name).1.width m.nK + 4) * b ≤ 1 ∧ (9 * (cl m.name).2.width m.nC + 4) * b ≤ 1 ∨
      h.normalize = false ∧ 4 * b ≤ 1 ∧
        b * (18 * max (m.nK : ℝ) m.nC * (U.trace * G.trace / (m.nK * m.nC) + h.damping + Real.log (2 / h.damping)) + 8) ≤ 2) →
      (∀ t, (facK m ops attr w t).det ≠ 0 ∧ (facC m ops attr w t).det ≠ 0) ∧ Antitone (klAt m h ops attr w U G) ∧
      ∃ Ks Cs, BestPair (cl m.name) h.damping U Ks G Cs ∧ Tendsto (fun t => kronOf (facK m ops attr w t) (facC m ops attr w t)) atTop (𝓝 (kronOf Ks Cs))) ∧
    (h.normalize = false ∧ m.nK * (1 + 2 * (1 + 2 * (m.nK * m.nC)) / b) ≤ U.trace * G.trace / (m.nK * m.nC) + h.damping →
      Tendsto (fun t => (damped h.damping U G * kronOf (facK m ops attr w t) (facC m ops attr w t)).trace) atTop atTop) := by
  obtain ⟨i1, i2⟩ := (init_ok nodup hi).identity ht (by have := R.mem; rw [hw] at this; exact this)
  have k0 : denO (w.opt.Ks m.name) m.nK = 1 := by rw [hw]; exact i1
  have c0 : denO (w.opt.Cs m.name) m.nC = 1 := by rw [hw]; exact i2
  refine ⟨?_, fun ⟨hn, hx⟩ => C67_diverges R hn hb b0 hU hG hx k0 c0⟩
  rintro (⟨hn, bK, bC⟩ | ⟨hn, b4, bx⟩)
  · exact C67_converges R hn hb b0 bK bC hU hG (by rw [k0, det_one]; exact one_ne_zero) (by rw [c0, det_one]; exact one_ne_zero)
  · refine C67_converges_plain R hn hb b0 b4 hU hG rfl ?_ k0 c0
    refine le_trans (le_of_eq ?_) bx
    ring

end

/-- **C67 (the best preconditioner exists).** For all second moments and a positive damping there is a best pair of factors (dense or diagonal). -/
theorem C67_exists (cc : Cls × Cls) {n d : ℕ} (n0 : 0 < n) (d0 : 0 < d) {l : ℝ} (l0 : 0 < l) {U : Matrix (Fin n) (Fin n) ℝ} {G : Matrix (Fin d) (Fin d) ℝ}
    (hU : U.PosSemidef) (hG : G.PosSemidef) : ∃ K C, BestPair cc l U K G C := by
  have sU := seen_psd cc.1 hU
  have sG := seen_psd cc.2 hG
  set x := Coupled.cap n d l (Coupled.objective l (seen cc.1 U) 1 (seen cc.2 G) 1) with hx
  set β : ℝ := 1 / (4 + 9 * |x|) with hβ
  have β0 : 0 < β := by positivity
  let F : ℕ → Matrix (Fin n) (Fin n) ℝ × Matrix (Fin d) (Fin d) ℝ := fun t => Nat.rec (1, 1) (fun _ p =>
    (p.1 * (1 - (β / 2) • (curvK cc l U p.1 G p.2 - 1)), p.2 * (1 - (β / 2) • (curvC cc l U p.1 G p.2 - 1)))) t
  have off : ∀ t, (cc.1 = .dense ∨ ∀ i j, i ≠ j → (F t).1 i j = 0) ∧ (cc.2 = .dense ∨ ∀ i j, i ≠ j → (F t).2 i j = 0) := fun t => by
    induction t with
    | zero => exact ⟨Or.inr fun i j h => one_apply_ne h, Or.inr fun i j h => one_apply_ne h⟩
    | succ t ih => exact ⟨mul_off ih.1 (curv_off ih.1) _, mul_off ih.2 (curv_off ih.2) _⟩
  have run : Coupled.Run l β (seen cc.1 U) (seen cc.2 G) (fun _ => β) (fun _ => β) (fun t => (F t).1) (fun t => (F t).2) := by
    refine Coupled.Run.of_small n0 d0 l0 β0.le sU sG (by show (1 : Matrix (Fin n) (Fin n) ℝ).det ≠ 0; simp) (by show (1 : Matrix (Fin d) (Fin d) ℝ).det ≠ 0; simp)
      (fun t => rfl) (fun t => rfl) (β := β) (fun _ => ⟨le_rfl, le_rfl⟩) (fun _ => ⟨le_rfl, le_rfl⟩) ?_ ?_
    · rw [hβ, mul_one_div, div_le_one (by positivity)]
      linarith [abs_nonneg x]
    · show β * (9 * x + 8) ≤ 2
      rw [hβ, one_div, inv_mul_le_iff₀ (by positivity)]
      linarith [le_abs_self x, abs_nonneg x]
  obtain ⟨Ks, Cs, h1, h2, h3, h4, h5, h6, -⟩ := run.tendsto n0 d0 l0 β0 sU sG (by show (1 : Matrix (Fin n) (Fin n) ℝ).det ≠ 0; simp)
    (by show (1 : Matrix (Fin d) (Fin d) ℝ).det ≠ 0; simp)
  have sK : Shaped cc.1 Ks := ⟨h1, (em _).imp_right fun hc i j hij => h5 i j fun k => (off k).1.resolve_left hc i j hij⟩
  have sC : Shaped cc.2 Cs := ⟨h2, (em _).imp_right fun hc i j hij => h6 i j fun k => (off k).2.resolve_left hc i j hij⟩
  exact ⟨Ks, Cs, (best_of_curv n0 d0 l0 hU hG sK sC).2 ⟨h3, h4⟩⟩

/-! ## A sample -/

namespace Sample

/-- arguments of the default update without momentum of the factors, an update at every step -/
noncomputable def coupledArgs (b : ℝ) (norm : Bool) : Args ℝ := { gargs with alpha1 := .float 0, T := 1, lrCov := .num (.float b), normalize := norm }

/-- a training that is as C67 asks -/
theorem coupled {b : ℝ} (b0 : 0 < b) (norm : Bool) {x : ND ℝ} (hx : x.shape = [2, 1]) : ∃ (o : Opt ℝ) (ws : List Warn) (cl : String → Cls × Cls),
    Construct.init supportedStructures model .default (coupledArgs b norm) = .ok (o, ws) ∧ Trainable o gdata ∧
    Coupling cl la (defaults (coupledArgs b norm)) (steadyOps x) (fun _ => none) ⟨o, gdata, ggrad, []⟩ ∧ cl la.name = (.dense, .diagonal) ∧ o.steps = 0 ∧
    ∀ t, fired la.name (steadyOps x t) (World.rounds (steadyOps x) (fun _ => none) ⟨o, gdata, ggrad, []⟩ t) = [(x, batch 2 1)] ∧
      (run (steadyOps x t) (World.rounds (steadyOps x) (fun _ => none) ⟨o, gdata, ggrad, []⟩ t)).curScale none = 1 := by
  have h2 : ¬ ((2⁻¹ : ℝ) < 0) := by simp
  obtain ⟨o, ws, hi, hl, hh, ht⟩ := Sample.glive_init' (a := coupledArgs b norm)
    (by simp [validate, coupledArgs, Sample.gargs, PyNum.rejected, PyRate.rejected, h2, not_lt.2 b0.le, b0.ne']) rfl rfl ⟨Or.inl rfl, Or.inr (Or.inl rfl)⟩
    (by simp [checked, defaults, coupledArgs, Sample.gargs, PyNum.val]) (show (1 : ℕ) ≠ 0 by decide)
  have I := init_ok (by decide) hi
  obtain ⟨cl, hcl, lv⟩ := I.live (grad := Sample.ggrad) ht one_pos
  have hla : la ∈ o.layers := by rw [hl]; simp
  have J : SteadyInv cl (defaults (coupledArgs b norm)) 0 ⟨o, gdata, ggrad, []⟩ := ⟨lv, hl, hh, rfl, rfl, fun i hi => by
    show o.scales i = none
    rw [I.scales]
    rw [show (⟨o, gdata, ggrad, []⟩ : World ℝ).opt.steps = 0 from I.steps] at hi
    have : i ≠ -1 := fun e => by rw [e] at hi; simp at hi
    simp [Dict.set, this], I.steps⟩
  have JJ := steady_inv rfl J hx
  have RR := fun t => steady_round rfl (JJ t) hx
  have hc : cl la.name = (.dense, .diagonal) := by
    obtain ⟨hy, e1, e2, e3⟩ := hcl la hla
    rw [show (⟨o, gdata, ggrad, []⟩ : World ℝ).opt.hyperOf la = _ from hh la hla] at e1
    cases e1
    have e2' : supportedStructures "dense" = some (cl la.name).1 := e2
    have e3' : supportedStructures "diagonal" = some (cl la.name).2 := e3
    exact Prod.ext (Option.some.inj e2').symm (Option.some.inj e3').symm
  exact ⟨o, ws, cl, hi, ht, ⟨lv, fun t => (RR t).1, fun t => bpass_quiet, hla, hh la hla, ⟨by show o.HKs _ = _; rw [I.HKs], by show o.HCs _ = _; rw [I.HCs]⟩, rfl,
    rfl, show (0 : ℝ) < 1 from one_pos, fun t ht => absurd (Nat.mod_one _) ht, Or.inl (by rw [hc]), Or.inr (by rw [hc])⟩, hc, I.steps, fun t => ⟨(RR t).2.2.1, (RR t).2.2.2⟩⟩

/-- the second moment of the inputs `c`, `2c` -/
noncomputable def momU (b c : ℝ) (norm : Bool) : Matrix (Fin la.nK) (Fin la.nK) ℝ := inputMoment (defaults (coupledArgs b norm)) la (hot c)
/-- the second moment of the output gradients -/
noncomputable def momG (b : ℝ) (norm : Bool) : Matrix (Fin la.nC) (Fin la.nC) ℝ := gradMoment (defaults (coupledArgs b norm)) la (batch 2 1)

theorem momU_trace (b c : ℝ) (norm : Bool) : (momU b c norm).trace = 5 / 2 * c ^ 2 + 1 := by
  have e : momU b c norm = inputMoment (defaults steadyArgs) la (hot c) := rfl
  rw [e]
  have M := hot_moment c
  show ∑ i : Fin 2, inputMoment (defaults steadyArgs) la (hot c) i i = _
  rw [Fin.sum_univ_two, M, M]
  simp

open IOSpec IOProof PIO in
theorem momG_trace (b : ℝ) (norm : Bool) : (momG b norm).trace = 10 := by
  obtain ⟨X, e, hr, hc, hX⟩ := (C21_linear_grad (batch 2 1 : ND ℝ) ⟨[2, 1], fun k => 2 * (k + 1)⟩ (b := 2) (d := 1) (sh := []) rfl rfl (la := some "batch")
    (Or.inr (Or.inl rfl)) (by decide) (by
      intro k hk
      change k < 2 at hk
      have : (numTerms (some "batch") 2 ([] : List ℕ).prod : ℝ) = 2 := by norm_num [numTerms]
      rw [this]
      simp [batch])).1
  have e' : momG b norm = secMom X la.nC := by
    unfold momG gradMoment
    show (match processGradOutput (batch 2 1 : ND ℝ) .linear (some "batch") "expand" with | .ok a => secMom a la.nC | .error _ => 0) = _
    rw [e]
  rw [e']
  show ∑ i : Fin 1, secMom X 1 i i = _
  rw [Fin.sum_univ_one]
  simp only [secMom]
  have := hX 0 one_pos 0 one_pos
  simp only [Fin.val_zero, this]
  norm_num [Finset.sum_range_succ, sumIdx, multiIdx, entry, ravel, numTerms]

theorem coupled_moments {b c : ℝ} {norm : Bool} {o : Opt ℝ} (hf : ∀ t, fired la.name (steadyOps (hot c) t)
      (World.rounds (steadyOps (hot c)) (fun _ => none) ⟨o, gdata, ggrad, []⟩ t) = [(hot c, batch 2 1)] ∧
      (run (steadyOps (hot c) t) (World.rounds (steadyOps (hot c)) (fun _ => none) ⟨o, gdata, ggrad, []⟩ t)).curScale none = 1) :
    SteadyK la (defaults (coupledArgs b norm)) (steadyOps (hot c)) (fun _ => none) ⟨o, gdata, ggrad, []⟩ (momU b c norm) ∧
    SteadyC la (defaults (coupledArgs b norm)) (steadyOps (hot c)) (fun _ => none) ⟨o, gdata, ggrad, []⟩ (momG b norm) := by
  refine ⟨fun t _ => ?_, fun t _ => ?_⟩
  · rw [(hf t).1]; simp [momU]
  · rw [(hf t).1, (hf t).2]; simp [momG]

end Sample

/-- The sample model with inputs 10 and 20 at every step and `normalize_lr_cov`, `lr_cov = 1/30`, meets the hypotheses of `C67_descent`, `C67_stationary`,
`C67_converges` and `C67_from_construction`. -/
example : ∃ (o : Opt ℝ) (ws : List Warn) (cl : String → Cls × Cls) (h : Hyper ℝ) (ops : ℕ → List (Op ℝ)) (w : World ℝ) (b : ℝ)
    (U : Matrix (Fin Sample.la.nK) (Fin Sample.la.nK) ℝ) (G : Matrix (Fin Sample.la.nC) (Fin Sample.la.nC) ℝ),
    Construct.init supportedStructures Sample.model .default (Sample.coupledArgs b true) = .ok (o, ws) ∧ (Sample.model.layers.map (·.name)).Nodup ∧
    Trainable o Sample.gdata ∧ w = ⟨o, Sample.gdata, Sample.ggrad, []⟩ ∧ Coupling cl Sample.la h ops (fun _ => none) w ∧ h.lrCov = .const b ∧ 0 < b ∧
    SteadyK Sample.la h ops (fun _ => none) w U ∧ SteadyC Sample.la h ops (fun _ => none) w G ∧ U.trace = 251 ∧ G.trace = 10 ∧ h.normalize = true ∧
    (9 * (cl Sample.la.name).1.width Sample.la.nK + 4) * b ≤ 1 ∧ (9 * (cl Sample.la.name).2.width Sample.la.nC + 4) * b ≤ 1 ∧
    (facK Sample.la ops (fun _ => none) w 0).det ≠ 0 ∧ (facC Sample.la ops (fun _ => none) w 0).det ≠ 0 ∧ w.opt.steps % h.T = 0 := by
  have b0 : (0 : ℝ) < 1 / 30 := by norm_num
  obtain ⟨o, ws, cl, hi, ht, R, hc, hs, hf⟩ := Sample.coupled b0 true (x := Sample.hot 10) rfl
  obtain ⟨sK, sC⟩ := Sample.coupled_moments (b := 1 / 30) (norm := true) hf
  obtain ⟨i1, i2⟩ := (init_ok (by decide) hi).identity ht R.mem
  refine ⟨o, ws, cl, _, _, _, 1 / 30, _, _, hi, by decide, ht, rfl, R, rfl, b0, sK, sC, ?_, Sample.momG_trace _ _, rfl, ?_, ?_, ?_, ?_, Nat.mod_one _⟩
  · rw [Sample.momU_trace]; norm_num
  · rw [hc]
    show (9 * ((2 : ℕ) : ℝ) + 4) * (1 / 30) ≤ 1
    norm_num
  · rw [hc]
    show (9 * ((1 : ℕ) : ℝ) + 4) * (1 / 30) ≤ 1
    norm_num
  · show (denO (o.Ks _) _).det ≠ 0
    rw [i1, det_one]; exact one_ne_zero
  · show (denO (o.Cs _) _).det ≠ 0
    rw [i2, det_one]; exact one_ne_zero

/-- Without normalisation, inputs 1 and 2 and `lr_cov = 1/400` meet the hypotheses of `C67_converges_plain`. -/
example : ∃ (o : Opt ℝ) (ws : List Warn) (cl : String → Cls × Cls) (h : Hyper ℝ) (ops : ℕ → List (Op ℝ)) (w : World ℝ) (b : ℝ)
    (U : Matrix (Fin Sample.la.nK) (Fin Sample.la.nK) ℝ) (G : Matrix (Fin Sample.la.nC) (Fin Sample.la.nC) ℝ),
    Construct.init supportedStructures Sample.model .default (Sample.coupledArgs b false) = .ok (o, ws) ∧ (Sample.model.layers.map (·.name)).Nodup ∧
    Trainable o Sample.gdata ∧ w = ⟨o, Sample.gdata, Sample.ggrad, []⟩ ∧ Coupling cl Sample.la h ops (fun _ => none) w ∧ h.lrCov = .const b ∧ 0 < b ∧
    SteadyK Sample.la h ops (fun _ => none) w U ∧ SteadyC Sample.la h ops (fun _ => none) w G ∧ U.trace = 7 / 2 ∧ G.trace = 10 ∧ h.normalize = false ∧ 4 * b ≤ 1 ∧
    b * (18 * max (Sample.la.nK : ℝ) Sample.la.nC * (U.trace * G.trace / (Sample.la.nK * Sample.la.nC) + h.damping + Real.log (2 / h.damping)) + 8) ≤ 2 := by
  have b0 : (0 : ℝ) < 1 / 400 := by norm_num
  obtain ⟨o, ws, cl, hi, ht, R, hc, hs, hf⟩ := Sample.coupled b0 false (x := Sample.hot 1) rfl
  obtain ⟨sK, sC⟩ := Sample.coupled_moments (b := 1 / 400) (norm := false) hf
  have tU : (Sample.momU (1 / 400) 1 false).trace = 7 / 2 := by rw [Sample.momU_trace]; norm_num
  refine ⟨o, ws, cl, _, _, _, 1 / 400, _, _, hi, by decide, ht, rfl, R, rfl, b0, sK, sC, tU, Sample.momG_trace _ _, rfl, by norm_num, ?_⟩
  rw [tU, Sample.momG_trace]
  have hd : (defaults (Sample.coupledArgs (1 / 400) false) : Hyper ℝ).damping = 1 := rfl
  have k2 : (Sample.la.nK : ℝ) = 2 := by norm_num [Sample.la, Layer.nK]
  have c1 : (Sample.la.nC : ℝ) = 1 := by norm_num [Sample.la, Layer.nC]
  rw [hd, k2, c1, max_eq_left (by norm_num)]
  have := Real.log_le_sub_one_of_pos (show (0 : ℝ) < 2 / 1 by norm_num)
  linarith

/-- ... and, in the first round, those of `C67_descent_plain`. -/
example : ∃ (o : Opt ℝ) (ws : List Warn) (cl : String → Cls × Cls) (h : Hyper ℝ) (ops : ℕ → List (Op ℝ)) (w : World ℝ) (b x : ℝ)
    (K : Matrix (Fin Sample.la.nK) (Fin Sample.la.nK) ℝ) (C : Matrix (Fin Sample.la.nC) (Fin Sample.la.nC) ℝ) (U : Matrix (Fin Sample.la.nK) (Fin Sample.la.nK) ℝ)
    (G : Matrix (Fin Sample.la.nC) (Fin Sample.la.nC) ℝ),
    Construct.init supportedStructures Sample.model .default (Sample.coupledArgs b false) = .ok (o, ws) ∧ w = ⟨o, Sample.gdata, Sample.ggrad, []⟩ ∧
    Coupling cl Sample.la h ops (fun _ => none) w ∧ h.normalize = false ∧ (w.opt.steps + 0) % h.T = 0 ∧ b = h.lrCov.at (w.opt.steps + 0) ∧ 0 ≤ b ∧ 4 * b ≤ 1 ∧
    b * (9 * x - 1) ≤ 2 ∧ K = facK Sample.la ops (fun _ => none) w 0 ∧ C = facC Sample.la ops (fun _ => none) w 0 ∧ K.det ≠ 0 ∧ C.det ≠ 0 ∧
    U = momK Sample.la h ops (fun _ => none) w 0 ∧ G = momC Sample.la h ops (fun _ => none) w 0 ∧
    (∀ v, v ⬝ᵥ curvK (cl Sample.la.name) h.damping U K G C *ᵥ v ≤ x * (v ⬝ᵥ v)) ∧ (∀ v, v ⬝ᵥ curvC (cl Sample.la.name) h.damping U K G C *ᵥ v ≤ x * (v ⬝ᵥ v)) := by
  have b0 : (0 : ℝ) < 1 / 400 := by norm_num
  obtain ⟨o, ws, cl, hi, ht, R, hc, hs, hf⟩ := Sample.coupled b0 false (x := Sample.hot 1) rfl
  obtain ⟨sK, sC⟩ := Sample.coupled_moments (b := 1 / 400) (norm := false) hf
  have pU := sK.psd R.T_ne
  have pG := sC.psd R.T_ne
  obtain ⟨i1, i2⟩ := (init_ok (by decide) hi).identity ht R.mem
  have tr : ∀ (c : Cls) {n : ℕ} (U : Matrix (Fin n) (Fin n) ℝ), (seen c U).trace = U.trace := fun c n U => by
    unfold seen; split
    · rfl
    · rw [trace_diagonal]; rfl
  have k2 : (Sample.la.nK : ℝ) = 2 := by norm_num [Sample.la, Layer.nK]
  have c1 : (Sample.la.nC : ℝ) = 1 := by norm_num [Sample.la, Layer.nC]
  have tt : Coupled.traces 1 (seen (cl Sample.la.name).1 (Sample.momU (1 / 400) 1 false)) 1 (seen (cl Sample.la.name).2 (Sample.momG (1 / 400) false)) 1 = 37 := by
    unfold Coupled.traces
    simp only [transpose_one, Matrix.one_mul, Matrix.mul_one, tr, Sample.momU_trace, Sample.momG_trace, trace_one, Fintype.card_fin, k2, c1]
    norm_num
  have q : ∀ {n : ℕ} {X : Matrix (Fin n) (Fin n) ℝ}, X.PosSemidef → X.trace ≤ 40 → ∀ v, v ⬝ᵥ X *ᵥ v ≤ 40 * (v ⬝ᵥ v) := fun hX h40 v => by
    have := ((Coupled.below_trace hX).1.mono h40).dotProduct_mulVec_nonneg v
    simp only [star_trivial, sub_mulVec, smul_mulVec, one_mulVec, dotProduct_sub, dotProduct_smul, smul_eq_mul] at this
    linarith
  have T := Coupled.trace_curv 1 (seen (cl Sample.la.name).1 (Sample.momU (1 / 400) 1 false)) 1 (seen (cl Sample.la.name).2 (Sample.momG (1 / 400) false)) 1
  rw [tt, k2, c1] at T
  refine ⟨o, ws, cl, _, _, _, 1 / 400, 40, 1, 1, _, _, hi, rfl, R, rfl, Nat.mod_one _, rfl, b0.le, by norm_num, by norm_num, i1.symm, i2.symm, by simp, by simp,
    (sK 0 (Nat.mod_one _)).symm, (sC 0 (Nat.mod_one _)).symm, ?_, ?_⟩
  · exact q (Coupled.curv_psd zero_le_one (seen_psd _ pU) (seen_psd _ pG) 1 1) (T.1.le.trans (by norm_num))
  · exact q (Coupled.curv_psd zero_le_one (seen_psd _ pG) (seen_psd _ pU) 1 1) (T.2.le.trans (by norm_num))

/-- **C67 (large inputs).** Without normalisation, with `lr_cov = 1/10` and inputs 10 and 20 at every step - all data are bounded and never change - the preconditioner of
the sample model grows beyond every bound. -/
theorem C67_blow_up : ∃ (o : Opt ℝ) (ws : List Warn) (cl : String → Cls × Cls) (h : Hyper ℝ) (ops : ℕ → List (Op ℝ)) (w : World ℝ) (S : ℕ → Matrix _ _ ℝ),
    Construct.init supportedStructures Sample.model .default (Sample.coupledArgs (1 / 10) false) = .ok (o, ws) ∧ w = ⟨o, Sample.gdata, Sample.ggrad, []⟩ ∧
    Coupling cl Sample.la h ops (fun _ => none) w ∧
    (∀ t, fired Sample.la.name (ops t) (w.rounds ops (fun _ => none) t) = [(Sample.hot 10, Sample.batch 2 1)]) ∧
    (S = fun t => kronOf (facK Sample.la ops (fun _ => none) w t) (facC Sample.la ops (fun _ => none) w t)) ∧ ¬ ∃ B, ∀ t i j, |S t i j| ≤ B := by
  have b0 : (0 : ℝ) < 1 / 10 := by norm_num
  obtain ⟨o, ws, cl, hi, ht, R, hc, hs, hf⟩ := Sample.coupled b0 false (x := Sample.hot 10) rfl
  obtain ⟨sK, sC⟩ := Sample.coupled_moments (b := 1 / 10) (norm := false) hf
  have key := (C67_from_construction (by decide) hi ht rfl R (b := 1 / 10) rfl b0 sK sC).2 ⟨rfl, by
    have hd : (defaults (Sample.coupledArgs (1 / 10) false) : Hyper ℝ).damping = 1 := rfl
    have k2 : (Sample.la.nK : ℝ) = 2 := by norm_num [Sample.la, Layer.nK]
    have c1 : (Sample.la.nC : ℝ) = 1 := by norm_num [Sample.la, Layer.nC]
    rw [Sample.momU_trace, Sample.momG_trace, hd, k2, c1]
    norm_num⟩
  refine ⟨o, ws, cl, _, _, _, _, hi, rfl, R, fun t => (hf t).1, rfl, fun ⟨B, hB⟩ => ?_⟩
  generalize damped _ _ _ = D at key
  obtain ⟨t, ht⟩ := (key.eventually_gt_atTop (∑ i, ∑ j, |D i j| * B)).exists
  refine absurd ht (not_lt.2 ?_)
  simp only [trace, diag_apply, Matrix.mul_apply]
  refine Finset.sum_le_sum fun i _ => Finset.sum_le_sum fun j _ => ?_
  refine (le_abs_self _).trans ?_
  rw [abs_mul]
  exact mul_le_mul_of_nonneg_left (hB t j i) (abs_nonneg _)
