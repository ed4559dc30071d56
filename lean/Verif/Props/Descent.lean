import Verif.Props.Coupled
import Verif.Proofs.Descent
import Verif.Proofs.Opt.Pairs
import Mathlib.LinearAlgebra.Matrix.Charpoly.Coeff
import Mathlib.Analysis.Calculus.Deriv.Polynomial
import Mathlib.Analysis.Calculus.Deriv.Pow
import Mathlib.Analysis.Calculus.Deriv.Mul
import Mathlib.Analysis.SpecialFunctions.Log.Deriv

/-! C77: with every structure (except block-diagonal ones) the default update is a gradient step of the divergence on the structure. -/

set_option linter.unusedSectionVars false
open Matrix Construct Filter Topology
open scoped Kronecker

/-! ## The gradient of the divergence -/

section
variable {n d : ℕ} {l : ℝ} {U K X : Matrix (Fin n) (Fin n) ℝ} {G C Y : Matrix (Fin d) (Fin d) ℝ}

/-- the divergence of the preconditioner made of `K` and `C` from the inverse of the damped curvature `G ⊗ U + l` -/
noncomputable def klOf (l : ℝ) (U K : Matrix (Fin n) (Fin n) ℝ) (G C : Matrix (Fin d) (Fin d) ℝ) : ℝ := gaussKL (damped l U G) (kronOf K C)

theorem klOf_eq (hM : (damped l U G).det ≠ 0) (hK : K.det ≠ 0) (hC : C.det ≠ 0) :
    klOf l U K G C = (Coupled.objective l U K G C - Real.log (damped l U G).det - d * n) / 2 :=
  kl_eq (cl := (.dense, .dense)) hM ⟨hK, .inl rfl⟩ ⟨hC, .inl rfl⟩

theorem klOf_le {K₁ : Matrix (Fin n) (Fin n) ℝ} {C₁ : Matrix (Fin d) (Fin d) ℝ} (l0 : 0 < l) (hU : U.PosSemidef) (hG : G.PosSemidef) (hK : K.det ≠ 0) (hC : C.det ≠ 0)
    (hK₁ : K₁.det ≠ 0) (hC₁ : C₁.det ≠ 0) : klOf l U K G C ≤ klOf l U K₁ G C₁ ↔ Coupled.objective l U K G C ≤ Coupled.objective l U K₁ G C₁ :=
  kl_le (cl := (.dense, .dense)) l0 hU hG ⟨hK, .inl rfl⟩ ⟨hC, .inl rfl⟩ ⟨hK₁, .inl rfl⟩ ⟨hC₁, .inl rfl⟩

theorem det_line (X : Matrix (Fin n) (Fin n) ℝ) : HasDerivAt (fun e : ℝ => (1 + e • X).det) X.trace 0 := by
  have h := (det (1 + (Polynomial.X : Polynomial ℝ) • X.map Polynomial.C)).hasDerivAt 0
  rw [Matrix.derivative_det_one_add_X_smul] at h
  refine h.congr_of_eventuallyEq (Eventually.of_forall fun e => ?_)
  show (1 + e • X).det = Polynomial.eval e (det (1 + (Polynomial.X : Polynomial ℝ) • X.map Polynomial.C))
  rw [← Polynomial.coe_evalRingHom, RingHom.map_det]
  congr 1
  ext i j
  simp only [RingHom.mapMatrix_apply, Matrix.map_apply, Matrix.add_apply, Matrix.smul_apply, Matrix.one_apply, smul_eq_mul, map_add, map_mul, Polynomial.coe_evalRingHom, Polynomial.eval_X,
    Polynomial.eval_C]
  split <;> simp <;> ring

theorem trace_line (A X : Matrix (Fin n) (Fin n) ℝ) (hA : Aᵀ = A) :
    HasDerivAt (fun e : ℝ => ((1 + e • X) * (1 + e • X)ᵀ * A).trace) (2 * (A * X).trace) 0 := by
  have e : (fun e : ℝ => ((1 + e • X) * (1 + e • X)ᵀ * A).trace) = fun e => A.trace + 2 * (A * X).trace * e + (X * Xᵀ * A).trace * e ^ 2 := by
    funext e
    have := Coupled.change_trace (-e) X A hA
    rw [Coupled.change, neg_smul, sub_neg_eq_add, Matrix.sub_mul, Matrix.one_mul, trace_sub] at this
    linear_combination this
  rw [e]
  have h1 : HasDerivAt (fun e : ℝ => e) 1 0 := hasDerivAt_id 0
  have h2 := h1.const_mul (2 * (A * X).trace)
  have h3 := (h1.pow 2).const_mul (X * Xᵀ * A).trace
  refine ((h2.const_add A.trace).add h3).congr_deriv ?_
  simp

/-- the derivative of the divergence along `K (1 + e X)` -/
theorem klOf_deriv (l0 : 0 < l) (d0 : 0 < d) (hU : U.PosSemidef) (hG : G.PosSemidef) (hK : K.det ≠ 0) (hC : C.det ≠ 0) (X : Matrix (Fin n) (Fin n) ℝ) :
    HasDerivAt (fun e : ℝ => klOf l U (K * (1 + e • X)) G C) (d * ((Coupled.curv l U K G C - 1) * X).trace) 0 := by
  have hM := (damped_pos l0 hU hG).det_pos.ne'
  have hs : ∀ {A : Matrix (Fin n) (Fin n) ℝ}, A.PosSemidef → Aᵀ = A := fun h => by
    have := h.isHermitian; rwa [IsHermitian, conjTranspose_eq_transpose_of_trivial] at this
  have hd := det_line X
  have d1 : (1 + (0 : ℝ) • X).det = 1 := by simp
  have ne : ∀ᶠ e : ℝ in 𝓝 0, (1 + e • X).det ≠ 0 := hd.continuousAt.eventually_ne (by rw [d1]; exact one_ne_zero)
  have h1 := trace_line (Kᵀ * U * K) X (hs (Coupled.psd_sandwich hU K))
  have h2 := trace_line (Kᵀ * K) X (hs (Coupled.psd_gram K))
  have h3 : HasDerivAt (fun e : ℝ => Real.log ((1 + e • X).det ^ 2)) (2 * X.trace) 0 := by
    have := (hd.pow 2).log (by simp)
    simpa using this
  have key := (((h1.mul_const (Cᵀ * G * C).trace).add ((h2.mul_const (Cᵀ * C).trace).const_mul l)).sub (h3.const_mul (d : ℝ))).div_const 2
  have key := key.add_const ((- d * Real.log (K.det ^ 2) - n * Real.log (C.det ^ 2) - Real.log (damped l U G).det - d * n) / 2)
  refine (key.congr_of_eventuallyEq ?_).congr_deriv ?_
  · filter_upwards [ne] with e he
    have o := Coupled.objective_step (l := l) (U := U) (G := G) hK hC he (show (1 : Matrix (Fin d) (Fin d) ℝ).det ≠ 0 by simp)
    rw [Matrix.mul_one] at o
    rw [klOf_eq hM (by rw [det_mul]; exact mul_ne_zero hK he) hC, o]
    simp only [Matrix.one_mul, transpose_one, det_one, one_pow, Real.log_one, mul_zero, sub_zero, Pi.add_apply, Pi.sub_apply]
    ring
  · have c := Coupled.curv_trace_mul l U K X d0 G C
    rw [Matrix.sub_mul, Matrix.one_mul, trace_sub, mul_sub, Matrix.trace_mul_comm (Coupled.curv l U K G C) X, c, Matrix.trace_mul_comm (Kᵀ * U * K) X, Matrix.trace_mul_comm (Kᵀ * K) X]
    ring

/-- the divergence is symmetric in the two factors -/
theorem klOf_swap (l0 : 0 < l) (hU : U.PosSemidef) (hG : G.PosSemidef) (hK : K.det ≠ 0) (hC : C.det ≠ 0) : klOf l G C U K = klOf l U K G C := by
  have e : damped l U G = (damped l G U).submatrix Prod.swap Prod.swap := by
    ext ⟨i, j⟩ ⟨i', j'⟩
    simp only [damped, Matrix.add_apply, Matrix.smul_apply, kroneckerMap_apply, submatrix_apply, Prod.swap, smul_eq_mul, Matrix.one_apply, Prod.mk.injEq]
    simp only [mul_comm, and_comm]
  have e' : kronOf K C = (kronOf C K).submatrix Prod.swap Prod.swap := by
    ext ⟨i, j⟩ ⟨i', j'⟩
    simp only [kronOf, kroneckerMap_apply, submatrix_apply, Prod.swap]
    rw [mul_comm]
  have e2 : damped l U G * kronOf K C = (damped l G U * kronOf C K).submatrix Prod.swap Prod.swap := by
    rw [e, e', ← submatrix_mul_equiv _ _ _ (Equiv.prodComm (Fin d) (Fin n))]
    rfl
  rw [klOf, klOf, gaussKL, gaussKL, e2]
  have t : ((damped l G U * kronOf C K).submatrix Prod.swap Prod.swap).trace = (damped l G U * kronOf C K).trace := by
    simp only [Matrix.trace, diag_apply, submatrix_apply]
    exact Equiv.sum_comp (Equiv.prodComm (Fin d) (Fin n)) fun p => (damped l G U * kronOf C K) p p
  have dt : ((damped l G U * kronOf C K).submatrix Prod.swap Prod.swap).det = (damped l G U * kronOf C K).det :=
    det_submatrix_equiv_self (Equiv.prodComm (Fin d) (Fin n)) _
  rw [t, dt, Fintype.card_prod, Fintype.card_prod, mul_comm (Fintype.card (Fin d))]

end

/-! ## The rounds of the default update -/

section
variable {cl : String → Cls × Cls} {m : Layer} {h : Hyper ℝ} {ops : ℕ → List (Op ℝ)} {attr : ℕ → Option ℝ} {w : World ℝ}

/-- Training in rounds, seen from layer `m` with hyper-parameters `h`: as `Coupling`, with factors of any structure except block-diagonal ones. -/
structure Shaping (cl : String → Cls × Cls) (m : Layer) (h : Hyper ℝ) (ops : ℕ → List (Op ℝ)) (attr : ℕ → Option ℝ) (w : World ℝ) : Prop where
  live : w.Live cl
  fits : ∀ t, FitsRun (w.rounds ops attr t) (ops t ++ [.step false (attr t) false])
  quiet : ∀ t, ∀ op ∈ ops t, op.Quiet
  mem : m ∈ w.opt.layers
  hyper : w.opt.hyperOf m = .ok h
  fresh : w.opt.HKs m.name = none ∧ w.opt.HCs m.name = none
  kfac : h.kfacLike = false
  alpha : h.alpha1 = 0
  damping : 0 < h.damping
  idle : ∀ t, (w.opt.steps + t) % h.T ≠ 0 → fired m.name (ops t) (w.rounds ops attr t) = []
  clsK : ¬ (cl m.name).1.IsBlock
  clsC : ¬ (cl m.name).2.IsBlock

theorem Coupling.shaping (R : Coupling cl m h ops attr w) : Shaping cl m h ops attr w :=
  { R with clsK := by rcases R.clsK with e | e <;> rw [e] <;> exact id, clsC := by rcases R.clsC with e | e <;> rw [e] <;> exact id }

theorem sum_not_block {β : Type} {c : Cls} (hc : ¬ c.IsBlock) {n : ℕ} (hs : c.Supports n) (K : Matrix (Fin n) (Fin n) ℝ) (f : β → Matrix (Fin n) (Fin n) ℝ) : ∀ l : List β,
    (l.map fun e => c.proj n (c.sandwich K (f e))).sum = c.proj n (Kᵀ * (l.map f).sum * K)
  | [] => by simp [proj_zero hs]
  | e :: l => by rw [List.map_cons, List.sum_cons, List.map_cons, List.sum_cons, sum_not_block hc hs K f l, sandwich_not_block hc, Matrix.mul_add, Matrix.add_mul, proj_add hs]

theorem avgTr_proj {c : Cls} {n : ℕ} (hs : c.Supports n) (A : Matrix (Fin n) (Fin n) ℝ) : avgTr (c.proj n A) = avgTr A := by rw [avgTr, avgTr, proj_trace hs]

theorem proj_lin {c : Cls} {n : ℕ} (hs : c.Supports n) (a b : ℝ) (A B : Matrix (Fin n) (Fin n) ℝ) : c.proj n (a • A + b • B - 1) = a • c.proj n A + b • c.proj n B - 1 := by
  have e : a • A + b • B - 1 = a • A + b • B + (-1 : ℝ) • 1 := by rw [neg_one_smul, sub_eq_add_neg]
  rw [e, proj_add_smul hs, proj_add hs, proj_smul hs, proj_smul hs, proj_one hs, neg_one_smul, sub_eq_add_neg]

/-- one round -/
theorem Shaping.round (R : Shaping cl m h ops attr w) {t : ℕ} (B : Between cl m h t w (w.rounds ops attr t)) :
    Between cl m h (t + 1) w (w.rounds ops attr (t + 1)) ∧
    ((w.opt.steps + t) % h.T ≠ 0 → facK m ops attr w (t + 1) = facK m ops attr w t ∧ facC m ops attr w (t + 1) = facC m ops attr w t) ∧
    ((w.opt.steps + t) % h.T = 0 → ∀ K C X Y, K = facK m ops attr w t → C = facC m ops attr w t →
      X = (cl m.name).1.proj m.nK (Coupled.curv h.damping (momK m h ops attr w t) K (momC m h ops attr w t) C - 1) →
      Y = (cl m.name).2.proj m.nC (Coupled.curv h.damping (momC m h ops attr w t) C (momK m h ops attr w t) K - 1) →
      ∃ a b, IsRate h (w.opt.steps + t) ((1 / 2 : ℝ) • X) a ∧ IsRate h (w.opt.steps + t) ((1 / 2 : ℝ) • Y) b ∧
        facK m ops attr w (t + 1) = K * (1 - (a / 2) • X) ∧ facC m ops attr w (t + 1) = C * (1 - (b / 2) • Y)) := by
  unfold momK momC facK facC Coupled.curv
  generalize hv : w.rounds ops attr t = v at B
  have f := R.fits t
  rw [hv] at f
  obtain ⟨f1, f2, -⟩ := along_append.1 f
  have W := B.live.window f1 (R.quiet t)
  obtain ⟨v', e, sp, lv'⟩ := W.live.step f2
  have er : w.rounds ops attr (t + 1) = v' := by
    rw [World.rounds, hv, run_append, run_cons, e]; rfl
  rw [er]
  have hm' : m ∈ (run (ops t) v).opt.layers := by rw [W.layers]; exact B.mem
  have hh' : (run (ops t) v).opt.hyperOf m = .ok h := by rw [W.hyperOf]; exact B.hyper
  have L := sp.layer m hm' h hh'
  obtain ⟨p, hp⟩ := B.live.prev
  have p0 := (B.live.pos _ _ hp).ne'
  have St := W.stats m B.mem h p B.hyper hp
  have good := B.live.sound.good m B.mem
  have hs : (run (ops t) v).opt.steps = w.opt.steps + t := by rw [W.steps, B.steps]
  have nofire : (w.opt.steps + t) % h.T ≠ 0 → fired m.name (ops t) v = [] := by
    intro h1; have := R.idle t h1; rwa [hv] at this
  refine ⟨⟨lv', by rw [sp.layers]; exact hm', ?_, ?_, by rw [sp.steps, hs]; ring⟩, fun h1 => ?_, fun h1 => ?_⟩
  · have : v'.opt.hyperOf m = (run (ops t) v).opt.hyperOf m := by unfold Opt.hyperOf; rw [sp.ptrGroup, sp.groups]
    rw [this, hh']
  · by_cases h1 : (w.opt.steps + t) % h.T = 0
    · have U := L.upd (by rw [hs]; exact h1)
      exact ⟨U.HK, U.HC⟩
    · have s := L.noupd (by rw [hs]; exact h1)
      have g1 := St.HK0.2 ⟨B.fresh.1, nofire h1⟩
      have g2 := St.HC0.2 ⟨B.fresh.2, nofire h1⟩
      exact ⟨by rw [s.HKs]; exact g1, by rw [s.HCs]; exact g2⟩
  · have s := L.noupd (by rw [hs]; exact h1)
    exact ⟨by rw [s.Ks, W.Ks], by rw [s.Cs, W.Cs]⟩
  · obtain ⟨mK, mC, bK, bC, -, e2, e3, e4, e5, e6, e7⟩ := (L.upd (by rw [hs]; exact h1)).eqs
    rw [hs] at e4 e5
    rw [R.alpha, zero_smul, zero_add] at e2 e3
    have dS : dirScale h = 1 := by unfold dirScale; split <;> simp [R.alpha]
    rintro K C X Y rfl rfl rfl rfl
    have eH := St.HK
    rw [B.fresh.1, show denO (none : Option (SM ℝ)) m.nK = 0 from rfl, zero_add, sum_not_block R.clsK good.supK] at eH
    have eH' := St.HC
    rw [B.fresh.2, show denO (none : Option (SM ℝ)) m.nC = 0 from rfl, zero_add, sum_not_block R.clsC good.supC] at eH'
    have eu : (run (ops t) v).unscale (attr t) = p * (1 / (run (ops t) v).curScale (attr t) ^ 2) := by
      rw [World.unscale, W.steps, W.prev, hp]
      simp only [Option.getD_some]
      field_simp
    have e2' : mK = (1 / 2 : ℝ) • (cl m.name).1.proj m.nK (avgTr ((denO (v.opt.Cs m.name) m.nC)ᵀ * ((1 / (run (ops t) v).curScale (attr t) ^ 2) •
          ((fired m.name (ops t) v).map fun e => gradMoment h m e.2).sum) * denO (v.opt.Cs m.name) m.nC) •
        ((denO (v.opt.Ks m.name) m.nK)ᵀ * ((fired m.name (ops t) v).map fun e => inputMoment h m e.1).sum * denO (v.opt.Ks m.name) m.nK) +
        (h.damping * avgTr ((denO (v.opt.Cs m.name) m.nC)ᵀ * denO (v.opt.Cs m.name) m.nC)) • ((denO (v.opt.Ks m.name) m.nK)ᵀ * denO (v.opt.Ks m.name) m.nK) - 1) := by
      rw [e2, dirK, dS, eH, eH', W.Ks, W.Cs, updDir, eu, proj_lin good.supK, sandwich_not_block R.clsK, sandwich_not_block R.clsC]
      simp only [R.kfac, Bool.false_eq_true, if_false, Matrix.mul_one, Matrix.mul_smul, Matrix.smul_mul, avgTr_smul, avgTr_proj good.supC, mul_one]
      congr 4
      field_simp
    have e3' : mC = (1 / 2 : ℝ) • (cl m.name).2.proj m.nC (avgTr ((denO (v.opt.Ks m.name) m.nK)ᵀ * ((fired m.name (ops t) v).map fun e => inputMoment h m e.1).sum *
          denO (v.opt.Ks m.name) m.nK) •
        ((denO (v.opt.Cs m.name) m.nC)ᵀ * ((1 / (run (ops t) v).curScale (attr t) ^ 2) •
          ((fired m.name (ops t) v).map fun e => gradMoment h m e.2).sum) * denO (v.opt.Cs m.name) m.nC) +
        (h.damping * avgTr ((denO (v.opt.Ks m.name) m.nK)ᵀ * denO (v.opt.Ks m.name) m.nK)) • ((denO (v.opt.Cs m.name) m.nC)ᵀ * denO (v.opt.Cs m.name) m.nC) - 1) := by
      rw [e3, dirC, dS, eH, eH', W.Ks, W.Cs, updDir, eu, proj_lin good.supC, sandwich_not_block R.clsK, sandwich_not_block R.clsC]
      simp only [R.kfac, Bool.false_eq_true, if_false, Matrix.mul_one, Matrix.mul_smul, Matrix.smul_mul, proj_smul good.supC, avgTr_proj good.supK, mul_one, smul_smul]
      congr 4
      field_simp
    refine ⟨bK, bC, by rw [← e2']; exact e4, by rw [← e3']; exact e5, ?_, ?_⟩
    · rw [e6, e2', W.Ks, smul_smul]
      congr 3
      ring
    · rw [e7, e3', W.Cs, smul_smul]
      congr 3
      ring

theorem Shaping.between (R : Shaping cl m h ops attr w) : ∀ t, Between cl m h t w (w.rounds ops attr t)
  | 0 => ⟨R.live, R.mem, R.hyper, R.fresh, rfl⟩
  | t + 1 => (R.round (R.between t)).1

theorem Shaping.T_ne (R : Shaping cl m h ops attr w) : h.T ≠ 0 := by
  obtain ⟨h', e, hT⟩ := R.live.sound.hyper m R.mem
  rw [R.hyper] at e; cases e
  exact hT

theorem curv_sub_symm {n d : ℕ} {l : ℝ} {U K : Matrix (Fin n) (Fin n) ℝ} {G C : Matrix (Fin d) (Fin d) ℝ} (hU : U.PosSemidef) :
    (Coupled.curv l U K G C - 1)ᵀ = Coupled.curv l U K G C - 1 := by rw [transpose_sub, transpose_one, Coupled.curv_symm hU]

theorem frob_sqs {n : ℕ} (X : Matrix (Fin n) (Fin n) ℝ) : frob X X = Coupled.sqs X := by
  rw [Coupled.sqs_eq_sum]; simp only [frob, sq]

theorem good_dir {c : Cls} {n : ℕ} (hs : c.Supports n) {H : Matrix (Fin n) (Fin n) ℝ} (hH : Hᵀ = H) :
    Coupled.sqs (c.proj n (H - 1)) ≤ 2 * ((H - 1) * c.proj n (H - 1)).trace := by
  have e : (H - 1)ᵀ = H - 1 := by rw [transpose_sub, transpose_one, hH]
  have := proj_dir hs e
  rwa [frob_sqs, frob_eq_trace, e] at this

theorem nrm_le_max {n : ℕ} {X : Matrix (Fin n) (Fin n) ℝ} {v : ℝ} (v0 : 0 ≤ v) (hv : ∀ i j, |X i j| ≤ v) : Coupled.nrm X ≤ n * v := by
  refine Real.sqrt_le_iff.2 ⟨by positivity, ?_⟩
  rw [Coupled.sqs_eq_sum]
  calc ∑ i, ∑ j, X i j ^ 2 ≤ ∑ _i : Fin n, ∑ _j : Fin n, v ^ 2 := Finset.sum_le_sum fun i _ => Finset.sum_le_sum fun j _ => by
        rw [← sq_abs]; exact pow_le_pow_left₀ (abs_nonneg _) (hv i j) 2
    _ = (n * v) ^ 2 := by simp; ring

theorem max_le_nrm {n : ℕ} (X : Matrix (Fin n) (Fin n) ℝ) (i j : Fin n) : |X i j| ≤ Coupled.nrm X := by
  refine Real.abs_le_sqrt ?_
  rw [Coupled.sqs_eq_sum]
  exact (Finset.single_le_sum (f := fun j => X i j ^ 2) (fun _ _ => sq_nonneg _) (Finset.mem_univ j)).trans
    (Finset.single_le_sum (f := fun i => ∑ j, X i j ^ 2) (fun _ _ => Finset.sum_nonneg fun _ _ => sq_nonneg _) (Finset.mem_univ i))

/-- a normalised rate -/
theorem good_norm (hn : h.normalize = true) {c : Cls} {n t : ℕ} (n0 : 0 < n) (hs : c.Supports n) {H : Matrix (Fin n) (Fin n) ℝ} (hH : Hᵀ = H) {a : ℝ}
    (hr : IsRate h t ((1 / 2 : ℝ) • c.proj n (H - 1)) a) (b0 : 0 ≤ h.lrCov.at t) (b1 : 18 * n * h.lrCov.at t ≤ 1) : Coupled.Good H (c.proj n (H - 1)) (a / 2) := by
  rw [IsRate, if_pos hn] at hr
  obtain ⟨v, hv, rfl⟩ := hr
  have m0 : 0 < max 1 v := lt_max_of_lt_left one_pos
  have n1 : (1 : ℝ) ≤ n := by exact_mod_cast n0
  have v0 : 0 ≤ v := by obtain ⟨i, j, e⟩ := hv.1; rw [e]; exact abs_nonneg _
  have ent : ∀ i j, |c.proj n (H - 1) i j| ≤ 2 * v := fun i j => by
    have := hv.2 i j
    rw [Matrix.smul_apply, smul_eq_mul, abs_mul, abs_of_pos (by norm_num : (0 : ℝ) < 1 / 2)] at this
    linarith
  have h1 : v ≤ max 1 v := le_max_right _ _
  have h2 : 1 ≤ max 1 v := le_max_left _ _
  have hN := nrm_le_max (by positivity) ent
  have ht : H.trace ≤ n + n * (2 * v) := by
    have e := proj_trace hs (H - 1)
    rw [trace_sub, trace_one, Fintype.card_fin] at e
    have : (c.proj n (H - 1)).trace ≤ ∑ _i : Fin n, 2 * v := Finset.sum_le_sum fun i _ => (le_abs_self _).trans (ent i i)
    rw [Finset.sum_const, Finset.card_univ, Fintype.card_fin, nsmul_eq_mul] at this
    linarith
  generalize h.lrCov.at t = b at *
  generalize max 1 v = M at *
  have b2 : b * (n * v) ≤ b * (n * M) := mul_le_mul_of_nonneg_left (mul_le_mul_of_nonneg_left h1 (by linarith)) b0
  have b3 : b * (n * 1) ≤ b * (n * M) := mul_le_mul_of_nonneg_left (mul_le_mul_of_nonneg_left h2 (by linarith)) b0
  have b4 : b * (1 * M) ≤ b * (n * M) := mul_le_mul_of_nonneg_left (mul_le_mul_of_nonneg_right n1 m0.le) b0
  have b6 : b * (1 * 1) ≤ b * (1 * M) := mul_le_mul_of_nonneg_left (by linarith) b0
  have b5 : 18 * n * b * M ≤ 1 * M := mul_le_mul_of_nonneg_right b1 m0.le
  refine ⟨by positivity, good_dir hs hH, ?_, ?_⟩
  · have := mul_le_mul_of_nonneg_left hN b0
    rw [show 8 * (b / M / 2 * Coupled.nrm (c.proj n (H - 1))) = (4 * (b * Coupled.nrm (c.proj n (H - 1)))) / M by field_simp; ring, div_le_one m0]
    linarith
  · have := mul_le_mul_of_nonneg_left ht b0
    rw [show b / M / 2 * (15 + 7 * H.trace) = (b * (15 + 7 * H.trace) / 2) / M by field_simp, div_le_one m0]
    linarith

/-- a rate without normalisation -/
theorem good_plain (hn : h.normalize = false) {c : Cls} {n t : ℕ} (n0 : 0 < n) (hs : c.Supports n) {H : Matrix (Fin n) (Fin n) ℝ} (hH : H.PosSemidef) {a : ℝ}
    (hr : IsRate h t ((1 / 2 : ℝ) • c.proj n (H - 1)) a) (b0 : 0 ≤ h.lrCov.at t) (b1 : h.lrCov.at t * (15 + 8 * (H.trace + n)) ≤ 1) :
    Coupled.Good H (c.proj n (H - 1)) (a / 2) := by
  have e : Hᵀ = H := by have := hH.isHermitian; rwa [IsHermitian, conjTranspose_eq_transpose_of_trivial] at this
  rw [IsRate, if_neg (by simp [hn])] at hr
  subst hr
  have gd := good_dir hs e
  have t0 := hH.trace_nonneg
  have n1 : (1 : ℝ) ≤ n := by exact_mod_cast n0
  have hx : Coupled.nrm (c.proj n (H - 1)) ≤ 2 * (H.trace + n) := by
    have h1 := (le_abs_self _).trans (Coupled.abs_trace_mul (H - 1) (c.proj n (H - 1)))
    have h2 : Coupled.nrm (H - 1) ≤ H.trace + n := by
      have := Coupled.nrm_add H ((-1 : ℝ) • 1)
      rw [Coupled.nrm_smul, neg_one_smul, ← sub_eq_add_neg, abs_neg, abs_one, one_mul] at this
      have t1 := Coupled.nrm_le_trace (PosSemidef.one (n := Fin n) (R := ℝ))
      rw [trace_one, Fintype.card_fin] at t1
      linarith [Coupled.nrm_le_trace hH]
    rcases (Coupled.nrm_nonneg (c.proj n (H - 1))).eq_or_lt with h0 | h0
    · rw [← h0]; positivity
    · refine le_of_mul_le_mul_right ?_ h0
      rw [← sq, Coupled.nrm_sq]
      have := mul_le_mul_of_nonneg_right h2 h0.le
      linarith
  generalize h.lrCov.at t = b at *
  have h3 := mul_le_mul_of_nonneg_left hx b0
  refine ⟨by positivity, gd, ?_, ?_⟩
  · linarith [mul_nonneg b0 t0]
  · linarith [mul_nonneg b0 t0, mul_nonneg b0 (show (0 : ℝ) ≤ n by linarith)]


/-! ## The theorems -/

/-- No direction of the classes changes the divergence to first order: `K` and `C` are a critical point of the divergence on the factors of their classes. -/
def Critical (cc : Cls × Cls) {n d : ℕ} (l : ℝ) (U K : Matrix (Fin n) (Fin n) ℝ) (G C : Matrix (Fin d) (Fin d) ℝ) : Prop :=
  (∀ Z, cc.1.Rep n Z → HasDerivAt (fun e : ℝ => klOf l U (K * (1 + e • Z)) G C) 0 0) ∧ ∀ Z, cc.2.Rep d Z → HasDerivAt (fun e : ℝ => klOf l U K G (C * (1 + e • Z))) 0 0

/-- the derivative of the divergence along `C (1 + e Y)` -/
theorem klOf_deriv' {n d : ℕ} {l : ℝ} {U K : Matrix (Fin n) (Fin n) ℝ} {G C : Matrix (Fin d) (Fin d) ℝ} (l0 : 0 < l) (n0 : 0 < n) (hU : U.PosSemidef) (hG : G.PosSemidef)
    (hK : K.det ≠ 0) (hC : C.det ≠ 0) (Y : Matrix (Fin d) (Fin d) ℝ) :
    HasDerivAt (fun e : ℝ => klOf l U K G (C * (1 + e • Y))) (n * ((Coupled.curv l G C U K - 1) * Y).trace) 0 := by
  have ne : ∀ᶠ e : ℝ in 𝓝 0, (1 + e • Y).det ≠ 0 := (det_line Y).continuousAt.eventually_ne (by simp)
  refine (klOf_deriv l0 n0 hG hU hC hK Y).congr_of_eventuallyEq ?_
  filter_upwards [ne] with e he
  exact (klOf_swap l0 hU hG hK (by rw [det_mul]; exact mul_ne_zero hC he)).symm

theorem critical_iff {cc : Cls × Cls} {n d : ℕ} {l : ℝ} {U K : Matrix (Fin n) (Fin n) ℝ} {G C : Matrix (Fin d) (Fin d) ℝ} (sK : cc.1.Supports n) (sC : cc.2.Supports d)
    (l0 : 0 < l) (n0 : 0 < n) (d0 : 0 < d) (hU : U.PosSemidef) (hG : G.PosSemidef) (hK : K.det ≠ 0) (hC : C.det ≠ 0) : Critical cc l U K G C ↔
    cc.1.proj n (Coupled.curv l U K G C - 1) = 0 ∧ cc.2.proj d (Coupled.curv l G C U K - 1) = 0 := by
  have n0' : (n : ℝ) ≠ 0 := by exact_mod_cast n0.ne'
  have d0' : (d : ℝ) ≠ 0 := by exact_mod_cast d0.ne'
  rw [proj_eq_zero sK (curv_sub_symm hU), proj_eq_zero sC (curv_sub_symm hG), Critical]
  refine and_congr (forall₂_congr fun Z _ => ?_) (forall₂_congr fun Z _ => ?_)
  · rw [frob_eq_trace, curv_sub_symm hU]
    refine ⟨fun e => ?_, fun e => ?_⟩
    · exact (mul_eq_zero.1 ((klOf_deriv l0 d0 hU hG hK hC Z).unique e)).resolve_left d0'
    · have := klOf_deriv l0 d0 hU hG hK hC Z
      rwa [e, mul_zero] at this
  · rw [frob_eq_trace, curv_sub_symm hG]
    refine ⟨fun e => ?_, fun e => ?_⟩
    · exact (mul_eq_zero.1 ((klOf_deriv' l0 n0 hU hG hK hC Z).unique e)).resolve_left n0'
    · have := klOf_deriv' l0 n0 hU hG hK hC Z
      rwa [e, mul_zero] at this

/-- `X` is the gradient of `f` at 0 along the directions of the class `c` for the inner product `⟨X, Z⟩ = s ⟨½ (X + Xᵀ), Z⟩`; `f` decreases along `−X`, at a rate of at
least `s/2 ‖X‖²` -/
structure IsGradient (c : Cls) {n : ℕ} (s : ℝ) (f : Matrix (Fin n) (Fin n) ℝ → ℝ) (X : Matrix (Fin n) (Fin n) ℝ) : Prop where
  rep : c.Rep n X
  grad : ∀ Z, c.Rep n Z → HasDerivAt (fun e : ℝ => f (e • Z)) (s * ∑ i, ∑ j, (X i j + X j i) / 2 * Z i j) 0
  down : ∃ r, HasDerivAt (fun e : ℝ => f (e • -X)) r 0 ∧ r ≤ -(s / 2) * ∑ i, ∑ j, X i j ^ 2

theorem isGradient {c : Cls} {n : ℕ} (hs : c.Supports n) {s : ℝ} (s0 : 0 ≤ s) {f : Matrix (Fin n) (Fin n) ℝ → ℝ} {H : Matrix (Fin n) (Fin n) ℝ} (hH : Hᵀ = H)
    (hd : ∀ Z, HasDerivAt (fun e : ℝ => f (e • Z)) (s * ((H - 1) * Z).trace) 0) : IsGradient c s f (c.proj n (H - 1)) := by
  have e : (H - 1)ᵀ = H - 1 := by rw [transpose_sub, transpose_one, hH]
  refine ⟨Cls.rep_proj hs _, fun Z hZ => (hd Z).congr_deriv ?_, _, hd _, ?_⟩
  · have o := proj_orth hs e hZ
    rw [frob_eq_trace (H - 1), e, ← frob_add_left] at o
    have o2 : frob (c.proj n (H - 1) + (c.proj n (H - 1))ᵀ) Z = 2 * ∑ i, ∑ j, (c.proj n (H - 1) i j + c.proj n (H - 1) j i) / 2 * Z i j := by
      simp only [frob, Finset.mul_sum, Matrix.add_apply, transpose_apply]
      refine Finset.sum_congr rfl fun i _ => Finset.sum_congr rfl fun j _ => by ring
    rw [o2] at o
    rw [mul_left_cancel₀ two_ne_zero o]
  · have := mul_le_mul_of_nonneg_left (good_dir hs hH) s0
    rw [Matrix.mul_neg, trace_neg, ← Coupled.sqs_eq_sum]
    linarith

/-- **C77 (the update is a gradient step).** In a round that updates the factors, with any data and any structures except block-diagonal ones, invertible factors `K` and `C` become
`K (1 − a X / 2)` and `C (1 − b Y / 2)` where `a` and `b` are the learning rates of the factors and `X` and `Y` are matrices of the classes of `K` and `C`: the gradients,
along the directions of these classes, of the divergence of the preconditioner `C Cᵀ ⊗ K Kᵀ` from the inverse of the damped curvature `G ⊗ U + damping` of the round, divided by
the dimension of the other factor. -/
theorem C77_gradient (R : Shaping cl m h ops attr w) (t : ℕ) (hu : (w.opt.steps + t) % h.T = 0) {U K : Matrix (Fin m.nK) (Fin m.nK) ℝ} {G C : Matrix (Fin m.nC) (Fin m.nC) ℝ}
    (hU : U = momK m h ops attr w t) (hG : G = momC m h ops attr w t) (hK : K = facK m ops attr w t) (hC : C = facC m ops attr w t) (K0 : K.det ≠ 0) (C0 : C.det ≠ 0) :
    ∃ X Y a b, IsGradient (cl m.name).1 m.nC (fun Z => klOf h.damping U (K * (1 + Z)) G C) X ∧ IsGradient (cl m.name).2 m.nK (fun Z => klOf h.damping U K G (C * (1 + Z))) Y ∧
      IsRate h (w.opt.steps + t) ((1 / 2 : ℝ) • X) a ∧ IsRate h (w.opt.steps + t) ((1 / 2 : ℝ) • Y) b ∧
      facK m ops attr w (t + 1) = K * (1 - (a / 2) • X) ∧ facC m ops attr w (t + 1) = C * (1 - (b / 2) • Y) := by
  have g := R.live.sound.good m R.mem
  obtain ⟨a, b, r1, r2, e1, e2⟩ := (R.round (R.between t)).2.2 hu K C _ _ hK hC rfl rfl
  have U0 := momK_psd (m := m) (h := h) (ops := ops) (attr := attr) (w := w) t
  have G0 := momC_psd (m := m) (h := h) (ops := ops) (attr := attr) (w := w) t
  rw [← hU, ← hG] at r1 r2 e1 e2
  rw [← hU] at U0
  rw [← hG] at G0
  exact ⟨_, _, a, b, isGradient g.supK (Nat.cast_nonneg _) (Coupled.curv_symm U0) fun Z => klOf_deriv R.damping g.posC U0 G0 K0 C0 Z,
    isGradient g.supC (Nat.cast_nonneg _) (Coupled.curv_symm G0) fun Z => klOf_deriv' R.damping g.posK U0 G0 K0 C0 Z, r1, r2, e1, e2⟩

/-- **C77 (stationary factors).** In a round that updates the factors with `lr_cov ≠ 0`, invertible factors stay as they are exactly if they are a critical point of the
divergence of the round on the factors of their classes. -/
theorem C77_stationary (R : Shaping cl m h ops attr w) (t : ℕ) (hu : (w.opt.steps + t) % h.T = 0) (b0 : h.lrCov.at (w.opt.steps + t) ≠ 0)
    (hK : (facK m ops attr w t).det ≠ 0) (hC : (facC m ops attr w t).det ≠ 0) :
    (facK m ops attr w (t + 1) = facK m ops attr w t ∧ facC m ops attr w (t + 1) = facC m ops attr w t) ↔
      Critical (cl m.name) h.damping (momK m h ops attr w t) (facK m ops attr w t) (momC m h ops attr w t) (facC m ops attr w t) := by
  have g := R.live.sound.good m R.mem
  obtain ⟨a, b, r1, r2, e1, e2⟩ := (R.round (R.between t)).2.2 hu _ _ _ _ rfl rfl rfl rfl
  rw [critical_iff g.supK g.supC R.damping g.posK g.posC (momK_psd t) (momC_psd t) hK hC, e1, e2, fixed_iff hK (rate_ne r1 b0), fixed_iff hC (rate_ne r2 b0)]

theorem trace_damped {n d : ℕ} (l : ℝ) (U K : Matrix (Fin n) (Fin n) ℝ) (G C : Matrix (Fin d) (Fin d) ℝ) : (damped l U G * kronOf K C).trace = Coupled.traces l U K G C := by
  have t : ∀ {k : ℕ} (A B : Matrix (Fin k) (Fin k) ℝ), (A * (B * Bᵀ)).trace = (Bᵀ * A * B).trace := fun A B => by
    rw [← Matrix.mul_assoc, Matrix.trace_mul_comm, ← Matrix.mul_assoc]
  rw [damped, kronOf, Matrix.add_mul, ← mul_kronecker_mul, Matrix.smul_mul, Matrix.one_mul, trace_add, trace_smul, trace_kronecker, trace_kronecker, Coupled.traces, t, t,
    Matrix.trace_mul_comm K, Matrix.trace_mul_comm C, smul_eq_mul]
  ring

theorem good_kl {n d : ℕ} (n0 : 0 < n) (d0 : 0 < d) {l : ℝ} (l0 : 0 < l) {U K X : Matrix (Fin n) (Fin n) ℝ} {G C Y : Matrix (Fin d) (Fin d) ℝ} (hU : U.PosSemidef)
    (hG : G.PosSemidef) (hK : K.det ≠ 0) (hC : C.det ≠ 0) {ε ε' : ℝ} (gK : Coupled.Good (Coupled.curv l U K G C) X ε) (gC : Coupled.Good (Coupled.curv l G C U K) Y ε') :
    (K * (1 - ε • X)).det ≠ 0 ∧ (C * (1 - ε' • Y)).det ≠ 0 ∧ klOf l U (K * (1 - ε • X)) G (C * (1 - ε' • Y)) ≤ klOf l U K G C ∧
    (klOf l U (K * (1 - ε • X)) G (C * (1 - ε' • Y)) = klOf l U K G C → K * (1 - ε • X) = K ∧ C * (1 - ε' • Y) = C) := by
  obtain ⟨d1, d2, o⟩ := Coupled.good_descent n0 d0 l0.le hU hG hK hC gK gC
  have hM := (damped_pos l0 hU hG).det_pos.ne'
  have k1 : (K * (1 - ε • X)).det ≠ 0 := by rw [det_mul]; exact mul_ne_zero hK d1
  have k2 : (C * (1 - ε' • Y)).det ≠ 0 := by rw [det_mul]; exact mul_ne_zero hC d2
  have n0' : (0 : ℝ) < n := by exact_mod_cast n0
  have d0' : (0 : ℝ) < d := by exact_mod_cast d0
  have p1 : 0 ≤ d * (ε / 2 * Coupled.sqs X) := mul_nonneg d0'.le (mul_nonneg (by linarith [gK.nonneg]) (Coupled.sqs_nonneg X))
  have p2 : 0 ≤ n * (ε' / 2 * Coupled.sqs Y) := mul_nonneg n0'.le (mul_nonneg (by linarith [gC.nonneg]) (Coupled.sqs_nonneg Y))
  refine ⟨k1, k2, (klOf_le l0 hU hG k1 k2 hK hC).2 (by linarith), fun e => ?_⟩
  rw [klOf_eq hM k1 k2, klOf_eq hM hK hC] at e
  have z1 : d * (ε / 2 * Coupled.sqs X) = 0 := by linarith
  have z2 : n * (ε' / 2 * Coupled.sqs Y) = 0 := by linarith
  have z : ∀ {k : ℕ} {e s : ℝ} {A Z : Matrix (Fin k) (Fin k) ℝ}, s ≠ 0 → s * (e / 2 * Coupled.sqs Z) = 0 → A * (1 - e • Z) = A := fun s0 h => by
    rcases mul_eq_zero.1 ((mul_eq_zero.1 h).resolve_left s0) with h | h
    · rw [show _ = (0 : ℝ) from (div_eq_zero_iff.1 h).resolve_right two_ne_zero, zero_smul, sub_zero, Matrix.mul_one]
    · rw [Coupled.sqs_eq_zero h, smul_zero, sub_zero, Matrix.mul_one]
  exact ⟨z d0'.ne' z1, z n0'.ne' z2⟩

/-- **C77 (descent for all data).** With `normalize_lr_cov` and `18 n lr_cov ≤ 1` for the dimensions `n` of both factors: on any data and with any structures except
block-diagonal ones, an update keeps invertible factors invertible and does not increase the divergence of the preconditioner from the inverse of the damped curvature of the
round; the divergence stays the same only if the factors do. -/
theorem C77_descent (R : Shaping cl m h ops attr w) (hn : h.normalize = true) (t : ℕ) (hu : (w.opt.steps + t) % h.T = 0) {b : ℝ} (hb : b = h.lrCov.at (w.opt.steps + t))
    (b0 : 0 ≤ b) (bK : 18 * m.nK * b ≤ 1) (bC : 18 * m.nC * b ≤ 1)
    (hK : (facK m ops attr w t).det ≠ 0) (hC : (facC m ops attr w t).det ≠ 0) : (facK m ops attr w (t + 1)).det ≠ 0 ∧ (facC m ops attr w (t + 1)).det ≠ 0 ∧
    klAt m h ops attr w (momK m h ops attr w t) (momC m h ops attr w t) (t + 1) ≤ klAt m h ops attr w (momK m h ops attr w t) (momC m h ops attr w t) t ∧
    (klAt m h ops attr w (momK m h ops attr w t) (momC m h ops attr w t) (t + 1) = klAt m h ops attr w (momK m h ops attr w t) (momC m h ops attr w t) t →
      facK m ops attr w (t + 1) = facK m ops attr w t ∧ facC m ops attr w (t + 1) = facC m ops attr w t) := by
  subst hb
  have g := R.live.sound.good m R.mem
  obtain ⟨a, b, r1, r2, e1, e2⟩ := (R.round (R.between t)).2.2 hu _ _ _ _ rfl rfl rfl rfl
  have U := momK_psd (m := m) (h := h) (ops := ops) (attr := attr) (w := w) t
  have G := momC_psd (m := m) (h := h) (ops := ops) (attr := attr) (w := w) t
  obtain ⟨d1, d2, d3, d4⟩ := good_kl g.posK g.posC R.damping U G hK hC (good_norm hn g.posK g.supK (Coupled.curv_symm U) r1 b0 bK)
    (good_norm hn g.posC g.supC (Coupled.curv_symm G) r2 b0 bC)
  unfold klAt
  rw [e1, e2]
  exact ⟨d1, d2, d3, d4⟩

/-- **C77 (descent without normalisation).** Without `normalize_lr_cov` the same holds if `lr_cov (15 + 8 (τ + n)) ≤ 1` for the dimensions `n` and `d` of both factors, where
`τ = tr ((G ⊗ U + damping) (C Cᵀ ⊗ K Kᵀ)) / d` for `K` and with `n` instead of `d` for `C`. -/
theorem C77_descent_plain (R : Shaping cl m h ops attr w) (hn : h.normalize = false) (t : ℕ) (hu : (w.opt.steps + t) % h.T = 0) {b x : ℝ}
    (hb : b = h.lrCov.at (w.opt.steps + t)) (b0 : 0 ≤ b)
    (hx : x = (damped h.damping (momK m h ops attr w t) (momC m h ops attr w t) * kronOf (facK m ops attr w t) (facC m ops attr w t)).trace)
    (bK : b * (15 + 8 * (x / m.nC + m.nK)) ≤ 1) (bC : b * (15 + 8 * (x / m.nK + m.nC)) ≤ 1)
    (hK : (facK m ops attr w t).det ≠ 0) (hC : (facC m ops attr w t).det ≠ 0) : (facK m ops attr w (t + 1)).det ≠ 0 ∧ (facC m ops attr w (t + 1)).det ≠ 0 ∧
    klAt m h ops attr w (momK m h ops attr w t) (momC m h ops attr w t) (t + 1) ≤ klAt m h ops attr w (momK m h ops attr w t) (momC m h ops attr w t) t ∧
    (klAt m h ops attr w (momK m h ops attr w t) (momC m h ops attr w t) (t + 1) = klAt m h ops attr w (momK m h ops attr w t) (momC m h ops attr w t) t →
      facK m ops attr w (t + 1) = facK m ops attr w t ∧ facC m ops attr w (t + 1) = facC m ops attr w t) := by
  subst hb
  have g := R.live.sound.good m R.mem
  obtain ⟨a, b, r1, r2, e1, e2⟩ := (R.round (R.between t)).2.2 hu _ _ _ _ rfl rfl rfl rfl
  have U := momK_psd (m := m) (h := h) (ops := ops) (attr := attr) (w := w) t
  have G := momC_psd (m := m) (h := h) (ops := ops) (attr := attr) (w := w) t
  have tr := Coupled.trace_curv h.damping (momK m h ops attr w t) (facK m ops attr w t) (momC m h ops attr w t) (facC m ops attr w t)
  have hx' : x = Coupled.traces h.damping (momK m h ops attr w t) (facK m ops attr w t) (momC m h ops attr w t) (facC m ops attr w t) := by
    rw [hx, trace_damped]
  rw [← hx'] at tr
  obtain ⟨d1, d2, d3, d4⟩ := good_kl g.posK g.posC R.damping U G hK hC (good_plain hn g.posK g.supK (Coupled.curv_psd R.damping.le U G _ _) r1 b0 (by rw [tr.1]; exact bK))
    (good_plain hn g.posC g.supC (Coupled.curv_psd R.damping.le G U _ _) r2 b0 (by rw [tr.2]; exact bC))
  unfold klAt
  rw [e1, e2]
  exact ⟨d1, d2, d3, d4⟩


/-! ## Steady statistics -/

theorem next_update (s T : ℕ) (hT : T ≠ 0) : ∃ j < T, (s + j) % T = 0 ∧ ∀ i < j, (s + i) % T ≠ 0 := by
  have ex : ∃ j, j < T ∧ (s + j) % T = 0 := by
    refine ⟨(T - s % T) % T, Nat.mod_lt _ (Nat.pos_of_ne_zero hT), ?_⟩
    rw [Nat.add_mod_mod]
    have := Nat.mod_lt s (Nat.pos_of_ne_zero hT)
    have e : s + (T - s % T) = T * (s / T) + T := by have := Nat.div_add_mod s T; omega
    rw [e]; simp
  refine ⟨Nat.find ex, (Nat.find_spec ex).1, (Nat.find_spec ex).2, fun i hi hz => Nat.find_min ex hi ⟨hi.trans (Nat.find_spec ex).1, hz⟩⟩

/-- the directions of `K` and `C` after `t` rounds, for the second moments `U` and `G` -/
noncomputable def wayK (cl : String → Cls × Cls) (m : Layer) (h : Hyper ℝ) (ops : ℕ → List (Op ℝ)) (attr : ℕ → Option ℝ) (w : World ℝ) (U : Matrix (Fin m.nK) (Fin m.nK) ℝ)
    (G : Matrix (Fin m.nC) (Fin m.nC) ℝ) (t : ℕ) : Matrix (Fin m.nK) (Fin m.nK) ℝ :=
  (cl m.name).1.proj m.nK (Coupled.curv h.damping U (facK m ops attr w t) G (facC m ops attr w t) - 1)
noncomputable def wayC (cl : String → Cls × Cls) (m : Layer) (h : Hyper ℝ) (ops : ℕ → List (Op ℝ)) (attr : ℕ → Option ℝ) (w : World ℝ) (U : Matrix (Fin m.nK) (Fin m.nK) ℝ)
    (G : Matrix (Fin m.nC) (Fin m.nC) ℝ) (t : ℕ) : Matrix (Fin m.nC) (Fin m.nC) ℝ :=
  (cl m.name).2.proj m.nC (Coupled.curv h.damping G (facC m ops attr w t) U (facK m ops attr w t) - 1)
/-- the objective after `t` rounds -/
noncomputable def objAt (m : Layer) (h : Hyper ℝ) (ops : ℕ → List (Op ℝ)) (attr : ℕ → Option ℝ) (w : World ℝ) (U : Matrix (Fin m.nK) (Fin m.nK) ℝ)
    (G : Matrix (Fin m.nC) (Fin m.nC) ℝ) (t : ℕ) : ℝ := Coupled.objective h.damping U (facK m ops attr w t) G (facC m ops attr w t)

/-- the directions vanish -/
theorem Shaping.flow (R : Shaping cl m h ops attr w) {U : Matrix (Fin m.nK) (Fin m.nK) ℝ} {G : Matrix (Fin m.nC) (Fin m.nC) ℝ} (hU : SteadyK m h ops attr w U)
    (hG : SteadyC m h ops attr w G) (hK : (facK m ops attr w 0).det ≠ 0) (hC : (facC m ops attr w 0).det ≠ 0) {b : ℝ} (b0 : 0 < b)
    (hg : ∀ t, (facK m ops attr w t).det ≠ 0 → (facC m ops attr w t).det ≠ 0 → objAt m h ops attr w U G t ≤ objAt m h ops attr w U G 0 → ∀ a,
      (IsRate h (w.opt.steps + t) ((1 / 2 : ℝ) • wayK cl m h ops attr w U G t) a →
        Coupled.Good (Coupled.curv h.damping U (facK m ops attr w t) G (facC m ops attr w t)) (wayK cl m h ops attr w U G t) (a / 2) ∧
          b ≤ a * (1 + Coupled.nrm (wayK cl m h ops attr w U G t))) ∧
      (IsRate h (w.opt.steps + t) ((1 / 2 : ℝ) • wayC cl m h ops attr w U G t) a →
        Coupled.Good (Coupled.curv h.damping G (facC m ops attr w t) U (facK m ops attr w t)) (wayC cl m h ops attr w U G t) (a / 2) ∧
          b ≤ a * (1 + Coupled.nrm (wayC cl m h ops attr w U G t)))) :
    (∀ t, (facK m ops attr w t).det ≠ 0 ∧ (facC m ops attr w t).det ≠ 0) ∧ Antitone (objAt m h ops attr w U G) ∧
    Tendsto (wayK cl m h ops attr w U G) atTop (𝓝 0) ∧ Tendsto (wayC cl m h ops attr w U G) atTop (𝓝 0) := by
  have g := R.live.sound.good m R.mem
  have n0' : (0 : ℝ) < m.nK := by exact_mod_cast g.posK
  have d0' : (0 : ℝ) < m.nC := by exact_mod_cast g.posC
  have pU := hU.psd R.T_ne
  have pG := hG.psd R.T_ne
  have idle : ∀ t, (w.opt.steps + t) % h.T ≠ 0 → facK m ops attr w (t + 1) = facK m ops attr w t ∧ facC m ops attr w (t + 1) = facC m ops attr w t :=
    fun t ht => (R.round (R.between t)).2.1 ht
  have step : ∀ t, (facK m ops attr w t).det ≠ 0 → (facC m ops attr w t).det ≠ 0 → objAt m h ops attr w U G t ≤ objAt m h ops attr w U G 0 →
      (facK m ops attr w (t + 1)).det ≠ 0 ∧ (facC m ops attr w (t + 1)).det ≠ 0 ∧ objAt m h ops attr w U G (t + 1) ≤ objAt m h ops attr w U G t ∧
      ((w.opt.steps + t) % h.T = 0 →
        m.nC * b * Coupled.nrm (wayK cl m h ops attr w U G t) ^ 2 ≤ 4 * (objAt m h ops attr w U G t - objAt m h ops attr w U G (t + 1)) * (1 + Coupled.nrm (wayK cl m h ops attr w U G t)) ∧
        m.nK * b * Coupled.nrm (wayC cl m h ops attr w U G t) ^ 2 ≤ 4 * (objAt m h ops attr w U G t - objAt m h ops attr w U G (t + 1)) * (1 + Coupled.nrm (wayC cl m h ops attr w U G t))) := by
    intro t k c o
    by_cases hu : (w.opt.steps + t) % h.T = 0
    · obtain ⟨a, a', r1, r2, e1, e2⟩ := (R.round (R.between t)).2.2 hu _ _ _ _ rfl rfl rfl rfl
      have mU : momK m h ops attr w t = U := hU _ hu
      have mG : momC m h ops attr w t = G := hG _ hu
      rw [mU, mG] at r1 r2 e1 e2
      obtain ⟨gK, lK⟩ := (hg t k c o a).1 r1
      obtain ⟨gC, lC⟩ := (hg t k c o a').2 r2
      obtain ⟨d1, d2, d3⟩ := Coupled.good_descent g.posK g.posC R.damping.le pU pG k c gK gC
      have e1' : facK m ops attr w (t + 1) = facK m ops attr w t * (1 - (a / 2) • wayK cl m h ops attr w U G t) := e1
      have e2' : facC m ops attr w (t + 1) = facC m ops attr w t * (1 - (a' / 2) • wayC cl m h ops attr w U G t) := e2
      rw [← e1', ← e2'] at d3
      have d3' : objAt m h ops attr w U G (t + 1) + m.nC * (a / 2 / 2 * Coupled.sqs (wayK cl m h ops attr w U G t)) +
        m.nK * (a' / 2 / 2 * Coupled.sqs (wayC cl m h ops attr w U G t)) ≤ objAt m h ops attr w U G t := d3
      have x0 := Coupled.nrm_nonneg (wayK cl m h ops attr w U G t)
      have y0 := Coupled.nrm_nonneg (wayC cl m h ops attr w U G t)
      have a0 := gK.nonneg
      have a0' := gC.nonneg
      rw [← Coupled.nrm_sq, ← Coupled.nrm_sq] at d3'
      generalize Coupled.nrm (wayK cl m h ops attr w U G t) = x at *
      generalize Coupled.nrm (wayC cl m h ops attr w U G t) = y at *
      have p1 : 0 ≤ m.nC * (a / 2 / 2 * x ^ 2) := by positivity
      have p2 : 0 ≤ m.nK * (a' / 2 / 2 * y ^ 2) := by positivity
      refine ⟨by rw [e1', det_mul]; exact mul_ne_zero k d1, by rw [e2', det_mul]; exact mul_ne_zero c d2, by linarith, fun _ => ⟨?_, ?_⟩⟩
      · have q1 := mul_le_mul_of_nonneg_left lK (show 0 ≤ m.nC * x ^ 2 by positivity)
        have q2 : m.nC * (a / 2 / 2 * x ^ 2) * (1 + x) ≤ (objAt m h ops attr w U G t - objAt m h ops attr w U G (t + 1)) * (1 + x) :=
          mul_le_mul_of_nonneg_right (by linarith) (by linarith)
        linarith
      · have q1 := mul_le_mul_of_nonneg_left lC (show 0 ≤ m.nK * y ^ 2 by positivity)
        have q2 : m.nK * (a' / 2 / 2 * y ^ 2) * (1 + y) ≤ (objAt m h ops attr w U G t - objAt m h ops attr w U G (t + 1)) * (1 + y) :=
          mul_le_mul_of_nonneg_right (by linarith) (by linarith)
        linarith
    · obtain ⟨e1, e2⟩ := idle t hu
      refine ⟨by rw [e1]; exact k, by rw [e2]; exact c, ?_, fun h => absurd h hu⟩
      rw [objAt, objAt, e1, e2]
  have inv : ∀ t, (facK m ops attr w t).det ≠ 0 ∧ (facC m ops attr w t).det ≠ 0 ∧ objAt m h ops attr w U G t ≤ objAt m h ops attr w U G 0 := fun t => by
    induction t with
    | zero => exact ⟨hK, hC, le_rfl⟩
    | succ t ih =>
      obtain ⟨s1, s2, s3, -⟩ := step t ih.1 ih.2.1 ih.2.2
      exact ⟨s1, s2, s3.trans ih.2.2⟩
  have anti : Antitone (objAt m h ops attr w U G) := antitone_nat_of_succ_le fun t => (step t (inv t).1 (inv t).2.1 (inv t).2.2).2.2.1
  refine ⟨fun t => ⟨(inv t).1, (inv t).2.1⟩, anti, ?_⟩
  have diff : Tendsto (fun t => objAt m h ops attr w U G t - objAt m h ops attr w U G (t + h.T)) atTop (𝓝 0) := by
    have lim := tendsto_atTop_ciInf anti ⟨m.nK * m.nC * (1 + Real.log h.damping), by
      rintro _ ⟨t, rfl⟩
      exact Coupled.objective_low g.posK g.posC R.damping pU pG (inv t).1 (inv t).2.1⟩
    have := lim.sub (lim.comp (tendsto_add_atTop_nat h.T))
    rwa [sub_self] at this
  have diffs : ∀ {k : ℝ}, Tendsto (fun t => k * (objAt m h ops attr w U G t - objAt m h ops attr w U G (t + h.T))) atTop (𝓝 0) := fun {k} => by
    simpa using diff.const_mul k
  have next : ∀ t, ∃ s, t ≤ s ∧ s + 1 ≤ t + h.T ∧ (w.opt.steps + s) % h.T = 0 ∧ facK m ops attr w s = facK m ops attr w t ∧ facC m ops attr w s = facC m ops attr w t := fun t => by
    obtain ⟨j, j1, j2, j3⟩ := next_update (w.opt.steps + t) h.T R.T_ne
    have same : ∀ i ≤ j, facK m ops attr w (t + i) = facK m ops attr w t ∧ facC m ops attr w (t + i) = facC m ops attr w t := fun i => by
      induction i with
      | zero => exact fun _ => ⟨rfl, rfl⟩
      | succ i ih =>
        intro hi
        have e := idle (t + i) (by rw [← add_assoc]; exact j3 i hi)
        have e' := ih (by omega)
        exact ⟨e.1.trans e'.1, e.2.trans e'.2⟩
    exact ⟨t + j, by omega, by omega, by rw [← add_assoc]; exact j2, same j le_rfl⟩
  have key : ∀ t, m.nC * b * Coupled.nrm (wayK cl m h ops attr w U G t) ^ 2 ≤ 4 * (objAt m h ops attr w U G t - objAt m h ops attr w U G (t + h.T)) * (1 + Coupled.nrm (wayK cl m h ops attr w U G t)) ∧
      m.nK * b * Coupled.nrm (wayC cl m h ops attr w U G t) ^ 2 ≤ 4 * (objAt m h ops attr w U G t - objAt m h ops attr w U G (t + h.T)) * (1 + Coupled.nrm (wayC cl m h ops attr w U G t)) := fun t => by
    obtain ⟨s, s1, s2, s3, s4, s5⟩ := next t
    have k := (step s (inv s).1 (inv s).2.1 (inv s).2.2).2.2.2 s3
    have wK : wayK cl m h ops attr w U G s = wayK cl m h ops attr w U G t := by rw [wayK, wayK, s4, s5]
    have wC : wayC cl m h ops attr w U G s = wayC cl m h ops attr w U G t := by rw [wayC, wayC, s4, s5]
    rw [wK, wC] at k
    have le : objAt m h ops attr w U G s - objAt m h ops attr w U G (s + 1) ≤ objAt m h ops attr w U G t - objAt m h ops attr w U G (t + h.T) := sub_le_sub (anti s1) (anti s2)
    refine ⟨k.1.trans (mul_le_mul_of_nonneg_right (by linarith) ?_), k.2.trans (mul_le_mul_of_nonneg_right (by linarith) ?_)⟩ <;>
      linarith [Coupled.nrm_nonneg (wayK cl m h ops attr w U G t), Coupled.nrm_nonneg (wayC cl m h ops attr w U G t)]
  have fin : ∀ {k : ℕ} {N : ℕ → Matrix (Fin k) (Fin k) ℝ} {e : ℝ}, 0 < e →
      (∀ t, e * Coupled.nrm (N t) ^ 2 ≤ 4 * (objAt m h ops attr w U G t - objAt m h ops attr w U G (t + h.T)) * (1 + Coupled.nrm (N t))) → Tendsto N atTop (𝓝 0) := by
    intro k N e e0 hN
    have t1 := Coupled.tendsto_of_quad (x := fun t => Coupled.nrm (N t)) (fun t => Coupled.nrm_nonneg _) (fun t => by
      have : Coupled.nrm (N t) ^ 2 ≤ 4 / e * (objAt m h ops attr w U G t - objAt m h ops attr w U G (t + h.T)) * (1 + Coupled.nrm (N t)) := by
        rw [show 4 / e * (objAt m h ops attr w U G t - objAt m h ops attr w U G (t + h.T)) * (1 + Coupled.nrm (N t)) =
          4 * (objAt m h ops attr w U G t - objAt m h ops attr w U G (t + h.T)) * (1 + Coupled.nrm (N t)) / e by ring, le_div_iff₀ e0, mul_comm]
        exact hN t
      exact this) diffs
    refine Coupled.tendsto_of_sqs ?_
    have := t1.pow 2
    simp only [Coupled.nrm_sq] at this
    simpa using this
  exact ⟨fin (by positivity) fun t => (key t).1, fin (by positivity) fun t => (key t).2⟩


theorem Cls.proj_continuous {c : Cls} {n : ℕ} (hs : c.Supports n) : Continuous fun A : Matrix (Fin n) (Fin n) ℝ => c.proj n A :=
  LinearMap.continuous_of_finiteDimensional ({ toFun := fun A => c.proj n A, map_add' := proj_add hs, map_smul' := proj_smul hs } :
    Matrix (Fin n) (Fin n) ℝ →ₗ[ℝ] Matrix (Fin n) (Fin n) ℝ)

/-- the matrices of a class -/
def Cls.reps (c : Cls) {n : ℕ} (hs : c.Supports n) : Submodule ℝ (Matrix (Fin n) (Fin n) ℝ) where
  carrier := {A | c.Rep n A}
  add_mem' hA hB := by simpa using Cls.Rep.add_smul hA hB 1
  zero_mem' := by have := Cls.rep_proj hs (0 : Matrix (Fin n) (Fin n) ℝ); rwa [proj_zero hs] at this
  smul_mem' s A hA := by
    have := Cls.Rep.add_smul hA hA (s - 1)
    rwa [sub_smul, one_smul, add_sub_cancel] at this

theorem Cls.rep_closed {c : Cls} {n : ℕ} (hs : c.Supports n) : IsClosed {A : Matrix (Fin n) (Fin n) ℝ | c.Rep n A} := (c.reps hs).closed_of_finiteDimensional

/-- What becomes of the factors: they stay invertible, the divergence never increases, its gradients along the classes tend to zero, and among any infinitely many of
the preconditioners there are infinitely many that converge to one whose factors are invertible, of the classes and a critical point of the divergence. -/
structure Settles (cl : String → Cls × Cls) (m : Layer) (h : Hyper ℝ) (ops : ℕ → List (Op ℝ)) (attr : ℕ → Option ℝ) (w : World ℝ) (U : Matrix (Fin m.nK) (Fin m.nK) ℝ)
    (G : Matrix (Fin m.nC) (Fin m.nC) ℝ) : Prop where
  dets : ∀ t, (facK m ops attr w t).det ≠ 0 ∧ (facC m ops attr w t).det ≠ 0
  anti : Antitone (klAt m h ops attr w U G)
  grads : ∃ (X : ℕ → Matrix (Fin m.nK) (Fin m.nK) ℝ) (Y : ℕ → Matrix (Fin m.nC) (Fin m.nC) ℝ), Tendsto X atTop (𝓝 0) ∧ Tendsto Y atTop (𝓝 0) ∧ ∀ t,
    IsGradient (cl m.name).1 m.nC (fun Z => klOf h.damping U (facK m ops attr w t * (1 + Z)) G (facC m ops attr w t)) (X t) ∧
    IsGradient (cl m.name).2 m.nK (fun Z => klOf h.damping U (facK m ops attr w t) G (facC m ops attr w t * (1 + Z))) (Y t)
  points : ∀ ns : ℕ → ℕ, Tendsto ns atTop atTop → ∃ (φ : ℕ → ℕ) (Ks : Matrix (Fin m.nK) (Fin m.nK) ℝ) (Cs : Matrix (Fin m.nC) (Fin m.nC) ℝ), StrictMono φ ∧ Ks.det ≠ 0 ∧ Cs.det ≠ 0 ∧ (cl m.name).1.Rep m.nK Ks ∧ (cl m.name).2.Rep m.nC Cs ∧
    Critical (cl m.name) h.damping U Ks G Cs ∧ Tendsto (fun t => kronOf (facK m ops attr w (ns (φ t))) (facC m ops attr w (ns (φ t)))) atTop (𝓝 (kronOf Ks Cs))

theorem Shaping.settles (R : Shaping cl m h ops attr w) {U : Matrix (Fin m.nK) (Fin m.nK) ℝ} {G : Matrix (Fin m.nC) (Fin m.nC) ℝ} (hU : U.PosSemidef) (hG : G.PosSemidef)
    (F : (∀ t, (facK m ops attr w t).det ≠ 0 ∧ (facC m ops attr w t).det ≠ 0) ∧ Antitone (objAt m h ops attr w U G) ∧
      Tendsto (wayK cl m h ops attr w U G) atTop (𝓝 0) ∧ Tendsto (wayC cl m h ops attr w U G) atTop (𝓝 0)) : Settles cl m h ops attr w U G := by
  obtain ⟨dets, anti, zK, zC⟩ := F
  have g := R.live.sound.good m R.mem
  refine ⟨dets, fun s t hst => (klOf_le R.damping hU hG (dets t).1 (dets t).2 (dets s).1 (dets s).2).2 (anti hst), ⟨_, _, zK, zC, fun t => ⟨?_, ?_⟩⟩, fun ns hns => ?_⟩
  · exact isGradient g.supK (Nat.cast_nonneg _) (Coupled.curv_symm hU) fun Z => klOf_deriv R.damping g.posC hU hG (dets t).1 (dets t).2 Z
  · exact isGradient g.supC (Nat.cast_nonneg _) (Coupled.curv_symm hG) fun Z => klOf_deriv' R.damping g.posK hU hG (dets t).1 (dets t).2 Z
  · obtain ⟨φ, c, Ks, Cs, hφ, c0, k0, l0, lim⟩ := Coupled.rescaled_sub g.posK g.posC R.damping hU hG (K := fun t => facK m ops attr w (ns t)) (C := fun t => facC m ops attr w (ns t))
      (fun t => dets _) (fun t => anti (Nat.zero_le (ns t)))
    have nφ : Tendsto (fun t => ns (φ t)) atTop atTop := hns.comp hφ.tendsto_atTop
    have lK := (continuous_fst.tendsto _).comp lim
    have lC := (continuous_snd.tendsto _).comp lim
    have rep : ∀ t, (cl m.name).1.Rep m.nK (facK m ops attr w t) ∧ (cl m.name).2.Rep m.nC (facC m ops attr w t) := fun t => by
      have L := (R.between t).live.sound.lay m (R.between t).mem
      obtain ⟨A, eA, wA⟩ := L.K
      obtain ⟨A', eA', wA'⟩ := L.C
      exact ⟨⟨A, wA, by rw [facK, eA]; rfl⟩, ⟨A', wA', by rw [facC, eA']; rfl⟩⟩
    have smul : ∀ {k : ℕ} {cc : Cls} {A : Matrix (Fin k) (Fin k) ℝ} (s : ℝ), cc.Rep k A → cc.Rep k (s • A) := fun {k cc A} s hA => by
      have := hA.add_smul hA (s - 1)
      rwa [sub_smul, one_smul, add_sub_cancel] at this
    refine ⟨φ, Ks, Cs, hφ, k0, l0, (Cls.rep_closed g.supK).mem_of_tendsto lK (Eventually.of_forall fun t => smul _ (rep _).1),
      (Cls.rep_closed g.supC).mem_of_tendsto lC (Eventually.of_forall fun t => smul _ (rep _).2), ?_, ?_⟩
    · rw [critical_iff g.supK g.supC R.damping g.posK g.posC hU hG k0 l0]
      constructor
      · have h1 := ((Coupled.continuous_curv (l := h.damping) (U := U) (G := G)).tendsto (Ks, Cs)).comp lim
        have h2 := ((Cls.proj_continuous g.supK).tendsto _).comp (h1.sub_const 1)
        have h3 := zK.comp nφ
        simp only [Function.comp_def, Coupled.curv_scale (c0 _)] at h2 h3
        exact tendsto_nhds_unique h2 h3
      · have h1 := ((Coupled.continuous_curv (l := h.damping) (U := G) (G := U)).tendsto (Cs, Ks)).comp ((continuous_swap.tendsto _).comp lim)
        have h2 := ((Cls.proj_continuous g.supC).tendsto _).comp (h1.sub_const 1)
        have h3 := zC.comp nφ
        simp only [Function.comp_def, Prod.swap_prod_mk, Coupled.curv_scale' (c0 _)] at h2 h3
        exact tendsto_nhds_unique h2 h3
    · have h1 := (Coupled.continuous_kron.tendsto _).comp lim
      simp only [Function.comp_def, Coupled.kron_scale (c0 _)] at h1
      exact h1

/-- **C77 (steady statistics, with `normalize_lr_cov`).** Second moments `U` of the inputs and `G` of the output gradients (divided by the scale) that are the same at every
update, however large; a constant positive `lr_cov` with `18 n lr_cov ≤ 1` for the dimensions `n` of both factors; invertible factors at the start; any structures except block-diagonal ones.
Then the factors stay invertible, the divergence never increases, its gradients along the classes tend to zero, and every limit of preconditioners is a critical point. -/
theorem C77_settles (R : Shaping cl m h ops attr w) (hn : h.normalize = true) {b : ℝ} (hb : h.lrCov = .const b) (b0 : 0 < b) (bK : 18 * m.nK * b ≤ 1) (bC : 18 * m.nC * b ≤ 1)
    {U : Matrix (Fin m.nK) (Fin m.nK) ℝ} {G : Matrix (Fin m.nC) (Fin m.nC) ℝ} (hU : SteadyK m h ops attr w U) (hG : SteadyC m h ops attr w G)
    (hK : (denO (w.opt.Ks m.name) m.nK).det ≠ 0) (hC : (denO (w.opt.Cs m.name) m.nC).det ≠ 0) : Settles cl m h ops attr w U G := by
  have g := R.live.sound.good m R.mem
  have pU := hU.psd R.T_ne
  have pG := hG.psd R.T_ne
  have lr : ∀ t, h.lrCov.at t = b := fun t => by rw [hb]; rfl
  have low : ∀ {n t : ℕ} {X : Matrix (Fin n) (Fin n) ℝ} {a : ℝ}, IsRate h t ((1 / 2 : ℝ) • X) a → b ≤ a * (1 + Coupled.nrm X) := by
    intro n t X a hr
    rw [IsRate, if_pos hn] at hr
    obtain ⟨v, ⟨⟨i, j, hv⟩, -⟩, rfl⟩ := hr
    have x0 := Coupled.nrm_nonneg X
    have m0 : 0 < max 1 v := lt_max_of_lt_left one_pos
    have : max 1 v ≤ 1 + Coupled.nrm X := by
      refine max_le (by linarith) ?_
      rw [hv, Matrix.smul_apply, smul_eq_mul, abs_mul, abs_of_pos (by norm_num : (0 : ℝ) < 1 / 2)]
      linarith [max_le_nrm X i j]
    rw [lr, div_mul_eq_mul_div, le_div_iff₀ m0]
    exact mul_le_mul_of_nonneg_left this b0.le
  refine R.settles pU pG (R.flow hU hG hK hC b0 fun t k c _ a => ⟨fun r => ⟨?_, low r⟩, fun r => ⟨?_, low r⟩⟩)
  · exact good_norm hn g.posK g.supK (Coupled.curv_symm pU) r (by rw [lr]; exact b0.le) (by rw [lr]; exact bK)
  · exact good_norm hn g.posC g.supC (Coupled.curv_symm pG) r (by rw [lr]; exact b0.le) (by rw [lr]; exact bC)

/-- **C77 (steady statistics, without normalisation).** Without `normalize_lr_cov`, for a constructed optimizer (identity factors): the same if `lr_cov` is small compared
with the data: `lr_cov (15 + 8 (x + k)) ≤ 1` with `k = max(n, d)` and `x = 2 k (tr U tr G / (n d) + λ + log (2 / λ))` where `λ` is the damping and `n`, `d` are the
dimensions of `K` and `C`. -/
theorem C77_settles_plain (R : Shaping cl m h ops attr w) (hn : h.normalize = false) {b : ℝ} (hb : h.lrCov = .const b) (b0 : 0 < b)
    {U : Matrix (Fin m.nK) (Fin m.nK) ℝ} {G : Matrix (Fin m.nC) (Fin m.nC) ℝ} (hU : SteadyK m h ops attr w U) (hG : SteadyC m h ops attr w G) {x : ℝ}
    (hx : x = max (m.nK : ℝ) m.nC * (2 * (U.trace * G.trace / (m.nK * m.nC) + h.damping + Real.log (2 / h.damping)))) (bx : b * (15 + 8 * (x + max (m.nK : ℝ) m.nC)) ≤ 1)
    (hK : denO (w.opt.Ks m.name) m.nK = 1) (hC : denO (w.opt.Cs m.name) m.nC = 1) : Settles cl m h ops attr w U G := by
  have g := R.live.sound.good m R.mem
  have n0' : (0 : ℝ) < m.nK := by exact_mod_cast g.posK
  have d0' : (0 : ℝ) < m.nC := by exact_mod_cast g.posC
  have pU := hU.psd R.T_ne
  have pG := hG.psd R.T_ne
  have k0 : facK m ops attr w 0 = 1 := hK
  have c0 : facC m ops attr w 0 = 1 := hC
  have lr : ∀ t, h.lrCov.at t = b := fun t => by rw [hb]; rfl
  have low : ∀ {n t : ℕ} {X : Matrix (Fin n) (Fin n) ℝ} {a : ℝ}, IsRate h t ((1 / 2 : ℝ) • X) a → b ≤ a * (1 + Coupled.nrm X) := by
    intro n t X a hr
    rw [IsRate, if_neg (by simp [hn]), lr] at hr
    rw [hr]
    have := mul_nonneg b0.le (Coupled.nrm_nonneg X)
    linarith
  have ob : objAt m h ops attr w U G 0 = U.trace * G.trace + h.damping * (m.nK * m.nC) := by
    rw [objAt, k0, c0, Coupled.objective]
    simp only [transpose_one, Matrix.one_mul, Matrix.mul_one, det_one, one_pow, Real.log_one, mul_zero, sub_zero, trace_one, Fintype.card_fin]
  have bd : ∀ t, (facK m ops attr w t).det ≠ 0 → (facC m ops attr w t).det ≠ 0 → objAt m h ops attr w U G t ≤ objAt m h ops attr w U G 0 →
      (Coupled.curv h.damping U (facK m ops attr w t) G (facC m ops attr w t)).trace ≤ x ∧ (Coupled.curv h.damping G (facC m ops attr w t) U (facK m ops attr w t)).trace ≤ x := by
    intro t k c o
    obtain ⟨T0, T1⟩ := Coupled.traces_le g.posK g.posC R.damping pU pG k c o
    rw [ob, show (U.trace * G.trace + h.damping * (m.nK * m.nC)) / (m.nK * m.nC) = U.trace * G.trace / (m.nK * m.nC) + h.damping by field_simp] at T1
    obtain ⟨t1, t2⟩ := Coupled.trace_curv h.damping U (facK m ops attr w t) G (facC m ops attr w t)
    generalize 2 * (U.trace * G.trace / (m.nK * m.nC) + h.damping + Real.log (2 / h.damping)) = q at *
    have q0 : 0 < q := by
      have := T0.trans_le T1
      exact (mul_pos_iff_of_pos_left (by positivity)).1 this
    rw [t1, t2, hx]
    refine ⟨?_, ?_⟩
    · rw [div_le_iff₀ d0']
      refine T1.trans ?_
      have := mul_le_mul_of_nonneg_right (le_max_left (m.nK : ℝ) m.nC) (mul_nonneg q0.le d0'.le)
      linarith
    · rw [div_le_iff₀ n0']
      refine T1.trans ?_
      have := mul_le_mul_of_nonneg_right (le_max_right (m.nK : ℝ) m.nC) (mul_nonneg q0.le n0'.le)
      linarith
  refine R.settles pU pG (R.flow hU hG (by rw [k0, det_one]; exact one_ne_zero) (by rw [c0, det_one]; exact one_ne_zero) b0 fun t k c o a => ⟨fun r => ⟨?_, low r⟩, fun r => ⟨?_, low r⟩⟩)
  · refine good_plain hn g.posK g.supK (Coupled.curv_psd R.damping.le pU pG _ _) r (by rw [lr]; exact b0.le) (le_trans ?_ bx)
    rw [lr]
    refine mul_le_mul_of_nonneg_left ?_ b0.le
    linarith [(bd t k c o).1, le_max_left (m.nK : ℝ) m.nC]
  · refine good_plain hn g.posC g.supC (Coupled.curv_psd R.damping.le pG pU _ _) r (by rw [lr]; exact b0.le) (le_trans ?_ bx)
    rw [lr]
    refine mul_le_mul_of_nonneg_left ?_ b0.le
    linarith [(bd t k c o).2, le_max_right (m.nK : ℝ) m.nC]

end

/-! ## A sample -/

namespace Sample

/-- the arguments of `coupledArgs` with a triangular Toeplitz and a hierarchical structure -/
noncomputable def shapedArgs (b : ℝ) (norm : Bool) : Args ℝ := { coupledArgs b norm with structures := ("triltoeplitz", "hierarchical15_15") }

/-- a training that is as C77 asks -/
theorem shaped {b : ℝ} (b0 : 0 < b) (norm : Bool) (c : ℝ) : ∃ (o : Opt ℝ) (ws : List Warn) (cl : String → Cls × Cls),
    Construct.init supportedStructures model .default (shapedArgs b norm) = .ok (o, ws) ∧
    Shaping cl la (defaults (shapedArgs b norm)) (steadyOps (hot c)) (fun _ => none) ⟨o, gdata, ggrad, []⟩ ∧ cl la.name = (.tril, .hier 15 15) ∧ o.steps = 0 ∧
    denO (o.Ks la.name) la.nK = 1 ∧ denO (o.Cs la.name) la.nC = 1 ∧
    SteadyK la (defaults (shapedArgs b norm)) (steadyOps (hot c)) (fun _ => none) ⟨o, gdata, ggrad, []⟩ (momU b c norm) ∧
    SteadyC la (defaults (shapedArgs b norm)) (steadyOps (hot c)) (fun _ => none) ⟨o, gdata, ggrad, []⟩ (momG b norm) := by
  have h2 : ¬ ((2⁻¹ : ℝ) < 0) := by simp
  have hx : (hot c).shape = [2, 1] := rfl
  obtain ⟨o, ws, hi, hl, hh, ht⟩ := Sample.glive_any (a := shapedArgs b norm) (cK := .tril) (cC := .hier 15 15)
    (by simp [validate, shapedArgs, coupledArgs, Sample.gargs, PyNum.rejected, PyRate.rejected, h2, not_lt.2 b0.le, b0.ne']) rfl rfl rfl ⟨Or.inl rfl, Or.inr (Or.inl rfl)⟩
    (by simp [checked, defaults, shapedArgs, coupledArgs, Sample.gargs, PyNum.val]) (show (1 : ℕ) ≠ 0 by decide)
  have I := init_ok (by decide) hi
  obtain ⟨cl, hcl, lv⟩ := I.live (grad := Sample.ggrad) ht one_pos
  have hla : la ∈ o.layers := by rw [hl]; simp
  have J : SteadyInv cl (defaults (shapedArgs b norm)) 0 ⟨o, gdata, ggrad, []⟩ := ⟨lv, hl, hh, rfl, rfl, fun i hi => by
    show o.scales i = none
    rw [I.scales]
    rw [show (⟨o, gdata, ggrad, []⟩ : World ℝ).opt.steps = 0 from I.steps] at hi
    have : i ≠ -1 := fun e => by rw [e] at hi; simp at hi
    simp [Dict.set, this], I.steps⟩
  have JJ := steady_inv rfl J hx
  have RR := fun t => steady_round rfl (JJ t) hx
  have hc : cl la.name = (.tril, .hier 15 15) := by
    obtain ⟨hy, e1, e2, e3⟩ := hcl la hla
    rw [show (⟨o, gdata, ggrad, []⟩ : World ℝ).opt.hyperOf la = _ from hh la hla] at e1
    cases e1
    have e2' : supportedStructures "triltoeplitz" = some (cl la.name).1 := e2
    have e3' : supportedStructures "hierarchical15_15" = some (cl la.name).2 := e3
    exact Prod.ext (Option.some.inj e2').symm (Option.some.inj e3').symm
  obtain ⟨i1, i2⟩ := I.identity ht hla
  refine ⟨o, ws, cl, hi, ⟨lv, fun t => (RR t).1, fun t => bpass_quiet, hla, hh la hla, ⟨by show o.HKs _ = _; rw [I.HKs], by show o.HCs _ = _; rw [I.HCs]⟩, rfl,
    rfl, show (0 : ℝ) < 1 from one_pos, fun t ht => absurd (Nat.mod_one _) ht, by rw [hc]; exact id, by rw [hc]; exact id⟩, hc, I.steps, i1, i2, fun t _ => ?_, fun t _ => ?_⟩
  · have e : fired la.name (steadyOps (hot c) t) _ = _ := (RR t).2.2.1
    rw [e]
    simp only [List.map_cons, List.map_nil, List.sum_cons, List.sum_nil, add_zero]
    rfl
  · have e : fired la.name (steadyOps (hot c) t) _ = _ := (RR t).2.2.1
    rw [e, (RR t).2.2.2]
    simp only [List.map_cons, List.map_nil, List.sum_cons, List.sum_nil, add_zero, one_pow, div_one, one_smul]
    rfl

end Sample

/-- The sample model with triangular Toeplitz and hierarchical factors, inputs 10 and 20 at every step and `normalize_lr_cov`, `lr_cov = 1/36`, meets the hypotheses of
`C77_gradient`, `C77_stationary`, `C77_descent` and `C77_settles`. -/
example : ∃ (o : Opt ℝ) (ws : List Warn) (cl : String → Cls × Cls) (h : Hyper ℝ) (ops : ℕ → List (Op ℝ)) (w : World ℝ) (b : ℝ)
    (U : Matrix (Fin Sample.la.nK) (Fin Sample.la.nK) ℝ) (G : Matrix (Fin Sample.la.nC) (Fin Sample.la.nC) ℝ),
    Construct.init supportedStructures Sample.model .default (Sample.shapedArgs b true) = .ok (o, ws) ∧ w = ⟨o, Sample.gdata, Sample.ggrad, []⟩ ∧
    Shaping cl Sample.la h ops (fun _ => none) w ∧ cl Sample.la.name = (.tril, .hier 15 15) ∧ h.lrCov = .const b ∧ 0 < b ∧
    SteadyK Sample.la h ops (fun _ => none) w U ∧ SteadyC Sample.la h ops (fun _ => none) w G ∧ U.trace = 251 ∧ G.trace = 10 ∧ h.normalize = true ∧
    18 * Sample.la.nK * b ≤ 1 ∧ 18 * Sample.la.nC * b ≤ 1 ∧
    (facK Sample.la ops (fun _ => none) w 0).det ≠ 0 ∧ (facC Sample.la ops (fun _ => none) w 0).det ≠ 0 ∧ (w.opt.steps + 0) % h.T = 0 := by
  have b0 : (0 : ℝ) < 1 / 36 := by norm_num
  obtain ⟨o, ws, cl, hi, R, hc, hs, i1, i2, sK, sC⟩ := Sample.shaped b0 true 10
  have k2 : (Sample.la.nK : ℝ) = 2 := by norm_num [Sample.la, Layer.nK]
  have c1 : (Sample.la.nC : ℝ) = 1 := by norm_num [Sample.la, Layer.nC]
  refine ⟨o, ws, cl, _, _, _, 1 / 36, _, _, hi, rfl, R, hc, rfl, b0, sK, sC, ?_, Sample.momG_trace _ _, rfl, by rw [k2]; norm_num, by rw [c1]; norm_num, ?_, ?_, Nat.mod_one _⟩
  · rw [Sample.momU_trace]; norm_num
  · show (denO (o.Ks _) _).det ≠ 0
    rw [i1, det_one]; exact one_ne_zero
  · show (denO (o.Cs _) _).det ≠ 0
    rw [i2, det_one]; exact one_ne_zero

/-- Without normalisation, inputs 1 and 2 and `lr_cov = 1/700` meet the hypotheses of `C77_settles_plain` and, in the first round, of `C77_descent_plain`. -/
example : ∃ (o : Opt ℝ) (ws : List Warn) (cl : String → Cls × Cls) (h : Hyper ℝ) (ops : ℕ → List (Op ℝ)) (w : World ℝ) (b x y : ℝ)
    (U : Matrix (Fin Sample.la.nK) (Fin Sample.la.nK) ℝ) (G : Matrix (Fin Sample.la.nC) (Fin Sample.la.nC) ℝ),
    Construct.init supportedStructures Sample.model .default (Sample.shapedArgs b false) = .ok (o, ws) ∧ w = ⟨o, Sample.gdata, Sample.ggrad, []⟩ ∧
    Shaping cl Sample.la h ops (fun _ => none) w ∧ cl Sample.la.name = (.tril, .hier 15 15) ∧ h.normalize = false ∧ h.lrCov = .const b ∧ 0 < b ∧
    SteadyK Sample.la h ops (fun _ => none) w U ∧ SteadyC Sample.la h ops (fun _ => none) w G ∧
    x = max (Sample.la.nK : ℝ) Sample.la.nC * (2 * (U.trace * G.trace / (Sample.la.nK * Sample.la.nC) + h.damping + Real.log (2 / h.damping))) ∧
    b * (15 + 8 * (x + max (Sample.la.nK : ℝ) Sample.la.nC)) ≤ 1 ∧ denO (w.opt.Ks Sample.la.name) Sample.la.nK = 1 ∧ denO (w.opt.Cs Sample.la.name) Sample.la.nC = 1 ∧
    (w.opt.steps + 0) % h.T = 0 ∧ b = h.lrCov.at (w.opt.steps + 0) ∧
    y = (damped h.damping (momK Sample.la h ops (fun _ => none) w 0) (momC Sample.la h ops (fun _ => none) w 0) *
      kronOf (facK Sample.la ops (fun _ => none) w 0) (facC Sample.la ops (fun _ => none) w 0)).trace ∧
    b * (15 + 8 * (y / Sample.la.nC + Sample.la.nK)) ≤ 1 ∧ b * (15 + 8 * (y / Sample.la.nK + Sample.la.nC)) ≤ 1 := by
  have b0 : (0 : ℝ) < 1 / 700 := by norm_num
  obtain ⟨o, ws, cl, hi, R, hc, hs, i1, i2, sK, sC⟩ := Sample.shaped b0 false 1
  have k2 : (Sample.la.nK : ℝ) = 2 := by norm_num [Sample.la, Layer.nK]
  have c1 : (Sample.la.nC : ℝ) = 1 := by norm_num [Sample.la, Layer.nC]
  have tU : (Sample.momU (1 / 700) 1 false).trace = 7 / 2 := by rw [Sample.momU_trace]; norm_num
  have y37 : (damped 1 (Sample.momU (1 / 700) 1 false) (Sample.momG (1 / 700) false) * kronOf 1 1).trace = 37 := by
    rw [trace_damped, Coupled.traces]
    simp only [transpose_one, Matrix.one_mul, Matrix.mul_one, tU, Sample.momG_trace, trace_one, Fintype.card_fin, k2, c1]
    norm_num
  refine ⟨o, ws, cl, _, _, _, 1 / 700, _, 37, _, _, hi, rfl, R, hc, rfl, rfl, b0, sK, sC, rfl, ?_, i1, i2, Nat.mod_one _, rfl, ?_, by rw [k2, c1]; norm_num, by rw [k2, c1]; norm_num⟩
  · rw [tU, Sample.momG_trace]
    have hd : (defaults (Sample.shapedArgs (1 / 700) false) : Hyper ℝ).damping = 1 := rfl
    rw [hd, k2, c1, max_eq_left (by norm_num)]
    have := Real.log_le_sub_one_of_pos (show (0 : ℝ) < 2 / 1 by norm_num)
    linarith
  · have e1 : momK Sample.la _ _ _ _ 0 = _ := sK 0 (Nat.mod_one _)
    have e2 : momC Sample.la _ _ _ _ 0 = _ := sC 0 (Nat.mod_one _)
    rw [e1, e2]
    have e3 : facK Sample.la (Sample.steadyOps (Sample.hot 1)) (fun _ => none) ⟨o, Sample.gdata, Sample.ggrad, []⟩ 0 = 1 := i1
    have e4 : facC Sample.la (Sample.steadyOps (Sample.hot 1)) (fun _ => none) ⟨o, Sample.gdata, Sample.ggrad, []⟩ 0 = 1 := i2
    rw [e3, e4]
    exact y37.symm
