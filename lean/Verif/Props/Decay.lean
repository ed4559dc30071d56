import Verif.Props.HeavyBall
import Mathlib.Analysis.Convex.Basic

/-! C96: weight decay keeps the parameters bounded. -/

set_option linter.unusedSectionVars false
open Matrix Construct Filter Topology

namespace Pull

/-- The roots of `z² - (1 + μ - ν) z + μ` are real and between 0 and 1 if `√ν + √μ ≤ 1`. -/
theorem roots {μ ν : ℝ} (μ0 : 0 ≤ μ) (ν0 : 0 < ν) (h : √ν + √μ ≤ 1) :
    ∃ a b : ℝ, 0 ≤ a ∧ a < 1 ∧ 0 ≤ b ∧ b < 1 ∧ a * b = μ ∧ (1 - a) * (1 - b) = ν ∧ (μ = 0 → a = 0) := by
  obtain ⟨r, hr⟩ : ∃ r, r = √μ := ⟨_, rfl⟩
  obtain ⟨n, hn⟩ : ∃ n, n = √ν := ⟨_, rfl⟩
  have r0 : 0 ≤ r := hr ▸ Real.sqrt_nonneg _
  have n0 : 0 < n := hn ▸ Real.sqrt_pos.2 ν0
  have r2 : μ = r ^ 2 := by rw [hr, Real.sq_sqrt μ0]
  have n2 : ν = n ^ 2 := by rw [hn, Real.sq_sqrt ν0.le]
  rw [← hr, ← hn] at h
  obtain ⟨s, hs⟩ : ∃ s, s = 1 + μ - ν := ⟨_, rfl⟩
  have s0 : 2 * r ≤ s := by rw [hs, r2, n2]; nlinarith
  have D0 : 0 ≤ s ^ 2 - 4 * μ := by rw [r2]; nlinarith
  obtain ⟨d, hd⟩ : ∃ d, d = √(s ^ 2 - 4 * μ) := ⟨_, rfl⟩
  have d0 : 0 ≤ d := hd ▸ Real.sqrt_nonneg _
  have d2 : d ^ 2 = s ^ 2 - 4 * μ := by rw [hd, Real.sq_sqrt D0]
  have ds : d ≤ s := abs_le_of_sq_le_sq' (by rw [d2]; linarith) (by linarith) |>.2
  have e1 : (s - d) / 2 * ((s + d) / 2) = μ := by nlinarith
  have e2 : (1 - (s - d) / 2) * (1 - (s + d) / 2) = ν := by
    have : (1 - (s - d) / 2) * (1 - (s + d) / 2) = 1 - s + (s - d) / 2 * ((s + d) / 2) := by ring
    rw [this, e1, hs]; ring
  have r1 : r < 1 := by linarith
  have sum : (1 - (s - d) / 2) + (1 - (s + d) / 2) = 2 - s := by ring
  have s2 : 0 < 2 - s := by rw [hs, r2, n2]; nlinarith
  have pos : 0 < 1 - (s - d) / 2 := by
    by_contra hc
    push Not at hc
    have := mul_nonneg_of_nonpos_of_nonpos hc (by linarith : 1 - (s + d) / 2 ≤ 0)
    linarith
  have pos' : 0 < 1 - (s + d) / 2 := by
    by_contra hc
    push Not at hc
    have := mul_nonpos_of_nonneg_of_nonpos pos.le hc
    linarith
  refine ⟨(s - d) / 2, (s + d) / 2, by linarith, by linarith, by linarith, by linarith, e1, e2, fun m0 => ?_⟩
  have : d = s := by rw [hd, m0, mul_zero, sub_zero, Real.sqrt_sq (by linarith)]
  rw [this]; ring

/-- squares of a convex combination -/
theorem fro_convex {n k : ℕ} (M : ℝ) : Convex ℝ {A : Matrix (Fin n) (Fin k) ℝ | sumSq A ≤ M} := by
  intro A hA B hB a b a0 b0 ab
  have e : sumSq (a • A + b • B) ≤ a * sumSq A + b * sumSq B := by
    simp only [sumSq, Finset.mul_sum, ← Finset.sum_add_distrib]
    refine Finset.sum_le_sum fun i _ => Finset.sum_le_sum fun j _ => ?_
    simp only [Matrix.add_apply, Matrix.smul_apply, smul_eq_mul]
    have : b = 1 - a := by linarith
    subst this
    nlinarith [sq_nonneg (A i j - B i j), mul_nonneg a0 b0]
  refine e.trans ?_
  have h1 := mul_le_mul_of_nonneg_left (show sumSq A ≤ M from hA) a0
  have h2 := mul_le_mul_of_nonneg_left (show sumSq B ≤ M from hB) b0
  have : a * M + b * M = M := by rw [← add_mul, ab, one_mul]
  linarith

end Pull

/-- what a step does to weight and bias together, with any momentum and weight decay -/
theorem paramM_any {hy : Hyper ℝ} {m : Layer} {N : Matrix (Fin m.nC) (Fin m.nK) ℝ} {v v' : World ℝ} (A : World.ApplySpec hy m N v v') :
    (hy.momentum ≠ 0 → bufM v' m = hy.momentum • bufM v m + (N + hy.weightDecay • paramM v.data m)) ∧
    paramM v'.data m = paramM v.data m - hy.lr • (hy.momentum • bufM v m + (N + hy.weightDecay • paramM v.data m)) := by
  have conv : ∀ (x : Option (Mat ℝ)) {r c : ℕ} (i : Fin r) (j : Fin c), momO x r c i j = (x.map fun B => B.get i j).getD 0 := by
    intro x r c i j
    cases x <;> rfl
  have key : ∀ i j, (hy.momentum ≠ 0 → bufM v' m i j = hy.momentum * bufM v m i j + (N i j + hy.weightDecay * paramM v.data m i j)) ∧
      paramM v'.data m i j = paramM v.data m i j - hy.lr * (hy.momentum * bufM v m i j + (N i j + hy.weightDecay * paramM v.data m i j)) := by
    intro i j
    simp only [paramM, bufM]
    by_cases hj : j.1 < m.din
    · simp only [if_pos hj]
      have c1 := conv (v'.opt.mom m.weight.ptr) (r := m.dout) (c := m.din) i ⟨j.1, hj⟩
      have c2 := conv (v.opt.mom m.weight.ptr) (r := m.dout) (c := m.din) i ⟨j.1, hj⟩
      constructor
      · intro m0
        have b1 : momO (v'.opt.mom m.weight.ptr) m.dout m.din i ⟨j.1, hj⟩ =
            hy.momentum * momO (v.opt.mom m.weight.ptr) m.dout m.din i ⟨j.1, hj⟩ + (N i j + hy.weightDecay * (v.data m.weight.ptr).get i j) :=
          congrFun (congrFun (A.weight.mom1 m0).2 i) ⟨j.1, hj⟩
        exact c1.symm.trans (b1.trans (congrArg (fun z => hy.momentum * z + (N i j + hy.weightDecay * (v.data m.weight.ptr).get i j)) c2))
      · have b2 : (v'.data m.weight.ptr).get i j = (v.data m.weight.ptr).get i j - hy.lr *
            (hy.momentum * momO (v.opt.mom m.weight.ptr) m.dout m.din i ⟨j.1, hj⟩ + (N i j + hy.weightDecay * (v.data m.weight.ptr).get i j)) :=
          congrFun (congrFun A.weight.data i) ⟨j.1, hj⟩
        exact b2.trans (congrArg (fun z => (v.data m.weight.ptr).get i j - hy.lr * (hy.momentum * z + (N i j + hy.weightDecay * (v.data m.weight.ptr).get i j))) c2)
    · simp only [if_neg hj]
      cases hb : m.bias with
      | none =>
        have := j.2
        simp [Layer.nK, hb] at this
        omega
      | some b =>
        have ej : (⟨m.din, by simp [Layer.nK, hb]⟩ : Fin m.nK) = j := Fin.ext (by
          have := j.2
          simp [Layer.nK, hb] at this
          show m.din = j.1
          omega)
        have c1 := conv (v'.opt.mom b.ptr) (r := m.dout) (c := 1) i 0
        have c2 := conv (v.opt.mom b.ptr) (r := m.dout) (c := 1) i 0
        constructor
        · intro m0
          have b1 : momO (v'.opt.mom b.ptr) m.dout 1 i 0 = hy.momentum * momO (v.opt.mom b.ptr) m.dout 1 i 0 +
              (N i ⟨m.din, by simp [Layer.nK, hb]⟩ + hy.weightDecay * (v.data b.ptr).get i 0) := congrFun (congrFun ((A.bias b hb).mom1 m0).2 i) 0
          rw [ej] at b1
          exact c1.symm.trans (b1.trans (congrArg (fun z => hy.momentum * z + (N i j + hy.weightDecay * (v.data b.ptr).get i 0)) c2))
        · have b2 : (v'.data b.ptr).get i 0 = (v.data b.ptr).get i 0 - hy.lr * (hy.momentum * momO (v.opt.mom b.ptr) m.dout 1 i 0 +
              (N i ⟨m.din, by simp [Layer.nK, hb]⟩ + hy.weightDecay * (v.data b.ptr).get i 0)) := congrFun (congrFun (A.bias b hb).data i) 0
          rw [ej] at b2
          exact b2.trans (congrArg (fun z => (v.data b.ptr).get i 0 - hy.lr * (hy.momentum * z + (N i j + hy.weightDecay * (v.data b.ptr).get i 0))) c2)
  constructor
  · intro m0
    funext i j
    rw [(key i j).1 m0]; rfl
  · funext i j
    rw [(key i j).2]; rfl

/-- Training in rounds, seen from layer `m` with hyper-parameters `hy`: between steps only forward and backward passes and assignments of gradients and of the scale. Any update rule,
with or without factor momentum, any structures. -/
structure Keeps (cl : String → Cls × Cls) (m : Layer) (hy : Hyper ℝ) (ops : ℕ → List (Op ℝ)) (attr : ℕ → Option ℝ) (w : World ℝ) : Prop where
  live : w.Live cl
  fits : ∀ t, FitsRun (w.rounds ops attr t) (ops t ++ [.step false (attr t) false])
  quiet : ∀ t, ∀ op ∈ ops t, op.Quiet
  mem : m ∈ w.opt.layers
  hyper : w.opt.hyperOf m = .ok hy

/-- the preconditioned gradient of a layer in round `t`, unscaled -/
noncomputable def pushed (cl : String → Cls × Cls) (m : Layer) (ops : ℕ → List (Op ℝ)) (attr : ℕ → Option ℝ) (w : World ℝ) (t : ℕ) : Matrix (Fin m.nC) (Fin m.nK) ℝ :=
  natDir (cl m.name) ((run (ops t) (w.rounds ops attr t)).curScale (attr t)) (gradM (run (ops t) (w.rounds ops attr t)) m)
    (denO ((w.rounds ops attr (t + 1)).opt.Ks m.name) m.nK) (denO ((w.rounds ops attr (t + 1)).opt.Cs m.name) m.nC)

section
variable {cl : String → Cls × Cls} {m : Layer} {hy : Hyper ℝ} {ops : ℕ → List (Op ℝ)} {attr : ℕ → Option ℝ} {w : World ℝ}

theorem Passes.keeps (P : Passes cl m hy ops attr w) : Keeps cl m hy ops attr w := ⟨P.live, P.fits, P.quiet, P.mem, P.hyper⟩

/-- the state between rounds -/
structure Keeps.At (cl : String → Cls × Cls) (m : Layer) (hy : Hyper ℝ) (v : World ℝ) : Prop where
  live : v.Live cl
  mem : m ∈ v.opt.layers
  hyper : v.opt.hyperOf m = .ok hy

/-- one round -/
theorem Keeps.round (R : Keeps cl m hy ops attr w) {t : ℕ} (B : Keeps.At cl m hy (w.rounds ops attr t)) : Keeps.At cl m hy (w.rounds ops attr (t + 1)) ∧
    (hy.momentum ≠ 0 → bufM (w.rounds ops attr (t + 1)) m =
      hy.momentum • bufM (w.rounds ops attr t) m + (pushed cl m ops attr w t + hy.weightDecay • paramM (w.rounds ops attr t).data m)) ∧
    paramM (w.rounds ops attr (t + 1)).data m = paramM (w.rounds ops attr t).data m - hy.lr • (hy.momentum • bufM (w.rounds ops attr t) m +
      (pushed cl m ops attr w t + hy.weightDecay • paramM (w.rounds ops attr t).data m)) := by
  unfold pushed
  generalize hv : w.rounds ops attr t = v at B ⊢
  have fi := R.fits t
  rw [hv] at fi
  obtain ⟨f1, f2, -⟩ := along_append.1 fi
  have W := B.live.window f1 (R.quiet t)
  obtain ⟨v', e, sp, lv'⟩ := W.live.step f2
  have er : w.rounds ops attr (t + 1) = v' := by
    rw [World.rounds, hv, run_append, run_cons, e]; rfl
  rw [er]
  have hl : m ∈ (run (ops t) v).opt.layers := by rw [W.layers]; exact B.mem
  have hh : (run (ops t) v).opt.hyperOf m = .ok hy := by rw [W.hyperOf]; exact B.hyper
  refine ⟨⟨lv', by rw [sp.layers]; exact hl, ?_⟩, ?_⟩
  · have : v'.opt.hyperOf m = (run (ops t) v).opt.hyperOf m := by unfold Opt.hyperOf; rw [sp.ptrGroup, sp.groups]
    rw [this]; exact hh
  · have S := sp.layer m hl _ hh
    have := paramM_any S.apply
    have eb : bufM (run (ops t) v) m = bufM v m := by unfold bufM; rw [W.mom]
    rw [W.data, eb] at this
    exact this

theorem Keeps.at (R : Keeps cl m hy ops attr w) : ∀ t, Keeps.At cl m hy (w.rounds ops attr t)
  | 0 => ⟨R.live, R.mem, R.hyper⟩
  | t + 1 => (R.round (R.at t)).1

/-- **C96.** Weight decay keeps the parameters in a convex set: if `√(lr · weight_decay) + √momentum ≤ 1` and training starts without momentum buffers, the parameters of a layer stay in
every convex set that contains the initial parameters and the preconditioned gradients so far divided by `-weight_decay`. This holds for all structures and update rules, however
the factors change. -/
theorem C96_convex (R : Keeps cl m hy ops attr w) (l0 : 0 < hy.lr) (d0 : 0 < hy.weightDecay) (m0 : 0 ≤ hy.momentum) (hc : √(hy.lr * hy.weightDecay) + √hy.momentum ≤ 1)
    (hb : bufM w m = 0) {S : Set (Matrix (Fin m.nC) (Fin m.nK) ℝ)} (hS : Convex ℝ S) (h0 : paramM w.data m ∈ S) (t : ℕ)
    (hN : ∀ s < t, -(1 / hy.weightDecay) • pushed cl m ops attr w s ∈ S) : paramM (w.rounds ops attr t).data m ∈ S := by
  obtain ⟨a, b, a0, a1, b0, b1, ab, cd, az⟩ := Pull.roots m0 (mul_pos l0 d0) hc
  have a1' : 0 < 1 - a := by linarith
  suffices h : paramM (w.rounds ops attr t).data m ∈ S ∧ paramM (w.rounds ops attr t).data m - (a * hy.lr / (1 - a)) • bufM (w.rounds ops attr t) m ∈ S from h.1
  induction t with
  | zero =>
    rw [World.rounds, hb, smul_zero, sub_zero]
    exact ⟨h0, h0⟩
  | succ t ih =>
    obtain ⟨x0, z0⟩ := ih fun s hs => hN s (by omega)
    have n0 := hN t (by omega)
    obtain ⟨-, e1, e2⟩ := R.round (R.at t)
    generalize pushed cl m ops attr w t = N at *
    generalize paramM (w.rounds ops attr t).data m = x at *
    generalize bufM (w.rounds ops attr t) m = y at *
    generalize paramM (w.rounds ops attr (t + 1)).data m = x' at *
    generalize bufM (w.rounds ops attr (t + 1)) m = y' at *
    have ez : x' - (a * hy.lr / (1 - a)) • y' = b • (x - (a * hy.lr / (1 - a)) • y) + (1 - b) • (-(1 / hy.weightDecay) • N) := by
      have c1 : hy.lr / (1 - a) = (1 - b) / hy.weightDecay := by
        rw [div_eq_div_iff a1'.ne' d0.ne']; linarith
      by_cases hm : hy.momentum = 0
      · have a00 := az hm
        subst a00
        rw [sub_zero, div_one] at c1
        rw [sub_zero, one_mul] at cd
        rw [e2, hm]
        funext i j
        simp only [Matrix.add_apply, Matrix.sub_apply, Matrix.smul_apply, smul_eq_mul, zero_mul, zero_div, sub_zero, zero_add]
        have : hy.lr * N i j = (1 - b) / hy.weightDecay * N i j := by rw [c1]
        have c2 : hy.lr * hy.weightDecay * x i j = (1 - b) * x i j := by rw [cd]
        have : (1 - b) * (-(1 / hy.weightDecay) * N i j) = -(hy.lr * N i j) := by rw [this]; ring
        rw [this]
        linarith
      · rw [e2, e1 hm]
        funext i j
        simp only [Matrix.add_apply, Matrix.sub_apply, Matrix.smul_apply, smul_eq_mul]
        have c2 : a * hy.lr / (1 - a) = hy.lr / (1 - a) - hy.lr := by field_simp; ring
        have c3 : (1 - b) * (-(1 / hy.weightDecay) * N i j) = -(hy.lr / (1 - a) * N i j) := by rw [c1]; ring
        have c4 : hy.lr / (1 - a) * hy.weightDecay = 1 - b := by rw [c1]; field_simp
        have c5 : b * (a * hy.lr / (1 - a)) = hy.momentum * (hy.lr / (1 - a)) := by rw [← ab]; ring
        rw [c3, mul_sub b, ← mul_assoc b, c5, c2]
        have : hy.lr / (1 - a) * (hy.weightDecay * x i j) = (1 - b) * x i j := by rw [← mul_assoc, c4]
        linear_combination -this
    have hz : x' - (a * hy.lr / (1 - a)) • y' ∈ S := by
      rw [ez]
      exact hS z0 n0 b0 (by linarith) (by linarith)
    refine ⟨?_, hz⟩
    have ex : x' = a • x + (1 - a) • (x' - (a * hy.lr / (1 - a)) • y') := by
      by_cases hm : hy.momentum = 0
      · rw [az hm]; simp
      · have e3 : x' = x - hy.lr • y' := by rw [e2, e1 hm]
        rw [e3]
        funext i j
        simp only [Matrix.add_apply, Matrix.sub_apply, Matrix.smul_apply, smul_eq_mul]
        field_simp
        ring
    rw [ex]
    exact hS x0 hz a0 a1'.le (by ring)

/-- **C96 (entries).** The same for intervals: an entry of weight or bias that starts between `-M` and `M` stays there as long as the entries of the preconditioned gradient are at most
`weight_decay · M` in size. -/
theorem C96_entries (R : Keeps cl m hy ops attr w) (l0 : 0 < hy.lr) (d0 : 0 < hy.weightDecay) (m0 : 0 ≤ hy.momentum) (hc : √(hy.lr * hy.weightDecay) + √hy.momentum ≤ 1)
    (hb : bufM w m = 0) {M : ℝ} (i : Fin m.nC) (j : Fin m.nK) (h0 : |paramM w.data m i j| ≤ M) (t : ℕ)
    (hN : ∀ s < t, |pushed cl m ops attr w s i j| ≤ hy.weightDecay * M) : |paramM (w.rounds ops attr t).data m i j| ≤ M := by
  refine C96_convex R l0 d0 m0 hc hb (S := {A | |A i j| ≤ M}) ?_ h0 t fun s hs => ?_
  · intro A hA B hB a b a0 b0 ab
    have hA' : |A i j| ≤ M := hA
    have hB' : |B i j| ≤ M := hB
    show |(a • A + b • B) i j| ≤ M
    simp only [Matrix.add_apply, Matrix.smul_apply, smul_eq_mul]
    rw [abs_le] at *
    have : a * M + b * M = M := by rw [← add_mul, ab, one_mul]
    constructor <;> nlinarith [mul_le_mul_of_nonneg_left hA'.1 a0, mul_le_mul_of_nonneg_left hA'.2 a0, mul_le_mul_of_nonneg_left hB'.1 b0, mul_le_mul_of_nonneg_left hB'.2 b0]
  · show |(-(1 / hy.weightDecay) • pushed cl m ops attr w s) i j| ≤ M
    rw [Matrix.smul_apply, smul_eq_mul, abs_mul, abs_neg, abs_of_pos (by positivity : 0 < 1 / hy.weightDecay), one_div, ← div_eq_inv_mul, div_le_iff₀ d0, mul_comm]
    exact hN s hs

/-- **C96 (norm).** If moreover the factors are not block-diagonal and their squared singular values stay at most `1/q`, and the unscaled gradients have norm at most
`q² weight_decay M` wherever the parameters have norm at most `M`, then the parameters never leave that ball. -/
theorem C96_norm (R : Keeps cl m hy ops attr w) (hp : (cl m.name).1.Plain ∧ (cl m.name).2.Plain) (l0 : 0 < hy.lr) (d0 : 0 < hy.weightDecay) (m0 : 0 ≤ hy.momentum)
    (hc : √(hy.lr * hy.weightDecay) + √hy.momentum ≤ 1) (hb : bufM w m = 0) {q κ M : ℝ} (q0 : 0 < q) (κ0 : 0 ≤ κ)
    (hS : ∀ t, Singular q κ (denO ((w.rounds ops attr t).opt.Ks m.name) m.nK) ∧ Singular q κ (denO ((w.rounds ops attr t).opt.Cs m.name) m.nC))
    (h0 : sumSq (paramM w.data m) ≤ M ^ 2)
    (hg : ∀ t, sumSq (paramM (w.rounds ops attr t).data m) ≤ M ^ 2 →
      sumSq ((1 / (run (ops t) (w.rounds ops attr t)).curScale (attr t)) • gradM (run (ops t) (w.rounds ops attr t)) m) ≤ (q ^ 2 * hy.weightDecay * M) ^ 2) (t : ℕ) :
    sumSq (paramM (w.rounds ops attr t).data m) ≤ M ^ 2 := by
  induction t using Nat.strong_induction_on with
  | _ t ih =>
    refine C96_convex R l0 d0 m0 hc hb (Pull.fro_convex (M ^ 2)) h0 t fun s hs => ?_
    have gs := hg s (ih s hs)
    have sc : ∀ (c : ℝ) (A : Matrix (Fin m.nC) (Fin m.nK) ℝ), sumSq (c • A) = c ^ 2 * sumSq A := fun c A => by
      simp only [sumSq, Matrix.smul_apply, smul_eq_mul, mul_pow, Finset.mul_sum]
    show sumSq (-(1 / hy.weightDecay) • pushed cl m ops attr w s) ≤ M ^ 2
    have e : pushed cl m ops attr w s = denO ((w.rounds ops attr (s + 1)).opt.Cs m.name) m.nC * (denO ((w.rounds ops attr (s + 1)).opt.Cs m.name) m.nC)ᵀ *
        ((1 / (run (ops s) (w.rounds ops attr s)).curScale (attr s)) • gradM (run (ops s) (w.rounds ops attr s)) m) *
        (denO ((w.rounds ops attr (s + 1)).opt.Ks m.name) m.nK * (denO ((w.rounds ops attr (s + 1)).opt.Ks m.name) m.nK)ᵀ) := by
      rw [pushed, natDir, gram_plain hp.1, gram_plain hp.2, Matrix.mul_smul, Matrix.smul_mul, transpose_mul, transpose_transpose]
    rw [sc, e]
    have wC := singular_iff.1 (hS (s + 1)).2
    have wK := singular_iff.1 (hS (s + 1)).1
    have p1 := (Band.precond wC wK q0 κ0 ((1 / (run (ops s) (w.rounds ops attr s)).curScale (attr s)) • gradM (run (ops s) (w.rounds ops attr s)) m)).2.1
    have p2 := Band.precond_le wC wK q0 ((1 / (run (ops s) (w.rounds ops attr s)).curScale (attr s)) • gradM (run (ops s) (w.rounds ops attr s)) m)
    generalize denO ((w.rounds ops attr (s + 1)).opt.Cs m.name) m.nC = C at *
    generalize denO ((w.rounds ops attr (s + 1)).opt.Ks m.name) m.nK = K at *
    generalize (1 / (run (ops s) (w.rounds ops attr s)).curScale (attr s)) • gradM (run (ops s) (w.rounds ops attr s)) m = G at *
    have p1' : q ^ 2 * sumSq (C * Cᵀ * G * (K * Kᵀ)) ≤ Band.fro (Cᵀ * G * K) := p1
    have p2' : q ^ 2 * Band.fro (Cᵀ * G * K) ≤ sumSq G := p2
    generalize sumSq (C * Cᵀ * G * (K * Kᵀ)) = x at *
    have q2 : 0 < q ^ 2 := by positivity
    have : q ^ 2 * (q ^ 2 * x) ≤ (q ^ 2 * hy.weightDecay * M) ^ 2 := (mul_le_mul_of_nonneg_left p1' q2.le).trans (p2'.trans gs)
    have x1 : x ≤ (hy.weightDecay * M) ^ 2 := by
      have e4 : (q ^ 2 * hy.weightDecay * M) ^ 2 = q ^ 2 * (q ^ 2 * (hy.weightDecay * M) ^ 2) := by ring
      rw [e4] at this
      exact le_of_mul_le_mul_left (le_of_mul_le_mul_left this q2) q2
    have : (-(1 / hy.weightDecay)) ^ 2 * x ≤ (-(1 / hy.weightDecay)) ^ 2 * (hy.weightDecay * M) ^ 2 := mul_le_mul_of_nonneg_left x1 (by positivity)
    refine this.trans (le_of_eq ?_)
    field_simp

/-- **C96 (from construction).** `kfac_like` without factor momentum, dense or diagonal factors, bounded second moments and rates as in C93: from construction on, the parameters of the
layer stay in every ball of radius `M` around zero that contains them and in which the unscaled gradients have norm at most `min(1, damping/2)² weight_decay M`. -/
theorem C96_from_construction {structs : String → Option Cls} {model : Model} {p : ParamArg ℝ} {a : Args ℝ} {o : Opt ℝ} {ws : List Warn}
    (hn : (model.layers.map (·.name)).Nodup) (hi : Construct.init structs model p a = .ok (o, ws)) {data : ℕ → Mat ℝ} {grad : ℕ → Option (Mat ℝ)}
    (ht : Trainable o data) (hw : w = ⟨o, data, grad, []⟩) (P : Passes cl m hy ops attr w)
    (hcl : ((cl m.name).1 = .dense ∨ (cl m.name).1 = .diagonal) ∧ ((cl m.name).2 = .dense ∨ (cl m.name).2 = .diagonal)) {B β M : ℝ} (d0 : 0 < hy.damping) (B0 : 0 ≤ B)
    (hβ : ∀ t, 0 ≤ hy.lrCov.at t ∧ hy.lrCov.at t ≤ β) (hB : β * (B + hy.damping) ≤ min 1 (hy.damping / 2))
    (hU : ∀ t, (w.opt.steps + t) % hy.T = 0 → QuadLe ((fired m.name (ops t) (w.rounds ops attr t)).map fun e => inputMoment hy m e.1).sum B ∧
      QuadLe ((1 / (run (ops t) (w.rounds ops attr t)).curScale (attr t) ^ 2) • ((fired m.name (ops t) (w.rounds ops attr t)).map fun e => gradMoment hy m e.2).sum) B)
    (l0 : 0 < hy.lr) (e0 : 0 < hy.weightDecay) (m0 : 0 ≤ hy.momentum) (hc : √(hy.lr * hy.weightDecay) + √hy.momentum ≤ 1) (h0 : sumSq (paramM w.data m) ≤ M ^ 2)
    (hg : ∀ t, sumSq (paramM (w.rounds ops attr t).data m) ≤ M ^ 2 →
      sumSq ((1 / (run (ops t) (w.rounds ops attr t)).curScale (attr t)) • gradM (run (ops t) (w.rounds ops attr t)) m) ≤
        (min 1 (hy.damping / 2) ^ 2 * hy.weightDecay * M) ^ 2) (t : ℕ) :
    sumSq (paramM (w.rounds ops attr t).data m) ≤ M ^ 2 := by
  have C := C93_from_construction hn hi ht hw P d0 B0 hβ hB
  have b0 : bufM w m = 0 := by
    have : w.opt.mom = fun _ => none := by rw [hw]; exact (init_ok hn hi).mom
    funext i j
    simp only [bufM, this]
    cases m.bias <;> simp
  refine C96_norm P.keeps ⟨?_, ?_⟩ l0 e0 m0 hc b0 (lt_min one_pos (by linarith)) (le_max_of_le_left zero_le_one)
    (fun t => ⟨C.1 hcl.1 (fun t ht => (hU t ht).1) t, C.2 hcl.2 (fun t ht => (hU t ht).2) t⟩) h0 hg t
  · rcases hcl.1 with a | a <;> rw [a] <;> intro k <;> simp
  · rcases hcl.2 with a | a <;> rw [a] <;> intro k <;> simp

/-- **C96 (without weight decay).** With neither momentum nor weight decay the parameters are the initial ones minus `lr` times the sum of all preconditioned gradients, so constant
preconditioned gradients carry them away without bound. -/
theorem C96_drift (R : Keeps cl m hy ops attr w) (d0 : hy.weightDecay = 0) (m0 : hy.momentum = 0) (t : ℕ) :
    paramM (w.rounds ops attr t).data m = paramM w.data m - hy.lr • ∑ s ∈ Finset.range t, pushed cl m ops attr w s := by
  induction t with
  | zero => rw [World.rounds, Finset.sum_range_zero, smul_zero, sub_zero]
  | succ t ih =>
    rw [(R.round (R.at t)).2.2, d0, m0, zero_smul, zero_smul, zero_add, add_zero, ih, Finset.sum_range_succ, smul_add, sub_sub]

end

namespace Sample

/-- with `lr_cov = 0` the factors of the sample training are identities -/
theorem soft_identity {μ ν δ : ℝ} {o : Opt ℝ} {ws : List Warn} {cl : String → Cls × Cls} {w : World ℝ} {ops : ℕ → List (Op ℝ)}
    (hi : Construct.init supportedStructures (wideModel 2) .default (softArgs μ ν 0 δ) = .ok (o, ws)) (ht : Trainable o (wideData 2)) (hw : w = ⟨o, wideData 2, fun _ => none, []⟩)
    (P : Passes cl (lw 2) (defaults (softArgs μ ν 0 δ)) ops (fun _ => none) w) (hc : cl "w" = (.dense, .diagonal)) (t : ℕ) :
    denO ((w.rounds ops (fun _ => none) t).opt.Ks (lw 2).name) (lw 2).nK = 1 ∧ denO ((w.rounds ops (fun _ => none) t).opt.Cs (lw 2).name) (lw 2).nC = 1 := by
  obtain ⟨i1, i2⟩ := (init_ok (model := wideModel 2) (List.nodup_singleton "w") hi).identity ht (m := lw 2) (by have := P.mem; rw [hw] at this; exact this)
  have rate : ∀ {t n : ℕ} {M : Matrix (Fin n) (Fin n) ℝ} {b : ℝ}, IsRate (defaults (softArgs μ ν 0 δ)) t M b → b = 0 := fun H => by
    have r := H.range (show (0 : ℝ) ≤ (0 : ℝ) from le_rfl)
    exact le_antisymm r.2 r.1
  induction t with
  | zero => rw [World.rounds, hw]; exact ⟨i1, i2⟩
  | succ t ih =>
    have U := (P.round (P.between t)).2.2 (Nat.mod_one _)
    obtain ⟨b, e1, e2⟩ := U.1 (Or.inl (congrArg Prod.fst hc)) _ _ rfl rfl
    obtain ⟨b', e1', e2'⟩ := U.2 (Or.inr (congrArg Prod.snd hc)) _ _ rfl rfl
    rw [rate e1] at e2
    rw [rate e1'] at e2'
    refine ⟨e2.trans ?_, e2'.trans ?_⟩
    · rw [nextFactor, zero_div, zero_smul, sub_zero, Matrix.mul_one]; exact ih.1
    · rw [nextFactor, zero_div, zero_smul, sub_zero, Matrix.mul_one]; exact ih.2

theorem wide_one (j : Fin 2) : paramM (wideData 2) (lw 2) (0 : Fin 1) j = 1 := by
  refine (if_pos (show j.1 < (lw 2).din from j.2)).trans ?_
  exact if_pos (c := 0 < 1 ∧ j.1 < 2) ⟨one_pos, j.2⟩

theorem wide_norm : sumSq (paramM (wideData 2) (lw 2)) = 2 := by
  show ∑ i : Fin 1, ∑ j : Fin 2, paramM (wideData 2) (lw 2) i j ^ 2 = 2
  rw [Fin.sum_univ_one, Fin.sum_univ_two, wide_one, wide_one]; norm_num

theorem soft_buf {o : Opt ℝ} {ws : List Warn} {a : Args ℝ} (hi : Construct.init supportedStructures (wideModel 2) .default a = .ok (o, ws)) {data : ℕ → Mat ℝ} {grad : ℕ → Option (Mat ℝ)} (m : Layer) :
    bufM ⟨o, data, grad, []⟩ m = 0 := by
  have : o.mom = fun _ => none := (init_ok (model := wideModel 2) (List.nodup_singleton "w") hi).mom
  funext i j
  simp only [bufM, this]
  cases m.bias <;> simp

end Sample

/-- **C96 (the condition is sharp without momentum).** For every `lr > 1` there is a training with weight decay 1, without momentum, in which an entry starts at 1 and the preconditioned
gradient is 1 there, and after one step the entry is larger than 1 in size. -/
theorem C96_sharp {ν : ℝ} (h1 : 1 < ν) : ∃ (cl : String → Cls × Cls) (m : Layer) (hy : Hyper ℝ) (w : World ℝ) (ops : ℕ → List (Op ℝ)) (i : Fin m.nC) (j : Fin m.nK),
    Keeps cl m hy ops (fun _ => none) w ∧ hy.lr = ν ∧ hy.weightDecay = 1 ∧ hy.momentum = 0 ∧ bufM w m = 0 ∧ |paramM w.data m i j| ≤ 1 ∧
    |pushed cl m ops (fun _ => none) w 0 i j| ≤ hy.weightDecay * 1 ∧ 1 < |paramM (w.rounds ops (fun _ => none) 1).data m i j| := by
  obtain ⟨o, ws, cl, w, ops, hi, ht, hw, hl, P, hh, sm, gr, hc, hU⟩ := Sample.soft_any (μ := 0) (ν := ν) (c := 0) (δ := 1) le_rfl (by linarith) le_rfl zero_le_one
  obtain ⟨k1, k2⟩ := Sample.soft_identity hi ht hw P hc 1
  have mw : Sample.lw 2 ∈ w.opt.layers := by rw [hl]; simp
  have w0 : paramM w.data (Sample.lw 2) (0 : Fin 1) (0 : Fin 2) = 1 := by rw [hw]; exact Sample.wide_one 0
  have pos : (run (ops 0) w).curScale none ≠ 0 := by
    have f := P.fits 0
    rw [World.rounds] at f
    obtain ⟨f1, f2, -⟩ := along_append.1 f
    exact (World.Live.curScale_pos (P.live.window f1 (P.quiet 0)).live f2.2.1).ne'
  have pu : pushed cl (Sample.lw 2) ops (fun _ => none) w 0 = paramM w.data (Sample.lw 2) := by
    have g0 := gr 0 _ mw
    rw [World.rounds] at g0
    rw [pushed, World.rounds, natDir, show cl (Sample.lw 2).name = _ from hc, k1, k2, g0]
    show (1 / _) • ((1 : Matrix (Fin (Sample.lw 2).nC) (Fin (Sample.lw 2).nC) ℝ) * 1ᵀ * (_ • _) * ((1 : Matrix (Fin (Sample.lw 2).nK) (Fin (Sample.lw 2).nK) ℝ) * 1ᵀ)ᵀ) = _
    rw [transpose_one, Matrix.mul_one, Matrix.one_mul, transpose_mul, transpose_transpose, transpose_one, Matrix.mul_one, Matrix.mul_one, smul_smul, one_div, inv_mul_cancel₀ pos, one_smul]
  have e := (P.keeps.round (P.keeps.at 0)).2.2
  rw [pu, World.rounds] at e
  refine ⟨cl, Sample.lw 2, _, w, ops, (0 : Fin 1), (0 : Fin 2), P.keeps, rfl, rfl, rfl, by rw [hw]; exact Sample.soft_buf hi _, by rw [w0, abs_one], ?_, ?_⟩
  · rw [pu, w0, abs_one]; exact le_of_eq (one_mul 1).symm
  · have e' : paramM (w.rounds ops (fun _ => none) 1).data (Sample.lw 2) (0 : Fin 1) (0 : Fin 2) = 1 - ν * (0 * bufM w (Sample.lw 2) (0 : Fin 1) (0 : Fin 2) + (1 + 1 * 1)) := by
      have := congrFun (congrFun e (0 : Fin 1)) (0 : Fin 2)
      refine this.trans ?_
      show paramM w.data (Sample.lw 2) (0 : Fin 1) (0 : Fin 2) - ν * (0 * bufM w (Sample.lw 2) (0 : Fin 1) (0 : Fin 2) +
        (paramM w.data (Sample.lw 2) (0 : Fin 1) (0 : Fin 2) + 1 * paramM w.data (Sample.lw 2) (0 : Fin 1) (0 : Fin 2))) = _
      rw [w0]
    rw [e', lt_abs]
    right
    linarith

/-- The sample training of C94 (the gradients are the weights) with momentum 1/4, `lr = 1/64` and weight decay 4 meets the hypotheses of `C96_from_construction` with `M² = 2`, the squared norm
of the initial weights: they never grow. -/
example : ∃ (w : World ℝ) (ops : ℕ → List (Op ℝ)), sumSq (paramM w.data (Sample.lw 2)) = 2 ∧ ∀ t, sumSq (paramM (w.rounds ops (fun _ => none) t).data (Sample.lw 2)) ≤ √2 ^ 2 := by
  obtain ⟨o, ws, cl, w, ops, hi, ht, hw, hl, P, hh, sm, gr, hc, hU⟩ := Sample.soft_any (μ := 1 / 4) (ν := 1 / 64) (c := 1 / 10) (δ := 4) (by norm_num) (by norm_num) (by norm_num) (by norm_num)
  have mw : Sample.lw 2 ∈ w.opt.layers := by rw [hl]; simp
  have hd : (defaults (Sample.softArgs (1 / 4) (1 / 64) (1 / 10) 4) : Hyper ℝ).damping = 1 := rfl
  have hlr : (defaults (Sample.softArgs (1 / 4) (1 / 64) (1 / 10) 4) : Hyper ℝ).lr = 1 / 64 := rfl
  have hmu : (defaults (Sample.softArgs (1 / 4) (1 / 64) (1 / 10) 4) : Hyper ℝ).momentum = 1 / 4 := rfl
  have hwd : (defaults (Sample.softArgs (1 / 4) (1 / 64) (1 / 10) 4) : Hyper ℝ).weightDecay = 4 := rfl
  have n0 : sumSq (paramM w.data (Sample.lw 2)) = 2 := by rw [hw]; exact Sample.wide_norm
  have s2 : (√2 : ℝ) ^ 2 = 2 := Real.sq_sqrt (by norm_num)
  refine ⟨w, ops, n0, C96_from_construction (model := Sample.wideModel 2) (List.nodup_singleton "w") hi ht hw P ⟨Or.inl (congrArg Prod.fst hc), Or.inr (congrArg Prod.snd hc)⟩
    (B := 2) (β := 1 / 10) (by rw [hd]; norm_num) (by norm_num) (fun t => by show 0 ≤ (1 / 10 : ℝ) ∧ (1 / 10 : ℝ) ≤ 1 / 10; norm_num) (by rw [hd]; norm_num) (fun t _ => hU t)
    (by rw [hlr]; norm_num) (by rw [hwd]; norm_num) (by rw [hmu]; norm_num) ?_ (by rw [n0, s2]) fun t h => ?_⟩
  · rw [hlr, hwd, hmu, show (1 / 64 * 4 : ℝ) = (1 / 4) ^ 2 by norm_num, show (1 / 4 : ℝ) = (1 / 2) ^ 2 by norm_num, Real.sqrt_sq (by norm_num), Real.sqrt_sq (by norm_num)]
    norm_num
  · have f := P.fits t
    obtain ⟨f1, f2, -⟩ := along_append.1 f
    have pos := (World.Live.curScale_pos ((P.keeps.at t).live.window f1 (P.quiet t)).live f2.2.1).ne'
    rw [gr t _ mw, smul_smul, one_div, inv_mul_cancel₀ pos, one_smul, hd, hwd]
    refine h.trans (le_of_eq ?_)
    norm_num
