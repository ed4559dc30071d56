import Verif.Props.Training

/-! C95: training with momentum. -/

set_option linter.unusedSectionVars false
open Matrix Construct Filter Topology

namespace Roll
variable {n k : ℕ}

/-- the entries of `M` in the coordinates of the factors -/
noncomputable def coord (C : Matrix (Fin n) (Fin n) ℝ) (K : Matrix (Fin k) (Fin k) ℝ) (M : Matrix (Fin n) (Fin k) ℝ) : Matrix (Fin n) (Fin k) ℝ := C⁻¹ * M * (K⁻¹)ᵀ

theorem unit {q κ : ℝ} {K : Matrix (Fin n) (Fin n) ℝ} (h : Band.Within q κ K) : IsUnit K.det := by
  rw [← Matrix.isUnit_iff_isUnit_det, ← Matrix.mulVec_injective_iff_isUnit]
  intro x y hxy
  have hz : K *ᵥ (x - y) = 0 := by rw [mulVec_sub]; exact sub_eq_zero.2 hxy
  have := (h (x - y)).2
  rw [hz, dotProduct_zero, mul_zero] at this
  exact sub_eq_zero.1 (dotProduct_self_eq_zero.1 (le_antisymm this (Band.sq_nonneg _)))

theorem coord_back {C : Matrix (Fin n) (Fin n) ℝ} {K : Matrix (Fin k) (Fin k) ℝ} (hC : IsUnit C.det) (hK : IsUnit K.det) (M : Matrix (Fin n) (Fin k) ℝ) :
    C * coord C K M * Kᵀ = M := by
  have e : (K⁻¹)ᵀ * Kᵀ = 1 := by rw [← transpose_mul, Matrix.mul_nonsing_inv _ hK, transpose_one]
  rw [coord, Matrix.mul_assoc, Matrix.mul_assoc, e, Matrix.mul_one, ← Matrix.mul_assoc, Matrix.mul_nonsing_inv _ hC, Matrix.one_mul]

theorem coord_direction {C : Matrix (Fin n) (Fin n) ℝ} {K : Matrix (Fin k) (Fin k) ℝ} (hC : IsUnit C.det) (hK : IsUnit K.det) (G : Matrix (Fin n) (Fin k) ℝ) :
    coord C K (C * Cᵀ * G * (K * Kᵀ)) = Cᵀ * G * K := by
  have e : Kᵀ * (K⁻¹)ᵀ = 1 := by rw [← transpose_mul, Matrix.nonsing_inv_mul _ hK, transpose_one]
  have e' : C⁻¹ * (C * Cᵀ * G * (K * Kᵀ)) * (K⁻¹)ᵀ = (C⁻¹ * C) * (Cᵀ * G * K) * (Kᵀ * (K⁻¹)ᵀ) := by simp only [Matrix.mul_assoc]
  rw [coord, e', Matrix.nonsing_inv_mul _ hC, e, Matrix.one_mul, Matrix.mul_one]

theorem coord_add (C : Matrix (Fin n) (Fin n) ℝ) (K : Matrix (Fin k) (Fin k) ℝ) (μ : ℝ) (M N : Matrix (Fin n) (Fin k) ℝ) :
    coord C K (μ • M + N) = μ • coord C K M + coord C K N := by
  rw [coord, Matrix.mul_add, Matrix.add_mul, Matrix.mul_smul, Matrix.smul_mul]; rfl

/-- product of a gradient with a matrix -/
theorem inner_coord {C : Matrix (Fin n) (Fin n) ℝ} {K : Matrix (Fin k) (Fin k) ℝ} (hC : IsUnit C.det) (hK : IsUnit K.det) (G M : Matrix (Fin n) (Fin k) ℝ) :
    inner' G M = inner' (Cᵀ * G * K) (coord C K M) := by
  have : inner' G (C * coord C K M * Kᵀ) = inner' (Cᵀ * G * K) (coord C K M) := by
    generalize coord C K M = Z
    rw [inner', inner', Band.inner_trace, Band.inner_trace, ← Matrix.mul_assoc, Matrix.trace_mul_comm]
    simp only [transpose_mul, transpose_transpose, Matrix.mul_assoc]
  rwa [coord_back hC hK] at this

/-- the angle between the gradient and the new buffer -/
theorem angle {C : Matrix (Fin n) (Fin n) ℝ} {K : Matrix (Fin k) (Fin k) ℝ} (hC : IsUnit C.det) (hK : IsUnit K.det) {μ : ℝ} (μ0 : 0 ≤ μ) {G M M' : Matrix (Fin n) (Fin k) ℝ}
    (e : M' = μ • M + C * Cᵀ * G * (K * Kᵀ)) :
    (1 - μ / 2) * Band.fro (coord C K M') - μ / 2 * Band.fro (coord C K M) ≤ inner' G M' ∧
      Band.fro (Cᵀ * G * K) ≤ 2 * Band.fro (coord C K M') + 2 * μ ^ 2 * Band.fro (coord C K M) := by
  have z : Cᵀ * G * K = coord C K M' - μ • coord C K M := by
    rw [e, coord_add, coord_direction hC hK, add_sub_cancel_left]
  rw [inner_coord hC hK, z]
  generalize coord C K M' = X
  generalize coord C K M = Y
  simp only [Band.fro, inner', Finset.mul_sum, ← Finset.sum_sub_distrib, ← Finset.sum_add_distrib]
  refine ⟨Finset.sum_le_sum fun i _ => Finset.sum_le_sum fun j _ => ?_, Finset.sum_le_sum fun i _ => Finset.sum_le_sum fun j _ => ?_⟩
  · rw [Matrix.sub_apply, Matrix.smul_apply, smul_eq_mul]
    nlinarith [mul_nonneg μ0 (sq_nonneg (X i j - Y i j))]
  · rw [Matrix.sub_apply, Matrix.smul_apply, smul_eq_mul]
    nlinarith [sq_nonneg (X i j + μ * Y i j)]

/-- the entries in terms of the coordinates -/
theorem fro_le {q κ : ℝ} {C : Matrix (Fin n) (Fin n) ℝ} {K : Matrix (Fin k) (Fin k) ℝ} (hC : Band.Within q κ C) (hK : Band.Within q κ K) (q0 : 0 < q) (M : Matrix (Fin n) (Fin k) ℝ) :
    q ^ 2 * Band.fro M ≤ Band.fro (coord C K M) := by
  have := Band.precond_le (hC.transpose q0) (hK.transpose q0) q0 (coord C K M)
  rwa [transpose_transpose, coord_back (unit hC) (unit hK)] at this

/-- `|K'⁻¹ x|² ≤ σ |K⁻¹ x|²` -/
def Lag (σ : ℝ) (K K' : Matrix (Fin n) (Fin n) ℝ) : Prop := ∀ x : Fin n → ℝ, ∑ i, (K'⁻¹ *ᵥ x) i ^ 2 ≤ σ * ∑ i, (K⁻¹ *ᵥ x) i ^ 2

theorem Lag.mul {σ : ℝ} {K K' : Matrix (Fin n) (Fin n) ℝ} (h : Lag σ K K') {k : ℕ} (Y : Matrix (Fin n) (Fin k) ℝ) : Band.fro (K'⁻¹ * Y) ≤ σ * Band.fro (K⁻¹ * Y) := by
  have e : ∀ A : Matrix (Fin n) (Fin n) ℝ, ∀ j, (fun i => (A * Y) i j) = A *ᵥ fun i => Y i j := fun A j => rfl
  simp only [Band.fro_cols, e, Finset.mul_sum]
  refine Finset.sum_le_sum fun j _ => ?_
  have := h fun i => Y i j
  rwa [dot_self, dot_self] at this

/-- the coordinates after a change of the factors -/
theorem coord_lag {σ τ : ℝ} (σ0 : 0 ≤ σ) {C C' : Matrix (Fin n) (Fin n) ℝ} {K K' : Matrix (Fin k) (Fin k) ℝ} (hC : Lag σ C C') (hK : Lag τ K K') (M : Matrix (Fin n) (Fin k) ℝ) :
    Band.fro (coord C' K' M) ≤ σ * τ * Band.fro (coord C K M) := by
  have a := hC.mul (M * (K'⁻¹)ᵀ)
  have b := hK.mul (C⁻¹ * M)ᵀ
  have t : ∀ A : Matrix (Fin k) (Fin k) ℝ, Band.fro (A * (C⁻¹ * M)ᵀ) = Band.fro (C⁻¹ * M * Aᵀ) := fun A => by
    rw [← Band.fro_transpose, transpose_mul, transpose_transpose]
  rw [t, t] at b
  rw [← Matrix.mul_assoc, ← Matrix.mul_assoc] at a
  rw [coord, coord, mul_assoc]
  exact a.trans (mul_le_mul_of_nonneg_left b σ0)

theorem Lag.refl (K : Matrix (Fin n) (Fin n) ℝ) : Lag 1 K K := fun x => by rw [one_mul]

theorem Lag.mono {σ τ : ℝ} {K K' : Matrix (Fin n) (Fin n) ℝ} (h : Lag σ K K') (hs : σ ≤ τ) : Lag τ K K' := fun x =>
  (h x).trans (mul_le_mul_of_nonneg_right hs (Finset.sum_nonneg fun _ _ => sq_nonneg _))

/-- a factor after an update whose correction is at least `c` -/
theorem Lag.update {c : ℝ} (c0 : 0 < c) {K F : Matrix (Fin n) (Fin n) ℝ} (hF : ∀ x, c * (x ⬝ᵥ x) ≤ x ⬝ᵥ F *ᵥ x) : Lag (1 / c ^ 2) K (K * F) := by
  have key : ∀ y, c ^ 2 * (y ⬝ᵥ y) ≤ (F *ᵥ y) ⬝ᵥ (F *ᵥ y) := fun y => by
    have h1 := hF y
    have h2 := Band.cauchy y (F *ᵥ y)
    have y0 := Band.sq_nonneg y
    rcases y0.eq_or_lt with e | y1
    · rw [← e, mul_zero]; exact Band.sq_nonneg _
    · have h3 : (c * (y ⬝ᵥ y)) ^ 2 ≤ (y ⬝ᵥ F *ᵥ y) ^ 2 := pow_le_pow_left₀ (mul_nonneg c0.le y0) h1 2
      have h4 := h3.trans h2
      have h5 : (y ⬝ᵥ y) * (c ^ 2 * (y ⬝ᵥ y)) ≤ (y ⬝ᵥ y) * ((F *ᵥ y) ⬝ᵥ (F *ᵥ y)) := by nlinarith
      exact le_of_mul_le_mul_left h5 y1
  have uF : IsUnit F.det := by
    rw [← Matrix.isUnit_iff_isUnit_det, ← Matrix.mulVec_injective_iff_isUnit]
    intro x y hxy
    have hz : F *ᵥ (x - y) = 0 := by rw [mulVec_sub]; exact sub_eq_zero.2 hxy
    have := key (x - y)
    rw [hz, dotProduct_zero] at this
    have h0 : (x - y) ⬝ᵥ (x - y) ≤ 0 := by
      by_contra hc
      push Not at hc
      have := mul_pos (pow_pos c0 2) hc
      linarith
    exact sub_eq_zero.1 (dotProduct_self_eq_zero.1 (le_antisymm h0 (Band.sq_nonneg _)))
  intro x
  rw [dot_self, dot_self, Matrix.mul_inv_rev, ← mulVec_mulVec]
  have := key (F⁻¹ *ᵥ (K⁻¹ *ᵥ x))
  have e : F *ᵥ (F⁻¹ *ᵥ (K⁻¹ *ᵥ x)) = K⁻¹ *ᵥ x := by rw [mulVec_mulVec, Matrix.mul_nonsing_inv _ uF, one_mulVec]
  rw [e] at this
  rw [one_div, ← div_eq_inv_mul, le_div_iff₀ (pow_pos c0 2), mul_comm]
  exact this

end Roll

/-- the momentum buffers of a layer: that of the weight and, if there is one, that of the bias as last column; a missing buffer counts as zero -/
def bufM (w : World ℝ) (m : Layer) : Matrix (Fin m.nC) (Fin m.nK) ℝ := fun i j =>
  if j.1 < m.din then ((w.opt.mom m.weight.ptr).map fun B => B.get i j).getD 0 else (m.bias.map fun b => ((w.opt.mom b.ptr).map fun B => B.get i 0).getD 0).getD 0

/-- Training of all layers in rounds with momentum: between steps only forward and backward passes and assignments of gradients and of the scale; the gradients are
those of the loss times the current scale; positive momentum, no weight decay. `h` gives the hyper-parameters of the layers. -/
structure Rolling (cl : String → Cls × Cls) (h : Layer → Hyper ℝ) (ops : ℕ → List (Op ℝ)) (attr : ℕ → Option ℝ) (w : World ℝ) (f : (ℕ → Mat ℝ) → ℝ)
    (g : (ℕ → Mat ℝ) → (m : Layer) → Matrix (Fin m.nC) (Fin m.nK) ℝ) (L : ℝ) : Prop where
  live : w.Live cl
  fits : ∀ t, FitsRun (w.rounds ops attr t) (ops t ++ [.step false (attr t) false])
  quiet : ∀ t, ∀ op ∈ ops t, op.Quiet
  hyper : ∀ m ∈ w.opt.layers, w.opt.hyperOf m = .ok (h m)
  smooth : Smooth w.opt.layers f g L
  grads : ∀ t, ∀ m ∈ w.opt.layers, gradM (run (ops t) (w.rounds ops attr t)) m = (run (ops t) (w.rounds ops attr t)).curScale (attr t) • g (w.rounds ops attr t).data m
  momentum : ∀ m ∈ w.opt.layers, 0 < (h m).momentum
  decay : ∀ m ∈ w.opt.layers, (h m).weightDecay = 0

/-- what a step with momentum does to weight and bias together -/
theorem bufM_step {hy : Hyper ℝ} {m : Layer} {N : Matrix (Fin m.nC) (Fin m.nK) ℝ} {v v' : World ℝ} (A : World.ApplySpec hy m N v v') (m0 : hy.momentum ≠ 0)
    (d0 : hy.weightDecay = 0) : bufM v' m = hy.momentum • bufM v m + N ∧ paramM v'.data m - paramM v.data m = -(hy.lr • bufM v' m) := by
  have key : ∀ i j, bufM v' m i j = hy.momentum * bufM v m i j + N i j ∧ paramM v'.data m i j = paramM v.data m i j - hy.lr * bufM v' m i j := by
    intro i j
    simp only [paramM, bufM]
    have conv : ∀ (x : Option (Mat ℝ)) {r c : ℕ} (i : Fin r) (j : Fin c), momO x r c i j = (x.map fun B => B.get i j).getD 0 := by
      intro x r c i j
      cases x <;> rfl
    by_cases hj : j.1 < m.din
    · simp only [if_pos hj]
      have e1 := (A.weight.mom1 m0).2
      have e2 := A.weight.data
      rw [← e1] at e2
      rw [d0, zero_smul, add_zero] at e1
      have b1 : momO (v'.opt.mom m.weight.ptr) m.dout m.din i ⟨j.1, hj⟩ = hy.momentum * momO (v.opt.mom m.weight.ptr) m.dout m.din i ⟨j.1, hj⟩ + N i j :=
        congrFun (congrFun e1 i) ⟨j.1, hj⟩
      have b2 : (v'.data m.weight.ptr).get i j = (v.data m.weight.ptr).get i j - hy.lr * momO (v'.opt.mom m.weight.ptr) m.dout m.din i ⟨j.1, hj⟩ :=
        congrFun (congrFun e2 i) ⟨j.1, hj⟩
      have c1 := conv (v'.opt.mom m.weight.ptr) (r := m.dout) (c := m.din) i ⟨j.1, hj⟩
      have c2 := conv (v.opt.mom m.weight.ptr) (r := m.dout) (c := m.din) i ⟨j.1, hj⟩
      exact ⟨c1.symm.trans (b1.trans (congrArg (fun z => hy.momentum * z + N i j) c2)), b2.trans (congrArg (fun z => (v.data m.weight.ptr).get i j - hy.lr * z) c1)⟩
    · simp only [if_neg hj]
      cases hb : m.bias with
      | none =>
        have := j.2
        simp [Layer.nK, hb] at this
        omega
      | some b =>
        have e1 := ((A.bias b hb).mom1 m0).2
        have e2 := (A.bias b hb).data
        rw [← e1] at e2
        rw [d0, zero_smul, add_zero] at e1
        have ej : (⟨m.din, by simp [Layer.nK, hb]⟩ : Fin m.nK) = j := Fin.ext (by
          have := j.2
          simp [Layer.nK, hb] at this
          show m.din = j.1
          omega)
        have b1 : momO (v'.opt.mom b.ptr) m.dout 1 i 0 = hy.momentum * momO (v.opt.mom b.ptr) m.dout 1 i 0 + N i ⟨m.din, by simp [Layer.nK, hb]⟩ := congrFun (congrFun e1 i) 0
        have b2 : (v'.data b.ptr).get i 0 = (v.data b.ptr).get i 0 - hy.lr * momO (v'.opt.mom b.ptr) m.dout 1 i 0 := congrFun (congrFun e2 i) 0
        rw [ej] at b1
        have c1 := conv (v'.opt.mom b.ptr) (r := m.dout) (c := 1) i 0
        have c2 := conv (v.opt.mom b.ptr) (r := m.dout) (c := 1) i 0
        exact ⟨c1.symm.trans (b1.trans (congrArg (fun z => hy.momentum * z + N i j) c2)), b2.trans (congrArg (fun z => (v.data b.ptr).get i 0 - hy.lr * z) c1)⟩
  constructor
  · funext i j
    rw [(key i j).1]; rfl
  · funext i j
    rw [Matrix.sub_apply, Matrix.neg_apply, Matrix.smul_apply, smul_eq_mul, (key i j).2]; ring

section
variable {cl : String → Cls × Cls} {h : Layer → Hyper ℝ} {ops : ℕ → List (Op ℝ)} {attr : ℕ → Option ℝ} {w : World ℝ} {f : (ℕ → Mat ℝ) → ℝ}
  {g : (ℕ → Mat ℝ) → (m : Layer) → Matrix (Fin m.nC) (Fin m.nK) ℝ} {L : ℝ}

/-- one round -/
theorem Rolling.round (R : Rolling cl h ops attr w f g L) (hp : ∀ m ∈ w.opt.layers, (cl m.name).1.Plain ∧ (cl m.name).2.Plain) {t : ℕ}
    (B : Noisy.At w (w.rounds ops attr t) cl h) : Noisy.At w (w.rounds ops attr (t + 1)) cl h ∧
    (∀ m ∈ w.opt.layers, bufM (w.rounds ops attr (t + 1)) m =
        (h m).momentum • bufM (w.rounds ops attr t) m + direction (w.rounds ops attr (t + 1)) m (g (w.rounds ops attr t).data m) ∧
      paramM (w.rounds ops attr (t + 1)).data m - paramM (w.rounds ops attr t).data m = -((h m).lr • bufM (w.rounds ops attr (t + 1)) m)) ∧
    (∀ p, (∀ m ∈ w.opt.layers, ¬ World.Owns m p) → (w.rounds ops attr (t + 1)).data p = (w.rounds ops attr t).data p) ∧
    ∀ p, ((w.rounds ops attr (t + 1)).data p).rows = ((w.rounds ops attr t).data p).rows ∧ ((w.rounds ops attr (t + 1)).data p).cols = ((w.rounds ops attr t).data p).cols := by
  have gr := R.grads t
  generalize hv : w.rounds ops attr t = v at B gr ⊢
  have fi := R.fits t
  rw [hv] at fi
  obtain ⟨f1, f2, -⟩ := along_append.1 fi
  have W := B.live.window f1 (R.quiet t)
  obtain ⟨v', e, sp, lv'⟩ := W.live.step f2
  have er : w.rounds ops attr (t + 1) = v' := by
    rw [World.rounds, hv, run_append, run_cons, e]; rfl
  rw [er]
  have hl : (run (ops t) v).opt.layers = w.opt.layers := by rw [W.layers, B.layers]
  have hh : ∀ m ∈ w.opt.layers, (run (ops t) v).opt.hyperOf m = .ok (h m) := fun m hm => by rw [W.hyperOf]; exact B.hyper m hm
  have pos : (run (ops t) v).curScale (attr t) ≠ 0 := by
    refine (World.Live.curScale_pos W.live f2.2.1).ne'
  refine ⟨⟨lv', by rw [sp.layers, hl], fun m hm => ?_⟩, fun m hm => ?_, fun p hp' => ?_, fun p => ?_⟩
  · have : v'.opt.hyperOf m = (run (ops t) v).opt.hyperOf m := by unfold Opt.hyperOf; rw [sp.ptrGroup, sp.groups]
    rw [this]; exact hh m hm
  · have S := sp.layer m (by rw [hl]; exact hm) _ (hh m hm)
    have := bufM_step S.apply (R.momentum m hm).ne' (R.decay m hm)
    have eb : bufM (run (ops t) v) m = bufM v m := by unfold bufM; rw [W.mom]
    rw [W.data, eb] at this
    refine ⟨this.1.trans ?_, this.2⟩
    rw [natDir, gram_plain (hp m hm).1, gram_plain (hp m hm).2, gr m hm]
    congr 1
    rw [direction, Matrix.mul_smul, Matrix.smul_mul, smul_smul, one_div, inv_mul_cancel₀ pos, one_smul, transpose_mul, transpose_transpose]
  · have := (sp.otherP p (by rw [hl]; exact hp')).1
    rw [this, W.data]
  · by_cases hp' : ∀ m ∈ w.opt.layers, ¬ World.Owns m p
    · rw [(sp.otherP p (by rw [hl]; exact hp')).1, W.data]; exact ⟨rfl, rfl⟩
    · push Not at hp'
      obtain ⟨m, hm, ow⟩ := hp'
      have s1 := B.live.sound.shape m (by rw [B.layers]; exact hm)
      have s2 := lv'.sound.shape m (by rw [sp.layers, hl]; exact hm)
      rcases ow with rfl | ⟨b, hb, rfl⟩
      · have a := s1.weight.data
        have b := s2.weight.data
        exact ⟨b.1.trans a.1.symm, b.2.trans a.2.symm⟩
      · have a := (s1.bias b hb).1.data
        have b := (s2.bias b hb).1.data
        exact ⟨b.1.trans a.1.symm, b.2.trans a.2.symm⟩

theorem Rolling.at (R : Rolling cl h ops attr w f g L) (hp : ∀ m ∈ w.opt.layers, (cl m.name).1.Plain ∧ (cl m.name).2.Plain) :
    ∀ t, Noisy.At w (w.rounds ops attr t) cl h
  | 0 => ⟨R.live, rfl, R.hyper⟩
  | t + 1 => (R.round hp (R.at hp t)).1

/-- the squared length of the buffers of a layer, measured by the inverses of the factors -/
noncomputable def energy (v : World ℝ) (m : Layer) : ℝ := sumSq ((denO (v.opt.Cs m.name) m.nC)⁻¹ * bufM v m * ((denO (v.opt.Ks m.name) m.nK)⁻¹)ᵀ)

/-- between rounds `t` and `t + 1`, the inverses of the factors grow at most by `σ` (of squared lengths) -/
def Lags (σ : Layer → ℝ) (ops : ℕ → List (Op ℝ)) (attr : ℕ → Option ℝ) (w : World ℝ) (t : ℕ) : Prop := ∀ m ∈ w.opt.layers,
  Roll.Lag (σ m) (denO ((w.rounds ops attr t).opt.Ks m.name) m.nK) (denO ((w.rounds ops attr (t + 1)).opt.Ks m.name) m.nK) ∧
  Roll.Lag (σ m) (denO ((w.rounds ops attr t).opt.Cs m.name) m.nC) (denO ((w.rounds ops attr (t + 1)).opt.Cs m.name) m.nC)

/-- the buffers, the parameters and the gradient of a layer in one round -/
theorem Rolling.layer (R : Rolling cl h ops attr w f g L) (hp : ∀ m ∈ w.opt.layers, (cl m.name).1.Plain ∧ (cl m.name).2.Plain) {t : ℕ} {m : Layer} (hm : m ∈ w.opt.layers)
    {q κ σ : ℝ} (q0 : 0 < q) (κ0 : 0 ≤ κ) (σ0 : 0 ≤ σ) (sK : Singular q κ (denO ((w.rounds ops attr (t + 1)).opt.Ks m.name) m.nK))
    (sC : Singular q κ (denO ((w.rounds ops attr (t + 1)).opt.Cs m.name) m.nC))
    (lK : Roll.Lag σ (denO ((w.rounds ops attr t).opt.Ks m.name) m.nK) (denO ((w.rounds ops attr (t + 1)).opt.Ks m.name) m.nK))
    (lC : Roll.Lag σ (denO ((w.rounds ops attr t).opt.Cs m.name) m.nC) (denO ((w.rounds ops attr (t + 1)).opt.Cs m.name) m.nC)) :
    (1 - (h m).momentum / 2) * energy (w.rounds ops attr (t + 1)) m - (h m).momentum / 2 * (σ ^ 2 * energy (w.rounds ops attr t) m) ≤
      inner' (g (w.rounds ops attr t).data m) (bufM (w.rounds ops attr (t + 1)) m) ∧
    sumSq (g (w.rounds ops attr t).data m) ≤ κ ^ 2 * (2 * energy (w.rounds ops attr (t + 1)) m + 2 * (h m).momentum ^ 2 * (σ ^ 2 * energy (w.rounds ops attr t) m)) ∧
    q ^ 2 * sumSq (bufM (w.rounds ops attr (t + 1)) m) ≤ energy (w.rounds ops attr (t + 1)) m := by
  obtain ⟨-, e, -, -⟩ := R.round hp (R.at hp t)
  obtain ⟨e1, -⟩ := e m hm
  have μ0 := R.momentum m hm
  rw [singular_iff] at sK sC
  have ua := Roll.angle (Roll.unit sC) (Roll.unit sK) μ0.le (G := g (w.rounds ops attr t).data m) e1
  have ub := Roll.coord_lag σ0 lC lK (bufM (w.rounds ops attr t) m)
  have uc := Roll.fro_le sC sK q0 (bufM (w.rounds ops attr (t + 1)) m)
  have ud := (Band.precond sC sK q0 κ0 (g (w.rounds ops attr t).data m)).2.2
  rw [← sq] at ub
  refine ⟨le_trans ?_ ua.1, ud.trans (mul_le_mul_of_nonneg_left (ua.2.trans ?_) (by positivity)), uc⟩
  · have := mul_le_mul_of_nonneg_left ub (by linarith : 0 ≤ (h m).momentum / 2)
    exact sub_le_sub_left this _
  · have := mul_le_mul_of_nonneg_left ub (by positivity : 0 ≤ 2 * (h m).momentum ^ 2)
    exact add_le_add_right this _

/-- **C95 (energy).** A step with momentum (and without weight decay) and the gradient of an `L`-smooth loss, by any update rule, with any structure but the
block-diagonal ones. If after the step the squared singular values of the factors of each layer are between `1/κ` and `1/q`, and the step increased the inverses of
the factors at most by `σ`, then the loss plus the energy of the buffers - half the learning rate times the momentum times `σ²` times the squared length of the
buffers in the coordinates of the factors - drops by at least `lr/2 (2 - momentum (1 + σ²) - L lr / q²)` times the squared length of the new buffers. -/
theorem C95_energy (R : Rolling cl h ops attr w f g L) (hp : ∀ m ∈ w.opt.layers, (cl m.name).1.Plain ∧ (cl m.name).2.Plain) (L0 : 0 ≤ L) (q κ σ : Layer → ℝ)
    (hq : ∀ m ∈ w.opt.layers, 0 < q m ∧ 0 ≤ κ m ∧ 0 ≤ σ m ∧ 0 ≤ (h m).lr) (t : ℕ) (hσ : Lags σ ops attr w t)
    (hS : ∀ m ∈ w.opt.layers, Singular (q m) (κ m) (denO ((w.rounds ops attr (t + 1)).opt.Ks m.name) m.nK) ∧
      Singular (q m) (κ m) (denO ((w.rounds ops attr (t + 1)).opt.Cs m.name) m.nC)) :
    f (w.rounds ops attr (t + 1)).data + (w.opt.layers.map fun m => (h m).lr / 2 * (h m).momentum * σ m ^ 2 * energy (w.rounds ops attr (t + 1)) m).sum +
        (w.opt.layers.map fun m => (h m).lr / 2 * (2 - (h m).momentum * (1 + σ m ^ 2) - L * (h m).lr / q m ^ 2) * energy (w.rounds ops attr (t + 1)) m).sum ≤
      f (w.rounds ops attr t).data + (w.opt.layers.map fun m => (h m).lr / 2 * (h m).momentum * σ m ^ 2 * energy (w.rounds ops attr t) m).sum := by
  obtain ⟨-, e1, e2, e3⟩ := R.round hp (R.at hp t)
  have s := R.smooth _ _ e2 e3
  have key : (w.opt.layers.map fun m => inner' (g (w.rounds ops attr t).data m) (paramM (w.rounds ops attr (t + 1)).data m - paramM (w.rounds ops attr t).data m)).sum +
      L / 2 * (w.opt.layers.map fun m => sumSq (paramM (w.rounds ops attr (t + 1)).data m - paramM (w.rounds ops attr t).data m)).sum +
      (w.opt.layers.map fun m => (h m).lr / 2 * (h m).momentum * σ m ^ 2 * energy (w.rounds ops attr (t + 1)) m).sum +
      (w.opt.layers.map fun m => (h m).lr / 2 * (2 - (h m).momentum * (1 + σ m ^ 2) - L * (h m).lr / q m ^ 2) * energy (w.rounds ops attr (t + 1)) m).sum ≤
      (w.opt.layers.map fun m => (h m).lr / 2 * (h m).momentum * σ m ^ 2 * energy (w.rounds ops attr t) m).sum := by
    rw [← List.sum_map_mul_left, ← List.sum_map_add, ← List.sum_map_add, ← List.sum_map_add]
    refine List.sum_le_sum fun m hm => ?_
    obtain ⟨q0, κ0, σ0, l0⟩ := hq m hm
    obtain ⟨a1, -, a3⟩ := R.layer hp hm q0 κ0 σ0 (hS m hm).1 (hS m hm).2 (hσ m hm).1 (hσ m hm).2
    rw [(e1 m hm).2]
    have i1 : ∀ G M : Matrix (Fin m.nC) (Fin m.nK) ℝ, inner' G (-((h m).lr • M)) = -((h m).lr * inner' G M) := fun G M => by
      rw [inner', inner', Finset.mul_sum, ← Finset.sum_neg_distrib]
      refine Finset.sum_congr rfl fun i _ => ?_
      rw [Finset.mul_sum, ← Finset.sum_neg_distrib]
      refine Finset.sum_congr rfl fun j _ => ?_
      rw [Matrix.neg_apply, Matrix.smul_apply, smul_eq_mul]; ring
    have i2 : ∀ M : Matrix (Fin m.nC) (Fin m.nK) ℝ, sumSq (-((h m).lr • M)) = (h m).lr ^ 2 * sumSq M := fun M => by
      rw [sumSq, sumSq, Finset.mul_sum]
      refine Finset.sum_congr rfl fun i _ => ?_
      rw [Finset.mul_sum]
      refine Finset.sum_congr rfl fun j _ => ?_
      rw [Matrix.neg_apply, Matrix.smul_apply, smul_eq_mul]; ring
    rw [i1, i2]
    generalize inner' (g (w.rounds ops attr t).data m) (bufM (w.rounds ops attr (t + 1)) m) = I at *
    generalize sumSq (bufM (w.rounds ops attr (t + 1)) m) = D at *
    generalize energy (w.rounds ops attr (t + 1)) m = E' at *
    generalize energy (w.rounds ops attr t) m = E at *
    have b1 := mul_le_mul_of_nonneg_left a1 l0
    have b2 : L / 2 * ((h m).lr ^ 2 * D) ≤ (h m).lr / 2 * (L * (h m).lr / q m ^ 2) * E' := by
      have c : D ≤ E' / q m ^ 2 := by rw [le_div_iff₀ (by positivity), mul_comm]; exact a3
      have := mul_le_mul_of_nonneg_left c (by positivity : 0 ≤ L / 2 * (h m).lr ^ 2)
      calc L / 2 * ((h m).lr ^ 2 * D) = L / 2 * (h m).lr ^ 2 * D := by ring
        _ ≤ _ := this
        _ = _ := by ring
    nlinarith
  linarith

/-- the weighted energies of all rounds -/
theorem C95_sum (R : Rolling cl h ops attr w f g L) (hp : ∀ m ∈ w.opt.layers, (cl m.name).1.Plain ∧ (cl m.name).2.Plain) (L0 : 0 ≤ L) (q κ σ : Layer → ℝ)
    (hq : ∀ m ∈ w.opt.layers, 0 < q m ∧ 0 ≤ κ m ∧ 0 ≤ σ m ∧ 0 ≤ (h m).lr) (hσ : ∀ t, Lags σ ops attr w t) (hS : Bounded q κ ops attr w) (N : ℕ) :
    f (w.rounds ops attr N).data + (w.opt.layers.map fun m => (h m).lr / 2 * (h m).momentum * σ m ^ 2 * energy (w.rounds ops attr N) m).sum +
        ∑ t ∈ Finset.range N, (w.opt.layers.map fun m => (h m).lr / 2 * (2 - (h m).momentum * (1 + σ m ^ 2) - L * (h m).lr / q m ^ 2) * energy (w.rounds ops attr (t + 1)) m).sum ≤
      f w.data + (w.opt.layers.map fun m => (h m).lr / 2 * (h m).momentum * σ m ^ 2 * energy w m).sum := by
  induction N with
  | zero => rw [Finset.sum_range_zero, add_zero, World.rounds]
  | succ N ih =>
    rw [Finset.sum_range_succ]
    have := C95_energy R hp L0 q κ σ hq N (hσ N) (hS (N + 1))
    linarith

/-- **C95 (gradients).** If the factors stay within their bounds, their inverses grow at most by `σ` per round, `momentum (1 + σ²) + L lr / q² < 2`, and the loss is bounded
below along the training, then all entries of the gradient of the loss and of the momentum buffers tend to zero. -/
theorem C95_gradients (R : Rolling cl h ops attr w f g L) (hp : ∀ m ∈ w.opt.layers, (cl m.name).1.Plain ∧ (cl m.name).2.Plain) (L0 : 0 ≤ L) (q κ σ : Layer → ℝ)
    (hq : ∀ m ∈ w.opt.layers, 0 < q m ∧ 0 ≤ κ m ∧ 0 ≤ σ m ∧ 0 < (h m).lr ∧ (h m).momentum * (1 + σ m ^ 2) + L * (h m).lr / q m ^ 2 < 2)
    (hσ : ∀ t, Lags σ ops attr w t) (hS : Bounded q κ ops attr w) {fs : ℝ} (hf : ∀ t, fs ≤ f (w.rounds ops attr t).data) : ∀ m ∈ w.opt.layers, ∀ i j,
    Tendsto (fun t => g (w.rounds ops attr t).data m i j) atTop (𝓝 0) ∧ Tendsto (fun t => bufM (w.rounds ops attr t) m i j) atTop (𝓝 0) := by
  intro m hm i j
  have hq' : ∀ m ∈ w.opt.layers, 0 < q m ∧ 0 ≤ κ m ∧ 0 ≤ σ m ∧ 0 ≤ (h m).lr := fun m hm => ⟨(hq m hm).1, (hq m hm).2.1, (hq m hm).2.2.1, (hq m hm).2.2.2.1.le⟩
  have E0 : ∀ v m', 0 ≤ energy v m' := fun v m' => Band.fro_nonneg _
  obtain ⟨c, hc⟩ : ∃ c : Layer → ℝ, ∀ m, c m = (h m).lr / 2 * (2 - (h m).momentum * (1 + σ m ^ 2) - L * (h m).lr / q m ^ 2) := ⟨_, fun m => rfl⟩
  have c0 : ∀ m ∈ w.opt.layers, 0 < c m := fun m hm => by
    obtain ⟨-, -, -, l0, lt⟩ := hq m hm
    rw [hc]; exact mul_pos (by linarith) (by linarith)
  have nn : ∀ t, 0 ≤ (w.opt.layers.map fun m => c m * energy (w.rounds ops attr (t + 1)) m).sum := fun t => by
    refine List.sum_nonneg fun x hx => ?_
    obtain ⟨m, hm, rfl⟩ := List.mem_map.1 hx
    exact mul_nonneg (c0 m hm).le (E0 _ _)
  have su : Summable fun t => (w.opt.layers.map fun m => c m * energy (w.rounds ops attr (t + 1)) m).sum := by
    refine summable_of_sum_range_le (c := f w.data + (w.opt.layers.map fun m => (h m).lr / 2 * (h m).momentum * σ m ^ 2 * energy w m).sum - fs) nn fun N => ?_
    have := C95_sum R hp L0 q κ σ hq' hσ hS N
    simp only [← hc] at this
    have p : 0 ≤ (w.opt.layers.map fun m => (h m).lr / 2 * (h m).momentum * σ m ^ 2 * energy (w.rounds ops attr N) m).sum := by
      refine List.sum_nonneg fun x hx => ?_
      obtain ⟨m, hm, rfl⟩ := List.mem_map.1 hx
      have := (hq' m hm).2.2.2
      have := (R.momentum m hm).le
      exact mul_nonneg (by positivity) (E0 _ _)
    linarith [hf N]
  have zE : Tendsto (fun t => energy (w.rounds ops attr t) m) atTop (𝓝 0) := by
    refine (tendsto_add_atTop_iff_nat 1).1 ?_
    have z' := su.tendsto_atTop_zero.const_mul (c m)⁻¹
    rw [mul_zero] at z'
    refine squeeze_zero (fun t => E0 _ _) (fun t => ?_) z'
    have a : c m * energy (w.rounds ops attr (t + 1)) m ≤ (w.opt.layers.map fun m => c m * energy (w.rounds ops attr (t + 1)) m).sum := by
      refine List.single_le_sum (l := w.opt.layers.map fun m => c m * energy (w.rounds ops attr (t + 1)) m) (fun x hx => ?_) _
        (List.mem_map_of_mem (f := fun m => c m * energy (w.rounds ops attr (t + 1)) m) hm)
      obtain ⟨m, hm, rfl⟩ := List.mem_map.1 hx
      exact mul_nonneg (c0 m hm).le (E0 _ _)
    rw [inv_mul_eq_div, le_div_iff₀ (c0 m hm), mul_comm]
    exact a
  have zE1 := (tendsto_add_atTop_iff_nat 1).2 zE
  have root : ∀ x : ℕ → ℝ, Tendsto (fun t => x t ^ 2) atTop (𝓝 0) → Tendsto x atTop (𝓝 0) := fun x hx => by
    have := (Real.continuous_sqrt.tendsto 0).comp hx
    rw [Real.sqrt_zero] at this
    refine (tendsto_zero_iff_abs_tendsto_zero _).2 ?_
    refine this.congr fun t => ?_
    show Real.sqrt _ = |_|
    rw [Real.sqrt_sq_eq_abs]
  have entry : ∀ A : Matrix (Fin m.nC) (Fin m.nK) ℝ, A i j ^ 2 ≤ sumSq A := fun A => by
    have r1 := Finset.single_le_sum (f := fun i => ∑ j, A i j ^ 2) (fun i _ => Finset.sum_nonneg fun j _ => sq_nonneg _) (Finset.mem_univ i)
    have r2 := Finset.single_le_sum (f := fun j => A i j ^ 2) (fun j _ => sq_nonneg _) (Finset.mem_univ j)
    exact r2.trans r1
  obtain ⟨q0, κ0, σ0, l0⟩ := hq' m hm
  have lay := fun t => R.layer hp hm q0 κ0 σ0 (hS (t + 1) m hm).1 (hS (t + 1) m hm).2 (hσ t m hm).1 (hσ t m hm).2
  constructor
  · refine root _ ?_
    have u : Tendsto (fun t => κ m ^ 2 * (2 * energy (w.rounds ops attr (t + 1)) m + 2 * (h m).momentum ^ 2 * (σ m ^ 2 * energy (w.rounds ops attr t) m))) atTop (𝓝 0) := by
      have := ((zE1.const_mul 2).add ((zE.const_mul (σ m ^ 2)).const_mul (2 * (h m).momentum ^ 2))).const_mul (κ m ^ 2)
      simpa using this
    exact squeeze_zero (fun t => sq_nonneg _) (fun t => (entry _).trans (lay t).2.1) u
  · refine root _ ((tendsto_add_atTop_iff_nat 1).1 ?_)
    have u : Tendsto (fun t => (q m ^ 2)⁻¹ * energy (w.rounds ops attr (t + 1)) m) atTop (𝓝 0) := by
      have := zE1.const_mul (q m ^ 2)⁻¹
      simpa using this
    refine squeeze_zero (fun t => sq_nonneg _) (fun t => (entry _).trans ?_) u
    rw [inv_mul_eq_div, le_div_iff₀ (by positivity), mul_comm]
    exact (lay t).2.2

/-- a run of a factor as in C93: its inverse grows at most by `1 / (1 - z)²` per round -/
theorem Suits.lag {n : ℕ} {q κ z d B β : ℝ} (P : Suits q κ z d B β) {b : ℝ} (b0 : 0 ≤ b) (b1 : b ≤ β) {S K : Matrix (Fin n) (Fin n) ℝ} (hK : Singular q κ K)
    (hi : ∀ x, x ⬝ᵥ S *ᵥ x ≤ (B + d) * (x ⬝ᵥ x)) : Roll.Lag (1 / (1 - z) ^ 2) K (nextFactor b S K) := by
  refine Roll.Lag.update (by linarith [P.z1]) fun x => ?_
  have quad : x ⬝ᵥ (Kᵀ * S * K) *ᵥ x = (K *ᵥ x) ⬝ᵥ S *ᵥ (K *ᵥ x) := by rw [Band.mulVec_dot, ← mulVec_mulVec, ← mulVec_mulVec]
  have e : x ⬝ᵥ (1 - (b / 2) • (Kᵀ * S * K - 1)) *ᵥ x = x ⬝ᵥ x - b / 2 * ((K *ᵥ x) ⬝ᵥ S *ᵥ (K *ᵥ x) - x ⬝ᵥ x) := by
    rw [sub_mulVec, smul_mulVec, sub_mulVec, one_mulVec, dotProduct_sub, dotProduct_smul, dotProduct_sub, quad, smul_eq_mul]
  rw [e]
  have h1 := hi (K *ᵥ x)
  have h2 := ((singular_iff.1 hK) x).1
  have x0 := Band.sq_nonneg x
  have k0 := Band.sq_nonneg (K *ᵥ x)
  have s0 : 0 < B + d := by linarith [P.B0, P.d0]
  have h3 : b / 2 * ((K *ᵥ x) ⬝ᵥ S *ᵥ (K *ᵥ x)) ≤ z * (x ⬝ᵥ x) := by
    have a := mul_le_mul_of_nonneg_left h1 (by linarith : 0 ≤ b / 2)
    have c : b / 2 * (B + d) ≤ z * q := (mul_le_mul_of_nonneg_right (by linarith) s0.le).trans P.rate
    have z0 : 0 ≤ z := by
      have : 0 ≤ z * q := (mul_nonneg (by linarith : 0 ≤ b / 2) s0.le).trans c
      exact nonneg_of_mul_nonneg_left this P.q0
    calc b / 2 * ((K *ᵥ x) ⬝ᵥ S *ᵥ (K *ᵥ x)) ≤ b / 2 * (B + d) * ((K *ᵥ x) ⬝ᵥ (K *ᵥ x)) := by rw [mul_assoc]; exact a
      _ ≤ z * q * ((K *ᵥ x) ⬝ᵥ (K *ᵥ x)) := mul_le_mul_of_nonneg_right c k0
      _ = z * (q * ((K *ᵥ x) ⬝ᵥ (K *ᵥ x))) := by ring
      _ ≤ z * (x ⬝ᵥ x) := mul_le_mul_of_nonneg_left h2 z0
  nlinarith [mul_nonneg b0 x0]

variable {m : Layer} {hy : Hyper ℝ}

/-- **C95 (slow factors).** In the setting of `C93_band`, the inverses of the factors grow in each round at most by `1 / (1 - z)²` of squared lengths, where `z` is half the largest
`lr_cov` times the bound of the damped statistics over `q`. -/
theorem C95_slow (R : Passes cl m hy ops attr w) {q κ z B β : ℝ} (P : Suits q κ z hy.damping B β) (z0 : 0 ≤ z) (hβ : ∀ t, 0 ≤ hy.lrCov.at t ∧ hy.lrCov.at t ≤ β) :
    ((cl m.name).1 = .dense ∨ (cl m.name).1 = .diagonal →
      (∀ t, (w.opt.steps + t) % hy.T = 0 → QuadLe ((fired m.name (ops t) (w.rounds ops attr t)).map fun e => inputMoment hy m e.1).sum B) →
      Singular q κ (denO (w.opt.Ks m.name) m.nK) → ∀ t,
      Roll.Lag (1 / (1 - z) ^ 2) (denO ((w.rounds ops attr t).opt.Ks m.name) m.nK) (denO ((w.rounds ops attr (t + 1)).opt.Ks m.name) m.nK)) ∧
    ((cl m.name).2 = .dense ∨ (cl m.name).2 = .diagonal →
      (∀ t, (w.opt.steps + t) % hy.T = 0 → QuadLe ((1 / (run (ops t) (w.rounds ops attr t)).curScale (attr t) ^ 2) •
        ((fired m.name (ops t) (w.rounds ops attr t)).map fun e => gradMoment hy m e.2).sum) B) →
      Singular q κ (denO (w.opt.Cs m.name) m.nC) → ∀ t,
      Roll.Lag (1 / (1 - z) ^ 2) (denO ((w.rounds ops attr t).opt.Cs m.name) m.nC) (denO ((w.rounds ops attr (t + 1)).opt.Cs m.name) m.nC)) := by
  have one : (1 : ℝ) ≤ 1 / (1 - z) ^ 2 := by
    have := P.z1
    rw [le_div_iff₀ (pow_pos (by linarith) 2)]
    nlinarith
  have C := C93_band R P hβ
  constructor
  · intro hc hU h0 t
    have sg := C.1 hc hU h0 t
    by_cases ht : (w.opt.steps + t) % hy.T = 0
    · obtain ⟨b, e1, e2⟩ := ((R.round (R.between t)).2.2 ht).1 hc _ _ rfl rfl
      obtain ⟨b0, b1⟩ := e1.range (hβ _).1
      rw [e2]
      exact P.lag b0 (b1.trans (hβ _).2) sg (seen_quad _ (hU t ht) _)
    · rw [((R.round (R.between t)).2.1 ht).1]
      exact (Roll.Lag.refl _).mono one
  · intro hc hU h0 t
    have sg := C.2 hc hU h0 t
    by_cases ht : (w.opt.steps + t) % hy.T = 0
    · obtain ⟨b, e1, e2⟩ := ((R.round (R.between t)).2.2 ht).2 hc _ _ rfl rfl
      obtain ⟨b0, b1⟩ := e1.range (hβ _).1
      rw [e2]
      exact P.lag b0 (b1.trans (hβ _).2) sg (seen_quad _ (hU t ht) _)
    · rw [((R.round (R.between t)).2.1 ht).2]
      exact (Roll.Lag.refl _).mono one

/-- **C95 (from construction).** From construction on: `kfac_like` factors, dense or diagonal, without factor momentum and weight decay, damping positive; `lr_cov` at most `β` with
`β (B + damping) ≤ 2 z min(1, damping/2)`, where `B` bounds the second moments of the data of the layer and `z ≤ 1/2`; positive learning rates with
`momentum (1 + 1/(1-z)⁴) + L lr / min(1, damping/2)² < 2`; gradients of an `L`-smooth loss that is bounded below. Then the loss never exceeds its initial value, and the gradients
and the momentum buffers tend to zero. -/
theorem C95_from_construction {structs : String → Option Cls} {model : Model} {p : ParamArg ℝ} {a : Args ℝ} {o : Opt ℝ} {ws : List Warn}
    (hn : (model.layers.map (·.name)).Nodup) (hi : Construct.init structs model p a = .ok (o, ws)) {data : ℕ → Mat ℝ} {grad : ℕ → Option (Mat ℝ)}
    (ht : Trainable o data) (hw : w = ⟨o, data, grad, []⟩) (R : Rolling cl h ops attr w f g L) (P : ∀ m ∈ w.opt.layers, Passes cl m (h m) ops attr w) (L0 : 0 ≤ L)
    (hc : ∀ m ∈ w.opt.layers, ((cl m.name).1 = .dense ∨ (cl m.name).1 = .diagonal) ∧ ((cl m.name).2 = .dense ∨ (cl m.name).2 = .diagonal)) (B β z : Layer → ℝ)
    (d0 : ∀ m ∈ w.opt.layers, 0 < (h m).damping ∧ 0 ≤ B m ∧ z m ≤ 1 / 2 ∧ β m * (B m + (h m).damping) ≤ 2 * z m * min 1 ((h m).damping / 2))
    (hβ : ∀ m ∈ w.opt.layers, ∀ t, 0 ≤ (h m).lrCov.at t ∧ (h m).lrCov.at t ≤ β m)
    (hU : ∀ m ∈ w.opt.layers, ∀ t, (w.opt.steps + t) % (h m).T = 0 →
      QuadLe ((fired m.name (ops t) (w.rounds ops attr t)).map fun e => inputMoment (h m) m e.1).sum (B m) ∧
      QuadLe ((1 / (run (ops t) (w.rounds ops attr t)).curScale (attr t) ^ 2) • ((fired m.name (ops t) (w.rounds ops attr t)).map fun e => gradMoment (h m) m e.2).sum) (B m))
    (hl : ∀ m ∈ w.opt.layers, 0 < (h m).lr ∧ (h m).momentum * (1 + 1 / (1 - z m) ^ 4) + L * (h m).lr / min 1 ((h m).damping / 2) ^ 2 < 2)
    {fs : ℝ} (hf : ∀ t, fs ≤ f (w.rounds ops attr t).data) :
    (∀ t, f (w.rounds ops attr t).data ≤ f w.data) ∧ ∀ m ∈ w.opt.layers, ∀ i j,
      Tendsto (fun t => g (w.rounds ops attr t).data m i j) atTop (𝓝 0) ∧ Tendsto (fun t => bufM (w.rounds ops attr t) m i j) atTop (𝓝 0) := by
  have hp : ∀ m ∈ w.opt.layers, (cl m.name).1.Plain ∧ (cl m.name).2.Plain := by
    intro m hm
    obtain ⟨a, b⟩ := hc m hm
    constructor
    · rcases a with a | a <;> rw [a] <;> intro k <;> simp
    · rcases b with b | b <;> rw [b] <;> intro k <;> simp
  have q0 : ∀ m ∈ w.opt.layers, 0 < min 1 ((h m).damping / 2) := fun m hm => lt_min one_pos (by linarith [(d0 m hm).1])
  have β0 : ∀ m ∈ w.opt.layers, 0 ≤ β m := fun m hm => (hβ m hm 0).1.trans (hβ m hm 0).2
  have z0 : ∀ m ∈ w.opt.layers, 0 ≤ z m := fun m hm => by
    obtain ⟨a, b, -, c⟩ := d0 m hm
    have : 0 ≤ 2 * z m * min 1 ((h m).damping / 2) := (mul_nonneg (β0 m hm) (by linarith)).trans c
    have := nonneg_of_mul_nonneg_left this (q0 m hm)
    linarith
  have st : ∀ m ∈ w.opt.layers, β m * (B m + (h m).damping) ≤ min 1 ((h m).damping / 2) := fun m hm => by
    obtain ⟨a, b, z1, c⟩ := d0 m hm
    nlinarith [q0 m hm]
  have SU : ∀ m ∈ w.opt.layers, Suits (min 1 ((h m).damping / 2)) (max 1 (3 * (B m + (h m).damping))) (z m) (h m).damping (B m) (β m) := fun m hm => by
    obtain ⟨a, b, z1, c⟩ := d0 m hm
    have S := Suits.standard a b (β0 m hm) (st m hm)
    refine ⟨S.q0, S.d0, S.B0, by linarith, by linarith, S.up, ?_⟩
    have z0 := z0 m hm
    have k1 := le_max_right 1 (3 * (B m + (h m).damping))
    have s0 : 0 < B m + (h m).damping := by linarith
    have k2 : 2 * (1 - z m) ^ 2 * (3 * (B m + (h m).damping)) ≤ 2 * (1 - z m) ^ 2 * max 1 (3 * (B m + (h m).damping)) := mul_le_mul_of_nonneg_left k1 (by positivity)
    refine le_trans ?_ k2
    have : 2 - z m ≤ 6 * (1 - z m) ^ 2 := by nlinarith
    nlinarith
  have hS : Bounded (fun m => min 1 ((h m).damping / 2)) (fun m => max 1 (3 * (B m + (h m).damping))) ops attr w := fun t m hm => by
    have C := C93_from_construction hn hi ht hw (P m hm) (d0 m hm).1 (d0 m hm).2.1 (hβ m hm) (st m hm)
    exact ⟨C.1 (hc m hm).1 (fun t ht => (hU m hm t ht).1) t, C.2 (hc m hm).2 (fun t ht => (hU m hm t ht).2) t⟩
  have hσ : ∀ t, Lags (fun m => 1 / (1 - z m) ^ 2) ops attr w t := fun t m hm => by
    have C := C95_slow (P m hm) (SU m hm) (z0 m hm) (hβ m hm)
    have h0 := hS 0 m hm
    exact ⟨C.1 (hc m hm).1 (fun t ht => (hU m hm t ht).1) h0.1 t, C.2 (hc m hm).2 (fun t ht => (hU m hm t ht).2) h0.2 t⟩
  have s2 : ∀ m, (1 / (1 - z m) ^ 2) ^ 2 = 1 / (1 - z m) ^ 4 := fun m => by rw [div_pow, one_pow, ← pow_mul]
  have hq : ∀ m ∈ w.opt.layers, 0 < min 1 ((h m).damping / 2) ∧ 0 ≤ max 1 (3 * (B m + (h m).damping)) ∧ 0 ≤ 1 / (1 - z m) ^ 2 ∧ 0 < (h m).lr ∧
      (h m).momentum * (1 + (1 / (1 - z m) ^ 2) ^ 2) + L * (h m).lr / min 1 ((h m).damping / 2) ^ 2 < 2 :=
    fun m hm => ⟨q0 m hm, le_max_of_le_left zero_le_one, by positivity, (hl m hm).1, by rw [s2]; exact (hl m hm).2⟩
  refine ⟨fun t => ?_, C95_gradients R hp L0 _ _ _ hq hσ hS hf⟩
  have su := C95_sum R hp L0 _ _ _ (fun m hm => ⟨(hq m hm).1, (hq m hm).2.1, (hq m hm).2.2.1, (hq m hm).2.2.2.1.le⟩) hσ hS t
  have e0 : (w.opt.layers.map fun m => (h m).lr / 2 * (h m).momentum * (1 / (1 - z m) ^ 2) ^ 2 * energy w m).sum = 0 := by
    refine List.sum_eq_zero fun x hx => ?_
    obtain ⟨m, -, rfl⟩ := List.mem_map.1 hx
    have b0 : bufM w m = 0 := by
      have : w.opt.mom = fun _ => none := by rw [hw]; exact (init_ok hn hi).mom
      funext i j
      simp only [bufM, this]
      cases m.bias <;> simp
    rw [energy, b0, Matrix.mul_zero, Matrix.zero_mul]
    simp [sumSq]
  have p1 : 0 ≤ (w.opt.layers.map fun m => (h m).lr / 2 * (h m).momentum * (1 / (1 - z m) ^ 2) ^ 2 * energy (w.rounds ops attr t) m).sum := by
    refine List.sum_nonneg fun x hx => ?_
    obtain ⟨m, hm, rfl⟩ := List.mem_map.1 hx
    have := (hl m hm).1.le
    have := (R.momentum m hm).le
    exact mul_nonneg (by positivity) (Band.fro_nonneg _)
  have p2 : 0 ≤ ∑ t ∈ Finset.range t, (w.opt.layers.map fun m => (h m).lr / 2 * (2 - (h m).momentum * (1 + (1 / (1 - z m) ^ 2) ^ 2) - L * (h m).lr / min 1 ((h m).damping / 2) ^ 2) *
      energy (w.rounds ops attr (t + 1)) m).sum := by
    refine Finset.sum_nonneg fun t _ => List.sum_nonneg fun x hx => ?_
    obtain ⟨m, hm, rfl⟩ := List.mem_map.1 hx
    obtain ⟨-, -, -, l0, lt⟩ := hq m hm
    exact mul_nonneg (mul_nonneg (by linarith) (by linarith)) (Band.fro_nonneg _)
  linarith

end

/-- The sample training of C94 with momentum 1/8 meets the hypotheses of `C95_from_construction` with `B = 2`, `z = 3/10`: half the squared weights stay below their initial value,
and weights and buffers tend to zero. -/
example : ∃ (w : World ℝ) (ops : ℕ → List (Op ℝ)), paramM w.data (Sample.lw 2) ⟨0, by decide⟩ ⟨0, by decide⟩ = 1 ∧
    (∀ t, Sample.softLoss (w.rounds ops (fun _ => none) t).data ≤ Sample.softLoss w.data) ∧
    ∀ i j, Tendsto (fun t => paramM (w.rounds ops (fun _ => none) t).data (Sample.lw 2) i j) atTop (𝓝 0) ∧
      Tendsto (fun t => bufM (w.rounds ops (fun _ => none) t) (Sample.lw 2) i j) atTop (𝓝 0) := by
  obtain ⟨o, ws, cl, w, ops, hi, ht, hw, hl, P, hh, sm, gr, hc, hU⟩ := Sample.soft_any (μ := 1 / 8) (ν := 1 / 4) (c := 1 / 10) (δ := 0) (by norm_num) (by norm_num) (by norm_num) le_rfl
  have all : ∀ {Q : Layer → Prop}, Q (Sample.lw 2) → ∀ m ∈ w.opt.layers, Q m := by
    intro Q hQ m hm
    rw [hl] at hm
    obtain rfl := List.mem_singleton.1 hm
    exact hQ
  have hd : (defaults (Sample.softArgs (1 / 8) (1 / 4) (1 / 10) 0) : Hyper ℝ).damping = 1 := rfl
  have hlr : (defaults (Sample.softArgs (1 / 8) (1 / 4) (1 / 10) 0) : Hyper ℝ).lr = 1 / 4 := rfl
  have hmu : (defaults (Sample.softArgs (1 / 8) (1 / 4) (1 / 10) 0) : Hyper ℝ).momentum = 1 / 8 := rfl
  have R : Rolling cl (fun _ => defaults (Sample.softArgs (1 / 8) (1 / 4) (1 / 10) 0)) ops (fun _ => none) w Sample.softLoss paramM 1 :=
    ⟨P.live, P.fits, P.quiet, hh, sm, gr, fun m _ => by rw [hmu]; norm_num, fun m _ => rfl⟩
  have T := C95_from_construction (model := Sample.wideModel 2) (List.nodup_singleton "w") hi ht hw R (all P) zero_le_one
    (all ⟨Or.inl (congrArg Prod.fst hc), Or.inr (congrArg Prod.snd hc)⟩) (fun _ => 2) (fun _ => 1 / 10) (fun _ => 3 / 10)
    (all ⟨by rw [hd]; norm_num, by norm_num, by norm_num, by rw [hd]; norm_num⟩)
    (all fun t => by show 0 ≤ (1 / 10 : ℝ) ∧ (1 / 10 : ℝ) ≤ 1 / 10; norm_num) (all fun t _ => hU t) (all ⟨by rw [hlr]; norm_num, by rw [hlr, hd, hmu]; norm_num⟩) (fs := 0)
    (fun t => mul_nonneg (by norm_num) (Band.fro_nonneg _))
  refine ⟨w, ops, ?_, T.1, T.2 _ (by rw [hl]; simp)⟩
  rw [hw]; rfl
