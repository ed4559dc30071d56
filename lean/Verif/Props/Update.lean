import Verif.Props.Construct

/-! C26, C27, C47, C49, C53: the update rule. -/

set_option linter.unusedSectionVars false
open Construct Matrix
variable {α : Type} [Field α] [LinearOrder α] [IsStrictOrderedRing α] [HasSqrt α]

/-! ### C26 -/

theorem Cls.sandwich_one {c : Cls} (h : ¬ c.IsBlock) {n : ℕ} (A : Matrix (Fin n) (Fin n) α) : c.sandwich A 1 = Aᵀ * A := by
  cases c <;> simp_all [Cls.sandwich, Cls.IsBlock]
theorem Cls.gram_eq {c : Cls} (h : ¬ c.IsBlock) {n : ℕ} (A : Matrix (Fin n) (Fin n) α) : c.gram A = A * Aᵀ := by
  cases c <;> simp_all [Cls.gram, Cls.IsBlock]
theorem Cls.avgTr_sandwich (c : Cls) {n : ℕ} (A : Matrix (Fin n) (Fin n) α) : avgTr (c.sandwich A 1) = (Aᵀ * A).trace / n := by
  unfold avgTr
  cases c <;> simp [Cls.sandwich, Matrix.trace_mul_comm A]

/-- **C26.** A step (all layers ready, non-zero scale `s`, previous scale `p`) of a well-formed optimizer succeeds, and for every
layer whose period divides the step counter and whose factors are not block-diagonal it follows the published rule: with
`K, C, H_K, H_C, m_K, m_C` the matrices before the step, `u = p/s²` un-doing the gradient scaling of `H_C`, and `Π` the
projection `from_dense` onto the structure,

  `m_K' = α₁ m_K + ½σ (u tr(H_C)/d_C H_K + λ tr(CᵀC)/d_C Π(KᵀK) - I)`   and   `K' = K (I - b m_K')`

(for `kfac_like` the traces are replaced by 1 and `u` is not applied to `H_K`), symmetrically for `C`. The rate `b` is `lr_cov` at the
step, for `normalize_lr_cov` divided by `max(1, ‖m'‖∞)`. Full statement: every structure; for block-diagonal ones the code computes
`KKᵀ` in place of `KᵀK`, see `C26_block` and `C26_block_false`. -/
theorem C26_update_rule_partial {cl : String → Cls × Cls} {w : World α} {attr : Option α} {s p : α} (hw : w.Sound cl)
    (hr : ∀ m ∈ w.opt.layers, LayerReady w m) (hp : w.opt.scales ((w.opt.steps : ℤ) - 1) = some p)
    (hs : (w.opt.scales w.opt.steps).getD (attr.getD 1) = s) (hs0 : s ≠ 0) :
    ∃ w', exec (.step false attr false) w = (.ok (), w') ∧
    ∀ m ∈ w.opt.layers, ∀ h, w.opt.hyperOf m = .ok h → h.T ∣ w.opt.steps → ¬ (cl m.name).1.IsBlock → ¬ (cl m.name).2.IsBlock →
    ∀ K C HK HC, K = denO (w.opt.Ks m.name) m.nK → C = denO (w.opt.Cs m.name) m.nC →
      HK = denO (w.opt.HKs m.name) m.nK → HC = denO (w.opt.HCs m.name) m.nC →
    ∀ u σ, u = p / s ^ 2 → σ = (if h.normalize then 1 - h.alpha1 else 1) →
    ∃ mK mC bK bC,
      mK = h.alpha1 • denO (w.opt.mKs m.name) m.nK +
        (1 / 2 * σ) • ((if h.kfacLike then 1 else u * (HC.trace / m.nC)) • HK +
          (h.damping * (if h.kfacLike then 1 else (Cᵀ * C).trace / m.nC)) • (cl m.name).1.proj m.nK (Kᵀ * K) - 1) ∧
      mC = h.alpha1 • denO (w.opt.mCs m.name) m.nC +
        (1 / 2 * σ) • ((if h.kfacLike then u else u * (HK.trace / m.nK)) • HC +
          (h.damping * (if h.kfacLike then 1 else (Kᵀ * K).trace / m.nK)) • (cl m.name).2.proj m.nC (Cᵀ * C) - 1) ∧
      IsRate h w.opt.steps mK bK ∧ IsRate h w.opt.steps mC bC ∧
      denO (w'.opt.Ks m.name) m.nK = K * (1 - bK • mK) ∧ denO (w'.opt.Cs m.name) m.nC = C * (1 - bC • mC) ∧
      (h.alpha1 ≠ 0 → denO (w'.opt.mKs m.name) m.nK = mK ∧ denO (w'.opt.mCs m.name) m.nC = mC) := by
  obtain ⟨w', e, sp⟩ := World.step_spec hw hr hp hs hs0
  refine ⟨w', e, ?_⟩
  rintro m hm h hh hT nK nC K C HK HC rfl rfl rfl rfl u σ rfl rfl
  obtain ⟨mK, mC, bK, bC, e1, e2, e3, e4, e5, e6, e7⟩ := ((sp.layer m hm h hh).upd (Nat.mod_eq_zero_of_dvd hT)).eqs
  refine ⟨mK, mC, bK, bC, ?_, ?_, e4, e5, e6, e7, fun h0 => ⟨(e1 h0).2.2.1, (e1 h0).2.2.2⟩⟩
  · rw [e2, dirK, updDir, Cls.sandwich_one nK, Cls.avgTr_sandwich]; rfl
  · rw [e3, dirC, updDir, Cls.sandwich_one nC, Cls.avgTr_sandwich]; rfl

/-- the hypotheses hold for a state over `ℝ` with a dense `K` and a diagonal `C` -/
example : ∃ (cl : String → Cls × Cls) (w : World ℝ), w.Sound cl ∧ (∀ m ∈ w.opt.layers, LayerReady w m) ∧ w.opt.layers = [Sample.la, Sample.lb] ∧
    w.opt.scales ((w.opt.steps : ℤ) - 1) = some 1 ∧ (w.opt.scales w.opt.steps).getD ((none : Option ℝ).getD 1) = 1 ∧
    ∀ m ∈ w.opt.layers, ∃ h, w.opt.hyperOf m = .ok h ∧ h.T ∣ w.opt.steps := by
  obtain ⟨cl, w, a, b, c, d, e, _, f, g⟩ := Sample.gready (α := ℝ)
  exact ⟨cl, w, a.sound, b, c, d, e, fun m hm => ⟨_, g m hm, by rw [f]; exact dvd_zero _⟩⟩

/-- **C26 for block-diagonal factors**: the rule the code follows has `KKᵀ` in place of `KᵀK`. -/
theorem C26_block {cl : String → Cls × Cls} {w : World α} {attr : Option α} {s p : α} (hw : w.Sound cl)
    (hr : ∀ m ∈ w.opt.layers, LayerReady w m) (hp : w.opt.scales ((w.opt.steps : ℤ) - 1) = some p)
    (hs : (w.opt.scales w.opt.steps).getD (attr.getD 1) = s) (hs0 : s ≠ 0) :
    ∃ w', exec (.step false attr false) w = (.ok (), w') ∧
    ∀ m ∈ w.opt.layers, ∀ h, w.opt.hyperOf m = .ok h → h.T ∣ w.opt.steps → (cl m.name).1.IsBlock →
    ∀ K C HK HC, K = denO (w.opt.Ks m.name) m.nK → C = denO (w.opt.Cs m.name) m.nC →
      HK = denO (w.opt.HKs m.name) m.nK → HC = denO (w.opt.HCs m.name) m.nC →
    ∀ u σ, u = p / s ^ 2 → σ = (if h.normalize then 1 - h.alpha1 else 1) →
    ∃ mK bK,
      mK = h.alpha1 • denO (w.opt.mKs m.name) m.nK +
        (1 / 2 * σ) • ((if h.kfacLike then 1 else u * (HC.trace / m.nC)) • HK +
          (h.damping * (if h.kfacLike then 1 else (Cᵀ * C).trace / m.nC)) • (cl m.name).1.proj m.nK (K * Kᵀ) - 1) ∧
      IsRate h w.opt.steps mK bK ∧ denO (w'.opt.Ks m.name) m.nK = K * (1 - bK • mK) := by
  obtain ⟨w', e, sp⟩ := World.step_spec hw hr hp hs hs0
  refine ⟨w', e, ?_⟩
  rintro m hm h hh hT hb K C HK HC rfl rfl rfl rfl u σ rfl rfl
  obtain ⟨mK, mC, bK, bC, e1, e2, e3, e4, e5, e6, e7⟩ := ((sp.layer m hm h hh).upd (Nat.mod_eq_zero_of_dvd hT)).eqs
  refine ⟨mK, bK, ?_, e4, e6⟩
  have hsw : ∀ A : Matrix (Fin m.nK) (Fin m.nK) α, (cl m.name).1.sandwich A 1 = A * Aᵀ := by
    intro A
    rcases hc : (cl m.name).1 <;> simp_all [Cls.sandwich, Cls.IsBlock]
  rw [e2, dirK, updDir, hsw, Cls.avgTr_sandwich]; rfl

/-- a model with one linear layer `2 → 1` without bias -/
def Sample.one : Model := ⟨false, [Sample.lb]⟩
/-- block-diagonal `K`, `kfac_like`, `lr_cov = 1`, `T = 1`, no momentum, `lr = 1`, given damping -/
def Sample.blockArgs (damping : ℚ) : Args ℚ :=
  { Sample.args with lr := .float 1, momentum := .float 0, damping := .float damping, alpha1 := .float 0, T := 1,
                     lrCov := .num (.float 1), structures := ("block30diagonal", "dense"), kfacLike := true }
/-- forward with the given inputs (one sample each), then backward through all of them with output gradient 1/2 -/
def Sample.fed (start : ℕ) (xs : List (List ℚ)) : List (Op ℚ) :=
  xs.map (fun x => .forward 0 (Sample.row x) true) ++ (List.range xs.length).map fun i => .backward (start + i) (Sample.row [1 / 2])
/-- two updates, and the statistics for a third -/
def Sample.skew : World ℚ := run (Sample.fed 0 [[1, 0], [0, 2]] ++ [.step false none false] ++ Sample.fed 2 [[2, 1]] ++
  [.step false none false] ++ Sample.fed 3 [[1, 0]]) (Sample.world Sample.one .default (Sample.blockArgs 1))

/-- **C26 is false for block-diagonal factors**: in a reachable state (after two updates of a `kfac_like` layer with damping 1 and
`lr_cov = 1`) a step succeeds, but the new factor is not `K(I - ½(H_K + Π(KᵀK) - I))`. -/
theorem C26_block_false : ∃ w : World ℚ, Reachable supportedStructures w ∧ Sample.lb ∈ w.opt.layers ∧
    (∃ h, w.opt.hyperOf Sample.lb = .ok h ∧ h.kfacLike = true ∧ h.alpha1 = 0 ∧ h.damping = 1 ∧ h.normalize = false ∧
      h.lrCov.at w.opt.steps = 1 ∧ h.T = 1 ∧ h.structures.1 = "block30diagonal") ∧
    (exec (.step false none false) w).1 = .ok () ∧ w.opt.scales ((w.opt.steps : ℤ) - 1) = some 1 ∧
    let K := denO (w.opt.Ks "b") 2
    denO ((exec (.step false none false) w).2.opt.Ks "b") 2 ≠
      K * (1 - (1 / 2 : ℚ) • (denO (w.opt.HKs "b") 2 + (Cls.block 30).proj 2 (Kᵀ * K) - 1)) := by
  refine ⟨Sample.skew, Sample.reachable (by decide +kernel) (by decide) _, by decide +kernel, ?_, ?_, by decide +kernel, ?_⟩
  · have : ∃ h, Sample.skew.opt.hyperOf Sample.lb = .ok h := by
      have : Sample.isOk (Sample.skew.opt.hyperOf Sample.lb) = true := by decide +kernel
      rcases hx : Sample.skew.opt.hyperOf Sample.lb with e | h
      · rw [hx] at this; cases this
      · exact ⟨h, rfl⟩
    obtain ⟨h, hh⟩ := this
    refine ⟨h, hh, ?_⟩
    have key : (match Sample.skew.opt.hyperOf Sample.lb with
      | .ok h => decide (h.kfacLike = true ∧ h.alpha1 = 0 ∧ h.damping = 1 ∧ h.normalize = false ∧
        h.lrCov.at Sample.skew.opt.steps = 1 ∧ h.T = 1 ∧ h.structures.1 = "block30diagonal")
      | .error _ => false) = true := by decide +kernel
    rw [hh] at key
    simpa using key
  · have : Sample.isOk (exec (.step false none false) Sample.skew).1 = true := by decide +kernel
    rcases hx : (exec (.step false none false) Sample.skew).1 with e | u
    · rw [hx] at this; cases this
    · rfl
  · intro K e
    have := congrFun (congrFun e 0) 0
    revert this
    decide +kernel

/-! ### C27 -/

/-- **C27.** A step of a well-formed optimizer (all layers ready, scale `s > 0`) moves weight and bias of every layer without
block-diagonal factors along `N = C Cᵀ (G/s) K Kᵀ`, where `G` is the bias-extended gradient and `K`, `C` are the factors after the
step's update (heavy-ball and weight decay on top, see `ParamSpec`), and `⟨G, N⟩ ≥ 0`. Full statement: every structure; it is
false for block-diagonal ones, see `C27_false`. -/
theorem C27_direction_partial {cl : String → Cls × Cls} {w : World α} {attr : Option α} {s p : α} (hw : w.Sound cl)
    (hr : ∀ m ∈ w.opt.layers, LayerReady w m) (hp : w.opt.scales ((w.opt.steps : ℤ) - 1) = some p)
    (hs : (w.opt.scales w.opt.steps).getD (attr.getD 1) = s) (hs0 : 0 < s) :
    ∃ w', exec (.step false attr false) w = (.ok (), w') ∧
    ∀ m ∈ w.opt.layers, ∀ h, w.opt.hyperOf m = .ok h → ¬ (cl m.name).1.IsBlock → ¬ (cl m.name).2.IsBlock →
    ∀ K C, K = denO (w'.opt.Ks m.name) m.nK → C = denO (w'.opt.Cs m.name) m.nC →
    ∃ N, N = C * Cᵀ * ((1 / s) • gradM w m) * (K * Kᵀ) ∧ 0 ≤ ((gradM w m)ᵀ * N).trace ∧
      ParamSpec h m.weight.ptr (weightPart N) w w' ∧
      ∀ b (hb : m.bias = some b), ParamSpec h b.ptr (biasPart (by simp [hb]) N) w w' := by
  obtain ⟨w', e, sp⟩ := World.step_spec hw hr hp hs hs0.ne'
  refine ⟨w', e, ?_⟩
  rintro m hm h hh nK nC K C rfl rfl
  obtain ⟨aw, ab⟩ := (sp.layer m hm h hh).apply
  set K := denO (w'.opt.Ks m.name) m.nK
  set C := denO (w'.opt.Cs m.name) m.nC
  have hdir : natDir (cl m.name) s (gradM w m) K C = C * Cᵀ * ((1 / s) • gradM w m) * (K * Kᵀ) := by
    rw [natDir, Cls.gram_eq nK, Cls.gram_eq nC, Matrix.transpose_mul, Matrix.transpose_transpose, Matrix.mul_smul, Matrix.smul_mul]
  rw [hdir] at aw
  refine ⟨_, rfl, ?_, aw, fun b hb => by have := ab b hb; rw [hdir] at this; exact this⟩
  have tr : ∀ (A : Matrix (Fin m.nC) (Fin m.nK) α), 0 ≤ (Aᵀ * A).trace := by
    intro A
    rw [Matrix.trace]
    refine Finset.sum_nonneg fun i _ => ?_
    rw [Matrix.diag_apply, Matrix.mul_apply]
    exact Finset.sum_nonneg fun j _ => mul_self_nonneg _
  have : ((gradM w m)ᵀ * (C * Cᵀ * ((1 / s) • gradM w m) * (K * Kᵀ))).trace =
      (1 / s) * ((Cᵀ * gradM w m * K)ᵀ * (Cᵀ * gradM w m * K)).trace := by
    rw [Matrix.mul_smul, Matrix.smul_mul, Matrix.mul_smul, Matrix.trace_smul, smul_eq_mul]
    congr 1
    rw [Matrix.transpose_mul, Matrix.transpose_mul, Matrix.transpose_transpose]
    have e1 : (gradM w m)ᵀ * (C * Cᵀ * gradM w m * (K * Kᵀ)) = ((gradM w m)ᵀ * C * Cᵀ * gradM w m * K) * Kᵀ := by
      simp only [Matrix.mul_assoc]
    have e2 : Kᵀ * ((gradM w m)ᵀ * C) * (Cᵀ * gradM w m * K) = Kᵀ * ((gradM w m)ᵀ * C * Cᵀ * gradM w m * K) := by
      simp only [Matrix.mul_assoc]
    rw [e1, e2, Matrix.trace_mul_comm]
  rw [this]
  exact mul_nonneg (by positivity) (tr _)

example : ∃ (cl : String → Cls × Cls) (w : World ℝ), w.Sound cl ∧ (∀ m ∈ w.opt.layers, LayerReady w m) ∧ w.opt.layers = [Sample.la, Sample.lb] ∧
    w.opt.scales ((w.opt.steps : ℤ) - 1) = some 1 ∧ (w.opt.scales w.opt.steps).getD ((none : Option ℝ).getD 1) = 1 := by
  obtain ⟨cl, w, a, b, c, d, e, _⟩ := Sample.gready (α := ℝ)
  exact ⟨cl, w, a.sound, b, c, d, e⟩

/-- **C27 for all classes**, as computed: `natDir` has `KK` in place of `KKᵀ` for block-diagonal `K`, likewise for `C`. -/
theorem C27_direction_as_computed {cl : String → Cls × Cls} {w : World α} {attr : Option α} {s p : α} (hw : w.Sound cl)
    (hr : ∀ m ∈ w.opt.layers, LayerReady w m) (hp : w.opt.scales ((w.opt.steps : ℤ) - 1) = some p)
    (hs : (w.opt.scales w.opt.steps).getD (attr.getD 1) = s) (hs0 : s ≠ 0) :
    ∃ w', exec (.step false attr false) w = (.ok (), w') ∧
    ∀ m ∈ w.opt.layers, ∀ h, w.opt.hyperOf m = .ok h →
    ∀ N, N = natDir (cl m.name) s (gradM w m) (denO (w'.opt.Ks m.name) m.nK) (denO (w'.opt.Cs m.name) m.nC) →
      ParamSpec h m.weight.ptr (weightPart N) w w' ∧
      ∀ b (hb : m.bias = some b), ParamSpec h b.ptr (biasPart (by simp [hb]) N) w w' := by
  obtain ⟨w', e, sp⟩ := World.step_spec hw hr hp hs hs0
  refine ⟨w', e, ?_⟩
  rintro m hm h hh N rfl
  exact ⟨(sp.layer m hm h hh).apply.weight, (sp.layer m hm h hh).apply.bias⟩

/-- one update, then the statistics for a second one that makes `K` a rotation -/
def Sample.turn : World ℚ := run (Sample.fed 0 [[1, 0], [0, 1], [0, 2]] ++ [.step false none false] ++
  Sample.fed 3 [[1, 1], [1, 1], [1, 0], [0, -1]]) (Sample.world Sample.one .default (Sample.blockArgs 0))

/-- **C27 is false for block-diagonal factors**: a reachable state in which a step without momentum and weight decay (scale 1,
`lr = 1`) moves the weight of a layer uphill: `⟨W' - W, G⟩ > 0`. -/
theorem C27_false : ∃ w : World ℚ, Reachable supportedStructures w ∧
    (∃ h, w.opt.hyperOf Sample.lb = .ok h ∧ h.momentum = 0 ∧ h.weightDecay = 0 ∧ h.lr = 1 ∧ h.structures.1 = "block30diagonal") ∧
    (exec (.step false none false) w).1 = .ok () ∧ ∃ G, w.grad Sample.lb.weight.ptr = some G ∧
    0 < ((((exec (.step false none false) w).2.data Sample.lb.weight.ptr).M 1 2 - (w.data Sample.lb.weight.ptr).M 1 2)ᵀ * G.M 1 2).trace := by
  have grad : (match Sample.turn.grad Sample.lb.weight.ptr with
      | some G => decide (0 < ((((exec (.step false none false) Sample.turn).2.data Sample.lb.weight.ptr).M 1 2 -
        (Sample.turn.data Sample.lb.weight.ptr).M 1 2)ᵀ * G.M 1 2).trace)
      | none => false) = true := by decide +kernel
  refine ⟨Sample.turn, Sample.reachable (by decide +kernel) (by decide) _, ?_, ?_, ?_⟩
  · have : ∃ h, Sample.turn.opt.hyperOf Sample.lb = .ok h := by
      have : Sample.isOk (Sample.turn.opt.hyperOf Sample.lb) = true := by decide +kernel
      rcases hx : Sample.turn.opt.hyperOf Sample.lb with e | h
      · rw [hx] at this; cases this
      · exact ⟨h, rfl⟩
    obtain ⟨h, hh⟩ := this
    refine ⟨h, hh, ?_⟩
    have key : (match Sample.turn.opt.hyperOf Sample.lb with
      | .ok h => decide (h.momentum = 0 ∧ h.weightDecay = 0 ∧ h.lr = 1 ∧ h.structures.1 = "block30diagonal")
      | .error _ => false) = true := by decide +kernel
    rw [hh] at key
    simpa using key
  · have : Sample.isOk (exec (.step false none false) Sample.turn).1 = true := by decide +kernel
    rcases hx : (exec (.step false none false) Sample.turn).1 with e | u
    · rw [hx] at this; cases this
    · rfl
  · rcases hx : Sample.turn.grad Sample.lb.weight.ptr with _ | G
    · rw [hx] at grad; cases grad
    · rw [hx] at grad; exact ⟨G, rfl, of_decide_eq_true grad⟩
