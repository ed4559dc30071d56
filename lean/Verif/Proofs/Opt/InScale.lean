import Verif.Proofs.Opt.Scale

/-! Scaled inputs of layers without bias have scaled second moments. -/

set_option linter.unusedSectionVars false
open Matrix PIO
variable {α : Type} [Field α]

theorem meanMiddle_smul (g : ND α) (s : α) : meanMiddle (g.smul s) = (meanMiddle g).map (·.smul s) := by
  unfold meanMiddle
  show (match split3 g.shape with | none => _ | some (b, s, d) => _) = _
  rcases split3 g.shape with _ | ⟨b, k, d⟩
  · rfl
  · simp only [Except.map, Mat.smul_ofFn, div_mul_eq_mul_div, Finset.sum_mul]; rfl

theorem divSqrtRows_smul [HasSqrt α] (A : Mat α) (s : α) : divSqrtRows (A.smul s) = (divSqrtRows A).smul s := by
  unfold divSqrtRows
  rw [Mat.smul_ofFn]
  refine Mat.ext' rfl rfl fun i hi j hj => ?_
  simp only [Mat.rows_ofFn, Mat.cols_ofFn, Mat.rows_smul, Mat.cols_smul] at hi hj
  simp only [Mat.get_ofFn, Mat.rows_smul, Mat.cols_smul, Mat.get_smul, div_mul_eq_mul_div]

theorem groupMean_smul (x : ND α) (s : α) (C I1 I2 g cin b c i j : ℕ) :
    groupMean (x.smul s) C I1 I2 g cin b c i j = groupMean x C I1 I2 g cin b c i j * s := by
  unfold groupMean at4 ND.smul
  rw [← Finset.sum_mul, div_mul_eq_mul_div]

theorem extractPatches_smul (x : ND α) (s : α) (cfg : ConvCfg) : extractPatches (x.smul s) cfg = (extractPatches x cfg).map (·.smul s) := by
  unfold extractPatches
  have : shape4 (x.smul s) = shape4 x := rfl
  rw [this]
  rcases expandPadding cfg with e | p
  · rfl
  simp only [Except.bind_ok']
  rcases shape4 x with e | ⟨B, C, I1, I2⟩
  · rfl
  simp only [Except.bind_ok']
  rcases groupChannels C cfg.groups with e | cin
  · rfl
  simp only [Except.bind_ok']
  rcases outSize I1 cfg.kernel.1 cfg.stride.1 cfg.dilation.1 p.1 p.1 with e | O1
  · rfl
  simp only [Except.bind_ok']
  rcases outSize I2 cfg.kernel.2 cfg.stride.2 cfg.dilation.2 p.2 p.2 with e | O2
  · rfl
  simp only [Except.bind_ok', Except.pure_ok, Except.map]
  congr 1
  refine T3.ext' rfl rfl rfl fun b hb o ho p hp => ?_
  simp only [T3.d0_ofFn, T3.d1_ofFn, T3.d2_ofFn] at hb ho hp
  simp only [T3.smul, T3.get_ofFn, groupMean_smul, T3.d0_ofFn, T3.d1_ofFn, T3.d2_ofFn]
  split_ifs <;> simp

theorem patches_smul (x : ND α) (s : α) (cfg : ConvCfg) :
    flattenPatches <$> extractPatches (x.smul s) cfg = (flattenPatches <$> extractPatches x cfg).map (·.smul s) := by
  rw [extractPatches_smul]
  rcases extractPatches x cfg with e | P
  · rfl
  · show Except.ok _ = Except.ok _
    congr 1
    refine Mat.ext' rfl rfl fun i hi j hj => ?_
    have hi' : i < P.d0 * P.d1 := hi
    have hj' : j < P.d2 := hj
    have h1 : 0 < P.d1 := Nat.pos_of_ne_zero (by rintro e; rw [e] at hi'; simp at hi')
    have h2 : i / P.d1 < P.d0 := by rw [Nat.div_lt_iff_lt_mul h1]; exact hi'
    have h3 := Nat.mod_lt i h1
    simp [Mat.get_smul, flattenPatches, T3.smul, hi', hj', h2, h3]

theorem averaged_tail (x : ND α) (s : α) (cfg : ConvCfg) (B C I1 I2 cin O1 O2 l1 l2 : ℕ) :
    (Mat.ofFn B (cin * cfg.kernel.1 * cfg.kernel.2) fun b p => ∑ i1 ∈ Finset.range I1, ∑ i2 ∈ Finset.range I2,
      groupMean (x.smul s) C I1 I2 cfg.groups cin b (p / (cfg.kernel.1 * cfg.kernel.2)) i1 i2
      * meanPattern cfg.stride.1 cfg.dilation.1 l1 O1 (p / cfg.kernel.2 % cfg.kernel.1) i1
      * meanPattern cfg.stride.2 cfg.dilation.2 l2 O2 (p % cfg.kernel.2) i2 : Mat α) =
    Mat.smul (Mat.ofFn B (cin * cfg.kernel.1 * cfg.kernel.2) fun b p => ∑ i1 ∈ Finset.range I1, ∑ i2 ∈ Finset.range I2,
      groupMean x C I1 I2 cfg.groups cin b (p / (cfg.kernel.1 * cfg.kernel.2)) i1 i2
      * meanPattern cfg.stride.1 cfg.dilation.1 l1 O1 (p / cfg.kernel.2 % cfg.kernel.1) i1
      * meanPattern cfg.stride.2 cfg.dilation.2 l2 O2 (p % cfg.kernel.2) i2) s := by
  rw [Mat.smul_ofFn]
  congr 1
  funext b p
  simp only [groupMean_smul, Finset.sum_mul]
  refine Finset.sum_congr rfl fun i1 _ => Finset.sum_congr rfl fun i2 _ => ?_
  ring

theorem averaged_smul (x : ND α) (s : α) (cfg : ConvCfg) :
    extractAveragedPatches (x.smul s) cfg = (extractAveragedPatches x cfg).map (·.smul s) := by
  unfold extractAveragedPatches
  have : shape4 (x.smul s) = shape4 x := rfl
  rw [this]
  rcases shape4 x with e | ⟨B, C, I1, I2⟩
  · rfl
  simp only [Except.bind_ok']
  rcases groupChannels C cfg.groups with e | cin
  · rfl
  simp only [Except.bind_ok']
  cases hp : cfg.padding with
  | ints p =>
    simp only [Except.bind_ok', Except.pure_ok]
    rcases outSize I1 cfg.kernel.1 cfg.stride.1 cfg.dilation.1 p.1 p.1 with e | O1
    · rfl
    simp only [Except.bind_ok']
    rcases outSize I2 cfg.kernel.2 cfg.stride.2 cfg.dilation.2 p.2 p.2 with e | O2
    · rfl
    simp only [Except.bind_ok', Except.map, averaged_tail]
  | str t =>
    simp only
    rcases convPaddings cfg.kernel.1 cfg.stride.1 cfg.dilation.1 t with e | ⟨l1, r1⟩
    · rfl
    simp only [Except.bind_ok', Except.pure_ok]
    rcases outSize I1 cfg.kernel.1 cfg.stride.1 cfg.dilation.1 l1 r1 with e | O1
    · rfl
    simp only [Except.bind_ok']
    rcases convPaddings cfg.kernel.2 cfg.stride.2 cfg.dilation.2 t with e | ⟨l2, r2⟩
    · rfl
    simp only [Except.bind_ok']
    rcases outSize I2 cfg.kernel.2 cfg.stride.2 cfg.dilation.2 l2 r2 with e | O2
    · rfl
    simp only [Except.bind_ok', Except.map, averaged_tail]

theorem processInput_smul [HasSqrt α] (x : ND α) (s : α) (k : LayerKind) (ka : String) :
    processInput (x.smul s) k false ka = (processInput x k false ka).map (·.smul s) := by
  unfold processInput
  split
  · rfl
  cases k with
  | other => rfl
  | linear =>
    simp only [linearProcessInput, mergeLeading_smul, meanMiddle_smul]
    split
    · rcases mergeLeading x with e | A
      · rfl
      · simp [Except.map, Except.bind_ok', Except.pure_ok, divSqrtRows_smul]
    · rcases meanMiddle x with e | A
      · rfl
      · simp [Except.map, Except.bind_ok', Except.pure_ok, divSqrtRows_smul]
  | conv2d cfg =>
    simp only [convProcessInput, patches_smul, averaged_smul]
    split
    · rcases flattenPatches <$> extractPatches x cfg with e | A
      · rfl
      · simp [Except.map, Except.bind_ok', Except.pure_ok, divSqrtRows_smul]
    · rcases extractAveragedPatches x cfg with e | A
      · rfl
      · simp [Except.map, Except.bind_ok', Except.pure_ok, divSqrtRows_smul]

theorem inputMoment_smul [HasSqrt α] (h : Hyper α) (m : Layer) (hb : m.bias = none) (x : ND α) (s : α) :
    inputMoment h m (x.smul s) = (s * s) • inputMoment h m x := by
  unfold inputMoment
  rw [hb, show Option.isSome (none : Option Param) = false from rfl, processInput_smul]
  rcases processInput x m.kind false h.kfacApprox with e | A
  · simp [Except.map]
  · simp only [Except.map, secMom_smul']

theorem ND.smul_one (x : ND α) : x.smul 1 = x := by
  unfold ND.smul; simp
