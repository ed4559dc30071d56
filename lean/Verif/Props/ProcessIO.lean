import Verif.Proofs.ProcessIO
import Verif.Props.Structured
import Mathlib.Tactic.FieldSimp

/-! C20-C24, C55: processed layer inputs and output gradients (statements over an ordered field with exact square
roots, e.g. `ℝ`). -/

open Finset IOSpec IOProof PIO

variable {α : Type} [Field α] [LinearOrder α] [IsStrictOrderedRing α] [LawfulSqrt α]

/-- **C20.** Input of a linear layer, shape `[b, shared..., d]`: the processed matrix has the documented shape and its
Gram matrix is the average outer product of the bias-extended input vectors, over all batch and shared positions
for `expand`, over the batch of shared-averaged vectors for `reduce`. -/
theorem C20_linear_input (x : ND α) {b d : ℕ} {sh : List ℕ} (hx : x.shape = b :: (sh ++ [d])) (bias : Bool) :
    (∃ X, processInput x .linear bias "expand" = .ok X ∧ X.rows = b * sh.prod ∧ X.cols = d + (if bias = true then 1 else 0) ∧
      ∀ p q, ∑ r ∈ range X.rows, X.get r p * X.get r q = (∑ i ∈ range b, sumIdx sh fun idx =>
        withBias bias d (fun j => entry x (i :: (idx ++ [j]))) p * withBias bias d (fun j => entry x (i :: (idx ++ [j]))) q)
        / ((b * sh.prod : ℕ) : α)) ∧
    (∃ X, processInput x .linear bias "reduce" = .ok X ∧ X.rows = b ∧ X.cols = d + (if bias = true then 1 else 0) ∧
      ∀ p q, ∑ r ∈ range X.rows, X.get r p * X.get r q = (∑ i ∈ range b,
        withBias bias d (fun j => sumIdx sh (fun idx => entry x (i :: (idx ++ [j]))) / (sh.prod : α)) p *
        withBias bias d (fun j => sumIdx sh (fun idx => entry x (i :: (idx ++ [j]))) / (sh.prod : α)) q) / (b : α)) := by
  constructor
  · let Y : Mat α := Mat.ofFn (b * sh.prod) d fun i j => x.flat (i * d + j)
    refine ⟨divSqrtRows (if bias = true then appendOnes Y else Y), ?_, ?_, ?_, ?_⟩
    · simp [processInput, linearProcessInput, mergeLeading, hx, split3_eq, Except.bind_ok', Except.pure_ok, Y]
    · simp [divSqrtRows, rows_bias, Y]
    · simp [divSqrtRows, cols_bias, Y]
    · intro p q
      rw [gram_divSqrtRows, rows_bias]
      congr 1
      have e : ∀ r ∈ range Y.rows, (if bias = true then appendOnes Y else Y).get r p * (if bias = true then appendOnes Y else Y).get r q =
          withBias bias d (fun j => x.flat (r * d + j)) p * withBias bias d (fun j => x.flat (r * d + j)) q := by
        intro r hr
        rw [get_bias Y bias r p (by simpa using hr) d rfl, get_bias Y bias r q (by simpa using hr) d rfl]
        have : ∀ p, withBias bias d (Y.get r) p = withBias bias d (fun j => x.flat (r * d + j)) p := by
          intro p
          have hr' : r < b * sh.prod := by simpa [Y] using hr
          simp only [withBias, Y, Mat.get_ofFn]
          by_cases h : p < d
          · rw [if_pos h, if_pos h, if_pos ⟨hr', h⟩]
          · rw [if_neg h, if_neg h]
        rw [this, this]
      rw [sum_congr rfl e, show Y.rows = b * sh.prod from rfl, sum_range_mul]
      refine sum_congr rfl fun i _ => ?_
      rw [← sumIdx_eq sh fun k => withBias bias d (fun j => x.flat ((i * sh.prod + k) * d + j)) p *
        withBias bias d (fun j => x.flat ((i * sh.prod + k) * d + j)) q]
      refine sumIdx_congr fun idx hidx => ?_
      simp only [entry_eq hx hidx]
  · let Y : Mat α := Mat.ofFn b d fun i j => (∑ k ∈ range sh.prod, x.flat ((i * sh.prod + k) * d + j)) / sh.prod
    refine ⟨divSqrtRows (if bias = true then appendOnes Y else Y), ?_, ?_, ?_, ?_⟩
    · simp [processInput, linearProcessInput, meanMiddle, hx, split3_eq, Except.bind_ok', Except.pure_ok, Y]
    · simp [divSqrtRows, rows_bias, Y]
    · simp [divSqrtRows, cols_bias, Y]
    · intro p q
      rw [gram_divSqrtRows, rows_bias]
      congr 1
      refine sum_congr rfl fun r hr => ?_
      have hr' : r < b := by simpa [Y] using hr
      rw [get_bias Y bias r p hr' d rfl, get_bias Y bias r q hr' d rfl]
      have : ∀ p, withBias bias d (Y.get r) p = withBias bias d (fun j => sumIdx sh (fun idx => entry x (r :: (idx ++ [j]))) / (sh.prod : α)) p := by
        intro p
        simp only [withBias, Y, Mat.get_ofFn]
        by_cases h : p < d
        · rw [if_pos h, if_pos h, if_pos ⟨hr', h⟩, ← sumIdx_eq]
          congr 1
          refine sumIdx_congr fun idx hidx => ?_
          rw [entry_eq hx hidx]
        · rw [if_neg h, if_neg h]
      rw [this, this]

/-- Hypotheses of C20 are satisfiable: shape `[2, 3, 2]` (three shared positions). -/
example : ∃ x : ND ℝ, x.shape = 2 :: ([3] ++ [2]) ∧ x.flat 5 = 5 := ⟨⟨[2, 3, 2], fun k => k⟩, rfl, by norm_num⟩
/-- the specification's entries are the tensor's entries in row-major order -/
example : entry (⟨[2, 3, 2], fun k => (k : ℚ)⟩ : ND ℚ) [1, 2, 0] = 10 := by decide +kernel

/-- **C21 (linear layers).** If the loss is an average over `N` terms (`N` as announced by `loss_average`; `N = 1` for
`None`) and `u` are the un-averaged gradients, so that autograd delivers `g = u / N`, then the processed gradient `G`
satisfies `GᵀG = (1/N) ∑ u uᵀ`, the sum running over all batch and shared positions for `expand` and over the batch
of gradients summed over shared positions for `reduce`. -/
theorem C21_linear_grad (g u : ND α) {b d : ℕ} {sh : List ℕ} (hg : g.shape = b :: (sh ++ [d])) (hu : u.shape = g.shape)
    {la : Option String} (hla : la = none ∨ la = some "batch" ∨ la = some "batch+sequence")
    (hN : numTerms la b sh.prod ≠ 0) (h : ∀ k < g.shape.prod, g.flat k = u.flat k / (numTerms la b sh.prod : α)) :
    (∃ G, processGradOutput g .linear la "expand" = .ok G ∧ G.rows = b * sh.prod ∧ G.cols = d ∧
      ∀ p < d, ∀ q < d, ∑ r ∈ range G.rows, G.get r p * G.get r q = (∑ i ∈ range b, sumIdx sh fun idx =>
        entry u (i :: (idx ++ [p])) * entry u (i :: (idx ++ [q]))) / (numTerms la b sh.prod : α)) ∧
    (∃ G, processGradOutput g .linear la "reduce" = .ok G ∧ G.rows = b ∧ G.cols = d ∧
      ∀ p < d, ∀ q < d, ∑ r ∈ range G.rows, G.get r p * G.get r q = (∑ i ∈ range b,
        (sumIdx sh fun idx => entry u (i :: (idx ++ [p]))) * (sumIdx sh fun idx => entry u (i :: (idx ++ [q]))))
          / (numTerms la b sh.prod : α)) := by
  have hu' : u.shape = b :: (sh ++ [d]) := hu.trans hg
  have hN' : (numTerms la b sh.prod : α) ≠ 0 := Nat.cast_ne_zero.2 hN
  have hs : ∃ s : α, linearScaling g.shape la = .ok s ∧ s * s = numTerms la b sh.prod := by
    rcases hla with rfl | rfl | rfl
    · exact ⟨1, rfl, by simp [numTerms]⟩
    · exact ⟨1 * HasSqrt.sqrt (b : α), by rw [hg]; simp [linearScaling], by rw [one_mul, sqrt_nat_sq]; simp [numTerms]⟩
    · refine ⟨1 * HasSqrt.sqrt ((b * sh.prod : ℕ) : α), by rw [hg]; simp [linearScaling], ?_⟩
      rw [one_mul, sqrt_nat_sq]; simp [numTerms]
  obtain ⟨s, hs, hss⟩ := hs
  have hla' : ¬¬(la = none ∨ la = some "batch" ∨ la = some "batch+sequence") := not_not.2 hla
  have hlt : ∀ i < b, ∀ k < sh.prod, ∀ j < d, (i * sh.prod + k) * d + j < g.shape.prod := by
    intro i hi k hk j hj
    rw [hg, List.prod_cons, List.prod_append, List.prod_singleton, ← mul_assoc]
    have h1 : i * sh.prod + k < b * sh.prod := by
      calc i * sh.prod + k < i * sh.prod + sh.prod := by omega
        _ = (i + 1) * sh.prod := by ring
        _ ≤ b * sh.prod := Nat.mul_le_mul_right _ hi
    calc _ < (i * sh.prod + k) * d + d := by omega
      _ = (i * sh.prod + k + 1) * d := by ring
      _ ≤ _ := Nat.mul_le_mul_right _ h1
  constructor
  · let Y : Mat α := Mat.ofFn (b * sh.prod) d fun i j => g.flat (i * d + j)
    refine ⟨Y.smul s, ?_, rfl, rfl, ?_⟩
    · simp only [processGradOutput, if_neg hla', linearProcessGrad, hs]
      simp [mergeLeading, hg, split3_eq, Except.bind_ok', Except.pure_ok, Y]
    · intro p hp q hq
      rw [Mat.rows_smul, show Y.rows = b * sh.prod from rfl, sum_range_mul, sum_div]
      refine sum_congr rfl fun i hi => ?_
      have hi : i < b := by simpa using hi
      have e : ∀ k ∈ range sh.prod, (Y.smul s).get (i * sh.prod + k) p * (Y.smul s).get (i * sh.prod + k) q =
          (u.flat ((i * sh.prod + k) * d + p) * u.flat ((i * sh.prod + k) * d + q)) / (numTerms la b sh.prod : α) := by
        intro k hk
        have hk : k < sh.prod := by simpa using hk
        have hr : i * sh.prod + k < b * sh.prod := by
          calc i * sh.prod + k < i * sh.prod + sh.prod := by omega
            _ = (i + 1) * sh.prod := by ring
            _ ≤ b * sh.prod := Nat.mul_le_mul_right _ hi
        simp only [Mat.get_smul, Y, Mat.get_ofFn, hr, hp, hq, and_self, if_true]
        rw [h _ (hlt i hi k hk p hp), h _ (hlt i hi k hk q hq), eq_div_iff hN']
        field_simp
        linear_combination (u.flat ((i * sh.prod + k) * d + p) * u.flat ((i * sh.prod + k) * d + q)) * hss
      rw [sum_congr rfl e, ← sum_div, ← sumIdx_eq sh fun k => u.flat ((i * sh.prod + k) * d + p) * u.flat ((i * sh.prod + k) * d + q)]
      congr 1
      refine sumIdx_congr fun idx hidx => ?_
      rw [entry_eq hu' hidx, entry_eq hu' hidx]
  · let Y : Mat α := Mat.ofFn b d fun i j => ∑ k ∈ range sh.prod, g.flat ((i * sh.prod + k) * d + j)
    refine ⟨Y.smul s, ?_, rfl, rfl, ?_⟩
    · simp only [processGradOutput, if_neg hla', linearProcessGrad, hs]
      simp [sumMiddle, hg, split3_eq, Except.bind_ok', Except.pure_ok, Y]
    · intro p hp q hq
      rw [Mat.rows_smul, show Y.rows = b from rfl, sum_div]
      refine sum_congr rfl fun i hi => ?_
      have hi : i < b := by simpa using hi
      have e : ∀ p < d, Y.get i p = (sumIdx sh fun idx => entry u (i :: (idx ++ [p]))) / (numTerms la b sh.prod : α) := by
        intro p hp
        simp only [Y, Mat.get_ofFn, hi, hp, and_self, if_true]
        rw [sum_congr rfl fun k hk => h _ (hlt i hi k (by simpa using hk) p hp), ← sum_div,
          ← sumIdx_eq sh fun k => u.flat ((i * sh.prod + k) * d + p)]
        congr 1
        exact sumIdx_congr fun idx hidx => (entry_eq hu' hidx).symm
      rw [Mat.get_smul, Mat.get_smul, e p hp, e q hq, eq_div_iff hN']
      field_simp
      linear_combination ((sumIdx sh fun idx => entry u (i :: (idx ++ [p]))) * (sumIdx sh fun idx => entry u (i :: (idx ++ [q])))) * hss

/-- **C21 (convolutions).** As above for gradients of shape `[B, C, O1, O2]`; the shared positions are the output
locations. -/
theorem C21_conv_grad (g u : ND α) (cfg : ConvCfg) {B C O1 O2 : ℕ} (hg : g.shape = [B, C, O1, O2]) (hu : u.shape = g.shape)
    {la : Option String} (hla : la = none ∨ la = some "batch" ∨ la = some "batch+sequence")
    (hN : numTerms la B (O1 * O2) ≠ 0) (h : ∀ k < g.shape.prod, g.flat k = u.flat k / (numTerms la B (O1 * O2) : α)) :
    (∃ G, processGradOutput g (.conv2d cfg) la "expand" = .ok G ∧ G.rows = B * O1 * O2 ∧ G.cols = C ∧
      ∀ p < C, ∀ q < C, ∑ r ∈ range G.rows, G.get r p * G.get r q = (∑ b ∈ range B, ∑ o1 ∈ range O1, ∑ o2 ∈ range O2,
        entry u [b, p, o1, o2] * entry u [b, q, o1, o2]) / (numTerms la B (O1 * O2) : α)) ∧
    (∃ G, processGradOutput g (.conv2d cfg) la "reduce" = .ok G ∧ G.rows = B ∧ G.cols = C ∧
      ∀ p < C, ∀ q < C, ∑ r ∈ range G.rows, G.get r p * G.get r q = (∑ b ∈ range B,
        (∑ o1 ∈ range O1, ∑ o2 ∈ range O2, entry u [b, p, o1, o2]) * (∑ o1 ∈ range O1, ∑ o2 ∈ range O2, entry u [b, q, o1, o2]))
          / (numTerms la B (O1 * O2) : α)) := by
  have hu' : u.shape = [B, C, O1, O2] := hu.trans hg
  have hN' : (numTerms la B (O1 * O2) : α) ≠ 0 := Nat.cast_ne_zero.2 hN
  have hs : ∃ s : α, convScaling g.shape la = .ok s ∧ s * s = numTerms la B (O1 * O2) := by
    rcases hla with rfl | rfl | rfl
    · exact ⟨1, rfl, by simp [numTerms]⟩
    · exact ⟨1 * HasSqrt.sqrt (B : α), by rw [hg]; simp [convScaling], by rw [one_mul, sqrt_nat_sq]; simp [numTerms]⟩
    · refine ⟨1 * HasSqrt.sqrt ((B * (O1 * O2) : ℕ) : α), by rw [hg]; simp [convScaling], ?_⟩
      rw [one_mul, sqrt_nat_sq]; simp [numTerms]
  obtain ⟨s, hs, hss⟩ := hs
  have hla' : ¬¬(la = none ∨ la = some "batch" ∨ la = some "batch+sequence") := not_not.2 hla
  have hat : ∀ b < B, ∀ c < C, ∀ i < O1, ∀ j < O2, at4 g C O1 O2 b c i j = entry u [b, c, i, j] / (numTerms la B (O1 * O2) : α) := by
    intro b hb c hc i hi j hj
    rw [← at4_eq hu', at4, h, at4]
    rw [hg]; simp only [List.prod_cons, List.prod_nil, mul_one, ← mul_assoc]
    exact idx3_lt (idx2_lt hb hc) hi hj
  constructor
  · refine ⟨?w, ?e, ?r⟩
    case e =>
      simp only [processGradOutput, if_neg hla', convProcessGrad, hs, Except.bind_ok', true_or, not_true_eq_false, if_false, if_true,
        mergeSpatial, shape4_eq hg, Except.pure_ok]
      rfl
    case r =>
      refine ⟨rfl, rfl, ?_⟩
      intro p hp q hq
      rw [Mat.rows_smul, Mat.rows_ofFn, sum_range_prod3, sum_div]
      refine sum_congr rfl fun b hb => ?_
      rw [sum_div]
      refine sum_congr rfl fun o1 ho1 => ?_
      rw [sum_div]
      refine sum_congr rfl fun o2 ho2 => ?_
      rw [mem_range] at hb ho1 ho2
      rw [Mat.get_smul, Mat.get_smul, Mat.get_ofFn, Mat.get_ofFn, if_pos ⟨idx3_lt hb ho1 ho2, hp⟩, if_pos ⟨idx3_lt hb ho1 ho2, hq⟩,
        (idx3 ho1 ho2).1, (idx3 ho1 ho2).2.1, (idx3 ho1 ho2).2.2, hat b hb p hp o1 ho1 o2 ho2, hat b hb q hq o1 ho1 o2 ho2, eq_div_iff hN']
      field_simp
      linear_combination (entry u [b, p, o1, o2] * entry u [b, q, o1, o2]) * hss
  · refine ⟨?w', ?e', ?r'⟩
    case e' =>
      simp only [processGradOutput, if_neg hla', convProcessGrad, hs, Except.bind_ok', or_true, not_true_eq_false, if_false,
        sumSpatial, shape4_eq hg, Except.pure_ok, show ¬("reduce" = "expand") by decide]
      rfl
    case r' =>
      refine ⟨rfl, rfl, ?_⟩
      intro p hp q hq
      rw [Mat.rows_smul, Mat.rows_ofFn, sum_div]
      refine sum_congr rfl fun b hb => ?_
      rw [mem_range] at hb
      have e : ∀ p < C, ∑ o1 ∈ range O1, ∑ o2 ∈ range O2, at4 g C O1 O2 b p o1 o2 =
          (∑ o1 ∈ range O1, ∑ o2 ∈ range O2, entry u [b, p, o1, o2]) / (numTerms la B (O1 * O2) : α) := by
        intro p hp
        rw [sum_div]
        refine sum_congr rfl fun o1 ho1 => ?_
        rw [sum_div]
        exact sum_congr rfl fun o2 ho2 => hat b hb p hp o1 (mem_range.1 ho1) o2 (mem_range.1 ho2)
      rw [Mat.get_smul, Mat.get_smul, Mat.get_ofFn, Mat.get_ofFn, if_pos ⟨hb, hp⟩, if_pos ⟨hb, hq⟩, e p hp, e q hq, eq_div_iff hN']
      field_simp
      linear_combination ((∑ o1 ∈ range O1, ∑ o2 ∈ range O2, entry u [b, p, o1, o2]) *
        (∑ o1 ∈ range O1, ∑ o2 ∈ range O2, entry u [b, q, o1, o2])) * hss

/-- **C21 (rejections).** Gradients are processed only for the three supported loss averages and the two
approximations; anything else raises `AssertionError`, before the tensor is looked at. -/
theorem C21_unsupported (g : ND α) (kind : LayerKind) (la : Option String) (approx : String)
    (h : (la ≠ none ∧ la ≠ some "batch" ∧ la ≠ some "batch+sequence") ∨ (approx ≠ "expand" ∧ approx ≠ "reduce")) :
    processGradOutput g kind la approx = .error .assertionError := by
  unfold processGradOutput
  by_cases h1 : la = none ∨ la = some "batch" ∨ la = some "batch+sequence"
  · rw [if_neg (not_not.2 h1), if_pos (by tauto)]
  · rw [if_pos h1]

/-- Hypotheses of C21 are met by a gradient of shape `[2, 3, 2]` of a loss averaged over the six positions. -/
example : ∃ g u : ND ℝ, g.shape = 2 :: ([3] ++ [2]) ∧ u.shape = g.shape ∧ numTerms (some "batch+sequence") 2 [3].prod ≠ 0 ∧
    (∀ k < g.shape.prod, g.flat k = u.flat k / (numTerms (some "batch+sequence") 2 [3].prod : ℝ)) ∧ u.flat 1 ≠ 0 :=
  ⟨⟨[2, 3, 2], fun k => k / (numTerms (some "batch+sequence") 2 [3].prod : ℕ)⟩, ⟨[2, 3, 2], fun k => k⟩, rfl, rfl, by decide, fun _ _ => rfl, by norm_num⟩
/-- ... and by a convolution's gradient of shape `[2, 1, 2, 2]` of a loss averaged over the batch. -/
example : ∃ g u : ND ℝ, g.shape = [2, 1, 2, 2] ∧ u.shape = g.shape ∧ numTerms (some "batch") 2 (2 * 2) ≠ 0 ∧
    (∀ k < g.shape.prod, g.flat k = u.flat k / (numTerms (some "batch") 2 (2 * 2) : ℝ)) ∧ u.flat 1 ≠ 0 :=
  ⟨⟨[2, 1, 2, 2], fun k => k / (numTerms (some "batch") 2 (2 * 2) : ℕ)⟩, ⟨[2, 1, 2, 2], fun k => k⟩, rfl, rfl, by decide, fun _ _ => rfl, by norm_num⟩
example : processGradOutput (⟨[2, 2], fun _ => 1⟩ : ND ℝ) .linear (some "mean") "expand" = .error .assertionError :=
  C21_unsupported _ _ _ _ (Or.inl ⟨by simp, by decide, by decide⟩)

omit [LinearOrder α] [IsStrictOrderedRing α] [LawfulSqrt α] in
/-- **C22.** Patch extraction for integer paddings. The numbers of output locations are the numbers of windows inside
the padded image; entry `(c, k1, k2)` of the patch of location `(o1, o2)` is the zero-padded image at the
position the kernel entry touches, averaged over channel groups; and without grouping the inner products of
the patches with the flattened kernels are the convolution. -/
theorem C22_patches (x : ND α) (cfg : ConvCfg) {B cin I1 I2 : ℕ} {p : ℕ × ℕ} (hx : x.shape = [B, cfg.groups * cin, I1, I2])
    (hp : cfg.padding = .ints p) (hg : 0 < cfg.groups) (hk1 : 0 < cfg.kernel.1) (hk2 : 0 < cfg.kernel.2)
    (hs1 : 0 < cfg.stride.1) (hs2 : 0 < cfg.stride.2) (hd1 : 0 < cfg.dilation.1) (hd2 : 0 < cfg.dilation.2)
    (hf1 : cfg.dilation.1 * (cfg.kernel.1 - 1) < I1 + 2 * p.1) (hf2 : cfg.dilation.2 * (cfg.kernel.2 - 1) < I2 + 2 * p.2) :
    ∃ P O1 O2, extractPatches x cfg = .ok P ∧ P.d0 = B ∧ P.d1 = O1 * O2 ∧ P.d2 = cin * cfg.kernel.1 * cfg.kernel.2 ∧
      (∀ o, o < O1 ↔ o * cfg.stride.1 + cfg.dilation.1 * (cfg.kernel.1 - 1) < I1 + 2 * p.1) ∧
      (∀ o, o < O2 ↔ o * cfg.stride.2 + cfg.dilation.2 * (cfg.kernel.2 - 1) < I2 + 2 * p.2) ∧
      (∀ b < B, ∀ o1 < O1, ∀ o2 < O2, ∀ c < cin, ∀ k1 < cfg.kernel.1, ∀ k2 < cfg.kernel.2,
        P.get b (o1 * O2 + o2) ((c * cfg.kernel.1 + k1) * cfg.kernel.2 + k2) =
          (∑ g ∈ range cfg.groups, padded x I1 I2 b (g * cin + c) ((o1 * cfg.stride.1 + k1 * cfg.dilation.1 : ℕ) - (p.1 : ℕ))
            ((o2 * cfg.stride.2 + k2 * cfg.dilation.2 : ℕ) - (p.2 : ℕ))) / cfg.groups) ∧
      (cfg.groups = 1 → ∀ (w : ND α) (Cout : ℕ), w.shape = [Cout, cin, cfg.kernel.1, cfg.kernel.2] →
        ∀ b < B, ∀ co < Cout, ∀ o1 < O1, ∀ o2 < O2,
        ∑ q ∈ range P.d2, w.flat (co * P.d2 + q) * P.get b (o1 * O2 + o2) q =
          conv x w cin I1 I2 cfg.kernel.1 cfg.kernel.2 cfg.stride p cfg.dilation b co o1 o2) := by
  obtain ⟨O1, ho1, _, hO1⟩ := outSize_spec (i := I1) (pl := p.1) (pr := p.1) hk1 hs1 hd1 (by omega)
  obtain ⟨O2, ho2, _, hO2⟩ := outSize_spec (i := I2) (pl := p.2) (pr := p.2) hk2 hs2 hd2 (by omega)
  obtain ⟨P, hP, d0, d1, d2, hget⟩ := extractPatches_spec hx (Or.inl hp) hg rfl ho1 ho2
  refine ⟨P, O1, O2, hP, d0, d1, d2, fun o => by rw [hO1]; omega, fun o => by rw [hO2]; omega, ?_, ?_⟩
  · intro b hb o1 h1 o2 h2 c hc k1 hk1 k2 hk2
    rw [hget b hb o1 h1 o2 h2 c hc k1 hk1 k2 hk2, gpad]
  · intro hg1 w Cout hw b hb co _ o1 h1 o2 h2
    rw [d2, sum_range_prod3, conv]
    refine sum_congr rfl fun c hc => sum_congr rfl fun k1 hk1 => sum_congr rfl fun k2 hk2 => ?_
    rw [mem_range] at hc hk1 hk2
    rw [hget b hb o1 h1 o2 h2 c hc k1 hk1 k2 hk2, gpad, hg1, sum_range_one, Nat.cast_one, div_one, zero_mul, zero_add, ← at4_eq hw, at4]
    congr 2; ring

/-- Hypotheses of C22 are met: two channels in two groups, a `3 × 2` kernel, stride 2, padding 1, dilation 2. -/
example : ∃ (x : ND ℝ) (cfg : ConvCfg) (p : ℕ × ℕ), x.shape = [1, cfg.groups * 1, 4, 5] ∧ cfg.padding = .ints p ∧ 0 < cfg.groups ∧
    0 < cfg.kernel.1 ∧ cfg.dilation.1 * (cfg.kernel.1 - 1) < 4 + 2 * p.1 ∧ cfg.dilation.2 * (cfg.kernel.2 - 1) < 5 + 2 * p.2 :=
  ⟨⟨[1, 2, 4, 5], fun k => k⟩, ⟨(3, 2), (2, 2), .ints (1, 1), (2, 2), 2⟩, (1, 1), rfl, rfl, by decide, by decide, by decide, by decide⟩
/-- a patch by hand: `3 × 3` image `0..8`, `2 × 2` kernel, no padding, lower right patch is `4 5 7 8` -/
example : (match extractPatches (⟨[1, 1, 3, 3], fun k => (k : ℚ)⟩ : ND ℚ) ⟨(2, 2), (1, 1), .ints (0, 0), (1, 1), 1⟩ with
    | .ok P => (List.range 4).map (P.get 0 3) | .error _ => []) = [4, 5, 7, 8] := by decide +kernel

omit [LinearOrder α] [IsStrictOrderedRing α] [LawfulSqrt α] in
/-- **C23.** Whenever the patches used for `expand` exist, the averaged patches used for `reduce` exist as well and
are their mean over all output locations. -/
theorem C23_averaged_patches (x : ND α) (cfg : ConvCfg) {P : T3 α} (h : extractPatches x cfg = .ok P) :
    ∃ Q, extractAveragedPatches x cfg = .ok Q ∧ Q.rows = P.d0 ∧ Q.cols = P.d2 ∧ 0 < P.d1 ∧
      ∀ b j, Q.get b j = (∑ o ∈ range P.d1, P.get b o j) / (P.d1 : α) := by
  obtain ⟨B, C, I1, I2, cin, O1, O2, p, hx, hp, hg, hC, h1, h2⟩ := extractPatches_inv h
  obtain ⟨P', hP', d0, d1, d2, hget⟩ := extractPatches_spec hx hp hg hC h1 h2
  obtain rfl : P = P' := by rw [h] at hP'; exact Except.ok.inj hP'
  obtain ⟨Q, hQ, qr, qc, hq⟩ := extractAveraged_spec (p := p) (r := p) hx (hp.imp (fun e => ⟨e, rfl⟩) fun h => h) hg hC h1 h2
  have f1 := outSize_ok h1
  have f2 := outSize_ok h2
  obtain ⟨O1', e1, pos1, _⟩ := outSize_spec f1.1 f1.2.1 f1.2.2.1 f1.2.2.2
  obtain ⟨O2', e2, pos2, _⟩ := outSize_spec f2.1 f2.2.1 f2.2.2.1 f2.2.2.2
  obtain rfl : O1 = O1' := by rw [h1] at e1; exact Except.ok.inj e1
  obtain rfl : O2 = O2' := by rw [h2] at e2; exact Except.ok.inj e2
  refine ⟨Q, hQ, qr.trans d0.symm, qc.trans d2.symm, by rw [d1]; positivity, fun b j => ?_⟩
  by_cases hb : b < B
  · by_cases hj : j < cin * cfg.kernel.1 * cfg.kernel.2
    · set c := j / cfg.kernel.2 / cfg.kernel.1
      set k1 := j / cfg.kernel.2 % cfg.kernel.1
      set k2 := j % cfg.kernel.2
      have hk1 : k1 < cfg.kernel.1 := Nat.mod_lt _ f1.1
      have hk2 : k2 < cfg.kernel.2 := Nat.mod_lt _ f2.1
      have hc : c < cin := by
        rw [Nat.div_lt_iff_lt_mul f1.1, Nat.div_lt_iff_lt_mul f2.1]; exact hj
      have ej : j = (c * cfg.kernel.1 + k1) * cfg.kernel.2 + k2 := by
        rw [Nat.div_add_mod' (j / cfg.kernel.2), Nat.div_add_mod']
      rw [ej, hq b hb c hc k1 hk1 k2 hk2, d1, sum_range_mul, Nat.cast_mul]
      congr 1
      refine sum_congr rfl fun o1 ho1 => sum_congr rfl fun o2 ho2 => ?_
      rw [hget b hb o1 (mem_range.1 ho1) o2 (mem_range.1 ho2) c hc k1 hk1 k2 hk2]
    · rw [Q.supp _ _ (by omega), sum_eq_zero, zero_div]
      intro o _; exact P.supp _ _ _ (by omega)
  · rw [Q.supp _ _ (by omega), sum_eq_zero, zero_div]
    intro o _; exact P.supp _ _ _ (by omega)

/-- C23's hypothesis is met by a padded, strided and dilated convolution with two groups. -/
example : ∃ P, extractPatches (⟨[1, 2, 4, 5], fun k => (k : ℝ)⟩ : ND ℝ) ⟨(3, 2), (2, 2), .ints (1, 1), (2, 2), 2⟩ = .ok P := by
  obtain ⟨P, _, _, h, _⟩ := C22_patches (B := 1) (cin := 1) (I1 := 4) (I2 := 5) (p := (1, 1)) (⟨[1, 2, 4, 5], fun k => (k : ℝ)⟩ : ND ℝ)
    ⟨(3, 2), (2, 2), .ints (1, 1), (2, 2), 2⟩ rfl rfl (by decide) (by decide) (by decide) (by decide) (by decide) (by decide) (by decide)
    (by decide) (by decide)
  exact ⟨P, h⟩

/-- **C24 (valid).** `padding="valid"` is zero padding, for both approximations. -/
theorem C24_valid (x : ND α) (cfg : ConvCfg) (bias : Bool) (approx : String) :
    processInput x (.conv2d { cfg with padding := .str "valid" }) bias approx =
      processInput x (.conv2d { cfg with padding := .ints (0, 0) }) bias approx := by
  simp only [processInput, convProcessInput, extractPatches, extractAveragedPatches, expandPadding, convPaddings, if_true,
    Except.bind_ok', Except.pure_ok]

/-- **C24 (same, expand).** With `padding="same"` (stride 1, as torch demands) patch extraction uses the padding
`dilation * (kernel - 1) / 2` if `dilation * (kernel - 1)` is even along both axes; otherwise it raises
`NotImplementedError`. -/
theorem C24_same_expand (x : ND α) (cfg : ConvCfg) (hs : cfg.stride = (1, 1)) (hp : cfg.padding = .str "same") :
    (Even (cfg.dilation.1 * (cfg.kernel.1 - 1)) ∧ Even (cfg.dilation.2 * (cfg.kernel.2 - 1)) →
      extractPatches x cfg = extractPatches x
        { cfg with padding := .ints (cfg.dilation.1 * (cfg.kernel.1 - 1) / 2, cfg.dilation.2 * (cfg.kernel.2 - 1) / 2) }) ∧
    (¬(Even (cfg.dilation.1 * (cfg.kernel.1 - 1)) ∧ Even (cfg.dilation.2 * (cfg.kernel.2 - 1))) →
      ∀ bias, processInput x (.conv2d cfg) bias "expand" = .error .notImplementedError) := by
  have key : ∀ n : ℕ, n / 2 = n - n / 2 ↔ Even n := fun n => by rw [Nat.even_iff]; omega
  have hconv : ∀ k d, convPaddings k 1 d "same" = .ok (d * (k - 1) / 2, d * (k - 1) - d * (k - 1) / 2) := by
    intro k d; simp [convPaddings]
  have hpad : expandPadding cfg = if Even (cfg.dilation.1 * (cfg.kernel.1 - 1)) ∧ Even (cfg.dilation.2 * (cfg.kernel.2 - 1)) then
      .ok (cfg.dilation.1 * (cfg.kernel.1 - 1) / 2, cfg.dilation.2 * (cfg.kernel.2 - 1) / 2) else .error .notImplementedError := by
    simp only [expandPadding, hp, hs, hconv, Except.bind_ok', key]
    by_cases h1 : Even (cfg.dilation.1 * (cfg.kernel.1 - 1)) <;> by_cases h2 : Even (cfg.dilation.2 * (cfg.kernel.2 - 1)) <;>
      simp only [h1, h2, and_self, and_true, and_false, if_true, if_false] <;> rfl
  constructor
  · intro h
    rw [if_pos h] at hpad
    simp only [extractPatches, hpad]
    rfl
  · intro h bias
    simp only [processInput, convProcessInput, extractPatches, hpad, if_neg h, true_or, not_true_eq_false, if_false, if_true]
    rfl

omit [LinearOrder α] [IsStrictOrderedRing α] [LawfulSqrt α] in
/-- **C24 (same, reduce).** With `padding="same"` the averaged patches exist for every kernel size and dilation: they
average over as many locations as the image has pixels, reading the image padded by `dilation * (kernel - 1)` in
total, the smaller half in front. -/
theorem C24_same_reduce (x : ND α) (cfg : ConvCfg) {B cin I1 I2 : ℕ} (hx : x.shape = [B, cfg.groups * cin, I1, I2])
    (hs : cfg.stride = (1, 1)) (hp : cfg.padding = .str "same") (hg : 0 < cfg.groups) (hk1 : 0 < cfg.kernel.1) (hk2 : 0 < cfg.kernel.2)
    (hd1 : 0 < cfg.dilation.1) (hd2 : 0 < cfg.dilation.2) (hi1 : 0 < I1) (hi2 : 0 < I2) :
    ∃ Q, extractAveragedPatches x cfg = .ok Q ∧ Q.rows = B ∧ Q.cols = cin * cfg.kernel.1 * cfg.kernel.2 ∧
      ∀ b < B, ∀ c < cin, ∀ k1 < cfg.kernel.1, ∀ k2 < cfg.kernel.2,
        Q.get b ((c * cfg.kernel.1 + k1) * cfg.kernel.2 + k2) =
          (∑ o1 ∈ range I1, ∑ o2 ∈ range I2, (∑ g ∈ range cfg.groups, padded x I1 I2 b (g * cin + c)
            ((o1 + k1 * cfg.dilation.1 : ℕ) - (cfg.dilation.1 * (cfg.kernel.1 - 1) / 2 : ℕ))
            ((o2 + k2 * cfg.dilation.2 : ℕ) - (cfg.dilation.2 * (cfg.kernel.2 - 1) / 2 : ℕ))) / cfg.groups) / ((I1 : α) * I2) := by
  have hout : ∀ i k d, 0 < i → 0 < k → 0 < d → outSize i k 1 d (d * (k - 1) / 2) (d * (k - 1) - d * (k - 1) / 2) = .ok i := by
    intro i k d hi hk hd
    rw [outSize, if_neg (by omega), if_neg (by omega)]
    congr 1
    rw [Nat.div_one]; omega
  obtain ⟨Q, hQ, qr, qc, hq⟩ := extractAveraged_spec (x := x) (cfg := cfg)
    (p := (cfg.dilation.1 * (cfg.kernel.1 - 1) / 2, cfg.dilation.2 * (cfg.kernel.2 - 1) / 2))
    (r := (cfg.dilation.1 * (cfg.kernel.1 - 1) - cfg.dilation.1 * (cfg.kernel.1 - 1) / 2,
      cfg.dilation.2 * (cfg.kernel.2 - 1) - cfg.dilation.2 * (cfg.kernel.2 - 1) / 2)) (O1 := I1) (O2 := I2) hx
    (Or.inr ⟨"same", hp, by rw [hs]; simp [convPaddings], by rw [hs]; simp [convPaddings]⟩) hg rfl
    (by rw [hs]; exact hout _ _ _ hi1 hk1 hd1) (by rw [hs]; exact hout _ _ _ hi2 hk2 hd2)
  refine ⟨Q, hQ, qr, qc, fun b hb c hc k1 hk1 k2 hk2 => ?_⟩
  rw [hq b hb c hc k1 hk1 k2 hk2, hs]
  simp only [gpad, mul_one]

/-- Both cases of C24 occur: kernel 3 (even), kernel 2 (odd, dilation 1), and kernel 2 with dilation 2 (even again). -/
example : Even (1 * (3 - 1)) ∧ ¬Even (1 * (2 - 1)) ∧ Even (2 * (2 - 1)) := by decide

/-- **C55.** Input of a convolution, in terms of the patches of C22 and C23: the Gram matrix of the processed matrix
is the average outer product of the bias-extended patches, over batch and output locations for `expand`, over the
batch of location-averaged patches for `reduce`. -/
theorem C55_conv_input (x : ND α) (cfg : ConvCfg) (bias : Bool) :
    (∀ P, extractPatches x cfg = .ok P → ∃ X, processInput x (.conv2d cfg) bias "expand" = .ok X ∧ X.rows = P.d0 * P.d1 ∧
      X.cols = P.d2 + (if bias = true then 1 else 0) ∧
      ∀ p q, ∑ r ∈ range X.rows, X.get r p * X.get r q = (∑ b ∈ range P.d0, ∑ o ∈ range P.d1,
        withBias bias P.d2 (P.get b o) p * withBias bias P.d2 (P.get b o) q) / ((P.d0 * P.d1 : ℕ) : α)) ∧
    (∀ P, extractPatches x cfg = .ok P → ∃ X, processInput x (.conv2d cfg) bias "reduce" = .ok X ∧ X.rows = P.d0 ∧
      X.cols = P.d2 + (if bias = true then 1 else 0) ∧
      ∀ p q, ∑ r ∈ range X.rows, X.get r p * X.get r q = (∑ b ∈ range P.d0,
        withBias bias P.d2 (fun j => (∑ o ∈ range P.d1, P.get b o j) / (P.d1 : α)) p *
        withBias bias P.d2 (fun j => (∑ o ∈ range P.d1, P.get b o j) / (P.d1 : α)) q) / (P.d0 : α)) := by
  constructor
  · intro P hP
    refine ⟨divSqrtRows (if bias = true then appendOnes (flattenPatches P) else flattenPatches P), ?_, ?_, ?_, ?_⟩
    · simp [processInput, convProcessInput, hP, Except.bind_ok', Except.pure_ok, Functor.map, Except.map]
    · simp [divSqrtRows, rows_bias, flattenPatches]
    · simp [divSqrtRows, cols_bias, flattenPatches]
    · intro p q
      rw [gram_divSqrtRows, rows_bias, show (flattenPatches P).rows = P.d0 * P.d1 from rfl, sum_range_mul]
      congr 1
      refine sum_congr rfl fun b hb => sum_congr rfl fun o ho => ?_
      rw [mem_range] at hb ho
      rw [get_bias _ bias _ p (idx2_lt hb ho) P.d2 rfl, get_bias _ bias _ q (idx2_lt hb ho) P.d2 rfl]
      have : ∀ p, withBias bias P.d2 ((flattenPatches P).get (b * P.d1 + o)) p = withBias bias P.d2 (P.get b o) p := by
        intro p
        simp only [withBias, flattenPatches, Mat.get_ofFn]
        by_cases h : p < P.d2
        · rw [if_pos h, if_pos h, if_pos ⟨idx2_lt hb ho, h⟩, (idx2 ho).1, (idx2 ho).2]
        · rw [if_neg h, if_neg h]
      rw [this, this]
  · intro P hP
    obtain ⟨Q, hQ, qr, qc, _, hq⟩ := C23_averaged_patches x cfg hP
    refine ⟨divSqrtRows (if bias = true then appendOnes Q else Q), ?_, ?_, ?_, ?_⟩
    · simp [processInput, convProcessInput, hQ, Except.bind_ok', Except.pure_ok]
    · simp [divSqrtRows, rows_bias, qr]
    · simp [divSqrtRows, cols_bias, qc]
    · intro p q
      rw [gram_divSqrtRows, rows_bias, qr]
      congr 1
      refine sum_congr rfl fun b hb => ?_
      rw [mem_range] at hb
      rw [get_bias Q bias b p (by omega) P.d2 qc, get_bias Q bias b q (by omega) P.d2 qc]
      rw [show Q.get b = fun j => (∑ o ∈ range P.d1, P.get b o j) / (P.d1 : α) from funext fun j => hq b j]
