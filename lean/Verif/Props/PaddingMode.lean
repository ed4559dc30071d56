import Verif.Props.ProcessIO

/-! C61: `padding_mode` of convolutions. `process_input` hands kernel size, stride, padding, dilation and groups of a layer to the patch
extraction (`utils.py:165-167`), but not its `padding_mode`; `F.unfold` pads with zeros. -/

set_option linter.unusedSectionVars false
open Finset IOSpec PIO IOProof
variable {α : Type} [Field α]

namespace IOSpec

theorem PadMode.src_inside (mode : PadMode) {I : ℕ} {i : ℤ} (h0 : 0 ≤ i) (h1 : i < I) : mode.src I i = some i.toNat := by
  cases mode
  · simp [PadMode.src, h0, h1]
  · simp [PadMode.src, Int.emod_eq_of_lt h0 h1]
  · simp [PadMode.src, not_lt.2 h0, h1]
  · simp [PadMode.src, not_lt.2 h0, h1]

theorem paddedMode_zeros (x : ND α) (I1 I2 b c : ℕ) (i j : ℤ) : paddedMode .zeros x I1 I2 b c i j = padded x I1 I2 b c i j := by
  simp only [paddedMode, padded, PadMode.src]
  by_cases h1 : 0 ≤ i ∧ i < I1
  · by_cases h2 : 0 ≤ j ∧ j < I2
    · rw [if_pos h1, if_pos h2, if_pos ⟨h1.1, h1.2, h2.1, h2.2⟩]
    · rw [if_pos h1, if_neg h2, if_neg (fun h => h2 ⟨h.2.2.1, h.2.2.2⟩)]
  · rw [if_neg h1, if_neg (c := 0 ≤ i ∧ i < I1 ∧ 0 ≤ j ∧ j < I2) (fun h => h1 ⟨h.1, h.2.1⟩)]

theorem paddedMode_inside (mode : PadMode) (x : ND α) {I1 I2 : ℕ} (b c : ℕ) {i j : ℤ} (h0 : 0 ≤ i) (h1 : i < I1) (h2 : 0 ≤ j) (h3 : j < I2) :
    paddedMode mode x I1 I2 b c i j = padded x I1 I2 b c i j := by
  rw [paddedMode, mode.src_inside h0 h1, mode.src_inside h2 h3, padded, if_pos ⟨h0, h1, h2, h3⟩]

/-- what a non-zero mode pads with is an entry of the image -/
theorem PadMode.src_some {mode : PadMode} (h : mode ≠ .zeros) (I : ℕ) (i : ℤ) : ∃ k, mode.src I i = some k := by
  cases mode
  · exact absurd rfl h
  all_goals exact ⟨_, rfl⟩

/-- inner products with the kernel that reads the first entry of a patch -/
theorem sum_first (Cout : ℕ) {cin K1 K2 : ℕ} (hc : 0 < cin) (h1 : 0 < K1) (h2 : 0 < K2) (f : ℕ → ℕ → ℕ → α) :
    ∑ c ∈ range cin, ∑ k1 ∈ range K1, ∑ k2 ∈ range K2, entry (⟨[Cout, cin, K1, K2], fun k => if k = 0 then 1 else 0⟩ : ND α) [0, c, k1, k2] * f c k1 k2 =
      f 0 0 0 := by
  have hent : ∀ c k1 k2, entry (⟨[Cout, cin, K1, K2], fun k => if k = 0 then 1 else 0⟩ : ND α) [0, c, k1, k2] = if c = 0 ∧ k1 = 0 ∧ k2 = 0 then 1 else 0 := by
    intro c k1 k2
    rw [entry]
    refine if_congr ?_ rfl rfl
    simp [ravel, h1.ne', h2.ne']
  simp only [hent]
  rw [sum_eq_single_of_mem 0 (mem_range.2 hc), sum_eq_single_of_mem 0 (mem_range.2 h1), sum_eq_single_of_mem 0 (mem_range.2 h2)]
  · simp
  · intro k2 _ h; simp [h]
  · intro k1 _ h; simp [h]
  · intro c _ h; simp [h]

end IOSpec

/-- the inner products of the patches with the flattened kernels are the layer's convolution, for every image and kernel of the given sizes -/
def PatchesFit (α : Type) [Field α] (mode : PadMode) (cfg : ConvCfg) (B cin Cout I1 I2 : ℕ) (p : ℕ × ℕ) : Prop :=
  ∀ (x w : ND α), x.shape = [B, cin, I1, I2] → w.shape = [Cout, cin, cfg.kernel.1, cfg.kernel.2] → ∀ P O1 O2, extractPatches x cfg = .ok P →
    P.d1 = O1 * O2 → (∀ o, o < O1 ↔ o * cfg.stride.1 + cfg.dilation.1 * (cfg.kernel.1 - 1) < I1 + 2 * p.1) →
    (∀ o, o < O2 ↔ o * cfg.stride.2 + cfg.dilation.2 * (cfg.kernel.2 - 1) < I2 + 2 * p.2) →
    ∀ b < B, ∀ co < Cout, ∀ o1 < O1, ∀ o2 < O2,
      ∑ q ∈ range P.d2, w.flat (co * P.d2 + q) * P.get b (o1 * O2 + o2) q =
        convMode mode x w cin I1 I2 cfg.kernel.1 cfg.kernel.2 cfg.stride p cfg.dilation b co o1 o2

/-- **C61 (exact).** The patches are those of the layer's convolution for every image and kernel if and only if the layer pads with zeros or
does not pad. (`padding_mode` is not passed to the patch extraction, which pads with zeros.) -/
theorem C61_padding_mode (mode : PadMode) (cfg : ConvCfg) {B cin Cout I1 I2 : ℕ} {p : ℕ × ℕ} (hB : 0 < B) (hcin : 0 < cin) (hCout : 0 < Cout)
    (hp : cfg.padding = .ints p) (hg : cfg.groups = 1) (hk1 : 0 < cfg.kernel.1) (hk2 : 0 < cfg.kernel.2)
    (hs1 : 0 < cfg.stride.1) (hs2 : 0 < cfg.stride.2) (hd1 : 0 < cfg.dilation.1) (hd2 : 0 < cfg.dilation.2)
    (hf1 : cfg.dilation.1 * (cfg.kernel.1 - 1) < I1 + 2 * p.1) (hf2 : cfg.dilation.2 * (cfg.kernel.2 - 1) < I2 + 2 * p.2) :
    PatchesFit α mode cfg B cin Cout I1 I2 p ↔ mode = .zeros ∨ p = (0, 0) := by
  have base : ∀ (x : ND α), x.shape = [B, cin, I1, I2] → _ := fun x hx => C22_patches x cfg (B := B) (cin := cin) (I1 := I1) (I2 := I2) (p := p)
    (by rw [hg, one_mul]; exact hx) hp (by omega) hk1 hk2 hs1 hs2 hd1 hd2 hf1 hf2
  have uniq : ∀ {O O' s k I : ℕ}, (∀ o, o < O ↔ o * s + k < I) → (∀ o, o < O' ↔ o * s + k < I) → O = O' := by
    intro O O' s k I h h'
    rcases lt_trichotomy O O' with h1 | h1 | h1
    · exact absurd ((h O).2 ((h' O).1 h1)) (lt_irrefl _)
    · exact h1
    · exact absurd ((h' O').2 ((h O').1 h1)) (lt_irrefl _)
  constructor
  · intro fit
    by_contra hc
    push_neg at hc
    obtain ⟨hmode, hpad⟩ := hc
    set x : ND α := ⟨[B, cin, I1, I2], fun _ => 1⟩ with hx
    set w : ND α := ⟨[Cout, cin, cfg.kernel.1, cfg.kernel.2], fun k => if k = 0 then 1 else 0⟩ with hw
    obtain ⟨P, O1, O2, hP, _, hd1', _, h1, h2, _, hconv⟩ := base x rfl
    have p1 : 0 < O1 := (h1 0).2 (by omega)
    have p2 : 0 < O2 := (h2 0).2 (by omega)
    have e1 := hconv hg w Cout rfl 0 hB 0 hCout 0 p1 0 p2
    have e2 := fit x w rfl rfl P O1 O2 hP hd1' h1 h2 0 hB 0 hCout 0 p1 0 p2
    rw [e1] at e2
    have hsum := fun f => sum_first (α := α) Cout hcin hk1 hk2 f
    rw [← hw] at hsum
    rw [conv, hsum, convMode, hsum] at e2
    have hz : padded x I1 I2 0 0 ((0 * cfg.stride.1 + 0 * cfg.dilation.1 : ℕ) - (p.1 : ℕ)) ((0 * cfg.stride.2 + 0 * cfg.dilation.2 : ℕ) - (p.2 : ℕ)) = 0 := by
      rw [padded, if_neg]
      rintro ⟨a1, _, a2, _⟩
      exact hpad (Prod.ext (by push_cast at a1; show p.1 = 0; omega) (by push_cast at a2; show p.2 = 0; omega))
    obtain ⟨i, hi⟩ := PadMode.src_some hmode I1 ((0 * cfg.stride.1 + 0 * cfg.dilation.1 : ℕ) - (p.1 : ℕ))
    obtain ⟨j, hj⟩ := PadMode.src_some hmode I2 ((0 * cfg.stride.2 + 0 * cfg.dilation.2 : ℕ) - (p.2 : ℕ))
    rw [hz, paddedMode, hi, hj] at e2
    exact zero_ne_one e2
  · intro h x w hx hw P O1 O2 hP hd1' h1 h2 b hb co hco o1 ho1 o2 ho2
    obtain ⟨P', O1', O2', hP', _, _, _, h1', h2', _, hconv⟩ := base x hx
    obtain rfl : P = P' := by rw [hP] at hP'; exact Except.ok.inj hP'
    obtain rfl := uniq h1 h1'
    obtain rfl := uniq h2 h2'
    rw [hconv hg w Cout hw b hb co hco o1 ho1 o2 ho2, conv, convMode]
    refine sum_congr rfl fun c hc => sum_congr rfl fun k1 hk1 => sum_congr rfl fun k2 hk2 => ?_
    congr 1
    rcases h with rfl | rfl
    · exact (paddedMode_zeros ..).symm
    · have a1 := (h1 o1).1 ho1
      have a2 := (h2 o2).1 ho2
      have b1 : k1 * cfg.dilation.1 ≤ cfg.dilation.1 * (cfg.kernel.1 - 1) := by
        rw [mul_comm]; exact Nat.mul_le_mul_left _ (by rw [mem_range] at hk1; omega)
      have b2 : k2 * cfg.dilation.2 ≤ cfg.dilation.2 * (cfg.kernel.2 - 1) := by
        rw [mul_comm]; exact Nat.mul_le_mul_left _ (by rw [mem_range] at hk2; omega)
      refine (paddedMode_inside mode x b c ?_ ?_ ?_ ?_).symm
      all_goals (push_cast; try simp only [Nat.cast_zero, sub_zero])
      · positivity
      · exact_mod_cast (by omega : o1 * cfg.stride.1 + k1 * cfg.dilation.1 < I1)
      · positivity
      · exact_mod_cast (by omega : o2 * cfg.stride.2 + k2 * cfg.dilation.2 < I2)

/-- **C61 (false).** "The patches are those of the layer's convolution": with `padding_mode="circular"`, a `3 × 3` kernel and padding 1 on a `4 × 5` image they
are not. -/
theorem C61_false : ¬ PatchesFit ℚ .circular ⟨(3, 3), (1, 1), .ints (1, 1), (1, 1), 1⟩ 1 1 1 4 5 (1, 1) := by
  rw [C61_padding_mode .circular ⟨(3, 3), (1, 1), .ints (1, 1), (1, 1), 1⟩ (by decide) (by decide) (by decide) rfl rfl (by decide) (by decide) (by decide)
    (by decide) (by decide) (by decide) (by decide) (by decide)]
  decide
-- the modes by hand: positions `-2 .. 5` of an axis of size 4
example : (List.range 8).map (fun k => PadMode.circular.src 4 ((k : ℤ) - 2)) = [2, 3, 0, 1, 2, 3, 0, 1].map some ∧
    (List.range 8).map (fun k => PadMode.reflect.src 4 ((k : ℤ) - 2)) = [2, 1, 0, 1, 2, 3, 2, 1].map some ∧
    (List.range 8).map (fun k => PadMode.replicate.src 4 ((k : ℤ) - 2)) = [0, 0, 0, 1, 2, 3, 3, 3].map some ∧
    (List.range 8).map (fun k => PadMode.zeros.src 4 ((k : ℤ) - 2)) = [none, none, some 0, some 1, some 2, some 3, none, none] := by decide
