import Verif.SpecIO
import Verif.Proofs.TensorLemmas
import Mathlib.Algebra.BigOperators.Field
import Mathlib.Tactic.LinearCombination

/-! Lemmas about input and gradient processing. -/

open Finset

namespace IOProof
open IOSpec PIO
variable {α : Type} [Field α]

theorem sum_map_flatMap {β : Type} (n : ℕ) (g : ℕ → List β) (f : β → α) :
    (((List.range n).flatMap g).map f).sum = ∑ i ∈ range n, ((g i).map f).sum := by
  induction n with
  | zero => simp
  | succ n ih => rw [List.range_succ, List.flatMap_append, List.map_append, List.sum_append, ih, sum_range_succ]; simp

theorem sum_range_mul (a b : ℕ) (f : ℕ → α) : ∑ k ∈ range (a * b), f k = ∑ i ∈ range a, ∑ j ∈ range b, f (i * b + j) := by
  induction a with
  | zero => simp
  | succ a ih => rw [Nat.succ_mul, sum_range_add, ih, sum_range_succ]

theorem sumIdx_eq (sh : List ℕ) (f : ℕ → α) : sumIdx sh (fun idx => f (ravel sh idx)) = ∑ k ∈ range sh.prod, f k := by
  induction sh generalizing f with
  | nil => simp [sumIdx, multiIdx, ravel]
  | cons n ns ih =>
    rw [List.prod_cons, sum_range_mul, sumIdx, multiIdx, sum_map_flatMap]
    refine sum_congr rfl fun i _ => ?_
    rw [List.map_map, ← ih fun k => f (i * ns.prod + k)]
    simp [sumIdx, ravel, Function.comp_def]

theorem mem_multiIdx {sh : List ℕ} {idx : List ℕ} (h : idx ∈ multiIdx sh) : idx.length = sh.length := by
  induction sh generalizing idx with
  | nil => simp [multiIdx] at h; simp [h]
  | cons n ns ih =>
    simp only [multiIdx, List.mem_flatMap, List.mem_map] at h
    obtain ⟨i, _, is, his, rfl⟩ := h
    simp [ih his]

theorem ravel_append (sh idx : List ℕ) (d j : ℕ) (h : idx.length = sh.length) :
    ravel (sh ++ [d]) (idx ++ [j]) = ravel sh idx * d + j := by
  induction sh generalizing idx with
  | nil => cases idx with
    | nil => simp [ravel]
    | cons _ _ => simp at h
  | cons n ns ih => cases idx with
    | nil => simp at h
    | cons i is =>
      simp only [List.length_cons, add_left_inj] at h
      simp only [List.cons_append, ravel, ih is h, List.prod_append, List.prod_singleton]; ring

theorem sumIdx_congr {sh : List ℕ} {f g : List ℕ → α} (h : ∀ idx, idx.length = sh.length → f idx = g idx) :
    sumIdx sh f = sumIdx sh g := by
  rw [sumIdx, sumIdx]; congr 1; exact List.map_congr_left fun idx hi => h idx (mem_multiIdx hi)

theorem entry_eq {x : ND α} {b d : ℕ} {sh : List ℕ} (hx : x.shape = b :: (sh ++ [d])) {i j : ℕ} {idx : List ℕ}
    (h : idx.length = sh.length) : entry x (i :: (idx ++ [j])) = x.flat ((i * sh.prod + ravel sh idx) * d + j) := by
  rw [entry, hx]; simp only [ravel, ravel_append _ _ _ _ h, List.prod_append, List.prod_singleton]; congr 1; ring

theorem split3_eq (b : ℕ) (sh : List ℕ) (d : ℕ) : split3 (b :: (sh ++ [d])) = some (b, sh.prod, d) := by
  cases sh with
  | nil => simp [split3]
  | cons c cs => simp [split3, List.dropLast_cons_of_ne_nil, List.dropLast_append_of_ne_nil]

section
variable [LinearOrder α] [IsStrictOrderedRing α] [LawfulSqrt α]

theorem sqrt_nat_sq (n : ℕ) : HasSqrt.sqrt (n : α) * HasSqrt.sqrt (n : α) = n := LawfulSqrt.sqrt_mul_self _ (Nat.cast_nonneg n)

/-- entries of the Gram matrix of a row-normalised matrix -/
theorem gram_divSqrtRows (x : Mat α) (p q : ℕ) : ∑ r ∈ range (divSqrtRows x).rows, (divSqrtRows x).get r p * (divSqrtRows x).get r q =
    (∑ r ∈ range x.rows, x.get r p * x.get r q) / x.rows := by
  rw [sum_div]
  refine sum_congr rfl fun r _ => ?_
  simp only [divSqrtRows, Mat.get_ofFn]
  by_cases h : r < x.rows ∧ p < x.cols
  · by_cases h' : q < x.cols
    · rw [if_pos h, if_pos ⟨h.1, h'⟩, div_mul_div_comm, sqrt_nat_sq]
    · rw [if_neg (show ¬(r < x.rows ∧ q < x.cols) by tauto), mul_zero, x.supp r q (by omega), mul_zero, zero_div]
  · rw [if_neg h, zero_mul, x.supp r p (by omega), zero_mul, zero_div]

theorem gram_smul_sqrt (x : Mat α) (n p q : ℕ) : ∑ r ∈ range x.rows, (x.smul (1 * HasSqrt.sqrt (n : α))).get r p *
    (x.smul (1 * HasSqrt.sqrt (n : α))).get r q = n * ∑ r ∈ range x.rows, x.get r p * x.get r q := by
  rw [mul_sum]
  refine sum_congr rfl fun r _ => ?_
  simp only [Mat.get_smul]
  linear_combination (x.get r p * x.get r q) * sqrt_nat_sq (α := α) n
end

theorem get_appendOnes (x : Mat α) (r p : ℕ) (hr : r < x.rows) (d : ℕ) (hd : x.cols = d) :
    (appendOnes x).get r p = withBias true d (x.get r) p := by
  subst hd
  simp only [appendOnes, Mat.hcat, Mat.get_ofFn, Mat.rows_ofFn, Mat.cols_ofFn, withBias, true_and]
  by_cases h : p < x.cols
  · rw [if_pos (show r < x.rows ∧ p < x.cols + 1 by omega)]; simp only [h, if_true]
  · by_cases h' : p = x.cols
    · subst h'; simp [hr]
    · rw [if_neg (show ¬(r < x.rows ∧ p < x.cols + 1) by omega), if_neg h, if_neg h']

theorem get_bias (x : Mat α) (bias : Bool) (r p : ℕ) (hr : r < x.rows) (d : ℕ) (hd : x.cols = d) :
    (if bias = true then appendOnes x else x).get r p = withBias bias d (x.get r) p := by
  cases bias
  · rw [if_neg (by simp), withBias]
    by_cases h : p < d
    · rw [if_pos h]
    · rw [if_neg h, if_neg (by simp), x.supp _ _ (by omega)]
  · rw [if_pos rfl, get_appendOnes x r p hr d hd]

theorem rows_bias (x : Mat α) (bias : Bool) : (if bias = true then appendOnes x else x).rows = x.rows := by
  cases bias <;> simp [appendOnes]
theorem cols_bias (x : Mat α) (bias : Bool) : (if bias = true then appendOnes x else x).cols = x.cols + (if bias = true then 1 else 0) := by
  cases bias <;> simp [appendOnes]

end IOProof

namespace IOProof
open IOSpec PIO
variable {α : Type} [Field α]

theorem at4_eq {x : ND α} {B C I1 I2 : ℕ} (hx : x.shape = [B, C, I1, I2]) (b c i j : ℕ) :
    at4 x C I1 I2 b c i j = entry x [b, c, i, j] := by
  rw [at4, entry, hx]; simp only [ravel, List.prod_cons, List.prod_nil]; congr 1; ring

theorem shape4_eq {x : ND α} {B C I1 I2 : ℕ} (hx : x.shape = [B, C, I1, I2]) : shape4 x = .ok (B, C, I1, I2) := by
  rw [shape4, hx]

/-- the number of output positions along an axis is the number of window positions inside the padded image -/
theorem outSize_spec {i k s d pl pr : ℕ} (hk : 0 < k) (hs : 0 < s) (hd : 0 < d) (hfit : d * (k - 1) < i + pl + pr) :
    ∃ O, outSize i k s d pl pr = .ok O ∧ 0 < O ∧ ∀ o, o < O ↔ o * s + d * (k - 1) < i + pl + pr := by
  refine ⟨(i + pl + pr - d * (k - 1) - 1) / s + 1, ?_, Nat.succ_pos _, fun o => ?_⟩
  · rw [outSize, if_neg (by omega), if_neg (by omega)]
  · rw [Nat.lt_succ_iff, Nat.le_div_iff_mul_le hs]; omega

theorem outSize_ok {i k s d pl pr O : ℕ} (h : outSize i k s d pl pr = .ok O) :
    0 < k ∧ 0 < s ∧ 0 < d ∧ d * (k - 1) < i + pl + pr := by
  unfold outSize at h
  split_ifs at h with h1 h2
  omega

theorem idx3 {K1 K2 c k1 k2 : ℕ} (h1 : k1 < K1) (h2 : k2 < K2) : ((c * K1 + k1) * K2 + k2) / (K1 * K2) = c ∧
    ((c * K1 + k1) * K2 + k2) / K2 % K1 = k1 ∧ ((c * K1 + k1) * K2 + k2) % K2 = k2 := by
  have e : ((c * K1 + k1) * K2 + k2) / K2 = c * K1 + k1 := by
    rw [Nat.mul_comm, Nat.mul_add_div (by omega), Nat.div_eq_of_lt h2, add_zero]
  refine ⟨?_, ?_, ?_⟩
  · rw [Nat.mul_comm K1, ← Nat.div_div_eq_div_mul, e, Nat.mul_comm, Nat.mul_add_div (by omega), Nat.div_eq_of_lt h1, add_zero]
  · rw [e, Nat.mul_comm, Nat.mul_add_mod, Nat.mod_eq_of_lt h1]
  · rw [Nat.mul_comm, Nat.mul_add_mod, Nat.mod_eq_of_lt h2]

theorem idx3_lt {C K1 K2 c k1 k2 : ℕ} (hc : c < C) (h1 : k1 < K1) (h2 : k2 < K2) : (c * K1 + k1) * K2 + k2 < C * K1 * K2 := by
  have a : c * K1 + k1 < C * K1 := by
    calc c * K1 + k1 < c * K1 + K1 := by omega
      _ = (c + 1) * K1 := by ring
      _ ≤ _ := Nat.mul_le_mul_right _ hc
  calc _ < (c * K1 + k1) * K2 + K2 := by omega
    _ = (c * K1 + k1 + 1) * K2 := by ring
    _ ≤ _ := Nat.mul_le_mul_right _ a

theorem idx2 {O2 o1 o2 : ℕ} (h2 : o2 < O2) : (o1 * O2 + o2) / O2 = o1 ∧ (o1 * O2 + o2) % O2 = o2 := by
  constructor
  · rw [Nat.mul_comm, Nat.mul_add_div (by omega), Nat.div_eq_of_lt h2, add_zero]
  · rw [Nat.mul_comm, Nat.mul_add_mod, Nat.mod_eq_of_lt h2]

theorem idx2_lt {O1 O2 o1 o2 : ℕ} (h1 : o1 < O1) (h2 : o2 < O2) : o1 * O2 + o2 < O1 * O2 := by
  calc _ < o1 * O2 + O2 := by omega
    _ = (o1 + 1) * O2 := by ring
    _ ≤ _ := Nat.mul_le_mul_right _ h1

theorem padIn_iff (o k s d p i : ℕ) : padIn o k s d p i ↔ 0 ≤ ((o * s + k * d : ℕ) : ℤ) - (p : ℕ) ∧ ((o * s + k * d : ℕ) : ℤ) - (p : ℕ) < i := by
  unfold padIn; omega
theorem padPos_eq {o k s d p i : ℕ} (h : padIn o k s d p i) : padPos o k s d p = (((o * s + k * d : ℕ) : ℤ) - (p : ℕ)).toNat := by
  unfold padPos; unfold padIn at h; omega

/-- group-averaged padded image -/
def gpad (x : ND α) (I1 I2 G cin b c : ℕ) (i j : ℤ) : α := (∑ g ∈ range G, padded x I1 I2 b (g * cin + c) i j) / G

theorem groupMean_pad {x : ND α} {B C I1 I2 : ℕ} (hx : x.shape = [B, C, I1, I2]) (G cin b c o1 o2 k1 k2 : ℕ) (s d p : ℕ × ℕ) :
    (if padIn o1 k1 s.1 d.1 p.1 I1 ∧ padIn o2 k2 s.2 d.2 p.2 I2 then
      groupMean x C I1 I2 G cin b c (padPos o1 k1 s.1 d.1 p.1) (padPos o2 k2 s.2 d.2 p.2) else 0) =
    gpad x I1 I2 G cin b c ((o1 * s.1 + k1 * d.1 : ℕ) - (p.1 : ℕ)) ((o2 * s.2 + k2 * d.2 : ℕ) - (p.2 : ℕ)) := by
  by_cases h : padIn o1 k1 s.1 d.1 p.1 I1 ∧ padIn o2 k2 s.2 d.2 p.2 I2
  · rw [if_pos h, gpad, groupMean]
    congr 1
    refine sum_congr rfl fun g _ => ?_
    rw [at4_eq hx, padded, if_pos, padPos_eq h.1, padPos_eq h.2]
    exact ⟨((padIn_iff ..).1 h.1).1, ((padIn_iff ..).1 h.1).2, ((padIn_iff ..).1 h.2).1, ((padIn_iff ..).1 h.2).2⟩
  · rw [if_neg h, gpad, sum_eq_zero, zero_div]
    intro g _
    rw [padded, if_neg]
    rintro ⟨a, b, c, d⟩
    exact h ⟨(padIn_iff ..).2 ⟨a, b⟩, (padIn_iff ..).2 ⟨c, d⟩⟩

theorem extractPatches_spec {x : ND α} {B C I1 I2 : ℕ} (hx : x.shape = [B, C, I1, I2]) {cfg : ConvCfg} {p : ℕ × ℕ}
    (hp : cfg.padding = .ints p ∨ ∃ s, cfg.padding = .str s ∧
      convPaddings cfg.kernel.1 cfg.stride.1 cfg.dilation.1 s = .ok (p.1, p.1) ∧
      convPaddings cfg.kernel.2 cfg.stride.2 cfg.dilation.2 s = .ok (p.2, p.2)) {cin O1 O2 : ℕ} (hg : 0 < cfg.groups) (hC : C = cfg.groups * cin)
    (h1 : outSize I1 cfg.kernel.1 cfg.stride.1 cfg.dilation.1 p.1 p.1 = .ok O1)
    (h2 : outSize I2 cfg.kernel.2 cfg.stride.2 cfg.dilation.2 p.2 p.2 = .ok O2) :
    ∃ P, extractPatches x cfg = .ok P ∧ P.d0 = B ∧ P.d1 = O1 * O2 ∧ P.d2 = cin * cfg.kernel.1 * cfg.kernel.2 ∧
      ∀ b < B, ∀ o1 < O1, ∀ o2 < O2, ∀ c < cin, ∀ k1 < cfg.kernel.1, ∀ k2 < cfg.kernel.2,
        P.get b (o1 * O2 + o2) ((c * cfg.kernel.1 + k1) * cfg.kernel.2 + k2) =
        gpad x I1 I2 cfg.groups cin b c ((o1 * cfg.stride.1 + k1 * cfg.dilation.1 : ℕ) - (p.1 : ℕ))
          ((o2 * cfg.stride.2 + k2 * cfg.dilation.2 : ℕ) - (p.2 : ℕ)) := by
  have hgc : groupChannels C cfg.groups = .ok cin := by
    rw [groupChannels, if_neg (by omega), if_neg (by simp [hC]), hC, Nat.mul_div_cancel_left _ hg]
  refine ⟨?w, ?e, ?r⟩
  case e =>
    have hpad : expandPadding cfg = .ok p := by
      rcases hp with hp | ⟨s, hp, e1, e2⟩
      · simp only [expandPadding, hp]
      · simp only [expandPadding, hp, e1, e2, Except.bind_ok', if_true, Except.pure_ok]
    simp only [extractPatches, hpad, Except.pure_ok, Except.bind_ok', shape4_eq hx, hgc, h1, h2]
    rfl
  case r =>
    refine ⟨rfl, rfl, rfl, ?_⟩
    intro b hb o1 ho1 o2 ho2 c hc k1 hk1 k2 hk2
    rw [T3.get_ofFn, if_pos ⟨hb, idx2_lt ho1 ho2, idx3_lt hc hk1 hk2⟩]
    simp only [(idx3 hk1 hk2 (c := c)).1, (idx3 hk1 hk2 (c := c)).2.1, (idx3 hk1 hk2 (c := c)).2.2, (idx2 ho2 (o1 := o1)).1,
      (idx2 ho2 (o1 := o1)).2]
    rw [groupMean_pad hx]

theorem Except.bind_eq_ok {ε β γ : Type} {a : Except ε β} {f : β → Except ε γ} {r : γ} (h : (a >>= f) = .ok r) :
    ∃ b, a = .ok b ∧ f b = .ok r := by
  cases a with
  | error e => simp [bind, Except.bind] at h
  | ok b => exact ⟨b, rfl, h⟩

/-- what a successful patch extraction says about its arguments -/
theorem extractPatches_inv {x : ND α} {cfg : ConvCfg} {P : T3 α} (h : extractPatches x cfg = .ok P) :
    ∃ B C I1 I2 cin O1 O2, ∃ p : ℕ × ℕ, x.shape = [B, C, I1, I2] ∧ (cfg.padding = .ints p ∨ ∃ s, cfg.padding = .str s ∧
      convPaddings cfg.kernel.1 cfg.stride.1 cfg.dilation.1 s = .ok (p.1, p.1) ∧
      convPaddings cfg.kernel.2 cfg.stride.2 cfg.dilation.2 s = .ok (p.2, p.2)) ∧ 0 < cfg.groups ∧ C = cfg.groups * cin ∧
      outSize I1 cfg.kernel.1 cfg.stride.1 cfg.dilation.1 p.1 p.1 = .ok O1 ∧
      outSize I2 cfg.kernel.2 cfg.stride.2 cfg.dilation.2 p.2 p.2 = .ok O2 := by
  unfold extractPatches at h
  obtain ⟨p, hp, h⟩ := Except.bind_eq_ok h
  obtain ⟨⟨B, C, I1, I2⟩, hs, h⟩ := Except.bind_eq_ok h
  obtain ⟨cin, hc, h⟩ := Except.bind_eq_ok h
  obtain ⟨O1, h1, h⟩ := Except.bind_eq_ok h
  obtain ⟨O2, h2, _⟩ := Except.bind_eq_ok h
  refine ⟨B, C, I1, I2, cin, O1, O2, p, ?_, ?_, ?_, ?_, h1, h2⟩
  · unfold shape4 at hs
    split at hs
    · next e => simp only [Except.ok.injEq, Prod.mk.injEq] at hs; obtain ⟨rfl, rfl, rfl, rfl⟩ := hs; exact e
    · cases hs
  · unfold expandPadding at hp
    split at hp
    · next q e => left; rw [e]; simp only [Except.ok.injEq] at hp; rw [hp]
    · next s e =>
      right
      refine ⟨s, e, ?_⟩
      obtain ⟨⟨l1, r1⟩, e1, hp⟩ := Except.bind_eq_ok hp
      by_cases c1 : l1 = r1
      · subst c1
        simp only [if_true] at hp
        obtain ⟨⟨l2, r2⟩, e2, hp⟩ := Except.bind_eq_ok hp
        by_cases c2 : l2 = r2
        · subst c2
          simp only [if_true, Except.pure_ok, Except.ok.injEq] at hp
          subst hp
          exact ⟨e1, e2⟩
        · simp only [c2, if_false] at hp; cases hp
      · simp only [c1, if_false] at hp; cases hp
  · unfold groupChannels at hc; split_ifs at hc; omega
  · unfold groupChannels at hc
    split_ifs at hc with g1 g2
    simp only [Except.ok.injEq] at hc
    rw [← hc, Nat.mul_div_cancel' (Nat.dvd_of_mod_eq_zero (by omega))]

theorem sum_range_prod3 (a b c : ℕ) (f : ℕ → α) : ∑ k ∈ range (a * b * c), f k =
    ∑ i ∈ range a, ∑ j ∈ range b, ∑ l ∈ range c, f ((i * b + j) * c + l) := by
  rw [sum_range_mul, sum_range_mul]

/-- along one axis, contracting the padded image with the averaged index pattern averages over output positions -/
theorem meanPattern_sum (f : ℕ → α) (s d p O k I : ℕ) :
    ∑ i ∈ range I, f i * meanPattern s d p O k i =
      (∑ o ∈ range O, if padIn o k s d p I then f (padPos o k s d p) else 0) / O := by
  simp only [meanPattern, mul_div_assoc', mul_sum]
  rw [← sum_div, sum_comm]
  congr 1
  refine sum_congr rfl fun o _ => ?_
  by_cases h : padIn o k s d p I
  · rw [if_pos h, sum_eq_single (padPos o k s d p)]
    · rw [if_pos (by unfold padPos; unfold padIn at h; omega), mul_one]
    · intro i _ hi; rw [if_neg, mul_zero]; unfold padPos at hi; unfold padIn at h; omega
    · intro hi; exact absurd (mem_range.2 (by unfold padPos; unfold padIn at h; omega)) hi
  · rw [if_neg h, sum_eq_zero]
    intro i hi
    rw [if_neg, mul_zero]
    have := mem_range.1 hi
    unfold padIn at h; omega

theorem averaged_entry {x : ND α} {B C I1 I2 : ℕ} (hx : x.shape = [B, C, I1, I2]) (G cin b c k1 k2 O1 O2 : ℕ) (s d p : ℕ × ℕ) :
    ∑ i1 ∈ range I1, ∑ i2 ∈ range I2, groupMean x C I1 I2 G cin b c i1 i2 * meanPattern s.1 d.1 p.1 O1 k1 i1
      * meanPattern s.2 d.2 p.2 O2 k2 i2 =
    (∑ o1 ∈ range O1, ∑ o2 ∈ range O2, gpad x I1 I2 G cin b c ((o1 * s.1 + k1 * d.1 : ℕ) - (p.1 : ℕ))
      ((o2 * s.2 + k2 * d.2 : ℕ) - (p.2 : ℕ))) / ((O1 : α) * O2) := by
  have e1 : ∀ i1, ∑ i2 ∈ range I2, groupMean x C I1 I2 G cin b c i1 i2 * meanPattern s.1 d.1 p.1 O1 k1 i1
      * meanPattern s.2 d.2 p.2 O2 k2 i2 =
      ((∑ o2 ∈ range O2, if padIn o2 k2 s.2 d.2 p.2 I2 then groupMean x C I1 I2 G cin b c i1 (padPos o2 k2 s.2 d.2 p.2) else 0) / O2)
        * meanPattern s.1 d.1 p.1 O1 k1 i1 := by
    intro i1
    rw [← meanPattern_sum, sum_mul]
    exact sum_congr rfl fun i2 _ => by ring
  rw [sum_congr rfl fun i1 _ => e1 i1, meanPattern_sum (fun i1 => (∑ o2 ∈ range O2, if padIn o2 k2 s.2 d.2 p.2 I2 then
    groupMean x C I1 I2 G cin b c i1 (padPos o2 k2 s.2 d.2 p.2) else 0) / O2), mul_comm (O1 : α), ← div_div]
  congr 1
  rw [sum_div]
  refine sum_congr rfl fun o1 _ => ?_
  by_cases h : padIn o1 k1 s.1 d.1 p.1 I1
  · rw [if_pos h]
    congr 1
    refine sum_congr rfl fun o2 _ => ?_
    rw [← groupMean_pad hx]
    by_cases h' : padIn o2 k2 s.2 d.2 p.2 I2
    · rw [if_pos h', if_pos ⟨h, h'⟩]
    · rw [if_neg h', if_neg (fun hh => h' hh.2)]
  · rw [if_neg h, sum_eq_zero, zero_div]
    intro o2 _
    rw [← groupMean_pad hx, if_neg (fun hh => h hh.1)]

theorem extractAveraged_spec {x : ND α} {B C I1 I2 : ℕ} (hx : x.shape = [B, C, I1, I2]) {cfg : ConvCfg} {p r : ℕ × ℕ}
    (hp : cfg.padding = .ints p ∧ r = p ∨ ∃ s, cfg.padding = .str s ∧
      convPaddings cfg.kernel.1 cfg.stride.1 cfg.dilation.1 s = .ok (p.1, r.1) ∧
      convPaddings cfg.kernel.2 cfg.stride.2 cfg.dilation.2 s = .ok (p.2, r.2))
    {cin O1 O2 : ℕ} (hg : 0 < cfg.groups) (hC : C = cfg.groups * cin)
    (h1 : outSize I1 cfg.kernel.1 cfg.stride.1 cfg.dilation.1 p.1 r.1 = .ok O1)
    (h2 : outSize I2 cfg.kernel.2 cfg.stride.2 cfg.dilation.2 p.2 r.2 = .ok O2) :
    ∃ P, extractAveragedPatches x cfg = .ok P ∧ P.rows = B ∧ P.cols = cin * cfg.kernel.1 * cfg.kernel.2 ∧
      ∀ b < B, ∀ c < cin, ∀ k1 < cfg.kernel.1, ∀ k2 < cfg.kernel.2,
        P.get b ((c * cfg.kernel.1 + k1) * cfg.kernel.2 + k2) =
        (∑ o1 ∈ range O1, ∑ o2 ∈ range O2, gpad x I1 I2 cfg.groups cin b c
          ((o1 * cfg.stride.1 + k1 * cfg.dilation.1 : ℕ) - (p.1 : ℕ))
          ((o2 * cfg.stride.2 + k2 * cfg.dilation.2 : ℕ) - (p.2 : ℕ))) / ((O1 : α) * O2) := by
  have hgc : groupChannels C cfg.groups = .ok cin := by
    rw [groupChannels, if_neg (by omega), if_neg (by simp [hC]), hC, Nat.mul_div_cancel_left _ hg]
  refine ⟨?w, ?e, ?r⟩
  case e =>
    rcases hp with ⟨hp, hr⟩ | ⟨s, hp, e1, e2⟩
    · rw [hr] at h1 h2
      simp only [extractAveragedPatches, hp, Except.pure_ok, Except.bind_ok', shape4_eq hx, hgc, h1, h2]
      rfl
    · simp only [extractAveragedPatches, hp, Except.pure_ok, Except.bind_ok', shape4_eq hx, hgc, e1, e2, h1, h2]
  case r =>
    refine ⟨rfl, rfl, ?_⟩
    intro b hb c hc k1 hk1 k2 hk2
    rw [Mat.get_ofFn, if_pos ⟨hb, idx3_lt hc hk1 hk2⟩]
    simp only [(idx3 hk1 hk2 (c := c)).1, (idx3 hk1 hk2 (c := c)).2.1, (idx3 hk1 hk2 (c := c)).2.2]
    rw [averaged_entry hx]
end IOProof
