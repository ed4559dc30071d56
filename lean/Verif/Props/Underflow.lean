import Verif.Model.Underflow
import Verif.Props.Overflow

/-!
# Underflow and rounding (C99)
-/

namespace Ov

section bad
variable {α : Type} [Field α] [LinearOrder α] {cK cC : Cls} {n d : ℕ}

theorem flush_bad (ε : α) (x : Fl α) : (x.flush ε).Bad ↔ x.Bad := by
  rcases x with x | s | _
  · simp only [Fl.flush]
    split_ifs <;> exact Iff.rfl
  · exact Iff.rfl
  · exact Iff.rfl

/-- **Underflow and rounding neither make nor repair infinite values and NaN.** For any way of storing that maps numbers to numbers, the entries of a layer that are infinite or NaN after a history are
those that are without rounding. -/
theorem C99_rounding {st : Fl α → Fl α} (h : ∀ x, (st x).Bad ↔ x.Bad) (l : Lay α) (s : Nn.Shape cK cC (badL l)) (ops : List (Op α)) : badL (run st n d l ops) = badL (run id n d l ops) := by
  rw [C97_exact h l s ops, C97_exact (st := id) (fun _ => Iff.rfl) l s ops]

example (w : ℚ) (ops : List (Op ℚ)) : badL (run (Fl.flush (1 / 1000)) 1 1 (Sample.single w) ops) = badL (run id 1 1 (Sample.single w) ops) :=
  C99_rounding (flush_bad _) _ (Sample.single_shape w) ops

end bad

section vanish
variable {α : Type} [Field α] [LinearOrder α] [IsStrictOrderedRing α]

omit [IsStrictOrderedRing α] in
theorem flush_small {ε x : α} (h : |x| < ε) : (Fl.fin x).flush ε = .fin 0 := by simp only [Fl.flush, if_pos h]

omit [IsStrictOrderedRing α] in
theorem flush_large {ε x : α} (h : ε ≤ |x|) : (Fl.fin x).flush ε = .fin x := by simp only [Fl.flush, if_neg (not_lt.2 h)]

/-- what is stored is a number that is not larger -/
theorem flush_le (ε x : α) : ∃ y, (Fl.fin x).flush ε = .fin y ∧ |y| ≤ |x| := by
  by_cases h : |x| < ε
  · exact ⟨0, flush_small h, by rw [abs_zero]; exact abs_nonneg _⟩
  · exact ⟨x, flush_large (not_lt.1 h), le_rfl⟩

omit [IsStrictOrderedRing α] in
theorem flush_zero (ε : α) : (Fl.fin (0 : α)).flush ε = .fin 0 := by
  simp only [Fl.flush]
  split_ifs <;> rfl

/-- **Statistics that vanish.** A dense factor with entries of size at most `κ` and data of size at most `x` in `m` columns: if `m (n κ x)²` is below the smallest number, the statistics are zero, although
`n κ x` and the data may be far above it. -/
theorem C99_vanish {ε κ x : α} {n m : ℕ} {K X : ℕ → ℕ → α} (hK : ∀ i < n, ∀ j < n, |K i j| ≤ κ) (hX : ∀ i < n, ∀ t < m, |X i t| ≤ x) (h : m * (n * (κ * x)) ^ 2 < ε) :
    ∃ H : M α, innerX (Fl.flush ε) n (.dense fun i j => .fin (K i j)) m (fun i t => .fin (X i t)) = .dense H ∧ ∀ i < n, ∀ j < n, H i j = .fin 0 := by
  have bS : ∀ i < n, ∀ t < m, |∑ s ∈ Finset.range n, K s i * X s t| ≤ n * (κ * x) := by
    intro i hi t ht
    refine (Finset.abs_sum_le_sum_abs _ _).trans ((Finset.sum_le_card_nsmul _ _ (κ * x) fun s hs => ?_).trans_eq (by rw [Finset.card_range, nsmul_eq_mul]))
    have hs := Finset.mem_range.1 hs
    rw [abs_mul]
    exact mul_le_mul (hK s hs i hi) (hX s hs t ht) (abs_nonneg _) ((abs_nonneg _).trans (hK s hs i hi))
  have S : ∀ i t, ∃ y, rmatmat (Fl.flush ε) n (.dense fun i j => .fin (K i j)) (fun i t => .fin (X i t)) i t = .fin y ∧ |y| ≤ |∑ s ∈ Finset.range n, K s i * X s t| := by
    intro i t
    have e : rmatmat (Fl.flush ε) n (.dense fun i j => .fin (K i j)) (fun i t => .fin (X i t)) i t = (Fl.fin (∑ s ∈ Finset.range n, K s i * X s t)).flush ε := by
      rw [← sum_fin]; rfl
    rw [e]
    exact flush_le _ _
  choose Y hY hle using S
  refine ⟨_, rfl, fun i hi j hj => ?_⟩
  have e : mm (Fl.flush ε) m (rmatmat (Fl.flush ε) n (.dense fun i j => .fin (K i j)) (fun i t => .fin (X i t))) (tr (rmatmat (Fl.flush ε) n (.dense fun i j => .fin (K i j)) (fun i t => .fin (X i t)))) i j =
      (Fl.fin (∑ t ∈ Finset.range m, Y i t * Y j t)).flush ε := by
    rw [mm, ← sum_fin]
    congr 1
    exact sum_congr m fun t _ => by rw [hY, tr, hY]; rfl
  refine e.trans (flush_small (lt_of_le_of_lt ?_ h))
  refine (Finset.abs_sum_le_sum_abs _ _).trans ((Finset.sum_le_card_nsmul _ _ ((n * (κ * x)) ^ 2) fun t ht => ?_).trans_eq (by rw [Finset.card_range, nsmul_eq_mul]))
  have ht := Finset.mem_range.1 ht
  rw [abs_mul, sq]
  have a := (hle i t).trans (bS i hi t ht)
  have b := (hle j t).trans (bS j hj t ht)
  exact mul_le_mul a b (abs_nonneg _) ((abs_nonneg _).trans a)

/-- data of size 1/10000 in ten columns, numbers below 1/1000000 vanish -/
example (X : ℕ → ℕ → ℚ) (hX : ∀ i < 2, ∀ t < 10, |X i t| ≤ 1 / 10000) :
    ∃ H : M ℚ, innerX (Fl.flush (1 / 1000000)) 2 (.dense fun i j => .fin (if i = j then 1 else 0)) 10 (fun i t => .fin (X i t)) = .dense H ∧ ∀ i < 2, ∀ j < 2, H i j = .fin 0 :=
  C99_vanish (κ := 1) (K := fun i j => if i = j then 1 else 0) (fun i _ j _ => by split_ifs <;> simp) hX (by norm_num)

end vanish

/-! ### curvature that is lost although gradients are not -/

/-- KFAC's rule without damping and momenta, for a loss scaled by `S` -/
noncomputable def plain (β η S : ℝ) : Hyp ℝ :=
  { kfac := true, alpha1 := 0, damping := 0, half := 1 / 2, lrCov := β, norms := none, momentum := 0, weightDecay := 0, lr := η, unscale := 1 / S, inv := 1 / S }

/-- one weight: a backward pass with input 1 and output gradient `v`, scaled by `S`, and a step that updates the pre-conditioner -/
noncomputable def trainOnce (st : Fl ℝ → Fl ℝ) (β η S v w : ℝ) : Lay ℝ :=
  run st 1 1 (Sample.single w) [.backward 1 (fun _ _ => .fin 1) 1 (fun _ _ => .fin (S * v)) (1 / √S), .step (plain β η S) true fun _ _ => .fin (S * v)]

/-- the entry of the factor `C` -/
def entryC (l : Lay ℝ) : Fl ℝ := match l.C with
  | .dense m => m 0 0
  | _ => .nan

theorem fin_add' (x y : ℝ) : (Fl.fin x + Fl.fin y : Fl ℝ) = .fin (x + y) := rfl
theorem fin_mul' (x y : ℝ) : (Fl.fin x * Fl.fin y : Fl ℝ) = .fin (x * y) := rfl

/-- what is stored in `C`, operation by operation -/
theorem entryC_eq (st : Fl ℝ → Fl ℝ) (β η S v w : ℝ) :
    let a := st (.fin 0 + .fin 1 * st (.fin (1 / √S) * .fin (S * v)))
    let H := st (.fin 0 + a * a)
    let m := st (.fin (1 / 2) * st (st (st (.fin 0 + .fin (1 / S) * H) + .fin 0 * st (.fin 0 + .fin 1 * .fin 1)) + .fin (-1)))
    entryC (trainOnce st β η S v w) = st (.fin 1 + .fin (-β) * st (.fin 0 + .fin 1 * m)) := by
  intro a H m
  simp only [trainOnce, run, List.foldl, exec, step, update, backward, Sample.single, plain, if_true, ne_eq, not_true_eq_false, if_false, Option.elim]
  rfl

theorem C99_exact_curvature {β η S v w : ℝ} (hS : 0 < S) : entryC (trainOnce id β η S v w) = .fin (1 - β / 2 * (v ^ 2 - 1)) := by
  have hs : √S ≠ 0 := (Real.sqrt_pos.2 hS).ne'
  have e : (1 / √S * (S * v)) * (1 / √S * (S * v)) = S * v ^ 2 := by
    have := Real.mul_self_sqrt hS.le
    field_simp
    nlinarith
  rw [entryC_eq]
  simp only [id, fin_add', fin_mul', zero_add, one_mul, zero_mul, add_zero]
  rw [e]
  congr 1
  field_simp
  ring

/-- storing changes a number by less than `ε` -/
theorem flush_near {ε : ℝ} (hε : 0 < ε) (x : ℝ) : ∃ y, (Fl.fin x).flush ε = .fin y ∧ |y - x| ≤ ε := by
  by_cases h : |x| < ε
  · exact ⟨0, flush_small h, by rw [zero_sub, abs_neg]; exact h.le⟩
  · exact ⟨x, flush_large (not_lt.1 h), by rw [sub_self, abs_zero]; exact hε.le⟩

/-- the statistic of the output gradient is off by at most `ε` -/
theorem flush_square {ε a : ℝ} (hε : 0 < ε) (h1 : ε ≤ 1) : ∃ b y : ℝ, (Fl.fin a).flush ε = .fin b ∧ (Fl.fin b).flush ε = .fin b ∧ (Fl.fin (b * b)).flush ε = .fin y ∧ |y - a * a| ≤ ε ∧ (a * a < ε → y = 0) := by
  by_cases h : |a| < ε
  · refine ⟨0, 0, flush_small h, flush_zero ε, by rw [mul_zero, flush_zero], ?_, fun _ => rfl⟩
    rw [zero_sub, abs_neg, abs_mul]
    nlinarith [abs_nonneg a]
  · have h := not_lt.1 h
    obtain ⟨y, e, hy⟩ := flush_near hε (a * a)
    refine ⟨a, y, flush_large h, flush_large h, e, hy, fun hs => ?_⟩
    rw [flush_small (by rw [abs_mul_self]; exact hs)] at e
    injection e with e; exact e.symm

theorem scaled_square {S v : ℝ} (hS : 0 < S) : (1 / √S * (S * v)) * (1 / √S * (S * v)) = S * v ^ 2 := by
  have hs : √S ≠ 0 := (Real.sqrt_pos.2 hS).ne'
  have := Real.mul_self_sqrt hS.le
  field_simp
  nlinarith

/-- **Curvature that underflows is lost without notice.** The gradient `S v` is kept by the type, `S v²` is below its smallest number: the factor `C` becomes what it would be with a zero gradient. -/
theorem C99_lost_curvature {β η S v w ε : ℝ} (hS : 0 < S) (hβ : 0 ≤ β) (hε : 0 < ε) (h1 : ε ≤ S * |v|) (h2 : S * v ^ 2 < ε) (h3 : ε ≤ 1 / 2) :
    (Fl.fin (S * v)).flush ε = .fin (S * v) ∧ entryC (trainOnce (Fl.flush ε) β η S v w) = entryC (trainOnce id β η S 0 w) := by
  refine ⟨flush_large (by rw [abs_mul, abs_of_pos hS]; exact h1), ?_⟩
  obtain ⟨b, y, e1, e1', e2, -, e4⟩ := flush_square (a := 1 / √S * (S * v)) hε (by linarith)
  have y0 := e4 (by rw [scaled_square hS]; exact h2)
  subst y0
  rw [C99_exact_curvature hS, entryC_eq]
  simp only [fin_add', fin_mul', zero_add, one_mul, mul_one, e1, e1', e2]
  obtain ⟨z, e5, -⟩ := flush_near hε 1
  rw [mul_zero, flush_zero, e5]
  simp only [fin_add', fin_mul', zero_add, zero_mul, flush_zero]
  have a1 : (Fl.fin (-1 : ℝ)).flush ε = .fin (-1) := flush_large (by rw [abs_neg, abs_one]; linarith)
  have a2 : (Fl.fin (1 / 2 * -1 : ℝ)).flush ε = .fin (1 / 2 * -1) := flush_large (by rw [mul_neg_one, abs_neg, abs_of_pos (by norm_num)]; exact h3)
  simp only [a1, a2, fin_add', fin_mul', zero_add, one_mul]
  rw [flush_large]
  · congr 1; ring
  · rw [abs_of_pos (by nlinarith)]; nlinarith

/-- **Otherwise underflow is harmless**: in all cases the entry of `C` is a number, off by at most `β (ε / S + 7 ε) / 2 + ε`. Only a scale as small as `ε` can make this large. -/
theorem C99_small_error {β η S v w ε : ℝ} (hS : 0 < S) (hβ : 0 ≤ β) (hε : 0 < ε) (h1 : ε ≤ 1) :
    ∃ c : ℝ, entryC (trainOnce (Fl.flush ε) β η S v w) = .fin c ∧ |c - (1 - β / 2 * (v ^ 2 - 1))| ≤ β * (ε / S + 7 * ε) / 2 + ε := by
  obtain ⟨b, y, e1, e1', e2, e3, -⟩ := flush_square (a := 1 / √S * (S * v)) hε h1
  rw [scaled_square hS] at e3
  rw [entryC_eq]
  simp only [fin_add', fin_mul', zero_add, one_mul, mul_one, e1, e1', e2]
  obtain ⟨z, e5, -⟩ := flush_near hε 1
  obtain ⟨x1, f1, g1⟩ := flush_near hε (1 / S * y)
  rw [e5, f1]
  simp only [fin_add', fin_mul', zero_mul, add_zero]
  obtain ⟨x2, f2, g2⟩ := flush_near hε x1
  rw [f2]; simp only [fin_add', fin_mul']
  obtain ⟨x3, f3, g3⟩ := flush_near hε (x2 + -1)
  rw [f3]; simp only [fin_add', fin_mul']
  obtain ⟨x4, f4, g4⟩ := flush_near hε (1 / 2 * x3)
  rw [f4]; simp only [fin_add', fin_mul', one_mul, zero_add]
  obtain ⟨x5, f5, g5⟩ := flush_near hε x4
  rw [f5]; simp only [fin_add', fin_mul']
  obtain ⟨x6, f6, g6⟩ := flush_near hε (1 + -β * x5)
  refine ⟨x6, f6, ?_⟩
  have k1 : |1 / S * y - v ^ 2| ≤ ε / S := by
    have : 1 / S * y - v ^ 2 = (y - S * v ^ 2) / S := by field_simp
    rw [this, abs_div, abs_of_pos hS]
    exact div_le_div_of_nonneg_right e3 hS.le
  have k2 : |x5 - (v ^ 2 - 1) / 2| ≤ (ε / S + 7 * ε) / 2 := by
    rw [abs_le] at *
    constructor <;> linarith [k1.1, k1.2, g1.1, g1.2, g2.1, g2.2, g3.1, g3.2, g4.1, g4.2, g5.1, g5.2]
  have k3 : |β * (x5 - (v ^ 2 - 1) / 2)| ≤ β * ((ε / S + 7 * ε) / 2) := by rw [abs_mul, abs_of_nonneg hβ]; exact mul_le_mul_of_nonneg_left k2 hβ
  rw [abs_le] at *
  constructor <;> linarith [k3.1, k3.2, g6.1, g6.2]

/-- half precision without subnormal numbers (smallest number about 6e-5), scale 1, gradient 1/1000 -/
example : entryC (trainOnce (Fl.flush (6 / 100000)) (1 / 10) (1 / 10) 1 (1 / 1000) 5) = entryC (trainOnce id (1 / 10) (1 / 10) 1 0 5) :=
  (C99_lost_curvature (by norm_num) (by norm_num) (by norm_num) (by rw [abs_of_pos] <;> norm_num) (by norm_num) (by norm_num)).2

example : ∃ c : ℝ, entryC (trainOnce (Fl.flush (6 / 100000)) (1 / 10) (1 / 10) 1024 3 5) = .fin c ∧ |c - (1 - 1 / 10 / 2 * (3 ^ 2 - 1))| ≤ 1 / 10 * (6 / 100000 / 1024 + 7 * (6 / 100000)) / 2 + 6 / 100000 :=
  C99_small_error (by norm_num) (by norm_num) (by norm_num) (by norm_num)

end Ov
