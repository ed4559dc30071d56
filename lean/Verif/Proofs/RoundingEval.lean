import Verif.Proofs.Rounding
import Verif.Proofs.SM
import Mathlib.Data.Int.Log
import Mathlib.Algebra.Order.Round
import Mathlib.LinearAlgebra.Matrix.Trace

/-! Evaluation with a rounding function, consequences of the error bounds. -/

set_option linter.unusedSectionVars false
open Finset
variable {α : Type} [Field α] [LinearOrder α] [IsStrictOrderedRing α]

/-- a loop: multiply, round, add, round -/
def flDot (fl : α → α) : List (α × α) → α
  | [] => 0
  | t :: ts => ts.foldl (fun s t => fl (s + fl (t.1 * t.2))) (fl (t.1 * t.2))

theorem foldl_dot {u : α} {fl : α → α} (hf : ∀ x, Rnd u x (fl x)) : ∀ (ts xs : List (α × α)) (k : ℕ) (s : α), 1 ≤ k → Dot u k xs s →
    Dot u (k + ts.length) (xs ++ ts) (ts.foldl (fun s t => fl (s + fl (t.1 * t.2))) s)
  | [], xs, k, s, _, h => by simpa using h
  | t :: ts, xs, k, s, hk, h => by
    have h1 : Dot u (k + 1) (xs ++ [t]) (fl (s + fl (t.1 * t.2))) := .add h (.weaken hk (.mul (hf _))) (hf _)
    have := foldl_dot hf ts _ _ _ (by omega) h1
    rw [List.append_assoc, List.singleton_append] at this
    rw [List.length_cons, show k + (ts.length + 1) = k + 1 + ts.length by ring, List.foldl_cons]
    exact this

theorem flDot_dot {u : α} {fl : α → α} (hf : ∀ x, Rnd u x (fl x)) {k : ℕ} : ∀ ts : List (α × α), ts.length ≤ k → Dot u k ts (flDot fl ts)
  | [], _ => .weaken (Nat.zero_le _) .nil
  | t :: ts, h => by
    have := foldl_dot hf ts [t] 1 _ le_rfl (.mul (hf (t.1 * t.2)))
    exact .weaken (by rw [List.length_cons] at h; omega) this

theorem flDot_id (ts : List (α × α)) : flDot id ts = (ts.map fun t => t.1 * t.2).sum := by
  cases ts with
  | nil => rfl
  | cons t ts =>
    have : ∀ (ts : List (α × α)) (s : α), ts.foldl (fun s t => id (s + id (t.1 * t.2))) s = s + (ts.map fun t => t.1 * t.2).sum := by
      intro ts
      induction ts with
      | nil => simp
      | cons t ts ih => intro s; rw [List.foldl_cons, ih]; simp [add_assoc]
    rw [flDot, this]; simp

namespace SM
/-- `self @ X`, evaluated with a rounding function -/
def flMatmul (fl : α → α) (K : SM α) (X : Mat α) : Mat α := Mat.ofFn X.rows X.cols fun i j => flDot fl (K.terms X i j)
/-- `self.rmatmat(X)`, evaluated with a rounding function -/
def flRmatmat (fl : α → α) (K : SM α) (X : Mat α) : Mat α := Mat.ofFn X.rows X.cols fun i j => flDot fl (K.rterms X i j)
end SM

/-- the natural gradient, evaluated with a rounding function -/
def flNatGrad (fl : α → α) (K C : SM α) (s : α) (G : Mat α) : Mat α :=
  let G1 := Mat.ofFn G.rows G.cols fun i j => fl (G.get i j / s)
  let R := K.flMatmul fl (K.flRmatmat fl G1.T)
  C.flMatmul fl (C.flRmatmat fl R.T)

theorem WF.length_terms {c : Cls} {n : ℕ} {K : SM α} (h : WF c n K) (X : Mat α) (i j : ℕ) :
    (K.terms X i j).length ≤ K.chain ∧ (K.rterms X i j).length ≤ K.chain := by
  cases h with
  | dense hr hc => simp [SM.terms, SM.rterms, SM.chain, Mat.terms, SM.toDense, hr, hc]
  | diagonal h => simp [SM.terms, SM.rterms, SM.chain]
  | block h =>
    simp only [SM.terms, SM.rterms, SM.chain, BlockDiag.terms, and_self]
    split <;> simp
  | hier hd hs =>
    simp only [SM.terms, SM.rterms, SM.chain, Hier.terms, Hier.rterms, Hier.dim]
    constructor <;> (split_ifs <;> simp <;> omega)
  | tril _ h => simp [SM.terms, SM.rterms, SM.chain, convTerms]; omega
  | triu _ h => simp [SM.terms, SM.rterms, SM.chain, convTerms]; omega
  | topRight hb hA hr hc hC =>
    have h := WF.topRight hb hA hr hc hC
    have h1 := h.rows; have h2 := h.cols
    simp only [SM.terms, SM.rterms, SM.chain, Mat.terms, List.length_map, List.length_range, Mat.cols_T, h1, h2, le_refl, and_self]
  | bottomLeft hb hA hr hc hC =>
    have h := WF.bottomLeft hb hA hr hc hC
    have h1 := h.rows; have h2 := h.cols
    simp only [SM.terms, SM.rterms, SM.chain, Mat.terms, List.length_map, List.length_range, Mat.cols_T, h1, h2, le_refl, and_self]

section
variable {u : α} (hu : 0 ≤ u) {fl : α → α} (hf : ∀ x, Rnd u x (fl x)) {c : Cls} {n : ℕ} {K : SM α}
include hu hf

theorem WF.flMatmul (h : WF c n K) (X : Mat α) : K.FMatmul u X (K.flMatmul fl X) :=
  ⟨K, X, K.flMatmul fl X, SM.Cast.refl hu K, Mat.Cast.refl hu X, Mat.Cast.refl hu _, rfl, rfl, fun i hi j hj => by
    rw [SM.flMatmul, Mat.get_ofFn, if_pos ⟨hi, hj⟩]
    exact flDot_dot hf _ (h.length_terms X i j).1⟩

theorem WF.flRmatmat (h : WF c n K) (X : Mat α) : K.FRmatmat u X (K.flRmatmat fl X) :=
  ⟨K, X, K.flRmatmat fl X, SM.Cast.refl hu K, Mat.Cast.refl hu X, Mat.Cast.refl hu _, rfl, rfl, fun i hi j hj => by
    rw [SM.flRmatmat, Mat.get_ofFn, if_pos ⟨hi, hj⟩]
    exact flDot_dot hf _ (h.length_terms X i j).2⟩

theorem flNatGrad_spec {cC : Cls} {p : ℕ} {C : SM α} (hK : WF c n K) (hC : WF cC p C) (s : α) (G : Mat α) :
    FNatGrad u K C s G (flNatGrad fl K C s G) := by
  refine ⟨Mat.ofFn G.rows G.cols fun i j => fl (G.get i j / s), _, _, _, _, _, _, ⟨rfl, rfl, fun i j => ?_⟩, Mat.Cast.refl hu _, hK.flRmatmat hu hf _, hK.flMatmul hu hf _, Mat.Cast.refl hu _,
    hC.flRmatmat hu hf _, hC.flMatmul hu hf _, Mat.Cast.refl hu _⟩
  rw [Mat.get_ofFn]
  split_ifs with h
  · exact hf _
  · rw [G.supp i j (by omega), zero_div]; exact Rnd.refl hu _
end

/-- without rounding errors the results are those of the exact model -/
theorem WF.matmul_id {c : Cls} {n : ℕ} {K : SM α} (h : WF c n K) {X : Mat α} (hr : X.rows = n) (hc : 0 < X.cols) :
    K.matmulT X = .ok (K.flMatmul id X) := by
  rw [matmulT_spec h hr hc]
  congr 1
  refine Mat.ext' (h.rows.trans hr.symm) rfl fun i hi j hj => ?_
  have hi' : i < n := by rw [← h.rows]; exact hi
  rw [Mat.get_mul, h.cols, SM.flMatmul, Mat.get_ofFn, if_pos ⟨hr ▸ hi', hj⟩, flDot_id, h.sum_terms (g := fun a b => a * b) (by simp) (by simp) hr hi']

theorem WF.rmatmat_id {c : Cls} {n : ℕ} {K : SM α} (h : WF c n K) {X : Mat α} (hr : X.rows = n) (hc : 0 < X.cols) :
    K.rmatmat X = .ok (K.flRmatmat id X) := by
  have e : K.rmatmat X = .ok ((c.rdense K.toDense).mul X) := by
    cases c with
    | block D => exact rmatmat_block h hr
    | _ => exact rmatmat_spec (by simp [Cls.IsBlock]) h hr hc
  have e1 : (c.rdense K.toDense).rows = n ∧ (c.rdense K.toDense).cols = n := by
    cases c <;> simp [Cls.rdense, h.rows, h.cols]
  rw [e]
  congr 1
  refine Mat.ext' (e1.1.trans hr.symm) rfl fun i hi j hj => ?_
  have hi' : i < n := by rw [← e1.1]; exact hi
  rw [Mat.get_mul, e1.2, SM.flRmatmat, Mat.get_ofFn, if_pos ⟨hr ▸ hi', hj⟩, flDot_id, h.sum_rterms (g := fun a b => a * b) (by simp) (by simp) hr hi']

theorem Rnd.of_zero {x y : α} (h : Rnd 0 x y) : y = x := by
  rw [Rnd, zero_mul] at h; exact sub_eq_zero.1 (abs_eq_zero.1 (le_antisymm h (abs_nonneg _)))

/-! Binary floating point -/

section binary
variable [FloorRing α]

/-- exponent of the last of `p` bits -/
def lastBit (p : ℕ) (x : α) : ℤ := Int.log 2 |x| + 1 - p

/-- rounding to the nearest binary number with `p` significant bits -/
def flBin (p : ℕ) (x : α) : α := (round (x / 2 ^ lastBit p x) : ℤ) * 2 ^ lastBit p x

theorem flBin_rnd (p : ℕ) (x : α) : Rnd ((2 : α) ^ (-p : ℤ)) x (flBin p x) := by
  have h2 : (0 : α) < 2 := by norm_num
  by_cases hx : x = 0
  · subst hx; simp [Rnd, flBin]
  have e0 : (0 : α) < 2 ^ lastBit p x := zpow_pos h2 _
  have h := abs_sub_round (x / 2 ^ lastBit p x)
  have hl := Int.zpow_log_le_self (b := 2) (by norm_num) (abs_pos.2 hx)
  have e1 : flBin p x - x = -((x / 2 ^ lastBit p x - (round (x / 2 ^ lastBit p x) : ℤ)) * 2 ^ lastBit p x) := by
    rw [sub_mul, div_mul_cancel₀ _ e0.ne', flBin]; ring
  rw [Rnd, e1, abs_neg, abs_mul, abs_of_pos e0]
  have e2 : (2 : α) ^ lastBit p x = 2 ^ (-p : ℤ) * 2 ^ Int.log 2 |x| * 2 := by
    rw [lastBit, ← zpow_add₀ h2.ne', ← zpow_add_one₀ h2.ne']; congr 1; ring
  push_cast at hl
  calc _ ≤ 1 / 2 * (2 : α) ^ lastBit p x := mul_le_mul_of_nonneg_right h e0.le
    _ = 2 ^ (-p : ℤ) * 2 ^ Int.log 2 |x| := by rw [e2]; ring
    _ ≤ _ := mul_le_mul_of_nonneg_left hl (zpow_pos h2 _).le
end binary

/-! Consequences -/

/-- diagonal matrices are diagonal -/
theorem WF.den_diagonal {n : ℕ} {L : SM α} (h : WF .diagonal n L) : ∃ d : Fin n → α, L.den n = Matrix.diagonal d := by
  cases h with
  | @diagonal _ d h =>
    refine ⟨fun i => d.get i, ?_⟩
    ext i j
    simp only [SM.den, SM.toDense, Mat.M, Diagonal.get_toDense, Matrix.diagonal_apply, Fin.ext_iff]

/-- for diagonal factors there is no cancellation: the bound is relative to the exact value -/
theorem diag_bound {p q : ℕ} {K C : SM α} (hK : WF .diagonal q K) (hC : WF .diagonal p C) (G : Matrix (Fin p) (Fin q) α) :
    Cls.gram .diagonal (absM (C.den p)) * absM G * (Cls.gram .diagonal (absM (K.den q))).transpose =
      absM (Cls.gram .diagonal (C.den p) * G * (Cls.gram .diagonal (K.den q)).transpose) := by
  have abs : ∀ {n : ℕ} (d : Fin n → α), absM (Matrix.diagonal d) = Matrix.diagonal fun i => |d i| := by
    intro n d; ext i j
    simp only [absM, Matrix.map_apply, Matrix.diagonal_apply]; split_ifs <;> simp
  obtain ⟨d, hd⟩ := hK.den_diagonal
  obtain ⟨e, he⟩ := hC.den_diagonal
  rw [hd, he, abs, abs]
  ext i j
  simp only [Cls.gram, Matrix.diagonal_transpose, Matrix.diagonal_mul_diagonal, Matrix.mul_diagonal, Matrix.diagonal_mul, absM,
    Matrix.map_apply, abs_mul]

/-- inner product of the gradient and the computed direction -/
theorem MApp.inner {u : α} {k p q : ℕ} {B E : Matrix (Fin p) (Fin q) α} {N : Mat α} (h : MApp u k B E N) (G : Matrix (Fin p) (Fin q) α) :
    |∑ i, ∑ j, G i j * N.get i j - ∑ i, ∑ j, G i j * E i j| ≤ ((1 + u) ^ k - 1) * ∑ i, ∑ j, |G i j| * B i j := by
  rw [← Finset.sum_sub_distrib, Finset.mul_sum]
  refine (Finset.abs_sum_le_sum_abs _ _).trans (Finset.sum_le_sum fun i _ => ?_)
  rw [← Finset.sum_sub_distrib, Finset.mul_sum]
  refine (Finset.abs_sum_le_sum_abs _ _).trans (Finset.sum_le_sum fun j _ => ?_)
  rw [← mul_sub, abs_mul]
  have := mul_le_mul_of_nonneg_left (h i j).err (abs_nonneg (G i j))
  linarith

/-- `⟨G, C Cᵀ G K Kᵀ⟩ = ‖Cᵀ G K‖²` -/
theorem inner_gram {p q : ℕ} (C : Matrix (Fin p) (Fin p) α) (K : Matrix (Fin q) (Fin q) α) (G : Matrix (Fin p) (Fin q) α) :
    ∑ i, ∑ j, G i j * (C * C.transpose * G * (K * K.transpose).transpose) i j = ∑ i, ∑ j, (C.transpose * G * K) i j ^ 2 := by
  have tr : ∀ A B : Matrix (Fin p) (Fin q) α, ∑ i, ∑ j, A i j * B i j = (A * B.transpose).trace := fun A B => by
    simp [Matrix.trace, Matrix.mul_apply]
  simp only [sq, tr]
  simp only [Matrix.transpose_mul, Matrix.transpose_transpose, Matrix.mul_assoc]
  rw [Matrix.trace_mul_comm C.transpose]
  simp only [Matrix.mul_assoc]

/-- errors of one entry of a parameter update and of its momentum buffer -/
theorem FParam.err {u : α} (hu : 0 ≤ u) {h : Hyper α} {k : ℕ} {p b n n' B p' b' : α} (hn : App u k B n n') (hp : FParam u h p b n' p' b') :
    App u (k + 5) (|p| + |h.lr| * (|b| * |h.momentum| + (B + |h.weightDecay| * |p|)))
      (p - h.lr * (b * h.momentum + (n + h.weightDecay * p))) p' ∧
    (h.momentum ≠ 0 → App u (k + 3) (|b| * |h.momentum| + (B + |h.weightDecay| * |p|)) (b * h.momentum + (n + h.weightDecay * p)) b') ∧
    (h.momentum = 0 → b' = b) := by
  obtain ⟨step, h1, h2⟩ := hp
  have s1 : App u (k + 2) (B + |h.weightDecay| * |p|) (n + h.weightDecay * p) step := by
    split_ifs at h1 with hw
    · obtain ⟨t, ht, hs⟩ := h1
      have e : App u (k + 1) (|h.weightDecay| * |p|) (h.weightDecay * p) t := by
        rw [← abs_mul]; exact ((App.self _).rnd hu ht).mono hu (by omega) le_rfl
      exact (hn.mono hu (Nat.le_succ k) le_rfl).add hu e hs
    · rw [not_not] at hw
      rw [h1, hw, abs_zero, zero_mul, zero_mul, add_zero, add_zero]
      exact hn.mono hu (by omega) le_rfl
  have axpy : ∀ {j : ℕ} {D y y' : α}, App u j D y y' → FAxpy u p (-h.lr) y' p' →
      App u (j + 2) (|p| + |h.lr| * D) (p - h.lr * y) p' := by
    rintro j D y y' hy ⟨t, ht, hs⟩
    have e := (App.self (-h.lr)).mul hu hy ht
    rw [Nat.zero_add, abs_neg] at e
    have := ((App.self p).mono hu (Nat.zero_le (j + 1)) le_rfl).add hu e hs
    rwa [neg_mul, ← sub_eq_add_neg] at this
  split_ifs at h2 with hm
  · obtain ⟨⟨t, ht, hs⟩, h3⟩ := h2
    have e : App u (k + 2) (|b| * |h.momentum|) (b * h.momentum) t := by
      rw [← abs_mul]; exact ((App.self _).rnd hu ht).mono hu (by omega) le_rfl
    have s2 := e.add hu s1 hs
    exact ⟨axpy s2 h3, fun _ => s2, fun h => absurd h hm⟩
  · rw [not_not] at hm
    refine ⟨?_, fun h => absurd hm h, fun _ => h2.1⟩
    rw [hm, abs_zero, mul_zero, mul_zero, zero_add, zero_add]
    exact (axpy s1 h2.2).mono hu (by omega) le_rfl
