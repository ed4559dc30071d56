import Verif.Model.Rounding
import Verif.Proofs.Recursive
import Verif.SpecOpt
import Mathlib.Tactic.Positivity

/-! Error analysis of rounded sums of products. -/

set_option linter.unusedSectionVars false
variable {α : Type} [Field α] [LinearOrder α] [IsStrictOrderedRing α]

/-- `y` approximates `x` with an error of at most `((1 + u)^k - 1) b`, where `b` bounds `|x|` -/
structure App (u : α) (k : ℕ) (b x y : α) : Prop where
  bound : |x| ≤ b
  err : |y - x| ≤ ((1 + u) ^ k - 1) * b

section
variable {u : α} (hu : 0 ≤ u)
include hu

theorem one_le_gr (k : ℕ) : 1 ≤ (1 + u) ^ k := one_le_pow₀ (by linarith)
theorem gr_mono {k l : ℕ} (h : k ≤ l) : (1 + u) ^ k ≤ (1 + u) ^ l := pow_le_pow_right₀ (by linarith) h

theorem Rnd.refl (x : α) : Rnd u x x := by
  unfold Rnd; rw [sub_self, abs_zero]; exact mul_nonneg hu (abs_nonneg _)
theorem Rnd.zero {y : α} (h : Rnd u 0 y) : y = 0 := by
  unfold Rnd at h
  rw [abs_zero, mul_zero, sub_zero] at h
  exact abs_eq_zero.1 (le_antisymm h (abs_nonneg _))
end

namespace App
variable {u : α} {k l : ℕ} {b b' x x' y y' z : α}

theorem self (x : α) : App u 0 |x| x x := ⟨le_rfl, by simp⟩
theorem nonneg (h : App u k b x y) : 0 ≤ b := (abs_nonneg _).trans h.bound
/-- the approximation is bounded, too -/
theorem size (h : App u k b x y) : |y| ≤ (1 + u) ^ k * b := by
  have h1 := abs_add_le x (y - x)
  have h2 := h.bound
  have h3 := h.err
  rw [add_sub_cancel] at h1
  linarith

variable (hu : 0 ≤ u)
include hu

theorem mono (h : App u k b x y) (hk : k ≤ l) (hb : b ≤ b') : App u l b' x y := by
  refine ⟨h.bound.trans hb, h.err.trans ?_⟩
  have := gr_mono hu hk
  have := one_le_gr hu k
  exact mul_le_mul (by linarith) hb h.nonneg (by linarith)

/-- an approximation of an approximation -/
theorem trans (h : App u k b x y) (h' : |z - y| ≤ ((1 + u) ^ l - 1) * ((1 + u) ^ k * b)) : App u (k + l) b x z := by
  refine ⟨h.bound, ?_⟩
  have h1 := abs_add_le (z - y) (y - x)
  have h2 := h.err
  rw [sub_add_sub_cancel] at h1
  rw [pow_add]
  nlinarith

theorem rnd (h : App u k b x y) (hz : Rnd u y z) : App u (k + 1) b x z := by
  refine h.trans hu (hz.trans ?_)
  rw [pow_one, add_sub_cancel_left]
  exact mul_le_mul_of_nonneg_left h.size hu

theorem add (h : App u k b x y) (h' : App u k b' x' y') (hz : Rnd u (y + y') z) : App u (k + 1) (b + b') (x + x') z := by
  have h1 : App u k (b + b') (x + x') (y + y') := by
    refine ⟨(abs_add_le _ _).trans (add_le_add h.bound h'.bound), ?_⟩
    have := abs_add_le (y - x) (y' - x')
    rw [show y + y' - (x + x') = y - x + (y' - x') by ring]
    have := h.err; have := h'.err
    linarith
  exact h1.rnd hu hz

theorem mulExact (h : App u k b x y) (h' : App u l b' x' y') : App u (k + l) (b * b') (x * x') (y * y') := by
  refine ⟨by rw [abs_mul]; exact mul_le_mul h.bound h'.bound (abs_nonneg _) h.nonneg, ?_⟩
  have e : y * y' - x * x' = (y - x) * y' + x * (y' - x') := by ring
  have h1 := abs_add_le ((y - x) * y') (x * (y' - x'))
  rw [← e, abs_mul, abs_mul] at h1
  have g0 := one_le_gr hu k
  have g1 := one_le_gr hu l
  have h2 : |y - x| * |y'| ≤ ((1 + u) ^ k - 1) * b * ((1 + u) ^ l * b') :=
    mul_le_mul h.err h'.size (abs_nonneg _) (mul_nonneg (by linarith) h.nonneg)
  have h3 : |x| * |y' - x'| ≤ b * (((1 + u) ^ l - 1) * b') := mul_le_mul h.bound h'.err (abs_nonneg _) h.nonneg
  rw [pow_add]
  linarith

theorem mul (h : App u k b x y) (h' : App u l b' x' y') (hz : Rnd u (y * y') z) : App u (k + l + 1) (b * b') (x * x') z :=
  (h.mulExact hu h').rnd hu hz
end App

/-- the error of a sum of products, whatever the order of evaluation -/
theorem Dot.err {u : α} (hu : 0 ≤ u) {k : ℕ} {ts : List (α × α)} {y : α} (h : Dot u k ts y) :
    App u k (ts.map fun t => |t.1| * |t.2|).sum (ts.map fun t => t.1 * t.2).sum y := by
  induction h with
  | nil => simpa using App.self (u := u) (0 : α)
  | mul h =>
    simp only [List.map_cons, List.map_nil, List.sum_cons, List.sum_nil, add_zero]
    rw [← abs_mul]
    exact (App.self _).rnd hu h
  | add hx hz h ihx ihz =>
    simp only [List.map_append, List.sum_append]
    exact ihx.add hu ihz h
  | @fma k xs a b y s hx h ih =>
    simp only [List.map_append, List.sum_append, List.map_cons, List.map_nil, List.sum_cons, List.sum_nil, add_zero]
    have h0 : App u k (|a| * |b|) (a * b) (a * b) := by
      rw [← abs_mul]; exact (App.self (a * b)).mono hu (Nat.zero_le _) le_rfl
    exact ih.add hu h0 h
  | perm h hx ih =>
    rw [← (h.map _).sum_eq, ← (h.map _).sum_eq]; exact ih
  | weaken h hx ih => exact ih.mono hu h le_rfl

/-! Sums over the terms -/

section sums
open Finset
variable {g : α → α → α}

theorem sum_range_list (f : ℕ → α) (n : ℕ) : ((List.range n).map f).sum = ∑ i ∈ range n, f i := by
  induction n with
  | zero => simp
  | succ n ih => rw [List.range_succ, List.map_append, List.sum_append, ih, sum_range_succ]; simp

/-- a sum with all terms outside a window equal to 0 -/
theorem sum_shifted {F : ℕ → α} {a w n : ℕ} (h : a + w ≤ n) (h0 : ∀ k < n, k < a ∨ a + w ≤ k → F k = 0) :
    ∑ k ∈ range n, F k = ∑ t ∈ range w, F (a + t) := by
  obtain ⟨m, rfl⟩ := Nat.exists_eq_add_of_le h
  rw [sum_range_add, sum_range_add]
  rw [sum_eq_zero (s := range a) (fun k hk => h0 k (by simp at hk; omega) (Or.inl (by simpa using hk))),
    sum_eq_zero (s := range m) (fun k hk => h0 _ (by simp at hk; omega) (Or.inr (by omega)))]
  simp

theorem Mat.sum_terms (A X : Mat α) (i j : ℕ) :
    ((A.terms X i j).map fun t => g t.1 t.2).sum = ∑ k ∈ range A.cols, g (A.get i k) (X.get k j) := by
  rw [Mat.terms, List.map_map]; exact sum_range_list _ _

variable (g0 : ∀ x, g 0 x = 0) (g1 : ∀ x, g x 0 = 0)
include g0

theorem Diagonal.sum_terms {d : Vec α} {n : ℕ} (hd : d.len = n) (X : Mat α) {i : ℕ} (hi : i < n) (j : ℕ) :
    g (d.get i) (X.get i j) = ∑ k ∈ range n, g ((Diagonal.toDense d).get i k) (X.get k j) := by
  rw [sum_eq_single i]
  · rw [Diagonal.get_toDense, if_pos rfl]
  · intro k _ hk; rw [Diagonal.get_toDense, if_neg (Ne.symm hk), g0]
  · intro h; simp [hi] at h

theorem BlockDiag.sum_terms {b : BlockDiag α} {D n : ℕ} (h : b.WF D n) (X : Mat α) {i : ℕ} (hi : i < n) (j : ℕ) :
    ((b.terms X i j).map fun t => g t.1 t.2).sum = ∑ k ∈ range n, g (b.toDense.get i k) (X.get k j) := by
  have hn := Nat.div_add_mod n D
  have hm : n % D < D := Nat.mod_lt _ h.pos
  have hi' : i = i / D * D + i % D := by rw [Nat.mul_comm]; exact (Nat.div_add_mod i D).symm
  have hr : i % D < D := Nat.mod_lt _ h.pos
  have zero : ∀ k, k / D ≠ i / D → b.toDense.get i k = 0 := fun k hk => by
    have hk' : k = k / D * D + k % D := by rw [Nat.mul_comm]; exact (Nat.div_add_mod k D).symm
    rw [hi', hk', BlockDiag.get_toDense h hr (Nat.mod_lt _ h.pos), if_neg (Ne.symm hk)]
  have out : ∀ w k, w ≤ D → (k < i / D * D ∨ i / D * D + D ≤ k) → k / D ≠ i / D := fun w k hw hk he => by
    have h1 := Nat.div_add_mod k D
    have h2 := Nat.mod_lt k h.pos
    rw [he, Nat.mul_comm] at h1
    omega
  unfold BlockDiag.terms
  rw [h.d0, h.hD, h.lc]
  split
  · rename_i hlt
    have hq : i / D < n / D := Nat.div_lt_of_lt_mul (by rw [Nat.mul_comm]; exact hlt)
    have hle : i / D * D + D ≤ n := by
      have := Nat.mul_le_mul_right D hq
      rw [Nat.succ_mul] at this
      have := Nat.div_mul_le_self n D
      omega
    rw [List.map_map, sum_range_list, sum_shifted hle fun k _ hk => by rw [zero k (out D k le_rfl hk), g0]]
    refine sum_congr rfl fun k hk => ?_
    have hk : k < D := by simpa using hk
    simp only [Function.comp]
    have e := BlockDiag.get_toDense h (q := i / D) (q' := i / D) hr hk
    rw [← hi', if_pos rfl, BlockDiag.ent, h.d0, if_pos hq] at e
    rw [e]
  · rename_i hlt
    have hq : i / D = n / D := by
      apply le_antisymm (Nat.div_le_div_right hi.le)
      exact (Nat.le_div_iff_mul_le h.pos).2 (by omega)
    have hle : n / D * D + n % D ≤ n := by rw [Nat.mul_comm]; omega
    rw [List.map_map, sum_range_list, sum_shifted hle fun k hkn hk => by
      have : k / D ≠ i / D := by
        rcases hk with hk | hk
        · exact out D k le_rfl (Or.inl (by rw [hq]; exact hk))
        · rw [Nat.mul_comm] at hk; omega
      rw [zero k this, g0]]
    refine sum_congr rfl fun k hk => ?_
    have hk : k < n % D := by simpa using hk
    simp only [Function.comp]
    rw [hq] at hi'
    have e := BlockDiag.get_toDense h (q := n / D) (q' := n / D) hr (r' := k) (by omega)
    rw [← hi', if_pos rfl, BlockDiag.ent, h.d0, if_neg (by omega), if_pos rfl] at e
    rw [e, show i - n / D * D = i % D by omega]

theorem Hier.sum_terms {m1 m2 k1 d k2 : ℕ} {h : Hier α} (H : h.Shape m1 m2 k1 d k2) (X : Mat α) {i : ℕ} (hi : i < k1 + d + k2) (j : ℕ) :
    ((h.terms X i j).map fun t => g t.1 t.2).sum = ∑ k ∈ range (k1 + d + k2), g (h.toDense.get i k) (X.get k j) := by
  rw [sum_range_add, sum_range_add]
  unfold Hier.terms Hier.K1 Hier.K2 Hier.diagDim
  rw [H.Ar, H.Er, H.Cl]
  split
  · rename_i h1
    simp only [List.map_append, List.sum_append, List.map_map, sum_range_list]
    congr 1
    · congr 1 <;> refine sum_congr rfl fun k hk => ?_ <;> simp only [mem_range] at hk <;> simp only [Function.comp]
      · rw [Hier.get_tt H h1 hk]
      · rw [Hier.get_tm H h1 hk]
    · refine sum_congr rfl fun k hk => ?_
      simp only [mem_range] at hk
      simp only [Function.comp]; rw [Hier.get_tb H h1 hk]
  · split
    · rename_i h1 h2
      obtain ⟨i, rfl⟩ := Nat.exists_eq_add_of_le (Nat.le_of_not_lt h1)
      have hi : i < d := by omega
      rw [sum_eq_zero (s := range k1) fun k hk => by rw [Hier.get_mt H hi (by simpa using hk), g0],
        sum_eq_zero (s := range k2) fun k hk => by rw [Hier.get_mb H hi (by simpa using hk), g0],
        sum_eq_single i]
      · rw [Hier.get_mm H hi hi, if_pos rfl]; simp
      · intro k hk hki; rw [Hier.get_mm H hi (by simpa using hk), if_neg (Ne.symm hki), g0]
      · intro hh; simp [hi] at hh
    · rename_i h1 h2
      obtain ⟨i, rfl⟩ := Nat.exists_eq_add_of_le (Nat.le_of_not_lt h2)
      have hi : i < k2 := by omega
      rw [sum_eq_zero (s := range k1) fun k hk => by rw [Hier.get_bt H hi (by simpa using hk), g0], zero_add]
      simp only [List.map_append, List.sum_append, List.map_map, sum_range_list]
      rw [show k1 + d + i - k1 - d = i by omega]
      congr 1 <;> refine sum_congr rfl fun k hk => ?_ <;> simp only [mem_range] at hk <;> simp only [Function.comp]
      · rw [Hier.get_bm H hi hk]
      · rw [Hier.get_bb H hi hk]

theorem Hier.sum_rterms {m1 m2 k1 d k2 : ℕ} {h : Hier α} (H : h.Shape m1 m2 k1 d k2) (X : Mat α) {i : ℕ} (hi : i < k1 + d + k2) (j : ℕ) :
    ((h.rterms X i j).map fun t => g t.1 t.2).sum = ∑ k ∈ range (k1 + d + k2), g (h.toDense.get k i) (X.get k j) := by
  rw [sum_range_add, sum_range_add]
  unfold Hier.rterms Hier.K1 Hier.K2 Hier.diagDim
  rw [H.Ar, H.Er, H.Cl]
  split
  · rename_i h1
    rw [List.map_map, sum_range_list, sum_eq_zero (s := range d) fun k hk => by rw [Hier.get_mt H (by simpa using hk) h1, g0],
      sum_eq_zero (s := range k2) fun k hk => by rw [Hier.get_bt H (by simpa using hk) h1, g0], add_zero, add_zero]
    refine sum_congr rfl fun k hk => ?_
    simp only [mem_range] at hk
    simp only [Function.comp]; rw [Hier.get_tt H hk h1]
  · split
    · rename_i h1 h2
      obtain ⟨i, rfl⟩ := Nat.exists_eq_add_of_le (Nat.le_of_not_lt h1)
      have hi : i < d := by omega
      simp only [List.map_append, List.sum_append, List.map_map, sum_range_list, List.map_cons, List.map_nil, List.sum_cons, List.sum_nil,
        add_zero, Nat.add_sub_cancel_left]
      congr 1
      · congr 1
        · refine sum_congr rfl fun k hk => ?_
          simp only [mem_range] at hk
          simp only [Function.comp]; rw [Hier.get_tm H hk hi]
        · rw [sum_eq_single i]
          · rw [Hier.get_mm H hi hi, if_pos rfl]
          · intro k hk hki; rw [Hier.get_mm H (by simpa using hk) hi, if_neg hki, g0]
          · intro hh; simp [hi] at hh
      · refine sum_congr rfl fun k hk => ?_
        simp only [mem_range] at hk
        simp only [Function.comp]; rw [Hier.get_bm H hk hi]
    · rename_i h1 h2
      obtain ⟨i, rfl⟩ := Nat.exists_eq_add_of_le (Nat.le_of_not_lt h2)
      have hi : i < k2 := by omega
      rw [sum_eq_zero (s := range d) fun k hk => by rw [Hier.get_mb H (by simpa using hk) hi, g0], add_zero]
      simp only [List.map_append, List.sum_append, List.map_map, sum_range_list]
      rw [show k1 + d + i - k1 - d = i by omega, show k1 + d + i - k1 = d + i by omega]
      congr 1 <;> refine sum_congr rfl fun k hk => ?_ <;> simp only [mem_range] at hk <;> simp only [Function.comp]
      · rw [Hier.get_tb H hk hi]
      · rw [Hier.get_bb H hk hi]

include g1
theorem sum_convTerms {w : Vec α} {X : Mat α} {n : ℕ} (hw : w.len = 2 * n - 1) (hX : X.rows = n) {i : ℕ} (hi : i < n) (j : ℕ) :
    ((convTerms w X i j).map fun t => g t.1 t.2).sum = ∑ k ∈ range n, g (w.get (n - 1 - i + k)) (X.get k j) := by
  unfold convTerms
  rw [List.map_map, sum_range_list, hw, hX, sum_shifted (a := n - 1 - i) (w := n) (by omega) fun k hk hk' => ?_]
  · refine sum_congr rfl fun k hk => ?_
    simp only [Function.comp]
    rw [if_pos (by omega), show i + (n - 1 - i + k) - (n - 1) = k by omega]
  · simp only [Function.comp]
    split
    · rw [X.supp _ _ (Or.inl (by omega)), g1]
    · rw [g1]
end sums

/-! Conversions -/

section
variable {u : α} (hu : 0 ≤ u)
include hu

theorem Mat.Cast.refl (A : Mat α) : A.Cast u A := ⟨rfl, rfl, fun _ _ => Rnd.refl hu _⟩
theorem Vec.Cast.refl (v : Vec α) : v.Cast u v := ⟨rfl, fun _ => Rnd.refl hu _⟩
theorem T3.Cast.refl (A : T3 α) : A.Cast u A := ⟨rfl, rfl, rfl, fun _ _ _ => Rnd.refl hu _⟩
theorem SM.Cast.refl : ∀ K : SM α, K.Cast u K
  | .dense m => Mat.Cast.refl hu m
  | .diagonal d => Vec.Cast.refl hu d
  | .block b => ⟨rfl, T3.Cast.refl hu _, Mat.Cast.refl hu _⟩
  | .hier h => ⟨rfl, rfl, Mat.Cast.refl hu _, Mat.Cast.refl hu _, Vec.Cast.refl hu _, Mat.Cast.refl hu _, Mat.Cast.refl hu _⟩
  | .tril d => Vec.Cast.refl hu d
  | .triu d => Vec.Cast.refl hu d
  | .topRight _ _ _ _ A B C => ⟨⟨rfl, rfl, rfl, rfl⟩, SM.Cast.refl A, Mat.Cast.refl hu B, SM.Cast.refl C⟩
  | .bottomLeft _ _ _ _ A B C => ⟨⟨rfl, rfl, rfl, rfl⟩, SM.Cast.refl A, Mat.Cast.refl hu B, SM.Cast.refl C⟩

theorem rnd_ite {p : Prop} [Decidable p] {a b a' b' : α} (h : p → Rnd u a a') (h' : ¬ p → Rnd u b b') :
    Rnd u (if p then a else b) (if p then a' else b') := by
  split
  · rename_i hp; exact h hp
  · rename_i hp; exact h' hp

theorem rnd_blk {b n : ℕ} {A R L C A' R' L' C' : Mat α} (hA : ∀ i j, Rnd u (A.get i j) (A'.get i j)) (hR : ∀ i j, Rnd u (R.get i j) (R'.get i j))
    (hL : ∀ i j, Rnd u (L.get i j) (L'.get i j)) (hC : ∀ i j, Rnd u (C.get i j) (C'.get i j)) (i j : ℕ) :
    Rnd u ((Mat.blk b n A R L C).get i j) ((Mat.blk b n A' R' L' C').get i j) := by
  simp only [Mat.blk, Mat.get_ofFn]
  exact rnd_ite hu (fun _ => rnd_ite hu (fun _ => rnd_ite hu (fun _ => hA _ _) fun _ => hR _ _) fun _ => rnd_ite hu (fun _ => hL _ _) fun _ => hC _ _)
    fun _ => Rnd.refl hu 0

/-- converting keeps class and dimension, and rounds the entries of the represented matrix -/
theorem WF.cast {c : Cls} {n : ℕ} {K K' : SM α} (h : WF c n K) (hc : K.Cast u K') :
    WF c n K' ∧ ∀ i j, Rnd u (K.toDense.get i j) (K'.toDense.get i j) := by
  induction h generalizing K' with
  | dense hr hcl =>
    cases K' with
    | dense m' => exact ⟨.dense (hc.rows.trans hr) (hc.cols.trans hcl), hc.get⟩
    | _ => exact hc.elim
  | diagonal h =>
    cases K' with
    | diagonal d' =>
      refine ⟨.diagonal (hc.len.trans h), fun i j => ?_⟩
      simp only [SM.toDense, Diagonal.get_toDense]
      exact rnd_ite hu (fun _ => hc.get i) fun _ => Rnd.refl hu 0
    | _ => exact hc.elim
  | @block D n b h =>
    cases K' with
    | block b' =>
      obtain ⟨c1, c2, c3⟩ := hc
      have h' : b'.WF D n := ⟨h.pos, c1.trans h.hD, c2.d0.trans h.d0, c2.d1.trans h.d1, c2.d2.trans h.d2, c3.rows.trans h.lr, c3.cols.trans h.lc⟩
      refine ⟨.block h', fun i j => ?_⟩
      have ei : i = i / D * D + i % D := by rw [Nat.mul_comm]; exact (Nat.div_add_mod i D).symm
      have ej : j = j / D * D + j % D := by rw [Nat.mul_comm]; exact (Nat.div_add_mod j D).symm
      have e1 := BlockDiag.get_toDense h (q := i / D) (q' := j / D) (Nat.mod_lt i h.pos) (Nat.mod_lt j h.pos)
      have e2 := BlockDiag.get_toDense h' (q := i / D) (q' := j / D) (Nat.mod_lt i h.pos) (Nat.mod_lt j h.pos)
      rw [← ei, ← ej] at e1 e2
      simp only [SM.toDense]
      rw [e1, e2, BlockDiag.ent, BlockDiag.ent, c2.d0]
      exact rnd_ite hu (fun _ => rnd_ite hu (fun _ => c2.get _ _ _) fun _ => rnd_ite hu (fun _ => c3.get _ _) fun _ => Rnd.refl hu 0)
        fun _ => Rnd.refl hu 0
    | _ => exact hc.elim
  | @hier m1 m2 n k1 d k2 h hd hs =>
    cases K' with
    | hier h' =>
      obtain ⟨c1, c2, cA, cB, cC, cD, cE⟩ := hc
      have hs' : h'.Shape m1 m2 k1 d k2 := ⟨c1.trans hs.h1, c2.trans hs.h2, hs.le1, hs.le2, cA.rows.trans hs.Ar, cA.cols.trans hs.Ac,
        cB.rows.trans hs.Br, cB.cols.trans hs.Bc, cC.len.trans hs.Cl, cD.rows.trans hs.Dr, cD.cols.trans hs.Dc, cE.rows.trans hs.Er,
        cE.cols.trans hs.Ec⟩
      refine ⟨.hier hd hs', fun i j => ?_⟩
      simp only [SM.toDense]
      rw [Hier.get_toDense hs, Hier.get_toDense hs']
      exact rnd_ite hu (fun _ => cE.get _ _) fun _ => rnd_ite hu (fun _ => cD.get _ _) fun _ => rnd_ite hu (fun _ => cC.get _) fun _ =>
        rnd_ite hu (fun _ => cB.get _ _) fun _ => rnd_ite hu (fun _ => cA.get _ _) fun _ => Rnd.refl hu 0
    | _ => exact hc.elim
  | tril hn h =>
    cases K' with
    | tril d' =>
      refine ⟨.tril hn (hc.len.trans h), fun i j => ?_⟩
      simp only [SM.toDense, Tril.get_toDense, hc.len]
      exact rnd_ite hu (fun _ => rnd_ite hu (fun _ => hc.get _) fun _ => Rnd.refl hu 0) fun _ => Rnd.refl hu 0
    | _ => exact hc.elim
  | triu hn h =>
    cases K' with
    | triu d' =>
      refine ⟨.triu hn (hc.len.trans h), fun i j => ?_⟩
      simp only [SM.toDense, Triu.toDense_eq, Mat.get_T, Tril.get_toDense, hc.len]
      exact rnd_ite hu (fun _ => rnd_ite hu (fun _ => hc.get _) fun _ => Rnd.refl hu 0) fun _ => Rnd.refl hu 0
    | _ => exact hc.elim
  | topRight hb hA hr hcl hC ihA ihC =>
    cases K' with
    | topRight x y ca cc A' B' C' =>
      obtain ⟨⟨rfl, rfl, rfl, rfl⟩, cA, cB, cC⟩ := hc
      obtain ⟨wA, eA⟩ := ihA cA
      obtain ⟨wC, eC⟩ := ihC cC
      have r' := cB.rows.trans hr
      have c' := cB.cols.trans hcl
      refine ⟨.topRight hb wA r' c' wC, fun i j => ?_⟩
      rw [toDense_tr hA hr hcl hC, toDense_tr wA r' c' wC]
      exact rnd_blk hu eA cB.get (fun _ _ => by simpa using Rnd.refl hu 0) eC i j
    | _ => exact hc.elim
  | bottomLeft hb hA hr hcl hC ihA ihC =>
    cases K' with
    | bottomLeft x y ca cc A' B' C' =>
      obtain ⟨⟨rfl, rfl, rfl, rfl⟩, cA, cB, cC⟩ := hc
      obtain ⟨wA, eA⟩ := ihA cA
      obtain ⟨wC, eC⟩ := ihC cC
      have r' := cB.rows.trans hr
      have c' := cB.cols.trans hcl
      refine ⟨.bottomLeft hb wA r' c' wC, fun i j => ?_⟩
      rw [toDense_bl hA hr hcl hC, toDense_bl wA r' c' wC]
      exact rnd_blk hu eA (fun _ _ => by simpa using Rnd.refl hu 0) cB.get eC i j
    | _ => exact hc.elim
end

/-- the matrix `rmatmat` multiplies with: the transpose, except for block-diagonal classes -/
def Cls.rdense (c : Cls) (A : Mat α) : Mat α := match c with
  | .block _ => A
  | _ => A.T

/-- `SM.chain` of a class and dimension -/
def Cls.chain : Cls → ℕ → ℕ
  | .diagonal, _ => 1
  | .block D, _ => D
  | .hier _ _, n => n + 2
  | .tril, n => 2 * n - 1
  | .triu, n => 2 * n - 1
  | _, n => n

theorem WF.chain_eq {c : Cls} {n : ℕ} {K : SM α} (h : WF c n K) : K.chain = c.chain n := by
  cases h with
  | dense hr hc => exact hc
  | diagonal => rfl
  | block h =>
    show max _ _ = _
    rw [h.hD, h.lc]
    exact max_eq_left (Nat.mod_lt _ h.pos).le
  | hier hd hs =>
    show Hier.dim _ + 2 = _
    rw [hs.dim_eq, hd.sum]; rfl
  | tril _ h => show 2 * _ - 1 = _; rw [h]; rfl
  | triu _ h => show 2 * _ - 1 = _; rw [h]; rfl
  | topRight hb hA hr hc hC => exact (WF.topRight hb hA hr hc hC).cols
  | bottomLeft hb hA hr hc hC => exact (WF.bottomLeft hb hA hr hc hC).cols

section
open Finset
variable {g : α → α → α} (g0 : ∀ x, g 0 x = 0) (g1 : ∀ x, g x 0 = 0)
include g0 g1

theorem tril_coeff {d : Vec α} {n : ℕ} (h : d.len = n) {i k : ℕ} (hi : i < n) (hk : k < n) :
    (d.flip.cat (Vec.zeros (d.len - 1))).get (n - 1 - i + k) = (Tril.toDense d).get i k := by
  rw [Tril.get_toDense, Vec.get_cat, Vec.len_flip, h, Vec.get_zeros]
  by_cases hik : k ≤ i
  · rw [if_pos (by omega), if_pos hik, if_pos hi, Vec.get_flip _ _ (by omega)]; congr 1; omega
  · rw [if_neg (by omega), if_neg hik]

theorem triu_coeff {d : Vec α} {n : ℕ} (h : d.len = n) {i k : ℕ} (hi : i < n) (hk : k < n) :
    ((Vec.zeros (d.len - 1)).cat d).get (n - 1 - i + k) = (Tril.toDense d).get k i := by
  rw [Tril.get_toDense, Vec.get_cat, Vec.len_zeros, h, Vec.get_zeros]
  by_cases hik : i ≤ k
  · rw [if_neg (by omega), if_pos hik, if_pos hk]; congr 1; omega
  · rw [if_pos (by omega), if_neg hik]

theorem WF.sum_terms {c : Cls} {n : ℕ} {K : SM α} (h : WF c n K) {X : Mat α} (hX : X.rows = n) {i : ℕ} (hi : i < n) (j : ℕ) :
    ((K.terms X i j).map fun t => g t.1 t.2).sum = ∑ k ∈ range n, g (K.toDense.get i k) (X.get k j) := by
  cases h with
  | dense hr hc => subst hc; exact Mat.sum_terms _ _ _ _
  | diagonal h =>
    simp only [SM.terms, List.map_cons, List.map_nil, List.sum_cons, List.sum_nil, add_zero]
    exact Diagonal.sum_terms g0 h X hi j
  | block h => exact BlockDiag.sum_terms g0 h X hi j
  | hier hd hs => rw [← hd.sum] at hi ⊢; exact Hier.sum_terms g0 hs X hi j
  | tril hn h =>
    rw [SM.terms, sum_convTerms g0 g1 (n := n) (by simp [h]; omega) hX hi]
    exact sum_congr rfl fun k hk => by rw [tril_coeff g0 g1 h hi (by simpa using hk)]; rfl
  | triu hn h =>
    rw [SM.terms, sum_convTerms g0 g1 (n := n) (by simp [h]; omega) hX hi]
    exact sum_congr rfl fun k hk => by rw [triu_coeff g0 g1 h hi (by simpa using hk)]; simp only [SM.toDense, Triu.toDense_eq, Mat.get_T]
  | topRight hb hA hr hc hC =>
    have := (WF.topRight hb hA hr hc hC).cols
    rw [SM.terms, Mat.sum_terms, this]
    all_goals simp
  | bottomLeft hb hA hr hc hC =>
    have := (WF.bottomLeft hb hA hr hc hC).cols
    rw [SM.terms, Mat.sum_terms, this]
    all_goals simp

theorem WF.sum_rterms {c : Cls} {n : ℕ} {K : SM α} (h : WF c n K) {X : Mat α} (hX : X.rows = n) {i : ℕ} (hi : i < n) (j : ℕ) :
    ((K.rterms X i j).map fun t => g t.1 t.2).sum = ∑ k ∈ range n, g ((c.rdense K.toDense).get i k) (X.get k j) := by
  cases h with
  | dense hr hc => subst hr; exact Mat.sum_terms _ _ _ _
  | diagonal h =>
    simp only [SM.rterms, List.map_cons, List.map_nil, List.sum_cons, List.sum_nil, add_zero, Cls.rdense, SM.toDense, Diagonal.toDense_T]
    exact Diagonal.sum_terms g0 h X hi j
  | block h => exact BlockDiag.sum_terms g0 h X hi j
  | hier hd hs =>
    rw [← hd.sum] at hi ⊢
    simp only [Cls.rdense, Mat.get_T]
    exact Hier.sum_rterms g0 hs X hi j
  | tril hn h =>
    rw [SM.rterms, sum_convTerms g0 g1 (n := n) (by simp [h]; omega) hX hi]
    exact sum_congr rfl fun k hk => by rw [triu_coeff g0 g1 h hi (by simpa using hk)]; simp only [Cls.rdense, SM.toDense, Mat.get_T]
  | triu hn h =>
    rw [SM.rterms, sum_convTerms g0 g1 (n := n) (by simp [h]; omega) hX hi]
    exact sum_congr rfl fun k hk => by
      rw [tril_coeff g0 g1 h hi (by simpa using hk)]; simp only [Cls.rdense, SM.toDense, Triu.toDense_eq, Mat.get_T]
  | topRight hb hA hr hc hC =>
    have := (WF.topRight hb hA hr hc hC).rows
    rw [SM.rterms, Mat.sum_terms, Mat.cols_T, this]
    all_goals simp [Cls.rdense]
  | bottomLeft hb hA hr hc hC =>
    have := (WF.bottomLeft hb hA hr hc hC).rows
    rw [SM.rterms, Mat.sum_terms, Mat.cols_T, this]
    all_goals simp [Cls.rdense]
end

/-! Products of matrices -/

open Matrix in
/-- absolute values of the entries -/
def absM {n m : ℕ} (A : Matrix (Fin n) (Fin m) α) : Matrix (Fin n) (Fin m) α := A.map fun x => |x|

/-- what `rmatmat` multiplies with -/
def Cls.rt (c : Cls) {n : ℕ} (A : Matrix (Fin n) (Fin n) α) : Matrix (Fin n) (Fin n) α := match c with
  | .block _ => A
  | _ => A.transpose

theorem Cls.gram_eq_rt (c : Cls) {n : ℕ} (A : Matrix (Fin n) (Fin n) α) : c.gram A = A * c.rt A := by cases c <;> rfl
theorem Cls.absM_rt (c : Cls) {n : ℕ} (A : Matrix (Fin n) (Fin n) α) : absM (c.rt A) = c.rt (absM A) := by cases c <;> rfl
theorem Cls.rdense_M (c : Cls) {n : ℕ} (A : Mat α) : (c.rdense A).M n n = c.rt (A.M n n) := by
  cases c <;> first | rfl | exact Mat.M_T _

/-- entrywise `App` -/
def MApp (u : α) (k : ℕ) {n m : ℕ} (B E : Matrix (Fin n) (Fin m) α) (Y : Mat α) : Prop := ∀ i j, App u k (B i j) (E i j) (Y.get i j)

section
variable {u : α} (hu : 0 ≤ u)
include hu

theorem App.sum {ι : Type} {k : ℕ} {b x y : ι → α} (s : Finset ι) (h : ∀ i ∈ s, App u k (b i) (x i) (y i)) :
    App u k (∑ i ∈ s, b i) (∑ i ∈ s, x i) (∑ i ∈ s, y i) := by
  refine ⟨(Finset.abs_sum_le_sum_abs _ _).trans (Finset.sum_le_sum fun i hi => (h i hi).bound), ?_⟩
  rw [← Finset.sum_sub_distrib, Finset.mul_sum]
  exact (Finset.abs_sum_le_sum_abs _ _).trans (Finset.sum_le_sum fun i hi => (h i hi).err)

theorem MApp.T {k n m : ℕ} {B E : Matrix (Fin n) (Fin m) α} {Y : Mat α} (h : MApp u k B E Y) : MApp u k B.transpose E.transpose Y.T :=
  fun i j => by rw [Mat.get_T]; exact h j i

theorem MApp.cast {k n m : ℕ} {B E : Matrix (Fin n) (Fin m) α} {Y Z : Mat α} (h : MApp u k B E Y) (hc : Y.Cast u Z) :
    MApp u (k + 1) B E Z := fun i j => (h i j).rnd hu (hc.get i j)

/-- a product of a converted matrix and a converted approximation, with rounded sums of products -/
theorem App.dot {n l r : ℕ} {a a' p e x : Fin n → α} {ts : List (α × α)} {y : α} (ha : ∀ k, Rnd u (a k) (a' k))
    (hx : ∀ k, App u l (p k) (e k) (x k)) (hd : Dot u r ts y) (h1 : (ts.map fun t => t.1 * t.2).sum = ∑ k, a' k * x k)
    (h2 : (ts.map fun t => |t.1| * |t.2|).sum = ∑ k, |a' k| * |x k|) :
    App u (1 + l + r) (∑ k, |a k| * p k) (∑ k, a k * e k) y := by
  have hA : ∀ k, App u 1 |a k| (a k) (a' k) := fun k => by simpa using (App.self (a k)).rnd hu (ha k)
  have h : App u (1 + l) (∑ k, |a k| * p k) (∑ k, a k * e k) (∑ k, a' k * x k) :=
    App.sum hu _ fun k _ => (hA k).mulExact hu (hx k)
  have hd' := hd.err hu
  rw [h1, h2] at hd'
  refine h.trans hu (hd'.err.trans ?_)
  refine mul_le_mul_of_nonneg_left ?_ (by linarith [one_le_gr hu r])
  rw [pow_add, Finset.mul_sum]
  refine Finset.sum_le_sum fun k _ => ?_
  calc |a' k| * |x k| ≤ ((1 + u) ^ 1 * |a k|) * ((1 + u) ^ l * p k) :=
        mul_le_mul (hA k).size (hx k).size (abs_nonneg _) ((abs_nonneg _).trans (hA k).size)
    _ = _ := by ring

theorem SM.FMatmul.err {c : Cls} {n m l : ℕ} {K : SM α} {X Y : Mat α} (hK : WF c n K) (hr : X.rows = n) (hc : X.cols = m)
    {P E : Matrix (Fin n) (Fin m) α} (hX : MApp u l P E X) (h : K.FMatmul u X Y) :
    Y.rows = n ∧ Y.cols = m ∧ MApp u (l + c.chain n + 3) (absM (K.den n) * P) (K.den n * E) Y := by
  obtain ⟨K', X', Y', cK, cX, cY, y1, y2, hd⟩ := h
  obtain ⟨hK', hg⟩ := hK.cast hu cK
  refine ⟨cY.rows.trans (y1.trans hr), cY.cols.trans (y2.trans hc), fun i j => ?_⟩
  have hd := hd i (hr ▸ i.2) j (hc ▸ j.2)
  rw [hK'.chain_eq] at hd
  have hX' := hX.cast hu cX
  have := App.dot hu (n := n) (fun k => hg i k) (fun k => hX' k j) hd
    (by rw [hK'.sum_terms (g := fun a b => a * b) (by simp) (by simp) (cX.rows.trans hr) i.2, Finset.sum_range])
    (by rw [hK'.sum_terms (g := fun a b => |a| * |b|) (by simp) (by simp) (cX.rows.trans hr) i.2, Finset.sum_range])
  rw [show l + c.chain n + 3 = 1 + (l + 1) + c.chain n + 1 by ring, Matrix.mul_apply, Matrix.mul_apply]
  exact this.rnd hu (cY.get i j)

theorem SM.FRmatmat.err {c : Cls} {n m l : ℕ} {K : SM α} {X Y : Mat α} (hK : WF c n K) (hr : X.rows = n) (hc : X.cols = m)
    {P E : Matrix (Fin n) (Fin m) α} (hX : MApp u l P E X) (h : K.FRmatmat u X Y) :
    Y.rows = n ∧ Y.cols = m ∧ MApp u (l + c.chain n + 3) (c.rt (absM (K.den n)) * P) (c.rt (K.den n) * E) Y := by
  obtain ⟨K', X', Y', cK, cX, cY, y1, y2, hd⟩ := h
  obtain ⟨hK', hg⟩ := hK.cast hu cK
  refine ⟨cY.rows.trans (y1.trans hr), cY.cols.trans (y2.trans hc), fun i j => ?_⟩
  have hd := hd i (hr ▸ i.2) j (hc ▸ j.2)
  rw [hK'.chain_eq] at hd
  have hX' := hX.cast hu cX
  have hg' : ∀ a b, Rnd u ((c.rdense K.toDense).get a b) ((c.rdense K'.toDense).get a b) := fun a b => by
    cases c <;> simp only [Cls.rdense, Mat.get_T] <;> exact hg _ _
  have := App.dot hu (n := n) (fun k => hg' i k) (fun k => hX' k j) hd
    (by rw [hK'.sum_rterms (g := fun a b => a * b) (by simp) (by simp) (cX.rows.trans hr) i.2, Finset.sum_range])
    (by rw [hK'.sum_rterms (g := fun a b => |a| * |b|) (by simp) (by simp) (cX.rows.trans hr) i.2, Finset.sum_range])
  rw [show l + c.chain n + 3 = 1 + (l + 1) + c.chain n + 1 by ring, ← Cls.absM_rt, SM.den, ← Cls.rdense_M, Matrix.mul_apply, Matrix.mul_apply]
  exact this.rnd hu (cY.get i j)

/-- error of the natural gradient -/
theorem FNatGrad.err {cK cC : Cls} {p q : ℕ} {K C : SM α} {s : α} {G N : Mat α} (hK : WF cK q K) (hC : WF cC p C) (hr : G.rows = p)
    (hc : G.cols = q) (h : FNatGrad u K C s G N) :
    N.rows = p ∧ N.cols = q ∧ MApp u (2 * cK.chain q + 2 * cC.chain p + 16)
      (cC.gram (absM (C.den p)) * absM (s⁻¹ • G.M p q) * (cK.gram (absM (K.den q))).transpose)
      (cC.gram (C.den p) * (s⁻¹ • G.M p q) * (cK.gram (K.den q)).transpose) N := by
  obtain ⟨G1, G2, R1, R2, R3, R4, R5, ⟨h1, h2, h3⟩, h4, h5, h6, h7, h8, h9, h10⟩ := h
  have e1 : MApp u 1 (absM (s⁻¹ • G.M p q)) (s⁻¹ • G.M p q) G1 := fun i j => by
    have := (App.self (G.get i j / s)).rnd hu (h3 i j)
    simpa [absM, Mat.M, div_eq_inv_mul] using this
  have e2 := (e1.T hu).cast hu h4
  have g2r : G2.rows = q := h4.rows.trans (by rw [Mat.rows_T, h2, hc])
  have g2c : G2.cols = p := h4.cols.trans (by rw [Mat.cols_T, h1, hr])
  obtain ⟨a1, a2, e3⟩ := h5.err hu hK g2r g2c e2
  obtain ⟨b1, b2, e4⟩ := h6.err hu hK a1 a2 e3
  have e5 := (e4.T hu).cast hu h7
  obtain ⟨c1, c2, e6⟩ := h8.err hu hC (h7.rows.trans (by rw [Mat.rows_T, b2])) (h7.cols.trans (by rw [Mat.cols_T, b1])) e5
  obtain ⟨d1, d2, e7⟩ := h9.err hu hC c1 c2 e6
  have e8 := e7.cast hu h10
  refine ⟨h10.rows.trans d1, h10.cols.trans d2, ?_⟩
  have k : 1 + 1 + cK.chain q + 3 + cK.chain q + 3 + 1 + cC.chain p + 3 + cC.chain p + 3 + 1 =
    2 * cK.chain q + 2 * cC.chain p + 16 := by ring
  rw [k] at e8
  simpa only [Cls.gram_eq_rt, Matrix.transpose_mul, Matrix.transpose_transpose, Matrix.mul_assoc] using e8
end
