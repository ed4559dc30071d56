import Verif.Model.RoundingFactor
import Verif.Proofs.Rounding
import Verif.Proofs.Opt.Inner

/-! Rounding errors of `from_dense`. -/

set_option linter.unusedSectionVars false
open Finset Mat
variable {α : Type} [Field α] [LinearOrder α] [IsStrictOrderedRing α]

section
variable {u : α} (hu : 0 ≤ u)
include hu
namespace App
variable {k l : ℕ} {b b' x x' y y' z : α}

theorem zero : App u k 0 0 0 := ⟨by simp, by simp⟩

/-- multiplication by an exact nonnegative number -/
theorem scale (h : App u k b x y) {c : α} (hc : 0 ≤ c) : App u k (c * b) (c * x) (c * y) := by
  refine ⟨by rw [abs_mul, abs_of_nonneg hc]; exact mul_le_mul_of_nonneg_left h.bound hc, ?_⟩
  rw [← mul_sub, abs_mul, abs_of_nonneg hc, mul_left_comm]
  exact mul_le_mul_of_nonneg_left h.err hc

/-- division by an exact nonnegative number -/
theorem divExact (h : App u k b x y) {c : α} (hc : 0 ≤ c) : App u k (b / c) (x / c) (y / c) := by
  simp only [div_eq_inv_mul]; exact h.scale hu (inv_nonneg.2 hc)

/-- an exact sum -/
theorem plus (h : App u k b x y) (h' : App u k b' x' y') : App u k (b + b') (x + x') (y + y') := by
  refine ⟨(abs_add_le _ _).trans (add_le_add h.bound h'.bound), ?_⟩
  have := abs_add_le (y - x) (y' - x')
  rw [show y - x + (y' - x') = y + y' - (x + x') by ring] at this
  have := h.err
  have := h'.err
  rw [mul_add]; linarith

theorem ofRnd (h : Rnd u x y) : App u 1 |x| x y := by simpa using (App.self x).rnd hu h

/-- a rounded sum of products of approximations -/
theorem dots {ι : Type} (s : Finset ι) {r : ℕ} {A a a' B e f : ι → α} {ts : List (α × α)} (ha : ∀ i ∈ s, App u k (A i) (a i) (a' i))
    (hb : ∀ i ∈ s, App u l (B i) (e i) (f i)) (hd : Dot u r ts y) (h1 : (ts.map fun t => t.1 * t.2).sum = ∑ i ∈ s, a' i * f i)
    (h2 : (ts.map fun t => |t.1| * |t.2|).sum = ∑ i ∈ s, |a' i| * |f i|) :
    App u (k + l + r) (∑ i ∈ s, A i * B i) (∑ i ∈ s, a i * e i) y := by
  have h : App u (k + l) (∑ i ∈ s, A i * B i) (∑ i ∈ s, a i * e i) (∑ i ∈ s, a' i * f i) :=
    App.sum hu _ fun i hi => (ha i hi).mulExact hu (hb i hi)
  have hd' := hd.err hu
  rw [h1, h2] at hd'
  refine h.trans hu (hd'.err.trans ?_)
  refine mul_le_mul_of_nonneg_left ?_ (by linarith [one_le_gr hu r])
  rw [pow_add, Finset.mul_sum]
  refine Finset.sum_le_sum fun i hi => ?_
  calc |a' i| * |f i| ≤ ((1 + u) ^ k * A i) * ((1 + u) ^ l * B i) :=
        mul_le_mul (ha i hi).size (hb i hi).size (abs_nonneg _) ((abs_nonneg _).trans (ha i hi).size)
    _ = _ := by ring

/-- `x.add(y, alpha=a)` -/
theorem axpy {a a' A : α} {m : ℕ} (hx : App u k b x y) (ha : App u l A a a') (hy : App u m b' x' y') (h : FAxpy u y a' y' z) :
    App u (max k (l + m + 1) + 1) (b + A * b') (x + a * x') z := by
  obtain ⟨t, h1, h2⟩ := h
  exact (hx.mono hu (le_max_left _ _) le_rfl).add hu ((ha.mul hu hy h1).mono hu (le_max_right _ _) le_rfl) h2
end App

theorem sum_diagTerms {Q : Mat α} {n k : ℕ} (hr : Q.rows = n) (hc : Q.cols = n) {g : α → α → α} (g0 : ∀ x, g 0 x = 0) :
    ((diagTerms Q n k).map fun t => g t.1 t.2).sum = if k = 0 then ∑ i ∈ range n, g (Q.get i i) 1
      else ∑ i ∈ range n, g (Q.get i (i + k)) 1 + ∑ i ∈ range n, g (Q.get (i + k) i) 1 := by
  unfold diagTerms
  split_ifs with h
  · rw [List.map_map]; exact sum_range_list _ _
  · rw [List.map_append, List.sum_append, List.map_map, List.map_map]
    have e : ∀ f : ℕ → α, (∀ i, n - k ≤ i → f i = 0) → ((List.range (n - k)).map f).sum = ∑ i ∈ range n, f i := fun f hf => by
      rw [sum_range_list]
      exact sum_subset (fun i hi => by simp at hi ⊢; omega) fun i _ hi => hf i (by simpa using hi)
    congr 1
    · exact e _ fun i hi => by simp only [Function.comp]; rw [Q.supp _ _ (by omega), g0]
    · exact e _ fun i hi => by simp only [Function.comp]; rw [Q.supp _ _ (by omega), g0]

theorem FToeplitz.app {Q QB QE : Mat α} {n k : ℕ} {d pB pE : Vec α} (hn : 0 < n) (r1 : Q.rows = n) (c1 : Q.cols = n) (r2 : QB.rows = n) (c2 : QB.cols = n)
    (r3 : QE.rows = n) (c3 : QE.cols = n) (hQ : ∀ i j, App u k (QB.get i j) (QE.get i j) (Q.get i j)) (h : FToeplitz u Q d)
    (eB : toeplitzFromDense QB = .ok pB) (eE : toeplitzFromDense QE = .ok pE) :
    d.len = n ∧ pB.len = n ∧ pE.len = n ∧ ∀ t, App u (k + (2 * n + 2)) (pB.get t) (pE.get t) (d.get t) := by
  obtain ⟨p, e, lB, hB⟩ := toeplitzFromDense_spec hn r2 c2
  rw [eB] at e; cases e
  obtain ⟨p, e, lE, hE⟩ := toeplitzFromDense_spec hn r3 c3
  rw [eE] at e; cases e
  obtain ⟨hl, hd⟩ := h
  rw [r1] at hl hd
  refine ⟨hl, lB, lE, fun t => ?_⟩
  rcases Nat.lt_or_ge t n with ht | ht
  swap
  · rw [pB.supp _ (by omega), pE.supp _ (by omega), d.supp _ (by omega)]; exact App.zero hu
  obtain ⟨s, hs, hr⟩ := hd t ht
  have hs := hs.err hu
  rw [sum_diagTerms hu r1 c1 (g := fun a b => a * b) (by simp), sum_diagTerms hu r1 c1 (g := fun a b => |a| * |b|) (by simp)] at hs
  simp only [mul_one, abs_one] at hs
  rw [hB t ht, hE t ht]
  rw [← add_assoc k, show k + 2 * n + 2 = k + (2 * n + 1) + 1 by ring]
  refine App.rnd hu (App.divExact hu ?_ (Nat.cast_nonneg _)) hr
  have key : ∀ f : ℕ → ℕ × ℕ, App u k (∑ i ∈ range n, QB.get (f i).1 (f i).2) (∑ i ∈ range n, QE.get (f i).1 (f i).2) (∑ i ∈ range n, Q.get (f i).1 (f i).2) ∧
      ∑ i ∈ range n, |Q.get (f i).1 (f i).2| ≤ (1 + u) ^ k * ∑ i ∈ range n, QB.get (f i).1 (f i).2 := fun f =>
    ⟨App.sum hu _ fun i _ => hQ _ _, by rw [mul_sum]; exact sum_le_sum fun i _ => (hQ _ _).size⟩
  have h1 : 0 ≤ (1 + u) ^ (2 * n + 1) - 1 := by linarith [one_le_gr hu (2 * n + 1)]
  split_ifs at hs ⊢ with h0
  · exact (key fun i => (i, i)).1.trans hu (hs.err.trans (mul_le_mul_of_nonneg_left (key fun i => (i, i)).2 h1))
  · refine ((key fun i => (i, i + t)).1.plus hu (key fun i => (i + t, i)).1).trans hu (hs.err.trans (mul_le_mul_of_nonneg_left ?_ h1))
    rw [mul_add]
    exact add_le_add (key fun i => (i, i + t)).2 (key fun i => (i + t, i)).2

/-- the exact `from_dense` of an approximation, for classes without Toeplitz blocks -/
theorem fromDense_app {k : ℕ} {c : Cls} {n : ℕ} {Q QB QE : Mat α} {P PB PE : SM α} (hc : c = .dense ∨ c = .diagonal ∨ (∃ D, c = .block D) ∨ ∃ a b, c = .hier a b)
    (hs : c.Supports n) (r1 : QB.rows = n) (c1 : QB.cols = n) (r2 : QE.rows = n) (c2 : QE.cols = n) (r3 : Q.rows = n) (c3 : Q.cols = n)
    (h : ∀ i j, App u k (QB.get i j) (QE.get i j) (Q.get i j)) (e1 : SM.fromDense c QB = .ok PB) (e2 : SM.fromDense c QE = .ok PE)
    (e3 : SM.fromDense c Q = .ok P) : ∀ i < n, ∀ j < n, App u k (PB.toDense.get i j) (PE.toDense.get i j) (P.toDense.get i j) := by
  intro i hi j hj
  rcases hc with rfl | rfl | ⟨D, rfl⟩ | ⟨m1, m2, rfl⟩
  · injection e1 with e1; injection e2 with e2; injection e3 with e3; subst e1 e2 e3
    exact h i j
  · injection e1 with e1; injection e2 with e2; injection e3 with e3; subst e1 e2 e3
    simp only [SM.toDense, Diagonal.get_toDense, get_diag]
    split_ifs
    · exact h i i
    · exact App.zero hu
  · obtain ⟨p1, e1', w1, h1⟩ := BlockDiag.fromDense_spec hs r1 c1
    obtain ⟨p2, e2', w2, h2⟩ := BlockDiag.fromDense_spec hs r2 c2
    obtain ⟨p3, e3', w3, h3⟩ := BlockDiag.fromDense_spec hs r3 c3
    rw [SM.fromDense, e1'] at e1; injection e1 with e1; subst e1
    rw [SM.fromDense, e2'] at e2; injection e2 with e2; subst e2
    rw [SM.fromDense, e3'] at e3; injection e3 with e3; subst e3
    obtain ⟨q, r, hr, rfl⟩ := BlockDiag.exists_qr hs i
    obtain ⟨q', r', hr', rfl⟩ := BlockDiag.exists_qr hs j
    simp only [SM.toDense]
    rw [BlockDiag.get_toDense w1 hr hr', BlockDiag.get_toDense w2 hr hr', BlockDiag.get_toDense w3 hr hr',
      h1 _ _ _ hr hr', h2 _ _ _ hr hr', h3 _ _ _ hr hr']
    split_ifs
    · exact h _ _
    · exact App.zero hu
  · have hd := Hier.hierDims_blockDims m1 m2 n
    obtain ⟨p1, e1', w1, h1⟩ := Hier.fromDense_spec hd r1 c1
    obtain ⟨p2, e2', w2, h2⟩ := Hier.fromDense_spec hd r2 c2
    obtain ⟨p3, e3', w3, h3⟩ := Hier.fromDense_spec hd r3 c3
    rw [SM.fromDense, e1'] at e1; injection e1 with e1; subst e1
    rw [SM.fromDense, e2'] at e2; injection e2 with e2; subst e2
    rw [SM.fromDense, e3'] at e3; injection e3 with e3; subst e3
    simp only [SM.toDense]
    revert hd w1 w2 w3 h1 h2 h3
    generalize (Hier.blockDims m1 m2 n).1 = k1
    generalize (Hier.blockDims m1 m2 n).2.1 = d
    generalize (Hier.blockDims m1 m2 n).2.2 = k2
    intro hd w1 h1 w2 h2 w3 h3
    have h2' : ∀ i j, App u k (2 * QB.get i j) (2 * QE.get i j) (2 * Q.get i j) := fun i j => (h i j).scale hu zero_le_two
    have key : ∀ k < n, k < k1 ∨ (∃ t < d, k = k1 + t) ∨ ∃ t < k2, k = k1 + d + t := by
      intro k hk
      have := hd.sum
      by_cases h1 : k < k1
      · exact .inl h1
      · by_cases h2 : k < k1 + d
        · exact .inr (.inl ⟨k - k1, by omega, by omega⟩)
        · exact .inr (.inr ⟨k - (k1 + d), by omega, by omega⟩)
    rcases key i hi with a1 | ⟨i, a1, rfl⟩ | ⟨i, a1, rfl⟩ <;> rcases key j hj with a2 | ⟨j, a2, rfl⟩ | ⟨j, a2, rfl⟩
    · rw [Hier.get_tt w1 a1 a2, Hier.get_tt w2 a1 a2, Hier.get_tt w3 a1 a2, h1.a _ a1 _ a2, h2.a _ a1 _ a2, h3.a _ a1 _ a2]; exact h _ _
    · rw [Hier.get_tm w1 a1 a2, Hier.get_tm w2 a1 a2, Hier.get_tm w3 a1 a2, h1.b _ a1 _ (by omega), h2.b _ a1 _ (by omega),
        h3.b _ a1 _ (by omega)]; rw [mul_comm _ (2 : α), mul_comm _ (2 : α), mul_comm _ (2 : α)]; exact h2' _ _
    · rw [Hier.get_tb w1 a1 a2, Hier.get_tb w2 a1 a2, Hier.get_tb w3 a1 a2, h1.b _ a1 _ (by omega), h2.b _ a1 _ (by omega),
        h3.b _ a1 _ (by omega)]; rw [mul_comm _ (2 : α), mul_comm _ (2 : α), mul_comm _ (2 : α)]; exact h2' _ _
    · rw [Hier.get_mt w1 a1 a2, Hier.get_mt w2 a1 a2, Hier.get_mt w3 a1 a2]; exact App.zero hu
    · rw [Hier.get_mm w1 a1 a2, Hier.get_mm w2 a1 a2, Hier.get_mm w3 a1 a2, h1.c _ a1, h2.c _ a1, h3.c _ a1]
      split_ifs
      · exact h _ _
      · exact App.zero hu
    · rw [Hier.get_mb w1 a1 a2, Hier.get_mb w2 a1 a2, Hier.get_mb w3 a1 a2]; exact App.zero hu
    · rw [Hier.get_bt w1 a1 a2, Hier.get_bt w2 a1 a2, Hier.get_bt w3 a1 a2]; exact App.zero hu
    · rw [Hier.get_bm w1 a1 a2, Hier.get_bm w2 a1 a2, Hier.get_bm w3 a1 a2, h1.dd _ a1 _ a2, h2.dd _ a1 _ a2, h3.dd _ a1 _ a2]; rw [mul_comm _ (2 : α), mul_comm _ (2 : α), mul_comm _ (2 : α)]; exact h2' _ _
    · rw [Hier.get_bb w1 a1 a2, Hier.get_bb w2 a1 a2, Hier.get_bb w3 a1 a2, h1.e _ a1 _ a2, h2.e _ a1 _ a2, h3.e _ a1 _ a2]; exact h _ _

/-- `from_dense` of an approximation, with rounding -/
theorem SM.FFromDense.app {k : ℕ} : ∀ {c : Cls} {n : ℕ} {Q QB QE : Mat α} {P PB PE : SM α}, c.Supports n → QB.rows = n → QB.cols = n → QE.rows = n →
    QE.cols = n → Q.rows = n → Q.cols = n → (∀ i j, App u k (QB.get i j) (QE.get i j) (Q.get i j)) → SM.fromDense c QB = .ok PB →
    SM.fromDense c QE = .ok PE → SM.FFromDense u c Q P →
    WF c n P ∧ ∀ i < n, ∀ j < n, App u (k + (2 * n + 2)) (PB.toDense.get i j) (PE.toDense.get i j) (P.toDense.get i j) := by
  have leaf : ∀ {c : Cls} {n : ℕ} {Q QB QE : Mat α} {P PB PE : SM α}, (c = .dense ∨ c = .diagonal ∨ (∃ D, c = .block D) ∨ ∃ a b, c = .hier a b) →
      c.Supports n → QB.rows = n → QB.cols = n → QE.rows = n → QE.cols = n → Q.rows = n → Q.cols = n →
      (∀ i j, App u k (QB.get i j) (QE.get i j) (Q.get i j)) → SM.fromDense c QB = .ok PB → SM.fromDense c QE = .ok PE →
      (∃ P0, SM.fromDense c Q = .ok P0 ∧ P0.Cast u P) →
      WF c n P ∧ ∀ i < n, ∀ j < n, App u (k + (2 * n + 2)) (PB.toDense.get i j) (PE.toDense.get i j) (P.toDense.get i j) := by
    intro c n Q QB QE P PB PE hc hs r1 c1 r2 c2 r3 c3 h e1 e2 ⟨P0, e0, hP⟩
    obtain ⟨P0', e0', w0⟩ := fromDense_wf hs r3 c3
    rw [e0] at e0'; cases e0'
    obtain ⟨w, hg⟩ := w0.cast hu hP
    refine ⟨w, fun i hi j hj => ?_⟩
    exact ((fromDense_app hu hc hs r1 c1 r2 c2 r3 c3 h e1 e2 e0 i hi j hj).rnd hu (hg i j)).mono hu (by omega) le_rfl
  intro c
  induction c with
  | dense => intro n Q QB QE P PB PE hs r1 c1 r2 c2 r3 c3 h e1 e2 hP; exact leaf (.inl rfl) hs r1 c1 r2 c2 r3 c3 h e1 e2 hP
  | diagonal => intro n Q QB QE P PB PE hs r1 c1 r2 c2 r3 c3 h e1 e2 hP; exact leaf (.inr (.inl rfl)) hs r1 c1 r2 c2 r3 c3 h e1 e2 hP
  | block D => intro n Q QB QE P PB PE hs r1 c1 r2 c2 r3 c3 h e1 e2 hP; exact leaf (.inr (.inr (.inl ⟨D, rfl⟩))) hs r1 c1 r2 c2 r3 c3 h e1 e2 hP
  | hier a b => intro n Q QB QE P PB PE hs r1 c1 r2 c2 r3 c3 h e1 e2 hP; exact leaf (.inr (.inr (.inr ⟨a, b, rfl⟩))) hs r1 c1 r2 c2 r3 c3 h e1 e2 hP
  | tril =>
    intro n Q QB QE P PB PE hs r1 c1 r2 c2 r3 c3 h e1 e2 ⟨d, hd, hP⟩
    subst hd
    obtain ⟨p1, e1', w1, -⟩ := toeplitzFromDense_spec hs r1 c1
    obtain ⟨p2, e2', w2, -⟩ := toeplitzFromDense_spec hs r2 c2
    rw [SM.fromDense, Tril.fromDense, e1'] at e1; injection e1 with e1; subst e1
    rw [SM.fromDense, Tril.fromDense, e2'] at e2; injection e2 with e2; subst e2
    obtain ⟨l1, l2, l3, hg⟩ := hP.app hu hs r3 c3 r1 c1 r2 c2 h e1' e2'
    refine ⟨.tril hs l1, fun i hi j hj => ?_⟩
    simp only [SM.toDense, Tril.get_toDense, l1, l2, l3]
    split_ifs
    · exact hg _
    · exact App.zero hu
  | triu =>
    intro n Q QB QE P PB PE hs r1 c1 r2 c2 r3 c3 h e1 e2 ⟨d, hd, hP⟩
    subst hd
    obtain ⟨p1, e1', w1, -⟩ := toeplitzFromDense_spec hs r1 c1
    obtain ⟨p2, e2', w2, -⟩ := toeplitzFromDense_spec hs r2 c2
    rw [SM.fromDense, Triu.fromDense, e1'] at e1; injection e1 with e1; subst e1
    rw [SM.fromDense, Triu.fromDense, e2'] at e2; injection e2 with e2; subst e2
    obtain ⟨l1, l2, l3, hg⟩ := hP.app hu hs r3 c3 r1 c1 r2 c2 h e1' e2'
    refine ⟨.triu hs l1, fun i hi j hj => ?_⟩
    simp only [SM.toDense, Triu.toDense_eq, get_T, Tril.get_toDense, l1, l2, l3]
    split_ifs
    · exact hg _
    · exact App.zero hu
  | topRight x y ca cc ihA ihC =>
    intro n Q QB QE P PB PE hs r1 c1 r2 c2 r3 c3 h e1 e2 ⟨b', A, C, B, S, hb', hP, hA', hC', hS, hB⟩
    obtain ⟨b, hb, hA, hC⟩ := hs
    have hle := hb.le
    rw [getBoundary_eq (r3 ▸ hb)] at hb'
    injection hb' with hb'
    subst hb' hP
    have inv : ∀ {m : Mat α} {P : SM α}, m.rows = n → m.cols = n → SM.fromDense (.topRight x y ca cc) m = .ok P →
        ∃ A C, SM.fromDense ca (m.slice 0 b 0 b) = .ok A ∧ SM.fromDense cc (m.slice b m.rows b m.cols) = .ok C ∧
          P.toDense = blk b (b + (n - b)) A.toDense ((m.slice 0 b b m.cols).add (m.slice b m.rows 0 b).T)
            (Mat.zeros (n - b) b) C.toDense := by
      intro m P hr hc e
      obtain ⟨A, eA, wA⟩ := fromDense_wf hA (m := m.slice 0 b 0 b) (by shp) (by shp)
      obtain ⟨C, eC, wC⟩ := fromDense_wf hC (m := m.slice b m.rows b m.cols) (by shp) (by shp)
      rw [SM.fromDense, if_neg (by omega), getBoundary_eq (hr ▸ hb), Except.bind_ok', eA, Except.bind_ok',
        add?_ok (by shp) (by shp), Except.bind_ok', eC, Except.bind_ok',
        initTopRight_ok (b := b) (e := n - b) (by rwa [show b + (n - b) = n by omega]) wA (by shp) (by shp) wC] at e
      injection e with e; subst e
      exact ⟨A, C, eA, eC, toDense_tr wA (by shp) (by shp) wC⟩
    obtain ⟨A1, C1, a1, b1, t1⟩ := inv r1 c1 e1
    obtain ⟨A2, C2, a2, b2, t2⟩ := inv r2 c2 e2
    rw [add?_ok (by shp) (by shp)] at hS
    cases hS
    obtain ⟨wA, hAll⟩ := ihA hA (by shp) (by shp) (by shp) (by shp) (by shp) (by shp)
      (fun i j => by rw [get_slice, get_slice, get_slice]; split_ifs; exacts [h _ _, App.zero hu]) a1 a2 hA'
    obtain ⟨wC, hCll⟩ := ihC hC (by shp) (by shp) (by shp) (by shp) (by shp) (by shp)
      (fun i j => by rw [get_slice, get_slice, get_slice, r1, r2, r3, c1, c2, c3]; split_ifs; exacts [h _ _, App.zero hu]) b1 b2 hC'
    have rB : B.rows = b := by rw [hB.rows]; shp
    have cB : B.cols = n - b := by rw [hB.cols]; shp
    have key : ∀ k < n, k < b ∨ ∃ t < n - b, k = b + t := by
      intro k hk
      by_cases h1 : k < b
      · exact .inl h1
      · exact .inr ⟨k - b, by omega, by omega⟩
    refine ⟨.topRight hb wA rB cB wC, fun i hi j hj => ?_⟩
    rw [t1, t2, toDense_tr wA rB cB wC]
    rcases key i hi with x1 | ⟨i, x1, rfl⟩ <;> rcases key j hj with x2 | ⟨j, x2, rfl⟩
    · rw [blk_tl x1 x2, blk_tl x1 x2, blk_tl x1 x2]; exact (hAll i x1 j x2).mono hu (by omega) le_rfl
    · rw [blk_tr x1 x2, blk_tr x1 x2, blk_tr x1 x2, get_add (by shp) (by shp), get_add (by shp) (by shp)]
      have hr := hB.get i j
      rw [get_add (by shp) (by shp)] at hr
      refine (App.rnd hu (App.plus hu ?_ ?_) hr).mono hu (show k + 1 ≤ _ by omega) le_rfl
      all_goals simp only [get_T, get_slice, r1, r2, r3, c1, c2, c3]; split_ifs; exacts [h _ _, App.zero hu]
    · rw [blk_bl x1 x2, blk_bl x1 x2, blk_bl x1 x2, get_zeros]; exact App.zero hu
    · rw [blk_br x1 x2, blk_br x1 x2, blk_br x1 x2]; exact (hCll i x1 j x2).mono hu (by omega) le_rfl
  | bottomLeft x y ca cc ihA ihC =>
    intro n Q QB QE P PB PE hs r1 c1 r2 c2 r3 c3 h e1 e2 ⟨b', A, C, B, S, hb', hP, hA', hC', hS, hB⟩
    obtain ⟨b, hb, hA, hC⟩ := hs
    have hle := hb.le
    rw [getBoundary_eq (r3 ▸ hb)] at hb'
    injection hb' with hb'
    subst hb' hP
    have inv : ∀ {m : Mat α} {P : SM α}, m.rows = n → m.cols = n → SM.fromDense (.bottomLeft x y ca cc) m = .ok P →
        ∃ A C, SM.fromDense ca (m.slice 0 b 0 b) = .ok A ∧ SM.fromDense cc (m.slice b m.rows b m.cols) = .ok C ∧
          P.toDense = blk b (b + (n - b)) A.toDense (Mat.zeros b (n - b))
            ((m.slice b m.rows 0 b).add (m.slice 0 b b m.cols).T) C.toDense := by
      intro m P hr hc e
      obtain ⟨A, eA, wA⟩ := fromDense_wf hA (m := m.slice 0 b 0 b) (by shp) (by shp)
      obtain ⟨C, eC, wC⟩ := fromDense_wf hC (m := m.slice b m.rows b m.cols) (by shp) (by shp)
      rw [SM.fromDense, if_neg (by omega), getBoundary_eq (hr ▸ hb), Except.bind_ok', eA, Except.bind_ok',
        add?_ok (by shp) (by shp), Except.bind_ok', eC, Except.bind_ok',
        initBottomLeft_ok (b := b) (e := n - b) (by rwa [show b + (n - b) = n by omega]) wA (by shp) (by shp) wC] at e
      injection e with e; subst e
      exact ⟨A, C, eA, eC, toDense_bl wA (by shp) (by shp) wC⟩
    obtain ⟨A1, C1, a1, b1, t1⟩ := inv r1 c1 e1
    obtain ⟨A2, C2, a2, b2, t2⟩ := inv r2 c2 e2
    rw [add?_ok (by shp) (by shp)] at hS
    cases hS
    obtain ⟨wA, hAll⟩ := ihA hA (by shp) (by shp) (by shp) (by shp) (by shp) (by shp)
      (fun i j => by rw [get_slice, get_slice, get_slice]; split_ifs; exacts [h _ _, App.zero hu]) a1 a2 hA'
    obtain ⟨wC, hCll⟩ := ihC hC (by shp) (by shp) (by shp) (by shp) (by shp) (by shp)
      (fun i j => by rw [get_slice, get_slice, get_slice, r1, r2, r3, c1, c2, c3]; split_ifs; exacts [h _ _, App.zero hu]) b1 b2 hC'
    have rB : B.rows = n - b := by rw [hB.rows]; shp
    have cB : B.cols = b := by rw [hB.cols]; shp
    have key : ∀ k < n, k < b ∨ ∃ t < n - b, k = b + t := by
      intro k hk
      by_cases h1 : k < b
      · exact .inl h1
      · exact .inr ⟨k - b, by omega, by omega⟩
    refine ⟨.bottomLeft hb wA rB cB wC, fun i hi j hj => ?_⟩
    rw [t1, t2, toDense_bl wA rB cB wC]
    rcases key i hi with x1 | ⟨i, x1, rfl⟩ <;> rcases key j hj with x2 | ⟨j, x2, rfl⟩
    · rw [blk_tl x1 x2, blk_tl x1 x2, blk_tl x1 x2]; exact (hAll i x1 j x2).mono hu (by omega) le_rfl
    · rw [blk_tr x1 x2, blk_tr x1 x2, blk_tr x1 x2, get_zeros]; exact App.zero hu
    · rw [blk_bl x1 x2, blk_bl x1 x2, blk_bl x1 x2, get_add (by shp) (by shp), get_add (by shp) (by shp)]
      have hr := hB.get i j
      rw [get_add (by shp) (by shp)] at hr
      refine (App.rnd hu (App.plus hu ?_ ?_) hr).mono hu (show k + 1 ≤ _ by omega) le_rfl
      all_goals simp only [get_T, get_slice, r1, r2, r3, c1, c2, c3]; split_ifs; exacts [h _ _, App.zero hu]
    · rw [blk_br x1 x2, blk_br x1 x2, blk_br x1 x2]; exact (hCll i x1 j x2).mono hu (by omega) le_rfl

end

/-- absolute values of the entries of a matrix of the class form a matrix of the class -/
theorem WF.abs {c : Cls} {n : ℕ} {K : SM α} (h : WF c n K) (hc : c.NoHier) : ∃ K' : SM α, WF c n K' ∧ ∀ i j, K'.toDense.get i j = |K.toDense.get i j| := by
  have mat : ∀ A : Mat α, ∃ A' : Mat α, A'.rows = A.rows ∧ A'.cols = A.cols ∧ ∀ i j, A'.get i j = |A.get i j| := fun A =>
    ⟨Mat.ofFn A.rows A.cols fun i j => |A.get i j|, rfl, rfl, fun i j => by
      rw [get_ofFn]; split_ifs with hi
      · rfl
      · rw [A.supp i j (by omega), abs_zero]⟩
  have vec : ∀ d : Vec α, ∃ d' : Vec α, d'.len = d.len ∧ ∀ i, d'.get i = |d.get i| := fun d =>
    ⟨Vec.ofFn d.len fun i => |d.get i|, rfl, fun i => by
      rw [Vec.get_ofFn]; split_ifs with hi
      · rfl
      · rw [d.supp i (by omega), abs_zero]⟩
  induction h with
  | @dense n m hr hc' =>
    obtain ⟨m', e1, e2, e3⟩ := mat m
    exact ⟨.dense m', .dense (e1.trans hr) (e2.trans hc'), e3⟩
  | @diagonal n d h =>
    obtain ⟨d', e1, e2⟩ := vec d
    refine ⟨.diagonal d', .diagonal (e1.trans h), fun i j => ?_⟩
    simp only [SM.toDense, Diagonal.get_toDense, e2]
    split_ifs <;> simp
  | @block D n b h =>
    obtain ⟨m', e1, e2, e3⟩ := mat b.last
    let t : T3 α := T3.ofFn b.blocks.d0 b.blocks.d1 b.blocks.d2 fun i j k => |b.blocks.get i j k|
    have ht : ∀ i j k, t.get i j k = |b.blocks.get i j k| := fun i j k => by
      show (if _ then _ else _) = _
      split_ifs with hi
      · rfl
      · rw [b.blocks.supp i j k (by omega), abs_zero]
    have w : ({ D := b.D, blocks := t, last := m' } : BlockDiag α).WF D n := ⟨h.pos, h.hD, h.d0, h.d1, h.d2, e1.trans h.lr, e2.trans h.lc⟩
    refine ⟨.block _, .block w, fun i j => ?_⟩
    obtain ⟨q, r, hr, rfl⟩ := BlockDiag.exists_qr h.pos i
    obtain ⟨q', r', hr', rfl⟩ := BlockDiag.exists_qr h.pos j
    simp only [SM.toDense]
    rw [BlockDiag.get_toDense w hr hr', BlockDiag.get_toDense h hr hr']
    have he : ∀ q r r', ({ D := b.D, blocks := t, last := m' } : BlockDiag α).ent q r r' = |b.ent q r r'| := fun q r r' => by
      unfold BlockDiag.ent
      dsimp only
      rw [ht, e3, show t.d0 = b.blocks.d0 from rfl]
      split_ifs <;> simp
    rw [he]
    split_ifs
    · rfl
    · exact abs_zero.symm
  | hier hd h => exact hc.elim
  | @tril n d hn h =>
    obtain ⟨d', e1, e2⟩ := vec d
    refine ⟨.tril d', .tril hn (e1.trans h), fun i j => ?_⟩
    simp only [SM.toDense, Tril.get_toDense, e1, e2]
    split_ifs <;> simp
  | @triu n d hn h =>
    obtain ⟨d', e1, e2⟩ := vec d
    refine ⟨.triu d', .triu hn (e1.trans h), fun i j => ?_⟩
    simp only [SM.toDense, Triu.toDense_eq, get_T, Tril.get_toDense, e1, e2]
    split_ifs <;> simp
  | @topRight x y ca cc n b A C B hb hA hr hc' hC ihA ihC =>
    obtain ⟨A', wA, eA⟩ := ihA hc.1
    obtain ⟨C', wC, eC⟩ := ihC hc.2
    obtain ⟨B', e1, e2, e3⟩ := mat B
    refine ⟨.topRight x y ca cc A' B' C', .topRight hb wA (e1.trans hr) (e2.trans hc') wC, fun i j => ?_⟩
    rw [toDense_tr wA (e1.trans hr) (e2.trans hc') wC, toDense_tr hA hr hc' hC]
    simp only [blk, get_ofFn, eA, eC, e3, get_zeros]
    split_ifs <;> simp
  | @bottomLeft x y ca cc n b A C B hb hA hr hc' hC ihA ihC =>
    obtain ⟨A', wA, eA⟩ := ihA hc.1
    obtain ⟨C', wC, eC⟩ := ihC hc.2
    obtain ⟨B', e1, e2, e3⟩ := mat B
    refine ⟨.bottomLeft x y ca cc A' B' C', .bottomLeft hb wA (e1.trans hr) (e2.trans hc') wC, fun i j => ?_⟩
    rw [toDense_bl wA (e1.trans hr) (e2.trans hc') wC, toDense_bl hA hr hc' hC]
    simp only [blk, get_ofFn, eA, eC, e3, get_zeros]
    split_ifs <;> simp

section
variable {c : Cls} {n : ℕ}

/-- the projection keeps the matrices of the class -/
theorem WF.proj_den {K : SM α} (h : WF c n K) (hc : c.NoHier) : c.proj n (K.den n) = K.den n := by
  rw [Cls.proj, SM.den, Mat.ofMatrix_M h.rows h.cols, fromDense_toDense h hc]; rfl

theorem proj_proj (h : c.Supports n) (hc : c.NoHier) (G : Matrix (Fin n) (Fin n) α) : c.proj n (c.proj n G) = c.proj n G := by
  obtain ⟨P, e, w, d⟩ := fromDense_proj h (M := Mat.ofMatrix G) rfl rfl
  rw [Mat.M_ofMatrix] at d
  rw [← d, w.proj_den hc]

/-- products of absolute values are not changed by the projection -/
theorem proj_abs_mul {K M : SM α} (hK : WF c n K) (hM : WF c n M) (hc : c.NoHier) :
    c.proj n (absM (K.den n) * absM (M.den n)) = absM (K.den n) * absM (M.den n) := by
  obtain ⟨K', wK, eK⟩ := hK.abs hc
  obtain ⟨M', wM, eM⟩ := hM.abs hc
  have e1 : absM (K.den n) = K'.den n := by ext i j; exact (eK i j).symm
  have e2 : absM (M.den n) = M'.den n := by ext i j; exact (eM i j).symm
  have hr : c.Regular := by cases c <;> first | exact hc.elim | exact hc
  obtain ⟨P, _, wP, dP⟩ := C01_matmul_exact hr wK wM
  rw [e1, e2, ← dP, wP.proj_den hc]

/-- `from_dense` of an approximation, with rounding: approximates the projection -/
theorem SM.FFromDense.mapp {u : α} (hu : 0 ≤ u) {k : ℕ} {B E : Matrix (Fin n) (Fin n) α} {Q : Mat α} {P : SM α} (hs : c.Supports n)
    (hr : Q.rows = n) (hc : Q.cols = n) (h : MApp u k B E Q) (hP : SM.FFromDense u c Q P) :
    WF c n P ∧ MApp u (k + (2 * n + 2)) (c.proj n B) (c.proj n E) P.toDense := by
  obtain ⟨PB, eB, _, dB⟩ := fromDense_proj hs (M := Mat.ofMatrix B) rfl rfl
  obtain ⟨PE, eE, _, dE⟩ := fromDense_proj hs (M := Mat.ofMatrix E) rfl rfl
  rw [Mat.M_ofMatrix] at dB dE
  obtain ⟨w, hg⟩ := SM.FFromDense.app hu hs (Q := Q) (QB := Mat.ofMatrix B) (QE := Mat.ofMatrix E) rfl rfl rfl rfl hr hc
    (fun i j => by
      simp only [Mat.ofMatrix, get_ofFn]
      split_ifs with hij
      · exact h ⟨i, hij.1⟩ ⟨j, hij.2⟩
      · rw [Q.supp i j (by omega)]; exact App.zero hu) eB eE hP
  refine ⟨w, fun i j => ?_⟩
  rw [← dB, ← dE]
  exact hg i i.2 j j.2
end
