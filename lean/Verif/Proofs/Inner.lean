import Verif.Proofs.EyeZeros
import Mathlib.Algebra.Order.BigOperators.Ring.Finset
import Mathlib.Tactic.Linarith
import Mathlib.Tactic.LinearCombination

/-! Frobenius inner products of structured matrices; `from_dense` as an orthogonal projection. -/

open Finset
variable {α : Type} [Field α]
open Mat

/-- Frobenius inner product of two `n × n` arrays -/
def ip (n : ℕ) (f g : ℕ → ℕ → α) : α := ∑ i ∈ range n, ∑ j ∈ range n, f i j * g i j

theorem ip_congr {n : ℕ} {f g f' g' : ℕ → ℕ → α} (h : ∀ i < n, ∀ j < n, f i j * g i j = f' i j * g' i j) :
    ip n f g = ip n f' g' :=
  sum_congr rfl fun i hi => sum_congr rfl fun j hj => h i (by simpa using hi) j (by simpa using hj)

theorem ip_add_left (n : ℕ) (f f' g : ℕ → ℕ → α) : ip n (fun i j => f i j + f' i j) g = ip n f g + ip n f' g := by
  simp only [ip, ← sum_add_distrib]
  exact sum_congr rfl fun i _ => sum_congr rfl fun j _ => by ring

theorem ip_smul_left (n : ℕ) (s : α) (f g : ℕ → ℕ → α) : ip n (fun i j => s * f i j) g = s * ip n f g := by
  simp only [ip, mul_sum]
  exact sum_congr rfl fun i _ => sum_congr rfl fun j _ => by ring

theorem ip_flip (n : ℕ) (f g : ℕ → ℕ → α) : ip n (fun i j => f j i) g = ip n f (fun i j => g j i) := by
  simp only [ip]; exact sum_comm

theorem ip_split (b e : ℕ) (f g : ℕ → ℕ → α) : ip (b + e) f g =
    ip b f g + (∑ i ∈ range b, ∑ j ∈ range e, f i (b + j) * g i (b + j)) +
    ((∑ i ∈ range e, ∑ j ∈ range b, f (b + i) j * g (b + i) j) + ip e (fun i j => f (b + i) (b + j)) (fun i j => g (b + i) (b + j))) := by
  simp only [ip]
  rw [sum_range_add]
  congr 1
  · rw [← sum_add_distrib]; exact sum_congr rfl fun i _ => sum_range_add _ _ _
  · rw [← sum_add_distrib]; exact sum_congr rfl fun i _ => sum_range_add _ _ _

theorem sum2_congr {n m : ℕ} {f g : ℕ → ℕ → α} (h : ∀ i < n, ∀ j < m, f i j = g i j) :
    ∑ i ∈ range n, ∑ j ∈ range m, f i j = ∑ i ∈ range n, ∑ j ∈ range m, g i j :=
  sum_congr rfl fun i hi => sum_congr rfl fun j hj => h i (by simpa using hi) j (by simpa using hj)

theorem ip_blk {b e : ℕ} {A R L C : Mat α} (f : ℕ → ℕ → α) : ip (b + e) f (blk b (b + e) A R L C).get =
    ip b f A.get + (∑ i ∈ range b, ∑ j ∈ range e, f i (b + j) * R.get i j) +
    ((∑ i ∈ range e, ∑ j ∈ range b, f (b + i) j * L.get i j) + ip e (fun i j => f (b + i) (b + j)) C.get) := by
  rw [ip_split]
  congr 1
  · congr 1
    · exact ip_congr fun i hi j hj => by rw [blk_tl hi hj]
    · exact sum2_congr fun i hi j hj => by rw [blk_tr hi hj]
  · congr 1
    · exact sum2_congr fun i hi j hj => by rw [blk_bl hi hj]
    · exact ip_congr fun i hi j hj => by rw [blk_br hi hj]

/-- inner product with a lower-triangular Toeplitz matrix -/
theorem ip_tril {n : ℕ} (f : ℕ → ℕ → α) {q : Vec α} (hq : q.len = n) :
    ip n f (Tril.toDense q).get = ∑ k ∈ range n, q.get k * ∑ i ∈ range (n - k), f (i + k) i := by
  simp only [ip, mul_sum]
  have e1 : ∀ i ∈ range n, ∑ j ∈ range n, f i j * (Tril.toDense q).get i j =
      ∑ k ∈ range n, if k ≤ i then q.get k * f i (i - k) else 0 := by
    intro i hi
    simp at hi
    have hl : ∑ j ∈ range n, f i j * (Tril.toDense q).get i j = ∑ j ∈ range (i + 1), f i j * q.get (i - j) := by
      rw [sum_range_eq_block (a := 0) (m := i + 1)]
      · refine sum_congr rfl fun j hj => ?_
        simp at hj
        rw [Tril.get_toDense, if_pos (by omega), if_pos (by omega), Nat.zero_add]
      · intro k hk h; rw [Tril.get_toDense, if_neg (by omega), mul_zero]
      · intro k h1 h2 h3; omega
    have hr : (∑ k ∈ range n, if k ≤ i then q.get k * f i (i - k) else 0) = ∑ k ∈ range (i + 1), q.get k * f i (i - k) := by
      rw [← sum_range_extend (n := i + 1) (m := n) (by omega) (fun k hk => if_neg (by omega))]
      exact sum_congr rfl fun k hk => if_pos (by simp at hk; omega)
    rw [hl, hr, ← sum_range_reflect]
    refine sum_congr rfl fun k hk => ?_
    simp at hk
    rw [mul_comm]; congr 2 <;> omega
  rw [sum_congr rfl e1, sum_comm]
  refine sum_congr rfl fun k hk => ?_
  simp at hk
  rw [sum_range_eq_block (a := k) (m := n - k)]
  · refine sum_congr rfl fun i hi => ?_
    rw [if_pos (by omega)]; congr 2 <;> omega
  · intro i _ h; rw [if_neg (by omega)]
  · intro i h1 h2 h3; omega

theorem ip_triu {n : ℕ} (f : ℕ → ℕ → α) {q : Vec α} (hq : q.len = n) :
    ip n f (Triu.toDense q).get = ∑ k ∈ range n, q.get k * ∑ i ∈ range (n - k), f i (i + k) := by
  have : (Triu.toDense q).get = fun i j => (Tril.toDense q).get j i := by
    funext i j; rw [Triu.toDense_eq, get_T]
  rw [this, ← ip_flip, ip_tril _ hq]

/-- sums along a diagonal, without the terms outside the matrix -/
theorem sum_diag_lower {m : Mat α} {n k : ℕ} (hr : m.rows = n) :
    ∑ i ∈ range n, m.get (i + k) i = ∑ i ∈ range (n - k), m.get (i + k) i :=
  (sum_range_extend (by omega) fun i hi => m.supp _ _ (by omega)).symm
theorem sum_diag_upper {m : Mat α} {n k : ℕ} (hc : m.cols = n) :
    ∑ i ∈ range n, m.get i (i + k) = ∑ i ∈ range (n - k), m.get i (i + k) :=
  (sum_range_extend (by omega) fun i hi => m.supp _ _ (by omega)).symm

/-- the residual of `from_dense` is orthogonal to the class: `2⟨M, Q⟩ = ⟨P, Q⟩ + ⟨Pᵀ, Q⟩` -/
theorem fromDense_orth [CharZero α] : ∀ {c : Cls} {n : ℕ} {P Q : SM α} {m : Mat α}, m.rows = n → m.cols = n →
    (∀ i j, m.get i j = m.get j i) → SM.fromDense c m = .ok P → WF c n Q →
    2 * ip n m.get Q.toDense.get = ip n P.toDense.get Q.toDense.get + ip n (fun i j => P.toDense.get j i) Q.toDense.get := by
  have term : ∀ {n : ℕ} {P Q : SM α} {m : Mat α},
      (∀ i < n, ∀ j < n, Q.toDense.get i j = 0 ∨ P.toDense.get i j + P.toDense.get j i = 2 * m.get i j) →
      2 * ip n m.get Q.toDense.get = ip n P.toDense.get Q.toDense.get + ip n (fun i j => P.toDense.get j i) Q.toDense.get := by
    intro n P Q m h
    rw [← ip_add_left, ← ip_smul_left]
    refine ip_congr fun i hi j hj => ?_
    rcases h i hi j hj with h | h
    · rw [h, mul_zero, mul_zero]
    · rw [h]
  intro c
  induction c with
  | dense =>
    intro n P Q m hr hc hs e w
    injection e with e; subst e
    exact term fun i _ j _ => Or.inr (by rw [SM.toDense, hs j i]; ring)
  | diagonal =>
    intro n P Q m hr hc hs e w
    injection e with e; subst e
    cases w with | diagonal h =>
    refine term fun i _ j _ => ?_
    simp only [SM.toDense, Diagonal.get_toDense, get_diag]
    by_cases hij : i = j
    · subst hij; right; simp; ring
    · left; simp [hij]
  | block D =>
    intro n P Q m hr hc hs e w
    cases w with | block h =>
    obtain ⟨p, e', w, hp⟩ := BlockDiag.fromDense_spec h.pos hr hc
    rw [SM.fromDense, e'] at e; injection e with e; subst e
    refine term fun i _ j _ => ?_
    obtain ⟨q, r, hr, rfl⟩ := BlockDiag.exists_qr h.pos i
    obtain ⟨q', r', hr', rfl⟩ := BlockDiag.exists_qr h.pos j
    simp only [SM.toDense]
    rw [BlockDiag.get_toDense h hr hr', BlockDiag.get_toDense w hr hr', BlockDiag.get_toDense w hr' hr]
    by_cases hq : q = q'
    · subst hq; right
      rw [if_pos rfl, if_pos rfl, hp _ _ _ hr hr', hp _ _ _ hr' hr, hs (q * D + r')]; ring
    · left; rw [if_neg hq]
  | hier m1 m2 =>
    intro n P Q m hr hc hs e w
    cases w with | @hier _ _ _ k1 d k2 q hd h =>
    obtain ⟨p, e', w, hp⟩ := Hier.fromDense_spec hd hr hc
    rw [SM.fromDense, e'] at e; injection e with e; subst e
    refine term fun i hi j hj => ?_
    simp only [SM.toDense]
    have key : ∀ k < n, k < k1 ∨ (∃ t < d, k = k1 + t) ∨ ∃ t < k2, k = k1 + d + t := by
      intro k hk
      have := hd.sum
      by_cases h1 : k < k1
      · exact .inl h1
      · by_cases h2 : k < k1 + d
        · exact .inr (.inl ⟨k - k1, by omega, by omega⟩)
        · exact .inr (.inr ⟨k - (k1 + d), by omega, by omega⟩)
    rcases key i hi with h1 | ⟨i, h1, rfl⟩ | ⟨i, h1, rfl⟩ <;> rcases key j hj with h2 | ⟨j, h2, rfl⟩ | ⟨j, h2, rfl⟩
    · right; rw [Hier.get_tt w h1 h2, Hier.get_tt w h2 h1, hp.a _ h1 _ h2, hp.a _ h2 _ h1, hs j]; ring
    · right; rw [Hier.get_tm w h1 h2, Hier.get_mt w h2 h1, hp.b _ h1 _ (by omega)]; ring
    · right; rw [Hier.get_tb w h1 h2, Hier.get_bt w h2 h1, hp.b _ h1 _ (by omega), ← Nat.add_assoc]; ring
    · left; rw [Hier.get_mt h h1 h2]
    · by_cases hij : i = j
      · subst hij; right; rw [Hier.get_mm w h1 h1, if_pos rfl, hp.c _ h1]; ring
      · left; rw [Hier.get_mm h h1 h2, if_neg hij]
    · left; rw [Hier.get_mb h h1 h2]
    · left; rw [Hier.get_bt h h1 h2]
    · right; rw [Hier.get_bm w h1 h2, Hier.get_mb w h2 h1, hp.dd _ h1 _ h2]; ring
    · right; rw [Hier.get_bb w h1 h2, Hier.get_bb w h2 h1, hp.e _ h1 _ h2, hp.e _ h2 _ h1, hs (k1 + d + j)]; ring
  | tril =>
    intro n P Q m hr hc hs e w
    cases w with | @tril _ q hn hq =>
    obtain ⟨p, e', w, hp⟩ := toeplitzFromDense_spec hn hr hc
    rw [SM.fromDense, Tril.fromDense, e'] at e; injection e with e; subst e
    simp only [SM.toDense]
    rw [ip_tril _ hq, ip_tril _ hq, ip_tril _ hq, ← sum_add_distrib, mul_sum]
    refine sum_congr rfl fun k hk => ?_
    simp at hk
    have hne : ((n - k : ℕ) : α) ≠ 0 := toeplitz_cast_ne hk
    have e1 : ∑ i ∈ range (n - k), (Tril.toDense p).get (i + k) i = ((n - k : ℕ) : α) * p.get k := by
      rw [sum_congr rfl (g := fun _ => p.get k), sum_const, card_range, nsmul_eq_mul]
      intro i hi; simp at hi
      rw [Tril.get_toDense, if_pos (by omega), if_pos (by omega)]; congr 1; omega
    rw [e1, hp k hk, mul_div_cancel₀ _ hne, sum_diag_lower hr, sum_diag_upper hc]
    by_cases h0 : k = 0
    · subst h0
      have e2 : ∑ i ∈ range (n - 0), (Tril.toDense p).get i (i + 0) = ∑ i ∈ range (n - 0), m.get i i := by
        have := e1
        rw [hp 0 hk, mul_div_cancel₀ _ hne, if_pos rfl] at this
        simpa using this
      rw [e2, if_pos rfl]; simp; ring
    · have e2 : ∑ i ∈ range (n - k), (Tril.toDense p).get i (i + k) = 0 :=
        sum_eq_zero fun i _ => by rw [Tril.get_toDense, if_neg (by omega)]
      have e3 : ∑ i ∈ range (n - k), m.get i (i + k) = ∑ i ∈ range (n - k), m.get (i + k) i :=
        sum_congr rfl fun i _ => hs _ _
      rw [e2, if_neg h0, e3]; ring
  | triu =>
    intro n P Q m hr hc hs e w
    cases w with | @triu _ q hn hq =>
    obtain ⟨p, e', w, hp⟩ := toeplitzFromDense_spec hn hr hc
    rw [SM.fromDense, Triu.fromDense, e'] at e; injection e with e; subst e
    simp only [SM.toDense]
    rw [ip_triu _ hq, ip_triu _ hq, ip_triu _ hq, ← sum_add_distrib, mul_sum]
    refine sum_congr rfl fun k hk => ?_
    simp at hk
    have hne : ((n - k : ℕ) : α) ≠ 0 := toeplitz_cast_ne hk
    have e1 : ∑ i ∈ range (n - k), (Triu.toDense p).get i (i + k) = ((n - k : ℕ) : α) * p.get k := by
      rw [sum_congr rfl (g := fun _ => p.get k), sum_const, card_range, nsmul_eq_mul]
      intro i hi; simp at hi
      rw [Triu.toDense_eq, get_T, Tril.get_toDense, if_pos (by omega), if_pos (by omega)]; congr 1; omega
    rw [e1, hp k hk, mul_div_cancel₀ _ hne, sum_diag_lower hr, sum_diag_upper hc]
    by_cases h0 : k = 0
    · subst h0
      have e2 : ∑ i ∈ range (n - 0), (Triu.toDense p).get (i + 0) i = ∑ i ∈ range (n - 0), m.get i i := by
        have := e1
        rw [hp 0 hk, mul_div_cancel₀ _ hne, if_pos rfl] at this
        simpa using this
      rw [e2, if_pos rfl]; simp; ring
    · have e2 : ∑ i ∈ range (n - k), (Triu.toDense p).get (i + k) i = 0 :=
        sum_eq_zero fun i _ => by rw [Triu.toDense_eq, get_T, Tril.get_toDense, if_neg (by omega)]
      have e3 : ∑ i ∈ range (n - k), m.get i (i + k) = ∑ i ∈ range (n - k), m.get (i + k) i :=
        sum_congr rfl fun i _ => hs _ _
      rw [e2, if_neg h0, e3]; ring
  | topRight x y ca cc ihA ihC =>
    intro n P Q m hr hc hs e w
    obtain ⟨b, e', QA, QB, QC, rfl, rfl, hb, hA, hBr, hBc, hC⟩ := w.tr_inv
    obtain ⟨A, eA, wA⟩ := fromDense_wf hA.supports (m := m.slice 0 b 0 b) (by shp) (by shp)
    obtain ⟨C, eC, wC⟩ := fromDense_wf hC.supports (m := m.slice b m.rows b m.cols) (by shp) (by shp)
    have sl1 : ∀ i < b, ∀ j < b, (m.slice 0 b 0 b).get i j = m.get i j := fun i hi j hj => by
      rw [get_slice, if_pos (by omega)]; simp
    have sl2 : ∀ i < e', ∀ j < e', (m.slice b m.rows b m.cols).get i j = m.get (b + i) (b + j) := fun i hi j hj => by
      rw [get_slice, if_pos (by omega)]
    have sy : ∀ r0 r1, ∀ i j, (m.slice r0 r1 r0 r1).get i j = (m.slice r0 r1 r0 r1).get j i := by
      intro r0 r1 i j; rw [get_slice, get_slice, hs]; congr 1; simp [and_comm]
    have tA := ihA (by shp) (by shp) (sy 0 b) eA hA
    have tC := ihC (by shp) (by shp) (by rw [hr, hc]; exact sy b (b + e')) eC hC
    rw [SM.fromDense, if_neg (by omega), getBoundary_eq (hr ▸ hb), Except.bind_ok', eA, Except.bind_ok',
      add?_ok (by shp) (by shp), Except.bind_ok', eC, Except.bind_ok',
      initTopRight_ok hb wA (by shp) (by shp) wC] at e
    injection e with e; subst e
    rw [toDense_tr hA hBr hBc hC, ip_blk, ip_blk, ip_blk, toDense_tr (e := e') wA (by shp) (by shp) wC]
    have z1 : ∀ f : ℕ → ℕ → α, ∑ i ∈ range e', ∑ j ∈ range b, f i j * (Mat.zeros e' b : Mat α).get i j = 0 :=
      fun f => sum_eq_zero fun i _ => sum_eq_zero fun j _ => by simp
    simp only [z1]
    rw [ip_congr (f := m.get) (f' := (m.slice 0 b 0 b).get) (g' := QA.toDense.get) fun i hi j hj => by rw [sl1 i hi j hj],
      ip_congr (f := fun i j => m.get (b + i) (b + j)) (f' := (m.slice b m.rows b m.cols).get) (g' := QC.toDense.get)
        fun i hi j hj => by rw [sl2 i hi j hj], mul_add, mul_add, tA, mul_add, tC]
    rw [ip_congr (n := b) (f := (blk b (b + e') A.toDense _ _ _).get) (f' := A.toDense.get) (g' := QA.toDense.get)
        fun i hi j hj => by rw [blk_tl hi hj],
      ip_congr (n := b) (f := fun i j => (blk b (b + e') A.toDense _ _ _).get j i) (f' := fun i j => A.toDense.get j i) (g' := QA.toDense.get)
        fun i hi j hj => by rw [blk_tl hj hi],
      ip_congr (n := e') (f := fun i j => (blk b (b + e') A.toDense _ _ _).get (b + i) (b + j)) (f' := C.toDense.get) (g' := QC.toDense.get)
        fun i hi j hj => by rw [blk_br hi hj],
      ip_congr (n := e') (f := fun i j => (blk b (b + e') A.toDense _ _ _).get (b + j) (b + i)) (f' := fun i j => C.toDense.get j i) (g' := QC.toDense.get)
        fun i hi j hj => by rw [blk_br hj hi]]
    have r1 : ∀ R : Mat α, (∀ i < b, ∀ j < e', R.get i j = 2 * m.get i (b + j)) → 
        ∑ i ∈ range b, ∑ j ∈ range e', (blk b (b + e') A.toDense R (Mat.zeros e' b) C.toDense).get i (b + j) * QB.get i j =
        2 * ∑ i ∈ range b, ∑ j ∈ range e', m.get i (b + j) * QB.get i j := by
      intro R hR
      simp only [mul_sum]
      exact sum2_congr fun i hi j hj => by rw [blk_tr hi hj, hR i hi j hj]; ring
    have r2 : ∀ R : Mat α, ∑ i ∈ range b, ∑ j ∈ range e', (blk b (b + e') A.toDense R (Mat.zeros e' b) C.toDense).get (b + j) i * QB.get i j =
        0 := by
      intro R
      rw [sum2_congr (g := fun _ _ => 0) fun i hi j hj => by rw [blk_bl hj hi]; simp]; simp
    rw [r1, r2]
    · ring
    · intro i hi j hj
      rw [get_add (by shp) (by shp), get_slice, if_pos (by omega), get_T, get_slice, if_pos (by omega), hs (b + j)]
      simp; ring
  | bottomLeft x y ca cc ihA ihC =>
    intro n P Q m hr hc hs e w
    obtain ⟨b, e', QA, QB, QC, rfl, rfl, hb, hA, hBr, hBc, hC⟩ := w.bl_inv
    obtain ⟨A, eA, wA⟩ := fromDense_wf hA.supports (m := m.slice 0 b 0 b) (by shp) (by shp)
    obtain ⟨C, eC, wC⟩ := fromDense_wf hC.supports (m := m.slice b m.rows b m.cols) (by shp) (by shp)
    have sl1 : ∀ i < b, ∀ j < b, (m.slice 0 b 0 b).get i j = m.get i j := fun i hi j hj => by
      rw [get_slice, if_pos (by omega)]; simp
    have sl2 : ∀ i < e', ∀ j < e', (m.slice b m.rows b m.cols).get i j = m.get (b + i) (b + j) := fun i hi j hj => by
      rw [get_slice, if_pos (by omega)]
    have sy : ∀ r0 r1, ∀ i j, (m.slice r0 r1 r0 r1).get i j = (m.slice r0 r1 r0 r1).get j i := by
      intro r0 r1 i j; rw [get_slice, get_slice, hs]; congr 1; simp [and_comm]
    have tA := ihA (by shp) (by shp) (sy 0 b) eA hA
    have tC := ihC (by shp) (by shp) (by rw [hr, hc]; exact sy b (b + e')) eC hC
    rw [SM.fromDense, if_neg (by omega), getBoundary_eq (hr ▸ hb), Except.bind_ok', eA, Except.bind_ok',
      add?_ok (by shp) (by shp), Except.bind_ok', eC, Except.bind_ok',
      initBottomLeft_ok hb wA (by shp) (by shp) wC] at e
    injection e with e; subst e
    rw [toDense_bl hA hBr hBc hC, ip_blk, ip_blk, ip_blk, toDense_bl (e := e') wA (by shp) (by shp) wC]
    have z1 : ∀ f : ℕ → ℕ → α, ∑ i ∈ range b, ∑ j ∈ range e', f i j * (Mat.zeros b e' : Mat α).get i j = 0 :=
      fun f => sum_eq_zero fun i _ => sum_eq_zero fun j _ => by simp
    simp only [z1]
    rw [ip_congr (f := m.get) (f' := (m.slice 0 b 0 b).get) (g' := QA.toDense.get) fun i hi j hj => by rw [sl1 i hi j hj],
      ip_congr (f := fun i j => m.get (b + i) (b + j)) (f' := (m.slice b m.rows b m.cols).get) (g' := QC.toDense.get)
        fun i hi j hj => by rw [sl2 i hi j hj], mul_add, mul_add, tA, mul_add, tC]
    rw [ip_congr (n := b) (f := (blk b (b + e') A.toDense _ _ _).get) (f' := A.toDense.get) (g' := QA.toDense.get)
        fun i hi j hj => by rw [blk_tl hi hj],
      ip_congr (n := b) (f := fun i j => (blk b (b + e') A.toDense _ _ _).get j i) (f' := fun i j => A.toDense.get j i) (g' := QA.toDense.get)
        fun i hi j hj => by rw [blk_tl hj hi],
      ip_congr (n := e') (f := fun i j => (blk b (b + e') A.toDense _ _ _).get (b + i) (b + j)) (f' := C.toDense.get) (g' := QC.toDense.get)
        fun i hi j hj => by rw [blk_br hi hj],
      ip_congr (n := e') (f := fun i j => (blk b (b + e') A.toDense _ _ _).get (b + j) (b + i)) (f' := fun i j => C.toDense.get j i) (g' := QC.toDense.get)
        fun i hi j hj => by rw [blk_br hj hi]]
    have r1 : ∀ L : Mat α, (∀ i < e', ∀ j < b, L.get i j = 2 * m.get (b + i) j) → 
        ∑ i ∈ range e', ∑ j ∈ range b, (blk b (b + e') A.toDense (Mat.zeros b e') L C.toDense).get (b + i) j * QB.get i j =
        2 * ∑ i ∈ range e', ∑ j ∈ range b, m.get (b + i) j * QB.get i j := by
      intro R hR
      simp only [mul_sum]
      exact sum2_congr fun i hi j hj => by rw [blk_bl hi hj, hR i hi j hj]; ring
    have r2 : ∀ L : Mat α, ∑ i ∈ range e', ∑ j ∈ range b, (blk b (b + e') A.toDense (Mat.zeros b e') L C.toDense).get j (b + i) * QB.get i j =
        0 := by
      intro R
      rw [sum2_congr (g := fun _ _ => 0) fun i hi j hj => by rw [blk_tr hj hi]; simp]; simp
    rw [r1, r2]
    · ring
    · intro i hi j hj
      rw [get_add (by shp) (by shp), get_slice, if_pos (by omega), get_T, get_slice, if_pos (by omega), hs (0 + j)]
      simp; ring

/-- Pythagoras: an orthogonality relation makes the symmetrised `P` the closest symmetrised element -/
theorem best_of_orth [LinearOrder α] [IsStrictOrderedRing α] {n : ℕ} {M P Q : ℕ → ℕ → α} (hs : ∀ i j, M i j = M j i)
    (hP : 2 * ip n M P = ip n P P + ip n (fun i j => P j i) P)
    (hQ : 2 * ip n M Q = ip n P Q + ip n (fun i j => P j i) Q) :
    ∑ i ∈ range n, ∑ j ∈ range n, (M i j - (P i j + P j i) / 2) ^ 2 ≤
    ∑ i ∈ range n, ∑ j ∈ range n, (M i j - (Q i j + Q j i) / 2) ^ 2 := by
  have two : (2 : α) ≠ 0 := two_ne_zero
  set D : ℕ → ℕ → α := fun i j => M i j - (P i j + P j i) / 2 with hD
  have orth : ∀ R : ℕ → ℕ → α, 2 * ip n M R = ip n P R + ip n (fun i j => P j i) R → ip n D R = 0 := by
    intro R h
    have : 2 * ip n D R = 2 * ip n M R - (ip n P R + ip n (fun i j => P j i) R) := by
      rw [← ip_add_left, ← ip_smul_left, ← ip_smul_left, eq_sub_iff_add_eq, ← ip_add_left]
      refine ip_congr fun i _ j _ => ?_
      simp only [hD]
      have : 2 * ((P i j + P j i) / 2) = P i j + P j i := mul_div_cancel₀ _ two
      linear_combination (-R i j) * this
    rw [h, sub_self] at this
    exact (mul_eq_zero.1 this).resolve_left two
  have flip : ∀ R : ℕ → ℕ → α, ip n D (fun i j => R j i) = ip n D R := by
    intro R
    rw [← ip_flip]
    refine ip_congr fun i _ j _ => ?_
    simp only [hD]; rw [hs j i, add_comm (P j i)]
  have o1 := orth P hP
  have o2 := orth Q hQ
  have key : ∑ i ∈ range n, ∑ j ∈ range n, (M i j - (Q i j + Q j i) / 2) ^ 2 =
      ∑ i ∈ range n, ∑ j ∈ range n, D i j ^ 2 +
      ∑ i ∈ range n, ∑ j ∈ range n, ((P i j + P j i) / 2 - (Q i j + Q j i) / 2) ^ 2 +
      (ip n D P + ip n D (fun i j => P j i)) - (ip n D Q + ip n D (fun i j => Q j i)) := by
    simp only [ip, ← sum_add_distrib, ← sum_sub_distrib]
    refine sum2_congr fun i _ j _ => ?_
    simp only [hD]
    ring
  rw [key, flip P, flip Q, o1, o2]
  have : 0 ≤ ∑ i ∈ range n, ∑ j ∈ range n, ((P i j + P j i) / 2 - (Q i j + Q j i) / 2) ^ 2 :=
    sum_nonneg fun i _ => sum_nonneg fun j _ => sq_nonneg _
  linarith
