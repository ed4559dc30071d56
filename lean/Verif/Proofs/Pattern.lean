import Verif.Proofs.Opt.Inner
import Verif.Proofs.Opt.Update
import Mathlib.LinearAlgebra.Matrix.ToLinearEquiv

/-! Zero patterns of the classes: every class is block-triangular for some order of the indices. -/

set_option linter.unusedSectionVars false
open Finset Mat

/-- boundary between the parts of a recursive matrix -/
def Cls.cut (n : ℕ) : MaxDim → MaxDim → ℕ
  | .int a, .inf => min a n
  | .inf, .int c => n - min c n
  | _, _ => 0

/-- Size of the largest diagonal block of a class whose off-diagonal blocks vanish on one side of the diagonal (for some order of the indices):
1 for diagonal and triangular classes, `n` for dense ones. -/
def Cls.bw : Cls → ℕ → ℕ
  | .dense, n => n
  | .diagonal, _ => 1
  | .block D, n => min D n
  | .hier m1 m2, n => max 1 (max (min m1 n) (min m2 (n - min m1 n)))
  | .tril, _ => 1
  | .triu, _ => 1
  | .topRight a c ca cc, n => max (ca.bw (Cls.cut n a c)) (cc.bw (n - Cls.cut n a c))
  | .bottomLeft a c ca cc, n => max (ca.bw (Cls.cut n a c)) (cc.bw (n - Cls.cut n a c))

theorem Cls.cut_le (n : ℕ) (a c : MaxDim) : Cls.cut n a c ≤ n := by
  cases a <;> cases c <;> simp [Cls.cut]

theorem Cls.bw_le : ∀ (c : Cls) (n : ℕ), c.bw n ≤ max 1 n
  | .dense, n => by simp [Cls.bw]
  | .diagonal, n => by simp [Cls.bw]
  | .block D, n => by simp [Cls.bw]
  | .hier m1 m2, n => by simp only [Cls.bw]; omega
  | .tril, n => by simp [Cls.bw]
  | .triu, n => by simp [Cls.bw]
  | .topRight a c ca cc, n => by
    have := Cls.cut_le n a c
    have := Cls.bw_le ca (Cls.cut n a c)
    have := Cls.bw_le cc (n - Cls.cut n a c)
    simp only [Cls.bw]; omega
  | .bottomLeft a c ca cc, n => by
    have := Cls.cut_le n a c
    have := Cls.bw_le ca (Cls.cut n a c)
    have := Cls.bw_le cc (n - Cls.cut n a c)
    simp only [Cls.bw]; omega

theorem RecBoundary.eq_cut {n b : ℕ} {a c : MaxDim} (h : RecBoundary n a c b) : b = Cls.cut n a c := by
  cases a <;> cases c <;> first | exact h | exact h.elim

theorem card_le_of_inj {s : Finset ℕ} {k : ℕ} (f : ℕ → ℕ) (hf : ∀ x ∈ s, f x < k) (hi : ∀ x ∈ s, ∀ y ∈ s, f x = f y → x = y) : s.card ≤ k := by
  have := card_le_card_of_injOn (s := s) (t := range k) f (fun x hx => by simpa using hf x hx) (fun x hx y hy h => hi x hx y hy h)
  simpa using this

variable {α : Type} [Field α]

/-- the order of the indices -/
structure Cls.Ranked (α : Type) [Field α] (c : Cls) (n : ℕ) (r : ℕ → ℕ) (R : ℕ) : Prop where
  lt : ∀ i < n, r i < R
  zero : ∀ K : SM α, WF c n K → ∀ i < n, ∀ j < n, r j < r i → K.toDense.get i j = 0
  card : ∀ i < n, ((range n).filter fun j => r j = r i).card ≤ c.bw n

theorem ranked_join {ca cc : Cls} {n b : ℕ} (hb : b ≤ n) {r r' : ℕ → ℕ} {R R' : ℕ} (h : ∀ i < b, r i < R) (h' : ∀ i < n - b, r' i < R')
    (k : ∀ i < b, ((range b).filter fun j => r j = r i).card ≤ ca.bw b)
    (k' : ∀ i < n - b, ((range (n - b)).filter fun j => r' j = r' i).card ≤ cc.bw (n - b)) (q : ℕ → ℕ) (s s' : ℕ)
    (hq : ∀ i, q i = if i < b then s + r i else s' + r' (i - b)) (hs : (s + R ≤ s') ∨ (s' + R' ≤ s)) :
    ∀ i < n, ((range n).filter fun j => q j = q i).card ≤ max (ca.bw b) (cc.bw (n - b)) := by
  intro i hi
  by_cases hib : i < b
  · refine le_trans (card_le_card fun j hj => ?_) ((k i hib).trans (le_max_left _ _))
    rw [mem_filter, mem_range] at hj ⊢
    have e := hj.2
    rw [hq, hq, if_pos hib] at e
    have := h i hib
    split_ifs at e with hjb
    · exact ⟨hjb, by omega⟩
    · have := h' (j - b) (by omega)
      omega
  · refine le_trans ?_ ((k' (i - b) (by omega)).trans (le_max_right _ _))
    refine card_le_card_of_injOn (fun j => j - b) (fun j hj => ?_) (fun x hx y hy e => ?_)
    · simp only [coe_filter, mem_range, Set.mem_ofPred_eq] at hj ⊢
      have e := hj.2
      rw [hq, hq, if_neg hib] at e
      have := h' (i - b) (by omega)
      split_ifs at e with hjb
      · have := h j hjb
        omega
      · exact ⟨by omega, by omega⟩
    · have key : ∀ j, j ∈ ((range n).filter fun j => q j = q i) → b ≤ j := fun j hj => by
        rw [mem_filter, mem_range] at hj
        by_contra hjb
        have e := hj.2
        rw [hq, hq, if_neg hib, if_pos (by omega)] at e
        have := h' (i - b) (by omega)
        have := h j (by omega)
        omega
      have := key x hx; have := key y hy
      simp only at e
      omega

theorem Cls.ranked : ∀ (c : Cls) (n : ℕ), c.Supports n → ∃ r R, Cls.Ranked α c n r R
  | .dense, n, _ => ⟨fun _ => 0, 1, fun _ _ => by simp, fun _ _ _ _ _ _ h => absurd h (by simp), fun i _ => by simp [Cls.bw]⟩
  | .diagonal, n, _ => by
    refine ⟨id, n, fun _ h => h, fun K hK i hi j hj h => ?_, fun i hi => ?_⟩
    · cases hK with
      | diagonal hd => rw [SM.toDense, Diagonal.get_toDense, if_neg (by intro e; subst e; exact lt_irrefl _ h)]
    · exact card_le_of_inj (k := 1) (fun _ => 0) (by simp) (fun x hx y hy _ => by simp only [mem_filter, mem_range, id] at hx hy; omega)
  | .block D, n, hD => by
    refine ⟨fun i => i / D, n + 1, fun i h => by have := Nat.div_le_self i D; omega, fun K hK i hi j hj h => ?_, fun i hi => ?_⟩
    · cases hK with
      | @block _ _ b hb =>
        have e := BlockDiag.get_toDense hb (q := i / D) (r := i % D) (q' := j / D) (r' := j % D) (Nat.mod_lt _ hb.pos) (Nat.mod_lt _ hb.pos)
        rw [Nat.div_add_mod', Nat.div_add_mod', if_neg (by omega)] at e
        exact e
    · have hD : 0 < D := hD
      refine le_min ?_ (by simpa using card_filter_le (range n) fun j => j / D = i / D)
      refine card_le_of_inj (fun j => j % D) (fun j _ => Nat.mod_lt _ hD) (fun x hx y hy e => ?_)
      simp only [mem_filter] at hx hy
      rw [← Nat.div_add_mod x D, ← Nat.div_add_mod y D, hx.2, hy.2, e]
  | .hier m1 m2, n, _ => by
    set k1 := min m1 n with hk1
    set k2 := min m2 (n - k1) with hk2
    refine ⟨fun i => if i < k1 then 0 else if i < n - k2 then i + 2 else 1, n + 2, fun i h => by beta_reduce; split_ifs <;> omega,
      fun K hK i hi j hj h => ?_, fun i hi => ?_⟩
    · cases hK with
      | @hier _ _ _ a d b H hd hs =>
        have e1 := hd.k1_eq; have e2 := hd.k2_eq; have e3 := hd.sum
        rw [SM.toDense, Hier.get_toDense hs]
        have ea : a = k1 := by rw [e1, hk1]
        have eb : b = k2 := by rw [e2, hk2, ea]
        clear_value k1 k2
        subst ea eb
        beta_reduce at h
        split_ifs at h ⊢ <;> first | rfl | (exfalso; omega)
    · rw [Cls.bw, ← hk1, ← hk2]
      by_cases c1 : i < k1
      · refine (card_le_of_inj (k := k1) id (fun j hj => ?_) fun x _ y _ e => e).trans ((le_max_left k1 k2).trans (le_max_right 1 _))
        rw [mem_filter, mem_range] at hj
        have := hj.2
        rw [if_pos c1] at this
        by_contra hc
        simp only [id] at hc
        rw [if_neg hc] at this
        split_ifs at this
      · by_cases c2 : i < n - k2
        · refine (card_le_of_inj (k := 1) (fun _ => 0) (by simp) fun x hx y hy _ => ?_).trans (le_max_left 1 _)
          rw [mem_filter, mem_range, if_neg c1, if_pos c2] at hx hy
          have h1 := hx.2; have h2 := hy.2
          split_ifs at h1 h2 <;> omega
        · refine (card_le_of_inj (k := k2) (fun j => j - (n - k2)) (fun j hj => ?_) fun x hx y hy e => ?_).trans ((le_max_right k1 k2).trans (le_max_right 1 _))
          · rw [mem_filter, mem_range, if_neg c1, if_neg c2] at hj
            have h1 := hj.2
            split_ifs at h1 <;> omega
          · rw [mem_filter, mem_range, if_neg c1, if_neg c2] at hx hy
            have h1 := hx.2; have h2 := hy.2
            split_ifs at h1 h2 <;> omega
  | .tril, n, _ => by
    refine ⟨fun i => n - i, n + 1, fun _ h => by omega, fun K hK i hi j hj h => ?_, fun i hi => ?_⟩
    · cases hK with
      | tril hn hd => rw [SM.toDense, Tril.get_toDense, if_neg (by omega)]
    · exact card_le_of_inj (k := 1) (fun _ => 0) (by simp) (fun x hx y hy _ => by simp only [mem_filter, mem_range, id] at hx hy; omega)
  | .triu, n, _ => by
    refine ⟨id, n, fun _ h => h, fun K hK i hi j hj h => ?_, fun i hi => ?_⟩
    · cases hK with
      | triu hn hd => rw [SM.toDense, Triu.toDense_eq, Mat.get_T, Tril.get_toDense, if_neg (by simpa using h)]
    · exact card_le_of_inj (k := 1) (fun _ => 0) (by simp) (fun x hx y hy _ => by simp only [mem_filter, mem_range, id] at hx hy; omega)
  | .topRight a c ca cc, n, h => by
    obtain ⟨b, hb, sA, sC⟩ := h
    obtain ⟨r, R, A⟩ := Cls.ranked ca b sA
    obtain ⟨r', R', C⟩ := Cls.ranked cc (n - b) sC
    have hbn := hb.le
    refine ⟨fun i => if i < b then 0 + r i else R + r' (i - b), R + R', fun i hi => ?_, fun K hK i hi j hj h => ?_, ?_⟩
    · beta_reduce
      split_ifs with h
      · have := A.lt i h; omega
      · have := C.lt (i - b) (by omega); omega
    · cases hK with
      | @topRight _ _ _ _ _ b' X Y B hb' hA hr hc hC =>
        obtain rfl : b' = b := hb'.eq_cut.trans hb.eq_cut.symm
        obtain ⟨e, rfl⟩ := Nat.exists_eq_add_of_le hbn
        rw [Nat.add_sub_cancel_left] at *
        rw [toDense_tr hA hr hc hC]
        beta_reduce at h
        split_ifs at h with h1 h2 h2
        · rw [blk_tl h2 h1]; exact A.zero _ hA i h2 j h1 (by omega)
        · obtain ⟨i, rfl⟩ := Nat.exists_eq_add_of_le (not_lt.1 h2)
          rw [blk_bl (by omega) h1, Mat.get_zeros]
        · have := A.lt i h2; omega
        · obtain ⟨i, rfl⟩ := Nat.exists_eq_add_of_le (not_lt.1 h2)
          obtain ⟨j, rfl⟩ := Nat.exists_eq_add_of_le (not_lt.1 h1)
          rw [Nat.add_sub_cancel_left, Nat.add_sub_cancel_left] at h
          rw [blk_br (by omega) (by omega)]; exact C.zero _ hC i (by omega) j (by omega) (by omega)
    · rw [Cls.bw, ← hb.eq_cut]
      exact ranked_join hbn A.lt C.lt A.card C.card _ 0 R (fun i => rfl) (Or.inl (by omega))
  | .bottomLeft a c ca cc, n, h => by
    obtain ⟨b, hb, sA, sC⟩ := h
    obtain ⟨r, R, A⟩ := Cls.ranked ca b sA
    obtain ⟨r', R', C⟩ := Cls.ranked cc (n - b) sC
    have hbn := hb.le
    refine ⟨fun i => if i < b then R' + r i else 0 + r' (i - b), R + R', fun i hi => ?_, fun K hK i hi j hj h => ?_, ?_⟩
    · beta_reduce
      split_ifs with h
      · have := A.lt i h; omega
      · have := C.lt (i - b) (by omega); omega
    · cases hK with
      | @bottomLeft _ _ _ _ _ b' X Y B hb' hA hr hc hC =>
        obtain rfl : b' = b := hb'.eq_cut.trans hb.eq_cut.symm
        obtain ⟨e, rfl⟩ := Nat.exists_eq_add_of_le hbn
        rw [Nat.add_sub_cancel_left] at *
        rw [toDense_bl hA hr hc hC]
        beta_reduce at h
        split_ifs at h with h1 h2 h2
        · rw [blk_tl h2 h1]; exact A.zero _ hA i h2 j h1 (by omega)
        · have := C.lt (i - b') (by omega); omega
        · obtain ⟨j, rfl⟩ := Nat.exists_eq_add_of_le (not_lt.1 h1)
          rw [blk_tr h2 (by omega), Mat.get_zeros]
        · obtain ⟨i, rfl⟩ := Nat.exists_eq_add_of_le (not_lt.1 h2)
          obtain ⟨j, rfl⟩ := Nat.exists_eq_add_of_le (not_lt.1 h1)
          rw [Nat.add_sub_cancel_left, Nat.add_sub_cancel_left] at h
          rw [blk_br (by omega) (by omega)]; exact C.zero _ hC i (by omega) j (by omega) (by omega)
    · rw [Cls.bw, ← hb.eq_cut]
      exact ranked_join hbn A.lt C.lt A.card C.card _ R' 0 (fun i => rfl) (Or.inr (by omega))

section
variable {c : Cls} {n : ℕ} {r : ℕ → ℕ} {R : ℕ}

/-- the zeros of the class -/
def Zeros (n : ℕ) (r : ℕ → ℕ) (A : Matrix (Fin n) (Fin n) α) : Prop := ∀ i j : Fin n, r j < r i → A i j = 0

theorem Cls.Ranked.den (h : Cls.Ranked α c n r R) {K : SM α} (hK : WF c n K) : Zeros n r (K.den n) := fun i j hij =>
  h.zero K hK i i.2 j j.2 hij

theorem Cls.Ranked.proj (h : Cls.Ranked α c n r R) (hs : c.Supports n) (A : Matrix (Fin n) (Fin n) α) : Zeros n r (c.proj n A) := by
  obtain ⟨K, e, w⟩ := fromDense_wf hs (m := Mat.ofMatrix A) rfl rfl
  rw [Cls.proj, e]; exact h.den w

theorem Zeros.add {A B : Matrix (Fin n) (Fin n) α} (hA : Zeros n r A) (hB : Zeros n r B) : Zeros n r (A + B) := fun i j h => by
  rw [Matrix.add_apply, hA i j h, hB i j h, add_zero]

theorem Zeros.sub {A B : Matrix (Fin n) (Fin n) α} (hA : Zeros n r A) (hB : Zeros n r B) : Zeros n r (A - B) := fun i j h => by
  rw [Matrix.sub_apply, hA i j h, hB i j h, sub_zero]

theorem Zeros.smul {A : Matrix (Fin n) (Fin n) α} (a : α) (hA : Zeros n r A) : Zeros n r (a • A) := fun i j h => by
  rw [Matrix.smul_apply, hA i j h, smul_zero]

theorem Zeros.one : Zeros n r (1 : Matrix (Fin n) (Fin n) α) := fun i j h => by
  rw [Matrix.one_apply_ne (by rintro rfl; exact lt_irrefl _ h)]

theorem Zeros.zero : Zeros n r (0 : Matrix (Fin n) (Fin n) α) := fun _ _ _ => rfl

/-- entries of a product on the diagonal, if every diagonal block has size 1 -/
theorem Zeros.mul_diag {A B : Matrix (Fin n) (Fin n) α} (hA : Zeros n r A) (hB : Zeros n r B) (hi : ∀ i j : Fin n, r i = r j → i = j) (i : Fin n) :
    (A * B) i i = A i i * B i i := by
  rw [Matrix.mul_apply, Finset.sum_eq_single i]
  · intro j _ hj
    rcases lt_trichotomy (r i) (r j) with h | h | h
    · rw [hB j i h, mul_zero]
    · exact absurd (hi _ _ h).symm hj
    · rw [hA i j h, zero_mul]
  · simp

theorem Cls.Ranked.inj (h : Cls.Ranked α c n r R) (hw : c.bw n ≤ 1) (i j : Fin n) (e : r i = r j) : i = j := by
  have := card_le_one.1 ((h.card i i.2).trans hw) i (by simp) j (by simp [e])
  exact Fin.ext this

theorem updDir_zeros (h : Cls.Ranked α c n r R) (hs : c.Supports n) (s a b l : α) (A : Matrix (Fin n) (Fin n) α) {H : Matrix (Fin n) (Fin n) α}
    (hH : Zeros n r H) : Zeros n r (updDir c s a b l A H) :=
  (((hH.smul a).add ((h.proj hs _).smul _)).sub Zeros.one).smul _

theorem denO_zeros (h : Cls.Ranked α c n r R) {x : Option (SM α)} (hx : ∀ X, x = some X → WF c n X) : Zeros n r (denO x n) := by
  cases x with
  | none => exact Zeros.zero
  | some X => exact h.den (hx X rfl)
end

variable [LinearOrder α] [IsStrictOrderedRing α]

/-- `I - D` is invertible if the entries of `D` are smaller than `1/b`, where `b` bounds the sizes of the diagonal blocks of the pattern -/
theorem det_one_sub_ne_zero_of_zeros {n : ℕ} {r : ℕ → ℕ} {D : Matrix (Fin n) (Fin n) α} {ρ : α} {b : ℕ} (hz : Zeros n r D)
    (hD : ∀ i j, |D i j| ≤ ρ) (hb : ∀ i < n, ((range n).filter fun j => r j = r i).card ≤ b) (hρ : ρ * b < 1) : (1 - D).det ≠ 0 := by
  intro h0
  obtain ⟨v, hv, e⟩ := Matrix.exists_mulVec_eq_zero_iff.2 h0
  have eq : ∀ i, v i = ∑ j, D i j * v j := fun i => by
    have := congrFun e i
    rw [Matrix.sub_mulVec, Matrix.one_mulVec, Pi.sub_apply, Pi.zero_apply, sub_eq_zero] at this
    rw [this]; rfl
  obtain ⟨i0, hi0⟩ := Function.ne_iff.1 hv
  obtain ⟨t, ht, tmax⟩ := exists_max_image (univ.filter fun i : Fin n => v i ≠ 0) (fun i => r i) ⟨i0, by simpa using hi0⟩
  rw [mem_filter] at ht
  obtain ⟨i, hi, imax⟩ := exists_max_image (univ.filter fun i : Fin n => r i = r t) (fun i => |v i|) ⟨t, by simp⟩
  rw [mem_filter] at hi
  have pos : 0 < |v i| := lt_of_lt_of_le (abs_pos.2 ht.2) (imax t (by simp))
  have hρ0 : 0 ≤ ρ := (abs_nonneg _).trans (hD i i)
  have supp : ∀ j : Fin n, r j ≠ r i → D i j * v j = 0 := fun j hj => by
    rcases lt_or_gt_of_ne hj with h | h
    · rw [hz i j h, zero_mul]
    · have : v j = 0 := by
        by_contra hne
        have := tmax j (by simpa using hne)
        rw [hi.2] at h
        exact absurd this (not_le.2 h)
      rw [this, mul_zero]
  have cardle : (univ.filter fun j : Fin n => r j = r i).card ≤ b := by
    refine le_trans ?_ (hb i i.2)
    refine card_le_card_of_injOn (fun j => (j : ℕ)) (fun j hj => ?_) (fun x _ y _ h => Fin.ext h)
    simp only [coe_filter, mem_univ, true_and, Set.mem_ofPred_eq] at hj
    simp [hj]
  have e2 : |v i| ≤ ρ * b * |v i| := by
    calc |v i| = |∑ j, D i j * v j| := by rw [← eq i]
      _ = |∑ j ∈ univ.filter (fun j : Fin n => r j = r i), D i j * v j| := by
        rw [sum_filter_of_ne fun j _ h => by_contra fun h' => h (supp j h')]
      _ ≤ ∑ j ∈ univ.filter (fun j : Fin n => r j = r i), |D i j * v j| := abs_sum_le_sum_abs _ _
      _ ≤ ∑ j ∈ univ.filter (fun j : Fin n => r j = r i), ρ * |v i| := by
        refine sum_le_sum fun j hj => ?_
        rw [mem_filter] at hj
        rw [abs_mul]
        exact mul_le_mul (hD i j) (imax j (by simp [hj.2, hi.2])) (abs_nonneg _) hρ0
      _ = (univ.filter fun j : Fin n => r j = r i).card * (ρ * |v i|) := by rw [sum_const, nsmul_eq_mul]
      _ ≤ b * (ρ * |v i|) := mul_le_mul_of_nonneg_right (by exact_mod_cast cardle) (mul_nonneg hρ0 pos.le)
      _ = ρ * b * |v i| := by ring
  have : ρ * b * |v i| < 1 * |v i| := mul_lt_mul_of_pos_right hρ pos
  rw [one_mul] at this
  exact absurd e2 (not_le.2 this)
