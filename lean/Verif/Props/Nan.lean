import Verif.Model.Nan

/-! # How NaN spreads -/

namespace Nn

/-! ## Vocabulary of the statements -/

/-- object of the class, its parts too -/
def Is : Cls → Obj → Prop
  | .dense, .dense _ => True
  | .diagonal, .diagonal _ => True
  | .block D, .block D' _ _ => D' = D
  | .hier a b, .hier a' b' .. => a' = a ∧ b' = b
  | .tril, .tril _ => True
  | .triu, .triu _ => True
  | .topRight x y ca cc, .topRight x' y' ca' cc' A _ C => x' = x ∧ y' = y ∧ ca' = ca ∧ cc' = cc ∧ Is ca A ∧ Is cc C
  | .bottomLeft x y ca cc, .bottomLeft x' y' ca' cc' A _ C => x' = x ∧ y' = y ∧ ca' = ca ∧ cc' = cc ∧ Is ca A ∧ Is cc C
  | _, _ => False

/-- every entry of every tensor of an `n × n` object satisfies `p` -/
def All (p : Prop → Prop) : ℕ → Obj → Prop
  | n, .dense d => ∀ i < n, ∀ j < n, p (d i j)
  | n, .diagonal v => ∀ i < n, p (v i)
  | n, .block D b l => (∀ k < n / D, ∀ i < D, ∀ j < D, p (b k i j)) ∧ ∀ i < n % D, ∀ j < n % D, p (l i j)
  | n, .hier m1 m2 A B C D E =>
    let (k1, q, k2) := Hier.blockDims m1 m2 n
    (∀ i < k1, ∀ j < k1, p (A i j)) ∧ (∀ i < k1, ∀ j < q + k2, p (B i j)) ∧ (∀ i < q, p (C i)) ∧ (∀ i < k2, ∀ j < q, p (D i j)) ∧ ∀ i < k2, ∀ j < k2, p (E i j)
  | n, .tril v => ∀ i < n, p (v i)
  | n, .triu v => ∀ i < n, p (v i)
  | n, .topRight x y _ _ A B C => All p (bnd n x y) A ∧ (∀ i < bnd n x y, ∀ j < n - bnd n x y, p (B i j)) ∧ All p (n - bnd n x y) C
  | n, .bottomLeft x y _ _ A B C => All p (bnd n x y) A ∧ (∀ i < n - bnd n x y, ∀ j < bnd n x y, p (B i j)) ∧ All p (n - bnd n x y) C

/-- everything stored is NaN -/
def Full (n : ℕ) (o : Obj) : Prop := All (fun x => x) n o

/-- nothing stored is NaN -/
def Clean (n : ℕ) (o : Obj) : Prop := All (fun x => ¬ x) n o

/-! ## Blocks of the hierarchical classes -/

theorem dims (a b n : ℕ) : ∃ k1 q k2, Hier.blockDims a b n = (k1, q, k2) ∧ k1 + q + k2 = n := by
  refine ⟨min a n, n - min a n - min b (n - min a n), min b (n - min a n), ?_, by omega⟩
  unfold Hier.blockDims
  split_ifs <;> simp only [Prod.mk.injEq] <;> omega

theorem bnd_le (n : ℕ) (x y : MaxDim) : bnd n x y ≤ n := by
  cases x <;> cases y <;> simp [bnd]

theorem mod_bound {i n D : ℕ} (h : i < n) (c : ¬ i < n / D * D) : i - n / D * D < n % D := by
  have := Nat.div_add_mod n D
  rw [Nat.mul_comm] at this
  omega

theorem lt_div {i n D : ℕ} (c : i < n / D * D) : 0 < D ∧ i / D < n / D ∧ i % D < D ∧ i / D * D + i % D = i := by
  have hD : 0 < D := by rcases Nat.eq_zero_or_pos D with h | h <;> simp_all
  exact ⟨hD, (Nat.div_lt_iff_lt_mul hD).2 c, Nat.mod_lt _ hD, by rw [Nat.mul_comm]; exact Nat.div_add_mod i D⟩

theorem blk_lt {k n D i : ℕ} (hk : k < n / D) (hi : i < D) : k * D + i < n / D * D ∧ n / D * D ≤ n ∧ (k * D + i) / D = k ∧ (k * D + i) % D = i := by
  refine ⟨?_, Nat.div_mul_le_self n D, ?_, ?_⟩
  · nlinarith [Nat.succ_le_of_lt hk]
  · rw [Nat.mul_comm, Nat.mul_add_div (by omega), Nat.div_eq_of_lt hi]; rfl
  · rw [Nat.mul_comm, Nat.mul_add_mod, Nat.mod_eq_of_lt hi]

theorem last_lt {n D i : ℕ} (hi : i < n % D) : n / D * D + i < n ∧ ¬ n / D * D + i < n / D * D ∧ n / D * D + i - n / D * D = i := by
  have := Nat.div_add_mod n D
  rw [Nat.mul_comm] at this
  omega

/-! ## Classes are kept -/

theorem Is.cls : ∀ {c : Cls} {o : Obj}, Is c o → o.cls = c := by
  intro c o h
  cases c <;> cases o <;> simp_all [Is, Obj.cls]

theorem is_fromDense : ∀ (c : Cls) (n : ℕ) (d : M), Is c (fromDense c n d)
  | .dense, _, _ => trivial
  | .diagonal, _, _ => trivial
  | .block _, _, _ => rfl
  | .hier _ _, _, _ => ⟨rfl, rfl⟩
  | .tril, _, _ => trivial
  | .triu, _, _ => trivial
  | .topRight _ _ ca cc, _, _ => ⟨rfl, rfl, rfl, rfl, is_fromDense ca _ _, is_fromDense cc _ _⟩
  | .bottomLeft _ _ ca cc, _, _ => ⟨rfl, rfl, rfl, rfl, is_fromDense ca _ _, is_fromDense cc _ _⟩

theorem is_add : ∀ {c : Cls} {o p : Obj} {α : Prop}, Is c o → Is c p → Is c (add α o p)
  | .dense, .dense _, .dense _, _, _, _ => trivial
  | .diagonal, .diagonal _, .diagonal _, _, _, _ => trivial
  | .block _, .block .., .block .., _, h, _ => h
  | .hier _ _, .hier .., .hier .., _, h, _ => h
  | .tril, .tril _, .tril _, _, _, _ => trivial
  | .triu, .triu _, .triu _, _, _, _ => trivial
  | .topRight .., .topRight .., .topRight .., _, ⟨h1, h2, h3, h4, h5, h6⟩, ⟨_, _, _, _, g5, g6⟩ => ⟨h1, h2, h3, h4, is_add h5 g5, is_add h6 g6⟩
  | .bottomLeft .., .bottomLeft .., .bottomLeft .., _, ⟨h1, h2, h3, h4, h5, h6⟩, ⟨_, _, _, _, g5, g6⟩ => ⟨h1, h2, h3, h4, is_add h5 g5, is_add h6 g6⟩

theorem is_diagAdd {c : Cls} {n : ℕ} {o : Obj} (h : Is c o) : Is c (diagAdd n o) := by
  have e := h.cls
  cases o <;> first | exact h | (simp only [diagAdd]; simp only [Obj.cls] at e; subst e; exact is_fromDense _ _ _)

theorem is_product {c : Cls} {n : ℕ} {o p : Obj} (h : Is c o) (hp : Is c p) : Is c (product n o p) := by
  have e := h.cls
  cases o <;> cases p <;> cases c <;> first | exact h.elim | exact hp.elim | exact h | (simp only [product, Obj.cls] at e ⊢; rw [e]; exact is_fromDense _ _ _)

theorem is_inner {c : Cls} {n : ℕ} {o : Obj} (h : Is c o) : Is c (inner n o) := by
  have e := h.cls
  cases o <;> cases c <;> first | exact h.elim | exact h | (simp only [inner, Obj.cls] at e ⊢; rw [e]; exact is_fromDense _ _ _)

theorem is_innerX {c : Cls} {n m : ℕ} {o : Obj} {X : M} (h : Is c o) : Is c (innerX n o m X) := by
  have e := h.cls
  cases o <;> cases c <;> first | exact h.elim | exact h | (simp only [innerX, Obj.cls] at e ⊢; rw [e]; exact is_fromDense _ _ _)

theorem is_zeros (c : Cls) (n : ℕ) : Is c (zeros c n) := is_fromDense c n _

theorem is_newMomentum {c : Cls} {n : ℕ} {H I : Obj} {α γ : Prop} (h : Is c H) (hI : Is c I) : Is c (newMomentum n c H α I γ) :=
  is_diagAdd (is_add (is_add (is_zeros c n) h) hI)

/-! ## What is stored, what is represented -/

theorem fromDense_congr : ∀ {c : Cls} {n : ℕ} {d e : M} {p : Prop → Prop}, (∀ i < n, ∀ j < n, d i j ↔ e i j) → All p n (fromDense c n d) → All p n (fromDense c n e)
  | .dense, n, d, e, p, h, a => by
    simp only [fromDense, All] at a ⊢
    intro i hi j hj; rw [← propext (h i hi j hj)]; exact a i hi j hj
  | .diagonal, n, d, e, p, h, a => by
    simp only [fromDense, All] at a ⊢
    intro i hi; rw [← propext (h i hi i hi)]; exact a i hi
  | .block D, n, d, e, p, h, a => by
    simp only [fromDense, All] at a ⊢
    refine ⟨fun k hk i hi j hj => ?_, fun i hi j hj => ?_⟩
    · have := blk_lt hk hi; have := blk_lt hk hj
      rw [← propext (h (k * D + i) (by omega) (k * D + j) (by omega))]; exact a.1 k hk i hi j hj
    · have := last_lt hi; have := last_lt hj
      rw [← propext (h _ (by omega) _ (by omega))]; exact a.2 i hi j hj
  | .hier m1 m2, n, d, e, p, h, a => by
    obtain ⟨k1, q, k2, hd, hs⟩ := dims m1 m2 n
    simp only [fromDense, All, hd] at a ⊢
    obtain ⟨a1, a2, a3, a4, a5⟩ := a
    refine ⟨fun i hi j hj => ?_, fun i hi j hj => ?_, fun i hi => ?_, fun i hi j hj => ?_, fun i hi j hj => ?_⟩
    · rw [← propext (h i (by omega) j (by omega))]; exact a1 i hi j hj
    · rw [← propext (h i (by omega) (k1 + j) (by omega))]; exact a2 i hi j hj
    · rw [← propext (h (k1 + i) (by omega) (k1 + i) (by omega))]; exact a3 i hi
    · rw [← propext (h (k1 + q + i) (by omega) (k1 + j) (by omega))]; exact a4 i hi j hj
    · rw [← propext (h (k1 + q + i) (by omega) (k1 + q + j) (by omega))]; exact a5 i hi j hj
  | .tril, n, d, e, p, h, a => by
    simp only [fromDense, All] at a ⊢
    intro t ht
    refine (congrArg p (propext ?_)).mp (a t ht)
    exact exists_congr fun i => and_congr_right fun hi => exists_congr fun j => and_congr_right fun hj => and_congr_right fun _ => h i hi j hj
  | .triu, n, d, e, p, h, a => by
    simp only [fromDense, All] at a ⊢
    intro t ht
    refine (congrArg p (propext ?_)).mp (a t ht)
    exact exists_congr fun i => and_congr_right fun hi => exists_congr fun j => and_congr_right fun hj => and_congr_right fun _ => h i hi j hj
  | .topRight x y ca cc, n, d, e, p, h, a => by
    have hb := bnd_le n x y
    simp only [fromDense, All] at a ⊢
    refine ⟨fromDense_congr (fun i hi j hj => h i (by omega) j (by omega)) a.1, fun i hi j hj => ?_, fromDense_congr (fun i hi j hj => h _ (by omega) _ (by omega)) a.2.2⟩
    rw [← propext (h i (by omega) (bnd n x y + j) (by omega)), ← propext (h (bnd n x y + j) (by omega) i (by omega))]; exact a.2.1 i hi j hj
  | .bottomLeft x y ca cc, n, d, e, p, h, a => by
    have hb := bnd_le n x y
    simp only [fromDense, All] at a ⊢
    refine ⟨fromDense_congr (fun i hi j hj => h i (by omega) j (by omega)) a.1, fun i hi j hj => ?_, fromDense_congr (fun i hi j hj => h _ (by omega) _ (by omega)) a.2.2⟩
    rw [← propext (h (bnd n x y + i) (by omega) j (by omega)), ← propext (h j (by omega) (bnd n x y + i) (by omega))]; exact a.2.1 i hi j hj

/-- a matrix all of whose entries are NaN, or none -/
theorem all_const (p : Prop → Prop) (b : Prop) (hb : p b) : ∀ (c : Cls) (n : ℕ) {d : M}, (∀ i < n, ∀ j < n, d i j ↔ b) → All p n (fromDense c n d)
  | .dense, n, d, h => by
    intro i hi j hj; rw [propext (h i hi j hj)]; exact hb
  | .diagonal, n, d, h => by
    intro i hi; show p (d i i); rw [propext (h i hi i hi)]; exact hb
  | .block D, n, d, h => by
    simp only [fromDense, All]
    refine ⟨fun k hk i hi j hj => ?_, fun i hi j hj => ?_⟩
    · have := blk_lt hk hi; have := blk_lt hk hj
      rw [propext (h (k * D + i) (by omega) (k * D + j) (by omega))]; exact hb
    · have := last_lt hi; have := last_lt hj
      rw [propext (h _ (by omega) _ (by omega))]; exact hb
  | .hier m1 m2, n, d, h => by
    obtain ⟨k1, q, k2, hd, hs⟩ := dims m1 m2 n
    simp only [fromDense, All, hd]
    refine ⟨fun i hi j hj => ?_, fun i hi j hj => ?_, fun i hi => ?_, fun i hi j hj => ?_, fun i hi j hj => ?_⟩ <;>
      (rw [propext (h _ (by omega) _ (by omega))]; exact hb)
  | .tril, n, d, h => by
    intro t ht
    show p (∃ i < n, ∃ j < n, (i = j + t ∨ j = i + t) ∧ d i j)
    refine (congrArg p (propext ?_)).mpr hb
    constructor
    · rintro ⟨i, hi, j, hj, -, hd⟩; exact (h i hi j hj).1 hd
    · intro hb; exact ⟨t, ht, 0, by omega, Or.inl (by omega), (h t ht 0 (by omega)).2 hb⟩
  | .triu, n, d, h => by
    intro t ht
    show p (∃ i < n, ∃ j < n, (i = j + t ∨ j = i + t) ∧ d i j)
    refine (congrArg p (propext ?_)).mpr hb
    constructor
    · rintro ⟨i, hi, j, hj, -, hd⟩; exact (h i hi j hj).1 hd
    · intro hb; exact ⟨t, ht, 0, by omega, Or.inl (by omega), (h t ht 0 (by omega)).2 hb⟩
  | .topRight x y ca cc, n, d, h => by
    have hbn := bnd_le n x y
    simp only [fromDense, All]
    refine ⟨all_const p b hb ca _ (fun i hi j hj => h i (by omega) j (by omega)), fun i hi j hj => ?_, all_const p b hb cc _ (fun i hi j hj => h _ (by omega) _ (by omega))⟩
    rw [propext (h i (by omega) (bnd n x y + j) (by omega)), propext (h (bnd n x y + j) (by omega) i (by omega)), or_self]; exact hb
  | .bottomLeft x y ca cc, n, d, h => by
    have hbn := bnd_le n x y
    simp only [fromDense, All]
    refine ⟨all_const p b hb ca _ (fun i hi j hj => h i (by omega) j (by omega)), fun i hi j hj => ?_, all_const p b hb cc _ (fun i hi j hj => h _ (by omega) _ (by omega))⟩
    rw [propext (h (bnd n x y + i) (by omega) j (by omega)), propext (h j (by omega) (bnd n x y + i) (by omega)), or_self]; exact hb

theorem full_fromDense (c : Cls) {n : ℕ} {d : M} (h : ∀ i < n, ∀ j < n, d i j) : Full n (fromDense c n d) :=
  all_const _ True trivial c n fun i hi j hj => iff_of_true (h i hi j hj) trivial

theorem clean_fromDense (c : Cls) {n : ℕ} {d : M} (h : ∀ i < n, ∀ j < n, ¬ d i j) : Clean n (fromDense c n d) :=
  all_const _ False not_false c n fun i hi j hj => iff_of_false (h i hi j hj) not_false

/-- what is represented on the diagonal is stored -/
theorem full_diag : ∀ {n : ℕ} {o : Obj}, Full n o → ∀ i < n, toDense n o i i
  | n, .dense d, h, i, hi => h i hi i hi
  | n, .diagonal v, h, i, hi => ⟨rfl, h i hi⟩
  | n, .block D b l, h, i, hi => by
    simp only [toDense]
    split_ifs with c
    · have := lt_div c
      exact ⟨trivial, h.1 _ this.2.1 _ this.2.2.1 _ this.2.2.1⟩
    · exact ⟨by omega, h.2 _ (mod_bound hi c) _ (mod_bound hi c)⟩
  | n, .hier m1 m2 A B C D E, h, i, hi => by
    obtain ⟨k1, q, k2, hd, hs⟩ := dims m1 m2 n
    simp only [Full, All, hd] at h
    simp only [toDense, hd]
    obtain ⟨a1, a2, a3, a4, a5⟩ := h
    split_ifs with c1 c2
    · exact a1 i c1 i c1
    · exact ⟨trivial, a3 _ (by omega)⟩
    · exact a5 _ (by omega) _ (by omega)
  | n, .tril v, h, i, hi => ⟨le_refl _, by simpa using h 0 (by omega)⟩
  | n, .triu v, h, i, hi => ⟨le_refl _, by simpa using h 0 (by omega)⟩
  | n, .topRight x y ca cc A B C, h, i, hi => by
    simp only [toDense]
    split_ifs with c
    · exact full_diag h.1 i c
    · exact ⟨by omega, full_diag h.2.2 _ (by omega)⟩
  | n, .bottomLeft x y ca cc A B C, h, i, hi => by
    simp only [toDense]
    split_ifs with c
    · exact ⟨c, full_diag h.1 i c⟩
    · exact full_diag h.2.2 _ (by omega)

theorem clean_toDense : ∀ {n : ℕ} {o : Obj}, Clean n o → ∀ i < n, ∀ j < n, ¬ toDense n o i j
  | n, .dense d, h, i, hi, j, hj => h i hi j hj
  | n, .diagonal v, h, i, hi, j, hj => fun g => h i hi g.2
  | n, .block D b l, h, i, hi, j, hj => by
    simp only [toDense]
    split_ifs with c
    · have := lt_div c
      exact fun g => h.1 _ this.2.1 _ this.2.2.1 _ (Nat.mod_lt _ this.1) g.2
    · exact fun g => h.2 _ (mod_bound hi c) _ (mod_bound hj (by omega)) g.2
  | n, .hier m1 m2 A B C D E, h, i, hi, j, hj => by
    obtain ⟨k1, q, k2, hd, hs⟩ := dims m1 m2 n
    simp only [Clean, All, hd] at h
    simp only [toDense, hd]
    obtain ⟨a1, a2, a3, a4, a5⟩ := h
    split_ifs with c1 c2 c3 c4 c5
    · exact a1 i c1 j c2
    · exact a2 i c1 _ (by omega)
    · exact fun g => a3 _ (by omega) g.2
    · exact not_false
    · exact a4 _ (by omega) _ (by omega)
    · exact a5 _ (by omega) _ (by omega)
  | n, .tril v, h, i, hi, j, hj => fun g => h _ (by omega) g.2
  | n, .triu v, h, i, hi, j, hj => fun g => h _ (by omega) g.2
  | n, .topRight x y ca cc A B C, h, i, hi, j, hj => by
    simp only [toDense]
    split_ifs with c c2
    · exact clean_toDense h.1 i c j c2
    · exact h.2.1 i c _ (by omega)
    · exact fun g => clean_toDense h.2.2 _ (by omega) _ (by omega) g.2
  | n, .bottomLeft x y ca cc A B C, h, i, hi, j, hj => by
    simp only [toDense]
    split_ifs with c c2
    · exact fun g => clean_toDense h.1 i c j g.1 g.2
    · exact h.2.1 _ (by omega) j c2
    · exact clean_toDense h.2.2 _ (by omega) _ (by omega)

/-- NaN on the diagonal of a matrix shows up on the diagonal of its structured version -/
theorem diag_fromDense : ∀ (c : Cls) {n : ℕ} {d : M} {i : ℕ}, i < n → d i i → toDense n (fromDense c n d) i i
  | .dense, n, d, i, hi, h => h
  | .diagonal, n, d, i, hi, h => ⟨rfl, h⟩
  | .block D, n, d, i, hi, h => by
    simp only [fromDense, toDense]
    split_ifs with c
    · have := lt_div c
      rw [this.2.2.2]; exact ⟨trivial, h⟩
    · have e : n / D * D + (i - n / D * D) = i := by omega
      rw [e]; exact ⟨by omega, h⟩
  | .hier m1 m2, n, d, i, hi, h => by
    obtain ⟨k1, q, k2, hd, hs⟩ := dims m1 m2 n
    simp only [fromDense, toDense, hd]
    split_ifs with c1 c2
    · exact h
    · have e : k1 + (i - k1) = i := by omega
      rw [e]; exact ⟨trivial, h⟩
    · have e : k1 + q + (i - (k1 + q)) = i := by omega
      rw [e]; exact h
  | .tril, n, d, i, hi, h => ⟨le_refl _, i, hi, i, hi, Or.inl (by omega), h⟩
  | .triu, n, d, i, hi, h => ⟨le_refl _, i, hi, i, hi, Or.inl (by omega), h⟩
  | .topRight x y ca cc, n, d, i, hi, h => by
    simp only [fromDense, toDense]
    split_ifs with c
    · exact diag_fromDense ca c h
    · refine ⟨by omega, diag_fromDense cc (by omega) ?_⟩
      have e : bnd n x y + (i - bnd n x y) = i := by omega
      rw [e]; exact h
  | .bottomLeft x y ca cc, n, d, i, hi, h => by
    simp only [fromDense, toDense]
    split_ifs with c
    · exact ⟨c, diag_fromDense ca c h⟩
    · refine diag_fromDense cc (by omega) ?_
      have e : bnd n x y + (i - bnd n x y) = i := by omega
      rw [e]; exact h

/-- a structured matrix goes through its dense form without losing or gaining NaN, where everything (nothing) stored is NaN -/
theorem full_round : ∀ {c : Cls} {n : ℕ} {o : Obj}, Is c o → Full n o → Full n (fromDense c n (toDense n o))
  | .dense, n, .dense d, _, h => h
  | .diagonal, n, .diagonal v, _, h => fun i hi => ⟨rfl, h i hi⟩
  | .block D, n, .block D' b l, e, h => by
    cases e
    simp only [Full, fromDense, toDense, All]
    refine ⟨fun k hk i hi j hj => ?_, fun i hi j hj => ?_⟩
    · have a := blk_lt hk hi; have b := blk_lt hk hj
      rw [if_pos a.1, a.2.2.1, a.2.2.2, b.2.2.1, b.2.2.2]; exact ⟨rfl, h.1 k hk i hi j hj⟩
    · have a := last_lt hi; have b := last_lt hj
      rw [if_neg a.2.1, a.2.2, b.2.2]; exact ⟨by omega, h.2 i hi j hj⟩
  | .hier m1 m2, n, .hier a b A B C D E, e, h => by
    obtain ⟨rfl, rfl⟩ := e
    obtain ⟨k1, q, k2, hd, hs⟩ := dims a b n
    simp only [Full, All, hd] at h
    simp only [Full, fromDense, toDense, All, hd]
    obtain ⟨a1, a2, a3, a4, a5⟩ := h
    refine ⟨fun i hi j hj => ?_, fun i hi j hj => ?_, fun i hi => ?_, fun i hi j hj => ?_, fun i hi j hj => ?_⟩
    · rw [if_pos hi, if_pos hj]; exact a1 i hi j hj
    · rw [if_pos hi, if_neg (by omega)]; exact a2 i hi _ (by omega)
    · rw [if_neg (by omega), if_pos (by omega)]; exact ⟨trivial, a3 _ (by omega)⟩
    · rw [if_neg (by omega), if_neg (by omega), if_neg (by omega), if_pos (by omega)]; exact a4 _ (by omega) _ (by omega)
    · rw [if_neg (by omega), if_neg (by omega), if_neg (by omega), if_neg (by omega)]; exact a5 _ (by omega) _ (by omega)
  | .tril, n, .tril v, _, h => fun t ht => ⟨t, ht, 0, by omega, Or.inl (by omega), by simp, by simpa using h t ht⟩
  | .triu, n, .triu v, _, h => fun t ht => ⟨0, by omega, t, ht, Or.inr (by omega), by simp, by simpa using h t ht⟩
  | .topRight x y ca cc, n, .topRight x' y' ca' cc' A B C, ⟨h1, h2, h3, h4, hA, hC⟩, h => by
    subst h1 h2 h3 h4
    have hb := bnd_le n x' y'
    simp only [Full, fromDense, toDense, All]
    refine ⟨fromDense_congr (fun i hi j hj => ?_) (full_round hA h.1), fun i hi j hj => ?_, fromDense_congr (fun i hi j hj => ?_) (full_round hC h.2.2)⟩
    · rw [if_pos hi, if_pos hj]
    · rw [if_pos hi, if_neg (by omega)]; exact Or.inl (h.2.1 i hi _ (by omega))
    · rw [if_neg (by omega)]; simp
  | .bottomLeft x y ca cc, n, .bottomLeft x' y' ca' cc' A B C, ⟨h1, h2, h3, h4, hA, hC⟩, h => by
    subst h1 h2 h3 h4
    have hb := bnd_le n x' y'
    simp only [Full, fromDense, toDense, All]
    refine ⟨fromDense_congr (fun i hi j hj => ?_) (full_round hA h.1), fun i hi j hj => ?_, fromDense_congr (fun i hi j hj => ?_) (full_round hC h.2.2)⟩
    · rw [if_pos hi]; simp [hj]
    · rw [if_neg (by omega), if_pos hj]; exact Or.inl (h.2.1 _ (by omega) j hj)
    · rw [if_neg (by omega), if_neg (by omega)]; simp

theorem full_diagAdd {c : Cls} {n : ℕ} {o : Obj} (e : Is c o) (h : Full n o) : Full n (diagAdd n o) := by
  have ec := e.cls
  cases o <;> first | exact h | (simp only [diagAdd]; simp only [Obj.cls] at ec; subst ec; exact full_round e h)

theorem clean_diagAdd {n : ℕ} {o : Obj} (h : Clean n o) : Clean n (diagAdd n o) := by
  cases o <;> first | exact h | exact clean_fromDense _ (clean_toDense h)

/-! ## Addition -/

/-- addition, entry by entry -/
theorem all_add {p q r : Prop → Prop} {α : Prop} (hpq : ∀ x y, p x → q y → r (x ∨ y ∨ α)) : ∀ {c : Cls} {n : ℕ} {o o' : Obj}, Is c o → Is c o' → All p n o → All q n o' → All r n (add α o o')
  | .dense, n, .dense _, .dense _, _, _, h, g => fun i hi j hj => hpq _ _ (h i hi j hj) (g i hi j hj)
  | .diagonal, n, .diagonal _, .diagonal _, _, _, h, g => fun i hi => hpq _ _ (h i hi) (g i hi)
  | .block D, n, .block .., .block .., e, e', h, g => by
    cases e; cases e'
    exact ⟨fun k hk i hi j hj => hpq _ _ (h.1 k hk i hi j hj) (g.1 k hk i hi j hj), fun i hi j hj => hpq _ _ (h.2 i hi j hj) (g.2 i hi j hj)⟩
  | .hier m1 m2, n, .hier .., .hier .., ⟨e1, e2⟩, ⟨e3, e4⟩, h, g => by
    subst e1 e2 e3 e4
    obtain ⟨k1, q, k2, hd, hs⟩ := dims ‹_› ‹_› n
    simp only [All, hd, add] at h g ⊢
    exact ⟨fun i hi j hj => hpq _ _ (h.1 i hi j hj) (g.1 i hi j hj), fun i hi j hj => hpq _ _ (h.2.1 i hi j hj) (g.2.1 i hi j hj), fun i hi => hpq _ _ (h.2.2.1 i hi) (g.2.2.1 i hi),
      fun i hi j hj => hpq _ _ (h.2.2.2.1 i hi j hj) (g.2.2.2.1 i hi j hj), fun i hi j hj => hpq _ _ (h.2.2.2.2 i hi j hj) (g.2.2.2.2 i hi j hj)⟩
  | .tril, n, .tril _, .tril _, _, _, h, g => fun i hi => hpq _ _ (h i hi) (g i hi)
  | .triu, n, .triu _, .triu _, _, _, h, g => fun i hi => hpq _ _ (h i hi) (g i hi)
  | .topRight .., n, .topRight .., .topRight .., ⟨h1, h2, h3, h4, hA, hC⟩, ⟨g1, g2, g3, g4, gA, gC⟩, h, g => by
    subst h1 h2 h3 h4 g1 g2
    exact ⟨all_add hpq hA gA h.1 g.1, fun i hi j hj => hpq _ _ (h.2.1 i hi j hj) (g.2.1 i hi j hj), all_add hpq hC gC h.2.2 g.2.2⟩
  | .bottomLeft .., n, .bottomLeft .., .bottomLeft .., ⟨h1, h2, h3, h4, hA, hC⟩, ⟨g1, g2, g3, g4, gA, gC⟩, h, g => by
    subst h1 h2 h3 h4 g1 g2
    exact ⟨all_add hpq hA gA h.1 g.1, fun i hi j hj => hpq _ _ (h.2.1 i hi j hj) (g.2.1 i hi j hj), all_add hpq hC gC h.2.2 g.2.2⟩

theorem all_true {p : Prop → Prop} (hp : ∀ x, p x) : ∀ (n : ℕ) (o : Obj), All p n o
  | n, .dense _ => fun _ _ _ _ => hp _
  | n, .diagonal _ => fun _ _ => hp _
  | n, .block .. => ⟨fun _ _ _ _ _ _ => hp _, fun _ _ _ _ => hp _⟩
  | n, .hier .. => ⟨fun _ _ _ _ => hp _, fun _ _ _ _ => hp _, fun _ _ => hp _, fun _ _ _ _ => hp _, fun _ _ _ _ => hp _⟩
  | n, .tril _ => fun _ _ => hp _
  | n, .triu _ => fun _ _ => hp _
  | n, .topRight .. => ⟨all_true hp _ _, fun _ _ _ _ => hp _, all_true hp _ _⟩
  | n, .bottomLeft .. => ⟨all_true hp _ _, fun _ _ _ _ => hp _, all_true hp _ _⟩

theorem full_add_left {c : Cls} {n : ℕ} {o o' : Obj} {α : Prop} (e : Is c o) (e' : Is c o') (h : Full n o) : Full n (add α o o') :=
  all_add (p := fun x => x) (q := fun _ => True) (r := fun x => x) (fun _ _ hx _ => Or.inl hx) e e' h (all_true (fun _ => trivial) _ _)

theorem full_add_right {c : Cls} {n : ℕ} {o o' : Obj} {α : Prop} (e : Is c o) (e' : Is c o') (h : Full n o') : Full n (add α o o') :=
  all_add (p := fun _ => True) (q := fun x => x) (r := fun x => x) (fun _ _ _ hy => Or.inr (Or.inl hy)) e e' (all_true (fun _ => trivial) _ _) h

theorem full_add_coeff {c : Cls} {n : ℕ} {o o' : Obj} {α : Prop} (e : Is c o) (e' : Is c o') (h : α) : Full n (add α o o') :=
  all_add (p := fun _ => True) (q := fun _ => True) (r := fun x => x) (fun _ _ _ _ => Or.inr (Or.inr h)) e e' (all_true (fun _ => trivial) _ _) (all_true (fun _ => trivial) _ _)

theorem clean_add {c : Cls} {n : ℕ} {o o' : Obj} {α : Prop} (e : Is c o) (e' : Is c o') (h : Clean n o) (h' : Clean n o') (hα : ¬ α) : Clean n (add α o o') :=
  all_add (p := fun x => ¬ x) (q := fun x => ¬ x) (r := fun x => ¬ x) (fun _ _ hx hy hz => hz.elim hx (fun h => h.elim hy hα)) e e' h h'

/-! ## Products -/

/-- NaN in the argument stays where it is -/
theorem matmulT_keep {n : ℕ} {o : Obj} {X : M} {i j : ℕ} (hi : i < n) (h : X i j) : matmulT n o X i j := by
  cases o with
  | diagonal v => exact Or.inr h
  | block D b l =>
    simp only [matmulT]
    split_ifs with c
    · have := lt_div c
      exact ⟨i % D, this.2.2.1, Or.inr (by rw [this.2.2.2]; exact h)⟩
    · refine ⟨i - n / D * D, mod_bound hi c, Or.inr ?_⟩
      have e : n / D * D + (i - n / D * D) = i := by omega
      rw [e]; exact h
  | hier m1 m2 A B C D E =>
    obtain ⟨k1, q, k2, hd, hs⟩ := dims m1 m2 n
    simp only [matmulT, hd]
    split_ifs with c1 c2
    · exact Or.inl ⟨i, c1, Or.inr h⟩
    · exact Or.inr h
    · refine Or.inr ⟨i - (k1 + q), by omega, Or.inr ?_⟩
      have e : k1 + q + (i - (k1 + q)) = i := by omega
      show X (k1 + q + (i - (k1 + q))) j
      rw [e]; exact h
  | _ => exact ⟨i, hi, Or.inr h⟩

theorem rmatmat_keep {n : ℕ} {o : Obj} {X : M} {i j : ℕ} (hi : i < n) (h : X i j) : rmatmat n o X i j := by
  cases o with
  | diagonal v => exact Or.inr h
  | block D b l => exact matmulT_keep (o := .block D b l) hi h
  | hier m1 m2 A B C D E =>
    obtain ⟨k1, q, k2, hd, hs⟩ := dims m1 m2 n
    simp only [rmatmat, hd]
    split_ifs with c1 c2
    · exact ⟨i, c1, Or.inr h⟩
    · exact Or.inr (Or.inl (Or.inr h))
    · refine Or.inr ⟨i - (k1 + q), by omega, Or.inr ?_⟩
      have e : k1 + q + (i - (k1 + q)) = i := by omega
      show X (k1 + q + (i - (k1 + q))) j
      rw [e]; exact h
  | _ => exact ⟨i, hi, Or.inr h⟩

theorem full_matmulT {n : ℕ} {o : Obj} (h : Full n o) (X : M) {i j : ℕ} (hi : i < n) : matmulT n o X i j := by
  cases o with
  | diagonal v => exact Or.inl (h i hi)
  | block D b l =>
    simp only [matmulT]
    split_ifs with c
    · have := lt_div c
      exact ⟨i % D, this.2.2.1, Or.inl (h.1 _ this.2.1 _ this.2.2.1 _ this.2.2.1)⟩
    · exact ⟨i - n / D * D, mod_bound hi c, Or.inl (h.2 _ (mod_bound hi c) _ (mod_bound hi c))⟩
  | hier m1 m2 A B C D E =>
    obtain ⟨k1, q, k2, hd, hs⟩ := dims m1 m2 n
    simp only [Full, All, hd] at h
    simp only [matmulT, hd]
    obtain ⟨a1, a2, a3, a4, a5⟩ := h
    split_ifs with c1 c2
    · exact Or.inl ⟨i, c1, Or.inl (a1 i c1 i c1)⟩
    · exact Or.inl (a3 _ (by omega))
    · exact Or.inr ⟨i - (k1 + q), by omega, Or.inl (a5 _ (by omega) _ (by omega))⟩
  | _ => exact ⟨i, hi, Or.inl (full_diag h i hi)⟩

theorem full_rmatmat {n : ℕ} {o : Obj} (h : Full n o) (X : M) {i j : ℕ} (hi : i < n) : rmatmat n o X i j := by
  cases o with
  | diagonal v => exact Or.inl (h i hi)
  | block D b l => exact full_matmulT h X hi
  | hier m1 m2 A B C D E =>
    obtain ⟨k1, q, k2, hd, hs⟩ := dims m1 m2 n
    simp only [Full, All, hd] at h
    simp only [rmatmat, hd]
    obtain ⟨a1, a2, a3, a4, a5⟩ := h
    split_ifs with c1 c2
    · exact ⟨i, c1, Or.inl (a1 i c1 i c1)⟩
    · exact Or.inr (Or.inl (Or.inl (a3 _ (by omega))))
    · exact Or.inr ⟨i - (k1 + q), by omega, Or.inl (a5 _ (by omega) _ (by omega))⟩
  | _ => exact ⟨i, hi, Or.inl (full_diag h i hi)⟩

theorem clean_matmulT {n : ℕ} {o : Obj} (h : Clean n o) {X : M} {i j : ℕ} (hi : i < n) (g : matmulT n o X i j) : ∃ t < n, X t j := by
  cases o with
  | diagonal v => exact ⟨i, hi, g.resolve_left (h i hi)⟩
  | block D b l =>
    simp only [matmulT] at g
    split_ifs at g with c
    · obtain ⟨t, ht, g⟩ := g
      have a := lt_div c
      have := blk_lt a.2.1 ht
      exact ⟨i / D * D + t, by omega, g.resolve_left (h.1 _ a.2.1 _ a.2.2.1 _ ht)⟩
    · obtain ⟨t, ht, g⟩ := g
      exact ⟨_, (last_lt ht).1, g.resolve_left (h.2 _ (mod_bound hi c) _ ht)⟩
  | hier m1 m2 A B C D E =>
    obtain ⟨k1, q, k2, hd, hs⟩ := dims m1 m2 n
    simp only [Clean, All, hd] at h
    simp only [matmulT, hd] at g
    obtain ⟨a1, a2, a3, a4, a5⟩ := h
    split_ifs at g with c1 c2
    · rcases g with ⟨t, ht, g⟩ | ⟨t, ht, g⟩ | ⟨t, ht, g⟩
      · exact ⟨t, by omega, g.resolve_left (a1 i c1 t ht)⟩
      · exact ⟨k1 + t, by omega, g.resolve_left (a2 i c1 t (by omega))⟩
      · exact ⟨k1 + q + t, by omega, g.resolve_left (a2 i c1 _ (by omega))⟩
    · exact ⟨i, hi, g.resolve_left (a3 _ (by omega))⟩
    · rcases g with ⟨t, ht, g⟩ | ⟨t, ht, g⟩
      · exact ⟨k1 + t, by omega, g.resolve_left (a4 _ (by omega) t ht)⟩
      · exact ⟨k1 + q + t, by omega, g.resolve_left (a5 _ (by omega) t ht)⟩
  | _ =>
    obtain ⟨t, ht, g⟩ := g
    exact ⟨t, ht, g.resolve_left (clean_toDense h i hi t ht)⟩

theorem clean_rmatmat {n : ℕ} {o : Obj} (h : Clean n o) {X : M} {i j : ℕ} (hi : i < n) (g : rmatmat n o X i j) : ∃ t < n, X t j := by
  cases o with
  | diagonal v => exact ⟨i, hi, g.resolve_left (h i hi)⟩
  | block D b l => exact clean_matmulT h hi g
  | hier m1 m2 A B C D E =>
    obtain ⟨k1, q, k2, hd, hs⟩ := dims m1 m2 n
    simp only [Clean, All, hd] at h
    simp only [rmatmat, hd] at g
    obtain ⟨a1, a2, a3, a4, a5⟩ := h
    split_ifs at g with c1 c2
    · obtain ⟨t, ht, g⟩ := g
      exact ⟨t, by omega, g.resolve_left (a1 t ht i c1)⟩
    · rcases g with ⟨t, ht, g⟩ | g | ⟨t, ht, g⟩
      · exact ⟨t, by omega, g.resolve_left (a2 t ht _ (by omega))⟩
      · exact ⟨i, hi, g.resolve_left (a3 _ (by omega))⟩
      · exact ⟨k1 + q + t, by omega, g.resolve_left (a4 t ht _ (by omega))⟩
    · rcases g with ⟨t, ht, g⟩ | ⟨t, ht, g⟩
      · exact ⟨t, by omega, g.resolve_left (a2 t ht _ (by omega))⟩
      · exact ⟨k1 + q + t, by omega, g.resolve_left (a5 t ht _ (by omega))⟩
  | _ =>
    obtain ⟨t, ht, g⟩ := g
    exact ⟨t, ht, g.resolve_left (clean_toDense h t ht i hi)⟩

theorem full_product {c : Cls} {n : ℕ} {o p : Obj} (e : Is c o) (e' : Is c p) (h : Full n p) : Full n (product n o p) := by
  have base : ∀ c, Full n (fromDense c n (mm n (toDense n o) (toDense n p))) := fun c => full_fromDense c fun i _ j hj => ⟨j, hj, Or.inr (full_diag h j hj)⟩
  cases o <;> cases p <;> first | (cases c <;> first | exact e.elim | exact e'.elim) | exact base _ | skip
  case diagonal v w => exact fun i hi => Or.inr (h i hi)
  case block D b l D' b' l' =>
    cases c <;> first | exact e.elim | skip
    cases e; cases e'
    exact ⟨fun k hk i hi j hj => ⟨j, hj, Or.inr (h.1 k hk j hj j hj)⟩, fun i hi j hj => ⟨j, hj, Or.inr (h.2 j hj j hj)⟩⟩
  case hier m1 m2 A B C D E m1' m2' A' B' C' D' E' =>
    cases c <;> first | exact e.elim | skip
    obtain ⟨rfl, rfl⟩ := e
    obtain ⟨rfl, rfl⟩ := e'
    obtain ⟨k1, q, k2, hd, hs⟩ := dims m1' m2' n
    simp only [Full, All, hd] at h
    simp only [Full, product, All, hd]
    obtain ⟨a1, a2, a3, a4, a5⟩ := h
    refine ⟨fun i hi j hj => ⟨j, hj, Or.inr (a1 j hj j hj)⟩, fun i hi j hj => ?_, fun i hi => Or.inr (a3 i hi), fun i hi j hj => Or.inl (Or.inr (a3 j hj)), fun i hi j hj => ⟨j, hj, Or.inr (a5 j hj j hj)⟩⟩
    split_ifs with c
    · exact Or.inl ⟨i, hi, Or.inr (a2 i hi j hj)⟩
    · exact Or.inl ⟨i, hi, Or.inr (a2 i hi j hj)⟩
  case tril v w => exact fun t ht => Or.inr ⟨t, le_refl _, h t ht⟩
  case triu v w => exact fun t ht => Or.inr ⟨t, le_refl _, h t ht⟩

theorem clean_product {c : Cls} {n : ℕ} {o p : Obj} (e : Is c o) (e' : Is c p) (g : Clean n o) (h : Clean n p) : Clean n (product n o p) := by
  have base : ∀ c, Clean n (fromDense c n (mm n (toDense n o) (toDense n p))) := fun c => clean_fromDense c fun i hi j hj ⟨t, ht, a⟩ =>
    a.elim (clean_toDense g i hi t ht) (clean_toDense h t ht j hj)
  cases o <;> cases p <;> first | (cases c <;> first | exact e.elim | exact e'.elim) | exact base _ | skip
  case diagonal v w => exact fun i hi a => a.elim (g i hi) (h i hi)
  case block D b l D' b' l' =>
    cases c <;> first | exact e.elim | skip
    cases e; cases e'
    exact ⟨fun k hk i hi j hj ⟨t, ht, a⟩ => a.elim (g.1 k hk i hi t ht) (h.1 k hk t ht j hj), fun i hi j hj ⟨t, ht, a⟩ => a.elim (g.2 i hi t ht) (h.2 t ht j hj)⟩
  case hier m1 m2 A B C D E m1' m2' A' B' C' D' E' =>
    cases c <;> first | exact e.elim | skip
    obtain ⟨rfl, rfl⟩ := e
    obtain ⟨rfl, rfl⟩ := e'
    obtain ⟨k1, q, k2, hd, hs⟩ := dims m1' m2' n
    simp only [Clean, All, hd] at g h
    simp only [Clean, product, All, hd]
    obtain ⟨a1, a2, a3, a4, a5⟩ := h
    obtain ⟨b1, b2, b3, b4, b5⟩ := g
    refine ⟨fun i hi j hj ⟨t, ht, a⟩ => a.elim (b1 i hi t ht) (a1 t ht j hj), fun i hi j hj => ?_, fun i hi a => a.elim (b3 i hi) (a3 i hi), fun i hi j hj => ?_,
      fun i hi j hj ⟨t, ht, a⟩ => a.elim (b5 i hi t ht) (a5 t ht j hj)⟩
    · split_ifs with c
      · rintro (⟨t, ht, a⟩ | a | ⟨t, ht, a⟩)
        · exact a.elim (b1 i hi t ht) (a2 t ht j hj)
        · exact a.elim (b2 i hi j hj) (a3 j c)
        · exact a.elim (b2 i hi _ (by omega)) (a4 t ht j c)
      · rintro (⟨t, ht, a⟩ | ⟨t, ht, a⟩)
        · exact a.elim (b1 i hi t ht) (a2 t ht j hj)
        · exact a.elim (b2 i hi _ (by omega)) (a5 t ht _ (by omega))
    · rintro (a | ⟨t, ht, a⟩)
      · exact a.elim (b4 i hi j hj) (a3 j hj)
      · exact a.elim (b5 i hi t ht) (a4 t ht j hj)
  case tril v w =>
    rintro t ht (⟨k, hk, a⟩ | ⟨k, hk, a⟩)
    · exact g k hk a
    · exact h k (by omega) a
  case triu v w =>
    rintro t ht (⟨k, hk, a⟩ | ⟨k, hk, a⟩)
    · exact g k hk a
    · exact h k (by omega) a

/-! ## Statistics -/

theorem clean_inner {n : ℕ} {o : Obj} (h : Clean n o) : Clean n (inner n o) := by
  have base : ∀ c, Clean n (fromDense c n (mm n (tr (toDense n o)) (toDense n o))) := fun c => clean_fromDense c fun i hi j hj ⟨t, ht, a⟩ =>
    a.elim (clean_toDense h t ht i hi) (clean_toDense h t ht j hj)
  cases o <;> first | exact base _ | skip
  case diagonal v => exact h
  case block D b l =>
    exact ⟨fun k hk i hi j hj ⟨t, ht, a⟩ => a.elim (h.1 k hk i hi t ht) (h.1 k hk j hj t ht), fun i hi j hj ⟨t, ht, a⟩ => a.elim (h.2 i hi t ht) (h.2 j hj t ht)⟩
  case hier m1 m2 A B C D E =>
    obtain ⟨k1, q, k2, hd, hs⟩ := dims m1 m2 n
    simp only [Clean, All, hd] at h
    simp only [Clean, inner, All, hd]
    obtain ⟨a1, a2, a3, a4, a5⟩ := h
    refine ⟨fun i hi j hj ⟨t, ht, a⟩ => a.elim (a1 t ht i hi) (a1 t ht j hj), fun i hi j hj ⟨t, ht, a⟩ => a.elim (a1 t ht i hi) (a2 t ht j hj), fun i hi => ?_, fun i hi j hj => ?_, fun i hi j hj => ?_⟩
    · rintro (a | ⟨t, ht, a⟩ | ⟨t, ht, a⟩)
      · exact a3 i hi a
      · exact a2 t ht i (by omega) a
      · exact a4 t ht i hi a
    · rintro (⟨t, ht, a⟩ | ⟨t, ht, a⟩)
      · exact a.elim (a2 t ht _ (by omega)) (a2 t ht j (by omega))
      · exact a.elim (a5 t ht i hi) (a4 t ht j hj)
    · rintro (⟨t, ht, a⟩ | ⟨t, ht, a⟩)
      · exact a.elim (a5 t ht i hi) (a5 t ht j hj)
      · exact a.elim (a2 t ht _ (by omega)) (a2 t ht _ (by omega))

/-- the average trace of a clean matrix is a number -/
theorem clean_trace {n : ℕ} {o : Obj} (hn : 0 < n) (h : Clean n o) : ¬ averageTrace n o := by
  have base : ¬ ∃ i < n, toDense n o i i := fun ⟨i, hi, a⟩ => clean_toDense h i hi i hi a
  cases o <;> first | exact base | skip
  case diagonal v => exact fun ⟨i, hi, a⟩ => h i hi a
  case block D b l =>
    rintro (⟨k, hk, i, hi, a⟩ | ⟨i, hi, a⟩)
    · exact h.1 k hk i hi i hi a
    · exact h.2 i hi i hi a
  case hier m1 m2 A B C D E =>
    obtain ⟨k1, q, k2, hd, hs⟩ := dims m1 m2 n
    simp only [Clean, All, hd] at h
    simp only [averageTrace, hd]
    obtain ⟨a1, a2, a3, a4, a5⟩ := h
    rintro (⟨i, hi, a⟩ | ⟨i, hi, a⟩ | ⟨i, hi, a⟩)
    · exact a1 i hi i hi a
    · exact a3 i hi a
    · exact a5 i hi i hi a
  case tril v => exact h 0 hn
  case triu v => exact h 0 hn

/-- one NaN in the data makes the average trace of the statistics NaN -/
theorem trace_innerX {n m : ℕ} {o : Obj} {X : M} {i j : ℕ} (hi : i < n) (hj : j < m) (h : X i j) : averageTrace n (innerX n o m X) := by
  have k : rmatmat n o X i j := rmatmat_keep hi h
  have g : mm m (rmatmat n o X) (tr (rmatmat n o X)) i i := ⟨j, hj, Or.inl k⟩
  have base : ∀ c, ∃ i < n, toDense n (fromDense c n (mm m (rmatmat n o X) (tr (rmatmat n o X)))) i i := fun c => ⟨i, hi, diag_fromDense c hi g⟩
  cases o <;> first | exact base _ | skip
  case diagonal v => exact ⟨i, hi, Or.inr ⟨j, hj, h⟩⟩
  case block D b l =>
    simp only [innerX, Obj.cls, fromDense, averageTrace]
    by_cases c : i < n / D * D
    · have a := lt_div c
      refine Or.inl ⟨i / D, a.2.1, i % D, a.2.2.1, ?_⟩
      rw [a.2.2.2]; exact g
    · refine Or.inr ⟨i - n / D * D, mod_bound hi c, ?_⟩
      have e : n / D * D + (i - n / D * D) = i := by omega
      rw [e]; exact g
  case hier m1 m2 A B C D E =>
    obtain ⟨k1, q, k2, hd, hs⟩ := dims m1 m2 n
    simp only [innerX, averageTrace, hd]
    by_cases c1 : i < k1
    · exact Or.inl ⟨i, c1, g⟩
    by_cases c2 : i < k1 + q
    · refine Or.inr (Or.inl ⟨i - k1, by omega, j, hj, ?_⟩)
      have e : k1 + (i - k1) = i := by omega
      rw [e]; exact k
    · refine Or.inr (Or.inr ⟨i - (k1 + q), by omega, j, hj, Or.inl ?_⟩)
      have e : k1 + q + (i - (k1 + q)) = i := by omega
      show rmatmat n _ X (k1 + q + (i - (k1 + q))) j
      rw [e]; exact k
  case tril v => exact ⟨i, hi, i, hi, Or.inl (by omega), g⟩
  case triu v => exact ⟨i, hi, i, hi, Or.inl (by omega), g⟩

theorem toDense_add : ∀ {c : Cls} {n : ℕ} {o p : Obj} {α : Prop} {i j : ℕ}, Is c o → Is c p → toDense n o i j ∨ toDense n p i j → toDense n (add α o p) i j
  | .dense, n, .dense _, .dense _, _, i, j, _, _, h => by
    simp only [toDense, add] at h ⊢; tauto
  | .diagonal, n, .diagonal _, .diagonal _, _, i, j, _, _, h => by
    simp only [toDense, add] at h ⊢; tauto
  | .block D, n, .block .., .block .., _, i, j, e, e', h => by
    cases e; cases e'
    simp only [toDense, add] at h ⊢
    split_ifs at h ⊢ <;> tauto
  | .hier m1 m2, n, .hier a b .., .hier .., _, i, j, ⟨e1, e2⟩, ⟨e3, e4⟩, h => by
    subst e1 e2 e3 e4
    obtain ⟨k1, q, k2, hd, hs⟩ := dims ‹_› ‹_› n
    simp only [toDense, add] at h ⊢
    split_ifs at h ⊢ <;> tauto
  | .tril, n, .tril _, .tril _, _, i, j, _, _, h => by
    simp only [toDense, add] at h ⊢; tauto
  | .triu, n, .triu _, .triu _, _, i, j, _, _, h => by
    simp only [toDense, add] at h ⊢; tauto
  | .topRight .., n, .topRight .., .topRight .., _, i, j, ⟨h1, h2, h3, h4, hA, hC⟩, ⟨g1, g2, g3, g4, gA, gC⟩, h => by
    subst h1 h2 h3 h4 g1 g2
    simp only [toDense, add] at h ⊢
    split_ifs at h ⊢
    · exact toDense_add hA gA h
    · tauto
    · exact ⟨h.elim And.left And.left, toDense_add hC gC (h.imp And.right And.right)⟩
  | .bottomLeft .., n, .bottomLeft .., .bottomLeft .., _, i, j, ⟨h1, h2, h3, h4, hA, hC⟩, ⟨g1, g2, g3, g4, gA, gC⟩, h => by
    subst h1 h2 h3 h4 g1 g2
    simp only [toDense, add] at h ⊢
    split_ifs at h ⊢
    · exact ⟨h.elim And.left And.left, toDense_add hA gA (h.imp And.right And.right)⟩
    · tauto
    · exact toDense_add hC gC h

theorem trace_add {c : Cls} {n : ℕ} {o p : Obj} {α : Prop} (e : Is c o) (e' : Is c p) (h : averageTrace n o ∨ averageTrace n p) : averageTrace n (add α o p) := by
  have base : (∃ i < n, toDense n o i i) ∨ (∃ i < n, toDense n p i i) → ∃ i < n, toDense n (add α o p) i i := by
    rintro (⟨i, hi, a⟩ | ⟨i, hi, a⟩)
    · exact ⟨i, hi, toDense_add e e' (Or.inl a)⟩
    · exact ⟨i, hi, toDense_add e e' (Or.inr a)⟩
  cases o <;> cases p <;> first | (cases c <;> first | exact e.elim | exact e'.elim) | exact base h | skip
  case diagonal v w =>
    rcases h with ⟨i, hi, a⟩ | ⟨i, hi, a⟩
    · exact ⟨i, hi, Or.inl a⟩
    · exact ⟨i, hi, Or.inr (Or.inl a)⟩
  case block =>
    cases c <;> first | exact e.elim | skip
    cases e; cases e'
    rcases h with (⟨k, hk, i, hi, a⟩ | ⟨i, hi, a⟩) | (⟨k, hk, i, hi, a⟩ | ⟨i, hi, a⟩)
    · exact Or.inl ⟨k, hk, i, hi, Or.inl a⟩
    · exact Or.inr ⟨i, hi, Or.inl a⟩
    · exact Or.inl ⟨k, hk, i, hi, Or.inr (Or.inl a)⟩
    · exact Or.inr ⟨i, hi, Or.inr (Or.inl a)⟩
  case hier m1 m2 A B C D E m1' m2' A' B' C' D' E' =>
    cases c <;> first | exact e.elim | skip
    obtain ⟨rfl, rfl⟩ := e
    obtain ⟨rfl, rfl⟩ := e'
    rcases h with (⟨i, hi, a⟩ | ⟨i, hi, a⟩ | ⟨i, hi, a⟩) | (⟨i, hi, a⟩ | ⟨i, hi, a⟩ | ⟨i, hi, a⟩)
    · exact Or.inl ⟨i, hi, Or.inl a⟩
    · exact Or.inr (Or.inl ⟨i, hi, Or.inl a⟩)
    · exact Or.inr (Or.inr ⟨i, hi, Or.inl a⟩)
    · exact Or.inl ⟨i, hi, Or.inr (Or.inl a)⟩
    · exact Or.inr (Or.inl ⟨i, hi, Or.inr (Or.inl a)⟩)
    · exact Or.inr (Or.inr ⟨i, hi, Or.inr (Or.inl a)⟩)
  case tril v w => exact h.elim Or.inl fun a => Or.inr (Or.inl a)
  case triu v w => exact h.elim Or.inl fun a => Or.inr (Or.inl a)

end Nn
