import Verif.Proofs.Inner

/-! `frobenius_norm` and `infinity_vector_norm` against the dense matrix. -/

open Finset
variable {α : Type} [Field α]
open Mat

/-! ### Frobenius norm -/

theorem sqsum_matList (m : Mat α) : (((rowMajor m.rows m.cols).map fun p => m.get p.1 p.2).map fun x => x * x).sum =
    ∑ i ∈ range m.rows, ∑ j ∈ range m.cols, m.get i j * m.get i j := by
  rw [List.map_map]; exact sum_rowMajor _ _ _

theorem sqsum_vec (v : Vec α) : (v.toList.map fun x => x * x).sum = ∑ i ∈ range v.len, v.get i * v.get i := by
  rw [Vec.toList, List.map_map]; exact sum_list_range _ _

theorem sum_flatMap_range (n : ℕ) (f : ℕ → List α) :
    (((List.range n).flatMap f).map fun x => x * x).sum = ∑ q ∈ range n, ((f q).map fun x => x * x).sum := by
  rw [List.map_flatMap, ← sum_list_range]
  generalize List.range n = l
  induction l with
  | nil => simp
  | cons x l ih => rw [List.flatMap_cons, List.sum_append, ih, List.map_cons, List.sum_cons]

theorem BlockDiag.sqsum {D n : ℕ} {b : BlockDiag α} (h : b.WF D n) :
    (b.parts.flatten.map fun x => x * x).sum = ip n b.toDense.get b.toDense.get := by
  have hn := num_mul_add_mod h
  have hm : n % D < D := Nat.mod_lt _ h.pos
  have row : ∀ q r, r < D → ∑ j ∈ range n, b.toDense.get (q * D + r) j * b.toDense.get (q * D + r) j =
      ∑ k ∈ range D, b.ent q r k * b.ent q r k := by
    intro q r hr
    have e := get_toDense_mul h b.toDense.T hr (q := q) (q * D + r)
    rw [Mat.get_mul, cols_toDense, h.dim_eq] at e
    simp only [get_T] at e
    rw [e]
    refine sum_congr rfl fun k hk => ?_
    simp at hk
    rw [get_toDense h hr hk, if_pos rfl]
  have split := sum_range_add (fun i => ∑ j ∈ range n, b.toDense.get i j * b.toDense.get i j) (b.blocks.d0 * D) (n % D)
  rw [hn, sum_range_mul] at split
  have e1 : ∑ x ∈ range (n % D), ∑ j ∈ range n, b.toDense.get (b.blocks.d0 * D + x) j * b.toDense.get (b.blocks.d0 * D + x) j =
      ∑ i ∈ range b.last.rows, ∑ j ∈ range b.last.cols, b.last.get i j * b.last.get i j := by
    rw [h.lr, h.lc]
    refine sum_congr rfl fun i hi => ?_
    simp at hi
    rw [row _ _ (by omega), ← sum_range_extend (n := n % D) hm.le]
    · exact sum_congr rfl fun j _ => by simp [ent]
    · intro k hk; simp [ent, b.last.supp i k (by rw [h.lc]; omega)]
  have e2 : ∑ q ∈ range b.blocks.d0, ∑ r ∈ range D, ∑ j ∈ range n, b.toDense.get (q * D + r) j * b.toDense.get (q * D + r) j =
      ∑ q ∈ range b.blocks.d0, ∑ r ∈ range D, ∑ k ∈ range D, b.blocks.get q r k * b.blocks.get q r k := by
    refine sum_congr rfl fun q hq => sum_congr rfl fun r hr => ?_
    simp at hq hr
    rw [row _ _ hr]
    exact sum_congr rfl fun k _ => by simp [ent, hq]
  rw [ip, split, e1, e2, parts, List.flatten_cons, List.flatten_cons, List.flatten_nil, List.append_nil, List.map_append,
    List.sum_append, sum_flatMap_range, sqsum_matList]
  congr 1
  refine sum_congr rfl fun q _ => ?_
  rw [h.d1, h.d2, List.map_map]
  exact sum_rowMajor _ _ _

theorem Hier.sqsum {m1 m2 k1 d k2 : ℕ} {h : Hier α} (H : h.Shape m1 m2 k1 d k2) :
    (h.parts.flatten.map fun x => x * x).sum = ip (k1 + d + k2) h.toDense.get h.toDense.get := by
  have t : ∀ i ∈ range k1, ∑ j ∈ range (k1 + d + k2), h.toDense.get i j * h.toDense.get i j =
      ∑ j ∈ range k1, h.A.get i j * h.A.get i j + ∑ j ∈ range (d + k2), h.B.get i j * h.B.get i j := by
    intro i hi
    simp at hi
    rw [sum_top H _ hi, sum_range_add, ← add_assoc]
    congr 1
    · congr 1
      · exact sum_congr rfl fun t ht => by rw [get_tt H hi (by simpa using ht)]
      · exact sum_congr rfl fun t ht => by rw [get_tm H hi (by simpa using ht)]
    · exact sum_congr rfl fun t ht => by rw [get_tb H hi (by simpa using ht)]
  have m : ∀ i ∈ range d, ∑ j ∈ range (k1 + d + k2), h.toDense.get (k1 + i) j * h.toDense.get (k1 + i) j =
      h.C.get i * h.C.get i := by
    intro i hi
    simp at hi
    rw [sum_mid H _ hi, get_mm H hi hi, if_pos rfl]
  have b : ∀ i ∈ range k2, ∑ j ∈ range (k1 + d + k2), h.toDense.get (k1 + d + i) j * h.toDense.get (k1 + d + i) j =
      ∑ j ∈ range d, h.D.get i j * h.D.get i j + ∑ j ∈ range k2, h.E.get i j * h.E.get i j := by
    intro i hi
    simp at hi
    rw [sum_bot H _ hi]
    congr 1
    · exact sum_congr rfl fun t ht => by rw [get_bm H hi (by simpa using ht)]
    · exact sum_congr rfl fun t ht => by rw [get_bb H hi (by simpa using ht)]
  rw [ip, sum_range3, sum_congr rfl t, sum_congr rfl m, sum_congr rfl b, sum_add_distrib, sum_add_distrib, parts]
  simp only [List.flatten_cons, List.flatten_nil, List.append_nil, List.map_append, List.sum_append, sqsum_matList, sqsum_vec]
  simp only [H.Ar, H.Ac, H.Br, H.Bc, H.Cl, H.Dr, H.Dc, H.Er, H.Ec]
  ring

theorem ip_self_nonneg [LinearOrder α] [IsStrictOrderedRing α] (n : ℕ) (f : ℕ → ℕ → α) : 0 ≤ ip n f f :=
  sum_nonneg fun _ _ => sum_nonneg fun _ _ => mul_self_nonneg _

theorem sqsum_nonneg [LinearOrder α] [IsStrictOrderedRing α] (l : List α) : 0 ≤ (l.map fun x => x * x).sum :=
  List.sum_nonneg fun x hx => by
    obtain ⟨y, _, rfl⟩ := List.mem_map.1 hx; exact mul_self_nonneg _

theorem vectorNorm_sq [LinearOrder α] [IsStrictOrderedRing α] [LawfulSqrt α] (l : List α) :
    vectorNorm l * vectorNorm l = (l.map fun x => x * x).sum := LawfulSqrt.sqrt_mul_self _ (sqsum_nonneg l)

theorem Toeplitz.frob_sq [LinearOrder α] [IsStrictOrderedRing α] [LawfulSqrt α] {n : ℕ} {q : Vec α} (hq : q.len = n) :
    Toeplitz.frobNorm q * Toeplitz.frobNorm q = ∑ k ∈ range n, q.get k * (((n - k : ℕ) : α) * q.get k) := by
  rw [Toeplitz.frobNorm, vectorNorm_sq, List.map_map, sum_list_range, hq]
  refine sum_congr rfl fun k _ => ?_
  have := LawfulSqrt.sqrt_mul_self ((n - k : ℕ) : α) (Nat.cast_nonneg _)
  show q.get k * _ * (q.get k * _) = _
  linear_combination (q.get k * q.get k) * this

theorem frobNorm_sq [LinearOrder α] [IsStrictOrderedRing α] [LawfulSqrt α] : ∀ {c : Cls} {n : ℕ} {K : SM α}, WF c n K →
    K.frobNorm * K.frobNorm = ip n K.toDense.get K.toDense.get := by
  intro c
  induction c with
  | dense =>
    intro n K w
    cases w with | dense hr hc =>
    rw [SM.frobNorm, vectorNorm_sq, sqsum_matList, hr, hc]; rfl
  | diagonal =>
    intro n K w
    cases w with | diagonal h =>
    rw [SM.frobNorm, vectorNorm_sq, sqsum_vec, h, ip]
    refine sum_congr rfl fun i hi => ?_
    simp at hi
    rw [sum_eq_single i]
    · simp [SM.toDense, Diagonal.get_toDense]
    · intro j _ hj; simp [SM.toDense, Diagonal.get_toDense, hj.symm]
    · simp [hi]
  | block D =>
    intro n K w
    cases w with | block h => rw [SM.frobNorm, vectorNorm_sq, BlockDiag.sqsum h]; rfl
  | hier a b =>
    intro n K w
    cases w with | hier hd h =>
    rw [SM.frobNorm, vectorNorm_sq, Hier.sqsum h, hd.sum]; rfl
  | tril =>
    intro n K w
    cases w with | @tril _ q hn hq =>
    rw [SM.frobNorm, Toeplitz.frob_sq hq, SM.toDense, ip_tril _ hq]
    refine sum_congr rfl fun k hk => ?_
    simp at hk
    rw [sum_congr rfl (g := fun _ => q.get k), sum_const, card_range, nsmul_eq_mul]
    intro i hi; simp at hi
    rw [Tril.get_toDense, if_pos (by omega), if_pos (by omega)]; congr 1; omega
  | triu =>
    intro n K w
    cases w with | @triu _ q hn hq =>
    rw [SM.frobNorm, Toeplitz.frob_sq hq, SM.toDense, ip_triu _ hq]
    refine sum_congr rfl fun k hk => ?_
    simp at hk
    rw [sum_congr rfl (g := fun _ => q.get k), sum_const, card_range, nsmul_eq_mul]
    intro i hi; simp at hi
    rw [Triu.toDense_eq, get_T, Tril.get_toDense, if_pos (by omega), if_pos (by omega)]; congr 1; omega
  | topRight x y ca cc ihA ihC =>
    intro n K w
    obtain ⟨b, e, A, B, C, rfl, rfl, hb, hA, hr, hc, hC⟩ := w.tr_inv
    have nn : 0 ≤ ((rowMajor B.rows B.cols).map fun p => B.get p.1 p.2 * B.get p.1 p.2).sum := by
      rw [sum_rowMajor]; exact sum_nonneg fun _ _ => sum_nonneg fun _ _ => mul_self_nonneg _
    rw [SM.frobNorm, LawfulSqrt.sqrt_mul_self _ (add_nonneg nn (add_nonneg (mul_self_nonneg _) (mul_self_nonneg _))),
      ihA hA, ihC hC, sum_rowMajor, toDense_tr hA hr hc hC, ip_blk, hr, hc]
    rw [ip_congr (n := b) (f := (blk _ _ _ _ _ _).get) (f' := A.toDense.get) (g' := A.toDense.get) fun i hi j hj => by rw [blk_tl hi hj],
      ip_congr (n := e) (f := fun i j => (blk _ _ _ _ _ _).get (b + i) (b + j)) (f' := C.toDense.get) (g' := C.toDense.get)
        fun i hi j hj => by rw [blk_br hi hj],
      sum2_congr (n := b) (m := e) (f := fun i j => (blk _ _ _ _ _ _).get i (b + j) * _) (g := fun i j => B.get i j * B.get i j)
        fun i hi j hj => by rw [blk_tr hi hj],
      sum2_congr (n := e) (m := b) (f := fun i j => (blk _ _ _ _ _ _).get (b + i) j * _) (g := fun i j => 0)
        fun i hi j hj => by simp]
    simp; ring
  | bottomLeft x y ca cc ihA ihC =>
    intro n K w
    obtain ⟨b, e, A, B, C, rfl, rfl, hb, hA, hr, hc, hC⟩ := w.bl_inv
    have nn : 0 ≤ ((rowMajor B.rows B.cols).map fun p => B.get p.1 p.2 * B.get p.1 p.2).sum := by
      rw [sum_rowMajor]; exact sum_nonneg fun _ _ => sum_nonneg fun _ _ => mul_self_nonneg _
    rw [SM.frobNorm, LawfulSqrt.sqrt_mul_self _ (add_nonneg nn (add_nonneg (mul_self_nonneg _) (mul_self_nonneg _))),
      ihA hA, ihC hC, sum_rowMajor, toDense_bl hA hr hc hC, ip_blk, hr, hc]
    rw [ip_congr (n := b) (f := (blk _ _ _ _ _ _).get) (f' := A.toDense.get) (g' := A.toDense.get) fun i hi j hj => by rw [blk_tl hi hj],
      ip_congr (n := e) (f := fun i j => (blk _ _ _ _ _ _).get (b + i) (b + j)) (f' := C.toDense.get) (g' := C.toDense.get)
        fun i hi j hj => by rw [blk_br hi hj],
      sum2_congr (n := e) (m := b) (f := fun i j => (blk _ _ _ _ _ _).get (b + i) j * _) (g := fun i j => B.get i j * B.get i j)
        fun i hi j hj => by rw [blk_bl hi hj],
      sum2_congr (n := b) (m := e) (f := fun i j => (blk _ _ _ _ _ _).get i (b + j) * _) (g := fun i j => 0)
        fun i hi j hj => by simp]
    simp; ring

theorem frobNorm_nonneg [LinearOrder α] [LawfulSqrt α] (K : SM α) : 0 ≤ K.frobNorm := by
  cases K <;> exact LawfulSqrt.sqrt_nonneg _

/-! ### infinity norm -/

theorem mem_rowMajor {r c : ℕ} {p : ℕ × ℕ} : p ∈ rowMajor r c ↔ p.1 < r ∧ p.2 < c := by
  obtain ⟨i, j⟩ := p
  simp [rowMajor]

theorem mem_matList {m : Mat α} {x : α} : x ∈ ((rowMajor m.rows m.cols).map fun p => m.get p.1 p.2) ↔
    ∃ i < m.rows, ∃ j < m.cols, m.get i j = x := by
  simp only [List.mem_map, mem_rowMajor, Prod.exists]
  exact ⟨fun ⟨i, j, ⟨h1, h2⟩, h⟩ => ⟨i, h1, j, h2, h⟩, fun ⟨i, h1, j, h2, h⟩ => ⟨i, j, ⟨h1, h2⟩, h⟩⟩

theorem mem_vecList {v : Vec α} {x : α} : x ∈ v.toList ↔ ∃ i < v.len, v.get i = x := by
  simp [Vec.toList]

/-- the entries of the dense matrix are, up to zeros, the entries of the stored tensors -/
structure PartsOk (n : ℕ) (K : SM α) : Prop where
  sub : ∀ x ∈ K.parts.flatten, ∃ i < n, ∃ j < n, K.toDense.get i j = x
  sup : ∀ i < n, ∀ j < n, K.toDense.get i j = 0 ∨ K.toDense.get i j ∈ K.parts.flatten
  ne : 0 < n → K.parts.flatten ≠ []

theorem ne_nil_of_mem' {l : List α} {x : α} (h : x ∈ l) : l ≠ [] := by rintro rfl; simp at h

theorem PartsOk.blk {b e : ℕ} {A C K : SM α} {B R L : Mat α}
    (hA : PartsOk b A) (hC : PartsOk e C)
    (hK : K.toDense = Mat.blk b (b + e) A.toDense R L C.toDense)
    (hp : K.parts = ((rowMajor B.rows B.cols).map fun p => B.get p.1 p.2) :: (A.parts ++ C.parts))
    (h1 : (∀ x i j, i < B.rows → j < B.cols → B.get i j = x → ∃ i < b + e, ∃ j < b + e, K.toDense.get i j = x))
    (h2 : ∀ i < b, ∀ j < e, R.get i j = 0 ∨ ∃ i' < B.rows, ∃ j' < B.cols, B.get i' j' = R.get i j)
    (h3 : ∀ i < e, ∀ j < b, L.get i j = 0 ∨ ∃ i' < B.rows, ∃ j' < B.cols, B.get i' j' = L.get i j) : PartsOk (b + e) K := by
  have mem : ∀ x, x ∈ K.parts.flatten ↔ (∃ i < B.rows, ∃ j < B.cols, B.get i j = x) ∨ x ∈ A.parts.flatten ∨ x ∈ C.parts.flatten := by
    intro x
    rw [hp, List.flatten_cons, List.mem_append, mem_matList, List.flatten_append, List.mem_append]
  refine ⟨?_, ?_, ?_⟩
  · intro x hx
    rcases (mem x).1 hx with ⟨i, hi, j, hj, h⟩ | h | h
    · exact h1 x i j hi hj h
    · obtain ⟨i, hi, j, hj, h⟩ := hA.sub x h
      exact ⟨i, by omega, j, by omega, by rw [hK, blk_tl hi hj, h]⟩
    · obtain ⟨i, hi, j, hj, h⟩ := hC.sub x h
      exact ⟨b + i, by omega, b + j, by omega, by rw [hK, blk_br hi hj, h]⟩
  · intro i hi j hj
    simp only [mem]
    rw [hK]
    rcases Nat.lt_or_ge i b with h | h
    · rcases Nat.lt_or_ge j b with h' | h'
      · rw [blk_tl h h']
        exact (hA.sup i h j h').imp_right fun h => .inr (.inl h)
      · obtain ⟨j, rfl⟩ := Nat.exists_eq_add_of_le h'
        rw [blk_tr h (by omega)]
        exact (h2 i h j (by omega)).imp_right .inl
    · obtain ⟨i, rfl⟩ := Nat.exists_eq_add_of_le h
      rcases Nat.lt_or_ge j b with h' | h'
      · rw [blk_bl (by omega) h']
        exact (h3 i (by omega) j h').imp_right .inl
      · obtain ⟨j, rfl⟩ := Nat.exists_eq_add_of_le h'
        rw [blk_br (by omega) (by omega)]
        exact (hC.sup i (by omega) j (by omega)).imp_right fun h => .inr (.inr h)
  · intro hn
    rcases Nat.eq_zero_or_pos b with h | h
    · obtain ⟨x, hx⟩ := List.exists_mem_of_ne_nil _ (hC.ne (by omega))
      exact ne_nil_of_mem' ((mem x).2 (.inr (.inr hx)))
    · obtain ⟨x, hx⟩ := List.exists_mem_of_ne_nil _ (hA.ne h)
      exact ne_nil_of_mem' ((mem x).2 (.inr (.inl hx)))

theorem partsOk : ∀ {c : Cls} {n : ℕ} {K : SM α}, WF c n K → PartsOk n K := by
  intro c
  induction c with
  | dense =>
    intro n K w
    cases w with | @dense _ m hr hc =>
    have mem : ∀ x, x ∈ (SM.dense m).parts.flatten ↔ ∃ i < n, ∃ j < n, m.get i j = x := by
      intro x; rw [SM.parts, List.flatten_cons, List.flatten_nil, List.append_nil, mem_matList, hr, hc]
    exact ⟨fun x hx => (mem x).1 hx, fun i hi j hj => .inr ((mem _).2 ⟨i, hi, j, hj, rfl⟩),
      fun h => ne_nil_of_mem' ((mem _).2 ⟨0, h, 0, h, rfl⟩)⟩
  | diagonal =>
    intro n K w
    cases w with | @diagonal _ d h =>
    have mem : ∀ x, x ∈ (SM.diagonal d).parts.flatten ↔ ∃ i < n, d.get i = x := by
      intro x; rw [SM.parts, List.flatten_cons, List.flatten_nil, List.append_nil, mem_vecList, h]
    refine ⟨fun x hx => ?_, fun i hi j hj => ?_, fun h => ne_nil_of_mem' ((mem _).2 ⟨0, h, rfl⟩)⟩
    · obtain ⟨i, hi, e⟩ := (mem x).1 hx
      exact ⟨i, hi, i, hi, by simp [SM.toDense, Diagonal.get_toDense, e]⟩
    · by_cases hij : i = j
      · subst hij; right; rw [mem]; exact ⟨i, hi, by simp [SM.toDense, Diagonal.get_toDense]⟩
      · left; simp [SM.toDense, Diagonal.get_toDense, hij]
  | block D =>
    intro n K w
    cases w with | @block _ _ b h =>
    have hn := BlockDiag.num_mul_add_mod h
    have hm : n % D < D := Nat.mod_lt _ h.pos
    have mem : ∀ x, x ∈ (SM.block b).parts.flatten ↔ (∃ q < n / D, ∃ r < D, ∃ r' < D, b.blocks.get q r r' = x) ∨
        ∃ r < n % D, ∃ r' < n % D, b.last.get r r' = x := by
      intro x
      rw [SM.parts, BlockDiag.parts, List.flatten_cons, List.flatten_cons, List.flatten_nil, List.append_nil, List.mem_append,
        mem_matList, h.lr, h.lc, h.d0, h.d1, h.d2]
      simp only [List.mem_flatMap, List.mem_map, List.mem_range, mem_rowMajor, Prod.exists]
      constructor
      · rintro (⟨q, hq, r, r', ⟨hr, hr'⟩, h⟩ | h)
        · exact .inl ⟨q, hq, r, hr, r', hr', h⟩
        · exact .inr h
      · rintro (⟨q, hq, r, hr, r', hr', h⟩ | h)
        · exact .inl ⟨q, hq, r, r', ⟨hr, hr'⟩, h⟩
        · exact .inr h
    have sub : ∀ x ∈ (SM.block b).parts.flatten, ∃ i < n, ∃ j < n, (SM.block b).toDense.get i j = x := by
      intro x hx
      rcases (mem x).1 hx with ⟨q, hq, r, hr, r', hr', e⟩ | ⟨r, hr, r', hr', e⟩
      · have hq' : q < b.blocks.d0 := by rw [h.d0]; exact hq
        have : q * D + D ≤ b.blocks.d0 * D := by rw [← Nat.succ_mul]; exact Nat.mul_le_mul_right D hq'
        exact ⟨q * D + r, by omega, q * D + r', by omega, by
          rw [SM.toDense, BlockDiag.get_toDense h hr hr', if_pos rfl]; simp [BlockDiag.ent, hq', e]⟩
      · exact ⟨b.blocks.d0 * D + r, by omega, b.blocks.d0 * D + r', by omega, by
          rw [SM.toDense, BlockDiag.get_toDense h (by omega) (by omega), if_pos rfl]; simp [BlockDiag.ent, e]⟩
    refine ⟨sub, ?_, ?_⟩
    · intro i hi j hj
      obtain ⟨q, r, hr, rfl⟩ := BlockDiag.exists_qr h.pos i
      obtain ⟨q', r', hr', rfl⟩ := BlockDiag.exists_qr h.pos j
      rw [SM.toDense, BlockDiag.get_toDense h hr hr', mem]
      split_ifs with hq
      · subst hq
        have hd := h.d0
        by_cases h1 : q < b.blocks.d0
        · right; left; exact ⟨q, by omega, r, hr, r', hr', by simp [BlockDiag.ent, h1]⟩
        · by_cases h2 : q = b.blocks.d0
          · right; right; subst h2; exact ⟨r, by omega, r', by omega, by simp [BlockDiag.ent]⟩
          · left; simp [BlockDiag.ent, h1, h2]
      · exact .inl rfl
    · intro hpos
      by_cases h0 : 0 < n / D
      · exact ne_nil_of_mem' ((mem _).2 (.inl ⟨0, h0, 0, h.pos, 0, h.pos, rfl⟩))
      · have : 0 < n % D := by
          rw [h.d0] at hn; have : n / D = 0 := Nat.eq_zero_of_not_pos h0
          rw [this] at hn; omega
        exact ne_nil_of_mem' ((mem _).2 (.inr ⟨0, this, 0, this, rfl⟩))
  | hier a b =>
    intro n K w
    cases w with | @hier _ _ _ k1 d k2 q hd H =>
    obtain rfl := hd.sum
    have mem : ∀ x, x ∈ (SM.hier q).parts.flatten ↔ (∃ i < k1, ∃ j < k1, q.A.get i j = x) ∨ (∃ i < k1, ∃ j < d + k2, q.B.get i j = x) ∨
        (∃ i < d, q.C.get i = x) ∨ (∃ i < k2, ∃ j < d, q.D.get i j = x) ∨ (∃ i < k2, ∃ j < k2, q.E.get i j = x) := by
      intro x
      simp only [SM.parts, Hier.parts, List.flatten_cons, List.flatten_nil, List.append_nil, List.mem_append, mem_matList, mem_vecList]
      simp only [H.Ar, H.Ac, H.Br, H.Bc, H.Cl, H.Dr, H.Dc, H.Er, H.Ec]
    refine ⟨?_, ?_, ?_⟩
    · intro x hx
      rcases (mem x).1 hx with ⟨i, hi, j, hj, e⟩ | ⟨i, hi, j, hj, e⟩ | ⟨i, hi, e⟩ | ⟨i, hi, j, hj, e⟩ | ⟨i, hi, j, hj, e⟩
      · exact ⟨i, by omega, j, by omega, by rw [SM.toDense, Hier.get_tt H hi hj, e]⟩
      · by_cases h : j < d
        · exact ⟨i, by omega, k1 + j, by omega, by rw [SM.toDense, Hier.get_tm H hi h, e]⟩
        · obtain ⟨t, rfl⟩ := Nat.exists_eq_add_of_le (not_lt.1 h)
          exact ⟨i, by omega, k1 + d + t, by omega, by rw [SM.toDense, Hier.get_tb H hi (by omega), e]⟩
      · exact ⟨k1 + i, by omega, k1 + i, by omega, by rw [SM.toDense, Hier.get_mm H hi hi, if_pos rfl, e]⟩
      · exact ⟨k1 + d + i, by omega, k1 + j, by omega, by rw [SM.toDense, Hier.get_bm H hi hj, e]⟩
      · exact ⟨k1 + d + i, by omega, k1 + d + j, by omega, by rw [SM.toDense, Hier.get_bb H hi hj, e]⟩
    · intro i hi j hj
      rw [mem, SM.toDense]
      have key : ∀ k < k1 + d + k2, k < k1 ∨ (∃ t < d, k = k1 + t) ∨ ∃ t < k2, k = k1 + d + t := by
        intro k hk
        by_cases h1 : k < k1
        · exact .inl h1
        · by_cases h2 : k < k1 + d
          · exact .inr (.inl ⟨k - k1, by omega, by omega⟩)
          · exact .inr (.inr ⟨k - (k1 + d), by omega, by omega⟩)
      rcases key i hi with h1 | ⟨i, h1, rfl⟩ | ⟨i, h1, rfl⟩ <;> rcases key j hj with h2 | ⟨j, h2, rfl⟩ | ⟨j, h2, rfl⟩
      · rw [Hier.get_tt H h1 h2]; exact .inr (.inl ⟨i, h1, j, h2, rfl⟩)
      · rw [Hier.get_tm H h1 h2]; exact .inr (.inr (.inl ⟨i, h1, j, by omega, rfl⟩))
      · rw [Hier.get_tb H h1 h2]; exact .inr (.inr (.inl ⟨i, h1, d + j, by omega, rfl⟩))
      · rw [Hier.get_mt H h1 h2]; exact .inl rfl
      · rw [Hier.get_mm H h1 h2]
        split_ifs
        · exact .inr (.inr (.inr (.inl ⟨i, h1, rfl⟩)))
        · exact .inl rfl
      · rw [Hier.get_mb H h1 h2]; exact .inl rfl
      · rw [Hier.get_bt H h1 h2]; exact .inl rfl
      · rw [Hier.get_bm H h1 h2]; exact .inr (.inr (.inr (.inr (.inl ⟨i, h1, j, h2, rfl⟩))))
      · rw [Hier.get_bb H h1 h2]; exact .inr (.inr (.inr (.inr (.inr ⟨i, h1, j, h2, rfl⟩))))
    · intro hpos
      rcases Nat.eq_zero_or_pos k1 with h | h
      · rcases Nat.eq_zero_or_pos d with h' | h'
        · exact ne_nil_of_mem' ((mem _).2 (.inr (.inr (.inr (.inr ⟨0, by omega, 0, by omega, rfl⟩)))))
        · exact ne_nil_of_mem' ((mem _).2 (.inr (.inr (.inl ⟨0, h', rfl⟩))))
      · exact ne_nil_of_mem' ((mem _).2 (.inl ⟨0, h, 0, h, rfl⟩))
  | tril =>
    intro n K w
    cases w with | @tril _ d hn h =>
    have mem : ∀ x, x ∈ (SM.tril d).parts.flatten ↔ ∃ i < n, d.get i = x := by
      intro x; rw [SM.parts, List.flatten_cons, List.flatten_nil, List.append_nil, mem_vecList, h]
    refine ⟨fun x hx => ?_, fun i hi j hj => ?_, fun h => ne_nil_of_mem' ((mem _).2 ⟨0, h, rfl⟩)⟩
    · obtain ⟨i, hi, e⟩ := (mem x).1 hx
      exact ⟨i, hi, 0, hn, by rw [SM.toDense, Tril.get_toDense, if_pos (by omega), if_pos (by omega)]; simpa using e⟩
    · rw [SM.toDense, Tril.get_toDense, mem]
      split_ifs
      · exact .inr ⟨i - j, by omega, rfl⟩
      · exact .inl rfl
      · exact .inl rfl
  | triu =>
    intro n K w
    cases w with | @triu _ d hn h =>
    have mem : ∀ x, x ∈ (SM.triu d).parts.flatten ↔ ∃ i < n, d.get i = x := by
      intro x; rw [SM.parts, List.flatten_cons, List.flatten_nil, List.append_nil, mem_vecList, h]
    refine ⟨fun x hx => ?_, fun i hi j hj => ?_, fun h => ne_nil_of_mem' ((mem _).2 ⟨0, h, rfl⟩)⟩
    · obtain ⟨i, hi, e⟩ := (mem x).1 hx
      exact ⟨0, hn, i, hi, by
        rw [SM.toDense, Triu.toDense_eq, get_T, Tril.get_toDense, if_pos (by omega), if_pos (by omega)]; simpa using e⟩
    · rw [SM.toDense, Triu.toDense_eq, get_T, Tril.get_toDense, mem]
      split_ifs
      · exact .inr ⟨j - i, by omega, rfl⟩
      · exact .inl rfl
      · exact .inl rfl
  | topRight x y ca cc ihA ihC =>
    intro n K w
    obtain ⟨b, e, A, B, C, rfl, rfl, hb, hA, hr, hc, hC⟩ := w.tr_inv
    have hK := toDense_tr (x := x) (y := y) (ca := ca) (cc := cc) hA hr hc hC
    refine (ihA hA).blk (ihC hC) hK rfl ?_ ?_ ?_
    · intro v i j hi hj hv
      exact ⟨i, by omega, b + j, by omega, by rw [hK, blk_tr (by omega) (by omega), hv]⟩
    · intro i hi j hj; exact .inr ⟨i, by omega, j, by omega, rfl⟩
    · intro i hi j hj; left; simp
  | bottomLeft x y ca cc ihA ihC =>
    intro n K w
    obtain ⟨b, e, A, B, C, rfl, rfl, hb, hA, hr, hc, hC⟩ := w.bl_inv
    have hK := toDense_bl (x := x) (y := y) (ca := ca) (cc := cc) hA hr hc hC
    refine (ihA hA).blk (ihC hC) hK rfl ?_ ?_ ?_
    · intro v i j hi hj hv
      exact ⟨b + i, by omega, j, by omega, by rw [hK, blk_bl (by omega) (by omega), hv]⟩
    · intro i hi j hj; left; simp
    · intro i hi j hj; exact .inr ⟨i, by omega, j, by omega, rfl⟩

theorem foldl_max_spec [LinearOrder α] (l : List α) (x : α) :
    (l.foldl max x = x ∨ l.foldl max x ∈ l) ∧ x ≤ l.foldl max x ∧ ∀ y ∈ l, y ≤ l.foldl max x := by
  induction l generalizing x with
  | nil => simp
  | cons a l ih =>
    obtain ⟨h1, h2, h3⟩ := ih (max x a)
    rw [List.foldl_cons]
    refine ⟨?_, (le_max_left _ _).trans h2, ?_⟩
    · rcases h1 with h | h
      · rw [h]
        rcases max_choice x a with h | h <;> rw [h]
        · exact .inl rfl
        · exact .inr (by simp)
      · exact .inr (List.mem_cons_of_mem _ h)
    · intro y hy
      rcases List.mem_cons.1 hy with rfl | hy
      · exact (le_max_right _ _).trans h2
      · exact h3 y hy

theorem listMax_spec [LinearOrder α] {l : List α} (h : l ≠ []) :
    ∃ v, SM.listMax l = .ok v ∧ v ∈ l ∧ ∀ y ∈ l, y ≤ v := by
  cases l with
  | nil => exact absurd rfl h
  | cons x l =>
    obtain ⟨h1, h2, h3⟩ := foldl_max_spec l x
    refine ⟨_, rfl, ?_, ?_⟩
    · rcases h1 with h | h
      · rw [h]; simp
      · exact List.mem_cons_of_mem _ h
    · intro y hy
      rcases List.mem_cons.1 hy with rfl | hy
      · exact h2
      · exact h3 y hy

theorem mapM_ok_spec {β γ : Type} {f : β → Except PyErr γ} : ∀ {l : List β}, (∀ x ∈ l, ∃ y, f x = .ok y) →
    ∃ r, l.mapM f = .ok r ∧ List.Forall₂ (fun x y => f x = .ok y) l r
  | [], _ => ⟨[], rfl, .nil⟩
  | a :: l, h => by
    obtain ⟨y, hy⟩ := h a (by simp)
    obtain ⟨r, hr, hf⟩ := mapM_ok_spec (l := l) fun x hx => h x (List.mem_cons_of_mem _ hx)
    exact ⟨y :: r, by rw [List.mapM_cons, hy, Except.bind_ok', hr]; rfl, .cons hy hf⟩

theorem infNorm_parts [LinearOrder α] [IsStrictOrderedRing α] (K : SM α) (h : K.parts.flatten ≠ []) :
    ∃ v, K.infNorm = .ok v ∧ (∃ x ∈ K.parts.flatten, v = |x|) ∧ ∀ x ∈ K.parts.flatten, |x| ≤ v := by
  obtain ⟨r, hr, hf⟩ := mapM_ok_spec (f := fun l : List α => SM.listMax (l.map fun x => |x|)) (l := K.parts.filter (fun l => l ≠ [])) (by
    intro l hl
    obtain ⟨v, hv, -⟩ := listMax_spec (l := l.map fun x => |x|) (by
      have := (List.mem_filter.1 hl).2
      simpa using this)
    exact ⟨v, hv⟩)
  have hfl : (K.parts.filter (fun l => l ≠ [])).flatten = K.parts.flatten := by
    induction K.parts with
    | nil => rfl
    | cons a l ih =>
      by_cases ha : a = []
      · subst ha; simpa using ih
      · rw [List.filter_cons, if_pos (by simpa using ha), List.flatten_cons, List.flatten_cons, ih]
  rw [← hfl] at h ⊢
  have hall : ∀ l ∈ K.parts.filter (fun l => l ≠ []), l ≠ [] := fun l hl => by simpa using (List.mem_filter.1 hl).2
  revert hr
  generalize hL : K.parts.filter (fun l => l ≠ []) = L at hf h hall
  intro hr
  have hrne : r ≠ [] := by
    rintro rfl; cases hf; simp at h
  obtain ⟨v, hv, hvm, hvl⟩ := listMax_spec hrne
  refine ⟨v, by rw [SM.infNorm, hL, hr]; exact hv, ?_, ?_⟩
  · clear hv hvl hrne hL hfl h hr
    induction hf with
    | nil => simp at hvm
    | @cons l y L r hl hf ih =>
      rcases List.mem_cons.1 hvm with rfl | hm
      · obtain ⟨v', e, hm, -⟩ := listMax_spec (l := l.map fun x => |x|) (by
          have := hall l (by simp); simpa using this)
        rw [hl] at e; cases e
        obtain ⟨x, hx, e⟩ := List.mem_map.1 hm
        exact ⟨x, by simp [hx], e.symm⟩
      · obtain ⟨x, hx, e⟩ := ih (fun l hl => hall l (List.mem_cons_of_mem _ hl)) hm
        exact ⟨x, by simp only [List.flatten_cons, List.mem_append, hx, or_true], e⟩
  · clear hv hvm hrne hL hfl h hr
    induction hf with
    | nil => simp
    | @cons l y L r hl hf ih =>
      intro x hx
      rw [List.flatten_cons, List.mem_append] at hx
      rcases hx with hx | hx
      · obtain ⟨v', e, -, hm⟩ := listMax_spec (l := l.map fun x => |x|) (by
          have := hall l (by simp); simpa using this)
        rw [hl] at e; cases e
        exact (hm _ (List.mem_map.2 ⟨x, hx, rfl⟩)).trans (hvl _ (by simp))
      · exact ih (fun l hl => hall l (List.mem_cons_of_mem _ hl)) (fun y hy => hvl y (List.mem_cons_of_mem _ hy)) x hx

/-- `infinity_vector_norm` is the largest absolute entry of the dense matrix -/
theorem infNorm_spec [LinearOrder α] [IsStrictOrderedRing α] {c : Cls} {n : ℕ} {K : SM α} (w : WF c n K) (hn : 0 < n) :
    ∃ v, K.infNorm = .ok v ∧ (∃ i < n, ∃ j < n, v = |K.toDense.get i j|) ∧ ∀ i < n, ∀ j < n, |K.toDense.get i j| ≤ v := by
  have P := partsOk w
  obtain ⟨v, e, ⟨x, hx, hv⟩, hle⟩ := infNorm_parts K (P.ne hn)
  obtain ⟨i, hi, j, hj, h⟩ := P.sub x hx
  refine ⟨v, e, ⟨i, hi, j, hj, by rw [h, hv]⟩, fun i hi j hj => ?_⟩
  rcases P.sup i hi j hj with h | h
  · rw [h, abs_zero, hv]; exact abs_nonneg _
  · exact hle _ h
