import Verif.Proofs.HeapFrame

/-! The exact memory shared by `from_dense`. -/

variable {α : Type} [Field α]

namespace Mem

theorem Shared.lt : ∀ (c : Cls) {n i j : ℕ}, Shared c n i j → i < n ∧ j < n
  | .dense, _, _, _, h => h
  | .diagonal, _, _, _, h | .tril, _, _, _, h | .triu, _, _, _, h => h.elim
  | .block D, _, _, _, h => ⟨h.1.2, h.2.2⟩
  | .hier p q, n, i, j, h => by
    rcases h with h | h
    · omega
    · exact ⟨h.1.2, h.2.2⟩
  | .topRight x y cA cC, n, i, j, ⟨b, _, h⟩ | .bottomLeft x y cA cC, n, i, j, ⟨b, _, h⟩ => by
    rcases h with ⟨hb, h⟩ | ⟨h1, h2, h⟩
    · have := Shared.lt cA h; omega
    · have := Shared.lt cC h; omega

/-- addresses of a view of the rows and columns from `b` to `e` -/
theorem mem_view {d : Mat ℕ} {b e n a : ℕ} (hr : d.rows = n) (hc : d.cols = n) (he : e ≤ n) :
    a ∈ locM (view d b e b e) ↔ ∃ i j, ((b ≤ i ∧ i < e) ∧ b ≤ j ∧ j < e) ∧ d.get i j = a := by
  constructor
  · intro h
    obtain ⟨i, j, h1, h2, _, h3, h4, _, e⟩ := locM_view h
    exact ⟨i, j, ⟨⟨h1, h2⟩, h3, h4⟩, e⟩
  · rintro ⟨i, j, ⟨⟨h1, h2⟩, h3, h4⟩, ha⟩
    refine mem_locM.2 ⟨i - b, by simp only [view, Mat.rows_ofFn]; omega, j - b, by simp only [view, Mat.cols_ofFn]; omega, ?_⟩
    have h5 : i - b < min e d.rows - b := by omega
    have h6 : j - b < min e d.cols - b := by omega
    have h7 : b + (i - b) = i := by omega
    have h8 : b + (j - b) = j := by omega
    simp [view, h5, h6, h7, h8, ha]
theorem get_view {d : Mat ℕ} {b e n i j : ℕ} (hr : d.rows = n) (hc : d.cols = n) (he : e ≤ n) (hi : i < e - b) (hj : j < e - b) :
    (view d b e b e).get i j = d.get (b + i) (b + j) := by
  have h5 : i < min e d.rows - b := by omega
  have h6 : j < min e d.cols - b := by omega
  simp [view, h5, h6]

/-- the recursive templates -/
theorem rec_shared (cA cC : Cls) {x y : MaxDim} {d : Mat ℕ} {n b : ℕ} {m m1 m2 m3 : Mem α} {A C : SM ℕ} {B : Mat ℕ} (hr : d.rows = n) (hc : d.cols = n)
    (hl : ∀ a ∈ locM d, a < m.next) (eb : getBoundary d.rows x y = .ok b) (hA : fromDense cA (view d 0 b 0 b) m = (.ok A, m1))
    (iA : ∀ {d : Mat ℕ} {n : ℕ} {m m' : Mem α} {r : SM ℕ}, d.rows = n → d.cols = n → (∀ a ∈ locM d, a < m.next) →
      fromDense cA d m = (.ok r, m') → ∀ a, (a ∈ loc r ∧ a < m.next) ↔ ∃ i j, Shared cA n i j ∧ d.get i j = a)
    (hC : fromDense cC (view d b d.rows b d.cols) m2 = (.ok C, m3))
    (iC : ∀ {d : Mat ℕ} {n : ℕ} {m m' : Mem α} {r : SM ℕ}, d.rows = n → d.cols = n → (∀ a ∈ locM d, a < m.next) →
      fromDense cC d m = (.ok r, m') → ∀ a, (a ∈ loc r ∧ a < m.next) ↔ ∃ i j, Shared cC n i j ∧ d.get i j = a)
    (hB : m1.next ≤ m2.next) (fB : Fresh m1.next m2.next (locM B)) (a : ℕ) :
    (a ∈ locM B ++ loc A ++ loc C ∧ a < m.next) ↔ ∃ i j, (∃ b, getBoundary n x y = .ok b ∧
      ((b ≤ n ∧ Shared cA b i j) ∨ (b ≤ i ∧ b ≤ j ∧ Shared cC (n - b) (i - b) (j - b)))) ∧ d.get i j = a := by
  have hb : b ≤ n := by
    rw [hr] at eb
    unfold getBoundary at eb
    split at eb <;> cases eb <;> omega
  have h01 : m.next ≤ m1.next := by
    have := (Safe.fromDense (α := α) (n := m.next) (P := fun _ => True) (fun _ _ => trivial) cA (view d 0 b 0 b) (fun _ _ => trivial)) m le_rfl
    rw [hA] at this; exact this.1
  rw [hr, hc] at hC
  rw [hr] at eb
  have kA := iA (n := b) (by simp only [view, Mat.rows_ofFn]; omega) (by simp only [view, Mat.cols_ofFn]; omega)
    (fun a ha => hl a (locM_view_sub ha)) hA a
  have kC := iC (n := n - b) (by simp only [view, Mat.rows_ofFn]; omega) (by simp only [view, Mat.cols_ofFn]; omega)
    (fun a ha => lt_of_lt_of_le (hl a (locM_view_sub ha)) (h01.trans hB)) hC a
  constructor
  · rintro ⟨h, hn⟩
    simp only [List.mem_append] at h
    rcases h with (h | h) | h
    · have := fB.mem a h; omega
    · obtain ⟨i, j, hs, e⟩ := kA.1 ⟨h, hn⟩
      have hij := Shared.lt cA hs
      rw [get_view hr hc hb (by omega) (by omega), Nat.zero_add, Nat.zero_add] at e
      exact ⟨i, j, ⟨b, eb, .inl ⟨hb, hs⟩⟩, e⟩
    · obtain ⟨i, j, hs, e⟩ := kC.1 ⟨h, by omega⟩
      have hij := Shared.lt cC hs
      rw [get_view hr hc le_rfl (by omega) (by omega)] at e
      exact ⟨b + i, b + j, ⟨b, eb, .inr ⟨by omega, by omega, by simpa using hs⟩⟩, e⟩
  · rintro ⟨i, j, ⟨b', eb', h⟩, e⟩
    rw [eb] at eb'
    cases eb'
    rcases h with ⟨_, hs⟩ | ⟨h1, h2, hs⟩
    · have hij := Shared.lt cA hs
      have := kA.2 ⟨i, j, hs, by rw [get_view hr hc hb (by omega) (by omega), Nat.zero_add, Nat.zero_add]; exact e⟩
      exact ⟨by simp [this.1], this.2⟩
    · have hij := Shared.lt cC hs
      have := kC.2 ⟨i - b, j - b, hs, by
        rw [get_view hr hc le_rfl (by omega) (by omega), Nat.add_sub_cancel' h1, Nat.add_sub_cancel' h2]; exact e⟩
      exact ⟨by simp [this.1], hl a (mem_locM.2 ⟨i, by omega, j, by omega, e⟩)⟩

theorem fromDense_shared : ∀ (c : Cls) {d : Mat ℕ} {n : ℕ} {m m' : Mem α} {r : SM ℕ}, d.rows = n → d.cols = n → (∀ a ∈ locM d, a < m.next) →
    fromDense c d m = (.ok r, m') → ∀ a, (a ∈ loc r ∧ a < m.next) ↔ ∃ i j, Shared c n i j ∧ d.get i j = a
  | .dense, d, n, m, m', r, hr, hc, hl, h, a => by
    cases h
    constructor
    · rintro ⟨h, _⟩
      obtain ⟨i, hi, j, hj, e⟩ := mem_locM.1 h
      exact ⟨i, j, ⟨by omega, by omega⟩, e⟩
    · rintro ⟨i, j, ⟨hi, hj⟩, e⟩
      have : a ∈ locM d := mem_locM.2 ⟨i, by omega, j, by omega, e⟩
      exact ⟨this, hl a this⟩
  | .diagonal, d, n, m, m', r, hr, hc, hl, h, a => by
    rw [fromDense, Py.get_bind_run] at h
    obtain ⟨v, m0, h1, h⟩ := Py.bind_eq_ok.1 h
    obtain ⟨_, e0⟩ := HWorld.lift_ok h1
    rw [e0] at h
    obtain ⟨d', m1, e, x, _, f⟩ := newV_spec v m
    rw [Py.bind_ok e] at h
    cases h
    simp only [Shared, false_and, exists_false, iff_false, not_and, loc]
    intro ha
    have := f.mem a ha; omega
  | .tril, d, n, m, m', r, hr, hc, hl, h, a => by
    rw [fromDense, Py.get_bind_run] at h
    obtain ⟨v, m0, h1, h⟩ := Py.bind_eq_ok.1 h
    obtain ⟨_, e0⟩ := HWorld.lift_ok h1
    rw [e0] at h
    obtain ⟨d', m1, e, x, _, f⟩ := newV_spec v m
    rw [Py.bind_ok e] at h
    cases h
    simp only [Shared, false_and, exists_false, iff_false, not_and, loc]
    intro ha
    have := f.mem a ha; omega
  | .triu, d, n, m, m', r, hr, hc, hl, h, a => by
    rw [fromDense, Py.get_bind_run] at h
    obtain ⟨v, m0, h1, h⟩ := Py.bind_eq_ok.1 h
    obtain ⟨_, e0⟩ := HWorld.lift_ok h1
    rw [e0] at h
    obtain ⟨d', m1, e, x, _, f⟩ := newV_spec v m
    rw [Py.bind_ok e] at h
    cases h
    simp only [Shared, false_and, exists_false, iff_false, not_and, loc]
    intro ha
    have := f.mem a ha; omega
  | .block D, d, n, m, m', r, hr, hc, hl, h, a => by
    rw [fromDense, Py.get_bind_run] at h
    obtain ⟨v, m0, h1, h⟩ := Py.bind_eq_ok.1 h
    obtain ⟨_, e0⟩ := HWorld.lift_ok h1
    rw [e0] at h
    obtain ⟨d', m1, e, x, _, f⟩ := newT_spec v.blocks m
    rw [Py.bind_ok e] at h
    cases h
    have key := mem_view (a := a) (b := d.rows / D * D) (e := n) hr hc le_rfl
    simp only [hr, hc] at key ⊢
    simp only [loc, List.mem_append, key, Shared]
    constructor
    · rintro ⟨h | h, hn⟩
      · have := f.mem a h; omega
      · exact h
    · rintro ⟨i, j, h, e⟩
      exact ⟨.inr ⟨i, j, h, e⟩, hl a (mem_locM.2 ⟨i, by omega, j, by omega, e⟩)⟩
  | .hier p q, d, n, m, m', r, hr, hc, hl, h, a => by
    rw [fromDense, Py.get_bind_run] at h
    obtain ⟨v, m0, h1, h⟩ := Py.bind_eq_ok.1 h
    obtain ⟨_, e0⟩ := HWorld.lift_ok h1
    rw [e0] at h
    obtain ⟨B, m1, e1, x1, _, _, _, f1⟩ := newM_spec v.B m
    obtain ⟨C, m2, e2, x2, _, f2⟩ := newV_spec v.C m1
    obtain ⟨D, m3, e3, x3, _, _, _, f3⟩ := newM_spec v.D m2
    rw [Py.bind_ok e1, Py.bind_ok e2, Py.bind_ok e3] at h
    cases h
    have d1 : (Hier.blockDims p q n).1 = min p n := by unfold Hier.blockDims; split_ifs <;> simp only <;> omega
    have d2 : (Hier.blockDims p q n).1 + (Hier.blockDims p q n).2.1 = n - min q (n - min p n) := by unfold Hier.blockDims; split_ifs <;> simp only <;> omega
    have k1 := mem_view (a := a) (b := 0) (e := min p n) hr hc (by omega)
    have k2 := mem_view (a := a) (b := n - min q (n - min p n)) (e := n) hr hc le_rfl
    simp only [hr, hc]
    rw [d2, d1]
    simp only [loc, List.mem_append, k1, k2, Shared]
    constructor
    · rintro ⟨(((h | h) | h) | h) | h, hn⟩
      · obtain ⟨i, j, h, e⟩ := h
        exact ⟨i, j, .inl ⟨h.1.2, h.2.2⟩, e⟩
      · have := f1.mem a h; omega
      · have := f2.mem a h; have := x1.le; omega
      · have := f3.mem a h; have := x1.le; have := x2.le; omega
      · obtain ⟨i, j, h, e⟩ := h
        exact ⟨i, j, .inr h, e⟩
    · rintro ⟨i, j, h, e⟩
      refine ⟨?_, hl a (mem_locM.2 ⟨i, by omega, j, by omega, e⟩)⟩
      rcases h with h | h
      · exact .inl (.inl (.inl (.inl ⟨i, j, ⟨⟨Nat.zero_le _, h.1⟩, Nat.zero_le _, h.2⟩, e⟩)))
      · exact .inr ⟨i, j, h, e⟩
  | .topRight x y cA cC, d, n, m, m', r, hr, hc, hl, h, a => by
    unfold fromDense at h
    split at h
    · cases h
    obtain ⟨b, m0, h1, h⟩ := Py.bind_eq_ok.1 h
    obtain ⟨eb, e0⟩ := HWorld.lift_ok h1
    rw [e0] at h
    obtain ⟨A, m1, hA, h⟩ := Py.bind_eq_ok.1 h
    rw [Py.get_bind_run] at h
    obtain ⟨v, m0, h1, h⟩ := Py.bind_eq_ok.1 h
    obtain ⟨_, e0⟩ := HWorld.lift_ok h1
    rw [e0] at h
    obtain ⟨B, m2, eB, xB, _, _, _, fB⟩ := newM_spec v m1
    rw [Py.bind_ok eB] at h
    obtain ⟨C, m3, hC, h⟩ := Py.bind_eq_ok.1 h
    rw [Py.get_bind_run] at h
    obtain ⟨w, m0, h1, h⟩ := Py.bind_eq_ok.1 h
    obtain ⟨_, e0⟩ := HWorld.lift_ok h1
    rw [e0] at h
    cases h
    exact rec_shared cA cC hr hc hl eb hA (fromDense_shared cA) hC (fromDense_shared cC) xB.le fB a
  | .bottomLeft x y cA cC, d, n, m, m', r, hr, hc, hl, h, a => by
    unfold fromDense at h
    split at h
    · cases h
    obtain ⟨b, m0, h1, h⟩ := Py.bind_eq_ok.1 h
    obtain ⟨eb, e0⟩ := HWorld.lift_ok h1
    rw [e0] at h
    obtain ⟨A, m1, hA, h⟩ := Py.bind_eq_ok.1 h
    rw [Py.get_bind_run] at h
    obtain ⟨v, m0, h1, h⟩ := Py.bind_eq_ok.1 h
    obtain ⟨_, e0⟩ := HWorld.lift_ok h1
    rw [e0] at h
    obtain ⟨B, m2, eB, xB, _, _, _, fB⟩ := newM_spec v m1
    rw [Py.bind_ok eB] at h
    obtain ⟨C, m3, hC, h⟩ := Py.bind_eq_ok.1 h
    rw [Py.get_bind_run] at h
    obtain ⟨w, m0, h1, h⟩ := Py.bind_eq_ok.1 h
    obtain ⟨_, e0⟩ := HWorld.lift_ok h1
    rw [e0] at h
    cases h
    exact rec_shared cA cC hr hc hl eb hA (fromDense_shared cA) hC (fromDense_shared cC) xB.le fB a

end Mem
