import Verif.Model.Alias
import Verif.Proofs.Norms
import Verif.Proofs.ProcessIO

/-! Proofs about memory: new memory is disjoint from old memory, in-place operations write to the memory of their object
only, and reading the memory back gives the values computed by `Model/Structured.lean`. -/

namespace Mem
variable {α : Type} [Field α]

/-! ### lists of addresses -/

theorem lookup_zip_map {ι γ : Type} (f : ι → ℕ) (g : ι → γ) : ∀ (idx : List ι), (idx.map f).Nodup → ∀ i ∈ idx,
    ((idx.map f).zip (idx.map g)).lookup (f i) = some (g i)
  | [], _, i, hi => by simp at hi
  | x :: xs, h, i, hi => by
    simp only [List.map_cons, List.nodup_cons] at h
    simp only [List.map_cons, List.zip_cons_cons, List.lookup_cons]
    by_cases e : f i = f x
    · rcases List.mem_cons.1 hi with rfl | hi
      · simp
      · exact absurd (e ▸ List.mem_map_of_mem hi) h.1
    · rcases List.mem_cons.1 hi with rfl | hi
      · exact absurd rfl e
      · have : (f i == f x) = false := by simpa using e
        rw [this]; exact lookup_zip_map f g xs h.2 i hi

theorem lookup_zip_none {γ : Type} : ∀ {l : List ℕ} {l' : List γ} {a : ℕ}, a ∉ l → (l.zip l').lookup a = none
  | [], _, _, _ => by simp
  | _ :: _, [], _, _ => by simp
  | x :: xs, y :: ys, a, h => by
    simp only [List.mem_cons, not_or] at h
    have : (a == x) = false := by simpa using h.1
    rw [List.zip_cons_cons, List.lookup_cons, this]; exact lookup_zip_none h.2

theorem mem_locV {d : Vec ℕ} {a : ℕ} : a ∈ locV d ↔ ∃ i < d.len, d.get i = a := by
  simp [locV]
theorem mem_locM {d : Mat ℕ} {a : ℕ} : a ∈ locM d ↔ ∃ i < d.rows, ∃ j < d.cols, d.get i j = a := by
  simp only [locM, List.mem_map, Prod.exists, mem_rowMajor]
  constructor
  · rintro ⟨i, j, ⟨hi, hj⟩, e⟩; exact ⟨i, hi, j, hj, e⟩
  · rintro ⟨i, hi, j, hj, e⟩; exact ⟨i, j, ⟨hi, hj⟩, e⟩
theorem mem_locT {d : T3 ℕ} {a : ℕ} : a ∈ locT d ↔ ∃ n < d.d0, ∃ i < d.d1, ∃ j < d.d2, d.get n i j = a := by
  simp only [locT, List.mem_flatMap, List.mem_range, List.mem_map, Prod.exists, mem_rowMajor]
  constructor
  · rintro ⟨n, hn, i, j, ⟨hi, hj⟩, e⟩; exact ⟨n, hn, i, hi, j, hj, e⟩
  · rintro ⟨n, hn, i, hi, j, hj, e⟩; exact ⟨n, hn, i, j, ⟨hi, hj⟩, e⟩

theorem nodup_rowMajor (r c : ℕ) : (rowMajor r c).Nodup := by
  unfold rowMajor
  rw [List.nodup_flatMap]
  refine ⟨fun i _ => List.Nodup.map (fun a b h => by simpa using h) List.nodup_range, ?_⟩
  refine List.nodup_range.pairwise_of_forall_ne fun i _ k _ hik => ?_
  simp only [Function.onFun, List.disjoint_left, List.mem_map]
  rintro p ⟨_, _, rfl⟩ ⟨_, _, h⟩
  simp only [Prod.mk.injEq] at h
  exact hik h.1.symm

/-- no two entries of a 1d tensor share an address -/
def InjV (d : Vec ℕ) : Prop := ∀ i < d.len, ∀ i' < d.len, d.get i = d.get i' → i = i'
/-- no two entries of a 2d tensor share an address -/
def InjM (d : Mat ℕ) : Prop :=
  ∀ i < d.rows, ∀ j < d.cols, ∀ i' < d.rows, ∀ j' < d.cols, d.get i j = d.get i' j' → i = i' ∧ j = j'
/-- no two entries of a 3d tensor share an address -/
def InjT (d : T3 ℕ) : Prop :=
  ∀ n < d.d0, ∀ i < d.d1, ∀ j < d.d2, ∀ n' < d.d0, ∀ i' < d.d1, ∀ j' < d.d2,
    d.get n i j = d.get n' i' j' → n = n' ∧ i = i' ∧ j = j'

theorem nodup_locV {d : Vec ℕ} : (locV d).Nodup ↔ InjV d := by
  unfold locV InjV
  rw [List.nodup_map_iff_inj_on List.nodup_range]
  simp only [List.mem_range]
theorem nodup_locM {d : Mat ℕ} : (locM d).Nodup ↔ InjM d := by
  unfold locM InjM
  rw [List.nodup_map_iff_inj_on (nodup_rowMajor _ _)]
  simp only [mem_rowMajor, Prod.forall, Prod.mk.injEq]
  constructor
  · intro h i hi j hj i' hi' j' hj' e; exact h i j ⟨hi, hj⟩ i' j' ⟨hi', hj'⟩ e
  · intro h i j hij i' j' hij' e; exact h i hij.1 j hij.2 i' hij'.1 j' hij'.2 e

/-- the index set of a 3d tensor -/
def idxT (a b c : ℕ) : List (ℕ × ℕ × ℕ) := (List.range a).flatMap fun n => (rowMajor b c).map fun p => (n, p)
theorem locT_eq (d : T3 ℕ) : locT d = (idxT d.d0 d.d1 d.d2).map fun p => d.get p.1 p.2.1 p.2.2 := by
  simp only [locT, idxT, List.map_flatMap, List.map_map, Function.comp_def]
theorem mem_idxT {a b c : ℕ} {p : ℕ × ℕ × ℕ} : p ∈ idxT a b c ↔ p.1 < a ∧ p.2.1 < b ∧ p.2.2 < c := by
  obtain ⟨n, i, j⟩ := p
  simp only [idxT, List.mem_flatMap, List.mem_range, List.mem_map, Prod.exists, Prod.mk.injEq, mem_rowMajor]
  constructor
  · rintro ⟨_, h, _, _, h', rfl, rfl, rfl⟩; exact ⟨h, h'⟩
  · rintro ⟨h, h'⟩; exact ⟨n, h, i, j, h', rfl, rfl, rfl⟩
theorem nodup_idxT (a b c : ℕ) : (idxT a b c).Nodup := by
  unfold idxT
  rw [List.nodup_flatMap]
  refine ⟨fun i _ => List.Nodup.map (fun a b h => by simpa using h) (nodup_rowMajor _ _), ?_⟩
  refine List.nodup_range.pairwise_of_forall_ne fun i _ k _ hik => ?_
  simp only [Function.onFun, List.disjoint_left, List.mem_map]
  rintro p ⟨_, _, rfl⟩ ⟨_, _, h⟩
  simp only [Prod.mk.injEq] at h
  exact hik h.1.symm
theorem nodup_locT {d : T3 ℕ} : (locT d).Nodup ↔ InjT d := by
  rw [locT_eq, List.nodup_map_iff_inj_on (nodup_idxT _ _ _)]
  unfold InjT
  simp only [mem_idxT, Prod.forall, Prod.mk.injEq]
  constructor
  · intro h n hn i hi j hj n' hn' i' hi' j' hj' e; exact h n i j ⟨hn, hi, hj⟩ n' i' j' ⟨hn', hi', hj'⟩ e
  · intro h n i j hij n' i' j' hij' e
    exact h n hij.1 i hij.2.1 j hij.2.2 n' hij'.1 i' hij'.2.1 j' hij'.2.2 e

/-! ### reading -/

theorem readV_congr {m m' : Mem α} {d : Vec ℕ} (h : ∀ a ∈ locV d, m'.val a = m.val a) : m'.readV d = m.readV d :=
  Vec.ext' rfl fun i hi => by
    simp only [readV, Vec.len_ofFn] at hi
    simp only [readV, Vec.get_ofFn, hi, if_true]; exact h _ (mem_locV.2 ⟨i, hi, rfl⟩)
theorem readM_congr {m m' : Mem α} {d : Mat ℕ} (h : ∀ a ∈ locM d, m'.val a = m.val a) : m'.readM d = m.readM d :=
  Mat.ext' rfl rfl fun i hi j hj => by
    simp only [readM, Mat.rows_ofFn, Mat.cols_ofFn] at hi hj
    simp only [readM, Mat.get_ofFn, hi, hj, and_self, if_true]; exact h _ (mem_locM.2 ⟨i, hi, j, hj, rfl⟩)
theorem readT_congr {m m' : Mem α} {d : T3 ℕ} (h : ∀ a ∈ locT d, m'.val a = m.val a) : m'.readT d = m.readT d :=
  T3.ext' rfl rfl rfl fun n hn i hi j hj => by
    simp only [readT, T3.ofFn] at hn hi hj
    simp only [readT, T3.ofFn, hn, hi, hj, and_self, if_true]; exact h _ (mem_locT.2 ⟨n, hn, i, hi, j, hj, rfl⟩)

theorem read_congr {m m' : Mem α} : ∀ {K : SM ℕ}, (∀ a ∈ loc K, m'.val a = m.val a) → m'.read K = m.read K
  | .dense d, h => by simp only [read]; rw [readM_congr h]
  | .diagonal d, h => by simp only [read]; rw [readV_congr h]
  | .block b, h => by
    simp only [loc, List.mem_append] at h
    simp only [read]; rw [readT_congr fun a ha => h a (.inl ha), readM_congr fun a ha => h a (.inr ha)]
  | .hier b, h => by
    simp only [loc, List.mem_append] at h
    simp only [read]
    rw [readM_congr (d := b.A) fun a ha => h a (by simp [ha]), readM_congr (d := b.B) fun a ha => h a (by simp [ha]),
      readV_congr (d := b.C) fun a ha => h a (by simp [ha]), readM_congr (d := b.D) fun a ha => h a (by simp [ha]),
      readM_congr (d := b.E) fun a ha => h a (by simp [ha])]
  | .tril d, h => by simp only [read]; rw [readV_congr h]
  | .triu d, h => by simp only [read]; rw [readV_congr h]
  | .topRight _ _ _ _ A B C, h => by
    simp only [loc, List.mem_append] at h
    simp only [read]
    rw [readM_congr (d := B) fun a ha => h a (by simp [ha]), read_congr (K := A) fun a ha => h a (by simp [ha]),
      read_congr (K := C) fun a ha => h a (by simp [ha])]
  | .bottomLeft _ _ _ _ A B C, h => by
    simp only [loc, List.mem_append] at h
    simp only [read]
    rw [readM_congr (d := B) fun a ha => h a (by simp [ha]), read_congr (K := A) fun a ha => h a (by simp [ha]),
      read_congr (K := C) fun a ha => h a (by simp [ha])]

/-- class of a reference -/
theorem cls_read (m m' : Mem α) : ∀ K : SM ℕ, (m.read K).cls = (m'.read K).cls := by
  intro K; cases K <;> rfl

theorem readM_view (m : Mem α) (d : Mat ℕ) (r0 r1 c0 c1 : ℕ) :
    m.readM (view d r0 r1 c0 c1) = (m.readM d).slice r0 r1 c0 c1 :=
  Mat.ext' rfl rfl fun i hi j hj => by
    simp only [readM, view, Mat.rows_ofFn, Mat.cols_ofFn] at hi hj
    have h1 : r0 + i < d.rows := by omega
    have h2 : c0 + j < d.cols := by omega
    simp [readM, view, Mat.slice, hi, hj, h1, h2]

theorem locM_view {d : Mat ℕ} {r0 r1 c0 c1 a : ℕ} (h : a ∈ locM (view d r0 r1 c0 c1)) :
    ∃ i j, r0 ≤ i ∧ i < r1 ∧ i < d.rows ∧ c0 ≤ j ∧ j < c1 ∧ j < d.cols ∧ d.get i j = a := by
  obtain ⟨i, hi, j, hj, e⟩ := mem_locM.1 h
  simp only [view, Mat.rows_ofFn, Mat.cols_ofFn] at hi hj
  simp only [view, Mat.get_ofFn, hi, hj, and_self, if_true] at e
  exact ⟨r0 + i, c0 + j, by omega, by omega, by omega, by omega, by omega, by omega, e⟩
theorem locM_view_sub {d : Mat ℕ} {r0 r1 c0 c1 a : ℕ} (h : a ∈ locM (view d r0 r1 c0 c1)) : a ∈ locM d := by
  obtain ⟨i, j, _, _, hi, _, _, hj, e⟩ := locM_view h
  exact mem_locM.2 ⟨i, hi, j, hj, e⟩
theorem nodup_view {d : Mat ℕ} (h : (locM d).Nodup) (r0 r1 c0 c1 : ℕ) : (locM (view d r0 r1 c0 c1)).Nodup := by
  rw [nodup_locM] at h ⊢
  intro i hi j hj i' hi' j' hj' e
  simp only [view, Mat.rows_ofFn, Mat.cols_ofFn] at hi hj hi' hj'
  simp only [view, Mat.get_ofFn, hi, hj, hi', hj', and_self, if_true] at e
  have := h _ (by omega) _ (by omega) _ (by omega) _ (by omega) e
  omega
/-- views of different rows are disjoint -/
theorem disjoint_view_rows {d : Mat ℕ} (h : (locM d).Nodup) {r0 r1 c0 c1 r0' r1' c0' c1' : ℕ} (hr : r1 ≤ r0') :
    (locM (view d r0 r1 c0 c1)).Disjoint (locM (view d r0' r1' c0' c1')) := by
  rw [nodup_locM] at h
  intro a ha hb
  obtain ⟨i, j, _, _, hi, _, _, hj, e⟩ := locM_view ha
  obtain ⟨i', j', _, _, hi', _, _, hj', e'⟩ := locM_view hb
  have := h i hi j hj i' hi' j' hj' (e.trans e'.symm)
  omega

/-! ### new memory -/

/-- `m'` differs from `m` by newly allocated memory only -/
structure Ext (m m' : Mem α) : Prop where
  le : m.next ≤ m'.next
  val : ∀ a < m.next, m'.val a = m.val a

theorem Ext.refl (m : Mem α) : Ext m m := ⟨le_rfl, fun _ _ => rfl⟩
theorem Ext.trans {a b c : Mem α} (h : Ext a b) (h' : Ext b c) : Ext a c :=
  ⟨h.le.trans h'.le, fun x hx => (h'.val x (lt_of_lt_of_le hx h.le)).trans (h.val x hx)⟩

/-- the addresses `l` are pairwise distinct and were allocated between `n` and `n'` -/
structure Fresh (n n' : ℕ) (l : List ℕ) : Prop where
  nodup : l.Nodup
  mem : ∀ a ∈ l, n ≤ a ∧ a < n'

theorem Fresh.append {n n' n'' : ℕ} {l l' : List ℕ} (h : Fresh n n' l) (h' : Fresh n' n'' l') (hn : n ≤ n') (hn' : n' ≤ n'') :
    Fresh n n'' (l ++ l') :=
  ⟨List.Nodup.append h.nodup h'.nodup fun a ha hb => by have := h.mem a ha; have := h'.mem a hb; omega,
   fun a ha => by
    rcases List.mem_append.1 ha with ha | ha
    · have := h.mem a ha; omega
    · have := h'.mem a ha; omega⟩
theorem Fresh.swap {n n' : ℕ} {l l' : List ℕ} (h : Fresh n n' (l ++ l')) : Fresh n n' (l' ++ l) :=
  ⟨List.nodup_append_comm.1 h.nodup, fun a ha => h.mem a (by simpa [or_comm] using ha)⟩

theorem newV_spec (v : Vec α) (m : Mem α) : ∃ d m', newV v m = (.ok d, m') ∧ Ext m m' ∧ m'.readV d = v ∧
    Fresh m.next m'.next (locV d) := by
  refine ⟨_, _, rfl, ⟨Nat.le_add_right _ _, fun a ha => if_neg (by omega)⟩, ?_, ?_, ?_⟩
  · refine Vec.ext' rfl fun i hi => ?_
    simp only [readV, Vec.len_ofFn] at hi
    simp [readV, hi]
  · rw [nodup_locV]; intro i hi i' hi' e
    simp only [Vec.len_ofFn] at hi hi'
    simp only [Vec.get_ofFn, hi, hi', if_true] at e
    omega
  · intro a ha
    obtain ⟨i, hi, e⟩ := mem_locV.1 ha
    simp only [Vec.len_ofFn] at hi
    simp only [Vec.get_ofFn, hi, if_true] at e
    dsimp only; omega

theorem newM_spec (v : Mat α) (m : Mem α) : ∃ d m', newM v m = (.ok d, m') ∧ Ext m m' ∧ m'.readM d = v ∧
    d.rows = v.rows ∧ d.cols = v.cols ∧ Fresh m.next m'.next (locM d) := by
  have key : ∀ i < v.rows, ∀ j < v.cols, i * v.cols + j < v.rows * v.cols := fun i hi j hj => by
    calc i * v.cols + j < i * v.cols + v.cols := by omega
      _ = (i + 1) * v.cols := by ring
      _ ≤ v.rows * v.cols := Nat.mul_le_mul_right _ hi
  have div : ∀ i, ∀ j < v.cols, (i * v.cols + j) / v.cols = i := fun i j hj => by
    rw [Nat.add_comm, Nat.add_mul_div_right _ _ (by omega), Nat.div_eq_of_lt hj, zero_add]
  have mod : ∀ i, ∀ j < v.cols, (i * v.cols + j) % v.cols = j := fun i j hj => by
    rw [Nat.add_comm, Nat.add_mul_mod_self_right, Nat.mod_eq_of_lt hj]
  refine ⟨_, _, rfl, ⟨Nat.le_add_right _ _, fun a ha => if_neg (by omega)⟩, ?_, rfl, rfl, ?_, ?_⟩
  · refine Mat.ext' rfl rfl fun i hi j hj => ?_
    simp only [readM, Mat.rows_ofFn, Mat.cols_ofFn] at hi hj
    have := key i hi j hj
    simp [readM, hi, hj, this, div i j hj, mod i j hj]
  · rw [nodup_locM]; intro i hi j hj i' hi' j' hj' e
    simp only [Mat.rows_ofFn, Mat.cols_ofFn] at hi hj hi' hj'
    simp only [Mat.get_ofFn, hi, hi', hj, hj', and_self, if_true] at e
    have e : i * v.cols + j = i' * v.cols + j' := by omega
    exact ⟨by rw [← div i j hj, e, div i' j' hj'], by rw [← mod i j hj, e, mod i' j' hj']⟩
  · intro a ha
    obtain ⟨i, hi, j, hj, e⟩ := mem_locM.1 ha
    simp only [Mat.rows_ofFn, Mat.cols_ofFn] at hi hj
    simp only [Mat.get_ofFn, hi, hj, and_self, if_true] at e
    have := key i hi j hj
    dsimp only; omega

theorem newT_spec (v : T3 α) (m : Mem α) : ∃ d m', newT v m = (.ok d, m') ∧ Ext m m' ∧ m'.readT d = v ∧
    Fresh m.next m'.next (locT d) := by
  have key : ∀ i < v.d1, ∀ j < v.d2, i * v.d2 + j < v.d1 * v.d2 := fun i hi j hj => by
    calc i * v.d2 + j < i * v.d2 + v.d2 := by omega
      _ = (i + 1) * v.d2 := by ring
      _ ≤ v.d1 * v.d2 := Nat.mul_le_mul_right _ hi
  have div : ∀ i, ∀ j < v.d2, (i * v.d2 + j) / v.d2 = i := fun i j hj => by
    rw [Nat.add_comm, Nat.add_mul_div_right _ _ (by omega), Nat.div_eq_of_lt hj, zero_add]
  have mod : ∀ i, ∀ j < v.d2, (i * v.d2 + j) % v.d2 = j := fun i j hj => by
    rw [Nat.add_comm, Nat.add_mul_mod_self_right, Nat.mod_eq_of_lt hj]
  set B := v.d1 * v.d2 with hB
  have key2 : ∀ n < v.d0, ∀ x < B, n * B + x < v.d0 * B := fun i hi j hj => by
    calc i * B + j < i * B + B := by omega
      _ = (i + 1) * B := by ring
      _ ≤ v.d0 * B := Nat.mul_le_mul_right _ hi
  have div2 : ∀ i, ∀ j < B, (i * B + j) / B = i := fun i j hj => by
    rw [Nat.add_comm, Nat.add_mul_div_right _ _ (by omega), Nat.div_eq_of_lt hj, zero_add]
  have mod2 : ∀ i, ∀ j < B, (i * B + j) % B = j := fun i j hj => by
    rw [Nat.add_comm, Nat.add_mul_mod_self_right, Nat.mod_eq_of_lt hj]
  refine ⟨_, _, rfl, ⟨Nat.le_add_right _ _, fun a ha => if_neg (by omega)⟩, ?_, ?_, ?_⟩
  · refine T3.ext' rfl rfl rfl fun n hn i hi j hj => ?_
    simp only [readT, T3.ofFn] at hn hi hj
    have h1 := key i hi j hj
    have h2 := key2 n hn _ h1
    have h3 : m.next + (n * B + (i * v.d2 + j)) - m.next = n * B + (i * v.d2 + j) := by omega
    simp only [readT, T3.ofFn, hn, hi, hj, and_self, if_true, ← hB, h3, div2 n _ h1, mod2 n _ h1, div i j hj, mod i j hj]
    rw [if_pos ⟨by omega, by omega⟩]
  · rw [nodup_locT]; intro n hn i hi j hj n' hn' i' hi' j' hj' e
    simp only [T3.ofFn] at hn hi hj hn' hi' hj'
    simp only [T3.ofFn, hn, hn', hi, hi', hj, hj', and_self, if_true, ← hB] at e
    have e : n * B + (i * v.d2 + j) = n' * B + (i' * v.d2 + j') := by omega
    have h1 := key i hi j hj
    have h1' := key i' hi' j' hj'
    have e1 : n = n' := by rw [← div2 n _ h1, e, div2 n' _ h1']
    have e2 : i * v.d2 + j = i' * v.d2 + j' := by rw [← mod2 n _ h1, e, mod2 n' _ h1']
    exact ⟨e1, by rw [← div i j hj, e2, div i' j' hj'], by rw [← mod i j hj, e2, mod i' j' hj']⟩
  · intro a ha
    obtain ⟨n, hn, i, hi, j, hj, e⟩ := mem_locT.1 ha
    simp only [T3.ofFn] at hn hi hj
    simp only [T3.ofFn, hn, hi, hj, and_self, if_true, ← hB] at e
    have := key2 n hn _ (key i hi j hj)
    dsimp only; rw [← hB]; omega

theorem Ext.readV {m m' : Mem α} (h : Ext m m') {d : Vec ℕ} (hl : ∀ a ∈ locV d, a < m.next) : m'.readV d = m.readV d :=
  readV_congr fun a ha => h.val a (hl a ha)
theorem Ext.readM {m m' : Mem α} (h : Ext m m') {d : Mat ℕ} (hl : ∀ a ∈ locM d, a < m.next) : m'.readM d = m.readM d :=
  readM_congr fun a ha => h.val a (hl a ha)
theorem Ext.readT {m m' : Mem α} (h : Ext m m') {d : T3 ℕ} (hl : ∀ a ∈ locT d, a < m.next) : m'.readT d = m.readT d :=
  readT_congr fun a ha => h.val a (hl a ha)
theorem Ext.read {m m' : Mem α} (h : Ext m m') {K : SM ℕ} (hl : ∀ a ∈ loc K, a < m.next) : m'.read K = m.read K :=
  read_congr fun a ha => h.val a (hl a ha)

theorem new_spec : ∀ (X : SM α) (m : Mem α), ∃ r m', new X m = (.ok r, m') ∧ Ext m m' ∧ m'.read r = X ∧
    Fresh m.next m'.next (loc r)
  | .dense x, m => by
    obtain ⟨d, m', e, he, hr, _, _, hf⟩ := newM_spec x m
    exact ⟨.dense d, m', by simp only [new]; rw [Py.bind_ok e]; rfl, he, by simp only [Mem.read, hr], hf⟩
  | .diagonal x, m => by
    obtain ⟨d, m', e, he, hr, hf⟩ := newV_spec x m
    exact ⟨.diagonal d, m', by simp only [new]; rw [Py.bind_ok e]; rfl, he, by simp only [Mem.read, hr], hf⟩
  | .tril x, m => by
    obtain ⟨d, m', e, he, hr, hf⟩ := newV_spec x m
    exact ⟨.tril d, m', by simp only [new]; rw [Py.bind_ok e]; rfl, he, by simp only [Mem.read, hr], hf⟩
  | .triu x, m => by
    obtain ⟨d, m', e, he, hr, hf⟩ := newV_spec x m
    exact ⟨.triu d, m', by simp only [new]; rw [Py.bind_ok e]; rfl, he, by simp only [Mem.read, hr], hf⟩
  | .block b, m => by
    obtain ⟨d, m1, e1, x1, r1, f1⟩ := newT_spec b.blocks m
    obtain ⟨l, m2, e2, x2, r2, _, _, f2⟩ := newM_spec b.last m1
    refine ⟨.block ⟨b.D, d, l⟩, m2, by simp only [new]; rw [Py.bind_ok e1, Py.bind_ok e2]; rfl, x1.trans x2, ?_,
      f1.append f2 x1.le x2.le⟩
    simp only [Mem.read, r2, x2.readT fun a ha => (f1.mem a ha).2, r1]
  | .hier h, m => by
    obtain ⟨A, m1, e1, x1, r1, _, _, f1⟩ := newM_spec h.A m
    obtain ⟨B, m2, e2, x2, r2, _, _, f2⟩ := newM_spec h.B m1
    obtain ⟨C, m3, e3, x3, r3, f3⟩ := newV_spec h.C m2
    obtain ⟨D, m4, e4, x4, r4, _, _, f4⟩ := newM_spec h.D m3
    obtain ⟨E, m5, e5, x5, r5, _, _, f5⟩ := newM_spec h.E m4
    refine ⟨.hier ⟨h.max1, h.max2, A, B, C, D, E⟩, m5, by
      simp only [new]; rw [Py.bind_ok e1, Py.bind_ok e2, Py.bind_ok e3, Py.bind_ok e4, Py.bind_ok e5]; rfl,
      x1.trans (x2.trans (x3.trans (x4.trans x5))), ?_, ?_⟩
    · have x35 := x4.trans x5
      have x25 := x3.trans x35
      have x15 := x2.trans x25
      simp only [Mem.read, r5, x5.readM fun a ha => (f4.mem a ha).2, r4, x35.readV fun a ha => (f3.mem a ha).2, r3,
        x25.readM fun a ha => (f2.mem a ha).2, r2, x15.readM fun a ha => (f1.mem a ha).2, r1]
    · have l12 := x1.le.trans x2.le
      have l13 := l12.trans x3.le
      have l14 := l13.trans x4.le
      exact (((f1.append f2 x1.le x2.le).append f3 l12 x3.le).append f4 l13 x4.le).append f5 l14 x5.le
  | .topRight a c ca cc A B C, m => by
    obtain ⟨A', m1, e1, x1, r1, f1⟩ := new_spec A m
    obtain ⟨B', m2, e2, x2, r2, _, _, f2⟩ := newM_spec B m1
    obtain ⟨C', m3, e3, x3, r3, f3⟩ := new_spec C m2
    refine ⟨.topRight a c ca cc A' B' C', m3, by
      simp only [new]; rw [Py.bind_ok e1, Py.bind_ok e2, Py.bind_ok e3]; rfl, x1.trans (x2.trans x3), ?_,
      (f1.append f2 x1.le x2.le).swap.append f3 (x1.le.trans x2.le) x3.le⟩
    simp only [Mem.read, r3, x3.readM fun a ha => (f2.mem a ha).2, r2, (x2.trans x3).read fun a ha => (f1.mem a ha).2, r1]
  | .bottomLeft a c ca cc A B C, m => by
    obtain ⟨A', m1, e1, x1, r1, f1⟩ := new_spec A m
    obtain ⟨B', m2, e2, x2, r2, _, _, f2⟩ := newM_spec B m1
    obtain ⟨C', m3, e3, x3, r3, f3⟩ := new_spec C m2
    refine ⟨.bottomLeft a c ca cc A' B' C', m3, by
      simp only [new]; rw [Py.bind_ok e1, Py.bind_ok e2, Py.bind_ok e3]; rfl, x1.trans (x2.trans x3), ?_,
      (f1.append f2 x1.le x2.le).swap.append f3 (x1.le.trans x2.le) x3.le⟩
    simp only [Mem.read, r3, x3.readM fun a ha => (f2.mem a ha).2, r2, (x2.trans x3).read fun a ha => (f1.mem a ha).2, r1]

/-! ### `from_dense` -/

/-- what `from_dense` promises: the value, and memory that is either that of `d` or new -/
structure Made (m m' : Mem α) (l : List ℕ) (r : SM ℕ) (X : SM α) : Prop where
  ext : Ext m m'
  read : m'.read r = X
  nodup : (loc r).Nodup
  mem : ∀ a ∈ loc r, a ∈ l ∨ (m.next ≤ a ∧ a < m'.next)

theorem block_fromDense_inv {D : ℕ} {d : Mat α} {b : BlockDiag α} (h : BlockDiag.fromDense D d = .ok b) :
    b.D = D ∧ b.last = d.slice (d.rows / D * D) d.rows (d.rows / D * D) d.cols := by
  simp only [BlockDiag.fromDense, BlockDiag.init] at h
  split at h
  · cases h
  split at h
  · cases h
  split at h
  · cases h
  split at h
  · cases h
  split at h
  · cases h
  cases h; exact ⟨rfl, rfl⟩

theorem hier_fromDense_inv {a b : ℕ} {d : Mat α} {h : Hier α} (e : Hier.fromDense a b d = .ok h) :
    h.max1 = a ∧ h.max2 = b ∧ h.A = d.slice 0 (Hier.blockDims a b d.rows).1 0 (Hier.blockDims a b d.rows).1 ∧
    h.E = d.slice ((Hier.blockDims a b d.rows).1 + (Hier.blockDims a b d.rows).2.1) d.rows
      ((Hier.blockDims a b d.rows).1 + (Hier.blockDims a b d.rows).2.1) d.cols := by
  simp only [Hier.fromDense, Hier.init] at e
  split at e
  · cases e
  split at e
  · cases e
  split at e
  · cases e
  split at e
  · cases e
  split at e
  · cases e
  split at e
  · cases e
  cases e; exact ⟨rfl, rfl, rfl, rfl⟩

theorem initTopRight_inv {a c : MaxDim} {ca cc : Cls} {A C X : SM α} {B : Mat α} (h : SM.initTopRight a c ca cc A B C = .ok X) :
    X = .topRight a c ca cc A B C := by
  simp only [SM.initTopRight] at h
  split at h
  · cases h
  split at h
  · cases h
  split at h
  · cases h
  split at h
  · cases h
  cases h; rfl
theorem initBottomLeft_inv {a c : MaxDim} {ca cc : Cls} {A C X : SM α} {B : Mat α}
    (h : SM.initBottomLeft a c ca cc A B C = .ok X) : X = .bottomLeft a c ca cc A B C := by
  simp only [SM.initBottomLeft] at h
  split at h
  · cases h
  split at h
  · cases h
  split at h
  · cases h
  split at h
  · cases h
  cases h; rfl

theorem get_bind {σ γ : Type} (f : σ → Py σ γ) (s : σ) : (Py.get >>= f) s = f s s := rfl
theorem lift_bind {σ β γ : Type} {x : Except PyErr β} {b : β} (h : x = .ok b) (f : β → Py σ γ) (s : σ) :
    (Py.lift x >>= f) s = f b s := by subst h; rfl
theorem modify_bind {σ γ : Type} (g : σ → σ) (f : Unit → Py σ γ) (s : σ) : (Py.modify g >>= f) s = f () (g s) := rfl

theorem fromDense_spec : ∀ (c : Cls) (d : Mat ℕ) (m : Mem α) (X : SM α), (locM d).Nodup → (∀ a ∈ locM d, a < m.next) →
    SM.fromDense c (m.readM d) = .ok X → ∃ r m', fromDense c d m = (.ok r, m') ∧ Made m m' (locM d) r X
  | .dense, d, m, X, hd, hl, h => by
    simp only [SM.fromDense] at h
    cases h
    exact ⟨.dense d, m, rfl, Ext.refl m, rfl, hd, fun a ha => .inl ha⟩
  | .diagonal, d, m, X, hd, hl, h => by
    obtain ⟨v, e, h⟩ := IOProof.Except.bind_eq_ok h
    cases h
    obtain ⟨r, m', e', x, hr, f⟩ := newV_spec v m
    exact ⟨.diagonal r, m', by simp only [fromDense]; rw [get_bind, lift_bind e, Py.bind_ok e']; rfl, x,
      by simp only [Mem.read, hr], f.nodup, fun a ha => .inr (f.mem a ha)⟩
  | .tril, d, m, X, hd, hl, h => by
    obtain ⟨v, e, h⟩ := IOProof.Except.bind_eq_ok h
    cases h
    obtain ⟨r, m', e', x, hr, f⟩ := newV_spec v m
    exact ⟨.tril r, m', by simp only [fromDense]; rw [get_bind, lift_bind e, Py.bind_ok e']; rfl, x,
      by simp only [Mem.read, hr], f.nodup, fun a ha => .inr (f.mem a ha)⟩
  | .triu, d, m, X, hd, hl, h => by
    obtain ⟨v, e, h⟩ := IOProof.Except.bind_eq_ok h
    cases h
    obtain ⟨r, m', e', x, hr, f⟩ := newV_spec v m
    exact ⟨.triu r, m', by simp only [fromDense]; rw [get_bind, lift_bind e, Py.bind_ok e']; rfl, x,
      by simp only [Mem.read, hr], f.nodup, fun a ha => .inr (f.mem a ha)⟩
  | .block D, d, m, X, hd, hl, h => by
    obtain ⟨b, e, h⟩ := IOProof.Except.bind_eq_ok h
    cases h
    obtain ⟨hD, hlast⟩ := block_fromDense_inv e
    obtain ⟨r, m', e', x, hr, f⟩ := newT_spec b.blocks m
    refine ⟨_, m', by simp only [fromDense]; rw [get_bind, lift_bind e, Py.bind_ok e']; rfl, x, ?_, ?_, ?_⟩
    · obtain ⟨D', bs, l⟩ := b
      simp only at hD hlast hr
      subst hD
      simp only [Mem.read, hr, SM.block.injEq, BlockDiag.mk.injEq, true_and]
      rw [readM_view, x.readM hl, hlast]; rfl
    · refine List.Nodup.append f.nodup (nodup_view hd _ _ _ _) fun a ha hb => ?_
      have := (f.mem a ha).1; have := hl a (locM_view_sub hb); omega
    · intro a ha
      rcases List.mem_append.1 ha with ha | ha
      · exact .inr (f.mem a ha)
      · exact .inl (locM_view_sub ha)
  | .hier p q, d, m, X, hd, hl, h => by
    obtain ⟨b, e, h⟩ := IOProof.Except.bind_eq_ok h
    cases h
    obtain ⟨h1, h2, hA, hE⟩ := hier_fromDense_inv e
    obtain ⟨B, m1, e1, x1, r1, _, _, f1⟩ := newM_spec b.B m
    obtain ⟨C, m2, e2, x2, r2, f2⟩ := newV_spec b.C m1
    obtain ⟨D, m3, e3, x3, r3, _, _, f3⟩ := newM_spec b.D m2
    have x23 := x2.trans x3
    have x13 := x1.trans x23
    have f := (f1.append f2 x1.le x2.le).append f3 (x1.le.trans x2.le) x3.le
    refine ⟨_, m3, by
      simp only [fromDense]; rw [get_bind, lift_bind e]; rw [Py.bind_ok e1, Py.bind_ok e2, Py.bind_ok e3]; rfl,
      x13, ?_, ?_, ?_⟩
    · obtain ⟨p', q', A0, B0, C0, D0, E0⟩ := b
      simp only at h1 h2 hA hE r1 r2 r3
      subst h1; subst h2
      simp only [Mem.read, r3, x3.readV fun a ha => (f2.mem a ha).2, r2, x23.readM fun a ha => (f1.mem a ha).2, r1,
        SM.hier.injEq, Hier.mk.injEq, true_and]
      refine ⟨?_, ?_⟩
      · rw [readM_view, x13.readM hl, hA]; rfl
      · rw [readM_view, x13.readM hl, hE]; rfl
    · have hne : ∀ a ∈ locM d, ∀ b ∈ locM B ++ locV C ++ locM D, a ≠ b := fun a ha b hb => by
        have := hl a ha; have := (f.mem b hb).1; omega
      have key : (locM (view d 0 (Hier.blockDims p q d.rows).1 0 (Hier.blockDims p q d.rows).1)).Disjoint
          (locM (view d ((Hier.blockDims p q d.rows).1 + (Hier.blockDims p q d.rows).2.1) d.rows
            ((Hier.blockDims p q d.rows).1 + (Hier.blockDims p q d.rows).2.1) d.cols)) :=
        disjoint_view_rows hd (by omega)
      have hn : (locM (view d 0 (Hier.blockDims p q d.rows).1 0 (Hier.blockDims p q d.rows).1) ++
          (locM B ++ locV C ++ locM D)).Nodup :=
        List.Nodup.append (nodup_view hd _ _ _ _) f.nodup fun a ha hb => hne a (locM_view_sub ha) a hb rfl
      simp only [loc]
      refine List.Nodup.append (by simpa only [List.append_assoc] using hn) (nodup_view hd _ _ _ _) fun a ha hb => ?_
      simp only [List.mem_append] at ha
      rcases ha with ((ha | ha) | ha) | ha
      · exact key ha hb
      · exact hne a (locM_view_sub hb) a (by simp [ha]) rfl
      · exact hne a (locM_view_sub hb) a (by simp [ha]) rfl
      · exact hne a (locM_view_sub hb) a (by simp [ha]) rfl
    · intro a ha
      simp only [loc, List.mem_append] at ha
      rcases ha with (((ha | ha) | ha) | ha) | ha
      · exact .inl (locM_view_sub ha)
      · exact .inr (f.mem a (by simp [ha]))
      · exact .inr (f.mem a (by simp [ha]))
      · exact .inr (f.mem a (by simp [ha]))
      · exact .inl (locM_view_sub ha)
  | .topRight maxA maxC clsA clsC, d, m, X, hd, hl, h => by
    have hsq : d.rows = d.cols := by
      by_contra hne
      rw [SM.fromDense, if_pos (by simpa [readM] using hne)] at h; cases h
    rw [SM.fromDense, if_neg (by simpa [readM] using hsq)] at h
    obtain ⟨b, eb, h⟩ := IOProof.Except.bind_eq_ok h
    obtain ⟨A, eA, h⟩ := IOProof.Except.bind_eq_ok h
    obtain ⟨B, eB, h⟩ := IOProof.Except.bind_eq_ok h
    obtain ⟨C, eC, h⟩ := IOProof.Except.bind_eq_ok h
    cases initTopRight_inv h
    change getBoundary d.rows maxA maxC = .ok b at eb
    change Mat.add? ((m.readM d).slice 0 b b d.cols) ((m.readM d).slice b d.rows 0 b).T = .ok B at eB
    change SM.fromDense clsC ((m.readM d).slice b d.rows b d.cols) = .ok C at eC
    obtain ⟨A', m1, e1, M1⟩ := fromDense_spec clsA (view d 0 b 0 b) m A (nodup_view hd _ _ _ _)
      (fun a ha => hl a (locM_view_sub ha)) (by rw [readM_view]; exact eA)
    obtain ⟨B', m2, e2, x2, r2, _, _, f2⟩ := newM_spec B m1
    have x12 := M1.ext.trans x2
    obtain ⟨C', m3, e3, M3⟩ := fromDense_spec clsC (view d b d.rows b d.cols) m2 C (nodup_view hd _ _ _ _)
      (fun a ha => lt_of_lt_of_le (hl a (locM_view_sub ha)) x12.le) (by rw [readM_view, x12.readM hl]; exact eC)
    have hA3 : m3.read A' = A := by
      rw [(x2.trans M3.ext).read (fun a ha => ?_), M1.read]
      rcases M1.mem a ha with ha | ha
      · exact lt_of_lt_of_le (hl a (locM_view_sub ha)) M1.ext.le
      · exact ha.2
    have hB3 : m3.readM B' = B := by rw [M3.ext.readM fun a ha => (f2.mem a ha).2, r2]
    refine ⟨.topRight maxA maxC clsA clsC A' B' C', m3, ?_, x12.trans M3.ext, ?_, ?_, ?_⟩
    · simp only [fromDense]
      rw [if_neg (by simpa using hsq), lift_bind eb, Py.bind_ok e1, get_bind, lift_bind (b := B), Py.bind_ok e2, Py.bind_ok e3,
        get_bind, lift_bind (b := .topRight maxA maxC clsA clsC A B C)]
      · rfl
      · rw [hA3, hB3, M3.read]; exact h
      · rw [readM_view, readM_view, M1.ext.readM hl]; exact eB
    · simp only [Mem.read, hA3, hB3, M3.read]
    · have dAC : (locM (view d 0 b 0 b)).Disjoint (locM (view d b d.rows b d.cols)) := disjoint_view_rows hd le_rfl
      simp only [loc]
      have l1 := M1.ext.le; have l2 := x2.le
      refine List.Nodup.append (List.Nodup.append f2.nodup M1.nodup fun a ha hb => ?_) M3.nodup fun a ha hb => ?_
      · have := f2.mem a ha
        rcases M1.mem a hb with hb | hb
        · have := hl a (locM_view_sub hb); omega
        · omega
      · rcases List.mem_append.1 ha with ha | ha
        · have := f2.mem a ha
          rcases M3.mem a hb with hb | hb
          · have := hl a (locM_view_sub hb); omega
          · omega
        · rcases M1.mem a ha with ha | ha <;> rcases M3.mem a hb with hb | hb
          · exact dAC ha hb
          · have := hl a (locM_view_sub ha); omega
          · have := hl a (locM_view_sub hb); omega
          · omega
    · have l1 := M1.ext.le; have l2 := x2.le; have l3 := M3.ext.le
      intro a ha
      simp only [loc, List.mem_append] at ha
      rcases ha with (ha | ha) | ha
      · have := f2.mem a ha; exact .inr (by omega)
      · rcases M1.mem a ha with ha | ha
        · exact .inl (locM_view_sub ha)
        · exact .inr (by omega)
      · rcases M3.mem a ha with ha | ha
        · exact .inl (locM_view_sub ha)
        · exact .inr (by omega)
  | .bottomLeft maxA maxC clsA clsC, d, m, X, hd, hl, h => by
    have hsq : d.rows = d.cols := by
      by_contra hne
      rw [SM.fromDense, if_pos (by simpa [readM] using hne)] at h; cases h
    rw [SM.fromDense, if_neg (by simpa [readM] using hsq)] at h
    obtain ⟨b, eb, h⟩ := IOProof.Except.bind_eq_ok h
    obtain ⟨A, eA, h⟩ := IOProof.Except.bind_eq_ok h
    obtain ⟨B, eB, h⟩ := IOProof.Except.bind_eq_ok h
    obtain ⟨C, eC, h⟩ := IOProof.Except.bind_eq_ok h
    cases initBottomLeft_inv h
    change getBoundary d.rows maxA maxC = .ok b at eb
    change Mat.add? ((m.readM d).slice b d.rows 0 b) ((m.readM d).slice 0 b b d.cols).T = .ok B at eB
    change SM.fromDense clsC ((m.readM d).slice b d.rows b d.cols) = .ok C at eC
    obtain ⟨A', m1, e1, M1⟩ := fromDense_spec clsA (view d 0 b 0 b) m A (nodup_view hd _ _ _ _)
      (fun a ha => hl a (locM_view_sub ha)) (by rw [readM_view]; exact eA)
    obtain ⟨B', m2, e2, x2, r2, _, _, f2⟩ := newM_spec B m1
    have x12 := M1.ext.trans x2
    obtain ⟨C', m3, e3, M3⟩ := fromDense_spec clsC (view d b d.rows b d.cols) m2 C (nodup_view hd _ _ _ _)
      (fun a ha => lt_of_lt_of_le (hl a (locM_view_sub ha)) x12.le) (by rw [readM_view, x12.readM hl]; exact eC)
    have hA3 : m3.read A' = A := by
      rw [(x2.trans M3.ext).read (fun a ha => ?_), M1.read]
      rcases M1.mem a ha with ha | ha
      · exact lt_of_lt_of_le (hl a (locM_view_sub ha)) M1.ext.le
      · exact ha.2
    have hB3 : m3.readM B' = B := by rw [M3.ext.readM fun a ha => (f2.mem a ha).2, r2]
    refine ⟨.bottomLeft maxA maxC clsA clsC A' B' C', m3, ?_, x12.trans M3.ext, ?_, ?_, ?_⟩
    · simp only [fromDense]
      rw [if_neg (by simpa using hsq), lift_bind eb, Py.bind_ok e1, get_bind, lift_bind (b := B), Py.bind_ok e2, Py.bind_ok e3,
        get_bind, lift_bind (b := .bottomLeft maxA maxC clsA clsC A B C)]
      · rfl
      · rw [hA3, hB3, M3.read]; exact h
      · rw [readM_view, readM_view, M1.ext.readM hl]; exact eB
    · simp only [Mem.read, hA3, hB3, M3.read]
    · have dAC : (locM (view d 0 b 0 b)).Disjoint (locM (view d b d.rows b d.cols)) := disjoint_view_rows hd le_rfl
      simp only [loc]
      have l1 := M1.ext.le; have l2 := x2.le
      refine List.Nodup.append (List.Nodup.append f2.nodup M1.nodup fun a ha hb => ?_) M3.nodup fun a ha hb => ?_
      · have := f2.mem a ha
        rcases M1.mem a hb with hb | hb
        · have := hl a (locM_view_sub hb); omega
        · omega
      · rcases List.mem_append.1 ha with ha | ha
        · have := f2.mem a ha
          rcases M3.mem a hb with hb | hb
          · have := hl a (locM_view_sub hb); omega
          · omega
        · rcases M1.mem a ha with ha | ha <;> rcases M3.mem a hb with hb | hb
          · exact dAC ha hb
          · have := hl a (locM_view_sub ha); omega
          · have := hl a (locM_view_sub hb); omega
          · omega
    · have l1 := M1.ext.le; have l2 := x2.le; have l3 := M3.ext.le
      intro a ha
      simp only [loc, List.mem_append] at ha
      rcases ha with (ha | ha) | ha
      · have := f2.mem a ha; exact .inr (by omega)
      · rcases M1.mem a ha with ha | ha
        · exact .inl (locM_view_sub ha)
        · exact .inr (by omega)
      · rcases M3.mem a ha with ha | ha
        · exact .inl (locM_view_sub ha)
        · exact .inr (by omega)

end Mem
