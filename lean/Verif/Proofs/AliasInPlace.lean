import Verif.Proofs.Alias

/-! In-place operations: they write to the memory of their object only (whether or not they raise), and they compute what the
value-level operations of `Model/Structured.lean` compute. -/

namespace Mem
variable {α : Type} [Field α]

/-- only the addresses `l` may have been written to; no memory was allocated -/
structure InPlace (l : List ℕ) (m m' : Mem α) : Prop where
  next : m'.next = m.next
  val : ∀ a, a ∉ l → m'.val a = m.val a

namespace InPlace
variable {l l' : List ℕ} {m m' m'' : Mem α}

theorem refl (l : List ℕ) (m : Mem α) : InPlace l m m := ⟨rfl, fun _ _ => rfl⟩
theorem trans (h : InPlace l m m') (h' : InPlace l m' m'') : InPlace l m m'' :=
  ⟨h'.next.trans h.next, fun a ha => (h'.val a ha).trans (h.val a ha)⟩
theorem mono (h : InPlace l m m') (hl : ∀ a ∈ l, a ∈ l') : InPlace l' m m' :=
  ⟨h.next, fun a ha => h.val a fun hb => ha (hl a hb)⟩
theorem readV (h : InPlace l m m') {d : Vec ℕ} (hd : ∀ a ∈ locV d, a ∉ l) : m'.readV d = m.readV d :=
  readV_congr fun a ha => h.val a (hd a ha)
theorem readM (h : InPlace l m m') {d : Mat ℕ} (hd : ∀ a ∈ locM d, a ∉ l) : m'.readM d = m.readM d :=
  readM_congr fun a ha => h.val a (hd a ha)
theorem readT (h : InPlace l m m') {d : T3 ℕ} (hd : ∀ a ∈ locT d, a ∉ l) : m'.readT d = m.readT d :=
  readT_congr fun a ha => h.val a (hd a ha)
theorem read (h : InPlace l m m') {K : SM ℕ} (hd : ∀ a ∈ loc K, a ∉ l) : m'.read K = m.read K :=
  read_congr fun a ha => h.val a (hd a ha)
end InPlace

theorem inPlace_mulAt (l : List ℕ) (s : α) (m : Mem α) : InPlace l m (mulAt l s m) := ⟨rfl, fun _ ha => if_neg ha⟩
theorem inPlace_incAt (l : List ℕ) (s : α) (m : Mem α) : InPlace l m (incAt l s m) := ⟨rfl, fun _ ha => if_neg ha⟩
theorem inPlace_addAt (l l' : List ℕ) (s : α) (m : Mem α) : InPlace l m (addAt l l' s m) :=
  ⟨rfl, fun _ ha => by simp only [addAt, lookup_zip_none ha]⟩

/-! ### one tensor -/

theorem readV_mulAt (d : Vec ℕ) (s : α) (m : Mem α) : (mulAt (locV d) s m).readV d = (m.readV d).smul s :=
  Vec.ext' rfl fun i hi => by
    simp only [readV, Vec.len_ofFn] at hi
    simp only [readV, Vec.get_ofFn, Vec.get_smul, hi, if_true, mulAt, if_pos (mem_locV.2 ⟨i, hi, rfl⟩)]
theorem readM_mulAt (d : Mat ℕ) (s : α) (m : Mem α) : (mulAt (locM d) s m).readM d = (m.readM d).smul s :=
  Mat.ext' rfl rfl fun i hi j hj => by
    simp only [readM, Mat.rows_ofFn, Mat.cols_ofFn] at hi hj
    simp only [readM, Mat.get_ofFn, Mat.get_smul, hi, hj, and_self, if_true, mulAt, if_pos (mem_locM.2 ⟨i, hi, j, hj, rfl⟩)]
theorem readT_mulAt (d : T3 ℕ) (s : α) (m : Mem α) : (mulAt (locT d) s m).readT d = (m.readT d).smul s :=
  T3.ext' rfl rfl rfl fun n hn i hi j hj => by
    simp only [readT, T3.d0_ofFn, T3.d1_ofFn, T3.d2_ofFn] at hn hi hj
    simp only [readT, T3.smul, T3.get_ofFn, T3.d0_ofFn, T3.d1_ofFn, T3.d2_ofFn, hn, hi, hj, and_self, if_true, mulAt,
      if_pos (mem_locT.2 ⟨n, hn, i, hi, j, hj, rfl⟩)]

theorem addV_spec {d e : Vec ℕ} {s : α} {m : Mem α} {X : Vec α} (hd : (locV d).Nodup)
    (h : (m.readV d).add? ((m.readV e).smul s) = .ok X) :
    ∃ m', addV d e s m = (.ok (), m') ∧ InPlace (locV d) m m' ∧ m'.readV d = X := by
  unfold Vec.add? at h
  split at h
  case isFalse => cases h
  case isTrue hl =>
  change d.len = e.len at hl
  cases h
  refine ⟨_, by rw [addV, if_pos hl]; rfl, inPlace_addAt _ _ _ _, ?_⟩
  refine Vec.ext' rfl fun i hi => ?_
  simp only [readV, Vec.len_ofFn] at hi
  have hi' := hi
  rw [hl] at hi'
  have : ((locV d).zip (locV e)).lookup (d.get i) = some (e.get i) := by
    unfold locV at hd ⊢
    rw [← hl]
    exact lookup_zip_map d.get e.get _ hd i (List.mem_range.2 hi)
  simp only [readV, Vec.get_ofFn, Vec.add, Vec.get_smul, Vec.len_ofFn, hi, hi', if_true, addAt, this]
theorem addM_spec {d e : Mat ℕ} {s : α} {m : Mem α} {X : Mat α} (hd : (locM d).Nodup)
    (h : (m.readM d).add? ((m.readM e).smul s) = .ok X) :
    ∃ m', addM d e s m = (.ok (), m') ∧ InPlace (locM d) m m' ∧ m'.readM d = X := by
  unfold Mat.add? at h
  split at h
  case isFalse => cases h
  case isTrue hl =>
  change d.rows = e.rows ∧ d.cols = e.cols at hl
  cases h
  refine ⟨_, by rw [addM, if_pos hl]; rfl, inPlace_addAt _ _ _ _, ?_⟩
  refine Mat.ext' rfl rfl fun i hi j hj => ?_
  simp only [readM, Mat.rows_ofFn, Mat.cols_ofFn] at hi hj
  have hi' := hi
  have hj' := hj
  rw [hl.1] at hi'
  rw [hl.2] at hj'
  have : ((locM d).zip (locM e)).lookup (d.get i j) = some (e.get i j) := by
    unfold locM at hd ⊢
    rw [← hl.1, ← hl.2]
    exact lookup_zip_map (fun p => d.get p.1 p.2) (fun p => e.get p.1 p.2) _ hd (i, j) (mem_rowMajor.2 ⟨hi, hj⟩)
  simp only [readM, Mat.get_ofFn, Mat.add, Mat.get_smul, Mat.rows_ofFn, Mat.cols_ofFn, hi, hi', hj, hj', and_self, if_true,
    addAt, this]
theorem addT_spec {d e : T3 ℕ} {s : α} {m : Mem α} {X : T3 α} (hd : (locT d).Nodup)
    (h : (m.readT d).add? ((m.readT e).smul s) = .ok X) :
    ∃ m', addT d e s m = (.ok (), m') ∧ InPlace (locT d) m m' ∧ m'.readT d = X := by
  unfold T3.add? at h
  split at h
  case isFalse => cases h
  case isTrue hl =>
  change d.d0 = e.d0 ∧ d.d1 = e.d1 ∧ d.d2 = e.d2 at hl
  cases h
  refine ⟨_, by rw [addT, if_pos hl]; rfl, inPlace_addAt _ _ _ _, ?_⟩
  refine T3.ext' rfl rfl rfl fun n hn i hi j hj => ?_
  simp only [readT, T3.d0_ofFn, T3.d1_ofFn, T3.d2_ofFn] at hn hi hj
  have hn' := hn
  have hi' := hi
  have hj' := hj
  rw [hl.1] at hn'
  rw [hl.2.1] at hi'
  rw [hl.2.2] at hj'
  have : ((locT d).zip (locT e)).lookup (d.get n i j) = some (e.get n i j) := by
    rw [locT_eq] at hd ⊢
    rw [locT_eq, ← hl.1, ← hl.2.1, ← hl.2.2]
    exact lookup_zip_map (fun p => d.get p.1 p.2.1 p.2.2) (fun p => e.get p.1 p.2.1 p.2.2) _ hd (n, i, j) (mem_idxT.2 ⟨hn, hi, hj⟩)
  simp only [readT, T3.get_ofFn, T3.add, T3.smul, T3.d0_ofFn, T3.d1_ofFn, T3.d2_ofFn, hn, hn', hi, hi', hj, hj', and_self, if_true,
    addAt, this]

theorem addV_frame (d e : Vec ℕ) (s : α) (m : Mem α) : InPlace (locV d) m (addV d e s m).2 := by
  unfold addV
  split
  · exact inPlace_addAt _ _ _ _
  · exact .refl _ _
theorem addM_frame (d e : Mat ℕ) (s : α) (m : Mem α) : InPlace (locM d) m (addM d e s m).2 := by
  unfold addM
  split
  · exact inPlace_addAt _ _ _ _
  · exact .refl _ _
theorem addT_frame (d e : T3 ℕ) (s : α) (m : Mem α) : InPlace (locT d) m (addT d e s m).2 := by
  unfold addT
  split
  · exact inPlace_addAt _ _ _ _
  · exact .refl _ _

/-! ### whole matrices: what is written to -/

/-- a computation writes to `l` only, however it ends -/
def Writes {β : Type} (l : List ℕ) (x : Py (Mem α) β) : Prop := ∀ m, InPlace l m (x m).2

theorem Writes.bind {β γ : Type} {l : List ℕ} {x : Py (Mem α) β} {f : β → Py (Mem α) γ} (hx : Writes l x) (hf : ∀ b, Writes l (f b)) :
    Writes l (x >>= f) := fun m => by
  rw [Py.bind_run]
  have h := hx m
  rcases hxm : x m with ⟨e | b, m'⟩
  · rw [hxm] at h; exact h
  · rw [hxm] at h; exact h.trans (hf b m')
theorem Writes.mono {β : Type} {l l' : List ℕ} {x : Py (Mem α) β} (hx : Writes l x) (h : ∀ a ∈ l, a ∈ l') : Writes l' x :=
  fun m => (hx m).mono h
theorem Writes.pure {β : Type} (l : List ℕ) (b : β) : Writes (α := α) l (Pure.pure b) := fun m => .refl l m
theorem Writes.mulAt {l l' : List ℕ} (s : α) (h : ∀ a ∈ l, a ∈ l') : Writes l' (Py.modify (mulAt l s)) :=
  fun m => (inPlace_mulAt l s m).mono h
theorem Writes.incAt {l l' : List ℕ} (s : α) (h : ∀ a ∈ l, a ∈ l') : Writes l' (Py.modify (incAt l s)) :=
  fun m => (inPlace_incAt l s m).mono h

theorem mul_writes : ∀ (K : SM ℕ) (s : α), Writes (loc K) (mul_ K s)
  | .dense d, s => .mulAt s fun _ => id
  | .diagonal d, s => .mulAt s fun _ => id
  | .block b, s => .bind (.mulAt s fun a h => by simp [loc, h]) fun _ => .mulAt s fun a h => by simp [loc, h]
  | .hier h, s => .bind (.mulAt s fun a h => by simp [loc, h]) fun _ => .bind (.mulAt s fun a h => by simp [loc, h]) fun _ =>
      .bind (.mulAt s fun a h => by simp [loc, h]) fun _ => .bind (.mulAt s fun a h => by simp [loc, h]) fun _ =>
      .mulAt s fun a h => by simp [loc, h]
  | .tril d, s => .mulAt s fun _ => id
  | .triu d, s => .mulAt s fun _ => id
  | .topRight _ _ _ _ A B C, s => .bind (.mulAt s fun a h => by simp [loc, h]) fun _ =>
      .bind ((mul_writes A s).mono fun a h => by simp [loc, h]) fun _ => (mul_writes C s).mono fun a h => by simp [loc, h]
  | .bottomLeft _ _ _ _ A B C, s => .bind (.mulAt s fun a h => by simp [loc, h]) fun _ =>
      .bind ((mul_writes A s).mono fun a h => by simp [loc, h]) fun _ => (mul_writes C s).mono fun a h => by simp [loc, h]

theorem add_writes (K L : SM ℕ) (s : α) : Writes (loc K) (add_ K L s) := by
  induction K, L, s using add_.induct with
  | case1 d e s => exact fun m => addM_frame d e s m
  | case2 d e s => exact fun m => addV_frame d e s m
  | case3 b c s =>
    exact .bind (fun m => (addT_frame _ _ s m).mono fun a h => by simp [loc, h]) fun _ m =>
      (addM_frame _ _ s m).mono fun a h => by simp [loc, h]
  | case4 h o s =>
    exact .bind (fun m => (addM_frame _ _ s m).mono fun a h => by simp [loc, h]) fun _ =>
      .bind (fun m => (addM_frame _ _ s m).mono fun a h => by simp [loc, h]) fun _ =>
      .bind (fun m => (addV_frame _ _ s m).mono fun a h => by simp [loc, h]) fun _ =>
      .bind (fun m => (addM_frame _ _ s m).mono fun a h => by simp [loc, h]) fun _ m =>
      (addM_frame _ _ s m).mono fun a h => by simp [loc, h]
  | case5 d e s => exact fun m => addV_frame d e s m
  | case6 d e s => exact fun m => addV_frame d e s m
  | case7 _ _ _ _ A B C _ _ _ _ A' B' C' s ihA ihC =>
    exact .bind (fun m => (addM_frame _ _ s m).mono fun a h => by simp [loc, h]) fun _ =>
      .bind (ihA.mono fun a h => by simp [loc, h]) fun _ => ihC.mono fun a h => by simp [loc, h]
  | case8 _ _ _ _ A B C _ _ _ _ A' B' C' s ihA ihC =>
    exact .bind (fun m => (addM_frame _ _ s m).mono fun a h => by simp [loc, h]) fun _ =>
      .bind (ihA.mono fun a h => by simp [loc, h]) fun _ => ihC.mono fun a h => by simp [loc, h]
  | case9 K L s => 
    intro m
    rw [add_]
    · exact .refl _ _
    all_goals assumption

/-! ### whole matrices: what is computed -/

theorem mul_spec : ∀ (K : SM ℕ) (s : α) (m : Mem α), (loc K).Nodup →
    ∃ m', mul_ K s m = (.ok (), m') ∧ InPlace (loc K) m m' ∧ m'.read K = (m.read K).mul_ s
  | .dense d, s, m, _ => ⟨_, rfl, inPlace_mulAt _ s m, by simp only [read, readM_mulAt, SM.mul_]⟩
  | .diagonal d, s, m, _ => ⟨_, rfl, inPlace_mulAt _ s m, by simp only [read, readV_mulAt, SM.mul_]⟩
  | .tril d, s, m, _ => ⟨_, rfl, inPlace_mulAt _ s m, by simp only [read, readV_mulAt, SM.mul_]⟩
  | .triu d, s, m, _ => ⟨_, rfl, inPlace_mulAt _ s m, by simp only [read, readV_mulAt, SM.mul_]⟩
  | .block b, s, m, h => by
    refine ⟨_, rfl, mul_writes (.block b) s m, ?_⟩
    simp only [loc, List.nodup_append] at h
    obtain ⟨_, _, h⟩ := h
    set m1 := mulAt (locT b.blocks) s m
    have i1 : InPlace (locT b.blocks) m m1 := inPlace_mulAt _ s m
    set m2 := mulAt (locM b.last) s m1
    have i2 : InPlace (locM b.last) m1 m2 := inPlace_mulAt _ s m1
    change m2.read (.block b) = _
    simp only [read, SM.mul_]
    rw [readM_mulAt, i1.readM fun a ha hb => h a hb a ha rfl, i2.readT fun a ha hb => h a ha a hb rfl, readT_mulAt]
  | .hier b, s, m, h => by
    refine ⟨_, rfl, mul_writes (.hier b) s m, ?_⟩
    simp only [loc, List.nodup_append, List.mem_append] at h
    obtain ⟨⟨⟨⟨_, _, hB⟩, _, hC⟩, _, hD⟩, _, hE⟩ := h
    set m1 := mulAt (locM b.A) s m
    have i1 : InPlace (locM b.A) m m1 := inPlace_mulAt _ s m
    set m2 := mulAt (locM b.B) s m1
    have i2 : InPlace (locM b.B) m1 m2 := inPlace_mulAt _ s m1
    set m3 := mulAt (locV b.C) s m2
    have i3 : InPlace (locV b.C) m2 m3 := inPlace_mulAt _ s m2
    set m4 := mulAt (locM b.D) s m3
    have i4 : InPlace (locM b.D) m3 m4 := inPlace_mulAt _ s m3
    set m5 := mulAt (locM b.E) s m4
    have i5 : InPlace (locM b.E) m4 m5 := inPlace_mulAt _ s m4
    change m5.read (.hier b) = _
    simp only [read, SM.mul_]
    have eE : m5.readM b.E = (m.readM b.E).smul s := by
      rw [readM_mulAt, i4.readM (fun a ha hb => hE a (by simp [hb]) a ha rfl), i3.readM (fun a ha hb => hE a (by simp [hb]) a ha rfl),
        i2.readM (fun a ha hb => hE a (by simp [hb]) a ha rfl), i1.readM (fun a ha hb => hE a (by simp [hb]) a ha rfl)]
    have eD : m5.readM b.D = (m.readM b.D).smul s := by
      rw [i5.readM (fun a ha hb => hE a (by simp [ha]) a hb rfl), readM_mulAt, i3.readM (fun a ha hb => hD a (by simp [hb]) a ha rfl),
        i2.readM (fun a ha hb => hD a (by simp [hb]) a ha rfl), i1.readM (fun a ha hb => hD a (by simp [hb]) a ha rfl)]
    have eC : m5.readV b.C = (m.readV b.C).smul s := by
      rw [i5.readV (fun a ha hb => hE a (by simp [ha]) a hb rfl), i4.readV (fun a ha hb => hD a (by simp [ha]) a hb rfl), readV_mulAt,
        i2.readV (fun a ha hb => hC a (by simp [hb]) a ha rfl), i1.readV (fun a ha hb => hC a (by simp [hb]) a ha rfl)]
    have eB : m5.readM b.B = (m.readM b.B).smul s := by
      rw [i5.readM (fun a ha hb => hE a (by simp [ha]) a hb rfl), i4.readM (fun a ha hb => hD a (by simp [ha]) a hb rfl),
        i3.readM (fun a ha hb => hC a (by simp [ha]) a hb rfl), readM_mulAt, i1.readM (fun a ha hb => hB a (by simp [hb]) a ha rfl)]
    have eA : m5.readM b.A = (m.readM b.A).smul s := by
      rw [i5.readM (fun a ha hb => hE a (by simp [ha]) a hb rfl), i4.readM (fun a ha hb => hD a (by simp [ha]) a hb rfl),
        i3.readM (fun a ha hb => hC a (by simp [ha]) a hb rfl), i2.readM (fun a ha hb => hB a (by simp [ha]) a hb rfl), readM_mulAt]
    rw [eA, eB, eC, eD, eE]
  | .topRight x y cx cy A B C, s, m, h => by
    simp only [loc, List.nodup_append, List.mem_append] at h
    obtain ⟨⟨_, nA, hA⟩, nC, hC⟩ := h
    set m1 := mulAt (locM B) s m with h1
    have i1 : InPlace (locM B) m m1 := inPlace_mulAt _ s m
    obtain ⟨m2, e2, i2, r2⟩ := mul_spec A s m1 nA
    obtain ⟨m3, e3, i3, r3⟩ := mul_spec C s m2 nC
    have e : mul_ (.topRight x y cx cy A B C) s m = (.ok (), m3) := by
      simp only [mul_]; rw [modify_bind, ← h1, Py.bind_ok e2, e3]
    refine ⟨m3, e, by simpa [e] using mul_writes (.topRight x y cx cy A B C) s m, ?_⟩
    simp only [read, SM.mul_]
    rw [r3, i2.read (fun a ha hb => hC a (by simp [hb]) a ha rfl), i1.read (fun a ha hb => hC a (by simp [hb]) a ha rfl),
      i3.readM (fun a ha hb => hC a (by simp [ha]) a hb rfl), i2.readM (fun a ha hb => hA a ha a hb rfl), readM_mulAt,
      i3.read (fun a ha hb => hC a (by simp [ha]) a hb rfl), r2, i1.read (fun a ha hb => hA a hb a ha rfl)]
  | .bottomLeft x y cx cy A B C, s, m, h => by
    simp only [loc, List.nodup_append, List.mem_append] at h
    obtain ⟨⟨_, nA, hA⟩, nC, hC⟩ := h
    set m1 := mulAt (locM B) s m with h1
    have i1 : InPlace (locM B) m m1 := inPlace_mulAt _ s m
    obtain ⟨m2, e2, i2, r2⟩ := mul_spec A s m1 nA
    obtain ⟨m3, e3, i3, r3⟩ := mul_spec C s m2 nC
    have e : mul_ (.bottomLeft x y cx cy A B C) s m = (.ok (), m3) := by
      simp only [mul_]; rw [modify_bind, ← h1, Py.bind_ok e2, e3]
    refine ⟨m3, e, by simpa [e] using mul_writes (.bottomLeft x y cx cy A B C) s m, ?_⟩
    simp only [read, SM.mul_]
    rw [r3, i2.read (fun a ha hb => hC a (by simp [hb]) a ha rfl), i1.read (fun a ha hb => hC a (by simp [hb]) a ha rfl),
      i3.readM (fun a ha hb => hC a (by simp [ha]) a hb rfl), i2.readM (fun a ha hb => hA a ha a hb rfl), readM_mulAt,
      i3.read (fun a ha hb => hC a (by simp [ha]) a hb rfl), r2, i1.read (fun a ha hb => hA a hb a ha rfl)]

/-- `add_` computes the value-level result if the two operands are the same object or have no memory in common -/
theorem add_spec (K L : SM ℕ) (s : α) : ∀ (m : Mem α) (X : SM α), (loc K).Nodup → (K = L ∨ ∀ a ∈ loc K, a ∉ loc L) →
    SM.add_ (m.read K) (m.read L) s = .ok X →
    ∃ m', add_ K L s m = (.ok (), m') ∧ InPlace (loc K) m m' ∧ m'.read K = X := by
  induction K, L, s using add_.induct with
  | case1 d e s =>
    intro m X hn _ h
    obtain ⟨Y, eY, h⟩ := IOProof.Except.bind_eq_ok h
    cases h
    obtain ⟨m', e', i, r⟩ := addM_spec hn eY
    exact ⟨m', e', i, by simp only [read, r]⟩
  | case2 d e s =>
    intro m X hn _ h
    obtain ⟨Y, eY, h⟩ := IOProof.Except.bind_eq_ok h
    cases h
    obtain ⟨m', e', i, r⟩ := addV_spec hn eY
    exact ⟨m', e', i, by simp only [read, r]⟩
  | case3 b c s =>
    intro m X hn hKL h
    simp only [loc, List.nodup_append] at hn
    obtain ⟨n1, n2, hn⟩ := hn
    have hx : ∀ a ∈ locM c.last, a ∉ locT b.blocks := by
      rcases hKL with e | hd
      · injection e with e; subst e; exact fun a ha hb => hn a hb a ha rfl
      · exact fun a ha hb => hd a (by simp [loc, hb]) (by simp [loc, ha])
    simp only [read, SM.add_] at h
    obtain ⟨X1, e1, h⟩ := IOProof.Except.bind_eq_ok h
    obtain ⟨X2, e2, h⟩ := IOProof.Except.bind_eq_ok h
    cases h
    obtain ⟨m1, e1, i1, r1⟩ := addT_spec n1 e1
    rw [← i1.readM (d := b.last) fun a ha hb => hn a hb a ha rfl, ← i1.readM hx] at e2
    obtain ⟨m2, e2, i2, r2⟩ := addM_spec n2 e2
    have e : add_ (.block b) (.block c) s m = (.ok (), m2) := by simp only [add_]; rw [Py.bind_ok e1, e2]
    refine ⟨m2, e, by simpa [e] using add_writes (.block b) (.block c) s m, ?_⟩
    simp only [read]
    rw [r2, i2.readT fun a ha hb => hn a ha a hb rfl, r1]
  | case4 b o s =>
    intro m X hn hKL h
    simp only [loc, List.nodup_append, List.mem_append] at hn
    obtain ⟨⟨⟨⟨nA, nB, hB⟩, nC, hC⟩, nD, hD⟩, nE, hE⟩ := hn
    have sep : (∀ a ∈ locM o.B, a ∉ locM b.A) ∧ (∀ a ∈ locV o.C, a ∉ locM b.A ∧ a ∉ locM b.B) ∧
        (∀ a ∈ locM o.D, a ∉ locM b.A ∧ a ∉ locM b.B ∧ a ∉ locV b.C) ∧
        (∀ a ∈ locM o.E, a ∉ locM b.A ∧ a ∉ locM b.B ∧ a ∉ locV b.C ∧ a ∉ locM b.D) := by
      rcases hKL with e | hd
      · injection e with e; subst e
        exact ⟨fun a ha hb => hB a hb a ha rfl,
          fun a ha => ⟨fun hb => hC a (by simp [hb]) a ha rfl, fun hb => hC a (by simp [hb]) a ha rfl⟩,
          fun a ha => ⟨fun hb => hD a (by simp [hb]) a ha rfl, fun hb => hD a (by simp [hb]) a ha rfl,
            fun hb => hD a (by simp [hb]) a ha rfl⟩,
          fun a ha => ⟨fun hb => hE a (by simp [hb]) a ha rfl, fun hb => hE a (by simp [hb]) a ha rfl,
            fun hb => hE a (by simp [hb]) a ha rfl, fun hb => hE a (by simp [hb]) a ha rfl⟩⟩
      · have hd' : ∀ a ∈ loc (.hier o), a ∉ loc (.hier b) := fun a ha hb => hd a hb ha
        simp only [loc, List.mem_append, not_or] at hd'
        refine ⟨fun a ha => ?_, fun a ha => ?_, fun a ha => ?_, fun a ha => ?_⟩ <;>
          have := hd' a (by simp [ha]) <;> tauto
    obtain ⟨sB, sC, sD, sE⟩ := sep
    simp only [read, SM.add_] at h
    obtain ⟨XA, eA, h⟩ := IOProof.Except.bind_eq_ok h
    obtain ⟨XB, eB, h⟩ := IOProof.Except.bind_eq_ok h
    obtain ⟨XC, eC, h⟩ := IOProof.Except.bind_eq_ok h
    obtain ⟨XD, eD, h⟩ := IOProof.Except.bind_eq_ok h
    obtain ⟨XE, eE, h⟩ := IOProof.Except.bind_eq_ok h
    cases h
    obtain ⟨m1, e1, i1, r1⟩ := addM_spec nA eA
    rw [← i1.readM (d := b.B) fun a ha hb => hB a hb a ha rfl, ← i1.readM sB] at eB
    obtain ⟨m2, e2, i2, r2⟩ := addM_spec nB eB
    rw [← i1.readV (d := b.C) fun a ha hb => hC a (by simp [hb]) a ha rfl, ← i1.readV fun a ha => (sC a ha).1,
      ← i2.readV (d := b.C) fun a ha hb => hC a (by simp [hb]) a ha rfl, ← i2.readV fun a ha => (sC a ha).2] at eC
    obtain ⟨m3, e3, i3, r3⟩ := addV_spec nC eC
    rw [← i1.readM (d := b.D) fun a ha hb => hD a (by simp [hb]) a ha rfl, ← i1.readM fun a ha => (sD a ha).1,
      ← i2.readM (d := b.D) fun a ha hb => hD a (by simp [hb]) a ha rfl, ← i2.readM fun a ha => (sD a ha).2.1,
      ← i3.readM (d := b.D) fun a ha hb => hD a (by simp [hb]) a ha rfl, ← i3.readM fun a ha => (sD a ha).2.2] at eD
    obtain ⟨m4, e4, i4, r4⟩ := addM_spec nD eD
    rw [← i1.readM (d := b.E) fun a ha hb => hE a (by simp [hb]) a ha rfl, ← i1.readM fun a ha => (sE a ha).1,
      ← i2.readM (d := b.E) fun a ha hb => hE a (by simp [hb]) a ha rfl, ← i2.readM fun a ha => (sE a ha).2.1,
      ← i3.readM (d := b.E) fun a ha hb => hE a (by simp [hb]) a ha rfl, ← i3.readM fun a ha => (sE a ha).2.2.1,
      ← i4.readM (d := b.E) fun a ha hb => hE a (by simp [hb]) a ha rfl, ← i4.readM fun a ha => (sE a ha).2.2.2] at eE
    obtain ⟨m5, e5, i5, r5⟩ := addM_spec nE eE
    have e : add_ (.hier b) (.hier o) s m = (.ok (), m5) := by
      simp only [add_]; rw [Py.bind_ok e1, Py.bind_ok e2, Py.bind_ok e3, Py.bind_ok e4, e5]
    refine ⟨m5, e, by simpa [e] using add_writes (.hier b) (.hier o) s m, ?_⟩
    simp only [read]
    rw [r5, i5.readM (d := b.D) (fun a ha hb => hE a (by simp [ha]) a hb rfl), r4,
      i5.readV (fun a ha hb => hE a (by simp [ha]) a hb rfl), i4.readV (fun a ha hb => hD a (by simp [ha]) a hb rfl), r3,
      i5.readM (d := b.B) (fun a ha hb => hE a (by simp [ha]) a hb rfl), i4.readM (d := b.B) (fun a ha hb => hD a (by simp [ha]) a hb rfl),
      i3.readM (d := b.B) (fun a ha hb => hC a (by simp [ha]) a hb rfl), r2,
      i5.readM (d := b.A) (fun a ha hb => hE a (by simp [ha]) a hb rfl), i4.readM (d := b.A) (fun a ha hb => hD a (by simp [ha]) a hb rfl),
      i3.readM (d := b.A) (fun a ha hb => hC a (by simp [ha]) a hb rfl), i2.readM (d := b.A) (fun a ha hb => hB a (by simp [ha]) a hb rfl), r1]
  | case5 d e s =>
    intro m X hn _ h
    obtain ⟨Y, eY, h⟩ := IOProof.Except.bind_eq_ok h
    cases h
    obtain ⟨m', e', i, r⟩ := addV_spec hn eY
    exact ⟨m', e', i, by simp only [read, r]⟩
  | case6 d e s =>
    intro m X hn _ h
    obtain ⟨Y, eY, h⟩ := IOProof.Except.bind_eq_ok h
    cases h
    obtain ⟨m', e', i, r⟩ := addV_spec hn eY
    exact ⟨m', e', i, by simp only [read, r]⟩
  | case7 x y cx cy A B C x' y' cx' cy' A' B' C' s ihA ihC =>
    intro m X hn hKL h
    have hA' : A = A' ∨ ∀ a ∈ loc A, a ∉ loc A' := by
      rcases hKL with e | hd
      · injection e with _ _ _ _ e; exact .inl e
      · exact .inr fun a ha hb => hd a (by simp [loc, ha]) (by simp [loc, hb])
    have hC' : C = C' ∨ ∀ a ∈ loc C, a ∉ loc C' := by
      rcases hKL with e | hd
      · injection e with _ _ _ _ _ _ e; exact .inl e
      · exact .inr fun a ha hb => hd a (by simp [loc, ha]) (by simp [loc, hb])
    simp only [loc, List.nodup_append, List.mem_append] at hn
    obtain ⟨⟨nB, nA, dA⟩, nC, dC⟩ := hn
    have hBA : ∀ a ∈ loc A', a ∉ locM B := by
      rcases hKL with e | hd
      · injection e with _ _ _ _ e _ _; subst e; exact fun a ha hb => dA a hb a ha rfl
      · exact fun a ha hb => hd a (by simp [loc, hb]) (by simp [loc, ha])
    have hBC : ∀ a ∈ loc C', a ∉ locM B := by
      rcases hKL with e | hd
      · injection e with _ _ _ _ _ _ e; subst e; exact fun a ha hb => dC a (.inl hb) a ha rfl
      · exact fun a ha hb => hd a (by simp [loc, hb]) (by simp [loc, ha])
    have hAC : ∀ a ∈ loc C', a ∉ loc A := by
      rcases hKL with e | hd
      · injection e with _ _ _ _ _ _ e; subst e; exact fun a ha hb => dC a (.inr hb) a ha rfl
      · exact fun a ha hb => hd a (by simp [loc, hb]) (by simp [loc, ha])
    simp only [read, SM.add_] at h
    obtain ⟨XB, eB, h⟩ := IOProof.Except.bind_eq_ok h
    obtain ⟨XA, eA, h⟩ := IOProof.Except.bind_eq_ok h
    obtain ⟨XC, eC, h⟩ := IOProof.Except.bind_eq_ok h
    cases h
    obtain ⟨m1, e1, i1, r1⟩ := addM_spec nB eB
    rw [← i1.read (K := A) fun a ha hb => dA a hb a ha rfl, ← i1.read hBA] at eA
    obtain ⟨m2, e2, i2, r2⟩ := ihA m1 XA nA hA' eA
    rw [← i1.read (K := C) fun a ha hb => dC a (.inl hb) a ha rfl, ← i1.read hBC,
      ← i2.read (K := C) fun a ha hb => dC a (.inr hb) a ha rfl, ← i2.read hAC] at eC
    obtain ⟨m3, e3, i3, r3⟩ := ihC m2 XC nC hC' eC
    have e : add_ (.topRight x y cx cy A B C) (.topRight x' y' cx' cy' A' B' C') s m = (.ok (), m3) := by
      simp only [add_]; rw [Py.bind_ok e1, Py.bind_ok e2, e3]
    refine ⟨m3, e, by simpa [e] using add_writes (.topRight x y cx cy A B C) (.topRight x' y' cx' cy' A' B' C') s m, ?_⟩
    simp only [read]
    rw [r3, i3.readM (fun a ha hb => dC a (.inl ha) a hb rfl), i2.readM (fun a ha hb => dA a ha a hb rfl), r1,
      i3.read (fun a ha hb => dC a (.inr ha) a hb rfl), r2]
  | case8 x y cx cy A B C x' y' cx' cy' A' B' C' s ihA ihC =>
    intro m X hn hKL h
    have hA' : A = A' ∨ ∀ a ∈ loc A, a ∉ loc A' := by
      rcases hKL with e | hd
      · injection e with _ _ _ _ e; exact .inl e
      · exact .inr fun a ha hb => hd a (by simp [loc, ha]) (by simp [loc, hb])
    have hC' : C = C' ∨ ∀ a ∈ loc C, a ∉ loc C' := by
      rcases hKL with e | hd
      · injection e with _ _ _ _ _ _ e; exact .inl e
      · exact .inr fun a ha hb => hd a (by simp [loc, ha]) (by simp [loc, hb])
    simp only [loc, List.nodup_append, List.mem_append] at hn
    obtain ⟨⟨nB, nA, dA⟩, nC, dC⟩ := hn
    have hBA : ∀ a ∈ loc A', a ∉ locM B := by
      rcases hKL with e | hd
      · injection e with _ _ _ _ e _ _; subst e; exact fun a ha hb => dA a hb a ha rfl
      · exact fun a ha hb => hd a (by simp [loc, hb]) (by simp [loc, ha])
    have hBC : ∀ a ∈ loc C', a ∉ locM B := by
      rcases hKL with e | hd
      · injection e with _ _ _ _ _ _ e; subst e; exact fun a ha hb => dC a (.inl hb) a ha rfl
      · exact fun a ha hb => hd a (by simp [loc, hb]) (by simp [loc, ha])
    have hAC : ∀ a ∈ loc C', a ∉ loc A := by
      rcases hKL with e | hd
      · injection e with _ _ _ _ _ _ e; subst e; exact fun a ha hb => dC a (.inr hb) a ha rfl
      · exact fun a ha hb => hd a (by simp [loc, hb]) (by simp [loc, ha])
    simp only [read, SM.add_] at h
    obtain ⟨XB, eB, h⟩ := IOProof.Except.bind_eq_ok h
    obtain ⟨XA, eA, h⟩ := IOProof.Except.bind_eq_ok h
    obtain ⟨XC, eC, h⟩ := IOProof.Except.bind_eq_ok h
    cases h
    obtain ⟨m1, e1, i1, r1⟩ := addM_spec nB eB
    rw [← i1.read (K := A) fun a ha hb => dA a hb a ha rfl, ← i1.read hBA] at eA
    obtain ⟨m2, e2, i2, r2⟩ := ihA m1 XA nA hA' eA
    rw [← i1.read (K := C) fun a ha hb => dC a (.inl hb) a ha rfl, ← i1.read hBC,
      ← i2.read (K := C) fun a ha hb => dC a (.inr hb) a ha rfl, ← i2.read hAC] at eC
    obtain ⟨m3, e3, i3, r3⟩ := ihC m2 XC nC hC' eC
    have e : add_ (.bottomLeft x y cx cy A B C) (.bottomLeft x' y' cx' cy' A' B' C') s m = (.ok (), m3) := by
      simp only [add_]; rw [Py.bind_ok e1, Py.bind_ok e2, e3]
    refine ⟨m3, e, by simpa [e] using add_writes (.bottomLeft x y cx cy A B C) (.bottomLeft x' y' cx' cy' A' B' C') s m, ?_⟩
    simp only [read]
    rw [r3, i3.readM (fun a ha hb => dC a (.inl ha) a hb rfl), i2.readM (fun a ha hb => dA a ha a hb rfl), r1,
      i3.read (fun a ha hb => dC a (.inr ha) a hb rfl), r2]
  | case9 K L s h1 h2 h3 h4 h5 h6 h7 h8 =>
    intro m X _ _ h
    exfalso
    cases K <;> cases L <;> first
      | (simp only [read, SM.add_] at h; cases h; done)
      | exact h1 _ _ rfl rfl
      | exact h2 _ _ rfl rfl
      | exact h3 _ _ rfl rfl
      | exact h4 _ _ rfl rfl
      | exact h5 _ _ rfl rfl
      | exact h6 _ _ rfl rfl
      | exact h7 _ _ _ _ _ _ _ _ _ _ _ _ _ _ rfl rfl
      | exact h8 _ _ _ _ _ _ _ _ _ _ _ _ _ _ rfl rfl

end Mem
