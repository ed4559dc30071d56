import Verif.Proofs.AliasInPlace

/-! `diag_add_`, and operations that return new matrices. -/

namespace Mem
variable {α : Type} [Field α]

/-- of the old memory, only the addresses `l` may have been written to -/
structure Upd (l : List ℕ) (m m' : Mem α) : Prop where
  le : m.next ≤ m'.next
  val : ∀ a < m.next, a ∉ l → m'.val a = m.val a

theorem InPlace.upd {l : List ℕ} {m m' : Mem α} (h : InPlace l m m') : Upd l m m' := ⟨h.next.ge, fun a _ ha => h.val a ha⟩
theorem Ext.upd {m m' : Mem α} (h : Ext m m') (l : List ℕ) : Upd l m m' := ⟨h.le, fun a ha _ => h.val a ha⟩
theorem Upd.trans {l : List ℕ} {a b c : Mem α} (h : Upd l a b) (h' : Upd l b c) : Upd l a c :=
  ⟨h.le.trans h'.le, fun x hx hl => (h'.val x (lt_of_lt_of_le hx h.le) hl).trans (h.val x hx hl)⟩
theorem Upd.refl (l : List ℕ) (m : Mem α) : Upd l m m := ⟨le_rfl, fun _ _ _ => rfl⟩
theorem Upd.read {l : List ℕ} {m m' : Mem α} (h : Upd l m m') {K : SM ℕ} (hk : ∀ a ∈ loc K, a < m.next) (hl : ∀ a ∈ loc K, a ∉ l) :
    m'.read K = m.read K := read_congr fun a ha => h.val a (hk a ha) (hl a ha)
/-- writing to memory that is newer than `m` does not change `m` -/
theorem Ext.upd_new {l : List ℕ} {m m1 m2 : Mem α} (h : Ext m m1) (h' : Upd l m1 m2) (hl : ∀ a ∈ l, m.next ≤ a) : Ext m m2 :=
  ⟨h.le.trans h'.le, fun a ha => (h'.val a (lt_of_lt_of_le ha h.le) fun hb => absurd (hl a hb) (by omega)).trans (h.val a ha)⟩

/-! ### `diag_add_` -/

theorem diagLoc_sub {d : Mat ℕ} {a : ℕ} (h : a ∈ diagLoc d) : a ∈ locM d := by
  simp only [diagLoc, List.mem_map, List.mem_range] at h
  obtain ⟨i, hi, e⟩ := h
  exact mem_locM.2 ⟨i, by omega, i, by omega, e⟩
theorem blockDiagLoc_sub {D : ℕ} {t : T3 ℕ} {a : ℕ} (h : a ∈ blockDiagLoc D t) : a ∈ locT t := by
  simp only [blockDiagLoc, List.mem_flatMap, List.mem_map, List.mem_range, List.mem_filter, decide_eq_true_eq] at h
  obtain ⟨n, hn, i, ⟨_, hi, hj⟩, e⟩ := h
  exact mem_locT.2 ⟨n, hn, i, hi, i, hj, e⟩

theorem readV_incAt (d : Vec ℕ) (s : α) (m : Mem α) : (incAt (locV d) s m).readV d = (m.readV d).addScalar s :=
  Vec.ext' rfl fun i hi => by
    simp only [readV, Vec.len_ofFn] at hi
    simp only [readV, Vec.addScalar, Vec.get_ofFn, Vec.len_ofFn, hi, if_true, incAt, if_pos (mem_locV.2 ⟨i, hi, rfl⟩)]
theorem readM_incAt {d : Mat ℕ} (hd : (locM d).Nodup) (s : α) (m : Mem α) :
    (incAt (diagLoc d) s m).readM d = (m.readM d).diagAdd s :=
  Mat.ext' rfl rfl fun i hi j hj => by
    simp only [readM, Mat.rows_ofFn, Mat.cols_ofFn] at hi hj
    have : d.get i j ∈ diagLoc d ↔ i = j := by
      simp only [diagLoc, List.mem_map, List.mem_range]
      constructor
      · rintro ⟨k, hk, e⟩
        have := nodup_locM.1 hd k (by omega) k (by omega) i hi j hj e
        omega
      · rintro rfl; exact ⟨i, by omega, rfl⟩
    simp only [readM, Mat.diagAdd, Mat.get_ofFn, Mat.rows_ofFn, Mat.cols_ofFn, hi, hj, and_self, if_true, incAt, this]
theorem readT_incAt {D : ℕ} {t : T3 ℕ} (hd : (locT t).Nodup) (s : α) (m : Mem α) :
    (incAt (blockDiagLoc D t) s m).readT t = T3.ofFn (m.readT t).d0 (m.readT t).d1 (m.readT t).d2 fun n i j =>
      if i = j ∧ i < D then (m.readT t).get n i j + s else (m.readT t).get n i j :=
  T3.ext' rfl rfl rfl fun n hn i hi j hj => by
    simp only [readT, T3.d0_ofFn, T3.d1_ofFn, T3.d2_ofFn] at hn hi hj
    have : t.get n i j ∈ blockDiagLoc D t ↔ i = j ∧ i < D := by
      simp only [blockDiagLoc, List.mem_flatMap, List.mem_map, List.mem_range, List.mem_filter, decide_eq_true_eq]
      constructor
      · rintro ⟨k, hk, l, ⟨hl, h1, h2⟩, e⟩
        have := nodup_locT.1 hd k hk l h1 l h2 n hn i hi j hj e
        omega
      · rintro ⟨rfl, h⟩; exact ⟨n, hn, i, ⟨h, hi, hj⟩, rfl⟩
    simp only [readT, T3.get_ofFn, T3.d0_ofFn, T3.d1_ofFn, T3.d2_ofFn, hn, hi, hj, and_self, if_true, incAt, this]

theorem diagAddM_spec {d : Mat ℕ} {s : α} {m : Mem α} {X : Mat α} (hd : (locM d).Nodup) (h : utilsDiagAdd (m.readM d) s = .ok X) :
    ∃ m', diagAddM d s m = (.ok (), m') ∧ InPlace (locM d) m m' ∧ m'.readM d = X := by
  unfold utilsDiagAdd at h
  split at h
  · cases h
  · rename_i hs
    change ¬ d.rows ≠ d.cols at hs
    cases h
    exact ⟨_, by rw [diagAddM, if_neg hs]; rfl, (inPlace_incAt _ s m).mono fun a => diagLoc_sub, readM_incAt hd s m⟩

/-- the value-level result; memory of the result is that of the object or new -/
structure Redone (m m' : Mem α) (K r : SM ℕ) (X : SM α) : Prop where
  upd : Upd (loc K) m m'
  read : m'.read r = X
  nodup : (loc r).Nodup
  mem : ∀ a ∈ loc r, a ∈ loc K ∨ (m.next ≤ a ∧ a < m'.next)

theorem toDense_new (K : SM ℕ) (hK : ∀ d, K ≠ .dense d) (m : Mem α) : toDense K m = newM (m.read K).toDense m := by
  cases K <;> first | rfl | exact absurd rfl (hK _)

theorem diagAdd_naive {c : Cls} {K : SM ℕ} {s : α} {m : Mem α} {X : SM α} (hK : ∀ d, K ≠ .dense d) (hc : (m.read K).cls = c)
    (h : (utilsDiagAdd (m.read K).toDense s >>= fun x => SM.fromDense c x) = .ok X) :
    ∃ r m', (do
      let c := ((← Py.get (σ := Mem α)).read K).cls
      let d ← toDense K
      diagAddM d s
      fromDense c d : Py (Mem α) (SM ℕ)) m = (.ok r, m') ∧ Redone m m' K r X := by
  obtain ⟨Y, eY, h⟩ := IOProof.Except.bind_eq_ok h
  obtain ⟨d, m1, e1, x1, r1, _, _, f1⟩ := newM_spec (m.read K).toDense m
  rw [← r1] at eY
  obtain ⟨m2, e2, i2, r2⟩ := diagAddM_spec f1.nodup eY
  rw [← r2] at h
  obtain ⟨r, m3, e3, M⟩ := fromDense_spec c d m2 X f1.nodup (fun a ha => by rw [i2.next]; exact (f1.mem a ha).2) h
  have x2 : Ext m m2 := x1.upd_new i2.upd fun a ha => (f1.mem a ha).1
  refine ⟨r, m3, ?_, (x2.trans M.ext).upd _, M.read, M.nodup, fun a ha => .inr ?_⟩
  · rw [get_bind, hc, Py.bind_ok ((toDense_new K hK m).trans e1), Py.bind_ok e2, e3]
  · have := M.ext.le; have := x2.le
    rcases M.mem a ha with ha | ha
    · have := f1.mem a ha; have := i2.next; omega
    · omega

theorem diagAdd_spec (K : SM ℕ) (s : α) (m : Mem α) (X : SM α) (hn : (loc K).Nodup) (hl : ∀ a ∈ loc K, a < m.next)
    (h : SM.diagAdd (m.read K) s = .ok X) : ∃ r m', diagAdd K s m = (.ok r, m') ∧ Redone m m' K r X := by
  cases K with
  | dense d =>
    obtain ⟨Y, eY, h⟩ := IOProof.Except.bind_eq_ok h
    change Except.ok (SM.dense Y) = _ at h
    cases h
    obtain ⟨m', e, i, r⟩ := diagAddM_spec hn (X := Y) eY
    refine ⟨.dense d, m', ?_, i.upd, by simp only [read, r], hn, fun a ha => .inl ha⟩
    simp only [diagAdd, toDense]
    rw [get_bind]
    change (diagAddM d s >>= fun _ => fromDense .dense d) m = _
    rw [Py.bind_ok e]; rfl
  | diagonal d =>
    cases h
    exact ⟨.diagonal d, _, rfl, (inPlace_incAt _ s m).upd, by simp only [read, readV_incAt]; rfl, hn, fun a ha => .inl ha⟩
  | tril d =>
    simp only [read, SM.diagAdd, Toeplitz.diagAdd] at h
    obtain ⟨Y, eY, h⟩ := IOProof.Except.bind_eq_ok h
    cases h
    split at eY
    · cases eY
    cases eY
    rename_i h0
    change ¬ d.len = 0 at h0
    have i : InPlace (locV d) m (incAt [d.get 0] s m) := (inPlace_incAt _ s m).mono fun a ha => by
      simp only [List.mem_singleton] at ha; exact mem_locV.2 ⟨0, by omega, ha.symm⟩
    refine ⟨.tril d, _, by simp only [diagAdd]; rw [if_neg h0]; rfl, i.upd, ?_, hn, fun a ha => .inl ha⟩
    simp only [read, SM.tril.injEq]
    refine Vec.ext' rfl fun k hk => ?_
    simp only [readV, Vec.len_ofFn] at hk
    have : d.get k ∈ [d.get 0] ↔ k = 0 := by
      rw [List.mem_singleton]
      exact ⟨fun e => nodup_locV.1 hn k hk 0 (by omega) e, fun e => by rw [e]⟩
    simp only [readV, Vec.get_ofFn, Vec.len_ofFn, hk, if_true, incAt, this]
  | triu d =>
    simp only [read, SM.diagAdd, Toeplitz.diagAdd] at h
    obtain ⟨Y, eY, h⟩ := IOProof.Except.bind_eq_ok h
    cases h
    split at eY
    · cases eY
    cases eY
    rename_i h0
    change ¬ d.len = 0 at h0
    have i : InPlace (locV d) m (incAt [d.get 0] s m) := (inPlace_incAt _ s m).mono fun a ha => by
      simp only [List.mem_singleton] at ha; exact mem_locV.2 ⟨0, by omega, ha.symm⟩
    refine ⟨.triu d, _, by simp only [diagAdd]; rw [if_neg h0]; rfl, i.upd, ?_, hn, fun a ha => .inl ha⟩
    simp only [read, SM.triu.injEq]
    refine Vec.ext' rfl fun k hk => ?_
    simp only [readV, Vec.len_ofFn] at hk
    have : d.get k ∈ [d.get 0] ↔ k = 0 := by
      rw [List.mem_singleton]
      exact ⟨fun e => nodup_locV.1 hn k hk 0 (by omega) e, fun e => by rw [e]⟩
    simp only [readV, Vec.get_ofFn, Vec.len_ofFn, hk, if_true, incAt, this]
  | block b =>
    cases h
    have hn' := hn
    simp only [loc, List.nodup_append] at hn
    obtain ⟨n1, n2, hd⟩ := hn
    set m1 := incAt (blockDiagLoc b.D b.blocks) s m
    have i1 : InPlace (locT b.blocks) m m1 := (inPlace_incAt _ s m).mono fun a => blockDiagLoc_sub
    set m2 := incAt (diagLoc b.last) s m1
    have i2 : InPlace (locM b.last) m1 m2 := (inPlace_incAt _ s m1).mono fun a => diagLoc_sub
    have i : InPlace (loc (.block b)) m m2 := (i1.mono fun a ha => by simp [loc, ha]).trans (i2.mono fun a ha => by simp [loc, ha])
    refine ⟨.block b, m2, rfl, i.upd, ?_, hn', fun a ha => .inl ha⟩
    simp only [read, BlockDiag.diagAdd]
    rw [readM_incAt n2, i1.readM (fun a ha hb => hd a hb a ha rfl), i2.readT (fun a ha hb => hd a ha a hb rfl), readT_incAt n1]
  | hier b =>
    have hn' := hn
    simp only [loc, List.nodup_append, List.mem_append] at hn
    obtain ⟨⟨⟨⟨nA, nB, hB⟩, nC, hC⟩, nD, hD⟩, nE, hE⟩ := hn
    simp only [read, SM.diagAdd, Hier.diagAdd] at h
    obtain ⟨Y, eY, h⟩ := IOProof.Except.bind_eq_ok h
    cases h
    obtain ⟨XA, eA, eY⟩ := IOProof.Except.bind_eq_ok eY
    obtain ⟨XE, eE, eY⟩ := IOProof.Except.bind_eq_ok eY
    cases eY
    obtain ⟨m1, e1, i1, r1⟩ := diagAddM_spec nA eA
    set m2 := incAt (locV b.C) s m1 with h2
    have i2 : InPlace (locV b.C) m1 m2 := inPlace_incAt _ s m1
    rw [← i1.readM (d := b.E) (fun a ha hb => hE a (by simp [hb]) a ha rfl),
      ← i2.readM (d := b.E) (fun a ha hb => hE a (by simp [hb]) a ha rfl)] at eE
    obtain ⟨m3, e3, i3, r3⟩ := diagAddM_spec nE eE
    have i : InPlace (loc (.hier b)) m m3 := ((i1.mono fun a ha => by simp [loc, ha]).trans
      (i2.mono fun a ha => by simp [loc, ha])).trans (i3.mono fun a ha => by simp [loc, ha])
    refine ⟨.hier b, m3, ?_, i.upd, ?_, hn', fun a ha => .inl ha⟩
    · simp only [diagAdd]; rw [Py.bind_ok e1, modify_bind, ← h2, Py.bind_ok e3]; rfl
    · simp only [read, SM.hier.injEq, Hier.mk.injEq, true_and]
      refine ⟨?_, ?_, ?_, ?_, r3⟩
      · rw [i3.readM (fun a ha hb => hE a (by simp [ha]) a hb rfl), i2.readM (fun a ha hb => hC a (by simp [ha]) a hb rfl), r1]
      · rw [i3.readM (fun a ha hb => hE a (by simp [ha]) a hb rfl), i2.readM (fun a ha hb => hC a (by simp [ha]) a hb rfl),
          i1.readM (fun a ha hb => hB a hb a ha rfl)]
      · rw [i3.readV (fun a ha hb => hE a (by simp [ha]) a hb rfl), h2, readV_incAt, i1.readV (fun a ha hb => hC a (by simp [hb]) a ha rfl)]
      · rw [i3.readM (fun a ha hb => hE a (by simp [ha]) a hb rfl), i2.readM (fun a ha hb => hD a (by simp [hb]) a ha rfl),
          i1.readM (fun a ha hb => hD a (by simp [hb]) a ha rfl)]
  | topRight x y cx cy A B C => exact diagAdd_naive (by simp) rfl h
  | bottomLeft x y cx cy A B C => exact diagAdd_naive (by simp) rfl h

theorem copyAt_spec {d : Mat ℕ} (hd : (locM d).Nodup) {x : Mat α} (hr : d.rows = x.rows) (hc : d.cols = x.cols) (m : Mem α) :
    InPlace (locM d) m (copyAt d x m) ∧ (copyAt d x m).readM d = x := by
  refine ⟨⟨rfl, fun a ha => by simp only [copyAt, lookup_zip_none ha]⟩, Mat.ext' hr hc fun i hi j hj => ?_⟩
  simp only [readM, Mat.rows_ofFn, Mat.cols_ofFn] at hi hj
  have : ((locM d).zip (rowMajor d.rows d.cols)).lookup (d.get i j) = some (i, j) := by
    unfold locM at hd ⊢
    conv_lhs => rw [← List.map_id (rowMajor d.rows d.cols), List.map_id (rowMajor d.rows d.cols)]
    have := lookup_zip_map (fun p : ℕ × ℕ => d.get p.1 p.2) id _ hd (i, j) (mem_rowMajor.2 ⟨hi, hj⟩)
    rwa [List.map_id] at this
  simp only [readM, Mat.get_ofFn, hi, hj, and_self, if_true, copyAt, this]

/-! ### new matrices -/

/-- a new matrix with the given value; nothing else changed -/
structure New (m m' : Mem α) (r : SM ℕ) (X : SM α) : Prop where
  ext : Ext m m'
  read : m'.read r = X
  fresh : Fresh m.next m'.next (loc r)

theorem result_spec {c : Cls} {x : Except PyErr (SM α)} {d : Except PyErr (Mat α)} {X : SM α} (m : Mem α) (h : x = .ok X)
    (hd : naive c = true → x = d >>= fun d => SM.fromDense c d) : ∃ r m', result c x d m = (.ok r, m') ∧ New m m' r X := by
  unfold result
  split
  · rename_i hc
    rw [hd hc] at h
    obtain ⟨Y, eY, h⟩ := IOProof.Except.bind_eq_ok h
    obtain ⟨e, m1, e1, x1, r1, _, _, f1⟩ := newM_spec Y m
    obtain ⟨r, m2, e2, M⟩ := fromDense_spec c e m1 X f1.nodup (fun a ha => (f1.mem a ha).2) (by rw [r1]; exact h)
    refine ⟨r, m2, by rw [lift_bind eY, Py.bind_ok e1, e2], x1.trans M.ext, M.read, M.nodup, fun a ha => ?_⟩
    have := M.ext.le; have := x1.le
    rcases M.mem a ha with ha | ha
    · have := f1.mem a ha; omega
    · omega
  · obtain ⟨r, m1, e1, x1, r1, f1⟩ := new_spec X m
    exact ⟨r, m1, by rw [lift_bind h, e1], x1, r1, f1⟩

theorem matmulS_spec {K L : SM ℕ} {m : Mem α} {X : SM α} (h : (m.read K).matmulS (m.read L) = .ok X) :
    ∃ r m', matmulS K L m = (.ok r, m') ∧ New m m' r X :=
  result_spec m h fun hc => by cases K <;> first | rfl | cases hc
theorem add_new_spec {K L : SM ℕ} {m : Mem α} {X : SM α} (h : (m.read K).add (m.read L) = .ok X) :
    ∃ r m', add K L m = (.ok r, m') ∧ New m m' r X :=
  result_spec m h fun hc => by cases K <;> first | rfl | cases hc
theorem smul_spec {K : SM ℕ} {s : α} {m : Mem α} {X : SM α} (h : (m.read K).smul s = .ok X) :
    ∃ r m', smul K s m = (.ok r, m') ∧ New m m' r X :=
  result_spec m h fun hc => by cases K <;> first | rfl | cases hc
theorem fromInner_spec {K : SM ℕ} {Y : Option (Mat α)} {m : Mem α} {X : SM α} (h : (m.read K).fromInner Y = .ok X) :
    ∃ r m', fromInner K Y m = (.ok r, m') ∧ New m m' r X :=
  result_spec m h fun hc => by
    cases K <;> first
      | cases hc; done
      | (cases Y <;> simp only [read, SM.fromInner, innerDense, SM.fromMatInner, SM.cls, bind_assoc, pure_bind])
theorem zeros_spec {c : Cls} {n : ℕ} {X : SM α} (m : Mem α) (h : SM.zeros c n = .ok X) :
    ∃ r m', zeros c n m = (.ok r, m') ∧ New m m' r X :=
  result_spec m h fun hc => by cases c <;> first | rfl | cases hc
theorem eye_spec {c : Cls} {n : ℕ} {X : SM α} (m : Mem α) (h : SM.eye c n = .ok X) :
    ∃ r m', eye c n m = (.ok r, m') ∧ New m m' r X :=
  result_spec m h fun hc => by cases c <;> first | rfl | cases hc

end Mem
