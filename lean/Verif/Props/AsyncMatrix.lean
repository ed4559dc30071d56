import Verif.Props.Async

/-! # C87: asynchronous reductions of structured matrices -/

namespace As

open State

variable {α : Type} [Field α] {R : ℕ} {op : ReduceOp} {c : Cls} {n : ℕ}

/-! ### Entries of tensors -/

theorem entM_zip {A B C : Mat α} {g : α → α → α} (hr : C.rows = A.rows) (hc : C.cols = A.cols) (hr' : B.rows = A.rows) (hc' : B.cols = A.cols)
    (h : ∀ i < A.rows, ∀ j < A.cols, C.get i j = g (A.get i j) (B.get i j)) : entM C = List.zipWith g (entM A) (entM B) := by
  unfold entM
  rw [hr, hc, hr', hc', List.zipWith_map, List.zipWith_self]
  refine List.map_congr_left fun p hp => ?_
  obtain ⟨h1, h2⟩ := mem_rowMajor.1 hp
  exact h _ h1 _ h2

theorem entV_zip {A B C : Vec α} {g : α → α → α} (hr : C.len = A.len) (hr' : B.len = A.len) (h : ∀ i < A.len, C.get i = g (A.get i) (B.get i)) :
    entV C = List.zipWith g (entV A) (entV B) := by
  unfold entV
  rw [hr, hr', List.zipWith_map, List.zipWith_self]
  exact List.map_congr_left fun i hi => h i (List.mem_range.1 hi)

/-- indices of a 3d tensor -/
def idx3 (a b c : ℕ) : List (ℕ × ℕ × ℕ) := (List.range a).flatMap fun n => (rowMajor b c).map fun p => (n, p)

theorem mem_idx3 {a b c : ℕ} {p : ℕ × ℕ × ℕ} : p ∈ idx3 a b c ↔ p.1 < a ∧ p.2.1 < b ∧ p.2.2 < c := by
  obtain ⟨x, y, z⟩ := p
  simp [idx3, List.mem_flatMap, mem_rowMajor]

theorem entT_eq {β : Type} [Zero β] (d : T3 β) : entT d = (idx3 d.d0 d.d1 d.d2).map fun p => d.get p.1 p.2.1 p.2.2 := by
  simp [entT, idx3, List.map_flatMap, Function.comp_def]

theorem entT_zip {A B C : T3 α} {g : α → α → α} (h0 : C.d0 = A.d0) (h1 : C.d1 = A.d1) (h2 : C.d2 = A.d2) (h0' : B.d0 = A.d0) (h1' : B.d1 = A.d1) (h2' : B.d2 = A.d2)
    (h : ∀ n < A.d0, ∀ i < A.d1, ∀ j < A.d2, C.get n i j = g (A.get n i j) (B.get n i j)) : entT C = List.zipWith g (entT A) (entT B) := by
  rw [entT_eq, entT_eq, entT_eq, h0, h1, h2, h0', h1', h2', List.zipWith_map, List.zipWith_self]
  refine List.map_congr_left fun p hp => ?_
  obtain ⟨q0, q1, q2⟩ := mem_idx3.1 hp
  exact h _ q0 _ q1 _ q2

theorem entM_ext {A B : Mat α} (hr : A.rows = B.rows) (hc : A.cols = B.cols) (h : entM A = entM B) : A = B := by
  unfold entM at h
  rw [← hr, ← hc] at h
  exact Mat.ext' hr hc fun i hi j hj => List.map_inj_left.1 h (i, j) (mem_rowMajor.2 ⟨hi, hj⟩)

theorem entV_ext {A B : Vec α} (hr : A.len = B.len) (h : entV A = entV B) : A = B := by
  unfold entV at h
  rw [← hr] at h
  exact Vec.ext' hr fun i hi => List.map_inj_left.1 h i (List.mem_range.2 hi)

theorem entT_ext {A B : T3 α} (h0 : A.d0 = B.d0) (h1 : A.d1 = B.d1) (h2 : A.d2 = B.d2) (h : entT A = entT B) : A = B := by
  rw [entT_eq, entT_eq, ← h0, ← h1, ← h2] at h
  exact T3.ext' h0 h1 h2 fun n hn i hi j hj => List.map_inj_left.1 h (n, i, j) (mem_idx3.2 ⟨hn, hi, hj⟩)

theorem entM_read (m : Mem α) (d : Mat ℕ) : entM (m.readM d) = (entM d).map m.val := by
  unfold entM Mem.readM
  rw [List.map_map]
  refine List.map_congr_left fun p hp => ?_
  simp only [Mat.rows_ofFn, Mat.cols_ofFn] at hp
  obtain ⟨h1, h2⟩ := mem_rowMajor.1 hp
  simp [h1, h2]

theorem entV_read (m : Mem α) (d : Vec ℕ) : entV (m.readV d) = (entV d).map m.val := by
  unfold entV Mem.readV
  rw [List.map_map]
  refine List.map_congr_left fun i hi => ?_
  simp only [Vec.len_ofFn, List.mem_range] at hi
  simp [hi]

theorem entT_read (m : Mem α) (d : T3 ℕ) : entT (m.readT d) = (entT d).map m.val := by
  rw [entT_eq, entT_eq, Mem.readT, List.map_map]
  refine List.map_congr_left fun p hp => ?_
  simp only [T3.d0_ofFn, T3.d1_ofFn, T3.d2_ofFn] at hp
  obtain ⟨h0, h1, h2⟩ := mem_idx3.1 hp
  simp [h0, h1, h2]

/-- reading reads every tensor -/
theorem tensors_read (m : Mem α) (K : SM ℕ) : tensors (m.read K) = (tensors K).map (·.map m.val) := by
  induction K with
  | topRight a c ca cc A B C iA iC => simp [tensors, Mem.read, iA, iC, entM_read]
  | bottomLeft a c ca cc A B C iA iC => simp [tensors, Mem.read, iA, iC, entM_read]
  | _ => simp [tensors, Mem.read, entM_read, entV_read, entT_read]

/-- the memory of the tensors is the memory of the matrix -/
theorem tensors_loc (K : SM ℕ) : (tensors K).flatten = Mem.loc K := by
  induction K with
  | topRight a c ca cc A B C iA iC => simp [tensors, Mem.loc, iA, iC, entM, Mem.locM]
  | bottomLeft a c ca cc A B C iA iC => simp [tensors, Mem.loc, iA, iC, entM, Mem.locM]
  | _ => simp [tensors, Mem.loc, entM, entV, entT, Mem.locM, Mem.locV, Mem.locT]

/-- a matrix is determined by the entries of its tensors -/
theorem tensors_ext {A B : SM α} (hA : WF c n A) (hB : WF c n B) (h : tensors A = tensors B) : A = B := by
  have app : ∀ {x y x' y' : List (List α)}, x.length = x'.length → x ++ y = x' ++ y' → x = x' ∧ y = y' := fun hl h => List.append_inj h hl
  have len : ∀ {c n} {A B : SM α}, WF c n A → WF c n B → (tensors A).length = (tensors B).length := by
    intro c n A B hA hB
    induction hA generalizing B with
    | topRight hb hA hr hc hC iA iC =>
      cases hB with | topRight hb' hA' hr' hc' hC' =>
      have := hb.unique hb'; subst this
      simp [tensors, iA hA', iC hC']
    | bottomLeft hb hA hr hc hC iA iC =>
      cases hB with | bottomLeft hb' hA' hr' hc' hC' =>
      have := hb.unique hb'; subst this
      simp [tensors, iA hA', iC hC']
    | _ => cases hB; rfl
  induction hA generalizing B with
  | dense hr hc =>
    cases hB with | dense hr' hc' =>
    simp only [tensors, List.cons.injEq, and_true] at h
    rw [entM_ext (hr.trans hr'.symm) (hc.trans hc'.symm) h]
  | diagonal hr =>
    cases hB with | diagonal hr' =>
    simp only [tensors, List.cons.injEq, and_true] at h
    rw [entV_ext (hr.trans hr'.symm) h]
  | tril hn hr =>
    cases hB with | tril _ hr' =>
    simp only [tensors, List.cons.injEq, and_true] at h
    rw [entV_ext (hr.trans hr'.symm) h]
  | triu hn hr =>
    cases hB with | triu _ hr' =>
    simp only [tensors, List.cons.injEq, and_true] at h
    rw [entV_ext (hr.trans hr'.symm) h]
  | @block D n b w =>
    cases hB with | @block _ _ b' w' =>
    simp only [tensors, List.cons.injEq, and_true] at h
    obtain ⟨h1, h2⟩ := h
    have e1 := entT_ext (w.d0.trans w'.d0.symm) (w.d1.trans w'.d1.symm) (w.d2.trans w'.d2.symm) h1
    have e2 := entM_ext (w.lr.trans w'.lr.symm) (w.lc.trans w'.lc.symm) h2
    have e3 := w.hD.trans w'.hD.symm
    obtain ⟨D1, bs, l⟩ := b
    obtain ⟨D2, bs', l'⟩ := b'
    simp only at e1 e2 e3
    subst e1 e2 e3
    rfl
  | @hier m1 m2 n k1 d k2 o hd w =>
    obtain ⟨k1, d, k2, o, o', e, rfl, hd, w, w'⟩ := WF.hier_inv2 (.hier hd w) hB
    cases e
    simp only [tensors, List.cons.injEq, and_true] at h
    obtain ⟨h1, h2, h3, h4, h5⟩ := h
    have e1 := entM_ext (w.Ar.trans w'.Ar.symm) (w.Ac.trans w'.Ac.symm) h1
    have e2 := entM_ext (w.Br.trans w'.Br.symm) (w.Bc.trans w'.Bc.symm) h2
    have e3 := entV_ext (w.Cl.trans w'.Cl.symm) h3
    have e4 := entM_ext (w.Dr.trans w'.Dr.symm) (w.Dc.trans w'.Dc.symm) h4
    have e5 := entM_ext (w.Er.trans w'.Er.symm) (w.Ec.trans w'.Ec.symm) h5
    have e6 := w.h1.trans w'.h1.symm
    have e7 := w.h2.trans w'.h2.symm
    obtain ⟨x1, x2, xA, xB, xC, xD, xE⟩ := o
    obtain ⟨y1, y2, yA, yB, yC, yD, yE⟩ := o'
    simp only at e1 e2 e3 e4 e5 e6 e7
    subst e1 e2 e3 e4 e5 e6 e7
    rfl
  | topRight hb hA hr hc hC iA iC =>
    cases hB with | topRight hb' hA' hr' hc' hC' =>
    have := hb.unique hb'; subst this
    simp only [tensors, List.cons.injEq] at h
    obtain ⟨h1, h2⟩ := h
    obtain ⟨h2, h3⟩ := app (len hA hA') h2
    rw [entM_ext (hr.trans hr'.symm) (hc.trans hc'.symm) h1, iA hA' h2, iC hC' h3]
  | bottomLeft hb hA hr hc hC iA iC =>
    cases hB with | bottomLeft hb' hA' hr' hc' hC' =>
    have := hb.unique hb'; subst this
    simp only [tensors, List.cons.injEq] at h
    obtain ⟨h1, h2⟩ := h
    obtain ⟨h2, h3⟩ := app (len hA hA') h2
    rw [entM_ext (hr.trans hr'.symm) (hc.trans hc'.symm) h1, iA hA' h2, iC hC' h3]

theorem tensors_len {A B : SM α} (hA : WF c n A) (hB : WF c n B) : (tensors A).length = (tensors B).length := by
  induction hA generalizing B with
  | topRight hb hA hr hc hC iA iC =>
    cases hB with | topRight hb' hA' hr' hc' hC' =>
    have := hb.unique hb'; subst this
    simp [tensors, iA hA', iC hC']
  | bottomLeft hb hA hr hc hC iA iC =>
    cases hB with | bottomLeft hb' hA' hr' hc' hC' =>
    have := hb.unique hb'; subst this
    simp [tensors, iA hA', iC hC']
  | _ => cases hB; rfl

theorem flags_len {A : SM α} {f : Contig} (hA : WF c n A) (hf : f.Fits c) : (flags f).length = (tensors A).length := by
  induction hA generalizing f with
  | topRight hb hA hr hc hC iA iC =>
    cases f <;> simp only [Contig.Fits] at hf
    simp [tensors, flags, iA hf.1, iC hf.2]
  | bottomLeft hb hA hr hc hC iA iC =>
    cases f <;> simp only [Contig.Fits] at hf
    simp [tensors, flags, iA hf.1, iC hf.2]
  | _ => cases f <;> simp only [Contig.Fits] at hf <;> rfl

theorem entM_add {A B : Mat α} (hr : B.rows = A.rows) (hc : B.cols = A.cols) (s : α) :
    entM (A.add (B.smul s)) = List.zipWith (fun x y => x + y * s) (entM A) (entM B) :=
  entM_zip rfl rfl hr hc fun i hi j hj => by rw [Mat.get_add (by simp [hr]) (by simp [hc])]; simp

theorem entV_add {A B : Vec α} (hr : B.len = A.len) (s : α) : entV (A.add (B.smul s)) = List.zipWith (fun x y => x + y * s) (entV A) (entV B) :=
  entV_zip rfl hr fun i hi => by rw [Vec.get_add (by simp [hr])]; simp

theorem entT_add {A B : T3 α} (h0 : B.d0 = A.d0) (h1 : B.d1 = A.d1) (h2 : B.d2 = A.d2) (s : α) :
    entT (A.add (B.smul s)) = List.zipWith (fun x y => x + y * s) (entT A) (entT B) :=
  entT_zip rfl rfl rfl h0 h1 h2 fun n hn i hi j hj => by
    simp [T3.add, T3.smul, hn, hi, hj, h0, h1, h2]

/-- `add_` adds in every entry of every tensor -/
theorem tensors_add {A B : SM α} (hA : WF c n A) (hB : WF c n B) (s : α) :
    ∃ C, A.add_ B s = .ok C ∧ tensors C = List.zipWith (List.zipWith fun x y => x + y * s) (tensors A) (tensors B) := by
  induction hA generalizing B with
  | dense hr hc =>
    cases hB with | dense hr' hc' =>
    have h1 := hr'.trans hr.symm
    have h2 := hc'.trans hc.symm
    refine ⟨_, by rw [SM.add_, Mat.add?_ok (by simp [h1]) (by simp [h2])]; rfl, ?_⟩
    simp [tensors, entM_add h1 h2]
  | diagonal hr =>
    cases hB with | diagonal hr' =>
    have h1 := hr'.trans hr.symm
    refine ⟨_, by rw [SM.add_, Vec.add?_ok (by simp [h1])]; rfl, ?_⟩
    simp [tensors, entV_add h1]
  | tril hn hr =>
    cases hB with | tril _ hr' =>
    have h1 := hr'.trans hr.symm
    refine ⟨_, by rw [SM.add_, Vec.add?_ok (by simp [h1])]; rfl, ?_⟩
    simp [tensors, entV_add h1]
  | triu hn hr =>
    cases hB with | triu _ hr' =>
    have h1 := hr'.trans hr.symm
    refine ⟨_, by rw [SM.add_, Vec.add?_ok (by simp [h1])]; rfl, ?_⟩
    simp [tensors, entV_add h1]
  | @block D n b w =>
    cases hB with | @block _ _ b' w' =>
    have h0 := w'.d0.trans w.d0.symm
    have h1 := w'.d1.trans w.d1.symm
    have h2 := w'.d2.trans w.d2.symm
    have h3 := w'.lr.trans w.lr.symm
    have h4 := w'.lc.trans w.lc.symm
    refine ⟨_, by
      rw [SM.add_, T3.add?_ok (by simp [T3.smul, h0]) (by simp [T3.smul, h1]) (by simp [T3.smul, h2]), Except.bind_ok',
        Mat.add?_ok (by simp [h3]) (by simp [h4])]; rfl, ?_⟩
    simp [tensors, entT_add h0 h1 h2, entM_add h3 h4]
  | @hier m1 m2 n k1 d k2 o hd w =>
    obtain ⟨k1, d, k2, o, o', e, rfl, hd, w, w'⟩ := WF.hier_inv2 (.hier hd w) hB
    cases e
    have a1 := w'.Ar.trans w.Ar.symm
    have a2 := w'.Ac.trans w.Ac.symm
    have b1 := w'.Br.trans w.Br.symm
    have b2 := w'.Bc.trans w.Bc.symm
    have c1 := w'.Cl.trans w.Cl.symm
    have d1 := w'.Dr.trans w.Dr.symm
    have d2 := w'.Dc.trans w.Dc.symm
    have e1 := w'.Er.trans w.Er.symm
    have e2 := w'.Ec.trans w.Ec.symm
    refine ⟨_, by
      rw [SM.add_, Mat.add?_ok (by simp [a1]) (by simp [a2]), Except.bind_ok', Mat.add?_ok (by simp [b1]) (by simp [b2]), Except.bind_ok',
        Vec.add?_ok (by simp [c1]), Except.bind_ok', Mat.add?_ok (by simp [d1]) (by simp [d2]), Except.bind_ok', Mat.add?_ok (by simp [e1]) (by simp [e2])]; rfl, ?_⟩
    simp [tensors, entM_add a1 a2, entM_add b1 b2, entV_add c1, entM_add d1 d2, entM_add e1 e2]
  | topRight hb hA hr hc hC iA iC =>
    cases hB with | topRight hb' hA' hr' hc' hC' =>
    have := hb.unique hb'; subst this
    have h1 := hr'.trans hr.symm
    have h2 := hc'.trans hc.symm
    obtain ⟨P, eP, tP⟩ := iA hA'
    obtain ⟨Q, eQ, tQ⟩ := iC hC'
    refine ⟨_, by rw [SM.add_, Mat.add?_ok (by simp [h1]) (by simp [h2]), Except.bind_ok', eP, Except.bind_ok', eQ]; rfl, ?_⟩
    simp only [tensors, entM_add h1 h2, tP, tQ, List.zipWith_cons_cons, List.zipWith_append (tensors_len hA hA')]
  | bottomLeft hb hA hr hc hC iA iC =>
    cases hB with | bottomLeft hb' hA' hr' hc' hC' =>
    have := hb.unique hb'; subst this
    have h1 := hr'.trans hr.symm
    have h2 := hc'.trans hc.symm
    obtain ⟨P, eP, tP⟩ := iA hA'
    obtain ⟨Q, eQ, tQ⟩ := iC hC'
    refine ⟨_, by rw [SM.add_, Mat.add?_ok (by simp [h1]) (by simp [h2]), Except.bind_ok', eP, Except.bind_ok', eQ]; rfl, ?_⟩
    simp only [tensors, entM_add h1 h2, tP, tQ, List.zipWith_cons_cons, List.zipWith_append (tensors_len hA hA')]

theorem entM_smul (A : Mat α) (s : α) : entM (A.smul s) = (entM A).map (· * s) := by
  simp [entM, Mat.smul, List.map_map, Function.comp_def]
  exact fun a b h => fun h1 => by have := mem_rowMajor.1 h; omega

theorem entV_smul (A : Vec α) (s : α) : entV (A.smul s) = (entV A).map (· * s) := by
  simp [entV, Vec.smul, List.map_map, Function.comp_def]
  exact fun a h h' => absurd h' (by omega)

theorem entT_smul (A : T3 α) (s : α) : entT (A.smul s) = (entT A).map (· * s) := by
  rw [entT_eq, entT_eq, List.map_map]
  refine List.map_congr_left fun p hp => ?_
  simp only [T3.smul, T3.d0_ofFn, T3.d1_ofFn, T3.d2_ofFn] at hp
  simp [T3.smul, mem_idx3.1 hp]

/-- `mul_` multiplies every entry of every tensor -/
theorem tensors_mul (A : SM α) (s : α) : tensors (A.mul_ s) = (tensors A).map (·.map (· * s)) := by
  induction A with
  | topRight a c ca cc A B C iA iC => simp [tensors, SM.mul_, iA, iC, entM_smul]
  | bottomLeft a c ca cc A B C iA iC => simp [tensors, SM.mul_, iA, iC, entM_smul]
  | _ => simp [tensors, SM.mul_, entM_smul, entV_smul, entT_smul]

/-- tensor-wise choice -/
theorem tensors_pick {A B : SM α} {f : Contig} (hA : WF c n A) (hB : WF c n B) (hf : f.Fits c) :
    tensors (SM.pick f A B) = List.zipWith (fun b (p : List α × List α) => if b then p.2 else p.1) (flags f) ((tensors A).zip (tensors B)) := by
  induction hA generalizing B f with
  | dense hr hc =>
    cases hB; cases f <;> simp only [Contig.Fits] at hf
    rename_i b; cases b <;> rfl
  | diagonal hr =>
    cases hB; cases f <;> simp only [Contig.Fits] at hf
    rename_i b; cases b <;> rfl
  | tril hn hr =>
    cases hB; cases f <;> simp only [Contig.Fits] at hf
    rename_i b; cases b <;> rfl
  | triu hn hr =>
    cases hB; cases f <;> simp only [Contig.Fits] at hf
    rename_i b; cases b <;> rfl
  | block w =>
    cases hB; cases f <;> simp only [Contig.Fits] at hf
    rename_i a b; cases a <;> cases b <;> rfl
  | hier hd w =>
    cases hB; cases f <;> simp only [Contig.Fits] at hf
    rename_i a b c d e; cases a <;> cases b <;> cases c <;> cases d <;> cases e <;> rfl
  | topRight hb hA hr hc hC iA iC =>
    cases hB with | topRight hb' hA' hr' hc' hC' =>
    have := hb.unique hb'; subst this
    cases f <;> simp only [Contig.Fits] at hf
    rename_i fA b fC
    simp only [SM.pick, tensors, flags, List.zip_cons_cons, List.zipWith_cons_cons, iA hA' hf.1, iC hC' hf.2]
    rw [List.zip_append (tensors_len hA hA'), List.zipWith_append (by rw [List.length_zip, tensors_len hA hA', min_self, flags_len hA' hf.1])]
    cases b <;> rfl
  | bottomLeft hb hA hr hc hC iA iC =>
    cases hB with | bottomLeft hb' hA' hr' hc' hC' =>
    have := hb.unique hb'; subst this
    cases f <;> simp only [Contig.Fits] at hf
    rename_i fA b fC
    simp only [SM.pick, tensors, flags, List.zip_cons_cons, List.zipWith_cons_cons, iA hA' hf.1, iC hC' hf.2]
    rw [List.zip_append (tensors_len hA hA'), List.zipWith_append (by rw [List.length_zip, tensors_len hA hA', min_self, flags_len hA' hf.1])]
    cases b <;> rfl

/-- well-formedness does not depend on the contents of the memory -/
theorem wf_read {m m' : Mem α} {K : SM ℕ} (h : WF c n (m.read K)) : WF c n (m'.read K) := by
  induction K generalizing c n with
  | dense d => cases h with | dense hr hc => exact .dense hr hc
  | diagonal d => cases h with | diagonal h => exact .diagonal h
  | tril d => cases h with | tril hn h => exact .tril hn h
  | triu d => cases h with | triu hn h => exact .triu hn h
  | block b => cases h with | block w => exact .block ⟨w.pos, w.hD, w.d0, w.d1, w.d2, w.lr, w.lc⟩
  | hier o =>
    cases h with | hier hd w =>
    exact .hier hd ⟨w.h1, w.h2, w.le1, w.le2, w.Ar, w.Ac, w.Br, w.Bc, w.Cl, w.Dr, w.Dc, w.Er, w.Ec⟩
  | topRight a c ca cc A B C iA iC => cases h with | topRight hb hA hr hc hC => exact .topRight hb (iA hA) hr hc (iC hC)
  | bottomLeft a c ca cc A B C iA iC => cases h with | bottomLeft hb hA hr hc hC => exact .bottomLeft hb (iA hA) hr hc (iC hC)

theorem entry_zip {β γ δ : Type} {g : β → γ → δ} {a : List (List β)} {b : List (List γ)} {k e : ℕ} {x : β} {y : γ} (ha : entry a k e = some x)
    (hb : entry b k e = some y) : entry (List.zipWith (List.zipWith g) a b) k e = some (g x y) := by
  unfold entry at *
  rw [Option.bind_eq_some_iff] at ha hb
  obtain ⟨p, hp, ha⟩ := ha
  obtain ⟨q, hq, hb⟩ := hb
  simp [List.getElem?_zipWith, hp, hq, ha, hb]

theorem entry_map {β γ : Type} {g : β → γ} {a : List (List β)} {k e : ℕ} : entry (a.map (·.map g)) k e = (entry a k e).map g := by
  unfold entry
  rw [List.getElem?_map]
  cases a[k]? <;> simp

theorem foldlM_entry {K : SM α} {k e : ℕ} {x : α} : ∀ {Ls : List (SM α)} {xs : List α}, WF c n K → (∀ L ∈ Ls, WF c n L) → entry (tensors K) k e = some x →
    (Ls.map fun L => entry (tensors L) k e) = xs.map some → ∀ {S : SM α}, Ls.foldlM (fun S L => S.add_ L 1) K = Except.ok S → entry (tensors S) k e = some (x + xs.sum) := by
  intro Ls
  induction Ls generalizing K x with
  | nil =>
    intro xs _ _ h hx S hS
    cases hS
    cases xs with
    | nil => simpa using h
    | cons y ys => simp at hx
  | cons L Ls ih =>
    intro xs hK hL h hx S hS
    cases xs with
    | nil => simp at hx
    | cons y ys =>
      simp only [List.map_cons, List.cons.injEq] at hx
      obtain ⟨P, e1, w, -⟩ := (C04_inplace_exact hK (hL L (by simp)) 1).1
      obtain ⟨P', e2, tP⟩ := tensors_add hK (hL L (by simp)) 1
      rw [e1] at e2
      cases e2
      rw [List.foldlM_cons, e1] at hS
      have hP : entry (tensors P) k e = some (x + y) := by
        rw [tP, entry_zip h hx.1, mul_one]
      rw [ih w (fun M hM => hL M (by simp [hM])) hP hx.2 hS, List.sum_cons, add_assoc]

/-- the entries of the sum or mean over ranks -/
theorem reduceParts_entry {Ks : Fin R → SM α} (hK : ∀ r, WF c n (Ks r)) {S : SM α} (hS : SM.reduceParts op Ks = .ok S) {k e : ℕ} {x : Fin R → α}
    (hx : ∀ q, entry (tensors (Ks q)) k e = some (x q)) : entry (tensors S) k e = some (op.factor R * ∑ q, x q) := by
  cases R with
  | zero => simp [SM.reduceParts] at hS
  | succ R =>
    rw [SM.reduceParts, List.ofFn_succ] at hS
    dsimp only at hS
    rcases hf : (List.ofFn fun i : Fin R => Ks i.succ).foldlM (fun S L => S.add_ L 1) (Ks 0) with er | P
    · rw [hf] at hS; cases hS
    · rw [hf] at hS
      cases hS
      have := foldlM_entry (k := k) (e := e) (x := x 0) (xs := List.ofFn fun i : Fin R => x i.succ) (hK 0) (by
        intro L hL
        obtain ⟨i, rfl⟩ := (List.mem_ofFn' _ _).1 hL
        exact hK _) (hx 0) (by simp [List.map_ofFn, Function.comp_def, hx]) hf
      rw [tensors_mul, entry_map, this, Fin.sum_univ_succ, List.sum_ofFn]
      simp [mul_comm]

theorem tensors_shape {A B : SM α} (hA : WF c n A) (hB : WF c n B) : (tensors A).map List.length = (tensors B).map List.length := by
  induction hA generalizing B with
  | dense hr hc => cases hB with | dense hr' hc' => simp [tensors, entM, hr, hr', hc, hc']
  | diagonal h => cases hB with | diagonal h' => simp [tensors, entV, h, h']
  | tril _ h => cases hB with | tril _ h' => simp [tensors, entV, h, h']
  | triu _ h => cases hB with | triu _ h' => simp [tensors, entV, h, h']
  | block w => cases hB with | block w' => simp only [tensors, entT, entM, w.d0, w.d1, w.d2, w.lr, w.lc, w'.d0, w'.d1, w'.d2, w'.lr, w'.lc, List.map_cons, List.length_map, List.length_flatMap]
  | hier hd w =>
    obtain ⟨k1, d, k2, o, o', e, rfl, hd, w, w'⟩ := WF.hier_inv2 (.hier hd w) hB
    cases e
    simp only [tensors, entV, entM, w.Ar, w.Ac, w.Br, w.Bc, w.Cl, w.Dr, w.Dc, w.Er, w.Ec, w'.Ar, w'.Ac, w'.Br, w'.Bc, w'.Cl, w'.Dr, w'.Dc, w'.Er, w'.Ec, List.map_cons,
      List.length_map]
  | topRight hb hA hr hc hC iA iC =>
    cases hB with | topRight hb' hA' hr' hc' hC' =>
    have := hb.unique hb'; subst this
    simp [tensors, entM, hr, hr', hc, hc', iA hA', iC hC']
  | bottomLeft hb hA hr hc hC iA iC =>
    cases hB with | bottomLeft hb' hA' hr' hc' hC' =>
    have := hb.unique hb'; subst this
    simp [tensors, entM, hr, hr', hc, hc', iA hA', iC hC']

theorem entry_ext {β : Type} {a b : List (List β)} (hl : a.map List.length = b.map List.length) (h : ∀ k e x, entry a k e = some x → entry b k e = some x) : a = b := by
  have h1 : a.length = b.length := by simpa using congrArg List.length hl
  refine List.ext_getElem h1 fun k hk hk' => ?_
  have h2 : a[k].length = b[k].length := by
    have := List.getElem_of_eq hl (i := k) (by simpa using hk)
    simpa using this
  refine List.ext_getElem h2 fun e he he' => ?_
  have := h k e a[k][e] (by simp [entry, hk, he])
  simp only [entry, List.getElem?_eq_getElem hk', Option.bind_some, List.getElem?_eq_getElem he', Option.some.injEq] at this
  exact this.symm

/-- **C87 (structured matrices).** All ranks call `all_reduce` on matrices of the same class and dimension, asynchronously or not, before, after and between any other work on other memory
and other calls, under any schedule. On every rank that has waited for all handles that `all_reduce` returned, the matrix is the one that the blocking
`all_reduce` of all ranks gives, computed from the matrices at the start (`SM.allReduce`: mean or sum over ranks in the contiguous tensors, the others as they were). -/
theorem C87_all_reduce (hR : 0 < R) {mem : Fin R → Mem α} {as : List (Act α R)} {s : State α R} (ht : Tidy mem as) (he : exec op as (start mem) = some s) {K : Fin R → SM ℕ}
    {f : Fin R → Contig} (hK : ∀ r, WF c n ((mem r).read (K r))) (hf : ∀ r, (f r).Fits c) {p : ℕ} {pre post : Fin R → List (List ℕ × Bool)}
    (hp : ∀ r, (pre r).length = p) (hc : ∀ r, calls r as = pre r ++ allReduceCalls (K r) (f r) ++ post r) :
    ∃ Ss, SM.allReduce op f (fun r => (mem r).read (K r)) = .ok Ss ∧
      ∀ r, (∀ k < (allReduceCalls (K r) (f r)).length, Act.wait r (p + k) ∈ as) → (s.mem r).read (K r) = Ss r := by
  obtain ⟨S, eS, wS, -⟩ := reduceParts_spec op hR hK
  refine ⟨fun r => SM.pick (f r) ((mem r).read (K r)) S, by rw [SM.allReduce, eS]; rfl, fun r hw => ?_⟩
  have hlen : ∀ q, (flags (f q)).length = (tensors (K q)).length := by
    intro q
    have := flags_len (hK q) (hf q)
    rwa [tensors_read, List.length_map] at this
  have hpos : ∀ q k, k < (tensors (K q)).length → (calls q as)[p + k]? = (allReduceCalls (K q) (f q))[k]? := by
    intro q k hk
    have h1 : (allReduceCalls (K q) (f q)).length = (tensors (K q)).length := by simp [allReduceCalls, hlen]
    rw [hc q, List.append_assoc, List.getElem?_append_right (by rw [hp]; omega), hp, Nat.add_sub_cancel_left,
      List.getElem?_append_left (by rw [h1]; exact hk)]
  refine tensors_ext (wf_read (hK r)) (pick_wf (hK r) wS) (entry_ext (tensors_shape (wf_read (hK r)) (pick_wf (hK r) wS)) fun k e x hx => ?_)
  rw [tensors_read, entry_map, Option.map_eq_some_iff] at hx
  obtain ⟨a, ha, rfl⟩ := hx
  have hk : k < (tensors (K r)).length := entry_lt ha
  have hkf : k < (flags (f r)).length := by rw [hlen]; exact hk
  set l := (tensors (K r))[k] with hl
  have hea : l[e]? = some a := by simpa [entry, hk] using ha
  obtain ⟨hel, hea'⟩ := List.getElem?_eq_some_iff.1 hea
  have hcall : (calls r as)[p + k]? = some (l, (flags (f r))[k]) := by
    rw [hpos r k hk, allReduceCalls, List.getElem?_eq_getElem (by simpa [hlen] using hk), List.getElem_zip]
  obtain ⟨T1, T2⟩ := C87_tensors ht he r (p + k) l
  have hSk : k < (tensors S).length := by rw [← tensors_len (hK r) wS, tensors_read, List.length_map]; exact hk
  have hMk : k < (tensors ((mem r).read (K r))).length := by rw [tensors_read, List.length_map]; exact hk
  have hpick : entry (tensors (SM.pick (f r) ((mem r).read (K r)) S)) k e =
      if (flags (f r))[k] then entry (tensors S) k e else entry (tensors ((mem r).read (K r))) k e := by
    rw [tensors_pick (hK r) wS (hf r)]
    simp only [entry, List.getElem?_zipWith, List.getElem?_eq_getElem hkf, List.zip, List.getElem?_eq_getElem hSk, List.getElem?_eq_getElem hMk, Option.bind_some]
    split <;> rfl
  rw [hpick]
  split
  · rename_i hfl
    rw [hfl] at hcall
    obtain ⟨x, hx, hv⟩ := T1 hcall (hw k (by simpa [allReduceCalls, hlen] using hk)) e hel
    rw [← hea', hv, show (if op = .avg then 1 / (R : α) else 1) = op.factor R by cases op <;> rfl]
    refine reduceParts_entry hK eS fun q => ?_
    obtain ⟨m, b, hm, a', ha', hxa⟩ := hx q
    have hkq : k < (tensors (K q)).length := by
      have h1 := tensors_len (hK q) (hK r)
      rw [tensors_read, tensors_read, List.length_map, List.length_map] at h1
      omega
    rw [hpos q k hkq, allReduceCalls, List.getElem?_eq_getElem (by simpa [hlen] using hkq), List.getElem_zip] at hm
    simp only [Option.some.injEq, Prod.mk.injEq] at hm
    rw [tensors_read, entry_map, entry, List.getElem?_eq_getElem hkq, hm.1, Option.bind_some, ha', hxa]
    rfl
  · rename_i hfl
    rw [Bool.not_eq_true] at hfl
    rw [hfl] at hcall
    have := congrArg (·[e]?) (T2 hcall)
    simp only [List.getElem?_map, hea, Option.map_some, Option.some.injEq] at this
    rw [tensors_read, entry_map, ha, Option.map_some, this]

/-! ### Nothing gets stuck -/

/-- entries read in an execution -/
def takes (as : List (Act α R)) : List (Fin R × ℕ × ℕ) := as.filterMap fun
  | .take r k e => some (r, k, e)
  | _ => none
/-- entries stored in an execution -/
def gives (as : List (Act α R)) : List (Fin R × ℕ × ℕ) := as.filterMap fun
  | .give r k e => some (r, k, e)
  | _ => none

theorem cell_act {s t : State α R} {a : Act α R} (h : act op s a = some t) {r : Fin R} {k e b : ℕ} (hc : s.cell r k e = some b) : t.cell r k e = some b := by
  cases a with
  | call q l c =>
    simp only [act, Option.some.injEq] at h
    subst h
    rw [cell_eq] at hc ⊢
    by_cases hq : r = q
    · subst hq
      simp only [if_true]
      rw [entry_append_left (entry_lt hc).ne]
      exact hc
    · simp only [if_neg hq]; exact hc
  | write q a v => simp only [act, Option.some.injEq] at h; subst h; exact hc
  | wait q j =>
    simp only [act] at h
    split at h
    · simp only [Option.some.injEq] at h; subst h; exact hc
    · simp at h
  | take q j e =>
    simp only [act, Option.bind_eq_bind, Option.bind_eq_some_iff] at h
    obtain ⟨b, hb, h⟩ := h
    split at h
    · simp only [Option.some.injEq] at h; subst h; exact hc
    · simp at h
  | scratch q j e v =>
    simp only [act, Option.bind_eq_bind, Option.bind_eq_some_iff] at h
    obtain ⟨b, hb, h⟩ := h
    split at h
    · simp only [Option.some.injEq] at h; subst h; exact hc
    · simp at h
  | give q j e =>
    simp only [act, Option.bind_eq_bind, Option.bind_eq_some_iff] at h
    obtain ⟨b, hb, v, hv, h⟩ := h
    split at h
    · simp only [Option.some.injEq] at h; subst h; exact hc
    · simp at h

theorem cell_exec {as : List (Act α R)} {s t : State α R} (h : exec op as s = some t) {r : Fin R} {k e b : ℕ} (hc : s.cell r k e = some b) :
    t.cell r k e = some b := by
  induction as generalizing s with
  | nil => simp only [exec, Option.some.injEq] at h; subst h; exact hc
  | cons a as ih =>
    simp only [exec, Option.bind_eq_some_iff] at h
    obtain ⟨u, hu, h⟩ := h
    exact ih h (cell_act hu hc)

/-- what one event does to the marks -/
theorem marks {s t : State α R} {a : Act α R} (h : act op s a = some t) (r : Fin R) (k e : ℕ) :
    (t.took r k e ≠ none ↔ s.took r k e ≠ none ∨ (r, k, e) ∈ takes [a]) ∧ (t.gave r k e = true ↔ s.gave r k e = true ∨ (r, k, e) ∈ gives [a]) ∧
    ((r, k, e) ∈ takes [a] → s.took r k e = none ∧ ∃ b, s.cell r k e = some b) ∧ ((r, k, e) ∈ gives [a] → s.gave r k e = false ∧ ∃ b, s.cell r k e = some b) := by
  cases a with
  | call q l c => simp only [act, Option.some.injEq] at h; subst h; simp [takes, gives]
  | write q a v => simp only [act, Option.some.injEq] at h; subst h; simp [takes, gives, State.store]
  | wait q j =>
    simp only [act] at h
    split at h
    · simp only [Option.some.injEq] at h; subst h; simp [takes, gives]
    · simp at h
  | take q j i =>
    simp only [act, Option.bind_eq_bind, Option.bind_eq_some_iff] at h
    obtain ⟨b, hb, h⟩ := h
    split at h
    · rename_i hn
      simp only [Option.some.injEq] at h; subst h
      by_cases hx : r = q ∧ k = j ∧ e = i
      · obtain ⟨rfl, rfl, rfl⟩ := hx; simp [takes, gives, hn, hb]
      · simp [takes, gives, hx]
    · simp at h
  | scratch q j e v =>
    simp only [act, Option.bind_eq_bind, Option.bind_eq_some_iff] at h
    obtain ⟨b, hb, h⟩ := h
    split at h
    · simp only [Option.some.injEq] at h; subst h; simp [takes, gives, State.store]
    · simp at h
  | give q j i =>
    simp only [act, Option.bind_eq_bind, Option.bind_eq_some_iff] at h
    obtain ⟨b, hb, v, hv, h⟩ := h
    split at h
    · rename_i hn
      simp only [Option.some.injEq] at h; subst h
      by_cases hx : r = q ∧ k = j ∧ e = i
      · obtain ⟨rfl, rfl, rfl⟩ := hx; simp [takes, gives, hn, hb, State.store]
      · simp [takes, gives, hx, State.store]
    · simp at h

theorem takes_cons (a : Act α R) (as : List (Act α R)) : takes (a :: as) = takes [a] ++ takes as := by
  cases a <;> simp [takes, List.filterMap_cons]
theorem gives_cons (a : Act α R) (as : List (Act α R)) : gives (a :: as) = gives [a] ++ gives as := by
  cases a <;> simp [gives, List.filterMap_cons]

theorem once {as : List (Act α R)} {s t : State α R} (h : exec op as s = some t) :
    (takes as).Nodup ∧ (gives as).Nodup ∧
    (∀ r k e, (r, k, e) ∈ takes as → s.took r k e = none ∧ ∃ b, t.cell r k e = some b) ∧
    ∀ r k e, (r, k, e) ∈ gives as → s.gave r k e = false ∧ ∃ b, t.cell r k e = some b := by
  induction as generalizing s with
  | nil => simp [takes, gives]
  | cons a as ih =>
    simp only [exec, Option.bind_eq_some_iff] at h
    obtain ⟨u, hu, h⟩ := h
    obtain ⟨i1, i2, i3, i4⟩ := ih h
    have n1 : (takes [a]).Nodup := by cases a <;> simp [takes]
    have n2 : (gives [a]).Nodup := by cases a <;> simp [gives]
    refine ⟨?_, ?_, fun r k e hm => ?_, fun r k e hm => ?_⟩
    · rw [takes_cons, List.nodup_append']
      refine ⟨n1, i1, ?_⟩
      rintro ⟨r, k, e⟩ h1 h2
      exact ((marks hu r k e).1.2 (Or.inr h1)) (i3 r k e h2).1
    · rw [gives_cons, List.nodup_append']
      refine ⟨n2, i2, ?_⟩
      rintro ⟨r, k, e⟩ h1 h2
      have := (marks hu r k e).2.1.2 (Or.inr h1)
      rw [(i4 r k e h2).1] at this
      simp at this
    · rw [takes_cons, List.mem_append] at hm
      obtain ⟨m1, -, m3, -⟩ := marks hu r k e
      rcases hm with hm | hm
      · obtain ⟨q1, b, q2⟩ := m3 hm
        exact ⟨q1, b, cell_exec h (cell_act hu q2)⟩
      · obtain ⟨q1, q2⟩ := i3 r k e hm
        refine ⟨?_, q2⟩
        by_contra hc
        exact m1.2 (Or.inl hc) q1
    · rw [gives_cons, List.mem_append] at hm
      obtain ⟨-, m1, -, m3⟩ := marks hu r k e
      rcases hm with hm | hm
      · obtain ⟨q1, b, q2⟩ := m3 hm
        exact ⟨q1, b, cell_exec h (cell_act hu q2)⟩
      · obtain ⟨q1, q2⟩ := i4 r k e hm
        refine ⟨?_, q2⟩
        by_contra hc
        have := m1.2 (Or.inl (by simpa using hc))
        rw [q1] at this
        simp at this

/-- **C87 (no deadlock).** In every execution each entry of each call is read and stored at most once per rank, so the library has a bounded amount of work. When it cannot go on (nothing
can be read or stored any more) and the ranks have made the same number of calls with the same numbers of entries, all waits return - in whatever order they are made. -/
theorem C87_no_deadlock {mem : Fin R → Mem α} {as : List (Act α R)} {s : State α R} (he : exec op as (start mem) = some s) :
    (takes as).Nodup ∧ (gives as).Nodup ∧ (∀ r k e, (r, k, e) ∈ takes as ∨ (r, k, e) ∈ gives as → ∃ l, (s.jobs r)[k]? = some l ∧ e < l.length) ∧
    ((∀ r k e, act op s (.take r k e) = none ∧ act op s (.give r k e) = none) → (∀ q r, (s.jobs q).map List.length = (s.jobs r).map List.length) →
      ∀ r k, k < (s.jobs r).length → act op s (.wait r k) ≠ none) := by
  obtain ⟨h1, h2, h3, h4⟩ := once he
  refine ⟨h1, h2, fun r k e hm => ?_, fun hs hl r k hk => ?_⟩
  · have : ∃ b, s.cell r k e = some b := hm.elim (fun h => (h3 r k e h).2) fun h => (h4 r k e h).2
    obtain ⟨b, hb⟩ := this
    rw [cell_eq, entry, Option.bind_eq_some_iff] at hb
    obtain ⟨l, hl, hb⟩ := hb
    exact ⟨l, hl, (List.getElem?_eq_some_iff.1 hb).1⟩
  · -- everything was read
    have took : ∀ q k e b, s.cell q k e = some b → s.took q k e ≠ none := by
      intro q k e b hb hn
      have := (hs q k e).1
      simp [act, hb, hn] at this
    have cells : ∀ q k e b, s.cell r k e = some b → ∃ b', s.cell q k e = some b' := by
      intro q k e b hb
      have := entry_len (hl q r) k e
      rw [cell_eq] at hb
      rw [hb] at this
      exact Option.isSome_iff_exists.1 this
    have hg : ∀ e b, s.cell r k e = some b → s.gave r k e = true := by
      intro e b hb
      by_contra hn
      have := (hs r k e).2
      have hr : s.result op k e = some (op.factor R * ∑ q, (s.took q k e).getD 0) := by
        rw [result, if_pos]
        intro q
        obtain ⟨b', hb'⟩ := cells q k e b hb
        exact Option.isSome_iff_ne_none.2 (took q k e b' hb')
      simp [act, hb, hr, hn] at this
    have : s.complete r k = true := by
      rw [complete, List.getElem?_eq_getElem hk]
      simp only [List.all_eq_true, List.mem_range]
      intro e he
      exact hg e (s.jobs r)[k][e] (by simp [cell_eq, entry, hk, he])
    simp [act, this]

/-! ### What goes wrong without waiting -/

namespace Sample

/-- two ranks with one number each: 1 and 3 -/
def mem : Fin 2 → Mem ℚ := fun r => ⟨fun a => if a = 0 then 1 + 2 * r else 7, 2⟩

/-- both ranks reduce their number and wait; rank 0 finishes first -/
def both : List (Act ℚ 2) := [.call 0 [0] true, .take 0 0 0, .call 1 [0] true, .take 1 0 0, .give 0 0 0, .wait 0 0, .write 0 1 5, .give 1 0 0, .wait 1 0]

/-- rank 0 does not wait -/
def early (v : ℚ) : List (Act ℚ 2) := [.call 0 [0] true, .take 0 0 0, .scratch 0 0 0 v, .call 1 [0] true, .take 1 0 0, .give 1 0 0, .wait 1 0]

/-- rank 0 changes its number before it waits; the library has read it before ... -/
def raceA : List (Act ℚ 2) := [.call 0 [0] true, .call 1 [0] true, .take 0 0 0, .take 1 0 0, .write 0 0 9, .give 0 0 0, .give 1 0 0, .wait 0 0, .wait 1 0]
/-- ... or reads it afterwards -/
def raceB : List (Act ℚ 2) := [.call 0 [0] true, .call 1 [0] true, .write 0 0 9, .take 0 0 0, .take 1 0 0, .give 0 0 0, .give 1 0 0, .wait 0 0, .wait 1 0]

end Sample

/-- what the program of rank `r` does -/
def program {α : Type} {R : ℕ} (r : Fin R) (as : List (Act α R)) : List (Act α R) := as.filter fun
  | .call q _ _ => q = r
  | .write q _ _ => q = r
  | .wait q _ => q = r
  | _ => false

/-- **C87 (false without waiting).** All ranks have called, rank 1 has waited and continues: the memory of rank 0, which has not waited, can contain anything. -/
theorem C87_early_false (v : ℚ) : ∃ s, Tidy Sample.mem (Sample.early v) ∧ exec .avg (Sample.early v) (start Sample.mem) = some s ∧
    (∀ r, calls r (Sample.early v) = allReduceCalls (.dense (.ofLists 1 1 [[0]])) (.one true)) ∧ Act.wait 1 0 ∈ Sample.early v ∧ (s.mem 1).val 0 = 2 ∧ (s.mem 0).val 0 = v := by
  have hc : ∀ r, calls r (Sample.early v) = [([0], true)] := by
    intro r
    fin_cases r <;> rfl
  have ht : Tidy Sample.mem (Sample.early v) := by
    refine ⟨fun r => by rw [hc]; decide, fun r a ha => ?_, fun r a w hm => ?_⟩
    · rw [hc] at ha
      simp [memory] at ha
      subst ha
      fin_cases r <;> decide
    · simp [Sample.early] at hm
  have hw : Act.wait 1 0 ∈ Sample.early v := by simp [Sample.early]
  refine ⟨_, ht, rfl, fun r => by rw [hc]; rfl, hw, ?_, rfl⟩
  obtain ⟨x, hx, h⟩ := (C87_tensors ht rfl 1 0 [0]).1 (by rw [hc]; rfl) hw 0 (by decide)
  have hx' : ∀ q, x q = (Sample.mem q).val 0 := by
    intro q
    obtain ⟨m, c, h1, a, h2, h3⟩ := hx q
    rw [hc] at h1
    cases h1
    cases h2
    exact h3
  refine h.trans ?_
  simp only [hx', Fin.sum_univ_two]
  decide +kernel

/-- **C87 (false if a tensor is written to before the wait).** Rank 0 writes to its tensor between call and wait. Then the result on rank 1, whose program is blameless, depends on the schedule. -/
theorem C87_write_false : ∃ (as bs : List (Act ℚ 2)) (s t : State ℚ 2), (∀ r, program r as = program r bs) ∧ (∀ r, Act.wait r 0 ∈ as) ∧
    exec .avg as (start Sample.mem) = some s ∧ exec .avg bs (start Sample.mem) = some t ∧ (s.mem 1).val 0 ≠ (t.mem 1).val 0 := by
  refine ⟨Sample.raceA, Sample.raceB, _, _, fun r => ?_, fun r => ?_, rfl, rfl, ?_⟩
  · fin_cases r <;> rfl
  · fin_cases r <;> simp [Sample.raceA]
  · decide +kernel

/-! ### The hypotheses can be met -/

theorem Sample.both_tidy : Tidy Sample.mem Sample.both := by
  have hc : ∀ r, calls r Sample.both = [([0], true)] := by
    intro r
    fin_cases r <;> rfl
  refine ⟨fun r => by rw [hc]; decide, fun r a ha => ?_, fun r a w hm => ?_⟩
  · rw [hc] at ha
    simp [memory] at ha
    subst ha
    fin_cases r <;> decide
  · simp [Sample.both] at hm
    obtain ⟨rfl, rfl, rfl⟩ := hm
    rw [hc]
    decide

/-- two ranks reduce a `1 × 1` matrix; rank 0 continues with other memory before rank 1 has its result -/
example : ∃ s Ss, exec .avg Sample.both (start Sample.mem) = some s ∧
    SM.allReduce .avg (fun _ => .one true) (fun r => (Sample.mem r).read (.dense (.ofLists 1 1 [[0]]))) = .ok Ss ∧
    ∀ r, (s.mem r).read (.dense (.ofLists 1 1 [[0]])) = Ss r := by
  obtain ⟨Ss, h1, h2⟩ := C87_all_reduce (op := .avg) (by decide) Sample.both_tidy (s := _) rfl (c := .dense) (n := 1) (K := fun _ => .dense (.ofLists 1 1 [[0]])) (f := fun _ => .one true)
    (fun r => .dense rfl rfl) (fun r => trivial) (p := 0) (pre := fun _ => []) (post := fun _ => []) (fun _ => rfl) (fun r => by fin_cases r <;> rfl)
  refine ⟨_, Ss, rfl, h1, fun r => h2 r fun k hk => ?_⟩
  have : k = 0 := by simp [allReduceCalls, tensors, flags] at hk; exact hk
  subst this
  fin_cases r <;> simp [Sample.both]

example : (exec .avg Sample.both (start Sample.mem)).map (fun s => ((s.mem 0).val 0, (s.mem 1).val 0, (s.mem 0).val 1)) = some (2, 2, 5) := by decide +kernel

/-- the polite programs of `C87_wait` -/
example : AllPolite .avg (Sample.both.take 5) (start Sample.mem) ∧ ∃ s s', exec .avg (Sample.both.take 5) (start Sample.mem) = some s ∧ s.waited 0 0 = false ∧
    act .avg s (.wait 0 0) = some s' := by
  refine ⟨?_, _, _, rfl, rfl, rfl⟩
  refine ⟨⟨by decide, fun a ha => ⟨?_, fun k e _ h => ?_⟩⟩, fun s1 h1 => ⟨trivial, fun s2 h2 => ⟨⟨by decide, fun a ha => ⟨?_, fun k e _ h => ?_⟩⟩, fun s3 h3 => ⟨trivial, fun s4 h4 =>
    ⟨trivial, fun s5 h5 => trivial⟩⟩⟩⟩⟩
  · simp at ha; subst ha; decide
  · simp [State.cell, start] at h
  · cases h1; cases h2; simp at ha; subst ha; decide
  · cases h1; cases h2; simp [State.cell, start] at h

/-- nothing is stuck at the end -/
example : ∃ s, exec .avg Sample.both (start Sample.mem) = some s ∧ takes Sample.both = [(0, 0, 0), (1, 0, 0)] ∧
    (∀ q r, (s.jobs q).map List.length = (s.jobs r).map List.length) := by
  refine ⟨_, rfl, by decide, fun q r => ?_⟩
  fin_cases q <;> fin_cases r <;> rfl

end As
