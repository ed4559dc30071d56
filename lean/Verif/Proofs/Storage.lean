import Verif.Spec
import Verif.Proofs.Recursive
import Verif.Proofs.EyeZeros
import Verif.Proofs.Opt.History

/-! Lengths of the stored tensors and uniqueness of the representation. -/

set_option linter.unusedSectionVars false
variable {α : Type} [Field α]

theorem length_rowMajor (r c : ℕ) : (rowMajor r c).length = r * c := by
  simp [rowMajor, List.length_flatMap]

theorem Vec.length_toList' (d : Vec α) : d.toList.length = d.len := by simp [Vec.toList]

/-- entries of two tensors, row by row, agree only if the tensors do -/
theorem Mat.eq_of_M {A B : Mat α} {r c : ℕ} (ha : A.rows = r) (ha' : A.cols = c) (hb : B.rows = r) (hb' : B.cols = c)
    (h : A.M r c = B.M r c) : A = B :=
  Mat.ext' (by rw [ha, hb]) (by rw [ha', hb']) fun i hi j hj => by
    have := congrFun (congrFun h ⟨i, by omega⟩) ⟨j, by omega⟩
    simpa [Mat.M] using this

theorem BlockDiag.WF.injective {D n : ℕ} {b b' : BlockDiag α} (h : b.WF D n) (h' : b'.WF D n) (e : b.toDense = b'.toDense) : b = b' := by
  have ent : ∀ q r r', r < D → r' < D → b.ent q r r' = b'.ent q r r' := fun q r r' hr hr' => by
    have e1 := BlockDiag.get_toDense h (q := q) (q' := q) hr hr'
    have e2 := BlockDiag.get_toDense h' (q := q) (q' := q) hr hr'
    rw [if_pos rfl] at e1 e2
    rw [← e1, ← e2, e]
  have hm : n % D < D := Nat.mod_lt _ h.pos
  obtain ⟨bD, bb, bl⟩ := b
  obtain ⟨bD', bb', bl'⟩ := b'
  have e1 : bD = bD' := h.hD.trans h'.hD.symm
  have e2 : bb = bb' := T3.ext' (h.d0.trans h'.d0.symm) (h.d1.trans h'.d1.symm) (h.d2.trans h'.d2.symm) fun i hi j hj k hk => by
    have h1 := h.d1; have h2 := h.d2; have h0 := h.d0; have h0' := h'.d0
    simp only at h0 h1 h2 h0'
    have := ent i j k (by omega) (by omega)
    simp only [BlockDiag.ent] at this
    rwa [if_pos hi, if_pos (by omega)] at this
  have e3 : bl = bl' := Mat.ext' (h.lr.trans h'.lr.symm) (h.lc.trans h'.lc.symm) fun i hi j hj => by
    have h1 := h.lr; have h2 := h.lc; have h0 := h.d0; have h0' := h'.d0
    simp only at h1 h2 h0 h0'
    have := ent (n / D) i j (by omega) (by omega)
    simp only [BlockDiag.ent] at this
    rwa [if_neg (by omega), if_pos (by omega), if_neg (by omega), if_pos (by omega)] at this
  rw [e1, e2, e3]

theorem Hier.Shape.injective {m1 m2 k1 d k2 : ℕ} {h h' : Hier α} (H : h.Shape m1 m2 k1 d k2) (H' : h'.Shape m1 m2 k1 d k2)
    (e : h.toDense = h'.toDense) : h = h' := by
  have eA : h.A = h'.A := Mat.ext' (H.Ar.trans H'.Ar.symm) (H.Ac.trans H'.Ac.symm) fun i hi j hj => by
    rw [H.Ar] at hi; rw [H.Ac] at hj
    rw [← Hier.get_tt H hi hj, ← Hier.get_tt H' hi hj, e]
  have eB : h.B = h'.B := Mat.ext' (H.Br.trans H'.Br.symm) (H.Bc.trans H'.Bc.symm) fun i hi j hj => by
    rw [H.Br] at hi; rw [H.Bc] at hj
    rcases lt_or_ge j d with hd | hd
    · rw [← Hier.get_tm H hi hd, ← Hier.get_tm H' hi hd, e]
    · obtain ⟨j, rfl⟩ := Nat.exists_eq_add_of_le hd
      rw [← Hier.get_tb H hi (j := j) (by omega), ← Hier.get_tb H' hi (j := j) (by omega), e]
  have eC : h.C = h'.C := Vec.ext' (H.Cl.trans H'.Cl.symm) fun i hi => by
    rw [H.Cl] at hi
    have h1 := Hier.get_mm H hi hi
    have h2 := Hier.get_mm H' hi hi
    rw [if_pos rfl] at h1 h2
    rw [← h1, ← h2, e]
  have eD : h.D = h'.D := Mat.ext' (H.Dr.trans H'.Dr.symm) (H.Dc.trans H'.Dc.symm) fun i hi j hj => by
    rw [H.Dr] at hi; rw [H.Dc] at hj
    rw [← Hier.get_bm H hi hj, ← Hier.get_bm H' hi hj, e]
  have eE : h.E = h'.E := Mat.ext' (H.Er.trans H'.Er.symm) (H.Ec.trans H'.Ec.symm) fun i hi j hj => by
    rw [H.Er] at hi; rw [H.Ec] at hj
    rw [← Hier.get_bb H hi hj, ← Hier.get_bb H' hi hj, e]
  have e1 := H.h1.trans H'.h1.symm
  have e2 := H.h2.trans H'.h2.symm
  obtain ⟨⟩ := h; obtain ⟨⟩ := h'
  simp only at eA eB eC eD eE e1 e2
  subst eA eB eC eD eE e1 e2
  rfl

theorem Tril.injective {d e : Vec α} (h : Tril.toDense d = Tril.toDense e) : d = e := by
  have hl : d.len = e.len := congrArg Mat.rows h
  refine Vec.ext' hl fun i hi => ?_
  have := congrArg (fun m : Mat α => m.get i 0) h
  simp only [Tril.get_toDense] at this
  rwa [if_pos (Nat.zero_le _), if_pos hi, if_pos (Nat.zero_le _), if_pos (by omega)] at this

theorem Triu.injective {d e : Vec α} (h : Triu.toDense d = Triu.toDense e) : d = e := by
  rw [Triu.toDense_eq, Triu.toDense_eq] at h
  exact Tril.injective (by simpa using congrArg Mat.T h)

/-- the four blocks of a matrix are determined by it -/
theorem Mat.BlkShape.injective {b e : ℕ} {A B C D A' B' C' D' : Mat α} (h : BlkShape b e A B C D) (h' : BlkShape b e A' B' C' D')
    (hb : blk b (b + e) A B C D = blk b (b + e) A' B' C' D') : A = A' ∧ B = B' ∧ C = C' ∧ D = D' := by
  refine ⟨Mat.ext' (h.Ar.trans h'.Ar.symm) (h.Ac.trans h'.Ac.symm) fun i hi j hj => ?_,
    Mat.ext' (h.Rr.trans h'.Rr.symm) (h.Rc.trans h'.Rc.symm) fun i hi j hj => ?_,
    Mat.ext' (h.Lr.trans h'.Lr.symm) (h.Lc.trans h'.Lc.symm) fun i hi j hj => ?_,
    Mat.ext' (h.Cr.trans h'.Cr.symm) (h.Cc.trans h'.Cc.symm) fun i hi j hj => ?_⟩
  · rw [h.Ar] at hi; rw [h.Ac] at hj
    rw [← blk_tl (R := B) (L := C) (C := D) (c := e) hi hj, hb, blk_tl hi hj]
  · rw [h.Rr] at hi; rw [h.Rc] at hj
    rw [← blk_tr (A := A) (L := C) (C := D) hi hj, hb, blk_tr hi hj]
  · rw [h.Lr] at hi; rw [h.Lc] at hj
    rw [← blk_bl (A := A) (R := B) (C := D) hi hj, hb, blk_bl hi hj]
  · rw [h.Cr] at hi; rw [h.Cc] at hj
    rw [← blk_br (A := A) (R := B) (L := C) hi hj, hb, blk_br hi hj]

/-- an object is determined by the matrix it represents -/
theorem WF.injective {c : Cls} {n : ℕ} {K L : SM α} (h : WF c n K) (h' : WF c n L) (e : K.toDense = L.toDense) : K = L := by
  induction h generalizing L with
  | dense hr hc => cases h' with | dense => exact congrArg _ e
  | diagonal h => cases h' with | diagonal =>
    refine congrArg _ ?_
    have := congrArg Mat.diag e
    exact (Diagonal.fromDense_toDense).symm.trans (this.trans Diagonal.fromDense_toDense)
  | block h => cases h' with | block h' => exact congrArg _ (h.injective h' e)
  | hier hd hs => cases h' with | hier hd' hs' =>
    have e1 := hd.k1_eq.trans hd'.k1_eq.symm
    subst e1
    have e2 := hd.k2_eq.trans hd'.k2_eq.symm
    subst e2
    have e3 := hd.sum.trans hd'.sum.symm
    have e4 := Nat.add_left_cancel (Nat.add_right_cancel e3)
    subst e4
    exact congrArg _ (hs.injective hs' e)
  | tril _ h => cases h' with | tril => exact congrArg _ (Tril.injective e)
  | triu _ h => cases h' with | triu => exact congrArg _ (Triu.injective e)
  | topRight hb hA hr hc hC ihA ihC => cases h' with | topRight hb' hA' hr' hc' hC' =>
    obtain rfl := hb.unique hb'
    rw [toDense_tr hA hr hc hC, toDense_tr hA' hr' hc' hC'] at e
    obtain ⟨e1, e2, -, e3⟩ := (shape_tr hA hr hc hC).injective (shape_tr hA' hr' hc' hC') e
    rw [ihA hA' e1, ihC hC' e3, e2]
  | bottomLeft hb hA hr hc hC ihA ihC => cases h' with | bottomLeft hb' hA' hr' hc' hC' =>
    obtain rfl := hb.unique hb'
    rw [toDense_bl hA hr hc hC, toDense_bl hA' hr' hc' hC'] at e
    obtain ⟨e1, -, e2, e3⟩ := (shape_bl hA hr hc hC).injective (shape_bl hA' hr' hc' hC') e
    rw [ihA hA' e1, ihC hC' e3, e2]

/-- a tensor with given entries -/
theorem Mat.exists_of_list (r c : ℕ) (l : List α) (h : l.length = r * c) :
    ∃ A : Mat α, A.rows = r ∧ A.cols = c ∧ (rowMajor A.rows A.cols).map (fun p => A.get p.1 p.2) = l := by
  induction r generalizing l with
  | zero =>
    refine ⟨Mat.zeros 0 c, rfl, rfl, ?_⟩
    have : l = [] := List.length_eq_zero_iff.1 (by simpa using h)
    simp [this, rowMajor]
  | succ r ih =>
    obtain ⟨A, ar, ac, e⟩ := ih (l.take (r * c)) (by rw [List.length_take, h]; exact Nat.min_eq_left (Nat.mul_le_mul_right _ (by omega)))
    refine ⟨Mat.ofFn (r + 1) c fun i j => if i < r then A.get i j else (l.drop (r * c)).getD j 0, rfl, rfl, ?_⟩
    have hd : (l.drop (r * c)).length = c := by rw [List.length_drop, h, Nat.succ_mul]; omega
    rw [ar, ac] at e
    conv_rhs => rw [← List.take_append_drop (r * c) l, ← e]
    simp only [rowMajor, Mat.rows_ofFn, Mat.cols_ofFn, List.range_succ, List.flatMap_append, List.map_append, List.map_flatMap, List.map_map]
    congr 1
    · refine List.flatMap_congr fun i hi => List.map_congr_left fun j hj => ?_
      simp only [List.mem_range] at hi hj
      simp only [Function.comp]
      rw [Mat.get_ofFn, if_pos ⟨by omega, hj⟩, if_pos hi]
    · rw [List.flatMap_singleton]
      apply List.ext_getElem
      · simp [hd]
      · intro j h1 h2
        have hj : j < c := by omega
        simp only [List.getElem_map, List.getElem_range, Function.comp]
        rw [Mat.get_ofFn, if_pos ⟨by omega, hj⟩, if_neg (by omega), List.getD_eq_getElem?_getD, List.getElem?_eq_getElem h2]; rfl

theorem Vec.exists_of_list (l : List α) : ∃ d : Vec α, d.len = l.length ∧ d.toList = l := by
  refine ⟨Vec.ofFn l.length fun i => l.getD i 0, rfl, ?_⟩
  apply List.ext_getElem
  · simp [Vec.toList]
  · intro i h1 h2
    simp [Vec.toList, h2]

theorem T3.exists_of_list (a b c : ℕ) (l : List α) (h : l.length = a * (b * c)) : ∃ T : T3 α, T.d0 = a ∧ T.d1 = b ∧ T.d2 = c ∧
    ((List.range T.d0).flatMap fun n => (rowMajor T.d1 T.d2).map fun p => T.get n p.1 p.2) = l := by
  induction a generalizing l with
  | zero =>
    refine ⟨T3.ofFn 0 b c fun _ _ _ => 0, rfl, rfl, rfl, ?_⟩
    have : l = [] := List.length_eq_zero_iff.1 (by simpa using h)
    simp [this]
  | succ a ih =>
    obtain ⟨T, t0, t1, t2, e⟩ := ih (l.take (a * (b * c)))
      (by rw [List.length_take, h]; exact Nat.min_eq_left (Nat.mul_le_mul_right _ (by omega)))
    obtain ⟨A, ar, ac, e'⟩ := Mat.exists_of_list b c (l.drop (a * (b * c))) (by rw [List.length_drop, h, Nat.succ_mul]; omega)
    refine ⟨T3.ofFn (a + 1) b c fun n i j => if n < a then T.get n i j else A.get i j, rfl, rfl, rfl, ?_⟩
    rw [t0, t1, t2] at e
    rw [ar, ac] at e'
    conv_rhs => rw [← List.take_append_drop (a * (b * c)) l, ← e, ← e']
    simp only [T3.ofFn, List.range_succ, List.flatMap_append]
    have mem : ∀ p ∈ rowMajor b c, p.1 < b ∧ p.2 < c := by
      intro p hp
      simp only [rowMajor, List.mem_flatMap, List.mem_map, List.mem_range] at hp
      obtain ⟨i, hi, j, hj, rfl⟩ := hp
      exact ⟨hi, hj⟩
    congr 1
    · refine List.flatMap_congr fun n hn => List.map_congr_left fun p hp => ?_
      rw [List.mem_range] at hn
      have := mem p hp
      rw [if_pos ⟨by omega, this⟩, if_pos hn]
    · rw [List.flatMap_singleton]
      refine List.map_congr_left fun p hp => ?_
      have := mem p hp
      rw [if_pos ⟨by omega, this⟩, if_neg (by omega)]
