import Verif.Props.Structured

/-!
# What the operations compute for hierarchical classes nested in recursive templates (C04, C08, C10, C13)

The base class computes `+`, `*`, `@` and `diag_add_` of a recursive matrix by densifying, computing, and calling
`from_dense` (`base.py:99-106`, `143-153`, `169-179`, `366-375`), and `from_dense` of a hierarchical class doubles the
off-diagonal parts `B` and `D` (`hierarchical.py:206-239`). Below, for every class and every nesting: the result is the
exact result in which `B` and `D` of every hierarchical part are doubled, and hence it is the exact result if and only
if those parts of the exact result vanish.
-/

open Matrix Finset

/-- `K` with `B` and `D` of every hierarchical part, at any depth, multiplied by two (a specification, no code). -/
def SM.dbl {α : Type} [Field α] : SM α → SM α
  | .hier h => .hier ⟨h.max1, h.max2, h.A, h.B.smul 2, h.C, h.D.smul 2, h.E⟩
  | .topRight x y ca cc A B C => .topRight x y ca cc A.dbl B C.dbl
  | .bottomLeft x y ca cc A B C => .bottomLeft x y ca cc A.dbl B C.dbl
  | K => K

/-- `B` and `D` of every hierarchical part, at any depth, are zero (a specification, no code). -/
def SM.Plain {α : Type} [Field α] : SM α → Prop
  | .hier h => (∀ i j, h.B.get i j = 0) ∧ ∀ i j, h.D.get i j = 0
  | .topRight _ _ _ _ A _ C => A.Plain ∧ C.Plain
  | .bottomLeft _ _ _ _ A _ C => A.Plain ∧ C.Plain
  | _ => True

/-- The classes which inherit the operations of the base class: dense and the recursive templates. -/
def Cls.Fallback : Cls → Prop
  | .dense | .topRight .. | .bottomLeft .. => True
  | _ => False

section
open Mat
variable {α : Type} [Field α] {c : Cls} {n : ℕ} {A B K L : SM α}

theorem WF.dbl (h : WF c n K) : WF c n K.dbl := by
  induction h with
  | dense hr hc => exact .dense hr hc
  | diagonal h => exact .diagonal h
  | block h => exact .block h
  | hier hd h => exact .hier hd ⟨h.h1, h.h2, h.le1, h.le2, h.Ar, h.Ac, h.Br, h.Bc, h.Cl, h.Dr, h.Dc, h.Er, h.Ec⟩
  | tril hn h => exact .tril hn h
  | triu hn h => exact .triu hn h
  | topRight hb _ hr hc _ ihA ihC => exact .topRight hb ihA hr hc ihC
  | bottomLeft hb _ hr hc _ ihA ihC => exact .bottomLeft hb ihA hr hc ihC

/-- C08, exactly: for every class, the round trip doubles `B` and `D` of every hierarchical part and changes nothing
else. -/
theorem C08_doubled [CharZero α] (h : WF c n K) : SM.fromDense c K.toDense = .ok K.dbl := by
  induction h with
  | dense hr hc => rfl
  | diagonal h => simp only [SM.fromDense, Diagonal.fromDense, SM.toDense, Except.bind_ok', Diagonal.fromDense_toDense]; rfl
  | block h => simp only [SM.fromDense, SM.toDense, BlockDiag.fromDense_toDense h, Except.bind_ok']; rfl
  | @hier m1 m2 n k1 d k2 h hd H =>
    have w := WF.hier hd H
    obtain ⟨p, e, P, f⟩ := Hier.fromDense_spec (m := h.toDense) hd w.rows w.cols
    rw [SM.fromDense, SM.toDense, e, Except.bind_ok']
    have D : (⟨h.max1, h.max2, h.A, h.B.smul 2, h.C, h.D.smul 2, h.E⟩ : Hier α).Shape m1 m2 k1 d k2 :=
      ⟨H.h1, H.h2, H.le1, H.le2, H.Ar, H.Ac, H.Br, H.Bc, H.Cl, H.Dr, H.Dc, H.Er, H.Ec⟩
    have g : Hier.FromDense k1 d k2 h.toDense (⟨h.max1, h.max2, h.A, h.B.smul 2, h.C, h.D.smul 2, h.E⟩ : Hier α) := by
      constructor
      · intro i hi j hj; exact (Hier.get_tt H hi hj).symm
      · intro i hi j hj
        rw [Mat.get_smul]
        by_cases hj' : j < d
        · rw [Hier.get_tm H hi hj']
        · obtain ⟨t, rfl⟩ := Nat.exists_eq_add_of_le (not_lt.1 hj')
          rw [← Nat.add_assoc, Hier.get_tb H hi (by omega)]
      · intro i hi; rw [Hier.get_mm H hi hi, if_pos rfl]
      · intro i hi j hj; rw [Mat.get_smul, Hier.get_bm H hi hj]
      · intro i hi j hj; exact (Hier.get_bb H hi hj).symm
    rw [Hier.ext_shape P D f g]; rfl
  | tril hn h => simp only [SM.fromDense, SM.toDense, Tril.fromDense_toDense hn h, Except.bind_ok']; rfl
  | triu hn h => simp only [SM.fromDense, SM.toDense, Triu.fromDense_toDense hn h, Except.bind_ok']; rfl
  | @topRight x y ca cc n b A C B hb hA hr hc' hC ihA ihC =>
    have := hb.le
    obtain ⟨e, rfl⟩ : ∃ e, n = b + e := ⟨n - b, by omega⟩
    rw [show b + e - b = e by omega] at *
    rw [toDense_tr hA hr hc' hC, SM.fromDense, if_neg (by simp)]
    simp only [rows_blk, cols_blk]
    rw [getBoundary_eq hb, Except.bind_ok', blk_slice_tl (shape_tr hA hr hc' hC), ihA, Except.bind_ok',
      blk_slice_tr (shape_tr hA hr hc' hC), blk_slice_bl (shape_tr hA hr hc' hC), zeros_T,
      add?_ok (by simp [hr]) (by simp [hc']), Except.bind_ok', blk_slice_br (shape_tr hA hr hc' hC), ihC,
      Except.bind_ok', add_zeros hr hc', initTopRight_ok hb hA.dbl hr hc' hC.dbl]
    rfl
  | @bottomLeft x y ca cc n b A C B hb hA hr hc' hC ihA ihC =>
    have := hb.le
    obtain ⟨e, rfl⟩ : ∃ e, n = b + e := ⟨n - b, by omega⟩
    rw [show b + e - b = e by omega] at *
    rw [toDense_bl hA hr hc' hC, SM.fromDense, if_neg (by simp)]
    simp only [rows_blk, cols_blk]
    rw [getBoundary_eq hb, Except.bind_ok', blk_slice_tl (shape_bl hA hr hc' hC), ihA, Except.bind_ok',
      blk_slice_bl (shape_bl hA hr hc' hC), blk_slice_tr (shape_bl hA hr hc' hC), zeros_T,
      add?_ok (by simp [hr]) (by simp [hc']), Except.bind_ok', blk_slice_br (shape_bl hA hr hc' hC), ihC,
      Except.bind_ok', add_zeros hr hc', initBottomLeft_ok hb hA.dbl hr hc' hC.dbl]
    rfl

theorem smul_two_inj [CharZero α] {M N : Mat α} (h : M.smul 2 = N.smul 2) : M = N := by
  have hr := congrArg Mat.rows h
  have hc := congrArg Mat.cols h
  refine Mat.ext' hr hc fun i _ j _ => ?_
  have := congrArg (fun X : Mat α => X.get i j) h
  simp only [Mat.get_smul] at this
  exact mul_right_cancel₀ (two_ne_zero (α := α)) this

theorem dbl_inj [CharZero α] (hK : WF c n K) : ∀ {L : SM α}, WF c n L → K.dbl = L.dbl → K = L := by
  induction hK with
  | dense hr hc => intro L hL e; cases hL; exact e
  | diagonal h => intro L hL e; cases hL; exact e
  | block h => intro L hL e; cases hL; exact e
  | hier hd H =>
    rename_i h
    intro L hL e
    cases hL with | hier hd' H' =>
    rename_i k
    simp only [SM.dbl, SM.hier.injEq, Hier.mk.injEq] at e
    obtain ⟨e1, e2, e3, e4, e5, e6, e7⟩ := e
    have e4 := smul_two_inj e4
    have e6 := smul_two_inj e6
    cases h; cases k; simp_all
  | tril hn h => intro L hL e; cases hL; exact e
  | triu hn h => intro L hL e; cases hL; exact e
  | topRight hb _ hr hc _ ihA ihC =>
    intro L hL e
    cases hL with | topRight hb' hA' hr' hc' hC' =>
    obtain rfl := hb.unique hb'
    simp only [SM.dbl, SM.topRight.injEq] at e
    obtain ⟨-, -, -, -, eA, eB, eC⟩ := e
    rw [ihA hA' eA, eB, ihC hC' eC]
  | bottomLeft hb _ hr hc _ ihA ihC =>
    intro L hL e
    cases hL with | bottomLeft hb' hA' hr' hc' hC' =>
    obtain rfl := hb.unique hb'
    simp only [SM.dbl, SM.bottomLeft.injEq] at e
    obtain ⟨-, -, -, -, eA, eB, eC⟩ := e
    rw [ihA hA' eA, eB, ihC hC' eC]

theorem toDense_eq_of_den (hK : WF c n K) (hL : WF c n L) (h : K.den n = L.den n) : K.toDense = L.toDense :=
  Mat.M_inj (n := n) (m := n) ⟨hK.rows, hK.cols⟩ ⟨hL.rows, hL.cols⟩ h

/-- C08: an object of a class is determined by the matrix it stands for. -/
theorem C08_den_injective [CharZero α] (hK : WF c n K) (hL : WF c n L) (h : K.den n = L.den n) : K = L := by
  have e := C08_doubled hK
  rw [toDense_eq_of_den hK hL h, C08_doubled hL] at e
  injection e with e
  exact (dbl_inj hL hK e).symm

theorem dbl_eq_iff [CharZero α] (hK : WF c n K) : K.dbl = K ↔ K.Plain := by
  induction hK with
  | dense hr hc => exact iff_of_true rfl trivial
  | diagonal h => exact iff_of_true rfl trivial
  | block h => exact iff_of_true rfl trivial
  | hier hd H =>
    rename_i h
    have z : ∀ M : Mat α, M.smul 2 = M ↔ ∀ i j, M.get i j = 0 := by
      intro M
      constructor
      · intro e i j
        have := congrArg (fun X : Mat α => X.get i j) e
        simp only [Mat.get_smul, mul_two] at this
        exact add_left_cancel (this.trans (add_zero _).symm)
      · intro e
        exact Mat.ext' rfl rfl fun i _ j _ => by rw [Mat.get_smul, e, zero_mul]
    simp only [SM.Plain, ← z]
    cases h; simp [SM.dbl]
  | tril hn h => exact iff_of_true rfl trivial
  | triu hn h => exact iff_of_true rfl trivial
  | topRight hb _ hr hc _ ihA ihC => simp [SM.dbl, SM.Plain, ihA, ihC]
  | bottomLeft hb _ hr hc _ ihA ihC => simp [SM.dbl, SM.Plain, ihA, ihC]

theorem dbl_den_iff [CharZero α] (hK : WF c n K) : K.dbl.den n = K.den n ↔ K.Plain := by
  rw [← dbl_eq_iff hK]
  exact ⟨fun h => C08_den_injective hK.dbl hK h, fun h => by rw [h]⟩

/-- C08, exactly: for every class, nested or not, the round trip returns the same matrix if and only if `B` and `D` of
every hierarchical part are zero. -/
theorem C08_iff [CharZero α] (hA : WF c n A) :
    (∃ P, SM.fromDense c A.toDense = .ok P ∧ P.den n = A.den n) ↔ A.Plain := by
  rw [C08_doubled hA, ← dbl_den_iff hA]
  exact ⟨fun ⟨P, e, h⟩ => by injection e with e; rw [e]; exact h, fun h => ⟨_, rfl, h⟩⟩

/-- the common part of the theorems below -/
theorem nested_core [CharZero α] {r : Except PyErr (SM α)} {T : Matrix (Fin n) (Fin n) α} {Q : SM α} (hQ : WF c n Q)
    (hT : Q.den n = T) (hr : r = SM.fromDense c Q.toDense) :
    ∃ Q, WF c n Q ∧ Q.den n = T ∧ r = .ok Q.dbl ∧ ((∃ P, r = .ok P ∧ P.den n = T) ↔ Q.Plain) := by
  refine ⟨Q, hQ, hT, by rw [hr, C08_doubled hQ], ?_⟩
  rw [hr, ← hT]
  exact C08_iff hQ

/-- C04 for `+`, exactly: for the classes with the base class's `+`, whatever is nested in them, the sum `Q` has a
representation, `A + B` is `Q` with doubled off-diagonal parts of hierarchical blocks, and hence is exact if and only if
those parts of the sum are zero. -/
theorem C04_add_nested [CharZero α] (hc : c.Fallback) (hA : WF c n A) (hB : WF c n B) :
    ∃ Q, WF c n Q ∧ Q.den n = A.den n + B.den n ∧ A.add B = .ok Q.dbl ∧
      ((∃ P, A.add B = .ok P ∧ P.den n = A.den n + B.den n) ↔ Q.Plain) := by
  obtain ⟨Q, -, hQ, h⟩ := add__spec hA hB 1
  have h' : Q.toDense = A.toDense.add B.toDense := by
    rw [h]; congr 1; exact Mat.ext' rfl rfl fun i _ j _ => by rw [Mat.get_smul, mul_one]
  have hM : Q.den n = A.den n + B.den n := by
    rw [SM.den, h', Mat.M_add (by rw [hA.rows, hB.rows]) (by rw [hA.cols, hB.cols])]; rfl
  have e : A.add B = (do SM.fromDense A.cls (← A.toDense.add? B.toDense)) := by
    cases hA <;> cases hB <;> first | rfl | exact hc.elim
  refine nested_core hQ hM ?_
  rw [e, add?_ok (by rw [hA.rows, hB.rows]) (by rw [hA.cols, hB.cols]), Except.bind_ok', hA.cls_eq, h']

/-- C04 for `*`, exactly. -/
theorem C04_smul_nested [CharZero α] (hc : c.Fallback) (hA : WF c n A) (s : α) :
    ∃ Q, WF c n Q ∧ Q.den n = s • A.den n ∧ A.smul s = .ok Q.dbl ∧
      ((∃ P, A.smul s = .ok P ∧ P.den n = s • A.den n) ↔ Q.Plain) := by
  obtain ⟨hQ, h⟩ := mul__spec hA s
  refine nested_core hQ (by rw [SM.den, h, Mat.M_smul]; rfl) ?_
  have e : A.smul s = SM.fromDense A.cls (A.toDense.smul s) := by cases hA <;> first | rfl | exact hc.elim
  rw [e, hA.cls_eq, h]

/-- C04 for `*`, in terms of the operand: multiplying by a nonzero number is exact if and only if the off-diagonal
parts of the nested hierarchical blocks of the operand are zero. -/
theorem C04_smul_iff [CharZero α] (hc : c.Fallback) (hA : WF c n A) {s : α} (hs : s ≠ 0) :
    (∃ P, A.smul s = .ok P ∧ P.den n = s • A.den n) ↔ A.Plain := by
  obtain ⟨Q, hQ, hM, -, h⟩ := C04_smul_nested hc hA s
  rw [h]
  obtain ⟨w, h'⟩ := mul__spec hA s
  have : Q = A.mul_ s := C08_den_injective hQ w (by rw [hM, SM.den, SM.den, h', Mat.M_smul])
  subst this
  clear h h' hM hQ w hc
  induction hA with
  | hier hd H => simp [SM.mul_, SM.Plain, Mat.get_smul, hs]
  | topRight hb _ hr hc _ ihA ihC => simp [SM.mul_, SM.Plain, ihA, ihC]
  | bottomLeft hb _ hr hc _ ihA ihC => simp [SM.mul_, SM.Plain, ihA, ihC]
  | _ => exact Iff.rfl

/-- C13 for `@`, exactly. -/
theorem C13_matmul_nested [CharZero α] (hc : c.Fallback) (hA : WF c n A) (hB : WF c n B) :
    ∃ Q, WF c n Q ∧ Q.den n = A.den n * B.den n ∧ A.matmulS B = .ok Q.dbl ∧
      ((∃ P, A.matmulS B = .ok P ∧ P.den n = A.den n * B.den n) ↔ Q.Plain) := by
  obtain ⟨Q, hQ, h⟩ := closed_mul hA hB
  refine nested_core hQ (by rw [SM.den, h, Mat.M_mul' hA.cols]; rfl) ?_
  have e : A.matmulS B = (do SM.fromDense A.cls (← A.toDense.matmul B.toDense)) := by
    cases hA <;> cases hB <;> first | rfl | exact hc.elim
  rw [e, matmul_ok (by rw [hA.cols, hB.rows]), Except.bind_ok', hA.cls_eq, h]

/-- C10, exactly. -/
theorem C10_nested [CharZero α] (hc : c.Fallback) (hA : WF c n A) (v : α) :
    ∃ Q, WF c n Q ∧ Q.den n = A.den n + v • 1 ∧ A.diagAdd v = .ok Q.dbl ∧
      ((∃ P, A.diagAdd v = .ok P ∧ P.den n = A.den n + v • 1) ↔ Q.Plain) := by
  obtain ⟨Q, hQ, h⟩ := closed_diagAdd hA v
  refine nested_core hQ (by rw [SM.den, h, Mat.M_diagAdd _ hA.rows hA.cols]; rfl) ?_
  have e : A.diagAdd v = (do SM.fromDense A.cls (← utilsDiagAdd A.toDense v)) := by
    cases hA <;> first | rfl | exact hc.elim
  rw [e, Hier.utilsDiagAdd_ok _ (by rw [hA.rows, hA.cols]), Except.bind_ok', hA.cls_eq, h]

theorem closed_diagAdd_plain (h : WF c n K) (s : α) :
    ∃ P, WF c n P ∧ P.toDense = K.toDense.diagAdd s ∧ (P.Plain ↔ K.Plain) := by
  induction h with
  | dense hr hc => exact ⟨.dense (Mat.diagAdd _ s), .dense hr hc, rfl, Iff.rfl⟩
  | diagonal h => exact ⟨.diagonal (Diagonal.diagAdd _ s), .diagonal h, Diagonal.diagAdd_spec s, Iff.rfl⟩
  | block h => exact ⟨.block _, .block (BlockDiag.diagAdd_spec h s).1, (BlockDiag.diagAdd_spec h s).2, Iff.rfl⟩
  | hier hd h =>
    obtain ⟨p, o, w, e⟩ := Hier.diagAdd_spec h s
    refine ⟨.hier p, .hier hd w, e, ?_⟩
    have a1 := h.Ar; have a2 := h.Ac; have a8 := h.Er; have a9 := h.Ec
    rw [Hier.diagAdd, Hier.utilsDiagAdd_ok _ (by omega), Except.bind_ok', Hier.utilsDiagAdd_ok _ (by omega),
      Except.bind_ok', Except.pure_ok] at o
    injection o with o
    subst o
    exact Iff.rfl
  | tril hn h =>
    obtain ⟨p, _, w, e⟩ := Tril.diagAdd_spec hn h s
    exact ⟨.tril p, .tril hn w, e, Iff.rfl⟩
  | triu hn h =>
    obtain ⟨p, _, w, e⟩ := Triu.diagAdd_spec hn h s
    exact ⟨.triu p, .triu hn w, e, Iff.rfl⟩
  | @topRight x y ca cc n b A C B hb hA hr hc hC ihA ihC =>
    obtain ⟨P, wP, eP, iP⟩ := ihA
    obtain ⟨Q, wQ, eQ, iQ⟩ := ihC
    refine ⟨.topRight x y ca cc P B Q, .topRight hb wP hr hc wQ, ?_, and_congr iP iQ⟩
    rw [toDense_tr wP hr hc wQ, toDense_tr hA hr hc hC, blk_diagAdd (shape_tr hA hr hc hC), eP, eQ]
  | @bottomLeft x y ca cc n b A C B hb hA hr hc hC ihA ihC =>
    obtain ⟨P, wP, eP, iP⟩ := ihA
    obtain ⟨Q, wQ, eQ, iQ⟩ := ihC
    refine ⟨.bottomLeft x y ca cc P B Q, .bottomLeft hb wP hr hc wQ, ?_, and_congr iP iQ⟩
    rw [toDense_bl wP hr hc wQ, toDense_bl hA hr hc hC, blk_diagAdd (shape_bl hA hr hc hC), eP, eQ]

/-- C10, exactly, in terms of the operand: whatever is added, the result is exact if and only if the off-diagonal parts
of the nested hierarchical blocks of the operand are zero. -/
theorem C10_iff [CharZero α] (hc : c.Fallback) (hA : WF c n A) (v : α) :
    (∃ P, A.diagAdd v = .ok P ∧ P.den n = A.den n + v • 1) ↔ A.Plain := by
  obtain ⟨Q, hQ, hM, -, h⟩ := C10_nested hc hA v
  obtain ⟨P, wP, eP, iP⟩ := closed_diagAdd_plain hA v
  rw [h, ← iP]
  have : Q = P := C08_den_injective hQ wP (by rw [hM, SM.den, SM.den, eP, Mat.M_diagAdd _ hA.rows hA.cols])
  rw [this]

end

/-! The hypotheses are met by a hierarchical matrix with non-zero `B` inside a recursive template, for which no
operation is exact. -/

theorem bad_not_plain : ¬ Sample.bad.Plain := by
  intro h
  obtain ⟨P, hP⟩ : ∃ P, Sample.bad.smul 1 = .ok P := ⟨_, rfl⟩
  obtain ⟨Q, e, hQ⟩ := (C04_smul_iff (c := Sample.badCls) (n := 3) trivial Sample.wf_bad one_ne_zero).2 h
  rw [hP] at e; injection e with e; subst e
  have := congrFun (congrFun hQ 1) 2
  injection hP with hP
  subst hP
  revert this
  decide +kernel

example : ¬ ∃ P, Sample.bad.smul 5 = .ok P ∧ P.den 3 = (5 : ℚ) • Sample.bad.den 3 := by
  rw [C04_smul_iff (c := Sample.badCls) trivial Sample.wf_bad (by norm_num)]
  exact bad_not_plain
example : ¬ ∃ P, SM.fromDense Sample.badCls Sample.bad.toDense = .ok P ∧ P.den 3 = Sample.bad.den 3 := by
  rw [C08_iff Sample.wf_bad]
  exact bad_not_plain
/-- the errors of two operands cancel: `A + (-1) * A` is exact although neither operand is plain -/
example : ∃ Q, WF Sample.badCls 3 Q ∧ Q.den 3 = Sample.bad.den 3 + (Sample.bad.mul_ (-1)).den 3 ∧
    Sample.bad.add (Sample.bad.mul_ (-1)) = .ok Q.dbl ∧
    ((∃ P, Sample.bad.add (Sample.bad.mul_ (-1)) = .ok P ∧ P.den 3 = Sample.bad.den 3 + (Sample.bad.mul_ (-1)).den 3) ↔
      Q.Plain) :=
  C04_add_nested (c := Sample.badCls) trivial Sample.wf_bad (mul__spec Sample.wf_bad (-1)).1
example : ∃ Q, WF Sample.badCls 3 Q ∧ Q.den 3 = Sample.bad.den 3 * Sample.bad.den 3 ∧
    Sample.bad.matmulS Sample.bad = .ok Q.dbl ∧
    ((∃ P, Sample.bad.matmulS Sample.bad = .ok P ∧ P.den 3 = Sample.bad.den 3 * Sample.bad.den 3) ↔ Q.Plain) :=
  C13_matmul_nested (c := Sample.badCls) trivial Sample.wf_bad Sample.wf_bad
example : ∃ Q, WF Sample.badCls 3 Q ∧ Q.den 3 = Sample.bad.den 3 + (7 : ℚ) • 1 ∧ Sample.bad.diagAdd 7 = .ok Q.dbl ∧
    ((∃ P, Sample.bad.diagAdd 7 = .ok P ∧ P.den 3 = Sample.bad.den 3 + (7 : ℚ) • 1) ↔ Q.Plain) :=
  C10_nested (c := Sample.badCls) trivial Sample.wf_bad 7
example (v : ℚ) : ¬ ∃ P, Sample.bad.diagAdd v = .ok P ∧ P.den 3 = Sample.bad.den 3 + v • 1 := by
  rw [C10_iff (c := Sample.badCls) trivial Sample.wf_bad]
  exact bad_not_plain
