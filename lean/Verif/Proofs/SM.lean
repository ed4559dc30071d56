import Verif.Proofs.Recursive

/-! The operations of the `StructuredMatrix` interface, for every class. -/

open Finset
variable {α : Type} [Field α]

theorem Cls.NoHier.regular {c : Cls} (h : c.NoHier) : c.Regular := by
  cases c <;> simp_all [Cls.Regular, Cls.NoHier]

section
open Mat
variable {n : ℕ} {c : Cls} {K L : SM α}

/-- C01 core -/
theorem matmulS_spec [CharZero α] (hc : c.Regular) (hK : WF c n K) (hL : WF c n L) :
    ∃ P, K.matmulS L = .ok P ∧ WF c n P ∧ P.toDense = K.toDense.mul L.toDense := by
  have naive : c.NoHier → (K.matmulS L = do SM.fromDense K.cls (← K.toDense.matmul L.toDense)) →
      ∃ P, K.matmulS L = .ok P ∧ WF c n P ∧ P.toDense = K.toDense.mul L.toDense := by
    intro hc' e
    obtain ⟨P, wP, eP⟩ := closed_mul hK hL
    refine ⟨P, ?_, wP, eP⟩
    rw [e, matmul_ok (by rw [hK.cols, hL.rows]), Except.bind_ok', ← eP, hK.cls_eq, fromDense_toDense wP hc']
  cases c with
  | dense =>
    refine naive hc ?_
    cases hK; cases hL; rfl
  | diagonal =>
    cases hK with | diagonal h => cases hL with | diagonal h' =>
    refine ⟨.diagonal _, ?_, .diagonal (by simp [h]), (Diagonal.matmulS_spec h h').2⟩
    rw [SM.matmulS, (Diagonal.matmulS_spec h h').1]; rfl
  | block D =>
    cases hK with | block h => cases hL with | block h' =>
    obtain ⟨p, o, w, e⟩ := BlockDiag.matmulS_spec h h'
    refine ⟨.block p, ?_, .block w, e⟩
    rw [SM.matmulS, o]; rfl
  | hier m1 m2 =>
    obtain ⟨k1, d, k2, h, o, rfl, rfl, hd, H, O⟩ := hK.hier_inv2 hL
    obtain ⟨p, o, w, e⟩ := Hier.matmulS_spec H O
    refine ⟨.hier p, ?_, .hier hd w, e⟩
    rw [SM.matmulS, o]; rfl
  | tril =>
    cases hK with | tril hn h => cases hL with | tril _ h' =>
    obtain ⟨p, o, w, e⟩ := Tril.matmulS_spec hn h h'
    refine ⟨.tril p, ?_, .tril hn w, e⟩
    rw [SM.matmulS, o]; rfl
  | triu =>
    cases hK with | triu hn h => cases hL with | triu _ h' =>
    obtain ⟨p, o, w, e⟩ := Triu.matmulS_spec hn h h'
    refine ⟨.triu p, ?_, .triu hn w, e⟩
    rw [SM.matmulS, o]; rfl
  | topRight x y ca cc =>
    refine naive hc ?_
    cases hK; cases hL; rfl
  | bottomLeft x y ca cc =>
    refine naive hc ?_
    cases hK; cases hL; rfl

/-- C02 core -/
theorem matmulT_spec (hK : WF c n K) {X : Mat α} (hX : X.rows = n) (hk : 0 < X.cols) :
    K.matmulT X = .ok (K.toDense.mul X) := by
  have naive : K.matmulT X = K.toDense.matmul X → K.matmulT X = .ok (K.toDense.mul X) := by
    intro h; rw [h, matmul_ok (by rw [hK.cols, hX])]
  cases c with
  | dense => apply naive; cases hK; rfl
  | diagonal => cases hK with | diagonal h => exact Diagonal.matmulT_spec h hX rfl
  | block D => cases hK with | block h => exact BlockDiag.matmulT_spec h hX
  | hier m1 m2 => cases hK with | hier hd h => exact Hier.matmulT_spec h (by rw [hX, hd.sum])
  | tril => cases hK with | tril hn h => exact Tril.matmulT_spec hn h hX hk
  | triu => cases hK with | triu hn h => exact Triu.matmulT_spec hn h hX hk
  | topRight x y ca cc => apply naive; cases hK; rfl
  | bottomLeft x y ca cc => apply naive; cases hK; rfl

/-- the class of a block-diagonal matrix -/
def Cls.IsBlock : Cls → Prop
  | .block _ => True
  | _ => False

/-- C03 core: all classes but block-diagonal -/
theorem rmatmat_spec (hc : ¬ c.IsBlock) (hK : WF c n K) {X : Mat α} (hX : X.rows = n) (hk : 0 < X.cols) :
    K.rmatmat X = .ok (K.toDense.T.mul X) := by
  have naive : K.rmatmat X = K.toDense.T.matmul X → K.rmatmat X = .ok (K.toDense.T.mul X) := by
    intro h; rw [h, matmul_ok (by simp [hK.rows, hX])]
  cases c with
  | dense => apply naive; cases hK; rfl
  | diagonal => cases hK with | diagonal h => 
      rw [SM.toDense, Diagonal.toDense_T]; exact Diagonal.matmulT_spec h hX rfl
  | block D => exact absurd trivial hc
  | hier m1 m2 => cases hK with | hier hd h => exact Hier.rmatmat_spec h (by rw [hX, hd.sum])
  | tril => cases hK with | tril hn h => exact Tril.rmatmat_spec hn h hX hk
  | triu => cases hK with | triu hn h => exact Triu.rmatmat_spec hn h hX hk
  | topRight x y ca cc => apply naive; cases hK; rfl
  | bottomLeft x y ca cc => apply naive; cases hK; rfl

theorem rmatmat_block {D : ℕ} (hK : WF (.block D) n K) {X : Mat α} (hX : X.rows = n) :
    K.rmatmat X = .ok (K.toDense.mul X) := by
  cases hK with | block h => exact BlockDiag.matmulT_spec h hX

/-- C04 core: `+` -/
theorem smadd_spec [CharZero α] (hc : c.Regular) (hK : WF c n K) (hL : WF c n L) :
    ∃ P, K.add L = .ok P ∧ WF c n P ∧ P.toDense = K.toDense.add L.toDense := by
  have naive : c.NoHier → (K.add L = do SM.fromDense K.cls (← K.toDense.add? L.toDense)) →
      ∃ P, K.add L = .ok P ∧ WF c n P ∧ P.toDense = K.toDense.add L.toDense := by
    intro hc' e
    obtain ⟨P, -, wP, eP⟩ := add__spec hK hL 1
    have : L.toDense.smul 1 = L.toDense := Mat.ext' rfl rfl fun i _ j _ => by simp
    rw [this] at eP
    refine ⟨P, ?_, wP, eP⟩
    rw [e, add?_ok (by rw [hK.rows, hL.rows]) (by rw [hK.cols, hL.cols]), Except.bind_ok', ← eP, hK.cls_eq,
      fromDense_toDense wP hc']
  cases c with
  | dense => exact naive hc (by cases hK; cases hL; rfl)
  | diagonal =>
    cases hK with | diagonal h => cases hL with | diagonal h' =>
    refine ⟨.diagonal _, ?_, .diagonal (d := Vec.add _ _) h, (Diagonal.add_spec h h').2⟩
    rw [SM.add, (Diagonal.add_spec h h').1]; rfl
  | block D =>
    cases hK with | block h => cases hL with | block h' =>
    obtain ⟨p, o, w, e⟩ := BlockDiag.add_spec h h'
    refine ⟨.block p, ?_, .block w, e⟩
    rw [SM.add, o]; rfl
  | hier m1 m2 =>
    obtain ⟨k1, d, k2, h, o, rfl, rfl, hd, H, O⟩ := hK.hier_inv2 hL
    obtain ⟨p, o, w, e⟩ := Hier.add_spec H O
    refine ⟨.hier p, ?_, .hier hd w, e⟩
    rw [SM.add, o]; rfl
  | tril =>
    cases hK with | @tril _ d hn h => cases hL with | @tril _ d' _ h' =>
    refine ⟨.tril (d.add d'), ?_, .tril hn h, Tril.add_spec h h'⟩
    rw [SM.add, Toeplitz.add, Vec.add?_ok (h.trans h'.symm)]; rfl
  | triu =>
    cases hK with | @triu _ d hn h => cases hL with | @triu _ d' _ h' =>
    refine ⟨.triu (d.add d'), ?_, .triu hn h, Triu.add_spec h h'⟩
    rw [SM.add, Toeplitz.add, Vec.add?_ok (h.trans h'.symm)]; rfl
  | topRight x y ca cc => exact naive hc (by cases hK; cases hL; rfl)
  | bottomLeft x y ca cc => exact naive hc (by cases hK; cases hL; rfl)

/-- C04 core: `*` -/
theorem smsmul_spec [CharZero α] (hc : c.Regular) (hK : WF c n K) (s : α) :
    ∃ P, K.smul s = .ok P ∧ WF c n P ∧ P.toDense = K.toDense.smul s := by
  have naive : c.NoHier → (K.smul s = SM.fromDense K.cls (K.toDense.smul s)) →
      ∃ P, K.smul s = .ok P ∧ WF c n P ∧ P.toDense = K.toDense.smul s := by
    intro hc' e
    obtain ⟨wP, eP⟩ := mul__spec hK s
    refine ⟨_, ?_, wP, eP⟩
    rw [e, ← eP, hK.cls_eq, fromDense_toDense wP hc']
  cases c with
  | dense => exact naive hc (by cases hK; rfl)
  | diagonal =>
    cases hK with | diagonal h =>
    exact ⟨.diagonal _, rfl, .diagonal h, Diagonal.smul_spec s⟩
  | block D =>
    cases hK with | block h =>
    obtain ⟨p, o, w, e⟩ := BlockDiag.smul_spec h s
    refine ⟨.block p, ?_, .block w, e⟩
    rw [SM.smul, o]; rfl
  | hier m1 m2 =>
    cases hK with | hier hd h =>
    obtain ⟨p, o, w, e⟩ := Hier.smul_spec h s
    refine ⟨.hier p, ?_, .hier hd w, e⟩
    rw [SM.smul, o]; rfl
  | tril => cases hK with | tril hn h => exact ⟨.tril _, rfl, .tril hn h, Tril.smul_spec s⟩
  | triu => cases hK with | triu hn h => exact ⟨.triu _, rfl, .triu hn h, Triu.smul_spec s⟩
  | topRight x y ca cc => exact naive hc (by cases hK; rfl)
  | bottomLeft x y ca cc => exact naive hc (by cases hK; rfl)

/-- C10 core -/
theorem smdiagAdd_spec [CharZero α] (hc : c.Regular) (hK : WF c n K) (s : α) :
    ∃ P, K.diagAdd s = .ok P ∧ WF c n P ∧ P.toDense = K.toDense.diagAdd s := by
  have naive : c.NoHier → (K.diagAdd s = do SM.fromDense K.cls (← utilsDiagAdd K.toDense s)) →
      ∃ P, K.diagAdd s = .ok P ∧ WF c n P ∧ P.toDense = K.toDense.diagAdd s := by
    intro hc' e
    obtain ⟨P, wP, eP⟩ := closed_diagAdd hK s
    refine ⟨P, ?_, wP, eP⟩
    rw [e, Hier.utilsDiagAdd_ok _ (by rw [hK.rows, hK.cols]), Except.bind_ok', ← eP, hK.cls_eq, fromDense_toDense wP hc']
  cases c with
  | dense => exact naive hc (by cases hK; rfl)
  | diagonal => cases hK with | diagonal h => exact ⟨.diagonal _, rfl, .diagonal h, Diagonal.diagAdd_spec s⟩
  | block D => cases hK with | block h =>
      exact ⟨.block _, rfl, .block (BlockDiag.diagAdd_spec h s).1, (BlockDiag.diagAdd_spec h s).2⟩
  | hier m1 m2 =>
    cases hK with | hier hd h =>
    obtain ⟨p, o, w, e⟩ := Hier.diagAdd_spec h s
    refine ⟨.hier p, ?_, .hier hd w, e⟩
    rw [SM.diagAdd, o]; rfl
  | tril =>
    cases hK with | tril hn h =>
    obtain ⟨p, o, w, e⟩ := Tril.diagAdd_spec hn h s
    refine ⟨.tril p, ?_, .tril hn w, e⟩
    rw [SM.diagAdd, o]; rfl
  | triu =>
    cases hK with | triu hn h =>
    obtain ⟨p, o, w, e⟩ := Triu.diagAdd_spec hn h s
    refine ⟨.triu p, ?_, .triu hn w, e⟩
    rw [SM.diagAdd, o]; rfl
  | topRight x y ca cc => exact naive hc (by cases hK; rfl)
  | bottomLeft x y ca cc => exact naive hc (by cases hK; rfl)

/-- `from_dense` succeeds on every square matrix -/
theorem fromDense_wf : ∀ {c : Cls} {n : ℕ}, c.Supports n → ∀ {m : Mat α}, m.rows = n → m.cols = n →
    ∃ P, SM.fromDense c m = .ok P ∧ WF c n P := by
  intro c
  induction c with
  | dense => intro n _ m hr hc; exact ⟨_, rfl, .dense hr hc⟩
  | diagonal => intro n _ m hr hc; exact ⟨_, rfl, .diagonal (by simp [hr, hc])⟩
  | block D =>
    intro n h m hr hc
    obtain ⟨p, e, w, -⟩ := BlockDiag.fromDense_spec h hr hc
    exact ⟨.block p, by rw [SM.fromDense, e]; rfl, .block w⟩
  | hier m1 m2 =>
    intro n _ m hr hc
    obtain ⟨p, e, w, -⟩ := Hier.fromDense_spec (Hier.hierDims_blockDims m1 m2 n) hr hc
    exact ⟨.hier p, by rw [SM.fromDense, e]; rfl, .hier (Hier.hierDims_blockDims m1 m2 n) w⟩
  | tril =>
    intro n h m hr hc
    obtain ⟨p, e, w, -⟩ := toeplitzFromDense_spec h hr hc
    exact ⟨.tril p, by rw [SM.fromDense, Tril.fromDense, e]; rfl, .tril h w⟩
  | triu =>
    intro n h m hr hc
    obtain ⟨p, e, w, -⟩ := toeplitzFromDense_spec h hr hc
    exact ⟨.triu p, by rw [SM.fromDense, Triu.fromDense, e]; rfl, .triu h w⟩
  | topRight x y ca cc ihA ihC =>
    intro n h m hr hc
    obtain ⟨b, hb, hA, hC⟩ := h
    have := hb.le
    obtain ⟨A, eA, wA⟩ := ihA hA (m := m.slice 0 b 0 b) (by shp) (by shp)
    obtain ⟨C, eC, wC⟩ := ihC hC (m := m.slice b m.rows b m.cols) (by shp) (by shp)
    refine ⟨.topRight x y ca cc A ((m.slice 0 b b m.cols).add (m.slice b m.rows 0 b).T) C, ?_,
      .topRight hb wA (by shp) (by shp) wC⟩
    rw [SM.fromDense, if_neg (by omega), getBoundary_eq (hr ▸ hb), Except.bind_ok', eA, Except.bind_ok',
      add?_ok (by shp) (by shp), Except.bind_ok', eC, Except.bind_ok',
      initTopRight_ok (b := b) (e := n - b) (by rwa [show b + (n - b) = n by omega]) wA (by shp) (by shp) wC]
  | bottomLeft x y ca cc ihA ihC =>
    intro n h m hr hc
    obtain ⟨b, hb, hA, hC⟩ := h
    have := hb.le
    obtain ⟨A, eA, wA⟩ := ihA hA (m := m.slice 0 b 0 b) (by shp) (by shp)
    obtain ⟨C, eC, wC⟩ := ihC hC (m := m.slice b m.rows b m.cols) (by shp) (by shp)
    refine ⟨.bottomLeft x y ca cc A ((m.slice b m.rows 0 b).add (m.slice 0 b b m.cols).T) C, ?_,
      .bottomLeft hb wA (by shp) (by shp) wC⟩
    rw [SM.fromDense, if_neg (by omega), getBoundary_eq (hr ▸ hb), Except.bind_ok', eA, Except.bind_ok',
      add?_ok (by shp) (by shp), Except.bind_ok', eC, Except.bind_ok',
      initBottomLeft_ok (b := b) (e := n - b) (by rwa [show b + (n - b) = n by omega]) wA (by shp) (by shp) wC]

theorem WF.supports (h : WF c n K) : c.Supports n := by
  induction h with
  | dense _ _ => trivial
  | diagonal _ => trivial
  | block h => exact h.pos
  | hier _ _ => trivial
  | tril hn _ => exact hn
  | triu hn _ => exact hn
  | topRight hb _ _ _ _ ihA ihC => exact ⟨_, hb, ihA, ihC⟩
  | bottomLeft hb _ _ _ _ ihA ihC => exact ⟨_, hb, ihA, ihC⟩

/-- C06 core: `from_mat_inner` -/
theorem fromMatInner_spec (h : c.Supports n) {X : Mat α} (hX : X.rows = n) :
    SM.fromMatInner c X = SM.fromDense c (X.mul X.T) := by
  have naive : (SM.fromMatInner c X = do SM.fromDense c (← X.matmul X.T)) → 
     SM.fromMatInner c X = SM.fromDense c (X.mul X.T) := by
    intro e; rw [e, matmul_ok (by simp), Except.bind_ok']
  cases c with
  | diagonal =>
    simp only [SM.fromMatInner, SM.fromDense, Diagonal.fromMatInner, Diagonal.fromDense]
    congr 2
    refine Vec.ext' (by simp) fun i _ => ?_
    simp [get_mul]
  | block D => simp only [SM.fromMatInner, SM.fromDense, BlockDiag.fromMatInner_eq h]
  | dense => exact naive rfl
  | hier _ _ => exact naive rfl
  | tril => exact naive rfl
  | triu => exact naive rfl
  | topRight _ _ _ _ => exact naive rfl
  | bottomLeft _ _ _ _ => exact naive rfl

theorem T_mul_T {A B : Mat α} (h : A.cols = B.rows) : (A.mul B).T = B.T.mul A.T := Mat.mul_T' h

/-- C05 core, for `from_inner(X)` -/
theorem fromInner_some_spec (hc : ¬ c.IsBlock) (hK : WF c n K) {X : Mat α} (hX : X.rows = n) (hk : 0 < X.cols) :
    K.fromInner (some X) = SM.fromDense c ((K.toDense.T.mul X).mul (K.toDense.T.mul X).T) := by
  have naive : (K.fromInner (some X) = do SM.fromMatInner K.cls (← K.rmatmat X)) →
      K.fromInner (some X) = SM.fromDense c ((K.toDense.T.mul X).mul (K.toDense.T.mul X).T) := by
    intro e
    rw [e, rmatmat_spec hc hK hX hk, Except.bind_ok', hK.cls_eq, fromMatInner_spec hK.supports (by simp [hK.cols])]
  cases c with
  | diagonal =>
    cases hK with | @diagonal _ d h =>
    simp only [SM.fromInner, Diagonal.fromInner, SM.fromDense, Diagonal.fromDense]
    rw [Vec.had?_ok (by simp [h, hX]), Except.bind_ok', Except.bind_ok']
    congr 2
    refine Vec.ext' (by simp [SM.toDense, Diagonal.toDense]) fun i hi => ?_
    simp at hi
    rw [SM.toDense, Diagonal.toDense_T, get_diag, get_mul]
    simp only [get_T, cols_mul, Vec.get_had, get_rowSq]
    have : ∀ k, ((Diagonal.toDense d).mul X).get i k = d.get i * X.get i k := by
      intro k
      rw [get_mul, sum_eq_single i]
      · simp [Diagonal.get_toDense]
      · intro t _ hne; rw [Diagonal.get_toDense, if_neg hne.symm, zero_mul]
      · intro hh; exact absurd hi (by simpa [Diagonal.toDense] using hh)
    simp only [this, mul_sum]
    exact sum_congr rfl fun k _ => by ring
  | block D => exact absurd trivial hc
  | hier m1 m2 =>
    cases hK with | hier hd h => 
    simp only [SM.fromInner, Hier.fromInner_some hd h hX, SM.fromDense]; rfl
  | dense => exact naive (by cases hK; rfl)
  | tril => exact naive (by cases hK; rfl)
  | triu => exact naive (by cases hK; rfl)
  | topRight _ _ _ _ => exact naive (by cases hK; rfl)
  | bottomLeft _ _ _ _ => exact naive (by cases hK; rfl)

/-- C05 core, for `from_inner()` -/
theorem fromInner_none_spec (hc : ¬ c.IsBlock) (hK : WF c n K) :
    K.fromInner none = SM.fromDense c (K.toDense.T.mul K.toDense) := by
  have naive : K.fromInner none = SM.fromMatInner K.cls K.toDense.T →
      K.fromInner none = SM.fromDense c (K.toDense.T.mul K.toDense) := by
    intro e
    rw [e, hK.cls_eq, fromMatInner_spec hK.supports (by simp [hK.cols]), T_T]
  cases c with
  | diagonal =>
    cases hK with | @diagonal _ d h =>
    simp only [SM.fromInner, Diagonal.fromInner, SM.fromDense, Diagonal.fromDense]
    congr 2
    rw [SM.toDense, Diagonal.toDense_T]
    refine Vec.ext' (by simp [Diagonal.toDense]) fun i hi => ?_
    simp at hi
    rw [get_diag, get_mul, sum_eq_single i]
    · simp [Diagonal.get_toDense]
    · intro t _ hne; rw [Diagonal.get_toDense, if_neg hne.symm, zero_mul]
    · intro hh; exact absurd hi (by simpa [Diagonal.toDense] using hh)
  | block D => exact absurd trivial hc
  | hier m1 m2 =>
    cases hK with | hier hd h => 
    simp only [SM.fromInner, Hier.fromInner_none hd h, SM.fromDense]; rfl
  | dense => exact naive (by cases hK; rfl)
  | tril => exact naive (by cases hK; rfl)
  | triu => exact naive (by cases hK; rfl)
  | topRight _ _ _ _ => exact naive (by cases hK; rfl)
  | bottomLeft _ _ _ _ => exact naive (by cases hK; rfl)

theorem fromInner_block {D : ℕ} (hK : WF (.block D) n K) :
    K.fromInner none = SM.fromDense (.block D) (K.toDense.mul K.toDense.T) ∧
    ∀ X : Mat α, X.rows = n →
      K.fromInner (some X) = SM.fromDense (.block D) ((K.toDense.mul X).mul (K.toDense.mul X).T) := by
  cases hK with | block h => 
  constructor
  · simp only [SM.fromInner, BlockDiag.fromInner_none h, SM.fromDense]; rfl
  · intro X hX
    simp only [SM.fromInner, BlockDiag.fromInner_some h hX, SM.fromDense]; rfl

/-- C06 core: `from_inner2` -/
theorem fromInner2_spec (hK : WF c n K) {Y : Mat α} (hr : Y.rows = n) (hc' : Y.cols = n) :
    K.fromInner2 Y = SM.fromDense c ((K.toDense.T.mul Y).mul K.toDense) := by
  have naive : (K.fromInner2 Y = do SM.fromDense K.cls (← (← K.toDense.T.matmul Y).matmul K.toDense)) →
      K.fromInner2 Y = SM.fromDense c ((K.toDense.T.mul Y).mul K.toDense) := by
    intro e
    rw [e, matmul_ok (by simp [hK.rows, hr]), Except.bind_ok', matmul_ok (by simp [hK.rows, hc']), Except.bind_ok',
      hK.cls_eq]
  cases hK with
  | @diagonal _ d h =>
    simp only [SM.fromInner2, Diagonal.fromInner2, SM.fromDense, Diagonal.fromDense]
    rw [Vec.had?_ok (by simp [h, hr, hc'])]
    congr 2
    rw [SM.toDense, Diagonal.toDense_T]
    refine Vec.ext' (by simp [Diagonal.toDense]) fun i hi => ?_
    simp at hi
    rw [get_diag, get_mul, sum_eq_single i, get_mul, sum_eq_single i]
    · simp [Diagonal.get_toDense]; ring
    · intro t _ hne; rw [Diagonal.get_toDense, if_neg hne.symm, zero_mul]
    · intro hh; exact absurd hi (by simpa [Diagonal.toDense] using hh)
    · intro t _ hne; rw [Diagonal.get_toDense, if_neg hne, mul_zero]
    · intro hh; exact absurd hi (by simpa [Diagonal.toDense, hc', h] using hh)
  | _ => exact naive rfl

/-- C09 core -/
theorem averageTrace_spec [CharZero α] (hK : WF c n K) :
    K.averageTrace = .ok ((∑ i ∈ range n, K.toDense.get i i) / n) := by
  have naive : K.averageTrace = .ok (K.toDense.diag.sum / K.toDense.diag.len) →
      K.averageTrace = .ok ((∑ i ∈ range n, K.toDense.get i i) / n) := by
    intro e; rw [e]
    simp [Vec.sum, hK.rows, hK.cols]
  cases hK with
  | @diagonal _ d h =>
    simp [SM.averageTrace, Diagonal.averageTrace, Vec.sum, h, SM.toDense, Diagonal.get_toDense]
  | block h => simp only [SM.averageTrace, BlockDiag.averageTrace_spec h, SM.toDense]
  | hier hd h => simp only [SM.averageTrace, Hier.averageTrace_spec h, SM.toDense, hd.sum]
  | tril hn h => exact Toeplitz.averageTrace_spec hn h
  | triu hn h =>
    rw [SM.averageTrace, Toeplitz.averageTrace_spec hn h]
    simp only [SM.toDense, Triu.toDense_eq, get_T]
  | _ => exact naive rfl

/-- `from_dense` keeps the diagonal sum -/
theorem fromDense_trace [CharZero α] : ∀ {c : Cls} {n : ℕ} {P : SM α} {m : Mat α}, c.Supports n → m.rows = n → m.cols = n →
    SM.fromDense c m = .ok P → ∑ i ∈ range n, P.toDense.get i i = ∑ i ∈ range n, m.get i i := by
  intro c
  induction c with
  | dense => intro n P m _ hr hc e; injection e with e; subst e; rfl
  | diagonal => intro n P m _ hr hc e; injection e with e; subst e; simp [SM.toDense, Diagonal.get_toDense]
  | block D =>
    intro n P m h hr hc e
    obtain ⟨p, e', w, hp⟩ := BlockDiag.fromDense_spec h hr hc
    rw [SM.fromDense, e'] at e; injection e with e; subst e
    refine sum_congr rfl fun i _ => ?_
    obtain ⟨q, r, hr, rfl⟩ := BlockDiag.exists_qr h i
    rw [SM.toDense, BlockDiag.get_toDense w hr hr, if_pos rfl, hp _ _ _ hr hr]
  | hier m1 m2 =>
    intro n P m _ hr hc e
    have hd := Hier.hierDims_blockDims m1 m2 n
    obtain ⟨p, e', w, hp⟩ := Hier.fromDense_spec hd hr hc
    rw [SM.fromDense, e'] at e; injection e with e; subst e
    rw [← hd.sum, sum_range3, sum_range3, SM.toDense]
    congr 1
    · congr 1
      · refine sum_congr rfl fun i hi => ?_
        rw [Hier.get_tt w (by simpa using hi) (by simpa using hi), hp.a _ (by simpa using hi) _ (by simpa using hi)]
      · refine sum_congr rfl fun i hi => ?_
        rw [Hier.get_mm w (by simpa using hi) (by simpa using hi), if_pos rfl, hp.c _ (by simpa using hi)]
    · refine sum_congr rfl fun i hi => ?_
      rw [Hier.get_bb w (by simpa using hi) (by simpa using hi), hp.e _ (by simpa using hi) _ (by simpa using hi)]
  | tril =>
    intro n P m h hr hc e
    have h : 0 < n := h
    obtain ⟨p, e', w, hp⟩ := toeplitzFromDense_spec h hr hc
    rw [SM.fromDense, Tril.fromDense, e'] at e; injection e with e; subst e
    have : ∀ i ∈ range n, (SM.tril p).toDense.get i i = p.get 0 := by
      intro i hi; simp at hi; simp [SM.toDense, Tril.get_toDense, w, hi]
    rw [sum_congr rfl this, hp 0 h, if_pos rfl]
    have hn : (n : α) ≠ 0 := by exact_mod_cast h.ne'
    simp only [sum_const, card_range, nsmul_eq_mul, Nat.sub_zero]; rw [mul_div_cancel₀ _ hn]
  | triu =>
    intro n P m h hr hc e
    have h : 0 < n := h
    obtain ⟨p, e', w, hp⟩ := toeplitzFromDense_spec h hr hc
    rw [SM.fromDense, Triu.fromDense, e'] at e; injection e with e; subst e
    have : ∀ i ∈ range n, (SM.triu p).toDense.get i i = p.get 0 := by
      intro i hi; simp at hi; simp [SM.toDense, Triu.toDense_eq, Tril.get_toDense, w, hi]
    rw [sum_congr rfl this, hp 0 h, if_pos rfl]
    have hn : (n : α) ≠ 0 := by exact_mod_cast h.ne'
    simp only [sum_const, card_range, nsmul_eq_mul, Nat.sub_zero]; rw [mul_div_cancel₀ _ hn]
  | topRight x y ca cc ihA ihC =>
    intro n P m h hr hc e
    obtain ⟨b, hb, hA, hC⟩ := h
    have := hb.le
    obtain ⟨A, eA, wA⟩ := fromDense_wf hA (m := m.slice 0 b 0 b) (by shp) (by shp)
    obtain ⟨C, eC, wC⟩ := fromDense_wf hC (m := m.slice b m.rows b m.cols) (by shp) (by shp)
    have tA := ihA hA (by shp) (by shp) eA
    have tC := ihC hC (by shp) (by shp) eC
    rw [SM.fromDense, if_neg (by omega), getBoundary_eq (hr ▸ hb), Except.bind_ok', eA, Except.bind_ok',
      add?_ok (by shp) (by shp), Except.bind_ok', eC, Except.bind_ok',
      initTopRight_ok (b := b) (e := n - b) (by rwa [show b + (n - b) = n by omega]) wA (by shp) (by shp) wC] at e
    injection e with e; subst e
    rw [toDense_tr wA (by shp) (by shp) wC]
    conv_lhs => rw [show n = b + (n - b) by omega]
    conv_rhs => rw [show n = b + (n - b) by omega]
    rw [sum_range_add, sum_range_add]
    rw [show b + (n - b) - b = n - b by omega]
    congr 1
    · rw [sum_congr rfl fun i hi => blk_tl (by simpa using hi) (by simpa using hi), tA]
      refine sum_congr rfl fun i hi => ?_
      simp at hi; rw [get_slice, if_pos (by omega)]; simp
    · rw [sum_congr rfl fun i hi => blk_br (by simpa using hi) (by simpa using hi), tC]
      refine sum_congr rfl fun i hi => ?_
      simp at hi; rw [get_slice, if_pos (by omega)]
  | bottomLeft x y ca cc ihA ihC =>
    intro n P m h hr hc e
    obtain ⟨b, hb, hA, hC⟩ := h
    have := hb.le
    obtain ⟨A, eA, wA⟩ := fromDense_wf hA (m := m.slice 0 b 0 b) (by shp) (by shp)
    obtain ⟨C, eC, wC⟩ := fromDense_wf hC (m := m.slice b m.rows b m.cols) (by shp) (by shp)
    have tA := ihA hA (by shp) (by shp) eA
    have tC := ihC hC (by shp) (by shp) eC
    rw [SM.fromDense, if_neg (by omega), getBoundary_eq (hr ▸ hb), Except.bind_ok', eA, Except.bind_ok',
      add?_ok (by shp) (by shp), Except.bind_ok', eC, Except.bind_ok',
      initBottomLeft_ok (b := b) (e := n - b) (by rwa [show b + (n - b) = n by omega]) wA (by shp) (by shp) wC] at e
    injection e with e; subst e
    rw [toDense_bl wA (by shp) (by shp) wC]
    conv_lhs => rw [show n = b + (n - b) by omega]
    conv_rhs => rw [show n = b + (n - b) by omega]
    rw [sum_range_add, sum_range_add]
    rw [show b + (n - b) - b = n - b by omega]
    congr 1
    · rw [sum_congr rfl fun i hi => blk_tl (by simpa using hi) (by simpa using hi), tA]
      refine sum_congr rfl fun i hi => ?_
      simp at hi; rw [get_slice, if_pos (by omega)]; simp
    · rw [sum_congr rfl fun i hi => blk_br (by simpa using hi) (by simpa using hi), tC]
      refine sum_congr rfl fun i hi => ?_
      simp at hi; rw [get_slice, if_pos (by omega)]

end
