import Verif.Proofs.Opt.Alike

/-! Directions of symmetric matrices in structured classes: `from_dense` is the gradient of a linear function. -/

set_option linter.unusedSectionVars false
open Finset Matrix PIO IOProof Mat SM
variable {α : Type} [Field α] [LinearOrder α] [IsStrictOrderedRing α]

/-- `from_dense` of a symmetric matrix: of two opposite entries one vanishes, or they agree -/
theorem fromDense_pair : ∀ {c : Cls} {n : ℕ} {P : SM α} {m : Mat α}, m.rows = n → m.cols = n → (∀ i j, m.get i j = m.get j i) → SM.fromDense c m = .ok P →
    WF c n P → ∀ i < n, ∀ j < n, P.toDense.get i j = 0 ∨ P.toDense.get j i = 0 ∨ P.toDense.get i j = P.toDense.get j i := by
  intro c
  induction c with
  | dense =>
    intro n P m hr hc hs e w i hi j hj
    injection e with e; subst e
    exact .inr (.inr (hs i j))
  | diagonal =>
    intro n P m hr hc hs e w i hi j hj
    cases w with | diagonal h =>
    simp only [SM.toDense, Diagonal.get_toDense]
    by_cases hij : i = j
    · subst hij; exact .inr (.inr rfl)
    · left; simp [hij]
  | block D =>
    intro n P m hr hc hs e w i hi j hj
    cases w with | block h =>
    obtain ⟨p, e', w, hp⟩ := BlockDiag.fromDense_spec h.pos hr hc
    rw [SM.fromDense, e'] at e; injection e with e; injection e with e; subst e
    obtain ⟨q, r, hr, rfl⟩ := BlockDiag.exists_qr h.pos i
    obtain ⟨q', r', hr', rfl⟩ := BlockDiag.exists_qr h.pos j
    simp only [SM.toDense]
    rw [BlockDiag.get_toDense w hr hr', BlockDiag.get_toDense w hr' hr]
    by_cases hq : q = q'
    · subst hq; right; right
      rw [if_pos rfl, if_pos rfl, hp _ _ _ hr hr', hp _ _ _ hr' hr, hs (q * D + r')]
    · left; rw [if_neg hq]
  | hier m1 m2 =>
    intro n P m hr hc hs e w i hi j hj
    cases w with | @hier _ _ _ k1 d k2 q hd h =>
    obtain ⟨p, e', w, hp⟩ := Hier.fromDense_spec hd hr hc
    rw [SM.fromDense, e'] at e; injection e with e; injection e with e; subst e
    simp only [SM.toDense]
    have key : ∀ k < n, k < k1 ∨ (∃ t < d, k = k1 + t) ∨ ∃ t < k2, k = k1 + d + t := by
      intro k hk
      have := hd.sum
      by_cases h1 : k < k1
      · exact .inl h1
      · by_cases h2 : k < k1 + d
        · exact .inr (.inl ⟨k - k1, by omega, by omega⟩)
        · exact .inr (.inr ⟨k - (k1 + d), by omega, by omega⟩)
    rcases key i hi with h1 | ⟨i, h1, rfl⟩ | ⟨i, h1, rfl⟩ <;> rcases key j hj with h2 | ⟨j, h2, rfl⟩ | ⟨j, h2, rfl⟩
    · right; right; rw [Hier.get_tt w h1 h2, Hier.get_tt w h2 h1, hp.a _ h1 _ h2, hp.a _ h2 _ h1, hs j]
    · right; left; rw [Hier.get_mt h h2 h1]
    · right; left; rw [Hier.get_bt h h2 h1]
    · left; rw [Hier.get_mt h h1 h2]
    · by_cases hij : i = j
      · subst hij; right; right; rfl
      · left; rw [Hier.get_mm h h1 h2, if_neg hij]
    · left; rw [Hier.get_mb h h1 h2]
    · left; rw [Hier.get_bt h h1 h2]
    · right; left; rw [Hier.get_mb h h2 h1]
    · right; right; rw [Hier.get_bb w h1 h2, Hier.get_bb w h2 h1, hp.e _ h1 _ h2, hp.e _ h2 _ h1, hs (k1 + d + j)]
  | tril =>
    intro n P m hr hc hs e w i hi j hj
    cases w with | @tril _ q hn hq =>
    simp only [SM.toDense]
    rcases lt_trichotomy i j with h | rfl | h
    · left; rw [Tril.get_toDense, if_neg (by omega)]
    · right; right; rfl
    · right; left; rw [Tril.get_toDense, if_neg (by omega)]
  | triu =>
    intro n P m hr hc hs e w i hi j hj
    cases w with | @triu _ q hn hq =>
    simp only [SM.toDense]
    rcases lt_trichotomy i j with h | rfl | h
    · right; left; rw [Triu.toDense_eq, get_T, Tril.get_toDense, if_neg (by omega)]
    · right; right; rfl
    · left; rw [Triu.toDense_eq, get_T, Tril.get_toDense, if_neg (by omega)]
  | topRight x y ca cc ihA ihC =>
    intro n P m hr hc hs e w i hi j hj
    obtain ⟨b, e', QA, QB, QC, rfl, rfl, hb, hA, hBr, hBc, hC⟩ := w.tr_inv
    obtain ⟨A, eA, wA⟩ := fromDense_wf hA.supports (m := m.slice 0 b 0 b) (by shp) (by shp)
    obtain ⟨C, eC, wC⟩ := fromDense_wf hC.supports (m := m.slice b m.rows b m.cols) (by shp) (by shp)
    have sy : ∀ r0 r1, ∀ i j, (m.slice r0 r1 r0 r1).get i j = (m.slice r0 r1 r0 r1).get j i := by
      intro r0 r1 i j; rw [get_slice, get_slice, hs]; congr 1; simp [and_comm]
    have tA := ihA (by shp) (by shp) (sy 0 b) eA wA
    have tC := ihC (by shp) (by shp) (by rw [hr, hc]; exact sy b (b + e')) eC wC
    rw [SM.fromDense, if_neg (by omega), getBoundary_eq (hr ▸ hb), Except.bind_ok', eA, Except.bind_ok',
      add?_ok (by shp) (by shp), Except.bind_ok', eC, Except.bind_ok',
      initTopRight_ok hb wA (by shp) (by shp) wC] at e
    injection e with e
    rw [← e, toDense_tr (e := e') wA (by shp) (by shp) wC]
    have key : ∀ k < b + e', k < b ∨ ∃ t < e', k = b + t := fun k hk => by
      by_cases h1 : k < b
      · exact .inl h1
      · exact .inr ⟨k - b, by omega, by omega⟩
    rcases key i hi with h1 | ⟨i, h1, rfl⟩ <;> rcases key j hj with h2 | ⟨j, h2, rfl⟩
    · rw [blk_tl h1 h2, blk_tl h2 h1]; exact tA i h1 j h2
    · right; left; rw [blk_bl h2 h1]; simp
    · left; rw [blk_bl h1 h2]; simp
    · rw [blk_br h1 h2, blk_br h2 h1]; exact tC i h1 j h2
  | bottomLeft x y ca cc ihA ihC =>
    intro n P m hr hc hs e w i hi j hj
    obtain ⟨b, e', QA, QB, QC, rfl, rfl, hb, hA, hBr, hBc, hC⟩ := w.bl_inv
    obtain ⟨A, eA, wA⟩ := fromDense_wf hA.supports (m := m.slice 0 b 0 b) (by shp) (by shp)
    obtain ⟨C, eC, wC⟩ := fromDense_wf hC.supports (m := m.slice b m.rows b m.cols) (by shp) (by shp)
    have sy : ∀ r0 r1, ∀ i j, (m.slice r0 r1 r0 r1).get i j = (m.slice r0 r1 r0 r1).get j i := by
      intro r0 r1 i j; rw [get_slice, get_slice, hs]; congr 1; simp [and_comm]
    have tA := ihA (by shp) (by shp) (sy 0 b) eA wA
    have tC := ihC (by shp) (by shp) (by rw [hr, hc]; exact sy b (b + e')) eC wC
    rw [SM.fromDense, if_neg (by omega), getBoundary_eq (hr ▸ hb), Except.bind_ok', eA, Except.bind_ok',
      add?_ok (by shp) (by shp), Except.bind_ok', eC, Except.bind_ok',
      initBottomLeft_ok hb wA (by shp) (by shp) wC] at e
    injection e with e
    rw [← e, toDense_bl (e := e') wA (by shp) (by shp) wC]
    have key : ∀ k < b + e', k < b ∨ ∃ t < e', k = b + t := fun k hk => by
      by_cases h1 : k < b
      · exact .inl h1
      · exact .inr ⟨k - b, by omega, by omega⟩
    rcases key i hi with h1 | ⟨i, h1, rfl⟩ <;> rcases key j hj with h2 | ⟨j, h2, rfl⟩
    · rw [blk_tl h1 h2, blk_tl h2 h1]; exact tA i h1 j h2
    · left; rw [blk_tr h1 h2]; simp
    · right; left; rw [blk_tr h2 h1]; simp
    · rw [blk_br h1 h2, blk_br h2 h1]; exact tC i h1 j h2

section
variable {c : Cls} {n : ℕ}

theorem proj_pair (h : c.Supports n) {G : Matrix (Fin n) (Fin n) α} (hG : Gᵀ = G) (i j : Fin n) :
    c.proj n G i j = 0 ∨ c.proj n G j i = 0 ∨ c.proj n G i j = c.proj n G j i := by
  obtain ⟨P, e, w, d⟩ := fromDense_proj h (M := Mat.ofMatrix G) rfl rfl
  have hs : ∀ i j, (Mat.ofMatrix G).get i j = (Mat.ofMatrix G).get j i := by
    intro i j
    by_cases hij : i < n ∧ j < n
    · have := congrFun (congrFun hG ⟨i, hij.1⟩) ⟨j, hij.2⟩
      simp only [Matrix.transpose_apply] at this
      simp [Mat.ofMatrix, Mat.get_ofFn, hij.1, hij.2, this]
    · rw [(Mat.ofMatrix G).supp i j (by show n ≤ i ∨ n ≤ j; omega), (Mat.ofMatrix G).supp j i (by show n ≤ j ∨ n ≤ i; omega)]
  rw [Mat.M_ofMatrix] at d
  rw [← d]
  exact fromDense_pair rfl rfl hs e w i i.2 j j.2

/-- the direction of a symmetric matrix in the class has at least half its square as inner product with the matrix -/
theorem proj_dir (h : c.Supports n) {G : Matrix (Fin n) (Fin n) α} (hG : Gᵀ = G) : frob (c.proj n G) (c.proj n G) ≤ 2 * frob G (c.proj n G) := by
  rw [proj_orth h hG (Cls.rep_proj h G)]
  have : 0 ≤ frob (c.proj n G)ᵀ (c.proj n G) := by
    refine sum_nonneg fun i _ => sum_nonneg fun j _ => ?_
    rw [Matrix.transpose_apply]
    rcases proj_pair h hG i j with e | e | e
    · rw [e, mul_zero]
    · rw [e, zero_mul]
    · rw [e]; exact mul_self_nonneg _
  linarith

/-- the direction vanishes exactly if the matrix is orthogonal to the class -/
theorem proj_eq_zero (h : c.Supports n) {G : Matrix (Fin n) (Fin n) α} (hG : Gᵀ = G) : c.proj n G = 0 ↔ ∀ X, c.Rep n X → frob G X = 0 := by
  constructor
  · intro e X hX
    have := proj_orth h hG hX
    rw [e] at this
    simp [frob] at this ⊢
    exact this
  · intro k
    have h1 := proj_dir h hG
    rw [k _ (Cls.rep_proj h G), mul_zero] at h1
    exact frob_self_eq_zero (le_antisymm h1 (sum_nonneg fun i _ => sum_nonneg fun j _ => mul_self_nonneg _))

end
