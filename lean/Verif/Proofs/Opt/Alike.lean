import Verif.Proofs.Opt.Rotate

/-! Classes of structured matrices that represent the same matrices, possibly in another basis. -/

set_option linter.unusedSectionVars false
open Finset Matrix PIO IOProof Mat SM
variable {α : Type} [Field α] [LinearOrder α] [IsStrictOrderedRing α]

section
variable {c : Cls} {n : ℕ}

theorem Cls.Rep.add_smul {A B : Matrix (Fin n) (Fin n) α} (hA : c.Rep n A) (hB : c.Rep n B) (s : α) : c.Rep n (A + s • B) := by
  obtain ⟨K, wK, rfl⟩ := hA
  obtain ⟨L, wL, rfl⟩ := hB
  obtain ⟨⟨P, _, w, e⟩, _⟩ := C04_inplace_exact wK wL s
  exact ⟨P, w, e⟩

theorem Cls.Rep.sub {A B : Matrix (Fin n) (Fin n) α} (hA : c.Rep n A) (hB : c.Rep n B) : c.Rep n (A - B) := by
  have := hA.add_smul hB (-1)
  rwa [neg_one_smul, ← sub_eq_add_neg] at this

theorem Cls.rep_proj (h : c.Supports n) (G : Matrix (Fin n) (Fin n) α) : c.Rep n (c.proj n G) := by
  obtain ⟨P, _, w, e⟩ := fromDense_proj h (M := Mat.ofMatrix G) rfl rfl
  exact ⟨P, w, by rw [e, Mat.M_ofMatrix]⟩

/-- `Σ Aᵢⱼ Bᵢⱼ` -/
def frob (A B : Matrix (Fin n) (Fin n) α) : α := ∑ i, ∑ j, A i j * B i j

theorem frob_add_left (A A' B : Matrix (Fin n) (Fin n) α) : frob (A + A') B = frob A B + frob A' B := by
  simp only [frob, Matrix.add_apply, add_mul, sum_add_distrib]
theorem frob_sub_left (A A' B : Matrix (Fin n) (Fin n) α) : frob (A - A') B = frob A B - frob A' B := by
  simp only [frob, Matrix.sub_apply, sub_mul, sum_sub_distrib]
theorem frob_add_right (A A' B : Matrix (Fin n) (Fin n) α) : frob B (A + A') = frob B A + frob B A' := by
  simp only [frob, Matrix.add_apply, mul_add, sum_add_distrib]
theorem frob_transpose (A B : Matrix (Fin n) (Fin n) α) : frob Aᵀ Bᵀ = frob A B := by
  unfold frob; rw [sum_comm]; rfl
theorem frob_self_eq_zero {A : Matrix (Fin n) (Fin n) α} (h : frob A A = 0) : A = 0 := by
  funext i j
  unfold frob at h
  have := (sum_eq_zero_iff_of_nonneg (fun i _ => sum_nonneg fun j _ => mul_self_nonneg (A i j))).1 h i (mem_univ _)
  exact mul_self_eq_zero.1 ((sum_eq_zero_iff_of_nonneg (fun j _ => mul_self_nonneg (A i j))).1 this j (mem_univ _))
theorem frob_eq_trace (A B : Matrix (Fin n) (Fin n) α) : frob A B = (Aᵀ * B).trace := by
  simp only [frob, Matrix.trace, Matrix.diag, Matrix.mul_apply, Matrix.transpose_apply]
  rw [sum_comm]
theorem frob_conjBy {Q : Matrix (Fin n) (Fin n) α} (hQ : Qᵀ * Q = 1) (A B : Matrix (Fin n) (Fin n) α) : frob (conjBy Q A) (conjBy Q B) = frob A B := by
  rw [frob_eq_trace, frob_eq_trace, conjBy_transpose, ← conjBy_mul hQ, conjBy_trace hQ]

theorem ip_den (P Q : Mat α) : ip n P.get Q.get = frob (P.M n n) (Q.M n n) := by
  simp only [ip, frob, Mat.M, sum_range]

/-- the residual of `from_dense` is orthogonal to the class -/
theorem proj_orth (h : c.Supports n) {G X : Matrix (Fin n) (Fin n) α} (hG : Gᵀ = G) (hX : c.Rep n X) :
    2 * frob G X = frob (c.proj n G) X + frob (c.proj n G)ᵀ X := by
  obtain ⟨K, wK, rfl⟩ := hX
  obtain ⟨P, e, w, d⟩ := fromDense_proj h (M := Mat.ofMatrix G) rfl rfl
  have hs : ∀ i j, (Mat.ofMatrix G).get i j = (Mat.ofMatrix G).get j i := by
    intro i j
    by_cases hij : i < n ∧ j < n
    · have := congrFun (congrFun hG ⟨i, hij.1⟩) ⟨j, hij.2⟩
      simp only [Matrix.transpose_apply] at this
      simp [Mat.ofMatrix, Mat.get_ofFn, hij.1, hij.2, this]
    · rw [(Mat.ofMatrix G).supp i j (by show n ≤ i ∨ n ≤ j; omega), (Mat.ofMatrix G).supp j i (by show n ≤ j ∨ n ≤ i; omega)]
  have := fromDense_orth (n := n) rfl rfl hs e wK
  rw [Mat.M_ofMatrix] at d
  rw [← d]
  rw [ip_den, ip_den, Mat.M_ofMatrix] at this
  have e2 : ip n (fun i j => P.toDense.get j i) K.toDense.get = frob (P.den n)ᵀ (K.den n) := by
    simp only [ip, frob, SM.den, Mat.M, sum_range, Matrix.transpose_apply]
  rw [e2] at this
  exact this

/-- where the class has antisymmetric elements, `from_dense` of a symmetric matrix is symmetric -/
theorem fromDense_anti : ∀ {c : Cls} {n : ℕ} {P Q : SM α} {m : Mat α}, m.rows = n → m.cols = n → (∀ i j, m.get i j = m.get j i) → SM.fromDense c m = .ok P →
    WF c n Q → (∀ i < n, ∀ j < n, Q.toDense.get i j = - Q.toDense.get j i) →
    ∀ i < n, ∀ j < n, Q.toDense.get i j = 0 ∨ P.toDense.get i j = P.toDense.get j i := by
  intro c
  induction c with
  | dense =>
    intro n P Q m hr hc hs e w ha i hi j hj
    injection e with e; subst e
    exact Or.inr (hs i j)
  | diagonal =>
    intro n P Q m hr hc hs e w ha i hi j hj
    injection e with e; subst e
    cases w with | diagonal h =>
    simp only [SM.toDense, Diagonal.get_toDense]
    by_cases hij : i = j
    · subst hij; right; simp
    · left; simp [hij]
  | block D =>
    intro n P Q m hr hc hs e w ha i hi j hj
    cases w with | block h =>
    obtain ⟨p, e', w, hp⟩ := BlockDiag.fromDense_spec h.pos hr hc
    rw [SM.fromDense, e'] at e; injection e with e; subst e
    obtain ⟨q, r, hr, rfl⟩ := BlockDiag.exists_qr h.pos i
    obtain ⟨q', r', hr', rfl⟩ := BlockDiag.exists_qr h.pos j
    simp only [SM.toDense]
    rw [BlockDiag.get_toDense h hr hr', BlockDiag.get_toDense w hr hr', BlockDiag.get_toDense w hr' hr]
    by_cases hq : q = q'
    · subst hq; right
      rw [if_pos rfl, if_pos rfl, hp _ _ _ hr hr', hp _ _ _ hr' hr, hs (q * D + r')]
    · left; rw [if_neg hq]
  | hier m1 m2 =>
    intro n P Q m hr hc hs e w ha i hi j hj
    cases w with | @hier _ _ _ k1 d k2 q hd h =>
    obtain ⟨p, e', w, hp⟩ := Hier.fromDense_spec hd hr hc
    rw [SM.fromDense, e'] at e; injection e with e; subst e
    have ha := ha i hi j hj
    simp only [SM.toDense] at ha ⊢
    have key : ∀ k < n, k < k1 ∨ (∃ t < d, k = k1 + t) ∨ ∃ t < k2, k = k1 + d + t := by
      intro k hk
      have := hd.sum
      by_cases h1 : k < k1
      · exact .inl h1
      · by_cases h2 : k < k1 + d
        · exact .inr (.inl ⟨k - k1, by omega, by omega⟩)
        · exact .inr (.inr ⟨k - (k1 + d), by omega, by omega⟩)
    rcases key i hi with h1 | ⟨i, h1, rfl⟩ | ⟨i, h1, rfl⟩ <;> rcases key j hj with h2 | ⟨j, h2, rfl⟩ | ⟨j, h2, rfl⟩
    · right; rw [Hier.get_tt w h1 h2, Hier.get_tt w h2 h1, hp.a _ h1 _ h2, hp.a _ h2 _ h1, hs j]
    · left; rw [ha, Hier.get_mt h h2 h1, neg_zero]
    · left; rw [ha, Hier.get_bt h h2 h1, neg_zero]
    · left; rw [Hier.get_mt h h1 h2]
    · by_cases hij : i = j
      · subst hij; right; rfl
      · left; rw [Hier.get_mm h h1 h2, if_neg hij]
    · left; rw [Hier.get_mb h h1 h2]
    · left; rw [Hier.get_bt h h1 h2]
    · left; rw [ha, Hier.get_mb h h2 h1, neg_zero]
    · right; rw [Hier.get_bb w h1 h2, Hier.get_bb w h2 h1, hp.e _ h1 _ h2, hp.e _ h2 _ h1, hs (k1 + d + j)]
  | tril =>
    intro n P Q m hr hc hs e w ha i hi j hj
    cases w with | @tril _ q hn hq =>
    have ha := ha i hi j hj
    simp only [SM.toDense] at ha
    rcases lt_trichotomy i j with h | rfl | h
    · left; simp only [SM.toDense]; rw [Tril.get_toDense, if_neg (by omega)]
    · right; rfl
    · left; simp only [SM.toDense]; rw [ha, Tril.get_toDense, if_neg (by omega), neg_zero]
  | triu =>
    intro n P Q m hr hc hs e w ha i hi j hj
    cases w with | @triu _ q hn hq =>
    have ha := ha i hi j hj
    simp only [SM.toDense] at ha
    rcases lt_trichotomy i j with h | rfl | h
    · left; simp only [SM.toDense]; rw [ha, Triu.toDense_eq, get_T, Tril.get_toDense, if_neg (by omega), neg_zero]
    · right; rfl
    · left; simp only [SM.toDense]; rw [Triu.toDense_eq, get_T, Tril.get_toDense, if_neg (by omega)]
  | topRight x y ca cc ihA ihC =>
    intro n P Q m hr hc hs e w ha i hi j hj
    obtain ⟨b, e', QA, QB, QC, rfl, rfl, hb, hA, hBr, hBc, hC⟩ := w.tr_inv
    obtain ⟨A, eA, wA⟩ := fromDense_wf hA.supports (m := m.slice 0 b 0 b) (by shp) (by shp)
    obtain ⟨C, eC, wC⟩ := fromDense_wf hC.supports (m := m.slice b m.rows b m.cols) (by shp) (by shp)
    have sy : ∀ r0 r1, ∀ i j, (m.slice r0 r1 r0 r1).get i j = (m.slice r0 r1 r0 r1).get j i := by
      intro r0 r1 i j; rw [get_slice, get_slice, hs]; congr 1; simp [and_comm]
    rw [toDense_tr hA hBr hBc hC] at ha ⊢
    have tA := ihA (by shp) (by shp) (sy 0 b) eA hA fun i hi j hj => by
      have := ha i (by omega) j (by omega)
      rwa [blk_tl hi hj, blk_tl hj hi] at this
    have tC := ihC (by shp) (by shp) (by rw [hr, hc]; exact sy b (b + e')) eC hC fun i hi j hj => by
      have := ha (b + i) (by omega) (b + j) (by omega)
      rwa [blk_br hi hj, blk_br hj hi] at this
    rw [SM.fromDense, if_neg (by omega), getBoundary_eq (hr ▸ hb), Except.bind_ok', eA, Except.bind_ok',
      add?_ok (by shp) (by shp), Except.bind_ok', eC, Except.bind_ok',
      initTopRight_ok hb wA (by shp) (by shp) wC] at e
    injection e with e; subst e
    rw [toDense_tr (e := e') wA (by shp) (by shp) wC]
    have key : ∀ k < b + e', k < b ∨ ∃ t < e', k = b + t := fun k hk => by
      by_cases h1 : k < b
      · exact .inl h1
      · exact .inr ⟨k - b, by omega, by omega⟩
    have ha' := ha i hi j hj
    rcases key i hi with h1 | ⟨i, h1, rfl⟩ <;> rcases key j hj with h2 | ⟨j, h2, rfl⟩
    · rw [blk_tl h1 h2, blk_tl h1 h2, blk_tl h2 h1]; exact tA i h1 j h2
    · left; rw [ha', blk_bl h2 h1]; simp
    · left; rw [blk_bl h1 h2]; simp
    · rw [blk_br h1 h2, blk_br h1 h2, blk_br h2 h1]; exact tC i h1 j h2
  | bottomLeft x y ca cc ihA ihC =>
    intro n P Q m hr hc hs e w ha i hi j hj
    obtain ⟨b, e', QA, QB, QC, rfl, rfl, hb, hA, hBr, hBc, hC⟩ := w.bl_inv
    obtain ⟨A, eA, wA⟩ := fromDense_wf hA.supports (m := m.slice 0 b 0 b) (by shp) (by shp)
    obtain ⟨C, eC, wC⟩ := fromDense_wf hC.supports (m := m.slice b m.rows b m.cols) (by shp) (by shp)
    have sy : ∀ r0 r1, ∀ i j, (m.slice r0 r1 r0 r1).get i j = (m.slice r0 r1 r0 r1).get j i := by
      intro r0 r1 i j; rw [get_slice, get_slice, hs]; congr 1; simp [and_comm]
    rw [toDense_bl hA hBr hBc hC] at ha ⊢
    have tA := ihA (by shp) (by shp) (sy 0 b) eA hA fun i hi j hj => by
      have := ha i (by omega) j (by omega)
      rwa [blk_tl hi hj, blk_tl hj hi] at this
    have tC := ihC (by shp) (by shp) (by rw [hr, hc]; exact sy b (b + e')) eC hC fun i hi j hj => by
      have := ha (b + i) (by omega) (b + j) (by omega)
      rwa [blk_br hi hj, blk_br hj hi] at this
    rw [SM.fromDense, if_neg (by omega), getBoundary_eq (hr ▸ hb), Except.bind_ok', eA, Except.bind_ok',
      add?_ok (by shp) (by shp), Except.bind_ok', eC, Except.bind_ok',
      initBottomLeft_ok hb wA (by shp) (by shp) wC] at e
    injection e with e; subst e
    rw [toDense_bl (e := e') wA (by shp) (by shp) wC]
    have key : ∀ k < b + e', k < b ∨ ∃ t < e', k = b + t := fun k hk => by
      by_cases h1 : k < b
      · exact .inl h1
      · exact .inr ⟨k - b, by omega, by omega⟩
    have ha' := ha i hi j hj
    rcases key i hi with h1 | ⟨i, h1, rfl⟩ <;> rcases key j hj with h2 | ⟨j, h2, rfl⟩
    · rw [blk_tl h1 h2, blk_tl h1 h2, blk_tl h2 h1]; exact tA i h1 j h2
    · left; rw [blk_tr h1 h2]; simp
    · left; rw [ha', blk_tr h2 h1]; simp
    · rw [blk_br h1 h2, blk_br h1 h2, blk_br h2 h1]; exact tC i h1 j h2

theorem proj_anti (h : c.Supports n) {G X : Matrix (Fin n) (Fin n) α} (hG : Gᵀ = G) (hX : c.Rep n X) (hA : Xᵀ = -X) : frob (c.proj n G) X = 0 := by
  obtain ⟨K, wK, rfl⟩ := hX
  obtain ⟨P, e, w, d⟩ := fromDense_proj h (M := Mat.ofMatrix G) rfl rfl
  have hs : ∀ i j, (Mat.ofMatrix G).get i j = (Mat.ofMatrix G).get j i := by
    intro i j
    by_cases hij : i < n ∧ j < n
    · have := congrFun (congrFun hG ⟨i, hij.1⟩) ⟨j, hij.2⟩
      simp only [Matrix.transpose_apply] at this
      simp [Mat.ofMatrix, Mat.get_ofFn, hij.1, hij.2, this]
    · rw [(Mat.ofMatrix G).supp i j (by show n ≤ i ∨ n ≤ j; omega), (Mat.ofMatrix G).supp j i (by show n ≤ j ∨ n ≤ i; omega)]
  rw [Mat.M_ofMatrix] at d
  rw [← d]
  have key := fromDense_anti rfl rfl hs e wK fun i hi j hj => by
    have := congrFun (congrFun hA ⟨j, hj⟩) ⟨i, hi⟩
    exact this
  have e1 : frob (P.den n) (K.den n) = frob (P.den n)ᵀ (K.den n) := by
    refine sum_congr rfl fun i _ => sum_congr rfl fun j _ => ?_
    rcases key i i.2 j j.2 with h | h
    · show _ * K.toDense.get i j = _ * K.toDense.get i j
      rw [h, mul_zero, mul_zero]
    · show P.toDense.get i j * _ = P.toDense.get j i * _
      rw [h]
  have e2 : frob (P.den n) (K.den n) = - frob (P.den n)ᵀ (K.den n) := by
    rw [← frob_transpose, hA]
    simp [frob]
  linarith

end

/-- Classes `c` and `c'` represent the same matrices, those of `c` in the basis `Q`; if only one of them is a block-diagonal class (which multiplies without the
transposes, C03, C05), the matrices are symmetric. -/
structure Cls.Alike (c c' : Cls) (n : ℕ) (Q : Matrix (Fin n) (Fin n) α) : Prop where
  orth : Qᵀ * Q = 1
  rep : ∀ A, c.Rep n (conjBy Q A) ↔ c'.Rep n A
  form : (c.IsBlock ↔ c'.IsBlock) ∨ ∀ A : Matrix (Fin n) (Fin n) α, c'.Rep n A → Aᵀ = A

variable {c c' : Cls} {n : ℕ} {Q : Matrix (Fin n) (Fin n) α}

/-- `from_dense` is determined by the matrices a class represents -/
theorem Cls.Alike.proj (k : c.Alike c' n Q) (h : c.Supports n) (h' : c'.Supports n) {G : Matrix (Fin n) (Fin n) α} (hG : Gᵀ = G) :
    c.proj n (conjBy Q G) = conjBy Q (c'.proj n G) := by
  have hQ := k.orth
  have back : ∀ X : Matrix (Fin n) (Fin n) α, conjBy Q (Q * X * Qᵀ) = X := fun X => by
    rw [conjBy, show Qᵀ * (Q * X * Qᵀ) * Q = (Qᵀ * Q) * X * (Qᵀ * Q) by simp only [Matrix.mul_assoc], hQ]; simp
  have hcG : (conjBy Q G)ᵀ = conjBy Q G := by rw [conjBy_transpose, hG]
  have rP := Cls.rep_proj h (conjBy Q G)
  have rP' := (k.rep _).2 (Cls.rep_proj h' G)
  generalize hP : c.proj n (conjBy Q G) = P at *
  have rD := rP.sub rP'
  set D := P - conjBy Q (c'.proj n G) with hD
  have rB : c'.Rep n (Q * D * Qᵀ) := (k.rep _).1 (by rw [back]; exact rD)
  have o1 := proj_orth h hcG rD
  have o2 := proj_orth h' hG rB
  rw [← frob_conjBy hQ G, ← frob_conjBy hQ (c'.proj n G), ← frob_conjBy hQ (c'.proj n G)ᵀ, back, ← conjBy_transpose] at o2
  rw [hP] at o1
  have o3 : frob D D + frob Dᵀ D = 0 := by
    have e1 : frob D D = frob P D - frob (conjBy Q (c'.proj n G)) D := by rw [← frob_sub_left]
    have e2 : frob Dᵀ D = frob Pᵀ D - frob (conjBy Q (c'.proj n G))ᵀ D := by rw [← frob_sub_left, ← transpose_sub]
    rw [e1, e2]; linarith
  have o4 : D + Dᵀ = 0 := by
    apply frob_self_eq_zero
    rw [frob_add_left, frob_add_right, frob_add_right]
    have e1 : frob Dᵀ Dᵀ = frob D D := frob_transpose _ _
    have e2 : frob D Dᵀ = frob Dᵀ D := by rw [← frob_transpose, transpose_transpose]
    rw [e1, e2]; linarith
  have o5 : Dᵀ = -D := by rw [← add_eq_zero_iff_eq_neg, add_comm]; exact o4
  have a1 := proj_anti h hcG rD o5
  have a2 := proj_anti h' hG rB (by rw [transpose_mul, transpose_mul, transpose_transpose, o5, ← Matrix.mul_assoc]; simp)
  rw [← frob_conjBy hQ (c'.proj n G), back] at a2
  rw [hP] at a1
  have a3 : frob D D = 0 := by rw [show frob D D = frob P D - frob (conjBy Q (c'.proj n G)) D by rw [← frob_sub_left], a1, a2, sub_zero]
  exact sub_eq_zero.1 (frob_self_eq_zero a3)

theorem Cls.sandwich_form {c c' : Cls} {A : Matrix (Fin n) (Fin n) α} (h : (c.IsBlock ↔ c'.IsBlock) ∨ Aᵀ = A) (G : Matrix (Fin n) (Fin n) α) :
    c.sandwich A G = c'.sandwich A G ∧ c.gram A = c'.gram A := by
  rcases h with h | h
  · cases c <;> cases c' <;> first | exact ⟨rfl, rfl⟩ | exact (h.1 trivial).elim | exact (h.2 trivial).elim
  · cases c <;> cases c' <;> simp only [Cls.sandwich, Cls.gram, h, and_self]

theorem Cls.Alike.acts (k : c.Alike c' n Q) (h : c.Supports n) (h' : c'.Supports n) : c.Acts c' n Q := by
  refine ⟨k.orth, fun G hG => k.proj h h' hG, fun A hA G => ?_, fun A hA => ?_⟩
  · rw [conjBy_sandwich k.orth, (Cls.sandwich_form (c := c) (c' := c') (k.form.imp_right fun f => f A hA) G).1]
  · rw [conjBy_gram k.orth, (Cls.sandwich_form (c := c) (c' := c') (k.form.imp_right fun f => f A hA) 1).2]
