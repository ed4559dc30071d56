import Verif.Proofs.Inner
import Verif.Props.Structured

/-! Structured matrices are determined by their denotation, and projections and inner products are linear in the second
moment they are computed from. -/

set_option linter.unusedSectionVars false
open Finset Mat
variable {α : Type} [Field α]

/-- entries of the projection depend linearly on the entries of the matrix -/
theorem fromDense_lin [CharZero α] (s : α) : ∀ {c : Cls} {n : ℕ} {M1 M2 M3 : Mat α} {P1 P2 P3 : SM α}, c.Supports n →
    M1.rows = n → M1.cols = n → M2.rows = n → M2.cols = n → M3.rows = n → M3.cols = n →
    (∀ i j, M3.get i j = M1.get i j + s * M2.get i j) →
    SM.fromDense c M1 = .ok P1 → SM.fromDense c M2 = .ok P2 → SM.fromDense c M3 = .ok P3 →
    ∀ i < n, ∀ j < n, P3.toDense.get i j = P1.toDense.get i j + s * P2.toDense.get i j := by
  intro c
  induction c with
  | dense =>
    intro n M1 M2 M3 P1 P2 P3 _ _ _ _ _ _ _ h e1 e2 e3 i _ j _
    injection e1 with e1; injection e2 with e2; injection e3 with e3; subst e1 e2 e3
    exact h i j
  | diagonal =>
    intro n M1 M2 M3 P1 P2 P3 _ _ _ _ _ _ _ h e1 e2 e3 i _ j _
    injection e1 with e1; injection e2 with e2; injection e3 with e3; subst e1 e2 e3
    simp only [SM.toDense, Diagonal.get_toDense, get_diag, h]
    split_ifs <;> simp
  | block D =>
    intro n M1 M2 M3 P1 P2 P3 hs r1 c1 r2 c2 r3 c3 h e1 e2 e3 i _ j _
    obtain ⟨p1, e1', w1, h1⟩ := BlockDiag.fromDense_spec hs r1 c1
    obtain ⟨p2, e2', w2, h2⟩ := BlockDiag.fromDense_spec hs r2 c2
    obtain ⟨p3, e3', w3, h3⟩ := BlockDiag.fromDense_spec hs r3 c3
    rw [SM.fromDense, e1'] at e1; injection e1 with e1; subst e1
    rw [SM.fromDense, e2'] at e2; injection e2 with e2; subst e2
    rw [SM.fromDense, e3'] at e3; injection e3 with e3; subst e3
    obtain ⟨q, r, hr, rfl⟩ := BlockDiag.exists_qr hs i
    obtain ⟨q', r', hr', rfl⟩ := BlockDiag.exists_qr hs j
    simp only [SM.toDense]
    rw [BlockDiag.get_toDense w1 hr hr', BlockDiag.get_toDense w2 hr hr', BlockDiag.get_toDense w3 hr hr',
      h1 _ _ _ hr hr', h2 _ _ _ hr hr', h3 _ _ _ hr hr', h]
    split_ifs <;> simp
  | hier m1 m2 =>
    intro n M1 M2 M3 P1 P2 P3 hs r1 c1 r2 c2 r3 c3 h e1 e2 e3 i hi j hj
    have hd := Hier.hierDims_blockDims m1 m2 n
    obtain ⟨p1, e1', w1, h1⟩ := Hier.fromDense_spec hd r1 c1
    obtain ⟨p2, e2', w2, h2⟩ := Hier.fromDense_spec hd r2 c2
    obtain ⟨p3, e3', w3, h3⟩ := Hier.fromDense_spec hd r3 c3
    rw [SM.fromDense, e1'] at e1; injection e1 with e1; subst e1
    rw [SM.fromDense, e2'] at e2; injection e2 with e2; subst e2
    rw [SM.fromDense, e3'] at e3; injection e3 with e3; subst e3
    simp only [SM.toDense]
    revert hd w1 w2 w3 h1 h2 h3
    generalize (Hier.blockDims m1 m2 n).1 = k1
    generalize (Hier.blockDims m1 m2 n).2.1 = d
    generalize (Hier.blockDims m1 m2 n).2.2 = k2
    intro hd w1 h1 w2 h2 w3 h3
    have key : ∀ k < n, k < k1 ∨ (∃ t < d, k = k1 + t) ∨ ∃ t < k2, k = k1 + d + t := by
      intro k hk
      have := hd.sum
      by_cases h1 : k < k1
      · exact .inl h1
      · by_cases h2 : k < k1 + d
        · exact .inr (.inl ⟨k - k1, by omega, by omega⟩)
        · exact .inr (.inr ⟨k - (k1 + d), by omega, by omega⟩)
    rcases key i hi with a1 | ⟨i, a1, rfl⟩ | ⟨i, a1, rfl⟩ <;> rcases key j hj with a2 | ⟨j, a2, rfl⟩ | ⟨j, a2, rfl⟩
    · rw [Hier.get_tt w1 a1 a2, Hier.get_tt w2 a1 a2, Hier.get_tt w3 a1 a2, h1.a _ a1 _ a2, h2.a _ a1 _ a2, h3.a _ a1 _ a2, h]
    · rw [Hier.get_tm w1 a1 a2, Hier.get_tm w2 a1 a2, Hier.get_tm w3 a1 a2, h1.b _ a1 _ (by omega), h2.b _ a1 _ (by omega),
        h3.b _ a1 _ (by omega), h]; ring
    · rw [Hier.get_tb w1 a1 a2, Hier.get_tb w2 a1 a2, Hier.get_tb w3 a1 a2, h1.b _ a1 _ (by omega), h2.b _ a1 _ (by omega),
        h3.b _ a1 _ (by omega), h]; ring
    · rw [Hier.get_mt w1 a1 a2, Hier.get_mt w2 a1 a2, Hier.get_mt w3 a1 a2]; simp
    · rw [Hier.get_mm w1 a1 a2, Hier.get_mm w2 a1 a2, Hier.get_mm w3 a1 a2, h1.c _ a1, h2.c _ a1, h3.c _ a1, h]
      split_ifs <;> simp
    · rw [Hier.get_mb w1 a1 a2, Hier.get_mb w2 a1 a2, Hier.get_mb w3 a1 a2]; simp
    · rw [Hier.get_bt w1 a1 a2, Hier.get_bt w2 a1 a2, Hier.get_bt w3 a1 a2]; simp
    · rw [Hier.get_bm w1 a1 a2, Hier.get_bm w2 a1 a2, Hier.get_bm w3 a1 a2, h1.dd _ a1 _ a2, h2.dd _ a1 _ a2, h3.dd _ a1 _ a2, h]
      ring
    · rw [Hier.get_bb w1 a1 a2, Hier.get_bb w2 a1 a2, Hier.get_bb w3 a1 a2, h1.e _ a1 _ a2, h2.e _ a1 _ a2, h3.e _ a1 _ a2, h]
  | tril =>
    intro n M1 M2 M3 P1 P2 P3 hs r1 c1 r2 c2 r3 c3 h e1 e2 e3 i hi j hj
    obtain ⟨p1, e1', w1, h1⟩ := toeplitzFromDense_spec hs r1 c1
    obtain ⟨p2, e2', w2, h2⟩ := toeplitzFromDense_spec hs r2 c2
    obtain ⟨p3, e3', w3, h3⟩ := toeplitzFromDense_spec hs r3 c3
    rw [SM.fromDense, Tril.fromDense, e1'] at e1; injection e1 with e1; subst e1
    rw [SM.fromDense, Tril.fromDense, e2'] at e2; injection e2 with e2; subst e2
    rw [SM.fromDense, Tril.fromDense, e3'] at e3; injection e3 with e3; subst e3
    simp only [SM.toDense, Tril.get_toDense, w1, w2, w3]
    rw [h1 _ (by omega), h2 _ (by omega), h3 _ (by omega)]
    simp only [h, sum_add_distrib, ← mul_sum]
    split_ifs <;> ring
  | triu =>
    intro n M1 M2 M3 P1 P2 P3 hs r1 c1 r2 c2 r3 c3 h e1 e2 e3 i hi j hj
    obtain ⟨p1, e1', w1, h1⟩ := toeplitzFromDense_spec hs r1 c1
    obtain ⟨p2, e2', w2, h2⟩ := toeplitzFromDense_spec hs r2 c2
    obtain ⟨p3, e3', w3, h3⟩ := toeplitzFromDense_spec hs r3 c3
    rw [SM.fromDense, Triu.fromDense, e1'] at e1; injection e1 with e1; subst e1
    rw [SM.fromDense, Triu.fromDense, e2'] at e2; injection e2 with e2; subst e2
    rw [SM.fromDense, Triu.fromDense, e3'] at e3; injection e3 with e3; subst e3
    simp only [SM.toDense, Triu.toDense_eq, get_T, Tril.get_toDense, w1, w2, w3]
    rw [h1 _ (by omega), h2 _ (by omega), h3 _ (by omega)]
    simp only [h, sum_add_distrib, ← mul_sum]
    split_ifs <;> ring
  | topRight x y ca cc ihA ihC =>
    intro n M1 M2 M3 P1 P2 P3 hs r1 c1 r2 c2 r3 c3 h e1 e2 e3 i hi j hj
    obtain ⟨b, hb, hA, hC⟩ := hs
    have hle := hb.le
    have inv : ∀ {m : Mat α} {P : SM α}, m.rows = n → m.cols = n → SM.fromDense (.topRight x y ca cc) m = .ok P →
        ∃ A C, SM.fromDense ca (m.slice 0 b 0 b) = .ok A ∧ SM.fromDense cc (m.slice b m.rows b m.cols) = .ok C ∧
          P.toDense = blk b (b + (n - b)) A.toDense ((m.slice 0 b b m.cols).add (m.slice b m.rows 0 b).T)
            (Mat.zeros (n - b) b) C.toDense := by
      intro m P hr hc e
      obtain ⟨A, eA, wA⟩ := fromDense_wf hA (m := m.slice 0 b 0 b) (by shp) (by shp)
      obtain ⟨C, eC, wC⟩ := fromDense_wf hC (m := m.slice b m.rows b m.cols) (by shp) (by shp)
      rw [SM.fromDense, if_neg (by omega), getBoundary_eq (hr ▸ hb), Except.bind_ok', eA, Except.bind_ok',
        add?_ok (by shp) (by shp), Except.bind_ok', eC, Except.bind_ok',
        initTopRight_ok (b := b) (e := n - b) (by rwa [show b + (n - b) = n by omega]) wA (by shp) (by shp) wC] at e
      injection e with e; subst e
      exact ⟨A, C, eA, eC, toDense_tr wA (by shp) (by shp) wC⟩
    obtain ⟨A1, C1, a1, b1, t1⟩ := inv r1 c1 e1
    obtain ⟨A2, C2, a2, b2, t2⟩ := inv r2 c2 e2
    obtain ⟨A3, C3, a3, b3, t3⟩ := inv r3 c3 e3
    have hAll := ihA hA (by shp) (by shp) (by shp) (by shp) (by shp) (by shp)
      (fun i j => by rw [get_slice, get_slice, get_slice, h]; split_ifs <;> simp) a1 a2 a3
    have hCll := ihC hC (by shp) (by shp) (by shp) (by shp) (by shp) (by shp)
      (fun i j => by rw [get_slice, get_slice, get_slice, h, r1, r2, r3, c1, c2, c3]; split_ifs <;> simp) b1 b2 b3
    have key : ∀ k < n, k < b ∨ ∃ t < n - b, k = b + t := by
      intro k hk
      by_cases h1 : k < b
      · exact .inl h1
      · exact .inr ⟨k - b, by omega, by omega⟩
    rw [t1, t2, t3]
    rcases key i hi with x1 | ⟨i, x1, rfl⟩ <;> rcases key j hj with x2 | ⟨j, x2, rfl⟩
    · rw [blk_tl x1 x2, blk_tl x1 x2, blk_tl x1 x2, hAll i x1 j x2]
    · rw [blk_tr x1 x2, blk_tr x1 x2, blk_tr x1 x2, get_add (by shp) (by shp), get_add (by shp) (by shp), get_add (by shp) (by shp)]
      simp only [get_T, get_slice, h, r1, r2, r3, c1, c2, c3]
      split_ifs <;> ring
    · rw [blk_bl x1 x2, blk_bl x1 x2, blk_bl x1 x2]; simp
    · rw [blk_br x1 x2, blk_br x1 x2, blk_br x1 x2, hCll i x1 j x2]
  | bottomLeft x y ca cc ihA ihC =>
    intro n M1 M2 M3 P1 P2 P3 hs r1 c1 r2 c2 r3 c3 h e1 e2 e3 i hi j hj
    obtain ⟨b, hb, hA, hC⟩ := hs
    have hle := hb.le
    have inv : ∀ {m : Mat α} {P : SM α}, m.rows = n → m.cols = n → SM.fromDense (.bottomLeft x y ca cc) m = .ok P →
        ∃ A C, SM.fromDense ca (m.slice 0 b 0 b) = .ok A ∧ SM.fromDense cc (m.slice b m.rows b m.cols) = .ok C ∧
          P.toDense = blk b (b + (n - b)) A.toDense (Mat.zeros b (n - b)) ((m.slice b m.rows 0 b).add (m.slice 0 b b m.cols).T)
            C.toDense := by
      intro m P hr hc e
      obtain ⟨A, eA, wA⟩ := fromDense_wf hA (m := m.slice 0 b 0 b) (by shp) (by shp)
      obtain ⟨C, eC, wC⟩ := fromDense_wf hC (m := m.slice b m.rows b m.cols) (by shp) (by shp)
      rw [SM.fromDense, if_neg (by omega), getBoundary_eq (hr ▸ hb), Except.bind_ok', eA, Except.bind_ok',
        add?_ok (by shp) (by shp), Except.bind_ok', eC, Except.bind_ok',
        initBottomLeft_ok (b := b) (e := n - b) (by rwa [show b + (n - b) = n by omega]) wA (by shp) (by shp) wC] at e
      injection e with e; subst e
      exact ⟨A, C, eA, eC, toDense_bl wA (by shp) (by shp) wC⟩
    obtain ⟨A1, C1, a1, b1, t1⟩ := inv r1 c1 e1
    obtain ⟨A2, C2, a2, b2, t2⟩ := inv r2 c2 e2
    obtain ⟨A3, C3, a3, b3, t3⟩ := inv r3 c3 e3
    have hAll := ihA hA (by shp) (by shp) (by shp) (by shp) (by shp) (by shp)
      (fun i j => by rw [get_slice, get_slice, get_slice, h]; split_ifs <;> simp) a1 a2 a3
    have hCll := ihC hC (by shp) (by shp) (by shp) (by shp) (by shp) (by shp)
      (fun i j => by rw [get_slice, get_slice, get_slice, h, r1, r2, r3, c1, c2, c3]; split_ifs <;> simp) b1 b2 b3
    have key : ∀ k < n, k < b ∨ ∃ t < n - b, k = b + t := by
      intro k hk
      by_cases h1 : k < b
      · exact .inl h1
      · exact .inr ⟨k - b, by omega, by omega⟩
    rw [t1, t2, t3]
    rcases key i hi with x1 | ⟨i, x1, rfl⟩ <;> rcases key j hj with x2 | ⟨j, x2, rfl⟩
    · rw [blk_tl x1 x2, blk_tl x1 x2, blk_tl x1 x2, hAll i x1 j x2]
    · rw [blk_tr x1 x2, blk_tr x1 x2, blk_tr x1 x2]; simp
    · rw [blk_bl x1 x2, blk_bl x1 x2, blk_bl x1 x2, get_add (by shp) (by shp), get_add (by shp) (by shp), get_add (by shp) (by shp)]
      simp only [get_T, get_slice, h, r1, r2, r3, c1, c2, c3]
      split_ifs <;> ring
    · rw [blk_br x1 x2, blk_br x1 x2, blk_br x1 x2, hCll i x1 j x2]

/-- two objects of the same class and dimension that represent the same matrix are equal -/
theorem WF.ext [CharZero α] {c : Cls} {n : ℕ} {K L : SM α} (hK : WF c n K) (hL : WF c n L) (h : K.toDense = L.toDense) : K = L := by
  induction hK generalizing L with
  | dense hr hc => cases hL; exact congrArg SM.dense h
  | diagonal hn =>
    cases hL
    rw [SM.toDense, SM.toDense] at h
    have := congrArg Mat.diag h
    rw [Diagonal.fromDense_toDense, Diagonal.fromDense_toDense] at this
    rw [this]
  | block w =>
    cases hL with | block w' =>
    rw [SM.toDense, SM.toDense] at h
    have := BlockDiag.fromDense_toDense w
    rw [h, BlockDiag.fromDense_toDense w'] at this
    injection this with this; rw [this]
  | @hier m1 m2 n k1 d k2 o hd w =>
    cases hL with | @hier _ _ _ k1' d' k2' o' hd' w' =>
    have e1 : k1' = k1 := hd'.k1_eq.trans hd.k1_eq.symm
    have e2 : k2' = k2 := by rw [hd'.k2_eq, hd.k2_eq, e1]
    have e3 : d' = d := by have := hd.sum; have := hd'.sum; omega
    subst e1 e2 e3
    rw [SM.toDense, SM.toDense] at h
    have eA : o.A = o'.A := Mat.ext' (w.Ar.trans w'.Ar.symm) (w.Ac.trans w'.Ac.symm) fun i hi j hj => by
      rw [w.Ar] at hi; rw [w.Ac] at hj; rw [← Hier.get_tt w hi hj, ← Hier.get_tt w' hi hj, h]
    have eB : o.B = o'.B := Mat.ext' (w.Br.trans w'.Br.symm) (w.Bc.trans w'.Bc.symm) fun i hi j hj => by
      rw [w.Br] at hi; rw [w.Bc] at hj
      by_cases hj' : j < d'
      · rw [← Hier.get_tm w hi hj', ← Hier.get_tm w' hi hj', h]
      · obtain ⟨t, rfl⟩ : ∃ t, j = d' + t := ⟨j - d', by omega⟩
        rw [← Hier.get_tb w hi (by omega), ← Hier.get_tb w' hi (by omega), h]
    have eC : o.C = o'.C := Vec.ext' (w.Cl.trans w'.Cl.symm) fun i hi => by
      rw [w.Cl] at hi
      have a := Hier.get_mm w hi hi; have b := Hier.get_mm w' hi hi
      rw [if_pos rfl] at a b; rw [← a, ← b, h]
    have eD : o.D = o'.D := Mat.ext' (w.Dr.trans w'.Dr.symm) (w.Dc.trans w'.Dc.symm) fun i hi j hj => by
      rw [w.Dr] at hi; rw [w.Dc] at hj; rw [← Hier.get_bm w hi hj, ← Hier.get_bm w' hi hj, h]
    have eE : o.E = o'.E := Mat.ext' (w.Er.trans w'.Er.symm) (w.Ec.trans w'.Ec.symm) fun i hi j hj => by
      rw [w.Er] at hi; rw [w.Ec] at hj; rw [← Hier.get_bb w hi hj, ← Hier.get_bb w' hi hj, h]
    have em1 := w.h1.trans w'.h1.symm
    have em2 := w.h2.trans w'.h2.symm
    obtain ⟨_, _, _, _, _, _, _⟩ := o; obtain ⟨_, _, _, _, _, _, _⟩ := o'
    simp only at eA eB eC eD eE em1 em2
    subst eA eB eC eD eE em1 em2
    rfl
  | tril hn hd =>
    cases hL with | tril hn' hd' =>
    rw [SM.toDense, SM.toDense] at h
    have := Tril.fromDense_toDense hn hd
    rw [h, Tril.fromDense_toDense hn' hd'] at this
    injection this with this; rw [this]
  | triu hn hd =>
    cases hL with | triu hn' hd' =>
    rw [SM.toDense, SM.toDense] at h
    have := Triu.fromDense_toDense hn hd
    rw [h, Triu.fromDense_toDense hn' hd'] at this
    injection this with this; rw [this]
  | @topRight a c ca cc n b A C B hb hA hr hc hC ihA ihC =>
    cases hL with | @topRight _ _ _ _ _ b' A' C' B' hb' hA' hr' hc' hC' =>
    have := hb.unique hb'; subst this
    have := hb.le
    rw [toDense_tr hA hr hc hC, toDense_tr hA' hr' hc' hC'] at h
    have s1 := shape_tr hA hr hc hC
    have s2 := shape_tr hA' hr' hc' hC'
    rw [ihA hA' (by rw [← blk_slice_tl s1, h, blk_slice_tl s2]), ihC hC' (by rw [← blk_slice_br s1, h, blk_slice_br s2]),
      show B = B' by rw [← blk_slice_tr s1, h, blk_slice_tr s2]]
  | @bottomLeft a c ca cc n b A C B hb hA hr hc hC ihA ihC =>
    cases hL with | @bottomLeft _ _ _ _ _ b' A' C' B' hb' hA' hr' hc' hC' =>
    have := hb.unique hb'; subst this
    have := hb.le
    rw [toDense_bl hA hr hc hC, toDense_bl hA' hr' hc' hC'] at h
    have s1 := shape_bl hA hr hc hC
    have s2 := shape_bl hA' hr' hc' hC'
    rw [ihA hA' (by rw [← blk_slice_tl s1, h, blk_slice_tl s2]), ihC hC' (by rw [← blk_slice_br s1, h, blk_slice_br s2]),
      show B = B' by rw [← blk_slice_bl s1, h, blk_slice_bl s2]]

theorem WF.ext_den [CharZero α] {c : Cls} {n : ℕ} {K L : SM α} (hK : WF c n K) (hL : WF c n L) (h : K.den n = L.den n) : K = L :=
  hK.ext hL (Mat.M_inj ⟨hK.rows, hK.cols⟩ ⟨hL.rows, hL.cols⟩ h)
