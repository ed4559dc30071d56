import Verif.Proofs.SM

/-! `eye` and `zeros` for every class. -/

open Finset
variable {α : Type} [Field α]
open Mat

theorem Hier.zeros_fromDense (m1 m2 n : ℕ) : Hier.fromDense m1 m2 (Mat.zeros n n : Mat α) = Hier.zeros m1 m2 n := by
  have hd := Hier.hierDims_blockDims m1 m2 n
  obtain ⟨p, e, w, f⟩ := Hier.fromDense_spec (α := α) hd (m := Mat.zeros n n) rfl rfl
  obtain ⟨q, e', w', f'⟩ := Hier.zeros_spec (α := α) hd
  have hn := hd.sum
  generalize (Hier.blockDims m1 m2 n).1 = k1 at *
  generalize (Hier.blockDims m1 m2 n).2.1 = d at *
  generalize (Hier.blockDims m1 m2 n).2.2 = k2 at *
  rw [e, e']; congr 1
  refine Hier.ext_shape w w' f ?_
  constructor
  · intro i hi j hj; rw [← Hier.get_tt w' hi hj, f']
  · intro i hi j hj
    by_cases h : j < d
    · rw [← Hier.get_tm w' hi h, f']; simp
    · rw [show j = d + (j - d) by omega, ← Hier.get_tb w' hi (j := j - d) (by omega), f']; simp
  · intro i hi
    have := Hier.get_mm w' hi hi
    rw [if_pos rfl] at this; rw [← this, f']
  · intro i hi j hj; rw [← Hier.get_bm w' hi hj, f']; simp
  · intro i hi j hj; rw [← Hier.get_bb w' hi hj, f']

theorem Hier.eye_fromDense (m1 m2 n : ℕ) : Hier.fromDense m1 m2 (Mat.eye n : Mat α) = Hier.eye m1 m2 n := by
  have hd := Hier.hierDims_blockDims m1 m2 n
  obtain ⟨p, e, w, f⟩ := Hier.fromDense_spec (α := α) hd (m := Mat.eye n) rfl rfl
  obtain ⟨q, e', w', f'⟩ := Hier.eye_spec (α := α) hd
  have hn := hd.sum
  generalize (Hier.blockDims m1 m2 n).1 = k1 at *
  generalize (Hier.blockDims m1 m2 n).2.1 = d at *
  generalize (Hier.blockDims m1 m2 n).2.2 = k2 at *
  rw [e, e']; congr 1
  refine Hier.ext_shape w w' f ?_
  constructor
  · intro i hi j hj; rw [← Hier.get_tt w' hi hj, f']
  · intro i hi j hj
    rw [get_eye, if_neg (by omega), zero_mul]
    by_cases h : j < d
    · rw [← Hier.get_tm w' hi h, f', get_eye, if_neg (by omega)]
    · rw [show j = d + (j - d) by omega, ← Hier.get_tb w' hi (j := j - d) (by omega), f', get_eye, if_neg (by omega)]
  · intro i hi
    have := Hier.get_mm w' hi hi
    rw [if_pos rfl] at this; rw [← this, f']
  · intro i hi j hj; rw [← Hier.get_bm w' hi hj, f', get_eye, if_neg (by omega), zero_mul]
  · intro i hi j hj; rw [← Hier.get_bb w' hi hj, f']

variable [CharZero α]

theorem fromDense_zeros : ∀ {c : Cls} {n : ℕ}, c.Supports n →
    ∃ P : SM α, SM.fromDense c (Mat.zeros n n) = .ok P ∧ WF c n P ∧ P.toDense = Mat.zeros n n := by
  have leaf : ∀ {c : Cls} {n : ℕ} {P : SM α}, c.NoHier → WF c n P → P.toDense = Mat.zeros n n →
      ∃ P : SM α, SM.fromDense c (Mat.zeros n n) = .ok P ∧ WF c n P ∧ P.toDense = Mat.zeros n n :=
    fun {c n P} h w e => ⟨P, by rw [← e, fromDense_toDense w h], w, e⟩
  intro c
  induction c with
  | dense => intro n _; exact ⟨_, rfl, .dense rfl rfl, rfl⟩
  | diagonal => intro n _; exact leaf (P := .diagonal (Vec.zeros n)) trivial (.diagonal rfl) Diagonal.zeros_spec
  | block D =>
    intro n h
    obtain ⟨p, _, w, e⟩ := BlockDiag.zeros_spec (α := α) (n := n) h
    exact leaf (P := .block p) trivial (.block w) e
  | hier m1 m2 =>
    intro n _
    obtain ⟨p, o, w, e⟩ := Hier.zeros_spec (α := α) (Hier.hierDims_blockDims m1 m2 n)
    exact ⟨.hier p, by rw [SM.fromDense, Hier.zeros_fromDense, o]; rfl, .hier (Hier.hierDims_blockDims m1 m2 n) w, e⟩
  | tril => intro n h; exact leaf (P := .tril (Toeplitz.zeros n)) trivial (.tril h rfl) Tril.zeros_spec
  | triu => intro n h; exact leaf (P := .triu (Toeplitz.zeros n)) trivial (.triu h rfl) Triu.zeros_spec
  | topRight x y ca cc ihA ihC =>
    intro n h
    obtain ⟨b, hb, hA, hC⟩ := h
    have := hb.le
    obtain ⟨e, rfl⟩ : ∃ e, n = b + e := ⟨n - b, by omega⟩
    rw [show b + e - b = e by omega] at *
    obtain ⟨A, eA, wA, fA⟩ := ihA hA
    obtain ⟨C, eC, wC, fC⟩ := ihC hC
    have S : BlkShape b e (Mat.zeros b b) (Mat.zeros b e) (Mat.zeros e b) (Mat.zeros e e : Mat α) :=
      ⟨rfl, rfl, rfl, rfl, rfl, rfl, rfl, rfl⟩
    refine ⟨.topRight x y ca cc A (Mat.zeros b e) C, ?_, .tr hb wA rfl rfl wC, ?_⟩
    · rw [← blk_zeros, SM.fromDense, if_neg (by simp)]
      simp only [rows_blk, cols_blk]
      rw [getBoundary_eq hb, Except.bind_ok', blk_slice_tl S, eA, Except.bind_ok', blk_slice_tr S, blk_slice_bl S,
        zeros_T, add?_ok (by simp) (by simp), Except.bind_ok', blk_slice_br S, eC, Except.bind_ok',
        add_zeros (by simp) (by simp), initTopRight_ok hb wA rfl rfl wC]
    · rw [toDense_tr (e := e) wA rfl rfl wC, fA, fC, blk_zeros]
  | bottomLeft x y ca cc ihA ihC =>
    intro n h
    obtain ⟨b, hb, hA, hC⟩ := h
    have := hb.le
    obtain ⟨e, rfl⟩ : ∃ e, n = b + e := ⟨n - b, by omega⟩
    rw [show b + e - b = e by omega] at *
    obtain ⟨A, eA, wA, fA⟩ := ihA hA
    obtain ⟨C, eC, wC, fC⟩ := ihC hC
    have S : BlkShape b e (Mat.zeros b b) (Mat.zeros b e) (Mat.zeros e b) (Mat.zeros e e : Mat α) :=
      ⟨rfl, rfl, rfl, rfl, rfl, rfl, rfl, rfl⟩
    refine ⟨.bottomLeft x y ca cc A (Mat.zeros e b) C, ?_, .bl hb wA rfl rfl wC, ?_⟩
    · rw [← blk_zeros, SM.fromDense, if_neg (by simp)]
      simp only [rows_blk, cols_blk]
      rw [getBoundary_eq hb, Except.bind_ok', blk_slice_tl S, eA, Except.bind_ok', blk_slice_bl S, blk_slice_tr S,
        zeros_T, add?_ok (by simp) (by simp), Except.bind_ok', blk_slice_br S, eC, Except.bind_ok',
        add_zeros (by simp) (by simp), initBottomLeft_ok hb wA rfl rfl wC]
    · rw [toDense_bl (e := e) wA rfl rfl wC, fA, fC, blk_zeros]

theorem fromDense_eye : ∀ {c : Cls} {n : ℕ}, c.Supports n →
    ∃ P : SM α, SM.fromDense c (Mat.eye n) = .ok P ∧ WF c n P ∧ P.toDense = Mat.eye n := by
  have leaf : ∀ {c : Cls} {n : ℕ} {P : SM α}, c.NoHier → WF c n P → P.toDense = Mat.eye n →
      ∃ P : SM α, SM.fromDense c (Mat.eye n) = .ok P ∧ WF c n P ∧ P.toDense = Mat.eye n :=
    fun {c n P} h w e => ⟨P, by rw [← e, fromDense_toDense w h], w, e⟩
  intro c
  induction c with
  | dense => intro n _; exact ⟨_, rfl, .dense rfl rfl, rfl⟩
  | diagonal => intro n _; exact leaf (P := .diagonal (Diagonal.eye n)) trivial (.diagonal rfl) Diagonal.eye_spec
  | block D =>
    intro n h
    obtain ⟨p, _, w, e⟩ := BlockDiag.eye_spec (α := α) (n := n) h
    exact leaf (P := .block p) trivial (.block w) e
  | hier m1 m2 =>
    intro n _
    obtain ⟨p, o, w, e⟩ := Hier.eye_spec (α := α) (Hier.hierDims_blockDims m1 m2 n)
    exact ⟨.hier p, by rw [SM.fromDense, Hier.eye_fromDense, o]; rfl, .hier (Hier.hierDims_blockDims m1 m2 n) w, e⟩
  | tril =>
    intro n h
    obtain ⟨p, _, w, e⟩ := Tril.eye_spec (α := α) h
    exact leaf (P := .tril p) trivial (.tril h w) e
  | triu =>
    intro n h
    obtain ⟨p, _, w, e⟩ := Triu.eye_spec (α := α) h
    exact leaf (P := .triu p) trivial (.triu h w) e
  | topRight x y ca cc ihA ihC =>
    intro n h
    obtain ⟨b, hb, hA, hC⟩ := h
    have := hb.le
    obtain ⟨e, rfl⟩ : ∃ e, n = b + e := ⟨n - b, by omega⟩
    rw [show b + e - b = e by omega] at *
    obtain ⟨A, eA, wA, fA⟩ := ihA hA
    obtain ⟨C, eC, wC, fC⟩ := ihC hC
    have S : BlkShape b e (Mat.eye b) (Mat.zeros b e) (Mat.zeros e b) (Mat.eye e : Mat α) :=
      ⟨rfl, rfl, rfl, rfl, rfl, rfl, rfl, rfl⟩
    refine ⟨.topRight x y ca cc A (Mat.zeros b e) C, ?_, .tr hb wA rfl rfl wC, ?_⟩
    · rw [← blk_eye, SM.fromDense, if_neg (by simp)]
      simp only [rows_blk, cols_blk]
      rw [getBoundary_eq hb, Except.bind_ok', blk_slice_tl S, eA, Except.bind_ok', blk_slice_tr S, blk_slice_bl S,
        zeros_T, add?_ok (by simp) (by simp), Except.bind_ok', blk_slice_br S, eC, Except.bind_ok',
        add_zeros (by simp) (by simp), initTopRight_ok hb wA rfl rfl wC]
    · rw [toDense_tr (e := e) wA rfl rfl wC, fA, fC, blk_eye]
  | bottomLeft x y ca cc ihA ihC =>
    intro n h
    obtain ⟨b, hb, hA, hC⟩ := h
    have := hb.le
    obtain ⟨e, rfl⟩ : ∃ e, n = b + e := ⟨n - b, by omega⟩
    rw [show b + e - b = e by omega] at *
    obtain ⟨A, eA, wA, fA⟩ := ihA hA
    obtain ⟨C, eC, wC, fC⟩ := ihC hC
    have S : BlkShape b e (Mat.eye b) (Mat.zeros b e) (Mat.zeros e b) (Mat.eye e : Mat α) :=
      ⟨rfl, rfl, rfl, rfl, rfl, rfl, rfl, rfl⟩
    refine ⟨.bottomLeft x y ca cc A (Mat.zeros e b) C, ?_, .bl hb wA rfl rfl wC, ?_⟩
    · rw [← blk_eye, SM.fromDense, if_neg (by simp)]
      simp only [rows_blk, cols_blk]
      rw [getBoundary_eq hb, Except.bind_ok', blk_slice_tl S, eA, Except.bind_ok', blk_slice_bl S, blk_slice_tr S,
        zeros_T, add?_ok (by simp) (by simp), Except.bind_ok', blk_slice_br S, eC, Except.bind_ok',
        add_zeros (by simp) (by simp), initBottomLeft_ok hb wA rfl rfl wC]
    · rw [toDense_bl (e := e) wA rfl rfl wC, fA, fC, blk_eye]

theorem smzeros_spec {c : Cls} {n : ℕ} (h : c.Supports n) :
    ∃ P : SM α, SM.zeros c n = .ok P ∧ WF c n P ∧ P.toDense = Mat.zeros n n := by
  cases c with
  | diagonal => exact ⟨_, rfl, .diagonal rfl, Diagonal.zeros_spec⟩
  | block D =>
    obtain ⟨p, o, w, e⟩ := BlockDiag.zeros_spec (α := α) (n := n) h
    exact ⟨.block p, by rw [SM.zeros, o]; rfl, .block w, e⟩
  | hier m1 m2 =>
    obtain ⟨p, o, w, e⟩ := Hier.zeros_spec (α := α) (Hier.hierDims_blockDims m1 m2 n)
    exact ⟨.hier p, by rw [SM.zeros, o]; rfl, .hier (Hier.hierDims_blockDims m1 m2 n) w, e⟩
  | tril => exact ⟨_, rfl, .tril h rfl, Tril.zeros_spec⟩
  | triu => exact ⟨_, rfl, .triu h rfl, Triu.zeros_spec⟩
  | dense => exact fromDense_zeros h
  | topRight _ _ _ _ => exact fromDense_zeros h
  | bottomLeft _ _ _ _ => exact fromDense_zeros h

theorem smeye_spec {c : Cls} {n : ℕ} (h : c.Supports n) :
    ∃ P : SM α, SM.eye c n = .ok P ∧ WF c n P ∧ P.toDense = Mat.eye n := by
  cases c with
  | diagonal => exact ⟨_, rfl, .diagonal rfl, Diagonal.eye_spec⟩
  | block D =>
    obtain ⟨p, o, w, e⟩ := BlockDiag.eye_spec (α := α) (n := n) h
    exact ⟨.block p, by rw [SM.eye, o]; rfl, .block w, e⟩
  | hier m1 m2 =>
    obtain ⟨p, o, w, e⟩ := Hier.eye_spec (α := α) (Hier.hierDims_blockDims m1 m2 n)
    exact ⟨.hier p, by rw [SM.eye, o]; rfl, .hier (Hier.hierDims_blockDims m1 m2 n) w, e⟩
  | tril =>
    obtain ⟨p, o, w, e⟩ := Tril.eye_spec (α := α) h
    exact ⟨.tril p, by rw [SM.eye, o]; rfl, .tril h w, e⟩
  | triu =>
    obtain ⟨p, o, w, e⟩ := Triu.eye_spec (α := α) h
    exact ⟨.triu p, by rw [SM.eye, o]; rfl, .triu h w, e⟩
  | dense => exact fromDense_eye h
  | topRight _ _ _ _ => exact fromDense_eye h
  | bottomLeft _ _ _ _ => exact fromDense_eye h
