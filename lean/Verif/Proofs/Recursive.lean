import Verif.Proofs.Diagonal
import Verif.Proofs.Block
import Verif.Proofs.Hier

/-! 2 × 2 block matrices, and the recursive templates. -/

open Finset
variable {α : Type} [Field α]

namespace Mat
/-- the `n × n` matrix with blocks `[[A, R], [L, C]]`, `A` of dimension `b` -/
def blk (b n : ℕ) (A R L C : Mat α) : Mat α :=
  Mat.ofFn n n fun i j =>
    if i < b then (if j < b then A.get i j else R.get i (j - b)) else (if j < b then L.get (i - b) j else C.get (i - b) (j - b))

@[simp] theorem rows_blk {b n : ℕ} {A R L C : Mat α} : (blk b n A R L C).rows = n := rfl
@[simp] theorem cols_blk {b n : ℕ} {A R L C : Mat α} : (blk b n A R L C).cols = n := rfl

theorem ext2 {b c : ℕ} {X Y : Mat α} (hXr : X.rows = b + c) (hXc : X.cols = b + c)
    (hYr : Y.rows = b + c) (hYc : Y.cols = b + c)
    (tl : ∀ i < b, ∀ j < b, X.get i j = Y.get i j)
    (tr : ∀ i < b, ∀ j < c, X.get i (b + j) = Y.get i (b + j))
    (bl : ∀ i < c, ∀ j < b, X.get (b + i) j = Y.get (b + i) j)
    (br : ∀ i < c, ∀ j < c, X.get (b + i) (b + j) = Y.get (b + i) (b + j)) : X = Y := by
  refine Mat.ext' (by omega) (by omega) fun i hi j hj => ?_
  by_cases h1 : i < b <;> by_cases h2 : j < b
  · exact tl i h1 j h2
  · have := tr i h1 (j - b) (by omega)
    rwa [show b + (j - b) = j by omega] at this
  · have := bl (i - b) (by omega) j h2
    rwa [show b + (i - b) = i by omega] at this
  · have := br (i - b) (by omega) (j - b) (by omega)
    rwa [show b + (i - b) = i by omega, show b + (j - b) = j by omega] at this

section
variable {b c : ℕ} {A R L C : Mat α} {i j : ℕ}
theorem blk_tl (hi : i < b) (hj : j < b) : (blk b (b + c) A R L C).get i j = A.get i j := by
  simp [blk, hi, hj, show i < b + c by omega, show j < b + c by omega]
theorem blk_tr (hi : i < b) (hj : j < c) : (blk b (b + c) A R L C).get i (b + j) = R.get i j := by
  simp [blk, hi, hj, show i < b + c by omega]
theorem blk_bl (hi : i < c) (hj : j < b) : (blk b (b + c) A R L C).get (b + i) j = L.get i j := by
  simp [blk, hi, hj, show j < b + c by omega]
theorem blk_br (hi : i < c) (hj : j < c) : (blk b (b + c) A R L C).get (b + i) (b + j) = C.get i j := by
  simp [blk, hi, hj]
end

/-- shapes of the four blocks -/
structure BlkShape (b c : ℕ) (A R L C : Mat α) : Prop where
  Ar : A.rows = b
  Ac : A.cols = b
  Rr : R.rows = b
  Rc : R.cols = c
  Lr : L.rows = c
  Lc : L.cols = b
  Cr : C.rows = c
  Cc : C.cols = c

variable {b c : ℕ} {A R L C A' R' L' C' : Mat α}

theorem blk_mul (h : BlkShape b c A R L C) (h' : BlkShape b c A' R' L' C') :
    (blk b (b + c) A R L C).mul (blk b (b + c) A' R' L' C') =
      blk b (b + c) ((A.mul A').add (R.mul L')) ((A.mul R').add (R.mul C')) ((L.mul A').add (C.mul L'))
        ((L.mul R').add (C.mul C')) := by
  obtain ⟨h1, h2, h3, h4, h5, h6, h7, h8⟩ := h
  obtain ⟨g1, g2, g3, g4, g5, g6, g7, g8⟩ := h'
  refine ext2 rfl rfl rfl rfl ?_ ?_ ?_ ?_ <;> intro i hi j hj <;> rw [get_mul, cols_blk, sum_range_add]
  · rw [blk_tl hi hj, get_add (by shp) (by shp), get_mul, get_mul, h2, h4]
    congr 1 <;> refine sum_congr rfl fun t ht => ?_ <;> simp at ht
    · rw [blk_tl hi ht, blk_tl ht hj]
    · rw [blk_tr hi ht, blk_bl ht hj]
  · rw [blk_tr hi hj, get_add (by shp) (by shp), get_mul, get_mul, h2, h4]
    congr 1 <;> refine sum_congr rfl fun t ht => ?_ <;> simp at ht
    · rw [blk_tl hi ht, blk_tr ht hj]
    · rw [blk_tr hi ht, blk_br ht hj]
  · rw [blk_bl hi hj, get_add (by shp) (by shp), get_mul, get_mul, h6, h8]
    congr 1 <;> refine sum_congr rfl fun t ht => ?_ <;> simp at ht
    · rw [blk_bl hi ht, blk_tl ht hj]
    · rw [blk_br hi ht, blk_bl ht hj]
  · rw [blk_br hi hj, get_add (by shp) (by shp), get_mul, get_mul, h6, h8]
    congr 1 <;> refine sum_congr rfl fun t ht => ?_ <;> simp at ht
    · rw [blk_bl hi ht, blk_tr ht hj]
    · rw [blk_br hi ht, blk_br ht hj]

theorem blk_add (h : BlkShape b c A R L C) (h' : BlkShape b c A' R' L' C') :
    (blk b (b + c) A R L C).add (blk b (b + c) A' R' L' C') =
      blk b (b + c) (A.add A') (R.add R') (L.add L') (C.add C') := by
  obtain ⟨h1, h2, h3, h4, h5, h6, h7, h8⟩ := h
  obtain ⟨g1, g2, g3, g4, g5, g6, g7, g8⟩ := h'
  refine ext2 rfl rfl rfl rfl ?_ ?_ ?_ ?_ <;> intro i hi j hj <;> rw [get_add (by shp) (by shp)]
  · rw [blk_tl hi hj, blk_tl hi hj, blk_tl hi hj, get_add (by omega) (by omega)]
  · rw [blk_tr hi hj, blk_tr hi hj, blk_tr hi hj, get_add (by omega) (by omega)]
  · rw [blk_bl hi hj, blk_bl hi hj, blk_bl hi hj, get_add (by omega) (by omega)]
  · rw [blk_br hi hj, blk_br hi hj, blk_br hi hj, get_add (by omega) (by omega)]

theorem blk_smul (s : α) : (blk b (b + c) A R L C).smul s =
    blk b (b + c) (A.smul s) (R.smul s) (L.smul s) (C.smul s) := by
  refine ext2 rfl rfl rfl rfl ?_ ?_ ?_ ?_ <;> intro i hi j hj <;> rw [get_smul]
  · rw [blk_tl hi hj, blk_tl hi hj, get_smul]
  · rw [blk_tr hi hj, blk_tr hi hj, get_smul]
  · rw [blk_bl hi hj, blk_bl hi hj, get_smul]
  · rw [blk_br hi hj, blk_br hi hj, get_smul]

theorem blk_T : (blk b (b + c) A R L C).T = blk b (b + c) A.T L.T R.T C.T := by
  refine ext2 rfl rfl rfl rfl ?_ ?_ ?_ ?_ <;> intro i hi j hj <;> rw [get_T]
  · rw [blk_tl hi hj, blk_tl hj hi, get_T]
  · rw [blk_tr hi hj, blk_bl hj hi, get_T]
  · rw [blk_bl hi hj, blk_tr hj hi, get_T]
  · rw [blk_br hi hj, blk_br hj hi, get_T]

theorem blk_diagAdd (h : BlkShape b c A R L C) (s : α) : (blk b (b + c) A R L C).diagAdd s =
    blk b (b + c) (A.diagAdd s) R L (C.diagAdd s) := by
  obtain ⟨h1, h2, h3, h4, h5, h6, h7, h8⟩ := h
  refine ext2 rfl rfl rfl rfl ?_ ?_ ?_ ?_ <;> intro i hi j hj <;>
    rw [Hier.get_diagAdd' _ (by shp) (by shp)]
  · rw [blk_tl hi hj, blk_tl hi hj, Hier.get_diagAdd' _ (by omega) (by omega)]
  · rw [blk_tr hi hj, blk_tr hi hj, if_neg (by omega), add_zero]
  · rw [blk_bl hi hj, blk_bl hi hj, if_neg (by omega), add_zero]
  · rw [blk_br hi hj, blk_br hi hj, Hier.get_diagAdd' _ (by omega) (by omega)]
    simp

theorem blk_slice_tl (h : BlkShape b c A R L C) : (blk b (b + c) A R L C).slice 0 b 0 b = A := by
  refine Mat.ext' (by simp [h.Ar]) (by simp [h.Ac]) fun i hi j hj => ?_
  simp at hi hj
  rw [get_slice, if_pos (by omega), Nat.zero_add, Nat.zero_add, blk_tl hi hj]
theorem blk_slice_tr (h : BlkShape b c A R L C) : (blk b (b + c) A R L C).slice 0 b b (b + c) = R := by
  refine Mat.ext' (by simp [h.Rr]) (by simp [h.Rc]) fun i hi j hj => ?_
  simp at hi hj
  rw [get_slice, if_pos (by omega), Nat.zero_add, blk_tr hi hj]
theorem blk_slice_bl (h : BlkShape b c A R L C) : (blk b (b + c) A R L C).slice b (b + c) 0 b = L := by
  refine Mat.ext' (by simp [h.Lr]) (by simp [h.Lc]) fun i hi j hj => ?_
  simp at hi hj
  rw [get_slice, if_pos (by omega), Nat.zero_add, blk_bl hi hj]
theorem blk_slice_br (h : BlkShape b c A R L C) : (blk b (b + c) A R L C).slice b (b + c) b (b + c) = C := by
  refine Mat.ext' (by simp [h.Cr]) (by simp [h.Cc]) fun i hi j hj => ?_
  simp at hi hj
  rw [get_slice, if_pos (by omega), blk_br hi hj]

theorem blk_eye : blk b (b + c) (Mat.eye b) (Mat.zeros b c) (Mat.zeros c b) (Mat.eye c) = (Mat.eye (b + c) : Mat α) := by
  refine ext2 rfl rfl rfl rfl ?_ ?_ ?_ ?_ <;> intro i hi j hj <;> rw [get_eye]
  · rw [blk_tl hi hj, get_eye]; congr 1; simp; omega
  · rw [blk_tr hi hj, if_neg (by omega), get_zeros]
  · rw [blk_bl hi hj, if_neg (by omega), get_zeros]
  · rw [blk_br hi hj, get_eye]; congr 1; simp

theorem blk_zeros : blk b (b + c) (Mat.zeros b b) (Mat.zeros b c) (Mat.zeros c b) (Mat.zeros c c) = (Mat.zeros (b + c) (b + c) : Mat α) := by
  refine ext2 rfl rfl rfl rfl ?_ ?_ ?_ ?_ <;> intro i hi j hj <;> rw [get_zeros]
  · rw [blk_tl hi hj, get_zeros]
  · rw [blk_tr hi hj, get_zeros]
  · rw [blk_bl hi hj, get_zeros]
  · rw [blk_br hi hj, get_zeros]

theorem mul_zeros {r k c : ℕ} {A : Mat α} (hr : A.rows = r) : A.mul (Mat.zeros k c) = Mat.zeros r c :=
  Mat.ext' hr rfl fun i _ j _ => by simp [get_mul]
theorem zeros_mul {r k c : ℕ} {A : Mat α} (hc : A.cols = c) : (Mat.zeros r k).mul A = Mat.zeros r c :=
  Mat.ext' rfl hc fun i _ j _ => by simp [get_mul]
theorem add_zeros {r c : ℕ} {A : Mat α} (hr : A.rows = r) (hc : A.cols = c) : A.add (Mat.zeros r c) = A :=
  Mat.ext' rfl rfl fun i _ j _ => by rw [get_add (by simp [hr]) (by simp [hc])]; simp
theorem zeros_add {r c : ℕ} {A : Mat α} (hr : A.rows = r) (hc : A.cols = c) : (Mat.zeros r c).add A = A :=
  Mat.ext' (by simp [hr]) (by simp [hc]) fun i _ j _ => by rw [get_add (by simp [hr]) (by simp [hc])]; simp
theorem zeros_T {r c : ℕ} : (Mat.zeros r c : Mat α).T = Mat.zeros c r := Mat.ext' rfl rfl fun i _ j _ => by simp
theorem smul_zeros {r c : ℕ} (s : α) : (Mat.zeros r c : Mat α).smul s = Mat.zeros r c :=
  Mat.ext' rfl rfl fun i _ j _ => by simp
end Mat

theorem getBoundary_eq {n b : ℕ} {x y : MaxDim} (h : RecBoundary n x y b) : getBoundary n x y = .ok b := by
  cases x <;> cases y <;> simp only [RecBoundary] at h
  · rw [getBoundary, h]
  · rw [getBoundary, h]; congr 1; omega
theorem RecBoundary.le {n b : ℕ} {x y : MaxDim} (h : RecBoundary n x y b) : b ≤ n := by
  cases x <;> cases y <;> simp only [RecBoundary] at h <;> omega
theorem RecBoundary.not_lt {n b : ℕ} {x y : MaxDim} (h : RecBoundary n x y b) : ¬ x.lt b ∧ ¬ y.lt (n - b) := by
  cases x <;> cases y <;> simp only [RecBoundary] at h <;> simp only [MaxDim.lt, not_false_eq_true, true_and, and_true] <;> omega

section
open Mat
variable {b c : ℕ} {A C : SM α} {B : Mat α} {x y : MaxDim} {ca cc : Cls}

theorem toDense_topRight (hA : A.toDense.rows = b) (hA' : A.toDense.cols = b) (hC : C.toDense.rows = c)
    (hC' : C.toDense.cols = c) (hr : B.rows = b) (hc : B.cols = c) :
    (SM.topRight x y ca cc A B C).toDense = blk b (b + c) A.toDense B (Mat.zeros c b) C.toDense := by
  simp only [SM.toDense]
  refine ext2 (by shp) (by shp) rfl rfl ?_ ?_ ?_ ?_ <;> intro i hi j hj <;>
    rw [get_setBlock _ _ _ _ (by shp) (by shp), get_setBlock _ _ _ _ (by shp) (by shp),
      get_setBlock _ _ _ _ (by shp) (by shp)]
  · rw [blk_tl hi hj, if_neg (by omega), if_neg (by omega), if_pos (by omega)]; rfl
  · rw [blk_tr hi hj, if_pos (by omega)]; congr 1; omega
  · rw [blk_bl hi hj, if_neg (by omega), if_neg (by omega), if_neg (by omega)]; simp
  · rw [blk_br hi hj, if_neg (by omega), if_pos (by omega)]; congr 1 <;> omega

theorem toDense_bottomLeft (hA : A.toDense.rows = b) (hA' : A.toDense.cols = b) (hC : C.toDense.rows = c)
    (hC' : C.toDense.cols = c) (hr : B.rows = c) (hc : B.cols = b) :
    (SM.bottomLeft x y ca cc A B C).toDense = blk b (b + c) A.toDense (Mat.zeros b c) B C.toDense := by
  simp only [SM.toDense]
  refine ext2 (by shp) (by shp) rfl rfl ?_ ?_ ?_ ?_ <;> intro i hi j hj <;>
    rw [get_setBlock _ _ _ _ (by shp) (by shp), get_setBlock _ _ _ _ (by shp) (by shp),
      get_setBlock _ _ _ _ (by shp) (by shp)]
  · rw [blk_tl hi hj, if_neg (by omega), if_neg (by omega), if_pos (by omega)]; rfl
  · rw [blk_tr hi hj, if_neg (by omega), if_neg (by omega), if_neg (by omega)]; simp
  · rw [blk_bl hi hj, if_pos (by omega)]; congr 1; omega
  · rw [blk_br hi hj, if_neg (by omega), if_pos (by omega)]; congr 1 <;> omega
end


section
open Mat
variable {n : ℕ} {c : Cls} {K L : SM α}

theorem WF.cls_eq (h : WF c n K) : K.cls = c := by
  cases h with
  | block h => simp [SM.cls, h.hD]
  | hier _ h => simp [SM.cls, h.h1, h.h2]
  | _ => rfl

/-- shapes of `to_dense()` -/
theorem WF.shape (h : WF c n K) : K.toDense.rows = n ∧ K.toDense.cols = n := by
  induction h with
  | dense hr hc => exact ⟨hr, hc⟩
  | diagonal h => simp [SM.toDense, Diagonal.toDense, h]
  | block h => simp [SM.toDense, h.dim_eq]
  | hier hd hs => simp [SM.toDense, hs.dim_eq, hd.sum]
  | tril _ h => simp [SM.toDense, h]
  | triu _ h => simp [SM.toDense, h]
  | topRight hb hA hr hc hC ihA ihC =>
    have := hb.le
    rw [toDense_topRight ihA.1 ihA.2 ihC.1 ihC.2 hr hc]; simp; omega
  | bottomLeft hb hA hr hc hC ihA ihC =>
    have := hb.le
    rw [toDense_bottomLeft ihA.1 ihA.2 ihC.1 ihC.2 hr hc]; simp; omega

theorem WF.rows (h : WF c n K) : K.toDense.rows = n := h.shape.1
theorem WF.cols (h : WF c n K) : K.toDense.cols = n := h.shape.2

section
variable {x y : MaxDim} {ca cc : Cls} {b e : ℕ} {A C : SM α} {B : Mat α}

theorem toDense_tr (hA : WF ca b A) (hr : B.rows = b) (hc : B.cols = e) (hC : WF cc e C) :
    (SM.topRight x y ca cc A B C).toDense = blk b (b + e) A.toDense B (Mat.zeros e b) C.toDense :=
  toDense_topRight hA.rows hA.cols hC.rows hC.cols hr hc
theorem toDense_bl (hA : WF ca b A) (hr : B.rows = e) (hc : B.cols = b) (hC : WF cc e C) :
    (SM.bottomLeft x y ca cc A B C).toDense = blk b (b + e) A.toDense (Mat.zeros b e) B C.toDense :=
  toDense_bottomLeft hA.rows hA.cols hC.rows hC.cols hr hc

theorem shape_tr (hA : WF ca b A) (hr : B.rows = b) (hc : B.cols = e) (hC : WF cc e C) :
    BlkShape b e A.toDense B (Mat.zeros e b) C.toDense :=
  ⟨hA.rows, hA.cols, hr, hc, rfl, rfl, hC.rows, hC.cols⟩
theorem shape_bl (hA : WF ca b A) (hr : B.rows = e) (hc : B.cols = b) (hC : WF cc e C) :
    BlkShape b e A.toDense (Mat.zeros b e) B C.toDense :=
  ⟨hA.rows, hA.cols, rfl, rfl, hr, hc, hC.rows, hC.cols⟩

theorem initTopRight_ok (hb : RecBoundary (b + e) x y b) (hA : WF ca b A) (hr : B.rows = b) (hc : B.cols = e)
    (hC : WF cc e C) : SM.initTopRight x y ca cc A B C = .ok (.topRight x y ca cc A B C) := by
  have h2 := hb.not_lt
  rw [show b + e - b = e by omega] at h2
  rw [SM.initTopRight, if_neg (by simp [hA.cls_eq, hC.cls_eq]), if_neg (by simp [hA.rows, hC.rows, hr, hc]),
    if_neg (by rw [hA.rows]; exact h2.1), if_neg (by rw [hC.rows]; exact h2.2)]
theorem initBottomLeft_ok (hb : RecBoundary (b + e) x y b) (hA : WF ca b A) (hr : B.rows = e) (hc : B.cols = b)
    (hC : WF cc e C) : SM.initBottomLeft x y ca cc A B C = .ok (.bottomLeft x y ca cc A B C) := by
  have h2 := hb.not_lt
  rw [show b + e - b = e by omega] at h2
  rw [SM.initBottomLeft, if_neg (by simp [hA.cls_eq, hC.cls_eq]), if_neg (by simp [hA.rows, hC.rows, hr, hc]),
    if_neg (by rw [hA.rows]; exact h2.1), if_neg (by rw [hC.rows]; exact h2.2)]

theorem WF.tr (hb : RecBoundary (b + e) x y b) (hA : WF ca b A) (hr : B.rows = b) (hc : B.cols = e)
    (hC : WF cc e C) : WF (.topRight x y ca cc) (b + e) (.topRight x y ca cc A B C) :=
  .topRight hb hA hr (by omega) (by rwa [show b + e - b = e by omega])
theorem WF.bl (hb : RecBoundary (b + e) x y b) (hA : WF ca b A) (hr : B.rows = e) (hc : B.cols = b)
    (hC : WF cc e C) : WF (.bottomLeft x y ca cc) (b + e) (.bottomLeft x y ca cc A B C) :=
  .bottomLeft hb hA (by omega) hc (by rwa [show b + e - b = e by omega])

/-- inversion with the dimension written as a sum -/
theorem WF.tr_inv {K : SM α} (h : WF (.topRight x y ca cc) n K) : ∃ b e A B C, n = b + e ∧ K = .topRight x y ca cc A B C ∧
    RecBoundary (b + e) x y b ∧ WF ca b A ∧ B.rows = b ∧ B.cols = e ∧ WF cc e C := by
  cases h with
  | @topRight _ _ _ _ _ b A C B hb hA hr hc hC =>
    have := hb.le
    refine ⟨b, n - b, A, B, C, by omega, rfl, ?_, hA, hr, hc, hC⟩
    rwa [show b + (n - b) = n by omega]
theorem WF.bl_inv {K : SM α} (h : WF (.bottomLeft x y ca cc) n K) : ∃ b e A B C, n = b + e ∧ K = .bottomLeft x y ca cc A B C ∧
    RecBoundary (b + e) x y b ∧ WF ca b A ∧ B.rows = e ∧ B.cols = b ∧ WF cc e C := by
  cases h with
  | @bottomLeft _ _ _ _ _ b A C B hb hA hr hc hC =>
    have := hb.le
    refine ⟨b, n - b, A, B, C, by omega, rfl, ?_, hA, hr, hc, hC⟩
    rwa [show b + (n - b) = n by omega]

theorem RecBoundary.unique {n b b' : ℕ} {x y : MaxDim} (h : RecBoundary n x y b) (h' : RecBoundary n x y b') : b = b' := by
  cases x <;> cases y <;> simp only [RecBoundary] at h h' <;> omega
end

/-- every class is closed under products -/
theorem closed_mul : ∀ {c : Cls} {n : ℕ} {K L : SM α}, WF c n K → WF c n L →
    ∃ P, WF c n P ∧ P.toDense = K.toDense.mul L.toDense := by
  intro c
  induction c with
  | dense =>
    intro n K L hK hL
    cases hK with | @dense _ m hr hc => cases hL with | @dense _ m' hr' hc' =>
    exact ⟨.dense (m.mul m'), .dense hr hc', rfl⟩
  | diagonal =>
    intro n K L hK hL
    cases hK with | diagonal h => cases hL with | diagonal h' =>
    exact ⟨.diagonal _, .diagonal (by simp [h]), (Diagonal.matmulS_spec h h').2⟩
  | block D =>
    intro n K L hK hL
    cases hK with | block h => cases hL with | block h' =>
    obtain ⟨p, _, w, e⟩ := BlockDiag.matmulS_spec h h'
    exact ⟨.block p, .block w, e⟩
  | hier m1 m2 =>
    intro n K L hK hL
    cases hK with | hier hd h => cases hL with | hier hd' h' =>
    have e1 : _ = _ := (Hier.blockDims_eq hd).symm.trans (Hier.blockDims_eq hd')
    simp only [Prod.mk.injEq] at e1
    obtain ⟨rfl, rfl, rfl⟩ := e1
    obtain ⟨p, _, w, e⟩ := Hier.matmulS_spec h h'
    exact ⟨.hier p, .hier hd w, e⟩
  | tril =>
    intro n K L hK hL
    cases hK with | tril hn h => cases hL with | tril _ h' =>
    obtain ⟨p, _, w, e⟩ := Tril.matmulS_spec hn h h'
    exact ⟨.tril p, .tril hn w, e⟩
  | triu =>
    intro n K L hK hL
    cases hK with | triu hn h => cases hL with | triu _ h' =>
    obtain ⟨p, _, w, e⟩ := Triu.matmulS_spec hn h h'
    exact ⟨.triu p, .triu hn w, e⟩
  | topRight x y ca cc ihA ihC =>
    intro n K L hK hL
    obtain ⟨b, e, A, B, C, rfl, rfl, hb, hA, hr, hc, hC⟩ := hK.tr_inv
    obtain ⟨b', e', A', B', C', he, rfl, hb', hA', hr', hc', hC'⟩ := hL.tr_inv
    have : b = b' := hb.unique (he ▸ hb')
    subst this
    have : e = e' := by omega
    subst this
    obtain ⟨P, wP, eP⟩ := ihA hA hA'
    obtain ⟨Q, wQ, eQ⟩ := ihC hC hC'
    refine ⟨.topRight x y ca cc P ((A.toDense.mul B').add (B.mul C'.toDense)) Q,
      .tr hb wP (by simp [hA.rows]) (by simp [hc']) wQ, ?_⟩
    rw [toDense_tr wP (by simp [hA.rows]) (by simp [hc']) wQ, toDense_tr hA hr hc hC, toDense_tr hA' hr' hc' hC',
      blk_mul (shape_tr hA hr hc hC) (shape_tr hA' hr' hc' hC'), eP, eQ]
    congr 1
    · rw [mul_zeros hr, add_zeros (by simp [hA.rows]) (by simp [hA'.cols])]
    · rw [zeros_mul hA'.cols, mul_zeros hC.rows, add_zeros (by simp) (by simp)]
    · rw [zeros_mul hc', zeros_add (by simp [hC.rows]) (by simp [hC'.cols])]
  | bottomLeft x y ca cc ihA ihC =>
    intro n K L hK hL
    obtain ⟨b, e, A, B, C, rfl, rfl, hb, hA, hr, hc, hC⟩ := hK.bl_inv
    obtain ⟨b', e', A', B', C', he, rfl, hb', hA', hr', hc', hC'⟩ := hL.bl_inv
    have : b = b' := hb.unique (he ▸ hb')
    subst this
    have : e = e' := by omega
    subst this
    obtain ⟨P, wP, eP⟩ := ihA hA hA'
    obtain ⟨Q, wQ, eQ⟩ := ihC hC hC'
    refine ⟨.bottomLeft x y ca cc P ((B.mul A'.toDense).add (C.toDense.mul B')) Q,
      .bl hb wP (by simp [hr]) (by simp [hA'.cols]) wQ, ?_⟩
    rw [toDense_bl wP (by simp [hr]) (by simp [hA'.cols]) wQ, toDense_bl hA hr hc hC, toDense_bl hA' hr' hc' hC',
      blk_mul (shape_bl hA hr hc hC) (shape_bl hA' hr' hc' hC'), eP, eQ]
    congr 1
    · rw [zeros_mul hc', add_zeros (by simp [hA.rows]) (by simp [hA'.cols])]
    · rw [zeros_mul hC'.cols, mul_zeros hA.rows, add_zeros (by simp) (by simp)]
    · rw [mul_zeros hr, zeros_add (by simp [hC.rows]) (by simp [hC'.cols])]

/-- `mul_` scales the represented matrix -/
theorem mul__spec (h : WF c n K) (s : α) : WF c n (K.mul_ s) ∧ (K.mul_ s).toDense = K.toDense.smul s := by
  induction h with
  | dense hr hc => exact ⟨.dense hr hc, rfl⟩
  | diagonal h => exact ⟨.diagonal h, Diagonal.smul_spec s⟩
  | block h => 
    have := BlockDiag.smul_core h s
    simp only [SM.mul_, h.hD]
    exact ⟨.block this.1, this.2⟩
  | hier hd h =>
    have := Hier.smul_core h s
    simp only [SM.mul_, h.h1, h.h2]
    exact ⟨.hier hd this.1, this.2⟩
  | tril hn h => exact ⟨.tril hn h, Tril.smul_spec s⟩
  | triu hn h => exact ⟨.triu hn h, Triu.smul_spec s⟩
  | topRight hb hA hr hc hC ihA ihC =>
    refine ⟨.topRight hb ihA.1 hr hc ihC.1, ?_⟩
    rw [SM.mul_, toDense_tr ihA.1 (B := Mat.smul _ s) hr hc ihC.1, toDense_tr hA hr hc hC, blk_smul, ihA.2, ihC.2, smul_zeros]
  | bottomLeft hb hA hr hc hC ihA ihC =>
    refine ⟨.bottomLeft hb ihA.1 hr hc ihC.1, ?_⟩
    rw [SM.mul_, toDense_bl ihA.1 (B := Mat.smul _ s) hr hc ihC.1, toDense_bl hA hr hc hC, blk_smul, ihA.2, ihC.2, smul_zeros]

theorem WF.hier_inv2 {m1 m2 : ℕ} (hK : WF (.hier m1 m2) n K) (hL : WF (.hier m1 m2) n L) : ∃ k1 d k2 h o,
    K = .hier h ∧ L = .hier o ∧ HierDims m1 m2 n k1 d k2 ∧ h.Shape m1 m2 k1 d k2 ∧ o.Shape m1 m2 k1 d k2 := by
  cases hK with | hier hd h => cases hL with | hier hd' h' =>
  have e1 : _ = _ := (Hier.blockDims_eq hd).symm.trans (Hier.blockDims_eq hd')
  simp only [Prod.mk.injEq] at e1
  obtain ⟨rfl, rfl, rfl⟩ := e1
  exact ⟨_, _, _, _, _, rfl, rfl, hd, h, h'⟩

/-- `add_` adds a multiple -/
theorem add__spec : ∀ {c : Cls} {n : ℕ} {K L : SM α}, WF c n K → WF c n L → ∀ s : α,
    ∃ P, K.add_ L s = .ok P ∧ WF c n P ∧ P.toDense = K.toDense.add (L.toDense.smul s) := by
  intro c
  induction c with
  | dense =>
    intro n K L hK hL s
    cases hK with | @dense _ m hr hc => cases hL with | @dense _ m' hr' hc' =>
    refine ⟨.dense (m.add (m'.smul s)), ?_, .dense hr hc, rfl⟩
    rw [SM.add_, add?_ok (by simp [hr, hr']) (by simp [hc, hc']), Except.bind_ok']; rfl
  | diagonal =>
    intro n K L hK hL s
    cases hK with | @diagonal _ d h => cases hL with | @diagonal _ e h' =>
    refine ⟨.diagonal (d.add (e.smul s)), ?_, .diagonal h, ?_⟩
    · rw [SM.add_, Vec.add?_ok (by simp [h, h']), Except.bind_ok']; rfl
    · simp only [SM.toDense, (Diagonal.add_spec h (e := e.smul s) (n := n) (by simp [h'])).2]
      rw [← Diagonal.smul_spec]; rfl
  | block D =>
    intro n K L hK hL s
    cases hK with | @block _ _ p h => cases hL with | @block _ _ q h' =>
    obtain ⟨w, e⟩ := BlockDiag.smul_core h' s
    obtain ⟨r, e1, w1, e2⟩ := BlockDiag.add_spec h w
    refine ⟨.block r, ?_, .block w1, by simp only [SM.toDense]; rw [e2, e]⟩
    rw [BlockDiag.add, h.hD] at e1
    rw [SM.add_, T3.add?_ok (by rw [h.d0]; exact w.d0.symm) (by rw [h.d1]; exact w.d1.symm) (by rw [h.d2]; exact w.d2.symm),
      Except.bind_ok', add?_ok (by rw [h.lr]; exact w.lr.symm) (by rw [h.lc]; exact w.lc.symm), Except.bind_ok', h.hD]
    dsimp only at e1
    rw [T3.add?_ok (by rw [h.d0]; exact w.d0.symm) (by rw [h.d1]; exact w.d1.symm) (by rw [h.d2]; exact w.d2.symm),
      Except.bind_ok', add?_ok (by rw [h.lr]; exact w.lr.symm) (by rw [h.lc]; exact w.lc.symm), Except.bind_ok'] at e1
    have w2 : BlockDiag.WF D n (⟨D, p.blocks.add (q.blocks.smul s), p.last.add (q.last.smul s)⟩ : BlockDiag α) :=
      ⟨h.pos, rfl, h.d0, h.d1, h.d2, h.lr, h.lc⟩
    rw [(BlockDiag.init_ok h.pos w2.d0 w2.d1 w2.d2 w2.lr w2.lc).1] at e1
    injection e1 with e1
    rw [← e1]; rfl
  | hier m1 m2 =>
    intro n K L hK hL s
    obtain ⟨k1, d, k2, h, o, rfl, rfl, hd, H, O⟩ := hK.hier_inv2 hL
    obtain ⟨W, e⟩ := Hier.smul_core O s
    obtain ⟨r, e1, w1, e2⟩ := Hier.add_spec H W
    refine ⟨.hier r, ?_, .hier hd w1, by simp only [SM.toDense]; rw [e2, e]⟩
    rw [Hier.add, H.h1, H.h2] at e1
    rw [SM.add_, H.h1, H.h2]
    dsimp only at e1
    rw [add?_ok (H.Ar.trans W.Ar.symm) (H.Ac.trans W.Ac.symm), Except.bind_ok',
      add?_ok (H.Br.trans W.Br.symm) (H.Bc.trans W.Bc.symm), Except.bind_ok',
      Vec.add?_ok (H.Cl.trans W.Cl.symm), Except.bind_ok',
      add?_ok (H.Dr.trans W.Dr.symm) (H.Dc.trans W.Dc.symm), Except.bind_ok',
      add?_ok (H.Er.trans W.Er.symm) (H.Ec.trans W.Ec.symm), Except.bind_ok'] at e1 ⊢
    have S : Hier.Shape m1 m2 k1 d k2 (⟨m1, m2, h.A.add (o.A.smul s), h.B.add (o.B.smul s), h.C.add (o.C.smul s),
      h.D.add (o.D.smul s), h.E.add (o.E.smul s)⟩ : Hier α) :=
      ⟨rfl, rfl, H.le1, H.le2, H.Ar, H.Ac, H.Br, H.Bc, H.Cl, H.Dr, H.Dc, H.Er, H.Ec⟩
    rw [Hier.init_ok S] at e1
    injection e1 with e1
    rw [← e1]; rfl
  | tril =>
    intro n K L hK hL s
    cases hK with | @tril _ d hn h => cases hL with | @tril _ e _ h' =>
    refine ⟨.tril (d.add (e.smul s)), ?_, .tril hn h, ?_⟩
    · rw [SM.add_, Vec.add?_ok (by simp [h, h']), Except.bind_ok']; rfl
    · simp only [SM.toDense, Tril.add_spec h (e := e.smul s) (n := n) (by simp [h']), Tril.smul_spec]
  | triu =>
    intro n K L hK hL s
    cases hK with | @triu _ d hn h => cases hL with | @triu _ e _ h' =>
    refine ⟨.triu (d.add (e.smul s)), ?_, .triu hn h, ?_⟩
    · rw [SM.add_, Vec.add?_ok (by simp [h, h']), Except.bind_ok']; rfl
    · simp only [SM.toDense, Triu.add_spec h (e := e.smul s) (n := n) (by simp [h']), Triu.smul_spec]
  | topRight x y ca cc ihA ihC =>
    intro n K L hK hL s
    obtain ⟨b, e, A, B, C, rfl, rfl, hb, hA, hr, hc, hC⟩ := hK.tr_inv
    obtain ⟨b', e', A', B', C', he, rfl, hb', hA', hr', hc', hC'⟩ := hL.tr_inv
    have : b = b' := hb.unique (he ▸ hb')
    subst this
    have : e = e' := by omega
    subst this
    obtain ⟨P, oP, wP, eP⟩ := ihA hA hA' s
    obtain ⟨Q, oQ, wQ, eQ⟩ := ihC hC hC' s
    refine ⟨.topRight x y ca cc P (B.add (B'.smul s)) Q, ?_, .tr hb wP hr hc wQ, ?_⟩
    · rw [SM.add_, add?_ok (by simp [hr, hr']) (by simp [hc, hc']), Except.bind_ok', oP, Except.bind_ok', oQ,
        Except.bind_ok']; rfl
    · rw [toDense_tr wP (B := B.add (B'.smul s)) hr hc wQ, toDense_tr hA hr hc hC, toDense_tr hA' hr' hc' hC', blk_smul, blk_add
        (shape_tr hA hr hc hC) (A' := A'.toDense.smul s) (R' := B'.smul s) (L' := (Mat.zeros e b).smul s) (C' := C'.toDense.smul s) ⟨hA'.rows, hA'.cols, hr', hc', rfl, rfl, hC'.rows, hC'.cols⟩, eP, eQ, smul_zeros,
        add_zeros (by simp) (by simp)]
  | bottomLeft x y ca cc ihA ihC =>
    intro n K L hK hL s
    obtain ⟨b, e, A, B, C, rfl, rfl, hb, hA, hr, hc, hC⟩ := hK.bl_inv
    obtain ⟨b', e', A', B', C', he, rfl, hb', hA', hr', hc', hC'⟩ := hL.bl_inv
    have : b = b' := hb.unique (he ▸ hb')
    subst this
    have : e = e' := by omega
    subst this
    obtain ⟨P, oP, wP, eP⟩ := ihA hA hA' s
    obtain ⟨Q, oQ, wQ, eQ⟩ := ihC hC hC' s
    refine ⟨.bottomLeft x y ca cc P (B.add (B'.smul s)) Q, ?_, .bl hb wP hr hc wQ, ?_⟩
    · rw [SM.add_, add?_ok (by simp [hr, hr']) (by simp [hc, hc']), Except.bind_ok', oP, Except.bind_ok', oQ,
        Except.bind_ok']; rfl
    · rw [toDense_bl wP (B := B.add (B'.smul s)) hr hc wQ, toDense_bl hA hr hc hC, toDense_bl hA' hr' hc' hC', blk_smul, blk_add
        (shape_bl hA hr hc hC) (A' := A'.toDense.smul s) (L' := B'.smul s) (R' := (Mat.zeros b e).smul s) (C' := C'.toDense.smul s) ⟨hA'.rows, hA'.cols, rfl, rfl, hr', hc', hC'.rows, hC'.cols⟩, eP, eQ, smul_zeros,
        add_zeros (by simp) (by simp)]

/-- every class is closed under adding a multiple of the identity -/
theorem closed_diagAdd (h : WF c n K) (s : α) : ∃ P, WF c n P ∧ P.toDense = K.toDense.diagAdd s := by
  induction h with
  | dense hr hc => exact ⟨.dense (Mat.diagAdd _ s), .dense hr hc, rfl⟩
  | diagonal h => exact ⟨.diagonal (Diagonal.diagAdd _ s), .diagonal h, Diagonal.diagAdd_spec s⟩
  | block h => exact ⟨.block _, .block (BlockDiag.diagAdd_spec h s).1, (BlockDiag.diagAdd_spec h s).2⟩
  | hier hd h =>
    obtain ⟨p, _, w, e⟩ := Hier.diagAdd_spec h s
    exact ⟨.hier p, .hier hd w, e⟩
  | tril hn h =>
    obtain ⟨p, _, w, e⟩ := Tril.diagAdd_spec hn h s
    exact ⟨.tril p, .tril hn w, e⟩
  | triu hn h =>
    obtain ⟨p, _, w, e⟩ := Triu.diagAdd_spec hn h s
    exact ⟨.triu p, .triu hn w, e⟩
  | @topRight x y ca cc n b A C B hb hA hr hc hC ihA ihC =>
    obtain ⟨P, wP, eP⟩ := ihA
    obtain ⟨Q, wQ, eQ⟩ := ihC
    refine ⟨.topRight x y ca cc P B Q, .topRight hb wP hr hc wQ, ?_⟩
    rw [toDense_tr wP hr hc wQ, toDense_tr hA hr hc hC, blk_diagAdd (shape_tr hA hr hc hC), eP, eQ]
  | @bottomLeft x y ca cc n b A C B hb hA hr hc hC ihA ihC =>
    obtain ⟨P, wP, eP⟩ := ihA
    obtain ⟨Q, wQ, eQ⟩ := ihC
    refine ⟨.bottomLeft x y ca cc P B Q, .bottomLeft hb wP hr hc wQ, ?_⟩
    rw [toDense_bl wP hr hc wQ, toDense_bl hA hr hc hC, blk_diagAdd (shape_bl hA hr hc hC), eP, eQ]

/-- the round trip `from_dense ∘ to_dense` returns the same object -/
theorem fromDense_toDense [CharZero α] (h : WF c n K) (hc : c.NoHier) : SM.fromDense c K.toDense = .ok K := by
  induction h with
  | dense hr hc => rfl
  | diagonal h => simp only [SM.fromDense, Diagonal.fromDense, SM.toDense, Except.bind_ok', Diagonal.fromDense_toDense]; rfl
  | block h => simp only [SM.fromDense, SM.toDense, BlockDiag.fromDense_toDense h, Except.bind_ok']; rfl
  | hier hd h => exact hc.elim
  | tril hn h => simp only [SM.fromDense, SM.toDense, Tril.fromDense_toDense hn h, Except.bind_ok']; rfl
  | triu hn h => simp only [SM.fromDense, SM.toDense, Triu.fromDense_toDense hn h, Except.bind_ok']; rfl
  | @topRight x y ca cc n b A C B hb hA hr hc' hC ihA ihC =>
    have := hb.le
    obtain ⟨e, rfl⟩ : ∃ e, n = b + e := ⟨n - b, by omega⟩
    rw [show b + e - b = e by omega] at *
    rw [toDense_tr hA hr hc' hC, SM.fromDense, if_neg (by simp)]
    simp only [rows_blk, cols_blk]
    rw [getBoundary_eq hb, Except.bind_ok', blk_slice_tl (shape_tr hA hr hc' hC), ihA hc.1, Except.bind_ok',
      blk_slice_tr (shape_tr hA hr hc' hC), blk_slice_bl (shape_tr hA hr hc' hC), zeros_T,
      add?_ok (by simp [hr]) (by simp [hc']), Except.bind_ok', blk_slice_br (shape_tr hA hr hc' hC), ihC hc.2,
      Except.bind_ok', add_zeros hr hc', initTopRight_ok hb hA hr hc' hC]
  | @bottomLeft x y ca cc n b A C B hb hA hr hc' hC ihA ihC =>
    have := hb.le
    obtain ⟨e, rfl⟩ : ∃ e, n = b + e := ⟨n - b, by omega⟩
    rw [show b + e - b = e by omega] at *
    rw [toDense_bl hA hr hc' hC, SM.fromDense, if_neg (by simp)]
    simp only [rows_blk, cols_blk]
    rw [getBoundary_eq hb, Except.bind_ok', blk_slice_tl (shape_bl hA hr hc' hC), ihA hc.1, Except.bind_ok',
      blk_slice_bl (shape_bl hA hr hc' hC), blk_slice_tr (shape_bl hA hr hc' hC), zeros_T,
      add?_ok (by simp [hr]) (by simp [hc']), Except.bind_ok', blk_slice_br (shape_bl hA hr hc' hC), ihC hc.2,
      Except.bind_ok', add_zeros hr hc', initBottomLeft_ok hb hA hr hc' hC]

end
