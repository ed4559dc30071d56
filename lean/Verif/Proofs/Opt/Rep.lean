import Verif.Proofs.Opt.Alike

/-! Which matrices the classes represent. -/

set_option linter.unusedSectionVars false
open Finset Matrix IOProof Mat SM
variable {α : Type} [Field α] [LinearOrder α] [IsStrictOrderedRing α]

/-- an object of the class has the entries `f i j` -/
def Cls.RepF (c : Cls) (n : ℕ) (f : ℕ → ℕ → α) : Prop := ∃ K : SM α, WF c n K ∧ ∀ i < n, ∀ j < n, K.toDense.get i j = f i j

theorem Cls.rep_iff {c : Cls} {n : ℕ} {A : Matrix (Fin n) (Fin n) α} : c.Rep n A ↔ c.RepF n (Mat.ofMatrix A).get := by
  refine exists_congr fun K => and_congr_right fun _ => ⟨fun h i hi j hj => ?_, fun h => ?_⟩
  · have := congrFun (congrFun h ⟨i, hi⟩) ⟨j, hj⟩
    rw [show K.toDense.get i j = _ from this]
    simp [Mat.ofMatrix, Mat.get_ofFn, hi, hj]
  · funext i j
    have := h i i.2 j j.2
    rw [show K.den n i j = _ from this]
    simp [Mat.ofMatrix, Mat.get_ofFn]

theorem Cls.repF_congr {c : Cls} {n : ℕ} {f g : ℕ → ℕ → α} (h : ∀ i < n, ∀ j < n, f i j = g i j) : c.RepF n f ↔ c.RepF n g :=
  exists_congr fun K => and_congr_right fun _ => ⟨fun q i hi j hj => (q i hi j hj).trans (h i hi j hj), fun q i hi j hj => (q i hi j hj).trans (h i hi j hj).symm⟩

theorem repF_dense (n : ℕ) (f : ℕ → ℕ → α) : Cls.RepF .dense n f :=
  ⟨.dense (Mat.ofFn n n f), .dense rfl rfl, fun i hi j hj => by simp [SM.toDense, Mat.get_ofFn, hi, hj]⟩

theorem repF_diagonal {n : ℕ} {f : ℕ → ℕ → α} : Cls.RepF .diagonal n f ↔ ∀ i < n, ∀ j < n, i ≠ j → f i j = 0 := by
  constructor
  · rintro ⟨K, w, h⟩ i hi j hj e
    cases w with | diagonal hd =>
    rw [← h i hi j hj, SM.toDense, Diagonal.get_toDense, if_neg e]
  · intro h
    refine ⟨.diagonal (Vec.ofFn n fun i => f i i), .diagonal rfl, fun i hi j hj => ?_⟩
    rw [SM.toDense, Diagonal.get_toDense]
    by_cases e : i = j
    · subst e; rw [if_pos rfl]; simp [Vec.ofFn, hi]
    · rw [if_neg e, h i hi j hj e]

theorem repF_block {D n : ℕ} (hD : 0 < D) {f : ℕ → ℕ → α} : Cls.RepF (.block D) n f ↔ ∀ i < n, ∀ j < n, i / D ≠ j / D → f i j = 0 := by
  have dv : ∀ q r, r < D → (q * D + r) / D = q := fun q r hr => by
    rw [mul_comm, Nat.mul_add_div hD, Nat.div_eq_of_lt hr, add_zero]
  constructor
  · rintro ⟨K, w, h⟩ i hi j hj e
    cases w with | block hb =>
    rw [← h i hi j hj, SM.toDense]
    obtain ⟨q, r, hr, rfl⟩ := BlockDiag.exists_qr hD i
    obtain ⟨q', r', hr', rfl⟩ := BlockDiag.exists_qr hD j
    rw [dv _ _ hr, dv _ _ hr'] at e
    rw [BlockDiag.get_toDense hb hr hr', if_neg e]
  · intro h
    obtain ⟨p, _, w, hp⟩ := BlockDiag.fromDense_spec (n := n) hD (m := Mat.ofFn n n f) rfl rfl
    refine ⟨.block p, .block w, fun i hi j hj => ?_⟩
    have h := h i hi j hj
    obtain ⟨q, r, hr, rfl⟩ := BlockDiag.exists_qr hD i
    obtain ⟨q', r', hr', rfl⟩ := BlockDiag.exists_qr hD j
    rw [dv _ _ hr, dv _ _ hr'] at h
    rw [SM.toDense, BlockDiag.get_toDense w hr hr']
    by_cases e : q = q'
    · subst e
      rw [if_pos rfl, hp _ _ _ hr hr']; simp [Mat.get_ofFn, hi, hj]
    · rw [if_neg e, h e]

theorem repF_hier {m1 m2 n k1 d k2 : ℕ} (hd : HierDims m1 m2 n k1 d k2) {f : ℕ → ℕ → α} :
    Cls.RepF (.hier m1 m2) n f ↔ ∀ i < n, ∀ j < n, ¬ (i < k1 ∨ i = j ∨ (k1 + d ≤ i ∧ k1 ≤ j)) → f i j = 0 := by
  have key : ∀ k < n, k < k1 ∨ (∃ t < d, k = k1 + t) ∨ ∃ t < k2, k = k1 + d + t := by
    intro k hk
    have := hd.sum
    by_cases h1 : k < k1
    · exact .inl h1
    · by_cases h2 : k < k1 + d
      · exact .inr (.inl ⟨k - k1, by omega, by omega⟩)
      · exact .inr (.inr ⟨k - (k1 + d), by omega, by omega⟩)
  constructor
  · rintro ⟨K, w, h⟩ i hi j hj e
    cases w with | @hier _ _ _ k1' d' k2' q hd' w =>
    obtain rfl : k1' = k1 := by rw [hd'.k1_eq, hd.k1_eq]
    obtain rfl : k2' = k2 := by rw [hd'.k2_eq, hd.k2_eq]
    obtain rfl : d' = d := by have := hd'.sum; have := hd.sum; omega
    rw [← h i hi j hj, SM.toDense]
    rcases key i hi with h1 | ⟨i, h1, rfl⟩ | ⟨i, h1, rfl⟩ <;> rcases key j hj with h2 | ⟨j, h2, rfl⟩ | ⟨j, h2, rfl⟩
    · omega
    · omega
    · omega
    · rw [Hier.get_mt w h1 h2]
    · rw [Hier.get_mm w h1 h2, if_neg (by omega)]
    · rw [Hier.get_mb w h1 h2]
    · rw [Hier.get_bt w h1 h2]
    · omega
    · omega
  · intro h
    let g : ℕ → ℕ → α := fun i j => if (i < k1 ∧ k1 ≤ j) ∨ (k1 + d ≤ i ∧ k1 ≤ j ∧ j < k1 + d) then f i j / 2 else f i j
    have two : ∀ x : α, x / 2 * 2 = x := fun x => div_mul_cancel₀ x two_ne_zero
    obtain ⟨p, _, w, hp⟩ := Hier.fromDense_spec hd (m := Mat.ofFn n n g) rfl rfl
    refine ⟨.hier p, .hier hd w, fun i hi j hj => ?_⟩
    have h := h i hi j hj
    have gg : ∀ i < n, ∀ j < n, (Mat.ofFn n n g).get i j = g i j := fun i hi j hj => by simp [Mat.get_ofFn, hi, hj]
    have hn := hd.sum
    rw [SM.toDense]
    rcases key i hi with h1 | ⟨i, h1, rfl⟩ | ⟨i, h1, rfl⟩ <;> rcases key j hj with h2 | ⟨j, h2, rfl⟩ | ⟨j, h2, rfl⟩
    · rw [Hier.get_tt w h1 h2, hp.a _ h1 _ h2, gg _ hi _ hj]; exact if_neg (by omega)
    · rw [Hier.get_tm w h1 h2, hp.b _ h1 _ (by omega), gg _ hi _ hj, show g i (k1 + j) = _ from if_pos (by omega), two]
    · rw [Hier.get_tb w h1 h2, hp.b _ h1 _ (by omega), ← Nat.add_assoc, gg _ hi _ hj, show g i (k1 + d + j) = _ from if_pos (by omega), two]
    · rw [Hier.get_mt w h1 h2, h (by omega)]
    · by_cases e : i = j
      · subst e
        rw [Hier.get_mm w h1 h2, if_pos rfl, hp.c _ h1, gg _ hi _ hj]; exact if_neg (by omega)
      · rw [Hier.get_mm w h1 h2, if_neg e, h (by omega)]
    · rw [Hier.get_mb w h1 h2, h (by omega)]
    · rw [Hier.get_bt w h1 h2, h (by omega)]
    · rw [Hier.get_bm w h1 h2, hp.dd _ h1 _ h2, gg _ hi _ hj, show g (k1 + d + i) (k1 + j) = _ from if_pos (by omega), two]
    · rw [Hier.get_bb w h1 h2, hp.e _ h1 _ h2, gg _ hi _ hj]; exact if_neg (by omega)

theorem repF_tril {n : ℕ} (hn : 0 < n) {f : ℕ → ℕ → α} :
    Cls.RepF .tril n f ↔ ∃ t : ℕ → α, ∀ i < n, ∀ j < n, f i j = if j ≤ i then t (i - j) else 0 := by
  constructor
  · rintro ⟨K, w, h⟩
    cases w with | @tril _ q hn hq =>
    exact ⟨q.get, fun i hi j hj => by rw [← h i hi j hj, SM.toDense, Tril.get_toDense, hq, if_pos hi]⟩
  · rintro ⟨t, h⟩
    refine ⟨.tril (Vec.ofFn n t), .tril hn rfl, fun i hi j hj => ?_⟩
    rw [SM.toDense, Tril.get_toDense, h i hi j hj]
    by_cases e : j ≤ i
    · rw [if_pos e, if_pos e, if_pos (by exact hi)]; simp [Vec.ofFn, show i - j < n by omega]
    · rw [if_neg e, if_neg e]

theorem repF_triu {n : ℕ} (hn : 0 < n) {f : ℕ → ℕ → α} :
    Cls.RepF .triu n f ↔ ∃ t : ℕ → α, ∀ i < n, ∀ j < n, f i j = if i ≤ j then t (j - i) else 0 := by
  constructor
  · rintro ⟨K, w, h⟩
    cases w with | @triu _ q hn hq =>
    exact ⟨q.get, fun i hi j hj => by rw [← h i hi j hj, SM.toDense, Triu.toDense_eq, get_T, Tril.get_toDense, hq, if_pos hj]⟩
  · rintro ⟨t, h⟩
    refine ⟨.triu (Vec.ofFn n t), .triu hn rfl, fun i hi j hj => ?_⟩
    rw [SM.toDense, Triu.toDense_eq, get_T, Tril.get_toDense, h i hi j hj]
    by_cases e : i ≤ j
    · rw [if_pos e, if_pos e, if_pos (by exact hj)]; simp [Vec.ofFn, show j - i < n by omega]
    · rw [if_neg e, if_neg e]

theorem blk_key {b e k : ℕ} (hk : k < b + e) : k < b ∨ ∃ t < e, k = b + t := by
  by_cases h1 : k < b
  · exact .inl h1
  · exact .inr ⟨k - b, by omega, by omega⟩

theorem RecBoundary.swap {b e : ℕ} {x y : MaxDim} (h : RecBoundary (b + e) x y b) : RecBoundary (e + b) y x e := by
  cases x <;> cases y <;> simp only [RecBoundary] at h ⊢ <;> omega

theorem repF_topRight {x y : MaxDim} {ca cc : Cls} {b e : ℕ} (hb : RecBoundary (b + e) x y b) {f : ℕ → ℕ → α} : Cls.RepF (.topRight x y ca cc) (b + e) f ↔
    ca.RepF b f ∧ cc.RepF e (fun i j => f (b + i) (b + j)) ∧ ∀ i < e, ∀ j < b, f (b + i) j = 0 := by
  constructor
  · rintro ⟨K, w, h⟩
    obtain ⟨b', e', QA, QB, QC, hbe, rfl, hb', hA, hBr, hBc, hC⟩ := w.tr_inv
    rw [← hbe] at hb'
    obtain rfl := hb.unique hb'
    obtain rfl : e = e' := by omega
    rw [toDense_tr hA hBr hBc hC] at h
    refine ⟨⟨QA, hA, fun i hi j hj => ?_⟩, ⟨QC, hC, fun i hi j hj => ?_⟩, fun i hi j hj => ?_⟩
    · rw [← h i (by omega) j (by omega), blk_tl hi hj]
    · exact ((h (b + i) (by omega) (b + j) (by omega)).symm.trans (blk_br hi hj)).symm
    · rw [← h (b + i) (by omega) j (by omega), blk_bl hi hj]; simp
  · rintro ⟨⟨QA, hA, h1⟩, ⟨QC, hC, h2⟩, h3⟩
    have eB : (Mat.ofFn b e fun i j => f i (b + j)).cols = e := rfl
    refine ⟨.topRight x y ca cc QA (Mat.ofFn b e fun i j => f i (b + j)) QC, .topRight hb hA rfl (by rw [eB]; omega) (by rw [Nat.add_sub_cancel_left]; exact hC),
      fun i hi j hj => ?_⟩
    rw [toDense_tr hA rfl eB hC]
    rcases blk_key hi with q1 | ⟨i, q1, rfl⟩ <;> rcases blk_key hj with q2 | ⟨j, q2, rfl⟩
    · rw [blk_tl q1 q2, h1 i q1 j q2]
    · rw [blk_tr q1 q2]; simp [Mat.get_ofFn, q1, q2]
    · rw [blk_bl q1 q2, h3 i q1 j q2]; simp
    · rw [blk_br q1 q2, h2 i q1 j q2]

theorem repF_bottomLeft {x y : MaxDim} {ca cc : Cls} {b e : ℕ} (hb : RecBoundary (b + e) x y b) {f : ℕ → ℕ → α} : Cls.RepF (.bottomLeft x y ca cc) (b + e) f ↔
    ca.RepF b f ∧ cc.RepF e (fun i j => f (b + i) (b + j)) ∧ ∀ i < b, ∀ j < e, f i (b + j) = 0 := by
  constructor
  · rintro ⟨K, w, h⟩
    obtain ⟨b', e', QA, QB, QC, hbe, rfl, hb', hA, hBr, hBc, hC⟩ := w.bl_inv
    rw [← hbe] at hb'
    obtain rfl := hb.unique hb'
    obtain rfl : e = e' := by omega
    rw [toDense_bl hA hBr hBc hC] at h
    refine ⟨⟨QA, hA, fun i hi j hj => ?_⟩, ⟨QC, hC, fun i hi j hj => ?_⟩, fun i hi j hj => ?_⟩
    · rw [← h i (by omega) j (by omega), blk_tl hi hj]
    · exact ((h (b + i) (by omega) (b + j) (by omega)).symm.trans (blk_br hi hj)).symm
    · rw [← h i (by omega) (b + j) (by omega), blk_tr hi hj]; simp
  · rintro ⟨⟨QA, hA, h1⟩, ⟨QC, hC, h2⟩, h3⟩
    have eB : (Mat.ofFn e b fun i j => f (b + i) j).rows = e := rfl
    refine ⟨.bottomLeft x y ca cc QA (Mat.ofFn e b fun i j => f (b + i) j) QC, .bottomLeft hb hA (by rw [eB]; omega) rfl (by rw [Nat.add_sub_cancel_left]; exact hC),
      fun i hi j hj => ?_⟩
    rw [toDense_bl hA eB rfl hC]
    rcases blk_key hi with q1 | ⟨i, q1, rfl⟩ <;> rcases blk_key hj with q2 | ⟨j, q2, rfl⟩
    · rw [blk_tl q1 q2, h1 i q1 j q2]
    · rw [blk_tr q1 q2, h3 i q1 j q2]; simp
    · rw [blk_bl q1 q2]; simp [Mat.get_ofFn, q1, q2]
    · rw [blk_br q1 q2, h2 i q1 j q2]
