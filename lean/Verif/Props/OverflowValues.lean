import Verif.Props.Overflow
import Verif.Proofs.SM
import Verif.Proofs.EyeZeros
import Verif.Model.Optimizer

/-!
# Values of the model of overflow

Where all entries are numbers and nothing overflows, the operations of `Model/Overflow.lean` compute the values that the exact model (`Model/Structured.lean`) computes.
-/

open Finset

variable {α : Type} [Field α] [LinearOrder α] [IsStrictOrderedRing α]

namespace Ov

/-- the first `r` rows and `c` columns are the numbers `g` -/
def Eq2 (r c : ℕ) (A : M α) (g : ℕ → ℕ → α) : Prop := ∀ i < r, ∀ j < c, A i j = .fin (g i j)

/-- the first `r` entries are the numbers `g` -/
def Eq1 (r : ℕ) (v : V α) (g : ℕ → α) : Prop := ∀ i < r, v i = .fin (g i)

/-- objects of class `c` that hold the same numbers, as floating point values and in the exact model -/
inductive Agree : Cls → ℕ → Obj α → SM α → Prop
  | dense {n : ℕ} {d : M α} {m : Mat α} (hr : m.rows = n) (hc : m.cols = n) (h : Eq2 n n d m.get) : Agree .dense n (.dense d) (.dense m)
  | diagonal {n : ℕ} {v : V α} {u : Vec α} (hl : u.len = n) (h : Eq1 n v u.get) : Agree .diagonal n (.diagonal v) (.diagonal u)
  | block {n D : ℕ} {b : ℕ → M α} {l : M α} {c : BlockDiag α} (w : c.WF D n) (hb : ∀ k < n / D, Eq2 D D (b k) (c.blocks.get k)) (hl : Eq2 (n % D) (n % D) l c.last.get) :
      Agree (.block D) n (.block D b l) (.block c)
  | hier {n m1 m2 k1 q k2 : ℕ} {A B : M α} {C : V α} {D E : M α} {h : Hier α} (hd : HierDims m1 m2 n k1 q k2) (w : h.Shape m1 m2 k1 q k2) (hA : Eq2 k1 k1 A h.A.get)
      (hB : Eq2 k1 (q + k2) B h.B.get) (hC : Eq1 q C h.C.get) (hD : Eq2 k2 q D h.D.get) (hE : Eq2 k2 k2 E h.E.get) : Agree (.hier m1 m2) n (.hier m1 m2 A B C D E) (.hier h)
  | tril {n : ℕ} {v : V α} {u : Vec α} (hn : 0 < n) (hl : u.len = n) (h : Eq1 n v u.get) : Agree .tril n (.tril v) (.tril u)
  | triu {n : ℕ} {v : V α} {u : Vec α} (hn : 0 < n) (hl : u.len = n) (h : Eq1 n v u.get) : Agree .triu n (.triu v) (.triu u)
  | topRight {n b : ℕ} {x y : MaxDim} {ca cc : Cls} {A C : Obj α} {B : M α} {A' C' : SM α} {B' : Mat α} (hb : RecBoundary n x y b) (hA : Agree ca b A A') (hr : B'.rows = b)
      (hc : B'.cols = n - b) (hB : Eq2 b (n - b) B B'.get) (hC : Agree cc (n - b) C C') : Agree (.topRight x y ca cc) n (.topRight x y ca cc A B C) (.topRight x y ca cc A' B' C')
  | bottomLeft {n b : ℕ} {x y : MaxDim} {ca cc : Cls} {A C : Obj α} {B : M α} {A' C' : SM α} {B' : Mat α} (hb : RecBoundary n x y b) (hA : Agree ca b A A') (hr : B'.rows = n - b)
      (hc : B'.cols = b) (hB : Eq2 (n - b) b B B'.get) (hC : Agree cc (n - b) C C') : Agree (.bottomLeft x y ca cc) n (.bottomLeft x y ca cc A B C) (.bottomLeft x y ca cc A' B' C')

theorem fin_add (x y : α) : (Fl.fin x + Fl.fin y : Fl α) = .fin (x + y) := rfl
theorem fin_mul (x y : α) : (Fl.fin x * Fl.fin y : Fl α) = .fin (x * y) := rfl

theorem sum_val {k : ℕ} {f : ℕ → Fl α} {g : ℕ → α} (h : ∀ t < k, f t = .fin (g t)) : Fl.sum k f = .fin (∑ t ∈ range k, g t) := by
  rw [sum_congr k h, sum_fin]

theorem mm_val {k : ℕ} {A B : M α} {a b : ℕ → α} {i j : ℕ} (hA : ∀ t < k, A i t = .fin (a t)) (hB : ∀ t < k, B t j = .fin (b t)) :
    mm id k A B i j = .fin (∑ t ∈ range k, a t * b t) :=
  sum_val fun t ht => by rw [hA t ht, hB t ht, fin_mul]

theorem Agree.wf {c : Cls} {n : ℕ} {o : Obj α} {K : SM α} (h : Agree c n o K) : WF c n K := by
  induction h with
  | dense hr hc _ => exact .dense hr hc
  | diagonal hl _ => exact .diagonal hl
  | block w _ _ => exact .block w
  | hier hd w _ _ _ _ _ => exact .hier hd w
  | tril hn hl _ => exact .tril hn hl
  | triu hn hl _ => exact .triu hn hl
  | topRight hb _ hr hc _ _ iA iC => exact .topRight hb iA hr hc iC
  | bottomLeft hb _ hr hc _ _ iA iC => exact .bottomLeft hb iA hr hc iC

theorem Agree.cls {c : Cls} {n : ℕ} {o : Obj α} {K : SM α} (h : Agree c n o K) : o.cls = c := by
  cases h <;> rfl

theorem bnd_eq {n b : ℕ} {x y : MaxDim} (h : RecBoundary n x y b) : Nn.bnd n x y = b := by
  cases x <;> cases y <;> simp only [RecBoundary] at h <;> first | exact h.elim | skip
  · rw [h]; rfl
  · rw [h, Nn.bnd]; omega

theorem bnd_le {n b : ℕ} {x y : MaxDim} (h : RecBoundary n x y b) : b ≤ n := by
  cases x <;> cases y <;> simp only [RecBoundary] at h <;> first | exact h.elim | omega

section block
variable {n D : ℕ} {b : ℕ → M α} {l : M α} {c : BlockDiag α}

/-- entry of a block -/
theorem block_ent (w : c.WF D n) (hb : ∀ k < n / D, Eq2 D D (b k) (c.blocks.get k)) (hl : Eq2 (n % D) (n % D) l c.last.get) {q r r' : ℕ} (hr : r < D) (hr' : r' < D)
    (h : q * D + r < n) (h' : q * D + r' < n) : (if q < n / D then b q r r' else l r r') = .fin (c.ent q r r') := by
  have hn := Nat.div_add_mod n D
  rw [BlockDiag.ent, w.d0]
  by_cases hq : q < n / D
  · rw [if_pos hq, if_pos hq, hb q hq r hr r' hr']
  · have : q = n / D := by
      by_contra hne
      have := Nat.mul_le_mul_right D (show n / D + 1 ≤ q by omega)
      have hm := Nat.mod_lt n w.pos
      rw [Nat.succ_mul, Nat.mul_comm] at this; omega
    subst this
    rw [if_neg hq, if_neg hq, if_pos rfl]
    rw [Nat.mul_comm] at h h'
    exact hl r (by omega) r' (by omega)

end block

theorem toDense_val {c : Cls} {n : ℕ} {o : Obj α} {K : SM α} (h : Agree c n o K) : Eq2 n n (toDense n o) K.toDense.get := by
  induction h with
  | dense hr hc h => exact h
  | diagonal hl h =>
    intro i hi j hj
    rw [SM.toDense, Diagonal.get_toDense]
    dsimp only [toDense]
    split_ifs
    · exact h i hi
    · rfl
  | @block n D b l c w hb hl =>
    intro i hi j hj
    have hD := w.pos
    obtain ⟨q, r, hr, rfl⟩ := BlockDiag.exists_qr hD i
    obtain ⟨q', r', hr', rfl⟩ := BlockDiag.exists_qr hD j
    have e1 := BlockDiag.div_mod_add (q := q) hr
    have e2 := BlockDiag.div_mod_add (q := q') hr'
    rw [SM.toDense, BlockDiag.get_toDense w hr hr']
    dsimp only [toDense]
    rw [e1.1, e1.2, e2.1, e2.2]
    by_cases hq : q < n / D
    · rw [if_pos ((BlockDiag.lt_mul_iff hr).2 hq)]
      by_cases hqq : q = q'
      · subst hqq
        rw [if_pos rfl, if_pos rfl]
        have := block_ent w hb hl hr hr' hi hj
        rwa [if_pos hq] at this
      · rw [if_neg hqq, if_neg hqq]
    · rw [if_neg (fun h => hq ((BlockDiag.lt_mul_iff hr).1 h))]
      have hn := Nat.div_add_mod n D
      have hm := Nat.mod_lt n hD
      have key : ∀ {a s : ℕ}, a * D + s < n → ¬ a < n / D → a = n / D := by
        intro a s h hq
        by_contra hne
        have := Nat.mul_le_mul_right D (show n / D + 1 ≤ a by omega)
        rw [Nat.succ_mul, Nat.mul_comm] at this; omega
      have hqe := key hi hq
      by_cases hqq : q = q'
      · subst hqq
        rw [if_pos rfl]
        have h1 := block_ent w hb hl hr hr' hi hj
        rw [if_neg hq] at h1
        subst hqe
        rw [if_pos (by omega), show n / D * D + r - n / D * D = r by omega, show n / D * D + r' - n / D * D = r' by omega, h1]
      · rw [if_neg hqq, if_neg]
        intro h
        exact hqq (hqe.trans (key hj (fun h' => by have := (BlockDiag.lt_mul_iff (N := n / D) hr').2 h'; omega)).symm)
  | @hier n m1 m2 k1 q k2 A B C D E h hd w hA hB hC hD hE =>
    intro i hi j hj
    have hs := hd.sum
    rw [SM.toDense, Hier.get_toDense w]
    dsimp only [toDense]
    rw [Hier.blockDims_eq hd]
    dsimp only
    by_cases h1 : i < k1
    · rw [if_pos h1]
      by_cases h2 : j < k1
      · rw [if_pos h2, hA i h1 j h2, if_neg (by omega), if_neg (by omega), if_neg (by omega), if_neg (by omega), if_pos (by omega)]; simp
      · rw [if_neg h2, hB i h1 _ (by omega), if_neg (by omega), if_neg (by omega), if_neg (by omega), if_pos (by omega)]; simp
    · rw [if_neg h1]
      by_cases h2 : i < k1 + q
      · rw [if_pos h2]
        by_cases h3 : i = j
        · subst h3; rw [if_pos rfl, if_neg (by omega), if_neg (by omega), if_pos (by omega), hC _ (by omega)]
        · rw [if_neg h3, if_neg (by omega), if_neg (by omega), if_neg (by omega), if_neg (by omega), if_neg (by omega)]
      · rw [if_neg h2]
        by_cases h3 : j < k1
        · rw [if_pos h3, if_neg (by omega), if_neg (by omega), if_neg (by omega), if_neg (by omega), if_neg (by omega)]
        · rw [if_neg h3]
          by_cases h4 : j < k1 + q
          · rw [if_pos h4, if_neg (by omega), if_pos (by omega), hD _ (by omega) _ (by omega)]
          · rw [if_neg h4, if_pos (by omega), hE _ (by omega) _ (by omega)]
  | tril hn hl h =>
    intro i hi j hj
    rw [SM.toDense, Tril.get_toDense]
    dsimp only [toDense]
    split_ifs with h1 h2
    · exact h _ (by omega)
    · omega
    · rfl
  | triu hn hl h =>
    intro i hi j hj
    rw [SM.toDense]
    dsimp only [toDense, Triu.toDense]
    rw [Mat.get_ofFn, hl, if_pos (And.intro hi hj)]
    split_ifs with h1
    · exact h _ (by omega)
    · rfl
  | @topRight n b x y ca cc A C B A' C' B' hb hA hr hc hB hC iA iC =>
    intro i hi j hj
    have hle := bnd_le hb
    obtain ⟨e, rfl⟩ := Nat.exists_eq_add_of_le hle
    rw [show b + e - b = e by omega] at *
    rw [toDense_tr hA.wf hr hc hC.wf]
    dsimp only [toDense]
    rw [bnd_eq hb]
    by_cases h1 : i < b
    · rw [if_pos h1]
      by_cases h2 : j < b
      · rw [if_pos h2, Mat.blk_tl h1 h2, iA i h1 j h2]
      · obtain ⟨t, rfl⟩ := Nat.exists_eq_add_of_le (not_lt.1 h2)
        rw [if_neg h2, Mat.blk_tr h1 (by omega), show b + t - b = t by omega, hB i h1 t (by omega)]
    · obtain ⟨s, rfl⟩ := Nat.exists_eq_add_of_le (not_lt.1 h1)
      rw [if_neg h1]
      by_cases h2 : j < b
      · rw [if_neg (by omega), Mat.blk_bl (by omega) h2]; simp
      · obtain ⟨t, rfl⟩ := Nat.exists_eq_add_of_le (not_lt.1 h2)
        rw [if_pos (by omega), Mat.blk_br (by omega) (by omega), show b + t - b = t by omega, show b + s - b = s by omega, show b + e - b = e by omega, iC s (by omega) t (by omega)]
  | @bottomLeft n b x y ca cc A C B A' C' B' hb hA hr hc hB hC iA iC =>
    intro i hi j hj
    have hle := bnd_le hb
    obtain ⟨e, rfl⟩ := Nat.exists_eq_add_of_le hle
    rw [show b + e - b = e by omega] at *
    rw [toDense_bl hA.wf hr hc hC.wf]
    dsimp only [toDense]
    rw [bnd_eq hb]
    by_cases h1 : i < b
    · rw [if_pos h1]
      by_cases h2 : j < b
      · rw [if_pos h2, Mat.blk_tl h1 h2, iA i h1 j h2]
      · obtain ⟨t, rfl⟩ := Nat.exists_eq_add_of_le (not_lt.1 h2)
        rw [if_neg h2, Mat.blk_tr h1 (by omega)]; simp
    · obtain ⟨s, rfl⟩ := Nat.exists_eq_add_of_le (not_lt.1 h1)
      rw [if_neg h1]
      by_cases h2 : j < b
      · rw [if_pos (by omega), Mat.blk_bl (by omega) h2, show b + s - b = s by omega, hB s (by omega) j h2]
      · obtain ⟨t, rfl⟩ := Nat.exists_eq_add_of_le (not_lt.1 h2)
        rw [if_neg (by omega), Mat.blk_br (by omega) (by omega), show b + t - b = t by omega, show b + s - b = s by omega, show b + e - b = e by omega, iC s (by omega) t (by omega)]

theorem slice_get (m : Mat α) {r0 r1 c0 c1 i j : ℕ} (h1 : r0 + i < r1) (h2 : c0 + j < c1) : (m.slice r0 r1 c0 c1).get i j = m.get (r0 + i) (c0 + j) := by
  rw [Mat.get_slice, if_pos (by omega)]

theorem coeff_val {n : ℕ} {d : M α} {m : Mat α} (hr : m.rows = n) (hc : m.cols = n) (h : Eq2 n n d m.get) {t : ℕ} (ht : t < n) :
    coeff id n d t = .fin ((if t = 0 then ∑ i ∈ range n, m.get i i else (∑ i ∈ range n, m.get i (i + t)) + ∑ i ∈ range n, m.get (i + t) i) / ((n - t : ℕ) : α)) := by
  have e : Fl.sum n (fun i => Fl.sum n fun j => if i = j + t ∨ j = i + t then d i j else .fin 0) =
      .fin (∑ i ∈ range n, ∑ j ∈ range n, if i = j + t ∨ j = i + t then m.get i j else 0) := by
    refine sum_val fun i hi => sum_val fun j hj => ?_
    split_ifs
    · exact h i hi j hj
    · rfl
  have z : ∀ i j, n ≤ i ∨ n ≤ j → m.get i j = 0 := fun i j h => m.supp i j (by rw [hr, hc]; exact h)
  rw [coeff, e, id, id, fin_mul, Nat.cast_sub ht.le, one_div, inv_mul_eq_div]
  congr 2
  by_cases h0 : t = 0
  · subst h0
    rw [if_pos rfl]
    refine Finset.sum_congr rfl fun i hi => ?_
    rw [sum_eq_single i]
    · simp
    · intro j _ hne; rw [if_neg (by omega)]
    · intro h'; exact absurd hi h'
  · rw [if_neg h0]
    have hs : ∀ i j : ℕ, (if i = j + t ∨ j = i + t then m.get i j else 0) = (if j = i + t then m.get i j else 0) + (if i = j + t then m.get i j else 0) := by
      intro i j
      by_cases h1 : i = j + t
      · rw [if_pos (Or.inl h1), if_neg (by omega), if_pos h1, zero_add]
      · by_cases h2 : j = i + t
        · rw [if_pos (Or.inr h2), if_pos h2, if_neg h1, add_zero]
        · rw [if_neg (by omega), if_neg h2, if_neg h1, add_zero]
    simp only [hs, sum_add_distrib]
    congr 1
    · refine Finset.sum_congr rfl fun i hi => ?_
      rw [sum_ite_eq']
      split_ifs with h1
      · rfl
      · rw [z _ _ (Or.inr (by simpa using h1))]
    · rw [sum_comm]
      refine Finset.sum_congr rfl fun j hj => ?_
      rw [sum_ite_eq']
      split_ifs with h1
      · rfl
      · rw [z _ _ (Or.inl (by simpa using h1))]

theorem fromDense_val {c : Cls} : ∀ {n : ℕ} {d : M α} {m : Mat α} {P : SM α}, c.Supports n → m.rows = n → m.cols = n → Eq2 n n d m.get → SM.fromDense c m = .ok P →
    Agree c n (fromDense id c n d) P := by
  induction c with
  | dense => intro n d m P _ hr hc h e; injection e with e; subst e; exact .dense hr hc h
  | diagonal =>
    intro n d m P _ hr hc h e; injection e with e; subst e
    exact .diagonal (by simp [hr, hc]) fun i hi => by rw [Mat.get_diag]; exact h i hi i hi
  | block D =>
    intro n d m P hs hr hc h e
    have hs : 0 < D := hs
    obtain ⟨p, e', w, hp⟩ := BlockDiag.fromDense_spec hs hr hc
    rw [SM.fromDense, e'] at e; injection e with e; subst e
    have hn := Nat.div_add_mod n D
    have hm := Nat.mod_lt n hs
    rw [Nat.mul_comm] at hn
    refine .block w (fun k hk i hi j hj => ?_) fun i hi j hj => ?_
    · have := hp k i j hi hj
      rw [BlockDiag.ent, w.d0, if_pos hk] at this
      have hk' := Nat.mul_le_mul_right D (show k + 1 ≤ n / D by omega)
      rw [Nat.succ_mul] at hk'
      rw [this]; exact h _ (by omega) _ (by omega)
    · have := hp (n / D) i j (by omega) (by omega)
      rw [BlockDiag.ent, w.d0, if_neg (lt_irrefl _), if_pos rfl] at this
      rw [this]; exact h _ (by omega) _ (by omega)
  | hier m1 m2 =>
    intro n d m P _ hr hc h e
    obtain ⟨k1, q, k2, hd⟩ : ∃ k1 q k2, HierDims m1 m2 n k1 q k2 := ⟨_, _, _, Hier.hierDims_blockDims m1 m2 n⟩
    obtain ⟨p, e', w, hp⟩ := Hier.fromDense_spec hd hr hc
    rw [SM.fromDense, e'] at e; injection e with e; subst e
    have hs := hd.sum
    dsimp only [fromDense]
    rw [Hier.blockDims_eq hd]
    refine .hier hd w (fun i hi j hj => ?_) (fun i hi j hj => ?_) (fun i hi => ?_) (fun i hi j hj => ?_) fun i hi j hj => ?_
    · rw [hp.a i hi j hj]; exact h i (by omega) j (by omega)
    · rw [hp.b i hi j hj, mul_comm, ← fin_mul, ← h i (by omega) _ (by omega)]; rfl
    · rw [hp.c i hi]; exact h _ (by omega) _ (by omega)
    · rw [hp.dd i hi j hj, mul_comm, ← fin_mul, ← h _ (by omega) _ (by omega)]; rfl
    · rw [hp.e i hi j hj]; exact h (k1 + q + i) (by omega) (k1 + q + j) (by omega)
  | tril =>
    intro n d m P hs hr hc h e
    obtain ⟨p, e', w, hp⟩ := toeplitzFromDense_spec hs hr hc
    rw [SM.fromDense, Tril.fromDense, e'] at e; injection e with e; subst e
    exact .tril hs w fun t ht => by rw [hp t ht]; exact coeff_val hr hc h ht
  | triu =>
    intro n d m P hs hr hc h e
    obtain ⟨p, e', w, hp⟩ := toeplitzFromDense_spec hs hr hc
    rw [SM.fromDense, Triu.fromDense, e'] at e; injection e with e; subst e
    exact .triu hs w fun t ht => by rw [hp t ht]; exact coeff_val hr hc h ht
  | topRight x y ca cc ihA ihC =>
    intro n d m P hs hr hc h e
    obtain ⟨b, hb, hA, hC⟩ := hs
    have := bnd_le hb
    obtain ⟨A, eA, wA⟩ := fromDense_wf hA (m := m.slice 0 b 0 b) (by shp) (by shp)
    obtain ⟨C, eC, wC⟩ := fromDense_wf hC (m := m.slice b m.rows b m.cols) (by shp) (by shp)
    rw [SM.fromDense, if_neg (by omega), getBoundary_eq (hr ▸ hb), Except.bind_ok', eA, Except.bind_ok',
      Mat.add?_ok (by shp) (by shp), Except.bind_ok', eC, Except.bind_ok',
      initTopRight_ok (b := b) (e := n - b) (by rwa [show b + (n - b) = n by omega]) wA (by shp) (by shp) wC] at e
    injection e with e; subst e
    dsimp only [fromDense]
    rw [bnd_eq hb]
    refine .topRight hb (ihA hA (by shp) (by shp) (fun i hi j hj => ?_) eA) (by shp) (by shp) (fun i hi j hj => ?_) (ihC hC (by shp) (by shp) (fun i hi j hj => ?_) eC)
    · rw [slice_get _ (by omega) (by omega), h i (by omega) j (by omega)]; simp
    · rw [Mat.get_add (by shp) (by shp), slice_get _ (by omega) (by omega), Mat.get_T, slice_get _ (by omega) (by omega), h i (by omega) _ (by omega), h _ (by omega) i (by omega)]; simp [fin_add]
    · rw [slice_get _ (by omega) (by omega), h _ (by omega) _ (by omega)]
  | bottomLeft x y ca cc ihA ihC =>
    intro n d m P hs hr hc h e
    obtain ⟨b, hb, hA, hC⟩ := hs
    have := bnd_le hb
    obtain ⟨A, eA, wA⟩ := fromDense_wf hA (m := m.slice 0 b 0 b) (by shp) (by shp)
    obtain ⟨C, eC, wC⟩ := fromDense_wf hC (m := m.slice b m.rows b m.cols) (by shp) (by shp)
    rw [SM.fromDense, if_neg (by omega), getBoundary_eq (hr ▸ hb), Except.bind_ok', eA, Except.bind_ok',
      Mat.add?_ok (by shp) (by shp), Except.bind_ok', eC, Except.bind_ok',
      initBottomLeft_ok (b := b) (e := n - b) (by rwa [show b + (n - b) = n by omega]) wA (by shp) (by shp) wC] at e
    injection e with e; subst e
    dsimp only [fromDense]
    rw [bnd_eq hb]
    refine .bottomLeft hb (ihA hA (by shp) (by shp) (fun i hi j hj => ?_) eA) (by shp) (by shp) (fun i hi j hj => ?_) (ihC hC (by shp) (by shp) (fun i hi j hj => ?_) eC)
    · rw [slice_get _ (by omega) (by omega), h i (by omega) j (by omega)]; simp
    · rw [Mat.get_add (by shp) (by shp), slice_get _ (by omega) (by omega), Mat.get_T, slice_get _ (by omega) (by omega), h j (by omega) _ (by omega), h _ (by omega) j (by omega)]; simp [fin_add]
    · rw [slice_get _ (by omega) (by omega), h _ (by omega) _ (by omega)]

section operations
variable {c : Cls} {n : ℕ} {o p : Obj α} {K L P : SM α}

theorem mul_val {r k s : ℕ} {A B : M α} {a b : Mat α} (hk : a.cols = k) (hA : Eq2 r k A a.get) (hB : Eq2 k s B b.get) : Eq2 r s (mm id k A B) (a.mul b).get := by
  intro i hi j hj
  rw [Mat.get_mul, hk]
  exact mm_val (fun t ht => hA i hi t ht) fun t ht => hB t ht j hj

theorem tr_val {r s : ℕ} {A : M α} {a : Mat α} (h : Eq2 r s A a.get) : Eq2 s r (tr A) a.T.get := fun i hi j hj => by rw [Mat.get_T]; exact h j hj i hi

theorem block_row {D : ℕ} {b : ℕ → M α} {l : M α} {e : BlockDiag α} (w : e.WF D n) (hb : ∀ k < n / D, Eq2 D D (b k) (e.blocks.get k)) (hl : Eq2 (n % D) (n % D) l e.last.get) {m : ℕ}
    {X : M α} {Y : Mat α} (hr : Y.rows = n) (hX : Eq2 n m X Y.get) : Eq2 n m (matmulT id n (.block D b l) X) (e.toDense.mul Y).get := by
  intro i hi j hj
  have hD := w.pos
  obtain ⟨q, r, hlt, rfl⟩ := BlockDiag.exists_qr hD i
  have e1 := BlockDiag.div_mod_add (q := q) hlt
  have hn := Nat.div_add_mod n D
  have hm := Nat.mod_lt n hD
  rw [Nat.mul_comm] at hn
  rw [BlockDiag.get_toDense_mul w _ hlt]
  dsimp only [matmulT]
  rw [e1.1, e1.2, id, id]
  by_cases hq : q < n / D
  · rw [if_pos ((BlockDiag.lt_mul_iff hlt).2 hq)]
    have hk' := Nat.mul_le_mul_right D (show q + 1 ≤ n / D by omega)
    rw [Nat.succ_mul] at hk'
    refine sum_val fun t ht => ?_
    have := block_ent w hb hl hlt ht hi (by omega)
    rw [if_pos hq] at this
    rw [this, hX _ (by omega) j hj, fin_mul]
  · rw [if_neg (fun h => hq ((BlockDiag.lt_mul_iff hlt).1 h))]
    have hqe : q = n / D := by
      by_contra hne
      have := Nat.mul_le_mul_right D (show n / D + 1 ≤ q by omega)
      rw [Nat.succ_mul] at this; omega
    subst hqe
    rw [← Finset.sum_subset (s₁ := range (n % D)) (range_subset_range.2 hm.le)]
    · refine sum_val fun t ht => ?_
      have := block_ent w hb hl hlt (show t < D by omega) hi (by omega)
      rw [if_neg hq] at this
      rw [show n / D * D + r - n / D * D = r by omega, this, hX _ (by omega) j hj, fin_mul]
    · intro t h1 h2
      simp only [Finset.mem_range, not_lt] at h1 h2
      rw [Y.supp _ _ (Or.inl (by omega)), mul_zero]

theorem matmulT_val (h : Agree c n o K) {m : ℕ} {X : M α} {Y : Mat α} (hr : Y.rows = n) (hX : Eq2 n m X Y.get) : Eq2 n m (matmulT id n o X) (K.toDense.mul Y).get := by
  have hd := toDense_val h
  have hcols : K.toDense.cols = n := h.wf.cols
  have naive : Eq2 n m (mm id n (toDense n o) X) (K.toDense.mul Y).get := mul_val hcols hd hX
  cases h with
  | dense => exact naive
  | tril => exact naive
  | triu => exact naive
  | topRight => exact naive
  | bottomLeft => exact naive
  | diagonal hl h =>
    intro i hi j hj
    dsimp only [matmulT]
    rw [h i hi, hX i hi j hj, fin_mul, Mat.get_mul, hcols, sum_eq_single i]
    · simp [SM.toDense, Diagonal.get_toDense]
    · intro t _ hne; simp [SM.toDense, Diagonal.get_toDense, hne.symm]
    · intro h'; exact absurd (by simpa using hi) h'
  | block w hb hl => exact block_row w hb hl hr hX
  | @hier _ m1 m2 k1 q k2 A B C D E g hdm w hA hB hC hD hE =>
    intro i hi j hj
    have hs := hdm.sum
    dsimp only [matmulT]
    rw [Hier.blockDims_eq hdm, Mat.get_mul, hcols, ← hs]
    dsimp only [id]
    by_cases h1 : i < k1
    · rw [if_pos h1, SM.toDense, Hier.sum_top w (fun t => Y.get t j) h1, mm_val (fun t ht => hA i h1 t ht) (fun t ht => hX t (by omega) j hj),
        mm_val (fun t ht => hB i h1 t (by omega)) (fun t ht => hX (k1 + t) (by omega) j hj),
        mm_val (fun t ht => hB i h1 (q + t) (by omega)) (fun t ht => hX (k1 + q + t) (by omega) j hj), fin_add, fin_add]
    · rw [if_neg h1]
      obtain ⟨s, rfl⟩ := Nat.exists_eq_add_of_le (not_lt.1 h1)
      by_cases h2 : k1 + s < k1 + q
      · rw [if_pos h2, SM.toDense, Hier.sum_mid w (fun t => Y.get t j) (show s < q by omega), show k1 + s - k1 = s by omega, hC s (by omega), hX _ (by omega) j hj, fin_mul]
      · rw [if_neg h2]
        obtain ⟨s', hs'⟩ := Nat.exists_eq_add_of_le (not_lt.1 h2)
        rw [hs', SM.toDense, Hier.sum_bot w (fun t => Y.get t j) (show s' < k2 by omega), show k1 + q + s' - (k1 + q) = s' by omega, mm_val (fun t ht => hD s' (by omega) t ht) (fun t ht => hX (k1 + t) (by omega) j hj),
          mm_val (fun t ht => hE s' (by omega) t ht) (fun t ht => hX (k1 + q + t) (by omega) j hj), fin_add]

/-- what `rmatmat` multiplies with: the transpose, except for block-diagonal matrices -/
def rden (c : Cls) (A : Mat α) : Mat α := match c with
  | .block _ => A
  | _ => A.T

theorem rmatmat_val (h : Agree c n o K) {m : ℕ} {X : M α} {Y : Mat α} (hr : Y.rows = n) (hX : Eq2 n m X Y.get) : Eq2 n m (rmatmat id n o X) ((rden c K.toDense).mul Y).get := by
  have hd := toDense_val h
  have hrows : K.toDense.rows = n := h.wf.rows
  have naive : Eq2 n m (mm id n (tr (toDense n o)) X) (K.toDense.T.mul Y).get := mul_val (by simpa using hrows) (tr_val hd) hX
  cases h with
  | dense => exact naive
  | tril => exact naive
  | triu => exact naive
  | topRight => exact naive
  | bottomLeft => exact naive
  | diagonal hl h =>
    intro i hi j hj
    dsimp only [rmatmat, matmulT, rden]
    rw [h i hi, hX i hi j hj, fin_mul, Mat.get_mul, Mat.cols_T, hrows, sum_eq_single i]
    · simp [SM.toDense, Diagonal.get_toDense]
    · intro t _ hne; simp [SM.toDense, Diagonal.get_toDense, hne]
    · intro h'; exact absurd (by simpa using hi) h'
  | block w hb hl => exact block_row w hb hl hr hX
  | @hier _ m1 m2 k1 q k2 A B C D E g hdm w hA hB hC hD hE =>
    intro i hi j hj
    have hs := hdm.sum
    dsimp only [rmatmat, rden]
    rw [Hier.blockDims_eq hdm, Mat.get_mul, Mat.cols_T, hrows, ← hs]
    simp only [Mat.get_T]
    dsimp only [id]
    by_cases h1 : i < k1
    · rw [if_pos h1, SM.toDense, Hier.sum_left w (fun t => Y.get t j) h1, mm_val (fun t ht => hA t ht i h1) (fun t ht => hX t (by omega) j hj)]
    · rw [if_neg h1]
      obtain ⟨s, rfl⟩ := Nat.exists_eq_add_of_le (not_lt.1 h1)
      by_cases h2 : k1 + s < k1 + q
      · rw [if_pos h2, SM.toDense, Hier.sum_center w (fun t => Y.get t j) (show s < q by omega), show k1 + s - k1 = s by omega, mm_val (fun t ht => hB t ht s (by omega)) (fun t ht => hX t (by omega) j hj), hC s (by omega),
          hX _ (by omega) j hj, mm_val (fun t ht => hD t ht s (by omega)) (fun t ht => hX (k1 + q + t) (by omega) j hj), fin_mul, fin_add, fin_add]
      · rw [if_neg h2]
        obtain ⟨s', hs'⟩ := Nat.exists_eq_add_of_le (not_lt.1 h2)
        rw [hs', SM.toDense, Hier.sum_right w (fun t => Y.get t j) (show s' < k2 by omega), show k1 + q + s' - (k1 + q) = s' by omega,
          mm_val (A := tr fun i t => B i (q + t)) (fun t ht => hB t ht (q + s') (by omega)) (fun t ht => hX t (by omega) j hj),
          mm_val (fun t ht => hE t ht s' (by omega)) (fun t ht => hX (k1 + q + t) (by omega) j hj), fin_add]

theorem conv_val {v w : V α} {u z : Vec α} (hv : Eq1 n v u.get) (hw : Eq1 n w z.get) {t : ℕ} (ht : t < n) : conv id n v w t = .fin (∑ s ∈ range (t + 1), u.get s * z.get (t - s)) := by
  dsimp only [conv, id]
  rw [if_pos ht, sum_val (g := fun k => if k < t + 1 then u.get k * z.get (t - k) else 0)]
  · congr 1
    symm
    rw [← sum_range_extend (n := t + 1) (m := n) (by omega)]
    · exact Finset.sum_congr rfl fun k hk => (if_pos (by simpa using hk)).symm
    · intro k hk; exact if_neg (by omega)
  · intro k hk
    rw [hv k hk]
    by_cases h : k ≤ t
    · rw [if_pos h, if_pos (by omega), hw _ (by omega), fin_mul]
    · rw [if_neg h, if_neg (by omega), fin_mul, mul_zero]

theorem product_val (h : Agree c n o K) (g : Agree c n p L) (e : K.matmulS L = .ok P) : Agree c n (product id n o p) P := by
  have naive : (K.matmulS L = do SM.fromDense K.cls (← K.toDense.matmul L.toDense)) → Agree c n (fromDense id o.cls n (mm id n (toDense n o) (toDense n p))) P := by
    intro e'
    rw [e', Mat.matmul_ok (by rw [h.wf.cols, g.wf.rows]), Except.bind_ok', h.wf.cls_eq] at e
    rw [h.cls]
    exact fromDense_val h.wf.supports (by simp [h.wf.rows]) (by simp [g.wf.cols]) (mul_val h.wf.cols (toDense_val h) (toDense_val g)) e
  cases h with
  | dense => cases g; exact naive rfl
  | topRight => cases g; exact naive rfl
  | bottomLeft => cases g; exact naive rfl
  | diagonal hl h => cases g with | diagonal gl g =>
    rw [SM.matmulS, (Diagonal.matmulS_spec hl gl).1] at e; injection e with e; subst e
    exact .diagonal (by simp [hl]) fun i hi => by rw [h i hi, g i hi, fin_mul]; simp
  | @block _ D b l x w hb hl => cases g with | @block _ _ b' l' y w' hb' hl' =>
    obtain ⟨e', w2⟩ := BlockDiag.init_ok (D := D) (n := n) w.pos (blocks := x.blocks.bmm y.blocks) (last := x.last.mul y.last)
      (by simp [T3.bmm, w.d0]) (by simp [T3.bmm, w.d1]) (by simp [T3.bmm, w'.d2]) (by simp [w.lr]) (by simp [w'.lc])
    have e2 : x.matmulS y = .ok ⟨D, x.blocks.bmm y.blocks, x.last.mul y.last⟩ := by
      simp only [BlockDiag.matmulS, T3.bmm?, Mat.matmul, w.d0, w'.d0, w.d2, w'.d1, w.lc, w'.lr, and_self, if_true, w.hD]
      exact e'
    rw [SM.matmulS, e2] at e; injection e with e; subst e
    refine .block w2 (fun k hk i hi j hj => ?_) (mul_val w.lc hl hl')
    rw [mm_val (fun t ht => hb k hk i hi t ht) (fun t ht => hb' k hk t ht j hj)]
    simp only [T3.bmm, T3.get_ofFn, w.d0, w.d1, w.d2, w'.d2, hk, hi, hj, and_self, if_true]
  | @hier _ m1 m2 k1 q k2 A B C D E x hd w hA hB hC hD hE => cases g with | @hier _ _ _ k1' q' k2' A' B' C' D' E' y hd' w' hA' hB' hC' hD' hE' =>
    have hb : (k1, q, k2) = (k1', q', k2') := (Hier.blockDims_eq hd).symm.trans (Hier.blockDims_eq hd')
    simp only [Prod.mk.injEq] at hb
    obtain ⟨rfl, rfl, rfl⟩ := hb
    obtain ⟨z, e', wz, ez⟩ := Hier.matmulS_spec w w'
    rw [SM.matmulS, e'] at e; injection e with e; subst e
    have hs := hd.sum
    have ent : ∀ i j, z.toDense.get i j = ∑ t ∈ range (k1 + q + k2), x.toDense.get i t * y.toDense.get t j := fun i j => by rw [ez, Mat.get_mul, Hier.cols_toDense, w.dim_eq]
    have yA : ∀ t < k1, ∀ j < k1, A' t j = .fin (y.toDense.get t j) := fun t ht j hj => by rw [hA' t ht j hj, Hier.get_tt w' ht hj]
    have yB : ∀ t < k1, ∀ j < q, B' t j = .fin (y.toDense.get t (k1 + j)) := fun t ht j hj => by rw [hB' t ht j (by omega), Hier.get_tm w' ht hj]
    have yF : ∀ t < k1, ∀ j < k2, B' t (q + j) = .fin (y.toDense.get t (k1 + q + j)) := fun t ht j hj => by rw [hB' t ht _ (by omega), Hier.get_tb w' ht hj]
    have yD : ∀ t < k2, ∀ j < q, D' t j = .fin (y.toDense.get (k1 + q + t) (k1 + j)) := fun t ht j hj => by rw [hD' t ht j hj, Hier.get_bm w' ht hj]
    have yE : ∀ t < k2, ∀ j < k2, E' t j = .fin (y.toDense.get (k1 + q + t) (k1 + q + j)) := fun t ht j hj => by rw [hE' t ht j hj, Hier.get_bb w' ht hj]
    dsimp only [product]
    rw [Hier.blockDims_eq hd]
    refine .hier hd wz (fun i hi j hj => ?_) (fun i hi j hj => ?_) (fun i hi => ?_) (fun i hi j hj => ?_) fun i hi j hj => ?_
    · rw [mm_val (fun t ht => hA i hi t ht) (fun t ht => yA t ht j hj), ← Hier.get_tt wz hi hj, ent, Hier.sum_top w (fun t => y.toDense.get t j) hi]
      rw [Finset.sum_eq_zero (s := range q) fun t ht => by rw [Hier.get_mt w' (by simpa using ht) hj, mul_zero],
        Finset.sum_eq_zero (s := range k2) fun t ht => by rw [Hier.get_bt w' (by simpa using ht) hj, mul_zero], add_zero, add_zero]
    · by_cases hjq : j < q
      · rw [if_pos hjq, mm_val (fun t ht => hA i hi t ht) (fun t ht => yB t ht j hjq), hB i hi j hj, hC' j hjq,
          mm_val (fun t ht => hB i hi (q + t) (by omega)) (fun t ht => yD t ht j hjq), fin_mul]
        dsimp only [id]
        rw [fin_add, fin_add, ← Hier.get_tm wz hi hjq, ent, Hier.sum_top w (fun t => y.toDense.get t (k1 + j)) hi]
        rw [Finset.sum_eq_single (s := range q) j, Hier.get_mm w' hjq hjq, if_pos rfl]
        · intro t ht hne; rw [Hier.get_mm w' (by simpa using ht) hjq, if_neg hne, mul_zero]
        · intro h'; exact absurd (by simpa using hjq) h'
      · obtain ⟨s, rfl⟩ := Nat.exists_eq_add_of_le (not_lt.1 hjq)
        have hs2 : s < k2 := by omega
        rw [if_neg hjq, mm_val (fun t ht => hA i hi t ht) (fun t ht => yF t ht s hs2), show q + s - q = s by omega,
          mm_val (fun t ht => hB i hi (q + t) (by omega)) (fun t ht => yE t ht s hs2)]
        dsimp only [id]
        rw [fin_add, ← Hier.get_tb wz hi hs2, ent, Hier.sum_top w (fun t => y.toDense.get t (k1 + q + s)) hi]
        rw [Finset.sum_eq_zero (s := range q) fun t ht => by rw [Hier.get_mb w' (by simpa using ht) hs2, mul_zero], add_zero]
    · rw [hC i hi, hC' i hi, fin_mul]
      have := Hier.get_mm wz hi hi
      rw [if_pos rfl] at this
      rw [← this, ent, Hier.sum_mid w (fun t => y.toDense.get t (k1 + i)) hi, Hier.get_mm w' hi hi, if_pos rfl]; rfl
    · rw [hD i hi j hj, hC' j hj, fin_mul, mm_val (fun t ht => hE i hi t ht) (fun t ht => yD t ht j hj)]
      dsimp only [id]
      rw [fin_add, ← Hier.get_bm wz hi hj, ent, Hier.sum_bot w (fun t => y.toDense.get t (k1 + j)) hi, Finset.sum_eq_single (s := range q) j, Hier.get_mm w' hj hj, if_pos rfl]
      · intro t ht hne; rw [Hier.get_mm w' (by simpa using ht) hj, if_neg hne, mul_zero]
      · intro h'; exact absurd (by simpa using hj) h'
    · rw [mm_val (fun t ht => hE i hi t ht) (fun t ht => yE t ht j hj), ← Hier.get_bb wz hi hj, ent, Hier.sum_bot w (fun t => y.toDense.get t (k1 + q + j)) hi,
        Finset.sum_eq_zero (s := range q) fun t ht => by rw [Hier.get_mb w' (by simpa using ht) hj, mul_zero], zero_add]
  | tril hn hl h => cases g with | tril _ gl g =>
    obtain ⟨z, e', lz, ez⟩ := toeplitzCoeffProduct_spec hn hl gl
    rw [SM.matmulS, Tril.matmulS, e'] at e; injection e with e; subst e
    exact .tril hn lz fun t ht => by rw [conv_val h g ht, ez t ht]
  | triu hn hl h => cases g with | triu _ gl g =>
    obtain ⟨z, e', lz, ez⟩ := toeplitzCoeffProduct_spec hn hl gl
    rw [SM.matmulS, Triu.matmulS, e'] at e; injection e with e; subst e
    exact .triu hn lz fun t ht => by rw [conv_val h g ht, ez t ht]

theorem inner_val (h : Agree c n o K) (e : K.fromInner none = .ok P) : Agree c n (inner id n o) P := by
  have naive : ¬ c.IsBlock → Agree c n (fromDense id o.cls n (mm id n (tr (toDense n o)) (toDense n o))) P := by
    intro hb
    rw [fromInner_none_spec hb h.wf] at e
    rw [h.cls]
    exact fromDense_val h.wf.supports (by simp [h.wf.cols]) (by simp [h.wf.cols]) (mul_val (by simpa using h.wf.rows) (tr_val (toDense_val h)) (toDense_val h)) e
  cases h with
  | dense => exact naive id
  | tril => exact naive id
  | triu => exact naive id
  | topRight => exact naive id
  | bottomLeft => exact naive id
  | diagonal hl h =>
    injection e with e; subst e
    exact .diagonal (by simp [hl]) fun i hi => by simp [h i hi, fin_mul]
  | @block _ D b l x w hb hl =>
    obtain ⟨e', w2⟩ := BlockDiag.init_ok (D := D) (n := n) w.pos (blocks := x.blocks.bmmT x.blocks)
      (last := x.last.mul x.last.T) w.d0 w.d1 w.d1 (by simp [w.lr]) (by simp [w.lr])
    have e2 : x.fromInner none = .ok ⟨D, x.blocks.bmmT x.blocks, x.last.mul x.last.T⟩ := by
      simp only [BlockDiag.fromInner, Mat.matmul, Mat.rows_T, if_true, Except.bind_ok', w.hD]
      exact e'
    rw [SM.fromInner, e2] at e; injection e with e; subst e
    refine .block w2 (fun k hk i hi j hj => ?_) (mul_val w.lc hl (tr_val hl))
    rw [mm_val (fun t ht => hb k hk i hi t ht) (fun t ht => hb k hk j hj t ht)]
    simp only [T3.bmmT, T3.get_ofFn, w.d0, w.d1, w.d2, hk, hi, hj, and_self, if_true]
  | @hier _ m1 m2 k1 q k2 A B C D E x hd w hA hB hC hD hE =>
    have hs := hd.sum
    rw [SM.fromInner, Hier.fromInner_none hd w] at e
    obtain ⟨z, e', wz, f⟩ := Hier.fromDense_spec hd (m := x.toDense.T.mul x.toDense) (by simp [w.dim_eq, hs]) (by simp [w.dim_eq, hs])
    rw [e'] at e; injection e with e; subst e
    have ent : ∀ i j, (x.toDense.T.mul x.toDense).get i j = ∑ t ∈ range (k1 + q + k2), x.toDense.get t i * x.toDense.get t j := fun i j => by
      rw [Mat.get_mul, Mat.cols_T, Hier.rows_toDense, w.dim_eq]; simp only [Mat.get_T]
    have yA : ∀ t < k1, ∀ j < k1, A t j = .fin (x.toDense.get t j) := fun t ht j hj => by rw [hA t ht j hj, Hier.get_tt w ht hj]
    have yB : ∀ t < k1, ∀ j < q + k2, B t j = .fin (x.toDense.get t (k1 + j)) := fun t ht j hj => by
      rw [hB t ht j hj]
      by_cases hjq : j < q
      · rw [Hier.get_tm w ht hjq]
      · obtain ⟨s, rfl⟩ := Nat.exists_eq_add_of_le (not_lt.1 hjq)
        rw [← add_assoc, Hier.get_tb w ht (by omega)]
    have yF : ∀ t < k1, ∀ j < k2, B t (q + j) = .fin (x.toDense.get t (k1 + q + j)) := fun t ht j hj => by rw [hB t ht _ (by omega), Hier.get_tb w ht hj]
    have yC : ∀ i < q, C i = .fin (x.toDense.get (k1 + i) (k1 + i)) := fun i hi => by rw [hC i hi, Hier.get_mm w hi hi, if_pos rfl]
    have yD : ∀ t < k2, ∀ j < q, D t j = .fin (x.toDense.get (k1 + q + t) (k1 + j)) := fun t ht j hj => by rw [hD t ht j hj, Hier.get_bm w ht hj]
    have yE : ∀ t < k2, ∀ j < k2, E t j = .fin (x.toDense.get (k1 + q + t) (k1 + q + j)) := fun t ht j hj => by rw [hE t ht j hj, Hier.get_bb w ht hj]
    dsimp only [inner]
    rw [Hier.blockDims_eq hd]
    refine .hier hd wz (fun i hi j hj => ?_) (fun i hi j hj => ?_) (fun i hi => ?_) (fun i hi j hj => ?_) fun i hi j hj => ?_
    · rw [f.a i hi j hj, ent, Hier.sum_left w (fun t => x.toDense.get t j) hi, mm_val (fun t ht => hA t ht i hi) (fun t ht => yA t ht j hj)]
    · rw [f.b i hi j hj, ent, Hier.sum_left w (fun t => x.toDense.get t (k1 + j)) hi,
        mm_val (A := times id 2 (tr A)) (a := fun t => 2 * x.A.get t i) (fun t ht => by dsimp only [times, tr, id]; rw [hA t ht i hi, fin_mul]) (fun t ht => yB t ht j hj), sum_mul]
      congr 1; exact Finset.sum_congr rfl fun t _ => by ring
    · rw [f.c i hi, ent, Hier.sum_center w (fun t => x.toDense.get t (k1 + i)) hi]
      dsimp only [id]
      rw [sum_val (k := k1) (g := fun t => x.B.get t i * x.toDense.get t (k1 + i)) fun t ht => by rw [hB t ht i (by omega), ← Hier.get_tm w ht hi, fin_mul],
        sum_val (k := k2) (g := fun t => x.D.get t i * x.toDense.get (k1 + q + t) (k1 + i)) fun t ht => by rw [hD t ht i hi, ← Hier.get_bm w ht hi, fin_mul], yC i hi, fin_mul, fin_add, fin_add]
      congr 2
      rw [add_comm]
      congr 1
      rw [Hier.get_mm w hi hi, if_pos rfl]
    · rw [f.dd i hi j hj, ent, Hier.sum_right w (fun t => x.toDense.get t (k1 + j)) hi]
      dsimp only [times, plus, id]
      rw [mm_val (A := tr fun i t => B i (q + t)) (fun t ht => hB t ht (q + i) (by omega)) (fun t ht => yB t ht j (by omega)), mm_val (A := tr E) (fun t ht => hE t ht i hi) (fun t ht => yD t ht j hj),
        fin_add, fin_mul, mul_comm]
    · rw [f.e i hi j hj, ent, Hier.sum_right w (fun t => x.toDense.get t (k1 + q + j)) hi]
      dsimp only [plus, id]
      rw [mm_val (A := tr fun i t => B i (q + t)) (B := fun i t => B i (q + t)) (fun t ht => hB t ht (q + i) (by omega)) (fun t ht => yF t ht j hj), mm_val (A := tr E) (fun t ht => hE t ht i hi) (fun t ht => yE t ht j hj),
        fin_add, add_comm]

theorem innerX_val (h : Agree c n o K) {m : ℕ} (hm : 0 < m) {X : M α} {Y : Mat α} (hr : Y.rows = n) (hc : Y.cols = m) (hX : Eq2 n m X Y.get) (e : K.fromInner (some Y) = .ok P) :
    Agree c n (innerX id n o m X) P := by
  have hS := rmatmat_val h hr hX
  have es : K.fromInner (some Y) = SM.fromDense c (((rden c K.toDense).mul Y).mul ((rden c K.toDense).mul Y).T) := by
    by_cases hb : c.IsBlock
    · cases c <;> first | exact (fromInner_block h.wf).2 Y hr | exact hb.elim
    · rw [fromInner_some_spec hb h.wf hr (by omega)]
      cases c <;> first | rfl | exact (hb trivial).elim
  have hrr : (rden c K.toDense).rows = n := by
    cases c <;> simp [rden, h.wf.rows, h.wf.cols]
  have naive : Agree c n (fromDense id o.cls n (mm id m (rmatmat id n o X) (tr (rmatmat id n o X)))) P := by
    rw [es] at e
    rw [h.cls]
    exact fromDense_val h.wf.supports (by simp [hrr]) (by simp [hrr]) (mul_val (by simpa using hc) hS (tr_val hS)) e
  cases h with
  | dense => exact naive
  | tril => exact naive
  | triu => exact naive
  | topRight => exact naive
  | bottomLeft => exact naive
  | block => exact naive
  | diagonal hl h =>
    rw [es] at e; injection e with e; subst e
    refine .diagonal (by simp [hrr]) fun i hi => ?_
    rw [Mat.get_diag, Mat.get_mul, Mat.cols_mul, hc]
    dsimp only [id]
    rw [h i hi, fin_mul, sum_val (g := fun j => Y.get i j * Y.get i j) fun j hj => by rw [hX i hi j hj, fin_mul], fin_mul, mul_sum]
    congr 1
    refine Finset.sum_congr rfl fun t ht => ?_
    have := (rmatmat_val (Agree.diagonal hl h) hr hX i hi t (by simpa using ht)).symm
    rw [Mat.get_T]
    dsimp only [rmatmat, matmulT, id] at this
    rw [h i hi, hX i hi t (by simpa using ht), fin_mul] at this
    injection this with this
    rw [this]; ring
  | @hier _ m1 m2 k1 q k2 A B C D E x hd w hA hB hC hD hE =>
    have hs := hd.sum
    rw [es, SM.fromDense] at e
    set S' := (rden (.hier m1 m2) (SM.hier x).toDense).mul Y with hS'
    have hcS : S'.cols = m := by simp [hS', hc]
    obtain ⟨z, e', wz, f⟩ := Hier.fromDense_spec hd (m := S'.mul S'.T) (by simp [hS', hrr]) (by simp [hS', hrr])
    rw [e'] at e; injection e with e; subst e
    have ent : ∀ i j, (S'.mul S'.T).get i j = ∑ t ∈ range m, S'.get i t * S'.get j t := fun i j => by rw [Mat.get_mul, hcS]; simp only [Mat.get_T]
    dsimp only [innerX]
    rw [Hier.blockDims_eq hd]
    dsimp only
    generalize rmatmat id n (.hier m1 m2 A B C D E) X = S at hS
    refine .hier hd wz (fun i hi j hj => ?_) (fun i hi j hj => ?_) (fun i hi => ?_) (fun i hi j hj => ?_) fun i hi j hj => ?_
    · rw [f.a i hi j hj, ent, mm_val (fun t ht => hS i (by omega) t ht) (fun t ht => hS j (by omega) t ht)]
    · rw [f.b i hi j hj, ent]
      dsimp only [times, id]
      rw [mm_val (B := tr fun i j => S (k1 + i) j) (fun t ht => hS i (by omega) t ht) (fun t ht => hS (k1 + j) (by omega) t ht), fin_mul, mul_comm]
    · rw [f.c i hi, ent]
      exact sum_val fun t ht => by rw [hS (k1 + i) (by omega) t ht, fin_mul]
    · rw [f.dd i hi j hj, ent, mm_val (A := times id 2 fun i j => S (k1 + q + i) j) (B := tr fun i j => S (k1 + i) j) (a := fun t => 2 * S'.get (k1 + q + i) t)
        (fun t ht => by dsimp only [times, id]; rw [hS (k1 + q + i) (by omega) t ht, fin_mul]) (fun t ht => hS (k1 + j) (by omega) t ht), sum_mul]
      congr 1; exact Finset.sum_congr rfl fun t _ => by ring
    · rw [f.e i hi j hj, ent, mm_val (A := fun i j => S (k1 + q + i) j) (B := tr fun i j => S (k1 + q + i) j) (fun t ht => hS (k1 + q + i) (by omega) t ht) (fun t ht => hS (k1 + q + j) (by omega) t ht)]

theorem averageTrace_val (h : Agree c n o K) : averageTrace id n o = .fin ((∑ i ∈ range n, K.toDense.get i i) / n) := by
  have hd := toDense_val h
  have naive : (Fl.fin (1 / (n : α)) * Fl.sum n fun i => toDense n o i i) = .fin ((∑ i ∈ range n, K.toDense.get i i) / n) := by
    rw [sum_val fun i hi => hd i hi i hi, fin_mul, one_div, inv_mul_eq_div]
  have one : ∀ x : α, 1 / (n : α) * x = x / n := fun x => by rw [one_div, inv_mul_eq_div]
  cases h with
  | dense => exact naive
  | topRight => exact naive
  | bottomLeft => exact naive
  | diagonal hl h =>
    refine Eq.trans ?_ naive
    dsimp only [averageTrace, id]
    congr 1
    exact sum_congr n fun i hi => (if_pos rfl).symm
  | tril hn hl h =>
    have e : ∀ i ∈ range n, (SM.tril _).toDense.get i i = _ := fun i hi => Fl.fin.inj ((hd i (by simpa using hi) i (by simpa using hi)).symm.trans ((if_pos le_rfl).trans (by rw [Nat.sub_self, h 0 hn])))
    have hn' : (n : α) ≠ 0 := by exact_mod_cast hn.ne'
    rw [Finset.sum_congr rfl e, sum_const, card_range, nsmul_eq_mul, mul_div_cancel_left₀ _ hn']
    exact h 0 hn
  | triu hn hl h =>
    have e : ∀ i ∈ range n, (SM.triu _).toDense.get i i = _ := fun i hi => Fl.fin.inj ((hd i (by simpa using hi) i (by simpa using hi)).symm.trans ((if_pos le_rfl).trans (by rw [Nat.sub_self, h 0 hn])))
    have hn' : (n : α) ≠ 0 := by exact_mod_cast hn.ne'
    rw [Finset.sum_congr rfl e, sum_const, card_range, nsmul_eq_mul, mul_div_cancel_left₀ _ hn']
    exact h 0 hn
  | @block _ D b l x w hb hl =>
    have hm := Nat.mod_lt n w.pos
    rw [SM.toDense, ← BlockDiag.averageTrace_spec w, BlockDiag.averageTrace, w.d0, w.d1, w.d2, w.lr, w.lc, min_self, min_self, w.dim_eq]
    dsimp only [averageTrace, id]
    rw [sum_val (k := n / D) fun k hk => sum_val (k := D) fun i hi => by rw [hb k hk i hi i hi, fin_mul, one], sum_val (k := n % D) fun i hi => by rw [hl i hi i hi, fin_mul, one], fin_add]
  | @hier _ m1 m2 k1 q k2 A B C D E x hdm w hA hB hC hD hE =>
    have hs := hdm.sum
    have e := Hier.averageTrace_spec w
    rw [hs] at e
    rw [SM.toDense, ← e, Hier.averageTrace]
    simp only [Mat.len_diag, Mat.get_diag, w.Ar, w.Ac, w.Cl, w.Er, w.Ec, min_self, hs]
    dsimp only [averageTrace, id]
    rw [Hier.blockDims_eq hdm]
    dsimp only
    rw [sum_val (k := k1) fun i hi => by rw [hA i hi i hi, fin_mul, one], sum_val (k := q) fun i hi => by rw [hC i hi, fin_mul, one],
      sum_val (k := k2) fun i hi => by rw [hE i hi i hi, fin_mul, one], fin_add, fin_add]

theorem axpy_val {x y a : α} {u v : Fl α} (hu : u = .fin x) (hv : v = .fin y) : id (u + .fin a * v) = .fin (x + y * a) := by
  rw [hu, hv, fin_mul, mul_comm]; rfl

theorem add_val (a : α) {c : Cls} : ∀ {n : ℕ} {o p : Obj α} {K L P : SM α}, Agree c n o K → Agree c n p L → K.add_ L a = .ok P → Agree c n (add id (.fin a) o p) P := by
  induction c with
  | dense =>
    intro n o p K L P h g e
    cases h with | dense hr hc h => cases g with | dense gr gc g =>
    rw [SM.add_, Mat.add?_ok (by simp [hr, gr]) (by simp [hc, gc])] at e; injection e with e; subst e
    refine .dense (by simp [hr]) (by simp [hc]) fun i hi j hj => ?_
    rw [Mat.get_add (by simp [hr, gr]) (by simp [hc, gc]), Mat.get_smul]
    exact axpy_val (h i hi j hj) (g i hi j hj)
  | diagonal =>
    intro n o p K L P h g e
    cases h with | diagonal hl h => cases g with | diagonal gl g =>
    rw [SM.add_, Vec.add?_ok (by simp [hl, gl])] at e; injection e with e; subst e
    refine .diagonal (by simp [hl]) fun i hi => ?_
    rw [Vec.get_add (by simp [hl, gl]), Vec.get_smul]
    exact axpy_val (h i hi) (g i hi)
  | tril =>
    intro n o p K L P h g e
    cases h with | tril hn hl h => cases g with | tril _ gl g =>
    rw [SM.add_, Vec.add?_ok (by simp [hl, gl])] at e; injection e with e; subst e
    refine .tril hn (by simp [hl]) fun i hi => ?_
    rw [Vec.get_add (by simp [hl, gl]), Vec.get_smul]
    exact axpy_val (h i hi) (g i hi)
  | triu =>
    intro n o p K L P h g e
    cases h with | triu hn hl h => cases g with | triu _ gl g =>
    rw [SM.add_, Vec.add?_ok (by simp [hl, gl])] at e; injection e with e; subst e
    refine .triu hn (by simp [hl]) fun i hi => ?_
    rw [Vec.get_add (by simp [hl, gl]), Vec.get_smul]
    exact axpy_val (h i hi) (g i hi)
  | block D =>
    intro n o p K L P h g e
    cases h with | @block _ _ b l x w hb hl => cases g with | @block _ _ b' l' y w' hb' hl' =>
    have e2 : x.blocks.add? (y.blocks.smul a) = .ok (x.blocks.add (y.blocks.smul a)) := by
      simp [T3.add?, T3.smul, w.d0, w.d1, w.d2, w'.d0, w'.d1, w'.d2]
    rw [SM.add_, e2, Except.bind_ok', Mat.add?_ok (by simp [w.lr, w'.lr]) (by simp [w.lc, w'.lc])] at e; injection e with e; subst e
    refine .block ⟨w.pos, w.hD, by simp [T3.add, w.d0], by simp [T3.add, w.d1], by simp [T3.add, w.d2], by simp [w.lr], by simp [w.lc]⟩ (fun k hk i hi j hj => ?_) fun i hi j hj => ?_
    · have : (x.blocks.add (y.blocks.smul a)).get k i j = x.blocks.get k i j + y.blocks.get k i j * a := by
        simp [T3.add, T3.smul, w.d0, w.d1, w.d2, w'.d0, w'.d1, w'.d2, hk, hi, hj]
      rw [this]
      exact axpy_val (hb k hk i hi j hj) (hb' k hk i hi j hj)
    · rw [Mat.get_add (by simp [w.lr, w'.lr]) (by simp [w.lc, w'.lc]), Mat.get_smul]
      exact axpy_val (hl i hi j hj) (hl' i hi j hj)
  | hier m1 m2 =>
    intro n o p K L P h g e
    cases h with | @hier _ _ _ k1 q k2 A B C D E x hd w hA hB hC hD hE => cases g with | @hier _ _ _ k1' q' k2' A' B' C' D' E' y hd' w' hA' hB' hC' hD' hE' =>
    have hb : (k1, q, k2) = (k1', q', k2') := (Hier.blockDims_eq hd).symm.trans (Hier.blockDims_eq hd')
    simp only [Prod.mk.injEq] at hb
    obtain ⟨rfl, rfl, rfl⟩ := hb
    have a1 := w.Ar; have a2 := w.Ac; have a3 := w.Br; have a4 := w.Bc; have a5 := w.Cl; have a6 := w.Dr; have a7 := w.Dc; have a8 := w.Er; have a9 := w.Ec
    have b1 := w'.Ar; have b2 := w'.Ac; have b3 := w'.Br; have b4 := w'.Bc; have b5 := w'.Cl; have b6 := w'.Dr; have b7 := w'.Dc; have b8 := w'.Er; have b9 := w'.Ec
    rw [SM.add_, Mat.add?_ok (by shp) (by shp), Except.bind_ok', Mat.add?_ok (by shp) (by shp), Except.bind_ok', Vec.add?_ok (by shp), Except.bind_ok', Mat.add?_ok (by shp) (by shp), Except.bind_ok',
      Mat.add?_ok (by shp) (by shp)] at e
    injection e with e; subst e
    refine .hier hd ⟨w.h1, w.h2, w.le1, w.le2, by shp, by shp, by shp, by shp, by shp, by shp, by shp, by shp, by shp⟩ (fun i hi j hj => ?_) (fun i hi j hj => ?_) (fun i hi => ?_)
      (fun i hi j hj => ?_) fun i hi j hj => ?_
    · rw [Mat.get_add (by shp) (by shp), Mat.get_smul]; exact axpy_val (hA i hi j hj) (hA' i hi j hj)
    · rw [Mat.get_add (by shp) (by shp), Mat.get_smul]; exact axpy_val (hB i hi j hj) (hB' i hi j hj)
    · rw [Vec.get_add (by shp), Vec.get_smul]; exact axpy_val (hC i hi) (hC' i hi)
    · rw [Mat.get_add (by shp) (by shp), Mat.get_smul]; exact axpy_val (hD i hi j hj) (hD' i hi j hj)
    · rw [Mat.get_add (by shp) (by shp), Mat.get_smul]; exact axpy_val (hE i hi j hj) (hE' i hi j hj)
  | topRight x y ca cc ihA ihC =>
    intro n o p K L P h g e
    cases h with | @topRight _ b _ _ _ _ A C B A1 C1 B1 hb hA hr hc hB hC => cases g with | @topRight _ b' _ _ _ _ A' C' B' A1' C1' B1' hb' hA' hr' hc' hB' hC' =>
    obtain rfl : b = b' := (bnd_eq hb).symm.trans (bnd_eq hb')
    rw [SM.add_, Mat.add?_ok (by shp) (by shp), Except.bind_ok'] at e
    cases eA : A1.add_ A1' a with
    | error _ => rw [eA] at e; cases e
    | ok A2 =>
      cases eC : C1.add_ C1' a with
      | error _ => rw [eA, Except.bind_ok', eC] at e; cases e
      | ok C2 =>
        rw [eA, Except.bind_ok', eC] at e; injection e with e; subst e
        refine .topRight hb (ihA hA hA' eA) (by shp) (by shp) (fun i hi j hj => ?_) (ihC hC hC' eC)
        rw [Mat.get_add (by shp) (by shp), Mat.get_smul]; exact axpy_val (hB i hi j hj) (hB' i hi j hj)
  | bottomLeft x y ca cc ihA ihC =>
    intro n o p K L P h g e
    cases h with | @bottomLeft _ b _ _ _ _ A C B A1 C1 B1 hb hA hr hc hB hC => cases g with | @bottomLeft _ b' _ _ _ _ A' C' B' A1' C1' B1' hb' hA' hr' hc' hB' hC' =>
    obtain rfl : b = b' := (bnd_eq hb).symm.trans (bnd_eq hb')
    rw [SM.add_, Mat.add?_ok (by shp) (by shp), Except.bind_ok'] at e
    cases eA : A1.add_ A1' a with
    | error _ => rw [eA] at e; cases e
    | ok A2 =>
      cases eC : C1.add_ C1' a with
      | error _ => rw [eA, Except.bind_ok', eC] at e; cases e
      | ok C2 =>
        rw [eA, Except.bind_ok', eC] at e; injection e with e; subst e
        refine .bottomLeft hb (ihA hA hA' eA) (by shp) (by shp) (fun i hi j hj => ?_) (ihC hC hC' eC)
        rw [Mat.get_add (by shp) (by shp), Mat.get_smul]; exact axpy_val (hB i hi j hj) (hB' i hi j hj)

theorem times_val {r s : ℕ} {A : M α} {m : Mat α} (h : Eq2 r s A m.get) (a : α) : Eq2 r s (times id a A) (m.smul a).get := fun i hi j hj => by
  rw [Mat.get_smul, mul_comm, ← fin_mul, ← h i hi j hj]; rfl

theorem timesV_val {r : ℕ} {v : V α} {u : Vec α} (h : Eq1 r v u.get) (a : α) : Eq1 r (fun i => id (.fin a * v i)) (u.smul a).get := fun i hi => by
  rw [Vec.get_smul, mul_comm, ← fin_mul, ← h i hi]; rfl

theorem scale_val (a : α) (h : Agree c n o K) : Agree c n (scale id a o) (K.mul_ a) := by
  induction h with
  | dense hr hc h => exact .dense (by simp [hr]) (by simp [hc]) (times_val h a)
  | diagonal hl h => exact .diagonal (by simp [hl]) (timesV_val h a)
  | @block _ D b l x w hb hl =>
    refine .block ⟨w.pos, w.hD, by simp [T3.smul, w.d0], by simp [T3.smul, w.d1], by simp [T3.smul, w.d2], by simp [w.lr], by simp [w.lc]⟩ (fun k hk i hi j hj => ?_) (times_val hl a)
    rw [show (x.blocks.smul a).get k i j = x.blocks.get k i j * a by simp [T3.smul, w.d0, w.d1, w.d2, hk, hi, hj], mul_comm, ← fin_mul, ← hb k hk i hi j hj]; rfl
  | hier hd w hA hB hC hD hE =>
    exact .hier hd ⟨w.h1, w.h2, w.le1, w.le2, by simp [w.Ar], by simp [w.Ac], by simp [w.Br], by simp [w.Bc], by simp [w.Cl], by simp [w.Dr], by simp [w.Dc], by simp [w.Er], by simp [w.Ec]⟩
      (times_val hA a) (times_val hB a) (timesV_val hC a) (times_val hD a) (times_val hE a)
  | tril hn hl h => exact .tril hn (by simp [hl]) (timesV_val h a)
  | triu hn hl h => exact .triu hn (by simp [hl]) (timesV_val h a)
  | topRight hb hA hr hc hB hC iA iC => exact .topRight hb iA (by simp [hr]) (by simp [hc]) (times_val hB a) iC
  | bottomLeft hb hA hr hc hB hC iA iC => exact .bottomLeft hb iA (by simp [hr]) (by simp [hc]) (times_val hB a) iC

theorem diagPlus_val {r : ℕ} {A : M α} {m : Mat α} (hr : m.rows = r) (hc : m.cols = r) (h : Eq2 r r A m.get) (a : α) : Eq2 r r (diagPlus id a A) (m.diagAdd a).get := fun i hi j hj => by
  rw [Hier.get_diagAdd' _ (by omega) (by omega)]
  dsimp only [diagPlus, id]
  split_ifs
  · rw [h i hi j hj, fin_add]
  · rw [h i hi j hj, add_zero]

theorem diagAdd_val (a : α) (h : Agree c n o K) (e : K.diagAdd a = .ok P) : Agree c n (diagAdd id n a o) P := by
  have naive : (K.diagAdd a = do SM.fromDense K.cls (← utilsDiagAdd K.toDense a)) → Agree c n (fromDense id c n (diagPlus id a (toDense n o))) P := by
    intro e'
    rw [e', Hier.utilsDiagAdd_ok _ (by rw [h.wf.rows, h.wf.cols]), Except.bind_ok', h.wf.cls_eq] at e
    exact fromDense_val h.wf.supports (by simp [h.wf.rows]) (by simp [h.wf.cols]) (diagPlus_val h.wf.rows h.wf.cols (toDense_val h) a) e
  cases h with
  | dense => exact naive rfl
  | topRight => exact naive rfl
  | bottomLeft => exact naive rfl
  | diagonal hl h =>
    injection e with e; subst e
    exact .diagonal (by simp [Diagonal.diagAdd, hl]) fun i hi => by
      dsimp only [id]
      rw [h i hi, fin_add]; simp [Diagonal.diagAdd, Vec.addScalar, hl, hi]
  | @block _ D b l x w hb hl =>
    injection e with e; subst e
    refine .block ⟨w.pos, w.hD, w.d0, w.d1, w.d2, w.lr, w.lc⟩ (fun k hk i hi j hj => ?_) (diagPlus_val w.lr w.lc hl a)
    rw [show (x.diagAdd a).blocks.get k i j = if i = j then x.blocks.get k i j + a else x.blocks.get k i j by simp [BlockDiag.diagAdd, w.d0, w.d1, w.d2, hk, hi, hj, w.hD]]
    dsimp only [diagPlus, id]
    split_ifs
    · rw [hb k hk i hi j hj, fin_add]
    · exact hb k hk i hi j hj
  | @hier _ m1 m2 k1 q k2 A B C D E x hd w hA hB hC hD hE =>
    rw [SM.diagAdd, Hier.diagAdd, Hier.utilsDiagAdd_ok _ (by rw [w.Ar, w.Ac]), Except.bind_ok', Hier.utilsDiagAdd_ok _ (by rw [w.Er, w.Ec])] at e
    injection e with e; subst e
    refine .hier hd ⟨w.h1, w.h2, w.le1, w.le2, w.Ar, w.Ac, w.Br, w.Bc, w.Cl, w.Dr, w.Dc, w.Er, w.Ec⟩ (diagPlus_val w.Ar w.Ac hA a) hB (fun i hi => ?_) hD (diagPlus_val w.Er w.Ec hE a)
    dsimp only [id]
    rw [hC i hi, fin_add]; simp [Vec.addScalar, w.Cl, hi]
  | tril hn hl h =>
    rw [SM.diagAdd, Toeplitz.diagAdd, if_neg (by omega)] at e
    injection e with e; subst e
    refine .tril hn (by simp [hl]) fun i hi => ?_
    rw [Vec.get_ofFn, hl, if_pos hi]
    dsimp only [id]
    split_ifs
    · rw [h i hi, fin_add]
    · exact h i hi
  | triu hn hl h =>
    rw [SM.diagAdd, Toeplitz.diagAdd, if_neg (by omega)] at e
    injection e with e; subst e
    refine .triu hn (by simp [hl]) fun i hi => ?_
    rw [Vec.get_ofFn, hl, if_pos hi]
    dsimp only [id]
    split_ifs
    · rw [h i hi, fin_add]
    · exact h i hi

theorem zeros_val (hs : c.Supports n) (e : SM.zeros c n = .ok P) : Agree c n (zeros id c n) P := by
  have hz : Eq2 n n (fun _ _ => .fin 0) (Mat.zeros n n : Mat α).get := fun i _ j _ => by simp
  obtain ⟨P', e', w, ez⟩ := smzeros_spec (α := α) hs
  rw [e] at e'; injection e' with e'; subst e'
  have naive : c.NoHier → Agree c n (zeros id c n) P := fun hc => fromDense_val hs rfl rfl hz (by rw [← ez]; exact fromDense_toDense w hc)
  cases c with
  | topRight => exact fromDense_val hs rfl rfl hz e
  | bottomLeft => exact fromDense_val hs rfl rfl hz e
  | hier m1 m2 =>
    cases w with | @hier _ _ _ k1 q k2 x hd w =>
    have z : ∀ i j, x.toDense.get i j = 0 := fun i j => by rw [show x.toDense = Mat.zeros n n from ez]; simp
    dsimp only [zeros, fromDense]
    have e2 : (id (Fl.fin 2 * Fl.fin 0) : Fl α) = .fin 0 := by rw [fin_mul, mul_zero]; rfl
    rw [e2]
    refine .hier hd w (fun i hi j hj => ?_) (fun i hi j hj => ?_) (fun i hi => ?_) (fun i hi j hj => ?_) fun i hi j hj => ?_
    · rw [← Hier.get_tt w hi hj, z]
    · by_cases hjq : j < q
      · rw [← Hier.get_tm w hi hjq, z]
      · obtain ⟨s, rfl⟩ := Nat.exists_eq_add_of_le (not_lt.1 hjq)
        rw [← Hier.get_tb w hi (by omega), z]
    · have := Hier.get_mm w hi hi
      rw [if_pos rfl] at this
      rw [← this, z]
    · rw [← Hier.get_bm w hi hj, z]
    · rw [← Hier.get_bb w hi hj, z]
  | _ => exact naive trivial

/-- Operations on structured matrices whose entries are numbers, with nothing overflowing, compute what the exact model computes: all classes, also nested ones. -/
theorem C97_values (h : Agree c n o K) (g : Agree c n p L) :
    Eq2 n n (toDense n o) K.toDense.get ∧
    (∀ P, K.matmulS L = .ok P → Agree c n (product id n o p) P) ∧
    (∀ P, K.fromInner none = .ok P → Agree c n (inner id n o) P) ∧
    (∀ a P, K.add_ L a = .ok P → Agree c n (add id (.fin a) o p) P) ∧
    (∀ a P, K.diagAdd a = .ok P → Agree c n (diagAdd id n a o) P) ∧
    (∀ a, Agree c n (scale id a o) (K.mul_ a)) ∧
    (∀ t, K.averageTrace = .ok t → averageTrace id n o = .fin t) ∧
    (∀ P : SM α, SM.zeros c n = .ok P → Agree c n (zeros id c n) P) ∧
    ∀ (m : ℕ) (X : M α) (Y : Mat α), 0 < m → Y.rows = n → Y.cols = m → Eq2 n m X Y.get →
      (∀ P, K.fromInner (some Y) = .ok P → Agree c n (innerX id n o m X) P) ∧
      (∀ Z, K.matmulT Y = .ok Z → Eq2 n m (matmulT id n o X) Z.get) ∧ ∀ Z, K.rmatmat Y = .ok Z → Eq2 n m (rmatmat id n o X) Z.get := by
  refine ⟨toDense_val h, fun P => product_val h g, fun P => inner_val h, fun a P => add_val a h g, fun a P => diagAdd_val a h, fun a => scale_val a h, fun t e => ?_,
    fun P => zeros_val h.wf.supports, fun m X Y hm hr hc hX => ⟨fun P => innerX_val h hm hr hc hX, fun Z e => ?_, fun Z e => ?_⟩⟩
  · rw [averageTrace_spec h.wf] at e; injection e with e; rw [← e]; exact averageTrace_val h
  · rw [matmulT_spec h.wf hr (by omega)] at e; injection e with e; subst e; exact matmulT_val h hr hX
  · have es : K.rmatmat Y = .ok ((rden c K.toDense).mul Y) := by
      by_cases hb : c.IsBlock
      · cases c <;> first | exact rmatmat_block h.wf hr | exact hb.elim
      · rw [rmatmat_spec hb h.wf hr (by omega)]
        cases c <;> first | rfl | exact (hb trivial).elim
    rw [es] at e; injection e with e; subst e; exact rmatmat_val h hr hX

theorem newMomentum_val {oH oI : Obj α} {H I : SM α} (hK : WF c n K) (hH : Agree c n oH H) (hI : Agree c n oI I) (y : Hyp α) (a b : α) (e : momentumDir K H I n a b y.half = .ok P) :
    Agree c n (newMomentum id n c y oH (.fin a) oI (.fin b)) P := by
  rw [momentumDir, hK.cls_eq] at e
  cases e1 : (SM.zeros c n : Except PyErr (SM α)) with
  | error => rw [e1] at e; cases e
  | ok Z =>
    rw [e1, Except.bind_ok'] at e
    cases e2 : Z.add_ H a with
    | error => rw [e2] at e; cases e
    | ok Z1 =>
      rw [e2, Except.bind_ok'] at e
      cases e3 : Z1.add_ I b with
      | error => rw [e3] at e; cases e
      | ok Z2 =>
        rw [e3, Except.bind_ok'] at e
        cases e4 : Z2.diagAdd (-1) with
        | error => rw [e4] at e; cases e
        | ok Z3 =>
          rw [e4] at e; injection e with e; subst e
          exact scale_val _ (diagAdd_val _ (add_val _ (add_val _ (zeros_val hK.supports e1) hH e2) hI e3) e4)

theorem bind_split {β γ : Type} {x : Except PyErr β} {f : β → Except PyErr γ} {r : γ} (h : (x >>= f) = .ok r) : ∃ v, x = .ok v ∧ f v = .ok r := by
  cases x with
  | error e => cases h
  | ok v => exact ⟨v, rfl, h⟩

end operations

/-- hyper-parameters of a step of the model of overflow that are those of the exact model: `u` the factor that undoes the gradient scale in the statistics, `s` the gradient scale, `ν` the norms of the
momenta -/
structure Hyp.Of (y : Hyp α) (h : Hyper α) (t : ℕ) (u s : α) (ν : α × α) : Prop where
  kfac : y.kfac = h.kfacLike
  alpha1 : y.alpha1 = h.alpha1
  damping : y.damping = h.damping
  half : y.half = 1 / 2 * (if h.normalize then 1 - h.alpha1 else 1)
  lrCov : y.lrCov = h.lrCov.at t
  norms : y.norms = if h.normalize then some (.fin ν.1, .fin ν.2) else none
  momentum : y.momentum = h.momentum
  weightDecay : y.weightDecay = h.weightDecay
  lr : y.lr = h.lr
  unscale : y.unscale = u
  inv : y.inv = 1 / s

section layer
variable {cK cC : Cls} {n d : ℕ} {l : Lay α} {K C mK mC HK HC nK nC mK' mC' K' C' : SM α} {oK oC : Obj α} {y : Hyp α} {h : Hyper α} {t : ℕ} {u s βK βC : α} {ν : α × α}

theorem traceOr1_val {c : Cls} {n : ℕ} {o : Obj α} {H : SM α} (hH : Agree c n o H) (b : Bool) (a : α) {r : α} (e : traceOr1 b H = .ok r) :
    (if b then Fl.fin a else id (.fin a * averageTrace id n o)) = .fin (a * r) := by
  cases b with
  | true => injection e with e; rw [← e, mul_one]; rfl
  | false =>
    rw [traceOr1, if_neg (by simp), averageTrace_spec hH.wf] at e
    injection e with e
    rw [if_neg (by simp), averageTrace_val hH, ← e]; rfl

omit [IsStrictOrderedRing α] in
theorem rate_val (hy : y.Of h t u s ν) {β β' : α} (hb : β = if h.normalize then h.lrCov.at t / max 1 ν.1 else h.lrCov.at t) (hb' : β' = if h.normalize then h.lrCov.at t / max 1 ν.2 else h.lrCov.at t) :
    (y.norms.elim y.lrCov fun x => Fl.rate y.lrCov x.1) = β ∧ (y.norms.elim y.lrCov fun x => Fl.rate y.lrCov x.2) = β' := by
  rw [hy.norms, hy.lrCov, hb, hb']
  cases h.normalize <;> exact ⟨rfl, rfl⟩

/-- An update of the pre-conditioner in which all entries are numbers and nothing overflows computes the factors and momenta that the exact model computes (`newMomenta`, `factorStep` in
`Model/Optimizer.lean`). -/
theorem C97_update (hy : y.Of h t u s ν) (hK : Agree cK n l.K K) (hC : Agree cC d l.C C) (hmK : Agree cK n l.mK mK) (hmC : Agree cC d l.mC mC) (eH : l.H = some (oK, oC)) (hHK : Agree cK n oK HK)
    (hHC : Agree cC d oC HC) (e1 : newMomenta h n d u K C HK HC = .ok (nK, nC)) (e2 : (if h.alpha1 ≠ 0 then nK.add_ mK h.alpha1 else .ok nK) = .ok mK')
    (e3 : (if h.alpha1 ≠ 0 then nC.add_ mC h.alpha1 else .ok nC) = .ok mC') (hν : h.normalize → mK'.infNorm = .ok ν.1 ∧ mC'.infNorm = .ok ν.2) (b4 : factorRate h t mK' = .ok βK)
    (b5 : factorRate h t mC' = .ok βC) (e4 : factorStep K mK' βK = .ok K') (e5 : factorStep C mC' βC = .ok C') :
    Agree cK n (update id n d y l).K K' ∧ Agree cC d (update id n d y l).C C' ∧ Agree cK n (update id n d y l).mK (if h.alpha1 ≠ 0 then mK' else mK) ∧
      Agree cC d (update id n d y l).mC (if h.alpha1 ≠ 0 then mC' else mC) ∧ (update id n d y l).H = none ∧ (update id n d y l).W = l.W ∧ (update id n d y l).P = l.P := by
  obtain ⟨KtK, a1, e1⟩ := bind_split e1
  obtain ⟨CtC, a2, e1⟩ := bind_split e1
  obtain ⟨tHC, a3, e1⟩ := bind_split e1
  obtain ⟨tCC, a4, e1⟩ := bind_split e1
  obtain ⟨x1, a5, e1⟩ := bind_split e1
  obtain ⟨tHK, a6, e1⟩ := bind_split e1
  obtain ⟨tKK, a7, e1⟩ := bind_split e1
  obtain ⟨x2, a8, e1⟩ := bind_split e1
  injection e1 with e1
  obtain ⟨rfl, rfl⟩ := Prod.mk.inj e1
  have iK := inner_val hK a1
  have iC := inner_val hC a2
  rw [← hy.half] at a5 a8
  have mK1 := newMomentum_val hK.wf hHK iK y _ _ a5
  have mC1 := newMomentum_val hC.wf hHC iC y _ _ a8
  obtain ⟨rK, rC⟩ := rate_val hy (β := βK) (β' := βC)
    (by
      unfold factorRate at b4
      by_cases hn : h.normalize
      · rw [if_pos hn] at b4 ⊢; rw [(hν hn).1] at b4; injection b4 with b4; exact b4.symm
      · rw [if_neg hn] at b4 ⊢; injection b4 with b4; exact b4.symm)
    (by
      unfold factorRate at b5
      by_cases hn : h.normalize
      · rw [if_pos hn] at b5 ⊢; rw [(hν hn).2] at b5; injection b5 with b5; exact b5.symm
      · rw [if_neg hn] at b5 ⊢; injection b5 with b5; exact b5.symm)
  have tK : (if y.kfac then Fl.fin 1 else id (.fin y.unscale * averageTrace id d oC)) = .fin (if h.kfacLike then 1 else u * tHC) := by
    have := traceOr1_val hHC h.kfacLike u a3
    rw [hy.kfac, hy.unscale]
    cases hk : h.kfacLike with
    | true => rfl
    | false => rw [hk] at this; simpa using this
  have tC : (if y.kfac then Fl.fin y.unscale else id (.fin y.unscale * averageTrace id n oK)) = .fin (if h.kfacLike then u else u * tHK) := by
    have := traceOr1_val hHK h.kfacLike u a6
    rw [hy.kfac, hy.unscale]
    cases hk : h.kfacLike with
    | true => rfl
    | false => rw [hk] at this; simpa using this
  have gK : (if y.kfac then Fl.fin y.damping else id (.fin y.damping * averageTrace id d (inner id d l.C))) = .fin (h.damping * tCC) := by
    rw [hy.kfac, hy.damping]; exact traceOr1_val iC h.kfacLike h.damping a4
  have gC : (if y.kfac then Fl.fin y.damping else id (.fin y.damping * averageTrace id n (inner id n l.K))) = .fin (h.damping * tKK) := by
    rw [hy.kfac, hy.damping]; exact traceOr1_val iK h.kfacLike h.damping a7
  unfold update
  rw [eH]
  dsimp only
  rw [tK, tC, gK, gC, hK.cls, hC.cls, rK, rC, hy.alpha1]
  have step : ∀ {c : Cls} {k : ℕ} {o m : Obj α} {A B D : SM α} {β : α}, Agree c k o A → Agree c k m B → factorStep A B β = .ok D → Agree c k (add id (.fin (-β)) o (product id k o m)) D := by
    intro c k o m A B D β hA hB e
    obtain ⟨Q, q1, q2⟩ := bind_split e
    exact add_val _ hA (product_val hA hB q1) q2
  by_cases ha : h.alpha1 ≠ 0
  · rw [if_pos ha] at e2 e3
    simp only [if_pos ha]
    have m1 := add_val _ mK1 hmK e2
    have m2 := add_val _ mC1 hmC e3
    exact ⟨step hK m1 e4, step hC m2 e5, m1, m2, trivial, trivial, trivial⟩
  · rw [if_neg ha] at e2 e3
    injection e2 with e2; injection e3 with e3
    subst e2; subst e3
    simp only [if_neg ha]
    exact ⟨step hK mK1 e4, step hC mC1 e5, hmK, hmC, trivial, trivial, trivial⟩

/-- A backward pass in which all entries are numbers and nothing overflows accumulates the statistics of the exact model. -/
theorem C97_backward {m m' : ℕ} {X g : M α} {Y Z : Mat α} (a : α) (hm : 0 < m) (hm' : 0 < m') (hK : Agree cK n l.K K) (hC : Agree cC d l.C C) (hr : Y.rows = n) (hc : Y.cols = m) (hX : Eq2 n m X Y.get)
    (hr' : Z.rows = d) (hc' : Z.cols = m') (hg : Eq2 d m' g Z.get) (e1 : K.fromInner (some Y) = .ok nK) (e2 : C.fromInner (some (Z.smul a)) = .ok nC) :
    (l.H = none → ∃ p q, (backward id n d m X m' g a l).H = some (p, q) ∧ Agree cK n p nK ∧ Agree cC d q nC) ∧
    (l.H = some (oK, oC) → Agree cK n oK HK → Agree cC d oC HC → HK.add_ nK 1 = .ok mK' → HC.add_ nC 1 = .ok mC' →
      ∃ p q, (backward id n d m X m' g a l).H = some (p, q) ∧ Agree cK n p mK' ∧ Agree cC d q mC') := by
  have h1 := innerX_val hK hm hr hc hX e1
  have h2 := innerX_val (X := times id a g) hC hm' (by simpa using hr') (by simpa using hc') (fun i hi j hj => by
    have := times_val hg a i hi j hj
    rw [this]) e2
  constructor
  · intro e
    refine ⟨_, _, ?_, h1, h2⟩
    unfold backward; rw [e]
  · intro e k1 k2 e3 e4
    refine ⟨_, _, ?_, add_val 1 k1 h1 e3, add_val 1 k2 h2 e4⟩
    unfold backward; rw [e]

/-- The natural gradient of numbers, nothing overflowing, is the one of the exact model, and so are the parameters and momentum buffers after the step. -/
theorem C97_move {G : M α} {Gm R1 R R2 N Wm Pm Sm Bm : Mat α} (hy : y.Of h t u s ν) (hn : 0 < n) (hd : 0 < d) (hK : Agree cK n l.K K) (hC : Agree cC d l.C C) (hr : Gm.rows = d) (hc : Gm.cols = n)
    (hG : Eq2 d n G Gm.get) (e1 : K.rmatmat (Gm.smul (1 / s)).T = .ok R1) (e2 : K.matmulT R1 = .ok R) (e3 : C.rmatmat R.T = .ok R2) (e4 : C.matmulT R2 = .ok N) :
    Eq2 d n (natGrad id n d y l G) N.get ∧
    (Eq2 d n l.W Wm.get → Eq2 d n l.P Pm.get → Wm.rows = d → Wm.cols = n → Pm.rows = d → Pm.cols = n → World.decay h Wm N = .ok Sm → World.newBuffer h (some Pm) Wm Sm = .ok Bm →
      Eq2 d n (step id n d y false G l).W (fun i j => Wm.get i j + -h.lr * (if h.momentum ≠ 0 then Bm else Sm).get i j) ∧
      Eq2 d n (step id n d y false G l).P (if h.momentum ≠ 0 then Bm else Pm).get) := by
  have rm : ∀ {c : Cls} {k m : ℕ} {o : Obj α} {A : SM α} {X : M α} {Y Z Z' : Mat α}, Agree c k o A → 0 < m → Y.rows = k → Y.cols = m → Eq2 k m X Y.get → A.rmatmat Y = .ok Z → A.matmulT Z = .ok Z' →
      Z'.rows = k ∧ Z'.cols = m ∧ Eq2 k m (matmulT id k o (rmatmat id k o X)) Z'.get := by
    intro c k m o A X Y Z Z' hA hm h1 h2 hX q1 q2
    obtain ⟨-, -, -, -, -, -, -, -, v⟩ := C97_values hA hA
    have es : A.rmatmat Y = .ok ((rden c A.toDense).mul Y) := by
      by_cases hb : c.IsBlock
      · cases c <;> first | exact rmatmat_block hA.wf h1 | exact hb.elim
      · rw [rmatmat_spec hb hA.wf h1 (by omega)]
        cases c <;> first | rfl | exact (hb trivial).elim
    have hZ := (v m X Y hm h1 h2 hX).2.2 Z q1
    rw [es] at q1; injection q1 with q1
    have z1 : Z.rows = k := by
      rw [← q1]
      cases c <;> simp [rden, hA.wf.rows, hA.wf.cols]
    have z2 : Z.cols = m := by rw [← q1]; simpa using h2
    have hZ' := (v m _ Z hm z1 z2 hZ).2.1 Z' q2
    rw [matmulT_spec hA.wf z1 (by omega)] at q2; injection q2 with q2
    refine ⟨by rw [← q2]; simpa using hA.wf.rows, by rw [← q2]; simpa using z2, hZ'⟩
  have t1 : Eq2 n d (tr (times id y.inv G)) (Gm.smul (1 / s)).T.get := fun i hi j hj => by
    have := times_val hG y.inv j hj i hi
    rw [hy.inv] at this
    rw [tr, hy.inv, this]; simp
  obtain ⟨r1, r2, r3⟩ := rm hK hd (by simpa using hc) (by simpa using hr) t1 e1 e2
  obtain ⟨q1, q2, q3⟩ := rm hC hn (Y := R.T) (X := tr (matmulT id n l.K (rmatmat id n l.K (tr (times id y.inv G))))) (by simpa using r2) (by simpa using r1) (fun i hi j hj => by rw [tr, r3 j hj i hi]; simp) e3 e4
  refine ⟨q3, fun hW hP w1 w2 p1 p2 ed eb => ?_⟩
  have hS : Sm.rows = d ∧ Sm.cols = n ∧ Eq2 d n (fun i j => if y.weightDecay ≠ 0 then id (natGrad id n d y l G i j + .fin y.weightDecay * l.W i j) else natGrad id n d y l G i j) Sm.get := by
    unfold World.decay at ed
    rw [hy.weightDecay]
    by_cases hw : h.weightDecay ≠ 0
    · rw [if_pos hw, Mat.add?, if_pos (by simp [q1, q2, w1, w2])] at ed
      injection ed with ed
      subst ed
      refine ⟨by simpa using q1, by simpa using q2, fun i hi j hj => ?_⟩
      dsimp only
      rw [if_pos hw, show natGrad id n d y l G i j = _ from q3 i hi j hj, hW i hi j hj, Mat.get_add (by simp [q1, w1]) (by simp [q2, w2])]
      simp [fin_mul, fin_add, mul_comm]
    · rw [if_neg hw] at ed; injection ed with ed; subst ed
      exact ⟨q1, q2, fun i hi j hj => by dsimp only; rw [if_neg hw]; exact q3 i hi j hj⟩
  obtain ⟨s1, s2, s3⟩ := hS
  rw [World.newBuffer, Mat.add?, if_pos (by simp [s1, s2, p1, p2])] at eb
  injection eb with eb
  have hB : Eq2 d n (fun i j => id (id (.fin y.momentum * l.P i j) + (if y.weightDecay ≠ 0 then id (natGrad id n d y l G i j + .fin y.weightDecay * l.W i j) else natGrad id n d y l G i j))) Bm.get := by
    intro i hi j hj
    have := s3 i hi j hj
    dsimp only at this ⊢
    rw [this, hP i hi j hj, ← eb, Mat.get_add (by simp; omega) (by simp; omega), hy.momentum]
    simp [fin_mul, fin_add, mul_comm]
  unfold step
  simp only [Bool.false_eq_true, if_false]
  by_cases hm : h.momentum ≠ 0
  · have hm' : y.momentum ≠ 0 := by rw [hy.momentum]; exact hm
    simp only [if_pos hm, if_pos hm']
    refine ⟨fun i hi j hj => ?_, hB⟩
    have := hB i hi j hj
    dsimp only at this ⊢
    rw [this, hW i hi j hj, hy.lr]; rfl
  · have hm' : ¬ y.momentum ≠ 0 := by rw [hy.momentum]; exact hm
    simp only [if_neg hm, if_neg hm']
    refine ⟨fun i hi j hj => ?_, hP⟩
    have := s3 i hi j hj
    dsimp only at this ⊢
    rw [this, hW i hi j hj, hy.lr]; rfl

end layer

/-! ### examples -/

/-- a lower-triangular Toeplitz factor, in the model of overflow and in the exact model -/
def exV (c : ℚ) : Obj ℚ := .tril fun i => .fin (c + i)
def exT (c : ℚ) : SM ℚ := .tril (Vec.ofFn 2 fun i => c + i)
/-- a dense factor -/
def exO (c : ℚ) : Obj ℚ := .dense fun i j => .fin (c + 2 * i + j)
def exD (c : ℚ) : SM ℚ := .dense (Mat.ofFn 2 2 fun i j => c + 2 * i + j)

theorem exT_agree (c : ℚ) : Agree .tril 2 (exV c) (exT c) := .tril (by omega) rfl fun i hi => by simp [hi]
theorem exD_agree (c : ℚ) : Agree .dense 2 (exO c) (exD c) := .dense rfl rfl fun i hi j hj => by simp [hi, hj]

def exH : Hyper ℚ :=
  { lr := 1 / 10, momentum := 1 / 2, damping := 1 / 3, alpha1 := 1 / 4, weightDecay := 1 / 5, T := 1, lossAverage := none, lrCov := .const (1 / 6), structures := ("triltoeplitz", "dense"), kfacApprox := "expand",
    kfacLike := false, normalize := false }

/-- an update of the exact model -/
def exUp : Except PyErr ((SM ℚ × SM ℚ) × (SM ℚ × SM ℚ) × (ℚ × ℚ) × SM ℚ × SM ℚ) := do
  let n ← newMomenta exH 2 2 3 (exT 1) (exD 1) (exT 2) (exD 3)
  let a ← n.1.add_ (exT 4) exH.alpha1
  let b ← n.2.add_ (exD 5) exH.alpha1
  let β ← factorRate exH 0 a
  let γ ← factorRate exH 0 b
  let K ← factorStep (exT 1) a β
  let C ← factorStep (exD 1) b γ
  return (n, (a, b), (β, γ), K, C)

def exY : Hyp ℚ :=
  { kfac := false, alpha1 := 1 / 4, damping := 1 / 3, half := 1 / 2, lrCov := 1 / 6, norms := none, momentum := 1 / 2, weightDecay := 1 / 5, lr := 1 / 10, unscale := 3, inv := 1 / 2 }

theorem exY_of : exY.Of exH 0 3 2 (0, 0) := ⟨rfl, rfl, rfl, by norm_num [exY, exH], by norm_num [exY, exH, LrCov.at], rfl, rfl, rfl, rfl, rfl, rfl⟩

def exL : Lay ℚ := ⟨exV 1, exO 1, exV 4, exO 5, some (exV 2, exO 3), fun i j => .fin (i + j), fun i j => .fin (i * j)⟩

theorem ok_of {β : Type} {x : Except PyErr β} (h : x.isOk = true) : ∃ v, x = .ok v := by
  cases x with
  | error e => cases h
  | ok v => exact ⟨v, rfl⟩

/-- a Toeplitz and a dense factor with momentum, weight decay, traces and a gradient scale: all operations of the exact model succeed, hence the update agrees with it -/
example : ∃ K' C' : SM ℚ, Agree .tril 2 (update id 2 2 exY exL).K K' ∧ Agree .dense 2 (update id 2 2 exY exL).C C' := by
  obtain ⟨v, hv⟩ := ok_of (x := exUp) (by decide +kernel)
  obtain ⟨n, h1, hv⟩ := bind_split hv
  obtain ⟨a, h2, hv⟩ := bind_split hv
  obtain ⟨b, h3, hv⟩ := bind_split hv
  obtain ⟨β, h4, hv⟩ := bind_split hv
  obtain ⟨γ, h5, hv⟩ := bind_split hv
  obtain ⟨K', h6, hv⟩ := bind_split hv
  obtain ⟨C', h7, hv⟩ := bind_split hv
  have ha : exH.alpha1 ≠ 0 := by norm_num [exH]
  have := C97_update (l := exL) exY_of (exT_agree 1) (exD_agree 1) (exT_agree 4) (exD_agree 5) rfl (exT_agree 2) (exD_agree 3) h1 (by rw [if_pos ha]; exact h2) (by rw [if_pos ha]; exact h3)
    (by intro h; cases h) h4 h5 h6 h7
  exact ⟨K', C', this.1, this.2.1⟩

/-- the new Toeplitz factor of the example has numbers that are not those of the old one -/
example : (match (update id 2 2 exY exL).K with | .tril v => [v 0, v 1] | _ => []) ≠ [.fin 1, .fin 2] := by decide +kernel

example : Eq2 2 2 (toDense 2 (exV 1)) (exT 1).toDense.get := (C97_values (exT_agree 1) (exT_agree 2)).1

/-- the hypotheses on the gradient and the parameters -/
example : ∃ N : Mat ℚ, Eq2 2 2 (natGrad id 2 2 exY exL fun i j => .fin (i + 3 * j)) N.get := by
  obtain ⟨v, hv⟩ := ok_of (x := do
    let R1 ← (exT 1).rmatmat ((Mat.ofFn 2 2 fun i j => ((i : ℚ) + 3 * j)).smul (1 / 2)).T
    let R ← (exT 1).matmulT R1
    let R2 ← (exD 1).rmatmat R.T
    (exD 1).matmulT R2) (by decide +kernel)
  obtain ⟨R1, h1, hv⟩ := bind_split hv
  obtain ⟨R, h2, hv⟩ := bind_split hv
  obtain ⟨R2, h3, hv⟩ := bind_split hv
  exact ⟨v, (C97_move (Wm := v) (Pm := v) (Sm := v) (Bm := v) (l := exL) exY_of (by omega) (by omega) (exT_agree 1) (exD_agree 1) rfl rfl (fun i hi j hj => by simp [hi, hj]) h1 h2 h3 hv).1⟩

/-- a backward pass with two inputs -/
example : ∃ p q nK nC, (backward id 2 2 2 (fun i j => .fin ((i : ℚ) + j)) 2 (fun i j => .fin ((i : ℚ) * j)) 3 { exL with H := none }).H = some (p, q) ∧ Agree .tril 2 p nK ∧ Agree .dense 2 q nC := by
  obtain ⟨nK, h1⟩ := ok_of (x := (exT 1).fromInner (some (Mat.ofFn 2 2 fun i j => ((i : ℚ) + j)))) (by decide +kernel)
  obtain ⟨nC, h2⟩ := ok_of (x := (exD 1).fromInner (some ((Mat.ofFn 2 2 fun i j => ((i : ℚ) * j)).smul 3))) (by decide +kernel)
  obtain ⟨p, q, h⟩ := (C97_backward (l := { exL with H := none }) (HK := nK) (HC := nC) (mK' := nK) (mC' := nC) (oK := exV 1) (oC := exO 1) (X := fun i j => .fin ((i : ℚ) + j)) (g := fun i j => .fin ((i : ℚ) * j)) (m := 2) (m' := 2) 3 (by omega) (by omega) (exT_agree 1) (exD_agree 1) rfl rfl (fun i hi j hj => by simp [hi, hj]) rfl rfl
    (fun i hi j hj => by simp [hi, hj]) h1 h2).1 rfl
  exact ⟨p, q, nK, nC, h⟩

end Ov
