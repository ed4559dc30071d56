import Verif.Proofs.Opt.Rep
import Mathlib.Data.Fin.Rev

/-! Classes that represent the same matrices, and classes that represent the same matrices read backwards. -/

set_option linter.unusedSectionVars false
open Finset Matrix IOProof Mat SM

/-- two classes represent the same `n × n` matrices -/
def Cls.Same (α : Type) [Field α] [LinearOrder α] [IsStrictOrderedRing α] (c c' : Cls) (n : ℕ) : Prop := ∀ A : Matrix (Fin n) (Fin n) α, c.Rep n A ↔ c'.Rep n A

variable {α : Type} [Field α] [LinearOrder α] [IsStrictOrderedRing α] {c c' c'' : Cls} {n : ℕ}

theorem Cls.same_of (h : ∀ f : ℕ → ℕ → α, c.RepF n f ↔ c'.RepF n f) : Cls.Same α c c' n := fun A => by rw [Cls.rep_iff, Cls.rep_iff, h]

theorem Cls.RepF.toRep {f : ℕ → ℕ → α} : c.RepF n f ↔ c.Rep n (Matrix.of fun i j : Fin n => f i j) := by
  rw [Cls.rep_iff]
  exact Cls.repF_congr fun i hi j hj => by simp [Mat.ofMatrix, Mat.get_ofFn, hi, hj]

theorem Cls.Same.repF (h : Cls.Same α c c' n) (f : ℕ → ℕ → α) : c.RepF n f ↔ c'.RepF n f := by
  rw [Cls.RepF.toRep, Cls.RepF.toRep, h]

theorem Cls.Same.symm (h : Cls.Same α c c' n) : Cls.Same α c' c n := fun A => (h A).symm
theorem Cls.Same.trans (h : Cls.Same α c c' n) (h' : Cls.Same α c' c'' n) : Cls.Same α c c'' n := fun A => (h A).trans (h' A)

theorem conjBy_id (A : Matrix (Fin n) (Fin n) α) : conjBy 1 A = A := by simp [conjBy]

theorem Cls.Same.alike (h : Cls.Same α c c' n) (hf : (c.IsBlock ↔ c'.IsBlock) ∨ ∀ A : Matrix (Fin n) (Fin n) α, c'.Rep n A → Aᵀ = A) :
    c.Alike c' n (1 : Matrix (Fin n) (Fin n) α) :=
  ⟨by simp, fun A => by rw [conjBy_id]; exact h A, hf⟩

/-- every class that exists at dimension 1 represents all 1 × 1 matrices -/
theorem repF_one : ∀ {c : Cls}, c.Supports 1 → ∀ f : ℕ → ℕ → α, c.RepF 1 f := by
  have zero : ∀ {c : Cls}, c.Supports 0 → ∀ f : ℕ → ℕ → α, c.RepF 0 f := by
    intro c hc f
    obtain ⟨⟨K, _, w, _⟩, _⟩ := C12_eye_zeros (α := α) hc
    exact ⟨K, w, by omega⟩
  intro c
  induction c with
  | dense => exact fun _ f => repF_dense 1 f
  | diagonal => exact fun _ f => repF_diagonal.2 (by omega)
  | block D => exact fun h f => (repF_block h).2 fun i hi j hj e => absurd (by rw [show i = j by omega]) e
  | hier m1 m2 =>
    intro _ f
    have hd : HierDims m1 m2 1 (min m1 1) (1 - min m1 1 - min m2 (1 - min m1 1)) (min m2 (1 - min m1 1)) := ⟨by omega, rfl, rfl⟩
    exact (repF_hier hd).2 fun i hi j hj e => absurd (Or.inr (Or.inl (by omega))) e
  | tril =>
    refine fun _ f => (repF_tril (by omega)).2 ⟨fun _ => f 0 0, fun i hi j hj => ?_⟩
    rw [if_pos (by omega), show i = 0 by omega, show j = 0 by omega]
  | triu =>
    refine fun _ f => (repF_triu (by omega)).2 ⟨fun _ => f 0 0, fun i hi j hj => ?_⟩
    rw [if_pos (by omega), show i = 0 by omega, show j = 0 by omega]
  | topRight x y ca cc iha ihc =>
    rintro ⟨b, hb, sa, sc⟩ f
    have hb1 := hb.le
    have hbb := hb
    rw [show 1 = b + (1 - b) by omega] at hbb
    rw [show 1 = b + (1 - b) by omega]
    rw [repF_topRight hbb]
    rcases Nat.lt_or_ge b 1 with h0 | h0
    · obtain rfl : b = 0 := by omega
      exact ⟨zero sa _, ihc sc _, by omega⟩
    · obtain rfl : b = 1 := by omega
      exact ⟨iha sa _, zero sc _, by omega⟩
  | bottomLeft x y ca cc iha ihc =>
    rintro ⟨b, hb, sa, sc⟩ f
    have hb1 := hb.le
    have hbb := hb
    rw [show 1 = b + (1 - b) by omega] at hbb
    rw [show 1 = b + (1 - b) by omega]
    rw [repF_bottomLeft hbb]
    rcases Nat.lt_or_ge b 1 with h0 | h0
    · obtain rfl : b = 0 := by omega
      exact ⟨zero sa _, ihc sc _, by omega⟩
    · obtain rfl : b = 1 := by omega
      exact ⟨iha sa _, zero sc _, by omega⟩

theorem Cls.same_one (h : c.Supports 1) (h' : c'.Supports 1) : Cls.Same α c c' 1 := Cls.same_of fun f => ⟨fun _ => repF_one h' f, fun _ => repF_one h f⟩

theorem hierDims (m1 m2 n : ℕ) : HierDims m1 m2 n (min m1 n) (n - min m1 n - min m2 (n - min m1 n)) (min m2 (n - min m1 n)) := ⟨by omega, rfl, rfl⟩

/-- blocks of size 1 are a diagonal -/
theorem Cls.same_block_one (n : ℕ) : Cls.Same α (.block 1) .diagonal n := Cls.same_of fun f => by
  rw [repF_block one_pos, repF_diagonal]; simp [Nat.div_one]

/-- a single block is dense -/
theorem Cls.same_block_dense {D : ℕ} (h : n ≤ D) (hD : 0 < D) : Cls.Same α (.block D) .dense n := Cls.same_of fun f => by
  rw [repF_block hD]
  refine iff_of_true (fun i hi j hj e => absurd ?_ e) (repF_dense n f)
  rw [Nat.div_eq_of_lt (by omega), Nat.div_eq_of_lt (by omega)]

/-- a hierarchical matrix without outer blocks is diagonal -/
theorem Cls.same_hier_zero (n : ℕ) : Cls.Same α (.hier 0 0) .diagonal n := Cls.same_of fun f => by
  rw [repF_hier (hierDims 0 0 n), repF_diagonal]
  refine forall_congr' fun i => imp_congr_right fun hi => forall_congr' fun j => imp_congr_right fun hj => ?_
  rw [show (¬ (i < min 0 n ∨ i = j ∨ min 0 n + (n - min 0 n - min 0 (n - min 0 n)) ≤ i ∧ min 0 n ≤ j)) ↔ i ≠ j by omega]

/-- a hierarchical matrix whose first block is everything is dense -/
theorem Cls.same_hier_dense {m1 m2 : ℕ} (h : n ≤ m1) : Cls.Same α (.hier m1 m2) .dense n := Cls.same_of fun f => by
  rw [repF_hier (hierDims m1 m2 n)]
  exact iff_of_true (fun i hi j hj e => absurd (Or.inl (by omega)) e) (repF_dense n f)

theorem repF_hier_rec {m1 m2 b d k : ℕ} (hb : b = min m1 (b + (d + k))) (hk : d = d + k - min m2 (d + k)) (f : ℕ → ℕ → α) :
    Cls.RepF (.hier m1 m2) (b + (d + k)) f ↔ Cls.RepF (.topRight (.int m1) .inf .dense (.bottomLeft .inf (.int m2) .diagonal .dense)) (b + (d + k)) f := by
  rw [repF_hier (show HierDims m1 m2 (b + (d + k)) b d k from ⟨by omega, hb, by omega⟩),
    repF_topRight (show RecBoundary (b + (d + k)) (.int m1) .inf b from hb), repF_bottomLeft (show RecBoundary (d + k) .inf (.int m2) d from hk), repF_diagonal]
  constructor
  · intro h
    exact ⟨repF_dense _ _, ⟨fun i hi j hj e => h _ (by omega) _ (by omega) (by omega), repF_dense _ _, fun i hi j hj => h _ (by omega) _ (by omega) (by omega)⟩,
      fun i hi j hj => h _ (by omega) _ (by omega) (by omega)⟩
  · rintro ⟨_, ⟨h1, _, h2⟩, h3⟩ i hi j hj e
    obtain ⟨i, rfl⟩ := Nat.exists_eq_add_of_le (show b ≤ i by omega)
    by_cases hjb : j < b
    · exact h3 i (by omega) j hjb
    · obtain ⟨j, rfl⟩ := Nat.exists_eq_add_of_le (show b ≤ j by omega)
      by_cases hjd : j < d
      · exact h1 i (by omega) j hjd (by omega)
      · obtain ⟨j, rfl⟩ := Nat.exists_eq_add_of_le (show d ≤ j by omega)
        exact h2 i (by omega) j (by omega)

/-- the hierarchical class as a recursive class -/
theorem Cls.same_hier_rec (m1 m2 n : ℕ) :
    Cls.Same α (.hier m1 m2) (.topRight (.int m1) .inf .dense (.bottomLeft .inf (.int m2) .diagonal .dense)) n := Cls.same_of fun f => by
  have hn : n = min m1 n + ((n - min m1 n - min m2 (n - min m1 n)) + min m2 (n - min m1 n)) := by omega
  rw [hn]
  exact repF_hier_rec (by omega) (by omega) f

/-! Mirror images -/

/-- the class of the matrices of `c` with rows and columns in reverse order (no class for blocks) -/
def Cls.mirror : Cls → Cls
  | .dense => .dense
  | .diagonal => .diagonal
  | .block D => .block D
  | .hier m1 m2 => .bottomLeft .inf (.int m1) (.topRight (.int m2) .inf .dense .diagonal) .dense
  | .tril => .triu
  | .triu => .tril
  | .topRight x y ca cc => .bottomLeft y x cc.mirror ca.mirror
  | .bottomLeft x y ca cc => .topRight y x cc.mirror ca.mirror

/-- no blocks of equal size -/
def Cls.NoBlock : Cls → Prop
  | .block _ => False
  | .topRight _ _ ca cc => ca.NoBlock ∧ cc.NoBlock
  | .bottomLeft _ _ ca cc => ca.NoBlock ∧ cc.NoBlock
  | _ => True

def flipF (n : ℕ) (f : ℕ → ℕ → α) (i j : ℕ) : α := f (n - 1 - i) (n - 1 - j)

/-- two recursive classes whose parts are mirrored -/
theorem repF_mirror_rec {x y : MaxDim} {ca cc da dc : Cls} {b e : ℕ} (hb : RecBoundary (b + e) x y b)
    (ha : ∀ f : ℕ → ℕ → α, da.RepF b (flipF b f) ↔ ca.RepF b f) (hc : ∀ f : ℕ → ℕ → α, dc.RepF e (flipF e f) ↔ cc.RepF e f) (f : ℕ → ℕ → α) :
    (Cls.RepF (.bottomLeft y x dc da) (b + e) (flipF (b + e) f) ↔ Cls.RepF (.topRight x y ca cc) (b + e) f) ∧
    (Cls.RepF (.topRight y x dc da) (b + e) (flipF (b + e) f) ↔ Cls.RepF (.bottomLeft x y ca cc) (b + e) f) := by
  have hb' := hb.swap
  have e1 : dc.RepF e (flipF (b + e) f) ↔ cc.RepF e (fun i j => f (b + i) (b + j)) := by
    rw [← hc]
    exact Cls.repF_congr fun i hi j hj => by
      simp only [flipF]; rw [show b + e - 1 - i = b + (e - 1 - i) by omega, show b + e - 1 - j = b + (e - 1 - j) by omega]
  have e2 : da.RepF b (fun i j => flipF (b + e) f (e + i) (e + j)) ↔ ca.RepF b f := by
    rw [← ha]
    exact Cls.repF_congr fun i hi j hj => by
      simp only [flipF]; rw [show b + e - 1 - (e + i) = b - 1 - i by omega, show b + e - 1 - (e + j) = b - 1 - j by omega]
  constructor
  · rw [repF_topRight hb, show b + e = e + b from add_comm b e, repF_bottomLeft hb', show e + b = b + e from add_comm e b, e1, e2]
    constructor
    · rintro ⟨h1, h2, h3⟩
      refine ⟨h2, h1, fun i hi j hj => ?_⟩
      have := h3 (e - 1 - i) (by omega) (b - 1 - j) (by omega)
      simp only [flipF] at this
      rwa [show b + e - 1 - (e - 1 - i) = b + i by omega, show b + e - 1 - (e + (b - 1 - j)) = j by omega] at this
    · rintro ⟨h1, h2, h3⟩
      refine ⟨h2, h1, fun i hi j hj => ?_⟩
      simp only [flipF]
      rw [show b + e - 1 - i = b + (e - 1 - i) by omega, show b + e - 1 - (e + j) = b - 1 - j by omega]
      exact h3 _ (by omega) _ (by omega)
  · rw [repF_bottomLeft hb, show b + e = e + b from add_comm b e, repF_topRight hb', show e + b = b + e from add_comm e b, e1, e2]
    constructor
    · rintro ⟨h1, h2, h3⟩
      refine ⟨h2, h1, fun i hi j hj => ?_⟩
      have := h3 (b - 1 - i) (by omega) (e - 1 - j) (by omega)
      simp only [flipF] at this
      rwa [show b + e - 1 - (e + (b - 1 - i)) = i by omega, show b + e - 1 - (e - 1 - j) = b + j by omega] at this
    · rintro ⟨h1, h2, h3⟩
      refine ⟨h2, h1, fun i hi j hj => ?_⟩
      simp only [flipF]
      rw [show b + e - 1 - (e + i) = b - 1 - i by omega, show b + e - 1 - j = b + (e - 1 - j) by omega]
      exact h3 _ (by omega) _ (by omega)

theorem repF_mirror_diag (n : ℕ) (f : ℕ → ℕ → α) : Cls.RepF .diagonal n (flipF n f) ↔ Cls.RepF .diagonal n f := by
  rw [repF_diagonal, repF_diagonal]
  constructor
  · intro h i hi j hj e
    have := h (n - 1 - i) (by omega) (n - 1 - j) (by omega) (by omega)
    simp only [flipF] at this
    rwa [show n - 1 - (n - 1 - i) = i by omega, show n - 1 - (n - 1 - j) = j by omega] at this
  · intro h i hi j hj e
    exact h _ (by omega) _ (by omega) (by omega)

theorem repF_mirror : ∀ {c : Cls} {n : ℕ}, c.NoBlock → c.Supports n → ∀ f : ℕ → ℕ → α, c.mirror.RepF n (flipF n f) ↔ c.RepF n f := by
  intro c
  induction c with
  | dense => exact fun _ _ f => iff_of_true (repF_dense _ _) (repF_dense _ _)
  | diagonal => exact fun _ _ f => repF_mirror_diag _ f
  | block D => exact fun h => h.elim
  | hier m1 m2 =>
    intro n _ _ f
    have hn : n = min m1 n + ((n - min m1 n - min m2 (n - min m1 n)) + min m2 (n - min m1 n)) := by omega
    rw [hn]
    rw [repF_hier_rec (by omega) (by omega) f]
    refine (repF_mirror_rec (by show _ = min _ _; omega) (fun f => iff_of_true (repF_dense _ _) (repF_dense _ _)) (fun f => ?_) f).1
    exact (repF_mirror_rec (by show _ = _ - min _ _; omega) (fun f => repF_mirror_diag _ f) (fun f => iff_of_true (repF_dense _ _) (repF_dense _ _)) f).2
  | tril =>
    intro n _ (hn : 0 < n) f
    rw [Cls.mirror, repF_triu hn, repF_tril hn]
    refine exists_congr fun t => ⟨fun h i hi j hj => ?_, fun h i hi j hj => ?_⟩
    · have := h (n - 1 - i) (by omega) (n - 1 - j) (by omega)
      simp only [flipF] at this
      rw [show n - 1 - (n - 1 - i) = i by omega, show n - 1 - (n - 1 - j) = j by omega] at this
      rw [this]
      by_cases e : j ≤ i
      · rw [if_pos e, if_pos (by omega), show n - 1 - j - (n - 1 - i) = i - j by omega]
      · rw [if_neg e, if_neg (by omega)]
    · simp only [flipF]
      rw [h _ (by omega) _ (by omega)]
      by_cases e : i ≤ j
      · rw [if_pos e, if_pos (by omega), show n - 1 - i - (n - 1 - j) = j - i by omega]
      · rw [if_neg e, if_neg (by omega)]
  | triu =>
    intro n _ (hn : 0 < n) f
    rw [Cls.mirror, repF_triu hn, repF_tril hn]
    refine exists_congr fun t => ⟨fun h i hi j hj => ?_, fun h i hi j hj => ?_⟩
    · have := h (n - 1 - i) (by omega) (n - 1 - j) (by omega)
      simp only [flipF] at this
      rw [show n - 1 - (n - 1 - i) = i by omega, show n - 1 - (n - 1 - j) = j by omega] at this
      rw [this]
      by_cases e : i ≤ j
      · rw [if_pos e, if_pos (by omega), show n - 1 - i - (n - 1 - j) = j - i by omega]
      · rw [if_neg e, if_neg (by omega)]
    · simp only [flipF]
      rw [h _ (by omega) _ (by omega)]
      by_cases e : j ≤ i
      · rw [if_pos e, if_pos (by omega), show n - 1 - j - (n - 1 - i) = i - j by omega]
      · rw [if_neg e, if_neg (by omega)]
  | topRight x y ca cc iha ihc =>
    rintro n ⟨ba, bc⟩ ⟨b, hb, sa, sc⟩ f
    obtain ⟨e, rfl⟩ := Nat.exists_eq_add_of_le hb.le
    rw [Nat.add_sub_cancel_left] at sc
    exact (repF_mirror_rec hb (iha ba sa) (ihc bc sc) f).1
  | bottomLeft x y ca cc iha ihc =>
    rintro n ⟨ba, bc⟩ ⟨b, hb, sa, sc⟩ f
    obtain ⟨e, rfl⟩ := Nat.exists_eq_add_of_le hb.le
    rw [Nat.add_sub_cancel_left] at sc
    exact (repF_mirror_rec hb (iha ba sa) (ihc bc sc) f).2

/-- the permutation that reverses the order -/
def revMat (n : ℕ) : Matrix (Fin n) (Fin n) α := fun i j => if j = i.rev then 1 else 0

theorem revMat_conj (A : Matrix (Fin n) (Fin n) α) (i j : Fin n) : conjBy (revMat n) A i j = A i.rev j.rev := by
  have e : ∀ (B : Matrix (Fin n) (Fin n) α) (i j : Fin n), (B * (revMat n : Matrix (Fin n) (Fin n) α)) i j = B i j.rev := fun B i j => by
    simp only [Matrix.mul_apply, revMat]
    rw [Finset.sum_eq_single j.rev]
    · simp
    · intro k _ hk
      rw [if_neg (fun h => hk (by rw [h, Fin.rev_rev])), mul_zero]
    · simp
  have e2 : ∀ (B : Matrix (Fin n) (Fin n) α) (i j : Fin n), ((revMat n : Matrix (Fin n) (Fin n) α)ᵀ * B) i j = B i.rev j := fun B i j => by
    have := e Bᵀ j i
    rw [show (revMat n : Matrix (Fin n) (Fin n) α)ᵀ * B = (Bᵀ * revMat n)ᵀ by rw [Matrix.transpose_mul, Matrix.transpose_transpose]]
    exact this
  rw [conjBy, e, e2]

theorem revMat_orth (n : ℕ) : (revMat n : Matrix (Fin n) (Fin n) α)ᵀ * revMat n = 1 := by
  have := revMat_conj (α := α) (n := n) 1
  rw [show conjBy (revMat n) (1 : Matrix (Fin n) (Fin n) α) = (revMat n)ᵀ * revMat n by simp [conjBy]] at this
  funext i j
  rw [this, Matrix.one_apply, Matrix.one_apply]
  congr 1
  exact propext Fin.rev_inj

theorem mirror_isBlock (h : c.NoBlock) : c.mirror.IsBlock ↔ c.IsBlock := by
  cases c <;> first | exact h.elim | exact Iff.rfl

/-- the mirrored class represents the matrices of the class read backwards -/
theorem Cls.mirror_alike (hb : c.NoBlock) (hs : c.Supports n) : c.mirror.Alike c n (revMat n : Matrix (Fin n) (Fin n) α) := by
  refine ⟨revMat_orth n, fun A => ?_, .inl (mirror_isBlock hb)⟩
  rw [Cls.rep_iff, Cls.rep_iff, ← repF_mirror hb hs]
  refine Cls.repF_congr fun i hi j hj => ?_
  simp only [flipF, Mat.ofMatrix, Mat.get_ofFn, hi, hj, and_self, show n - 1 - i < n by omega, show n - 1 - j < n by omega, dite_true, if_true]
  rw [revMat_conj]
  congr 1 <;> ext <;> simp only [Fin.val_rev] <;> omega

theorem mirror_supports : ∀ {c : Cls} {n : ℕ}, c.NoBlock → c.Supports n → c.mirror.Supports n := by
  intro c
  induction c with
  | dense => exact fun _ _ => trivial
  | diagonal => exact fun _ _ => trivial
  | block D => exact fun h => h.elim
  | hier m1 m2 =>
    intro n _ _
    exact ⟨n - min m1 n, rfl, ⟨min m2 (n - min m1 n), rfl, trivial, trivial⟩, trivial⟩
  | tril => exact fun _ h => h
  | triu => exact fun _ h => h
  | topRight x y ca cc iha ihc | bottomLeft x y ca cc iha ihc =>
    rintro n ⟨ba, bc⟩ ⟨b, hb, sa, sc⟩
    obtain ⟨e, rfl⟩ := Nat.exists_eq_add_of_le hb.le
    rw [Nat.add_sub_cancel_left] at sc
    refine ⟨e, by rw [add_comm]; exact hb.swap, ihc bc sc, ?_⟩
    rw [Nat.add_sub_cancel]
    exact iha ba sa
