import Verif.Props.Dtype

/-! C74: structured matrices whose tensors have different types. The constructors do not compare types, so such objects exist. -/

namespace Dt

/-- number of digits of the significand and of the exponent of a floating point type (IEEE 754 and bfloat16) -/
def format : DType → ℕ × ℕ
  | .float16 => (11, 5)
  | .bfloat16 => (8, 8)
  | .float32 => (24, 8)
  | .float64 => (53, 11)
  | .other _ => (0, 0)

/-- all numbers of type `a` are numbers of type `b` -/
def Embeds (a b : DType) : Prop := (format a).1 ≤ (format b).1 ∧ (format a).2 ≤ (format b).2

instance (a b : DType) : Decidable (Embeds a b) := by unfold Embeds; infer_instance

/-- `d` is the smallest floating point type with all numbers of the types in `l` -/
def Smallest (l : List DType) (d : DType) : Prop := Floating d ∧ (∀ x ∈ l, Embeds x d) ∧ ∀ e, Floating e → (∀ x ∈ l, Embeds x e) → Embeds d e

/-- the tensors of a structured matrix that decide the type of the dense matrix: the one that `to_dense` allocates with -/
def TM.leading : TM → List DType
  | .dense d => [d]
  | .diagonal d => [d]
  | .block _ b _ => [b]
  | .hier _ _ A _ _ _ _ => [A]
  | .tril d => [d]
  | .triu d => [d]
  | .topRight _ _ _ _ A _ C => A.leading ++ C.leading
  | .bottomLeft _ _ _ _ A _ C => A.leading ++ C.leading

/-- the pairs (type of `A`, type of `C`) of the hierarchical matrices inside -/
def TM.pairs : TM → List (DType × DType)
  | .hier _ _ A _ C _ _ => [(A, C)]
  | .topRight _ _ _ _ A _ C => A.pairs ++ C.pairs
  | .bottomLeft _ _ _ _ A _ C => A.pairs ++ C.pairs
  | _ => []

theorem embeds_refl (a : DType) : Embeds a a := ⟨le_rfl, le_rfl⟩
theorem embeds_trans {a b c : DType} (h : Embeds a b) (k : Embeds b c) : Embeds a c := ⟨h.1.trans k.1, h.2.trans k.2⟩

theorem floating_cases {d : DType} (h : Floating d) : d = .float16 ∨ d = .bfloat16 ∨ d = .float32 ∨ d = .float64 := by
  unfold Floating Low at h
  tauto

/-- **Type promotion** gives the smallest type that has all numbers of both operands. -/
theorem C74_promote (a b : DType) (ha : Floating a) (hb : Floating b) : Smallest [a, b] (promote a b) := by
  have key : Floating (promote a b) ∧ Embeds a (promote a b) ∧ Embeds b (promote a b) ∧
      ∀ e, Floating e → Embeds a e → Embeds b e → Embeds (promote a b) e := by
    rcases floating_cases ha with rfl | rfl | rfl | rfl <;> rcases floating_cases hb with rfl | rfl | rfl | rfl <;>
      refine ⟨by decide, by decide, by decide, fun e he => ?_⟩ <;>
      rcases floating_cases he with rfl | rfl | rfl | rfl <;> decide
  refine ⟨key.1, ?_, fun e he h => key.2.2.2 e he (h a (by simp)) (h b (by simp))⟩
  intro x hx
  rcases List.mem_cons.mp hx with rfl | hx
  · exact key.2.1
  · rw [List.mem_singleton] at hx
    exact hx ▸ key.2.2.1

/-- `float16` and `bfloat16` are not comparable: neither is converted to the other -/
example : Smallest [.float16, .bfloat16] .float32 := C74_promote .float16 .bfloat16 (by decide) (by decide)

/-- the smallest type is unique -/
theorem smallest_unique {l : List DType} {d e : DType} (h : Smallest l d) (k : Smallest l e) : d = e := by
  have h1 := h.2.2 e k.1 k.2.1
  have h2 := k.2.2 d h.1 h.2.1
  rcases floating_cases h.1 with rfl | rfl | rfl | rfl <;> rcases floating_cases k.1 with rfl | rfl | rfl | rfl <;> first | rfl | (revert h1 h2; decide)

theorem smallest_append {l m : List DType} {d e : DType} (h : Smallest l d) (k : Smallest m e) : Smallest (l ++ m) (promote d e) := by
  have p := C74_promote d e h.1 k.1
  refine ⟨p.1, ?_, ?_⟩
  · intro x hx
    rcases List.mem_append.mp hx with hx | hx
    · exact embeds_trans (h.2.1 x hx) (p.2.1 d (by simp))
    · exact embeds_trans (k.2.1 x hx) (p.2.1 e (by simp))
  · intro f hf hx
    refine p.2.2 f hf ?_
    intro x hx'
    rcases List.mem_cons.mp hx' with rfl | hx'
    · exact h.2.2 f hf fun x hx' => hx x (List.mem_append_left _ hx')
    · rw [List.mem_singleton] at hx'
      subst hx'
      exact k.2.2 f hf fun x hx' => hx x (List.mem_append_right _ hx')

theorem smallest_one {d : DType} (h : Floating d) : Smallest [d] d :=
  ⟨h, fun x hx => by rw [List.mem_singleton] at hx; exact hx ▸ embeds_refl _, fun _ _ k => k d (by simp)⟩

/-- **The type of `to_dense`.** It raises (a `RuntimeError`) iff a hierarchical matrix inside has tensors `A` and `C` of different types. Otherwise the type of the dense
matrix is the smallest type for the leading tensors of the diagonal blocks; the types of all other tensors (`B`, `D`, `E`, the last block, the off-diagonal block
of a recursive matrix) have no influence, their entries are converted. -/
theorem C74_to_dense (K : TM) (hf : ∀ d ∈ K.leading, Floating d) :
    ((∃ p ∈ K.pairs, p.1 ≠ p.2) ∧ K.toDense = .error .runtimeError) ∨
    ((∀ p ∈ K.pairs, p.1 = p.2) ∧ ∃ d, K.toDense = .ok d ∧ Smallest K.leading d) := by
  induction K with
  | dense d => exact .inr ⟨by simp [TM.pairs], d, rfl, smallest_one (hf d (by simp [TM.leading]))⟩
  | diagonal d => exact .inr ⟨by simp [TM.pairs], d, rfl, smallest_one (hf d (by simp [TM.leading]))⟩
  | block D b l => exact .inr ⟨by simp [TM.pairs], b, rfl, smallest_one (hf b (by simp [TM.leading]))⟩
  | tril d => exact .inr ⟨by simp [TM.pairs], d, by simp [TM.toDense, indexPut], smallest_one (hf d (by simp [TM.leading]))⟩
  | triu d => exact .inr ⟨by simp [TM.pairs], d, by simp [TM.toDense, indexPut], smallest_one (hf d (by simp [TM.leading]))⟩
  | hier a b A B C D E =>
    by_cases h : A = C
    · subst h
      exact .inr ⟨by simp [TM.pairs], A, by simp [TM.toDense, indexPut], smallest_one (hf A (by simp [TM.leading]))⟩
    · exact .inl ⟨⟨(A, C), by simp [TM.pairs], h⟩, by simp [TM.toDense, indexPut, h]⟩
  | topRight a c cA cC A B C iA iC =>
    have fA := iA fun d h => hf d (by simp [TM.leading, h])
    have fC := iC fun d h => hf d (by simp [TM.leading, h])
    rcases fA with ⟨⟨p, hp, hne⟩, e⟩ | ⟨pA, d, e, s⟩
    · exact .inl ⟨⟨p, by simp [TM.pairs, hp], hne⟩, by simp only [TM.toDense, e]; rfl⟩
    · rcases fC with ⟨⟨p, hp, hne⟩, e'⟩ | ⟨pC, d', e', s'⟩
      · exact .inl ⟨⟨p, by simp [TM.pairs, hp], hne⟩, by simp only [TM.toDense, e, e']; rfl⟩
      · refine .inr ⟨fun p hp => ?_, promote d d', by simp only [TM.toDense, e, e']; rfl, smallest_append s s'⟩
        rcases List.mem_append.mp hp with hp | hp
        · exact pA p hp
        · exact pC p hp
  | bottomLeft a c cA cC A B C iA iC =>
    have fA := iA fun d h => hf d (by simp [TM.leading, h])
    have fC := iC fun d h => hf d (by simp [TM.leading, h])
    rcases fA with ⟨⟨p, hp, hne⟩, e⟩ | ⟨pA, d, e, s⟩
    · exact .inl ⟨⟨p, by simp [TM.pairs, hp], hne⟩, by simp only [TM.toDense, e]; rfl⟩
    · rcases fC with ⟨⟨p, hp, hne⟩, e'⟩ | ⟨pC, d', e', s'⟩
      · exact .inl ⟨⟨p, by simp [TM.pairs, hp], hne⟩, by simp only [TM.toDense, e, e']; rfl⟩
      · refine .inr ⟨fun p hp => ?_, promote d d', by simp only [TM.toDense, e, e']; rfl, smallest_append s s'⟩
        rcases List.mem_append.mp hp with hp | hp
        · exact pA p hp
        · exact pC p hp

/-- a recursive matrix of a `bfloat16` and a `float16` part with a `float64` off-diagonal block: the dense matrix is `float32` -/
def mixed : TM := .topRight (.int 2) .inf .dense .diagonal (.dense .bfloat16) .float64 (.diagonal .float16)

example : (∀ d ∈ mixed.leading, Floating d) ∧ mixed.toDense = .ok .float32 ∧
    (TM.hier 1 1 .float32 .float32 .bfloat16 .float32 .float32).toDense = .error .runtimeError := by decide

/-- **Consequence: `to_dense` can lose precision** of a block that a product of the parts would keep: the type of the dense matrix does not have all
numbers of the off-diagonal block's type. -/
theorem C74_to_dense_loses : ∃ (K : TM) (B d : DType), K = .topRight (.int 2) .inf .dense .diagonal (.dense .bfloat16) B (.diagonal .float16) ∧ Floating B ∧
    K.toDense = .ok d ∧ ¬ Embeds B d := ⟨mixed, .float64, .float32, rfl, by decide, by decide, by decide⟩

theorem bind_err {β γ : Type} (e : PyErr) (f : β → Except PyErr γ) : (Except.error e >>= f) = .error e := rfl
theorem ok_bind {β γ : Type} (b : β) (f : β → Except PyErr γ) : (Except.ok b >>= f) = f b := rfl
theorem pure_ok {β : Type} (b : β) : (pure b : Except PyErr β) = .ok b := rfl

/-- the only exceptions are `RuntimeError`s -/
def Rt {β : Type} (x : Except PyErr β) : Prop := ∀ e, x = .error e → e = .runtimeError

theorem rt_bind {β γ : Type} {x : Except PyErr β} {f : β → Except PyErr γ} (h : Rt x) (k : ∀ b, Rt (f b)) : Rt (x >>= f) := by
  intro e he
  rcases x with e' | b
  · exact h e (by cases he; rfl)
  · exact k b e he

/-- **Products of hierarchical matrices with a tensor.** `self @ X` works iff all matrices have the tensor's type, and the diagonal, too, if `einsum` insists on it; the
result has the type that holds both. -/
theorem C74_hier_matmul (τ : Bool) (a b : ℕ) (A B C D E x : DType) : (TM.hier a b A B C D E).matmulT τ x =
    if (A = x ∧ B = x ∧ D = x ∧ E = x) ∧ (τ = true → C = x) then .ok (promote x C) else .error .runtimeError := by
  by_cases hA : A = x
  swap
  · simp [TM.matmulT, mm, hA, bind_err]
  by_cases hB : B = x
  swap
  · simp [TM.matmulT, mm, hA, hB, bind_err, ok_bind]
  by_cases hD : D = x
  swap
  · by_cases hC : τ = true ∧ C ≠ x <;> simp [TM.matmulT, mm, ein, hA, hB, hC, bind_err, ok_bind, *]
  by_cases hE : E = x
  swap
  · by_cases hC : τ = true ∧ C ≠ x <;> simp [TM.matmulT, mm, ein, hA, hB, hC, bind_err, ok_bind, *]
  subst hA hB hD
  subst hE
  have hp : promote E (promote C E) = promote E C := by
    cases E <;> cases C <;> simp [promote] <;> (try split_ifs) <;> simp_all
  have hp2 : promote (promote E C) E = promote E C := by
    cases E <;> cases C <;> simp [promote] <;> (try split_ifs) <;> simp_all
  cases τ
  · simp [TM.matmulT, mm, ein, ok_bind, pure_ok, promote_self, hp, hp2]
  · by_cases hC : C = E
    · subst hC
      simp [TM.matmulT, mm, ein, ok_bind, pure_ok, promote_self]
    · simp [TM.matmulT, mm, ein, ok_bind, bind_err, promote_self, hC]

/-- **Transposed products of hierarchical matrices.** The checks come in the order of the code: `A`, then `lowest_precision`, then the other matrices. The diagonal is
converted to the lower of the two precisions and back, so here its type never leads to a `RuntimeError`, whatever `einsum` does. -/
theorem C74_hier_rmatmat (τ : Bool) (a b : ℕ) (A B C D E x : DType) : (TM.hier a b A B C D E).rmatmat τ x =
    if A ≠ x then .error .runtimeError else if ¬ (Low C ∧ Low x) then .error .notImplementedError
    else if B = x ∧ D = x ∧ E = x then .ok (promote x C) else .error .runtimeError := by
  by_cases hA : A = x
  swap
  · simp [TM.rmatmat, mm, hA, bind_err]
  by_cases hL : Low C ∧ Low x
  swap
  · simp only [TM.rmatmat, mm, hA, lowest_err hL, if_true, ok_bind, bind_err]
    simp [hL]
  obtain ⟨c, hc⟩ := lowest_ok hL.1 hL.2
  subst hA
  have hp : promote (promote A C) A = promote A C := by
    cases A <;> cases C <;> simp [promote] <;> (try split_ifs) <;> simp_all
  have hp2 : promote A (promote A C) = promote A C := promote_idem A C
  by_cases hB : B = A
  swap
  · simp [TM.rmatmat, mm, hc, hB, hL, bind_err, ok_bind]
  subst hB
  by_cases hD : D = B
  swap
  · simp [TM.rmatmat, mm, hc, hD, hL, bind_err, ok_bind, castTo, ein]
  subst hD
  by_cases hE : E = D
  swap
  · simp [TM.rmatmat, mm, hc, hE, hL, bind_err, ok_bind, castTo, ein]
  subst hE
  simp [TM.rmatmat, mm, hc, hL, ok_bind, pure_ok, castTo, ein, promote_self, hp, hp2]

/-- **`from_inner()` of a hierarchical matrix** works iff `A` and `B` have the same type and so do `D` and `E`; the diagonal may have any type. -/
theorem C74_hier_from_inner (a b : ℕ) (A B C D E : DType) : (TM.hier a b A B C D E).fromInner0 =
    if A = B ∧ E = D then .ok (.hier a b A A (promote (promote C B) D) (promote B D) (promote D B)) else .error .runtimeError := by
  by_cases hB : A = B
  swap
  · simp [TM.fromInner0, mm, hB, ok_bind, bind_err]
  by_cases hE : E = D
  swap
  · simp [TM.fromInner0, mm, hB, hE, ok_bind, bind_err]
  subst hB hE
  simp [TM.fromInner0, mm, ok_bind, pure_ok]

/-- **Products of two hierarchical matrices** work iff the types on both sides agree as the code multiplies them: `A`, `A'`, `B'` among each other and `B`, `E`, `D'`, `E'` among each
other (and `B`, `D`, `C'` if `einsum` insists on it). The two families may differ. -/
theorem C74_hier_product (τ : Bool) (a b a' b' : ℕ) (A B C D E A' B' C' D' E' : DType) :
    (TM.hier a b A B C D E).matmulS τ (.hier a' b' A' B' C' D' E') =
    if (A' = A ∧ B' = A) ∧ (E = B ∧ D' = B ∧ E' = B) ∧ (τ = true → D = C' ∧ B = C') then
      .ok (.hier a b A (promote (promote (promote A (promote B C')) B) (promote A B)) (promote C C') (promote (promote D C') B) B)
    else .error .runtimeError := by
  by_cases h : (A' = A ∧ B' = A) ∧ (E = B ∧ D' = B ∧ E' = B) ∧ (τ = true → D = C' ∧ B = C')
  · rw [if_pos h]
    obtain ⟨⟨rfl, rfl⟩, ⟨rfl, rfl, rfl⟩, h⟩ := h
    cases τ
    · simp [TM.matmulS, mm, ein, ok_bind, pure_ok]
    · obtain ⟨rfl, rfl⟩ := h rfl
      simp [TM.matmulS, mm, ein, ok_bind, pure_ok]
  · rw [if_neg h]
    have key : ∀ r, (TM.hier a b A B C D E).matmulS τ (.hier a' b' A' B' C' D' E') ≠ .ok r := by
      intro r hr
      apply h
      simp only [TM.matmulS, mm, ein] at hr
      by_cases h1 : A = A'
      swap
      · simp [h1, bind_err] at hr
      by_cases h2 : E = E'
      swap
      · simp [h1, h2, ok_bind, bind_err] at hr
      by_cases h3 : τ = true ∧ D ≠ C'
      · simp [h1, h2, h3.1, h3.2, ok_bind, bind_err] at hr
      by_cases h4 : E = D'
      swap
      · simp_all [ok_bind, bind_err]
      by_cases h5 : A = B'
      swap
      · simp_all [ok_bind, bind_err]
      by_cases h6 : τ = true ∧ B ≠ C'
      · simp_all [ok_bind, bind_err]
      by_cases h7 : B = D'
      swap
      · simp_all [ok_bind, bind_err]
      subst h1 h2 h4 h5 h7
      simp_all
    have kind : ∀ e, (TM.hier a b A B C D E).matmulS τ (.hier a' b' A' B' C' D' E') = .error e → e = .runtimeError := by
      have hm : ∀ x y, Rt (mm x y) := fun x y e he => by unfold mm at he; split at he <;> cases he; rfl
      have he : ∀ x y, Rt (ein τ x y) := fun x y e he => by unfold ein at he; split at he <;> cases he; rfl
      refine rt_bind (hm _ _) fun _ => rt_bind (hm _ _) fun _ => rt_bind (he _ _) fun _ => rt_bind (hm _ _) fun _ => rt_bind (hm _ _) fun _ =>
        rt_bind (he _ _) fun _ => rt_bind (hm _ _) fun _ => rt_bind (hm _ _) fun _ => rt_bind (hm _ _) fun _ => ?_
      intro e he
      cases he
    rcases hr : (TM.hier a b A B C D E).matmulS τ (.hier a' b' A' B' C' D' E') with e | r
    · rw [kind e hr]
    · exact absurd hr (key r)

/-- **Block-diagonal matrices** multiply a tensor of any low precision type; the last block may have another type than the stack, the result holds both. With a type that
`lowest_precision` does not know the product raises, even where all types agree. -/
theorem C74_block_matmul (τ : Bool) (D : ℕ) (b l x : DType) : (TM.block D b l).matmulT τ x =
    if Low b ∧ Low l ∧ Low x then .ok (promote b l) else .error .notImplementedError := by
  by_cases h1 : Low b ∧ Low x
  swap
  · have : ¬ (Low b ∧ Low l ∧ Low x) := fun h => h1 ⟨h.1, h.2.2⟩
    rw [if_neg this]
    simp only [TM.matmulT, TM.blockMatmul, lowest_err h1, bind_err]
  by_cases h2 : Low l ∧ Low x
  swap
  · have : ¬ (Low b ∧ Low l ∧ Low x) := fun h => h2 ⟨h.2.1, h.2.2⟩
    rw [if_neg this]
    obtain ⟨c, hc⟩ := lowest_ok h1.1 h1.2
    simp [TM.matmulT, TM.blockMatmul, hc, mm, castTo, lowest_err h2, bind_err, ok_bind]
  obtain ⟨c, hc⟩ := lowest_ok h1.1 h1.2
  obtain ⟨c', hc'⟩ := lowest_ok h2.1 h2.2
  rw [if_pos ⟨h1.1, h2⟩]
  simp [TM.matmulT, TM.blockMatmul, hc, hc', mm, castTo, ok_bind, pure_ok]

/-- products that work although the types differ, and products that do not -/
example : (TM.hier 1 1 .float32 .float32 .float16 .float32 .float32).matmulT false .float32 = .ok .float32 ∧
    (TM.hier 1 1 .float32 .float32 .float16 .float32 .float32).matmulT true .float32 = .error .runtimeError ∧
    (TM.hier 1 1 .float32 .float32 .float16 .float32 .float32).rmatmat true .float32 = .ok .float32 ∧
    (TM.hier 1 1 .float64 .float64 .float64 .float64 .float64).rmatmat true .float64 = .error .notImplementedError ∧
    (TM.hier 1 1 .float32 .float32 .float16 .float16 .float16).fromInner0 = .ok (.hier 1 1 .float32 .float32 .float32 .float32 .float32) ∧
    (TM.hier 1 1 .float32 .float16 .float64 .float16 .float16).matmulS false (.hier 1 1 .float32 .float32 .float16 .float16 .float16) =
      .ok (.hier 1 1 .float32 .float32 .float64 .float16 .float16) ∧
    (TM.block 2 .float16 .bfloat16).matmulT true .float16 = .ok .float32 ∧
    (TM.block 2 .float64 .float64).matmulT true .float64 = .error .notImplementedError := by decide

end Dt
