import Verif.Proofs.Norms

/-! Edge cases of earlier properties. -/

/-- **C11 (empty matrix).** The infinity norm of a well-formed matrix of dimension 0 raises `ValueError` (`max()` of an empty sequence),
whatever the class. -/
theorem C11_empty {α : Type} [Field α] [LinearOrder α] [IsStrictOrderedRing α] {c : Cls} {A : SM α} (hA : WF c 0 A) :
    A.infNorm = .error .valueError := by
  have P := partsOk hA
  have : A.parts.filter (fun l => l ≠ []) = [] := List.filter_eq_nil_iff.2 fun l hl => by
    have : l = [] := List.eq_nil_iff_forall_not_mem.2 fun x hx => by
      obtain ⟨i, hi, -⟩ := P.sub x (List.mem_flatten.2 ⟨l, hl, hx⟩)
      omega
    simp [this]
  rw [SM.infNorm, this]; rfl

example : WF .dense 0 (SM.dense (Mat.ofFn 0 0 fun _ _ => (0 : ℚ))) := by constructor <;> rfl
