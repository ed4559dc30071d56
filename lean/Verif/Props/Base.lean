import Verif.Model.Base
import Verif.Props.Structured

/-! C68: what the methods of the base class need of a class written by a user. -/

set_option linter.unusedSectionVars false
open Matrix Finset

variable {α : Type} [Field α]

namespace UserClass

/-- the matrix an object represents -/
def den (c : UserClass α) (n : ℕ) (A : c.Inst) : Matrix (Fin n) (Fin n) α := (c.toDense A).M n n

/-- the call succeeds with a valid object that represents `X` -/
def Gives (c : UserClass α) (n : ℕ) (V : c.Inst → Prop) (r : Except PyErr c.Inst) (X : Matrix (Fin n) (Fin n) α) : Prop :=
  ∃ P, r = .ok P ∧ V P ∧ c.den n P = X

/-- objects satisfying `V` have dense versions of dimension `n` -/
def Square (c : UserClass α) (n : ℕ) (V : c.Inst → Prop) : Prop := ∀ A, V A → (c.toDense A).rows = n ∧ (c.toDense A).cols = n

/-- What the base class relies on: the represented matrices are closed under addition, multiplication and scaling and contain the identity (and zero),
and `from_dense` inverts `to_dense` - for all matrices of the structure, symmetric or not. -/
structure Contract (c : UserClass α) (n : ℕ) (V : c.Inst → Prop) : Prop where
  retract : ∀ A, V A → c.Gives n V (c.fromDense (c.toDense A)) (c.den n A)
  mul : ∀ A B, V A → V B → ∃ P, V P ∧ c.den n P = c.den n A * c.den n B
  add : ∀ A B, V A → V B → ∃ P, V P ∧ c.den n P = c.den n A + c.den n B
  smul : ∀ A (s : α), V A → ∃ P, V P ∧ c.den n P = s • c.den n A
  one : ∃ P, V P ∧ c.den n P = 1
  zero : ∃ P, V P ∧ c.den n P = 0

/-- The methods that make new objects are exact. -/
structure Exact (c : UserClass α) (n : ℕ) (V : c.Inst → Prop) : Prop where
  matmul : ∀ A B, V A → V B → c.Gives n V (c.matmulS A B) (c.den n A * c.den n B)
  add : ∀ A B, V A → V B → c.Gives n V (c.add A B) (c.den n A + c.den n B)
  smul : ∀ A (s : α), V A → c.Gives n V (c.smul A s) (s • c.den n A)
  diagAdd : ∀ A (s : α), V A → c.Gives n V (c.diagAdd A s) (c.den n A + s • 1)
  eye : c.Gives n V (c.eye n) 1
  zeros : c.Gives n V (c.zeros n) 0

/-- Every entry of the represented matrix is zero or a fixed entry of the registered tensors (as enumerated by `flat`), every entry of these is used, and the shapes of the
tensors depend on the dimension only. -/
structure Layout (c : UserClass α) (n : ℕ) (V : c.Inst → Prop) (N : ℕ) (pos : Fin n → Fin n → Option (Fin N)) : Prop where
  lens : ∀ A B, V A → V B → (c.tensors A).map Vec.len = (c.tensors B).map Vec.len
  total : ∀ A, V A → (((c.tensors A).map Vec.toList).flatten).length = N
  entry : ∀ A, V A → ∀ i j, c.den n A i j = ((pos i j).map fun p : Fin N => (((c.tensors A).map Vec.toList).flatten).getD p.val 0).getD 0
  onto : ∀ p, ∃ i j, pos i j = some p
  put : ∀ A ts, V A → ts.map Vec.len = (c.tensors A).map Vec.len → V (c.put A ts) ∧ c.tensors (c.put A ts) = ts

end UserClass

/-! ## Methods that make new objects -/

section
variable {c : UserClass α} {n : ℕ} {V : c.Inst → Prop}

theorem UserClass.Contract.of_den (h : c.Contract n V) (hs : c.Square n V) {M : Mat α} (hr : M.rows = n) (hc : M.cols = n) {P : c.Inst} (hP : V P) (e : c.den n P = M.M n n) :
    c.Gives n V (c.fromDense M) (M.M n n) := by
  have : M = c.toDense P := (Mat.M_inj (hs P hP) ⟨hr, hc⟩ e).symm
  rw [this]
  exact h.retract P hP

/-- **C68 (new objects).** The methods of the base class that make new objects (`@`, `+`, `*`, `diag_add_`, `eye`, `zeros`) are exact if and only if the class keeps the
contract: closed under the operations, and `from_dense` inverts `to_dense`, also for matrices that are not symmetric (the documentation of `from_dense` asks for symmetric ones
only). -/
theorem C68_contract_iff (hs : c.Square n V) : c.Exact n V ↔ c.Contract n V := by
  constructor
  · intro h
    refine ⟨fun A hA => ?_, fun A B hA hB => ?_, fun A B hA hB => ?_, fun A s hA => ?_, ?_, ?_⟩
    · have := h.smul A 1 hA
      rw [one_smul, UserClass.smul, show (c.toDense A).smul 1 = c.toDense A from Mat.ext' rfl rfl (by simp)] at this
      exact this
    · obtain ⟨P, -, hP, e⟩ := h.matmul A B hA hB
      exact ⟨P, hP, e⟩
    · obtain ⟨P, -, hP, e⟩ := h.add A B hA hB
      exact ⟨P, hP, e⟩
    · obtain ⟨P, -, hP, e⟩ := h.smul A s hA
      exact ⟨P, hP, e⟩
    · obtain ⟨P, -, hP, e⟩ := h.eye
      exact ⟨P, hP, e⟩
    · obtain ⟨P, -, hP, e⟩ := h.zeros
      exact ⟨P, hP, e⟩
  · intro h
    refine ⟨fun A B hA hB => ?_, fun A B hA hB => ?_, fun A s hA => ?_, fun A s hA => ?_, ?_, ?_⟩
    · obtain ⟨P, hP, e⟩ := h.mul A B hA hB
      have hM : ((c.toDense A).mul (c.toDense B)).M n n = c.den n A * c.den n B := Mat.M_mul' (hs A hA).2
      unfold UserClass.matmulS
      rw [Mat.matmul_ok ((hs A hA).2.trans (hs B hB).1.symm), Except.bind_ok', ← hM]
      exact h.of_den hs (hs A hA).1 (hs B hB).2 hP (e.trans hM.symm)
    · obtain ⟨P, hP, e⟩ := h.add A B hA hB
      have hr := (hs A hA).1.trans (hs B hB).1.symm
      have hc := (hs A hA).2.trans (hs B hB).2.symm
      have hM : ((c.toDense A).add (c.toDense B)).M n n = c.den n A + c.den n B := Mat.M_add hr hc
      unfold UserClass.add
      rw [Mat.add?_ok hr hc, Except.bind_ok', ← hM]
      exact h.of_den hs (hs A hA).1 (hs A hA).2 hP (e.trans hM.symm)
    · obtain ⟨P, hP, e⟩ := h.smul A s hA
      have hM : ((c.toDense A).smul s).M n n = s • c.den n A := Mat.M_smul _ s
      unfold UserClass.smul
      rw [← hM]
      exact h.of_den hs (hs A hA).1 (hs A hA).2 hP (e.trans hM.symm)
    · obtain ⟨I, hI, eI⟩ := h.one
      obtain ⟨J, hJ, eJ⟩ := h.smul I s hI
      obtain ⟨P, hP, e⟩ := h.add A J hA hJ
      have hM : ((c.toDense A).diagAdd s).M n n = c.den n A + s • 1 := Mat.M_diagAdd _ (hs A hA).1 (hs A hA).2 s
      unfold UserClass.diagAdd
      rw [utilsDiagAdd, if_neg (not_not.2 ((hs A hA).1.trans (hs A hA).2.symm)), Except.bind_ok', ← hM]
      exact h.of_den hs (hs A hA).1 (hs A hA).2 hP (by rw [e, eJ, eI, hM])
    · obtain ⟨P, hP, e⟩ := h.one
      have := h.of_den hs (M := Mat.eye n) rfl rfl hP (by rw [e, Mat.M_eye])
      rwa [Mat.M_eye] at this
    · obtain ⟨P, hP, e⟩ := h.zero
      have := h.of_den hs (M := Mat.zeros n n) rfl rfl hP (by rw [e, Mat.M_zeros])
      rwa [Mat.M_zeros] at this

/-- **C68 (numbers and tensors).** The methods of the base class that return tensors or numbers computed from `to_dense` are exact for every class, and `from_inner`, `from_mat_inner`
and `from_inner2` call `from_dense` with `Aᵀ X Xᵀ A`, `X Xᵀ` and `Aᵀ Y A`. -/
theorem C68_dense_methods [LinearOrder α] [IsStrictOrderedRing α] [LawfulSqrt α] (hs : c.Square n V) {A : c.Inst} (hA : V A) {X Y : Mat α} (hX : X.rows = n) (hY : Y.rows = n ∧ Y.cols = n) :
    (∃ P, c.matmulT A X = .ok P ∧ P.rows = n ∧ P.cols = X.cols ∧ P.M n X.cols = c.den n A * X.M n X.cols) ∧
    (∃ P, c.rmatmat A X = .ok P ∧ P.rows = n ∧ P.cols = X.cols ∧ P.M n X.cols = (c.den n A)ᵀ * X.M n X.cols) ∧
    c.averageTrace A = (c.den n A).trace / n ∧ 0 ≤ c.frobNorm A ∧ c.frobNorm A ^ 2 = ∑ i, ∑ j, c.den n A i j ^ 2 ∧
    (∃ M : Mat α, c.fromInner A (some X) = c.fromDense M ∧ M.rows = n ∧ M.cols = n ∧ M.M n n = (c.den n A)ᵀ * X.M n X.cols * (X.M n X.cols)ᵀ * c.den n A) ∧
    (∃ M : Mat α, c.fromInner A none = c.fromDense M ∧ M.rows = n ∧ M.cols = n ∧ M.M n n = (c.den n A)ᵀ * c.den n A) ∧
    (∃ M : Mat α, c.fromMatInner X = c.fromDense M ∧ M.rows = n ∧ M.cols = n ∧ M.M n n = X.M n X.cols * (X.M n X.cols)ᵀ) ∧
    (∃ M : Mat α, c.fromInner2 A Y = c.fromDense M ∧ M.rows = n ∧ M.cols = n ∧ M.M n n = (c.den n A)ᵀ * Y.M n n * c.den n A) := by
  obtain ⟨hr, hc⟩ := hs A hA
  have inner : ∀ S : Mat α, c.fromMatInner S = c.fromDense (S.mul S.T) := fun S => by
    unfold UserClass.fromMatInner
    rw [Mat.matmul_ok rfl]; rfl
  have hR : c.rmatmat A X = .ok ((c.toDense A).T.mul X) := Mat.matmul_ok (hr.trans hX.symm)
  have mR : ((c.toDense A).T.mul X).M n X.cols = (c.den n A)ᵀ * X.M n X.cols := by
    rw [Mat.M_mul' (show (c.toDense A).T.cols = n from hr), Mat.M_T]; rfl
  refine ⟨⟨_, Mat.matmul_ok (hc.trans hX.symm), hr, rfl, Mat.M_mul' hc⟩, ⟨_, hR, hc, rfl, mR⟩, ?_, ?_, ?_, ⟨((c.toDense A).T.mul X).mul ((c.toDense A).T.mul X).T, ?_, hc, hc, ?_⟩,
    ⟨(c.toDense A).T.mul (c.toDense A).T.T, ?_, hc, hc, ?_⟩, ⟨X.mul X.T, inner X, hX, hX, ?_⟩, ⟨((c.toDense A).T.mul Y).mul (c.toDense A), ?_, hc, hc, ?_⟩⟩
  · unfold UserClass.averageTrace
    rw [Mat.len_diag, hr, hc, min_self]
    congr 1
    unfold Vec.sum
    rw [Mat.len_diag, hr, hc, min_self, ← Fin.sum_univ_eq_sum_range]
    simp only [Mat.get_diag]
    rfl
  · exact LawfulSqrt.sqrt_nonneg _
  · unfold UserClass.frobNorm vectorNorm
    rw [pow_two, LawfulSqrt.sqrt_mul_self]
    · rw [sqsum_matList, hr, hc, ← Fin.sum_univ_eq_sum_range]
      refine sum_congr rfl fun i _ => ?_
      rw [← Fin.sum_univ_eq_sum_range]
      exact sum_congr rfl fun j _ => (pow_two _).symm
    · rw [sqsum_matList]
      exact sum_nonneg fun _ _ => sum_nonneg fun _ _ => mul_self_nonneg _
  · show (do let S ← c.rmatmat A X; c.fromMatInner S) = _
    rw [hR, Except.bind_ok', inner]
  · rw [Mat.M_mul' rfl, Mat.M_T]
    show ((c.toDense A).T.mul X).M n X.cols * (((c.toDense A).T.mul X).M n X.cols)ᵀ = _
    rw [mR, transpose_mul, transpose_transpose]
    simp only [Matrix.mul_assoc]
  · show (do let S ← pure (c.toDense A).T; c.fromMatInner S) = _
    rw [Except.pure_ok, Except.bind_ok', inner]
  · rw [Mat.M_mul' (show (c.toDense A).T.cols = n from hr), Mat.T_T, Mat.M_T]; rfl
  · rw [Mat.M_mul' rfl, Mat.M_T]
  · unfold UserClass.fromInner2
    rw [Mat.matmul_ok (hr.trans hY.1.symm), Except.bind_ok', Mat.matmul_ok (show ((c.toDense A).T.mul Y).cols = _ from hY.2.trans hr.symm), Except.bind_ok']
  · rw [Mat.M_mul' (show ((c.toDense A).T.mul Y).cols = n from hY.2), Mat.M_mul' (show (c.toDense A).T.cols = n from hr), Mat.M_T]; rfl

/-! ## Methods that work on the registered tensors -/

theorem listsMax_spec [LinearOrder α] [IsStrictOrderedRing α] (P : List (List α)) (h : P.flatten ≠ []) :
    ∃ v, (do SM.listMax (← (P.filter (fun l => l ≠ [])).mapM fun l : List α => SM.listMax (l.map fun x => |x|))) = .ok v ∧ (∃ x ∈ P.flatten, v = |x|) ∧ ∀ x ∈ P.flatten, |x| ≤ v := by
  obtain ⟨r, hr, hf⟩ := mapM_ok_spec (f := fun l : List α => SM.listMax (l.map fun x => |x|)) (l := P.filter (fun l => l ≠ [])) (by
    intro l hl
    obtain ⟨v, hv, -⟩ := listMax_spec (l := l.map fun x => |x|) (by
      have := (List.mem_filter.1 hl).2
      simpa using this)
    exact ⟨v, hv⟩)
  have hfl : (P.filter (fun l => l ≠ [])).flatten = P.flatten := by
    clear h hr hf
    induction P with
    | nil => rfl
    | cons a l ih =>
      by_cases ha : a = []
      · subst ha; simpa using ih
      · rw [List.filter_cons, if_pos (by simpa using ha), List.flatten_cons, List.flatten_cons, ih]
  rw [← hfl] at h ⊢
  have hall : ∀ l ∈ P.filter (fun l => l ≠ []), l ≠ [] := fun l hl => by simpa using (List.mem_filter.1 hl).2
  revert hr
  generalize hL : P.filter (fun l => l ≠ []) = L at hf h hall
  intro hr
  have hrne : r ≠ [] := by
    rintro rfl; cases hf; simp at h
  obtain ⟨v, hv, hvm, hvl⟩ := listMax_spec hrne
  refine ⟨v, by rw [hr]; exact hv, ?_, ?_⟩
  · clear hv hvl hrne hL hfl h hr
    induction hf with
    | nil => simp at hvm
    | @cons l y L r hl hf ih =>
      rcases List.mem_cons.1 hvm with rfl | hm
      · obtain ⟨v', e, hm, -⟩ := listMax_spec (l := l.map fun x => |x|) (by
          have := hall l (by simp); simpa using this)
        rw [hl] at e; cases e
        obtain ⟨x, hx, e⟩ := List.mem_map.1 hm
        exact ⟨x, by simp [hx], e.symm⟩
      · obtain ⟨x, hx, e⟩ := ih (fun l hl => hall l (List.mem_cons_of_mem _ hl)) hm
        exact ⟨x, by simp only [List.flatten_cons, List.mem_append, hx, or_true], e⟩
  · clear hv hvm hrne hL hfl h hr
    induction hf with
    | nil => simp
    | @cons l y L r hl hf ih =>
      intro x hx
      rw [List.flatten_cons, List.mem_append] at hx
      rcases hx with hx | hx
      · obtain ⟨v', e, -, hm⟩ := listMax_spec (l := l.map fun x => |x|) (by
          have := hall l (by simp); simpa using this)
        rw [hl] at e; cases e
        exact (hm _ (List.mem_map.2 ⟨x, hx, rfl⟩)).trans (hvl _ (by simp))
      · exact ih (fun l hl => hall l (List.mem_cons_of_mem _ hl)) (fun y hy => hvl y (List.mem_cons_of_mem _ hy)) x hx


theorem Vec.toList_smul (v : Vec α) (s : α) : (v.smul s).toList = v.toList.map (· * s) := by
  unfold Vec.toList
  rw [List.map_map]
  exact List.map_congr_left fun i _ => by simp

theorem flat_smul (l : List (Vec α)) (s : α) : ((l.map fun v => v.smul s).map Vec.toList).flatten = ((l.map Vec.toList).flatten).map (· * s) := by
  induction l with
  | nil => rfl
  | cons v l ih => simp only [List.map_cons, List.flatten_cons, ih, Vec.toList_smul, List.map_append]

theorem addTensors_spec (s : α) : ∀ {l k : List (Vec α)}, l.map Vec.len = k.map Vec.len → ∃ r, UserClass.addTensors s l k = .ok r ∧ r.map Vec.len = l.map Vec.len ∧
    ∀ p, ((r.map Vec.toList).flatten).getD p 0 = ((l.map Vec.toList).flatten).getD p 0 + s * ((k.map Vec.toList).flatten).getD p 0
  | [], [], _ => ⟨[], rfl, rfl, fun p => by simp⟩
  | [], _ :: _, h => by simp at h
  | _ :: _, [], h => by simp at h
  | v :: l, u :: k, h => by
    simp only [List.map_cons, List.cons.injEq] at h
    obtain ⟨r, hr, hl, hp⟩ := addTensors_spec s h.2
    have hv : v.len = (u.smul s).len := h.1
    refine ⟨v.add (u.smul s) :: r, ?_, by simp [hl], fun p => ?_⟩
    · unfold UserClass.addTensors
      rw [Vec.add?_ok hv, Except.bind_ok', hr]; rfl
    · have len : ∀ w : Vec α, w.toList.length = w.len := fun w => by simp [Vec.toList]
      simp only [List.map_cons, List.flatten_cons, List.getD_eq_getElem?_getD, List.getElem?_append, len]
      have e1 : (v.add (u.smul s)).len = v.len := rfl
      rw [e1, ← h.1]
      split
      · next hlt =>
        have hu : p < u.len := h.1 ▸ hlt
        simp only [Vec.toList, List.getElem?_map, List.getElem?_range, e1, hlt, hu]
        simp [Vec.get_add hv, mul_comm]
      · have := hp (p - v.len)
        simp only [List.getD_eq_getElem?_getD] at this
        exact this

/-- **C68 (in-place methods).** If every entry of the matrix is zero or a fixed entry of the registered tensors, and all these are used, then `mul_`, `add_` and
`infinity_vector_norm` are exact. -/
theorem C68_in_place [LinearOrder α] [IsStrictOrderedRing α] {N : ℕ} {pos : Fin n → Fin n → Option (Fin N)} (L : c.Layout n V N pos) {A B : c.Inst} (hA : V A) (hB : V B) (s : α) :
    (V (c.mul_ A s) ∧ c.den n (c.mul_ A s) = s • c.den n A) ∧ c.Gives n V (c.add_ A B s) (c.den n A + s • c.den n B) ∧
    (0 < N → ∃ v, c.infNorm A = .ok v ∧ (∃ i j, v = |c.den n A i j|) ∧ ∀ i j, |c.den n A i j| ≤ v) := by
  refine ⟨?_, ?_, fun N0 => ?_⟩
  · obtain ⟨h1, h2⟩ := L.put A ((c.tensors A).map fun v => v.smul s) hA (by rw [List.map_map]; exact List.map_congr_left fun _ _ => rfl)
    refine ⟨h1, ?_⟩
    ext i j
    unfold UserClass.mul_
    rw [L.entry _ h1, h2, flat_smul, Matrix.smul_apply, L.entry _ hA]
    cases pos i j with
    | none => simp
    | some p =>
      have hp : (p : ℕ) < (((c.tensors A).map Vec.toList).flatten).length := by rw [L.total A hA]; exact p.2
      simp only [Option.map_some, Option.getD_some, List.getD_eq_getElem?_getD, List.getElem?_map, List.getElem?_eq_getElem hp, smul_eq_mul]
      exact mul_comm _ _
  · obtain ⟨r, e, hl, hp⟩ := addTensors_spec s (L.lens A B hA hB)
    obtain ⟨h1, h2⟩ := L.put A r hA hl
    refine ⟨c.put A r, by unfold UserClass.add_; rw [e]; rfl, h1, ?_⟩
    ext i j
    rw [L.entry _ h1, h2, Matrix.add_apply, Matrix.smul_apply, L.entry _ hA, L.entry _ hB]
    cases pos i j with
    | none => simp
    | some p => simp only [Option.map_some, Option.getD_some, smul_eq_mul]; exact hp p
  · have tot := L.total A hA
    obtain ⟨v, e, ⟨x, hx, hv⟩, hle⟩ := listsMax_spec ((c.tensors A).map Vec.toList) (fun e => by rw [e] at tot; simp at tot; omega)
    have get : ∀ p : Fin N, (((c.tensors A).map Vec.toList).flatten).getD p 0 ∈ ((c.tensors A).map Vec.toList).flatten := fun p => by
      have hp : (p : ℕ) < (((c.tensors A).map Vec.toList).flatten).length := by rw [tot]; exact p.2
      rw [List.getD_eq_getElem?_getD, List.getElem?_eq_getElem hp, Option.getD_some]
      exact List.getElem_mem hp
    refine ⟨v, e, ?_, fun i j => ?_⟩
    · obtain ⟨p, hp, ep⟩ := List.getElem_of_mem hx
      obtain ⟨i, j, hij⟩ := L.onto ⟨p, tot ▸ hp⟩
      refine ⟨i, j, ?_⟩
      rw [L.entry _ hA, hij, hv, ← ep]
      simp [List.getElem?_eq_getElem hp]
    · rw [L.entry _ hA]
      cases pos i j with
      | none =>
        simp only [Option.map_none, Option.getD_none, abs_zero]
        exact (abs_nonneg _).trans (hle _ (get ⟨0, N0⟩))
      | some p => exact hle _ (get p)

end

/-! ## The library's classes -/

/-- `to_dense` and `from_dense` of a library class, without the methods it overrides; nothing below uses `put` -/
def UserClass.ofCls (c : Cls) (put : SM α → List (Vec α) → SM α) : UserClass α := ⟨SM α, SM.toDense, SM.fromDense c, fun K => K.parts.map Vec.ofList, put⟩

/-- **C68 (the two models agree).** For dense and recursive classes, which override none of these methods, the model of structured matrices computes what the base class computes. -/
theorem C68_agrees (put : SM α → List (Vec α) → SM α) {c : Cls} (hc : c = .dense ∨ (∃ a b x y, c = .topRight a b x y) ∨ ∃ a b x y, c = .bottomLeft a b x y)
    {n : ℕ} {A B : SM α} (hA : WF c n A) (hB : WF c n B) (X : Mat α) (s : α) (m : ℕ) :
    A.matmulT X = (UserClass.ofCls c put).matmulT A X ∧ A.matmulS B = (UserClass.ofCls c put).matmulS A B ∧ A.add B = (UserClass.ofCls c put).add A B ∧
    A.smul s = (UserClass.ofCls c put).smul A s ∧ A.rmatmat X = (UserClass.ofCls c put).rmatmat A X ∧ SM.fromMatInner c X = (UserClass.ofCls c put).fromMatInner X ∧
    A.fromInner (some X) = (UserClass.ofCls c put).fromInner A (some X) ∧ A.fromInner none = (UserClass.ofCls c put).fromInner A none ∧
    A.fromInner2 X = (UserClass.ofCls c put).fromInner2 A X ∧ A.averageTrace = .ok ((UserClass.ofCls c put).averageTrace A) ∧
    A.diagAdd s = (UserClass.ofCls c put).diagAdd A s ∧ SM.eye c m = (UserClass.ofCls c put).eye m ∧ SM.zeros c m = (UserClass.ofCls c put).zeros m := by
  rcases hc with rfl | ⟨a, b, x, y, rfl⟩ | ⟨a, b, x, y, rfl⟩ <;> cases hA <;> cases hB <;>
    exact ⟨rfl, rfl, rfl, rfl, rfl, rfl, rfl, rfl, rfl, rfl, rfl, rfl, rfl⟩

/-- **C68 (library classes).** The library's classes without hierarchical parts keep the contract, so the methods of the base class would be exact for all of them
(a hierarchical class does not: `C68_hier_breaks_contract`). -/
theorem C68_library [CharZero α] (put : SM α → List (Vec α) → SM α) {c : Cls} {n : ℕ} (hc : c.NoHier) (hn : c.Supports n) :
    (UserClass.ofCls c put).Contract n (WF c n) := by
  have hr : c.Regular := by
    cases c with
    | topRight => exact hc
    | bottomLeft => exact hc
    | hier => exact hc.elim
    | _ => trivial
  refine ⟨fun A hA => ⟨A, C08_round_trip_partial hc hA, hA, rfl⟩, fun A B hA hB => ?_, fun A B hA hB => ?_, fun A s hA => ?_, ?_, ?_⟩
  · obtain ⟨P, -, h⟩ := C01_matmul_exact hr hA hB
    exact ⟨P, h⟩
  · obtain ⟨P, -, h⟩ := (C04_add_smul_exact_partial hr hA hB 1).1
    exact ⟨P, h⟩
  · obtain ⟨P, -, h⟩ := (C04_add_smul_exact_partial hr hA hA s).2
    exact ⟨P, h⟩
  · obtain ⟨P, -, h⟩ := (C12_eye_zeros (α := α) hn).1
    exact ⟨P, h⟩
  · obtain ⟨P, -, h⟩ := (C12_eye_zeros (α := α) hn).2
    exact ⟨P, h⟩

/-- **C68 (hierarchical classes).** A hierarchical class does not keep the contract: `from_dense` doubles parts of the matrix. -/
theorem C68_hier_breaks_contract (put : SM ℚ → List (Vec ℚ) → SM ℚ) : ∃ (c : Cls) (n : ℕ), c.Supports n ∧ ¬ (UserClass.ofCls c put).Contract n (WF c n) := by
  refine ⟨_, 3, Sample.wf_hier.supports, fun h => ?_⟩
  obtain ⟨P, e, -, hP⟩ := h.retract _ Sample.wf_hier
  have := ((C08_hier_iff Sample.wf_hier).1 ⟨P, e, hP⟩).1 0 0
  revert this; decide +kernel

/-! ## The documented minimum is not enough -/

/-- Diagonal matrices stored as a scale and a vector, both registered: `to_dense` is `scale * diag(vector)`, `from_dense` takes the diagonal with scale 1. -/
abbrev UserClass.scaledDiag : UserClass ℚ where
  Inst := Vec ℚ × Vec ℚ
  toDense A := (A.2.smul (A.1.get 0)).diagMat
  fromDense M := if M.rows = M.cols then .ok (Vec.ofFn 1 fun _ => 1, M.diag) else .error .runtimeError
  tensors A := [A.1, A.2]
  put A ts := (ts.getD 0 A.1, ts.getD 1 A.2)

/-- its objects of dimension `n` -/
def UserClass.scaledDiagOk (n : ℕ) (A : UserClass.scaledDiag.Inst) : Prop := A.1.len = 1 ∧ A.2.len = n

theorem UserClass.scaledDiag_contract (n : ℕ) : UserClass.scaledDiag.Square n (UserClass.scaledDiagOk n) ∧ UserClass.scaledDiag.Contract n (UserClass.scaledDiagOk n) := by
  have hs : UserClass.scaledDiag.Square n (UserClass.scaledDiagOk n) := fun A hA => ⟨hA.2, hA.2⟩
  have den : ∀ (A : UserClass.scaledDiag.Inst) (i j : Fin n), UserClass.scaledDiag.den n A i j = if i = j then A.2.get i * A.1.get 0 else 0 := fun A i j => by
    unfold UserClass.den
    show (A.2.smul (A.1.get 0)).diagMat.get i j = _
    rw [Vec.get_diagMat, Vec.get_smul]
    simp [Fin.ext_iff]
  have mk : ∀ f : ℕ → ℚ, ∃ P : UserClass.scaledDiag.Inst, UserClass.scaledDiagOk n P ∧ UserClass.scaledDiag.den n P = Matrix.diagonal fun i : Fin n => f i := fun f =>
    ⟨(Vec.ofFn 1 fun _ => 1, Vec.ofFn n f), ⟨rfl, rfl⟩, by
      ext i j
      refine (den _ i j).trans ?_
      rw [Matrix.diagonal_apply]
      simp⟩
  have dd : ∀ A : UserClass.scaledDiag.Inst, UserClass.scaledDiag.den n A = Matrix.diagonal fun i : Fin n => A.2.get i * A.1.get 0 := fun A => by
    ext i j
    rw [den, Matrix.diagonal_apply]
  refine ⟨hs, fun A hA => ?_, fun A B hA hB => ?_, fun A B hA hB => ?_, fun A s hA => ?_, ?_, ?_⟩
  · refine ⟨(Vec.ofFn 1 fun _ => 1, (UserClass.scaledDiag.toDense A).diag), ?_, ⟨rfl, ?_⟩, ?_⟩
    · exact if_pos ((hs A hA).1.trans (hs A hA).2.symm)
    · rw [Mat.len_diag, (hs A hA).1, (hs A hA).2, min_self]
    · ext i j
      refine (den _ i j).trans (Eq.trans ?_ (den A i j).symm)
      show (if i = j then (UserClass.scaledDiag.toDense A).diag.get i * (Vec.ofFn 1 fun _ => (1 : ℚ)).get 0 else 0) = _
      rw [Mat.get_diag]
      show (if i = j then (A.2.smul (A.1.get 0)).diagMat.get i i * (Vec.ofFn 1 fun _ => (1 : ℚ)).get 0 else 0) = _
      rw [Vec.get_diagMat, if_pos rfl, Vec.get_smul]
      simp
  · obtain ⟨P, hP, e⟩ := mk fun i => A.2.get i * A.1.get 0 * (B.2.get i * B.1.get 0)
    exact ⟨P, hP, by rw [e, dd A, dd B, Matrix.diagonal_mul_diagonal]⟩
  · obtain ⟨P, hP, e⟩ := mk fun i => A.2.get i * A.1.get 0 + B.2.get i * B.1.get 0
    exact ⟨P, hP, by rw [e, dd A, dd B, Matrix.diagonal_add]⟩
  · obtain ⟨P, hP, e⟩ := mk fun i => s * (A.2.get i * A.1.get 0)
    exact ⟨P, hP, by rw [e, dd A, ← Matrix.diagonal_smul]; rfl⟩
  · obtain ⟨P, hP, e⟩ := mk fun _ => 1
    exact ⟨P, hP, by rw [e, Matrix.diagonal_one]⟩
  · obtain ⟨P, hP, e⟩ := mk fun _ => 0
    exact ⟨P, hP, by rw [e, Matrix.diagonal_zero]⟩

/-- **C68 (the documented minimum).** `base.py:20-38`: `to_dense`, `from_dense` and registered tensors suffice. They do not: a class with all of these that keeps the contract - so `@`,
`+`, `*`, `diag_add_`, `eye` and `zeros` are exact - but `mul_` (doubling gives four times the matrix), `add_` and `infinity_vector_norm` are wrong. -/
theorem C68_minimum_false : ∃ (c : UserClass ℚ) (V : c.Inst → Prop) (A B : c.Inst) (v : ℚ), c.Square 1 V ∧ c.Contract 1 V ∧ V A ∧ V B ∧ V (c.mul_ A 2) ∧
    (∀ A', V A' → ∀ ts, ts.map Vec.len = (c.tensors A').map Vec.len → c.tensors (c.put A' ts) = ts) ∧
    c.den 1 (c.mul_ A 2) = (4 : ℚ) • c.den 1 A ∧ c.den 1 A ≠ 0 ∧ (∃ P, c.add_ A B 1 = .ok P ∧ c.den 1 P ≠ c.den 1 A + c.den 1 B) ∧
    c.infNorm A = .ok v ∧ ∀ i j, |c.den 1 A i j| ≠ v := by
  let A : UserClass.scaledDiag.Inst := (Vec.ofFn 1 fun _ => 2, Vec.ofFn 1 fun _ => 3)
  refine ⟨UserClass.scaledDiag, UserClass.scaledDiagOk 1, A, A, 3, (UserClass.scaledDiag_contract 1).1, (UserClass.scaledDiag_contract 1).2, ⟨rfl, rfl⟩, ⟨rfl, rfl⟩, ⟨rfl, rfl⟩,
    fun A' _ ts h => ?_, ?_, ?_, ⟨_, rfl, ?_⟩, by decide +kernel, fun i j => ?_⟩
  · match ts, h with
    | [a, b], _ => rfl
    | [], h => simp [UserClass.scaledDiag] at h
    | [_], h => simp [UserClass.scaledDiag] at h
    | _ :: _ :: _ :: _, h => simp [UserClass.scaledDiag] at h
  · ext i j
    fin_cases i; fin_cases j
    decide +kernel
  · intro h
    have := congrFun (congrFun h 0) 0
    revert this; decide +kernel
  · intro h
    have := congrFun (congrFun h 0) 0
    revert this; decide +kernel
  · fin_cases i; fin_cases j
    decide +kernel

/-! ## A class that keeps everything -/

/-- Diagonal matrices stored as a vector. -/
abbrev UserClass.plainDiag : UserClass ℚ where
  Inst := Vec ℚ
  toDense A := A.diagMat
  fromDense M := if M.rows = M.cols then .ok M.diag else .error .runtimeError
  tensors A := [A]
  put A ts := ts.getD 0 A

/-- It meets the hypotheses of `C68_in_place`. -/
example : UserClass.plainDiag.Layout 2 (fun A : Vec ℚ => A.len = 2) 2 (fun i j => if i = j then some i else none) ∧ UserClass.plainDiag.Square 2 (fun A : Vec ℚ => A.len = 2) := by
  refine ⟨⟨fun A B hA hB => ?_, fun A hA => ?_, fun A hA i j => ?_, fun p => ⟨p, p, if_pos rfl⟩, fun A ts hA h => ?_⟩, fun A hA => ⟨hA, hA⟩⟩
  · show [Vec.len (α := ℚ) A] = [Vec.len (α := ℚ) B]
    rw [hA, hB]
  · show ((List.map Vec.toList [(A : Vec ℚ)]).flatten).length = 2
    have : Vec.len (α := ℚ) A = 2 := hA
    simp [Vec.toList, this]
  · have h2 : Vec.len (α := ℚ) A = 2 := hA
    show Mat.get (Vec.diagMat (α := ℚ) A) i j = ((if i = j then some i else none).map fun p : Fin 2 => ((List.map Vec.toList [(A : Vec ℚ)]).flatten).getD p.val 0).getD 0
    rw [Vec.get_diagMat]
    by_cases hij : i = j
    · subst hij
      simp [Vec.toList, h2, List.getElem?_range i.2]
    · simp [hij, Fin.val_inj]
  · match ts, h with
    | [a], h =>
      have h1 : [a.len] = [Vec.len (α := ℚ) A] := h
      have h2 : Vec.len (α := ℚ) A = 2 := hA
      exact ⟨by show a.len = 2; rw [← h2]; simpa using h1, rfl⟩
    | [], h => exact absurd h (by simp)
    | _ :: _ :: _, h => exact absurd h (by simp)

/-- `C68_library` for the nested sample class -/
example : (UserClass.ofCls Sample.nestedCls fun K _ => K).Contract 3 (WF (α := ℚ) Sample.nestedCls 3) :=
  C68_library _ Sample.noHier_nested Sample.wf_nested.supports
