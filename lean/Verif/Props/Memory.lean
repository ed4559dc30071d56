import Verif.Proofs.AliasShare
import Verif.Props.OptSamples

/-! Theorems about memory: what shares memory with what, and who writes to it. -/

set_option linter.unusedSectionVars false

open Mem

section structured
variable {α : Type} [Field α]

/-- **In-place operations write to the object's own tensors only**, also if they raise: a matrix that shares no memory with the
object stays as it is. -/
theorem C04_inplace_frame (m : Mem α) (K L M : SM ℕ) (s : α) (h : ∀ a ∈ loc M, a ∉ loc K) :
    (Mem.mul_ K s m).2.read M = m.read M ∧ (Mem.add_ K L s m).2.read M = m.read M :=
  ⟨(mul_writes K s m).read h, (add_writes K L s m).read h⟩

-- two block-diagonal matrices next to each other
example : ∃ K M : SM ℕ, (∀ a ∈ loc M, a ∉ loc K) ∧ (loc K).length = 5 ∧ (loc M).length = 5 :=
  ⟨.block ⟨2, T3.ofFn 1 2 2 fun _ i j => 2 * i + j, Mat.ofFn 1 1 fun _ _ => 4⟩,
    .block ⟨2, T3.ofFn 1 2 2 fun _ i j => 5 + 2 * i + j, Mat.ofFn 1 1 fun _ _ => 9⟩, by decide, by decide, by decide⟩

/-- **In-place operations on memory compute what they compute on values.** The object's tensors must not overlap; the operand is
the object itself or shares no memory with it. -/
theorem C04_inplace_memory (m : Mem α) (K L : SM ℕ) (s : α) (hK : (loc K).Nodup) (hL : K = L ∨ ∀ a ∈ loc K, a ∉ loc L) :
    ((Mem.mul_ K s m).1 = .ok () ∧ (Mem.mul_ K s m).2.read K = (m.read K).mul_ s) ∧
    ∀ X, SM.add_ (m.read K) (m.read L) s = .ok X → (Mem.add_ K L s m).1 = .ok () ∧ (Mem.add_ K L s m).2.read K = X := by
  refine ⟨?_, fun X h => ?_⟩
  · obtain ⟨m', e, _, r⟩ := mul_spec K s m hK
    rw [e]; exact ⟨rfl, r⟩
  · obtain ⟨m', e, _, r⟩ := add_spec K L s m X hK hL h
    rw [e]; exact ⟨rfl, r⟩

-- `A.add_(A, alpha=s)` for a hierarchical matrix
example : ∃ K : SM ℕ, (loc K).Nodup ∧ (loc K).length = 7 ∧ ∃ X, SM.add_ ((⟨fun a => a, 7⟩ : Mem ℚ).read K) ((⟨fun a => a, 7⟩ : Mem ℚ).read K) 2 = .ok X :=
  ⟨.hier ⟨1, 1, Mat.ofFn 1 1 fun _ _ => 0, Mat.ofFn 1 2 fun _ j => 1 + j, Vec.ofFn 1 fun _ => 3, Mat.ofFn 1 2 fun _ j => 4 + j, Mat.ofFn 1 1 fun _ _ => 6⟩,
    by decide, by decide, _, rfl⟩

/-- **The clause "the in-place variants change no other matrix" fails for dense matrices:** `DenseMatrix.from_dense(A.to_dense())`
is another matrix with the same memory as `A`. -/
theorem C04_alias_false : ¬ ∀ (m m1 m2 : Mem ℚ) (A B : SM ℕ), (Mem.toDense A >>= Mem.fromDense (m.read A).cls) m = (.ok B, m1) →
    Mem.mul_ B 2 m1 = (.ok (), m2) → m2.read A = m1.read A := fun h => by
  have := h ⟨fun _ => 1, 1⟩ ⟨fun _ => 1, 1⟩ (Mem.mulAt [0] 2 ⟨fun _ => 1, 1⟩) (.dense (Mat.ofFn 1 1 fun _ _ => 0)) (.dense (Mat.ofFn 1 1 fun _ _ => 0)) rfl rfl
  exact absurd (congrArg (fun x => x.toDense.get 0 0) this) (by decide +kernel)

/-- **Exactly which memory `from_dense` shares.** Everything else is new. -/
theorem C58_from_dense_shares (c : Cls) (n : ℕ) (d : Mat ℕ) (m m' : Mem α) (r : SM ℕ) (hr : d.rows = n) (hc : d.cols = n)
    (hl : ∀ a ∈ locM d, a < m.next) (h : Mem.fromDense c d m = (.ok r, m')) (a : ℕ) :
    (a ∈ loc r ∧ a < m.next) ↔ ∃ i j, Shared c n i j ∧ d.get i j = a :=
  fromDense_shared c hr hc hl h a

-- block size 2, dimension 5: the last diagonal entry is shared
example : (do
    let d ← Mem.newM (Mat.eye 5 : Mat ℚ)
    let r ← Mem.fromDense (.block 2) d
    return (loc r).filter (· < 25) : Py (Mem ℚ) _) ⟨fun _ => 0, 0⟩ |>.1 |> (· matches .ok [24]) := by decide +kernel

/-- **Matrices that are computed are new:** the results of `A @ B`, `A + B`, `A * s`, `A.from_inner(X)`, `zeros` and `eye` have the
expected entries, share memory with nothing that existed before, and do not overlap themselves; nothing that existed before
changes. -/
theorem C58_results_new (m : Mem α) (K L : SM ℕ) (s : α) (X : Option (Mat α)) (c : Cls) (n : ℕ) :
    let New := fun (x : Py (Mem α) (SM ℕ)) (v : Except PyErr (SM α)) => ∀ V, v = .ok V → ∃ r m', x m = (.ok r, m') ∧ m'.read r = V ∧
      (loc r).Nodup ∧ (∀ a ∈ loc r, m.next ≤ a ∧ a < m'.next) ∧ ∀ a < m.next, m'.val a = m.val a
    New (Mem.matmulS K L) ((m.read K).matmulS (m.read L)) ∧ New (Mem.add K L) ((m.read K).add (m.read L)) ∧
    New (Mem.smul K s) ((m.read K).smul s) ∧ New (Mem.fromInner K X) ((m.read K).fromInner X) ∧
    New (Mem.zeros c n) (SM.zeros c n) ∧ New (Mem.eye c n) (SM.eye c n) := by
  intro New
  have key : ∀ {x : Py (Mem α) (SM ℕ)} {V : SM α}, (∃ r m', x m = (.ok r, m') ∧ Mem.New m m' r V) → ∃ r m', x m = (.ok r, m') ∧ m'.read r = V ∧
      (loc r).Nodup ∧ (∀ a ∈ loc r, m.next ≤ a ∧ a < m'.next) ∧ ∀ a < m.next, m'.val a = m.val a :=
    fun ⟨r, m', e, N⟩ => ⟨r, m', e, N.read, N.fresh.nodup, N.fresh.mem, N.ext.val⟩
  exact ⟨fun V h => key (matmulS_spec h), fun V h => key (add_new_spec h), fun V h => key (smul_spec h), fun V h => key (fromInner_spec h),
    fun V h => key (zeros_spec m h), fun V h => key (eye_spec m h)⟩

-- products of recursive matrices are new
example : ∃ X, ((⟨fun a => a, 9⟩ : Mem ℚ).read (.topRight (.int 1) .inf .dense .diagonal (.dense (Mat.ofFn 1 1 fun _ _ => 0)) (Mat.ofFn 1 2 fun _ j => 1 + j)
    (.diagonal (Vec.ofFn 2 fun i => 3 + i)))).matmulS ((⟨fun a => a, 9⟩ : Mem ℚ).read (.topRight (.int 1) .inf .dense .diagonal (.dense (Mat.ofFn 1 1 fun _ _ => 0))
    (Mat.ofFn 1 2 fun _ j => 1 + j) (.diagonal (Vec.ofFn 2 fun i => 3 + i)))) = .ok X := ⟨_, rfl⟩

end structured

section optimizer
variable {α : Type} [Field α] [LinearOrder α] [HasSqrt α]

/-- **The optimizer with memory is the optimizer on values.** Construct an optimizer for a model whose parameters (and gradients)
do not overlap and run any history without exceptions. Then the optimizer that works with references and in-place operations does
the same as the one that works with values, and in the end no two of the factors, momenta, accumulated statistics, momentum
buffers, parameters and gradients share memory, and none overlaps itself. -/
theorem C56_memory (hw : HWorld α) (ho : hw.Owned) (structs : String → Option Cls) (model : Model) (p : ParamArg α) (a : Args α) (O : Opt α)
    (ws : List Warn) (hi : Construct.init structs model p a = .ok (O, ws)) (ops : List (Op α)) (w' : World α)
    (hr : runOk ops { hw.abs with opt := O } = some w') :
    ∃ hw0 hw', HWorld.init structs model p a hw = (.ok ws, hw0) ∧ hrunOk ops hw0 = some hw' ∧ hw'.abs = w' ∧
      (∀ s s' r r', s ≠ s' → hw'.ref s = some r → hw'.ref s' = some r' → ∀ x ∈ loc r, x ∉ loc r') ∧
      ∀ s r, hw'.ref s = some r → (loc r).Nodup := by
  obtain ⟨hw0, e0, o0, a0⟩ := HWorld.init_spec ho hi
  obtain ⟨hw', e1, o1, a1⟩ := HWorld.runOk_sim ops hw0 o0 w' (by rw [a0]; exact hr)
  exact ⟨hw0, hw', e0, e1, a1, o1.sep, o1.nodup⟩

/-- **Nobody else's memory is written:** a tensor that shares no memory with factors, momenta, statistics, buffers, parameters and
gradients keeps its entries in every history, whatever exceptions occur. -/
theorem C57_others (hw : HWorld α) (ops : List (Op α)) (t : SM ℕ) (ht : ∀ a ∈ loc t, a < hw.mem.next)
    (hs : ∀ s r, hw.ref s = some r → ∀ a ∈ loc t, a ∉ loc r) : (hrun ops hw).mem.read t = hw.mem.read t :=
  (HWorld.Keeps.run (z := .of hw (fun _ => True) fun _ => True) (fun _ => trivial) (fun _ => trivial) ops hw (HWorld.Zone.of_inv ..)).read ht
    fun s r _ h => hs s r h

/-- what `step` may write to: everything but gradients -/
private def stepW : Slot → Prop
  | .grad _ => False
  | _ => True
/-- what `step` may assign -/
private def stepA : Slot → Prop
  | .HK _ | .HC _ | .mK _ | .mC _ | .mom _ => True
  | _ => False

/-- **`step` leaves gradients alone and keeps parameters and factors in place,** whatever its outcome: gradients (that do not share memory
with anything that is updated) keep reference and entries; parameters, `K` and `C` are changed in their memory. In particular `data_ptr()`
of a parameter, by which the optimizer looks up hyper-parameters, does not change. -/
theorem C57_step (hw : HWorld α) (c : Bool) (s : Option α) (f : Bool) :
    let hw' := (hexec (.step c s f) hw).2
    (∀ p, hw'.ref (.grad p) = hw.ref (.grad p)) ∧ (∀ p, hw'.ref (.data p) = hw.ref (.data p)) ∧
    (∀ n, hw'.ref (.K n) = hw.ref (.K n) ∧ hw'.ref (.C n) = hw.ref (.C n)) ∧
    ∀ t, (∀ a ∈ loc t, a < hw.mem.next) → (∀ s r, (∀ p, s ≠ .grad p) → hw.ref s = some r → ∀ a ∈ loc t, a ∉ loc r) →
      hw'.mem.read t = hw.mem.read t := by
  have k := (HWorld.Keeps.step (z := .of hw stepW stepA) c s f (fun _ => ⟨trivial, trivial⟩) (fun _ => ⟨trivial, trivial, trivial, trivial⟩)
    (fun _ => ⟨trivial, trivial⟩) (fun _ => trivial) hw (HWorld.Zone.of_inv ..)).1
  refine ⟨fun p => k.ref (.grad p) id, fun p => k.ref (.data p) id, fun n => ⟨k.ref (.K n) id, k.ref (.C n) id⟩, fun t ht hs => k.read ht fun s r hW h => ?_⟩
  exact hs s r (fun p e => by subst e; exact hW) h

/-- **Forward and backward passes write only to accumulated statistics,** whatever their outcome. -/
theorem C57_hooks (hw : HWorld α) (op : Op α) (ho : (∃ i x e, op = .forward i x e) ∨ ∃ k g, op = .backward k g) :
    let hw' := (hexec op hw).2
    (∀ s, (∀ n, s ≠ .HK n ∧ s ≠ .HC n) → hw'.ref s = hw.ref s) ∧
    ∀ t, (∀ a ∈ loc t, a < hw.mem.next) → (∀ n r, hw.ref (.HK n) = some r ∨ hw.ref (.HC n) = some r → ∀ a ∈ loc t, a ∉ loc r) →
      hw'.mem.read t = hw.mem.read t := by
  let W : Slot → Prop := fun s => ∃ n, s = .HK n ∨ s = .HC n
  have k : (HWorld.Zone.of hw W W).Frame hw (hexec op hw).2 := by
    refine (?_ : HWorld.Keeps (.of hw W W) (hexec op) fun _ => True) hw (HWorld.Zone.of_inv ..) |>.1
    rcases ho with ⟨i, x, e, rfl⟩ | ⟨k, g, rfl⟩
    · refine .get fun hw => ?_
      rcases hw.base.opt.layers[i]? with _ | m
      · exact .pure trivial
      · exact .forwardHook m x e
    · refine .get fun hw => ?_
      rcases hw.base.hooks[k]? with _ | m
      · exact .pure trivial
      · exact .accumulateH _ _ _ ⟨⟨_, .inl rfl⟩, _, .inr rfl⟩ ⟨⟨_, .inl rfl⟩, _, .inr rfl⟩
  refine ⟨fun s hs => k.ref s ?_, fun t ht hs => k.read ht ?_⟩
  · rintro ⟨n, rfl | rfl⟩
    · exact (hs n).1 rfl
    · exact (hs n).2 rfl
  · rintro s r ⟨n, rfl | rfl⟩ h
    · exact hs n r (.inl h)
    · exact hs n r (.inr h)

end optimizer

namespace Sample

/-- memory of the parameters of `model`: addresses 0, 1 and 2, 3 -/
def refs : Slot → Option (SM ℕ)
  | .data 0 => some (.dense (Mat.ofFn 1 1 fun _ _ => 0))
  | .data 1 => some (.dense (Mat.ofFn 1 1 fun _ _ => 1))
  | .data 2 => some (.dense (Mat.ofFn 1 2 fun _ j => 2 + j))
  | .data _ => some (.dense (Mat.ofFn 0 0 fun _ _ => 0))
  | _ => none
/-- the model before the optimizer is constructed -/
def hw : HWorld ℚ := ⟨⟨fun _ => 1, 4⟩, refs, world model .default args⟩

theorem hw_owned : hw.Owned := by
  have key : ∀ s r, refs s = some r → s = .data 0 ∧ loc r = [0] ∨ s = .data 1 ∧ loc r = [1] ∨ s = .data 2 ∧ loc r = [2, 3] ∨ loc r = [] := by
    intro s r h
    unfold refs at h
    split at h <;> cases h
    · exact .inl ⟨rfl, rfl⟩
    · exact .inr (.inl ⟨rfl, rfl⟩)
    · exact .inr (.inr (.inl ⟨rfl, rfl⟩))
    · exact .inr (.inr (.inr rfl))
  refine ⟨fun s r h => ?_, fun s r h => ?_, fun s s' r r' ne h h' a ha hb => ?_, fun p => ?_, fun p r h => ?_⟩
  · rcases key s r h with ⟨_, e⟩ | ⟨_, e⟩ | ⟨_, e⟩ | e <;> rw [e] <;> decide
  · rcases key s r h with ⟨_, e⟩ | ⟨_, e⟩ | ⟨_, e⟩ | e <;> rw [e] <;> decide
  · rcases key s r h with ⟨e1, e⟩ | ⟨e1, e⟩ | ⟨e1, e⟩ | e <;> rcases key s' r' h' with ⟨e1', e'⟩ | ⟨e1', e'⟩ | ⟨e1', e'⟩ | e' <;>
      rw [e] at ha <;> rw [e'] at hb <;> simp at ha hb <;> first | exact ne (e1.trans e1'.symm) | omega
  · match p with
    | 0 => exact ⟨_, rfl⟩
    | 1 => exact ⟨_, rfl⟩
    | 2 => exact ⟨_, rfl⟩
    | _ + 3 => exact ⟨_, rfl⟩
  · cases h

/-- gradients, a pass through the model, and a step -/
def hops : List (Op ℚ) := [.setGrad 0 (some (.ofLists 1 1 [[3]])), .setGrad 1 (some (.ofLists 1 1 [[3]])), .setGrad 2 (some (.ofLists 1 2 [[1, 2]]))] ++ pass ++
  [.step false none false]

-- the hypotheses of `C56_memory` hold for a history with a step
example : ∃ ws w', Construct.init supportedStructures model .default args = .ok (opt model .default args, ws) ∧ hw.Owned ∧
    runOk hops { hw.abs with opt := opt model .default args } = some w' := by
  obtain ⟨ws, e⟩ := init_eq (m := model) (p := .default) (a := args) (by decide +kernel)
  have h : (runOk hops { hw.abs with opt := opt model .default args }).isSome = true := by decide +kernel
  obtain ⟨w', h⟩ := Option.isSome_iff_exists.1 h
  exact ⟨ws, w', e, hw_owned, h⟩

-- a user's tensor at address 4
example : (∀ a ∈ loc (.dense (Mat.ofFn 1 1 fun _ _ => 4)), a < ({ hw with mem := ⟨fun _ => 1, 5⟩ } : HWorld ℚ).mem.next) ∧
    ∀ s r, ({ hw with mem := ⟨fun _ => 1, 5⟩ } : HWorld ℚ).ref s = some r → ∀ a ∈ loc (.dense (Mat.ofFn 1 1 fun _ _ => 4)), a ∉ loc r := by
  refine ⟨by decide, fun s r h a ha hb => ?_⟩
  have h1 : a = 4 := by simpa [loc, locM, rowMajor] using ha
  have h2 : a < 4 := hw_owned.lt s r h a hb
  omega

end Sample
