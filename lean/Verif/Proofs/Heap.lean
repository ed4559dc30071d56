import Verif.SpecMem
import Verif.Proofs.AliasOps
import Verif.Proofs.Opt.Frame

set_option linter.unusedSectionVars false

/-! The optimizer at the level of memory does what the optimizer at the level of values does. -/

variable {α : Type} [Field α] [LinearOrder α] [HasSqrt α]

namespace HWorld
open Mem

variable {hw : HWorld α} {m' : Mem α}

theorem val_of_ref {s : Slot} {r : SM ℕ} (h : hw.ref s = some r) : hw.val s = some (hw.mem.read r) := by
  simp only [val, h, Option.map_some]
theorem ref_of_val {s : Slot} {X : SM α} (h : hw.val s = some X) : ∃ r, hw.ref s = some r ∧ hw.mem.read r = X := by
  simpa [val] using h
theorem ref_of_val_none {s : Slot} (h : hw.val s = none) : hw.ref s = none := by simpa [val] using h

theorem Owned.ext (o : Owned hw) (x : Ext hw.mem m') : Owned { hw with mem := m' } :=
  ⟨o.nodup, fun s r h a ha => lt_of_lt_of_le (o.lt s r h a ha) x.le, o.sep, o.data, o.mom⟩
theorem Owned.val_ext (o : Owned hw) (x : Ext hw.mem m') : ({ hw with mem := m' } : HWorld α).val = hw.val := by
  funext s
  simp only [val]
  rcases h : hw.ref s with _ | r
  · rfl
  · simp only [Option.map_some, x.read (o.lt s r h)]

theorem Owned.clear (o : Owned hw) {s : Slot} (hs : ∀ p, s ≠ .data p) :
    Owned { hw with ref := Function.update hw.ref s none } := by
  have key : ∀ t r, Function.update hw.ref s none t = some r → t ≠ s ∧ hw.ref t = some r := fun t r h => by
    by_cases e : t = s
    · subst e; simp at h
    · exact ⟨e, by rwa [Function.update_of_ne e] at h⟩
  refine ⟨fun t r h => o.nodup t r (key t r h).2, fun t r h => o.lt t r (key t r h).2,
    fun t t' r r' ht h h' => o.sep t t' r r' ht (key t r h).2 (key t' r' h').2, fun p => ?_, fun p r h => o.mom p r (key _ r h).2⟩
  obtain ⟨d, hd⟩ := o.data p
  exact ⟨d, by simp only; rw [Function.update_of_ne (hs p).symm, hd]⟩
theorem val_clear (s : Slot) : ({ hw with ref := Function.update hw.ref s none } : HWorld α).val = Function.update hw.val s none := by
  funext t
  by_cases e : t = s
  · subst e; simp [val]
  · simp [val, Function.update_of_ne e]

theorem Owned.assign (o : Owned hw) {s : Slot} {r : SM ℕ} (hn : (loc r).Nodup) (hl : ∀ a ∈ loc r, a < hw.mem.next)
    (hd : ∀ t r', t ≠ s → hw.ref t = some r' → ∀ a ∈ loc r, a ∉ loc r') (hD : ∀ p, s = .data p ∨ s = .mom p → ∃ d, r = .dense d) :
    Owned { hw with ref := Function.update hw.ref s (some r) } := by
  have key : ∀ t r', Function.update hw.ref s (some r) t = some r' → (t = s ∧ r' = r) ∨ (t ≠ s ∧ hw.ref t = some r') := fun t r' h => by
    by_cases e : t = s
    · subst e; simp at h; exact .inl ⟨rfl, h.symm⟩
    · exact .inr ⟨e, by rwa [Function.update_of_ne e] at h⟩
  refine ⟨fun t r' h => ?_, fun t r' h => ?_, fun t t' r1 r2 ht h h' => ?_, fun p => ?_, fun p r' h => ?_⟩
  · rcases key t r' h with ⟨_, rfl⟩ | ⟨_, h⟩
    · exact hn
    · exact o.nodup t r' h
  · rcases key t r' h with ⟨_, rfl⟩ | ⟨_, h⟩
    · exact hl
    · exact o.lt t r' h
  · rcases key t r1 h with ⟨e, e1⟩ | ⟨e, g⟩ <;> rcases key t' r2 h' with ⟨e', e2⟩ | ⟨e', g'⟩
    · exact absurd (e.trans e'.symm) ht
    · exact e1 ▸ hd t' r2 e' g'
    · exact fun a ha hb => hd t r1 e g a (e2 ▸ hb) ha
    · exact o.sep t t' r1 r2 ht g g'
  · by_cases e : Slot.data p = s
    · obtain ⟨d, hd⟩ := hD p (.inl e.symm)
      exact ⟨d, by simp only; rw [e, Function.update_self, hd]⟩
    · obtain ⟨d, hd⟩ := o.data p
      exact ⟨d, by simp only; rw [Function.update_of_ne e, hd]⟩
  · rcases key _ r' h with ⟨e, rfl⟩ | ⟨e, h⟩
    · exact hD p (.inr e.symm)
    · exact o.mom p r' h
theorem val_assign (s : Slot) (r : SM ℕ) :
    ({ hw with ref := Function.update hw.ref s (some r) } : HWorld α).val = Function.update hw.val s (some (hw.mem.read r)) := by
  funext t
  by_cases e : t = s
  · subst e; simp [val]
  · simp [val, Function.update_of_ne e]

theorem Owned.inPlace (o : Owned hw) {l : List ℕ} (i : InPlace l hw.mem m') : Owned { hw with mem := m' } :=
  ⟨o.nodup, fun s r h a ha => by simp only; rw [i.next]; exact o.lt s r h a ha, o.sep, o.data, o.mom⟩
theorem Owned.val_inPlace (o : Owned hw) {s : Slot} {r : SM ℕ} (hr : hw.ref s = some r) (i : InPlace (loc r) hw.mem m') :
    ({ hw with mem := m' } : HWorld α).val = Function.update hw.val s (some (m'.read r)) := by
  funext t
  by_cases e : t = s
  · subst e; simp [val, hr]
  · rw [Function.update_of_ne e]
    simp only [val]
    rcases h : hw.ref t with _ | r'
    · rfl
    · simp only [Option.map_some, i.read (o.sep t s r' r e h hr)]

/-! ### worlds -/

section build
variable (b : World α) (v : Slot → Option (SM α))

theorem build_K (n : String) (x : Option (SM α)) : b.build (Function.update v (.K n) x) =
    { b.build v with opt := { (b.build v).opt with Ks := Function.update (b.build v).opt.Ks n x } } := by
  simp only [World.build, World.mk.injEq, Opt.mk.injEq, true_and, and_true]
  refine ⟨⟨?_, ?_, ?_, ?_, ?_, ?_, ?_⟩, ?_, ?_⟩ <;> funext k <;> simp [Function.update_apply]
theorem build_C (n : String) (x : Option (SM α)) : b.build (Function.update v (.C n) x) =
    { b.build v with opt := { (b.build v).opt with Cs := Function.update (b.build v).opt.Cs n x } } := by
  simp only [World.build, World.mk.injEq, Opt.mk.injEq, true_and, and_true]
  refine ⟨⟨?_, ?_, ?_, ?_, ?_, ?_, ?_⟩, ?_, ?_⟩ <;> funext k <;> simp [Function.update_apply]
theorem build_mK (n : String) (x : Option (SM α)) : b.build (Function.update v (.mK n) x) =
    { b.build v with opt := { (b.build v).opt with mKs := Function.update (b.build v).opt.mKs n x } } := by
  simp only [World.build, World.mk.injEq, Opt.mk.injEq, true_and, and_true]
  refine ⟨⟨?_, ?_, ?_, ?_, ?_, ?_, ?_⟩, ?_, ?_⟩ <;> funext k <;> simp [Function.update_apply]
theorem build_mC (n : String) (x : Option (SM α)) : b.build (Function.update v (.mC n) x) =
    { b.build v with opt := { (b.build v).opt with mCs := Function.update (b.build v).opt.mCs n x } } := by
  simp only [World.build, World.mk.injEq, Opt.mk.injEq, true_and, and_true]
  refine ⟨⟨?_, ?_, ?_, ?_, ?_, ?_, ?_⟩, ?_, ?_⟩ <;> funext k <;> simp [Function.update_apply]
theorem build_HK (n : String) (x : Option (SM α)) : b.build (Function.update v (.HK n) x) =
    { b.build v with opt := { (b.build v).opt with HKs := Function.update (b.build v).opt.HKs n x } } := by
  simp only [World.build, World.mk.injEq, Opt.mk.injEq, true_and, and_true]
  refine ⟨⟨?_, ?_, ?_, ?_, ?_, ?_, ?_⟩, ?_, ?_⟩ <;> funext k <;> simp [Function.update_apply]
theorem build_HC (n : String) (x : Option (SM α)) : b.build (Function.update v (.HC n) x) =
    { b.build v with opt := { (b.build v).opt with HCs := Function.update (b.build v).opt.HCs n x } } := by
  simp only [World.build, World.mk.injEq, Opt.mk.injEq, true_and, and_true]
  refine ⟨⟨?_, ?_, ?_, ?_, ?_, ?_, ?_⟩, ?_, ?_⟩ <;> funext k <;> simp [Function.update_apply]
theorem build_mom (p : ℕ) (x : Option (SM α)) : b.build (Function.update v (.mom p) x) =
    { b.build v with opt := { (b.build v).opt with mom := Function.update (b.build v).opt.mom p (x.map SM.toDense) } } := by
  simp only [World.build, World.mk.injEq, Opt.mk.injEq, true_and, and_true]
  refine ⟨⟨?_, ?_, ?_, ?_, ?_, ?_, ?_⟩, ?_, ?_⟩ <;> funext k <;> simp [Function.update_apply]
  split <;> rfl
theorem build_data (p : ℕ) (x : SM α) : b.build (Function.update v (.data p) (some x)) =
    { b.build v with data := Function.update (b.build v).data p x.toDense } := by
  simp only [World.build, World.mk.injEq, Opt.mk.injEq, true_and, and_true]
  refine ⟨⟨?_, ?_, ?_, ?_, ?_, ?_, ?_⟩, ?_, ?_⟩ <;> funext k <;> simp [Function.update_apply]
  split <;> rfl
theorem build_grad (p : ℕ) (x : Option (SM α)) : b.build (Function.update v (.grad p) x) =
    { b.build v with grad := Function.update (b.build v).grad p (x.map SM.toDense) } := by
  simp only [World.build, World.mk.injEq, Opt.mk.injEq, true_and, and_true]
  refine ⟨⟨?_, ?_, ?_, ?_, ?_, ?_, ?_⟩, ?_, ?_⟩ <;> funext k <;> simp [Function.update_apply]
  split <;> rfl
end build

theorem onMem_run {β : Type} {x : Py (Mem α) β} {b : β} (h : x hw.mem = (.ok b, m')) : onMem x hw = (.ok b, { hw with mem := m' }) := by
  simp only [onMem, h]
theorem deref_run {s : Slot} {r : SM ℕ} (h : hw.ref s = some r) : deref s hw = (.ok r, hw) := by
  simp only [deref]; rw [Py.get_bind_run]; simp only [lookup, h]; rfl

/-- the memory-level method `hx` does what the value-level method `x` does -/
def Sim (hx : Py (HWorld α) Unit) (x : Py (World α) Unit) : Prop :=
  ∀ hw : HWorld α, Owned hw → ∀ w', x hw.abs = (.ok (), w') → ∃ hw', hx hw = (.ok (), hw') ∧ Owned hw' ∧ hw'.abs = w'

theorem Sim.pure : Sim (α := α) (Pure.pure ()) (Pure.pure ()) := fun hw o w' h => by
  cases h; exact ⟨hw, rfl, o, rfl⟩
theorem Sim.raise (e e' : PyErr) : Sim (α := α) (Py.raise e) (Py.raise e') := fun hw o w' h => by cases h
theorem Sim.bind {hx hy : Py (HWorld α) Unit} {x y : Py (World α) Unit} (h : Sim hx x) (h' : Sim hy y) :
    Sim (hx >>= fun _ => hy) (x >>= fun _ => y) := fun hw o w' e => by
  obtain ⟨_, w1, e1, e2⟩ := Py.bind_eq_ok.1 e
  obtain ⟨hw1, h1, o1, a1⟩ := h hw o w1 e1
  subst a1
  obtain ⟨hw2, h2, o2, a2⟩ := h' hw1 o1 w' e2
  exact ⟨hw2, by rw [Py.bind_ok h1, h2], o2, a2⟩
/-- both read their state first -/
theorem Sim.get {hf : HWorld α → Py (HWorld α) Unit} {f : World α → Py (World α) Unit} (h : ∀ hw, Sim (hf hw) (f hw.abs)) :
    Sim (Py.get >>= hf) (Py.get >>= f) := fun hw o w' e => h hw hw o w' e
theorem Sim.lift {β : Type} {hf : β → Py (HWorld α) Unit} {f : β → Py (World α) Unit} (x : Except PyErr β) (h : ∀ b, Sim (hf b) (f b)) :
    Sim (Py.lift x >>= hf) (Py.lift x >>= f) := fun hw o w' e => by
  cases x with
  | error _ => cases e
  | ok b => exact h b hw o w' e
theorem Sim.forM {β : Type} {hf : β → Py (HWorld α) Unit} {f : β → Py (World α) Unit} (h : ∀ b, Sim (hf b) (f b)) :
    ∀ xs, Sim (Py.forM xs hf) (Py.forM xs f)
  | [] => Sim.pure
  | b :: xs => (h b).bind (Sim.forM h xs)
/-- changes of attributes that are not tensors -/
theorem Sim.setOpt {f g : Opt α → Opt α} (h : ∀ (b : World α) (v : Slot → Option (SM α)),
    World.build { b with opt := f b.opt } v = { b.build v with opt := g (b.build v).opt }) : Sim (setOpt f) (World.setOpt g) :=
  fun hw o w' e => by
    cases e
    exact ⟨_, rfl, ⟨o.nodup, o.lt, o.sep, o.data, o.mom⟩, h hw.base hw.val⟩

end HWorld
