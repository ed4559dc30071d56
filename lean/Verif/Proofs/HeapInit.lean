import Verif.Proofs.HeapStep

set_option linter.unusedSectionVars false

/-! A new optimizer at the level of memory. -/

variable {α : Type} [Field α] [LinearOrder α] [HasSqrt α]

namespace HWorld
open Mem

theorem assign_bind {β : Type} (s : Slot) (r : Option (SM ℕ)) (f : Unit → Py (HWorld α) β) (hw : HWorld α) :
    (assign s r >>= f) hw = f () { hw with ref := Function.update hw.ref s r } := rfl

/-- storing a new matrix -/
theorem assign_sm {hw : HWorld α} (o : Owned hw) {s : Slot} (hs : ∀ p, s ≠ .data p ∧ s ≠ .mom p) {m' : Mem α} {r : SM ℕ} {X : SM α}
    (N : New hw.mem m' r X) : Owned { hw with mem := m', ref := Function.update hw.ref s (some r) } ∧
    ({ hw with mem := m', ref := Function.update hw.ref s (some r) } : HWorld α).val = Function.update hw.val s (some X) := by
  have t := Temp.of_new o N
  refine ⟨(o.ext N.ext).assign t.nodup t.lt (fun s' r' _ h' => t.sep s' r' h') fun p hp => ?_, ?_⟩
  · rcases hp with hp | hp
    · exact absurd hp (hs p).1
    · exact absurd hp (hs p).2
  · rw [← N.read]
    exact (val_assign (hw := { hw with mem := m' }) s r).trans (by rw [o.val_ext N.ext])

/-- `x` on the optimizer is the memory-level method `hx` -/
theorem initLayer_spec {hw : HWorld α} (o : Owned hw) {m : Layer} {O : Opt α} (e : Construct.initLayer hw.abs.opt m = .ok O) :
    ∃ hw', initLayer m hw = (.ok (), hw') ∧ Owned hw' ∧ hw'.abs = { hw.abs with opt := O } := by
  obtain ⟨d, ed, e⟩ := IOProof.Except.bind_eq_ok e
  obtain ⟨h, eh, e⟩ := IOProof.Except.bind_eq_ok e
  obtain ⟨cK, ecK, e⟩ := IOProof.Except.bind_eq_ok e
  obtain ⟨cC, ecC, e⟩ := IOProof.Except.bind_eq_ok e
  obtain ⟨K, eK, e⟩ := IOProof.Except.bind_eq_ok e
  obtain ⟨C, eC, e⟩ := IOProof.Except.bind_eq_ok e
  change hw.base.opt.hyperOf m = .ok h at eh
  change lookup hw.base.opt.structs h.structures.1 = .ok cK at ecK
  change lookup hw.base.opt.structs h.structures.2 = .ok cC at ecC
  obtain ⟨r1, m1, f1, N1⟩ := eye_spec hw.mem eK
  obtain ⟨o1, v1⟩ := assign_sm o (s := .K m.name) (by simp) N1
  set hw1 : HWorld α := { hw with mem := m1, ref := Function.update hw.ref (.K m.name) (some r1) } with d1
  obtain ⟨r2, m2, f2, N2⟩ := eye_spec hw1.mem eC
  obtain ⟨o2, v2⟩ := assign_sm o1 (s := .C m.name) (by simp) N2
  set hw2 : HWorld α := { hw1 with mem := m2, ref := Function.update hw1.ref (.C m.name) (some r2) } with d2
  have a2 : hw2.abs = { hw.abs with opt := { hw.abs.opt with Ks := Dict.set hw.abs.opt.Ks m.name K, Cs := Dict.set hw.abs.opt.Cs m.name C } } := by
    rw [abs, v2, v1, build_C, build_K]; rfl
  unfold initLayer
  rw [Py.get_bind_run, lift_bind ed, lift_bind eh, lift_bind ecK, lift_bind ecC, Py.bind_ok (onMem_run f1)]
  rw [assign_bind, Py.bind_ok (onMem_run (hw := hw1) f2), assign_bind]
  split at e
  · rename_i ha
    rw [if_pos ha]
    obtain ⟨MK, eMK, e⟩ := IOProof.Except.bind_eq_ok e
    obtain ⟨MC, eMC, e⟩ := IOProof.Except.bind_eq_ok e
    cases e
    obtain ⟨r3, m3, f3, N3⟩ := zeros_spec hw2.mem eMK
    obtain ⟨o3, v3⟩ := assign_sm o2 (s := .mK m.name) (by simp) N3
    set hw3 : HWorld α := { hw2 with mem := m3, ref := Function.update hw2.ref (.mK m.name) (some r3) } with d3
    obtain ⟨r4, m4, f4, N4⟩ := zeros_spec hw3.mem eMC
    obtain ⟨o4, v4⟩ := assign_sm o3 (s := .mC m.name) (by simp) N4
    refine ⟨_, ?_, o4, ?_⟩
    · rw [Py.bind_ok (onMem_run (hw := hw2) f3), assign_bind, Py.bind_ok (onMem_run (hw := hw3) f4)]; rfl
    · rw [abs, v4, v3, build_mC, build_mK]
      have b : hw3.base.build hw2.val = hw2.abs := rfl
      simp only [b, a2]
      rfl
  · rename_i ha
    rw [if_neg ha]
    cases e
    exact ⟨hw2, rfl, o2, a2⟩

theorem initBuffers_spec : ∀ (ms : List Layer) {hw : HWorld α}, Owned hw → ∀ {O : Opt α}, Construct.initBuffers ms hw.abs.opt = .ok O →
    ∃ hw', Py.forM ms initLayer hw = (.ok (), hw') ∧ Owned hw' ∧ hw'.abs = { hw.abs with opt := O }
  | [], hw, o, O, e => by cases e; exact ⟨hw, rfl, o, rfl⟩
  | m :: ms, hw, o, O, e => by
    obtain ⟨O1, e1, e⟩ := IOProof.Except.bind_eq_ok e
    obtain ⟨hw1, f1, o1, a1⟩ := initLayer_spec o e1
    obtain ⟨hw2, f2, o2, a2⟩ := initBuffers_spec ms o1 (O := O) (by rw [a1]; exact e)
    exact ⟨hw2, by rw [Py.forM, Py.bind_ok f1, f2], o2, by rw [a2, a1]⟩

theorem fresh_spec {hw : HWorld α} (o : Owned hw) (structs : String → Option Cls) (layers : List Layer) (gs : List (PGroup α)) (s : α) :
    ∃ hw', fresh (Construct.blank structs layers gs s) hw = (.ok (), hw') ∧ Owned hw' ∧
      hw'.abs = { hw.abs with opt := Construct.blank structs layers gs s } := by
  refine ⟨_, rfl, ⟨fun t r h => ?_, fun t r h => ?_, fun t t' r r' ht h h' => ?_, o.data, fun p r h => by cases h⟩, ?_⟩
  · cases t <;> first | (exact o.nodup _ r h) | cases h
  · cases t <;> first | (exact o.lt _ r h) | cases h
  · cases t <;> first | cases h; done | (cases t' <;> first | cases h'; done | exact o.sep _ _ r r' ht h h')
  · rfl

theorem init_spec {hw : HWorld α} (o : Owned hw) {structs : String → Option Cls} {model : Model} {p : ParamArg α} {a : Args α} {O : Opt α}
    {ws : List Warn} (e : Construct.init structs model p a = .ok (O, ws)) :
    ∃ hw', init structs model p a hw = (.ok ws, hw') ∧ Owned hw' ∧ hw'.abs = { hw.abs with opt := O } := by
  unfold Construct.init at e
  unfold init
  split at e
  · cases e
  · rename_i hm
    rw [if_neg hm]
    obtain ⟨_, e1, e⟩ := IOProof.Except.bind_eq_ok e
    obtain ⟨gs, e2, e⟩ := IOProof.Except.bind_eq_ok e
    obtain ⟨cg, e3, e⟩ := IOProof.Except.bind_eq_ok e
    obtain ⟨_, e4, e⟩ := IOProof.Except.bind_eq_ok e
    obtain ⟨O', e5, e⟩ := IOProof.Except.bind_eq_ok e
    cases e
    obtain ⟨hw1, f1, o1, a1⟩ := fresh_spec o structs model.layers cg.1 a.initGradScale
    obtain ⟨hw2, f2, o2, a2⟩ := initBuffers_spec (Construct.hooked model.layers cg.1) o1 (O := O) (by rw [a1]; exact e5)
    refine ⟨hw2, ?_, o2, by rw [a2, a1]⟩
    rw [lift_bind e1, lift_bind e2, lift_bind e3, lift_bind e4, Py.bind_ok f1, Py.bind_ok f2]
    rfl

end HWorld
