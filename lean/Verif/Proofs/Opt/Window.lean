import Verif.Proofs.Opt.Two
import Verif.Proofs.Opt.Chunk

/-! Forward and backward passes between two steps: what they add to the statistics. -/

set_option linter.unusedSectionVars false
open Matrix
variable {α : Type} [Field α] [LinearOrder α] [IsStrictOrderedRing α] [LawfulSqrt α]

/-- operations that leave parameters, factors and hyper-parameters alone -/
def Op.Quiet : Op α → Prop
  | .forward _ _ _ => True
  | .backward _ _ => True
  | .setGrad _ _ => True
  | .setScale _ => True
  | _ => False

/-- the backward pass through a layer called `n`, if the operation is one: input and output gradient -/
def firedOp (n : String) (op : Op α) (w : World α) : List (ND α × ND α) := match op with
  | .backward k g => (w.hooks[k]?.toList.filter fun mx => mx.1.name = n).map fun mx => (mx.2, g)
  | _ => []

/-- the backward passes through layers called `n` of a history: inputs and output gradients -/
def fired (n : String) : List (Op α) → World α → List (ND α × ND α)
  | [], _ => []
  | op :: ops, w => firedOp n op w ++ fired n ops (exec op w).2

theorem fired_append (n : String) : ∀ (xs ys : List (Op α)) (w : World α), fired n (xs ++ ys) w = fired n xs w ++ fired n ys (run xs w)
  | [], _, _ => rfl
  | x :: xs, ys, w => by
    rw [List.cons_append, fired, fired, fired_append n xs ys, List.append_assoc]; rfl

/-- what passes between steps do to layer `m`, given the inputs and output gradients `fs` of its backward passes -/
structure WinSpec (cl : Cls × Cls) (m : Layer) (h : Hyper α) (p : α) (fs : List (ND α × ND α)) (w w' : World α) : Prop where
  HK : denO (w'.opt.HKs m.name) m.nK = denO (w.opt.HKs m.name) m.nK +
    (fs.map fun e => cl.1.proj m.nK (cl.1.sandwich (denO (w.opt.Ks m.name) m.nK) (inputMoment h m e.1))).sum
  HC : denO (w'.opt.HCs m.name) m.nC = denO (w.opt.HCs m.name) m.nC +
    (1 / p) • (fs.map fun e => cl.2.proj m.nC (cl.2.sandwich (denO (w.opt.Cs m.name) m.nC) (gradMoment h m e.2))).sum
  HK0 : w'.opt.HKs m.name = none ↔ w.opt.HKs m.name = none ∧ fs = []
  HC0 : w'.opt.HCs m.name = none ↔ w.opt.HCs m.name = none ∧ fs = []

theorem WinSpec.nil {cl : Cls × Cls} {m : Layer} {h : Hyper α} {p : α} {w w' : World α} (h1 : w'.opt.HKs = w.opt.HKs)
    (h2 : w'.opt.HCs = w.opt.HCs) : WinSpec cl m h p [] w w' := ⟨by simp [h1], by simp [h2], by simp [h1], by simp [h2]⟩

theorem WinSpec.trans {cl : Cls × Cls} {m : Layer} {h : Hyper α} {p : α} {fs fs' : List (ND α × ND α)} {u v w : World α}
    (h1 : WinSpec cl m h p fs u v) (h2 : WinSpec cl m h p fs' v w) (hK : v.opt.Ks = u.opt.Ks) (hC : v.opt.Cs = u.opt.Cs) :
    WinSpec cl m h p (fs ++ fs') u w := by
  refine ⟨?_, ?_, ?_, ?_⟩
  · rw [h2.HK, h1.HK, hK, List.map_append, List.sum_append, add_assoc]
  · rw [h2.HC, h1.HC, hC, List.map_append, List.sum_append, smul_add, add_assoc]
  · rw [h2.HK0, h1.HK0]; simp [and_assoc]
  · rw [h2.HC0, h1.HC0]; simp [and_assoc]

/-- the state after passes between steps -/
structure Window (cl : String → Cls × Cls) (ops : List (Op α)) (w w' : World α) : Prop where
  live : w'.Live cl
  layers : w'.opt.layers = w.opt.layers
  ptrGroup : w'.opt.ptrGroup = w.opt.ptrGroup
  groups : w'.opt.groups = w.opt.groups
  steps : w'.opt.steps = w.opt.steps
  prev : w'.opt.scales ((w.opt.steps : ℤ) - 1) = w.opt.scales ((w.opt.steps : ℤ) - 1)
  Ks : w'.opt.Ks = w.opt.Ks
  Cs : w'.opt.Cs = w.opt.Cs
  mKs : w'.opt.mKs = w.opt.mKs
  mCs : w'.opt.mCs = w.opt.mCs
  mom : w'.opt.mom = w.opt.mom
  data : w'.data = w.data
  stats : ∀ m ∈ w.opt.layers, ∀ h p, w.opt.hyperOf m = .ok h → w.opt.scales ((w.opt.steps : ℤ) - 1) = some p →
    WinSpec (cl m.name) m h p (fired m.name ops w) w w'

theorem Window.hyperOf {cl : String → Cls × Cls} {ops : List (Op α)} {w w' : World α} (h : Window cl ops w w') (m : Layer) :
    w'.opt.hyperOf m = w.opt.hyperOf m := by unfold Opt.hyperOf; rw [h.ptrGroup, h.groups]

theorem World.Live.quiet1 {cl : String → Cls × Cls} {w : World α} (hw : w.Live cl) {op : Op α} (hq : op.Quiet) (hf : FitsOp w op) :
    Window cl [op] w (_root_.exec op w).2 := by
  obtain ⟨w', e, l⟩ := hw.exec hf
  have l' : (_root_.exec op w).2.Live cl := by rw [e]; exact l
  cases op with
  | forward i x ge =>
    rw [exec_forward_state] at l' ⊢
    exact ⟨l', rfl, rfl, rfl, rfl, rfl, rfl, rfl, rfl, rfl, rfl, rfl, fun m _ h p _ _ => WinSpec.nil rfl rfl⟩
  | setGrad p G => exact ⟨l', rfl, rfl, rfl, rfl, rfl, rfl, rfl, rfl, rfl, rfl, rfl, fun m _ h p _ _ => WinSpec.nil rfl rfl⟩
  | setScale s =>
    have es : (_root_.exec (.setScale s) w).2 = _ := World.setScale_state s w
    rw [es] at l' ⊢
    refine ⟨l', rfl, rfl, rfl, rfl, ?_, rfl, rfl, rfl, rfl, rfl, rfl, fun m _ h p _ _ => WinSpec.nil rfl rfl⟩
    show Dict.set w.opt.scales w.opt.steps s ((w.opt.steps : ℤ) - 1) = _
    rw [Dict.set, Function.update_of_ne (by omega)]
  | backward k g =>
    rcases hk : w.hooks[k]? with _ | mx
    · rw [exec_backward_none hk] at l' ⊢
      refine ⟨l', rfl, rfl, rfl, rfl, rfl, rfl, rfl, rfl, rfl, rfl, rfl, fun m _ h p _ _ => ?_⟩
      simp only [fired, firedOp, hk, Option.toList_none, List.filter_nil, List.map_nil, List.nil_append]
      exact WinSpec.nil rfl rfl
    · obtain ⟨hm, hy, p, hh, hp, p0, b⟩ := hw.back hk hf
      have f := b.frame
      refine ⟨l', f.layers, f.ptrGroup, f.groups, f.steps, by rw [f.scales], funext fun n => f.Ks n id, funext fun n => f.Cs n id,
        funext fun n => f.mKs n id, funext fun n => f.mCs n id, funext fun n => f.mom n id, funext fun n => f.data n id, ?_⟩
      intro m hm' h p' hh' hp'
      rw [hp] at hp'; cases hp'
      by_cases e : m.name = mx.1.name
      · obtain rfl := hw.sound.untied.name_inj hm' hm e
        rw [hh] at hh'; cases hh'
        simp only [fired, firedOp, hk, Option.toList_some, decide_true, List.filter_cons_of_pos, List.filter_nil, List.map_cons, List.map_nil,
          List.append_nil]
        refine ⟨by rw [b.HK]; simp, by rw [b.HC]; simp, ?_, ?_⟩
        · simp [b.someK]
        · simp [b.someC]
      · have e' : ¬ mx.1.name = m.name := fun h => e h.symm
        simp only [fired, firedOp, hk, Option.toList_some, e', decide_false, Bool.false_eq_true, not_false_eq_true, List.filter_cons_of_neg,
          List.filter_nil, List.map_nil, List.append_nil]
        have h1 := f.HKs m.name e
        have h2 := f.HCs m.name e
        exact ⟨by simp [h1], by simp [h2], by simp [h1], by simp [h2]⟩
  | setParam => exact hq.elim
  | setHyper => exact hq.elim
  | step => exact hq.elim

/-- passes between steps -/
theorem World.Live.window {cl : String → Cls × Cls} : ∀ {ops : List (Op α)} {w : World α}, w.Live cl → FitsRun w ops →
    (∀ op ∈ ops, op.Quiet) → Window cl ops w (_root_.run ops w)
  | [], w, hw, _, _ => ⟨hw, rfl, rfl, rfl, rfl, rfl, rfl, rfl, rfl, rfl, rfl, rfl, fun m _ h p _ _ => WinSpec.nil rfl rfl⟩
  | op :: ops, w, hw, hf, hq => by
    have a := hw.quiet1 (hq op (by simp)) hf.1
    have b := World.Live.window (ops := ops) a.live hf.2 fun o ho => hq o (by simp [ho])
    rw [run_cons]
    have est := a.steps
    refine ⟨b.live, by rw [b.layers, a.layers], by rw [b.ptrGroup, a.ptrGroup], by rw [b.groups, a.groups], by rw [b.steps, a.steps],
      ?_, by rw [b.Ks, a.Ks], by rw [b.Cs, a.Cs], by rw [b.mKs, a.mKs], by rw [b.mCs, a.mCs], by rw [b.mom, a.mom], by rw [b.data, a.data], ?_⟩
    · rw [← a.prev]; have := b.prev; rw [est] at this; exact this
    · intro m hm h p hh hp
      have h1 := a.stats m hm h p hh hp
      have h2 := b.stats m (by rw [a.layers]; exact hm) h p (by rw [a.hyperOf]; exact hh) (by rw [est, a.prev]; exact hp)
      have := h1.trans h2 a.Ks a.Cs
      have e : fired m.name (op :: ops) w = fired m.name [op] w ++ fired m.name ops (_root_.exec op w).2 := fired_append m.name [op] ops w
      rw [e]; exact this
