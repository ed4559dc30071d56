import Verif.Proofs.Opt.Init
import Verif.Props.OptSamples

/-! C29-C31, C33, C36, C37, C44: arbitrary histories of operations, including operations that raise. -/

set_option linter.unusedSectionVars false
variable {α : Type} [Field α] [LinearOrder α] [HasSqrt α]

/-! ### C29 -/

/-- `T ≥ 1` divides the step counter, for the layer's current `T` -/
def OnStep (w : World α) (m : Layer) : Prop := ∃ h, w.opt.hyperOf m = .ok h ∧ h.T ≠ 0 ∧ h.T ∣ w.opt.steps

theorem onStep_iff {w : World α} {m : Layer} : World.Updates w.opt m ↔ OnStep w m := by
  unfold World.Updates OnStep
  constructor <;> rintro ⟨h, a, b, c⟩ <;> exact ⟨h, a, b, by first | exact Nat.dvd_of_mod_eq_zero c | exact Nat.mod_eq_zero_of_dvd c⟩

/-- decidable test for examples -/
def Sample.onStep (w : World ℚ) (m : Layer) : Bool := match w.opt.hyperOf m with
  | .ok h => decide (h.T ≠ 0 ∧ h.T ∣ w.opt.steps)
  | .error _ => false
theorem Sample.onStep_iff {w : World ℚ} {m : Layer} : Sample.onStep w m = true ↔ OnStep w m := by
  unfold Sample.onStep OnStep
  rcases w.opt.hyperOf m with e | h <;> simp

/-- **C29 (factors).** Whatever the state: if an operation changes a factor or factor momentum of some layer name, it is a
`step` without infs, and there is a layer of that name whose `T` divides the step counter. -/
theorem C29_factors_change_only_on_update_steps (op : Op α) (w : World α) (n : String)
    (h : (exec op w).2.opt.Ks n ≠ w.opt.Ks n ∨ (exec op w).2.opt.Cs n ≠ w.opt.Cs n ∨
      (exec op w).2.opt.mKs n ≠ w.opt.mKs n ∨ (exec op w).2.opt.mCs n ≠ w.opt.mCs n) :
    (∃ attr, op = .step false attr false) ∧ ∃ m ∈ w.opt.layers, m.name = n ∧ OnStep w m := by
  cases op with
  | forward i x ge => rcases exec_forward i x ge w with e | ⟨_, m, _, _, e⟩ <;> simp [e] at h
  | backward k g =>
    have f := exec_backward k g w
    simp [f.Ks n id, f.Cs n id, f.mKs n id, f.mCs n id] at h
  | setGrad p G => simp [exec, Py.modify] at h
  | setParam p M => simp [exec, Py.modify] at h
  | setHyper i h' => simp [exec, World.setOpt, Py.modify] at h
  | setScale s => simp [exec, World.setScale_state] at h
  | step c attr f =>
    cases c
    · have fr := stepBody_frame f (World.withScale attr w)
      have key : ∀ v : World α, Frame (fun n => f = false ∧ ∃ m ∈ w.opt.layers, n = m.name ∧ World.Updates w.opt m)
          (fun n => ∃ m ∈ w.opt.layers, n = m.name ∧ (f = true ∨ World.Updates w.opt m))
          (fun p => f = false ∧ ∃ m ∈ w.opt.layers, World.Owns m p) (World.withScale attr w) v →
          (v.opt.Ks n ≠ w.opt.Ks n ∨ v.opt.Cs n ≠ w.opt.Cs n ∨ v.opt.mKs n ≠ w.opt.mKs n ∨ v.opt.mCs n ≠ w.opt.mCs n) →
          (∃ attr', (Op.step false attr f : Op α) = .step false attr' false) ∧ ∃ m ∈ w.opt.layers, m.name = n ∧ OnStep w m :=
        fun v fr hv => by
          by_contra hc
          have hn : ¬ (f = false ∧ ∃ m ∈ w.opt.layers, n = m.name ∧ World.Updates w.opt m) := by
            rintro ⟨rfl, m, h1, h2, h3⟩
            exact hc ⟨⟨attr, rfl⟩, m, h1, h2.symm, onStep_iff.1 h3⟩
          rw [fr.Ks n hn, fr.Cs n hn, fr.mKs n hn, fr.mCs n hn] at hv
          simp [World.withScale] at hv
      rw [exec] at h
      rcases step_state attr f w with e | ⟨e', e⟩ | ⟨w1, e1, e⟩
      · simp [e, World.withScale] at h
      · rw [e] at h; exact key _ fr h
      · rw [e] at h; rw [e1] at fr; exact key w1 fr h
    · rw [exec, step_closure] at h; simp at h

-- the first step changes the factor of layer "a", and 2 divides 0; the second changes nothing
example : (exec (.step false none false) Sample.w1).2.opt.Ks "a" ≠ Sample.w1.opt.Ks "a" ∧ OnStep Sample.w1 Sample.la :=
  ⟨fun h => absurd (congrArg Sample.fac h) (by decide +kernel), Sample.onStep_iff.1 (by decide +kernel)⟩
example : ¬ OnStep Sample.w2 Sample.la ∧ (exec (.step false none false) Sample.w2).1.toBool = true ∧
    Sample.fac ((exec (.step false none false) Sample.w2).2.opt.Ks "a") = Sample.fac (Sample.w2.opt.Ks "a") :=
  ⟨fun h => absurd (Sample.onStep_iff.2 h) (by decide +kernel), by decide +kernel, by decide +kernel⟩

/-- **C29 (statistics are consumed only in steps).** If an operation removes the statistics of a layer name, it is a `step`,
and it found infs or there is a layer of that name whose `T` divides the step counter. If it changes them otherwise, it
is a backward pass of a hook registered for a layer of that name. -/
theorem C29_statistics_change (op : Op α) (w : World α) (n : String)
    (h : (exec op w).2.opt.HKs n ≠ w.opt.HKs n ∨ (exec op w).2.opt.HCs n ≠ w.opt.HCs n) :
    (∃ k g mx, op = .backward k g ∧ w.hooks[k]? = some mx ∧ mx.1.name = n) ∨
    (∃ attr f, op = .step false attr f ∧ ∃ m ∈ w.opt.layers, m.name = n ∧ (f = true ∨ OnStep w m)) := by
  cases op with
  | forward i x ge => rcases exec_forward i x ge w with e | ⟨_, m, _, _, e⟩ <;> simp [e] at h
  | backward k g =>
    left
    have f := exec_backward k g w
    by_contra hc
    have hn : ¬ ∃ mx, w.hooks[k]? = some mx ∧ n = mx.1.name := by
      rintro ⟨mx, h1, h2⟩; exact hc ⟨k, g, mx, rfl, h1, h2.symm⟩
    simp [f.HKs n hn, f.HCs n hn] at h
  | setGrad p G => simp [exec, Py.modify] at h
  | setParam p M => simp [exec, Py.modify] at h
  | setHyper i h' => simp [exec, World.setOpt, Py.modify] at h
  | setScale s => simp [exec, World.setScale_state] at h
  | step c attr f =>
    right
    cases c
    · have fr := stepBody_frame f (World.withScale attr w)
      refine ⟨attr, f, rfl, ?_⟩
      by_contra hc
      have hn : ¬ ∃ m ∈ (World.withScale attr w).opt.layers, n = m.name ∧ (f = true ∨ World.Updates (World.withScale attr w).opt m) := by
        rintro ⟨m, h1, h2, h3⟩; exact hc ⟨m, h1, h2.symm, h3.imp id onStep_iff.1⟩
      rw [exec] at h
      rcases step_state attr f w with e | ⟨e', e⟩ | ⟨w1, e1, e⟩
      · simp [e, World.withScale] at h
      · rw [e, fr.HKs n hn, fr.HCs n hn] at h; simp [World.withScale] at h
      · rw [e] at h
        rw [e1] at fr
        have a := fr.HKs n hn
        have b := fr.HCs n hn
        simp only [Opt.removeUsedScales] at h a b
        rw [a, b] at h; simp [World.withScale] at h
    · rw [exec, step_closure] at h; simp at h

example : (exec (.step false none false) Sample.w1).2.opt.HKs "a" ≠ Sample.w1.opt.HKs "a" :=
  fun h => absurd (congrArg Sample.fac h) (by decide +kernel)
example : (exec (.backward 1 (Sample.row [5])) Sample.w1).2.opt.HKs "b" ≠ Sample.w1.opt.HKs "b" :=
  fun h => absurd (congrArg Sample.fac h) (by decide +kernel)

/-- **C29 (collection is prepared only in update steps).** If an operation registers a tensor hook, it is a forward pass with
gradients enabled through a layer whose `T` divides the step counter. -/
theorem C29_hooks_change (op : Op α) (w : World α) (h : (exec op w).2.hooks ≠ w.hooks) :
    ∃ i x m, op = .forward i x true ∧ w.opt.layers[i]? = some m ∧ OnStep w m ∧ (exec op w).2.hooks = w.hooks ++ [(m, x)] := by
  cases op with
  | forward i x ge =>
    rcases exec_forward i x ge w with e | ⟨rfl, m, h1, h2, e⟩
    · simp [e] at h
    · exact ⟨i, x, m, rfl, h1, onStep_iff.1 h2, by rw [e]⟩
  | backward k g => have f := exec_backward k g w; exact absurd f.hooks h
  | setGrad p G => simp [exec, Py.modify] at h
  | setParam p M => simp [exec, Py.modify] at h
  | setHyper i h' => simp [exec, World.setOpt, Py.modify] at h
  | setScale s => simp [exec, World.setScale_state] at h
  | step c attr f =>
    exfalso
    apply h
    cases c
    · have fr := stepBody_frame f (World.withScale attr w)
      rw [exec]
      rcases step_state attr f w with e | ⟨e', e⟩ | ⟨w1, e1, e⟩
      · rw [e]; rfl
      · rw [e, fr.hooks]; rfl
      · rw [e]; rw [e1] at fr; exact fr.hooks
    · rw [exec, step_closure]

example : (exec (.forward 0 (Sample.row [2]) true) Sample.w0).2.hooks ≠ Sample.w0.hooks :=
  fun h => absurd (congrArg List.length h) (by decide +kernel)

/-- 1 for a call of `step` that returned, else 0 -/
def Op.completed (op : Op α) (r : Except PyErr Unit) : ℕ := match op with
  | .step _ _ _ => match r with
    | .ok _ => 1
    | .error _ => 0
  | _ => 0

/-- number of `step` calls in a history that completed -/
def completedSteps : List (Op α) → World α → ℕ
  | [], _ => 0
  | op :: ops, w => op.completed (exec op w).1 + completedSteps ops (exec op w).2

/-- **C29 (counter).** After any history the step counter is the initial one plus the number of completed `step` calls. -/
theorem C29_counter (ops : List (Op α)) (w : World α) : (run ops w).opt.steps = w.opt.steps + completedSteps ops w := by
  induction ops generalizing w with
  | nil => rfl
  | cons op ops ih =>
    rw [run_cons, ih, completedSteps, ← Nat.add_assoc]
    congr 1
    cases op with
    | forward i x ge => rcases exec_forward i x ge w with e | ⟨_, m, _, _, e⟩ <;> simp [e, Op.completed]
    | backward k g => have f := exec_backward k g w; simp [f.steps, Op.completed]
    | setGrad p G => rfl
    | setParam p M => rfl
    | setHyper i h' => rfl
    | setScale s => simp [exec, World.setScale_state, Op.completed]
    | step c attr f =>
      cases c
      · have fr := stepBody_frame f (World.withScale attr w)
        have e0 := World.ensureScale_state attr w
        simp only [exec]
        rcases hs : World.step false attr f w with ⟨r, v⟩
        rcases r with e | u
        · rcases step_state attr f w with e1 | ⟨e', e1⟩ | ⟨w1, _, e1⟩
          · rw [hs] at e1; simp only at e1; subst e1; rfl
          · rw [hs] at e1; simp only [Prod.mk.injEq] at e1; rw [e1.2, fr.steps]; rfl
          · rw [hs] at e1; simp at e1
        · obtain ⟨_, w1, h1, h2⟩ := World.step_ok_iff.1 hs
          rw [h1] at fr
          simp only at fr ⊢
          rw [h2]
          show w1.opt.steps + 1 = _
          rw [fr.steps]; rfl
      · simp only [exec, step_closure]; rfl

-- of three calls, the first fails (no statistics), the others complete
example : completedSteps ([.step false none false] ++ Sample.pass ++ [.step false none false, .step false none true]) Sample.w0 = 2 := by
  decide +kernel

/-- the steps at which the hooks of a state were registered, along a history -/
def hookSteps : List (Op α) → World α → List ℕ → List ℕ
  | [], _, tags => tags
  | op :: ops, w, tags => hookSteps ops (exec op w).2
      (tags ++ List.replicate ((exec op w).2.hooks.length - w.hooks.length) w.opt.steps)

/-- every backward pass of the history runs in the step of its forward pass -/
def Timely : List (Op α) → World α → List ℕ → Prop
  | [], _, _ => True
  | op :: ops, w, tags => (∀ k g, op = .backward k g → ∀ t, tags[k]? = some t → t = w.opt.steps) ∧
      Timely ops (exec op w).2 (tags ++ List.replicate ((exec op w).2.hooks.length - w.hooks.length) w.opt.steps)

/-- hyper-parameters are not changed -/
def NoSetHyper (ops : List (Op α)) : Prop := ∀ i h, Op.setHyper i h ∉ ops

/-- tags describe the hooks: each hook's layer is one of the optimizer's, and had its `T` dividing the tagged step -/
def TagInv (w : World α) (tags : List ℕ) : Prop := tags.length = w.hooks.length ∧
  ∀ (k : ℕ) mx t, w.hooks[k]? = some mx → tags[k]? = some t → ∃ h, w.opt.hyperOf mx.1 = .ok h ∧ h.T ≠ 0 ∧ h.T ∣ t

theorem exec_hyperOf (op : Op α) (w : World α) (h : ∀ i h, op ≠ .setHyper i h) (m : Layer) :
    (exec op w).2.opt.hyperOf m = w.opt.hyperOf m := by
  have key : (exec op w).2.opt.groups = w.opt.groups := by
    cases op with
    | forward i x ge => rcases exec_forward i x ge w with e | ⟨_, m, _, _, e⟩ <;> rw [e]
    | backward k g => exact (exec_backward k g w).groups
    | setGrad p G => rfl
    | setParam p M => rfl
    | setHyper i h' => exact absurd rfl (h i h')
    | setScale s => rw [exec, World.setScale_state]
    | step c attr f =>
      cases c
      · have fr := stepBody_frame f (World.withScale attr w)
        rw [exec]
        rcases step_state attr f w with e | ⟨e', e⟩ | ⟨w1, e1, e⟩
        · rw [e]; rfl
        · rw [e, fr.groups]; rfl
        · rw [e]; rw [e1] at fr; exact fr.groups
      · rw [exec, step_closure]
  unfold Opt.hyperOf
  rw [key, (exec_static op w).2.1]

theorem tagInv_step (op : Op α) (w : World α) (tags : List ℕ) (h : ∀ i h, op ≠ .setHyper i h) (ht : TagInv w tags) :
    TagInv (exec op w).2 (tags ++ List.replicate ((exec op w).2.hooks.length - w.hooks.length) w.opt.steps) := by
  by_cases hh : (exec op w).2.hooks = w.hooks
  · rw [hh, Nat.sub_self, List.replicate_zero, List.append_nil]
    refine ⟨by rw [hh]; exact ht.1, fun k mx t h1 h2 => ?_⟩
    rw [hh] at h1
    rw [exec_hyperOf op w h]; exact ht.2 k mx t h1 h2
  · obtain ⟨i, x, m, rfl, hm, hu, e⟩ := C29_hooks_change op w hh
    rw [e]
    simp only [List.length_append, List.length_cons, List.length_nil, Nat.zero_add, Nat.add_sub_cancel_left, List.replicate_one]
    refine ⟨by rw [e]; simp [ht.1], fun k mx t h1 h2 => ?_⟩
    rw [e] at h1
    rw [exec_hyperOf _ w h]
    by_cases hk : k < w.hooks.length
    · rw [List.getElem?_append_left hk] at h1
      rw [List.getElem?_append_left (by rw [ht.1]; exact hk)] at h2
      exact ht.2 k mx t h1 h2
    · rw [List.getElem?_append_right (by omega)] at h1
      rw [List.getElem?_append_right (by rw [ht.1]; omega)] at h2
      rw [ht.1] at h2
      have : k - w.hooks.length = 0 := by
        by_contra hc
        rw [List.getElem?_eq_none (by simp; omega)] at h1; cases h1
      rw [this] at h1 h2
      simp at h1 h2
      subst h1; subst h2
      exact hu

/-- **C29 (collection), for timely backward passes and constant hyper-parameters.** Starting without hooks, at any point of a
history in which every backward pass runs in the step of its forward pass, an operation that adds to or creates
statistics of a layer does so in a step that is a multiple of the layer's `T`. The full claim (without `Timely`) is
false, see `C29_late_backward_false`. -/
theorem C29_collection_partial (ops : List (Op α)) (op : Op α) (w : World α) (hw : w.hooks = []) (hh : NoSetHyper (ops ++ [op]))
    (ht : Timely (ops ++ [op]) w []) (n : String)
    (h : (exec op (run ops w)).2.opt.HKs n ≠ (run ops w).opt.HKs n ∨ (exec op (run ops w)).2.opt.HCs n ≠ (run ops w).opt.HCs n)
    (hb : ∀ attr, op ≠ .step false attr true) :
    ∃ m, m.name = n ∧ OnStep (run ops w) m := by
  have key : ∀ (ops : List (Op α)) (w : World α) (tags : List ℕ), TagInv w tags → NoSetHyper (ops ++ [op]) → Timely (ops ++ [op]) w tags →
      ((exec op (run ops w)).2.opt.HKs n ≠ (run ops w).opt.HKs n ∨ (exec op (run ops w)).2.opt.HCs n ≠ (run ops w).opt.HCs n) →
      ∃ m, m.name = n ∧ OnStep (run ops w) m := by
    intro ops
    induction ops with
    | nil =>
      intro w tags hi _ ht h
      change (exec op w).2.opt.HKs n ≠ w.opt.HKs n ∨ (exec op w).2.opt.HCs n ≠ w.opt.HCs n at h
      rcases C29_statistics_change op w n h with ⟨k, g, mx, rfl, h1, h2⟩ | ⟨attr, f, rfl, m, h1, h2, h3⟩
      · have hk : k < w.hooks.length := by
          by_contra hc
          rw [List.getElem?_eq_none (by omega)] at h1; cases h1
        have h4 : tags[k]? = some (tags[k]'(by rw [hi.1]; exact hk)) := List.getElem?_eq_getElem _
        have h5 := ht.1 k g rfl _ h4
        obtain ⟨hy, a, b, c⟩ := hi.2 k mx _ h1 h4
        exact ⟨mx.1, h2, hy, a, b, by rw [h5] at c; exact c⟩
      · rcases h3 with rfl | h3
        · exact absurd rfl (hb attr)
        · exact ⟨m, h2, h3⟩
    | cons op' ops ih =>
      intro w tags hi hn ht h
      refine ih _ _ (tagInv_step op' w tags (fun i h' e => hn i h' (by simp [e])) hi) (fun i h' hm => hn i h' (by simp at hm ⊢; exact Or.inr hm)) ht.2 h
  exact key ops w [] ⟨by simp [hw], fun k mx t h1 h2 => by simp at h2⟩ hh ht h

example : Sample.w0.hooks = [] ∧ NoSetHyper (Sample.pass.take 3 ++ [.backward 0 (Sample.row [2])]) ∧
    Timely (Sample.pass.take 3 ++ [.backward 0 (Sample.row [2])]) Sample.w0 [] ∧
    (exec (.backward 0 (Sample.row [2])) (run (Sample.pass.take 3) Sample.w0)).2.opt.HKs "a" ≠
      (run (Sample.pass.take 3) Sample.w0).opt.HKs "a" := by
  refine ⟨rfl, by simp [NoSetHyper, Sample.pass], ?_, fun h => absurd (congrArg Sample.fac h) (by decide +kernel)⟩
  have h : (run (Sample.pass.take 2) Sample.w0).opt.steps = 0 ∧ (run (Sample.pass.take 3) Sample.w0).opt.steps = 0 := by decide +kernel
  refine ⟨by simp [Sample.pass], by simp, ?_, ?_, trivial⟩
  · intro k g e t ht
    have h0 : (∀ x ∈ ([0, 0] : List ℕ), x = (run (Sample.pass.take 2) Sample.w0).opt.steps) := by rw [h.1]; simp
    refine h0 t (List.mem_of_getElem? (i := k) ?_)
    refine (congrArg (fun l : List ℕ => l[k]?) (?_ : [0, 0] = _)).trans ht
    decide +kernel
  · intro k g e t ht
    have h0 : (∀ x ∈ ([0, 0] : List ℕ), x = (run (Sample.pass.take 3) Sample.w0).opt.steps) := by rw [h.2]; simp
    refine h0 t (List.mem_of_getElem? (i := k) ?_)
    refine (congrArg (fun l : List ℕ => l[k]?) (?_ : [0, 0] = _)).trans ht
    decide +kernel

/-- **C29 is false for late backward passes.** A hook registered in an update step fires whenever a backward pass runs through
it, so with `T = 2` statistics of layer "a" are collected in step 1. -/
theorem C29_late_backward_false : ∃ (w : World ℚ) (op : Op ℚ), Reachable supportedStructures w ∧
    (∀ m ∈ w.opt.layers, ¬ OnStep w m) ∧ (∀ c attr f, op ≠ .step c attr f) ∧ w.opt.HKs "a" = none ∧ (exec op w).2.opt.HKs "a" ≠ none := by
  refine ⟨run (Sample.pass ++ [.step false none false]) Sample.w0, .backward 0 (Sample.row [2]),
    Sample.reachable (by decide +kernel) (by decide +kernel) _, ?_, by simp, ?_, fun h => ?_⟩
  · intro m hm h
    have : ∀ m ∈ (run (Sample.pass ++ [.step false none false]) Sample.w0).opt.layers, Sample.onStep (run (Sample.pass ++ [.step false none false]) Sample.w0) m = false := by
      decide +kernel
    have h1 := this m hm
    rw [Sample.onStep_iff.2 h] at h1; cases h1
  · rw [← Option.not_isSome_iff_eq_none]; decide +kernel
  · exact absurd (congrArg Sample.fac h) (by decide +kernel)

/-! ### C30 -/

/-- **C30.** In every reachable state a step that found infs succeeds; it changes nothing but the counters: statistics of all
layers are dropped, the step counter advances by one, the scales are updated; parameters, gradients, momentum buffers,
factors, factor momenta, groups and hooks stay. -/
theorem C30_infs {structs : String → Option Cls} {w : World α} (hw : Reachable structs w) (attr : Option α) :
    ∃ w', exec (.step false attr true) w = (.ok (), w') ∧ w'.opt.steps = w.opt.steps + 1 ∧
      (∀ m ∈ w.opt.layers, w'.opt.HKs m.name = none ∧ w'.opt.HCs m.name = none) ∧
      w'.data = w.data ∧ w'.grad = w.grad ∧ w'.hooks = w.hooks ∧ w'.opt.mom = w.opt.mom ∧ w'.opt.Ks = w.opt.Ks ∧
      w'.opt.Cs = w.opt.Cs ∧ w'.opt.mKs = w.opt.mKs ∧ w'.opt.mCs = w.opt.mCs ∧ w'.opt.groups = w.opt.groups ∧
      w'.opt.layers = w.opt.layers ∧ w'.opt.ptrGroup = w.opt.ptrGroup ∧ w'.opt.structs = w.opt.structs := by
  obtain ⟨model, p, a, o, ws, data, grad, ops, hn, hi, rfl⟩ := hw
  have inv := run_inv exec_scaleInv ops ⟨o, data, grad, []⟩ (Construct.init_ok hn hi).scaleInv
  refine ⟨_, World.skip_run ?_, rfl, ?_, rfl, rfl, rfl, rfl, rfl, rfl, rfl, rfl, rfl, rfl, rfl, rfl⟩
  · intro h0
    have := inv.1
    rw [h0] at this; simpa using this
  · intro m hm
    have : ∃ m' ∈ (run ops ⟨o, data, grad, []⟩).opt.layers, m'.name = m.name := ⟨m, hm, rfl⟩
    simp only [Opt.removeUsedScales]
    rw [if_pos this, if_pos this]
    exact ⟨rfl, rfl⟩

-- a state with statistics, which the skipped step drops
example : Reachable supportedStructures Sample.w1 ∧ Sample.fac (Sample.w1.opt.HKs "a") = some [[4, 2], [2, 1]] ∧
    Sample.fac ((exec (.step false none true) Sample.w1).2.opt.HKs "a") = none ∧
    Sample.fac ((exec (.step false none true) Sample.w1).2.opt.Ks "a") = some [[1, 0], [0, 1]] :=
  ⟨Sample.reachable (by decide +kernel) (by decide +kernel) _, by decide +kernel⟩

/-! ### C31 -/

/-- **C31.** In every reachable state at most two scales are stored, those of the previous and the current step; the
previous one is there, and inside `step` also the current one. -/
theorem C31_scale_memory {structs : String → Option Cls} {w : World α} (hw : Reachable structs w) :
    w.opt.scales ((w.opt.steps : ℤ) - 1) ≠ none ∧ (∀ t, w.opt.scales t ≠ none → t = (w.opt.steps : ℤ) - 1 ∨ t = w.opt.steps) ∧
    (∀ attr, ∃ v, World.ensureScale attr w = (.ok (), v) ∧ v.opt.scales v.opt.steps ≠ none ∧ v.opt.scales ((v.opt.steps : ℤ) - 1) ≠ none) := by
  obtain ⟨model, p, a, o, ws, data, grad, ops, hn, hi, rfl⟩ := hw
  have inv := run_inv exec_scaleInv ops ⟨o, data, grad, []⟩ (Construct.init_ok hn hi).scaleInv
  refine ⟨inv.1, inv.2, fun attr => ⟨_, World.ensureScale_run attr _ ?_, ?_, ?_⟩⟩
  · intro h0
    have := inv.1
    rw [h0] at this; simpa using this
  · simp [World.withScale, Dict.set]
  · exact (inv.set _).1

-- with a varying scale
example : let w := run ([.setScale 4] ++ Sample.pass ++ [.step false none false, .setScale 9]) Sample.w0
    Reachable supportedStructures w ∧ w.opt.scales 0 = some 4 ∧ w.opt.scales 1 = some 9 ∧ w.opt.scales (-1) = none :=
  ⟨Sample.reachable (by decide +kernel) (by decide +kernel) _, by decide +kernel⟩

/-! ### C33 -/

theorem reachable_setScale {structs : String → Option Cls} {w : World α} (hw : Reachable structs w) (s : α) :
    ∃ v, Opt.setScale s w = (.ok (), v) ∧ v.opt.scales v.opt.steps = some s := by
  obtain ⟨model, p, a, o, ws, data, grad, ops, hn, hi, rfl⟩ := hw
  have inv := run_inv exec_scaleInv ops ⟨o, data, grad, []⟩ (Construct.init_ok hn hi).scaleInv
  refine ⟨_, World.setScale_run s _ fun h0 => ?_, Function.update_self _ _ _⟩
  have := inv.1
  rw [h0] at this; simpa using this

/-- **C33 (explicit scale).** After `set_current_grad_scale(s)`, `step` behaves the same whatever scale a scaler announces, and
the scale of that step is `s`. -/
theorem C33_explicit_scale_wins {structs : String → Option Cls} {w : World α} (hw : Reachable structs w) (s : α) (attr : Option α) (f : Bool) :
    ∃ v, exec (.setScale s) w = (.ok (), v) ∧ v.opt.scales v.opt.steps = some s ∧
      exec (.step false attr f) v = exec (.step false none f) v ∧ (World.ensureScale attr v).2.opt.scales v.opt.steps = some s := by
  obtain ⟨v, es, hv'⟩ := reachable_setScale hw s
  have e : ∀ attr, World.ensureScale attr v = (.ok (), v) := by
    intro attr
    rw [World.ensureScale, Py.get_bind_run, hv']; rfl
  refine ⟨v, es, hv', ?_, by rw [e]; exact hv'⟩
  simp only [exec, World.step]
  rw [if_neg (by simp), if_neg (by simp), Py.bind_ok (e attr), Py.bind_ok (e none)]

/-- **C33 (announced scale).** If no scale was set for the current step, `step` behaves as if the user had set the announced
scale, or 1 if none is announced. -/
theorem C33_announced_scale {structs : String → Option Cls} {w : World α} (hw : Reachable structs w) (attr : Option α) (f : Bool)
    (h0 : w.opt.scales w.opt.steps = none) :
    ∃ v, exec (.setScale (attr.getD 1)) w = (.ok (), v) ∧ v.opt.scales v.opt.steps = some (attr.getD 1) ∧
      exec (.step false attr f) w = exec (.step false none f) v := by
  obtain ⟨v, es, hv'⟩ := reachable_setScale hw (attr.getD 1)
  have e1 : World.ensureScale attr w = Opt.setScale (attr.getD 1) w := by
    rw [World.ensureScale, Py.get_bind_run, h0]
  rw [es] at e1
  have e : World.ensureScale none v = (.ok (), v) := by
    rw [World.ensureScale, Py.get_bind_run, hv']; rfl
  refine ⟨v, es, hv', ?_⟩
  simp only [exec, World.step]
  rw [if_neg (by simp), if_neg (by simp), Py.bind_ok e1, Py.bind_ok e]

-- announced scales matter if none was set
example : Reachable supportedStructures Sample.w1 ∧ Sample.w1.opt.scales Sample.w1.opt.steps = none ∧
    ((exec (.step false (some 4) false) Sample.w1).2.data 0).toLists ≠ ((exec (.step false none false) Sample.w1).2.data 0).toLists :=
  ⟨Sample.reachable (by decide +kernel) (by decide +kernel) _, by decide +kernel⟩

/-! ### C36 -/

/-- **C36.** A forward pass without gradient tracking changes nothing, whatever the state. -/
theorem C36_no_grad (i : ℕ) (x : ND α) (w : World α) : (exec (.forward i x false) w).2 = w := by
  rcases exec_forward i x false w with e | ⟨h, _⟩
  · exact e
  · cases h

/-- **C36.** A forward pass through a layer whose `T` does not divide the step counter changes nothing, in particular it
registers no hook, so that no backward pass through it can reach the optimizer. -/
theorem C36_off_step (i : ℕ) (x : ND α) (ge : Bool) (w : World α) (h : ∀ m, w.opt.layers[i]? = some m → ¬ OnStep w m) :
    (exec (.forward i x ge) w).2 = w := by
  rcases exec_forward i x ge w with e | ⟨_, m, h1, h2, _⟩
  · exact e
  · exact absurd (onStep_iff.1 h2) (h m h1)

/-- an operation of an evaluation or off-step pass: a forward pass without gradient tracking or through a layer off its update
step, or a backward pass of a hook (numbered from the hooks present before the passes) that such a forward pass would
have registered -/
inductive EvalOp (w : World α) : Op α → Prop
  | noGrad (i x) : EvalOp w (.forward i x false)
  | off (i x ge) (h : ∀ m, w.opt.layers[i]? = some m → ¬ OnStep w m) : EvalOp w (.forward i x ge)
  | backward (k g) (h : w.hooks.length ≤ k) : EvalOp w (.backward k g)

/-- **C36.** Any number of evaluation passes, and of passes off the update step, leave no trace. -/
theorem C36_evaluation (ops : List (Op α)) (w : World α) (h : ∀ op ∈ ops, EvalOp w op) : run ops w = w := by
  induction ops with
  | nil => rfl
  | cons op ops ih =>
    have e : (exec op w).2 = w := by
      rcases h op (by simp) with ⟨i, x⟩ | ⟨i, x, ge, h'⟩ | ⟨k, g, h'⟩
      · exact C36_no_grad i x w
      · exact C36_off_step i x ge w h'
      · rw [exec, Py.get_bind_run, List.getElem?_eq_none h']; rfl
    rw [run_cons, e]
    exact ih fun op hop => h op (by simp [hop])

-- passes at step 1, while `T = 2`
example : ∀ op ∈ ([.forward 0 (Sample.row [2]) true, .forward 1 (Sample.row [1, 3]) false, .backward 7 (Sample.row [1])] : List (Op ℚ)),
    EvalOp Sample.w2 op := by
  intro op hop
  simp only [List.mem_cons, List.not_mem_nil, or_false] at hop
  rcases hop with rfl | rfl | rfl
  · refine .off _ _ _ fun m hm h => ?_
    have : ∀ m ∈ Sample.w2.opt.layers, Sample.onStep Sample.w2 m = false := by decide +kernel
    have h1 := this m (List.mem_of_getElem? hm)
    rw [Sample.onStep_iff.2 h] at h1; cases h1
  · exact .noGrad _ _
  · exact .backward _ _ (by decide +kernel)

/-! ### C37 -/

/-- no statistics are created -/
def NoNew (w w' : World α) : Prop := ∀ n, (w.opt.HKs n = none → w'.opt.HKs n = none) ∧ (w.opt.HCs n = none → w'.opt.HCs n = none)

theorem NoNew.refl (w : World α) : NoNew w w := fun _ => ⟨id, id⟩
theorem NoNew.trans (a b c : World α) (h : NoNew a b) (h' : NoNew b c) : NoNew a c :=
  fun n => ⟨fun x => (h' n).1 ((h n).1 x), fun x => (h' n).2 ((h n).2 x)⟩
theorem Frame.noNew {N : String → Prop} {P : ℕ → Prop} {w w' : World α} (h : Frame N World.none' P w w') : NoNew w w' :=
  fun n => ⟨fun x => by rw [h.HKs n id]; exact x, fun x => by rw [h.HCs n id]; exact x⟩

theorem noNew_erase {d : String → Option (SM α)} {k n : String} (h : d n = none) : Dict.erase d k n = none := by
  rw [Dict.erase, Function.update_apply]; split
  · rfl
  · exact h

theorem updateOn_noNew (h : Hyper α) (m : Layer) : Py.Rel NoNew (World.updateOn h m : Py (World α) Unit) := by
  have r := NoNew.refl (α := α)
  have t := NoNew.trans (α := α)
  refine Py.Rel.get_bind fun w => ?_
  refine Py.Rel.bind t (Py.Rel.lift r _) (fun K => ?_) w
  refine Py.Rel.bind t (Py.Rel.lift r _) (fun C => ?_)
  refine Py.Rel.bind t (Py.Rel.lift r _) (fun HK => ?_)
  refine Py.Rel.bind t (Py.Rel.modify fun w n => ⟨noNew_erase, id⟩) (fun _ => ?_)
  refine Py.Rel.bind t (Py.Rel.lift r _) (fun HC => ?_)
  refine Py.Rel.bind t (Py.Rel.modify fun w n => ⟨id, noNew_erase⟩) (fun _ => ?_)
  refine Py.Rel.bind t (Py.Rel.lift r _) (fun ms => ?_)
  refine Py.Rel.bind t (Py.Rel.modify fun w n => ?_) (fun _ => ?_)
  · simp only [World.storeMomenta]; split <;> exact ⟨id, id⟩
  refine Py.Rel.bind t (Py.Rel.lift r _) (fun bK => ?_)
  refine Py.Rel.bind t (Py.Rel.lift r _) (fun bC => ?_)
  refine Py.Rel.bind t (Py.Rel.lift r _) (fun K' => ?_)
  refine Py.Rel.bind t (Py.Rel.modify fun w n => ⟨id, id⟩) (fun _ => ?_)
  exact Py.Rel.bind t (Py.Rel.lift r _) (fun C' => Py.Rel.modify fun w n => ⟨id, id⟩)

theorem updatePreconditioner_noNew (m : Layer) : Py.Rel NoNew (World.updatePreconditioner m : Py (World α) Unit) := by
  intro w
  by_cases hu : World.Updates w.opt m
  · obtain ⟨h, a, b, c⟩ := hu
    rw [World.updatePreconditioner_on a b c]; exact updateOn_noNew h m w
  · rw [World.updatePreconditioner_not hu]; exact NoNew.refl w

theorem layerStep_noNew (m : Layer) : Py.Rel NoNew (World.layerStep m : Py (World α) Unit) := by
  refine Py.Rel.bind NoNew.trans (updatePreconditioner_noNew m) fun _ => ?_
  refine Py.Rel.get_bind fun w => ?_
  refine Py.Rel.bind NoNew.trans (Py.Rel.lift NoNew.refl _) (fun N => ?_) w
  exact fun w => (World.applyNat_frame m N w).noNew

/-- a successful update leaves no statistics of the layer -/
theorem updateOn_flushes {h : Hyper α} {m : Layer} {w w' : World α} (e : World.updateOn h m w = (.ok (), w')) :
    w'.opt.HKs m.name = none ∧ w'.opt.HCs m.name = none := by
  rw [World.updateOn, Py.get_bind_run] at e
  obtain ⟨K, w1, e1, e⟩ := Py.bind_eq_ok.1 e
  obtain ⟨C, w2, e2, e⟩ := Py.bind_eq_ok.1 e
  obtain ⟨HK, w3, e3, e⟩ := Py.bind_eq_ok.1 e
  obtain ⟨_, w4, e4, e⟩ := Py.bind_eq_ok.1 e
  obtain ⟨HC, w5, e5, e⟩ := Py.bind_eq_ok.1 e
  obtain ⟨_, w6, e6, e⟩ := Py.bind_eq_ok.1 e
  have h4 : w4.opt.HKs m.name = none := by cases e4; simp [Dict.erase]
  have h5 : w5.opt.HKs m.name = none := by rw [← show _ = w5 from congrArg Prod.snd e5]; exact h4
  have h6 : w6.opt.HKs m.name = none ∧ w6.opt.HCs m.name = none := by
    cases e6; exact ⟨h5, by simp [Dict.erase]⟩
  have r := NoNew.refl (α := α)
  have t := NoNew.trans (α := α)
  have key : NoNew w6 w' := by
    rw [← show _ = w' from congrArg Prod.snd e]
    refine Py.Rel.bind t (Py.Rel.lift r _) (fun ms => ?_) w6
    refine Py.Rel.bind t (Py.Rel.modify fun w n => ?_) (fun _ => ?_)
    · simp only [World.storeMomenta]; split <;> exact ⟨id, id⟩
    refine Py.Rel.bind t (Py.Rel.lift r _) (fun bK => ?_)
    refine Py.Rel.bind t (Py.Rel.lift r _) (fun bC => ?_)
    refine Py.Rel.bind t (Py.Rel.lift r _) (fun K' => ?_)
    refine Py.Rel.bind t (Py.Rel.modify fun w n => ⟨id, id⟩) (fun _ => ?_)
    exact Py.Rel.bind t (Py.Rel.lift r _) (fun C' => Py.Rel.modify fun w n => ⟨id, id⟩)
  exact ⟨(key m.name).1 h6.1, (key m.name).2 h6.2⟩

theorem layers_flush (w0 : World α) : ∀ (ms : List Layer) (w w' : World α), Frame (fun _ => True) (fun _ => True) (fun _ => True) w0 w →
    Py.forM ms World.layerStep w = (.ok (), w') → ∀ m ∈ ms, World.Updates w0.opt m →
    w'.opt.HKs m.name = none ∧ w'.opt.HCs m.name = none
  | [], _, _, _, _, _, hm, _ => by simp at hm
  | m0 :: ms, w, w', f0, e, m, hm, hu => by
    obtain ⟨w1, e1, e2⟩ := Py.forM_cons_ok.1 e
    have f1 := World.layerStep_frame m0 w
    rw [e1] at f1
    rcases List.mem_cons.1 hm with rfl | hm
    · have n2 : NoNew w1 w' := by
        have := Py.Rel.forM (R := NoNew) NoNew.refl NoNew.trans (f := World.layerStep) (xs := ms) (fun x _ => layerStep_noNew x) w1
        rw [e2] at this; exact this
      have hu' := (World.Updates_frame f0).2 hu
      obtain ⟨h, a, b, c⟩ := hu'
      rw [World.layerStep] at e1
      obtain ⟨_, v, e3, e4⟩ := Py.bind_eq_ok.1 e1
      rw [World.updatePreconditioner_on a b c] at e3
      have fl := updateOn_flushes e3
      have n1 : NoNew v w1 := by
        have : NoNew v ((Py.get >>= fun w => Py.lift (w.natGradMat m) >>= World.applyNat m) v).2 := by
          refine Py.Rel.get_bind (fun w => ?_) v
          refine Py.Rel.bind NoNew.trans (Py.Rel.lift NoNew.refl _) (fun N => ?_) w
          exact fun w => (World.applyNat_frame m N w).noNew
        rw [e4] at this; exact this
      exact ⟨(n2 _).1 ((n1 _).1 fl.1), (n2 _).2 ((n1 _).2 fl.2)⟩
    · exact layers_flush w0 ms w1 w' (Frame.trans _ _ _ f0 (f1.mono (fun _ _ => trivial) (fun _ _ => trivial) fun _ _ => trivial)) e2 m hm hu

/-- **C37 (flush).** After a completed step, no statistics remain of any layer whose `T` divides the step counter. -/
theorem C37_flushed {w w' : World α} {attr : Option α} (e : exec (.step false attr false) w = (.ok (), w')) :
    ∀ m ∈ w.opt.layers, OnStep w m → w'.opt.HKs m.name = none ∧ w'.opt.HCs m.name = none := by
  intro m hm hu
  obtain ⟨_, w1, h1, rfl⟩ := World.step_ok_iff.1 e
  rw [World.stepBody, if_neg (by simp), World.innerStep, Py.get_bind_run] at h1
  exact layers_flush (World.withScale attr w) _ _ w1 (Frame.refl _) h1 m hm (onStep_iff.2 hu)

example : (exec (.step false none false) Sample.w1).1.toBool = true ∧ Sample.la ∈ Sample.w1.opt.layers ∧
    OnStep Sample.w1 Sample.la ∧ Sample.fac (Sample.w1.opt.HKs "a") ≠ none :=
  ⟨by decide +kernel, by decide +kernel, Sample.onStep_iff.1 (by decide +kernel), by decide +kernel⟩

theorem forM_append {σ β : Type} {f : β → Py σ Unit} {s t : σ} : ∀ {xs ys : List β}, Py.forM xs f s = (.ok (), t) →
    Py.forM (xs ++ ys) f s = Py.forM ys f t
  | [], ys, h => by cases h; rfl
  | x :: xs, ys, h => by
    obtain ⟨u, h1, h2⟩ := Py.forM_cons_ok.1 h
    rw [List.cons_append, Py.forM, Py.bind_ok h1, forM_append h2]

/-- **C37 (missing statistics).** If on an update step of layer `m` there are no statistics of its input (no backward pass since
the last update), and the layers before it are processed successfully, ending in state `v`, then `step` raises `KeyError`
and leaves exactly the state `v`: earlier layers updated, step counter not advanced, `m` and later layers untouched. -/
theorem C37_missing {structs : String → Option Cls} {w v : World α} (hw : Reachable structs w) {attr : Option α} {pre post : List Layer} {m : Layer}
    (hl : w.opt.layers = pre ++ m :: post) (hu : OnStep w m) (hH : w.opt.HKs m.name = none)
    (hp : Py.forM pre World.layerStep (World.ensureScale attr w).2 = (.ok (), v)) :
    exec (.step false attr false) w = (.error .keyError, v) ∧ v.opt.steps = w.opt.steps := by
  rw [World.ensureScale_state] at hp
  have es : World.ensureScale attr w = (.ok (), World.withScale attr w) := by
    obtain ⟨v', h, _⟩ := (C31_scale_memory hw).2.2 attr
    have := World.ensureScale_state attr w
    rw [h] at this ⊢; rw [← this]
  have fr := World.innerStep_frame_aux (World.withScale attr w) pre _ (Frame.refl _)
  rw [hp] at fr
  have hn : NoNew (World.withScale attr w) v := by
    have := Py.Rel.forM (R := NoNew) NoNew.refl NoNew.trans (f := World.layerStep) (xs := pre) (fun x _ => layerStep_noNew x) (World.withScale attr w)
    rw [hp] at this; exact this
  have hv : v.opt.HKs m.name = none := (hn m.name).1 hH
  have hu' : World.Updates v.opt m := (World.Updates_frame fr).2 (onStep_iff.2 hu)
  have key : World.updatePreconditioner m v = (.error .keyError, v) := by
    obtain ⟨h, a, b, c⟩ := hu'
    rw [World.updatePreconditioner_on a b c, World.updateOn, Py.get_bind_run]
    rcases hK : v.opt.Ks m.name with _ | K
    · rw [lookup, hK]; rfl
    · rcases hC : v.opt.Cs m.name with _ | C
      · rw [lookup, hK, Py.lift_ok_bind_run, lookup, hC]; rfl
      · rw [lookup, hK, Py.lift_ok_bind_run, lookup, hC, Py.lift_ok_bind_run, lookup, hv]; rfl
  refine ⟨?_, by rw [fr.steps]; rfl⟩
  rw [exec, World.step, if_neg (by simp), Py.bind_ok es]
  have hb : World.stepBody false (World.withScale attr w) = (.error .keyError, v) := by
    rw [World.stepBody, if_neg (by simp), World.innerStep, Py.get_bind_run]
    have : (World.withScale attr w).opt.layers = pre ++ m :: post := hl
    rw [this, forM_append hp, Py.forM]
    have : World.layerStep m v = (.error .keyError, v) := by rw [World.layerStep, Py.bind_error key]
    rw [Py.bind_error this]
  rw [Py.bind_error hb]

-- only the first layer has seen a backward pass
def Sample.wHalf : World ℚ := run [.forward 0 (Sample.row [2]) true, .backward 0 (Sample.row [2])] Sample.w0
example : Reachable supportedStructures Sample.wHalf ∧ Sample.wHalf.opt.layers = [Sample.la] ++ Sample.lb :: [] ∧
    OnStep Sample.wHalf Sample.lb ∧ Sample.fac (Sample.wHalf.opt.HKs "b") = none ∧
    (Py.forM [Sample.la] World.layerStep (World.ensureScale none Sample.wHalf).2).1.toBool = true ∧
    ((exec (.step false none false) Sample.wHalf).2.data 0).toLists ≠ (Sample.wHalf.data 0).toLists :=
  ⟨Sample.reachable (by decide +kernel) (by decide +kernel) _, by decide +kernel, Sample.onStep_iff.1 (by decide +kernel),
    by decide +kernel, by decide +kernel, by decide +kernel⟩

/-! ### C44 -/

/-- weights of trained layers are in some group -/
def WeightsIn (w : World α) : Prop := ∀ m ∈ w.opt.layers, m.weight.ptr ∈ (w.opt.groups.map (·.params)).flatten

theorem reachable_weightsIn {structs : String → Option Cls} {w : World α} (hw : Reachable structs w) : WeightsIn w := by
  obtain ⟨model, p, a, o, ws, data, grad, ops, hn, hi, rfl⟩ := hw
  refine run_inv (P := WeightsIn) (fun op w h => ?_) ops _ ?_
  · obtain ⟨h1, _, _, h2⟩ := exec_static op w
    intro m hm
    rw [h1] at hm
    rw [h2]; exact h m hm
  · intro m hm
    have I := Construct.init_ok hn hi
    obtain ⟨sup, h, cK, cC, K, C, hh, _⟩ := I.lay m hm
    rw [Opt.hyperOf, if_pos sup] at hh
    obtain ⟨i, hi', hh⟩ := IOProof.Except.bind_eq_ok hh
    have h1 := Construct.lookup_ok hi'
    rw [I.ptrGroup] at h1
    obtain ⟨g, hg, hp⟩ := ptrGroup_mem h1
    show m.weight.ptr ∈ (o.groups.map (·.params)).flatten
    rw [List.mem_flatten]
    exact ⟨g.params, List.mem_map.2 ⟨g, List.mem_of_getElem? hg, rfl⟩, hp⟩

/-- **C44, up to biases.** In every reachable state, an operation other than a direct assignment that changes a parameter's
value is a `step` without infs, and the parameter is in a group, or it is the bias of a layer whose weight is in a group.
The full claim is `C44_bias_false`'s negation: without the second alternative it is false. -/
theorem C44_changed_parameters_partial {structs : String → Option Cls} {w : World α} (hw : Reachable structs w) (op : Op α) (p : ℕ)
    (hop : ∀ M, op ≠ .setParam p M) (h : (exec op w).2.data p ≠ w.data p) :
    (∃ attr, op = .step false attr false) ∧ ((∃ g ∈ w.opt.groups, p ∈ g.params) ∨
      ∃ m ∈ w.opt.layers, ∃ b, m.bias = some b ∧ p = b.ptr ∧ ∃ g ∈ w.opt.groups, m.weight.ptr ∈ g.params) := by
  have hin := reachable_weightsIn hw
  have fl : ∀ q, q ∈ (w.opt.groups.map (·.params)).flatten → ∃ g ∈ w.opt.groups, q ∈ g.params := by
    intro q hq
    obtain ⟨l, hl, hq⟩ := List.mem_flatten.1 hq
    obtain ⟨g, hg, rfl⟩ := List.mem_map.1 hl
    exact ⟨g, hg, hq⟩
  cases op with
  | forward i x ge => rcases exec_forward i x ge w with e | ⟨_, m, _, _, e⟩ <;> simp [e] at h
  | backward k g => have f := exec_backward k g w; exact absurd (f.data p id) h
  | setGrad p G => exact absurd rfl h
  | setParam q M =>
    have hq : q ≠ p := fun e => hop M (by rw [e])
    exact absurd (Function.update_of_ne (Ne.symm hq) _ _) h
  | setHyper i h' => exact absurd rfl h
  | setScale s => rw [exec, World.setScale_state] at h; exact absurd rfl h
  | step c attr f =>
    cases c
    · have fr := stepBody_frame f (World.withScale attr w)
      have : f = false ∧ ∃ m ∈ w.opt.layers, World.Owns m p := by
        by_contra hc
        rw [exec] at h
        rcases step_state attr f w with e | ⟨e', e⟩ | ⟨w1, e1, e⟩
        · rw [e] at h; exact h rfl
        · rw [e] at h; exact h (fr.data p hc)
        · rw [e] at h; rw [e1] at fr; exact h (fr.data p hc)
      obtain ⟨rfl, m, hm, ho⟩ := this
      refine ⟨⟨attr, rfl⟩, ?_⟩
      rcases ho with rfl | ⟨b, hb, rfl⟩
      · exact Or.inl (fl _ (hin m hm))
      · exact Or.inr ⟨m, hm, b, hb, rfl, fl _ (hin m hm)⟩
    · rw [exec, step_closure] at h; exact absurd rfl h

/-- **C44 for layers handed over completely.** If the bias of every trained layer is in a group, only parameters in groups
change. -/
theorem C44_complete_layers {structs : String → Option Cls} {w : World α} (hw : Reachable structs w)
    (hb : ∀ m ∈ w.opt.layers, ∀ b, m.bias = some b → ∃ g ∈ w.opt.groups, b.ptr ∈ g.params) (op : Op α) (p : ℕ)
    (hop : ∀ M, op ≠ .setParam p M) (h : (exec op w).2.data p ≠ w.data p) : ∃ g ∈ w.opt.groups, p ∈ g.params := by
  obtain ⟨_, h | ⟨m, hm, b, h1, rfl, _⟩⟩ := C44_changed_parameters_partial hw op p hop h
  · exact h
  · exact hb m hm b h1

/-- only the weights are handed over to the optimizer -/
def Sample.wBias : World ℚ := run Sample.pass (Sample.world Sample.model (.flat [⟨0, true⟩, ⟨2, true⟩]) Sample.args)

example : Reachable supportedStructures Sample.wBias ∧ (∃ g ∈ Sample.wBias.opt.groups, 2 ∈ g.params) ∧
    ((exec (.step false none false) Sample.wBias).2.data 2).toLists ≠ (Sample.wBias.data 2).toLists :=
  ⟨Sample.reachable (by decide +kernel) (by decide +kernel) _, by decide +kernel, by decide +kernel⟩
example : Reachable supportedStructures Sample.w1 ∧
    (∀ m ∈ Sample.w1.opt.layers, ∀ b ∈ m.bias, ∃ g ∈ Sample.w1.opt.groups, b.ptr ∈ g.params) ∧
    ((exec (.step false none false) Sample.w1).2.data 1).toLists ≠ (Sample.w1.data 1).toLists :=
  ⟨Sample.reachable (by decide +kernel) (by decide +kernel) _, by decide +kernel, by decide +kernel⟩

/-- **C44 is false for biases.** If only the weight of a layer is handed over, `step` changes the bias all the same. -/
theorem C44_bias_false : ∃ (w : World ℚ) (op : Op ℚ) (p : ℕ), Reachable supportedStructures w ∧ op = .step false none false ∧
    (exec op w).2.data p ≠ w.data p ∧ ∀ g ∈ w.opt.groups, p ∉ g.params := by
  refine ⟨Sample.wBias, _, 1, Sample.reachable (by decide +kernel) (by decide +kernel) _, rfl, fun h => ?_, by decide +kernel⟩
  exact absurd (congrArg Mat.toLists h) (by decide +kernel)
