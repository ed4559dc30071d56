import Verif.Proofs.Opt.History
import Verif.Proofs.Opt.Live
import Verif.Props.OptSamples

/-! C80: what flows into the pre-conditioner. -/

set_option linter.unusedSectionVars false
open IOProof
variable {α : Type} [Field α] [LinearOrder α] [HasSqrt α]

/-- the same hyper-parameters without those of the parameter update: `lr`, `momentum` and `weight_decay` -/
def Hyper.bare (h : Hyper α) : Hyper α := { h with lr := 0, momentum := 0, weightDecay := 0 }
/-- a parameter group without the hyper-parameters of the parameter update -/
def PGroup.bare (g : PGroup α) : PGroup α := { g with h := g.h.bare }
/-- the optimizer without momentum buffers and hyper-parameters of the parameter update -/
def Opt.bare (o : Opt α) : Opt α := { o with groups := o.groups.map PGroup.bare, mom := fun _ => none }
/-- the state without parameters, gradients, momentum buffers and hyper-parameters of the parameter update -/
def World.bare (w : World α) : World α := { w with opt := w.opt.bare, data := fun _ => Mat.zeros 0 0, grad := fun _ => none }

/-- the operation concerns more than gradients and parameters -/
def Op.visible : Op α → Bool
  | .setGrad .. | .setParam .. => false
  | _ => true

/-- the operation without the hyper-parameters of the parameter update -/
def Op.bare : Op α → Op α
  | .setHyper i h => .setHyper i h.bare
  | op => op

/-- an operation without its parameter updates -/
def stepBare (closure : Bool) (attr : Option α) (foundInf : Bool) : Py (World α) Unit :=
  if closure then Py.raise .notImplementedError
  else do
    World.ensureScale attr
    (if foundInf then World.dropStats else do
      let w ← Py.get
      Py.forM w.opt.layers World.updatePreconditioner)
    World.setOpt fun o => { o with steps := o.steps + 1 }
    World.setOpt Opt.removeUsedScales

/-- an operation without its parameter updates -/
def execBare : Op α → Py (World α) Unit
  | .step c a f => stepBare c a f
  | op => exec op

/-- if `x` succeeds, `x'` does the same without parameters, gradients and momentum buffers -/
def Sees {β : Type} (x x' : Py (World α) β) : Prop := ∀ w b w', x w = (.ok b, w') → x' w.bare = (.ok b, w'.bare)

variable {β γ : Type}

theorem Sees.bind {x x' : Py (World α) β} {f f' : β → Py (World α) γ} (hx : Sees x x') (hf : ∀ b, Sees (f b) (f' b)) : Sees (x >>= f) (x' >>= f') := by
  intro w b w' h
  rw [Py.bind_run] at h
  rcases hxw : x w with ⟨e | a, w1⟩
  · rw [hxw] at h; cases h
  · rw [hxw] at h
    rw [Py.bind_ok (hx w a w1 hxw)]
    exact hf a w1 b w' h
theorem Sees.pure (b : β) : Sees (Pure.pure b : Py (World α) β) (Pure.pure b) := fun w b w' h => by cases h; rfl
theorem Sees.raise (e : PyErr) {x : Py (World α) β} : Sees (Py.raise e : Py (World α) β) x := fun w b w' h => by cases h
theorem Sees.lift (x : Except PyErr β) : Sees (Py.lift x : Py (World α) β) (Py.lift x) := fun w b w' h => by
  simp only [Py.lift, Prod.mk.injEq] at h
  obtain ⟨rfl, rfl⟩ := h
  rfl
theorem Sees.get_bind {f f' : World α → Py (World α) γ} (h : ∀ w, Sees (f w) (f' w.bare)) : Sees (Py.get >>= f) (Py.get >>= f') := fun w => h w w
theorem Sees.modify {f f' : World α → World α} (h : ∀ w, f' w.bare = (f w).bare) : Sees (Py.modify f) (Py.modify f') := fun w b w' e => by
  cases e
  exact congrArg (Prod.mk (Except.ok ())) (h w)
theorem Sees.forM {f f' : Layer → Py (World α) Unit} (h : ∀ m, Sees (f m) (f' m)) : ∀ ms : List Layer, Sees (Py.forM ms f) (Py.forM ms f')
  | [] => Sees.pure ()
  | m :: ms => Sees.bind (h m) fun _ => Sees.forM h ms
theorem Sees.setOpt {f f' : Opt α → Opt α} (h : ∀ o, f' o.bare = (f o).bare) : Sees (World.setOpt f) (World.setOpt f') := Sees.modify fun w => by
  show ({ w.bare with opt := f' w.opt.bare } : World α) = _
  rw [h]; rfl

/-- `x` only changes what is not seen -/
def Hidden {β : Type} (x : Py (World α) β) : Prop := ∀ w, (x w).2.bare = w.bare

theorem Hidden.bind {x : Py (World α) β} {f : β → Py (World α) γ} (hx : Hidden x) (hf : ∀ b, Hidden (f b)) : Hidden (x >>= f) := by
  intro w
  rw [Py.bind_run]
  have := hx w
  rcases h : x w with ⟨e | a, w1⟩
  · rw [h] at this; exact this
  · rw [h] at this; exact (hf a w1).trans this
theorem Hidden.lift (x : Except PyErr β) : Hidden (Py.lift x : Py (World α) β) := fun _ => rfl
theorem Hidden.get_bind {f : World α → Py (World α) γ} (h : ∀ w, Hidden (f w)) : Hidden (Py.get >>= f) := fun w => h w w
theorem Hidden.modify {f : World α → World α} (h : ∀ w, (f w).bare = w.bare) : Hidden (Py.modify f) := h
/-- something hidden at the end of a method makes no difference -/
theorem Sees.bind_hidden {x x' : Py (World α) Unit} {f : Unit → Py (World α) Unit} (hx : Sees x x') (hf : ∀ b, Hidden (f b)) : Sees (x >>= f) x' := by
  intro w b w' h
  rw [Py.bind_run] at h
  rcases hxw : x w with ⟨e | a, w1⟩
  · rw [hxw] at h; cases h
  · rw [hxw] at h
    have := hf a w1
    simp only at h
    rw [h] at this
    rw [hx w a w1 hxw, ← this]

theorem Opt.hyperOf_bare (o : Opt α) (m : Layer) : o.bare.hyperOf m = (o.hyperOf m).map Hyper.bare := by
  unfold Opt.hyperOf
  rw [show o.bare.ptrGroup = o.ptrGroup from rfl]
  split
  · rcases lookup o.ptrGroup m.weight.ptr with e | i
    · rfl
    · simp only [Except.bind_ok', Opt.bare, List.getElem?_map]
      rcases o.groups[i]? with _ | g <;> rfl
  · rfl

theorem Sees.lift_map_bind {f : Hyper α → Py (World α) γ} {f' : Hyper α → Py (World α) γ} (x : Except PyErr (Hyper α)) (h : ∀ y, Sees (f y) (f' y.bare)) :
    Sees (Py.lift x >>= f) (Py.lift (x.map Hyper.bare) >>= f') := by
  rcases x with e | y
  · exact fun w b w' h => by cases h
  · exact h y

theorem setScale_bare (s : α) : Sees (Opt.setScale s) (Opt.setScale s) := by
  unfold Opt.setScale
  refine Sees.bind (Sees.modify fun w => rfl) fun _ => Sees.get_bind fun w => ?_
  show Sees _ (if w.opt.steps = 0 then _ else _)
  split
  · exact Sees.bind (Sees.lift _) fun _ => Sees.bind (Sees.lift _) fun _ => Sees.pure _
  · exact Sees.pure _

namespace World

theorem storeMomenta_bare (h : Hyper α) (name : String) (mK mC : SM α) (o : Opt α) :
    storeMomenta h.bare name mK mC o.bare = (storeMomenta h name mK mC o).bare := by
  unfold storeMomenta Hyper.bare; dsimp only; split <;> rfl

theorem updateOn_bare (h : Hyper α) (m : Layer) : Sees (updateOn h m) (updateOn h.bare m) := by
  unfold updateOn
  refine Sees.get_bind fun w => Sees.bind (Sees.lift _) fun K => Sees.bind (Sees.lift _) fun C => Sees.bind (Sees.lift _) fun HK =>
    Sees.bind (Sees.setOpt fun o => rfl) fun _ => Sees.bind (Sees.lift _) fun HC => Sees.bind (Sees.setOpt fun o => rfl) fun _ => ?_
  refine Sees.bind (Sees.lift _) fun ms => Sees.bind (Sees.setOpt fun o => storeMomenta_bare _ _ _ _ o) fun _ => Sees.bind (Sees.lift _) fun bK =>
    Sees.bind (Sees.lift _) fun bC => Sees.bind (Sees.lift _) fun K' => Sees.bind (Sees.setOpt fun o => rfl) fun _ => Sees.bind (Sees.lift _) fun C' =>
    Sees.setOpt fun o => rfl

theorem updatePreconditioner_bare (m : Layer) : Sees (updatePreconditioner (α := α) m) (updatePreconditioner m) := by
  unfold updatePreconditioner
  refine Sees.get_bind fun w => ?_
  rw [show w.bare.opt.hyperOf m = _ from Opt.hyperOf_bare _ _]
  refine Sees.lift_map_bind _ fun h => ?_
  show Sees _ (if h.T = 0 then _ else if w.opt.steps % h.T ≠ 0 then _ else _)
  split
  · exact Sees.raise _
  · split
    · exact Sees.pure _
    · exact updateOn_bare h m

theorem localH_bare (o : Opt α) (m : Layer) (x g : ND α) : localH o.bare m x g = localH o m x g := by
  unfold localH
  rw [Opt.hyperOf_bare]
  rcases o.hyperOf m with e | h <;> rfl

theorem accumulateH_bare (m : Layer) (x g : ND α) : Sees (accumulateH m x g) (accumulateH m x g) := by
  unfold accumulateH
  refine Sees.get_bind fun w => ?_
  rw [show localH w.bare.opt m x g = _ from localH_bare _ _ _ _]
  refine Sees.bind (Sees.lift _) fun H => ?_
  unfold commitH
  exact Sees.get_bind fun w => Sees.bind (Sees.lift _) fun HK' => Sees.bind (Sees.setOpt fun o => rfl) fun _ => Sees.bind (Sees.lift _) fun HC' =>
    Sees.setOpt fun o => rfl

theorem moveParam_hidden (h : Hyper α) (p : ℕ) (step : Mat α) : Hidden (moveParam h p step) :=
  Hidden.get_bind fun _ => Hidden.bind (Hidden.lift _) fun _ => Hidden.modify fun _ => rfl

theorem paramStep_hidden (h : Hyper α) (p : ℕ) (step : Mat α) : Hidden (paramStep h p step) := by
  unfold paramStep
  refine Hidden.get_bind fun w => Hidden.bind (Hidden.lift _) fun st => ?_
  split
  · exact Hidden.bind (Hidden.lift _) fun buf => Hidden.bind (Hidden.modify fun _ => rfl) fun _ => moveParam_hidden _ _ _
  · exact moveParam_hidden _ _ _

theorem applyNat_hidden (m : Layer) (N : Mat α) : Hidden (applyNat m N) := by
  unfold applyNat
  refine Hidden.get_bind fun w => ?_
  cases m.bias with
  | none => exact Hidden.bind (Hidden.lift _) fun nw => Hidden.bind (Hidden.lift _) fun h => paramStep_hidden _ _ _
  | some b =>
    exact Hidden.bind (Hidden.lift _) fun nw => Hidden.bind (Hidden.lift _) fun nb => Hidden.bind (Hidden.lift _) fun h =>
      Hidden.bind (paramStep_hidden _ _ _) fun _ => paramStep_hidden _ _ _

theorem layerStep_bare (m : Layer) : Sees (layerStep (α := α) m) (updatePreconditioner m) :=
  Sees.bind_hidden (updatePreconditioner_bare m) fun _ => Hidden.get_bind fun _ => Hidden.bind (Hidden.lift _) fun _ => applyNat_hidden _ _

theorem dropStats_bare : Sees (dropStats (α := α)) dropStats := by
  unfold dropStats
  refine Sees.get_bind fun w => Sees.forM (f := fun m => setOpt fun o => { o with HKs := Dict.erase o.HKs m.name, HCs := Dict.erase o.HCs m.name })
    (f' := fun m => setOpt fun o => { o with HKs := Dict.erase o.HKs m.name, HCs := Dict.erase o.HCs m.name }) (fun m => ?_) _
  exact Sees.setOpt fun o => rfl

theorem ensureScale_bare (attr : Option α) : Sees (ensureScale attr) (ensureScale attr) := by
  unfold ensureScale
  refine Sees.get_bind fun w => ?_
  rw [show w.bare.opt.scales w.bare.opt.steps = w.opt.scales w.opt.steps from rfl]
  rcases w.opt.scales w.opt.steps with _ | s
  · exact setScale_bare _
  · exact Sees.pure _

theorem step_bare (c : Bool) (attr : Option α) (f : Bool) : Sees (step c attr f) (stepBare c attr f) := by
  unfold step stepBare
  split
  · exact Sees.raise _
  · refine Sees.bind (ensureScale_bare attr) fun _ => Sees.bind ?_ fun _ => Sees.bind (Sees.setOpt fun o => rfl) fun _ => Sees.setOpt fun o => rfl
    unfold stepBody
    split
    · exact dropStats_bare
    · exact Sees.get_bind fun w => Sees.forM layerStep_bare _

end World

/-- every operation that succeeds acts on what is seen without reading anything else -/
theorem exec_bare {op : Op α} {w w' : World α} (h : exec op w = (.ok (), w')) (hv : op.visible = true) : execBare op.bare w.bare = (.ok (), w'.bare) := by
  revert w w'
  suffices H : Sees (exec op) (execBare op.bare) from fun {w w'} h => H w () w' h
  cases op with
  | forward i x ge =>
    simp only [Op.bare, execBare, exec]
    refine Sees.get_bind fun w => ?_
    rw [show w.bare.opt.layers[i]? = w.opt.layers[i]? from rfl]
    rcases w.opt.layers[i]? with _ | m
    · exact Sees.pure _
    · simp only [World.forwardHook]
      refine Sees.get_bind fun w => ?_
      rw [show w.bare.opt.hyperOf m = _ from Opt.hyperOf_bare _ _]
      refine Sees.lift_map_bind _ fun h => ?_
      split
      · show Sees _ (if h.T = 0 then _ else if w.opt.steps % h.T = 0 then _ else _)
        split
        · exact Sees.raise _
        · split
          · exact Sees.modify fun _ => rfl
          · exact Sees.pure _
      · exact Sees.pure _
  | backward k g =>
    simp only [Op.bare, execBare, exec]
    refine Sees.get_bind fun w => ?_
    rw [show w.bare.hooks[k]? = w.hooks[k]? from rfl]
    rcases w.hooks[k]? with _ | ⟨m, x⟩
    · exact Sees.pure _
    · exact World.accumulateH_bare m x g
  | setGrad p G => cases hv
  | setParam p M => cases hv
  | setHyper i h =>
    refine Sees.setOpt (f := fun o => { o with groups := o.groups.modify i fun g => { g with h := h } })
      (f' := fun o => { o with groups := o.groups.modify i fun g => { g with h := h.bare } }) (fun o => ?_)
    show ({ o.bare with groups := (o.groups.map PGroup.bare).modify i _ } : Opt α) = _
    have : (o.groups.map PGroup.bare).modify i (fun g => { g with h := h.bare }) = (o.groups.modify i fun g => { g with h := h }).map PGroup.bare := by
      apply List.ext_getElem?
      intro j
      simp only [List.getElem?_modify, List.getElem?_map]
      rcases o.groups[j]? with _ | g
      · rfl
      · by_cases e : i = j <;> simp [e, PGroup.bare]
    rw [this]; rfl
  | setScale s => exact setScale_bare s
  | step c a f => exact World.step_bare c a f

theorem exec_hidden {op : Op α} {w w' : World α} (h : exec op w = (.ok (), w')) (hv : op.visible = false) : w'.bare = w.bare := by
  cases op with
  | setGrad p G => cases h; rfl
  | setParam p M => cases h; rfl
  | _ => cases hv

/-- what is seen of a run, computed from what is seen of its start and its operations -/
theorem runOk_bare : ∀ (ops : List (Op α)) {w w' : World α}, runOk ops w = some w' →
    w'.bare = ((ops.filter Op.visible).map Op.bare).foldl (fun w op => (execBare op w).2) w.bare
  | [], w, w', h => by cases h; rfl
  | op :: ops, w, w', h => by
    simp only [runOk] at h
    rcases he : exec op w with ⟨e | u, w1⟩
    · rw [he] at h; cases h
    · rw [he] at h
      simp only at h
      have ih := runOk_bare ops h
      cases hv : op.visible with
      | true =>
        rw [List.filter_cons_of_pos hv, List.map_cons, List.foldl_cons, exec_bare he hv]
        exact ih
      | false =>
        rw [List.filter_cons_of_neg (by simp [hv]), ih, exec_hidden he hv]

/-- the pre-conditioner and everything it is computed from: step counter, gradient scales, factors, their momenta, statistics, and registered hooks -/
def World.preconditioner (w : World α) : ℕ × (ℤ → Option α) × (String → Option (SM α)) × (String → Option (SM α)) × (String → Option (SM α)) × (String → Option (SM α)) ×
    (String → Option (SM α)) × (String → Option (SM α)) × List (Layer × ND α) :=
  (w.opt.steps, w.opt.scales, w.opt.Ks, w.opt.Cs, w.opt.mKs, w.opt.mCs, w.opt.HKs, w.opt.HCs, w.hooks)

/-- **What flows into the pre-conditioner.** Two runs without exceptions that start with the same pre-conditioner, layers and groups, possibly with different
parameters, gradients, momentum buffers, learning rates, momenta and weight decays, and whose operations are the same except for assignments of gradients and parameters (which
may be any, at any place and in any number) and of these three hyper-parameters, have the same pre-conditioner in the end: factors, Riemannian momenta, statistics, gradient
scales and step counter are functions of the data the hooks see, of the other hyper-parameters and the gradient scales. -/
theorem C80_flow (w₁ w₂ v₁ v₂ : World α) (ops₁ ops₂ : List (Op α)) (h₁ : runOk ops₁ w₁ = some v₁) (h₂ : runOk ops₂ w₂ = some v₂)
    (hp : w₁.preconditioner = w₂.preconditioner) (hl : w₁.opt.layers = w₂.opt.layers) (hs : w₁.opt.structs = w₂.opt.structs) (hg : w₁.opt.ptrGroup = w₂.opt.ptrGroup)
    (hh : w₁.opt.groups.map PGroup.bare = w₂.opt.groups.map PGroup.bare) (ho : (ops₁.filter Op.visible).map Op.bare = (ops₂.filter Op.visible).map Op.bare) :
    v₁.preconditioner = v₂.preconditioner := by
  have hb : w₁.bare = w₂.bare := by
    obtain ⟨⟨a1, a2, a3, a4, a5, a6, a7, a8, a9, a10, a11, a12, a13⟩, b, c, d⟩ := w₁
    obtain ⟨⟨a1', a2', a3', a4', a5', a6', a7', a8', a9', a10', a11', a12', a13'⟩, b', c', d'⟩ := w₂
    simp only [World.preconditioner, Prod.mk.injEq] at hp
    obtain ⟨rfl, rfl, rfl, rfl, rfl, rfl, rfl, rfl, rfl⟩ := hp
    simp only at hl hs hg hh
    subst hl hs hg
    simp only [World.bare, Opt.bare, hh]
  have e : v₁.bare = v₂.bare := by rw [runOk_bare ops₁ h₁, runOk_bare ops₂ h₂, hb, ho]
  have : ∀ v : World α, v.preconditioner = v.bare.preconditioner := fun v => rfl
  rw [this v₁, this v₂, e]

/-- **Discarding gradients does not discard statistics.** Inserting `zero_grad()`, or any other assignment of gradients or parameters, anywhere in a run changes nothing of the
pre-conditioner: what the backward passes before it have contributed to the statistics stays and enters the next update. -/
theorem C80_zero_grad (w v₁ v₂ : World α) (a b : List (Op α)) (z : List (Op α)) (hz : ∀ op ∈ z, (∃ p G, op = .setGrad p G) ∨ ∃ p M, op = .setParam p M)
    (h₁ : runOk (a ++ z ++ b) w = some v₁) (h₂ : runOk (a ++ b) w = some v₂) : v₁.preconditioner = v₂.preconditioner := by
  refine C80_flow w w v₁ v₂ _ _ h₁ h₂ rfl rfl rfl rfl rfl ?_
  have : z.filter Op.visible = [] := List.filter_eq_nil_iff.mpr fun op ho => by
    rcases hz op ho with ⟨p, G, rfl⟩ | ⟨p, M, rfl⟩ <;> simp [Op.visible]
  simp [List.filter_append, this]

/-! ### What discards a batch -/

/-- the operation is a forward or a backward pass of one layer -/
def Op.IsPass : Op α → Prop
  | .forward .. | .backward .. => True
  | _ => False

/-- nothing but hooks and the statistics of the optimizer's layers differ -/
def SameButStats (w w' : World α) : Prop := ∃ HK HC hk, w' = { w with opt := { w.opt with HKs := HK, HCs := HC }, hooks := hk } ∧
  (∀ n, (¬ ∃ m ∈ w.opt.layers, m.name = n) → HK n = w.opt.HKs n ∧ HC n = w.opt.HCs n) ∧ ∀ mx ∈ hk, mx.1 ∈ w.opt.layers

theorem SameButStats.refl {w : World α} (hh : ∀ mx ∈ w.hooks, mx.1 ∈ w.opt.layers) : SameButStats w w :=
  ⟨_, _, _, rfl, fun _ _ => ⟨rfl, rfl⟩, hh⟩

theorem exec_pass {op : Op α} (hp : op.IsPass) {w : World α} (hh : ∀ mx ∈ w.hooks, mx.1 ∈ w.opt.layers) : SameButStats w (exec op w).2 := by
  have r := SameButStats.refl hh
  cases op with
  | forward i x ge =>
    simp only [exec, Py.get_bind_run]
    rcases hi : w.opt.layers[i]? with _ | m
    · exact r
    · simp only [World.forwardHook, Py.get_bind_run]
      rcases w.opt.hyperOf m with e | h
      · exact r
      · simp only [Py.lift_ok_bind_run]
        split
        · split
          · exact r
          · split
            · refine ⟨w.opt.HKs, w.opt.HCs, w.hooks ++ [(m, x)], rfl, fun _ _ => ⟨rfl, rfl⟩, fun mx hm => ?_⟩
              rcases List.mem_append.mp hm with h1 | h1
              · exact hh mx h1
              · rw [List.mem_singleton.mp h1]; exact List.mem_of_getElem? hi
            · exact r
        · exact r
  | backward k g =>
    simp only [exec, Py.get_bind_run]
    rcases hk : w.hooks[k]? with _ | ⟨m, x⟩
    · exact r
    · have f := World.accumulateH_frame m x g w
      have hm := hh _ (List.mem_of_getElem? hk)
      show SameButStats w (World.accumulateH m x g w).2
      generalize (World.accumulateH m x g w).2 = v at f
      obtain ⟨⟨a1, a2, a3, a4, a5, a6, a7, a8, a9, a10, a11, a12, a13⟩, b, c, d⟩ := v
      obtain ⟨f1, f2, f3, f4, f5, f6, f7, f8, f9, f10, f11, f12, f13, f14, f15, f16⟩ := f
      simp only at f1 f2 f3 f4 f5 f6 f7 f8 f9 f10 f11 f12 f13 f14 f15 f16
      have g7 := funext fun n => f7 n id
      have g8 := funext fun n => f8 n id
      have g9 := funext fun n => f9 n id
      have g10 := funext fun n => f10 n id
      have g13 := funext fun n => f13 n id
      have g14 := funext fun n => f14 n id
      refine ⟨a11, a12, w.hooks, ?_, fun n hn => ?_, hh⟩
      · subst f1 f2 f3 f4 f5 f6 g7 g8 g9 g10 g13 g14 f15 f16
        rfl
      · have : ¬ n = m.name := fun e => hn ⟨m, hm, e.symm⟩
        exact ⟨f11 n this, f12 n this⟩
  | _ => exact hp.elim

theorem run_pass : ∀ (ops : List (Op α)) (_ : ∀ op ∈ ops, op.IsPass) {w : World α} (_ : ∀ mx ∈ w.hooks, mx.1 ∈ w.opt.layers), SameButStats w (run ops w)
  | [], _, w, hh => SameButStats.refl hh
  | op :: ops, ho, w, hh => by
    obtain ⟨HK, HC, hk, e, h1, h2⟩ := exec_pass (ho op (by simp)) hh
    obtain ⟨HK', HC', hk', e', h1', h2'⟩ := run_pass ops (fun o h => ho o (by simp [h])) (w := (exec op w).2) (by rw [e]; exact h2)
    rw [e] at e' h1' h2'
    refine ⟨HK', HC', hk', ?_, fun n hn => ?_, h2'⟩
    · show run ops (exec op w).2 = _
      rw [e, e']
    · exact ⟨(h1' n hn).1.trans (h1 n hn).1, (h1' n hn).2.trans (h1 n hn).2⟩

/-- **What discards a batch.** A step that the gradient scaler reports as infinite discards everything that forward and backward passes since the last step have collected, in
whatever order and number they came and whether or not some of them raised: the optimizer is the same as after such a step without these passes. -/
theorem C80_skip_discards (w : World α) (hh : ∀ mx ∈ w.hooks, mx.1 ∈ w.opt.layers) (hs : w.opt.steps = 0 → w.opt.scales (-1) ≠ none) (ops : List (Op α))
    (ho : ∀ op ∈ ops, op.IsPass) (attr : Option α) :
    (run (ops ++ [.step false attr true]) w).opt = (run [.step false attr true] w).opt := by
  rw [run_append]
  obtain ⟨HK, HC, hk, e, h1, h2⟩ := run_pass ops ho hh
  rw [e]
  show (World.step false attr true _).2.opt = (World.step false attr true _).2.opt
  rw [World.skip_run (w := w) hs, World.skip_run (by exact hs)]
  simp only [Opt.removeUsedScales]
  congr 1
  · funext n
    split
    · rfl
    · next h => exact (h1 n h).1
  · funext n
    split
    · rfl
    · next h => exact (h1 n h).2

/-! ### Samples -/

namespace Sample

/-- another batch -/
def pass' : List (Op ℚ) := [.forward 0 (row [5]) true, .forward 1 (row [2, 1]) true, .backward 1 (row [3]), .backward 0 (row [1])]
/-- `zero_grad()` and the gradients of the next batch -/
def regrad : List (Op ℚ) := [.setGrad 0 none, .setGrad 1 none, .setGrad 2 none, .setGrad 0 (some (.ofLists 1 1 [[7]])), .setGrad 1 (some (.ofLists 1 1 [[2]])),
  .setGrad 2 (some (.ofLists 1 2 [[4, 5]]))]

end Sample

-- two histories with other parameters, gradients, learning rate, momentum and weight decay: all parameters end up different, all factors equal
example : let w := Sample.w0
    let w' : World ℚ := { w with data := fun p => if p = 2 then .ofLists 1 2 [[5, 6]] else .ofLists 1 1 [[7]] }
    let h : Hyper ℚ := Construct.defaults Sample.args
    let ops : List (Op ℚ) := [.setHyper 0 { h with T := 1 }] ++ Sample.pass ++ [.step false none false]
    let ops' : List (Op ℚ) := [.setHyper 0 { h with T := 1, lr := 2, momentum := 3, weightDecay := 1 }] ++ Sample.pass ++ Sample.regrad ++ [.step false none false]
    (runOk ops w).isSome = true ∧ (runOk ops' w').isSome = true ∧ w.preconditioner = w'.preconditioner ∧
      w.opt.groups.map PGroup.bare = w'.opt.groups.map PGroup.bare ∧ (ops.filter Op.visible).map Op.bare = (ops'.filter Op.visible).map Op.bare ∧
      (∀ p < 3, ((run ops w).data p).toLists ≠ ((run ops' w').data p).toLists) ∧
      ∀ n ∈ ["a", "b"], Sample.fac ((run ops w).opt.Ks n) = Sample.fac ((run ops' w').opt.Ks n) ∧
        Sample.fac ((run ops w).opt.Ks n) ≠ Sample.fac (w.opt.Ks n) ∧ Sample.fac ((run ops w).opt.Cs n) = Sample.fac ((run ops' w').opt.Cs n) :=
  ⟨by decide +kernel, by decide +kernel, rfl, rfl, rfl, by decide +kernel, by decide +kernel⟩

/-- the operation when `n` more hooks have been registered before it -/
def Op.after (n : ℕ) : Op α → Op α
  | .backward k g => .backward (k + n) g
  | op => op

/-- **C80 (false: `zero_grad` discards a batch).** The gradients of a batch are discarded with `zero_grad()`, as one does when they are not finite, and training goes on with the
next batch: the factors are not those of training without the discarded batch. -/
theorem C80_discard_false : ∃ (w : World ℚ) (batch zero next : List (Op ℚ)), Reachable supportedStructures w ∧ (∀ op ∈ batch ++ next, op.IsPass) ∧
    (∀ op ∈ zero, ∃ p G, op = .setGrad p G) ∧ (run batch w).hooks.length = w.hooks.length + 2 ∧
    (runOk (batch ++ zero ++ next.map (Op.after 2) ++ [.step false none false]) w).isSome = true ∧ (runOk (zero ++ next ++ [.step false none false]) w).isSome = true ∧
    ∀ n ∈ ["a", "b"], Sample.fac ((run (batch ++ zero ++ next.map (Op.after 2) ++ [.step false none false]) w).opt.Ks n) ≠
      Sample.fac ((run (zero ++ next ++ [.step false none false]) w).opt.Ks n) :=
  ⟨Sample.w0, Sample.pass, Sample.regrad, Sample.pass', Sample.reachable (by decide +kernel) (by decide +kernel) [], by simp [Sample.pass, Sample.pass', Op.IsPass],
    by simp [Sample.regrad], by decide +kernel, by decide +kernel, by decide +kernel, by decide +kernel⟩

-- a discarded step leaves the optimizer as if the pass had not been
example : (∀ mx ∈ Sample.w0.hooks, mx.1 ∈ Sample.w0.opt.layers) ∧ (Sample.w0.opt.steps = 0 → Sample.w0.opt.scales (-1) ≠ none) ∧ (∀ op ∈ Sample.pass, op.IsPass) ∧
    Sample.fac (Sample.w1.opt.HKs "a") ≠ none := ⟨by decide +kernel, by decide +kernel, by simp [Sample.pass, Op.IsPass], by decide +kernel⟩
