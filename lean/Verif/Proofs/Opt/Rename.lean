import Verif.Proofs.Opt.History
import Mathlib.Logic.Equiv.Defs

/-! Training does not depend on the addresses of parameters (`data_ptr()`), nor on tensor hooks that no longer run. -/

set_option linter.unusedSectionVars false
variable {α : Type} [Field α] [LinearOrder α] [HasSqrt α]

/-- the parameter at another address -/
def Param.rename (ρ : Equiv.Perm ℕ) (p : Param) : Param := { p with ptr := ρ p.ptr }
/-- the same module with parameters at other addresses -/
def Layer.rename (ρ : Equiv.Perm ℕ) (m : Layer) : Layer :=
  { m with weight := m.weight.rename ρ, bias := m.bias.map (·.rename ρ), others := m.others.map (·.rename ρ) }
/-- the same group with parameters at other addresses -/
def PGroup.rename (ρ : Equiv.Perm ℕ) (g : PGroup α) : PGroup α := { g with params := g.params.map ρ }

/-- the same optimizer with parameters at other addresses -/
def Opt.rename (ρ : Equiv.Perm ℕ) (o : Opt α) : Opt α :=
  { o with layers := o.layers.map (·.rename ρ), ptrGroup := fun p => o.ptrGroup (ρ.symm p), groups := o.groups.map (·.rename ρ),
           mom := fun p => o.mom (ρ.symm p) }

/-- the same state with parameters at other addresses and other hooks -/
def World.view (ρ : Equiv.Perm ℕ) (φ : List (Layer × ND α) → List (Layer × ND α)) (w : World α) : World α where
  opt := w.opt.rename ρ
  data := fun p => w.data (ρ.symm p)
  grad := fun p => w.grad (ρ.symm p)
  hooks := φ w.hooks

/-- `x'` does with the renamed state what `x` does with the state -/
def Ren {β : Type} (ρ : Equiv.Perm ℕ) (φ : List (Layer × ND α) → List (Layer × ND α)) (x x' : Py (World α) β) : Prop :=
  ∀ w, x' (w.view ρ φ) = ((x w).1, (x w).2.view ρ φ)

variable {ρ : Equiv.Perm ℕ} {φ : List (Layer × ND α) → List (Layer × ND α)} {β γ : Type}

theorem Ren.bind {x x' : Py (World α) β} {f f' : β → Py (World α) γ} (hx : Ren ρ φ x x') (hf : ∀ b, Ren ρ φ (f b) (f' b)) :
    Ren ρ φ (x >>= f) (x' >>= f') := by
  intro w
  rw [Py.bind_run, Py.bind_run, hx w]
  rcases x w with ⟨e | b, w1⟩
  · rfl
  · exact hf b w1
theorem Ren.pure (b : β) : Ren ρ φ (Pure.pure b : Py (World α) β) (Pure.pure b) := fun _ => rfl
theorem Ren.raise (e : PyErr) : Ren ρ φ (Py.raise e : Py (World α) β) (Py.raise e) := fun _ => rfl
theorem Ren.lift (x : Except PyErr β) : Ren ρ φ (Py.lift x : Py (World α) β) (Py.lift x) := fun _ => rfl
theorem Ren.get_bind {f f' : World α → Py (World α) γ} (h : ∀ w, Ren ρ φ (f w) (f' (w.view ρ φ))) : Ren ρ φ (Py.get >>= f) (Py.get >>= f') :=
  fun w => h w w
theorem Ren.modify {f f' : World α → World α} (h : ∀ w, f' (w.view ρ φ) = (f w).view ρ φ) : Ren ρ φ (Py.modify f) (Py.modify f') :=
  fun w => congrArg (Prod.mk (Except.ok ())) (h w)
theorem Ren.forM {f f' : Layer → Py (World α) Unit} (h : ∀ m, Ren ρ φ (f m) (f' (m.rename ρ))) :
    ∀ ms : List Layer, Ren ρ φ (Py.forM ms f) (Py.forM (ms.map (·.rename ρ)) f')
  | [] => Ren.pure ()
  | m :: ms => Ren.bind (h m) fun _ => Ren.forM h ms

theorem Ren.setOpt {f f' : Opt α → Opt α} (h : ∀ o, f' (o.rename ρ) = (f o).rename ρ) :
    Ren ρ φ (World.setOpt f) (World.setOpt f') := Ren.modify fun w => by
  show ({ w.view ρ φ with opt := f' (w.opt.rename ρ) } : World α) = _
  rw [h]; rfl

theorem Layer.supported_rename (m : Layer) : (m.rename ρ).supported = m.supported := rfl
theorem Layer.dims_rename (m : Layer) : (m.rename ρ).dims = m.dims := by
  unfold Layer.dims; cases hk : m.kind <;> simp [Layer.rename, hk]

theorem Opt.hyperOf_rename (o : Opt α) (m : Layer) : (o.rename ρ).hyperOf (m.rename ρ) = o.hyperOf m := by
  unfold Opt.hyperOf
  rw [Layer.supported_rename]
  have e : lookup (o.rename ρ).ptrGroup (m.rename ρ).weight.ptr = lookup o.ptrGroup m.weight.ptr := by
    simp [lookup, Opt.rename, Layer.rename, Param.rename]
  rw [e]
  split
  · rcases lookup o.ptrGroup m.weight.ptr with e | i
    · rfl
    · simp only [Except.bind_ok', Opt.rename, List.getElem?_map]
      rcases o.groups[i]? with _ | g <;> rfl
  · rfl

theorem setScale_ren (s : α) : Ren ρ φ (Opt.setScale s) (Opt.setScale s) := by
  unfold Opt.setScale
  refine Ren.bind (Ren.modify fun w => rfl) fun _ => Ren.get_bind fun w => ?_
  show Ren ρ φ _ (if w.opt.steps = 0 then _ else _)
  split
  · exact Ren.bind (Ren.lift _) fun _ => Ren.bind (Ren.lift _) fun _ => Ren.pure _
  · exact Ren.pure _

namespace World

theorem storeMomenta_ren (h : Hyper α) (name : String) (mK mC : SM α) (o : Opt α) :
    storeMomenta h name mK mC (o.rename ρ) = (storeMomenta h name mK mC o).rename ρ := by
  unfold storeMomenta; split <;> rfl

theorem updateDirs_ren (o : Opt α) (h : Hyper α) (m : Layer) (K C HK HC : SM α) :
    updateDirs (o.rename ρ) h (m.rename ρ) K C HK HC = updateDirs o h m K C HK HC := by
  unfold updateDirs; rw [Layer.dims_rename]; rfl

theorem updateOn_ren (h : Hyper α) (m : Layer) : Ren ρ φ (updateOn h m) (updateOn h (m.rename ρ)) := by
  unfold updateOn
  refine Ren.get_bind fun w => Ren.bind (Ren.lift _) fun K => Ren.bind (Ren.lift _) fun C => Ren.bind (Ren.lift _) fun HK =>
    Ren.bind (Ren.setOpt fun o => rfl) fun _ => Ren.bind (Ren.lift _) fun HC => Ren.bind (Ren.setOpt fun o => rfl) fun _ => ?_
  rw [show updateDirs (w.view ρ φ).opt h (m.rename ρ) K C HK HC = _ from updateDirs_ren _ _ _ _ _ _ _]
  refine Ren.bind (Ren.lift _) fun ms => Ren.bind (Ren.setOpt fun o => storeMomenta_ren _ _ _ _ o) fun _ => Ren.bind (Ren.lift _) fun bK =>
    Ren.bind (Ren.lift _) fun bC => Ren.bind (Ren.lift _) fun K' => Ren.bind (Ren.setOpt fun o => rfl) fun _ => Ren.bind (Ren.lift _) fun C' =>
    Ren.setOpt fun o => rfl

theorem updatePreconditioner_ren (m : Layer) : Ren ρ φ (updatePreconditioner (α := α) m) (updatePreconditioner (m.rename ρ)) := by
  unfold updatePreconditioner
  refine Ren.get_bind fun w => ?_
  rw [show (w.view ρ φ).opt.hyperOf (m.rename ρ) = _ from Opt.hyperOf_rename _ _]
  refine Ren.bind (Ren.lift _) fun h => ?_
  show Ren ρ φ _ (if h.T = 0 then _ else if w.opt.steps % h.T ≠ 0 then _ else _)
  split
  · exact Ren.raise _
  · split
    · exact Ren.pure _
    · exact updateOn_ren h m

theorem localH_ren (o : Opt α) (m : Layer) (x g : ND α) : localH (o.rename ρ) (m.rename ρ) x g = localH o m x g := by
  unfold localH
  rw [Opt.hyperOf_rename, show (m.rename ρ).bias.isSome = m.bias.isSome by simp [Layer.rename]]; rfl

theorem commitH_ren (m : Layer) (HK HC : SM α) : Ren ρ φ (commitH m HK HC) (commitH (m.rename ρ) HK HC) := by
  unfold commitH
  exact Ren.get_bind fun w => Ren.bind (Ren.lift _) fun HK' => Ren.bind (Ren.setOpt fun o => rfl) fun _ => Ren.bind (Ren.lift _) fun HC' =>
    Ren.setOpt fun o => rfl

theorem accumulateH_ren (m : Layer) (x g : ND α) : Ren ρ φ (accumulateH m x g) (accumulateH (m.rename ρ) x g) := by
  unfold accumulateH
  refine Ren.get_bind fun w => ?_
  rw [show localH (w.view ρ φ).opt (m.rename ρ) x g = _ from localH_ren _ _ _ _]
  exact Ren.bind (Ren.lift _) fun H => commitH_ren _ _ _

theorem gradOf_ren (w : World α) (p : Param) : (w.view ρ φ).gradOf (p.rename ρ) = w.gradOf p := by
  simp [gradOf, view, Param.rename]

theorem gradMat_ren (w : World α) (m : Layer) : (w.view ρ φ).gradMat (m.rename ρ) = w.gradMat m := by
  unfold gradMat
  rw [Layer.supported_rename, show (m.rename ρ).weight = m.weight.rename ρ from rfl, gradOf_ren]
  cases hb : m.bias with
  | none => simp [Layer.rename, hb]
  | some b => simp [Layer.rename, hb, gradOf_ren]

theorem natGradMat_ren (w : World α) (m : Layer) : (w.view ρ φ).natGradMat (m.rename ρ) = w.natGradMat m := by
  unfold natGradMat
  rw [gradMat_ren, show (w.view ρ φ).opt.hyperOf (m.rename ρ) = _ from Opt.hyperOf_rename _ _]; rfl

theorem update_symm {v : Type} (f : ℕ → v) (p : ℕ) (x : v) :
    Function.update (fun q => f (ρ.symm q)) (ρ p) x = fun q => Function.update f p x (ρ.symm q) := by
  funext q
  simp only [Function.update_apply, Equiv.symm_apply_eq]

theorem moveParam_ren (h : Hyper α) (p : ℕ) (step : Mat α) : Ren ρ φ (moveParam h p step) (moveParam h (ρ p) step) := by
  unfold moveParam
  refine Ren.get_bind fun w => ?_
  rw [show (w.view ρ φ).data (ρ p) = w.data p by simp [view]]
  refine Ren.bind (Ren.lift _) fun new => Ren.modify fun w => ?_
  show ({ w.view ρ φ with data := Function.update (fun q => w.data (ρ.symm q)) (ρ p) new } : World α) = _
  rw [update_symm]; rfl

theorem paramStep_ren (h : Hyper α) (p : ℕ) (step : Mat α) : Ren ρ φ (paramStep h p step) (paramStep h (ρ p) step) := by
  unfold paramStep
  refine Ren.get_bind fun w => ?_
  rw [show (w.view ρ φ).data (ρ p) = w.data p by simp [view], show (w.view ρ φ).opt.mom (ρ p) = w.opt.mom p by simp [view, Opt.rename]]
  refine Ren.bind (Ren.lift _) fun st => ?_
  split
  · refine Ren.bind (Ren.lift _) fun buf => Ren.bind (Ren.setOpt fun o => ?_) fun _ => moveParam_ren _ _ _
    show ({ o.rename ρ with mom := Function.update (fun q => o.mom (ρ.symm q)) (ρ p) (some buf) } : Opt α) = _
    rw [update_symm]; rfl
  · exact moveParam_ren _ _ _

theorem applyNat_ren (m : Layer) (N : Mat α) : Ren ρ φ (applyNat m N) (applyNat (m.rename ρ) N) := by
  unfold applyNat
  refine Ren.get_bind fun w => ?_
  rw [show (w.view ρ φ).opt.hyperOf (m.rename ρ) = _ from Opt.hyperOf_rename _ _]
  cases hb : m.bias with
  | none =>
    rw [show (m.rename ρ).bias = none by simp [Layer.rename, hb]]
    exact Ren.bind (Ren.lift _) fun nw => Ren.bind (Ren.lift _) fun h => paramStep_ren _ _ _
  | some b =>
    rw [show (m.rename ρ).bias = some (b.rename ρ) by simp [Layer.rename, hb]]
    exact Ren.bind (Ren.lift _) fun nw => Ren.bind (Ren.lift _) fun nb => Ren.bind (Ren.lift _) fun h =>
      Ren.bind (paramStep_ren _ _ _) fun _ => paramStep_ren _ _ _

theorem layerStep_ren (m : Layer) : Ren ρ φ (layerStep (α := α) m) (layerStep (m.rename ρ)) := by
  unfold layerStep
  refine Ren.bind (updatePreconditioner_ren m) fun _ => Ren.get_bind fun w => ?_
  rw [natGradMat_ren]
  exact Ren.bind (Ren.lift _) fun N => applyNat_ren _ _

theorem innerStep_ren : Ren ρ φ (innerStep (α := α)) innerStep := by
  unfold innerStep
  exact Ren.get_bind fun w => Ren.forM layerStep_ren _

theorem dropStats_ren : Ren ρ φ (dropStats (α := α)) dropStats := by
  unfold dropStats
  refine Ren.get_bind fun w => Ren.forM (f' := fun m => setOpt fun o => { o with HKs := Dict.erase o.HKs m.name, HCs := Dict.erase o.HCs m.name })
    (fun m => ?_) _
  exact Ren.setOpt fun o => rfl

theorem ensureScale_ren (attr : Option α) : Ren ρ φ (ensureScale attr) (ensureScale attr) := by
  unfold ensureScale
  refine Ren.get_bind fun w => ?_
  rw [show (w.view ρ φ).opt.scales (w.view ρ φ).opt.steps = w.opt.scales w.opt.steps from rfl]
  rcases w.opt.scales w.opt.steps with _ | s
  · exact setScale_ren _
  · exact Ren.pure _

theorem step_ren (c : Bool) (attr : Option α) (f : Bool) : Ren ρ φ (step c attr f) (step c attr f) := by
  unfold step
  split
  · exact Ren.raise _
  · refine Ren.bind (ensureScale_ren attr) fun _ => Ren.bind ?_ fun _ => Ren.bind (Ren.setOpt fun o => rfl) fun _ => Ren.setOpt fun o => rfl
    unfold stepBody
    split
    · exact dropStats_ren
    · exact innerStep_ren

end World

/-- drop the first `n` hooks -/
def keepHooks (ρ : Equiv.Perm ℕ) (n : ℕ) (hs : List (Layer × ND α)) : List (Layer × ND α) := (hs.drop n).map fun e => (e.1.rename ρ, e.2)

/-- the same operation, with parameters at other addresses, and hooks counted from the `n`-th -/
def Op.view (ρ : Equiv.Perm ℕ) (n : ℕ) : Op α → Op α
  | .backward k g => .backward (k - n) g
  | .setGrad p G => .setGrad (ρ p) G
  | .setParam p M => .setParam (ρ p) M
  | op => op

/-- the operation runs none of the first `n` hooks -/
def Op.Since (n : ℕ) : Op α → Prop
  | .backward k _ => n ≤ k
  | _ => True

theorem exec_view {n : ℕ} (op : Op α) (w : World α) (hn : n ≤ w.hooks.length) (ho : op.Since n) :
    exec (op.view ρ n) (w.view ρ (keepHooks ρ n)) = ((exec op w).1, (exec op w).2.view ρ (keepHooks ρ n)) := by
  cases op with
  | forward i x ge =>
    simp only [Op.view, exec, Py.get_bind_run]
    rw [show (w.view ρ (keepHooks ρ n)).opt.layers[i]? = (w.opt.layers[i]?).map (·.rename ρ) from by
      show (w.opt.layers.map (·.rename ρ))[i]? = _; rw [List.getElem?_map]]
    rcases w.opt.layers[i]? with _ | m
    · rfl
    · simp only [Option.map_some, World.forwardHook, Py.get_bind_run]
      rw [show (w.view ρ (keepHooks ρ n)).opt.hyperOf (m.rename ρ) = _ from Opt.hyperOf_rename _ _]
      rcases w.opt.hyperOf m with e | h
      · rfl
      · rw [Py.lift_ok_bind_run, Py.lift_ok_bind_run]
        split
        · split
          · rfl
          · show (if w.opt.steps % h.T = 0 then _ else _ : Py (World α) Unit) _ = _
            split
            · show ((.ok () : Except PyErr Unit), ({ w.view ρ (keepHooks ρ n) with hooks := keepHooks ρ n w.hooks ++ [(m.rename ρ, x)] } : World α)) =
                (.ok (), World.view ρ (keepHooks ρ n) { w with hooks := w.hooks ++ [(m, x)] })
              have : keepHooks ρ n (w.hooks ++ [(m, x)]) = keepHooks ρ n w.hooks ++ [(m.rename ρ, x)] := by
                simp [keepHooks, List.drop_append_of_le_length hn]
              unfold World.view
              simp only [this]
            · rfl
        · rfl
  | backward k g =>
    simp only [Op.view, exec, Py.get_bind_run]
    rw [show (w.view ρ (keepHooks ρ n)).hooks[k - n]? = (w.hooks[k]?).map fun e => (e.1.rename ρ, e.2) from by
      show (keepHooks ρ n w.hooks)[k - n]? = _
      rw [keepHooks, List.getElem?_map, List.getElem?_drop, Nat.add_sub_cancel' ho]]
    rcases w.hooks[k]? with _ | ⟨m, x⟩
    · rfl
    · exact World.accumulateH_ren m x g w
  | setGrad p G =>
    show ((.ok () : Except PyErr Unit), ({ w.view ρ (keepHooks ρ n) with grad := Function.update (fun q => w.grad (ρ.symm q)) (ρ p) G } : World α)) = _
    rw [World.update_symm]; rfl
  | setParam p M =>
    show ((.ok () : Except PyErr Unit), ({ w.view ρ (keepHooks ρ n) with data := Function.update (fun q => w.data (ρ.symm q)) (ρ p) M } : World α)) = _
    rw [World.update_symm]; rfl
  | setHyper i h =>
    refine Ren.setOpt (f := fun o => { o with groups := o.groups.modify i fun g => { g with h := h } })
      (f' := fun o => { o with groups := o.groups.modify i fun g => { g with h := h } }) (fun o => ?_) w
    show ({ o.rename ρ with groups := (o.groups.map (·.rename ρ)).modify i _ } : Opt α) = _
    have : (o.groups.map (PGroup.rename ρ)).modify i (fun g => { g with h := h }) = (o.groups.modify i fun g => { g with h := h }).map (PGroup.rename ρ) := by
      apply List.ext_getElem?
      intro j
      simp only [List.getElem?_modify, List.getElem?_map]
      rcases o.groups[j]? with _ | g
      · rfl
      · by_cases e : i = j <;> simp [e, PGroup.rename]
    rw [this]; rfl
  | setScale s => exact setScale_ren s w
  | step c a f => exact World.step_ren c a f w

theorem exec_hooks_length (op : Op α) (w : World α) : w.hooks.length ≤ (exec op w).2.hooks.length := by
  cases op with
  | forward i x ge =>
    rcases exec_forward i x ge w with e | ⟨_, m, _, _, e⟩ <;> rw [e] <;> simp
  | backward k g => rw [(exec_backward k g w).hooks]
  | setGrad p G => exact le_rfl
  | setParam p M => exact le_rfl
  | setHyper i h' => exact le_rfl
  | setScale s => rw [exec, World.setScale_state]
  | step c attr f =>
    cases c
    · rw [exec]
      have fr := stepBody_frame f (World.withScale attr w)
      rcases step_state attr f w with e | ⟨e', e⟩ | ⟨w1, e1, e⟩
      · rw [e]; exact le_rfl
      · rw [e, fr.hooks]; exact le_rfl
      · rw [e]
        rw [e1] at fr
        exact le_of_eq (congrArg List.length fr.hooks.symm)
    · rw [exec, step_closure]

theorem run_view {n : ℕ} : ∀ (ops : List (Op α)) (w : World α), n ≤ w.hooks.length → (∀ op ∈ ops, op.Since n) →
    run (ops.map (Op.view ρ n)) (w.view ρ (keepHooks ρ n)) = (run ops w).view ρ (keepHooks ρ n)
  | [], _, _, _ => rfl
  | op :: ops, w, hn, ho => by
    rw [List.map_cons, run_cons, exec_view op w hn (ho op (by simp)), run_cons]
    exact run_view ops _ (hn.trans (exec_hooks_length op w)) fun o h => ho o (by simp [h])
