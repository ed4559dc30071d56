import Verif.Model.Construct

/-!
Several optimizers for one model. `SINGD.__init__` installs a forward hook on every layer it will train (`optimizer.py:239-241, 637-664`). The hooks hold
references to the optimizer (bound methods), and nothing in the class removes them: they outlive the variable that held the optimizer, and they outlive
a constructor that raised after `_install_hooks`. Here the parameters, their gradients and the outputs of forward passes are shared, and any number of
optimizers, some of them half-constructed, are attached to the layers.

Simplified: all optimizers were given the same model, so that a module is the same `Layer` for all of them.
-/

variable {α : Type} [Field α] [LinearOrder α] [HasSqrt α]

namespace Multi

/-- An optimizer object whose hooks were installed. `ready`: its constructor returned. Otherwise the user has no reference to it and it lacks `_grad_scales`
(`optimizer.py:266`). `attached`: its forward hooks were not removed through `hook_handles`. -/
structure Slot (α : Type) [Zero α] where
  opt : Opt α
  ready : Bool
  attached : Bool

/-- the output of a forward pass through `layer` with input `x`; `regs` are the optimizers that registered a tensor hook on it, in this order -/
structure Out (α : Type) where
  layer : Layer
  x : ND α
  regs : List ℕ

/-- the model's parameters and gradients, the optimizers, and the outputs that backward passes may reach -/
structure State (α : Type) [Zero α] where
  data : ℕ → Mat α
  grad : ℕ → Option (Mat α)
  slots : List (Slot α)
  outs : List (Out α)

/-- the tensor hooks of optimizer `j` -/
def State.hooksOf (s : State α) (j : ℕ) : List (Layer × ND α) := (s.outs.filter fun o => o.regs.contains j).map fun o => (o.layer, o.x)

/-- what optimizer `j` reads and writes -/
def State.world (s : State α) (j : ℕ) (sl : Slot α) : World α := ⟨sl.opt, s.data, s.grad, s.hooksOf j⟩

/-- run a method of optimizer `j`; only the user's references matter, so nothing happens if there is none -/
def onSlot (j : ℕ) (f : Py (World α) Unit) : Py (State α) Unit := fun s =>
  match s.slots[j]? with
  | none => (.ok (), s)
  | some sl =>
    if sl.ready then
      let r := f (s.world j sl)
      (r.1, { s with data := r.2.data, grad := r.2.grad, slots := s.slots.set j { sl with opt := r.2.opt } })
    else (.ok (), s)

/-! ### Forward and backward passes -/

/-- The forward hooks of all optimizers, in the order of their registration (`optimizer.py:548-576`). Returns the optimizers that register a tensor hook. -/
def fire (m : Layer) (x : ND α) (ge : Bool) (data : ℕ → Mat α) (grad : ℕ → Option (Mat α)) : ℕ → List (Slot α) → Except PyErr (List ℕ)
  | _, [] => .ok []
  | k, sl :: sls =>
    if sl.attached && decide (m ∈ sl.opt.layers) then
      match World.forwardHook m x ge ⟨sl.opt, data, grad, []⟩ with
      | (.error e, _) => .error e
      | (.ok _, w) => (fire m x ge data grad (k + 1) sls).map fun r => if w.hooks.isEmpty then r else k :: r
    else fire m x ge data grad (k + 1) sls

/-- The exception that `_accumulate_H_terms` of a half-constructed optimizer raises (`optimizer.py:590-611`): one of those before the gradient scale is read,
or the missing attribute -/
def halfError (o : Opt α) (m : Layer) (x g : ND α) : PyErr :=
  let r : Except PyErr (SM α) := do
    let h ← o.hyperOf m
    let a ← PIO.processInput x m.kind m.bias.isSome h.kfacApprox
    let _ ← PIO.processGradOutput g m.kind h.lossAverage h.kfacApprox
    let K ← lookup o.Ks m.name
    let _ ← lookup o.Cs m.name
    K.fromInner (some a.T)
  match r with
  | .error e => e
  | .ok _ => .attributeError

/-- the tensor hook of optimizer `k` on the output `o` -/
def tensorHook (o : Out α) (g : ND α) (k : ℕ) : Py (State α) Unit := fun s =>
  match s.slots[k]? with
  | none => (.ok (), s)
  | some sl => if sl.ready then onSlot k (World.accumulateH o.layer o.x g) s else (.error (halfError sl.opt o.layer o.x g), s)

/-! ### Construction -/

/-- `_initialize_buffers`, one layer (`optimizer.py:411-428`), as statements: what was stored before an exception stays -/
def initLayer (m : Layer) : Py (Opt α) Unit := do
  let d ← Py.lift m.dims
  let o ← Py.get
  let h ← Py.lift (o.hyperOf m)
  let cK ← Py.lift (lookup o.structs h.structures.1)
  let cC ← Py.lift (lookup o.structs h.structures.2)
  let K ← Py.lift (SM.eye cK d.1)
  Py.modify fun o => { o with Ks := Dict.set o.Ks m.name K }
  let C ← Py.lift (SM.eye cC d.2)
  Py.modify fun o => { o with Cs := Dict.set o.Cs m.name C }
  if h.alpha1 ≠ 0 then do
    let mK ← Py.lift (SM.zeros cK d.1)
    Py.modify fun o => { o with mKs := Dict.set o.mKs m.name mK }
    let mC ← Py.lift (SM.zeros cC d.2)
    Py.modify fun o => { o with mCs := Dict.set o.mCs m.name mC }
  else pure ()

/-- The part of `__init__` before `_install_hooks` (`optimizer.py:203-238`): checks, groups -/
def groupsOf (model : Model) (p : ParamArg α) (a : Args α) : Except PyErr (List (PGroup α)) :=
  if model.wrapped then .error .typeError
  else do
    Construct.validate a
    let gs ← Construct.torchInit (Construct.defaults a) (Construct.groupArgs model.layers a.warnUnsupported p).1
    let cg ← Construct.checkGroups 0 gs
    Construct.checkLayers model.layers cg.1
    return cg.1

/-- `SINGD.__init__` (`optimizer.py:82-266`): hooks are installed before the buffers are made -/
def construct (structs : String → Option Cls) (model : Model) (p : ParamArg α) (a : Args α) : Py (State α) Unit := fun s =>
  match groupsOf model p a with
  | .error e => (.error e, s)
  | .ok gs =>
    let r := Py.forM (Construct.hooked model.layers gs) initLayer (Construct.blank structs model.layers gs a.initGradScale)
    (r.1, { s with slots := s.slots ++ [⟨r.2, r.1.isOk, true⟩] })

/-! ### Histories -/

/-- what can happen to a model and its optimizers -/
inductive Op' (α : Type) [Zero α] where
  | construct (structs : String → Option Cls) (model : Model) (p : ParamArg α) (a : Args α)
  /-- a forward pass through a layer -/
  | forward (m : Layer) (x : ND α) (gradEnabled : Bool)
  /-- a backward pass that reaches the `k`-th output with gradient `g` -/
  | backward (k : ℕ) (g : ND α)
  | setGrad (p : ℕ) (G : Option (Mat α))
  | setParam (p : ℕ) (M : Mat α)
  | setHyper (j i : ℕ) (h : Hyper α)
  | setScale (j : ℕ) (c : α)
  | step (j : ℕ) (closure : Bool) (attr : Option α) (foundInf : Bool)
  /-- `for h in optimizer.hook_handles: h.remove()` -/
  | detach (j : ℕ)

/-- remove the forward hooks of optimizer `j`, if the user has a reference to it -/
def detach (j : ℕ) (s : State α) : State α :=
  { s with slots := s.slots.modify j fun sl => if sl.ready then { sl with attached := false } else sl }

/-- execute one operation; an exception in a hook stops the pass, and the output of a forward pass is lost -/
def mexec (op : Op' α) : Py (State α) Unit := match op with
  | .construct structs model p a => construct structs model p a
  | .forward m x ge => fun s =>
    match fire m x ge s.data s.grad 0 s.slots with
    | .error e => (.error e, s)
    | .ok r => (.ok (), { s with outs := s.outs ++ [⟨m, x, r⟩] })
  | .backward k g => fun s =>
    match s.outs[k]? with
    | none => (.ok (), s)
    | some o => Py.forM o.regs (tensorHook o g) s
  | .setGrad p G => Py.modify fun s => { s with grad := Function.update s.grad p G }
  | .setParam p M => Py.modify fun s => { s with data := Function.update s.data p M }
  | .setHyper j i h => onSlot j (exec (.setHyper i h))
  | .setScale j c => onSlot j (exec (.setScale c))
  | .step j c a f => onSlot j (exec (.step c a f))
  | .detach j => Py.modify (detach j)

/-- a history; the user goes on after an exception -/
def mrun (ops : List (Op' α)) (s : State α) : State α := ops.foldl (fun s op => (mexec op s).2) s

/-- a history without exceptions -/
def mrunOk : List (Op' α) → State α → Option (State α)
  | [], s => some s
  | op :: ops, s => match mexec op s with
    | (.ok _, s') => mrunOk ops s'
    | (.error _, _) => none

end Multi
