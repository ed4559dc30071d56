import Verif.Model.Optimizer

/-! Use together with torch's `GradScaler` (`optimizer.py:55-63` and `748-781`, `docs/examples/example_04_advanced.py:128-182`).

`GradScaler` is not part of the repository. Its behaviour is that of `torch/amp/grad_scaler.py` and `_amp_update_scale_` of torch 2.2, the oldest version `setup.cfg:35` admits, for an
enabled scaler and an optimizer with `_step_supports_amp_scaling = True` (`optimizer.py:80`). Whether gradients contain infs or NaNs is an input, as numbers are elements of a field. Not modelled: that
the scale is a `float32` tensor and does not grow beyond finite numbers, several devices, `update` with a new scale. -/

namespace Amp
variable {α : Type} [Field α] [LinearOrder α] [HasSqrt α]

/-- `OptState` of torch: what was done with the optimizer since the last `update` -/
inductive Stage where
  | ready
  | unscaled
  | stepped
  deriving DecidableEq

/-- a `GradScaler` used with one optimizer: `_scale`, `_growth_factor`, `_backoff_factor`, `_growth_interval`, `_growth_tracker`, and of `_per_optimizer_states` the stage and the infs found (`none`: no
check was made since the last `update`) -/
structure Scaler (α : Type) where
  scale : α
  growth : α
  backoff : α
  interval : ℕ
  tracker : ℕ
  stage : Stage
  found : Option Bool

/-- the attribute `grad_scale` of an object -/
inductive Attr (α : Type) where
  | absent
  | none
  | val (s : α)

/-- the optimizer with the model it trains, the scaler, and the attributes `grad_scale` and `found_inf` (`false` if missing) of the optimizer, which only the scaler sets -/
structure State (α : Type) [Zero α] where
  w : World α
  sc : Scaler α
  attr : Attr α
  inf : Bool

/-- `SINGD.step` with these attributes (`optimizer.py:748-781`). `getattr(self, "grad_scale", Tensor([1.0])).item()` is evaluated only if no scale is set explicitly; it raises `AttributeError` if the
attribute is `None`. -/
def singdStep (closure : Bool) (attr : Attr α) (inf : Bool) : Py (World α) Unit := fun w =>
  match attr with
  | .absent => World.step closure none inf w
  | .val s => World.step closure (some s) inf w
  | .none => if closure = false ∧ w.opt.scales w.opt.steps = none then (.error .attributeError, w) else World.step closure none inf w

/-- what becomes of an operation of autograd if the loss is multiplied by `s` -/
def scaleOp (s : α) : Op α → Op α
  | .backward k g => .backward k ⟨g.shape, fun i => g.flat i * s⟩
  | .setGrad p G => .setGrad p (G.map (·.smul s))
  | op => op

/-- run code of the optimizer -/
def onWorld (x : Py (World α) Unit) : Py (State α) Unit := fun s => ((x s.w).1, { s with w := (x s.w).2 })

/-- the parameters of the optimizer's groups -/
def params (o : Opt α) : List ℕ := o.groups.flatMap (·.params)

/-- `_amp_update_scale_` -/
def Scaler.adjust (sc : Scaler α) (inf : Bool) : Scaler α :=
  if inf then { sc with scale := sc.scale * sc.backoff, tracker := 0 }
  else if sc.tracker + 1 = sc.interval then { sc with scale := sc.scale * sc.growth, tracker := 0 }
  else { sc with tracker := sc.tracker + 1 }

/-- what the user and autograd do -/
inductive AOp (α : Type) [Zero α] where
  /-- an effect of `scaler.scale(loss).backward()`: the given one is that of `loss.backward()`. Forward passes can be put here or below. -/
  | scaled (op : Op α)
  /-- anything else; `optimizer.step` called directly meets the attributes of the object instead of the given ones -/
  | user (op : Op α)
  /-- `scaler.unscale_(optimizer)`; does it find infs or NaNs? -/
  | unscale (inf : Bool)
  /-- `scaler.step(optimizer)`; would a check of the gradients find infs or NaNs? -/
  | step (inf : Bool)
  /-- `scaler.update()` -/
  | update

/-- execute -/
def aexec : AOp α → Py (State α) Unit
  | .scaled op => fun s => onWorld (exec (scaleOp s.sc.scale op)) s
  | .user (.step c _ _) => fun s => onWorld (singdStep c s.attr s.inf) s
  | .user op => onWorld (exec op)
  | .unscale inf => fun s =>
    if s.sc.stage = .ready then
      (.ok (), { s with
        w := { s.w with grad := fun p => if p ∈ params s.w.opt then (s.w.grad p).map (·.smul s.sc.scale⁻¹) else s.w.grad p }
        sc := { s.sc with stage := .unscaled, found := some inf } })
    else (.error .runtimeError, s)
  | .step inf => fun s =>
    if s.sc.stage = .stepped then (.error .runtimeError, s)
    else
      let found := if s.sc.stage = .ready then some inf else s.sc.found
      let attr := if s.sc.stage = .unscaled then .none else .val s.sc.scale
      let r := singdStep false attr (found.getD false) s.w
      match r.1 with
      | .ok _ => (.ok (), { w := r.2, sc := { s.sc with stage := .stepped, found := found }, attr := .absent, inf := false })
      | .error e => (.error e, { w := r.2, sc := { s.sc with found := found }, attr := attr, inf := found.getD false })
  | .update => fun s => match s.sc.found with
    | some inf => (.ok (), { s with sc := { s.sc.adjust inf with stage := .ready, found := none } })
    | none => (.error .assertionError, s)

/-- a history; the user goes on after exceptions -/
def arun (ops : List (AOp α)) (s : State α) : State α := ops.foldl (fun s op => (aexec op s).2) s

/-- a history without exceptions -/
def arunOk : List (AOp α) → State α → Prop
  | [], _ => True
  | op :: ops, s => (aexec op s).1 = .ok () ∧ arunOk ops (aexec op s).2

end Amp
