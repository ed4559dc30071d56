import Verif.Model.ProcessIO
import Verif.Model.Structured
import Mathlib.Logic.Function.Basic

/-!
Model of the optimizer `/repo/singd/optim/optimizer.py` (class `SINGD`): construction, hooks, accumulation of
statistics, the pre-conditioner update and the parameter step.

* Numbers are exact (no rounding, no `inf`/`nan`); data types are in `Model/Dtype.lean`.
* Tensors that only ever get reshaped are stored in the shape they are computed with: a weight of shape
  `[d_out, ...]` as `d_out × d_in` matrix (`flatten(start_dim=1)`), a bias as `d_out × 1` matrix (`unsqueeze(1)`).
* A parameter is identified with its `data_ptr()` (the difference: `Model/Address.lean`).
* Python dictionaries are partial functions (their order is never used, except for `module_names`, which is a list).
* `dist.is_initialized()` is `False` here; the distributed case is in `Model/Distributed.lean` and re-uses `localH`,
  `commitH`, `natGradMat`, `applyNat`.
-/

/-- `torch.nn.Parameter`: its `data_ptr()` and `requires_grad` -/
structure Param where
  ptr : ℕ
  requiresGrad : Bool
  deriving DecidableEq, Repr

/-- an entry of `model.named_modules()`. `name` is unique and stands for the module object. `leaf` is
`len(list(mod.modules())) == 1`. For `Linear` and `Conv2d` (`kind`), `weight` has shape `[dout, ...]` with `din` entries
per output; `others` are further entries of `parameters()` (all of them for unsupported modules). -/
structure Layer where
  name : String
  leaf : Bool
  kind : LayerKind
  weight : Param
  bias : Option Param
  dout : ℕ
  din : ℕ
  others : List Param
  deriving DecidableEq, Repr

namespace Layer
/-- `isinstance(module, SUPPORTED_MODULES)` (`optimizer.py:74`) -/
def supported (m : Layer) : Bool := match m.kind with
  | .other => false
  | _ => true
/-- `mod.parameters()` -/
def parameters (m : Layer) : List Param := if m.supported then m.weight :: (m.bias.toList ++ m.others) else m.others
/-- `preconditioner_dims` (`optimizer.py:430-454`): `(dim_K, dim_C)` -/
def dims (m : Layer) : Except PyErr (ℕ × ℕ) := match m.kind with
  | .other => .error .notImplementedError
  | _ => .ok (m.din + (if m.bias.isSome then 1 else 0), m.dout)
end Layer

/-- a model: wrapped by `DataParallel`/`DistributedDataParallel`?, and its `named_modules()` -/
structure Model where
  wrapped : Bool
  layers : List Layer

/-- `lr_cov`: a number or a callable of the step (`optimizer.py:93`) -/
inductive LrCov (α : Type) where
  | const (b : α)
  | fn (f : ℕ → α)

/-- hyper-parameters of a parameter group (`optimizer.py:216-230`); `preconditioner_dtype` is in `Model/Dtype.lean`.
`T` is a natural number (negative periods behave like their absolute value). -/
structure Hyper (α : Type) where
  lr : α
  momentum : α
  damping : α
  alpha1 : α
  weightDecay : α
  T : ℕ
  lossAverage : Option String
  lrCov : LrCov α
  structures : String × String
  kfacApprox : String
  kfacLike : Bool
  normalize : Bool

/-- an entry of `self.param_groups` -/
structure PGroup (α : Type) where
  params : List ℕ
  h : Hyper α

/-- attributes of the optimizer object. `mom p` is `self.state[p]["momentum_buffer"]`; `structs` is
`SUPPORTED_STRUCTURES` (a parameter, so that results hold for every registration of classes). -/
structure Opt (α : Type) [Zero α] where
  structs : String → Option Cls
  layers : List Layer
  ptrGroup : ℕ → Option ℕ
  groups : List (PGroup α)
  steps : ℕ
  scales : ℤ → Option α
  Ks : String → Option (SM α)
  Cs : String → Option (SM α)
  mKs : String → Option (SM α)
  mCs : String → Option (SM α)
  HKs : String → Option (SM α)
  HCs : String → Option (SM α)
  mom : ℕ → Option (Mat α)

/-- everything the optimizer reads or writes: its own attributes, `p.data` and `p.grad` of all parameters, and the
tensor hooks registered so far (module and input they are bound to). Hooks are never removed: a backward pass may
run them at any later time, also repeatedly (`retain_graph`). -/
structure World (α : Type) [Zero α] where
  opt : Opt α
  data : ℕ → Mat α
  grad : ℕ → Option (Mat α)
  hooks : List (Layer × ND α)

/-- the default `SUPPORTED_STRUCTURES` (`optimizer.py:66-73`) -/
def supportedStructures (s : String) : Option Cls :=
  if s = "dense" then some .dense
  else if s = "diagonal" then some .diagonal
  else if s = "block30diagonal" then some (.block 30)
  else if s = "hierarchical15_15" then some (.hier 15 15)
  else if s = "triltoeplitz" then some .tril
  else if s = "triutoeplitz" then some .triu
  else none

/-- `d[k]` for a dictionary -/
def lookup {κ v : Type} (d : κ → Option v) (k : κ) : Except PyErr v := match d k with
  | some x => .ok x
  | none => .error .keyError

/-- `del d[k]` -/
def Dict.erase {κ v : Type} [DecidableEq κ] (d : κ → Option v) (k : κ) : κ → Option v := Function.update d k none
/-- `d[k] = x` -/
def Dict.set {κ v : Type} [DecidableEq κ] (d : κ → Option v) (k : κ) (x : v) : κ → Option v := Function.update d k (some x)

variable {α : Type} [Field α] [LinearOrder α] [HasSqrt α]

namespace Opt

/-- `_get_param_group_entry` (`optimizer.py:268-280`), returning all entries of the group -/
def hyperOf (o : Opt α) (m : Layer) : Except PyErr (Hyper α) :=
  if m.supported then do
    let i ← lookup o.ptrGroup m.weight.ptr
    match o.groups[i]? with
    | some g => .ok g.h
    | none => .error .indexError
  else .error .assertionError

/-- `_get_grad_scale` (`optimizer.py:816-825`) -/
def scale (o : Opt α) (t : ℤ) : Except PyErr α := lookup o.scales t

/-- `_remove_used_grad_scales` (`optimizer.py:827-834`) -/
def removeUsedScales (o : Opt α) : Opt α :=
  { o with scales := fun t => if t < (o.steps : ℤ) - 1 then none else o.scales t }

/-- `set_current_grad_scale` (`optimizer.py:836-854`): stores the scale; at step 0 the warning code reads the scales
of steps -1 and 0, which raises `KeyError` if the former is missing (after storing) -/
def setScale (s : α) : Py (World α) Unit := do
  Py.modify fun w => { w with opt := { w.opt with scales := Dict.set w.opt.scales w.opt.steps s } }
  let w ← Py.get
  if w.opt.steps = 0 then do
    let _ ← Py.lift (w.opt.scale (-1))
    let _ ← Py.lift (w.opt.scale 0)
    pure ()
  else pure ()

end Opt

/-- value of `lr_cov` at a step (`optimizer.py:530-535`) -/
def LrCov.at (l : LrCov α) (t : ℕ) : α := match l with
  | .const b => b
  | .fn f => f t

/-- the update direction of one factor (`optimizer.py:505-511`, and `514-520` for `C`): `a` and `b` are the coefficients of
`H` and of the inner product `KtK` -/
def momentumDir (K H KtK : SM α) (dim : ℕ) (a b scale : α) : Except PyErr (SM α) := do
  let m ← SM.zeros K.cls dim
  let m ← m.add_ H a
  let m ← m.add_ KtK b
  let m ← m.diagAdd (-1)
  return m.mul_ scale

/-- `1.0 if kfac_like else x.average_trace()` (`optimizer.py:508, 510, 517, 519`) -/
def traceOr1 (kfacLike : Bool) (x : SM α) : Except PyErr α := if kfacLike then .ok 1 else x.averageTrace

/-- `_update_preconditioner`, part 1 (`optimizer.py:487-520`): the new `m_K`, `m_C` without Riemannian momentum.
`unscale` is `grad_unscaling`; for `kfac_like` the coefficient of `H_K` is 1, that of `H_C` is `grad_unscaling`. -/
def newMomenta (h : Hyper α) (dimK dimC : ℕ) (unscale : α) (K C HK HC : SM α) : Except PyErr (SM α × SM α) := do
  let KtK ← K.fromInner none
  let CtC ← C.fromInner none
  let scale : α := (1 / 2) * (if h.normalize then 1 - h.alpha1 else 1)
  let tHC ← traceOr1 h.kfacLike HC
  let tCC ← traceOr1 h.kfacLike CtC
  let mK ← momentumDir K HK KtK dimK (if h.kfacLike then 1 else unscale * tHC) (h.damping * tCC) scale
  let tHK ← traceOr1 h.kfacLike HK
  let tKK ← traceOr1 h.kfacLike KtK
  let mC ← momentumDir C HC CtC dimC (if h.kfacLike then unscale else unscale * tHK) (h.damping * tKK) scale
  return (mK, mC)

/-- the learning rate of a factor (`optimizer.py:529-543`) -/
def factorRate (h : Hyper α) (t : ℕ) (m : SM α) : Except PyErr α :=
  if h.normalize then do return h.lrCov.at t / max 1 (← m.infNorm) else .ok (h.lrCov.at t)

/-- `self.Ks[name].add_(K @ new_m_K, alpha=-beta1_K)` (`optimizer.py:545-546`) -/
def factorStep (K m : SM α) (beta : α) : Except PyErr (SM α) := do K.add_ (← K.matmulS m) (-beta)

namespace World

/-- assignment to attributes of the optimizer -/
def setOpt (f : Opt α → Opt α) : Py (World α) Unit := Py.modify fun w => { w with opt := f w.opt }

/-- addition of the old momentum (`optimizer.py:523-525`): `new_m.add_(self.m_Ks[name], alpha=alpha1)` if `alpha1 != 0.0` -/
def addMomentum (h : Hyper α) (d : String → Option (SM α)) (name : String) (m : SM α) : Except PyErr (SM α) :=
  if h.alpha1 ≠ 0 then do m.add_ (← lookup d name) h.alpha1 else .ok m

/-- storing the momenta (`optimizer.py:526-527`) -/
def storeMomenta (h : Hyper α) (name : String) (mK mC : SM α) (o : Opt α) : Opt α :=
  if h.alpha1 ≠ 0 then { o with mCs := Dict.set o.mCs name mC, mKs := Dict.set o.mKs name mK } else o

/-- `grad_unscaling` (`optimizer.py:474-482`): `prev / grad_scale**2` on Python floats raises `ZeroDivisionError` for a
zero scale -/
def gradUnscaling (o : Opt α) : Except PyErr α := do
  let prev ← o.scale ((o.steps : ℤ) - 1)
  let cur ← o.scale o.steps
  if cur = 0 then .error .zeroDivisionError else .ok (prev / cur ^ 2)

/-- the computations of `_update_preconditioner` before anything but the statistics is written
(`optimizer.py:474-525`): new momenta `(m_K, m_C)` -/
def updateDirs (o : Opt α) (h : Hyper α) (m : Layer) (K C HK HC : SM α) : Except PyErr (SM α × SM α) := do
  let u ← gradUnscaling o
  let d ← m.dims
  let ms ← newMomenta h d.1 d.2 u K C HK HC
  let mC ← addMomentum h o.mCs m.name ms.2
  let mK ← addMomentum h o.mKs m.name ms.1
  return (mK, mC)

/-- `_update_preconditioner` on an update step (`optimizer.py:469-546`) -/
def updateOn (h : Hyper α) (m : Layer) : Py (World α) Unit := do
  let w ← Py.get
  let K ← Py.lift (lookup w.opt.Ks m.name)
  let C ← Py.lift (lookup w.opt.Cs m.name)
  let HK ← Py.lift (lookup w.opt.HKs m.name)
  setOpt fun o => { o with HKs := Dict.erase o.HKs m.name }
  let HC ← Py.lift (lookup w.opt.HCs m.name)
  setOpt fun o => { o with HCs := Dict.erase o.HCs m.name }
  let ms ← Py.lift (updateDirs w.opt h m K C HK HC)
  setOpt (storeMomenta h m.name ms.1 ms.2)
  let bK ← Py.lift (factorRate h w.opt.steps ms.1)
  let bC ← Py.lift (factorRate h w.opt.steps ms.2)
  let K' ← Py.lift (factorStep K ms.1 bK)
  setOpt fun o => { o with Ks := Dict.set o.Ks m.name K' }
  let C' ← Py.lift (factorStep C ms.2 bC)
  setOpt fun o => { o with Cs := Dict.set o.Cs m.name C' }

/-- `_update_preconditioner` (`optimizer.py:456-546`); `steps % 0` raises -/
def updatePreconditioner (m : Layer) : Py (World α) Unit := do
  let w ← Py.get
  let h ← Py.lift (w.opt.hyperOf m)
  if h.T = 0 then Py.raise .zeroDivisionError
  else if w.opt.steps % h.T ≠ 0 then pure ()
  else updateOn h m

/-- the forward hook (`optimizer.py:548-576`). The layer's output is assumed to require a gradient if gradients are
enabled (otherwise `register_hook` raises). -/
def forwardHook (m : Layer) (x : ND α) (gradEnabled : Bool) : Py (World α) Unit := do
  let w ← Py.get
  let h ← Py.lift (w.opt.hyperOf m)
  if gradEnabled then
    if h.T = 0 then Py.raise .zeroDivisionError
    else if w.opt.steps % h.T = 0 then Py.modify fun w => { w with hooks := w.hooks ++ [(m, x)] }
    else pure ()
  else pure ()

/-- `g / sqrt(prev_grad_scale)` (`optimizer.py:612-618`); `math.sqrt` raises `ValueError` on negative numbers. A zero
scale gives `inf`/`nan` in torch, 0 here. -/
def unscaleGrad (prev : α) (g : Mat α) : Except PyErr (Mat α) :=
  if prev = 1 then .ok g
  else if prev < 0 then .error .valueError
  else .ok (g.smul (1 / HasSqrt.sqrt prev))

/-- `_accumulate_H_terms`, computation (`optimizer.py:590-620`) -/
def localH (o : Opt α) (m : Layer) (x g : ND α) : Except PyErr (SM α × SM α) := do
  let h ← o.hyperOf m
  let a ← PIO.processInput x m.kind m.bias.isSome h.kfacApprox
  let g ← PIO.processGradOutput g m.kind h.lossAverage h.kfacApprox
  let K ← lookup o.Ks m.name
  let C ← lookup o.Cs m.name
  let HK ← K.fromInner (some a.T)
  let prev ← o.scale ((o.steps : ℤ) - 1)
  let g ← unscaleGrad prev g
  let HC ← C.fromInner (some g.T)
  return (HK, HC)

/-- store or add a statistic (`optimizer.py:629-635`): the new value of `self.H_Ks[name]`, given the old one -/
def accum (old : Option (SM α)) (H : SM α) : Except PyErr (SM α) :=
  match old with
  | some H0 => H0.add_ H 1
  | none => .ok H

/-- `_accumulate_H_terms`, storing (`optimizer.py:629-635`) -/
def commitH (m : Layer) (HK HC : SM α) : Py (World α) Unit := do
  let w ← Py.get
  let HK' ← Py.lift (accum (w.opt.HKs m.name) HK)
  setOpt fun o => { o with HKs := Dict.set o.HKs m.name HK' }
  let HC' ← Py.lift (accum (w.opt.HCs m.name) HC)
  setOpt fun o => { o with HCs := Dict.set o.HCs m.name HC' }

/-- `_accumulate_H_terms` (`optimizer.py:578-635`), not distributed -/
def accumulateH (m : Layer) (x g : ND α) : Py (World α) Unit := do
  let w ← Py.get
  let H ← Py.lift (localH w.opt m x g)
  commitH m H.1 H.2

/-- `p.grad.data`; `AttributeError` if there is no gradient -/
def gradOf (w : World α) (p : Param) : Except PyErr (Mat α) := match w.grad p.ptr with
  | some g => .ok g
  | none => .error .attributeError

/-- the (bias-extended) gradient matrix (`optimizer.py:681-690`) -/
def gradMat (w : World α) (m : Layer) : Except PyErr (Mat α) :=
  if m.supported then do
    let gw ← w.gradOf m.weight
    match m.bias with
    | none => .ok gw
    | some b => do gw.hcat? (← w.gradOf b)
  else .error .notImplementedError

/-- `_compute_natural_gradient` up to the reduction over processes (`optimizer.py:681-713`). Division of the tensor by a
zero scale gives `inf`/`nan` in torch, 0 here. -/
def natGradMat (w : World α) (m : Layer) : Except PyErr (Mat α) := do
  let G ← w.gradMat m
  let s ← w.opt.scale w.opt.steps
  let G := if s ≠ 1 then G.smul (1 / s) else G
  let _ ← w.opt.hyperOf m
  let K ← lookup w.opt.Ks m.name
  let R ← K.matmulT (← K.rmatmat G.T)
  let C ← lookup w.opt.Cs m.name
  C.matmulT (← C.rmatmat R.T)

/-- shape check of `reshape_as`/in-place operations: the tensor must have the parameter's shape -/
def asShape (x : Mat α) (r c : ℕ) : Except PyErr (Mat α) := if x.rows = r ∧ x.cols = c then .ok x else .error .runtimeError

/-- weight decay (`optimizer.py:800-801`) -/
def decay (h : Hyper α) (data step : Mat α) : Except PyErr (Mat α) :=
  if h.weightDecay ≠ 0 then step.add? (data.smul h.weightDecay) else .ok step

/-- the new momentum buffer (`optimizer.py:805-810`) -/
def newBuffer (h : Hyper α) (old : Option (Mat α)) (data step : Mat α) : Except PyErr (Mat α) :=
  ((old.getD (Mat.zeros data.rows data.cols)).smul h.momentum).add? step

/-- `p.data.add_(p_step, alpha=-lr)` (`optimizer.py:814`) -/
def moveParam (h : Hyper α) (p : ℕ) (step : Mat α) : Py (World α) Unit := do
  let w ← Py.get
  let new ← Py.lift ((w.data p).add? (step.smul (-h.lr)))
  Py.modify fun w => { w with data := Function.update w.data p new }

/-- body of the loop over parameters in `_step` (`optimizer.py:797-814`) -/
def paramStep (h : Hyper α) (p : ℕ) (step : Mat α) : Py (World α) Unit := do
  let w ← Py.get
  let step ← Py.lift (decay h (w.data p) step)
  if h.momentum ≠ 0 then do
    let buf ← Py.lift (newBuffer h (w.opt.mom p) (w.data p) step)
    setOpt fun o => { o with mom := Dict.set o.mom p buf }
    moveParam h p buf
  else moveParam h p step

/-- splitting the natural gradient (`optimizer.py:722-730`) and the loop over parameters (`optimizer.py:788-814`) -/
def applyNat (m : Layer) (N : Mat α) : Py (World α) Unit := do
  let w ← Py.get
  match m.bias with
  | none => do
    let nw ← Py.lift (asShape N m.dout m.din)
    let h ← Py.lift (w.opt.hyperOf m)
    paramStep h m.weight.ptr nw
  | some b => do
    let nw ← Py.lift (asShape (N.slice 0 N.rows 0 (N.cols - 1)) m.dout m.din)
    let nb ← Py.lift (asShape (N.slice 0 N.rows (N.cols - 1) N.cols) m.dout 1)
    let h ← Py.lift (w.opt.hyperOf m)
    paramStep h m.weight.ptr nw
    paramStep h b.ptr nb

/-- one layer in `_step` (`optimizer.py:785-814`) -/
def layerStep (m : Layer) : Py (World α) Unit := do
  updatePreconditioner m
  let w ← Py.get
  let N ← Py.lift (w.natGradMat m)
  applyNat m N

/-- `_step` (`optimizer.py:783-814`) -/
def innerStep : Py (World α) Unit := do
  let w ← Py.get
  Py.forM w.opt.layers layerStep

/-- emptying the accumulators (`optimizer.py:770-774`) -/
def dropStats : Py (World α) Unit := do
  let w ← Py.get
  Py.forM w.opt.layers fun m => setOpt fun o =>
    { o with HKs := Dict.erase o.HKs m.name, HCs := Dict.erase o.HCs m.name }

/-- the scale of the current step (`optimizer.py:748-761`): the one supplied by the user, else the attribute `grad_scale` set
by a scaler, else 1.0 -/
def ensureScale (attr : Option α) : Py (World α) Unit := do
  let w ← Py.get
  match w.opt.scales w.opt.steps with
  | some _ => pure ()
  | none => Opt.setScale (attr.getD 1)

/-- skip or step (`optimizer.py:763-776`) -/
def stepBody (foundInf : Bool) : Py (World α) Unit := if foundInf then dropStats else innerStep

/-- `step` (`optimizer.py:732-781`): `closure` supplied?, the attribute `grad_scale` set by a scaler, and `found_inf` -/
def step (closure : Bool) (attr : Option α) (foundInf : Bool) : Py (World α) Unit :=
  if closure then Py.raise .notImplementedError
  else do
    ensureScale attr
    stepBody foundInf
    setOpt fun o => { o with steps := o.steps + 1 }
    setOpt Opt.removeUsedScales

end World

/-- What can happen to an optimizer in use. Autograd and the user are adversaries: forward and backward passes come in
any order with any payload, gradients, parameters and hyper-parameters may be overwritten at any time. -/
inductive Op (α : Type) [Zero α] where
  /-- forward pass through layer `i` of `module_names` -/
  | forward (i : ℕ) (x : ND α) (gradEnabled : Bool)
  /-- a backward pass reaching the `k`-th registered tensor hook with gradient `g` -/
  | backward (k : ℕ) (g : ND α)
  | setGrad (p : ℕ) (G : Option (Mat α))
  | setParam (p : ℕ) (M : Mat α)
  /-- assignment to entries of `param_groups[i]` -/
  | setHyper (i : ℕ) (h : Hyper α)
  | setScale (s : α)
  | step (closure : Bool) (attr : Option α) (foundInf : Bool)

/-- execute one operation -/
def exec (op : Op α) : Py (World α) Unit := match op with
  | .forward i x ge => do
    let w ← Py.get
    match w.opt.layers[i]? with
    | some m => World.forwardHook m x ge
    | none => pure ()
  | .backward k g => do
    let w ← Py.get
    match w.hooks[k]? with
    | some mx => World.accumulateH mx.1 mx.2 g
    | none => pure ()
  | .setGrad p G => Py.modify fun w => { w with grad := Function.update w.grad p G }
  | .setParam p M => Py.modify fun w => { w with data := Function.update w.data p M }
  | .setHyper i h => World.setOpt fun o => { o with groups := o.groups.modify i fun g => { g with h := h } }
  | .setScale s => Opt.setScale s
  | .step c a f => World.step c a f

/-- a history; the user goes on after an exception -/
def run (ops : List (Op α)) (w : World α) : World α := ops.foldl (fun w op => (exec op w).2) w
/-- a history without exceptions -/
def runOk : List (Op α) → World α → Option (World α)
  | [], w => some w
  | op :: ops, w => match exec op w with
    | (.ok _, w') => runOk ops w'
    | (.error _, _) => none
