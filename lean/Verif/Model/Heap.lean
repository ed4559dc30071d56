import Verif.Model.Alias
import Verif.Model.Construct

/-!
The optimizer of `Model/Optimizer.lean` at the level of memory: attributes and `state` hold references to tensors, methods read
and write tensors through them with torch's sharing. Reading a tensor gives its current contents; `add_`, `mul_`, `diag_add_`
write into the tensor's memory; an assignment to a dictionary entry or attribute stores a reference.

Simplifications as in `Model/Alias.lean`. Inputs remembered by hooks are values. `reshape_as` of the natural gradient is a
view (it copies if the layout requires it; nothing else refers to that tensor afterwards).
-/

/-- places that hold a reference to a tensor or structured matrix: entries of `self.Ks`, `self.Cs`, `self.m_Ks`, `self.m_Cs`,
`self.H_Ks`, `self.H_Cs`, `self.state[p]["momentum_buffer"]`, `p.data`, `p.grad` -/
inductive Slot where
  | K (n : String) | C (n : String) | mK (n : String) | mC (n : String) | HK (n : String) | HC (n : String)
  | mom (p : ℕ) | data (p : ℕ) | grad (p : ℕ)
  deriving DecidableEq

/-- Memory, references, and everything that is not a tensor (`base`; its tensor entries are not used). A plain tensor is
represented like a `DenseMatrix` that holds it. -/
structure HWorld (α : Type) [Zero α] where
  mem : Mem α
  ref : Slot → Option (SM ℕ)
  base : World α

variable {α : Type} [Field α] [LinearOrder α] [HasSqrt α]

/-- the world with the given tensors -/
def World.build (b : World α) (v : Slot → Option (SM α)) : World α :=
  { opt := { b.opt with
      Ks := fun n => v (.K n), Cs := fun n => v (.C n), mKs := fun n => v (.mK n), mCs := fun n => v (.mC n),
      HKs := fun n => v (.HK n), HCs := fun n => v (.HC n), mom := fun p => (v (.mom p)).map SM.toDense },
    data := fun p => ((v (.data p)).map SM.toDense).getD (Mat.zeros 0 0),
    grad := fun p => (v (.grad p)).map SM.toDense,
    hooks := b.hooks }

namespace HWorld

/-- contents of a slot -/
def val (hw : HWorld α) (s : Slot) : Option (SM α) := (hw.ref s).map hw.mem.read
/-- what is seen when all references are followed -/
def abs (hw : HWorld α) : World α := hw.base.build hw.val

/-- work on the memory -/
def onMem {β : Type} (x : Py (Mem α) β) : Py (HWorld α) β := fun hw => ((x hw.mem).1, { hw with mem := (x hw.mem).2 })
/-- let a slot refer to `r` (`none`: delete the entry) -/
def assign (s : Slot) (r : Option (SM ℕ)) : Py (HWorld α) Unit :=
  Py.modify fun hw => { hw with ref := Function.update hw.ref s r }
/-- the reference in a slot; `KeyError` if there is none -/
def deref (s : Slot) : Py (HWorld α) (SM ℕ) := do Py.lift (lookup (← Py.get).ref s)
/-- change of attributes that are not tensors -/
def setOpt (f : Opt α → Opt α) : Py (HWorld α) Unit :=
  Py.modify fun hw => { hw with base := { hw.base with opt := f hw.base.opt } }

/-- `optimizer.py:505-511`, `514-520`; `new_m` is a new matrix -/
def momentumDir (K H KtK : SM ℕ) (dim : ℕ) (a b scale : α) : Py (Mem α) (SM ℕ) := do
  let mem ← Py.get
  let m ← Mem.zeros (mem.read K).cls dim
  Mem.add_ m H a
  Mem.add_ m KtK b
  let m ← Mem.diagAdd m (-1)
  Mem.mul_ m scale
  return m

/-- `optimizer.py:487-520` -/
def newMomenta (h : Hyper α) (dimK dimC : ℕ) (unscale : α) (K C HK HC : SM ℕ) : Py (Mem α) (SM ℕ × SM ℕ) := do
  let KtK ← Mem.fromInner K none
  let CtC ← Mem.fromInner C none
  let scale : α := (1 / 2) * (if h.normalize then 1 - h.alpha1 else 1)
  let mem ← Py.get
  let tHC ← Py.lift (traceOr1 h.kfacLike (mem.read HC))
  let tCC ← Py.lift (traceOr1 h.kfacLike (mem.read CtC))
  let mK ← momentumDir K HK KtK dimK (if h.kfacLike then 1 else unscale * tHC) (h.damping * tCC) scale
  let mem ← Py.get
  let tHK ← Py.lift (traceOr1 h.kfacLike (mem.read HK))
  let tKK ← Py.lift (traceOr1 h.kfacLike (mem.read KtK))
  let mC ← momentumDir C HC CtC dimC (if h.kfacLike then unscale else unscale * tHK) (h.damping * tKK) scale
  return (mK, mC)

/-- `new_m.add_(self.m_Ks[name], alpha=alpha1)` (`optimizer.py:523-525`) -/
def addMomentum (h : Hyper α) (s : Slot) (m : SM ℕ) : Py (HWorld α) Unit :=
  if h.alpha1 ≠ 0 then do
    let old ← deref s
    onMem (Mem.add_ m old h.alpha1)
  else pure ()

/-- `optimizer.py:526-527` -/
def storeMomenta (h : Hyper α) (name : String) (mK mC : SM ℕ) : Py (HWorld α) Unit :=
  if h.alpha1 ≠ 0 then do
    assign (.mC name) (some mC)
    assign (.mK name) (some mK)
  else pure ()

/-- `self.Ks[name].add_(K @ new_m_K, alpha=-beta1_K)` (`optimizer.py:545-546`) -/
def factorStep (K m : SM ℕ) (beta : α) : Py (Mem α) Unit := do
  let t ← Mem.matmulS K m
  Mem.add_ K t (-beta)

/-- `optimizer.py:469-546` -/
def updateOn (h : Hyper α) (m : Layer) : Py (HWorld α) Unit := do
  let K ← deref (.K m.name)
  let C ← deref (.C m.name)
  let HK ← deref (.HK m.name)
  assign (.HK m.name) none
  let HC ← deref (.HC m.name)
  assign (.HC m.name) none
  let hw ← Py.get
  let u ← Py.lift (World.gradUnscaling hw.base.opt)
  let d ← Py.lift m.dims
  let ms ← onMem (newMomenta h d.1 d.2 u K C HK HC)
  addMomentum h (.mC m.name) ms.2
  addMomentum h (.mK m.name) ms.1
  storeMomenta h m.name ms.1 ms.2
  let hw ← Py.get
  let bK ← Py.lift (factorRate h hw.base.opt.steps (hw.mem.read ms.1))
  let bC ← Py.lift (factorRate h hw.base.opt.steps (hw.mem.read ms.2))
  onMem (factorStep K ms.1 bK)
  onMem (factorStep C ms.2 bC)

/-- `optimizer.py:456-546` -/
def updatePreconditioner (m : Layer) : Py (HWorld α) Unit := do
  let hw ← Py.get
  let h ← Py.lift (hw.base.opt.hyperOf m)
  if h.T = 0 then Py.raise .zeroDivisionError
  else if hw.base.opt.steps % h.T ≠ 0 then pure ()
  else updateOn h m

/-- `optimizer.py:548-576` -/
def forwardHook (m : Layer) (x : ND α) (gradEnabled : Bool) : Py (HWorld α) Unit := do
  let hw ← Py.get
  let h ← Py.lift (hw.base.opt.hyperOf m)
  if gradEnabled then
    if h.T = 0 then Py.raise .zeroDivisionError
    else if hw.base.opt.steps % h.T = 0 then
      Py.modify fun hw => { hw with base := { hw.base with hooks := hw.base.hooks ++ [(m, x)] } }
    else pure ()
  else pure ()

/-- `optimizer.py:590-620` -/
def localH (m : Layer) (x g : ND α) : Py (HWorld α) (SM ℕ × SM ℕ) := do
  let hw ← Py.get
  let h ← Py.lift (hw.base.opt.hyperOf m)
  let a ← Py.lift (PIO.processInput x m.kind m.bias.isSome h.kfacApprox)
  let g ← Py.lift (PIO.processGradOutput g m.kind h.lossAverage h.kfacApprox)
  let K ← deref (.K m.name)
  let C ← deref (.C m.name)
  let HK ← onMem (Mem.fromInner K (some a.T))
  let prev ← Py.lift (hw.base.opt.scale ((hw.base.opt.steps : ℤ) - 1))
  let g ← Py.lift (World.unscaleGrad prev g)
  let HC ← onMem (Mem.fromInner C (some g.T))
  return (HK, HC)

/-- `optimizer.py:629-635`: `self.H_Ks[name].add_(H_K)` or `self.H_Ks[name] = H_K` -/
def accum (s : Slot) (H : SM ℕ) : Py (HWorld α) Unit := do
  let hw ← Py.get
  match hw.ref s with
  | some H0 => onMem (Mem.add_ H0 H 1)
  | none => assign s (some H)

/-- `optimizer.py:578-635` -/
def accumulateH (m : Layer) (x g : ND α) : Py (HWorld α) Unit := do
  let H ← localH m x g
  accum (.HK m.name) H.1
  accum (.HC m.name) H.2

/-- `param_state["momentum_buffer"]`, created as `zeros_like(p.data)` if missing (`optimizer.py:804-808`) -/
def buffer (p r c : ℕ) : Py (HWorld α) (SM ℕ) := do
  let hw ← Py.get
  match hw.ref (.mom p) with
  | some b => pure b
  | none => do
    let z ← onMem (Mem.newM (Mat.zeros r c))
    assign (.mom p) (some (.dense z))
    return .dense z

/-- `p_step.add_(p.data, alpha=weight_decay)` (`optimizer.py:800-801`) -/
def decay (h : Hyper α) (data step : SM ℕ) : Py (HWorld α) Unit :=
  if h.weightDecay ≠ 0 then onMem (Mem.add_ step data h.weightDecay) else pure ()

/-- `optimizer.py:797-814`; `step` is the tensor `p_step`, into which the weight decay is added -/
def paramStep (h : Hyper α) (p : ℕ) (step : SM ℕ) : Py (HWorld α) Unit := do
  let data ← deref (.data p)
  decay h data step
  if h.momentum ≠ 0 then do
    let hw ← Py.get
    let d := (hw.mem.read data).toDense
    let buf ← buffer p d.rows d.cols
    onMem (Mem.mul_ buf h.momentum)
    onMem (Mem.add_ buf step 1)
    onMem (Mem.add_ data buf (-h.lr))
  else onMem (Mem.add_ data step (-h.lr))

/-- shape check of `reshape_as` -/
def asShape (x : Mat ℕ) (r c : ℕ) : Except PyErr (Mat ℕ) := if x.rows = r ∧ x.cols = c then .ok x else .error .runtimeError

/-- `optimizer.py:722-730` and `788-814`; the parts for weight and bias are views of the natural gradient -/
def applyNat (m : Layer) (N : Mat ℕ) : Py (HWorld α) Unit := do
  let hw ← Py.get
  match m.bias with
  | none => do
    let nw ← Py.lift (asShape N m.dout m.din)
    let h ← Py.lift (hw.base.opt.hyperOf m)
    paramStep h m.weight.ptr (.dense nw)
  | some b => do
    let nw ← Py.lift (asShape (Mem.view N 0 N.rows 0 (N.cols - 1)) m.dout m.din)
    let nb ← Py.lift (asShape (Mem.view N 0 N.rows (N.cols - 1) N.cols) m.dout 1)
    let h ← Py.lift (hw.base.opt.hyperOf m)
    paramStep h m.weight.ptr (.dense nw)
    paramStep h b.ptr (.dense nb)

/-- `optimizer.py:785-814`. The natural gradient (`optimizer.py:681-713`) only reads existing tensors; the product is a new
tensor. -/
def layerStep (m : Layer) : Py (HWorld α) Unit := do
  updatePreconditioner m
  let hw ← Py.get
  let N ← Py.lift (hw.abs.natGradMat m)
  let N ← onMem (Mem.newM N)
  applyNat m N

/-- `optimizer.py:783-814` -/
def innerStep : Py (HWorld α) Unit := do
  let hw ← Py.get
  Py.forM hw.base.opt.layers layerStep

/-- `optimizer.py:770-774` -/
def dropStats : Py (HWorld α) Unit := do
  let hw ← Py.get
  Py.forM hw.base.opt.layers fun m => do
    assign (.HK m.name) none
    assign (.HC m.name) none

/-- `optimizer.py:836-854` -/
def setScale (s : α) : Py (HWorld α) Unit := do
  setOpt fun o => { o with scales := Dict.set o.scales o.steps s }
  let hw ← Py.get
  if hw.base.opt.steps = 0 then do
    let _ ← Py.lift (hw.base.opt.scale (-1))
    let _ ← Py.lift (hw.base.opt.scale 0)
    pure ()
  else pure ()

/-- `optimizer.py:748-761` -/
def ensureScale (attr : Option α) : Py (HWorld α) Unit := do
  let hw ← Py.get
  match hw.base.opt.scales hw.base.opt.steps with
  | some _ => pure ()
  | none => setScale (attr.getD 1)

/-- `optimizer.py:763-776` -/
def stepBody (foundInf : Bool) : Py (HWorld α) Unit := if foundInf then dropStats else innerStep

/-- `optimizer.py:732-781` -/
def step (closure : Bool) (attr : Option α) (foundInf : Bool) : Py (HWorld α) Unit :=
  if closure then Py.raise .notImplementedError
  else do
    ensureScale attr
    stepBody foundInf
    setOpt fun o => { o with steps := o.steps + 1 }
    setOpt Opt.removeUsedScales

end HWorld

/-- Execute one operation. Gradients are new tensors (autograd, or the user); the user overwrites parameters in place
(`p.data.copy_(M)`) if the shape allows it and by a new tensor otherwise. -/
def hexec (op : Op α) : Py (HWorld α) Unit := match op with
  | .forward i x ge => do
    let hw ← Py.get
    match hw.base.opt.layers[i]? with
    | some m => HWorld.forwardHook m x ge
    | none => pure ()
  | .backward k g => do
    let hw ← Py.get
    match hw.base.hooks[k]? with
    | some mx => HWorld.accumulateH mx.1 mx.2 g
    | none => pure ()
  | .setGrad p G => match G with
    | none => HWorld.assign (.grad p) none
    | some G => do
      let r ← HWorld.onMem (Mem.newM G)
      HWorld.assign (.grad p) (some (.dense r))
  | .setParam p M => do
    let hw ← Py.get
    match hw.ref (.data p) with
    | some (.dense d) =>
      if d.rows = M.rows ∧ d.cols = M.cols then HWorld.onMem (Py.modify (Mem.copyAt d M))
      else do
        let r ← HWorld.onMem (Mem.newM M)
        HWorld.assign (.data p) (some (.dense r))
    | _ => do
      let r ← HWorld.onMem (Mem.newM M)
      HWorld.assign (.data p) (some (.dense r))
  | .setHyper i h => HWorld.setOpt fun o => { o with groups := o.groups.modify i fun g => { g with h := h } }
  | .setScale s => HWorld.setScale s
  | .step c a f => HWorld.step c a f

/-- a history; the user goes on after an exception -/
def hrun (ops : List (Op α)) (hw : HWorld α) : HWorld α := ops.foldl (fun hw op => (hexec op hw).2) hw

/-- a history without exceptions -/
def hrunOk : List (Op α) → HWorld α → Option (HWorld α)
  | [], hw => some hw
  | op :: ops, hw => match hexec op hw with
    | (.ok _, hw') => hrunOk ops hw'
    | (.error _, _) => none

namespace HWorld

/-- one layer in `_initialize_buffers` (`optimizer.py:413-428`); `eye` and `zeros` create new tensors -/
def initLayer (m : Layer) : Py (HWorld α) Unit := do
  let hw ← Py.get
  let d ← Py.lift m.dims
  let h ← Py.lift (hw.base.opt.hyperOf m)
  let cK ← Py.lift (lookup hw.base.opt.structs h.structures.1)
  let cC ← Py.lift (lookup hw.base.opt.structs h.structures.2)
  let K ← onMem (Mem.eye cK d.1)
  assign (.K m.name) (some K)
  let C ← onMem (Mem.eye cC d.2)
  assign (.C m.name) (some C)
  if h.alpha1 ≠ 0 then do
    let mK ← onMem (Mem.zeros cK d.1)
    assign (.mK m.name) (some mK)
    let mC ← onMem (Mem.zeros cC d.2)
    assign (.mC m.name) (some mC)
  else pure ()

/-- a new object without buffers (`optimizer.py:236-254`); parameters and gradients stay where they are -/
def fresh (o : Opt α) : Py (HWorld α) Unit := Py.modify fun hw =>
  { hw with
    base := { hw.base with opt := o },
    ref := fun s => match s with
      | .data p => hw.ref (.data p)
      | .grad p => hw.ref (.grad p)
      | _ => none }

/-- `SINGD.__init__` (`optimizer.py:82-266`); everything before the buffers is as in `Model/Construct.lean` -/
def init (structs : String → Option Cls) (model : Model) (p : ParamArg α) (a : Args α) : Py (HWorld α) (List Warn) :=
  if model.wrapped then Py.raise .typeError
  else do
    Py.lift (Construct.validate a)
    let ga := Construct.groupArgs model.layers a.warnUnsupported p
    let gs ← Py.lift (Construct.torchInit (Construct.defaults a) ga.1)
    let cg ← Py.lift (Construct.checkGroups 0 gs)
    Py.lift (Construct.checkLayers model.layers cg.1)
    fresh (Construct.blank structs model.layers cg.1 a.initGradScale)
    Py.forM (Construct.hooked model.layers cg.1) initLayer
    return ga.2 ++ cg.2

end HWorld
