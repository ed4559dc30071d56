import Verif.Model.Alias

/-!
# Inputs and output gradients as tensors in memory

Elsewhere the input a hook remembers and the gradient it receives are values. Here they are tensors in memory (`Model/Alias.lean`). The forward hook keeps a reference to the layer's input
(`partial(self._accumulate_H_terms, module, inputs)`, `optimizer.py:575`); it is read in the backward pass, through `inputs[0].data`, which autograd does not watch. The functions of
`optim/utils.py` work on this memory: views, copies, and one in-place division (`x.div_(scale)`, `utils.py:176`).

Whether a conversion (`.to(dtype)`) or an axis-merging `rearrange` copies depends on types and strides; both are represented, the choice is a parameter (`Copies`). `einops.reduce` returns its argument
itself if no axis is reduced (a two-dimensional tensor for `"b ... d -> b d"`).

Simplifications: as in `Model/Alias.lean`. Parameters, gradients of parameters and the optimizer's own tensors are values here (`World`); their memory is the subject of `Model/Heap.lean`.
Conversions do not round. Autograd's own check of versions is not represented: it raises when the layer's saved input was overwritten, but only after the tensor hook has run, and only if
the weight requires a gradient.
-/

/-- what happens to copy: the conversion of the input and of the gradient to the factors' types, and the merging of axes of input and gradient -/
structure Copies where
  toIn : Bool
  toOut : Bool
  mergeIn : Bool
  mergeOut : Bool

namespace Act
variable {α : Type} [Field α]

/-- contents of a tensor -/
def readN (m : Mem α) (t : ND ℕ) : ND α := ⟨t.shape, fun i => if i < t.shape.prod then m.val (t.flat i) else 0⟩
/-- addresses of a tensor -/
def locN (t : ND ℕ) : List ℕ := (List.range t.shape.prod).map t.flat
/-- a new tensor -/
def newN (v : ND α) : Py (Mem α) (ND ℕ) := fun m =>
  (.ok ⟨v.shape, fun i => m.next + i⟩, ⟨fun a => if m.next ≤ a ∧ a < m.next + v.shape.prod then v.flat (a - m.next) else m.val a, m.next + v.shape.prod⟩)

/-- `x.data.to(dtype)` (`optimizer.py:598, 603`): the tensor itself, if it has this type -/
def toType (copy : Bool) (x : ND ℕ) : Py (Mem α) (ND ℕ) := do
  let m ← Py.get
  if copy then newN (readN m x) else pure x

/-- a `rearrange` that merges axes: a view, or a copy if the strides do not allow it -/
def merge (copy : Bool) (v : Mat ℕ) : Py (Mem α) (Mat ℕ) := do
  let m ← Py.get
  if copy then Mem.newM (m.readM v) else pure v

/-- view of `rearrange(x, "b ... d -> (b ...) d")` (`utils.py:196, 337`) -/
def leadingView (x : ND ℕ) : Except PyErr (Mat ℕ) := match PIO.split3 x.shape with
  | none => .error .runtimeError
  | some (b, s, d) => .ok (Mat.ofFn (b * s) d fun i j => x.flat (i * d + j))

/-- `"b ... d -> (b ...) d"` or, with a reduction, `"b ... d -> b d"` (`utils.py:194-199, 335-340`) -/
def linearRows (copy : Bool) (red : ND α → Except PyErr (Mat α)) (x : ND ℕ) (kfacApprox : String) : Py (Mem α) (Mat ℕ) :=
  if kfacApprox = "expand" ∨ x.shape.length = 2 then Py.lift (leadingView x) >>= merge copy
  else Py.get >>= fun m => Py.lift (red (readN m x)) >>= Mem.newM

/-- `cat([x, x.new_ones(x.shape[0], 1)], dim=1)` if there is a bias (`utils.py:172-173, 201-202`): a new tensor -/
def withOnes (bias : Bool) (x : Mat ℕ) : Py (Mem α) (Mat ℕ) := do
  let m ← Py.get
  if bias then Mem.newM (PIO.appendOnes (m.readM x)) else pure x

/-- `t.div_(s)` -/
def divAt (l : List ℕ) (s : α) (m : Mem α) : Mem α := { m with val := fun a => if a ∈ l then m.val a / s else m.val a }

section
variable [HasSqrt α]

/-- `linear_process_input` (`utils.py:179-205`); the division creates a new tensor -/
def linearInput (cp : Copies) (x : ND ℕ) (bias : Bool) (kfacApprox : String) : Py (Mem α) (Mat ℕ) := do
  let x ← linearRows cp.mergeIn PIO.meanMiddle x kfacApprox
  let x ← withOnes bias x
  let m ← Py.get
  Mem.newM (PIO.divSqrtRows (m.readM x))

/-- view of `rearrange(x, "b o c -> (b o) c")` of the transposed result `u` of `F.unfold` (shape `[B, C * K1 * K2, O1 * O2]`, `utils.py:57-60, 170`) -/
def patchView (u : T3 ℕ) : Mat ℕ := Mat.ofFn (u.d0 * u.d2) u.d1 fun i j => u.get (i / u.d2) j (i % u.d2)

/-- the patches (`utils.py:163-170`) -/
def convRows (copy : Bool) (x : ND ℕ) (cfg : ConvCfg) (kfacApprox : String) : Py (Mem α) (Mat ℕ) :=
  if kfacApprox = "expand" then Py.get >>= fun m => Py.lift (PIO.extractPatches (readN m x) cfg) >>= fun p =>
    Mem.newT (T3.ofFn p.d0 p.d2 p.d1 fun b c o => p.get b o c) >>= fun u => merge copy (patchView u)
  else Py.get >>= fun m => Py.lift (PIO.extractAveragedPatches (readN m x) cfg) >>= Mem.newM

/-- `conv2d_process_input` (`utils.py:147-176`): unfolded and averaged patches are new tensors; the division is in place -/
def convInput (cp : Copies) (x : ND ℕ) (cfg : ConvCfg) (bias : Bool) (kfacApprox : String) : Py (Mem α) (Mat ℕ) := do
  let x ← convRows cp.mergeIn x cfg kfacApprox
  let x ← withOnes bias x
  Py.modify (divAt (Mem.locM x) (HasSqrt.sqrt (x.rows : α)))
  return x

/-- `process_input` (`utils.py:122-144`) -/
def processInput (cp : Copies) (x : ND ℕ) (kind : LayerKind) (bias : Bool) (kfacApprox : String) : Py (Mem α) (Mat ℕ) :=
  if ¬(kfacApprox = "expand" ∨ kfacApprox = "reduce") then Py.raise .assertionError
  else match kind with
    | .conv2d cfg => convInput cp x cfg bias kfacApprox
    | .linear => linearInput cp x bias kfacApprox
    | .other => Py.raise .notImplementedError

/-- `linear_process_grad_output` (`utils.py:299-342`) -/
def linearGrad (cp : Copies) (g : ND ℕ) (lossAverage : Option String) (kfacApprox : String) : Py (Mem α) (Mat ℕ) := do
  let scaling ← Py.lift (PIO.linearScaling (α := α) g.shape lossAverage)
  let g ← linearRows cp.mergeOut PIO.sumMiddle g kfacApprox
  let m ← Py.get
  Mem.newM ((m.readM g).smul scaling)

/-- view of `rearrange(g, "b c o1 o2 -> (b o1 o2) c")` (`utils.py:291`) -/
def spatialView (g : ND ℕ) : Except PyErr (Mat ℕ) := match g.shape with
  | [B, C, O1, O2] => .ok (Mat.ofFn (B * O1 * O2) C fun r c => g.flat (((r / (O1 * O2) * C + c) * O1 + r / O2 % O1) * O2 + r % O2))
  | _ => .error .runtimeError

/-- `"b c o1 o2 -> (b o1 o2) c"` or the sum over locations (`utils.py:289-294`) -/
def spatialRows (copy : Bool) (g : ND ℕ) (kfacApprox : String) : Py (Mem α) (Mat ℕ) :=
  if kfacApprox = "expand" then Py.lift (spatialView g) >>= merge copy
  else Py.get >>= fun m => Py.lift (PIO.sumSpatial (readN m g)) >>= Mem.newM

/-- `conv2d_process_grad_output` (`utils.py:255-296`) -/
def convGrad (cp : Copies) (g : ND ℕ) (lossAverage : Option String) (kfacApprox : String) : Py (Mem α) (Mat ℕ) := do
  let scaling ← Py.lift (PIO.convScaling (α := α) g.shape lossAverage)
  let g ← spatialRows cp.mergeOut g kfacApprox
  let m ← Py.get
  Mem.newM ((m.readM g).smul scaling)

/-- `process_grad_output` (`utils.py:208-252`) -/
def processGrad (cp : Copies) (g : ND ℕ) (kind : LayerKind) (lossAverage : Option String) (kfacApprox : String) : Py (Mem α) (Mat ℕ) :=
  if ¬(lossAverage = none ∨ lossAverage = some "batch" ∨ lossAverage = some "batch+sequence") then Py.raise .assertionError
  else if ¬(kfacApprox = "expand" ∨ kfacApprox = "reduce") then Py.raise .assertionError
  else match kind with
    | .conv2d _ => convGrad cp g lossAverage kfacApprox
    | .linear => linearGrad cp g lossAverage kfacApprox
    | .other => Py.raise .notImplementedError

end
end Act

/-- The optimizer, the memory of activations and their gradients, and the references kept by the tensor hooks. The inputs in `w.hooks` are what the layers saw in the forward pass; the
code has no access to them (they are only there to compare). -/
structure ActWorld (α : Type) [Zero α] where
  w : World α
  act : Mem α
  held : List (Layer × ND ℕ)

/-- What can happen: a new activation or gradient; some code overwrites an entry of one in place; forward and backward passes (on references); everything else as in `Op`. -/
inductive ActOp (α : Type) [Zero α] where
  | alloc (x : ND α)
  | write (a : ℕ) (v : α)
  | forward (i : ℕ) (x : ND ℕ) (gradEnabled : Bool)
  | backward (k : ℕ) (g : ND ℕ)
  | setGrad (p : ℕ) (G : Option (Mat α))
  | setParam (p : ℕ) (M : Mat α)
  | setHyper (i : ℕ) (h : Hyper α)
  | setScale (s : α)
  | step (closure : Bool) (attr : Option α) (foundInf : Bool)

namespace ActWorld
variable {α : Type} [Field α] [LinearOrder α] [HasSqrt α]

/-- work on the memory of activations -/
def onAct {β : Type} (x : Py (Mem α) β) : Py (ActWorld α) β := fun aw => ((x aw.act).1, { aw with act := (x aw.act).2 })
/-- work on the optimizer -/
def onW {β : Type} (x : Py (World α) β) : Py (ActWorld α) β := fun aw => ((x aw.w).1, { aw with w := (x aw.w).2 })

/-- the forward hook (`optimizer.py:548-576`) keeps the reference -/
def forwardHook (m : Layer) (x : ND ℕ) (gradEnabled : Bool) : Py (ActWorld α) Unit := do
  let aw ← Py.get
  let h ← Py.lift (aw.w.opt.hyperOf m)
  if gradEnabled then
    if h.T = 0 then Py.raise .zeroDivisionError
    else if aw.w.opt.steps % h.T = 0 then
      Py.modify fun aw => { aw with held := aw.held ++ [(m, x)], w := { aw.w with hooks := aw.w.hooks ++ [(m, Act.readN aw.act x)] } }
    else pure ()
  else pure ()

/-- `_accumulate_H_terms`, computation (`optimizer.py:590-620`) -/
def localH (cp : Copies) (m : Layer) (x g : ND ℕ) : Py (ActWorld α) (SM α × SM α) := do
  let aw ← Py.get
  let h ← Py.lift (aw.w.opt.hyperOf m)
  let x ← onAct (Act.toType cp.toIn x)
  let a ← onAct (Act.processInput cp x m.kind m.bias.isSome h.kfacApprox)
  let g ← onAct (Act.toType cp.toOut g)
  let g ← onAct (Act.processGrad cp g m.kind h.lossAverage h.kfacApprox)
  let K ← Py.lift (lookup aw.w.opt.Ks m.name)
  let C ← Py.lift (lookup aw.w.opt.Cs m.name)
  let now ← Py.get
  let HK ← Py.lift (K.fromInner (some (now.act.readM a).T))
  let prev ← Py.lift (aw.w.opt.scale ((aw.w.opt.steps : ℤ) - 1))
  let gv ← Py.lift (World.unscaleGrad prev (now.act.readM g))
  let HC ← Py.lift (C.fromInner (some gv.T))
  return (HK, HC)

/-- `_accumulate_H_terms` (`optimizer.py:578-635`) -/
def accumulateH (cp : Copies) (m : Layer) (x g : ND ℕ) : Py (ActWorld α) Unit := do
  let H ← localH cp m x g
  onW (World.commitH m H.1 H.2)

end ActWorld

section
variable {α : Type} [Field α] [LinearOrder α] [HasSqrt α]

/-- execute one operation; `cp` says what copies -/
def actExec (cp : Copies) (op : ActOp α) : Py (ActWorld α) Unit := match op with
  | .alloc x => do
    let _ ← ActWorld.onAct (Act.newN x)
    pure ()
  | .write a v => ActWorld.onAct (Py.modify fun m => { m with val := Function.update m.val a v })
  | .forward i x ge => do
    let aw ← Py.get
    match aw.w.opt.layers[i]? with
    | some m => ActWorld.forwardHook m x ge
    | none => pure ()
  | .backward k g => do
    let aw ← Py.get
    match aw.held[k]? with
    | some mx => ActWorld.accumulateH cp mx.1 mx.2 g
    | none => pure ()
  | .setGrad p G => ActWorld.onW (exec (.setGrad p G))
  | .setParam p M => ActWorld.onW (exec (.setParam p M))
  | .setHyper i h => ActWorld.onW (exec (.setHyper i h))
  | .setScale s => ActWorld.onW (exec (.setScale s))
  | .step c a f => ActWorld.onW (exec (.step c a f))

/-- a history, with what copies in each operation; the user goes on after an exception -/
def actRun (ops : List (Copies × ActOp α)) (aw : ActWorld α) : ActWorld α := ops.foldl (fun aw op => (actExec op.1 op.2 aw).2) aw

end
