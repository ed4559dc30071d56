import Verif.Model.Optimizer
import Verif.Model.AllReduce

/-!
# Data-parallel training (`torch.distributed`)

`R` processes execute the same program on different data. `dist.is_initialized()` is `True`, so

* `_accumulate_H_terms` reduces `H_K` and `H_C` over ranks (`optimizer.py:621-626`),
* `_compute_natural_gradient` reduces the natural gradient over ranks (`optimizer.py:714-719`),

with the mean if `loss_average` is set, and the sum otherwise. All ranks are executed in lock-step: each one runs up to the next collective
operation, then all of them exchange data. Everything else is the code of `Model/Optimizer.lean`.

Simplifications:

* All ranks construct the optimizer on the same model. Layers, names and addresses of parameters agree (a parameter's address only serves as
  its identity).
* A rank that raises makes the others wait forever; the model reports the exception of the first such rank instead. Nothing is exchanged then.
* The gradients `p.grad` are an input here. `DistributedDataParallel` sets them to the mean over ranks before `step()` is called.
* `dist.all_reduce(nat_grad)` works in place on the whole matrix: PyTorch rejects tensors that are not contiguous instead of skipping them.
* All ranks choose the same operation, because `loss_average` agrees; the model lets each rank apply its own one.
-/

variable {α : Type} [Field α] [LinearOrder α] [HasSqrt α]

namespace Dist

/-- results of all ranks, or the exception of the first rank that raised -/
def gather {β : Type} : ∀ {R : ℕ}, (Fin R → Except PyErr β) → Except PyErr (Fin R → β)
  | 0, _ => .ok fun r => r.elim0
  | _ + 1, f => do
    let b ← f 0
    let bs ← gather fun r => f r.succ
    return Fin.cons b bs

/-- every rank executes its code, without communication -/
def each {R : ℕ} (f : Fin R → Py (World α) Unit) : Py (Fin R → World α) Unit := fun W =>
  ((gather fun r => (f r (W r)).1).map fun _ => (), fun r => (f r (W r)).2)

/-- `dist.ReduceOp.AVG if loss_average else dist.ReduceOp.SUM` (`optimizer.py:624, 718`) -/
def reduceOp (h : Hyper α) : ReduceOp := match h.lossAverage with
  | none => .sum
  | some s => if s = "" then .sum else .avg

/-- `dist.all_reduce` of a matrix -/
def reduceMat (op : ReduceOp) {R : ℕ} (Ns : Fin R → Mat α) : Except PyErr (Mat α) := match List.ofFn Ns with
  | [] => .error .valueError
  | N :: Ls => do
    let S ← Ls.foldlM (fun S L => S.add? L) N
    return S.smul (op.factor R)

/-- layout of a statistic `K.from_inner(X)` -/
def statContig (H : SM α) : Contig := H.cls.fromInnerContig H.toDense.rows

/-- `H_K.all_reduce(op)` on all ranks -/
def reduceStat {R : ℕ} (op : Fin R → ReduceOp) (Hs : Fin R → SM α) : Except PyErr (Fin R → SM α) :=
  gather fun r => do
    let S ← SM.allReduce (op r) (fun r => statContig (Hs r)) Hs
    return S r

/-- `_accumulate_H_terms` (`optimizer.py:578-635`) on all ranks, for the layers and inputs `mx` and output gradients `g` -/
def accumulateH {R : ℕ} (mx : Fin R → Layer × ND α) (g : Fin R → ND α) : Py (Fin R → World α) Unit := do
  let W ← Py.get
  let H ← Py.lift (gather fun r => World.localH (W r).opt (mx r).1 (mx r).2 (g r))
  let h ← Py.lift (gather fun r => (W r).opt.hyperOf (mx r).1)
  let HK ← Py.lift (reduceStat (fun r => reduceOp (h r)) fun r => (H r).1)
  let HC ← Py.lift (reduceStat (fun r => reduceOp (h r)) fun r => (H r).2)
  each fun r => World.commitH (mx r).1 (HK r) (HC r)

/-- one layer in `_step` (`optimizer.py:785-814`) on all ranks -/
def layerStep {R : ℕ} (m : Layer) : Py (Fin R → World α) Unit := do
  each fun _ => World.updatePreconditioner m
  let W ← Py.get
  let Ns ← Py.lift (gather fun r => (W r).natGradMat m)
  let h ← Py.lift (gather fun r => (W r).opt.hyperOf m)
  let N ← Py.lift (gather fun r => reduceMat (reduceOp (h r)) Ns)
  each fun r => World.applyNat m (N r)

/-- `_step` (`optimizer.py:783-814`) on all ranks -/
def innerStep {R : ℕ} [NeZero R] : Py (Fin R → World α) Unit := do
  let W ← Py.get
  Py.forM (W 0).opt.layers layerStep

/-- skip or step (`optimizer.py:763-776`) on all ranks; a gradient scaler sees the same reduced gradients on all ranks, so they agree on `found_inf` -/
def stepBody {R : ℕ} [NeZero R] (foundInf : Bool) : Py (Fin R → World α) Unit := if foundInf then each fun _ => World.dropStats else innerStep

/-- `step` (`optimizer.py:732-781`) on all ranks -/
def step {R : ℕ} [NeZero R] (closure : Bool) (attr : Option α) (foundInf : Bool) : Py (Fin R → World α) Unit :=
  if closure then Py.raise .notImplementedError
  else do
    each fun _ => World.ensureScale attr
    stepBody foundInf
    each fun _ => World.setOpt fun o => { o with steps := o.steps + 1 }
    each fun _ => World.setOpt Opt.removeUsedScales

end Dist

/-- What can happen to optimizers in data-parallel use: as for one process (`Op`), but inputs, output gradients and parameter gradients
depend on the rank. -/
inductive DOp (α : Type) [Zero α] (R : ℕ) where
  | forward (i : ℕ) (x : Fin R → ND α) (gradEnabled : Bool)
  | backward (k : ℕ) (g : Fin R → ND α)
  | setGrad (p : ℕ) (G : Fin R → Option (Mat α))
  | setParam (p : ℕ) (M : Mat α)
  | setHyper (i : ℕ) (h : Hyper α)
  | setScale (s : α)
  | step (closure : Bool) (attr : Option α) (foundInf : Bool)

/-- a tensor hook; if a rank has not registered it, it does not take part in the collective operation: the others wait forever (an exception here) -/
def hookOf (w : World α) (k : ℕ) : Except PyErr (Layer × ND α) := match w.hooks[k]? with
  | some mx => .ok mx
  | none => .error .runtimeError

/-- execute one operation on all ranks -/
def dexec {R : ℕ} [NeZero R] (op : DOp α R) : Py (Fin R → World α) Unit := match op with
  | .forward i x ge => Dist.each fun r => exec (.forward i (x r) ge)
  | .backward k g => do
    let W ← Py.get
    match (W 0).hooks[k]? with
    | none => pure ()
    | some _ => do
      let mx ← Py.lift (Dist.gather fun r => hookOf (W r) k)
      Dist.accumulateH mx g
  | .setGrad p G => Dist.each fun r => exec (.setGrad p (G r))
  | .setParam p M => Dist.each fun _ => exec (.setParam p M)
  | .setHyper i h => Dist.each fun _ => exec (.setHyper i h)
  | .setScale s => Dist.each fun _ => exec (.setScale s)
  | .step c a f => Dist.step c a f

/-- a history; users go on after an exception -/
def drun {R : ℕ} [NeZero R] (ops : List (DOp α R)) (W : Fin R → World α) : Fin R → World α := ops.foldl (fun W op => (dexec op W).2) W
/-- a history without exceptions -/
def drunOk {R : ℕ} [NeZero R] : List (DOp α R) → (Fin R → World α) → Option (Fin R → World α)
  | [], W => some W
  | op :: ops, W => match dexec op W with
    | (.ok _, W') => drunOk ops W'
    | (.error _, _) => none
