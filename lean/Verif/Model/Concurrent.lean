import Verif.Model.Distributed

/-!
# Ranks that run on their own

`Model/Distributed.lean` executes all ranks in lock-step. In reality each rank is a process of its own, and the operating system decides which of them runs next. The only
interaction are the collective operations `dist.all_reduce(..., async_op=False)` (`base.py:253-262`, `optimizer.py:621-626, 714-719`): a rank hands over its data, blocks until all
ranks have done so, and goes on with everybody's data. Collectives carry no name: the n-th one of a rank is matched with the n-th one of every other rank.

Simplifications:

* The tensors of one structured matrix are reduced one after the other without anything in between (`base.py:253-262`); this is one collective here.
* If ranks meet in collectives with data of different kinds, shapes or classes, all of them raise `RuntimeError` (in reality the result is undefined, or an error, or a hang).
* Each rank applies its own reduction (`ReduceOp`), as in `Model/Distributed.lean`.
* The communication itself never fails, and a process that raised sends nothing any more.
* Reductions started by `DistributedDataParallel` itself are not represented; they set `p.grad`, which is an input (`Op.setGrad`).
-/

namespace Cc

/-- What a rank is about to do: it has finished in state `a`, has raised, computes, or takes part in a collective operation with the data `m` and goes on with the data of all
ranks. -/
inductive Prog (M A : Type) (R : ℕ) : Type where
  | ret (a : A)
  | fail (e : PyErr) (a : A)
  | tau (next : Prog M A R)
  | sync (m : M) (next : (Fin R → M) → Prog M A R)

/-- a rank: what it is about to do, what it has handed over in its collective operations, and in how many of them it has received data -/
structure Rank (M A : Type) (R : ℕ) where
  prog : Prog M A R
  sent : List M
  got : ℕ

/-- all ranks -/
abbrev Config (M A : Type) (R : ℕ) : Type := Fin R → Rank M A R

variable {M A : Type} {R : ℕ}

/-- a rank that has not communicated yet -/
def Rank.start (p : Prog M A R) : Rank M A R := ⟨p, [], 0⟩

/-- what rank `r` can do next: compute; hand over its data; or, if all ranks have handed over theirs, receive -/
def act (c : Config M A R) (r : Fin R) : Option (Rank M A R) := match (c r).prog with
  | .ret _ => none
  | .fail _ _ => none
  | .tau p => some { c r with prog := p }
  | .sync m k =>
    if (c r).sent.length = (c r).got then some { c r with sent := (c r).sent ++ [m] }
    else if h : ∀ s, (c r).got < (c s).sent.length then some ⟨k fun s => (c s).sent[(c r).got]'(h s), (c r).sent, (c r).got + 1⟩
    else none

/-- rank `r` is scheduled -/
def sched (c : Config M A R) (r : Fin R) : Option (Config M A R) := (act c r).map (Function.update c r)

/-- the ranks are scheduled in the given order; `none` if a rank is scheduled that cannot do anything -/
def exec : List (Fin R) → Config M A R → Option (Config M A R)
  | [], c => some c
  | r :: rs, c => (sched c r).bind (exec rs)

/-- no rank can do anything any more -/
def Final (c : Config M A R) : Prop := ∀ r, act c r = none

/-! ### The optimizer's ranks -/

section
variable {α : Type} [Field α] [LinearOrder α] [HasSqrt α]

/-- data of a collective operation: a structured matrix (`H_K.all_reduce`) or a tensor (`dist.all_reduce(nat_grad)`) -/
inductive Msg (α : Type) [Zero α] where
  | mat (H : SM α)
  | tensor (N : Mat α)

/-- the data of all ranks, if they are structured matrices -/
def mats (v : Fin R → Msg α) : Except PyErr (Fin R → SM α) := Dist.gather fun r => match v r with
  | .mat H => .ok H
  | .tensor _ => .error .runtimeError
/-- the data of all ranks, if they are tensors -/
def tensors (v : Fin R → Msg α) : Except PyErr (Fin R → Mat α) := Dist.gather fun r => match v r with
  | .tensor N => .ok N
  | .mat _ => .error .runtimeError

/-- a process of rank `r` -/
abbrev Proc (α : Type) [Field α] (R : ℕ) : Type := Prog (Msg α) (World α) R

/-- code without communication -/
def loc (x : Py (World α) Unit) (w : World α) (k : World α → Proc α R) : Proc α R := .tau (match x w with
  | (.ok _, w') => k w'
  | (.error e, w') => .fail e w')
/-- a computation that does not change the state -/
def get {β : Type} (x : Except PyErr β) (w : World α) (k : β → Proc α R) : Proc α R := match x with
  | .ok b => k b
  | .error e => .fail e w

/-- `H.all_reduce(op)` (`base.py:230-264`) on rank `r` -/
def reduce (r : Fin R) (op : ReduceOp) (H : SM α) (w : World α) (k : SM α → Proc α R) : Proc α R :=
  .sync (.mat H) fun v => get (do
    let Hs ← mats v
    let S ← SM.allReduce op (fun r => Dist.statContig (Hs r)) Hs
    return S r) w k

/-- `_accumulate_H_terms` (`optimizer.py:578-635`) on rank `r` -/
def accumulateH (r : Fin R) (m : Layer) (x g : ND α) (w : World α) (k : World α → Proc α R) : Proc α R :=
  .tau (get (do return (← World.localH w.opt m x g, ← w.opt.hyperOf m)) w fun Hh =>
    reduce r (Dist.reduceOp Hh.2) Hh.1.1 w fun HK =>
    reduce r (Dist.reduceOp Hh.2) Hh.1.2 w fun HC =>
    loc (World.commitH m HK HC) w k)

/-- one layer in `_step` (`optimizer.py:785-814`) on rank `r` -/
def layerStep (m : Layer) (w : World α) (k : World α → Proc α R) : Proc α R :=
  loc (World.updatePreconditioner m) w fun w =>
  .tau (get (do return (← w.natGradMat m, ← w.opt.hyperOf m)) w fun Nh =>
    .sync (.tensor Nh.1) fun v => get (do Dist.reduceMat (Dist.reduceOp Nh.2) (← tensors v)) w fun N =>
    loc (World.applyNat m N) w k)

/-- `_step` (`optimizer.py:783-814`) -/
def layerSteps : List Layer → World α → (World α → Proc α R) → Proc α R
  | [], w, k => k w
  | m :: ms, w, k => layerStep m w fun w => layerSteps ms w k

/-- `step` (`optimizer.py:732-781`) -/
def step (closure : Bool) (attr : Option α) (foundInf : Bool) (w : World α) (k : World α → Proc α R) : Proc α R :=
  if closure then .fail .notImplementedError w
  else loc (World.ensureScale attr) w fun w =>
    let rest := fun w => loc (World.setOpt fun o => { o with steps := o.steps + 1 }) w fun w => loc (World.setOpt Opt.removeUsedScales) w k
    if foundInf then loc World.dropStats w rest else layerSteps w.opt.layers w rest

/-- one operation on rank `r` -/
def progOp (r : Fin R) (op : Op α) (w : World α) (k : World α → Proc α R) : Proc α R := match op with
  | .backward j g => match w.hooks[j]? with
    | none => .tau (k w)
    | some mx => accumulateH r mx.1 mx.2 g w k
  | .step c a f => step c a f w k
  | op => loc (_root_.exec op) w k

/-- a history on rank `r`; it ends with the first exception -/
def prog (r : Fin R) : List (Op α) → World α → Proc α R
  | [], w => .ret w
  | op :: ops, w => progOp r op w (prog r ops)

/-- all ranks at the start of their histories -/
def start (ops : Fin R → List (Op α)) (W : Fin R → World α) : Config (Msg α) (World α) R := fun r => .start (prog r (ops r) (W r))

end

end Cc

/-- what rank `r` does in an operation of all ranks -/
def DOp.at {α : Type} [Field α] {R : ℕ} (r : Fin R) : DOp α R → Op α
  | .forward i x ge => .forward i (x r) ge
  | .backward k g => .backward k (g r)
  | .setGrad p G => .setGrad p (G r)
  | .setParam p M => .setParam p M
  | .setHyper i h => .setHyper i h
  | .setScale s => .setScale s
  | .step c a f => .step c a f
