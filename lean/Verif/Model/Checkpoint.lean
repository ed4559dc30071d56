import Verif.Model.Construct

/-!
Model of checkpoints: `state_dict` and `load_state_dict` of `/repo/singd/optim/optimizer.py:856-892`, with
`torch.optim.Optimizer.state_dict` and `load_state_dict` (library code, modelled as documented).

The eight attributes of `STATE_ATTRIBUTES` (`optimizer.py:856-865`) are an `int` (`steps`) and seven dictionaries, which the
optimizer mutates but never replaces, except in `load_state_dict` (creation: `optimizer.py:247-266`). The seven
dictionaries are created, saved and loaded together, so one reference stands for the seven references.

* `OptObj α β` is an optimizer object whose dictionaries are given by a `β`: their contents (`Dicts α`) or a reference to a
  heap.
* Simplified: momentum buffers (`self.state`) are values here; in torch a state dictionary refers to the optimizer's own
  tensors. The eight entries of the attributes are removed from a dictionary at once, not one after the other.
-/

variable {α : Type} [Zero α]

/-- contents of the dictionaries `_grad_scales`, `Ks`, `Cs`, `m_Ks`, `m_Cs`, `H_Ks`, `H_Cs` -/
structure Dicts (α : Type) [Zero α] where
  scales : ℤ → Option α
  Ks : String → Option (SM α)
  Cs : String → Option (SM α)
  mKs : String → Option (SM α)
  mCs : String → Option (SM α)
  HKs : String → Option (SM α)
  HCs : String → Option (SM α)

/-- an optimizer object, see `Opt` -/
structure OptObj (α : Type) [Zero α] (β : Type) where
  structs : String → Option Cls
  layers : List Layer
  ptrGroup : ℕ → Option ℕ
  groups : List (PGroup α)
  steps : ℕ
  mom : ℕ → Option (Mat α)
  dicts : β

/-- the dictionary returned by `state_dict()`: `param_groups` (parameters as numbers), `state` (buffers by number), and the
entries of `STATE_ATTRIBUTES`, unless they have been removed -/
structure StateDict (α : Type) [Zero α] (β : Type) where
  groups : List (List ℕ × Hyper α)
  state : List (ℕ × Mat α)
  attrs : Option (ℕ × β)

namespace Checkpoint

/-- torch: the number of a parameter, the position in the concatenated groups (`enumerate` from `start`). The last one, if it
is listed repeatedly in its group; the first group counts. -/
def number (start : ℕ) : List (List ℕ) → ℕ → Option ℕ
  | [], _ => none
  | g :: gs, p => if p ∈ g then some (start + (g.length - 1 - g.reverse.idxOf p)) else number (start + g.length) gs p

/-- the keys of `self.state`: `_step` creates buffers of parameters of hooked layers only (`optimizer.py:804-806`) -/
def keys {β : Type} (o : OptObj α β) : List ℕ :=
  (o.layers.flatMap fun m => m.weight.ptr :: m.bias.toList.map (·.ptr)).filter fun p => (o.mom p).isSome

/-- torch: `packed_state`; a parameter with a buffer that is in no group raises `KeyError` -/
def packState (num : ℕ → Option ℕ) (mom : ℕ → Option (Mat α)) : List ℕ → Except PyErr (List (ℕ × Mat α))
  | [] => .ok []
  | p :: ps => do
    let i ← lookup num p
    let v ← lookup mom p
    return (i, v) :: (← packState num mom ps)

/-- `state_dict` (`optimizer.py:867-879`): the dictionaries are not copied -/
def save {β : Type} (o : OptObj α β) : Except PyErr (StateDict α β) := do
  let ps := o.groups.map (·.params)
  let state ← packState (number 0 ps) o.mom (keys o)
  return {
    groups := o.groups.map fun g => (g.params.map fun p => (number 0 ps p).getD 0, g.h)
    state := state
    attrs := some (o.steps, o.dicts) }

/-- torch: `id_map`, from saved numbers to parameters (later entries overwrite earlier ones) -/
def idMap (saved own : List ℕ) (k : ℕ) : Option ℕ := (((saved.zip own).filter fun e => e.1 = k).getLast?).map (·.2)

/-- torch: buffers by parameter (an entry that belongs to no parameter is never used) -/
def unpackState (ids : ℕ → Option ℕ) : List (ℕ × Mat α) → (ℕ → Option (Mat α)) → ℕ → Option (Mat α)
  | [], mom => mom
  | (k, v) :: xs, mom => unpackState ids xs (match ids k with | some p => Dict.set mom p v | none => mom)

/-- torch's `load_state_dict`: number and lengths of groups are checked, hyper-parameters and buffers replaced -/
def torchLoad {β : Type} (o : OptObj α β) (d : StateDict α β) : Except PyErr (OptObj α β) :=
  if o.groups.length ≠ d.groups.length then .error .valueError
  else if o.groups.map (·.params.length) ≠ d.groups.map (·.1.length) then .error .valueError
  else .ok { o with
    groups := List.zipWith (fun g e => { g with h := e.2 }) o.groups d.groups
    mom := unpackState (idMap (d.groups.flatMap (·.1)) (o.groups.flatMap (·.params))) d.state fun _ => none }

/-- `load_state_dict` (`optimizer.py:881-892`): the entries of `STATE_ATTRIBUTES` are removed from the passed dictionary; the
dictionaries are not copied -/
def load {β : Type} (o : OptObj α β) : Py (StateDict α β) (OptObj α β) := do
  let d ← Py.get
  match d.attrs with
  | none => Py.raise .keyError
  | some a => do
    Py.modify fun d => { d with attrs := none }
    let o' ← Py.lift (torchLoad o d)
    return { o' with steps := a.1, dicts := a.2 }

end Checkpoint

/-- the optimizer as one value -/
def OptObj.opt (o : OptObj α (Dicts α)) : Opt α where
  structs := o.structs
  layers := o.layers
  ptrGroup := o.ptrGroup
  groups := o.groups
  steps := o.steps
  scales := o.dicts.scales
  Ks := o.dicts.Ks
  Cs := o.dicts.Cs
  mKs := o.dicts.mKs
  mCs := o.dicts.mCs
  HKs := o.dicts.HKs
  HCs := o.dicts.HCs
  mom := o.mom

/-- the optimizer as an object -/
def Opt.obj (o : Opt α) : OptObj α (Dicts α) where
  structs := o.structs
  layers := o.layers
  ptrGroup := o.ptrGroup
  groups := o.groups
  steps := o.steps
  mom := o.mom
  dicts := ⟨o.scales, o.Ks, o.Cs, o.mKs, o.mCs, o.HKs, o.HCs⟩

/-- replace references by what they refer to -/
def OptObj.read {β γ : Type} (f : β → γ) (o : OptObj α β) : OptObj α γ := { o with dicts := f o.dicts }
/-- replace references by what they refer to: what `torch.save`, `copy.deepcopy` make of a state dictionary -/
def StateDict.read {β γ : Type} (f : β → γ) (d : StateDict α β) : StateDict α γ := { d with attrs := d.attrs.map fun a => (a.1, f a.2) }

/-- a Python process with optimizers (each with its own model) and state dictionaries; dictionaries of optimizers live in a
heap -/
structure Process (α : Type) [Zero α] where
  heap : ℕ → Dicts α
  objs : ℕ → OptObj α ℕ
  data : ℕ → ℕ → Mat α
  grad : ℕ → ℕ → Option (Mat α)
  hooks : ℕ → List (Layer × ND α)
  saved : ℕ → StateDict α ℕ

/-- optimizer `i` and its model -/
def Process.world (s : Process α) (i : ℕ) : World α := ⟨((s.objs i).read s.heap).opt, s.data i, s.grad i, s.hooks i⟩

/-- what happens in the process -/
inductive ProcOp (α : Type) [Zero α] where
  /-- an operation of optimizer `i` -/
  | exec (i : ℕ) (op : Op α)
  /-- `d = optimizers[i].state_dict()` -/
  | save (i d : ℕ)
  /-- `optimizers[i].load_state_dict(d)` -/
  | load (i d : ℕ)

/-- optimizer `i` gets a new state; contents of dictionaries are written in place -/
def Process.put {α : Type} [Zero α] (s : Process α) (i : ℕ) (w : World α) : Process α :=
  { s with
    heap := Function.update s.heap (s.objs i).dicts w.opt.obj.dicts
    objs := Function.update s.objs i (w.opt.obj.read fun _ => (s.objs i).dicts)
    data := Function.update s.data i w.data
    grad := Function.update s.grad i w.grad
    hooks := Function.update s.hooks i w.hooks }

/-- run an operation in the process -/
def execIn {α : Type} [Field α] [LinearOrder α] [HasSqrt α] : ProcOp α → Py (Process α) Unit
  | .exec i op => fun s => ((exec op (s.world i)).1, s.put i (exec op (s.world i)).2)
  | .save i d => fun s => match Checkpoint.save (s.objs i) with
    | .ok sd => (.ok (), { s with saved := Function.update s.saved d sd })
    | .error e => (.error e, s)
  | .load i d => fun s => match Checkpoint.load (s.objs i) (s.saved d) with
    | (.ok o, sd) => (.ok (), { s with objs := Function.update s.objs i o, saved := Function.update s.saved d sd })
    | (.error e, sd) => (.error e, { s with saved := Function.update s.saved d sd })

/-- a history of the process; the user goes on after an exception -/
def runIn {α : Type} [Field α] [LinearOrder α] [HasSqrt α] (ops : List (ProcOp α)) (s : Process α) : Process α :=
  ops.foldl (fun s op => (execIn op s).2) s
