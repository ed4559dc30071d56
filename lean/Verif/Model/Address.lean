import Verif.Model.Construct

/-!
Parameters as objects and the addresses of their data. The other models identify a parameter with its `data_ptr()`. The code does not always: torch's base class
compares and stores objects (`Optimizer.add_param_group`, `self.state[p]`), `SINGD` uses `data_ptr()` when it is constructed (`optimizer.py:327-347, 649-656`) and whenever
it looks up an entry of a parameter group (`_get_param_group_entry`, `optimizer.py:268-280`). The map from addresses to groups is made once, but addresses can change:
`model.to(...)`, `model.half()` and assignments `p.data = ...` give a parameter new memory.

Here `Param.ptr` is the object, and a function `addr` gives the address of its data. The content of the memory is kept per object, so two objects that share memory
are only meant in statements about the construction.
-/

/-- the parameter with the address in place of the object -/
def Param.located (addr : ℕ → ℕ) (p : Param) : Param := { p with ptr := addr p.ptr }

/-- the layer with the addresses of its parameters in place of the objects -/
def Layer.located (addr : ℕ → ℕ) (m : Layer) : Layer :=
  { m with weight := m.weight.located addr, bias := m.bias.map (Param.located addr), others := m.others.map (Param.located addr) }

variable {α : Type} [Field α] [LinearOrder α]

/-- the group with addresses in place of objects -/
def PGroup.located (addr : ℕ → ℕ) (g : PGroup α) : PGroup α := { g with params := g.params.map addr }

/-- the optimizer whose lookups by object go through the addresses -/
def Opt.see (o : Opt α) (addr : ℕ → ℕ) : Opt α := { o with ptrGroup := fun p => o.ptrGroup (addr p) }

/-- `SINGD.__init__` (`optimizer.py:82-266`) for parameters at given addresses. In the result, `ptrGroup` maps addresses to groups
(`param_to_group_idx`). Groups are built by torch's base class, which compares objects; what follows uses addresses. -/
def Construct.initAt (structs : String → Option Cls) (model : Model) (p : ParamArg α) (a : Args α) (addr : ℕ → ℕ) : Except PyErr (Opt α × List Warn) :=
  if model.wrapped then .error .typeError
  else do
    validate a
    let ga := groupArgs model.layers a.warnUnsupported p
    let gs ← torchInit (defaults a) ga.1
    let cg ← checkGroups 0 gs
    let lg := cg.1.map (PGroup.located addr)
    checkLayers (model.layers.map (Layer.located addr)) lg
    let hk := model.layers.filter fun m => m.supported && (m.located addr).parameters.any fun p => p.ptr ∈ paramIds lg
    let o ← initBuffers hk { blank structs model.layers cg.1 a.initGradScale with layers := hk, ptrGroup := fun p => ptrGroup lg (addr p) }
    return ({ o with ptrGroup := ptrGroup lg }, ga.2 ++ cg.2)

/-- an optimizer in use (`w.opt.ptrGroup` maps addresses to groups) and the current addresses of all parameters -/
structure AWorld (α : Type) [Zero α] where
  w : World α
  addr : ℕ → ℕ

/-- the operations of `Model/Optimizer.lean`, and a change of addresses; values are kept -/
inductive AOp (α : Type) [Zero α] where
  | op (o : Op α)
  | move (addr : ℕ → ℕ)

/-- `w` with another map from parameters to groups -/
def World.withPtr (w : World α) (f : ℕ → Option ℕ) : World α := { w with opt := { w.opt with ptrGroup := f } }

/-- what the optimizer sees: parameters looked up by their current address -/
def AWorld.see (a : AWorld α) : World α := a.w.withPtr fun p => a.w.opt.ptrGroup (a.addr p)

variable [HasSqrt α]

/-- one operation. `_get_param_group_entry` is the only place that reads addresses after the construction (`optimizer.py:279`). -/
def aexec : AOp α → Py (AWorld α) Unit
  | .op o => fun a => ((exec o a.see).1, { a with w := (exec o a.see).2.withPtr a.w.opt.ptrGroup })
  | .move f => Py.modify fun a => { a with addr := f }

/-- a history; the user goes on after an exception -/
def arun (ops : List (AOp α)) (a : AWorld α) : AWorld α := ops.foldl (fun a op => (aexec op a).2) a

/-- the operations of a history other than moves -/
def AOp.ops (ops : List (AOp α)) : List (Op α) := ops.filterMap fun
  | .op o => some o
  | .move _ => none
