import Verif.Model.Construct

/-!
Parameter groups added after the construction. `SINGD` inherits `add_param_group` from `torch.optim.Optimizer` (library code, read from
torch's sources: parameters that are already in a group are rejected, missing entries are filled with the defaults, the group is
appended to `param_groups`) and does not override it. In particular the checks of `_check_param_groups` (`optimizer.py:282-349`), the
map `param_to_group_idx` (`optimizer.py:327-331`), the hooks (`optimizer.py:637-664`) and the buffers (`optimizer.py:405-428`) are made
once, in `__init__`.
-/

variable {α : Type} [Field α] [LinearOrder α] [HasSqrt α]

/-- what a user can do with an optimizer, including adding groups -/
inductive GOp (α : Type) [Zero α] where
  | op (o : Op α)
  | addGroup (g : GroupArg α)

namespace World

/-- `Optimizer.add_param_group`; `dflt` is `self.defaults` -/
def addGroup (dflt : Hyper α) (g : GroupArg α) : Py (World α) Unit := do
  let w ← Py.get
  if g.params.any fun p => p.ptr ∈ Construct.paramIds w.opt.groups then Py.raise .valueError
  else setOpt fun o => { o with groups := o.groups ++ [⟨g.params.map (·.ptr), g.entries dflt⟩] }

end World

/-- one operation -/
def gexec (dflt : Hyper α) : GOp α → Py (World α) Unit
  | .op o => exec o
  | .addGroup g => World.addGroup dflt g

/-- a history; the user goes on after an exception -/
def grun (dflt : Hyper α) (ops : List (GOp α)) (w : World α) : World α := ops.foldl (fun w op => (gexec dflt op w).2) w

/-- the operations of a history other than adding groups -/
def GOp.ops (ops : List (GOp α)) : List (Op α) := ops.filterMap fun
  | .op o => some o
  | .addGroup _ => none
