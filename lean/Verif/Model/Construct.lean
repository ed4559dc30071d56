import Verif.Model.Optimizer

/-!
Model of the construction of `SINGD` (`/repo/singd/optim/optimizer.py:82-266, 282-383, 405-428, 637-664`) and of the part of
`torch.optim.Optimizer.__init__`/`add_param_group` it relies on (library code, read from torch's sources: empty parameter lists
and parameters shared between groups are rejected, missing group entries are filled with the defaults).

Not represented: data types and devices, the warnings of torch about duplicate parameters, the forward hooks that stay on the
model if the construction fails after `_install_hooks`, and parameters that are distinct objects with the same `data_ptr()` (these: `Model/Address.lean`).
-/

/-- a Python number handed to the constructor -/
inductive PyNum (α : Type) where
  | int (z : ℤ)
  | float (x : α)

/-- `lr_cov`: a number or a callable -/
inductive PyRate (α : Type) where
  | num (x : PyNum α)
  | fn (f : ℕ → α)

/-- arguments of the constructor other than `model` and `params` (`optimizer.py:82-105`) -/
structure Args (α : Type) where
  lr : PyNum α
  momentum : PyNum α
  damping : PyNum α
  alpha1 : PyNum α
  weightDecay : PyNum α
  T : ℕ
  lossAverage : Option String
  lrCov : PyRate α
  structures : String × String
  kfacApprox : String
  warnUnsupported : Bool
  kfacLike : Bool
  initGradScale : α
  normalize : Bool

/-- a parameter group given by the user: its parameters, and its entries as a function of the defaults (torch fills the
entries that are not given with the defaults) -/
structure GroupArg (α : Type) where
  params : List Param
  entries : Hyper α → Hyper α

/-- the argument `params` -/
inductive ParamArg (α : Type) where
  | default
  | flat (ps : List Param)
  | groups (gs : List (GroupArg α))

/-- warnings emitted by the optimizer -/
inductive Warn where
  | kfacLikeMomentum (group : ℕ)
  | unsupported (layer : String)
  deriving DecidableEq, Repr

variable {α : Type} [Field α] [LinearOrder α]

/-- numeric value -/
def PyNum.val : PyNum α → α
  | .int z => (z : α)
  | .float x => x
/-- value of `lr_cov` -/
def PyRate.val : PyRate α → LrCov α
  | .num x => .const x.val
  | .fn f => .fn f
/-- `isinstance(x, float) and x < 0.0` (`optimizer.py:213`) -/
def PyNum.rejected : PyNum α → Bool
  | .int _ => false
  | .float x => decide (x < 0)
/-- the same for `lr_cov`, which may be a callable -/
def PyRate.rejected : PyRate α → Bool
  | .num x => x.rejected
  | .fn _ => false

namespace Construct

/-- validation of numbers (`optimizer.py:206-214`) -/
def validate (a : Args α) : Except PyErr Unit :=
  if a.lr.rejected || a.lrCov.rejected || a.alpha1.rejected || a.momentum.rejected || a.weightDecay.rejected
  then .error .valueError else .ok ()

/-- `defaults` (`optimizer.py:216-230`) -/
def defaults (a : Args α) : Hyper α where
  lr := a.lr.val
  momentum := a.momentum.val
  damping := a.damping.val
  alpha1 := a.alpha1.val
  weightDecay := a.weightDecay.val
  T := a.T
  lossAverage := a.lossAverage
  lrCov := a.lrCov.val
  structures := a.structures
  kfacApprox := a.kfacApprox
  kfacLike := a.kfacLike
  normalize := a.normalize

/-- `_get_trainable_parameters` (`optimizer.py:351-383`): the parameters and the warnings -/
def trainable (layers : List Layer) (warnUnsupported : Bool) : List Param × List Warn :=
  let leaves := layers.filter (·.leaf)
  (leaves.flatMap fun m => if m.supported then m.parameters.filter (·.requiresGrad) else [],
   (leaves.filter fun m => !m.supported && (m.parameters.filter (·.requiresGrad)) ≠ [] && warnUnsupported).map fun m =>
     .unsupported m.name)

/-- the groups handed to torch (`optimizer.py:231-235`; a list of parameters becomes one group) -/
def groupArgs (layers : List Layer) (warnUnsupported : Bool) (p : ParamArg α) : List (GroupArg α) × List Warn :=
  match p with
  | .default => let t := trainable layers warnUnsupported; (if t.1 = [] then [] else [⟨t.1, id⟩], t.2)
  | .flat ps => (if ps = [] then [] else [⟨ps, id⟩], [])
  | .groups gs => (gs, [])

/-- torch's `add_param_group` for all groups: a parameter of an earlier group is rejected -/
def addGroups (dflt : Hyper α) (seen : List ℕ) : List (GroupArg α) → Except PyErr (List (PGroup α))
  | [] => .ok []
  | g :: gs =>
    if g.params.any fun p => p.ptr ∈ seen then .error .valueError
    else do
      let rest ← addGroups dflt (seen ++ g.params.map (·.ptr)) gs
      return ⟨g.params.map (·.ptr), g.entries dflt⟩ :: rest

/-- `torch.optim.Optimizer.__init__` -/
def torchInit (dflt : Hyper α) (gs : List (GroupArg α)) : Except PyErr (List (PGroup α)) :=
  if gs = [] then .error .valueError else addGroups dflt [] gs

/-- `_check_param_groups`, one group (`optimizer.py:304-325`) -/
def checkGroup (h : Hyper α) : Except PyErr (Hyper α × Bool) :=
  let warn := h.kfacLike && h.alpha1 ≠ 0
  let h := if warn then { h with alpha1 := 0 } else h
  if ¬(h.kfacApprox = "expand" ∨ h.kfacApprox = "reduce") then .error .valueError
  else if ¬(h.lossAverage = none ∨ h.lossAverage = some "batch" ∨ h.lossAverage = some "batch+sequence") then .error .valueError
  else .ok (h, warn)

/-- `_check_param_groups`, loop over groups (`optimizer.py:304-325`) -/
def checkGroups (i : ℕ) : List (PGroup α) → Except PyErr (List (PGroup α) × List Warn)
  | [] => .ok ([], [])
  | g :: gs => do
    let hw ← checkGroup g.h
    let rest ← checkGroups (i + 1) gs
    return ({ g with h := hw.1 } :: rest.1, (if hw.2 then [.kfacLikeMomentum i] else []) ++ rest.2)

/-- `param_to_group_idx` (`optimizer.py:327-331`): later groups overwrite earlier ones -/
def ptrGroup (gs : List (PGroup α)) (p : ℕ) : Option ℕ :=
  ((List.range gs.length).filter fun i => ((gs.map (·.params)).getD i []).contains p).getLast?

/-- all parameters of all groups (`optimizer.py:333-335`) -/
def paramIds (gs : List (PGroup α)) : List ℕ := gs.flatMap (·.params)

/-- `_check_param_groups`, layers (`optimizer.py:336-347`): the trained parameters of a leaf layer are in one group -/
def checkLayers (layers : List Layer) (gs : List (PGroup α)) : Except PyErr Unit :=
  if layers.all fun m => !(m.leaf && m.supported) ||
      decide (∀ p ∈ m.parameters, ∀ q ∈ m.parameters, p.ptr ∈ paramIds gs → q.ptr ∈ paramIds gs → ptrGroup gs p.ptr = ptrGroup gs q.ptr)
  then .ok () else .error .valueError

/-- `_install_hooks` (`optimizer.py:637-664`): the hooked layers -/
def hooked (layers : List Layer) (gs : List (PGroup α)) : List Layer :=
  layers.filter fun m => m.supported && m.parameters.any fun p => p.ptr ∈ paramIds gs

/-- `_initialize_buffers`, one layer (`optimizer.py:411-428`) -/
def initLayer (o : Opt α) (m : Layer) : Except PyErr (Opt α) := do
  let d ← m.dims
  let h ← o.hyperOf m
  let cK ← lookup o.structs h.structures.1
  let cC ← lookup o.structs h.structures.2
  let K ← SM.eye cK d.1
  let C ← SM.eye cC d.2
  let o := { o with Ks := Dict.set o.Ks m.name K, Cs := Dict.set o.Cs m.name C }
  if h.alpha1 ≠ 0 then do
    let mK ← SM.zeros cK d.1
    let mC ← SM.zeros cC d.2
    return { o with mKs := Dict.set o.mKs m.name mK, mCs := Dict.set o.mCs m.name mC }
  else return o

/-- `_initialize_buffers` (`optimizer.py:405-428`) -/
def initBuffers : List Layer → Opt α → Except PyErr (Opt α)
  | [], o => .ok o
  | m :: ms, o => do initBuffers ms (← initLayer o m)

/-- the object before `_initialize_buffers` (`optimizer.py:236-254`), with the scales of `optimizer.py:266` -/
def blank (structs : String → Option Cls) (layers : List Layer) (gs : List (PGroup α)) (initScale : α) : Opt α where
  structs := structs
  layers := hooked layers gs
  ptrGroup := ptrGroup gs
  groups := gs
  steps := 0
  scales := Dict.set (fun _ => none) (-1) initScale
  Ks := fun _ => none
  Cs := fun _ => none
  mKs := fun _ => none
  mCs := fun _ => none
  HKs := fun _ => none
  HCs := fun _ => none
  mom := fun _ => none

/-- `SINGD.__init__` (`optimizer.py:82-266`): the new optimizer and the warnings -/
def init (structs : String → Option Cls) (model : Model) (p : ParamArg α) (a : Args α) : Except PyErr (Opt α × List Warn) :=
  if model.wrapped then .error .typeError
  else do
    validate a
    let ga := groupArgs model.layers a.warnUnsupported p
    let gs ← torchInit (defaults a) ga.1
    let cg ← checkGroups 0 gs
    checkLayers model.layers cg.1
    let o ← initBuffers (hooked model.layers cg.1) (blank structs model.layers cg.1 a.initGradScale)
    return (o, ga.2 ++ cg.2)

end Construct
