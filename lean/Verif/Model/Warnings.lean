import Verif.Model.Optimizer

/-!
Model of the performance warnings of the base class (`/repo/singd/structures/base.py:211-228`): which calls of methods of structured
matrices, and which operations of a training, issue the warning "Calling naive implementation of ...".

Calls of `warn` are modelled; whether Python prints a warning again depends on its filters. Warnings of the optimizer's constructor are
in `Model/Construct.lean`.
-/

/-- the methods of the base class that call `_warn_naive_implementation` (`base.py:99, 152, 178, 208, 282, 296, 312, 322, 334, 366, 391,
413`); `from_inner` is called with or without an argument (`base.py:283`) -/
inductive Meth where
  | matmul | mul | add | rmatmat | fromInner (withX : Bool) | fromMatInner | fromInner2 | averageTrace | diagAdd | frobenius | zeros | eye
  deriving DecidableEq, Repr

namespace Meth

/-- the name of the method -/
def pyName : Meth → String
  | matmul => "__matmul__" | mul => "__mul__" | add => "__add__" | rmatmat => "rmatmat" | fromInner _ => "from_inner"
  | fromMatInner => "from_mat_inner" | fromInner2 => "from_inner2" | averageTrace => "average_trace" | diagAdd => "diag_add_"
  | frobenius => "frobenius_norm" | zeros => "zeros" | eye => "eye"

/-- the name handed to `_warn_naive_implementation` (the lines cited at `Meth`): `"trace"` in `average_trace` (`base.py:322`) and `"zero"`
in `zeros` (`base.py:391`) -/
def warnName : Meth → String
  | averageTrace => "trace"
  | zeros => "zero"
  | m => m.pyName

end Meth

/-- what a class contributes: `WARN_NAIVE`, `WARN_NAIVE_EXCEPTIONS` (`base.py:52-53`) and which methods it overrides -/
structure WarnCfg where
  naive : Bool
  exceptions : List String
  overrides : Meth → Bool

/-- `_warn_naive_implementation` (`base.py:223`) -/
def WarnCfg.warn (c : WarnCfg) (m : Meth) : List String := if c.naive = true ∧ m.warnName ∉ c.exceptions then [m.warnName] else []

/-- warnings of a call of a method that does not call other methods with a naive version -/
def WarnCfg.leaf (c : WarnCfg) (m : Meth) : List String := if c.overrides m then [] else c.warn m

/-- Warnings of a call. The base class's `from_inner` calls `rmatmat` (if there is an argument) and `from_mat_inner` (`base.py:283-284`);
overriding methods call overridden methods only (`blockdiagonal.py:280-281`, `hierarchical.py:320`), and the other methods of the base class
call `to_dense` and `from_dense` only. -/
def WarnCfg.call (c : WarnCfg) (m : Meth) : List String :=
  if c.overrides m then []
  else match m with
    | .fromInner x => c.warn m ++ (if x then c.leaf .rmatmat else []) ++ c.leaf .fromMatInner
    | m => c.warn m

namespace Cls

/-- which methods the library's classes override: `dense.py` none, `diagonal.py:50-246` all, `blockdiagonal.py:159-399` all but
`from_inner2`, `hierarchical.py:185-428` all but `from_mat_inner` and `from_inner2`, `triltoeplitz.py:99-256` and `triutoeplitz.py:99-254` all but
`from_inner`, `from_mat_inner` and `from_inner2`, `recursive.py:70` `frobenius_norm` -/
def overrides : Cls → Meth → Bool
  | .dense, _ => false
  | .diagonal, _ => true
  | .block _, m => m ≠ .fromInner2
  | .hier _ _, m => m ≠ .fromMatInner ∧ m ≠ .fromInner2
  | .tril, m => m ≠ .fromInner true ∧ m ≠ .fromInner false ∧ m ≠ .fromMatInner ∧ m ≠ .fromInner2
  | .triu, m => m ≠ .fromInner true ∧ m ≠ .fromInner false ∧ m ≠ .fromMatInner ∧ m ≠ .fromInner2
  | .topRight _ _ _ _, m => m = .frobenius
  | .bottomLeft _ _ _ _, m => m = .frobenius

/-- `WARN_NAIVE` and `WARN_NAIVE_EXCEPTIONS` of the library's classes (`base.py:52-53`, `dense.py:23`, `triltoeplitz.py:42-45`,
`triutoeplitz.py:42-45`) -/
def warnCfg (c : Cls) : WarnCfg where
  naive := c ≠ .dense
  exceptions := if c = .tril ∨ c = .triu then ["from_inner", "from_inner2"] else []
  overrides := c.overrides

/-- warnings of a call of a method of a library class, with the class that is named in the warning. The `frobenius_norm` of recursive
classes calls that of the substructures (`recursive.py:79-81`). -/
def call : Cls → Meth → List (Cls × String)
  | .topRight a b cA cC, .frobenius => ((topRight a b cA cC).warnCfg.call .frobenius).map (fun s => (topRight a b cA cC, s)) ++ (cA.call .frobenius ++ cC.call .frobenius)
  | .bottomLeft a b cA cC, .frobenius =>
    ((bottomLeft a b cA cC).warnCfg.call .frobenius).map (fun s => (bottomLeft a b cA cC, s)) ++ (cA.call .frobenius ++ cC.call .frobenius)
  | c, m => (c.warnCfg.call m).map fun s => (c, s)

end Cls

/-- warnings of the construction of the factors of one layer (`optimizer.py:422-428`) -/
def initWarns (momentum : Bool) (cK cC : Cls) : List (Cls × String) :=
  cK.call .eye ++ cC.call .eye ++ if momentum then cK.call .zeros ++ cC.call .zeros else []

/-- warnings of the tensor hook (`optimizer.py:609, 620`); `add_` and `all_reduce` have no naive version -/
def hookWarns (cK cC : Cls) : List (Cls × String) := cK.call (.fromInner true) ++ cC.call (.fromInner true)

/-- `x.average_trace()` unless `kfac_like` (`optimizer.py:508, 510, 517, 519`) -/
def traceWarns (kfacLike : Bool) (c : Cls) : List (Cls × String) := if kfacLike then [] else c.call .averageTrace

/-- warnings of `_update_preconditioner` on an update step (`optimizer.py:488-546`); `infinity_vector_norm`, `add_` and `mul_` have no
naive version. The statistics have the class of their factor. -/
def updateWarns (kfacLike : Bool) (cK cC : Cls) : List (Cls × String) :=
  cK.call (.fromInner false) ++ cC.call (.fromInner false) ++
  (cK.call .zeros ++ traceWarns kfacLike cC ++ traceWarns kfacLike cC ++ cK.call .diagAdd) ++
  (cC.call .zeros ++ traceWarns kfacLike cK ++ traceWarns kfacLike cK ++ cC.call .diagAdd) ++
  cK.call .matmul ++ cC.call .matmul

/-- warnings of `_compute_natural_gradient` (`optimizer.py:707, 710`) -/
def natWarns (cK cC : Cls) : List (Cls × String) := cK.call .rmatmat ++ cK.call .matmul ++ cC.call .rmatmat ++ cC.call .matmul

variable {α : Type} [Field α]

/-- the classes of the factors of a layer, if there are factors -/
def Opt.classes (o : Opt α) (m : Layer) : Option (Cls × Cls) := match o.Ks m.name, o.Cs m.name with
  | some K, some C => some (K.cls, C.cls)
  | _, _ => none

/-- warnings of one layer in `_step` (`optimizer.py:785-786`) -/
def layerWarns (o : Opt α) (m : Layer) : List (Cls × String) := match o.classes m, o.hyperOf m with
  | some c, .ok h => (if o.steps % h.T = 0 then updateWarns h.kfacLike c.1 c.2 else []) ++ natWarns c.1 c.2
  | _, _ => []

/-- naive-implementation warnings of an operation that does not raise -/
def opWarns (w : World α) : Op α → List (Cls × String)
  | .backward k _ => match w.hooks[k]? with
    | some mx => match w.opt.classes mx.1 with
      | some c => hookWarns c.1 c.2
      | none => []
    | none => []
  | .step false _ false => w.opt.layers.flatMap (layerWarns w.opt)
  | _ => []

/-- naive-implementation warnings of a history -/
def runWarns [LinearOrder α] [HasSqrt α] (w : World α) : List (Op α) → List (Cls × String)
  | [] => []
  | op :: ops => opWarns w op ++ runWarns (exec op w).2 ops
