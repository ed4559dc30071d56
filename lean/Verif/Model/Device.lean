import Verif.Model.Structured

/-!
Devices of all tensors in a training run.

This is a third model of the optimiser, next to those in `Model/Optimizer.lean` (values) and `Model/DtypeFlow.lean` (data types): every tensor is represented by
the device it lives on (values, shapes and types are dropped), and every torch operation by its rule on devices: an operation on two tensors of different devices
raises a `RuntimeError`, the result of an operation lives where its operands live, an assignment to a slice copies between devices, and a number needs no
device. The numbers `alpha` of the in-place additions in `optimizer.py` may be 0-dimensional tensors (`average_trace`, `infinity_vector_norm`); torch converts them to
Python numbers, from any device. Index tensors may live on the CPU whatever the indexed tensor is (`triltoeplitz.py:92`).
-/

namespace Dv

/-- a `torch.device`; `0` is the CPU -/
abbrev Dev := ℕ

/-- an operation on two tensors: a `RuntimeError` unless both are on the same device, where the result is put -/
def join (a b : Dev) : Except PyErr Dev := if a = b then .ok a else .error .runtimeError

/-- `mat[i:j, k:l] = src`: copies from any device; the target stays where it is -/
def sliceAssign (mat _src : Dev) : Dev := mat

/-! ### Structured matrices -/

/-- the devices of the tensors of a structured matrix -/
inductive DM where
  | dense (d : Dev)
  | diagonal (d : Dev)
  | block (D : ℕ) (blocks last : Dev)
  | hier (max1 max2 : ℕ) (A B C D E : Dev)
  | tril (d : Dev)
  | triu (d : Dev)
  | topRight (maxA maxC : MaxDim) (clsA clsC : Cls) (A : DM) (B : Dev) (C : DM)
  | bottomLeft (maxA maxC : MaxDim) (clsA clsC : Cls) (A : DM) (B : Dev) (C : DM)
  deriving DecidableEq, Repr

/-- `from_dense` on a matrix on device `d` (`dense.py:40`, `diagonal.py:92`, `blockdiagonal.py:113`, `hierarchical.py:146`, `triltoeplitz.py:59` with `device=mat.device` in
lines 74 and 80, `triutoeplitz.py:59`, `recursive.py:188, 326`): slices and sums of slices of the matrix, all on its device -/
def fromDense : Cls → Dev → DM
  | .dense, d => .dense d
  | .diagonal, d => .diagonal d
  | .block D, d => .block D d d
  | .hier a b, d => .hier a b d d d d d
  | .tril, d => .tril d
  | .triu, d => .triu d
  | .topRight a c cA cC, d => .topRight a c cA cC (fromDense cA d) d (fromDense cC d)
  | .bottomLeft a c cA cC, d => .bottomLeft a c cA cC (fromDense cA d) d (fromDense cC d)

/-- `cls.zeros(dim, device=d)` (`base.py:373`, `diagonal.py:207`, `blockdiagonal.py:347`, `hierarchical.py:372`, `triltoeplitz.py:215`, `triutoeplitz.py:213`) -/
def zeros (c : Cls) (d : Dev) : DM := fromDense c d

/-- `cls.eye(dim, device=d)` (`base.py:395`, `diagonal.py:228`, `blockdiagonal.py:373`, `hierarchical.py:401`, `triltoeplitz.py:236`, `triutoeplitz.py:234`) -/
def eye (c : Cls) (d : Dev) : DM := fromDense c d

namespace DM

/-- the class of a structured matrix -/
def cls : DM → Cls
  | dense _ => .dense
  | diagonal _ => .diagonal
  | block D _ _ => .block D
  | hier a b .. => .hier a b
  | tril _ => .tril
  | triu _ => .triu
  | topRight a c cA cC .. => .topRight a c cA cC
  | bottomLeft a c cA cC .. => .bottomLeft a c cA cC

/-- the devices of all registered tensors (`base.py:57-83`, `recursive.py:43-64`) -/
def devices : DM → List Dev
  | dense d => [d]
  | diagonal d => [d]
  | block _ b l => [b, l]
  | hier _ _ A B C D E => [A, B, C, D, E]
  | tril d => [d]
  | triu d => [d]
  | topRight _ _ _ _ A B C => B :: (A.devices ++ C.devices)
  | bottomLeft _ _ _ _ A B C => B :: (A.devices ++ C.devices)

/-- the same matrix with every tensor moved from `d` to `f d`: `torch.load(…, map_location=f)` -/
def map (f : Dev → Dev) : DM → DM
  | dense d => .dense (f d)
  | diagonal d => .diagonal (f d)
  | block D b l => .block D (f b) (f l)
  | hier a b A B C D E => .hier a b (f A) (f B) (f C) (f D) (f E)
  | tril d => .tril (f d)
  | triu d => .triu (f d)
  | topRight a c cA cC A B C => .topRight a c cA cC (A.map f) (f B) (C.map f)
  | bottomLeft a c cA cC A B C => .bottomLeft a c cA cC (A.map f) (f B) (C.map f)

/-- `to_dense` (`dense.py:51`, `diagonal.py:107`, `blockdiagonal.py:136`, `hierarchical.py:168`, `triltoeplitz.py:85`, `recursive.py:207, 345`). Assignment with index tensors
(`hierarchical.py:179`, `triltoeplitz.py:96`) and `block_diag` insist on one device. -/
def toDense : DM → Except PyErr Dev
  | dense d => .ok d
  | diagonal d => .ok d
  | block _ b l => .ok (sliceAssign b l)
  | hier _ _ A B C D E => do return sliceAssign (sliceAssign (← join (sliceAssign A B) C) D) E
  | tril d => join d d
  | triu d => join d d
  | topRight _ _ _ _ A B C => do return sliceAssign (← join (← A.toDense) (← C.toDense)) B
  | bottomLeft _ _ _ _ A B C => do return sliceAssign (← join (← A.toDense) (← C.toDense)) B

/-- `self @ tensor` (`base.py:85-107`, `diagonal.py:50`, `blockdiagonal.py:159`, `hierarchical.py:200-211`, `triltoeplitz.py:137-142`, `structures/utils.py:83`) -/
def matmulT : DM → Dev → Except PyErr Dev
  | dense d, x => join d x
  | diagonal d, x => join d x
  | block _ b l, x => do join (← join b x) (← join l x)
  | hier _ _ A B C D E, x => do
      let top ← join (← join (← join A x) (← join B x)) (← join B x)
      let middle ← join C x
      let bottom ← join (← join D x) (← join E x)
      join (← join top middle) bottom
  | tril d, x => do join x (← join d d)
  | triu d, x => do join x (← join d d)
  | K@(topRight ..), x => do join (← K.toDense) x
  | K@(bottomLeft ..), x => do join (← K.toDense) x

/-- `rmatmat` (`base.py:199`, `diagonal.py:115`, `blockdiagonal.py:239`, `hierarchical.py:266-293`, `triltoeplitz.py:151-169`, `triutoeplitz.py:149-167`); `.to(dtype)` leaves a
tensor on its device -/
def rmatmat : DM → Dev → Except PyErr Dev
  | dense d, x => join d x
  | diagonal d, x => matmulT (.diagonal d) x
  | block D b l, x => matmulT (.block D b l) x
  | hier _ _ A B C D E, x => do
      let top ← join A x
      let middle ← join (← join (← join B x) (← join C x)) (← join D x)
      let bottom ← join (← join B x) (← join E x)
      join (← join top middle) bottom
  | tril d, x => do join x (← join d d)
  | triu d, x => do join x (← join d d)
  | K@(topRight ..), x => do join (← K.toDense) x
  | K@(bottomLeft ..), x => do join (← K.toDense) x

/-- `self @ other` for two structured matrices of the same class (`base.py:85-107`, `diagonal.py:50`, `blockdiagonal.py:210-213`, `hierarchical.py:213-230`,
`triltoeplitz.py:144-149`) -/
def matmulS : DM → DM → Except PyErr DM
  | diagonal d, diagonal d' => do return .diagonal (← join d d')
  | block D b l, block _ b' l' => do return .block D (← join b b') (← join l l')
  | hier a b A B C D E, hier _ _ A' B' C' D' E' => do
      let An ← join A A'
      let Cn ← join C C'
      let En ← join E E'
      let Dn ← join (← join D C') (← join E D')
      let left ← join (← join (← join A B') (← join B C')) (← join B D')
      let right ← join (← join A B') (← join B E')
      return .hier a b An (← join left right) Cn Dn En
  | tril d, tril d' => do return .tril (← join d' d)
  | triu d, triu d' => do return .triu (← join d' d)
  | K, L => do
      let dense ← K.toDense
      return fromDense K.cls (← join dense (← L.toDense))

/-- `from_mat_inner` for a tensor on device `x` (`base.py:287`, `diagonal.py:152`, `blockdiagonal.py:284`) -/
def fromMatInner (c : Cls) (x : Dev) : Except PyErr DM := do return fromDense c (← join x x)

/-- `from_inner(X)` (`base.py:270-284`, `diagonal.py:131-149`, `blockdiagonal.py:275-281`, `hierarchical.py:320-326`) -/
def fromInner : DM → Dev → Except PyErr DM
  | diagonal d, x => do return .diagonal (← join d x)
  | K@(hier a b ..), x => do
      let S ← K.rmatmat x
      return .hier a b (← join S S) (← join (← join S S) (← join S S)) S (← join S S) (← join S S)
  | K, x => do fromMatInner K.cls (← K.rmatmat x)

/-- `from_inner()` without argument (`base.py:270-284`, `diagonal.py:131-149`, `blockdiagonal.py:271-274`, `hierarchical.py:309-319`) -/
def fromInner0 : DM → Except PyErr DM
  | diagonal d => .ok (.diagonal d)
  | block D b l => do return .block D (← join b b) (← join l l)
  | hier a b A B C D E => do
      let An ← join A A
      let Bn ← join A B
      let Cn ← join (← join C B) D
      let Dn ← join (← join B B) (← join E D)
      let En ← join (← join E E) (← join B B)
      return .hier a b An Bn Cn Dn En
  | K => do fromMatInner K.cls (← K.toDense)

/-- whether `average_trace` raises (`base.py:316`, `diagonal.py:175`, `blockdiagonal.py:305`, `hierarchical.py:329`, `triltoeplitz.py:175`). For the block-diagonal and hierarchical
classes it adds 0-dimensional tensors of the parts; torch lets such tensors on the CPU be added to tensors elsewhere, which is not represented here: the sum raises in
this model whenever the parts are on different devices. No property below depends on it, because the matrices in a run have all tensors on one device. -/
def averageTrace : DM → Except PyErr Unit
  | diagonal _ | tril _ | triu _ => .ok ()
  | block _ b l => do let _ ← join b l
  | hier _ _ A _ C _ E => do let _ ← join (← join A C) E
  | K => do let _ ← K.toDense

/-- `diag_add_` (`base.py:325-343`, `diagonal.py:183`, `blockdiagonal.py:315`, `hierarchical.py:343`, `triltoeplitz.py:183`): in place, except in the base class, which
replaces the object's tensors by those of `from_dense` -/
def diagAdd : DM → Except PyErr DM
  | K@(dense _) => do return fromDense K.cls (← K.toDense)
  | K@(topRight ..) => do return fromDense K.cls (← K.toDense)
  | K@(bottomLeft ..) => do return fromDense K.cls (← K.toDense)
  | K => .ok K

/-- `add_` (`base.py:181-197`): in-place additions of the registered tensors, pair by pair; the tensors stay where they are. What a failed addition leaves behind is not
represented (devices do not change). -/
def add_ (K other : DM) : Except PyErr DM := do
  let _ ← (K.devices.zip other.devices).mapM fun p => join p.1 p.2
  return K

end DM

/-! ### The optimiser -/

/-- what determines the devices in one layer -/
structure Spec where
  /-- `module.weight.device`, also the device of `module.weight.grad` -/
  weight : Dev
  /-- `module.bias.device`, also the device of `module.bias.grad` -/
  bias : Option Dev
  clsK : Cls
  clsC : Cls
  T : ℕ
  kfacLike : Bool
  /-- `alpha1 != 0.0` -/
  riem : Bool
  /-- `weight_decay != 0.0` -/
  decay : Bool
  /-- `momentum != 0.0` -/
  momentum : Bool
  deriving DecidableEq

/-- the optimiser's structured matrices of one layer: its entries in `Ks, Cs, m_Ks, m_Cs, H_Ks, H_Cs` (`optimizer.py:867-889`) -/
structure Saved where
  K : DM
  C : DM
  mK : Option DM
  mC : Option DM
  HK : Option DM
  HC : Option DM
  deriving DecidableEq

/-- all structured matrices of a layer -/
def Saved.matrices (s : Saved) : List DM := s.K :: s.C :: (s.mK.toList ++ s.mC.toList ++ s.HK.toList ++ s.HC.toList)

/-- a checkpoint's entries read with `torch.load(…, map_location=f)` -/
def Saved.map (f : Dev → Dev) (s : Saved) : Saved :=
  ⟨s.K.map f, s.C.map f, s.mK.map (DM.map f), s.mC.map (DM.map f), s.HK.map (DM.map f), s.HC.map (DM.map f)⟩

/-- a layer: specification, structured matrices, and the devices of the momentum buffers of its weight and bias -/
structure LState where
  spec : Spec
  mats : Saved
  bufW : Option Dev
  bufB : Option Dev
  deriving DecidableEq

/-- `_initialize_buffers` for one layer (`optimizer.py:405-428`): on `module.weight.device` (`optimizer.py:385-403`) -/
def LState.init (p : Spec) : LState where
  spec := p
  mats :=
    { K := eye p.clsK p.weight
      C := eye p.clsC p.weight
      mK := if p.riem then some (zeros p.clsK p.weight) else none
      mC := if p.riem then some (zeros p.clsC p.weight) else none
      HK := none
      HC := none }
  bufW := none
  bufB := none

/-- `self.H_Ks[name].add_(H_K) if name in self.H_Ks else H_K` (`optimizer.py:629-634`) -/
def plus (old : Option DM) (new : DM) : Except PyErr DM := match old with
  | some h => h.add_ new
  | none => .ok new

/-- `_accumulate_H_terms` (`optimizer.py:578-635`) without a process group. `process_input` and `process_grad_output` leave the tensors on their device (`optim/utils.py:113, 173,
202`: patterns with `device=x.device`, `new_ones`). -/
def LState.accumulate (l : LState) (input gradOutput : Dev) : Except PyErr LState := do
  let hK ← l.mats.K.fromInner input
  let hC ← l.mats.C.fromInner gradOutput
  let hK ← plus l.mats.HK hK
  let hC ← plus l.mats.HC hC
  return { l with mats := { l.mats with HK := some hK, HC := some hC } }

/-- Python's `dict.pop(key)` / `dict[key]` -/
def need {β : Type} : Option β → Except PyErr β
  | some b => .ok b
  | none => .error .keyError

/-- `_update_preconditioner` (`optimizer.py:456-546`) -/
def LState.update (steps : ℕ) (l : LState) : Except PyErr LState := do
  if l.spec.T = 0 then .error .zeroDivisionError
  else if steps % l.spec.T ≠ 0 then .ok l
  else
    let m := l.mats
    let hK ← need m.HK
    let hC ← need m.HC
    let kTk ← m.K.fromInner0
    let cTc ← m.C.fromInner0
    let dev := l.spec.weight
    let newK := zeros m.K.cls dev
    if !l.spec.kfacLike then hC.averageTrace
    let newK ← newK.add_ hK
    if !l.spec.kfacLike then cTc.averageTrace
    let newK ← newK.add_ kTk
    let newK ← newK.diagAdd
    let newC := zeros m.C.cls dev
    if !l.spec.kfacLike then hK.averageTrace
    let newC ← newC.add_ hC
    if !l.spec.kfacLike then kTk.averageTrace
    let newC ← newC.add_ cTc
    let newC ← newC.diagAdd
    let (newK, newC, mK, mC) ← (if l.spec.riem then do
        let newC ← newC.add_ (← need m.mC)
        let newK ← newK.add_ (← need m.mK)
        return (newK, newC, some newK, some newC)
      else return (newK, newC, m.mK, m.mC) : Except PyErr (DM × DM × Option DM × Option DM))
    let K ← m.K.add_ (← m.K.matmulS newK)
    let C ← m.C.add_ (← m.C.matmulS newC)
    return { l with mats := ⟨K, C, mK, mC, none, none⟩ }

/-- the matrix of weight and bias gradients (`optimizer.py:683-692`) -/
def Spec.gradMat (p : Spec) : Except PyErr Dev := match p.bias with
  | some b => join p.weight b
  | none => .ok p.weight

/-- `_compute_natural_gradient` (`optimizer.py:666-730`) -/
def LState.naturalGradient (l : LState) : Except PyErr Dev := do
  let gradMat ← l.spec.gradMat
  let nat ← l.mats.K.matmulT (← l.mats.K.rmatmat gradMat)
  l.mats.C.matmulT (← l.mats.C.rmatmat nat)

/-- the update of one parameter on device `p` with momentum buffer `buf` and natural gradient on device `n` (`optimizer.py:797-814`); the new buffer -/
def applyParam (s : Spec) (p : Dev) (buf : Option Dev) (n : Dev) : Except PyErr (Option Dev) := do
  if s.decay then let _ ← join n p
  if s.momentum then
    let b := buf.getD p
    let _ ← join b n
    let _ ← join p b
    return some b
  else
    let _ ← join p n
    return buf

/-- one iteration of the loop in `_step` (`optimizer.py:783-814`) -/
def LState.step (steps : ℕ) (l : LState) : Except PyErr LState := do
  let l ← l.update steps
  let n ← l.naturalGradient
  let bufW ← applyParam l.spec l.spec.weight l.bufW n
  match l.spec.bias with
  | none => return { l with bufW := bufW }
  | some b =>
      let bufB ← applyParam l.spec b l.bufB n
      return { l with bufW := bufW, bufB := bufB }

/-- `load_state_dict` for one layer (`optimizer.py:869-895`): the structured matrices are taken over as they are; `Optimizer.load_state_dict` of torch puts the momentum
buffers of the checkpoint on the device of their parameter. `buf`: whether the checkpoint has momentum buffers of the weight and the bias. -/
def LState.load (l : LState) (s : Saved) (buf : Bool × Bool) : LState :=
  { l with mats := s, bufW := if buf.1 then some l.spec.weight else none, bufB := if buf.2 then l.spec.bias else none }

/-- an optimiser: the step counter and its layers -/
structure State where
  steps : ℕ
  layers : List LState
  deriving DecidableEq

/-- construction -/
def init (ps : List Spec) : State := ⟨0, ps.map LState.init⟩

/-- what can happen to the devices in a training run. The parameters stay where they were when the optimiser was built: moving a model afterwards changes the addresses by
which the optimiser looks up parameters (`Model/Address.lean`). -/
inductive Op where
  /-- a tensor hook of the `i`-th layer runs, with a layer input and an output gradient on the given devices -/
  | backward (i : ℕ) (input gradOutput : Dev)
  /-- `optimizer.step()`, with or without infinities in the gradients -/
  | step (foundInf : Bool)
  /-- `optimizer.load_state_dict` of a checkpoint of an optimiser with the same layers: step counter, structured matrices of each layer, presence of momentum buffers -/
  | load (steps : ℕ) (layers : List (Saved × Bool × Bool))
  deriving DecidableEq

/-- one operation. After an exception in the loop of `_step` the earlier layers have been updated; as no operation changes a device, this is not represented. -/
def exec (s : State) : Op → Except PyErr State
  | .backward i x g => match s.layers[i]? with
      | none => .ok s
      | some l => do return { s with layers := s.layers.set i (← l.accumulate x g) }
  | .step foundInf => do
      let layers ← (if foundInf then .ok (s.layers.map fun l => { l with mats := { l.mats with HK := none, HC := none } }) else s.layers.mapM (LState.step s.steps) :
        Except PyErr (List LState))
      return ⟨s.steps + 1, layers⟩
  | .load n ss => .ok ⟨n, List.zipWith (fun l s => l.load s.1 s.2) s.layers ss⟩

/-- a training run; it ends at the first exception -/
def run (s : State) : List Op → Except PyErr State
  | [] => .ok s
  | op :: ops => do run (← exec s op) ops

end Dv
