import Verif.Model.Optimizer
import Mathlib.Order.BoundedOrder.Lattice

/-!
Provenance: which data each tensor of the optimizer has been computed from (`/repo/singd/optim/optimizer.py`).

Every operation of a history carries a label of its data; a tensor carries the join of the labels of all tensors it was
computed from, as read off the statements of the code, whatever the numbers are. Control (which layers there are, their
hyper-parameters, the step counter, which scales are stored) is taken from the execution on values. Labels are elements of
any join-semilattice with bottom: sets of sources, the largest time of a source, or a flag such as "computed from data which
contain `nan`" (an operation of torch on tensors one of which is `nan` throughout gives `nan`).
-/

/-- labels of all tensors the optimizer holds, reads or writes; absent entries of dictionaries have label `⊥` -/
structure Prov (ℒ : Type) where
  K : String → ℒ
  C : String → ℒ
  mK : String → ℒ
  mC : String → ℒ
  HK : String → ℒ
  HC : String → ℒ
  /-- `p.data` -/
  data : ℕ → ℒ
  /-- `p.grad` -/
  grad : ℕ → ℒ
  /-- momentum buffers -/
  mom : ℕ → ℒ
  /-- `_grad_scales` -/
  scale : ℤ → ℒ
  /-- the inputs that tensor hooks are bound to -/
  hooks : List ℒ

namespace Prov
variable {ℒ : Type} [SemilatticeSup ℒ] [OrderBot ℒ] {α : Type} [Field α] [LinearOrder α] [HasSqrt α]

/-- labels of `grad_unscaling` (`optimizer.py:474-482`) -/
def unscale (t : ℕ) (p : Prov ℒ) : ℒ := p.scale ((t : ℤ) - 1) ⊔ p.scale t

/-- label of `new_m_K` (`optimizer.py:505-525`): with `kfac_like` neither `C`, `H_C` nor a scale is read -/
def newMK (h : Hyper α) (t : ℕ) (n : String) (p : Prov ℒ) : ℒ :=
  p.K n ⊔ p.HK n ⊔ (if h.kfacLike then ⊥ else p.unscale t ⊔ p.C n ⊔ p.HC n) ⊔ (if h.alpha1 ≠ 0 then p.mK n else ⊥)

/-- label of `new_m_C` (`optimizer.py:514-524`): with `kfac_like` neither `K` nor `H_K` is read, but the scales are -/
def newMC (h : Hyper α) (t : ℕ) (n : String) (p : Prov ℒ) : ℒ :=
  p.C n ⊔ p.HC n ⊔ p.unscale t ⊔ (if h.kfacLike then ⊥ else p.K n ⊔ p.HK n) ⊔ (if h.alpha1 ≠ 0 then p.mC n else ⊥)

/-- `_update_preconditioner` on an update step (`optimizer.py:469-546`). The rate of `normalize_lr_cov` is computed from the
new momentum of the same factor. -/
def updateOn (h : Hyper α) (t : ℕ) (n : String) (p : Prov ℒ) : Prov ℒ :=
  { p with
    K := Function.update p.K n (p.K n ⊔ p.newMK h t n)
    C := Function.update p.C n (p.C n ⊔ p.newMC h t n)
    mK := if h.alpha1 ≠ 0 then Function.update p.mK n (p.newMK h t n) else p.mK
    mC := if h.alpha1 ≠ 0 then Function.update p.mC n (p.newMC h t n) else p.mC
    HK := Function.update p.HK n ⊥
    HC := Function.update p.HC n ⊥ }

/-- `_accumulate_H_terms` (`optimizer.py:590-635`) for an input with label `x` and an output gradient with label `g` -/
def accumulate (t : ℕ) (n : String) (x g : ℒ) (p : Prov ℒ) : Prov ℒ :=
  { p with
    HK := Function.update p.HK n (p.HK n ⊔ (x ⊔ p.K n))
    HC := Function.update p.HC n (p.HC n ⊔ (g ⊔ p.C n ⊔ p.scale ((t : ℤ) - 1))) }

/-- label of the natural gradient of a layer (`optimizer.py:681-713`) -/
def natGrad (t : ℕ) (m : Layer) (p : Prov ℒ) : ℒ :=
  p.grad m.weight.ptr ⊔ (match m.bias with | none => ⊥ | some b => p.grad b.ptr) ⊔ p.scale t ⊔ p.K m.name ⊔ p.C m.name

/-- the loop body of `_step` for one parameter (`optimizer.py:797-814`) -/
def paramStep (h : Hyper α) (q : ℕ) (s : ℒ) (p : Prov ℒ) : Prov ℒ :=
  let s := s ⊔ (if h.weightDecay ≠ 0 then p.data q else ⊥)
  if h.momentum ≠ 0 then
    { p with mom := Function.update p.mom q (p.mom q ⊔ s), data := Function.update p.data q (p.data q ⊔ (p.mom q ⊔ s)) }
  else { p with data := Function.update p.data q (p.data q ⊔ s) }

/-- splitting of the natural gradient and the loop over parameters (`optimizer.py:722-730, 788-814`) -/
def applyNat (h : Hyper α) (m : Layer) (s : ℒ) (p : Prov ℒ) : Prov ℒ :=
  match m.bias with
  | none => p.paramStep h m.weight.ptr s
  | some b => (p.paramStep h m.weight.ptr s).paramStep h b.ptr s

/-- `_update_preconditioner` (`optimizer.py:456-546`) -/
def update (h : Hyper α) (t : ℕ) (m : Layer) (p : Prov ℒ) : Prov ℒ := if t % h.T = 0 then p.updateOn h t m.name else p

/-- one layer in `_step` (`optimizer.py:785-814`) -/
def layerStep (o : Opt α) (p : Prov ℒ) (m : Layer) : Prov ℒ := match o.hyperOf m with
  | .ok h => (p.update h o.steps m).applyNat h m ((p.update h o.steps m).natGrad o.steps m)
  | .error _ => p

/-- emptying the accumulators (`optimizer.py:770-774`) -/
def dropStats (ms : List Layer) (p : Prov ℒ) : Prov ℒ :=
  { p with
    HK := fun n => if ∃ m ∈ ms, m.name = n then ⊥ else p.HK n
    HC := fun n => if ∃ m ∈ ms, m.name = n then ⊥ else p.HC n }

/-- the scale of the current step (`optimizer.py:748-761`): what a scaler announces, unless the user has set a scale -/
def ensureScale (o : Opt α) (ℓ : ℒ) (p : Prov ℒ) : Prov ℒ :=
  if o.scales o.steps = none then { p with scale := Function.update p.scale o.steps ℓ } else p

/-- one operation, executed in `w`, whose data have label `ℓ` (see `exec` for the code) -/
def exec (w : World α) (op : Op α) (ℓ : ℒ) (p : Prov ℒ) : Prov ℒ := match op with
  | .forward i _ ge => match w.opt.layers[i]? with
    | some m => match w.opt.hyperOf m with
      | .ok h => if ge = true ∧ w.opt.steps % h.T = 0 then { p with hooks := p.hooks ++ [ℓ] } else p
      | .error _ => p
    | none => p
  | .backward k _ => match w.hooks[k]?, p.hooks[k]? with
    | some mx, some x => p.accumulate w.opt.steps mx.1.name x ℓ
    | _, _ => p
  | .setGrad q _ => { p with grad := Function.update p.grad q ℓ }
  | .setParam q _ => { p with data := Function.update p.data q ℓ }
  | .setHyper _ _ => p
  | .setScale _ => { p with scale := Function.update p.scale w.opt.steps ℓ }
  | .step _ _ f =>
    if f then (p.ensureScale w.opt ℓ).dropStats w.opt.layers
    else w.opt.layers.foldl (layerStep w.opt) (p.ensureScale w.opt ℓ)

/-- a history without exceptions, together with the labels of its data -/
def run : List (Op α × ℒ) → World α → Prov ℒ → Prov ℒ
  | [], _, p => p
  | (op, ℓ) :: ops, w, p => run ops (_root_.exec op w).2 (p.exec w op ℓ)

end Prov
