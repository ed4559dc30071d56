import Verif.SpecOpt

/-! Specification vocabulary for models whose layers may share parameters. -/

variable {α : Type} [Field α] [LinearOrder α]

/-- Well-formed optimizer as `World.Sound`, but layers may share parameters (tied weights); only their names differ. -/
structure World.Loose (cl : String → Cls × Cls) (w : World α) : Prop where
  names : w.opt.layers.Pairwise fun a b => a.name ≠ b.name
  good : ∀ m ∈ w.opt.layers, m.Good (cl m.name)
  lay : ∀ m ∈ w.opt.layers, LayerWF (cl m.name) w.opt m
  shape : ∀ m ∈ w.opt.layers, LayerShape w m
  hyper : ∀ m ∈ w.opt.layers, ∃ h, w.opt.hyperOf m = .ok h ∧ h.T ≠ 0

/-- the layer `m` uses the parameter `p`, as weight or bias -/
def Layer.uses (m : Layer) (p : ℕ) : Bool := m.weight.ptr == p || m.bias.any fun b => b.ptr == p

/-- entry of a matrix, 0 outside -/
def entry {a b : ℕ} (N : Matrix (Fin a) (Fin b) α) (i j : ℕ) : α := if h : i < a ∧ j < b then N ⟨i, h.1⟩ ⟨j, h.2⟩ else 0

/-- entry `(i, j)` of the part of the direction `N` of layer `m` that belongs to parameter `p` -/
def dirEntry (m : Layer) (N : Matrix (Fin m.nC) (Fin m.nK) α) (p i j : ℕ) : α :=
  if m.weight.ptr = p then entry N i j else entry N i m.din

/-- one update of an entry of a parameter (value, momentum buffer) along `s`: SGD with momentum and weight decay -/
def sgdEntry (h : Hyper α) (s : α) (x : α × α) : α × α :=
  let v := h.momentum * x.2 + (s + h.weightDecay * x.1)
  (x.1 - h.lr * v, if h.momentum = 0 then x.2 else v)

/-- entry of a parameter and of its momentum buffer (0 if there is none) -/
def World.entry (w : World α) (p i j : ℕ) : α × α := ((w.data p).get i j, ((w.opt.mom p).map fun B => B.get i j).getD 0)

/-- the direction of a layer in a step from `w` to `w'`: preconditioned with its factors after the step -/
def stepDir (cl : String → Cls × Cls) (s : α) (w w' : World α) (m : Layer) : Matrix (Fin m.nC) (Fin m.nK) α :=
  natDir (cl m.name) s (gradM w m) (denO (w'.opt.Ks m.name) m.nK) (denO (w'.opt.Cs m.name) m.nC)

/-- the updates of entry `(i, j)` of parameter `p`, one by each of the layers `ms` that use it, in order -/
def World.chain (cl : String → Cls × Cls) (s : α) (w w' : World α) (p i j : ℕ) (ms : List Layer) (x : α × α) : α × α :=
  (ms.filter (·.uses p)).foldl (fun x m => match w.opt.hyperOf m with
    | .ok h => sgdEntry h (dirEntry m (stepDir cl s w w' m) p i j) x
    | .error _ => x) x
