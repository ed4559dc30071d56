import Verif.Spec
import Verif.Model.Construct

/-! Specification vocabulary for the optimizer, in terms of Mathlib matrices. -/

open Matrix

variable {α : Type} [Field α]

/-- a tensor from a Mathlib matrix -/
def Mat.ofMatrix {n m : ℕ} (A : Matrix (Fin n) (Fin m) α) : Mat α :=
  Mat.ofFn n m fun i j => if h : i < n ∧ j < m then A ⟨i, h.1⟩ ⟨j, h.2⟩ else 0

/-- `Π_c`: the matrix represented by `c.from_dense(G)` (0 if `from_dense` raises) -/
def Cls.proj (c : Cls) (n : ℕ) (G : Matrix (Fin n) (Fin n) α) : Matrix (Fin n) (Fin n) α :=
  match SM.fromDense c (Mat.ofMatrix G) with
  | .ok P => P.den n
  | .error _ => 0

/-- `AᵀGA`; for block-diagonal classes the code computes `AGAᵀ` instead (see C05) -/
def Cls.sandwich (c : Cls) {n : ℕ} (A G : Matrix (Fin n) (Fin n) α) : Matrix (Fin n) (Fin n) α :=
  match c with
  | .block _ => A * G * Aᵀ
  | _ => Aᵀ * G * A

/-- mean of the diagonal -/
def avgTr {n : ℕ} (A : Matrix (Fin n) (Fin n) α) : α := A.trace / n

/-- `‖A‖∞` is `v`: the largest absolute entry -/
def IsMaxAbs [LinearOrder α] {n : ℕ} (A : Matrix (Fin n) (Fin n) α) (v : α) : Prop :=
  (∃ i j, v = |A i j|) ∧ ∀ i j, |A i j| ≤ v

/-- The published update direction of a factor: `½ s (a H + λ b Π(AᵀA) − I)` -/
def updDir (c : Cls) {n : ℕ} (s a b damping : α) (A H : Matrix (Fin n) (Fin n) α) : Matrix (Fin n) (Fin n) α :=
  (1 / 2 * s) • (a • H + (damping * b) • c.proj n (c.sandwich A 1) - 1)

/-- dimension of `K`: input features plus one for a bias -/
def Layer.nK (m : Layer) : ℕ := m.din + if m.bias.isSome then 1 else 0
/-- dimension of `C`: output features -/
def Layer.nC (m : Layer) : ℕ := m.dout

/-- the factor-free part of the scale of the direction: `½ (1 − α₁)` with normalisation, `½` without -/
def dirScale (h : Hyper α) : α := if h.normalize then 1 - h.alpha1 else 1

/-- the direction of `K` in a state -/
def dirK (cl : Cls × Cls) (m : Layer) (h : Hyper α) (u : α) (K HK : Matrix (Fin m.nK) (Fin m.nK) α)
    (C HC : Matrix (Fin m.nC) (Fin m.nC) α) : Matrix (Fin m.nK) (Fin m.nK) α :=
  updDir cl.1 (dirScale h) (if h.kfacLike then 1 else u * avgTr HC)
        (if h.kfacLike then 1 else avgTr (cl.2.sandwich C 1)) h.damping K HK
/-- the direction of `C` in a state -/
def dirC (cl : Cls × Cls) (m : Layer) (h : Hyper α) (u : α) (K HK : Matrix (Fin m.nK) (Fin m.nK) α)
    (C HC : Matrix (Fin m.nC) (Fin m.nC) α) : Matrix (Fin m.nC) (Fin m.nC) α :=
  updDir cl.2 (dirScale h) (if h.kfacLike then u else u * avgTr HK)
        (if h.kfacLike then 1 else avgTr (cl.1.sandwich K 1)) h.damping C HC

/-- matrix of an optional object; a missing one counts as 0 -/
def denO (x : Option (SM α)) (n : ℕ) : Matrix (Fin n) (Fin n) α := (x.map (·.den n)).getD 0

/-- the learning rate a factor with momentum `M` is updated with -/
def IsRate [LinearOrder α] (h : Hyper α) (t : ℕ) {n : ℕ} (M : Matrix (Fin n) (Fin n) α) (b : α) : Prop :=
  if h.normalize then ∃ v, IsMaxAbs M v ∧ b = h.lrCov.at t / max 1 v else b = h.lrCov.at t

/-- A trained layer the theory speaks about: supported, not empty, its structures support the dimensions and have no
hierarchical class strictly inside a recursive template. -/
structure Layer.Good (cl : Cls × Cls) (m : Layer) : Prop where
  sup : m.supported
  posK : 0 < m.nK
  posC : 0 < m.nC
  supK : cl.1.Supports m.nK
  supC : cl.2.Supports m.nC
  regK : cl.1.Regular
  regC : cl.2.Regular

/-- the entries of the factor dictionaries of a layer have the layer's classes and dimensions -/
structure LayerWF [LinearOrder α] (cl : Cls × Cls) (o : Opt α) (m : Layer) : Prop where
  K : ∃ K, o.Ks m.name = some K ∧ WF cl.1 m.nK K
  C : ∃ C, o.Cs m.name = some C ∧ WF cl.2 m.nC C
  mK : ∀ X, o.mKs m.name = some X → WF cl.1 m.nK X
  mC : ∀ X, o.mCs m.name = some X → WF cl.2 m.nC X
  HK : ∀ X, o.HKs m.name = some X → WF cl.1 m.nK X
  HC : ∀ X, o.HCs m.name = some X → WF cl.2 m.nC X

/-- `AAᵀ`; for block-diagonal classes the code computes `AA` instead (see C03) -/
def Cls.gram (c : Cls) {n : ℕ} (A : Matrix (Fin n) (Fin n) α) : Matrix (Fin n) (Fin n) α :=
  match c with
  | .block _ => A * A
  | _ => A * Aᵀ

/-- momentum buffer of a parameter as matrix; a missing one counts as 0 -/
def momO (x : Option (Mat α)) (r c : ℕ) : Matrix (Fin r) (Fin c) α := (x.map (·.M r c)).getD 0

/-- a tensor of shape `r × c` -/
def Mat.OfShape (A : Mat α) (r c : ℕ) : Prop := A.rows = r ∧ A.cols = c

/-- the value (and the momentum buffer, if any) of a parameter have the given shape -/
structure ParamShape [LinearOrder α] (w : World α) (p r c : ℕ) : Prop where
  data : (w.data p).OfShape r c
  mom : ∀ B, w.opt.mom p = some B → B.OfShape r c

/-- What a step with direction `S` does to a parameter: heavy-ball momentum with weight decay. -/
structure ParamSpec [LinearOrder α] (h : Hyper α) (p : ℕ) {r c : ℕ} (S : Matrix (Fin r) (Fin c) α) (w w' : World α) : Prop where
  shape : ParamShape w' p r c
  mom0 : h.momentum = 0 → w'.opt.mom p = w.opt.mom p
  mom1 : h.momentum ≠ 0 → w'.opt.mom p ≠ none ∧
    momO (w'.opt.mom p) r c = h.momentum • momO (w.opt.mom p) r c + (S + h.weightDecay • (w.data p).M r c)
  data : (w'.data p).M r c = (w.data p).M r c -
    h.lr • (h.momentum • momO (w.opt.mom p) r c + (S + h.weightDecay • (w.data p).M r c))

/-- the parameters of a layer have the layer's shapes; weight and bias are different tensors -/
structure LayerShape [LinearOrder α] (w : World α) (m : Layer) : Prop where
  weight : ParamShape w m.weight.ptr m.dout m.din
  bias : ∀ b, m.bias = some b → ParamShape w b.ptr m.dout 1 ∧ b.ptr ≠ m.weight.ptr

/-- the gradients of a layer exist and have the layer's shapes -/
structure LayerGrads [LinearOrder α] (w : World α) (m : Layer) : Prop where
  weight : ∃ G, w.grad m.weight.ptr = some G ∧ G.OfShape m.dout m.din
  bias : ∀ b, m.bias = some b → ∃ G, w.grad b.ptr = some G ∧ G.OfShape m.dout 1

/-- the bias-extended gradient matrix `[G_W, g_b]` of a layer -/
def gradM [LinearOrder α] (w : World α) (m : Layer) : Matrix (Fin m.nC) (Fin m.nK) α := fun i j =>
  if j.1 < m.din then ((w.grad m.weight.ptr).map fun G => G.get i j).getD 0
  else (m.bias.bind fun b => (w.grad b.ptr).map fun G => G.get i 0).getD 0

/-- weight columns of a bias-extended matrix -/
def weightPart {m : Layer} (N : Matrix (Fin m.nC) (Fin m.nK) α) : Matrix (Fin m.dout) (Fin m.din) α :=
  fun i j => N i ⟨j.1, by unfold Layer.nK; omega⟩
/-- bias column of a bias-extended matrix -/
def biasPart {m : Layer} (h : m.bias.isSome) (N : Matrix (Fin m.nC) (Fin m.nK) α) : Matrix (Fin m.dout) (Fin 1) α :=
  fun i _ => N i ⟨m.din, by unfold Layer.nK; simp [h]⟩

/-- the applied direction `C Cᵀ G K Kᵀ / s` -/
def natDir (cl : Cls × Cls) {nC nK : ℕ} (s : α) (G : Matrix (Fin nC) (Fin nK) α) (K : Matrix (Fin nK) (Fin nK) α)
    (C : Matrix (Fin nC) (Fin nC) α) : Matrix (Fin nC) (Fin nK) α := (1 / s) • (cl.2.gram C * G * (cl.1.gram K)ᵀ)

/-- layers are distinguishable by name and share no parameters -/
def Untied : List Layer → Prop := List.Pairwise fun a b => a.name ≠ b.name ∧
  ∀ p, p ∈ a.weight.ptr :: a.bias.toList.map (·.ptr) → p ∉ b.weight.ptr :: b.bias.toList.map (·.ptr)

/-- Well-formed optimizer: layers are untied and good (for the classes `cl` their factors were created with), factors,
statistics and parameters have the right classes and shapes, every layer has a parameter group with `T ≥ 1`. -/
structure World.Sound [LinearOrder α] (cl : String → Cls × Cls) (w : World α) : Prop where
  untied : Untied w.opt.layers
  good : ∀ m ∈ w.opt.layers, m.Good (cl m.name)
  lay : ∀ m ∈ w.opt.layers, LayerWF (cl m.name) w.opt m
  shape : ∀ m ∈ w.opt.layers, LayerShape w m
  hyper : ∀ m ∈ w.opt.layers, ∃ h, w.opt.hyperOf m = .ok h ∧ h.T ≠ 0

/-- what a layer needs for a step: gradients and, on update steps, statistics, and factor momenta if `alpha1 ≠ 0` -/
structure LayerReady [LinearOrder α] (w : World α) (m : Layer) : Prop where
  grads : LayerGrads w m
  stats : ∀ h, w.opt.hyperOf m = .ok h → w.opt.steps % h.T = 0 → w.opt.HKs m.name ≠ none ∧ w.opt.HCs m.name ≠ none ∧
    (h.alpha1 ≠ 0 → w.opt.mKs m.name ≠ none ∧ w.opt.mCs m.name ≠ none)

/-- States an optimizer can be in: constructed over a model with unique module names (any parameter values and gradients),
then any sequence of operations, including failing ones. -/
def Reachable [LinearOrder α] [HasSqrt α] (structs : String → Option Cls) (w : World α) : Prop :=
  ∃ (model : Model) (p : ParamArg α) (a : Args α) (o : Opt α) (ws : List Warn) (data : ℕ → Mat α) (grad : ℕ → Option (Mat α))
    (ops : List (Op α)), (model.layers.map (·.name)).Nodup ∧ Construct.init structs model p a = .ok (o, ws) ∧
    w = run ops ⟨o, data, grad, []⟩

/-! Payloads of forward and backward passes -/

/-- The image is large enough for the kernel, sizes are positive, and the padding is one patch extraction supports (for
`"same"` with the expand approximation: symmetric). -/
structure FitsConv (cfg : ConvCfg) (approx : String) (I1 I2 : ℕ) : Prop where
  groups : 0 < cfg.groups
  k1 : 0 < cfg.kernel.1
  k2 : 0 < cfg.kernel.2
  s1 : 0 < cfg.stride.1
  s2 : 0 < cfg.stride.2
  d1 : 0 < cfg.dilation.1
  d2 : 0 < cfg.dilation.2
  pad : (∃ p, cfg.padding = .ints p ∧ cfg.dilation.1 * (cfg.kernel.1 - 1) < I1 + 2 * p.1 ∧
      cfg.dilation.2 * (cfg.kernel.2 - 1) < I2 + 2 * p.2) ∨
    (cfg.padding = .str "valid" ∧ cfg.dilation.1 * (cfg.kernel.1 - 1) < I1 ∧ cfg.dilation.2 * (cfg.kernel.2 - 1) < I2) ∨
    (cfg.padding = .str "same" ∧ cfg.stride = (1, 1) ∧ 0 < I1 ∧ 0 < I2 ∧
      (approx = "expand" → Even (cfg.dilation.1 * (cfg.kernel.1 - 1)) ∧ Even (cfg.dilation.2 * (cfg.kernel.2 - 1))))

/-- a tensor the layer can be applied to -/
def InputFits (m : Layer) (approx : String) (x : ND α) : Prop := match m.kind with
  | .linear => ∃ b sh, x.shape = b :: (sh ++ [m.din]) ∧ 0 < b * sh.prod
  | .conv2d cfg => ∃ B cin I1 I2, x.shape = [B, cfg.groups * cin, I1, I2] ∧ 0 < B ∧ m.din = cin * cfg.kernel.1 * cfg.kernel.2 ∧
      FitsConv cfg approx I1 I2
  | .other => False

/-- a tensor that can be the gradient of the layer's output -/
def GradFits (m : Layer) (g : ND α) : Prop := match m.kind with
  | .linear => ∃ b sh, g.shape = b :: (sh ++ [m.dout]) ∧ 0 < b * sh.prod
  | .conv2d _ => ∃ B O1 O2, g.shape = [B, m.dout, O1, O2] ∧ 0 < B * O1 * O2
  | .other => False

/-- hyper-parameters that passed the validation of groups -/
structure Hyper.Valid (h : Hyper α) : Prop where
  approx : h.kfacApprox = "expand" ∨ h.kfacApprox = "reduce"
  avg : h.lossAverage = none ∨ h.lossAverage = some "batch" ∨ h.lossAverage = some "batch+sequence"
  period : h.T ≠ 0

/-- `AᵀA` -/
def secMom (A : Mat α) (n : ℕ) : Matrix (Fin n) (Fin n) α := fun i j => ∑ r ∈ Finset.range A.rows, A.get r i * A.get r j

/-- second moment of a processed input (0 if the processing raises); C20 and C55 say what it is -/
def inputMoment [HasSqrt α] (h : Hyper α) (m : Layer) (x : ND α) : Matrix (Fin m.nK) (Fin m.nK) α :=
  match PIO.processInput x m.kind m.bias.isSome h.kfacApprox with
  | .ok a => secMom a m.nK
  | .error _ => 0
/-- second moment of a processed output gradient (0 if the processing raises); C21 says what it is -/
def gradMoment [HasSqrt α] (h : Hyper α) (m : Layer) (g : ND α) : Matrix (Fin m.nC) (Fin m.nC) α :=
  match PIO.processGradOutput g m.kind h.lossAverage h.kfacApprox with
  | .ok a => secMom a m.nC
  | .error _ => 0

/-! Training without misuse -/

/-- Invariant of training without misuse: well-formed (`Sound`) with valid hyper-parameters, positive scales (the previous one
present), hooks with fitting inputs, and factor momenta wherever `alpha1 ≠ 0`. -/
structure World.Live [LinearOrder α] (cl : String → Cls × Cls) (w : World α) : Prop where
  sound : w.Sound cl
  valid : ∀ m ∈ w.opt.layers, ∀ h, w.opt.hyperOf m = .ok h → h.Valid
  hooks : ∀ mx ∈ w.hooks, mx.1 ∈ w.opt.layers ∧ ∀ h, w.opt.hyperOf mx.1 = .ok h → InputFits mx.1 h.kfacApprox mx.2
  prev : ∃ p, w.opt.scales ((w.opt.steps : ℤ) - 1) = some p
  pos : ∀ t s, w.opt.scales t = some s → 0 < s
  mom : ∀ m ∈ w.opt.layers, ∀ h, w.opt.hyperOf m = .ok h → h.alpha1 ≠ 0 → w.opt.mKs m.name ≠ none ∧ w.opt.mCs m.name ≠ none

/-- An operation that fits the state: inputs, output gradients and parameters have the layer's shapes, scales are positive,
hyper-parameters valid (with the same `kfac_approx`, and `alpha1 ≠ 0` only where momenta exist), no closure, and `step` only
when every layer has gradients and, if due, statistics. -/
def FitsOp [LinearOrder α] (w : World α) : Op α → Prop
  | .forward i x _ => ∀ m, w.opt.layers[i]? = some m → ∀ h, w.opt.hyperOf m = .ok h → InputFits m h.kfacApprox x
  | .backward k g => ∀ mx, w.hooks[k]? = some mx → GradFits mx.1 g
  | .setGrad _ _ => True
  | .setParam p M => M.OfShape (w.data p).rows (w.data p).cols
  | .setHyper i h => h.Valid ∧ ∀ m ∈ w.opt.layers, w.opt.ptrGroup m.weight.ptr = some i →
      (∀ h', w.opt.hyperOf m = .ok h' → h.kfacApprox = h'.kfacApprox) ∧
      (h.alpha1 ≠ 0 → w.opt.mKs m.name ≠ none ∧ w.opt.mCs m.name ≠ none)
  | .setScale s => 0 < s
  | .step c attr f => c = false ∧ (∀ s, attr = some s → 0 < s) ∧ (f = false → ∀ m ∈ w.opt.layers, LayerReady w m)

/-- every operation of the history satisfies `P` in the state it meets -/
def Along [LinearOrder α] [HasSqrt α] (P : World α → Op α → Prop) : World α → List (Op α) → Prop
  | _, [] => True
  | w, op :: ops => P w op ∧ Along P (exec op w).2 ops

/-- every operation of the history fits the state it meets -/
abbrev FitsRun [LinearOrder α] [HasSqrt α] : World α → List (Op α) → Prop := Along FitsOp

/-- A model the constructed optimizer can train: its trained layers are not empty, share no parameters, have well-shaped
parameters, and their structures (if registered) support the dimensions. -/
structure Trainable [LinearOrder α] (o : Opt α) (data : ℕ → Mat α) : Prop where
  untied : Untied o.layers
  posK : ∀ m ∈ o.layers, 0 < m.nK
  posC : ∀ m ∈ o.layers, 0 < m.nC
  weight : ∀ m ∈ o.layers, (data m.weight.ptr).OfShape m.dout m.din
  bias : ∀ m ∈ o.layers, ∀ b, m.bias = some b → (data b.ptr).OfShape m.dout 1 ∧ b.ptr ≠ m.weight.ptr
  cls : ∀ m ∈ o.layers, ∀ h cK cC, o.hyperOf m = .ok h → o.structs h.structures.1 = some cK → o.structs h.structures.2 = some cC →
    cK.Supports m.nK ∧ cK.Regular ∧ cC.Supports m.nC ∧ cC.Regular
  T : ∀ m ∈ o.layers, ∀ h, o.hyperOf m = .ok h → h.T ≠ 0
