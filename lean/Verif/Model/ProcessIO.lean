import Verif.Model.StructUtils

/-!
Model of `/repo/singd/optim/utils.py`: how layer inputs and output gradients are turned into matrices.

Tensors of arbitrary rank are a shape and their entries in row-major order (`ND`), so the einops patterns that
only merge neighbouring axes keep the entries and change the shape. Data types are in `Model/Dtype.lean`.
-/

open Finset

/-- tensor of arbitrary rank: `shape` and the entries in row-major order. Positions past `numel` are never
read by a well-shaped operation. -/
structure ND (α : Type) where
  shape : List ℕ
  flat : ℕ → α

/-- a 2d convolution's configuration: `layer.kernel_size`, `layer.stride`, `layer.padding` (a pair of ints or a
string), `layer.dilation`, `layer.groups` (torch stores the first four as pairs). `padding_mode` is not looked
at by the code and hence absent. -/
inductive Padding where
  | ints (p : ℕ × ℕ)
  | str (s : String)
  deriving DecidableEq, Repr

structure ConvCfg where
  kernel : ℕ × ℕ
  stride : ℕ × ℕ
  padding : Padding
  dilation : ℕ × ℕ
  groups : ℕ
  deriving DecidableEq, Repr

/-- what the processing functions look at in a layer (`isinstance` test, hyper-parameters, `bias is not None`) -/
inductive LayerKind where
  | linear
  | conv2d (cfg : ConvCfg)
  | other
  deriving DecidableEq, Repr

namespace PIO
variable {α : Type} [Field α]

/-- number of entries of the axes between the first and the last one, and the last size; `none` if the tensor has
fewer than two axes (einops raises `EinopsError`, a `RuntimeError`) -/
def split3 (shape : List ℕ) : Option (ℕ × ℕ × ℕ) :=
  match shape with
  | [] => none
  | [_] => none
  | b :: c :: rest => some (b, ((c :: rest).dropLast).prod, (c :: rest).getLast (by simp))

/-- `rearrange(x, "b ... d -> (b ...) d")` (`utils.py:196, 337`) -/
def mergeLeading (x : ND α) : Except PyErr (Mat α) :=
  match split3 x.shape with
  | none => .error .runtimeError
  | some (b, s, d) => .ok (Mat.ofFn (b * s) d fun i j => x.flat (i * d + j))

/-- `reduce(x, "b ... d -> b d", "sum")` (`utils.py:340`) -/
def sumMiddle (x : ND α) : Except PyErr (Mat α) :=
  match split3 x.shape with
  | none => .error .runtimeError
  | some (b, s, d) => .ok (Mat.ofFn b d fun i j => ∑ k ∈ range s, x.flat ((i * s + k) * d + j))

/-- `reduce(x, "b ... d -> b d", "mean")` (`utils.py:199`); the mean over an empty axis is `nan` in torch, `0`
here -/
def meanMiddle (x : ND α) : Except PyErr (Mat α) :=
  match split3 x.shape with
  | none => .error .runtimeError
  | some (b, s, d) => .ok (Mat.ofFn b d fun i j => (∑ k ∈ range s, x.flat ((i * s + k) * d + j)) / s)

/-- `cat([x, x.new_ones(x.shape[0], 1)], dim=1)` (`utils.py:173, 202`) -/
def appendOnes (x : Mat α) : Mat α := x.hcat (Mat.ofFn x.rows 1 fun _ _ => 1)

/-- `x / sqrt(x.shape[0])` (`utils.py:175-176, 204-205`) -/
def divSqrtRows [HasSqrt α] (x : Mat α) : Mat α := Mat.ofFn x.rows x.cols fun i j => x.get i j / HasSqrt.sqrt (x.rows : α)

/-- `linear_process_input` (`utils.py:179-205`) -/
def linearProcessInput [HasSqrt α] (x : ND α) (bias : Bool) (kfacApprox : String) : Except PyErr (Mat α) := do
  let x ← if kfacApprox = "expand" then mergeLeading x else meanMiddle x
  let x := if bias then appendOnes x else x
  return divSqrtRows x

/-- entry `(b, c, i, j)` of a 4d tensor of shape `[B, C, I1, I2]` in row-major order -/
def at4 (x : ND α) (C I1 I2 b c i j : ℕ) : α := x.flat (((b * C + c) * I1 + i) * I2 + j)

/-- the shape of a 4d tensor; the einops patterns raise on another rank -/
def shape4 (x : ND α) : Except PyErr (ℕ × ℕ × ℕ × ℕ) :=
  match x.shape with
  | [b, c, i, j] => .ok (b, c, i, j)
  | _ => .error .runtimeError

/-- `get_conv_paddings` of einconv for a string padding (`utils.py:47`; library code, read from its
documentation): `"valid"` pads nothing, `"same"` pads `dilation * (kernel - 1)` in total, the smaller half left,
and is rejected for strides other than 1. `torch.nn.Conv2d` admits no other string. -/
def convPaddings (k s d : ℕ) (padding : String) : Except PyErr (ℕ × ℕ) :=
  if padding = "valid" then .ok (0, 0)
  else if padding = "same" then
    if s ≠ 1 then .error .valueError
    else .ok (d * (k - 1) / 2, d * (k - 1) - d * (k - 1) / 2)
  else .error .valueError

/-- number of output positions along one axis (`torch.nn.Unfold`, `einconv.utils.get_conv_output_size`): torch
raises if there is none; sizes 0 of kernel, stride or dilation are rejected by torch -/
def outSize (i k s d pl pr : ℕ) : Except PyErr ℕ :=
  if k = 0 ∨ s = 0 ∨ d = 0 then .error .runtimeError
  else if i + pl + pr < d * (k - 1) + 1 then .error .runtimeError
  else .ok ((i + pl + pr - d * (k - 1) - 1) / s + 1)

/-- channel groups averaged (`utils.py:53-55, 91-93`): entry `(b, c, i, j)` of the result -/
def groupMean (x : ND α) (C I1 I2 groups cin b c i j : ℕ) : α :=
  (∑ g ∈ range groups, at4 x C I1 I2 b (g * cin + c) i j) / groups

/-- `rearrange(x, "b (g c_in) i1 i2 -> b g c_in i1 i2", g=groups)` requires `groups` to divide the channels -/
def groupChannels (C groups : ℕ) : Except PyErr ℕ :=
  if groups = 0 then .error .zeroDivisionError
  else if C % groups ≠ 0 then .error .runtimeError
  else .ok (C / groups)

/-- one axis of `F.unfold`: the padded input is read at position `o * stride + k * dilation - padding` -/
def padPos (o k s d p : ℕ) : ℕ := o * s + k * d - p
/-- whether that position lies inside the image -/
def padIn (o k s d p i : ℕ) : Prop := p ≤ o * s + k * d ∧ o * s + k * d < p + i
instance (o k s d p i : ℕ) : Decidable (padIn o k s d p i) := by unfold padIn; infer_instance

/-- the padding of `_extract_patches` (`utils.py:44-51`): for strings both sides must agree along each axis -/
def expandPadding (cfg : ConvCfg) : Except PyErr (ℕ × ℕ) :=
  match cfg.padding with
  | .ints p => .ok p
  | .str s => do
    let (l1, r1) ← convPaddings cfg.kernel.1 cfg.stride.1 cfg.dilation.1 s
    if l1 = r1 then
      let (l2, r2) ← convPaddings cfg.kernel.2 cfg.stride.2 cfg.dilation.2 s
      if l2 = r2 then return (l1, l2) else throw .notImplementedError
    else throw .notImplementedError

/-- `_extract_patches` (`utils.py:15-60`): result of shape `[B, O1 * O2, C_in / groups * K1 * K2]`.
`F.unfold` puts entry `(c, k1, k2)` of the patch of location `(o1, o2)` at row `(c * K1 + k1) * K2 + k2`, column
`o1 * O2 + o2`; the final `rearrange` transposes. -/
def extractPatches (x : ND α) (cfg : ConvCfg) : Except PyErr (T3 α) := do
  let pad ← expandPadding cfg
  let (B, C, I1, I2) ← shape4 x
  let cin ← groupChannels C cfg.groups
  let O1 ← outSize I1 cfg.kernel.1 cfg.stride.1 cfg.dilation.1 pad.1 pad.1
  let O2 ← outSize I2 cfg.kernel.2 cfg.stride.2 cfg.dilation.2 pad.2 pad.2
  return T3.ofFn B (O1 * O2) (cin * cfg.kernel.1 * cfg.kernel.2) fun b o p =>
    let c := p / (cfg.kernel.1 * cfg.kernel.2)
    let k1 := p / cfg.kernel.2 % cfg.kernel.1
    let k2 := p % cfg.kernel.2
    if padIn (o / O2) k1 cfg.stride.1 cfg.dilation.1 pad.1 I1 ∧ padIn (o % O2) k2 cfg.stride.2 cfg.dilation.2 pad.2 I2 then
      groupMean x C I1 I2 cfg.groups cin b c (padPos (o / O2) k1 cfg.stride.1 cfg.dilation.1 pad.1)
        (padPos (o % O2) k2 cfg.stride.2 cfg.dilation.2 pad.2)
    else 0

/-- `index_pattern(i, k, stride, padding, dilation)` of einconv (`utils.py:112-114`; library code): entry
`(k, o, i)` is 1 iff kernel position `k` of output `o` touches input `i`; then `reduce(pi, "k o i -> k i", "mean")`
(`utils.py:115`) -/
def meanPattern (s d pl O ki i : ℕ) : α :=
  (∑ o ∈ range O, if i + pl = o * s + ki * d then 1 else 0) / O

/-- `_extract_averaged_patches` (`utils.py:63-119`): shape `[B, C_in / groups * K1 * K2]` -/
def extractAveragedPatches (x : ND α) (cfg : ConvCfg) : Except PyErr (Mat α) := do
  let (B, C, I1, I2) ← shape4 x
  let cin ← groupChannels C cfg.groups
  let (l1, r1) ← match cfg.padding with
    | .ints p => pure (p.1, p.1)
    | .str s => convPaddings cfg.kernel.1 cfg.stride.1 cfg.dilation.1 s
  let O1 ← outSize I1 cfg.kernel.1 cfg.stride.1 cfg.dilation.1 l1 r1
  let (l2, r2) ← match cfg.padding with
    | .ints p => pure (p.2, p.2)
    | .str s => convPaddings cfg.kernel.2 cfg.stride.2 cfg.dilation.2 s
  let O2 ← outSize I2 cfg.kernel.2 cfg.stride.2 cfg.dilation.2 l2 r2
  return Mat.ofFn B (cin * cfg.kernel.1 * cfg.kernel.2) fun b p =>
    let c := p / (cfg.kernel.1 * cfg.kernel.2)
    let k1 := p / cfg.kernel.2 % cfg.kernel.1
    let k2 := p % cfg.kernel.2
    ∑ i1 ∈ range I1, ∑ i2 ∈ range I2, groupMean x C I1 I2 cfg.groups cin b c i1 i2
      * meanPattern cfg.stride.1 cfg.dilation.1 l1 O1 k1 i1
      * meanPattern cfg.stride.2 cfg.dilation.2 l2 O2 k2 i2

/-- `rearrange(x, "b o c -> (b o) c")` (`utils.py:170`) -/
def flattenPatches (x : T3 α) : Mat α := Mat.ofFn (x.d0 * x.d1) x.d2 fun i j => x.get (i / x.d1) (i % x.d1) j

/-- `conv2d_process_input` (`utils.py:147-176`) -/
def convProcessInput [HasSqrt α] (x : ND α) (cfg : ConvCfg) (bias : Bool) (kfacApprox : String) : Except PyErr (Mat α) := do
  let x ← if kfacApprox = "expand" then flattenPatches <$> extractPatches x cfg else extractAveragedPatches x cfg
  let x := if bias then appendOnes x else x
  return divSqrtRows x

/-- `process_input` (`utils.py:122-144`) -/
def processInput [HasSqrt α] (x : ND α) (kind : LayerKind) (bias : Bool) (kfacApprox : String) : Except PyErr (Mat α) :=
  if ¬(kfacApprox = "expand" ∨ kfacApprox = "reduce") then .error .assertionError
  else match kind with
    | .conv2d cfg => convProcessInput x cfg bias kfacApprox
    | .linear => linearProcessInput x bias kfacApprox
    | .other => .error .notImplementedError

/-- `scaling` of the linear layer's gradient (`utils.py:327-333`): 1, or the square root of the number of loss
terms; `g.shape[0]` raises `IndexError` for a scalar -/
def linearScaling [HasSqrt α] (shape : List ℕ) (lossAverage : Option String) : Except PyErr α :=
  match lossAverage with
  | none => .ok 1
  | some avg =>
    match shape with
    | [] => .error .indexError
    | b :: rest => .ok (1 * HasSqrt.sqrt ((if avg = "batch+sequence" then b * rest.dropLast.prod else b : ℕ) : α))

/-- `linear_process_grad_output` (`utils.py:299-342`) -/
def linearProcessGrad [HasSqrt α] (g : ND α) (lossAverage : Option String) (kfacApprox : String) : Except PyErr (Mat α) := do
  let scaling ← linearScaling g.shape lossAverage
  let g ← if kfacApprox = "expand" then mergeLeading g else sumMiddle g
  return g.smul scaling

/-- `scaling` of the convolution's gradient (`utils.py:282-287`) -/
def convScaling [HasSqrt α] (shape : List ℕ) (lossAverage : Option String) : Except PyErr α :=
  match lossAverage with
  | none => .ok 1
  | some avg =>
    match shape with
    | [] => .error .indexError
    | b :: rest => .ok (1 * HasSqrt.sqrt ((if avg = "batch+sequence" then b * (rest.drop 1).prod else b : ℕ) : α))

/-- `rearrange(g, "b c o1 o2 -> (b o1 o2) c")` (`utils.py:291`) -/
def mergeSpatial (g : ND α) : Except PyErr (Mat α) := do
  let (B, C, O1, O2) ← shape4 g
  return Mat.ofFn (B * O1 * O2) C fun r c => at4 g C O1 O2 (r / (O1 * O2)) c (r / O2 % O1) (r % O2)

/-- `reduce(g, "b c o1 o2 -> b c", "sum")` (`utils.py:294`) -/
def sumSpatial (g : ND α) : Except PyErr (Mat α) := do
  let (B, C, O1, O2) ← shape4 g
  return Mat.ofFn B C fun b c => ∑ o1 ∈ range O1, ∑ o2 ∈ range O2, at4 g C O1 O2 b c o1 o2

/-- `conv2d_process_grad_output` (`utils.py:255-296`) -/
def convProcessGrad [HasSqrt α] (g : ND α) (lossAverage : Option String) (kfacApprox : String) : Except PyErr (Mat α) := do
  let scaling ← convScaling g.shape lossAverage
  let g ← if kfacApprox = "expand" then mergeSpatial g else sumSpatial g
  return g.smul scaling

/-- `process_grad_output` (`utils.py:208-252`) -/
def processGradOutput [HasSqrt α] (g : ND α) (kind : LayerKind) (lossAverage : Option String) (kfacApprox : String) :
    Except PyErr (Mat α) :=
  if ¬(lossAverage = none ∨ lossAverage = some "batch" ∨ lossAverage = some "batch+sequence") then .error .assertionError
  else if ¬(kfacApprox = "expand" ∨ kfacApprox = "reduce") then .error .assertionError
  else match kind with
    | .conv2d _ => convProcessGrad g lossAverage kfacApprox
    | .linear => linearProcessGrad g lossAverage kfacApprox
    | .other => .error .notImplementedError
end PIO
