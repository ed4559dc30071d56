import Verif.Model.ProcessIO
import Mathlib.Algebra.BigOperators.Group.List.Basic

/-! Specification vocabulary for processed inputs and gradients: tensor entries by multi-index, sums over all
positions, a textbook 2d convolution. Independent of how the code flattens and scales. -/

open Finset

namespace IOSpec
variable {α : Type} [Field α]

/-- all multi-indices of a tensor of the given shape, last axis fastest -/
def multiIdx : List ℕ → List (List ℕ)
  | [] => [[]]
  | n :: ns => (List.range n).flatMap fun i => (multiIdx ns).map fun is => i :: is

/-- position of a multi-index in row-major order -/
def ravel : List ℕ → List ℕ → ℕ
  | _ :: ns, i :: is => i * ns.prod + ravel ns is
  | _, _ => 0

/-- entry of a tensor at a multi-index -/
def entry (x : ND α) (idx : List ℕ) : α := x.flat (ravel x.shape idx)

/-- sum over all multi-indices of a shape -/
def sumIdx (sh : List ℕ) (f : List ℕ → α) : α := ((multiIdx sh).map f).sum

/-- vector `f` of length `d`, extended by a one if the layer has a bias -/
def withBias (bias : Bool) (d : ℕ) (f : ℕ → α) (p : ℕ) : α := if p < d then f p else if bias = true ∧ p = d then 1 else 0

/-- number of terms the loss is averaged over, for a batch of size `b` and `s` shared positions -/
def numTerms (lossAverage : Option String) (b s : ℕ) : ℕ :=
  if lossAverage = some "batch" then b else if lossAverage = some "batch+sequence" then b * s else 1

/-- zero-padded image: channel `c` of sample `b` at the (possibly outside) position `(i, j)` -/
def padded (x : ND α) (I1 I2 b c : ℕ) (i j : ℤ) : α :=
  if 0 ≤ i ∧ i < I1 ∧ 0 ≤ j ∧ j < I2 then entry x [b, c, i.toNat, j.toNat] else 0

/-- a 2d convolution (stride `s`, left padding `p`, dilation `d`, one group) of `x` of shape `[B, C, I1, I2]` with the
kernel `w` of shape `[C_out, C, K1, K2]`: output channel `co` of sample `b` at `(o1, o2)`, without bias -/
def conv (x w : ND α) (C I1 I2 K1 K2 : ℕ) (s p d : ℕ × ℕ) (b co o1 o2 : ℕ) : α :=
  ∑ c ∈ range C, ∑ k1 ∈ range K1, ∑ k2 ∈ range K2, entry w [co, c, k1, k2] *
    padded x I1 I2 b c ((o1 * s.1 + k1 * d.1 : ℕ) - (p.1 : ℕ)) ((o2 * s.2 + k2 * d.2 : ℕ) - (p.2 : ℕ))

/-- `torch.nn.Conv2d`'s `padding_mode` -/
inductive PadMode where
  | zeros
  | circular
  | reflect
  | replicate
  deriving DecidableEq, Repr

/-- the position along an axis of size `I` whose value a padded image shows at position `i` (`torch.nn.functional.pad`); nothing for a
padded zero -/
def PadMode.src (I : ℕ) (i : ℤ) : PadMode → Option ℕ
  | .zeros => if 0 ≤ i ∧ i < I then some i.toNat else none
  | .circular => some (i % (I : ℤ)).toNat
  | .reflect => some (if i < 0 then -i else if i < I then i else 2 * ((I : ℤ) - 1) - i).toNat
  | .replicate => some (if i < 0 then 0 else if i < I then i else (I : ℤ) - 1).toNat

/-- an image padded in the given mode -/
def paddedMode (mode : PadMode) (x : ND α) (I1 I2 b c : ℕ) (i j : ℤ) : α :=
  match mode.src I1 i, mode.src I2 j with
  | some i, some j => entry x [b, c, i, j]
  | _, _ => 0

/-- a 2d convolution whose input is padded in the given mode, see `conv` -/
def convMode (mode : PadMode) (x w : ND α) (C I1 I2 K1 K2 : ℕ) (s p d : ℕ × ℕ) (b co o1 o2 : ℕ) : α :=
  ∑ c ∈ range C, ∑ k1 ∈ range K1, ∑ k2 ∈ range K2, entry w [co, c, k1, k2] *
    paddedMode mode x I1 I2 b c ((o1 * s.1 + k1 * d.1 : ℕ) - (p.1 : ℕ)) ((o2 * s.2 + k2 * d.2 : ℕ) - (p.2 : ℕ))
end IOSpec

