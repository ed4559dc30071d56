import Verif.Model.Heap

/-! Specification vocabulary for memory. -/

namespace Mem

/-- the positions of an `n × n` tensor whose memory is shared by the result of `from_dense` for class `c`: all for `DenseMatrix`, the last block of a
block-diagonal matrix if `D` does not divide `n`, the corner blocks of a hierarchical matrix, and what the classes of the blocks of a
recursive matrix share -/
def Shared : Cls → ℕ → ℕ → ℕ → Prop
  | .dense, n, i, j => i < n ∧ j < n
  | .diagonal, _, _, _ | .tril, _, _, _ | .triu, _, _, _ => False
  | .block D, n, i, j => (n / D * D ≤ i ∧ i < n) ∧ n / D * D ≤ j ∧ j < n
  | .hier p q, n, i, j => (i < min p n ∧ j < min p n) ∨
      ((n - min q (n - min p n) ≤ i ∧ i < n) ∧ n - min q (n - min p n) ≤ j ∧ j < n)
  | .topRight x y cA cC, n, i, j | .bottomLeft x y cA cC, n, i, j => ∃ b, getBoundary n x y = .ok b ∧
      ((b ≤ n ∧ Shared cA b i j) ∨ (b ≤ i ∧ b ≤ j ∧ Shared cC (n - b) (i - b) (j - b)))

end Mem

variable {α : Type} [Field α] [LinearOrder α] [HasSqrt α]

namespace HWorld
open Mem

/-- No two places share memory, and no tensor overlaps itself. `p.data` always exists and is a plain tensor, momentum buffers
are plain tensors. -/
structure Owned (hw : HWorld α) : Prop where
  nodup : ∀ s r, hw.ref s = some r → (loc r).Nodup
  lt : ∀ s r, hw.ref s = some r → ∀ a ∈ loc r, a < hw.mem.next
  sep : ∀ s s' r r', s ≠ s' → hw.ref s = some r → hw.ref s' = some r' → ∀ a ∈ loc r, a ∉ loc r'
  data : ∀ p, ∃ d, hw.ref (.data p) = some (.dense d)
  mom : ∀ p r, hw.ref (.mom p) = some r → ∃ d, r = .dense d

end HWorld
