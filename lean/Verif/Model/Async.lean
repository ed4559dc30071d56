import Verif.Model.AllReduce
import Verif.Model.Alias

/-!
# `all_reduce(async_op=True)`

`StructuredMatrix.all_reduce` (`base.py:230-264`) executes for each tensor of `named_tensors()`

    tensor = tensor.contiguous()
    handles.append(dist.all_reduce(tensor, op=op, group=group, async_op=True))

and returns the handles. `dist.all_reduce` returns at once; the communication library reads and writes the tensor's memory while the program goes on, until `handle.wait()`
returns. With `async_op=False` every call waits for its own handle before the next one.

Each rank has a memory of its own. The communication library is an adversary: per entry it reads the contribution of every rank at some time after the rank's call, then may use the
memory as a scratch area, and stores the result on every rank some time after all contributions were read. The k-th call of a rank belongs to the k-th call of every other rank.

Simplifications: one process group and one reduction for all calls; communication does not fail; what a rank computes apart from stores to memory is left out; memory
that the program allocates meanwhile is not represented (`Mem.next` counts the copies made by `contiguous()`, which nobody else knows).
-/

namespace As

section
variable {β : Type} [Zero β]

/-- the entries of a 1d tensor -/
def entV (d : Vec β) : List β := (List.range d.len).map d.get
/-- the entries of a 2d tensor, row by row -/
def entM (d : Mat β) : List β := (rowMajor d.rows d.cols).map fun p => d.get p.1 p.2
/-- the entries of a 3d tensor -/
def entT (d : T3 β) : List β := (List.range d.d0).flatMap fun n => (rowMajor d.d1 d.d2).map fun p => d.get n p.1 p.2

/-- The entries of each tensor of a structured matrix, in the order of `named_tensors()` (`base.py:46-90`: the object's own tensors, then those of its blocks). For a matrix of
addresses (`SM ℕ`): the memory of each tensor. -/
def tensors : SM β → List (List β)
  | .dense d => [entM d]
  | .diagonal d => [entV d]
  | .block b => [entT b.blocks, entM b.last]
  | .hier h => [entM h.A, entM h.B, entV h.C, entM h.D, entM h.E]
  | .tril d => [entV d]
  | .triu d => [entV d]
  | .topRight _ _ _ _ A B C => entM B :: (tensors A ++ tensors C)
  | .bottomLeft _ _ _ _ A B C => entM B :: (tensors A ++ tensors C)

end

/-- which of the tensors are contiguous, in the same order -/
def flags : Contig → List Bool
  | .one a => [a]
  | .block a b => [a, b]
  | .hier a b c d e => [a, b, c, d, e]
  | .node A b C => b :: (flags A ++ flags C)

variable {α : Type} [Field α] {R : ℕ}

/-- all ranks and the communication in flight -/
structure State (α : Type) (R : ℕ) where
  /-- the memory of each rank -/
  mem : Fin R → Mem α
  /-- memory handed over in the calls of each rank so far -/
  jobs : Fin R → List (List ℕ)
  /-- the contribution of rank `r` to entry `e` of its `k`-th call, if it was read already -/
  took : Fin R → ℕ → ℕ → Option α
  /-- whether the result of entry `e` of the `k`-th call was stored on rank `r` -/
  gave : Fin R → ℕ → ℕ → Bool
  /-- whether rank `r` has waited for its `k`-th call -/
  waited : Fin R → ℕ → Bool

/-- what can happen -/
inductive Act (α : Type) (R : ℕ) where
  /-- rank `r` calls `dist.all_reduce(tensor.contiguous(), async_op=True)` for the tensor with memory `l` -/
  | call (r : Fin R) (l : List ℕ) (contiguous : Bool)
  /-- the program of rank `r` stores a number -/
  | write (r : Fin R) (a : ℕ) (v : α)
  /-- `handle.wait()` on rank `r` for its `k`-th call -/
  | wait (r : Fin R) (k : ℕ)
  /-- the library reads the contribution of rank `r` to entry `e` of the `k`-th call -/
  | take (r : Fin R) (k e : ℕ)
  /-- the library uses the memory of entry `e` of the `k`-th call on rank `r` for intermediate results -/
  | scratch (r : Fin R) (k e : ℕ) (v : α)
  /-- the library stores the result of entry `e` of the `k`-th call on rank `r` -/
  | give (r : Fin R) (k e : ℕ)

namespace State

/-- the memory of entry `e` of the `k`-th call of rank `r`, if it exists -/
def cell (s : State α R) (r : Fin R) (k e : ℕ) : Option ℕ := (s.jobs r)[k]?.bind (·[e]?)

/-- a number is stored -/
def store (s : State α R) (r : Fin R) (a : ℕ) (v : α) : State α R :=
  { s with mem := fun q => if q = r then { s.mem r with val := fun b => if b = a then v else (s.mem r).val b } else s.mem q }

/-- the sum or mean over ranks of the contributions, if all were read -/
def result (op : ReduceOp) (s : State α R) (k e : ℕ) : Option α :=
  if ∀ q, (s.took q k e).isSome then some (op.factor R * ∑ q, (s.took q k e).getD 0) else none

/-- all entries of the `k`-th call of rank `r` were stored -/
def complete (s : State α R) (r : Fin R) (k : ℕ) : Bool := match (s.jobs r)[k]? with
  | none => false
  | some l => (List.range l.length).all (s.gave r k)

/-- nothing was called yet -/
def start (mem : Fin R → Mem α) : State α R := ⟨mem, fun _ => [], fun _ _ _ => none, fun _ _ _ => false, fun _ _ => false⟩

/-- `tensor.contiguous()`: the memory of the tensor itself, or new memory with the same contents -/
def contiguous (m : Mem α) (l : List ℕ) (c : Bool) : List ℕ × Mem α :=
  if c then (l, m) else
    ((List.range l.length).map (m.next + ·),
      ⟨fun a => if m.next ≤ a ∧ a < m.next + l.length then m.val (l.getD (a - m.next) 0) else m.val a, m.next + l.length⟩)

end State

open State

/-- one event; `none` if it cannot happen now -/
def act (op : ReduceOp) (s : State α R) : Act α R → Option (State α R)
  | .call r l c => some { s with
      mem := fun q => if q = r then (contiguous (s.mem r) l c).2 else s.mem q
      jobs := fun q => if q = r then s.jobs r ++ [(contiguous (s.mem r) l c).1] else s.jobs q }
  | .write r a v => some (s.store r a v)
  | .wait r k => if s.complete r k then some { s with waited := fun q j => if q = r ∧ j = k then true else s.waited q j } else none
  | .take r k e => do
    let a ← s.cell r k e
    if s.took r k e = none then
      some { s with took := fun q j i => if q = r ∧ j = k ∧ i = e then some ((s.mem r).val a) else s.took q j i }
    else none
  | .scratch r k e v => do
    let a ← s.cell r k e
    if s.took r k e ≠ none ∧ s.gave r k e = false then some (s.store r a v) else none
  | .give r k e => do
    let a ← s.cell r k e
    let v ← s.result op k e
    if s.gave r k e = false then
      some { s.store r a v with gave := fun q j i => if q = r ∧ j = k ∧ i = e then true else s.gave q j i }
    else none

/-- events in the given order -/
def exec (op : ReduceOp) : List (Act α R) → State α R → Option (State α R)
  | [], s => some s
  | a :: as, s => (act op s a).bind (exec op as)

/-- the calls of rank `r` -/
def calls (r : Fin R) (as : List (Act α R)) : List (List ℕ × Bool) := as.filterMap fun
  | .call q l c => if q = r then some (l, c) else none
  | _ => none

/-- `all_reduce` of a structured matrix with memory `K` whose tensors are contiguous as in `f` (`base.py:253-262`): what is handed over. The handles returned are those of these
calls, in this order. -/
def allReduceCalls (K : SM ℕ) (f : Contig) : List (List ℕ × Bool) := (tensors K).zip (flags f)

end As
