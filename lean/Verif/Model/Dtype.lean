import Verif.Py

/-! Data types (`torch.dtype`) and `lowest_precision`. -/

/-- the floating point data types of torch that occur; `other` stands for any further `torch.dtype` -/
inductive DType where
  | float16
  | bfloat16
  | float32
  | float64
  | other (k : Nat)
  deriving DecidableEq, Repr

/-- the list `supported` (`/repo/singd/structures/utils.py:152`) -/
def supportedDTypes : List DType := [.float16, .bfloat16, .float32]

/-- Python `min` of an iterable of `int`s; raises `ValueError` when it is empty -/
def pyMin : List Nat → Except PyErr Nat
  | [] => .error .valueError
  | x :: xs => .ok (xs.foldl min x)

/-- `lowest_precision` (`/repo/singd/structures/utils.py:140-157`) -/
def lowestPrecision (dtypes : List DType) : Except PyErr DType :=
  if dtypes.any fun d => !supportedDTypes.contains d then .error .notImplementedError
  else do
    let minScore ← pyMin (dtypes.map fun d => supportedDTypes.idxOf d)
    match supportedDTypes[minScore]? with
    | some d => return d
    | none => .error .indexError
