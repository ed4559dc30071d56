/-
Python-level basics: exceptions as values, and the exception/state monad used for methods that mutate an
object. Nothing in here is specific to singd.
-/

/-- Python exception classes raised by the modelled code (messages are not modelled). -/
inductive PyErr where
  | valueError
  | runtimeError
  | typeError
  | notImplementedError
  | keyError
  | attributeError
  | zeroDivisionError
  | assertionError
  | indexError
  deriving DecidableEq, Repr

/-- `Py σ β`: a Python method that may mutate an object of type `σ`, may raise, and returns a `β`.
When it raises, the mutations made so far are kept (second component), as in Python. -/
def Py (σ β : Type _) := σ → Except PyErr β × σ

namespace Py
variable {σ β γ : Type _}

/-- `return b` -/
protected def pure (b : β) : Py σ β := fun s => (.ok b, s)

/-- sequencing; an exception stops the method but keeps the mutated state -/
protected def bind (x : Py σ β) (f : β → Py σ γ) : Py σ γ := fun s =>
  match x s with
  | (.ok b, s') => f b s'
  | (.error e, s') => (.error e, s')

instance : Monad (Py σ) where
  pure := Py.pure
  bind := Py.bind

/-- `raise e` -/
def raise (e : PyErr) : Py σ β := fun s => (.error e, s)

/-- read the object -/
def get : Py σ σ := fun s => (.ok s, s)

/-- mutate the object -/
def modify (f : σ → σ) : Py σ Unit := fun s => (.ok (), f s)

/-- run a pure computation that may raise -/
def lift (x : Except PyErr β) : Py σ β := fun s => (x, s)

theorem pure_run (b : β) (s : σ) : (pure b : Py σ β) s = (.ok b, s) := rfl
theorem bind_run (x : Py σ β) (f : β → Py σ γ) (s : σ) :
    (x >>= f) s = match x s with
      | (.ok b, s') => f b s'
      | (.error e, s') => (.error e, s') := rfl
theorem bind_ok {x : Py σ β} {f : β → Py σ γ} {s s' : σ} {b : β} (h : x s = (.ok b, s')) :
    (x >>= f) s = f b s' := by rw [bind_run, h]
theorem bind_error {x : Py σ β} {f : β → Py σ γ} {s s' : σ} {e : PyErr} (h : x s = (.error e, s')) :
    (x >>= f) s = (.error e, s') := by rw [bind_run, h]
end Py

/-- `for x in xs: f x` for a method `f` -/
def Py.forM {σ β : Type _} (xs : List β) (f : β → Py σ Unit) : Py σ Unit :=
  match xs with
  | [] => pure ()
  | x :: xs => f x >>= fun _ => Py.forM xs f

/-- The result of `.ok` (used to state "succeeds with a result satisfying `P`"). -/
def Except.Succeeds {ε β : Type _} (x : Except ε β) (P : β → Prop) : Prop := ∃ b, x = .ok b ∧ P b
