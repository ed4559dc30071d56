import Verif.SpecOpt
import Verif.Props.Samples

/-! A concrete optimizer over `ℚ`, used in the examples that show hypotheses are satisfiable, and in counterexamples. -/

namespace Sample

/-- square root for running examples: exact on squares of rationals, which is all the examples use -/
instance : HasSqrt ℚ where
  sqrt q := ((((List.range (q.num.toNat + 1)).find? fun k => q.num.toNat ≤ k * k).getD 0 : ℕ) : ℚ) /
    ((((List.range (q.den + 1)).find? fun k => q.den ≤ k * k).getD 1 : ℕ) : ℚ)

example : HasSqrt.sqrt (4 / 9 : ℚ) = 2 / 3 := by decide +kernel

/-- linear layer `1 → 1` with bias -/
def la : Layer := ⟨"a", true, .linear, ⟨0, true⟩, some ⟨1, true⟩, 1, 1, []⟩
/-- linear layer `2 → 1` without bias -/
def lb : Layer := ⟨"b", true, .linear, ⟨2, true⟩, none, 1, 2, []⟩
/-- a model with two layers and a container -/
def model : Model := ⟨false, [⟨"", false, .other, ⟨9, true⟩, none, 0, 0, [⟨0, true⟩, ⟨1, true⟩, ⟨2, true⟩]⟩, la, lb]⟩

/-- default arguments, but `T = 2`, `lr = 1/2`, `damping = 1` and Riemannian momentum -/
def args : Args ℚ where
  lr := .float (1 / 2)
  momentum := .float (1 / 2)
  damping := .float 1
  alpha1 := .float (1 / 2)
  weightDecay := .float 0
  T := 2
  lossAverage := some "batch"
  lrCov := .num (.float (1 / 10))
  structures := ("dense", "diagonal")
  kfacApprox := "expand"
  warnUnsupported := true
  kfacLike := false
  initGradScale := 1
  normalize := false

/-- the optimizer built from the arguments (a dummy if the construction fails) -/
def opt (m : Model) (p : ParamArg ℚ) (a : Args ℚ) : Opt ℚ :=
  match Construct.init supportedStructures m p a with
  | .ok r => r.1
  | .error _ => Construct.blank supportedStructures [] [] 1
/-- parameters: ones of the right shapes -/
def world (m : Model) (p : ParamArg ℚ) (a : Args ℚ) : World ℚ where
  opt := opt m p a
  data := fun p => if p = 2 then .ofLists 1 2 [[1, 1]] else .ofLists 1 1 [[1]]
  grad := fun p => some (if p = 2 then .ofLists 1 2 [[1, 2]] else .ofLists 1 1 [[3]])
  hooks := []

/-- an input or output gradient with one row -/
def row (l : List ℚ) : ND ℚ := ⟨[1, l.length], fun i => l.getD i 0⟩

/-- forward and backward through both layers -/
def pass : List (Op ℚ) := [.forward 0 (row [2]) true, .forward 1 (row [1, 3]) true, .backward 1 (row [1]), .backward 0 (row [2])]

def w0 : World ℚ := world model .default args
/-- after one forward-backward pass -/
def w1 : World ℚ := run pass w0
/-- after the first step -/
def w2 : World ℚ := run [.step false none false] w1

/-- construction succeeds? -/
def isOk {β : Type} (x : Except PyErr β) : Bool := match x with
  | .ok _ => true
  | .error _ => false
/-- display of a factor -/
def fac (x : Option (SM ℚ)) : Option (List (List ℚ)) := x.map (·.toDense.toLists)

theorem init_eq {m : Model} {p : ParamArg ℚ} {a : Args ℚ} (h : isOk (Construct.init supportedStructures m p a) = true) :
    ∃ ws, Construct.init supportedStructures m p a = .ok (opt m p a, ws) := by
  unfold opt
  rcases hx : Construct.init supportedStructures m p a with e | r
  · rw [hx] at h; simp [isOk] at h
  · exact ⟨r.2, rfl⟩

theorem reachable {m : Model} {p : ParamArg ℚ} {a : Args ℚ} (h : isOk (Construct.init supportedStructures m p a) = true)
    (hn : (m.layers.map (·.name)).Nodup) (ops : List (Op ℚ)) : Reachable supportedStructures (run ops (world m p a)) := by
  obtain ⟨ws, e⟩ := init_eq h
  exact ⟨m, p, a, opt m p a, ws, _, _, ops, hn, e, rfl⟩

example : fac (w1.opt.HKs "a") = some [[4, 2], [2, 1]] ∧ fac (w1.opt.HCs "a") = some [[4]] := by decide +kernel
example : w2.opt.steps = 1 ∧ (w2.data 0).toLists = [[43 / 40]] := by decide +kernel

end Sample
