import Verif.Spec
import Mathlib.Data.Rat.Defs
import Mathlib.Algebra.Field.Rat
import Mathlib.Algebra.Order.Ring.Rat

/-! Concrete objects of every class over `ℚ`, used in the examples that show hypotheses are satisfiable. -/

namespace Sample

deriving instance DecidableEq for Except

/-- entries of a structured result, for display and decidable comparison -/
def lists (x : Except PyErr (SM ℚ)) : Except PyErr (List (List ℚ)) := do return (← x).toDense.toLists
/-- entries of a tensor result -/
def tlists (x : Except PyErr (Mat ℚ)) : Except PyErr (List (List ℚ)) := do return (← x).toLists

def dense : SM ℚ := .dense (.ofLists 3 3 [[1, 2, 0], [0, 3, 1], [5, 0, 1]])
def diag : SM ℚ := .diagonal (.ofList [1, 2, 3])
def block : SM ℚ := .block ⟨2, .ofFn 1 2 2 fun _ i j => if i = 0 ∧ j = 1 then 1 else if i = j then 2 else 0, .ofLists 1 1 [[5]]⟩
def hier : SM ℚ := .hier ⟨1, 1, .ofLists 1 1 [[1]], .ofLists 1 2 [[2, 3]], .ofList [4], .ofLists 1 1 [[5]], .ofLists 1 1 [[6]]⟩
def tril : SM ℚ := .tril (.ofList [1, 2, 3])
def triu : SM ℚ := .triu (.ofList [1, 2, 3])
/-- recursive class nested twice: top-left diagonal entry, bottom-right a recursive class again -/
def nestedCls : Cls := .topRight (.int 1) .inf .diagonal (.bottomLeft .inf (.int 1) .tril .dense)
def nested : SM ℚ := .topRight (.int 1) .inf .diagonal (.bottomLeft .inf (.int 1) .tril .dense)
  (.diagonal (.ofList [2])) (.ofLists 1 2 [[3, 4]])
  (.bottomLeft .inf (.int 1) .tril .dense (.tril (.ofList [5])) (.ofLists 1 1 [[6]]) (.dense (.ofLists 1 1 [[7]])))
/-- a recursive class with a hierarchical block -/
def badCls : Cls := .topRight (.int 1) .inf .dense (.hier 1 0)
def bad : SM ℚ := .topRight (.int 1) .inf .dense (.hier 1 0) (.dense (.ofLists 1 1 [[1]])) (.ofLists 1 2 [[0, 0]])
  (.hier ⟨1, 0, .ofLists 1 1 [[1]], .ofLists 1 1 [[1]], .ofList [1], .zeros 0 1, .zeros 0 0⟩)
def X : Mat ℚ := .ofLists 3 2 [[1, 0], [2, 1], [0, 3]]
/-- a symmetric matrix -/
def S : Mat ℚ := .ofLists 3 3 [[2, 1, 3], [1, 4, 5], [3, 5, 6]]

theorem wf_dense : WF .dense 3 dense := .dense rfl rfl
theorem wf_diag : WF .diagonal 3 diag := .diagonal rfl
theorem wf_block : WF (.block 2) 3 block := .block ⟨by decide, rfl, rfl, rfl, rfl, rfl, rfl⟩
theorem wf_hier : WF (.hier 1 1) 3 hier :=
  .hier (k1 := 1) (d := 1) (k2 := 1) ⟨rfl, rfl, rfl⟩ ⟨rfl, rfl, by decide, by decide, rfl, rfl, rfl, rfl, rfl, rfl, rfl, rfl, rfl⟩
theorem wf_tril : WF .tril 3 tril := .tril (by decide) rfl
theorem wf_triu : WF .triu 3 triu := .triu (by decide) rfl
theorem wf_nested : WF nestedCls 3 nested :=
  .topRight (b := 1) (show 1 = min 1 3 from rfl) (.diagonal rfl) rfl rfl
    (.bottomLeft (b := 1) (show 1 = 2 - min 1 2 from rfl) (.tril (by decide) rfl) rfl rfl (.dense rfl rfl))
theorem wf_bad : WF badCls 3 bad :=
  .topRight (b := 1) (show 1 = min 1 3 from rfl) (.dense rfl rfl) rfl rfl
    (.hier (k1 := 1) (d := 1) (k2 := 0) ⟨rfl, rfl, rfl⟩ ⟨rfl, rfl, by decide, by decide, rfl, rfl, rfl, rfl, rfl, rfl, rfl, rfl, rfl⟩)
theorem regular_nested : nestedCls.Regular := ⟨trivial, trivial, trivial⟩
theorem noHier_nested : nestedCls.NoHier := ⟨trivial, trivial, trivial⟩
end Sample
