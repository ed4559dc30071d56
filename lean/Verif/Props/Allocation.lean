import Verif.Model.Allocation
import Verif.Props.Storage
import Mathlib.Algebra.BigOperators.Group.Finset.Basic
import Mathlib.Data.List.GetD
import Mathlib.Tactic.Ring
import Mathlib.Tactic.Linarith

/-!
# Memory: what methods allocate and what objects keep alive
-/

/-- the matrices of a recursive template -/
def Cls.isRec : Cls → Bool
  | .topRight .. | .bottomLeft .. => true
  | _ => false

/-- classes all of whose methods avoid dense matrices -/
def Cls.frugal : Cls → Bool
  | .diagonal | .block _ | .hier _ _ => true
  | _ => false

/-- numbers in the parts that `from_dense` copies; the other parts are views -/
def Cls.copied : Cls → ℕ → ℕ
  | .dense, _ => 0
  | .diagonal, n => n
  | .block D, n => n / D * (D * D)
  | .hier m1 m2, n =>
    let k1 := min m1 n
    let k2 := min m2 (n - k1)
    let d := n - k1 - k2
    k1 * (d + k2) + n + k2 * d
  | .tril, n => n
  | .triu, n => n
  | .topRight (.int a) _ ca cc, n | .bottomLeft (.int a) _ ca cc, n => min a n * (n - min a n) + ca.copied (min a n) + cc.copied (n - min a n)
  | .topRight .inf (.int c) ca cc, n | .bottomLeft .inf (.int c) ca cc, n => (n - min c n) * min c n + ca.copied (n - min c n) + cc.copied (min c n)
  | .topRight .inf .inf _ _, _ | .bottomLeft .inf .inf _ _, _ => 0

/-- some part is a view: there is a dense, block-diagonal or hierarchical matrix inside -/
def Cls.pins : Cls → Bool
  | .dense | .block _ | .hier _ _ => true
  | .topRight _ _ ca cc | .bottomLeft _ _ ca cc => ca.pins || cc.pins
  | _ => false

/-- Numbers that an object of a class keeps in memory. Dense and recursive classes make their objects with `from_dense` from a dense matrix, which stays in memory if some part is a view. -/
def Cls.held (c : Cls) (n : ℕ) : ℕ :=
  if c = .dense ∨ c.isRec = true then (if c.pins then n * n else 0) + c.copied n else c.stored n

/-- index tensors and unit blocks made by block-diagonal classes even if the dimension is smaller than a block -/
def Cls.slack : Cls → ℕ
  | .block D => D * D
  | _ => 0

namespace Sto

/-- the storages an object keeps alive -/
def Obj.sts (o : Obj) : Finset ℕ := (o.tensors.map Tn.st).toFinset

/-- numbers in these storages -/
def Obj.held (s : Heap) (o : Obj) : ℕ := ∑ i ∈ o.sts, s.getD i 0

/-- an object of a recursive template -/
def Obj.isNode : Obj → Bool
  | .node .. => true
  | _ => false

/-- an object of class `c` and dimension `n`; its tensors have as many entries as documented -/
structure Obj.Ok (c : Cls) (n : ℕ) (o : Obj) : Prop where
  cls : o.cls = c
  dim : o.dim = n
  kind : o.isNode = c.isRec
  size : (o.tensors.map fun t => t.shape.prod).sum = c.stored n
  one : c = .dense → ∃ d, o = .leaf .dense n [d]

/-- the calls of methods in the optimizer -/
inductive Call where
  | matmul (m : ℕ) | rmatmat (m : ℕ) | product | inner | innerX (m : ℕ) | trace | diagAdd | norm | zeros | eye
  deriving DecidableEq

/-- number of columns of the tensor argument -/
def Call.cols : Call → ℕ
  | .matmul m | .rmatmat m | .innerX m => m
  | _ => 0

/-- execution of the call for the object `o` (of class `c` and dimension `n`), with the argument `p` for a product; the resulting object, if it is one -/
def Call.exec (c : Cls) (n : ℕ) (o p : Obj) : Call → Py Heap (Option Obj)
  | .matmul m => do let _ ← matmulT o m; return none
  | .rmatmat m => do let _ ← Sto.rmatmat o m; return none
  | .product => do return some (← matmulS o p)
  | .inner => do return some (← Sto.inner o)
  | .innerX m => do return some (← Sto.innerX o m)
  | .trace => do averageTrace o; return none
  | .diagAdd => do return some (← Sto.diagAdd o)
  | .norm => do infNorm o; return none
  | .zeros => do return some (← Sto.zeros c n)
  | .eye => do return some (← Sto.eye c n)

/-! ### sequencing -/

theorem bind_ok' {β γ : Type} {x : Py Heap β} {f : β → Py Heap γ} {s s' : Heap} {b : β} (h : x s = (.ok b, s')) : (x >>= f) s = f b s' := Py.bind_ok h

theorem new_run (sh : List ℕ) (s : Heap) : new sh s = (.ok ⟨sh, s.length⟩, s ++ [sh.prod]) := rfl
theorem tmp_run (l : List (List ℕ)) (s : Heap) : tmp l s = (.ok (), s ++ l.map List.prod) := rfl
theorem pure_run' {β : Type} (b : β) (s : Heap) : (pure b : Py Heap β) s = (.ok b, s) := rfl

/-- a method succeeds and allocates the list `l` -/
def Runs {β : Type} (x : Py Heap β) (s : Heap) (b : β) (l : List ℕ) : Prop := x s = (.ok b, s ++ l)

theorem Runs.bind {β γ : Type} {x : Py Heap β} {f : β → Py Heap γ} {s : Heap} {b : β} {c : γ} {l l' : List ℕ} (h : Runs x s b l) (h' : Runs (f b) (s ++ l) c l') :
    Runs (x >>= f) s c (l ++ l') := by
  rw [Runs, bind_ok' h, h', List.append_assoc]

theorem Runs.pure {β : Type} (b : β) (s : Heap) : Runs (Pure.pure b) s b [] := by simp [Runs, pure_run']
theorem Runs.new (sh : List ℕ) (s : Heap) : Runs (new sh) s ⟨sh, s.length⟩ [sh.prod] := rfl
theorem Runs.tmp (l : List (List ℕ)) (s : Heap) : Runs (tmp l) s () (l.map List.prod) := rfl

/-- `to_dense` always succeeds -/
theorem toDense_runs (o : Obj) (s : Heap) : ∃ d l, Runs (toDense o) s d l := by
  induction o generalizing s with
  | leaf c n ts =>
    cases c <;> simp only [toDense] <;>
      first
      | exact ⟨_, _, Runs.pure _ _⟩
      | exact ⟨_, _, Runs.new _ _⟩
      | exact ⟨_, _, (Runs.tmp _ _).bind (Runs.new _ _)⟩
  | node c n A B C ihA ihC =>
    obtain ⟨d, l, h⟩ := ihA s
    obtain ⟨d', l', h'⟩ := ihC (s ++ l)
    exact ⟨_, _, h.bind (h'.bind (Runs.new _ _))⟩

/-- apart from dense matrices, a new dense tensor is made -/
theorem toDense_new {o : Obj} (ho : o.isNode = true) (s : Heap) : ∃ d l, Runs (toDense o) s d l ∧ d.shape.prod = o.dim * o.dim ∧ o.dim * o.dim ∈ l ∧ s.length ≤ d.st ∧ d.st < (s ++ l).length ∧ (s ++ l).getD d.st 0 = o.dim * o.dim := by
  cases o with
  | leaf c n ts => simp [Obj.isNode] at ho
  | node c n A B C =>
    obtain ⟨d, l, h⟩ := toDense_runs A s
    obtain ⟨d', l', h'⟩ := toDense_runs C (s ++ l)
    refine ⟨_, _, h.bind (h'.bind (Runs.new _ _)), by simp [Obj.dim], by simp [Obj.dim], by simp, by simp, ?_⟩
    rw [← List.append_assoc, ← List.append_assoc, List.getD_append_right _ _ _ _ (by simp)]
    simp [Obj.dim]

/-! ### from_dense -/

/-- what `from_dense` makes of a tensor in storage `d` -/
structure Parts (c : Cls) (n : ℕ) (d : ℕ) (s : Heap) (o : Obj) (l : List ℕ) : Prop where
  ok : o.Ok c n
  sts : ∃ F : Finset ℕ, (∀ i ∈ F, s.length ≤ i ∧ i < (s ++ l).length) ∧ o.sts = (if c.pins then {d} else ∅) ∪ F ∧ ∑ i ∈ F, (s ++ l).getD i 0 = c.copied n

theorem copied_rec {n b : ℕ} {x y : MaxDim} (hb : RecBoundary n x y b) (ca cc : Cls) :
    (Cls.topRight x y ca cc).copied n = b * (n - b) + ca.copied b + cc.copied (n - b) ∧
    (Cls.bottomLeft x y ca cc).copied n = b * (n - b) + ca.copied b + cc.copied (n - b) := by
  cases x <;> cases y <;> simp only [RecBoundary] at hb
  · subst hb; exact ⟨rfl, rfl⟩
  · subst hb
    rename_i c
    have : n - (n - min c n) = min c n := by omega
    rw [this]
    exact ⟨rfl, rfl⟩

theorem getD_ext {s l : Heap} {i : ℕ} (h : i < s.length) : (s ++ l).getD i 0 = s.getD i 0 := List.getD_append _ _ _ _ h

theorem sum_ext {s l : Heap} {F : Finset ℕ} (h : ∀ i ∈ F, i < s.length) : ∑ i ∈ F, (s ++ l).getD i 0 = ∑ i ∈ F, s.getD i 0 :=
  Finset.sum_congr rfl fun i hi => getD_ext (h i hi)

theorem blockDims_min (a b n : ℕ) : Hier.blockDims a b n = (min a n, n - min a n - min b (n - min a n), min b (n - min a n)) := by
  unfold Hier.blockDims
  split_ifs <;> simp only [Prod.mk.injEq] <;> omega

theorem blockDims_ex (a b n : ℕ) : ∃ k1 q k2, Hier.blockDims a b n = (k1, q, k2) ∧ k1 = min a n ∧ k2 = min b (n - k1) ∧ q = n - k1 - k2 :=
  ⟨_, _, _, blockDims_min a b n, rfl, rfl, rfl⟩

/-- one new storage -/
theorem sum_one {s l l' : Heap} {k x : ℕ} (hl : l = l' ++ [x]) (hk : k = s.length + l'.length) : ∑ i ∈ ({k} : Finset ℕ), (s ++ l).getD i 0 = x := by
  subst hl hk
  rw [Finset.sum_singleton, ← List.append_assoc, List.getD_append_right _ _ _ _ (by simp)]
  simp

theorem fromDense_node {c ca cc : Cls} {n b d : ℕ} {s l l₂ l₃ : Heap} {A C : Obj} {sh : List ℕ} (hr : c.isRec = true) (hst : c.stored n = b * (n - b) + ca.stored b + cc.stored (n - b))
    (hcp : c.copied n = b * (n - b) + ca.copied b + cc.copied (n - b)) (hp : c.pins = (ca.pins || cc.pins)) (hsh : sh.prod = b * (n - b)) (hd : d < s.length)
    (hA : Parts ca b d s A l) (hC : Parts cc (n - b) d (s ++ (l ++ [sh.prod])) C l₂) :
    Parts c n d s (.node c n A ⟨sh, (s ++ l).length⟩ C) (l ++ [sh.prod] ++ l₂ ++ l₃) := by
  obtain ⟨F, hF, eF, sF⟩ := hA.sts
  obtain ⟨G, hG, eG, sG⟩ := hC.sts
  simp only [List.length_append, List.length_cons, List.length_nil] at hF hG
  refine ⟨⟨rfl, rfl, hr.symm, ?_, fun e => by rw [e] at hr; simp [Cls.isRec] at hr⟩, F ∪ ({(s ++ l).length} ∪ G), ?_, ?_, ?_⟩
  · simp only [Obj.tensors, List.map_cons, List.map_append, List.sum_cons, List.sum_append, hA.ok.size, hC.ok.size, hst, hsh, add_assoc]
  · intro i hi
    simp only [Finset.mem_union, Finset.mem_singleton, List.length_append, List.length_cons, List.length_nil] at hi ⊢
    rcases hi with hi | rfl | hi
    · have := hF i hi; omega
    · omega
    · have := hG i hi; omega
  · have : (Obj.node c n A ⟨sh, (s ++ l).length⟩ C).sts = {(s ++ l).length} ∪ (A.sts ∪ C.sts) := by
      ext i
      simp [Obj.sts, Obj.tensors]
    rw [this, eF, eG, hp]
    ext i
    cases ca.pins <;> cases cc.pins <;> simp <;> tauto
  · have d1 : Disjoint F ({(s ++ l).length} ∪ G) := by
      rw [Finset.disjoint_left]
      intro i h1 h2
      have := hF i h1
      simp only [Finset.mem_union, Finset.mem_singleton, List.length_append] at h2
      rcases h2 with rfl | h2
      · omega
      · have := hG i h2; omega
    have d2 : Disjoint {(s ++ l).length} G := by
      rw [Finset.disjoint_singleton_left]
      intro h
      have := hG _ h
      simp only [List.length_append] at this
      omega
    rw [Finset.sum_union d1, Finset.sum_union d2, hcp]
    have e1 : ∑ i ∈ F, (s ++ (l ++ [sh.prod] ++ l₂ ++ l₃)).getD i 0 = ca.copied b := by
      rw [← sF]
      simp only [← List.append_assoc]
      rw [sum_ext fun i hi => by have := hF i hi; simp; omega, sum_ext fun i hi => by have := hF i hi; simp; omega, sum_ext fun i hi => by have := hF i hi; simp; omega]
    have e2 : ∑ i ∈ {(s ++ l).length}, (s ++ (l ++ [sh.prod] ++ l₂ ++ l₃)).getD i 0 = b * (n - b) := by
      rw [← hsh]
      simp only [← List.append_assoc]
      rw [sum_ext fun i hi => by simp at hi ⊢; omega, sum_ext fun i hi => by simp at hi ⊢; omega, List.append_assoc]
      exact sum_one rfl (by simp)
    have e3 : ∑ i ∈ G, (s ++ (l ++ [sh.prod] ++ l₂ ++ l₃)).getD i 0 = cc.copied (n - b) := by
      rw [← sG]
      simp only [← List.append_assoc]
      rw [sum_ext fun i hi => by have := hG i hi; simp; omega]
    rw [e1, e2, e3]
    omega

theorem fromDense_spec (c : Cls) {n : ℕ} (hn : c.Supports n) (d : Tn) {s : Heap} (hd : d.st < s.length) (hs : d.shape.prod = n * n) :
    ∃ o l, Runs (fromDense c n d) s o l ∧ Parts c n d.st s o l := by
  induction c generalizing n d s with
  | dense =>
    refine ⟨_, _, Runs.pure _ _, ⟨rfl, rfl, rfl, by simp [Obj.tensors, Cls.stored, hs], fun _ => ⟨_, rfl⟩⟩, ∅, by simp, ?_, by simp [Cls.copied]⟩
    simp [Obj.sts, Obj.tensors, Cls.pins]
  | diagonal =>
    refine ⟨_, _, (Runs.new _ _).bind (Runs.pure _ _), ⟨rfl, rfl, rfl, by simp [Obj.tensors, Cls.stored], by simp⟩, {s.length}, by simp, ?_, ?_⟩
    · simp [Obj.sts, Obj.tensors, Cls.pins]
    · simp [Cls.copied]
  | block D =>
    refine ⟨_, _, (Runs.tmp _ _).bind ((Runs.new _ _).bind (Runs.pure _ _)), ⟨rfl, rfl, rfl, ?_, by simp⟩, {s.length + 1}, by simp, ?_, ?_⟩
    · simp [Obj.tensors, Cls.stored, Tn.view]
    · ext i
      simp [Obj.sts, Obj.tensors, Cls.pins, Tn.view]
      tauto
    · simp [Cls.copied]
  | hier a b =>
    obtain ⟨k1, q, k2, h, h1, h2, h3⟩ := blockDims_ex a b n
    have r : Runs (fromDense (.hier a b) n d) s (.leaf (.hier a b) n [d.view [k1, k1], ⟨[k1, q + k2], s.length⟩, ⟨[q], s.length + 1⟩, ⟨[k2, q], s.length + 2⟩, d.view [k2, k2]])
        [k1 * (q + k2), n, k2 * q] := by
      simp only [fromDense, h]
      simp [Runs, Bind.bind, Py.bind, new_run, pure_run', Tn.view]
    refine ⟨_, _, r, ⟨rfl, rfl, rfl, ?_, by simp⟩, {s.length, s.length + 1, s.length + 2}, by simp, ?_, ?_⟩
    · simp [Obj.tensors, Cls.stored, Tn.view, ← h1, ← h2, ← h3]
      ring
    · ext i
      simp [Obj.sts, Obj.tensors, Cls.pins, Tn.view]
      tauto
    · simp [Cls.copied, ← h1, ← h2, ← h3]
      ring
  | tril =>
    refine ⟨_, _, (Runs.tmp _ _).bind ((Runs.new _ _).bind (Runs.pure _ _)), ⟨rfl, rfl, rfl, ?_, by simp⟩, {s.length + 8}, by simp, ?_, ?_⟩
    · simp [Obj.tensors, Cls.stored]
    · simp [Obj.sts, Obj.tensors, Cls.pins]
    · simp [Cls.copied]
  | triu =>
    refine ⟨_, _, (Runs.tmp _ _).bind ((Runs.new _ _).bind (Runs.pure _ _)), ⟨rfl, rfl, rfl, ?_, by simp⟩, {s.length + 8}, by simp, ?_, ?_⟩
    · simp [Obj.tensors, Cls.stored]
    · simp [Obj.sts, Obj.tensors, Cls.pins]
    · simp [Cls.copied]
  | topRight x y ca cc ihA ihC =>
    obtain ⟨b, hb, hA, hC⟩ := hn
    obtain ⟨A, l, rA, pA⟩ := ihA hA (d.view [b, b]) hd (by simp [Tn.view])
    obtain ⟨C, l₂, rC, pC⟩ := ihC hC (s := s ++ (l ++ [([b, n - b] : List ℕ).prod])) (d.view [n - b, n - b]) (by simp [Tn.view]; omega) (by simp [Tn.view])
    obtain ⟨_, l₃, r₃⟩ := toDense_runs A (s ++ (l ++ [([b, n - b] : List ℕ).prod]) ++ l₂)
    obtain ⟨_, l₄, r₄⟩ := toDense_runs C (s ++ (l ++ [([b, n - b] : List ℕ).prod]) ++ l₂ ++ l₃)
    refine ⟨_, l ++ [([b, n - b] : List ℕ).prod] ++ l₂ ++ (l₃ ++ l₄), ?_, fromDense_node rfl (Cls.stored_rec hb ca cc).1 (copied_rec hb ca cc).1 rfl (by simp) hd pA pC⟩
    simp only [fromDense]
    have hl : Runs (Py.lift (getBoundary n x y) : Py Heap ℕ) s b [] := by simp [Runs, Py.lift, getBoundary_eq hb]
    rw [show l ++ [([b, n - b] : List ℕ).prod] ++ l₂ ++ (l₃ ++ l₄) = [] ++ (l ++ ([([b, n - b] : List ℕ).prod] ++ (l₂ ++ (l₃ ++ (l₄ ++ []))))) by simp]
    refine hl.bind ?_
    rw [List.append_nil]
    refine rA.bind ((Runs.new _ _).bind ?_)
    rw [List.append_assoc]
    exact rC.bind (r₃.bind (r₄.bind (Runs.pure _ _)))
  | bottomLeft x y ca cc ihA ihC =>
    obtain ⟨b, hb, hA, hC⟩ := hn
    obtain ⟨A, l, rA, pA⟩ := ihA hA (d.view [b, b]) hd (by simp [Tn.view])
    obtain ⟨C, l₂, rC, pC⟩ := ihC hC (s := s ++ (l ++ [([n - b, b] : List ℕ).prod])) (d.view [n - b, n - b]) (by simp [Tn.view]; omega) (by simp [Tn.view])
    obtain ⟨_, l₃, r₃⟩ := toDense_runs A (s ++ (l ++ [([n - b, b] : List ℕ).prod]) ++ l₂)
    obtain ⟨_, l₄, r₄⟩ := toDense_runs C (s ++ (l ++ [([n - b, b] : List ℕ).prod]) ++ l₂ ++ l₃)
    refine ⟨_, l ++ [([n - b, b] : List ℕ).prod] ++ l₂ ++ (l₃ ++ l₄), ?_, fromDense_node rfl (Cls.stored_rec hb ca cc).2 (copied_rec hb ca cc).2 rfl (by simp [mul_comm]) hd pA pC⟩
    simp only [fromDense]
    have hl : Runs (Py.lift (getBoundary n x y) : Py Heap ℕ) s b [] := by simp [Runs, Py.lift, getBoundary_eq hb]
    rw [show l ++ [([n - b, b] : List ℕ).prod] ++ l₂ ++ (l₃ ++ l₄) = [] ++ (l ++ ([([n - b, b] : List ℕ).prod] ++ (l₂ ++ (l₃ ++ (l₄ ++ []))))) by simp]
    refine hl.bind ?_
    rw [List.append_nil]
    refine rA.bind ((Runs.new _ _).bind ?_)
    rw [List.append_assoc]
    exact rC.bind (r₃.bind (r₄.bind (Runs.pure _ _)))

/-! ### objects made by the methods -/

/-- a new object: all its storages are new -/
structure Made (c : Cls) (n : ℕ) (s : Heap) (o : Obj) (l : List ℕ) : Prop where
  ok : o.Ok c n
  new : ∀ i ∈ o.sts, s.length ≤ i ∧ i < (s ++ l).length
  held : o.held (s ++ l) = c.held n

theorem Made.shift {c : Cls} {n : ℕ} {s : Heap} {o : Obj} {l l' : List ℕ} (h : Made c n (s ++ l') o l) : Made c n s o (l' ++ l) := by
  refine ⟨h.ok, fun i hi => ?_, ?_⟩
  · have := h.new i hi
    simp only [List.length_append] at this ⊢
    omega
  · rw [← List.append_assoc]
    exact h.held

theorem held_of_not_frugal {c : Cls} (hc : c.frugal = false) (n : ℕ) : c.held n = (if c.pins then n * n else 0) + c.copied n := by
  cases c <;> simp_all [Cls.frugal, Cls.held, Cls.isRec, Cls.pins, Cls.copied, Cls.stored]

theorem Parts.held {c : Cls} {n d : ℕ} {s l : Heap} {o : Obj} (h : Parts c n d s o l) (hd : d < s.length) (hs : s.getD d 0 = n * n) (hc : c.frugal = false) :
    o.held (s ++ l) = c.held n := by
  obtain ⟨F, hF, eF, sF⟩ := h.sts
  have : Disjoint (if c.pins then ({d} : Finset ℕ) else ∅) F := by
    rw [Finset.disjoint_left]
    intro i h1 h2
    have := hF i h2
    split_ifs at h1 <;> simp at h1
    omega
  rw [Obj.held, eF, Finset.sum_union this, sF, held_of_not_frugal hc]
  congr 1
  split_ifs
  · rw [Finset.sum_singleton, getD_ext hd, hs]
  · simp

/-- methods of the base class -/
theorem naive_spec {c : Cls} {n : ℕ} (hc : c.frugal = false) (hn : c.Supports n) (s : Heap) : ∃ o l, Runs (naive c n) s o (n * n :: l) ∧ Made c n s o (n * n :: l) := by
  obtain ⟨o, l, r, p⟩ := fromDense_spec c hn (s := s ++ [n * n]) ⟨[n, n], s.length⟩ (by simp) (by simp)
  refine ⟨o, l, ?_, ⟨p.ok, fun i hi => ?_, ?_⟩⟩
  · have h := Runs.new [n, n] s
    simp only [List.prod_cons, List.prod_nil, mul_one] at h
    exact h.bind r
  · obtain ⟨F, hF, eF, -⟩ := p.sts
    rw [eF] at hi
    simp only [List.length_append, List.length_cons, List.length_nil, Finset.mem_union] at hi hF ⊢
    rcases hi with hi | hi
    · split_ifs at hi <;> simp at hi
      omega
    · have := hF i hi
      omega
  · have := p.held (by simp) (by simp) hc
    simpa using this

/-- classes with methods of their own -/
theorem parts_spec {c : Cls} (hc : ¬ (c = .dense ∨ c.isRec = true)) (n : ℕ) (s : Heap) : ∃ o l, Runs (parts c n) s o l ∧ Made c n s o l ∧ l.sum = c.stored n := by
  have hh : c.held n = c.stored n := if_neg hc
  cases c with
  | dense => simp at hc
  | topRight => simp [Cls.isRec] at hc
  | bottomLeft => simp [Cls.isRec] at hc
  | diagonal | tril | triu =>
    refine ⟨_, _, (Runs.new _ _).bind (Runs.pure _ _), ⟨⟨rfl, rfl, rfl, by simp [Obj.tensors, Cls.stored], by simp⟩, by simp [Obj.sts, Obj.tensors], ?_⟩, by simp [Cls.stored]⟩
    rw [hh]
    simp [Obj.held, Obj.sts, Obj.tensors, Cls.stored]
  | block D =>
    refine ⟨_, _, (Runs.new _ _).bind ((Runs.new _ _).bind (Runs.pure _ _)), ⟨⟨rfl, rfl, rfl, by simp [Obj.tensors, Cls.stored], by simp⟩, by simp [Obj.sts, Obj.tensors], ?_⟩, by simp [Cls.stored]⟩
    rw [hh]
    simp [Obj.held, Obj.sts, Obj.tensors, Cls.stored]
  | hier a b =>
    obtain ⟨k1, q, k2, h, h1, h2, h3⟩ := blockDims_ex a b n
    have r : Runs (parts (.hier a b) n) s (.leaf (.hier a b) n [⟨[k1, k1], s.length⟩, ⟨[k1, q + k2], s.length + 1⟩, ⟨[q], s.length + 2⟩, ⟨[k2, q], s.length + 3⟩, ⟨[k2, k2], s.length + 4⟩])
        [k1 * k1, k1 * (q + k2), q, k2 * q, k2 * k2] := by
      simp only [parts, h]
      simp [Runs, Bind.bind, Py.bind, new_run, pure_run']
    have e : k1 * k1 + (k1 * (q + k2) + (q + (k2 * q + k2 * k2))) = (Cls.hier a b).stored n := by
      simp only [Cls.stored, ← h1, ← h2, ← h3]
      ring
    refine ⟨_, _, r, ⟨⟨rfl, rfl, rfl, by simpa [Obj.tensors] using e, by simp⟩, by simp [Obj.sts, Obj.tensors], ?_⟩, by simpa using e⟩
    rw [hh, ← e]
    simp [Obj.held, Obj.sts, Obj.tensors]

theorem Runs.map {β γ : Type} {x : Py Heap β} {s : Heap} {b : β} {l : List ℕ} (h : Runs x s b l) (f : β → γ) : Runs (do return f (← x)) s (f b) l := by
  have := h.bind (f := fun x => Pure.pure (f x)) (Runs.pure (f b) (s ++ l))
  rwa [List.append_nil] at this

theorem Runs.drop {β γ : Type} {x : Py Heap β} {s : Heap} {b : β} {l : List ℕ} (h : Runs x s b l) (c : γ) : Runs (do let _ ← x; return c) s c l := h.map fun _ => c

/-- a leaf -/
theorem Obj.Ok.leaf {c : Cls} {n : ℕ} {o : Obj} (h : o.Ok c n) (hc : c.isRec = false) : ∃ ts, o = .leaf c n ts := by
  cases o with
  | leaf c' n' ts =>
    obtain ⟨rfl, rfl, -, -, -⟩ := h
    exact ⟨ts, rfl⟩
  | node => exact absurd (h.kind.trans hc) (by simp [Obj.isNode])

theorem Obj.Ok.node {c : Cls} {n : ℕ} {o : Obj} (h : o.Ok c n) (hc : c.isRec = true) : ∃ A B C, o = .node c n A B C := by
  cases o with
  | leaf => exact absurd (h.kind.trans hc) (by simp [Obj.isNode])
  | node c' n' A B C =>
    obtain ⟨rfl, rfl, -, -, -⟩ := h
    exact ⟨A, B, C, rfl⟩

theorem norm_runs {c : Cls} {n : ℕ} {o : Obj} (h : o.Ok c n) (s : Heap) : ∃ l, Runs (infNorm o) s () l ∧ l.sum = c.stored n :=
  ⟨_, Runs.tmp _ _, by rw [← h.size]; simp [Function.comp_def]⟩

/-- The methods of block-diagonal classes -/
theorem block_runs {D n : ℕ} (D0 : 0 < D) {o : Obj} (ho : o.Ok (.block D) n) (p : Obj) (k : Call) (s : Heap) :
    ∃ r l, Runs (k.exec (.block D) n o p) s r l ∧ l.sum ≤ 16 * ((Cls.block D).stored n + n * k.cols + D * D) := by
  obtain ⟨ts, e⟩ := ho.leaf rfl
  have hn : n / D * D + n % D = n := by rw [mul_comm]; exact Nat.div_add_mod n D
  generalize eb : n / D = b at hn
  generalize er : n % D = r at hn
  have est : (Cls.block D).stored n = b * (D * D) + r * r := by simp only [Cls.stored, eb, er]
  have i1 : D ≤ D * D := Nat.le_mul_of_pos_left D D0
  have i2 : r ≤ r * r := Nat.le_mul_self r
  have i3 : b * D ≤ b * (D * D) := Nat.mul_le_mul_left b i1
  have z1 : 0 ≤ b * (D * D) := Nat.zero_le _
  have z2 : 0 ≤ r * r := Nat.zero_le _
  have z3 : 0 ≤ D * D := Nat.zero_le _
  have z4 : ∀ m, 0 ≤ n * m := fun m => Nat.zero_le _
  have hmul : ∀ m, ∃ d l, Runs (matmulT o m) s d l ∧ l.sum ≤ b * (D * D) + r * r + 8 * (n * m) := by
    intro m
    have z := z4 m
    subst e
    refine ⟨_, _, (Runs.tmp _ _).bind (Runs.new _ _), ?_⟩
    have j1 : b * (D * m) + r * m = n * m := by rw [← hn]; ring
    simp [eb, er]
    nlinarith
  have hpar := fun s => parts_spec (c := .block D) (by simp [Cls.isRec]) n s
  cases k with
  | matmul m =>
    have z := z4 m
    obtain ⟨d, l, h, hl⟩ := hmul m
    exact ⟨_, _, h.drop none, by simp only [Call.cols]; rw [est]; linarith⟩
  | rmatmat m =>
    have z := z4 m
    obtain ⟨d, l, h, hl⟩ := hmul m
    refine ⟨none, l, ?_, by simp only [Call.cols]; rw [est]; linarith⟩
    subst e
    exact h.drop none
  | product =>
    obtain ⟨q, l, h, -, hl⟩ := hpar s
    subst e
    exact ⟨_, _, h.map some, by rw [hl, est]; have := z4 0; simp [Call.cols]; linarith⟩
  | inner =>
    obtain ⟨q, l, h, -, hl⟩ := hpar s
    subst e
    exact ⟨_, _, h.map some, by rw [hl, est]; have := z4 0; simp [Call.cols]; linarith⟩
  | innerX m =>
    have z := z4 m
    obtain ⟨d, l, h, hl⟩ := hmul m
    obtain ⟨q, l', h', -, hl'⟩ := hpar (s ++ l)
    subst e
    refine ⟨_, _, (Runs.bind (f := fun _ => parts (.block D) n) h h').map some, ?_⟩
    rw [List.sum_append, hl', est, Call.cols]
    linarith
  | trace =>
    subst e
    refine ⟨_, _, (Runs.tmp _ _).drop none, ?_⟩
    rw [est]
    simp [eb, er, Call.cols]
    linarith
  | diagAdd =>
    subst e
    refine ⟨_, _, ((Runs.tmp _ _).drop (Obj.leaf _ n ts)).map some, ?_⟩
    rw [est]
    simp [eb, er, Call.cols]
    linarith
  | norm =>
    obtain ⟨l, h, hl⟩ := norm_runs ho s
    exact ⟨_, _, h.drop none, by rw [hl, est]; simp [Call.cols]; linarith⟩
  | zeros =>
    obtain ⟨q, l, h, -, hl⟩ := hpar s
    exact ⟨_, _, h.map some, by rw [hl, est]; have := z4 0; simp [Call.cols]; linarith⟩
  | eye =>
    obtain ⟨q, l, h, -, hl⟩ := hpar (s ++ [[D, D], [D, D], [n % D, n % D]].map List.prod)
    refine ⟨_, _, ((Runs.tmp _ _).bind h).map some, ?_⟩
    rw [List.sum_append, hl, est]
    simp [er, Call.cols]
    linarith

/-- The methods of the diagonal class -/
theorem diagonal_runs {n : ℕ} {o : Obj} (ho : o.Ok .diagonal n) (p : Obj) (k : Call) (s : Heap) :
    ∃ r l, Runs (k.exec .diagonal n o p) s r l ∧ l.sum ≤ 16 * (Cls.diagonal.stored n + n * k.cols) := by
  obtain ⟨ts, e⟩ := ho.leaf rfl
  have hpar := fun s => parts_spec (c := .diagonal) (by simp [Cls.isRec]) n s
  have est : Cls.diagonal.stored n = n := rfl
  have z4 : ∀ m, 0 ≤ n * m := fun m => Nat.zero_le _
  cases k with
  | matmul m | rmatmat m =>
    have z := z4 m
    subst e
    refine ⟨_, _, (Runs.new _ _).drop none, ?_⟩
    simp [est, Call.cols]
    linarith
  | product | inner =>
    obtain ⟨q, l, h, -, hl⟩ := hpar s
    subst e
    exact ⟨_, _, h.map some, by rw [hl, est]; have := z4 0; simp [Call.cols]; linarith⟩
  | innerX m =>
    have z := z4 m
    obtain ⟨q, l', h', -, hl'⟩ := hpar (s ++ [[n, m], [n]].map List.prod)
    subst e
    refine ⟨_, _, ((Runs.tmp _ _).bind h').map some, ?_⟩
    rw [List.sum_append, hl', est, Call.cols]
    simp
    linarith
  | trace =>
    subst e
    exact ⟨_, _, (Runs.pure _ _).drop none, by simp⟩
  | diagAdd =>
    subst e
    exact ⟨_, _, (Runs.pure _ _).map some, by simp⟩
  | norm =>
    obtain ⟨l, h, hl⟩ := norm_runs ho s
    exact ⟨_, _, h.drop none, by rw [hl, est]; simp [Call.cols]; linarith⟩
  | zeros | eye =>
    obtain ⟨q, l, h, -, hl⟩ := hpar s
    exact ⟨_, _, h.map some, by rw [hl, est]; have := z4 0; simp [Call.cols]; linarith⟩

/-- The methods of hierarchical classes -/
theorem hier_runs {a b n : ℕ} {o : Obj} (ho : o.Ok (.hier a b) n) (p : Obj) (k : Call) (s : Heap) :
    ∃ r l, Runs (k.exec (.hier a b) n o p) s r l ∧ l.sum ≤ 16 * ((Cls.hier a b).stored n + n * k.cols) := by
  obtain ⟨ts, e⟩ := ho.leaf rfl
  obtain ⟨k1, q, k2, h, h1, h2, h3⟩ := blockDims_ex a b n
  have hn : k1 + q + k2 = n := by omega
  have est : (Cls.hier a b).stored n = k1 * k1 + (k1 * q + k1 * k2) + q + k2 * q + k2 * k2 := by
    simp only [Cls.stored, ← h1, ← h2, ← h3]
    ring
  clear h1 h2 h3
  have i1 : k1 ≤ k1 * k1 := Nat.le_mul_self k1
  have i2 : k2 ≤ k2 * k2 := Nat.le_mul_self k2
  have z1 : 0 ≤ k1 * k1 := Nat.zero_le _
  have z2 : 0 ≤ k1 * q := Nat.zero_le _
  have z3 : 0 ≤ k1 * k2 := Nat.zero_le _
  have z5 : 0 ≤ k2 * q := Nat.zero_le _
  have z6 : 0 ≤ k2 * k2 := Nat.zero_le _
  have z4 : ∀ m, 0 ≤ n * m ∧ 0 ≤ k1 * m ∧ 0 ≤ k2 * m ∧ 0 ≤ q * m := fun m => ⟨Nat.zero_le _, Nat.zero_le _, Nat.zero_le _, Nat.zero_le _⟩
  have j : ∀ m, k1 * m + q * m + k2 * m = n * m := fun m => by rw [← hn]; ring
  have hpar := fun s => parts_spec (c := .hier a b) (by simp [Cls.isRec]) n s
  have hr : ∀ m, ∃ d l, Runs (rmatmat o m) s d l ∧ l.sum ≤ q + 8 * (n * m) := by
    intro m
    have z := z4 m
    subst e
    simp only [rmatmat, h]
    refine ⟨_, _, (Runs.tmp _ _).bind (Runs.new _ _), ?_⟩
    have := j m
    simp
    linarith
  cases k with
  | matmul m =>
    have z := z4 m
    have := j m
    subst e
    simp only [Call.exec, matmulT, h]
    refine ⟨_, _, ((Runs.tmp _ _).bind (Runs.new _ _)).drop none, ?_⟩
    simp [est, Call.cols]
    linarith
  | rmatmat m =>
    have z := z4 m
    obtain ⟨d, l, h, hl⟩ := hr m
    exact ⟨_, _, h.drop none, by rw [est, Call.cols]; linarith⟩
  | product =>
    subst e
    simp only [Call.exec, matmulS, h]
    obtain ⟨o', l', h', -, hl'⟩ := hpar (s ++ [[k2, q], [k2, q], [k1, q], [k1, q], [k1, q], [k1, q], [k1, q], [k1, k2], [k1, k2], [k1, k2]].map List.prod)
    refine ⟨_, _, ((Runs.tmp _ _).bind h').map some, ?_⟩
    rw [List.sum_append, hl', est]
    simp [Call.cols]
    linarith
  | inner =>
    subst e
    simp only [Call.exec, inner, h]
    obtain ⟨o', l', h', -, hl'⟩ := hpar (s ++ [[k1, k1], [q], [k1, q], [q], [k2, q], [q], [q], [k2, q], [k2, q], [k2, q], [k2, k2], [k2, k2]].map List.prod)
    refine ⟨_, _, ((Runs.tmp _ _).bind h').map some, ?_⟩
    rw [List.sum_append, hl', est]
    simp [Call.cols]
    linarith
  | innerX m =>
    have z := z4 m
    obtain ⟨d, l, hrr, hl⟩ := hr m
    obtain ⟨o', l', h', -, hl'⟩ := hpar (s ++ l ++ [[k1, q], [k1, k2], [k1, q + k2], [q, m], [k2, m]].map List.prod)
    have := j m
    subst e
    simp only [Call.exec, innerX, h]
    refine ⟨_, _, (hrr.bind ((Runs.tmp _ _).bind h')).map some, ?_⟩
    rw [List.sum_append, List.sum_append, hl', est, Call.cols]
    simp
    linarith
  | trace =>
    subst e
    simp only [Call.exec, averageTrace, h]
    refine ⟨_, _, (Runs.tmp _ _).drop none, ?_⟩
    rw [est]
    simp [Call.cols]
    linarith
  | diagAdd =>
    subst e
    simp only [Call.exec, diagAdd, h]
    refine ⟨_, _, ((Runs.tmp _ _).drop (Obj.leaf _ n ts)).map some, ?_⟩
    rw [est]
    simp [Call.cols]
    linarith
  | norm =>
    obtain ⟨l, h, hl⟩ := norm_runs ho s
    exact ⟨_, _, h.drop none, by rw [hl, est]; simp [Call.cols]; linarith⟩
  | zeros =>
    obtain ⟨q, l, h, -, hl⟩ := hpar s
    exact ⟨_, _, h.map some, by rw [hl, est]; have := z4 0; simp [Call.cols]; linarith⟩
  | eye =>
    simp only [Call.exec, eye, h]
    obtain ⟨o', l', h', -, hl'⟩ := hpar (s ++ [[k1, k1], [k2, k2]].map List.prod)
    refine ⟨_, _, ((Runs.tmp _ _).bind h').map some, ?_⟩
    rw [List.sum_append, hl', est]
    simp [Call.cols]
    linarith

/-- **C88 (methods without dense matrices).** For diagonal, block-diagonal and hierarchical classes, whatever a method called by the optimizer allocates, temporaries included, is at most
16 times the numbers stored in the matrix plus the entries of the tensor argument (plus the size of a block). In particular no `n × n` matrix is ever made. -/
theorem C88_frugal {c : Cls} {n : ℕ} (hc : c.frugal = true) (hn : c.Supports n) {o : Obj} (ho : o.Ok c n) (p : Obj) (k : Call) (s : Heap) :
    ∃ r l, k.exec c n o p s = (.ok r, s ++ l) ∧ l.sum ≤ 16 * (c.stored n + n * k.cols + c.slack) := by
  cases c with
  | diagonal => exact diagonal_runs ho p k s
  | block D => exact block_runs hn ho p k s
  | hier a b => exact hier_runs ho p k s
  | _ => simp [Cls.frugal] at hc

/-- a block-diagonal matrix of dimension 7 with blocks of size 3, in storages 0 and 1 -/
def Sample.block : Obj := .leaf (.block 3) 7 [⟨[2, 3, 3], 0⟩, ⟨[1, 1], 1⟩]

example : (Cls.block 3).frugal = true ∧ (Cls.block 3).Supports 7 ∧ Sample.block.Ok (.block 3) 7 := ⟨rfl, by simp [Cls.Supports], rfl, rfl, rfl, rfl, by simp⟩
/-- Kernel evaluation: `from_inner(X)` for `X` with 2 columns makes storages with these numbers of entries -/
example : (Call.exec (.block 3) 7 Sample.block Sample.block (.innerX 2) [18, 1]).2 = [18, 1] ++ [18, 12, 12, 12, 1, 2, 2, 2, 14, 18, 1] := by decide +kernel

/-! ### dense matrices, and the objects that the methods make -/

theorem toDense_leaf {c : Cls} {n : ℕ} {ts : List Tn} (hc : c.isRec = false) (hd : c ≠ .dense) (s : Heap) : ∃ d l, Runs (toDense (.leaf c n ts)) s d l ∧ n * n ∈ l := by
  cases c <;> first | exact absurd rfl hd | simp [Cls.isRec] at hc | skip
  · exact ⟨_, _, Runs.new _ _, by simp⟩
  · exact ⟨_, _, Runs.new _ _, by simp⟩
  all_goals exact ⟨_, _, (Runs.tmp _ _).bind (Runs.new _ _), by simp⟩

/-- the methods that classes without methods of their own get from the base class -/
theorem node_runs {c : Cls} {n : ℕ} (hc : c.isRec = true) (hn : c.Supports n) {o : Obj} (ho : o.Ok c n) (p : Obj) (k : Call) (s : Heap) :
    ∃ r l, Runs (k.exec c n o p) s r l ∧ (k ≠ .norm → n * n ∈ l) ∧ ∀ q, r = some q → Made c n s q l := by
  obtain ⟨A, B, C, e⟩ := ho.node hc
  have hf : c.frugal = false := by cases c <;> simp_all [Cls.isRec, Cls.frugal]
  obtain ⟨d, l, rd, ds, hd, d1, d2, d3⟩ := toDense_new (ho.kind.trans hc) s
  rw [ho.dim] at ds hd d3
  cases k with
  | matmul m | rmatmat m =>
    subst e
    exact ⟨_, _, (rd.bind (Runs.new _ _)).drop none, fun _ => by simp [hd], by simp⟩
  | product =>
    obtain ⟨_, l', rp⟩ := toDense_runs p (s ++ l)
    obtain ⟨q, l'', r, h⟩ := naive_spec hf hn (s ++ l ++ l')
    subst e
    exact ⟨_, _, (Runs.bind rd (Runs.bind (f := fun _ => naive c n) rp r)).map some, fun _ => by simp [hd], fun q e => by cases e; exact (h.shift).shift⟩
  | inner =>
    obtain ⟨q, l'', r, h⟩ := naive_spec hf hn (s ++ l)
    subst e
    exact ⟨_, _, (Runs.bind (f := fun _ => naive c n) rd r).map some, fun _ => by simp [hd], fun q e => by cases e; exact h.shift⟩
  | innerX m =>
    subst e
    have rm : Runs (rmatmat (.node c n A B C) m) s _ _ := rd.bind (Runs.new _ _)
    obtain ⟨q, l'', r, h⟩ := naive_spec hf hn (s ++ (l ++ [([n, m] : List ℕ).prod]))
    exact ⟨_, _, (Runs.bind (f := fun _ => naive c n) rm r).map some, fun _ => by simp [hd], fun q e => by cases e; exact h.shift⟩
  | trace =>
    subst e
    exact ⟨_, _, (rd.bind (Runs.tmp _ _)).drop none, fun _ => by simp [hd], by simp⟩
  | diagAdd =>
    obtain ⟨q, l', r, pr⟩ := fromDense_spec c hn (s := s ++ l ++ [[n], [n]].map List.prod) d (by simp only [List.length_append] at d2 ⊢; omega) ds
    have hh := pr.held (by simp only [List.length_append] at d2 ⊢; omega) (by rw [getD_ext d2, d3]) hf
    obtain ⟨F, hF, eF, -⟩ := pr.sts
    subst e
    refine ⟨_, _, Runs.map (Runs.bind rd (Runs.bind (f := fun _ => fromDense c n d) (Runs.tmp _ _) r)) some, fun _ => by simp [hd], fun q e => ?_⟩
    cases e
    refine ⟨pr.ok, fun i hi => ?_, by simpa using hh⟩
    rw [eF] at hi
    simp only [List.length_append, Finset.mem_union] at hi hF d2 ⊢
    rcases hi with hi | hi
    · split_ifs at hi <;> simp at hi
      omega
    · have := hF i hi
      omega
  | norm =>
    obtain ⟨l, h, -⟩ := norm_runs ho s
    exact ⟨_, _, h.drop none, by simp, by simp⟩
  | zeros =>
    obtain ⟨q, l'', r, h⟩ := naive_spec hf hn s
    refine ⟨_, _, Runs.map ?_ some, fun _ => List.mem_cons_self, fun q e => by cases e; exact h⟩
    cases c <;> first | exact r | simp [Cls.isRec] at hc
  | eye =>
    obtain ⟨q, l'', r, h⟩ := naive_spec hf hn (s ++ [[n, n]].map List.prod)
    have : Runs (Sto.eye c n) s q ([[n, n]].map List.prod ++ (n * n :: l'')) := by
      cases c <;> first | exact Runs.bind (Runs.tmp _ _) r | simp [Cls.isRec] at hc
    exact ⟨_, _, this.map some, fun _ => by simp, fun q e => by cases e; exact h.shift⟩

/-- methods of classes that are not recursive -/
theorem leaf_runs {c : Cls} {n : ℕ} (hc : c.isRec = false) (hn : c.Supports n) {o : Obj} (ho : o.Ok c n) (p : Obj) (k : Call) (s : Heap) :
    ∃ r l, Runs (k.exec c n o p) s r l ∧ ((k = .inner ∨ ∃ m, k = .innerX m) → c.frugal = false → n * n ∈ l) ∧
      ∀ q, r = some q → (k ≠ .diagAdd → Made c n s q l) ∧ (k = .diagAdd → q = o) := by
  obtain ⟨ts, e⟩ := ho.leaf hc
  have fromParts : ∀ {x : Py Heap Obj} (t : List (List ℕ)), c ≠ .dense → x = (do tmp t; parts c n) → ∃ q l, Runs x s q l ∧ Made c n s q l := by
    rintro x t hd rfl
    obtain ⟨q, l, r, h, -⟩ := parts_spec (c := c) (by simp [hd, hc]) n (s ++ t.map List.prod)
    exact ⟨_, _, (Runs.tmp _ _).bind r, h.shift⟩
  have onlyParts : c ≠ .dense → ∃ q l, Runs (parts c n) s q l ∧ Made c n s q l := by
    intro hd
    obtain ⟨q, l, r, h, -⟩ := parts_spec (c := c) (by simp [hd, hc]) n s
    exact ⟨_, _, r, h⟩
  have fromNaive : ∀ {x : Py Heap Obj} {u : Type} {z : Py Heap u}, c.frugal = false → (∃ b l, Runs z s b l) → x = (do let _ ← z; naive c n) →
      ∃ q l, Runs x s q l ∧ n * n ∈ l ∧ Made c n s q l := by
    rintro x u z hf ⟨b, l, hz⟩ rfl
    obtain ⟨q, l', r, h⟩ := naive_spec hf hn (s ++ l)
    exact ⟨_, _, Runs.bind (f := fun _ => naive c n) hz r, by simp, h.shift⟩
  have rm : ∀ m, ∃ d l, Runs (rmatmat o m) s d l := by
    intro m
    subst e
    cases c with
    | topRight | bottomLeft => simp [Cls.isRec] at hc
    | dense => exact ⟨_, _, (Runs.pure _ _).bind (Runs.new _ _)⟩
    | diagonal => exact ⟨_, _, Runs.new _ _⟩
    | _ => exact ⟨_, _, (Runs.tmp _ _).bind (Runs.new _ _)⟩
  have mm : ∀ m, ∃ d l, Runs (matmulT o m) s d l := by
    intro m
    subst e
    cases c with
    | topRight | bottomLeft => simp [Cls.isRec] at hc
    | dense => exact ⟨_, _, (Runs.pure _ _).bind (Runs.new _ _)⟩
    | diagonal => exact ⟨_, _, Runs.new _ _⟩
    | tril | triu => exact ⟨_, _, (Runs.tmp _ _).bind ((Runs.new _ _).bind (Runs.pure _ _))⟩
    | _ => exact ⟨_, _, (Runs.tmp _ _).bind (Runs.new _ _)⟩
  have wrap : ∀ {x : Py Heap Obj} (P : Prop), k ≠ .diagAdd → (∃ q l, Runs x s q l ∧ Made c n s q l) → (P → False) →
      ∃ r l, Runs (do return some (← x)) s r l ∧ (P → c.frugal = false → n * n ∈ l) ∧ ∀ q, r = some q → (k ≠ .diagAdd → Made c n s q l) ∧ (k = .diagAdd → q = o) := by
    rintro x P hd ⟨q, l, r, h⟩ hP
    exact ⟨_, _, r.map some, fun h => (hP h).elim, fun q e => by cases e; exact ⟨fun _ => h, fun e => absurd e hd⟩⟩
  have wrapN : ∀ {x : Py Heap Obj} (P : Prop), k ≠ .diagAdd → (∃ q l, Runs x s q l ∧ n * n ∈ l ∧ Made c n s q l) →
      ∃ r l, Runs (do return some (← x)) s r l ∧ (P → c.frugal = false → n * n ∈ l) ∧ ∀ q, r = some q → (k ≠ .diagAdd → Made c n s q l) ∧ (k = .diagAdd → q = o) := by
    rintro x P hd ⟨q, l, r, hm, h⟩
    exact ⟨_, _, r.map some, fun _ _ => hm, fun q e => by cases e; exact ⟨fun _ => h, fun e => absurd e hd⟩⟩
  have wrapF : ∀ {x : Py Heap Obj} (P : Prop), k ≠ .diagAdd → (∃ q l, Runs x s q l ∧ Made c n s q l) → c.frugal = true →
      ∃ r l, Runs (do return some (← x)) s r l ∧ (P → c.frugal = false → n * n ∈ l) ∧ ∀ q, r = some q → (k ≠ .diagAdd → Made c n s q l) ∧ (k = .diagAdd → q = o) := by
    rintro x P hd ⟨q, l, r, h⟩ hf
    exact ⟨_, _, r.map some, fun _ h' => by simp [hf] at h', fun q e => by cases e; exact ⟨fun _ => h, fun e => absurd e hd⟩⟩
  cases k with
  | matmul m =>
    obtain ⟨_, _, r⟩ := mm m
    exact ⟨_, _, r.drop none, by simp, by simp⟩
  | rmatmat m =>
    obtain ⟨_, _, r⟩ := rm m
    exact ⟨_, _, r.drop none, by simp, by simp⟩
  | product =>
    subst e
    cases c with
    | topRight | bottomLeft => simp [Cls.isRec] at hc
    | dense =>
      obtain ⟨_, l', rp⟩ := toDense_runs p s
      obtain ⟨q, l'', r, h⟩ := naive_spec (c := .dense) rfl hn (s ++ l')
      exact wrap _ (by simp) ⟨_, _, (Runs.bind (Runs.pure _ _) (Runs.bind (f := fun _ => naive .dense n) (by simpa using rp) (by simpa using r))), by simpa using h.shift⟩ (by simp)
    | diagonal | block => exact wrap _ (by simp) (onlyParts (by simp)) (by simp)
    | hier | tril | triu => exact wrap _ (by simp) (fromParts _ (by simp) rfl) (by simp)
  | inner =>
    cases c with
    | topRight | bottomLeft => simp [Cls.isRec] at hc
    | diagonal | block => subst e; exact wrapF _ (by simp) (onlyParts (by simp)) rfl
    | hier => subst e; exact wrapF _ (by simp) (fromParts _ (by simp) rfl) rfl
    | dense | tril | triu => subst e; exact wrapN _ (by simp) (fromNaive rfl (toDense_runs _ _) rfl)
  | innerX m =>
    cases c with
    | topRight | bottomLeft => simp [Cls.isRec] at hc
    | diagonal => subst e; exact wrapF _ (by simp) (fromParts _ (by simp) rfl) rfl
    | block =>
      obtain ⟨_, l, r⟩ := rm m
      obtain ⟨q, l', r', h, -⟩ := parts_spec (c := .block _) (by simp [Cls.isRec]) n (s ++ l)
      subst e
      exact wrapF _ (by simp) ⟨_, _, Runs.bind (f := fun _ => parts (.block _) n) r r', h.shift⟩ rfl
    | hier a b =>
      obtain ⟨_, l, r⟩ := rm m
      obtain ⟨k1, q, k2, e, -, -, -⟩ := blockDims_ex a b n
      obtain ⟨_, l', r', h, -⟩ := parts_spec (c := .hier a b) (by simp [Cls.isRec]) n (s ++ l ++ [[k1, q], [k1, k2], [k1, q + k2], [q, m], [k2, m]].map List.prod)
      subst o
      refine wrapF _ (by simp) ⟨_, _, ?_, h.shift.shift⟩ rfl
      simp only [Sto.innerX, e]
      exact Runs.bind (f := fun _ => _) r (Runs.bind (f := fun _ => parts (.hier a b) n) (Runs.tmp _ _) r')
    | dense | tril | triu =>
      obtain ⟨_, _, r⟩ := rm m
      subst e
      exact wrapN _ (by simp) (fromNaive rfl ⟨_, _, r⟩ rfl)
  | trace =>
    have : ∃ l, Runs (averageTrace o) s () l := by
      subst e
      cases c with
      | topRight | bottomLeft => simp [Cls.isRec] at hc
      | dense => exact ⟨_, (Runs.pure _ _).bind (Runs.tmp _ _)⟩
      | diagonal | tril | triu => exact ⟨_, Runs.pure _ _⟩
      | block | hier => exact ⟨_, Runs.tmp _ _⟩
    obtain ⟨l, r⟩ := this
    exact ⟨_, _, r.drop none, by simp, by simp⟩
  | diagAdd =>
    have : ∃ l, Runs (Sto.diagAdd o) s o l := by
      cases c with
      | topRight | bottomLeft => simp [Cls.isRec] at hc
      | dense =>
        obtain ⟨d, rfl⟩ := ho.one rfl
        exact ⟨_, (Runs.pure _ _).bind ((Runs.tmp _ _).bind (Runs.pure _ _))⟩
      | diagonal | tril | triu => subst e; exact ⟨_, Runs.pure _ _⟩
      | block | hier => subst e; exact ⟨_, (Runs.tmp _ _).bind (Runs.pure _ _)⟩
    obtain ⟨l, r⟩ := this
    exact ⟨_, _, r.map some, by simp, fun q e => ⟨by simp, fun _ => by cases e; rfl⟩⟩
  | norm =>
    obtain ⟨l, h, -⟩ := norm_runs ho s
    exact ⟨_, _, h.drop none, by simp, by simp⟩
  | zeros =>
    cases c with
    | topRight | bottomLeft => simp [Cls.isRec] at hc
    | dense =>
      obtain ⟨q, l, r, h⟩ := naive_spec (c := .dense) rfl hn s
      exact wrap _ (by simp) ⟨_, _, r, h⟩ (by simp)
    | _ => exact wrap _ (by simp) (onlyParts (by simp)) (by simp)
  | eye =>
    cases c with
    | topRight | bottomLeft => simp [Cls.isRec] at hc
    | dense =>
      obtain ⟨q, l, r, h⟩ := naive_spec (c := .dense) rfl hn (s ++ [[n, n]].map List.prod)
      exact wrap _ (by simp) ⟨_, _, (Runs.tmp _ _).bind r, h.shift⟩ (by simp)
    | block | hier => exact wrap _ (by simp) (fromParts _ (by simp) rfl) (by simp)
    | _ => exact wrap _ (by simp) (onlyParts (by simp)) (by simp)

/-- **C88 (objects, dense matrices).** For every class, supported dimension, object and method called by the optimizer:

* matrices of recursive templates make a dense `n × n` matrix in all methods but the norm,
* dense, Toeplitz and recursive classes make one in `from_inner`,
* the resulting object has only new storages (it shares no memory with any older tensor) and keeps `Cls.held` numbers in memory; only `diag_add_` of classes that are not recursive changes the object
in its own memory. -/
theorem C88_objects {c : Cls} {n : ℕ} (hn : c.Supports n) {o : Obj} (ho : o.Ok c n) (p : Obj) (k : Call) (s : Heap) :
    ∃ r l, k.exec c n o p s = (.ok r, s ++ l) ∧
      (c.isRec = true → k ≠ .norm → n * n ∈ l) ∧
      ((k = .inner ∨ ∃ m, k = .innerX m) → c.frugal = false → n * n ∈ l) ∧
      ∀ q, r = some q → if k = .diagAdd ∧ c.isRec = false then q = o else q.Ok c n ∧ (∀ i ∈ q.sts, s.length ≤ i) ∧ q.held (s ++ l) = c.held n := by
  by_cases hc : c.isRec = true
  · obtain ⟨r, l, h, h1, h2⟩ := node_runs hc hn ho p k s
    refine ⟨r, l, h, fun _ => h1, fun hk _ => h1 ?_, fun q e => ?_⟩
    · rcases hk with rfl | ⟨_, rfl⟩ <;> simp
    · rw [if_neg (by simp [hc])]
      exact ⟨(h2 q e).ok, fun i hi => ((h2 q e).new i hi).1, (h2 q e).held⟩
  · obtain ⟨r, l, h, h1, h2⟩ := leaf_runs (by simpa using hc) hn ho p k s
    refine ⟨r, l, h, fun h => absurd h hc, h1, fun q e => ?_⟩
    split_ifs with h3
    · exact (h2 q e).2 h3.1
    · have m := (h2 q e).1 fun h => h3 ⟨h, by simpa using hc⟩
      exact ⟨m.ok, fun i hi => (m.new i hi).1, m.held⟩

/-- a `TriuBottomRightDiagonalMatrix` of dimension 4 made from a dense matrix in storage 0: the `1 × 1` block `A` keeps it in memory -/
def Sample.tri : Obj := .node (.topRight (.int 1) .inf .dense .diagonal) 4 (.leaf .dense 1 [⟨[1, 1], 0⟩]) ⟨[1, 3], 1⟩ (.leaf .diagonal 3 [⟨[3], 2⟩])

example : (Cls.topRight (.int 1) .inf .dense .diagonal).Supports 4 ∧ Sample.tri.Ok (.topRight (.int 1) .inf .dense .diagonal) 4 ∧ Sample.tri.held [16, 3, 3] = 22 :=
  ⟨⟨1, rfl, trivial, trivial⟩, ⟨rfl, rfl, rfl, rfl, by simp⟩, by decide +kernel⟩

end Sto

/-! ### how much that is -/

/-- parts that are views are parts of one dense matrix -/
theorem Cls.stored_le (c : Cls) {n : ℕ} (hn : c.Supports n) : c.stored n ≤ (if c.pins then n * n else 0) + c.copied n := by
  induction c generalizing n with
  | dense | diagonal | tril | triu => simp [Cls.stored, Cls.pins, Cls.copied]
  | block D =>
    simp only [Cls.stored, Cls.pins, Cls.copied, if_true]
    have := Nat.mul_le_mul (Nat.mod_le n D) (Nat.mod_le n D)
    omega
  | hier a b =>
    simp only [Cls.stored, Cls.pins, Cls.copied, if_true]
    obtain ⟨k1, h1⟩ : ∃ k1, k1 = min a n := ⟨_, rfl⟩
    obtain ⟨k2, h2⟩ : ∃ k2, k2 = min b (n - k1) := ⟨_, rfl⟩
    rw [← h1, ← h2]
    have : k1 * k1 + k2 * k2 ≤ n * n := by
      have : k1 + k2 ≤ n := by omega
      have h := Nat.mul_le_mul this this
      have z : 0 ≤ k1 * k2 := Nat.zero_le _
      nlinarith
    omega
  | topRight x y ca cc ihA ihC | bottomLeft x y ca cc ihA ihC =>
    obtain ⟨b, hb, hA, hC⟩ := hn
    have h1 := ihA hA
    have h2 := ihC hC
    have e := Cls.stored_rec hb ca cc
    have e' := Sto.copied_rec hb ca cc
    obtain ⟨k, rfl⟩ := Nat.exists_eq_add_of_le hb.le
    have sq : (b + k) * (b + k) = b * b + k * k + 2 * (b * k) := by ring
    simp only [Nat.add_sub_cancel_left] at *
    simp only [Cls.pins, e, e', sq]
    clear e e' ihA ihC
    cases pa : ca.pins <;> cases pc : cc.pins <;> simp [pa, pc] at h1 h2 ⊢ <;> omega

/-- **C88 (memory held).** An object never holds less than it stores. Objects of all classes whose parts are not views hold exactly what they store (so do objects of the diagonal,
block-diagonal, hierarchical and Toeplitz classes, and dense ones). A matrix of a recursive template with a dense, block-diagonal or hierarchical matrix somewhere inside keeps a whole dense
matrix in memory besides its other parts. -/
theorem C88_held {c : Cls} {n : ℕ} (hn : c.Supports n) :
    c.stored n ≤ c.held n ∧ (c.isRec = false → c.held n = c.stored n) ∧ (c.pins = false → c.held n = c.stored n) ∧ (c.isRec = true → c.pins = true → c.held n = n * n + c.copied n) := by
  have np : ∀ {c : Cls} {n : ℕ}, c.Supports n → c.pins = false → c.copied n = c.stored n := by
    intro c
    induction c with
    | dense | block | hier => simp [Cls.pins]
    | diagonal | tril | triu => simp [Cls.stored, Cls.copied]
    | topRight x y ca cc ihA ihC | bottomLeft x y ca cc ihA ihC =>
      rintro n ⟨b, hb, hA, hC⟩ hp
      simp only [Cls.pins, Bool.or_eq_false_iff] at hp
      have e := Cls.stored_rec hb ca cc
      have e' := Sto.copied_rec hb ca cc
      first | rw [e.1, e'.1, ihA hA hp.1, ihC hC hp.2] | rw [e.2, e'.2, ihA hA hp.1, ihC hC hp.2]
  have h2 : c.isRec = false → c.held n = c.stored n := by
    intro h
    by_cases h1 : c = .dense
    · subst h1
      simp [Cls.held, Cls.pins, Cls.copied, Cls.stored]
    · simp [Cls.held, h, h1]
  have h3 : c.isRec = true → c.held n = (if c.pins then n * n else 0) + c.copied n := by
    intro h
    simp [Cls.held, h]
  refine ⟨?_, h2, fun hp => ?_, fun h hp => by rw [h3 h, if_pos hp]⟩
  · cases h : c.isRec with
    | true => rw [h3 h]; exact c.stored_le hn
    | false => rw [h2 h]
  · cases h : c.isRec with
    | true => rw [h3 h, hp]; simpa using np hn hp
    | false => exact h2 h

/-- **C88 (no saving).** The four classes of the library built on the recursive templates (`triltopleftdiag.py`, `triutopleftdiag.py`, `trilbottomrightdiag.py`, `triubottomrightdiag.py`) store
`2 n - 1` numbers, but each of their objects keeps `n² + 2 (n - 1)` numbers in memory, more than a dense matrix (`n ≥ 2`). -/
theorem C88_no_saving {c : Cls}
    (hc : c ∈ [.topRight .inf (.int 1) .diagonal .dense, .bottomLeft .inf (.int 1) .diagonal .dense, .topRight (.int 1) .inf .dense .diagonal, .bottomLeft (.int 1) .inf .dense .diagonal])
    {n : ℕ} (hn : 2 ≤ n) : c.Supports n ∧ c.stored n = 2 * n - 1 ∧ c.held n = n * n + 2 * (n - 1) ∧ Cls.dense.held n < c.held n := by
  have h1 : min 1 n = 1 := by omega
  have h2 : n - (n - 1) = 1 := by omega
  simp only [List.mem_cons, List.not_mem_nil, or_false] at hc
  rcases hc with rfl | rfl | rfl | rfl <;>
    simp [Cls.Supports, RecBoundary, Cls.stored, Cls.held, Cls.isRec, Cls.pins, Cls.copied, h1] <;> omega

/-- nested recursive matrices: Toeplitz and diagonal parts are copies, so nothing else is kept; with a hierarchical block of dimension 2 the whole dense matrix is -/
example : (Cls.topRight (.int 4) .inf .tril .diagonal).held 100 = 4 * 96 + 4 + 96 ∧ (Cls.topRight (.int 2) .inf (.hier 1 1) .diagonal).held 100 = 10000 + 2 * 98 + (1 + 2) + 98 := by decide +kernel
