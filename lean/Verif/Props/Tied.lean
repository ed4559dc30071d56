import Verif.Proofs.Opt.Tied
import Verif.Proofs.Opt.InitLive
import Verif.Props.OptSamples

/-!
C59: how often a step updates a parameter.

`_step` loops over layers, not over parameters (`optimizer.py:783-814`). A parameter used by several layers (tied weights) is
updated by each of them, every time along the direction computed from the full gradient.
-/

set_option linter.unusedSectionVars false
open Matrix
variable {α : Type} [Field α] [LinearOrder α] [IsStrictOrderedRing α] [LawfulSqrt α]

/-- **C59 (construction).** An optimizer constructed over a model whose layers have different names is well-formed, whether or not layers
share parameters. -/
theorem C59_constructed {structs : String → Option Cls} {model : Model} {p : ParamArg α} {a : Args α} {o : Opt α} {ws : List Warn}
    (hn : (model.layers.map (·.name)).Nodup) (hi : Construct.init structs model p a = .ok (o, ws)) {data : ℕ → Mat α} (grad : ℕ → Option (Mat α))
    (posK : ∀ m ∈ o.layers, 0 < m.nK) (posC : ∀ m ∈ o.layers, 0 < m.nC)
    (hw : ∀ m ∈ o.layers, (data m.weight.ptr).OfShape m.dout m.din)
    (hb : ∀ m ∈ o.layers, ∀ b, m.bias = some b → (data b.ptr).OfShape m.dout 1 ∧ b.ptr ≠ m.weight.ptr)
    (hc : ∀ m ∈ o.layers, ∀ h cK cC, o.hyperOf m = .ok h → o.structs h.structures.1 = some cK → o.structs h.structures.2 = some cC →
      cK.Supports m.nK ∧ cK.Regular ∧ cC.Supports m.nC ∧ cC.Regular)
    (hT : ∀ m ∈ o.layers, ∀ h, o.hyperOf m = .ok h → h.T ≠ 0) : ∃ cl : String → Cls × Cls, World.Loose cl ⟨o, data, grad, []⟩ := by
  classical
  have I := Construct.init_ok hn hi
  have names : o.layers.Pairwise fun a b => a.name ≠ b.name := by
    rw [I.layers]
    have : model.layers.Pairwise fun a b => a.name ≠ b.name := List.pairwise_map.1 hn
    exact this.sublist (by unfold Construct.hooked; exact List.filter_sublist)
  have inj : ∀ m ∈ o.layers, ∀ m' ∈ o.layers, m.name = m'.name → m = m' := by
    intro m hm m' hm' e
    by_contra hne
    rcases List.pairwise_iff_getElem.1 names with h
    obtain ⟨i, hi, rfl⟩ := List.getElem_of_mem hm
    obtain ⟨j, hj, rfl⟩ := List.getElem_of_mem hm'
    rcases lt_trichotomy i j with hij | rfl | hij
    · exact h i j hi hj hij e
    · exact hne rfl
    · exact h j i hj hi hij e.symm
  have key : ∀ n : String, ∃ c : Cls × Cls, ∀ m ∈ o.layers, m.name = n → ∃ hy, o.hyperOf m = .ok hy ∧
      o.structs hy.structures.1 = some c.1 ∧ o.structs hy.structures.2 = some c.2 := by
    intro n
    by_cases hn : ∃ m ∈ o.layers, m.name = n
    · obtain ⟨m, hm, rfl⟩ := hn
      obtain ⟨hy, cK, cC, K, C, e1, e2, e3, _⟩ := (I.lay m hm).ex
      refine ⟨(cK, cC), fun m' hm' e => ?_⟩
      obtain rfl := inj m' hm' m hm e
      exact ⟨hy, e1, e2, e3⟩
    · exact ⟨(.dense, .dense), fun m hm e => absurd ⟨m, hm, e⟩ hn⟩
  choose cl hcl using key
  refine ⟨cl, names, ?_, ?_, ?_, ?_⟩
  · intro m hm
    obtain ⟨hy, e1, e2, e3⟩ := hcl m.name m hm rfl
    obtain ⟨a1, a2, a3, a4⟩ := hc m hm hy _ _ e1 e2 e3
    exact ⟨(I.lay m hm).sup, posK m hm, posC m hm, a1, a3, a2, a4⟩
  · intro m hm
    obtain ⟨hy, e1, e2, e3⟩ := hcl m.name m hm rfl
    obtain ⟨a1, a2, a3, a4⟩ := hc m hm hy _ _ e1 e2 e3
    exact I.layerWF hm e1 e2 e3 a1 a3
  · intro m hm
    exact ⟨⟨hw m hm, by simp [I.mom]⟩, fun b hb' => ⟨⟨(hb m hm b hb').1, by simp [I.mom]⟩, (hb m hm b hb').2⟩⟩
  · intro m hm
    obtain ⟨hy, e1, _⟩ := hcl m.name m hm rfl
    exact ⟨hy, e1, hT m hm hy e1⟩

/-- **C59 (exact).** A step on a model whose layers may share parameters succeeds (if every layer is ready) and does to every entry of every
parameter one full update (momentum and weight decay included) per layer that uses the parameter, in the order of the layers, along the
layer's own preconditioned full gradient. -/
theorem C59_updates_per_layer {cl : String → Cls × Cls} {w : World α} {attr : Option α} {s p : α} (hw : w.Loose cl)
    (hr : ∀ m ∈ w.opt.layers, LayerReady w m) (hp : w.opt.scales ((w.opt.steps : ℤ) - 1) = some p)
    (hs : (w.opt.scales w.opt.steps).getD (attr.getD 1) = s) (hs0 : s ≠ 0) :
    ∃ w', exec (.step false attr false) w = (.ok (), w') ∧ w'.Loose cl ∧
      ∀ q r c, ParamShape w q r c → ∀ i j, i < r → j < c → w'.entry q i j = World.chain cl s w w' q i j w.opt.layers (w.entry q i j) := by
  obtain ⟨w', e, l, _, h⟩ := World.step_tied hw hr hp hs hs0
  exact ⟨w', e, l, h⟩

theorem World.chain_plain {cl : String → Cls × Cls} {s : α} {w w' : World α} {q i j : ℕ} : ∀ (ms : List Layer) (x : α × α),
    (∀ m ∈ ms, m.uses q = true → ∃ h, w.opt.hyperOf m = .ok h ∧ h.momentum = 0 ∧ h.weightDecay = 0) →
    World.chain cl s w w' q i j ms x = (x.1 - ((ms.filter (·.uses q)).map fun m => (match w.opt.hyperOf m with
      | .ok h => h.lr
      | .error _ => 0) * dirEntry m (stepDir cl s w w' m) q i j).sum, x.2)
  | [], x, _ => by simp [World.chain]
  | m :: ms, x, h => by
    by_cases hm : m.uses q = true
    · obtain ⟨hy, e, h0, h1⟩ := h m (by simp) hm
      have := World.chain_plain (cl := cl) (s := s) (w := w) (w' := w') (q := q) (i := i) (j := j) ms
        (sgdEntry hy (dirEntry m (stepDir cl s w w' m) q i j) x) (fun m' hm' => h m' (by simp [hm']))
      rw [World.chain, List.filter_cons_of_pos (p := fun x : Layer => x.uses q) hm, List.foldl_cons, e]
      simp only
      rw [World.chain] at this
      rw [this, List.map_cons, List.sum_cons, e]
      simp only [sgdEntry, h0, h1, if_true, zero_mul, zero_add, add_zero]
      rw [sub_sub]
    · have := World.chain_plain (cl := cl) (s := s) (w := w) (w' := w') (q := q) (i := i) (j := j) ms x (fun m' hm' => h m' (by simp [hm']))
      rw [World.chain] at this ⊢
      rw [List.filter_cons_of_neg (p := fun x : Layer => x.uses q) hm, this]

/-- **C59 (sum).** Without momentum and weight decay, a parameter moves by the sum over all layers that use it of learning rate times
preconditioned full gradient. -/
theorem C59_sum {cl : String → Cls × Cls} {w : World α} {attr : Option α} {s p : α} (hw : w.Loose cl)
    (hr : ∀ m ∈ w.opt.layers, LayerReady w m) (hp : w.opt.scales ((w.opt.steps : ℤ) - 1) = some p)
    (hs : (w.opt.scales w.opt.steps).getD (attr.getD 1) = s) (hs0 : s ≠ 0) {q r c : ℕ} (hq : ParamShape w q r c)
    (hplain : ∀ m ∈ w.opt.layers, m.uses q = true → ∃ h, w.opt.hyperOf m = .ok h ∧ h.momentum = 0 ∧ h.weightDecay = 0) :
    ∃ w', exec (.step false attr false) w = (.ok (), w') ∧ ∀ i j, i < r → j < c →
      (w'.data q).get i j = (w.data q).get i j - ((w.opt.layers.filter (·.uses q)).map fun m => (match w.opt.hyperOf m with
        | .ok h => h.lr
        | .error _ => 0) * dirEntry m (stepDir cl s w w' m) q i j).sum := by
  obtain ⟨w', e, _, h⟩ := C59_updates_per_layer hw hr hp hs hs0
  refine ⟨w', e, fun i j hi hj => ?_⟩
  have := h q r c hq i j hi hj
  rw [World.chain_plain _ _ hplain] at this
  exact congrArg Prod.fst this

namespace Sample

/-- two linear layers `1 → 1` with one weight -/
def ta : Layer := ⟨"a", true, .linear, ⟨0, true⟩, none, 1, 1, []⟩
def tb : Layer := ⟨"b", true, .linear, ⟨0, true⟩, none, 1, 1, []⟩
def tied : Model := ⟨false, [ta, tb]⟩
/-- no momentum, the factors stay the identity -/
def targs : Args ℚ := { args with momentum := .float 0, alpha1 := .float 0, lrCov := .num (.float 0) }

def tpass : List (Op ℚ) := [.forward 0 (row [2]) true, .forward 1 (row [1]) true, .backward 1 (row [1]), .backward 0 (row [2])]
def wt : World ℚ := run tpass (world tied .default targs)

/-- state between two updates of the factors, ready for a step -/
noncomputable def wtR : World ℝ where
  opt := { structs := supportedStructures, layers := [ta, tb], ptrGroup := fun _ => some 0,
           groups := [⟨[0], ⟨1 / 2, 0, 1, 0, 0, 2, some "batch", .const 0, ("dense", "dense"), "expand", false, false⟩⟩], steps := 1,
           scales := fun _ => some 1, Ks := fun _ => some (.dense (Mat.eye 1)), Cs := fun _ => some (.dense (Mat.eye 1)),
           mKs := fun _ => none, mCs := fun _ => none, HKs := fun _ => none, HCs := fun _ => none, mom := fun _ => none }
  data := fun _ => Mat.ofFn 1 1 fun _ _ => 1
  grad := fun _ => some (Mat.ofFn 1 1 fun _ _ => 3)
  hooks := []

end Sample

-- two layers that share their weight, in a state between two updates
example : Sample.wtR.Loose (fun _ => (.dense, .dense)) ∧ (∀ m ∈ Sample.wtR.opt.layers, LayerReady Sample.wtR m) ∧
    Sample.wtR.opt.scales ((Sample.wtR.opt.steps : ℤ) - 1) = some 1 ∧ ParamShape Sample.wtR 0 1 1 ∧
    (Sample.wtR.opt.layers.filter (·.uses 0)).length = 2 ∧
    ∀ m ∈ Sample.wtR.opt.layers, m.uses 0 = true → ∃ h, Sample.wtR.opt.hyperOf m = .ok h ∧ h.momentum = 0 ∧ h.weightDecay = 0 := by
  have all : ∀ P : Layer → Prop, P Sample.ta → P Sample.tb → ∀ m ∈ Sample.wtR.opt.layers, P m := by
    intro P h1 h2 m hm
    simp only [Sample.wtR, List.mem_cons, List.not_mem_nil, or_false] at hm
    rcases hm with rfl | rfl
    · exact h1
    · exact h2
  have hd : WF (α := ℝ) .dense 1 (.dense (Mat.eye 1)) := .dense rfl rfl
  have sh : ParamShape Sample.wtR 0 1 1 := ⟨⟨rfl, rfl⟩, by intro B hB; cases hB⟩
  refine ⟨⟨?_, ?_, ?_, ?_, ?_⟩, ?_, rfl, sh, by decide, ?_⟩
  · exact List.pairwise_pair.2 (by decide)
  · exact all _ ⟨rfl, by decide, by decide, trivial, trivial, trivial, trivial⟩ ⟨rfl, by decide, by decide, trivial, trivial, trivial, trivial⟩
  · refine all _ ?_ ?_ <;> exact ⟨⟨_, rfl, hd⟩, ⟨_, rfl, hd⟩, (by intro X h; cases h), (by intro X h; cases h), (by intro X h; cases h), (by intro X h; cases h)⟩
  · refine all _ ?_ ?_ <;> exact ⟨sh, by intro b h; cases h⟩
  · refine all _ ?_ ?_ <;> exact ⟨_, rfl, by decide⟩
  · refine all _ ?_ ?_ <;>
    · refine ⟨⟨⟨_, rfl, rfl, rfl⟩, by intro b h; cases h⟩, fun h e h0 => ?_⟩
      cases e
      exact absurd h0 (show ¬ (1 % 2 = 0) by decide)
  · refine all _ ?_ ?_ <;> exact fun _ => ⟨_, rfl, rfl, rfl⟩

/-- **C59 (false).** "A step updates every parameter once": with identity factors (`lr_cov = 0`), without momentum and weight decay a step
should be a step of gradient descent, `p - lr * grad`. For two layers that share their weight it is `p - 2 * lr * grad`. -/
theorem C59_false : ∃ (w : World ℚ) (lr g : ℚ), Reachable supportedStructures w ∧ (∀ m ∈ w.opt.layers, ∃ h, w.opt.hyperOf m = .ok h ∧
      h.lr = lr ∧ h.lrCov.at 0 = 0 ∧ h.momentum = 0 ∧ h.weightDecay = 0) ∧ w.opt.steps = 0 ∧
    (w.grad 0).map (fun G => G.get 0 0) = some g ∧ lr ≠ 0 ∧ g ≠ 0 ∧ (exec (.step false none false) w).1 = .ok () ∧
    ((exec (.step false none false) w).2.data 0).get 0 0 = (w.data 0).get 0 0 - 2 * (lr * g) := by
  refine ⟨Sample.wt, 1 / 2, 3, Sample.reachable (by decide +kernel) (by decide +kernel) _, fun m hm => ?_, by decide +kernel, by decide +kernel,
    by decide +kernel, by decide +kernel, by decide +kernel, by decide +kernel⟩
  have key : ∀ m ∈ Sample.wt.opt.layers, (match Sample.wt.opt.hyperOf m with
      | .ok h => decide (h.lr = 1 / 2 ∧ h.lrCov.at 0 = 0 ∧ h.momentum = 0 ∧ h.weightDecay = 0)
      | .error _ => false) = true := by decide +kernel
  have := key m hm
  rcases h : Sample.wt.opt.hyperOf m with _ | h
  · rw [h] at this; cases this
  · rw [h] at this; exact ⟨_, rfl, of_decide_eq_true this⟩
