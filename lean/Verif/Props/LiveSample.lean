import Verif.Proofs.Opt.Groups
import Verif.Props.OptSamples

/-! A concrete training state over every ordered field with square roots (such as `ℝ`), for the examples of theorems that need exact
square roots. -/

set_option linter.unusedSectionVars false
open Construct

namespace Sample
variable {α : Type} [Field α] [LinearOrder α] [IsStrictOrderedRing α]

/-- the arguments of `Sample.args` over `α` -/
def gargs : Args α where
  lr := .float (1 / 2)
  momentum := .float (1 / 2)
  damping := .float 1
  alpha1 := .float (1 / 2)
  weightDecay := .float 0
  T := 2
  lossAverage := some "batch"
  lrCov := .num (.float (1 / 10))
  structures := ("dense", "diagonal")
  kfacApprox := "expand"
  warnUnsupported := true
  kfacLike := false
  initGradScale := 1
  normalize := false

/-- parameter values: ones -/
def gdata : ℕ → Mat α := fun p => if p = 2 then .ofFn 1 2 fun _ _ => 1 else .ofFn 1 1 fun _ _ => 1
/-- gradients: ones -/
def ggrad : ℕ → Option (Mat α) := fun p => some (gdata p)

/-- the sample model can be trained with any accepted arguments -/
theorem glive_any {a : Args α} {cK cC : Cls} (hv : validate a = .ok ()) (hwu : a.warnUnsupported = true)
    (hK : supportedStructures a.structures.1 = some cK) (hC : supportedStructures a.structures.2 = some cC)
    (hac : Accepted (defaults a)) (hck : checked (defaults a) = defaults a) (hT : a.T ≠ 0) :
    ∃ (o : Opt α) (ws : List Warn), Construct.init supportedStructures model .default a = .ok (o, ws) ∧
    o.layers = [la, lb] ∧ (∀ m ∈ o.layers, o.hyperOf m = .ok (defaults a)) ∧ Trainable o gdata := by
  have hga : (groupArgs model.layers true (.default : ParamArg α)).1 = [⟨[⟨0, true⟩, ⟨1, true⟩, ⟨2, true⟩], id⟩] := rfl
  let gs : List (PGroup α) := [⟨[0, 1, 2], defaults a⟩]
  have hgs : gs = (groupArgs model.layers true (.default : ParamArg α)).1.map fun g =>
      ⟨g.params.map (·.ptr), checked (g.entries (defaults a))⟩ := by
    rw [hga]; simp [gs, hck]
  have hhk : hooked model.layers gs = [la, lb] := rfl
  have ex : ∃ (o : Opt α) (ws : List Warn), Construct.init supportedStructures model .default a = .ok (o, ws) := by
    refine init_exists rfl ?_ ?_ ?_ ?_ gs hgs rfl ?_
    · exact hv
    · rw [hwu, hga]; simp
    · rw [hwu, hga]; simp [GroupsDisjoint]
    · rw [hwu, hga]
      intro g hg
      obtain rfl := List.mem_singleton.1 hg
      exact hac
    · rw [hhk]
      intro m hm
      simp only [List.mem_cons, List.not_mem_nil, or_false] at hm
      rcases hm with rfl | rfl
      · exact ⟨0, ⟨[0, 1, 2], defaults a⟩, cK, cC, rfl, rfl, hK, hC, (supportedStructures_good hK (by decide)).1, (supportedStructures_good hC (by decide)).1⟩
      · exact ⟨0, ⟨[0, 1, 2], defaults a⟩, cK, cC, rfl, rfl, hK, hC, (supportedStructures_good hK (by decide)).1, (supportedStructures_good hC (by decide)).1⟩
  obtain ⟨o, ws, h⟩ := ex
  have I := init_ok (by decide) h
  have hg : o.groups = gs := by rw [I.groups_eq]; exact hgs.symm
  have hl : o.layers = [la, lb] := by rw [I.layers, hg]; rfl
  have hh : ∀ m ∈ o.layers, o.hyperOf m = .ok (defaults a) := by
    rw [hl]
    intro m hm
    simp only [List.mem_cons, List.not_mem_nil, or_false] at hm
    unfold Opt.hyperOf
    rw [I.ptrGroup, hg]
    rcases hm with rfl | rfl <;> rfl
  refine ⟨o, ws, h, hl, hh, ?_⟩
  have hall : ∀ P : Layer → Prop, (∀ m ∈ o.layers, P m) ↔ P la ∧ P lb := fun P => by rw [hl]; simp
  refine ⟨?_, ?_, ?_, ?_, ?_, ?_, ?_⟩
  · rw [hl]
    refine List.pairwise_pair.2 ⟨by decide, fun p hp hq => ?_⟩
    simp [la, lb] at hp hq
    omega
  · rw [hall]; exact ⟨by decide, by decide⟩
  · rw [hall]; exact ⟨by decide, by decide⟩
  · rw [hall]; exact ⟨⟨rfl, rfl⟩, ⟨rfl, rfl⟩⟩
  · rw [hall]
    refine ⟨?_, ?_⟩
    · rintro b hb
      cases hb
      exact ⟨⟨rfl, rfl⟩, by decide⟩
    · rintro b hb
      cases hb
  · intro m hm hy cK cC e1 e2 e3
    rw [I.structs] at e2 e3
    have hpos : 0 < m.nK ∧ 0 < m.nC := by
      rw [hl] at hm
      simp only [List.mem_cons, List.not_mem_nil, or_false] at hm
      rcases hm with rfl | rfl <;> exact ⟨by decide, by decide⟩
    have a1 := supportedStructures_good e2 hpos.1
    have a2 := supportedStructures_good e3 hpos.2
    exact ⟨a1.1, a1.2, a2.1, a2.2⟩
  · intro m hm hy e
    rw [hh m hm] at e
    cases e
    exact hT

theorem glive_init' {a : Args α} (hv : validate a = .ok ()) (hwu : a.warnUnsupported = true) (hst : a.structures = ("dense", "diagonal"))
    (hac : Accepted (defaults a)) (hck : checked (defaults a) = defaults a) (hT : a.T ≠ 0) :
    ∃ (o : Opt α) (ws : List Warn), Construct.init supportedStructures model .default a = .ok (o, ws) ∧
    o.layers = [la, lb] ∧ (∀ m ∈ o.layers, o.hyperOf m = .ok (defaults a)) ∧ Trainable o gdata :=
  glive_any hv hwu (by rw [hst]; rfl) (by rw [hst]; rfl) hac hck hT

theorem glive_init : ∃ (o : Opt α) (ws : List Warn), Construct.init supportedStructures model .default gargs = .ok (o, ws) ∧
    o.layers = [la, lb] ∧ (∀ m ∈ o.layers, o.hyperOf m = .ok (defaults gargs)) ∧ Trainable o gdata := by
  have h2 : ¬ ((2⁻¹ : α) < 0) := by simp
  exact glive_init' (by simp [validate, gargs, PyNum.rejected, PyRate.rejected, h2]) rfl rfl ⟨Or.inl rfl, Or.inr (Or.inl rfl)⟩
    (by simp [checked, defaults, gargs]) (show (2 : ℕ) ≠ 0 by decide)

variable [LawfulSqrt α]

/-- forward through layer `i`, if it is an update step -/
theorem forward_on {w : World α} {i : ℕ} {m : Layer} {h : Hyper α} (x : ND α) (hi : w.opt.layers[i]? = some m)
    (hh : w.opt.hyperOf m = .ok h) (hT : h.T ≠ 0) (hs : w.opt.steps % h.T = 0) :
    exec (.forward i x true) w = (.ok (), { w with hooks := w.hooks ++ [(m, x)] }) := by
  rw [exec, Py.get_bind_run, hi]
  simp only [World.forwardHook, Py.get_bind_run]
  rw [hh, Py.lift_ok_bind_run, if_pos trivial, if_neg hT, if_pos hs]
  rfl

/-- a row vector -/
def grow (n : ℕ) : ND α := ⟨[1, n], fun i => i + 1⟩

/-- a pass through both layers -/
def gpass : List (Op α) := [.forward 0 (grow 1) true, .forward 1 (grow 2) true, .backward 1 (grow 1), .backward 0 (grow 1)]

/-- **A state in training** over any ordered field with square roots: constructed (`Sample.model`, any accepted arguments with scale 1), then
forward and backward through both layers. All operations fit and every layer is ready for a step. -/
theorem glive2_any {a : Args α} {cK cC : Cls} (hv : validate a = .ok ()) (hwu : a.warnUnsupported = true)
    (hK : supportedStructures a.structures.1 = some cK) (hC : supportedStructures a.structures.2 = some cC)
    (hac : Accepted (defaults a)) (hck : checked (defaults a) = defaults a) (hT : a.T ≠ 0) (hsc : a.initGradScale = 1) : ∃ (o : Opt α) (ws : List Warn) (cl : String → Cls × Cls),
    Construct.init supportedStructures model .default a = .ok (o, ws) ∧ o.layers = [la, lb] ∧
    Trainable o gdata ∧ (∀ m ∈ o.layers, o.hyperOf m = .ok (defaults a)) ∧
    World.Live cl ⟨o, gdata, ggrad, []⟩ ∧ FitsRun ⟨o, gdata, ggrad, []⟩ gpass ∧
    (∀ m ∈ o.layers, LayerReady (run gpass ⟨o, gdata, ggrad, []⟩) m) ∧
    FitsOp (run gpass ⟨o, gdata, ggrad, []⟩) (.step false none false) ∧
    (run gpass ⟨o, gdata, ggrad, []⟩).grad = ggrad ∧ (run gpass ⟨o, gdata, ggrad, []⟩).hooks = [(la, grow 1), (lb, grow 2)] := by
  obtain ⟨o, ws, h, hl, hh, ht⟩ := glive_any hv hwu hK hC hac hck hT
  have I := init_ok (by decide) h
  obtain ⟨cl, hcl, hlive⟩ := I.live (grad := ggrad) ht (by rw [hsc]; exact one_pos)
  have e0 : o.layers[0]? = some la := by rw [hl]; rfl
  have e1 : o.layers[1]? = some lb := by rw [hl]; rfl
  have ma : la ∈ o.layers := by rw [hl]; simp
  have mb : lb ∈ o.layers := by rw [hl]; simp
  let w0 : World α := ⟨o, gdata, ggrad, []⟩
  let v1 : World α := ⟨o, gdata, ggrad, [(la, grow 1)]⟩
  let v2 : World α := ⟨o, gdata, ggrad, [(la, grow 1), (lb, grow 2)]⟩
  have hst : o.steps % (defaults a).T = 0 := by rw [I.steps]; exact Nat.zero_mod _
  have x1 : exec (.forward 0 (grow 1) true) w0 = (.ok (), v1) := by
    rw [forward_on (h := defaults a) _ e0 (hh la ma) hT hst]; rfl
  have x2 : exec (.forward 1 (grow 2) true) v1 = (.ok (), v2) := by
    rw [forward_on (h := defaults a) _ e1 (hh lb mb) hT hst]; rfl
  have f1 : FitsOp w0 (.forward 0 (grow 1) true) := by
    intro m hm hy _
    replace hm : o.layers[0]? = some m := hm
    rw [e0] at hm; cases hm
    exact ⟨1, [], rfl, by decide⟩
  have f2 : FitsOp v1 (.forward 1 (grow 2) true) := by
    intro m hm hy _
    replace hm : o.layers[1]? = some m := hm
    rw [e1] at hm; cases hm
    exact ⟨1, [], rfl, by decide⟩
  obtain ⟨v1', y1, l1⟩ := hlive.exec f1
  rw [x1] at y1; cases y1
  obtain ⟨v2', y2, l2⟩ := l1.exec f2
  rw [x2] at y2; cases y2
  have sc : v2.opt.scales ((v2.opt.steps : ℤ) - 1) = some 1 := by
    simp [v2, I.steps, I.scales, Dict.set, hsc]
  obtain ⟨v3, y3, b3⟩ := accumulateH_spec (g := grow 1) (l2.sound.lay lb mb) (hh lb mb) (l2.valid lb mb _ (hh lb mb))
    ((l2.hooks (lb, grow 2) (by simp [v2])).2 _ (hh lb mb)) ⟨1, [], rfl, by decide⟩ sc one_pos
  have x3 : exec (.backward 1 (grow 1)) v2 = (.ok (), v3) := y3
  have f3 : FitsOp v2 (.backward 1 (grow 1)) := by
    intro mx hmx
    cases hmx
    exact ⟨1, [], rfl, by decide⟩
  obtain ⟨v3', y3', l3⟩ := l2.exec f3
  rw [x3] at y3'; cases y3'
  have fr := b3.frame
  have ma' : la ∈ v3.opt.layers := by rw [fr.layers]; exact ma
  have hh3 : v3.opt.hyperOf la = .ok (defaults a) := by rw [fr.hyperOf]; exact hh la ma
  obtain ⟨v4, y4, b4⟩ := accumulateH_spec (g := grow 1) (x := grow 1) (l3.sound.lay la ma') hh3 (l3.valid la ma' _ hh3)
    ⟨1, [], rfl, by decide⟩ ⟨1, [], rfl, by decide⟩ (by rw [fr.steps, fr.scales]; exact sc) one_pos
  have x4 : exec (.backward 0 (grow 1)) v3 = (.ok (), v4) := by
    rw [exec, Py.get_bind_run, fr.hooks]; exact y4
  have f4 : FitsOp v3 (.backward 0 (grow 1)) := by
    intro mx hmx
    rw [fr.hooks] at hmx
    cases hmx
    exact ⟨1, [], rfl, by decide⟩
  have fr4 := b4.frame
  have er : run gpass w0 = v4 := by
    show (exec (.backward 0 (grow 1)) (exec (.backward 1 (grow 1)) (exec (.forward 1 (grow 2) true) (exec (.forward 0 (grow 1) true) w0).2).2).2).2 = _
    rw [x1, x2, x3, x4]
  have frun : FitsRun w0 gpass := by
    refine ⟨f1, ?_⟩
    rw [x1]
    refine ⟨f2, ?_⟩
    rw [x2]
    refine ⟨f3, ?_⟩
    rw [x3]
    exact ⟨f4, trivial⟩
  have gr : v4.grad = ggrad := by rw [fr4.grad, fr.grad]
  have mom : ∀ m ∈ o.layers, (defaults a).alpha1 ≠ 0 → v4.opt.mKs m.name ≠ none ∧ v4.opt.mCs m.name ≠ none := by
    intro m hm ha
    rw [fr4.mKs _ id, fr4.mCs _ id, fr.mKs _ id, fr.mCs _ id]
    exact hlive.mom m hm _ (hh m hm) ha
  have hy4 : ∀ m ∈ o.layers, ∀ hy, v4.opt.hyperOf m = .ok hy → hy = defaults a := fun m hm hy e => by
    rw [fr4.hyperOf, fr.hyperOf] at e
    exact Except.ok.inj (e.symm.trans (hh m hm))
  have hr : ∀ m ∈ o.layers, LayerReady v4 m := by
    intro m hm
    have hm' := hm
    rw [hl] at hm'
    simp only [List.mem_cons, List.not_mem_nil, or_false] at hm'
    rcases hm' with rfl | rfl
    · refine ⟨⟨⟨gdata 0, by rw [gr]; rfl, rfl, rfl⟩, ?_⟩, fun hy e _ => ⟨b4.someK, b4.someC, fun ha => mom la hm (hy4 la hm hy e ▸ ha)⟩⟩
      rintro b hb; cases hb
      exact ⟨gdata 1, by rw [gr]; rfl, rfl, rfl⟩
    · refine ⟨⟨⟨gdata 2, by rw [gr]; rfl, rfl, rfl⟩, by rintro b hb; cases hb⟩, fun hy e _ => ⟨?_, ?_, fun ha => mom lb hm (hy4 lb hm hy e ▸ ha)⟩⟩
      · rw [fr4.HKs _ (by decide)]; exact b3.someK
      · rw [fr4.HCs _ (by decide)]; exact b3.someC
  refine ⟨o, ws, cl, h, hl, ht, hh, hlive, frun, ?_, ?_, by rw [er]; exact gr, by rw [er, fr4.hooks, fr.hooks]⟩
  · rw [er]; exact hr
  · rw [er]
    refine ⟨rfl, by simp, fun _ m hm => hr m ?_⟩
    rw [fr4.layers, fr.layers] at hm; exact hm

/-- the same with `Sample.gargs` -/
theorem glive2 : ∃ (o : Opt α) (ws : List Warn) (cl : String → Cls × Cls),
    Construct.init supportedStructures model .default gargs = .ok (o, ws) ∧ o.layers = [la, lb] ∧
    Trainable o gdata ∧ (∀ m ∈ o.layers, o.hyperOf m = .ok (defaults gargs)) ∧
    World.Live cl ⟨o, gdata, ggrad, []⟩ ∧ FitsRun ⟨o, gdata, ggrad, []⟩ gpass ∧
    (∀ m ∈ o.layers, LayerReady (run gpass ⟨o, gdata, ggrad, []⟩) m) ∧
    FitsOp (run gpass ⟨o, gdata, ggrad, []⟩) (.step false none false) ∧
    (run gpass ⟨o, gdata, ggrad, []⟩).grad = ggrad ∧ (run gpass ⟨o, gdata, ggrad, []⟩).hooks = [(la, grow 1), (lb, grow 2)] := by
  have h2 : ¬ ((2⁻¹ : α) < 0) := by simp
  exact glive2_any (cK := .dense) (cC := .diagonal) (by simp [validate, gargs, PyNum.rejected, PyRate.rejected, h2]) rfl rfl rfl
    ⟨Or.inl rfl, Or.inr (Or.inl rfl)⟩ (by simp [checked, defaults, gargs]) (show (2 : ℕ) ≠ 0 by decide) rfl

theorem glive : ∃ (o : Opt α) (ws : List Warn) (cl : String → Cls × Cls),
    Construct.init supportedStructures model .default gargs = .ok (o, ws) ∧ o.layers = [la, lb] ∧
    Trainable o gdata ∧ (∀ m ∈ o.layers, o.hyperOf m = .ok (defaults gargs)) ∧
    World.Live cl ⟨o, gdata, ggrad, []⟩ ∧ FitsRun ⟨o, gdata, ggrad, []⟩ gpass ∧
    (∀ m ∈ o.layers, LayerReady (run gpass ⟨o, gdata, ggrad, []⟩) m) ∧
    FitsOp (run gpass ⟨o, gdata, ggrad, []⟩) (.step false none false) := by
  obtain ⟨o, ws, cl, a, b, c, d, e, f, g, h, _⟩ := glive2 (α := α)
  exact ⟨o, ws, cl, a, b, c, d, e, f, g, h⟩

/-- a well-formed state in which every layer is ready for a step with scale 1 -/
theorem gready2 : ∃ (cl : String → Cls × Cls) (w : World α), w.Live cl ∧ (∀ m ∈ w.opt.layers, LayerReady w m) ∧ w.opt.layers = [la, lb] ∧
    w.opt.scales ((w.opt.steps : ℤ) - 1) = some 1 ∧ (w.opt.scales w.opt.steps).getD ((none : Option α).getD 1) = 1 ∧
    FitsOp w (.step false none false) ∧ w.opt.steps = 0 ∧ (∀ m ∈ w.opt.layers, w.opt.hyperOf m = .ok (defaults gargs)) ∧
    w.grad = ggrad ∧ w.hooks = [(la, grow 1), (lb, grow 2)] := by
  obtain ⟨o, ws, cl, h, hl, ht, hh, hlive, hf, hr, hs, hgr, hho⟩ := glive2 (α := α)
  have I := init_ok (by decide) h
  have key : ∀ (op : Op α) (w : World α), op ∈ (gpass : List (Op α)) → (exec op w).2.opt.scales = w.opt.scales ∧
      (exec op w).2.opt.steps = w.opt.steps ∧ (exec op w).2.opt.layers = w.opt.layers ∧
      ∀ m, (exec op w).2.opt.hyperOf m = w.opt.hyperOf m := by
    intro op w hop
    simp only [gpass, List.mem_cons, List.not_mem_nil, or_false] at hop
    rcases hop with rfl | rfl | rfl | rfl
    · rcases exec_forward 0 (grow 1) true w with e | ⟨_, m, _, _, e⟩ <;> rw [e] <;> exact ⟨rfl, rfl, rfl, fun _ => rfl⟩
    · rcases exec_forward 1 (grow 2) true w with e | ⟨_, m, _, _, e⟩ <;> rw [e] <;> exact ⟨rfl, rfl, rfl, fun _ => rfl⟩
    · have f := exec_backward 1 (grow 1) w; exact ⟨f.scales, f.steps, f.layers, f.hyperOf⟩
    · have f := exec_backward 0 (grow 1) w; exact ⟨f.scales, f.steps, f.layers, f.hyperOf⟩
  have all : ∀ (ops : List (Op α)) (w : World α), (∀ op ∈ ops, op ∈ (gpass : List (Op α))) → (run ops w).opt.scales = w.opt.scales ∧
      (run ops w).opt.steps = w.opt.steps ∧ (run ops w).opt.layers = w.opt.layers ∧
      ∀ m, (run ops w).opt.hyperOf m = w.opt.hyperOf m := by
    intro ops
    induction ops with
    | nil => intro w _; exact ⟨rfl, rfl, rfl, fun _ => rfl⟩
    | cons op ops ih =>
      intro w ho
      obtain ⟨a1, a2, a3, a4⟩ := key op w (ho op (by simp))
      obtain ⟨b1, b2, b3, b4⟩ := ih (exec op w).2 fun o h => ho o (by simp [h])
      exact ⟨b1.trans a1, b2.trans a2, b3.trans a3, fun m => (b4 m).trans (a4 m)⟩
  obtain ⟨a1, a2, a3, a4⟩ := all gpass ⟨o, gdata, ggrad, []⟩ fun _ => id
  refine ⟨cl, run gpass ⟨o, gdata, ggrad, []⟩, (hlive.run hf).2, ?_, ?_, ?_, ?_, hs, ?_, ?_, hgr, hho⟩
  · rw [a3]; exact hr
  · rw [a3]; exact hl
  · rw [a1, a2]; simp [I.steps, I.scales, Dict.set, gargs]
  · rw [a1, a2]; simp [I.steps, I.scales, Dict.set]
  · rw [a2]; exact I.steps
  · rw [a3]; intro m hm; rw [a4]; exact hh m hm

theorem gready : ∃ (cl : String → Cls × Cls) (w : World α), w.Live cl ∧ (∀ m ∈ w.opt.layers, LayerReady w m) ∧ w.opt.layers = [la, lb] ∧
    w.opt.scales ((w.opt.steps : ℤ) - 1) = some 1 ∧ (w.opt.scales w.opt.steps).getD ((none : Option α).getD 1) = 1 ∧
    FitsOp w (.step false none false) ∧ w.opt.steps = 0 ∧ ∀ m ∈ w.opt.layers, w.opt.hyperOf m = .ok (defaults gargs) := by
  obtain ⟨cl, w, a, b, c, d, e, f, g, h, _⟩ := gready2 (α := α)
  exact ⟨cl, w, a, b, c, d, e, f, g, h⟩

/-- backward passes through both layers, over the graphs of the first forward passes -/
def gback : List (Op α) := [.backward 1 (grow 1), .backward 0 (grow 1)]

/-- in every state of the sample's training, backward passes fit and make all layers ready for an update -/
theorem gback_ready {cl : String → Cls × Cls} {w : World α} (hw : w.Live cl) (hl : w.opt.layers = [la, lb])
    (hh : ∀ m ∈ w.opt.layers, w.opt.hyperOf m = .ok (defaults gargs)) (hg : w.grad = ggrad)
    (hk : w.hooks = [(la, grow 1), (lb, grow 2)]) : FitsRun w gback ∧ (∀ m ∈ w.opt.layers, LayerReady (run gback w) m) ∧
      FitsOp (run gback w) (.step false none false) ∧ (run gback w).opt.steps = w.opt.steps := by
  have ma : la ∈ w.opt.layers := by rw [hl]; simp
  have mb : lb ∈ w.opt.layers := by rw [hl]; simp
  obtain ⟨p, hp⟩ := hw.prev
  have hp0 := hw.pos _ _ hp
  obtain ⟨v3, y3, b3⟩ := accumulateH_spec (g := grow 1) (hw.sound.lay lb mb) (hh lb mb) (hw.valid lb mb _ (hh lb mb))
    ((hw.hooks (lb, grow 2) (by simp [hk])).2 _ (hh lb mb)) ⟨1, [], rfl, by decide⟩ hp hp0
  have x3 : exec (.backward 1 (grow 1)) w = (.ok (), v3) := by rw [exec, Py.get_bind_run, hk]; exact y3
  have f3 : FitsOp w (.backward 1 (grow 1)) := by
    intro mx hmx
    rw [hk] at hmx
    cases hmx
    exact ⟨1, [], rfl, by decide⟩
  obtain ⟨v3', y3', l3⟩ := hw.exec f3
  rw [x3] at y3'; cases y3'
  have fr := b3.frame
  have ma' : la ∈ v3.opt.layers := by rw [fr.layers]; exact ma
  have hh3 : v3.opt.hyperOf la = .ok (defaults gargs) := by rw [fr.hyperOf]; exact hh la ma
  obtain ⟨v4, y4, b4⟩ := accumulateH_spec (g := grow 1) (x := grow 1) (l3.sound.lay la ma') hh3 (l3.valid la ma' _ hh3)
    ⟨1, [], rfl, by decide⟩ ⟨1, [], rfl, by decide⟩ (by rw [fr.steps, fr.scales]; exact hp) hp0
  have x4 : exec (.backward 0 (grow 1)) v3 = (.ok (), v4) := by
    rw [exec, Py.get_bind_run, fr.hooks, hk]; exact y4
  have f4 : FitsOp v3 (.backward 0 (grow 1)) := by
    intro mx hmx
    rw [fr.hooks, hk] at hmx
    cases hmx
    exact ⟨1, [], rfl, by decide⟩
  have fr4 := b4.frame
  have er : run gback w = v4 := by
    show (exec (.backward 0 (grow 1)) (exec (.backward 1 (grow 1)) w).2).2 = _
    rw [x3, x4]
  have gr : v4.grad = ggrad := by rw [fr4.grad, fr.grad, hg]
  have mom : ∀ m ∈ w.opt.layers, v4.opt.mKs m.name ≠ none ∧ v4.opt.mCs m.name ≠ none := by
    intro m hm
    rw [fr4.mKs _ id, fr4.mCs _ id, fr.mKs _ id, fr.mCs _ id]
    exact hw.mom m hm _ (hh m hm) (by simp [defaults, gargs, PyNum.val])
  have hr : ∀ m ∈ w.opt.layers, LayerReady v4 m := by
    intro m hm
    have hm' := hm
    rw [hl] at hm'
    simp only [List.mem_cons, List.not_mem_nil, or_false] at hm'
    rcases hm' with rfl | rfl
    · refine ⟨⟨⟨gdata 0, by rw [gr]; rfl, rfl, rfl⟩, ?_⟩, fun hy _ _ => ⟨b4.someK, b4.someC, fun _ => mom la hm⟩⟩
      rintro b hb; cases hb
      exact ⟨gdata 1, by rw [gr]; rfl, rfl, rfl⟩
    · refine ⟨⟨⟨gdata 2, by rw [gr]; rfl, rfl, rfl⟩, by rintro b hb; cases hb⟩, fun hy _ _ => ⟨?_, ?_, fun _ => mom lb hm⟩⟩
      · rw [fr4.HKs _ (by decide)]; exact b3.someK
      · rw [fr4.HCs _ (by decide)]; exact b3.someC
  rw [er]
  refine ⟨⟨f3, by rw [x3]; exact ⟨f4, trivial⟩⟩, hr, ⟨rfl, by simp, fun _ m hm => hr m ?_⟩, by rw [fr4.steps, fr.steps]⟩
  rw [fr4.layers, fr.layers] at hm; exact hm

/-- between update steps the layers are ready for a step -/
theorem goff_ready {w : World α} (hl : w.opt.layers = [la, lb])
    (hh : ∀ m ∈ w.opt.layers, w.opt.hyperOf m = .ok (defaults gargs)) (hg : w.grad = ggrad) (hs : w.opt.steps % 2 ≠ 0) :
    FitsOp w (.step false none false) := by
  have hl' := hl
  refine ⟨rfl, by simp, fun _ m hm => ?_⟩
  have st : ∀ h, w.opt.hyperOf m = .ok h → w.opt.steps % h.T = 0 → w.opt.HKs m.name ≠ none ∧ w.opt.HCs m.name ≠ none ∧
      (h.alpha1 ≠ 0 → w.opt.mKs m.name ≠ none ∧ w.opt.mCs m.name ≠ none) := by
    intro h e h0
    rw [hh m hm] at e; cases e
    exact absurd h0 hs
  refine ⟨?_, st⟩
  rw [hl'] at hm
  simp only [List.mem_cons, List.not_mem_nil, or_false] at hm
  rcases hm with rfl | rfl
  · refine ⟨⟨gdata 0, by rw [hg]; rfl, rfl, rfl⟩, ?_⟩
    rintro b hb; cases hb
    exact ⟨gdata 1, by rw [hg]; rfl, rfl, rfl⟩
  · exact ⟨⟨gdata 2, by rw [hg]; rfl, rfl, rfl⟩, by rintro b hb; cases hb⟩

end Sample
