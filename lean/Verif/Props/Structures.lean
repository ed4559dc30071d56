import Verif.Props.Rotation
import Verif.Proofs.Opt.Names
import Verif.Proofs.Opt.Same
import Verif.Proofs.Storage

/-! C76: structures that represent the same matrices are interchangeable. -/

set_option linter.unusedSectionVars false
open Construct Matrix IOProof

set_option allowUnsafeReducibility true in
attribute [local reducible] Layer.nC

section
variable {α : Type} [Field α] [LinearOrder α] [IsStrictOrderedRing α]

/-- The classes represent the same `n × n` matrices, and either both or neither of them are block-diagonal (whose methods lack transposes), or these matrices
are symmetric. -/
def Cls.Interchangeable (α : Type) [Field α] [LinearOrder α] [IsStrictOrderedRing α] (c c' : Cls) (n : ℕ) : Prop :=
  Cls.Same α c c' n ∧ ((c.IsBlock ↔ c'.IsBlock) ∨ ∀ A : Matrix (Fin n) (Fin n) α, c'.Rep n A → Aᵀ = A)

end

variable {α : Type} [Field α] [LinearOrder α] [IsStrictOrderedRing α] [LawfulSqrt α]

/-- the standard bases -/
def Bases.one : Bases α := ⟨fun _ => 1, fun _ => 1⟩

theorem extend_one (m : Layer) : m.extend (1 : Matrix (Fin m.din) (Fin m.din) α) = 1 := by
  unfold Layer.extend Layer.nK
  rw [fromBlocks_one, submatrix_one_equiv]

theorem ParamRot.refl_one (l : List Layer) (p : ℕ) (x : Option (Mat α)) : ParamRot Bases.one l p x x :=
  ⟨fun m _ _ => by simp [Bases.one], fun m _ b _ _ => by simp [Bases.one], fun _ => rfl, rfl⟩

theorem MaxInv.one {n : ℕ} : MaxInv (1 : Matrix (Fin n) (Fin n) α) := fun M v h => by rw [conjBy_id]; exact h

theorem normFits_one (w : World α) (op : Op α) : NormFits Bases.one w op := by
  rcases op with _ | _ | _ | _ | _ | _ | ⟨_, _, _ | _⟩ <;> first | trivial | skip
  intro m hm h _ _
  exact ⟨by rw [show Bases.one.R m = (1 : Matrix (Fin m.din) (Fin m.din) α) from rfl, extend_one]; exact MaxInv.one, MaxInv.one⟩

/-- the same operation fits both states -/
theorem Op.same_ok {A B : World α} (r : Rot Bases.one A B) {op : Op α} (f : FitsOp B op) : FitsOp A op ∧ RotOp Bases.one A B op op := by
  have c1 : ∀ (m : Layer) (M : Matrix (Fin m.nK) (Fin m.nK) α), conjBy (m.extend (Bases.one.R m)) M = M := fun m M => by
    rw [show Bases.one.R m = (1 : Matrix (Fin m.din) (Fin m.din) α) from rfl, extend_one, conjBy_id]
  have c2 : ∀ (m : Layer) (M : Matrix (Fin m.nC) (Fin m.nC) α), conjBy (Bases.one.S m) M = M := fun m M => conjBy_id M
  have eqS : ∀ p, (A.data p).rows = (B.data p).rows ∧ (A.data p).cols = (B.data p).cols := fun p => by
    have := (r.data p).shape
    rw [Option.map_some, Option.map_some, Option.some_inj] at this
    injection this with e1 e2
    exact ⟨e1, e2⟩
  cases op with
  | forward i x ge =>
    refine ⟨fun m hm h hh => ?_, rfl, rfl, fun m hm h => (c1 m _).symm⟩
    rw [r.conf.layers] at hm
    rw [r.conf.hyperOf] at hh
    exact f m hm h hh
  | backward i g =>
    refine ⟨fun mx hm => ?_, rfl, fun m hm h => (c2 m.1 _).symm⟩
    obtain ⟨hl', e1⟩ := List.getElem?_eq_some_iff.1 hm
    have hl : i < B.hooks.length := by rw [← r.hooks.length_eq]; exact hl'
    have ex := ((List.forall₂_iff_get.1 r.hooks).2 i hl' hl).1
    rw [List.get_eq_getElem, List.get_eq_getElem, e1] at ex
    rw [ex]
    exact f _ (List.getElem?_eq_getElem hl)
  | setGrad p G => exact ⟨trivial, rfl, ParamRot.refl_one _ _ _⟩
  | setParam p M =>
    refine ⟨?_, rfl, ParamRot.refl_one _ _ _⟩
    show M.OfShape (A.data p).rows (A.data p).cols
    rw [(eqS p).1, (eqS p).2]; exact f
  | setHyper i h =>
    refine ⟨⟨f.1, fun m hm hp => ?_⟩, rfl, rfl⟩
    rw [r.conf.layers] at hm
    rw [r.conf.ptrGroup] at hp
    obtain ⟨f1, f2⟩ := f.2 m hm hp
    refine ⟨fun h' hh => f1 h' (by rw [← r.conf.hyperOf]; exact hh), fun ha => ?_⟩
    rw [Ne, (r.present m hm).2.2.1, Ne, (r.present m hm).2.2.2]; exact f2 ha
  | setScale s => exact ⟨f, rfl⟩
  | step b a n =>
    refine ⟨⟨f.1, f.2.1, fun hn m hm => ?_⟩, rfl, rfl, rfl, fun e m hm h hh hno => ?_⟩
    · rw [r.conf.layers] at hm
      obtain ⟨g, s⟩ := f.2.2 hn m hm
      refine ⟨⟨(r.grad _).ofShape g.weight, fun b hb => (r.grad _).ofShape (g.bias b hb)⟩, fun h hh ht => ?_⟩
      rw [r.conf.hyperOf] at hh
      rw [r.conf.steps] at ht
      obtain ⟨s1, s2, s3⟩ := s h hh ht
      obtain ⟨n1, n2, n3, n4⟩ := r.present m hm
      exact ⟨n1.not.2 s1, n2.not.2 s2, fun ha => ⟨n3.not.2 (s3 ha).1, n4.not.2 (s3 ha).2⟩⟩
    · subst e; exact normFits_one B (.step b a false) m hm h hh hno

theorem Rot.run_same {clA clB : String → Cls × Cls} : ∀ {ops : List (Op α)} {A B : World α}, A.Live clA → B.Live clB → FitsRun B ops →
    ActAll clA clB Bases.one B → Rot Bases.one A B → FitsRun A ops ∧ Rot Bases.one (_root_.run ops A) (_root_.run ops B)
  | [], _, _, _, _, _, _, r => ⟨trivial, r⟩
  | op :: ops, A, B, lA, lB, fB, kp, r => by
    obtain ⟨fA, ho⟩ := Op.same_ok r fB.1
    obtain ⟨A', eA, lA'⟩ := lA.exec fA
    obtain ⟨B', eB, lB'⟩ := lB.exec fB.1
    have r' := r.exec lA lB fA fB.1 kp ho
    have el := (exec_static op B).1
    have fB2 := fB.2
    rw [eB] at r' el fB2
    rw [eA] at r'
    obtain ⟨g, q⟩ := Rot.run_same lA' lB' fB2 (fun m hm => kp m (by rw [← el]; exact hm)) r'
    refine ⟨⟨fA, ?_⟩, ?_⟩
    · rw [eA]; exact g
    · rw [run_cons, run_cons, eA, eB]; exact q

/-! Constructed optimizers -/

section
variable {structs structs' : String → Option Cls} {model : Model} {p p' : ParamArg α} {a a' : Args α} {o o' : Opt α} {ws ws' : List Warn}

/-- factors and momenta after construction -/
theorem Construct.InitSpec.factors (I : InitSpec structs model p a o ws) {cl : String → Cls × Cls} {data : ℕ → Mat α} {grad : ℕ → Option (Mat α)}
    (hcl : ∀ m ∈ o.layers, ∃ hy, o.hyperOf m = .ok hy ∧ structs hy.structures.1 = some (cl m.name).1 ∧ structs hy.structures.2 = some (cl m.name).2)
    (l : World.Live cl ⟨o, data, grad, []⟩) : ∀ m ∈ o.layers, denO (o.Ks m.name) m.nK = 1 ∧ denO (o.Cs m.name) m.nC = 1 ∧ denO (o.mKs m.name) m.nK = 0 ∧
      denO (o.mCs m.name) m.nC = 0 ∧ ∀ h, o.hyperOf m = .ok h → (o.mKs m.name = none ↔ h.alpha1 = 0) ∧ (o.mCs m.name = none ↔ h.alpha1 = 0) := by
  intro m hm
  have g := l.sound.good m hm
  obtain ⟨hy, cK, cC, K, C, f1, f2, f3, eK, eC, sK, sC, m0, m1⟩ := (I.lay m hm).ex
  obtain ⟨hy', e1, e2, e3⟩ := hcl m hm
  rw [f1] at e1; cases e1
  rw [← I.structs, f2] at e2
  rw [← I.structs, f3] at e3
  cases e2; cases e3
  obtain ⟨⟨K', k1, _, k3⟩, Z, z1, _, z3⟩ := C12_eye_zeros (α := α) g.supK
  obtain ⟨⟨C', c1, _, c3⟩, Y, y1, _, y3⟩ := C12_eye_zeros (α := α) g.supC
  rw [eK] at k1; cases k1
  rw [eC] at c1; cases c1
  refine ⟨by rw [sK]; exact k3, by rw [sC]; exact c3, ?_⟩
  by_cases hz : hy.alpha1 = 0
  · rw [(m0 hz).1, (m0 hz).2]
    refine ⟨rfl, rfl, fun h hh => ?_⟩
    rw [f1] at hh; cases hh
    simp [hz]
  · obtain ⟨mK, mC, q1, q2, q3, q4⟩ := m1 hz
    rw [z1] at q1; cases q1
    rw [y1] at q2; cases q2
    refine ⟨by rw [q3]; exact z3, by rw [q4]; exact y3, fun h hh => ?_⟩
    rw [f1] at hh; cases hh
    rw [q3, q4]; simp [hz]

/-- the groups of two optimizers differ at most in the names of structures -/
def SameGroups (o' o : Opt α) : Prop := o'.groups.map PGroup.anon = o.groups.map PGroup.anon

theorem SameGroups.params (h : SameGroups o' o) : o'.groups.map (·.params) = o.groups.map (·.params) := by
  have := congrArg (List.map fun g : PGroup α => g.params) h
  rw [List.map_map, List.map_map] at this
  exact this

theorem SameGroups.layers (h : SameGroups o' o) (I : InitSpec structs model p a o ws) (I' : InitSpec structs' model p' a' o' ws') :
    o'.layers = o.layers ∧ o'.ptrGroup = o.ptrGroup := by
  have e : paramIds o'.groups = paramIds o.groups := by
    unfold paramIds; rw [List.flatMap_def, List.flatMap_def, h.params]
  constructor
  · rw [I'.layers, I.layers]; unfold hooked; rw [e]
  · rw [I'.ptrGroup, I.ptrGroup]
    funext q
    unfold Construct.ptrGroup
    have hl := congrArg List.length h.params
    rw [List.length_map, List.length_map] at hl
    rw [h.params, hl]

/-- two constructed optimizers start in corresponding states -/
theorem start_rot (I : InitSpec structs model p a o ws) (I' : InitSpec structs' model p' a' o' ws') (hgs : SameGroups o' o)
    (hs : a'.initGradScale = a.initGradScale) {cl cl' : String → Cls × Cls} {data data' : ℕ → Mat α} {grad grad' : ℕ → Option (Mat α)}
    (hcl : ∀ m ∈ o.layers, ∃ hy, o.hyperOf m = .ok hy ∧ structs hy.structures.1 = some (cl m.name).1 ∧ structs hy.structures.2 = some (cl m.name).2)
    (hcl' : ∀ m ∈ o'.layers, ∃ hy, o'.hyperOf m = .ok hy ∧ structs' hy.structures.1 = some (cl' m.name).1 ∧ structs' hy.structures.2 = some (cl' m.name).2)
    (l : World.Live cl ⟨o, data, grad, []⟩) (l' : World.Live cl' ⟨o', data', grad', []⟩) {U : Bases α}
    (hU : ∀ m ∈ o.layers, (m.extend (U.R m))ᵀ * m.extend (U.R m) = 1 ∧ (U.S m)ᵀ * U.S m = 1)
    (hd : ∀ p, ParamRot U o.layers p (some (data' p)) (some (data p))) (hg : ∀ p, ParamRot U o.layers p (grad' p) (grad p)) :
    Rot U (World.anon ⟨o', data', grad', []⟩) (World.anon ⟨o, data, grad, []⟩) := by
  obtain ⟨el, ep⟩ := hgs.layers I I'
  have F := I.factors hcl l
  have F' := I'.factors hcl' l'
  rw [el] at F'
  have hK : ∀ n, o.HKs n = none := fun n => by rw [I.HKs]
  have hC : ∀ n, o.HCs n = none := fun n => by rw [I.HCs]
  have hK' : ∀ n, o'.HKs n = none := fun n => by rw [I'.HKs]
  have hC' : ∀ n, o'.HCs n = none := fun n => by rw [I'.HCs]
  refine ⟨⟨el, ep, hgs, I'.steps.trans I.steps.symm⟩, ?_, hd, hg, fun p => ?_, .nil, ?_, ?_, ?_, ?_, ?_, ?_, fun m hm => ?_⟩
  · show o'.scales = o.scales
    rw [I'.scales, I.scales, hs]
  · show ParamRot U o.layers p (o'.mom p) (o.mom p)
    rw [I.mom, I'.mom]
    exact ⟨fun _ _ _ => by simp [momO], fun _ _ _ _ _ => by simp [momO], fun _ => rfl, rfl⟩
  all_goals try intro m hm
  · show denO (o'.Ks m.name) _ = conjBy _ (denO (o.Ks m.name) _)
    rw [(F m hm).1, (F' m hm).1, conjBy_one (hU m hm).1]
  · show denO (o'.Cs m.name) _ = conjBy _ (denO (o.Cs m.name) _)
    rw [(F m hm).2.1, (F' m hm).2.1, conjBy_one (hU m hm).2]
  · show denO (o'.mKs m.name) _ = conjBy _ (denO (o.mKs m.name) _)
    rw [(F m hm).2.2.1, (F' m hm).2.2.1, conjBy_zero]
  · show denO (o'.mCs m.name) _ = conjBy _ (denO (o.mCs m.name) _)
    rw [(F m hm).2.2.2.1, (F' m hm).2.2.2.1, conjBy_zero]
  · show denO (o'.HKs m.name) _ = conjBy _ (denO (o.HKs m.name) _)
    rw [hK, hK']; simp [denO, conjBy_zero]
  · show denO (o'.HCs m.name) _ = conjBy _ (denO (o.HCs m.name) _)
    rw [hC, hC']; simp [denO, conjBy_zero]
  · show (o'.HKs m.name = none ↔ o.HKs m.name = none) ∧ (o'.HCs m.name = none ↔ o.HCs m.name = none) ∧ (o'.mKs m.name = none ↔ o.mKs m.name = none) ∧
      (o'.mCs m.name = none ↔ o.mCs m.name = none)
    rw [hK, hK', hC, hC']
    obtain ⟨h, hh, _, _⟩ := hcl m hm
    obtain ⟨h', hh', _, _⟩ := hcl' m (by rw [el]; exact hm)
    have e1 : (World.anon ⟨o, data, grad, []⟩).opt.hyperOf m = .ok h.anon := hyperOf_anon_of hh
    have e2 : (World.anon ⟨o', data', grad', []⟩).opt.hyperOf m = .ok h'.anon := hyperOf_anon_of hh'
    have e3 : (World.anon ⟨o', data', grad', []⟩).opt.hyperOf m = (World.anon ⟨o, data, grad, []⟩).opt.hyperOf m := by
      unfold Opt.hyperOf
      rw [show (World.anon ⟨o', data', grad', []⟩).opt.ptrGroup = (World.anon ⟨o, data, grad, []⟩).opt.ptrGroup from ep,
        show (World.anon ⟨o', data', grad', []⟩).opt.groups = (World.anon ⟨o, data, grad, []⟩).opt.groups from hgs]
    rw [e1, e2] at e3
    have ea : h'.alpha1 = h.alpha1 := by
      have := congrArg (fun x : Except PyErr (Hyper α) => match x with | .ok h => h.alpha1 | .error _ => 0) e3
      exact this
    obtain ⟨g1, g2⟩ := (F m hm).2.2.2.2 h hh
    obtain ⟨g1', g2'⟩ := (F' m hm).2.2.2.2 h' hh'
    rw [g1, g2, g1', g2', ea]
    exact ⟨Iff.rfl, Iff.rfl, Iff.rfl, Iff.rfl⟩

/-- **C76 (interchangeable structures).** Construct two optimizers over the same model whose parameter groups differ at most in the names of structures (and the
name tables `structs`, `structs'` may differ), where for every layer both classes represent the same matrices (`Interchangeable`). Then every history that fits
the first fits the second, both succeed, parameters, momentum buffers, step count and scales are equal at the end, and factors, their momenta and the
accumulated statistics represent the same matrices. -/
theorem C76_interchange (hn : (model.layers.map (·.name)).Nodup) (hi : Construct.init structs model p a = .ok (o, ws))
    (hi' : Construct.init structs' model p' a' = .ok (o', ws')) (hgs : SameGroups o' o) (hs : a'.initGradScale = a.initGradScale)
    {data : ℕ → Mat α} {grad : ℕ → Option (Mat α)} (ht : Trainable o data) (ht' : Trainable o' data) (ha : 0 < a.initGradScale)
    (same : ∀ m ∈ o.layers, ∀ h h' cK cC cK' cC', o.hyperOf m = .ok h → structs h.structures.1 = some cK → structs h.structures.2 = some cC →
      o'.hyperOf m = .ok h' → structs' h'.structures.1 = some cK' → structs' h'.structures.2 = some cC' →
      Cls.Interchangeable α cK' cK m.nK ∧ Cls.Interchangeable α cC' cC m.nC)
    {ops : List (Op α)} (f : FitsRun ⟨o, data, grad, []⟩ ops) : FitsRun ⟨o', data, grad, []⟩ ops ∧
    ∃ A B, runOk ops ⟨o', data, grad, []⟩ = some A ∧ runOk ops ⟨o, data, grad, []⟩ = some B ∧ A.data = B.data ∧ A.opt.mom = B.opt.mom ∧
      A.opt.steps = B.opt.steps ∧ A.opt.scales = B.opt.scales ∧ ∀ m ∈ o.layers,
        denO (A.opt.Ks m.name) m.nK = denO (B.opt.Ks m.name) m.nK ∧ denO (A.opt.Cs m.name) m.nC = denO (B.opt.Cs m.name) m.nC ∧
        denO (A.opt.mKs m.name) m.nK = denO (B.opt.mKs m.name) m.nK ∧ denO (A.opt.mCs m.name) m.nC = denO (B.opt.mCs m.name) m.nC ∧
        denO (A.opt.HKs m.name) m.nK = denO (B.opt.HKs m.name) m.nK ∧ denO (A.opt.HCs m.name) m.nC = denO (B.opt.HCs m.name) m.nC := by
  have I := init_ok hn hi
  have I' := init_ok hn hi'
  obtain ⟨cl, hcl, l⟩ := I.live (grad := grad) ht ha
  obtain ⟨cl', hcl', l'⟩ := I'.live (grad := grad) ht' (by rw [hs]; exact ha)
  obtain ⟨el, ep⟩ := hgs.layers I I'
  have kp : ActAll cl' cl Bases.one (World.anon ⟨o, data, grad, []⟩) := fun m hm => by
    obtain ⟨hy, e1, e2, e3⟩ := hcl m hm
    obtain ⟨hy', e1', e2', e3'⟩ := hcl' m (by rw [el]; exact hm)
    obtain ⟨s1, s2⟩ := same m hm hy hy' _ _ _ _ e1 e2 e3 e1' e2' e3'
    have g := l.sound.good m hm
    have g' := l'.sound.good m (show m ∈ o'.layers by rw [el]; exact hm)
    rw [show Bases.one.R m = (1 : Matrix (Fin m.din) (Fin m.din) α) from rfl, extend_one]
    exact ⟨(s1.1.alike s1.2).acts g'.supK g.supK, (s2.1.alike s2.2).acts g'.supC g.supC⟩
  have r : Rot Bases.one (World.anon ⟨o', data, grad, []⟩) (World.anon ⟨o, data, grad, []⟩) := by
    refine start_rot I I' hgs hs hcl hcl' l l' (fun m hm => ⟨?_, by simp [Bases.one]⟩) (fun p => ParamRot.refl_one _ _ _) (fun p => ParamRot.refl_one _ _ _)
    rw [show Bases.one.R m = (1 : Matrix (Fin m.din) (Fin m.din) α) from rfl, extend_one]; simp
  obtain ⟨f', q⟩ := Rot.run_same l'.anon l.anon ((fitsRun_anon ops _).2 f) kp r
  rw [fitsRun_anon] at f'
  rw [run_anon, run_anon] at q
  have lA := l'.run f'
  have lB := l.run f
  have elB : (run ops (⟨o, data, grad, []⟩ : World α)).opt.layers = o.layers :=
    run_inv (P := fun v : World α => v.opt.layers = o.layers) (fun op v h => (exec_static op v).1.trans h) ops _ rfl
  have elA : (run ops (⟨o', data, grad, []⟩ : World α)).opt.layers = o.layers :=
    run_inv (P := fun v : World α => v.opt.layers = o.layers) (fun op v h => (exec_static op v).1.trans h) ops _ el
  have wq : ∀ {x y : Option (Mat α)} {r c : ℕ}, (∀ X, x = some X → X.rows = r ∧ X.cols = c) → (∀ Y, y = some Y → Y.rows = r ∧ Y.cols = c) →
      x.map (fun X => (X.rows, X.cols)) = y.map (fun X => (X.rows, X.cols)) → momO x r c = momO y r c → x = y := by
    rintro (_ | x) (_ | y) r c hx hy hxy h
    · rfl
    · simp at hxy
    · simp at hxy
    · obtain ⟨x1, x2⟩ := hx x rfl
      obtain ⟨y1, y2⟩ := hy y rfl
      rw [Mat.eq_of_M x1 x2 y1 y2 h]
  have c1 : ∀ (m : Layer) (M : Matrix (Fin m.nK) (Fin m.nK) α), conjBy (m.extend (Bases.one.R m)) M = M := fun m M => by
    rw [show Bases.one.R m = (1 : Matrix (Fin m.din) (Fin m.din) α) from rfl, extend_one, conjBy_id]
  have c2 : ∀ (m : Layer) (M : Matrix (Fin m.nC) (Fin m.nC) α), conjBy (Bases.one.S m) M = M := fun m M => conjBy_id M
  have eqP : ∀ (g : World α → Option (Mat α)) (p : ℕ),
      ParamRot Bases.one (run ops (⟨o, data, grad, []⟩ : World α)).opt.layers p (g (run ops ⟨o', data, grad, []⟩)) (g (run ops ⟨o, data, grad, []⟩)) →
      (∀ (w : World α) cl (r c : ℕ), w.Live cl → w.opt.layers = o.layers → (∀ m ∈ o.layers, World.Owns m p →
        ∀ X, g w = some X → X.rows = m.dout ∧ X.cols = if m.weight.ptr = p then m.din else 1)) → g (run ops ⟨o', data, grad, []⟩) = g (run ops ⟨o, data, grad, []⟩) := by
    intro g p h sh
    by_cases hp : ∃ m ∈ o.layers, World.Owns m p
    · obtain ⟨m, hm, ho⟩ := hp
      have s1 := sh _ _ 0 0 lA.2 elA m hm ho
      have s2 := sh _ _ 0 0 lB.2 elB m hm ho
      refine wq s1 s2 h.shape ?_
      by_cases e : m.weight.ptr = p
      · rw [if_pos e]
        have := h.weight m (by rw [elB]; exact hm) e
        rw [this]; simp [Bases.one]
      · rw [if_neg e]
        rcases ho with rfl | ⟨b, hb, rfl⟩
        · exact absurd rfl e
        · have := h.bias m (by rw [elB]; exact hm) b hb rfl
          rw [this]; simp [Bases.one]
    · exact h.other (by rw [elB]; exact fun m hm ho => hp ⟨m, hm, ho⟩)
  refine ⟨f', _, _, lA.1, lB.1, ?_, ?_, q.conf.steps, q.scales, fun m hm => ?_⟩
  · funext p
    refine Option.some_inj.1 (eqP (fun w => some (w.data p)) p (q.data p) fun w cl r c lw ew m hm ho X hX => ?_)
    cases hX
    have sh := lw.sound.shape m (by rw [ew]; exact hm)
    by_cases e : m.weight.ptr = p
    · rw [if_pos e, ← e]; exact sh.weight.data
    · rw [if_neg e]
      rcases ho with rfl | ⟨b, hb, rfl⟩
      · exact absurd rfl e
      · exact (sh.bias b hb).1.data
  · funext p
    refine eqP (fun w => w.opt.mom p) p (q.mom p) fun w cl r c lw ew m hm ho X hX => ?_
    have sh := lw.sound.shape m (by rw [ew]; exact hm)
    by_cases e : m.weight.ptr = p
    · rw [if_pos e]; exact sh.weight.mom X (by rw [e]; exact hX)
    · rw [if_neg e]
      rcases ho with rfl | ⟨b, hb, rfl⟩
      · exact absurd rfl e
      · exact (sh.bias b hb).1.mom X hX
  · rw [← elB] at hm
    have hm' : m ∈ (run ops (⟨o, data, grad, []⟩ : World α)).anon.opt.layers := hm
    refine ⟨?_, ?_, ?_, ?_, ?_, ?_⟩
    · have := q.K m hm'; rw [c1] at this; exact this
    · have := q.C m hm'; rw [c2] at this; exact this
    · have := q.mK m hm'; rw [c1] at this; exact this
    · have := q.mC m hm'; rw [c2] at this; exact this
    · have := q.HK m hm'; rw [c1] at this; exact this
    · have := q.HC m hm'; rw [c2] at this; exact this

/-! Structures that represent the same matrices in other bases -/

theorem rotate_anon (U : Bases α) (w : World α) (op : Op α) : op.anon.rotate U w.anon = (op.rotate U w).anon := by
  cases op with
  | forward i x ge =>
    show Op.rotate U w.anon (.forward i x ge) = _
    rw [Op.rotate_forward, Op.rotate_forward]; rfl
  | backward i g =>
    show Op.rotate U w.anon (.backward i g) = _
    rw [Op.rotate_backward, Op.rotate_backward]; rfl
  | _ => rfl

theorem rotateRun_anon (U : Bases α) : ∀ (ops : List (Op α)) (w : World α), rotateRun U w.anon (ops.map Op.anon) = (rotateRun U w ops).map Op.anon
  | [], _ => rfl
  | op :: ops, w => by
    rw [List.map_cons, rotateRun, rotateRun, List.map_cons, rotate_anon, exec_anon, rotateRun_anon U ops]

theorem normFits_anon {U : Bases α} : ∀ {ops : List (Op α)} {w : World α}, Along (NormFits U) w ops → Along (NormFits U) w.anon (ops.map Op.anon)
  | [], _, _ => trivial
  | op :: ops, w, ⟨h1, h2⟩ => by
    refine ⟨?_, ?_⟩
    · rcases op with _ | _ | _ | _ | _ | _ | ⟨_, _, _ | _⟩ <;> first | trivial | skip
      intro m hm h hh hn
      obtain ⟨h', e, rfl⟩ := hyperOf_anon_ok hh
      exact h1 m hm h' e hn
    · rw [exec_anon]; exact normFits_anon h2

/-- **C76 (other structures in other bases).** Linear layers: if the classes of the second optimizer represent the matrices of the first one's classes in other
bases of inputs and outputs (`Alike`), and (with normalisation) the bases keep largest entries, then training the second optimizer in these bases is training the
first: parameters and factors are the transformed ones. -/
theorem C76_rotated (hn : (model.layers.map (·.name)).Nodup) (hi : Construct.init structs model p a = .ok (o, ws))
    (hi' : Construct.init structs' model p' a' = .ok (o', ws')) (hgs : SameGroups o' o) (hs : a'.initGradScale = a.initGradScale)
    {data : ℕ → Mat α} {grad : ℕ → Option (Mat α)} {U : Bases α} (ht : Trainable o data) (ht' : Trainable o' fun p => U.param o.layers p (data p))
    (ha : 0 < a.initGradScale) (hg : ∀ p, ShapeOf o.layers p (grad p)) (hk : ∀ m ∈ o.layers, m.kind = .linear)
    (like : ∀ m ∈ o.layers, ∀ h h' cK cC cK' cC', o.hyperOf m = .ok h → structs h.structures.1 = some cK → structs h.structures.2 = some cC →
      o'.hyperOf m = .ok h' → structs' h'.structures.1 = some cK' → structs' h'.structures.2 = some cC' →
      cK'.Alike cK m.nK (m.extend (U.R m)) ∧ cC'.Alike cC m.nC (U.S m))
    {ops : List (Op α)} (f : FitsRun ⟨o, data, grad, []⟩ ops) (hG : ∀ op ∈ ops, GradsFit o.layers op) (hN : Along (NormFits U) ⟨o, data, grad, []⟩ ops) :
    let w : World α := ⟨o, data, grad, []⟩
    let w' : World α := ⟨o', fun p => U.param o.layers p (data p), fun p => (grad p).map (U.param o.layers p), []⟩
    ∃ A B, runOk (rotateRun U w ops) w' = some A ∧ runOk ops w = some B ∧ (∀ p, (∀ m ∈ o.layers, ¬ World.Owns m p) → A.data p = B.data p) ∧
      ∀ m ∈ o.layers, (A.data m.weight.ptr).M m.dout m.din = (U.S m)ᵀ * (B.data m.weight.ptr).M m.dout m.din * U.R m ∧
        (∀ b, m.bias = some b → (A.data b.ptr).M m.dout 1 = (U.S m)ᵀ * (B.data b.ptr).M m.dout 1) ∧
        denO (A.opt.Ks m.name) m.nK = (m.extend (U.R m))ᵀ * denO (B.opt.Ks m.name) m.nK * m.extend (U.R m) ∧
        denO (A.opt.Cs m.name) m.nC = (U.S m)ᵀ * denO (B.opt.Cs m.name) m.nC * U.S m := by
  intro w w'
  have I := init_ok hn hi
  have I' := init_ok hn hi'
  obtain ⟨cl, hcl, l⟩ := I.live (grad := grad) ht ha
  obtain ⟨cl', hcl', l'⟩ := I'.live (grad := fun p => (grad p).map (U.param o.layers p)) ht' (by rw [hs]; exact ha)
  obtain ⟨el, ep⟩ := hgs.layers I I'
  have hd : Distinct o.layers := fun m hm b hb => (ht.bias m hm b hb).2
  have hu := ht.untied
  have sd : ∀ p, ShapeOf o.layers p (some (data p)) := by
    rintro p X e m hm
    cases e
    exact ⟨fun e => e ▸ ht.weight m hm, fun b hb e => e ▸ (ht.bias m hm b hb).1⟩
  have kp : ActAll cl' cl U w.anon := fun m hm => by
    obtain ⟨hy, e1, e2, e3⟩ := hcl m hm
    obtain ⟨hy', e1', e2', e3'⟩ := hcl' m (by rw [el]; exact hm)
    obtain ⟨s1, s2⟩ := like m hm hy hy' _ _ _ _ e1 e2 e3 e1' e2' e3'
    have g := l.sound.good m hm
    have g' := l'.sound.good m (show m ∈ o'.layers by rw [el]; exact hm)
    exact ⟨s1.acts g'.supK g.supK, s2.acts g'.supC g.supC⟩
  have r : Rot U w'.anon w.anon :=
    start_rot I I' hgs hs hcl hcl' l l' (fun m hm => ⟨(kp m hm).1.orth, (kp m hm).2.orth⟩) (fun p => U.param_rot hu hd (sd p)) fun p => U.param_rot hu hd (hg p)
  obtain ⟨f', q⟩ := Rot.run (ops := ops.map Op.anon) l'.anon l.anon ((fitsRun_anon ops _).2 f) hk kp
    (fun op hop => by
      obtain ⟨op', h1, rfl⟩ := List.mem_map.1 hop
      have := hG op' h1
      cases op' <;> exact this) (normFits_anon hN) r
  rw [rotateRun_anon] at f' q
  rw [fitsRun_anon] at f'
  rw [run_anon, run_anon] at q
  have elB : (run ops w).opt.layers = o.layers :=
    run_inv (P := fun v : World α => v.opt.layers = o.layers) (fun op v h => (exec_static op v).1.trans h) ops _ rfl
  refine ⟨_, _, (l'.run f').1, (l.run f).1, fun p hp => ?_, fun m hm => ?_⟩
  · exact Option.some_inj.1 ((q.data p).other (by rw [show (run ops w).anon.opt.layers = _ from elB]; exact hp))
  · have hm' : m ∈ (run ops w).anon.opt.layers := by rw [show (run ops w).anon.opt.layers = _ from elB]; exact hm
    exact ⟨(q.data _).weight m hm' rfl, fun b hb => (q.data _).bias m hm' b hb rfl, q.K m hm', q.C m hm'⟩

/-! Features in reverse order -/

theorem revMat_mul_right {r n : ℕ} (B : Matrix (Fin r) (Fin n) α) (i : Fin r) (j : Fin n) : (B * (revMat n : Matrix (Fin n) (Fin n) α)) i j = B i j.rev := by
  simp only [Matrix.mul_apply, revMat]
  rw [Finset.sum_eq_single j.rev]
  · simp
  · intro k _ hk
    rw [if_neg (fun h => hk (by rw [h, Fin.rev_rev])), mul_zero]
  · simp

theorem revMat_mul_left {r n : ℕ} (B : Matrix (Fin n) (Fin r) α) (i : Fin n) (j : Fin r) : ((revMat n : Matrix (Fin n) (Fin n) α)ᵀ * B) i j = B i.rev j := by
  rw [show (revMat n : Matrix (Fin n) (Fin n) α)ᵀ * B = (Bᵀ * revMat n)ᵀ by rw [Matrix.transpose_mul, Matrix.transpose_transpose]]
  exact revMat_mul_right Bᵀ j i

theorem MaxInv.rev {n : ℕ} : MaxInv (revMat n : Matrix (Fin n) (Fin n) α) := by
  rintro M v ⟨⟨i, j, e⟩, h⟩
  refine ⟨⟨i.rev, j.rev, ?_⟩, fun i j => ?_⟩
  · rw [revMat_conj, Fin.rev_rev, Fin.rev_rev]; exact e
  · rw [revMat_conj]; exact h _ _

/-- inputs and outputs of all layers in reverse order -/
def Bases.rev : Bases α := ⟨fun m => revMat m.din, fun m => revMat m.dout⟩

theorem extend_rev {m : Layer} (hb : m.bias = none) : m.extend (revMat m.din : Matrix (Fin m.din) (Fin m.din) α) = revMat m.nK := by
  have hn : m.nK = m.din := by unfold Layer.nK; simp [hb]
  funext i j
  have h := mul_extend_weight m (revMat m.din : Matrix (Fin m.din) (Fin m.din) α) (1 : Matrix (Fin m.nK) (Fin m.nK) α) i ⟨j.1, by have := j.2; omega⟩
  rw [Matrix.one_mul] at h
  rw [show j = ⟨(⟨j.1, by have := j.2; omega⟩ : Fin m.din).1, by unfold Layer.nK; omega⟩ from rfl, h]
  rw [Finset.sum_eq_single (⟨i.1, by have := i.2; omega⟩ : Fin m.din)]
  · simp only [revMat, Matrix.one_apply_eq, one_mul]
    congr 1
    apply propext
    rw [Fin.ext_iff, Fin.ext_iff, Fin.val_rev, Fin.val_rev]
    show j.1 = m.din - (i.1 + 1) ↔ j.1 = m.nK - (i.1 + 1)
    omega
  · intro k _ hk
    rw [Matrix.one_apply_ne, zero_mul]
    intro e
    apply hk
    rw [e]
  · simp

/-- **C76 (mirror images).** Linear layers without bias and without blocks of equal size: training with the mirrored structures (lower and upper triangular Toeplitz
swapped, bordered classes read from the other corner) and all features of inputs and outputs in reverse order is training with the structures themselves. -/
theorem C76_reversed (hn : (model.layers.map (·.name)).Nodup) (hi : Construct.init structs model p a = .ok (o, ws))
    (hi' : Construct.init structs' model p' a' = .ok (o', ws')) (hgs : SameGroups o' o) (hs : a'.initGradScale = a.initGradScale)
    {data : ℕ → Mat α} {grad : ℕ → Option (Mat α)} (ht : Trainable o data) (ht' : Trainable o' fun p => Bases.rev.param o.layers p (data p))
    (ha : 0 < a.initGradScale) (hg : ∀ p, ShapeOf o.layers p (grad p)) (hk : ∀ m ∈ o.layers, m.kind = .linear ∧ m.bias = none)
    (mir : ∀ m ∈ o.layers, ∀ h h' cK cC, o.hyperOf m = .ok h → structs h.structures.1 = some cK → structs h.structures.2 = some cC →
      o'.hyperOf m = .ok h' → cK.NoBlock ∧ cC.NoBlock ∧ structs' h'.structures.1 = some cK.mirror ∧ structs' h'.structures.2 = some cC.mirror)
    {ops : List (Op α)} (f : FitsRun ⟨o, data, grad, []⟩ ops) (hG : ∀ op ∈ ops, GradsFit o.layers op) :
    let w : World α := ⟨o, data, grad, []⟩
    let w' : World α := ⟨o', fun p => Bases.rev.param o.layers p (data p), fun p => (grad p).map (Bases.rev.param o.layers p), []⟩
    ∃ A B, runOk (rotateRun Bases.rev w ops) w' = some A ∧ runOk ops w = some B ∧ ∀ m ∈ o.layers,
      (∀ (i : Fin m.dout) (j : Fin m.din), (A.data m.weight.ptr).get i j = (B.data m.weight.ptr).get i.rev j.rev) ∧
      (∀ i j : Fin m.nK, denO (A.opt.Ks m.name) m.nK i j = denO (B.opt.Ks m.name) m.nK i.rev j.rev) ∧
      (∀ i j : Fin m.nC, denO (A.opt.Cs m.name) m.nC i j = denO (B.opt.Cs m.name) m.nC i.rev j.rev) := by
  intro w w'
  have hN : ∀ m ∈ o.layers, MaxInv (m.extend (Bases.rev.R m)) ∧ MaxInv (Bases.rev.S m : Matrix (Fin m.dout) (Fin m.dout) α) := fun m hm =>
    ⟨by rw [show Bases.rev.R m = (revMat m.din : Matrix (Fin m.din) (Fin m.din) α) from rfl, extend_rev (hk m hm).2]; exact MaxInv.rev, MaxInv.rev⟩
  have nf : ∀ (ops : List (Op α)) (w : World α), w.opt.layers = o.layers → Along (NormFits Bases.rev) w ops := by
    intro ops
    induction ops with
    | nil => exact fun _ _ => trivial
    | cons op ops ih =>
      refine fun w hw => ⟨?_, ih _ ((exec_static op w).1.trans hw)⟩
      rcases op with _ | _ | _ | _ | _ | _ | ⟨_, _, _ | _⟩ <;> first | trivial | exact fun m hm _ _ _ => hN m (by rw [← hw]; exact hm)
  obtain ⟨A, B, e1, e2, _, e4⟩ := C76_rotated (U := Bases.rev) hn hi hi' hgs hs ht ht' ha hg (fun m hm => (hk m hm).1) (fun m hm h h' cK cC cK' cC' q1 q2 q3 q4 q5 q6 => by
    obtain ⟨b1, b2, b3, b4⟩ := mir m hm h h' cK cC q1 q2 q3 q4
    rw [q5] at b3; rw [q6] at b4
    cases b3; cases b4
    have I := init_ok hn hi
    obtain ⟨s1, _, s2, _⟩ := ht.cls m hm h cK cC q1 (by rw [I.structs]; exact q2) (by rw [I.structs]; exact q3)
    rw [show Bases.rev.R m = (revMat m.din : Matrix (Fin m.din) (Fin m.din) α) from rfl, extend_rev (hk m hm).2]
    exact ⟨Cls.mirror_alike b1 s1, Cls.mirror_alike b2 s2⟩) f hG (nf ops w rfl)
  refine ⟨A, B, e1, e2, fun m hm => ?_⟩
  obtain ⟨h1, _, h3, h4⟩ := e4 m hm
  refine ⟨fun i j => ?_, fun i j => ?_, fun i j => ?_⟩
  · have := congrFun (congrFun h1 i) j
    rw [show (Bases.rev.R m : Matrix (Fin m.din) (Fin m.din) α) = revMat m.din from rfl, show (Bases.rev.S m : Matrix (Fin m.dout) (Fin m.dout) α) = revMat m.dout from rfl,
      revMat_mul_right, revMat_mul_left] at this
    exact this
  · rw [h3, show Bases.rev.R m = (revMat m.din : Matrix (Fin m.din) (Fin m.din) α) from rfl, extend_rev (hk m hm).2]
    exact revMat_conj _ i j
  · rw [h4]
    exact revMat_conj _ i j

/-! The argument `structures` -/

theorem checked_anon (h : Hyper α) : (checked h).anon = checked h.anon := by
  unfold checked Hyper.anon; dsimp only; split <;> rfl

theorem checkGroups_anon {gs gs' : List (PGroup α)} {i : ℕ} {x x' : List (PGroup α) × List Warn} (e : gs'.map PGroup.anon = gs.map PGroup.anon)
    (q : checkGroups i gs = .ok x) (q' : checkGroups i gs' = .ok x') : x'.1.map PGroup.anon = x.1.map PGroup.anon := by
  obtain ⟨_, h1, _⟩ := checkGroups_ok (gs' := x.1) (ws := x.2) q
  obtain ⟨_, h2, _⟩ := checkGroups_ok (gs' := x'.1) (ws := x'.2) q'
  have k : ∀ gs : List (PGroup α), (gs.map fun g => { g with h := checked g.h }).map PGroup.anon = (gs.map PGroup.anon).map fun g => { g with h := checked g.h } := by
    intro gs
    rw [List.map_map, List.map_map]
    refine List.map_congr_left fun g _ => ?_
    show PGroup.mk g.params (checked g.h).anon = PGroup.mk g.params (checked g.h.anon)
    rw [checked_anon]
  rw [h1, h2, k, k, e]

/-- entries of a group do not look at the structures given as defaults, other than to copy them -/
def GroupArg.Plain (g : GroupArg α) : Prop := ∀ h h' : Hyper α, h'.anon = h.anon → (g.entries h').anon = (g.entries h).anon

theorem addGroups_anon {d d' : Hyper α} (e : d'.anon = d.anon) : ∀ {ga : List (GroupArg α)} {seen : List ℕ} {gs gs' : List (PGroup α)}, (∀ g ∈ ga, g.Plain) →
    addGroups d seen ga = .ok gs → addGroups d' seen ga = .ok gs' → gs'.map PGroup.anon = gs.map PGroup.anon
  | [], _, _, _, _, q, q' => by cases q; cases q'; rfl
  | g :: ga, seen, gs, gs', hp, q, q' => by
    unfold addGroups at q q'
    split at q
    · cases q
    · rw [if_neg (by assumption)] at q'
      obtain ⟨r, c, q⟩ := IOProof.Except.bind_eq_ok q
      obtain ⟨r', c', q'⟩ := IOProof.Except.bind_eq_ok q'
      cases q; cases q'
      have k := addGroups_anon e (fun g hg => hp g (List.mem_cons_of_mem _ hg)) c c'
      refine congrArg₂ List.cons ?_ k
      show PGroup.mk _ (g.entries d').anon = PGroup.mk _ (g.entries d).anon
      rw [hp g (by simp) d d' e]

/-- construction with other values of the argument `structures`: the groups differ at most in the names of structures -/
theorem sameGroups_structures (hn : (model.layers.map (·.name)).Nodup) {s : String × String} (hi : Construct.init structs model p a = .ok (o, ws))
    (hi' : Construct.init structs' model p { a with structures := s } = .ok (o', ws')) (hp : ∀ gs, p = .groups gs → ∀ g ∈ gs, g.Plain) : SameGroups o' o := by
  obtain ⟨gs, ws1, t1, c1, _⟩ := (init_ok hn hi).groups
  obtain ⟨gs', ws1', t1', c1', _⟩ := (init_ok hn hi').groups
  refine checkGroups_anon ?_ c1 c1'
  unfold torchInit at t1 t1'
  split at t1
  · cases t1
  · rw [if_neg (by assumption)] at t1'
    refine addGroups_anon (d := defaults a) (d' := defaults { a with structures := s }) rfl ?_ t1 t1'
    intro g hg
    unfold groupArgs at hg
    cases p with
    | default =>
      dsimp only at hg
      split at hg
      · cases hg
      · obtain rfl := List.mem_singleton.1 hg
        exact fun h h' e => e
    | flat ps =>
      dsimp only at hg
      split at hg
      · cases hg
      · obtain rfl := List.mem_singleton.1 hg
        exact fun h h' e => e
    | groups gs => exact hp gs rfl g hg

/-- **C76 (library).** With the library's structures `dense` and `hierarchical15_15` (in any combination, for any parameter groups) and layers of dimensions up
to 15, the two are the same optimizer: constructing with another value of `structures` and training alike gives equal parameters. -/
theorem C76_library (hn : (model.layers.map (·.name)).Nodup) {s : String × String} (hi : Construct.init supportedStructures model p a = .ok (o, ws))
    (hi' : Construct.init supportedStructures model p { a with structures := s } = .ok (o', ws')) (hp : ∀ gs, p = .groups gs → ∀ g ∈ gs, g.Plain)
    {data : ℕ → Mat α} {grad : ℕ → Option (Mat α)} (ht : Trainable o data) (ht' : Trainable o' data) (ha : 0 < a.initGradScale)
    (small : ∀ m ∈ o.layers, m.nK ≤ 15 ∧ m.nC ≤ 15)
    (names : ∀ m ∈ o.layers, ∀ h, o.hyperOf m = .ok h ∨ o'.hyperOf m = .ok h →
      h.structures.1 ∈ ["dense", "hierarchical15_15"] ∧ h.structures.2 ∈ ["dense", "hierarchical15_15"])
    {ops : List (Op α)} (f : FitsRun ⟨o, data, grad, []⟩ ops) :
    ∃ A B, runOk ops ⟨o', data, grad, []⟩ = some A ∧ runOk ops ⟨o, data, grad, []⟩ = some B ∧ A.data = B.data := by
  have key : ∀ {s s' : String} {c c' : Cls} {n : ℕ}, s ∈ ["dense", "hierarchical15_15"] → s' ∈ ["dense", "hierarchical15_15"] → supportedStructures s = some c →
      supportedStructures s' = some c' → n ≤ 15 → Cls.Interchangeable α c' c n := by
    intro s s' c c' n m1 m2 e1 e2 hn
    simp only [List.mem_cons, List.not_mem_nil, or_false] at m1 m2
    have d : supportedStructures "dense" = some .dense := rfl
    have h : supportedStructures "hierarchical15_15" = some (.hier 15 15) := by decide
    have sd : Cls.Same α (.hier 15 15) .dense n := Cls.same_hier_dense hn
    rcases m1 with rfl | rfl <;> rcases m2 with rfl | rfl
    · rw [d] at e1 e2; cases e1; cases e2; exact ⟨fun _ => Iff.rfl, .inl Iff.rfl⟩
    · rw [d] at e1; rw [h] at e2; cases e1; cases e2; exact ⟨sd, .inl Iff.rfl⟩
    · rw [h] at e1; rw [d] at e2; cases e1; cases e2; exact ⟨sd.symm, .inl Iff.rfl⟩
    · rw [h] at e1 e2; cases e1; cases e2; exact ⟨fun _ => Iff.rfl, .inl Iff.rfl⟩
  obtain ⟨_, A, B, e1, e2, e3, _⟩ := C76_interchange hn hi hi' (sameGroups_structures hn hi hi' hp) rfl ht ht' ha
    (fun m hm h h' cK cC cK' cC' q1 q2 q3 q4 q5 q6 => ⟨key (names m hm h (.inl q1)).1 (names m hm h' (.inr q4)).1 q2 q5 (small m hm).1,
      key (names m hm h (.inl q1)).2 (names m hm h' (.inr q4)).2 q3 q6 (small m hm).2⟩) f
  exact ⟨A, B, e1, e2, e3⟩

end

/-- **C76 (names are read once).** Two histories that differ only in the names of structures written into the parameter groups (`setHyper`) have the same
outcomes: after construction the names are never looked up. -/
theorem C76_names (w : World α) {ops ops' : List (Op α)} (h : ops'.map Op.anon = ops.map Op.anon) :
    (run ops' w).data = (run ops w).data ∧ (run ops' w).opt.Ks = (run ops w).opt.Ks ∧ (run ops' w).opt.Cs = (run ops w).opt.Cs ∧
    (run ops' w).opt.mKs = (run ops w).opt.mKs ∧ (run ops' w).opt.mCs = (run ops w).opt.mCs ∧ (run ops' w).opt.HKs = (run ops w).opt.HKs ∧
    (run ops' w).opt.HCs = (run ops w).opt.HCs ∧ (run ops' w).opt.mom = (run ops w).opt.mom ∧ (run ops' w).opt.steps = (run ops w).opt.steps ∧
    (run ops' w).opt.scales = (run ops w).opt.scales ∧ (run ops' w).hooks = (run ops w).hooks ∧ ∀ op, (exec op (run ops' w)).1 = (exec op (run ops w)).1 := by
  have e : (run ops' w).anon = (run ops w).anon := by rw [← run_anon, ← run_anon, h]
  have g := fun {β : Type} (f : World α → β) => congrArg f e
  refine ⟨g World.data, g (fun w => w.opt.Ks), g (fun w => w.opt.Cs), g (fun w => w.opt.mKs), g (fun w => w.opt.mCs), g (fun w => w.opt.HKs), g (fun w => w.opt.HCs),
    g (fun w => w.opt.mom), g (fun w => w.opt.steps), g (fun w => w.opt.scales), g World.hooks, fun op => ?_⟩
  have h1 := congrArg Prod.fst (exec_anon op (run ops' w))
  have h2 := congrArg Prod.fst (exec_anon op (run ops w))
  rw [e] at h1
  exact h1.symm.trans h2

/-! Which of the library's structures are interchangeable -/

section
variable {α : Type} [Field α] [LinearOrder α] [IsStrictOrderedRing α] {n : ℕ}

/-- one entry -/
def unitF (a b i j : ℕ) : α := if i = a ∧ j = b then 1 else 0
/-- the diagonal below the main one -/
def subF (i j : ℕ) : α := if i = j + 1 then 1 else 0
/-- the diagonal above the main one -/
def supF (i j : ℕ) : α := if j = i + 1 then 1 else 0

theorem not_tril_unit (h : 1 < n) : ¬ Cls.RepF .tril n (unitF 0 1 : ℕ → ℕ → α) := fun q => by
  obtain ⟨t, q⟩ := (repF_tril (by omega)).1 q
  have := q 0 (by omega) 1 h
  simp [unitF] at this
theorem not_triu_unit (h : 1 < n) : ¬ Cls.RepF .triu n (unitF 1 0 : ℕ → ℕ → α) := fun q => by
  obtain ⟨t, q⟩ := (repF_triu (by omega)).1 q
  have := q 1 h 0 (by omega)
  simp [unitF] at this
theorem not_diag_unit (h : 1 < n) : ¬ Cls.RepF .diagonal n (unitF 0 1 : ℕ → ℕ → α) := fun q => by
  have := repF_diagonal.1 q 0 (by omega) 1 h (by omega)
  simp [unitF] at this
theorem block_unit {a b : ℕ} (ha : a < 2) (hb : b < 2) : Cls.RepF (.block 30) n (unitF a b : ℕ → ℕ → α) := (repF_block (by omega)).2 fun i hi j hj e => by
  refine if_neg ?_
  rintro ⟨rfl, rfl⟩
  omega
theorem hier_unit {a b : ℕ} (ha : a < 2) (hb : b < 2) : Cls.RepF (.hier 15 15) n (unitF a b : ℕ → ℕ → α) := (repF_hier (hierDims 15 15 n)).2 fun i hi j hj e => by
  refine if_neg ?_
  rintro ⟨rfl, rfl⟩
  omega
theorem tril_sub (h : 0 < n) : Cls.RepF .tril n (subF : ℕ → ℕ → α) := (repF_tril h).2 ⟨fun k => if k = 1 then 1 else 0, fun i hi j hj => by
  unfold subF
  by_cases q : j ≤ i
  · rw [if_pos q]; congr 1; apply propext; omega
  · rw [if_neg q, if_neg (by omega)]⟩
theorem triu_sup (h : 0 < n) : Cls.RepF .triu n (supF : ℕ → ℕ → α) := (repF_triu h).2 ⟨fun k => if k = 1 then 1 else 0, fun i hi j hj => by
  unfold supF
  by_cases q : i ≤ j
  · rw [if_pos q]; congr 1; apply propext; omega
  · rw [if_neg q, if_neg (by omega)]⟩

/-- **C76 (table).** Which of the library's structures represent the same `n × n` matrices: `hierarchical15_15` and `dense` up to dimension 15, `block30diagonal` and
`dense` up to 30, `block30diagonal` and `hierarchical15_15` up to 15, all other pairs only for `n = 1`. -/
theorem C76_table (hn : 0 < n) : (Cls.Same α (.hier 15 15) .dense n ↔ n ≤ 15) ∧ (Cls.Same α (.block 30) .dense n ↔ n ≤ 30) ∧
    (Cls.Same α (.block 30) (.hier 15 15) n ↔ n ≤ 15) ∧
    ∀ q ∈ [(Cls.dense, Cls.diagonal), (.block 30, .diagonal), (.hier 15 15, .diagonal), (.dense, .tril), (.block 30, .tril), (.hier 15 15, .tril), (.dense, .triu),
      (.block 30, .triu), (.hier 15 15, .triu), (.tril, .diagonal), (.triu, .diagonal), (.tril, .triu)], Cls.Same α q.1 q.2 n ↔ n ≤ 1 := by
  have corner : ∀ h : 15 < n, ¬ Cls.RepF (.hier 15 15) n (unitF 15 0 : ℕ → ℕ → α) := fun h q => by
    have := (repF_hier (hierDims 15 15 n)).1 q 15 h 0 (by omega) (by omega)
    simp [unitF] at this
  have low : ∀ {c c' : Cls}, c.Supports 1 → c'.Supports 1 → (∀ h : 1 < n, ∃ f : ℕ → ℕ → α, c.RepF n f ∧ ¬ c'.RepF n f) → (Cls.Same α c c' n ↔ n ≤ 1) := by
    intro c c' s s' h
    refine ⟨fun q => ?_, fun q => ?_⟩
    · by_contra hc
      obtain ⟨f, h1, h2⟩ := h (by omega)
      exact h2 ((q.repF f).1 h1)
    · obtain rfl : n = 1 := by omega
      exact Cls.same_one s s'
  refine ⟨⟨fun q => ?_, fun q => Cls.same_hier_dense q⟩, ⟨fun q => ?_, fun q => Cls.same_block_dense q (by omega)⟩, ⟨fun q => ?_, fun q => ?_⟩, ?_⟩
  · by_contra hc
    exact corner (by omega) ((q.repF _).2 (repF_dense _ _))
  · by_contra hc
    have := (repF_block (by omega)).1 ((q.repF (unitF 0 30 : ℕ → ℕ → α)).2 (repF_dense _ _)) 0 hn 30 (by omega) (by decide)
    simp [unitF] at this
  · by_contra hc
    refine corner (by omega) ((q.repF _).1 ((repF_block (by omega)).2 fun i hi j hj e => if_neg ?_))
    rintro ⟨rfl, rfl⟩
    exact e (by decide)
  · exact (Cls.same_block_dense (by omega) (by omega)).trans (Cls.same_hier_dense q).symm
  · have p1 : 0 < 30 := by omega
    simp only [List.mem_cons, List.not_mem_nil, or_false]
    rintro q (rfl | rfl | rfl | rfl | rfl | rfl | rfl | rfl | rfl | rfl | rfl | rfl)
    · exact low trivial trivial fun h => ⟨_, repF_dense _ _, not_diag_unit h⟩
    · exact low p1 trivial fun h => ⟨_, block_unit (by omega) (by omega), not_diag_unit h⟩
    · exact low trivial trivial fun h => ⟨_, hier_unit (by omega) (by omega), not_diag_unit h⟩
    · exact low trivial one_pos fun h => ⟨_, repF_dense _ _, not_tril_unit h⟩
    · exact low p1 one_pos fun h => ⟨_, block_unit (by omega) (by omega), not_tril_unit h⟩
    · exact low trivial one_pos fun h => ⟨_, hier_unit (by omega) (by omega), not_tril_unit h⟩
    · exact low trivial one_pos fun h => ⟨_, repF_dense _ _, not_triu_unit h⟩
    · exact low p1 one_pos fun h => ⟨_, block_unit (by omega) (by omega), not_triu_unit h⟩
    · exact low trivial one_pos fun h => ⟨_, hier_unit (by omega) (by omega), not_triu_unit h⟩
    · refine low one_pos trivial fun h => ⟨_, tril_sub hn, fun q => ?_⟩
      have := repF_diagonal.1 q 1 h 0 hn (by omega)
      simp [subF] at this
    · refine low one_pos trivial fun h => ⟨_, triu_sup hn, fun q => ?_⟩
      have := repF_diagonal.1 q 0 hn 1 h (by omega)
      simp [supF] at this
    · refine low one_pos one_pos fun h => ⟨_, tril_sub hn, fun q => ?_⟩
      obtain ⟨t, q⟩ := (repF_triu hn).1 q
      have := q 1 h 0 hn
      simp [subF] at this

end

section
variable {α : Type} [Field α] [LinearOrder α] [IsStrictOrderedRing α] {n : ℕ}

/-- **C76 (which structures of the library may be exchanged).** Two different structures of the library are interchangeable at dimension `n` exactly if `n = 1`, or they
are `dense` and `hierarchical15_15` and `n ≤ 15`. (`block30diagonal` represents the matrices of `dense` up to dimension 30, but computes with them differently.) -/
theorem C76_exchange_iff (hn : 0 < n) {s s' : String} {c c' : Cls} (e : supportedStructures s = some c) (e' : supportedStructures s' = some c') (hs : s ≠ s') :
    Cls.Interchangeable α c c' n ↔ n ≤ 1 ∨ (n ≤ 15 ∧ (c = .dense ∧ c' = .hier 15 15 ∨ c = .hier 15 15 ∧ c' = .dense)) := by
  obtain ⟨t1, t2, t3, t4⟩ := C76_table (α := α) hn
  have S : ∀ {c c' : Cls}, Cls.Same α c c' n ↔ Cls.Same α c' c n := ⟨Cls.Same.symm, Cls.Same.symm⟩
  have sup := (supportedStructures_good e one_pos).1
  have sup' := (supportedStructures_good e' one_pos).1
  have sm : ∀ {c : Cls}, 1 < n → c.RepF n (unitF 0 1 : ℕ → ℕ → α) → ¬ ∀ A : Matrix (Fin n) (Fin n) α, c.Rep n A → Aᵀ = A := by
    intro c h1 h2 h
    have := congrFun (congrFun (h _ (Cls.RepF.toRep.1 h2)) ⟨0, hn⟩) ⟨1, h1⟩
    simp [unitF, Matrix.of_apply] at this
  constructor
  · rintro ⟨h, hf⟩
    by_contra hc
    have h1 : 1 < n := by omega
    have d : ∀ q ∈ [(Cls.dense, Cls.diagonal), (.block 30, .diagonal), (.hier 15 15, .diagonal), (.dense, .tril), (.block 30, .tril), (.hier 15 15, .tril), (.dense, .triu),
      (.block 30, .triu), (.hier 15 15, .triu), (.tril, .diagonal), (.triu, .diagonal), (.tril, .triu)], ¬ Cls.Same α q.1 q.2 n := fun q hq h => by
      have := (t4 q hq).1 h; omega
    simp only [List.forall_mem_cons, List.not_mem_nil, IsEmpty.forall_iff, implies_true, and_true] at d
    obtain ⟨d1, d2, d3, d4, d5, d6, d7, d8, d9, d10, d11, d12⟩ := d
    have nb : ¬ ((Cls.block 30).IsBlock ↔ Cls.dense.IsBlock) := fun h => h.1 trivial
    have nb' : ¬ (Cls.dense.IsBlock ↔ (Cls.block 30).IsBlock) := fun h => h.2 trivial
    have nh : ¬ ((Cls.block 30).IsBlock ↔ (Cls.hier 15 15).IsBlock) := fun h => h.1 trivial
    have nh' : ¬ ((Cls.hier 15 15).IsBlock ↔ (Cls.block 30).IsBlock) := fun h => h.2 trivial
    have z1 := sm (c := .dense) h1 (repF_dense _ _)
    have z2 := sm (c := .block 30) h1 (block_unit (by omega) (by omega))
    have z3 := sm (c := .hier 15 15) h1 (hier_unit (by omega) (by omega))
    unfold supportedStructures at e e'
    split_ifs at e <;> split_ifs at e' <;> first | (subst_vars; exact hs rfl) | skip
    all_goals cases e; cases e'
    all_goals first
      | exact d1 h | exact d2 h | exact d3 h | exact d4 h | exact d5 h | exact d6 h | exact d7 h | exact d8 h | exact d9 h | exact d10 h | exact d11 h | exact d12 h
      | exact d1 h.symm | exact d2 h.symm | exact d3 h.symm | exact d4 h.symm | exact d5 h.symm | exact d6 h.symm | exact d7 h.symm | exact d8 h.symm
      | exact d9 h.symm | exact d10 h.symm | exact d11 h.symm | exact d12 h.symm
      | exact hf.elim nb z1 | exact hf.elim nb' z2 | exact hf.elim nh z3 | exact hf.elim nh' z2
      | exact hc (.inr ⟨t1.1 h, .inr ⟨rfl, rfl⟩⟩) | exact hc (.inr ⟨t1.1 h.symm, .inl ⟨rfl, rfl⟩⟩)
  · rintro (h | ⟨h, ⟨rfl, rfl⟩ | ⟨rfl, rfl⟩⟩)
    · obtain rfl : n = 1 := by omega
      refine ⟨Cls.same_one sup sup', .inr fun A _ => ?_⟩
      funext i j
      rw [Matrix.transpose_apply, Subsingleton.elim i j]
    · exact ⟨(t1.2 h).symm, .inl Iff.rfl⟩
    · exact ⟨t1.2 h, .inl Iff.rfl⟩

end

/-- **C76 (false for blocks).** `block30diagonal` and `dense` represent the same 2 × 2 matrices, yet training differs: the first step agrees, the second gives
different weights (the block-diagonal class computes `K K` where the others compute `K Kᵀ`). -/
theorem C76_block_false : ∃ (a : Args ℚ) (p1 p2 : List (Op ℚ)),
    let w := Sample.world Sample.model .default { a with structures := ("dense", "dense") }
    let w' := Sample.world Sample.model .default { a with structures := ("block30diagonal", "dense") }
    Reachable supportedStructures w ∧ Reachable supportedStructures w' ∧ (∀ m ∈ w.opt.layers, m.nK = 2 ∧ m.nC = 1) ∧ w'.opt.layers = w.opt.layers ∧
    (runOk (p1 ++ p2) w).isSome = true ∧ (runOk (p1 ++ p2) w').isSome = true ∧
    ((run p1 w').data 2).toLists = ((run p1 w).data 2).toLists ∧ ((run (p1 ++ p2) w').data 2).toLists ≠ ((run (p1 ++ p2) w).data 2).toLists :=
  ⟨{ Sample.args with T := 1 }, Sample.pass ++ [.step false none false],
    [.forward 0 (Sample.row [1]) true, .forward 1 (Sample.row [2, 0]) true, .backward 3 (Sample.row [1]), .backward 2 (Sample.row [2]), .step false none false],
    Sample.reachable (by decide +kernel) (by decide +kernel) [], Sample.reachable (by decide +kernel) (by decide +kernel) [], by decide +kernel, by decide +kernel,
    by decide +kernel, by decide +kernel, by decide +kernel, by decide +kernel⟩

-- the same histories with the hierarchical structure agree with dense
example : let w := Sample.world Sample.model .default { Sample.args with T := 1, structures := ("dense", "dense") }
    let w' := Sample.world Sample.model .default { Sample.args with T := 1, structures := ("hierarchical15_15", "dense") }
    let ops : List (Op ℚ) := Sample.pass ++ [.step false none false, .forward 0 (Sample.row [1]) true, .forward 1 (Sample.row [2, 0]) true,
      .backward 3 (Sample.row [1]), .backward 2 (Sample.row [2]), .step false none false]
    ((run ops w').data 2).toLists = ((run ops w).data 2).toLists ∧ ((run ops w).data 2).toLists ≠ (w.data 2).toLists := by decide +kernel

-- the two triangular Toeplitz classes are not interchangeable, but mirror images
example : Cls.mirror .tril = .triu ∧ (Cls.topRight (.int 2) .inf .dense .tril).mirror = .bottomLeft .inf (.int 2) .triu .dense := ⟨rfl, rfl⟩

-- a history with different names of structures: `C76_names`
example : ([Op.setHyper 0 { defaults Sample.args with structures := ("nonsense", "dense") }, .step false none false] : List (Op ℚ)).map Op.anon =
    ([Op.setHyper 0 { defaults Sample.args with structures := ("dense", "dense") }, .step false none false] : List (Op ℚ)).map Op.anon := rfl

-- the hypotheses of `C76_library` hold for a model with two layers
example : ∃ (o o' : Opt ℝ) (ws ws' : List Warn) (ops : List (Op ℝ)),
    Construct.init supportedStructures Sample.model .default { Sample.gargs with structures := ("dense", "hierarchical15_15") } = .ok (o, ws) ∧
    Construct.init supportedStructures Sample.model .default { Sample.gargs with structures := ("hierarchical15_15", "dense") } = .ok (o', ws') ∧
    Trainable o Sample.gdata ∧ Trainable o' Sample.gdata ∧ (∀ m ∈ o.layers, m.nK ≤ 15 ∧ m.nC ≤ 15) ∧
    (∀ m ∈ o.layers, ∀ h, o.hyperOf m = .ok h ∨ o'.hyperOf m = .ok h → h.structures.1 ∈ ["dense", "hierarchical15_15"] ∧
      h.structures.2 ∈ ["dense", "hierarchical15_15"]) ∧ FitsRun ⟨o, Sample.gdata, Sample.ggrad, []⟩ ops ∧ ops.length = 5 := by
  have h2 : ¬ ((2⁻¹ : ℝ) < 0) := by norm_num
  obtain ⟨o, ws, hi, hl, hh, ht⟩ := Sample.glive_any (α := ℝ) (a := { Sample.gargs with structures := ("dense", "hierarchical15_15") }) (cK := .dense) (cC := .hier 15 15)
    (by simp [validate, Sample.gargs, PyNum.rejected, PyRate.rejected, h2]) rfl rfl (by decide) ⟨Or.inl rfl, Or.inr (Or.inl rfl)⟩
    (by simp [checked, defaults, Sample.gargs]) (show (2 : ℕ) ≠ 0 by decide)
  obtain ⟨o', ws', hi', hl', hh', ht'⟩ := Sample.glive_any (α := ℝ) (a := { Sample.gargs with structures := ("hierarchical15_15", "dense") }) (cK := .hier 15 15) (cC := .dense)
    (by simp [validate, Sample.gargs, PyNum.rejected, PyRate.rejected, h2]) rfl (by decide) rfl ⟨Or.inl rfl, Or.inr (Or.inl rfl)⟩
    (by simp [checked, defaults, Sample.gargs]) (show (2 : ℕ) ≠ 0 by decide)
  have I := init_ok (by decide) hi
  obtain ⟨cl, _, l⟩ := I.live (grad := Sample.ggrad) ht one_pos
  have hgr : ∀ m ∈ o.layers, LayerGrads ⟨o, Sample.gdata, Sample.ggrad, []⟩ m := by
    intro m hm
    rw [hl] at hm
    simp only [List.mem_cons, List.not_mem_nil, or_false] at hm
    rcases hm with rfl | rfl
    · exact ⟨⟨_, rfl, rfl, rfl⟩, fun b hb => by cases hb; exact ⟨_, rfl, rfl, rfl⟩⟩
    · exact ⟨⟨_, rfl, rfl, rfl⟩, fun b hb => by cases hb⟩
  obtain ⟨b1, b2, b3, b4, q1, q2, q3, q4, q5, q6, q7, q8, fB⟩ := Sample.pass_states l hl (fun m hm => ⟨_, hh m hm, by rw [I.steps]; rfl⟩) rfl
    (x0 := Sample.grow 1) (x1 := Sample.grow 2) (g0 := Sample.grow 1) (g1 := Sample.grow 1) rfl rfl rfl rfl hgr (attr := none) (by simp)
  refine ⟨o, o', ws, ws', _, hi, hi', ht, ht', fun m hm => ?_, fun m hm h e => ?_, fB, rfl⟩
  · rw [hl] at hm
    simp only [List.mem_cons, List.not_mem_nil, or_false] at hm
    rcases hm with rfl | rfl <;> exact ⟨by decide, by decide⟩
  · rcases e with e | e
    · rw [hh m hm] at e; cases e; simp [defaults]
    · rw [hh' m (by rw [hl', ← hl]; exact hm)] at e; cases e; simp [defaults]

namespace Sample

/-- the second layer of the sample model alone can be trained with any accepted arguments -/
theorem solo_any {a : Args α} {cK cC : Cls} (hv : validate a = .ok ()) (hK : supportedStructures a.structures.1 = some cK) (hC : supportedStructures a.structures.2 = some cC)
    (hac : Accepted (defaults a)) (hck : checked (defaults a) = defaults a) (hT : a.T ≠ 0) (data : ℕ → Mat α) (hd : (data 2).OfShape 1 2) :
    ∃ (o : Opt α) (ws : List Warn), Construct.init supportedStructures model (.flat [⟨2, true⟩]) a = .ok (o, ws) ∧
    o.layers = [lb] ∧ o.hyperOf lb = .ok (defaults a) ∧ Trainable o data := by
  let gs : List (PGroup α) := [⟨[2], defaults a⟩]
  have hga : (groupArgs model.layers a.warnUnsupported (.flat [⟨2, true⟩] : ParamArg α)).1 = [⟨[⟨2, true⟩], id⟩] := rfl
  have hgs : gs = (groupArgs model.layers a.warnUnsupported (.flat [⟨2, true⟩] : ParamArg α)).1.map fun g =>
      ⟨g.params.map (·.ptr), checked (g.entries (defaults a))⟩ := by
    rw [hga]; simp [gs, hck]
  have hhk : hooked model.layers gs = [lb] := rfl
  have ex : ∃ (o : Opt α) (ws : List Warn), Construct.init supportedStructures model (.flat [⟨2, true⟩]) a = .ok (o, ws) := by
    refine init_exists rfl hv ?_ ?_ ?_ gs hgs rfl ?_
    · rw [hga]; simp
    · rw [hga]; simp [GroupsDisjoint]
    · rw [hga]
      intro g hg
      obtain rfl := List.mem_singleton.1 hg
      exact hac
    · rw [hhk]
      intro m hm
      obtain rfl := List.mem_singleton.1 hm
      exact ⟨0, ⟨[2], defaults a⟩, cK, cC, rfl, rfl, hK, hC, (supportedStructures_good hK (by decide)).1, (supportedStructures_good hC (by decide)).1⟩
  obtain ⟨o, ws, h⟩ := ex
  have I := init_ok (by decide) h
  have hg : o.groups = gs := by rw [I.groups_eq]; exact hgs.symm
  have hl : o.layers = [lb] := by rw [I.layers, hg]; rfl
  have hh : o.hyperOf lb = .ok (defaults a) := by
    unfold Opt.hyperOf
    rw [I.ptrGroup, hg]
    rfl
  have hall : ∀ P : Layer → Prop, (∀ m ∈ o.layers, P m) ↔ P lb := fun P => by rw [hl]; simp
  refine ⟨o, ws, h, hl, hh, ?_, ?_, ?_, ?_, ?_, ?_, ?_⟩
  · rw [hl]; exact List.pairwise_singleton _ _
  · rw [hall]; decide
  · rw [hall]; decide
  · rw [hall]; exact hd
  · rw [hall]; intro b hb; cases hb
  · rw [hall]
    intro hy cK cC e1 e2 e3
    rw [I.structs] at e2 e3
    have a1 := supportedStructures_good e2 (show 0 < lb.nK by decide)
    have a2 := supportedStructures_good e3 (show 0 < lb.nC by decide)
    exact ⟨a1.1, a1.2, a2.1, a2.2⟩
  · rw [hall]
    intro hy e
    rw [hh] at e; cases e
    exact hT

/-- forward, backward and step of the single layer -/
theorem solo_fits {o : Opt α} {cl : String → Cls × Cls} {data : ℕ → Mat α} {grad : ℕ → Option (Mat α)} (hw : World.Live cl ⟨o, data, grad, []⟩) (hl : o.layers = [lb])
    {h : Hyper α} (hh : o.hyperOf lb = .ok h) (hT : o.steps % h.T = 0) (hg : ∃ G, grad 2 = some G ∧ G.OfShape 1 2) {x g : ND α} (sx : x.shape = [1, 2])
    (sg : g.shape = [1, 1]) : FitsRun ⟨o, data, grad, []⟩ [.forward 0 x true, .backward 0 g, .step false none false] := by
  have mb : lb ∈ o.layers := by rw [hl]; simp
  have e0 : o.layers[0]? = some lb := by rw [hl]; rfl
  let v1 : World α := ⟨o, data, grad, [(lb, x)]⟩
  have x1' : exec (.forward 0 x true) ⟨o, data, grad, []⟩ = (.ok (), v1) := by
    rw [forward_on _ e0 hh (hw.valid _ mb _ hh).period hT]; rfl
  have f1 : FitsOp (⟨o, data, grad, []⟩ : World α) (.forward 0 x true) := by
    intro m hm hy _
    replace hm : o.layers[0]? = some m := hm
    rw [e0] at hm; cases hm
    exact ⟨1, [], sx, by decide⟩
  obtain ⟨_, y1, l1⟩ := hw.exec f1
  rw [x1'] at y1; cases y1
  have f2 : FitsOp v1 (.backward 0 g) := by
    intro mx hmx; cases hmx; exact ⟨1, [], sg, by decide⟩
  obtain ⟨v2, y2, l2⟩ := l1.exec f2
  obtain ⟨_, _, _, _, _, _, b2⟩ := l1.back (k := 0) rfl f2
  rw [y2] at b2
  have fr := b2.frame
  refine ⟨f1, ?_⟩
  rw [x1']
  refine ⟨f2, ?_⟩
  rw [y2]
  refine ⟨⟨rfl, by simp, fun _ m hm => ?_⟩, trivial⟩
  rw [fr.layers] at hm
  replace hm : m ∈ o.layers := hm
  rw [hl] at hm
  obtain rfl := List.mem_singleton.1 hm
  refine ⟨⟨?_, fun b hb => by cases hb⟩, fun hy e _ => ⟨b2.someK, b2.someC, fun ha => ?_⟩⟩
  · rw [fr.grad]; exact hg
  · exact l2.mom lb (by rw [fr.layers]; exact mb) hy e ha

end Sample

-- the hypotheses of `C76_reversed` hold for a layer with two inputs, trained with lower and upper triangular Toeplitz structures
example : ∃ (o o' : Opt ℝ) (ws ws' : List Warn) (ops : List (Op ℝ)),
    Construct.init supportedStructures Sample.model (.flat [⟨2, true⟩]) { Sample.gargs with structures := ("triltoeplitz", "dense") } = .ok (o, ws) ∧
    Construct.init supportedStructures Sample.model (.flat [⟨2, true⟩]) { Sample.gargs with structures := ("triutoeplitz", "dense") } = .ok (o', ws') ∧
    SameGroups o' o ∧ Trainable o Sample.gdata ∧ Trainable o' (fun p => Bases.rev.param o.layers p (Sample.gdata p)) ∧
    (∀ p, ShapeOf o.layers p (Sample.ggrad (α := ℝ) p)) ∧ (∀ m ∈ o.layers, m.kind = .linear ∧ m.bias = none) ∧ (∃ m ∈ o.layers, m.nK = 2) ∧
    (∀ m ∈ o.layers, ∀ h h' cK cC, o.hyperOf m = .ok h → supportedStructures h.structures.1 = some cK → supportedStructures h.structures.2 = some cC →
      o'.hyperOf m = .ok h' → cK.NoBlock ∧ cC.NoBlock ∧ supportedStructures h'.structures.1 = some cK.mirror ∧ supportedStructures h'.structures.2 = some cC.mirror) ∧
    FitsRun ⟨o, Sample.gdata, Sample.ggrad, []⟩ ops ∧ (∀ op ∈ ops, GradsFit o.layers op) ∧ ops.length = 3 := by
  have h2 : ¬ ((2⁻¹ : ℝ) < 0) := by norm_num
  have tl : supportedStructures "triltoeplitz" = some .tril := by decide
  have tu : supportedStructures "triutoeplitz" = some .triu := by decide
  obtain ⟨o, ws, hi, hl, hh, ht⟩ := Sample.solo_any (α := ℝ) (a := { Sample.gargs with structures := ("triltoeplitz", "dense") }) (cK := .tril) (cC := .dense)
    (by simp [validate, Sample.gargs, PyNum.rejected, PyRate.rejected, h2]) tl rfl ⟨Or.inl rfl, Or.inr (Or.inl rfl)⟩
    (by simp [checked, defaults, Sample.gargs]) (show (2 : ℕ) ≠ 0 by decide) Sample.gdata ⟨rfl, rfl⟩
  obtain ⟨o', ws', hi', hl', hh', ht'⟩ := Sample.solo_any (α := ℝ) (a := { Sample.gargs with structures := ("triutoeplitz", "dense") }) (cK := .triu) (cC := .dense)
    (by simp [validate, Sample.gargs, PyNum.rejected, PyRate.rejected, h2]) tu rfl ⟨Or.inl rfl, Or.inr (Or.inl rfl)⟩
    (by simp [checked, defaults, Sample.gargs]) (show (2 : ℕ) ≠ 0 by decide) (fun p => Bases.rev.param o.layers p (Sample.gdata p))
    (by rw [hl]; exact ⟨rfl, rfl⟩)
  have I := init_ok (by decide) hi
  obtain ⟨cl, _, l⟩ := I.live (grad := Sample.ggrad) ht one_pos
  have sg := sameGroups_structures (structs := supportedStructures) (structs' := supportedStructures) (by decide) (s := ("triutoeplitz", "dense")) hi hi' (fun gs e => by cases e)
  refine ⟨o, o', ws, ws', _, hi, hi', sg, ht, ht', fun p X e m hm => ?_, fun m hm => ?_, ⟨Sample.lb, by rw [hl]; simp, rfl⟩, fun m hm h h' cK cC q1 q2 q3 q4 => ?_,
    Sample.solo_fits l hl hh (by rw [I.steps]; rfl) ⟨_, rfl, rfl, rfl⟩ (x := Sample.grow 2) (g := Sample.grow 1) rfl rfl, fun op ho => ?_, rfl⟩
  all_goals try rw [hl] at hm
  all_goals try obtain rfl := List.mem_singleton.1 hm
  · refine ⟨?_, fun b hb => by cases hb⟩
    rintro rfl
    cases e
    exact ⟨rfl, rfl⟩
  · exact ⟨rfl, rfl⟩
  · rw [hh] at q1; rw [hh'] at q4
    cases q1; cases q4
    replace q2 : supportedStructures "triltoeplitz" = some cK := q2
    replace q3 : supportedStructures "dense" = some cC := q3
    rw [tl] at q2; cases q2
    cases q3
    exact ⟨trivial, trivial, tu, rfl⟩
  · simp only [List.mem_cons, List.not_mem_nil, or_false] at ho
    rcases ho with rfl | rfl | rfl <;> trivial

-- and the runs over `ℚ` agree, read backwards
example : let w := Sample.world Sample.model (.flat [⟨2, true⟩]) { Sample.args with T := 1, structures := ("triltoeplitz", "dense") }
    let w' := Sample.world Sample.model (.flat [⟨2, true⟩]) { Sample.args with T := 1, structures := ("triutoeplitz", "dense") }
    let ops : List (Op ℚ) := [.setGrad 2 (some (.ofLists 1 2 [[1, 2]])), .forward 0 (Sample.row [1, 3]) true, .backward 0 (Sample.row [1]), .step false none false,
      .forward 0 (Sample.row [2, 0]) true, .backward 1 (Sample.row [1]), .step false none false]
    let ops' : List (Op ℚ) := [.setGrad 2 (some (.ofLists 1 2 [[2, 1]])), .forward 0 (Sample.row [3, 1]) true, .backward 0 (Sample.row [1]), .step false none false,
      .forward 0 (Sample.row [0, 2]) true, .backward 1 (Sample.row [1]), .step false none false]
    ((run ops' w').data 2).toLists = ((run ops w).data 2).toLists.map List.reverse ∧ ((run ops w').data 2).toLists ≠ ((run ops w).data 2).toLists := by decide +kernel
