import Verif.Proofs.Opt.History

/-! What the optimizer does to some layers depends only on the state of these layers. -/

set_option linter.unusedSectionVars false
variable {α : Type} [Field α] [LinearOrder α] [HasSqrt α]

/-- two states agree about the layers `L`: their hyper-parameters, factors, momenta and statistics, their parameters with gradients and
buffers, and the number of steps and the gradient scales -/
structure AgreeOn (L : List Layer) (A B : World α) : Prop where
  hyper : ∀ m ∈ L, A.opt.hyperOf m = B.opt.hyperOf m
  steps : A.opt.steps = B.opt.steps
  scales : A.opt.scales = B.opt.scales
  Ks : ∀ m ∈ L, A.opt.Ks m.name = B.opt.Ks m.name
  Cs : ∀ m ∈ L, A.opt.Cs m.name = B.opt.Cs m.name
  mKs : ∀ m ∈ L, A.opt.mKs m.name = B.opt.mKs m.name
  mCs : ∀ m ∈ L, A.opt.mCs m.name = B.opt.mCs m.name
  HKs : ∀ m ∈ L, A.opt.HKs m.name = B.opt.HKs m.name
  HCs : ∀ m ∈ L, A.opt.HCs m.name = B.opt.HCs m.name
  mom : ∀ m ∈ L, ∀ p, World.Owns m p → A.opt.mom p = B.opt.mom p
  data : ∀ m ∈ L, ∀ p, World.Owns m p → A.data p = B.data p
  grad : ∀ m ∈ L, ∀ p, World.Owns m p → A.grad p = B.grad p

/-- `x` and `y` do the same with states related by `R` -/
def Same2 {σ β : Type} (R : σ → σ → Prop) (x y : Py σ β) : Prop := ∀ A B, R A B → (x A).1 = (y B).1 ∧ R (x A).2 (y B).2

namespace Same2
variable {σ β γ : Type} {R : σ → σ → Prop}

theorem bind {x y : Py σ β} {f g : β → Py σ γ} (hx : Same2 R x y) (hf : ∀ b, Same2 R (f b) (g b)) : Same2 R (x >>= f) (y >>= g) := by
  intro A B r
  obtain ⟨e, r'⟩ := hx A B r
  rw [Py.bind_run, Py.bind_run]
  rcases hxA : x A with ⟨a | a, A'⟩ <;> rcases hyB : y B with ⟨b | b, B'⟩ <;> rw [hxA, hyB] at e r' <;> cases e
  · exact ⟨rfl, r'⟩
  · exact hf _ _ _ r'
theorem pure (b : β) : Same2 R (Pure.pure b : Py σ β) (Pure.pure b) := fun _ _ r => ⟨rfl, r⟩
theorem raise (e : PyErr) : Same2 R (Py.raise e : Py σ β) (Py.raise e) := fun _ _ r => ⟨rfl, r⟩
theorem lift (x : Except PyErr β) : Same2 R (Py.lift x : Py σ β) (Py.lift x) := fun _ _ r => ⟨rfl, r⟩
theorem get_bind {f g : σ → Py σ γ} (h : ∀ A B, R A B → Same2 R (f A) (g B)) : Same2 R (Py.get >>= f) (Py.get >>= g) :=
  fun A B r => h A B r A B r
theorem modify {f g : σ → σ} (h : ∀ A B, R A B → R (f A) (g B)) : Same2 R (Py.modify f) (Py.modify g) := fun A B r => ⟨rfl, h A B r⟩
end Same2

variable {L : List Layer} {m : Layer}

theorem Dict.set_congr {κ v : Type} [DecidableEq κ] {d d' : κ → Option v} {k n : κ} (x : v) (h : d n = d' n) : Dict.set d k x n = Dict.set d' k x n := by
  unfold Dict.set; rw [Function.update_apply, Function.update_apply, h]
theorem Dict.erase_congr {κ v : Type} [DecidableEq κ] {d d' : κ → Option v} {k n : κ} (h : d n = d' n) : Dict.erase d k n = Dict.erase d' k n := by
  unfold Dict.erase; rw [Function.update_apply, Function.update_apply, h]

namespace World

theorem updateDirs_sub {A B : World α} (r : AgreeOn L A B) (hm : m ∈ L) (h : Hyper α) (K C HK HC : SM α) :
    updateDirs A.opt h m K C HK HC = updateDirs B.opt h m K C HK HC := by
  unfold updateDirs gradUnscaling Opt.scale addMomentum lookup
  rw [r.steps, r.scales, r.mKs m hm, r.mCs m hm]

theorem updateOn_sub (hm : m ∈ L) (h : Hyper α) : Same2 (AgreeOn L) (updateOn (α := α) h m) (updateOn h m) := by
  unfold updateOn
  refine Same2.get_bind fun A B r => ?_
  rw [show lookup A.opt.Ks m.name = lookup B.opt.Ks m.name by rw [lookup, lookup, r.Ks m hm],
    show lookup A.opt.Cs m.name = lookup B.opt.Cs m.name by rw [lookup, lookup, r.Cs m hm],
    show lookup A.opt.HKs m.name = lookup B.opt.HKs m.name by rw [lookup, lookup, r.HKs m hm],
    show lookup A.opt.HCs m.name = lookup B.opt.HCs m.name by rw [lookup, lookup, r.HCs m hm], r.steps]
  refine Same2.bind (Same2.lift _) fun K => Same2.bind (Same2.lift _) fun C => Same2.bind (Same2.lift _) fun HK => Same2.bind
    (Same2.modify fun A B r => { r with HKs := fun m hm => Dict.erase_congr (r.HKs m hm) }) fun _ => Same2.bind (Same2.lift _) fun HC => Same2.bind
    (Same2.modify fun A B r => { r with HCs := fun m hm => Dict.erase_congr (r.HCs m hm) }) fun _ => ?_
  rw [updateDirs_sub r hm]
  refine Same2.bind (Same2.lift _) fun ms => Same2.bind (Same2.modify fun A B r => ?_) fun _ => Same2.bind (Same2.lift _) fun bK =>
    Same2.bind (Same2.lift _) fun bC => Same2.bind (Same2.lift _) fun K' => Same2.bind
    (Same2.modify fun A B r => { r with Ks := fun m hm => Dict.set_congr _ (r.Ks m hm) }) fun _ => Same2.bind (Same2.lift _) fun C' =>
    Same2.modify fun A B r => { r with Cs := fun m hm => Dict.set_congr _ (r.Cs m hm) }
  unfold storeMomenta
  split
  · exact { r with mKs := fun m hm => Dict.set_congr _ (r.mKs m hm), mCs := fun m hm => Dict.set_congr _ (r.mCs m hm) }
  · exact r

theorem updatePreconditioner_sub (hm : m ∈ L) : Same2 (AgreeOn L) (updatePreconditioner (α := α) m) (updatePreconditioner m) := by
  unfold updatePreconditioner
  refine Same2.get_bind fun A B r => ?_
  rw [r.hyper m hm, r.steps]
  refine Same2.bind (Same2.lift _) fun h => ?_
  split
  · exact Same2.raise _
  · split
    · exact Same2.pure _
    · exact updateOn_sub hm h

theorem localH_sub {A B : World α} (r : AgreeOn L A B) (hm : m ∈ L) (x g : ND α) : localH A.opt m x g = localH B.opt m x g := by
  unfold localH Opt.scale lookup
  rw [r.hyper m hm, r.steps, r.scales, r.Ks m hm, r.Cs m hm]

theorem commitH_sub (hm : m ∈ L) (HK HC : SM α) : Same2 (AgreeOn L) (commitH m HK HC) (commitH m HK HC) := by
  unfold commitH
  refine Same2.get_bind fun A B r => ?_
  rw [r.HKs m hm, r.HCs m hm]
  exact Same2.bind (Same2.lift _) fun _ => Same2.bind
    (Same2.modify fun A B r => { r with HKs := fun m hm => Dict.set_congr _ (r.HKs m hm) }) fun _ => Same2.bind (Same2.lift _) fun _ =>
    Same2.modify fun A B r => { r with HCs := fun m hm => Dict.set_congr _ (r.HCs m hm) }

theorem accumulateH_sub (hm : m ∈ L) (x g : ND α) : Same2 (AgreeOn L) (accumulateH m x g) (accumulateH m x g) := by
  unfold accumulateH
  refine Same2.get_bind fun A B r => ?_
  rw [localH_sub r hm]
  exact Same2.bind (Same2.lift _) fun H => commitH_sub hm _ _

theorem gradMat_sub {A B : World α} (r : AgreeOn L A B) (hm : m ∈ L) : A.gradMat m = B.gradMat m := by
  unfold gradMat gradOf
  rw [r.grad m hm _ (Or.inl rfl)]
  cases hb : m.bias with
  | none => rfl
  | some b => simp only [r.grad m hm b.ptr (Or.inr ⟨b, hb, rfl⟩)]

theorem natGradMat_sub {A B : World α} (r : AgreeOn L A B) (hm : m ∈ L) : A.natGradMat m = B.natGradMat m := by
  unfold natGradMat Opt.scale lookup
  rw [gradMat_sub r hm, r.hyper m hm, r.steps, r.scales, r.Ks m hm, r.Cs m hm]

theorem moveParam_sub (hm : m ∈ L) (h : Hyper α) {p : ℕ} (hp : Owns m p) (step : Mat α) :
    Same2 (AgreeOn L) (moveParam h p step) (moveParam h p step) := by
  unfold moveParam
  refine Same2.get_bind fun A B r => ?_
  rw [r.data m hm p hp]
  exact Same2.bind (Same2.lift _) fun _ => Same2.modify fun A B r =>
    { r with data := fun m hm q hq => by simp only [Function.update_apply, r.data m hm q hq] }

theorem paramStep_sub (hm : m ∈ L) (h : Hyper α) {p : ℕ} (hp : Owns m p) (step : Mat α) :
    Same2 (AgreeOn L) (paramStep h p step) (paramStep h p step) := by
  unfold paramStep
  refine Same2.get_bind fun A B r => ?_
  rw [r.data m hm p hp, r.mom m hm p hp]
  refine Same2.bind (Same2.lift _) fun _ => ?_
  split
  · exact Same2.bind (Same2.lift _) fun _ => Same2.bind (Same2.modify fun A B r => { r with mom := fun m hm q hq => Dict.set_congr _ (r.mom m hm q hq) })
      fun _ => moveParam_sub hm h hp _
  · exact moveParam_sub hm h hp _

theorem applyNat_sub (hm : m ∈ L) (N : Mat α) : Same2 (AgreeOn L) (applyNat m N) (applyNat m N) := by
  unfold applyNat
  refine Same2.get_bind fun A B r => ?_
  rw [r.hyper m hm]
  cases hb : m.bias with
  | none => exact Same2.bind (Same2.lift _) fun _ => Same2.bind (Same2.lift _) fun h => paramStep_sub hm h (Or.inl rfl) _
  | some b => exact Same2.bind (Same2.lift _) fun _ => Same2.bind (Same2.lift _) fun _ => Same2.bind (Same2.lift _) fun h =>
      Same2.bind (paramStep_sub hm h (Or.inl rfl) _) fun _ => paramStep_sub hm h (Or.inr ⟨b, hb, rfl⟩) _

theorem layerStep_sub (hm : m ∈ L) : Same2 (AgreeOn L) (layerStep (α := α) m) (layerStep m) := by
  unfold layerStep
  refine Same2.bind (updatePreconditioner_sub hm) fun _ => Same2.get_bind fun A B r => ?_
  rw [natGradMat_sub r hm]
  exact Same2.bind (Same2.lift _) fun N => applyNat_sub hm N

theorem setScale_sub (s : α) : Same2 (AgreeOn L) (Opt.setScale s) (Opt.setScale s) := by
  unfold Opt.setScale
  refine Same2.bind (Same2.modify fun A B r => { r with scales := by rw [r.scales, r.steps] }) fun _ => Same2.get_bind fun A B r => ?_
  rw [r.steps, show ∀ t, A.opt.scale t = B.opt.scale t from fun t => by rw [Opt.scale, Opt.scale, r.scales]]
  split
  · rw [show ∀ t, A.opt.scale t = B.opt.scale t from fun t => by rw [Opt.scale, Opt.scale, r.scales]]
    exact Same2.bind (Same2.lift _) fun _ => Same2.bind (Same2.lift _) fun _ => Same2.pure _
  · exact Same2.pure _

theorem ensureScale_sub (attr : Option α) : Same2 (AgreeOn L) (ensureScale attr) (ensureScale attr) := by
  unfold ensureScale
  refine Same2.get_bind fun A B r => ?_
  rw [r.steps, r.scales]
  rcases B.opt.scales B.opt.steps with _ | s
  · exact setScale_sub _
  · exact Same2.pure _

end World
