import Verif.Proofs.Opt.History
import Verif.Proofs.Opt.Live

/-! After construction, training does not read the names of the structures stored in the parameter groups. -/

set_option linter.unusedSectionVars false
open IOProof
variable {α : Type} [Field α] [LinearOrder α] [HasSqrt α]

/-- the same hyper-parameters without the names of structures -/
def Hyper.anon (h : Hyper α) : Hyper α := { h with structures := ("", "") }
/-- the same group without the names of structures -/
def PGroup.anon (g : PGroup α) : PGroup α := { g with h := g.h.anon }
/-- the same optimizer without the names of structures -/
def Opt.anon (o : Opt α) : Opt α := { o with groups := o.groups.map PGroup.anon }
/-- the same state without the names of structures -/
def World.anon (w : World α) : World α := { w with opt := w.opt.anon }
/-- the same operation without the names of structures -/
def Op.anon : Op α → Op α
  | .setHyper i h => .setHyper i h.anon
  | op => op

/-- `x'` does without the names what `x` does with them -/
def Anon {β : Type} (x x' : Py (World α) β) : Prop := ∀ w, x' w.anon = ((x w).1, (x w).2.anon)

variable {β γ : Type}

theorem Anon.bind {x x' : Py (World α) β} {f f' : β → Py (World α) γ} (hx : Anon x x') (hf : ∀ b, Anon (f b) (f' b)) : Anon (x >>= f) (x' >>= f') := by
  intro w
  rw [Py.bind_run, Py.bind_run, hx w]
  rcases x w with ⟨e | b, w1⟩
  · rfl
  · exact hf b w1
theorem Anon.pure (b : β) : Anon (Pure.pure b : Py (World α) β) (Pure.pure b) := fun _ => rfl
theorem Anon.raise (e : PyErr) : Anon (Py.raise e : Py (World α) β) (Py.raise e) := fun _ => rfl
theorem Anon.lift (x : Except PyErr β) : Anon (Py.lift x : Py (World α) β) (Py.lift x) := fun _ => rfl
theorem Anon.get_bind {f f' : World α → Py (World α) γ} (h : ∀ w, Anon (f w) (f' w.anon)) : Anon (Py.get >>= f) (Py.get >>= f') := fun w => h w w
theorem Anon.modify {f f' : World α → World α} (h : ∀ w, f' w.anon = (f w).anon) : Anon (Py.modify f) (Py.modify f') :=
  fun w => congrArg (Prod.mk (Except.ok ())) (h w)
theorem Anon.forM {f f' : Layer → Py (World α) Unit} (h : ∀ m, Anon (f m) (f' m)) : ∀ ms : List Layer, Anon (Py.forM ms f) (Py.forM ms f')
  | [] => Anon.pure ()
  | m :: ms => Anon.bind (h m) fun _ => Anon.forM h ms
theorem Anon.setOpt {f f' : Opt α → Opt α} (h : ∀ o, f' o.anon = (f o).anon) : Anon (World.setOpt f) (World.setOpt f') := Anon.modify fun w => by
  show ({ w.anon with opt := f' w.opt.anon } : World α) = _
  rw [h]; rfl

theorem Opt.hyperOf_anon (o : Opt α) (m : Layer) : o.anon.hyperOf m = (o.hyperOf m).map Hyper.anon := by
  unfold Opt.hyperOf
  rw [show o.anon.ptrGroup = o.ptrGroup from rfl]
  split
  · rcases lookup o.ptrGroup m.weight.ptr with e | i
    · rfl
    · simp only [Except.bind_ok', Opt.anon, List.getElem?_map]
      rcases o.groups[i]? with _ | g <;> rfl
  · rfl

theorem lift_map_bind {f : Hyper α → Py (World α) γ} {f' : Hyper α → Py (World α) γ} (x : Except PyErr (Hyper α)) (h : ∀ y, Anon (f y) (f' y.anon)) :
    Anon (Py.lift x >>= f) (Py.lift (x.map Hyper.anon) >>= f') := by
  rcases x with e | y
  · exact fun w => rfl
  · exact h y

theorem setScale_anon (s : α) : Anon (Opt.setScale s) (Opt.setScale s) := by
  unfold Opt.setScale
  refine Anon.bind (Anon.modify fun w => rfl) fun _ => Anon.get_bind fun w => ?_
  show Anon _ (if w.opt.steps = 0 then _ else _)
  split
  · exact Anon.bind (Anon.lift _) fun _ => Anon.bind (Anon.lift _) fun _ => Anon.pure _
  · exact Anon.pure _

namespace World

theorem storeMomenta_anon (h : Hyper α) (name : String) (mK mC : SM α) (o : Opt α) :
    storeMomenta h.anon name mK mC o.anon = (storeMomenta h name mK mC o).anon := by
  unfold storeMomenta Hyper.anon; dsimp only; split <;> rfl

theorem updateOn_anon (h : Hyper α) (m : Layer) : Anon (updateOn h m) (updateOn h.anon m) := by
  unfold updateOn
  refine Anon.get_bind fun w => Anon.bind (Anon.lift _) fun K => Anon.bind (Anon.lift _) fun C => Anon.bind (Anon.lift _) fun HK =>
    Anon.bind (Anon.setOpt fun o => rfl) fun _ => Anon.bind (Anon.lift _) fun HC => Anon.bind (Anon.setOpt fun o => rfl) fun _ => ?_
  refine Anon.bind (Anon.lift _) fun ms => Anon.bind (Anon.setOpt fun o => storeMomenta_anon _ _ _ _ o) fun _ => Anon.bind (Anon.lift _) fun bK =>
    Anon.bind (Anon.lift _) fun bC => Anon.bind (Anon.lift _) fun K' => Anon.bind (Anon.setOpt fun o => rfl) fun _ => Anon.bind (Anon.lift _) fun C' =>
    Anon.setOpt fun o => rfl

theorem updatePreconditioner_anon (m : Layer) : Anon (updatePreconditioner (α := α) m) (updatePreconditioner m) := by
  unfold updatePreconditioner
  refine Anon.get_bind fun w => ?_
  rw [show w.anon.opt.hyperOf m = _ from Opt.hyperOf_anon _ _]
  refine lift_map_bind _ fun h => ?_
  show Anon _ (if h.T = 0 then _ else if w.opt.steps % h.T ≠ 0 then _ else _)
  split
  · exact Anon.raise _
  · split
    · exact Anon.pure _
    · exact updateOn_anon h m

theorem localH_anon (o : Opt α) (m : Layer) (x g : ND α) : localH o.anon m x g = localH o m x g := by
  unfold localH
  rw [Opt.hyperOf_anon]
  rcases o.hyperOf m with e | h <;> rfl

theorem commitH_anon (m : Layer) (HK HC : SM α) : Anon (commitH m HK HC) (commitH m HK HC) := by
  unfold commitH
  exact Anon.get_bind fun w => Anon.bind (Anon.lift _) fun HK' => Anon.bind (Anon.setOpt fun o => rfl) fun _ => Anon.bind (Anon.lift _) fun HC' =>
    Anon.setOpt fun o => rfl

theorem accumulateH_anon (m : Layer) (x g : ND α) : Anon (accumulateH m x g) (accumulateH m x g) := by
  unfold accumulateH
  refine Anon.get_bind fun w => ?_
  rw [show localH w.anon.opt m x g = _ from localH_anon _ _ _ _]
  exact Anon.bind (Anon.lift _) fun H => commitH_anon _ _ _

theorem natGradMat_anon (w : World α) (m : Layer) : w.anon.natGradMat m = w.natGradMat m := by
  unfold natGradMat
  rw [show w.anon.gradMat m = w.gradMat m from rfl, show w.anon.opt.hyperOf m = _ from Opt.hyperOf_anon _ _]
  rcases w.gradMat m with e | G
  · rfl
  · rcases w.opt.hyperOf m with e | h <;> rfl

theorem moveParam_anon (h : Hyper α) (p : ℕ) (step : Mat α) : Anon (moveParam h p step) (moveParam h.anon p step) := by
  unfold moveParam
  exact Anon.get_bind fun w => Anon.bind (Anon.lift _) fun new => Anon.modify fun w => rfl

theorem paramStep_anon (h : Hyper α) (p : ℕ) (step : Mat α) : Anon (paramStep h p step) (paramStep h.anon p step) := by
  unfold paramStep
  refine Anon.get_bind fun w => Anon.bind (Anon.lift _) fun st => ?_
  show Anon (if h.momentum ≠ 0 then _ else _) (if h.momentum ≠ 0 then _ else _)
  split
  · exact Anon.bind (Anon.lift _) fun buf => Anon.bind (Anon.setOpt fun o => rfl) fun _ => moveParam_anon _ _ _
  · exact moveParam_anon _ _ _

theorem applyNat_anon (m : Layer) (N : Mat α) : Anon (applyNat m N) (applyNat m N) := by
  unfold applyNat
  refine Anon.get_bind fun w => ?_
  rw [show w.anon.opt.hyperOf m = _ from Opt.hyperOf_anon _ _]
  cases m.bias with
  | none => exact Anon.bind (Anon.lift _) fun nw => lift_map_bind _ fun h => paramStep_anon _ _ _
  | some b =>
    exact Anon.bind (Anon.lift _) fun nw => Anon.bind (Anon.lift _) fun nb => lift_map_bind _ fun h =>
      Anon.bind (paramStep_anon _ _ _) fun _ => paramStep_anon _ _ _

theorem layerStep_anon (m : Layer) : Anon (layerStep (α := α) m) (layerStep m) := by
  unfold layerStep
  refine Anon.bind (updatePreconditioner_anon m) fun _ => Anon.get_bind fun w => ?_
  rw [natGradMat_anon]
  exact Anon.bind (Anon.lift _) fun N => applyNat_anon _ _

theorem innerStep_anon : Anon (innerStep (α := α)) innerStep := by
  unfold innerStep
  exact Anon.get_bind fun w => Anon.forM layerStep_anon _

theorem dropStats_anon : Anon (dropStats (α := α)) dropStats := by
  unfold dropStats
  refine Anon.get_bind fun w => Anon.forM (f := fun m => setOpt fun o => { o with HKs := Dict.erase o.HKs m.name, HCs := Dict.erase o.HCs m.name })
    (f' := fun m => setOpt fun o => { o with HKs := Dict.erase o.HKs m.name, HCs := Dict.erase o.HCs m.name }) (fun m => ?_) _
  exact Anon.setOpt fun o => rfl

theorem ensureScale_anon (attr : Option α) : Anon (ensureScale attr) (ensureScale attr) := by
  unfold ensureScale
  refine Anon.get_bind fun w => ?_
  rw [show w.anon.opt.scales w.anon.opt.steps = w.opt.scales w.opt.steps from rfl]
  rcases w.opt.scales w.opt.steps with _ | s
  · exact setScale_anon _
  · exact Anon.pure _

theorem step_anon (c : Bool) (attr : Option α) (f : Bool) : Anon (step c attr f) (step c attr f) := by
  unfold step
  split
  · exact Anon.raise _
  · refine Anon.bind (ensureScale_anon attr) fun _ => Anon.bind ?_ fun _ => Anon.bind (Anon.setOpt fun o => rfl) fun _ => Anon.setOpt fun o => rfl
    unfold stepBody
    split
    · exact dropStats_anon
    · exact innerStep_anon

end World

/-- every operation does without the names of structures what it does with them -/
theorem exec_anon (op : Op α) (w : World α) : exec op.anon w.anon = ((exec op w).1, (exec op w).2.anon) := by
  cases op with
  | forward i x ge =>
    simp only [Op.anon, exec, Py.get_bind_run]
    rw [show w.anon.opt.layers[i]? = w.opt.layers[i]? from rfl]
    rcases w.opt.layers[i]? with _ | m
    · rfl
    · simp only [World.forwardHook, Py.get_bind_run]
      rw [show w.anon.opt.hyperOf m = _ from Opt.hyperOf_anon _ _]
      rcases w.opt.hyperOf m with e | h
      · rfl
      · show ((if ge = true then _ else _ : Py (World α) Unit) _) = _
        rw [Py.lift_ok_bind_run]
        split
        · show (if h.T = 0 then _ else if w.opt.steps % h.T = 0 then _ else _ : Py (World α) Unit) _ = _
          split
          · rfl
          · split <;> rfl
        · rfl
  | backward k g =>
    simp only [Op.anon, exec, Py.get_bind_run]
    rw [show w.anon.hooks[k]? = w.hooks[k]? from rfl]
    rcases w.hooks[k]? with _ | ⟨m, x⟩
    · rfl
    · exact World.accumulateH_anon m x g w
  | setGrad p G => rfl
  | setParam p M => rfl
  | setHyper i h =>
    refine Anon.setOpt (f := fun o => { o with groups := o.groups.modify i fun g => { g with h := h } })
      (f' := fun o => { o with groups := o.groups.modify i fun g => { g with h := h.anon } }) (fun o => ?_) w
    show ({ o.anon with groups := (o.groups.map PGroup.anon).modify i _ } : Opt α) = _
    have : (o.groups.map PGroup.anon).modify i (fun g => { g with h := h.anon }) = (o.groups.modify i fun g => { g with h := h }).map PGroup.anon := by
      apply List.ext_getElem?
      intro j
      simp only [List.getElem?_modify, List.getElem?_map]
      rcases o.groups[j]? with _ | g
      · rfl
      · by_cases e : i = j <;> simp [e, PGroup.anon]
    rw [this]; rfl
  | setScale s => exact setScale_anon s w
  | step c a f => exact World.step_anon c a f w

theorem run_anon : ∀ (ops : List (Op α)) (w : World α), run (ops.map Op.anon) w.anon = (run ops w).anon
  | [], _ => rfl
  | op :: ops, w => by
    rw [List.map_cons, run_cons, run_cons, exec_anon]
    exact run_anon ops _

theorem hyperOf_anon_ok {w : World α} {m : Layer} {h : Hyper α} (e : w.anon.opt.hyperOf m = .ok h) : ∃ h', w.opt.hyperOf m = .ok h' ∧ h = h'.anon := by
  rw [show w.anon.opt.hyperOf m = _ from Opt.hyperOf_anon _ _] at e
  rcases q : w.opt.hyperOf m with er | h'
  · rw [q] at e; cases e
  · rw [q] at e; cases e; exact ⟨h', rfl, rfl⟩

theorem hyperOf_anon_of {w : World α} {m : Layer} {h : Hyper α} (e : w.opt.hyperOf m = .ok h) : w.anon.opt.hyperOf m = .ok h.anon := by
  rw [show w.anon.opt.hyperOf m = _ from Opt.hyperOf_anon _ _, e]; rfl

theorem fitsOp_anon (op : Op α) (w : World α) : FitsOp w.anon op.anon ↔ FitsOp w op := by
  cases op with
  | forward i x ge =>
    refine ⟨fun f m hm h hh => f m hm h.anon (hyperOf_anon_of hh), fun f m hm h hh => ?_⟩
    obtain ⟨h', e, rfl⟩ := hyperOf_anon_ok hh
    exact f m hm h' e
  | backward k g => exact Iff.rfl
  | setGrad p G => exact Iff.rfl
  | setParam p M => exact Iff.rfl
  | setHyper i h =>
    refine ⟨fun f => ⟨⟨f.1.1, f.1.2, f.1.3⟩, fun m hm hp => ⟨fun h' hh => (f.2 m hm hp).1 h'.anon (hyperOf_anon_of hh), (f.2 m hm hp).2⟩⟩,
      fun f => ⟨⟨f.1.1, f.1.2, f.1.3⟩, fun m hm hp => ⟨fun h' hh => ?_, (f.2 m hm hp).2⟩⟩⟩
    obtain ⟨h'', e, rfl⟩ := hyperOf_anon_ok hh
    exact (f.2 m hm hp).1 h'' e
  | setScale s => exact Iff.rfl
  | step c a f =>
    refine ⟨fun g => ⟨g.1, g.2.1, fun e m hm => ⟨⟨(g.2.2 e m hm).1.1, (g.2.2 e m hm).1.2⟩, fun h hh ht => (g.2.2 e m hm).2 h.anon (hyperOf_anon_of hh) ht⟩⟩,
      fun g => ⟨g.1, g.2.1, fun e m hm => ⟨⟨(g.2.2 e m hm).1.1, (g.2.2 e m hm).1.2⟩, fun h hh ht => ?_⟩⟩⟩
    obtain ⟨h', e', rfl⟩ := hyperOf_anon_ok hh
    exact (g.2.2 e m hm).2 h' e' ht

theorem fitsRun_anon : ∀ (ops : List (Op α)) (w : World α), FitsRun w.anon (ops.map Op.anon) ↔ FitsRun w ops
  | [], _ => Iff.rfl
  | op :: ops, w => by
    show FitsOp w.anon op.anon ∧ FitsRun (exec op.anon w.anon).2 (ops.map Op.anon) ↔ FitsOp w op ∧ FitsRun (exec op w).2 ops
    rw [exec_anon, fitsOp_anon, fitsRun_anon ops]

theorem World.Live.anon {cl : String → Cls × Cls} {w : World α} (l : w.Live cl) : w.anon.Live cl := by
  have e : ∀ {m h}, w.anon.opt.hyperOf m = .ok h → ∃ h', w.opt.hyperOf m = .ok h' ∧ h = h'.anon := hyperOf_anon_ok
  refine ⟨⟨l.sound.untied, l.sound.good, fun m hm => ⟨(l.sound.lay m hm).1, (l.sound.lay m hm).2, (l.sound.lay m hm).3, (l.sound.lay m hm).4, (l.sound.lay m hm).5,
    (l.sound.lay m hm).6⟩, fun m hm => ?_, fun m hm => ?_⟩, fun m hm h hh => ?_, fun mx hm => ⟨(l.hooks mx hm).1, fun h hh => ?_⟩, l.prev, l.pos, fun m hm h hh ha => ?_⟩
  · have := l.sound.shape m hm
    exact ⟨⟨this.1.1, this.1.2⟩, fun b hb => ⟨⟨(this.2 b hb).1.1, (this.2 b hb).1.2⟩, (this.2 b hb).2⟩⟩
  · obtain ⟨h, hh, hT⟩ := l.sound.hyper m hm
    exact ⟨h.anon, hyperOf_anon_of hh, hT⟩
  · obtain ⟨h', e', rfl⟩ := e hh
    exact ⟨(l.valid m hm h' e').1, (l.valid m hm h' e').2, (l.valid m hm h' e').3⟩
  · obtain ⟨h', e', rfl⟩ := e hh
    exact (l.hooks mx hm).2 h' e'
  · obtain ⟨h', e', rfl⟩ := e hh
    exact l.mom m hm h' e' ha
