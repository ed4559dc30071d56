import Verif.Props.Dynamics

/-! C53 (scheduled hyper-parameters) and the part of C47 about missing factor momenta. -/

set_option linter.unusedSectionVars false
open Construct Matrix
variable {α : Type} [Field α] [LinearOrder α] [IsStrictOrderedRing α]

section
variable [HasSqrt α]

/-! ### C53 -/

/-- assignment of all hyper-parameters of group `i` -/
def World.assign (i : ℕ) (h : Hyper α) (w : World α) : World α :=
  { w with opt := { w.opt with groups := w.opt.groups.modify i fun g => { g with h := h } } }

theorem exec_setHyper (i : ℕ) (h : Hyper α) (w : World α) : exec (.setHyper i h) w = (.ok (), w.assign i h) := rfl

theorem hyperOf_assign (i : ℕ) (h : Hyper α) (w : World α) (m : Layer) : (w.assign i h).opt.hyperOf m =
    (w.opt.hyperOf m).map fun h' => if w.opt.ptrGroup m.weight.ptr = some i then h else h' := by
  rcases e : w.opt.hyperOf m with er | h'
  · unfold Opt.hyperOf World.assign at *
    split at e
    · rename_i hs
      rw [if_pos hs]
      simp only
      rcases hp : w.opt.ptrGroup m.weight.ptr with _ | j
      · rw [lookup, hp] at e ⊢; exact e
      · rw [lookup, hp, Except.bind_ok'] at e ⊢
        simp only [List.getElem?_modify]
        rcases hg : w.opt.groups[j]? with _ | g
        · rw [hg] at e; simp only [Option.map_none] at e ⊢; rw [← Except.error.inj e]; rfl
        · rw [hg] at e; cases e
    · rename_i hs
      rw [if_neg hs]; exact e
  · exact hyperOf_setHyper e

/-- the hyper-parameters that forward and backward passes look at are unchanged -/
def SameCollection (i : ℕ) (h : Hyper α) (w : World α) : Prop := ∀ g, w.opt.groups[i]? = some g →
  h.T = g.h.T ∧ h.kfacApprox = g.h.kfacApprox ∧ h.lossAverage = g.h.lossAverage

theorem SameCollection.of {i : ℕ} {h h' : Hyper α} {w : World α} {m : Layer} (hc : SameCollection i h w) (e : w.opt.hyperOf m = .ok h')
    (hp : w.opt.ptrGroup m.weight.ptr = some i) : h.T = h'.T ∧ h.kfacApprox = h'.kfacApprox ∧ h.lossAverage = h'.lossAverage := by
  obtain ⟨j, g, e1, e2, rfl⟩ := hyperOf_ok e
  rw [hp] at e1; cases e1
  exact hc g e2

theorem setScale_eq (s : α) (w : World α) : Opt.setScale s w =
    (if w.opt.steps = 0 ∧ w.opt.scales (-1) = none then .error .keyError else .ok (),
      { w with opt := { w.opt with scales := Dict.set w.opt.scales w.opt.steps s } }) := by
  by_cases hc : w.opt.steps = 0 ∧ w.opt.scales (-1) = none
  · rw [if_pos hc]
    have h1 : (Opt.setScale s w).1 = .error .keyError := by
      rw [Opt.setScale, Py.modify_bind_run, Py.get_bind_run]
      simp only
      rw [if_pos hc.1, Opt.scale, lookup]
      have : Dict.set w.opt.scales (↑w.opt.steps) s (-1) = none := by
        rw [Dict.set, Function.update_of_ne (by omega), hc.2]
      simp only
      rw [this]; rfl
    rw [← World.setScale_state, ← h1]
  · rw [if_neg hc]
    exact World.setScale_run s w fun h0 h1 => hc ⟨h0, h1⟩

theorem localH_assign {i : ℕ} {h : Hyper α} {w : World α} (hc : SameCollection i h w) (m : Layer) (x g : ND α) :
    World.localH (w.assign i h).opt m x g = World.localH w.opt m x g := by
  unfold World.localH
  rw [hyperOf_assign]
  rcases e : w.opt.hyperOf m with er | h'
  · rfl
  · simp only [Except.map, Except.bind_ok']
    by_cases hp : w.opt.ptrGroup m.weight.ptr = some i
    · obtain ⟨a, b, c⟩ := hc.of e hp
      rw [if_pos hp, b, c]; rfl
    · rw [if_neg hp]; rfl

/-- **C53 (nothing but steps).** Assigning new hyper-parameters to a group - `lr`, `momentum`, `damping`, `alpha1`, `weight_decay`,
`lr_cov`, also `kfac_like` and `normalize_lr_cov`; not `T`, `kfac_approx` and `loss_average`, which passes look at - and then executing
any operation other than a completed step gives the same as executing the operation first and then assigning: only steps
are affected. No assumption on the state. -/
theorem C53_only_steps (i : ℕ) (h : Hyper α) (w : World α) (hc : SameCollection i h w) (op : Op α) (hs : ∀ a, op ≠ .step false a false)
    (hh : ∀ j h', op ≠ .setHyper j h') :
    exec op (w.assign i h) = ((exec op w).1, (exec op w).2.assign i h) := by
  cases op with
  | forward k x ge =>
    have key : ∀ v : World α, exec (.forward k x ge) v = (match v.opt.layers[k]? with | some m => World.forwardHook m x ge | none => pure ()) v :=
      fun _ => rfl
    rw [key, key]
    show (match w.opt.layers[k]? with | some m => World.forwardHook m x ge | none => pure ()) (w.assign i h) = _
    rcases hm : w.opt.layers[k]? with _ | m
    · rfl
    · simp only [World.forwardHook, Py.get_bind_run]
      rw [hyperOf_assign]
      rcases e : w.opt.hyperOf m with er | h'
      · rfl
      · simp only [Except.map, Py.lift_ok_bind_run]
        have hT : (if w.opt.ptrGroup m.weight.ptr = some i then h else h').T = h'.T := by
          split
          · rename_i hp; exact (hc.of e hp).1
          · rfl
        rw [hT]
        cases ge
        · rfl
        · rw [if_pos rfl, if_pos rfl]
          by_cases h0 : h'.T = 0
          · rw [if_pos h0, if_pos h0]; rfl
          · rw [if_neg h0, if_neg h0]
            show (if w.opt.steps % h'.T = 0 then _ else _ : Py (World α) Unit) _ = _
            by_cases h1 : w.opt.steps % h'.T = 0
            · rw [if_pos h1]; rfl
            · rw [if_neg h1]; rfl
  | backward k g =>
    have key : ∀ v : World α, exec (.backward k g) v = (match v.hooks[k]? with | some mx => World.accumulateH mx.1 mx.2 g | none => pure ()) v :=
      fun _ => rfl
    rw [key, key]
    show (match w.hooks[k]? with | some mx => World.accumulateH mx.1 mx.2 g | none => pure ()) (w.assign i h) = _
    rcases hm : w.hooks[k]? with _ | mx
    · rfl
    · simp only [World.accumulateH, Py.get_bind_run]
      rw [localH_assign hc]
      rcases World.localH w.opt mx.1 mx.2 g with er | H
      · rfl
      · simp only [Py.lift_ok_bind_run, World.commitH, Py.get_bind_run]
        show (Py.lift (World.accum (w.opt.HKs mx.1.name) H.1) >>= _ : Py (World α) Unit) _ = _
        rcases World.accum (w.opt.HKs mx.1.name) H.1 with er | HK
        · rfl
        · simp only [Py.lift_ok_bind_run, World.setOpt, Py.modify_bind_run]
          show (Py.lift (World.accum (w.opt.HCs mx.1.name) H.2) >>= _ : Py (World α) Unit) _ = _
          rcases World.accum (w.opt.HCs mx.1.name) H.2 with er | HC <;> rfl
  | setGrad p G => rfl
  | setParam p M => rfl
  | setHyper j h' => exact absurd rfl (hh j h')
  | setScale s =>
    show Opt.setScale s _ = ((Opt.setScale s w).1, (Opt.setScale s w).2.assign i h)
    rw [setScale_eq, setScale_eq]; rfl
  | step c a f =>
    cases c
    · cases f
      · exact absurd rfl (hs a)
      · have ee : World.ensureScale a (w.assign i h) = ((World.ensureScale a w).1, (World.ensureScale a w).2.assign i h) := by
          have key : ∀ v : World α, World.ensureScale a v =
              (match v.opt.scales v.opt.steps with | some _ => pure () | none => Opt.setScale (a.getD 1) : Py (World α) Unit) v := fun _ => rfl
          rw [key, key]
          show (match w.opt.scales w.opt.steps with | some _ => pure () | none => Opt.setScale (a.getD 1) : Py (World α) Unit) _ = _
          rcases w.opt.scales w.opt.steps with _ | x
          · simp only; rw [setScale_eq, setScale_eq]; rfl
          · rfl
        have key : ∀ v : World α, exec (.step false a true) v = (World.ensureScale a >>= fun _ => (do
            World.dropStats
            World.setOpt fun o => { o with steps := o.steps + 1 }
            World.setOpt Opt.removeUsedScales)) v := fun _ => rfl
        rw [key, key]
        rcases e : World.ensureScale a w with ⟨er | _, v⟩
        · rw [e] at ee
          rw [Py.bind_error e, Py.bind_error ee]
        · rw [e] at ee
          rw [Py.bind_ok e, Py.bind_ok ee]
          have d1 := World.dropStats_run v
          have d2 := World.dropStats_run (v.assign i h)
          rw [Py.bind_ok d1, Py.bind_ok d2]; rfl
    · rfl

/-- no factor momenta appear out of nothing -/
def NoMom (w w' : World α) : Prop := ∀ n, (w.opt.mKs n = none → w'.opt.mKs n = none) ∧ (w.opt.mCs n = none → w'.opt.mCs n = none)

theorem NoMom.refl (w : World α) : NoMom w w := fun _ => ⟨id, id⟩
theorem NoMom.trans (a b c : World α) (h : NoMom a b) (h' : NoMom b c) : NoMom a c :=
  fun n => ⟨fun x => (h' n).1 ((h n).1 x), fun x => (h' n).2 ((h n).2 x)⟩
theorem Frame.noMom {S : String → Prop} {P : ℕ → Prop} {w w' : World α} (h : Frame World.none' S P w w') : NoMom w w' :=
  fun n => ⟨fun x => by rw [h.mKs n id]; exact x, fun x => by rw [h.mCs n id]; exact x⟩

theorem updateDirs_mom {o : Opt α} {h : Hyper α} {m : Layer} {K C HK HC : SM α} {ms : SM α × SM α}
    (e : World.updateDirs o h m K C HK HC = .ok ms) (ha : h.alpha1 ≠ 0) : o.mKs m.name ≠ none ∧ o.mCs m.name ≠ none := by
  have hm : ∀ (d : String → Option (SM α)) (x y : SM α), World.addMomentum h d m.name x = .ok y → d m.name ≠ none := by
    intro d x y e
    rw [World.addMomentum, if_pos ha] at e
    obtain ⟨z, e, _⟩ := IOProof.Except.bind_eq_ok e
    rw [lookup_ok e]; simp
  unfold World.updateDirs at e
  obtain ⟨u, _, e⟩ := IOProof.Except.bind_eq_ok e
  obtain ⟨d, _, e⟩ := IOProof.Except.bind_eq_ok e
  obtain ⟨ms', _, e⟩ := IOProof.Except.bind_eq_ok e
  obtain ⟨mC, e1, e⟩ := IOProof.Except.bind_eq_ok e
  obtain ⟨mK, e2, e⟩ := IOProof.Except.bind_eq_ok e
  exact ⟨hm _ _ _ e2, hm _ _ _ e1⟩

theorem updateOn_noMom (h : Hyper α) (m : Layer) : Py.Rel NoMom (World.updateOn h m : Py (World α) Unit) := by
  have r := NoMom.refl (α := α)
  have t := NoMom.trans (α := α)
  refine Py.Rel.get_bind fun w0 => ?_
  -- relative to the start: momenta only where there were some
  have key : ∀ w : World α, w.opt.mKs = w0.opt.mKs → w.opt.mCs = w0.opt.mCs → NoMom w0 w :=
    fun w a b n => ⟨fun x => by rw [a]; exact x, fun x => by rw [b]; exact x⟩
  have bind : ∀ {β : Type} (x : Except PyErr β) (f : β → Py (World α) Unit) (w : World α), NoMom w0 w → (∀ b, x = .ok b → NoMom w0 (f b w).2) →
      NoMom w0 ((Py.lift x >>= f) w).2 := by
    intro β x f w hw hf
    rcases x with e | b
    · exact hw
    · exact hf b rfl
  refine bind _ _ w0 (r w0) fun K _ => ?_
  refine bind _ _ w0 (r w0) fun C _ => ?_
  refine bind _ _ w0 (r w0) fun HK _ => ?_
  rw [World.setOpt, Py.modify_bind_run]
  refine bind _ _ _ (key _ rfl rfl) fun HC _ => ?_
  rw [World.setOpt, Py.modify_bind_run]
  refine bind _ _ _ (key _ rfl rfl) fun ms e => ?_
  rw [World.setOpt, Py.modify_bind_run]
  generalize hw : (World.mk _ _ _ _ : World α) = w
  have hw' : NoMom w0 w := by
    intro n
    rw [← hw]
    by_cases ha : h.alpha1 ≠ 0
    · have hm := updateDirs_mom e ha
      simp only [World.storeMomenta, if_pos ha]
      by_cases hn : n = m.name
      · subst hn; exact ⟨fun x => absurd x hm.1, fun x => absurd x hm.2⟩
      · simp only [Dict.set, Function.update_of_ne hn]; exact ⟨id, id⟩
    · simp only [World.storeMomenta, if_neg ha]; exact ⟨id, id⟩
  clear hw
  refine bind _ _ _ hw' fun bK _ => ?_
  refine bind _ _ _ hw' fun bC _ => ?_
  refine bind _ _ _ hw' fun K' _ => ?_
  rw [World.setOpt, Py.modify_bind_run]
  exact bind _ _ _ hw' fun C' _ => hw'

theorem layerStep_noMom (m : Layer) : Py.Rel NoMom (World.layerStep m : Py (World α) Unit) := by
  refine Py.Rel.bind NoMom.trans (fun w => ?_) fun _ => ?_
  · by_cases hu : World.Updates w.opt m
    · obtain ⟨h, a, b, c⟩ := hu
      rw [World.updatePreconditioner_on a b c]; exact updateOn_noMom h m w
    · rw [World.updatePreconditioner_not hu]; exact NoMom.refl w
  · refine Py.Rel.get_bind fun w => ?_
    refine Py.Rel.bind NoMom.trans (Py.Rel.lift NoMom.refl _) (fun N => ?_) w
    exact fun w => (World.applyNat_frame m N w).noMom

/-- no operation, successful or not, creates factor momenta where there are none -/
theorem exec_noMom (op : Op α) (w : World α) : NoMom w (exec op w).2 := by
  cases op with
  | forward i x ge => rcases exec_forward i x ge w with e | ⟨_, m, _, _, e⟩ <;> rw [e] <;> exact fun n => ⟨id, id⟩
  | backward k g => exact (exec_backward k g w).noMom
  | setGrad p G => exact fun n => ⟨id, id⟩
  | setParam p M => exact fun n => ⟨id, id⟩
  | setHyper i h => exact fun n => ⟨id, id⟩
  | setScale s => rw [exec, World.setScale_state]; exact fun n => ⟨id, id⟩
  | step c attr f =>
    cases c
    · have b : NoMom (World.withScale attr w) (World.stepBody f (World.withScale attr w)).2 := by
        cases f
        · exact Py.Rel.get_bind (fun v => Py.Rel.forM NoMom.refl NoMom.trans (fun m _ => layerStep_noMom m) v) _
        · exact (World.dropStats_frame _).noMom
      rw [exec]
      rcases step_state attr f w with e | ⟨e', e⟩ | ⟨w1, e1, e⟩
      · rw [e]; exact fun n => ⟨id, id⟩
      · rw [e]; exact b
      · rw [e]; rw [e1] at b; exact b
    · rw [exec, step_closure]; exact NoMom.refl w

/-- **C47 (no factor momenta).** A layer whose group had `alpha1 = 0` when the optimizer was constructed - in particular every layer
of a `kfac_like` group, whatever `alpha1` was passed - never has factor momenta, whatever happens later (including assignments
to `alpha1`, failing operations, tensors of any shape). -/
theorem C47_no_momenta {structs : String → Option Cls} {model : Model} {p : ParamArg α} {a : Args α} {o : Opt α} {ws : List Warn}
    (hn : (model.layers.map (·.name)).Nodup) (hi : Construct.init structs model p a = .ok (o, ws)) (data : ℕ → Mat α)
    (grad : ℕ → Option (Mat α)) (ops : List (Op α)) {m : Layer} (hm : m ∈ o.layers) {h : Hyper α} (hh : o.hyperOf m = .ok h)
    (hk : h.alpha1 = 0 ∨ h.kfacLike = true) :
    (run ops ⟨o, data, grad, []⟩).opt.mKs m.name = none ∧ (run ops ⟨o, data, grad, []⟩).opt.mCs m.name = none := by
  have I := init_ok hn hi
  have h0 : h.alpha1 = 0 := by
    rcases hk with hk | hk
    · exact hk
    · obtain ⟨i, g, _, e2, rfl⟩ := hyperOf_ok hh
      exact ((C46_accepted hn hi).2 g (List.mem_of_getElem? e2)).2.2 hk
  obtain ⟨_, h', _, _, _, _, e, _, _, _, _, _, _, hz, _⟩ := I.lay m hm
  rw [hh] at e; cases e
  have key := run_inv (P := fun w => w.opt.mKs m.name = none ∧ w.opt.mCs m.name = none)
    (fun op w h => ⟨(exec_noMom op w m.name).1 h.1, (exec_noMom op w m.name).2 h.2⟩) ops ⟨o, data, grad, []⟩ (hz h0)
  exact key

/-- **C53 (turning `alpha1` on).** If a layer has no factor momenta `m_C` - by `C47_no_momenta` for ever the case if `alpha1` was 0 at
construction - and `alpha1` has been set to something else, then an update step of that layer raises `KeyError`: earlier layers
are processed (ending in `v`), the layer's statistics are gone, nothing else has changed and the counter has not advanced. -/
theorem C53_alpha1_turned_on {cl : String → Cls × Cls} {w v : World α} (hw : w.Sound cl) {attr : Option α} {q : α}
    (hq : w.opt.scales ((w.opt.steps : ℤ) - 1) = some q) (hs : w.curScale attr ≠ 0)
    {pre post : List Layer} {m : Layer} (hl : w.opt.layers = pre ++ m :: post) {h : Hyper α} (hh : w.opt.hyperOf m = .ok h)
    (ha : h.alpha1 ≠ 0) (hu : w.opt.steps % h.T = 0) (hm : w.opt.mCs m.name = none) (hK : w.opt.HKs m.name ≠ none)
    (hC : w.opt.HCs m.name ≠ none) (hp : Py.forM pre World.layerStep (World.ensureScale attr w).2 = (.ok (), v)) :
    exec (.step false attr false) w = (.error .keyError, { v with opt := { v.opt with
      HKs := Dict.erase v.opt.HKs m.name, HCs := Dict.erase v.opt.HCs m.name } }) ∧ v.opt.steps = w.opt.steps := by
  have mem : m ∈ w.opt.layers := by rw [hl]; simp
  obtain ⟨h', e', hT⟩ := hw.hyper m mem
  rw [hh] at e'; cases e'
  rw [World.ensureScale_state] at hp
  have es : World.ensureScale attr w = (.ok (), World.withScale attr w) :=
    World.ensureScale_run attr w fun h0 => by rw [h0] at hq; simp at hq; rw [hq]; simp
  have fr := World.innerStep_frame_aux (World.withScale attr w) pre _ (Frame.refl _)
  rw [hp] at fr
  have hn : ¬ ∃ m' ∈ pre, m.name = m'.name ∧ World.Updates (World.withScale attr w).opt m' := by
    rintro ⟨m', h1, h2, _⟩
    have := hw.untied
    rw [hl] at this
    exact ((List.pairwise_append.1 this).2.2 m' h1 m (by simp)).1 h2.symm
  have sf : SameFac m.name w.opt v.opt := (⟨rfl, rfl, rfl, rfl, rfl, rfl⟩ : SameFac m.name w.opt (World.withScale attr w).opt).trans
    (fr.sameFac hn hn)
  have hg := hw.good m mem
  have wf := (hw.lay m mem).congr sf
  obtain ⟨K, eK, wK⟩ := wf.K
  obtain ⟨C, eC, wC⟩ := wf.C
  rw [← sf.HKs] at hK
  rw [← sf.HCs] at hC
  obtain ⟨HK, eHK⟩ := Option.ne_none_iff_exists'.1 hK
  obtain ⟨HC, eHC⟩ := Option.ne_none_iff_exists'.1 hC
  obtain ⟨dK, dC, eN, _⟩ := newMomenta_den h hg.regK hg.regC wK wC (wf.HK _ eHK) (wf.HC _ eHC) (w.unscale attr)
  have us : World.gradUnscaling v.opt = .ok (w.unscale attr) := by
    rw [World.gradUnscaling_frame fr, World.gradUnscaling]
    have h1 : (World.withScale attr w).opt.scale ((World.withScale attr w).opt.steps - 1 : ℤ) = .ok q := by
      show lookup (Dict.set w.opt.scales w.opt.steps _) ((w.opt.steps : ℤ) - 1) = _
      rw [lookup, Dict.set, Function.update_of_ne (by omega), hq]
    have h2 : (World.withScale attr w).opt.scale ((World.withScale attr w).opt.steps : ℤ) = .ok (w.curScale attr) := by
      show lookup (Dict.set w.opt.scales w.opt.steps _) (w.opt.steps : ℤ) = _
      rw [lookup, Dict.set, Function.update_self]; rfl
    rw [h1, Except.bind_ok', h2, Except.bind_ok', if_neg hs, World.unscale, hq]; rfl
  have eD : World.updateDirs v.opt h m K C HK HC = .error .keyError := by
    rw [World.updateDirs, us, Except.bind_ok', Layer.dims_eq hg.sup, Except.bind_ok', eN, Except.bind_ok', World.addMomentum, if_pos ha,
      lookup, sf.mCs, hm]; rfl
  have hst : v.opt.steps = w.opt.steps := by rw [fr.steps]; rfl
  have key : World.updatePreconditioner m v = (.error .keyError, { v with opt := { v.opt with
      HKs := Dict.erase v.opt.HKs m.name, HCs := Dict.erase v.opt.HCs m.name } }) := by
    rw [World.updatePreconditioner_on (h := h) (by rw [fr.hyperOf]; exact hh) hT (by rw [hst]; exact hu), World.updateOn, Py.get_bind_run,
      lookup, eK, Py.lift_ok_bind_run, lookup, eC, Py.lift_ok_bind_run, lookup, eHK, Py.lift_ok_bind_run, World.setOpt, Py.modify_bind_run,
      lookup, eHC, Py.lift_ok_bind_run, World.setOpt, Py.modify_bind_run, eD]
    rfl
  refine ⟨?_, hst⟩
  rw [exec, World.step, if_neg (by simp), Py.bind_ok es]
  have hb : World.stepBody false (World.withScale attr w) = (.error .keyError, { v with opt := { v.opt with
      HKs := Dict.erase v.opt.HKs m.name, HCs := Dict.erase v.opt.HCs m.name } }) := by
    rw [World.stepBody, if_neg (by simp), World.innerStep, Py.get_bind_run]
    have : (World.withScale attr w).opt.layers = pre ++ m :: post := hl
    rw [this, forM_append hp, Py.forM]
    have : World.layerStep m v = (.error .keyError, { v with opt := { v.opt with
      HKs := Dict.erase v.opt.HKs m.name, HCs := Dict.erase v.opt.HCs m.name } }) := by rw [World.layerStep, Py.bind_error key]
    rw [Py.bind_error this]
  rw [Py.bind_error hb]

end

section
variable [LawfulSqrt α]

/-- **C53 (the next step).** A step after the assignment succeeds and treats every layer of group `i` by the new hyper-parameters
(`LayerSpec`: the update rule with the new damping, `alpha1`, and `lr_cov` (a callable is applied to the current step counter,
`IsRate`), the parameter update with the new `lr`, momentum and weight decay), and all others by their old ones. -/
theorem C53_next_step {cl : String → Cls × Cls} {w : World α} (hw : w.Live cl) {i : ℕ} {h : Hyper α} (hf : FitsOp w (.setHyper i h))
    {attr : Option α} (hs : FitsOp (w.assign i h) (.step false attr false)) :
    ∃ w', runOk [.setHyper i h, .step false attr false] w = some w' ∧ ∀ m ∈ w.opt.layers, ∀ h0, w.opt.hyperOf m = .ok h0 →
      LayerSpec (cl m.name) m (if w.opt.ptrGroup m.weight.ptr = some i then h else h0) (w.curScale attr) (w.unscale attr) w w' := by
  obtain ⟨v, e, hv⟩ := hw.exec hf
  rw [exec_setHyper] at e; cases e
  obtain ⟨w', e, sp, _⟩ := hv.step hs
  refine ⟨w', ?_, ?_⟩
  · rw [runOk, exec_setHyper]
    simp only [runOk]
    rw [e]
  · intro m hm h0 hh
    have L := sp.layer m hm _ (by rw [hyperOf_assign, hh]; rfl)
    have sf : SameFac m.name (w.assign i h).opt w.opt := ⟨rfl, rfl, rfl, rfl, rfl, rfl⟩
    have sf' : SameFac m.name w.opt (w.assign i h).opt := ⟨rfl, rfl, rfl, rfl, rfl, rfl⟩
    exact ⟨L.wf, L.shape, fun hu => (L.upd hu).congr sf (SameFac.refl _ _) rfl, fun hu => sf'.trans (L.noupd hu),
      L.apply.congr (fun _ _ => rfl) (fun _ _ => rfl) (fun _ _ => rfl) fun _ _ => rfl⟩

/-- **C53 (the value of `lr_cov`).** An update step number `t` (counted from 0) of a layer whose `lr_cov` is a callable `f` multiplies the
factors from the right by `1 - b M`, `M` the new momentum, where `b = f(t)` - not `f` at another step - or with `normalize_lr_cov`
`b = f(t) / max(1, largest absolute entry of M)`; if `lr_cov` is a number `r`, the same with `r`, whatever `t`. -/
theorem C53_lr_cov {cl : String → Cls × Cls} {w : World α} (hw : w.Live cl) {attr : Option α} (hs : FitsOp w (.step false attr false)) :
    ∃ w', exec (.step false attr false) w = (.ok (), w') ∧ ∀ m ∈ w.opt.layers, ∀ h, w.opt.hyperOf m = .ok h → w.opt.steps % h.T = 0 →
      ∀ r, (h.lrCov = .const r ∨ ∃ f, h.lrCov = .fn f ∧ r = f w.opt.steps) →
      ∃ mK mC, mK = h.alpha1 • denO (w.opt.mKs m.name) m.nK + dirK (cl m.name) m h (w.unscale attr) (denO (w.opt.Ks m.name) _)
          (denO (w.opt.HKs m.name) _) (denO (w.opt.Cs m.name) _) (denO (w.opt.HCs m.name) _) ∧
        mC = h.alpha1 • denO (w.opt.mCs m.name) m.nC + dirC (cl m.name) m h (w.unscale attr) (denO (w.opt.Ks m.name) _)
          (denO (w.opt.HKs m.name) _) (denO (w.opt.Cs m.name) _) (denO (w.opt.HCs m.name) _) ∧
        (h.normalize = false → denO (w'.opt.Ks m.name) m.nK = denO (w.opt.Ks m.name) m.nK * (1 - r • mK) ∧
          denO (w'.opt.Cs m.name) m.nC = denO (w.opt.Cs m.name) m.nC * (1 - r • mC)) ∧
        (h.normalize = true → ∃ vK vC, IsMaxAbs mK vK ∧ IsMaxAbs mC vC ∧
          denO (w'.opt.Ks m.name) m.nK = denO (w.opt.Ks m.name) m.nK * (1 - (r / max 1 vK) • mK) ∧
          denO (w'.opt.Cs m.name) m.nC = denO (w.opt.Cs m.name) m.nC * (1 - (r / max 1 vC) • mC)) := by
  obtain ⟨w', e, sp, _⟩ := hw.step hs
  refine ⟨w', e, fun m hm h hh hu r hr => ?_⟩
  obtain ⟨mK, mC, bK, bC, _, e1, e2, rK, rC, eK, eC⟩ := ((sp.layer m hm h hh).upd hu).eqs
  have er : ∀ t, t = w.opt.steps → h.lrCov.at t = r := by
    rintro t rfl
    rcases hr with hr | ⟨f, hr, hf⟩ <;> rw [hr]
    · rfl
    · rw [hf]; rfl
  refine ⟨mK, mC, e1, e2, fun hn => ?_, fun hn => ?_⟩
  · rw [IsRate, if_neg (by rw [hn]; exact Bool.false_ne_true), er _ rfl] at rK rC
    exact ⟨by rw [eK, rK], by rw [eC, rC]⟩
  · rw [IsRate, if_pos hn, er _ rfl] at rK rC
    obtain ⟨vK, hK, rfl⟩ := rK
    obtain ⟨vC, hC, rfl⟩ := rC
    exact ⟨vK, vC, hK, hC, eK, eC⟩

/-- hyper-parameters of the sample with another learning rate, more damping and a learning rate schedule for the factors -/
def Sample.ghyper2 : Hyper α := { defaults Sample.gargs with lr := 3, damping := 2, lrCov := .fn fun t => 1 / (t + 1) }

theorem Sample.ghyper2_fits {cl : String → Cls × Cls} {w : World α} (hw : w.Live cl) (hr : FitsOp w (.step false none false))
    (hh : ∀ m ∈ w.opt.layers, w.opt.hyperOf m = .ok (defaults Sample.gargs)) (i : ℕ) :
    FitsOp w (.setHyper i Sample.ghyper2) ∧ FitsOp (w.assign i Sample.ghyper2) (.step false none false) := by
  constructor
  · refine ⟨⟨Or.inl rfl, Or.inr (Or.inl rfl), show (2 : ℕ) ≠ 0 by decide⟩, fun m hm _ => ⟨fun h' e => ?_, fun _ => ?_⟩⟩
    · rw [hh m hm] at e; cases e; rfl
    · exact hw.mom m hm _ (hh m hm) (by simp [defaults, Sample.gargs, PyNum.val])
  · refine ⟨rfl, by simp, fun _ m hm => ?_⟩
    have R := hr.2.2 rfl m hm
    refine ⟨⟨R.grads.weight, R.grads.bias⟩, fun h e h0 => ?_⟩
    rw [hyperOf_assign, hh m hm] at e
    have hT : h.T = 2 := by
      cases e
      beta_reduce
      by_cases hp : w.opt.ptrGroup m.weight.ptr = some i
      · rw [if_pos hp]; rfl
      · rw [if_neg hp]; rfl
    obtain ⟨a, b, c⟩ := R.stats _ (hh m hm) (by rw [hT] at h0; exact h0)
    exact ⟨a, b, fun _ => c (by simp [defaults, Sample.gargs, PyNum.val])⟩

example : ∃ (cl : String → Cls × Cls) (w : World ℝ) (i : ℕ), w.Live cl ∧ FitsOp w (.setHyper i Sample.ghyper2) ∧
    FitsOp (w.assign i Sample.ghyper2) (.step false none false) ∧ SameCollection i Sample.ghyper2 w ∧
    Sample.la ∈ w.opt.layers ∧ w.opt.ptrGroup Sample.la.weight.ptr = some i := by
  obtain ⟨cl, w, a, b, c, d, e, f, g, h⟩ := Sample.gready (α := ℝ)
  have mem : Sample.la ∈ w.opt.layers := by rw [c]; simp
  obtain ⟨i, gr, h1, h2, h3⟩ := hyperOf_ok (h _ mem)
  obtain ⟨k1, k2⟩ := Sample.ghyper2_fits a f h i
  refine ⟨cl, w, i, a, k1, k2, ?_, mem, h1⟩
  intro g' hg'
  rw [h2] at hg'; cases hg'
  rw [h3]; exact ⟨rfl, rfl, rfl⟩

-- a state with a scheduled `lr_cov` in which an update step is due
example : ∃ (cl : String → Cls × Cls) (w : World ℝ) (h : Hyper ℝ) (f : ℕ → ℝ), w.Live cl ∧ FitsOp w (.step false none false) ∧
    Sample.la ∈ w.opt.layers ∧ w.opt.hyperOf Sample.la = .ok h ∧ w.opt.steps % h.T = 0 ∧ h.lrCov = .fn f ∧ f 0 ≠ f 1 := by
  obtain ⟨cl, w, a, b, c, d, e, f, g, h⟩ := Sample.gready (α := ℝ)
  have mem : Sample.la ∈ w.opt.layers := by rw [c]; simp
  obtain ⟨i, gr, h1, h2, h3⟩ := hyperOf_ok (h _ mem)
  obtain ⟨k1, k2⟩ := Sample.ghyper2_fits a f h i
  obtain ⟨v, ev, lv⟩ := a.exec k1
  rw [exec_setHyper] at ev; cases ev
  refine ⟨cl, w.assign i Sample.ghyper2, Sample.ghyper2, fun t => 1 / (t + 1), lv, k2, mem, ?_, ?_, rfl, by norm_num⟩
  · rw [hyperOf_assign, h _ mem]
    show Except.ok (if _ then _ else _) = _
    rw [if_pos h1]
  · show w.opt.steps % 2 = 0
    rw [g]

-- a well-formed state without factor momenta in which `alpha1 ≠ 0`
example : ∃ (cl : String → Cls × Cls) (w v : World ℝ) (q : ℝ) (h : Hyper ℝ), w.Sound cl ∧ w.opt.scales ((w.opt.steps : ℤ) - 1) = some q ∧
    w.curScale none ≠ 0 ∧ w.opt.layers = [] ++ Sample.la :: [Sample.lb] ∧ w.opt.hyperOf Sample.la = .ok h ∧ h.alpha1 ≠ 0 ∧
    w.opt.steps % h.T = 0 ∧ w.opt.mCs Sample.la.name = none ∧ w.opt.HKs Sample.la.name ≠ none ∧ w.opt.HCs Sample.la.name ≠ none ∧
    Py.forM [] World.layerStep (World.ensureScale none w).2 = (.ok (), v) := by
  obtain ⟨cl, w, a, b, c, d, e, f, g, h⟩ := Sample.gready (α := ℝ)
  have mem : Sample.la ∈ w.opt.layers := by rw [c]; simp
  have R := (b _ mem).stats _ (h _ mem) (by rw [g]; rfl)
  let w' : World ℝ := { w with opt := { w.opt with mCs := fun _ => none } }
  refine ⟨cl, w', (World.ensureScale none w').2, 1, defaults Sample.gargs, ?_, d, ?_, c, h _ mem, by simp [defaults, Sample.gargs, PyNum.val],
    by rw [show w'.opt.steps = 0 from g]; rfl, rfl, R.1, R.2.1, rfl⟩
  · have S := a.sound
    exact ⟨S.untied, S.good, fun m hm => ⟨(S.lay m hm).K, (S.lay m hm).C, (S.lay m hm).mK, fun X hX => (by cases hX), (S.lay m hm).HK, (S.lay m hm).HC⟩,
      fun m hm => (S.shape m hm).congr (fun _ _ => rfl) fun _ _ => rfl, S.hyper⟩
  · show (w.opt.scales w.opt.steps).getD ((none : Option ℝ).getD 1) ≠ 0
    rw [e]; exact one_ne_zero

end

namespace Sample
/-- the sample optimizer with `kfac_like`; `alpha1` is reset to 0 on construction -/
def kargs : Args ℚ := { args with kfacLike := true }
/-- its hyper-parameters -/
def khyper : Hyper ℚ := { Construct.defaults kargs with alpha1 := 0 }
end Sample

-- `kfac_like` resets `alpha1`; turning it on later makes the step fail
example : Sample.isOk (Construct.init supportedStructures Sample.model .default Sample.kargs) = true ∧ (Sample.model.layers.map (·.name)).Nodup ∧
    Sample.kargs.alpha1.val = 1 / 2 ∧ ((Sample.opt Sample.model .default Sample.kargs).hyperOf Sample.la).map (·.alpha1) = .ok 0 ∧
    Sample.la ∈ (Sample.opt Sample.model .default Sample.kargs).layers := by decide +kernel
example : (match exec (.step false none false) (run (Sample.pass ++ [.setHyper 0 { Sample.khyper with alpha1 := 1 / 2 }])
    (Sample.world Sample.model .default Sample.kargs)) with
    | (.error e, w) => decide (e = .keyError ∧ w.opt.steps = 0 ∧ Sample.fac (w.opt.HKs "a") = none)
    | (.ok _, _) => false) = true := by decide +kernel
