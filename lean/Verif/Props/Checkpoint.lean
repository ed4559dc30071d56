import Verif.Proofs.Opt.Rename
import Verif.Proofs.Opt.Groups
import Verif.Model.Checkpoint
import Verif.Props.History

/-! C38-C40: checkpoints. -/

set_option linter.unusedSectionVars false
open Construct Checkpoint
variable {α : Type} [Field α] [LinearOrder α] [HasSqrt α]

/-- the same model with parameters at other addresses -/
def Model.rename (ρ : Equiv.Perm ℕ) (m : Model) : Model := { m with layers := m.layers.map (·.rename ρ) }
/-- the same argument `params` for the model with parameters at other addresses -/
def ParamArg.rename (ρ : Equiv.Perm ℕ) : ParamArg α → ParamArg α
  | .default => .default
  | .flat ps => .flat (ps.map (·.rename ρ))
  | .groups gs => .groups (gs.map fun g => { g with params := g.params.map (·.rename ρ) })

namespace Checkpoint

theorem number_spec : ∀ (gs : List (List ℕ)) (s p i : ℕ), number s gs p = some i → s ≤ i ∧ gs.flatten[i - s]? = some p
  | [], _, _, _, h => by cases h
  | g :: gs, s, p, i, h => by
    rw [number] at h
    split at h
    · rename_i hp
      cases h
      have hl : 0 < g.length := List.length_pos_of_mem hp
      have hr : g.reverse.idxOf p < g.length := by
        have := List.idxOf_lt_length_of_mem (List.mem_reverse.2 hp); simpa using this
      refine ⟨Nat.le_add_right _ _, ?_⟩
      rw [Nat.add_sub_cancel_left, List.flatten_cons, List.getElem?_append_left (by omega)]
      have h1 : g.reverse[g.reverse.idxOf p]? = some p := by
        rw [List.getElem?_eq_getElem (by simpa using hr), List.getElem_idxOf]
      rwa [List.getElem?_reverse hr] at h1
    · obtain ⟨h1, h2⟩ := number_spec gs _ p i h
      refine ⟨by omega, ?_⟩
      rw [List.flatten_cons, List.getElem?_append_right (by omega), ← h2]
      congr 1; omega

theorem number_isSome : ∀ (gs : List (List ℕ)) (s p : ℕ), p ∈ gs.flatten → ∃ i, number s gs p = some i
  | [], _, _, h => by simp at h
  | g :: gs, s, p, h => by
    rw [number]
    split
    · exact ⟨_, rfl⟩
    · rename_i hp
      rw [List.flatten_cons, List.mem_append] at h
      exact number_isSome gs _ p (h.resolve_left hp)

theorem number_inj {gs : List (List ℕ)} {p q i : ℕ} (h : number 0 gs p = some i) (h' : number 0 gs q = some i) : p = q := by
  have h1 := (number_spec gs 0 p i h).2
  have h2 := (number_spec gs 0 q i h').2
  rw [h1] at h2; exact Option.some.inj h2

theorem packState_ok {num : ℕ → Option ℕ} {mom : ℕ → Option (Mat α)} : ∀ (ps : List ℕ), (∀ p ∈ ps, (num p).isSome ∧ (mom p).isSome) →
    packState num mom ps = .ok (ps.map fun p => ((num p).getD 0, (mom p).getD (Mat.zeros 0 0)))
  | [], _ => rfl
  | p :: ps, h => by
    obtain ⟨h1, h2⟩ := h p (by simp)
    obtain ⟨i, hi⟩ := Option.isSome_iff_exists.1 h1
    obtain ⟨v, hv⟩ := Option.isSome_iff_exists.1 h2
    rw [packState, packState_ok ps fun q hq => h q (by simp [hq])]
    simp [lookup, hi, hv]; rfl

theorem packState_keyError {num : ℕ → Option ℕ} {mom : ℕ → Option (Mat α)} : ∀ (ps : List ℕ), (∀ p ∈ ps, (mom p).isSome) →
    (∃ p ∈ ps, num p = none) → packState num mom ps = .error .keyError
  | [], _, h => by simp at h
  | p :: ps, h, ⟨q, hq, e⟩ => by
    rw [packState]
    rcases hn : num p with _ | i
    · simp [lookup, hn]; rfl
    · obtain ⟨v, hv⟩ := Option.isSome_iff_exists.1 (h p (by simp))
      have hq' : q ∈ ps := by
        rcases List.mem_cons.1 hq with rfl | h
        · rw [hn] at e; cases e
        · exact h
      rw [packState_keyError ps (fun r hr => h r (by simp [hr])) ⟨q, hq', e⟩]
      simp [lookup, hn, hv]; rfl

theorem idMap_eq {ps : List ℕ} {f : ℕ → ℕ} {ρ : Equiv.Perm ℕ} {p : ℕ} (hp : p ∈ ps) (hf : ∀ q ∈ ps, f q = f p → q = p) :
    idMap (ps.map f) (ps.map ρ) (f p) = some (ρ p) := by
  unfold idMap
  have e : (ps.map f).zip (ps.map ρ) = ps.map fun q => (f q, ρ q) := by
    clear hp hf
    induction ps with
    | nil => rfl
    | cons q qs ih => simp [ih]
  rw [e]
  rcases h : ((ps.map fun q => (f q, ρ q)).filter fun e => e.1 = f p).getLast? with _ | x
  · rw [List.getLast?_eq_none_iff] at h
    have : (f p, ρ p) ∈ (ps.map fun q => (f q, ρ q)).filter fun e => e.1 = f p := by
      simp only [List.mem_filter, List.mem_map, decide_true, and_true]; exact ⟨p, hp, rfl⟩
    rw [h] at this; simp at this
  · have := List.mem_of_getLast? h
    simp only [List.mem_filter, List.mem_map, decide_eq_true_eq] at this
    obtain ⟨⟨q, hq, rfl⟩, e2⟩ := this
    rw [h]
    show some (ρ q) = _
    rw [hf q hq e2]

theorem unpackState_eq {ids : ℕ → Option ℕ} {f : ℕ → ℕ} {mom : ℕ → Option (Mat α)} {ρ : Equiv.Perm ℕ} : ∀ (ps : List ℕ) (init : ℕ → Option (Mat α)),
    (∀ p ∈ ps, ids (f p) = some (ρ p) ∧ (mom p).isSome) → ∀ q,
    unpackState ids (ps.map fun p => (f p, (mom p).getD (Mat.zeros 0 0))) init q = if ρ.symm q ∈ ps then mom (ρ.symm q) else init q
  | [], _, _, _ => by simp [unpackState]
  | p :: ps, init, h, q => by
    obtain ⟨h1, h2⟩ := h p (by simp)
    rw [List.map_cons, unpackState, unpackState_eq ps _ (fun r hr => h r (by simp [hr])), h1]
    by_cases hq : ρ.symm q ∈ ps
    · simp [hq]
    · rw [if_neg hq]
      by_cases e : ρ.symm q = p
      · rw [if_pos (by simp [e])]
        have : q = ρ p := by rw [← e]; simp
        rw [e, this]
        obtain ⟨v, hv⟩ := Option.isSome_iff_exists.1 h2
        simp [Dict.set, hv]
      · rw [if_neg (by simp [e, hq])]
        have : q ≠ ρ p := fun e' => e (by rw [e']; simp)
        simp [Dict.set, this]

end Checkpoint

/-- buffers exist for parameters of hooked layers only -/
def MomIn (w : World α) : Prop := ∀ p, w.opt.mom p ≠ none → ∃ m ∈ w.opt.layers, World.Owns m p

theorem exec_momIn (op : Op α) (w : World α) (h : MomIn w) : MomIn (exec op w).2 := by
  intro p hp
  rw [(exec_static op w).1]
  cases op with
  | forward i x ge =>
    rcases exec_forward i x ge w with e | ⟨_, m, _, _, e⟩ <;> rw [e] at hp <;> exact h p hp
  | backward k g => rw [(exec_backward k g w).mom p id] at hp; exact h p hp
  | setGrad q G => exact h p hp
  | setParam q M => exact h p hp
  | setHyper i h' => exact h p hp
  | setScale s => rw [exec, World.setScale_state] at hp; exact h p hp
  | step c attr f =>
    by_contra hc
    apply hc
    cases c
    · rw [exec] at hp
      have fr := stepBody_frame f (World.withScale attr w)
      have hP : ¬ (f = false ∧ ∃ m ∈ (World.withScale attr w).opt.layers, World.Owns m p) := fun e => hc e.2
      rcases step_state attr f w with e | ⟨e', e⟩ | ⟨w1, e1, e⟩
      · rw [e] at hp; exact h p hp
      · rw [e, fr.mom p hP] at hp; exact h p hp
      · rw [e] at hp
        rw [e1] at fr
        have : w1.opt.mom p ≠ none := hp
        rw [fr.mom p hP] at this; exact h p this
    · rw [exec, step_closure] at hp; exact h p hp

theorem reachable_momIn {structs : String → Option Cls} {w : World α} (hw : Reachable structs w) : MomIn w := by
  obtain ⟨model, p, a, o, ws, data, grad, ops, hn, hi, rfl⟩ := hw
  refine run_inv exec_momIn ops _ ?_
  intro q hq
  exact absurd (congrFun (init_ok hn hi).mom q) hq

theorem flatMap_params (gs : List (PGroup α)) : gs.flatMap (·.params) = (gs.map (·.params)).flatten := by
  rw [List.flatMap_def]

/-- loading what has been saved, into an optimizer whose layers and groups are the same up to addresses -/
theorem load_save {o o0 : Opt α} {ρ : Equiv.Perm ℕ} (hs : o0.structs = o.structs) (hl : o0.layers = o.layers.map (·.rename ρ))
    (hp : o0.ptrGroup = fun p => o.ptrGroup (ρ.symm p)) (hg : o0.groups.map (·.params) = (o.groups.map (·.params)).map (·.map ρ))
    (hm : ∀ p, o.mom p ≠ none → ∃ m ∈ o.layers, World.Owns m p)
    (hin : ∀ m ∈ o.layers, ∀ p, World.Owns m p → p ∈ (o.groups.map (·.params)).flatten) :
    ∃ d, save o.obj = .ok d ∧ d.attrs = some (o.steps, o.obj.dicts) ∧ load o0.obj d = (.ok (o.rename ρ).obj, { d with attrs := none }) := by
  set ps := o.groups.map (·.params) with hps
  have own : ∀ m p, World.Owns m p ↔ p ∈ m.weight.ptr :: m.bias.toList.map (·.ptr) := by
    intro m p
    cases hb : m.bias <;> simp [World.Owns, hb, eq_comm]
  have hk : ∀ p, p ∈ keys o.obj ↔ o.mom p ≠ none := by
    intro p
    rw [keys, List.mem_filter, List.mem_flatMap]
    constructor
    · rintro ⟨_, h⟩ e
      rw [show o.obj.mom p = o.mom p from rfl, e] at h; simp at h
    · intro h
      obtain ⟨m, h1, h2⟩ := hm p h
      refine ⟨⟨m, h1, (own m p).1 h2⟩, ?_⟩
      rw [show o.obj.mom p = o.mom p from rfl]
      exact Option.ne_none_iff_isSome.1 h
  have hnum : ∀ p, p ∈ keys o.obj → p ∈ ps.flatten ∧ (number 0 ps p).isSome ∧ (o.mom p).isSome := by
    intro p h
    have h' := (hk p).1 h
    obtain ⟨m, h1, h2⟩ := hm p h'
    have h3 := hin m h1 p h2
    obtain ⟨i, hi⟩ := number_isSome ps 0 p h3
    exact ⟨h3, by rw [hi]; rfl, Option.ne_none_iff_isSome.1 h'⟩
  have e := packState_ok (num := number 0 ps) (mom := o.mom) (keys o.obj) fun p h => (hnum p h).2
  refine ⟨_, by rw [save]; erw [e]; rfl, rfl, ?_⟩
  have hlen : o0.groups.length = o.groups.length := by
    have := congrArg List.length hg; simpa [hps] using this
  have hlens : o0.groups.map (·.params.length) = o.groups.map (·.params.length) := by
    have := congrArg (List.map List.length) hg
    simpa [hps, List.map_map, Function.comp_def] using this
  rw [load, Py.get_bind_run]
  simp only [Py.modify_bind_run]
  have tl : torchLoad o0.obj ⟨o.groups.map (fun g => (g.params.map fun p => (number 0 ps p).getD 0, g.h)),
      (keys o.obj).map (fun p => ((number 0 ps p).getD 0, (o.mom p).getD (Mat.zeros 0 0))), some (o.steps, o.obj.dicts)⟩ =
      .ok { o0.obj with groups := o.groups.map (·.rename ρ), mom := fun p => o.mom (ρ.symm p) } := by
    rw [torchLoad, if_neg (by simp [Opt.obj, hlen]), if_neg (by simpa [Opt.obj, Function.comp_def] using hlens)]
    congr 2
    · apply List.ext_getElem
      · simp [Opt.obj, hlen]
      · intro n h1 h2
        have hn : n < o.groups.length := by simpa using h2
        have hn0 : n < o0.groups.length := by rw [hlen]; exact hn
        have := List.getElem_of_eq hg (i := n) (by simpa using hn0)
        simp only [List.getElem_map, hps] at this
        simp [Opt.obj, PGroup.rename, this]
    · funext q
      have fl : (o.groups.map fun g => (g.params.map fun p => (number 0 ps p).getD 0, g.h)).flatMap (·.1) = ps.flatten.map fun p => (number 0 ps p).getD 0 := by
        rw [List.flatMap_map, List.map_flatten, hps, List.map_map, List.flatMap_def]; rfl
      have fl0 : o0.obj.groups.flatMap (·.params) = ps.flatten.map ρ := by
        rw [show o0.obj.groups = o0.groups from rfl, flatMap_params, hg, List.map_flatten]
      rw [fl, fl0]
      rw [unpackState_eq (f := fun p => (number 0 ps p).getD 0) (mom := o.mom) (ρ := ρ) (keys o.obj)]
      · by_cases hq : ρ.symm q ∈ keys o.obj
        · rw [if_pos hq]
        · rw [if_neg hq]
          by_contra hne
          exact hq ((hk _).2 fun e => hne e.symm)
      · intro p hp
        obtain ⟨h1, h2, h3⟩ := hnum p hp
        refine ⟨idMap_eq (f := fun p => (number 0 ps p).getD 0) h1 fun q hq hqe => ?_, h3⟩
        obtain ⟨i, hi⟩ := Option.isSome_iff_exists.1 h2
        obtain ⟨j, hj⟩ := number_isSome ps 0 q hq
        simp only [hi, hj, Option.getD_some] at hqe
        subst hqe
        exact number_inj hj hi
  erw [tl]
  rw [Py.lift_ok_bind_run]
  show (Except.ok _, _) = _
  congr 2
  simp only [Opt.obj, Opt.rename, hs, hl, hp]

theorem groupArgs_rename (layers : List Layer) (wu wu' : Bool) (p : ParamArg α) (ρ : Equiv.Perm ℕ) :
    (groupArgs (layers.map (·.rename ρ)) wu' (p.rename ρ)).1.map (·.params) = (groupArgs layers wu p).1.map fun g => g.params.map (·.rename ρ) := by
  cases p with
  | default =>
    have hp : ∀ m : Layer, (m.rename ρ).parameters = m.parameters.map (·.rename ρ) := by
      intro m
      unfold Layer.parameters
      rw [Layer.supported_rename]
      split
      · cases hb : m.bias <;> simp [Layer.rename, hb]
      · rfl
    have ht : (trainable (layers.map (·.rename ρ)) wu').1 = (trainable layers wu).1.map (·.rename ρ) := by
      unfold trainable
      simp only [List.filter_map, List.flatMap_map, List.map_flatMap]
      rw [show ((fun x : Layer => x.leaf) ∘ fun x : Layer => x.rename ρ) = fun x : Layer => x.leaf from rfl]
      congr 1
      funext m
      rw [Layer.supported_rename]
      split
      · rw [hp, List.filter_map]; rfl
      · rfl
    simp only [groupArgs, ParamArg.rename, ht, List.map_eq_nil_iff]
    split <;> simp
  | flat ps =>
    simp only [groupArgs, ParamArg.rename, List.map_eq_nil_iff]
    split <;> simp
  | groups gs => simp [groupArgs, ParamArg.rename, Function.comp_def]

theorem Construct.InitSpec.params {structs : String → Option Cls} {model : Model} {p : ParamArg α} {a : Args α} {o : Opt α} {ws : List Warn}
    (I : InitSpec structs model p a o ws) : o.groups.map (·.params) = (groupArgs model.layers a.warnUnsupported p).1.map fun g => g.params.map (·.ptr) := by
  obtain ⟨gs, ws', h1, h2, _⟩ := I.groups
  obtain ⟨_, _, rfl⟩ := torchInit_ok h1
  obtain ⟨_, h3, _⟩ := checkGroups_ok h2
  rw [h3]
  simp [Function.comp_def, fill]

/-- constructing an optimizer for an equal model, with the same parameters in groups (and any other arguments), gives the same layers and
groups -/
theorem init_static {structs structs' : String → Option Cls} {model : Model} {p : ParamArg α} {a a' : Args α} {o o0 : Opt α} {ws ws' : List Warn}
    {ρ : Equiv.Perm ℕ} (I : InitSpec structs model p a o ws) (I' : InitSpec structs' (model.rename ρ) (p.rename ρ) a' o0 ws') :
    o0.groups.map (·.params) = (o.groups.map (·.params)).map (·.map ρ) ∧ o0.layers = o.layers.map (·.rename ρ) ∧
      o0.ptrGroup = fun q => o.ptrGroup (ρ.symm q) := by
  have hg : o0.groups.map (·.params) = (o.groups.map (·.params)).map (·.map ρ) := by
    rw [I.params, I'.params]
    have := congrArg (List.map (List.map (·.ptr))) (groupArgs_rename model.layers a.warnUnsupported a'.warnUnsupported p ρ)
    simp only [List.map_map, Function.comp_def] at this ⊢
    exact this
  have hlen : o0.groups.length = o.groups.length := by
    have := congrArg List.length hg; simpa using this
  refine ⟨hg, ?_, ?_⟩
  · rw [I.layers, I'.layers]
    unfold hooked
    rw [show (model.rename ρ).layers = model.layers.map (·.rename ρ) from rfl, List.filter_map]
    congr 1
    apply List.filter_congr
    intro m _
    have hid : paramIds o0.groups = (paramIds o.groups).map ρ := by
      unfold paramIds; rw [flatMap_params, flatMap_params, hg, List.map_flatten]
    have hp : (m.rename ρ).parameters = m.parameters.map (·.rename ρ) := by
      unfold Layer.parameters
      rw [Layer.supported_rename]
      split
      · cases hb : m.bias <;> simp [Layer.rename, hb]
      · rfl
    simp only [Function.comp_apply, hp, Layer.supported_rename, List.any_map, hid]
    congr 2
    funext q
    simp [Param.rename]
  · rw [I.ptrGroup, I'.ptrGroup]
    funext q
    unfold Construct.ptrGroup
    rw [hlen, hg]
    congr 1
    apply List.filter_congr
    intro i hi
    rw [List.mem_range] at hi
    simp only [List.getD_eq_getElem?_getD, List.getElem?_map]
    rcases o.groups[i]? with _ | g
    · simp
    · simp only [Option.map_some, Option.getD_some]
      rw [Bool.eq_iff_iff]
      simp only [List.contains_iff_mem, List.mem_map]
      constructor
      · rintro ⟨p, hp, rfl⟩; simpa using hp
      · intro h; exact ⟨_, h, by simp⟩

/-- **C38.** At any point of any history (also between backward and step), the state can be saved, and loaded into an optimizer that has been
constructed for an equal model (with parameters at any other addresses `ρ`, the same parameters in groups, and any other arguments).
From then on, every history that does not run hooks of forward passes before the checkpoint has the same effects and exceptions as
without the interruption. (Biases of trained layers have to be in groups too, see `C38_unlisted_bias`.) -/
theorem C38_checkpoint {structs : String → Option Cls} {model : Model} {p : ParamArg α} {a a' : Args α} {o o0 : Opt α} {ws ws' : List Warn}
    {ρ : Equiv.Perm ℕ} (hn : (model.layers.map (·.name)).Nodup) (hi : Construct.init structs model p a = .ok (o, ws))
    (hi' : Construct.init structs (model.rename ρ) (p.rename ρ) a' = .ok (o0, ws'))
    (hb : ∀ m ∈ o.layers, ∀ b, m.bias = some b → ∃ g ∈ o.groups, b.ptr ∈ g.params)
    (data : ℕ → Mat α) (grad : ℕ → Option (Mat α)) (ops : List (Op α)) {w : World α} (hw : w = run ops ⟨o, data, grad, []⟩) :
    ∃ d, save w.opt.obj = .ok d ∧ ∃ o1 d', load o0.obj d = (.ok o1, d') ∧
      ∀ (later : List (Op α)) (op : Op α), (∀ op' ∈ later ++ [op], op'.Since w.hooks.length) →
        exec (op.view ρ w.hooks.length) (run (later.map (Op.view ρ w.hooks.length))
          ⟨o1.opt, fun q => w.data (ρ.symm q), fun q => w.grad (ρ.symm q), []⟩) =
        ((exec op (run later w)).1, (exec op (run later w)).2.view ρ (keepHooks ρ w.hooks.length)) := by
  have I := init_ok hn hi
  have hn' : ((model.rename ρ).layers.map (·.name)).Nodup := by
    rw [show ((model.rename ρ).layers.map (·.name)) = model.layers.map (·.name) by
      simp [Model.rename, Function.comp_def, Layer.rename]]
    exact hn
  have I' := init_ok hn' hi'
  obtain ⟨g1, g2, g3⟩ := init_static I I'
  have st : w.opt.layers = o.layers ∧ w.opt.ptrGroup = o.ptrGroup ∧ w.opt.structs = o.structs ∧
      w.opt.groups.map (·.params) = o.groups.map (·.params) := by
    rw [hw]
    refine run_inv (P := fun v => v.opt.layers = o.layers ∧ v.opt.ptrGroup = o.ptrGroup ∧ v.opt.structs = o.structs ∧
      v.opt.groups.map (·.params) = o.groups.map (·.params)) (fun op v h => ?_) ops _ ⟨rfl, rfl, rfl, rfl⟩
    obtain ⟨e1, e2, e3, e4⟩ := exec_static op v
    exact ⟨e1.trans h.1, e2.trans h.2.1, e3.trans h.2.2.1, e4.trans h.2.2.2⟩
  have hr : Reachable structs w := ⟨model, p, a, o, ws, data, grad, ops, hn, hi, hw⟩
  obtain ⟨d, e1, _, e2⟩ := load_save (o := w.opt) (o0 := o0) (ρ := ρ) (by rw [I'.structs, st.2.2.1, I.structs]) (by rw [g2, st.1])
    (by rw [g3, st.2.1]) (by rw [g1, st.2.2.2]) (reachable_momIn hr) (by
      intro m hm q hq
      rcases hq with rfl | ⟨b, hb', rfl⟩
      · exact reachable_weightsIn hr m hm
      · rw [st.2.2.2]
        obtain ⟨g, hg, hq⟩ := hb m (st.1 ▸ hm) b hb'
        exact List.mem_flatten.2 ⟨_, List.mem_map.2 ⟨g, hg, rfl⟩, hq⟩)
  refine ⟨d, e1, _, _, e2, fun later op hs => ?_⟩
  have hk : keepHooks ρ w.hooks.length w.hooks = [] := by simp [keepHooks]
  have hv : (⟨(w.opt.rename ρ).obj.opt, fun q => w.data (ρ.symm q), fun q => w.grad (ρ.symm q), []⟩ : World α) =
      w.view ρ (keepHooks ρ w.hooks.length) := by
    unfold World.view; rw [hk]; rfl
  rw [hv, run_view later w le_rfl fun o h => hs o (by simp [h])]
  refine exec_view op _ ?_ (hs op (by simp))
  refine run_inv (P := fun v => w.hooks.length ≤ v.hooks.length) (fun op v h => h.trans (exec_hooks_length op v)) later w le_rfl

-- a model at other addresses, saved between backward and step
example : ∃ (o o0 : Opt ℚ) (ws ws' : List Warn), (Sample.model.layers.map (·.name)).Nodup ∧
    Construct.init supportedStructures Sample.model .default Sample.args = .ok (o, ws) ∧
    Construct.init supportedStructures (Sample.model.rename (Equiv.swap 0 5)) (ParamArg.rename (Equiv.swap 0 5) .default) Sample.args = .ok (o0, ws') ∧
    (∀ m ∈ o.layers, ∀ b, m.bias = some b → ∃ g ∈ o.groups, b.ptr ∈ g.params) ∧ o.layers.length = 2 := by
  obtain ⟨ws, e⟩ := Sample.init_eq (m := Sample.model) (p := .default) (a := Sample.args) (by decide +kernel)
  obtain ⟨ws', e'⟩ := Sample.init_eq (m := Sample.model.rename (Equiv.swap 0 5)) (p := ParamArg.rename (Equiv.swap 0 5) .default) (a := Sample.args)
    (by decide +kernel)
  exact ⟨_, _, ws, ws', by decide, e, e', by decide +kernel, by decide +kernel⟩

theorem Checkpoint.number_none : ∀ (gs : List (List ℕ)) (s p : ℕ), p ∉ gs.flatten → number s gs p = none
  | [], _, _, _ => rfl
  | g :: gs, s, p, h => by
    rw [List.flatten_cons, List.mem_append, not_or] at h
    rw [number, if_neg h.1, number_none gs _ p h.2]

/-- `state_dict` raises `KeyError` if a trained layer has a momentum buffer of a parameter that is in no group. -/
theorem C38_unlisted_keyError (o : Opt α) {m : Layer} {p : ℕ} (hm : m ∈ o.layers) (hp : World.Owns m p) (hb : o.mom p ≠ none)
    (hg : ∀ g ∈ o.groups, p ∉ g.params) : save o.obj = .error .keyError := by
  rw [save]
  have hk : p ∈ keys o.obj := by
    rw [keys, List.mem_filter, List.mem_flatMap]
    refine ⟨⟨m, hm, ?_⟩, Option.ne_none_iff_isSome.1 hb⟩
    rcases hp with rfl | ⟨b, hb, rfl⟩
    · simp
    · rename_i hb'; simp [hb']
  have := packState_keyError (num := number 0 (o.groups.map (·.params))) (mom := o.mom) (keys o.obj)
    (fun q hq => (List.mem_filter.1 hq).2) ⟨p, hk, number_none _ _ _ (by
      rintro h
      obtain ⟨l, hl, h⟩ := List.mem_flatten.1 h
      obtain ⟨g, hg', rfl⟩ := List.mem_map.1 hl
      exact hg g hg' h)⟩
  erw [this]; rfl

/-- **C38 is false if the bias of a trained layer is in no group**: after a step, `state_dict()` raises `KeyError`. -/
theorem C38_unlisted_bias : ∃ w : World ℚ, Reachable supportedStructures w ∧ save w.opt.obj = .error .keyError := by
  refine ⟨_, Sample.reachable (m := Sample.model) (p := .flat [⟨0, true⟩, ⟨2, true⟩]) (a := Sample.args) (by decide +kernel) (by decide +kernel)
    (Sample.pass ++ [.step false none false]), ?_⟩
  refine C38_unlisted_keyError _ (m := Sample.la) (p := 1) (by decide +kernel) (Or.inr ⟨⟨1, true⟩, rfl, rfl⟩) ?_ (by decide +kernel)
  exact Option.ne_none_iff_isSome.2 (by decide +kernel)

/-! ### C39 -/

/-- what loading does to the dictionary passed to it -/
theorem load_dict {β : Type} (o : OptObj α β) (d : StateDict α β) : (load o d).2 = { d with attrs := none } := by
  rw [load, Py.get_bind_run]
  rcases h : d.attrs with _ | a
  · show d = _
    rw [← h]
  · simp only [Py.modify_bind_run]
    rcases torchLoad o d with e | o' <;> rfl

/-- **C39 is false**: whatever the dictionary, and whether or not loading succeeds, afterwards it can not be loaded by any optimizer:
`KeyError`. -/
theorem C39_consumed {β : Type} (o o2 : OptObj α β) (d : StateDict α β) : (load o2 (load o d).2).1 = .error .keyError := by
  rw [load_dict]; rfl

/-- Nothing else is removed: put the entries of the attributes back, and it is the dictionary passed to `load_state_dict`. -/
theorem C39_rest {β : Type} (o : OptObj α β) (d : StateDict α β) : { (load o d).2 with attrs := d.attrs } = d := by
  rw [load_dict]

/-- **C39**, concretely: the state of an optimizer is saved, loading it succeeds, and loading it again raises `KeyError`. -/
theorem C39_false : ∃ (o o2 : Opt ℚ) (d : StateDict ℚ (Dicts ℚ)) (o1 : OptObj ℚ (Dicts ℚ)) (d' : StateDict ℚ (Dicts ℚ)),
    save o.obj = .ok d ∧ load o2.obj d = (.ok o1, d') ∧ (load o2.obj d').1 = .error .keyError := by
  obtain ⟨ws, e⟩ := Sample.init_eq (m := Sample.model) (p := .default) (a := Sample.args) (by decide +kernel)
  have e' : Construct.init supportedStructures (Sample.model.rename (Equiv.refl ℕ)) (ParamArg.rename (Equiv.refl ℕ) .default) Sample.args = _ := e
  obtain ⟨d, h1, o1, d', h2, _⟩ := C38_checkpoint (by decide) e e' (by decide +kernel) (fun _ => Mat.zeros 0 0) (fun _ => none) [] rfl
  refine ⟨_, _, d, o1, d', h1, h2, ?_⟩
  have := C39_consumed (Sample.opt Sample.model .default Sample.args).obj (Sample.opt Sample.model .default Sample.args).obj d
  rw [h2] at this; exact this

/-! ### C40 -/

/-- what operations of one optimizer do to a process -/
theorem runIn_exec (i : ℕ) : ∀ (ops : List (Op α)) (s : Process α),
    (runIn (ops.map (.exec i)) s).world i = run ops (s.world i) ∧ ((runIn (ops.map (.exec i)) s).objs i).dicts = (s.objs i).dicts ∧
    (runIn (ops.map (.exec i)) s).heap (s.objs i).dicts = (run ops (s.world i)).opt.obj.dicts ∧
    (runIn (ops.map (.exec i)) s).saved = s.saved ∧ ∀ j, j ≠ i → (runIn (ops.map (.exec i)) s).objs j = s.objs j
  | [], s => ⟨rfl, rfl, rfl, rfl, fun _ _ => rfl⟩
  | op :: ops, s => by
    have hw : (s.put i (exec op (s.world i)).2).world i = (exec op (s.world i)).2 := by
      simp [Process.put, Process.world, OptObj.read, Opt.obj, OptObj.opt]
    obtain ⟨h1, h2, h3, h4, h5⟩ := runIn_exec i ops (s.put i (exec op (s.world i)).2)
    have hd : ((s.put i (exec op (s.world i)).2).objs i).dicts = (s.objs i).dicts := by simp [Process.put, OptObj.read]
    rw [hw] at h1 h3
    rw [hd] at h2 h3
    refine ⟨h1, h2, h3, h4, fun j hj => (h5 j hj).trans ?_⟩
    simp [Process.put, Function.update_of_ne hj]

/-- **C40.** What a state dictionary describes after training went on: the number of steps, the hyper-parameters and the momentum buffers it
was created with, but the factors, their momenta, the statistics and the gradient scales of the present state. -/
theorem C40_mixture (s : Process α) (i d : ℕ) {sd : StateDict α ℕ} (hs : save (s.objs i) = .ok sd) (ops : List (Op α)) :
    let s1 := runIn [.save i d] s
    let s2 := runIn (ops.map (.exec i)) s1
    ((s1.saved d).read s1.heap).attrs = some ((s.world i).opt.steps, (s.world i).opt.obj.dicts) ∧
    ((s2.saved d).read s2.heap).attrs = some ((s.world i).opt.steps, (run ops (s.world i)).opt.obj.dicts) ∧
    ((s2.saved d).read s2.heap).groups = ((s1.saved d).read s1.heap).groups ∧ ((s2.saved d).read s2.heap).state = ((s1.saved d).read s1.heap).state := by
  have e1 : runIn [.save i d] s = { s with saved := Function.update s.saved d sd } := by
    show (execIn (.save i d) s).2 = _
    simp only [execIn, hs]
  have ha : sd.attrs = some ((s.objs i).steps, (s.objs i).dicts) := by
    rw [save] at hs
    obtain ⟨st, _, h⟩ := IOProof.Except.bind_eq_ok hs
    cases h; rfl
  rw [e1]
  obtain ⟨h1, h2, h3, h4, h5⟩ := runIn_exec i ops { s with saved := Function.update s.saved d sd }
  have hw : Process.world { s with saved := Function.update s.saved d sd } i = s.world i := rfl
  rw [hw] at h1 h3
  simp only [StateDict.read, h4, Function.update_self, ha, Option.map_some]
  refine ⟨rfl, ?_, trivial, trivial⟩
  have h3' := h3
  rw [h3]; rfl

/-- one optimizer in a process -/
def Sample.process (w : World ℚ) : Process ℚ where
  heap := fun _ => w.opt.obj.dicts
  objs := fun _ => w.opt.obj.read fun _ => 0
  data := fun _ => w.data
  grad := fun _ => w.grad
  hooks := fun _ => w.hooks
  saved := fun _ => ⟨[], [], none⟩

/-- **C40 is false**: after one more step, the dictionary describes neither the state at the time of the call nor the present state. -/
theorem C40_false : ∃ (s : Process ℚ) (i d : ℕ) (op : Op ℚ), Reachable supportedStructures (s.world i) ∧
    (execIn (.save i d) s).1 = .ok () ∧
    let s1 := (execIn (.save i d) s).2
    let s2 := (execIn (.exec i op) s1).2
    (execIn (.exec i op) s1).1 = .ok () ∧ ((s2.saved d).read s2.heap).attrs ≠ ((s1.saved d).read s1.heap).attrs ∧
      ∀ sd, save (s2.objs i) = .ok sd → ((s2.saved d).read s2.heap).attrs ≠ (sd.read s2.heap).attrs := by
  have hw : (Sample.process Sample.w1).world 0 = Sample.w1 := rfl
  obtain ⟨sd, hsd⟩ : ∃ sd, save ((Sample.process Sample.w1).objs 0) = .ok sd := by
    have : Sample.isOk (save ((Sample.process Sample.w1).objs 0)) = true := by decide +kernel
    rcases h : save ((Sample.process Sample.w1).objs 0) with e | sd
    · rw [h] at this; cases this
    · exact ⟨sd, rfl⟩
  have hs1 : execIn (.save 0 0) (Sample.process Sample.w1) = (.ok (), { Sample.process Sample.w1 with saved := Function.update (Sample.process Sample.w1).saved 0 sd }) := by
    simp only [execIn, hsd]
  have M := C40_mixture (Sample.process Sample.w1) 0 0 hsd [.step false none false]
  simp only at M
  have e1 : runIn [.save 0 0] (Sample.process Sample.w1) = (execIn (.save 0 0) (Sample.process Sample.w1)).2 := rfl
  rw [e1] at M
  obtain ⟨M1, M2, _, _⟩ := M
  rw [hw] at M1 M2
  obtain ⟨R1, R2, R3, R4, R5⟩ := runIn_exec 0 [.step false none false] (execIn (.save 0 0) (Sample.process Sample.w1)).2
  have hw1 : ((execIn (.save 0 0) (Sample.process Sample.w1)).2).world 0 = Sample.w1 := by rw [hs1]; rfl
  rw [hw1] at R1 R3
  refine ⟨Sample.process Sample.w1, 0, 0, .step false none false, ?_, by rw [hs1], ?_, ?_, ?_⟩
  · rw [hw]; exact Sample.reachable (by decide +kernel) (by decide +kernel) _
  · show (exec (.step false none false) (((execIn (.save 0 0) (Sample.process Sample.w1)).2).world 0)).1 = _
    rw [hw1]
    rcases h : (exec (.step false none false) Sample.w1).1 with e | u
    · have : Sample.isOk (exec (.step false none false) Sample.w1).1 = true := by decide +kernel
      rw [h] at this; cases this
    · rfl
  · intro e
    have e' := M2.symm.trans (Eq.trans e M1)
    have hK := congrArg (fun x => (x.2.Ks "a")) (Option.some.inj e')
    have : (((run [.step false none false] Sample.w1).opt.Ks "a").map SM.toDense).map Mat.toLists ≠
      ((Sample.w1.opt.Ks "a").map SM.toDense).map Mat.toLists := by decide +kernel
    exact this (congrArg (fun x => (x.map SM.toDense).map Mat.toLists) hK)
  · intro sd' hsd' e
    have ha : sd'.attrs = some (((runIn (([.step false none false] : List (Op ℚ)).map (.exec 0)) (execIn (.save 0 0) (Sample.process Sample.w1)).2).objs 0).steps, 0) := by
      rw [save] at hsd'
      obtain ⟨st, _, h⟩ := IOProof.Except.bind_eq_ok hsd'
      cases h
      show some (_, ((runIn (([.step false none false] : List (Op ℚ)).map (.exec 0)) (execIn (.save 0 0) (Sample.process Sample.w1)).2).objs 0).dicts) = _
      rw [R2, hs1]; rfl
    have e' := M2.symm.trans (Eq.trans e (by rw [StateDict.read, ha]))
    have hst := congrArg (fun x => x.1) (Option.some.inj e')
    have h1 : ((runIn (([.step false none false] : List (Op ℚ)).map (.exec 0)) (execIn (.save 0 0) (Sample.process Sample.w1)).2).objs 0).steps =
      (run [.step false none false] Sample.w1).opt.steps := by rw [← R1]; rfl
    simp only at hst
    rw [h1] at hst
    exact absurd hst (by decide +kernel)

/-- **Loading without serialising.** If another optimizer of the process loads the dictionary returned by `state_dict()` directly, both
optimizers share factors, momenta and statistics from then on: operations of the first one change those of the second one. -/
theorem C38_shared (s : Process α) (i j d : ℕ) (hij : j ≠ i) (hs : (execIn (.save i d) s).1 = .ok ())
    (hl : (execIn (.load j d) (execIn (.save i d) s).2).1 = .ok ()) (ops : List (Op α)) :
    let s1 := (execIn (.load j d) (execIn (.save i d) s).2).2
    let s2 := runIn (ops.map (.exec i)) s1
    (s2.world i).opt = (run ops (s.world i)).opt ∧ (s2.world j).opt.obj.dicts = (run ops (s.world i)).opt.obj.dicts ∧
      (s2.world j).opt.steps = (s.world i).opt.steps := by
  rcases hsv : save (s.objs i) with e | sd
  · simp only [execIn, hsv] at hs; cases hs
  have ha : sd.attrs = some ((s.objs i).steps, (s.objs i).dicts) := by
    rw [save] at hsv
    obtain ⟨st, _, h⟩ := IOProof.Except.bind_eq_ok hsv
    cases h; rfl
  have e1 : execIn (.save i d) s = (.ok (), { s with saved := Function.update s.saved d sd }) := by simp only [execIn, hsv]
  rw [e1] at hl
  rcases hld : load (s.objs j) sd with ⟨e | o, sd'⟩
  · simp only [execIn, Function.update_self] at hl
    rw [hld] at hl; cases hl
  have ho : o.dicts = (s.objs i).dicts ∧ o.steps = (s.objs i).steps := by
    rw [load, Py.get_bind_run, ha] at hld
    simp only [Py.modify_bind_run] at hld
    rcases ht : torchLoad (s.objs j) sd with e | o'
    · rw [ht, Py.lift_error_bind_run] at hld; cases hld
    · rw [ht, Py.lift_ok_bind_run] at hld; cases hld; exact ⟨rfl, rfl⟩
  have e2 : (execIn (.load j d) (execIn (.save i d) s).2).2 =
      { s with objs := Function.update s.objs j o, saved := Function.update (Function.update s.saved d sd) d sd' } := by
    rw [e1]; simp only [execIn, Function.update_self]; rw [hld]
  rw [e2]
  obtain ⟨h1, h2, h3, h4, h5⟩ := runIn_exec i ops
    { s with objs := Function.update s.objs j o, saved := Function.update (Function.update s.saved d sd) d sd' }
  have hw : Process.world { s with objs := Function.update s.objs j o, saved := Function.update (Function.update s.saved d sd) d sd' } i = s.world i := by
    unfold Process.world; simp only [Function.update_of_ne hij.symm]
  rw [hw] at h1 h3
  simp only [Function.update_of_ne hij.symm] at h2 h3 h5
  refine ⟨by rw [h1], ?_, ?_⟩
  · rw [← h3]
    unfold Process.world
    rw [h5 j hij]
    simp only [Function.update_self, OptObj.read, ho.1]; rfl
  · unfold Process.world
    rw [h5 j hij]
    simp only [Function.update_self, OptObj.read]
    exact ho.2

-- two optimizers of one process; the second one loads the dictionary of the first one
example : Sample.isOk (execIn (.save 0 0) (Sample.process Sample.w1)).1 = true ∧
    Sample.isOk (execIn (.load 1 0) (execIn (.save 0 0) (Sample.process Sample.w1)).2).1 = true := by decide +kernel
