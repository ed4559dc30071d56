import Verif.Proofs.Multi
import Verif.Props.OptSamples

/-!
C91: several optimizers for one model, abandoned optimizers, and constructors that raise after their hooks were installed.
-/

set_option linter.unusedSectionVars false
variable {α : Type} [Field α] [LinearOrder α] [HasSqrt α]

namespace Multi

/-! ### Every optimizer lives in the history of an optimizer alone -/

theorem mrun_seen : ∀ (ops : List (Op' α)) {s : State α} {i : ℕ} {sl : Slot α}, s.slots[i]? = some sl → sl.ready = true →
    ∃ sl', (mrun ops s).slots[i]? = some sl' ∧ sl'.ready = true ∧ (mrun ops s).world i sl' = run (seenAll i ops s) (s.world i sl)
  | [], _, _, sl, e, r => ⟨sl, e, r, rfl⟩
  | op :: ops, s, i, sl, e, r => by
    obtain ⟨sl1, e1, r1, w1⟩ := mexec_seen e r op
    obtain ⟨sl2, e2, r2, w2⟩ := mrun_seen ops e1 r1
    exact ⟨sl2, e2, r2, by rw [seenAll, run_append, ← w1, ← w2]; rfl⟩

theorem mrun_valid : ∀ (ops : List (Op' α)) {s : State α}, Valid s → Valid (mrun ops s)
  | [], _, h => h
  | op :: ops, _, h => mrun_valid ops (mexec_valid h op)

/-- a model without optimizers -/
def fresh (data : ℕ → Mat α) (grad : ℕ → Option (Mat α)) : State α := ⟨data, grad, [], []⟩

theorem fresh_valid (data : ℕ → Mat α) (grad : ℕ → Option (Mat α)) : Valid (fresh data grad) := fun _ h => by cases h

/-- **C91.** Whatever happens to a model and to its other optimizers, also after exceptions: what an optimizer holds, and the parameters it sees, are those
of a history in which it is the only optimizer. The steps of the others appear in that history as assignments to parameters. -/
theorem C91_view {s : State α} {i : ℕ} {sl : Slot α} (hi : s.slots[i]? = some sl) (hr : sl.ready = true) (ops : List (Op' α)) :
    ∃ sl' alone, (mrun ops s).slots[i]? = some sl' ∧ sl'.ready = true ∧ (mrun ops s).world i sl' = run alone (s.world i sl) := by
  obtain ⟨sl', a, b, c⟩ := mrun_seen ops hi hr
  exact ⟨sl', _, a, b, c⟩

/-- the structures that a constructor call uses, and distinct names of modules (`named_modules`) -/
def Op'.Uses (structs : String → Option Cls) : Op' α → Prop
  | .construct st model _ _ => st = structs ∧ (model.layers.map (·.name)).Nodup
  | _ => True

/-- in every state, all optimizers whose constructor returned are reachable alone -/
def AllReachable (structs : String → Option Cls) (s : State α) : Prop := ∀ i sl, s.slots[i]? = some sl → sl.ready = true → Reachable structs (s.world i sl)

theorem mexec_length {s : State α} {op : Op' α} (h : ∀ structs model p a, op ≠ .construct structs model p a) : (mexec op s).2.slots.length = s.slots.length := by
  have own : ∀ (j : ℕ) (f : Py (World α) Unit) (s : State α), (onSlot j f s).2.slots.length = s.slots.length := by
    intro j f s
    unfold onSlot
    split
    · rfl
    · split <;> simp
  have hks : ∀ (o : Out α) (g : ND α) (ks : List ℕ) (s : State α), (Py.forM ks (tensorHook o g) s).2.slots.length = s.slots.length := by
    intro o g ks
    induction ks with
    | nil => exact fun _ => rfl
    | cons k ks ih =>
      intro s
      have h1 := own k (World.accumulateH o.layer o.x g) s
      rw [← tensorHook_eq] at h1
      rw [Py.forM, Py.bind_run]
      rcases ht : tensorHook o g k s with ⟨rr, s'⟩
      rw [ht] at h1
      rcases rr with er | u
      · exact h1
      · exact (ih s').trans h1
  cases op with
  | construct structs model p a => exact absurd rfl (h structs model p a)
  | forward m x ge => simp only [mexec]; split <;> rfl
  | backward k g =>
    simp only [mexec]
    split
    · rfl
    · exact hks _ _ _ _
  | setGrad p G => rfl
  | setParam p M => rfl
  | setHyper j q h => exact own j _ _
  | setScale j c => exact own j _ _
  | step j c a f => exact own j _ _
  | detach j => simp [mexec, Py.modify, detach]

theorem mexec_half_of {s : State α} {i : ℕ} {sl : Slot α} (e : s.slots[i]? = some sl) {op : Op' α} {sl' : Slot α}
    (e' : (mexec op s).2.slots[i]? = some sl') (r' : sl'.ready = true) : sl.ready = true := by
  by_contra hr
  rw [mexec_half e (by simpa using hr) op] at e'
  cases e'
  exact hr r'

theorem reachable_run {structs : String → Option Cls} {w : World α} (h : Reachable structs w) (ops : List (Op α)) : Reachable structs (run ops w) := by
  obtain ⟨m, p, a, o, ws, d, g, ops', hn, hi, rfl⟩ := h
  exact ⟨m, p, a, o, ws, d, g, ops' ++ ops, hn, hi, (run_append _ _ _).symm⟩

theorem mexec_reachable {structs : String → Option Cls} {s : State α} (hv : Valid s) (h : AllReachable structs s) {op : Op' α} (hu : op.Uses structs) :
    AllReachable structs (mexec op s).2 := by
  intro i sl' e' r'
  have old : ∀ sl, s.slots[i]? = some sl → Reachable structs ((mexec op s).2.world i sl') := fun sl e => by
    obtain ⟨sl2, e2, _, w2⟩ := mexec_seen e (mexec_half_of e e' r') op
    rw [e'] at e2
    cases e2
    rw [w2]
    exact reachable_run (h i sl e (mexec_half_of e e' r')) _
  rcases e : s.slots[i]? with _ | sl
  · have hlt := (List.getElem?_eq_some_iff.1 e').1
    have hge := List.getElem?_eq_none_iff.1 e
    by_cases hc : ∃ st model p a, op = .construct st model p a
    · obtain ⟨st, model, p, a, rfl⟩ := hc
      obtain ⟨rfl, hn⟩ := hu
      have new : ∀ (o : Opt α) (rd : Bool), (construct st model p a s).2 = { s with slots := s.slots ++ [⟨o, rd, true⟩] } → i = s.slots.length ∧ sl' = ⟨o, rd, true⟩ := by
        intro o rd hs
        change (construct st model p a s).2.slots[i]? = some sl' at e'
        rw [hs] at e'
        have : i = s.slots.length := by
          have := (List.getElem?_eq_some_iff.1 e').1
          simp only [List.length_append, List.length_singleton] at this
          omega
        subst this
        simpa [eq_comm] using e'
      rcases hx : (construct st model p a s).1 with er | u
      · rcases (construct_error (s := s) (e := er)).2 hx with ⟨_, hs⟩ | ⟨gs, o, _, _, hs⟩
        · change (construct st model p a s).2.slots[i]? = some sl' at e'
          rw [hs, e] at e'
          cases e'
        · obtain ⟨_, rfl⟩ := new o false hs
          cases r'
      · obtain ⟨o, ws, hi, hs⟩ := construct_ok hx
        obtain ⟨hil, rfl⟩ := new o true hs
        refine ⟨model, p, a, o, ws, s.data, s.grad, [], hn, hi, ?_⟩
        change (construct st model p a s).2.world i _ = _
        rw [hs]
        show World.mk o s.data s.grad (State.hooksOf _ i) = World.mk o s.data s.grad []
        congr 1
        unfold State.hooksOf
        rw [List.map_eq_nil_iff, List.filter_eq_nil_iff]
        intro q hq hc
        have := (hv q hq).2 i (by simpa using hc)
        omega
    · rw [mexec_length fun st model p a hop => hc ⟨st, model, p, a, hop⟩] at hlt
      omega
  · exact old sl e

theorem mrun_reachable {structs : String → Option Cls} : ∀ (ops : List (Op' α)) {s : State α}, Valid s → AllReachable structs s → (∀ op ∈ ops, op.Uses structs) →
    AllReachable structs (mrun ops s)
  | [], _, _, h, _ => h
  | op :: ops, _, hv, h, hu => mrun_reachable ops (mexec_valid hv op) (mexec_reachable hv h (hu op (by simp))) fun q hq => hu q (by simp [hq])

/-- **C91.** Any number of optimizers are constructed, used, abandoned or detached, in any order, with exceptions anywhere: each optimizer whose constructor
returned is in a state that it could have reached as the only optimizer of the model. Whatever was proved for all reachable states holds for each of them. -/
theorem C91_reachable (structs : String → Option Cls) (data : ℕ → Mat α) (grad : ℕ → Option (Mat α)) (ops : List (Op' α)) (hu : ∀ op ∈ ops, op.Uses structs)
    {i : ℕ} {sl : Slot α} (hi : (mrun ops (fresh data grad)).slots[i]? = some sl) (hr : sl.ready = true) :
    Reachable structs ((mrun ops (fresh data grad)).world i sl) :=
  mrun_reachable ops (fresh_valid data grad) (fun _ _ h => by cases h) hu i sl hi hr

/-! ### Constructors that raise -/

/-- **C91.** What a constructor leaves behind. It raises exactly if the buffers, or something before them, cannot be made. If it raises before the hooks are
installed nothing is left. If it raises afterwards, all hooks stay, and with them an optimizer which the user cannot reach. -/
theorem C91_constructor (structs : String → Option Cls) (model : Model) (p : ParamArg α) (a : Args α) (s : State α) :
    ((mexec (.construct structs model p a) s).1 = .ok () → ∃ o ws, Construct.init structs model p a = .ok (o, ws) ∧
      (mexec (.construct structs model p a) s).2 = { s with slots := s.slots ++ [⟨o, true, true⟩] }) ∧
    ∀ e, ((mexec (.construct structs model p a) s).1 = .error e ↔ Construct.init structs model p a = .error e) ∧
      ((mexec (.construct structs model p a) s).1 = .error e →
        (groupsOf model p a = .error e ∧ (mexec (.construct structs model p a) s).2 = s) ∨
        ∃ gs o, groupsOf model p a = .ok gs ∧ o.layers = Construct.hooked model.layers gs ∧ o.groups = gs ∧ o.ptrGroup = Construct.ptrGroup gs ∧ o.steps = 0 ∧
          (mexec (.construct structs model p a) s).2 = { s with slots := s.slots ++ [⟨o, false, true⟩] }) :=
  ⟨construct_ok, fun e => ⟨(construct_error (s := s) (e := e)).1, fun h => ((construct_error (s := s) (e := e)).2 h).imp id
    fun ⟨gs, o, hg, hc, hs⟩ => ⟨gs, o, hg, hc.1, hc.2.1, hc.2.2.1, hc.2.2.2.1, hs⟩⟩⟩

theorem mrun_half : ∀ (ops : List (Op' α)) {s : State α} {i : ℕ} {sl : Slot α}, s.slots[i]? = some sl → sl.ready = false → (mrun ops s).slots[i]? = some sl
  | [], _, _, _, e, _ => e
  | op :: ops, _, _, _, e, r => mrun_half ops (mexec_half e r op) r

theorem mexec_outs (op : Op' α) (s : State α) : ∃ l, (mexec op s).2.outs = s.outs ++ l := by
  have own : ∀ (j : ℕ) (f : Py (World α) Unit) (s : State α), (onSlot j f s).2.outs = s.outs := by
    intro j f s
    unfold onSlot
    split
    · rfl
    · split <;> rfl
  have hks : ∀ (o : Out α) (g : ND α) (ks : List ℕ) (s : State α), (Py.forM ks (tensorHook o g) s).2.outs = s.outs := by
    intro o g ks
    induction ks with
    | nil => exact fun _ => rfl
    | cons k ks ih =>
      intro s
      have h1 := own k (World.accumulateH o.layer o.x g) s
      rw [← tensorHook_eq] at h1
      rw [Py.forM, Py.bind_run]
      rcases ht : tensorHook o g k s with ⟨rr, s'⟩
      rw [ht] at h1
      rcases rr with er | u
      · exact h1
      · exact (ih s').trans h1
  have nl : ∀ {t : State α}, t.outs = s.outs → ∃ l, t.outs = s.outs ++ l := fun h => ⟨[], by rw [h, List.append_nil]⟩
  cases op with
  | construct structs model p a => simp only [mexec, construct]; split <;> exact nl rfl
  | forward m x ge =>
    simp only [mexec]
    split
    · exact nl rfl
    · exact ⟨_, rfl⟩
  | backward k g =>
    simp only [mexec]
    split
    · exact nl rfl
    · exact nl (hks _ _ _ _)
  | setGrad p G => exact nl rfl
  | setParam p M => exact nl rfl
  | setHyper j q h => exact nl (own j _ _)
  | setScale j c => exact nl (own j _ _)
  | step j c a f => exact nl (own j _ _)
  | detach j => exact nl rfl

theorem mrun_outs : ∀ (ops : List (Op' α)) (s : State α), ∃ l, (mrun ops s).outs = s.outs ++ l
  | [], s => ⟨[], by rw [List.append_nil]; rfl⟩
  | op :: ops, s => by
    obtain ⟨l, h⟩ := mexec_outs op s
    obtain ⟨l', h'⟩ := mrun_outs ops (mexec op s).2
    exact ⟨l ++ l', by rw [← List.append_assoc, ← h, ← h']; rfl⟩

theorem hooks_raise {o : Out α} (g : ND α) {j : ℕ} : ∀ (ks : List ℕ), j ∈ ks → ∀ {s : State α} {sl : Slot α}, s.slots[j]? = some sl → sl.ready = false →
    ∃ e, (Py.forM ks (tensorHook o g) s).1 = .error e
  | [], h, _, _, _, _ => by cases h
  | k :: ks, h, s, sl, e, r => by
    rw [Py.forM, Py.bind_run]
    by_cases hk : k = j
    · subst hk
      exact ⟨halfError sl.opt o.layer o.x g, by simp [tensorHook, e, r]⟩
    · have hj : j ∈ ks := by simpa [Ne.symm hk] using h
      have keep : (tensorHook o g k s).2.slots[j]? = some sl := by
        rw [tensorHook_eq]
        unfold onSlot
        split
        · exact e
        · split
          · simp [List.getElem?_set, hk, e]
          · exact e
      rcases ht : tensorHook o g k s with ⟨er | u, s'⟩
      · exact ⟨er, rfl⟩
      · rw [ht] at keep
        exact hooks_raise g ks hj keep r

/-- **C91.** Training is impossible with the layers of a constructor that raised: whatever happens later, a backward pass through an output of such a layer
raises. So do forward passes, even without gradients, if the layer's weight was not handed to that constructor. Nothing that the class offers removes
these hooks, and constructing another optimizer does not help. -/
theorem C91_half {s : State α} {j : ℕ} {sl : Slot α} (hj : s.slots[j]? = some sl) (hr : sl.ready = false) (ha : sl.attached = true) (h0 : sl.opt.steps = 0)
    {m : Layer} (hm : m ∈ sl.opt.layers) (before : List (Op' α)) :
    (∀ e, sl.opt.hyperOf m = .error e → ∀ x ge, ∃ e', (mexec (.forward m x ge) (mrun before s)).1 = .error e') ∧
    ∀ x, (mexec (.forward m x true) (mrun before s)).1 = .ok () → ∀ (after : List (Op' α)) (g : ND α),
      ∃ e, (mexec (.backward (mrun before s).outs.length g) (mrun after (mexec (.forward m x true) (mrun before s)).2)).1 = .error e := by
  have h1 := mrun_half before hj hr
  set t := mrun before s with ht
  clear_value t
  have hw : sl.watches m := ⟨ha, hm⟩
  constructor
  · intro e he x ge
    simp only [mexec]
    rcases hf : fire m x ge t.data t.grad 0 t.slots with e' | r
    · exact ⟨e', rfl⟩
    · obtain ⟨v, hv⟩ := ((fire_ok hf).2.2 j sl h1).2 hw []
      rw [World.forwardHook, Py.get_bind_run] at hv
      simp only [he] at hv
      exact absurd (congrArg Prod.fst hv) (by intro h; cases h)
  · intro x hx after g
    rcases hf : fire m x true t.data t.grad 0 t.slots with e' | r
    · simp only [mexec, hf] at hx
      cases hx
    · have hs : (mexec (.forward m x true) t).2 = { t with outs := t.outs ++ [⟨m, x, r⟩] } := by simp only [mexec, hf]
      have hreg : j ∈ r := by
        obtain ⟨c1, c2⟩ := (fire_ok hf).2.2 j sl h1
        rw [Nat.zero_add] at c1
        refine c1.2 ⟨hw, rfl, ?_⟩
        obtain ⟨v, hv⟩ := c2 hw []
        rw [World.forwardHook, Py.get_bind_run] at hv
        rcases hh : sl.opt.hyperOf m with e | h
        · simp only [hh] at hv
          exact absurd (congrArg Prod.fst hv) (by intro h; cases h)
        · refine ⟨h, hh, ?_, by rw [h0]; simp⟩
          intro hT
          simp only [hh] at hv
          rw [Py.lift_ok_bind_run] at hv
          simp only [hT] at hv
          exact absurd (congrArg Prod.fst hv) (by intro h; cases h)
      obtain ⟨l, hl⟩ := mrun_outs after (mexec (.forward m x true) t).2
      have hk : (mrun after (mexec (.forward m x true) t).2).outs[t.outs.length]? = some ⟨m, x, r⟩ := by
        rw [hl, hs]
        simp
      have h2 := mrun_half after (mexec_half h1 hr (.forward m x true)) hr
      change (mrun after (mexec (.forward m x true) t).2).slots[j]? = some sl at h2
      generalize mrun after (mexec (.forward m x true) t).2 = u at hk h2
      simp only [mexec, hk]
      exact hooks_raise g r hreg h2 hr

/-- **Which exception it is**: where the optimizer's own hook comes first and the layer's inputs can be processed, a layer whose factors were not both made before the constructor raised gives
a `KeyError`, a layer whose factors were made an `AttributeError` (the gradient scale was never set); in both cases nothing changes. -/
theorem C91_half_kind {s : State α} {j : ℕ} {sl : Slot α} (hj : s.slots[j]? = some sl) (hr : sl.ready = false) {k : ℕ} {o : Out α} {rest : List ℕ} (hk : s.outs[k]? = some o)
    (hregs : o.regs = j :: rest) {g : ND α} {h : Hyper α} (hh : sl.opt.hyperOf o.layer = .ok h) {a : Mat α} (ha : PIO.processInput o.x o.layer.kind o.layer.bias.isSome h.kfacApprox = .ok a)
    {b : Mat α} (hb : PIO.processGradOutput g o.layer.kind h.lossAverage h.kfacApprox = .ok b) :
    ((sl.opt.Ks o.layer.name = none ∨ sl.opt.Cs o.layer.name = none) → mexec (.backward k g) s = (.error .keyError, s)) ∧
    ∀ K C H, sl.opt.Ks o.layer.name = some K → sl.opt.Cs o.layer.name = some C → K.fromInner (some a.T) = .ok H → mexec (.backward k g) s = (.error .attributeError, s) := by
  have first : mexec (.backward k g) s = (.error (halfError sl.opt o.layer o.x g), s) := by
    have ht : tensorHook o g j s = (.error (halfError sl.opt o.layer o.x g), s) := by simp [tensorHook, hj, hr]
    simp only [mexec, hk, hregs, Py.forM, Py.bind_run, ht]
  rw [first]
  constructor
  · intro hKC
    have : halfError sl.opt o.layer o.x g = .keyError := by
      unfold halfError
      rw [hh]
      simp only [bind, Except.bind, ha, hb, lookup]
      rcases hK : sl.opt.Ks o.layer.name with _ | K
      · rfl
      · rcases hC : sl.opt.Cs o.layer.name with _ | C
        · rfl
        · rw [hK, hC] at hKC; simp at hKC
    rw [this]
  · intro K C H hK hC hH
    have : halfError sl.opt o.layer o.x g = .attributeError := by
      unfold halfError
      rw [hh]
      simp only [bind, Except.bind, ha, hb, lookup, hK, hC, hH]
    rw [this]

theorem ptrGroup_none {gs : List (PGroup α)} {p : ℕ} (h : p ∉ Construct.paramIds gs) : Construct.ptrGroup gs p = none := by
  unfold Construct.ptrGroup
  rw [List.getLast?_eq_none_iff, List.filter_eq_nil_iff]
  intro i hi hc
  rw [List.mem_range] at hi
  refine h (List.mem_flatMap.2 ⟨gs[i], List.getElem_mem hi, ?_⟩)
  simpa [List.getD_eq_getElem?_getD, hi] using hc

theorem hyperOf_congr {o o' : Opt α} (h : SameConf o o') (m : Layer) : o'.hyperOf m = o.hyperOf m := by
  unfold Opt.hyperOf
  rw [h.2.2.1, h.2.1]

/-- **C91.** A constructor call which passes all checks (`groupsOf`) and then raises. Let `m` be one of the layers that it was to train. Then whatever the user
does before and afterwards, also with further optimizers, no backward pass through `m` succeeds any more; if the weight of `m` is in no parameter group, no forward pass either. -/
theorem C91_failed {structs : String → Option Cls} {model : Model} {p : ParamArg α} {a : Args α} {gs : List (PGroup α)} {e : PyErr} (hg : groupsOf model p a = .ok gs)
    (he : Construct.init structs model p a = .error e) {m : Layer} (hm : m ∈ Construct.hooked model.layers gs) (s : State α) (before : List (Op' α)) :
    (mexec (.construct structs model p a) s).1 = .error e ∧
    (m.weight.ptr ∉ Construct.paramIds gs → ∀ x ge, ∃ e', (mexec (.forward m x ge) (mrun before (mexec (.construct structs model p a) s).2)).1 = .error e') ∧
    ∀ x, (mexec (.forward m x true) (mrun before (mexec (.construct structs model p a) s).2)).1 = .ok () → ∀ (after : List (Op' α)) (g : ND α),
      ∃ e, (mexec (.backward (mrun before (mexec (.construct structs model p a) s).2).outs.length g)
        (mrun after (mexec (.forward m x true) (mrun before (mexec (.construct structs model p a) s).2)).2)).1 = .error e := by
  have h0 := (construct_error (s := s) (e := e)).1.2 he
  rcases (construct_error (s := s) (e := e)).2 h0 with ⟨hg', _⟩ | ⟨gs', o, hg', hc, hs⟩
  · rw [hg] at hg'; cases hg'
  · rw [hg] at hg'
    injection hg' with hg'
    subst hg'
    have hj : (mexec (.construct structs model p a) s).2.slots[s.slots.length]? = some ⟨o, false, true⟩ := by
      rw [show (mexec (.construct structs model p a) s).2 = (construct structs model p a s).2 from rfl, hs]
      simp
    obtain ⟨q1, q2⟩ := C91_half hj rfl rfl hc.2.2.2.1 (m := m) (by rw [show o.layers = _ from hc.1]; exact hm) before
    refine ⟨h0, fun hw => ?_, q2⟩
    refine q1 .keyError ?_
    show o.hyperOf m = _
    rw [hyperOf_congr hc]
    have hsup : m.supported = true := by
      have := (List.mem_filter.1 hm).2
      rw [Bool.and_eq_true] at this
      exact this.1
    unfold Opt.hyperOf
    rw [if_pos hsup, show (Construct.blank structs model.layers gs a.initGradScale).ptrGroup = Construct.ptrGroup gs from rfl, lookup, ptrGroup_none hw]
    rfl

theorem initLayer_ok {m : Layer} {o o' : Opt α} (h : initLayer m o = (.ok (), o')) : (∃ d, m.dims = .ok d) ∧ ∃ h, o.hyperOf m = .ok h ∧
    (∃ c, o.structs h.structures.1 = some c) ∧ ∃ c, o.structs h.structures.2 = some c := by
  unfold initLayer at h
  rcases h1 : m.dims with e | d
  · rw [h1] at h; cases h
  rw [h1, Py.lift_ok_bind_run, Py.get_bind_run] at h
  rcases h2 : o.hyperOf m with e | hy
  · rw [h2] at h; cases h
  rw [h2, Py.lift_ok_bind_run] at h
  rcases h3 : o.structs hy.structures.1 with _ | cK
  · rw [lookup, h3] at h; cases h
  rw [show lookup o.structs hy.structures.1 = .ok cK by rw [lookup, h3], Py.lift_ok_bind_run] at h
  rcases h4 : o.structs hy.structures.2 with _ | cC
  · rw [lookup, h4] at h; cases h
  exact ⟨⟨d, rfl⟩, hy, rfl, ⟨cK, h3⟩, ⟨cC, h4⟩⟩

theorem initAll_ok : ∀ (ms : List Layer) {o o' : Opt α}, Py.forM ms initLayer o = (.ok (), o') → ∀ m ∈ ms, (∃ d, m.dims = .ok d) ∧ ∃ h, o.hyperOf m = .ok h ∧
    (∃ c, o.structs h.structures.1 = some c) ∧ ∃ c, o.structs h.structures.2 = some c
  | [], _, _, _, _, hm => by cases hm
  | m :: ms, o, o', h, q, hq => by
    obtain ⟨o1, h1, h2⟩ := Py.forM_cons_ok.1 h
    rcases List.mem_cons.1 hq with rfl | hq
    · exact initLayer_ok h1
    · have hc : SameConf o o1 := by have := initLayer_conf m o; rwa [h1] at this
      have := initAll_ok ms h2 q hq
      rwa [hyperOf_congr hc, hc.2.2.2.2] at this

/-- **C91.** When a constructor that passes all checks raises nevertheless: if one of the layers to train has its weight in no group, or if a group names a structure
that is not registered (a typo, say: `validate` does not look at the names). -/
theorem C91_raises {structs : String → Option Cls} {model : Model} {p : ParamArg α} {a : Args α} {gs : List (PGroup α)} (hg : groupsOf model p a = .ok gs)
    {m : Layer} (hm : m ∈ Construct.hooked model.layers gs)
    (hbad : m.weight.ptr ∉ Construct.paramIds gs ∨ ∃ h, (Construct.blank structs model.layers gs a.initGradScale).hyperOf m = .ok h ∧
      (structs h.structures.1 = none ∨ structs h.structures.2 = none)) :
    ∃ e, Construct.init structs model p a = .error e := by
  rcases hi : Construct.init structs model p a with e | ⟨o, ws⟩
  · exact ⟨e, rfl⟩
  · exfalso
    have q := init_eq structs model p a
    rw [hi, hg] at q
    obtain ⟨_, h, hh, ⟨c1, hc1⟩, c2, hc2⟩ := initAll_ok _ ((initAll_run _ _).1 o q.symm) m hm
    rcases hbad with hw | ⟨h', hh', hb⟩
    · have hsup : m.supported = true := by
        have := (List.mem_filter.1 hm).2
        rw [Bool.and_eq_true] at this
        exact this.1
      unfold Opt.hyperOf at hh
      rw [if_pos hsup, show (Construct.blank structs model.layers gs a.initGradScale).ptrGroup = Construct.ptrGroup gs from rfl, lookup, ptrGroup_none hw] at hh
      cases hh
    · rw [hh] at hh'
      cases hh'
      rcases hb with hb | hb
      · rw [show (Construct.blank structs model.layers gs a.initGradScale).structs = structs from rfl, hb] at hc1; cases hc1
      · rw [show (Construct.blank structs model.layers gs a.initGradScale).structs = structs from rfl, hb] at hc2; cases hc2

/-! ### Abandoned optimizers -/

/-- the state without the hooks of optimizer `j` -/
def forget (j : ℕ) (s : State α) : State α :=
  { s with slots := s.slots.modify j fun sl => { sl with attached := false }, outs := s.outs.map fun o => { o with regs := o.regs.filter (· ≠ j) } }

/-- `t` is `s` without the hooks of optimizer `j`, and with another state of `j` itself -/
structure Forgot (j : ℕ) (s t : State α) : Prop where
  data : t.data = s.data
  grad : t.grad = s.grad
  len : t.slots.length = s.slots.length
  lt : j < s.slots.length
  slots : ∀ i, i ≠ j → t.slots[i]? = s.slots[i]?
  off : ∀ sl, t.slots[j]? = some sl → sl.attached = false
  outs : t.outs = s.outs.map fun o => { o with regs := o.regs.filter (· ≠ j) }

theorem forgot_forget {j : ℕ} {s : State α} (h : j < s.slots.length) : Forgot j s (forget j s) where
  data := rfl
  grad := rfl
  len := by simp [forget]
  lt := h
  slots i hi := by simp [forget, Ne.symm hi]
  off sl e := by
    simp only [forget, List.getElem?_modify_eq, Option.map_eq_map, Option.map_eq_some_iff] at e
    obtain ⟨sl0, _, rfl⟩ := e
    rfl
  outs := rfl

theorem Forgot.hooksOf {j : ℕ} {s t : State α} (h : Forgot j s t) {i : ℕ} (hi : i ≠ j) : t.hooksOf i = s.hooksOf i := by
  unfold State.hooksOf
  rw [h.outs, List.filter_map, List.map_map]
  congr 1
  refine List.filter_congr fun o _ => ?_
  simp [hi]

theorem Forgot.world {j : ℕ} {s t : State α} (h : Forgot j s t) {i : ℕ} (hi : i ≠ j) (sl : Slot α) : t.world i sl = s.world i sl := by
  unfold State.world
  rw [h.data, h.grad, h.hooksOf hi]

/-- the methods of another optimizer -/
theorem Forgot.onSlot {j : ℕ} {s t : State α} (h : Forgot j s t) {i : ℕ} (hi : i ≠ j) (f : Py (World α) Unit) :
    (onSlot i f t).1 = (onSlot i f s).1 ∧ Forgot j (onSlot i f s).2 (onSlot i f t).2 := by
  unfold Multi.onSlot
  rw [h.slots i hi]
  rcases e : s.slots[i]? with _ | sl
  · exact ⟨rfl, h⟩
  · dsimp only
    split
    · rw [h.world hi]
      refine ⟨rfl, rfl, rfl, by simp [h.len], by simp [h.lt], fun k hk => ?_, fun sl' e' => ?_, h.outs⟩
      · by_cases hki : i = k
        · subst hki
          simp only [List.getElem?_set_self', h.slots i hi]
        · simp only [List.getElem?_set_ne hki, h.slots k hk]
      · rw [List.getElem?_set_ne hi] at e'
        exact h.off sl' e'
    · exact ⟨rfl, h⟩

/-- a hook of the abandoned optimizer -/
theorem Forgot.own {j : ℕ} {s t : State α} (h : Forgot j s t) {f : Py (World α) Unit} (hd : ∀ w, (f w).2.data = w.data) (hg : ∀ w, (f w).2.grad = w.grad) :
    Forgot j (Multi.onSlot j f s).2 t := by
  unfold Multi.onSlot
  rcases e : s.slots[j]? with _ | sl
  · exact h
  · dsimp only
    split
    · exact ⟨h.data.trans (hd (s.world j sl)).symm, h.grad.trans (hg (s.world j sl)).symm, by simp [h.len], by simp [h.lt], fun k hk => by simp [h.slots k hk, List.getElem?_set_ne (Ne.symm hk)],
        h.off, h.outs⟩
    · exact h

theorem Forgot.hook {j : ℕ} {s t : State α} (h : Forgot j s t) {i : ℕ} (hi : i ≠ j) {o o' : Out α} (hl : o'.layer = o.layer) (hx : o'.x = o.x) (g : ND α) :
    (tensorHook o' g i t).1 = (tensorHook o g i s).1 ∧ Forgot j (tensorHook o g i s).2 (tensorHook o' g i t).2 := by
  have k := h.onSlot hi (World.accumulateH o.layer o.x g)
  unfold tensorHook
  rw [h.slots i hi, hl, hx]
  split
  · exact ⟨rfl, h⟩
  · split
    · exact k
    · exact ⟨rfl, h⟩

theorem Forgot.hooks {j : ℕ} {o o' : Out α} (hl : o'.layer = o.layer) (hx : o'.x = o.x) (g : ND α) : ∀ (ks : List ℕ) {s t s' : State α}, Forgot j s t →
    Py.forM ks (tensorHook o g) s = (.ok (), s') → ∃ t', Py.forM (ks.filter (· ≠ j)) (tensorHook o' g) t = (.ok (), t') ∧ Forgot j s' t'
  | [], s, t, s', h, e => by
    cases e
    exact ⟨t, rfl, h⟩
  | k :: ks, s, t, s', h, e => by
    rw [Py.forM, Py.bind_run] at e
    rcases hs : tensorHook o g k s with ⟨er | u, s1⟩
    · rw [hs] at e; cases e
    · rw [hs] at e
      by_cases hk : k = j
      · subst hk
        rw [List.filter_cons_of_neg (by simp)]
        have h1 : Forgot k s1 t := by
          have := h.own (f := World.accumulateH o.layer o.x g) (fun w => funext fun p => (World.accumulateH_frame o.layer o.x g w).data p id)
            fun w => (World.accumulateH_frame o.layer o.x g w).grad
          rwa [← tensorHook_eq, hs] at this
        exact Forgot.hooks hl hx g ks h1 e
      · rw [List.filter_cons_of_pos (by simpa using hk), Py.forM, Py.bind_run]
        obtain ⟨q1, q2⟩ := h.hook hk hl hx g (o := o) (o' := o')
        rw [hs] at q1 q2
        rcases ht : tensorHook o' g k t with ⟨rt, t1⟩
        rw [ht] at q1 q2
        obtain rfl : rt = .ok u := q1
        exact Forgot.hooks hl hx g ks q2 e

theorem fire_forget {m : Layer} {x : ND α} {ge : Bool} {d : ℕ → Mat α} {g : ℕ → Option (Mat α)} {j : ℕ} : ∀ {k : ℕ} {ss ts : List (Slot α)} {r : List ℕ},
    ts.length = ss.length → (∀ i, k + i ≠ j → ts[i]? = ss[i]?) → (∀ i sl, k + i = j → ts[i]? = some sl → sl.attached = false) →
    fire m x ge d g k ss = .ok r → fire m x ge d g k ts = .ok (r.filter (· ≠ j))
  | k, [], ts, r, hl, _, _, e => by
    cases e
    rw [List.length_eq_zero_iff.1 hl]
    rfl
  | k, sl :: ss, [], r, hl, _, _, _ => by cases hl
  | k, sl :: ss, tl :: ts, r, hl, h1, h2, e => by
    have ih : ∀ {r'}, fire m x ge d g (k + 1) ss = .ok r' → fire m x ge d g (k + 1) ts = .ok (r'.filter (· ≠ j)) := fun e' =>
      fire_forget (by simpa using hl) (fun i hi => by have := h1 (i + 1) (by omega); simpa using this)
        (fun i q hi hq => h2 (i + 1) q (by omega) (by simpa using hq)) e'
    rw [fire] at e ⊢
    by_cases hk : k = j
    · have ho : tl.attached = false := h2 0 tl (by simpa using hk) (by simp)
      rw [ho]
      simp only [Bool.false_and, Bool.false_eq_true, if_false]
      split at e
      · split at e
        · cases e
        · rename_i w hw
          rcases hf : fire m x ge d g (k + 1) ss with er | r'
          · rw [hf] at e; cases e
          · rw [hf] at e
            rw [ih hf]
            simp only [Except.map] at e
            injection e with e
            rw [← e]
            split
            · rfl
            · rw [List.filter_cons_of_neg (by simp [hk])]
      · exact ih e
    · have ht : tl = sl := by have := h1 0 (by simpa using hk); simpa using this
      subst ht
      split
      · rename_i hc
        rw [if_pos hc] at e
        split at e
        · cases e
        · rename_i w hw
          rcases hf : fire m x ge d g (k + 1) ss with er | r'
          · rw [hf] at e; cases e
          · rw [hf] at e
            rw [ih hf]
            simp only [Except.map] at e ⊢
            injection e with e
            rw [← e]
            split
            · rfl
            · rw [List.filter_cons_of_pos (by simpa using hk)]
      · rename_i hc
        rw [if_neg hc] at e
        exact ih e

/-- nothing is done with optimizer `j` itself -/
def Op'.Leaves (j : ℕ) : Op' α → Prop
  | .setHyper i _ _ => i ≠ j
  | .setScale i _ => i ≠ j
  | .step i _ _ _ => i ≠ j
  | .detach i => i ≠ j
  | _ => True

theorem Forgot.exec {j : ℕ} {s t s' : State α} (h : Forgot j s t) {op : Op' α} (hop : op.Leaves j) (e : mexec op s = (.ok (), s')) :
    ∃ t', mexec op t = (.ok (), t') ∧ Forgot j s' t' := by
  have own : ∀ {i : ℕ} (f : Py (World α) Unit), i ≠ j → Multi.onSlot i f s = (.ok (), s') → ∃ t', Multi.onSlot i f t = (.ok (), t') ∧ Forgot j s' t' := by
    intro i f hi e
    obtain ⟨a, b⟩ := h.onSlot hi f
    rw [e] at a b
    exact ⟨(Multi.onSlot i f t).2, Prod.ext a rfl, b⟩
  cases op with
  | construct structs model p a =>
    simp only [mexec, construct] at e ⊢
    rcases hg : groupsOf model p a with er | gs
    · rw [hg] at e; cases e
    · rw [hg] at e
      dsimp only at e ⊢
      injection e with e1 e2
      subst e2
      refine ⟨_, Prod.ext e1 rfl, h.data, h.grad, by simp [h.len], by simp only [List.length_append]; have := h.lt; omega, fun i hi => ?_, fun sl hs => ?_, h.outs⟩
      · simp only [List.getElem?_append, h.len, h.slots i hi]
      · rw [List.getElem?_append_left (by rw [h.len]; exact h.lt)] at hs
        exact h.off sl hs
  | forward m x ge =>
    simp only [mexec] at e ⊢
    rcases hf : fire m x ge s.data s.grad 0 s.slots with er | r
    · rw [hf] at e; cases e
    · rw [hf] at e
      injection e with _ e2
      subst e2
      rw [h.data, h.grad, fire_forget (j := j) h.len (fun i hi => h.slots i (by omega)) (fun i sl hi hs => h.off sl (by rwa [← hi, Nat.zero_add])) hf]
      exact ⟨_, rfl, rfl, rfl, h.len, h.lt, h.slots, h.off, by simp [h.outs]⟩
  | backward k g =>
    simp only [mexec] at e ⊢
    rw [h.outs, List.getElem?_map]
    rcases ho : s.outs[k]? with _ | o
    · rw [ho] at e
      injection e with _ e2
      subst e2
      exact ⟨t, rfl, h⟩
    · rw [ho] at e
      exact Forgot.hooks rfl rfl g o.regs h e
  | setGrad p G =>
    cases e
    exact ⟨_, rfl, h.data, by simp [h.grad], h.len, h.lt, h.slots, h.off, h.outs⟩
  | setParam p M =>
    cases e
    exact ⟨_, rfl, by simp [h.data], h.grad, h.len, h.lt, h.slots, h.off, h.outs⟩
  | setHyper i q h => exact own _ hop e
  | setScale i c => exact own _ hop e
  | step i c a f => exact own _ hop e
  | detach i =>
    cases e
    refine ⟨_, rfl, h.data, h.grad, by simp [detach, h.len], by simp [detach, h.lt], fun k hk => ?_, fun sl hs => ?_, h.outs⟩
    · simp only [detach, List.getElem?_modify, h.slots k hk]
    · have hij : i ≠ j := hop
      simp only [detach, List.getElem?_modify, hij, if_false] at hs
      exact h.off sl (by simpa using hs)

theorem Forgot.run {j : ℕ} : ∀ (ops : List (Op' α)) {s t s' : State α}, Forgot j s t → (∀ op ∈ ops, op.Leaves j) → mrunOk ops s = some s' →
    ∃ t', mrunOk ops t = some t' ∧ Forgot j s' t'
  | [], s, t, s', h, _, e => by
    cases e
    exact ⟨t, rfl, h⟩
  | op :: ops, s, t, s', h, ho, e => by
    rw [mrunOk] at e ⊢
    rcases hs : mexec op s with ⟨er | u, s1⟩
    · rw [hs] at e; cases e
    · rw [hs] at e
      obtain ⟨t1, ht, h1⟩ := h.exec (ho op (by simp)) hs
      rw [ht]
      exact Forgot.run ops h1 (fun q hq => ho q (by simp [hq])) e

/-- **C91.** An abandoned optimizer is a spectator: as long as its hooks raise nothing, the parameters, the gradients and all other optimizers, also those
constructed later, are what they would be if its hooks had been removed. -/
theorem C91_abandoned {j : ℕ} {s s' : State α} (hj : j < s.slots.length) {ops : List (Op' α)} (ho : ∀ op ∈ ops, op.Leaves j) (hs : mrunOk ops s = some s') :
    ∃ t', mrunOk ops (forget j s) = some t' ∧ t'.data = s'.data ∧ t'.grad = s'.grad ∧ ∀ i, i ≠ j → t'.slots[i]? = s'.slots[i]? := by
  obtain ⟨t', a, b⟩ := Forgot.run ops (forgot_forget hj) ho hs
  exact ⟨t', a, b.data, b.grad, b.slots⟩

/-! ### Optimizers that train different layers -/

/-- the same optimizer with the same gradients, and the same values of the parameters of its layers -/
def SameOn (L : List Layer) (A B : World α) : Prop := A.opt = B.opt ∧ A.opt.layers = L ∧ A.grad = B.grad ∧ ∀ m ∈ L, ∀ p, World.Owns m p → A.data p = B.data p

theorem SameOn.layerStep {L : List Layer} {m : Layer} (hm : m ∈ L) : Same2 (SameOn (α := α) L) (World.layerStep m) (World.layerStep m) := by
  rintro A B ⟨h1, h2, h3, h4⟩
  have ag : AgreeOn L A B := ⟨fun _ _ => by rw [h1], by rw [h1], by rw [h1], fun _ _ => by rw [h1], fun _ _ => by rw [h1], fun _ _ => by rw [h1], fun _ _ => by rw [h1],
    fun _ _ => by rw [h1], fun _ _ => by rw [h1], fun _ _ _ _ => by rw [h1], h4, fun _ _ _ _ => by rw [h3]⟩
  obtain ⟨e, r⟩ := World.layerStep_sub hm A B ag
  have fA := World.layerStep_frame m A
  have fB := World.layerStep_frame m B
  refine ⟨e, ?_, fA.layers.trans h2, by rw [fA.grad, fB.grad, h3], r.data⟩
  have nm : ∀ {β : Type} (f : Opt α → String → β), f A.opt = f B.opt → (∀ n, ¬ (n = m.name) → f (World.layerStep m A).2.opt n = f A.opt n) →
      (∀ n, ¬ (n = m.name) → f (World.layerStep m B).2.opt n = f B.opt n) → f (World.layerStep m A).2.opt m.name = f (World.layerStep m B).2.opt m.name →
      f (World.layerStep m A).2.opt = f (World.layerStep m B).2.opt := by
    intro β f h0 hA hB hn
    funext n
    by_cases hh : n = m.name
    · rw [hh, hn]
    · rw [hA n hh, hB n hh, h0]
  have mo : (World.layerStep m A).2.opt.mom = (World.layerStep m B).2.opt.mom := by
    funext p
    by_cases hp : World.Owns m p
    · exact r.mom m hm p hp
    · rw [fA.mom p hp, fB.mom p hp, h1]
  have q1 := nm (fun o => o.Ks) (by rw [h1]) (fun n hn => fA.Ks n fun h => hn h.1) (fun n hn => fB.Ks n fun h => hn h.1) (r.Ks m hm)
  have q2 := nm (fun o => o.Cs) (by rw [h1]) (fun n hn => fA.Cs n fun h => hn h.1) (fun n hn => fB.Cs n fun h => hn h.1) (r.Cs m hm)
  have q3 := nm (fun o => o.mKs) (by rw [h1]) (fun n hn => fA.mKs n fun h => hn h.1) (fun n hn => fB.mKs n fun h => hn h.1) (r.mKs m hm)
  have q4 := nm (fun o => o.mCs) (by rw [h1]) (fun n hn => fA.mCs n fun h => hn h.1) (fun n hn => fB.mCs n fun h => hn h.1) (r.mCs m hm)
  have q5 := nm (fun o => o.HKs) (by rw [h1]) (fun n hn => fA.HKs n fun h => hn h.1) (fun n hn => fB.HKs n fun h => hn h.1) (r.HKs m hm)
  have q6 := nm (fun o => o.HCs) (by rw [h1]) (fun n hn => fA.HCs n fun h => hn h.1) (fun n hn => fB.HCs n fun h => hn h.1) (r.HCs m hm)
  have s1 : (World.layerStep m A).2.opt.structs = (World.layerStep m B).2.opt.structs := by rw [fA.structs, fB.structs, h1]
  have s2 : (World.layerStep m A).2.opt.layers = (World.layerStep m B).2.opt.layers := by rw [fA.layers, fB.layers, h1]
  have s3 : (World.layerStep m A).2.opt.ptrGroup = (World.layerStep m B).2.opt.ptrGroup := by rw [fA.ptrGroup, fB.ptrGroup, h1]
  have s4 : (World.layerStep m A).2.opt.groups = (World.layerStep m B).2.opt.groups := by rw [fA.groups, fB.groups, h1]
  have s5 := r.steps
  have s6 := r.scales
  generalize (World.layerStep m A).2.opt = a at *
  generalize (World.layerStep m B).2.opt = b at *
  cases a
  cases b
  simp only at *
  subst q1 q2 q3 q4 q5 q6 s1 s2 s3 s4 s5 s6 mo
  rfl

theorem SameOn.forM {L : List Layer} {f : Layer → Py (World α) Unit} : ∀ (ms : List Layer), (∀ m ∈ ms, Same2 (SameOn L) (f m) (f m)) →
    Same2 (SameOn L) (Py.forM ms f) (Py.forM ms f)
  | [], _ => Same2.pure _
  | m :: ms, h => Same2.bind (h m (by simp)) fun _ => SameOn.forM ms fun q hq => h q (by simp [hq])

theorem SameOn.setOpt {L : List Layer} {f : Opt α → Opt α} (h : ∀ o, (f o).layers = o.layers) : Same2 (SameOn (α := α) L) (World.setOpt f) (World.setOpt f) :=
  Same2.modify fun _ _ ⟨h1, h2, h3, h4⟩ => ⟨by simp [h1], (h _).trans h2, h3, h4⟩

theorem SameOn.step {L : List Layer} (c : Bool) (a : Option α) (f : Bool) : Same2 (SameOn (α := α) L) (World.step c a f) (World.step c a f) := by
  unfold World.step
  split
  · exact Same2.raise _
  · refine Same2.bind ?_ fun _ => Same2.bind ?_ fun _ => Same2.bind (SameOn.setOpt fun _ => rfl) fun _ => SameOn.setOpt fun _ => rfl
    · unfold World.ensureScale
      refine Same2.get_bind fun A B r => ?_
      rw [r.1]
      split
      · exact Same2.pure _
      · unfold Opt.setScale
        refine Same2.bind (Same2.modify fun A B ⟨h1, h2, h3, h4⟩ => ⟨by simp [h1], h2, h3, h4⟩) fun _ => Same2.get_bind fun A B r => ?_
        rw [r.1]
        split
        · exact Same2.bind (Same2.lift _) fun _ => Same2.bind (Same2.lift _) fun _ => Same2.pure _
        · exact Same2.pure _
    · unfold World.stepBody
      split
      · unfold World.dropStats
        refine Same2.get_bind fun A B r => ?_
        rw [← r.1]
        exact SameOn.forM _ fun m _ => SameOn.setOpt fun _ => rfl
      · unfold World.innerStep
        refine Same2.get_bind fun A B r => ?_
        rw [← r.1]
        exact SameOn.forM _ fun m hm => SameOn.layerStep (r.2.1 ▸ hm)

/-- **C91.** Optimizers that have no parameter in common may take their steps in any order: the outcomes, the parameters and the optimizers are the same. -/
theorem C91_disjoint {s : State α} {i j : ℕ} (hij : i ≠ j) {si sj : Slot α} (hi : s.slots[i]? = some si) (hj : s.slots[j]? = some sj)
    (hri : si.ready = true) (hrj : sj.ready = true) (hd : ∀ m ∈ si.opt.layers, ∀ n ∈ sj.opt.layers, ∀ p, ¬ (World.Owns m p ∧ World.Owns n p))
    (c c' : Bool) (a a' : Option α) (f f' : Bool) :
    (mexec (.step j c' a' f') (mexec (.step i c a f) s).2).1 = (mexec (.step j c' a' f') s).1 ∧
    (mexec (.step i c a f) (mexec (.step j c' a' f') s).2).1 = (mexec (.step i c a f) s).1 ∧
    (mexec (.step j c' a' f') (mexec (.step i c a f) s).2).2 = (mexec (.step i c a f) (mexec (.step j c' a' f') s).2).2 := by
  have key : ∀ {i j : ℕ}, i ≠ j → ∀ {si sj : Slot α}, s.slots[i]? = some si → s.slots[j]? = some sj → si.ready = true → sj.ready = true →
      (∀ m ∈ si.opt.layers, ∀ n ∈ sj.opt.layers, ∀ p, ¬ (World.Owns m p ∧ World.Owns n p)) → ∀ (c c' : Bool) (a a' : Option α) (f f' : Bool),
      let W := World.step c a f (s.world i si)
      let V := World.step c' a' f' (s.world j sj)
      (mexec (.step j c' a' f') (mexec (.step i c a f) s).2).1 = V.1 ∧
      (mexec (.step j c' a' f') (mexec (.step i c a f) s).2).2 = { s with
        data := fun p => if p ∈ touched sj.opt then V.2.data p else W.2.data p
        slots := (s.slots.set i { si with opt := W.2.opt }).set j { sj with opt := V.2.opt } } := by
    intro i j hij si sj hi hj hri hrj hd c c' a a' f f' W V
    obtain ⟨gW, hW, dW⟩ := own_spec (.step c a f) (s.world i si)
    have e1 : (mexec (.step i c a f) s).2 = { s with data := W.2.data, slots := s.slots.set i { si with opt := W.2.opt } } := by
      show (onSlot i _ s).2 = _
      rw [onSlot_some hi hri]
      show State.mk W.2.data W.2.grad _ _ = State.mk W.2.data s.grad _ _
      rw [show W.2.grad = s.grad from gW]
      rfl
    rw [e1]
    have hj' : (s.slots.set i { si with opt := W.2.opt })[j]? = some sj := by rw [List.getElem?_set_ne hij]; exact hj
    have sm : SameOn sj.opt.layers (State.world { s with data := W.2.data, slots := s.slots.set i { si with opt := W.2.opt } } j sj) (s.world j sj) := by
      refine ⟨rfl, rfl, rfl, fun n hn p hp => dW p fun ht => ?_⟩
      obtain ⟨m, hm, ho⟩ := mem_touched.1 ht
      exact hd m hm n hn p ⟨ho, hp⟩
    obtain ⟨r1, r2, _, _, r4⟩ := SameOn.step c' a' f' _ _ sm
    obtain ⟨gU, hU, dU⟩ := own_spec (.step c' a' f') (State.world { s with data := W.2.data, slots := s.slots.set i { si with opt := W.2.opt } } j sj)
    show (onSlot j _ _).1 = _ ∧ (onSlot j _ _).2 = _
    rw [onSlot_some (s := { s with data := W.2.data, slots := s.slots.set i { si with opt := W.2.opt } }) hj' hrj]
    refine ⟨r1, ?_⟩
    have hdat : (World.step c' a' f' (State.world { s with data := W.2.data, slots := s.slots.set i { si with opt := W.2.opt } } j sj)).2.data =
        fun p => if p ∈ touched sj.opt then V.2.data p else W.2.data p := by
      funext p
      split
      · rename_i hp
        obtain ⟨n, hn, ho⟩ := mem_touched.1 hp
        exact r4 n hn p ho
      · rename_i hp
        exact dU p hp
    show State.mk (World.step c' a' f' _).2.data (World.step c' a' f' _).2.grad (List.set _ j { sj with opt := (World.step c' a' f' _).2.opt }) _ = _
    rw [hdat, r2, show (World.step c' a' f' _).2.grad = s.grad from gU]
  have ha : (mexec (.step i c a f) s).1 = (World.step c a f (s.world i si)).1 := by show (onSlot i _ s).1 = _; rw [onSlot_some hi hri]; rfl
  have hb : (mexec (.step j c' a' f') s).1 = (World.step c' a' f' (s.world j sj)).1 := by show (onSlot j _ s).1 = _; rw [onSlot_some hj hrj]; rfl
  obtain ⟨x1, x2⟩ := key hij hi hj hri hrj hd c c' a a' f f'
  obtain ⟨y1, y2⟩ := key (Ne.symm hij) hj hi hrj hri (fun m hm n hn p h => hd n hn m hm p h.symm) c' c a' a f' f
  refine ⟨x1.trans hb.symm, y1.trans ha.symm, ?_⟩
  rw [x2, y2, List.set_comm _ _ hij]
  congr 1
  funext p
  obtain ⟨_, _, dW⟩ := own_spec (.step c a f) (s.world i si)
  obtain ⟨_, _, dV⟩ := own_spec (.step c' a' f') (s.world j sj)
  by_cases h1 : p ∈ touched si.opt
  · by_cases h2 : p ∈ touched sj.opt
    · obtain ⟨m, hm, h1⟩ := mem_touched.1 h1
      obtain ⟨n, hn, h2⟩ := mem_touched.1 h2
      exact absurd ⟨h1, h2⟩ (hd m hm n hn p)
    · simp only [h1, h2, if_true, if_false]
  · by_cases h2 : p ∈ touched sj.opt
    · simp only [h1, h2, if_true, if_false]
    · simp only [h1, h2, if_false]
      exact (dW p h1).trans (dV p h2).symm

end Multi

/-! ### Concrete histories -/

namespace Sample.Many
open Multi

/-- the sample model, without an optimizer -/
def s0 : State ℚ := fresh Sample.w0.data Sample.w0.grad
/-- a misspelled structure -/
def typo : Args ℚ := { Sample.args with structures := ("dense", "diag") }
/-- only the biases are handed over -/
def biases : ParamArg ℚ := .flat [⟨1, true⟩]
/-- constructor calls -/
def good : Op' ℚ := .construct supportedStructures Sample.model .default Sample.args
def bad : Op' ℚ := .construct supportedStructures Sample.model .default typo
def badBias : Op' ℚ := .construct supportedStructures Sample.model biases Sample.args
/-- a forward and backward pass through both layers -/
def pass (n : ℕ) : List (Op' ℚ) := [.forward Sample.la (Sample.row [2]) true, .forward Sample.lb (Sample.row [1, 3]) true, .backward (n + 1) (Sample.row [1]),
  .backward n (Sample.row [2])]
/-- the exceptions of a history -/
def errs : List (Op' ℚ) → State ℚ → List (Option PyErr)
  | [], _ => []
  | op :: ops, s => (match (mexec op s).1 with
    | .ok _ => none
    | .error e => some e) :: errs ops (mexec op s).2
/-- the groups, if the checks pass -/
def okGroups (p : ParamArg ℚ) (a : Args ℚ) : List (PGroup ℚ) := match groupsOf Sample.model p a with
  | .ok gs => gs
  | .error _ => []
theorem groups_eq {p : ParamArg ℚ} {a : Args ℚ} (h : Sample.isOk (groupsOf Sample.model p a) = true) : groupsOf Sample.model p a = .ok (okGroups p a) := by
  unfold okGroups
  rcases hx : groupsOf Sample.model p a with e | gs
  · rw [hx] at h; simp [Sample.isOk] at h
  · rfl

-- a misspelled structure raises after the hooks were installed; with a second, correct, optimizer every backward pass fails
example : errs ([bad, good] ++ pass 0) s0 = [some .keyError, none, none, none, some .keyError, some .keyError] := by decide +kernel
-- the two kinds of `C91_half_kind`: the structure is misspelled in the group of the second layer only; the first layer has its factors, the second has not
example : errs ([.construct supportedStructures Sample.model (.groups [⟨[⟨0, true⟩, ⟨1, true⟩], id⟩, ⟨[⟨2, true⟩], fun h => { h with structures := ("dense", "diag") }⟩]) Sample.args] ++ pass 0) s0 =
  [some .keyError, none, none, some .keyError, some .attributeError] := by decide +kernel
-- without the first call all is well
example : errs (good :: pass 0) s0 = [none, none, none, none, none] := by decide +kernel
-- only biases: forward passes through the layer fail, also in evaluation; the other layer is not affected
example : errs [badBias, good, .forward Sample.la (Sample.row [2]) false, .forward Sample.lb (Sample.row [1, 3]) true, .backward 0 (Sample.row [1])] s0 =
  [some .keyError, none, some .keyError, none, none] := by decide +kernel

-- the hypotheses of `C91_failed` and `C91_raises` hold for these calls
example : ∃ e, Construct.init supportedStructures Sample.model .default typo = .error e :=
  C91_raises (groups_eq (p := .default) (a := typo) (by decide +kernel)) (m := Sample.la) (by decide +kernel) (Or.inr (by
    have key : (match (Construct.blank supportedStructures Sample.model.layers (okGroups .default typo) typo.initGradScale).hyperOf Sample.la with
        | .ok h => decide (h.structures.2 = "diag")
        | .error _ => false) = true := by decide +kernel
    rcases hh : (Construct.blank supportedStructures Sample.model.layers (okGroups .default typo) typo.initGradScale).hyperOf Sample.la with e | h
    · rw [hh] at key; cases key
    · rw [hh] at key
      exact ⟨h, rfl, Or.inr (by rw [of_decide_eq_true key]; decide +kernel)⟩))
example (before after : List (Op' ℚ)) (x g : ND ℚ) (h : (mexec (.forward Sample.la x true) (mrun before (mexec bad s0).2)).1 = .ok ()) :
    ∃ e, (mexec (.backward (mrun before (mexec bad s0).2).outs.length g) (mrun after (mexec (.forward Sample.la x true) (mrun before (mexec bad s0).2)).2)).1 = .error e := by
  rcases hi : Construct.init supportedStructures Sample.model .default typo with e | r
  · exact (C91_failed (groups_eq (p := .default) (a := typo) (by decide +kernel)) hi (m := Sample.la) (by decide +kernel) s0 before).2.2 x h after g
  · have : Sample.isOk (Construct.init supportedStructures Sample.model .default typo) = false := by decide +kernel
    rw [hi] at this
    simp [Sample.isOk] at this
example (before : List (Op' ℚ)) (x : ND ℚ) : ∃ e, (mexec (.forward Sample.la x false) (mrun before (mexec badBias s0).2)).1 = .error e := by
  have hg := groups_eq (p := biases) (a := Sample.args) (by decide +kernel)
  obtain ⟨e, he⟩ := C91_raises (structs := supportedStructures) hg (m := Sample.la) (by decide +kernel) (Or.inl (by decide +kernel))
  exact (C91_failed hg he (m := Sample.la) (by decide +kernel) s0 before).2.1 (by decide +kernel) x false

/-- two optimizers are constructed; the first is abandoned after a step -/
def two : List (Op' ℚ) := [good] ++ pass 0 ++ [.step 0 false none false, good]
def s1 : State ℚ := mrun two s0
-- the hypotheses of `C91_reachable` and `C91_view`
example : ∀ op ∈ two, op.Uses supportedStructures := by
  intro op h
  have hn : (Sample.model.layers.map (·.name)).Nodup := by decide +kernel
  simp only [two, good, pass, List.cons_append, List.nil_append, List.mem_cons, List.not_mem_nil, or_false] at h
  rcases h with rfl | rfl | rfl | rfl | rfl | rfl | rfl <;> first | exact ⟨rfl, hn⟩ | exact True.intro
example : (s1.slots.map fun sl => (sl.ready, sl.attached)) = [(true, true), (true, true)] ∧ s1.outs.map (·.regs) = [[0], [0]] := by decide +kernel
-- the abandoned optimizer's period is 2 and its counter stays at 1, so that it does not register hooks; the new one does, and trains as if alone
example : (mrun (pass 2 ++ [.step 1 false none false]) s1).outs.map (·.regs) = [[0], [0], [1], [1]] := by decide +kernel
example : (mrunOk (pass 2 ++ [.step 1 false none false]) s1).isSome = true := by decide +kernel
/-- abandoned at once: its statistics go on accumulating -/
def s2 : State ℚ := mrun [good, good] s0
example : (mrun (pass 0 ++ [.step 1 false none false] ++ pass 2) s2).slots.map (fun sl => Sample.fac (sl.opt.HCs "a")) = [some [[8]], none] := by decide +kernel
example : ∃ t', mrunOk (pass 0 ++ [.step 1 false none false]) (forget 0 s2) = some t' := by
  rcases hs : mrunOk (pass 0 ++ [.step 1 false none false]) s2 with _ | s'
  · have : (mrunOk (pass 0 ++ [.step 1 false none false]) s2).isSome = true := by decide +kernel
    rw [hs] at this
    cases this
  · obtain ⟨t', h, _⟩ := C91_abandoned (j := 0) (by decide +kernel) (by
      intro op h
      simp only [pass, List.cons_append, List.nil_append, List.mem_cons, List.not_mem_nil, or_false] at h
      rcases h with rfl | rfl | rfl | rfl | rfl <;> first | exact True.intro | exact Nat.one_ne_zero) hs
    exact ⟨t', h⟩

/-- one optimizer for each layer -/
def split : State ℚ := mrun ([.construct supportedStructures Sample.model (.flat [⟨0, true⟩, ⟨1, true⟩]) Sample.args,
  .construct supportedStructures Sample.model (.flat [⟨2, true⟩]) Sample.args] ++ pass 0) s0
-- the hypotheses of `C91_disjoint`: layers without common parameters; both steps move parameters
example : split.slots.map (fun sl => (sl.ready, sl.opt.layers)) = [(true, [Sample.la]), (true, [Sample.lb])] := by decide +kernel
example : ∀ p, ¬ (World.Owns Sample.la p ∧ World.Owns Sample.lb p) := by
  rintro p ⟨h1 | ⟨b, hb, h1⟩, h2 | ⟨c, hc, h2⟩⟩
  · rw [h1] at h2; cases h2
  · cases hc
  · cases hb; rw [h1] at h2; cases h2
  · cases hc
example : ((mrun [.step 0 false none false, .step 1 false none false] split).data 0).toLists = [[43 / 40]] ∧
    ((mrun [.step 1 false none false, .step 0 false none false] split).data 2).toLists ≠ [[1, 1]] := by decide +kernel

end Sample.Many
