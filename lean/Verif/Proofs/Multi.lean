import Verif.Model.Multi
import Verif.Props.Dynamics
import Verif.Props.Separate

/-! Several optimizers for one model: what each of them sees is the history of an optimizer alone. -/

set_option linter.unusedSectionVars false
variable {α : Type} [Field α] [LinearOrder α] [HasSqrt α]

namespace Multi

/-- the parameters an optimizer writes -/
def touched (o : Opt α) : List ℕ := o.layers.flatMap fun m => m.weight.ptr :: (m.bias.map (·.ptr)).toList

theorem mem_touched {o : Opt α} {p : ℕ} : p ∈ touched o ↔ ∃ m ∈ o.layers, World.Owns m p := by
  unfold touched World.Owns
  simp only [List.mem_flatMap, List.mem_cons, Option.mem_toList, Option.mem_def, Option.map_eq_some_iff]
  constructor
  · rintro ⟨m, hm, h | ⟨b, hb, rfl⟩⟩
    · exact ⟨m, hm, Or.inl h⟩
    · exact ⟨m, hm, Or.inr ⟨b, hb, rfl⟩⟩
  · rintro ⟨m, hm, h | ⟨b, hb, rfl⟩⟩
    · exact ⟨m, hm, Or.inl h⟩
    · exact ⟨m, hm, Or.inr ⟨b, hb, rfl⟩⟩

/-- operations on the optimizer itself -/
inductive Own : Op α → Prop
  | setHyper (i : ℕ) (h : Hyper α) : Own (.setHyper i h)
  | setScale (c : α) : Own (.setScale c)
  | step (c : Bool) (a : Option α) (f : Bool) : Own (.step c a f)

theorem withScale_frame (attr : Option α) (w : World α) : (World.withScale attr w).data = w.data ∧ (World.withScale attr w).grad = w.grad ∧
    (World.withScale attr w).hooks = w.hooks ∧ (World.withScale attr w).opt.layers = w.opt.layers := by
  exact ⟨rfl, rfl, rfl, rfl⟩

theorem own_spec {op : Op α} (h : Own op) (w : World α) : (exec op w).2.grad = w.grad ∧ (exec op w).2.hooks = w.hooks ∧
    ∀ p, p ∉ touched w.opt → (exec op w).2.data p = w.data p := by
  cases h with
  | setHyper i h => exact ⟨rfl, rfl, fun _ _ => rfl⟩
  | setScale c =>
    rw [exec, World.setScale_state]; exact ⟨rfl, rfl, fun _ _ => rfl⟩
  | step c a f =>
    cases c with
    | true => exact ⟨rfl, rfl, fun _ _ => rfl⟩
    | false =>
      obtain ⟨d, g, k, l⟩ := withScale_frame a w
      have fr := stepBody_frame f (World.withScale a w)
      have key : ∀ v : World α, v.grad = (World.stepBody f (World.withScale a w)).2.grad → v.hooks = (World.stepBody f (World.withScale a w)).2.hooks →
          v.data = (World.stepBody f (World.withScale a w)).2.data → v.grad = w.grad ∧ v.hooks = w.hooks ∧ ∀ p, p ∉ touched w.opt → v.data p = w.data p :=
        fun v h1 h2 h3 => ⟨by rw [h1, fr.grad, g], by rw [h2, fr.hooks, k], fun p hp => by
          rw [h3, fr.data p, d]
          rintro ⟨_, m, hm, ho⟩
          rw [l] at hm
          exact hp (mem_touched.2 ⟨m, hm, ho⟩)⟩
      change (World.step false a f w).2.grad = _ ∧ (World.step false a f w).2.hooks = _ ∧ ∀ p, _ → (World.step false a f w).2.data p = _
      rcases step_state a f w with h | ⟨e, h⟩ | ⟨w1, h1, h⟩
      · rw [h]; exact ⟨g, k, fun p _ => by rw [d]⟩
      · rw [h]; exact key _ rfl rfl rfl
      · exact key _ (by rw [h, h1]) (by rw [h, h1]) (by rw [h, h1])

/-! ### Forward passes -/

/-- the forward hook of `m` registers a tensor hook -/
def registers (m : Layer) (o : Opt α) (ge : Bool) : Prop := ge = true ∧ World.Updates o m

theorem forwardHook_run (m : Layer) (x : ND α) (ge : Bool) (w : World α) : (∃ e, World.forwardHook m x ge w = (.error e, w)) ∨
    (¬ registers m w.opt ge ∧ World.forwardHook m x ge w = (.ok (), w)) ∨
    (registers m w.opt ge ∧ World.forwardHook m x ge w = (.ok (), { w with hooks := w.hooks ++ [(m, x)] })) := by
  unfold registers
  rw [World.forwardHook, Py.get_bind_run]
  rcases hh : w.opt.hyperOf m with e | h
  · exact Or.inl ⟨e, rfl⟩
  · rw [Py.lift_ok_bind_run]
    cases ge
    · exact Or.inr (Or.inl ⟨by simp, rfl⟩)
    · rw [if_pos rfl]
      by_cases hT : h.T = 0
      · rw [if_pos hT]; exact Or.inl ⟨_, rfl⟩
      · rw [if_neg hT]
        by_cases hs : w.opt.steps % h.T = 0
        · rw [if_pos hs]; exact Or.inr (Or.inr ⟨⟨rfl, h, hh, hT, hs⟩, rfl⟩)
        · rw [if_neg hs]
          refine Or.inr (Or.inl ⟨?_, rfl⟩)
          rintro ⟨_, h', hh', _, hs'⟩
          rw [hh] at hh'; cases hh'
          exact hs hs'

/-- hooks of `sl` run in a forward pass through `m` -/
def Slot.watches (sl : Slot α) (m : Layer) : Prop := sl.attached = true ∧ m ∈ sl.opt.layers

theorem fire_ok {m : Layer} {x : ND α} {ge : Bool} {d : ℕ → Mat α} {g : ℕ → Option (Mat α)} : ∀ {k : ℕ} {sls : List (Slot α)} {r : List ℕ},
    fire m x ge d g k sls = .ok r → r.Nodup ∧ (∀ i ∈ r, k ≤ i) ∧ ∀ i sl, sls[i]? = some sl →
      (k + i ∈ r ↔ sl.watches m ∧ registers m sl.opt ge) ∧ (sl.watches m → ∀ h, ∃ v, World.forwardHook m x ge ⟨sl.opt, d, g, h⟩ = (.ok (), v))
  | k, [], r, h => by cases h; simp
  | k, sl :: sls, r, h => by
    rw [fire] at h
    have step : ∀ {r'}, fire m x ge d g (k + 1) sls = .ok r' → r'.Nodup ∧ (∀ i ∈ r', k < i) ∧ ∀ i sl', (sl :: sls)[i + 1]? = some sl' →
        (k + (i + 1) ∈ r' ↔ sl'.watches m ∧ registers m sl'.opt ge) ∧
          (sl'.watches m → ∀ h, ∃ v, World.forwardHook m x ge ⟨sl'.opt, d, g, h⟩ = (.ok (), v)) := by
      intro r' h'
      obtain ⟨a, b, c⟩ := fire_ok h'
      refine ⟨a, b, fun i sl' e => ?_⟩
      have := c i sl' (by simpa using e)
      rwa [show k + 1 + i = k + (i + 1) by omega] at this
    have rest : ∀ (i : ℕ) (sl' : Slot α), (sl :: sls)[i]? = some sl' → (i = 0 ∧ sl' = sl) ∨ ∃ j, i = j + 1 := by
      intro i sl' e
      cases i with
      | zero => exact Or.inl ⟨rfl, by simpa using e.symm⟩
      | succ j => exact Or.inr ⟨j, rfl⟩
    by_cases hw : sl.watches m
    · rw [if_pos (by simpa [Slot.watches] using hw)] at h
      have all : ∀ hk : List (Layer × ND α), (∃ v, World.forwardHook m x ge ⟨sl.opt, d, g, []⟩ = (.ok (), v)) →
          ∃ v, World.forwardHook m x ge ⟨sl.opt, d, g, hk⟩ = (.ok (), v) := by
        rintro hk ⟨v, hv⟩
        rw [World.forwardHook, Py.get_bind_run] at hv ⊢
        dsimp only at hv ⊢
        rcases hh : sl.opt.hyperOf m with e | hp
        · rw [hh] at hv; cases hv
        · rw [hh, Py.lift_ok_bind_run] at hv
          rw [Py.lift_ok_bind_run]
          cases ge
          · exact ⟨_, rfl⟩
          · rw [if_pos rfl] at hv ⊢
            by_cases hT : hp.T = 0
            · rw [if_pos hT] at hv; cases hv
            · rw [if_neg hT]
              split <;> exact ⟨_, rfl⟩
      rcases forwardHook_run m x ge ⟨sl.opt, d, g, []⟩ with ⟨e, he⟩ | ⟨hn, he⟩ | ⟨hr, he⟩
      · rw [he] at h; cases h
      · rw [he] at h
        rcases hf : fire m x ge d g (k + 1) sls with e | r'
        · rw [hf] at h; cases h
        · rw [hf] at h
          cases h
          obtain ⟨a, b, c⟩ := step hf
          refine ⟨a, fun i hi => (b i hi).le, fun i sl' hs => ?_⟩
          rcases rest i sl' hs with ⟨rfl, rfl⟩ | ⟨j, rfl⟩
          · exact ⟨⟨fun hk => absurd (b _ hk) (by simp), fun hk => absurd hk.2 hn⟩, fun _ hk => all hk ⟨_, he⟩⟩
          · exact c j sl' hs
      · rw [he] at h
        rcases hf : fire m x ge d g (k + 1) sls with e | r'
        · rw [hf] at h; cases h
        · rw [hf] at h
          cases h
          obtain ⟨a, b, c⟩ := step hf
          refine ⟨List.nodup_cons.2 ⟨fun hk => absurd (b _ hk) (by simp), a⟩, fun i hi => ?_, fun i sl' hs => ?_⟩
          · rcases List.mem_cons.1 hi with rfl | hi
            · exact le_rfl
            · exact (b i hi).le
          rcases rest i sl' hs with ⟨rfl, rfl⟩ | ⟨j, rfl⟩
          · exact ⟨⟨fun _ => ⟨hw, hr⟩, fun _ => List.mem_cons_self ..⟩, fun _ hk => all hk ⟨_, he⟩⟩
          · obtain ⟨c1, c2⟩ := c j sl' hs
            refine ⟨?_, c2⟩
            rw [← c1]
            constructor
            · intro hi
              rcases List.mem_cons.1 hi with h0 | hi
              · omega
              · exact hi
            · exact List.mem_cons_of_mem _
    · rw [if_neg (by simpa [Slot.watches] using hw)] at h
      obtain ⟨a, b, c⟩ := step h
      refine ⟨a, fun i hi => (b i hi).le, fun i sl' hs => ?_⟩
      rcases rest i sl' hs with ⟨rfl, rfl⟩ | ⟨j, rfl⟩
      · exact ⟨⟨fun hk => absurd (b _ hk) (by simp), fun hk => absurd hk.1 hw⟩, fun hk => absurd hk hw⟩
      · exact c j sl' hs

theorem fire_lt {m : Layer} {x : ND α} {ge : Bool} {d : ℕ → Mat α} {g : ℕ → Option (Mat α)} : ∀ {k : ℕ} {sls : List (Slot α)} {r : List ℕ},
    fire m x ge d g k sls = .ok r → ∀ i ∈ r, i < k + sls.length
  | k, [], r, h => by cases h; simp
  | k, sl :: sls, r, h => by
    rw [fire] at h
    intro i hi
    rw [List.length_cons]
    split at h
    · split at h
      · cases h
      · rcases hf : fire m x ge d g (k + 1) sls with e | r'
        · rw [hf] at h; cases h
        · rw [hf] at h
          cases h
          have := fire_lt hf i
          split at hi
          · have := this hi; omega
          · rcases List.mem_cons.1 hi with rfl | hi
            · omega
            · have := this hi; omega
    · have := fire_lt h i hi; omega

/-! ### What an optimizer sees -/

/-- every optimizer registers at most one hook per output, and only optimizers that exist do -/
def Valid (s : State α) : Prop := ∀ o ∈ s.outs, o.regs.Nodup ∧ ∀ k ∈ o.regs, k < s.slots.length

open Classical in
/-- the hooks of optimizer `i` that run in a backward pass -/
noncomputable def seenHooks (i n : ℕ) (o : Out α) (g : ND α) : List ℕ → State α → List (Op α)
  | [], _ => []
  | k :: ks, s => (if k = i then [.backward n g] else []) ++
    match tensorHook o g k s with
    | (.ok _, s') => seenHooks i n o g ks s'
    | (.error _, _) => []

open Classical in
/-- What optimizer `i` sees of an operation: passes in which its hooks run, its own methods, and changes of parameters and gradients by others -/
noncomputable def seen (i : ℕ) (op : Op' α) (s : State α) : List (Op α) := match op with
  | .construct .. => []
  | .detach _ => []
  | .forward m x ge => match s.slots[i]?, fire m x ge s.data s.grad 0 s.slots with
    | some sl, .ok _ => if sl.watches m then [.forward (sl.opt.layers.idxOf m) x ge] else []
    | _, _ => []
  | .backward k g => match s.outs[k]? with
    | none => []
    | some o => seenHooks i ((s.outs.take k).countP fun o => o.regs.contains i) o g o.regs s
  | .setGrad p G => [.setGrad p G]
  | .setParam p M => [.setParam p M]
  | .setHyper j q h => if j = i then [.setHyper q h] else []
  | .setScale j c => if j = i then [.setScale c] else []
  | .step j c a f => if j = i then [.step c a f] else match s.slots[j]? with
    | none => []
    | some sl => if sl.ready then (touched sl.opt).map fun p => .setParam p ((mexec (.step j c a f) s).2.data p) else []

/-- what optimizer `i` sees of a history -/
noncomputable def seenAll (i : ℕ) : List (Op' α) → State α → List (Op α)
  | [], _ => []
  | op :: ops, s => seen i op s ++ seenAll i ops (mexec op s).2

theorem run_setParams (d : ℕ → Mat α) : ∀ (ps : List ℕ) (w : World α), run (ps.map fun p => .setParam p (d p)) w =
    { w with data := fun p => if p ∈ ps then d p else w.data p }
  | [], w => by simp [run]
  | p :: ps, w => by
    rw [List.map_cons, run, List.foldl_cons]
    change run (ps.map fun p => .setParam p (d p)) { w with data := Function.update w.data p (d p) } = _
    rw [run_setParams d ps]
    congr 1
    funext q
    by_cases h : q ∈ ps
    · simp [h]
    · by_cases e : q = p
      · subst e; simp [h]
      · simp [h, e]

theorem run_append (a b : List (Op α)) (w : World α) : run (a ++ b) w = run b (run a w) := List.foldl_append ..

/-- relation between states: slot `i` keeps its flags, `ops` happened to its world -/
def Saw (i : ℕ) (ops : List (Op α)) (s s' : State α) : Prop := s'.slots.length = s.slots.length ∧ s'.outs = s.outs ∧ s'.grad = s.grad ∧
  ∀ sl, s.slots[i]? = some sl → sl.ready = true →
    ∃ sl', s'.slots[i]? = some sl' ∧ sl'.ready = true ∧ sl'.attached = sl.attached ∧ s'.world i sl' = run ops (s.world i sl)

theorem Saw.refl (i : ℕ) (s : State α) : Saw i [] s s := ⟨rfl, rfl, rfl, fun sl h r => ⟨sl, h, r, rfl, rfl⟩⟩

theorem Saw.trans {i : ℕ} {a b : List (Op α)} {s s' s'' : State α} (h : Saw i a s s') (h' : Saw i b s' s'') : Saw i (a ++ b) s s'' :=
  ⟨h'.1.trans h.1, h'.2.1.trans h.2.1, h'.2.2.1.trans h.2.2.1, fun sl e r => by
    obtain ⟨sl', e', r', t', w'⟩ := h.2.2.2 sl e r
    obtain ⟨sl'', e'', r'', t'', w''⟩ := h'.2.2.2 sl' e' r'
    exact ⟨sl'', e'', r'', t''.trans t', by rw [w'', w', run_append]⟩⟩

theorem onSlot_none {j : ℕ} {f : Py (World α) Unit} {s : State α} (h : ∀ sl, s.slots[j]? = some sl → sl.ready = false) : onSlot j f s = (.ok (), s) := by
  unfold onSlot
  rcases e : s.slots[j]? with _ | sl
  · rfl
  · simp [h sl e]

theorem onSlot_some {j : ℕ} {f : Py (World α) Unit} {s : State α} {sl : Slot α} (h : s.slots[j]? = some sl) (r : sl.ready = true) :
    onSlot j f s = ((f (s.world j sl)).1,
      { s with data := (f (s.world j sl)).2.data, grad := (f (s.world j sl)).2.grad, slots := s.slots.set j { sl with opt := (f (s.world j sl)).2.opt } }) := by
  unfold onSlot
  rw [h]
  simp [r]

/-- own methods, as seen by the optimizer itself and by others -/
theorem onSlot_saw {j : ℕ} {f : Py (World α) Unit} {s : State α} (i : ℕ) (ops : List (Op α))
    (hs : ∀ sl, s.slots[j]? = some sl → sl.ready = true → (f (s.world j sl)).2.grad = s.grad ∧ (f (s.world j sl)).2.hooks = s.hooksOf j)
    (h1 : i = j → ∀ sl, s.slots[j]? = some sl → sl.ready = true → (f (s.world j sl)).2 = run ops (s.world j sl))
    (h2 : i ≠ j → ∀ sl w, s.slots[j]? = some sl → sl.ready = true → w.data = s.data → run ops w = { w with data := (f (s.world j sl)).2.data })
    (h3 : i ≠ j → (∀ sl, s.slots[j]? = some sl → sl.ready = false) → ops = []) : Saw i ops s (onSlot j f s).2 := by
  by_cases hr : ∃ sl, s.slots[j]? = some sl ∧ sl.ready = true
  · obtain ⟨sl, e, r⟩ := hr
    obtain ⟨g, hk⟩ := hs sl e r
    rw [onSlot_some e r]
    refine ⟨by simp, rfl, g, fun sl' e' r' => ?_⟩
    by_cases hij : i = j
    · subst hij
      rw [e] at e'; cases e'
      refine ⟨{ sl with opt := (f (s.world i sl)).2.opt }, ?_, r, rfl, ?_⟩
      · show (s.slots.set i _)[i]? = _
        rw [List.getElem?_set_self (by exact (List.getElem?_eq_some_iff.1 e).1)]
      · rw [← h1 rfl sl e r]
        have : ∀ (w : World α) h, w.hooks = h → (⟨w.opt, w.data, w.grad, h⟩ : World α) = w := by rintro ⟨⟩ _ rfl; rfl
        exact this _ _ hk
    · refine ⟨sl', ?_, r', rfl, ?_⟩
      · show (s.slots.set j _)[i]? = _
        rw [List.getElem?_set_ne (Ne.symm hij), e']
      · rw [h2 hij sl _ e r rfl]
        show World.mk _ _ _ _ = _
        rw [g]; rfl
  · have hn : ∀ sl, s.slots[j]? = some sl → sl.ready = false := fun sl e => by
      by_contra hc; exact hr ⟨sl, e, by simpa using hc⟩
    rw [onSlot_none hn]
    by_cases hij : i = j
    · subst hij
      exact ⟨rfl, rfl, rfl, fun sl e r => absurd (hn sl e) (by simp [r])⟩
    · rw [h3 hij hn]; exact Saw.refl i s

theorem tensorHook_eq (o : Out α) (g : ND α) (k : ℕ) (s : State α) : (tensorHook o g k s).2 = (onSlot k (World.accumulateH o.layer o.x g) s).2 := by
  unfold tensorHook
  rcases e : s.slots[k]? with _ | sl
  · rw [onSlot_none (by rw [e]; simp)]
  · dsimp only
    split
    · rfl
    · rename_i hr
      rw [onSlot_none (by rw [e]; rintro _ ⟨⟩; simpa using hr)]

theorem tensorHook_saw (i n : ℕ) {o : Out α} (g : ND α) (k : ℕ) {s : State α} (hn : k = i → (s.hooksOf i)[n]? = some (o.layer, o.x)) :
    Saw i (if k = i then [.backward n g] else []) s (tensorHook o g k s).2 := by
  rw [tensorHook_eq]
  refine onSlot_saw i _ (fun sl _ _ => ?_) (fun hik sl e r => ?_) (fun hik sl w _ _ hw => ?_) fun hik _ => if_neg (Ne.symm hik)
  · have f := World.accumulateH_frame o.layer o.x g (s.world k sl)
    exact ⟨f.grad, f.hooks⟩
  · subst hik
    rw [if_pos rfl]
    show _ = (exec (.backward n g) (s.world i sl)).2
    rw [exec, Py.get_bind_run, show (s.world i sl).hooks[n]? = some (o.layer, o.x) from hn rfl]
  · rw [if_neg (Ne.symm hik)]
    have f := World.accumulateH_frame o.layer o.x g (s.world k sl)
    rw [show (World.accumulateH o.layer o.x g (s.world k sl)).2.data = s.data from funext fun p => f.data p (by simp [World.none']), ← hw]
    rfl

theorem backward_saw (i n : ℕ) {o : Out α} (g : ND α) : ∀ (ks : List ℕ) {s : State α}, (i ∈ ks → (s.hooksOf i)[n]? = some (o.layer, o.x)) →
    Saw i (seenHooks i n o g ks s) s (Py.forM ks (tensorHook o g) s).2
  | [], s, _ => Saw.refl i s
  | k :: ks, s, hn => by
    have h1 := tensorHook_saw i n g k (s := s) (o := o) fun e => hn (by simp [e])
    rw [seenHooks, Py.forM, Py.bind_run]
    rcases e : tensorHook o g k s with ⟨r, s'⟩
    rw [e] at h1
    rcases r with er | u
    · rw [List.append_nil]; exact h1
    · refine h1.trans (backward_saw i n g ks fun hi => ?_)
      rw [State.hooksOf, h1.2.1]; exact hn (List.mem_cons_of_mem _ hi)

theorem own_saw (i j : ℕ) {op : Op α} (ho : Own op) (s : State α) : Saw i (if j = i then [op] else match s.slots[j]? with
    | none => []
    | some sl => if sl.ready then (touched sl.opt).map fun p => .setParam p ((onSlot j (exec op) s).2.data p) else []) s (onSlot j (exec op) s).2 := by
  refine onSlot_saw i _ (fun sl _ _ => ?_) (fun hij sl e r => ?_) (fun hij sl w e r hw => ?_) fun hij hr => ?_
  · obtain ⟨a, b, _⟩ := own_spec ho (s.world j sl)
    exact ⟨a, b⟩
  · rw [if_pos hij.symm]; rfl
  · rw [if_neg (Ne.symm hij), e]
    dsimp only
    rw [if_pos r, run_setParams, onSlot_some e r]
    congr 1
    funext p
    split
    · rfl
    · rename_i hp
      rw [(own_spec ho (s.world j sl)).2.2 p hp, hw]; rfl
  · rw [if_neg (Ne.symm hij)]
    rcases e : s.slots[j]? with _ | sl
    · rfl
    · simp [hr sl e]

/-- an operation that does not touch parameters, as seen by others -/
theorem own_saw' (i j : ℕ) {op : Op α} (ho : Own op) (s : State α) (hd : ∀ w, (exec op w).2.data = w.data) :
    Saw i (if j = i then [op] else []) s (onSlot j (exec op) s).2 := by
  refine onSlot_saw i _ (fun sl _ _ => ?_) (fun hij sl e r => ?_) (fun hij sl w e r hw => ?_) fun hij hr => if_neg (Ne.symm hij)
  · obtain ⟨a, b, _⟩ := own_spec ho (s.world j sl)
    exact ⟨a, b⟩
  · rw [if_pos hij.symm]; rfl
  · rw [if_neg (Ne.symm hij), hd]
    show w = { w with data := s.data }
    rw [← hw]

/-! ### Construction -/

/-- what hooks read of an optimizer besides its factors -/
def SameConf (o o' : Opt α) : Prop := o'.layers = o.layers ∧ o'.groups = o.groups ∧ o'.ptrGroup = o.ptrGroup ∧ o'.steps = o.steps ∧ o'.structs = o.structs

theorem initLayer_conf (m : Layer) : Py.Rel SameConf (initLayer m : Py (Opt α) Unit) := by
  have tr : ∀ a b c : Opt α, SameConf a b → SameConf b c → SameConf a c := fun a b c h h' =>
    ⟨h'.1.trans h.1, h'.2.1.trans h.2.1, h'.2.2.1.trans h.2.2.1, h'.2.2.2.1.trans h.2.2.2.1, h'.2.2.2.2.trans h.2.2.2.2⟩
  have rf : ∀ a : Opt α, SameConf a a := fun a => ⟨rfl, rfl, rfl, rfl, rfl⟩
  have md : ∀ {f : Opt α → Opt α}, (∀ o, SameConf o (f o)) → Py.Rel SameConf (Py.modify f) := fun h o => h o
  have lf : ∀ {β : Type} (x : Except PyErr β), Py.Rel SameConf (Py.lift x : Py (Opt α) β) := fun x o => rf o
  unfold initLayer
  refine Py.Rel.bind tr (lf _) fun d => ?_
  refine Py.Rel.get_bind fun o => ?_
  refine Py.Rel.bind tr (lf _) (fun h => ?_) o
  refine Py.Rel.bind tr (lf _) fun cK => ?_
  refine Py.Rel.bind tr (lf _) fun cC => ?_
  refine Py.Rel.bind tr (lf _) fun K => ?_
  refine Py.Rel.bind tr (md fun o => ⟨rfl, rfl, rfl, rfl, rfl⟩) fun _ => ?_
  refine Py.Rel.bind tr (lf _) fun C => ?_
  refine Py.Rel.bind tr (md fun o => ⟨rfl, rfl, rfl, rfl, rfl⟩) fun _ => ?_
  split
  · refine Py.Rel.bind tr (lf _) fun mK => ?_
    refine Py.Rel.bind tr (md fun o => ⟨rfl, rfl, rfl, rfl, rfl⟩) fun _ => ?_
    refine Py.Rel.bind tr (lf _) fun mC => ?_
    exact md fun o => ⟨rfl, rfl, rfl, rfl, rfl⟩
  · exact fun o => rf o

/-- statements that compute the same as a pure function -/
def Refines (x : Except PyErr (Opt α)) (y : Except PyErr Unit × Opt α) : Prop :=
  (∀ o, x = .ok o → y = (.ok (), o)) ∧ ∀ e, x = .error e → y.1 = .error e

theorem Refines.lift {β : Type} (b : Except PyErr β) {f : β → Except PyErr (Opt α)} {g : β → Py (Opt α) Unit} {o : Opt α}
    (h : ∀ v, Refines (f v) (g v o)) : Refines (b >>= f) ((Py.lift b >>= g) o) := by
  rcases b with e | v
  · exact ⟨fun _ h => (by cases h), fun _ h => by cases h; rfl⟩
  · exact h v

theorem Refines.ok (o : Opt α) : Refines (.ok o) (.ok (), o) := ⟨fun _ h => (by cases h; rfl), fun _ h => by cases h⟩

theorem initLayer_run (m : Layer) (o : Opt α) : Refines (Construct.initLayer o m) (initLayer m o) := by
  unfold Construct.initLayer initLayer
  refine Refines.lift _ fun d => ?_
  rw [Py.get_bind_run]
  refine Refines.lift _ fun h => Refines.lift _ fun cK => Refines.lift _ fun cC => Refines.lift _ fun K => ?_
  rw [Py.bind_run]
  refine Refines.lift _ fun C => ?_
  rw [Py.bind_run]
  by_cases ha : h.alpha1 ≠ 0
  · simp only [if_pos ha]
    refine Refines.lift _ fun mK => ?_
    rw [Py.bind_run]
    refine Refines.lift _ fun mC => ?_
    exact Refines.ok _
  · simp only [if_neg ha]
    exact Refines.ok _

theorem initAll_run : ∀ (ms : List Layer) (o : Opt α), Refines (Construct.initBuffers ms o) (Py.forM ms initLayer o)
  | [], o => Refines.ok o
  | m :: ms, o => by
    have h := initLayer_run m o
    rw [Construct.initBuffers, Py.forM, Py.bind_run]
    rcases e : Construct.initLayer o m with er | o'
    · rcases hx : initLayer m o with ⟨r, o'⟩
      have := h.2 er e
      rw [hx] at this
      simp only at this
      subst this
      exact ⟨fun _ h => (by cases h), fun _ h => by cases h; rfl⟩
    · rw [h.1 o' e]
      exact initAll_run ms o'

theorem initAll_conf : ∀ (ms : List Layer), Py.Rel SameConf (Py.forM ms initLayer : Py (Opt α) Unit)
  | [] => fun _ => ⟨rfl, rfl, rfl, rfl, rfl⟩
  | m :: ms => Py.Rel.bind (fun _ _ _ h h' => ⟨h'.1.trans h.1, h'.2.1.trans h.2.1, h'.2.2.1.trans h.2.2.1, h'.2.2.2.1.trans h.2.2.2.1,
      h'.2.2.2.2.trans h.2.2.2.2⟩) (initLayer_conf m) fun _ => initAll_conf ms

theorem init_eq (structs : String → Option Cls) (model : Model) (p : ParamArg α) (a : Args α) :
    (Construct.init structs model p a).map Prod.fst = (groupsOf model p a).bind fun gs =>
      Construct.initBuffers (Construct.hooked model.layers gs) (Construct.blank structs model.layers gs a.initGradScale) := by
  unfold Construct.init groupsOf
  split
  · rfl
  · rcases Construct.validate a with e | u
    · rfl
    simp only [bind, Except.bind]
    rcases Construct.torchInit (Construct.defaults a) (Construct.groupArgs model.layers a.warnUnsupported p).1 with e | gs
    · rfl
    simp only
    rcases Construct.checkGroups 0 gs with e | cg
    · rfl
    simp only
    rcases Construct.checkLayers model.layers cg.1 with e | u
    · rfl
    simp only [pure, Except.pure]
    rcases Construct.initBuffers (Construct.hooked model.layers cg.1) (Construct.blank structs model.layers cg.1 a.initGradScale) with e | o
    · rfl
    · rfl

/-- a constructor that returns -/
theorem construct_ok {structs : String → Option Cls} {model : Model} {p : ParamArg α} {a : Args α} {s : State α}
    (h : (construct structs model p a s).1 = .ok ()) : ∃ o ws, Construct.init structs model p a = .ok (o, ws) ∧
      (construct structs model p a s).2 = { s with slots := s.slots ++ [⟨o, true, true⟩] } := by
  have e := init_eq structs model p a
  unfold construct at h ⊢
  rcases hg : groupsOf model p a with er | gs
  · rw [hg] at h; cases h
  · rw [hg] at h e
    simp only at h ⊢
    have r := initAll_run (Construct.hooked model.layers gs) (Construct.blank structs model.layers gs a.initGradScale)
    simp only [Except.bind] at e
    rcases hb : Construct.initBuffers (Construct.hooked model.layers gs) (Construct.blank structs model.layers gs a.initGradScale) with er | o
    · rw [r.2 er hb] at h; cases h
    · rw [hb] at e
      rw [r.1 o hb]
      rcases hi : Construct.init structs model p a with er | ⟨o', ws⟩
      · rw [hi] at e; cases e
      · rw [hi] at e
        cases e
        exact ⟨_, ws, rfl, rfl⟩

/-- a constructor that raises -/
theorem construct_error {structs : String → Option Cls} {model : Model} {p : ParamArg α} {a : Args α} {s : State α} {e : PyErr} :
    ((construct structs model p a s).1 = .error e ↔ Construct.init structs model p a = .error e) ∧
    ((construct structs model p a s).1 = .error e → (groupsOf model p a = .error e ∧ (construct structs model p a s).2 = s) ∨
      ∃ gs o, groupsOf model p a = .ok gs ∧ SameConf (Construct.blank structs model.layers gs a.initGradScale) o ∧
        (construct structs model p a s).2 = { s with slots := s.slots ++ [⟨o, false, true⟩] }) := by
  have q := init_eq structs model p a
  unfold construct
  rcases hg : groupsOf model p a with er | gs
  · rw [hg] at q
    simp only [Except.bind] at q
    refine ⟨?_, fun h => ?_⟩
    · rcases hi : Construct.init structs model p a with e' | o
      · rw [hi] at q; cases q; simp
      · rw [hi] at q; cases q
    · cases h; exact Or.inl ⟨rfl, rfl⟩
  · rw [hg] at q
    simp only [Except.bind] at q ⊢
    have r := initAll_run (Construct.hooked model.layers gs) (Construct.blank structs model.layers gs a.initGradScale)
    have c := initAll_conf (Construct.hooked model.layers gs) (Construct.blank structs model.layers gs a.initGradScale)
    rcases hb : Construct.initBuffers (Construct.hooked model.layers gs) (Construct.blank structs model.layers gs a.initGradScale) with er | o
    · rw [hb] at q
      have r := r.2 er hb
      rcases hi : Construct.init structs model p a with e' | o
      · rw [hi] at q; cases q
        rw [r]
        refine ⟨by simp, fun h => Or.inr ⟨gs, _, rfl, c, rfl⟩⟩
      · rw [hi] at q; cases q
    · rw [hb] at q
      rw [r.1 o hb]
      rcases hi : Construct.init structs model p a with e' | o
      · rw [hi] at q; cases q
      · exact ⟨by simp, fun h => by cases h⟩

/-! ### All operations -/

theorem mexec_valid {s : State α} (hv : Valid s) (op : Op' α) : Valid (mexec op s).2 := by
  have sw : ∀ {s' : State α}, s'.slots.length = s.slots.length → s'.outs = s.outs → Valid s' := fun h1 h2 o ho => by
    rw [h2] at ho; rw [h1]; exact hv o ho
  cases op with
  | construct structs model p a =>
    have : ∀ l : List (Slot α), Valid { s with slots := s.slots ++ l } := fun l o ho => ⟨(hv o ho).1, fun k hk => by
      have := (hv o ho).2 k hk; simp only [List.length_append]; omega⟩
    show Valid (construct structs model p a s).2
    unfold construct
    split
    · exact hv
    · exact this _
  | forward m x ge =>
    show Valid (match fire m x ge s.data s.grad 0 s.slots with | .error e => (.error e, s) | .ok r => (.ok (), { s with outs := s.outs ++ [⟨m, x, r⟩] }) : Except PyErr Unit × State α).2
    rcases hf : fire m x ge s.data s.grad 0 s.slots with e | r
    · exact hv
    · intro o ho
      rcases List.mem_append.1 ho with ho | ho
      · exact hv o ho
      · rw [List.mem_singleton.1 ho]
        refine ⟨(fire_ok hf).1, fun k hk => ?_⟩
        simpa using fire_lt hf k hk
  | backward k g =>
    show Valid (match s.outs[k]? with | none => (.ok (), s) | some o => Py.forM o.regs (tensorHook o g) s : Except PyErr Unit × State α).2
    rcases ho : s.outs[k]? with _ | o
    · exact hv
    · have h := backward_saw s.slots.length 0 (o := o) g o.regs (s := s) fun hi => absurd ((hv o (List.mem_of_getElem? ho)).2 _ hi) (by simp)
      exact sw h.1 h.2.1
  | setGrad p G => exact sw rfl rfl
  | setParam p M => exact sw rfl rfl
  | setHyper j i h => have h := own_saw 0 j (Own.setHyper i h) s; exact sw h.1 h.2.1
  | setScale j c => have h := own_saw 0 j (Own.setScale c) s; exact sw h.1 h.2.1
  | step j c a f => have h := own_saw 0 j (Own.step c a f) s; exact sw h.1 h.2.1
  | detach j => exact sw (by simp [mexec, Py.modify, detach]) rfl

theorem Saw.slot {i : ℕ} {ops : List (Op α)} {s s' : State α} (h : Saw i ops s s') {sl : Slot α} (e : s.slots[i]? = some sl) (r : sl.ready = true) :
    ∃ sl', s'.slots[i]? = some sl' ∧ sl'.ready = true ∧ s'.world i sl' = run ops (s.world i sl) := by
  obtain ⟨sl', a, b, _, c⟩ := h.2.2.2 sl e r
  exact ⟨sl', a, b, c⟩

theorem idxOf_get {ms : List Layer} {m : Layer} (h : m ∈ ms) : ms[ms.idxOf m]? = some m := by
  rw [List.getElem?_eq_getElem (List.idxOf_lt_length_iff.2 h), List.getElem_idxOf]

theorem mexec_seen {s : State α} {i : ℕ} {sl : Slot α} (e : s.slots[i]? = some sl) (r : sl.ready = true) (op : Op' α) :
    ∃ sl', (mexec op s).2.slots[i]? = some sl' ∧ sl'.ready = true ∧ (mexec op s).2.world i sl' = run (seen i op s) (s.world i sl) := by
  have hi : i < s.slots.length := (List.getElem?_eq_some_iff.1 e).1
  cases op with
  | construct structs model p a =>
    refine ⟨sl, ?_, r, ?_⟩
    all_goals
      show _ = _
      simp only [mexec, construct]
      split
      · first | exact e | rfl
      · first | (rw [List.getElem?_append_left hi]; exact e) | rfl
  | forward m x ge =>
    simp only [mexec, seen]
    rw [e]
    rcases hf : fire m x ge s.data s.grad 0 s.slots with er | rg
    · exact ⟨sl, e, r, rfl⟩
    · refine ⟨sl, e, r, ?_⟩
      obtain ⟨_, _, c⟩ := fire_ok hf
      obtain ⟨c1, c2⟩ := c i sl e
      rw [zero_add] at c1
      have hk : State.hooksOf ({ s with outs := s.outs ++ [⟨m, x, rg⟩] } : State α) i = s.hooksOf i ++ if rg.contains i then [(m, x)] else [] := by
        unfold State.hooksOf
        rw [List.filter_append, List.map_append]
        congr 1
        by_cases hr : rg.contains i = true
        · rw [List.filter_cons_of_pos (by exact hr), if_pos hr]; rfl
        · rw [List.filter_cons_of_neg (by exact hr), if_neg hr]; rfl
      show World.mk _ _ _ _ = _
      rw [hk]
      dsimp only
      by_cases hw : sl.watches m
      · rw [if_pos hw]
        show _ = (exec (.forward (sl.opt.layers.idxOf m) x ge) (s.world i sl)).2
        rw [exec, Py.get_bind_run, show (s.world i sl).opt.layers[sl.opt.layers.idxOf m]? = some m from idxOf_get hw.2]
        show _ = (World.forwardHook m x ge (s.world i sl)).2
        obtain ⟨v, hv⟩ := c2 hw (s.hooksOf i)
        rcases forwardHook_run m x ge (s.world i sl) with ⟨er, he⟩ | ⟨hn, he⟩ | ⟨hr, he⟩
        · rw [show (⟨sl.opt, s.data, s.grad, s.hooksOf i⟩ : World α) = s.world i sl from rfl, he] at hv; cases hv
        · rw [he, if_neg, List.append_nil]
          · rfl
          · intro hc
            exact hn (c1.1 (by simpa using hc)).2
        · rw [he, if_pos]
          · rfl
          · simpa using c1.2 ⟨hw, hr⟩
      · rw [if_neg hw, if_neg, List.append_nil]
        · rfl
        · intro hc
          exact hw (c1.1 (by simpa using hc)).1
  | backward k g =>
    simp only [mexec, seen]
    rcases ho : s.outs[k]? with _ | o
    · exact ⟨sl, e, r, rfl⟩
    · refine (backward_saw i _ g o.regs fun hi => ?_).slot e r
      have := filter_take_countP (fun o : Out α => o.regs.contains i) s.outs k o ho (by simpa using hi)
      rw [State.hooksOf, List.getElem?_map, this]; rfl
  | setGrad p G => exact ⟨sl, e, r, rfl⟩
  | setParam p M => exact ⟨sl, e, r, rfl⟩
  | setHyper j q h => exact (own_saw' i j (Own.setHyper q h) s fun w => rfl).slot e r
  | setScale j c => exact (own_saw' i j (Own.setScale c) s fun w => by rw [exec, World.setScale_state]).slot e r
  | step j c a f => exact (own_saw i j (Own.step c a f) s).slot e r
  | detach j =>
    simp only [mexec, seen, Py.modify, detach]
    by_cases hj : j = i
    · subst hj
      exact ⟨{ sl with attached := false }, by rw [List.getElem?_modify_eq, e]; simp [r], r, rfl⟩
    · exact ⟨sl, by simp [hj, e], r, rfl⟩

/-- optimizers without a reference stay as they are -/
theorem mexec_half {s : State α} {i : ℕ} {sl : Slot α} (e : s.slots[i]? = some sl) (r : sl.ready = false) (op : Op' α) :
    (mexec op s).2.slots[i]? = some sl := by
  have hi : i < s.slots.length := (List.getElem?_eq_some_iff.1 e).1
  have own : ∀ (j : ℕ) (f : Py (World α) Unit) {s : State α}, s.slots[i]? = some sl → (onSlot j f s).2.slots[i]? = some sl := by
    intro j f s e
    by_cases hr : ∃ sl', s.slots[j]? = some sl' ∧ sl'.ready = true
    · obtain ⟨sl', e', r'⟩ := hr
      rw [onSlot_some e' r']
      have : j ≠ i := by
        rintro rfl
        rw [e] at e'; cases e'
        rw [r] at r'; cases r'
      show (s.slots.set j _)[i]? = _
      rw [List.getElem?_set_ne this, e]
    · rw [onSlot_none fun sl' e' => by by_contra hc; exact hr ⟨sl', e', by simpa using hc⟩]
      exact e
  have hks : ∀ (o : Out α) (g : ND α) (ks : List ℕ) {s : State α}, s.slots[i]? = some sl → (Py.forM ks (tensorHook o g) s).2.slots[i]? = some sl := by
    intro o g ks
    induction ks with
    | nil => exact fun e => e
    | cons k ks ih =>
      intro s e
      have h1 := own k (World.accumulateH o.layer o.x g) e
      rw [← tensorHook_eq] at h1
      rw [Py.forM, Py.bind_run]
      rcases ht : tensorHook o g k s with ⟨rr, s'⟩
      rw [ht] at h1
      rcases rr with er | u
      · exact h1
      · exact ih h1
  cases op with
  | construct structs model p a =>
    simp only [mexec, construct]
    split
    · exact e
    · rw [List.getElem?_append_left hi]; exact e
  | forward m x ge =>
    simp only [mexec]
    split <;> exact e
  | backward k g =>
    simp only [mexec]
    split
    · exact e
    · exact hks _ _ _ e
  | setGrad p G => exact e
  | setParam p M => exact e
  | setHyper j q h => exact own j _ e
  | setScale j c => exact own j _ e
  | step j c a f => exact own j _ e
  | detach j =>
    simp only [mexec, Py.modify, detach]
    by_cases hj : j = i
    · subst hj
      rw [List.getElem?_modify_eq, e]; simp [r]
    · simp [hj, e]
end Multi
