import Verif.Model.Address
import Verif.Props.AddGroup

/-! C75: parameters are recognised by the address of their data. -/

set_option linter.unusedSectionVars false
open IOProof
variable {α : Type} [Field α] [LinearOrder α] [HasSqrt α]

/-- `A` differs from `B` by the map from parameters to groups, which is the same for the weights of all layers -/
structure Looks (A B : World α) : Prop where
  eq : A = { B with opt := { B.opt with ptrGroup := A.opt.ptrGroup } }
  same : ∀ m ∈ B.opt.layers, A.opt.ptrGroup m.weight.ptr = B.opt.ptrGroup m.weight.ptr
  hooks : ∀ x ∈ B.hooks, x.1 ∈ B.opt.layers

namespace Looks
variable {A B A' B' : World α}

theorem hyper (g : Looks A B) {m : Layer} (hm : m ∈ B.opt.layers) : A.opt.hyperOf m = B.opt.hyperOf m := by
  have hp : A.opt.groups = B.opt.groups := by rw [g.eq]
  unfold Opt.hyperOf lookup
  rw [g.same m hm, hp]

theorem agree (g : Looks A B) : AgreeOn B.opt.layers A B := by
  have e := g.eq
  constructor
  · exact fun m hm => g.hyper hm
  all_goals (rw [e]; try (intros; rfl))

theorem layers (g : Looks A B) : A.opt.layers = B.opt.layers := by rw [g.eq]
theorem hooksEq (g : Looks A B) : A.hooks = B.hooks := by rw [g.eq]

theorem of_frames (g : Looks A B) {N S : String → Prop} {P : ℕ → Prop} (f : Frame N S P A A') (f' : Frame N S P B B')
    (hN : ∀ n, N n → ∃ m ∈ B.opt.layers, n = m.name) (hS : ∀ n, S n → ∃ m ∈ B.opt.layers, n = m.name)
    (hP : ∀ p, P p → ∃ m ∈ B.opt.layers, World.Owns m p) (r : AgreeOn B.opt.layers A' B') : Looks A' B' := by
  have e := g.eq
  have byN : ∀ (F : World α → String → Option (SM α)), (∀ m ∈ B.opt.layers, F A' m.name = F B' m.name) →
      (∀ n, ¬ N n → F A' n = F A n) → (∀ n, ¬ N n → F B' n = F B n) → F A = F B → F A' = F B' := by
    intro F h1 h2 h3 h4
    funext n
    by_cases hn : N n
    · obtain ⟨m, hm, rfl⟩ := hN n hn; exact h1 m hm
    · rw [h2 n hn, h3 n hn, h4]
  have byS : ∀ (F : World α → String → Option (SM α)), (∀ m ∈ B.opt.layers, F A' m.name = F B' m.name) →
      (∀ n, ¬ S n → F A' n = F A n) → (∀ n, ¬ S n → F B' n = F B n) → F A = F B → F A' = F B' := by
    intro F h1 h2 h3 h4
    funext n
    by_cases hn : S n
    · obtain ⟨m, hm, rfl⟩ := hS n hn; exact h1 m hm
    · rw [h2 n hn, h3 n hn, h4]
  have byP : ∀ {β : Type} (F : World α → ℕ → β), (∀ m ∈ B.opt.layers, ∀ p, World.Owns m p → F A' p = F B' p) →
      (∀ p, ¬ P p → F A' p = F A p) → (∀ p, ¬ P p → F B' p = F B p) → F A = F B → F A' = F B' := by
    intro β F h1 h2 h3 h4
    funext n
    by_cases hn : P n
    · obtain ⟨m, hm, ho⟩ := hP n hn; exact h1 m hm n ho
    · rw [h2 n hn, h3 n hn, h4]
  have k1 := byN (fun w => w.opt.Ks) r.Ks f.Ks f'.Ks (by rw [e])
  have k2 := byN (fun w => w.opt.Cs) r.Cs f.Cs f'.Cs (by rw [e])
  have k3 := byN (fun w => w.opt.mKs) r.mKs f.mKs f'.mKs (by rw [e])
  have k4 := byN (fun w => w.opt.mCs) r.mCs f.mCs f'.mCs (by rw [e])
  have k5 := byS (fun w => w.opt.HKs) r.HKs f.HKs f'.HKs (by rw [e])
  have k6 := byS (fun w => w.opt.HCs) r.HCs f.HCs f'.HCs (by rw [e])
  have k7 := byP (fun w => w.opt.mom) r.mom f.mom f'.mom (by rw [e])
  have k8 := byP (fun w => w.data) r.data f.data f'.data (by rw [e])
  have k9 : A'.grad = B'.grad := by rw [f.grad, f'.grad, e]
  have k10 : A'.hooks = B'.hooks := by rw [f.hooks, f'.hooks, e]
  have k11 : A'.opt.structs = B'.opt.structs := by rw [f.structs, f'.structs, e]
  have k12 : A'.opt.layers = B'.opt.layers := by rw [f.layers, f'.layers, e]
  have k13 : A'.opt.groups = B'.opt.groups := by rw [f.groups, f'.groups, e]
  have k14 := r.steps
  have k15 := r.scales
  refine ⟨?_, ?_, ?_⟩
  · obtain ⟨⟨a1, a2, a3, a4, a5, a6, a7, a8, a9, a10, a11, a12, a13⟩, a14, a15, a16⟩ := A'
    obtain ⟨⟨b1, b2, b3, b4, b5, b6, b7, b8, b9, b10, b11, b12, b13⟩, b14, b15, b16⟩ := B'
    simp only at k1 k2 k3 k4 k5 k6 k7 k8 k9 k10 k11 k12 k13 k14 k15
    subst k1 k2 k3 k4 k5 k6 k7 k8 k9 k10 k11 k12 k13 k14 k15
    rfl
  · rw [f'.layers, f.ptrGroup, f'.ptrGroup]; exact g.same
  · rw [f'.hooks, f'.layers]; exact g.hooks

end Looks

theorem Looks.layerStep {A B : World α} (g : Looks A B) {m : Layer} (hm : m ∈ B.opt.layers) :
    (World.layerStep m A).1 = (World.layerStep m B).1 ∧ Looks (World.layerStep m A).2 (World.layerStep m B).2 := by
  obtain ⟨e, r⟩ := World.layerStep_sub hm A B g.agree
  refine ⟨e, g.of_frames ((World.layerStep_frame m A).mono (N' := (· = m.name)) (S' := (· = m.name)) (fun _ h => h.1) (fun _ h => h.1) fun _ h => h)
    ((World.layerStep_frame m B).mono (fun _ h => h.1) (fun _ h => h.1) fun _ h => h) ?_ ?_ ?_ r⟩
  · rintro n rfl; exact ⟨m, hm, rfl⟩
  · rintro n rfl; exact ⟨m, hm, rfl⟩
  · exact fun p hp => ⟨m, hm, hp⟩

theorem Looks.setScale (s : α) : Same2 (Looks (α := α)) (Opt.setScale s) (Opt.setScale s) := by
  unfold Opt.setScale
  refine Same2.bind (Same2.modify fun A B r => ?_) fun _ => Same2.get_bind fun A B r => ?_
  · refine ⟨?_, r.same, r.hooks⟩
    rw [r.eq]
  · have e : A.opt.steps = B.opt.steps := by rw [r.eq]
    have e' : ∀ t, A.opt.scale t = B.opt.scale t := fun t => by rw [Opt.scale, Opt.scale, r.eq]
    rw [e, e']
    split
    · exact Same2.bind (Same2.lift _) fun _ => by rw [e']; exact Same2.bind (Same2.lift _) fun _ => Same2.pure _
    · exact Same2.pure _

theorem Looks.ensureScale (attr : Option α) : Same2 (Looks (α := α)) (World.ensureScale attr) (World.ensureScale attr) := by
  unfold World.ensureScale
  refine Same2.get_bind fun A B r => ?_
  rw [show A.opt.steps = B.opt.steps by rw [r.eq], show A.opt.scales = B.opt.scales by rw [r.eq]]
  rcases B.opt.scales B.opt.steps with _ | s
  · exact Looks.setScale _
  · exact Same2.pure _

theorem Looks.forM {L : List Layer} : ∀ (ms : List Layer), (∀ m ∈ ms, m ∈ L) →
    Same2 (fun A B : World α => Looks A B ∧ B.opt.layers = L) (Py.forM ms World.layerStep) (Py.forM ms World.layerStep) := by
  intro ms hms
  refine Same2.forM fun m hm A B r => ?_
  obtain ⟨g, e⟩ := r
  obtain ⟨h1, h2⟩ := g.layerStep (m := m) (by rw [e]; exact hms m hm)
  exact ⟨h1, h2, by rw [(World.layerStep_frame m B).layers, e]⟩

theorem Looks.stepBody (f : Bool) : Same2 (Looks (α := α)) (World.stepBody f) (World.stepBody f) := by
  intro A B g
  unfold World.stepBody
  cases f with
  | true =>
    rw [if_pos rfl, World.dropStats_run, World.dropStats_run]
    refine ⟨rfl, ?_, g.same, g.hooks⟩
    rw [g.eq]
  | false =>
    rw [if_neg (by simp), World.innerStep, Py.get_bind_run, Py.get_bind_run, g.layers]
    obtain ⟨h1, h2, _⟩ := Looks.forM (α := α) (L := B.opt.layers) B.opt.layers (fun m hm => hm) A B ⟨g, rfl⟩
    exact ⟨h1, h2⟩

theorem Looks.forwardHook {A B : World α} (g : Looks A B) {m : Layer} (hm : m ∈ B.opt.layers) (x : ND α) (ge : Bool) :
    (World.forwardHook m x ge A).1 = (World.forwardHook m x ge B).1 ∧ Looks (World.forwardHook m x ge A).2 (World.forwardHook m x ge B).2 := by
  rw [World.forwardHook, Py.get_bind_run, Py.get_bind_run, g.hyper hm, show A.opt.steps = B.opt.steps by rw [g.eq]]
  rcases B.opt.hyperOf m with e | h
  · exact ⟨rfl, g⟩
  · rw [Py.lift_ok_bind_run, Py.lift_ok_bind_run]
    split
    · split
      · exact ⟨rfl, g⟩
      · split
        · refine ⟨rfl, ?_, g.same, ?_⟩
          · show World.mk A.opt A.data A.grad (A.hooks ++ [(m, x)]) = _
            rw [g.eq]; rfl
          · intro y hy
            rcases List.mem_append.1 hy with hy | hy
            · exact g.hooks y hy
            · simp only [List.mem_singleton] at hy; subst hy; exact hm
        · exact ⟨rfl, g⟩
    · exact ⟨rfl, g⟩

theorem Looks.accumulateH {A B : World α} (g : Looks A B) {m : Layer} (hm : m ∈ B.opt.layers) (x y : ND α) :
    (World.accumulateH m x y A).1 = (World.accumulateH m x y B).1 ∧ Looks (World.accumulateH m x y A).2 (World.accumulateH m x y B).2 := by
  obtain ⟨e, r⟩ := World.accumulateH_sub hm x y A B g.agree
  refine ⟨e, g.of_frames (World.accumulateH_frame m x y A) (World.accumulateH_frame m x y B) (fun _ => False.elim) ?_ (fun _ => False.elim) r⟩
  rintro n rfl; exact ⟨m, hm, rfl⟩

/-- every operation does the same with and without the further groups -/
theorem Looks.exec (op : Op α) : Same2 (Looks (α := α)) (_root_.exec op) (_root_.exec op) := by
  cases op with
  | forward i x ge =>
    intro A B g
    rw [_root_.exec, Py.get_bind_run, Py.get_bind_run, g.layers]
    rcases hi : B.opt.layers[i]? with _ | m
    · exact ⟨rfl, g⟩
    · exact g.forwardHook (List.mem_of_getElem? hi) x ge
  | backward i x =>
    intro A B g
    rw [_root_.exec, Py.get_bind_run, Py.get_bind_run, g.hooksEq]
    rcases hi : B.hooks[i]? with _ | m
    · exact ⟨rfl, g⟩
    · exact g.accumulateH (g.hooks m (List.mem_of_getElem? hi)) m.2 x
  | setGrad p G => exact Same2.modify fun A B r => ⟨by rw [r.eq], r.same, r.hooks⟩
  | setParam p M => exact Same2.modify fun A B r => ⟨by rw [r.eq], r.same, r.hooks⟩
  | setHyper i h =>
    exact Same2.modify fun A B r => ⟨by rw [r.eq], r.same, r.hooks⟩
  | setScale s => exact Looks.setScale s
  | step c a f =>
    rw [_root_.exec, World.step]
    split
    · exact Same2.raise _
    · refine Same2.bind (Looks.ensureScale a) fun _ => Same2.bind (Looks.stepBody f) fun _ => Same2.bind (Same2.modify fun A B r => ?_) fun _ =>
        Same2.modify fun A B r => ?_
      · exact ⟨by rw [r.eq], r.same, r.hooks⟩
      · exact ⟨by rw [r.eq]; rfl, r.same, r.hooks⟩

/-! ### Moves -/

/-- a newly constructed optimizer for parameters at the addresses `a.addr` -/
def Built (structs : String → Option Cls) (a : AWorld α) : Prop :=
  ∃ (model : Model) (p : ParamArg α) (args : Args α) (o : Opt α) (ws : List Warn) (data : ℕ → Mat α) (grad : ℕ → Option (Mat α)),
    (model.layers.map (·.name)).Nodup ∧ Construct.initAt structs model p args a.addr = .ok (o, ws) ∧ a.w = ⟨o, data, grad, []⟩

theorem withPtr_self {W : World α} {P Q : ℕ → Option ℕ} (h : W.opt.ptrGroup = P) : (W.withPtr Q).withPtr P = W := by
  subst h; rfl

theorem see_exec (o : Op α) (a : AWorld α) : (aexec (.op o) a).2.see = (exec o a.see).2 :=
  withPtr_self (Q := a.w.opt.ptrGroup) (exec_static o a.see).2.1

theorem aexec_ptr (op : AOp α) (a : AWorld α) : (aexec op a).2.w.opt.ptrGroup = a.w.opt.ptrGroup := by cases op <;> rfl

theorem aexec_layers (op : AOp α) (a : AWorld α) : (aexec op a).2.w.opt.layers = a.w.opt.layers := by
  cases op with
  | op o => exact (exec_static o a.see).1
  | move f => rfl

/-- moves that keep the group of every layer's weight -/
def Harmless (a : AWorld α) (ops : List (AOp α)) : Prop := ∀ f, AOp.move f ∈ ops → ∀ m ∈ a.w.opt.layers,
  a.w.opt.ptrGroup (f m.weight.ptr) = a.w.opt.ptrGroup (a.addr m.weight.ptr)

theorem looks_arun : ∀ (ops : List (AOp α)) (a b : AWorld α), b.w.opt.ptrGroup = a.w.opt.ptrGroup → b.w.opt.layers = a.w.opt.layers → Harmless a ops →
    ∀ {B : World α}, Looks b.see B → B.opt.layers = a.w.opt.layers →
    (∀ m ∈ a.w.opt.layers, B.opt.ptrGroup m.weight.ptr = a.w.opt.ptrGroup (a.addr m.weight.ptr)) →
    Looks (arun ops b).see (run (AOp.ops ops) B)
  | [], _, _, _, _, _, _, g, _, _ => g
  | .op o :: ops, a, b, hp, hl, hh, B, g, hB, hB' => by
    refine looks_arun ops a (aexec (.op o) b).2 ?_ ?_ (fun f hf => hh f (List.mem_cons_of_mem _ hf)) (B := (exec o B).2) ?_ ?_ ?_
    · rw [aexec_ptr, hp]
    · rw [aexec_layers, hl]
    · rw [see_exec]; exact (Looks.exec o _ _ g).2
    · rw [(exec_static o B).1, hB]
    · rw [(exec_static o B).2.1]; exact hB'
  | .move f :: ops, a, b, hp, hl, hh, B, g, hB, hB' => by
    refine looks_arun ops a (aexec (.move f) b).2 hp hl (fun f hf => hh f (List.mem_cons_of_mem _ hf)) (B := B) ?_ hB hB'
    refine ⟨?_, ?_, g.hooks⟩
    · have e : (b.see.withPtr fun p => b.w.opt.ptrGroup (f p)) = B.withPtr fun p => b.w.opt.ptrGroup (f p) := by rw [g.eq]; rfl
      exact e
    · intro m hm
      rw [hB] at hm
      show b.w.opt.ptrGroup (f m.weight.ptr) = _
      rw [hp, hB' m hm]
      exact hh f (by simp) m hm

/-- **Moves that do not matter.** If every move leaves each layer's weight at an address of its group (for instance: only biases, buffers and other parameters move), then
every operation gives the same result and the same state as without moves. -/
theorem C75_history (a : AWorld α) (hk : ∀ x ∈ a.w.hooks, x.1 ∈ a.w.opt.layers) (ops : List (AOp α)) (hh : Harmless a ops) :
    (∀ o, (aexec (.op o) (arun ops a)).1 = (exec o (run (AOp.ops ops) a.see)).1) ∧
    (arun ops a).w = (run (AOp.ops ops) a.see).withPtr a.w.opt.ptrGroup := by
  have g := looks_arun ops a a rfl rfl hh (B := a.see) ⟨rfl, fun _ _ => rfl, hk⟩ rfl fun _ _ => rfl
  have hp : ∀ (ops : List (AOp α)) (b : AWorld α), (arun ops b).w.opt.ptrGroup = b.w.opt.ptrGroup := by
    intro ops
    induction ops with
    | nil => exact fun _ => rfl
    | cons op ops ih => exact fun b => (ih _).trans (aexec_ptr op b)
  refine ⟨fun o => (Looks.exec o _ _ g).1, ?_⟩
  have e := g.eq
  have e1 : (arun ops a).w = (arun ops a).see.withPtr (arun ops a).w.opt.ptrGroup := rfl
  rw [e1, e, hp]
  rfl

/-! ### Construction -/

section
omit [HasSqrt α]
open Construct

theorem ptrGroup_iff (gs : List (PGroup α)) (p i : ℕ) : Construct.ptrGroup gs p = some i ↔
    IsGreatest {i | ∃ g, gs[i]? = some g ∧ p ∈ g.params} i := by
  have hmem : ∀ j, j ∈ ((List.range gs.length).filter fun i => ((gs.map (·.params)).getD i []).contains p) ↔ ∃ g, gs[j]? = some g ∧ p ∈ g.params := by
    intro j
    rw [List.mem_filter, List.mem_range, List.getD_eq_getElem?_getD, List.getElem?_map]
    constructor
    · rintro ⟨hj, h⟩
      refine ⟨gs[j], List.getElem?_eq_getElem hj, ?_⟩
      rw [List.getElem?_eq_getElem hj] at h
      simpa using h
    · rintro ⟨g, hg, h⟩
      refine ⟨(List.getElem?_eq_some_iff.1 hg).1, ?_⟩
      rw [hg]
      simpa using h
  have hs : ((List.range gs.length).filter fun i => ((gs.map (·.params)).getD i []).contains p).Pairwise (· < ·) :=
    List.Pairwise.sublist List.filter_sublist List.pairwise_lt_range
  have hlast : ∀ j, Construct.ptrGroup gs p = some j → IsGreatest {i | ∃ g, gs[i]? = some g ∧ p ∈ g.params} j := by
    intro j hj
    refine ⟨(hmem j).1 (List.mem_of_getLast? hj), fun k hk => ?_⟩
    have hk' := (hmem k).2 hk
    unfold Construct.ptrGroup at hj
    obtain ⟨ys, hys⟩ := List.getLast?_eq_some_iff.1 hj
    rw [hys] at hk' hs
    rcases List.mem_append.1 hk' with h | h
    · exact le_of_lt ((List.pairwise_append.1 hs).2.2 k h j (by simp))
    · rw [List.mem_singleton] at h; exact h.le
  constructor
  · exact hlast i
  · intro h
    have hne : ((List.range gs.length).filter fun i => ((gs.map (·.params)).getD i []).contains p) ≠ [] := by
      intro e
      have := (hmem i).2 h.1
      rw [e] at this; cases this
    obtain ⟨x, hx⟩ : ∃ x, Construct.ptrGroup gs p = some x := by
      unfold Construct.ptrGroup
      rw [← Option.isSome_iff_exists, List.getLast?_isSome]
      exact hne
    rw [hx, (hlast x hx).unique h]

theorem located_mem (gs : List (PGroup α)) (addr : ℕ → ℕ) (q i : ℕ) : (∃ g, (gs.map (PGroup.located addr))[i]? = some g ∧ q ∈ g.params) ↔
    ∃ g, gs[i]? = some g ∧ ∃ p ∈ g.params, addr p = q := by
  rw [List.getElem?_map]
  rcases gs[i]? with _ | g
  · simp
  · simp [PGroup.located]

theorem mem_paramIds_located (gs : List (PGroup α)) (addr : ℕ → ℕ) (q : ℕ) :
    q ∈ paramIds (gs.map (PGroup.located addr)) ↔ ∃ g ∈ gs, ∃ p ∈ g.params, addr p = q := by
  simp [paramIds, PGroup.located]

theorem located_supported (addr : ℕ → ℕ) (m : Layer) : (m.located addr).supported = m.supported := rfl

theorem located_parameters (addr : ℕ → ℕ) (m : Layer) : (m.located addr).parameters = m.parameters.map (Param.located addr) := by
  unfold Layer.parameters
  rw [located_supported]
  split
  · rcases hb : m.bias with _ | b <;> simp [Layer.located, hb]
  · rfl

/-- what a successful construction gives -/
theorem initAt_ok {structs : String → Option Cls} {model : Model} {p : ParamArg α} {a : Args α} {addr : ℕ → ℕ} {o : Opt α} {ws : List Warn}
    (hn : (model.layers.map (·.name)).Nodup) (h : initAt structs model p a addr = .ok (o, ws)) :
    o.ptrGroup = ptrGroup (o.groups.map (PGroup.located addr)) ∧
    o.layers = (model.layers.filter fun m => m.supported && (m.located addr).parameters.any fun p => p.ptr ∈ paramIds (o.groups.map (PGroup.located addr))) ∧
    o.steps = 0 ∧ ∀ m ∈ o.layers, m.supported = true ∧ ∃ h, (o.see addr).hyperOf m = .ok h := by
  unfold initAt at h
  split at h
  · cases h
  · obtain ⟨_, hv, h⟩ := Except.bind_eq_ok h
    dsimp only at h
    obtain ⟨gs, hg, h⟩ := Except.bind_eq_ok h
    obtain ⟨⟨g, ws'⟩, hc, h⟩ := Except.bind_eq_ok h
    obtain ⟨_, hl, h⟩ := Except.bind_eq_ok h
    obtain ⟨o', hb, h⟩ := Except.bind_eq_ok h
    cases h
    obtain ⟨r, l, n⟩ := initBuffers_ok hb (hn.sublist (List.filter_sublist.map _)) (fun m hm => ⟨rfl, rfl⟩)
    have hg' : o'.groups = g := r.groups
    have hp : o'.ptrGroup = fun p => ptrGroup (g.map (PGroup.located addr)) (addr p) := r.ptrGroup
    dsimp only
    refine ⟨by rw [hg'], by rw [hg']; exact r.layers, r.steps, ?_⟩
    intro m hm
    have hm' : m ∈ o'.layers := hm
    rw [r.layers] at hm'
    obtain ⟨hs, hy, _, _, _, _, hh, _⟩ := l m hm'
    refine ⟨hs, hy, ?_⟩
    rw [← hh]
    unfold Opt.hyperOf Opt.see
    rw [hp]

/-- **Which layers are trained, and with which group.** A layer is hooked iff it is supported and one of its parameters is at the address of a listed one. Its hyper-parameters are
those of the *last* group with a parameter at the address of its weight. -/
theorem C75_construct {structs : String → Option Cls} {model : Model} {p : ParamArg α} {a : Args α} {addr : ℕ → ℕ} {o : Opt α} {ws : List Warn}
    (hn : (model.layers.map (·.name)).Nodup) (h : initAt structs model p a addr = .ok (o, ws)) :
    (∀ m, m ∈ o.layers ↔ m ∈ model.layers ∧ m.supported = true ∧ ∃ p ∈ m.parameters, ∃ g ∈ o.groups, ∃ q ∈ g.params, addr q = addr p.ptr) ∧
    ∀ m ∈ o.layers, ∃ (i : ℕ) (g : PGroup α), IsGreatest {i : ℕ | ∃ g : PGroup α, o.groups[i]? = some g ∧ ∃ q ∈ g.params, addr q = addr m.weight.ptr} i ∧ o.groups[i]? = some g ∧
      (o.see addr).hyperOf m = .ok g.h := by
  obtain ⟨hp, hl, _, hy⟩ := initAt_ok hn h
  refine ⟨fun m => ?_, fun m hm => ?_⟩
  · conv_lhs => rw [hl]
    rw [List.mem_filter, Bool.and_eq_true, List.any_eq_true, located_parameters]
    constructor
    · rintro ⟨h1, h2, p, hp, h3⟩
      obtain ⟨p', hp', rfl⟩ := List.mem_map.1 hp
      exact ⟨h1, h2, p', hp', (mem_paramIds_located _ _ _).1 (of_decide_eq_true h3)⟩
    · rintro ⟨h1, h2, p, hp, h3⟩
      exact ⟨h1, h2, p.located addr, List.mem_map_of_mem hp, decide_eq_true ((mem_paramIds_located _ _ _).2 h3)⟩
  · obtain ⟨_, x, hx⟩ := hy m hm
    obtain ⟨i, g, h1, h2, h3⟩ := hyperOf_ok hx
    refine ⟨i, g, ?_, h2, by rw [hx, h3]⟩
    have h1' : o.ptrGroup (addr m.weight.ptr) = some i := h1
    rw [hp, ptrGroup_iff] at h1'
    have : {i : ℕ | ∃ g : PGroup α, o.groups[i]? = some g ∧ ∃ q ∈ g.params, addr q = addr m.weight.ptr} =
        {i : ℕ | ∃ g : PGroup α, (o.groups.map (PGroup.located addr))[i]? = some g ∧ addr m.weight.ptr ∈ g.params} := by
      ext j
      exact (located_mem o.groups addr _ j).symm
    rw [this]
    exact h1'

/-- **Distinct addresses.** If different parameters are at different addresses, construction does what the model of C25, C44-C46, C54 says, which does not distinguish objects and addresses. -/
theorem C75_construct_distinct (structs : String → Option Cls) (model : Model) (p : ParamArg α) (a : Args α) {addr : ℕ → ℕ} (hi : Function.Injective addr) :
    (initAt structs model p a addr).map (fun r => (r.1.see addr, r.2)) = init structs model p a := by
  have h1 : ∀ (gs : List (PGroup α)) q, ptrGroup (gs.map (PGroup.located addr)) (addr q) = ptrGroup gs q := by
    intro gs q
    have key : ∀ i, ptrGroup (gs.map (PGroup.located addr)) (addr q) = some i ↔ ptrGroup gs q = some i := by
      intro i
      rw [ptrGroup_iff, ptrGroup_iff]
      have : {i : ℕ | ∃ g : PGroup α, (gs.map (PGroup.located addr))[i]? = some g ∧ addr q ∈ g.params} = {i : ℕ | ∃ g : PGroup α, gs[i]? = some g ∧ q ∈ g.params} := by
        ext j
        refine (located_mem gs addr _ j).trans ?_
        constructor
        · rintro ⟨g, hg, p, hp, e⟩; exact ⟨g, hg, hi e ▸ hp⟩
        · rintro ⟨g, hg, hp⟩; exact ⟨g, hg, q, hp, rfl⟩
      rw [this]
    exact Option.ext key
  have h2 : ∀ (gs : List (PGroup α)) q, addr q ∈ paramIds (gs.map (PGroup.located addr)) ↔ q ∈ paramIds gs := by
    intro gs q
    rw [mem_paramIds_located, paramIds, List.mem_flatMap]
    constructor
    · rintro ⟨g, hg, p, hp, e⟩; exact ⟨g, hg, hi e ▸ hp⟩
    · rintro ⟨g, hg, hp⟩; exact ⟨g, hg, q, hp, rfl⟩
  have h3 : ∀ (gs : List (PGroup α)), checkLayers (model.layers.map (Layer.located addr)) (gs.map (PGroup.located addr)) = checkLayers model.layers gs := by
    intro gs
    unfold checkLayers
    rw [List.all_map]
    congr 1
    congr 1
    congr 1
    funext m
    show (!(m.leaf && m.supported) || _) = (!(m.leaf && m.supported) || _)
    congr 1
    rw [decide_eq_decide, located_parameters]
    simp only [List.forall_mem_map]
    have e : ∀ p : Param, (p.located addr).ptr = addr p.ptr := fun _ => rfl
    simp only [e, h1, h2]
  have h4 : ∀ (gs : List (PGroup α)), (model.layers.filter fun m => m.supported && (m.located addr).parameters.any fun p => p.ptr ∈ paramIds (gs.map (PGroup.located addr))) =
      hooked model.layers gs := by
    intro gs
    unfold hooked
    congr 1
    funext m
    rw [located_parameters, List.any_map]
    congr 1
    congr 1
    funext p
    exact decide_eq_decide.2 (h2 gs p.ptr)
  have h5 : ∀ (gs : List (PGroup α)), (fun p => ptrGroup (gs.map (PGroup.located addr)) (addr p)) = ptrGroup gs := fun gs => funext (h1 gs)
  have h6 : ∀ (ms : List Layer) (o o' : Opt α), initBuffers ms o = .ok o' → o'.ptrGroup = o.ptrGroup := by
    intro ms
    induction ms with
    | nil => intro o o' e; cases e; rfl
    | cons m ms ih =>
      intro o o' e
      obtain ⟨o1, e1, e2⟩ := Except.bind_eq_ok e
      rw [ih o1 o' e2]
      unfold initLayer at e1
      obtain ⟨_, _, e1⟩ := Except.bind_eq_ok e1
      obtain ⟨_, _, e1⟩ := Except.bind_eq_ok e1
      obtain ⟨_, _, e1⟩ := Except.bind_eq_ok e1
      obtain ⟨_, _, e1⟩ := Except.bind_eq_ok e1
      obtain ⟨_, _, e1⟩ := Except.bind_eq_ok e1
      obtain ⟨_, _, e1⟩ := Except.bind_eq_ok e1
      dsimp only at e1
      split at e1
      · obtain ⟨_, _, e1⟩ := Except.bind_eq_ok e1
        obtain ⟨_, _, e1⟩ := Except.bind_eq_ok e1
        cases e1; rfl
      · cases e1; rfl
  unfold initAt init
  split
  · rfl
  · rcases validate a with e | u
    · rfl
    rw [Except.bind_ok', Except.bind_ok']
    dsimp only
    rcases torchInit (defaults a) (groupArgs model.layers a.warnUnsupported p).1 with e | gs
    · rfl
    rw [Except.bind_ok', Except.bind_ok']
    rcases checkGroups 0 gs with e | cg
    · rfl
    rw [Except.bind_ok', Except.bind_ok', h3]
    rcases checkLayers model.layers cg.1 with e | u
    · rfl
    rw [Except.bind_ok', Except.bind_ok', h4, h5]
    have hb : ({ blank structs model.layers cg.1 a.initGradScale with layers := hooked model.layers cg.1, ptrGroup := ptrGroup cg.1 } : Opt α) =
      blank structs model.layers cg.1 a.initGradScale := rfl
    rw [hb]
    rcases ho : initBuffers (hooked model.layers cg.1) (blank structs model.layers cg.1 a.initGradScale) with e | o
    · rfl
    rw [Except.bind_ok', Except.bind_ok']
    show Except.ok (_, _) = Except.ok _
    have : (Opt.see { o with ptrGroup := ptrGroup (cg.1.map (PGroup.located addr)) } addr : Opt α) = o := by
      unfold Opt.see
      dsimp only
      rw [h5, show ptrGroup cg.1 = o.ptrGroup from (h6 _ _ _ ho).symm]
    rw [this]
end

theorem built_idx {structs : String → Option Cls} {a : AWorld α} (ha : Built structs a) {m : Layer} (hm : m ∈ a.w.opt.layers) :
    m.supported = true ∧ ∃ i, a.w.opt.ptrGroup (a.addr m.weight.ptr) = some i ∧ i < a.w.opt.groups.length := by
  obtain ⟨model, p, args, o, ws, data, grad, hn, hi, e⟩ := ha
  rw [e] at hm ⊢
  obtain ⟨_, _, _, hy⟩ := initAt_ok hn hi
  obtain ⟨hs, x, hx⟩ := hy m hm
  obtain ⟨i, g, h1, h2, _⟩ := hyperOf_ok hx
  exact ⟨hs, i, h1, (List.getElem?_eq_some_iff.1 h2).1⟩

/-- the forward hook of a layer whose weight is at an unknown address -/
theorem forwardHook_unknown {W : World α} {m : Layer} (hs : m.supported = true) (hp : W.opt.ptrGroup m.weight.ptr = none) (x : ND α) (ge : Bool) :
    World.forwardHook m x ge W = (.error .keyError, W) := by
  have : W.opt.hyperOf m = .error .keyError := by
    unfold Opt.hyperOf lookup
    rw [if_pos hs, hp]; rfl
  rw [World.forwardHook, Py.get_bind_run, this]
  rfl

theorem forwardHook_period {W : World α} {m : Layer} (hs : m.supported = true) {i : ℕ} (hp : W.opt.ptrGroup m.weight.ptr = some i) (x : ND α) :
    (W.opt.groups[i]? = none → (World.forwardHook m x true W).1 = .error .indexError) ∧
    ∀ g, W.opt.groups[i]? = some g → (g.h.T = 0 → (World.forwardHook m x true W).1 = .error .zeroDivisionError) ∧
      (g.h.T = 1 → (World.forwardHook m x true W).1 = .ok ()) := by
  refine ⟨fun hn => ?_, fun g hg => ⟨fun hT => ?_, fun hT => ?_⟩⟩
  · have : W.opt.hyperOf m = .error .indexError := by
      unfold Opt.hyperOf lookup
      rw [if_pos hs, hp]
      show (match W.opt.groups[i]? with | some g => Except.ok g.h | none => Except.error PyErr.indexError) = _
      rw [hn]
    rw [World.forwardHook, Py.get_bind_run, this]
    rfl
  all_goals
    have : W.opt.hyperOf m = .ok g.h := by
      unfold Opt.hyperOf lookup
      rw [if_pos hs, hp]
      show (match W.opt.groups[i]? with | some g => Except.ok g.h | none => Except.error PyErr.indexError) = _
      rw [hg]
    rw [World.forwardHook, Py.get_bind_run, this, Py.lift_ok_bind_run, hT]
  · rfl
  · simp only [Nat.mod_one]
    rfl

theorem ops_map : ∀ ops : List (Op α), AOp.ops (ops.map .op) = ops
  | [] => rfl
  | o :: ops => congrArg (o :: ·) (ops_map ops)

/-- **Exactly which moves matter.** Giving the parameters of a constructed optimizer new addresses (`model.to(...)`, `p.data = ...`) changes the result of no operation in any
later history iff every layer's weight is found in the same group as before. A weight at an unknown address, or at the former address of a parameter of another
group, is noticed by some history; biases never matter. -/
theorem C75_moves {structs : String → Option Cls} {a : AWorld α} (ha : Built structs a) (f : ℕ → ℕ) :
    (∀ (ops : List (Op α)) (o : Op α), (aexec (.op o) (arun (.move f :: ops.map .op) a)).1 = (aexec (.op o) (arun (ops.map .op) a)).1) ↔
    ∀ m ∈ a.w.opt.layers, a.w.opt.ptrGroup (f m.weight.ptr) = a.w.opt.ptrGroup (a.addr m.weight.ptr) := by
  have hk : ∀ x ∈ a.w.hooks, x.1 ∈ a.w.opt.layers := by
    obtain ⟨model, p, args, o, ws, data, grad, hn, hi, e⟩ := ha
    rw [e]; simp
  constructor
  · intro h m hm
    obtain ⟨hs, i, hi, hil⟩ := built_idx ha hm
    obtain ⟨k, hk⟩ := List.getElem?_of_mem hm
    obtain ⟨g, hg⟩ : ∃ g, a.w.opt.groups[i]? = some g := ⟨_, List.getElem?_eq_getElem hil⟩
    by_contra hne
    rw [hi] at hne
    -- set the period of group `i` to 0 and that of the group found after the move to 1
    obtain ⟨j, hj⟩ : ∃ j, j = (a.w.opt.ptrGroup (f m.weight.ptr)).getD (i + 1) := ⟨_, rfl⟩
    have hji : j ≠ i := by
      rcases hp : a.w.opt.ptrGroup (f m.weight.ptr) with _ | j'
      · rw [hj, hp]; simp
      · rw [hj, hp]; intro e; rw [hp] at hne; exact hne (congrArg some e)
    have key := h [.setHyper j { g.h with T := 1 }, .setHyper i { g.h with T := 0 }] (.forward k ⟨[], fun _ => 0⟩ true)
    let W : AWorld α → World α := fun b => (arun [.op (.setHyper j { g.h with T := 1 }), .op (.setHyper i { g.h with T := 0 })] b).see
    have hW : ∀ b : AWorld α, b.w = a.w → (aexec (.op (.forward k ⟨[], fun _ => 0⟩ true)) (arun [.op (.setHyper j { g.h with T := 1 }),
        .op (.setHyper i { g.h with T := 0 })] b)).1 = (World.forwardHook m ⟨[], fun _ => 0⟩ true (W b)).1 := by
      intro b hb
      have hl : (W b).opt.layers[k]? = some m := by show b.w.opt.layers[k]? = _; rw [hb]; exact hk
      show (exec (.forward k ⟨[], fun _ => 0⟩ true) (W b)).1 = _
      rw [exec, Py.get_bind_run, hl]
    have hgr : ∀ b : AWorld α, b.w = a.w → (W b).opt.groups = (a.w.opt.groups.modify j fun q => { q with h := { g.h with T := 1 } }).modify i
        fun q => { q with h := { g.h with T := 0 } } := by
      intro b hb; rw [← hb]; rfl
    replace key : (World.forwardHook m ⟨[], fun _ => 0⟩ true (W { a with addr := f })).1 = (World.forwardHook m ⟨[], fun _ => 0⟩ true (W a)).1 :=
      (hW { a with addr := f } rfl).symm.trans (key.trans (hW a rfl))
    have r1 : (World.forwardHook m ⟨[], fun _ => 0⟩ true (W a)).1 = .error .zeroDivisionError := by
      refine ((forwardHook_period hs (W := W a) (i := i) hi _).2 { g with h := { g.h with T := 0 } } ?_).1 rfl
      rw [hgr a rfl, List.getElem?_modify, List.getElem?_modify]
      simp [hji, hg]
    rw [r1] at key
    rcases hp : a.w.opt.ptrGroup (f m.weight.ptr) with _ | j'
    · rw [forwardHook_unknown hs (W := W { a with addr := f }) hp] at key
      cases key
    · rw [hp] at hj
      have hj' : j = j' := hj
      subst hj'
      have hper := forwardHook_period hs (W := W { a with addr := f }) (i := j) hp ⟨[], fun _ => 0⟩
      rcases hgj : a.w.opt.groups[j]? with _ | g'
      · rw [hper.1 (by rw [hgr { a with addr := f } rfl, List.getElem?_modify, List.getElem?_modify, hgj]; rfl)] at key
        cases key
      · rw [(hper.2 { g' with h := { g.h with T := 1 } } (by
          rw [hgr { a with addr := f } rfl, List.getElem?_modify, List.getElem?_modify, hgj]; simp [Ne.symm hji])).2 rfl] at key
        cases key
  · intro h ops o
    have h1 := (C75_history a hk (.move f :: ops.map .op) (by
      intro f' hf'
      rcases List.mem_cons.1 hf' with e | hf'
      · cases e; exact h
      · simp at hf')).1 o
    have h2 := (C75_history a hk (ops.map .op) (by intro f' hf'; simp at hf')).1 o
    rw [h1, h2]
    rfl

theorem hyperOf_unknown {W : World α} {m : Layer} (hs : m.supported = true) (hp : W.opt.ptrGroup m.weight.ptr = none) : W.opt.hyperOf m = .error .keyError := by
  unfold Opt.hyperOf lookup
  rw [if_pos hs, hp]; rfl

theorem layerStep_unknown {W : World α} {m : Layer} (hs : m.supported = true) (hp : W.opt.ptrGroup m.weight.ptr = none) :
    World.layerStep m W = (.error .keyError, W) := by
  have h := hyperOf_unknown hs hp
  have hu : World.updatePreconditioner m W = (.error .keyError, W) := by
    rw [World.updatePreconditioner, Py.get_bind_run, h]; rfl
  rw [World.layerStep, Py.bind_run, hu]

theorem forM_unknown {m : Layer} (hs : m.supported = true) (post : List Layer) : ∀ (pre : List Layer) (W : World α), W.opt.ptrGroup m.weight.ptr = none →
    (∃ e, (Py.forM (pre ++ m :: post) World.layerStep W).1 = .error e) ∧
    Frame (fun n => ∃ x ∈ pre, n = x.name) (fun n => ∃ x ∈ pre, n = x.name) (fun p => ∃ x ∈ pre, World.Owns x p) W (Py.forM (pre ++ m :: post) World.layerStep W).2
  | [], W, hp => by
    have h : Py.forM ([] ++ m :: post) World.layerStep W = (.error .keyError, W) := by
      rw [List.nil_append, Py.forM, Py.bind_run, layerStep_unknown hs hp]
    rw [h]
    exact ⟨⟨_, rfl⟩, Frame.refl W⟩
  | x :: pre, W, hp => by
    have hf := (World.layerStep_frame x W).mono (N' := fun n => ∃ y ∈ x :: pre, n = y.name) (S' := fun n => ∃ y ∈ x :: pre, n = y.name)
      (P' := fun p => ∃ y ∈ x :: pre, World.Owns y p) (fun n hn => ⟨x, by simp, hn.1⟩) (fun n hn => ⟨x, by simp, hn.1⟩) (fun p hp => ⟨x, by simp, hp⟩)
    rw [List.cons_append, Py.forM, Py.bind_run]
    rcases hx : World.layerStep x W with ⟨e | u, W1⟩ <;> rw [hx] at hf
    · exact ⟨⟨e, rfl⟩, hf⟩
    · obtain ⟨h1, h2⟩ := forM_unknown hs post pre W1 (by rw [hf.ptrGroup]; exact hp)
      refine ⟨h1, Frame.trans _ _ _ hf (h2.mono ?_ ?_ ?_)⟩
      all_goals
        rintro n ⟨y, hy, h⟩
        exact ⟨y, List.mem_cons_of_mem _ hy, h⟩

/-- **Unknown address.** Once the weight of a layer is at an address that no group had at construction: forward passes through the layer and backward passes
reaching it raise `KeyError` and change nothing; a step raises, does not advance the counter, and only touches the layers before this one. -/
theorem C75_unknown {a : AWorld α} {k : ℕ} {m : Layer} (hk : a.w.opt.layers[k]? = some m) (hs : m.supported = true)
    (hp : a.w.opt.ptrGroup (a.addr m.weight.ptr) = none) :
    (∀ x ge, aexec (.op (.forward k x ge)) a = (.error .keyError, a)) ∧
    (∀ i x g, a.w.hooks[i]? = some (m, x) → aexec (.op (.backward i g)) a = (.error .keyError, a)) ∧
    ∀ attr, ∃ e w', aexec (.op (.step false attr false)) a = (.error e, { a with w := w' }) ∧ w'.opt.steps = a.w.opt.steps ∧
      (∀ p, (∀ m' ∈ a.w.opt.layers.take k, p ≠ m'.weight.ptr ∧ ∀ b, m'.bias = some b → p ≠ b.ptr) → w'.data p = a.w.data p ∧ w'.opt.mom p = a.w.opt.mom p) ∧
      ∀ n, (∀ m' ∈ a.w.opt.layers.take k, n ≠ m'.name) → w'.opt.Ks n = a.w.opt.Ks n ∧ w'.opt.Cs n = a.w.opt.Cs n ∧ w'.opt.mKs n = a.w.opt.mKs n ∧
        w'.opt.mCs n = a.w.opt.mCs n ∧ w'.opt.HKs n = a.w.opt.HKs n ∧ w'.opt.HCs n = a.w.opt.HCs n := by
  have hk' : a.see.opt.layers[k]? = some m := hk
  refine ⟨fun x ge => ?_, fun i x g hi => ?_, fun attr => ?_⟩
  · have : exec (.forward k x ge) a.see = (.error .keyError, a.see) := by
      rw [exec, Py.get_bind_run, hk']
      exact forwardHook_unknown hs hp x ge
    show ((exec (.forward k x ge) a.see).1, { a with w := (exec (.forward k x ge) a.see).2.withPtr a.w.opt.ptrGroup }) = _
    rw [this]
    rfl
  · have hi' : a.see.hooks[i]? = some (m, x) := hi
    have : exec (.backward i g) a.see = (.error .keyError, a.see) := by
      rw [exec, Py.get_bind_run, hi']
      have hl : World.localH a.see.opt m x g = .error .keyError := by
        rw [World.localH, hyperOf_unknown (W := a.see) hs hp]; rfl
      show World.accumulateH m x g a.see = _
      rw [World.accumulateH, Py.get_bind_run, hl]
      rfl
    show ((exec (.backward i g) a.see).1, { a with w := (exec (.backward i g) a.see).2.withPtr a.w.opt.ptrGroup }) = _
    rw [this]
    rfl
  · have hl : a.see.opt.layers = a.see.opt.layers.take k ++ m :: a.see.opt.layers.drop (k + 1) := by
      obtain ⟨hkl, hkm⟩ := List.getElem?_eq_some_iff.1 hk'
      rw [← hkm, List.cons_getElem_drop_succ, List.take_append_drop]
    have hb := forM_unknown hs (a.see.opt.layers.drop (k + 1)) (a.see.opt.layers.take k) (World.withScale attr a.see) hp
    rw [← hl] at hb
    have hbody : World.stepBody false (World.withScale attr a.see) = Py.forM a.see.opt.layers World.layerStep (World.withScale attr a.see) := by
      rw [World.stepBody, if_neg (by simp), World.innerStep, Py.get_bind_run]; rfl
    rw [← hbody] at hb
    obtain ⟨⟨e, he⟩, hf⟩ := hb
    have hfin : ∃ e W', World.step false attr false a.see = (.error e, W') ∧
        Frame (fun n => ∃ x ∈ a.see.opt.layers.take k, n = x.name) (fun n => ∃ x ∈ a.see.opt.layers.take k, n = x.name)
          (fun p => ∃ x ∈ a.see.opt.layers.take k, World.Owns x p) (World.withScale attr a.see) W' := by
      rw [World.step, if_neg (by simp), Py.bind_run]
      have h1 := World.ensureScale_state attr a.see
      rcases hr : World.ensureScale attr a.see with ⟨e' | u, W1⟩ <;> rw [hr] at h1
      · exact ⟨e', W1, rfl, by rw [show W1 = _ from h1]; exact Frame.refl _⟩
      · have h2 : W1 = World.withScale attr a.see := h1
        subst h2
        refine ⟨e, _, ?_, hf⟩
        show (World.stepBody false >>= _) _ = _
        rw [Py.bind_run]
        rcases hb2 : World.stepBody false (World.withScale attr a.see) with ⟨e2 | u2, W2⟩
        · rw [hb2] at he; cases he; rfl
        · rw [hb2] at he; cases he
    obtain ⟨e', W', hst, hF⟩ := hfin
    refine ⟨e', W'.withPtr a.w.opt.ptrGroup, ?_, hF.steps, fun p hq => ?_, fun n hn => ?_⟩
    · show ((World.step false attr false a.see).1, { a with w := (World.step false attr false a.see).2.withPtr a.w.opt.ptrGroup }) = _
      rw [hst]
    · have hno : ¬ ∃ x ∈ a.see.opt.layers.take k, World.Owns x p := by
        rintro ⟨x, hx, h | ⟨b, hb, h⟩⟩
        · exact (hq x hx).1 h
        · exact (hq x hx).2 b hb h
      exact ⟨hF.data p hno, hF.mom p hno⟩
    · have hno : ¬ ∃ x ∈ a.see.opt.layers.take k, n = x.name := by
        rintro ⟨x, hx, h⟩
        exact hn x hx h
      exact ⟨hF.Ks n hno, hF.Cs n hno, hF.mKs n hno, hF.mCs n hno, hF.HKs n hno, hF.HCs n hno⟩

namespace Sample

/-- the optimizer for parameters at given addresses (a dummy if the construction fails) -/
def optAt (m : Model) (p : ParamArg ℚ) (a : Args ℚ) (addr : ℕ → ℕ) : Opt ℚ :=
  match Construct.initAt supportedStructures m p a addr with
  | .ok r => r.1
  | .error _ => Construct.blank supportedStructures [] [] 1

def aworld (m : Model) (p : ParamArg ℚ) (a : Args ℚ) (addr : ℕ → ℕ) : AWorld ℚ := ⟨{ world m p a with opt := optAt m p a addr, hooks := [] }, addr⟩

theorem built {m : Model} {p : ParamArg ℚ} {a : Args ℚ} {addr : ℕ → ℕ} (h : isOk (Construct.initAt supportedStructures m p a addr) = true)
    (hn : (m.layers.map (·.name)).Nodup) : Built supportedStructures (aworld m p a addr) := by
  have h' : ∃ ws, Construct.initAt supportedStructures m p a addr = .ok (optAt m p a addr, ws) := by
    unfold optAt
    rcases hx : Construct.initAt supportedStructures m p a addr with e | r
    · rw [hx] at h; simp [isOk] at h
    · exact ⟨r.2, rfl⟩
  obtain ⟨ws, e⟩ := h'
  exact ⟨m, p, a, _, ws, _, _, hn, e, rfl⟩

/-- two groups, the second with learning rate 0 -/
def frozenB : ParamArg ℚ := .groups [⟨[⟨0, true⟩, ⟨1, true⟩], id⟩, ⟨[⟨2, true⟩], fun h => { h with lr := 0 }⟩]
/-- parameters at the addresses 100, 200, 300, ... -/
def hundreds : ℕ → ℕ := fun p => 100 * (p + 1)
def af : AWorld ℚ := aworld model frozenB args hundreds
/-- the weights of both layers have exchanged their memory -/
def swapped : ℕ → ℕ := fun p => if p = 0 then 300 else if p = 2 then 100 else hundreds p
/-- a linear layer `1 → 1` without bias, whose weight is object 0 -/
def lc : Layer := ⟨"c", true, .linear, ⟨0, true⟩, none, 1, 1, []⟩
def modelC : Model := ⟨false, [lc, lb]⟩
/-- the weights of both layers begin at the same address -/
def same : ℕ → ℕ := fun p => if p = 2 then 100 else hundreds p

/-- the weights of `modelC` in two groups, the second with learning rate 0 -/
def frozenC : ParamArg ℚ := .groups [⟨[⟨0, true⟩], id⟩, ⟨[⟨2, true⟩], fun h => { h with lr := 0 }⟩]
/-- a forward-backward pass and a step -/
def turnA : List (AOp ℚ) := (pass ++ [Op.step false none false]).map .op

theorem af_built : Built supportedStructures af := built (by decide +kernel) (by decide)

end Sample

open Sample

/-- **The wrong group.** The first parameter group (layer `a`) has learning rate 1/2, the second (layer `b`) has 0. If the weights exchange their addresses before a forward-backward pass and a step,
no operation raises, layer `b` is changed and layer `a` is not. -/
theorem C75_swapped :
    ((List.range 5).map fun k => isOk (aexec (turnA.getD k (.move id)) (arun (.move swapped :: turnA.take k) af)).1) = [true, true, true, true, true] ∧
    ((arun (.move swapped :: turnA) af).w.data 0).toLists = (af.w.data 0).toLists ∧
    ((arun (.move swapped :: turnA) af).w.data 2).toLists ≠ (af.w.data 2).toLists ∧
    ((arun turnA af).w.data 0).toLists ≠ (af.w.data 0).toLists ∧
    ((arun turnA af).w.data 2).toLists = (af.w.data 2).toLists := by
  decide +kernel

/-- **Shared addresses.** Two different weights at the same address, in different groups: construction succeeds, and both layers use the later group. A weight at the address of a listed one is trained
although it was not handed over. -/
theorem C75_shared_address :
    isOk (Construct.initAt supportedStructures modelC frozenC args same) = true ∧
    (((optAt modelC frozenC args same).see same).hyperOf lc).toOption.map (·.lr) = some 0 ∧
    (((optAt modelC frozenC args hundreds).see hundreds).hyperOf lc).toOption.map (·.lr) = some (1 / 2) ∧
    isOk (Construct.initAt supportedStructures modelC (.flat [⟨0, true⟩]) args same) = true ∧
    (optAt modelC (.flat [⟨0, true⟩]) args same).layers.map (·.name) = ["c", "b"] ∧
    (optAt modelC (.flat [⟨0, true⟩]) args hundreds).layers.map (·.name) = ["c"] := by
  decide +kernel

/-- moves of the bias of `a` only -/
example : Harmless af [.op (.forward 0 (row [2]) true), .move fun p => if p = 1 then 999 else hundreds p, .op (.step false none false)] := by
  intro f hf m hm
  simp only [List.mem_cons, List.not_mem_nil, or_false, reduceCtorEq, AOp.move.injEq, false_or] at hf
  subst hf
  have : af.w.opt.layers = [la, lb] := by decide +kernel
  rw [this] at hm
  simp only [List.mem_cons, List.not_mem_nil, or_false] at hm
  rcases hm with rfl | rfl <;> decide +kernel

example : af.w.opt.layers = [la, lb] ∧ af.w.opt.ptrGroup 100 = some 0 ∧ af.w.opt.ptrGroup 200 = some 0 ∧ af.w.opt.ptrGroup 300 = some 1 ∧ af.w.opt.ptrGroup 0 = none := by decide +kernel
example : Built supportedStructures af := af_built
/-- after `model.half()`: new addresses -/
example : ({ af with addr := fun p => 1000 + p } : AWorld ℚ).w.opt.layers[1]? = some lb ∧ lb.supported = true ∧
    ({ af with addr := fun p => 1000 + p } : AWorld ℚ).w.opt.ptrGroup (1000 + lb.weight.ptr) = none := by decide +kernel
example : (model.layers.map (·.name)).Nodup ∧ isOk (Construct.initAt supportedStructures model frozenB args hundreds) = true ∧ Function.Injective hundreds :=
  ⟨by decide, by decide +kernel, fun a b h => by simpa [hundreds] using h⟩
