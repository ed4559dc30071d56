import Verif.Model.AddGroup
import Verif.Proofs.Opt.Sub
import Verif.Proofs.Opt.Groups
import Verif.Props.History

/-! C60: parameter groups added after the construction. -/

set_option linter.unusedSectionVars false
variable {α : Type} [Field α] [LinearOrder α] [HasSqrt α]

/-- `A` differs from `B` by further groups -/
structure Grown (A B : World α) : Prop where
  eq : A = { B with opt := { B.opt with groups := A.opt.groups } }
  more : ∃ ex, A.opt.groups = B.opt.groups ++ ex
  idx : ∀ m ∈ B.opt.layers, ∃ i, B.opt.ptrGroup m.weight.ptr = some i ∧ i < B.opt.groups.length
  hooks : ∀ x ∈ B.hooks, x.1 ∈ B.opt.layers

namespace Grown
variable {A B A' B' : World α}

theorem hyper (g : Grown A B) {m : Layer} (hm : m ∈ B.opt.layers) : A.opt.hyperOf m = B.opt.hyperOf m := by
  obtain ⟨ex, he⟩ := g.more
  obtain ⟨i, hi, hl⟩ := g.idx m hm
  have hp : A.opt.ptrGroup = B.opt.ptrGroup := by rw [g.eq]
  unfold Opt.hyperOf lookup
  rw [hp, hi, he]
  split
  · rw [Except.bind_ok', Except.bind_ok', List.getElem?_append_left hl]
  · rfl

theorem agree (g : Grown A B) : AgreeOn B.opt.layers A B := by
  have e := g.eq
  constructor
  · exact fun m hm => g.hyper hm
  all_goals (rw [e]; try (intros; rfl))

theorem layers (g : Grown A B) : A.opt.layers = B.opt.layers := by rw [g.eq]
theorem hooksEq (g : Grown A B) : A.hooks = B.hooks := by rw [g.eq]

theorem of_frames (g : Grown A B) {N S : String → Prop} {P : ℕ → Prop} (f : Frame N S P A A') (f' : Frame N S P B B')
    (hN : ∀ n, N n → ∃ m ∈ B.opt.layers, n = m.name) (hS : ∀ n, S n → ∃ m ∈ B.opt.layers, n = m.name)
    (hP : ∀ p, P p → ∃ m ∈ B.opt.layers, World.Owns m p) (r : AgreeOn B.opt.layers A' B') : Grown A' B' := by
  have e := g.eq
  have byN : ∀ (F : World α → String → Option (SM α)), (∀ m ∈ B.opt.layers, F A' m.name = F B' m.name) →
      (∀ n, ¬ N n → F A' n = F A n) → (∀ n, ¬ N n → F B' n = F B n) → F A = F B → F A' = F B' := by
    intro F h1 h2 h3 h4
    funext n
    by_cases hn : N n
    · obtain ⟨m, hm, rfl⟩ := hN n hn; exact h1 m hm
    · rw [h2 n hn, h3 n hn, h4]
  have byS : ∀ (F : World α → String → Option (SM α)), (∀ m ∈ B.opt.layers, F A' m.name = F B' m.name) →
      (∀ n, ¬ S n → F A' n = F A n) → (∀ n, ¬ S n → F B' n = F B n) → F A = F B → F A' = F B' := by
    intro F h1 h2 h3 h4
    funext n
    by_cases hn : S n
    · obtain ⟨m, hm, rfl⟩ := hS n hn; exact h1 m hm
    · rw [h2 n hn, h3 n hn, h4]
  have byP : ∀ {β : Type} (F : World α → ℕ → β), (∀ m ∈ B.opt.layers, ∀ p, World.Owns m p → F A' p = F B' p) →
      (∀ p, ¬ P p → F A' p = F A p) → (∀ p, ¬ P p → F B' p = F B p) → F A = F B → F A' = F B' := by
    intro β F h1 h2 h3 h4
    funext n
    by_cases hn : P n
    · obtain ⟨m, hm, ho⟩ := hP n hn; exact h1 m hm n ho
    · rw [h2 n hn, h3 n hn, h4]
  have k1 := byN (fun w => w.opt.Ks) r.Ks f.Ks f'.Ks (by rw [e])
  have k2 := byN (fun w => w.opt.Cs) r.Cs f.Cs f'.Cs (by rw [e])
  have k3 := byN (fun w => w.opt.mKs) r.mKs f.mKs f'.mKs (by rw [e])
  have k4 := byN (fun w => w.opt.mCs) r.mCs f.mCs f'.mCs (by rw [e])
  have k5 := byS (fun w => w.opt.HKs) r.HKs f.HKs f'.HKs (by rw [e])
  have k6 := byS (fun w => w.opt.HCs) r.HCs f.HCs f'.HCs (by rw [e])
  have k7 := byP (fun w => w.opt.mom) r.mom f.mom f'.mom (by rw [e])
  have k8 := byP (fun w => w.data) r.data f.data f'.data (by rw [e])
  have k9 : A'.grad = B'.grad := by rw [f.grad, f'.grad, e]
  have k10 : A'.hooks = B'.hooks := by rw [f.hooks, f'.hooks, e]
  have k11 : A'.opt.structs = B'.opt.structs := by rw [f.structs, f'.structs, e]
  have k12 : A'.opt.layers = B'.opt.layers := by rw [f.layers, f'.layers, e]
  have k13 : A'.opt.ptrGroup = B'.opt.ptrGroup := by rw [f.ptrGroup, f'.ptrGroup, e]
  have k14 := r.steps
  have k15 := r.scales
  refine ⟨?_, ?_, ?_, ?_⟩
  · obtain ⟨⟨a1, a2, a3, a4, a5, a6, a7, a8, a9, a10, a11, a12, a13⟩, a14, a15, a16⟩ := A'
    obtain ⟨⟨b1, b2, b3, b4, b5, b6, b7, b8, b9, b10, b11, b12, b13⟩, b14, b15, b16⟩ := B'
    simp only at k1 k2 k3 k4 k5 k6 k7 k8 k9 k10 k11 k12 k13 k14 k15
    subst k1 k2 k3 k4 k5 k6 k7 k8 k9 k10 k11 k12 k13 k14 k15
    rfl
  · rw [f.groups, f'.groups]; exact g.more
  · rw [f'.layers, f'.ptrGroup, f'.groups]; exact g.idx
  · rw [f'.hooks, f'.layers]; exact g.hooks

end Grown

theorem Same2.forM {σ β : Type} {R : σ → σ → Prop} {f : β → Py σ Unit} : ∀ {xs : List β}, (∀ x ∈ xs, Same2 R (f x) (f x)) →
    Same2 R (Py.forM xs f) (Py.forM xs f)
  | [], _ => Same2.pure ()
  | x :: xs, h => Same2.bind (h x (by simp)) fun _ => Same2.forM fun y hy => h y (by simp [hy])

theorem Grown.layerStep {A B : World α} (g : Grown A B) {m : Layer} (hm : m ∈ B.opt.layers) :
    (World.layerStep m A).1 = (World.layerStep m B).1 ∧ Grown (World.layerStep m A).2 (World.layerStep m B).2 := by
  obtain ⟨e, r⟩ := World.layerStep_sub hm A B g.agree
  refine ⟨e, g.of_frames ((World.layerStep_frame m A).mono (N' := (· = m.name)) (S' := (· = m.name)) (fun _ h => h.1) (fun _ h => h.1) fun _ h => h)
    ((World.layerStep_frame m B).mono (fun _ h => h.1) (fun _ h => h.1) fun _ h => h) ?_ ?_ ?_ r⟩
  · rintro n rfl; exact ⟨m, hm, rfl⟩
  · rintro n rfl; exact ⟨m, hm, rfl⟩
  · exact fun p hp => ⟨m, hm, hp⟩

theorem Grown.setScale (s : α) : Same2 (Grown (α := α)) (Opt.setScale s) (Opt.setScale s) := by
  unfold Opt.setScale
  refine Same2.bind (Same2.modify fun A B r => ?_) fun _ => Same2.get_bind fun A B r => ?_
  · refine ⟨?_, r.more, r.idx, r.hooks⟩
    rw [r.eq]
  · have e : A.opt.steps = B.opt.steps := by rw [r.eq]
    have e' : ∀ t, A.opt.scale t = B.opt.scale t := fun t => by rw [Opt.scale, Opt.scale, r.eq]
    rw [e, e']
    split
    · exact Same2.bind (Same2.lift _) fun _ => by rw [e']; exact Same2.bind (Same2.lift _) fun _ => Same2.pure _
    · exact Same2.pure _

theorem Grown.ensureScale (attr : Option α) : Same2 (Grown (α := α)) (World.ensureScale attr) (World.ensureScale attr) := by
  unfold World.ensureScale
  refine Same2.get_bind fun A B r => ?_
  rw [show A.opt.steps = B.opt.steps by rw [r.eq], show A.opt.scales = B.opt.scales by rw [r.eq]]
  rcases B.opt.scales B.opt.steps with _ | s
  · exact Grown.setScale _
  · exact Same2.pure _

theorem Grown.forM {L : List Layer} : ∀ (ms : List Layer), (∀ m ∈ ms, m ∈ L) →
    Same2 (fun A B : World α => Grown A B ∧ B.opt.layers = L) (Py.forM ms World.layerStep) (Py.forM ms World.layerStep) := by
  intro ms hms
  refine Same2.forM fun m hm A B r => ?_
  obtain ⟨g, e⟩ := r
  obtain ⟨h1, h2⟩ := g.layerStep (m := m) (by rw [e]; exact hms m hm)
  exact ⟨h1, h2, by rw [(World.layerStep_frame m B).layers, e]⟩

theorem Grown.stepBody (f : Bool) : Same2 (Grown (α := α)) (World.stepBody f) (World.stepBody f) := by
  intro A B g
  unfold World.stepBody
  cases f with
  | true =>
    rw [if_pos rfl, World.dropStats_run, World.dropStats_run]
    refine ⟨rfl, ?_, g.more, g.idx, g.hooks⟩
    rw [g.eq]
  | false =>
    rw [if_neg (by simp), World.innerStep, Py.get_bind_run, Py.get_bind_run, g.layers]
    obtain ⟨h1, h2, _⟩ := Grown.forM (α := α) (L := B.opt.layers) B.opt.layers (fun m hm => hm) A B ⟨g, rfl⟩
    exact ⟨h1, h2⟩

theorem Grown.forwardHook {A B : World α} (g : Grown A B) {m : Layer} (hm : m ∈ B.opt.layers) (x : ND α) (ge : Bool) :
    (World.forwardHook m x ge A).1 = (World.forwardHook m x ge B).1 ∧ Grown (World.forwardHook m x ge A).2 (World.forwardHook m x ge B).2 := by
  rw [World.forwardHook, Py.get_bind_run, Py.get_bind_run, g.hyper hm, show A.opt.steps = B.opt.steps by rw [g.eq]]
  rcases B.opt.hyperOf m with e | h
  · exact ⟨rfl, g⟩
  · rw [Py.lift_ok_bind_run, Py.lift_ok_bind_run]
    split
    · split
      · exact ⟨rfl, g⟩
      · split
        · refine ⟨rfl, ?_, g.more, g.idx, ?_⟩
          · show World.mk A.opt A.data A.grad (A.hooks ++ [(m, x)]) = _
            rw [g.eq]; rfl
          · intro y hy
            rcases List.mem_append.1 hy with hy | hy
            · exact g.hooks y hy
            · simp only [List.mem_singleton] at hy; subst hy; exact hm
        · exact ⟨rfl, g⟩
    · exact ⟨rfl, g⟩

theorem Grown.accumulateH {A B : World α} (g : Grown A B) {m : Layer} (hm : m ∈ B.opt.layers) (x y : ND α) :
    (World.accumulateH m x y A).1 = (World.accumulateH m x y B).1 ∧ Grown (World.accumulateH m x y A).2 (World.accumulateH m x y B).2 := by
  obtain ⟨e, r⟩ := World.accumulateH_sub hm x y A B g.agree
  refine ⟨e, g.of_frames (World.accumulateH_frame m x y A) (World.accumulateH_frame m x y B) (fun _ => False.elim) ?_ (fun _ => False.elim) r⟩
  rintro n rfl; exact ⟨m, hm, rfl⟩

/-- every operation does the same with and without the further groups -/
theorem Grown.exec (op : Op α) : Same2 (Grown (α := α)) (_root_.exec op) (_root_.exec op) := by
  cases op with
  | forward i x ge =>
    intro A B g
    rw [_root_.exec, Py.get_bind_run, Py.get_bind_run, g.layers]
    rcases hi : B.opt.layers[i]? with _ | m
    · exact ⟨rfl, g⟩
    · exact g.forwardHook (List.mem_of_getElem? hi) x ge
  | backward i x =>
    intro A B g
    rw [_root_.exec, Py.get_bind_run, Py.get_bind_run, g.hooksEq]
    rcases hi : B.hooks[i]? with _ | m
    · exact ⟨rfl, g⟩
    · exact g.accumulateH (g.hooks m (List.mem_of_getElem? hi)) m.2 x
  | setGrad p G => exact Same2.modify fun A B r => ⟨by rw [r.eq], r.more, r.idx, r.hooks⟩
  | setParam p M => exact Same2.modify fun A B r => ⟨by rw [r.eq], r.more, r.idx, r.hooks⟩
  | setHyper i h =>
    refine Same2.modify fun A B r => ⟨by rw [r.eq], ?_, ?_, r.hooks⟩
    · obtain ⟨ex, e⟩ := r.more
      show ∃ ex, A.opt.groups.modify i _ = B.opt.groups.modify i _ ++ ex
      rw [e]
      refine ⟨ex.modify (i - B.opt.groups.length) fun g => { g with h := if i < B.opt.groups.length then g.h else h }, ?_⟩
      apply List.ext_getElem?
      intro n
      rcases lt_or_ge n B.opt.groups.length with hn | hn
      · rw [List.getElem?_append_left (by simpa using hn), List.getElem?_modify, List.getElem?_modify, List.getElem?_append_left hn]
      · rw [List.getElem?_append_right (by simpa using hn), List.getElem?_modify, List.getElem?_modify, List.getElem?_append_right hn, List.length_modify]
        rcases lt_or_ge i B.opt.groups.length with hi | hi
        · rcases ex[n - B.opt.groups.length]? with _ | g
          · rfl
          · simp [hi, show ¬ i = n by omega]
        · simp only [not_lt.2 hi, if_false]
          by_cases h : i = n
          · subst h; simp
          · simp [h, show ¬ i - B.opt.groups.length = n - B.opt.groups.length by omega]
    · intro m hm
      obtain ⟨i', h1, h2⟩ := r.idx m hm
      exact ⟨i', h1, by simpa using h2⟩
  | setScale s => exact Grown.setScale s
  | step c a f =>
    rw [_root_.exec, World.step]
    split
    · exact Same2.raise _
    · refine Same2.bind (Grown.ensureScale a) fun _ => Same2.bind (Grown.stepBody f) fun _ => Same2.bind (Same2.modify fun A B r => ?_) fun _ =>
        Same2.modify fun A B r => ?_
      · exact ⟨by rw [r.eq], r.more, r.idx, r.hooks⟩
      · exact ⟨by rw [r.eq]; rfl, r.more, r.idx, r.hooks⟩

theorem Grown.addGroup {A B : World α} (g : Grown A B) (dflt : Hyper α) (a : GroupArg α) : Grown (World.addGroup dflt a A).2 B := by
  rw [World.addGroup, Py.get_bind_run]
  split
  · exact g
  · obtain ⟨ex, e⟩ := g.more
    refine ⟨?_, ⟨ex ++ [⟨a.params.map (·.ptr), a.entries dflt⟩], ?_⟩, g.idx, g.hooks⟩
    · show World.mk _ A.data A.grad A.hooks = _
      rw [g.eq]; rfl
    · show A.opt.groups ++ _ = _
      rw [e, List.append_assoc]

theorem Grown.run (dflt : Hyper α) : ∀ (ops : List (GOp α)) {A B : World α}, Grown A B → Grown (grun dflt ops A) (_root_.run (GOp.ops ops) B)
  | [], _, _, g => g
  | .op o :: ops, A, B, g => Grown.run dflt ops ((Grown.exec o A B g).2)
  | .addGroup a :: ops, A, B, g => Grown.run dflt ops (g.addGroup dflt a)

theorem reachable_grown {structs : String → Option Cls} {w : World α} (hw : Reachable structs w) : Grown w w := by
  obtain ⟨model, p, a, o, ws, data, grad, ops, hn, hi, rfl⟩ := hw
  refine run_inv (P := fun w => Grown w w) (fun op w h => (Grown.exec op w w h).2) ops _ ⟨rfl, ⟨[], by simp⟩, fun m hm => ?_, by simp⟩
  obtain ⟨_, h, _, _, _, _, hh, _⟩ := (Construct.init_ok hn hi).lay m hm
  obtain ⟨i, g, h1, h2, _⟩ := hyperOf_ok hh
  exact ⟨i, h1, (List.getElem?_eq_some_iff.1 h2).1⟩

/-- **C60 (no effect).** Adding groups to a constructed optimizer, at any time, has no effect on anything but the list of groups: with and
without them, every history gives the same parameters, factors, statistics, counters and hooks, and every operation the same outcome. -/
theorem C60_later_groups_no_effect {structs : String → Option Cls} {w : World α} (hw : Reachable structs w) (dflt : Hyper α) (ops : List (GOp α)) :
    grun dflt ops w = { run (GOp.ops ops) w with opt := { (run (GOp.ops ops) w).opt with groups := (grun dflt ops w).opt.groups } } ∧
    ∀ op, (exec op (grun dflt ops w)).1 = (exec op (run (GOp.ops ops) w)).1 := by
  have g := (reachable_grown hw).run dflt ops
  exact ⟨g.eq, fun op => (Grown.exec op _ _ g).1⟩

theorem Grown.params {A B : World α} (g : Grown A B) (hB : WeightsIn B) {m : Layer} (hm : m ∈ B.opt.layers) : m.weight.ptr ∈ Construct.paramIds A.opt.groups := by
  obtain ⟨ex, e⟩ := g.more
  have := hB m hm
  rw [Construct.paramIds, e, List.flatMap_append, List.mem_append, List.flatMap_def]
  exact Or.inl this

/-- **C60 (never trained).** A parameter of a group added after the construction is never trained: no operation but a direct assignment
changes its value, in any continuation (unless it is the bias of a layer whose weight was handed over before). -/
theorem C60_never_trained {structs : String → Option Cls} {w : World α} (hw : Reachable structs w) (dflt : Hyper α) {ops ops' : List (GOp α)}
    {g : GroupArg α} {A : World α} (hg : gexec dflt (.addGroup g) (grun dflt ops w) = (.ok (), A)) {q : Param} (hq : q ∈ g.params)
    (hb : ∀ m ∈ w.opt.layers, ∀ b, m.bias = some b → b.ptr ≠ q.ptr) (hset : ∀ M, GOp.op (.setParam q.ptr M) ∉ ops') :
    (grun dflt ops' A).data q.ptr = A.data q.ptr := by
  have g0 := (reachable_grown hw).run dflt ops
  have hr : ∀ os : List (Op α), Reachable structs (run os w) := by
    intro os
    obtain ⟨model, p, a, o, ws, data, grad, ops, hn, hi, rfl⟩ := hw
    exact ⟨model, p, a, o, ws, data, grad, ops ++ os, hn, hi, (run_append _ _ _).symm⟩
  have hlay : ∀ os : List (Op α), (run os w).opt.layers = w.opt.layers := fun os =>
    run_inv (P := fun v => v.opt.layers = w.opt.layers) (fun op v h => (exec_static op v).1.trans h) os w rfl
  have g1 : Grown A (run (GOp.ops ops) w) := by
    have := g0.addGroup dflt g
    rw [show World.addGroup dflt g (grun dflt ops w) = _ from hg] at this
    exact this
  have hnot : ∀ m ∈ w.opt.layers, ¬ World.Owns m q.ptr := by
    intro m hm ho
    rcases ho with e | ⟨b, h1, h2⟩
    · rw [gexec, World.addGroup, Py.get_bind_run] at hg
      split at hg
      · cases hg
      · rename_i hno
        refine hno (List.any_eq_true.2 ⟨q, hq, decide_eq_true ?_⟩)
        rw [e]
        exact g0.params (reachable_weightsIn (hr _)) (by rw [hlay]; exact hm)
    · exact hb m hm b h1 h2.symm
  have key : ∀ (os : List (Op α)) (v : World α), v.opt.layers = w.opt.layers → (∀ M, Op.setParam q.ptr M ∉ os) → (run os v).data q.ptr = v.data q.ptr := by
    intro os
    induction os with
    | nil => intro v _ _; rfl
    | cons op os ih =>
      intro v hv hs
      rw [run_cons, ih _ ((exec_static op v).1.trans hv) fun M h => hs M (by simp [h])]
      cases op with
      | forward i x ge => rcases exec_forward i x ge v with e | ⟨_, m, _, _, e⟩ <;> simp [e]
      | backward k y => exact (exec_backward k y v).data _ id
      | setGrad p G => rfl
      | setParam p M =>
        have hp : p ≠ q.ptr := fun e => hs M (by simp [e])
        exact Function.update_of_ne (Ne.symm hp) _ _
      | setHyper i h' => rfl
      | setScale s => rw [exec, World.setScale_state]
      | step c attr f =>
        cases c
        · have fr := stepBody_frame f (World.withScale attr v)
          have hd := fr.data q.ptr (by rintro ⟨_, m, hm, ho⟩; exact hnot m (by rw [← hv]; exact hm) ho)
          rcases step_state attr f v with e | ⟨e', e⟩ | ⟨w1, e1, e⟩
          · rw [exec, e]; rfl
          · rw [exec, e]; exact hd
          · rw [exec, e]; rw [e1] at hd; exact hd
        · rw [exec, step_closure]
  have g2 := g1.run dflt ops'
  have e1 : (grun dflt ops' A).data = (run (GOp.ops ops') (run (GOp.ops ops) w)).data := by rw [g2.eq]
  have e2 : A.data = (run (GOp.ops ops) w).data := by rw [g1.eq]
  rw [e1, e2]
  refine key _ _ (hlay _) fun M h => ?_
  obtain ⟨x, hx, e⟩ := List.mem_filterMap.1 h
  rcases x with o | a
  · cases e; exact hset M hx
  · cases e

namespace Sample
/-- the first layer is handed over at construction, the second layer later -/
def wAdd : World ℚ := grun (Construct.defaults args) [.addGroup ⟨[⟨2, true⟩], id⟩] (world model (.flat [⟨0, true⟩, ⟨1, true⟩]) args)
/-- both layers are handed over at construction, in two groups -/
def wBoth : World ℚ := world model (.groups [⟨[⟨0, true⟩, ⟨1, true⟩], id⟩, ⟨[⟨2, true⟩], id⟩]) args
end Sample

-- the hypotheses of `C60_never_trained` hold for the second layer's weight
example : Reachable supportedStructures (Sample.world Sample.model (.flat [⟨0, true⟩, ⟨1, true⟩]) Sample.args) ∧
    (gexec (Construct.defaults Sample.args) (.addGroup ⟨[⟨2, true⟩], id⟩) (Sample.world Sample.model (.flat [⟨0, true⟩, ⟨1, true⟩]) Sample.args)).1 = .ok () ∧
    ∀ m ∈ (Sample.world Sample.model (.flat [⟨0, true⟩, ⟨1, true⟩]) Sample.args).opt.layers, ∀ b ∈ m.bias, b.ptr ≠ 2 :=
  ⟨Sample.reachable (by decide +kernel) (by decide +kernel) [], by decide +kernel, by decide +kernel⟩

/-- **C60 (false).** "A group added later is trained like a group handed over at construction": the same groups, the same gradients and the same
passes change the second layer's weight in one case and not in the other, without an exception in either. -/
theorem C60_false : ∃ (A B : World ℚ) (ops : List (Op ℚ)) (p : ℕ),
    A.opt.groups.map (·.params) = B.opt.groups.map (·.params) ∧ (∃ g ∈ A.opt.groups, p ∈ g.params ∧ g.h.lr ≠ 0) ∧ Reachable supportedStructures B ∧
    (∃ g a w, Reachable supportedStructures w ∧ gexec (Construct.defaults a) (.addGroup g) w = (.ok (), A)) ∧
    (A.grad p).map Mat.toLists = (B.grad p).map Mat.toLists ∧ (A.data p).toLists = (B.data p).toLists ∧
    (runOk ops A).isSome = true ∧ (runOk ops B).isSome = true ∧
    ((run ops A).data p).toLists = (A.data p).toLists ∧ ((run ops B).data p).toLists ≠ (B.data p).toLists := by
  refine ⟨Sample.wAdd, Sample.wBoth, Sample.pass ++ [.step false none false], 2, by decide +kernel, by decide +kernel,
    Sample.reachable (by decide +kernel) (by decide +kernel) [], ⟨⟨[⟨2, true⟩], id⟩, Sample.args, Sample.world Sample.model (.flat [⟨0, true⟩, ⟨1, true⟩]) Sample.args,
      Sample.reachable (by decide +kernel) (by decide +kernel) [], ?_⟩, by decide +kernel, by decide +kernel, by decide +kernel, by decide +kernel, by decide +kernel, by decide +kernel⟩
  exact Prod.ext (by decide +kernel) rfl
