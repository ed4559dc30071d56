import Verif.Proofs.Opt.Sub
import Verif.Proofs.Opt.Groups
import Verif.Props.OptSamples

/-! C43: parameter groups behave like separate optimizers. -/

set_option linter.unusedSectionVars false
open IOProof
variable {α : Type} [Field α] [LinearOrder α] [HasSqrt α]

/-- Optimizer `B` trains the layers of `A` selected by `k`, whose groups have other indices. -/
structure SubOpt (k : Layer → Bool) (γ : ℕ → Option ℕ) (A B : World α) : Prop where
  agree : AgreeOn (A.opt.layers.filter k) A B
  layers : B.opt.layers = A.opt.layers.filter k
  groups : ∀ i j, γ i = some j → (A.opt.groups[i]?).map (·.h) = (B.opt.groups[j]?).map (·.h)
  ptr : ∀ m ∈ A.opt.layers, k m = true → ∃ i j, A.opt.ptrGroup m.weight.ptr = some i ∧ γ i = some j ∧ B.opt.ptrGroup m.weight.ptr = some j
  inj : ∀ i i' j, γ i = some j → γ i' = some j → i = i'
  hooks : B.hooks = A.hooks.filter fun x => k x.1
  owned : ∀ x ∈ A.hooks, x.1 ∈ A.opt.layers
  apart : ∀ m ∈ A.opt.layers, k m = true → ∀ m' ∈ A.opt.layers, k m' = false → m.name ≠ m'.name ∧ ∀ p, World.Owns m p → ¬ World.Owns m' p

/-- What an operation on `A` is for `B`, an optimizer with the layers selected by `k`: nothing if it concerns another layer's forward or backward pass or
another group's hyper-parameters, else the same, with the position of the layer, hook or group in `B`. -/
def Op.sub (k : Layer → Bool) (γ : ℕ → Option ℕ) (A : World α) : Op α → Option (Op α)
  | .forward i x ge => match A.opt.layers[i]? with
    | some m => if k m then some (.forward ((A.opt.layers.take i).countP k) x ge) else none
    | none => none
  | .backward i g => match A.hooks[i]? with
    | some x => if k x.1 then some (.backward ((A.hooks.take i).countP fun x => k x.1) g) else none
    | none => none
  | .setHyper i h => (γ i).map fun j => .setHyper j h
  | .setGrad p G => some (.setGrad p G)
  | .setParam p M => some (.setParam p M)
  | .setScale s => some (.setScale s)
  | .step c a f => some (.step c a f)

/-- what a history of `A` is for `B` -/
def subRun (k : Layer → Bool) (γ : ℕ → Option ℕ) : List (Op α) → World α → List (Op α)
  | [], _ => []
  | op :: ops, A => (op.sub k γ A).toList ++ subRun k γ ops (exec op A).2

theorem filter_take_countP {β : Type} (k : β → Bool) : ∀ (l : List β) (i : ℕ) (x : β), l[i]? = some x → k x = true →
    (l.filter k)[(l.take i).countP k]? = some x
  | [], i, x, h, _ => by simp at h
  | y :: l, 0, x, h, hx => by
    simp only [List.getElem?_cons_zero, Option.some.injEq] at h
    subst h; simp [hx]
  | y :: l, i + 1, x, h, hx => by
    rw [List.getElem?_cons_succ] at h
    have ih := filter_take_countP k l i x h hx
    rw [List.take_succ_cons]
    by_cases hy : k y = true
    · rw [List.filter_cons_of_pos hy, List.countP_cons_of_pos hy, List.getElem?_cons_succ]; exact ih
    · rw [List.filter_cons_of_neg hy, List.countP_cons_of_neg hy]; exact ih

theorem AgreeOn.frameA {L : List Layer} {A A' B : World α} {N S : String → Prop} {P : ℕ → Prop} (r : AgreeOn L A B) (f : Frame N S P A A')
    (h : ∀ m ∈ L, ¬ N m.name ∧ ¬ S m.name ∧ ∀ p, World.Owns m p → ¬ P p) : AgreeOn L A' B where
  hyper m hm := by rw [f.hyperOf]; exact r.hyper m hm
  steps := by rw [f.steps]; exact r.steps
  scales := by rw [f.scales]; exact r.scales
  Ks m hm := by rw [f.Ks _ (h m hm).1]; exact r.Ks m hm
  Cs m hm := by rw [f.Cs _ (h m hm).1]; exact r.Cs m hm
  mKs m hm := by rw [f.mKs _ (h m hm).1]; exact r.mKs m hm
  mCs m hm := by rw [f.mCs _ (h m hm).1]; exact r.mCs m hm
  HKs m hm := by rw [f.HKs _ (h m hm).2.1]; exact r.HKs m hm
  HCs m hm := by rw [f.HCs _ (h m hm).2.1]; exact r.HCs m hm
  mom m hm p hp := by rw [f.mom _ ((h m hm).2.2 p hp)]; exact r.mom m hm p hp
  data m hm p hp := by rw [f.data _ ((h m hm).2.2 p hp)]; exact r.data m hm p hp
  grad m hm p hp := by rw [f.grad]; exact r.grad m hm p hp

/-- changes outside of the configuration and of the hooks -/
theorem SubOpt.of_frames {k : Layer → Bool} {γ : ℕ → Option ℕ} {A A' B B' : World α} {N S N' S' : String → Prop} {P P' : ℕ → Prop}
    (s : SubOpt k γ A B) (f : Frame N S P A A') (f' : Frame N' S' P' B B') (r : AgreeOn (A.opt.layers.filter k) A' B') : SubOpt k γ A' B' where
  agree := by rw [f.layers]; exact r
  layers := by rw [f.layers, f'.layers]; exact s.layers
  groups := by rw [f.groups, f'.groups]; exact s.groups
  ptr := by rw [f.layers, f.ptrGroup, f'.ptrGroup]; exact s.ptr
  inj := s.inj
  hooks := by rw [f.hooks, f'.hooks]; exact s.hooks
  owned := by rw [f.layers, f.hooks]; exact s.owned
  apart := by rw [f.layers]; exact s.apart

theorem innerStep_sub {k : Layer → Bool} {γ : ℕ → Option ℕ} {A0 B0 : World α} (s : SubOpt k γ A0 B0) : ∀ (ms : List Layer) {A A' B : World α},
    (∀ m ∈ ms, m ∈ A0.opt.layers) → AgreeOn (A0.opt.layers.filter k) A B → Py.forM ms World.layerStep A = (.ok (), A') →
    ∃ B', Py.forM (ms.filter k) World.layerStep B = (.ok (), B') ∧ AgreeOn (A0.opt.layers.filter k) A' B'
  | [], A, A', B, _, r, h => by cases h; exact ⟨B, rfl, r⟩
  | m :: ms, A, A', B, hm, r, h => by
    obtain ⟨A1, h1, h2⟩ := Py.forM_cons_ok.1 h
    by_cases hk : k m = true
    · obtain ⟨e, r1⟩ := World.layerStep_sub (α := α) (L := A0.opt.layers.filter k) (m := m) (List.mem_filter.2 ⟨hm m (by simp), hk⟩) A B r
      rw [h1] at e r1
      obtain ⟨B', hB, r'⟩ := innerStep_sub s ms (fun m' h' => hm m' (by simp [h'])) r1 h2
      refine ⟨B', ?_, r'⟩
      rw [List.filter_cons_of_pos hk]
      exact Py.forM_cons_ok.2 ⟨(World.layerStep m B).2, Prod.ext e.symm rfl, hB⟩
    · rw [List.filter_cons_of_neg hk]
      refine innerStep_sub s ms (fun m' h' => hm m' (by simp [h'])) ?_ h2
      have f := World.layerStep_frame m A
      rw [h1] at f
      refine r.frameA f fun m' hm' => ?_
      obtain ⟨h1', h2'⟩ := List.mem_filter.1 hm'
      obtain ⟨a1, a2⟩ := s.apart m' h1' h2' m (hm m (by simp)) (by simpa using hk)
      exact ⟨fun h => a1 h.1, fun h => a1 h.1, a2⟩

theorem SubOpt.exec {k : Layer → Bool} {γ : ℕ → Option ℕ} {A A' B : World α} (s : SubOpt k γ A B) (op : Op α) (h : exec op A = (.ok (), A')) :
    match op.sub k γ A with
    | some op' => ∃ B', _root_.exec op' B = (.ok (), B') ∧ SubOpt k γ A' B'
    | none => SubOpt k γ A' B := by
  cases op with
  | forward i x ge =>
    rw [_root_.exec, Py.get_bind_run] at h
    rw [Op.sub]
    rcases hi : A.opt.layers[i]? with _ | m
    · rw [hi] at h; cases h; exact s
    · rw [hi] at h
      simp only at h ⊢
      have hm := List.mem_of_getElem? hi
      rw [World.forwardHook, Py.get_bind_run] at h
      obtain ⟨hy, _, h1, h2⟩ := Py.bind_eq_ok.1 h
      have hh : A.opt.hyperOf m = .ok hy := congrArg Prod.fst h1
      cases congrArg Prod.snd h1
      by_cases hk : k m = true
      · simp only [hk, if_true]
        have hB : B.opt.layers[(A.opt.layers.take i).countP k]? = some m := by rw [s.layers]; exact filter_take_countP k _ _ _ hi hk
        rw [_root_.exec, Py.get_bind_run, hB]
        simp only
        rw [World.forwardHook, Py.get_bind_run, ← s.agree.hyper m (List.mem_filter.2 ⟨hm, hk⟩), hh, Py.lift_ok_bind_run]
        rw [s.agree.steps] at h2
        split at h2
        · rename_i hg
          rw [if_pos hg]
          split at h2
          · cases h2
          · rename_i hT
            rw [if_neg hT]
            split at h2
            · rename_i hd
              rw [if_pos hd]
              cases h2
              refine ⟨_, rfl, { s with hooks := ?_, owned := ?_, agree := { s.agree with } }⟩
              · simp [s.hooks, List.filter_append, hk]
              · intro y hy
                rcases List.mem_append.1 hy with hy | hy
                · exact s.owned y hy
                · simp only [List.mem_singleton] at hy; subst hy; exact hm
            · rename_i hd
              rw [if_neg hd]
              cases h2
              exact ⟨_, rfl, s⟩
        · rename_i hg
          rw [if_neg hg]
          cases h2
          exact ⟨_, rfl, s⟩
      · simp only [hk, if_false, Bool.false_eq_true]
        split at h2
        · split at h2
          · cases h2
          · split at h2
            · cases h2
              refine { s with hooks := ?_, owned := ?_, agree := { s.agree with } }
              · simp [s.hooks, List.filter_append, hk]
              · intro y hy
                rcases List.mem_append.1 hy with hy | hy
                · exact s.owned y hy
                · simp only [List.mem_singleton] at hy; subst hy; exact hm
            · cases h2; exact s
        · cases h2; exact s
  | backward i g =>
    rw [_root_.exec, Py.get_bind_run] at h
    rw [Op.sub]
    rcases hi : A.hooks[i]? with _ | ⟨m, x⟩
    · rw [hi] at h; cases h; exact s
    · rw [hi] at h
      simp only at h ⊢
      have hm := s.owned _ (List.mem_of_getElem? hi)
      have fA := World.accumulateH_frame m x g A
      rw [h] at fA
      by_cases hk : k m = true
      · simp only [hk, if_true]
        have hB : B.hooks[(A.hooks.take i).countP fun x => k x.1]? = some (m, x) := by
          rw [s.hooks]; exact filter_take_countP (fun x => k x.1) _ _ _ hi hk
        rw [_root_.exec, Py.get_bind_run, hB]
        simp only
        obtain ⟨e, r⟩ := World.accumulateH_sub (α := α) (L := A.opt.layers.filter k) (m := m) (List.mem_filter.2 ⟨hm, hk⟩) x g A B s.agree
        have fB := World.accumulateH_frame m x g B
        rw [h] at e r
        exact ⟨(World.accumulateH m x g B).2, Prod.ext e.symm rfl, s.of_frames fA fB r⟩
      · simp only [hk, if_false, Bool.false_eq_true]
        refine s.of_frames fA (Frame.refl (N := World.none') (S := World.none') (P := World.none') B) (s.agree.frameA fA fun m' hm' => ?_)
        obtain ⟨h1', h2'⟩ := List.mem_filter.1 hm'
        obtain ⟨a1, a2⟩ := s.apart m' h1' h2' m hm (by simpa using hk)
        exact ⟨id, a1, fun _ _ => id⟩
  | setGrad p G =>
    cases h
    exact ⟨_, rfl, { s with agree := { s.agree with grad := fun m hm q hq => by simp only [Function.update_apply, s.agree.grad m hm q hq] } }⟩
  | setParam p M =>
    cases h
    exact ⟨_, rfl, { s with agree := { s.agree with data := fun m hm q hq => by simp only [Function.update_apply, s.agree.data m hm q hq] } }⟩
  | setHyper i h' =>
    cases h
    have hget : ∀ (gs : List (PGroup α)) (i j : ℕ), ((gs.modify i fun g => { g with h := h' })[j]?).map (·.h) =
        if i = j then (gs[j]?).map (fun _ => h') else (gs[j]?).map (·.h) := by
      intro gs i j
      rw [List.getElem?_modify]
      split <;> rcases gs[j]? with _ | g <;> simp_all
    rw [Op.sub]
    have hhyp : ∀ (o o' : Opt α) (m : Layer) (i j : ℕ), o.ptrGroup m.weight.ptr = some i → o'.ptrGroup m.weight.ptr = some j →
        (o.groups[i]?).map (·.h) = (o'.groups[j]?).map (·.h) → o.hyperOf m = o'.hyperOf m := by
      intro o o' m i j e1 e2 e3
      unfold Opt.hyperOf lookup
      rw [e1, e2]
      split
      · simp only [Except.bind_ok']
        rcases h1 : o.groups[i]? with _ | g <;> rcases h2 : o'.groups[j]? with _ | g' <;> rw [h1, h2] at e3 <;> simp_all
      · rfl
    rcases hγ : γ i with _ | j
    · show SubOpt k γ _ B
      have hg : ∀ i' j', γ i' = some j' → (((A.opt.groups.modify i fun g => { g with h := h' })[i']?).map (·.h)) = (B.opt.groups[j']?).map (·.h) := by
        intro i' j' e
        rw [hget, if_neg (by rintro rfl; rw [hγ] at e; cases e)]
        exact s.groups i' j' e
      refine { s with groups := hg, agree := { s.agree with hyper := fun m hm => ?_ } }
      obtain ⟨h1, h2⟩ := List.mem_filter.1 hm
      obtain ⟨i', j', e1, e2, e3⟩ := s.ptr m h1 h2
      exact hhyp _ _ m i' j' e1 e3 (hg i' j' e2)
    · refine ⟨_, rfl, ?_⟩
      have hg : ∀ i' j', γ i' = some j' → (((A.opt.groups.modify i fun g => { g with h := h' })[i']?).map (·.h)) =
          (((B.opt.groups.modify j fun g => { g with h := h' })[j']?).map (·.h)) := by
        intro i' j' e
        rw [hget, hget]
        have := s.groups i' j' e
        by_cases hii : i = i'
        · subst hii
          rw [hγ] at e; cases e
          rw [if_pos rfl, if_pos rfl]
          rcases h1 : A.opt.groups[i]? with _ | g <;> rcases h2 : B.opt.groups[j]? with _ | g' <;> rw [h1, h2] at this <;> simp_all
        · rw [if_neg hii, if_neg (by rintro rfl; exact hii (s.inj _ _ _ hγ e))]
          exact this
      refine { s with groups := hg, agree := { s.agree with hyper := fun m hm => ?_ } }
      obtain ⟨h1, h2⟩ := List.mem_filter.1 hm
      obtain ⟨i', j', e1, e2, e3⟩ := s.ptr m h1 h2
      exact hhyp _ _ m i' j' e1 e3 (hg i' j' e2)
  | setScale x =>
    obtain ⟨e, r⟩ := World.setScale_sub (α := α) (L := A.opt.layers.filter k) x A B s.agree
    have hA := World.setScale_state x A
    have hB := World.setScale_state x B
    have h' : Opt.setScale x A = (.ok (), A') := h
    rw [h'] at e r hA
    refine ⟨(Opt.setScale x B).2, Prod.ext e.symm rfl, ?_⟩
    rw [hB] at r ⊢
    simp only at hA
    subst hA
    exact { s with agree := r }
  | step c a f =>
    cases c with
    | true => cases h
    | false =>
      have h' : World.step false a f A = (.ok (), A') := h
      obtain ⟨h1, A1, h2, rfl⟩ := World.step_ok_iff.1 h'
      obtain ⟨e, r⟩ := World.ensureScale_sub (α := α) (L := A.opt.layers.filter k) a A B s.agree
      rw [World.ensureScale_state, World.ensureScale_state] at r
      have s1 : SubOpt k γ (A.withScale a) (B.withScale a) := { s with agree := r }
      obtain ⟨B1, hB1, s2⟩ : ∃ B1, World.stepBody f (B.withScale a) = (.ok (), B1) ∧ SubOpt k γ A1 B1 := by
        cases f with
        | true =>
          rw [World.stepBody, if_pos rfl] at h2 ⊢
          refine ⟨(World.dropStats (B.withScale a)).2, by rw [World.dropStats_run], ?_⟩
          have fA := World.dropStats_frame (A.withScale a)
          have fB := World.dropStats_frame (B.withScale a)
          rw [h2] at fA
          refine s1.of_frames fA fB ?_
          rw [World.dropStats_run] at h2 ⊢
          cases h2
          have hl : ∀ m ∈ (A.withScale a).opt.layers.filter k, (∃ m' ∈ (A.withScale a).opt.layers, m'.name = m.name) ∧
              ∃ m' ∈ (B.withScale a).opt.layers, m'.name = m.name := fun m hm =>
            ⟨⟨m, (List.mem_filter.1 hm).1, rfl⟩, ⟨m, by rw [s1.layers]; exact hm, rfl⟩⟩
          exact { s1.agree with
            HKs := fun m hm => by simp only [if_pos (hl m hm).1, if_pos (hl m hm).2],
            HCs := fun m hm => by simp only [if_pos (hl m hm).1, if_pos (hl m hm).2] }
        | false =>
          rw [World.stepBody, if_neg (by simp)] at h2 ⊢
          have h3 := h2
          rw [World.innerStep, Py.get_bind_run] at h3
          obtain ⟨B1, hB1, r1⟩ := innerStep_sub s1 _ (fun m hm => hm) s1.agree h3
          have hB2 : World.innerStep (B.withScale a) = (.ok (), B1) := by
            rw [World.innerStep, Py.get_bind_run, s1.layers]; exact hB1
          refine ⟨B1, hB2, ?_⟩
          have fA := World.innerStep_frame (A.withScale a)
          have fB := World.innerStep_frame (B.withScale a)
          rw [h2] at fA
          rw [hB2] at fB
          exact s1.of_frames fA fB r1
      refine ⟨_, World.step_ok_iff.2 ⟨by rw [← e]; exact h1, B1, hB1, rfl⟩, ?_⟩
      refine { s2 with agree := { s2.agree with steps := ?_, scales := ?_ } }
      · simp only [Opt.removeUsedScales, s2.agree.steps]
      · simp only [Opt.removeUsedScales, s2.agree.steps, s2.agree.scales]

theorem runOk_append {ops ops' : List (Op α)} {w : World α} : runOk (ops ++ ops') w = (runOk ops w).bind (runOk ops') := by
  induction ops generalizing w with
  | nil => rfl
  | cons op ops ih =>
    rw [List.cons_append, runOk, runOk]
    rcases exec op w with ⟨e | _, w'⟩
    · rfl
    · exact ih

theorem runOk_layers {ops : List (Op α)} {w w' : World α} (h : runOk ops w = some w') : w'.opt.layers = w.opt.layers := by
  induction ops generalizing w with
  | nil => cases h; rfl
  | cons op ops ih =>
    have hs := (exec_static op w).1
    rw [runOk] at h
    rcases he : exec op w with ⟨e | _, w1⟩ <;> rw [he] at h hs
    · cases h
    · exact (ih h).trans hs

theorem SubOpt.run {k : Layer → Bool} {γ : ℕ → Option ℕ} : ∀ (ops : List (Op α)) {A A' B : World α}, SubOpt k γ A B → runOk ops A = some A' →
    ∃ B', runOk (subRun k γ ops A) B = some B' ∧ SubOpt k γ A' B'
  | [], A, A', B, s, h => by cases h; exact ⟨B, rfl, s⟩
  | op :: ops, A, A', B, s, h => by
    rw [runOk] at h
    rcases he : _root_.exec op A with ⟨e | _, A1⟩
    · rw [he] at h; cases h
    · rw [he] at h
      have := s.exec op he
      rw [subRun, he, runOk_append]
      rcases ho : op.sub k γ A with _ | op'
      · rw [ho] at this
        exact SubOpt.run ops this h
      · rw [ho] at this
        obtain ⟨B1, h1, s1⟩ := this
        have : runOk (some op').toList B = some B1 := by rw [Option.toList_some, runOk, h1]; rfl
        rw [this]
        exact SubOpt.run ops s1 h

namespace Construct

theorem paramIds_mem {gs : List (PGroup α)} {p : ℕ} : p ∈ paramIds gs ↔ ∃ g ∈ gs, p ∈ g.params := by
  rw [paramIds, List.mem_flatMap]

theorem checkLayers_iff {ls : List Layer} {gs : List (PGroup α)} : checkLayers ls gs = .ok () ↔ ∀ m ∈ ls, m.leaf = true → m.supported = true →
    ∀ p ∈ m.parameters, ∀ q ∈ m.parameters, p.ptr ∈ paramIds gs → q.ptr ∈ paramIds gs → ptrGroup gs p.ptr = ptrGroup gs q.ptr := by
  unfold checkLayers
  constructor
  · intro h m hm hl hs
    split at h
    · rename_i h'
      have := List.all_eq_true.1 h' m hm
      rw [hl, hs] at this
      simpa using this
    · cases h
  · intro h
    rw [if_pos]
    rw [List.all_eq_true]
    intro m hm
    by_cases hl : m.leaf = true
    · by_cases hs : m.supported = true
      · have := h m hm hl hs
        simpa [hl, hs] using this
      · simp [hs]
    · simp [hl]

theorem hooked_mem {ls : List Layer} {gs : List (PGroup α)} {m : Layer} : m ∈ hooked ls gs ↔ m ∈ ls ∧ m.supported = true ∧
    ∃ p ∈ m.parameters, p.ptr ∈ paramIds gs := by
  simp [hooked, List.mem_filter, Bool.and_eq_true, List.any_eq_true]

theorem weight_mem {m : Layer} (h : m.supported = true) : m.weight ∈ m.parameters := by simp [Layer.parameters, h]

end Construct

open Construct

/-- the group a layer belongs to -/
def inGroup (o : Opt α) (i : ℕ) (m : Layer) : Bool := o.ptrGroup m.weight.ptr == some i
/-- group `i` is the only group of a separate optimizer -/
def onlyGroup (i i' : ℕ) : Option ℕ := if i' = i then some 0 else none

theorem init_sub {structs : String → Option Cls} {model : Model} {gs : List (GroupArg α)} {a : Args α} {o : Opt α} {ws : List Warn}
    (hn : (model.layers.map (·.name)).Nodup) (hleaf : ∀ m ∈ model.layers, m.supported = true → m.leaf = true)
    (hi : init structs model (.groups gs) a = .ok (o, ws)) {i : ℕ} {g : GroupArg α} (hg : gs[i]? = some g)
    (hs : ∀ m ∈ o.layers, ∀ m' ∈ o.layers, ∀ p, World.Owns m p → World.Owns m' p → o.ptrGroup m.weight.ptr = o.ptrGroup m'.weight.ptr) :
    ∃ oi wsi, init structs model (.groups [g]) a = .ok (oi, wsi) ∧
      ∀ data grad, SubOpt (inGroup o i) (onlyGroup i) ⟨o, data, grad, []⟩ ⟨oi, data, grad, []⟩ := by
  have S := init_ok hn hi
  have hgr := S.groups_eq
  simp only [groupArgs] at hgr
  obtain ⟨gs0, ws0, ht, hcg, _⟩ := S.groups
  have hti := torchInit_ok ht
  have hacc := (checkGroups_ok hcg).1
  let G : PGroup α := ⟨g.params.map (·.ptr), checked (g.entries (defaults a))⟩
  have hG : o.groups[i]? = some G := by rw [hgr, List.getElem?_map, hg]; rfl
  have hGm : G ∈ o.groups := List.mem_of_getElem? hG
  -- the groups of a trained layer
  have hw : ∀ m ∈ o.layers, ∃ j Gj h, o.ptrGroup m.weight.ptr = some j ∧ o.groups[j]? = some Gj ∧ Gj.h = h ∧ o.hyperOf m = .ok h ∧ m.weight.ptr ∈ Gj.params := by
    intro m hm
    obtain ⟨sup, h, cK, cC, K, C, e, _⟩ := S.lay m hm
    obtain ⟨j, Gj, e1, e2, e3⟩ := hyperOf_ok e
    have e1' := e1
    rw [S.ptrGroup] at e1'
    obtain ⟨G', e4, e5⟩ := ptrGroup_mem e1'
    rw [e2] at e4; cases e4
    exact ⟨j, Gj, h, e1, e2, e3, e, e5⟩
  have hin : ∀ p ∈ G.params, ptrGroup o.groups p = some i := fun p hp =>
    ptrGroup_eq_some hG hp fun j g' hj hp' => S.unique hj hG hp' hp
  have h1 : ∀ p, ptrGroup [G] p = if p ∈ G.params then some 0 else none := by
    intro p
    split
    · rename_i hp
      exact ptrGroup_eq_some (i := 0) rfl hp fun j g' hj hp' => by
        rcases j with _ | j
        · rfl
        · simp at hj
    · rename_i hp
      rcases hq : ptrGroup [G] p with _ | j
      · rfl
      · obtain ⟨g', hj, hp'⟩ := ptrGroup_mem hq
        rcases j with _ | j
        · simp only [List.getElem?_cons_zero, Option.some.injEq] at hj; subst hj; exact absurd hp' hp
        · simp at hj
  have hpid : ∀ p, p ∈ paramIds [G] ↔ p ∈ G.params := by intro p; simp [paramIds_mem]
  -- layers of the separate optimizer
  have hlay : hooked model.layers [G] = o.layers.filter (inGroup o i) := by
    rw [S.layers, hooked, hooked, List.filter_filter]
    refine List.filter_congr fun m hm => ?_
    by_cases sup : m.supported = true
    · rw [sup, Bool.true_and, Bool.true_and, Bool.eq_iff_iff]
      simp only [List.any_eq_true, decide_eq_true_eq, Bool.and_eq_true, inGroup, beq_iff_eq]
      constructor
      · rintro ⟨p, hp, hp'⟩
        rw [hpid] at hp'
        have hpo : p.ptr ∈ paramIds o.groups := paramIds_mem.2 ⟨G, hGm, hp'⟩
        have hmo : m ∈ o.layers := by rw [S.layers]; exact hooked_mem.2 ⟨hm, sup, p, hp, hpo⟩
        obtain ⟨j, Gj, h, e1, e2, e3, e4, e5⟩ := hw m hmo
        refine ⟨?_, p, hp, hpo⟩
        have := checkLayers_iff.1 S.check m hm (hleaf m hm sup) sup p hp m.weight (weight_mem sup) hpo (paramIds_mem.2 ⟨Gj, List.mem_of_getElem? e2, e5⟩)
        rw [S.ptrGroup, ← this]
        exact hin _ hp'
      · rintro ⟨e, _⟩
        rw [S.ptrGroup] at e
        obtain ⟨G', e4, e5⟩ := ptrGroup_mem e
        rw [hG] at e4; cases e4
        exact ⟨m.weight, weight_mem sup, (hpid _).2 e5⟩
    · simp [sup]
  -- the weights of these layers
  have hwt : ∀ m ∈ o.layers.filter (inGroup o i), m ∈ o.layers ∧ o.ptrGroup m.weight.ptr = some i ∧ m.weight.ptr ∈ G.params ∧ o.hyperOf m = .ok G.h := by
    intro m hm
    obtain ⟨hmo, hk⟩ := List.mem_filter.1 hm
    obtain ⟨j, Gj, h, e1, e2, e3, e4, e5⟩ := hw m hmo
    have hk' : o.ptrGroup m.weight.ptr = some i := by simpa [inGroup] using hk
    rw [hk'] at e1; cases e1
    rw [hG] at e2; cases e2
    exact ⟨hmo, hk', e5, by rw [e4, e3]⟩
  obtain ⟨oi, wsi, hoi⟩ := init_exists' (structs := structs) (model := model) (p := .groups [g]) (a := a) S.unwrapped S.valid (by simp [groupArgs])
    (by simp [groupArgs, GroupsDisjoint]) (by
      intro g' hg'
      simp only [groupArgs, List.mem_singleton] at hg'
      subst hg'
      have := hacc (fill (defaults a) g') (by
        rw [hti.2.2]; exact List.mem_map.2 ⟨g', List.mem_of_getElem? hg, rfl⟩)
      exact this) [G] rfl (by
      refine checkLayers_iff.2 fun m hm hl sup p hp q hq hp' hq' => ?_
      rw [h1, h1, if_pos ((hpid _).1 hp'), if_pos ((hpid _).1 hq')]) (by
      intro m hm
      rw [hlay] at hm
      obtain ⟨hmo, e1, e2, e3⟩ := hwt m hm
      refine ⟨0, G, by rw [h1, if_pos e2], rfl, ?_⟩
      obtain ⟨sup, h, cK, cC, K, C, f1, f2, f3, f4, f5, f6, f7, f8, f9⟩ := S.lay m hmo
      rw [e3] at f1; cases f1
      rw [S.structs] at f2 f3
      refine ⟨cK, cC, K, C, f2, f3, f4, f5, fun h0 => ?_⟩
      obtain ⟨mK, mC, z1, z2, _⟩ := f9 h0
      exact ⟨mK, mC, z1, z2⟩)
  refine ⟨oi, wsi, hoi, fun data grad => ?_⟩
  have S' := init_ok hn hoi
  have hgr' : oi.groups = [G] := by rw [S'.groups_eq]; rfl
  have hlay' : oi.layers = o.layers.filter (inGroup o i) := by rw [S'.layers, hgr', hlay]
  have hptr : ∀ m ∈ o.layers.filter (inGroup o i), oi.ptrGroup m.weight.ptr = some 0 := fun m hm => by
    rw [S'.ptrGroup, hgr', h1, if_pos (hwt m hm).2.2.1]
  have hfac : ∀ m ∈ o.layers.filter (inGroup o i), o.hyperOf m = oi.hyperOf m ∧ o.Ks m.name = oi.Ks m.name ∧ o.Cs m.name = oi.Cs m.name ∧
      o.mKs m.name = oi.mKs m.name ∧ o.mCs m.name = oi.mCs m.name := by
    intro m hm
    obtain ⟨hmo, e1, e2, e3⟩ := hwt m hm
    obtain ⟨sup, h, cK, cC, K, C, f1, f2, f3, f4, f5, f6, f7, f8, f9⟩ := S.lay m hmo
    obtain ⟨_, h', cK', cC', K', C', f1', f2', f3', f4', f5', f6', f7', f8', f9'⟩ := S'.lay m (by rw [hlay']; exact hm)
    have hy : oi.hyperOf m = .ok G.h := by
      rw [Opt.hyperOf, if_pos sup, lookup, hptr m hm, Except.bind_ok', hgr']; rfl
    rw [e3] at f1; cases f1
    rw [hy] at f1'; cases f1'
    rw [S.structs] at f2 f3
    rw [S'.structs] at f2' f3'
    rw [f2] at f2'; cases f2'
    rw [f3] at f3'; cases f3'
    rw [f4] at f4'; cases f4'
    rw [f5] at f5'; cases f5'
    refine ⟨by rw [e3, hy], by rw [f6, f6'], by rw [f7, f7'], ?_⟩
    by_cases h0 : G.h.alpha1 = 0
    · rw [(f8 h0).1, (f8 h0).2, (f8' h0).1, (f8' h0).2]; exact ⟨rfl, rfl⟩
    · obtain ⟨mK, mC, z1, z2, z3, z4⟩ := f9 h0
      obtain ⟨mK', mC', z1', z2', z3', z4'⟩ := f9' h0
      rw [z1] at z1'; cases z1'
      rw [z2] at z2'; cases z2'
      rw [z3, z4, z3', z4']; exact ⟨rfl, rfl⟩
  refine ⟨⟨fun m hm => (hfac m hm).1, by rw [S.steps, S'.steps], by rw [S.scales, S'.scales], fun m hm => (hfac m hm).2.1, fun m hm => (hfac m hm).2.2.1,
    fun m hm => (hfac m hm).2.2.2.1, fun m hm => (hfac m hm).2.2.2.2, fun m hm => by rw [S.HKs, S'.HKs], fun m hm => by rw [S.HCs, S'.HCs],
    fun m hm p hp => by rw [S.mom, S'.mom], fun _ _ _ _ => rfl, fun _ _ _ _ => rfl⟩, hlay', ?_, ?_, ?_, rfl, by simp, ?_⟩
  · intro i' j' e
    simp only [onlyGroup] at e
    split at e
    · rename_i hii
      subst hii; cases e
      rw [hG, hgr']; rfl
    · cases e
  · intro m hm hk
    have hm' : m ∈ o.layers.filter (inGroup o i) := List.mem_filter.2 ⟨hm, hk⟩
    exact ⟨i, 0, (hwt m hm').2.1, by simp [onlyGroup], hptr m hm'⟩
  · intro i1 i2 j e1 e2
    simp only [onlyGroup] at e1 e2
    split at e1
    · split at e2
      · rename_i a b; rw [a, b]
      · cases e2
    · cases e1
  · intro m hm hk m' hm' hk'
    refine ⟨?_, fun p hp hp' => ?_⟩
    · intro e
      have hsub : (o.layers.map (·.name)).Nodup := by
        rw [S.layers]; exact hn.sublist (List.filter_sublist.map _)
      have : m = m' := List.inj_on_of_nodup_map hsub hm hm' e
      subst this
      rw [hk] at hk'; cases hk'
    · have := hs m hm m' hm' p hp hp'
      simp only [inGroup] at hk hk'
      rw [this] at hk
      rw [hk] at hk'; cases hk'

/-- **C43.** An optimizer with several groups was constructed, on a model whose supported modules are leaves and in which layers of different groups share
no parameters. Then an optimizer with any one of the groups can be constructed alone, and whatever happens without exceptions to the first optimizer also
happens without exceptions to the second one (leaving out what concerns other layers only), and the layers of the group end up with the same factors, momenta,
statistics, parameters and momentum buffers. -/
theorem C43_groups {structs : String → Option Cls} {model : Model} {gs : List (GroupArg α)} {a : Args α} {o : Opt α} {ws : List Warn}
    (hn : (model.layers.map (·.name)).Nodup) (hleaf : ∀ m ∈ model.layers, m.supported = true → m.leaf = true)
    (hi : init structs model (.groups gs) a = .ok (o, ws)) {i : ℕ} {g : GroupArg α} (hg : gs[i]? = some g)
    (hs : ∀ m ∈ o.layers, ∀ m' ∈ o.layers, ∀ p, World.Owns m p → World.Owns m' p → o.ptrGroup m.weight.ptr = o.ptrGroup m'.weight.ptr) :
    ∃ oi wsi, init structs model (.groups [g]) a = .ok (oi, wsi) ∧ oi.layers = o.layers.filter (inGroup o i) ∧
      ∀ data grad ops A', runOk ops ⟨o, data, grad, []⟩ = some A' →
        ∃ B', runOk (subRun (inGroup o i) (onlyGroup i) ops ⟨o, data, grad, []⟩) ⟨oi, data, grad, []⟩ = some B' ∧ B'.opt.steps = A'.opt.steps ∧
          ∀ m ∈ oi.layers, A'.opt.Ks m.name = B'.opt.Ks m.name ∧ A'.opt.Cs m.name = B'.opt.Cs m.name ∧ A'.opt.mKs m.name = B'.opt.mKs m.name ∧
            A'.opt.mCs m.name = B'.opt.mCs m.name ∧ A'.opt.HKs m.name = B'.opt.HKs m.name ∧ A'.opt.HCs m.name = B'.opt.HCs m.name ∧
            ∀ p, World.Owns m p → A'.data p = B'.data p ∧ A'.opt.mom p = B'.opt.mom p := by
  obtain ⟨oi, wsi, hoi, hsub⟩ := init_sub hn hleaf hi hg hs
  have hl : oi.layers = o.layers.filter (inGroup o i) := (hsub (fun _ => Mat.zeros 0 0) fun _ => none).layers
  refine ⟨oi, wsi, hoi, hl, fun data grad ops A' h => ?_⟩
  obtain ⟨B', hB, s⟩ := (hsub data grad).run ops h
  refine ⟨B', hB, s.agree.steps.symm, fun m hm => ?_⟩
  have hA : A'.opt.layers = o.layers := runOk_layers h
  have hm' : m ∈ A'.opt.layers.filter (inGroup o i) := by rw [hA, ← hl]; exact hm
  exact ⟨s.agree.Ks m hm', s.agree.Cs m hm', s.agree.mKs m hm', s.agree.mCs m hm', s.agree.HKs m hm', s.agree.HCs m hm',
    fun p hp => ⟨s.agree.data m hm' p hp, s.agree.mom m hm' p hp⟩⟩

/-- Layers of different groups share no parameters if weights and biases of all trained layers were handed over. -/
theorem C43_complete {structs : String → Option Cls} {model : Model} {gs : List (GroupArg α)} {a : Args α} {o : Opt α} {ws : List Warn}
    (hn : (model.layers.map (·.name)).Nodup) (hleaf : ∀ m ∈ model.layers, m.supported = true → m.leaf = true)
    (hi : init structs model (.groups gs) a = .ok (o, ws))
    (hc : ∀ m ∈ o.layers, ∀ p, World.Owns m p → ∃ g ∈ gs, p ∈ g.params.map (·.ptr)) :
    ∀ m ∈ o.layers, ∀ m' ∈ o.layers, ∀ p, World.Owns m p → World.Owns m' p → o.ptrGroup m.weight.ptr = o.ptrGroup m'.weight.ptr := by
  have S := init_ok hn hi
  have hall : ∀ m ∈ o.layers, ∀ p, World.Owns m p → p ∈ paramIds o.groups := by
    intro m hm p hp
    obtain ⟨g, hg, hpg⟩ := hc m hm p hp
    rw [paramIds_mem, S.groups_eq]
    exact ⟨_, List.mem_map.2 ⟨g, hg, rfl⟩, hpg⟩
  have key : ∀ m ∈ o.layers, ∀ p, World.Owns m p → o.ptrGroup m.weight.ptr = o.ptrGroup p := by
    intro m hm p hp
    have hm' := hm
    rw [S.layers, hooked_mem] at hm'
    obtain ⟨h1, sup, _⟩ := hm'
    rcases hp with rfl | ⟨b, hb, rfl⟩
    · rfl
    · rw [S.ptrGroup]
      exact checkLayers_iff.1 S.check m h1 (hleaf m h1 sup) sup m.weight (weight_mem sup) b (by simp [Layer.parameters, sup, hb])
        (hall m hm _ (Or.inl rfl)) (hall m hm _ (Or.inr ⟨b, hb, rfl⟩))
  intro m hm m' hm' p hp hp'
  rw [key m hm p hp, key m' hm' p hp']

namespace Sample
/-- the first layer with the default learning rate, the second one with another one and another interval -/
def twoGroups : List (GroupArg ℚ) := [⟨[⟨0, true⟩, ⟨1, true⟩], id⟩, ⟨[⟨2, true⟩], fun h => { h with lr := 1 / 4, T := 1 }⟩]
/-- forward and backward through both layers, a change of hyper-parameters, and two steps -/
def twoGroupsOps : List (Op ℚ) := pass ++ [.setHyper 0 { Construct.defaults args with lr := 1 / 8 }, .step false none false,
  .forward 0 (row [2]) true, .forward 1 (row [1, 5]) true, .backward 2 (row [1]), .step false none false]
end Sample

-- two groups, a history without exceptions, and what is left of it for the second group
example : (∃ ws, init supportedStructures Sample.model (.groups Sample.twoGroups) Sample.args = .ok (Sample.opt Sample.model (.groups Sample.twoGroups) Sample.args, ws)) ∧
    (∀ m ∈ Sample.model.layers, m.supported = true → m.leaf = true) ∧
    (∀ m ∈ (Sample.opt Sample.model (.groups Sample.twoGroups) Sample.args).layers, ∀ p, World.Owns m p → ∃ g ∈ Sample.twoGroups, p ∈ g.params.map (·.ptr)) ∧
    (runOk Sample.twoGroupsOps (Sample.world Sample.model (.groups Sample.twoGroups) Sample.args)).isSome = true ∧
    (subRun (inGroup (Sample.opt Sample.model (.groups Sample.twoGroups) Sample.args) 1) (onlyGroup 1) Sample.twoGroupsOps
      (Sample.world Sample.model (.groups Sample.twoGroups) Sample.args)).length = 6 := by
  refine ⟨Sample.init_eq (by decide +kernel), by decide, ?_, by decide +kernel, by decide +kernel⟩
  have hl : (Sample.opt Sample.model (.groups Sample.twoGroups) Sample.args).layers = [Sample.la, Sample.lb] := by
    obtain ⟨ws, e⟩ := Sample.init_eq (m := Sample.model) (p := .groups Sample.twoGroups) (a := Sample.args) (by decide +kernel)
    have S := init_ok (by decide) e
    rw [S.layers, S.groups_eq]; rfl
  rw [hl]
  intro m hm p hp
  simp only [List.mem_cons, List.not_mem_nil, or_false] at hm
  rcases hm with rfl | rfl
  · rcases hp with rfl | ⟨b, hb, rfl⟩
    · exact ⟨_, List.mem_cons_self, by decide⟩
    · cases hb; exact ⟨_, List.mem_cons_self, by decide⟩
  · rcases hp with rfl | ⟨b, hb, rfl⟩
    · exact ⟨_, List.mem_cons_of_mem _ List.mem_cons_self, by decide⟩
    · cases hb
