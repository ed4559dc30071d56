import Verif.Props.Order
import Verif.Props.Accumulate

/-! C85: only the backward passes that fire matter, and recomputed forward passes (activation checkpointing) do not. -/

set_option linter.unusedSectionVars false
open Matrix

section Checkpoint
variable {α : Type} [Field α] [LinearOrder α] [HasSqrt α]

/-- two states that agree in everything but the tensor hooks registered so far -/
structure SameButHooks (A B : World α) : Prop where
  opt : A.opt = B.opt
  data : A.data = B.data
  grad : A.grad = B.grad

theorem SameButHooks.refl (A : World α) : SameButHooks A A := ⟨rfl, rfl, rfl⟩
theorem SameButHooks.symm {A B : World α} (h : SameButHooks A B) : SameButHooks B A := ⟨h.1.symm, h.2.symm, h.3.symm⟩
theorem SameButHooks.trans {A B C : World α} (h : SameButHooks A B) (h' : SameButHooks B C) : SameButHooks A C :=
  ⟨h.1.trans h'.1, h.2.trans h'.2, h.3.trans h'.3⟩
theorem SameButHooks.eq {A B : World α} (h : SameButHooks A B) : B = { A with hooks := B.hooks } := by
  obtain ⟨a, b, c, d⟩ := A; obtain ⟨a', b', c', d'⟩ := B
  obtain ⟨h1, h2, h3⟩ := h; cases h1; cases h2; cases h3; rfl

/-- does the forward hook of layer `i` register a tensor hook in this state (if gradients are enabled)? `optimizer.py:573-576` -/
def leavesHook (w : World α) (i : ℕ) : Bool := match w.opt.layers[i]? with
  | some m => match w.opt.hyperOf m with
    | .ok h => h.T ≠ 0 && w.opt.steps % h.T = 0
    | .error _ => false
  | none => false

/-- A use of a layer in a mini-batch: index of the layer, its input and the gradient w.r.t. its output. -/
abbrev Use (α : Type) [Zero α] := ℕ × ND α × ND α

/-- forward passes through layers, in this order -/
def fwds (ge : Bool) (us : List (Use α)) : List (Op α) := us.map fun u => .forward u.1 u.2.1 ge

/-- the backward pass: the hooks numbered from `n` fire, the last one first -/
def backs : ℕ → List (Use α) → List (Op α)
  | _, [] => []
  | n, u :: us => backs (n + 1) us ++ [.backward n u.2.2]

/-- forward and backward pass of a mini-batch -/
def plainPass (w : World α) (us : List (Use α)) : List (Op α) := fwds true us ++ backs w.hooks.length (us.filter fun u => leavesHook w u.1)

/-- the backward pass over segments whose activations were not kept: run a segment forward again, then backward -/
def recompPass : World α → List (List (Use α)) → List (Op α)
  | _, [] => []
  | w, s :: ss => plainPass w s ++ recompPass (run (plainPass w s) w) ss

/-- A mini-batch with activation checkpointing (`torch.utils.checkpoint`): a forward pass without gradients, then, beginning with the last
segment, every segment is run forward again, with gradients, and backward. -/
def checkpointPass (w : World α) (segs : List (List (Use α))) : List (Op α) := fwds false segs.flatten ++ recompPass w segs.reverse

/-- a step of a training script: a mini-batch, whose layers are grouped into segments, or some other operation -/
inductive Item (α : Type) [Zero α]
  | batch (segs : List (List (Use α)))
  | op (o : Op α)

/-- operations other than forward and backward passes -/
def Op.Other : Op α → Prop
  | .forward .. => False
  | .backward .. => False
  | _ => True

/-- the script, run without activation checkpointing -/
def runPlain : List (Item α) → World α → World α
  | [], w => w
  | .batch segs :: is, w => runPlain is (run (plainPass w segs.flatten) w)
  | .op o :: is, w => runPlain is (exec o w).2

/-- the script, run with activation checkpointing -/
def runCheckpoint : List (Item α) → World α → World α
  | [], w => w
  | .batch segs :: is, w => runCheckpoint is (run (checkpointPass w segs) w)
  | .op o :: is, w => runCheckpoint is (exec o w).2

/-- `x` neither reads nor changes the tensor hooks -/
def Blind {β : Type} (x : Py (World α) β) : Prop := ∀ w hs, x { w with hooks := hs } = ((x w).1, { (x w).2 with hooks := hs })

namespace Blind
variable {β γ : Type}

theorem pure (b : β) : Blind (Pure.pure b : Py (World α) β) := fun _ _ => rfl
theorem raise (e : PyErr) : Blind (Py.raise e : Py (World α) β) := fun _ _ => rfl
theorem lift (x : Except PyErr β) : Blind (Py.lift x : Py (World α) β) := fun _ _ => rfl
theorem bind {x : Py (World α) β} {f : β → Py (World α) γ} (hx : Blind x) (hf : ∀ b, Blind (f b)) : Blind (x >>= f) := by
  intro w hs
  rw [Py.bind_run, Py.bind_run, hx w hs]
  rcases x w with ⟨e | b, w1⟩
  · rfl
  · exact hf b w1 hs
theorem get_bind {f : World α → Py (World α) γ} (h : ∀ w, Blind (f w)) (h' : ∀ w hs, f { w with hooks := hs } = f w) : Blind (Py.get >>= f) := by
  intro w hs
  rw [Py.get_bind_run, Py.get_bind_run, h' w hs]
  exact h w w hs
theorem modify {f : World α → World α} (h : ∀ w hs, f { w with hooks := hs } = { f w with hooks := hs }) : Blind (Py.modify f) :=
  fun w hs => congrArg (Prod.mk (Except.ok ())) (h w hs)
theorem setOpt (f : Opt α → Opt α) : Blind (World.setOpt f) := modify fun _ _ => rfl
theorem forM {f : Layer → Py (World α) Unit} (h : ∀ m, Blind (f m)) : ∀ ms : List Layer, Blind (Py.forM ms f)
  | [] => pure ()
  | m :: ms => bind (h m) fun _ => forM h ms
theorem ite {p : Prop} [Decidable p] {x y : Py (World α) β} (hx : Blind x) (hy : Blind y) : Blind (if p then x else y) := by
  split
  · exact hx
  · exact hy

theorem accumulateH (m : Layer) (x g : ND α) : Blind (World.accumulateH m x g) := by
  unfold World.accumulateH World.commitH
  refine get_bind (fun w => bind (lift _) fun H => get_bind (fun w => bind (lift _) fun _ => bind (setOpt _) fun _ => bind (lift _) fun _ => setOpt _)
    fun _ _ => rfl) fun _ _ => rfl

theorem setScale (s : α) : Blind (Opt.setScale s) := by
  unfold Opt.setScale
  refine bind (modify fun _ _ => rfl) fun _ => get_bind (fun w => ?_) fun _ _ => rfl
  exact ite (bind (lift _) fun _ => bind (lift _) fun _ => pure _) (pure _)

theorem updateOn (h : Hyper α) (m : Layer) : Blind (World.updateOn h m) := by
  unfold World.updateOn
  exact get_bind (fun w => bind (lift _) fun K => bind (lift _) fun C => bind (lift _) fun HK => bind (setOpt _) fun _ => bind (lift _) fun HC =>
    bind (setOpt _) fun _ => bind (lift _) fun ms => bind (setOpt _) fun _ => bind (lift _) fun bK => bind (lift _) fun bC => bind (lift _) fun K' =>
    bind (setOpt _) fun _ => bind (lift _) fun C' => setOpt _) fun _ _ => rfl

theorem updatePreconditioner (m : Layer) : Blind (World.updatePreconditioner (α := α) m) := by
  unfold World.updatePreconditioner
  exact get_bind (fun w => bind (lift _) fun h => ite (raise _) (ite (pure _) (updateOn h m))) fun _ _ => rfl

theorem moveParam (h : Hyper α) (p : ℕ) (step : Mat α) : Blind (World.moveParam h p step) :=
  get_bind (fun _ => bind (lift _) fun _ => modify fun _ _ => rfl) fun _ _ => rfl

theorem paramStep (h : Hyper α) (p : ℕ) (step : Mat α) : Blind (World.paramStep h p step) := by
  unfold World.paramStep
  exact get_bind (fun w => bind (lift _) fun st => ite (bind (lift _) fun buf => bind (setOpt _) fun _ => moveParam _ _ _) (moveParam _ _ _))
    fun _ _ => rfl

theorem applyNat (m : Layer) (N : Mat α) : Blind (World.applyNat m N) := by
  unfold World.applyNat
  refine get_bind (fun w => ?_) fun _ _ => rfl
  cases m.bias with
  | none => exact bind (lift _) fun _ => bind (lift _) fun _ => paramStep _ _ _
  | some b => exact bind (lift _) fun _ => bind (lift _) fun _ => bind (lift _) fun _ => bind (paramStep _ _ _) fun _ => paramStep _ _ _

theorem layerStep (m : Layer) : Blind (World.layerStep (α := α) m) := by
  unfold World.layerStep
  exact bind (updatePreconditioner m) fun _ => get_bind (fun w => bind (lift _) fun N => applyNat m N) fun _ _ => rfl

theorem ensureScale (a : Option α) : Blind (World.ensureScale a) := by
  unfold World.ensureScale
  refine get_bind (fun w => ?_) fun _ _ => rfl
  cases w.opt.scales w.opt.steps with
  | none => exact setScale _
  | some _ => exact pure _

theorem step (c : Bool) (a : Option α) (f : Bool) : Blind (World.step c a f) := by
  unfold World.step
  refine ite (raise _) (bind (ensureScale a) fun _ => bind ?_ fun _ => bind (setOpt _) fun _ => setOpt _)
  unfold World.stepBody World.dropStats World.innerStep
  exact ite (get_bind (fun w => forM (fun m => setOpt (α := α) _) _) fun _ _ => rfl) (get_bind (fun w => forM layerStep _) fun _ _ => rfl)

theorem exec {o : Op α} (ho : o.Other) : Blind (_root_.exec o) := by
  cases o with
  | forward => exact ho.elim
  | backward => exact ho.elim
  | setGrad => exact modify fun _ _ => rfl
  | setParam => exact modify fun _ _ => rfl
  | setHyper i h => exact setOpt fun o => { o with groups := o.groups.modify i fun g => { g with h := h } }
  | setScale s => exact setScale s
  | step c a f => exact step c a f

theorem same {β : Type} {x : Py (World α) β} (hx : Blind x) {A B : World α} (h : SameButHooks A B) :
    (x A).1 = (x B).1 ∧ SameButHooks (x A).2 (x B).2 ∧ (x A).2.hooks = A.hooks := by
  have hA : (x A).2.hooks = A.hooks := by have := congrArg (fun r => r.2.hooks) (hx A A.hooks); exact this
  rw [h.eq, hx A B.hooks]
  exact ⟨rfl, ⟨rfl, rfl, rfl⟩, hA⟩

end Blind

/-- the statistics of some uses of layers, accumulated one after the other -/
def accAll (es : List (Layer × ND α × ND α)) (w : World α) : World α := es.foldl (fun w e => (World.accumulateH e.1 e.2.1 e.2.2 w).2) w

theorem accAll_append (xs ys : List (Layer × ND α × ND α)) (w : World α) : accAll (xs ++ ys) w = accAll ys (accAll xs w) := List.foldl_append

theorem accAll_same : ∀ (es : List (Layer × ND α × ND α)) {A B : World α}, SameButHooks A B → SameButHooks (accAll es A) (accAll es B)
  | [], _, _, h => h
  | e :: es, _, _, h => accAll_same es ((Blind.accumulateH e.1 e.2.1 e.2.2).same h).2.1

theorem accAll_hooks : ∀ (es : List (Layer × ND α × ND α)) (A : World α), (accAll es A).hooks = A.hooks
  | [], _ => rfl
  | e :: es, A => (accAll_hooks es _).trans ((Blind.accumulateH e.1 e.2.1 e.2.2).same (SameButHooks.refl A)).2.2

/-- the uses that leave a hook, with their layers -/
def entries (w : World α) (us : List (Use α)) : List (Layer × ND α × ND α) :=
  us.filterMap fun u => if leavesHook w u.1 then (w.opt.layers[u.1]?).map fun m => (m, u.2) else none

theorem exec_forward_hooked (i : ℕ) (x : ND α) (w : World α) :
    (exec (.forward i x true) w).2 = { w with hooks := w.hooks ++ if leavesHook w i then (w.opt.layers[i]?.toList).map (·, x) else [] } := by
  rw [exec, Py.get_bind_run]
  rcases hm : w.opt.layers[i]? with _ | m
  · simp; rfl
  · simp only [World.forwardHook, Py.get_bind_run]
    rcases hh : w.opt.hyperOf m with e | h
    · have hk : leavesHook w i = false := by simp [leavesHook, hm, hh]
      rw [hk]; simp; rfl
    · rw [Py.lift_ok_bind_run, if_pos trivial]
      by_cases h0 : h.T = 0
      · have hk : leavesHook w i = false := by simp [leavesHook, hm, hh, h0]
        rw [if_pos h0, hk]; simp; rfl
      · rw [if_neg h0]
        by_cases hs : w.opt.steps % h.T = 0
        · have hk : leavesHook w i = true := by simp [leavesHook, hm, hh, h0, hs]
          rw [if_pos hs, hk]; rfl
        · have hk : leavesHook w i = false := by simp [leavesHook, hm, hh, hs]
          rw [if_neg hs, hk]; simp; rfl

theorem leavesHook_same {A B : World α} (h : A.opt = B.opt) : leavesHook A = leavesHook B := by funext i; unfold leavesHook; rw [h]
theorem entries_same {A B : World α} (h : A.opt = B.opt) (us : List (Use α)) : entries A us = entries B us := by
  unfold entries; rw [leavesHook_same h, h]

theorem entries_cons (w : World α) (u : Use α) (us : List (Use α)) :
    entries w (u :: us) = (if leavesHook w u.1 then (w.opt.layers[u.1]?.toList).map (·, u.2) else []) ++ entries w us := by
  unfold entries
  rw [List.filterMap_cons]
  split
  · rename_i h
    split at h
    · rename_i hk
      rw [if_pos hk]
      simp only [Option.map_eq_none_iff] at h
      rw [h]; rfl
    · rename_i hk; rw [if_neg hk]; rfl
  · rename_i b h
    split at h
    · rename_i hk
      rw [if_pos hk]
      rcases hl : w.opt.layers[u.1]? with _ | m
      · rw [hl] at h; cases h
      · rw [hl] at h; cases h; rfl
    · cases h

theorem run_fwds : ∀ (us : List (Use α)) (w : World α),
    run (fwds true us) w = { w with hooks := w.hooks ++ (entries w us).map fun e => (e.1, e.2.1) }
  | [], w => by simp [fwds, run, entries]
  | u :: us, w => by
    show run (fwds true us) (exec (.forward u.1 u.2.1 true) w).2 = _
    rw [exec_forward_hooked, run_fwds us, entries_cons, entries_same (B := w) rfl]
    simp only [World.mk.injEq, true_and, List.map_append, List.append_assoc, List.append_cancel_left_eq, List.append_cancel_right_eq]
    split
    · rw [List.map_map]; rfl
    · rfl

theorem run_fwds_false : ∀ (us : List (Use α)) (w : World α), run (fwds false us) w = w
  | [], _ => rfl
  | u :: us, w => by
    show run (fwds false us) (exec (.forward u.1 u.2.1 false) w).2 = w
    rw [C36_no_grad]; exact run_fwds_false us w

theorem entries_filter (w : World α) : ∀ us : List (Use α), entries w (us.filter fun u => leavesHook w u.1) = entries w us
  | [] => rfl
  | u :: us => by
    rw [List.filter_cons]
    split
    · rw [entries_cons, entries_cons, entries_filter w us]
    · rename_i h; rw [entries_cons, if_neg h, entries_filter w us]; rfl

theorem run_backs : ∀ (es : List (Layer × ND α × ND α)) (us : List (Use α)) (n : ℕ) (w : World α), es.map (fun e => e.2.2) = us.map (fun u => u.2.2) →
    (∀ k, w.hooks[n + k]? = (es[k]?).map fun e => (e.1, e.2.1)) → run (backs n us) w = accAll es.reverse w
  | [], [], _, _, _, _ => rfl
  | [], _ :: _, _, _, h, _ => by cases h
  | _ :: _, [], _, _, h, _ => by cases h
  | e :: es, u :: us, n, w, h, hk => by
    obtain ⟨h1, h2⟩ := List.cons.inj h
    rw [backs, run_append, run_backs es us (n + 1) w h2 fun k => by rw [add_assoc, add_comm 1 k, hk (k + 1)]; rfl, List.reverse_cons, accAll_append]
    have h0 := hk 0
    rw [add_zero, ← accAll_hooks es.reverse w] at h0
    show (exec (.backward n u.2.2) _).2 = (World.accumulateH e.1 e.2.1 e.2.2 _).2
    rw [exec, Py.get_bind_run, h0]
    exact congrArg (fun g => (World.accumulateH e.1 e.2.1 g (accAll es.reverse w)).2) h1.symm

theorem entries_hooked (w : World α) : ∀ us : List (Use α), (∀ u ∈ us, leavesHook w u.1 = true) → (entries w us).map (fun e => e.2.2) = us.map fun u => u.2.2
  | [], _ => rfl
  | u :: us, h => by
    have hu := h u (by simp)
    rw [entries_cons, List.map_append, entries_hooked w us fun v hv => h v (by simp [hv]), if_pos hu]
    rcases hl : w.opt.layers[u.1]? with _ | m
    · unfold leavesHook at hu; rw [hl] at hu; cases hu
    · rfl

/-- a mini-batch accumulates the statistics of the uses of layers that leave a hook, beginning with the last one -/
theorem run_plain (w : World α) (us : List (Use α)) : SameButHooks (run (plainPass w us) w) (accAll (entries w us).reverse w) := by
  rw [plainPass, run_append, run_fwds]
  rw [run_backs (entries w us) _ _ _ (by
    rw [← entries_filter w us]; exact entries_hooked w _ fun u hu => (List.mem_filter.1 hu).2) fun k => by
      show (w.hooks ++ _)[w.hooks.length + k]? = _
      rw [List.getElem?_append_right (by omega), Nat.add_sub_cancel_left, List.getElem?_map]]
  exact accAll_same _ ⟨rfl, rfl, rfl⟩

theorem accAll_conf : ∀ (es : List (Layer × ND α × ND α)) (w : World α),
    (accAll es w).opt.layers = w.opt.layers ∧ (accAll es w).opt.ptrGroup = w.opt.ptrGroup ∧ (accAll es w).opt.groups = w.opt.groups ∧
      (accAll es w).opt.steps = w.opt.steps
  | [], _ => ⟨rfl, rfl, rfl, rfl⟩
  | e :: es, w => by
    have f := World.accumulateH_frame e.1 e.2.1 e.2.2 w
    obtain ⟨h1, h2, h3, h4⟩ := accAll_conf es (World.accumulateH e.1 e.2.1 e.2.2 w).2
    exact ⟨h1.trans f.layers, h2.trans f.ptrGroup, h3.trans f.groups, h4.trans f.steps⟩

theorem entries_conf {A B : World α} (h1 : A.opt.layers = B.opt.layers) (h2 : A.opt.ptrGroup = B.opt.ptrGroup) (h3 : A.opt.groups = B.opt.groups)
    (h4 : A.opt.steps = B.opt.steps) (us : List (Use α)) : entries A us = entries B us := by
  unfold entries leavesHook Opt.hyperOf; rw [h1, h2, h3, h4]

theorem run_recomp : ∀ (ss : List (List (Use α))) (w : World α),
    SameButHooks (run (recompPass w ss) w) (accAll ((ss.map fun s => (entries w s).reverse).flatten) w)
  | [], w => SameButHooks.refl w
  | s :: ss, w => by
    rw [recompPass, run_append, List.map_cons, List.flatten_cons, accAll_append]
    have h1 := run_plain w s
    refine (run_recomp ss _).trans ?_
    obtain ⟨c1, c2, c3, c4⟩ := accAll_conf (entries w s).reverse w
    have e : (fun t => (entries (run (plainPass w s) w) t).reverse) = fun t => (entries w t).reverse := by
      funext t
      rw [entries_same h1.opt, entries_conf c1 c2 c3 c4]
    rw [e]
    exact accAll_same _ h1

theorem entries_append (w : World α) (xs ys : List (Use α)) : entries w (xs ++ ys) = entries w xs ++ entries w ys := List.filterMap_append

theorem entries_segs (w : World α) : ∀ segs : List (List (Use α)), ((segs.reverse.map fun s => (entries w s).reverse).flatten) = (entries w segs.flatten).reverse
  | [] => rfl
  | s :: ss => by
    rw [List.reverse_cons, List.map_append, List.flatten_append, entries_segs w ss, List.flatten_cons, entries_append, List.reverse_append]
    simp

/-- **C85.** Activation checkpointing, with any segments: a mini-batch leaves the same optimizer state, parameters and gradients, whether or not activations are kept.
Not only equal statistics: the same structured matrices in the same order of accumulation, whatever the shapes, and also if accumulation raises. -/
theorem C85_checkpoint_batch (w : World α) (segs : List (List (Use α))) :
    SameButHooks (run (checkpointPass w segs) w) (run (plainPass w segs.flatten) w) := by
  rw [checkpointPass, run_append, run_fwds_false]
  refine (run_recomp _ w).trans ?_
  rw [entries_segs]
  exact (run_plain w _).symm

theorem run_plain_same {A B : World α} (h : SameButHooks A B) (us : List (Use α)) : SameButHooks (run (plainPass A us) A) (run (plainPass B us) B) := by
  refine (run_plain A us).trans (SameButHooks.trans ?_ (run_plain B us).symm)
  rw [entries_same h.opt]
  exact accAll_same _ h

/-- **C85.** Training with activation checkpointing is training without it: after every script of mini-batches and other operations (steps, skipped steps, changes of
gradients, parameters, hyper-parameters and scales) everything but the list of hooks is the same. -/
theorem C85_checkpointing : ∀ (is : List (Item α)), (∀ o, Item.op o ∈ is → o.Other) → ∀ {A B : World α}, SameButHooks A B →
    SameButHooks (runCheckpoint is A) (runPlain is B)
  | [], _, _, _, h => h
  | .batch segs :: is, ho, A, B, h => by
    rw [runCheckpoint, runPlain]
    exact C85_checkpointing is (fun o hm => ho o (by simp [hm])) ((C85_checkpoint_batch A segs).trans (run_plain_same h _))
  | .op o :: is, ho, A, B, h => by
    rw [runCheckpoint, runPlain]
    exact C85_checkpointing is (fun o hm => ho o (by simp [hm])) ((Blind.exec (ho o (by simp))).same h).2.1

end Checkpoint

namespace Sample

/-- a mini-batch through both layers, two segments, and a step -/
def ckpt : List (Item ℚ) := [.batch [[(0, row [2], row [2])], [(1, row [1, 3], row [1])]], .op (.step false none false)]

end Sample

-- every operation succeeds, the factors change, and hooks are registered in another order
example : Sample.fac ((runPlain Sample.ckpt Sample.w0).opt.Ks "a") ≠ Sample.fac (Sample.w0.opt.Ks "a") ∧
    (runPlain Sample.ckpt Sample.w0).hooks.map (fun e => e.1.name) = ["a", "b"] ∧
    (runCheckpoint Sample.ckpt Sample.w0).hooks.map (fun e => e.1.name) = ["b", "a"] ∧ (runCheckpoint Sample.ckpt Sample.w0).opt.steps = 1 := by
  decide +kernel

section Passes
variable {α : Type} [Field α] [LinearOrder α] [IsStrictOrderedRing α] [LawfulSqrt α]

/-- everything the optimizer and its parameters consist of agrees in two states: configuration, factors, momenta, statistics, parameters, buffers
and the scale of the previous step -/
structure SameTraining (A B : World α) : Prop where
  conf : SameConf A B
  lay : ∀ m ∈ A.opt.layers, LayEq m A B
  stat : ∀ m ∈ A.opt.layers, A.opt.HKs m.name = B.opt.HKs m.name ∧ A.opt.HCs m.name = B.opt.HCs m.name
  data : A.data = B.data
  mom : A.opt.mom = B.opt.mom
  prev : A.opt.scales ((A.opt.steps : ℤ) - 1) = B.opt.scales ((A.opt.steps : ℤ) - 1)

/-- Histories of two runs with the same backward passes. Between steps both runs do any forward and backward passes, set any gradients and scales; the pairs of
inputs and output gradients that reach a layer are the same, in any order. When a step is taken, the gradients and the scale agree. Parameters and hyper-parameters
may be changed in both runs. -/
inductive SamePasses : World α → World α → List (Op α) → List (Op α) → Prop
  | done (A B : World α) : SamePasses A B [] []
  | passes {A B : World α} {as bs as' bs' : List (Op α)} (qA : ∀ op ∈ as, op.Quiet) (qB : ∀ op ∈ bs, op.Quiet)
      (same : ∀ m ∈ A.opt.layers, (fired m.name as A).Perm (fired m.name bs B))
      (next : SamePasses (run as A) (run bs B) as' bs') : SamePasses A B (as ++ as') (bs ++ bs')
  | step {A B : World α} {a b : Option α} {f : Bool} {as bs : List (Op α)}
      (scale : A.curScale a = B.curScale b) (grad : f = false → ∀ m ∈ A.opt.layers, ∀ p, World.Owns m p → A.grad p = B.grad p)
      (next : SamePasses (exec (.step false a f) A).2 (exec (.step false b f) B).2 as bs) :
      SamePasses A B (.step false a f :: as) (.step false b f :: bs)
  | setParam {A B : World α} {p : ℕ} {M : Mat α} {as bs : List (Op α)}
      (next : SamePasses (exec (.setParam p M) A).2 (exec (.setParam p M) B).2 as bs) : SamePasses A B (.setParam p M :: as) (.setParam p M :: bs)
  | setHyper {A B : World α} {i : ℕ} {h : Hyper α} {as bs : List (Op α)}
      (next : SamePasses (exec (.setHyper i h) A).2 (exec (.setHyper i h) B).2 as bs) :
      SamePasses A B (.setHyper i h :: as) (.setHyper i h :: bs)

theorem SameTraining.passes {cl : String → Cls × Cls} {A B : World α} (r : SameTraining A B) (lA : A.Live cl) (lB : B.Live cl)
    {as bs : List (Op α)} (fA : FitsRun A as) (fB : FitsRun B bs) (qA : ∀ op ∈ as, op.Quiet) (qB : ∀ op ∈ bs, op.Quiet)
    (same : ∀ m ∈ A.opt.layers, (fired m.name as A).Perm (fired m.name bs B)) : SameTraining (run as A) (run bs B) := by
  have wA := lA.window fA qA
  have wB := lB.window fB qB
  refine ⟨⟨by rw [wA.layers, wB.layers, r.conf.layers], by rw [wA.ptrGroup, wB.ptrGroup, r.conf.ptrGroup],
    by rw [wA.groups, wB.groups, r.conf.groups], by rw [wA.steps, wB.steps, r.conf.steps]⟩, ?_, ?_, by rw [wA.data, wB.data, r.data],
    by rw [wA.mom, wB.mom, r.mom], ?_⟩
  · intro m hm
    rw [wA.layers] at hm
    have L := r.lay m hm
    exact ⟨by rw [wA.Ks, wB.Ks, L.Ks], by rw [wA.Cs, wB.Cs, L.Cs], by rw [wA.mKs, wB.mKs, L.mKs],
        by rw [wA.mCs, wB.mCs, L.mCs], fun p hp => by rw [wA.data, wB.data, L.data p hp],
        fun p hp => by rw [wA.mom, wB.mom, L.mom p hp]⟩
  · intro m hm
    rw [wA.layers] at hm
    obtain ⟨h, hh, _⟩ := lA.sound.hyper m hm
    obtain ⟨p, hp⟩ := lA.prev
    have hmB : m ∈ B.opt.layers := r.conf.layers ▸ hm
    have SA := wA.stats m hm h p hh hp
    have SB := wB.stats m hmB h p (by rw [← r.conf.hyperOf]; exact hh) (by rw [← r.conf.steps, ← r.prev]; exact hp)
    have WA := wA.live.sound.lay m (by rw [wA.layers]; exact hm)
    have WB := wB.live.sound.lay m (by rw [wB.layers]; exact hmB)
    have sm := same m hm
    have e0 : fired m.name bs B = [] ↔ fired m.name as A = [] := ⟨fun e => by rw [e] at sm; exact sm.eq_nil, fun e => by rw [e] at sm; exact sm.nil_eq.symm⟩
    obtain ⟨sK, sC⟩ := r.stat m hm
    constructor
    · refine optWF_ext WA.HK WB.HK (by rw [SA.HK0, SB.HK0, e0, sK]) ?_
      rw [SA.HK, SB.HK, sK, (r.lay m hm).Ks]
      exact congrArg _ (sm.map _).sum_eq
    · refine optWF_ext WA.HC WB.HC (by rw [SA.HC0, SB.HC0, e0, sC]) ?_
      rw [SA.HC, SB.HC, sC, (r.lay m hm).Cs]
      exact congrArg (fun X => denO (B.opt.HCs m.name) m.nC + (1 / p) • X) (sm.map _).sum_eq
  · have := wB.prev
    rw [← r.conf.steps] at this
    rw [wA.steps, wA.prev, this, r.prev]

theorem SameTraining.step {cl : String → Cls × Cls} {A B : World α} (r : SameTraining A B) (lA : A.Live cl) (lB : B.Live cl)
    {a b : Option α} {f : Bool} (fA : FitsOp A (.step false a f)) (fB : FitsOp B (.step false b f)) (scale : A.curScale a = B.curScale b)
    (grad : f = false → ∀ m ∈ A.opt.layers, ∀ p, World.Owns m p → A.grad p = B.grad p) :
    SameTraining (exec (.step false a f) A).2 (exec (.step false b f) B).2 := by
  have hlay := r.conf.layers
  cases f
  · obtain ⟨A', eA, sA, _⟩ := lA.step fA
    obtain ⟨B', eB, sB, _⟩ := lB.step fB
    rw [eA, eB]
    have L : ∀ m ∈ A.opt.layers, LayEq m A' B' ∧ A'.opt.HKs m.name = B'.opt.HKs m.name ∧ A'.opt.HCs m.name = B'.opt.HCs m.name := by
      intro m hm
      obtain ⟨h, hh, hT⟩ := lA.sound.hyper m hm
      have LA := sA.layer m hm h hh
      have LB := sB.layer m (hlay ▸ hm) h (by rw [← r.conf.hyperOf]; exact hh)
      obtain ⟨sK, sC⟩ := r.stat m hm
      refine ⟨LA.two (a := 1) (c := 1) LB (r.lay m hm) r.conf.steps (fun _ => ?_) ?_, ?_⟩
      · have eu : A.unscale a = B.unscale b := by
          rw [World.unscale, World.unscale, scale, r.prev, ← r.conf.steps]
        exact ⟨by rw [sK, one_smul], by rw [sC, one_smul], fun _ => ⟨rfl, by rw [mul_one, eu]⟩, fun _ => by rw [mul_one, mul_one, eu]⟩
      · rw [scale]
        congr 1
        funext i j
        unfold gradM
        rw [grad rfl m hm _ (Or.inl rfl)]
        split
        · rfl
        · rcases hb : m.bias with _ | b
          · rfl
          · simp only [Option.bind_some]
            rw [grad rfl m hm _ (Or.inr ⟨b, hb, rfl⟩)]
      · by_cases h0 : A.opt.steps % h.T = 0
        · have vA := LA.upd h0
          have vB := LB.upd (by rw [← r.conf.steps]; exact h0)
          exact ⟨by rw [vA.HK, vB.HK], by rw [vA.HC, vB.HC]⟩
        · have vA := LA.noupd h0
          have vB := LB.noupd (by rw [← r.conf.steps]; exact h0)
          exact ⟨by rw [vA.HKs, vB.HKs, sK], by rw [vA.HCs, vB.HCs, sC]⟩
    have P : ∀ p, A'.data p = B'.data p ∧ A'.opt.mom p = B'.opt.mom p := by
      intro p
      by_cases hp : ∃ m ∈ A.opt.layers, World.Owns m p
      · obtain ⟨m, hm, hp⟩ := hp
        exact ⟨(L m hm).1.data p hp, (L m hm).1.mom p hp⟩
      · have n1 : ∀ m ∈ A.opt.layers, ¬ World.Owns m p := fun m hm h => hp ⟨m, hm, h⟩
        obtain ⟨a1, a2⟩ := sA.otherP p n1
        obtain ⟨b1, b2⟩ := sB.otherP p (by rw [← hlay]; exact n1)
        rw [a1, a2, b1, b2, r.data, r.mom]; exact ⟨rfl, rfl⟩
    refine ⟨⟨by rw [sA.layers, sB.layers, r.conf.layers], by rw [sA.ptrGroup, sB.ptrGroup, r.conf.ptrGroup],
      by rw [sA.groups, sB.groups, r.conf.groups], by rw [sA.steps, sB.steps, r.conf.steps]⟩, ?_, ?_, funext fun p => (P p).1,
      funext fun p => (P p).2, ?_⟩
    · rw [sA.layers]; exact fun m hm => (L m hm).1
    · rw [sA.layers]; exact fun m hm => (L m hm).2
    · have e : (((A.opt.steps + 1 : ℕ) : ℤ) - 1) = A.opt.steps := by push_cast; ring
      rw [sA.steps, e, sA.scales, sB.scales, ← r.conf.steps, if_neg (lt_irrefl _), if_neg (lt_irrefl _), if_pos rfl, if_pos rfl, scale]
  · obtain ⟨A', eA, a1, a2, a3, a4, a5, a6, a7, a8, a9, a10, a11, a12, a13, a14⟩ := lA.skip a
    obtain ⟨B', eB, b1, b2, b3, b4, b5, b6, b7, b8, b9, b10, b11, b12, b13, b14⟩ := lB.skip b
    rw [eA, eB]
    refine ⟨⟨by rw [a1, b1, r.conf.layers], by rw [a2, b2, r.conf.ptrGroup], by rw [a3, b3, r.conf.groups], by rw [a4, b4, r.conf.steps]⟩,
      ?_, ?_, by rw [a10, b10, r.data], by rw [a11, b11, r.mom], ?_⟩
    · rw [a1]; intro m hm
      have L := r.lay m hm
      exact ⟨by rw [a6, b6, L.Ks], by rw [a7, b7, L.Cs], by rw [a8, b8, L.mKs], by rw [a9, b9, L.mCs], fun p hp => by rw [a10, b10, L.data p hp],
        fun p hp => by rw [a11, b11, L.mom p hp]⟩
    · rw [a1]; intro m hm
      have hmB := hlay ▸ hm
      constructor
      · rw [(a14 _).1, (b14 _).1, if_pos ⟨m, hm, rfl⟩, if_pos ⟨m, hmB, rfl⟩]
      · rw [(a14 _).2, (b14 _).2, if_pos ⟨m, hm, rfl⟩, if_pos ⟨m, hmB, rfl⟩]
    · have e : (((A.opt.steps + 1 : ℕ) : ℤ) - 1) = A.opt.steps := by push_cast; ring
      rw [a4, e, a13, b13, ← r.conf.steps, if_neg (lt_irrefl _), if_neg (lt_irrefl _), if_pos rfl, if_pos rfl, scale]

/-- **C85.** Only the backward passes that fire matter: two runs in which the same pairs of inputs and output gradients reach every layer between steps, in any order, with
any forward passes in between (recomputed, never followed by a backward pass, without gradients), have the same factors, momenta,
statistics, parameters and buffers throughout. -/
theorem C85_same_passes {cl : String → Cls × Cls} {A B : World α} {as bs : List (Op α)} (lA : A.Live cl) (lB : B.Live cl)
    (fA : FitsRun A as) (fB : FitsRun B bs) (r : SameTraining A B) (h : SamePasses A B as bs) : SameTraining (run as A) (run bs B) := by
  induction h with
  | done => exact r
  | passes qA qB same next ih =>
    obtain ⟨fA1, fA2⟩ := fitsRun_append fA
    obtain ⟨fB1, fB2⟩ := fitsRun_append fB
    rw [run_append, run_append]
    exact ih (lA.window fA1 qA).live (lB.window fB1 qB).live fA2 fB2 (r.passes lA lB fA1 fB1 qA qB same)
  | step scale grad next ih =>
    have r' := r.step lA lB fA.1 fB.1 scale grad
    obtain ⟨A', eA, lA'⟩ := lA.exec fA.1
    obtain ⟨B', eB, lB'⟩ := lB.exec fB.1
    rw [run_cons, run_cons]
    refine ih ?_ ?_ fA.2 fB.2 r'
    · rw [eA]; exact lA'
    · rw [eB]; exact lB'
  | @setParam A B p M as bs next ih =>
    obtain ⟨A', eA, lA'⟩ := lA.exec fA.1
    obtain ⟨B', eB, lB'⟩ := lB.exec fB.1
    rw [run_cons, run_cons]
    refine ih ?_ ?_ fA.2 fB.2 ?_
    · rw [eA]; exact lA'
    · rw [eB]; exact lB'
    · have ed : Function.update A.data p M = Function.update B.data p M := by rw [r.data]
      exact ⟨⟨r.conf.1, r.conf.2, r.conf.3, r.conf.4⟩, fun m hm => ⟨(r.lay m hm).1, (r.lay m hm).2, (r.lay m hm).3, (r.lay m hm).4,
        fun q _ => congrFun ed q, (r.lay m hm).6⟩, r.stat, ed, r.mom, r.prev⟩
  | @setHyper A B i hy as bs next ih =>
    obtain ⟨A', eA, lA'⟩ := lA.exec fA.1
    obtain ⟨B', eB, lB'⟩ := lB.exec fB.1
    rw [run_cons, run_cons]
    refine ih ?_ ?_ fA.2 fB.2 ?_
    · rw [eA]; exact lA'
    · rw [eB]; exact lB'
    · rw [exec_setHyper, exec_setHyper]
      refine ⟨⟨r.conf.1, r.conf.2, ?_, r.conf.4⟩, fun m hm => ⟨(r.lay m hm).1, (r.lay m hm).2, (r.lay m hm).3, (r.lay m hm).4,
        (r.lay m hm).5, (r.lay m hm).6⟩, r.stat, r.data, r.mom, r.prev⟩
      show A.opt.groups.modify i _ = B.opt.groups.modify i _
      rw [r.conf.groups]

theorem fitsRun_append_mk : ∀ {xs ys : List (Op α)} {w : World α}, FitsRun w xs → FitsRun (run xs w) ys → FitsRun w (xs ++ ys)
  | [], _, _, _, h => h
  | _ :: _, _, _, h1, h2 => ⟨h1.1, fitsRun_append_mk h1.2 h2⟩

namespace Sample

/-- two mini-batches through both layers of the sample model -/
theorem bpass_two {cl : String → Cls × Cls} {w : World α} (hw : w.Live cl) (hl : w.opt.layers = [la, lb])
    (hu : ∀ m ∈ w.opt.layers, ∃ h, w.opt.hyperOf m = .ok h ∧ w.opt.steps % h.T = 0) (hn : w.hooks = []) {b b' : ℕ} (hb : 0 < b) (hb' : 0 < b')
    {x0 x1 g0 g1 x0' x1' g0' g1' : ND α} (s0 : x0.shape = [b, 1]) (s1 : x1.shape = [b, 2]) (t0 : g0.shape = [b, 1]) (t1 : g1.shape = [b, 1])
    (s0' : x0'.shape = [b', 1]) (s1' : x1'.shape = [b', 2]) (t0' : g0'.shape = [b', 1]) (t1' : g1'.shape = [b', 1]) :
    FitsRun w (bpass 0 x0 x1 g0 g1 ++ bpass 2 x0' x1' g0' g1') ∧
      (∀ op ∈ bpass 0 x0 x1 g0 g1 ++ bpass 2 x0' x1' g0' g1', op.Quiet) ∧
      fired "a" (bpass 0 x0 x1 g0 g1 ++ bpass 2 x0' x1' g0' g1') w = [(x0, g0), (x0', g0')] ∧
      fired "b" (bpass 0 x0 x1 g0 g1 ++ bpass 2 x0' x1' g0' g1') w = [(x1, g1), (x1', g1')] ∧
      (run (bpass 0 x0 x1 g0 g1 ++ bpass 2 x0' x1' g0' g1') w).grad = w.grad ∧
      (run (bpass 0 x0 x1 g0 g1 ++ bpass 2 x0' x1' g0' g1') w).opt.scales = w.opt.scales := by
  obtain ⟨q1, q2, q3, q4, q5, q6⟩ := bpass_states hw hl hu (n := 0) (by rw [hn]; rfl) hb s0 s1 t0 t1
  have W1 := hw.window q1 bpass_quiet
  obtain ⟨r1, r2, r3, r4, r5, r6⟩ := bpass_states W1.live (by rw [W1.layers, hl]) (by
      intro m hm
      rw [W1.layers] at hm
      rw [W1.hyperOf, W1.steps]; exact hu m hm) (n := 2) q2 hb' s0' s1' t0' t1'
  refine ⟨fitsRun_append_mk q1 r1, ?_, by rw [fired_append, q5, r5]; rfl, by rw [fired_append, q6, r6]; rfl, ?_, ?_⟩
  · intro op hop
    rcases List.mem_append.1 hop with h | h <;> exact bpass_quiet op h
  · rw [run_append, r3, q3]
  · rw [run_append, r4, q4]

/-- mini-batches of one input and of two inputs -/
def smallBig : List (Op α) := bpass 0 (batch 1 1) (batch 1 2) (batch 1 1) (batch 1 1) ++ bpass 2 (batch 2 1) (batch 2 2) (batch 2 1) (batch 2 1)
/-- the same in the other order -/
def bigSmall : List (Op α) := bpass 0 (batch 2 1) (batch 2 2) (batch 2 1) (batch 2 1) ++ bpass 2 (batch 1 1) (batch 1 2) (batch 1 1) (batch 1 1)

end Sample

theorem SameTraining.refl (A : World α) : SameTraining A A :=
  ⟨⟨rfl, rfl, rfl, rfl⟩, fun _ _ => ⟨rfl, rfl, rfl, rfl, fun _ _ => rfl, fun _ _ => rfl⟩, fun _ _ => ⟨rfl, rfl⟩, rfl, rfl, rfl⟩

-- two mini-batches in either order
example : ∃ (cl : String → Cls × Cls) (w : World ℝ), w.Live cl ∧ SameTraining w w ∧ FitsRun w Sample.smallBig ∧ FitsRun w Sample.bigSmall ∧
    SamePasses w w Sample.smallBig Sample.bigSmall ∧
    ∀ m ∈ w.opt.layers, (fired m.name Sample.smallBig w).length = 2 ∧ fired m.name Sample.smallBig w ≠ fired m.name Sample.bigSmall w := by
  obtain ⟨o, ws, hi, hl, hh, ht⟩ := Sample.glive_init (α := ℝ)
  have I := Construct.init_ok (by decide) hi
  obtain ⟨cl, _, lv⟩ := I.live (grad := Sample.ggrad) ht one_pos
  have hu : ∀ m ∈ o.layers, ∃ h, o.hyperOf m = .ok h ∧ o.steps % h.T = 0 := fun m hm => ⟨_, hh m hm, by rw [I.steps]; rfl⟩
  obtain ⟨f1, q1, a1, b1, _, _⟩ := Sample.bpass_two lv hl hu rfl (b := 1) (b' := 2) (by decide) (by decide) (x0 := Sample.batch 1 1) (x1 := Sample.batch 1 2)
    (g0 := Sample.batch 1 1) (g1 := Sample.batch 1 1) (x0' := Sample.batch 2 1) (x1' := Sample.batch 2 2) (g0' := Sample.batch 2 1) (g1' := Sample.batch 2 1)
    rfl rfl rfl rfl rfl rfl rfl rfl
  obtain ⟨f2, q2, a2, b2, _, _⟩ := Sample.bpass_two lv hl hu rfl (b := 2) (b' := 1) (by decide) (by decide) (x0' := Sample.batch 1 1) (x1' := Sample.batch 1 2)
    (g0' := Sample.batch 1 1) (g1' := Sample.batch 1 1) (x0 := Sample.batch 2 1) (x1 := Sample.batch 2 2) (g0 := Sample.batch 2 1) (g1 := Sample.batch 2 1)
    rfl rfl rfl rfl rfl rfl rfl rfl
  have ne : ∀ n : ℕ, (Sample.batch 1 n : ND ℝ) ≠ Sample.batch 2 n := fun n h => by
    have := congrArg ND.shape h
    simp [Sample.batch] at this
  have key : ∀ m ∈ o.layers, (fired m.name Sample.smallBig ⟨o, Sample.gdata, Sample.ggrad, []⟩).Perm (fired m.name Sample.bigSmall ⟨o, Sample.gdata, Sample.ggrad, []⟩) ∧
      (fired m.name Sample.smallBig ⟨o, Sample.gdata, Sample.ggrad, []⟩).length = 2 ∧
      fired m.name Sample.smallBig ⟨o, Sample.gdata, Sample.ggrad, []⟩ ≠ fired m.name Sample.bigSmall ⟨o, Sample.gdata, Sample.ggrad, []⟩ := by
    intro m hm
    rw [hl] at hm
    simp only [List.mem_cons, List.not_mem_nil, or_false] at hm
    rcases hm with rfl | rfl
    · rw [show fired Sample.la.name Sample.smallBig _ = _ from a1, show fired Sample.la.name Sample.bigSmall _ = _ from a2]
      exact ⟨List.Perm.swap _ _ _, rfl, fun h => ne 1 (congrArg Prod.fst (List.cons.inj h).1)⟩
    · rw [show fired Sample.lb.name Sample.smallBig _ = _ from b1, show fired Sample.lb.name Sample.bigSmall _ = _ from b2]
      exact ⟨List.Perm.swap _ _ _, rfl, fun h => ne 2 (congrArg Prod.fst (List.cons.inj h).1)⟩
  have sp := SamePasses.passes q1 q2 (fun m hm => (key m hm).1) (.done _ _)
  rw [List.append_nil, List.append_nil] at sp
  exact ⟨cl, _, lv, .refl _, f1, f2, sp, fun m hm => (key m hm).2⟩

end Passes
