import Verif.Proofs.Opt.Dist
import Verif.Props.Accumulate

/-! C41: data-parallel training against training in one process. -/

set_option linter.unusedSectionVars false
open Construct Matrix

/-- The `R` ranks of `W` train like the single process `A`: same optimizer state, same parameters. Gradients of `A` are the means of those of
ranks, and rank `r` has seen the `r`-th share of every batch `A` has seen. -/
structure Tracks {α : Type} [Field α] {R : ℕ} (W : Fin R → World α) (A : World α) : Prop where
  opt : ∀ r, (W r).opt = A.opt
  data : ∀ r, (W r).data = A.data
  grad : ∀ p, ShareGrad .avg (A.grad p) fun r => (W r).grad p
  hooks : ∀ r, (W r).hooks = A.hooks.map fun mx => (mx.1, mx.2.chunk R r)
  splits : ∀ mx ∈ A.hooks, mx.2.Splits R

/-- Output gradients on a rank, given those of the loss over the batch: each rank differentiates the loss over its share. If that is a mean, they are
`R` times as large; if it is a sum, they are the same. -/
def ReduceOp.rankGrad {α : Type} [Field α] (red : ReduceOp) (R : ℕ) (g : ND α) : ND α := match red with
  | .avg => g.smul R
  | .sum => g

/-- What ranks do when one process executes the operation on the whole batch: rank `r` has the `r`-th of `R` equal shares of the batch, and
differentiates the loss over its share. Gradients of parameters average (add up) to those of the single process if the loss is a mean (sum).
Everything else is the same on all ranks. -/
def Shards {α : Type} [Field α] {R : ℕ} (red : ReduceOp) : Op α → DOp α R → Prop
  | .forward i x ge, .forward i' xs ge' => i' = i ∧ ge' = ge ∧ x.Splits R ∧ ∀ r : Fin R, xs r = x.chunk R r
  | .backward k g, .backward k' gs => k' = k ∧ g.Splits R ∧ ∀ r : Fin R, gs r = red.rankGrad R (g.chunk R r)
  | .setGrad p G, .setGrad p' Gs => p' = p ∧ ShareGrad red G Gs
  | .setParam p M, .setParam p' M' => p' = p ∧ M' = M
  | .setHyper i h, .setHyper i' h' => i' = i ∧ h' = h
  | .setScale s, .setScale s' => s' = s
  | .step c a f, .step c' a' f' => c' = c ∧ a' = a ∧ f' = f
  | _, _ => False

variable {α : Type} [Field α] [LinearOrder α] [IsStrictOrderedRing α] [LawfulSqrt α]

/-- all layers are trained with averaged losses -/
def Averaged (w : World α) : Prop := ∀ m ∈ w.opt.layers, ∀ h, w.opt.hyperOf m = .ok h → h.lossAverage ≠ none

/-- all statistics consist of contiguous tensors (C42 says for which classes) -/
def Contiguous (cl : String → Cls × Cls) (w : World α) : Prop := ∀ m ∈ w.opt.layers,
  ((cl m.name).1.fromInnerContig m.nK).all = true ∧ ((cl m.name).2.fromInnerContig m.nC).all = true

theorem reduceOp_avg {h : Hyper α} (hv : h.Valid) (ha : h.lossAverage ≠ none) : Dist.reduceOp h = .avg := by
  unfold Dist.reduceOp
  rcases hv.avg with e | e | e
  · exact absurd e ha
  · rw [e]; rfl
  · rw [e]; rfl

theorem reduceOp_sum {h : Hyper α} (ha : h.lossAverage = none) : Dist.reduceOp h = .sum := by
  unfold Dist.reduceOp; rw [ha]

theorem InputFits.chunk {m : Layer} {a : String} {x : ND α} {k : ℕ} (h : InputFits m a x) (hk : 0 < k) (hs : x.Splits k) (j : ℕ) :
    InputFits m a (x.chunk k j) := by
  obtain ⟨b, rest, e⟩ := hs
  rw [chunk_eq hk e]
  unfold InputFits at h ⊢
  split at h
  · obtain ⟨b', sh, e', h0⟩ := h
    rw [e] at e'
    obtain ⟨rfl, rfl⟩ := List.cons.inj e'
    exact ⟨b, sh, rfl, by rw [mul_assoc] at h0; exact Nat.pos_of_mul_pos_left h0⟩
  · obtain ⟨B, cin, I1, I2, e', h0, h1, h2⟩ := h
    rw [e] at e'
    obtain ⟨rfl, rfl⟩ := List.cons.inj e'
    exact ⟨b, cin, I1, I2, rfl, Nat.pos_of_mul_pos_left h0, h1, h2⟩
  · exact h

theorem GradFits.chunk {m : Layer} {x : ND α} {k : ℕ} (h : GradFits m x) (hk : 0 < k) (hs : x.Splits k) (j : ℕ) (s : α) :
    GradFits m ((x.chunk k j).smul s) := by
  obtain ⟨b, rest, e⟩ := hs
  rw [chunk_eq hk e]
  unfold ND.smul
  unfold GradFits at h ⊢
  split at h
  · obtain ⟨b', sh, e', h0⟩ := h
    rw [e] at e'
    obtain ⟨rfl, rfl⟩ := List.cons.inj e'
    exact ⟨b, sh, rfl, by rw [mul_assoc] at h0; exact Nat.pos_of_mul_pos_left h0⟩
  · obtain ⟨B, O1, O2, e', h0⟩ := h
    rw [e] at e'
    obtain ⟨rfl, rfl⟩ := List.cons.inj e'
    exact ⟨b, O1, O2, rfl, by rw [mul_assoc, mul_assoc] at h0; rw [mul_assoc]; exact Nat.pos_of_mul_pos_left h0⟩
  · exact h

/-- the mean over ranks of the sandwiched and projected moments -/
theorem mean_ranks {c : Cls} {n R : ℕ} (hc : c.Supports n) (K : Matrix (Fin n) (Fin n) α) (q : α) (f : ℕ → Matrix (Fin n) (Fin n) α) (u : α) (M : Matrix (Fin n) (Fin n) α)
    (h : q • ∑ j ∈ Finset.range R, f j = M) : q • ∑ r : Fin R, u • c.proj n (c.sandwich K (f r)) = u • c.proj n (c.sandwich K M) := by
  rw [Fin.sum_univ_eq_sum_range (fun j => u • c.proj n (c.sandwich K (f j))) R, ← Finset.smul_sum, ← proj_sum hc, ← sandwich_sum, smul_comm,
    ← proj_smul hc, ← Cls.sandwich_smul, h]

theorem forward_none {w : World α} {i : ℕ} {x : ND α} {ge : Bool} (hm : w.opt.layers[i]? = none) : exec (.forward i x ge) w = (.ok (), w) := by
  rw [exec, Py.get_bind_run, hm]; rfl

theorem forward_run {w : World α} {i : ℕ} {x : ND α} {ge : Bool} {m : Layer} {h : Hyper α} (hm : w.opt.layers[i]? = some m) (hh : w.opt.hyperOf m = .ok h)
    (hT : h.T ≠ 0) : exec (.forward i x ge) w = (.ok (), { w with hooks := if ge = true ∧ w.opt.steps % h.T = 0 then w.hooks ++ [(m, x)] else w.hooks }) := by
  rw [exec, Py.get_bind_run, hm]
  simp only [World.forwardHook, Py.get_bind_run]
  rw [hh, Py.lift_ok_bind_run, if_neg hT]
  cases ge
  · rfl
  · by_cases hu : w.opt.steps % h.T = 0 <;> simp [hu] <;> rfl

theorem step_keeps {cl : String → Cls × Cls} {w : World α} (live : w.Live cl) {c f : Bool} {a : Option α} (ho : FitsOp w (.step c a f)) :
    (exec (.step c a f) w).2.grad = w.grad ∧ (exec (.step c a f) w).2.hooks = w.hooks := by
  obtain ⟨w', e, -⟩ := live.exec ho
  rw [e]
  obtain ⟨rfl, -, -⟩ := ho
  change World.step false a f w = _ at e
  obtain ⟨-, w1, e1, rfl⟩ := World.step_ok_iff.1 e
  cases f
  · rw [World.stepBody, if_neg (by simp)] at e1
    have f1 := World.innerStep_frame (World.withScale a w)
    rw [e1] at f1
    exact ⟨f1.grad, f1.hooks⟩
  · rw [World.stepBody, if_pos rfl, World.dropStats_run] at e1
    cases e1
    exact ⟨rfl, rfl⟩

section
variable {R : ℕ} [NeZero R] {cl : String → Cls × Cls} {A : World α} {W : Fin R → World α}

theorem Tracks.rep (t : Tracks W A) : Dist.Rep (fun r => (W r).grad) (fun r => (W r).hooks) W A := fun r => ⟨t.opt r, t.data r, rfl, rfl⟩

theorem Tracks.exec (t : Tracks W A) (live : A.Live cl) (cont : Contiguous cl A) {op : Op α} {dop : DOp α R} (ho : FitsOp A op) (ha : Averaged A)
    (hs : Shards .avg op dop) : ∃ W', dexec dop W = (.ok (), W') ∧ Tracks W' (_root_.exec op A).2 := by
  have hR : 0 < R := NeZero.pos R
  have R0 : (R : α) ≠ 0 := by exact_mod_cast hR.ne'
  cases op <;> cases dop <;> simp only [Shards] at hs
  case forward.forward i x ge i' xs ge' =>
    obtain ⟨rfl, rfl, sp, hx⟩ := hs
    have key : ∃ W', (∀ r, _root_.exec (.forward i' (xs r) ge') (W r) = (.ok (), W' r)) ∧ Tracks W' (_root_.exec (.forward i' x ge') A).2 := by
      rcases hm : A.opt.layers[i']? with _ | m
      · rw [forward_none hm]
        exact ⟨W, fun r => forward_none (by rw [t.opt]; exact hm), t⟩
      · obtain ⟨h, hh, hT⟩ := live.sound.hyper m (List.mem_of_getElem? hm)
        rw [forward_run hm hh hT]
        refine ⟨_, fun r => forward_run (h := h) (by rw [t.opt]; exact hm) (by rw [t.opt]; exact hh) hT, t.opt, t.data, t.grad, fun r => ?_, ?_⟩
        · dsimp only
          rw [t.opt]
          split
          · rw [t.hooks, hx, List.map_append]; rfl
          · exact t.hooks r
        · intro mx hmx
          dsimp only at hmx
          split at hmx
          · rcases List.mem_append.1 hmx with h1 | h1
            · exact t.splits mx h1
            · rw [List.mem_singleton] at h1; subst h1; exact sp
          · exact t.splits mx hmx
    obtain ⟨W', e1, t'⟩ := key
    exact ⟨W', Dist.each_ok e1, t'⟩
  case backward.backward i g i' gs =>
    obtain ⟨rfl, sp, hg⟩ := hs
    replace hg : ∀ r, gs r = (g.chunk R r).smul R := hg
    rcases hm : A.hooks[i']? with _ | ⟨m, x⟩
    · refine ⟨W, ?_, ?_⟩
      · have : (W 0).hooks[i']? = none := by rw [t.hooks, List.getElem?_map, hm]; rfl
        rw [dexec, Py.get_bind_run, this]; rfl
      · rw [_root_.exec, Py.get_bind_run, hm]; exact t
    · have hmem := List.mem_of_getElem? hm
      obtain ⟨hml, hxf⟩ := live.hooks _ hmem
      obtain ⟨h, hh, -⟩ := live.sound.hyper m hml
      have hv := live.valid m hml h hh
      obtain ⟨p, hp⟩ := live.prev
      have hp0 := live.pos _ _ hp
      have hw := live.sound.lay m hml
      have spx := t.splits _ hmem
      have hgf : GradFits m g := ho (m, x) hm
      obtain ⟨SK, SC, A', W', eA, eW, rep, wK, wC, dK, dC⟩ := Dist.backward_rep (m := m) (gs := gs) (x := fun r => x.chunk R r) t.rep
        (fun r => by rw [t.hooks, List.getElem?_map, hm]; rfl) hw hh hv (fun r => (hxf h hh).chunk hR spx r)
        (fun r => by rw [hg]; exact hgf.chunk hR sp r R) hp hp0 (cont m hml).1 (cont m hml).2
      obtain ⟨HK, HC, e, vK, vC, bK, bC⟩ := localH_spec hw hh hv (hxf h hh) hgf hp hp0
      have fac : ((Dist.reduceOp h).factor R : α) = 1 / (R : α) := by rw [reduceOp_avg hv (ha m hml h hh)]; rfl
      rw [fac] at dK dC
      have sK : SK = HK := by
        refine wK.ext_den vK ?_
        rw [dK, bK]
        have := mean_ranks (R := R) wK.supports (denO (A.opt.Ks m.name) m.nK) (1 / (R : α)) (fun j => inputMoment h m (x.chunk R j)) 1 (inputMoment h m x)
          (by rw [inputMoment_chunks hv hR spx, smul_smul, one_div, inv_mul_cancel₀ R0, one_smul])
        simpa only [one_smul] using this
      have sC : SC = HC := by
        refine wC.ext_den vC ?_
        rw [dC, bC]
        simp only [hg]
        refine mean_ranks (R := R) wC.supports (denO (A.opt.Cs m.name) m.nC) (1 / (R : α)) (fun j => gradMoment h m ((g.chunk R j).smul R)) (1 / p) (gradMoment h m g) ?_
        simp only [gradMoment_smul]
        rw [← Finset.smul_sum, gradMoment_chunks hv (ha m hml h hh) hR sp, smul_smul, smul_smul]
        have : 1 / (R : α) * R * R * (1 / R) = 1 := by field_simp
        rw [← mul_assoc, this, one_smul]
      subst sK; subst sC
      have run : _root_.exec (.backward i' g) A = (.ok (), A') := by
        rw [_root_.exec, Py.get_bind_run, hm]
        show World.accumulateH m x g A = _
        rw [World.accumulateH, Py.get_bind_run, e, Py.lift_ok_bind_run]
        exact eA
      have f := World.commitH_frame m SK SC A
      rw [eA] at f
      have fg : A'.grad = A.grad := f.grad
      have fh : A'.hooks = A.hooks := f.hooks
      rw [run]
      refine ⟨W', eW, fun r => (rep r).opt, fun r => (rep r).data, fun p => ?_, fun r => ?_, ?_⟩
      · simp only [(rep _).grad, fg]; exact t.grad p
      · rw [(rep r).hooks, fh]; exact t.hooks r
      · rw [fh]; exact t.splits
  case setGrad.setGrad p G p' Gs =>
    obtain ⟨rfl, hG⟩ := hs
    refine ⟨_, Dist.each_ok fun r => rfl, t.opt, t.data, fun q => ?_, t.hooks, t.splits⟩
    show ShareGrad .avg (Function.update A.grad p' G q) fun r => Function.update (W r).grad p' (Gs r) q
    by_cases hq : q = p'
    · subst hq; simpa using hG
    · simpa [Function.update_of_ne hq] using t.grad q
  case setParam.setParam p M p' M' =>
    obtain ⟨rfl, rfl⟩ := hs
    refine ⟨_, Dist.each_ok fun r => rfl, t.opt, fun r => ?_, t.grad, t.hooks, t.splits⟩
    show Function.update (W r).data p' M' = Function.update A.data p' M'
    rw [t.data]
  case setHyper.setHyper i h i' h' =>
    obtain ⟨rfl, rfl⟩ := hs
    refine ⟨_, Dist.each_ok fun r => rfl, fun r => ?_, t.data, t.grad, t.hooks, t.splits⟩
    dsimp only
    rw [t.opt]; rfl
  case setScale.setScale s s' =>
    subst hs
    obtain ⟨A', e, -⟩ := live.exec ho
    rw [e]
    obtain ⟨W', eW, rep⟩ := Dist.each_rep (fun {_ _} => World.setScale_core s') t.rep e
    have f := World.setScale_state s' A
    change Opt.setScale s' A = _ at e
    rw [e] at f
    have fg : A'.grad = A.grad := by have := congrArg World.grad f; exact this
    have fh : A'.hooks = A.hooks := by have := congrArg World.hooks f; exact this
    refine ⟨W', eW, fun r => (rep r).opt, fun r => (rep r).data, fun p => ?_, fun r => ?_, ?_⟩
    · simp only [(rep _).grad, fg]; exact t.grad p
    · rw [(rep r).hooks, fh]; exact t.hooks r
    · rw [fh]; exact t.splits
  case step.step c a f c' a' f' =>
    obtain ⟨rfl, rfl, rfl⟩ := hs
    obtain ⟨W', eW, rep⟩ := Dist.step_rep live ho (fun _ m hm h hh p hp => by
      rw [reduceOp_avg (live.valid m hm h hh) (ha m hm h hh)]; exact t.grad p) t.rep
    have fr := step_keeps live ho
    refine ⟨W', eW, fun r => (rep r).opt, fun r => (rep r).data, fun p => ?_, fun r => ?_, ?_⟩
    · simp only [(rep _).grad, fr.1]; exact t.grad p
    · rw [(rep r).hooks, fr.2]; exact t.hooks r
    · rw [fr.2]; exact t.splits

/-- **C41 for averaged losses and contiguous statistics.** For every number of ranks, every well-formed state, model and data, and every history of
a single process without misuse, if all losses are averaged and all statistics consist of contiguous tensors: training on equal shares of the
batches raises no exception on any rank, and afterwards the whole optimizer state (factors, momenta, statistics, momentum buffers, step counter,
gradient scales) and all parameters are on every rank exactly those of the single process. Full statement: any loss average, any class (false, see
`C41_false`, `C42_false`). -/
theorem C41_data_parallel_partial (t : Tracks W A) (live : A.Live cl) (cont : Contiguous cl A) {ops : List (Op α)} {dops : List (DOp α R)}
    (ho : Along (fun w op => FitsOp w op ∧ Averaged w) A ops) (hs : List.Forall₂ (Shards .avg) ops dops) :
    drunOk dops W = some (drun dops W) ∧ ∀ r, (drun dops W r).opt = (run ops A).opt ∧ (drun dops W r).data = (run ops A).data := by
  induction hs generalizing W A with
  | nil => exact ⟨rfl, fun r => ⟨t.opt r, t.data r⟩⟩
  | @cons op dop ops dops h hs ih =>
    obtain ⟨W', e, t'⟩ := t.exec live cont ho.1.1 ho.1.2 h
    obtain ⟨A', eA, live'⟩ := live.exec ho.1.1
    have l : A'.opt.layers = A.opt.layers := by have := (exec_static op A).1; rw [eA] at this; exact this
    rw [eA] at t'
    have := ih t' live' (by unfold Contiguous; rw [l]; exact cont) (by have := ho.2; rw [eA] at this; exact this)
    have e1 : drun (dop :: dops) W = drun dops W' := by
      show List.foldl _ _ _ = _
      rw [List.foldl_cons, e]; rfl
    have e2 : run (op :: ops) A = run ops A' := by
      show List.foldl _ _ _ = _
      rw [List.foldl_cons, eA]; rfl
    have e3 : drunOk (dop :: dops) W = drunOk dops W' := by rw [drunOk, e]
    rw [e1, e2, e3]
    exact this

/-- ranks that start in the same state -/
theorem Tracks.start (A : World α) (hk : A.hooks = []) : Tracks (fun _ : Fin R => A) A := by
  have R0 : (R : α) ≠ 0 := by exact_mod_cast (NeZero.pos R).ne'
  refine ⟨fun _ => rfl, fun _ => rfl, fun p M h => ⟨fun _ => M, fun r => ⟨h, rfl, rfl⟩, fun i j => ?_⟩, fun r => by rw [hk]; rfl, by rw [hk]; simp⟩
  rw [Finset.sum_const, Finset.card_univ, Fintype.card_fin, nsmul_eq_mul, ← mul_assoc]
  show _ = 1 / (R : α) * R * _
  rw [one_div, inv_mul_cancel₀ R0, one_mul]

/-- **C41 for the classes of the library and averaged losses.** All ranks construct the optimizer on the same model with the same arguments; the
registered structures are among those of the library. Then every history of a single process without misuse and with averaged losses can be executed on
equal shares of the batches, and all ranks agree with the single process afterwards. -/
theorem C41_library_partial {structs : String → Option Cls} (hreg : ∀ s c, structs s = some c → c ∈ libraryClasses) {model : Model} {p : ParamArg α}
    {a : Args α} {o : Opt α} {ws : List Warn} (hn : (model.layers.map (·.name)).Nodup) (hi : Construct.init structs model p a = .ok (o, ws))
    {data : ℕ → Mat α} {grad : ℕ → Option (Mat α)} (ht : Trainable o data) (hs : 0 < a.initGradScale) {ops : List (Op α)} {dops : List (DOp α R)}
    (ho : Along (fun w op => FitsOp w op ∧ Averaged w) ⟨o, data, grad, []⟩ ops) (hd : List.Forall₂ (Shards .avg) ops dops) :
    drunOk dops (fun _ => ⟨o, data, grad, []⟩) = some (drun dops fun _ => ⟨o, data, grad, []⟩) ∧
    ∀ r, (drun dops (fun _ => ⟨o, data, grad, []⟩) r).opt = (run ops ⟨o, data, grad, []⟩).opt ∧
      (drun dops (fun _ => ⟨o, data, grad, []⟩) r).data = (run ops ⟨o, data, grad, []⟩).data := by
  obtain ⟨cl, hcl, live⟩ := (init_ok hn hi).live (grad := grad) ht hs
  refine C41_data_parallel_partial (Tracks.start _ rfl) live (fun m hm => ?_) ho hd
  obtain ⟨hy, -, h1, h2⟩ := hcl m hm
  exact ⟨C42_library (hreg _ _ h1) _, C42_library (hreg _ _ h2) _⟩

end

/-! ### Sums of losses -/

/-- The `R` ranks of `W` train like the single process `B` that sees the batches of all ranks one after the other: same optimizer state, same
parameters. Gradients of `B` are the sums of those of ranks. -/
structure SerialTracks {α : Type} [Field α] {R : ℕ} (W : Fin R → World α) (B : World α) : Prop where
  opt : ∀ r, (W r).opt = B.opt
  data : ∀ r, (W r).data = B.data
  grad : ∀ p, ShareGrad .sum (B.grad p) fun r => (W r).grad p
  hooks : ∃ hs : List (Layer × (Fin R → ND α)), (∀ r, (W r).hooks = hs.map fun q => (q.1, q.2 r)) ∧
    B.hooks = hs.flatMap fun q => List.ofFn fun r => (q.1, q.2 r)

/-- what one process does instead of `R` ranks: the forward or backward passes of all ranks, one after the other -/
inductive Serial {α : Type} [Field α] {R : ℕ} : DOp α R → List (Op α) → Prop
  | forward (i : ℕ) (xs : Fin R → ND α) (ge : Bool) : Serial (.forward i xs ge) (List.ofFn fun r => .forward i (xs r) ge)
  | backward (k : ℕ) (gs : Fin R → ND α) : Serial (.backward k gs) (List.ofFn fun r : Fin R => .backward (k * R + r) (gs r))
  | setGrad {p : ℕ} {G : Option (Mat α)} {Gs : Fin R → Option (Mat α)} (h : ShareGrad .sum G Gs) : Serial (.setGrad p Gs) [.setGrad p G]
  | setParam (p : ℕ) (M : Mat α) : Serial (.setParam p M) [.setParam p M]
  | setHyper (i : ℕ) (h : Hyper α) : Serial (.setHyper i h) [.setHyper i h]
  | setScale (s : α) : Serial (.setScale s) [.setScale s]
  | step (c : Bool) (a : Option α) (f : Bool) : Serial (.step c a f) [.step c a f]

/-- all layers are trained with a sum of losses -/
def Summed (w : World α) : Prop := ∀ m ∈ w.opt.layers, ∀ h, w.opt.hyperOf m = .ok h → h.lossAverage = none

theorem getElem?_flatMap_const {β γ : Type} {R : ℕ} (f : β → List γ) (hf : ∀ b, (f b).length = R) : ∀ (l : List β) (i r : ℕ), r < R →
    (l.flatMap f)[i * R + r]? = l[i]?.bind fun b => (f b)[r]?
  | [], i, r, _ => by simp
  | b :: l, 0, r, hr => by
    rw [List.flatMap_cons, zero_mul, zero_add, List.getElem?_append_left (by rw [hf]; exact hr)]; rfl
  | b :: l, i + 1, r, hr => by
    have e : (i + 1) * R + r = R + (i * R + r) := by ring
    rw [List.flatMap_cons, e, List.getElem?_append_right (by rw [hf]; omega), hf, Nat.add_sub_cancel_left, getElem?_flatMap_const f hf l i r hr]; rfl

theorem forwards_run {cl : String → Cls × Cls} {i : ℕ} {ge : Bool} {m : Layer} {h : Hyper α} : ∀ (xs : List (ND α)) {w : World α}, w.opt.layers[i]? = some m →
    w.opt.hyperOf m = .ok h → h.T ≠ 0 → run (xs.map fun x => .forward i x ge) w =
      { w with hooks := w.hooks ++ if ge = true ∧ w.opt.steps % h.T = 0 then xs.map fun x => (m, x) else [] }
  | [], w, _, _, _ => by simp [run]
  | x :: xs, w, hm, hh, hT => by
    rw [List.map_cons, run_cons, forward_run hm hh hT]
    have := forwards_run (cl := cl) xs (ge := ge) (w := { w with hooks := if ge = true ∧ w.opt.steps % h.T = 0 then w.hooks ++ [(m, x)] else w.hooks }) hm hh hT
    rw [this]
    dsimp only
    split <;> simp

theorem forwards_none {i : ℕ} {ge : Bool} {w : World α} (hm : w.opt.layers[i]? = none) : ∀ (xs : List (ND α)), run (xs.map fun x => .forward i x ge) w = w
  | [] => rfl
  | x :: xs => by rw [List.map_cons, run_cons, forward_none hm]; exact forwards_none hm xs

/-- several backward passes through the same layer -/
theorem backs_run {cl : String → Cls × Cls} {m : Layer} {h : Hyper α} {p : α} : ∀ (l : List (ℕ × ND α × ND α)) {w : World α}, w.Live cl →
    m ∈ w.opt.layers → w.opt.hyperOf m = .ok h → w.opt.scales ((w.opt.steps : ℤ) - 1) = some p →
    (∀ e ∈ l, w.hooks[e.1]? = some (m, e.2.1)) → FitsRun w (l.map fun e => .backward e.1 e.2.2) →
    (run (l.map fun e => .backward e.1 e.2.2) w).Live cl ∧
    Frame World.none' (fun n => n = m.name) World.none' w (run (l.map fun e => .backward e.1 e.2.2) w) ∧
    denO ((run (l.map fun e => .backward e.1 e.2.2) w).opt.HKs m.name) m.nK = denO (w.opt.HKs m.name) m.nK +
      (l.map fun e => (cl m.name).1.proj m.nK ((cl m.name).1.sandwich (denO (w.opt.Ks m.name) m.nK) (inputMoment h m e.2.1))).sum ∧
    denO ((run (l.map fun e => .backward e.1 e.2.2) w).opt.HCs m.name) m.nC = denO (w.opt.HCs m.name) m.nC +
      (l.map fun e => (1 / p) • (cl m.name).2.proj m.nC ((cl m.name).2.sandwich (denO (w.opt.Cs m.name) m.nC) (gradMoment h m e.2.2))).sum ∧
    (l ≠ [] ∨ w.opt.HKs m.name ≠ none ∧ w.opt.HCs m.name ≠ none → (run (l.map fun e => .backward e.1 e.2.2) w).opt.HKs m.name ≠ none ∧
      (run (l.map fun e => .backward e.1 e.2.2) w).opt.HCs m.name ≠ none)
  | [], w, live, _, _, _, _, _ => ⟨live, Frame.refl _, by simp [run], by simp [run], by simp [run]⟩
  | e :: l, w, live, hm, hh, hp, hk, hf => by
    have hk0 := hk e (by simp)
    obtain ⟨w', ex, live'⟩ := live.exec hf.1
    obtain ⟨-, hy, p', hh', hp', -, b⟩ := live.back hk0 hf.1
    rw [ex] at b
    rw [hh] at hh'; cases hh'
    rw [hp] at hp'; cases hp'
    have f := b.frame
    have hf2 := hf.2
    rw [ex] at hf2
    have := backs_run (cl := cl) (m := m) (h := h) (p := p) l live' (by rw [f.layers]; exact hm) (by rw [f.hyperOf]; exact hh)
      (by rw [f.steps, f.scales]; exact hp) (fun e' he' => by rw [f.hooks]; exact hk e' (by simp [he'])) hf2
    obtain ⟨l1, f1, k1, c1, n1⟩ := this
    rw [List.map_cons, run_cons, ex]
    refine ⟨l1, Frame.trans _ _ _ f f1, ?_, ?_, fun _ => n1 (Or.inr ⟨b.someK, b.someC⟩)⟩
    · rw [k1, b.HK, f.Ks _ id, List.map_cons, List.sum_cons, add_assoc]
    · rw [c1, b.HC, f.Cs _ id, List.map_cons, List.sum_cons, add_assoc]

theorem backs_none : ∀ (l : List (ℕ × ND α)) {w : World α}, (∀ e ∈ l, w.hooks[e.1]? = none) → run (l.map fun e => .backward e.1 e.2) w = w
  | [], _, _ => rfl
  | e :: l, w, h => by
    rw [List.map_cons, run_cons, exec_backward_none (h e (by simp))]
    exact backs_none l fun e' he' => h e' (by simp [he'])

/-- what adding statistics does -/
theorem commitH_spec {cl : Cls × Cls} {w w' : World α} {m : Layer} {HK HC : SM α} (hw : LayerWF cl w.opt m) (wK : WF cl.1 m.nK HK) (wC : WF cl.2 m.nC HC)
    (e : World.commitH m HK HC w = (.ok (), w')) : ∃ HK' HC', w'.opt.HKs m.name = some HK' ∧ w'.opt.HCs m.name = some HC' ∧ WF cl.1 m.nK HK' ∧
      WF cl.2 m.nC HC' ∧ HK'.den m.nK = denO (w.opt.HKs m.name) m.nK + HK.den m.nK ∧ HC'.den m.nC = denO (w.opt.HCs m.name) m.nC + HC.den m.nC := by
  obtain ⟨HK', eK, wK', dK'⟩ := accum_spec hw.HK wK
  obtain ⟨HC', eC, wC', dC'⟩ := accum_spec hw.HC wC
  have run : World.commitH m HK HC w = (.ok (), { w with opt := { w.opt with
      HKs := Dict.set w.opt.HKs m.name HK', HCs := Dict.set w.opt.HCs m.name HC' } }) := by
    rw [World.commitH, Py.get_bind_run, eK, Py.lift_ok_bind_run, World.setOpt, Py.modify_bind_run, eC, Py.lift_ok_bind_run]
    rfl
  rw [run] at e
  cases e
  exact ⟨HK', HC', by simp [Dict.set], by simp [Dict.set], wK', wC', dK', dC'⟩

theorem Frame.opt_ext {m : Layer} {w u v : World α} (hu : Frame World.none' (fun n => n = m.name) World.none' w u)
    (hv : Frame World.none' (fun n => n = m.name) World.none' w v) (hK : u.opt.HKs m.name = v.opt.HKs m.name) (hC : u.opt.HCs m.name = v.opt.HCs m.name) :
    u.opt = v.opt ∧ u.data = v.data := by
  have e : ∀ {o o' : Opt α}, o.structs = o'.structs → o.layers = o'.layers → o.ptrGroup = o'.ptrGroup → o.groups = o'.groups → o.steps = o'.steps →
      o.scales = o'.scales → o.Ks = o'.Ks → o.Cs = o'.Cs → o.mKs = o'.mKs → o.mCs = o'.mCs → o.HKs = o'.HKs → o.HCs = o'.HCs → o.mom = o'.mom → o = o' := by
    rintro ⟨⟩ ⟨⟩; simp only; rintro rfl rfl rfl rfl rfl rfl rfl rfl rfl rfl rfl rfl rfl; rfl
  refine ⟨e (hu.structs.trans hv.structs.symm) (hu.layers.trans hv.layers.symm) (hu.ptrGroup.trans hv.ptrGroup.symm) (hu.groups.trans hv.groups.symm)
    (hu.steps.trans hv.steps.symm) (hu.scales.trans hv.scales.symm) (funext fun n => (hu.Ks n id).trans (hv.Ks n id).symm)
    (funext fun n => (hu.Cs n id).trans (hv.Cs n id).symm) (funext fun n => (hu.mKs n id).trans (hv.mKs n id).symm)
    (funext fun n => (hu.mCs n id).trans (hv.mCs n id).symm) (funext fun n => ?_) (funext fun n => ?_)
    (funext fun n => (hu.mom n id).trans (hv.mom n id).symm), funext fun n => (hu.data n id).trans (hv.data n id).symm⟩
  · by_cases hn : n = m.name
    · rw [hn]; exact hK
    · exact (hu.HKs n hn).trans (hv.HKs n hn).symm
  · by_cases hn : n = m.name
    · rw [hn]; exact hC
    · exact (hu.HCs n hn).trans (hv.HCs n hn).symm

theorem backs_fits {m : Layer} : ∀ (l : List (ℕ × ND α × ND α)) {w : World α}, (∀ e ∈ l, w.hooks[e.1]? = some (m, e.2.1)) →
    FitsRun w (l.map fun e => .backward e.1 e.2.2) → ∀ e ∈ l, GradFits m e.2.2
  | [], _, _, _ => by simp
  | e :: l, w, hk, hf => by
    intro e' he'
    rcases List.mem_cons.1 he' with rfl | he'
    · exact hf.1 _ (hk e' (by simp))
    · refine backs_fits l (fun e2 h2 => ?_) hf.2 e' he'
      rw [(exec_backward e.1 e.2.2 w).hooks]; exact hk e2 (by simp [h2])

section
variable {R : ℕ} [NeZero R] {cl : String → Cls × Cls} {B : World α} {W : Fin R → World α}

theorem SerialTracks.rep (t : SerialTracks W B) : Dist.Rep (fun r => (W r).grad) (fun r => (W r).hooks) W B := fun r => ⟨t.opt r, t.data r, rfl, rfl⟩

theorem SerialTracks.exec (t : SerialTracks W B) (live : B.Live cl) (cont : Contiguous cl B) {dop : DOp α R} {ops : List (Op α)} (hs : Serial dop ops)
    (ho : FitsRun B ops) (ha : Summed B) : ∃ W', dexec dop W = (.ok (), W') ∧ SerialTracks W' (run ops B) := by
  obtain ⟨hks, hW, hB⟩ := t.hooks
  cases hs with
  | forward i xs ge =>
    have el : (List.ofFn fun r => Op.forward i (xs r) ge) = (List.ofFn xs).map fun x => .forward i x ge := by rw [List.map_ofFn]; rfl
    rw [el]
    rcases hm : B.opt.layers[i]? with _ | m
    · rw [forwards_none hm]
      exact ⟨W, Dist.each_ok fun r => forward_none (by rw [t.opt]; exact hm), t⟩
    · obtain ⟨h, hh, hT⟩ := live.sound.hyper m (List.mem_of_getElem? hm)
      rw [forwards_run (cl := cl) (List.ofFn xs) hm hh hT]
      refine ⟨_, Dist.each_ok fun r => forward_run (h := h) (by rw [t.opt]; exact hm) (by rw [t.opt]; exact hh) hT, t.opt, t.data, t.grad, ?_⟩
      dsimp only
      by_cases hu : ge = true ∧ B.opt.steps % h.T = 0
      · refine ⟨hks ++ [(m, xs)], fun r => ?_, ?_⟩
        · rw [t.opt, if_pos hu, hW, List.map_append]; rfl
        · rw [if_pos hu, hB, List.flatMap_append, List.map_ofFn]; simp only [List.flatMap_cons, List.flatMap_nil, List.append_nil]; rfl
      · refine ⟨hks, fun r => ?_, ?_⟩
        · rw [t.opt, if_neg hu, hW]
        · rw [if_neg hu, hB, List.append_nil]
  | backward k gs =>
    have hget : ∀ r : Fin R, B.hooks[k * R + r]? = hks[k]?.map fun q => (q.1, q.2 r) := by
      intro r
      rw [hB, getElem?_flatMap_const _ (by simp) _ _ _ r.2]
      cases hks[k]? with
      | none => rfl
      | some q => simp
    rcases hm : hks[k]? with _ | ⟨m, x⟩
    · have el : (List.ofFn fun r : Fin R => Op.backward (k * R + r) (gs r)) = (List.ofFn fun r : Fin R => (k * R + r.1, gs r)).map fun e => .backward e.1 e.2 := by
        rw [List.map_ofFn]; rfl
      rw [el, backs_none _ (by
        intro e he
        obtain ⟨r, rfl⟩ := (List.mem_ofFn' _ _).1 he
        show B.hooks[k * R + r]? = none
        rw [hget, hm]; rfl)]
      refine ⟨W, ?_, t⟩
      have : (W 0).hooks[k]? = none := by rw [hW, List.getElem?_map, hm]; rfl
      rw [dexec, Py.get_bind_run, this]; rfl
    · have el : (List.ofFn fun r : Fin R => Op.backward (k * R + r) (gs r)) = (List.ofFn fun r : Fin R => (k * R + r.1, x r, gs r)).map fun e => .backward e.1 e.2.2 := by
        rw [List.map_ofFn]; rfl
      rw [el] at ho ⊢
      have hk' : ∀ e ∈ (List.ofFn fun r : Fin R => (k * R + r.1, x r, gs r)), B.hooks[e.1]? = some (m, e.2.1) := by
        intro e he
        obtain ⟨r, rfl⟩ := (List.mem_ofFn' _ _).1 he
        show B.hooks[k * R + r]? = _
        rw [hget, hm]; rfl
      have hx : ∀ r, (m, x r) ∈ B.hooks := fun r => List.mem_of_getElem? (hk' _ ((List.mem_ofFn' _ _).2 ⟨r, rfl⟩))
      have hml := (live.hooks _ (hx 0)).1
      obtain ⟨h, hh, -⟩ := live.sound.hyper m hml
      obtain ⟨p, hp⟩ := live.prev
      have hw := live.sound.lay m hml
      have gf := backs_fits _ hk' ho
      obtain ⟨l1, f1, k1, c1, n1⟩ := backs_run _ live hml hh hp hk' ho
      obtain ⟨SK, SC, A', W', eA, eW, rep, wK, wC, dK, dC⟩ := Dist.backward_rep (m := m) (gs := gs) (x := x) (i := k) t.rep
        (fun r => by rw [hW, List.getElem?_map, hm]; rfl) hw hh (live.valid m hml h hh) (fun r => (live.hooks _ (hx r)).2 h hh)
        (fun r => gf (k * R + r.1, x r, gs r) ((List.mem_ofFn' _ _).2 ⟨r, rfl⟩)) hp (live.pos _ _ hp) (cont m hml).1 (cont m hml).2
      have fac : ((Dist.reduceOp h).factor R : α) = 1 := by rw [reduceOp_sum (ha m hml h hh)]; rfl
      rw [fac, one_smul] at dK dC
      obtain ⟨HK', HC', eK, eC, wK', wC', dK', dC'⟩ := commitH_spec hw wK wC eA
      have f2 := World.commitH_frame m SK SC B
      rw [eA] at f2
      have n2 := n1 (Or.inl (by intro h0; have := congrArg List.length h0; simp at this; exact NeZero.ne R this))
      obtain ⟨X, eX⟩ := Option.ne_none_iff_exists'.1 n2.1
      obtain ⟨Y, eY⟩ := Option.ne_none_iff_exists'.1 n2.2
      have hw1 := l1.sound.lay m (by rw [f1.layers]; exact hml)
      have xk : X = HK' := by
        refine (hw1.HK X eX).ext_den wK' ?_
        rw [eX, denO_some] at k1
        rw [k1, dK', dK, List.map_ofFn, List.sum_ofFn]; rfl
      have yc : Y = HC' := by
        refine (hw1.HC Y eY).ext_den wC' ?_
        rw [eY, denO_some] at c1
        rw [c1, dC', dC, List.map_ofFn, List.sum_ofFn]; rfl
      obtain ⟨q1, q2⟩ := Frame.opt_ext f2 f1 (by rw [eX, xk]; exact eK) (by rw [eY, yc]; exact eC)
      refine ⟨W', eW, fun r => (rep r).opt.trans q1, fun r => (rep r).data.trans q2, fun q => ?_, hks, fun r => ?_, ?_⟩
      · rw [f1.grad]; simp only [(rep _).grad]; exact t.grad q
      · rw [(rep r).hooks]; exact hW r
      · rw [f1.hooks]; exact hB
  | @setGrad p G Gs hG =>
    refine ⟨_, Dist.each_ok fun r => rfl, t.opt, t.data, fun q => ?_, t.hooks⟩
    show ShareGrad .sum (Function.update B.grad p G q) fun r => Function.update (W r).grad p (Gs r) q
    by_cases hq : q = p
    · subst hq; simpa using hG
    · simpa [Function.update_of_ne hq] using t.grad q
  | setParam p M =>
    refine ⟨_, Dist.each_ok fun r => rfl, t.opt, fun r => ?_, t.grad, t.hooks⟩
    show Function.update (W r).data p M = Function.update B.data p M
    rw [t.data]
  | setHyper i h =>
    refine ⟨_, Dist.each_ok fun r => rfl, fun r => ?_, t.data, t.grad, t.hooks⟩
    dsimp only
    rw [t.opt]; rfl
  | setScale s =>
    obtain ⟨A', e, -⟩ := live.exec ho.1
    have er : run [.setScale s] B = A' := by rw [run_cons, e]; rfl
    rw [er]
    obtain ⟨W', eW, rep⟩ := Dist.each_rep (fun {_ _} => World.setScale_core s) t.rep e
    have f := World.setScale_state s B
    change Opt.setScale s B = _ at e
    rw [e] at f
    have fg : A'.grad = B.grad := by have := congrArg World.grad f; exact this
    have fh : A'.hooks = B.hooks := by have := congrArg World.hooks f; exact this
    refine ⟨W', eW, fun r => (rep r).opt, fun r => (rep r).data, fun p => ?_, ?_⟩
    · simp only [(rep _).grad, fg]; exact t.grad p
    · rw [fh]; simp only [(rep _).hooks]; exact t.hooks
  | step c a f =>
    obtain ⟨W', eW, rep⟩ := Dist.step_rep live ho.1 (fun _ m hm h hh p hp => by rw [reduceOp_sum (ha m hm h hh)]; exact t.grad p) t.rep
    have fr := step_keeps live ho.1
    refine ⟨W', eW, fun r => (rep r).opt, fun r => (rep r).data, fun p => ?_, ?_⟩
    · show ShareGrad .sum ((_root_.exec (.step c a f) B).2.grad p) _
      simp only [(rep _).grad, fr.1]; exact t.grad p
    · show ∃ hs, _ ∧ (_root_.exec (.step c a f) B).2.hooks = _
      rw [fr.2]; simp only [(rep _).hooks]; exact t.hooks

end

theorem along_mono {P Q : World α → Op α → Prop} (h : ∀ w op, P w op → Q w op) : ∀ {xs : List (Op α)} {w : World α}, Along P w xs → Along Q w xs
  | [], _, _ => trivial
  | _ :: _, _, hp => ⟨h _ _ hp.1, along_mono h hp.2⟩

/-- **What data-parallel training with a sum of losses does.** For every number of ranks, well-formed state, history, and data (a different amount on
every rank, if one likes), if all statistics consist of contiguous tensors: all ranks keep the same optimizer state and parameters, those of a single
process that makes the forward and backward passes of all ranks one after the other, accumulating statistics, and steps with the sum of their
gradients. -/
theorem C41_sum_accumulates {R : ℕ} [NeZero R] {cl : String → Cls × Cls} {B : World α} {W : Fin R → World α} (t : SerialTracks W B) (live : B.Live cl)
    (cont : Contiguous cl B) {dops : List (DOp α R)} {opss : List (List (Op α))} (hs : List.Forall₂ Serial dops opss)
    (ho : Along (fun w op => FitsOp w op ∧ Summed w) B opss.flatten) :
    drunOk dops W = some (drun dops W) ∧ ∀ r, (drun dops W r).opt = (run opss.flatten B).opt ∧ (drun dops W r).data = (run opss.flatten B).data := by
  induction hs generalizing W B with
  | nil => exact ⟨rfl, fun r => ⟨t.opt r, t.data r⟩⟩
  | @cons dop l dops opss h hs ih =>
    rw [List.flatten_cons] at ho ⊢
    obtain ⟨h1, h2⟩ := along_append.1 ho
    have hf : FitsRun B l := along_mono (fun _ _ h => h.1) h1
    have ne : ∃ op l', l = op :: l' := by
      obtain ⟨R, rfl⟩ : ∃ k, R = k + 1 := ⟨R - 1, by have := NeZero.ne R; omega⟩
      cases h <;> first | exact ⟨_, _, rfl⟩ | (simp only [List.ofFn_succ]; exact ⟨_, _, rfl⟩)
    have hS : Summed B := by obtain ⟨op, l', rfl⟩ := ne; exact h1.1.2
    obtain ⟨W', e, t'⟩ := t.exec live cont h hf hS
    have live' := (live.run hf).2
    have := ih t' live' (by unfold Contiguous; rw [(run_layers l B).1]; exact cont) h2
    have e1 : drun (dop :: dops) W = drun dops W' := by
      show List.foldl _ _ _ = _
      rw [List.foldl_cons, e]; rfl
    have e3 : drunOk (dop :: dops) W = drunOk dops W' := by rw [drunOk, e]
    rw [e1, e3, run_append]
    exact this

/-! ### A sum of losses against a single process -/

/-- the passes of all ranks, one after the other -/
def unroll {α : Type} [Field α] (R : ℕ) : Op α → List (Op α)
  | .forward i x ge => (List.range R).map fun r => .forward i (x.chunk R r) ge
  | .backward k g => (List.range R).map fun r => .backward (k * R + r) (g.chunk R r)
  | op => [op]

theorem ofFn_range {β : Type} {R : ℕ} (f : ℕ → β) : List.ofFn (fun r : Fin R => f r) = (List.range R).map f := by
  rw [List.ofFn_eq_map, ← List.map_coe_finRange_eq_range, List.map_map]; rfl

theorem serial_unroll {R : ℕ} {op : Op α} {dop : DOp α R} (h : Shards .sum op dop) : Serial dop (unroll R op) := by
  cases op <;> cases dop <;> simp only [Shards] at h
  case forward.forward i x ge i' xs ge' =>
    obtain ⟨rfl, rfl, -, hx⟩ := h
    have := Serial.forward (R := R) i' xs ge'
    rw [funext hx, ofFn_range fun r => Op.forward i' (x.chunk R r) ge'] at this
    rw [funext hx]; exact this
  case backward.backward i g i' gs =>
    obtain ⟨rfl, -, hg⟩ := h
    replace hg : gs = fun r : Fin R => g.chunk R r := funext hg
    have := Serial.backward (R := R) i' gs
    rw [hg, ofFn_range fun r => Op.backward (i' * R + r) (g.chunk R r)] at this
    rw [hg]; exact this
  case setGrad.setGrad => obtain ⟨rfl, hG⟩ := h; exact .setGrad hG
  case setParam.setParam => obtain ⟨rfl, rfl⟩ := h; exact .setParam _ _
  case setHyper.setHyper => obtain ⟨rfl, rfl⟩ := h; exact .setHyper _ _
  case setScale.setScale => subst h; exact .setScale _
  case step.step => obtain ⟨rfl, rfl, rfl⟩ := h; exact .step _ _ _

/-- `B` has the hooks of `A`, split into those of ranks -/
structure Unrolled (R : ℕ) (A B : World α) : Prop where
  conf : SameConf A B
  hooks : B.hooks = A.hooks.flatMap fun mx => (List.range R).map fun r => (mx.1, mx.2.chunk R r)
  splits : ∀ mx ∈ A.hooks, mx.2.Splits R
  grad : B.grad = A.grad
  scales : B.opt.scales = A.opt.scales

theorem fits_forwards {i : ℕ} {ge : Bool} : ∀ (xs : List (ND α)) {w : World α}, (∀ x ∈ xs, FitsOp w (.forward i x ge)) →
    FitsRun w (xs.map fun x => .forward i x ge) ∧ ∀ n, fired n (xs.map fun x => .forward i x ge) w = []
  | [], _, _ => ⟨trivial, fun _ => rfl⟩
  | x :: xs, w, h => by
    have := fits_forwards (i := i) (ge := ge) xs (w := (exec (.forward i x ge) w).2) (fun y hy => by
      rw [exec_forward_state]; exact h y (by simp [hy]))
    exact ⟨⟨h x (by simp), this.1⟩, fun n => by rw [List.map_cons, fired, this.2]; rfl⟩

theorem fits_backs : ∀ (l : List (ℕ × ND α)) {w : World α}, (∀ e ∈ l, FitsOp w (.backward e.1 e.2)) →
    FitsRun w (l.map fun e => .backward e.1 e.2) ∧ (∀ n, fired n (l.map fun e => .backward e.1 e.2) w = l.flatMap fun e => firedOp n (.backward e.1 e.2) w) ∧
      (run (l.map fun e => .backward e.1 e.2) w).hooks = w.hooks ∧ (run (l.map fun e => .backward e.1 e.2) w).grad = w.grad ∧
      (run (l.map fun e => .backward e.1 e.2) w).opt.scales = w.opt.scales
  | [], _, _ => ⟨trivial, fun _ => rfl, rfl, rfl, rfl⟩
  | e :: l, w, h => by
    have hk := (exec_backward e.1 e.2 w).hooks
    have := fits_backs l (w := (exec (.backward e.1 e.2) w).2) (fun y hy mx hmx => by rw [hk] at hmx; exact h y (by simp [hy]) mx hmx)
    refine ⟨⟨h e (by simp), this.1⟩, fun n => ?_, ?_, ?_, ?_⟩
    · rw [List.map_cons, fired, this.2.1, List.flatMap_cons]
      unfold firedOp
      simp only [hk]
    · rw [List.map_cons, run_cons, this.2.2.1, hk]
    · rw [List.map_cons, run_cons, this.2.2.2.1, (exec_backward e.1 e.2 w).grad]
    · rw [List.map_cons, run_cons, this.2.2.2.2, (exec_backward e.1 e.2 w).scales]

/-- batches of the operation split into `R` equal shares -/
def Op.Splits {α : Type} [Field α] (R : ℕ) : Op α → Prop
  | .forward _ x _ => x.Splits R
  | .backward _ g => g.Splits R
  | _ => True

theorem Shards.splits {R : ℕ} {red : ReduceOp} {op : Op α} {dop : DOp α R} (h : Shards red op dop) : op.Splits R := by
  cases op <;> cases dop <;> simp only [Shards] at h <;> simp only [Op.Splits]
  · exact h.2.2.1
  · exact h.2.1

theorem Unrolled.get {R : ℕ} {A B : World α} (u : Unrolled R A B) (k r : ℕ) (hr : r < R) :
    B.hooks[k * R + r]? = A.hooks[k]?.map fun mx => (mx.1, mx.2.chunk R r) := by
  rw [u.hooks, getElem?_flatMap_const _ (fun b => by simp) _ _ _ hr]
  rcases A.hooks[k]? with _ | mx
  · rfl
  · simp [hr]

theorem filter_of_name {n : String} (m : Layer) (f : ℕ → ND α × ND α) : ∀ l : List ℕ,
    (l.flatMap fun r => ((some (m, (f r).1)).toList.filter fun mx : Layer × ND α => mx.1.name = n).map fun mx => (mx.2, (f r).2)) =
      if m.name = n then l.map f else []
  | [] => by split <;> rfl
  | r :: l => by
    rw [List.flatMap_cons, filter_of_name m f l]
    by_cases h : m.name = n <;> simp [h]

theorem Unrolled.op {cl : String → Cls × Cls} {R : ℕ} (hR : 0 < R) {A B : World α} (u : Unrolled R A B) (lA : A.Live cl) (lB : B.Live cl) {op : Op α}
    (q : op.Quiet) (hs : op.Splits R) (hf : FitsOp A op) :
    FitsRun B (unroll R op) ∧ (∀ o ∈ unroll R op, o.Quiet) ∧ (∀ n, fired n (unroll R op) B = (firedOp n op A).flatMap (micro R)) ∧
      (∀ n, ∀ e ∈ firedOp n op A, e.1.Splits R ∧ e.2.Splits R) ∧ Unrolled R (_root_.exec op A).2 (_root_.run (unroll R op) B) := by
  cases op with
  | forward i x ge =>
    have e : unroll R (Op.forward i x ge) = ((List.range R).map fun r => x.chunk R r).map fun x => .forward i x ge := by rw [unroll, List.map_map]; rfl
    have := fits_forwards (i := i) (ge := ge) ((List.range R).map fun r => x.chunk R r) (w := B) (fun y hy m hm h hh => by
      obtain ⟨r, -, rfl⟩ := List.mem_map.1 hy
      rw [← u.conf.layers] at hm
      rw [← u.conf.hyperOf] at hh
      exact (hf m hm h hh).chunk hR hs r)
    rw [e]
    refine ⟨this.1, fun o ho => ?_, fun n => this.2 n, fun n e he => (by cases he), ?_⟩
    · obtain ⟨y, -, rfl⟩ := List.mem_map.1 ho; trivial
    rcases hm : A.opt.layers[i]? with _ | m
    · rw [forward_none hm, forwards_none (u.conf.layers ▸ hm)]; exact u
    · have hmm := List.mem_of_getElem? hm
      obtain ⟨h, hh, hT⟩ := lA.sound.hyper m hmm
      rw [forward_run hm hh hT, forwards_run (cl := cl) _ (u.conf.layers ▸ hm) (by rw [← u.conf.hyperOf]; exact hh) hT]
      refine ⟨⟨u.conf.1, u.conf.2, u.conf.3, u.conf.4⟩, ?_, ?_, u.grad, u.scales⟩
      · dsimp only
        rw [← u.conf.steps, u.hooks]
        split
        · rw [List.flatMap_append, List.flatMap_singleton, List.map_map]; rfl
        · rw [List.append_nil]
      · intro mx hmx
        dsimp only at hmx
        split at hmx
        · rcases List.mem_append.1 hmx with h' | h'
          · exact u.splits mx h'
          · rw [List.mem_singleton.1 h']; exact hs
        · exact u.splits mx hmx
  | backward k g =>
    have e : unroll R (Op.backward k g) = ((List.range R).map fun r => (k * R + r, g.chunk R r)).map fun e => .backward e.1 e.2 := by
      rw [unroll, List.map_map]; rfl
    have := fits_backs ((List.range R).map fun r => (k * R + r, g.chunk R r)) (w := B) (fun y hy mx hm => by
      obtain ⟨r, hr, rfl⟩ := List.mem_map.1 hy
      rw [u.get k r (List.mem_range.1 hr)] at hm
      obtain ⟨mx', e', rfl⟩ := Option.map_eq_some_iff.1 hm
      have := (hf mx' e').chunk hR hs r 1
      rwa [show (g.chunk R r).smul 1 = g.chunk R r by unfold ND.smul; simp] at this)
    rw [e]
    refine ⟨this.1, fun o ho => ?_, fun n => ?_, fun n e he => ?_, ?_, ?_, ?_, ?_, ?_⟩
    · obtain ⟨y, -, rfl⟩ := List.mem_map.1 ho; trivial
    · rw [this.2.1, List.flatMap_map]
      unfold firedOp
      have hg : ∀ r ∈ List.range R, (B.hooks[k * R + r]?.toList.filter fun mx => mx.1.name = n).map (fun mx => (mx.2, g.chunk R r)) =
          ((A.hooks[k]?.map fun mx => (mx.1, mx.2.chunk R r)).toList.filter fun mx => mx.1.name = n).map (fun mx => (mx.2, g.chunk R r)) := by
        intro r hr; rw [u.get k r (List.mem_range.1 hr)]
      rw [List.flatMap_congr hg]
      rcases hk : A.hooks[k]? with _ | mx
      · simp [hk]
      · have := filter_of_name (n := n) mx.1 (fun r => (mx.2.chunk R r, g.chunk R r)) (List.range R)
        simp only [Option.map_some]
        rw [this]
        by_cases h : mx.1.name = n <;> simp [hk, h, micro]
    · simp only [firedOp] at he
      rcases hk : A.hooks[k]? with _ | mx
      · rw [hk] at he; cases he
      · rw [hk] at he
        by_cases h : mx.1.name = n <;> simp [h] at he
        rw [he]
        exact ⟨u.splits mx (List.mem_of_getElem? hk), hs⟩
    · have a := (lA.quiet1 (op := .backward k g) trivial hf)
      have b := lB.window this.1 (by intro o ho; obtain ⟨y, -, rfl⟩ := List.mem_map.1 ho; trivial)
      exact ⟨by rw [a.layers, b.layers, u.conf.layers], by rw [a.ptrGroup, b.ptrGroup, u.conf.ptrGroup], by rw [a.groups, b.groups, u.conf.groups],
        by rw [a.steps, b.steps, u.conf.steps]⟩
    · rw [this.2.2.1, (exec_backward k g A).hooks, u.hooks]
    · rw [(exec_backward k g A).hooks]; exact u.splits
    · rw [this.2.2.2.1, (exec_backward k g A).grad, u.grad]
    · rw [this.2.2.2.2, (exec_backward k g A).scales, u.scales]
  | setGrad p G => exact ⟨⟨trivial, trivial⟩, by simp [unroll, Op.Quiet], fun n => rfl, fun n e he => (by cases he), ⟨u.conf.1, u.conf.2, u.conf.3, u.conf.4⟩, u.hooks, u.splits,
      (by show (Function.update B.grad p G) = Function.update A.grad p G; rw [u.grad]), u.scales⟩
  | setScale s =>
    have a := (lA.quiet1 (op := .setScale s) trivial hf)
    have b := (lB.quiet1 (op := .setScale s) trivial hf)
    have ha : (_root_.exec (.setScale s) A).2.hooks = A.hooks := by rw [_root_.exec, World.setScale_state]
    have hb : (_root_.run (unroll R (.setScale s)) B).hooks = B.hooks := by show (_root_.exec (.setScale s) B).2.hooks = _; rw [_root_.exec, World.setScale_state]
    refine ⟨⟨hf, trivial⟩, by simp [unroll, Op.Quiet], fun n => rfl, fun n e he => (by cases he), ⟨?_, ?_, ?_, ?_⟩, ?_, ?_, ?_, ?_⟩
    · rw [a.layers]; exact u.conf.layers.trans b.layers.symm
    · rw [a.ptrGroup]; exact u.conf.ptrGroup.trans b.ptrGroup.symm
    · rw [a.groups]; exact u.conf.groups.trans b.groups.symm
    · rw [a.steps]; exact u.conf.steps.trans b.steps.symm
    · rw [ha, hb]; exact u.hooks
    · rw [ha]; exact u.splits
    · show (_root_.exec (.setScale s) B).2.grad = _
      show (Opt.setScale s B).2.grad = (Opt.setScale s A).2.grad
      rw [World.setScale_state, World.setScale_state]; exact u.grad
    · show (_root_.exec (.setScale s) B).2.opt.scales = _
      show (Opt.setScale s B).2.opt.scales = (Opt.setScale s A).2.opt.scales
      rw [World.setScale_state, World.setScale_state]
      dsimp only
      rw [u.scales, u.conf.steps]
  | _ => cases q

theorem Unrolled.run {cl : String → Cls × Cls} {R : ℕ} (hR : 0 < R) {A B : World α} (u : Unrolled R A B) (lA : A.Live cl) (lB : B.Live cl) {ops : List (Op α)}
    (q : ∀ op ∈ ops, op.Quiet) (hs : ∀ op ∈ ops, op.Splits R) (hf : FitsRun A ops) :
    FitsRun B (ops.flatMap (unroll R)) ∧ (∀ o ∈ ops.flatMap (unroll R), o.Quiet) ∧
      (∀ n, SplitInto R (fired n ops A) (fired n (ops.flatMap (unroll R)) B)) ∧
      Unrolled R (_root_.run ops A) (_root_.run (ops.flatMap (unroll R)) B) := by
  induction ops generalizing A B with
  | nil => exact ⟨trivial, by simp, fun n => ⟨by simp [fired], by simp [fired]⟩, u⟩
  | cons op ops ih =>
    obtain ⟨f1, q1, e1, s1, u1⟩ := u.op hR lA lB (q op (by simp)) (hs op (by simp)) hf.1
    obtain ⟨w', e, l⟩ := lA.exec hf.1
    obtain ⟨f2, q2, s2, u2⟩ := ih u1 (by rw [e]; exact l) (lB.run f1).2 (fun o ho => q o (by simp [ho])) (fun o ho => hs o (by simp [ho])) hf.2
    rw [List.flatMap_cons]
    refine ⟨along_append.2 ⟨f1, f2⟩, fun o ho => ?_, fun n => ⟨fun e he => ?_, ?_⟩, ?_⟩
    · rcases List.mem_append.1 ho with h | h
      · exact q1 o h
      · exact q2 o h
    · rw [fired] at he
      rcases List.mem_append.1 he with h | h
      · exact s1 n e h
      · exact (s2 n).1 e h
    · rw [fired_append, fired, e1, List.flatMap_append]
      exact (List.Perm.refl _).append (s2 n).2
    · rw [run_append]; exact u2

/-- ranks that hold the optimizer and parameters of a single process, whose gradients are the sums of those of ranks -/
structure Starts {α : Type} [Field α] {R : ℕ} (W : Fin R → World α) (A : World α) : Prop where
  opt : ∀ r, (W r).opt = A.opt
  data : ∀ r, (W r).data = A.data
  grad : ∀ p, ShareGrad .sum (A.grad p) fun r => (W r).grad p
  hooks : (∀ r, (W r).hooks = []) ∧ A.hooks = []

theorem Starts.serial {R : ℕ} {W : Fin R → World α} {A : World α} (t : Starts W A) : SerialTracks W A :=
  ⟨t.opt, t.data, t.grad, [], fun r => t.hooks.1 r, t.hooks.2⟩

theorem Starts.unrolled {R : ℕ} {W : Fin R → World α} {A : World α} (t : Starts W A) : Unrolled R A A :=
  ⟨⟨rfl, rfl, rfl, rfl⟩, by rw [t.hooks.2]; rfl, by rw [t.hooks.2]; simp, rfl, rfl⟩

theorem Window.summed {cl : String → Cls × Cls} {ops : List (Op α)} {w w' : World α} (h : Window cl ops w w') (hs : Summed w) : Summed w' := by
  intro m hm hy e
  rw [h.layers] at hm
  rw [h.hyperOf] at e
  exact hs m hm hy e

theorem along_summed {cl : String → Cls × Cls} : ∀ {ops : List (Op α)} {w : World α}, w.Live cl → FitsRun w ops → (∀ op ∈ ops, op.Quiet) → Summed w →
    Along (fun w op => FitsOp w op ∧ Summed w) w ops
  | [], _, _, _, _, _ => trivial
  | op :: _, _, lv, hf, q, s => by
    have a := lv.quiet1 (q op (by simp)) hf.1
    exact ⟨⟨hf.1, s⟩, along_summed a.live hf.2 (fun o ho => q o (by simp [ho])) (a.summed s)⟩

/-- the passes of ranks between steps, against those of a single process with whole batches -/
theorem sum_window {R : ℕ} [NeZero R] {cl : String → Cls × Cls} {A : World α} {W : Fin R → World α} (t : Starts W A) (lA : A.Live cl) (hS : Summed A)
    {ops : List (Op α)} {dops : List (DOp α R)} (hs : List.Forall₂ (Shards .sum) ops dops) (q : ∀ op ∈ ops, op.Quiet) (hf : FitsRun A ops) :
    List.Forall₂ Serial dops (ops.map (unroll R)) ∧ FitsRun A (ops.map (unroll R)).flatten ∧ (∀ o ∈ (ops.map (unroll R)).flatten, o.Quiet) ∧
      Unrolled R (run ops A) (run (ops.map (unroll R)).flatten A) ∧
      ∀ m ∈ A.opt.layers, A.opt.HKs m.name = none ∧ A.opt.HCs m.name = none → StatMul m (R : α) 1 (run ops A) (run (ops.map (unroll R)).flatten A) := by
  have hsp : ∀ op ∈ ops, op.Splits R := by
    clear q hf
    induction hs with
    | nil => simp
    | cons h _ ih =>
      intro op ho
      rcases List.mem_cons.1 ho with rfl | ho
      · exact h.splits
      · exact ih op ho
  have hser : List.Forall₂ Serial dops (ops.map (unroll R)) := by
    clear q hf hsp
    induction hs with
    | nil => exact .nil
    | cons h _ ih => exact .cons (serial_unroll h) ih
  obtain ⟨f, q', sp, u⟩ := t.unrolled.run (NeZero.pos R) lA lA q hsp hf
  rw [List.flatMap_def] at f q' sp u
  refine ⟨hser, f, q', u, fun m hm h0 => ?_⟩
  obtain ⟨hy, hh, -⟩ := lA.sound.hyper m hm
  have hl := hS m hm hy hh
  have := C34_statistics (NeZero.pos R) lA lA hf f q q' ⟨rfl, rfl, rfl, rfl⟩ rfl hm hh rfl rfl (sp m.name)
    (by rw [microFactor, if_pos hl]; exact ⟨by rw [h0.1]; simp [denO], by rw [h0.2]; simp [denO], Iff.rfl, Iff.rfl⟩)
  rwa [microFactor, if_pos hl] at this

/-- **C41 is false for a sum of losses: the statistics.** Between steps, for any number of ranks, shapes, data and history of forward and backward
passes: if one process executes the passes on whole batches and the ranks on equal shares of them, the ranks' `H_C` is that of the process, but their `H_K`
is `R` times as large. -/
theorem C41_sum_statistics {R : ℕ} [NeZero R] {cl : String → Cls × Cls} {A : World α} {W : Fin R → World α} (t : Starts W A) (lA : A.Live cl)
    (cont : Contiguous cl A) (hS : Summed A) {ops : List (Op α)} {dops : List (DOp α R)} (hs : List.Forall₂ (Shards .sum) ops dops)
    (q : ∀ op ∈ ops, op.Quiet) (hf : FitsRun A ops) {m : Layer} (hm : m ∈ A.opt.layers) (h0 : A.opt.HKs m.name = none ∧ A.opt.HCs m.name = none) (r : Fin R) :
    drunOk dops W = some (drun dops W) ∧ StatMul m (R : α) 1 (run ops A) (drun dops W r) := by
  obtain ⟨hser, f, q', -, st⟩ := sum_window t lA hS hs q hf
  obtain ⟨e, h⟩ := C41_sum_accumulates t.serial lA cont hser (along_summed lA f q' hS)
  obtain ⟨a, b, c, d⟩ := st m hm h0
  rw [← (h r).1] at a b c d
  exact ⟨e, a, b, c, d⟩

/-- **C41 is false for a sum of losses: the step.** The step after such passes, with the default update rule without momentum: the ranks' new `K`
differs from that of the single process by `β/2 (R − 1)` times `avgTr(H_C) K H_K`. -/
theorem C41_sum_deviation {R : ℕ} [NeZero R] {cl : String → Cls × Cls} {A : World α} {W : Fin R → World α} (t : Starts W A) (lA : A.Live cl)
    (cont : Contiguous cl A) (hS : Summed A) {ops : List (Op α)} {dops : List (DOp α R)} (hs : List.Forall₂ (Shards .sum) ops dops)
    (q : ∀ op ∈ ops, op.Quiet) (hf : FitsRun A ops) (h0 : ∀ m ∈ A.opt.layers, A.opt.HKs m.name = none ∧ A.opt.HCs m.name = none) {attr : Option α}
    (ho : FitsOp (run ops A) (.step false attr false)) {m : Layer} (hm : m ∈ A.opt.layers) {h : Hyper α}
    (hh : A.opt.hyperOf m = .ok h) (hu : A.opt.steps % h.T = 0) (hl : h.kfacLike = false) (ha : h.alpha1 = 0) (hn : h.normalize = false) (r : Fin R) :
    drunOk (dops ++ [.step false attr false]) W = some (drun (dops ++ [.step false attr false]) W) ∧
    denO ((drun (dops ++ [.step false attr false]) W r).opt.Ks m.name) m.nK = denO ((run (ops ++ [.step false attr false]) A).opt.Ks m.name) m.nK -
      (h.lrCov.at A.opt.steps / 2 * ((R : α) - 1) * ((run ops A).unscale attr * avgTr (denO ((run ops A).opt.HCs m.name) m.nC))) •
        (denO (A.opt.Ks m.name) m.nK * denO ((run ops A).opt.HKs m.name) m.nK) := by
  obtain ⟨hser, f, q', u, st⟩ := sum_window t lA hS hs q hf
  have WF := lA.window hf q
  have WH := lA.window f q'
  have conf := u.conf
  have ho' : FitsOp (run (ops.map (unroll R)).flatten A) (.step false attr false) := by
    refine ⟨rfl, ho.2.1, fun _ m' hm' => ?_⟩
    rw [WH.layers] at hm'
    have lr := ho.2.2 rfl m' (by rw [WF.layers]; exact hm')
    have sm := st m' hm' (h0 m' hm')
    refine ⟨?_, fun hy e hy0 => ?_⟩
    · obtain ⟨g1, g2⟩ := lr.grads
      rw [← u.grad] at g1 g2
      exact ⟨g1, g2⟩
    · rw [← conf.hyperOf] at e
      rw [← conf.steps] at hy0
      obtain ⟨s1, s2, s3⟩ := lr.stats hy e hy0
      rw [WF.mKs, WF.mCs] at s3
      exact ⟨fun h => s1 (sm.HK0.2 h), fun h => s2 (sm.HC0.2 h), by rw [WH.mKs, WH.mCs]; exact s3⟩
  have cs : (run ops A).curScale attr = (run (ops.map (unroll R)).flatten A).curScale attr := by
    rw [World.curScale, World.curScale, u.scales, conf.steps]
  have us : (run ops A).unscale attr = (run (ops.map (unroll R)).flatten A).unscale attr := by
    rw [World.unscale, World.unscale, cs, u.scales, conf.steps]
  obtain ⟨A', eA, sA, -⟩ := WF.live.step ho
  obtain ⟨B', eB, sB, -⟩ := WH.live.step ho'
  have rA : run (ops ++ [.step false attr false]) A = A' := by rw [run_append, run_cons, eA]; rfl
  have rB : run ((ops.map (unroll R)).flatten ++ [.step false attr false]) A = B' := by rw [run_append, run_cons, eB]; rfl
  have hser' : List.Forall₂ Serial (dops ++ [.step false attr false]) (ops.map (unroll R) ++ [[.step false attr false]]) :=
    List.rel_append hser (.cons (.step _ _ _) .nil)
  have fl : (ops.map (unroll R) ++ [[Op.step false attr false]]).flatten = (ops.map (unroll R)).flatten ++ [.step false attr false] := by simp
  obtain ⟨e, h'⟩ := C41_sum_accumulates t.serial lA cont hser' (by
    rw [fl]
    exact along_append.2 ⟨along_summed lA f q' hS, ⟨ho', WH.summed hS⟩, trivial⟩)
  refine ⟨e, ?_⟩
  rw [(h' r).1, fl, rA, rB]
  have := C34_sum_deviation sA (by rw [cs, us]; exact sB) (by rw [WF.layers]; exact hm) conf (by rw [WF.hyperOf]; exact hh) (by rw [WF.steps]; exact hu) hl ha hn
    (by rw [WF.Ks, WH.Ks]) (by rw [WF.Cs, WH.Cs]) (st m hm (h0 m hm))
  rw [this, WF.steps, WF.Ks]

/-! ### Samples -/

/-- the share of a gradient that ranks with the same data have -/
def ReduceOp.shareGrad {α : Type} [Field α] (red : ReduceOp) (R : ℕ) (G : Option (Mat α)) : Option (Mat α) := match red with
  | .avg => G
  | .sum => G.map fun M => M.smul (1 / R)

/-- an operation on equal shares of the batch; ranks hold the same gradients -/
def shareOp {α : Type} [Field α] (red : ReduceOp) (R : ℕ) : Op α → DOp α R
  | .forward i x ge => .forward i (fun r => x.chunk R r) ge
  | .backward k g => .backward k fun r => red.rankGrad R (g.chunk R r)
  | .setGrad p G => .setGrad p fun _ => red.shareGrad R G
  | .setParam p M => .setParam p M
  | .setHyper i h => .setHyper i h
  | .setScale s => .setScale s
  | .step c a f => .step c a f

theorem shareGrad_ok {R : ℕ} [NeZero R] (red : ReduceOp) (G : Option (Mat α)) : ShareGrad red G fun _ : Fin R => red.shareGrad R G := by
  have R0 : (R : α) ≠ 0 := by exact_mod_cast (NeZero.pos R).ne'
  rintro M rfl
  cases red with
  | avg =>
    refine ⟨fun _ => M, fun r => ⟨rfl, rfl, rfl⟩, fun i j => ?_⟩
    rw [Finset.sum_const, Finset.card_univ, Fintype.card_fin, nsmul_eq_mul, ← mul_assoc]
    show _ = 1 / (R : α) * R * _
    rw [one_div, inv_mul_cancel₀ R0, one_mul]
  | sum =>
    refine ⟨fun _ => M.smul (1 / R), fun r => ⟨rfl, rfl, rfl⟩, fun i j => ?_⟩
    rw [Finset.sum_const, Finset.card_univ, Fintype.card_fin, nsmul_eq_mul]
    show _ = 1 * ((R : α) * if i < M.rows ∧ j < M.cols then M.get i j * (1 / R) else 0)
    split
    · field_simp
    · rw [M.supp i j (by omega)]; simp

/-- any history whose batches can be split can be shared -/
theorem shareOp_ok {R : ℕ} [NeZero R] (red : ReduceOp) {op : Op α} (h : op.Splits R) : Shards red op (shareOp red R op) := by
  cases op with
  | forward i x ge => exact ⟨rfl, rfl, h, fun _ => rfl⟩
  | backward k g => exact ⟨rfl, h, fun _ => rfl⟩
  | setGrad p G => exact ⟨rfl, shareGrad_ok red G⟩
  | setParam p M => exact ⟨rfl, rfl⟩
  | setHyper i h => exact ⟨rfl, rfl⟩
  | setScale s => exact rfl
  | step c a f => exact ⟨rfl, rfl, rfl⟩

theorem shareOps_ok {R : ℕ} [NeZero R] (red : ReduceOp) : ∀ {ops : List (Op α)}, (∀ op ∈ ops, op.Splits R) →
    List.Forall₂ (Shards red) ops (ops.map (shareOp red R))
  | [], _ => .nil
  | _ :: _, h => .cons (shareOp_ok red (h _ (by simp))) (shareOps_ok red fun o ho => h o (by simp [ho]))

theorem Sample.full_splits : ∀ op ∈ (Sample.full : List (Op α)), op.Splits 2 := by
  intro op hop
  simp only [Sample.full, Sample.bpass, List.mem_cons, List.not_mem_nil, or_false] at hop
  rcases hop with rfl | rfl | rfl | rfl
  · exact ⟨1, [1], rfl⟩
  · exact ⟨1, [2], rfl⟩
  · exact ⟨1, [1], rfl⟩
  · exact ⟨1, [1], rfl⟩

/-- ranks that construct the optimizer on the same model; their gradients add up to those of a single process -/
def sumRanks {α : Type} [Field α] (R : ℕ) (A : World α) : Fin R → World α := fun _ => { A with grad := fun p => ReduceOp.sum.shareGrad R (A.grad p) }

theorem starts_sum {R : ℕ} [NeZero R] {A : World α} (h : A.hooks = []) : Starts (sumRanks R A) A :=
  ⟨fun _ => rfl, fun _ => rfl, fun p => shareGrad_ok .sum (A.grad p), fun _ => h, h⟩

/-- **C41 is false for `loss_average=None`.** Two ranks and a single process train the sample model on a batch of two inputs, with the sum of losses and the
default update rule; gradients of parameters add up to those of the single process. After one step the ranks' `K` is not that of the single process. -/
theorem C41_false : ∃ (cl : String → Cls × Cls) (A : World ℝ) (W : Fin 2 → World ℝ) (ops : List (Op ℝ)) (dops : List (DOp ℝ 2)), A.Live cl ∧ Contiguous cl A ∧
    Summed A ∧ Starts W A ∧ FitsRun A ops ∧ List.Forall₂ (Shards .sum) ops dops ∧ drunOk dops W = some (drun dops W) ∧
    ∃ m ∈ A.opt.layers, ∀ r, (drun dops W r).opt.Ks m.name ≠ (run ops A).opt.Ks m.name := by
  have h2 : ¬ ((2⁻¹ : ℝ) < 0) := by simp
  obtain ⟨cl, w, lv, h0, f1, -, -, hm, st, hy, -, -, -, -, -, hyF, stF, hmF, neK, neC, hk, hc, -⟩ := Sample.micro_step (a := Sample.margs false none)
    (by simp [validate, Sample.margs, Sample.gargs, PyNum.rejected, PyRate.rejected, h2]) rfl rfl ⟨Or.inl rfl, Or.inl rfl⟩
    (by simp [checked, defaults, Sample.margs, Sample.gargs, PyNum.val]) (show (2 : ℕ) ≠ 0 by decide) rfl rfl
  obtain ⟨fF, fS⟩ := along_append.1 f1
  have hS : Summed w := fun m hm h e => by
    rw [(hc m hm).1] at e; cases e; rfl
  have cont : Contiguous cl w := fun m hm => by rw [(hc m hm).2]; exact ⟨C42_library (c := .dense) (by simp [libraryClasses]) _, C42_library (c := .diagonal) (by simp [libraryClasses]) _⟩
  have hs := shareOps_ok (R := 2) .sum (ops := (Sample.full : List (Op ℝ))) Sample.full_splits
  have q : ∀ op ∈ (Sample.full : List (Op ℝ)), op.Quiet := Sample.bpass_quiet
  have dev := fun r => C41_sum_deviation (starts_sum hk) lv cont hS hs q fF h0 fS.1 hm hy (by rw [st]; rfl) rfl rfl rfl r
  refine ⟨cl, w, sumRanks 2 w, Sample.full ++ [.step false none false], Sample.full.map (shareOp .sum 2) ++ [.step false none false], lv, cont, hS,
    starts_sum hk, f1, List.rel_append hs (.cons (shareOp_ok (op := .step false none false) _ trivial) .nil), (dev 0).1, Sample.la, hm, fun r e => ?_⟩
  have hβ : (defaults (Sample.margs false none)).lrCov.at 0 = 1 / 10 := by simp [defaults, Sample.margs, Sample.gargs, PyRate.val, PyNum.val, LrCov.at]
  have := (dev r).2
  rw [e, st, hβ] at this
  have WF := lv.window fF q
  rcases smul_eq_zero.1 (sub_eq_self.1 this.symm) with h | h
  · rcases mul_eq_zero.1 h with h | h
    · norm_num at h
    · rcases mul_eq_zero.1 h with h | h
      · obtain ⟨p, hp⟩ := WF.live.prev
        rw [World.unscale, hp] at h
        exact (div_pos (WF.live.pos _ _ hp) (pow_pos (WF.live.curScale_pos (by simp)) 2)).ne' h
      · exact neC rfl h
  · rw [← WF.Ks] at h
    exact neK h

/-- The sample model with averaged losses: two ranks with one input each agree with a single process with both, by `C41_data_parallel_partial`. -/
example : ∃ (cl : String → Cls × Cls) (A : World ℝ) (ops : List (Op ℝ)) (dops : List (DOp ℝ 2)), A.Live cl ∧ Contiguous cl A ∧ Tracks (fun _ : Fin 2 => A) A ∧
    Along (fun w op => FitsOp w op ∧ Averaged w) A ops ∧ List.Forall₂ (Shards .avg) ops dops ∧ ops.length = 5 := by
  have h2 : ¬ ((2⁻¹ : ℝ) < 0) := by simp
  obtain ⟨cl, w, lv, h0, f1, -, -, hm, st, hy, -, -, -, -, -, hyF, stF, hmF, -, -, hk, hc, -⟩ := Sample.micro_step (a := Sample.margs false (some "batch"))
    (by simp [validate, Sample.margs, Sample.gargs, PyNum.rejected, PyRate.rejected, h2]) rfl rfl ⟨Or.inl rfl, Or.inr (Or.inl rfl)⟩
    (by simp [checked, defaults, Sample.margs, Sample.gargs, PyNum.val]) (show (2 : ℕ) ≠ 0 by decide) rfl rfl
  have hS : Averaged w := fun m hm h e => by
    rw [(hc m hm).1] at e; cases e; exact fun h => by cases h
  refine ⟨cl, w, Sample.full ++ [.step false none false], Sample.full.map (shareOp .avg 2) ++ [.step false none false], lv,
    fun m hm => by rw [(hc m hm).2]; exact ⟨C42_library (c := .dense) (by simp [libraryClasses]) _, C42_library (c := .diagonal) (by simp [libraryClasses]) _⟩, Tracks.start w hk, ?_, List.rel_append (shareOps_ok .avg Sample.full_splits) (.cons (shareOp_ok (op := .step false none false) _ trivial) .nil), rfl⟩
  have key : ∀ (ops : List (Op ℝ)) (w : World ℝ), w.Live cl → FitsRun w (ops ++ [.step false none false]) → (∀ op ∈ ops, op.Quiet) → Averaged w →
      Along (fun w op => FitsOp w op ∧ Averaged w) w (ops ++ [.step false none false]) := by
    intro ops
    induction ops with
    | nil => intro w _ hf _ ha; exact ⟨⟨hf.1, ha⟩, trivial⟩
    | cons op ops ih =>
      intro w lw hf q ha
      have a := lw.quiet1 (q op (by simp)) hf.1
      refine ⟨⟨hf.1, ha⟩, ih _ a.live hf.2 (fun o ho => q o (by simp [ho])) ?_⟩
      intro m hm h e
      rw [a.layers] at hm
      rw [a.hyperOf] at e
      exact ha m hm h e
  exact key _ w lv f1 Sample.bpass_quiet hS
