import Verif.Model.Distributed
import Verif.Proofs.Opt.Sub
import Verif.Proofs.Opt.Two
import Verif.Proofs.Opt.Chunk
import Verif.Props.AllReduce

/-! Ranks in data-parallel training: what they do depends on the optimizer's state and the parameters only, until they look at data. -/

set_option linter.unusedSectionVars false

/-- The gradient `G` is the mean or sum of the gradients `Gs` of ranks, which have its shape. -/
def ShareGrad {α : Type} [Field α] (op : ReduceOp) {R : ℕ} (G : Option (Mat α)) (Gs : Fin R → Option (Mat α)) : Prop := ∀ M, G = some M →
  ∃ Ms : Fin R → Mat α, (∀ r, Gs r = some (Ms r) ∧ (Ms r).OfShape M.rows M.cols) ∧ ∀ i j, M.get i j = op.factor R * ∑ r, (Ms r).get i j

/-- a layer's gradients are the mean or sum of those of ranks -/
def Dist.ShareLayer {α : Type} [Field α] {R : ℕ} (op : ReduceOp) (m : Layer) (G : ℕ → Option (Mat α)) (g : Fin R → ℕ → Option (Mat α)) : Prop :=
  ∀ p, World.Owns m p → ShareGrad op (G p) fun r => g r p

variable {α : Type} [Field α] [LinearOrder α] [LawfulSqrt α]

/-- `A` has the optimizer state and parameters of `B`, and the gradients and hooks `g`, `k` -/
structure Core (g : ℕ → Option (Mat α)) (k : List (Layer × ND α)) (A B : World α) : Prop where
  opt : A.opt = B.opt
  data : A.data = B.data
  grad : A.grad = g
  hooks : A.hooks = k

variable {g : ℕ → Option (Mat α)} {k : List (Layer × ND α)} {m : Layer}

namespace World

theorem setOpt_core (f : Opt α → Opt α) : Same2 (Core g k) (setOpt f) (setOpt f) :=
  Same2.modify fun A B r => ⟨by dsimp only; rw [r.opt], r.data, r.grad, r.hooks⟩

theorem updateOn_core (h : Hyper α) : Same2 (Core g k) (updateOn (α := α) h m) (updateOn h m) := by
  unfold updateOn
  refine Same2.get_bind fun A B r => ?_
  rw [r.opt]
  exact Same2.bind (Same2.lift _) fun K => Same2.bind (Same2.lift _) fun C => Same2.bind (Same2.lift _) fun HK => Same2.bind
    (setOpt_core _) fun _ => Same2.bind (Same2.lift _) fun HC => Same2.bind (setOpt_core _) fun _ =>
    Same2.bind (Same2.lift _) fun ms => Same2.bind (setOpt_core _) fun _ => Same2.bind (Same2.lift _) fun bK =>
    Same2.bind (Same2.lift _) fun bC => Same2.bind (Same2.lift _) fun K' => Same2.bind (setOpt_core _) fun _ => Same2.bind (Same2.lift _) fun C' =>
    setOpt_core _

theorem updatePreconditioner_core : Same2 (Core g k) (updatePreconditioner (α := α) m) (updatePreconditioner m) := by
  unfold updatePreconditioner
  refine Same2.get_bind fun A B r => ?_
  rw [r.opt]
  refine Same2.bind (Same2.lift _) fun h => ?_
  split
  · exact Same2.raise _
  · split
    · exact Same2.pure _
    · exact updateOn_core h

theorem commitH_core (HK HC : SM α) : Same2 (Core g k) (commitH m HK HC) (commitH m HK HC) := by
  unfold commitH
  refine Same2.get_bind fun A B r => ?_
  rw [r.opt]
  exact Same2.bind (Same2.lift _) fun _ => Same2.bind (setOpt_core _) fun _ => Same2.bind (Same2.lift _) fun _ => setOpt_core _

theorem moveParam_core (h : Hyper α) (p : ℕ) (step : Mat α) : Same2 (Core g k) (moveParam h p step) (moveParam h p step) := by
  unfold moveParam
  refine Same2.get_bind fun A B r => ?_
  rw [r.data]
  exact Same2.bind (Same2.lift _) fun _ => Same2.modify fun A B r => ⟨r.opt, by dsimp only; rw [r.data], r.grad, r.hooks⟩

theorem paramStep_core (h : Hyper α) (p : ℕ) (step : Mat α) : Same2 (Core g k) (paramStep h p step) (paramStep h p step) := by
  unfold paramStep
  refine Same2.get_bind fun A B r => ?_
  rw [r.data, r.opt]
  refine Same2.bind (Same2.lift _) fun _ => ?_
  split
  · exact Same2.bind (Same2.lift _) fun _ => Same2.bind (setOpt_core _) fun _ => moveParam_core h p _
  · exact moveParam_core h p _

theorem applyNat_core (N : Mat α) : Same2 (Core g k) (applyNat m N) (applyNat m N) := by
  unfold applyNat
  refine Same2.get_bind fun A B r => ?_
  rw [r.opt]
  cases m.bias with
  | none => exact Same2.bind (Same2.lift _) fun _ => Same2.bind (Same2.lift _) fun h => paramStep_core h _ _
  | some b => exact Same2.bind (Same2.lift _) fun _ => Same2.bind (Same2.lift _) fun _ => Same2.bind (Same2.lift _) fun h =>
      Same2.bind (paramStep_core h _ _) fun _ => paramStep_core h _ _

theorem setScale_core (s : α) : Same2 (Core g k) (Opt.setScale s) (Opt.setScale s) := by
  unfold Opt.setScale
  refine Same2.bind (Same2.modify fun A B r => ⟨by dsimp only; rw [r.opt], r.data, r.grad, r.hooks⟩) fun _ => Same2.get_bind fun A B r => ?_
  rw [r.opt]
  split
  · exact Same2.bind (Same2.lift _) fun _ => Same2.bind (Same2.lift _) fun _ => Same2.pure _
  · exact Same2.pure _

theorem ensureScale_core (attr : Option α) : Same2 (Core g k) (ensureScale attr) (ensureScale attr) := by
  unfold ensureScale
  refine Same2.get_bind fun A B r => ?_
  rw [r.opt]
  split
  · exact Same2.pure _
  · exact setScale_core _

theorem dropStats_core : Same2 (Core g k) (dropStats (α := α)) dropStats := by
  intro A B r
  rw [dropStats_run, dropStats_run]
  exact ⟨rfl, by dsimp only; rw [r.opt], r.data, r.grad, r.hooks⟩

end World

namespace Dist
variable {R : ℕ} {β : Type}

theorem gather_ok {f : Fin R → Except PyErr β} {b : Fin R → β} (h : ∀ r, f r = .ok (b r)) : gather f = .ok b := by
  induction R with
  | zero => exact congrArg Except.ok (funext fun r => r.elim0)
  | succ R ih =>
    rw [gather, h 0, Except.bind_ok', ih (b := fun r => b r.succ) (fun r => h r.succ), Except.bind_ok', Except.pure_ok]
    refine congrArg Except.ok (funext fun r => ?_)
    refine Fin.cases rfl (fun i => rfl) r

theorem each_ok {f : Fin R → Py (World α) Unit} {W W' : Fin R → World α} (h : ∀ r, f r (W r) = (.ok (), W' r)) : each f W = (.ok (), W') := by
  unfold each
  rw [gather_ok (b := fun _ => ()) (fun r => by rw [h r])]
  refine Prod.ext rfl (funext fun r => by simp only [h r])

/-- all ranks have the optimizer state and parameters of `A` -/
def Rep (g : Fin R → ℕ → Option (Mat α)) (k : Fin R → List (Layer × ND α)) (W : Fin R → World α) (A : World α) : Prop := ∀ r, Core (g r) (k r) (W r) A

/-- code that does not look at data does the same on all ranks -/
theorem each_rep {g : Fin R → ℕ → Option (Mat α)} {k : Fin R → List (Layer × ND α)} {x : Py (World α) Unit} {W : Fin R → World α} {A A' : World α}
    (hx : ∀ {g k}, Same2 (Core g k) x x) (r : Rep g k W A) (e : x A = (.ok (), A')) :
    ∃ W', each (fun _ => x) W = (.ok (), W') ∧ Rep g k W' A' := by
  have h := fun i => hx (W i) A (r i)
  refine ⟨fun i => (x (W i)).2, each_ok fun i => Prod.ext (by rw [(h i).1, e]) rfl, fun i => ?_⟩
  have := (h i).2
  rw [e] at this
  exact this

end Dist


open Finset Mat Matrix
variable [IsStrictOrderedRing α]

namespace Dist
variable {R : ℕ} {β : Type}

theorem foldlM_addMat {a b : ℕ} {N : Mat α} : ∀ {Ls : List (Mat α)}, N.OfShape a b → (∀ L ∈ Ls, L.OfShape a b) →
    ∃ S, Ls.foldlM (fun S L => S.add? L) N = Except.ok S ∧ S.OfShape a b ∧ S.M a b = N.M a b + (Ls.map (·.M a b)).sum := by
  intro Ls
  induction Ls generalizing N with
  | nil => exact fun h _ => ⟨N, rfl, h, by simp⟩
  | cons L Ls ih =>
    intro hN hL
    have hL' := hL L (by simp)
    obtain ⟨S, eS, wS, dS⟩ := ih (N := N.add L) ⟨by simp [hN.1], by simp [hN.2]⟩ fun M hM => hL M (by simp [hM])
    refine ⟨S, ?_, wS, ?_⟩
    · rw [List.foldlM_cons, add?_ok (by rw [hN.1, hL'.1]) (by rw [hN.2, hL'.2])]
      exact eS
    · rw [dS, Mat.M_add (by rw [hN.1, hL'.1]) (by rw [hN.2, hL'.2]), List.map_cons, List.sum_cons, add_assoc]

theorem reduceMat_spec (op : ReduceOp) [NeZero R] {a b : ℕ} {Ns : Fin R → Mat α} (hN : ∀ r, (Ns r).OfShape a b) :
    ∃ S, reduceMat op Ns = .ok S ∧ S.OfShape a b ∧ S.M a b = (op.factor R : α) • ∑ r, (Ns r).M a b := by
  obtain ⟨R, rfl⟩ : ∃ k, R = k + 1 := ⟨R - 1, by have := NeZero.ne R; omega⟩
  obtain ⟨S, e, w, d⟩ := foldlM_addMat (hN 0) (Ls := List.ofFn fun i : Fin R => Ns i.succ) (by
    intro L hL
    obtain ⟨i, rfl⟩ := (List.mem_ofFn' _ _).1 hL
    exact hN _)
  refine ⟨S.smul (op.factor (R + 1)), ?_, ⟨by simp [w.1], by simp [w.2]⟩, ?_⟩
  · rw [reduceMat, List.ofFn_succ]
    simp only [e, Except.bind_ok', Except.pure_ok]
  · rw [Mat.M_smul, d, Fin.sum_univ_succ, List.map_ofFn, List.sum_ofFn]
    rfl

variable {W : Fin R → World α} {A A' : World α} {g : Fin R → ℕ → Option (Mat α)} {k : Fin R → List (Layer × ND α)}

theorem ShareLayer.grads {op : ReduceOp} {m : Layer} {w : World α} {r : Fin R} (hs : ShareLayer op m A.grad g) (hg : LayerGrads A m)
    (hw : w.grad = g r) : LayerGrads w m where
  weight := by
    obtain ⟨G, e, s⟩ := hg.weight
    obtain ⟨Ms, h, -⟩ := hs m.weight.ptr (Or.inl rfl) G e
    exact ⟨Ms r, by rw [hw]; exact (h r).1, (h r).2.1.trans s.1, (h r).2.2.trans s.2⟩
  bias b hb := by
    obtain ⟨G, e, s⟩ := hg.bias b hb
    obtain ⟨Ms, h, -⟩ := hs b.ptr (Or.inr ⟨b, hb, rfl⟩) G e
    exact ⟨Ms r, by rw [hw]; exact (h r).1, (h r).2.1.trans s.1, (h r).2.2.trans s.2⟩

theorem ShareLayer.gradM {op : ReduceOp} {m : Layer} (hs : ShareLayer op m A.grad g) (hg : LayerGrads A m)
    (hw : ∀ r, (W r).grad = g r) : _root_.gradM A m = (op.factor R : α) • ∑ r, _root_.gradM (W r) m := by
  obtain ⟨G, e, s⟩ := hg.weight
  obtain ⟨Ms, h, d⟩ := hs m.weight.ptr (Or.inl rfl) G e
  funext i j
  rw [Matrix.smul_apply, Matrix.sum_apply]
  unfold _root_.gradM
  split
  · simp only [e, hw, (h _).1, Option.map_some, Option.getD_some, d, smul_eq_mul]
  · rcases hb : m.bias with _ | b
    · simp
    · obtain ⟨G', e', s'⟩ := hg.bias b hb
      obtain ⟨Ms', h', d'⟩ := hs b.ptr (Or.inr ⟨b, hb, rfl⟩) G' e'
      simp only [e', hw, (h' _).1, Option.map_some, Option.bind_some, Option.getD_some, d', smul_eq_mul]

theorem layerStep_rep [NeZero R] {cl : Cls × Cls} {h : Hyper α} {s u : α} (hm : m.Good cl) (hw : LayerWF cl A.opt m)
    (hsh : LayerShape A m) (hr : LayerReady A m) (hh : A.opt.hyperOf m = .ok h) (hT : h.T ≠ 0)
    (hs : A.opt.scale A.opt.steps = .ok s) (hu : World.gradUnscaling A.opt = .ok u) (hg : ShareLayer (reduceOp h) m A.grad g)
    (rep : Rep g k W A) : ∃ A' W', World.layerStep m A = (.ok (), A') ∧ layerStep m W = (.ok (), W') ∧ Rep g k W' A' := by
  obtain ⟨A2, e, sp⟩ := World.layerStep_spec hm hw hsh hr hh hT hs hu
  have e' := e
  rw [World.layerStep, Py.bind_eq_ok] at e
  obtain ⟨_, A1, e1, e⟩ := e
  rw [Py.get_bind_run] at e
  have f1 := World.updatePreconditioner_frame m A
  rw [e1] at f1
  rcases hN : A1.natGradMat m with x | N
  · rw [hN, Py.lift_error_bind_run] at e; cases e
  rw [hN, Py.lift_ok_bind_run] at e
  have f2 := World.applyNat_frame m N A1
  rw [e] at f2
  have sf : SameFac m.name A1.opt A2.opt := f2.sameFac id id
  have wf1 : LayerWF cl A1.opt m := sp.wf.congr ⟨sf.1.symm, sf.2.symm, sf.3.symm, sf.4.symm, sf.5.symm, sf.6.symm⟩
  have hh1 : A1.opt.hyperOf m = .ok h := by rw [f1.hyperOf]; exact hh
  have hs1 : A1.opt.scale A1.opt.steps = .ok s := by rw [f1.scale, f1.steps]; exact hs
  have hg1 : LayerGrads A1 m := hr.grads.congr f1.grad
  obtain ⟨N', eN', sN, dN⟩ := World.natGradMat_spec hm wf1 hg1 hh1 hs1
  rw [hN] at eN'; cases eN'
  obtain ⟨W1, eW1, rep1⟩ := each_rep (fun {_ _} => World.updatePreconditioner_core) rep e1
  have q : ShareLayer (reduceOp h) m A1.grad g := by rw [f1.grad]; exact hg
  have hgr : ∀ r, LayerGrads (W1 r) m := fun r => q.grads hg1 (rep1 r).grad
  have nat : ∀ r, ∃ N, (W1 r).natGradMat m = .ok N ∧ N.OfShape m.nC m.nK ∧ N.M m.nC m.nK = (1 / s) •
      (cl.2.gram (denO (A1.opt.Cs m.name) m.nC) * _root_.gradM (W1 r) m * (cl.1.gram (denO (A1.opt.Ks m.name) m.nK))ᵀ) := by
    intro r
    have eo := (rep1 r).opt
    have := World.natGradMat_spec (w := W1 r) hm (by rw [eo]; exact wf1) (hgr r) (by rw [eo]; exact hh1) (by rw [eo]; exact hs1)
    rw [eo] at this
    exact this
  choose Ns eNs sNs dNs using nat
  obtain ⟨S, eS, sS, dS⟩ := reduceMat_spec (reduceOp h) sNs
  have eSN : S = N := by
    refine Mat.M_inj sS sN ?_
    rw [dS, dN, q.gradM hg1 fun r => (rep1 r).grad, Matrix.mul_smul, Matrix.smul_mul, smul_comm, Matrix.mul_sum, Matrix.sum_mul,
      Finset.smul_sum (r := (1 / s))]
    exact congrArg _ (Finset.sum_congr rfl fun r _ => dNs r)
  obtain ⟨W2, eW2, rep2⟩ := each_rep (fun {_ _} => World.applyNat_core N) rep1 e
  refine ⟨A2, W2, e', ?_, rep2⟩
  rw [layerStep, Py.bind_ok eW1, Py.get_bind_run, gather_ok eNs, Py.lift_ok_bind_run,
    gather_ok (b := fun _ => h) (fun r => by rw [(rep1 r).opt]; exact hh1), Py.lift_ok_bind_run,
    gather_ok (b := fun _ => S) (fun r => eS), Py.lift_ok_bind_run, eSN, eW2]

theorem forM_rep [NeZero R] {cl : String → Cls × Cls} {s u : α} : ∀ (ms : List Layer) {W : Fin R → World α} {A : World α}, Untied ms →
    (∀ m ∈ ms, m.Good (cl m.name)) → (∀ m ∈ ms, LayerWF (cl m.name) A.opt m) → (∀ m ∈ ms, LayerShape A m) →
    (∀ m ∈ ms, LayerReady A m) → (∀ m ∈ ms, ∃ h, A.opt.hyperOf m = .ok h ∧ h.T ≠ 0) →
    A.opt.scale A.opt.steps = .ok s → World.gradUnscaling A.opt = .ok u →
    (∀ m ∈ ms, ∀ h, A.opt.hyperOf m = .ok h → ShareLayer (reduceOp h) m A.grad g) → Rep g k W A →
    ∃ A' W', Py.forM ms World.layerStep A = (.ok (), A') ∧ Py.forM ms layerStep W = (.ok (), W') ∧ Rep g k W' A'
  | [], W, A, _, _, _, _, _, _, _, _, _, rep => ⟨A, W, rfl, rfl, rep⟩
  | m :: ms, W, A, hU, hG, hW, hS, hR, hH, hs, hu, hg, rep => by
    obtain ⟨h, hh, hT⟩ := hH m (by simp)
    obtain ⟨A1, W1, e1, d1, rep1⟩ := layerStep_rep (hG m (by simp)) (hW m (by simp)) (hS m (by simp)) (hR m (by simp)) hh hT hs hu
      (hg m (by simp) h hh) rep
    have f1 := World.layerStep_frame m A
    rw [e1] at f1
    have hU' := List.pairwise_cons.1 hU
    have key : ∀ m' ∈ ms, SameFac m'.name A.opt A1.opt ∧ (∀ p, World.Owns m' p → A1.data p = A.data p) ∧
        (∀ p, World.Owns m' p → A1.opt.mom p = A.opt.mom p) := by
      intro m' hm'
      obtain ⟨hn, hp⟩ := hU'.1 m' hm'
      refine ⟨f1.sameFac (fun h => hn h.1.symm) (fun h => hn h.1.symm), fun p hp' => f1.data p ?_, fun p hp' => f1.mom p ?_⟩
      · exact fun h => hp p (World.owns_iff.1 h) (World.owns_iff.1 hp')
      · exact fun h => hp p (World.owns_iff.1 h) (World.owns_iff.1 hp')
    obtain ⟨A', W', e2, d2, rep2⟩ := forM_rep (cl := cl) (s := s) (u := u) ms hU'.2 (fun m' h' => hG m' (by simp [h']))
      (fun m' h' => (hW m' (by simp [h'])).congr (key m' h').1)
      (fun m' h' => (hS m' (by simp [h'])).congr (key m' h').2.1 (key m' h').2.2)
      (fun m' h' => (hR m' (by simp [h'])).congr f1.grad (f1.hyperOf _) f1.steps (key m' h').1)
      (fun m' h' => by rw [f1.hyperOf]; exact hH m' (by simp [h']))
      (by rw [f1.scale, f1.steps]; exact hs) (by rw [World.gradUnscaling_frame f1]; exact hu)
      (fun m' h' h hh => by rw [f1.grad]; rw [f1.hyperOf] at hh; exact hg m' (by simp [h']) h hh) rep1
    exact ⟨A', W', Py.forM_cons_ok.2 ⟨A1, e1, e2⟩, Py.forM_cons_ok.2 ⟨W1, d1, d2⟩, rep2⟩

theorem step_rep [NeZero R] {cl : String → Cls × Cls} {c f : Bool} {attr : Option α} (live : A.Live cl) (ho : FitsOp A (.step c attr f))
    (hg : f = false → ∀ m ∈ A.opt.layers, ∀ h, A.opt.hyperOf m = .ok h → ShareLayer (reduceOp h) m A.grad g) (rep : Rep g k W A) :
    ∃ W', step c attr f W = (.ok (), W') ∧ Rep g k W' (exec (.step c attr f) A).2 := by
  obtain ⟨A', e, -⟩ := live.exec ho
  rw [e]
  obtain ⟨rfl, ha, hr⟩ := ho
  change World.step false attr f A = _ at e
  obtain ⟨e0, A1, e1, rfl⟩ := World.step_ok_iff.1 e
  have e0' : World.ensureScale attr A = (.ok (), World.withScale attr A) := by
    rw [← World.ensureScale_state attr A, ← e0]
  obtain ⟨W0, d0, rep0⟩ := each_rep (fun {_ _} => World.ensureScale_core attr) rep e0'
  have key : ∃ W1, stepBody f W0 = (.ok (), W1) ∧ Rep g k W1 A1 := by
    cases f
    · obtain ⟨p, hp⟩ := live.prev
      have hs0 := live.curScale_pos ha
      let v := World.withScale attr A
      have vs : v.opt.scales = Dict.set A.opt.scales A.opt.steps (A.curScale attr) := rfl
      have sc : v.opt.scale v.opt.steps = .ok (A.curScale attr) := by
        rw [Opt.scale, lookup, vs, Dict.set]
        simp [v, World.withScale]
      have sp : v.opt.scale ((v.opt.steps : ℤ) - 1) = .ok p := by
        rw [Opt.scale, lookup, vs, Dict.set, Function.update_of_ne (by simp [v, World.withScale])]
        simp only [v, World.withScale, hp]
      have hu : World.gradUnscaling v.opt = .ok (p / A.curScale attr ^ 2) := by
        rw [World.gradUnscaling, sp, Except.bind_ok', sc, Except.bind_ok', if_neg hs0.ne']
      have sf : ∀ n, SameFac n A.opt v.opt := fun n => ⟨rfl, rfl, rfl, rfl, rfl, rfl⟩
      have hw := live.sound
      obtain ⟨A2, W2, e2, d2, rep2⟩ := forM_rep (cl := cl) (A := v) v.opt.layers hw.untied hw.good (fun m hm => (hw.lay m hm).congr (sf _))
        (fun m hm => (hw.shape m hm).congr (fun _ _ => rfl) (fun _ _ => rfl)) (fun m hm => (hr rfl m hm).congr rfl rfl rfl (sf _))
        (fun m hm => hw.hyper m hm) sc hu (hg rfl) rep0
      rw [World.stepBody, if_neg (by simp), World.innerStep, Py.get_bind_run, e2] at e1
      cases e1
      refine ⟨W2, ?_, rep2⟩
      rw [stepBody, if_neg (by simp), innerStep, Py.get_bind_run, (rep0 0).opt]
      exact d2
    · rw [World.stepBody, if_pos rfl] at e1
      obtain ⟨W1, d1, rep1⟩ := each_rep (fun {_ _} => World.dropStats_core) rep0 e1
      exact ⟨W1, by rw [stepBody, if_pos rfl, d1], rep1⟩
  obtain ⟨W1, d1, rep1⟩ := key
  obtain ⟨W2, d2, rep2⟩ := each_rep (A' := { A1 with opt := { A1.opt with steps := A1.opt.steps + 1 } })
    (fun {_ _} => World.setOpt_core fun o => { o with steps := o.steps + 1 }) rep1 rfl
  obtain ⟨W3, d3, rep3⟩ := each_rep (A' := { A1 with opt := Opt.removeUsedScales { A1.opt with steps := A1.opt.steps + 1 } })
    (fun {_ _} => World.setOpt_core Opt.removeUsedScales) rep2 rfl
  exact ⟨W3, by rw [step, if_neg (by simp), Py.bind_ok d0, Py.bind_ok d1, Py.bind_ok d2, d3], rep3⟩

/-- statistics whose tensors are contiguous are reduced -/
theorem reduceStat_spec [NeZero R] {c : Cls} {n : ℕ} (op : ReduceOp) {Hs : Fin R → SM α} (hH : ∀ r, WF c n (Hs r))
    (ha : (c.fromInnerContig n).all = true) :
    ∃ S, reduceStat (fun _ => op) Hs = .ok (fun _ => S) ∧ WF c n S ∧ S.den n = (op.factor R : α) • ∑ r, (Hs r).den n := by
  have e : ∀ r, statContig (Hs r) = c.fromInnerContig n := fun r => by rw [statContig, (hH r).cls_eq, (hH r).rows]
  obtain ⟨S, eS, wS, dS⟩ := C42_all_reduce_partial op (NeZero.pos R) hH (f := fun r => statContig (Hs r))
    (fun r => by rw [e]; exact fromInnerContig_fits (hH r).supports) (fun r => by rw [e]; exact ha)
  refine ⟨S, gather_ok fun r => ?_, wS, ?_⟩
  · rw [eS]; rfl
  · rw [dS]; cases op <;> rfl

/-- A backward pass on all ranks: every rank adds the same, reduced, statistics. -/
theorem backward_rep [NeZero R] {cl : Cls × Cls} {h : Hyper α} {i : ℕ} {x gs : Fin R → ND α} {p : α} (rep : Rep g k W A)
    (hk : ∀ r, (k r)[i]? = some (m, x r)) (hw : LayerWF cl A.opt m) (hh : A.opt.hyperOf m = .ok h) (hv : h.Valid)
    (hx : ∀ r, InputFits m h.kfacApprox (x r)) (hg : ∀ r, GradFits m (gs r)) (hp : A.opt.scales ((A.opt.steps : ℤ) - 1) = some p) (hp0 : 0 < p)
    (cK : (cl.1.fromInnerContig m.nK).all = true) (cC : (cl.2.fromInnerContig m.nC).all = true) :
    ∃ SK SC A' W', World.commitH m SK SC A = (.ok (), A') ∧ dexec (.backward i gs) W = (.ok (), W') ∧ Rep g k W' A' ∧
      WF cl.1 m.nK SK ∧ WF cl.2 m.nC SC ∧
      SK.den m.nK = ((reduceOp h).factor R : α) • ∑ r, cl.1.proj m.nK (cl.1.sandwich (denO (A.opt.Ks m.name) m.nK) (inputMoment h m (x r))) ∧
      SC.den m.nC = ((reduceOp h).factor R : α) • ∑ r,
        (1 / p) • cl.2.proj m.nC (cl.2.sandwich (denO (A.opt.Cs m.name) m.nC) (gradMoment h m (gs r))) := by
  have loc : ∀ r, ∃ H : SM α × SM α, World.localH (W r).opt m (x r) (gs r) = .ok H ∧ WF cl.1 m.nK H.1 ∧ WF cl.2 m.nC H.2 ∧
      H.1.den m.nK = cl.1.proj m.nK (cl.1.sandwich (denO (A.opt.Ks m.name) m.nK) (inputMoment h m (x r))) ∧
      H.2.den m.nC = (1 / p) • cl.2.proj m.nC (cl.2.sandwich (denO (A.opt.Cs m.name) m.nC) (gradMoment h m (gs r))) := by
    intro r
    obtain ⟨HK, HC, e, q⟩ := localH_spec hw hh hv (hx r) (hg r) hp hp0
    exact ⟨(HK, HC), by rw [(rep r).opt]; exact e, q⟩
  choose H eH wK wC dK dC using loc
  obtain ⟨SK, eSK, wSK, dSK⟩ := reduceStat_spec (reduceOp h) wK cK
  obtain ⟨SC, eSC, wSC, dSC⟩ := reduceStat_spec (reduceOp h) wC cC
  obtain ⟨HK', eK, -, -⟩ := accum_spec hw.HK wSK
  obtain ⟨HC', eC, -, -⟩ := accum_spec hw.HC wSC
  have run : World.commitH m SK SC A = (.ok (), { A with opt := { A.opt with
      HKs := Dict.set A.opt.HKs m.name HK', HCs := Dict.set A.opt.HCs m.name HC' } }) := by
    rw [World.commitH, Py.get_bind_run, eK, Py.lift_ok_bind_run, World.setOpt, Py.modify_bind_run, eC, Py.lift_ok_bind_run]
    rfl
  obtain ⟨W', eW, repW⟩ := each_rep (fun {_ _} => World.commitH_core SK SC) rep run
  refine ⟨SK, SC, _, W', run, ?_, repW, wSK, wSC, by simp only [dSK, dK], by simp only [dSC, dC]⟩
  have h0 : (W 0).hooks[i]? = some (m, x 0) := by rw [(rep 0).hooks]; exact hk 0
  rw [dexec, Py.get_bind_run, h0]
  dsimp only
  rw [gather_ok (b := fun r => (m, x r)) (fun r => by rw [hookOf, (rep r).hooks, hk r]), Py.lift_ok_bind_run, accumulateH, Py.get_bind_run,
    gather_ok (b := H) eH, Py.lift_ok_bind_run, gather_ok (b := fun _ => h) (fun r => by rw [(rep r).opt]; exact hh), Py.lift_ok_bind_run,
    eSK, Py.lift_ok_bind_run, eSC, Py.lift_ok_bind_run, eW]

end Dist
