import Verif.Props.Errors
import Verif.Props.History
import Verif.Props.LiveSample
import Verif.Proofs.Opt.Two

/-! # C73: what is left behind when an operation raises -/

set_option linter.unusedSectionVars false
open Finset Mat Matrix
namespace Failure
open Errors

section
variable {α : Type} [Field α] [LinearOrder α] [IsStrictOrderedRing α] [LawfulSqrt α]

/-- the layer's factors are updated in the current step -/
def Due (w : World α) (m : Layer) : Prop := ∃ h, w.opt.hyperOf m = .ok h ∧ w.opt.steps % h.T = 0

/-- What a layer can lack in a step, in the order in which it is noticed: statistics (if its factors are updated), then gradients. -/
def lacks (w : World α) (m : Layer) : List (Prop × PyErr) :=
  [(Due w m ∧ (w.opt.HKs m.name = none ∨ w.opt.HCs m.name = none), .keyError),
   (w.grad m.weight.ptr = none ∨ ∃ b, m.bias = some b ∧ w.grad b.ptr = none, .attributeError)]

/-- the gradients that exist have the shapes of the parameters (torch enforces this) -/
structure GradShape (w : World α) (m : Layer) : Prop where
  weight : ∀ G, w.grad m.weight.ptr = some G → G.OfShape m.dout m.din
  bias : ∀ b, m.bias = some b → ∀ G, w.grad b.ptr = some G → G.OfShape m.dout 1

/-- nothing about layer `m` changes -/
structure Untouched (m : Layer) (w w' : World α) : Prop where
  fac : SameFac m.name w.opt w'.opt
  data : ∀ p, World.Owns m p → w'.data p = w.data p
  mom : ∀ p, World.Owns m p → w'.opt.mom p = w.opt.mom p

/-- What the step did to the layer at which it failed: parameters are not moved. Without statistics, factors and momenta are not
changed, but the statistics of the input are gone. Without gradients, factors are updated (if due) and the statistics consumed. -/
structure Stopped (cl : Cls × Cls) (m : Layer) (h : Hyper α) (u : α) (w w' : World α) : Prop where
  data : ∀ p, World.Owns m p → w'.data p = w.data p
  mom : ∀ p, World.Owns m p → w'.opt.mom p = w.opt.mom p
  wf : LayerWF cl w'.opt m
  nostats : Due w m → (w.opt.HKs m.name = none ∨ w.opt.HCs m.name = none) →
    w'.opt.Ks m.name = w.opt.Ks m.name ∧ w'.opt.Cs m.name = w.opt.Cs m.name ∧ w'.opt.mKs m.name = w.opt.mKs m.name ∧
    w'.opt.mCs m.name = w.opt.mCs m.name ∧ w'.opt.HKs m.name = none ∧ w'.opt.HCs m.name = w.opt.HCs m.name
  upd : Due w m → w.opt.HKs m.name ≠ none → w.opt.HCs m.name ≠ none → UpdSpec cl m h u w w'
  noupd : ¬ Due w m → SameFac m.name w.opt w'.opt

/-- What a step leaves behind that fails at layer `m`, after the layers `pre` and before the layers `post`. -/
structure FailedStep (cl : String → Cls × Cls) (pre : List Layer) (m : Layer) (post : List Layer) (s u : α) (w w' : World α) : Prop where
  pre : ∀ m' ∈ pre, ∀ h, w.opt.hyperOf m' = .ok h → LayerSpec (cl m'.name) m' h s u w w'
  at_ : ∀ h, w.opt.hyperOf m = .ok h → Stopped (cl m.name) m h u w w'
  post : ∀ m' ∈ post, Untouched m' w w'
  other : ∀ n, (∀ m' ∈ w.opt.layers, n ≠ m'.name) → SameFac n w.opt w'.opt
  otherP : ∀ p, (∀ m' ∈ w.opt.layers, ¬ World.Owns m' p) → w'.data p = w.data p ∧ w'.opt.mom p = w.opt.mom p
  layers : w'.opt.layers = w.opt.layers
  ptrGroup : w'.opt.ptrGroup = w.opt.ptrGroup
  groups : w'.opt.groups = w.opt.groups
  steps : w'.opt.steps = w.opt.steps
  scales : w'.opt.scales = Dict.set w.opt.scales w.opt.steps s
  grad : w'.grad = w.grad
  hooks : w'.hooks = w.hooks

theorem ready_of {w : World α} {m : Layer} (hg : GradShape w m) (hm : ∀ h, w.opt.hyperOf m = .ok h → h.alpha1 ≠ 0 → w.opt.mKs m.name ≠ none ∧ w.opt.mCs m.name ≠ none)
    (hn : ∀ e, ¬ Fails (lacks w m) e) : LayerReady w m := by
  have h1 : ¬ (Due w m ∧ (w.opt.HKs m.name = none ∨ w.opt.HCs m.name = none)) := fun h => hn .keyError (Or.inl ⟨h, rfl⟩)
  have h2 : ¬ (w.grad m.weight.ptr = none ∨ ∃ b, m.bias = some b ∧ w.grad b.ptr = none) := fun h => hn .attributeError (Or.inr ⟨h1, Or.inl ⟨h, rfl⟩⟩)
  push Not at h2
  refine ⟨⟨?_, ?_⟩, ?_⟩
  · obtain ⟨G, hG⟩ := Option.ne_none_iff_exists'.1 h2.1
    exact ⟨G, hG, hg.weight G hG⟩
  · intro b hb
    obtain ⟨G, hG⟩ := Option.ne_none_iff_exists'.1 (h2.2 b hb)
    exact ⟨G, hG, hg.bias b hb G hG⟩
  · intro h hh ht
    exact ⟨fun x => h1 ⟨⟨h, hh, ht⟩, Or.inl x⟩, fun x => h1 ⟨⟨h, hh, ht⟩, Or.inr x⟩, hm h hh⟩

theorem not_ready {w : World α} {m : Layer} {e : PyErr} (hf : Fails (lacks w m) e) : ¬ LayerReady w m := by
  intro hr
  rcases hf with ⟨⟨⟨h, hh, ht⟩, h1⟩, _⟩ | ⟨_, ⟨h2, _⟩ | ⟨_, h3⟩⟩
  · have := hr.stats h hh ht
    rcases h1 with h1 | h1
    · exact this.1 h1
    · exact this.2.1 h1
  · rcases h2 with h2 | ⟨b, hb, h2⟩
    · obtain ⟨G, hG, _⟩ := hr.grads.weight; rw [h2] at hG; cases hG
    · obtain ⟨G, hG, _⟩ := hr.grads.bias b hb; rw [h2] at hG; cases hG
  · exact h3

/-- the update of a layer without statistics -/
theorem updateOn_nostats {cl : Cls × Cls} {m : Layer} {h : Hyper α} {w : World α} (hw : LayerWF cl w.opt m)
    (hn : w.opt.HKs m.name = none ∨ w.opt.HCs m.name = none) : ∃ w', World.updateOn h m w = (.error .keyError, w') ∧
      w'.opt.Ks = w.opt.Ks ∧ w'.opt.Cs = w.opt.Cs ∧ w'.opt.mKs = w.opt.mKs ∧
      w'.opt.mCs = w.opt.mCs ∧ w'.opt.HKs m.name = none ∧ w'.opt.HCs = w.opt.HCs := by
  obtain ⟨K, eK, wK⟩ := hw.K
  obtain ⟨C, eC, wC⟩ := hw.C
  simp only [World.updateOn, Py.get_bind_run, World.setOpt]
  rw [lookup, eK, Py.lift_ok_bind_run, lookup, eC, Py.lift_ok_bind_run]
  rcases eHK : w.opt.HKs m.name with _ | HK
  · rw [lookup, eHK]
    exact ⟨w, rfl, rfl, rfl, rfl, rfl, eHK, rfl⟩
  · have eHC : w.opt.HCs m.name = none := hn.resolve_left (by rw [eHK]; simp)
    rw [lookup, eHK, Py.lift_ok_bind_run, Py.modify_bind_run, lookup, eHC]
    exact ⟨_, rfl, rfl, rfl, rfl, rfl, by simp [Dict.erase], rfl⟩

/-- a layer that lacks something makes the step fail -/
theorem layerStep_lacks {cl : Cls × Cls} {m : Layer} {h : Hyper α} {w : World α} {u : α} {e : PyErr} (hm : m.Good cl) (hw : LayerWF cl w.opt m)
    (hh : w.opt.hyperOf m = .ok h) (hT : h.T ≠ 0) (hu : World.gradUnscaling w.opt = .ok u)
    (ha : h.alpha1 ≠ 0 → w.opt.mKs m.name ≠ none ∧ w.opt.mCs m.name ≠ none) (hg : GradShape w m) (hf : Fails (lacks w m) e) :
    ∃ w', World.layerStep m w = (.error e, w') ∧ Stopped cl m h u w w' ∧ w' = (World.updatePreconditioner m w).2 := by
  have fr := World.updatePreconditioner_frame m w
  have due : Due w m ↔ w.opt.steps % h.T = 0 := ⟨fun ⟨h', e1, e2⟩ => by rw [hh] at e1; cases e1; exact e2, fun x => ⟨h, hh, x⟩⟩
  by_cases hs : Due w m ∧ (w.opt.HKs m.name = none ∨ w.opt.HCs m.name = none)
  · have he : e = .keyError := (hf.resolve_right fun x => x.1 hs).2
    subst he
    obtain ⟨w', e1, sp⟩ := updateOn_nostats (h := h) hw hs.2
    have e2 : World.updatePreconditioner m w = (.error .keyError, w') := by rw [World.updatePreconditioner_on hh hT (due.1 hs.1), e1]
    rw [e2] at fr
    have wf : LayerWF cl w'.opt m := by
      obtain ⟨a, b, c, d, f, g⟩ := sp
      refine ⟨by rw [a]; exact hw.K, by rw [b]; exact hw.C, by rw [c]; exact hw.mK, by rw [d]; exact hw.mC, by rw [f]; simp, by rw [g]; exact hw.HC⟩
    refine ⟨w', by rw [World.layerStep, Py.bind_error e2], ⟨fun p _ => fr.data p id, fun p _ => fr.mom p id, wf, ?_, ?_, fun x => absurd hs.1 x⟩, by rw [e2]⟩
    · intro _ _
      obtain ⟨a, b, c, d, f, g⟩ := sp
      rw [a, b, c, d, g]; exact ⟨rfl, rfl, rfl, rfl, f, rfl⟩
    · intro _ h1 h2
      rcases hs.2 with h3 | h3
      · exact absurd h3 h1
      · exact absurd h3 h2
  · have hgr : (w.grad m.weight.ptr = none ∨ ∃ b, m.bias = some b ∧ w.grad b.ptr = none) ∧ e = .attributeError := by
      rcases hf with ⟨x, _⟩ | ⟨_, x | ⟨_, x⟩⟩
      · exact absurd x hs
      · exact x
      · exact x.elim
    obtain ⟨hgr, rfl⟩ := hgr
    have key : ∃ w1, World.updatePreconditioner m w = (.ok (), w1) ∧ LayerWF cl w1.opt m ∧
        (Due w m → UpdSpec cl m h u w w1) ∧ (¬ Due w m → w1 = w) := by
      by_cases h0 : Due w m
      · have hn : w.opt.HKs m.name ≠ none ∧ w.opt.HCs m.name ≠ none := by
          constructor
          · exact fun x => hs ⟨h0, Or.inl x⟩
          · exact fun x => hs ⟨h0, Or.inr x⟩
        obtain ⟨w1, e, sp⟩ := updateOn_spec hm hw hn.1 hn.2 hu ha
        exact ⟨w1, by rw [World.updatePreconditioner_on hh hT (due.1 h0), e], sp.wf, fun _ => sp, fun h1 => absurd h0 h1⟩
      · exact ⟨w, World.updatePreconditioner_off hh hT (fun x => h0 (due.2 x)), hw, fun h1 => absurd h1 h0, fun _ => rfl⟩
    obtain ⟨w1, e1, wf1, up1, no1⟩ := key
    rw [e1] at fr
    have eg : w1.gradMat m = .error .attributeError := by
      refine (C72_grad_matrix w1 m _).2 (Or.inr ⟨fun hk => ?_, ?_⟩)
      · have := hm.sup; rw [supported_iff] at this; exact this hk
      · rw [fr.grad]
        by_cases h1 : w.grad m.weight.ptr = none
        · exact Or.inl ⟨h1, rfl⟩
        · exact Or.inr ⟨h1, Or.inl ⟨hgr.resolve_left h1, rfl⟩⟩
    refine ⟨w1, ?_, ⟨fun p _ => fr.data p id, fun p _ => fr.mom p id, wf1, fun a b => absurd ⟨a, b⟩ hs, fun a _ _ => up1 a, ?_⟩, by rw [e1]⟩
    · rw [World.layerStep, Py.bind_ok e1, Py.get_bind_run, World.natGradMat, eg, Except.bind_error']; rfl
    · intro h0; rw [no1 h0]; exact SameFac.refl _ _

theorem lacks_congr {w v : World α} {m : Layer} (g : v.grad = w.grad) (hh : v.opt.hyperOf m = w.opt.hyperOf m) (ht : v.opt.steps = w.opt.steps)
    (s : SameFac m.name w.opt v.opt) : lacks v m = lacks w m := by
  rw [lacks, lacks, Due, Due, hh, ht, g, s.HKs, s.HCs]

theorem Stopped.congr {cl : Cls × Cls} {m : Layer} {h : Hyper α} {u : α} {w w' v : World α} (hs : Stopped cl m h u w w')
    (f : SameFac m.name w.opt v.opt) (ht : v.opt.steps = w.opt.steps) (hh : v.opt.hyperOf m = w.opt.hyperOf m)
    (d : ∀ p, World.Owns m p → v.data p = w.data p) (b : ∀ p, World.Owns m p → v.opt.mom p = w.opt.mom p) : Stopped cl m h u v w' where
  data p hp := (hs.data p hp).trans (d p hp).symm
  mom p hp := (hs.mom p hp).trans (b p hp).symm
  wf := hs.wf
  nostats a c := by
    rw [Due, hh, ht] at a
    rw [f.HKs, f.HCs] at c
    rw [f.Ks, f.Cs, f.mKs, f.mCs, f.HCs]
    exact hs.nostats a c
  upd a c c' := by
    rw [Due, hh, ht] at a
    rw [f.HKs] at c; rw [f.HCs] at c'
    exact (hs.upd a c c').congr f (SameFac.refl _ _) ht
  noupd a := by
    rw [Due, hh, ht] at a
    exact SameFac.trans ⟨f.1.symm, f.2.symm, f.3.symm, f.4.symm, f.5.symm, f.6.symm⟩ (hs.noupd a)

/-- **C73 (state after a failed step).** A step that meets a layer `m` lacking statistics or gradients raises, and leaves exactly this behind. -/
theorem C73_failed_step {cl : String → Cls × Cls} {w : World α} (hw : w.Live cl) {attr : Option α} (ha : ∀ s, attr = some s → 0 < s)
    (hg : ∀ m ∈ w.opt.layers, GradShape w m) {pre post : List Layer} {m : Layer} {e : PyErr} (hl : w.opt.layers = pre ++ m :: post)
    (hp : ∀ m' ∈ pre, ∀ e, ¬ Fails (lacks w m') e) (hm : Fails (lacks w m) e) :
    ∃ w', exec (.step false attr false) w = (.error e, w') ∧ FailedStep cl pre m post (w.curScale attr) (w.unscale attr) w w' := by
  obtain ⟨p, hpv⟩ := hw.prev
  have hs0 := (hw.curScale_pos ha).ne'
  set s := w.curScale attr with hs
  have hun : w.unscale attr = p / s ^ 2 := by rw [World.unscale, hpv]; rfl
  let v := World.withScale attr w
  have hnz : w.opt.steps = 0 → w.opt.scales (-1) ≠ none := by
    intro h0; rw [h0] at hpv; simp at hpv; rw [hpv]; simp
  have e0 : World.ensureScale attr w = (.ok (), v) := World.ensureScale_run attr w hnz
  have vs : v.opt.scales = Dict.set w.opt.scales w.opt.steps s := rfl
  have sc : v.opt.scale v.opt.steps = .ok s := by
    rw [Opt.scale, lookup, vs, Dict.set]
    simp [v, World.withScale]
  have sp : v.opt.scale ((v.opt.steps : ℤ) - 1) = .ok p := by
    rw [Opt.scale, lookup, vs, Dict.set, Function.update_of_ne (by simp [v, World.withScale])]
    simp only [v, World.withScale, hpv]
  have hu : World.gradUnscaling v.opt = .ok (p / s ^ 2) := by
    rw [World.gradUnscaling, sp, Except.bind_ok', sc, Except.bind_ok', if_neg hs0]
  have sf : ∀ n, SameFac n v.opt w.opt := fun n => ⟨rfl, rfl, rfl, rfl, rfl, rfl⟩
  have sf' : ∀ n, SameFac n w.opt v.opt := fun n => ⟨rfl, rfl, rfl, rfl, rfl, rfl⟩
  have inl : ∀ m' ∈ pre, m' ∈ w.opt.layers := fun m' h => by rw [hl]; simp [h]
  have mml : m ∈ w.opt.layers := by rw [hl]; simp
  have hU : Untied (pre ++ m :: post) := by rw [← hl]; exact hw.sound.untied
  obtain ⟨hU1, hU2, hU3⟩ := List.pairwise_append.1 hU
  obtain ⟨hU4, hU5⟩ := List.pairwise_cons.1 hU2
  obtain ⟨w1, e1, l1⟩ := World.forM_layers_spec (cl := cl) (s := s) (u := p / s ^ 2) pre v hU1 (fun m' h => hw.sound.good m' (inl m' h))
    (fun m' h => (hw.sound.lay m' (inl m' h)).congr (sf' _))
    (fun m' h => (hw.sound.shape m' (inl m' h)).congr (fun _ _ => rfl) (fun _ _ => rfl))
    (fun m' h => (ready_of (hg m' (inl m' h)) (hw.mom m' (inl m' h)) (hp m' h)).congr rfl rfl rfl (sf' _))
    (fun m' h => hw.sound.hyper m' (inl m' h)) sc hu
  have f1 := World.innerStep_frame_aux v pre v (Frame.refl _)
  rw [e1] at f1
  have n1 : ∀ m' : Layer, (∀ q ∈ pre, q.name ≠ m'.name) → ¬ ∃ q ∈ pre, m'.name = q.name ∧ World.Updates v.opt q := fun m' h ⟨q, h1, h2, _⟩ => h q h1 h2.symm
  have sm : SameFac m.name w.opt w1.opt := (sf' _).trans (f1.sameFac (n1 m fun q hq => (hU3 q hq m (by simp)).1) (n1 m fun q hq => (hU3 q hq m (by simp)).1))
  have ow : ∀ m' : Layer, (∀ q ∈ pre, ∀ p, p ∈ q.weight.ptr :: q.bias.toList.map (·.ptr) → p ∉ m'.weight.ptr :: m'.bias.toList.map (·.ptr)) →
      ∀ p, World.Owns m' p → ¬ ∃ q ∈ pre, World.Owns q p := fun m' h p hp ⟨q, h1, h2⟩ => h q h1 p (World.owns_iff.1 h2) (World.owns_iff.1 hp)
  have dm : ∀ p, World.Owns m p → w1.data p = w.data p := fun p hp => f1.data p (ow m (fun q hq => (hU3 q hq m (by simp)).2) p hp)
  have bm : ∀ p, World.Owns m p → w1.opt.mom p = w.opt.mom p := fun p hp => f1.mom p (ow m (fun q hq => (hU3 q hq m (by simp)).2) p hp)
  obtain ⟨h, hh, hT⟩ := hw.sound.hyper m mml
  have hh1 : w1.opt.hyperOf m = w.opt.hyperOf m := f1.hyperOf m
  have ht1 : w1.opt.steps = w.opt.steps := f1.steps
  have hg1 : w1.grad = w.grad := f1.grad
  obtain ⟨w', e2, st, ew⟩ := layerStep_lacks (u := p / s ^ 2) (hw.sound.good m mml) ((hw.sound.lay m mml).congr sm) (hh1.trans hh) hT
    (by rw [World.gradUnscaling_frame f1]; exact hu) (by rw [sm.mKs, sm.mCs]; exact hw.mom m mml h hh)
    ⟨by rw [hg1]; exact (hg m mml).weight, by rw [hg1]; exact (hg m mml).bias⟩ (by rw [lacks_congr hg1 hh1 ht1 sm]; exact hm)
  have f2 := World.updatePreconditioner_frame m w1
  rw [← ew] at f2
  have eb : World.stepBody false v = (.error e, w') := by
    rw [World.stepBody, if_neg (by simp), World.innerStep, Py.get_bind_run]
    have : v.opt.layers = pre ++ m :: post := hl
    rw [this, forM_append e1, Py.forM, Py.bind_error e2]
  have n2 : ∀ n, n ≠ m.name → ¬ (n = m.name ∧ World.Updates w1.opt m) := fun n hn x => hn x.1
  refine ⟨w', ?_, ?_⟩
  · rw [exec, World.step, if_neg (by simp), Py.bind_ok e0, Py.bind_error eb]
  · refine ⟨?_, ?_, ?_, ?_, ?_, f2.layers.trans f1.layers, f2.ptrGroup.trans f1.ptrGroup, f2.groups.trans f1.groups, f2.steps.trans f1.steps,
      f2.scales.trans f1.scales, f2.grad.trans f1.grad, f2.hooks.trans f1.hooks⟩
    · intro m' h' hy hhy
      rw [hun]
      have nm := (hU3 m' h' m (by simp)).1
      exact (l1 m' h' hy hhy).congr (sf _) (f2.sameFac (n2 _ nm) (n2 _ nm)) rfl rfl (fun _ _ => rfl) (fun _ _ => rfl)
        (fun p _ => f2.data p id) (fun p _ => f2.mom p id)
    · intro hy hhy
      rw [hh] at hhy; cases hhy
      rw [hun]
      exact st.congr ⟨sm.1.symm, sm.2.symm, sm.3.symm, sm.4.symm, sm.5.symm, sm.6.symm⟩ ht1.symm hh1.symm (fun p hp => (dm p hp).symm) fun p hp => (bm p hp).symm
    · intro m' h'
      have nm : ∀ q ∈ pre, q.name ≠ m'.name := fun q hq => (hU3 q hq m' (by simp [h'])).1
      refine ⟨((sf' _).trans (f1.sameFac (n1 m' nm) (n1 m' nm))).trans (f2.sameFac (n2 _ (hU4 m' h').1.symm) (n2 _ (hU4 m' h').1.symm)), fun p hp => ?_, fun p hp => ?_⟩
      · rw [f2.data p id, f1.data p (ow m' (fun q hq => (hU3 q hq m' (by simp [h'])).2) p hp)]; rfl
      · rw [f2.mom p id, f1.mom p (ow m' (fun q hq => (hU3 q hq m' (by simp [h'])).2) p hp)]; rfl
    · intro n hn
      have a : ¬ ∃ q ∈ pre, n = q.name ∧ World.Updates v.opt q := fun ⟨q, h1, h2, _⟩ => hn q (inl q h1) h2
      exact ((sf' _).trans (f1.sameFac a a)).trans (f2.sameFac (n2 n (hn m mml)) (n2 n (hn m mml)))
    · intro p hp
      have a : ¬ ∃ q ∈ pre, World.Owns q p := fun ⟨q, h1, h2⟩ => hp q (inl q h1) h2
      exact ⟨(f2.data p id).trans (f1.data p a), (f2.mom p id).trans (f1.mom p a)⟩

/-- in a list, either nobody fails or there is a first one -/
theorem first_fail {w : World α} : ∀ l : List Layer, (∀ m ∈ l, ∀ e, ¬ Fails (lacks w m) e) ∨
    ∃ pre m post e, l = pre ++ m :: post ∧ (∀ m' ∈ pre, ∀ e, ¬ Fails (lacks w m') e) ∧ Fails (lacks w m) e
  | [] => Or.inl (by simp)
  | m :: l => by
    by_cases h : ∃ e, Fails (lacks w m) e
    · obtain ⟨e, h⟩ := h
      exact Or.inr ⟨[], m, l, e, rfl, by simp, h⟩
    · push Not at h
      rcases first_fail l with h' | ⟨pre, m', post, e, h1, h2, h3⟩
      · exact Or.inl fun m' hm' => by
          rcases List.mem_cons.1 hm' with rfl | hm'
          · exact h
          · exact h' m' hm'
      · refine Or.inr ⟨m :: pre, m', post, e, by rw [h1]; rfl, ?_, h3⟩
        intro q hq
        rcases List.mem_cons.1 hq with rfl | hq
        · exact h
        · exact h2 q hq

/-- **C73 (when a step raises).** Exactly if a closure is passed, or (in a step that is not skipped) a layer lacks something; the first such layer decides. -/
theorem C73_step_raises {cl : String → Cls × Cls} {w : World α} (hw : w.Live cl) {c f : Bool} {attr : Option α} (ha : ∀ s, attr = some s → 0 < s)
    (hg : ∀ m ∈ w.opt.layers, GradShape w m) (e : PyErr) : (exec (.step c attr f) w).1 = .error e ↔
      (c = true ∧ e = .notImplementedError) ∨ (c = false ∧ f = false ∧ ∃ pre m post, w.opt.layers = pre ++ m :: post ∧
        (∀ m' ∈ pre, ∀ e, ¬ Fails (lacks w m') e) ∧ Fails (lacks w m) e) := by
  cases c with
  | true =>
    have : exec (.step true attr f) w = (.error .notImplementedError, w) := rfl
    rw [this]
    constructor
    · intro h; cases h; exact Or.inl ⟨rfl, rfl⟩
    · rintro (⟨_, rfl⟩ | ⟨h, _⟩)
      · rfl
      · cases h
  | false =>
    constructor
    · intro h
      refine Or.inr ⟨rfl, ?_⟩
      cases f with
      | true =>
        obtain ⟨w', e1, _⟩ := hw.exec (op := .step false attr true) ⟨rfl, ha, fun h => by cases h⟩
        rw [e1] at h; cases h
      | false =>
        refine ⟨rfl, ?_⟩
        rcases first_fail (w := w) w.opt.layers with h' | ⟨pre, m, post, e', h1, h2, h3⟩
        · obtain ⟨w', e1, _⟩ := hw.exec (op := .step false attr false) ⟨rfl, ha, fun _ m hm => ready_of (hg m hm) (hw.mom m hm) (h' m hm)⟩
          rw [e1] at h; cases h
        · obtain ⟨w', e1, _⟩ := C73_failed_step hw ha hg h1 h2 h3
          rw [e1] at h; cases h
          exact ⟨pre, m, post, h1, h2, h3⟩
    · rintro (⟨h, _⟩ | ⟨_, rfl, pre, m, post, h1, h2, h3⟩)
      · cases h
      · obtain ⟨w', e1, _⟩ := C73_failed_step hw ha hg h1 h2 h3
        rw [e1]

theorem FailedStep.live {cl : String → Cls × Cls} {w w' : World α} (hw : w.Live cl) {pre post : List Layer} {m : Layer} {s u : α} (hs : 0 < s)
    (hl : w.opt.layers = pre ++ m :: post) (f : FailedStep cl pre m post s u w w') : w'.Live cl := by
  have hyp : ∀ m, w'.opt.hyperOf m = w.opt.hyperOf m := fun m => by unfold Opt.hyperOf; rw [f.ptrGroup, f.groups]
  have cases3 : ∀ m' ∈ w.opt.layers, m' ∈ pre ∨ m' = m ∨ m' ∈ post := fun m' h => by rw [hl] at h; simpa using h
  refine ⟨hw.sound.congr f.layers hyp ?_ ?_, ?_, ?_, ?_, ?_, ?_⟩
  · intro m' hm'
    obtain ⟨h, hh, _⟩ := hw.sound.hyper m' hm'
    rcases cases3 m' hm' with h1 | rfl | h1
    · exact (f.pre m' h1 h hh).wf
    · exact (f.at_ h hh).wf
    · exact (hw.sound.lay m' hm').congr (f.post m' h1).fac
  · intro m' hm'
    obtain ⟨h, hh, _⟩ := hw.sound.hyper m' hm'
    rcases cases3 m' hm' with h1 | rfl | h1
    · exact (f.pre m' h1 h hh).shape
    · exact (hw.sound.shape m' hm').congr (f.at_ h hh).data (f.at_ h hh).mom
    · exact (hw.sound.shape m' hm').congr (f.post m' h1).data (f.post m' h1).mom
  · rw [f.layers]; intro m hm; rw [hyp]; exact hw.valid m hm
  · rw [f.hooks, f.layers]; intro mx hmx; rw [hyp]; exact hw.hooks mx hmx
  · obtain ⟨p, hp⟩ := hw.prev
    exact ⟨p, by rw [f.steps, f.scales, Dict.set, Function.update_of_ne (by omega)]; exact hp⟩
  · intro t s' hs'
    rw [f.scales, Dict.set, Function.update_apply] at hs'
    split at hs'
    · cases hs'; exact hs
    · exact hw.pos t s' hs'
  · rw [f.layers]; intro m' hm' hy hh ha1
    rw [hyp] at hh
    have h0 := hw.mom m' hm' hy hh ha1
    rcases cases3 m' hm' with h1 | rfl | h1
    · have L := f.pre m' h1 hy hh
      by_cases hu : w.opt.steps % hy.T = 0
      · obtain ⟨mK, mC, bK, bC, e1, _⟩ := (L.upd hu).eqs
        exact ⟨(e1 ha1).1, (e1 ha1).2.1⟩
      · have := L.noupd hu
        rw [this.mKs, this.mCs]; exact h0
    · have L := f.at_ hy hh
      by_cases hu : Due w m'
      · by_cases hn : w.opt.HKs m'.name = none ∨ w.opt.HCs m'.name = none
        · obtain ⟨_, _, a, b, _⟩ := L.nostats hu hn
          rw [a, b]; exact h0
        · push Not at hn
          obtain ⟨mK, mC, bK, bC, e1, _⟩ := (L.upd hu hn.1 hn.2).eqs
          exact ⟨(e1 ha1).1, (e1 ha1).2.1⟩
      · have := L.noupd hu
        rw [this.mKs, this.mCs]; exact h0
    · rw [(f.post m' h1).fac.mKs, (f.post m' h1).fac.mCs]; exact h0

/-- `from_inner(X)` gives a matrix of the same class and size, or raises -/
theorem fromInner_wf {c : Cls} {n : ℕ} {K P : SM α} (hK : WF c n K) {X : Mat α} (h : K.fromInner (some X) = .ok P) : WF c n P := by
  have wfd : ∀ {M : Mat α}, M.rows = n → M.cols = n → SM.fromDense c M = .ok P → WF c n P := fun h1 h2 h3 => by
    obtain ⟨Q, e, w⟩ := fromDense_wf hK.supports h1 h2
    rw [e] at h3; cases h3; exact w
  by_cases hX : X.rows = n
  · have naive : ∀ S : Mat α, S.rows = n → SM.fromMatInner c S = .ok P → WF c n P := fun S hS hP => by
      rw [fromMatInner_spec hK.supports hS] at hP
      exact wfd (M := S.mul S.T) hS hS hP
    by_cases hk : 0 < X.cols
    · obtain ⟨Q, e, w, _⟩ := fromInner_some_den hK hX hk
      rw [e] at h; cases h; exact w
    · have gen : K.fromInner (some X) = (do SM.fromMatInner K.cls (← K.toDense.T.matmul X)) → WF c n P := fun e => by
        rw [e, matmul_ok (by show K.toDense.rows = _; rw [hK.rows, hX]), Except.bind_ok', hK.cls_eq] at h
        exact naive _ hK.cols h
      have toe : ∀ v : Vec α, (toeplitzMatmul v X : Except PyErr (Mat α)) = .error .runtimeError := fun v => by
        rw [toeplitzMatmul]
        split
        · rfl
        · split
          · rfl
          · rw [conv1dGroups, if_pos (Or.inl (by show X.cols = 0; omega))]; rfl
      cases hK with
      | dense h1 h2 => exact gen rfl
      | @diagonal _ d h1 =>
        simp only [SM.fromInner, Diagonal.fromInner] at h
        rw [Vec.had?_ok (by simp [h1, hX])] at h
        cases h
        exact .diagonal (by simpa using h1)
      | block h1 => 
        rw [(fromInner_block (.block h1)).2 X hX] at h
        exact wfd (by show (SM.toDense _).rows = _; exact (WF.block h1).rows) (by show (SM.toDense _).rows = _; exact (WF.block h1).rows) h
      | hier hd h1 =>
        rw [SM.fromInner, Hier.fromInner_some hd h1 hX] at h
        exact wfd (M := ((Hier.toDense _).T.mul X).mul ((Hier.toDense _).T.mul X).T) (WF.hier hd h1).cols (WF.hier hd h1).cols h
      | tril h1 h2 =>
        simp only [SM.fromInner, SM.rmatmat, Tril.rmatmat] at h
        rw [if_neg (by omega), toe] at h; cases h
      | triu h1 h2 =>
        simp only [SM.fromInner, SM.rmatmat, Triu.rmatmat] at h
        rw [if_neg (by omega), toe] at h; cases h
      | topRight => exact gen rfl
      | bottomLeft => exact gen rfl
  · exfalso
    by_cases hd : c = .diagonal
    · subst hd
      cases hK with | @diagonal _ d h1 =>
      simp only [SM.fromInner, Diagonal.fromInner] at h
      rw [Vec.had?, if_neg (by simp [h1]; exact fun x => hX x.symm)] at h
      cases h
    · have := (C72_matmul hK hX (fun h => absurd h hd)).2
      cases hK with
      | diagonal => exact hd rfl
      | block h1 =>
        simp only [SM.fromInner, BlockDiag.fromInner] at h
        rw [SM.rmatmat] at this; rw [this] at h; cases h
      | hier hd h1 =>
        simp only [SM.fromInner, Hier.fromInner] at h
        rw [SM.rmatmat] at this; rw [this] at h; cases h
      | _ => rw [SM.fromInner, this] at h <;> first | cases h | simp

theorem bind_ok_ex {β γ : Type} {x : Except PyErr β} {f : β → Except PyErr γ} {c : γ} (h : (x >>= f) = .ok c) : ∃ b, x = .ok b ∧ f b = .ok c := by
  cases x with
  | error e => cases h
  | ok b => exact ⟨b, rfl, h⟩

/-- **C73 (backward).** A backward pass that raises changes nothing, whatever the tensors are (also if the input did not fit the layer). -/
theorem C73_backward {cl : String → Cls × Cls} {w w' : World α} (hw : w.Sound cl) (hh : ∀ mx ∈ w.hooks, mx.1 ∈ w.opt.layers) {k : ℕ} {g : ND α} {e : PyErr}
    (h : exec (.backward k g) w = (.error e, w')) : w' = w := by
  rw [exec, Py.get_bind_run] at h
  rcases hm : w.hooks[k]? with _ | mx
  · rw [hm] at h; cases h
  · rw [hm] at h
    have hl := hh mx (List.mem_of_getElem? hm)
    have L := hw.lay _ hl
    have G := hw.good _ hl
    dsimp only at h
    rw [World.accumulateH, Py.get_bind_run] at h
    rcases eH : World.localH w.opt mx.1 mx.2 g with e' | H
    · rw [eH] at h; cases h; rfl
    · exfalso
      rw [eH, Py.lift_ok_bind_run] at h
      obtain ⟨K, eK, wK⟩ := L.K
      obtain ⟨C, eC, wC⟩ := L.C
      have wH : WF (cl mx.1.name).1 mx.1.nK H.1 ∧ WF (cl mx.1.name).2 mx.1.nC H.2 := by
        rw [World.localH] at eH
        obtain ⟨hy, _, eH⟩ := bind_ok_ex eH
        obtain ⟨a, _, eH⟩ := bind_ok_ex eH
        obtain ⟨b, _, eH⟩ := bind_ok_ex eH
        obtain ⟨K', eK', eH⟩ := bind_ok_ex eH
        obtain ⟨C', eC', eH⟩ := bind_ok_ex eH
        obtain ⟨HK, e1, eH⟩ := bind_ok_ex eH
        obtain ⟨pv, _, eH⟩ := bind_ok_ex eH
        obtain ⟨g', _, eH⟩ := bind_ok_ex eH
        obtain ⟨HC, e2, eH⟩ := bind_ok_ex eH
        cases eH
        rw [lookup, eK] at eK'; cases eK'
        rw [lookup, eC] at eC'; cases eC'
        exact ⟨fromInner_wf wK e1, fromInner_wf wC e2⟩
      obtain ⟨Z, eZ, _⟩ := accum_spec L.HK wH.1
      obtain ⟨Z', eZ', _⟩ := accum_spec L.HC wH.2
      rw [World.commitH, Py.get_bind_run, eZ, Py.lift_ok_bind_run, World.setOpt, Py.modify_bind_run, eZ', Py.lift_ok_bind_run] at h
      cases h

/-- **C73 (what raises).** In a well-formed state (whatever happened before) forward passes, and setting parameters, gradients and
hyper-parameters do not raise; nor does setting a scale if the previous one is known. -/
theorem C73_forward {cl : String → Cls × Cls} {w : World α} (hw : w.Sound cl) (i : ℕ) (x : ND α) (ge : Bool) : (exec (.forward i x ge) w).1 = .ok () := by
  rw [exec, Py.get_bind_run]
  rcases hm : w.opt.layers[i]? with _ | m
  · rfl
  · obtain ⟨hy, hh, hT⟩ := hw.hyper m (List.mem_of_getElem? hm)
    simp only [World.forwardHook, Py.get_bind_run]
    rw [hh, Py.lift_ok_bind_run]
    cases ge
    · rfl
    · rw [if_pos rfl, if_neg hT]
      split <;> rfl

/-- **C73 (every exception leaves a usable optimizer).** An operation that raises in a live state leaves a live state. -/
theorem C73_live {cl : String → Cls × Cls} {w w' : World α} (hw : w.Live cl) {op : Op α} {e : PyErr}
    (hop : ∀ c attr f, op = .step c attr f → (∀ s, attr = some s → 0 < s) ∧ ∀ m ∈ w.opt.layers, GradShape w m)
    (h : exec op w = (.error e, w')) : w'.Live cl ∧ w'.opt.steps = w.opt.steps := by
  cases op with
  | forward i x ge => have := C73_forward hw.sound i x ge; rw [h] at this; cases this
  | backward k g => rw [C73_backward hw.sound (fun mx hm => (hw.hooks mx hm).1) h]; exact ⟨hw, rfl⟩
  | setGrad p G => cases h
  | setParam p M => cases h
  | setHyper i hy => cases h
  | setScale s =>
    change Opt.setScale s w = _ at h
    rw [World.setScale_run s w hw.hnz] at h; cases h
  | step c attr f =>
    obtain ⟨ha, hg⟩ := hop c attr f rfl
    rcases (C73_step_raises hw ha hg e).1 (by rw [h]) with ⟨rfl, rfl⟩ | ⟨rfl, rfl, pre, m, post, h1, h2, h3⟩
    · cases h; exact ⟨hw, rfl⟩
    · obtain ⟨v, e1, f⟩ := C73_failed_step hw ha hg h1 h2 h3
      rw [e1] at h; cases h
      exact ⟨f.live hw (hw.curScale_pos ha) h1, f.steps⟩

/-- **C73 (recovery).** So every history of fitting operations after the exception succeeds (a new forward and backward pass, and a step). -/
theorem C73_recover {cl : String → Cls × Cls} {w w' : World α} (hw : w.Live cl) {op : Op α} {e : PyErr}
    (hop : ∀ c attr f, op = .step c attr f → (∀ s, attr = some s → 0 < s) ∧ ∀ m ∈ w.opt.layers, GradShape w m)
    (h : exec op w = (.error e, w')) {ops : List (Op α)} (ho : FitsRun w' ops) : ∃ w'', runOk ops w' = some w'' ∧ w''.Live cl :=
  ⟨_, (C73_live hw hop h).1.run ho⟩

/-- **C73 (retry).** Repeating a failed step fails with `KeyError` if the factors of some layer up to the failing one are updated in this step:
their statistics are consumed. -/
theorem C73_retry {cl : String → Cls × Cls} {w w' : World α} (hw : w.Live cl) {attr attr' : Option α} (ha : ∀ s, attr = some s → 0 < s) (ha' : ∀ s, attr' = some s → 0 < s)
    (hg : ∀ m ∈ w.opt.layers, GradShape w m) {pre post : List Layer} {m : Layer} {e : PyErr} (hl : w.opt.layers = pre ++ m :: post)
    (hp : ∀ m' ∈ pre, ∀ e, ¬ Fails (lacks w m') e) (hm : Fails (lacks w m) e) (h : exec (.step false attr false) w = (.error e, w'))
    (hd : ∃ m' ∈ pre ++ [m], Due w m') :
    (exec (.step false attr' false) w').1 = .error .keyError := by
  obtain ⟨v, e1, f⟩ := C73_failed_step hw ha hg hl hp hm
  rw [e1] at h; cases h
  have lv := f.live hw (hw.curScale_pos ha) hl
  have hyp : ∀ m, w'.opt.hyperOf m = w.opt.hyperOf m := fun m => by unfold Opt.hyperOf; rw [f.ptrGroup, f.groups]
  have due : ∀ q, Due w' q ↔ Due w q := fun q => by rw [Due, Due, hyp, f.steps]
  have inl : ∀ m' ∈ pre, m' ∈ w.opt.layers := fun m' h => by rw [hl]; simp [h]
  have mml : m ∈ w.opt.layers := by rw [hl]; simp
  have gone : ∀ q ∈ pre ++ [m], Due w q → w'.opt.HKs q.name = none := by
    intro q hq hdq
    obtain ⟨hy, hh, ht⟩ := id hdq
    rcases List.mem_append.1 hq with h1 | h1
    · exact ((f.pre q h1 hy hh).upd ht).HK
    · simp only [List.mem_singleton] at h1
      subst h1
      by_cases hn : w.opt.HKs q.name = none ∨ w.opt.HCs q.name = none
      · exact ((f.at_ hy hh).nostats hdq hn).2.2.2.2.1
      · push Not at hn
        exact ((f.at_ hy hh).upd hdq hn.1 hn.2).HK
  have key : ∀ q ∈ pre ++ [m], Due w q → Fails (lacks w' q) .keyError := fun q hq hd => Or.inl ⟨⟨(due q).2 hd, Or.inl (gone q hq hd)⟩, rfl⟩
  have hg' : ∀ m ∈ w'.opt.layers, GradShape w' m := fun m hm => by
    rw [f.layers] at hm
    exact ⟨by rw [f.grad]; exact (hg m hm).weight, by rw [f.grad]; exact (hg m hm).bias⟩
  refine (C73_step_raises lv ha' hg' _).2 (Or.inr ⟨rfl, rfl, ?_⟩)
  rcases first_fail (w := w') pre with h' | ⟨p1, q, p2, e', h1, h2, h3⟩
  · refine ⟨pre, m, post, f.layers.trans hl, h', ?_⟩
    obtain ⟨q, hq, hd⟩ := hd
    rcases List.mem_append.1 hq with h1 | h1
    · exact absurd (key q hq hd) (h' q h1 _)
    · simp only [List.mem_singleton] at h1
      subst h1
      exact key q hq hd
  · have hq : q ∈ pre := by rw [h1]; simp
    refine ⟨p1, q, p2 ++ m :: post, by rw [f.layers, hl, h1]; simp, h2, ?_⟩
    rcases h3 with ⟨a, _⟩ | ⟨a, ⟨b, _⟩ | ⟨_, b⟩⟩
    · exact Or.inl ⟨a, rfl⟩
    · rw [f.grad] at b
      by_cases hs : Due w q ∧ (w.opt.HKs q.name = none ∨ w.opt.HCs q.name = none)
      · exact absurd (Or.inl ⟨hs, rfl⟩) (hp q hq .keyError)
      · exact absurd (Or.inr ⟨hs, Or.inl ⟨b, rfl⟩⟩) (hp q hq .attributeError)
    · exact b.elim

/-- the situation occurs: both layers have statistics, the second one has no gradient -/
theorem sample : ∃ (cl : String → Cls × Cls) (w : World α), w.Live cl ∧ (∀ m ∈ w.opt.layers, GradShape w m) ∧ w.opt.layers = [Sample.la] ++ Sample.lb :: [] ∧
    (∀ m' ∈ [Sample.la], ∀ e, ¬ Fails (lacks w m') e) ∧ Fails (lacks w Sample.lb) .attributeError ∧ (∀ m ∈ w.opt.layers, Due w m) := by
  obtain ⟨cl, w, lw, rw_, hl, _, _, _, h0, hh, hg, hk⟩ := Sample.gready2 (α := α)
  obtain ⟨w', e, lw'⟩ := lw.exec (op := .setGrad 2 none) trivial
  cases e
  have due : ∀ m ∈ w.opt.layers, Due w m := fun m hm => ⟨_, hh m hm, by rw [h0]; rfl⟩
  have ga : ∀ p, p ≠ 2 → Function.update w.grad 2 none p = some (Sample.gdata p) := fun p hp => by rw [Function.update_of_ne hp, hg]; rfl
  refine ⟨cl, _, lw', ?_, hl, ?_, ?_, due⟩
  · intro m hm
    change m ∈ w.opt.layers at hm
    rw [hl] at hm
    simp only [List.mem_cons, List.not_mem_nil, or_false] at hm
    rcases hm with rfl | rfl
    · refine ⟨fun G hG => ?_, fun b hb G hG => ?_⟩
      · change Function.update w.grad 2 none 0 = some G at hG
        rw [ga 0 (by decide)] at hG; cases hG
        exact ⟨rfl, rfl⟩
      · cases hb
        change Function.update w.grad 2 none 1 = some G at hG
        rw [ga 1 (by decide)] at hG; cases hG
        exact ⟨rfl, rfl⟩
    · refine ⟨fun G hG => ?_, fun b hb G hG => ?_⟩
      · change Function.update w.grad 2 none 2 = some G at hG
        rw [Function.update_self] at hG; cases hG
      · cases hb
  · intro m' hm' e he
    simp only [List.mem_singleton] at hm'
    subst hm'
    rcases he with ⟨⟨_, a⟩, _⟩ | ⟨_, ⟨a, _⟩ | ⟨_, a⟩⟩
    · have := (rw_ Sample.la (by rw [hl]; simp)).stats _ (hh _ (by rw [hl]; simp)) (by rw [h0]; rfl)
      rcases a with a | a
      · exact this.1 a
      · exact this.2.1 a
    · rcases a with a | ⟨b, hb, a⟩
      · change Function.update w.grad 2 none 0 = none at a
        rw [ga 0 (by decide)] at a; cases a
      · cases hb
        change Function.update w.grad 2 none 1 = none at a
        rw [ga 1 (by decide)] at a; cases a
    · exact a
  · refine Or.inr ⟨?_, Or.inl ⟨Or.inl ?_, rfl⟩⟩
    · rintro ⟨_, a⟩
      have := (rw_ Sample.lb (by rw [hl]; simp)).stats _ (hh _ (by rw [hl]; simp)) (by rw [h0]; rfl)
      rcases a with a | a
      · exact this.1 a
      · exact this.2.1 a
    · show Function.update w.grad 2 none 2 = none
      exact Function.update_self _ _ _

-- the first layer is updated and moved, the second layer's factors are updated, its parameters are not moved; a second attempt raises `KeyError`
example : ∃ (cl : String → Cls × Cls) (w w' : World α), w.Live cl ∧ exec (.step false none false) w = (.error .attributeError, w') ∧
    FailedStep cl [Sample.la] Sample.lb [] (w.curScale none) (w.unscale none) w w' ∧ w'.Live cl ∧ (exec (.step false none false) w').1 = .error .keyError := by
  obtain ⟨cl, w, lw, hg, hl, hp, hm, hd⟩ := sample (α := α)
  obtain ⟨w', e, f⟩ := C73_failed_step lw (attr := none) (by simp) hg hl hp hm
  refine ⟨cl, w, w', lw, e, f, (C73_live lw (fun _ _ _ h => by cases h; exact ⟨by simp, hg⟩) e).1,
    C73_retry lw (by simp) (by simp) hg hl hp hm e ⟨Sample.lb, by simp, hd _ (by rw [hl]; simp)⟩⟩

end

/-- **C73 (not atomic).** If the gradient of the second layer is missing in one attempt and supplied for the next, the first layer is moved twice:
both histories end with the same step counter and without an exception in the last step, but with different parameters. -/
theorem C73_not_atomic : ∃ (w : World ℚ) (bad good : List (Op ℚ)), Reachable supportedStructures w ∧
    bad = [.setGrad 2 none, .step false none false, .setGrad 2 (w.grad 2), .step false none false] ∧ good = [.step false none false] ∧
    (exec (.step false none false) (run [.setGrad 2 none] w)).1 = .error .attributeError ∧
    (exec (.step false none false) (run [.setGrad 2 none, .step false none false, .setGrad 2 (w.grad 2)] w)).1 = .ok () ∧
    (exec (.step false none false) w).1 = .ok () ∧ (run bad w).opt.steps = (run good w).opt.steps ∧ (run bad w).data 0 ≠ (run good w).data 0 := by
  refine ⟨Sample.w2, _, _, ?_, rfl, rfl, by decide +kernel, by decide +kernel, by decide +kernel, by decide +kernel, fun h => ?_⟩
  · show Reachable supportedStructures (run [.step false none false] (run Sample.pass Sample.w0))
    rw [← run_append]
    exact Sample.reachable (by decide +kernel) (by decide +kernel) _
  · have := congrArg Mat.toLists h
    revert this
    decide +kernel

end Failure
