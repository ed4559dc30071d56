import Verif.Proofs.Opt.Backward
import Verif.Proofs.Opt.Init

/-! Training without misuse never fails and stays well-formed. -/

set_option linter.unusedSectionVars false
open Finset Mat Matrix PIO IOProof
variable {α : Type} [Field α] [LinearOrder α] [IsStrictOrderedRing α] [LawfulSqrt α]

theorem World.Sound.congr {cl : String → Cls × Cls} {w v : World α} (h : w.Sound cl) (hl : v.opt.layers = w.opt.layers)
    (hh : ∀ m, v.opt.hyperOf m = w.opt.hyperOf m) (hs : ∀ m ∈ w.opt.layers, LayerWF (cl m.name) v.opt m)
    (hp : ∀ m ∈ w.opt.layers, LayerShape v m) : v.Sound cl := by
  refine ⟨by rw [hl]; exact h.untied, by rw [hl]; exact h.good, by rw [hl]; exact hs, by rw [hl]; exact hp, ?_⟩
  rw [hl]; intro m hm; rw [hh]; exact h.hyper m hm

theorem ParamShape.setParam {w : World α} {q r c : ℕ} {p : ℕ} {M : Mat α} (h : ParamShape w q r c)
    (hM : M.OfShape (w.data p).rows (w.data p).cols) : ParamShape { w with data := Function.update w.data p M } q r c := by
  refine ⟨?_, h.mom⟩
  show (Function.update w.data p M q).OfShape r c
  rw [Function.update_apply]
  split
  · rename_i e; subst e; exact ⟨hM.1.trans h.data.1, hM.2.trans h.data.2⟩
  · exact h.data

theorem LayerShape.ofFrame {N S : String → Prop} {P : ℕ → Prop} {w w' : World α} {m : Layer} (h : LayerShape w m) (f : Frame N S P w w')
    (hP : ∀ p, ¬ P p) : LayerShape w' m := h.congr (fun p _ => f.data p (hP p)) (fun p _ => f.mom p (hP p))

/-- a fitting operation succeeds and preserves well-formedness -/
theorem World.Live.exec {cl : String → Cls × Cls} {w : World α} (h : w.Live cl) {op : Op α} (ho : FitsOp w op) :
    ∃ w', _root_.exec op w = (.ok (), w') ∧ w'.Live cl := by
  have hnz : w.opt.steps = 0 → w.opt.scales (-1) ≠ none := by
    intro h0; obtain ⟨p, hp⟩ := h.prev; rw [h0] at hp; simp at hp; rw [hp]; simp
  cases op with
  | forward i x ge =>
    rw [_root_.exec, Py.get_bind_run]
    rcases hm : w.opt.layers[i]? with _ | m
    · exact ⟨w, rfl, h⟩
    · have hmem := List.mem_of_getElem? hm
      obtain ⟨hy, hh, hT⟩ := h.sound.hyper m hmem
      simp only [World.forwardHook, Py.get_bind_run]
      rw [hh, Py.lift_ok_bind_run]
      cases ge
      · exact ⟨w, rfl, h⟩
      · rw [if_pos rfl, if_neg hT]
        split
        · refine ⟨_, rfl, ?_⟩
          refine ⟨h.sound.congr rfl (fun _ => rfl) h.sound.lay (fun m' hm' => (h.sound.shape m' hm').congr (fun _ _ => rfl) fun _ _ => rfl),
            h.valid, ?_, h.prev, h.pos, h.mom⟩
          intro mx hmx
          rcases List.mem_append.1 hmx with h1 | h1
          · exact h.hooks mx h1
          · simp only [List.mem_singleton] at h1
            subst h1
            exact ⟨hmem, ho m hm⟩
        · exact ⟨w, rfl, h⟩
  | backward k g =>
    rw [_root_.exec, Py.get_bind_run]
    rcases hm : w.hooks[k]? with _ | mx
    · exact ⟨w, rfl, h⟩
    · have hmem := List.mem_of_getElem? hm
      obtain ⟨hl, hx⟩ := h.hooks mx hmem
      obtain ⟨hy, hh, hT⟩ := h.sound.hyper mx.1 hl
      obtain ⟨p, hp⟩ := h.prev
      obtain ⟨w', e, sp⟩ := accumulateH_spec (h.sound.lay _ hl) hh (h.valid _ hl _ hh) (hx _ hh) (ho mx hm) hp (h.pos _ _ hp)
      have f := sp.frame
      refine ⟨w', e, ?_, ?_, ?_, ?_, ?_, ?_⟩
      · refine h.sound.congr f.layers f.hyperOf ?_ (fun m' hm' => (h.sound.shape m' hm').ofFrame f fun _ => id)
        intro m' hm'
        by_cases e : m'.name = mx.1.name
        · obtain rfl := h.sound.untied.name_inj hm' hl e
          exact sp.wf
        · exact (h.sound.lay m' hm').congr (f.sameFac id e)
      · intro m' hm'; rw [f.hyperOf]; exact h.valid m' (by rw [← f.layers]; exact hm')
      · rw [f.hooks, f.layers]; intro mx' h'; rw [f.hyperOf]; exact h.hooks mx' h'
      · rw [f.steps, f.scales]; exact h.prev
      · rw [f.scales]; exact h.pos
      · rw [f.layers]; intro m' hm'; rw [f.hyperOf, f.mKs _ id, f.mCs _ id]; exact h.mom m' hm'
  | setGrad p G =>
    exact ⟨_, rfl, h.sound.congr rfl (fun _ => rfl) h.sound.lay (fun m' hm' => (h.sound.shape m' hm').congr (fun _ _ => rfl) fun _ _ => rfl),
      h.valid, h.hooks, h.prev, h.pos, h.mom⟩
  | setParam p M =>
    refine ⟨_, rfl, h.sound.congr rfl (fun _ => rfl) h.sound.lay ?_, h.valid, h.hooks, h.prev, h.pos, h.mom⟩
    intro m' hm'
    have := h.sound.shape m' hm'
    exact ⟨this.weight.setParam ho, fun b hb => ⟨(this.bias b hb).1.setParam ho, (this.bias b hb).2⟩⟩
  | setHyper i h' =>
    obtain ⟨hv, hc⟩ := ho
    have key : ∀ m ∈ w.opt.layers, ∃ h0, w.opt.hyperOf m = .ok h0 ∧ h0.T ≠ 0 ∧
        Opt.hyperOf { w.opt with groups := w.opt.groups.modify i fun g => { g with h := h' } } m =
        .ok (if w.opt.ptrGroup m.weight.ptr = some i then h' else h0) := by
      intro m hm
      obtain ⟨h0, e0, hT⟩ := h.sound.hyper m hm
      exact ⟨h0, e0, hT, hyperOf_setHyper e0⟩
    refine ⟨_, rfl, ⟨h.sound.untied, h.sound.good, fun m hm => (h.sound.lay m hm).congr ⟨rfl, rfl, rfl, rfl, rfl, rfl⟩,
      fun m' hm' => (h.sound.shape m' hm').congr (fun _ _ => rfl) fun _ _ => rfl, ?_⟩, ?_, ?_, h.prev, h.pos, ?_⟩
    · intro m hm
      obtain ⟨h0, e0, hT, e1⟩ := key m hm
      refine ⟨_, e1, ?_⟩
      split
      · exact hv.period
      · exact hT
    · intro m hm hy hh
      obtain ⟨h0, e0, hT, e1⟩ := key m hm
      rw [e1] at hh
      cases hh
      split
      · exact hv
      · exact h.valid m hm h0 e0
    · intro mx hmx
      obtain ⟨hl, hx⟩ := h.hooks mx hmx
      refine ⟨hl, ?_⟩
      intro hy hh
      obtain ⟨h0, e0, hT, e1⟩ := key mx.1 hl
      rw [e1] at hh
      cases hh
      split
      · rename_i hp
        rw [(hc mx.1 hl hp).1 h0 e0]; exact hx h0 e0
      · exact hx h0 e0
    · intro m hm hy hh ha
      obtain ⟨h0, e0, hT, e1⟩ := key m hm
      rw [e1] at hh
      cases hh
      split at ha
      · rename_i hp
        exact (hc m hm hp).2 ha
      · exact h.mom m hm h0 e0 ha
  | setScale s =>
    refine ⟨_, World.setScale_run s w hnz, ⟨h.sound.congr rfl (fun _ => rfl) (fun m hm => (h.sound.lay m hm).congr ⟨rfl, rfl, rfl, rfl, rfl, rfl⟩)
      (fun m' hm' => (h.sound.shape m' hm').congr (fun _ _ => rfl) fun _ _ => rfl), h.valid, h.hooks, ?_, ?_, h.mom⟩⟩
    · obtain ⟨p, hp⟩ := h.prev
      refine ⟨p, ?_⟩
      show Dict.set w.opt.scales w.opt.steps s ((w.opt.steps : ℤ) - 1) = some p
      rw [Dict.set, Function.update_of_ne (by omega)]; exact hp
    · intro t s' hs'
      change Dict.set w.opt.scales w.opt.steps s t = some s' at hs'
      rw [Dict.set, Function.update_apply] at hs'
      split at hs'
      · cases hs'; exact ho
      · exact h.pos t s' hs'
  | step c attr f =>
    obtain ⟨rfl, ha, hr⟩ := ho
    obtain ⟨p, hp⟩ := h.prev
    obtain ⟨s, hs⟩ : ∃ s, (w.opt.scales w.opt.steps).getD (attr.getD 1) = s := ⟨_, rfl⟩
    have hs0 : 0 < s := by
      rw [← hs]
      rcases hc : w.opt.scales w.opt.steps with _ | s'
      · rcases attr with _ | a
        · exact one_pos
        · exact ha a rfl
      · exact h.pos _ _ hc
    cases f
    · obtain ⟨w', e, sp⟩ := World.step_spec h.sound (hr rfl) hp hs hs0.ne'
      have hyp : ∀ m, w'.opt.hyperOf m = w.opt.hyperOf m := fun m => by unfold Opt.hyperOf; rw [sp.ptrGroup, sp.groups]
      refine ⟨w', e, sp.sound, ?_, ?_, ?_, ?_, ?_⟩
      · rw [sp.layers]; intro m hm; rw [hyp]; exact h.valid m hm
      · rw [sp.hooks, sp.layers]; intro mx hmx; rw [hyp]; exact h.hooks mx hmx
      · refine ⟨s, ?_⟩
        rw [sp.steps, sp.scales]
        have : (((w.opt.steps + 1 : ℕ) : ℤ) - 1) = w.opt.steps := by push_cast; ring
        rw [this, if_neg (lt_irrefl _), if_pos rfl]
      · intro t s' hs'
        rw [sp.scales] at hs'
        split at hs'
        · cases hs'
        · split at hs'
          · cases hs'; exact hs0
          · exact h.pos t s' hs'
      · rw [sp.layers]; intro m hm hy hh ha1
        rw [hyp] at hh
        have L := sp.layer m hm hy hh
        have h0 := h.mom m hm hy hh ha1
        by_cases hu : w.opt.steps % hy.T = 0
        · obtain ⟨mK, mC, bK, bC, e1, _⟩ := (L.upd hu).eqs
          exact ⟨(e1 ha1).1, (e1 ha1).2.1⟩
        · have := L.noupd hu
          rw [this.mKs, this.mCs]; exact h0
    · refine ⟨_, World.skip_run hnz, ⟨h.sound.congr rfl (fun _ => rfl) ?_ (fun m' hm' =>
        (h.sound.shape m' hm').congr (fun _ _ => rfl) fun _ _ => rfl), h.valid, h.hooks, ?_, ?_, h.mom⟩⟩
      · intro m hm
        have l := h.sound.lay m hm
        refine ⟨l.K, l.C, l.mK, l.mC, ?_, ?_⟩
        · intro X hX
          change (if ∃ m' ∈ w.opt.layers, m'.name = m.name then none else w.opt.HKs m.name) = some X at hX
          rw [if_pos ⟨m, hm, rfl⟩] at hX; cases hX
        · intro X hX
          change (if ∃ m' ∈ w.opt.layers, m'.name = m.name then none else w.opt.HCs m.name) = some X at hX
          rw [if_pos ⟨m, hm, rfl⟩] at hX; cases hX
      · have : (((w.opt.steps + 1 : ℕ) : ℤ) - 1) = w.opt.steps := by push_cast; ring
        refine ⟨s, ?_⟩
        show (if (((w.opt.steps + 1 : ℕ) : ℤ) - 1) < (((w.opt.steps + 1 : ℕ) : ℤ) - 1) then none else _) = _
        rw [if_neg (lt_irrefl _)]
        show Dict.set w.opt.scales w.opt.steps ((w.opt.scales w.opt.steps).getD (attr.getD 1)) (((w.opt.steps + 1 : ℕ) : ℤ) - 1) = some s
        rw [this, hs, Dict.set, Function.update_self]
      · intro t s' hs'
        change (if t < (((w.opt.steps + 1 : ℕ) : ℤ) - 1) then none else
          Dict.set w.opt.scales w.opt.steps ((w.opt.scales w.opt.steps).getD (attr.getD 1)) t) = some s' at hs'
        split at hs'
        · cases hs'
        · rw [hs, Dict.set, Function.update_apply] at hs'
          split at hs'
          · cases hs'; exact hs0
          · exact h.pos t s' hs'

/-- histories of fitting operations succeed and preserve well-formedness -/
theorem World.Live.run {cl : String → Cls × Cls} : ∀ {ops : List (Op α)} {w : World α}, w.Live cl → FitsRun w ops →
    runOk ops w = some (_root_.run ops w) ∧ (_root_.run ops w).Live cl
  | [], w, h, _ => ⟨rfl, h⟩
  | op :: ops, w, h, ho => by
    obtain ⟨w', e, h'⟩ := h.exec ho.1
    obtain ⟨r1, r2⟩ := World.Live.run (ops := ops) h' (by have := ho.2; rw [e] at this; exact this)
    have er : _root_.run (op :: ops) w = _root_.run ops w' := by
      show List.foldl _ _ _ = _
      rw [List.foldl_cons, e]; rfl
    rw [er]
    refine ⟨?_, r2⟩
    rw [runOk, e]; exact r1

/-- the gradient scale a step uses: the one set for the step, else the scaler's attribute, else 1 -/
def World.curScale (w : World α) (attr : Option α) : α := (w.opt.scales w.opt.steps).getD (attr.getD 1)
/-- the factor `p/s²` that undoes the gradient scaling of `H_C`, with the previous scale `p` and the current scale `s` -/
def World.unscale (w : World α) (attr : Option α) : α := (w.opt.scales ((w.opt.steps : ℤ) - 1)).getD 1 / w.curScale attr ^ 2

theorem World.Live.curScale_pos {cl : String → Cls × Cls} {w : World α} (h : w.Live cl) {attr : Option α}
    (ha : ∀ s, attr = some s → 0 < s) : 0 < w.curScale attr := by
  unfold World.curScale
  rcases hc : w.opt.scales w.opt.steps with _ | s'
  · rcases attr with _ | a
    · exact one_pos
    · exact ha a rfl
  · exact h.pos _ _ hc

/-- what a fitting step does -/
theorem World.Live.step {cl : String → Cls × Cls} {w : World α} (h : w.Live cl) {attr : Option α}
    (ho : FitsOp w (.step false attr false)) : ∃ w', _root_.exec (.step false attr false) w = (.ok (), w') ∧
      StepSpec cl (w.curScale attr) (w.unscale attr) w w' ∧ w'.Live cl := by
  obtain ⟨p, hp⟩ := h.prev
  obtain ⟨w', e, l⟩ := h.exec ho
  obtain ⟨w2, e2, sp⟩ := World.step_spec h.sound (ho.2.2 rfl) hp (rfl : _ = w.curScale attr) (h.curScale_pos ho.2.1).ne'
  change World.step false attr false w = _ at e
  rw [e2] at e; cases e
  refine ⟨w', e2, ?_, l⟩
  rw [World.unscale, hp]; exact sp
