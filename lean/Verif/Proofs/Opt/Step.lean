import Verif.Proofs.Opt.Direction

/-! One complete step, layer by layer. -/

set_option linter.unusedSectionVars false
open Finset Mat Matrix
variable {α : Type} [Field α] [LinearOrder α] [IsStrictOrderedRing α] [HasSqrt α]

/-- the factor-related entries of layer `n` agree -/
structure SameFac (n : String) (o o' : Opt α) : Prop where
  Ks : o'.Ks n = o.Ks n
  Cs : o'.Cs n = o.Cs n
  mKs : o'.mKs n = o.mKs n
  mCs : o'.mCs n = o.mCs n
  HKs : o'.HKs n = o.HKs n
  HCs : o'.HCs n = o.HCs n

theorem SameFac.refl (n : String) (o : Opt α) : SameFac n o o := ⟨rfl, rfl, rfl, rfl, rfl, rfl⟩
theorem SameFac.trans {n : String} {o o' o'' : Opt α} (h : SameFac n o o') (h' : SameFac n o' o'') : SameFac n o o'' :=
  ⟨h'.1.trans h.1, h'.2.trans h.2, h'.3.trans h.3, h'.4.trans h.4, h'.5.trans h.5, h'.6.trans h.6⟩
theorem Frame.sameFac {N S : String → Prop} {P : ℕ → Prop} {w w' : World α} (h : Frame N S P w w') {n : String} (hN : ¬ N n)
    (hS : ¬ S n) : SameFac n w.opt w'.opt := ⟨h.Ks n hN, h.Cs n hN, h.mKs n hN, h.mCs n hN, h.HKs n hS, h.HCs n hS⟩

theorem LayerWF.congr {cl : Cls × Cls} {o o' : Opt α} {m : Layer} (h : LayerWF cl o m) (s : SameFac m.name o o') : LayerWF cl o' m :=
  ⟨by rw [s.Ks]; exact h.K, by rw [s.Cs]; exact h.C, by rw [s.mKs]; exact h.mK, by rw [s.mCs]; exact h.mC,
    by rw [s.HKs]; exact h.HK, by rw [s.HCs]; exact h.HC⟩

theorem UpdSpec.congr {cl : Cls × Cls} {m : Layer} {h : Hyper α} {u : α} {w w' v v' : World α} (hu : UpdSpec cl m h u w w')
    (s : SameFac m.name w.opt v.opt) (s' : SameFac m.name w'.opt v'.opt) (ht : v.opt.steps = w.opt.steps) : UpdSpec cl m h u v v' where
  wf := hu.wf.congr s'
  HK := by rw [s'.HKs]; exact hu.HK
  HC := by rw [s'.HCs]; exact hu.HC
  mK0 := by rw [s'.mKs, s'.mCs, s.mKs, s.mCs]; exact hu.mK0
  eqs := by rw [s'.mKs, s'.mCs, s.mKs, s.mCs, s'.Ks, s'.Cs, s.Ks, s.Cs, s.HKs, s.HCs, ht]; exact hu.eqs

/-- What a step does to a layer. -/
structure LayerSpec (cl : Cls × Cls) (m : Layer) (h : Hyper α) (s u : α) (w w' : World α) : Prop where
  wf : LayerWF cl w'.opt m
  shape : LayerShape w' m
  upd : w.opt.steps % h.T = 0 → UpdSpec cl m h u w w'
  noupd : w.opt.steps % h.T ≠ 0 → SameFac m.name w.opt w'.opt
  apply : World.ApplySpec h m (natDir cl s (gradM w m) (denO (w'.opt.Ks m.name) m.nK) (denO (w'.opt.Cs m.name) m.nC)) w w'

theorem gradM_congr {w v : World α} (h : v.grad = w.grad) (m : Layer) : gradM v m = gradM w m := by unfold gradM; rw [h]

theorem World.ApplySpec.congr {h : Hyper α} {m : Layer} {N : Matrix (Fin m.nC) (Fin m.nK) α} {w w' v v' : World α}
    (hs : World.ApplySpec h m N w w') (d : ∀ p, World.Owns m p → v.data p = w.data p) (b : ∀ p, World.Owns m p → v.opt.mom p = w.opt.mom p)
    (d' : ∀ p, World.Owns m p → v'.data p = w'.data p) (b' : ∀ p, World.Owns m p → v'.opt.mom p = w'.opt.mom p) :
    World.ApplySpec h m N v v' where
  weight := hs.weight.congr (d _ (Or.inl rfl)) (b _ (Or.inl rfl)) (d' _ (Or.inl rfl)) (b' _ (Or.inl rfl))
  bias := fun q hq => (hs.bias q hq).congr (d _ (Or.inr ⟨q, hq, rfl⟩)) (b _ (Or.inr ⟨q, hq, rfl⟩)) (d' _ (Or.inr ⟨q, hq, rfl⟩))
    (b' _ (Or.inr ⟨q, hq, rfl⟩))

theorem LayerShape.congr {w v : World α} {m : Layer} (h : LayerShape w m) (d : ∀ p, World.Owns m p → v.data p = w.data p)
    (b : ∀ p, World.Owns m p → v.opt.mom p = w.opt.mom p) : LayerShape v m where
  weight := h.weight.congr (d _ (Or.inl rfl)) (b _ (Or.inl rfl))
  bias q hq := ⟨(h.bias q hq).1.congr (d _ (Or.inr ⟨q, hq, rfl⟩)) (b _ (Or.inr ⟨q, hq, rfl⟩)), (h.bias q hq).2⟩

theorem LayerGrads.congr {w v : World α} {m : Layer} (h : LayerGrads w m) (g : v.grad = w.grad) : LayerGrads v m :=
  ⟨by rw [g]; exact h.weight, by rw [g]; exact h.bias⟩

namespace World

theorem layerStep_spec {cl : Cls × Cls} {m : Layer} {h : Hyper α} {w : World α} {s u : α} (hm : m.Good cl) (hw : LayerWF cl w.opt m)
    (hsh : LayerShape w m) (hr : LayerReady w m) (hh : w.opt.hyperOf m = .ok h) (hT : h.T ≠ 0)
    (hs : w.opt.scale w.opt.steps = .ok s) (hu : gradUnscaling w.opt = .ok u) :
    ∃ w', layerStep m w = (.ok (), w') ∧ LayerSpec cl m h s u w w' := by
  have key : ∃ w1, updatePreconditioner m w = (.ok (), w1) ∧ LayerWF cl w1.opt m ∧
      (w.opt.steps % h.T = 0 → UpdSpec cl m h u w w1) ∧ (w.opt.steps % h.T ≠ 0 → w1 = w) := by
    by_cases h0 : w.opt.steps % h.T = 0
    · obtain ⟨a, b, c⟩ := hr.stats h hh h0
      obtain ⟨w1, e, sp⟩ := updateOn_spec hm hw a b hu c
      exact ⟨w1, by rw [updatePreconditioner_on hh hT h0, e], sp.wf, fun _ => sp, fun h1 => absurd h0 h1⟩
    · exact ⟨w, updatePreconditioner_off hh hT h0, hw, fun h1 => absurd h1 h0, fun _ => rfl⟩
  obtain ⟨w1, e1, wf1, up1, no1⟩ := key
  have f1 := updatePreconditioner_frame m w
  rw [e1] at f1
  have hh1 : w1.opt.hyperOf m = .ok h := by rw [f1.hyperOf]; exact hh
  obtain ⟨N, eN, sN, dN⟩ := natGradMat_spec hm wf1 (hr.grads.congr f1.grad) hh1
    (by rw [f1.scale, f1.steps]; exact hs : w1.opt.scale w1.opt.steps = .ok s)
  have d1 : w1.data = w.data := funext fun p => f1.data p id
  have m1 : w1.opt.mom = w.opt.mom := funext fun p => f1.mom p id
  have hsh1 : LayerShape w1 m := hsh.congr (fun p _ => by rw [d1]) (fun p _ => by rw [m1])
  obtain ⟨w2, e2, ap⟩ := applyNat_spec hsh1 hh1 sN
  have f2 := applyNat_frame m N w1
  rw [e2] at f2
  have sf : SameFac m.name w1.opt w2.opt := f2.sameFac id id
  refine ⟨w2, ?_, wf1.congr sf, ?_, fun h0 => (up1 h0).congr (SameFac.refl _ _) sf rfl, fun h0 => ?_, ?_⟩
  · rw [layerStep, Py.bind_ok e1, Py.get_bind_run, eN, Py.lift_ok_bind_run, e2]
  · exact ⟨ap.weight.shape, fun b hb => ⟨(ap.bias b hb).shape, (hsh.bias b hb).2⟩⟩
  · have := no1 h0; subst this; exact sf
  · rw [dN, gradM_congr f1.grad] at ap
    rw [sf.Ks, sf.Cs, natDir]
    exact ap.congr (fun p _ => by rw [d1]) (fun p _ => by rw [m1]) (fun p _ => rfl) (fun p _ => rfl)

theorem gradUnscaling_frame {N S : String → Prop} {P : ℕ → Prop} {w w' : World α} (h : Frame N S P w w') :
    gradUnscaling w'.opt = gradUnscaling w.opt := by
  unfold gradUnscaling; simp only [h.scale, h.steps]

theorem owns_iff {m : Layer} {p : ℕ} : Owns m p ↔ p ∈ m.weight.ptr :: m.bias.toList.map (·.ptr) := by
  unfold Owns
  rcases m.bias with _ | b <;> simp

theorem _root_.LayerReady.congr {w v : World α} {m : Layer} (h : LayerReady w m) (g : v.grad = w.grad) (hh : v.opt.hyperOf m = w.opt.hyperOf m)
    (ht : v.opt.steps = w.opt.steps) (s : SameFac m.name w.opt v.opt) : LayerReady v m :=
  ⟨h.grads.congr g, by rw [hh, ht, s.HKs, s.HCs, s.mKs, s.mCs]; exact h.stats⟩

theorem _root_.LayerSpec.congr {cl : Cls × Cls} {m : Layer} {h : Hyper α} {s u : α} {w w' v v' : World α} (hl : LayerSpec cl m h s u w w')
    (f : SameFac m.name w.opt v.opt) (f' : SameFac m.name w'.opt v'.opt) (ht : v.opt.steps = w.opt.steps) (hg : v.grad = w.grad)
    (d : ∀ p, Owns m p → v.data p = w.data p) (b : ∀ p, Owns m p → v.opt.mom p = w.opt.mom p)
    (d' : ∀ p, Owns m p → v'.data p = w'.data p) (b' : ∀ p, Owns m p → v'.opt.mom p = w'.opt.mom p) : LayerSpec cl m h s u v v' where
  wf := hl.wf.congr f'
  shape := hl.shape.congr d' b'
  upd h0 := (hl.upd (by rw [← ht]; exact h0)).congr f f' ht
  noupd h0 := by
    have := hl.noupd (by rw [← ht]; exact h0)
    have e : SameFac m.name v.opt w.opt := ⟨f.1.symm, f.2.symm, f.3.symm, f.4.symm, f.5.symm, f.6.symm⟩
    exact (e.trans this).trans f'
  apply := by
    rw [gradM_congr hg, f'.Ks, f'.Cs]; exact hl.apply.congr d b d' b'

theorem forM_layers_spec {cl : String → Cls × Cls} {s u : α} : ∀ (ms : List Layer) (w : World α), Untied ms →
    (∀ m ∈ ms, m.Good (cl m.name)) → (∀ m ∈ ms, LayerWF (cl m.name) w.opt m) → (∀ m ∈ ms, LayerShape w m) →
    (∀ m ∈ ms, LayerReady w m) → (∀ m ∈ ms, ∃ h, w.opt.hyperOf m = .ok h ∧ h.T ≠ 0) →
    w.opt.scale w.opt.steps = .ok s → gradUnscaling w.opt = .ok u →
    ∃ w', Py.forM ms layerStep w = (.ok (), w') ∧ ∀ m ∈ ms, ∀ h, w.opt.hyperOf m = .ok h → LayerSpec (cl m.name) m h s u w w'
  | [], w, _, _, _, _, _, _, _, _ => ⟨w, rfl, by simp⟩
  | m :: ms, w, hU, hG, hW, hS, hR, hH, hs, hu => by
    obtain ⟨h, hh, hT⟩ := hH m (by simp)
    obtain ⟨w1, e1, sp1⟩ := layerStep_spec (hG m (by simp)) (hW m (by simp)) (hS m (by simp)) (hR m (by simp)) hh hT hs hu
    have f1 := layerStep_frame m w
    rw [e1] at f1
    have hU' := List.pairwise_cons.1 hU
    have key : ∀ m' ∈ ms, SameFac m'.name w.opt w1.opt ∧ (∀ p, Owns m' p → w1.data p = w.data p) ∧
        (∀ p, Owns m' p → w1.opt.mom p = w.opt.mom p) := by
      intro m' hm'
      obtain ⟨hn, hp⟩ := hU'.1 m' hm'
      refine ⟨f1.sameFac (fun h => hn h.1.symm) (fun h => hn h.1.symm), fun p hp' => f1.data p ?_, fun p hp' => f1.mom p ?_⟩
      · exact fun h => hp p (owns_iff.1 h) (owns_iff.1 hp')
      · exact fun h => hp p (owns_iff.1 h) (owns_iff.1 hp')
    obtain ⟨w', e2, sp2⟩ := forM_layers_spec (cl := cl) (s := s) (u := u) ms w1 hU'.2 (fun m' h' => hG m' (by simp [h']))
      (fun m' h' => (hW m' (by simp [h'])).congr (key m' h').1)
      (fun m' h' => (hS m' (by simp [h'])).congr (key m' h').2.1 (key m' h').2.2)
      (fun m' h' => (hR m' (by simp [h'])).congr f1.grad (f1.hyperOf _) f1.steps (key m' h').1)
      (fun m' h' => by rw [f1.hyperOf]; exact hH m' (by simp [h']))
      (by rw [f1.scale, f1.steps]; exact hs) (by rw [gradUnscaling_frame f1]; exact hu)
    refine ⟨w', Py.forM_cons_ok.2 ⟨w1, e1, e2⟩, ?_⟩
    intro m' hm' h' hh'
    rcases List.mem_cons.1 hm' with rfl | hm'
    · rw [hh] at hh'; cases hh'
      have f2 := innerStep_frame_aux w1 ms w1 (Frame.refl _)
      rw [e2] at f2
      have nn : ¬ ∃ m ∈ ms, m'.name = m.name ∧ Updates w1.opt m := by
        rintro ⟨m2, h2, h3, _⟩; exact (hU'.1 m2 h2).1 h3
      have np : ∀ p, Owns m' p → ¬ ∃ m ∈ ms, Owns m p := by
        rintro p hp ⟨m2, h2, h3⟩; exact (hU'.1 m2 h2).2 p (owns_iff.1 hp) (owns_iff.1 h3)
      exact sp1.congr (SameFac.refl _ _) (f2.sameFac nn nn) rfl rfl (fun _ _ => rfl) (fun _ _ => rfl)
        (fun p hp => f2.data p (np p hp)) (fun p hp => f2.mom p (np p hp))
    · obtain ⟨k1, k2, k3⟩ := key m' hm'
      have := sp2 m' hm' h' (by rw [f1.hyperOf]; exact hh')
      exact this.congr ⟨k1.1.symm, k1.2.symm, k1.3.symm, k1.4.symm, k1.5.symm, k1.6.symm⟩ (SameFac.refl _ _) f1.steps.symm f1.grad.symm
        (fun p hp => (k2 p hp).symm) (fun p hp => (k3 p hp).symm) (fun _ _ => rfl) (fun _ _ => rfl)

end World

/-- everything a successful, not skipped step does -/
structure StepSpec (cl : String → Cls × Cls) (s u : α) (w w' : World α) : Prop where
  layer : ∀ m ∈ w.opt.layers, ∀ h, w.opt.hyperOf m = .ok h → LayerSpec (cl m.name) m h s u w w'
  sound : w'.Sound cl
  structs : w'.opt.structs = w.opt.structs
  layers : w'.opt.layers = w.opt.layers
  ptrGroup : w'.opt.ptrGroup = w.opt.ptrGroup
  groups : w'.opt.groups = w.opt.groups
  steps : w'.opt.steps = w.opt.steps + 1
  scales : ∀ t, w'.opt.scales t = if t < w.opt.steps then none else if t = w.opt.steps then some s else w.opt.scales t
  other : ∀ n, (∀ m ∈ w.opt.layers, n ≠ m.name) → SameFac n w.opt w'.opt
  otherP : ∀ p, (∀ m ∈ w.opt.layers, ¬ World.Owns m p) → w'.data p = w.data p ∧ w'.opt.mom p = w.opt.mom p
  grad : w'.grad = w.grad
  hooks : w'.hooks = w.hooks

namespace World

theorem step_spec {cl : String → Cls × Cls} {w : World α} {attr : Option α} {s p : α} (hw : w.Sound cl)
    (hr : ∀ m ∈ w.opt.layers, LayerReady w m) (hp : w.opt.scales ((w.opt.steps : ℤ) - 1) = some p)
    (hs : (w.opt.scales w.opt.steps).getD (attr.getD 1) = s) (hs0 : s ≠ 0) :
    ∃ w', step false attr false w = (.ok (), w') ∧ StepSpec cl s (p / s ^ 2) w w' := by
  let v := withScale attr w
  have e0 : (ensureScale attr w).1 = .ok () := by
    rw [ensureScale_run attr w]
    intro h0; rw [h0] at hp; simp at hp; rw [hp]; simp
  have vs : v.opt.scales = Dict.set w.opt.scales w.opt.steps s := by simp only [v, withScale, hs]
  have sc : v.opt.scale v.opt.steps = .ok s := by
    rw [Opt.scale, lookup, vs, Dict.set]
    simp [v, withScale]
  have sp : v.opt.scale ((v.opt.steps : ℤ) - 1) = .ok p := by
    rw [Opt.scale, lookup, vs, Dict.set, Function.update_of_ne (by simp [v, withScale])]
    simp only [v, withScale, hp]
  have hu : gradUnscaling v.opt = .ok (p / s ^ 2) := by
    rw [gradUnscaling, sp, Except.bind_ok', sc, Except.bind_ok', if_neg hs0]
  have hyp : ∀ m, v.opt.hyperOf m = w.opt.hyperOf m := fun m => rfl
  have sf : ∀ n, SameFac n v.opt w.opt := fun n => ⟨rfl, rfl, rfl, rfl, rfl, rfl⟩
  have sf' : ∀ n, SameFac n w.opt v.opt := fun n => ⟨rfl, rfl, rfl, rfl, rfl, rfl⟩
  obtain ⟨w1, e1, l1⟩ := forM_layers_spec (cl := cl) v.opt.layers v hw.untied hw.good (fun m hm => (hw.lay m hm).congr (sf' _))
    (fun m hm => (hw.shape m hm).congr (fun _ _ => rfl) (fun _ _ => rfl)) (fun m hm => (hr m hm).congr rfl rfl rfl (sf' _))
    (fun m hm => hw.hyper m hm) sc hu
  have f1 := innerStep_frame v
  have e1' : innerStep v = (.ok (), w1) := by rw [innerStep, Py.get_bind_run, e1]
  rw [e1'] at f1
  refine ⟨_, step_ok_iff.2 ⟨e0, w1, ?_, rfl⟩, ?_⟩
  · rw [stepBody, if_neg (by simp), e1']
  · have L : ∀ m ∈ w.opt.layers, ∀ h, w.opt.hyperOf m = .ok h → LayerSpec (cl m.name) m h s (p / s ^ 2) w
        { w1 with opt := Opt.removeUsedScales { w1.opt with steps := w1.opt.steps + 1 } } := by
      intro m hm h hh
      exact (l1 m hm h hh).congr (sf _) ⟨rfl, rfl, rfl, rfl, rfl, rfl⟩ rfl rfl (fun _ _ => rfl) (fun _ _ => rfl) (fun _ _ => rfl)
        (fun _ _ => rfl)
    refine ⟨L, ⟨?_, ?_, ?_, ?_, ?_⟩, f1.structs, f1.layers, f1.ptrGroup, f1.groups, ?_, ?_, ?_, ?_, f1.grad, f1.hooks⟩
    · show Untied w1.opt.layers
      rw [f1.layers]; exact hw.untied
    · show ∀ m ∈ w1.opt.layers, _
      rw [f1.layers]; exact hw.good
    · show ∀ m ∈ w1.opt.layers, _
      rw [f1.layers]; intro m hm
      obtain ⟨h, hh, _⟩ := hw.hyper m hm
      exact (L m hm h hh).wf
    · show ∀ m ∈ w1.opt.layers, _
      rw [f1.layers]; intro m hm
      obtain ⟨h, hh, _⟩ := hw.hyper m hm
      exact (L m hm h hh).shape
    · show ∀ m ∈ w1.opt.layers, _
      rw [f1.layers]; intro m hm
      obtain ⟨h, hh, hT⟩ := hw.hyper m hm
      refine ⟨h, ?_, hT⟩
      rw [← hyp, ← f1.hyperOf] at hh
      exact hh
    · show w1.opt.steps + 1 = _
      rw [f1.steps]; rfl
    · intro t
      show (if t < ((w1.opt.steps + 1 : ℕ) : ℤ) - 1 then none else w1.opt.scales t) = _
      rw [f1.steps, f1.scales, vs, Dict.set, Function.update_apply]
      have : v.opt.steps = w.opt.steps := rfl
      rw [this]
      have e : ((w.opt.steps + 1 : ℕ) : ℤ) - 1 = w.opt.steps := by push_cast; ring
      rw [e]
    · intro n hn
      have : ¬ ∃ m ∈ v.opt.layers, n = m.name ∧ Updates v.opt m := by
        rintro ⟨m, h1, h2, _⟩; exact hn m h1 h2
      have g := f1.sameFac this this
      exact (sf' n).trans ⟨g.1, g.2, g.3, g.4, g.5, g.6⟩
    · intro q hq
      have : ¬ ∃ m ∈ v.opt.layers, Owns m q := by
        rintro ⟨m, h1, h2⟩; exact hq m h1 h2
      exact ⟨f1.data q this, f1.mom q this⟩

end World
