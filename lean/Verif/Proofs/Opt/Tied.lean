import Verif.SpecTied
import Verif.Proofs.Opt.Step

/-! A step on a model whose layers may share parameters. -/

set_option linter.unusedSectionVars false
open Matrix
variable {α : Type} [Field α] [LinearOrder α] [IsStrictOrderedRing α] [LawfulSqrt α]

theorem Layer.uses_iff {m : Layer} {p : ℕ} : m.uses p = true ↔ World.Owns m p := by
  unfold Layer.uses World.Owns
  rcases m.bias with _ | b
  · simp; exact eq_comm
  · simp; exact or_congr eq_comm eq_comm

/-- an update of a parameter, entry by entry -/
theorem ParamSpec.entry {h : Hyper α} {p r c : ℕ} {S : Matrix (Fin r) (Fin c) α} {w w' : World α} (hs : ParamSpec h p S w w')
    {i j : ℕ} (hi : i < r) (hj : j < c) : w'.entry p i j = sgdEntry h (S ⟨i, hi⟩ ⟨j, hj⟩) (w.entry p i j) := by
  have mo : ∀ x : Option (Mat α), momO x r c ⟨i, hi⟩ ⟨j, hj⟩ = (x.map fun B => B.get i j).getD 0 := by
    rintro (_ | B) <;> rfl
  have d := congrFun (congrFun hs.data ⟨i, hi⟩) ⟨j, hj⟩
  simp only [Matrix.sub_apply, Matrix.smul_apply, Matrix.add_apply, smul_eq_mul, mo] at d
  refine Prod.ext ?_ ?_
  · exact d
  · show _ = if h.momentum = 0 then _ else _
    split
    · rename_i h0
      simp only [World.entry, hs.mom0 h0]
    · rename_i h0
      have b := congrFun (congrFun (hs.mom1 h0).2 ⟨i, hi⟩) ⟨j, hj⟩
      simp only [Matrix.smul_apply, Matrix.add_apply, smul_eq_mul, mo] at b
      exact b

/-- the entry of a direction of a layer that belongs to one of its parameters -/
theorem World.ApplySpec.entry {h : Hyper α} {m : Layer} {N : Matrix (Fin m.nC) (Fin m.nK) α} {w w' : World α} (hs : World.ApplySpec h m N w w')
    (hb : ∀ b, m.bias = some b → b.ptr ≠ m.weight.ptr) {p r c : ℕ} (hp : World.Owns m p) (hsh : ParamShape w' p r c) {i j : ℕ} (hi : i < r) (hj : j < c) :
    w'.entry p i j = sgdEntry h (dirEntry m N p i j) (w.entry p i j) := by
  rcases hp with rfl | ⟨b, hb', rfl⟩
  · have e := hs.weight.shape.data
    have e' := hsh.data
    have e1 : m.dout = r := e.1.symm.trans e'.1
    have e2 : m.din = c := e.2.symm.trans e'.2
    subst e1 e2
    rw [hs.weight.entry hi hj, dirEntry, if_pos rfl, _root_.entry, dif_pos ⟨hi, by unfold Layer.nK; omega⟩]
    rfl
  · have e := (hs.bias b hb').shape.data
    have e' := hsh.data
    have e1 : m.dout = r := e.1.symm.trans e'.1
    have e2 : 1 = c := e.2.symm.trans e'.2
    subst e1 e2
    rw [(hs.bias b hb').entry hi hj, dirEntry, if_neg (fun h => hb b hb' h.symm), _root_.entry,
      dif_pos ⟨hi, by unfold Layer.nK; simp [hb']⟩]
    rfl

/-- a step of one layer keeps the shapes of all parameters -/
theorem LayerSpec.keep {cl : Cls × Cls} {m : Layer} {h : Hyper α} {s u : α} {w w' : World α} (hl : LayerSpec cl m h s u w w')
    (hsh : LayerShape w m) (hd : ∀ p, ¬ World.Owns m p → w'.data p = w.data p ∧ w'.opt.mom p = w.opt.mom p) {p r c : ℕ}
    (hp : ParamShape w p r c) : ParamShape w' p r c := by
  by_cases ho : World.Owns m p
  · rcases ho with rfl | ⟨b, hb, rfl⟩
    · have e := hsh.weight.data
      have e' := hp.data
      have e1 : m.dout = r := e.1.symm.trans e'.1
      have e2 : m.din = c := e.2.symm.trans e'.2
      subst e1 e2
      exact hl.shape.weight
    · have e := (hsh.bias b hb).1.data
      have e' := hp.data
      have e1 : m.dout = r := e.1.symm.trans e'.1
      have e2 : 1 = c := e.2.symm.trans e'.2
      subst e1 e2
      exact (hl.shape.bias b hb).1
  · exact hp.congr (hd p ho).1 (hd p ho).2

/-- what a step does to the factors of a layer -/
structure FactorSpec (cl : Cls × Cls) (m : Layer) (h : Hyper α) (u : α) (w w' : World α) : Prop where
  wf : LayerWF cl w'.opt m
  upd : w.opt.steps % h.T = 0 → UpdSpec cl m h u w w'
  noupd : w.opt.steps % h.T ≠ 0 → SameFac m.name w.opt w'.opt

theorem FactorSpec.congr {cl : Cls × Cls} {m : Layer} {h : Hyper α} {u : α} {w w' v v' : World α} (hl : FactorSpec cl m h u w w')
    (f : SameFac m.name w.opt v.opt) (f' : SameFac m.name w'.opt v'.opt) (ht : v.opt.steps = w.opt.steps) : FactorSpec cl m h u v v' where
  wf := hl.wf.congr f'
  upd h0 := (hl.upd (by rw [← ht]; exact h0)).congr f f' ht
  noupd h0 := by
    have := hl.noupd (by rw [← ht]; exact h0)
    have e : SameFac m.name v.opt w.opt := ⟨f.1.symm, f.2.symm, f.3.symm, f.4.symm, f.5.symm, f.6.symm⟩
    exact (e.trans this).trans f'

theorem stepDir_congr {cl : String → Cls × Cls} {s : α} {w w' v v' : World α} {m : Layer} (hg : v.grad = w.grad)
    (hK : v'.opt.Ks m.name = w'.opt.Ks m.name) (hC : v'.opt.Cs m.name = w'.opt.Cs m.name) : stepDir cl s v v' m = stepDir cl s w w' m := by
  rw [stepDir, stepDir, gradM_congr hg, hK, hC]

namespace World

theorem chain_congr {cl : String → Cls × Cls} {s : α} {w w' v v' : World α} {p i j : ℕ} {ms : List Layer} {x : α × α}
    (h : ∀ m ∈ ms, w.opt.hyperOf m = v.opt.hyperOf m ∧ stepDir cl s w w' m = stepDir cl s v v' m) :
    chain cl s w w' p i j ms x = chain cl s v v' p i j ms x := by
  unfold chain
  refine List.foldl_ext _ _ _ fun x m hm => ?_
  obtain ⟨h1, h2⟩ := h m (List.mem_of_mem_filter hm)
  rw [h1, h2]

theorem forM_tied_spec {cl : String → Cls × Cls} {s u : α} : ∀ (ms : List Layer) (w : World α), ms.Pairwise (fun a b => a.name ≠ b.name) →
    (∀ m ∈ ms, m.Good (cl m.name)) → (∀ m ∈ ms, LayerWF (cl m.name) w.opt m) → (∀ m ∈ ms, LayerShape w m) →
    (∀ m ∈ ms, LayerReady w m) → (∀ m ∈ ms, ∃ h, w.opt.hyperOf m = .ok h ∧ h.T ≠ 0) →
    w.opt.scale w.opt.steps = .ok s → gradUnscaling w.opt = .ok u →
    ∃ w', Py.forM ms layerStep w = (.ok (), w') ∧ (∀ m ∈ ms, ∀ h, w.opt.hyperOf m = .ok h → FactorSpec (cl m.name) m h u w w') ∧
      (∀ p r c, ParamShape w p r c → ParamShape w' p r c) ∧
      ∀ p r c, ParamShape w p r c → ∀ i j, i < r → j < c → w'.entry p i j = chain cl s w w' p i j ms (w.entry p i j)
  | [], w, _, _, _, _, _, _, _, _ => ⟨w, rfl, by simp, fun _ _ _ h => h, fun _ _ _ _ _ _ _ _ => rfl⟩
  | m :: ms, w, hU, hG, hW, hS, hR, hH, hs, hu => by
    obtain ⟨h, hh, hT⟩ := hH m (by simp)
    obtain ⟨w1, e1, sp1⟩ := layerStep_spec (hG m (by simp)) (hW m (by simp)) (hS m (by simp)) (hR m (by simp)) hh hT hs hu
    have f1 := layerStep_frame m w
    rw [e1] at f1
    have hU' := List.pairwise_cons.1 hU
    have other : ∀ p, ¬ Owns m p → w1.data p = w.data p ∧ w1.opt.mom p = w.opt.mom p := fun p hp => ⟨f1.data p hp, f1.mom p hp⟩
    have keep : ∀ p r c, ParamShape w p r c → ParamShape w1 p r c := fun p r c hp => sp1.keep (hS m (by simp)) other hp
    have key : ∀ m' ∈ ms, SameFac m'.name w.opt w1.opt := by
      intro m' hm'
      have hn := hU'.1 m' hm'
      exact f1.sameFac (fun h => hn h.1.symm) (fun h => hn h.1.symm)
    obtain ⟨w', e2, sp2, keep2, ent2⟩ := forM_tied_spec (cl := cl) (s := s) (u := u) ms w1 hU'.2 (fun m' h' => hG m' (by simp [h']))
      (fun m' h' => (hW m' (by simp [h'])).congr (key m' h'))
      (fun m' h' => ⟨keep _ _ _ (hS m' (by simp [h'])).weight, fun b hb => ⟨keep _ _ _ ((hS m' (by simp [h'])).bias b hb).1,
        ((hS m' (by simp [h'])).bias b hb).2⟩⟩)
      (fun m' h' => (hR m' (by simp [h'])).congr f1.grad (f1.hyperOf _) f1.steps (key m' h'))
      (fun m' h' => by rw [f1.hyperOf]; exact hH m' (by simp [h']))
      (by rw [f1.scale, f1.steps]; exact hs) (by rw [gradUnscaling_frame f1]; exact hu)
    have f2 := innerStep_frame_aux w1 ms w1 (Frame.refl _)
    rw [e2] at f2
    have nn : ¬ ∃ m' ∈ ms, m.name = m'.name ∧ Updates w1.opt m' := by
      rintro ⟨m2, h2, h3, _⟩; exact hU'.1 m2 h2 h3
    have sf : SameFac m.name w1.opt w'.opt := f2.sameFac nn nn
    refine ⟨w', Py.forM_cons_ok.2 ⟨w1, e1, e2⟩, ?_, fun p r c hp => keep2 p r c (keep p r c hp), ?_⟩
    · intro m' hm' h' hh'
      rcases List.mem_cons.1 hm' with rfl | hm'
      · rw [hh] at hh'; cases hh'
        exact FactorSpec.congr ⟨sp1.wf, sp1.upd, sp1.noupd⟩ (SameFac.refl _ _) sf rfl
      · have k1 := key m' hm'
        have := sp2 m' hm' h' (by rw [f1.hyperOf]; exact hh')
        exact this.congr ⟨k1.1.symm, k1.2.symm, k1.3.symm, k1.4.symm, k1.5.symm, k1.6.symm⟩ (SameFac.refl _ _) f1.steps.symm
    · intro p r c hp i j hi hj
      rw [ent2 p r c (keep p r c hp) i j hi hj]
      have tail : ∀ x, chain cl s w1 w' p i j ms x = chain cl s w w' p i j ms x := fun x => chain_congr fun m' hm' =>
        ⟨f1.hyperOf _, stepDir_congr f1.grad rfl rfl⟩
      rw [tail]
      by_cases ho : Owns m p
      · have hd : stepDir cl s w w' m = natDir (cl m.name) s (gradM w m) (denO (w1.opt.Ks m.name) m.nK) (denO (w1.opt.Cs m.name) m.nC) := by
          rw [stepDir, sf.Ks, sf.Cs]
        rw [chain, chain, List.filter_cons_of_pos (p := fun x : Layer => x.uses p) (Layer.uses_iff.2 ho), List.foldl_cons, hh]
        simp only
        rw [hd, ← sp1.apply.entry (fun b hb => ((hS m (by simp)).bias b hb).2) ho (keep p r c hp) hi hj]
      · rw [chain, chain, List.filter_cons_of_neg (p := fun x : Layer => x.uses p) (fun h => ho (Layer.uses_iff.1 h))]
        congr 1
        simp only [World.entry, (other p ho).1, (other p ho).2]

/-- **A step on a model with shared parameters.** -/
theorem step_tied {cl : String → Cls × Cls} {w : World α} {attr : Option α} {s p : α} (hw : w.Loose cl)
    (hr : ∀ m ∈ w.opt.layers, LayerReady w m) (hp : w.opt.scales ((w.opt.steps : ℤ) - 1) = some p)
    (hs : (w.opt.scales w.opt.steps).getD (attr.getD 1) = s) (hs0 : s ≠ 0) :
    ∃ w', step false attr false w = (.ok (), w') ∧ w'.Loose cl ∧
      (∀ m ∈ w.opt.layers, ∀ h, w.opt.hyperOf m = .ok h → FactorSpec (cl m.name) m h (p / s ^ 2) w w') ∧
      ∀ q r c, ParamShape w q r c → ∀ i j, i < r → j < c →
        w'.entry q i j = chain cl s w w' q i j w.opt.layers (w.entry q i j) := by
  let v := withScale attr w
  have e0 : (ensureScale attr w).1 = .ok () := by
    rw [ensureScale_run attr w]
    intro h0; rw [h0] at hp; simp at hp; rw [hp]; simp
  have vs : v.opt.scales = Dict.set w.opt.scales w.opt.steps s := by simp only [v, withScale, hs]
  have sc : v.opt.scale v.opt.steps = .ok s := by
    rw [Opt.scale, lookup, vs, Dict.set]
    simp [v, withScale]
  have sp : v.opt.scale ((v.opt.steps : ℤ) - 1) = .ok p := by
    rw [Opt.scale, lookup, vs, Dict.set, Function.update_of_ne (by simp [v, withScale])]
    simp only [v, withScale, hp]
  have hu : gradUnscaling v.opt = .ok (p / s ^ 2) := by
    rw [gradUnscaling, sp, Except.bind_ok', sc, Except.bind_ok', if_neg hs0]
  have sf' : ∀ n, SameFac n w.opt v.opt := fun n => ⟨rfl, rfl, rfl, rfl, rfl, rfl⟩
  have sf : ∀ n, SameFac n v.opt w.opt := fun n => ⟨rfl, rfl, rfl, rfl, rfl, rfl⟩
  obtain ⟨w1, e1, l1, k1, n1⟩ := forM_tied_spec (cl := cl) v.opt.layers v hw.names hw.good (fun m hm => (hw.lay m hm).congr (sf' _))
    (fun m hm => (hw.shape m hm).congr (fun _ _ => rfl) (fun _ _ => rfl)) (fun m hm => (hr m hm).congr rfl rfl rfl (sf' _))
    (fun m hm => hw.hyper m hm) sc hu
  have f1 := innerStep_frame v
  have e1' : innerStep v = (.ok (), w1) := by rw [innerStep, Py.get_bind_run, e1]
  rw [e1'] at f1
  have L : ∀ m ∈ w.opt.layers, ∀ h, w.opt.hyperOf m = .ok h → FactorSpec (cl m.name) m h (p / s ^ 2) w
      { w1 with opt := Opt.removeUsedScales { w1.opt with steps := w1.opt.steps + 1 } } := fun m hm h hh =>
    (l1 m hm h hh).congr (sf _) ⟨rfl, rfl, rfl, rfl, rfl, rfl⟩ rfl
  refine ⟨_, step_ok_iff.2 ⟨e0, w1, ?_, rfl⟩, ⟨?_, ?_, ?_, ?_, ?_⟩, L, ?_⟩
  · rw [stepBody, if_neg (by simp), e1']
  · show w1.opt.layers.Pairwise _
    rw [f1.layers]; exact hw.names
  · show ∀ m ∈ w1.opt.layers, _
    rw [f1.layers]; exact hw.good
  · show ∀ m ∈ w1.opt.layers, _
    rw [f1.layers]; intro m hm
    obtain ⟨h, hh, _⟩ := hw.hyper m hm
    exact (L m hm h hh).wf
  · show ∀ m ∈ w1.opt.layers, _
    rw [f1.layers]; intro m hm
    have q := hw.shape m hm
    have kk : ∀ x r c, ParamShape w x r c → ParamShape w1 x r c := fun x r c hx => k1 x r c (hx.congr rfl rfl)
    exact ⟨(kk _ _ _ q.weight).congr rfl rfl, fun b hb => ⟨(kk _ _ _ (q.bias b hb).1).congr rfl rfl, (q.bias b hb).2⟩⟩
  · show ∀ m ∈ w1.opt.layers, _
    rw [f1.layers]; intro m hm
    obtain ⟨h, hh, hT⟩ := hw.hyper m hm
    refine ⟨h, ?_, hT⟩
    have := f1.hyperOf m
    rw [show v.opt.hyperOf m = w.opt.hyperOf m from rfl, hh] at this
    exact this
  · intro q r c hq i j hi hj
    refine (n1 q r c (hq.congr rfl rfl) i j hi hj).trans ?_
    exact chain_congr fun m _ => ⟨rfl, rfl⟩

end World
