import Verif.Props.Schedule
import Verif.Proofs.Opt.Two

/-! C47: in KFAC-like mode the factors of a layer do not see each other's data. -/

set_option linter.unusedSectionVars false
open Construct Matrix
variable {α : Type} [Field α] [LinearOrder α] [IsStrictOrderedRing α] [LawfulSqrt α]

/-- the layer's group runs in KFAC-like mode -/
def KfacLike (m : Layer) (w : World α) : Prop := ∀ h, w.opt.hyperOf m = .ok h → h.kfacLike = true

/-- the configuration and the step counter agree -/
structure SameConf (A B : World α) : Prop where
  layers : A.opt.layers = B.opt.layers
  ptrGroup : A.opt.ptrGroup = B.opt.ptrGroup
  groups : A.opt.groups = B.opt.groups
  steps : A.opt.steps = B.opt.steps

theorem SameConf.hyperOf {A B : World α} (h : SameConf A B) (m : Layer) : A.opt.hyperOf m = B.opt.hyperOf m := by
  unfold Opt.hyperOf; rw [h.ptrGroup, h.groups]
theorem SameConf.updates {A B : World α} (h : SameConf A B) (m : Layer) : World.Updates A.opt m ↔ World.Updates B.opt m := by
  unfold World.Updates; simp only [h.hyperOf, h.steps]
theorem Frame.conf {N S : String → Prop} {P : ℕ → Prop} {w w' : World α} (f : Frame N S P w w') : SameConf w' w :=
  ⟨f.layers, f.ptrGroup, f.groups, f.steps⟩
theorem SameConf.symm {A B : World α} (h : SameConf A B) : SameConf B A := ⟨h.1.symm, h.2.symm, h.3.symm, h.4.symm⟩
theorem SameConf.trans {A B C : World α} (h : SameConf A B) (h' : SameConf B C) : SameConf A C :=
  ⟨h.1.trans h'.1, h.2.trans h'.2, h.3.trans h'.3, h.4.trans h'.4⟩
theorem KfacLike.congr {m : Layer} {A B : World α} (h : KfacLike m A) (e : ∀ m, B.opt.hyperOf m = A.opt.hyperOf m) : KfacLike m B := by
  intro hy hh; rw [e] at hh; exact h hy hh

/-- Two states in which everything `K` of layer `m` depends on agrees: configuration, step counter, `K`, its momentum and statistics,
and the inputs of `m` waiting for a backward pass. Nothing is said about `C`, its momentum and statistics, gradients, gradient
scales, parameters, and other layers' factors. -/
structure KSide (m : Layer) (A B : World α) : Prop where
  conf : SameConf A B
  like : KfacLike m A
  K : A.opt.Ks m.name = B.opt.Ks m.name
  mK : A.opt.mKs m.name = B.opt.mKs m.name
  HK : A.opt.HKs m.name = B.opt.HKs m.name
  hooks : List.Forall₂ (fun a b => a.1 = b.1 ∧ (a.1 = m → a.2 = b.2)) A.hooks B.hooks

/-- Operations that differ at most in what `K` of layer `m` must not depend on: output gradients, gradients, parameters, gradient
scales, inputs of other layers. Assignments of hyper-parameters leave the layer in KFAC-like mode. -/
def KOps (m : Layer) (A _B : World α) : Op α → Op α → Prop
  | .forward i x ge, .forward i' x' ge' => i = i' ∧ ge = ge' ∧ (A.opt.layers[i]? = some m → x = x')
  | .backward k _, .backward k' _ => k = k'
  | .setGrad _ _, .setGrad _ _ => True
  | .setParam _ _, .setParam _ _ => True
  | .setHyper i h, .setHyper i' h' => i = i' ∧ h = h' ∧ (A.opt.ptrGroup m.weight.ptr = some i → h.kfacLike = true)
  | .setScale _, .setScale _ => True
  | .step _ _ f, .step _ _ f' => f = f'
  | _, _ => False

theorem forall₂_getElem? {β γ : Type} {R : β → γ → Prop} : ∀ {l : List β} {l' : List γ}, List.Forall₂ R l l' → ∀ k : ℕ,
    (l[k]? = none ∧ l'[k]? = none) ∨ ∃ a b, l[k]? = some a ∧ l'[k]? = some b ∧ R a b
  | _, _, .nil, k => Or.inl ⟨by simp, by simp⟩
  | _, _, .cons h _, 0 => Or.inr ⟨_, _, rfl, rfl, h⟩
  | _, _, .cons _ t, k + 1 => by simpa using forall₂_getElem? t k

/-- the state after a skipped step -/
theorem World.Live.skip {cl : String → Cls × Cls} {w : World α} (h : w.Live cl) (attr : Option α) :
    ∃ w', _root_.exec (.step false attr true) w = (.ok (), w') ∧ w'.opt.layers = w.opt.layers ∧ w'.opt.ptrGroup = w.opt.ptrGroup ∧
      w'.opt.groups = w.opt.groups ∧ w'.opt.steps = w.opt.steps + 1 ∧ w'.hooks = w.hooks ∧ w'.opt.Ks = w.opt.Ks ∧ w'.opt.Cs = w.opt.Cs ∧
      w'.opt.mKs = w.opt.mKs ∧ w'.opt.mCs = w.opt.mCs ∧ w'.data = w.data ∧ w'.opt.mom = w.opt.mom ∧ w'.grad = w.grad ∧
      (∀ t, w'.opt.scales t = if t < w.opt.steps then none else if t = w.opt.steps then some (w.curScale attr) else w.opt.scales t) ∧
      ∀ n, w'.opt.HKs n = (if ∃ m ∈ w.opt.layers, m.name = n then none else w.opt.HKs n) ∧
        w'.opt.HCs n = (if ∃ m ∈ w.opt.layers, m.name = n then none else w.opt.HCs n) := by
  refine ⟨_, World.skip_run h.hnz, rfl, rfl, rfl, rfl, rfl, rfl, rfl, rfl, rfl, rfl, rfl, rfl, ?_, fun n => ⟨rfl, rfl⟩⟩
  intro t
  have e : (((w.opt.steps + 1 : ℕ) : ℤ) - 1) = w.opt.steps := by push_cast; ring
  show (if t < (((w.opt.steps + 1 : ℕ) : ℤ) - 1) then none else Dict.set w.opt.scales w.opt.steps (w.curScale attr) t) = _
  rw [e]
  simp only [Dict.set, Function.update_apply]

theorem KSide.exec {cl : String → Cls × Cls} {m : Layer} {A B : World α} {a b : Op α} (lA : A.Live cl) (lB : B.Live cl) (fA : FitsOp A a)
    (fB : FitsOp B b) (hm : m ∈ A.opt.layers) (r : KSide m A B) (ho : KOps m A B a b) : KSide m (_root_.exec a A).2 (_root_.exec b B).2 := by
  have hm' : m ∈ B.opt.layers := by rw [← r.conf.layers]; exact hm
  cases a <;> cases b <;> try exact ho.elim
  case forward.forward i x ge i' x' ge' =>
    obtain ⟨rfl, rfl, hx⟩ := ho
    rw [exec_forward_state, exec_forward_state]
    refine ⟨⟨r.conf.1, r.conf.2, r.conf.3, r.conf.4⟩, r.like, r.K, r.mK, r.HK, ?_⟩
    refine List.rel_append r.hooks ?_
    unfold newHooks
    rw [← r.conf.layers]
    rcases hi : A.opt.layers[i]? with _ | m'
    · exact .nil
    · by_cases hc : ge = true ∧ World.Updates A.opt m'
      · simp only
        rw [if_pos hc, if_pos ⟨hc.1, (r.conf.updates m').1 hc.2⟩]
        exact .cons ⟨rfl, fun e => hx (by rw [hi, show m' = m from e])⟩ .nil
      · simp only
        rw [if_neg hc, if_neg (fun h => hc ⟨h.1, (r.conf.updates m').2 h.2⟩)]
        exact .nil
  case backward.backward k g k' g' =>
    obtain rfl : k = k' := ho
    rcases forall₂_getElem? r.hooks k with ⟨e1, e2⟩ | ⟨x, y, e1, e2, e3, e4⟩
    · rw [exec_backward_none e1, exec_backward_none e2]; exact r
    · obtain ⟨mA, hA, pA, hhA, _, _, bA⟩ := lA.back e1 fA
      obtain ⟨mB, hB, pB, hhB, _, _, bB⟩ := lB.back e2 fB
      have frA := bA.frame
      have frB := bB.frame
      refine ⟨(frA.conf.trans r.conf).trans frB.conf.symm, r.like.congr frA.hyperOf, ?_, ?_, ?_, ?_⟩
      · rw [frA.Ks _ id, frB.Ks _ id]; exact r.K
      · rw [frA.mKs _ id, frB.mKs _ id]; exact r.mK
      · by_cases e : x.1 = m
        · have e' : y.1 = m := by rw [← e3]; exact e
          have ex := e4 e
          rw [e] at bA hhA
          rw [e'] at bB hhB
          rw [r.conf.hyperOf, hhB] at hhA
          cases hhA
          refine optWF_ext bA.wf.HK bB.wf.HK (by simp [bA.someK, bB.someK]) ?_
          rw [bA.HK, bB.HK, r.HK, r.K, ex]
        · have n1 : m.name ≠ x.1.name := fun h => e (lA.sound.untied.name_inj mA hm h.symm)
          have n2 : m.name ≠ y.1.name := by rw [← e3]; exact n1
          rw [frA.HKs _ n1, frB.HKs _ n2]; exact r.HK
      · rw [frA.hooks, frB.hooks]; exact r.hooks
  case setGrad.setGrad => exact ⟨⟨r.conf.1, r.conf.2, r.conf.3, r.conf.4⟩, r.like, r.K, r.mK, r.HK, r.hooks⟩
  case setParam.setParam => exact ⟨⟨r.conf.1, r.conf.2, r.conf.3, r.conf.4⟩, r.like, r.K, r.mK, r.HK, r.hooks⟩
  case setHyper.setHyper i h i' h' =>
    obtain ⟨rfl, rfl, hk⟩ := ho
    rw [exec_setHyper, exec_setHyper]
    refine ⟨⟨r.conf.1, r.conf.2, ?_, r.conf.4⟩, ?_, r.K, r.mK, r.HK, r.hooks⟩
    · show A.opt.groups.modify i _ = B.opt.groups.modify i _
      rw [r.conf.groups]
    · intro hy hh
      obtain ⟨h0, e0, _⟩ := lA.sound.hyper m hm
      rw [hyperOf_assign, e0] at hh
      cases hh
      beta_reduce
      by_cases hp : A.opt.ptrGroup m.weight.ptr = some i
      · rw [if_pos hp]; exact hk hp
      · rw [if_neg hp]; exact r.like h0 e0
  case setScale.setScale s s' =>
    rw [_root_.exec, _root_.exec, World.setScale_state, World.setScale_state]
    exact ⟨⟨r.conf.1, r.conf.2, r.conf.3, r.conf.4⟩, r.like, r.K, r.mK, r.HK, r.hooks⟩
  case step.step c t f c' t' f' =>
    obtain rfl : f = f' := ho
    obtain rfl := fA.1
    obtain rfl := fB.1
    cases f
    · obtain ⟨A', eA, sA, _⟩ := lA.step fA
      obtain ⟨B', eB, sB, _⟩ := lB.step fB
      rw [eA, eB]
      obtain ⟨h, hh, hT⟩ := lA.sound.hyper m hm
      have hhB : B.opt.hyperOf m = .ok h := by rw [← r.conf.hyperOf]; exact hh
      have LA := sA.layer m hm h hh
      have LB := sB.layer m hm' h hhB
      have hl := r.like h hh
      have hypA : ∀ m, A'.opt.hyperOf m = A.opt.hyperOf m := fun m => by unfold Opt.hyperOf; rw [sA.ptrGroup, sA.groups]
      have key : A'.opt.Ks m.name = B'.opt.Ks m.name ∧ A'.opt.mKs m.name = B'.opt.mKs m.name ∧ A'.opt.HKs m.name = B'.opt.HKs m.name := by
        by_cases h0 : A.opt.steps % h.T = 0
        · have uA := LA.upd h0
          have uB := LB.upd (by rw [← r.conf.steps]; exact h0)
          obtain ⟨k1, k2⟩ := uA.two_K uB r.K r.mK r.conf.steps (by rw [dirK, dirK, if_pos hl, if_pos hl, if_pos hl, if_pos hl, r.K, r.HK])
          exact ⟨k1, k2, by rw [uA.HK, uB.HK]⟩
        · have nA := LA.noupd h0
          have nB := LB.noupd (by rw [← r.conf.steps]; exact h0)
          rw [nA.Ks, nB.Ks, nA.mKs, nB.mKs, nA.HKs, nB.HKs]
          exact ⟨r.K, r.mK, r.HK⟩
      exact ⟨⟨by rw [sA.layers, sB.layers, r.conf.layers], by rw [sA.ptrGroup, sB.ptrGroup, r.conf.ptrGroup],
        by rw [sA.groups, sB.groups, r.conf.groups], by rw [sA.steps, sB.steps, r.conf.steps]⟩, r.like.congr hypA, key.1, key.2.1, key.2.2,
        by rw [sA.hooks, sB.hooks]; exact r.hooks⟩
    · obtain ⟨A', eA, a1, a2, a3, a4, a5, a6, a7, a8, a9, a10, a11, a12, a13, a14⟩ := lA.skip t
      obtain ⟨B', eB, b1, b2, b3, b4, b5, b6, b7, b8, b9, b10, b11, b12, b13, b14⟩ := lB.skip t'
      rw [eA, eB]
      have hypA : ∀ m, A'.opt.hyperOf m = A.opt.hyperOf m := fun m => by unfold Opt.hyperOf; rw [a2, a3]
      refine ⟨⟨by rw [a1, b1, r.conf.layers], by rw [a2, b2, r.conf.ptrGroup], by rw [a3, b3, r.conf.groups], by rw [a4, b4, r.conf.steps]⟩,
        r.like.congr hypA, by rw [a6, b6]; exact r.K, by rw [a8, b8]; exact r.mK, ?_, by rw [a5, b5]; exact r.hooks⟩
      rw [(a14 _).1, (b14 _).1, if_pos ⟨m, hm, rfl⟩, if_pos ⟨m, hm', rfl⟩]

/-- **C47 (`K`).** In KFAC-like mode `K` (with momentum and statistics) of a layer does not depend on output gradients, gradients, gradient
scales, parameters, `C`, or other layers' inputs: two training histories that differ only in those give the same `K`. -/
theorem C47_K_independent {cl : String → Cls × Cls} {m : Layer} {A B : World α} {as bs : List (Op α)} (lA : A.Live cl) (lB : B.Live cl)
    (fA : FitsRun A as) (fB : FitsRun B bs) (hm : m ∈ A.opt.layers) (r : KSide m A B) (ho : Along2 (KOps m) A B as bs) :
    (run as A).opt.Ks m.name = (run bs B).opt.Ks m.name ∧ (run as A).opt.mKs m.name = (run bs B).opt.mKs m.name ∧
      (run as A).opt.HKs m.name = (run bs B).opt.HKs m.name := by
  have := along2_run (P := KOps m) (R := fun A B => m ∈ A.opt.layers ∧ KSide m A B) (cl := cl)
    (fun A B a b lA lB fA fB r ho => ⟨by rw [(exec_static a A).1]; exact r.1, r.2.exec lA lB fA fB r.1 ho⟩) lA lB fA fB ⟨hm, r⟩ ho
  exact ⟨this.2.K, this.2.mK, this.2.HK⟩

/-- Two states in which everything `C` of layer `m` depends on agrees: configuration, step counter, gradient scales, `C`, its momentum
and statistics, and for which layers inputs are waiting. Nothing is said about `K`, its momentum and statistics, inputs,
gradients, parameters, and other layers' factors. -/
structure CSide (m : Layer) (A B : World α) : Prop where
  conf : SameConf A B
  like : KfacLike m A
  scales : A.opt.scales = B.opt.scales
  C : A.opt.Cs m.name = B.opt.Cs m.name
  mC : A.opt.mCs m.name = B.opt.mCs m.name
  HC : A.opt.HCs m.name = B.opt.HCs m.name
  hooks : List.Forall₂ (fun a b => a.1 = b.1) A.hooks B.hooks

/-- Operations that differ at most in what `C` of layer `m` must not depend on: inputs, gradients, parameters, other layers' output
gradients. -/
def COps (m : Layer) (A _B : World α) : Op α → Op α → Prop
  | .forward i _ ge, .forward i' _ ge' => i = i' ∧ ge = ge'
  | .backward k g, .backward k' g' => k = k' ∧ (∀ x, A.hooks[k]? = some (m, x) → g = g')
  | .setGrad _ _, .setGrad _ _ => True
  | .setParam _ _, .setParam _ _ => True
  | .setHyper i h, .setHyper i' h' => i = i' ∧ h = h' ∧ (A.opt.ptrGroup m.weight.ptr = some i → h.kfacLike = true)
  | .setScale s, .setScale s' => s = s'
  | .step _ t f, .step _ t' f' => t = t' ∧ f = f'
  | _, _ => False

theorem CSide.exec {cl : String → Cls × Cls} {m : Layer} {A B : World α} {a b : Op α} (lA : A.Live cl) (lB : B.Live cl) (fA : FitsOp A a)
    (fB : FitsOp B b) (hm : m ∈ A.opt.layers) (r : CSide m A B) (ho : COps m A B a b) : CSide m (_root_.exec a A).2 (_root_.exec b B).2 := by
  have hm' : m ∈ B.opt.layers := by rw [← r.conf.layers]; exact hm
  cases a <;> cases b <;> try exact ho.elim
  case forward.forward i x ge i' x' ge' =>
    obtain ⟨rfl, rfl⟩ := ho
    rw [exec_forward_state, exec_forward_state]
    refine ⟨⟨r.conf.1, r.conf.2, r.conf.3, r.conf.4⟩, r.like, r.scales, r.C, r.mC, r.HC, ?_⟩
    refine List.rel_append r.hooks ?_
    unfold newHooks
    rw [← r.conf.layers]
    rcases hi : A.opt.layers[i]? with _ | m'
    · exact .nil
    · by_cases hc : ge = true ∧ World.Updates A.opt m'
      · simp only
        rw [if_pos hc, if_pos ⟨hc.1, (r.conf.updates m').1 hc.2⟩]
        exact .cons rfl .nil
      · simp only
        rw [if_neg hc, if_neg (fun h => hc ⟨h.1, (r.conf.updates m').2 h.2⟩)]
        exact .nil
  case backward.backward k g k' g' =>
    obtain ⟨rfl, hg⟩ := ho
    rcases forall₂_getElem? r.hooks k with ⟨e1, e2⟩ | ⟨x, y, e1, e2, e3⟩
    · rw [exec_backward_none e1, exec_backward_none e2]; exact r
    · obtain ⟨mA, hA, pA, hhA, hpA, _, bA⟩ := lA.back e1 fA
      obtain ⟨mB, hB, pB, hhB, hpB, _, bB⟩ := lB.back e2 fB
      have frA := bA.frame
      have frB := bB.frame
      refine ⟨(frA.conf.trans r.conf).trans frB.conf.symm, r.like.congr frA.hyperOf, by rw [frA.scales, frB.scales, r.scales], ?_, ?_, ?_, ?_⟩
      · rw [frA.Cs _ id, frB.Cs _ id]; exact r.C
      · rw [frA.mCs _ id, frB.mCs _ id]; exact r.mC
      · by_cases e : x.1 = m
        · have e' : y.1 = m := by rw [← e3]; exact e
          have eg : g = g' := hg x.2 (by rw [e1, ← e])
          rw [e] at bA hhA
          rw [e'] at bB hhB
          rw [r.conf.hyperOf, hhB] at hhA
          cases hhA
          rw [r.scales, r.conf.steps, hpB] at hpA
          cases hpA
          refine optWF_ext bA.wf.HC bB.wf.HC (by simp [bA.someC, bB.someC]) ?_
          rw [bA.HC, bB.HC, r.HC, r.C, eg]
        · have n1 : m.name ≠ x.1.name := fun h => e (lA.sound.untied.name_inj mA hm h.symm)
          have n2 : m.name ≠ y.1.name := by rw [← e3]; exact n1
          rw [frA.HCs _ n1, frB.HCs _ n2]; exact r.HC
      · rw [frA.hooks, frB.hooks]; exact r.hooks
  case setGrad.setGrad => exact ⟨⟨r.conf.1, r.conf.2, r.conf.3, r.conf.4⟩, r.like, r.scales, r.C, r.mC, r.HC, r.hooks⟩
  case setParam.setParam => exact ⟨⟨r.conf.1, r.conf.2, r.conf.3, r.conf.4⟩, r.like, r.scales, r.C, r.mC, r.HC, r.hooks⟩
  case setHyper.setHyper i h i' h' =>
    obtain ⟨rfl, rfl, hk⟩ := ho
    rw [exec_setHyper, exec_setHyper]
    refine ⟨⟨r.conf.1, r.conf.2, ?_, r.conf.4⟩, ?_, r.scales, r.C, r.mC, r.HC, r.hooks⟩
    · show A.opt.groups.modify i _ = B.opt.groups.modify i _
      rw [r.conf.groups]
    · intro hy hh
      obtain ⟨h0, e0, _⟩ := lA.sound.hyper m hm
      rw [hyperOf_assign, e0] at hh
      cases hh
      beta_reduce
      by_cases hp : A.opt.ptrGroup m.weight.ptr = some i
      · rw [if_pos hp]; exact hk hp
      · rw [if_neg hp]; exact r.like h0 e0
  case setScale.setScale s s' =>
    obtain rfl : s = s' := ho
    rw [_root_.exec, World.setScale_state, World.setScale_state]
    refine ⟨⟨r.conf.1, r.conf.2, r.conf.3, r.conf.4⟩, r.like, ?_, r.C, r.mC, r.HC, r.hooks⟩
    show Dict.set A.opt.scales A.opt.steps s = Dict.set B.opt.scales B.opt.steps s
    rw [r.scales, r.conf.steps]
  case step.step c t f c' t' f' =>
    obtain ⟨rfl, rfl⟩ := ho
    obtain rfl := fA.1
    obtain rfl := fB.1
    have ec : A.curScale t = B.curScale t := by unfold World.curScale; rw [r.scales, r.conf.steps]
    have eu : A.unscale t = B.unscale t := by unfold World.unscale; rw [r.scales, r.conf.steps, ec]
    cases f
    · obtain ⟨A', eA, sA, _⟩ := lA.step fA
      obtain ⟨B', eB, sB, _⟩ := lB.step fB
      rw [eA, eB]
      obtain ⟨h, hh, hT⟩ := lA.sound.hyper m hm
      have hhB : B.opt.hyperOf m = .ok h := by rw [← r.conf.hyperOf]; exact hh
      have LA := sA.layer m hm h hh
      have LB := sB.layer m hm' h hhB
      have hl := r.like h hh
      have hypA : ∀ m, A'.opt.hyperOf m = A.opt.hyperOf m := fun m => by unfold Opt.hyperOf; rw [sA.ptrGroup, sA.groups]
      have key : A'.opt.Cs m.name = B'.opt.Cs m.name ∧ A'.opt.mCs m.name = B'.opt.mCs m.name ∧ A'.opt.HCs m.name = B'.opt.HCs m.name := by
        by_cases h0 : A.opt.steps % h.T = 0
        · have uA := LA.upd h0
          have uB := LB.upd (by rw [← r.conf.steps]; exact h0)
          obtain ⟨k1, k2⟩ := uA.two_C uB r.C r.mC r.conf.steps
            (by rw [dirC, dirC, if_pos hl, if_pos hl, if_pos hl, if_pos hl, r.C, r.HC, eu])
          exact ⟨k1, k2, by rw [uA.HC, uB.HC]⟩
        · have nA := LA.noupd h0
          have nB := LB.noupd (by rw [← r.conf.steps]; exact h0)
          rw [nA.Cs, nB.Cs, nA.mCs, nB.mCs, nA.HCs, nB.HCs]
          exact ⟨r.C, r.mC, r.HC⟩
      refine ⟨⟨by rw [sA.layers, sB.layers, r.conf.layers], by rw [sA.ptrGroup, sB.ptrGroup, r.conf.ptrGroup],
        by rw [sA.groups, sB.groups, r.conf.groups], by rw [sA.steps, sB.steps, r.conf.steps]⟩, r.like.congr hypA, ?_, key.1, key.2.1, key.2.2,
        by rw [sA.hooks, sB.hooks]; exact r.hooks⟩
      funext n; rw [sA.scales, sB.scales, r.scales, r.conf.steps, ec]
    · obtain ⟨A', eA, a1, a2, a3, a4, a5, a6, a7, a8, a9, a10, a11, a12, a13, a14⟩ := lA.skip t
      obtain ⟨B', eB, b1, b2, b3, b4, b5, b6, b7, b8, b9, b10, b11, b12, b13, b14⟩ := lB.skip t
      rw [eA, eB]
      have hypA : ∀ m, A'.opt.hyperOf m = A.opt.hyperOf m := fun m => by unfold Opt.hyperOf; rw [a2, a3]
      refine ⟨⟨by rw [a1, b1, r.conf.layers], by rw [a2, b2, r.conf.ptrGroup], by rw [a3, b3, r.conf.groups], by rw [a4, b4, r.conf.steps]⟩,
        r.like.congr hypA, ?_, by rw [a7, b7]; exact r.C, by rw [a9, b9]; exact r.mC, ?_, by rw [a5, b5]; exact r.hooks⟩
      · funext n; rw [a13, b13, r.scales, r.conf.steps, ec]
      · rw [(a14 _).2, (b14 _).2, if_pos ⟨m, hm, rfl⟩, if_pos ⟨m, hm', rfl⟩]

/-- **C47 (`C`).** In KFAC-like mode `C` (with momentum and statistics) of a layer does not depend on inputs, gradients, parameters, `K`, or
other layers' output gradients: two training histories that differ only in those give the same `C`. -/
theorem C47_C_independent {cl : String → Cls × Cls} {m : Layer} {A B : World α} {as bs : List (Op α)} (lA : A.Live cl) (lB : B.Live cl)
    (fA : FitsRun A as) (fB : FitsRun B bs) (hm : m ∈ A.opt.layers) (r : CSide m A B) (ho : Along2 (COps m) A B as bs) :
    (run as A).opt.Cs m.name = (run bs B).opt.Cs m.name ∧ (run as A).opt.mCs m.name = (run bs B).opt.mCs m.name ∧
      (run as A).opt.HCs m.name = (run bs B).opt.HCs m.name := by
  have := along2_run (P := COps m) (R := fun A B => m ∈ A.opt.layers ∧ CSide m A B) (cl := cl)
    (fun A B a b lA lB fA fB r ho => ⟨by rw [(exec_static a A).1]; exact r.1, r.2.exec lA lB fA fB r.1 ho⟩) lA lB fA fB ⟨hm, r⟩ ho
  exact ⟨this.2.C, this.2.mC, this.2.HC⟩

/-- a backward pass keeps layers ready for a step -/
theorem World.Live.back_ready {cl : String → Cls × Cls} {w : World α} (h : w.Live cl) {k : ℕ} {g : ND α} (hb : FitsOp w (.backward k g))
    {attr : Option α} (hs : FitsOp w (.step false attr false)) : FitsOp (_root_.exec (.backward k g) w).2 (.step false attr false) := by
  rcases hk : w.hooks[k]? with _ | mx
  · rw [exec_backward_none hk]; exact hs
  · obtain ⟨hl, hy, p, hh, hp, hp0, sp⟩ := h.back hk hb
    have f := sp.frame
    refine ⟨rfl, hs.2.1, fun _ m hm => ?_⟩
    rw [f.layers] at hm
    have R := hs.2.2 rfl m hm
    refine ⟨R.grads.congr f.grad, fun h' e h0 => ?_⟩
    rw [f.hyperOf] at e
    rw [f.steps] at h0
    obtain ⟨a, b, c⟩ := R.stats h' e h0
    rw [f.mKs _ id, f.mCs _ id]
    by_cases e : m.name = mx.1.name
    · rw [e]; exact ⟨sp.someK, sp.someC, by rw [← e]; exact c⟩
    · rw [f.HKs _ e, f.HCs _ e]; exact ⟨a, b, c⟩

/-- the sample's training in KFAC-like mode: all layers ready for an update -/
theorem Sample.glike : ∃ (cl : String → Cls × Cls) (w : World α), w.Live cl ∧ w.opt.layers = [Sample.la, Sample.lb] ∧
    (∀ m ∈ w.opt.layers, KfacLike m w) ∧ FitsOp w (.step false none false) ∧ w.opt.steps = 0 ∧
    w.hooks = [(Sample.la, Sample.grow 1), (Sample.lb, Sample.grow 2)] := by
  obtain ⟨cl, w, a, b, c, d, e, f, g, h, i, j⟩ := Sample.gready2 (α := α)
  have mem : Sample.la ∈ w.opt.layers := by rw [c]; simp
  have mem' : Sample.lb ∈ w.opt.layers := by rw [c]; simp
  let hk : Hyper α := { defaults Sample.gargs with kfacLike := true, alpha1 := 0 }
  have hyp : ∀ k, ∀ v : World α, v.Live cl → v.opt.layers = w.opt.layers → v.opt.steps = 0 → FitsOp v (.step false none false) →
      (∀ m ∈ v.opt.layers, ∀ h, v.opt.hyperOf m = .ok h → h.T = 2 ∧ h.kfacApprox = "expand") →
      (v.assign k hk).Live cl ∧ FitsOp (v.assign k hk) (.step false none false) := by
    intro k v hv hl hs hr hT
    constructor
    · obtain ⟨v', e, lv⟩ := hv.exec (op := .setHyper k hk) ⟨⟨Or.inl rfl, Or.inr (Or.inl rfl), show (2 : ℕ) ≠ 0 by decide⟩, fun m hm _ =>
        ⟨fun h' e => (hT m hm h' e).2.symm, fun h0 => absurd rfl h0⟩⟩
      rw [exec_setHyper] at e; cases e; exact lv
    · refine ⟨rfl, by simp, fun _ m hm => ?_⟩
      have R := hr.2.2 rfl m hm
      refine ⟨⟨R.grads.weight, R.grads.bias⟩, fun h e h0 => ?_⟩
      obtain ⟨h', e', _⟩ := hv.sound.hyper m hm
      obtain ⟨s1, s2, s3⟩ := R.stats h' e' (by rw [hs]; simp)
      refine ⟨s1, s2, fun ha => ?_⟩
      rw [hyperOf_assign, e'] at e
      cases e
      beta_reduce at ha
      by_cases hp : v.opt.ptrGroup m.weight.ptr = some k
      · rw [if_pos hp] at ha; exact absurd rfl ha
      · rw [if_neg hp] at ha; exact s3 ha
  obtain ⟨i1, g1, p1, q1, r1⟩ := hyperOf_ok (h _ mem)
  obtain ⟨i2, g2, p2, q2, r2⟩ := hyperOf_ok (h _ mem')
  obtain ⟨l1, f1⟩ := hyp i1 w a rfl g f (fun m hm h' e' => by rw [h m hm] at e'; cases e'; exact ⟨rfl, rfl⟩)
  have T1 : ∀ m ∈ w.opt.layers, ∀ h', (w.assign i1 hk).opt.hyperOf m = .ok h' → (h'.T = 2 ∧ h'.kfacApprox = "expand") ∧
      (w.opt.ptrGroup m.weight.ptr = some i1 → h'.kfacLike = true) := by
    intro m hm h' e'
    rw [hyperOf_assign, h m hm] at e'
    cases e'
    beta_reduce
    by_cases hp : w.opt.ptrGroup m.weight.ptr = some i1
    · rw [if_pos hp]; exact ⟨⟨rfl, rfl⟩, fun _ => rfl⟩
    · rw [if_neg hp]; exact ⟨⟨rfl, rfl⟩, fun h => absurd h hp⟩
  obtain ⟨l2, f2⟩ := hyp i2 (w.assign i1 hk) l1 rfl g f1 (fun m hm h' e' => (T1 m hm h' e').1)
  refine ⟨cl, (w.assign i1 hk).assign i2 hk, l2, c, ?_, f2, g, j⟩
  intro m hm h' e'
  obtain ⟨h0, e0, _⟩ := l1.sound.hyper m hm
  rw [hyperOf_assign, e0] at e'
  cases e'
  beta_reduce
  by_cases hp : (w.assign i1 hk).opt.ptrGroup m.weight.ptr = some i2
  · rw [if_pos hp]
  · rw [if_neg hp]
    refine (T1 m hm h0 e0).2 ?_
    have hm' : m ∈ w.opt.layers := hm
    rw [c] at hm'
    simp only [List.mem_cons, List.not_mem_nil, or_false] at hm'
    rcases hm' with rfl | rfl
    · exact p1
    · exact absurd p2 hp

-- two histories with different output gradients and gradient scales; `K` agrees by C47
example : ∃ (cl : String → Cls × Cls) (w : World ℝ), w.Live cl ∧ FitsRun w [.backward 0 (Sample.grow 1), .step false (some 4) false] ∧
    FitsRun w [.backward 0 ⟨[1, 1], fun _ => 7⟩, .step false none false] ∧
    Sample.la ∈ w.opt.layers ∧ KSide Sample.la w w ∧ Along2 (KOps Sample.la) w w [.backward 0 (Sample.grow 1), .step false (some 4) false]
      [.backward 0 ⟨[1, 1], fun _ => 7⟩, .step false none false] := by
  obtain ⟨cl, w, a, b, c, d, e, f⟩ := Sample.glike (α := ℝ)
  have fb : ∀ g : ND ℝ, g.shape = [1, 1] → FitsOp w (.backward 0 g) := by
    intro g hg mx hmx
    rw [f] at hmx; cases hmx
    exact ⟨1, [], hg, by decide⟩
  have d4 : FitsOp w (.step false (some 4) false) := ⟨rfl, fun s hs => by cases hs; norm_num, d.2.2⟩
  have h1 := a.back_ready (fb (Sample.grow 1) rfl) d4
  have h2 := a.back_ready (fb ⟨[1, 1], fun _ => 7⟩ rfl) d
  refine ⟨cl, w, a, ⟨fb _ rfl, h1, trivial⟩, ⟨fb _ rfl, h2, trivial⟩, by rw [b]; simp, ⟨⟨rfl, rfl, rfl, rfl⟩, c _ (by rw [b]; simp), rfl, rfl, rfl, ?_⟩,
    ⟨rfl, rfl, trivial⟩⟩
  exact List.forall₂_same.2 fun x _ => ⟨rfl, fun _ => rfl⟩

-- two histories with different inputs and gradients; `C` agrees by C47
example : ∃ (cl : String → Cls × Cls) (w : World ℝ), w.Live cl ∧ FitsRun w [.forward 0 (Sample.grow 1) true, .backward 1 (Sample.grow 1)] ∧
    FitsRun w [.forward 0 ⟨[1, 1], fun _ => 7⟩ true, .backward 1 ⟨[1, 1], fun _ => 7⟩] ∧
    Sample.la ∈ w.opt.layers ∧ CSide Sample.la w w ∧ Along2 (COps Sample.la) w w [.forward 0 (Sample.grow 1) true, .backward 1 (Sample.grow 1)]
      [.forward 0 ⟨[1, 1], fun _ => 7⟩ true, .backward 1 ⟨[1, 1], fun _ => 7⟩] := by
  obtain ⟨cl, w, a, b, c, d, e, f⟩ := Sample.glike (α := ℝ)
  have ff : ∀ g : ND ℝ, g.shape = [1, 1] → FitsOp w (.forward 0 g true) := by
    intro g hg m hm _ _
    rw [b] at hm; cases hm
    exact ⟨1, [], hg, by decide⟩
  have fb : ∀ x g : ND ℝ, g.shape = [1, 1] → FitsOp (exec (.forward 0 x true) w).2 (.backward 1 g) := by
    intro x g hg mx hmx
    rw [exec_forward_state, f] at hmx; cases hmx
    exact ⟨1, [], hg, by decide⟩
  refine ⟨cl, w, a, ⟨ff _ rfl, fb _ _ rfl, trivial⟩, ⟨ff _ rfl, fb _ _ rfl, trivial⟩, by rw [b]; simp, ⟨⟨rfl, rfl, rfl, rfl⟩, c _ (by rw [b]; simp), rfl, rfl, rfl, rfl, ?_⟩,
    ⟨⟨rfl, rfl⟩, ⟨rfl, ?_⟩, trivial⟩⟩
  · exact List.forall₂_same.2 fun x _ => rfl
  · intro x hx
    rw [exec_forward_state, f] at hx
    replace hx : some (Sample.lb, Sample.grow 2) = some (Sample.la, x) := hx
    exact absurd (congrArg (fun p => p.1.name) (Option.some.inj hx)) (show "b" ≠ "a" by decide)
