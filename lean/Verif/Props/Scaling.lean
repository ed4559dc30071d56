import Verif.Props.Decouple
import Verif.Proofs.Opt.Scale
import Verif.Proofs.Opt.InitLive

/-! C32: invariance under gradient scaling. -/

set_option linter.unusedSectionVars false
open Construct Matrix
variable {α : Type} [Field α] [LinearOrder α] [IsStrictOrderedRing α] [LawfulSqrt α]

/-- Two runs that differ in the scaling of losses (`sA t` and `sB t` in step `t`): configuration, step counter, factors, factor momenta,
parameters, momentum buffers, hooks and the statistics `H_K` agree, and the unscaled statistics `H_C` (multiplied by the previous
scale over the current scale squared) agree. -/
structure Scaled (sA sB : ℕ → α) (A B : World α) : Prop where
  conf : SameConf A B
  lay : ∀ m ∈ A.opt.layers, LayEq m A B
  data : A.data = B.data
  mom : A.opt.mom = B.opt.mom
  hooks : A.hooks = B.hooks
  HK : ∀ m ∈ A.opt.layers, A.opt.HKs m.name = B.opt.HKs m.name
  HC0 : ∀ m ∈ A.opt.layers, A.opt.HCs m.name = none ↔ B.opt.HCs m.name = none
  on : ∀ m ∈ A.opt.layers, A.opt.HCs m.name ≠ none → World.Updates A.opt m
  HC : ∀ m ∈ A.opt.layers, ∀ pA pB, A.opt.scales ((A.opt.steps : ℤ) - 1) = some pA → B.opt.scales ((B.opt.steps : ℤ) - 1) = some pB →
    (pA / sA A.opt.steps ^ 2) • denO (A.opt.HCs m.name) m.nC = (pB / sB A.opt.steps ^ 2) • denO (B.opt.HCs m.name) m.nC

/-- Operations of two runs that differ in the scaling of losses: output gradients in step `t` are those of a common loss multiplied by
`sA t` and `sB t`; when a step is taken, the scale reported to the optimizer (`set_current_grad_scale` or the attribute `grad_scale`) is
`sA t` and `sB t`, and so are the gradients. Other gradients and reported scales are arbitrary. Backward passes
of a layer happen in steps that update its factors (in other steps no hook is registered, but one of an earlier step could be run late),
and `T` is not changed while statistics are waiting. -/
def ScaleOps (sA sB : ℕ → α) (A B : World α) : Op α → Op α → Prop
  | .forward i x ge, .forward i' x' ge' => i = i' ∧ x = x' ∧ ge = ge'
  | .backward k g, .backward k' g' => k = k' ∧ (∃ g0 : ND α, g = g0.smul (sA A.opt.steps) ∧ g' = g0.smul (sB A.opt.steps)) ∧
      ∀ mx, A.hooks[k]? = some mx → World.Updates A.opt mx.1
  | .setGrad _ _, .setGrad _ _ => True
  | .setParam p M, .setParam p' M' => p = p' ∧ M = M'
  | .setHyper i h, .setHyper i' h' => i = i' ∧ h = h' ∧ ∀ m ∈ A.opt.layers, A.opt.ptrGroup m.weight.ptr = some i →
      A.opt.HCs m.name ≠ none → A.opt.steps % h.T = 0
  | .setScale _, .setScale _ => True
  | .step _ a f, .step _ b f' => f = f' ∧ (f = false → A.curScale a = sA A.opt.steps ∧ B.curScale b = sB A.opt.steps ∧
      ∀ m ∈ A.opt.layers, ∀ p, World.Owns m p →
        ∃ G : Mat α, A.grad p = some (G.smul (sA A.opt.steps)) ∧ B.grad p = some (G.smul (sB A.opt.steps)))
  | _, _ => False

theorem Scaled.exec {cl : String → Cls × Cls} {sA sB : ℕ → α} (pA : ∀ t, 0 < sA t) (pB : ∀ t, 0 < sB t) {A B : World α} {a b : Op α}
    (lA : A.Live cl) (lB : B.Live cl) (fA : FitsOp A a) (fB : FitsOp B b) (r : Scaled sA sB A B) (ho : ScaleOps sA sB A B a b) :
    Scaled sA sB (_root_.exec a A).2 (_root_.exec b B).2 := by
  have hlay := r.conf.layers
  cases a <;> cases b <;> try exact ho.elim
  case forward.forward i x ge i' x' ge' =>
    obtain ⟨rfl, rfl, rfl⟩ := ho
    rw [exec_forward_state, exec_forward_state]
    refine ⟨⟨r.conf.1, r.conf.2, r.conf.3, r.conf.4⟩, fun m hm => ⟨(r.lay m hm).1, (r.lay m hm).2, (r.lay m hm).3, (r.lay m hm).4, (r.lay m hm).5,
      (r.lay m hm).6⟩, r.data, r.mom, ?_, r.HK, r.HC0, r.on, r.HC⟩
    show A.hooks ++ _ = B.hooks ++ _
    rw [r.hooks]
    congr 1
    unfold newHooks
    rw [← r.conf.layers]
    rcases hi : A.opt.layers[i]? with _ | m'
    · rfl
    · by_cases hc : ge = true ∧ World.Updates A.opt m'
      · simp only
        rw [if_pos hc, if_pos ⟨hc.1, (r.conf.updates m').1 hc.2⟩]
      · simp only
        rw [if_neg hc, if_neg (fun h => hc ⟨h.1, (r.conf.updates m').2 h.2⟩)]
  case backward.backward k g k' g' =>
    obtain ⟨rfl, ⟨g0, rfl, rfl⟩, hu⟩ := ho
    rcases e1 : A.hooks[k]? with _ | x
    · rw [exec_backward_none e1, exec_backward_none (by rw [← r.hooks]; exact e1)]; exact r
    have e2 : B.hooks[k]? = some x := by rw [← r.hooks]; exact e1
    have hup := hu x e1
    obtain ⟨mA, hA, qA, hhA, hqA, qA0, bA⟩ := lA.back e1 fA
    obtain ⟨mB, hB, qB, hhB, hqB, qB0, bB⟩ := lB.back e2 fB
    rw [r.conf.hyperOf, hhB] at hhA
    cases hhA
    have frA := bA.frame
    have frB := bB.frame
    generalize (_root_.exec (.backward k (g0.smul (sA A.opt.steps))) A).2 = A' at *
    generalize (_root_.exec (.backward k (g0.smul (sB A.opt.steps))) B).2 = B' at *
    have ec := (frA.conf.trans r.conf).trans frB.conf.symm
    refine ⟨ec, ?_, ?_, ?_, by rw [frA.hooks, frB.hooks, r.hooks], ?_, ?_, ?_, ?_⟩
    · intro m hm
      rw [frA.layers] at hm
      have L := r.lay m hm
      exact ⟨by rw [frA.Ks _ id, frB.Ks _ id, L.Ks], by rw [frA.Cs _ id, frB.Cs _ id, L.Cs], by rw [frA.mKs _ id, frB.mKs _ id, L.mKs],
        by rw [frA.mCs _ id, frB.mCs _ id, L.mCs], fun p hp => by rw [frA.data _ id, frB.data _ id, L.data p hp],
        fun p hp => by rw [frA.mom _ id, frB.mom _ id, L.mom p hp]⟩
    · funext p; rw [frA.data _ id, frB.data _ id, r.data]
    · funext p; rw [frA.mom _ id, frB.mom _ id, r.mom]
    · intro m hm
      rw [frA.layers] at hm
      by_cases e : m.name = x.1.name
      · obtain rfl := lA.sound.untied.name_inj hm mA e
        refine optWF_ext bA.wf.HK bB.wf.HK (by simp [bA.someK, bB.someK]) ?_
        rw [bA.HK, bB.HK, r.HK _ hm, (r.lay _ hm).Ks]
      · rw [frA.HKs _ e, frB.HKs _ e]; exact r.HK m hm
    · intro m hm
      rw [frA.layers] at hm
      by_cases e : m.name = x.1.name
      · rw [e]; simp [bA.someC, bB.someC]
      · rw [frA.HCs _ e, frB.HCs _ e]; exact r.HC0 m hm
    · intro m hm h0
      rw [frA.layers] at hm
      refine (frA.conf.updates m).2 ?_
      by_cases e : m.name = x.1.name
      · obtain rfl := lA.sound.untied.name_inj hm mA e
        exact hup
      · rw [frA.HCs _ e] at h0; exact r.on m hm h0
    · intro m hm zA zB hzA hzB
      rw [frA.layers] at hm
      rw [frA.scales, frA.steps, hqA] at hzA; cases hzA
      rw [frB.scales, frB.steps, hqB] at hzB; cases hzB
      rw [frA.steps]
      have old := r.HC m hm _ _ hqA hqB
      by_cases e : m.name = x.1.name
      · obtain rfl := lA.sound.untied.name_inj hm mA e
        have sup := (lA.sound.good _ hm).supC
        rw [bA.HC, bB.HC, smul_add, smul_add, old, (r.lay _ hm).Cs, gradMoment_smul, gradMoment_smul, Cls.sandwich_smul, Cls.sandwich_smul,
          proj_smul sup, proj_smul sup, smul_smul, smul_smul, smul_smul, smul_smul]
        have a0 := (pA A.opt.steps).ne'
        have b0 := (pB A.opt.steps).ne'
        have c0 := qA0.ne'
        have d0 := qB0.ne'
        congr 2
        field_simp
      · rw [frA.HCs _ e, frB.HCs _ e]; exact old
  case setGrad.setGrad =>
    exact ⟨⟨r.conf.1, r.conf.2, r.conf.3, r.conf.4⟩, fun m hm => ⟨(r.lay m hm).1, (r.lay m hm).2, (r.lay m hm).3, (r.lay m hm).4,
      (r.lay m hm).5, (r.lay m hm).6⟩, r.data, r.mom, r.hooks, r.HK, r.HC0, r.on, r.HC⟩
  case setParam.setParam p M p' M' =>
    obtain ⟨rfl, rfl⟩ := ho
    have ed : Function.update A.data p M = Function.update B.data p M := by rw [r.data]
    exact ⟨⟨r.conf.1, r.conf.2, r.conf.3, r.conf.4⟩, fun m hm => ⟨(r.lay m hm).1, (r.lay m hm).2, (r.lay m hm).3, (r.lay m hm).4,
      fun q _ => congrFun ed q, (r.lay m hm).6⟩, ed, r.mom, r.hooks, r.HK, r.HC0, r.on, r.HC⟩
  case setHyper.setHyper i h i' h' =>
    obtain ⟨rfl, rfl, hk⟩ := ho
    rw [exec_setHyper, exec_setHyper]
    refine ⟨⟨r.conf.1, r.conf.2, ?_, r.conf.4⟩, fun m hm => ⟨(r.lay m hm).1, (r.lay m hm).2, (r.lay m hm).3, (r.lay m hm).4,
      (r.lay m hm).5, (r.lay m hm).6⟩, r.data, r.mom, r.hooks, r.HK, r.HC0, ?_, r.HC⟩
    · show A.opt.groups.modify i _ = B.opt.groups.modify i _
      rw [r.conf.groups]
    · intro m hm h0
      obtain ⟨hy, e0, hT, hs⟩ := r.on m hm h0
      refine ⟨_, by rw [hyperOf_assign, e0]; rfl, ?_⟩
      beta_reduce
      by_cases hp : A.opt.ptrGroup m.weight.ptr = some i
      · rw [if_pos hp]; exact ⟨fA.1.period, hk m hm hp h0⟩
      · rw [if_neg hp]; exact ⟨hT, hs⟩
  case setScale.setScale s s' =>
    rw [_root_.exec, _root_.exec, World.setScale_state, World.setScale_state]
    refine ⟨⟨r.conf.1, r.conf.2, r.conf.3, r.conf.4⟩, fun m hm => ⟨(r.lay m hm).1, (r.lay m hm).2, (r.lay m hm).3, (r.lay m hm).4, (r.lay m hm).5,
      (r.lay m hm).6⟩, r.data, r.mom, r.hooks, r.HK, r.HC0, r.on, ?_⟩
    intro m hm zA zB hzA hzB
    replace hzA : Dict.set A.opt.scales A.opt.steps s ((A.opt.steps : ℤ) - 1) = some zA := hzA
    replace hzB : Dict.set B.opt.scales B.opt.steps s' ((B.opt.steps : ℤ) - 1) = some zB := hzB
    rw [Dict.set, Function.update_of_ne (by omega)] at hzA hzB
    exact r.HC m hm zA zB hzA hzB
  case step.step c t f c' t' f' =>
    obtain ⟨rfl, hg⟩ := ho
    obtain rfl := fA.1
    obtain rfl := fB.1
    cases f
    · obtain ⟨A', eA, sA', _⟩ := lA.step fA
      obtain ⟨B', eB, sB', _⟩ := lB.step fB
      obtain ⟨cA, cB, hg⟩ := hg rfl
      rw [eA, eB]
      obtain ⟨qA, hqA⟩ := lA.prev
      obtain ⟨qB, hqB⟩ := lB.prev
      have uA : A.unscale t = qA / sA A.opt.steps ^ 2 := by rw [World.unscale, hqA, cA]; rfl
      have uB : B.unscale t' = qB / sB A.opt.steps ^ 2 := by rw [World.unscale, hqB, cB]; rfl
      have uA0 : 0 < A.unscale t := by rw [uA]; have := lA.pos _ _ hqA; have := pA A.opt.steps; positivity
      have conf : SameConf A' B' := ⟨by rw [sA'.layers, sB'.layers, r.conf.layers], by rw [sA'.ptrGroup, sB'.ptrGroup, r.conf.ptrGroup],
        by rw [sA'.groups, sB'.groups, r.conf.groups], by rw [sA'.steps, sB'.steps, r.conf.steps]⟩
      have L : ∀ m ∈ A.opt.layers, LayEq m A' B' ∧ A'.opt.HKs m.name = B'.opt.HKs m.name ∧ A'.opt.HCs m.name = none ∧ B'.opt.HCs m.name = none := by
        intro m hm
        obtain ⟨h, hh, hT⟩ := lA.sound.hyper m hm
        have LA := sA'.layer m hm h hh
        have LB := sB'.layer m (hlay ▸ hm) h (by rw [← r.conf.hyperOf]; exact hh)
        refine ⟨LA.two (a := 1) (c := B.unscale t' / A.unscale t) LB (r.lay m hm) r.conf.steps (fun _ => ?_) ?_, ?_⟩
        · refine ⟨by rw [one_smul, r.HK m hm], ?_, fun _ => ⟨rfl, by field_simp⟩, fun _ => by field_simp⟩
          have := r.HC m hm qA qB hqA hqB
          rw [← uA, ← uB] at this
          rw [div_eq_inv_mul, mul_smul, ← this, smul_smul, inv_mul_cancel₀ uA0.ne', one_smul]
        · rw [cA, cB]
          exact gradM_scaled (pA _).ne' (pB _).ne' (hg m hm)
        · by_cases h0 : A.opt.steps % h.T = 0
          · have vA := LA.upd h0
            have vB := LB.upd (by rw [← r.conf.steps]; exact h0)
            exact ⟨by rw [vA.HK, vB.HK], vA.HC, vB.HC⟩
          · have vA := LA.noupd h0
            have vB := LB.noupd (by rw [← r.conf.steps]; exact h0)
            rw [vA.HKs, vB.HKs, vA.HCs, vB.HCs]
            have hn : A.opt.HCs m.name = none := by
              by_contra hc
              obtain ⟨h', e', _, hs⟩ := r.on m hm hc
              rw [hh] at e'; cases e'
              exact h0 hs
            exact ⟨r.HK m hm, hn, (r.HC0 m hm).1 hn⟩
      have P : ∀ p, A'.data p = B'.data p ∧ A'.opt.mom p = B'.opt.mom p := by
        intro p
        by_cases hp : ∃ m ∈ A.opt.layers, World.Owns m p
        · obtain ⟨m, hm, hp⟩ := hp
          exact ⟨(L m hm).1.data p hp, (L m hm).1.mom p hp⟩
        · have n1 : ∀ m ∈ A.opt.layers, ¬ World.Owns m p := fun m hm h => hp ⟨m, hm, h⟩
          obtain ⟨a1, a2⟩ := sA'.otherP p n1
          obtain ⟨b1, b2⟩ := sB'.otherP p (by rw [← hlay]; exact n1)
          rw [a1, a2, b1, b2, r.data, r.mom]; exact ⟨rfl, rfl⟩
      refine ⟨conf, ?_, funext fun p => (P p).1, funext fun p => (P p).2, by rw [sA'.hooks, sB'.hooks, r.hooks], ?_, ?_, ?_, ?_⟩ <;>
        rw [sA'.layers] <;> intro m hm
      · exact (L m hm).1
      · exact (L m hm).2.1
      · rw [(L m hm).2.2.1, (L m hm).2.2.2]
      · intro h0; exact absurd (L m hm).2.2.1 h0
      · intro _ _ _ _; rw [(L m hm).2.2.1, (L m hm).2.2.2]; simp [denO]
    · obtain ⟨A', eA, a1, a2, a3, a4, a5, a6, a7, a8, a9, a10, a11, a12, a13, a14⟩ := lA.skip t
      obtain ⟨B', eB, b1, b2, b3, b4, b5, b6, b7, b8, b9, b10, b11, b12, b13, b14⟩ := lB.skip t'
      rw [eA, eB]
      have nA : ∀ m ∈ A.opt.layers, A'.opt.HKs m.name = none ∧ A'.opt.HCs m.name = none := fun m hm => by
        rw [(a14 _).1, (a14 _).2, if_pos ⟨m, hm, rfl⟩, if_pos ⟨m, hm, rfl⟩]; exact ⟨rfl, rfl⟩
      have nB : ∀ m ∈ A.opt.layers, B'.opt.HKs m.name = none ∧ B'.opt.HCs m.name = none := fun m hm => by
        rw [(b14 _).1, (b14 _).2, if_pos ⟨m, hlay ▸ hm, rfl⟩, if_pos ⟨m, hlay ▸ hm, rfl⟩]; exact ⟨rfl, rfl⟩
      refine ⟨⟨by rw [a1, b1, r.conf.layers], by rw [a2, b2, r.conf.ptrGroup], by rw [a3, b3, r.conf.groups], by rw [a4, b4, r.conf.steps]⟩,
        ?_, by rw [a10, b10, r.data], by rw [a11, b11, r.mom], by rw [a5, b5, r.hooks], ?_, ?_, ?_, ?_⟩ <;> rw [a1] <;> intro m hm
      · have L := r.lay m hm
        exact ⟨by rw [a6, b6, L.Ks], by rw [a7, b7, L.Cs], by rw [a8, b8, L.mKs], by rw [a9, b9, L.mCs], fun p hp => by rw [a10, b10, L.data p hp],
          fun p hp => by rw [a11, b11, L.mom p hp]⟩
      · rw [(nA m hm).1, (nB m hm).1]
      · rw [(nA m hm).2, (nB m hm).2]
      · intro h0; exact absurd (nA m hm).2 h0
      · intro _ _ _ _; rw [(nA m hm).2, (nB m hm).2]; simp [denO]

/-- **C32.** Two runs from states that agree up to scaling, in which every loss of step `t` is multiplied by `sA t` and `sB t` and these scales
are reported to the optimizer, have the same factors, factor momenta, parameters and momentum buffers. -/
theorem C32_two_scalings {cl : String → Cls × Cls} {sA sB : ℕ → α} (pA : ∀ t, 0 < sA t) (pB : ∀ t, 0 < sB t) {A B : World α}
    {as bs : List (Op α)} (lA : A.Live cl) (lB : B.Live cl) (fA : FitsRun A as) (fB : FitsRun B bs) (r : Scaled sA sB A B)
    (ho : Along2 (ScaleOps sA sB) A B as bs) :
    (∀ m ∈ (run as A).opt.layers, LayEq m (run as A) (run bs B)) ∧ (run as A).data = (run bs B).data ∧
      (run as A).opt.mom = (run bs B).opt.mom ∧ (run as A).opt.steps = (run bs B).opt.steps := by
  have := along2_run (P := ScaleOps sA sB) (R := Scaled sA sB) (cl := cl)
    (fun A B a b lA lB fA fB r ho => r.exec pA pB lA lB fA fB ho) lA lB fA fB r ho
  exact ⟨this.lay, this.data, this.mom, this.conf.steps⟩

/-! The two runs start from construction, with different `init_grad_scale`. -/

section
variable {α : Type} [Field α] [LinearOrder α]

theorem initLayer_scales (S : ℤ → Option α) (o : Opt α) (m : Layer) :
    initLayer { o with scales := S } m = (initLayer o m).map fun o => { o with scales := S } := by
  unfold initLayer
  have e : Opt.hyperOf { o with scales := S } m = o.hyperOf m := rfl
  rw [e]
  rcases m.dims with _ | d
  · rfl
  rcases o.hyperOf m with _ | h
  · rfl
  simp only [Except.bind_ok']
  rcases lookup o.structs h.structures.1 with _ | cK
  · rfl
  rcases lookup o.structs h.structures.2 with _ | cC
  · rfl
  simp only [Except.bind_ok']
  rcases (SM.eye cK d.1 : Except PyErr (SM α)) with _ | K
  · rfl
  rcases (SM.eye cC d.2 : Except PyErr (SM α)) with _ | C
  · rfl
  simp only [Except.bind_ok']
  split
  · rcases (SM.zeros cK d.1 : Except PyErr (SM α)) with _ | K
    · rfl
    rcases (SM.zeros cC d.2 : Except PyErr (SM α)) with _ | C
    · rfl
    rfl
  · rfl

theorem initBuffers_scales (S : ℤ → Option α) : ∀ (ms : List Layer) (o : Opt α),
    initBuffers ms { o with scales := S } = (initBuffers ms o).map fun o => { o with scales := S }
  | [], _ => rfl
  | m :: ms, o => by
    rw [initBuffers, initBuffers, initLayer_scales]
    rcases initLayer o m with _ | o'
    · rfl
    · exact initBuffers_scales S ms o'

/-- `init_grad_scale` only affects the stored scale -/
theorem init_scale {structs : String → Option Cls} {model : Model} {p : ParamArg α} {a : Args α} {o : Opt α} {ws : List Warn}
    (h : Construct.init structs model p a = .ok (o, ws)) (s : α) :
    Construct.init structs model p { a with initGradScale := s } = .ok ({ o with scales := Dict.set (fun _ => none) (-1) s }, ws) := by
  unfold Construct.init at h ⊢
  have e1 : validate { a with initGradScale := s } = validate a := rfl
  have e2 : defaults { a with initGradScale := s } = defaults a := rfl
  rw [e1, e2]
  split at h
  · cases h
  rename_i hw
  rw [if_neg hw]
  rcases hv : validate a with _ | u
  · rw [hv] at h; cases h
  rw [hv] at h
  simp only [Except.bind_ok'] at h ⊢
  rcases ht : torchInit (defaults a) (groupArgs model.layers a.warnUnsupported p).1 with _ | gs
  · rw [ht] at h; cases h
  rw [ht] at h
  simp only [Except.bind_ok'] at h ⊢
  rcases hc : checkGroups 0 gs with _ | cg
  · rw [hc] at h; cases h
  rw [hc] at h
  simp only [Except.bind_ok'] at h ⊢
  rcases hl : checkLayers model.layers cg.1 with _ | u
  · rw [hl] at h; cases h
  rw [hl] at h
  simp only [Except.bind_ok'] at h ⊢
  have e3 : blank structs model.layers cg.1 s =
    { blank structs model.layers cg.1 a.initGradScale with scales := Dict.set (fun _ => none) (-1) s } := rfl
  rw [e3, initBuffers_scales]
  rcases hb : initBuffers (hooked model.layers cg.1) (blank structs model.layers cg.1 a.initGradScale) with _ | o'
  · rw [hb] at h; cases h
  rw [hb] at h
  simp only [Except.bind_ok', Except.pure_ok] at h
  cases h
  rfl
end

/-- **C32 (from construction).** Train a model twice: constructed with the same arguments except for `init_grad_scale`, once with plain
losses (`sB = 1`, or any other scaling), once with the losses of step `t` multiplied by `sA t`, reported to the optimizer.
After any such history factors, factor momenta, parameters and momentum buffers agree. -/
theorem C32_scale_invariance {structs : String → Option Cls} {model : Model} {p : ParamArg α} {a : Args α} {o : Opt α} {ws : List Warn}
    (hn : (model.layers.map (·.name)).Nodup) (hi : Construct.init structs model p a = .ok (o, ws)) {data : ℕ → Mat α}
    (ht : Trainable o data) (ha : 0 < a.initGradScale) {s0 : α} (hs : 0 < s0) {sA sB : ℕ → α} (pA : ∀ t, 0 < sA t) (pB : ∀ t, 0 < sB t) :
    ∃ o', Construct.init structs model p { a with initGradScale := s0 } = .ok (o', ws) ∧
      ∀ (grad grad' : ℕ → Option (Mat α)) (as bs : List (Op α)), FitsRun ⟨o', data, grad', []⟩ as → FitsRun ⟨o, data, grad, []⟩ bs →
        Along2 (ScaleOps sA sB) ⟨o', data, grad', []⟩ ⟨o, data, grad, []⟩ as bs →
        (∀ m ∈ o.layers, LayEq m (run as ⟨o', data, grad', []⟩) (run bs ⟨o, data, grad, []⟩)) ∧
        (run as ⟨o', data, grad', []⟩).data = (run bs ⟨o, data, grad, []⟩).data ∧
        (run as ⟨o', data, grad', []⟩).opt.mom = (run bs ⟨o, data, grad, []⟩).opt.mom := by
  have I := init_ok hn hi
  refine ⟨_, init_scale hi s0, fun grad grad' as bs fA fB ho => ?_⟩
  obtain ⟨cl, _, lB⟩ := I.live (grad := grad) ht ha
  let A : World α := ⟨{ o with scales := Dict.set (fun _ => none) (-1) s0 }, data, grad', []⟩
  have lA : A.Live cl := by
    refine ⟨lB.sound.congr rfl (fun _ => rfl) (fun m hm => (lB.sound.lay m hm).congr ⟨rfl, rfl, rfl, rfl, rfl, rfl⟩)
      (fun m' hm' => (lB.sound.shape m' hm').congr (fun _ _ => rfl) fun _ _ => rfl), lB.valid, lB.hooks, ⟨s0, ?_⟩, ?_, lB.mom⟩
    · show Dict.set (fun _ => none) (-1) s0 ((o.steps : ℤ) - 1) = _
      rw [I.steps]; simp [Dict.set]
    · intro t s hts
      replace hts : Dict.set (fun _ => none) (-1) s0 t = some s := hts
      rw [Dict.set, Function.update_apply] at hts
      split at hts
      · cases hts; exact hs
      · cases hts
  have hK : ∀ n, o.HKs n = none := fun n => by rw [I.HKs]
  have hC : ∀ n, o.HCs n = none := fun n => by rw [I.HCs]
  have r : Scaled sA sB A ⟨o, data, grad, []⟩ := by
    refine ⟨⟨rfl, rfl, rfl, rfl⟩, fun m _ => ⟨rfl, rfl, rfl, rfl, fun _ _ => rfl, fun _ _ => rfl⟩, rfl, rfl, rfl, fun _ _ => rfl, fun _ _ => Iff.rfl,
      fun m _ h => absurd (hC _) h, fun m _ _ _ _ _ => ?_⟩
    show _ • denO (o.HCs m.name) _ = _ • denO (o.HCs m.name) _
    rw [hC]; simp [denO]
  obtain ⟨c1, c2, c3, _⟩ := C32_two_scalings pA pB lA lB fA fB r ho
  refine ⟨fun m hm => c1 m ?_, c2, c3⟩
  have el : (run as A).opt.layers = A.opt.layers := (run_inv (P := fun w => w.opt.layers = A.opt.layers)
    (fun op w h => by rw [(exec_static op w).1]; exact h) as A rfl)
  rw [el]; exact hm

namespace Sample

/-- a pass through both layers and a step -/
def wpass (x0 x1 g0 g1 : ND α) (attr : Option α) : List (Op α) :=
  [.forward 0 x0 true, .forward 1 x1 true, .backward 1 g1, .backward 0 g0, .step false attr false]

/-- the states of `Sample.wpass` before the step -/
theorem pass_states {cl : String → Cls × Cls} {w : World α} (hw : w.Live cl) (hl : w.opt.layers = [la, lb])
    (hu : ∀ m ∈ w.opt.layers, ∃ h, w.opt.hyperOf m = .ok h ∧ w.opt.steps % h.T = 0) (hk : w.hooks = [])
    {x0 x1 g0 g1 : ND α} (s0 : x0.shape = [1, 1]) (s1 : x1.shape = [1, 2]) (t0 : g0.shape = [1, 1]) (t1 : g1.shape = [1, 1])
    (hg : ∀ m ∈ w.opt.layers, LayerGrads w m) {attr : Option α} (ha : ∀ s, attr = some s → 0 < s) :
    ∃ v1 v2 v3 v4, exec (.forward 0 x0 true) w = (.ok (), v1) ∧ exec (.forward 1 x1 true) v1 = (.ok (), v2) ∧
      exec (.backward 1 g1) v2 = (.ok (), v3) ∧ exec (.backward 0 g0) v3 = (.ok (), v4) ∧
      v1 = { w with hooks := [(la, x0)] } ∧ v2 = { w with hooks := [(la, x0), (lb, x1)] } ∧
      Frame World.none' (fun _ => True) World.none' v2 v3 ∧ Frame World.none' (fun _ => True) World.none' v2 v4 ∧
      FitsRun w (wpass x0 x1 g0 g1 attr) := by
  have ma : la ∈ w.opt.layers := by rw [hl]; simp
  have mb : lb ∈ w.opt.layers := by rw [hl]; simp
  have e0 : w.opt.layers[0]? = some la := by rw [hl]; rfl
  have e1 : w.opt.layers[1]? = some lb := by rw [hl]; rfl
  obtain ⟨ha', hha, hsa⟩ := hu la ma
  obtain ⟨hb', hhb, hsb⟩ := hu lb mb
  let v1 : World α := { w with hooks := [(la, x0)] }
  let v2 : World α := { w with hooks := [(la, x0), (lb, x1)] }
  have x1' : exec (.forward 0 x0 true) w = (.ok (), v1) := by
    rw [forward_on _ e0 hha (hw.valid _ ma _ hha).period hsa, hk]; rfl
  have x2' : exec (.forward 1 x1 true) v1 = (.ok (), v2) := by
    rw [forward_on (w := v1) _ e1 hhb (hw.valid _ mb _ hhb).period hsb]; rfl
  have f1 : FitsOp w (.forward 0 x0 true) := by
    intro m hm hy _
    rw [e0] at hm; cases hm
    exact ⟨1, [], s0, by decide⟩
  have f2 : FitsOp v1 (.forward 1 x1 true) := by
    intro m hm hy _
    replace hm : w.opt.layers[1]? = some m := hm
    rw [e1] at hm; cases hm
    exact ⟨1, [], s1, by decide⟩
  obtain ⟨_, y1, l1⟩ := hw.exec f1
  rw [x1'] at y1; cases y1
  obtain ⟨_, y2, l2⟩ := l1.exec f2
  rw [x2'] at y2; cases y2
  have f3 : FitsOp v2 (.backward 1 g1) := by
    intro mx hmx; cases hmx; exact ⟨1, [], t1, by decide⟩
  obtain ⟨v3, y3, l3⟩ := l2.exec f3
  obtain ⟨_, _, _, _, _, _, b3⟩ := l2.back (k := 1) rfl f3
  rw [y3] at b3
  have fr := b3.frame
  have h3 : v3.hooks[0]? = some (la, x0) := by rw [fr.hooks]; rfl
  have f4 : FitsOp v3 (.backward 0 g0) := by
    intro mx hmx; rw [h3] at hmx; cases hmx; exact ⟨1, [], t0, by decide⟩
  obtain ⟨v4, y4, l4⟩ := l3.exec f4
  obtain ⟨_, _, _, _, _, _, b4⟩ := l3.back h3 f4
  rw [y4] at b4
  have fr4 := b4.frame
  have F3 : Frame World.none' (fun _ => True) World.none' v2 v3 := fr.mono (fun _ => id) (fun _ _ => trivial) fun _ => id
  have F4 : Frame World.none' (fun _ => True) World.none' v2 v4 := F3.trans _ _ _ (fr4.mono (fun _ => id) (fun _ _ => trivial) fun _ => id)
  refine ⟨v1, v2, v3, v4, x1', x2', y3, y4, rfl, rfl, F3, F4, f1, ?_⟩
  rw [x1']
  refine ⟨f2, ?_⟩
  rw [x2']
  refine ⟨f3, ?_⟩
  rw [y3]
  refine ⟨f4, ?_⟩
  rw [y4]
  refine ⟨⟨rfl, ha, fun _ m hm => ?_⟩, trivial⟩
  rw [F4.layers] at hm
  replace hm : m ∈ w.opt.layers := hm
  refine ⟨(hg m hm).congr F4.grad, fun h e _ => ?_⟩
  have mom := l4.mom m (by rw [F4.layers]; exact hm) h e
  rw [hl] at hm
  simp only [List.mem_cons, List.not_mem_nil, or_false] at hm
  rcases hm with rfl | rfl
  · exact ⟨b4.someK, b4.someC, mom⟩
  · refine ⟨?_, ?_, mom⟩
    · rw [fr4.HKs _ (show lb.name ≠ la.name by decide)]; exact b3.someK
    · rw [fr4.HCs _ (show lb.name ≠ la.name by decide)]; exact b3.someC

end Sample

-- a run with loss scale 8 and `init_grad_scale = 4`, and the un-scaled run
example : ∃ (o o' : Opt ℝ) (ws : List Warn) (as bs : List (Op ℝ)) (grad grad' : ℕ → Option (Mat ℝ)),
    Construct.init supportedStructures Sample.model .default Sample.gargs = .ok (o, ws) ∧ Trainable o Sample.gdata ∧
    Construct.init supportedStructures Sample.model .default { Sample.gargs with initGradScale := (4 : ℝ) } = .ok (o', ws) ∧
    FitsRun ⟨o', Sample.gdata, grad', []⟩ as ∧ FitsRun ⟨o, Sample.gdata, grad, []⟩ bs ∧
    Along2 (ScaleOps (fun _ => 8) fun _ => 1) ⟨o', Sample.gdata, grad', []⟩ ⟨o, Sample.gdata, grad, []⟩ as bs ∧ as.length = 5 := by
  obtain ⟨o, ws, hi, hl, hh, ht⟩ := Sample.glive_init (α := ℝ)
  have I := init_ok (by decide) hi
  have hi' := init_scale hi 4
  have I' := init_ok (by decide) hi'
  obtain ⟨cl, _, lB⟩ := I.live (grad := fun p => some ((Sample.gdata p).smul 1)) ht one_pos
  have ht' : Trainable { o with scales := Dict.set (fun _ => none) (-1) (4 : ℝ) } Sample.gdata := ⟨ht.1, ht.2, ht.3, ht.4, ht.5, ht.6, ht.7⟩
  obtain ⟨cl', _, lA⟩ := I'.live (grad := fun p => some ((Sample.gdata p).smul 8)) ht' (by norm_num)
  have hu : ∀ m ∈ o.layers, ∃ h, o.hyperOf m = .ok h ∧ o.steps % h.T = 0 := fun m hm => ⟨_, hh m hm, by rw [I.steps]; rfl⟩
  have hgr : ∀ (s : ℝ) (o : Opt ℝ), o.layers = [Sample.la, Sample.lb] → ∀ m ∈ o.layers,
      LayerGrads ⟨o, Sample.gdata, fun p => some ((Sample.gdata p).smul s), []⟩ m := by
    intro s o hl m hm
    rw [hl] at hm
    simp only [List.mem_cons, List.not_mem_nil, or_false] at hm
    rcases hm with rfl | rfl
    · exact ⟨⟨_, rfl, rfl, rfl⟩, fun b hb => by cases hb; exact ⟨_, rfl, rfl, rfl⟩⟩
    · exact ⟨⟨_, rfl, rfl, rfl⟩, fun b hb => by cases hb⟩
  obtain ⟨a1, a2, a3, a4, p1, p2, p3, p4, p5, p6, p7, p8, fA⟩ := Sample.pass_states lA hl hu rfl (x0 := Sample.grow 1) (x1 := Sample.grow 2)
    (g0 := (Sample.grow 1).smul 8) (g1 := (Sample.grow 1).smul 8) rfl rfl rfl rfl (hgr 8 _ hl) (attr := some 8) (fun s hs => by cases hs; norm_num)
  obtain ⟨b1, b2, b3, b4, q1, q2, q3, q4, q5, q6, q7, q8, fB⟩ := Sample.pass_states lB hl hu rfl (x0 := Sample.grow 1) (x1 := Sample.grow 2)
    (g0 := (Sample.grow 1).smul 1) (g1 := (Sample.grow 1).smul 1) rfl rfl rfl rfl (hgr 1 _ hl) (attr := none) (by simp)
  refine ⟨o, _, ws, _, _, _, _, hi, ht, hi', fA, fB, ⟨⟨rfl, rfl, rfl⟩, ?_⟩, rfl⟩
  have up : ∀ m ∈ o.layers, World.Updates o m := fun m hm => ⟨_, hh m hm, show (2 : ℕ) ≠ 0 by decide, by rw [I.steps]; rfl⟩
  have ma : Sample.la ∈ o.layers := by rw [hl]; simp
  have mb : Sample.lb ∈ o.layers := by rw [hl]; simp
  rw [p1, q1]
  refine ⟨⟨rfl, rfl, rfl⟩, ?_⟩
  rw [p2, q2]
  refine ⟨⟨rfl, ⟨_, rfl, rfl⟩, ?_⟩, ?_⟩
  · intro mx hmx; rw [p6] at hmx ⊢; cases hmx; exact up _ mb
  rw [p3, q3]
  refine ⟨⟨rfl, ⟨_, rfl, rfl⟩, ?_⟩, ?_⟩
  · intro mx hmx
    rw [p7.hooks, p6] at hmx; cases hmx
    refine (p7.conf.updates _).2 ?_
    rw [p6]; exact up _ ma
  rw [p4, q4]
  refine ⟨⟨rfl, fun _ => ⟨?_, ?_, ?_⟩⟩, trivial⟩
  · rw [World.curScale, p8.scales, p8.steps, p6]; simp [I.steps, Dict.set]
  · rw [World.curScale, q8.scales, q8.steps, q6]; simp [I.steps, I.scales, Dict.set]
  · intro m hm p _
    rw [p8.grad, q8.grad, p6, q6]
    exact ⟨_, rfl, rfl⟩
