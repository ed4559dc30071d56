import Verif.Proofs.Opt.Live

/-! Two runs compared: layers in related states are taken to related states. -/

set_option linter.unusedSectionVars false
open Matrix
variable {α : Type} [Field α] [LinearOrder α] [IsStrictOrderedRing α] [LawfulSqrt α]

theorem optWF_ext {c : Cls} {n : ℕ} {x y : Option (SM α)} (hx : ∀ X, x = some X → WF c n X) (hy : ∀ X, y = some X → WF c n X)
    (h : x = none ↔ y = none) (hd : denO x n = denO y n) : x = y := by
  rcases x with _ | X
  · exact (h.1 rfl).symm
  · rcases y with _ | Y
    · exact h.2 rfl
    · exact congrArg some ((hx X rfl).ext_den (hy Y rfl) hd)

theorem LayerWF.Ks_ext {cl : Cls × Cls} {o o' : Opt α} {m : Layer} (h : LayerWF cl o m) (h' : LayerWF cl o' m)
    (hd : denO (o.Ks m.name) m.nK = denO (o'.Ks m.name) m.nK) : o.Ks m.name = o'.Ks m.name := by
  obtain ⟨K, e, w⟩ := h.K
  obtain ⟨K', e', w'⟩ := h'.K
  rw [e, e'] at hd ⊢
  exact congrArg some (w.ext_den w' hd)

theorem LayerWF.Cs_ext {cl : Cls × Cls} {o o' : Opt α} {m : Layer} (h : LayerWF cl o m) (h' : LayerWF cl o' m)
    (hd : denO (o.Cs m.name) m.nC = denO (o'.Cs m.name) m.nC) : o.Cs m.name = o'.Cs m.name := by
  obtain ⟨K, e, w⟩ := h.C
  obtain ⟨K', e', w'⟩ := h'.C
  rw [e, e'] at hd ⊢
  exact congrArg some (w.ext_den w' hd)

theorem IsMaxAbs.unique {n : ℕ} {M : Matrix (Fin n) (Fin n) α} {v v' : α} (h : IsMaxAbs M v) (h' : IsMaxAbs M v') : v = v' := by
  obtain ⟨⟨i, j, e⟩, h⟩ := h
  obtain ⟨⟨i', j', e'⟩, h'⟩ := h'
  exact le_antisymm (e ▸ h' i j) (e' ▸ h i' j')

theorem IsRate.unique {h : Hyper α} {t n : ℕ} {M : Matrix (Fin n) (Fin n) α} {b b' : α} (hb : IsRate h t M b) (hb' : IsRate h t M b') : b = b' := by
  unfold IsRate at hb hb'
  split at hb
  · rename_i hn
    rw [if_pos hn] at hb'
    obtain ⟨v, h1, rfl⟩ := hb
    obtain ⟨v', h2, rfl⟩ := hb'
    rw [h1.unique h2]
  · rename_i hn
    rw [if_neg hn] at hb'
    rw [hb, hb']

/-- equal directions of `K` give equal `K` -/
theorem UpdSpec.two_K {cl : Cls × Cls} {m : Layer} {h : Hyper α} {uA uB : α} {A A' B B' : World α} (hA : UpdSpec cl m h uA A A')
    (hB : UpdSpec cl m h uB B B') (hK : A.opt.Ks m.name = B.opt.Ks m.name) (hm : A.opt.mKs m.name = B.opt.mKs m.name)
    (ht : A.opt.steps = B.opt.steps)
    (hd : dirK cl m h uA (denO (A.opt.Ks m.name) _) (denO (A.opt.HKs m.name) _) (denO (A.opt.Cs m.name) _) (denO (A.opt.HCs m.name) _) =
      dirK cl m h uB (denO (B.opt.Ks m.name) _) (denO (B.opt.HKs m.name) _) (denO (B.opt.Cs m.name) _) (denO (B.opt.HCs m.name) _)) :
    A'.opt.Ks m.name = B'.opt.Ks m.name ∧ A'.opt.mKs m.name = B'.opt.mKs m.name := by
  obtain ⟨mK, mC, bK, bC, a1, a2, a3, a4, a5, a6, a7⟩ := hA.eqs
  obtain ⟨mK', mC', bK', bC', b1, b2, b3, b4, b5, b6, b7⟩ := hB.eqs
  have e : mK = mK' := by rw [a2, b2, hm, hd]
  subst e
  have e : bK = bK' := a4.unique (by rw [ht]; exact b4)
  subst e
  refine ⟨hA.wf.Ks_ext hB.wf (by rw [a6, b6, hK]), ?_⟩
  by_cases h0 : h.alpha1 = 0
  · rw [(hA.mK0 h0).1, (hB.mK0 h0).1, hm]
  · obtain ⟨n1, _, d1, _⟩ := a1 h0
    obtain ⟨n2, _, d2, _⟩ := b1 h0
    exact optWF_ext hA.wf.mK hB.wf.mK (by simp [n1, n2]) (by rw [d1, d2])

/-- equal directions of `C` give equal `C` -/
theorem UpdSpec.two_C {cl : Cls × Cls} {m : Layer} {h : Hyper α} {uA uB : α} {A A' B B' : World α} (hA : UpdSpec cl m h uA A A')
    (hB : UpdSpec cl m h uB B B') (hC : A.opt.Cs m.name = B.opt.Cs m.name) (hm : A.opt.mCs m.name = B.opt.mCs m.name)
    (ht : A.opt.steps = B.opt.steps)
    (hd : dirC cl m h uA (denO (A.opt.Ks m.name) _) (denO (A.opt.HKs m.name) _) (denO (A.opt.Cs m.name) _) (denO (A.opt.HCs m.name) _) =
      dirC cl m h uB (denO (B.opt.Ks m.name) _) (denO (B.opt.HKs m.name) _) (denO (B.opt.Cs m.name) _) (denO (B.opt.HCs m.name) _)) :
    A'.opt.Cs m.name = B'.opt.Cs m.name ∧ A'.opt.mCs m.name = B'.opt.mCs m.name := by
  obtain ⟨mK, mC, bK, bC, a1, a2, a3, a4, a5, a6, a7⟩ := hA.eqs
  obtain ⟨mK', mC', bK', bC', b1, b2, b3, b4, b5, b6, b7⟩ := hB.eqs
  have e : mC = mC' := by rw [a3, b3, hm, hd]
  subst e
  have e : bC = bC' := a5.unique (by rw [ht]; exact b5)
  subst e
  refine ⟨hA.wf.Cs_ext hB.wf (by rw [a7, b7, hC]), ?_⟩
  by_cases h0 : h.alpha1 = 0
  · rw [(hA.mK0 h0).2, (hB.mK0 h0).2, hm]
  · obtain ⟨_, n1, _, d1⟩ := a1 h0
    obtain ⟨_, n2, _, d2⟩ := b1 h0
    exact optWF_ext hA.wf.mC hB.wf.mC (by simp [n1, n2]) (by rw [d1, d2])

/-- equal directions move equal parameters equally -/
theorem ParamSpec.two {h : Hyper α} {p r c : ℕ} {S S' : Matrix (Fin r) (Fin c) α} {A A' B B' : World α} (hA : ParamSpec h p S A A')
    (hB : ParamSpec h p S' B B') (hS : S = S') (hd : A.data p = B.data p) (hm : A.opt.mom p = B.opt.mom p) :
    A'.data p = B'.data p ∧ A'.opt.mom p = B'.opt.mom p := by
  subst hS
  refine ⟨Mat.M_inj hA.shape.data hB.shape.data (by rw [hA.data, hB.data, hd, hm]), ?_⟩
  by_cases h0 : h.momentum = 0
  · rw [hA.mom0 h0, hB.mom0 h0, hm]
  · obtain ⟨n1, e1⟩ := hA.mom1 h0
    obtain ⟨n2, e2⟩ := hB.mom1 h0
    obtain ⟨X, eX⟩ := Option.ne_none_iff_exists'.1 n1
    obtain ⟨Y, eY⟩ := Option.ne_none_iff_exists'.1 n2
    rw [hm, hd, ← e2, eX, eY] at e1
    rw [eX, eY]
    exact congrArg some (Mat.M_inj (hA.shape.mom X eX) (hB.shape.mom Y eY) e1)

/-- everything about a layer but statistics and gradients agrees in two states -/
structure LayEq (m : Layer) (A B : World α) : Prop where
  Ks : A.opt.Ks m.name = B.opt.Ks m.name
  Cs : A.opt.Cs m.name = B.opt.Cs m.name
  mKs : A.opt.mKs m.name = B.opt.mKs m.name
  mCs : A.opt.mCs m.name = B.opt.mCs m.name
  data : ∀ p, World.Owns m p → A.data p = B.data p
  mom : ∀ p, World.Owns m p → A.opt.mom p = B.opt.mom p

/-- statistics that are multiples of each other, such that the factors compensate each other in the update rule -/
structure StatRel (m : Layer) (h : Hyper α) (uA uB a c : α) (A B : World α) : Prop where
  HK : denO (A.opt.HKs m.name) m.nK = a • denO (B.opt.HKs m.name) m.nK
  HC : denO (A.opt.HCs m.name) m.nC = c • denO (B.opt.HCs m.name) m.nC
  like : h.kfacLike = true → a = 1 ∧ uA * c = uB
  coupled : h.kfacLike = false → uA * a * c = uB

theorem avgTr_smul {n : ℕ} (a : α) (M : Matrix (Fin n) (Fin n) α) : avgTr (a • M) = a * avgTr M := by
  rw [avgTr, avgTr, Matrix.trace_smul, smul_eq_mul, mul_div_assoc]

theorem StatRel.dirK {cl : Cls × Cls} {m : Layer} {h : Hyper α} {uA uB a c : α} {A B : World α} (r : StatRel m h uA uB a c A B)
    (hK : A.opt.Ks m.name = B.opt.Ks m.name) (hC : A.opt.Cs m.name = B.opt.Cs m.name) :
    dirK cl m h uA (denO (A.opt.Ks m.name) _) (denO (A.opt.HKs m.name) _) (denO (A.opt.Cs m.name) _) (denO (A.opt.HCs m.name) _) =
      dirK cl m h uB (denO (B.opt.Ks m.name) _) (denO (B.opt.HKs m.name) _) (denO (B.opt.Cs m.name) _) (denO (B.opt.HCs m.name) _) := by
  rw [_root_.dirK, _root_.dirK, hK, hC, r.HK, r.HC]
  rcases hk : h.kfacLike
  · have := r.coupled hk
    simp only [updDir, Bool.false_eq_true, if_false, avgTr_smul, smul_smul]
    rw [← this]
    congr 4; ring
  · simp only [updDir, if_true, (r.like hk).1, one_smul]

theorem StatRel.dirC {cl : Cls × Cls} {m : Layer} {h : Hyper α} {uA uB a c : α} {A B : World α} (r : StatRel m h uA uB a c A B)
    (hK : A.opt.Ks m.name = B.opt.Ks m.name) (hC : A.opt.Cs m.name = B.opt.Cs m.name) :
    dirC cl m h uA (denO (A.opt.Ks m.name) _) (denO (A.opt.HKs m.name) _) (denO (A.opt.Cs m.name) _) (denO (A.opt.HCs m.name) _) =
      dirC cl m h uB (denO (B.opt.Ks m.name) _) (denO (B.opt.HKs m.name) _) (denO (B.opt.Cs m.name) _) (denO (B.opt.HCs m.name) _) := by
  rw [_root_.dirC, _root_.dirC, hK, hC, r.HK, r.HC]
  rcases hk : h.kfacLike
  · have := r.coupled hk
    simp only [updDir, Bool.false_eq_true, if_false, avgTr_smul, smul_smul]
    rw [← this]
    congr 4; ring
  · have := r.like hk
    simp only [updDir, if_true, smul_smul]
    rw [← this.2]

/-- **Two runs.** A step takes layers in equal states, with compensating statistics and equal unscaled gradients, to equal states. -/
theorem LayerSpec.two {cl : Cls × Cls} {m : Layer} {h : Hyper α} {sA uA sB uB a c : α} {A A' B B' : World α}
    (hA : LayerSpec cl m h sA uA A A') (hB : LayerSpec cl m h sB uB B B') (e : LayEq m A B) (ht : A.opt.steps = B.opt.steps)
    (hs : A.opt.steps % h.T = 0 → StatRel m h uA uB a c A B) (hg : (1 / sA) • gradM A m = (1 / sB) • gradM B m) : LayEq m A' B' := by
  have fac : A'.opt.Ks m.name = B'.opt.Ks m.name ∧ A'.opt.Cs m.name = B'.opt.Cs m.name ∧ A'.opt.mKs m.name = B'.opt.mKs m.name ∧
      A'.opt.mCs m.name = B'.opt.mCs m.name := by
    by_cases h0 : A.opt.steps % h.T = 0
    · have r := hs h0
      have uA := hA.upd h0
      have uB := hB.upd (by rw [← ht]; exact h0)
      obtain ⟨k1, k2⟩ := uA.two_K uB e.Ks e.mKs ht (r.dirK e.Ks e.Cs)
      obtain ⟨c1, c2⟩ := uA.two_C uB e.Cs e.mCs ht (r.dirC e.Ks e.Cs)
      exact ⟨k1, c1, k2, c2⟩
    · have nA := hA.noupd h0
      have nB := hB.noupd (by rw [← ht]; exact h0)
      exact ⟨by rw [nA.Ks, nB.Ks, e.Ks], by rw [nA.Cs, nB.Cs, e.Cs], by rw [nA.mKs, nB.mKs, e.mKs], by rw [nA.mCs, nB.mCs, e.mCs]⟩
  obtain ⟨f1, f2, f3, f4⟩ := fac
  have dir : natDir cl sA (gradM A m) (denO (A'.opt.Ks m.name) m.nK) (denO (A'.opt.Cs m.name) m.nC) =
      natDir cl sB (gradM B m) (denO (B'.opt.Ks m.name) m.nK) (denO (B'.opt.Cs m.name) m.nC) := by
    rw [natDir, natDir, f1, f2, ← Matrix.smul_mul, ← Matrix.mul_smul, hg, Matrix.mul_smul, Matrix.smul_mul]
  have P : ∀ p, World.Owns m p → A'.data p = B'.data p ∧ A'.opt.mom p = B'.opt.mom p := by
    intro p hp
    rcases hp with rfl | ⟨b, hb, rfl⟩
    · exact hA.apply.weight.two hB.apply.weight (by rw [dir]) (e.data _ (Or.inl rfl)) (e.mom _ (Or.inl rfl))
    · exact (hA.apply.bias b hb).two (hB.apply.bias b hb) (by rw [dir]) (e.data _ (Or.inr ⟨b, hb, rfl⟩)) (e.mom _ (Or.inr ⟨b, hb, rfl⟩))
  exact ⟨f1, f2, f3, f4, fun p hp => (P p hp).1, fun p hp => (P p hp).2⟩

/-- two histories of the same length, operations related by `P` in the states they meet -/
def Along2 (P : World α → World α → Op α → Op α → Prop) : World α → World α → List (Op α) → List (Op α) → Prop
  | _, _, [], [] => True
  | A, B, a :: as, b :: bs => P A B a b ∧ Along2 P (exec a A).2 (exec b B).2 as bs
  | _, _, [], _ :: _ => False
  | _, _, _ :: _, [] => False

/-- a relation preserved by related operations is preserved by related histories -/
theorem along2_run {P : World α → World α → Op α → Op α → Prop} {R : World α → World α → Prop} {cl : String → Cls × Cls}
    (key : ∀ A B a b, A.Live cl → B.Live cl → FitsOp A a → FitsOp B b → R A B → P A B a b → R (exec a A).2 (exec b B).2) :
    ∀ {as bs : List (Op α)} {A B : World α}, A.Live cl → B.Live cl → FitsRun A as → FitsRun B bs → R A B → Along2 P A B as bs →
      R (run as A) (run bs B)
  | [], [], _, _, _, _, _, _, r, _ => r
  | a :: as, b :: bs, A, B, lA, lB, fA, fB, r, h => by
    obtain ⟨A', eA, lA'⟩ := lA.exec fA.1
    obtain ⟨B', eB, lB'⟩ := lB.exec fB.1
    have r' := key A B a b lA lB fA.1 fB.1 r h.1
    have h2 := h.2
    have fA2 := fA.2
    have fB2 := fB.2
    rw [run_cons, run_cons]
    rw [eA, eB] at r' h2
    rw [eA] at fA2 ⊢
    rw [eB] at fB2 ⊢
    exact along2_run key lA' lB' fA2 fB2 r' h2
  | [], _ :: _, _, _, _, _, _, _, _, h => h.elim
  | _ :: _, [], _, _, _, _, _, _, _, h => h.elim

/-- hooks a forward pass registers -/
noncomputable def newHooks (i : ℕ) (x : ND α) (ge : Bool) (w : World α) : List (Layer × ND α) := by
  classical exact match w.opt.layers[i]? with
    | some m => if ge = true ∧ World.Updates w.opt m then [(m, x)] else []
    | none => []

theorem exec_forward_state (i : ℕ) (x : ND α) (ge : Bool) (w : World α) :
    (exec (.forward i x ge) w).2 = { w with hooks := w.hooks ++ newHooks i x ge w } := by
  rw [exec, Py.get_bind_run, newHooks]
  rcases hm : w.opt.layers[i]? with _ | m
  · simp; rfl
  · simp only [World.forwardHook, Py.get_bind_run]
    rcases hh : w.opt.hyperOf m with e | h
    · rw [if_neg (by rintro ⟨_, h, a, _⟩; rw [hh] at a; cases a)]; simp; rfl
    · rw [Py.lift_ok_bind_run]
      cases ge
      · simp; rfl
      · rw [if_pos rfl]
        split
        · rename_i h0
          rw [if_neg (by rintro ⟨_, h', a, b, _⟩; rw [hh] at a; cases a; exact b h0)]; simp; rfl
        · rename_i hT
          split
          · rename_i hs
            rw [if_pos ⟨rfl, h, hh, hT, hs⟩]; rfl
          · rename_i hs
            rw [if_neg (by rintro ⟨_, h', a, b, c⟩; rw [hh] at a; cases a; exact hs c)]; simp; rfl

/-- what a fitting backward pass does -/
theorem World.Live.back {cl : String → Cls × Cls} {w : World α} (h : w.Live cl) {k : ℕ} {g : ND α} {mx : Layer × ND α}
    (hk : w.hooks[k]? = some mx) (ho : FitsOp w (.backward k g)) : mx.1 ∈ w.opt.layers ∧ ∃ hy p,
      w.opt.hyperOf mx.1 = .ok hy ∧ w.opt.scales ((w.opt.steps : ℤ) - 1) = some p ∧ 0 < p ∧
      BackSpec (cl mx.1.name) mx.1 hy p mx.2 g w (_root_.exec (.backward k g) w).2 := by
  obtain ⟨hl, hx⟩ := h.hooks mx (List.mem_of_getElem? hk)
  obtain ⟨hy, hh, hT⟩ := h.sound.hyper mx.1 hl
  obtain ⟨p, hp⟩ := h.prev
  obtain ⟨w', e, sp⟩ := accumulateH_spec (h.sound.lay _ hl) hh (h.valid _ hl _ hh) (hx _ hh) (ho mx hk) hp (h.pos _ _ hp)
  have e' : (_root_.exec (.backward k g) w).2 = w' := by
    rw [_root_.exec, Py.get_bind_run, hk]; exact congrArg Prod.snd e
  rw [e']
  exact ⟨hl, hy, p, hh, hp, h.pos _ _ hp, sp⟩

theorem exec_backward_none {w : World α} {k : ℕ} {g : ND α} (hk : w.hooks[k]? = none) : (exec (.backward k g) w).2 = w := by
  rw [exec, Py.get_bind_run, hk]; rfl

theorem World.Live.hnz {cl : String → Cls × Cls} {w : World α} (h : w.Live cl) : w.opt.steps = 0 → w.opt.scales (-1) ≠ none := by
  intro h0; obtain ⟨p, hp⟩ := h.prev; rw [h0] at hp; simp at hp; rw [hp]; simp
