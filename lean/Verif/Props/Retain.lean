import Verif.Props.Recompute

/-! C86: a sum of losses, backpropagated at once or one loss after the other through the same graph (`retain_graph=True`). -/

set_option linter.unusedSectionVars false
open Matrix PIO

section
variable {α : Type} [Field α]

/-- `g + g'`, for tensors of the same shape -/
def ND.plus (g g' : ND α) : ND α := ⟨g.shape, fun i => g.flat i + g'.flat i⟩

/-- three computations of matrices, of which the third gives the sum of the other two, or that all fail -/
def Adds (x y z : Except PyErr (Mat α)) : Prop :=
  (∃ A B C, x = .ok A ∧ y = .ok B ∧ z = .ok C ∧ A.rows = C.rows ∧ B.rows = C.rows ∧ ∀ i j, C.get i j = A.get i j + B.get i j) ∨
    ∃ e e' e'', x = .error e ∧ y = .error e' ∧ z = .error e''

theorem Adds.err (e e' e'' : PyErr) : Adds (.error e : Except PyErr (Mat α)) (.error e') (.error e'') := .inr ⟨e, e', e'', rfl, rfl, rfl⟩

theorem Adds.ofFn {r c : ℕ} {f g h : ℕ → ℕ → α} (H : ∀ i j, h i j = f i j + g i j) : Adds (.ok (Mat.ofFn r c f)) (.ok (Mat.ofFn r c g)) (.ok (Mat.ofFn r c h)) :=
  .inl ⟨_, _, _, rfl, rfl, rfl, rfl, rfl, fun i j => by
    simp only [Mat.get_ofFn]
    split
    · exact H i j
    · simp⟩

theorem Adds.smul {x y z : Except PyErr (Mat α)} (h : Adds x y z) (s : α) :
    Adds (x >>= fun A => .ok (A.smul s)) (y >>= fun A => .ok (A.smul s)) (z >>= fun A => .ok (A.smul s)) := by
  rcases h with ⟨A, B, C, rfl, rfl, rfl, h1, h2, h3⟩ | ⟨e, e', e'', rfl, rfl, rfl⟩
  · exact .inl ⟨_, _, _, rfl, rfl, rfl, h1, h2, fun i j => by simp only [Mat.get_smul, h3]; ring⟩
  · exact .inr ⟨e, e', e'', rfl, rfl, rfl⟩

variable {g g' : ND α}

theorem mergeLeading_plus (h : g.shape = g'.shape) : Adds (mergeLeading g) (mergeLeading g') (mergeLeading (g.plus g')) := by
  unfold mergeLeading
  rw [← h, show (g.plus g').shape = g.shape from rfl]
  rcases split3 g.shape with _ | ⟨b, k, d⟩
  · exact .err _ _ _
  · exact .ofFn fun i j => rfl

theorem sumMiddle_plus (h : g.shape = g'.shape) : Adds (sumMiddle g) (sumMiddle g') (sumMiddle (g.plus g')) := by
  unfold sumMiddle
  rw [← h, show (g.plus g').shape = g.shape from rfl]
  rcases split3 g.shape with _ | ⟨b, k, d⟩
  · exact .err _ _ _
  · exact .ofFn fun i j => by rw [← Finset.sum_add_distrib]; rfl

theorem mergeSpatial_plus (h : g.shape = g'.shape) : Adds (mergeSpatial g) (mergeSpatial g') (mergeSpatial (g.plus g')) := by
  unfold mergeSpatial
  have e1 : shape4 (g.plus g') = shape4 g := rfl
  have e2 : shape4 g' = shape4 g := by unfold shape4; rw [h]
  rw [e1, e2]
  rcases shape4 g with e | ⟨b, c, i, j⟩
  · exact .err _ _ _
  · refine .ofFn fun i j => ?_
    rfl

theorem sumSpatial_plus (h : g.shape = g'.shape) : Adds (sumSpatial g) (sumSpatial g') (sumSpatial (g.plus g')) := by
  unfold sumSpatial
  have e1 : shape4 (g.plus g') = shape4 g := rfl
  have e2 : shape4 g' = shape4 g := by unfold shape4; rw [h]
  rw [e1, e2]
  rcases shape4 g with e | ⟨b, c, i, j⟩
  · exact .err _ _ _
  · refine .ofFn fun i j => ?_
    simp only [← Finset.sum_add_distrib]; rfl

/-- `process_grad_output` is additive -/
theorem processGradOutput_plus [HasSqrt α] (h : g.shape = g'.shape) (k : LayerKind) (la : Option String) (ka : String) :
    Adds (processGradOutput g k la ka) (processGradOutput g' k la ka) (processGradOutput (g.plus g') k la ka) := by
  unfold processGradOutput
  split
  · exact .err _ _ _
  split
  · exact .err _ _ _
  cases k with
  | other => exact .err _ _ _
  | linear =>
    simp only [linearProcessGrad]
    rw [← h, show (g.plus g').shape = g.shape from rfl]
    rcases (linearScaling g.shape la : Except PyErr α) with e | t
    · exact .err _ _ _
    simp only [Except.bind_ok']
    split
    · exact (mergeLeading_plus h).smul t
    · exact (sumMiddle_plus h).smul t
  | conv2d cfg =>
    simp only [convProcessGrad]
    rw [← h, show (g.plus g').shape = g.shape from rfl]
    rcases (convScaling g.shape la : Except PyErr α) with e | t
    · exact .err _ _ _
    simp only [Except.bind_ok']
    split
    · exact (mergeSpatial_plus h).smul t
    · exact (sumSpatial_plus h).smul t

/-- `Σᵣ aᵣ bᵣᵀ` over the rows of two processed gradients -/
def gradCross [HasSqrt α] (h : Hyper α) (m : Layer) (g g' : ND α) : Matrix (Fin m.nC) (Fin m.nC) α :=
  match processGradOutput g m.kind h.lossAverage h.kfacApprox, processGradOutput g' m.kind h.lossAverage h.kfacApprox with
  | .ok a, .ok b => Matrix.of fun i j => ∑ r ∈ Finset.range a.rows, a.get r i * b.get r j
  | _, _ => 0

/-- the second moment of a sum of gradients -/
theorem gradMoment_plus [HasSqrt α] (h : Hyper α) (m : Layer) (hs : g.shape = g'.shape) :
    gradMoment h m (g.plus g') = gradMoment h m g + gradMoment h m g' + (gradCross h m g g' + (gradCross h m g g')ᵀ) := by
  unfold gradMoment gradCross
  rcases processGradOutput_plus hs m.kind h.lossAverage h.kfacApprox with ⟨A, B, C, e1, e2, e3, h1, h2, h3⟩ | ⟨e, e', e'', e1, e2, e3⟩
  · rw [e1, e2, e3]
    funext i j
    simp only [secMom, Matrix.add_apply, Matrix.transpose_apply, Matrix.of_apply, h1, h2, h3, ← Finset.sum_add_distrib]
    exact Finset.sum_congr rfl fun r _ => by ring
  · rw [e1, e2, e3]; simp

end

section
variable {α : Type} [Field α] [LinearOrder α] [IsStrictOrderedRing α] [LawfulSqrt α]

/-- **C86, statistics.** Two losses through the same graph. `us` are the uses of layer `m` between two steps: input, and the gradients of the two losses w.r.t. the output. In the
first run the sum of the losses is backpropagated, in the second one loss after the other (so that the gradients of the parameters are
the same). Then `H_K` of the second run has every input twice, and `H_C` lacks the products of the gradients of different losses. -/
theorem C86_statistics {cl : String → Cls × Cls} {A B : World α} {as bs : List (Op α)} (lA : A.Live cl) (lB : B.Live cl)
    (fA : FitsRun A as) (fB : FitsRun B bs) (qA : ∀ op ∈ as, op.Quiet) (qB : ∀ op ∈ bs, op.Quiet) (r : SameTraining A B)
    {m : Layer} (hm : m ∈ A.opt.layers) {h : Hyper α} (hh : A.opt.hyperOf m = .ok h) {p : α} (hp : A.opt.scales ((A.opt.steps : ℤ) - 1) = some p)
    {us : List (ND α × ND α × ND α)} (hs : ∀ u ∈ us, u.2.1.shape = u.2.2.shape)
    (eA : (fired m.name as A).Perm (us.map fun u => (u.1, u.2.1.plus u.2.2)))
    (eB : (fired m.name bs B).Perm (us.flatMap fun u => [(u.1, u.2.1), (u.1, u.2.2)])) :
    denO ((run bs B).opt.HKs m.name) m.nK = denO ((run as A).opt.HKs m.name) m.nK +
        (us.map fun u => (cl m.name).1.proj m.nK ((cl m.name).1.sandwich (denO (A.opt.Ks m.name) m.nK) (inputMoment h m u.1))).sum ∧
      denO ((run bs B).opt.HCs m.name) m.nC = denO ((run as A).opt.HCs m.name) m.nC -
        (1 / p) • (us.map fun u => (cl m.name).2.proj m.nC ((cl m.name).2.sandwich (denO (A.opt.Cs m.name) m.nC)
          (gradCross h m u.2.1 u.2.2 + (gradCross h m u.2.1 u.2.2)ᵀ))).sum := by
  have good := lA.sound.good m hm
  have SA := (lA.window fA qA).stats m hm h p hh hp
  have SB := (lB.window fB qB).stats m (r.conf.layers ▸ hm) h p (by rw [← r.conf.hyperOf]; exact hh) (by rw [← r.conf.steps, ← r.prev]; exact hp)
  obtain ⟨sK, sC⟩ := r.stat m hm
  constructor
  · rw [SA.HK, SB.HK, (eA.map _).sum_eq, (eB.map _).sum_eq, ← sK, ← (r.lay m hm).Ks, add_assoc]
    congr 1
    rw [sum_flatMap, List.map_map, ← List.sum_map_add]
    exact congrArg List.sum (List.map_congr_left fun u hu => by simp)
  · rw [SA.HC, SB.HC, (eA.map _).sum_eq, (eB.map _).sum_eq, ← sC, ← (r.lay m hm).Cs, add_sub_assoc, ← smul_sub]
    congr 2
    rw [eq_sub_iff_add_eq, sum_flatMap, List.map_map, ← List.sum_map_add]
    refine congrArg List.sum (List.map_congr_left fun u hu => ?_)
    simp only [List.map_cons, List.map_nil, List.sum_cons, List.sum_nil, add_zero, Function.comp]
    rw [gradMoment_plus h m (hs u hu)]
    simp only [Cls.sandwich_add, proj_add good.supC]

/-- `k` backward passes through the same graph, each with the `k`-th part of the gradient -/
def shares (k : ℕ) (e : ND α × ND α) : List (ND α × ND α) := List.replicate k (e.1, e.2.smul (1 / (k : α)))

/-- Histories of two runs, of which the second one backpropagates the loss in `k` equal parts, one after the other, through the same graph. Otherwise as `MicroRun`. -/
inductive ShareRun (k : ℕ) : World α → World α → List (Op α) → List (Op α) → Prop
  | done (A B : World α) : ShareRun k A B [] []
  | passes {A B : World α} {as bs as' bs' : List (Op α)} (qA : ∀ op ∈ as, op.Quiet) (qB : ∀ op ∈ bs, op.Quiet)
      (split : ∀ m ∈ A.opt.layers, (fired m.name bs B).Perm ((fired m.name as A).flatMap (shares k)))
      (next : ShareRun k (run as A) (run bs B) as' bs') : ShareRun k A B (as ++ as') (bs ++ bs')
  | step {A B : World α} {a b : Option α} {f : Bool} {as bs : List (Op α)}
      (scale : A.curScale a = B.curScale b) (grad : f = false → ∀ m ∈ A.opt.layers, ∀ p, World.Owns m p → A.grad p = B.grad p)
      (hyp : ∀ m ∈ A.opt.layers, ∀ h, A.opt.hyperOf m = .ok h → h.kfacLike = false)
      (next : ShareRun k (exec (.step false a f) A).2 (exec (.step false b f) B).2 as bs) :
      ShareRun k A B (.step false a f :: as) (.step false b f :: bs)
  | setParam {A B : World α} {p : ℕ} {M : Mat α} {as bs : List (Op α)}
      (next : ShareRun k (exec (.setParam p M) A).2 (exec (.setParam p M) B).2 as bs) : ShareRun k A B (.setParam p M :: as) (.setParam p M :: bs)
  | setHyper {A B : World α} {i : ℕ} {h : Hyper α} {as bs : List (Op α)}
      (next : ShareRun k (exec (.setHyper i h) A).2 (exec (.setHyper i h) B).2 as bs) :
      ShareRun k A B (.setHyper i h :: as) (.setHyper i h :: bs)

theorem Accumulated.shares {cl : String → Cls × Cls} {k : ℕ} (hk : 0 < k) {A B : World α} (r : Accumulated k A B) (lA : A.Live cl) (lB : B.Live cl)
    {as bs : List (Op α)} (fA : FitsRun A as) (fB : FitsRun B bs) (qA : ∀ op ∈ as, op.Quiet) (qB : ∀ op ∈ bs, op.Quiet)
    (split : ∀ m ∈ A.opt.layers, (fired m.name bs B).Perm ((fired m.name as A).flatMap (shares k))) : Accumulated k (run as A) (run bs B) := by
  have k0 : (k : α) ≠ 0 := by exact_mod_cast hk.ne'
  have wA := lA.window fA qA
  have wB := lB.window fB qB
  refine ⟨⟨by rw [wA.layers, wB.layers, r.conf.layers], by rw [wA.ptrGroup, wB.ptrGroup, r.conf.ptrGroup],
    by rw [wA.groups, wB.groups, r.conf.groups], by rw [wA.steps, wB.steps, r.conf.steps]⟩, ?_, by rw [wA.data, wB.data, r.data],
    by rw [wA.mom, wB.mom, r.mom], ?_, ?_⟩
  · intro m hm
    rw [wA.layers] at hm
    have L := r.lay m hm
    exact ⟨by rw [wA.Ks, wB.Ks, L.Ks], by rw [wA.Cs, wB.Cs, L.Cs], by rw [wA.mKs, wB.mKs, L.mKs],
        by rw [wA.mCs, wB.mCs, L.mCs], fun p hp => by rw [wA.data, wB.data, L.data p hp],
        fun p hp => by rw [wA.mom, wB.mom, L.mom p hp]⟩
  · have := wB.prev
    rw [← r.conf.steps] at this
    rw [wA.steps, wA.prev, this, r.prev]
  · intro m hm
    rw [wA.layers] at hm
    obtain ⟨h, hh, _⟩ := lA.sound.hyper m hm
    obtain ⟨p, hp⟩ := lA.prev
    have good := lA.sound.good m hm
    have SA := wA.stats m hm h p hh hp
    have SB := wB.stats m (r.conf.layers ▸ hm) h p (by rw [← r.conf.hyperOf]; exact hh) (by rw [← r.conf.steps, ← r.prev]; exact hp)
    have S := r.stat m hm
    have sp := split m hm
    have e0 : fired m.name bs B = [] ↔ fired m.name as A = [] := by
      constructor
      · intro e
        rw [e] at sp
        have h0 := List.flatMap_eq_nil_iff.1 sp.nil_eq.symm
        rcases hf : fired m.name as A with _ | ⟨x, l⟩
        · rfl
        · have := h0 x (by rw [hf]; simp)
          simp only [_root_.shares, List.replicate_eq_nil_iff] at this
          omega
      · intro e
        rw [e] at sp
        exact sp.eq_nil
    refine ⟨?_, ?_, by rw [SA.HK0, SB.HK0, S.HK0, e0], by rw [SA.HC0, SB.HC0, S.HC0, e0]⟩
    · rw [SA.HK, SB.HK, S.HK, smul_add, ← (r.lay m hm).Ks, (sp.map _).sum_eq, sum_flatMap, ← sum_smul_list]
      congr 2
      refine List.map_congr_left fun e _ => ?_
      rw [_root_.shares, List.map_replicate, List.sum_replicate, Nat.cast_smul_eq_nsmul]
    · rw [SA.HC, SB.HC, S.HC, smul_add, ← (r.lay m hm).Cs, (sp.map _).sum_eq, sum_flatMap, smul_comm (1 / (k : α)) (1 / p)]
      congr 2
      rw [← sum_smul_list]
      congr 1
      refine List.map_congr_left fun e _ => ?_
      rw [_root_.shares, List.map_replicate, List.sum_replicate, gradMoment_smul, Cls.sandwich_smul, proj_smul good.supC, ← Nat.cast_smul_eq_nsmul α,
        smul_smul]
      congr 1
      field_simp

/-- **C86, equal parts.** With the default update rule, backpropagating the loss in `k` equal parts through the same graph gives the same
factors, momenta, parameters and buffers as backpropagating it at once, after every history: `H_K` is `k` times as large, `H_C` is divided by `k`. -/
theorem C86_shares {cl : String → Cls × Cls} {k : ℕ} (hk : 0 < k) {A B : World α} {as bs : List (Op α)} (lA : A.Live cl) (lB : B.Live cl)
    (fA : FitsRun A as) (fB : FitsRun B bs) (r : Accumulated k A B) (h : ShareRun k A B as bs) : Accumulated k (run as A) (run bs B) := by
  induction h with
  | done => exact r
  | passes qA qB split next ih =>
    obtain ⟨fA1, fA2⟩ := fitsRun_append fA
    obtain ⟨fB1, fB2⟩ := fitsRun_append fB
    rw [run_append, run_append]
    exact ih (lA.window fA1 qA).live (lB.window fB1 qB).live fA2 fB2 (r.shares hk lA lB fA1 fB1 qA qB split)
  | step scale grad hyp next ih =>
    have r' := r.step hk lA lB fA.1 fB.1 scale grad hyp
    obtain ⟨A', eA, lA'⟩ := lA.exec fA.1
    obtain ⟨B', eB, lB'⟩ := lB.exec fB.1
    rw [run_cons, run_cons]
    refine ih ?_ ?_ fA.2 fB.2 r'
    · rw [eA]; exact lA'
    · rw [eB]; exact lB'
  | @setParam A B p M as bs next ih =>
    obtain ⟨A', eA, lA'⟩ := lA.exec fA.1
    obtain ⟨B', eB, lB'⟩ := lB.exec fB.1
    rw [run_cons, run_cons]
    refine ih ?_ ?_ fA.2 fB.2 ?_
    · rw [eA]; exact lA'
    · rw [eB]; exact lB'
    · have ed : Function.update A.data p M = Function.update B.data p M := by rw [r.data]
      exact ⟨⟨r.conf.1, r.conf.2, r.conf.3, r.conf.4⟩, fun m hm => ⟨(r.lay m hm).1, (r.lay m hm).2, (r.lay m hm).3, (r.lay m hm).4,
        fun q _ => congrFun ed q, (r.lay m hm).6⟩, ed, r.mom, r.prev, fun m hm => ⟨(r.stat m hm).1, (r.stat m hm).2, (r.stat m hm).3, (r.stat m hm).4⟩⟩
  | @setHyper A B i hy as bs next ih =>
    obtain ⟨A', eA, lA'⟩ := lA.exec fA.1
    obtain ⟨B', eB, lB'⟩ := lB.exec fB.1
    rw [run_cons, run_cons]
    refine ih ?_ ?_ fA.2 fB.2 ?_
    · rw [eA]; exact lA'
    · rw [eB]; exact lB'
    · rw [exec_setHyper, exec_setHyper]
      refine ⟨⟨r.conf.1, r.conf.2, ?_, r.conf.4⟩, fun m hm => ⟨(r.lay m hm).1, (r.lay m hm).2, (r.lay m hm).3, (r.lay m hm).4,
        (r.lay m hm).5, (r.lay m hm).6⟩, r.data, r.mom, r.prev, fun m hm => ⟨(r.stat m hm).1, (r.stat m hm).2, (r.stat m hm).3, (r.stat m hm).4⟩⟩
      show A.opt.groups.modify i _ = B.opt.groups.modify i _
      rw [r.conf.groups]

end

namespace Sample

/-- the sample model, with or without `kfac_like` -/
def retained (kfac : Bool) : World ℚ := world model .default { args with kfacLike := kfac }
/-- a mini-batch, the sum of two losses being backpropagated, and a step -/
def atOnce (x y f f' g g' : ND ℚ) : List (Op ℚ) :=
  [.forward 0 x true, .forward 1 y true, .backward 1 (g.plus g'), .backward 0 (f.plus f'), .step false none false]
/-- the same, one loss being backpropagated after the other -/
def oneByOne (x y f f' g g' : ND ℚ) : List (Op ℚ) :=
  [.forward 0 x true, .forward 1 y true, .backward 1 g, .backward 0 f, .backward 1 g', .backward 0 f', .step false none false]

end Sample

open Sample in
/-- **C86 is false in general**, with both update rules: with the same gradients of the parameters, the factors after a step depend on whether two losses
are backpropagated at once or one after the other. With `kfac_like` already for two equal losses. -/
theorem C86_false (kfac : Bool) : ∃ x y f f' g g' : ND ℚ, f.shape = f'.shape ∧ g.shape = g'.shape ∧ (kfac = true → f = f' ∧ g = g') ∧
    (runOk (atOnce x y f f' g g') (retained kfac)).isSome ∧ (runOk (oneByOne x y f f' g g') (retained kfac)).isSome ∧
    (run (atOnce x y f f' g g') (retained kfac)).opt.Ks "a" ≠ (run (oneByOne x y f f' g g') (retained kfac)).opt.Ks "a" := by
  cases kfac
  · refine ⟨row [2], row [1, 3], row [1], row [2], row [1], row [2], rfl, rfl, by simp, ?_, ?_, fun e => absurd (congrArg fac e) ?_⟩ <;> decide +kernel
  · refine ⟨row [2], row [1, 3], row [1], row [1], row [1], row [1], rfl, rfl, fun _ => ⟨rfl, rfl⟩, ?_, ?_, fun e => absurd (congrArg fac e) ?_⟩ <;> decide +kernel

section
variable {α : Type} [Field α] [LinearOrder α] [IsStrictOrderedRing α] [LawfulSqrt α]
namespace Sample

theorem bpass_hooks {cl : String → Cls × Cls} {w : World α} (hw : w.Live cl) (hl : w.opt.layers = [la, lb])
    (hu : ∀ m ∈ w.opt.layers, ∃ h, w.opt.hyperOf m = .ok h ∧ w.opt.steps % h.T = 0) (n : ℕ) (x0 x1 g0 g1 : ND α) :
    (run (bpass n x0 x1 g0 g1) w).hooks = w.hooks ++ [(la, x0)] ++ [(lb, x1)] := by
  have ma : la ∈ w.opt.layers := by rw [hl]; simp
  have mb : lb ∈ w.opt.layers := by rw [hl]; simp
  obtain ⟨ha', hha, hsa⟩ := hu la ma
  obtain ⟨hb', hhb, hsb⟩ := hu lb mb
  let v1 : World α := { w with hooks := w.hooks ++ [(la, x0)] }
  have e1 : exec (.forward 0 x0 true) w = (.ok (), v1) := forward_on _ (by rw [hl]; rfl) hha (hw.valid _ ma _ hha).period hsa
  have e2 : exec (.forward 1 x1 true) v1 = (.ok (), { w with hooks := w.hooks ++ [(la, x0)] ++ [(lb, x1)] }) :=
    forward_on (w := v1) _ (by show w.opt.layers[1]? = _; rw [hl]; rfl) hhb (hw.valid _ mb _ hhb).period hsb
  show (exec _ (exec _ (exec _ (exec _ w).2).2).2).2.hooks = _
  rw [(exec_backward _ _ _).hooks, (exec_backward _ _ _).hooks, e1, e2]

/-- forward through both layers of the sample model, and two backward passes through the same graph -/
def twice (x0 x1 g0 g1 g0' g1' : ND α) : List (Op α) := bpass 0 x0 x1 g0 g1 ++ [.backward 1 g1', .backward 0 g0']

theorem twice_states {cl : String → Cls × Cls} {w : World α} (hw : w.Live cl) (hl : w.opt.layers = [la, lb])
    (hu : ∀ m ∈ w.opt.layers, ∃ h, w.opt.hyperOf m = .ok h ∧ w.opt.steps % h.T = 0) (hn : w.hooks = []) {b : ℕ} (hb : 0 < b)
    {x0 x1 g0 g1 g0' g1' : ND α} (s0 : x0.shape = [b, 1]) (s1 : x1.shape = [b, 2]) (t0 : g0.shape = [b, 1]) (t1 : g1.shape = [b, 1])
    (t0' : g0'.shape = [b, 1]) (t1' : g1'.shape = [b, 1]) :
    FitsRun w (twice x0 x1 g0 g1 g0' g1') ∧ (∀ op ∈ twice x0 x1 g0 g1 g0' g1', op.Quiet) ∧
      fired "a" (twice x0 x1 g0 g1 g0' g1') w = [(x0, g0), (x0, g0')] ∧ fired "b" (twice x0 x1 g0 g1 g0' g1') w = [(x1, g1), (x1, g1')] := by
  obtain ⟨q1, _, _, _, q5, q6⟩ := bpass_states hw hl hu (n := 0) (by rw [hn]; rfl) hb s0 s1 t0 t1
  have hk := bpass_hooks hw hl hu 0 x0 x1 g0 g1
  rw [hn, List.nil_append] at hk
  have k1 : (run (bpass 0 x0 x1 g0 g1) w).hooks[1]? = some (lb, x1) := by rw [hk]; rfl
  have k0 : (exec (.backward 1 g1') (run (bpass 0 x0 x1 g0 g1) w)).2.hooks[0]? = some (la, x0) := by rw [(exec_backward _ _ _).hooks, hk]; rfl
  refine ⟨fitsRun_append_mk q1 ⟨?_, ?_, trivial⟩, ?_, ?_, ?_⟩
  · intro mx hmx; rw [k1] at hmx; cases hmx; exact ⟨b, [], t1', by simpa using hb⟩
  · intro mx hmx; rw [k0] at hmx; cases hmx; exact ⟨b, [], t0', by simpa using hb⟩
  · intro op hop
    rcases List.mem_append.1 hop with h | h
    · exact bpass_quiet op h
    · simp only [List.mem_cons, List.not_mem_nil, or_false] at h
      rcases h with rfl | rfl <;> trivial
  · rw [twice, fired_append, q5]
    simp only [fired, firedOp, k1, k0, Option.toList_some]
    rfl
  · rw [twice, fired_append, q6]
    simp only [fired, firedOp, k1, k0, Option.toList_some]
    rfl

end Sample
end

-- a mini-batch whose loss is backpropagated in two halves, and two losses
example : ∃ (cl : String → Cls × Cls) (w : World ℝ) (as bs : List (Op ℝ)), w.Live cl ∧ Accumulated 2 w w ∧ FitsRun w as ∧ FitsRun w bs ∧
    ShareRun 2 w w as bs ∧ SameTraining w w ∧ (∀ op ∈ as, op.Quiet) ∧ (∀ op ∈ bs, op.Quiet) ∧
    ∃ m ∈ w.opt.layers, ∃ us : List (ND ℝ × ND ℝ × ND ℝ), us ≠ [] ∧ (∀ u ∈ us, u.2.1.shape = u.2.2.shape) ∧
      (fired m.name as w).Perm (us.map fun u => (u.1, u.2.1.plus u.2.2)) ∧ (fired m.name bs w).Perm (us.flatMap fun u => [(u.1, u.2.1), (u.1, u.2.2)]) := by
  obtain ⟨o, ws, hi, hl, hh, ht⟩ := Sample.glive_init (α := ℝ)
  have I := Construct.init_ok (by decide) hi
  obtain ⟨cl, _, lv⟩ := I.live (grad := Sample.ggrad) ht one_pos
  have hu : ∀ m ∈ o.layers, ∃ h, o.hyperOf m = .ok h ∧ o.steps % h.T = 0 := fun m hm => ⟨_, hh m hm, by rw [I.steps]; rfl⟩
  obtain ⟨f1, _, _, _, a1, b1⟩ := Sample.bpass_states lv hl hu (n := 0) (b := 2) (x0 := Sample.batch 2 1) (x1 := Sample.batch 2 2) (g0 := Sample.batch 2 1)
    (g1 := Sample.batch 2 1) rfl (by decide) rfl rfl rfl rfl
  obtain ⟨f2, q2, a2, b2⟩ := Sample.twice_states lv hl hu rfl (b := 2) (x0 := Sample.batch 2 1) (x1 := Sample.batch 2 2) (g0 := (Sample.batch 2 1).smul (1 / ((2 : ℕ) : ℝ)))
    (g1 := (Sample.batch 2 1).smul (1 / ((2 : ℕ) : ℝ))) (g0' := (Sample.batch 2 1).smul (1 / ((2 : ℕ) : ℝ))) (g1' := (Sample.batch 2 1).smul (1 / ((2 : ℕ) : ℝ)))
    (by decide) rfl rfl rfl rfl rfl rfl
  have sp := ShareRun.passes (k := 2) Sample.bpass_quiet q2 (fun m (hm : m ∈ o.layers) => by
    rw [hl] at hm
    simp only [List.mem_cons, List.not_mem_nil, or_false] at hm
    rcases hm with rfl | rfl
    · rw [show fired Sample.la.name _ _ = _ from a1, show fired Sample.la.name _ _ = _ from a2]; exact List.Perm.refl _
    · rw [show fired Sample.lb.name _ _ = _ from b1, show fired Sample.lb.name _ _ = _ from b2]; exact List.Perm.refl _) (.done _ _)
  rw [List.append_nil, List.append_nil] at sp
  refine ⟨cl, _, _, _, lv, ⟨⟨rfl, rfl, rfl, rfl⟩, fun m _ => ⟨rfl, rfl, rfl, rfl, fun _ _ => rfl, fun _ _ => rfl⟩, rfl, rfl, rfl,
    fun m hm => ⟨?_, ?_, Iff.rfl, Iff.rfl⟩⟩, f1, f2, sp, .refl _, Sample.bpass_quiet, q2, Sample.la, by show _ ∈ o.layers; rw [hl]; simp,
    [(Sample.batch 2 1, (Sample.batch 2 1).smul (1 / ((2 : ℕ) : ℝ)), (Sample.batch 2 1).smul (1 / ((2 : ℕ) : ℝ)))], by simp, by simp, ?_, ?_⟩
  · show denO (o.HKs _) _ = _ • denO (o.HKs _) _; rw [I.HKs]; simp [denO]
  · show denO (o.HCs _) _ = _ • denO (o.HCs _) _; rw [I.HCs]; simp [denO]
  · rw [show fired Sample.la.name _ _ = _ from a1]
    have : (Sample.batch 2 1 : ND ℝ) = ((Sample.batch 2 1).smul (1 / ((2 : ℕ) : ℝ))).plus ((Sample.batch 2 1).smul (1 / ((2 : ℕ) : ℝ))) := by
      refine congrArg (ND.mk _) (funext fun i => ?_)
      simp only [ND.smul, Sample.batch]; push_cast; ring
    rw [List.map_cons, List.map_nil, ← this]
  · rw [show fired Sample.la.name _ _ = _ from a2]; exact List.Perm.refl _
