import Verif.Props.Scaling
import Verif.Proofs.Opt.InScale

/-! C62: only the Kronecker product of the factors matters. -/

set_option linter.unusedSectionVars false
open Construct Matrix

section
variable {α : Type} [Field α] [LinearOrder α] [HasSqrt α]

/-- Rescale an operation: the inputs of layer `m` are multiplied by `c m`, the gradients of its output divided by `c m`. (The layer's
weight gradient, a sum of products of both, stays the same, as do all other operations.) -/
def Op.rescale (c : String → α) (w : World α) : Op α → Op α
  | .forward i x ge => match w.opt.layers[i]? with
    | some m => .forward i (x.smul (c m.name)) ge
    | none => .forward i x ge
  | .backward k g => match w.hooks[k]? with
    | some mx => .backward k (g.smul (c mx.1.name)⁻¹)
    | none => .backward k g
  | op => op

/-- rescale every operation of a history -/
def rescaleRun (c : String → α) : World α → List (Op α) → List (Op α)
  | _, [] => []
  | w, op :: ops => op.rescale c w :: rescaleRun c (exec op w).2 ops

end

variable {α : Type} [Field α] [LinearOrder α] [IsStrictOrderedRing α] [LawfulSqrt α]

/-- `kfac_like=False` for all trained layers -/
def Coupled (w : World α) : Prop := ∀ m ∈ w.opt.layers, ∀ h, w.opt.hyperOf m = .ok h → h.kfacLike = false

/-- Two states that differ by scales: `K` multiplied by `k` and `C` divided by `k`, statistics and waiting inputs accordingly; everything else
is the same. -/
structure Kron (k c : String → α) (A B : World α) : Prop where
  conf : SameConf A B
  scales : A.opt.scales = B.opt.scales
  grad : A.grad = B.grad
  data : A.data = B.data
  mom : A.opt.mom = B.opt.mom
  hooks : A.hooks = B.hooks.map fun mx => (mx.1, mx.2.smul (c mx.1.name))
  K : ∀ m ∈ B.opt.layers, denO (A.opt.Ks m.name) m.nK = k m.name • denO (B.opt.Ks m.name) m.nK
  C : ∀ m ∈ B.opt.layers, denO (A.opt.Cs m.name) m.nC = (k m.name)⁻¹ • denO (B.opt.Cs m.name) m.nC
  mK : ∀ m ∈ B.opt.layers, A.opt.mKs m.name = B.opt.mKs m.name
  mC : ∀ m ∈ B.opt.layers, A.opt.mCs m.name = B.opt.mCs m.name
  HK0 : ∀ m ∈ B.opt.layers, A.opt.HKs m.name = none ↔ B.opt.HKs m.name = none
  HC0 : ∀ m ∈ B.opt.layers, A.opt.HCs m.name = none ↔ B.opt.HCs m.name = none
  HK : ∀ m ∈ B.opt.layers, denO (A.opt.HKs m.name) m.nK = (k m.name * c m.name) ^ 2 • denO (B.opt.HKs m.name) m.nK
  HC : ∀ m ∈ B.opt.layers, denO (A.opt.HCs m.name) m.nC = ((k m.name * c m.name) ^ 2)⁻¹ • denO (B.opt.HCs m.name) m.nC

theorem Cls.sandwich_smul_left (c : Cls) {n : ℕ} (A G : Matrix (Fin n) (Fin n) α) (s : α) : c.sandwich (s • A) G = (s ^ 2) • c.sandwich A G := by
  unfold Cls.sandwich
  split <;> simp [Matrix.mul_smul, Matrix.smul_mul, smul_smul, pow_two]

theorem Cls.gram_smul (c : Cls) {n : ℕ} (A : Matrix (Fin n) (Fin n) α) (s : α) : c.gram (s • A) = (s ^ 2) • c.gram A := by
  unfold Cls.gram
  split <;> simp [Matrix.mul_smul, Matrix.smul_mul, smul_smul, pow_two]

theorem natDir_kron (cl : Cls × Cls) {nC nK : ℕ} (s k : α) (hk : k ≠ 0) (G : Matrix (Fin nC) (Fin nK) α) (K : Matrix (Fin nK) (Fin nK) α)
    (C : Matrix (Fin nC) (Fin nC) α) : natDir cl s G (k • K) (k⁻¹ • C) = natDir cl s G K C := by
  rw [natDir, natDir, Cls.gram_smul, Cls.gram_smul, Matrix.transpose_smul, Matrix.mul_smul, Matrix.smul_mul, Matrix.smul_mul, smul_smul (k ^ 2), show k ^ 2 * k⁻¹ ^ 2 = 1 by field_simp, one_smul]

/-- the directions of both factors are the same -/
theorem dir_kron {cl : Cls × Cls} {m : Layer} (g : m.Good cl) {h : Hyper α} (hl : h.kfacLike = false) (u k c : α) (hk : k ≠ 0) (hc : c ≠ 0)
    (K HK : Matrix (Fin m.nK) (Fin m.nK) α) (C HC : Matrix (Fin m.nC) (Fin m.nC) α) :
    dirK cl m h u (k • K) ((k * c) ^ 2 • HK) (k⁻¹ • C) (((k * c) ^ 2)⁻¹ • HC) = dirK cl m h u K HK C HC ∧
    dirC cl m h u (k • K) ((k * c) ^ 2 • HK) (k⁻¹ • C) (((k * c) ^ 2)⁻¹ • HC) = dirC cl m h u K HK C HC := by
  constructor <;>
    simp only [dirK, dirC, updDir, hl, Bool.false_eq_true, if_false, avgTr_smul, smul_smul, Cls.sandwich_smul_left, proj_smul g.supK, proj_smul g.supC]
  · congr 4 <;> field_simp
  · congr 4 <;> field_simp

theorem Op.rescale_forward (c : String → α) (w : World α) (i : ℕ) (x : ND α) (ge : Bool) :
    Op.rescale c w (.forward i x ge) = .forward i (match w.opt.layers[i]? with | some m => x.smul (c m.name) | none => x) ge := by
  simp only [Op.rescale]; split <;> rfl
theorem Op.rescale_backward (c : String → α) (w : World α) (i : ℕ) (g : ND α) :
    Op.rescale c w (.backward i g) = .backward i (match w.hooks[i]? with | some mx => g.smul (c mx.1.name)⁻¹ | none => g) := by
  simp only [Op.rescale]; split <;> rfl

theorem shape_smul (x : ND α) (s : α) : (x.smul s).shape = x.shape := rfl

theorem Op.rescale_fits {k c : String → α} {A B : World α} (r : Kron k c A B) {op : Op α} (f : FitsOp B op) : FitsOp A (op.rescale c B) := by
  cases op with
  | forward i x ge =>
    have e := r.conf.layers
    rw [Op.rescale_forward]
    rcases hi : B.opt.layers[i]? with _ | m
    · intro m' hm'; rw [e, hi] at hm'; cases hm'
    · intro m' hm' h hh
      rw [e, hi] at hm'; cases hm'
      rw [r.conf.hyperOf] at hh
      exact f m hi h hh
  | backward i g =>
    rw [Op.rescale_backward]
    rcases hi : B.hooks[i]? with _ | mx
    · intro m' hm'; rw [r.hooks, List.getElem?_map, hi] at hm'; cases hm'
    · intro m' hm'
      rw [r.hooks, List.getElem?_map, hi] at hm'; cases hm'
      exact f mx hi
  | setGrad p G => exact trivial
  | setParam p M => show Mat.OfShape _ _ _; rw [r.data]; exact f
  | setHyper i h =>
    refine ⟨f.1, fun m hm hp => ?_⟩
    rw [r.conf.layers] at hm
    rw [r.conf.ptrGroup] at hp
    obtain ⟨f1, f2⟩ := f.2 m hm hp
    refine ⟨fun h' hh => f1 h' (by rw [← r.conf.hyperOf]; exact hh), fun ha => ?_⟩
    rw [r.mK m hm, r.mC m hm]; exact f2 ha
  | setScale s => exact f
  | step b a n =>
    refine ⟨f.1, f.2.1, fun hn m hm => ?_⟩
    rw [r.conf.layers] at hm
    obtain ⟨g, s⟩ := f.2.2 hn m hm
    refine ⟨⟨by rw [r.grad]; exact g.weight, by rw [r.grad]; exact g.bias⟩, fun h hh ht => ?_⟩
    rw [r.conf.hyperOf] at hh
    rw [r.conf.steps] at ht
    obtain ⟨s1, s2, s3⟩ := s h hh ht
    rw [Ne, r.HK0 m hm, Ne, r.HC0 m hm, r.mK m hm, r.mC m hm]
    exact ⟨s1, s2, s3⟩

/-- scales that fit the layers: not zero, and inputs are rescaled only for layers without bias (a bias appends an unscaled column of ones) -/
structure Scales (k c : String → α) (w : World α) : Prop where
  nzK : ∀ m ∈ w.opt.layers, k m.name ≠ 0
  nzC : ∀ m ∈ w.opt.layers, c m.name ≠ 0
  bias : ∀ m ∈ w.opt.layers, m.bias ≠ none → c m.name = 1

theorem Scales.congr {k c : String → α} {v w : World α} (h : Scales k c w) (e : v.opt.layers = w.opt.layers) : Scales k c v :=
  ⟨by rw [e]; exact h.nzK, by rw [e]; exact h.nzC, by rw [e]; exact h.bias⟩

theorem Coupled.congr {v w : World α} (h : Coupled w) (e : SameConf v w) : Coupled v := by
  intro m hm hy hh
  rw [e.layers] at hm
  rw [e.hyperOf] at hh
  exact h m hm hy hh

theorem inputMoment_rescale {k c : String → α} {w : World α} (s : Scales k c w) {m : Layer} (hm : m ∈ w.opt.layers) (h : Hyper α) (x : ND α) :
    inputMoment h m (x.smul (c m.name)) = (c m.name * c m.name) • inputMoment h m x := by
  rcases hb : m.bias with _ | b
  · exact inputMoment_smul h m hb x _
  · rw [s.bias m hm (by simp [hb]), ND.smul_one]; simp

theorem Kron.exec {cl : String → Cls × Cls} {k c : String → α} {A B : World α} {op : Op α} (lA : A.Live cl) (lB : B.Live cl) (fB : FitsOp B op)
    (s : Scales k c B) (hc : Coupled B) (r : Kron k c A B) : Kron k c (_root_.exec (op.rescale c B) A).2 (_root_.exec op B).2 := by
  have fA := Op.rescale_fits r fB
  have hlay := r.conf.layers
  cases op with
  | forward i x ge =>
    have : ∃ x', Op.rescale c B (.forward i x ge) = .forward i x' ge ∧ ∀ m, B.opt.layers[i]? = some m → x' = x.smul (c m.name) := by
      rw [Op.rescale_forward]
      rcases hi : B.opt.layers[i]? with _ | m
      · exact ⟨x, rfl, by simp⟩
      · exact ⟨_, rfl, by rintro m' e; cases e; rfl⟩
    obtain ⟨x', e, hx⟩ := this
    rw [e, exec_forward_state, exec_forward_state]
    refine ⟨⟨r.conf.1, r.conf.2, r.conf.3, r.conf.4⟩, r.scales, r.grad, r.data, r.mom, ?_, r.K, r.C, r.mK, r.mC, r.HK0, r.HC0, r.HK, r.HC⟩
    show A.hooks ++ _ = (B.hooks ++ _).map _
    rw [r.hooks, List.map_append]
    congr 1
    unfold newHooks
    rw [r.conf.layers]
    rcases hi : B.opt.layers[i]? with _ | m'
    · rfl
    · rw [hx m' hi]
      by_cases hc : ge = true ∧ World.Updates B.opt m'
      · simp only
        rw [if_pos hc, if_pos ⟨hc.1, (r.conf.updates m').2 hc.2⟩]; rfl
      · simp only
        rw [if_neg hc, if_neg (fun h => hc ⟨h.1, (r.conf.updates m').1 h.2⟩)]; rfl
  | backward i g =>
    rcases e2 : B.hooks[i]? with _ | x
    · have e1 : A.hooks[i]? = none := by rw [r.hooks, List.getElem?_map, e2]; rfl
      have er : Op.rescale c B (.backward i g) = .backward i g := by rw [Op.rescale_backward, e2]
      rw [er, exec_backward_none e1, exec_backward_none e2]; exact r
    have e1 : A.hooks[i]? = some (x.1, x.2.smul (c x.1.name)) := by rw [r.hooks, List.getElem?_map, e2]; rfl
    have er : Op.rescale c B (.backward i g) = .backward i (g.smul (c x.1.name)⁻¹) := by rw [Op.rescale_backward, e2]
    rw [er] at fA ⊢
    obtain ⟨mA, hA, qA, hhA, hqA, qA0, bA⟩ := lA.back e1 fA
    obtain ⟨mB, hB, qB, hhB, hqB, qB0, bB⟩ := lB.back e2 fB
    rw [r.conf.hyperOf, hhB] at hhA
    cases hhA
    rw [r.scales, r.conf.steps, hqB] at hqA
    cases hqA
    have frA := bA.frame
    have frB := bB.frame
    generalize (_root_.exec (.backward i (g.smul (c x.1.name)⁻¹)) A).2 = A' at *
    generalize (_root_.exec (.backward i g) B).2 = B' at *
    refine ⟨(frA.conf.trans r.conf).trans frB.conf.symm, by rw [frA.scales, frB.scales, r.scales], by rw [frA.grad, frB.grad, r.grad],
      by funext p; rw [frA.data _ id, frB.data _ id, r.data], by funext p; rw [frA.mom _ id, frB.mom _ id, r.mom],
      by rw [frA.hooks, frB.hooks, r.hooks], ?_, ?_, ?_, ?_, ?_, ?_, ?_, ?_⟩ <;> rw [frB.layers] <;> intro m hm
    · rw [frA.Ks _ id, frB.Ks _ id]; exact r.K m hm
    · rw [frA.Cs _ id, frB.Cs _ id]; exact r.C m hm
    · rw [frA.mKs _ id, frB.mKs _ id]; exact r.mK m hm
    · rw [frA.mCs _ id, frB.mCs _ id]; exact r.mC m hm
    · by_cases e : m.name = x.1.name
      · rw [e]; simp [bA.someK, bB.someK]
      · rw [frA.HKs _ e, frB.HKs _ e]; exact r.HK0 m hm
    · by_cases e : m.name = x.1.name
      · rw [e]; simp [bA.someC, bB.someC]
      · rw [frA.HCs _ e, frB.HCs _ e]; exact r.HC0 m hm
    · by_cases e : m.name = x.1.name
      · obtain rfl := lB.sound.untied.name_inj hm mB e
        have sup := (lB.sound.good _ hm).supK
        rw [bA.HK, bB.HK]
        simp only
        rw [r.HK _ hm, r.K _ hm, inputMoment_rescale s hm, Cls.sandwich_smul, Cls.sandwich_smul_left, proj_smul sup, proj_smul sup, smul_smul, smul_add]
        congr 2; ring
      · rw [frA.HKs _ e, frB.HKs _ e]; exact r.HK m hm
    · by_cases e : m.name = x.1.name
      · obtain rfl := lB.sound.untied.name_inj hm mB e
        have sup := (lB.sound.good _ hm).supC
        have k0 := s.nzK _ hm
        have c0 := s.nzC _ hm
        rw [bA.HC, bB.HC]
        simp only
        rw [r.HC _ hm, r.C _ hm, gradMoment_smul, Cls.sandwich_smul, Cls.sandwich_smul_left, proj_smul sup, proj_smul sup, smul_smul, smul_smul, smul_add, smul_smul]
        congr 2; field_simp
      · rw [frA.HCs _ e, frB.HCs _ e]; exact r.HC m hm
  | setGrad p G =>
    have e : Function.update A.grad p G = Function.update B.grad p G := by rw [r.grad]
    exact ⟨⟨r.conf.1, r.conf.2, r.conf.3, r.conf.4⟩, r.scales, e, r.data, r.mom, r.hooks, r.K, r.C, r.mK, r.mC, r.HK0, r.HC0, r.HK, r.HC⟩
  | setParam p M =>
    have e : Function.update A.data p M = Function.update B.data p M := by rw [r.data]
    exact ⟨⟨r.conf.1, r.conf.2, r.conf.3, r.conf.4⟩, r.scales, r.grad, e, r.mom, r.hooks, r.K, r.C, r.mK, r.mC, r.HK0, r.HC0, r.HK, r.HC⟩
  | setHyper i h =>
    show Kron k c (_root_.exec (.setHyper i h) A).2 (_root_.exec (.setHyper i h) B).2
    rw [exec_setHyper, exec_setHyper]
    refine ⟨⟨r.conf.1, r.conf.2, ?_, r.conf.4⟩, r.scales, r.grad, r.data, r.mom, r.hooks, r.K, r.C, r.mK, r.mC, r.HK0, r.HC0, r.HK, r.HC⟩
    show A.opt.groups.modify i _ = B.opt.groups.modify i _
    rw [r.conf.groups]
  | setScale z =>
    have eA : (_root_.exec (.setScale z) A).2 = _ := World.setScale_state z A
    have eB : (_root_.exec (.setScale z) B).2 = _ := World.setScale_state z B
    show Kron k c (_root_.exec (.setScale z) A).2 (_root_.exec (.setScale z) B).2
    rw [eA, eB]
    refine ⟨⟨r.conf.1, r.conf.2, r.conf.3, r.conf.4⟩, ?_, r.grad, r.data, r.mom, r.hooks, r.K, r.C, r.mK, r.mC, r.HK0, r.HC0, r.HK, r.HC⟩
    show Dict.set A.opt.scales A.opt.steps z = Dict.set B.opt.scales B.opt.steps z
    rw [r.scales, r.conf.steps]
  | step b t f =>
    change FitsOp A (.step b t f) at fA
    show Kron k c (_root_.exec (.step b t f) A).2 (_root_.exec (.step b t f) B).2
    obtain rfl := fA.1
    have cs : A.curScale t = B.curScale t := by unfold World.curScale; rw [r.scales, r.conf.steps]
    have us : A.unscale t = B.unscale t := by unfold World.unscale; rw [r.scales, r.conf.steps, cs]
    cases f
    · obtain ⟨A', eA, sA, _⟩ := lA.step fA
      obtain ⟨B', eB, sB, _⟩ := lB.step fB
      rw [eA, eB]
      rw [cs, us] at sA
      have L : ∀ m ∈ B.opt.layers, denO (A'.opt.Ks m.name) m.nK = k m.name • denO (B'.opt.Ks m.name) m.nK ∧
          denO (A'.opt.Cs m.name) m.nC = (k m.name)⁻¹ • denO (B'.opt.Cs m.name) m.nC ∧
          A'.opt.mKs m.name = B'.opt.mKs m.name ∧ A'.opt.mCs m.name = B'.opt.mCs m.name ∧
          (A'.opt.HKs m.name = none ↔ B'.opt.HKs m.name = none) ∧ (A'.opt.HCs m.name = none ↔ B'.opt.HCs m.name = none) ∧
          denO (A'.opt.HKs m.name) m.nK = (k m.name * c m.name) ^ 2 • denO (B'.opt.HKs m.name) m.nK ∧
          denO (A'.opt.HCs m.name) m.nC = ((k m.name * c m.name) ^ 2)⁻¹ • denO (B'.opt.HCs m.name) m.nC := by
        intro m hm
        obtain ⟨h, hh, hT⟩ := lB.sound.hyper m hm
        have LA := sA.layer m (hlay ▸ hm) h (by rw [r.conf.hyperOf]; exact hh)
        have LB := sB.layer m hm h hh
        by_cases h0 : B.opt.steps % h.T = 0
        · have vA := LA.upd (by rw [r.conf.steps]; exact h0)
          have vB := LB.upd h0
          obtain ⟨mK, mC, bK, bC, a1, a2, a3, a4, a5, a6, a7⟩ := vA.eqs
          obtain ⟨mK', mC', bK', bC', b1, b2, b3, b4, b5, b6, b7⟩ := vB.eqs
          obtain ⟨d1, d2⟩ := dir_kron (lB.sound.good m hm) (hc m hm h hh) (B.unscale t) (k m.name) (c m.name) (s.nzK m hm) (s.nzC m hm)
            (denO (B.opt.Ks m.name) _) (denO (B.opt.HKs m.name) _) (denO (B.opt.Cs m.name) _) (denO (B.opt.HCs m.name) _)
          rw [r.K m hm, r.C m hm, r.HK m hm, r.HC m hm] at a2 a3
          rw [d1, r.mK m hm] at a2
          rw [d2, r.mC m hm] at a3
          have e1 : mK = mK' := a2.trans b2.symm
          have e2 : mC = mC' := a3.trans b3.symm
          subst e1 e2
          rw [r.conf.steps] at a4 a5
          obtain rfl := a4.unique b4
          obtain rfl := a5.unique b5
          have mm : A'.opt.mKs m.name = B'.opt.mKs m.name ∧ A'.opt.mCs m.name = B'.opt.mCs m.name := by
            by_cases hz : h.alpha1 = 0
            · rw [(vA.mK0 hz).1, (vB.mK0 hz).1, (vA.mK0 hz).2, (vB.mK0 hz).2]; exact ⟨r.mK m hm, r.mC m hm⟩
            · obtain ⟨n1, n2, p1, p2⟩ := a1 hz
              obtain ⟨n3, n4, p3, p4⟩ := b1 hz
              exact ⟨optWF_ext vA.wf.mK vB.wf.mK (by simp [n1, n3]) (by rw [p1, p3]), optWF_ext vA.wf.mC vB.wf.mC (by simp [n2, n4]) (by rw [p2, p4])⟩
          refine ⟨?_, ?_, mm.1, mm.2, by rw [vA.HK, vB.HK], by rw [vA.HC, vB.HC], by rw [vA.HK, vB.HK]; simp [denO], by rw [vA.HC, vB.HC]; simp [denO]⟩
          · rw [a6, b6, r.K m hm, Matrix.smul_mul]
          · rw [a7, b7, r.C m hm, Matrix.smul_mul]
        · have nA := LA.noupd (by rw [r.conf.steps]; exact h0)
          have nB := LB.noupd h0
          rw [nA.Ks, nB.Ks, nA.Cs, nB.Cs, nA.mKs, nB.mKs, nA.mCs, nB.mCs, nA.HKs, nB.HKs, nA.HCs, nB.HCs]
          exact ⟨r.K m hm, r.C m hm, r.mK m hm, r.mC m hm, r.HK0 m hm, r.HC0 m hm, r.HK m hm, r.HC m hm⟩
      have P : ∀ p, A'.data p = B'.data p ∧ A'.opt.mom p = B'.opt.mom p := by
        intro p
        by_cases hp : ∃ m ∈ B.opt.layers, World.Owns m p
        · obtain ⟨m, hm, hp⟩ := hp
          obtain ⟨h, hh, hT⟩ := lB.sound.hyper m hm
          have LA := sA.layer m (hlay ▸ hm) h (by rw [r.conf.hyperOf]; exact hh)
          have LB := sB.layer m hm h hh
          have dir : natDir (cl m.name) (B.curScale t) (gradM A m) (denO (A'.opt.Ks m.name) m.nK) (denO (A'.opt.Cs m.name) m.nC) =
              natDir (cl m.name) (B.curScale t) (gradM B m) (denO (B'.opt.Ks m.name) m.nK) (denO (B'.opt.Cs m.name) m.nC) := by
            rw [(L m hm).1, (L m hm).2.1, natDir_kron _ _ _ (s.nzK m hm), gradM_congr r.grad]
          rcases hp with rfl | ⟨b, hb, rfl⟩
          · exact LA.apply.weight.two LB.apply.weight (by rw [dir]) (by rw [r.data]) (by rw [r.mom])
          · exact (LA.apply.bias b hb).two (LB.apply.bias b hb) (by rw [dir]) (by rw [r.data]) (by rw [r.mom])
        · have n1 : ∀ m ∈ B.opt.layers, ¬ World.Owns m p := fun m hm h => hp ⟨m, hm, h⟩
          obtain ⟨a1, a2⟩ := sA.otherP p (by rw [hlay]; exact n1)
          obtain ⟨b1, b2⟩ := sB.otherP p n1
          rw [a1, a2, b1, b2, r.data, r.mom]; exact ⟨rfl, rfl⟩
      refine ⟨⟨by rw [sA.layers, sB.layers, r.conf.layers], by rw [sA.ptrGroup, sB.ptrGroup, r.conf.ptrGroup],
          by rw [sA.groups, sB.groups, r.conf.groups], by rw [sA.steps, sB.steps, r.conf.steps]⟩,
        by funext z; rw [sA.scales, sB.scales, r.scales, r.conf.steps], by rw [sA.grad, sB.grad, r.grad], funext fun p => (P p).1, funext fun p => (P p).2,
        by rw [sA.hooks, sB.hooks, r.hooks], ?_, ?_, ?_, ?_, ?_, ?_, ?_, ?_⟩ <;> rw [sB.layers] <;> intro m hm
      · exact (L m hm).1
      · exact (L m hm).2.1
      · exact (L m hm).2.2.1
      · exact (L m hm).2.2.2.1
      · exact (L m hm).2.2.2.2.1
      · exact (L m hm).2.2.2.2.2.1
      · exact (L m hm).2.2.2.2.2.2.1
      · exact (L m hm).2.2.2.2.2.2.2
    · obtain ⟨A', eA, a1, a2, a3, a4, a5, a6, a7, a8, a9, a10, a11, a12, a13, a14⟩ := lA.skip t
      obtain ⟨B', eB, b1, b2, b3, b4, b5, b6, b7, b8, b9, b10, b11, b12, b13, b14⟩ := lB.skip t
      rw [eA, eB]
      have nA : ∀ m ∈ B.opt.layers, A'.opt.HKs m.name = none ∧ A'.opt.HCs m.name = none := fun m hm => by
        rw [(a14 _).1, (a14 _).2, if_pos ⟨m, hlay ▸ hm, rfl⟩, if_pos ⟨m, hlay ▸ hm, rfl⟩]; exact ⟨rfl, rfl⟩
      have nB : ∀ m ∈ B.opt.layers, B'.opt.HKs m.name = none ∧ B'.opt.HCs m.name = none := fun m hm => by
        rw [(b14 _).1, (b14 _).2, if_pos ⟨m, hm, rfl⟩, if_pos ⟨m, hm, rfl⟩]; exact ⟨rfl, rfl⟩
      refine ⟨⟨by rw [a1, b1, r.conf.layers], by rw [a2, b2, r.conf.ptrGroup], by rw [a3, b3, r.conf.groups], by rw [a4, b4, r.conf.steps]⟩,
        by funext z; rw [a13, b13, r.scales, r.conf.steps, cs], by rw [a12, b12, r.grad], by rw [a10, b10, r.data], by rw [a11, b11, r.mom],
        by rw [a5, b5, r.hooks], ?_, ?_, ?_, ?_, ?_, ?_, ?_, ?_⟩ <;> rw [b1] <;> intro m hm
      · rw [a6, b6]; exact r.K m hm
      · rw [a7, b7]; exact r.C m hm
      · rw [a8, b8]; exact r.mK m hm
      · rw [a9, b9]; exact r.mC m hm
      · rw [(nA m hm).1, (nB m hm).1]
      · rw [(nA m hm).2, (nB m hm).2]
      · rw [(nA m hm).1, (nB m hm).1]; simp [denO]
      · rw [(nA m hm).2, (nB m hm).2]; simp [denO]

/-- hyper-parameters assigned in a history keep `kfac_like=False` -/
def KeepsCoupled (ops : List (Op α)) : Prop := ∀ i h, Op.setHyper i h ∈ ops → h.kfacLike = false

theorem Coupled.exec {w : World α} {op : Op α} (h : Coupled w) (ho : ∀ i hy, op = .setHyper i hy → hy.kfacLike = false) : Coupled (_root_.exec op w).2 := by
  have e1 := (exec_static op w).1
  intro m hm hy hh
  rw [e1] at hm
  by_cases hs : ∃ i y, op = .setHyper i y
  · obtain ⟨i, y, rfl⟩ := hs
    rw [exec_setHyper, hyperOf_assign] at hh
    rcases e : w.opt.hyperOf m with er | h0
    · rw [e] at hh; cases hh
    · rw [e] at hh; cases hh
      show (if _ then _ else _ : Hyper α).kfacLike = false
      split
      · exact ho i y rfl
      · exact h m hm h0 e
  · rw [exec_hyperOf op w fun i y e => hs ⟨i, y, e⟩] at hh
    exact h m hm hy hh

theorem Kron.run {cl : String → Cls × Cls} {k c : String → α} : ∀ {ops : List (Op α)} {A B : World α}, A.Live cl → B.Live cl → FitsRun B ops →
    Scales k c B → Coupled B → KeepsCoupled ops → Kron k c A B →
    FitsRun A (rescaleRun c B ops) ∧ Kron k c (_root_.run (rescaleRun c B ops) A) (_root_.run ops B)
  | [], _, _, _, _, _, _, _, _, r => ⟨trivial, r⟩
  | op :: ops, A, B, lA, lB, fB, s, hc, hk, r => by
    have fA := Op.rescale_fits r fB.1
    obtain ⟨A', eA, lA'⟩ := lA.exec fA
    obtain ⟨B', eB, lB'⟩ := lB.exec fB.1
    have r' := r.exec lA lB fB.1 s hc
    have hc' := hc.exec (op := op) fun i h e => hk i h (by simp [e])
    have s' := s.congr (exec_static op B).1
    have fB2 := fB.2
    rw [eB] at r' hc' s' fB2
    rw [eA] at r'
    obtain ⟨g, q⟩ := Kron.run lA' lB' fB2 s' hc' (fun i h m => hk i h (List.mem_cons_of_mem _ m)) r'
    refine ⟨⟨fA, ?_⟩, ?_⟩
    · rw [eA, eB]; exact g
    · rw [rescaleRun, run_cons, run_cons, eA, eB]; exact q

/-- **C62 (general).** With `kfac_like=False`, a run started with `K` multiplied by `k` and `C` divided by `k`, in which inputs are multiplied
by `c` and output gradients divided by `c` (any scales per layer, `c = 1` for layers with bias), has the same parameters, momentum buffers
and factor momenta at any time, and its factors keep the scales `k` and `1/k`: only the Kronecker product `K ⊗ C` matters. -/
theorem C62_kronecker {cl : String → Cls × Cls} {k c : String → α} {ops : List (Op α)} {A B : World α} (lA : A.Live cl) (lB : B.Live cl)
    (fB : FitsRun B ops) (s : Scales k c B) (hc : Coupled B) (hk : KeepsCoupled ops) (r : Kron k c A B) :
    runOk (rescaleRun c B ops) A = some (run (rescaleRun c B ops) A) ∧
    (run (rescaleRun c B ops) A).data = (run ops B).data ∧ (run (rescaleRun c B ops) A).opt.mom = (run ops B).opt.mom ∧
    ∀ m ∈ B.opt.layers,
      denO ((run (rescaleRun c B ops) A).opt.Ks m.name) m.nK = k m.name • denO ((run ops B).opt.Ks m.name) m.nK ∧
      denO ((run (rescaleRun c B ops) A).opt.Cs m.name) m.nC = (k m.name)⁻¹ • denO ((run ops B).opt.Cs m.name) m.nC ∧
      (run (rescaleRun c B ops) A).opt.mKs m.name = (run ops B).opt.mKs m.name ∧
      (run (rescaleRun c B ops) A).opt.mCs m.name = (run ops B).opt.mCs m.name := by
  obtain ⟨f, q⟩ := Kron.run lA lB fB s hc hk r
  have el : (run ops B).opt.layers = B.opt.layers := run_inv (P := fun w => w.opt.layers = B.opt.layers)
    (fun op w h => (exec_static op w).1.trans h) ops B rfl
  refine ⟨(lA.run f).1, q.data, q.mom, fun m hm => ?_⟩
  rw [← el] at hm
  exact ⟨q.K m hm, q.C m hm, q.mK m hm, q.mC m hm⟩

/-- an object multiplied by a number (the object itself if that fails) -/
def SM.times (s : α) (K : SM α) : SM α := match K.smul s with | .ok P => P | .error _ => K

theorem SM.times_spec {c : Cls} {n : ℕ} {K : SM α} (hc : c.Regular) (hK : WF c n K) (s : α) : WF c n (K.times s) ∧ (K.times s).den n = s • K.den n := by
  obtain ⟨P, e, w, d⟩ := smsmul_spec hc hK s
  rw [SM.times, e]
  refine ⟨w, ?_⟩
  unfold SM.den
  rw [d]
  funext i j
  simp [Mat.M, Mat.get_smul, mul_comm]

/-- a state with scaled factors, statistics and waiting inputs -/
def World.rescaled (k c : String → α) (w : World α) : World α :=
  { w with
    opt := { w.opt with
      Ks := fun n => (w.opt.Ks n).map (SM.times (k n))
      Cs := fun n => (w.opt.Cs n).map (SM.times (k n)⁻¹)
      HKs := fun n => (w.opt.HKs n).map (SM.times ((k n * c n) ^ 2))
      HCs := fun n => (w.opt.HCs n).map (SM.times ((k n * c n) ^ 2)⁻¹) }
    hooks := w.hooks.map fun mx => (mx.1, mx.2.smul (c mx.1.name)) }

theorem denO_times {c : Cls} {n : ℕ} {x : Option (SM α)} (hc : c.Regular) (hx : ∀ X, x = some X → WF c n X) (s : α) :
    denO (x.map (SM.times s)) n = s • denO x n := by
  rcases x with _ | X
  · simp [denO]
  · exact (SM.times_spec hc (hx X rfl) s).2

/-- **C62 (scaled states exist).** Any state of training without misuse can be scaled. -/
theorem C62_scaled_state {cl : String → Cls × Cls} {B : World α} (lB : B.Live cl) (k c : String → α) :
    (B.rescaled k c).Live cl ∧ Kron k c (B.rescaled k c) B := by
  have w1 : ∀ {cc : Cls} {n : ℕ} {x : Option (SM α)} (s : α), cc.Regular → (∀ X, x = some X → WF cc n X) →
      ∀ X, x.map (SM.times s) = some X → WF cc n X := by
    intro cc n x s hc hx X e
    rcases x with _ | Y
    · cases e
    · cases e; exact (SM.times_spec hc (hx Y rfl) s).1
  refine ⟨⟨⟨lB.sound.untied, lB.sound.good, fun m hm => ?_, fun m hm => (lB.sound.shape m hm).congr (fun _ _ => rfl) fun _ _ => rfl, lB.sound.hyper⟩,
    lB.valid, ?_, lB.prev, lB.pos, lB.mom⟩, ?_⟩
  · have l := lB.sound.lay m hm
    have g := lB.sound.good m hm
    obtain ⟨K, eK, wK⟩ := l.K
    obtain ⟨C, eC, wC⟩ := l.C
    refine ⟨⟨K.times (k m.name), ?_, (SM.times_spec g.regK wK _).1⟩, ⟨C.times (k m.name)⁻¹, ?_, (SM.times_spec g.regC wC _).1⟩, l.mK, l.mC,
      w1 _ g.regK l.HK, w1 _ g.regC l.HC⟩
    · show (B.opt.Ks m.name).map _ = _
      rw [eK]; rfl
    · show (B.opt.Cs m.name).map _ = _
      rw [eC]; rfl
  · intro mx hmx
    obtain ⟨my, hy, rfl⟩ := List.mem_map.1 hmx
    exact ⟨(lB.hooks my hy).1, fun h hh => (lB.hooks my hy).2 h hh⟩
  · refine ⟨⟨rfl, rfl, rfl, rfl⟩, rfl, rfl, rfl, rfl, rfl, fun m hm => ?_, fun m hm => ?_, fun _ _ => rfl, fun _ _ => rfl, fun m _ => ?_, fun m _ => ?_,
      fun m hm => denO_times (lB.sound.good m hm).regK (lB.sound.lay m hm).HK _, fun m hm => denO_times (lB.sound.good m hm).regC (lB.sound.lay m hm).HC _⟩
    · obtain ⟨K, eK, wK⟩ := (lB.sound.lay m hm).K
      exact denO_times (lB.sound.good m hm).regK (fun X e => by rw [eK] at e; cases e; exact wK) _
    · obtain ⟨C, eC, wC⟩ := (lB.sound.lay m hm).C
      exact denO_times (lB.sound.good m hm).regC (fun X e => by rw [eC] at e; cases e; exact wC) _
    · show (B.opt.HKs m.name).map _ = none ↔ _
      simp
    · show (B.opt.HCs m.name).map _ = none ↔ _
      simp

/-- **C62 (from construction).** With `kfac_like=False`, multiplying the inputs of layers without bias by numbers `c ≠ 0` (per layer) and dividing the
gradients of their outputs by `c`, which does not change the gradients of weights, changes nothing: the same parameters, momentum
buffers, factors and factor momenta after every history. -/
theorem C62_rescale_invariance {structs : String → Option Cls} {model : Model} {p : ParamArg α} {a : Args α} {o : Opt α} {ws : List Warn}
    (hn : (model.layers.map (·.name)).Nodup) (hi : Construct.init structs model p a = .ok (o, ws)) {data : ℕ → Mat α} {grad : ℕ → Option (Mat α)}
    (ht : Trainable o data) (ha : 0 < a.initGradScale) (hl : ∀ m ∈ o.layers, ∀ h, o.hyperOf m = .ok h → h.kfacLike = false)
    {c : String → α} (h0 : ∀ m ∈ o.layers, c m.name ≠ 0) (hb : ∀ m ∈ o.layers, m.bias ≠ none → c m.name = 1)
    {ops : List (Op α)} (f : FitsRun ⟨o, data, grad, []⟩ ops) (hk : ∀ i h, Op.setHyper i h ∈ ops → h.kfacLike = false) :
    let w : World α := ⟨o, data, grad, []⟩
    ∃ A B, runOk (rescaleRun c w ops) w = some A ∧ runOk ops w = some B ∧ A.data = B.data ∧ A.opt.mom = B.opt.mom ∧
      ∀ m ∈ o.layers, A.opt.Ks m.name = B.opt.Ks m.name ∧ A.opt.Cs m.name = B.opt.Cs m.name ∧
        A.opt.mKs m.name = B.opt.mKs m.name ∧ A.opt.mCs m.name = B.opt.mCs m.name := by
  intro w
  obtain ⟨cl, _, l⟩ := (init_ok hn hi).live (grad := grad) ht ha
  have I := init_ok hn hi
  have hK : ∀ n, o.HKs n = none := fun n => by rw [I.HKs]
  have hC : ∀ n, o.HCs n = none := fun n => by rw [I.HCs]
  have s : Scales (fun _ => 1) c w := ⟨fun _ _ => one_ne_zero, h0, hb⟩
  have r : Kron (fun _ => 1) c w w := by
    refine ⟨⟨rfl, rfl, rfl, rfl⟩, rfl, rfl, rfl, rfl, rfl, fun _ _ => by simp, fun _ _ => by simp, fun _ _ => rfl, fun _ _ => rfl, fun _ _ => Iff.rfl,
      fun _ _ => Iff.rfl, fun m _ => ?_, fun m _ => ?_⟩
    · show denO (o.HKs m.name) _ = _ • denO (o.HKs m.name) _
      rw [hK]; simp [denO]
    · show denO (o.HCs m.name) _ = _ • denO (o.HCs m.name) _
      rw [hC]; simp [denO]
  obtain ⟨f', _⟩ := Kron.run l l f s hl hk r
  obtain ⟨q1, q2, q3, q4⟩ := C62_kronecker l l f s hl hk r
  obtain ⟨rB, lB⟩ := l.run f
  have lA := (l.run f').2
  refine ⟨_, _, q1, rB, q2, q3, fun m hm => ?_⟩
  have el : ∀ os : List (Op α), (run os w).opt.layers = o.layers := fun os => run_inv (P := fun v => v.opt.layers = o.layers)
    (fun op v h => (exec_static op v).1.trans h) os w rfl
  obtain ⟨e1, e2, e3, e4⟩ := q4 m hm
  refine ⟨(lA.sound.lay m (by rw [el]; exact hm)).Ks_ext (lB.sound.lay m (by rw [el]; exact hm)) (by simpa using e1),
    (lA.sound.lay m (by rw [el]; exact hm)).Cs_ext (lB.sound.lay m (by rw [el]; exact hm)) (by simpa using e2), e3, e4⟩

/-- **C62 (false for `kfac_like=True`).** With `kfac_like=True` the scales of inputs and output gradients matter: doubling the inputs of a layer
without bias and halving its output gradients changes the trained weight. -/
theorem C62_kfac_like_false : ∃ (w : World ℚ) (ops : List (Op ℚ)) (c : String → ℚ) (p : ℕ), Reachable supportedStructures w ∧
    (∀ m ∈ w.opt.layers, c m.name ≠ 0 ∧ (m.bias.isSome → c m.name = 1)) ∧ (∀ g ∈ w.opt.groups, g.h.kfacLike = true) ∧
    (runOk (rescaleRun c w ops) w).isSome = true ∧ (runOk ops w).isSome = true ∧
    ((run (rescaleRun c w ops) w).data p).toLists ≠ ((run ops w).data p).toLists :=
  ⟨Sample.world Sample.model .default { Sample.args with kfacLike := true }, Sample.pass ++ [.step false none false],
    fun n => if n = "b" then 2 else 1, 2, Sample.reachable (by decide +kernel) (by decide +kernel) [], by decide +kernel, by decide +kernel,
    by decide +kernel, by decide +kernel, by decide +kernel⟩

-- the same histories with `kfac_like=False`
example : ((run (rescaleRun (fun n => if n = "b" then 2 else 1) Sample.w0 (Sample.pass ++ [.step false none false])) Sample.w0).data 2).toLists =
    ((run (Sample.pass ++ [.step false none false]) Sample.w0).data 2).toLists ∧
    ((run (Sample.pass ++ [.step false none false]) Sample.w0).data 2).toLists ≠ (Sample.w0.data 2).toLists := by decide +kernel

-- the hypotheses of `C62_rescale_invariance` and `C62_kronecker` hold for a model with two layers, one of them without bias
example : ∃ (o : Opt ℝ) (ws : List Warn) (ops : List (Op ℝ)) (cl : String → Cls × Cls) (k c : String → ℝ),
    Construct.init supportedStructures Sample.model .default Sample.gargs = .ok (o, ws) ∧ Trainable o Sample.gdata ∧
    (∀ m ∈ o.layers, ∀ h, o.hyperOf m = .ok h → h.kfacLike = false) ∧ Scales k c ⟨o, Sample.gdata, Sample.ggrad, []⟩ ∧
    FitsRun ⟨o, Sample.gdata, Sample.ggrad, []⟩ ops ∧ KeepsCoupled ops ∧ World.Live cl ⟨o, Sample.gdata, Sample.ggrad, []⟩ ∧
    (∃ m ∈ o.layers, c m.name ≠ 1 ∧ k m.name ≠ 1) := by
  obtain ⟨o, ws, hi, hl, hh, ht⟩ := Sample.glive_init (α := ℝ)
  have I := init_ok (by decide) hi
  obtain ⟨cl, _, l⟩ := I.live (grad := Sample.ggrad) ht one_pos
  have hgr : ∀ m ∈ o.layers, LayerGrads ⟨o, Sample.gdata, Sample.ggrad, []⟩ m := by
    intro m hm
    rw [hl] at hm
    simp only [List.mem_cons, List.not_mem_nil, or_false] at hm
    rcases hm with rfl | rfl
    · exact ⟨⟨_, rfl, rfl, rfl⟩, fun b hb => by cases hb; exact ⟨_, rfl, rfl, rfl⟩⟩
    · exact ⟨⟨_, rfl, rfl, rfl⟩, fun b hb => by cases hb⟩
  obtain ⟨b1, b2, b3, b4, q1, q2, q3, q4, q5, q6, q7, q8, fB⟩ := Sample.pass_states l hl (fun m hm => ⟨_, hh m hm, by rw [I.steps]; rfl⟩) rfl
    (x0 := Sample.grow 1) (x1 := Sample.grow 2) (g0 := Sample.grow 1) (g1 := Sample.grow 1) rfl rfl rfl rfl hgr (attr := none) (by simp)
  refine ⟨o, ws, _, cl, fun _ => 3, fun n => if n = "b" then 2 else 1, hi, ht, fun m hm h e => ?_, ⟨fun _ _ => ?_, fun m _ => ?_, ?_⟩, fB, ?_, l,
    Sample.lb, by rw [hl]; simp, ?_, ?_⟩
  · rw [hh m hm] at e; cases e; rfl
  · norm_num
  · beta_reduce; split <;> norm_num
  · show ∀ m ∈ o.layers, _
    rw [hl]
    intro m hm hb
    simp only [List.mem_cons, List.not_mem_nil, or_false] at hm
    rcases hm with rfl | rfl
    · rfl
    · exact absurd rfl hb
  · intro i h hm; simp [Sample.wpass] at hm
  · simp [Sample.lb]
  · norm_num
