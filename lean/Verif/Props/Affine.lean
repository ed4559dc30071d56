import Verif.Props.Rotation

/-! C78: training without damping under arbitrary linear changes of variables. -/

set_option linter.unusedSectionVars false
open Construct Matrix

set_option allowUnsafeReducibility true in
attribute [local reducible] Layer.nC

section
variable {α : Type} [Field α] [LinearOrder α] [HasSqrt α]

/-- the bases in which parameters are given when inputs and output gradients are multiplied by the inverses -/
def Bases.dual (V : Bases α) : Bases α := ⟨fun m => (V.R m)ᵀ, fun m => (V.S m)ᵀ⟩

/-- an operation in other variables, for linear layers: inputs are multiplied by `R`, output gradients by `S`, gradients transform like them, parameters inversely -/
def Op.reparam (U V : Bases α) (w : World α) : Op α → Op α
  | .setParam p M => .setParam p (V.dual.param w.opt.layers p M)
  | op => op.rotate U w

/-- a history in other variables -/
def reparamRun (U V : Bases α) : World α → List (Op α) → List (Op α)
  | _, [] => []
  | w, op :: ops => op.reparam U V w :: reparamRun U V (exec op w).2 ops

end

variable {α : Type} [Field α] [LinearOrder α] [IsStrictOrderedRing α] [LawfulSqrt α]

/-- Changes of variables of the layers: `P` of the inputs (with the constant feature of the bias, if there is one), `Q` of the output gradients. Nothing is required of
the matrices: they need be neither orthogonal nor invertible, and `P` may mix the inputs with the constant feature. -/
structure Vars (α : Type) where
  P : (m : Layer) → Matrix (Fin m.nK) (Fin m.nK) α
  Q : (m : Layer) → Matrix (Fin m.nC) (Fin m.nC) α

/-- the matrix `[W, b]` of a layer, for values, gradients or momentum buffers `f` of the parameters; a missing tensor counts as 0 -/
def jointM (f : ℕ → Option (Mat α)) (m : Layer) : Matrix (Fin m.nC) (Fin m.nK) α := fun i j =>
  if j.1 < m.din then ((f m.weight.ptr).map fun G => G.get i j).getD 0
  else (m.bias.bind fun b => (f b.ptr).map fun G => G.get i 0).getD 0

theorem gradM_joint (w : World α) (m : Layer) : gradM w m = jointM w.grad m := rfl

theorem jointM_weight (f : ℕ → Option (Mat α)) (m : Layer) : weightPart (jointM f m) = momO (f m.weight.ptr) m.dout m.din := by
  funext i j
  rw [weightPart, momO_get, jointM, if_pos j.2]

theorem jointM_bias (f : ℕ → Option (Mat α)) {m : Layer} {b : Param} (hb : m.bias = some b) :
    biasPart (by simp [hb]) (jointM f m) = momO (f b.ptr) m.dout 1 := by
  funext i j
  rw [biasPart, momO_get, jointM, if_neg (lt_irrefl _), hb]
  simp [Fin.eq_zero j]

/-- a matrix is determined by its weight columns and its bias column -/
theorem parts_ext {m : Layer} {M N : Matrix (Fin m.nC) (Fin m.nK) α} (h1 : weightPart M = weightPart N)
    (h2 : ∀ b, ∀ hb : m.bias = some b, biasPart (by simp [hb]) M = biasPart (by simp [hb]) N) : M = N := by
  funext i j
  by_cases hj : j.1 < m.din
  · exact congrFun (congrFun h1 i) ⟨j.1, hj⟩
  · have h3 : m.nK = m.din + if m.bias.isSome then 1 else 0 := rfl
    have h4 : j.1 < m.nK := j.2
    rcases hb : m.bias with _ | b
    · simp [hb] at h3; omega
    · have e : j = ⟨m.din, by unfold Layer.nK; simp [hb]⟩ := by
        ext; simp [hb] at h3; show j.1 = m.din; omega
      have := congrFun (congrFun (h2 b hb) i) 0
      rw [e]; exact this

/-- State `A` is state `B` in other variables: the inputs of `A` are those of `B` times `P`, its output gradients those of `B` times `Q`. Parameters and momentum buffers
transform the other way round, the factors absorb the change of variables from the left, and statistics and momenta of the factors are the same. -/
structure InVars (U : Vars α) (A B : World α) : Prop where
  conf : SameConf A B
  scales : A.opt.scales = B.opt.scales
  data : ∀ m ∈ B.opt.layers, jointM (fun p => some (B.data p)) m = U.Q m * jointM (fun p => some (A.data p)) m * (U.P m)ᵀ
  mom : ∀ m ∈ B.opt.layers, jointM B.opt.mom m = U.Q m * jointM A.opt.mom m * (U.P m)ᵀ
  other : ∀ p, (∀ m ∈ B.opt.layers, ¬ World.Owns m p) → A.data p = B.data p
  hooks : List.Forall₂ (fun a b => a.1 = b.1 ∧ ∀ h, inputMoment h b.1 a.2 = (U.P b.1)ᵀ * inputMoment h b.1 b.2 * U.P b.1) A.hooks B.hooks
  K : ∀ m ∈ B.opt.layers, denO (B.opt.Ks m.name) m.nK = U.P m * denO (A.opt.Ks m.name) m.nK
  C : ∀ m ∈ B.opt.layers, denO (B.opt.Cs m.name) m.nC = U.Q m * denO (A.opt.Cs m.name) m.nC
  mK : ∀ m ∈ B.opt.layers, denO (A.opt.mKs m.name) m.nK = denO (B.opt.mKs m.name) m.nK
  mC : ∀ m ∈ B.opt.layers, denO (A.opt.mCs m.name) m.nC = denO (B.opt.mCs m.name) m.nC
  HK : ∀ m ∈ B.opt.layers, denO (A.opt.HKs m.name) m.nK = denO (B.opt.HKs m.name) m.nK
  HC : ∀ m ∈ B.opt.layers, denO (A.opt.HCs m.name) m.nC = denO (B.opt.HCs m.name) m.nC
  present : ∀ m ∈ B.opt.layers, (A.opt.HKs m.name = none ↔ B.opt.HKs m.name = none) ∧ (A.opt.HCs m.name = none ↔ B.opt.HCs m.name = none) ∧
    (A.opt.mKs m.name = none ↔ B.opt.mKs m.name = none) ∧ (A.opt.mCs m.name = none ↔ B.opt.mCs m.name = none)

/-- Operation `a` (on state `A`) is operation `b` (on `B`) in other variables: the second moments of inputs and output gradients are transformed; gradients are assigned to
the same parameters and, whenever a step is taken, are transformed; assigned parameters are transformed; everything else is the same. The preconditioner is updated without
damping. -/
def VarOp (U : Vars α) (A B : World α) : Op α → Op α → Prop
  | .forward i x ge, .forward j y ge' => i = j ∧ ge = ge' ∧
      ∀ m, B.opt.layers[j]? = some m → ∀ h, inputMoment h m x = (U.P m)ᵀ * inputMoment h m y * U.P m
  | .backward k g, .backward l g' => k = l ∧ ∀ mx, B.hooks[l]? = some mx → ∀ h, gradMoment h mx.1 g = (U.Q mx.1)ᵀ * gradMoment h mx.1 g' * U.Q mx.1
  | .setGrad p _, .setGrad q _ => p = q
  | .setParam p M, .setParam q M' => p = q ∧ ((∀ m ∈ B.opt.layers, ¬ World.Owns m p) → M = M') ∧
      ∀ m ∈ B.opt.layers, World.Owns m p → jointM (fun r => some (Function.update B.data p M' r)) m =
        U.Q m * jointM (fun r => some (Function.update A.data p M r)) m * (U.P m)ᵀ
  | .setHyper i h, .setHyper j h' => i = j ∧ h = h'
  | .setScale s, .setScale s' => s = s'
  | .step c t f, .step c' t' f' => c = c' ∧ t = t' ∧ f = f' ∧ (f' = false → ∀ m ∈ B.opt.layers,
      gradM A m = (U.Q m)ᵀ * gradM B m * U.P m ∧ ∀ h, B.opt.hyperOf m = .ok h → h.T ∣ B.opt.steps → h.damping = 0)
  | _, _ => False

theorem dir_undamped {cl : Cls × Cls} {m : Layer} {h : Hyper α} (h0 : h.damping = 0) (u : α) (K K' HK : Matrix (Fin m.nK) (Fin m.nK) α)
    (C C' HC : Matrix (Fin m.nC) (Fin m.nC) α) : dirK cl m h u K HK C HC = dirK cl m h u K' HK C' HC ∧ dirC cl m h u K HK C HC = dirC cl m h u K' HK C' HC := by
  constructor <;> simp [dirK, dirC, updDir, h0]

theorem natDir_vars {cl : Cls × Cls} (n1 : ¬ cl.1.IsBlock) (n2 : ¬ cl.2.IsBlock) {nC nK : ℕ} {P : Matrix (Fin nK) (Fin nK) α} {Q : Matrix (Fin nC) (Fin nC) α}
    (s : α) (G : Matrix (Fin nC) (Fin nK) α) (K : Matrix (Fin nK) (Fin nK) α) (C : Matrix (Fin nC) (Fin nC) α) :
    natDir cl s G (P * K) (Q * C) = Q * natDir cl s (Qᵀ * G * P) K C * Pᵀ := by
  simp only [natDir, Cls.gram_eq n1, Cls.gram_eq n2, Matrix.transpose_mul, Matrix.transpose_transpose, Matrix.mul_smul, Matrix.smul_mul, Matrix.mul_assoc]

theorem jointM_congr {f g : ℕ → Option (Mat α)} {m : Layer} (h : ∀ p, World.Owns m p → f p = g p) : jointM f m = jointM g m := by
  funext i j
  unfold jointM
  split
  · rw [h _ (Or.inl rfl)]
  · rcases hb : m.bias with _ | b
    · rfl
    · simp [h b.ptr (Or.inr ⟨b, hb, rfl⟩)]

/-- What a step does to the matrix `[W, b]` of a layer and to its momentum buffers. -/
theorem joint_step {h : Hyper α} {m : Layer} {N : Matrix (Fin m.nC) (Fin m.nK) α} {w w' : World α} (s : World.ApplySpec h m N w w') :
    jointM (fun p => some (w'.data p)) m = jointM (fun p => some (w.data p)) m -
      h.lr • (h.momentum • jointM w.opt.mom m + (N + h.weightDecay • jointM (fun p => some (w.data p)) m)) ∧
    jointM w'.opt.mom m = if h.momentum = 0 then jointM w.opt.mom m
      else h.momentum • jointM w.opt.mom m + (N + h.weightDecay • jointM (fun p => some (w.data p)) m) := by
  have dw : ∀ v : World α, weightPart (jointM (fun p => some (v.data p)) m) = (v.data m.weight.ptr).M m.dout m.din := fun v => jointM_weight _ m
  have db : ∀ (v : World α) b (hb : m.bias = some b), biasPart (by simp [hb]) (jointM (fun p => some (v.data p)) m) = (v.data b.ptr).M m.dout 1 :=
    fun v b hb => jointM_bias _ hb
  have lw : ∀ (X : Matrix (Fin m.nC) (Fin m.nK) α) (Y : Matrix (Fin m.nC) (Fin m.nK) α) (c : α),
      weightPart (X - c • Y) = weightPart X - c • weightPart Y ∧ weightPart (X + Y) = weightPart X + weightPart Y ∧ weightPart (c • Y) = c • weightPart Y :=
    fun _ _ _ => ⟨rfl, rfl, rfl⟩
  have lb : ∀ (hb : m.bias.isSome) (X : Matrix (Fin m.nC) (Fin m.nK) α) (Y : Matrix (Fin m.nC) (Fin m.nK) α) (c : α),
      biasPart hb (X - c • Y) = biasPart hb X - c • biasPart hb Y ∧ biasPart hb (X + Y) = biasPart hb X + biasPart hb Y ∧ biasPart hb (c • Y) = c • biasPart hb Y :=
    fun _ _ _ _ => ⟨rfl, rfl, rfl⟩
  constructor
  · refine parts_ext ?_ fun b hb => ?_
    · rw [dw, s.weight.data, (lw _ _ _).1, (lw _ _ 0).2.1, (lw 0 _ _).2.2, (lw _ _ 0).2.1, (lw 0 _ _).2.2, dw, jointM_weight]
    · rw [db _ b hb, (s.bias b hb).data, (lb _ _ _ _).1, (lb _ _ _ 0).2.1, (lb _ 0 _ _).2.2, (lb _ _ _ 0).2.1, (lb _ 0 _ _).2.2, db _ b hb, jointM_bias _ hb]
  · split
    · next h0 =>
      refine parts_ext ?_ fun b hb => ?_
      · rw [jointM_weight, jointM_weight, s.weight.mom0 h0]
      · rw [jointM_bias _ hb, jointM_bias _ hb, (s.bias b hb).mom0 h0]
    · next h0 =>
      refine parts_ext ?_ fun b hb => ?_
      · rw [jointM_weight, (s.weight.mom1 h0).2, (lw _ _ 0).2.1, (lw 0 _ _).2.2, (lw _ _ 0).2.1, (lw 0 _ _).2.2, dw, jointM_weight]
      · rw [jointM_bias _ hb, ((s.bias b hb).mom1 h0).2, (lb _ _ _ 0).2.1, (lb _ 0 _ _).2.2, (lb _ _ _ 0).2.1, (lb _ 0 _ _).2.2, db _ b hb, jointM_bias _ hb]

/-- no layer has a block-diagonal factor -/
def NoBlock (cl : String → Cls × Cls) (w : World α) : Prop := ∀ m ∈ w.opt.layers, ¬ (cl m.name).1.IsBlock ∧ ¬ (cl m.name).2.IsBlock

theorem InVars.exec {cl : String → Cls × Cls} {U : Vars α} {A B : World α} {a b : Op α} (lA : A.Live cl) (lB : B.Live cl) (fA : FitsOp A a)
    (fB : FitsOp B b) (nb : NoBlock cl B) (r : InVars U A B) (ho : VarOp U A B a b) : InVars U (_root_.exec a A).2 (_root_.exec b B).2 := by
  have hlay := r.conf.layers
  cases b with
  | forward i x ge =>
    cases a with
    | forward i' x' ge' =>
      obtain ⟨rfl, rfl, hx⟩ := ho
      rw [exec_forward_state, exec_forward_state]
      refine ⟨⟨r.conf.1, r.conf.2, r.conf.3, r.conf.4⟩, r.scales, r.data, r.mom, r.other, ?_, r.K, r.C, r.mK, r.mC, r.HK, r.HC, r.present⟩
      show List.Forall₂ _ (A.hooks ++ _) (B.hooks ++ _)
      refine List.rel_append r.hooks ?_
      unfold newHooks
      rw [r.conf.layers]
      rcases hi : B.opt.layers[i']? with _ | m'
      · exact .nil
      · by_cases hc : ge' = true ∧ World.Updates B.opt m'
        · simp only
          rw [if_pos hc, if_pos ⟨hc.1, (r.conf.updates m').2 hc.2⟩]
          exact .cons ⟨rfl, hx m' hi⟩ .nil
        · simp only
          rw [if_neg hc, if_neg (fun h => hc ⟨h.1, (r.conf.updates m').1 h.2⟩)]
          exact .nil
    | _ => exact ho.elim
  | backward i g =>
    cases a with
    | backward i' g' =>
      obtain ⟨rfl, hg⟩ := ho
      rcases e2 : B.hooks[i']? with _ | x
      · have e1 : A.hooks[i']? = none := by
          rw [List.getElem?_eq_none_iff] at e2 ⊢
          rw [r.hooks.length_eq]; exact e2
        rw [exec_backward_none e1, exec_backward_none e2]; exact r
      obtain ⟨hl, e2'⟩ := List.getElem?_eq_some_iff.1 e2
      have hl' : i' < A.hooks.length := by rw [r.hooks.length_eq]; exact hl
      obtain ⟨ex, hx⟩ := (List.forall₂_iff_get.1 r.hooks).2 i' hl' hl
      rw [List.get_eq_getElem, List.get_eq_getElem, e2'] at ex hx
      have e1 : A.hooks[i']? = some (x.1, (A.hooks[i']).2) := by
        rw [List.getElem?_eq_getElem hl', ← ex]
      generalize (A.hooks[i']).2 = y at *
      obtain ⟨mA, hA, qA, hhA, hqA, qA0, bA⟩ := lA.back e1 fA
      obtain ⟨mB, hB, qB, hhB, hqB, qB0, bB⟩ := lB.back e2 fB
      rw [r.conf.hyperOf, hhB] at hhA
      cases hhA
      rw [r.scales, r.conf.steps, hqB] at hqA
      cases hqA
      have frA := bA.frame
      have frB := bB.frame
      have hg' := hg x e2
      generalize (_root_.exec (.backward i' g') A).2 = A' at *
      generalize (_root_.exec (.backward i' g) B).2 = B' at *
      refine ⟨(frA.conf.trans r.conf).trans frB.conf.symm, by rw [frA.scales, frB.scales, r.scales], ?_, ?_, ?_,
        by rw [frA.hooks, frB.hooks]; exact r.hooks, ?_, ?_, ?_, ?_, ?_, ?_, ?_⟩ <;> rw [frB.layers]
      · intro m hm
        rw [show (fun p => some (B'.data p)) = fun p => some (B.data p) from funext fun p => by rw [frB.data _ id],
          show (fun p => some (A'.data p)) = fun p => some (A.data p) from funext fun p => by rw [frA.data _ id]]
        exact r.data m hm
      · intro m hm
        rw [show B'.opt.mom = B.opt.mom from funext fun p => frB.mom _ id, show A'.opt.mom = A.opt.mom from funext fun p => frA.mom _ id]
        exact r.mom m hm
      · intro p hp; rw [frA.data _ id, frB.data _ id]; exact r.other p hp
      · intro m hm; rw [frA.Ks _ id, frB.Ks _ id]; exact r.K m hm
      · intro m hm; rw [frA.Cs _ id, frB.Cs _ id]; exact r.C m hm
      · intro m hm; rw [frA.mKs _ id, frB.mKs _ id]; exact r.mK m hm
      · intro m hm; rw [frA.mCs _ id, frB.mCs _ id]; exact r.mC m hm
      · intro m hm
        by_cases e : m.name = x.1.name
        · obtain rfl := lB.sound.untied.name_inj hm mB e
          rw [bA.HK, bB.HK]
          simp only
          rw [r.HK _ hm, r.K _ hm, hx, sandwich_not_block (nb _ hm).1, sandwich_not_block (nb _ hm).1, Matrix.transpose_mul]
          simp only [Matrix.mul_assoc]
        · rw [frA.HKs _ e, frB.HKs _ e]; exact r.HK m hm
      · intro m hm
        by_cases e : m.name = x.1.name
        · obtain rfl := lB.sound.untied.name_inj hm mB e
          rw [bA.HC, bB.HC]
          simp only
          rw [r.HC _ hm, r.C _ hm, hg', sandwich_not_block (nb _ hm).2, sandwich_not_block (nb _ hm).2, Matrix.transpose_mul]
          simp only [Matrix.mul_assoc]
        · rw [frA.HCs _ e, frB.HCs _ e]; exact r.HC m hm
      · intro m hm
        rw [frA.mKs _ id, frB.mKs _ id, frA.mCs _ id, frB.mCs _ id]
        obtain ⟨n1, n2, n3, n4⟩ := r.present m hm
        by_cases e : m.name = x.1.name
        · refine ⟨?_, ?_, n3, n4⟩
          · rw [e]; simp [bA.someK, bB.someK]
          · rw [e]; simp [bA.someC, bB.someC]
        · rw [frA.HKs _ e, frB.HKs _ e, frA.HCs _ e, frB.HCs _ e]; exact ⟨n1, n2, n3, n4⟩
    | _ => exact ho.elim
  | setGrad p G =>
    cases a with
    | setGrad p' G' => exact ⟨⟨r.conf.1, r.conf.2, r.conf.3, r.conf.4⟩, r.scales, r.data, r.mom, r.other, r.hooks, r.K, r.C, r.mK, r.mC, r.HK, r.HC, r.present⟩
    | _ => exact ho.elim
  | setParam p M =>
    cases a with
    | setParam p' M' =>
      obtain ⟨rfl, hM, hJ⟩ := ho
      refine ⟨⟨r.conf.1, r.conf.2, r.conf.3, r.conf.4⟩, r.scales, fun m hm => ?_, r.mom, fun q hq => ?_, r.hooks, r.K, r.C, r.mK, r.mC, r.HK, r.HC, r.present⟩
      · show jointM (fun q => some (Function.update B.data p' M q)) m = U.Q m * jointM (fun q => some (Function.update A.data p' M' q)) m * (U.P m)ᵀ
        by_cases e : World.Owns m p'
        · exact hJ m hm e
        · rw [jointM_congr (g := fun q => some (B.data q)), jointM_congr (f := fun q => some (Function.update A.data p' M' q)) (g := fun q => some (A.data q))]
          · exact r.data m hm
          all_goals
            intro q hq
            have : q ≠ p' := fun h => e (h ▸ hq)
            simp [this]
      · show Function.update A.data p' M' q = Function.update B.data p' M q
        by_cases e : q = p'
        · subst e; simp [hM hq]
        · simpa [e] using r.other q hq
    | _ => exact ho.elim
  | setHyper i h =>
    cases a with
    | setHyper i' h' =>
      obtain ⟨rfl, rfl⟩ := ho
      rw [exec_setHyper, exec_setHyper]
      refine ⟨⟨r.conf.1, r.conf.2, ?_, r.conf.4⟩, r.scales, r.data, r.mom, r.other, r.hooks, r.K, r.C, r.mK, r.mC, r.HK, r.HC, r.present⟩
      show A.opt.groups.modify i' _ = B.opt.groups.modify i' _
      rw [r.conf.groups]
    | _ => exact ho.elim
  | setScale z =>
    cases a with
    | setScale z' =>
      obtain rfl : z' = z := ho
      have eA : (_root_.exec (.setScale z') A).2 = _ := World.setScale_state z' A
      have eB : (_root_.exec (.setScale z') B).2 = _ := World.setScale_state z' B
      rw [eA, eB]
      refine ⟨⟨r.conf.1, r.conf.2, r.conf.3, r.conf.4⟩, ?_, r.data, r.mom, r.other, r.hooks, r.K, r.C, r.mK, r.mC, r.HK, r.HC, r.present⟩
      show Dict.set A.opt.scales A.opt.steps z' = Dict.set B.opt.scales B.opt.steps z'
      rw [r.scales, r.conf.steps]
    | _ => exact ho.elim
  | step b t f =>
    cases a with
    | step b' t' f' =>
      obtain ⟨rfl, rfl, rfl, hN⟩ := ho
      obtain rfl := fA.1
      have cs : A.curScale t' = B.curScale t' := by unfold World.curScale; rw [r.scales, r.conf.steps]
      have us : A.unscale t' = B.unscale t' := by unfold World.unscale; rw [r.scales, r.conf.steps, cs]
      cases f'
      · obtain ⟨A', eA, sA, _⟩ := lA.step fA
        obtain ⟨B', eB, sB, _⟩ := lB.step fB
        rw [eA, eB]
        rw [cs, us] at sA
        have L : ∀ m ∈ B.opt.layers, denO (B'.opt.Ks m.name) m.nK = U.P m * denO (A'.opt.Ks m.name) m.nK ∧
            denO (B'.opt.Cs m.name) m.nC = U.Q m * denO (A'.opt.Cs m.name) m.nC ∧
            denO (A'.opt.mKs m.name) m.nK = denO (B'.opt.mKs m.name) m.nK ∧
            denO (A'.opt.mCs m.name) m.nC = denO (B'.opt.mCs m.name) m.nC ∧
            denO (A'.opt.HKs m.name) m.nK = denO (B'.opt.HKs m.name) m.nK ∧
            denO (A'.opt.HCs m.name) m.nC = denO (B'.opt.HCs m.name) m.nC ∧
            (A'.opt.HKs m.name = none ↔ B'.opt.HKs m.name = none) ∧ (A'.opt.HCs m.name = none ↔ B'.opt.HCs m.name = none) ∧
            (A'.opt.mKs m.name = none ↔ B'.opt.mKs m.name = none) ∧ (A'.opt.mCs m.name = none ↔ B'.opt.mCs m.name = none) := by
          intro m hm
          obtain ⟨h, hh, hT⟩ := lB.sound.hyper m hm
          have LA := sA.layer m (hlay ▸ hm) h (by rw [r.conf.hyperOf]; exact hh)
          have LB := sB.layer m hm h hh
          by_cases h0 : B.opt.steps % h.T = 0
          · have vA := LA.upd (by rw [r.conf.steps]; exact h0)
            have vB := LB.upd h0
            obtain ⟨mK, mC, bK, bC, a1, a2, a3, a4, a5, a6, a7⟩ := vA.eqs
            obtain ⟨mK', mC', bK', bC', b1, b2, b3, b4, b5, b6, b7⟩ := vB.eqs
            have d0 := (hN rfl m hm).2 h hh (Nat.dvd_of_mod_eq_zero h0)
            rw [r.HK m hm, r.HC m hm] at a2 a3
            rw [r.mK m hm, (dir_undamped d0 (B.unscale t') _ (denO (B.opt.Ks m.name) _) _ _ (denO (B.opt.Cs m.name) _) _).1, ← b2] at a2
            rw [r.mC m hm, (dir_undamped d0 (B.unscale t') _ (denO (B.opt.Ks m.name) _) _ _ (denO (B.opt.Cs m.name) _) _).2, ← b3] at a3
            subst a2 a3
            rw [r.conf.steps] at a4 a5
            obtain rfl := a4.unique b4
            obtain rfl := a5.unique b5
            refine ⟨?_, ?_, ?_, ?_, by rw [vA.HK, vB.HK], by rw [vA.HC, vB.HC], by rw [vA.HK, vB.HK], by rw [vA.HC, vB.HC], ?_⟩
            · rw [a6, b6, r.K m hm, Matrix.mul_assoc]
            · rw [a7, b7, r.C m hm, Matrix.mul_assoc]
            · by_cases hz : h.alpha1 = 0
              · rw [(vA.mK0 hz).1, (vB.mK0 hz).1]; exact r.mK m hm
              · rw [(a1 hz).2.2.1, (b1 hz).2.2.1]
            · by_cases hz : h.alpha1 = 0
              · rw [(vA.mK0 hz).2, (vB.mK0 hz).2]; exact r.mC m hm
              · rw [(a1 hz).2.2.2, (b1 hz).2.2.2]
            · by_cases hz : h.alpha1 = 0
              · rw [(vA.mK0 hz).1, (vB.mK0 hz).1, (vA.mK0 hz).2, (vB.mK0 hz).2]; exact (r.present m hm).2.2
              · simp [(a1 hz).1, (a1 hz).2.1, (b1 hz).1, (b1 hz).2.1]
          · have nA := LA.noupd (by rw [r.conf.steps]; exact h0)
            have nB := LB.noupd h0
            rw [nA.Ks, nB.Ks, nA.Cs, nB.Cs, nA.mKs, nB.mKs, nA.mCs, nB.mCs, nA.HKs, nB.HKs, nA.HCs, nB.HCs]
            exact ⟨r.K m hm, r.C m hm, r.mK m hm, r.mC m hm, r.HK m hm, r.HC m hm, r.present m hm⟩
        have D : ∀ m ∈ B.opt.layers, natDir (cl m.name) (B.curScale t') (gradM B m) (denO (B'.opt.Ks m.name) m.nK) (denO (B'.opt.Cs m.name) m.nC) =
            U.Q m * natDir (cl m.name) (B.curScale t') (gradM A m) (denO (A'.opt.Ks m.name) m.nK) (denO (A'.opt.Cs m.name) m.nC) * (U.P m)ᵀ := by
          intro m hm
          rw [(L m hm).1, (L m hm).2.1, natDir_vars (nb m hm).1 (nb m hm).2, (hN rfl m hm).1]
        have J : ∀ m ∈ B.opt.layers, jointM (fun p => some (B'.data p)) m = U.Q m * jointM (fun p => some (A'.data p)) m * (U.P m)ᵀ ∧
            jointM B'.opt.mom m = U.Q m * jointM A'.opt.mom m * (U.P m)ᵀ := by
          intro m hm
          obtain ⟨h, hh, hT⟩ := lB.sound.hyper m hm
          obtain ⟨a1, a2⟩ := joint_step (sA.layer m (hlay ▸ hm) h (by rw [r.conf.hyperOf]; exact hh)).apply
          obtain ⟨b1, b2⟩ := joint_step (sB.layer m hm h hh).apply
          rw [D m hm] at b1 b2
          constructor
          · rw [a1, b1, r.data m hm, r.mom m hm]
            simp only [Matrix.mul_sub, Matrix.sub_mul, Matrix.mul_add, Matrix.add_mul, Matrix.mul_smul, Matrix.smul_mul]
          · rw [a2, b2]
            split
            · exact r.mom m hm
            · rw [r.data m hm, r.mom m hm]
              simp only [Matrix.mul_add, Matrix.add_mul, Matrix.mul_smul, Matrix.smul_mul]
        refine ⟨⟨by rw [sA.layers, sB.layers, r.conf.layers], by rw [sA.ptrGroup, sB.ptrGroup, r.conf.ptrGroup],
            by rw [sA.groups, sB.groups, r.conf.groups], by rw [sA.steps, sB.steps, r.conf.steps]⟩,
          by funext z; rw [sA.scales, sB.scales, r.scales, r.conf.steps], ?_, ?_, ?_,
          by rw [sA.hooks, sB.hooks]; exact r.hooks, ?_, ?_, ?_, ?_, ?_, ?_, ?_⟩ <;> rw [sB.layers]
        · exact fun m hm => (J m hm).1
        · exact fun m hm => (J m hm).2
        · intro p hp
          rw [(sA.otherP p (by rw [hlay]; exact hp)).1, (sB.otherP p hp).1]; exact r.other p hp
        · exact fun m hm => (L m hm).1
        · exact fun m hm => (L m hm).2.1
        · exact fun m hm => (L m hm).2.2.1
        · exact fun m hm => (L m hm).2.2.2.1
        · exact fun m hm => (L m hm).2.2.2.2.1
        · exact fun m hm => (L m hm).2.2.2.2.2.1
        · exact fun m hm => (L m hm).2.2.2.2.2.2
      · obtain ⟨A', eA, a1, a2, a3, a4, a5, a6, a7, a8, a9, a10, a11, a12, a13, a14⟩ := lA.skip t'
        obtain ⟨B', eB, b1, b2, b3, b4, b5, b6, b7, b8, b9, b10, b11, b12, b13, b14⟩ := lB.skip t'
        rw [eA, eB]
        have nA : ∀ m ∈ B.opt.layers, A'.opt.HKs m.name = none ∧ A'.opt.HCs m.name = none := fun m hm => by
          rw [(a14 _).1, (a14 _).2, if_pos ⟨m, hlay ▸ hm, rfl⟩, if_pos ⟨m, hlay ▸ hm, rfl⟩]; exact ⟨rfl, rfl⟩
        have nB : ∀ m ∈ B.opt.layers, B'.opt.HKs m.name = none ∧ B'.opt.HCs m.name = none := fun m hm => by
          rw [(b14 _).1, (b14 _).2, if_pos ⟨m, hm, rfl⟩, if_pos ⟨m, hm, rfl⟩]; exact ⟨rfl, rfl⟩
        refine ⟨⟨by rw [a1, b1, r.conf.layers], by rw [a2, b2, r.conf.ptrGroup], by rw [a3, b3, r.conf.groups], by rw [a4, b4, r.conf.steps]⟩,
          by funext z; rw [a13, b13, r.scales, r.conf.steps, cs], ?_, ?_, ?_,
          by rw [a5, b5]; exact r.hooks, ?_, ?_, ?_, ?_, ?_, ?_, ?_⟩ <;> rw [b1]
        · rw [a10, b10]; exact r.data
        · rw [a11, b11]; exact r.mom
        · rw [a10, b10]; exact r.other
        · rw [a6, b6]; exact r.K
        · rw [a7, b7]; exact r.C
        · rw [a8, b8]; exact r.mK
        · rw [a9, b9]; exact r.mC
        · intro m hm; rw [(nA m hm).1, (nB m hm).1]
        · intro m hm; rw [(nA m hm).2, (nB m hm).2]
        · intro m hm; rw [(nA m hm).1, (nB m hm).1, (nA m hm).2, (nB m hm).2, a8, b8, a9, b9]; exact ⟨Iff.rfl, Iff.rfl, (r.present m hm).2.2⟩
    | _ => exact ho.elim

/-- **C78 (general).** Two runs without misuse and without damping whose operations correspond in other variables, started in corresponding states, stay in corresponding
states. Any layers (linear or convolutions), any structures except block-diagonal ones, KFAC-like or coupled updates, with or without momentum of the factors,
normalisation, momentum and weight decay, at any update interval; the changes of variables are arbitrary matrices. -/
theorem C78_affine {cl : String → Cls × Cls} {U : Vars α} {as bs : List (Op α)} {A B : World α} (lA : A.Live cl) (lB : B.Live cl) (fA : FitsRun A as)
    (fB : FitsRun B bs) (nb : NoBlock cl B) (r : InVars U A B) (ho : Along2 (VarOp U) A B as bs) : InVars U (run as A) (run bs B) := by
  have key := along2_run (P := VarOp U) (R := fun A B => NoBlock cl B ∧ InVars U A B) (cl := cl) (fun A B a b lA lB fA fB q o => by
    refine ⟨fun m hm => ?_, q.2.exec lA lB fA fB q.1 o⟩
    rw [(exec_static b B).1] at hm
    exact q.1 m hm) lA lB fA fB ⟨nb, r⟩ ho
  exact key.2

/-- **C78 (outputs).** In corresponding states, a layer of the second run, fed any input `v` (with the constant feature), computes the image under `Q` of what the layer of
the first run computes for `Pᵀ v`. -/
theorem C78_outputs {U : Vars α} {A B : World α} (r : InVars U A B) {m : Layer} (hm : m ∈ B.opt.layers) (v : Fin m.nK → α) :
    jointM (fun p => some (B.data p)) m *ᵥ v = U.Q m *ᵥ (jointM (fun p => some (A.data p)) m *ᵥ ((U.P m)ᵀ *ᵥ v)) := by
  rw [r.data m hm]
  simp only [Matrix.mulVec_mulVec, Matrix.mul_assoc]

/-! Shifted inputs -/

/-- add `t` to every row (last axis of size `d`) -/
def ND.shift (x : ND α) {d : ℕ} (t : Fin d → α) : ND α := ⟨x.shape, fun k => x.flat k + if h : k % d < d then t ⟨k % d, h⟩ else 0⟩

/-- the effect of shifting the inputs by `t` on the inputs with the constant feature: the constant feature is added `t j` times to feature `j` -/
def shiftM (m : Layer) (t : Fin m.din → α) : Matrix (Fin m.nK) (Fin m.nK) α :=
  1 + Matrix.of fun i j : Fin m.nK => if i.1 = m.din then if h : j.1 < m.din then t ⟨j.1, h⟩ else 0 else 0

theorem ND.shift_flat (x : ND α) {d : ℕ} (t : Fin d → α) (i : ℕ) (j : Fin d) : (x.shift t).flat (i * d + j) = x.flat (i * d + j) + t j := by
  have e2 : (i * d + j) % d = j := by rw [mul_comm, Nat.mul_add_mod, Nat.mod_eq_of_lt j.2]
  simp only [ND.shift]
  rw [dif_pos (by rw [e2]; exact j.2)]
  congr 2
  ext; exact e2

theorem rows_shift {m : Layer} (hb : m.bias.isSome) {Y Y' : Mat α} (t : Fin m.din → α) (hr : Y'.rows = Y.rows) (hc : Y.cols = m.din) (hc' : Y'.cols = m.din)
    (h : ∀ r < Y.rows, ∀ j : Fin m.din, Y'.get r j = Y.get r j + t j) :
    secMom (PIO.divSqrtRows (PIO.appendOnes Y')) m.nK = conjBy (shiftM m t) (secMom (PIO.divSqrtRows (PIO.appendOnes Y)) m.nK) := by
  have hn : m.nK = m.din + 1 := by unfold Layer.nK; simp [hb]
  have ent : ∀ Z : Mat α, Z.cols = m.din → ∀ r < Z.rows, ∀ j < m.din + 1, (PIO.divSqrtRows (PIO.appendOnes Z)).get r j =
      (if j < m.din then Z.get r j else 1) / HasSqrt.sqrt (Z.rows : α) := by
    intro Z hZ r hr j hj
    unfold PIO.divSqrtRows
    rw [Mat.get_ofFn, if_pos ⟨hr, by show j < Z.cols + 1; omega⟩]
    congr 1
    simp only [PIO.appendOnes, Mat.hcat, Mat.get_ofFn, Mat.cols_ofFn, hZ, hr]
    by_cases h4 : j < m.din
    · simp [hj, h4]
    · simp [hj, h4, show j - m.din = 0 by omega]
  refine secMom_rotate hr fun r hrr j => ?_
  have hrr : r < Y.rows := hrr
  have hj : j.1 < m.din + 1 := by have := j.2; omega
  rw [ent Y' hc' r (by rw [hr]; exact hrr) j hj, hr]
  simp only [shiftM, Matrix.add_apply, Matrix.of_apply, Matrix.one_apply, mul_add, Finset.sum_add_distrib, mul_ite, mul_one, mul_zero, Finset.sum_ite_eq', Finset.mem_univ, if_true]
  rw [Finset.sum_eq_single (⟨m.din, by omega⟩ : Fin m.nK)]
  · rw [if_pos rfl, ent Y hc r hrr j hj, ent Y hc r hrr m.din (by omega), if_neg (lt_irrefl m.din)]
    by_cases h4 : j.1 < m.din
    · rw [if_pos h4, if_pos h4, dif_pos h4, h r hrr ⟨j.1, h4⟩]; ring
    · rw [if_neg h4, if_neg h4, dif_neg h4]; ring
  · intro k _ hk
    rw [if_neg fun e => hk (Fin.ext e)]
  · intro hk; simp at hk

/-- **C78 (shifted inputs).** Shifting the inputs of a linear layer with bias is such a change of variables: it adds multiples of the constant feature. -/
theorem C78_shift (h : Hyper α) {m : Layer} (hk : m.kind = .linear) (hb : m.bias.isSome) {approx : String} {x : ND α} (hx : InputFits m approx x)
    (t : Fin m.din → α) : inputMoment h m (x.shift t) = (shiftM m t)ᵀ * inputMoment h m x * shiftM m t := by
  unfold InputFits at hx
  rw [hk] at hx
  obtain ⟨b, sh, hs, hx⟩ := hx
  have hs' : (x.shift t).shape = b :: (sh ++ [m.din]) := hs
  unfold inputMoment PIO.processInput
  by_cases ha : h.kfacApprox = "expand" ∨ h.kfacApprox = "reduce"
  · rw [if_neg (not_not.2 ha), if_neg (not_not.2 ha), hk]
    simp only [PIO.linearProcessInput, PIO.mergeLeading, PIO.meanMiddle, hs, hs', IOProof.split3_eq, hb, if_true]
    by_cases he : h.kfacApprox = "expand"
    · simp only [he, if_true, Except.bind_ok', Except.pure_ok]
      refine rows_shift hb t rfl rfl rfl fun r hr j => ?_
      have hr' : r < b * sh.prod := hr
      simp only [Mat.get_ofFn, hr', j.2, and_self, if_true, ND.shift_flat, Fin.is_lt]
    · simp only [he, if_false, Except.bind_ok', Except.pure_ok]
      refine rows_shift hb t rfl rfl rfl fun r hr j => ?_
      have hr' : r < b := hr
      have hz : (sh.prod : α) ≠ 0 := Nat.cast_ne_zero.2 (Nat.pos_of_mul_pos_left hx).ne'
      simp only [Mat.get_ofFn, hr', j.2, and_self, if_true, ND.shift_flat, Fin.is_lt, Finset.sum_add_distrib, add_div]
      rw [Finset.sum_const, Finset.card_range, nsmul_eq_mul, mul_div_cancel_left₀ _ hz]
  · rw [if_pos ha, if_pos ha]; simp

/-! Linear layers: the transformed history -/

/-- the changes of variables that do not touch the bias's feature -/
def Bases.vars (U : Bases α) : Vars α := ⟨fun m => m.extend (U.R m), fun m => U.S m⟩

theorem extend_mul (m : Layer) (R R' : Matrix (Fin m.din) (Fin m.din) α) : m.extend R * m.extend R' = m.extend (R * R') := by
  unfold Layer.extend Layer.nK
  rw [submatrix_mul_equiv, fromBlocks_multiply]
  simp

theorem extend_id (m : Layer) : m.extend (1 : Matrix (Fin m.din) (Fin m.din) α) = 1 := by
  unfold Layer.extend Layer.nK
  rw [fromBlocks_one, submatrix_one_equiv]

theorem extend_transpose (m : Layer) (R : Matrix (Fin m.din) (Fin m.din) α) : m.extend Rᵀ = (m.extend R)ᵀ := by
  unfold Layer.extend Layer.nK
  rw [transpose_submatrix, fromBlocks_transpose]
  simp

/-- `V` undoes `U` -/
def Bases.Inv (U V : Bases α) : Prop := ∀ m, U.R m * V.R m = 1 ∧ U.S m * V.S m = 1

theorem joint_param {V : Bases α} {layers : List Layer} {m : Layer} (hm : m ∈ layers) {f g : ℕ → Option (Mat α)}
    (h : ∀ p, World.Owns m p → ParamRot V layers p (f p) (g p)) : jointM f m = (V.S m)ᵀ * jointM g m * m.extend (V.R m) := by
  refine parts_ext ?_ fun b hb => ?_
  · rw [weightPart_rot, jointM_weight, jointM_weight]; exact (h _ (Or.inl rfl)).weight m hm rfl
  · rw [biasPart_rot, jointM_bias _ hb, jointM_bias _ hb]; exact (h _ (Or.inr ⟨b, hb, rfl⟩)).bias m hm b hb rfl

theorem dual_iff {U V : Bases α} (hi : U.Inv V) (m : Layer) (X Y : Matrix (Fin m.nC) (Fin m.nK) α) :
    Y = U.vars.Q m * X * (U.vars.P m)ᵀ ↔ X = (V.dual.S m)ᵀ * Y * m.extend (V.dual.R m) := by
  have h1 : U.S m * V.S m = 1 := (hi m).2
  have h2 : V.S m * U.S m = 1 := mul_eq_one_comm.1 h1
  have h3 : m.extend (U.R m) * m.extend (V.R m) = 1 := by rw [extend_mul, (hi m).1, extend_id]
  have h4 : m.extend (V.R m) * m.extend (U.R m) = 1 := mul_eq_one_comm.1 h3
  have h5 : (m.extend (V.R m))ᵀ * (m.extend (U.R m))ᵀ = 1 := by rw [← Matrix.transpose_mul, h3, Matrix.transpose_one]
  have h6 : (m.extend (U.R m))ᵀ * (m.extend (V.R m))ᵀ = 1 := by rw [← Matrix.transpose_mul, h4, Matrix.transpose_one]
  simp only [Bases.vars, Bases.dual, Matrix.transpose_transpose, extend_transpose]
  constructor
  · rintro rfl
    rw [show V.S m * (U.S m * X * (m.extend (U.R m))ᵀ) * (m.extend (V.R m))ᵀ = (V.S m * U.S m) * X * ((m.extend (U.R m))ᵀ * (m.extend (V.R m))ᵀ) by
      simp only [Matrix.mul_assoc], h2, h6, Matrix.one_mul, Matrix.mul_one]
  · rintro rfl
    rw [show U.S m * (V.S m * Y * (m.extend (V.R m))ᵀ) * (m.extend (U.R m))ᵀ = (U.S m * V.S m) * Y * ((m.extend (V.R m))ᵀ * (m.extend (U.R m))ᵀ) by
      simp only [Matrix.mul_assoc], h1, h5, Matrix.one_mul, Matrix.mul_one]

/-- the preconditioner is updated without damping -/
def Undamped (w : World α) : Op α → Prop
  | .step _ _ false => ∀ m ∈ w.opt.layers, ∀ h, w.opt.hyperOf m = .ok h → h.T ∣ w.opt.steps → h.damping = 0
  | _ => True

/-- corresponding states with corresponding gradients -/
structure Reparam (U : Bases α) (A B : World α) : Prop where
  vars : InVars U.vars A B
  grad : ∀ p, ParamRot U B.opt.layers p (A.grad p) (B.grad p)

theorem grad_kept {cl : String → Cls × Cls} {w : World α} (l : w.Live cl) {op : Op α} (f : FitsOp w op) (h : ∀ p G, op ≠ .setGrad p G) :
    (exec op w).2.grad = w.grad := by
  cases op with
  | forward i x ge => rw [exec_forward_state]
  | backward i g =>
    rcases e : w.hooks[i]? with _ | x
    · rw [exec_backward_none e]
    · obtain ⟨_, _, _, _, _, _, b⟩ := l.back e f
      exact b.frame.grad
  | setGrad p G => exact absurd rfl (h p G)
  | setParam p M => rfl
  | setHyper i h => rfl
  | setScale z => have e : (_root_.exec (.setScale z) w).2 = _ := World.setScale_state z w; rw [e]
  | step b t n =>
    obtain rfl := f.1
    cases n
    · obtain ⟨w', e, q, _⟩ := l.step f
      rw [e]; exact q.grad
    · obtain ⟨w', e, q⟩ := l.skip t
      rw [e]; exact q.2.2.2.2.2.2.2.2.2.2.2.1

/-- the transformed operation fits and corresponds -/
theorem Op.reparam_ok {cl : String → Cls × Cls} {U V : Bases α} (hi : U.Inv V) {A B : World α} (lA : A.Live cl) (lB : B.Live cl)
    (hk : ∀ m ∈ B.opt.layers, m.kind = .linear) (q : Reparam U A B) {op : Op α} (f : FitsOp B op) (hg : GradsFit B.opt.layers op) (hn : Undamped B op) :
    FitsOp A (op.reparam U V B) ∧ VarOp U.vars A B (op.reparam U V B) op := by
  have hd : Distinct B.opt.layers := fun m hm b hb => ((lB.sound.shape m hm).bias b hb).2
  have hu := lB.sound.untied
  have r := q.vars
  have hlay := r.conf.layers
  cases op with
  | forward i x ge =>
    show FitsOp A (Op.rotate U B (.forward i x ge)) ∧ VarOp U.vars A B (Op.rotate U B (.forward i x ge)) _
    rw [Op.rotate_forward]
    rcases hi : B.opt.layers[i]? with _ | m
    · refine ⟨fun m' hm' => ?_, rfl, rfl, fun m' hm' => ?_⟩
      · rw [r.conf.layers, hi] at hm'; cases hm'
      · rw [hi] at hm'; cases hm'
    · have hm := List.mem_of_getElem? hi
      obtain ⟨h0, hh0, _⟩ := lB.sound.hyper m hm
      have fx := f m hi h0 hh0
      refine ⟨fun m' hm' h hh => ?_, rfl, rfl, fun m' hm' h => ?_⟩
      · rw [r.conf.layers, hi] at hm'; cases hm'
        have fx := fx
        unfold InputFits at fx ⊢
        rw [hk m hm] at fx ⊢
        exact fx
      · rw [hi] at hm'; cases hm'
        exact inputMoment_rotate h (hk m hm) fx _
  | backward i g =>
    show FitsOp A (Op.rotate U B (.backward i g)) ∧ VarOp U.vars A B (Op.rotate U B (.backward i g)) _
    rw [Op.rotate_backward]
    rcases hi : B.hooks[i]? with _ | mx
    · refine ⟨fun m' hm' => ?_, rfl, fun m' hm' => by rw [hi] at hm'; cases hm'⟩
      exfalso
      rw [List.getElem?_eq_none_iff] at hi
      have := (List.getElem?_eq_some_iff.1 hm').1
      rw [r.hooks.length_eq] at this
      omega
    · have hm := (lB.hooks mx (List.mem_of_getElem? hi)).1
      have fg := f mx hi
      refine ⟨fun m' hm' => ?_, rfl, fun m' hm' h => ?_⟩
      · obtain ⟨hl, e2⟩ := List.getElem?_eq_some_iff.1 hi
        obtain ⟨hl', e1⟩ := List.getElem?_eq_some_iff.1 hm'
        have ex := ((List.forall₂_iff_get.1 r.hooks).2 i hl' hl).1
        rw [List.get_eq_getElem, List.get_eq_getElem, e1, e2] at ex
        rw [ex]
        unfold GradFits at fg ⊢
        rw [hk _ hm] at fg ⊢
        exact fg
      · rw [hi] at hm'; cases hm'
        exact gradMoment_rotate h (hk _ hm) fg _
  | setGrad p G => exact ⟨trivial, rfl⟩
  | setParam p M =>
    have sh : ShapeOf B.opt.layers p (some M) := by
      rintro X e m hm
      cases e
      have f' : M.OfShape (B.data p).rows (B.data p).cols := f
      refine ⟨?_, ?_⟩
      · rintro rfl
        obtain ⟨s1, s2⟩ := (lB.sound.shape m hm).weight.data
        rw [s1, s2] at f'; exact f'
      · rintro b hb rfl
        obtain ⟨s1, s2⟩ := ((lB.sound.shape m hm).bias b hb).1.data
        rw [s1, s2] at f'; exact f'
    have z := V.dual.param_rot hu hd sh
    have eqS : (A.data p).rows = (B.data p).rows ∧ (A.data p).cols = (B.data p).cols := by
      by_cases hp : ∃ m ∈ B.opt.layers, World.Owns m p
      · obtain ⟨m, hm, rfl | ⟨b, hb, rfl⟩⟩ := hp
        · obtain ⟨s1, s2⟩ := (lB.sound.shape m hm).weight.data
          obtain ⟨t1, t2⟩ := (lA.sound.shape m (hlay ▸ hm)).weight.data
          exact ⟨t1.trans s1.symm, t2.trans s2.symm⟩
        · obtain ⟨s1, s2⟩ := ((lB.sound.shape m hm).bias b hb).1.data
          obtain ⟨t1, t2⟩ := ((lA.sound.shape m (hlay ▸ hm)).bias b hb).1.data
          exact ⟨t1.trans s1.symm, t2.trans s2.symm⟩
      · rw [r.other p fun m hm h => hp ⟨m, hm, h⟩]; exact ⟨rfl, rfl⟩
    have z2 := z.shape
    rw [Option.map_some, Option.map_some, Option.map_some, Option.some_inj] at z2
    injection z2 with z3 z4
    refine ⟨⟨z3.trans (f.1.trans eqS.1.symm), z4.trans (f.2.trans eqS.2.symm)⟩, rfl, fun h => ?_, fun m hm ho => ?_⟩
    · exact Option.some_inj.1 (z.other h)
    · refine (dual_iff hi m _ _).2 ?_
      have old := (dual_iff hi m _ _).1 (r.data m hm)
      refine parts_ext ?_ fun b hb => ?_
      · rw [weightPart_rot, jointM_weight, jointM_weight]
        by_cases e : m.weight.ptr = p
        · subst e; simpa using z.weight m hm rfl
        · have := congrArg weightPart old
          rw [weightPart_rot, jointM_weight, jointM_weight] at this
          simpa [e] using this
      · rw [biasPart_rot, jointM_bias _ hb, jointM_bias _ hb]
        by_cases e : b.ptr = p
        · subst e; simpa using z.bias m hm b hb rfl
        · have := congrArg (biasPart (by simp [hb])) old
          rw [biasPart_rot, jointM_bias _ hb, jointM_bias _ hb] at this
          simpa [e] using this
  | setHyper i h =>
    refine ⟨⟨f.1, fun m hm hp => ?_⟩, rfl, rfl⟩
    rw [r.conf.layers] at hm
    rw [r.conf.ptrGroup] at hp
    obtain ⟨f1, f2⟩ := f.2 m hm hp
    refine ⟨fun h' hh => f1 h' (by rw [← r.conf.hyperOf]; exact hh), fun ha => ?_⟩
    rw [Ne, (r.present m hm).2.2.1, Ne, (r.present m hm).2.2.2]; exact f2 ha
  | setScale s => exact ⟨f, rfl⟩
  | step b a n =>
    refine ⟨⟨f.1, f.2.1, fun hn m hm => ?_⟩, rfl, rfl, rfl, fun e m hm => ⟨gradM_rot hm q.grad, ?_⟩⟩
    · rw [r.conf.layers] at hm
      obtain ⟨g, s⟩ := f.2.2 hn m hm
      refine ⟨⟨(q.grad _).ofShape g.weight, fun b hb => (q.grad _).ofShape (g.bias b hb)⟩, fun h hh ht => ?_⟩
      rw [r.conf.hyperOf] at hh
      rw [r.conf.steps] at ht
      obtain ⟨s1, s2, s3⟩ := s h hh ht
      obtain ⟨n1, n2, n3, n4⟩ := r.present m hm
      exact ⟨n1.not.2 s1, n2.not.2 s2, fun ha => ⟨n3.not.2 (s3 ha).1, n4.not.2 (s3 ha).2⟩⟩
    · subst e; exact hn m hm

theorem Reparam.step {cl : String → Cls × Cls} {U V : Bases α} (hi : U.Inv V) {A B : World α} (lA : A.Live cl) (lB : B.Live cl) (nb : NoBlock cl B)
    (hk : ∀ m ∈ B.opt.layers, m.kind = .linear) (q : Reparam U A B) {op : Op α} (f : FitsOp B op) (hg : GradsFit B.opt.layers op) (hn : Undamped B op) :
    Reparam U (exec (op.reparam U V B) A).2 (exec op B).2 := by
  have hd : Distinct B.opt.layers := fun m hm b hb => ((lB.sound.shape m hm).bias b hb).2
  obtain ⟨fA, ho⟩ := Op.reparam_ok hi lA lB hk q f hg hn
  refine ⟨q.vars.exec lA lB fA f nb ho, fun p => ?_⟩
  rw [(exec_static op B).1]
  by_cases e : ∃ p G, op = .setGrad p G
  · obtain ⟨p', G, rfl⟩ := e
    show ParamRot U B.opt.layers p (Function.update A.grad p' (G.map (U.param B.opt.layers p')) p) (Function.update B.grad p' G p)
    by_cases e : p = p'
    · subst e; simpa using U.param_rot lB.sound.untied hd hg
    · simpa [e] using q.grad p
  · rw [grad_kept lB f fun p G h => e ⟨p, G, h⟩, grad_kept lA fA fun p G h => ?_]
    · exact q.grad p
    · refine e ?_
      cases op with
      | setGrad p G => exact ⟨p, G, rfl⟩
      | forward i x ge => rw [show Op.reparam U V B (.forward i x ge) = Op.rotate U B (.forward i x ge) from rfl, Op.rotate_forward] at h; cases h
      | backward i g => rw [show Op.reparam U V B (.backward i g) = Op.rotate U B (.backward i g) from rfl, Op.rotate_backward] at h; cases h
      | setParam p M => cases h
      | setHyper i y => cases h
      | setScale z => cases h
      | step b t n => cases h

theorem Reparam.run {cl : String → Cls × Cls} {U V : Bases α} (hi : U.Inv V) : ∀ {ops : List (Op α)} {A B : World α}, A.Live cl → B.Live cl → FitsRun B ops →
    (∀ m ∈ B.opt.layers, m.kind = .linear) → NoBlock cl B → (∀ op ∈ ops, GradsFit B.opt.layers op) → Along Undamped B ops → Reparam U A B →
    FitsRun A (reparamRun U V B ops) ∧ Reparam U (_root_.run (reparamRun U V B ops) A) (_root_.run ops B)
  | [], _, _, _, _, _, _, _, _, _, r => ⟨trivial, r⟩
  | op :: ops, A, B, lA, lB, fB, hl, nb, hg, hn, r => by
    obtain ⟨fA, ho⟩ := Op.reparam_ok hi lA lB hl r fB.1 (hg op (by simp)) hn.1
    have r' := r.step hi lA lB nb hl fB.1 (hg op (by simp)) hn.1
    obtain ⟨A', eA, lA'⟩ := lA.exec fA
    obtain ⟨B', eB, lB'⟩ := lB.exec fB.1
    have el := (exec_static op B).1
    have fB2 := fB.2
    have hn2 := hn.2
    rw [eB] at r' el fB2 hn2
    rw [eA] at r'
    obtain ⟨g, q⟩ := Reparam.run hi lA' lB' fB2 (by rw [el]; exact hl) (fun m hm => nb m (by rw [← el]; exact hm))
      (fun o ho => by rw [el]; exact hg o (List.mem_cons_of_mem _ ho)) hn2 r'
    refine ⟨⟨fA, ?_⟩, ?_⟩
    · rw [eA, eB]; exact g
    · rw [reparamRun, run_cons, run_cons, eA, eB]; exact q

/-- **C78 (from construction, linear layers).** Construct the optimizer over linear layers and train two copies without damping: one plainly (`ops`), one in other
variables: the inputs of every layer are multiplied by an invertible `R`, its output gradients by an invertible `S`, gradients are `Sᵀ G R`, parameters `S⁻¹ W R⁻ᵀ` and
`S⁻¹ b`. If the second starts from the factors `R⁻¹` (with a 1 for the bias) and `S⁻¹` instead of identities, both succeed and the parameters always correspond: the
preconditioner, once expressed in the new variables, removes their effect on training, no matter how ill-conditioned `R` and `S` are. Any structures but block-diagonal
ones, as long as they represent `R⁻¹` and `S⁻¹`. -/
theorem C78_reparametrised {structs : String → Option Cls} {model : Model} {p : ParamArg α} {a : Args α} {o : Opt α} {ws : List Warn}
    (hn : (model.layers.map (·.name)).Nodup) (hi : Construct.init structs model p a = .ok (o, ws)) {data : ℕ → Mat α} {grad : ℕ → Option (Mat α)}
    (ht : Trainable o data) (hg : ∀ p, ShapeOf o.layers p (grad p)) (ha : 0 < a.initGradScale) (hk : ∀ m ∈ o.layers, m.kind = .linear) {U V : Bases α}
    (hUV : ∀ m, U.R m * V.R m = 1 ∧ U.S m * V.S m = 1) {Ks Cs : String → Option (SM α)}
    (kp : ∀ m ∈ o.layers, ∀ h cK cC, o.hyperOf m = .ok h → structs h.structures.1 = some cK → structs h.structures.2 = some cC →
      ¬ cK.IsBlock ∧ ¬ cC.IsBlock ∧ (∃ K, Ks m.name = some K ∧ WF cK m.nK K ∧ K.den m.nK = m.extend (V.R m)) ∧
      ∃ C, Cs m.name = some C ∧ WF cC m.nC C ∧ C.den m.nC = V.S m)
    {ops : List (Op α)} (f : FitsRun ⟨o, data, grad, []⟩ ops) (hs : ∀ op ∈ ops, GradsFit o.layers op) (hN : Along Undamped ⟨o, data, grad, []⟩ ops) :
    let w : World α := ⟨o, data, grad, []⟩
    let w' : World α := ⟨{ o with Ks := Ks, Cs := Cs }, fun p => V.dual.param o.layers p (data p), fun p => (grad p).map (U.param o.layers p), []⟩
    ∃ A B, runOk (reparamRun U V w ops) w' = some A ∧ runOk ops w = some B ∧ (∀ p, (∀ m ∈ o.layers, ¬ World.Owns m p) → A.data p = B.data p) ∧
      ∀ m ∈ o.layers, (A.data m.weight.ptr).M m.dout m.din = V.S m * (B.data m.weight.ptr).M m.dout m.din * (V.R m)ᵀ ∧
        (∀ b, m.bias = some b → (A.data b.ptr).M m.dout 1 = V.S m * (B.data b.ptr).M m.dout 1) ∧
        denO (B.opt.Ks m.name) m.nK = m.extend (U.R m) * denO (A.opt.Ks m.name) m.nK ∧ denO (B.opt.Cs m.name) m.nC = U.S m * denO (A.opt.Cs m.name) m.nC := by
  intro w w'
  have I := init_ok hn hi
  obtain ⟨cl, hcl, l⟩ := I.live (grad := grad) ht ha
  have hd : Distinct o.layers := fun m hm b hb => (ht.bias m hm b hb).2
  have hu := ht.untied
  have sd : ∀ p, ShapeOf o.layers p (some (data p)) := by
    rintro p X e m hm
    cases e
    exact ⟨fun e => e ▸ ht.weight m hm, fun b hb e => e ▸ (ht.bias m hm b hb).1⟩
  have kp' : ∀ m ∈ o.layers, ¬ (cl m.name).1.IsBlock ∧ ¬ (cl m.name).2.IsBlock ∧
      (∃ K, Ks m.name = some K ∧ WF (cl m.name).1 m.nK K ∧ K.den m.nK = m.extend (V.R m)) ∧
      ∃ C, Cs m.name = some C ∧ WF (cl m.name).2 m.nC C ∧ C.den m.nC = V.S m := fun m hm => by
    obtain ⟨hy, e1, e2, e3⟩ := hcl m hm
    exact kp m hm hy _ _ e1 e2 e3
  have ht' : Trainable o w'.data := by
    refine ⟨ht.1, ht.2, ht.3, fun m hm => ?_, fun m hm b hb => ⟨?_, (ht.bias m hm b hb).2⟩, ht.6, ht.7⟩
    · show (V.dual.param o.layers _ _).OfShape _ _
      rw [V.dual.param_weight hu hm]; exact ⟨rfl, rfl⟩
    · show (V.dual.param o.layers _ _).OfShape _ _
      rw [V.dual.param_bias hu hd hm hb]; exact ⟨rfl, rfl⟩
  have l' : World.Live cl w' := by
    obtain ⟨_, _, l'⟩ := I.live (grad := w'.grad) ht' ha
    refine ⟨⟨l.sound.untied, l.sound.good, fun m hm => ?_, fun m hm => ?_, l.sound.hyper⟩, l.valid, by simp [w'], l.prev, l.pos, l.mom⟩
    · obtain ⟨_, _, ⟨K, k1, k2, _⟩, C, c1, c2, _⟩ := kp' m hm
      have z := l.sound.lay m hm
      exact ⟨⟨K, k1, k2⟩, ⟨C, c1, c2⟩, z.mK, z.mC, z.HK, z.HC⟩
    · have z := l'.sound.shape m hm
      exact ⟨⟨z.weight.data, z.weight.mom⟩, fun b hb => ⟨⟨((z.bias b hb).1).data, ((z.bias b hb).1).mom⟩, (z.bias b hb).2⟩⟩
  have hM : ∀ n, o.mom n = none := fun n => by rw [I.mom]
  have fac : ∀ m ∈ o.layers, denO (o.Ks m.name) m.nK = 1 ∧ denO (o.Cs m.name) m.nC = 1 := by
    intro m hm
    have g := l.sound.good m hm
    obtain ⟨hy, cK, cC, K, C, f1, f2, f3, eK, eC, sK, sC, m0, m1⟩ := (I.lay m hm).ex
    obtain ⟨hy', e1, e2, e3⟩ := hcl m hm
    rw [f1] at e1; cases e1
    rw [← I.structs, f2] at e2
    rw [← I.structs, f3] at e3
    cases e2; cases e3
    obtain ⟨⟨K', k1, _, k3⟩, -⟩ := C12_eye_zeros (α := α) g.supK
    obtain ⟨⟨C', c1, _, c3⟩, -⟩ := C12_eye_zeros (α := α) g.supC
    rw [eK] at k1; cases k1
    rw [eC] at c1; cases c1
    exact ⟨by rw [sK]; exact k3, by rw [sC]; exact c3⟩
  have r : Reparam U w' w := by
    refine ⟨⟨⟨rfl, rfl, rfl, rfl⟩, rfl, fun m hm => ?_, fun m hm => ?_, fun p hp => ?_, .nil, fun m hm => ?_, fun m hm => ?_, fun _ _ => rfl, fun _ _ => rfl,
      fun _ _ => rfl, fun _ _ => rfl, fun _ _ => ⟨Iff.rfl, Iff.rfl, Iff.rfl, Iff.rfl⟩⟩, fun p => U.param_rot hu hd (hg p)⟩
    · exact (dual_iff hUV m _ _).2 (joint_param hm fun p _ => V.dual.param_rot hu hd (sd p))
    · have e : jointM o.mom m = 0 := by
        funext i j
        unfold jointM
        split
        · rw [hM]; rfl
        · rcases m.bias with _ | b
          · rfl
          · simp [hM]
      show jointM o.mom m = _ * jointM o.mom m * _
      rw [e]; simp
    · exact Option.some_inj.1 ((V.dual.param_rot hu hd (sd p)).other hp)
    · obtain ⟨_, _, ⟨K, k1, k2, k3⟩, _⟩ := kp' m hm
      show denO (o.Ks m.name) _ = m.extend (U.R m) * denO (Ks m.name) _
      rw [(fac m hm).1, k1]
      show 1 = m.extend (U.R m) * K.den m.nK
      rw [k3, extend_mul, (hUV m).1, extend_id]
    · obtain ⟨_, _, _, C, c1, c2, c3⟩ := kp' m hm
      show denO (o.Cs m.name) _ = U.S m * denO (Cs m.name) _
      rw [(fac m hm).2, c1]
      show 1 = U.S m * C.den m.nC
      rw [c3, (hUV m).2]
  obtain ⟨f', q⟩ := Reparam.run hUV l' l f hk (fun m hm => ⟨(kp' m hm).1, (kp' m hm).2.1⟩) hs hN r
  have el : (run ops w).opt.layers = o.layers := run_inv (P := fun v => v.opt.layers = o.layers) (fun op v h => (exec_static op v).1.trans h) ops w rfl
  refine ⟨_, _, (l'.run f').1, (l.run f).1, fun p hp => q.vars.other p (by rw [el]; exact hp), fun m hm => ?_⟩
  rw [← el] at hm
  have old := (dual_iff hUV m _ _).1 (q.vars.data m hm)
  refine ⟨?_, fun b hb => ?_, q.vars.K m hm, q.vars.C m hm⟩
  · have := congrArg weightPart old
    rw [weightPart_rot, jointM_weight, jointM_weight] at this
    exact this
  · have := congrArg (biasPart (by simp [hb])) old
    rw [biasPart_rot, jointM_bias _ hb, jointM_bias _ hb] at this
    exact this

namespace Sample

/-- rescaling of the first of several coordinates by `c` -/
def stretch (c : ℚ) (n : ℕ) : Matrix (Fin n) (Fin n) ℚ := fun i j => if i = j then if i.1 = 0 ∧ 2 ≤ n then c else 1 else 0
def stretchR (c : ℚ) : Bases ℚ := ⟨fun m => stretch c m.din, fun _ => 1⟩

/-- a state in other variables, with the factors converted (`c`: the class of `K`) -/
def recast (U V : Bases ℚ) (c : Cls) (w : World ℚ) : World ℚ :=
  { w with
    opt := { w.opt with Ks := fun n => match w.opt.layers.find? fun m => decide (m.name = n) with
      | some m => (SM.fromDense c (Mat.ofMatrix (m.extend (V.R m) * denO (w.opt.Ks n) m.nK))).toOption
      | none => none }
    data := fun p => V.dual.param w.opt.layers p (w.data p), grad := fun p => (w.grad p).map (U.param w.opt.layers p) }

/-- one pass and one step -/
def once : List (Op ℚ) := Sample.pass ++ [.step false none false]

end Sample

/-- **C78 (false with damping).** With the default handling of damping, stretching an input coordinate of a layer changes the training of its weight, although parameters,
gradients and factors correspond at the start. -/
theorem C78_damping_false : ∃ (w : World ℚ) (ops : List (Op ℚ)) (U V : Bases ℚ), Reachable supportedStructures w ∧
    (∀ m ∈ w.opt.layers, U.R m * V.R m = 1 ∧ U.S m = 1 ∧ V.S m = 1) ∧ (∀ g ∈ w.opt.groups, g.h.structures = ("dense", "dense") ∧ g.h.damping = 1) ∧
    (∀ m ∈ w.opt.layers, denO (w.opt.Ks m.name) m.nK = m.extend (U.R m) * denO ((Sample.recast U V .dense w).opt.Ks m.name) m.nK) ∧
    (runOk (reparamRun U V w ops) (Sample.recast U V .dense w)).isSome = true ∧ (runOk ops w).isSome = true ∧
    ((run (reparamRun U V w ops) (Sample.recast U V .dense w)).data 2).toLists ≠ (V.dual.param w.opt.layers 2 ((run ops w).data 2)).toLists :=
  ⟨Sample.world Sample.model .default { Sample.args with structures := ("dense", "dense") }, Sample.once, Sample.stretchR 2, Sample.stretchR (1 / 2),
    Sample.reachable (by decide +kernel) (by decide +kernel) [], by decide +kernel, by decide +kernel, by decide +kernel, by decide +kernel, by decide +kernel,
    by decide +kernel⟩

/-- **C78 (false for block-diagonal structures).** The same happens without damping for the block-diagonal structure, which multiplies its blocks in another order. -/
theorem C78_block_false : ∃ (w : World ℚ) (ops : List (Op ℚ)) (U V : Bases ℚ), Reachable supportedStructures w ∧
    (∀ m ∈ w.opt.layers, U.R m * V.R m = 1 ∧ U.S m = 1 ∧ V.S m = 1) ∧ (∀ g ∈ w.opt.groups, g.h.structures = ("block30diagonal", "dense") ∧ g.h.damping = 0) ∧
    (∀ m ∈ w.opt.layers, denO (w.opt.Ks m.name) m.nK = m.extend (U.R m) * denO ((Sample.recast U V (.block 30) w).opt.Ks m.name) m.nK) ∧
    (runOk (reparamRun U V w ops) (Sample.recast U V (.block 30) w)).isSome = true ∧ (runOk ops w).isSome = true ∧
    ((run (reparamRun U V w ops) (Sample.recast U V (.block 30) w)).data 2).toLists ≠ (V.dual.param w.opt.layers 2 ((run ops w).data 2)).toLists :=
  ⟨Sample.world Sample.model .default { Sample.args with structures := ("block30diagonal", "dense"), damping := .float 0 }, Sample.once, Sample.stretchR 2,
    Sample.stretchR (1 / 2),
    Sample.reachable (by decide +kernel) (by decide +kernel) [], by decide +kernel, by decide +kernel, by decide +kernel, by decide +kernel, by decide +kernel,
    by decide +kernel⟩

/-- **C78 (false from identities).** The factors have to be converted: two freshly constructed optimizers, which both start from identities, train differently when the
inputs of one are stretched, even with dense factors and no damping. -/
theorem C78_identity_false : ∃ (w : World ℚ) (ops : List (Op ℚ)) (U V : Bases ℚ), Reachable supportedStructures w ∧
    (∀ m ∈ w.opt.layers, U.R m * V.R m = 1 ∧ U.S m = 1 ∧ V.S m = 1) ∧ (∀ g ∈ w.opt.groups, g.h.structures = ("dense", "dense") ∧ g.h.damping = 0) ∧
    (runOk (reparamRun U V w ops) { Sample.recast U V .dense w with opt := w.opt }).isSome = true ∧ (runOk ops w).isSome = true ∧
    ((run (reparamRun U V w ops) { Sample.recast U V .dense w with opt := w.opt }).data 2).toLists ≠
      (V.dual.param w.opt.layers 2 ((run ops w).data 2)).toLists :=
  ⟨Sample.world Sample.model .default { Sample.args with structures := ("dense", "dense"), damping := .float 0 }, Sample.once, Sample.stretchR 2,
    Sample.stretchR (1 / 2),
    Sample.reachable (by decide +kernel) (by decide +kernel) [], by decide +kernel, by decide +kernel, by decide +kernel, by decide +kernel, by decide +kernel⟩

-- the same histories with dense factors, no damping and converted factors; with normalisation as well
example : ∀ nrm : Bool, let w := Sample.world Sample.model .default { Sample.args with structures := ("dense", "dense"), damping := .float 0, normalize := nrm }
    let ops : List (Op ℚ) := Sample.once
    let U := Sample.stretchR 2
    let V := Sample.stretchR (1 / 2)
    ((run (reparamRun U V w ops) (Sample.recast U V .dense w)).data 2).toLists = (V.dual.param w.opt.layers 2 ((run ops w).data 2)).toLists ∧
    ((run ops w).data 2).toLists ≠ (w.data 2).toLists := by decide +kernel

-- the hypotheses of `C78_reparametrised` hold for a model with two layers, a stretched input coordinate and rescaled output gradients
example : ∃ (o : Opt ℝ) (ws : List Warn) (ops : List (Op ℝ)) (U V : Bases ℝ) (Ks Cs : String → Option (SM ℝ)),
    Construct.init supportedStructures Sample.model .default { Sample.gargs with structures := ("dense", "diagonal"), damping := .float (0 : ℝ) } = .ok (o, ws) ∧
    Trainable o Sample.gdata ∧ (∀ p, ShapeOf o.layers p (Sample.ggrad (α := ℝ) p)) ∧ (∀ m ∈ o.layers, m.kind = .linear) ∧
    (∀ m, U.R m * V.R m = 1 ∧ U.S m * V.S m = 1) ∧
    (∀ m ∈ o.layers, ∀ h cK cC, o.hyperOf m = .ok h → supportedStructures h.structures.1 = some cK → supportedStructures h.structures.2 = some cC →
      ¬ cK.IsBlock ∧ ¬ cC.IsBlock ∧ (∃ K, Ks m.name = some K ∧ WF cK m.nK K ∧ K.den m.nK = m.extend (V.R m)) ∧
      ∃ C, Cs m.name = some C ∧ WF cC m.nC C ∧ C.den m.nC = V.S m) ∧
    FitsRun ⟨o, Sample.gdata, Sample.ggrad, []⟩ ops ∧ (∀ op ∈ ops, GradsFit o.layers op) ∧ Along Undamped ⟨o, Sample.gdata, Sample.ggrad, []⟩ ops ∧
    Op.step false none false ∈ ops ∧ U.R Sample.lb (0 : Fin 2) (1 : Fin 2) ≠ 0 ∧ U.S Sample.lb (0 : Fin 1) (0 : Fin 1) = 3 := by
  obtain ⟨o, ws, hi, hl, hh, ht⟩ := Sample.glive_any (α := ℝ) (a := { Sample.gargs with structures := ("dense", "diagonal"), damping := .float (0 : ℝ) })
    (cK := .dense) (cC := .diagonal)
    (by have h2 : ¬ ((2⁻¹ : ℝ) < 0) := by norm_num
        simp [validate, Sample.gargs, PyNum.rejected, PyRate.rejected, h2]) rfl rfl rfl ⟨Or.inl rfl, Or.inr (Or.inl rfl)⟩
    (by simp [checked, defaults, Sample.gargs]) (show (2 : ℕ) ≠ 0 by decide)
  have I := init_ok (by decide) hi
  obtain ⟨cl, _, l⟩ := I.live (grad := Sample.ggrad) ht one_pos
  have hgr : ∀ m ∈ o.layers, LayerGrads ⟨o, Sample.gdata, Sample.ggrad, []⟩ m := by
    intro m hm
    rw [hl] at hm
    simp only [List.mem_cons, List.not_mem_nil, or_false] at hm
    rcases hm with rfl | rfl
    · exact ⟨⟨_, rfl, rfl, rfl⟩, fun b hb => by cases hb; exact ⟨_, rfl, rfl, rfl⟩⟩
    · exact ⟨⟨_, rfl, rfl, rfl⟩, fun b hb => by cases hb⟩
  obtain ⟨b1, b2, b3, b4, q1, q2, q3, q4, q5, q6, q7, q8, fB⟩ := Sample.pass_states l hl (fun m hm => ⟨_, hh m hm, by rw [I.steps]; rfl⟩) rfl
    (x0 := Sample.grow 1) (x1 := Sample.grow 2) (g0 := Sample.grow 1) (g1 := Sample.grow 1) rfl rfl rfl rfl hgr (attr := none) (by simp)
  -- a shear of the inputs and a scaling of the output gradients
  let R : (s : ℝ) → (n : ℕ) → Matrix (Fin n) (Fin n) ℝ := fun s n => 1 + s • Matrix.of fun i j : Fin n => if i.1 = 0 ∧ j.1 = 1 then (1 : ℝ) else 0
  have hR : ∀ s n, R s n * R (-s) n = 1 := fun s n => by
    have : (Matrix.of fun i j : Fin n => if i.1 = 0 ∧ j.1 = 1 then (1 : ℝ) else 0) * (Matrix.of fun i j : Fin n => if i.1 = 0 ∧ j.1 = 1 then (1 : ℝ) else 0) = 0 := by
      funext i j
      rw [Matrix.mul_apply]
      refine Finset.sum_eq_zero fun k _ => ?_
      simp only [Matrix.of_apply]
      by_cases hk : k.1 = 0
      · simp [hk]
      · simp [hk]
    show (1 + s • Matrix.of _) * (1 + (-s) • Matrix.of _) = _
    generalize (Matrix.of fun i j : Fin n => if i.1 = 0 ∧ j.1 = 1 then (1 : ℝ) else 0) = E at this ⊢
    rw [Matrix.add_mul, Matrix.mul_add, Matrix.mul_add, Matrix.smul_mul, Matrix.smul_mul, Matrix.mul_smul, Matrix.mul_smul, this]
    simp
  let U : Bases ℝ := ⟨fun m => R 5 m.din, fun _ => (3 : ℝ) • 1⟩
  let V : Bases ℝ := ⟨fun m => R (-5) m.din, fun _ => (3⁻¹ : ℝ) • 1⟩
  have un : ∀ (ops : List (Op ℝ)) (w : World ℝ), (∀ i h, Op.setHyper i h ∉ ops) → (∀ m ∈ w.opt.layers, ∀ h, w.opt.hyperOf m = .ok h → h.damping = 0) →
      Along Undamped w ops := by
    intro ops
    induction ops with
    | nil => exact fun _ _ _ => trivial
    | cons op ops ih =>
      intro w ho hw
      refine ⟨?_, ih _ (fun i h e => ho i h (List.mem_cons_of_mem _ e)) fun m hm h e => ?_⟩
      · rcases op with _ | _ | _ | _ | _ | _ | ⟨_, _, _ | _⟩ <;> first | trivial | exact fun m hm h e _ => hw m hm h e
      · rw [(exec_static op w).1] at hm
        rw [exec_hyperOf op w fun i y e => ho i y (by simp [e])] at e
        exact hw m hm h e
  refine ⟨o, ws, _, U, V, fun n => some (.dense (if n = "a" then Mat.ofMatrix (Sample.la.extend (V.R Sample.la)) else Mat.ofMatrix (Sample.lb.extend (V.R Sample.lb)))),
    fun n => some (.diagonal (Vec.ofFn 1 fun _ => 3⁻¹)),
    hi, ht, fun p X e m hm => ?_, fun m hm => ?_, fun m => ⟨by have := hR 5 m.din; exact this, by simp [U, V, smul_smul]⟩, fun m hm h cK cC e e1 e2 => ?_, fB,
    fun op ho => ?_, un _ _ (fun i h ho => ?_) (fun m hm h e => ?_), by simp [Sample.wpass], ?_, ?_⟩
  · obtain ⟨⟨G, e1, s1⟩, g2⟩ := hgr m hm
    refine ⟨?_, ?_⟩
    · rintro rfl
      replace e1 : Sample.ggrad m.weight.ptr = some G := e1
      rw [e] at e1; cases e1; exact s1
    · rintro b hb rfl
      obtain ⟨G, e1, s1⟩ := g2 b hb
      replace e1 : Sample.ggrad b.ptr = some G := e1
      rw [e] at e1; cases e1; exact s1
  · rw [hl] at hm
    simp only [List.mem_cons, List.not_mem_nil, or_false] at hm
    rcases hm with rfl | rfl <;> rfl
  · rw [hh m hm] at e; cases e
    cases e1; cases e2
    have hC : ∃ C, some (.diagonal (Vec.ofFn 1 fun _ => (3⁻¹ : ℝ))) = some C ∧ WF .diagonal 1 C ∧ C.den 1 = (3⁻¹ : ℝ) • 1 := by
      refine ⟨_, rfl, .diagonal rfl, ?_⟩
      funext i j
      rw [Fin.eq_zero i, Fin.eq_zero j]
      simp [SM.den, Mat.M, SM.toDense, Diagonal.toDense, Mat.get_ofFn, Vec.ofFn]
    rw [hl] at hm
    simp only [List.mem_cons, List.not_mem_nil, or_false] at hm
    rcases hm with rfl | rfl
    · exact ⟨id, id, ⟨_, rfl, .dense rfl rfl, M_ofMatrix _⟩, hC⟩
    · exact ⟨id, id, ⟨_, rfl, .dense rfl rfl, M_ofMatrix _⟩, hC⟩
  · simp [Sample.wpass] at ho
    rcases ho with rfl | rfl | rfl | rfl | rfl <;> trivial
  · simp [Sample.wpass] at ho
  · rw [hh m hm] at e; cases e; rfl
  · show R 5 2 0 1 ≠ 0
    simp [R]
  · show ((3 : ℝ) • (1 : Matrix (Fin 1) (Fin 1) ℝ)) 0 0 = 3
    simp

-- shifted inputs of a layer with bias (by 5): the weight is trained as before, the bias makes up for the shift
example : let w := Sample.world Sample.model .default { Sample.args with structures := ("dense", "dense"), damping := .float 0 }
    let w' : World ℚ := { w with
      opt := { w.opt with Ks := Function.update w.opt.Ks "a" (some (.dense (.ofLists 2 2 [[1, 0], [-5, 1]]))) }
      data := Function.update w.data 1 (.ofLists 1 1 [[1 - 5]])
      grad := Function.update w.grad 0 (some (.ofLists 1 1 [[3 + 5 * 3]])) }
    let ops : List (Op ℚ) := [.forward 0 (Sample.row [2 + 5]) true] ++ Sample.once.tail
    ((run ops w').data 0).toLists = ((run Sample.once w).data 0).toLists ∧
    ((run ops w').data 1).toLists = [[((run Sample.once w).data 1).get 0 0 - 5 * ((run Sample.once w).data 0).get 0 0]] ∧
    ((run Sample.once w).data 0).toLists ≠ (w.data 0).toLists := by decide +kernel
