import Verif.Props.Scaling
import Verif.Proofs.Opt.Rotate

/-! C63: training in another basis. -/

set_option linter.unusedSectionVars false
open Construct Matrix

set_option allowUnsafeReducibility true in
attribute [local reducible] Layer.nC

section
variable {α : Type} [Field α] [LinearOrder α] [HasSqrt α]

/-- A basis of the inputs (`R`) and of the outputs (`S`) of every layer. -/
structure Bases (α : Type) where
  R : (m : Layer) → Matrix (Fin m.din) (Fin m.din) α
  S : (m : Layer) → Matrix (Fin m.dout) (Fin m.dout) α

/-- a parameter (or gradient) in the bases of the layer that owns it -/
def Bases.param (U : Bases α) (layers : List Layer) (p : ℕ) (M : Mat α) : Mat α :=
  match layers.find? fun m => decide (m.weight.ptr = p) with
  | some m => Mat.ofMatrix ((U.S m)ᵀ * M.M m.dout m.din * U.R m)
  | none => match layers.find? fun m => decide (m.bias.map (·.ptr) = some p) with
    | some m => Mat.ofMatrix ((U.S m)ᵀ * M.M m.dout 1)
    | none => M

/-- an operation in other bases, for linear layers: inputs are multiplied by `R`, output gradients by `S` -/
def Op.rotate (U : Bases α) (w : World α) : Op α → Op α
  | .forward i x ge => match w.opt.layers[i]? with
    | some m => .forward i (x.rotate (U.R m)) ge
    | none => .forward i x ge
  | .backward k g => match w.hooks[k]? with
    | some mx => .backward k (g.rotate (U.S mx.1))
    | none => .backward k g
  | .setGrad p G => .setGrad p (G.map (U.param w.opt.layers p))
  | .setParam p M => .setParam p (U.param w.opt.layers p M)
  | op => op

/-- a history in other bases -/
def rotateRun (U : Bases α) : World α → List (Op α) → List (Op α)
  | _, [] => []
  | w, op :: ops => op.rotate U w :: rotateRun U (exec op w).2 ops

end

variable {α : Type} [Field α] [LinearOrder α] [IsStrictOrderedRing α] [LawfulSqrt α]

/-- `x` (value, gradient or momentum buffer of parameter `p`) is `y` in the bases of the layer that owns `p`: `Sᵀ W R` for a weight, `Sᵀ b` for a bias. -/
structure ParamRot (U : Bases α) (layers : List Layer) (p : ℕ) (x y : Option (Mat α)) : Prop where
  weight : ∀ m ∈ layers, m.weight.ptr = p → momO x m.dout m.din = (U.S m)ᵀ * momO y m.dout m.din * U.R m
  bias : ∀ m ∈ layers, ∀ b, m.bias = some b → b.ptr = p → momO x m.dout 1 = (U.S m)ᵀ * momO y m.dout 1
  other : (∀ m ∈ layers, ¬ World.Owns m p) → x = y
  shape : x.map (fun X => (X.rows, X.cols)) = y.map (fun X => (X.rows, X.cols))

/-- State `A` is state `B` in other bases. -/
structure Rot (U : Bases α) (A B : World α) : Prop where
  conf : SameConf A B
  scales : A.opt.scales = B.opt.scales
  data : ∀ p, ParamRot U B.opt.layers p (some (A.data p)) (some (B.data p))
  grad : ∀ p, ParamRot U B.opt.layers p (A.grad p) (B.grad p)
  mom : ∀ p, ParamRot U B.opt.layers p (A.opt.mom p) (B.opt.mom p)
  hooks : List.Forall₂ (fun a b => a.1 = b.1 ∧ ∀ h, inputMoment h b.1 a.2 = conjBy (b.1.extend (U.R b.1)) (inputMoment h b.1 b.2)) A.hooks B.hooks
  K : ∀ m ∈ B.opt.layers, denO (A.opt.Ks m.name) m.nK = conjBy (m.extend (U.R m)) (denO (B.opt.Ks m.name) m.nK)
  C : ∀ m ∈ B.opt.layers, denO (A.opt.Cs m.name) m.nC = conjBy (U.S m) (denO (B.opt.Cs m.name) m.nC)
  mK : ∀ m ∈ B.opt.layers, denO (A.opt.mKs m.name) m.nK = conjBy (m.extend (U.R m)) (denO (B.opt.mKs m.name) m.nK)
  mC : ∀ m ∈ B.opt.layers, denO (A.opt.mCs m.name) m.nC = conjBy (U.S m) (denO (B.opt.mCs m.name) m.nC)
  HK : ∀ m ∈ B.opt.layers, denO (A.opt.HKs m.name) m.nK = conjBy (m.extend (U.R m)) (denO (B.opt.HKs m.name) m.nK)
  HC : ∀ m ∈ B.opt.layers, denO (A.opt.HCs m.name) m.nC = conjBy (U.S m) (denO (B.opt.HCs m.name) m.nC)
  present : ∀ m ∈ B.opt.layers, (A.opt.HKs m.name = none ↔ B.opt.HKs m.name = none) ∧ (A.opt.HCs m.name = none ↔ B.opt.HCs m.name = none) ∧
    (A.opt.mKs m.name = none ↔ B.opt.mKs m.name = none) ∧ (A.opt.mCs m.name = none ↔ B.opt.mCs m.name = none)

/-- the largest absolute entry is the same in the other basis -/
def MaxInv {n : ℕ} (Q : Matrix (Fin n) (Fin n) α) : Prop := ∀ M v, IsMaxAbs M v → IsMaxAbs (conjBy Q M) v

/-- Operation `a` (on state `A`) is operation `b` (on `B`) in other bases: inputs and output gradients have transformed second moments, parameters and
gradients are transformed, everything else is the same. A step with `normalize_lr_cov=True` requires bases that keep the largest absolute entry. -/
def RotOp (U : Bases α) (_A B : World α) : Op α → Op α → Prop
  | .forward i x ge, .forward j y ge' => i = j ∧ ge = ge' ∧
      ∀ m, B.opt.layers[j]? = some m → ∀ h, inputMoment h m x = conjBy (m.extend (U.R m)) (inputMoment h m y)
  | .backward k g, .backward l g' => k = l ∧ ∀ mx, B.hooks[l]? = some mx → ∀ h, gradMoment h mx.1 g = conjBy (U.S mx.1) (gradMoment h mx.1 g')
  | .setGrad p G, .setGrad q G' => p = q ∧ ParamRot U B.opt.layers q G G'
  | .setParam p M, .setParam q M' => p = q ∧ ParamRot U B.opt.layers q (some M) (some M')
  | .setHyper i h, .setHyper j h' => i = j ∧ h = h'
  | .setScale s, .setScale s' => s = s'
  | .step c t f, .step c' t' f' => c = c' ∧ t = t' ∧ f = f' ∧
      (f' = false → ∀ m ∈ B.opt.layers, ∀ h, B.opt.hyperOf m = .ok h → h.normalize = true → MaxInv (m.extend (U.R m)) ∧ MaxInv (U.S m))
  | _, _ => False

/-- the structures of all layers keep their bases -/
def KeepAll (cl : String → Cls × Cls) (U : Bases α) (w : World α) : Prop :=
  ∀ m ∈ w.opt.layers, (cl m.name).1.Keeps m.nK (m.extend (U.R m)) ∧ (cl m.name).2.Keeps m.nC (U.S m)

/-- the structures of the layers in two runs act alike in their bases -/
def ActAll (clA clB : String → Cls × Cls) (U : Bases α) (w : World α) : Prop :=
  ∀ m ∈ w.opt.layers, (clA m.name).1.Acts (clB m.name).1 m.nK (m.extend (U.R m)) ∧ (clA m.name).2.Acts (clB m.name).2 m.nC (U.S m)

theorem KeepAll.acts {cl : String → Cls × Cls} {U : Bases α} {w : World α} (k : KeepAll cl U w) : ActAll cl cl U w :=
  fun m hm => ⟨(k m hm).1.acts, (k m hm).2.acts⟩

section
variable {c c' : Cls} {n : ℕ} {Q : Matrix (Fin n) (Fin n) α} (k : c.Acts c' n Q)
include k

theorem sandwich_rot {A : Matrix (Fin n) (Fin n) α} (hA : c'.Rep n A) : c.sandwich (conjBy Q A) 1 = conjBy Q (c'.sandwich A 1) := by
  rw [← k.sandwich A hA, conjBy_one k.orth]

theorem updDir_rot (s a b d : α) {A : Matrix (Fin n) (Fin n) α} (hA : c'.Rep n A) (H : Matrix (Fin n) (Fin n) α) :
    updDir c s a b d (conjBy Q A) (conjBy Q H) = conjBy Q (updDir c' s a b d A H) := by
  rw [updDir, updDir, sandwich_rot k hA, k.proj _ (sandwich_symm c' A transpose_one), conjBy_smul, conjBy_sub, conjBy_add, conjBy_smul, conjBy_smul, conjBy_one k.orth]

theorem avgTr_rot {A : Matrix (Fin n) (Fin n) α} (hA : c'.Rep n A) : avgTr (c.sandwich (conjBy Q A) 1) = avgTr (c'.sandwich A 1) := by
  rw [sandwich_rot k hA, conjBy_avgTr k.orth]

end

theorem dir_rot {cl cl' : Cls × Cls} {m : Layer} (h : Hyper α) (u : α) {Q : Matrix (Fin m.nK) (Fin m.nK) α} {P : Matrix (Fin m.nC) (Fin m.nC) α}
    (k : cl.1.Acts cl'.1 m.nK Q) (k' : cl.2.Acts cl'.2 m.nC P) {K : Matrix (Fin m.nK) (Fin m.nK) α} (hK : cl'.1.Rep m.nK K) (HK : Matrix (Fin m.nK) (Fin m.nK) α)
    {C : Matrix (Fin m.nC) (Fin m.nC) α} (hC : cl'.2.Rep m.nC C) (HC : Matrix (Fin m.nC) (Fin m.nC) α) :
    dirK cl m h u (conjBy Q K) (conjBy Q HK) (conjBy P C) (conjBy P HC) = conjBy Q (dirK cl' m h u K HK C HC) ∧
    dirC cl m h u (conjBy Q K) (conjBy Q HK) (conjBy P C) (conjBy P HC) = conjBy P (dirC cl' m h u K HK C HC) := by
  constructor <;> simp only [dirK, dirC, avgTr_rot k hK, avgTr_rot k' hC, conjBy_avgTr k.orth, conjBy_avgTr k'.orth, updDir_rot k _ _ _ _ hK, updDir_rot k' _ _ _ _ hC]

theorem natDir_rot {cl cl' : Cls × Cls} {nC nK : ℕ} {Q : Matrix (Fin nK) (Fin nK) α} {P : Matrix (Fin nC) (Fin nC) α} (k : cl.1.Acts cl'.1 nK Q)
    (k' : cl.2.Acts cl'.2 nC P) (s : α) (G : Matrix (Fin nC) (Fin nK) α) {K : Matrix (Fin nK) (Fin nK) α} (hK : cl'.1.Rep nK K)
    {C : Matrix (Fin nC) (Fin nC) α} (hC : cl'.2.Rep nC C) :
    natDir cl s (Pᵀ * G * Q) (conjBy Q K) (conjBy P C) = Pᵀ * natDir cl' s G K C * Q := by
  rw [natDir, natDir, k.gram K hK, k'.gram C hC, conjBy_transpose]
  simp only [conjBy, Matrix.mul_smul, Matrix.smul_mul]
  congr 1
  have e1 := orth_right k.orth
  have e2 := orth_right k'.orth
  rw [show Pᵀ * cl'.2.gram C * P * (Pᵀ * G * Q) * (Qᵀ * (cl'.1.gram K)ᵀ * Q) = Pᵀ * cl'.2.gram C * (P * Pᵀ) * G * (Q * Qᵀ) * (cl'.1.gram K)ᵀ * Q by
    simp only [Matrix.mul_assoc], e1, e2]
  simp only [Matrix.mul_one, Matrix.mul_assoc]

/-- the factors of a live state are matrices of their classes -/
theorem World.Live.reps {cl : String → Cls × Cls} {w : World α} (l : w.Live cl) {m : Layer} (hm : m ∈ w.opt.layers) :
    (cl m.name).1.Rep m.nK (denO (w.opt.Ks m.name) m.nK) ∧ (cl m.name).2.Rep m.nC (denO (w.opt.Cs m.name) m.nC) := by
  obtain ⟨K, eK, wK⟩ := (l.sound.lay m hm).K
  obtain ⟨C, eC, wC⟩ := (l.sound.lay m hm).C
  rw [eK, eC]
  exact ⟨⟨K, wK, rfl⟩, ⟨C, wC, rfl⟩⟩

theorem IsRate.rot {h : Hyper α} {t n : ℕ} {Q M : Matrix (Fin n) (Fin n) α} {b : α} (hq : h.normalize = true → MaxInv Q) (r : IsRate h t M b) :
    IsRate h t (conjBy Q M) b := by
  unfold IsRate at r ⊢
  by_cases hn : h.normalize = true
  · rw [if_pos hn] at r ⊢
    obtain ⟨v, hv, e⟩ := r
    exact ⟨v, hq hn M v hv, e⟩
  · rw [if_neg hn] at r ⊢; exact r

theorem weightPart_rot {m : Layer} (N : Matrix (Fin m.nC) (Fin m.nK) α) (R : Matrix (Fin m.din) (Fin m.din) α) (S : Matrix (Fin m.dout) (Fin m.dout) α) :
    weightPart (Sᵀ * N * m.extend R) = Sᵀ * weightPart N * R := by
  funext i j
  rw [weightPart, mul_extend_weight, Matrix.mul_apply]
  rfl

theorem biasPart_rot {m : Layer} (hb : m.bias.isSome) (N : Matrix (Fin m.nC) (Fin m.nK) α) (R : Matrix (Fin m.din) (Fin m.din) α)
    (S : Matrix (Fin m.dout) (Fin m.dout) α) : biasPart hb (Sᵀ * N * m.extend R) = Sᵀ * biasPart hb N := by
  funext i j
  rw [biasPart, mul_extend_bias _ _ _ _ hb]
  rfl

theorem momO_get (x : Option (Mat α)) (r c : ℕ) (i : Fin r) (j : Fin c) : momO x r c i j = (x.map fun G => G.get i j).getD 0 := by
  rcases x with _ | x <;> rfl

theorem gradM_rot {U : Bases α} {A B : World α} {m : Layer} (hm : m ∈ B.opt.layers) (hg : ∀ p, ParamRot U B.opt.layers p (A.grad p) (B.grad p)) :
    gradM A m = (U.S m)ᵀ * gradM B m * m.extend (U.R m) := by
  funext i j
  by_cases hj : j.1 < m.din
  · have e := congrFun (congrFun ((hg m.weight.ptr).weight m hm rfl) i) ⟨j.1, hj⟩
    have e2 : weightPart (gradM B m) = momO (B.grad m.weight.ptr) m.dout m.din := by
      funext a b; rw [weightPart, momO_get, gradM, if_pos b.2]
    have e3 : gradM A m i j = momO (A.grad m.weight.ptr) m.dout m.din i ⟨j.1, hj⟩ := by rw [momO_get, gradM, if_pos hj]
    rw [e3, e, ← e2, ← weightPart_rot]
    rfl
  · have hb : m.bias.isSome := by
      by_contra hb
      have h1 : j.1 < m.nK := j.2
      have h2 : m.nK = m.din + if m.bias.isSome then 1 else 0 := rfl
      rw [if_neg hb] at h2
      omega
    obtain ⟨b, hb'⟩ := Option.isSome_iff_exists.1 hb
    have hj' : j = ⟨m.din, by unfold Layer.nK; simp [hb]⟩ := by
      ext
      have h1 : j.1 < m.nK := j.2
      have h2 : m.nK = m.din + if m.bias.isSome then 1 else 0 := rfl
      rw [if_pos hb] at h2
      show j.1 = m.din
      omega
    have e := congrFun (congrFun ((hg b.ptr).bias m hm b hb' rfl) i) 0
    have e2 : biasPart hb (gradM B m) = momO (B.grad b.ptr) m.dout 1 := by
      funext a c; rw [biasPart, momO_get, gradM, if_neg (lt_irrefl _), hb']; simp [Fin.eq_zero c]
    have e3 : gradM A m i j = momO (A.grad b.ptr) m.dout 1 i 0 := by rw [momO_get, gradM, if_neg hj, hb']; rfl
    rw [e3, e, ← e2, ← biasPart_rot hb _ (U.R m), hj']
    rfl

/-- one parameter update in two bases: `T X = Sᵀ X R` -/
theorem ParamSpec.rot {h : Hyper α} {p r c : ℕ} {S : Matrix (Fin r) (Fin r) α} {R : Matrix (Fin c) (Fin c) α} {D D' : Matrix (Fin r) (Fin c) α} {A A' B B' : World α}
    (hA : ParamSpec h p D A A') (hB : ParamSpec h p D' B B') (hS : D = Sᵀ * D' * R)
    (hd : momO (some (A.data p)) r c = Sᵀ * momO (some (B.data p)) r c * R) (hm : momO (A.opt.mom p) r c = Sᵀ * momO (B.opt.mom p) r c * R)
    (hs : (A.opt.mom p).map (fun X => (X.rows, X.cols)) = (B.opt.mom p).map fun X => (X.rows, X.cols)) :
    momO (some (A'.data p)) r c = Sᵀ * momO (some (B'.data p)) r c * R ∧ momO (A'.opt.mom p) r c = Sᵀ * momO (B'.opt.mom p) r c * R ∧
      ((A'.data p).rows, (A'.data p).cols) = ((B'.data p).rows, (B'.data p).cols) ∧
      (A'.opt.mom p).map (fun X => (X.rows, X.cols)) = (B'.opt.mom p).map fun X => (X.rows, X.cols) := by
  change (A.data p).M r c = Sᵀ * (B.data p).M r c * R at hd
  refine ⟨?_, ?_, by rw [hA.shape.data.1, hA.shape.data.2, hB.shape.data.1, hB.shape.data.2], ?_⟩
  · show (A'.data p).M r c = Sᵀ * (B'.data p).M r c * R
    rw [hA.data, hB.data, hd, hm, hS]
    simp only [Matrix.mul_sub, Matrix.sub_mul, Matrix.mul_add, Matrix.add_mul, Matrix.mul_smul, Matrix.smul_mul]
  · by_cases h0 : h.momentum = 0
    · rw [hA.mom0 h0, hB.mom0 h0, hm]
    · rw [(hA.mom1 h0).2, (hB.mom1 h0).2, hm, hd, hS]
      simp only [Matrix.mul_add, Matrix.add_mul, Matrix.mul_smul, Matrix.smul_mul]
  · by_cases h0 : h.momentum = 0
    · rw [hA.mom0 h0, hB.mom0 h0, hs]
    · obtain ⟨X, eX⟩ := Option.ne_none_iff_exists'.1 (hA.mom1 h0).1
      obtain ⟨Y, eY⟩ := Option.ne_none_iff_exists'.1 (hB.mom1 h0).1
      have s1 := hA.shape.mom X eX
      have s2 := hB.shape.mom Y eY
      rw [eX, eY]
      simp [s1.1, s1.2, s2.1, s2.2]

theorem Rot.exec {clA clB : String → Cls × Cls} {U : Bases α} {A B : World α} {a b : Op α} (lA : A.Live clA) (lB : B.Live clB) (fA : FitsOp A a)
    (fB : FitsOp B b) (kp : ActAll clA clB U B) (r : Rot U A B) (ho : RotOp U A B a b) : Rot U (_root_.exec a A).2 (_root_.exec b B).2 := by
  have hlay := r.conf.layers
  cases b with
  | forward i x ge =>
    cases a with
    | forward i' x' ge' =>
      obtain ⟨rfl, rfl, hx⟩ := ho
      rw [exec_forward_state, exec_forward_state]
      refine ⟨⟨r.conf.1, r.conf.2, r.conf.3, r.conf.4⟩, r.scales, r.data, r.grad, r.mom, ?_, r.K, r.C, r.mK, r.mC, r.HK, r.HC, r.present⟩
      show List.Forall₂ _ (A.hooks ++ _) (B.hooks ++ _)
      refine List.rel_append r.hooks ?_
      unfold newHooks
      rw [r.conf.layers]
      rcases hi : B.opt.layers[i']? with _ | m'
      · exact .nil
      · by_cases hc : ge' = true ∧ World.Updates B.opt m'
        · simp only
          rw [if_pos hc, if_pos ⟨hc.1, (r.conf.updates m').2 hc.2⟩]
          exact .cons ⟨rfl, hx m' hi⟩ .nil
        · simp only
          rw [if_neg hc, if_neg (fun h => hc ⟨h.1, (r.conf.updates m').1 h.2⟩)]
          exact .nil
    | _ => exact ho.elim
  | backward i g =>
    cases a with
    | backward i' g' =>
      obtain ⟨rfl, hg⟩ := ho
      rcases e2 : B.hooks[i']? with _ | x
      · have e1 : A.hooks[i']? = none := by
          rw [List.getElem?_eq_none_iff] at e2 ⊢
          rw [r.hooks.length_eq]; exact e2
        rw [exec_backward_none e1, exec_backward_none e2]; exact r
      obtain ⟨hl, e2'⟩ := List.getElem?_eq_some_iff.1 e2
      have hl' : i' < A.hooks.length := by rw [r.hooks.length_eq]; exact hl
      obtain ⟨ex, hx⟩ := (List.forall₂_iff_get.1 r.hooks).2 i' hl' hl
      rw [List.get_eq_getElem, List.get_eq_getElem, e2'] at ex hx
      have e1 : A.hooks[i']? = some (x.1, (A.hooks[i']).2) := by
        rw [List.getElem?_eq_getElem hl', ← ex]
      generalize (A.hooks[i']).2 = y at *
      obtain ⟨mA, hA, qA, hhA, hqA, qA0, bA⟩ := lA.back e1 fA
      obtain ⟨mB, hB, qB, hhB, hqB, qB0, bB⟩ := lB.back e2 fB
      rw [r.conf.hyperOf, hhB] at hhA
      cases hhA
      rw [r.scales, r.conf.steps, hqB] at hqA
      cases hqA
      have frA := bA.frame
      have frB := bB.frame
      have hg' := hg x e2
      generalize (_root_.exec (.backward i' g') A).2 = A' at *
      generalize (_root_.exec (.backward i' g) B).2 = B' at *
      refine ⟨(frA.conf.trans r.conf).trans frB.conf.symm, by rw [frA.scales, frB.scales, r.scales], ?_, ?_, ?_,
        by rw [frA.hooks, frB.hooks]; exact r.hooks, ?_, ?_, ?_, ?_, ?_, ?_, ?_⟩ <;> rw [frB.layers]
      · intro p; rw [frA.data _ id, frB.data _ id]; exact r.data p
      · intro p; rw [frA.grad, frB.grad]; exact r.grad p
      · intro p; rw [frA.mom _ id, frB.mom _ id]; exact r.mom p
      · intro m hm; rw [frA.Ks _ id, frB.Ks _ id]; exact r.K m hm
      · intro m hm; rw [frA.Cs _ id, frB.Cs _ id]; exact r.C m hm
      · intro m hm; rw [frA.mKs _ id, frB.mKs _ id]; exact r.mK m hm
      · intro m hm; rw [frA.mCs _ id, frB.mCs _ id]; exact r.mC m hm
      · intro m hm
        by_cases e : m.name = x.1.name
        · obtain rfl := lB.sound.untied.name_inj hm mB e
          have k := (kp _ hm).1
          rw [bA.HK, bB.HK]
          simp only
          rw [r.HK _ hm, r.K _ hm, hx, k.sandwich _ (lB.reps hm).1, k.proj _ (sandwich_symm _ _ (inputMoment_symm _ _ _)), conjBy_add]
        · rw [frA.HKs _ e, frB.HKs _ e]; exact r.HK m hm
      · intro m hm
        by_cases e : m.name = x.1.name
        · obtain rfl := lB.sound.untied.name_inj hm mB e
          have k := (kp _ hm).2
          rw [bA.HC, bB.HC]
          simp only
          rw [r.HC _ hm, r.C _ hm, hg', k.sandwich _ (lB.reps hm).2, k.proj _ (sandwich_symm _ _ (gradMoment_symm _ _ _)), conjBy_add, conjBy_smul]
        · rw [frA.HCs _ e, frB.HCs _ e]; exact r.HC m hm
      · intro m hm
        rw [frA.mKs _ id, frB.mKs _ id, frA.mCs _ id, frB.mCs _ id]
        obtain ⟨n1, n2, n3, n4⟩ := r.present m hm
        by_cases e : m.name = x.1.name
        · refine ⟨?_, ?_, n3, n4⟩
          · rw [e]; simp [bA.someK, bB.someK]
          · rw [e]; simp [bA.someC, bB.someC]
        · rw [frA.HKs _ e, frB.HKs _ e, frA.HCs _ e, frB.HCs _ e]; exact ⟨n1, n2, n3, n4⟩
    | _ => exact ho.elim
  | setGrad p G =>
    cases a with
    | setGrad p' G' =>
      obtain ⟨rfl, hG⟩ := ho
      refine ⟨⟨r.conf.1, r.conf.2, r.conf.3, r.conf.4⟩, r.scales, r.data, fun q => ?_, r.mom, r.hooks, r.K, r.C, r.mK, r.mC, r.HK, r.HC, r.present⟩
      show ParamRot U B.opt.layers q (Function.update A.grad p' G' q) (Function.update B.grad p' G q)
      by_cases e : q = p'
      · subst e; simpa using hG
      · simpa [e] using r.grad q
    | _ => exact ho.elim
  | setParam p M =>
    cases a with
    | setParam p' M' =>
      obtain ⟨rfl, hM⟩ := ho
      refine ⟨⟨r.conf.1, r.conf.2, r.conf.3, r.conf.4⟩, r.scales, fun q => ?_, r.grad, r.mom, r.hooks, r.K, r.C, r.mK, r.mC, r.HK, r.HC, r.present⟩
      show ParamRot U B.opt.layers q (some (Function.update A.data p' M' q)) (some (Function.update B.data p' M q))
      by_cases e : q = p'
      · subst e; simpa using hM
      · simpa [e] using r.data q
    | _ => exact ho.elim
  | setHyper i h =>
    cases a with
    | setHyper i' h' =>
      obtain ⟨rfl, rfl⟩ := ho
      rw [exec_setHyper, exec_setHyper]
      refine ⟨⟨r.conf.1, r.conf.2, ?_, r.conf.4⟩, r.scales, r.data, r.grad, r.mom, r.hooks, r.K, r.C, r.mK, r.mC, r.HK, r.HC, r.present⟩
      show A.opt.groups.modify i' _ = B.opt.groups.modify i' _
      rw [r.conf.groups]
    | _ => exact ho.elim
  | setScale z =>
    cases a with
    | setScale z' =>
      obtain rfl : z' = z := ho
      have eA : (_root_.exec (.setScale z') A).2 = _ := World.setScale_state z' A
      have eB : (_root_.exec (.setScale z') B).2 = _ := World.setScale_state z' B
      rw [eA, eB]
      refine ⟨⟨r.conf.1, r.conf.2, r.conf.3, r.conf.4⟩, ?_, r.data, r.grad, r.mom, r.hooks, r.K, r.C, r.mK, r.mC, r.HK, r.HC, r.present⟩
      show Dict.set A.opt.scales A.opt.steps z' = Dict.set B.opt.scales B.opt.steps z'
      rw [r.scales, r.conf.steps]
    | _ => exact ho.elim
  | step b t f =>
    cases a with
    | step b' t' f' =>
      obtain ⟨rfl, rfl, rfl, hN⟩ := ho
      obtain rfl := fA.1
      have cs : A.curScale t' = B.curScale t' := by unfold World.curScale; rw [r.scales, r.conf.steps]
      have us : A.unscale t' = B.unscale t' := by unfold World.unscale; rw [r.scales, r.conf.steps, cs]
      cases f'
      · obtain ⟨A', eA, sA, _⟩ := lA.step fA
        obtain ⟨B', eB, sB, lB'⟩ := lB.step fB
        rw [eA, eB]
        rw [cs, us] at sA
        have L : ∀ m ∈ B.opt.layers, denO (A'.opt.Ks m.name) m.nK = conjBy (m.extend (U.R m)) (denO (B'.opt.Ks m.name) m.nK) ∧
            denO (A'.opt.Cs m.name) m.nC = conjBy (U.S m) (denO (B'.opt.Cs m.name) m.nC) ∧
            denO (A'.opt.mKs m.name) m.nK = conjBy (m.extend (U.R m)) (denO (B'.opt.mKs m.name) m.nK) ∧
            denO (A'.opt.mCs m.name) m.nC = conjBy (U.S m) (denO (B'.opt.mCs m.name) m.nC) ∧
            denO (A'.opt.HKs m.name) m.nK = conjBy (m.extend (U.R m)) (denO (B'.opt.HKs m.name) m.nK) ∧
            denO (A'.opt.HCs m.name) m.nC = conjBy (U.S m) (denO (B'.opt.HCs m.name) m.nC) ∧
            (A'.opt.HKs m.name = none ↔ B'.opt.HKs m.name = none) ∧ (A'.opt.HCs m.name = none ↔ B'.opt.HCs m.name = none) ∧
            (A'.opt.mKs m.name = none ↔ B'.opt.mKs m.name = none) ∧ (A'.opt.mCs m.name = none ↔ B'.opt.mCs m.name = none) := by
          intro m hm
          obtain ⟨h, hh, hT⟩ := lB.sound.hyper m hm
          have LA := sA.layer m (hlay ▸ hm) h (by rw [r.conf.hyperOf]; exact hh)
          have LB := sB.layer m hm h hh
          obtain ⟨k, k'⟩ := kp m hm
          have hn := hN rfl m hm h hh
          by_cases h0 : B.opt.steps % h.T = 0
          · have vA := LA.upd (by rw [r.conf.steps]; exact h0)
            have vB := LB.upd h0
            obtain ⟨mK, mC, bK, bC, a1, a2, a3, a4, a5, a6, a7⟩ := vA.eqs
            obtain ⟨mK', mC', bK', bC', b1, b2, b3, b4, b5, b6, b7⟩ := vB.eqs
            obtain ⟨d1, d2⟩ := dir_rot h (B.unscale t') k k' (lB.reps hm).1 (denO (B.opt.HKs m.name) _) (lB.reps hm).2 (denO (B.opt.HCs m.name) _)
            rw [r.K m hm, r.C m hm, r.HK m hm, r.HC m hm] at a2 a3
            rw [d1, r.mK m hm, ← conjBy_smul, ← conjBy_add, ← b2] at a2
            rw [d2, r.mC m hm, ← conjBy_smul, ← conjBy_add, ← b3] at a3
            subst a2 a3
            rw [r.conf.steps] at a4 a5
            obtain rfl := a4.unique (b4.rot fun e => (hn e).1)
            obtain rfl := a5.unique (b5.rot fun e => (hn e).2)
            refine ⟨?_, ?_, ?_, ?_, by rw [vA.HK, vB.HK]; simp [denO, conjBy_zero], by rw [vA.HC, vB.HC]; simp [denO, conjBy_zero],
              by rw [vA.HK, vB.HK], by rw [vA.HC, vB.HC], ?_⟩
            · rw [a6, b6, r.K m hm, conjBy_mul k.orth, conjBy_sub, conjBy_smul, conjBy_one k.orth]
            · rw [a7, b7, r.C m hm, conjBy_mul k'.orth, conjBy_sub, conjBy_smul, conjBy_one k'.orth]
            · by_cases hz : h.alpha1 = 0
              · rw [(vA.mK0 hz).1, (vB.mK0 hz).1]; exact r.mK m hm
              · rw [(a1 hz).2.2.1, (b1 hz).2.2.1]
            · by_cases hz : h.alpha1 = 0
              · rw [(vA.mK0 hz).2, (vB.mK0 hz).2]; exact r.mC m hm
              · rw [(a1 hz).2.2.2, (b1 hz).2.2.2]
            · by_cases hz : h.alpha1 = 0
              · rw [(vA.mK0 hz).1, (vB.mK0 hz).1, (vA.mK0 hz).2, (vB.mK0 hz).2]; exact (r.present m hm).2.2
              · simp [(a1 hz).1, (a1 hz).2.1, (b1 hz).1, (b1 hz).2.1]
          · have nA := LA.noupd (by rw [r.conf.steps]; exact h0)
            have nB := LB.noupd h0
            rw [nA.Ks, nB.Ks, nA.Cs, nB.Cs, nA.mKs, nB.mKs, nA.mCs, nB.mCs, nA.HKs, nB.HKs, nA.HCs, nB.HCs]
            exact ⟨r.K m hm, r.C m hm, r.mK m hm, r.mC m hm, r.HK m hm, r.HC m hm, r.present m hm⟩
        have hr : ∀ m ∈ B.opt.layers, (clB m.name).1.Rep m.nK (denO (B'.opt.Ks m.name) m.nK) ∧ (clB m.name).2.Rep m.nC (denO (B'.opt.Cs m.name) m.nC) :=
          fun m hm => lB'.reps (by rw [sB.layers]; exact hm)
        have D : ∀ m ∈ B.opt.layers, natDir (clA m.name) (B.curScale t') (gradM A m) (denO (A'.opt.Ks m.name) m.nK) (denO (A'.opt.Cs m.name) m.nC) =
            (U.S m)ᵀ * natDir (clB m.name) (B.curScale t') (gradM B m) (denO (B'.opt.Ks m.name) m.nK) (denO (B'.opt.Cs m.name) m.nC) * m.extend (U.R m) := by
          intro m hm
          obtain ⟨k, k'⟩ := kp m hm
          rw [(L m hm).1, (L m hm).2.1, gradM_rot hm r.grad, natDir_rot k k' _ _ (hr m hm).1 (hr m hm).2]
        have W : ∀ m ∈ B.opt.layers,
            momO (some (A'.data m.weight.ptr)) m.dout m.din = (U.S m)ᵀ * momO (some (B'.data m.weight.ptr)) m.dout m.din * U.R m ∧
            momO (A'.opt.mom m.weight.ptr) m.dout m.din = (U.S m)ᵀ * momO (B'.opt.mom m.weight.ptr) m.dout m.din * U.R m ∧
            ((A'.data m.weight.ptr).rows, (A'.data m.weight.ptr).cols) = ((B'.data m.weight.ptr).rows, (B'.data m.weight.ptr).cols) ∧
            (A'.opt.mom m.weight.ptr).map (fun X => (X.rows, X.cols)) = (B'.opt.mom m.weight.ptr).map fun X => (X.rows, X.cols) := fun m hm => by
          obtain ⟨h, hh, hT⟩ := lB.sound.hyper m hm
          have LA := sA.layer m (hlay ▸ hm) h (by rw [r.conf.hyperOf]; exact hh)
          have LB := sB.layer m hm h hh
          exact ParamSpec.rot (S := U.S m) (R := U.R m) LA.apply.weight LB.apply.weight (by rw [D m hm, weightPart_rot])
            ((r.data _).weight m hm rfl) ((r.mom _).weight m hm rfl) (r.mom _).shape
        have V : ∀ m ∈ B.opt.layers, ∀ b, m.bias = some b →
            momO (some (A'.data b.ptr)) m.dout 1 = (U.S m)ᵀ * momO (some (B'.data b.ptr)) m.dout 1 * (1 : Matrix (Fin 1) (Fin 1) α) ∧
            momO (A'.opt.mom b.ptr) m.dout 1 = (U.S m)ᵀ * momO (B'.opt.mom b.ptr) m.dout 1 * (1 : Matrix (Fin 1) (Fin 1) α) ∧
            ((A'.data b.ptr).rows, (A'.data b.ptr).cols) = ((B'.data b.ptr).rows, (B'.data b.ptr).cols) ∧
            (A'.opt.mom b.ptr).map (fun X => (X.rows, X.cols)) = (B'.opt.mom b.ptr).map fun X => (X.rows, X.cols) := fun m hm b hb => by
          obtain ⟨h, hh, hT⟩ := lB.sound.hyper m hm
          have LA := sA.layer m (hlay ▸ hm) h (by rw [r.conf.hyperOf]; exact hh)
          have LB := sB.layer m hm h hh
          exact ParamSpec.rot (S := U.S m) (R := 1) (LA.apply.bias b hb) (LB.apply.bias b hb) (by rw [D m hm, biasPart_rot, Matrix.mul_one])
            (by rw [Matrix.mul_one]; exact (r.data _).bias m hm b hb rfl) (by rw [Matrix.mul_one]; exact (r.mom _).bias m hm b hb rfl) (r.mom _).shape
        refine ⟨⟨by rw [sA.layers, sB.layers, r.conf.layers], by rw [sA.ptrGroup, sB.ptrGroup, r.conf.ptrGroup],
            by rw [sA.groups, sB.groups, r.conf.groups], by rw [sA.steps, sB.steps, r.conf.steps]⟩,
          by funext z; rw [sA.scales, sB.scales, r.scales, r.conf.steps], ?_, ?_, ?_,
          by rw [sA.hooks, sB.hooks]; exact r.hooks, ?_, ?_, ?_, ?_, ?_, ?_, ?_⟩ <;> rw [sB.layers]
        · refine fun p => ⟨?_, ?_, fun hp => ?_, ?_⟩
          · rintro m hm rfl; exact (W m hm).1
          · rintro m hm b hb rfl; have := (V m hm b hb).1; rwa [Matrix.mul_one] at this
          · rw [(sA.otherP p (by rw [hlay]; exact hp)).1, (sB.otherP p hp).1]; exact (r.data p).other hp
          · by_cases hp : ∃ m ∈ B.opt.layers, World.Owns m p
            · obtain ⟨m, hm, hp⟩ := hp
              rcases hp with rfl | ⟨b, hb, rfl⟩
              · exact congrArg some (W m hm).2.2.1
              · exact congrArg some (V m hm b hb).2.2.1
            · have n1 : ∀ m ∈ B.opt.layers, ¬ World.Owns m p := fun m hm h => hp ⟨m, hm, h⟩
              rw [(sA.otherP p (by rw [hlay]; exact n1)).1, (sB.otherP p n1).1]; exact (r.data p).shape
        · rw [sA.grad, sB.grad]; exact r.grad
        · refine fun p => ⟨?_, ?_, fun hp => ?_, ?_⟩
          · rintro m hm rfl; exact (W m hm).2.1
          · rintro m hm b hb rfl; have := (V m hm b hb).2.1; rwa [Matrix.mul_one] at this
          · rw [(sA.otherP p (by rw [hlay]; exact hp)).2, (sB.otherP p hp).2]; exact (r.mom p).other hp
          · by_cases hp : ∃ m ∈ B.opt.layers, World.Owns m p
            · obtain ⟨m, hm, hp⟩ := hp
              rcases hp with rfl | ⟨b, hb, rfl⟩
              · exact (W m hm).2.2.2
              · exact (V m hm b hb).2.2.2
            · have n1 : ∀ m ∈ B.opt.layers, ¬ World.Owns m p := fun m hm h => hp ⟨m, hm, h⟩
              rw [(sA.otherP p (by rw [hlay]; exact n1)).2, (sB.otherP p n1).2]; exact (r.mom p).shape
        · exact fun m hm => (L m hm).1
        · exact fun m hm => (L m hm).2.1
        · exact fun m hm => (L m hm).2.2.1
        · exact fun m hm => (L m hm).2.2.2.1
        · exact fun m hm => (L m hm).2.2.2.2.1
        · exact fun m hm => (L m hm).2.2.2.2.2.1
        · exact fun m hm => (L m hm).2.2.2.2.2.2
      · obtain ⟨A', eA, a1, a2, a3, a4, a5, a6, a7, a8, a9, a10, a11, a12, a13, a14⟩ := lA.skip t'
        obtain ⟨B', eB, b1, b2, b3, b4, b5, b6, b7, b8, b9, b10, b11, b12, b13, b14⟩ := lB.skip t'
        rw [eA, eB]
        have nA : ∀ m ∈ B.opt.layers, A'.opt.HKs m.name = none ∧ A'.opt.HCs m.name = none := fun m hm => by
          rw [(a14 _).1, (a14 _).2, if_pos ⟨m, hlay ▸ hm, rfl⟩, if_pos ⟨m, hlay ▸ hm, rfl⟩]; exact ⟨rfl, rfl⟩
        have nB : ∀ m ∈ B.opt.layers, B'.opt.HKs m.name = none ∧ B'.opt.HCs m.name = none := fun m hm => by
          rw [(b14 _).1, (b14 _).2, if_pos ⟨m, hm, rfl⟩, if_pos ⟨m, hm, rfl⟩]; exact ⟨rfl, rfl⟩
        refine ⟨⟨by rw [a1, b1, r.conf.layers], by rw [a2, b2, r.conf.ptrGroup], by rw [a3, b3, r.conf.groups], by rw [a4, b4, r.conf.steps]⟩,
          by funext z; rw [a13, b13, r.scales, r.conf.steps, cs], ?_, ?_, ?_,
          by rw [a5, b5]; exact r.hooks, ?_, ?_, ?_, ?_, ?_, ?_, ?_⟩ <;> rw [b1]
        · rw [a10, b10]; exact r.data
        · rw [a12, b12]; exact r.grad
        · rw [a11, b11]; exact r.mom
        · rw [a6, b6]; exact r.K
        · rw [a7, b7]; exact r.C
        · rw [a8, b8]; exact r.mK
        · rw [a9, b9]; exact r.mC
        · intro m hm; rw [(nA m hm).1, (nB m hm).1]; simp [denO, conjBy_zero]
        · intro m hm; rw [(nA m hm).2, (nB m hm).2]; simp [denO, conjBy_zero]
        · intro m hm; rw [(nA m hm).1, (nB m hm).1, (nA m hm).2, (nB m hm).2, a8, b8, a9, b9]; exact ⟨Iff.rfl, Iff.rfl, (r.present m hm).2.2⟩
    | _ => exact ho.elim

/-- **C63 (general).** Two runs without misuse whose operations correspond in other bases, started in corresponding states, stay in corresponding states, for any
bases the structures keep. -/
theorem C63_change_of_basis {cl : String → Cls × Cls} {U : Bases α} {as bs : List (Op α)} {A B : World α} (lA : A.Live cl) (lB : B.Live cl) (fA : FitsRun A as)
    (fB : FitsRun B bs) (kp : KeepAll cl U B) (r : Rot U A B) (ho : Along2 (RotOp U) A B as bs) : Rot U (run as A) (run bs B) := by
  have key := along2_run (P := RotOp U) (R := fun A B => KeepAll cl U B ∧ Rot U A B) (cl := cl) (fun A B a b lA lB fA fB q o => by
    refine ⟨fun m hm => ?_, q.2.exec lA lB fA fB q.1.acts o⟩
    rw [(exec_static b B).1] at hm
    exact q.1 m hm) lA lB fA fB ⟨kp, r⟩ ho
  exact key.2

/-! Linear layers: the transformed history -/

theorem M_ofMatrix {r c : ℕ} (A : Matrix (Fin r) (Fin c) α) : (Mat.ofMatrix A).M r c = A := by
  funext i j
  simp [Mat.M, Mat.ofMatrix, Mat.get_ofFn]

theorem Untied.owner_inj {layers : List Layer} (hu : Untied layers) {m m' : Layer} (hm : m ∈ layers) (hm' : m' ∈ layers) {p : ℕ} (h : World.Owns m p)
    (h' : World.Owns m' p) : m = m' := by
  have k : ∀ {m : Layer}, World.Owns m p → p ∈ m.weight.ptr :: m.bias.toList.map (·.ptr) := by
    rintro m (rfl | ⟨b, hb, rfl⟩)
    · simp
    · simp [hb]
  induction layers with
  | nil => cases hm
  | cons a as ih =>
    have hp := List.pairwise_cons.1 hu
    rcases List.mem_cons.1 hm with rfl | h1 <;> rcases List.mem_cons.1 hm' with rfl | h2
    · rfl
    · exact absurd (k h') ((hp.1 m' h2).2 p (k h))
    · exact absurd (k h) ((hp.1 m h1).2 p (k h'))
    · exact ih hp.2 h1 h2

/-- a layer's own parameters differ -/
def Distinct (layers : List Layer) : Prop := ∀ m ∈ layers, ∀ b, m.bias = some b → b.ptr ≠ m.weight.ptr

theorem Bases.param_weight (U : Bases α) {layers : List Layer} (hu : Untied layers) {m : Layer} (hm : m ∈ layers) (M : Mat α) :
    U.param layers m.weight.ptr M = Mat.ofMatrix ((U.S m)ᵀ * M.M m.dout m.din * U.R m) := by
  unfold Bases.param
  split
  · rename_i m' e
    have h1 := of_decide_eq_true (List.find?_some (p := fun m' : Layer => decide (m'.weight.ptr = m.weight.ptr)) e)
    have : m' = m := hu.owner_inj (List.mem_of_find?_eq_some e) hm (p := m.weight.ptr) (Or.inl h1.symm) (Or.inl rfl)
    subst this
    rfl
  · rename_i e
    have := List.find?_eq_none.1 e m hm
    simp at this

theorem Bases.param_bias (U : Bases α) {layers : List Layer} (hu : Untied layers) (hd : Distinct layers) {m : Layer} (hm : m ∈ layers) {b : Param} (hb : m.bias = some b)
    (M : Mat α) : U.param layers b.ptr M = Mat.ofMatrix ((U.S m)ᵀ * M.M m.dout 1) := by
  unfold Bases.param
  split
  · rename_i m' e
    exfalso
    have h1 := of_decide_eq_true (List.find?_some (p := fun m' : Layer => decide (m'.weight.ptr = b.ptr)) e)
    have : m' = m := hu.owner_inj (p := b.ptr) (List.mem_of_find?_eq_some e) hm (Or.inl h1.symm) (Or.inr ⟨b, hb, rfl⟩)
    subst this
    exact hd m' hm b hb h1.symm
  · split
    · rename_i m' e
      have h1 := List.find?_some (p := fun m' : Layer => decide (m'.bias.map (·.ptr) = some b.ptr)) e
      obtain ⟨b', hb', e2⟩ := Option.map_eq_some_iff.1 (of_decide_eq_true h1)
      have : m' = m := hu.owner_inj (p := b.ptr) (List.mem_of_find?_eq_some e) hm (Or.inr ⟨b', hb', e2.symm⟩) (Or.inr ⟨b, hb, rfl⟩)
      subst this
      rfl
    · rename_i e
      have := List.find?_eq_none.1 e m hm
      simp [hb] at this

/-- a tensor of the shape of the parameter -/
def ShapeOf (layers : List Layer) (p : ℕ) (x : Option (Mat α)) : Prop := ∀ X, x = some X → ∀ m ∈ layers,
  (m.weight.ptr = p → X.OfShape m.dout m.din) ∧ ∀ b, m.bias = some b → b.ptr = p → X.OfShape m.dout 1

theorem Bases.param_rot (U : Bases α) {layers : List Layer} (hu : Untied layers) (hd : Distinct layers) {p : ℕ} {x : Option (Mat α)} (hx : ShapeOf layers p x) :
    ParamRot U layers p (x.map (U.param layers p)) x := by
  have M0 : ∀ r c, momO (none : Option (Mat α)) r c = 0 := fun _ _ => rfl
  rcases x with _ | X
  · exact ⟨fun m _ _ => by simp [M0], fun m _ _ _ _ => by simp [M0], fun _ => rfl, rfl⟩
  refine ⟨?_, ?_, fun h => ?_, ?_⟩
  · rintro m hm rfl
    rw [Option.map_some, U.param_weight hu hm]
    exact M_ofMatrix _
  · rintro m hm b hb rfl
    rw [Option.map_some, U.param_bias hu hd hm hb]
    exact M_ofMatrix _
  · rw [Option.map_some, Bases.param, List.find?_eq_none.2, List.find?_eq_none.2]
    · intro m hm e
      obtain ⟨b, hb, e⟩ := Option.map_eq_some_iff.1 (of_decide_eq_true e)
      exact h m hm (Or.inr ⟨b, hb, e.symm⟩)
    · intro m hm e
      exact h m hm (Or.inl (of_decide_eq_true e).symm)
  · rw [Option.map_some, Option.map_some, Option.map_some]
    congr 1
    by_cases hp : ∃ m ∈ layers, World.Owns m p
    · obtain ⟨m, hm, rfl | ⟨b, hb, rfl⟩⟩ := hp
      · obtain ⟨s1, s2⟩ := (hx X rfl m hm).1 rfl
        rw [U.param_weight hu hm, s1, s2]; rfl
      · obtain ⟨s1, s2⟩ := (hx X rfl m hm).2 b hb rfl
        rw [U.param_bias hu hd hm hb, s1, s2]; rfl
    · rw [Bases.param, List.find?_eq_none.2, List.find?_eq_none.2]
      · intro m hm e
        obtain ⟨b, hb, e⟩ := Option.map_eq_some_iff.1 (of_decide_eq_true e)
        exact hp ⟨m, hm, Or.inr ⟨b, hb, e.symm⟩⟩
      · intro m hm e
        exact hp ⟨m, hm, Or.inl (of_decide_eq_true e).symm⟩

theorem Op.rotate_forward (U : Bases α) (w : World α) (i : ℕ) (x : ND α) (ge : Bool) :
    Op.rotate U w (.forward i x ge) = .forward i (match w.opt.layers[i]? with | some m => x.rotate (U.R m) | none => x) ge := by
  simp only [Op.rotate]; split <;> rfl
theorem Op.rotate_backward (U : Bases α) (w : World α) (i : ℕ) (g : ND α) :
    Op.rotate U w (.backward i g) = .backward i (match w.hooks[i]? with | some mx => g.rotate (U.S mx.1) | none => g) := by
  simp only [Op.rotate]; split <;> rfl

/-- gradients assigned to layers' parameters have the parameters' shapes (PyTorch insists on that) -/
def GradsFit (layers : List Layer) : Op α → Prop
  | .setGrad p G => ShapeOf layers p G
  | _ => True

/-- with normalisation, the bases keep the largest absolute entry -/
def NormFits (U : Bases α) (w : World α) : Op α → Prop
  | .step _ _ false => ∀ m ∈ w.opt.layers, ∀ h, w.opt.hyperOf m = .ok h → h.normalize = true → MaxInv (m.extend (U.R m)) ∧ MaxInv (U.S m)
  | _ => True

theorem ParamRot.ofShape {U : Bases α} {l : List Layer} {p : ℕ} {x y : Option (Mat α)} (h : ParamRot U l p x y) {r c : ℕ}
    (hy : ∃ Y, y = some Y ∧ Y.OfShape r c) : ∃ X, x = some X ∧ X.OfShape r c := by
  obtain ⟨Y, rfl, s1, s2⟩ := hy
  have := h.shape
  rw [Option.map_some, Option.map_eq_some_iff] at this
  obtain ⟨X, rfl, e⟩ := this
  injection e with e1 e2
  exact ⟨X, rfl, e1.trans s1, e2.trans s2⟩

/-- the transformed operation fits and corresponds -/
theorem Op.rotate_ok {cl : String → Cls × Cls} {U : Bases α} {A B : World α} (lB : B.Live cl) (hk : ∀ m ∈ B.opt.layers, m.kind = .linear) (r : Rot U A B)
    {op : Op α} (f : FitsOp B op) (hg : GradsFit B.opt.layers op) (hn : NormFits U B op) :
    FitsOp A (op.rotate U B) ∧ RotOp U A B (op.rotate U B) op := by
  have hd : Distinct B.opt.layers := fun m hm b hb => ((lB.sound.shape m hm).bias b hb).2
  have hu := lB.sound.untied
  have eqS : ∀ p, ((A.data p).rows, (A.data p).cols) = ((B.data p).rows, (B.data p).cols) := fun p => by
    have := (r.data p).shape
    rwa [Option.map_some, Option.map_some, Option.some_inj] at this
  cases op with
  | forward i x ge =>
    rw [Op.rotate_forward]
    rcases hi : B.opt.layers[i]? with _ | m
    · refine ⟨fun m' hm' => ?_, rfl, rfl, fun m' hm' => ?_⟩
      · rw [r.conf.layers, hi] at hm'; cases hm'
      · rw [hi] at hm'; cases hm'
    · have hm := List.mem_of_getElem? hi
      obtain ⟨h0, hh0, _⟩ := lB.sound.hyper m hm
      have fx := f m hi h0 hh0
      refine ⟨fun m' hm' h hh => ?_, rfl, rfl, fun m' hm' h => ?_⟩
      · rw [r.conf.layers, hi] at hm'; cases hm'
        have fx := fx
        unfold InputFits at fx ⊢
        rw [hk m hm] at fx ⊢
        exact fx
      · rw [hi] at hm'; cases hm'
        exact inputMoment_rotate h (hk m hm) fx _
  | backward i g =>
    rw [Op.rotate_backward]
    rcases hi : B.hooks[i]? with _ | mx
    · refine ⟨fun m' hm' => ?_, rfl, fun m' hm' => by rw [hi] at hm'; cases hm'⟩
      exfalso
      rw [List.getElem?_eq_none_iff] at hi
      have := (List.getElem?_eq_some_iff.1 hm').1
      rw [r.hooks.length_eq] at this
      omega
    · have hm := (lB.hooks mx (List.mem_of_getElem? hi)).1
      have fg := f mx hi
      refine ⟨fun m' hm' => ?_, rfl, fun m' hm' h => ?_⟩
      · obtain ⟨hl, e2⟩ := List.getElem?_eq_some_iff.1 hi
        obtain ⟨hl', e1⟩ := List.getElem?_eq_some_iff.1 hm'
        have ex := ((List.forall₂_iff_get.1 r.hooks).2 i hl' hl).1
        rw [List.get_eq_getElem, List.get_eq_getElem, e1, e2] at ex
        rw [ex]
        unfold GradFits at fg ⊢
        rw [hk _ hm] at fg ⊢
        exact fg
      · rw [hi] at hm'; cases hm'
        exact gradMoment_rotate h (hk _ hm) fg _
  | setGrad p G => exact ⟨trivial, rfl, U.param_rot hu hd hg⟩
  | setParam p M =>
    have sh : ShapeOf B.opt.layers p (some M) := by
      rintro X e m hm
      cases e
      have f' : M.OfShape (B.data p).rows (B.data p).cols := f
      refine ⟨?_, ?_⟩
      · rintro rfl
        obtain ⟨s1, s2⟩ := (lB.sound.shape m hm).weight.data
        rw [s1, s2] at f'; exact f'
      · rintro b hb rfl
        obtain ⟨s1, s2⟩ := ((lB.sound.shape m hm).bias b hb).1.data
        rw [s1, s2] at f'; exact f'
    have q := U.param_rot hu hd sh
    refine ⟨?_, rfl, q⟩
    have q2 := q.shape
    rw [Option.map_some, Option.map_some, Option.map_some, Option.some_inj] at q2
    injection q2 with q3 q4
    have := eqS p
    injection this with e1 e2
    show (U.param B.opt.layers p M).OfShape (A.data p).rows (A.data p).cols
    exact ⟨q3.trans (f.1.trans e1.symm), q4.trans (f.2.trans e2.symm)⟩
  | setHyper i h =>
    refine ⟨⟨f.1, fun m hm hp => ?_⟩, rfl, rfl⟩
    rw [r.conf.layers] at hm
    rw [r.conf.ptrGroup] at hp
    obtain ⟨f1, f2⟩ := f.2 m hm hp
    refine ⟨fun h' hh => f1 h' (by rw [← r.conf.hyperOf]; exact hh), fun ha => ?_⟩
    rw [Ne, (r.present m hm).2.2.1, Ne, (r.present m hm).2.2.2]; exact f2 ha
  | setScale s => exact ⟨f, rfl⟩
  | step b a n =>
    refine ⟨⟨f.1, f.2.1, fun hn m hm => ?_⟩, rfl, rfl, rfl, fun e => ?_⟩
    · rw [r.conf.layers] at hm
      obtain ⟨g, s⟩ := f.2.2 hn m hm
      refine ⟨⟨(r.grad _).ofShape g.weight, fun b hb => (r.grad _).ofShape (g.bias b hb)⟩, fun h hh ht => ?_⟩
      rw [r.conf.hyperOf] at hh
      rw [r.conf.steps] at ht
      obtain ⟨s1, s2, s3⟩ := s h hh ht
      obtain ⟨n1, n2, n3, n4⟩ := r.present m hm
      exact ⟨n1.not.2 s1, n2.not.2 s2, fun ha => ⟨n3.not.2 (s3 ha).1, n4.not.2 (s3 ha).2⟩⟩
    · subst e; exact hn

theorem Rot.run {clA clB : String → Cls × Cls} {U : Bases α} : ∀ {ops : List (Op α)} {A B : World α}, A.Live clA → B.Live clB → FitsRun B ops →
    (∀ m ∈ B.opt.layers, m.kind = .linear) → ActAll clA clB U B → (∀ op ∈ ops, GradsFit B.opt.layers op) → Along (NormFits U) B ops → Rot U A B →
    FitsRun A (rotateRun U B ops) ∧ Rot U (_root_.run (rotateRun U B ops) A) (_root_.run ops B)
  | [], _, _, _, _, _, _, _, _, _, r => ⟨trivial, r⟩
  | op :: ops, A, B, lA, lB, fB, hl, kp, hg, hn, r => by
    obtain ⟨fA, ho⟩ := Op.rotate_ok lB hl r fB.1 (hg op (by simp)) hn.1
    obtain ⟨A', eA, lA'⟩ := lA.exec fA
    obtain ⟨B', eB, lB'⟩ := lB.exec fB.1
    have r' := r.exec lA lB fA fB.1 kp ho
    have el := (exec_static op B).1
    have fB2 := fB.2
    have hn2 := hn.2
    rw [eB] at r' el fB2 hn2
    rw [eA] at r'
    obtain ⟨g, q⟩ := Rot.run lA' lB' fB2 (by rw [el]; exact hl) (fun m hm => kp m (by rw [← el]; exact hm))
      (fun o ho => by rw [el]; exact hg o (List.mem_cons_of_mem _ ho)) hn2 r'
    refine ⟨⟨fA, ?_⟩, ?_⟩
    · rw [eA, eB]; exact g
    · rw [rotateRun, run_cons, run_cons, eA, eB]; exact q

/-- **C63 (from construction, linear layers).** Construct the optimizer over linear layers and train two copies: one plainly (`ops`), one in other bases: inputs of
every layer multiplied by `R`, output gradients by `S`, parameters and gradients given as `Sᵀ W R` and `Sᵀ b`. If the structures keep the bases and (with
normalisation) the bases keep largest entries, both succeed, and at the end the parameters of the second are those of the first in the other bases, its
factors are conjugated by the bases: SINGD does not depend on the bases. -/
theorem C63_equivariance {structs : String → Option Cls} {model : Model} {p : ParamArg α} {a : Args α} {o : Opt α} {ws : List Warn}
    (hn : (model.layers.map (·.name)).Nodup) (hi : Construct.init structs model p a = .ok (o, ws)) {data : ℕ → Mat α} {grad : ℕ → Option (Mat α)}
    (ht : Trainable o data) (hg : ∀ p, ShapeOf o.layers p (grad p)) (ha : 0 < a.initGradScale) (hk : ∀ m ∈ o.layers, m.kind = .linear) {U : Bases α}
    (kp : ∀ m ∈ o.layers, ∀ h cK cC, o.hyperOf m = .ok h → structs h.structures.1 = some cK → structs h.structures.2 = some cC →
      cK.Keeps m.nK (m.extend (U.R m)) ∧ cC.Keeps m.nC (U.S m))
    {ops : List (Op α)} (f : FitsRun ⟨o, data, grad, []⟩ ops) (hs : ∀ op ∈ ops, GradsFit o.layers op) (hN : Along (NormFits U) ⟨o, data, grad, []⟩ ops) :
    let w : World α := ⟨o, data, grad, []⟩
    let w' : World α := ⟨o, fun p => U.param o.layers p (data p), fun p => (grad p).map (U.param o.layers p), []⟩
    ∃ A B, runOk (rotateRun U w ops) w' = some A ∧ runOk ops w = some B ∧ (∀ p, (∀ m ∈ o.layers, ¬ World.Owns m p) → A.data p = B.data p) ∧
      ∀ m ∈ o.layers, (A.data m.weight.ptr).M m.dout m.din = (U.S m)ᵀ * (B.data m.weight.ptr).M m.dout m.din * U.R m ∧
        (∀ b, m.bias = some b → (A.data b.ptr).M m.dout 1 = (U.S m)ᵀ * (B.data b.ptr).M m.dout 1) ∧
        denO (A.opt.Ks m.name) m.nK = (m.extend (U.R m))ᵀ * denO (B.opt.Ks m.name) m.nK * m.extend (U.R m) ∧
        denO (A.opt.Cs m.name) m.nC = (U.S m)ᵀ * denO (B.opt.Cs m.name) m.nC * U.S m := by
  intro w w'
  have I := init_ok hn hi
  obtain ⟨cl, hcl, l⟩ := I.live (grad := grad) ht ha
  have hd : Distinct o.layers := fun m hm b hb => (ht.bias m hm b hb).2
  have hu := ht.untied
  have sd : ∀ p, ShapeOf o.layers p (some (data p)) := by
    rintro p X e m hm
    cases e
    exact ⟨fun e => e ▸ ht.weight m hm, fun b hb e => e ▸ (ht.bias m hm b hb).1⟩
  have ht' : Trainable o w'.data := by
    refine ⟨ht.1, ht.2, ht.3, fun m hm => ?_, fun m hm b hb => ⟨?_, (ht.bias m hm b hb).2⟩, ht.6, ht.7⟩
    · show (U.param o.layers _ _).OfShape _ _
      rw [U.param_weight hu hm]; exact ⟨rfl, rfl⟩
    · show (U.param o.layers _ _).OfShape _ _
      rw [U.param_bias hu hd hm hb]; exact ⟨rfl, rfl⟩
  have l' : World.Live cl w' := by
    obtain ⟨_, _, l'⟩ := I.live (grad := w'.grad) ht' ha
    exact ⟨⟨l.sound.untied, l.sound.good, l.sound.lay, l'.sound.shape, l.sound.hyper⟩, l.valid, by simp [w'], l.prev, l.pos, l.mom⟩
  have kp' : KeepAll cl U w := fun m hm => by
    obtain ⟨hy, e1, e2, e3⟩ := hcl m hm
    exact kp m hm hy _ _ e1 e2 e3
  have hK : ∀ n, o.HKs n = none := fun n => by rw [I.HKs]
  have hC : ∀ n, o.HCs n = none := fun n => by rw [I.HCs]
  have hM : ∀ n, o.mom n = none := fun n => by rw [I.mom]
  have fac : ∀ m ∈ o.layers, denO (o.Ks m.name) m.nK = 1 ∧ denO (o.Cs m.name) m.nC = 1 ∧ denO (o.mKs m.name) m.nK = 0 ∧ denO (o.mCs m.name) m.nC = 0 := by
    intro m hm
    have g := l.sound.good m hm
    obtain ⟨hy, cK, cC, K, C, f1, f2, f3, eK, eC, sK, sC, m0, m1⟩ := (I.lay m hm).ex
    obtain ⟨hy', e1, e2, e3⟩ := hcl m hm
    rw [f1] at e1; cases e1
    rw [← I.structs, f2] at e2
    rw [← I.structs, f3] at e3
    cases e2; cases e3
    obtain ⟨⟨K', k1, _, k3⟩, Z, z1, _, z3⟩ := C12_eye_zeros (α := α) g.supK
    obtain ⟨⟨C', c1, _, c3⟩, Y, y1, _, y3⟩ := C12_eye_zeros (α := α) g.supC
    rw [eK] at k1; cases k1
    rw [eC] at c1; cases c1
    refine ⟨by rw [sK]; exact k3, by rw [sC]; exact c3, ?_⟩
    by_cases hz : hy.alpha1 = 0
    · rw [(m0 hz).1, (m0 hz).2]; exact ⟨rfl, rfl⟩
    · obtain ⟨mK, mC, q1, q2, q3, q4⟩ := m1 hz
      rw [z1] at q1; cases q1
      rw [y1] at q2; cases q2
      exact ⟨by rw [q3]; exact z3, by rw [q4]; exact y3⟩
  have r : Rot U w' w := by
    refine ⟨⟨rfl, rfl, rfl, rfl⟩, rfl, fun p => U.param_rot hu hd (sd p), fun p => U.param_rot hu hd (hg p), fun p => ?_, .nil, ?_, ?_, ?_, ?_, ?_, ?_,
      fun _ _ => ⟨Iff.rfl, Iff.rfl, Iff.rfl, Iff.rfl⟩⟩
    · show ParamRot U o.layers p (o.mom p) (o.mom p)
      rw [hM]
      exact ⟨fun _ _ _ => by simp [momO], fun _ _ _ _ _ => by simp [momO], fun _ => rfl, rfl⟩
    all_goals intro m hm
    · show denO (o.Ks m.name) _ = conjBy _ (denO (o.Ks m.name) _)
      rw [(fac m hm).1, conjBy_one (kp' m hm).1.orth]
    · show denO (o.Cs m.name) _ = conjBy _ (denO (o.Cs m.name) _)
      rw [(fac m hm).2.1, conjBy_one (kp' m hm).2.orth]
    · show denO (o.mKs m.name) _ = conjBy _ (denO (o.mKs m.name) _)
      rw [(fac m hm).2.2.1, conjBy_zero]
    · show denO (o.mCs m.name) _ = conjBy _ (denO (o.mCs m.name) _)
      rw [(fac m hm).2.2.2, conjBy_zero]
    · show denO (o.HKs m.name) _ = conjBy _ (denO (o.HKs m.name) _)
      rw [hK]; simp [denO, conjBy_zero]
    · show denO (o.HCs m.name) _ = conjBy _ (denO (o.HCs m.name) _)
      rw [hC]; simp [denO, conjBy_zero]
  obtain ⟨f', q⟩ := Rot.run l' l f hk kp'.acts hs hN r
  have el : (run ops w).opt.layers = o.layers := run_inv (P := fun v => v.opt.layers = o.layers) (fun op v h => (exec_static op v).1.trans h) ops w rfl
  refine ⟨_, _, (l'.run f').1, (l.run f).1, fun p hp => ?_, fun m hm => ?_⟩
  · have := (q.data p).other (by rw [el]; exact hp)
    exact Option.some_inj.1 this
  · rw [← el] at hm
    exact ⟨(q.data _).weight m hm rfl, fun b hb => (q.data _).bias m hm b hb rfl, q.K m hm, q.C m hm⟩

theorem extend_signPerm (m : Layer) (σ : Equiv.Perm (Fin m.din)) {s : Fin m.din → α} (hs : ∀ i, s i * s i = 1) :
    ∃ (τ : Equiv.Perm (Fin m.nK)) (t : Fin m.nK → α), (∀ i, t i * t i = 1) ∧ m.extend (signPerm σ s) = signPerm τ t := by
  unfold Layer.extend Layer.nK
  refine ⟨finSumFinEquiv.permCongr (Equiv.sumCongr σ (Equiv.refl _)), fun j => Sum.elim s (fun _ => 1) (finSumFinEquiv.symm j), fun i => ?_, ?_⟩
  · obtain ⟨i, rfl⟩ := finSumFinEquiv.surjective i
    simp only [Equiv.symm_apply_apply]
    rcases i with k | k
    · exact hs k
    · simp
  · funext i j
    obtain ⟨i, rfl⟩ := finSumFinEquiv.surjective i
    obtain ⟨j, rfl⟩ := finSumFinEquiv.surjective j
    simp only [submatrix_apply, Equiv.symm_apply_apply, signPerm, Equiv.permCongr_apply, EmbeddingLike.apply_eq_iff_eq]
    rcases i with i | i <;> rcases j with j | j <;> simp [Matrix.one_apply, signPerm]

/-- **C63 (features in another order).** For linear layers with dense or diagonal structures, with and without normalisation: permuting the features of inputs and
outputs (and changing their signs) permutes parameters and factors and changes nothing else. -/
theorem C63_permutation {structs : String → Option Cls} {model : Model} {p : ParamArg α} {a : Args α} {o : Opt α} {ws : List Warn}
    (hn : (model.layers.map (·.name)).Nodup) (hi : Construct.init structs model p a = .ok (o, ws)) {data : ℕ → Mat α} {grad : ℕ → Option (Mat α)}
    (ht : Trainable o data) (hg : ∀ p, ShapeOf o.layers p (grad p)) (ha : 0 < a.initGradScale) (hk : ∀ m ∈ o.layers, m.kind = .linear)
    (hc : ∀ m ∈ o.layers, ∀ h, o.hyperOf m = .ok h → (structs h.structures.1 = some .dense ∨ structs h.structures.1 = some .diagonal) ∧
      (structs h.structures.2 = some .dense ∨ structs h.structures.2 = some .diagonal))
    (σ : (m : Layer) → Equiv.Perm (Fin m.din)) (τ : (m : Layer) → Equiv.Perm (Fin m.dout)) {s : (m : Layer) → Fin m.din → α} {t : (m : Layer) → Fin m.dout → α}
    (hs : ∀ m i, s m i * s m i = 1) (ht1 : ∀ m i, t m i * t m i = 1)
    {ops : List (Op α)} (f : FitsRun ⟨o, data, grad, []⟩ ops) (hs' : ∀ op ∈ ops, GradsFit o.layers op) :
    let U : Bases α := ⟨fun m => signPerm (σ m) (s m), fun m => signPerm (τ m) (t m)⟩
    let w : World α := ⟨o, data, grad, []⟩
    let w' : World α := ⟨o, fun p => U.param o.layers p (data p), fun p => (grad p).map (U.param o.layers p), []⟩
    ∃ A B, runOk (rotateRun U w ops) w' = some A ∧ runOk ops w = some B ∧
      ∀ m ∈ o.layers, (∀ (i : Fin m.dout) (j : Fin m.din), (A.data m.weight.ptr).get i j = t m i * (B.data m.weight.ptr).get (τ m i) (σ m j) * s m j) ∧
        ∀ b, m.bias = some b → ∀ i : Fin m.dout, (A.data b.ptr).get i 0 = t m i * (B.data b.ptr).get (τ m i) 0 := by
  intro U w w'
  have kpK : ∀ m : Layer, ∀ c : Cls, c = .dense ∨ c = .diagonal → c.Keeps m.nK (m.extend (U.R m)) := by
    rintro m c (rfl | rfl)
    · exact Cls.keeps_dense (extend_orth m (signPerm_orth _ (hs m)))
    · obtain ⟨σ', s', h1, h2⟩ := extend_signPerm m (σ m) (hs m)
      show Cls.Keeps .diagonal m.nK (m.extend (signPerm (σ m) (s m)))
      rw [h2]; exact Cls.keeps_diagonal σ' h1
  have kpC : ∀ m : Layer, ∀ c : Cls, c = .dense ∨ c = .diagonal → c.Keeps m.nC (U.S m) := by
    rintro m c (rfl | rfl)
    · exact Cls.keeps_dense (signPerm_orth _ (ht1 m))
    · exact Cls.keeps_diagonal (τ m) (ht1 m)
  have mx : ∀ m : Layer, MaxInv (m.extend (U.R m)) ∧ MaxInv (U.S m) := fun m => by
    obtain ⟨σ', s', h1, h2⟩ := extend_signPerm m (σ m) (hs m)
    refine ⟨?_, fun M v => signPerm_maxAbs (τ m) (ht1 m) M v⟩
    show MaxInv (m.extend (signPerm (σ m) (s m)))
    rw [h2]; exact fun M v => signPerm_maxAbs σ' h1 M v
  have nf : ∀ (ops : List (Op α)) (w : World α), Along (NormFits U) w ops := by
    intro ops
    induction ops with
    | nil => exact fun _ => trivial
    | cons op ops ih =>
      refine fun w => ⟨?_, ih _⟩
      rcases op with _ | _ | _ | _ | _ | _ | ⟨_, _, _ | _⟩ <;> first | trivial | exact fun m _ _ _ _ => mx m
  obtain ⟨A, B, e1, e2, _, e4⟩ := C63_equivariance hn hi ht hg ha hk (U := U) (fun m hm h cK cC hh h1 h2 => by
    obtain ⟨q1, q2⟩ := hc m hm h hh
    rw [h1, h2] at *
    exact ⟨kpK m _ (by simpa using q1), kpC m _ (by simpa using q2)⟩) f hs' (nf ops w)
  have sp : ∀ {r c : ℕ} (τ : Equiv.Perm (Fin r)) (t : Fin r → α) (M : Matrix (Fin r) (Fin c) α) (i : Fin r) (j : Fin c),
      ((signPerm τ t)ᵀ * M) i j = t i * M (τ i) j := by
    intro r c τ t M i j
    simp [Matrix.mul_apply, signPerm]
  have sp' : ∀ {r c : ℕ} (τ : Equiv.Perm (Fin c)) (t : Fin c → α) (M : Matrix (Fin r) (Fin c) α) (i : Fin r) (j : Fin c),
      (M * signPerm τ t) i j = M i (τ j) * t j := by
    intro r c τ t M i j
    simp [Matrix.mul_apply, signPerm]
  refine ⟨A, B, e1, e2, fun m hm => ⟨fun i j => ?_, fun b hb i => ?_⟩⟩
  · have := congrFun (congrFun (e4 m hm).1 i) j
    rw [sp', sp] at this
    exact this
  · have := congrFun (congrFun ((e4 m hm).2.1 b hb) i) 0
    rw [sp] at this
    exact this

/-- **C63 (rotations).** For linear layers with dense structures and without normalisation, any orthogonal change of basis of inputs and outputs is respected. -/
theorem C63_rotation {structs : String → Option Cls} {model : Model} {p : ParamArg α} {a : Args α} {o : Opt α} {ws : List Warn}
    (hn : (model.layers.map (·.name)).Nodup) (hi : Construct.init structs model p a = .ok (o, ws)) {data : ℕ → Mat α} {grad : ℕ → Option (Mat α)}
    (ht : Trainable o data) (hg : ∀ p, ShapeOf o.layers p (grad p)) (ha : 0 < a.initGradScale) (hk : ∀ m ∈ o.layers, m.kind = .linear)
    (hc : ∀ m ∈ o.layers, ∀ h, o.hyperOf m = .ok h → structs h.structures.1 = some .dense ∧ structs h.structures.2 = some .dense)
    (hz : ∀ m ∈ o.layers, ∀ h, o.hyperOf m = .ok h → h.normalize = false) {U : Bases α} (hR : ∀ m, (U.R m)ᵀ * U.R m = 1) (hS : ∀ m, (U.S m)ᵀ * U.S m = 1)
    {ops : List (Op α)} (f : FitsRun ⟨o, data, grad, []⟩ ops) (hs : ∀ op ∈ ops, GradsFit o.layers op) (hh : ∀ i h, Op.setHyper i h ∈ ops → h.normalize = false) :
    let w : World α := ⟨o, data, grad, []⟩
    let w' : World α := ⟨o, fun p => U.param o.layers p (data p), fun p => (grad p).map (U.param o.layers p), []⟩
    ∃ A B, runOk (rotateRun U w ops) w' = some A ∧ runOk ops w = some B ∧
      ∀ m ∈ o.layers, (A.data m.weight.ptr).M m.dout m.din = (U.S m)ᵀ * (B.data m.weight.ptr).M m.dout m.din * U.R m ∧
        (∀ b, m.bias = some b → (A.data b.ptr).M m.dout 1 = (U.S m)ᵀ * (B.data b.ptr).M m.dout 1) ∧
        denO (A.opt.Ks m.name) m.nK = (m.extend (U.R m))ᵀ * denO (B.opt.Ks m.name) m.nK * m.extend (U.R m) ∧
        denO (A.opt.Cs m.name) m.nC = (U.S m)ᵀ * denO (B.opt.Cs m.name) m.nC * U.S m := by
  intro w w'
  have nf : ∀ (ops : List (Op α)) (w : World α), (∀ i h, Op.setHyper i h ∈ ops → h.normalize = false) →
      (∀ m ∈ w.opt.layers, ∀ h, w.opt.hyperOf m = .ok h → h.normalize = false) → Along (NormFits U) w ops := by
    intro ops
    induction ops with
    | nil => exact fun _ _ _ => trivial
    | cons op ops ih =>
      intro w ho hw
      refine ⟨?_, ih _ (fun i h e => ho i h (List.mem_cons_of_mem _ e)) ?_⟩
      · rcases op with _ | _ | _ | _ | _ | _ | ⟨_, _, _ | _⟩ <;> first | trivial | skip
        intro m hm h e en
        rw [hw m hm h e] at en; cases en
      · intro m hm hy hh
        rw [(exec_static op w).1] at hm
        by_cases hs : ∃ i y, op = .setHyper i y
        · obtain ⟨i, y, rfl⟩ := hs
          rw [exec_setHyper, hyperOf_assign] at hh
          rcases e : w.opt.hyperOf m with er | h0
          · rw [e] at hh; cases hh
          · rw [e] at hh; cases hh
            show (if _ then _ else _ : Hyper α).normalize = false
            split
            · exact ho i y (by simp)
            · exact hw m hm h0 e
        · rw [exec_hyperOf op w fun i y e => hs ⟨i, y, e⟩] at hh
          exact hw m hm hy hh
  obtain ⟨A, B, e1, e2, _, e4⟩ := C63_equivariance hn hi ht hg ha hk (U := U) (fun m hm h cK cC hh h1 h2 => by
    obtain ⟨q1, q2⟩ := hc m hm h hh
    rw [h1] at q1; rw [h2] at q2
    cases q1; cases q2
    exact ⟨Cls.keeps_dense (extend_orth m (hR m)), Cls.keeps_dense (hS m)⟩) f hs (nf ops w hh hz)
  exact ⟨A, B, e1, e2, e4⟩

namespace Sample

/-- the matrix `(3 4; -4 3)/5` on the first two coordinates -/
def rot35 (n : ℕ) : Matrix (Fin n) (Fin n) ℚ := fun i j =>
  if i = j then if n ≤ 1 ∨ 2 ≤ i.1 then 1 else 3 / 5 else if i.1 = 0 ∧ j.1 = 1 then 4 / 5 else if i.1 = 1 ∧ j.1 = 0 then - (4 / 5) else 0
/-- exchange of the first two coordinates -/
def swap (n : ℕ) : Matrix (Fin n) (Fin n) ℚ := fun i j =>
  if i.1 + j.1 = 1 ∧ 2 ≤ n then 1 else if i = j ∧ (n ≤ 1 ∨ 2 ≤ i.1) then 1 else 0

/-- a state in other bases -/
def turned (U : Bases ℚ) (w : World ℚ) : World ℚ :=
  { w with data := fun p => U.param w.opt.layers p (w.data p), grad := fun p => (w.grad p).map (U.param w.opt.layers p) }

end Sample

/-- **C63 (false for a diagonal structure and rotations).** With a diagonal `K`, rotating the inputs of a layer changes the training of its weight. -/
theorem C63_diagonal_false : ∃ (w : World ℚ) (ops : List (Op ℚ)) (U : Bases ℚ), Reachable supportedStructures w ∧
    (∀ m ∈ w.opt.layers, (U.R m)ᵀ * U.R m = 1 ∧ U.S m = 1) ∧ (∀ g ∈ w.opt.groups, g.h.structures = ("diagonal", "dense") ∧ g.h.normalize = false) ∧
    (runOk (rotateRun U w ops) (Sample.turned U w)).isSome = true ∧ (runOk ops w).isSome = true ∧
    ((run (rotateRun U w ops) (Sample.turned U w)).data 2).toLists ≠ (U.param w.opt.layers 2 ((run ops w).data 2)).toLists :=
  ⟨Sample.world Sample.model .default { Sample.args with structures := ("diagonal", "dense") }, Sample.pass ++ [.step false none false],
    ⟨fun m => Sample.rot35 m.din, fun _ => 1⟩, Sample.reachable (by decide +kernel) (by decide +kernel) [], by decide +kernel, by decide +kernel,
    by decide +kernel, by decide +kernel, by decide +kernel⟩

/-- **C63 (false with normalisation and rotations).** With `normalize_lr_cov=True`, the largest absolute entry depends on the basis, even for dense factors. -/
theorem C63_normalize_false : ∃ (w : World ℚ) (ops : List (Op ℚ)) (U : Bases ℚ), Reachable supportedStructures w ∧
    (∀ m ∈ w.opt.layers, (U.R m)ᵀ * U.R m = 1 ∧ U.S m = 1) ∧ (∀ g ∈ w.opt.groups, g.h.structures = ("dense", "dense") ∧ g.h.normalize = true) ∧
    (runOk (rotateRun U w ops) (Sample.turned U w)).isSome = true ∧ (runOk ops w).isSome = true ∧
    ((run (rotateRun U w ops) (Sample.turned U w)).data 2).toLists ≠ (U.param w.opt.layers 2 ((run ops w).data 2)).toLists :=
  ⟨Sample.world Sample.model .default { Sample.args with structures := ("dense", "dense"), normalize := true }, Sample.pass ++ [.step false none false],
    ⟨fun m => Sample.rot35 m.din, fun _ => 1⟩, Sample.reachable (by decide +kernel) (by decide +kernel) [], by decide +kernel, by decide +kernel,
    by decide +kernel, by decide +kernel, by decide +kernel⟩

/-- **C63 (false for other structures and permutations).** With a Toeplitz structure, the order of the input features matters. -/
theorem C63_toeplitz_false : ∃ (w : World ℚ) (ops : List (Op ℚ)) (U : Bases ℚ), Reachable supportedStructures w ∧
    (∀ m ∈ w.opt.layers, (∃ σ : Equiv.Perm (Fin m.din), U.R m = signPerm σ fun _ => 1) ∧ U.S m = 1) ∧
    (∀ g ∈ w.opt.groups, g.h.structures = ("triltoeplitz", "dense") ∧ g.h.normalize = false) ∧
    (runOk (rotateRun U w ops) (Sample.turned U w)).isSome = true ∧ (runOk ops w).isSome = true ∧
    ((run (rotateRun U w ops) (Sample.turned U w)).data 2).toLists ≠ (U.param w.opt.layers 2 ((run ops w).data 2)).toLists :=
  ⟨Sample.world Sample.model .default { Sample.args with structures := ("triltoeplitz", "dense") }, Sample.pass ++ [.step false none false],
    ⟨fun m => Sample.swap m.din, fun _ => 1⟩, Sample.reachable (by decide +kernel) (by decide +kernel) [], by decide +kernel, by decide +kernel,
    by decide +kernel, by decide +kernel, by decide +kernel⟩

-- the same histories with dense factors and no normalisation
example : let w := Sample.world Sample.model .default { Sample.args with structures := ("dense", "dense") }
    let ops : List (Op ℚ) := Sample.pass ++ [.step false none false]
    let U : Bases ℚ := ⟨fun m => Sample.rot35 m.din, fun _ => 1⟩
    ((run (rotateRun U w ops) (Sample.turned U w)).data 2).toLists = (U.param w.opt.layers 2 ((run ops w).data 2)).toLists ∧
    ((run ops w).data 2).toLists ≠ (w.data 2).toLists := by decide +kernel

/-- a reflection -/
def reflect (n : ℕ) (v : Fin n → α) : Matrix (Fin n) (Fin n) α := 1 - (2 / (v ⬝ᵥ v)) • vecMulVec v v

theorem reflect_orth (n : ℕ) (v : Fin n → α) : (reflect n v)ᵀ * reflect n v = 1 := by
  have e : (reflect n v)ᵀ = reflect n v := by simp [reflect, transpose_vecMulVec]
  have q : (2 / (v ⬝ᵥ v)) * (2 / (v ⬝ᵥ v)) * (v ⬝ᵥ v) = 2 * (2 / (v ⬝ᵥ v)) := by
    by_cases h : v ⬝ᵥ v = 0
    · simp [h]
    · field_simp
  rw [e, reflect]
  simp only [Matrix.sub_mul, Matrix.mul_sub, Matrix.one_mul, Matrix.mul_one, Matrix.smul_mul, Matrix.mul_smul, vecMulVec_mul_vecMulVec, smul_smul, vecMulVec_smul]
  rw [smul_sub, smul_smul, ← mul_assoc, q]
  module

-- the hypotheses of `C63_rotation` hold for a model with two layers and reflections of their inputs
example : ∃ (o : Opt ℝ) (ws : List Warn) (ops : List (Op ℝ)) (U : Bases ℝ),
    Construct.init supportedStructures Sample.model .default { Sample.gargs with structures := ("dense", "dense") } = .ok (o, ws) ∧ Trainable o Sample.gdata ∧
    (∀ p, ShapeOf o.layers p (Sample.ggrad (α := ℝ) p)) ∧ (∀ m ∈ o.layers, m.kind = .linear) ∧
    (∀ m ∈ o.layers, ∀ h, o.hyperOf m = .ok h → supportedStructures h.structures.1 = some .dense ∧ supportedStructures h.structures.2 = some .dense) ∧
    (∀ m ∈ o.layers, ∀ h, o.hyperOf m = .ok h → h.normalize = false) ∧ (∀ m, (U.R m)ᵀ * U.R m = 1) ∧ (∀ m, (U.S m)ᵀ * U.S m = 1) ∧
    FitsRun ⟨o, Sample.gdata, Sample.ggrad, []⟩ ops ∧ (∀ op ∈ ops, GradsFit o.layers op) ∧ (∀ i h, Op.setHyper i h ∈ ops → h.normalize = false) ∧
    (∃ i j, i ≠ j ∧ U.R Sample.lb i j ≠ 0 ∧ U.R Sample.lb i i ≠ 0) := by
  have h2 : ¬ ((2⁻¹ : ℝ) < 0) := by norm_num
  obtain ⟨o, ws, hi, hl, hh, ht⟩ := Sample.glive_any (α := ℝ) (a := { Sample.gargs with structures := ("dense", "dense") }) (cK := .dense) (cC := .dense)
    (by simp [validate, Sample.gargs, PyNum.rejected, PyRate.rejected, h2]) rfl rfl rfl ⟨Or.inl rfl, Or.inr (Or.inl rfl)⟩
    (by simp [checked, defaults, Sample.gargs]) (show (2 : ℕ) ≠ 0 by decide)
  have I := init_ok (by decide) hi
  obtain ⟨cl, _, l⟩ := I.live (grad := Sample.ggrad) ht one_pos
  have hgr : ∀ m ∈ o.layers, LayerGrads ⟨o, Sample.gdata, Sample.ggrad, []⟩ m := by
    intro m hm
    rw [hl] at hm
    simp only [List.mem_cons, List.not_mem_nil, or_false] at hm
    rcases hm with rfl | rfl
    · exact ⟨⟨_, rfl, rfl, rfl⟩, fun b hb => by cases hb; exact ⟨_, rfl, rfl, rfl⟩⟩
    · exact ⟨⟨_, rfl, rfl, rfl⟩, fun b hb => by cases hb⟩
  obtain ⟨b1, b2, b3, b4, q1, q2, q3, q4, q5, q6, q7, q8, fB⟩ := Sample.pass_states l hl (fun m hm => ⟨_, hh m hm, by rw [I.steps]; rfl⟩) rfl
    (x0 := Sample.grow 1) (x1 := Sample.grow 2) (g0 := Sample.grow 1) (g1 := Sample.grow 1) rfl rfl rfl rfl hgr (attr := none) (by simp)
  refine ⟨o, ws, _, ⟨fun m => reflect m.din fun i => (i.1 : ℝ) + 1, fun _ => 1⟩, hi, ht, fun p X e m hm => ?_, fun m hm => ?_, fun m hm h e => ?_, fun m hm h e => ?_,
    fun m => reflect_orth _ _, fun m => by simp, fB, fun op ho => ?_, fun i h ho => ?_, (0 : Fin 2), (1 : Fin 2), (by decide : (0 : Fin 2) ≠ 1), ?_, ?_⟩
  · obtain ⟨⟨G, e1, s1⟩, g2⟩ := hgr m hm
    refine ⟨?_, ?_⟩
    · rintro rfl
      replace e1 : Sample.ggrad m.weight.ptr = some G := e1
      rw [e] at e1; cases e1; exact s1
    · rintro b hb rfl
      obtain ⟨G, e1, s1⟩ := g2 b hb
      replace e1 : Sample.ggrad b.ptr = some G := e1
      rw [e] at e1; cases e1; exact s1
  · rw [hl] at hm
    simp only [List.mem_cons, List.not_mem_nil, or_false] at hm
    rcases hm with rfl | rfl <;> rfl
  · rw [hh m hm] at e; cases e; exact ⟨rfl, rfl⟩
  · rw [hh m hm] at e; cases e; rfl
  · simp [Sample.wpass] at ho
    rcases ho with rfl | rfl | rfl | rfl | rfl <;> trivial
  · simp [Sample.wpass] at ho
  · show reflect 2 (fun i => (i.1 : ℝ) + 1) 0 1 ≠ 0
    simp [reflect, vecMulVec, dotProduct, Fin.sum_univ_two]
    norm_num
  · show reflect 2 (fun i => (i.1 : ℝ) + 1) 0 0 ≠ 0
    simp [reflect, vecMulVec, dotProduct, Fin.sum_univ_two]
    norm_num
