import Verif.Props.Band

/-! C94: training decreases a smooth loss, and the gradients tend to zero. -/

set_option linter.unusedSectionVars false
open Matrix Construct Filter Topology

/-- sum of the squared entries of a matrix -/
def sumSq {n k : ℕ} (A : Matrix (Fin n) (Fin k) ℝ) : ℝ := ∑ i, ∑ j, A i j ^ 2

/-- sum of the products of corresponding entries -/
def inner' {n k : ℕ} (A B : Matrix (Fin n) (Fin k) ℝ) : ℝ := ∑ i, ∑ j, A i j * B i j

/-- the weight of a layer and, if there is one, the bias as last column -/
def paramM (data : ℕ → Mat ℝ) (m : Layer) : Matrix (Fin m.nC) (Fin m.nK) ℝ := fun i j =>
  if j.1 < m.din then (data m.weight.ptr).get i j else (m.bias.map fun b => (data b.ptr).get i 0).getD 0

/-- `g` is a gradient of the loss `f` of the parameters of the layers, and `f` is `L`-smooth: for all values of the parameters,
`f(θ') ≤ f(θ) + ⟨g(θ), θ' - θ⟩ + L/2 |θ' - θ|²` -/
def Smooth (layers : List Layer) (f : (ℕ → Mat ℝ) → ℝ) (g : (ℕ → Mat ℝ) → (m : Layer) → Matrix (Fin m.nC) (Fin m.nK) ℝ) (L : ℝ) : Prop :=
  ∀ θ θ' : ℕ → Mat ℝ, (∀ p, (∀ m ∈ layers, ¬ World.Owns m p) → θ' p = θ p) →
    (∀ p, (θ' p).rows = (θ p).rows ∧ (θ' p).cols = (θ p).cols) →
    f θ' ≤ f θ + (layers.map fun m => inner' (g θ m) (paramM θ' m - paramM θ m)).sum + L / 2 * (layers.map fun m => sumSq (paramM θ' m - paramM θ m)).sum

/-- Training of all layers in rounds: between steps only forward and backward passes and assignments of gradients and of the scale; the gradients are those
of the loss, with errors `ξ` (of a mini-batch, of rounding, ...), times the current scale; no momentum and no weight decay. `h` gives the hyper-parameters of
the layers. -/
structure Noisy (cl : String → Cls × Cls) (h : Layer → Hyper ℝ) (ops : ℕ → List (Op ℝ)) (attr : ℕ → Option ℝ) (w : World ℝ) (f : (ℕ → Mat ℝ) → ℝ)
    (g : (ℕ → Mat ℝ) → (m : Layer) → Matrix (Fin m.nC) (Fin m.nK) ℝ) (ξ : ℕ → (m : Layer) → Matrix (Fin m.nC) (Fin m.nK) ℝ) (L : ℝ) : Prop where
  live : w.Live cl
  fits : ∀ t, FitsRun (w.rounds ops attr t) (ops t ++ [.step false (attr t) false])
  quiet : ∀ t, ∀ op ∈ ops t, op.Quiet
  hyper : ∀ m ∈ w.opt.layers, w.opt.hyperOf m = .ok (h m)
  smooth : Smooth w.opt.layers f g L
  grads : ∀ t, ∀ m ∈ w.opt.layers, gradM (run (ops t) (w.rounds ops attr t)) m = (run (ops t) (w.rounds ops attr t)).curScale (attr t) • (g (w.rounds ops attr t).data m + ξ t m)
  momentum : ∀ m ∈ w.opt.layers, (h m).momentum = 0
  decay : ∀ m ∈ w.opt.layers, (h m).weightDecay = 0

/-- the same without errors -/
abbrev Descends (cl : String → Cls × Cls) (h : Layer → Hyper ℝ) (ops : ℕ → List (Op ℝ)) (attr : ℕ → Option ℝ) (w : World ℝ) (f : (ℕ → Mat ℝ) → ℝ)
    (g : (ℕ → Mat ℝ) → (m : Layer) → Matrix (Fin m.nC) (Fin m.nK) ℝ) (L : ℝ) : Prop := Noisy cl h ops attr w f g (fun _ _ => 0) L

/-- a class whose factors are multiplied as `A Aᵀ` (see C03 for block-diagonal classes) -/
def Cls.Plain (c : Cls) : Prop := ∀ k, c ≠ .block k

theorem gram_plain {c : Cls} (h : c.Plain) {n : ℕ} (A : Matrix (Fin n) (Fin n) ℝ) : c.gram A = A * Aᵀ := by
  cases c <;> first | rfl | exact absurd rfl (h _)

section
variable {cl : String → Cls × Cls} {h : Layer → Hyper ℝ} {ops : ℕ → List (Op ℝ)} {attr : ℕ → Option ℝ} {w : World ℝ} {f : (ℕ → Mat ℝ) → ℝ}
  {g : (ℕ → Mat ℝ) → (m : Layer) → Matrix (Fin m.nC) (Fin m.nK) ℝ} {ξ : ℕ → (m : Layer) → Matrix (Fin m.nC) (Fin m.nK) ℝ} {L : ℝ}

/-- the state between rounds -/
structure Noisy.At (w v : World ℝ) (cl : String → Cls × Cls) (h : Layer → Hyper ℝ) : Prop where
  live : v.Live cl
  layers : v.opt.layers = w.opt.layers
  hyper : ∀ m ∈ w.opt.layers, v.opt.hyperOf m = .ok (h m)

/-- what a parameter step does to weight and bias together -/
theorem paramM_step {hy : Hyper ℝ} {m : Layer} {N : Matrix (Fin m.nC) (Fin m.nK) ℝ} {v v' : World ℝ} (A : World.ApplySpec hy m N v v') (m0 : hy.momentum = 0)
    (d0 : hy.weightDecay = 0) : paramM v'.data m - paramM v.data m = -(hy.lr • N) := by
  funext i j
  simp only [paramM, Matrix.sub_apply, Matrix.neg_apply, Matrix.smul_apply, smul_eq_mul]
  by_cases hj : j.1 < m.din
  · rw [if_pos hj, if_pos hj]
    have e := A.weight.data
    rw [m0, d0, zero_smul, zero_smul, zero_add, add_zero] at e
    have : (v'.data m.weight.ptr).get i j = (v.data m.weight.ptr).get i j - hy.lr * N i j := congrFun (congrFun e i) ⟨j.1, hj⟩
    rw [this]; ring
  · rw [if_neg hj, if_neg hj]
    cases hb : m.bias with
    | none =>
      have := j.2
      simp [Layer.nK, hb] at this
      omega
    | some b =>
      have e := (A.bias b hb).data
      rw [m0, d0, zero_smul, zero_smul, zero_add, add_zero] at e
      have ej : (⟨m.din, by simp [Layer.nK, hb]⟩ : Fin m.nK) = j := Fin.ext (by
        have := j.2
        simp [Layer.nK, hb] at this
        show m.din = j.1
        omega)
      have : (v'.data b.ptr).get i 0 = (v.data b.ptr).get i 0 - hy.lr * N i ⟨m.din, by simp [Layer.nK, hb]⟩ := congrFun (congrFun e i) 0
      rw [ej] at this
      simp only [Option.map_some, Option.getD_some]
      rw [this]; ring

/-- the direction of a layer -/
noncomputable def direction (w : World ℝ) (m : Layer) (G : Matrix (Fin m.nC) (Fin m.nK) ℝ) : Matrix (Fin m.nC) (Fin m.nK) ℝ :=
  denO (w.opt.Cs m.name) m.nC * (denO (w.opt.Cs m.name) m.nC)ᵀ * G * (denO (w.opt.Ks m.name) m.nK * (denO (w.opt.Ks m.name) m.nK)ᵀ)

/-- one round -/
theorem Noisy.round (R : Noisy cl h ops attr w f g ξ L) (hp : ∀ m ∈ w.opt.layers, (cl m.name).1.Plain ∧ (cl m.name).2.Plain) {t : ℕ}
    (B : Noisy.At w (w.rounds ops attr t) cl h) : Noisy.At w (w.rounds ops attr (t + 1)) cl h ∧
    (∀ m ∈ w.opt.layers, paramM (w.rounds ops attr (t + 1)).data m - paramM (w.rounds ops attr t).data m =
      -((h m).lr • direction (w.rounds ops attr (t + 1)) m (g (w.rounds ops attr t).data m + ξ t m))) ∧
    (∀ p, (∀ m ∈ w.opt.layers, ¬ World.Owns m p) → (w.rounds ops attr (t + 1)).data p = (w.rounds ops attr t).data p) ∧
    ∀ p, ((w.rounds ops attr (t + 1)).data p).rows = ((w.rounds ops attr t).data p).rows ∧ ((w.rounds ops attr (t + 1)).data p).cols = ((w.rounds ops attr t).data p).cols := by
  have gr := R.grads t
  generalize hv : w.rounds ops attr t = v at B gr ⊢
  have fi := R.fits t
  rw [hv] at fi
  obtain ⟨f1, f2, -⟩ := along_append.1 fi
  have W := B.live.window f1 (R.quiet t)
  obtain ⟨v', e, sp, lv'⟩ := W.live.step f2
  have er : w.rounds ops attr (t + 1) = v' := by
    rw [World.rounds, hv, run_append, run_cons, e]; rfl
  rw [er]
  have hl : (run (ops t) v).opt.layers = w.opt.layers := by rw [W.layers, B.layers]
  have hh : ∀ m ∈ w.opt.layers, (run (ops t) v).opt.hyperOf m = .ok (h m) := fun m hm => by rw [W.hyperOf]; exact B.hyper m hm
  have pos : (run (ops t) v).curScale (attr t) ≠ 0 := by
    refine (World.Live.curScale_pos W.live f2.2.1).ne'
  refine ⟨⟨lv', by rw [sp.layers, hl], fun m hm => ?_⟩, fun m hm => ?_, fun p hp' => ?_, fun p => ?_⟩
  · have : v'.opt.hyperOf m = (run (ops t) v).opt.hyperOf m := by unfold Opt.hyperOf; rw [sp.ptrGroup, sp.groups]
    rw [this]; exact hh m hm
  · have S := sp.layer m (by rw [hl]; exact hm) _ (hh m hm)
    have := paramM_step S.apply (R.momentum m hm) (R.decay m hm)
    rw [W.data] at this
    rw [this, natDir, gram_plain (hp m hm).1, gram_plain (hp m hm).2, gr m hm]
    congr 2
    rw [direction, Matrix.mul_smul, Matrix.smul_mul, smul_smul, one_div, inv_mul_cancel₀ pos, one_smul, transpose_mul, transpose_transpose]
  · have := (sp.otherP p (by rw [hl]; exact hp')).1
    rw [this, W.data]
  · by_cases hp' : ∀ m ∈ w.opt.layers, ¬ World.Owns m p
    · rw [(sp.otherP p (by rw [hl]; exact hp')).1, W.data]; exact ⟨rfl, rfl⟩
    · push Not at hp'
      obtain ⟨m, hm, ow⟩ := hp'
      have s1 := B.live.sound.shape m (by rw [B.layers]; exact hm)
      have s2 := lv'.sound.shape m (by rw [sp.layers, hl]; exact hm)
      rcases ow with rfl | ⟨b, hb, rfl⟩
      · have a := s1.weight.data
        have b := s2.weight.data
        exact ⟨b.1.trans a.1.symm, b.2.trans a.2.symm⟩
      · have a := (s1.bias b hb).1.data
        have b := (s2.bias b hb).1.data
        exact ⟨b.1.trans a.1.symm, b.2.trans a.2.symm⟩

theorem Noisy.at (R : Noisy cl h ops attr w f g ξ L) (hp : ∀ m ∈ w.opt.layers, (cl m.name).1.Plain ∧ (cl m.name).2.Plain) :
    ∀ t, Noisy.At w (w.rounds ops attr t) cl h
  | 0 => ⟨R.live, rfl, R.hyper⟩
  | t + 1 => (R.round hp (R.at hp t)).1

/-- **C94 (errors).** A step with the gradient of an `L`-smooth loss up to an error `ξ`, by any update rule, with any structure but the block-diagonal ones, without
momentum and weight decay. If after the step the squared singular values of the factors of each layer are between `1/κ` and `1/q`, and `L lr ≤ q²`, the loss drops by at
least the sum over the layers of `lr / (2 κ²)` times the squared gradient minus `lr / (2 q²)` times the squared error. -/
theorem C94_noise (R : Noisy cl h ops attr w f g ξ L) (hp : ∀ m ∈ w.opt.layers, (cl m.name).1.Plain ∧ (cl m.name).2.Plain) (q κ : Layer → ℝ)
    (hq : ∀ m ∈ w.opt.layers, 0 < q m ∧ 0 < κ m ∧ 0 ≤ (h m).lr ∧ L * (h m).lr ≤ q m ^ 2) (t : ℕ)
    (hS : ∀ m ∈ w.opt.layers, Singular (q m) (κ m) (denO ((w.rounds ops attr (t + 1)).opt.Ks m.name) m.nK) ∧
      Singular (q m) (κ m) (denO ((w.rounds ops attr (t + 1)).opt.Cs m.name) m.nC)) :
    f (w.rounds ops attr (t + 1)).data + (w.opt.layers.map fun m => (h m).lr / (2 * κ m ^ 2) * sumSq (g (w.rounds ops attr t).data m)).sum ≤
      f (w.rounds ops attr t).data + (w.opt.layers.map fun m => (h m).lr / (2 * q m ^ 2) * sumSq (ξ t m)).sum := by
  obtain ⟨-, e1, e2, e3⟩ := R.round hp (R.at hp t)
  have s := R.smooth _ _ e2 e3
  have key : (w.opt.layers.map fun m => inner' (g (w.rounds ops attr t).data m) (paramM (w.rounds ops attr (t + 1)).data m - paramM (w.rounds ops attr t).data m)).sum +
      L / 2 * (w.opt.layers.map fun m => sumSq (paramM (w.rounds ops attr (t + 1)).data m - paramM (w.rounds ops attr t).data m)).sum +
      (w.opt.layers.map fun m => (h m).lr / (2 * κ m ^ 2) * sumSq (g (w.rounds ops attr t).data m)).sum +
      (w.opt.layers.map fun m => -((h m).lr / (2 * q m ^ 2) * sumSq (ξ t m))).sum ≤ 0 := by
    rw [← List.sum_map_mul_left, ← List.sum_map_add, ← List.sum_map_add, ← List.sum_map_add]
    refine list_sum_nonpos fun x hx => ?_
    obtain ⟨m, hm, rfl⟩ := List.mem_map.1 hx
    obtain ⟨q0, κ0, l0, lL⟩ := hq m hm
    obtain ⟨sK, sC⟩ := hS m hm
    rw [e1 m hm]
    generalize g (w.rounds ops attr t).data m = G at *
    generalize ξ t m = E at *
    obtain ⟨K, hK⟩ : ∃ K, K = denO ((w.rounds ops attr (t + 1)).opt.Ks m.name) m.nK := ⟨_, rfl⟩
    obtain ⟨C, hC⟩ : ∃ C, C = denO ((w.rounds ops attr (t + 1)).opt.Cs m.name) m.nC := ⟨_, rfl⟩
    have ed : direction (w.rounds ops attr (t + 1)) m (G + E) = C * Cᵀ * (G + E) * (K * Kᵀ) := by rw [hK, hC]; rfl
    rw [← hK] at sK
    rw [← hC] at sC
    rw [ed]
    have sc := singular_iff.1 sC
    have sk := singular_iff.1 sK
    have p3 := (Band.precond sc sk q0 κ0.le G).2.2
    have p2 := (Band.precond sc sk q0 κ0.le (G + E)).2.1
    have p4 := Band.precond_le sc sk q0 E
    have p1 := Band.precond_inner C K G (G + E)
    have i1 : inner' G (-((h m).lr • (C * Cᵀ * (G + E) * (K * Kᵀ)))) = -((h m).lr * inner' (Cᵀ * G * K) (Cᵀ * (G + E) * K)) := by
      rw [show inner' (Cᵀ * G * K) (Cᵀ * (G + E) * K) = _ from p1.symm, inner', Finset.mul_sum, ← Finset.sum_neg_distrib]
      refine Finset.sum_congr rfl fun i _ => ?_
      rw [Finset.mul_sum, ← Finset.sum_neg_distrib]
      refine Finset.sum_congr rfl fun j _ => ?_
      rw [Matrix.neg_apply, Matrix.smul_apply, smul_eq_mul]; ring
    have i2 : sumSq (-((h m).lr • (C * Cᵀ * (G + E) * (K * Kᵀ)))) = (h m).lr ^ 2 * Band.fro (C * Cᵀ * (G + E) * (K * Kᵀ)) := by
      rw [sumSq, Band.fro, Finset.mul_sum]
      refine Finset.sum_congr rfl fun i _ => ?_
      rw [Finset.mul_sum]
      refine Finset.sum_congr rfl fun j _ => ?_
      rw [Matrix.neg_apply, Matrix.smul_apply, smul_eq_mul]; ring
    have i3 : Band.fro (Cᵀ * (G + E) * K) - 2 * inner' (Cᵀ * G * K) (Cᵀ * (G + E) * K) = Band.fro (Cᵀ * E * K) - Band.fro (Cᵀ * G * K) := by
      rw [Matrix.mul_add, Matrix.add_mul]
      generalize Cᵀ * G * K = Y
      generalize Cᵀ * E * K = Z
      simp only [Band.fro, inner', Finset.mul_sum, ← Finset.sum_sub_distrib]
      refine Finset.sum_congr rfl fun i _ => Finset.sum_congr rfl fun j _ => ?_
      rw [Matrix.add_apply]; ring
    rw [i1, i2, show sumSq G = Band.fro G from rfl, show sumSq E = Band.fro E from rfl]
    have d0 := Band.fro_nonneg (C * Cᵀ * (G + E) * (K * Kᵀ))
    generalize Band.fro (C * Cᵀ * (G + E) * (K * Kᵀ)) = D at *
    generalize Band.fro (Cᵀ * (G + E) * K) = A at *
    generalize Band.fro (Cᵀ * G * K) = Y at *
    generalize Band.fro (Cᵀ * E * K) = Z at *
    generalize inner' (Cᵀ * G * K) (Cᵀ * (G + E) * K) = I at *
    have u1 : (h m).lr / (2 * κ m ^ 2) * Band.fro G ≤ (h m).lr / 2 * Y := by
      have := mul_le_mul_of_nonneg_left p3 (div_nonneg l0 (by positivity : 0 ≤ 2 * κ m ^ 2))
      refine this.trans (le_of_eq ?_)
      field_simp
    have u2 : L / 2 * ((h m).lr ^ 2 * D) ≤ (h m).lr / 2 * A := by
      have a : L * (h m).lr * D ≤ q m ^ 2 * D := mul_le_mul_of_nonneg_right lL d0
      have b := mul_le_mul_of_nonneg_left (a.trans p2) (by linarith : 0 ≤ (h m).lr / 2)
      calc L / 2 * ((h m).lr ^ 2 * D) = (h m).lr / 2 * (L * (h m).lr * D) := by ring
        _ ≤ _ := b
    have u3 : (h m).lr / 2 * Z ≤ (h m).lr / (2 * q m ^ 2) * Band.fro E := by
      have := mul_le_mul_of_nonneg_left p4 (div_nonneg l0 (by positivity : 0 ≤ 2 * q m ^ 2))
      refine le_trans (le_of_eq ?_) this
      field_simp
    have u4 : (h m).lr / 2 * (A - 2 * I) = (h m).lr / 2 * (Z - Y) := by rw [i3]
    linarith
  have neg : (w.opt.layers.map fun m => -((h m).lr / (2 * q m ^ 2) * sumSq (ξ t m))).sum = -(w.opt.layers.map fun m => (h m).lr / (2 * q m ^ 2) * sumSq (ξ t m)).sum := by
    induction w.opt.layers with
    | nil => simp
    | cons a l ih => rw [List.map_cons, List.sum_cons, List.map_cons, List.sum_cons, ih]; ring
  rw [neg] at key
  linarith
where
  list_sum_nonpos {l : List ℝ} (h : ∀ x ∈ l, x ≤ 0) : l.sum ≤ 0 := by
    induction l with
    | nil => simp
    | cons a l ih =>
      rw [List.sum_cons]
      have := h a (by simp)
      have := ih fun x hx => h x (by simp [hx])
      linarith

/-- **C94 (descent).** Without errors, the loss drops by at least the sum over the layers of `lr / (2 κ²)` times the squared gradient. -/
theorem C94_descent (R : Descends cl h ops attr w f g L) (hp : ∀ m ∈ w.opt.layers, (cl m.name).1.Plain ∧ (cl m.name).2.Plain) (q κ : Layer → ℝ)
    (hq : ∀ m ∈ w.opt.layers, 0 < q m ∧ 0 < κ m ∧ 0 ≤ (h m).lr ∧ L * (h m).lr ≤ q m ^ 2) (t : ℕ)
    (hS : ∀ m ∈ w.opt.layers, Singular (q m) (κ m) (denO ((w.rounds ops attr (t + 1)).opt.Ks m.name) m.nK) ∧
      Singular (q m) (κ m) (denO ((w.rounds ops attr (t + 1)).opt.Cs m.name) m.nC)) :
    f (w.rounds ops attr (t + 1)).data + (w.opt.layers.map fun m => (h m).lr / (2 * κ m ^ 2) * sumSq (g (w.rounds ops attr t).data m)).sum ≤
      f (w.rounds ops attr t).data := by
  have := C94_noise R hp q κ hq t hS
  have z : (w.opt.layers.map fun m => (h m).lr / (2 * q m ^ 2) * sumSq ((fun _ _ => 0 : ℕ → (m : Layer) → Matrix (Fin m.nC) (Fin m.nK) ℝ) t m)).sum = 0 := by
    refine List.sum_eq_zero fun x hx => ?_
    obtain ⟨m, -, rfl⟩ := List.mem_map.1 hx
    simp [sumSq]
  rw [z, add_zero] at this
  exact this

/-- the squared gradient of the loss at round `t`, weighted -/
theorem drops_nonneg (c : Layer → ℝ) {layers : List Layer} (hc : ∀ m ∈ layers, 0 ≤ c m) (G : (m : Layer) → Matrix (Fin m.nC) (Fin m.nK) ℝ) :
    0 ≤ (layers.map fun m => c m * sumSq (G m)).sum := by
  refine List.sum_nonneg fun x hx => ?_
  obtain ⟨m, hm, rfl⟩ := List.mem_map.1 hx
  exact mul_nonneg (hc m hm) (Band.fro_nonneg _)

theorem drops_single (c : Layer → ℝ) {layers : List Layer} (hc : ∀ m ∈ layers, 0 ≤ c m) (G : (m : Layer) → Matrix (Fin m.nC) (Fin m.nK) ℝ) {m : Layer} (hm : m ∈ layers) :
    c m * sumSq (G m) ≤ (layers.map fun m => c m * sumSq (G m)).sum := by
  refine List.single_le_sum (l := layers.map fun m => c m * sumSq (G m)) (fun x hx => ?_) _ (List.mem_map_of_mem hm)
  obtain ⟨m, hm, rfl⟩ := List.mem_map.1 hx
  exact mul_nonneg (hc m hm) (Band.fro_nonneg _)

/-- the factors of all layers are within the bounds at all times -/
def Bounded (q κ : Layer → ℝ) (ops : ℕ → List (Op ℝ)) (attr : ℕ → Option ℝ) (w : World ℝ) : Prop :=
  ∀ t, ∀ m ∈ w.opt.layers, Singular (q m) (κ m) (denO ((w.rounds ops attr t).opt.Ks m.name) m.nK) ∧ Singular (q m) (κ m) (denO ((w.rounds ops attr t).opt.Cs m.name) m.nC)

/-- **C94 (sum).** If the factors stay within their bounds, the weighted squared gradients of all rounds sum to at most the decrease of the loss. -/
theorem C94_sum (R : Descends cl h ops attr w f g L) (hp : ∀ m ∈ w.opt.layers, (cl m.name).1.Plain ∧ (cl m.name).2.Plain) (q κ : Layer → ℝ)
    (hq : ∀ m ∈ w.opt.layers, 0 < q m ∧ 0 < κ m ∧ 0 ≤ (h m).lr ∧ L * (h m).lr ≤ q m ^ 2) (hS : Bounded q κ ops attr w) (N : ℕ) :
    ∑ t ∈ Finset.range N, (w.opt.layers.map fun m => (h m).lr / (2 * κ m ^ 2) * sumSq (g (w.rounds ops attr t).data m)).sum ≤ f w.data - f (w.rounds ops attr N).data := by
  induction N with
  | zero => rw [Finset.sum_range_zero, World.rounds, sub_self]
  | succ N ih =>
    rw [Finset.sum_range_succ]
    have := C94_descent R hp q κ hq N (hS (N + 1))
    linarith

/-- **C94 (sum, with errors).** The same with errors: the errors add `lr / (2 q²)` times their squares. -/
theorem C94_sum_noise (R : Noisy cl h ops attr w f g ξ L) (hp : ∀ m ∈ w.opt.layers, (cl m.name).1.Plain ∧ (cl m.name).2.Plain) (q κ : Layer → ℝ)
    (hq : ∀ m ∈ w.opt.layers, 0 < q m ∧ 0 < κ m ∧ 0 ≤ (h m).lr ∧ L * (h m).lr ≤ q m ^ 2) (hS : Bounded q κ ops attr w) (N : ℕ) :
    ∑ t ∈ Finset.range N, (w.opt.layers.map fun m => (h m).lr / (2 * κ m ^ 2) * sumSq (g (w.rounds ops attr t).data m)).sum ≤ f w.data - f (w.rounds ops attr N).data +
      ∑ t ∈ Finset.range N, (w.opt.layers.map fun m => (h m).lr / (2 * q m ^ 2) * sumSq (ξ t m)).sum := by
  induction N with
  | zero => rw [Finset.sum_range_zero, Finset.sum_range_zero, World.rounds, sub_self, add_zero]
  | succ N ih =>
    rw [Finset.sum_range_succ, Finset.sum_range_succ]
    have := C94_noise R hp q κ hq N (hS (N + 1))
    linarith

/-- **C94 (gradients).** If moreover the loss is bounded below along the training and the learning rates are positive, all entries of the gradient of the loss
tend to zero. -/
theorem C94_gradients (R : Descends cl h ops attr w f g L) (hp : ∀ m ∈ w.opt.layers, (cl m.name).1.Plain ∧ (cl m.name).2.Plain) (q κ : Layer → ℝ)
    (hq : ∀ m ∈ w.opt.layers, 0 < q m ∧ 0 < κ m ∧ 0 < (h m).lr ∧ L * (h m).lr ≤ q m ^ 2) (hS : Bounded q κ ops attr w) {fs : ℝ}
    (hf : ∀ t, fs ≤ f (w.rounds ops attr t).data) : ∀ m ∈ w.opt.layers, ∀ i j, Tendsto (fun t => g (w.rounds ops attr t).data m i j) atTop (𝓝 0) := by
  intro m hm i j
  have hq' : ∀ m ∈ w.opt.layers, 0 < q m ∧ 0 < κ m ∧ 0 ≤ (h m).lr ∧ L * (h m).lr ≤ q m ^ 2 := fun m hm => ⟨(hq m hm).1, (hq m hm).2.1, (hq m hm).2.2.1.le, (hq m hm).2.2.2⟩
  have hc : ∀ m ∈ w.opt.layers, 0 ≤ (h m).lr / (2 * κ m ^ 2) := fun m hm => div_nonneg (hq' m hm).2.2.1 (by positivity)
  have nn : ∀ t, 0 ≤ (w.opt.layers.map fun m => (h m).lr / (2 * κ m ^ 2) * sumSq (g (w.rounds ops attr t).data m)).sum := fun t =>
    drops_nonneg (fun m => (h m).lr / (2 * κ m ^ 2)) hc _
  have su : Summable fun t => (w.opt.layers.map fun m => (h m).lr / (2 * κ m ^ 2) * sumSq (g (w.rounds ops attr t).data m)).sum :=
    summable_of_sum_range_le (c := f w.data - fs) nn fun N => (C94_sum R hp q κ hq' hS N).trans (by linarith [hf N])
  have z := su.tendsto_atTop_zero
  obtain ⟨q0, κ0, l0, -⟩ := hq m hm
  have c0 : 0 < (h m).lr / (2 * κ m ^ 2) := div_pos l0 (by positivity)
  have sqz : Tendsto (fun t => g (w.rounds ops attr t).data m i j ^ 2) atTop (𝓝 0) := by
    have z' := z.const_mul (((h m).lr / (2 * κ m ^ 2))⁻¹)
    rw [mul_zero] at z'
    refine squeeze_zero (fun t => sq_nonneg _) (fun t => ?_) z'
    have a := drops_single (fun m => (h m).lr / (2 * κ m ^ 2)) hc (fun m => g (w.rounds ops attr t).data m) hm
    have b : g (w.rounds ops attr t).data m i j ^ 2 ≤ sumSq (g (w.rounds ops attr t).data m) := by
      have r1 := Finset.single_le_sum (f := fun i => ∑ j, g (w.rounds ops attr t).data m i j ^ 2) (fun i _ => Finset.sum_nonneg fun j _ => sq_nonneg _) (Finset.mem_univ i)
      have r2 := Finset.single_le_sum (f := fun j => g (w.rounds ops attr t).data m i j ^ 2) (fun j _ => sq_nonneg _) (Finset.mem_univ j)
      exact r2.trans r1
    rw [inv_mul_eq_div, le_div_iff₀ c0, mul_comm]
    exact (mul_le_mul_of_nonneg_left b c0.le).trans a
  have := (Real.continuous_sqrt.tendsto 0).comp sqz
  rw [Real.sqrt_zero] at this
  refine (tendsto_zero_iff_abs_tendsto_zero _).2 ?_
  refine this.congr fun t => ?_
  show Real.sqrt _ = |_|
  rw [Real.sqrt_sq_eq_abs]

/-- **C94 (linear rate).** If the excess of the loss over `fs` is at most `1/(2μ)` times the squared gradient (Polyak-Łojasiewicz), it shrinks by the factor
`1 - ρ μ` in every round, where `ρ` is the smallest `lr / κ²`. -/
theorem C94_linear_rate (R : Descends cl h ops attr w f g L) (hp : ∀ m ∈ w.opt.layers, (cl m.name).1.Plain ∧ (cl m.name).2.Plain) (q κ : Layer → ℝ)
    (hq : ∀ m ∈ w.opt.layers, 0 < q m ∧ 0 < κ m ∧ 0 ≤ (h m).lr ∧ L * (h m).lr ≤ q m ^ 2) (hS : Bounded q κ ops attr w) {fs μ ρ : ℝ} (ρ0 : 0 ≤ ρ)
    (hρ : ∀ m ∈ w.opt.layers, ρ ≤ (h m).lr / κ m ^ 2) (h1 : ρ * μ ≤ 1)
    (hf : ∀ t, 2 * μ * (f (w.rounds ops attr t).data - fs) ≤ (w.opt.layers.map fun m => sumSq (g (w.rounds ops attr t).data m)).sum) (t : ℕ) :
    f (w.rounds ops attr t).data - fs ≤ (1 - ρ * μ) ^ t * (f w.data - fs) := by
  induction t with
  | zero => rw [World.rounds, pow_zero, one_mul]
  | succ t ih =>
    have d := C94_descent R hp q κ hq t (hS (t + 1))
    have lo : ρ / 2 * (w.opt.layers.map fun m => sumSq (g (w.rounds ops attr t).data m)).sum ≤
        (w.opt.layers.map fun m => (h m).lr / (2 * κ m ^ 2) * sumSq (g (w.rounds ops attr t).data m)).sum := by
      rw [← List.sum_map_mul_left]
      refine List.sum_le_sum fun m hm => mul_le_mul_of_nonneg_right ?_ (Band.fro_nonneg _)
      have := hρ m hm
      rw [mul_comm 2, ← div_div]
      linarith
    have p := mul_le_mul_of_nonneg_left (hf t) (by linarith : 0 ≤ ρ / 2)
    have e : f (w.rounds ops attr (t + 1)).data - fs ≤ (1 - ρ * μ) * (f (w.rounds ops attr t).data - fs) := by
      have : ρ / 2 * (2 * μ * (f (w.rounds ops attr t).data - fs)) = ρ * μ * (f (w.rounds ops attr t).data - fs) := by ring
      linarith
    refine e.trans ?_
    rw [pow_succ', mul_assoc]
    exact mul_le_mul_of_nonneg_left ih (by linarith)

/-- **C94 (descent up to the threshold).** Without errors, for an `L`-smooth loss with `L ≥ 0`: the loss drops by at least the sum over the layers of
`lr (1 - L lr / (2 q²)) / κ²` times the squared gradient, as long as `L lr ≤ 2 q²`. -/
theorem C94_threshold_descent (R : Descends cl h ops attr w f g L) (hp : ∀ m ∈ w.opt.layers, (cl m.name).1.Plain ∧ (cl m.name).2.Plain) (L0 : 0 ≤ L) (q κ : Layer → ℝ)
    (hq : ∀ m ∈ w.opt.layers, 0 < q m ∧ 0 < κ m ∧ 0 ≤ (h m).lr ∧ L * (h m).lr ≤ 2 * q m ^ 2) (t : ℕ)
    (hS : ∀ m ∈ w.opt.layers, Singular (q m) (κ m) (denO ((w.rounds ops attr (t + 1)).opt.Ks m.name) m.nK) ∧
      Singular (q m) (κ m) (denO ((w.rounds ops attr (t + 1)).opt.Cs m.name) m.nC)) :
    f (w.rounds ops attr (t + 1)).data +
        (w.opt.layers.map fun m => (h m).lr * (1 - L * (h m).lr / (2 * q m ^ 2)) / κ m ^ 2 * sumSq (g (w.rounds ops attr t).data m)).sum ≤
      f (w.rounds ops attr t).data := by
  obtain ⟨-, e1, e2, e3⟩ := R.round hp (R.at hp t)
  have s := R.smooth _ _ e2 e3
  have key : (w.opt.layers.map fun m => inner' (g (w.rounds ops attr t).data m) (paramM (w.rounds ops attr (t + 1)).data m - paramM (w.rounds ops attr t).data m)).sum +
      L / 2 * (w.opt.layers.map fun m => sumSq (paramM (w.rounds ops attr (t + 1)).data m - paramM (w.rounds ops attr t).data m)).sum +
      (w.opt.layers.map fun m => (h m).lr * (1 - L * (h m).lr / (2 * q m ^ 2)) / κ m ^ 2 * sumSq (g (w.rounds ops attr t).data m)).sum ≤ 0 := by
    rw [← List.sum_map_mul_left, ← List.sum_map_add, ← List.sum_map_add]
    refine C94_noise.list_sum_nonpos fun x hx => ?_
    obtain ⟨m, hm, rfl⟩ := List.mem_map.1 hx
    obtain ⟨q0, κ0, l0, lL⟩ := hq m hm
    obtain ⟨sK, sC⟩ := hS m hm
    rw [e1 m hm, add_zero]
    generalize g (w.rounds ops attr t).data m = G at *
    obtain ⟨K, hK⟩ : ∃ K, K = denO ((w.rounds ops attr (t + 1)).opt.Ks m.name) m.nK := ⟨_, rfl⟩
    obtain ⟨C, hC⟩ : ∃ C, C = denO ((w.rounds ops attr (t + 1)).opt.Cs m.name) m.nC := ⟨_, rfl⟩
    have ed : direction (w.rounds ops attr (t + 1)) m G = C * Cᵀ * G * (K * Kᵀ) := by rw [hK, hC]; rfl
    rw [← hK] at sK
    rw [← hC] at sC
    rw [ed]
    obtain ⟨p1, p2, p3⟩ := Band.precond (singular_iff.1 sC) (singular_iff.1 sK) q0 κ0.le G
    have i1 : inner' G (-((h m).lr • (C * Cᵀ * G * (K * Kᵀ)))) = -((h m).lr * Band.fro (Cᵀ * G * K)) := by
      rw [← p1, inner', Finset.mul_sum, ← Finset.sum_neg_distrib]
      refine Finset.sum_congr rfl fun i _ => ?_
      rw [Finset.mul_sum, ← Finset.sum_neg_distrib]
      refine Finset.sum_congr rfl fun j _ => ?_
      rw [Matrix.neg_apply, Matrix.smul_apply, smul_eq_mul]; ring
    have i2 : sumSq (-((h m).lr • (C * Cᵀ * G * (K * Kᵀ)))) = (h m).lr ^ 2 * Band.fro (C * Cᵀ * G * (K * Kᵀ)) := by
      rw [sumSq, Band.fro, Finset.mul_sum]
      refine Finset.sum_congr rfl fun i _ => ?_
      rw [Finset.mul_sum]
      refine Finset.sum_congr rfl fun j _ => ?_
      rw [Matrix.neg_apply, Matrix.smul_apply, smul_eq_mul]; ring
    rw [i1, i2, show sumSq G = Band.fro G from rfl]
    generalize Band.fro (C * Cᵀ * G * (K * Kᵀ)) = D at *
    generalize Band.fro (Cᵀ * G * K) = Y at *
    generalize Band.fro G = Z at *
    have c0 : 0 ≤ (h m).lr * (1 - L * (h m).lr / (2 * q m ^ 2)) := by
      refine mul_nonneg l0 (sub_nonneg.2 ?_)
      rw [div_le_one (by positivity)]; exact lL
    have u1 : (h m).lr * (1 - L * (h m).lr / (2 * q m ^ 2)) / κ m ^ 2 * Z ≤ (h m).lr * (1 - L * (h m).lr / (2 * q m ^ 2)) * Y := by
      rw [div_mul_eq_mul_div, div_le_iff₀ (by positivity)]
      calc _ ≤ (h m).lr * (1 - L * (h m).lr / (2 * q m ^ 2)) * (κ m ^ 2 * Y) := mul_le_mul_of_nonneg_left p3 c0
        _ = _ := by ring
    have u2 : L / 2 * ((h m).lr ^ 2 * D) ≤ (h m).lr * (L * (h m).lr / (2 * q m ^ 2)) * Y := by
      have d : D ≤ Y / q m ^ 2 := by rw [le_div_iff₀ (by positivity), mul_comm]; exact p2
      calc L / 2 * ((h m).lr ^ 2 * D) = L / 2 * (h m).lr ^ 2 * D := by ring
        _ ≤ L / 2 * (h m).lr ^ 2 * (Y / q m ^ 2) := mul_le_mul_of_nonneg_left d (by positivity)
        _ = _ := by ring
    nlinarith
  linarith

/-- **C94 (gradients up to the threshold).** The gradients tend to zero for all learning rates with `L lr < 2 q²`. -/
theorem C94_threshold_gradients (R : Descends cl h ops attr w f g L) (hp : ∀ m ∈ w.opt.layers, (cl m.name).1.Plain ∧ (cl m.name).2.Plain) (L0 : 0 ≤ L) (q κ : Layer → ℝ)
    (hq : ∀ m ∈ w.opt.layers, 0 < q m ∧ 0 < κ m ∧ 0 < (h m).lr ∧ L * (h m).lr < 2 * q m ^ 2) (hS : Bounded q κ ops attr w) {fs : ℝ}
    (hf : ∀ t, fs ≤ f (w.rounds ops attr t).data) : ∀ m ∈ w.opt.layers, ∀ i j, Tendsto (fun t => g (w.rounds ops attr t).data m i j) atTop (𝓝 0) := by
  intro m hm i j
  obtain ⟨c, hc⟩ : ∃ c : Layer → ℝ, ∀ m, c m = (h m).lr * (1 - L * (h m).lr / (2 * q m ^ 2)) / κ m ^ 2 := ⟨_, fun _ => rfl⟩
  have c0 : ∀ m ∈ w.opt.layers, 0 < c m := fun m hm => by
    obtain ⟨q0, κ0, l0, lt⟩ := hq m hm
    rw [hc]
    refine div_pos (mul_pos l0 (sub_pos.2 ?_)) (by positivity)
    rw [div_lt_one (by positivity)]; exact lt
  have sum : ∀ N, ∑ t ∈ Finset.range N, (w.opt.layers.map fun m => c m * sumSq (g (w.rounds ops attr t).data m)).sum ≤ f w.data - f (w.rounds ops attr N).data := by
    intro N
    induction N with
    | zero => rw [Finset.sum_range_zero, World.rounds, sub_self]
    | succ N ih =>
      rw [Finset.sum_range_succ]
      have := C94_threshold_descent R hp L0 q κ (fun m hm => ⟨(hq m hm).1, (hq m hm).2.1, (hq m hm).2.2.1.le, (hq m hm).2.2.2.le⟩) N (hS (N + 1))
      simp only [← hc] at this
      linarith
  have nn : ∀ t, 0 ≤ (w.opt.layers.map fun m => c m * sumSq (g (w.rounds ops attr t).data m)).sum := fun t => drops_nonneg c (fun m hm => (c0 m hm).le) _
  have su : Summable fun t => (w.opt.layers.map fun m => c m * sumSq (g (w.rounds ops attr t).data m)).sum :=
    summable_of_sum_range_le (c := f w.data - fs) nn fun N => (sum N).trans (by linarith [hf N])
  have z := su.tendsto_atTop_zero
  have sqz : Tendsto (fun t => g (w.rounds ops attr t).data m i j ^ 2) atTop (𝓝 0) := by
    have z' := z.const_mul (c m)⁻¹
    rw [mul_zero] at z'
    refine squeeze_zero (fun t => sq_nonneg _) (fun t => ?_) z'
    have a := drops_single c (fun m hm => (c0 m hm).le) (fun m => g (w.rounds ops attr t).data m) hm
    have b : g (w.rounds ops attr t).data m i j ^ 2 ≤ sumSq (g (w.rounds ops attr t).data m) := by
      have r1 := Finset.single_le_sum (f := fun i => ∑ j, g (w.rounds ops attr t).data m i j ^ 2) (fun i _ => Finset.sum_nonneg fun j _ => sq_nonneg _) (Finset.mem_univ i)
      have r2 := Finset.single_le_sum (f := fun j => g (w.rounds ops attr t).data m i j ^ 2) (fun j _ => sq_nonneg _) (Finset.mem_univ j)
      exact r2.trans r1
    rw [inv_mul_eq_div, le_div_iff₀ (c0 m hm), mul_comm]
    exact (mul_le_mul_of_nonneg_left b (c0 m hm).le).trans a
  have := (Real.continuous_sqrt.tendsto 0).comp sqz
  rw [Real.sqrt_zero] at this
  refine (tendsto_zero_iff_abs_tendsto_zero _).2 ?_
  refine this.congr fun t => ?_
  show Real.sqrt _ = |_|
  rw [Real.sqrt_sq_eq_abs]

/-- **C94 (from construction).** From construction on: `kfac_like` factors, dense or diagonal, without factor momentum, momentum and weight decay, damping
positive; `lr_cov` at most `β` with `β (B + damping) ≤ min(1, damping/2)`, where `B` bounds the second moments of the data of the layer; positive learning rates
with `L lr ≤ min(1, damping/2)²`; gradients of an `L`-smooth loss that is bounded below. Then the loss decreases in every round, the sum of the weighted squared
gradients is at most the decrease of the loss, and the gradients tend to zero. -/
theorem C94_from_construction {structs : String → Option Cls} {model : Model} {p : ParamArg ℝ} {a : Args ℝ} {o : Opt ℝ} {ws : List Warn}
    (hn : (model.layers.map (·.name)).Nodup) (hi : Construct.init structs model p a = .ok (o, ws)) {data : ℕ → Mat ℝ} {grad : ℕ → Option (Mat ℝ)}
    (ht : Trainable o data) (hw : w = ⟨o, data, grad, []⟩) (R : Descends cl h ops attr w f g L) (P : ∀ m ∈ w.opt.layers, Passes cl m (h m) ops attr w)
    (hc : ∀ m ∈ w.opt.layers, ((cl m.name).1 = .dense ∨ (cl m.name).1 = .diagonal) ∧ ((cl m.name).2 = .dense ∨ (cl m.name).2 = .diagonal)) (B β : Layer → ℝ)
    (d0 : ∀ m ∈ w.opt.layers, 0 < (h m).damping ∧ 0 ≤ B m ∧ β m * (B m + (h m).damping) ≤ min 1 ((h m).damping / 2))
    (hβ : ∀ m ∈ w.opt.layers, ∀ t, 0 ≤ (h m).lrCov.at t ∧ (h m).lrCov.at t ≤ β m)
    (hU : ∀ m ∈ w.opt.layers, ∀ t, (w.opt.steps + t) % (h m).T = 0 →
      QuadLe ((fired m.name (ops t) (w.rounds ops attr t)).map fun e => inputMoment (h m) m e.1).sum (B m) ∧
      QuadLe ((1 / (run (ops t) (w.rounds ops attr t)).curScale (attr t) ^ 2) • ((fired m.name (ops t) (w.rounds ops attr t)).map fun e => gradMoment (h m) m e.2).sum) (B m))
    (hl : ∀ m ∈ w.opt.layers, 0 < (h m).lr ∧ L * (h m).lr ≤ min 1 ((h m).damping / 2) ^ 2) {fs : ℝ} (hf : ∀ t, fs ≤ f (w.rounds ops attr t).data) :
    (∀ t, f (w.rounds ops attr (t + 1)).data ≤ f (w.rounds ops attr t).data) ∧
    (∀ N, ∑ t ∈ Finset.range N, (w.opt.layers.map fun m => (h m).lr / (2 * max 1 (3 * (B m + (h m).damping)) ^ 2) * sumSq (g (w.rounds ops attr t).data m)).sum ≤
      f w.data - f (w.rounds ops attr N).data) ∧
    ∀ m ∈ w.opt.layers, ∀ i j, Tendsto (fun t => g (w.rounds ops attr t).data m i j) atTop (𝓝 0) := by
  have hp : ∀ m ∈ w.opt.layers, (cl m.name).1.Plain ∧ (cl m.name).2.Plain := by
    intro m hm
    obtain ⟨a, b⟩ := hc m hm
    constructor
    · rcases a with a | a <;> rw [a] <;> intro k <;> simp
    · rcases b with b | b <;> rw [b] <;> intro k <;> simp
  have hq : ∀ m ∈ w.opt.layers, 0 < min 1 ((h m).damping / 2) ∧ 0 < max 1 (3 * (B m + (h m).damping)) ∧ 0 < (h m).lr ∧ L * (h m).lr ≤ min 1 ((h m).damping / 2) ^ 2 :=
    fun m hm => ⟨lt_min one_pos (by linarith [(d0 m hm).1]), lt_max_of_lt_left one_pos, hl m hm⟩
  have hq' : ∀ m ∈ w.opt.layers, 0 < min 1 ((h m).damping / 2) ∧ 0 < max 1 (3 * (B m + (h m).damping)) ∧ 0 ≤ (h m).lr ∧ L * (h m).lr ≤ min 1 ((h m).damping / 2) ^ 2 :=
    fun m hm => ⟨(hq m hm).1, (hq m hm).2.1, (hq m hm).2.2.1.le, (hq m hm).2.2.2⟩
  have hS : Bounded (fun m => min 1 ((h m).damping / 2)) (fun m => max 1 (3 * (B m + (h m).damping))) ops attr w := fun t m hm => by
    have C := C93_from_construction hn hi ht hw (P m hm) (d0 m hm).1 (d0 m hm).2.1 (hβ m hm) (d0 m hm).2.2
    exact ⟨C.1 (hc m hm).1 (fun t ht => (hU m hm t ht).1) t, C.2 (hc m hm).2 (fun t ht => (hU m hm t ht).2) t⟩
  refine ⟨fun t => ?_, fun N => C94_sum R hp _ _ hq' hS N, C94_gradients R hp _ _ hq hS hf⟩
  have d := C94_descent R hp _ _ hq' t (hS (t + 1))
  have := drops_nonneg (fun m => (h m).lr / (2 * max 1 (3 * (B m + (h m).damping)) ^ 2)) (layers := w.opt.layers)
    (fun m hm => div_nonneg (hq' m hm).2.2.1 (by positivity)) fun m => g (w.rounds ops attr t).data m
  linarith

end

namespace Sample

/-- `kfac_like`, momentum `μ`, no factor momentum, an update at every step, `lr = ν`, `lr_cov = c`, weight decay `δ`, damping 1 -/
noncomputable def softArgs (μ ν c δ : ℝ) : Args ℝ :=
  { gargs with lr := .float ν, lrCov := .num (.float c), momentum := .float μ, weightDecay := .float δ, alpha1 := .float 0, kfacLike := true, T := 1 }

/-- the gradient of half the squared weights, inputs 1, output gradient 1 -/
noncomputable def softOps (v : World ℝ) (t : ℕ) : List (Op ℝ) := [.setGrad 0 (some (v.data 0)), .forward 0 (flatRow 2 1) true, .backward t (grow 1)]

theorem soft_init {μ ν c δ : ℝ} (μ0 : 0 ≤ μ) (ν0 : 0 ≤ ν) (c0 : 0 ≤ c) (δ0 : 0 ≤ δ) : ∃ (o : Opt ℝ) (ws : List Warn), Construct.init supportedStructures (wideModel 2) .default (softArgs μ ν c δ) = .ok (o, ws) ∧
    o.layers = [lw 2] ∧ o.hyperOf (lw 2) = .ok (defaults (softArgs μ ν c δ)) ∧ Trainable o (wideData 2) := by
  have hga : (groupArgs (wideModel 2).layers true (.default : ParamArg ℝ)).1 = [⟨[⟨0, true⟩], id⟩] := rfl
  let gs : List (PGroup ℝ) := [⟨[0], defaults (softArgs μ ν c δ)⟩]
  have hgs : gs = (groupArgs (wideModel 2).layers true (.default : ParamArg ℝ)).1.map fun g =>
      ⟨g.params.map (·.ptr), checked (g.entries (defaults (softArgs μ ν c δ)))⟩ := by
    rw [hga]; simp [gs, checked, defaults, softArgs, PyNum.val]
  have hhk : hooked (wideModel 2).layers gs = [lw 2] := rfl
  have ex : ∃ (o : Opt ℝ) (ws : List Warn), Construct.init supportedStructures (wideModel 2) .default (softArgs μ ν c δ) = .ok (o, ws) := by
    refine init_exists rfl ?_ ?_ ?_ ?_ gs hgs rfl ?_
    · norm_num [validate, softArgs, gargs, PyNum.rejected, PyRate.rejected, μ0.not_gt, ν0.not_gt, c0.not_gt, δ0.not_gt]
    · show (groupArgs (wideModel 2).layers true (.default : ParamArg ℝ)).1 ≠ []
      rw [hga]; simp
    · show GroupsDisjoint (groupArgs (wideModel 2).layers true (.default : ParamArg ℝ)).1
      rw [hga]; simp [GroupsDisjoint]
    · show ∀ g ∈ (groupArgs (wideModel 2).layers true (.default : ParamArg ℝ)).1, _
      rw [hga]
      intro g hg
      obtain rfl := List.mem_singleton.1 hg
      exact ⟨Or.inl rfl, Or.inr (Or.inl rfl)⟩
    · rw [hhk]
      intro m hm
      obtain rfl := List.mem_singleton.1 hm
      exact ⟨0, ⟨[0], defaults (softArgs μ ν c δ)⟩, .dense, .diagonal, rfl, rfl, rfl, rfl, (supportedStructures_good (s := "dense") rfl two_pos).1,
        (supportedStructures_good (s := "diagonal") rfl one_pos).1⟩
  obtain ⟨o, ws, h⟩ := ex
  have I := init_ok (model := wideModel 2) (List.nodup_singleton "w") h
  have hg : o.groups = gs := by rw [I.groups_eq]; exact hgs.symm
  have hl : o.layers = [lw 2] := by rw [I.layers, hg]; rfl
  have hh : o.hyperOf (lw 2) = .ok (defaults (softArgs μ ν c δ)) := by
    unfold Opt.hyperOf
    rw [I.ptrGroup, hg]; rfl
  refine ⟨o, ws, h, hl, hh, ?_⟩
  have hall : ∀ P : Layer → Prop, (∀ m ∈ o.layers, P m) ↔ P (lw 2) := fun P => by rw [hl]; simp
  refine ⟨?_, ?_, ?_, ?_, ?_, ?_, ?_⟩
  · rw [hl]; exact List.pairwise_singleton _ _
  · rw [hall]; exact two_pos
  · rw [hall]; exact one_pos
  · rw [hall]; exact ⟨rfl, rfl⟩
  · rw [hall]; rintro b hb; cases hb
  · intro m hm hy cK cC e1 e2 e3
    rw [I.structs] at e2 e3
    rw [hl] at hm
    obtain rfl := List.mem_singleton.1 hm
    have a1 := supportedStructures_good e2 (n := (lw 2).nK) two_pos
    have a2 := supportedStructures_good e3 (n := (lw 2).nC) one_pos
    exact ⟨a1.1, a1.2, a2.1, a2.2⟩
  · rw [hall]
    intro hy e
    rw [hh] at e
    cases e
    exact one_ne_zero

/-- the state between rounds -/
structure SoftInv (μ ν c δ : ℝ) (cl : String → Cls × Cls) (t : ℕ) (v : World ℝ) : Prop where
  live : v.Live cl
  layers : v.opt.layers = [lw 2]
  hyper : v.opt.hyperOf (lw 2) = .ok (defaults (softArgs μ ν c δ))
  hooks : v.hooks.length = t
  scales : ∀ i : ℤ, v.opt.steps ≤ i → v.opt.scales i = none
  steps : v.opt.steps = t

theorem soft_quiet {v : World ℝ} {t : ℕ} : ∀ op ∈ softOps v t, op.Quiet := by
  intro op hop
  simp only [softOps, List.mem_cons, List.not_mem_nil, or_false] at hop
  rcases hop with rfl | rfl | rfl <;> trivial

theorem soft_round {μ ν c δ : ℝ} {cl : String → Cls × Cls} {t : ℕ} {v : World ℝ} (J : SoftInv μ ν c δ cl t v) :
    FitsRun v (softOps v t ++ [.step false none false]) ∧ SoftInv μ ν c δ cl (t + 1) (run (softOps v t ++ [.step false none false]) v) ∧
      fired "w" (softOps v t) v = [(flatRow 2 1, grow 1)] ∧ (run (softOps v t) v).curScale none = 1 ∧
      gradM (run (softOps v t) v) (lw 2) = paramM v.data (lw 2) := by
  have mw : lw 2 ∈ v.opt.layers := by rw [J.layers]; simp
  have e0 : v.opt.layers[0]? = some (lw 2) := by rw [J.layers]; rfl
  let v0 : World ℝ := { v with grad := Function.update v.grad 0 (some (v.data 0)) }
  have x0 : exec (.setGrad 0 (some (v.data 0))) v = (.ok (), v0) := rfl
  have f0 : FitsOp v (.setGrad 0 (some (v.data 0))) := trivial
  obtain ⟨_, y0, l0⟩ := J.live.exec f0
  rw [x0] at y0; cases y0
  let v1 : World ℝ := { v0 with hooks := v.hooks ++ [(lw 2, flatRow 2 1)] }
  have x1 : exec (.forward 0 (flatRow 2 1) true) v0 = (.ok (), v1) := forward_on _ (w := v0) e0 J.hyper (show (1 : ℕ) ≠ 0 by decide) (Nat.mod_one _)
  have f1 : FitsOp v0 (.forward 0 (flatRow 2 1) true) := by
    intro m hm hy _
    rw [show v0.opt.layers[0]? = some (lw 2) from e0] at hm; cases hm
    exact ⟨1, [], rfl, by decide⟩
  obtain ⟨_, y1, l1⟩ := l0.exec f1
  rw [x1] at y1; cases y1
  have k1 : v1.hooks[t]? = some (lw 2, flatRow 2 1) := by
    show (v.hooks ++ [(lw 2, flatRow 2 1)])[t]? = _
    rw [List.getElem?_append_right (by rw [J.hooks])]; simp [J.hooks]
  have f2 : FitsOp v1 (.backward t (grow 1)) := by
    intro mx hmx; rw [k1] at hmx; cases hmx; exact ⟨1, [], rfl, by decide⟩
  obtain ⟨v2, y2, l2⟩ := l1.exec f2
  obtain ⟨_, _, _, _, _, _, b2⟩ := l1.back k1 f2
  rw [y2] at b2
  have fr := b2.frame
  have er : run (softOps v t) v = v2 := by
    show (exec _ (exec _ (exec _ v).2).2).2 = _
    rw [x0, x1, y2]
  have p1 : FitsRun v (softOps v t) := ⟨f0, by rw [x0]; exact ⟨f1, by rw [x1]; exact ⟨f2, trivial⟩⟩⟩
  have pf : fired "w" (softOps v t) v = [(flatRow 2 1, grow 1)] := by
    simp only [fired, softOps, firedOp, x0, x1, k1, List.nil_append, Option.toList_some]
    rfl
  have W := J.live.window p1 soft_quiet
  rw [er] at W
  have st : v2.opt.HKs (lw 2).name ≠ none ∧ v2.opt.HCs (lw 2).name ≠ none := by
    obtain ⟨p, hp⟩ := J.live.prev
    have S := W.stats _ mw _ p J.hyper hp
    have : fired (lw 2).name (softOps v t) v ≠ [] := by rw [show fired (lw 2).name (softOps v t) v = _ from pf]; simp
    exact ⟨fun e => this (S.HK0.1 e).2, fun e => this (S.HC0.1 e).2⟩
  have g2 : v2.grad 0 = some (v.data 0) := by
    rw [fr.grad]
    show Function.update v.grad 0 (some (v.data 0)) 0 = _
    rw [Function.update_self]
  have sh := (J.live.sound.shape _ mw).weight.data
  have F : FitsOp v2 (.step false none false) := by
    refine ⟨rfl, by simp, fun _ m hm => ?_⟩
    have hm' := hm
    rw [W.layers, J.layers] at hm'
    obtain rfl := List.mem_singleton.1 hm'
    refine ⟨⟨⟨v.data 0, g2, sh⟩, by rintro b hb; cases hb⟩, fun h e _ => ⟨st.1, st.2, W.live.mom _ hm h e⟩⟩
  obtain ⟨v', e, sp, lv⟩ := World.Live.step W.live F
  have er' : run (softOps v t ++ [.step false none false]) v = v' := by rw [run_append, er, run_cons, e]; rfl
  have es : v2.opt.steps = t := W.steps.trans J.steps
  have esc : v2.opt.scales = v.opt.scales := by rw [fr.scales]
  refine ⟨along_append.2 ⟨p1, by rw [er]; exact ⟨F, trivial⟩⟩, ?_, pf, ?_, ?_⟩
  · rw [er']
    refine ⟨lv, sp.layers.trans (W.layers.trans J.layers), ?_, ?_, fun i hi => ?_, by rw [sp.steps, es]⟩
    · have e1 : v'.opt.hyperOf (lw 2) = v2.opt.hyperOf (lw 2) := by unfold Opt.hyperOf; rw [sp.ptrGroup, sp.groups]
      rw [e1, W.hyperOf]; exact J.hyper
    · rw [sp.hooks, fr.hooks]; simp [v1, J.hooks]
    · rw [sp.steps, es] at hi
      push_cast at hi
      rw [sp.scales, es, if_neg (by omega), if_neg (by omega), esc]
      exact J.scales i (by rw [J.steps]; omega)
  · rw [er, World.curScale, es, esc, J.scales _ (by rw [J.steps])]; rfl
  · rw [er]
    funext i j
    have hj : j.1 < (lw 2).din := j.2
    simp only [gradM, paramM]
    rw [if_pos hj, if_pos hj, show (lw 2).weight.ptr = 0 from rfl, g2]
    rfl

/-- the worlds between rounds -/
noncomputable def softWorld (w : World ℝ) : ℕ → World ℝ
  | 0 => w
  | t + 1 => run (softOps (softWorld w t) t ++ [.step false none false]) (softWorld w t)

theorem soft_rounds (w : World ℝ) : ∀ t, w.rounds (fun t => softOps (softWorld w t) t) (fun _ => none) t = softWorld w t
  | 0 => by rw [World.rounds, softWorld]
  | t + 1 => by rw [World.rounds, soft_rounds w t, softWorld]

theorem soft_inv {μ ν c δ : ℝ} {cl : String → Cls × Cls} {w : World ℝ} (J : SoftInv μ ν c δ cl 0 w) : ∀ t, SoftInv μ ν c δ cl t (softWorld w t)
  | 0 => by rw [softWorld]; exact J
  | t + 1 => by rw [softWorld]; exact (soft_round (soft_inv J t)).2.1

/-- half the squared weights -/
noncomputable def softLoss (θ : ℕ → Mat ℝ) : ℝ := 1 / 2 * sumSq (paramM θ (lw 2))

theorem soft_smooth : Smooth [lw 2] softLoss paramM 1 := by
  intro θ θ' _ _
  simp only [List.map_cons, List.map_nil, List.sum_cons, List.sum_nil, add_zero, softLoss]
  refine le_of_eq ?_
  simp only [sumSq, inner', Finset.mul_sum, ← Finset.sum_add_distrib]
  refine Finset.sum_congr rfl fun i _ => Finset.sum_congr rfl fun j _ => ?_
  rw [Matrix.sub_apply]; ring

open IOSpec IOProof PIO in
theorem soft_trace (μ ν c δ : ℝ) : (inputMoment (defaults (softArgs μ ν c δ)) (lw 2) (flatRow 2 1)).trace ≤ 2 ∧ (gradMoment (defaults (softArgs μ ν c δ)) (lw 2) (grow 1)).trace ≤ 2 := by
  constructor
  · have e : inputMoment (defaults (softArgs μ ν c δ)) (lw 2) (flatRow 2 1) = inputMoment (defaults (wideArgs 1 1)) (lw 2) (flatRow 2 1) := rfl
    rw [e]
    show ∑ i : Fin 2, inputMoment (defaults (wideArgs 1 1)) (lw 2) (flatRow 2 1) i i ≤ 2
    rw [Fin.sum_univ_two, flat_moment, flat_moment]
    norm_num
  · obtain ⟨X, e, hr, hc, hX⟩ := (C21_linear_grad (grow 1 : ND ℝ) (grow 1) (b := 1) (d := 1) (sh := []) rfl rfl (la := some "batch")
      (Or.inr (Or.inl rfl)) (by decide) (by
        intro k hk
        have : (numTerms (some "batch") 1 ([] : List ℕ).prod : ℝ) = 1 := by norm_num [numTerms]
        rw [this, div_one])).1
    have e' : gradMoment (defaults (softArgs μ ν c δ)) (lw 2) (grow 1) = secMom X (lw 2).nC := by
      unfold gradMoment
      show (match processGradOutput (grow 1 : ND ℝ) .linear (some "batch") "expand" with | .ok a => secMom a (lw 2).nC | .error _ => 0) = _
      rw [e]
    rw [e']
    show ∑ i : Fin 1, secMom X 1 i i ≤ _
    rw [Fin.sum_univ_one]
    simp only [secMom]
    have := hX 0 one_pos 0 one_pos
    simp only [Fin.val_zero, this]
    norm_num [Finset.sum_range_succ, sumIdx, multiIdx, entry, ravel, numTerms, grow]

/-- a training as C93 and C95 ask -/
theorem soft_any {μ ν c δ : ℝ} (μ0 : 0 ≤ μ) (ν0 : 0 ≤ ν) (c0 : 0 ≤ c) (δ0 : 0 ≤ δ) : ∃ (o : Opt ℝ) (ws : List Warn) (cl : String → Cls × Cls) (w : World ℝ) (ops : ℕ → List (Op ℝ)),
    Construct.init supportedStructures (wideModel 2) .default (softArgs μ ν c δ) = .ok (o, ws) ∧ Trainable o (wideData 2) ∧ w = ⟨o, wideData 2, fun _ => none, []⟩ ∧
    w.opt.layers = [lw 2] ∧ Passes cl (lw 2) (defaults (softArgs μ ν c δ)) ops (fun _ => none) w ∧ (∀ m ∈ w.opt.layers, w.opt.hyperOf m = .ok (defaults (softArgs μ ν c δ))) ∧ Smooth w.opt.layers softLoss paramM 1 ∧
    (∀ t, ∀ m ∈ w.opt.layers, gradM (run (ops t) (w.rounds ops (fun _ => none) t)) m = (run (ops t) (w.rounds ops (fun _ => none) t)).curScale none • paramM (w.rounds ops (fun _ => none) t).data m) ∧
    cl "w" = (.dense, .diagonal) ∧
    ∀ t, QuadLe ((fired "w" (ops t) (w.rounds ops (fun _ => none) t)).map fun e => inputMoment (defaults (softArgs μ ν c δ)) (lw 2) e.1).sum 2 ∧
      QuadLe ((1 / (run (ops t) (w.rounds ops (fun _ => none) t)).curScale none ^ 2) •
        ((fired "w" (ops t) (w.rounds ops (fun _ => none) t)).map fun e => gradMoment (defaults (softArgs μ ν c δ)) (lw 2) e.2).sum) 2 := by
  obtain ⟨o, ws, hi, hl, hh, ht⟩ := soft_init μ0 ν0 c0 δ0
  have I := init_ok (model := wideModel 2) (List.nodup_singleton "w") hi
  obtain ⟨cl, hcl, lv⟩ := I.live (grad := fun _ => none) ht one_pos
  have mw : lw 2 ∈ o.layers := by rw [hl]; simp
  have J : SoftInv μ ν c δ cl 0 ⟨o, wideData 2, fun _ => none, []⟩ := ⟨lv, hl, hh, rfl, fun i hi => by
    show o.scales i = none
    rw [I.scales]
    rw [show (⟨o, wideData 2, fun _ => none, []⟩ : World ℝ).opt.steps = 0 from I.steps] at hi
    have : i ≠ -1 := fun e => by rw [e] at hi; simp at hi
    simp [Dict.set, this], I.steps⟩
  have JJ := soft_inv J
  have RR := fun t => soft_round (JJ t)
  have hr := soft_rounds ⟨o, wideData 2, fun _ => none, []⟩
  have hcw : cl "w" = (.dense, .diagonal) := by
    obtain ⟨hy, e1, e2, e3⟩ := hcl _ mw
    rw [show (⟨o, wideData 2, fun _ => none, []⟩ : World ℝ).opt.hyperOf (lw 2) = _ from hh] at e1
    cases e1
    have e2' : supportedStructures "dense" = some (cl (lw 2).name).1 := e2
    have e3' : supportedStructures "diagonal" = some (cl (lw 2).name).2 := e3
    exact Prod.ext (Option.some.inj e2').symm (Option.some.inj e3').symm
  refine ⟨o, ws, cl, _, fun t => softOps (softWorld ⟨o, wideData 2, fun _ => none, []⟩ t) t, hi, ht, rfl, hl,
    ⟨lv, fun t => by rw [hr]; exact (RR t).1, fun t => soft_quiet, mw, hh, ⟨by show o.HKs _ = _; rw [I.HKs], by show o.HCs _ = _; rw [I.HCs]⟩, rfl, rfl,
      fun t ht => absurd (Nat.mod_one _) ht⟩,
    fun m hm => ?_, ?_, fun t m hm => ?_, hcw, fun t => ?_⟩
  · rw [show (⟨o, wideData 2, fun _ => none, []⟩ : World ℝ).opt.layers = _ from hl] at hm
    obtain rfl := List.mem_singleton.1 hm
    exact hh
  · rw [show (⟨o, wideData 2, fun _ => none, []⟩ : World ℝ).opt.layers = _ from hl]; exact soft_smooth
  · rw [show (⟨o, wideData 2, fun _ => none, []⟩ : World ℝ).opt.layers = _ from hl] at hm
    obtain rfl := List.mem_singleton.1 hm
    rw [hr, (RR t).2.2.2.1, (RR t).2.2.2.2, one_smul]
  · rw [hr, (RR t).2.2.1, (RR t).2.2.2.1]
    simp only [List.map_cons, List.map_nil, List.sum_cons, List.sum_nil, add_zero]
    constructor
    · intro x
      rw [dot_self]
      exact (Band.le_trace (inputMoment_psd _ _ _) x).trans (mul_le_mul_of_nonneg_right (soft_trace μ ν c δ).1 (Band.sq_nonneg x))
    · intro x
      rw [dot_self]
      norm_num
      exact (Band.le_trace (gradMoment_psd _ _ _) x).trans (mul_le_mul_of_nonneg_right (soft_trace μ ν c δ).2 (Band.sq_nonneg x))

/-- a training as C93 and C94 ask -/
theorem soft : ∃ (o : Opt ℝ) (ws : List Warn) (cl : String → Cls × Cls) (w : World ℝ) (ops : ℕ → List (Op ℝ)),
    Construct.init supportedStructures (wideModel 2) .default (softArgs 0 (1 / 4) (1 / 10) 0) = .ok (o, ws) ∧ Trainable o (wideData 2) ∧ w = ⟨o, wideData 2, fun _ => none, []⟩ ∧
    w.opt.layers = [lw 2] ∧ Passes cl (lw 2) (defaults (softArgs 0 (1 / 4) (1 / 10) 0)) ops (fun _ => none) w ∧ Descends cl (fun _ => defaults (softArgs 0 (1 / 4) (1 / 10) 0)) ops (fun _ => none) w softLoss paramM 1 ∧
    cl "w" = (.dense, .diagonal) ∧
    ∀ t, QuadLe ((fired "w" (ops t) (w.rounds ops (fun _ => none) t)).map fun e => inputMoment (defaults (softArgs 0 (1 / 4) (1 / 10) 0)) (lw 2) e.1).sum 2 ∧
      QuadLe ((1 / (run (ops t) (w.rounds ops (fun _ => none) t)).curScale none ^ 2) •
        ((fired "w" (ops t) (w.rounds ops (fun _ => none) t)).map fun e => gradMoment (defaults (softArgs 0 (1 / 4) (1 / 10) 0)) (lw 2) e.2).sum) 2 := by
  obtain ⟨o, ws, cl, w, ops, hi, ht, hw, hl, P, hh, sm, gr, hc, hU⟩ := soft_any (μ := 0) (ν := 1 / 4) (c := 1 / 10) (δ := 0) le_rfl (by norm_num) (by norm_num) le_rfl
  exact ⟨o, ws, cl, w, ops, hi, ht, hw, hl, P, ⟨P.live, P.fits, P.quiet, hh, sm, fun t m hm => by rw [add_zero]; exact gr t m hm, fun m _ => rfl, fun m _ => rfl⟩, hc, hU⟩

end Sample

/-- The hypotheses of `C93_band` and `C93_from_construction` are met by the sample training, with `B = 2` and `lr_cov = 1/10`, for both factors. -/
example : ∃ (o : Opt ℝ) (ws : List Warn) (cl : String → Cls × Cls) (w : World ℝ) (ops : ℕ → List (Op ℝ)) (m : Layer) (h : Hyper ℝ),
    Construct.init supportedStructures (Sample.wideModel 2) .default (Sample.softArgs 0 (1 / 4) (1 / 10) 0) = .ok (o, ws) ∧ ((Sample.wideModel 2).layers.map (·.name)).Nodup ∧
    Trainable o (Sample.wideData 2) ∧ w = ⟨o, Sample.wideData 2, fun _ => none, []⟩ ∧ Passes cl m h ops (fun _ => none) w ∧ 0 < h.damping ∧
    (∀ t, 0 ≤ h.lrCov.at t ∧ h.lrCov.at t ≤ 1 / 10) ∧ (1 / 10 : ℝ) * (2 + h.damping) ≤ min 1 (h.damping / 2) ∧
    Suits (min 1 (h.damping / 2)) (max 1 (3 * (2 + h.damping))) (1 / 2) h.damping 2 (1 / 10) ∧
    (cl m.name).1 = .dense ∧ (cl m.name).2 = .diagonal ∧
    ∀ t, QuadLe ((fired m.name (ops t) (w.rounds ops (fun _ => none) t)).map fun e => inputMoment h m e.1).sum 2 ∧
      QuadLe ((1 / (run (ops t) (w.rounds ops (fun _ => none) t)).curScale none ^ 2) •
        ((fired m.name (ops t) (w.rounds ops (fun _ => none) t)).map fun e => gradMoment h m e.2).sum) 2 := by
  obtain ⟨o, ws, cl, w, ops, hi, ht, hw, hl, P, D, hc, hU⟩ := Sample.soft
  have hd : (defaults (Sample.softArgs 0 (1 / 4) (1 / 10) 0) : Hyper ℝ).damping = 1 := rfl
  have hb : (1 / 10 : ℝ) * (2 + (defaults (Sample.softArgs 0 (1 / 4) (1 / 10) 0) : Hyper ℝ).damping) ≤ min 1 ((defaults (Sample.softArgs 0 (1 / 4) (1 / 10) 0) : Hyper ℝ).damping / 2) := by rw [hd]; norm_num
  refine ⟨o, ws, cl, w, ops, _, _, hi, by decide, ht, hw, P, by rw [hd]; norm_num, fun t => ?_, hb,
    Suits.standard (by rw [hd]; norm_num) (by norm_num) (by norm_num) hb, congrArg Prod.fst hc, congrArg Prod.snd hc, hU⟩
  show 0 ≤ (1 / 10 : ℝ) ∧ (1 / 10 : ℝ) ≤ 1 / 10
  norm_num

/-- The sample training meets the hypotheses of `C94_from_construction`; so its loss, half the squared weights, decreases, and the weights tend to zero. -/
theorem Sample.soft_tends : ∃ (w : World ℝ) (ops : ℕ → List (Op ℝ)), paramM w.data (Sample.lw 2) ⟨0, by decide⟩ ⟨0, by decide⟩ = 1 ∧
    (∀ t, Sample.softLoss (w.rounds ops (fun _ => none) (t + 1)).data ≤ Sample.softLoss (w.rounds ops (fun _ => none) t).data) ∧
    ∀ i j, Tendsto (fun t => paramM (w.rounds ops (fun _ => none) t).data (Sample.lw 2) i j) atTop (𝓝 0) := by
  obtain ⟨o, ws, cl, w, ops, hi, ht, hw, hl, P, D, hc, hU⟩ := Sample.soft
  have all : ∀ {Q : Layer → Prop}, Q (Sample.lw 2) → ∀ m ∈ w.opt.layers, Q m := by
    intro Q hQ m hm
    rw [hl] at hm
    obtain rfl := List.mem_singleton.1 hm
    exact hQ
  have hd : (defaults (Sample.softArgs 0 (1 / 4) (1 / 10) 0) : Hyper ℝ).damping = 1 := rfl
  have hlr : (defaults (Sample.softArgs 0 (1 / 4) (1 / 10) 0) : Hyper ℝ).lr = 1 / 4 := rfl
  have T := C94_from_construction (model := Sample.wideModel 2) (List.nodup_singleton "w") hi ht hw D (all P)
    (all ⟨Or.inl (congrArg Prod.fst hc), Or.inr (congrArg Prod.snd hc)⟩) (fun _ => 2) (fun _ => 1 / 10) (all ⟨by rw [hd]; norm_num, by norm_num, by rw [hd]; norm_num⟩)
    (all fun t => by show 0 ≤ (1 / 10 : ℝ) ∧ (1 / 10 : ℝ) ≤ 1 / 10; norm_num) (all fun t _ => hU t) (all ⟨by rw [hlr]; norm_num, by rw [hlr, hd]; norm_num⟩) (fs := 0)
    (fun t => mul_nonneg (by norm_num) (Band.fro_nonneg _))
  refine ⟨w, ops, ?_, T.1, T.2.2 _ (by rw [hl]; simp)⟩
  rw [hw]; rfl

/-- The sample training meets the hypotheses of `C94_descent`, `C94_sum`, `C94_gradients` and `C94_linear_rate`: its loss shrinks at a linear rate. -/
example : ∃ (w : World ℝ) (ops : ℕ → List (Op ℝ)), Sample.softLoss w.data = 1 ∧ ∀ t, Sample.softLoss (w.rounds ops (fun _ => none) t).data ≤ (1 - 1 / 324) ^ t := by
  obtain ⟨o, ws, cl, w, ops, hi, ht, hw, hl, P, D, hc, hU⟩ := Sample.soft
  have all : ∀ {Q : Layer → Prop}, Q (Sample.lw 2) → ∀ m ∈ w.opt.layers, Q m := by
    intro Q hQ m hm
    rw [hl] at hm
    obtain rfl := List.mem_singleton.1 hm
    exact hQ
  have hd : (defaults (Sample.softArgs 0 (1 / 4) (1 / 10) 0) : Hyper ℝ).damping = 1 := rfl
  have hlr : (defaults (Sample.softArgs 0 (1 / 4) (1 / 10) 0) : Hyper ℝ).lr = 1 / 4 := rfl
  have S := C93_from_construction (model := Sample.wideModel 2) (List.nodup_singleton "w") hi ht hw P (B := 2) (β := 1 / 10) (by rw [hd]; norm_num) (by norm_num)
    (fun t => by show 0 ≤ (1 / 10 : ℝ) ∧ (1 / 10 : ℝ) ≤ 1 / 10; norm_num) (by rw [hd]; norm_num)
  rw [hd, show min 1 ((1 : ℝ) / 2) = 1 / 2 by norm_num, show max 1 (3 * (2 + (1 : ℝ))) = 9 by norm_num] at S
  have l0 : Sample.softLoss w.data = 1 := by
    rw [hw]
    show 1 / 2 * ∑ i : Fin 1, ∑ j : Fin 2, paramM (Sample.wideData 2) (Sample.lw 2) i j ^ 2 = 1
    rw [Fin.sum_univ_one, Fin.sum_univ_two]
    have : ∀ j : Fin 2, paramM (Sample.wideData 2) (Sample.lw 2) (0 : Fin 1) j = 1 := fun j => by
      refine (if_pos (show j.1 < (Sample.lw 2).din from j.2)).trans ?_
      exact if_pos (c := 0 < 1 ∧ j.1 < 2) ⟨one_pos, j.2⟩
    rw [this, this]; norm_num
  have := C94_linear_rate D (all ⟨fun k => by rw [show cl (Sample.lw 2).name = _ from hc]; simp, fun k => by rw [show cl (Sample.lw 2).name = _ from hc]; simp⟩)
    (fun _ => 1 / 2) (fun _ => 9) (all ⟨by norm_num, by norm_num, by rw [hlr]; norm_num, by rw [hlr]; norm_num⟩)
    (fun t => all ⟨S.1 (Or.inl (congrArg Prod.fst hc)) (fun t _ => (hU t).1) t, S.2 (Or.inr (congrArg Prod.snd hc)) (fun t _ => (hU t).2) t⟩)
    (fs := 0) (μ := 1) (ρ := 1 / 324) (by norm_num) (all (by rw [hlr]; norm_num)) (by norm_num) (fun t => ?_)
  · refine ⟨w, ops, l0, fun t => ?_⟩
    have := this t
    rw [l0, sub_zero, sub_zero, mul_one, mul_one] at this
    exact this
  · rw [hl]
    simp only [List.map_cons, List.map_nil, List.sum_cons, List.sum_nil, add_zero, Sample.softLoss]
    refine le_of_eq ?_
    ring

/-- The gradient of half the squared weights is that of half the squared distance of the weights from 1, with error 1: the sample training also meets the hypotheses of
`C94_noise` and `C94_sum_noise` with errors that do not vanish. -/
example : ∃ (w : World ℝ) (ops : ℕ → List (Op ℝ)) (cl : String → Cls × Cls) (h : Layer → Hyper ℝ) (ξ : ℕ → (m : Layer) → Matrix (Fin m.nC) (Fin m.nK) ℝ),
    Noisy cl h ops (fun _ => none) w (fun θ => 1 / 2 * sumSq (paramM θ (Sample.lw 2) - ξ 0 _)) (fun θ m => paramM θ m - ξ 0 m) ξ 1 ∧
    (∀ t, sumSq (ξ t (Sample.lw 2)) = 2) ∧ w.opt.layers = [Sample.lw 2] := by
  obtain ⟨o, ws, cl, w, ops, hi, ht, hw, hl, P, D, hc, hU⟩ := Sample.soft
  obtain ⟨E, hE⟩ : ∃ E : (m : Layer) → Matrix (Fin m.nC) (Fin m.nK) ℝ, ∀ m i j, E m i j = 1 := ⟨fun m i j => 1, fun _ _ _ => rfl⟩
  refine ⟨w, ops, cl, _, fun _ m => E m, ⟨D.live, D.fits, D.quiet, D.hyper, ?_, fun t m hm => ?_, D.momentum, D.decay⟩, fun t => ?_, hl⟩
  · rw [hl]
    intro θ θ' _ _
    simp only [List.map_cons, List.map_nil, List.sum_cons, List.sum_nil, add_zero]
    refine le_of_eq ?_
    simp only [sumSq, inner', Finset.mul_sum, ← Finset.sum_add_distrib]
    refine Finset.sum_congr rfl fun i _ => Finset.sum_congr rfl fun j _ => ?_
    rw [Matrix.sub_apply, Matrix.sub_apply, Matrix.sub_apply]; ring
  · rw [D.grads t m hm, add_zero, sub_add_cancel]
  · simp only [sumSq, hE]
    show ∑ i : Fin 1, ∑ j : Fin 2, (1 : ℝ) ^ 2 = 2
    norm_num

/-- **C94 (the threshold is sharp).** For every learning rate `ν` there is a training as in `C94_threshold_gradients` with the 1-smooth loss half the squared weights, `lr = ν` and identity factors
(bounds `q = κ = 1`) at all times, in which the weights are multiplied by `1 - ν` in every round: for `ν > 2` the loss tends to infinity, although the update is the documented one;
for `0 < ν < 2` it tends to zero. -/
theorem C94_threshold_sharp {ν : ℝ} (ν0 : 0 ≤ ν) : ∃ (cl : String → Cls × Cls) (h : Layer → Hyper ℝ) (w : World ℝ) (ops : ℕ → List (Op ℝ)) (f : (ℕ → Mat ℝ) → ℝ),
    Descends cl h ops (fun _ => none) w f paramM 1 ∧ Bounded (fun _ => 1) (fun _ => 1) ops (fun _ => none) w ∧ w.opt.layers ≠ [] ∧ (∀ m ∈ w.opt.layers, (h m).lr = ν) ∧ (∀ θ, 0 ≤ f θ) ∧
    (∀ t, f (w.rounds ops (fun _ => none) t).data = (1 - ν) ^ (2 * t)) ∧ (2 < ν → Tendsto (fun t => f (w.rounds ops (fun _ => none) t).data) atTop atTop) ∧
    (0 < ν → ν < 2 → Tendsto (fun t => f (w.rounds ops (fun _ => none) t).data) atTop (𝓝 0)) := by
  obtain ⟨o, ws, cl, w, ops, hi, ht, hw, hl, P, hh, sm, gr, hc, hU⟩ := Sample.soft_any (μ := 0) (c := 0) (δ := 0) le_rfl ν0 le_rfl le_rfl
  have all : ∀ {Q : Layer → Prop}, Q (Sample.lw 2) → ∀ m ∈ w.opt.layers, Q m := by
    intro Q hQ m hm
    rw [hl] at hm
    obtain rfl := List.mem_singleton.1 hm
    exact hQ
  have D : Descends cl (fun _ => defaults (Sample.softArgs 0 ν 0 0)) ops (fun _ => none) w Sample.softLoss paramM 1 :=
    ⟨P.live, P.fits, P.quiet, hh, sm, fun t m hm => by rw [add_zero]; exact gr t m hm, fun m _ => rfl, fun m _ => rfl⟩
  obtain ⟨i1, i2⟩ := (init_ok (model := Sample.wideModel 2) (List.nodup_singleton "w") hi).identity ht (m := Sample.lw 2) (by have := P.mem; rw [hw] at this; exact this)
  have rate : ∀ {t n : ℕ} {M : Matrix (Fin n) (Fin n) ℝ} {b : ℝ}, IsRate (defaults (Sample.softArgs 0 ν 0 0)) t M b → b = 0 := fun H => by
    have r := H.range (show (0 : ℝ) ≤ (0 : ℝ) from le_rfl)
    exact le_antisymm r.2 r.1
  have id : ∀ t, denO ((w.rounds ops (fun _ => none) t).opt.Ks (Sample.lw 2).name) (Sample.lw 2).nK = 1 ∧ denO ((w.rounds ops (fun _ => none) t).opt.Cs (Sample.lw 2).name) (Sample.lw 2).nC = 1 := by
    intro t
    induction t with
    | zero => rw [World.rounds, hw]; exact ⟨i1, i2⟩
    | succ t ih =>
      have U := (P.round (P.between t)).2.2 (Nat.mod_one _)
      obtain ⟨b, e1, e2⟩ := U.1 (Or.inl (congrArg Prod.fst hc)) _ _ rfl rfl
      obtain ⟨b', e1', e2'⟩ := U.2 (Or.inr (congrArg Prod.snd hc)) _ _ rfl rfl
      rw [rate e1] at e2
      rw [rate e1'] at e2'
      refine ⟨e2.trans ?_, e2'.trans ?_⟩
      · rw [nextFactor, zero_div, zero_smul, sub_zero, Matrix.mul_one]; exact ih.1
      · rw [nextFactor, zero_div, zero_smul, sub_zero, Matrix.mul_one]; exact ih.2
  have hp : ∀ m ∈ w.opt.layers, (cl m.name).1.Plain ∧ (cl m.name).2.Plain :=
    all ⟨fun k => by rw [show cl (Sample.lw 2).name = _ from hc]; simp, fun k => by rw [show cl (Sample.lw 2).name = _ from hc]; simp⟩
  have step : ∀ t, paramM (w.rounds ops (fun _ => none) (t + 1)).data (Sample.lw 2) = (1 - ν) • paramM (w.rounds ops (fun _ => none) t).data (Sample.lw 2) := fun t => by
    have e := (D.round hp (D.at hp t)).2.1 (Sample.lw 2) (by rw [hl]; simp)
    rw [direction, (id (t + 1)).1, (id (t + 1)).2, transpose_one, transpose_one, Matrix.mul_one, Matrix.mul_one, Matrix.one_mul, Matrix.mul_one, add_zero, sub_eq_iff_eq_add] at e
    rw [e, show (defaults (Sample.softArgs 0 ν 0 0)).lr = ν from rfl, sub_smul, one_smul]
    abel
  have l0 : Sample.softLoss w.data = 1 := by
    rw [hw]
    show 1 / 2 * ∑ i : Fin 1, ∑ j : Fin 2, paramM (Sample.wideData 2) (Sample.lw 2) i j ^ 2 = 1
    rw [Fin.sum_univ_one, Fin.sum_univ_two]
    have : ∀ j : Fin 2, paramM (Sample.wideData 2) (Sample.lw 2) (0 : Fin 1) j = 1 := fun j => by
      refine (if_pos (show j.1 < (Sample.lw 2).din from j.2)).trans ?_
      exact if_pos (c := 0 < 1 ∧ j.1 < 2) ⟨one_pos, j.2⟩
    rw [this, this]; norm_num
  have val : ∀ t, Sample.softLoss (w.rounds ops (fun _ => none) t).data = (1 - ν) ^ (2 * t) := fun t => by
    induction t with
    | zero => rw [World.rounds, l0]; simp
    | succ t ih =>
      have : Sample.softLoss (w.rounds ops (fun _ => none) (t + 1)).data = (1 - ν) ^ 2 * Sample.softLoss (w.rounds ops (fun _ => none) t).data := by
        rw [Sample.softLoss, Sample.softLoss, step t]
        simp only [sumSq, Matrix.smul_apply, smul_eq_mul, mul_pow, Finset.mul_sum]
        refine Finset.sum_congr rfl fun i _ => Finset.sum_congr rfl fun j _ => ?_
        ring
      rw [this, ih]; ring
  refine ⟨cl, _, w, ops, Sample.softLoss, D, fun t => all ?_, by rw [hl]; simp, fun m _ => rfl, fun θ => mul_nonneg (by norm_num) (Band.fro_nonneg _), val, fun h2 => ?_, fun h1 h2 => ?_⟩
  · rw [(id t).1, (id t).2]
    exact ⟨singular_iff.2 (.one le_rfl le_rfl), singular_iff.2 (.one le_rfl le_rfl)⟩
  · simp only [val, pow_mul]
    exact tendsto_pow_atTop_atTop_of_one_lt (by nlinarith)
  · simp only [val, pow_mul]
    exact tendsto_pow_atTop_nhds_zero_of_lt_one (sq_nonneg _) (by nlinarith)
