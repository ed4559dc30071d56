import Verif.Proofs.Opt.Two

/-! Scaled output gradients have scaled second moments. -/

set_option linter.unusedSectionVars false
open Matrix PIO
variable {α : Type} [Field α]

/-- `g * s` -/
def ND.smul (g : ND α) (s : α) : ND α := ⟨g.shape, fun i => g.flat i * s⟩

theorem Mat.smul_ofFn (r c : ℕ) (f : ℕ → ℕ → α) (s : α) : (Mat.ofFn r c f).smul s = Mat.ofFn r c fun i j => f i j * s :=
  Mat.ext' rfl rfl fun i hi j hj => by
    simp only [Mat.rows_smul, Mat.cols_smul, Mat.rows_ofFn, Mat.cols_ofFn] at hi hj
    simp [Mat.get_smul, hi, hj]

theorem Mat.smul_comm' (A : Mat α) (s t : α) : (A.smul s).smul t = (A.smul t).smul s :=
  Mat.ext' rfl rfl fun i _ j _ => by simp only [Mat.get_smul]; ring

theorem mergeLeading_smul (g : ND α) (s : α) : mergeLeading (g.smul s) = (mergeLeading g).map (·.smul s) := by
  unfold mergeLeading
  show (match split3 g.shape with | none => _ | some (b, s, d) => _) = _
  rcases split3 g.shape with _ | ⟨b, k, d⟩
  · rfl
  · simp only [Except.map, Mat.smul_ofFn]; rfl

theorem sumMiddle_smul (g : ND α) (s : α) : sumMiddle (g.smul s) = (sumMiddle g).map (·.smul s) := by
  unfold sumMiddle
  show (match split3 g.shape with | none => _ | some (b, s, d) => _) = _
  rcases split3 g.shape with _ | ⟨b, k, d⟩
  · rfl
  · simp only [Except.map, Mat.smul_ofFn, Finset.sum_mul]; rfl

theorem mergeSpatial_smul (g : ND α) (s : α) : mergeSpatial (g.smul s) = (mergeSpatial g).map (·.smul s) := by
  unfold mergeSpatial
  have : shape4 (g.smul s) = shape4 g := rfl
  rw [this]
  rcases shape4 g with e | ⟨b, c, i, j⟩
  · rfl
  · simp only [Except.bind_ok', Except.pure_ok, Except.map, Mat.smul_ofFn]; rfl

theorem sumSpatial_smul (g : ND α) (s : α) : sumSpatial (g.smul s) = (sumSpatial g).map (·.smul s) := by
  unfold sumSpatial
  have : shape4 (g.smul s) = shape4 g := rfl
  rw [this]
  rcases shape4 g with e | ⟨b, c, i, j⟩
  · rfl
  · simp only [Except.bind_ok', Except.pure_ok, Except.map, Mat.smul_ofFn, Finset.sum_mul]; rfl

theorem processGradOutput_smul [HasSqrt α] (g : ND α) (s : α) (k : LayerKind) (la : Option String) (ka : String) :
    processGradOutput (g.smul s) k la ka = (processGradOutput g k la ka).map (·.smul s) := by
  unfold processGradOutput
  split
  · rfl
  split
  · rfl
  cases k with
  | other => rfl
  | linear =>
    simp only [linearProcessGrad]
    rw [show (g.smul s).shape = g.shape from rfl, mergeLeading_smul, sumMiddle_smul]
    rcases (linearScaling g.shape la : Except PyErr α) with e | t
    · rfl
    simp only [Except.bind_ok']
    split
    · rcases mergeLeading g with e | A
      · rfl
      · simp only [Except.map, Except.bind_ok', Except.pure_ok, Mat.smul_comm']
    · rcases sumMiddle g with e | A
      · rfl
      · simp only [Except.map, Except.bind_ok', Except.pure_ok, Mat.smul_comm']
  | conv2d cfg =>
    simp only [convProcessGrad]
    rw [show (g.smul s).shape = g.shape from rfl, mergeSpatial_smul, sumSpatial_smul]
    rcases (convScaling g.shape la : Except PyErr α) with e | t
    · rfl
    simp only [Except.bind_ok']
    split
    · rcases mergeSpatial g with e | A
      · rfl
      · simp only [Except.map, Except.bind_ok', Except.pure_ok, Mat.smul_comm']
    · rcases sumSpatial g with e | A
      · rfl
      · simp only [Except.map, Except.bind_ok', Except.pure_ok, Mat.smul_comm']

theorem secMom_smul' (A : Mat α) (n : ℕ) (c : α) : secMom (A.smul c) n = (c * c) • secMom A n := by
  funext i j
  simp only [secMom, Matrix.smul_apply, smul_eq_mul, Mat.rows_smul, Finset.mul_sum]
  refine Finset.sum_congr rfl fun r _ => ?_
  rw [Mat.get_smul, Mat.get_smul]
  ring

theorem gradMoment_smul [HasSqrt α] (h : Hyper α) (m : Layer) (g : ND α) (s : α) :
    gradMoment h m (g.smul s) = (s * s) • gradMoment h m g := by
  unfold gradMoment
  rw [processGradOutput_smul]
  rcases processGradOutput g m.kind h.lossAverage h.kfacApprox with e | A
  · simp [Except.map]
  · simp only [Except.map, secMom_smul']

theorem Cls.sandwich_smul (c : Cls) {n : ℕ} (A G : Matrix (Fin n) (Fin n) α) (s : α) : c.sandwich A (s • G) = s • c.sandwich A G := by
  unfold Cls.sandwich
  split <;> simp [Matrix.mul_smul, Matrix.smul_mul]

theorem Cls.sandwich_add (c : Cls) {n : ℕ} (A G G' : Matrix (Fin n) (Fin n) α) :
    c.sandwich A (G + G') = c.sandwich A G + c.sandwich A G' := by
  unfold Cls.sandwich
  split <;> simp [Matrix.mul_add, Matrix.add_mul]

/-- multiples of common gradients are multiples of each other -/
theorem gradM_scaled [LinearOrder α] {A B : World α} {m : Layer} {s t : α} (hs : s ≠ 0) (ht : t ≠ 0)
    (h : ∀ p, World.Owns m p → ∃ G : Mat α, A.grad p = some (G.smul s) ∧ B.grad p = some (G.smul t)) :
    (1 / s) • gradM A m = (1 / t) • gradM B m := by
  funext i j
  obtain ⟨G, eA, eB⟩ := h _ (Or.inl rfl)
  simp only [Matrix.smul_apply, gradM, eA, eB]
  split
  · simp only [Option.map_some, Option.getD_some, Mat.get_smul, smul_eq_mul]; field_simp
  · rcases hb : m.bias with _ | b
    · simp
    · obtain ⟨G, eA, eB⟩ := h _ (Or.inr ⟨b, hb, rfl⟩)
      simp only [Option.bind_some, eA, eB, Option.map_some, Option.getD_some, Mat.get_smul, smul_eq_mul]; field_simp
