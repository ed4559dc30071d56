import Verif.Props.Normalized
import Verif.Proofs.Band

/-! C93: the factors stay within fixed positive bounds for all bounded data. -/

set_option linter.unusedSectionVars false
open Matrix Construct

/-- `|x|²` for the two sides of a bound on the squared singular values of `K`: all of them are between `1/κ` and `1/q` -/
def Singular (q κ : ℝ) {n : ℕ} (K : Matrix (Fin n) (Fin n) ℝ) : Prop :=
  ∀ x : Fin n → ℝ, q * ∑ i, (K *ᵥ x) i ^ 2 ≤ ∑ i, x i ^ 2 ∧ ∑ i, x i ^ 2 ≤ κ * ∑ i, (K *ᵥ x) i ^ 2

/-- the quadratic form of `U` is at most `B |x|²` -/
def QuadLe {n : ℕ} (U : Matrix (Fin n) (Fin n) ℝ) (B : ℝ) : Prop := ∀ x : Fin n → ℝ, x ⬝ᵥ U *ᵥ x ≤ B * ∑ i, x i ^ 2

theorem dot_self {n : ℕ} (x : Fin n → ℝ) : ∑ i, x i ^ 2 = x ⬝ᵥ x := by
  simp only [dotProduct, sq]

theorem singular_iff {q κ : ℝ} {n : ℕ} {K : Matrix (Fin n) (Fin n) ℝ} : Singular q κ K ↔ Band.Within q κ K := by
  unfold Singular Band.Within
  simp only [dot_self]

theorem seen_quad (c : Cls) {n : ℕ} {U : Matrix (Fin n) (Fin n) ℝ} {B : ℝ} (h : QuadLe U B) (d : ℝ) (x : Fin n → ℝ) :
    x ⬝ᵥ (seen c U + d • 1) *ᵥ x ≤ (B + d) * (x ⬝ᵥ x) := by
  have e : x ⬝ᵥ (seen c U + d • 1) *ᵥ x = x ⬝ᵥ seen c U *ᵥ x + d * (x ⬝ᵥ x) := by
    rw [add_mulVec, smul_mulVec, one_mulVec, dotProduct_add, dotProduct_smul, smul_eq_mul]
  rw [e, add_mul]
  refine add_le_add ?_ le_rfl
  unfold seen
  split
  · have := h x; rwa [dot_self] at this
  · have hd : ∀ i, U i i ≤ B := fun i => by
      have := h (Pi.single i 1)
      simpa [dot_self] using this
    simp only [dotProduct, mulVec_diagonal, Finset.mul_sum]
    exact Finset.sum_le_sum fun i _ => by nlinarith [hd i, mul_self_nonneg (x i)]

theorem seen_quad_ge (c : Cls) {n : ℕ} {U : Matrix (Fin n) (Fin n) ℝ} (h : U.PosSemidef) (d : ℝ) (x : Fin n → ℝ) :
    d * (x ⬝ᵥ x) ≤ x ⬝ᵥ (seen c U + d • 1) *ᵥ x := by
  have e : x ⬝ᵥ (seen c U + d • 1) *ᵥ x = x ⬝ᵥ seen c U *ᵥ x + d * (x ⬝ᵥ x) := by
    rw [add_mulVec, smul_mulVec, one_mulVec, dotProduct_add, dotProduct_smul, smul_eq_mul]
  have := (seen_psd c h).dotProduct_mulVec_nonneg x
  rw [star_trivial] at this
  rw [e]; linarith

/-- the bounds `1/κ`, `1/q` suit damping `d`, statistics up to `B` and `lr_cov` up to `β`; `z` is free -/
structure Suits (q κ z d B β : ℝ) : Prop where
  q0 : 0 < q
  d0 : 0 < d
  B0 : 0 ≤ B
  z1 : z < 1
  rate : β / 2 * (B + d) ≤ z * q
  up : q * ((2 + β / 2) * (1 + β / 2)) ≤ 2 * d
  low : (2 - z) * (B + d) ≤ 2 * (1 - z) ^ 2 * κ

/-- a run of a factor `K` with rates between 0 and `β` and damped bounded statistics `S` -/
theorem Suits.all {n : ℕ} {q κ z d B β : ℝ} (P : Suits q κ z d B β) {p : ℕ → Prop} {S K : ℕ → Matrix (Fin n) (Fin n) ℝ} (start : Singular q κ (K 0))
    (skip : ∀ t, ¬ p t → K (t + 1) = K t) (step : ∀ t, p t → ∃ b, 0 ≤ b ∧ b ≤ β ∧ K (t + 1) = nextFactor b (S t) (K t)) (symm : ∀ t, (S t)ᵀ = S t)
    (lo : ∀ t, p t → ∀ x, d * (x ⬝ᵥ x) ≤ x ⬝ᵥ S t *ᵥ x) (hi : ∀ t, p t → ∀ x, x ⬝ᵥ S t *ᵥ x ≤ (B + d) * (x ⬝ᵥ x)) (t : ℕ) : Singular q κ (K t) := by
  induction t with
  | zero => exact start
  | succ t ih =>
    by_cases hp : p t
    · obtain ⟨b, b0, b1, e⟩ := step t hp
      rw [e, nextFactor]
      have s0 : 0 < B + d := by linarith [P.B0, P.d0]
      refine singular_iff.2 ((singular_iff.1 ih).update (l := d) (s := B + d) (z := z) (symm t) (lo t hp) (hi t hp) P.q0 P.d0 s0 (by linarith) P.z1 ?_ ?_ P.low)
      · exact (mul_le_mul_of_nonneg_right (by linarith) s0.le).trans P.rate
      · refine le_trans (mul_le_mul_of_nonneg_left ?_ P.q0.le) P.up
        nlinarith
    · rw [skip t hp]; exact ih

theorem IsRate.range {h : Hyper ℝ} {t n : ℕ} {M : Matrix (Fin n) (Fin n) ℝ} {b : ℝ} (H : IsRate h t M b) (h0 : 0 ≤ h.lrCov.at t) : 0 ≤ b ∧ b ≤ h.lrCov.at t := by
  unfold IsRate at H
  split at H
  · obtain ⟨v, -, rfl⟩ := H
    exact Normed.rate h0
  · rw [H]; exact ⟨h0, le_rfl⟩

section
variable {cl : String → Cls × Cls} {m : Layer} {h : Hyper ℝ} {ops : ℕ → List (Op ℝ)} {attr : ℕ → Option ℝ} {w : World ℝ}

/-- **C93 (band).** Training in rounds with `kfac_like` and without factor momentum, normalised or not, positive damping, any schedule of `lr_cov`
with values between 0 and `β`, on any data whose second moments are bounded by `B` at the steps that update - the data may change arbitrarily from
step to step. Bounds `1/κ` and `1/q` that suit `β`, `B` and the damping and hold for the squared singular values of a factor once hold at all later
steps: no factor diverges, and none becomes singular. -/
theorem C93_band (R : Passes cl m h ops attr w) {q κ z B β : ℝ} (P : Suits q κ z h.damping B β) (hβ : ∀ t, 0 ≤ h.lrCov.at t ∧ h.lrCov.at t ≤ β) :
    ((cl m.name).1 = .dense ∨ (cl m.name).1 = .diagonal →
      (∀ t, (w.opt.steps + t) % h.T = 0 → QuadLe ((fired m.name (ops t) (w.rounds ops attr t)).map fun e => inputMoment h m e.1).sum B) →
      Singular q κ (denO (w.opt.Ks m.name) m.nK) → ∀ t, Singular q κ (denO ((w.rounds ops attr t).opt.Ks m.name) m.nK)) ∧
    ((cl m.name).2 = .dense ∨ (cl m.name).2 = .diagonal →
      (∀ t, (w.opt.steps + t) % h.T = 0 → QuadLe ((1 / (run (ops t) (w.rounds ops attr t)).curScale (attr t) ^ 2) •
        ((fired m.name (ops t) (w.rounds ops attr t)).map fun e => gradMoment h m e.2).sum) B) →
      Singular q κ (denO (w.opt.Cs m.name) m.nC) → ∀ t, Singular q κ (denO ((w.rounds ops attr t).opt.Cs m.name) m.nC)) := by
  constructor
  · intro hc hU h0 t
    refine P.all (p := fun t => (w.opt.steps + t) % h.T = 0) (S := roundK (cl m.name).1 m h ops attr w) (K := fun t => denO ((w.rounds ops attr t).opt.Ks m.name) m.nK)
      h0 (fun t ht => ?_) (fun t ht => ?_) (fun t => seen_symm _ (inputs_psd h m _) _) (fun t _ => seen_quad_ge _ (inputs_psd h m _) _)
      (fun t ht => seen_quad _ (hU t ht) _) t
    · show denO _ _ = denO _ _
      rw [((R.round (R.between t)).2.1 ht).1]
    · obtain ⟨b, e1, e2⟩ := ((R.round (R.between t)).2.2 ht).1 hc _ _ rfl rfl
      obtain ⟨b0, b1⟩ := e1.range (hβ _).1
      exact ⟨b, b0, b1.trans (hβ _).2, e2⟩
  · intro hc hU h0 t
    refine P.all (p := fun t => (w.opt.steps + t) % h.T = 0) (S := roundC (cl m.name).2 m h ops attr w) (K := fun t => denO ((w.rounds ops attr t).opt.Cs m.name) m.nC)
      h0 (fun t ht => ?_) (fun t ht => ?_) (fun t => seen_symm _ (grads_psd h m _ _) _) (fun t _ => seen_quad_ge _ (grads_psd h m _ _) _)
      (fun t ht => seen_quad _ (hU t ht) _) t
    · show denO _ _ = denO _ _
      rw [((R.round (R.between t)).2.1 ht).2]
    · obtain ⟨b, e1, e2⟩ := ((R.round (R.between t)).2.2 ht).2 hc _ _ rfl rfl
      obtain ⟨b0, b1⟩ := e1.range (hβ _).1
      exact ⟨b, b0, b1.trans (hβ _).2, e2⟩

/-- the bounds of `C93_from_construction` -/
theorem Suits.standard {d B β : ℝ} (d0 : 0 < d) (B0 : 0 ≤ B) (β0 : 0 ≤ β) (hβ : β * (B + d) ≤ min 1 (d / 2)) : Suits (min 1 (d / 2)) (max 1 (3 * (B + d))) (1 / 2) d B β := by
  have h2 := min_le_right 1 (d / 2)
  have b1 : β ≤ 1 / 2 := by
    by_contra hb
    push Not at hb
    nlinarith
  refine ⟨lt_min one_pos (by linarith), d0, B0, by norm_num, by linarith, ?_, ?_⟩
  · have := mul_le_mul_of_nonneg_right h2 (by nlinarith : 0 ≤ (2 + β / 2) * (1 + β / 2))
    have h4 : (2 + β / 2) * (1 + β / 2) ≤ 4 := by nlinarith
    refine this.trans ((mul_le_mul_of_nonneg_left h4 (by linarith)).trans ?_)
    linarith
  · have := le_max_right 1 (3 * (B + d))
    linarith

/-- **C93 (from construction).** From construction on, if the second moments of all data are at most `B` and `lr_cov` is at most
`min(1, damping/2) / (B + damping)`, the squared singular values of both factors are between `1 / max(1, 3 (B + damping))` and
`max(1, 2 / damping)` at all steps. -/
theorem C93_from_construction {structs : String → Option Cls} {model : Model} {p : ParamArg ℝ} {a : Args ℝ} {o : Opt ℝ} {ws : List Warn}
    (hn : (model.layers.map (·.name)).Nodup) (hi : Construct.init structs model p a = .ok (o, ws)) {data : ℕ → Mat ℝ} {grad : ℕ → Option (Mat ℝ)}
    (ht : Trainable o data) (hw : w = ⟨o, data, grad, []⟩) (R : Passes cl m h ops attr w) (d0 : 0 < h.damping) {B β : ℝ} (B0 : 0 ≤ B)
    (hβ : ∀ t, 0 ≤ h.lrCov.at t ∧ h.lrCov.at t ≤ β) (hB : β * (B + h.damping) ≤ min 1 (h.damping / 2)) :
    ((cl m.name).1 = .dense ∨ (cl m.name).1 = .diagonal →
      (∀ t, (w.opt.steps + t) % h.T = 0 → QuadLe ((fired m.name (ops t) (w.rounds ops attr t)).map fun e => inputMoment h m e.1).sum B) →
      ∀ t, Singular (min 1 (h.damping / 2)) (max 1 (3 * (B + h.damping))) (denO ((w.rounds ops attr t).opt.Ks m.name) m.nK)) ∧
    ((cl m.name).2 = .dense ∨ (cl m.name).2 = .diagonal →
      (∀ t, (w.opt.steps + t) % h.T = 0 → QuadLe ((1 / (run (ops t) (w.rounds ops attr t)).curScale (attr t) ^ 2) •
        ((fired m.name (ops t) (w.rounds ops attr t)).map fun e => gradMoment h m e.2).sum) B) →
      ∀ t, Singular (min 1 (h.damping / 2)) (max 1 (3 * (B + h.damping))) (denO ((w.rounds ops attr t).opt.Cs m.name) m.nC)) := by
  obtain ⟨i1, i2⟩ := (init_ok hn hi).identity ht (by have := R.mem; rw [hw] at this; exact this)
  have b := C93_band R (Suits.standard d0 B0 ((hβ 0).1.trans (hβ 0).2) hB) hβ
  refine ⟨fun hc hU => b.1 hc hU ?_, fun hc hU => b.2 hc hU ?_⟩
  · rw [hw]
    show Singular _ _ (denO (o.Ks m.name) m.nK)
    rw [i1]; exact singular_iff.2 (.one (min_le_left _ _) (le_max_left _ _))
  · rw [hw]
    show Singular _ _ (denO (o.Cs m.name) m.nC)
    rw [i2]; exact singular_iff.2 (.one (min_le_left _ _) (le_max_left _ _))

end
