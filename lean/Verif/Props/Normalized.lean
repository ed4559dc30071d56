import Verif.Props.Convergence
import Verif.Proofs.Normalized

/-! C65: what `normalize_lr_cov` does for the `kfac_like` factors. -/

set_option linter.unusedSectionVars false
open Matrix Construct Filter Topology Verif.Normalized

/-- the number of entries in a row of a factor of class `c` that may differ from zero -/
def Cls.width (c : Cls) (n : ℕ) : ℕ := if c = .dense then n else 1

/-- a factor `K` with normalised updates at the steps that satisfy `p`, with damped second moments `S` and rates `β` -/
structure Normed (c : Cls) {n : ℕ} (d : ℝ) (β : ℕ → ℝ) (p : ℕ → Prop) (S K : ℕ → Matrix (Fin n) (Fin n) ℝ) : Prop where
  skip : ∀ t, ¬ p t → K (t + 1) = K t
  step : ∀ t, p t → ∃ v, IsMaxAbs ((1 / 2 : ℝ) • ((K t)ᵀ * S t * K t - 1)) v ∧ K (t + 1) = upd (β t / max 1 v) (S t) (K t)
  form : c ≠ .dense → ∀ t i j, i ≠ j → ((K t)ᵀ * S t * K t) i j = 0
  symm : ∀ t, (S t)ᵀ = S t
  psd : ∀ t, (S t - d • (1 : Matrix (Fin n) (Fin n) ℝ)).PosSemidef

section
variable {c : Cls} {n : ℕ} {d : ℝ} {β : ℕ → ℝ} {p : ℕ → Prop} {S K : ℕ → Matrix (Fin n) (Fin n) ℝ}

/-- the largest eigenvalue of a normalised step -/
theorem Normed.quad (N : Normed c d β p S K) {t : ℕ} (b0 : 0 ≤ β t) {v : ℝ} (hv : IsMaxAbs ((1 / 2 : ℝ) • ((K t)ᵀ * S t * K t - 1)) v) (x : Fin n → ℝ) :
    x ⬝ᵥ ((β t / max 1 v / 2) • ((K t)ᵀ * S t * K t - 1)) *ᵥ x ≤ c.width n * β t * (x ⬝ᵥ x) := by
  have m0 : 0 < max 1 v := lt_max_of_lt_left one_pos
  have ent : ∀ i j, |((β t / max 1 v / 2) • ((K t)ᵀ * S t * K t - 1)) i j| ≤ β t := by
    intro i j
    have e : (β t / max 1 v / 2) • ((K t)ᵀ * S t * K t - 1) = (β t / max 1 v) • ((1 / 2 : ℝ) • ((K t)ᵀ * S t * K t - 1)) := by
      rw [smul_smul]; congr 1; ring
    rw [e, Matrix.smul_apply, smul_eq_mul, abs_mul, abs_of_nonneg (div_nonneg b0 m0.le), div_mul_eq_mul_div, div_le_iff₀ m0]
    exact mul_le_mul_of_nonneg_left ((hv.2 i j).trans (le_max_right _ _)) b0
  unfold Cls.width
  split
  next => exact quad_le_max ent x
  next hc =>
    rw [Nat.cast_one, one_mul]
    refine quad_le_diag (fun i => (le_abs_self _).trans (ent i i)) (fun i j hij => ?_) x
    rw [Matrix.smul_apply, Matrix.sub_apply, N.form hc t i j hij, one_apply_ne hij, sub_zero, smul_zero]

theorem Normed.rate {b v : ℝ} (b0 : 0 ≤ b) : 0 ≤ b / max 1 v ∧ b / max 1 v ≤ b :=
  ⟨div_nonneg b0 (le_max_of_le_left zero_le_one), div_le_self b0 (le_max_left _ _)⟩

theorem Normed.bounded (N : Normed c d β p S K) (d0 : 0 < d) (n0 : 0 < n) {k : ℝ} (k0 : 0 < k) (hb : ∀ t, 0 ≤ β t ∧ c.width n * β t ≤ 2 - k) (t : ℕ) :
    ∑ i, ∑ j, K t i j ^ 2 ≤ max (n * (max 3 (3 * n / (2 * k)) / d) + 3 * n / d) (∑ i, ∑ j, K 0 i j ^ 2) := by
  show Verif.Normalized.sq (K t) ≤ cap n d k (Verif.Normalized.sq (K 0))
  have w1 : (1 : ℝ) ≤ c.width n := by
    unfold Cls.width; split
    · exact_mod_cast n0
    · simp
  induction t with
  | zero => exact le_max_right _ _
  | succ t ih =>
    by_cases hp : p t
    · obtain ⟨v, hv, e⟩ := N.step t hp
      obtain ⟨b0, b2⟩ := hb t
      have r := Normed.rate (v := v) b0
      rw [e]
      refine upd_cap (N.symm t) d0 (N.psd t) r.1 (r.2.trans (by nlinarith)) k0 (fun x => (N.quad b0 hv x).trans ?_) ih
      exact mul_le_mul_of_nonneg_right b2 (by simp only [dotProduct]; exact Finset.sum_nonneg fun i _ => mul_self_nonneg _)
    · rw [N.skip t hp]; exact ih

open Classical in
/-- between updates nothing happens -/
theorem Normed.const (N : Normed c d β p S K) {s t : ℕ} (h : s ≤ t) : Nat.count p s = Nat.count p t → K t = K s := by
  induction t, h using Nat.le_induction with
  | base => exact fun _ => rfl
  | succ t h ih =>
    intro e
    have m1 := Nat.count_monotone p h
    rw [Nat.count_succ] at e
    by_cases hp : p t
    · rw [if_pos hp] at e; omega
    · rw [if_neg hp] at e
      rw [N.skip t hp, ih (by omega)]

open Classical in
/-- the sequence of updates -/
theorem Normed.recV (N : Normed c d β p S K) (hp : (setOf p).Infinite) {S0 : Matrix (Fin n) (Fin n) ℝ} (hS : ∀ t, p t → S t = S0) {b : ℝ} (hb : ∀ t, β t = b) :
    ∃ (r : ℕ → ℝ) (J : ℕ → Matrix (Fin n) (Fin n) ℝ), RecV r S0 J ∧ (∀ t, K t = J (Nat.count p t)) ∧
      ∀ k, (∃ v, IsMaxAbs ((1 / 2 : ℝ) • ((J k)ᵀ * S0 * J k - 1)) v ∧ r k = b / max 1 v) ∧ ∃ t, p t ∧ J k = K t := by
  have pn : ∀ k, p (Nat.nth p k) := fun k => Nat.nth_mem_of_infinite hp k
  have cn : ∀ k, Nat.count p (Nat.nth p k) = k := fun k => Nat.count_nth_of_infinite hp k
  choose v hv e using fun k => N.step _ (pn k)
  have kj : ∀ t, K t = K (Nat.nth p (Nat.count p t)) := fun t => by
    have c1 := cn (Nat.count p t)
    rcases le_total t (Nat.nth p (Nat.count p t)) with h | h
    · exact (N.const h c1.symm).symm
    · exact N.const h c1
  refine ⟨fun k => b / max 1 (v k), fun k => K (Nat.nth p k), fun k => ?_, kj, fun k => ⟨⟨v k, ?_, rfl⟩, _, pn k, rfl⟩⟩
  · have := e k
    rw [hS _ (pn k), hb] at this
    rw [← this]
    have c2 : Nat.count p (Nat.nth p k + 1) = k + 1 := by rw [Nat.count_succ, cn, if_pos (pn k)]
    rw [kj (Nat.nth p k + 1), c2]
  · have := hv k
    rwa [hS _ (pn k)] at this

open Classical in
theorem Normed.tendsto (N : Normed c d β p S K) (hp : (setOf p).Infinite) {S0 : Matrix (Fin n) (Fin n) ℝ} (hS : ∀ t, p t → S t = S0) (hd : S0.PosDef)
    (hK : IsUnit (K 0).det) {b : ℝ} (hb : ∀ t, β t = b) (b0 : 0 < b) (b1 : b ≤ 1) (hw : c.width n * b < 1) : ∃ L, Tendsto K atTop (𝓝 L) ∧ L * Lᵀ = S0⁻¹ := by
  obtain ⟨r, J, R, kj, h⟩ := N.recV hp hS hb
  have j0 : J 0 = K 0 := by rw [kj 0, Nat.count_zero]
  have r0 : ∀ k, 0 ≤ r k ∧ r k ≤ 1 := fun k => by
    obtain ⟨⟨v, -, e⟩, -⟩ := h k
    have := Normed.rate (v := v) b0.le
    rw [e]; exact ⟨this.1, this.2.trans b1⟩
  have q : ∀ k x, x ⬝ᵥ ((r k / 2) • ((J k)ᵀ * S0 * J k - 1)) *ᵥ x ≤ (c.width n * b) * (x ⬝ᵥ x) := fun k x => by
    obtain ⟨⟨v, hv, e⟩, t, ht, ek⟩ := h k
    rw [e, ek]
    rw [ek] at hv
    have := N.quad (t := t) (by rw [hb]; exact b0.le) (v := v) (by rw [hS t ht]; exact hv) x
    rwa [hS t ht, hb] at this
  obtain ⟨B, hB⟩ := R.bounded hd (by rwa [j0]) (fun k => (r0 k).1) (fun k => (r0 k).2) hw q
  have lo : ∀ k, b / max 1 ((B + 1) / 2) ≤ r k := fun k => by
    obtain ⟨⟨v, ⟨⟨i, j, hv⟩, -⟩, e⟩, -⟩ := h k
    rw [e]
    refine div_le_div_of_nonneg_left b0.le (lt_max_of_lt_left one_pos) (max_le_max le_rfl ?_)
    rw [hv, Matrix.smul_apply, Matrix.sub_apply, smul_eq_mul, abs_mul, abs_of_pos (by norm_num : (0 : ℝ) < 1 / 2)]
    have h1 := abs_sub (((J k)ᵀ * S0 * J k) i j) ((1 : Matrix (Fin n) (Fin n) ℝ) i j)
    have h2 : |(1 : Matrix (Fin n) (Fin n) ℝ) i j| ≤ 1 := by rw [one_apply]; split <;> simp
    linarith [hB k i j]
  obtain ⟨L, l1, l2⟩ := R.tendsto hd (by rwa [j0]) (div_pos b0 (lt_max_of_lt_left one_pos)) lo (fun k => (r0 k).2) hw q
  refine ⟨L, ?_, l2⟩
  rw [show K = J ∘ Nat.count p from funext kj]
  refine l1.comp (tendsto_atTop_atTop_of_monotone (Nat.count_monotone _) fun k => ⟨Nat.nth p k, (Nat.count_nth_of_infinite hp k).ge⟩)

end

theorem wf_diagonal {n : ℕ} {A : SM ℝ} (h : WF .diagonal n A) {i j : Fin n} (hij : i ≠ j) : denO (some A) n i j = 0 := by
  cases h with
  | @diagonal _ v h =>
    show v.diagMat.get i j = 0
    have : i.1 ≠ j.1 := fun h => hij (Fin.ext h)
    simp [Vec.diagMat, Mat.ofFn, this]

theorem sandwich_diagonal {n : ℕ} {S K : Matrix (Fin n) (Fin n) ℝ} (hS : ∀ i j, i ≠ j → S i j = 0) (hK : ∀ i j, i ≠ j → K i j = 0) {i j : Fin n} (hij : i ≠ j) :
    (Kᵀ * S * K) i j = 0 := by
  rw [Matrix.mul_apply]
  refine Finset.sum_eq_zero fun k _ => ?_
  by_cases h : k = j
  · subst h
    rw [Matrix.mul_apply, Finset.sum_eq_zero (fun l _ => ?_), zero_mul]
    by_cases h' : l = i
    · subst h'; rw [hS l k hij, mul_zero]
    · rw [transpose_apply, hK l i h', zero_mul]
  · rw [hK k j h, mul_zero]

section
variable {cl : String → Cls × Cls} {m : Layer} {h : Hyper ℝ} {ops : ℕ → List (Op ℝ)} {attr : ℕ → Option ℝ} {w : World ℝ}

theorem Passes.T_ne (R : Passes cl m h ops attr w) : h.T ≠ 0 := by
  obtain ⟨h', e, hT⟩ := R.live.sound.hyper m R.mem
  rw [R.hyper] at e; cases e
  exact hT

theorem updates_infinite (s : ℕ) {T : ℕ} (hT : T ≠ 0) : (setOf fun t => (s + t) % T = 0).Infinite := by
  refine Set.infinite_of_not_bddAbove fun ⟨B, hB⟩ => ?_
  have hp : s ≤ T * (B + 1 + s) := by nlinarith [Nat.pos_of_ne_zero hT]
  have hq : B + 1 + s ≤ T * (B + 1 + s) := by nlinarith [Nat.pos_of_ne_zero hT]
  have := hB (show (s + (T * (B + 1 + s) - s)) % T = 0 by
    rw [Nat.add_sub_cancel' hp]; exact Nat.mul_mod_right _ _)
  omega

/-- the sum of the second moments of the inputs of a layer -/
theorem inputs_psd (h : Hyper ℝ) (m : Layer) (l : List (ND ℝ × ND ℝ)) : ((l.map fun e => inputMoment h m e.1).sum).PosSemidef :=
  list_sum_psd (fun e : ND ℝ × ND ℝ => inputMoment h m e.1) (fun e => inputMoment_psd h m e.1) l

theorem grads_psd (h : Hyper ℝ) (m : Layer) (l : List (ND ℝ × ND ℝ)) (s : ℝ) : ((1 / s ^ 2) • (l.map fun e => gradMoment h m e.2).sum).PosSemidef :=
  (list_sum_psd (fun e : ND ℝ × ND ℝ => gradMoment h m e.2) (fun e => gradMoment_psd h m e.2) l).smul (by positivity : (0 : ℝ) ≤ 1 / s ^ 2)

theorem Passes.normedK (R : Passes cl m h ops attr w) (hn : h.normalize = true) (hc : (cl m.name).1 = .dense ∨ (cl m.name).1 = .diagonal) :
    Normed (cl m.name).1 h.damping (fun t => h.lrCov.at (w.opt.steps + t)) (fun t => (w.opt.steps + t) % h.T = 0) (roundK (cl m.name).1 m h ops attr w)
      fun t => denO ((w.rounds ops attr t).opt.Ks m.name) m.nK where
  skip := fun t ht => by
    show denO _ _ = denO _ _
    rw [((R.round (R.between t)).2.1 ht).1]
  step := fun t ht => by
    obtain ⟨b, e1, e2⟩ := ((R.round (R.between t)).2.2 ht).1 hc _ _ rfl rfl
    rw [IsRate, if_pos hn] at e1
    obtain ⟨v, hv, rfl⟩ := e1
    exact ⟨v, hv, e2⟩
  form := fun nd t i j hij => by
    have hd := hc.resolve_left nd
    obtain ⟨A, eA, wA⟩ := ((R.between t).live.sound.lay m (R.between t).mem).K
    refine sandwich_diagonal (fun i j hij => ?_) (fun i j hij => ?_) hij
    · rw [roundK, seen, if_neg nd, Matrix.add_apply, Matrix.smul_apply, diagonal_apply_ne _ hij, one_apply_ne hij, smul_zero, add_zero]
    · rw [eA]; rw [hd] at wA; exact wf_diagonal wA hij
  symm := fun t => seen_symm _ (inputs_psd h m _) _
  psd := fun t => by rw [roundK, add_sub_cancel_right]; exact seen_psd _ (inputs_psd h m _)

theorem Passes.normedC (R : Passes cl m h ops attr w) (hn : h.normalize = true) (hc : (cl m.name).2 = .dense ∨ (cl m.name).2 = .diagonal) :
    Normed (cl m.name).2 h.damping (fun t => h.lrCov.at (w.opt.steps + t)) (fun t => (w.opt.steps + t) % h.T = 0) (roundC (cl m.name).2 m h ops attr w)
      fun t => denO ((w.rounds ops attr t).opt.Cs m.name) m.nC where
  skip := fun t ht => by
    show denO _ _ = denO _ _
    rw [((R.round (R.between t)).2.1 ht).2]
  step := fun t ht => by
    obtain ⟨b, e1, e2⟩ := ((R.round (R.between t)).2.2 ht).2 hc _ _ rfl rfl
    rw [IsRate, if_pos hn] at e1
    obtain ⟨v, hv, rfl⟩ := e1
    exact ⟨v, hv, e2⟩
  form := fun nd t i j hij => by
    have hd := hc.resolve_left nd
    obtain ⟨A, eA, wA⟩ := ((R.between t).live.sound.lay m (R.between t).mem).C
    refine sandwich_diagonal (fun i j hij => ?_) (fun i j hij => ?_) hij
    · rw [roundC, seen, if_neg nd, Matrix.add_apply, Matrix.smul_apply, diagonal_apply_ne _ hij, one_apply_ne hij, smul_zero, add_zero]
    · rw [eA]; rw [hd] at wA; exact wf_diagonal wA hij
  symm := fun t => seen_symm _ (grads_psd h m _ _) _
  psd := fun t => by rw [roundC, add_sub_cancel_right]; exact seen_psd _ (grads_psd h m _ _)

/-- **C65 (bounded for all data).** Training in rounds with `kfac_like` and `normalize_lr_cov`, positive damping, on any inputs and gradients
(they may grow, explode, change arbitrarily between rounds). If `0 ≤ lr_cov` and `n * lr_cov ≤ 2 - k` at all steps for some `k > 0`, where `n` is the
dimension of a dense factor and 1 for a diagonal one, the sum of the squared entries of the factor never exceeds a bound that depends on dimension,
damping, `k` and the start only. -/
theorem C65_bounded (R : Passes cl m h ops attr w) (hn : h.normalize = true) (d0 : 0 < h.damping) {k : ℝ} (k0 : 0 < k) :
    ((cl m.name).1 = .dense ∨ (cl m.name).1 = .diagonal → (∀ t, 0 ≤ h.lrCov.at t ∧ (cl m.name).1.width m.nK * h.lrCov.at t ≤ 2 - k) →
      ∀ K, K = (fun t => denO ((w.rounds ops attr t).opt.Ks m.name) m.nK) → ∀ t, ∑ i, ∑ j, K t i j ^ 2 ≤
        max (m.nK * (max 3 (3 * m.nK / (2 * k)) / h.damping) + 3 * m.nK / h.damping) (∑ i, ∑ j, K 0 i j ^ 2)) ∧
    ((cl m.name).2 = .dense ∨ (cl m.name).2 = .diagonal → (∀ t, 0 ≤ h.lrCov.at t ∧ (cl m.name).2.width m.nC * h.lrCov.at t ≤ 2 - k) →
      ∀ C, C = (fun t => denO ((w.rounds ops attr t).opt.Cs m.name) m.nC) → ∀ t, ∑ i, ∑ j, C t i j ^ 2 ≤
        max (m.nC * (max 3 (3 * m.nC / (2 * k)) / h.damping) + 3 * m.nC / h.damping) (∑ i, ∑ j, C 0 i j ^ 2)) := by
  have g := R.live.sound.good m R.mem
  constructor
  · rintro hc hb K rfl t
    exact (R.normedK hn hc).bounded d0 g.posK k0 (fun t => hb _) t
  · rintro hc hb K rfl t
    exact (R.normedC hn hc).bounded d0 g.posC k0 (fun t => hb _) t

/-- **C65 (steady statistics).** If in addition the second moments are the same at every update, and `lr_cov` is a constant with `0 < lr_cov ≤ 1` and
`n * lr_cov < 1` (`n` as in `C65_bounded`), an invertible factor converges to a root of the inverse of the damped second moment, however large that is. -/
theorem C65_converges (R : Passes cl m h ops attr w) (hn : h.normalize = true) (d0 : 0 < h.damping) {b : ℝ} (hb : h.lrCov = .const b) (b0 : 0 < b) (b1 : b ≤ 1) :
    ((cl m.name).1 = .dense ∨ (cl m.name).1 = .diagonal → (cl m.name).1.width m.nK * b < 1 → ∀ U, SteadyK m h ops attr w U →
      IsUnit (denO (w.opt.Ks m.name) m.nK).det →
      ∃ L, Tendsto (fun t => denO ((w.rounds ops attr t).opt.Ks m.name) m.nK) atTop (𝓝 L) ∧ L * Lᵀ = (seen (cl m.name).1 U + h.damping • 1)⁻¹) ∧
    ((cl m.name).2 = .dense ∨ (cl m.name).2 = .diagonal → (cl m.name).2.width m.nC * b < 1 → ∀ V, SteadyC m h ops attr w V →
      IsUnit (denO (w.opt.Cs m.name) m.nC).det →
      ∃ L, Tendsto (fun t => denO ((w.rounds ops attr t).opt.Cs m.name) m.nC) atTop (𝓝 L) ∧ L * Lᵀ = (seen (cl m.name).2 V + h.damping • 1)⁻¹) := by
  constructor
  · intro hc hw U hU hK
    exact (R.normedK hn hc).tendsto (updates_infinite _ R.T_ne) (fun t ht => by rw [roundK, hU t ht]) (damped_posDef _ (hU.psd R.T_ne) d0) hK
      (fun t => by rw [hb]; rfl) b0 b1 hw
  · intro hc hw V hV hK
    exact (R.normedC hn hc).tendsto (updates_infinite _ R.T_ne) (fun t ht => by rw [roundC, hV t ht]) (damped_posDef _ (hV.psd R.T_ne) d0) hK
      (fun t => by rw [hb]; rfl) b0 b1 hw

end

namespace Sample
section
variable {α : Type} [Field α] [LinearOrder α] [IsStrictOrderedRing α] [LawfulSqrt α]

/-- linear layer `n → 1` without bias -/
def lw (n : ℕ) : Layer := ⟨"w", true, .linear, ⟨0, true⟩, none, 1, n, []⟩
/-- a model with this layer only -/
def wideModel (n : ℕ) : Model := ⟨false, [lw n]⟩
/-- `kfac_like` and `normalize_lr_cov`, an update at every step -/
def wideArgs (b d : α) : Args α := { gargs with damping := .float d, alpha1 := .float 0, kfacLike := true, T := 1, lrCov := .num (.float b), normalize := true }
/-- parameters and gradients: ones -/
def wideData (n : ℕ) : ℕ → Mat α := fun _ => .ofFn 1 n fun _ _ => 1
/-- all inputs are `c` -/
def flatRow (n : ℕ) (c : α) : ND α := ⟨[1, n], fun _ => c⟩
/-- the layer always sees the same inputs -/
def wideOps (n : ℕ) (c : α) (t : ℕ) : List (Op α) := [.forward 0 (flatRow n c) true, .backward t (grow 1)]

theorem wide_init {n : ℕ} (n0 : 0 < n) {b d : α} (b0 : 0 < b) (d0 : 0 < d) :
    ∃ (o : Opt α) (ws : List Warn), Construct.init supportedStructures (wideModel n) .default (wideArgs b d) = .ok (o, ws) ∧
    o.layers = [lw n] ∧ o.hyperOf (lw n) = .ok (defaults (wideArgs b d)) ∧ Trainable o (wideData n) := by
  have hga : (groupArgs (wideModel n).layers true (.default : ParamArg α)).1 = [⟨[⟨0, true⟩], id⟩] := rfl
  let gs : List (PGroup α) := [⟨[0], defaults (wideArgs b d)⟩]
  have hgs : gs = (groupArgs (wideModel n).layers true (.default : ParamArg α)).1.map fun g =>
      ⟨g.params.map (·.ptr), checked (g.entries (defaults (wideArgs b d)))⟩ := by
    rw [hga]; simp [gs, checked, defaults, wideArgs, PyNum.val]
  have hhk : hooked (wideModel n).layers gs = [lw n] := rfl
  have kn : (lw n).nK = n := rfl
  have h2 : ¬ ((2⁻¹ : α) < 0) := by simp
  have ex : ∃ (o : Opt α) (ws : List Warn), Construct.init supportedStructures (wideModel n) .default (wideArgs b d) = .ok (o, ws) := by
    refine init_exists rfl ?_ ?_ ?_ ?_ gs hgs rfl ?_
    · simp [validate, wideArgs, gargs, PyNum.rejected, PyRate.rejected, h2, not_lt.2 b0.le, not_lt.2 d0.le, b0.ne', d0.ne']
    · show (groupArgs (wideModel n).layers true (.default : ParamArg α)).1 ≠ []
      rw [hga]; simp
    · show GroupsDisjoint (groupArgs (wideModel n).layers true (.default : ParamArg α)).1
      rw [hga]; simp [GroupsDisjoint]
    · show ∀ g ∈ (groupArgs (wideModel n).layers true (.default : ParamArg α)).1, _
      rw [hga]
      intro g hg
      obtain rfl := List.mem_singleton.1 hg
      exact ⟨Or.inl rfl, Or.inr (Or.inl rfl)⟩
    · rw [hhk]
      intro m hm
      obtain rfl := List.mem_singleton.1 hm
      exact ⟨0, ⟨[0], defaults (wideArgs b d)⟩, .dense, .diagonal, rfl, rfl, rfl, rfl, (supportedStructures_good (s := "dense") rfl n0).1,
        (supportedStructures_good (s := "diagonal") rfl one_pos).1⟩
  obtain ⟨o, ws, h⟩ := ex
  have I := init_ok (model := wideModel n) (List.nodup_singleton "w") h
  have hg : o.groups = gs := by rw [I.groups_eq]; exact hgs.symm
  have hl : o.layers = [lw n] := by rw [I.layers, hg]; rfl
  have hh : o.hyperOf (lw n) = .ok (defaults (wideArgs b d)) := by
    unfold Opt.hyperOf
    rw [I.ptrGroup, hg]; rfl
  refine ⟨o, ws, h, hl, hh, ?_⟩
  have hall : ∀ P : Layer → Prop, (∀ m ∈ o.layers, P m) ↔ P (lw n) := fun P => by rw [hl]; simp
  refine ⟨?_, ?_, ?_, ?_, ?_, ?_, ?_⟩
  · rw [hl]; exact List.pairwise_singleton _ _
  · rw [hall]; exact n0
  · rw [hall]; exact one_pos
  · rw [hall]; exact ⟨rfl, rfl⟩
  · rw [hall]; rintro b hb; cases hb
  · intro m hm hy cK cC e1 e2 e3
    rw [I.structs] at e2 e3
    rw [hl] at hm
    obtain rfl := List.mem_singleton.1 hm
    have a1 := supportedStructures_good e2 (n := (lw n).nK) n0
    have a2 := supportedStructures_good e3 (n := (lw n).nC) one_pos
    exact ⟨a1.1, a1.2, a2.1, a2.2⟩
  · rw [hall]
    intro hy e
    rw [hh] at e
    cases e
    exact one_ne_zero

/-- the state between rounds -/
structure WideInv (cl : String → Cls × Cls) (h : Hyper α) (n t : ℕ) (v : World α) : Prop where
  live : v.Live cl
  layers : v.opt.layers = [lw n]
  hyper : v.opt.hyperOf (lw n) = .ok h
  hooks : v.hooks.length = t
  grad : v.grad = fun p => some (wideData n p)
  scales : ∀ i : ℤ, v.opt.steps ≤ i → v.opt.scales i = none
  steps : v.opt.steps = t

theorem wide_quiet {n : ℕ} {c : α} {t : ℕ} : ∀ op ∈ wideOps n c t, op.Quiet := by
  intro op hop
  simp only [wideOps, List.mem_cons, List.not_mem_nil, or_false] at hop
  rcases hop with rfl | rfl <;> trivial

theorem wide_round {cl : String → Cls × Cls} {h : Hyper α} (hT : h.T = 1) {n t : ℕ} {v : World α} (J : WideInv cl h n t v) (c : α) :
    FitsRun v (wideOps n c t ++ [.step false none false]) ∧ WideInv cl h n (t + 1) (run (wideOps n c t ++ [.step false none false]) v) ∧
      fired "w" (wideOps n c t) v = [(flatRow n c, grow 1)] ∧ (run (wideOps n c t) v).curScale none = 1 := by
  have mw : lw n ∈ v.opt.layers := by rw [J.layers]; simp
  have e0 : v.opt.layers[0]? = some (lw n) := by rw [J.layers]; rfl
  let v1 : World α := { v with hooks := v.hooks ++ [(lw n, flatRow n c)] }
  have x1 : exec (.forward 0 (flatRow n c) true) v = (.ok (), v1) := forward_on _ e0 J.hyper (by rw [hT]; exact one_ne_zero) (by rw [hT, Nat.mod_one])
  have f1 : FitsOp v (.forward 0 (flatRow n c) true) := by
    intro m hm hy _
    rw [e0] at hm; cases hm
    exact ⟨1, [], rfl, by decide⟩
  obtain ⟨_, y1, l1⟩ := J.live.exec f1
  rw [x1] at y1; cases y1
  have k1 : v1.hooks[t]? = some (lw n, flatRow n c) := by
    show (v.hooks ++ [(lw n, flatRow n c)])[t]? = _
    rw [List.getElem?_append_right (by rw [J.hooks])]; simp [J.hooks]
  have f2 : FitsOp v1 (.backward t (grow 1)) := by
    intro mx hmx; rw [k1] at hmx; cases hmx; exact ⟨1, [], rfl, by decide⟩
  obtain ⟨v2, y2, l2⟩ := l1.exec f2
  obtain ⟨_, _, _, _, _, _, b2⟩ := l1.back k1 f2
  rw [y2] at b2
  have fr := b2.frame
  have er : run (wideOps n c t) v = v2 := by
    show (exec _ (exec _ v).2).2 = _
    rw [x1, y2]
  have p1 : FitsRun v (wideOps n c t) := ⟨f1, by rw [x1]; exact ⟨f2, trivial⟩⟩
  have pf : fired "w" (wideOps n c t) v = [(flatRow n c, grow 1)] := by
    simp only [fired, wideOps, firedOp, x1, y2, k1, List.nil_append, Option.toList_some]
    rfl
  have W := J.live.window p1 wide_quiet
  rw [er] at W
  have st : v2.opt.HKs (lw n).name ≠ none ∧ v2.opt.HCs (lw n).name ≠ none := by
    obtain ⟨p, hp⟩ := J.live.prev
    have S := W.stats _ mw h p J.hyper hp
    have : fired (lw n).name (wideOps n c t) v ≠ [] := by rw [show fired (lw n).name (wideOps n c t) v = _ from pf]; simp
    exact ⟨fun e => this (S.HK0.1 e).2, fun e => this (S.HC0.1 e).2⟩
  have g2 : v2.grad = fun p => some (wideData n p) := by rw [fr.grad]; exact J.grad
  have F : FitsOp v2 (.step false none false) := by
    refine ⟨rfl, by simp, fun _ m hm => ?_⟩
    have hm' := hm
    rw [W.layers, J.layers] at hm'
    obtain rfl := List.mem_singleton.1 hm'
    refine ⟨⟨⟨wideData n 0, by rw [g2]; rfl, rfl, rfl⟩, by rintro b hb; cases hb⟩, fun h e _ => ⟨st.1, st.2, W.live.mom _ hm h e⟩⟩
  obtain ⟨v', e, sp, lv⟩ := World.Live.step W.live F
  have er' : run (wideOps n c t ++ [.step false none false]) v = v' := by rw [run_append, er, run_cons, e]; rfl
  have es : v2.opt.steps = t := W.steps.trans J.steps
  have esc : v2.opt.scales = v.opt.scales := by rw [fr.scales]
  refine ⟨along_append.2 ⟨p1, by rw [er]; exact ⟨F, trivial⟩⟩, ?_, pf, ?_⟩
  · rw [er']
    refine ⟨lv, sp.layers.trans (W.layers.trans J.layers), ?_, ?_, sp.grad.trans g2, fun i hi => ?_, by rw [sp.steps, es]⟩
    · have e1 : v'.opt.hyperOf (lw n) = v2.opt.hyperOf (lw n) := by unfold Opt.hyperOf; rw [sp.ptrGroup, sp.groups]
      rw [e1, W.hyperOf]; exact J.hyper
    · rw [sp.hooks, fr.hooks]; simp [v1, J.hooks]
    · rw [sp.steps, es] at hi
      push_cast at hi
      rw [sp.scales, es, if_neg (by omega), if_neg (by omega), esc]
      exact J.scales i (by rw [J.steps]; omega)
  · rw [er, World.curScale, es, esc, J.scales _ (by rw [J.steps])]; rfl

theorem wide_inv {cl : String → Cls × Cls} {h : Hyper α} (hT : h.T = 1) {n : ℕ} {w : World α} (J : WideInv cl h n 0 w) (c : α) :
    ∀ t, WideInv cl h n t (w.rounds (wideOps n c) (fun _ => none) t)
  | 0 => J
  | t + 1 => (wide_round hT (wide_inv hT J c t) c).2.1

/-- a training as C65 asks -/
theorem wide {n : ℕ} (n0 : 0 < n) {b d : α} (b0 : 0 < b) (d0 : 0 < d) (c : α) : ∃ (o : Opt α) (ws : List Warn) (cl : String → Cls × Cls),
    Construct.init supportedStructures (wideModel n) .default (wideArgs b d) = .ok (o, ws) ∧ Trainable o (wideData n) ∧
    Passes cl (lw n) (defaults (wideArgs b d)) (wideOps n c) (fun _ => none) ⟨o, wideData n, fun p => some (wideData n p), []⟩ ∧
    cl "w" = (.dense, .diagonal) ∧ o.steps = 0 ∧ denO (o.Ks "w") n = 1 ∧
    ∀ t, fired "w" (wideOps n c t) (World.rounds (wideOps n c) (fun _ => none) ⟨o, wideData n, fun p => some (wideData n p), []⟩ t) = [(flatRow n c, grow 1)] := by
  obtain ⟨o, ws, hi, hl, hh, ht⟩ := wide_init n0 b0 d0
  have I := init_ok (model := wideModel n) (List.nodup_singleton "w") hi
  obtain ⟨cl, hcl, lv⟩ := I.live (grad := fun p => some (wideData n p)) ht one_pos
  have mw : lw n ∈ o.layers := by rw [hl]; simp
  have J : WideInv cl (defaults (wideArgs b d)) n 0 ⟨o, wideData n, fun p => some (wideData n p), []⟩ := ⟨lv, hl, hh, rfl, rfl, fun i hi => by
    show o.scales i = none
    rw [I.scales]
    rw [show (⟨o, wideData n, fun p => some (wideData n p), []⟩ : World α).opt.steps = 0 from I.steps] at hi
    have : i ≠ -1 := fun e => by rw [e] at hi; simp at hi
    simp [Dict.set, this], I.steps⟩
  have JJ := wide_inv rfl J c
  have RR := fun t => wide_round rfl (JJ t) c
  refine ⟨o, ws, cl, hi, ht, ⟨lv, fun t => (RR t).1, fun t => wide_quiet, mw, hh, ⟨by show o.HKs _ = _; rw [I.HKs], by show o.HCs _ = _; rw [I.HCs]⟩, rfl,
    rfl, fun t ht => absurd (Nat.mod_one _) ht⟩, ?_, I.steps, (I.identity ht mw).1, fun t => (RR t).2.2.1⟩
  obtain ⟨hy, e1, e2, e3⟩ := hcl _ mw
  rw [show (⟨o, wideData n, fun p => some (wideData n p), []⟩ : World α).opt.hyperOf (lw n) = _ from hh] at e1
  cases e1
  have e2' : supportedStructures "dense" = some (cl (lw n).name).1 := e2
  have e3' : supportedStructures "diagonal" = some (cl (lw n).name).2 := e3
  exact Prod.ext (Option.some.inj e2').symm (Option.some.inj e3').symm

end
end Sample

open IOSpec IOProof PIO in
theorem Sample.flat_moment {n : ℕ} (b d c : ℝ) (i j : Fin n) : inputMoment (defaults (Sample.wideArgs b d)) (Sample.lw n) (Sample.flatRow n c) i j = c ^ 2 := by
  obtain ⟨X, e, hr, hc, hX⟩ := (C20_linear_input (Sample.flatRow n c) (b := 1) (d := n) (sh := []) rfl false).1
  have e' : inputMoment (defaults (Sample.wideArgs b d)) (Sample.lw n) (Sample.flatRow n c) = secMom X (Sample.lw n).nK := by
    unfold inputMoment
    show (match processInput (Sample.flatRow n c) .linear false "expand" with | .ok a => secMom a (Sample.lw n).nK | .error _ => 0) = _
    rw [e]
  rw [e']
  show secMom X n i j = _
  simp only [secMom, hX]
  have hi := i.2
  have hj := j.2
  simp [withBias, sumIdx, multiIdx, entry, Sample.flatRow, ravel, pow_two, hi, hj]

/-- **C65 (wide layers).** The condition on the dimension cannot be dropped: for every constant `lr_cov ≤ 1`, damping at most 1 and every dimension `n` with
`n * lr_cov > 2` (for `lr_cov = 0.01`: more than 200 inputs), a linear layer with `n` inputs, all equal to the same number at every step, makes the dense
input factor grow beyond every bound, in spite of `normalize_lr_cov`. -/
theorem C65_blow_up {n : ℕ} {b d : ℝ} (b1 : b ≤ 1) (nb : 2 < n * b) (d0 : 0 < d) (d1 : d ≤ 1) : ∃ (c : ℝ) (o : Opt ℝ) (ws : List Warn) (cl : String → Cls × Cls)
    (h : Hyper ℝ) (w : World ℝ),
    Construct.init supportedStructures (Sample.wideModel n) .default (Sample.wideArgs b d) = .ok (o, ws) ∧
    w = ⟨o, Sample.wideData n, fun p => some (Sample.wideData n p), []⟩ ∧ Passes cl (Sample.lw n) h (Sample.wideOps n c) (fun _ => none) w ∧
    h.normalize = true ∧ h.lrCov = .const b ∧ h.damping = d ∧ (cl "w").1 = .dense ∧
    (∀ t, fired "w" (Sample.wideOps n c t) (w.rounds (Sample.wideOps n c) (fun _ => none) t) = [(Sample.flatRow n c, Sample.grow 1)]) ∧
    Tendsto (fun t => ∑ i, ∑ j, denO ((w.rounds (Sample.wideOps n c) (fun _ => none) t).opt.Ks "w") n i j ^ 2) atTop atTop := by
  have b0 : 0 < b := by
    by_contra hc
    nlinarith [(Nat.cast_nonneg n : (0 : ℝ) ≤ n)]
  have n2 : 2 ≤ n := by
    have : (2 : ℝ) < n := by nlinarith [(Nat.cast_nonneg n : (0 : ℝ) ≤ n)]
    exact_mod_cast this.le
  have n0 : (0 : ℝ) < n := by exact_mod_cast (by omega : 0 < n)
  have n1 : (1 : ℝ) ≤ n := by exact_mod_cast (by omega : 1 ≤ n)
  let c : ℝ := max (2 * n + 1) (2 * (n * b) / (n * b - 2))
  have c1 : 1 ≤ c := le_trans (by linarith) (le_max_left _ _)
  have cs : c ≤ n * c ^ 2 := by nlinarith [mul_nonneg (sub_nonneg.2 n1) (sq_nonneg c)]
  obtain ⟨o, ws, cl, hi, ht, R, hc, hs, k0, hf⟩ := Sample.wide (n := n) (by omega) b0 d0 c
  refine ⟨c, o, ws, cl, _, _, hi, rfl, R, rfl, rfl, rfl, by rw [hc], hf, ?_⟩
  have N := R.normedK rfl (Or.inl (by rw [show (Sample.lw n).name = "w" from rfl, hc]))
  have hS : ∀ t, roundK (cl (Sample.lw n).name).1 (Sample.lw n) (defaults (Sample.wideArgs b d)) (Sample.wideOps n c) (fun _ => none)
      ⟨o, Sample.wideData n, fun p => some (Sample.wideData n p), []⟩ t = flat n (c ^ 2) d := by
    intro t
    rw [roundK, show (Sample.lw n).name = "w" from rfl, hf t, hc, seen, if_pos rfl]
    funext i j
    have := Sample.flat_moment b d c i j
    simp only [List.map_cons, List.map_nil, List.sum_cons, List.sum_nil, add_zero, Matrix.add_apply, Matrix.smul_apply, this, flat, one_apply]
    congr 1
    show d * _ = _
    split
    next h => rw [mul_one]; exact (if_pos h).symm
    next h => rw [mul_zero]; exact (if_neg h).symm
  choose v hv e using fun t => N.step t (Nat.mod_one _)
  refine RecV.blow_up n2 (b := fun t => b / max 1 (v t)) (s := c ^ 2) b1 nb d0 d1 ((le_max_left _ _).trans cs) ((le_max_right _ _).trans cs) (K := fun t =>
    denO ((World.rounds (Sample.wideOps n c) (fun _ => none) ⟨o, Sample.wideData n, fun p => some (Sample.wideData n p), []⟩ t).opt.Ks "w") n) (fun t => ?_) k0
    fun t => ⟨v t, ?_, ?_, rfl⟩
  · have := e t
    rw [hS t] at this
    exact this
  · have := (hv t).1
    rw [hS t] at this
    exact this
  · have := (hv t).2
    rw [hS t] at this
    exact this

/-- the default `lr_cov` and 201 inputs -/
example : (1 / 100 : ℝ) ≤ 1 ∧ (2 : ℝ) < (201 : ℕ) * (1 / 100) := by norm_num

/-- A training that meets the hypotheses of `C65_bounded` and `C65_converges`: three inputs equal to 1000, `lr_cov = 1/10`. -/
example : ∃ (cl : String → Cls × Cls) (m : Layer) (h : Hyper ℝ) (ops : ℕ → List (Op ℝ)) (w : World ℝ) (U : Matrix (Fin m.nK) (Fin m.nK) ℝ),
    Passes cl m h ops (fun _ => none) w ∧ h.normalize = true ∧ 0 < h.damping ∧ h.lrCov = .const (1 / 10) ∧ (cl m.name).1 = .dense ∧
    (∀ t, 0 ≤ h.lrCov.at t ∧ (cl m.name).1.width m.nK * h.lrCov.at t ≤ 2 - 1) ∧ (cl m.name).1.width m.nK * (1 / 10 : ℝ) < 1 ∧
    (cl m.name).2 = .diagonal ∧ (cl m.name).2.width m.nC * (1 / 10 : ℝ) < 1 ∧ SteadyK m h ops (fun _ => none) w U ∧ U ≠ 0 ∧
    IsUnit (denO (w.opt.Ks m.name) m.nK).det := by
  obtain ⟨o, ws, cl, hi, ht, R, hc, hs, k0, hf⟩ := Sample.wide (n := 3) (b := (1 / 10 : ℝ)) (d := 1) (by decide) (by norm_num) one_pos 1000
  have wd : (((cl (Sample.lw 3).name).1.width (Sample.lw 3).nK : ℕ) : ℝ) = 3 := by
    rw [show (Sample.lw 3).name = "w" from rfl, hc]; rfl
  refine ⟨cl, _, _, _, _, _, R, rfl, one_pos, rfl, by rw [show (Sample.lw 3).name = "w" from rfl, hc], fun t => ⟨?_, ?_⟩, ?_,
    by rw [show (Sample.lw 3).name = "w" from rfl, hc], ?_, fun t _ => by rw [show (Sample.lw 3).name = "w" from rfl, hf t, List.map_cons, List.map_nil, List.sum_singleton], ?_, ?_⟩
  · show (0 : ℝ) ≤ 1 / 10; norm_num
  · rw [wd]; show (3 : ℝ) * (1 / 10) ≤ _; norm_num
  · rw [wd]; norm_num
  · rw [show (Sample.lw 3).name = "w" from rfl, hc]; show ((1 : ℕ) : ℝ) * _ < 1; norm_num
  · intro e
    have := congrFun (congrFun e (0 : Fin 3)) (0 : Fin 3)
    rw [show inputMoment _ (Sample.lw 3) _ (0 : Fin 3) (0 : Fin 3) = _ from Sample.flat_moment (n := 3) (1 / 10) 1 1000 0 0] at this
    have : (1000 ^ 2 : ℝ) = 0 := this
    norm_num at this
  · show IsUnit (denO (o.Ks "w") 3).det
    rw [k0, det_one]; exact isUnit_one
