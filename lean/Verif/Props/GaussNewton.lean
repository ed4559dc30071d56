import Verif.Props.ProcessIO
import Mathlib.Analysis.Calculus.FDeriv.Pi
import Mathlib.Analysis.Calculus.FDeriv.Comp
import Mathlib.Analysis.Calculus.FDeriv.Add
import Mathlib.Analysis.Calculus.FDeriv.Mul
import Mathlib.Analysis.Calculus.FDeriv.Linear
import Mathlib.Topology.Algebra.Module.FiniteDimension
import Mathlib.Analysis.Calculus.Deriv.Pow

/-!
# C83: the Kronecker factors and the Gauss-Newton matrix

What `test/optim/test_kfac.py` samples: for the square loss, one backward pass per output of the network, and each layer, the Kronecker product of the Gram matrices of processed gradients and
inputs is compared with the Gauss-Newton matrix, which is defined through derivatives of the network with respect to the layer's parameters.
-/

open Finset IOSpec IOProof PIO

noncomputable section

namespace GN

variable {B S O D d : ℕ}

/-- outputs of a layer with parameters `w = [W, b]` for (bias-extended) inputs `a`: sample, position, unit -/
def out (w : Fin O → Fin d → ℝ) (a : Fin B → Fin S → Fin d → ℝ) (b : Fin B) (s : Fin S) (o : Fin O) : ℝ := ∑ i, w o i * a b s i

/-- Gauss-Newton matrix of the square loss: products of partial derivatives with respect to the entries `(o, i)` and `(o', i')` of `w`, summed over all predictions -/
def ggn {ι : Type} [Fintype ι] (f : (Fin O → Fin d → ℝ) → ι → ℝ) (w : Fin O → Fin d → ℝ) (o : Fin O) (i : Fin d) (o' : Fin O) (i' : Fin d) : ℝ :=
  ∑ j, fderiv ℝ (fun w => f w j) w (Pi.single o (Pi.single i 1)) * fderiv ℝ (fun w => f w j) w (Pi.single o' (Pi.single i' 1))

/-- derivative of a scalar with respect to one output of a layer -/
def outGrad (l : (Fin B → Fin S → Fin O → ℝ) → ℝ) (y : Fin B → Fin S → Fin O → ℝ) (b : Fin B) (s : Fin S) (o : Fin O) : ℝ :=
  fderiv ℝ l y (Pi.single b (Pi.single s (Pi.single o 1)))

theorem hasFDerivAt_out (a : Fin B → Fin S → Fin d → ℝ) (b : Fin B) (s : Fin S) (w : Fin O → Fin d → ℝ) :
    ∃ L : (Fin O → Fin d → ℝ) →L[ℝ] (Fin O → ℝ), HasFDerivAt (fun w => out w a b s) L w ∧ ∀ o i, L (Pi.single o (Pi.single i 1)) = Pi.single o (a b s i) := by
  let l : (Fin O → Fin d → ℝ) →ₗ[ℝ] (Fin O → ℝ) :=
    { toFun := fun w o => ∑ i, w o i * a b s i
      map_add' := fun u v => by funext o; simp [add_mul, sum_add_distrib]
      map_smul' := fun c v => by funext o; simp [mul_sum, mul_assoc] }
  refine ⟨l.toContinuousLinearMap, l.toContinuousLinearMap.hasFDerivAt, fun o i => ?_⟩
  funext o'
  show ∑ j, (Pi.single o (Pi.single i (1 : ℝ)) : Fin O → Fin d → ℝ) o' j * a b s j = _
  by_cases h : o' = o
  · subst h; simp [Pi.single_apply]
  · simp [Pi.single_apply, h]

theorem hasFDerivAt_outSum (a : Fin B → Fin S → Fin d → ℝ) (b : Fin B) (w : Fin O → Fin d → ℝ) :
    ∃ L : (Fin O → Fin d → ℝ) →L[ℝ] (Fin O → ℝ), HasFDerivAt (fun w => ∑ s, out w a b s) L w ∧ ∀ o i, L (Pi.single o (Pi.single i 1)) = Pi.single o (∑ s, a b s i) := by
  choose L h1 h2 using fun s => hasFDerivAt_out a b s w
  refine ⟨∑ s, L s, HasFDerivAt.fun_sum fun s _ => h1 s, fun o i => ?_⟩
  rw [ContinuousLinearMap.sum_apply]
  simp only [h2]
  funext o'
  by_cases h : o' = o
  · subst h; simp
  · simp [Pi.single_apply, h]

theorem map_single {L : (Fin O → ℝ) →L[ℝ] (Fin D → ℝ)} (o : Fin O) (c : ℝ) (k : Fin D) : L (Pi.single o c) k = L (Pi.single o 1) k * c := by
  have : (Pi.single o c : Fin O → ℝ) = c • Pi.single o 1 := by rw [← Pi.single_smul]; simp
  rw [this, map_smul]; simp [mul_comm]

/-- partial derivatives of a prediction that depends on one position -/
theorem fderiv_expand {φ : (Fin O → ℝ) → Fin D → ℝ} {Φ : (Fin O → ℝ) →L[ℝ] (Fin D → ℝ)} (a : Fin B → Fin S → Fin d → ℝ) (b : Fin B) (s : Fin S) (w : Fin O → Fin d → ℝ)
    (h : HasFDerivAt φ Φ (out w a b s)) (k : Fin D) (o : Fin O) (i : Fin d) :
    fderiv ℝ (fun w => φ (out w a b s) k) w (Pi.single o (Pi.single i 1)) = Φ (Pi.single o 1) k * a b s i := by
  obtain ⟨L, h1, h2⟩ := hasFDerivAt_out a b s w
  have := (hasFDerivAt_pi'.1 (h.comp w h1)) k
  rw [show (fun w => φ (out w a b s) k) = fun w => (φ ∘ fun w => out w a b s) w k from rfl, this.fderiv]
  simp [h2, map_single o (a b s i)]

/-- partial derivatives of a prediction that depends on the sum over positions -/
theorem fderiv_reduce {φ : (Fin O → ℝ) → Fin D → ℝ} {Φ : (Fin O → ℝ) →L[ℝ] (Fin D → ℝ)} (a : Fin B → Fin S → Fin d → ℝ) (b : Fin B) (w : Fin O → Fin d → ℝ)
    (h : HasFDerivAt φ Φ (∑ s, out w a b s)) (k : Fin D) (o : Fin O) (i : Fin d) :
    fderiv ℝ (fun w => φ (∑ s, out w a b s) k) w (Pi.single o (Pi.single i 1)) = Φ (Pi.single o 1) k * ∑ s, a b s i := by
  obtain ⟨L, h1, h2⟩ := hasFDerivAt_outSum a b w
  have := (hasFDerivAt_pi'.1 (h.comp w h1)) k
  rw [show (fun w => φ (∑ s, out w a b s) k) = fun w => (φ ∘ fun w => ∑ s, out w a b s) w k from rfl, this.fderiv]
  simp [h2, map_single o (∑ s, a b s i)]

/-- gradient of a sum of predictions, each of one position -/
theorem outGrad_expand {φ : Fin B → Fin S → (Fin O → ℝ) → Fin D → ℝ} {Φ : Fin B → Fin S → (Fin O → ℝ) →L[ℝ] (Fin D → ℝ)} {y : Fin B → Fin S → Fin O → ℝ}
    (h : ∀ b s, HasFDerivAt (φ b s) (Φ b s) (y b s)) (c : ℝ) (k : Fin D) (b : Fin B) (s : Fin S) (o : Fin O) :
    outGrad (fun y => c * ∑ b, ∑ s, φ b s (y b s) k) y b s o = c * Φ b s (Pi.single o 1) k := by
  have h1 : ∀ b s, HasFDerivAt (fun y : Fin B → Fin S → Fin O → ℝ => φ b s (y b s) k)
      ((ContinuousLinearMap.proj k).comp ((Φ b s).comp ((ContinuousLinearMap.proj s).comp (ContinuousLinearMap.proj (R := ℝ) (φ := fun _ : Fin B => Fin S → Fin O → ℝ) b)))) y := fun b s => by
    have p : HasFDerivAt (fun y : Fin B → Fin S → Fin O → ℝ => y b s) ((ContinuousLinearMap.proj s).comp (ContinuousLinearMap.proj (R := ℝ) (φ := fun _ : Fin B => Fin S → Fin O → ℝ) b)) y :=
      ((ContinuousLinearMap.proj s).comp (ContinuousLinearMap.proj (R := ℝ) (φ := fun _ : Fin B => Fin S → Fin O → ℝ) b)).hasFDerivAt
    exact hasFDerivAt_pi'.1 ((h b s).comp y p) k
  have h2 := (HasFDerivAt.fun_sum (u := univ) fun b _ => HasFDerivAt.fun_sum (u := univ) fun s _ => h1 b s).const_mul c
  rw [outGrad, h2.fderiv]
  simp only [ContinuousLinearMap.smul_apply, ContinuousLinearMap.sum_apply, ContinuousLinearMap.comp_apply, ContinuousLinearMap.proj_apply, smul_eq_mul]
  congr 1
  rw [sum_eq_single b, sum_eq_single s]
  · simp
  · intro s' _ hs; simp [Pi.single_apply, hs]
  · simp
  · intro b' _ hb; simp [Pi.single_apply, hb]
  · simp

/-- gradient of a sum of predictions, each of the sum over a sample's positions -/
theorem outGrad_reduce {φ : Fin B → (Fin O → ℝ) → Fin D → ℝ} {Φ : Fin B → (Fin O → ℝ) →L[ℝ] (Fin D → ℝ)} {y : Fin B → Fin S → Fin O → ℝ}
    (h : ∀ b, HasFDerivAt (φ b) (Φ b) (∑ s, y b s)) (c : ℝ) (k : Fin D) (b : Fin B) (s : Fin S) (o : Fin O) :
    outGrad (fun y => c * ∑ b, φ b (∑ s, y b s) k) y b s o = c * Φ b (Pi.single o 1) k := by
  let P : Fin B → (Fin B → Fin S → Fin O → ℝ) →L[ℝ] (Fin O → ℝ) := fun b => ∑ s, (ContinuousLinearMap.proj s).comp (ContinuousLinearMap.proj (R := ℝ) (φ := fun _ : Fin B => Fin S → Fin O → ℝ) b)
  have hP : ∀ b y, P b y = ∑ s, y b s := fun b y => by simp [P, ContinuousLinearMap.sum_apply]
  have h1 : ∀ b, HasFDerivAt (fun y : Fin B → Fin S → Fin O → ℝ => φ b (∑ s, y b s) k) ((ContinuousLinearMap.proj k).comp ((Φ b).comp (P b))) y := fun b => by
    have p : HasFDerivAt (fun y : Fin B → Fin S → Fin O → ℝ => ∑ s, y b s) (P b) y := by
      have := (P b).hasFDerivAt (x := y)
      rwa [show (⇑(P b)) = fun y => ∑ s, y b s from funext fun y => hP b y] at this
    exact hasFDerivAt_pi'.1 ((h b).comp y p) k
  have h2 := (HasFDerivAt.fun_sum (u := univ) fun b _ => h1 b).const_mul c
  rw [outGrad, h2.fderiv]
  simp only [ContinuousLinearMap.smul_apply, ContinuousLinearMap.sum_apply, ContinuousLinearMap.comp_apply, ContinuousLinearMap.proj_apply, smul_eq_mul, hP]
  congr 1
  rw [sum_eq_single b]
  · have : ∑ s', (Pi.single b (Pi.single s (Pi.single o (1 : ℝ))) : Fin B → Fin S → Fin O → ℝ) b s' = Pi.single o 1 := by
      rw [sum_eq_single s]
      · simp
      · intro s' _ hs; simp [Pi.single_apply, hs]
      · simp
    rw [this]
  · intro b' _ hb
    have : ∑ s', (Pi.single b (Pi.single s (Pi.single o (1 : ℝ))) : Fin B → Fin S → Fin O → ℝ) b' s' = 0 := sum_eq_zero fun s' _ => by simp [Pi.single_apply, hb]
    rw [this]; simp
  · simp

/-- a sum of products is the product of the sums over the number of terms, plus the covariance -/
theorem sum_mul_cov {ι : Type} [Fintype ι] (hn : (Fintype.card ι : ℝ) ≠ 0) (u v : ι → ℝ) :
    ∑ j, u j * v j = (∑ j, u j) * (∑ j, v j) / Fintype.card ι + ∑ j, (u j - (∑ l, u l) / Fintype.card ι) * (v j - (∑ l, v l) / Fintype.card ι) := by
  simp only [sub_mul, mul_sub, sum_sub_distrib, ← sum_mul, ← mul_sum, sum_const, card_univ, nsmul_eq_mul]
  field_simp
  ring

/-- sum of products of deviations from the means -/
def cov {ι : Type} [Fintype ι] (u v : ι → ℝ) : ℝ := ∑ j, (u j - (∑ l, u l) / Fintype.card ι) * (v j - (∑ l, v l) / Fintype.card ι)

theorem cov_const {ι : Type} [Fintype ι] [Nonempty ι] {u : ι → ℝ} (v : ι → ℝ) (h : ∀ j l, u j = u l) : cov u v = 0 := by
  have hn : (Fintype.card ι : ℝ) ≠ 0 := Nat.cast_ne_zero.2 Fintype.card_ne_zero
  refine sum_eq_zero fun j _ => ?_
  rw [sum_congr rfl fun l _ => h l j, sum_const, card_univ, nsmul_eq_mul, mul_div_cancel_left₀ _ hn, sub_self, zero_mul]

theorem core_expand (hn : B * S ≠ 0) (a : Fin B → Fin S → Fin d → ℝ) (w : Fin O → Fin d → ℝ) {φ : Fin B → Fin S → (Fin O → ℝ) → Fin D → ℝ}
    {Φ : Fin B → Fin S → (Fin O → ℝ) →L[ℝ] (Fin D → ℝ)} (hφ : ∀ b s, HasFDerivAt (φ b s) (Φ b s) (out w a b s)) (nt : ℝ) {MK MC : ℝ} {o o' : Fin O} {i i' : Fin d}
    (hK : MK = (∑ b, ∑ s, a b s i * a b s i') / (B * S : ℕ))
    (hC : MC = ∑ k, (∑ b, ∑ s, Φ b s (Pi.single o 1) k * Φ b s (Pi.single o' 1) k) / nt) :
    MC * MK = (ggn (fun w (t : (Fin B × Fin S) × Fin D) => φ t.1.1 t.1.2 (out w a t.1.1 t.1.2) t.2) w o i o' i' -
      cov (fun t : Fin B × Fin S => ∑ k, Φ t.1 t.2 (Pi.single o 1) k * Φ t.1 t.2 (Pi.single o' 1) k) (fun t => a t.1 t.2 i * a t.1 t.2 i')) / nt := by
  have e : ggn (fun w (t : (Fin B × Fin S) × Fin D) => φ t.1.1 t.1.2 (out w a t.1.1 t.1.2) t.2) w o i o' i' =
      ∑ t : Fin B × Fin S, (∑ k, Φ t.1 t.2 (Pi.single o 1) k * Φ t.1 t.2 (Pi.single o' 1) k) * (a t.1 t.2 i * a t.1 t.2 i') := by
    rw [ggn, Fintype.sum_prod_type]
    refine sum_congr rfl fun t _ => ?_
    rw [sum_mul]
    refine sum_congr rfl fun k _ => ?_
    rw [fderiv_expand a t.1 t.2 w (hφ t.1 t.2), fderiv_expand a t.1 t.2 w (hφ t.1 t.2)]
    ring
  have hc : Fintype.card (Fin B × Fin S) = B * S := by simp
  rw [e, sum_mul_cov (by rw [hc]; exact_mod_cast hn), ← cov, add_sub_cancel_right, hK, hC, hc, Fintype.sum_prod_type, Fintype.sum_prod_type, ← sum_div]
  have : ∑ k, ∑ b, ∑ s, Φ b s (Pi.single o 1) k * Φ b s (Pi.single o' 1) k = ∑ b, ∑ s, ∑ k, Φ b s (Pi.single o 1) k * Φ b s (Pi.single o' 1) k := by
    rw [sum_comm]; exact sum_congr rfl fun b _ => sum_comm
  rw [this]
  ring

theorem core_reduce (hB : B ≠ 0) (hS : S ≠ 0) (a : Fin B → Fin S → Fin d → ℝ) (w : Fin O → Fin d → ℝ) {φ : Fin B → (Fin O → ℝ) → Fin D → ℝ}
    {Φ : Fin B → (Fin O → ℝ) →L[ℝ] (Fin D → ℝ)} (hφ : ∀ b, HasFDerivAt (φ b) (Φ b) (∑ s, out w a b s)) (nt : ℝ) {MK MC : ℝ} {o o' : Fin O} {i i' : Fin d}
    (hK : MK = (∑ b, ((∑ s, a b s i) / S) * ((∑ s, a b s i') / S)) / B)
    (hC : MC = ∑ k, (∑ b, (∑ _s : Fin S, Φ b (Pi.single o 1) k) * (∑ _s : Fin S, Φ b (Pi.single o' 1) k)) / nt) :
    MC * MK = (ggn (fun w (t : Fin B × Fin D) => φ t.1 (∑ s, out w a t.1 s) t.2) w o i o' i' -
      cov (fun b => ∑ k, Φ b (Pi.single o 1) k * Φ b (Pi.single o' 1) k) (fun b => (∑ s, a b s i) * ∑ s, a b s i')) / nt := by
  have e : ggn (fun w (t : Fin B × Fin D) => φ t.1 (∑ s, out w a t.1 s) t.2) w o i o' i' =
      ∑ b, (∑ k, Φ b (Pi.single o 1) k * Φ b (Pi.single o' 1) k) * ((∑ s, a b s i) * ∑ s, a b s i') := by
    rw [ggn, Fintype.sum_prod_type]
    refine sum_congr rfl fun t _ => ?_
    rw [sum_mul]
    refine sum_congr rfl fun k _ => ?_
    rw [fderiv_reduce a t w (hφ t), fderiv_reduce a t w (hφ t)]
    ring
  have hB' : (B : ℝ) ≠ 0 := Nat.cast_ne_zero.2 hB
  have hS' : (S : ℝ) ≠ 0 := Nat.cast_ne_zero.2 hS
  rw [e, sum_mul_cov (by simpa using hB'), ← cov, add_sub_cancel_right, hK, hC, ← sum_div]
  have : ∑ k, ∑ b, (∑ _s : Fin S, Φ b (Pi.single o 1) k) * (∑ _s : Fin S, Φ b (Pi.single o' 1) k) = S * S * ∑ b, ∑ k, Φ b (Pi.single o 1) k * Φ b (Pi.single o' 1) k := by
    rw [sum_comm, mul_sum]
    refine sum_congr rfl fun b _ => ?_
    rw [mul_sum]
    refine sum_congr rfl fun k _ => ?_
    simp only [sum_const, card_univ, Fintype.card_fin, nsmul_eq_mul]
    ring
  rw [this]
  have : ∑ b, (∑ s, a b s i) / S * ((∑ s, a b s i') / S) = (∑ b, (∑ s, a b s i) * ∑ s, a b s i') / (S * S) := by
    rw [sum_div]; exact sum_congr rfl fun b _ => by field_simp
  rw [this, Fintype.card_fin]
  field_simp

/-- Gram matrix of the processed gradients of a linear layer, `expand` -/
theorem gradGram_expand {b : ℕ} {sh : List ℕ} {la : Option String} (hla : la = none ∨ la = some "batch" ∨ la = some "batch+sequence") (hN : numTerms la b sh.prod ≠ 0) {g : ND ℝ}
    (hg : g.shape = b :: (sh ++ [O])) {u : Fin b → Fin sh.prod → Fin O → ℝ} (h : ∀ (i : Fin b) (t : Fin sh.prod) (o : Fin O), g.flat ((i * sh.prod + t) * O + o) = 1 / (numTerms la b sh.prod : ℝ) * u i t o) :
    (∃ G, processGradOutput g .linear la "expand" = .ok G ∧ ∀ o o' : Fin O, ∑ r ∈ range G.rows, G.get r o * G.get r o' = (∑ i, ∑ t, u i t o * u i t o') / (numTerms la b sh.prod : ℝ)) ∧
    ∃ G, processGradOutput g .linear la "reduce" = .ok G ∧ ∀ o o' : Fin O, ∑ r ∈ range G.rows, G.get r o * G.get r o' = (∑ i, (∑ t, u i t o) * (∑ t, u i t o')) / (numTerms la b sh.prod : ℝ) := by
  have hN' : (numTerms la b sh.prod : ℝ) ≠ 0 := Nat.cast_ne_zero.2 hN
  let v : ND ℝ := ⟨g.shape, fun j => numTerms la b sh.prod * g.flat j⟩
  have hg' : v.shape = b :: (sh ++ [O]) := hg
  have hv : ∀ (i : Fin b) (t : Fin sh.prod) (o : Fin O), v.flat ((i * sh.prod + t) * O + o) = u i t o := fun i t o => by
    show _ * g.flat _ = _
    rw [h]; field_simp
  obtain ⟨⟨G, hG, -, -, h1⟩, G', hG', -, -, h2⟩ := C21_linear_grad g v hg rfl hla hN fun k _ => by show _ = _ * _ / _; field_simp
  refine ⟨⟨G, hG, fun o o' => ?_⟩, G', hG', fun o o' => ?_⟩
  · rw [h1 o o.2 o' o'.2, sum_range]
    congr 1
    refine sum_congr rfl fun i _ => ?_
    rw [sumIdx_congr (g := fun idx => v.flat ((i * sh.prod + ravel sh idx) * O + o) * v.flat ((i * sh.prod + ravel sh idx) * O + o')) fun idx hi => by rw [entry_eq hg' hi, entry_eq hg' hi],
      sumIdx_eq sh fun t => v.flat ((i * sh.prod + t) * O + o) * v.flat ((i * sh.prod + t) * O + o'), sum_range]
    exact sum_congr rfl fun t _ => by rw [hv, hv]
  · rw [h2 o o.2 o' o'.2, sum_range]
    congr 1
    refine sum_congr rfl fun i _ => ?_
    have : ∀ o : Fin O, (sumIdx sh fun idx => entry v (i :: (idx ++ [(o : ℕ)]))) = ∑ t, u i t o := fun o => by
      rw [sumIdx_congr (g := fun idx => v.flat ((i * sh.prod + ravel sh idx) * O + o)) fun idx hi => by rw [entry_eq hg' hi],
        sumIdx_eq sh fun t => v.flat ((i * sh.prod + t) * O + o), sum_range]
      exact sum_congr rfl fun t _ => by rw [hv]
    rw [this, this]

theorem sum_range_two (m n : ℕ) (f : ℕ → ℕ → ℝ) : ∑ i ∈ range m, ∑ j ∈ range n, f i j = ∑ t : Fin (m * n), f (t / n) (t % n) := by
  rw [← sum_range (fun t => f (t / n) (t % n)), sum_range_mul]
  refine sum_congr rfl fun i _ => sum_congr rfl fun j hj => ?_
  have hj := mem_range.1 hj
  rw [mul_comm i n, Nat.mul_add_div (by omega), Nat.mul_add_mod, Nat.div_eq_of_lt hj, Nat.mod_eq_of_lt hj, add_zero]

/-- Gram matrix of the processed gradients of a convolution -/
theorem gradGram_conv (cfg : ConvCfg) {b O1 O2 : ℕ} {la : Option String} (hla : la = none ∨ la = some "batch" ∨ la = some "batch+sequence") (hN : numTerms la b (O1 * O2) ≠ 0) {g : ND ℝ}
    (hg : g.shape = [b, O, O1, O2]) {u : Fin b → Fin (O1 * O2) → Fin O → ℝ} (h : ∀ (i : Fin b) (t : Fin (O1 * O2)) (o : Fin O), g.flat ((i * O + o) * (O1 * O2) + t) = 1 / (numTerms la b (O1 * O2) : ℝ) * u i t o) :
    (∃ G, processGradOutput g (.conv2d cfg) la "expand" = .ok G ∧ ∀ o o' : Fin O, ∑ r ∈ range G.rows, G.get r o * G.get r o' = (∑ i, ∑ t, u i t o * u i t o') / (numTerms la b (O1 * O2) : ℝ)) ∧
    ∃ G, processGradOutput g (.conv2d cfg) la "reduce" = .ok G ∧ ∀ o o' : Fin O, ∑ r ∈ range G.rows, G.get r o * G.get r o' = (∑ i, (∑ t, u i t o) * (∑ t, u i t o')) / (numTerms la b (O1 * O2) : ℝ) := by
  have hN' : (numTerms la b (O1 * O2) : ℝ) ≠ 0 := Nat.cast_ne_zero.2 hN
  let v : ND ℝ := ⟨g.shape, fun j => numTerms la b (O1 * O2) * g.flat j⟩
  have hv : ∀ (i : Fin b) (o : Fin O) (t : Fin (O1 * O2)), entry v [i, o, t / O2, t % O2] = u i t o := fun i o t => by
    have : ((((i : ℕ) * O + o) * (O1 * O2) + t : ℕ)) = ravel v.shape [(i : ℕ), o, t / O2, t % O2] := by
      show _ = ravel g.shape _
      rw [hg]
      simp only [ravel, List.prod_cons, List.prod_nil, mul_one]
      conv_lhs => rw [← Nat.div_add_mod (t : ℕ) O2]
      ring
    show _ * g.flat _ = _
    rw [← this, h]; field_simp
  obtain ⟨⟨G, hG, -, -, h1⟩, G', hG', -, -, h2⟩ := C21_conv_grad g v cfg hg rfl hla hN fun k _ => by show _ = _ * _ / _; field_simp
  refine ⟨⟨G, hG, fun o o' => ?_⟩, G', hG', fun o o' => ?_⟩
  · rw [h1 o o.2 o' o'.2, sum_range]
    congr 1
    refine sum_congr rfl fun i _ => ?_
    rw [sum_range_two]
    exact sum_congr rfl fun t _ => by rw [hv, hv]
  · rw [h2 o o.2 o' o'.2, sum_range]
    congr 1
    refine sum_congr rfl fun i _ => ?_
    rw [sum_range_two, sum_range_two]
    congr 1
    · exact sum_congr rfl fun t _ => hv i o t
    · exact sum_congr rfl fun t _ => hv i o' t

theorem numTerms_ne (la : Option String) {b s : ℕ} (hn : b * s ≠ 0) : numTerms la b s ≠ 0 := by
  unfold numTerms
  split
  · exact (Nat.mul_ne_zero_iff.1 hn).1
  · split
    · exact hn
    · exact one_ne_zero

end GN

open GN

section
variable {b din O D : ℕ} {sh : List ℕ}

/-- **C83 (linear layers, `expand`).** `a` are the bias-extended inputs; every prediction depends on one position of the layer's output, through any differentiable function `φ`. There is one backward pass
per output of the network, of the sum or mean of this output over all predictions. The Kronecker product of both statistics is the Gauss-Newton matrix (of the loss as averaged), up to the covariance of the products
of derivatives and of the products of inputs. -/
theorem C83_linear_expand (x : ND ℝ) (hx : x.shape = b :: (sh ++ [din])) (bias : Bool) {la : Option String} (hla : la = none ∨ la = some "batch" ∨ la = some "batch+sequence")
    (hn : b * sh.prod ≠ 0) {a : Fin b → Fin sh.prod → Fin (din + if bias = true then 1 else 0) → ℝ} (ha : ∀ i t p, a i t p = withBias bias din (fun j => x.flat ((i * sh.prod + t) * din + j)) p)
    (w : Fin O → Fin (din + if bias = true then 1 else 0) → ℝ) (φ : Fin b → Fin sh.prod → (Fin O → ℝ) → Fin D → ℝ) (hφ : ∀ i t, DifferentiableAt ℝ (φ i t) (out w a i t))
    (g : Fin D → ND ℝ) (hg : ∀ k, (g k).shape = b :: (sh ++ [O])) (hgrad : ∀ k (i : Fin b) (t : Fin sh.prod) (o : Fin O), (g k).flat ((i * sh.prod + t) * O + o) =
      outGrad (fun y => 1 / (numTerms la b sh.prod : ℝ) * ∑ i, ∑ t, φ i t (y i t) k) (out w a) i t o) :
    ∃ X, processInput x .linear bias "expand" = .ok X ∧ ∃ G : Fin D → Mat ℝ, (∀ k, processGradOutput (g k) .linear la "expand" = .ok (G k)) ∧
      ∀ (o o' : Fin O) (i i' : Fin (din + if bias = true then 1 else 0)),
        (∑ k, ∑ r ∈ range (G k).rows, (G k).get r o * (G k).get r o') * (∑ r ∈ range X.rows, X.get r i * X.get r i') =
        (ggn (fun w (t : (Fin b × Fin sh.prod) × Fin D) => φ t.1.1 t.1.2 (out w a t.1.1 t.1.2) t.2) w o i o' i' -
          cov (fun t : Fin b × Fin sh.prod => ∑ k, fderiv ℝ (φ t.1 t.2) (out w a t.1 t.2) (Pi.single o 1) k * fderiv ℝ (φ t.1 t.2) (out w a t.1 t.2) (Pi.single o' 1) k)
            (fun t => a t.1 t.2 i * a t.1 t.2 i')) / (numTerms la b sh.prod : ℝ) := by
  obtain ⟨⟨X, hX, -, -, hK⟩, -⟩ := C20_linear_input x hx bias
  choose G hG hC using fun k => (gradGram_expand hla (numTerms_ne la hn) (hg k) fun i t o => by rw [hgrad, outGrad_expand fun i t => (hφ i t).hasFDerivAt]).1
  refine ⟨X, hX, G, hG, fun o o' i i' => core_expand hn a w (fun i t => (hφ i t).hasFDerivAt) _ ?_ (sum_congr rfl fun k _ => hC k o o')⟩
  rw [hK, sum_range]
  congr 1
  refine sum_congr rfl fun j _ => ?_
  rw [sumIdx_congr (g := fun idx => withBias bias din (fun l => x.flat ((j * sh.prod + ravel sh idx) * din + l)) i * withBias bias din (fun l => x.flat ((j * sh.prod + ravel sh idx) * din + l)) i')
    fun idx hi => by simp only [entry_eq hx hi],
    sumIdx_eq sh fun t => withBias bias din (fun l => x.flat ((j * sh.prod + t) * din + l)) i * withBias bias din (fun l => x.flat ((j * sh.prod + t) * din + l)) i', sum_range]
  exact sum_congr rfl fun t _ => by rw [ha, ha]

/-- **C83 (linear layers, `reduce`).** As before, but every prediction depends on the sum (or mean) of the layer's outputs over the positions of one sample, through any differentiable function. -/
theorem C83_linear_reduce (x : ND ℝ) (hx : x.shape = b :: (sh ++ [din])) (bias : Bool) {la : Option String} (hla : la = none ∨ la = some "batch" ∨ la = some "batch+sequence")
    (hn : b * sh.prod ≠ 0) {a : Fin b → Fin sh.prod → Fin (din + if bias = true then 1 else 0) → ℝ} (ha : ∀ i t p, a i t p = withBias bias din (fun j => x.flat ((i * sh.prod + t) * din + j)) p)
    (w : Fin O → Fin (din + if bias = true then 1 else 0) → ℝ) (φ : Fin b → (Fin O → ℝ) → Fin D → ℝ) (hφ : ∀ i, DifferentiableAt ℝ (φ i) (∑ t, out w a i t))
    (g : Fin D → ND ℝ) (hg : ∀ k, (g k).shape = b :: (sh ++ [O])) (hgrad : ∀ k (i : Fin b) (t : Fin sh.prod) (o : Fin O), (g k).flat ((i * sh.prod + t) * O + o) =
      outGrad (fun y => 1 / (numTerms la b sh.prod : ℝ) * ∑ i, φ i (∑ t, y i t) k) (out w a) i t o) :
    ∃ X, processInput x .linear bias "reduce" = .ok X ∧ ∃ G : Fin D → Mat ℝ, (∀ k, processGradOutput (g k) .linear la "reduce" = .ok (G k)) ∧
      ∀ (o o' : Fin O) (i i' : Fin (din + if bias = true then 1 else 0)),
        (∑ k, ∑ r ∈ range (G k).rows, (G k).get r o * (G k).get r o') * (∑ r ∈ range X.rows, X.get r i * X.get r i') =
        (ggn (fun w (t : Fin b × Fin D) => φ t.1 (∑ s, out w a t.1 s) t.2) w o i o' i' -
          cov (fun j => ∑ k, fderiv ℝ (φ j) (∑ t, out w a j t) (Pi.single o 1) k * fderiv ℝ (φ j) (∑ t, out w a j t) (Pi.single o' 1) k)
            (fun j => (∑ t, a j t i) * ∑ t, a j t i')) / (numTerms la b sh.prod : ℝ) := by
  obtain ⟨-, X, hX, -, -, hK⟩ := C20_linear_input x hx bias
  obtain ⟨hb, hs⟩ := Nat.mul_ne_zero_iff.1 hn
  choose G hG hC using fun k => (gradGram_expand hla (numTerms_ne la hn) (hg k) fun i t o => by rw [hgrad, outGrad_reduce fun i => (hφ i).hasFDerivAt]).2
  refine ⟨X, hX, G, hG, fun o o' i i' => core_reduce hb hs a w (fun i => (hφ i).hasFDerivAt) _ ?_ (sum_congr rfl fun k _ => hC k o o')⟩
  rw [hK, sum_range]
  congr 1
  refine sum_congr rfl fun j _ => ?_
  have hs' : (sh.prod : ℝ) ≠ 0 := Nat.cast_ne_zero.2 hs
  have : ∀ p : Fin (din + if bias = true then 1 else 0), withBias bias din (fun l => sumIdx sh (fun idx => entry x (j :: (idx ++ [l]))) / (sh.prod : ℝ)) p = (∑ t, a j t p) / sh.prod := fun p => by
    simp only [ha, withBias]
    by_cases hp : (p : ℕ) < din
    · simp only [hp, if_true]
      rw [sumIdx_congr (g := fun idx => x.flat ((j * sh.prod + ravel sh idx) * din + p)) fun idx hi => by rw [entry_eq hx hi],
        sumIdx_eq sh fun t => x.flat ((j * sh.prod + t) * din + p), sum_range]
    · simp only [hp, if_false]
      by_cases hq : bias = true ∧ (p : ℕ) = din
      · simp only [if_pos hq, sum_const, card_univ, Fintype.card_fin, nsmul_eq_mul, mul_one]
        rw [div_self hs']
      · simp [hq]
  rw [this, this]
end

section
variable {b O1 O2 O D : ℕ}

/-- **C83 (convolutions, `expand`).** The inputs are the patches; the layer's output is `out` (`C22_patches`). -/
theorem C83_conv_expand (x : ND ℝ) (cfg : ConvCfg) {P : T3 ℝ} (hP : extractPatches x cfg = .ok P) (bias : Bool) {la : Option String} (hla : la = none ∨ la = some "batch" ∨ la = some "batch+sequence")
    (h0 : P.d0 = b) (h1 : P.d1 = O1 * O2) (hn : b * (O1 * O2) ≠ 0) {a : Fin b → Fin (O1 * O2) → Fin (P.d2 + if bias = true then 1 else 0) → ℝ} (ha : ∀ i t p, a i t p = withBias bias P.d2 (P.get i t) p)
    (w : Fin O → Fin (P.d2 + if bias = true then 1 else 0) → ℝ) (φ : Fin b → Fin (O1 * O2) → (Fin O → ℝ) → Fin D → ℝ) (hφ : ∀ i t, DifferentiableAt ℝ (φ i t) (out w a i t))
    (g : Fin D → ND ℝ) (hg : ∀ k, (g k).shape = [b, O, O1, O2]) (hgrad : ∀ k (i : Fin b) (t : Fin (O1 * O2)) (o : Fin O), (g k).flat ((i * O + o) * (O1 * O2) + t) =
      outGrad (fun y => 1 / (numTerms la b (O1 * O2) : ℝ) * ∑ i, ∑ t, φ i t (y i t) k) (out w a) i t o) :
    ∃ X, processInput x (.conv2d cfg) bias "expand" = .ok X ∧ ∃ G : Fin D → Mat ℝ, (∀ k, processGradOutput (g k) (.conv2d cfg) la "expand" = .ok (G k)) ∧
      ∀ (o o' : Fin O) (i i' : Fin (P.d2 + if bias = true then 1 else 0)),
        (∑ k, ∑ r ∈ range (G k).rows, (G k).get r o * (G k).get r o') * (∑ r ∈ range X.rows, X.get r i * X.get r i') =
        (ggn (fun w (t : (Fin b × Fin (O1 * O2)) × Fin D) => φ t.1.1 t.1.2 (out w a t.1.1 t.1.2) t.2) w o i o' i' -
          cov (fun t : Fin b × Fin (O1 * O2) => ∑ k, fderiv ℝ (φ t.1 t.2) (out w a t.1 t.2) (Pi.single o 1) k * fderiv ℝ (φ t.1 t.2) (out w a t.1 t.2) (Pi.single o' 1) k)
            (fun t => a t.1 t.2 i * a t.1 t.2 i')) / (numTerms la b (O1 * O2) : ℝ) := by
  obtain ⟨X, hX, -, -, hK⟩ := (C55_conv_input x cfg bias).1 P hP
  choose G hG hC using fun k => (gradGram_conv cfg hla (numTerms_ne la hn) (hg k) fun i t o => by rw [hgrad, outGrad_expand fun i t => (hφ i t).hasFDerivAt]).1
  refine ⟨X, hX, G, hG, fun o o' i i' => core_expand hn a w (fun i t => (hφ i t).hasFDerivAt) _ ?_ (sum_congr rfl fun k _ => hC k o o')⟩
  rw [hK, h0, h1, sum_range]
  congr 1
  refine sum_congr rfl fun j _ => ?_
  rw [sum_range]
  exact sum_congr rfl fun t _ => by rw [ha, ha]

/-- **C83 (convolutions, `reduce`).** -/
theorem C83_conv_reduce (x : ND ℝ) (cfg : ConvCfg) {P : T3 ℝ} (hP : extractPatches x cfg = .ok P) (bias : Bool) {la : Option String} (hla : la = none ∨ la = some "batch" ∨ la = some "batch+sequence")
    (h0 : P.d0 = b) (h1 : P.d1 = O1 * O2) (hn : b * (O1 * O2) ≠ 0) {a : Fin b → Fin (O1 * O2) → Fin (P.d2 + if bias = true then 1 else 0) → ℝ} (ha : ∀ i t p, a i t p = withBias bias P.d2 (P.get i t) p)
    (w : Fin O → Fin (P.d2 + if bias = true then 1 else 0) → ℝ) (φ : Fin b → (Fin O → ℝ) → Fin D → ℝ) (hφ : ∀ i, DifferentiableAt ℝ (φ i) (∑ t, out w a i t))
    (g : Fin D → ND ℝ) (hg : ∀ k, (g k).shape = [b, O, O1, O2]) (hgrad : ∀ k (i : Fin b) (t : Fin (O1 * O2)) (o : Fin O), (g k).flat ((i * O + o) * (O1 * O2) + t) =
      outGrad (fun y => 1 / (numTerms la b (O1 * O2) : ℝ) * ∑ i, φ i (∑ t, y i t) k) (out w a) i t o) :
    ∃ X, processInput x (.conv2d cfg) bias "reduce" = .ok X ∧ ∃ G : Fin D → Mat ℝ, (∀ k, processGradOutput (g k) (.conv2d cfg) la "reduce" = .ok (G k)) ∧
      ∀ (o o' : Fin O) (i i' : Fin (P.d2 + if bias = true then 1 else 0)),
        (∑ k, ∑ r ∈ range (G k).rows, (G k).get r o * (G k).get r o') * (∑ r ∈ range X.rows, X.get r i * X.get r i') =
        (ggn (fun w (t : Fin b × Fin D) => φ t.1 (∑ s, out w a t.1 s) t.2) w o i o' i' -
          cov (fun j => ∑ k, fderiv ℝ (φ j) (∑ t, out w a j t) (Pi.single o 1) k * fderiv ℝ (φ j) (∑ t, out w a j t) (Pi.single o' 1) k)
            (fun j => (∑ t, a j t i) * ∑ t, a j t i')) / (numTerms la b (O1 * O2) : ℝ) := by
  obtain ⟨X, hX, -, -, hK⟩ := (C55_conv_input x cfg bias).2 P hP
  obtain ⟨hb, hs⟩ := Nat.mul_ne_zero_iff.1 hn
  choose G hG hC using fun k => (gradGram_conv cfg hla (numTerms_ne la hn) (hg k) fun i t o => by rw [hgrad, outGrad_reduce fun i => (hφ i).hasFDerivAt]).2
  refine ⟨X, hX, G, hG, fun o o' i i' => core_reduce hb hs a w (fun i => (hφ i).hasFDerivAt) _ ?_ (sum_congr rfl fun k _ => hC k o o')⟩
  rw [hK, h0, h1, sum_range]
  congr 1
  refine sum_congr rfl fun j _ => ?_
  have hs' : ((O1 * O2 : ℕ) : ℝ) ≠ 0 := Nat.cast_ne_zero.2 hs
  have : ∀ p : Fin (P.d2 + if bias = true then 1 else 0), withBias bias P.d2 (fun l => (∑ t ∈ range (O1 * O2), P.get j t l) / ((O1 * O2 : ℕ) : ℝ)) p = (∑ t, a j t p) / (O1 * O2 : ℕ) := fun p => by
    simp only [ha, withBias]
    by_cases hp : (p : ℕ) < P.d2
    · simp only [hp, if_true]
      rw [sum_range]
    · simp only [hp, if_false]
      by_cases hq : bias = true ∧ (p : ℕ) = P.d2
      · simp only [if_pos hq, sum_const, card_univ, Fintype.card_fin, nsmul_eq_mul, mul_one]
        rw [div_self hs']
      · simp [hq]
  rw [this, this]
end

/-- an affine map is its own linearisation -/
theorem GN.hasFDerivAt_affine {O D : ℕ} (T : (Fin O → ℝ) →ᵃ[ℝ] (Fin D → ℝ)) (y : Fin O → ℝ) : HasFDerivAt T T.linear.toContinuousLinearMap y := by
  have : (T : (Fin O → ℝ) → Fin D → ℝ) = fun v => T.linear.toContinuousLinearMap v + T 0 := by
    funext v; exact congrFun T.decomp v
  rw [this]
  exact T.linear.toContinuousLinearMap.hasFDerivAt.add_const _

/-- derivative of an affine map after the mean of `s` values, of which the sum is given -/
theorem GN.hasFDerivAt_mean {O D : ℕ} (T : (Fin O → ℝ) →ᵃ[ℝ] (Fin D → ℝ)) (s : ℝ) (y : Fin O → ℝ) :
    HasFDerivAt (fun v => T (s⁻¹ • v)) (T.linear.toContinuousLinearMap.comp (s⁻¹ • ContinuousLinearMap.id ℝ (Fin O → ℝ))) y := by
  exact (hasFDerivAt_affine T (s⁻¹ • y)).comp y ((hasFDerivAt_id y).const_smul s⁻¹)

section
variable {b din O D : ℕ} {sh : List ℕ}

/-- **C83 (exactness for linear networks, linear layers, `expand`).** If what follows the layer is an affine map `T`, applied at every position (any number of linear layers; what precedes the layer is arbitrary), the Kronecker product is the
Gauss-Newton matrix. -/
theorem C83_linear_expand_exact (x : ND ℝ) (hx : x.shape = b :: (sh ++ [din])) (bias : Bool) {la : Option String} (hla : la = none ∨ la = some "batch" ∨ la = some "batch+sequence")
    (hn : b * sh.prod ≠ 0) {a : Fin b → Fin sh.prod → Fin (din + if bias = true then 1 else 0) → ℝ} (ha : ∀ i t p, a i t p = withBias bias din (fun j => x.flat ((i * sh.prod + t) * din + j)) p)
    (w : Fin O → Fin (din + if bias = true then 1 else 0) → ℝ) (T : (Fin O → ℝ) →ᵃ[ℝ] (Fin D → ℝ))
    (g : Fin D → ND ℝ) (hg : ∀ k, (g k).shape = b :: (sh ++ [O])) (hgrad : ∀ k (i : Fin b) (t : Fin sh.prod) (o : Fin O), (g k).flat ((i * sh.prod + t) * O + o) =
      outGrad (fun y => 1 / (numTerms la b sh.prod : ℝ) * ∑ i, ∑ t, T (y i t) k) (out w a) i t o) :
    ∃ X, processInput x .linear bias "expand" = .ok X ∧ ∃ G : Fin D → Mat ℝ, (∀ k, processGradOutput (g k) .linear la "expand" = .ok (G k)) ∧
      ∀ (o o' : Fin O) (i i' : Fin (din + if bias = true then 1 else 0)),
        (∑ k, ∑ r ∈ range (G k).rows, (G k).get r o * (G k).get r o') * (∑ r ∈ range X.rows, X.get r i * X.get r i') =
        ggn (fun w (t : (Fin b × Fin sh.prod) × Fin D) => T (out w a t.1.1 t.1.2) t.2) w o i o' i' / (numTerms la b sh.prod : ℝ) := by
  obtain ⟨X, hX, G, hG, h⟩ := C83_linear_expand x hx bias hla hn ha w (fun _ _ => T) (fun _ _ => (hasFDerivAt_affine T _).differentiableAt) g hg hgrad
  obtain ⟨hb, hs⟩ := Nat.mul_ne_zero_iff.1 hn
  haveI : NeZero b := ⟨hb⟩
  haveI : NeZero sh.prod := ⟨hs⟩
  refine ⟨X, hX, G, hG, fun o o' i i' => ?_⟩
  rw [h, cov_const, sub_zero]
  intro j l
  simp only [(hasFDerivAt_affine T _).fderiv]

/-- **C83 (exactness for linear networks, linear layers, `reduce`).** The network takes the mean over positions, before or after the affine map `T`. -/
theorem C83_linear_reduce_exact (x : ND ℝ) (hx : x.shape = b :: (sh ++ [din])) (bias : Bool) {la : Option String} (hla : la = none ∨ la = some "batch" ∨ la = some "batch+sequence")
    (hn : b * sh.prod ≠ 0) {a : Fin b → Fin sh.prod → Fin (din + if bias = true then 1 else 0) → ℝ} (ha : ∀ i t p, a i t p = withBias bias din (fun j => x.flat ((i * sh.prod + t) * din + j)) p)
    (w : Fin O → Fin (din + if bias = true then 1 else 0) → ℝ) (T : (Fin O → ℝ) →ᵃ[ℝ] (Fin D → ℝ))
    (g : Fin D → ND ℝ) (hg : ∀ k, (g k).shape = b :: (sh ++ [O])) (hgrad : ∀ k (i : Fin b) (t : Fin sh.prod) (o : Fin O), (g k).flat ((i * sh.prod + t) * O + o) =
      outGrad (fun y => 1 / (numTerms la b sh.prod : ℝ) * ∑ i, T ((sh.prod : ℝ)⁻¹ • ∑ t, y i t) k) (out w a) i t o) :
    ∃ X, processInput x .linear bias "reduce" = .ok X ∧ ∃ G : Fin D → Mat ℝ, (∀ k, processGradOutput (g k) .linear la "reduce" = .ok (G k)) ∧
      ∀ (o o' : Fin O) (i i' : Fin (din + if bias = true then 1 else 0)),
        (∑ k, ∑ r ∈ range (G k).rows, (G k).get r o * (G k).get r o') * (∑ r ∈ range X.rows, X.get r i * X.get r i') =
        ggn (fun w (t : Fin b × Fin D) => T ((sh.prod : ℝ)⁻¹ • ∑ s, out w a t.1 s) t.2) w o i o' i' / (numTerms la b sh.prod : ℝ) := by
  obtain ⟨X, hX, G, hG, h⟩ := C83_linear_reduce x hx bias hla hn ha w (fun _ v => T ((sh.prod : ℝ)⁻¹ • v)) (fun _ => (hasFDerivAt_mean T _ _).differentiableAt) g hg hgrad
  obtain ⟨hb, hs⟩ := Nat.mul_ne_zero_iff.1 hn
  haveI : NeZero b := ⟨hb⟩
  refine ⟨X, hX, G, hG, fun o o' i i' => ?_⟩
  rw [h, cov_const, sub_zero]
  intro j l
  simp only [(hasFDerivAt_mean T _ _).fderiv]

/-- the mean over positions may be taken before or after an affine map -/
theorem GN.mean_affine {O D s : ℕ} (hs : s ≠ 0) (T : (Fin O → ℝ) →ᵃ[ℝ] (Fin D → ℝ)) (y : Fin s → Fin O → ℝ) : (s : ℝ)⁻¹ • ∑ t, T (y t) = T ((s : ℝ)⁻¹ • ∑ t, y t) := by
  have hs' : (s : ℝ) ≠ 0 := Nat.cast_ne_zero.2 hs
  have e : ∀ v, T v = T.linear v + T 0 := fun v => congrFun T.decomp v
  rw [e (_ • _), sum_congr rfl fun t _ => e (y t), sum_add_distrib, map_smul, map_sum, smul_add]
  simp [← Nat.cast_smul_eq_nsmul ℝ, smul_smul, hs']

end

section
variable {b O1 O2 O D : ℕ}

/-- **C83 (exactness for linear networks, convolutions, `expand`).** -/
theorem C83_conv_expand_exact (x : ND ℝ) (cfg : ConvCfg) {P : T3 ℝ} (hP : extractPatches x cfg = .ok P) (bias : Bool) {la : Option String} (hla : la = none ∨ la = some "batch" ∨ la = some "batch+sequence")
    (h0 : P.d0 = b) (h1 : P.d1 = O1 * O2) (hn : b * (O1 * O2) ≠ 0) {a : Fin b → Fin (O1 * O2) → Fin (P.d2 + if bias = true then 1 else 0) → ℝ} (ha : ∀ i t p, a i t p = withBias bias P.d2 (P.get i t) p)
    (w : Fin O → Fin (P.d2 + if bias = true then 1 else 0) → ℝ) (T : (Fin O → ℝ) →ᵃ[ℝ] (Fin D → ℝ))
    (g : Fin D → ND ℝ) (hg : ∀ k, (g k).shape = [b, O, O1, O2]) (hgrad : ∀ k (i : Fin b) (t : Fin (O1 * O2)) (o : Fin O), (g k).flat ((i * O + o) * (O1 * O2) + t) =
      outGrad (fun y => 1 / (numTerms la b (O1 * O2) : ℝ) * ∑ i, ∑ t, T (y i t) k) (out w a) i t o) :
    ∃ X, processInput x (.conv2d cfg) bias "expand" = .ok X ∧ ∃ G : Fin D → Mat ℝ, (∀ k, processGradOutput (g k) (.conv2d cfg) la "expand" = .ok (G k)) ∧
      ∀ (o o' : Fin O) (i i' : Fin (P.d2 + if bias = true then 1 else 0)),
        (∑ k, ∑ r ∈ range (G k).rows, (G k).get r o * (G k).get r o') * (∑ r ∈ range X.rows, X.get r i * X.get r i') =
        ggn (fun w (t : (Fin b × Fin (O1 * O2)) × Fin D) => T (out w a t.1.1 t.1.2) t.2) w o i o' i' / (numTerms la b (O1 * O2) : ℝ) := by
  obtain ⟨X, hX, G, hG, h⟩ := C83_conv_expand x cfg hP bias hla h0 h1 hn ha w (fun _ _ => T) (fun _ _ => (hasFDerivAt_affine T _).differentiableAt) g hg hgrad
  obtain ⟨hb, hs⟩ := Nat.mul_ne_zero_iff.1 hn
  haveI : NeZero b := ⟨hb⟩
  haveI : NeZero (O1 * O2) := ⟨hs⟩
  refine ⟨X, hX, G, hG, fun o o' i i' => ?_⟩
  rw [h, cov_const, sub_zero]
  intro j l
  simp only [(hasFDerivAt_affine T _).fderiv]

/-- **C83 (exactness for linear networks, convolutions, `reduce`).** -/
theorem C83_conv_reduce_exact (x : ND ℝ) (cfg : ConvCfg) {P : T3 ℝ} (hP : extractPatches x cfg = .ok P) (bias : Bool) {la : Option String} (hla : la = none ∨ la = some "batch" ∨ la = some "batch+sequence")
    (h0 : P.d0 = b) (h1 : P.d1 = O1 * O2) (hn : b * (O1 * O2) ≠ 0) {a : Fin b → Fin (O1 * O2) → Fin (P.d2 + if bias = true then 1 else 0) → ℝ} (ha : ∀ i t p, a i t p = withBias bias P.d2 (P.get i t) p)
    (w : Fin O → Fin (P.d2 + if bias = true then 1 else 0) → ℝ) (T : (Fin O → ℝ) →ᵃ[ℝ] (Fin D → ℝ))
    (g : Fin D → ND ℝ) (hg : ∀ k, (g k).shape = [b, O, O1, O2]) (hgrad : ∀ k (i : Fin b) (t : Fin (O1 * O2)) (o : Fin O), (g k).flat ((i * O + o) * (O1 * O2) + t) =
      outGrad (fun y => 1 / (numTerms la b (O1 * O2) : ℝ) * ∑ i, T (((O1 * O2 : ℕ) : ℝ)⁻¹ • ∑ t, y i t) k) (out w a) i t o) :
    ∃ X, processInput x (.conv2d cfg) bias "reduce" = .ok X ∧ ∃ G : Fin D → Mat ℝ, (∀ k, processGradOutput (g k) (.conv2d cfg) la "reduce" = .ok (G k)) ∧
      ∀ (o o' : Fin O) (i i' : Fin (P.d2 + if bias = true then 1 else 0)),
        (∑ k, ∑ r ∈ range (G k).rows, (G k).get r o * (G k).get r o') * (∑ r ∈ range X.rows, X.get r i * X.get r i') =
        ggn (fun w (t : Fin b × Fin D) => T (((O1 * O2 : ℕ) : ℝ)⁻¹ • ∑ s, out w a t.1 s) t.2) w o i o' i' / (numTerms la b (O1 * O2) : ℝ) := by
  obtain ⟨X, hX, G, hG, h⟩ := C83_conv_reduce x cfg hP bias hla h0 h1 hn ha w (fun _ v => T (((O1 * O2 : ℕ) : ℝ)⁻¹ • v)) (fun _ => (hasFDerivAt_mean T _ _).differentiableAt) g hg hgrad
  obtain ⟨hb, hs⟩ := Nat.mul_ne_zero_iff.1 hn
  haveI : NeZero b := ⟨hb⟩
  refine ⟨X, hX, G, hG, fun o o' i i' => ?_⟩
  rw [h, cov_const, sub_zero]
  intro j l
  simp only [(hasFDerivAt_mean T _ _).fderiv]

end

namespace Sample

/-- two samples `1` and `2`, one position, one feature -/
def twoRows : ND ℝ := ⟨[2, 1], fun k => k + 1⟩
/-- their rows -/
def twoIn (i : Fin 2) (_ : Fin 1) (_ : Fin 1) : ℝ := i + 1
/-- a weight -/
def oneW (_ : Fin 1) (_ : Fin 1) : ℝ := 1
/-- the square -/
def sq (v : Fin 1 → ℝ) (_ : Fin 1) : ℝ := v 0 ^ 2

theorem hasFDerivAt_sq (v : Fin 1 → ℝ) : ∃ L : (Fin 1 → ℝ) →L[ℝ] (Fin 1 → ℝ), HasFDerivAt sq L v ∧ L (Pi.single 0 1) 0 = 2 * v 0 := by
  have h := (hasDerivAt_pow 2 (v 0)).hasFDerivAt.comp v (ContinuousLinearMap.proj (R := ℝ) (φ := fun _ : Fin 1 => ℝ) 0).hasFDerivAt
  refine ⟨_, hasFDerivAt_pi.2 fun _ => h, ?_⟩
  simp

end Sample

open Sample in
/-- **C83 is false for networks that are not linear after the layer.** For the square of the layer's output, the inputs 1 and 2 and the weight 1, all other hypotheses hold, and the Kronecker product is 50 instead of 68. -/
theorem C83_nonlinear_false : ∃ g : Fin 1 → ND ℝ, (∀ k, (g k).shape = 2 :: ([] ++ [1])) ∧
    (∀ k (i : Fin 2) (t : Fin 1) (o : Fin 1), (g k).flat ((i * 1 + t) * 1 + o) = outGrad (fun y => 1 / (numTerms none 2 1 : ℝ) * ∑ i, ∑ t, sq (y i t) k) (out oneW twoIn) i t o) ∧
    ∃ X, processInput twoRows .linear false "expand" = .ok X ∧ ∃ G : Fin 1 → Mat ℝ, (∀ k, processGradOutput (g k) .linear none "expand" = .ok (G k)) ∧
      (∑ k, ∑ r ∈ range (G k).rows, (G k).get r 0 * (G k).get r 0) * (∑ r ∈ range X.rows, X.get r 0 * X.get r 0) = 50 ∧
      ggn (fun w (t : (Fin 2 × Fin 1) × Fin 1) => sq (out w twoIn t.1.1 t.1.2) t.2) oneW 0 0 0 0 = 68 := by
  choose Φ h1 h2 using fun (i : Fin 2) (t : Fin 1) => hasFDerivAt_sq (out oneW twoIn i t)
  have ho : ∀ i t, out oneW twoIn i t 0 = i + 1 := fun i t => by simp [out, oneW, twoIn]
  let g : Fin 1 → ND ℝ := fun _ => ⟨[2, 1], fun k => 2 * (k + 1)⟩
  have hgrad : ∀ k (i : Fin 2) (t : Fin 1) (o : Fin 1), (g k).flat ((i * 1 + t) * 1 + o) = outGrad (fun y => 1 / (numTerms none 2 1 : ℝ) * ∑ i, ∑ t, sq (y i t) k) (out oneW twoIn) i t o := by
    intro k i t o
    rw [outGrad_expand (φ := fun _ _ => sq) h1]
    obtain rfl : o = 0 := Subsingleton.elim _ _
    obtain rfl : k = 0 := Subsingleton.elim _ _
    obtain rfl : t = 0 := Subsingleton.elim _ _
    rw [h2, ho]
    simp [numTerms, g]
  obtain ⟨X, hX, G, hG, h⟩ := C83_linear_expand (sh := []) (la := none) twoRows rfl false (.inl rfl) (by decide) (a := twoIn)
    (fun i t p => by
      have hp : (p : ℕ) = 0 := Nat.lt_one_iff.1 p.2
      have ht : (t : ℕ) = 0 := Nat.lt_one_iff.1 t.2
      simp [twoIn, withBias, twoRows, hp, ht]) oneW (fun _ _ => sq) (fun i t => (h1 i t).differentiableAt) g (fun _ => rfl) hgrad
  have hggn : ggn (fun w (t : (Fin 2 × Fin 1) × Fin 1) => sq (out w twoIn t.1.1 t.1.2) t.2) oneW 0 0 0 0 = 68 := by
    rw [ggn, Fintype.sum_prod_type, Fintype.sum_prod_type]
    simp only [fderiv_expand twoIn _ _ oneW (h1 _ _), Fin.sum_univ_two, univ_unique, Fin.default_eq_zero, sum_singleton, h2, ho, twoIn]
    norm_num
  refine ⟨g, fun _ => rfl, hgrad, X, hX, G, hG, ?_, hggn⟩
  have := h 0 0 0 0
  have hc : cov (fun t : Fin 2 × Fin 1 => ∑ k, fderiv ℝ sq (out oneW twoIn t.1 t.2) (Pi.single 0 1) k * fderiv ℝ sq (out oneW twoIn t.1 t.2) (Pi.single 0 1) k) (fun t => twoIn t.1 t.2 0 * twoIn t.1 t.2 0) = 18 := by
    rw [cov]
    simp only [(h1 _ _).fderiv, Fintype.sum_prod_type, Fin.sum_univ_two, univ_unique, Fin.default_eq_zero, sum_singleton, h2, ho, twoIn, Fintype.card_prod, Fintype.card_fin]
    norm_num
  refine this.trans ?_
  refine (congrArg₂ (fun u v : ℝ => (u - v) / (numTerms none 2 ([] : List ℕ).prod : ℝ)) hggn hc).trans ?_
  show ((68 : ℝ) - 18) / ((1 : ℕ) : ℝ) = 50
  norm_num

open Sample in
/-- two further linear layers `v ↦ 3 (2 v + 1)` after the layer, loss averaged over the batch: the hypotheses of `C83_linear_expand_exact` hold, with gradients that are not zero -/
example : ∃ (T : (Fin 1 → ℝ) →ᵃ[ℝ] (Fin 1 → ℝ)) (g : Fin 1 → ND ℝ), T (fun _ => 1) = (fun _ => 9) ∧ (g 0).flat 0 = 3 ∧ (∀ k, (g k).shape = 2 :: ([] ++ [1])) ∧
    (∀ k (i : Fin 2) (t : Fin 1) (o : Fin 1), (g k).flat ((i * 1 + t) * 1 + o) = outGrad (fun y => 1 / (numTerms (some "batch") 2 1 : ℝ) * ∑ i, ∑ t, T (y i t) k) (out oneW twoIn) i t o) ∧
    (∀ (i : Fin 2) (t : Fin 1) (p : Fin 1), twoIn i t p = withBias false 1 (fun j => twoRows.flat ((i * 1 + t) * 1 + j)) p) := by
  let one : (Fin 1 → ℝ) →ᵃ[ℝ] (Fin 1 → ℝ) := ((2 : ℝ) • LinearMap.id).toAffineMap + AffineMap.const ℝ (Fin 1 → ℝ) (fun _ : Fin 1 => (1 : ℝ))
  let two : (Fin 1 → ℝ) →ᵃ[ℝ] (Fin 1 → ℝ) := ((3 : ℝ) • LinearMap.id).toAffineMap
  refine ⟨two.comp one, fun _ => ⟨[2, 1], fun _ => 3⟩, ?_, rfl, fun _ => rfl, fun k i t o => ?_, fun i t p => ?_⟩
  · funext j
    simp [one, two]; norm_num
  · rw [outGrad_expand (φ := fun _ _ => ⇑(two.comp one)) fun _ _ => hasFDerivAt_affine _ _]
    obtain rfl : o = 0 := Subsingleton.elim _ _
    obtain rfl : k = 0 := Subsingleton.elim _ _
    rw [show numTerms (some "batch") 2 1 = 2 from rfl]
    simp [one, two]; norm_num
  · have hp : (p : ℕ) = 0 := Nat.lt_one_iff.1 p.2
    have ht : (t : ℕ) = 0 := Nat.lt_one_iff.1 t.2
    simp [twoIn, withBias, twoRows, hp, ht]
