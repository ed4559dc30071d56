import Verif.Proofs.RoundingEval
import Verif.Props.LiveSample
import Verif.Proofs.Opt.Direction
import Mathlib.Data.Rat.Floor
import Mathlib.LinearAlgebra.Matrix.Determinant.Basic

/-!
C70: rounding errors of the applied direction.

`FNatGrad u K C s G N` (`Verif/Model/Rounding.lean`): `N` is a possible result of `_compute_natural_gradient` if every operation and every
conversion has a relative error of at most `u`, and sums of products are evaluated in any order.
-/

open Finset Matrix
variable {α : Type} [Field α] [LinearOrder α] [IsStrictOrderedRing α]

namespace Rounding
variable {u : α} {cK cC : Cls} {p q : ℕ} {K C : SM α} {s : α} {G N : Mat α}

/-- number of roundings between an entry of the gradient and an entry of the natural gradient -/
def depth (cK cC : Cls) (p q : ℕ) : ℕ := 2 * cK.chain q + 2 * cC.chain p + 16

theorem absM_inv_smul (s : α) {p q : ℕ} (G : Matrix (Fin p) (Fin q) α) : absM (s⁻¹ • G) = |s|⁻¹ • absM G := by
  ext i j; simp [absM, abs_mul, abs_inv]

/-- **C70 (error bound).** For all factors of all classes, all gradients and all ways of evaluating the products, every entry of the
computed natural gradient differs from the exact direction `1/s CCᵀ G KKᵀ` (`natDir`; `CC`, `KK` for block-diagonal classes, see C03) by
at most `(1 + u)^k − 1` times the same product of absolute values, where `k = 2 (k_K + k_C) + 16` and `k_K`, `k_C` are 1 for diagonal
factors, the block size for block-diagonal ones, twice the dimension minus 1 for Toeplitz ones, and the dimension (plus 2) else. -/
theorem C70_error (hu : 0 ≤ u) (hK : WF cK q K) (hC : WF cC p C) (hr : G.rows = p) (hc : G.cols = q) (h : FNatGrad u K C s G N) :
    N.rows = p ∧ N.cols = q ∧ ∀ i j,
      |N.M p q i j - natDir (cK, cC) s (G.M p q) (K.den q) (C.den p) i j| ≤
        ((1 + u) ^ depth cK cC p q - 1) * natDir (cK, cC) |s| (absM (G.M p q)) (absM (K.den q)) (absM (C.den p)) i j := by
  obtain ⟨h1, h2, h3⟩ := h.err hu hK hC hr hc
  refine ⟨h1, h2, fun i j => ?_⟩
  have h4 := (h3 i j).err
  rw [absM_inv_smul] at h4
  simp only [natDir, one_div]
  simp only [Matrix.mul_smul, Matrix.smul_mul] at h4
  exact h4

/-- **C70 (no rounding).** With `u = 0` the only possible result is the one of the model of C01–C69. -/
theorem C70_exact {w : World α} {m : Layer} (hK : WF cK q K) (hC : WF cC p C) (hp : 0 < p) (hq : 0 < q) (hr : G.rows = p)
    (hc : G.cols = q) (hG : w.gradMat m = .ok G) (hs : w.opt.scale w.opt.steps = .ok s) {hy : Hyper α} (hh : w.opt.hyperOf m = .ok hy)
    (kK : w.opt.Ks m.name = some K) (kC : w.opt.Cs m.name = some C) : w.natGradMat m = .ok N ↔ FNatGrad 0 K C s G N := by
  have hf : ∀ x : α, Rnd 0 x (id x) := Rnd.refl le_rfl
  have e0 : (Mat.ofFn G.rows G.cols fun i j => id (G.get i j / s)) = if s ≠ 1 then G.smul (1 / s) else G := by
    refine Mat.ext' (by split_ifs <;> rfl) (by split_ifs <;> rfl) fun i hi j hj => ?_
    rw [Mat.get_ofFn, if_pos ⟨hi, hj⟩]
    split_ifs with h
    · rw [Mat.get_smul, mul_one_div]; rfl
    · rw [not_not] at h; rw [h, div_one]; rfl
  have e : w.natGradMat m = .ok (flNatGrad id K C s G) := by
    unfold World.natGradMat flNatGrad
    rw [hG, hs, hh, lookup, kK, lookup, kC]
    simp only [Except.bind_ok']
    rw [← e0]
    rw [hK.rmatmat_id (by simp [hc]) (by simp [hr, hp])]
    simp only [Except.bind_ok']
    rw [hK.matmul_id (by simp [SM.flRmatmat, hc]) (by simp [SM.flRmatmat, hr, hp])]
    simp only [Except.bind_ok']
    rw [hC.rmatmat_id (by simp [SM.flRmatmat, SM.flMatmul, hr]) (by simp [SM.flRmatmat, SM.flMatmul, hc, hq])]
    simp only [Except.bind_ok']
    rw [hC.matmul_id (by simp [SM.flRmatmat, SM.flMatmul, hr]) (by simp [SM.flRmatmat, SM.flMatmul, hc, hq])]
  have sp := flNatGrad_spec (le_refl (0 : α)) hf hK hC s G
  rw [e]
  constructor
  · intro h; cases h; exact sp
  · intro h
    obtain ⟨a1, a2, a3⟩ := C70_error le_rfl hK hC hr hc h
    obtain ⟨b1, b2, b3⟩ := C70_error le_rfl hK hC hr hc sp
    congr 1
    refine Mat.ext' (b1.trans a1.symm) (b2.trans a2.symm) fun i hi j hj => ?_
    have a4 := a3 ⟨i, b1 ▸ hi⟩ ⟨j, b2 ▸ hj⟩
    have b4 := b3 ⟨i, b1 ▸ hi⟩ ⟨j, b2 ▸ hj⟩
    rw [add_zero, one_pow, sub_self, zero_mul] at a4 b4
    have a5 := sub_eq_zero.1 (abs_eq_zero.1 (le_antisymm a4 (abs_nonneg _)))
    have b5 := sub_eq_zero.1 (abs_eq_zero.1 (le_antisymm b4 (abs_nonneg _)))
    exact b5.trans a5.symm

/-- **C70 (trained layers).** In every well-formed state of the optimizer: with `u = 0` the computed direction is the one of the exact model
(C27), with `u > 0` it differs from it by at most `((1 + u)^k − 1)` times the product of absolute values. -/
theorem C70_model [HasSqrt α] (hu : 0 ≤ u) {cl : String → Cls × Cls} {w : World α} {m : Layer} (hw : w.Sound cl) (hm : m ∈ w.opt.layers)
    (hg : LayerGrads w m) (hs : w.opt.scale w.opt.steps = .ok s) :
    ∃ (K C : SM α) (G N₀ : Mat α), w.opt.Ks m.name = some K ∧ w.opt.Cs m.name = some C ∧ w.gradMat m = .ok G ∧ w.natGradMat m = .ok N₀ ∧
      (∀ N, FNatGrad 0 K C s G N ↔ N = N₀) ∧ ∀ N, FNatGrad u K C s G N → ∀ (i : Fin m.nC) (j : Fin m.nK),
        |N.M m.nC m.nK i j - N₀.M m.nC m.nK i j| ≤ ((1 + u) ^ depth (cl m.name).1 (cl m.name).2 m.nC m.nK - 1) *
          natDir (cl m.name) |s| (absM (gradM w m)) (absM (K.den m.nK)) (absM (C.den m.nC)) i j := by
  have hgood := hw.good m hm
  obtain ⟨K, eK, wK⟩ := (hw.lay m hm).K
  obtain ⟨C, eC, wC⟩ := (hw.lay m hm).C
  obtain ⟨hy, hh, -⟩ := hw.hyper m hm
  obtain ⟨G, eG, sG, dG⟩ := World.gradMat_spec hgood.sup hg
  obtain ⟨N₀, eN, -, dN⟩ := World.natGradMat_spec hgood (hw.lay m hm) hg hh hs
  refine ⟨K, C, G, N₀, eK, eC, eG, eN, fun N => ?_, fun N hN i j => ?_⟩
  · rw [← C70_exact wK wC hgood.posC hgood.posK sG.1 sG.2 eG hs hh eK eC, eN]
    exact ⟨fun h => by cases h; rfl, fun h => by rw [h]⟩
  · obtain ⟨-, -, h⟩ := C70_error hu wK wC sG.1 sG.2 hN
    rw [dN, ← dG, eK, eC]
    exact h i j

/-- the hypotheses hold for the freshly constructed sample optimizer over ℝ: a layer with a dense and a diagonal factor, gradients of ones -/
example : ∃ (w : World ℝ) (cl : String → Cls × Cls), Sample.la ∈ w.opt.layers ∧ w.Sound cl ∧ LayerGrads w Sample.la ∧
    w.opt.scale w.opt.steps = .ok 1 := by
  obtain ⟨o, ws, h, hl, hh, ht⟩ := Sample.glive_init (α := ℝ)
  have I := Construct.init_ok (by decide) h
  obtain ⟨cl, -, hlive⟩ := I.live (grad := Sample.ggrad) ht one_pos
  have S := hlive.sound
  refine ⟨⟨{ o with scales := fun _ => some 1 }, Sample.gdata, Sample.ggrad, []⟩, cl, by show _ ∈ o.layers; rw [hl]; simp,
    ⟨S.untied, S.good, fun m hm => ?_, fun m hm => ?_, S.hyper⟩,
    ⟨⟨_, rfl, rfl, rfl⟩, fun b hb => by cases hb; exact ⟨_, rfl, rfl, rfl⟩⟩, rfl⟩
  · have l := S.lay m hm; exact ⟨l.K, l.C, l.mK, l.mC, l.HK, l.HC⟩
  · have l := S.shape m hm
    exact ⟨⟨l.weight.1, l.weight.2⟩, fun b hb => ⟨⟨(l.bias b hb).1.1, (l.bias b hb).1.2⟩, (l.bias b hb).2⟩⟩

/-- **C70 (admitted evaluations).** Plain loops with any rounding function of relative error at most `u` are covered (they multiply,
round, add, round, from left to right; `flNatGrad`). -/
theorem C70_admits (hu : 0 ≤ u) {fl : α → α} (hf : ∀ x, Rnd u x (fl x)) (hK : WF cK q K) (hC : WF cC p C) (s : α) (G : Mat α) :
    FNatGrad u K C s G (flNatGrad fl K C s G) := flNatGrad_spec hu hf hK hC s G

/-- **C70 (binary floating point).** Rounding to the nearest number with `p` significant bits has a relative error of at most `2^{-p}`
(`p` is 8 for `bfloat16`, 11 for `float16`, 24 for `float32`). -/
theorem C70_binary [FloorRing α] (p : ℕ) (x : α) : |flBin p x - x| ≤ 2 ^ (-p : ℤ) * |x| := flBin_rnd p x

/-- the rounding function at work: 0.217 in `bfloat16` -/
example : flBin 8 (217 / 1000 : ℚ) = 111 / 512 := by decide +kernel

/-- **C70 (diagonal factors).** If both factors are diagonal, every entry has a small relative error: no cancellation takes place. -/
theorem C70_diagonal (hu : 0 ≤ u) (hK : WF .diagonal q K) (hC : WF .diagonal p C) (hr : G.rows = p) (hc : G.cols = q)
    (h : FNatGrad u K C s G N) (i : Fin p) (j : Fin q) :
    |N.M p q i j - C.den p i i ^ 2 * K.den q j j ^ 2 * G.M p q i j / s| ≤
      ((1 + u) ^ 20 - 1) * |C.den p i i ^ 2 * K.den q j j ^ 2 * G.M p q i j / s| := by
  obtain ⟨-, -, h3⟩ := h.err hu hK hC hr hc
  have h4 := (h3 i j).err
  rw [diag_bound hK hC] at h4
  have e : (Cls.gram .diagonal (C.den p) * (s⁻¹ • G.M p q) * (Cls.gram .diagonal (K.den q))ᵀ) i j =
      C.den p i i ^ 2 * K.den q j j ^ 2 * G.M p q i j / s := by
    obtain ⟨d, hd⟩ := hK.den_diagonal
    obtain ⟨e, he⟩ := hC.den_diagonal
    rw [hd, he]
    simp only [Cls.gram, Matrix.diagonal_transpose, Matrix.diagonal_mul_diagonal, Matrix.mul_diagonal, Matrix.diagonal_mul,
      Matrix.diagonal_apply_eq, Matrix.smul_apply, smul_eq_mul]
    ring
  rw [absM, Matrix.map_apply, e] at h4
  exact h4

/-- **C70 (descent with diagonal factors).** For diagonal factors the computed direction never points against the gradient, entry by entry,
as long as `(1 + u)^20 < 2` (all floating point types of torch), and is a strict descent direction wherever neither the gradient nor the
factors vanish. -/
theorem C70_diagonal_descent (hu : 0 ≤ u) (h2 : (1 + u) ^ 20 < 2) (s0 : 0 < s) (hK : WF .diagonal q K) (hC : WF .diagonal p C)
    (hr : G.rows = p) (hc : G.cols = q) (h : FNatGrad u K C s G N) (i : Fin p) (j : Fin q) :
    0 ≤ G.M p q i j * N.M p q i j ∧
    (G.M p q i j ≠ 0 → C.den p i i ≠ 0 → K.den q j j ≠ 0 → 0 < G.M p q i j * N.M p q i j) := by
  have h1 := C70_diagonal hu hK hC hr hc h i j
  set g := G.M p q i j
  set n := N.M p q i j
  set a := C.den p i i ^ 2 * K.den q j j ^ 2 / s with ha
  have a0 : 0 ≤ a := by positivity
  have e : C.den p i i ^ 2 * K.den q j j ^ 2 * g / s = a * g := by rw [ha]; ring
  rw [e, abs_mul, abs_of_nonneg a0] at h1
  have key : (2 - (1 + u) ^ 20) * (a * g ^ 2) ≤ g * n := by
    have h3 : |g * (n - a * g)| ≤ ((1 + u) ^ 20 - 1) * (a * g ^ 2) := by
      rw [abs_mul, ← sq_abs g]
      calc |g| * |n - a * g| ≤ |g| * (((1 + u) ^ 20 - 1) * (a * |g|)) := mul_le_mul_of_nonneg_left h1 (abs_nonneg _)
        _ = _ := by ring
    have h4 := (abs_le.1 h3).1
    nlinarith
  refine ⟨le_trans (mul_nonneg (by linarith) (mul_nonneg a0 (sq_nonneg _))) key, fun g0 c0 k0 => lt_of_lt_of_le ?_ key⟩
  have : 0 < a := by positivity
  exact mul_pos (by linarith) (mul_pos this (by positivity))

/-- unit round-off of `bfloat16`, even with truncation -/
example : (1 + 1 / 128 : ℚ) ^ 20 < 2 := by norm_num

/-- **C70 (descent).** For all other classes but block-diagonal ones: the computed direction is a descent direction if the rounding errors are
small compared with the cancellation in `Cᵀ G K`. -/
theorem C70_descent (hu : 0 ≤ u) (s0 : 0 < s) (hK : WF cK q K) (hC : WF cC p C) (bK : ¬ cK.IsBlock) (bC : ¬ cC.IsBlock) (hr : G.rows = p)
    (hc : G.cols = q) (h : FNatGrad u K C s G N)
    (hs : ((1 + u) ^ depth cK cC p q - 1) * ∑ i, ∑ j, ((absM (C.den p))ᵀ * absM (G.M p q) * absM (K.den q)) i j ^ 2 <
      ∑ i, ∑ j, ((C.den p)ᵀ * G.M p q * K.den q) i j ^ 2) : 0 < ∑ i, ∑ j, G.M p q i j * N.M p q i j := by
  obtain ⟨-, -, h3⟩ := h.err hu hK hC hr hc
  have h4 := MApp.inner (k := depth cK cC p q) h3 (G.M p q)
  have gr : ∀ (c : Cls), ¬ c.IsBlock → ∀ {n : ℕ} (A : Matrix (Fin n) (Fin n) α), c.gram A = A * Aᵀ := by
    intro c hc n A; cases c <;> first | rfl | exact absurd trivial hc
  have ab : absM (s⁻¹ • G.M p q) = s⁻¹ • absM (G.M p q) := by
    ext i j; simp [absM, abs_mul, abs_of_pos s0]
  have e1 : ∀ (A : Matrix (Fin p) (Fin p) α) (B : Matrix (Fin q) (Fin q) α) (X : Matrix (Fin p) (Fin q) α),
      ∑ i, ∑ j, X i j * (A * Aᵀ * (s⁻¹ • X) * (B * Bᵀ)ᵀ) i j = s⁻¹ * ∑ i, ∑ j, (Aᵀ * X * B) i j ^ 2 := by
    intro A B X
    rw [← inner_gram]
    simp only [Matrix.mul_smul, Matrix.smul_mul, Matrix.smul_apply, smul_eq_mul, Finset.mul_sum]
    exact sum_congr rfl fun i _ => sum_congr rfl fun j _ => by ring
  rw [gr cC bC, gr cK bK, gr cC bC, gr cK bK, ab, e1, show (∑ i, ∑ j, |G.M p q i j| * (absM (C.den p) * (absM (C.den p))ᵀ * s⁻¹ • absM (G.M p q) *
    (absM (K.den q) * (absM (K.den q))ᵀ)ᵀ) i j) = _ from e1 _ _ (absM (G.M p q))] at h4
  have h5 := (abs_le.1 h4).1
  have h6 : 0 < s⁻¹ := inv_pos.2 s0
  have h7 := mul_lt_mul_of_pos_left hs h6
  show 0 < ∑ i, ∑ j, G.M p q i j * N.get i j
  linarith [mul_left_comm (s⁻¹) ((1 + u) ^ depth cK cC p q - 1) (∑ i, ∑ j, ((absM (C.den p))ᵀ * absM (G.M p q) * absM (K.den q)) i j ^ 2)]

/-- The hypotheses of `C70_error`, `C70_diagonal`, `C70_diagonal_descent` hold for `bfloat16` arithmetic with diagonal factors, -/
example : ∃ (K C : SM ℚ) (G N : Mat ℚ), WF .diagonal 2 K ∧ WF .diagonal 1 C ∧ G.rows = 1 ∧ G.cols = 2 ∧ FNatGrad (2 ^ (-8 : ℤ)) K C 4 G N ∧
    N.toLists = [[-9 / 128, 0]] ∧ (0 : ℚ) ≤ 2 ^ (-8 : ℤ) ∧ (1 + 2 ^ (-8 : ℤ) : ℚ) ^ 20 < 2 :=
  ⟨.diagonal (Vec.ofFn 2 fun i => 3 / 4 + i), .diagonal (Vec.ofFn 1 fun _ => 1), Mat.ofFn 1 2 fun _ j => if j = 0 then -1 / 2 else 0, _,
    .diagonal rfl, .diagonal rfl, rfl, rfl, C70_admits (by positivity) (fun x => flBin_rnd 8 x) (.diagonal rfl) (.diagonal rfl) 4 _,
    by decide +kernel, by positivity, by norm_num⟩

/-- and those of `C70_descent` for triangular Toeplitz factors. -/
example : ∃ (K C : SM ℚ) (G N : Mat ℚ), WF .tril 2 K ∧ WF .dense 1 C ∧ FNatGrad (2 ^ (-8 : ℤ)) K C 1 G N ∧
    (((1 + 2 ^ (-8 : ℤ) : ℚ)) ^ depth .tril .dense 1 2 - 1) * ∑ i, ∑ j, ((absM (C.den 1))ᵀ * absM (G.M 1 2) * absM (K.den 2)) i j ^ 2 <
      ∑ i, ∑ j, ((C.den 1)ᵀ * G.M 1 2 * K.den 2) i j ^ 2 := by
  refine ⟨.tril (Vec.ofFn 2 fun i => if i = 0 then 2 else -1), .dense (Mat.eye 1), Mat.ofFn 1 2 fun _ j => j + 1, _, .tril (by decide) rfl,
    .dense rfl rfl, C70_admits (by positivity) (fun x => flBin_rnd 8 x) (.tril (by decide) rfl) (.dense rfl rfl) 1 _, ?_⟩
  simp only [Fin.sum_univ_two, Finset.univ_unique, Finset.sum_singleton, Mat.M, Matrix.mul_apply, Matrix.transpose_apply, SM.den, SM.toDense,
    absM, Matrix.map_apply, Tril.get_toDense, depth, Cls.chain]
  simp [Mat.eye]
  norm_num [abs_of_pos, abs_of_neg]

/-! ### Descent can be lost -/

/-- `[[1, 0], [1, δ]]` -/
def skew (δ : α) : Mat α := Mat.ofFn 2 2 fun i j => if j = 0 then 1 else if i = 1 then δ else 0
/-- the gradient `(1, −1)` -/
def opp : Mat α := Mat.ofFn 1 2 fun _ j => if j = 0 then 1 else -1
/-- a column -/
def col (a b : α) : Mat α := Mat.ofFn 2 1 fun i _ => if i = 0 then a else b

/-- **C70 (ascent).** For every positive unit round-off there are invertible dense factors and a gradient for which a possible result points
uphill: its inner product with the gradient is negative, although the exact direction is a descent direction. -/
theorem C70_ascent {u : α} (u0 : 0 < u) : ∃ (K C : SM α) (G N : Mat α), WF .dense 2 K ∧ WF .dense 1 C ∧
    (K.den 2).det ≠ 0 ∧ (C.den 1).det ≠ 0 ∧ FNatGrad u K C 1 G N ∧ ∑ i, ∑ j, G.M 1 2 i j * N.M 1 2 i j < 0 ∧
    0 < ∑ i, ∑ j, G.M 1 2 i j * natDir (.dense, .dense) 1 (G.M 1 2) (K.den 2) (C.den 1) i j := by
  have rr : ∀ x : α, Rnd u x x := Rnd.refl u0.le
  have r1 : Rnd u (1 * 1 : α) (1 + u) := by
    rw [Rnd, mul_one, add_sub_cancel_left, abs_one, mul_one, abs_of_pos u0]
  have r2 : Rnd u (1 * u) (u - u ^ 2) := by
    rw [Rnd, one_mul, show u - u ^ 2 - u = -(u * u) by ring, abs_neg, abs_mul, abs_of_pos u0]
  have k1 : ∀ x : α, Dot u 1 [(1, x)] x := fun x => .mul (by rw [one_mul]; exact rr x)
  refine ⟨.dense (skew (u / 2)), .dense (Mat.eye 1), opp, (col (u - u ^ 2) (u - (u / 2) ^ 2)).T, .dense rfl rfl, .dense rfl rfl, ?_, ?_, ?_, ?_, ?_⟩
  · rw [Matrix.det_fin_two]
    simp [SM.den, SM.toDense, Mat.M, skew, u0.ne']
  · rw [Matrix.det_unique]
    simp [SM.den, SM.toDense, Mat.M, Mat.eye]
  · refine ⟨opp, opp.T, col u (-(u / 2)), col (u - u ^ 2) (u - (u / 2) ^ 2), (col (u - u ^ 2) (u - (u / 2) ^ 2)).T, (col (u - u ^ 2) (u - (u / 2) ^ 2)).T,
      (col (u - u ^ 2) (u - (u / 2) ^ 2)).T, ⟨rfl, rfl, fun i j => by rw [div_one]; exact rr _⟩, Mat.Cast.refl u0.le _,
      ⟨_, _, _, SM.Cast.refl u0.le _, Mat.Cast.refl u0.le _, Mat.Cast.refl u0.le _, rfl, rfl, ?_⟩,
      ⟨_, _, _, SM.Cast.refl u0.le _, Mat.Cast.refl u0.le _, Mat.Cast.refl u0.le _, rfl, rfl, ?_⟩, Mat.Cast.refl u0.le _,
      ⟨_, _, _, SM.Cast.refl u0.le _, Mat.Cast.refl u0.le _, Mat.Cast.refl u0.le _, rfl, rfl, ?_⟩,
      ⟨_, _, _, SM.Cast.refl u0.le _, Mat.Cast.refl u0.le _, Mat.Cast.refl u0.le _, rfl, rfl, ?_⟩, Mat.Cast.refl u0.le _⟩
    · intro i hi j hj
      have hj : j = 0 := Nat.lt_one_iff.1 hj
      subst hj
      have hi : i < 2 := hi
      rcases (by omega : i = 0 ∨ i = 1) with rfl | rfl
      · show Dot u 2 [(1, 1), (1, -1)] u
        exact .add (xs := [(1, 1)]) (.mul r1) (.mul (rr _)) (by rw [show (1 + u) + 1 * -1 = u by ring]; exact rr u)
      · show Dot u 2 [(0, 1), (u / 2, -1)] (-(u / 2))
        exact .add (xs := [(0, 1)]) (.mul (rr _)) (.mul (rr _)) (by rw [show (0 : α) * 1 + u / 2 * -1 = -(u / 2) by ring]; exact rr _)
    · intro i hi j hj
      have hj : j = 0 := Nat.lt_one_iff.1 hj
      subst hj
      have hi : i < 2 := hi
      rcases (by omega : i = 0 ∨ i = 1) with rfl | rfl
      · show Dot u 2 [(1, u), (0, -(u / 2))] (u - u ^ 2)
        exact .add (xs := [(1, u)]) (.mul r2) (.mul (rr _)) (by rw [show u - u ^ 2 + 0 * -(u / 2) = u - u ^ 2 by ring]; exact rr _)
      · show Dot u 2 [(1, u), (u / 2, -(u / 2))] (u - (u / 2) ^ 2)
        exact .add (xs := [(1, u)]) (.mul (rr _)) (.mul (rr _))
          (by rw [show 1 * u + u / 2 * -(u / 2) = u - (u / 2) ^ 2 by ring]; exact rr _)
    · intro i hi j hj
      have hi : i = 0 := Nat.lt_one_iff.1 hi
      subst hi
      exact k1 _
    · intro i hi j hj
      have hi : i = 0 := Nat.lt_one_iff.1 hi
      subst hi
      exact k1 _
  · simp only [Fin.sum_univ_two, Fin.sum_univ_one, Finset.univ_unique, Finset.sum_singleton, Mat.M]
    simp [opp, col]
    nlinarith [mul_pos u0 u0]
  · simp only [Fin.sum_univ_two, Finset.univ_unique, Finset.sum_singleton, Mat.M, natDir, Cls.gram, Matrix.smul_apply, Matrix.mul_apply,
      Matrix.transpose_apply, SM.den, SM.toDense]
    simp [opp, skew, Mat.eye]
    nlinarith [mul_pos u0 u0]

/-- a dense factor and a gradient with cancellation, all entries `bfloat16` numbers -/
def bfK : SM ℚ := .dense (Mat.ofFn 3 3 fun i j =>
  if j = 0 then (if i = 0 then 123 / 64 else if i = 1 then 61 / 32 else 193 / 128) else if i = j then 1 / 16777216 else 0)
def bfG : Mat ℚ := Mat.ofFn 1 3 fun _ j => if j = 0 then 217 / 128 else if j = 1 then -63 / 32 else 21 / 64

/-- **C70 (ascent in `bfloat16`).** The same with rounding to nearest in `bfloat16` and plain loops: a dense invertible factor and a gradient, all of
whose entries are `bfloat16` numbers, for which the computed direction points uphill. -/
theorem C70_ascent_bfloat16 : WF .dense 3 bfK ∧ WF .dense 1 (.dense (Mat.eye 1) : SM ℚ) ∧
    (∀ i < 3, ∀ j < 3, flBin 8 (bfK.toDense.get i j) = bfK.toDense.get i j) ∧ (∀ j < 3, flBin 8 (bfG.get 0 j) = bfG.get 0 j) ∧
    (bfK.den 3).det ≠ 0 ∧ FNatGrad (2 ^ (-8 : ℤ)) bfK (.dense (Mat.eye 1)) 1 bfG (flNatGrad (flBin 8) bfK (.dense (Mat.eye 1)) 1 bfG) ∧
    ∑ i, ∑ j, bfG.M 1 3 i j * (flNatGrad (flBin 8) bfK (.dense (Mat.eye 1)) 1 bfG).M 1 3 i j < 0 := by
  have hK : WF .dense 3 bfK := .dense rfl rfl
  have hC : WF .dense 1 (.dense (Mat.eye 1) : SM ℚ) := .dense rfl rfl
  have e : (flNatGrad (flBin 8) bfK (.dense (Mat.eye 1)) 1 bfG).get 0 0 = 77 / 4096 ∧
    (flNatGrad (flBin 8) bfK (.dense (Mat.eye 1)) 1 bfG).get 0 1 = 153 / 8192 ∧
    (flNatGrad (flBin 8) bfK (.dense (Mat.eye 1)) 1 bfG).get 0 2 = 241 / 16384 := by decide +kernel
  refine ⟨hK, hC, by decide +kernel, by decide +kernel, ?_, C70_admits (by positivity) (fun x => flBin_rnd 8 x) hK hC 1 bfG, ?_⟩
  · rw [Matrix.det_fin_three]
    simp [SM.den, SM.toDense, Mat.M, bfK]
  · simp only [Fin.sum_univ_three, Finset.univ_unique, Finset.sum_singleton, Mat.M]
    show bfG.get 0 0 * _ + bfG.get 0 1 * _ + bfG.get 0 2 * _ < 0
    erw [e.1, e.2.1, e.2.2]
    simp [bfG]
    norm_num

/-! ### Parameters -/

/-- **C70 (parameters).** One entry of a parameter update with rounding: if the computed direction `n'` approximates `n` with error at most
`((1 + u)^k − 1) B` and `|n| ≤ B`, the new value differs from the exact one, `p − lr (μ b + n + wd p)`, by at most `((1 + u)^(k+5) − 1)` times the same
expression with absolute values; the momentum buffer likewise. -/
theorem C70_param (hu : 0 ≤ u) {h : Hyper α} {k : ℕ} {x b n n' B x' b' : α} (hB : |n| ≤ B) (hn : |n' - n| ≤ ((1 + u) ^ k - 1) * B)
    (hp : FParam u h x b n' x' b') :
    |x' - (x - h.lr * (b * h.momentum + (n + h.weightDecay * x)))| ≤
      ((1 + u) ^ (k + 5) - 1) * (|x| + |h.lr| * (|b| * |h.momentum| + (B + |h.weightDecay| * |x|))) ∧
    (h.momentum ≠ 0 → |b' - (b * h.momentum + (n + h.weightDecay * x))| ≤
      ((1 + u) ^ (k + 3) - 1) * (|b| * |h.momentum| + (B + |h.weightDecay| * |x|))) ∧
    (h.momentum = 0 → b' = b) := by
  obtain ⟨h1, h2, h3⟩ := FParam.err hu ⟨hB, hn⟩ hp
  exact ⟨h1.err, fun h => (h2 h).err, h3⟩

end Rounding
