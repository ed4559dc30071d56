import Verif.Model.RoundingFactor
import Verif.Proofs.RoundingDense
import Verif.Proofs.Pattern

/-! Error analysis of the rounded factor update. -/

set_option linter.unusedSectionVars false
variable {α : Type} [Field α] [LinearOrder α] [IsStrictOrderedRing α] {u : α} {c : Cls} {n : ℕ} {K M K' P : SM α}

theorem SM.FProduct.err (hu : 0 ≤ u) (hc : c.Regular) (hK : WF c n K) (hM : WF c n M) (h : SM.FProduct u c n K M P) :
    MApp u (4 * n + 7) (absM (K.den n) * absM (M.den n)) (K.den n * M.den n) P.toDense := by
  obtain ⟨_, K', M', Q, cK, cM, q1, q2, hd, hr⟩ := h
  obtain ⟨hK', gK⟩ := hK.cast hu cK
  obtain ⟨hM', gM⟩ := hM.cast hu cM
  have hQ : MApp u (2 * n + 4) (absM (K.den n) * absM (M.den n)) (K.den n * M.den n) Q := by
    intro i j
    have hX : ∀ k : Fin n, App u 1 |M.toDense.get k j| (M.toDense.get k j) (M'.toDense.get k j) := fun k => by
      simpa using (App.self (M.toDense.get k j)).rnd hu (gM k j)
    have cols : K'.toDense.cols = n := hK'.shape.2
    have := App.dot hu (n := n) (fun k => gK i k) hX (hd i i.2 j j.2)
      (by rw [Mat.sum_terms (g := fun a b => a * b), cols, Finset.sum_range])
      (by rw [Mat.sum_terms (g := fun a b => |a| * |b|), cols, Finset.sum_range])
    rw [Matrix.mul_apply, Matrix.mul_apply, show 2 * n + 4 = 1 + 1 + (2 * n + 2) by ring]
    exact this
  have other : (∀ i < n, ∀ j < n, Rnd u (Q.get i j) (P.toDense.get i j)) →
      MApp u (4 * n + 7) (absM (K.den n) * absM (M.den n)) (K.den n * M.den n) P.toDense := fun hr i j =>
    ((hQ i j).rnd hu (hr i i.2 j j.2)).mono hu (by omega) le_rfl
  have recur : c.NoHier → (∃ P', SM.FFromDense u c Q P' ∧ P'.Cast u P) →
      MApp u (4 * n + 7) (absM (K.den n) * absM (M.den n)) (K.den n * M.den n) P.toDense := fun hn ⟨P', f, cP⟩ => by
    obtain ⟨w, hP⟩ := f.mapp hu hK.supports q1 q2 hQ
    obtain ⟨L, _, wL, dL⟩ := C01_matmul_exact hc hK hM
    rw [proj_abs_mul hK hM hn, ← dL, wL.proj_den hn, dL] at hP
    intro i j
    exact ((hP i j).rnd hu ((w.cast hu cP).2 i j)).mono hu (by omega) le_rfl
  cases c with
  | topRight => exact recur hc hr
  | bottomLeft => exact recur hc hr
  | _ => exact other hr

theorem FFactor.err [HasSqrt α] (hu : 0 ≤ u) {h : Hyper α} {t : ℕ} (hc : c.Regular) (hK : WF c n K) (hM : WF c n M) (hn : 0 < n) (hf : FFactor u h t c n K M K') :
    ∃ b, IsRate h t (M.den n) b ∧
      MApp u (4 * n + 11) (absM (K.den n) + |b| • (absM (K.den n) * absM (M.den n))) (K.den n * (1 - b • M.den n)) K'.toDense := by
  obtain ⟨_, b, P, ⟨b0, q, e0, r1, r2⟩, hP, hx⟩ := hf
  obtain ⟨b', e', hb⟩ := factorRate_den h t hM hn
  rw [e0] at e'; cases e'
  refine ⟨b0, hb, fun i j => ?_⟩
  obtain ⟨y, hy, hz⟩ := hx i i.2 j j.2
  have a1 : App u 2 |b0| (-b0) (-b) := by
    have := ((App.self b0).rnd hu r1).rnd hu r2
    refine ⟨by rw [abs_neg], ?_⟩
    rw [neg_sub_neg, abs_sub_comm]; exact this.err
  have a2 := a1.mul hu (hP.err hu hc hK hM i j) hy
  have a3 := ((App.self (K.toDense.get i j)).mono hu (Nat.zero_le (2 + (4 * n + 7) + 1)) le_rfl).add hu a2 hz
  rw [show 4 * n + 11 = 2 + (4 * n + 7) + 1 + 1 by ring]
  have e1 : (absM (K.den n) + |b0| • (absM (K.den n) * absM (M.den n))) i j =
      |K.toDense.get i j| + |b0| * (absM (K.den n) * absM (M.den n)) i j := rfl
  have e2 : (K.den n * (1 - b0 • M.den n)) i j = K.toDense.get i j + -b0 * (K.den n * M.den n) i j := by
    rw [mul_sub, mul_one, mul_smul_comm, Matrix.sub_apply, Matrix.smul_apply, smul_eq_mul, neg_mul, ← sub_eq_add_neg]; rfl
  rw [e1, e2]
  exact a3

theorem Zeros.absM {r : ℕ → ℕ} {A : Matrix (Fin n) (Fin n) α} (h : Zeros n r A) : Zeros n r (_root_.absM A) := fun i j hij => by
  show |A i j| = 0
  rw [h i j hij, abs_zero]

/-- a triangular matrix (for some order of the indices) with nonzero diagonal is invertible -/
theorem Zeros.det_ne_zero {r : ℕ → ℕ} {A : Matrix (Fin n) (Fin n) α} (h : Zeros n r A) (hi : ∀ i j : Fin n, r i = r j → i = j)
    (hd : ∀ i, A i i ≠ 0) : A.det ≠ 0 := by
  intro h0
  obtain ⟨v, hv, e⟩ := Matrix.exists_mulVec_eq_zero_iff.2 h0
  obtain ⟨i0, hi0⟩ := Function.ne_iff.1 hv
  obtain ⟨t, ht, tmax⟩ := Finset.exists_max_image (Finset.univ.filter fun i : Fin n => v i ≠ 0) (fun i => r i) ⟨i0, by simpa using hi0⟩
  rw [Finset.mem_filter] at ht
  have e1 : ∑ j, A t j * v j = 0 := congrFun e t
  rw [Finset.sum_eq_single t] at e1
  · exact (mul_ne_zero (hd t) ht.2) e1
  · intro j _ hj
    rcases lt_trichotomy (r j) (r t) with h1 | h1 | h1
    · rw [h t j h1, zero_mul]
    · exact absurd (hi _ _ h1) hj
    · have : v j = 0 := by
        by_contra hne
        exact absurd (tmax j (by simpa using hne)) (not_le.2 h1)
      rw [this, mul_zero]
  · simp

/-- one diagonal entry, if all diagonal blocks of the pattern have size 1: it keeps its sign and does not shrink much -/
theorem FFactor.diag [HasSqrt α] (hu : 0 ≤ u) (u1 : u < 1) {h : Hyper α} {t : ℕ} (hn : h.normalize = true) (hc : c.Regular) (hK : WF c n K) (hM : WF c n M)
    (hw : c.bw n ≤ 1) (hr : |h.lrCov.at t| * (1 + u) ^ (4 * n + 10) < 1) (hf : FFactor u h t c n K M K') (i : Fin n) :
    (1 - u) * (1 - |h.lrCov.at t| * (1 + u) ^ (4 * n + 10)) * |K.den n i i| ≤ |K'.den n i i| ∧
      |K'.den n i i| ≤ (1 + u) * (1 + |h.lrCov.at t| * (1 + u) ^ (4 * n + 10)) * |K.den n i i| ∧ 0 ≤ K'.den n i i * K.den n i i := by
  obtain ⟨r, R, hR⟩ := Cls.ranked (α := α) c n hK.supports
  obtain ⟨_, b, P, ⟨b0, q, e0, r1, r2⟩, hP, hx⟩ := hf
  obtain ⟨b', e', hb⟩ := factorRate_den h t hM (Nat.zero_lt_of_lt i.2)
  rw [e0] at e'; cases e'
  obtain ⟨y, hy, hz⟩ := hx i i.2 i i.2
  have a1 : App u 2 |b0| (-b0) (-b) := by
    have := ((App.self b0).rnd hu r1).rnd hu r2
    refine ⟨by rw [abs_neg], ?_⟩
    rw [neg_sub_neg, abs_sub_comm]; exact this.err
  have a2 := a1.mul hu (hP.err hu hc hK hM i i) hy
  rw [(hR.den hK).absM.mul_diag (hR.den hM).absM (hR.inj hw) i] at a2
  have hs := a2.size
  set g := (1 + u) ^ (4 * n + 10) with hg
  rw [show 2 + (4 * n + 7) + 1 = 4 * n + 10 by ring, ← hg] at hs
  set x := K.den n i i with hxd
  change Rnd u (x + y) (K'.den n i i) at hz
  have g0 : 0 ≤ g := pow_nonneg (by linarith) _
  -- `|b0 M i i| ≤ lr`
  have hbm : |b0| * |M.den n i i| ≤ |h.lrCov.at t| := by
    rw [IsRate, if_pos hn] at hb
    obtain ⟨v, ⟨_, hv⟩, rfl⟩ := hb
    have h1 : (0 : α) < max 1 v := lt_of_lt_of_le one_pos (le_max_left _ _)
    rw [abs_div, abs_of_pos h1, div_mul_eq_mul_div, div_le_iff₀ h1]
    exact mul_le_mul_of_nonneg_left ((hv i i).trans (le_max_right _ _)) (abs_nonneg _)
  have hy' : |y| ≤ |h.lrCov.at t| * g * |x| := by
    refine hs.trans ?_
    have e : |b0| * (absM (K.den n) i i * absM (M.den n) i i) = |b0| * |M.den n i i| * |x| := by
      show |b0| * (|K.den n i i| * |M.den n i i|) = _
      ring
    rw [e]
    calc g * (|b0| * |M.den n i i| * |x|) ≤ g * (|h.lrCov.at t| * |x|) :=
          mul_le_mul_of_nonneg_left (mul_le_mul_of_nonneg_right hbm (abs_nonneg _)) g0
      _ = _ := by ring
  set ρ := |h.lrCov.at t| * g with hρ
  have hρ0 : 0 ≤ ρ := mul_nonneg (abs_nonneg _) g0
  set z := K'.den n i i
  have hx0 := abs_nonneg x
  have hsum : |x + y| ≤ (1 + ρ) * |x| := (abs_add_le _ _).trans (by linarith)
  have hlow : (1 - ρ) * |x| ≤ |x + y| := by
    have := abs_sub_abs_le_abs_sub x (-y)
    rw [sub_neg_eq_add, abs_neg] at this
    linarith
  have hzz : |z - (x + y)| ≤ u * |x + y| := hz
  refine ⟨?_, ?_, ?_⟩
  · have := abs_sub_abs_le_abs_sub (x + y) z
    rw [abs_sub_comm] at this
    calc (1 - u) * (1 - ρ) * |x| = (1 - u) * ((1 - ρ) * |x|) := by ring
      _ ≤ (1 - u) * |x + y| := mul_le_mul_of_nonneg_left hlow (by linarith)
      _ ≤ |z| := by linarith
  · have := abs_sub_abs_le_abs_sub z (x + y)
    calc |z| ≤ (1 + u) * |x + y| := by linarith
      _ ≤ (1 + u) * ((1 + ρ) * |x|) := mul_le_mul_of_nonneg_left hsum (by linarith)
      _ = _ := by ring
  · -- z (x+y) ≥ 0 and (x+y) x ≥ 0
    rcases le_total 0 x with hx | hx
    · rw [abs_of_nonneg hx] at hy'
      have h1 : 0 ≤ x + y := by
        have := neg_abs_le y
        nlinarith
      rw [abs_of_nonneg h1] at hzz
      have h2 : 0 ≤ z := by
        have := neg_abs_le (z - (x + y))
        nlinarith
      exact mul_nonneg h2 hx
    · rw [abs_of_nonpos hx] at hy'
      have h1 : x + y ≤ 0 := by
        have := le_abs_self y
        nlinarith
      rw [abs_of_nonpos h1] at hzz
      have h2 : z ≤ 0 := by
        have := le_abs_self (z - (x + y))
        nlinarith
      exact mul_nonneg_of_nonpos_of_nonpos h2 hx
