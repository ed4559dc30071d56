import Verif.Model.RoundingUpdate
import Verif.Proofs.RoundingFactor
import Verif.Proofs.RoundingEval
import Verif.Proofs.Opt.Update

/-! Rounding errors of statistics, momenta and factor updates. -/

set_option linter.unusedSectionVars false
open Finset Mat
variable {α : Type} [Field α] [LinearOrder α] [IsStrictOrderedRing α] {c : Cls} {n : ℕ}

theorem Cls.sandwich_eq_rt (c : Cls) {n m : ℕ} (A : Matrix (Fin n) (Fin n) α) (X : Matrix (Fin n) (Fin m) α) :
    c.sandwich A (X * X.transpose) = (c.rt A * X) * (c.rt A * X).transpose := by
  cases c <;> simp only [Cls.sandwich, Cls.rt, Matrix.transpose_mul, Matrix.transpose_transpose, Matrix.mul_assoc]

theorem Cls.sandwich_one_eq_rt (c : Cls) {n : ℕ} (A : Matrix (Fin n) (Fin n) α) :
    c.sandwich A 1 = c.rt A * (c.rt A).transpose := by
  cases c <;> simp only [Cls.sandwich, Cls.rt, Matrix.transpose_transpose, Matrix.mul_one]

theorem rproj_diagonal (G : Matrix (Fin n) (Fin n) α) (i j : Fin n) : Cls.diagonal.proj n G i j = if i = j then G i i else 0 := by
  obtain ⟨P, e, w, d⟩ := fromDense_proj (c := .diagonal) (n := n) trivial (M := Mat.ofMatrix G) rfl rfl
  injection e with e
  rw [Mat.M_ofMatrix] at d
  rw [← d, ← e]
  show (SM.diagonal _).toDense.get i j = _
  simp only [SM.toDense, Diagonal.get_toDense, get_diag, Mat.ofMatrix, get_ofFn, Fin.val_inj]
  split_ifs <;> simp_all

section
variable {u : α} (hu : 0 ≤ u)
include hu

theorem MApp.mono {k l m : ℕ} {B E : Matrix (Fin n) (Fin m) α} {Y : Mat α} (h : MApp u k B E Y) (hk : k ≤ l) : MApp u l B E Y :=
  fun i j => (h i j).mono hu hk le_rfl

/-- inner products of the rows of an approximation -/
theorem MApp.gram {k m : ℕ} {S Q : Mat α} {SB SE : Matrix (Fin n) (Fin m) α} (hr : S.rows = n) (hc : S.cols = m) (hS : MApp u k SB SE S)
    (hQ : ∀ i < S.rows, ∀ j < S.rows, Dot u (S.cols + 2) (S.terms S.T i j) (Q.get i j)) :
    MApp u (k + k + (m + 2)) (SB * SB.transpose) (SE * SE.transpose) Q := by
  intro i j
  have hd := hQ i (hr ▸ i.2) j (hr ▸ j.2)
  rw [hc] at hd
  rw [Matrix.mul_apply, Matrix.mul_apply]
  refine App.dots hu (univ : Finset (Fin m)) (fun t _ => hS i t) (fun t _ => hS j t) hd ?_ ?_
  · rw [Mat.sum_terms (g := fun a b => a * b), hc, Finset.sum_range]; simp only [get_T]
  · rw [Mat.sum_terms (g := fun a b => |a| * |b|), hc, Finset.sum_range]; simp only [get_T]

/-- error of `from_inner(X)`, for an approximation `X` -/
theorem SM.FInner.err_some {l m : ℕ} {K H : SM α} {X : Mat α} {P E : Matrix (Fin n) (Fin m) α} (hK : WF c n K) (hr : X.rows = n) (hc : X.cols = m)
    (hX : MApp u l P E X) (h : K.FInner u (some X) H) :
    WF c n H ∧ MApp u (2 * l + 2 * c.chain n + m + 2 * n + 10) (c.proj n (c.sandwich (absM (K.den n)) (P * P.transpose)))
      (c.proj n (c.sandwich (K.den n) (E * E.transpose))) H.toDense := by
  have gen : (∃ S Q : Mat α, K.FRmatmat u X S ∧ Q.rows = S.rows ∧ Q.cols = S.rows ∧
      (∀ i < S.rows, ∀ j < S.rows, Dot u (S.cols + 2) (S.terms S.T i j) (Q.get i j)) ∧ SM.FFromDense u c Q H) →
      WF c n H ∧ MApp u (2 * l + 2 * c.chain n + m + 2 * n + 10) (c.proj n (c.sandwich (absM (K.den n)) (P * P.transpose)))
        (c.proj n (c.sandwich (K.den n) (E * E.transpose))) H.toDense := by
    rintro ⟨S, Q, hS, q1, q2, hQ, hF⟩
    obtain ⟨s1, s2, hS'⟩ := hS.err hu hK hr hc hX
    have hG := hS'.gram hu s1 s2 hQ
    rw [← Cls.sandwich_eq_rt, ← Cls.sandwich_eq_rt] at hG
    obtain ⟨w, hH⟩ := hF.mapp hu hK.supports (q1.trans s1) (q2.trans s1) hG
    exact ⟨w, hH.mono hu (by omega)⟩
  cases hK with
  | @diagonal _ d hd =>
    obtain ⟨e, rfl, e1, e2⟩ := h
    refine ⟨.diagonal (e1.trans hd), fun i j => ?_⟩
    rw [rproj_diagonal, rproj_diagonal]
    simp only [SM.toDense, Diagonal.get_toDense, Fin.val_inj]
    by_cases hij : i = j
    swap
    · rw [if_neg hij, if_neg hij, if_neg hij]; exact App.zero hu
    obtain ⟨q, hq, s, hs, hx⟩ := e2 i (hd ▸ i.2)
    rw [if_pos hij, if_pos hij, if_pos hij]
    have a1 : App u 1 (|d.get i| * |d.get i|) (d.get i * d.get i) q := by simpa [abs_mul] using App.ofRnd hu hq
    rw [hc] at hs
    have a2 : App u (l + l + m) (∑ t, P i t * P i t) (∑ t, E i t * E i t) s :=
      App.dots hu (univ : Finset (Fin m)) (fun t _ => hX i t) (fun t _ => hX i t) hs
        (by rw [List.map_map, sum_range_list, Finset.sum_range]; rfl) (by rw [List.map_map, sum_range_list, Finset.sum_range]; rfl)
    have a3 := a1.mul hu a2 hx
    have key : ∀ (f : α → α) (f0 : f 0 = 0) (P : Matrix (Fin n) (Fin m) α),
        Cls.diagonal.sandwich (((SM.diagonal d).den n).map f) (P * P.transpose) i i = f (d.get i) * f (d.get i) * ∑ t, P i t * P i t := by
      intro f f0 P
      have e : ((SM.diagonal d).den n).map f = Matrix.diagonal fun i : Fin n => f (d.get i) := by
        ext a b
        simp only [Matrix.map_apply, SM.den, Mat.M, SM.toDense, Diagonal.get_toDense, Matrix.diagonal_apply, Fin.val_inj]
        by_cases hab : a = b
        · rw [if_pos hab, if_pos hab]
        · rw [if_neg hab, if_neg hab, f0]
      show ((((SM.diagonal d).den n).map f).transpose * (P * P.transpose) * ((SM.diagonal d).den n).map f) i i = _
      rw [e, Matrix.diagonal_transpose, Matrix.mul_diagonal, Matrix.diagonal_mul, Matrix.mul_apply]
      simp only [Matrix.transpose_apply]
      ring
    rw [absM, key _ abs_zero, ← Matrix.map_id ((SM.diagonal d).den n), key id rfl]
    exact a3.mono hu (by omega) le_rfl
  | dense hr' hc' => exact gen h
  | block hb => exact gen (by have := hb.hD; subst this; exact h)
  | hier hd hs => exact gen (by have := hs.h1; have := hs.h2; subst_vars; exact h)
  | tril hn hl => exact gen h
  | triu hn hl => exact gen h
  | topRight hb hA hr' hc' hC => exact gen h
  | bottomLeft hb hA hr' hc' hC => exact gen h

/-- error of `from_inner()` -/
theorem SM.FInner.err_none {K H : SM α} (hK : WF c n K) (h : K.FInner u none H) :
    WF c n H ∧ MApp u (3 * n + 4) (c.proj n (c.sandwich (absM (K.den n)) 1)) (c.proj n (c.sandwich (K.den n) 1)) H.toDense := by
  have gen : (∃ S Q : Mat α, S = c.rdense K.toDense ∧ Q.rows = S.rows ∧ Q.cols = S.rows ∧
      (∀ i < S.rows, ∀ j < S.rows, Dot u (S.cols + 2) (S.terms S.T i j) (Q.get i j)) ∧ SM.FFromDense u c Q H) →
      WF c n H ∧ MApp u (3 * n + 4) (c.proj n (c.sandwich (absM (K.den n)) 1)) (c.proj n (c.sandwich (K.den n) 1)) H.toDense := by
    rintro ⟨S, Q, rfl, q1, q2, hQ, hF⟩
    have s1 : (c.rdense K.toDense).rows = n := by cases c <;> first | exact hK.rows | exact hK.cols
    have s2 : (c.rdense K.toDense).cols = n := by cases c <;> first | exact hK.cols | exact hK.rows
    have hS : MApp u 0 (absM (c.rt (K.den n))) (c.rt (K.den n)) (c.rdense K.toDense) := fun i j => by
      rw [SM.den, ← Cls.rdense_M]; exact App.self _
    have hG := hS.gram hu s1 s2 hQ
    rw [Cls.absM_rt, ← Cls.sandwich_one_eq_rt, ← Cls.sandwich_one_eq_rt] at hG
    obtain ⟨w, hH⟩ := hF.mapp hu hK.supports (q1.trans s1) (q2.trans s1) hG
    exact ⟨w, hH.mono hu (by omega)⟩
  cases hK with
  | @diagonal _ d hd =>
    obtain ⟨e, rfl, e1, e2⟩ := h
    refine ⟨.diagonal (e1.trans hd), fun i j => ?_⟩
    rw [rproj_diagonal, rproj_diagonal]
    simp only [SM.toDense, Diagonal.get_toDense, Fin.val_inj]
    by_cases hij : i = j
    swap
    · rw [if_neg hij, if_neg hij, if_neg hij]; exact App.zero hu
    obtain ⟨q, hq, hs⟩ := e2 i (hd ▸ i.2)
    dsimp only at hs
    rw [if_pos hij, if_pos hij, if_pos hij, hs]
    have a1 : App u 1 (|d.get i| * |d.get i|) (d.get i * d.get i) q := by simpa [abs_mul] using App.ofRnd hu hq
    have key : ∀ (f : α → α) (f0 : f 0 = 0), Cls.diagonal.sandwich (((SM.diagonal d).den n).map f) 1 i i = f (d.get i) * f (d.get i) := by
      intro f f0
      have e : ((SM.diagonal d).den n).map f = Matrix.diagonal fun i : Fin n => f (d.get i) := by
        ext a b
        simp only [Matrix.map_apply, SM.den, Mat.M, SM.toDense, Diagonal.get_toDense, Matrix.diagonal_apply, Fin.val_inj]
        by_cases hab : a = b
        · rw [if_pos hab, if_pos hab]
        · rw [if_neg hab, if_neg hab, f0]
      show ((((SM.diagonal d).den n).map f).transpose * (1 : Matrix (Fin n) (Fin n) α) * ((SM.diagonal d).den n).map f) i i = _
      rw [e, Matrix.diagonal_transpose, Matrix.mul_one, Matrix.diagonal_mul_diagonal, Matrix.diagonal_apply_eq]
    rw [absM, key _ abs_zero, ← Matrix.map_id ((SM.diagonal d).den n), key id rfl]
    exact a1.mono hu (by omega) le_rfl
  | dense hr' hc' => exact gen h
  | block hb => exact gen (by have := hb.hD; subst this; exact h)
  | hier hd hs => exact gen (by have := hs.h1; have := hs.h2; subst_vars; exact h)
  | tril hn hl => exact gen h
  | triu hn hl => exact gen h
  | topRight hb hA hr' hc' hC => exact gen h
  | bottomLeft hb hA hr' hc' hC => exact gen h

/-- error of an accumulated statistic; the mini-batches are `Es` up to `l` roundings per entry -/
theorem SM.FStat.err {l m : ℕ} {K H : SM α} {Es Xs : List (Mat α)} (hK : WF c n K)
    (hX : List.Forall₂ (fun E X => E.rows = n ∧ X.rows = n ∧ X.cols = E.cols ∧ E.cols ≤ m ∧ ∀ i j, App u l |E.get i j| (E.get i j) (X.get i j)) Es Xs)
    (h : SM.FStat u c n K Xs H) :
    WF c n H ∧ MApp u (2 * l + 2 * c.chain n + m + 2 * n + 9 + Es.length)
      (Es.map fun E => c.proj n (c.sandwich (absM (K.den n)) (absM (E.M n E.cols) * (absM (E.M n E.cols)).transpose))).sum
      (Es.map fun E => c.proj n (c.sandwich (K.den n) (E.M n E.cols * (E.M n E.cols).transpose))).sum H.toDense := by
  induction h generalizing Es with
  | @first X H h =>
    obtain - | ⟨⟨r1, r2, r3, r4, r5⟩, hnil⟩ := hX
    rename_i E Es
    cases hnil
    obtain ⟨w, e⟩ := SM.FInner.err_some hu hK r2 r3 (P := absM (E.M n E.cols)) (E := E.M n E.cols) (fun i j => r5 i j) h
    refine ⟨w, ?_⟩
    simp only [List.map_cons, List.map_nil, List.sum_cons, List.sum_nil, add_zero]
    exact e.mono hu (by simp only [List.length_cons, List.length_nil]; omega)
  | @next X Xs H B H' h hB hw ha ih =>
    obtain - | ⟨⟨r1, r2, r3, r4, r5⟩, hX⟩ := hX
    rename_i E Es
    obtain ⟨_, e1⟩ := SM.FInner.err_some hu hK r2 r3 (P := absM (E.M n E.cols)) (E := E.M n E.cols) (fun i j => r5 i j) hB
    obtain ⟨_, e2⟩ := ih hX
    have pos : 0 < Es.length := by
      rw [hX.length_eq]
      cases h <;> simp
    refine ⟨hw, fun i j => ?_⟩
    simp only [List.map_cons, List.sum_cons]
    have a1 := (e1 i j).mono hu (l := 2 * l + 2 * c.chain n + m + 2 * n + 9 + Es.length) (by omega) le_rfl
    have := (e2 i j).add hu a1 (ha i i.2 j j.2)
    rw [add_comm _ (c.proj n (c.sandwich (absM (K.den n)) _) i j), add_comm _ (c.proj n (c.sandwich (K.den n) _) i j)] at this
    exact this

/-- error of the mean of the diagonal -/
theorem SM.FTrace.err {k : ℕ} {A : SM α} {t : α} {B E : Matrix (Fin n) (Fin n) α} (hA : WF c n A) (hn : 0 < n) (h : MApp u k B E A.toDense)
    (ht : A.FTrace u n t) : App u (k + (n + 2)) (avgTr B) (avgTr E) t := by
  have n0 : (0 : α) ≤ n := Nat.cast_nonneg n
  have n1 : (n : α) ≠ 0 := by exact_mod_cast hn.ne'
  have toep : (∀ i < n, A.toDense.get i i = t) → App u (k + (n + 2)) (avgTr B) (avgTr E) t := fun e => by
    have h1 : App u k (∑ i, B i i) (∑ i, E i i) (∑ _i : Fin n, t) := App.sum hu univ fun i _ => by
      have := h i i
      rwa [e i i.2] at this
    have h2 := h1.divExact hu n0
    rw [Finset.sum_const, Finset.card_univ, Fintype.card_fin, nsmul_eq_mul, mul_div_cancel_left₀ _ n1] at h2
    exact h2.mono hu (by omega) le_rfl
  have other : (Dot u (n + 2) ((List.range n).map fun i => (A.toDense.get i i, 1 / (n : α))) t ∨
      ∃ s, Dot u (n + 1) ((List.range n).map fun i => (A.toDense.get i i, 1)) s ∧ Rnd u (s / n) t) →
      App u (k + (n + 2)) (avgTr B) (avgTr E) t := by
    rintro (hd | ⟨s, hd, hr⟩)
    · have := App.dots hu (univ : Finset (Fin n)) (k := k) (l := 0) (B := fun _ => 1 / (n : α)) (e := fun _ => 1 / (n : α)) (f := fun _ => 1 / (n : α))
        (fun i _ => h i i)
        (fun i _ => by have := App.self (u := u) (1 / (n : α)); rwa [abs_of_nonneg (by positivity)] at this) hd
        (by rw [List.map_map, sum_range_list, Finset.sum_range]; rfl)
        (by rw [List.map_map, sum_range_list, Finset.sum_range]; rfl)
      rw [← Finset.sum_mul, ← Finset.sum_mul, mul_one_div, mul_one_div] at this
      exact this
    · have := App.dots hu (univ : Finset (Fin n)) (k := k) (l := 0) (B := fun _ => (1 : α)) (e := fun _ => 1) (f := fun _ => 1)
        (fun i _ => h i i)
        (fun i _ => by have := App.self (u := u) (1 : α); rwa [abs_one] at this) hd
        (by rw [List.map_map, sum_range_list, Finset.sum_range]; rfl)
        (by rw [List.map_map, sum_range_list, Finset.sum_range]; rfl)
      simp only [mul_one] at this
      exact (this.divExact hu n0).rnd hu hr
  cases hA with
  | @tril _ d hn hl => exact toep fun i hi => by rw [SM.toDense, Tril.get_toDense, ht]; simp [hl, hi]
  | @triu _ d hn hl => exact toep fun i hi => by rw [SM.toDense, Triu.toDense_eq, get_T, Tril.get_toDense, ht]; simp [hl, hi]
  | dense => exact other ht
  | diagonal => exact other ht
  | block => exact other ht
  | hier => exact other ht
  | topRight => exact other ht
  | bottomLeft => exact other ht

theorem FTraceOr1.err {k : ℕ} {A : SM α} {t : α} {B E : Matrix (Fin n) (Fin n) α} {h : Hyper α} (hA : WF c n A) (hn : 0 < n)
    (hB : MApp u k B E A.toDense) (ht : FTraceOr1 u h n A t) :
    App u (k + (n + 2)) (if h.kfacLike then 1 else avgTr B) (if h.kfacLike then 1 else avgTr E) t := by
  unfold FTraceOr1 at ht
  split_ifs at ht ⊢
  · rw [ht]
    have := App.self (u := u) (1 : α)
    rw [abs_one] at this
    exact this.mono hu (by omega) le_rfl
  · exact SM.FTrace.err hu hA hn hB ht

/-- error of `diag_add_` -/
theorem SM.FDiagAdd.err {k : ℕ} {A A' : SM α} {a : α} {B E : Matrix (Fin n) (Fin n) α} (hc : c.Regular) (hs : c.Supports n)
    (fB : c.NoHier → c.proj n B = B) (fE : c.NoHier → c.proj n E = E) (h : MApp u k B E A.toDense) (hA : A.FDiagAdd u c n a A') :
    WF c n A' ∧ MApp u (k + (2 * n + 3)) (B + |a| • 1) (E + a • 1) A'.toDense := by
  have added : ∀ D : Mat α, (∀ i < n, ∀ j < n, if i = j then Rnd u (A.toDense.get i i + a) (D.get i i) else D.get i j = A.toDense.get i j) →
      MApp u (k + 1) (B + |a| • 1) (E + a • 1) D := fun D hD i j => by
    have hD := hD i i.2 j j.2
    simp only [Matrix.add_apply, Matrix.smul_apply, smul_eq_mul, Matrix.one_apply]
    by_cases hij : i = j
    · subst hij
      rw [if_pos rfl] at hD
      simp only [if_true, mul_one]
      exact (h i i).add hu ((App.self a).mono hu (Nat.zero_le _) le_rfl) hD
    · rw [if_neg (by rwa [Fin.val_inj])] at hD
      simp only [hij, if_false, mul_zero, add_zero, hD]
      exact (h i j).mono hu (by omega) le_rfl
  have recur : c.NoHier → (∃ D : Mat α, D.rows = n ∧ D.cols = n ∧
      (∀ i < n, ∀ j < n, if i = j then Rnd u (A.toDense.get i i + a) (D.get i i) else D.get i j = A.toDense.get i j) ∧ SM.FFromDense u c D A') →
      WF c n A' ∧ MApp u (k + (2 * n + 3)) (B + |a| • 1) (E + a • 1) A'.toDense := fun hn ⟨D, d1, d2, hD, hF⟩ => by
    obtain ⟨w, e⟩ := hF.mapp hu hs d1 d2 (added D hD)
    rw [proj_add_smul hs, proj_add_smul hs, proj_one hs, fB hn, fE hn] at e
    exact ⟨w, e.mono hu (by omega)⟩
  cases c with
  | dense => exact recur hc hA
  | topRight => exact recur hc hA
  | bottomLeft => exact recur hc hA
  | _ => exact ⟨hA.1, (added _ hA.2).mono hu (by omega)⟩

/-- error of the new momentum of a factor -/
theorem FMomentum.err {h : Hyper α} {kH kG ka kb : ℕ} {a a0 aB b b0 bB : α} {H G M0 M : SM α} {BH EH BG EG : Matrix (Fin n) (Fin n) α} (hc : c.Regular)
    (hs : c.Supports n) (f1 : c.NoHier → c.proj n BH = BH) (f2 : c.NoHier → c.proj n EH = EH) (f3 : c.NoHier → c.proj n BG = BG)
    (f4 : c.NoHier → c.proj n EG = EG) (hH : MApp u kH BH EH H.toDense) (hG : MApp u kG BG EG G.toDense) (ha : App u ka aB a0 a) (hb : App u kb bB b0 b)
    (hM : FMomentum u h c n a b H G M0 M) :
    WF c n M ∧ MApp u (max (ka + kH + 2) (kb + kG + 1) + 2 * n + 8)
      (|1 / 2 * dirScale h| • (aB • BH + bB • BG + 1) + |h.alpha1| • absM (M0.den n))
      ((1 / 2 * dirScale h) • (a0 • EH + b0 • EG - 1) + h.alpha1 • M0.den n) M.toDense := by
  obtain ⟨s, Z, M1, M2, M3, M4, eZ, h1, h2, h3, h4, h5, h6⟩ := hM
  obtain ⟨Z', eZ', wZ, dZ⟩ := (C12_eye_zeros (α := α) hs).2
  rw [eZ] at eZ'; cases eZ'
  have z0 : ∀ i j : Fin n, Z.toDense.get i j = 0 := fun i j => congrFun (congrFun dZ i) j
  have m1 : MApp u (ka + kH + 2) (aB • BH) (a0 • EH) M1.toDense := fun i j => by
    have := h1.2 i i.2 j j.2
    rw [z0] at this
    have := (App.zero hu (k := 0)).axpy hu ha (hH i j) this
    rw [zero_add, zero_add] at this
    exact this.mono hu (by simp) le_rfl
  set k2 := max (ka + kH + 2) (kb + kG + 1) with hk2
  have m2 : MApp u (k2 + 1) (aB • BH + bB • BG) (a0 • EH + b0 • EG) M2.toDense := fun i j =>
    (m1 i j).axpy hu hb (hG i j) (h2.2 i i.2 j j.2)
  have fix : ∀ {x y : α} {X Y : Matrix (Fin n) (Fin n) α}, (c.NoHier → c.proj n X = X) → (c.NoHier → c.proj n Y = Y) → c.NoHier →
      c.proj n (x • X + y • Y) = x • X + y • Y := fun f g hn => by rw [proj_add_smul hs, proj_smul hs, f hn, g hn]
  obtain ⟨_, m3⟩ := SM.FDiagAdd.err hu hc hs (fix f1 f3) (fix f2 f4) m2 h3
  rw [abs_neg, abs_one, one_smul, neg_one_smul, ← sub_eq_add_neg] at m3
  obtain ⟨s', h4, h4'⟩ := h4
  have hs' : App u 2 |1 / 2 * dirScale h| (1 / 2 * dirScale h) s := (App.ofRnd hu h4).rnd hu h4'
  have m4 : MApp u (k2 + 2 * n + 7) (|1 / 2 * dirScale h| • (aB • BH + bB • BG + 1)) ((1 / 2 * dirScale h) • (a0 • EH + b0 • EG - 1)) M4.toDense :=
    fun i j => by
      have := (m3 i j).mul hu hs' (h5.2 i i.2 j j.2)
      rw [mul_comm _ |1 / 2 * dirScale h|, mul_comm _ (1 / 2 * dirScale h)] at this
      exact this.mono hu (by omega) le_rfl
  split_ifs at h6 with h0
  · obtain ⟨a1, r1, h6⟩ := h6
    refine ⟨h6.1, fun i j => ?_⟩
    have := (m4 i j).axpy hu (App.ofRnd hu r1) (App.self (M0.toDense.get i j)) (h6.2 i i.2 j j.2)
    exact this.mono hu (by omega) le_rfl
  · rw [not_not] at h0
    subst h6
    rw [h0, abs_zero, zero_smul, zero_smul, add_zero, add_zero]
    exact ⟨h5.1, m4.mono hu (by omega)⟩

/-- the reciprocal of a rounded number -/
theorem App.inv {x y : α} (u1 : u ≤ 1 / 2) (h : Rnd u x y) : App u 2 |x⁻¹| x⁻¹ y⁻¹ := by
  refine ⟨le_rfl, ?_⟩
  by_cases hx : x = 0
  · subst hx
    rw [Rnd.zero hu h]; simp
  have hx0 := abs_pos.2 hx
  have hy : |x| ≤ 2 * |y| := by
    have h1 : |y - x| ≤ u * |x| := h
    have := abs_sub_abs_le_abs_sub x y
    rw [abs_sub_comm] at this
    nlinarith
  have hy0 : 0 < |y| := by linarith
  have hy' : y ≠ 0 := abs_pos.1 hy0
  rw [inv_sub_inv hy' hx, abs_div, abs_mul, abs_inv, div_le_iff₀ (mul_pos hy0 hx0)]
  have h1 : |x - y| ≤ u * |x| := by rw [abs_sub_comm]; exact h
  have e : ((1 + u) ^ 2 - 1) * |x|⁻¹ * (|y| * |x|) = ((1 + u) ^ 2 - 1) * |y| := by field_simp
  rw [e]
  nlinarith [mul_nonneg hu hy0.le, mul_nonneg (mul_nonneg hu hu) hy0.le, mul_le_mul_of_nonneg_left hy hu]

theorem FUnscale.err {p s v : α} (u1 : u ≤ 1 / 2) (h : FUnscale u p s v) : App u 3 |p / s ^ 2| (p / s ^ 2) v := by
  obtain ⟨q, h1, h2⟩ := h
  have := (App.self p).mul hu (App.inv hu u1 h1) (z := v) (by rwa [← div_eq_mul_inv])
  rw [← abs_mul, ← div_eq_mul_inv] at this
  exact this.mono hu (by omega) le_rfl

theorem FDescale.err [HasSqrt α] {p g g' : α} (u1 : u ≤ 1 / 2) (h : FDescale u p g g') :
    App u 3 |g / HasSqrt.sqrt p| (g / HasSqrt.sqrt p) g' := by
  obtain ⟨q, h1, h2⟩ := h
  have := (App.self g).mul hu (App.inv hu u1 h1) (z := g') (by rwa [← div_eq_mul_inv])
  rw [← abs_mul, ← div_eq_mul_inv] at this
  exact this.mono hu (by omega) le_rfl

/-- error of the new momenta -/
theorem FMomenta.err {h : Hyper α} {cK cC : Cls} {nK nC kv kK kC : ℕ} {v v0 vB : α} {K C HK HC mK mC mK' mC' : SM α}
    {BK EK : Matrix (Fin nK) (Fin nK) α} {BC EC : Matrix (Fin nC) (Fin nC) α} (rK : cK.Regular) (rC : cC.Regular) (pK : 0 < nK) (pC : 0 < nC)
    (wK : WF cK nK K) (wC : WF cC nC C) (wHK : WF cK nK HK) (wHC : WF cC nC HC)
    (f1 : cK.NoHier → cK.proj nK BK = BK) (f2 : cK.NoHier → cK.proj nK EK = EK) (f3 : cC.NoHier → cC.proj nC BC = BC)
    (f4 : cC.NoHier → cC.proj nC EC = EC) (hHK : MApp u kK BK EK HK.toDense) (hHC : MApp u kC BC EC HC.toDense) (hv : App u kv vB v0 v)
    (hM : FMomenta u h cK cC nK nC v K C HK HC mK mC mK' mC') :
    WF cK nK mK' ∧ WF cC nC mC' ∧
    MApp u (kv + kK + kC + 5 * (nK + nC) + 21)
      (|1 / 2 * dirScale h| • ((if h.kfacLike then 1 else vB * avgTr BC) • BK +
        (|h.damping| * if h.kfacLike then 1 else avgTr (cC.sandwich (absM (C.den nC)) 1)) • cK.proj nK (cK.sandwich (absM (K.den nK)) 1) + 1) +
        |h.alpha1| • absM (mK.den nK))
      (updDir cK (dirScale h) (if h.kfacLike then 1 else v0 * avgTr EC) (if h.kfacLike then 1 else avgTr (cC.sandwich (C.den nC) 1)) h.damping
        (K.den nK) EK + h.alpha1 • mK.den nK) mK'.toDense ∧
    MApp u (kv + kK + kC + 5 * (nK + nC) + 21)
      (|1 / 2 * dirScale h| • ((if h.kfacLike then vB else vB * avgTr BK) • BC +
        (|h.damping| * if h.kfacLike then 1 else avgTr (cK.sandwich (absM (K.den nK)) 1)) • cC.proj nC (cC.sandwich (absM (C.den nC)) 1) + 1) +
        |h.alpha1| • absM (mC.den nC))
      (updDir cC (dirScale h) (if h.kfacLike then v0 else v0 * avgTr EK) (if h.kfacLike then 1 else avgTr (cK.sandwich (K.den nK) 1)) h.damping
        (C.den nC) EC + h.alpha1 • mC.den nC) mC'.toDense := by
  obtain ⟨KtK, CtC, tHC, tCC, tHK, tKK, aK, bK, aC, bC, i1, i2, t1, t2, t3, t4, ha, hbK, hbC, m1, m2⟩ := hM
  obtain ⟨w1, e1⟩ := SM.FInner.err_none hu wK i1
  obtain ⟨w2, e2⟩ := SM.FInner.err_none hu wC i2
  have x1 := t1.err hu wHC pC hHC
  have x2 := t2.err hu w2 pC e2
  have x3 := t3.err hu wHK pK hHK
  have x4 := t4.err hu w1 pK e1
  have tr : ∀ {c : Cls} {n : ℕ} (G : Matrix (Fin n) (Fin n) α), c.Supports n → avgTr (c.proj n G) = avgTr G := fun G hs => by
    rw [avgTr, avgTr, proj_trace hs]
  rw [tr _ wC.supports, tr _ wC.supports] at x2
  rw [tr _ wK.supports, tr _ wK.supports] at x4
  obtain ⟨cK', hbK, hbK'⟩ := hbK
  obtain ⟨cC', hbC, hbC'⟩ := hbC
  have yK := ((App.self h.damping).mul hu x2 hbK).rnd hu hbK'
  have yC := ((App.self h.damping).mul hu x4 hbC).rnd hu hbC'
  have zK : App u (kv + (kC + (nC + 2)) + 2) (if h.kfacLike then 1 else vB * avgTr BC) (if h.kfacLike then 1 else v0 * avgTr EC) aK := by
    split_ifs at ha x1 ⊢
    · rw [ha.1]
      have := App.self (u := u) (1 : α)
      rw [abs_one] at this
      exact this.mono hu (by omega) le_rfl
    · obtain ⟨⟨z, r1, r2⟩, _⟩ := ha
      exact (hv.mul hu x1 r1).rnd hu r2
  have zC : App u (kv + (kK + (nK + 2)) + 2) (if h.kfacLike then vB else vB * avgTr BK) (if h.kfacLike then v0 else v0 * avgTr EK) aC := by
    split_ifs at ha x3 ⊢
    · exact (hv.rnd hu ha.2).mono hu (by omega) le_rfl
    · obtain ⟨_, z, r1, r2⟩ := ha
      exact (hv.mul hu x3 r1).rnd hu r2
  obtain ⟨v1, n1⟩ := FMomentum.err hu rK wK.supports f1 f2 (fun hn => proj_proj wK.supports hn _) (fun hn => proj_proj wK.supports hn _) hHK e1 zK yK m1
  obtain ⟨v2, n2⟩ := FMomentum.err hu rC wC.supports f3 f4 (fun hn => proj_proj wC.supports hn _) (fun hn => proj_proj wC.supports hn _) hHC e2 zC yC m2
  exact ⟨v1, v2, n1.mono hu (by omega), n2.mono hu (by omega)⟩

/-- rates are at most `lr_cov` -/
theorem IsRate.le {h : Hyper α} {t : ℕ} {M : Matrix (Fin n) (Fin n) α} {b : α} (hb : IsRate h t M b) : |b| ≤ |h.lrCov.at t| := by
  unfold IsRate at hb
  split_ifs at hb
  · obtain ⟨v, _, rfl⟩ := hb
    have h1 : (1 : α) ≤ max 1 v := le_max_left _ _
    rw [abs_div, abs_of_pos (lt_of_lt_of_le one_pos h1)]
    exact div_le_self (abs_nonneg _) h1
  · rw [hb]

omit hu in
theorem exists_rate (h : Hyper α) (t : ℕ) (hn : 0 < n) (M : Matrix (Fin n) (Fin n) α) : ∃ b, IsRate h t M b := by
  unfold IsRate
  split_ifs
  · obtain ⟨x, _, hx⟩ := Finset.exists_max_image (univ : Finset (Fin n × Fin n)) (fun x => |M x.1 x.2|) ⟨(⟨0, hn⟩, ⟨0, hn⟩), mem_univ _⟩
    exact ⟨_, _, ⟨⟨x.1, x.2, rfl⟩, fun i j => hx (i, j) (mem_univ _)⟩, rfl⟩
  · exact ⟨_, rfl⟩

omit hu in
/-- the step `b M` changes little if `M` changes little, also with `normalize_lr_cov` -/
theorem IsRate.close {h : Hyper α} {t : ℕ} {M N : Matrix (Fin n) (Fin n) α} {b d e : α} {E : Matrix (Fin n) (Fin n) α} (hb : IsRate h t M b)
    (hd : IsRate h t N d) (hE : ∀ i j, |N i j - M i j| ≤ E i j) (he : ∀ i j, E i j ≤ e) (i j : Fin n) :
    |d * N i j - b * M i j| ≤ |h.lrCov.at t| * (E i j + e) := by
  have e0 : 0 ≤ e := (abs_nonneg _).trans ((hE i j).trans (he i j))
  unfold IsRate at hb hd
  split_ifs at hb hd
  · obtain ⟨v, ⟨⟨i1, j1, hv1⟩, hv⟩, rfl⟩ := hb
    obtain ⟨w, ⟨⟨i2, j2, hw1⟩, hw⟩, rfl⟩ := hd
    set lr := h.lrCov.at t
    have hwv : |w - v| ≤ e := by
      rw [abs_sub_le_iff]
      constructor
      · have := abs_sub_abs_le_abs_sub (N i2 j2) (M i2 j2)
        have := hE i2 j2
        have := he i2 j2
        have := hv i2 j2
        rw [hw1]; linarith
      · have := abs_sub_abs_le_abs_sub (M i1 j1) (N i1 j1)
        rw [abs_sub_comm] at this
        have := hE i1 j1
        have := he i1 j1
        have := hw i1 j1
        rw [hv1]; linarith
    set μ := max 1 v with hμ
    set ν := max 1 w with hν
    have μ1 : 1 ≤ μ := le_max_left _ _
    have ν1 : 1 ≤ ν := le_max_left _ _
    have μ0 : 0 < μ := by linarith
    have ν0 : 0 < ν := by linarith
    have hμν : |μ - ν| ≤ e := by
      refine (abs_max_sub_max_le_max _ _ _ _).trans ?_
      rw [sub_self, abs_zero, max_eq_right (abs_nonneg _), abs_sub_comm]; exact hwv
    have hM : |M i j| ≤ μ := (hv i j).trans (le_max_right _ _)
    have e1 : lr / ν * N i j - lr / μ * M i j = lr * ((N i j - M i j) / ν + M i j / μ * ((μ - ν) / ν)) := by field_simp; ring
    rw [e1, abs_mul]
    refine mul_le_mul_of_nonneg_left ((abs_add_le _ _).trans (add_le_add ?_ ?_)) (abs_nonneg _)
    · rw [abs_div, abs_of_pos ν0]
      exact (div_le_self (abs_nonneg _) ν1).trans (hE i j)
    · rw [abs_mul, abs_div, abs_div, abs_of_pos μ0, abs_of_pos ν0]
      calc |M i j| / μ * (|μ - ν| / ν) ≤ 1 * e :=
            mul_le_mul ((div_le_one μ0).2 hM) ((div_le_self (abs_nonneg _) ν1).trans hμν) (by positivity) zero_le_one
        _ = e := one_mul e
  · rw [hb, hd, ← mul_sub, abs_mul]
    refine mul_le_mul_of_nonneg_left ?_ (abs_nonneg _)
    have := hE i j
    linarith

/-- error of the new factor, if the momentum is an approximation -/
theorem FFactor.err_approx [HasSqrt α] {h : Hyper α} {t k : ℕ} {K M K' : SM α} {B E : Matrix (Fin n) (Fin n) α} {β : α} (hc : c.Regular)
    (hK : WF c n K) (hM : WF c n M) (hn : 0 < n) (hMB : MApp u k B E M.toDense) (hβ : ∀ i j, B i j ≤ β) (hf : FFactor u h t c n K M K') :
    ∃ b, IsRate h t E b ∧ ∀ i j, |(K'.den n - K.den n * (1 - b • E)) i j| ≤ ((1 + u) ^ (k + 4 * n + 11) - 1) *
      (|K.den n i j| + |h.lrCov.at t| * ∑ l, |K.den n i l| * (B l j + β)) := by
  obtain ⟨d, hd, hF⟩ := hf.err hu hc hK hM hn
  obtain ⟨b, hb⟩ := exists_rate h t hn E
  refine ⟨b, hb, fun i j => ?_⟩
  set a := 4 * n + 11 with ha
  set x := 1 + u
  set L := |h.lrCov.at t| with hL
  have L0 : 0 ≤ L := abs_nonneg _
  have ga : 0 ≤ x ^ a - 1 := by linarith [one_le_gr hu a]
  have gk : 0 ≤ x ^ k - 1 := by linarith [one_le_gr hu k]
  have B0 : ∀ i j, 0 ≤ B i j := fun i j => (hMB i j).nonneg
  have β0 : 0 ≤ β := (B0 i j).trans (hβ i j)
  have step := hb.close hd (E := (x ^ k - 1) • B) (e := (x ^ k - 1) * β) (fun i j => (hMB i j).err)
    (fun i j => mul_le_mul_of_nonneg_left (hβ i j) gk)
  have e0 : (K'.den n - K.den n * (1 - b • E)) i j = (K'.den n i j - (K.den n * (1 - d • M.den n)) i j) -
      ∑ l, K.den n i l * (d * M.den n l j - b * E l j) := by
    rw [Matrix.sub_apply, mul_sub, mul_sub, mul_one, mul_smul_comm, mul_smul_comm, Matrix.sub_apply, Matrix.sub_apply, Matrix.smul_apply, Matrix.smul_apply,
      Matrix.mul_apply, Matrix.mul_apply]
    simp only [smul_eq_mul, mul_sub, Finset.sum_sub_distrib, Finset.mul_sum]
    have r : ∀ (p : α) (N : Matrix (Fin n) (Fin n) α), ∑ l, p * (K.den n i l * N l j) = ∑ l, K.den n i l * (p * N l j) := fun p N =>
      Finset.sum_congr rfl fun l _ => by ring
    rw [r, r]; ring
  rw [e0]
  refine (abs_sub _ _).trans ?_
  have s1 : |K'.den n i j - (K.den n * (1 - d • M.den n)) i j| ≤ (x ^ a - 1) * (|K.den n i j| + L * (x ^ k * ∑ l, |K.den n i l| * B l j)) := by
    refine (hF i j).err.trans (mul_le_mul_of_nonneg_left ?_ ga)
    show |K.den n i j| + |d| * (absM (K.den n) * absM (M.den n)) i j ≤ _
    refine add_le_add le_rfl (mul_le_mul (hd.le hu) ?_ ?_ L0)
    · rw [Matrix.mul_apply, Finset.mul_sum]
      refine Finset.sum_le_sum fun l _ => ?_
      have := (hMB l j).size
      calc |K.den n i l| * |M.den n l j| ≤ |K.den n i l| * (x ^ k * B l j) := mul_le_mul_of_nonneg_left this (abs_nonneg _)
        _ = _ := by ring
    · rw [Matrix.mul_apply]; exact Finset.sum_nonneg fun l _ => mul_nonneg (abs_nonneg _) (abs_nonneg _)
  have s2 : |∑ l, K.den n i l * (d * M.den n l j - b * E l j)| ≤ (x ^ k - 1) * (L * ∑ l, |K.den n i l| * (B l j + β)) := by
    refine (Finset.abs_sum_le_sum_abs _ _).trans ?_
    rw [Finset.mul_sum, Finset.mul_sum]
    refine Finset.sum_le_sum fun l _ => ?_
    rw [abs_mul]
    calc |K.den n i l| * |d * M.den n l j - b * E l j| ≤ |K.den n i l| * (L * (((x ^ k - 1) • B) l j + (x ^ k - 1) * β)) :=
          mul_le_mul_of_nonneg_left (step l j) (abs_nonneg _)
      _ = _ := by rw [Matrix.smul_apply, smul_eq_mul]; ring
  have s3 : ∑ l, |K.den n i l| * B l j ≤ ∑ l, |K.den n i l| * (B l j + β) :=
    Finset.sum_le_sum fun l _ => mul_le_mul_of_nonneg_left (by linarith) (abs_nonneg _)
  set S := ∑ l, |K.den n i l| * (B l j + β) with hS
  set T := ∑ l, |K.den n i l| * B l j
  have xk : 0 ≤ x ^ k := by linarith
  have s4 : L * (x ^ k * T) ≤ L * (x ^ k * S) := mul_le_mul_of_nonneg_left (mul_le_mul_of_nonneg_left s3 xk) L0
  have s5 : (x ^ a - 1) * (|K.den n i j| + L * (x ^ k * T)) ≤ (x ^ a - 1) * (|K.den n i j| + L * (x ^ k * S)) :=
    mul_le_mul_of_nonneg_left (by linarith) ga
  have s6 : (x ^ a - 1) * |K.den n i j| ≤ (x ^ (k + a) - 1) * |K.den n i j| :=
    mul_le_mul_of_nonneg_right (by linarith [gr_mono hu (show a ≤ k + a by omega)]) (abs_nonneg _)
  have e2 : x ^ (k + a) = x ^ k * x ^ a := pow_add _ _ _
  rw [show k + 4 * n + 11 = k + a by omega]
  calc _ ≤ (x ^ a - 1) * (|K.den n i j| + L * (x ^ k * S)) + (x ^ k - 1) * (L * S) := add_le_add (s1.trans s5) s2
    _ = (x ^ a - 1) * |K.den n i j| + (x ^ (k + a) - 1) * (L * S) := by rw [e2]; ring
    _ ≤ (x ^ (k + a) - 1) * |K.den n i j| + (x ^ (k + a) - 1) * (L * S) := by linarith
    _ = _ := by ring

end

/-! ### The relations admit exact arithmetic -/

section
variable {u : α} (hu : 0 ≤ u)
include hu

theorem dot_exact {k : ℕ} (ts : List (α × α)) (h : ts.length ≤ k) : Dot u k ts (ts.map fun t => t.1 * t.2).sum := by
  have := flDot_dot (u := u) (fl := id) (fun x => Rnd.refl hu x) ts h
  rwa [flDot_id] at this

theorem SM.FFromDense.exists : ∀ {c : Cls} {n : ℕ} {Q : Mat α}, c.Supports n → Q.rows = n → Q.cols = n → ∃ P, SM.FFromDense u c Q P := by
  intro c
  induction c with
  | dense => intro n Q hs hr hc; obtain ⟨P, e, _⟩ := fromDense_wf hs hr hc; exact ⟨P, P, e, SM.Cast.refl hu P⟩
  | diagonal => intro n Q hs hr hc; obtain ⟨P, e, _⟩ := fromDense_wf hs hr hc; exact ⟨P, P, e, SM.Cast.refl hu P⟩
  | block D => intro n Q hs hr hc; obtain ⟨P, e, _⟩ := fromDense_wf hs hr hc; exact ⟨P, P, e, SM.Cast.refl hu P⟩
  | hier a b => intro n Q hs hr hc; obtain ⟨P, e, _⟩ := fromDense_wf hs hr hc; exact ⟨P, P, e, SM.Cast.refl hu P⟩
  | tril =>
    intro n Q hs hr hc
    refine ⟨_, Vec.ofFn Q.rows fun k => ((diagTerms Q Q.rows k).map fun t => t.1 * t.2).sum / ((Q.rows - k : ℕ) : α), rfl, rfl, fun k hk =>
      ⟨_, dot_exact hu _ ?_, by rw [Vec.get_ofFn, if_pos hk]; exact Rnd.refl hu _⟩⟩
    unfold diagTerms; split_ifs <;> simp <;> omega
  | triu =>
    intro n Q hs hr hc
    refine ⟨_, Vec.ofFn Q.rows fun k => ((diagTerms Q Q.rows k).map fun t => t.1 * t.2).sum / ((Q.rows - k : ℕ) : α), rfl, rfl, fun k hk =>
      ⟨_, dot_exact hu _ ?_, by rw [Vec.get_ofFn, if_pos hk]; exact Rnd.refl hu _⟩⟩
    unfold diagTerms; split_ifs <;> simp <;> omega
  | topRight x y ca cc ihA ihC =>
    intro n Q ⟨b, hb, hA, hC⟩ hr hc
    have := hb.le
    obtain ⟨A, eA⟩ := ihA hA (Q := Q.slice 0 b 0 b) (by shp) (by shp)
    obtain ⟨C, eC⟩ := ihC hC (Q := Q.slice b Q.rows b Q.cols) (by shp) (by shp)
    exact ⟨_, b, A, C, _, _, getBoundary_eq (hr ▸ hb), rfl, eA, eC, add?_ok (by shp) (by shp), Mat.Cast.refl hu _⟩
  | bottomLeft x y ca cc ihA ihC =>
    intro n Q ⟨b, hb, hA, hC⟩ hr hc
    have := hb.le
    obtain ⟨A, eA⟩ := ihA hA (Q := Q.slice 0 b 0 b) (by shp) (by shp)
    obtain ⟨C, eC⟩ := ihC hC (Q := Q.slice b Q.rows b Q.cols) (by shp) (by shp)
    exact ⟨_, b, A, C, _, _, getBoundary_eq (hr ▸ hb), rfl, eA, eC, add?_ok (by shp) (by shp), Mat.Cast.refl hu _⟩

theorem SM.FInner.exists {K : SM α} (hK : WF c n K) (X : Option (Mat α)) (hX : ∀ Y ∈ X, Y.rows = n) : ∃ H, K.FInner u X H := by
  have gram : ∀ S : Mat α, S.rows = n → ∃ (Q : Mat α) (H : SM α), Q.rows = S.rows ∧ Q.cols = S.rows ∧
      (∀ i < S.rows, ∀ j < S.rows, Dot u (S.cols + 2) (S.terms S.T i j) (Q.get i j)) ∧ SM.FFromDense u c Q H := fun S hS => by
    let Q : Mat α := Mat.ofFn S.rows S.rows fun i j => ((S.terms S.T i j).map fun t => t.1 * t.2).sum
    obtain ⟨H, hH⟩ := SM.FFromDense.exists hu hK.supports (Q := Q) hS hS
    refine ⟨Q, H, rfl, rfl, fun i hi j hj => ?_, hH⟩
    show Dot _ _ _ (if _ then _ else _)
    rw [if_pos ⟨hi, hj⟩]
    exact dot_exact hu _ (by simp [Mat.terms])
  have prod : ∀ Y : Mat α, Y.rows = n → ∃ S, K.FRmatmat u Y S ∧ S.rows = n := fun Y hY =>
    ⟨K.flRmatmat id Y, hK.flRmatmat hu (fun x => Rnd.refl hu x) Y, hY⟩
  rcases X with _ | X
  · have s1 : (c.rdense K.toDense).rows = n := by cases c <;> first | exact hK.rows | exact hK.cols
    obtain ⟨Q, H, q1, q2, q3, q4⟩ := gram _ s1
    cases hK with
    | @diagonal _ d hd =>
      exact ⟨_, Vec.ofFn d.len fun i => d.get i * d.get i, rfl, rfl, fun i hi => ⟨_, Rnd.refl hu _, by rw [Vec.get_ofFn, if_pos hi]⟩⟩
    | dense hr' hc' => exact ⟨H, _, Q, rfl, q1, q2, q3, q4⟩
    | block hb => exact ⟨H, _, Q, rfl, q1, q2, q3, by have := hb.hD; subst this; exact q4⟩
    | hier hd hs => exact ⟨H, _, Q, rfl, q1, q2, q3, by have := hs.h1; have := hs.h2; subst_vars; exact q4⟩
    | tril hn hl => exact ⟨H, _, Q, rfl, q1, q2, q3, q4⟩
    | triu hn hl => exact ⟨H, _, Q, rfl, q1, q2, q3, q4⟩
    | topRight hb hA hr' hc' hC => exact ⟨H, _, Q, rfl, q1, q2, q3, q4⟩
    | bottomLeft hb hA hr' hc' hC => exact ⟨H, _, Q, rfl, q1, q2, q3, q4⟩
  · obtain ⟨S, hS, s1⟩ := prod X (hX X rfl)
    obtain ⟨Q, H, q1, q2, q3, q4⟩ := gram _ s1
    cases hK with
    | @diagonal _ d hd =>
      exact ⟨_, Vec.ofFn d.len fun i => d.get i * d.get i * (((List.range X.cols).map fun j => (X.get i j, X.get i j)).map fun t => t.1 * t.2).sum, rfl, rfl,
        fun i hi => ⟨_, Rnd.refl hu _, _, dot_exact hu _ (by simp), by rw [Vec.get_ofFn, if_pos hi]; exact Rnd.refl hu _⟩⟩
    | dense hr' hc' => exact ⟨H, S, Q, hS, q1, q2, q3, q4⟩
    | block hb => exact ⟨H, S, Q, hS, q1, q2, q3, by have := hb.hD; subst this; exact q4⟩
    | hier hd hs => exact ⟨H, S, Q, hS, q1, q2, q3, by have := hs.h1; have := hs.h2; subst_vars; exact q4⟩
    | tril hn hl => exact ⟨H, S, Q, hS, q1, q2, q3, q4⟩
    | triu hn hl => exact ⟨H, S, Q, hS, q1, q2, q3, q4⟩
    | topRight hb hA hr' hc' hC => exact ⟨H, S, Q, hS, q1, q2, q3, q4⟩
    | bottomLeft hb hA hr' hc' hC => exact ⟨H, S, Q, hS, q1, q2, q3, q4⟩

theorem SM.FAdd.exists {A B : SM α} (hA : WF c n A) (hB : WF c n B) (a : α) : ∃ A', A.FAdd u c n a B A' := by
  obtain ⟨P, _, w, d⟩ := (C04_inplace_exact hA hB a).1
  exact ⟨P, w, fun i hi j hj => ⟨_, Rnd.refl hu _, by
    have := congrFun (congrFun d ⟨i, hi⟩) ⟨j, hj⟩
    rw [show P.toDense.get i j = A.toDense.get i j + a * B.toDense.get i j from this]; exact Rnd.refl hu _⟩⟩

theorem SM.FMul.exists {A : SM α} (hA : WF c n A) (a : α) : ∃ A', A.FMul u c n a A' := by
  obtain ⟨w, d⟩ := (C04_inplace_exact hA hA a).2
  exact ⟨_, w, fun i hi j hj => by
    have := congrFun (congrFun d ⟨i, hi⟩) ⟨j, hj⟩
    rw [show (A.mul_ a).toDense.get i j = a * A.toDense.get i j from this, mul_comm]; exact Rnd.refl hu _⟩

theorem SM.FDiagAdd.exists {A : SM α} (hc : c.Regular) (hA : WF c n A) (a : α) : ∃ A', A.FDiagAdd u c n a A' ∧ WF c n A' := by
  obtain ⟨P, _, w, d⟩ := C10_diag_add_partial hc hA a
  have hd : ∀ i < n, ∀ j < n, if i = j then Rnd u (A.toDense.get i i + a) (P.toDense.get i i) else P.toDense.get i j = A.toDense.get i j :=
    fun i hi j hj => by
      have := congrFun (congrFun d ⟨i, hi⟩) ⟨j, hj⟩
      rw [Matrix.add_apply, Matrix.smul_apply, Matrix.one_apply, smul_eq_mul] at this
      simp only [Fin.mk.injEq] at this
      change P.toDense.get i j = A.toDense.get i j + _ at this
      split_ifs at this ⊢ with h
      · subst h
        rw [this, mul_one]; exact Rnd.refl hu _
      · rw [this, mul_zero, add_zero]
  have recur : ∃ A', ∃ D : Mat α, D.rows = n ∧ D.cols = n ∧
      (∀ i < n, ∀ j < n, if i = j then Rnd u (A.toDense.get i i + a) (D.get i i) else D.get i j = A.toDense.get i j) ∧ SM.FFromDense u c D A' := by
    obtain ⟨A', h'⟩ := SM.FFromDense.exists hu hA.supports (Q := P.toDense) w.rows w.cols
    exact ⟨A', P.toDense, w.rows, w.cols, hd, h'⟩
  have h0 : MApp u 0 (absM (A.den n)) (A.den n) A.toDense := fun i j => App.self _
  suffices ∃ A', A.FDiagAdd u c n a A' by
    obtain ⟨A', h'⟩ := this
    refine ⟨A', h', ?_⟩
    cases c with
    | dense => obtain ⟨D, d1, d2, _, hF⟩ := h'; exact (hF.mapp hu hA.supports d1 d2 (B := absM (D.M n n)) (E := D.M n n) (k := 0) fun i j => App.self _).1
    | topRight => obtain ⟨D, d1, d2, _, hF⟩ := h'; exact (hF.mapp hu hA.supports d1 d2 (B := absM (D.M n n)) (E := D.M n n) (k := 0) fun i j => App.self _).1
    | bottomLeft => obtain ⟨D, d1, d2, _, hF⟩ := h'; exact (hF.mapp hu hA.supports d1 d2 (B := absM (D.M n n)) (E := D.M n n) (k := 0) fun i j => App.self _).1
    | _ => exact h'.1
  cases c with
  | dense => exact recur
  | topRight => exact recur
  | bottomLeft => exact recur
  | _ => exact ⟨P, w, hd⟩

theorem FMomentum.exists {h : Hyper α} {H G M0 : SM α} (hc : c.Regular) (hH : WF c n H) (hG : WF c n G) (hM : WF c n M0) (a b : α) :
    ∃ M, FMomentum u h c n a b H G M0 M ∧ WF c n M := by
  obtain ⟨Z, eZ, wZ, dZ⟩ := (C12_eye_zeros (α := α) hH.supports).2
  obtain ⟨M1, h1⟩ := SM.FAdd.exists hu wZ hH a
  obtain ⟨M2, h2⟩ := SM.FAdd.exists hu h1.1 hG b
  obtain ⟨M3, h3, w3⟩ := SM.FDiagAdd.exists hu hc h2.1 (-1)
  obtain ⟨M4, h4⟩ := SM.FMul.exists hu w3 (1 / 2 * if h.normalize then 1 - h.alpha1 else 1)
  by_cases h0 : h.alpha1 ≠ 0
  · obtain ⟨M, h5⟩ := SM.FAdd.exists hu h4.1 hM h.alpha1
    exact ⟨M, ⟨_, Z, M1, M2, M3, M4, eZ, h1, h2, h3, ⟨_, Rnd.refl hu _, Rnd.refl hu _⟩, h4, by rw [if_pos h0]; exact ⟨_, Rnd.refl hu _, h5⟩⟩, h5.1⟩
  · exact ⟨M4, ⟨_, Z, M1, M2, M3, M4, eZ, h1, h2, h3, ⟨_, Rnd.refl hu _, Rnd.refl hu _⟩, h4, by rw [if_neg h0]⟩, h4.1⟩

theorem FTraceOr1.exists (h : Hyper α) (n : ℕ) (A : SM α) : ∃ t, FTraceOr1 u h n A t := by
  unfold FTraceOr1
  split_ifs
  · exact ⟨1, rfl⟩
  · cases A <;> first | exact ⟨_, rfl⟩ | exact ⟨_, .inl (dot_exact hu _ (by simp))⟩

theorem FFactor.exists [HasSqrt α] {h : Hyper α} {t : ℕ} {K M : SM α} (hc : c.Regular) (hK : WF c n K) (hM : WF c n M) (hn : 0 < n) :
    ∃ K', FFactor u h t c n K M K' := by
  obtain ⟨b, eb, _⟩ := factorRate_den h t hM hn
  obtain ⟨P, _, wP, dP⟩ := C01_matmul_exact hc hK hM
  let Q : Mat α := K.toDense.mul M.toDense
  have q1 : Q.rows = n := hK.rows
  have q2 : Q.cols = n := hM.cols
  have hQ : ∀ i < n, ∀ j < n, Dot u (2 * n + 2) (K.toDense.terms M.toDense i j) (Q.get i j) := fun i hi j hj => by
    have := dot_exact hu (k := 2 * n + 2) (K.toDense.terms M.toDense i j) (by simp only [Mat.terms, List.length_map, List.length_range]; rw [hK.cols]; omega)
    rw [Mat.sum_terms (g := fun a b => a * b)] at this
    show Dot _ _ _ ((K.toDense.mul M.toDense).get i j)
    rw [Mat.get_mul]; exact this
  obtain ⟨P', hP, wP'⟩ : ∃ P', SM.FProduct u c n K M P' ∧ WF c n P' := by
    have recur : ∃ P', SM.FFromDense u c Q P' ∧ WF c n P' := by
      obtain ⟨P', h'⟩ := SM.FFromDense.exists hu hK.supports (Q := Q) q1 q2
      exact ⟨P', h', (h'.mapp hu hK.supports q1 q2 (B := absM (Q.M n n)) (E := Q.M n n) (k := 0) fun i j => App.self _).1⟩
    have other : ∀ i < n, ∀ j < n, Rnd u (Q.get i j) (P.toDense.get i j) := fun i hi j hj => by
      have := congrFun (congrFun dP ⟨i, hi⟩) ⟨j, hj⟩
      rw [Matrix.mul_apply] at this
      have e : Q.get i j = P.toDense.get i j := by
        show (K.toDense.mul M.toDense).get i j = _
        rw [Mat.get_mul, hK.cols, Finset.sum_range]; exact this.symm
      rw [e]; exact Rnd.refl hu _
    cases c with
    | topRight => obtain ⟨P', h', w'⟩ := recur; exact ⟨P', ⟨w', K, M, Q, SM.Cast.refl hu K, SM.Cast.refl hu M, q1, q2, hQ, P', h', SM.Cast.refl hu P'⟩, w'⟩
    | bottomLeft => obtain ⟨P', h', w'⟩ := recur; exact ⟨P', ⟨w', K, M, Q, SM.Cast.refl hu K, SM.Cast.refl hu M, q1, q2, hQ, P', h', SM.Cast.refl hu P'⟩, w'⟩
    | _ => exact ⟨P, ⟨wP, K, M, Q, SM.Cast.refl hu K, SM.Cast.refl hu M, q1, q2, hQ, other⟩, wP⟩
  obtain ⟨K', hK'⟩ := SM.FAdd.exists hu hK wP' (-b)
  exact ⟨K', hK'.1, b, P', ⟨b, b, eb, Rnd.refl hu _, Rnd.refl hu _⟩, hP, hK'.2⟩

theorem FMomenta.exists {h : Hyper α} {cK cC : Cls} {nK nC : ℕ} {K C HK HC mK mC : SM α} (rK : cK.Regular) (rC : cC.Regular) (wK : WF cK nK K)
    (wC : WF cC nC C) (wHK : WF cK nK HK) (wHC : WF cC nC HC) (wmK : WF cK nK mK) (wmC : WF cC nC mC) (v : α) :
    ∃ mK' mC', FMomenta u h cK cC nK nC v K C HK HC mK mC mK' mC' ∧ WF cK nK mK' ∧ WF cC nC mC' := by
  obtain ⟨KtK, i1⟩ := SM.FInner.exists hu wK none (by simp)
  obtain ⟨CtC, i2⟩ := SM.FInner.exists hu wC none (by simp)
  obtain ⟨w1, _⟩ := SM.FInner.err_none hu wK i1
  obtain ⟨w2, _⟩ := SM.FInner.err_none hu wC i2
  obtain ⟨tHC, t1⟩ := FTraceOr1.exists hu h nC HC
  obtain ⟨tCC, t2⟩ := FTraceOr1.exists hu h nC CtC
  obtain ⟨tHK, t3⟩ := FTraceOr1.exists hu h nK HK
  obtain ⟨tKK, t4⟩ := FTraceOr1.exists hu h nK KtK
  obtain ⟨mK', m1, v1⟩ := FMomentum.exists hu (h := h) rK wHK w1 wmK (if h.kfacLike then 1 else v * tHC) (h.damping * tCC)
  obtain ⟨mC', m2, v2⟩ := FMomentum.exists hu (h := h) rC wHC w2 wmC (if h.kfacLike then v else v * tHK) (h.damping * tKK)
  refine ⟨mK', mC', ⟨KtK, CtC, tHC, tCC, tHK, tKK, _, _, _, _, i1, i2, t1, t2, t3, t4, ?_, ⟨_, Rnd.refl hu _, Rnd.refl hu _⟩, ⟨_, Rnd.refl hu _, Rnd.refl hu _⟩, m1, m2⟩, v1, v2⟩
  split_ifs
  · exact ⟨rfl, Rnd.refl hu _⟩
  · exact ⟨⟨_, Rnd.refl hu _, Rnd.refl hu _⟩, ⟨_, Rnd.refl hu _, Rnd.refl hu _⟩⟩

theorem SM.FStat.exists {K : SM α} (hK : WF c n K) : ∀ {Xs : List (Mat α)}, Xs ≠ [] → (∀ X ∈ Xs, X.rows = n) → ∃ H, SM.FStat u c n K Xs H ∧ WF c n H
  | [], h, _ => absurd rfl h
  | X :: Xs, _, h => by
    have hX := h X (List.mem_cons_self ..)
    obtain ⟨B, hB⟩ := SM.FInner.exists hu hK (some X) (by simpa using hX)
    have wB := (SM.FInner.err_some hu hK hX rfl (P := absM (X.M n X.cols)) (E := X.M n X.cols) (l := 0) (fun i j => App.self _) hB).1
    by_cases h0 : Xs = []
    · subst h0; exact ⟨B, .first hB, wB⟩
    · obtain ⟨H, hH, wH⟩ := SM.FStat.exists hK h0 fun Y hY => h Y (List.mem_cons_of_mem _ hY)
      obtain ⟨P, _, w, d⟩ := (C04_inplace_exact wH wB 1).1
      refine ⟨P, .next hH hB w fun i hi j hj => ?_, w⟩
      have := congrFun (congrFun d ⟨i, hi⟩) ⟨j, hj⟩
      rw [one_smul] at this
      rw [show P.toDense.get i j = H.toDense.get i j + B.toDense.get i j from this]; exact Rnd.refl hu _
end
