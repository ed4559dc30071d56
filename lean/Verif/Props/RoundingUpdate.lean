import Verif.Proofs.RoundingUpdate
import Verif.Props.OptSamples

/-!
C90: rounding errors of the whole update of the pre-conditioner.

`Verif/Model/RoundingUpdate.lean` describes the possible results of `from_inner`, of the accumulation of statistics and of `_update_preconditioner` if every
operation and every conversion has a relative error of at most `u`. Here: how far they are from the exact ones.
-/

set_option linter.unusedSectionVars false
open Finset Matrix
namespace RoundUpd

section
variable {α : Type} [Field α] [LinearOrder α] [IsStrictOrderedRing α]

/-- the exact statistic of mini-batches `Es`: `Σ Π(Kᵀ E Eᵀ K)` (`K E Eᵀ Kᵀ` for block-diagonal classes, see C05) -/
def stat (c : Cls) (n : ℕ) (K : Matrix (Fin n) (Fin n) α) (Es : List (Mat α)) : Matrix (Fin n) (Fin n) α :=
  (Es.map fun E => c.proj n (c.sandwich K (E.M n E.cols * (E.M n E.cols)ᵀ))).sum

/-- the same expression of absolute values -/
def absStat (c : Cls) (n : ℕ) (K : Matrix (Fin n) (Fin n) α) (Es : List (Mat α)) : Matrix (Fin n) (Fin n) α :=
  (Es.map fun E => c.proj n (c.sandwich (absM K) (absM (E.M n E.cols) * (absM (E.M n E.cols))ᵀ))).sum

/-- the direction of a factor with absolute values and without cancellation: `½ |s| (a H + |λ| b Π(|A|ᵀ|A|) + I)` -/
def absDir (c : Cls) {n : ℕ} (s a b damping : α) (A H : Matrix (Fin n) (Fin n) α) : Matrix (Fin n) (Fin n) α :=
  |1 / 2 * s| • (a • H + (|damping| * b) • c.proj n (c.sandwich (absM A) 1) + 1)

/-- the mini-batches `Xs` are `Es` with at most `l` roundings per entry; all have `n` rows and at most `m` columns -/
def Near (u : α) (l n m : ℕ) : List (Mat α) → List (Mat α) → Prop := List.Forall₂ fun E X =>
  E.rows = n ∧ X.rows = n ∧ X.cols = E.cols ∧ E.cols ≤ m ∧ ∀ i j, |X.get i j - E.get i j| ≤ ((1 + u) ^ l - 1) * |E.get i j|

/-- roundings between the entries of `N` mini-batches and those of the statistic -/
def statDepth (c : Cls) (l n m N : ℕ) : ℕ := 2 * l + 2 * c.chain n + m + 2 * n + 9 + N

theorem Near.app {u : α} {l n m : ℕ} {Es Xs : List (Mat α)} (h : Near u l n m Es Xs) : List.Forall₂
    (fun E X => E.rows = n ∧ X.rows = n ∧ X.cols = E.cols ∧ E.cols ≤ m ∧ ∀ i j, App u l |E.get i j| (E.get i j) (X.get i j)) Es Xs :=
  List.Forall₂.imp (fun _ _ h => ⟨h.1, h.2.1, h.2.2.1, h.2.2.2.1, fun i j => ⟨le_rfl, h.2.2.2.2 i j⟩⟩) h

theorem Near.refl {u : α} (hu : 0 ≤ u) {n m : ℕ} : ∀ {Es : List (Mat α)}, (∀ E ∈ Es, E.rows = n ∧ E.cols ≤ m) → Near u 0 n m Es Es
  | [], _ => .nil
  | E :: Es, h => .cons ⟨(h E (List.mem_cons_self ..)).1, (h E (List.mem_cons_self ..)).1, rfl, (h E (List.mem_cons_self ..)).2, fun i j => by simp⟩
    (Near.refl hu fun F hF => h F (List.mem_cons_of_mem _ hF))

theorem fix_sum {c : Cls} {n : ℕ} (hs : c.Supports n) (hn : c.NoHier) (f : Mat α → Matrix (Fin n) (Fin n) α) (Es : List (Mat α)) :
    c.proj n (Es.map fun E => c.proj n (f E)).sum = (Es.map fun E => c.proj n (f E)).sum := by
  induction Es with
  | nil => simp [proj_zero hs]
  | cons E Es ih => rw [List.map_cons, List.sum_cons, proj_add hs, proj_proj hs hn, ih]

/-- **C90 (scales).** Division of the gradients by the square root of the previous loss scale, and the factor that removes the loss scales from the statistics:
three roundings each. -/
theorem C90_scales [HasSqrt α] {u : α} (hu : 0 ≤ u) (u1 : u ≤ 1 / 2) {p s g g' v : α} :
    (FDescale u p g g' → |g' - g / HasSqrt.sqrt p| ≤ ((1 + u) ^ 3 - 1) * |g / HasSqrt.sqrt p|) ∧
    (FUnscale u p s v → |v - p / s ^ 2| ≤ ((1 + u) ^ 3 - 1) * |p / s ^ 2|) :=
  ⟨fun h => (FDescale.err hu u1 h).err, fun h => (FUnscale.err hu u1 h).err⟩

/-- scales 8 and 3: `8 / 9` may become `0.9` in `bfloat16` -/
example : FUnscale (1 / 64 : ℚ) 8 3 (9 / 10) := ⟨9, by norm_num [Rnd], by norm_num [Rnd, abs_le, abs_of_pos]⟩

/-- **C90 (statistics).** For all factors of all classes and all mini-batches: every entry of the accumulated statistic differs from the exact one by at most
`(1 + u)^k - 1` times the same expression of absolute values. -/
theorem C90_statistic {u : α} (hu : 0 ≤ u) {c : Cls} {l n m : ℕ} {K H : SM α} {Es Xs : List (Mat α)} (hK : WF c n K) (hX : Near u l n m Es Xs)
    (h : SM.FStat u c n K Xs H) : WF c n H ∧ ∀ i j, |H.den n i j - stat c n (K.den n) Es i j| ≤
      ((1 + u) ^ statDepth c l n m Es.length - 1) * absStat c n (K.den n) Es i j := by
  obtain ⟨w, e⟩ := SM.FStat.err hu hK hX.app h
  exact ⟨w, fun i j => (e i j).err⟩

/-- One product: `3 · 3` may become `9.03125` in `bfloat16` -/
example : SM.FStat (1 / 256 : ℚ) .dense 1 (.dense (Mat.eye 1)) [Mat.ofFn 1 1 fun _ _ => 3] (.dense (Mat.ofFn 1 1 fun _ _ => 289 / 32)) ∧
    WF .dense 1 (.dense (Mat.eye 1) : SM ℚ) ∧ Near (1 / 256 : ℚ) 1 1 1 [Mat.ofFn 1 1 fun _ _ => 3] [Mat.ofFn 1 1 fun _ _ => 3] := by
  have hu : (0 : ℚ) ≤ 1 / 256 := by norm_num
  have rf : ∀ A : Mat ℚ, A.Cast (1 / 256) A := fun A => ⟨rfl, rfl, fun i j => Rnd.refl hu _⟩
  refine ⟨.first ⟨Mat.ofFn 1 1 fun _ _ => 3, Mat.ofFn 1 1 fun _ _ => 289 / 32, ⟨.dense (Mat.eye 1), _, _, rf _, rf _, rf _, rfl, rfl, ?_⟩, rfl, rfl, ?_, ?_⟩,
    .dense rfl rfl, .cons ⟨rfl, rfl, rfl, le_rfl, fun i j => by
      rw [sub_self, abs_zero]; exact mul_nonneg (by norm_num) (abs_nonneg _)⟩ .nil⟩
  · intro i hi j hj
    obtain rfl : i = 0 := by simpa using hi
    obtain rfl : j = 0 := by simpa using hj
    exact .weaken (by decide) (.mul (a := 1) (b := 3) (by norm_num [Rnd, Mat.ofFn]))
  · intro i hi j hj
    obtain rfl : i = 0 := by simpa using hi
    obtain rfl : j = 0 := by simpa using hj
    exact .weaken (by decide) (.mul (a := 3) (b := 3) (by norm_num [Rnd, Mat.ofFn, abs_le]))
  · exact ⟨_, rfl, rf _⟩

/-- **C90 (exact statistics).** Without rounding: `from_inner` of the exact model. -/
theorem C90_statistic_exact {c : Cls} {n : ℕ} {K H : SM α} {X : Mat α} (hK : WF c n K) (hr : X.rows = n) (hc : 0 < X.cols)
    (h : SM.FStat 0 c n K [X] H) : ∃ P, K.fromInner (some X) = .ok P ∧ H.den n = P.den n := by
  obtain ⟨P, e, _, d⟩ := fromInner_some_den hK hr hc
  refine ⟨P, e, ?_⟩
  obtain ⟨_, h'⟩ := C90_statistic le_rfl hK (Near.refl le_rfl (Es := [X]) (n := n) (m := X.cols) (by simp [hr])) h
  ext i j
  have := h' i j
  rw [add_zero, one_pow, sub_self, zero_mul] at this
  rw [d, sub_eq_zero.1 (abs_eq_zero.1 (le_antisymm this (abs_nonneg _))), stat]
  simp

/-- roundings between mini-batches and momenta -/
def momDepth (cK cC : Cls) (l nK nC m N : ℕ) : ℕ := statDepth cK l nK m N + statDepth cC l nC m N + 5 * (nK + nC) + 24

section
variable (cK cC : Cls) {nK nC : ℕ} (h : Hyper α) (v : α) (K mK : Matrix (Fin nK) (Fin nK) α) (C mC : Matrix (Fin nC) (Fin nC) α) (XK XC : List (Mat α))

/-- the exact new momentum of `K` -/
def momK : Matrix (Fin nK) (Fin nK) α := updDir cK (dirScale h) (if h.kfacLike then 1 else v * avgTr (stat cC nC C XC))
  (if h.kfacLike then 1 else avgTr (cC.sandwich C 1)) h.damping K (stat cK nK K XK) + h.alpha1 • mK
/-- the exact new momentum of `C` -/
def momC : Matrix (Fin nC) (Fin nC) α := updDir cC (dirScale h) (if h.kfacLike then v else v * avgTr (stat cK nK K XK))
  (if h.kfacLike then 1 else avgTr (cK.sandwich K 1)) h.damping C (stat cC nC C XC) + h.alpha1 • mC
/-- the new momentum of `K` with absolute values -/
def absMomK : Matrix (Fin nK) (Fin nK) α := absDir cK (dirScale h) (if h.kfacLike then 1 else |v| * avgTr (absStat cC nC C XC))
  (if h.kfacLike then 1 else avgTr (cC.sandwich (absM C) 1)) h.damping K (absStat cK nK K XK) + |h.alpha1| • absM mK
/-- the new momentum of `C` with absolute values -/
def absMomC : Matrix (Fin nC) (Fin nC) α := absDir cC (dirScale h) (if h.kfacLike then |v| else |v| * avgTr (absStat cK nK K XK))
  (if h.kfacLike then 1 else avgTr (cK.sandwich (absM K) 1)) h.damping C (absStat cC nC C XC) + |h.alpha1| • absM mC
end

/-- A rounded update of the factors of a layer, from the mini-batches on: statistics, scales, momenta, factors -/
structure Update [HasSqrt α] (u : α) (h : Hyper α) (t : ℕ) (cK cC : Cls) (nK nC : ℕ) (p s : α) (XK XC : List (Mat α)) (K C mK mC mK' mC' K' C' : SM α) : Prop where
  stats : ∃ HK HC v, SM.FStat u cK nK K XK HK ∧ SM.FStat u cC nC C XC HC ∧ FUnscale u p s v ∧ FUpdate u h t cK cC nK nC v K C HK HC mK mC mK' mC' K' C'

section
variable [HasSqrt α] {u : α} {h : Hyper α} {t : ℕ} {cK cC : Cls} {l m nK nC : ℕ} {p s : α} {EK EC XK XC : List (Mat α)} {K C mK mC mK' mC' K' C' : SM α}

theorem Update.mapp (hu : 0 ≤ u) (u1 : u ≤ 1 / 2) (rK : cK.Regular) (rC : cC.Regular) (pK : 0 < nK) (pC : 0 < nC) (wK : WF cK nK K) (wC : WF cC nC C)
    (hXK : Near u l nK m EK XK) (hXC : Near u l nC m EC XC) (hN : EC.length = EK.length)
    (hU : Update u h t cK cC nK nC p s XK XC K C mK mC mK' mC' K' C') :
    (WF cK nK mK' ∧ WF cC nC mC') ∧ FFactor u h t cK nK K mK' K' ∧ FFactor u h t cC nC C mC' C' ∧
    MApp u (momDepth cK cC l nK nC m EK.length) (absMomK cK cC h (p / s ^ 2) (K.den nK) (mK.den nK) (C.den nC) EK EC)
      (momK cK cC h (p / s ^ 2) (K.den nK) (mK.den nK) (C.den nC) EK EC) mK'.toDense ∧
    MApp u (momDepth cK cC l nK nC m EK.length) (absMomC cK cC h (p / s ^ 2) (K.den nK) (C.den nC) (mC.den nC) EK EC)
      (momC cK cC h (p / s ^ 2) (K.den nK) (C.den nC) (mC.den nC) EK EC) mC'.toDense := by
  obtain ⟨HK, HC, v, s1, s2, hv, hM, f1, f2⟩ := hU.stats
  obtain ⟨w1, e1⟩ := SM.FStat.err hu wK hXK.app s1
  obtain ⟨w2, e2⟩ := SM.FStat.err hu wC hXC.app s2
  obtain ⟨v1, v2, m1, m2⟩ := FMomenta.err hu rK rC pK pC wK wC w1 w2 (fun hn => fix_sum wK.supports hn _ _) (fun hn => fix_sum wK.supports hn _ _)
    (fun hn => fix_sum wC.supports hn _ _) (fun hn => fix_sum wC.supports hn _ _) e1 e2 (FUnscale.err hu u1 hv) hM
  rw [hN] at m1 m2
  exact ⟨⟨v1, v2⟩, f1, f2, m1.mono hu (by unfold momDepth statDepth; omega), m2.mono hu (by unfold momDepth statDepth; omega)⟩

/-- **C90 (momenta).** For all hyper-parameters, factors, old momenta, loss scales and mini-batches, all classes without nested hierarchical ones, and all ways of evaluating: every
entry of the new momenta differs from the published direction by at most `(1 + u)^k - 1` times the same expression with absolute values. -/
theorem C90_momenta (hu : 0 ≤ u) (u1 : u ≤ 1 / 2) (rK : cK.Regular) (rC : cC.Regular) (pK : 0 < nK) (pC : 0 < nC) (wK : WF cK nK K) (wC : WF cC nC C)
    (hXK : Near u l nK m EK XK) (hXC : Near u l nC m EC XC) (hN : EC.length = EK.length)
    (hU : Update u h t cK cC nK nC p s XK XC K C mK mC mK' mC' K' C') :
    (∀ i j, |mK'.den nK i j - momK cK cC h (p / s ^ 2) (K.den nK) (mK.den nK) (C.den nC) EK EC i j| ≤
      ((1 + u) ^ momDepth cK cC l nK nC m EK.length - 1) * absMomK cK cC h (p / s ^ 2) (K.den nK) (mK.den nK) (C.den nC) EK EC i j) ∧
    ∀ i j, |mC'.den nC i j - momC cK cC h (p / s ^ 2) (K.den nK) (C.den nC) (mC.den nC) EK EC i j| ≤
      ((1 + u) ^ momDepth cK cC l nK nC m EK.length - 1) * absMomC cK cC h (p / s ^ 2) (K.den nK) (C.den nC) (mC.den nC) EK EC i j := by
  obtain ⟨_, _, _, e1, e2⟩ := hU.mapp hu u1 rK rC pK pC wK wC hXK hXC hN
  exact ⟨fun i j => (e1 i j).err, fun i j => (e2 i j).err⟩

/-- **C90 (factors).** Under the same hypotheses, with `β` any bound of the absolute momenta: the new factors differ from the exact ones, computed from the exact momenta with the exact
rates (also with `normalize_lr_cov`, where the rate depends on the largest entry), by at most `((1 + u)^k - 1) (|K| + |lr_cov| |K| (B + β))`. No inverse of a factor and no condition number
appears. -/
theorem C90_factors (hu : 0 ≤ u) (u1 : u ≤ 1 / 2) (rK : cK.Regular) (rC : cC.Regular) (pK : 0 < nK) (pC : 0 < nC) (wK : WF cK nK K) (wC : WF cC nC C)
    (hXK : Near u l nK m EK XK) (hXC : Near u l nC m EC XC) (hN : EC.length = EK.length) {β : α}
    (hβK : ∀ i j, absMomK cK cC h (p / s ^ 2) (K.den nK) (mK.den nK) (C.den nC) EK EC i j ≤ β)
    (hβC : ∀ i j, absMomC cK cC h (p / s ^ 2) (K.den nK) (C.den nC) (mC.den nC) EK EC i j ≤ β)
    (hU : Update u h t cK cC nK nC p s XK XC K C mK mC mK' mC' K' C') :
    ∃ bK bC, IsRate h t (momK cK cC h (p / s ^ 2) (K.den nK) (mK.den nK) (C.den nC) EK EC) bK ∧
      IsRate h t (momC cK cC h (p / s ^ 2) (K.den nK) (C.den nC) (mC.den nC) EK EC) bC ∧
      (∀ i j, |(K'.den nK - K.den nK * (1 - bK • momK cK cC h (p / s ^ 2) (K.den nK) (mK.den nK) (C.den nC) EK EC)) i j| ≤
        ((1 + u) ^ (momDepth cK cC l nK nC m EK.length + 4 * nK + 11) - 1) * (|K.den nK i j| + |h.lrCov.at t| *
          ∑ r, |K.den nK i r| * (absMomK cK cC h (p / s ^ 2) (K.den nK) (mK.den nK) (C.den nC) EK EC r j + β))) ∧
      ∀ i j, |(C'.den nC - C.den nC * (1 - bC • momC cK cC h (p / s ^ 2) (K.den nK) (C.den nC) (mC.den nC) EK EC)) i j| ≤
        ((1 + u) ^ (momDepth cK cC l nK nC m EK.length + 4 * nC + 11) - 1) * (|C.den nC i j| + |h.lrCov.at t| *
          ∑ r, |C.den nC i r| * (absMomC cK cC h (p / s ^ 2) (K.den nK) (C.den nC) (mC.den nC) EK EC r j + β)) := by
  obtain ⟨⟨v1, v2⟩, f1, f2, e1, e2⟩ := hU.mapp hu u1 rK rC pK pC wK wC hXK hXC hN
  obtain ⟨bK, hbK, gK⟩ := f1.err_approx hu rK wK v1 pK e1 hβK
  obtain ⟨bC, hbC, gC⟩ := f2.err_approx hu rC wC v2 pC e2 hβC
  exact ⟨bK, bC, hbK, hbC, gK, gC⟩

/-- **C90 (without rounding).** With `u = 0`, the statistics `HK`, `HC` as stored and the exact factor: the momenta and factors of the exact model. -/
theorem C90_exact {HK HC : SM α} {v : α} (rK : cK.Regular) (rC : cC.Regular) (pK : 0 < nK) (pC : 0 < nC) (wK : WF cK nK K) (wC : WF cC nC C) (wHK : WF cK nK HK)
    (wHC : WF cC nC HC) (hM : FUpdate 0 h t cK cC nK nC v K C HK HC mK mC mK' mC' K' C') :
    ∃ dK dC bK bC K1 C1, newMomenta h nK nC v K C HK HC = .ok (dK, dC) ∧ mK'.den nK = dK.den nK + h.alpha1 • mK.den nK ∧
      mC'.den nC = dC.den nC + h.alpha1 • mC.den nC ∧ factorRate h t mK' = .ok bK ∧ factorRate h t mC' = .ok bC ∧
      factorStep K mK' bK = .ok K1 ∧ factorStep C mC' bC = .ok C1 ∧ K'.den nK = K1.den nK ∧ C'.den nC = C1.den nC := by
  obtain ⟨hM, f1, f2⟩ := hM
  -- projections of statistics are needed for recursive classes only; there they are matrices of the class
  have fx : ∀ {c : Cls} {n : ℕ} {A : SM α}, WF c n A → c.NoHier → c.proj n (absM (A.den n)) = absM (A.den n) ∧ c.proj n (A.den n) = A.den n := by
    intro c n A wA hn
    obtain ⟨A', w', e'⟩ := wA.abs hn
    have e : absM (A.den n) = A'.den n := by ext i j; exact (e' i j).symm
    exact ⟨by rw [e, w'.proj_den hn], wA.proj_den hn⟩
  have self : ∀ {n : ℕ} (A : SM α), MApp (0 : α) 0 (absM (A.den n)) (A.den n) A.toDense := fun A i j => App.self _
  obtain ⟨v1, v2, m1, m2⟩ := FMomenta.err le_rfl rK rC pK pC wK wC wHK wHC (fun hn => (fx wHK hn).1) (fun hn => (fx wHK hn).2) (fun hn => (fx wHC hn).1)
    (fun hn => (fx wHC hn).2) (self HK) (self HC) (App.self v) hM
  have ex : ∀ {n k : ℕ} {B E : Matrix (Fin n) (Fin n) α} {A : SM α}, MApp (0 : α) k B E A.toDense → A.den n = E := by
    intro n k B E A e
    ext i j
    have := (e i j).err
    rw [add_zero, one_pow, sub_self, zero_mul] at this
    exact sub_eq_zero.1 (abs_eq_zero.1 (le_antisymm this (abs_nonneg _)))
  obtain ⟨dK, dC, eN, _, _, ddK, ddC⟩ := newMomenta_den h rK rC wK wC wHK wHC v
  have fac : ∀ {c : Cls} {n : ℕ} {A M A' : SM α}, c.Regular → WF c n A → WF c n M → 0 < n → FFactor 0 h t c n A M A' →
      ∃ b L, factorRate h t M = .ok b ∧ factorStep A M b = .ok L ∧ A'.den n = L.den n := by
    intro c n A M A' hr wA wM hn hf
    obtain ⟨b, hb, e⟩ := hf.err le_rfl hr wA wM hn
    obtain ⟨b', e', hb'⟩ := factorRate_den h t wM hn
    obtain ⟨L, eL, _, dL⟩ := factorStep_den hr wA wM b'
    refine ⟨b', L, e', eL, ?_⟩
    have : b = b' := by
      unfold IsRate at hb hb'
      split_ifs at hb hb'
      · obtain ⟨x, ⟨⟨i, j, h1⟩, h2⟩, rfl⟩ := hb
        obtain ⟨y, ⟨⟨i', j', h1'⟩, h2'⟩, rfl⟩ := hb'
        rw [show x = y from le_antisymm (by rw [h1]; exact h2' _ _) (by rw [h1']; exact h2 _ _)]
      · rw [hb, hb']
    rw [ex e, dL, this]
  obtain ⟨bK, K1, a1, a2, a3⟩ := fac rK wK v1 pK f1
  obtain ⟨bC, C1, c1, c2, c3⟩ := fac rC wC v2 pC f2
  exact ⟨dK, dC, bK, bC, K1, C1, eN, by rw [ex m1, ddK], by rw [ex m2, ddC], a1, c1, a2, c2, a3, c3⟩

/-- **C90 (a result exists).** For all factors, momenta, mini-batches and scales there is a rounded update, whatever the unit roundoff. -/
theorem C90_exists (hu : 0 ≤ u) (rK : cK.Regular) (rC : cC.Regular) (pK : 0 < nK) (pC : 0 < nC) (wK : WF cK nK K) (wC : WF cC nC C) (wmK : WF cK nK mK)
    (wmC : WF cC nC mC) (hXK : ∀ X ∈ XK, X.rows = nK) (hXC : ∀ X ∈ XC, X.rows = nC) (nXK : XK ≠ []) (nXC : XC ≠ []) :
    ∃ mK' mC' K' C', Update u h t cK cC nK nC p s XK XC K C mK mC mK' mC' K' C' := by
  obtain ⟨HK, hHK, wHK⟩ := SM.FStat.exists hu wK nXK hXK
  obtain ⟨HC, hHC, wHC⟩ := SM.FStat.exists hu wC nXC hXC
  obtain ⟨mK', mC', hM, w1, w2⟩ := FMomenta.exists hu (h := h) rK rC wK wC wHK wHC wmK wmC (p / s ^ 2)
  obtain ⟨K', hK'⟩ := FFactor.exists hu (h := h) (t := t) rK wK w1 pK
  obtain ⟨C', hC'⟩ := FFactor.exists hu (h := h) (t := t) rC wC w2 pC
  exact ⟨mK', mC', K', C', ⟨HK, HC, _, hHK, hHC, ⟨_, Rnd.refl hu _, Rnd.refl hu _⟩, hM, hK', hC'⟩⟩

/-- The hypotheses can be met: a Toeplitz and a dense factor, two mini-batches, the unit roundoff of `bfloat16`, any hyper-parameters. -/
example (h : Hyper ℚ) (t : ℕ) : ∃ mK' mC' K' C' : SM ℚ, Update (1 / 256) h t .tril .dense 3 2 8 3
      [Mat.ofFn 3 4 fun i j => i + j, Mat.ofFn 3 4 fun i j => i - j] [Mat.ofFn 2 4 fun i j => i * j, Mat.ofFn 2 4 fun _ _ => 1]
      (.tril (Vec.ofFn 3 fun i => i + 1)) (.dense (Mat.eye 2)) (.tril (Vec.ofFn 3 fun _ => 1)) (.dense (Mat.eye 2)) mK' mC' K' C' ∧
    WF .tril 3 mK' ∧ (0 : ℚ) ≤ 1 / 256 ∧ (1 / 256 : ℚ) ≤ 1 / 2 ∧ Cls.tril.Regular ∧ Cls.dense.Regular := by
  have hu : (0 : ℚ) ≤ 1 / 256 := by norm_num
  obtain ⟨mK', mC', K', C', hU⟩ := C90_exists (u := 1 / 256) (h := h) (t := t) (p := 8) (s := 3) (cK := .tril) (cC := .dense) (nK := 3) (nC := 2)
    (K := .tril (Vec.ofFn 3 fun i => (i : ℚ) + 1)) (C := .dense (Mat.eye 2)) (mK := .tril (Vec.ofFn 3 fun _ => 1)) (mC := .dense (Mat.eye 2))
    (XK := [Mat.ofFn 3 4 fun i j => (i : ℚ) + j, Mat.ofFn 3 4 fun i j => (i : ℚ) - j]) (XC := [Mat.ofFn 2 4 fun i j => (i : ℚ) * j, Mat.ofFn 2 4 fun _ _ => 1])
    hu trivial trivial (by decide) (by decide) (.tril (by decide) rfl) (.dense rfl rfl) (.tril (by decide) rfl) (.dense rfl rfl)
    (by simp [Mat.ofFn]) (by simp [Mat.ofFn]) (by simp) (by simp)
  refine ⟨mK', mC', K', C', hU, (Update.mapp (l := 0) (m := 4) (cK := .tril) (cC := .dense) (nK := 3) (nC := 2) hu (by norm_num) trivial trivial (by decide)
    (by decide) (.tril (by decide) rfl) (.dense rfl rfl) (Near.refl hu ?_) (Near.refl hu ?_) (by rfl) hU).1.1, hu, by norm_num, trivial, trivial⟩ <;> simp [Mat.ofFn]

/-- **C90 (uniform bound).** Entries of the factor at most `κ`, absolute momenta at most `β`: the error of an update is at most `((1 + u)^k - 1) κ (1 + 2 n |lr_cov| β)`. -/
theorem C90_uniform (hu : 0 ≤ u) (u1 : u ≤ 1 / 2) (rK : cK.Regular) (rC : cC.Regular) (pK : 0 < nK) (pC : 0 < nC) (wK : WF cK nK K) (wC : WF cC nC C)
    (hXK : Near u l nK m EK XK) (hXC : Near u l nC m EC XC) (hN : EC.length = EK.length) {β κ : α}
    (hβK : ∀ i j, absMomK cK cC h (p / s ^ 2) (K.den nK) (mK.den nK) (C.den nC) EK EC i j ≤ β)
    (hβC : ∀ i j, absMomC cK cC h (p / s ^ 2) (K.den nK) (C.den nC) (mC.den nC) EK EC i j ≤ β) (hκ : ∀ i j, |K.den nK i j| ≤ κ)
    (hU : Update u h t cK cC nK nC p s XK XC K C mK mC mK' mC' K' C') :
    ∃ b, IsRate h t (momK cK cC h (p / s ^ 2) (K.den nK) (mK.den nK) (C.den nC) EK EC) b ∧
      ∀ i j, |(K'.den nK - K.den nK * (1 - b • momK cK cC h (p / s ^ 2) (K.den nK) (mK.den nK) (C.den nC) EK EC)) i j| ≤
        ((1 + u) ^ (momDepth cK cC l nK nC m EK.length + 4 * nK + 11) - 1) * (κ * (1 + 2 * nK * |h.lrCov.at t| * β)) := by
  obtain ⟨b, _, hb, _, e, _⟩ := C90_factors hu u1 rK rC pK pC wK wC hXK hXC hN hβK hβC hU
  refine ⟨b, hb, fun i j => (e i j).trans (mul_le_mul_of_nonneg_left ?_ (by linarith [one_le_gr hu (momDepth cK cC l nK nC m EK.length + 4 * nK + 11)]))⟩
  obtain ⟨_, _, _, g, _⟩ := hU.mapp hu u1 rK rC pK pC wK wC hXK hXC hN
  have κ0 : 0 ≤ κ := (abs_nonneg _).trans (hκ i j)
  have : ∑ r, |K.den nK i r| * (absMomK cK cC h (p / s ^ 2) (K.den nK) (mK.den nK) (C.den nC) EK EC r j + β) ≤ ∑ _r : Fin nK, κ * (2 * β) :=
    Finset.sum_le_sum fun r _ => mul_le_mul (hκ i r) (by linarith [hβK r j]) (by linarith [(g r j).nonneg, hβK r j]) κ0
  rw [Finset.sum_const, Finset.card_univ, Fintype.card_fin, nsmul_eq_mul] at this
  have := mul_le_mul_of_nonneg_left this (abs_nonneg (h.lrCov.at t))
  have := hκ i j
  nlinarith
end
end
end RoundUpd
