import Verif.Props.Update
import Mathlib.LinearAlgebra.Matrix.ToLinearEquiv

/-! C28, C49, C52, C53: many steps. -/

set_option linter.unusedSectionVars false
open Construct Matrix
variable {α : Type} [Field α] [LinearOrder α] [IsStrictOrderedRing α] [LawfulSqrt α]

/-- `Σ_{i ≤ k} μ^(k-i) D_i + μ^(k+1) D₀` -/
def geoSum {r c : ℕ} (μ : α) (D : ℕ → Matrix (Fin r) (Fin c) α) (D0 : Matrix (Fin r) (Fin c) α) (k : ℕ) : Matrix (Fin r) (Fin c) α :=
  ∑ i ∈ Finset.range (k + 1), μ ^ (k - i) • D i + μ ^ (k + 1) • D0

theorem geoSum_zero {r c : ℕ} (μ : α) (D : ℕ → Matrix (Fin r) (Fin c) α) (D0 : Matrix (Fin r) (Fin c) α) :
    geoSum μ D D0 0 = μ • D0 + D 0 := by simp [geoSum, add_comm]
theorem geoSum_succ {r c : ℕ} (μ : α) (D : ℕ → Matrix (Fin r) (Fin c) α) (D0 : Matrix (Fin r) (Fin c) α) (k : ℕ) :
    geoSum μ D D0 (k + 1) = μ • geoSum μ D D0 k + D (k + 1) := by
  unfold geoSum
  rw [Finset.sum_range_succ _ (k + 1), Nat.sub_self, pow_zero, one_smul, smul_add, Finset.smul_sum, smul_smul, ← pow_succ']
  have : ∀ i ∈ Finset.range (k + 1), μ ^ (k + 1 - i) • D i = μ • μ ^ (k - i) • D i := by
    intro i hi
    rw [smul_smul, ← pow_succ', Nat.succ_sub (by simp at hi; omega)]
  rw [Finset.sum_congr rfl this]
  abel

/-- A stretch of training with `n` steps of interest: `w i` and `w' i` are the states before and after the `i`-th of them; between
them come any operations that fit and satisfy `Q`. -/
structure Steps (cl : String → Cls × Cls) (Q : World α → Op α → Prop) (n : ℕ) (attr : ℕ → Option α) (w w' : ℕ → World α) : Prop where
  live : (w 0).Live cl
  fits : ∀ i < n, FitsOp (w i) (.step false (attr i) false)
  step : ∀ i < n, w' i = (exec (.step false (attr i) false) (w i)).2
  between : ∀ i, i + 1 < n → ∃ ops, FitsRun (w' i) ops ∧ Along Q (w' i) ops ∧ w (i + 1) = run ops (w' i)

theorem run_layers (ops : List (Op α)) (w : World α) : (run ops w).opt.layers = w.opt.layers ∧ (run ops w).opt.ptrGroup = w.opt.ptrGroup := by
  induction ops generalizing w with
  | nil => exact ⟨rfl, rfl⟩
  | cons op ops ih =>
    obtain ⟨a, b, _⟩ := exec_static op w
    obtain ⟨c, d⟩ := ih (exec op w).2
    exact ⟨c.trans a, d.trans b⟩

section
variable {cl : String → Cls × Cls} {Q : World α → Op α → Prop} {n : ℕ} {attr : ℕ → Option α} {w w' : ℕ → World α}

/-- every step of interest succeeds and follows the rules -/
theorem Steps.at (h : Steps cl Q n attr w w') : ∀ i < n, (w i).Live cl ∧ (w' i).Live cl ∧
    StepSpec cl ((w i).curScale (attr i)) ((w i).unscale (attr i)) (w i) (w' i) ∧ (w i).opt.layers = (w 0).opt.layers
  | 0, hi => by
    obtain ⟨v, e, sp, l⟩ := h.live.step (h.fits 0 hi)
    have : w' 0 = v := by rw [h.step 0 hi, e]
    subst this
    exact ⟨h.live, l, sp, rfl⟩
  | i + 1, hi => by
    obtain ⟨l0, l1, s, e0⟩ := h.at i (by omega)
    obtain ⟨ops, f, _, e1⟩ := h.between i hi
    have l2 : (w (i + 1)).Live cl := by rw [e1]; exact (l1.run f).2
    obtain ⟨v, e, sp, l⟩ := l2.step (h.fits _ hi)
    have : w' (i + 1) = v := by rw [h.step _ hi, e]
    subst this
    exact ⟨l2, l, sp, by rw [e1, (run_layers ops _).1, s.layers, e0]⟩

/-- an operation that does not assign to the layer's group keeps the layer's hyper-parameters -/
theorem exec_keeps_hyper {op : Op α} {w : World α} {m : Layer} {h : Hyper α} (hh : w.opt.hyperOf m = .ok h)
    (hQ : ∀ i h', op = .setHyper i h' → w.opt.ptrGroup m.weight.ptr ≠ some i) : (exec op w).2.opt.hyperOf m = .ok h := by
  by_cases hs : ∃ i h', op = .setHyper i h'
  · obtain ⟨i, h', rfl⟩ := hs
    show Opt.hyperOf { w.opt with groups := _ } m = _
    rw [hyperOf_setHyper hh, if_neg (hQ i h' rfl)]
  · rw [exec_hyperOf op w (fun i h e => hs ⟨i, h, e⟩), hh]

theorem run_keeps_hyper {m : Layer} {h : Hyper α}
    (hQ : ∀ w op, Q w op → ∀ i h', op = .setHyper i h' → w.opt.ptrGroup m.weight.ptr ≠ some i) : ∀ {ops : List (Op α)} {w : World α},
    w.opt.hyperOf m = .ok h → Along Q w ops → (run ops w).opt.hyperOf m = .ok h
  | [], _, hh, _ => hh
  | _ :: _, _, hh, ho => by rw [run_cons]; exact run_keeps_hyper hQ (exec_keeps_hyper hh (hQ _ _ ho.1)) ho.2

theorem StepSpec.hyperOf {s u : α} {w w' : World α} (h : StepSpec cl s u w w') (m : Layer) : w'.opt.hyperOf m = w.opt.hyperOf m := by
  unfold Opt.hyperOf; rw [h.ptrGroup, h.groups]

theorem Steps.hyper (hs : Steps cl Q n attr w w') {m : Layer} {h : Hyper α}
    (hQ : ∀ w op, Q w op → ∀ i h', op = .setHyper i h' → w.opt.ptrGroup m.weight.ptr ≠ some i) (hh : (w 0).opt.hyperOf m = .ok h) :
    ∀ i < n, (w i).opt.hyperOf m = .ok h
  | 0, _ => hh
  | i + 1, hi => by
    obtain ⟨ops, _, q, e⟩ := hs.between i hi
    rw [e]
    refine run_keeps_hyper hQ ?_ q
    rw [(hs.at i (by omega)).2.2.1.hyperOf]
    exact hs.hyper hQ hh i (by omega)

end

/-! ### C28 -/

/-- Between the steps of interest: no other completed step (skipped ones are allowed), no assignment to a parameter of the layer or to
the hyper-parameters of its group. Anything else is allowed: passes, new gradients, scales, other parameters and groups. -/
def NoMove (m : Layer) (w : World α) (op : Op α) : Prop := (∀ a, op ≠ .step false a false) ∧
  (∀ p M, op = .setParam p M → p ≠ m.weight.ptr ∧ ∀ b, m.bias = some b → p ≠ b.ptr) ∧
  ∀ i h, op = .setHyper i h → w.opt.ptrGroup m.weight.ptr ≠ some i

/-- Heavy-ball with weight decay in closed form: the buffer after step `k` is `B_k = Σ_{i≤k} μ^(k-i) (S_i + wd θ_i) + μ^(k+1) B`,
with `B` the buffer before the first step (0 if there is none), and the parameter has moved by `-lr Σ_{j≤k} B_j`. -/
def HeavyBall (h : Hyper α) (p : ℕ) {r c : ℕ} (S : ℕ → Matrix (Fin r) (Fin c) α) (w w' : ℕ → World α) (k : ℕ) : Prop :=
  let B := geoSum h.momentum (fun i => S i + h.weightDecay • ((w i).data p).M r c) (momO ((w 0).opt.mom p) r c)
  (h.momentum ≠ 0 → momO ((w' k).opt.mom p) r c = B k) ∧
  ((w' k).data p).M r c = ((w 0).data p).M r c - h.lr • ∑ j ∈ Finset.range (k + 1), B j

theorem heavyBall {h : Hyper α} {p r c n : ℕ} {S : ℕ → Matrix (Fin r) (Fin c) α} {w w' : ℕ → World α}
    (hs : ∀ i < n, ParamSpec h p (S i) (w i) (w' i))
    (hk : ∀ i, i + 1 < n → (w (i + 1)).data p = (w' i).data p ∧ (w (i + 1)).opt.mom p = (w' i).opt.mom p) :
    ∀ k < n, HeavyBall h p S w w' k
  | 0, hi => by
    have s := hs 0 hi
    refine ⟨fun h0 => ?_, ?_⟩
    · rw [(s.mom1 h0).2, geoSum_zero]
    · rw [s.data, Finset.sum_range_one, geoSum_zero]
  | k + 1, hi => by
    have s := hs _ hi
    obtain ⟨i1, i2⟩ := heavyBall hs hk k (by omega)
    obtain ⟨k1, k2⟩ := hk k hi
    refine ⟨fun h0 => ?_, ?_⟩
    · rw [(s.mom1 h0).2, geoSum_succ, k2, i1 h0]
    · have e : h.momentum • momO ((w (k + 1)).opt.mom p) r c = h.momentum •
          geoSum h.momentum (fun i => S i + h.weightDecay • ((w i).data p).M r c) (momO ((w 0).opt.mom p) r c) k := by
        by_cases h0 : h.momentum = 0
        · rw [h0, zero_smul, zero_smul]
        · rw [k2, i1 h0]
      rw [s.data, e, Finset.sum_range_succ _ (k + 1), geoSum_succ, k1, i2, smul_add h.lr (∑ j ∈ _, _), sub_sub]

/-- operations that do not move parameters -/
theorem exec_noMove {m : Layer} {op : Op α} {w : World α} (h : NoMove m w op) {p : ℕ}
    (hp : p = m.weight.ptr ∨ ∃ b, m.bias = some b ∧ p = b.ptr) :
    (exec op w).2.data p = w.data p ∧ (exec op w).2.opt.mom p = w.opt.mom p := by
  obtain ⟨h1, h2, _⟩ := h
  cases op with
  | forward i x ge => rcases exec_forward i x ge w with e | ⟨_, m, _, _, e⟩ <;> simp [e]
  | backward k g =>
    have f := exec_backward k g w
    exact ⟨f.data p id, f.mom p id⟩
  | setGrad p G => exact ⟨rfl, rfl⟩
  | setParam q M =>
    refine ⟨?_, rfl⟩
    show Function.update w.data q M p = _
    refine Function.update_of_ne ?_ _ _
    rintro rfl
    obtain ⟨a, b⟩ := h2 p M rfl
    rcases hp with hp | ⟨b', hb, hp⟩
    · exact a hp
    · exact b b' hb hp
  | setHyper i h' => exact ⟨rfl, rfl⟩
  | setScale s => rw [exec, World.setScale_state]; exact ⟨rfl, rfl⟩
  | step c a f =>
    cases c
    · cases f
      · exact absurd rfl (h1 a)
      · have key : ∀ v : World α, v = (World.stepBody true (World.withScale a w)).2 → v.data p = w.data p ∧ v.opt.mom p = w.opt.mom p := by
          rintro v rfl
          have f := stepBody_frame true (World.withScale a w)
          exact ⟨f.data p (by simp), f.mom p (by simp)⟩
        show (World.step false a true w).2.data p = _ ∧ (World.step false a true w).2.opt.mom p = _
        rcases step_state a true w with e | ⟨_, e⟩ | ⟨w1, e1, e⟩
        · rw [e]; exact ⟨rfl, rfl⟩
        · rw [e]; exact key _ rfl
        · rw [e]; exact key w1 (by rw [e1])
    · exact ⟨rfl, rfl⟩

theorem run_noMove {m : Layer} {p : ℕ} (hp : p = m.weight.ptr ∨ ∃ b, m.bias = some b ∧ p = b.ptr) : ∀ {ops : List (Op α)} {w : World α},
    Along (NoMove m) w ops → (run ops w).data p = w.data p ∧ (run ops w).opt.mom p = w.opt.mom p
  | [], _, _ => ⟨rfl, rfl⟩
  | _ :: _, _, h => by
    obtain ⟨a, b⟩ := exec_noMove h.1 hp
    obtain ⟨c, d⟩ := run_noMove hp h.2
    exact ⟨c.trans a, d.trans b⟩

/-- **C28.** Over any stretch of training with constant hyper-parameters, the momentum buffer of the weight and of the bias of
every layer is the geometric sum of the weight-decayed directions, and the parameter has moved by `-lr` times the sum of the
buffers. The direction of step `i` is the weight or bias part of `C Cᵀ (G_i/s_i) K Kᵀ` (`natDir`, C27) with the factors after the
step's update. Skipped steps may lie between. -/
theorem C28_heavy_ball {cl : String → Cls × Cls} {m : Layer} {n : ℕ} {attr : ℕ → Option α} {w w' : ℕ → World α} {h : Hyper α}
    (hs : Steps cl (NoMove m) n attr w w') (hm : m ∈ (w 0).opt.layers) (hh : (w 0).opt.hyperOf m = .ok h)
    (N : ℕ → Matrix (Fin m.nC) (Fin m.nK) α) (hN : ∀ i, N i = natDir (cl m.name) ((w i).curScale (attr i)) (gradM (w i) m)
      (denO ((w' i).opt.Ks m.name) m.nK) (denO ((w' i).opt.Cs m.name) m.nC)) :
    ∀ k < n, HeavyBall h m.weight.ptr (fun i => weightPart (N i)) w w' k ∧
      ∀ b (hb : m.bias = some b), HeavyBall h b.ptr (fun i => biasPart (by simp [hb]) (N i)) w w' k := by
  have hy := hs.hyper (m := m) (fun w op q => q.2.2) hh
  have sp : ∀ i < n, World.ApplySpec h m (N i) (w i) (w' i) := by
    intro i hi
    obtain ⟨_, _, s, e⟩ := hs.at i hi
    have := (s.layer m (by rw [e]; exact hm) h (hy i hi)).apply
    rw [← hN] at this
    exact this
  have kp : ∀ p, (p = m.weight.ptr ∨ ∃ b, m.bias = some b ∧ p = b.ptr) → ∀ i, i + 1 < n →
      (w (i + 1)).data p = (w' i).data p ∧ (w (i + 1)).opt.mom p = (w' i).opt.mom p := by
    intro p hp i hi
    obtain ⟨ops, _, q, e⟩ := hs.between i hi
    rw [e]; exact run_noMove hp q
  exact fun k hk => ⟨heavyBall (fun i hi => (sp i hi).weight) (kp _ (Or.inl rfl)) k hk,
    fun b hb => heavyBall (fun i hi => (sp i hi).bias b hb) (kp _ (Or.inr ⟨b, hb, rfl⟩)) k hk⟩

theorem Sample.quiet_gback (Q : World α → Op α → Prop) (hQ : ∀ w k (g : ND α), Q w (.backward k g)) (w : World α) :
    Along Q w Sample.gback := ⟨hQ _ _ _, hQ _ _ _, trivial⟩

/-- the sample's training: two consecutive steps -/
theorem Sample.two_steps (Q : World α → Op α → Prop) : ∃ (cl : String → Cls × Cls) (w w' : ℕ → World α),
    Steps cl Q 2 (fun _ => none) w w' ∧ (w 0).opt.layers = [Sample.la, Sample.lb] ∧
    ∀ m ∈ (w 0).opt.layers, (w 0).opt.hyperOf m = .ok (defaults Sample.gargs) := by
  obtain ⟨cl, w, a, b, c, d, e, f, g, h, i, j⟩ := Sample.gready2 (α := α)
  obtain ⟨w1, e1, s1, l1⟩ := a.step f
  have f1 : FitsOp w1 (.step false none false) := by
    refine Sample.goff_ready (by rw [s1.layers, c]) ?_ (by rw [s1.grad, i]) (by rw [s1.steps, g]; decide)
    rw [s1.layers]; intro m hm; rw [s1.hyperOf]; exact h m hm
  refine ⟨cl, fun i => if i = 0 then w else w1, fun i => if i = 0 then w1 else (exec (.step false none false) w1).2, ⟨a, ?_, ?_, ?_⟩, c, h⟩
  · intro i hi
    rcases Nat.eq_zero_or_pos i with rfl | hp
    · exact f
    · rw [if_neg (by omega)]; exact f1
  · intro i hi
    rcases Nat.eq_zero_or_pos i with rfl | hp
    · simp [e1]
    · simp [show i ≠ 0 by omega]
  · intro i hi
    obtain rfl : i = 0 := by omega
    exact ⟨[], trivial, trivial, rfl⟩

example : ∃ (cl : String → Cls × Cls) (w w' : ℕ → World ℝ), Steps cl (NoMove Sample.la) 2 (fun _ => none) w w' ∧ Sample.la ∈ (w 0).opt.layers ∧
    ∃ h, (w 0).opt.hyperOf Sample.la = .ok h ∧ h.momentum = 1 / 2 := by
  obtain ⟨cl, w, w', a, b, c⟩ := Sample.two_steps (α := ℝ) (NoMove Sample.la)
  exact ⟨cl, w, w', a, by rw [b]; simp, _, c _ (by rw [b]; simp), rfl⟩

/-! ### C52 -/

/-- Between the updates of interest: no other update of the layer (skipped steps, and steps whose counter `T` does not divide, are
allowed), no assignment to the hyper-parameters of its group. -/
def NoUpdate (m : Layer) (w : World α) (op : Op α) : Prop := (∀ a, op = .step false a false → ¬ OnStep w m) ∧
  ∀ i h, op = .setHyper i h → w.opt.ptrGroup m.weight.ptr ≠ some i

theorem run_noUpdate {m : Layer} : ∀ {ops : List (Op α)} {w : World α}, Untied w.opt.layers → m ∈ w.opt.layers →
    Along (NoUpdate m) w ops → (run ops w).opt.Ks m.name = w.opt.Ks m.name ∧ (run ops w).opt.Cs m.name = w.opt.Cs m.name ∧
      (run ops w).opt.mKs m.name = w.opt.mKs m.name ∧ (run ops w).opt.mCs m.name = w.opt.mCs m.name
  | [], _, _, _, _ => ⟨rfl, rfl, rfl, rfl⟩
  | op :: ops, w, hU, hm, h => by
    have s := (exec_static op w).1
    obtain ⟨a, b, c, d⟩ := run_noUpdate (ops := ops) (w := (exec op w).2) (by rw [s]; exact hU) (by rw [s]; exact hm) h.2
    have key : ¬ ((exec op w).2.opt.Ks m.name ≠ w.opt.Ks m.name ∨ (exec op w).2.opt.Cs m.name ≠ w.opt.Cs m.name ∨
      (exec op w).2.opt.mKs m.name ≠ w.opt.mKs m.name ∨ (exec op w).2.opt.mCs m.name ≠ w.opt.mCs m.name) := by
      intro hne
      obtain ⟨⟨at', rfl⟩, m', hm', hn, ho⟩ := C29_factors_change_only_on_update_steps op w m.name hne
      obtain rfl := hU.name_inj hm' hm hn
      exact h.1.1 at' rfl ho
    simp only [not_or, not_not] at key
    obtain ⟨k1, k2, k3, k4⟩ := key
    rw [run_cons]
    exact ⟨a.trans k1, b.trans k2, c.trans k3, d.trans k4⟩

theorem geoSum_mu_zero {r c : ℕ} (D : ℕ → Matrix (Fin r) (Fin c) α) (D0 : Matrix (Fin r) (Fin c) α) : ∀ k, geoSum 0 D D0 k = D k
  | 0 => by simp [geoSum_zero]
  | k + 1 => by simp [geoSum_succ]

/-- **C52.** Over any stretch of training with constant hyper-parameters of a layer's group, let `D_i` be the direction
`½σ(a H + λ b Π(AᵀA) - I)` of the `i`-th update (`dirK`, `dirC`, see C26), without momentum. Then the momentum the `k`-th update uses is
`M_k = Σ_{i≤k} α₁^(k-i) D_i + α₁^(k+1) M` with `M` the momentum before (0 after construction, C25): the factor becomes
`K(I - b M_k)`, and for `alpha1 ≠ 0` `M_k` is what is stored. For `alpha1 = 0` `M_k` is the last direction `D_k`. -/
theorem C52_factor_momenta {cl : String → Cls × Cls} {m : Layer} {n : ℕ} {attr : ℕ → Option α} {w w' : ℕ → World α} {h : Hyper α}
    (hs : Steps cl (NoUpdate m) n attr w w') (hm : m ∈ (w 0).opt.layers) (hh : (w 0).opt.hyperOf m = .ok h)
    (hT : ∀ i < n, h.T ∣ (w i).opt.steps) (DK : ℕ → Matrix (Fin m.nK) (Fin m.nK) α) (DC : ℕ → Matrix (Fin m.nC) (Fin m.nC) α)
    (hDK : ∀ i, DK i = dirK (cl m.name) m h ((w i).unscale (attr i)) (denO ((w i).opt.Ks m.name) _) (denO ((w i).opt.HKs m.name) _)
      (denO ((w i).opt.Cs m.name) _) (denO ((w i).opt.HCs m.name) _))
    (hDC : ∀ i, DC i = dirC (cl m.name) m h ((w i).unscale (attr i)) (denO ((w i).opt.Ks m.name) _) (denO ((w i).opt.HKs m.name) _)
      (denO ((w i).opt.Cs m.name) _) (denO ((w i).opt.HCs m.name) _)) (MK : ℕ → Matrix (Fin m.nK) (Fin m.nK) α)
    (MC : ℕ → Matrix (Fin m.nC) (Fin m.nC) α)
    (hMK : ∀ k, MK k = geoSum h.alpha1 DK (denO ((w 0).opt.mKs m.name) _) k)
    (hMC : ∀ k, MC k = geoSum h.alpha1 DC (denO ((w 0).opt.mCs m.name) _) k) :
    (∀ k < n, (h.alpha1 ≠ 0 → denO ((w' k).opt.mKs m.name) m.nK = MK k ∧ denO ((w' k).opt.mCs m.name) m.nC = MC k) ∧
      ∃ bK bC, IsRate h (w k).opt.steps (MK k) bK ∧ IsRate h (w k).opt.steps (MC k) bC ∧
        denO ((w' k).opt.Ks m.name) m.nK = denO ((w k).opt.Ks m.name) m.nK * (1 - bK • MK k) ∧
        denO ((w' k).opt.Cs m.name) m.nC = denO ((w k).opt.Cs m.name) m.nC * (1 - bC • MC k)) ∧
    (h.alpha1 = 0 → ∀ k, MK k = DK k ∧ MC k = DC k) := by
  have hy := hs.hyper (m := m) (fun w op q => q.2) hh
  refine ⟨?_, fun h0 k => by rw [hMK, hMC, h0, geoSum_mu_zero, geoSum_mu_zero]; exact ⟨rfl, rfl⟩⟩
  have sp : ∀ i < n, UpdSpec (cl m.name) m h ((w i).unscale (attr i)) (w i) (w' i) := by
    intro i hi
    obtain ⟨_, _, s, e⟩ := hs.at i hi
    exact (s.layer m (by rw [e]; exact hm) h (hy i hi)).upd (Nat.mod_eq_zero_of_dvd (hT i hi))
  have kp : ∀ i, i + 1 < n → (w (i + 1)).opt.mKs m.name = (w' i).opt.mKs m.name ∧ (w (i + 1)).opt.mCs m.name = (w' i).opt.mCs m.name := by
    intro i hi
    obtain ⟨ops, _, q, e⟩ := hs.between i hi
    obtain ⟨_, l, _, e0⟩ := hs.at i (by omega)
    obtain ⟨_, _, s, _⟩ := hs.at i (by omega)
    rw [e]
    exact (run_noUpdate l.sound.untied (by rw [s.layers, e0]; exact hm) q).2.2
  -- the momentum used by the k-th update
  have main : ∀ k < n, ∃ bK bC, (h.alpha1 ≠ 0 → denO ((w' k).opt.mKs m.name) m.nK = MK k ∧ denO ((w' k).opt.mCs m.name) m.nC = MC k) ∧
      IsRate h (w k).opt.steps (MK k) bK ∧ IsRate h (w k).opt.steps (MC k) bC ∧
        denO ((w' k).opt.Ks m.name) m.nK = denO ((w k).opt.Ks m.name) m.nK * (1 - bK • MK k) ∧
        denO ((w' k).opt.Cs m.name) m.nC = denO ((w k).opt.Cs m.name) m.nC * (1 - bC • MC k) := by
    intro k
    induction k with
    | zero =>
      intro hk
      obtain ⟨mK, mC, bK, bC, e1, e2, e3, e4, e5, e6, e7⟩ := (sp 0 hk).eqs
      rw [← hDK] at e2; rw [← hDC] at e3
      have a : mK = MK 0 := by rw [e2, hMK, geoSum_zero]
      have b : mC = MC 0 := by rw [e3, hMC, geoSum_zero]
      subst a b
      exact ⟨bK, bC, fun h0 => ⟨(e1 h0).2.2.1, (e1 h0).2.2.2⟩, e4, e5, e6, e7⟩
    | succ k ih =>
      intro hk
      obtain ⟨_, _, i1, _⟩ := ih (by omega)
      obtain ⟨mK, mC, bK, bC, e1, e2, e3, e4, e5, e6, e7⟩ := (sp _ hk).eqs
      obtain ⟨k1, k2⟩ := kp k hk
      rw [← hDK, k1] at e2; rw [← hDC, k2] at e3
      have a : mK = MK (k + 1) := by
        rw [e2, hMK, geoSum_succ, ← hMK]
        by_cases h0 : h.alpha1 = 0
        · rw [h0, zero_smul, zero_smul]
        · rw [(i1 h0).1]
      have b : mC = MC (k + 1) := by
        rw [e3, hMC, geoSum_succ, ← hMC]
        by_cases h0 : h.alpha1 = 0
        · rw [h0, zero_smul, zero_smul]
        · rw [(i1 h0).2]
      subst a b
      exact ⟨bK, bC, fun h0 => ⟨(e1 h0).2.2.1, (e1 h0).2.2.2⟩, e4, e5, e6, e7⟩
  intro k hk
  obtain ⟨bK, bC, a, b⟩ := main k hk
  exact ⟨a, bK, bC, b⟩

/-- the sample's training: two updates (`T = 2`), with a step in between -/
theorem Sample.two_updates (Q : World α → Op α → Prop) (hQ : ∀ w k (g : ND α), Q w (.backward k g))
    (hQ' : ∀ w : World α, w.opt.steps = 1 → w.opt.layers = [Sample.la, Sample.lb] →
      (∀ m ∈ w.opt.layers, w.opt.hyperOf m = .ok (defaults Sample.gargs)) → Q w (.step false none false)) :
    ∃ (cl : String → Cls × Cls) (w w' : ℕ → World α),
    Steps cl Q 2 (fun _ => none) w w' ∧ (w 0).opt.layers = [Sample.la, Sample.lb] ∧
    (∀ m ∈ (w 0).opt.layers, (w 0).opt.hyperOf m = .ok (defaults Sample.gargs)) ∧ ∀ i < 2, (w i).opt.steps = 2 * i := by
  obtain ⟨cl, w, a, b, c, d, e, f, g, h, i, j⟩ := Sample.gready2 (α := α)
  obtain ⟨w1, e1, s1, l1⟩ := a.step f
  have h1 : ∀ m ∈ w1.opt.layers, w1.opt.hyperOf m = .ok (defaults Sample.gargs) := by
    rw [s1.layers]; intro m hm; rw [s1.hyperOf]; exact h m hm
  have f1 : FitsOp w1 (.step false none false) :=
    Sample.goff_ready (by rw [s1.layers, c]) h1 (by rw [s1.grad, i]) (by rw [s1.steps, g]; decide)
  obtain ⟨w2, e2, s2, l2⟩ := l1.step f1
  obtain ⟨g1, g2, g3, g4⟩ := Sample.gback_ready l2 (by rw [s2.layers, s1.layers, c])
    (by rw [s2.layers]; intro m hm; rw [s2.hyperOf]; exact h1 m hm) (by rw [s2.grad, s1.grad, i]) (by rw [s2.hooks, s1.hooks, j])
  refine ⟨cl, fun i => if i = 0 then w else run Sample.gback w2,
    fun i => if i = 0 then w1 else (exec (.step false none false) (run Sample.gback w2)).2, ⟨a, ?_, ?_, ?_⟩, c, h, ?_⟩
  · intro i hi
    rcases Nat.eq_zero_or_pos i with rfl | hp
    · exact f
    · rw [if_neg (by omega)]; exact g3
  · intro i hi
    rcases Nat.eq_zero_or_pos i with rfl | hp
    · simp [e1]
    · simp [show i ≠ 0 by omega]
  · intro i hi
    obtain rfl : i = 0 := by omega
    refine ⟨.step false none false :: Sample.gback, ⟨f1, ?_⟩, ⟨hQ' _ ?_ ?_ h1, ?_⟩, ?_⟩
    · show FitsRun (exec (.step false none false) w1).2 _
      rw [e2]; exact g1
    · show w1.opt.steps = 1
      rw [s1.steps, g]
    · show w1.opt.layers = _
      rw [s1.layers, c]
    · exact Sample.quiet_gback Q hQ _
    · show run Sample.gback w2 = run _ w1
      rw [run_cons, e2]
  · intro i hi
    rcases Nat.eq_zero_or_pos i with rfl | hp
    · exact g
    · obtain rfl : i = 1 := by omega
      show (run Sample.gback w2).opt.steps = 2
      rw [g4, s2.steps, s1.steps, g]

example : ∃ (cl : String → Cls × Cls) (w w' : ℕ → World ℝ), Steps cl (NoUpdate Sample.la) 2 (fun _ => none) w w' ∧
    Sample.la ∈ (w 0).opt.layers ∧ ∃ h, (w 0).opt.hyperOf Sample.la = .ok h ∧ h.alpha1 = 1 / 2 ∧ ∀ i < 2, h.T ∣ (w i).opt.steps := by
  obtain ⟨cl, w, w', a, b, c, d⟩ := Sample.two_updates (α := ℝ) (NoUpdate Sample.la) (fun w k g => ⟨by simp, by simp⟩) (by
    intro w hs hl hh
    refine ⟨fun _ _ ho => ?_, by simp⟩
    obtain ⟨h, e, _, hd⟩ := ho
    rw [hh Sample.la (by rw [hl]; simp)] at e
    cases e
    rw [hs] at hd
    exact absurd hd (by change ¬ 2 ∣ 1; decide))
  refine ⟨cl, w, w', a, by rw [b]; simp, _, c _ (by rw [b]; simp), rfl, fun i hi => ?_⟩
  rw [d i hi]; exact ⟨i, rfl⟩

/-! ### C49 -/

theorem IsRate.bound {h : Hyper α} {t n : ℕ} {M : Matrix (Fin n) (Fin n) α} {b : α} (hn : h.normalize = true) (hb : IsRate h t M b) (i j : Fin n) :
    |(b • M) i j| ≤ |h.lrCov.at t| := by
  rw [IsRate, if_pos hn] at hb
  obtain ⟨v, ⟨_, hv⟩, rfl⟩ := hb
  have h1 : (0 : α) < max 1 v := lt_of_lt_of_le one_pos (le_max_left _ _)
  rw [Matrix.smul_apply, smul_eq_mul, abs_mul, abs_div, abs_of_pos h1, div_mul_eq_mul_div, div_le_iff₀ h1]
  exact mul_le_mul_of_nonneg_left ((hv i j).trans (le_max_right _ _)) (abs_nonneg _)

/-- `I - D` is invertible if the entries of `D` are smaller than `1/n` -/
theorem det_one_sub_ne_zero {n : ℕ} {D : Matrix (Fin n) (Fin n) α} {r : α} (hD : ∀ i j, |D i j| ≤ r) (hr : r * n < 1) : (1 - D).det ≠ 0 := by
  intro h0
  obtain ⟨v, hv, e⟩ := Matrix.exists_mulVec_eq_zero_iff.2 h0
  have hne : (Finset.univ : Finset (Fin n)).Nonempty := by
    obtain ⟨i, _⟩ := Function.ne_iff.1 hv
    exact ⟨i, Finset.mem_univ i⟩
  obtain ⟨i, _, hi⟩ := Finset.exists_max_image Finset.univ (fun i => |v i|) hne
  have e1 : v i = ∑ j, D i j * v j := by
    have := congrFun e i
    rw [Matrix.sub_mulVec, Matrix.one_mulVec, Pi.sub_apply, Pi.zero_apply, sub_eq_zero] at this
    rw [this]; rfl
  have hr0 : 0 ≤ r := (abs_nonneg _).trans (hD i i)
  have e2 : |v i| ≤ r * n * |v i| := by
    calc |v i| = |∑ j, D i j * v j| := by rw [← e1]
      _ ≤ ∑ j, |D i j * v j| := Finset.abs_sum_le_sum_abs _ _
      _ ≤ ∑ _j : Fin n, r * |v i| := by
        refine Finset.sum_le_sum fun j _ => ?_
        rw [abs_mul]
        exact mul_le_mul (hD i j) (hi j (Finset.mem_univ j)) (abs_nonneg _) hr0
      _ = r * n * |v i| := by rw [Finset.sum_const, Finset.card_univ, Fintype.card_fin, nsmul_eq_mul]; ring
  have pos : 0 < |v i| := by
    rcases (abs_nonneg (v i)).lt_or_eq with h | h
    · exact h
    · exfalso
      apply hv
      funext j
      have := hi j (Finset.mem_univ j)
      rw [← h] at this
      exact abs_eq_zero.1 (le_antisymm this (abs_nonneg _))
  have : r * n * |v i| < 1 * |v i| := mul_lt_mul_of_pos_right hr pos
  rw [one_mul] at this
  exact absurd e2 (not_le.2 this)

/-- **C49 (bounded change).** A fitting step with `normalize_lr_cov` multiplies the factors of every layer it updates by `I - D_K` and
`I - D_C` with all entries of `D_K`, `D_C` at most `lr_cov` in absolute value. -/
theorem C49_bounded_change {cl : String → Cls × Cls} {w : World α} (hw : w.Live cl) {attr : Option α} (hf : FitsOp w (.step false attr false)) :
    ∃ w', exec (.step false attr false) w = (.ok (), w') ∧ ∀ m ∈ w.opt.layers, ∀ h, w.opt.hyperOf m = .ok h → h.normalize = true →
      ∃ DK DC, denO (w'.opt.Ks m.name) m.nK = denO (w.opt.Ks m.name) m.nK * (1 - DK) ∧
        denO (w'.opt.Cs m.name) m.nC = denO (w.opt.Cs m.name) m.nC * (1 - DC) ∧
        (∀ i j, |DK i j| ≤ |h.lrCov.at w.opt.steps|) ∧ ∀ i j, |DC i j| ≤ |h.lrCov.at w.opt.steps| := by
  obtain ⟨w', e, sp, _⟩ := hw.step hf
  refine ⟨w', e, fun m hm h hh hn => ?_⟩
  by_cases hT : w.opt.steps % h.T = 0
  · obtain ⟨mK, mC, bK, bC, e1, e2, e3, e4, e5, e6, e7⟩ := ((sp.layer m hm h hh).upd hT).eqs
    exact ⟨bK • mK, bC • mC, e6, e7, e4.bound hn, e5.bound hn⟩
  · have s := (sp.layer m hm h hh).noupd hT
    refine ⟨0, 0, by rw [s.Ks]; simp, by rw [s.Cs]; simp, ?_, ?_⟩ <;> intros <;> simp

example : ∃ (cl : String → Cls × Cls) (w : World ℝ), w.Live cl ∧ FitsOp w (.step false none false) ∧ w.opt.layers = [Sample.la, Sample.lb] := by
  obtain ⟨cl, w, a, _, b, _, _, c, _⟩ := Sample.gready (α := ℝ)
  exact ⟨cl, w, a, c, b⟩

/-- steps are only taken with `normalize_lr_cov` and `lr_cov · dim < 1` for both factors of every layer -/
def SmallRate (w : World α) (op : Op α) : Prop := ∀ a, op = .step false a false → ∀ m ∈ w.opt.layers, ∀ h, w.opt.hyperOf m = .ok h →
  h.normalize = true ∧ |h.lrCov.at w.opt.steps| * m.nK < 1 ∧ |h.lrCov.at w.opt.steps| * m.nC < 1

/-- all factors are invertible -/
def Invertible' (w : World α) : Prop := ∀ m ∈ w.opt.layers, (denO (w.opt.Ks m.name) m.nK).det ≠ 0 ∧ (denO (w.opt.Cs m.name) m.nC).det ≠ 0

theorem run_invertible {cl : String → Cls × Cls} : ∀ {ops : List (Op α)} {w : World α}, w.Live cl → FitsRun w ops → Along SmallRate w ops →
    Invertible' w → Invertible' (run ops w)
  | [], _, _, _, _, h => h
  | op :: ops, w, hl, hf, hs, h => by
    rw [run_cons]
    obtain ⟨w', e, l⟩ := hl.exec hf.1
    have ew : (exec op w).2 = w' := by rw [e]
    refine run_invertible (by rw [ew]; exact l) hf.2 hs.2 ?_
    have st := (exec_static op w).1
    intro m hm
    rw [st] at hm
    by_cases hop : ∃ a, op = .step false a false
    · obtain ⟨a, rfl⟩ := hop
      obtain ⟨w2, e2, key⟩ := C49_bounded_change hl hf.1
      rw [e2] at e; cases e
      obtain ⟨hy, hh, _⟩ := hl.sound.hyper m hm
      obtain ⟨n1, n2, n3⟩ := hs.1 a rfl m hm hy hh
      obtain ⟨DK, DC, k1, k2, k3, k4⟩ := key m hm hy hh n1
      rw [ew, k1, k2, Matrix.det_mul, Matrix.det_mul]
      exact ⟨mul_ne_zero (h m hm).1 (det_one_sub_ne_zero k3 n2), mul_ne_zero (h m hm).2 (det_one_sub_ne_zero k4 n3)⟩
    · have : ∀ n, (exec op w).2.opt.Ks n = w.opt.Ks n ∧ (exec op w).2.opt.Cs n = w.opt.Cs n := by
        intro n
        by_contra hne
        obtain ⟨⟨a, ha⟩, _⟩ := C29_factors_change_only_on_update_steps op w n (by
          rw [not_and_or] at hne
          rcases hne with h | h
          · exact Or.inl h
          · exact Or.inr (Or.inl h))
        exact hop ⟨a, ha⟩
      rw [(this _).1, (this _).2]; exact h m hm

/-- **C49 (invertibility).** From construction on, throughout every fitting history all of whose steps have `normalize_lr_cov` and
`lr_cov · dim < 1`, all factors of all layers stay invertible. -/
theorem C49_invertible {structs : String → Option Cls} {model : Model} {p : ParamArg α} {a : Args α} {o : Opt α} {ws : List Warn}
    (hn : (model.layers.map (·.name)).Nodup) (hi : Construct.init structs model p a = .ok (o, ws)) {data : ℕ → Mat α}
    {grad : ℕ → Option (Mat α)} (ht : Trainable o data) (hs : 0 < a.initGradScale) {ops : List (Op α)}
    (hf : FitsRun ⟨o, data, grad, []⟩ ops) (hr : Along SmallRate ⟨o, data, grad, []⟩ ops) :
    ∀ m ∈ o.layers, IsUnit (denO ((run ops ⟨o, data, grad, []⟩).opt.Ks m.name) m.nK).det ∧
      IsUnit (denO ((run ops ⟨o, data, grad, []⟩).opt.Cs m.name) m.nC).det := by
  have I := init_ok hn hi
  obtain ⟨cl, hcl, hlive⟩ := I.live (grad := grad) ht hs
  have h0 : Invertible' ⟨o, data, grad, []⟩ := by
    intro m hm
    obtain ⟨h, cK, cC, K, C, e1, e2, e3, eK, eC, sK, sC, _⟩ := (I.lay m hm).ex
    have := ht.cls m hm h cK cC e1 e2 e3
    obtain ⟨K', eK', wK, dK⟩ := (C12_eye_zeros (α := α) this.1).1
    obtain ⟨C', eC', wC, dC⟩ := (C12_eye_zeros (α := α) this.2.2.1).1
    rw [eK] at eK'; cases eK'
    rw [eC] at eC'; cases eC'
    simp only [sK, sC, denO_some, dK, dC, Matrix.det_one]
    exact ⟨one_ne_zero, one_ne_zero⟩
  have := run_invertible hlive hf hr h0
  intro m hm
  have hl : (run ops ⟨o, data, grad, []⟩).opt.layers = o.layers := (run_layers ops _).1
  rw [isUnit_iff_ne_zero, isUnit_iff_ne_zero]
  exact this m (by rw [hl]; exact hm)

theorem along_append {P : World α → Op α → Prop} : ∀ {xs ys : List (Op α)} {w : World α}, Along P w (xs ++ ys) ↔ Along P w xs ∧ Along P (run xs w) ys
  | [], _, _ => by simp [Along, run]
  | x :: xs, ys, w => by
    rw [List.cons_append, Along, Along, run_cons, along_append, and_assoc]

/-- the sample's hyper-parameters with `normalize_lr_cov` -/
def Sample.ghyper : Hyper α := { defaults Sample.gargs with normalize := true }

theorem defaults_valid : (defaults (Sample.gargs : Args α)).Valid := ⟨Or.inl rfl, Or.inr (Or.inl rfl), show (2 : ℕ) ≠ 0 by decide⟩

/-- turning `normalize_lr_cov` on before the first step fits -/
theorem Sample.gnormalized : ∃ (o : Opt α) (ws : List Warn), Construct.init supportedStructures Sample.model .default Sample.gargs = .ok (o, ws) ∧
    Trainable o Sample.gdata ∧ o.layers = [Sample.la, Sample.lb] ∧
    FitsRun ⟨o, Sample.gdata, Sample.ggrad, []⟩ (Sample.gpass ++ [.setHyper 0 Sample.ghyper, .step false none false]) ∧
    (∀ m ∈ o.layers, (run (Sample.gpass ++ [.setHyper 0 Sample.ghyper]) ⟨o, Sample.gdata, Sample.ggrad, []⟩).opt.hyperOf m = .ok Sample.ghyper) := by
  obtain ⟨o, ws, cl, hi, hl, ht, hh, hlive, hf, hr, hs, hg, hk⟩ := Sample.glive2 (α := α)
  have I := init_ok (by decide) hi
  let w := run Sample.gpass ⟨o, Sample.gdata, Sample.ggrad, []⟩
  have lw : w.Live cl := (hlive.run hf).2
  have hlw : w.opt.layers = o.layers := (run_layers _ _).1
  have hpg : w.opt.ptrGroup = o.ptrGroup := (run_layers _ _).2
  have hyw : ∀ m, w.opt.hyperOf m = o.hyperOf m := by
    intro m
    have : ∀ op ∈ (Sample.gpass : List (Op α)), ∀ i h, op ≠ .setHyper i h := by
      intro op hop
      simp only [Sample.gpass, List.mem_cons, List.not_mem_nil, or_false] at hop
      rcases hop with rfl | rfl | rfl | rfl <;> simp
    have all : ∀ (ops : List (Op α)) (w : World α), (∀ op ∈ ops, ∀ i h, op ≠ .setHyper i h) → (run ops w).opt.hyperOf m = w.opt.hyperOf m := by
      intro ops
      induction ops with
      | nil => intro w _; rfl
      | cons op ops ih => intro w h; rw [run_cons, ih _ fun o h' => h o (by simp [h']), exec_hyperOf op w (h op (by simp))]
    exact all _ _ this
  have pg : ∀ m ∈ o.layers, o.ptrGroup m.weight.ptr = some 0 := by
    have hg : o.groups.map (·.params) = [[0, 1, 2]] := by
      have := I.groups_eq
      rw [this]; rfl
    intro m hm
    obtain ⟨h, e, _⟩ := lw.sound.hyper m (by rw [hlw]; exact hm)
    rw [hyw] at e
    obtain ⟨i, g, e1, e2, _⟩ := hyperOf_ok e
    have : i < o.groups.length := (List.getElem?_eq_some_iff.1 e2).1
    have hlen : o.groups.length = 1 := by
      have := congrArg List.length hg
      simpa using this
    obtain rfl : i = 0 := by omega
    exact e1
  have f1 : FitsOp w (.setHyper 0 Sample.ghyper) := by
    refine ⟨⟨Or.inl rfl, Or.inr (Or.inl rfl), show (2 : ℕ) ≠ 0 by decide⟩, fun m hm _ => ⟨?_, ?_⟩⟩
    · intro h' e
      rw [hyw, hh m (by rw [← hlw]; exact hm)] at e; cases e; rfl
    · intro _
      refine lw.mom m hm (defaults Sample.gargs) (by rw [hyw]; exact hh m (by rw [← hlw]; exact hm)) ?_
      simp [defaults, Sample.gargs, PyNum.val]
  have hy2 : ∀ m ∈ o.layers, (exec (.setHyper 0 Sample.ghyper) w).2.opt.hyperOf m = .ok Sample.ghyper := by
    intro m hm
    have e : w.opt.hyperOf m = .ok (defaults Sample.gargs) := by rw [hyw]; exact hh m hm
    show Opt.hyperOf { w.opt with groups := _ } m = _
    rw [hyperOf_setHyper e, hpg, if_pos (pg m hm)]
  have f2 : FitsOp (exec (.setHyper 0 Sample.ghyper) w).2 (.step false none false) := by
    refine ⟨rfl, by simp, fun _ m hm => ?_⟩
    have hm' : m ∈ o.layers := by rw [← hlw]; exact hm
    have r := hr m hm'
    refine ⟨⟨r.grads.weight, r.grads.bias⟩, ?_⟩
    intro h e hst
    have e2 := hy2 m hm'
    rw [e2] at e; cases e
    exact r.stats (defaults Sample.gargs) (by rw [hyw]; exact hh m hm') hst
  refine ⟨o, ws, hi, ht, hl, along_append.2 ⟨hf, f1, f2, trivial⟩, ?_⟩
  intro m hm
  rw [run_append]; exact hy2 m hm

/-- a step with `normalize_lr_cov`, `lr_cov = 1/10` and dimensions at most 2 satisfies the hypotheses of `C49_invertible` -/
example : ∃ (o : Opt ℝ) (ws : List Warn) (ops : List (Op ℝ)), Construct.init supportedStructures Sample.model .default Sample.gargs = .ok (o, ws) ∧
    Trainable o Sample.gdata ∧ .step false none false ∈ ops ∧ FitsRun ⟨o, Sample.gdata, Sample.ggrad, []⟩ ops ∧
    Along SmallRate ⟨o, Sample.gdata, Sample.ggrad, []⟩ ops := by
  obtain ⟨o, ws, a, b, c, d, e⟩ := Sample.gnormalized (α := ℝ)
  refine ⟨o, ws, _, a, b, by simp, d, ?_⟩
  rw [show Sample.gpass ++ [Op.setHyper 0 Sample.ghyper, Op.step false none false] =
    (Sample.gpass ++ [Op.setHyper 0 Sample.ghyper]) ++ [(.step false none false : Op ℝ)] by simp, along_append]
  refine ⟨?_, ?_, trivial⟩
  · refine along_append.2 ⟨?_, ?_⟩
    · refine ⟨?_, ?_, ?_, ?_, trivial⟩ <;> intro a h <;> cases h
    · refine ⟨?_, trivial⟩
      intro a h; cases h
  · intro a _ m hm h hh
    rw [(run_layers _ _).1] at hm
    rw [e m hm] at hh
    cases hh
    have hlr : ∀ t, (Sample.ghyper : Hyper ℝ).lrCov.at t = 1 / 10 := fun t => rfl
    rw [hlr]
    change m ∈ o.layers at hm
    rw [c] at hm
    simp only [List.mem_cons, List.not_mem_nil, or_false] at hm
    refine ⟨rfl, ?_⟩
    rcases hm with rfl | rfl
    · rw [show Sample.la.nK = 2 from rfl, show Sample.la.nC = 1 from rfl]
      constructor <;> norm_num [abs_of_pos]
    · rw [show Sample.lb.nK = 2 from rfl, show Sample.lb.nC = 1 from rfl]
      constructor <;> norm_num [abs_of_pos]
