import Verif.Props.Decay

/-!
# The condition of C96 is sharp with momentum
-/

open Matrix Construct

namespace Pull

/-- a damped oscillation changes its sign: `x (t+2) = (1 + μ - ν) x (t+1) - μ x t` with complex roots -/
theorem oscillates {μ ν : ℝ} (m0 : 0 ≤ μ) (m1 : μ < 1) (n0 : 0 < ν) (h : 1 < √ν + √μ) {x : ℕ → ℝ} (x0 : x 0 ≠ 0) (x1 : x 1 = (1 - ν) * x 0)
    (hx : ∀ t, x (t + 2) = (1 + μ - ν) * x (t + 1) - μ * x t) : ∃ t, x t * x 0 < 0 := by
  by_contra hc
  push Not at hc
  have r2 : √μ ^ 2 = μ := Real.sq_sqrt m0
  have n2 : √ν ^ 2 = ν := Real.sq_sqrt n0.le
  have r0 := Real.sqrt_nonneg μ
  have s0 := Real.sqrt_nonneg ν
  generalize √μ = r at *
  generalize √ν = s at *
  have r1 : r < 1 := by nlinarith
  obtain ⟨z, hz⟩ : ∃ z : ℕ → ℝ, z = fun t => x t * x 0 := ⟨_, rfl⟩
  have zt : ∀ t, z t = x t * x 0 := fun t => by rw [hz]
  have z0 : 0 < z 0 := by rw [zt]; exact mul_self_pos.2 x0
  have zn : ∀ t, 0 ≤ z t := fun t => by rw [zt]; exact hc t
  have zr : ∀ t, z (t + 2) = (1 + μ - ν) * z (t + 1) - μ * z t := fun t => by rw [zt, zt, zt, hx]; ring
  have z1 : z 1 = (1 - ν) * z 0 := by rw [zt, zt, x1]; ring
  have gap : 0 < 2 * r - (1 + μ - ν) := by nlinarith
  rcases m0.eq_or_lt with e | mp
  · have : r = 0 := by nlinarith
    have : 1 < ν := by nlinarith
    have := zn 1
    rw [z1] at this
    nlinarith
  have zp : ∀ t, 0 < z t := by
    intro t
    induction t with
    | zero => exact z0
    | succ t ih =>
      refine lt_of_le_of_ne (zn _) fun e => ?_
      have := zn (t + 2)
      rw [zr, ← e] at this
      nlinarith [mul_pos mp ih]
  have key : ∀ t, z (t + 1) / z t ≤ z 1 / z 0 - t * (2 * r - (1 + μ - ν)) := by
    intro t
    induction t with
    | zero => simp
    | succ t ih =>
      have a := zp t
      have b := zp (t + 1)
      have e : z (t + 2) / z (t + 1) ≤ z (t + 1) / z t - (2 * r - (1 + μ - ν)) := by
        rw [zr, div_le_iff₀ b]
        have : (z (t + 1) / z t - (2 * r - (1 + μ - ν))) * z (t + 1) = z (t + 1) ^ 2 / z t - (2 * r - (1 + μ - ν)) * z (t + 1) := by field_simp
        rw [this]
        have : 2 * r * z (t + 1) - μ * z t ≤ z (t + 1) ^ 2 / z t := by
          rw [le_div_iff₀ a]
          have q := sq_nonneg (z (t + 1) - r * z t)
          rw [← r2]
          linear_combination q
        linarith
      push_cast
      linarith
  obtain ⟨t, ht⟩ := exists_nat_gt (z 1 / z 0 / (2 * r - (1 + μ - ν)))
  rw [div_lt_iff₀ gap] at ht
  have := key t
  have := div_pos (zp (t + 1)) (zp t)
  linarith

end Pull

section
variable {cl : String → Cls × Cls} {m : Layer} {hy : Hyper ℝ} {ops : ℕ → List (Op ℝ)} {attr : ℕ → Option ℝ} {w : World ℝ}

/-- **C96 (too much decay and momentum oscillates).** With momentum below 1 and `√(lr · (weight_decay + ρ)) + √momentum > 1`, an entry whose preconditioned gradient is `ρ` times the entry in all rounds (`ρ = 0`: no
gradient) changes its sign. For `ρ = 0` it leaves the interval between its initial value and zero, a convex set as in `C96_convex`. -/
theorem C96_oscillates (R : Keeps cl m hy ops attr w) {ρ : ℝ} (l0 : 0 < hy.lr) (d0 : 0 < hy.weightDecay + ρ) (m0 : 0 ≤ hy.momentum) (m1 : hy.momentum < 1)
    (hc : 1 < √(hy.lr * (hy.weightDecay + ρ)) + √hy.momentum) (hb : bufM w m = 0) (i : Fin m.nC) (j : Fin m.nK) (h0 : paramM w.data m i j ≠ 0)
    (hN : ∀ t, pushed cl m ops attr w t i j = ρ * paramM (w.rounds ops attr t).data m i j) : ∃ t, paramM (w.rounds ops attr t).data m i j * paramM w.data m i j < 0 := by
  have step : ∀ t, paramM (w.rounds ops attr (t + 1)).data m i j = paramM (w.rounds ops attr t).data m i j -
      hy.lr * (hy.momentum * bufM (w.rounds ops attr t) m i j + (hy.weightDecay + ρ) * paramM (w.rounds ops attr t).data m i j) := by
    intro t
    have := congrFun (congrFun (R.round (R.at t)).2.2 i) j
    simp only [Matrix.add_apply, Matrix.sub_apply, Matrix.smul_apply, smul_eq_mul, hN] at this
    rw [this]; ring
  have buf : ∀ t, hy.momentum ≠ 0 → bufM (w.rounds ops attr (t + 1)) m i j = hy.momentum * bufM (w.rounds ops attr t) m i j + (hy.weightDecay + ρ) * paramM (w.rounds ops attr t).data m i j := by
    intro t h
    have := congrFun (congrFun ((R.round (R.at t)).2.1 h) i) j
    simp only [Matrix.add_apply, Matrix.smul_apply, smul_eq_mul, hN] at this
    rw [this]; ring
  have e0 : w.rounds ops attr 0 = w := by rw [World.rounds]
  have := Pull.oscillates m0 m1 (mul_pos l0 d0) hc (x := fun t => paramM (w.rounds ops attr t).data m i j) (by rw [e0]; exact h0) (by
      have := step 0
      have b0 : bufM (w.rounds ops attr 0) m i j = 0 := by rw [e0, hb]; rfl
      rw [b0] at this
      show paramM (w.rounds ops attr (0 + 1)).data m i j = _
      rw [this]; ring) fun t => by
    show paramM (w.rounds ops attr (t + 1 + 1)).data m i j = _
    by_cases h : hy.momentum = 0
    · rw [step (t + 1), h]; ring
    · have a := step t
      have b := buf t h
      have c : hy.lr * bufM (w.rounds ops attr (t + 1)) m i j = paramM (w.rounds ops attr t).data m i j - paramM (w.rounds ops attr (t + 1)).data m i j := by rw [a, b]; ring
      rw [step (t + 1)]
      linear_combination -hy.momentum * c
  obtain ⟨t, ht⟩ := this
  rw [e0] at ht
  exact ⟨t, ht⟩

/-- **C96 (where training rests).** Parameters and momentum buffers of a layer stay as they are in a round exactly if the buffers are zero and the preconditioned gradient is `-weight_decay` times the parameters; without
momentum, exactly if the latter holds. Weight decay is not preconditioned, so these are in general not the points where the gradient of the loss plus `weight_decay/2` times the squared parameters vanishes. -/
theorem C96_rest (R : Keeps cl m hy ops attr w) (l0 : hy.lr ≠ 0) (t : ℕ) :
    (hy.momentum ≠ 0 → (paramM (w.rounds ops attr (t + 1)).data m = paramM (w.rounds ops attr t).data m ∧ bufM (w.rounds ops attr (t + 1)) m = bufM (w.rounds ops attr t) m ↔
      bufM (w.rounds ops attr t) m = 0 ∧ pushed cl m ops attr w t = -hy.weightDecay • paramM (w.rounds ops attr t).data m)) ∧
    (hy.momentum = 0 → (paramM (w.rounds ops attr (t + 1)).data m = paramM (w.rounds ops attr t).data m ↔
      pushed cl m ops attr w t = -hy.weightDecay • paramM (w.rounds ops attr t).data m)) := by
  obtain ⟨-, e1, e2⟩ := R.round (R.at t)
  generalize pushed cl m ops attr w t = N at *
  generalize paramM (w.rounds ops attr t).data m = x at *
  generalize bufM (w.rounds ops attr t) m = y at *
  generalize paramM (w.rounds ops attr (t + 1)).data m = x' at *
  generalize bufM (w.rounds ops attr (t + 1)) m = y' at *
  have z : ∀ {A : Matrix (Fin m.nC) (Fin m.nK) ℝ}, x - hy.lr • A = x ↔ A = 0 := by
    intro A
    rw [sub_eq_self, smul_eq_zero]
    exact ⟨fun h => h.resolve_left l0, Or.inr⟩
  have n : N + hy.weightDecay • x = 0 ↔ N = -hy.weightDecay • x := by rw [add_eq_zero_iff_eq_neg, neg_smul]
  constructor
  · intro hm
    have e1 := e1 hm
    rw [← e1] at e2
    constructor
    · rintro ⟨a, b⟩
      rw [e2, z] at a
      have y0 : y = 0 := b ▸ a
      rw [a, y0, smul_zero, zero_add] at e1
      exact ⟨y0, n.1 e1.symm⟩
    · rintro ⟨a, b⟩
      have y0 : y' = 0 := by rw [e1, a, smul_zero, zero_add, n.2 b]
      exact ⟨by rw [e2, z]; exact y0, by rw [y0, a]⟩
  · intro hm
    rw [e2, z, hm, zero_smul, zero_add, n]

end

namespace Sample

/-- the gradient zero -/
def zeroGrad : Mat ℝ := .ofFn 1 2 fun _ _ => 0

theorem zeroGrad_get (i j : ℕ) : zeroGrad.get i j = 0 := by
  unfold zeroGrad
  simp [Mat.ofFn]

/-- a round with gradient zero, inputs 1, output gradient 1 -/
noncomputable def zeroOps (t : ℕ) : List (Op ℝ) := [.setGrad 0 (some zeroGrad), .forward 0 (flatRow 2 1) true, .backward t (grow 1)]

theorem zero_quiet {t : ℕ} : ∀ op ∈ zeroOps t, op.Quiet := by
  intro op hop
  simp only [zeroOps, List.mem_cons, List.not_mem_nil, or_false] at hop
  rcases hop with rfl | rfl | rfl <;> trivial

theorem zero_round {μ ν c δ : ℝ} {cl : String → Cls × Cls} {t : ℕ} {v : World ℝ} (J : SoftInv μ ν c δ cl t v) :
    FitsRun v (zeroOps t ++ [.step false none false]) ∧ SoftInv μ ν c δ cl (t + 1) (run (zeroOps t ++ [.step false none false]) v) ∧
      fired "w" (zeroOps t) v = [(flatRow 2 1, grow 1)] ∧ (run (zeroOps t) v).curScale none = 1 ∧
      gradM (run (zeroOps t) v) (lw 2) = 0 := by
  have mw : lw 2 ∈ v.opt.layers := by rw [J.layers]; simp
  have e0 : v.opt.layers[0]? = some (lw 2) := by rw [J.layers]; rfl
  let v0 : World ℝ := { v with grad := Function.update v.grad 0 (some zeroGrad) }
  have x0 : exec (.setGrad 0 (some zeroGrad)) v = (.ok (), v0) := rfl
  have f0 : FitsOp v (.setGrad 0 (some zeroGrad)) := trivial
  obtain ⟨_, y0, l0⟩ := J.live.exec f0
  rw [x0] at y0; cases y0
  let v1 : World ℝ := { v0 with hooks := v.hooks ++ [(lw 2, flatRow 2 1)] }
  have x1 : exec (.forward 0 (flatRow 2 1) true) v0 = (.ok (), v1) := forward_on _ (w := v0) e0 J.hyper (show (1 : ℕ) ≠ 0 by decide) (Nat.mod_one _)
  have f1 : FitsOp v0 (.forward 0 (flatRow 2 1) true) := by
    intro m hm hy _
    rw [show v0.opt.layers[0]? = some (lw 2) from e0] at hm; cases hm
    exact ⟨1, [], rfl, by decide⟩
  obtain ⟨_, y1, l1⟩ := l0.exec f1
  rw [x1] at y1; cases y1
  have k1 : v1.hooks[t]? = some (lw 2, flatRow 2 1) := by
    show (v.hooks ++ [(lw 2, flatRow 2 1)])[t]? = _
    rw [List.getElem?_append_right (by rw [J.hooks])]; simp [J.hooks]
  have f2 : FitsOp v1 (.backward t (grow 1)) := by
    intro mx hmx; rw [k1] at hmx; cases hmx; exact ⟨1, [], rfl, by decide⟩
  obtain ⟨v2, y2, l2⟩ := l1.exec f2
  obtain ⟨_, _, _, _, _, _, b2⟩ := l1.back k1 f2
  rw [y2] at b2
  have fr := b2.frame
  have er : run (zeroOps t) v = v2 := by
    show (exec _ (exec _ (exec _ v).2).2).2 = _
    rw [x0, x1, y2]
  have p1 : FitsRun v (zeroOps t) := ⟨f0, by rw [x0]; exact ⟨f1, by rw [x1]; exact ⟨f2, trivial⟩⟩⟩
  have pf : fired "w" (zeroOps t) v = [(flatRow 2 1, grow 1)] := by
    simp only [fired, zeroOps, firedOp, x0, x1, k1, List.nil_append, Option.toList_some]
    rfl
  have W := J.live.window p1 zero_quiet
  rw [er] at W
  have st : v2.opt.HKs (lw 2).name ≠ none ∧ v2.opt.HCs (lw 2).name ≠ none := by
    obtain ⟨p, hp⟩ := J.live.prev
    have S := W.stats _ mw _ p J.hyper hp
    have : fired (lw 2).name (zeroOps t) v ≠ [] := by rw [show fired (lw 2).name (zeroOps t) v = _ from pf]; simp
    exact ⟨fun e => this (S.HK0.1 e).2, fun e => this (S.HC0.1 e).2⟩
  have g2 : v2.grad 0 = some zeroGrad := by
    rw [fr.grad]
    show Function.update v.grad 0 (some zeroGrad) 0 = _
    rw [Function.update_self]
  have F : FitsOp v2 (.step false none false) := by
    refine ⟨rfl, by simp, fun _ m hm => ?_⟩
    have hm' := hm
    rw [W.layers, J.layers] at hm'
    obtain rfl := List.mem_singleton.1 hm'
    refine ⟨⟨⟨zeroGrad, g2, rfl, rfl⟩, by rintro b hb; cases hb⟩, fun h e _ => ⟨st.1, st.2, W.live.mom _ hm h e⟩⟩
  obtain ⟨v', e, sp, lv⟩ := World.Live.step W.live F
  have er' : run (zeroOps t ++ [.step false none false]) v = v' := by rw [run_append, er, run_cons, e]; rfl
  have es : v2.opt.steps = t := W.steps.trans J.steps
  have esc : v2.opt.scales = v.opt.scales := by rw [fr.scales]
  refine ⟨along_append.2 ⟨p1, by rw [er]; exact ⟨F, trivial⟩⟩, ?_, pf, ?_, ?_⟩
  · rw [er']
    refine ⟨lv, sp.layers.trans (W.layers.trans J.layers), ?_, ?_, fun i hi => ?_, by rw [sp.steps, es]⟩
    · have e1 : v'.opt.hyperOf (lw 2) = v2.opt.hyperOf (lw 2) := by unfold Opt.hyperOf; rw [sp.ptrGroup, sp.groups]
      rw [e1, W.hyperOf]; exact J.hyper
    · rw [sp.hooks, fr.hooks]; simp [v1, J.hooks]
    · rw [sp.steps, es] at hi
      push_cast at hi
      rw [sp.scales, es, if_neg (by omega), if_neg (by omega), esc]
      exact J.scales i (by rw [J.steps]; omega)
  · rw [er, World.curScale, es, esc, J.scales _ (by rw [J.steps])]; rfl
  · rw [er]
    funext i j
    have hj : j.1 < (lw 2).din := j.2
    simp only [gradM]
    rw [if_pos hj, show (lw 2).weight.ptr = 0 from rfl, g2]
    exact zeroGrad_get i.1 j.1

/-- the worlds between rounds -/
noncomputable def zeroWorld (w : World ℝ) : ℕ → World ℝ
  | 0 => w
  | t + 1 => run (zeroOps t ++ [.step false none false]) (zeroWorld w t)

theorem zero_rounds (w : World ℝ) : ∀ t, w.rounds (fun t => zeroOps t) (fun _ => none) t = zeroWorld w t
  | 0 => by rw [World.rounds, zeroWorld]
  | t + 1 => by rw [World.rounds, zero_rounds w t, zeroWorld]

theorem zero_inv {μ ν c δ : ℝ} {cl : String → Cls × Cls} {w : World ℝ} (J : SoftInv μ ν c δ cl 0 w) : ∀ t, SoftInv μ ν c δ cl t (zeroWorld w t)
  | 0 => by rw [zeroWorld]; exact J
  | t + 1 => by rw [zeroWorld]; exact (zero_round (zero_inv J t)).2.1

/-- a training from construction without gradients -/
theorem zero_any {ν δ μ : ℝ} (n0 : 0 ≤ ν) (d0 : 0 ≤ δ) (m0 : 0 ≤ μ) : ∃ (cl : String → Cls × Cls) (w : World ℝ), Keeps cl (lw 2) (defaults (softArgs μ ν 0 δ)) zeroOps (fun _ => none) w ∧ bufM w (lw 2) = 0 ∧
    paramM w.data (lw 2) (0 : Fin 1) (0 : Fin 2) = 1 ∧ ∀ t, pushed cl (lw 2) zeroOps (fun _ => none) w t = 0 := by
  obtain ⟨o, ws, hi, hl, hh, ht⟩ := soft_init (c := 0) m0 n0 le_rfl d0
  have I := init_ok (model := wideModel 2) (List.nodup_singleton "w") hi
  obtain ⟨cl, hcl, lv⟩ := I.live (grad := fun _ => none) ht one_pos
  have mw : lw 2 ∈ o.layers := by rw [hl]; simp
  have J : SoftInv μ ν 0 δ cl 0 ⟨o, wideData 2, fun _ => none, []⟩ := ⟨lv, hl, hh, rfl, fun i hi => by
    show o.scales i = none
    rw [I.scales]
    rw [show (⟨o, wideData 2, fun _ => none, []⟩ : World ℝ).opt.steps = 0 from I.steps] at hi
    have : i ≠ -1 := fun e => by rw [e] at hi; simp at hi
    simp [Dict.set, this], I.steps⟩
  have RR := fun t => zero_round (zero_inv J t)
  have hr := zero_rounds ⟨o, wideData 2, fun _ => none, []⟩
  refine ⟨cl, ⟨o, wideData 2, fun _ => none, []⟩, ⟨lv, fun t => by rw [hr]; exact (RR t).1, fun t => zero_quiet, mw, hh⟩, soft_buf hi _, wide_one 0, fun t => ?_⟩
  rw [pushed, hr, (RR t).2.2.2.2, natDir]
  simp

end Sample

/-- **C96 (the condition is sharp).** For all learning rates, weight decays and momenta below 1 with `√(lr · weight_decay) + √momentum > 1` there is a training from construction, without gradients, in which an entry
starts at 1 and becomes negative, although the interval from 0 to 1 contains it and all preconditioned gradients divided by `-weight_decay`. -/
theorem C96_sharp_momentum {ν δ μ : ℝ} (n0 : 0 < ν) (d0 : 0 < δ) (m0 : 0 ≤ μ) (m1 : μ < 1) (h : 1 < √(ν * δ) + √μ) :
    ∃ (cl : String → Cls × Cls) (m : Layer) (hy : Hyper ℝ) (w : World ℝ) (ops : ℕ → List (Op ℝ)) (i : Fin m.nC) (j : Fin m.nK) (t : ℕ),
      Keeps cl m hy ops (fun _ => none) w ∧ hy.lr = ν ∧ hy.weightDecay = δ ∧ hy.momentum = μ ∧ bufM w m = 0 ∧ paramM w.data m i j = 1 ∧
      (∀ t, pushed cl m ops (fun _ => none) w t = 0) ∧ paramM (w.rounds ops (fun _ => none) t).data m i j < 0 := by
  obtain ⟨cl, w, K, b0, w0, pu⟩ := Sample.zero_any n0.le d0.le m0
  obtain ⟨t, h1⟩ := C96_oscillates K (ρ := 0) n0 (by rw [add_zero]; exact d0) m0 m1 (by rw [add_zero]; exact h) b0 (0 : Fin 1) (0 : Fin 2) (by rw [w0]; exact one_ne_zero)
    (fun t => by rw [pu, zero_mul]; rfl)
  rw [w0, mul_one] at h1
  exact ⟨cl, Sample.lw 2, _, w, Sample.zeroOps, (0 : Fin 1), (0 : Fin 2), t, K, rfl, rfl, rfl, b0, w0, pu, h1⟩

/-- hypotheses of `C96_rest`: a training without gradients rests without weight decay and moves with it -/
example {δ : ℝ} (d0 : 0 ≤ δ) : ∃ (cl : String → Cls × Cls) (w : World ℝ), Keeps cl (Sample.lw 2) (defaults (Sample.softArgs 0 (1 / 2) 0 δ)) Sample.zeroOps (fun _ => none) w ∧
    (paramM (w.rounds Sample.zeroOps (fun _ => none) 1).data (Sample.lw 2) = paramM w.data (Sample.lw 2) ↔ δ = 0) := by
  obtain ⟨cl, w, K, b0, w0, pu⟩ := Sample.zero_any (ν := 1 / 2) (δ := δ) (μ := 0) (by norm_num) d0 le_rfl
  have h := (C96_rest K (show (1 / 2 : ℝ) ≠ 0 by norm_num) 0).2 rfl
  rw [pu, World.rounds] at h
  refine ⟨cl, w, K, h.trans ⟨fun e => ?_, fun e => ?_⟩⟩
  · have := congrFun (congrFun e (0 : Fin 1)) (0 : Fin 2)
    have e2 : (0 : ℝ) = -δ * paramM w.data (Sample.lw 2) (0 : Fin 1) (0 : Fin 2) := this
    rw [w0] at e2
    linarith
  · show 0 = -δ • _
    rw [e, neg_zero, zero_smul]

/-- hypotheses: learning rate and weight decay 1/2, momentum 9/10 -/
example : 1 < √((1 / 2 : ℝ) * (1 / 2)) + √(9 / 10) := by
  rw [Real.sqrt_mul_self (by norm_num)]
  have : (1 / 2 : ℝ) < √(9 / 10) := Real.lt_sqrt_of_sq_lt (by norm_num)
  linarith
