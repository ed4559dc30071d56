import Verif.Proofs.Opt.Step
import Verif.Proofs.Opt.History
import Verif.Proofs.ProcessIO

/-! Forward and backward passes with well-shaped payloads: they succeed, and add the statistics of the published method. -/

set_option linter.unusedSectionVars false
open Finset Mat Matrix PIO IOProof
variable {α : Type} [Field α] [LinearOrder α] [IsStrictOrderedRing α] [LawfulSqrt α]

/-- the paddings the code works with -/
theorem FitsConv.paddings {cfg : ConvCfg} {approx : String} {I1 I2 : ℕ} (h : FitsConv cfg approx I1 I2) : ∃ p r : ℕ × ℕ,
    (cfg.padding = .ints p ∧ r = p ∨ ∃ s, cfg.padding = .str s ∧
      convPaddings cfg.kernel.1 cfg.stride.1 cfg.dilation.1 s = .ok (p.1, r.1) ∧
      convPaddings cfg.kernel.2 cfg.stride.2 cfg.dilation.2 s = .ok (p.2, r.2)) ∧
    cfg.dilation.1 * (cfg.kernel.1 - 1) < I1 + p.1 + r.1 ∧ cfg.dilation.2 * (cfg.kernel.2 - 1) < I2 + p.2 + r.2 ∧
    (approx = "expand" → p = r) := by
  rcases h.pad with ⟨p, hp, a, b⟩ | ⟨hp, a, b⟩ | ⟨hp, hs, a, b, e⟩
  · exact ⟨p, p, Or.inl ⟨hp, rfl⟩, by omega, by omega, fun _ => rfl⟩
  · exact ⟨(0, 0), (0, 0), Or.inr ⟨_, hp, rfl, rfl⟩, by simpa using a, by simpa using b, fun _ => rfl⟩
  · refine ⟨(cfg.dilation.1 * (cfg.kernel.1 - 1) / 2, cfg.dilation.2 * (cfg.kernel.2 - 1) / 2),
      (cfg.dilation.1 * (cfg.kernel.1 - 1) - cfg.dilation.1 * (cfg.kernel.1 - 1) / 2,
       cfg.dilation.2 * (cfg.kernel.2 - 1) - cfg.dilation.2 * (cfg.kernel.2 - 1) / 2), Or.inr ⟨_, hp, ?_, ?_⟩, ?_, ?_, ?_⟩
    · simp [convPaddings, hs]
    · simp [convPaddings, hs]
    · dsimp only; omega
    · dsimp only; omega
    · intro ha
      obtain ⟨e1, e2⟩ := e ha
      rw [Nat.even_iff] at e1 e2
      ext <;> dsimp only <;> omega

theorem processInput_fits {m : Layer} {approx : String} {x : ND α} (ha : approx = "expand" ∨ approx = "reduce") (h : InputFits m approx x) :
    ∃ a, processInput x m.kind m.bias.isSome approx = .ok a ∧ a.cols = m.nK ∧ 0 < a.rows := by
  unfold InputFits at h
  unfold processInput
  rw [if_neg (not_not.2 ha)]
  cases hk : m.kind with
  | other => rw [hk] at h; exact h.elim
  | linear =>
    rw [hk] at h
    obtain ⟨b, sh, hx, hp⟩ := h
    have hb : 0 < b := Nat.pos_of_mul_pos_right hp
    rcases ha with rfl | rfl
    · let Y : Mat α := Mat.ofFn (b * sh.prod) m.din fun i j => x.flat (i * m.din + j)
      refine ⟨divSqrtRows (if m.bias.isSome = true then appendOnes Y else Y), ?_, ?_, ?_⟩
      · simp [linearProcessInput, mergeLeading, hx, split3_eq, Except.bind_ok', Except.pure_ok, Y]
      · simp [divSqrtRows, cols_bias, Layer.nK, Y]
      · simp only [divSqrtRows, rows_bias, Mat.rows_ofFn, Y]; exact hp
    · let Y : Mat α := Mat.ofFn b m.din fun i j => (∑ k ∈ range sh.prod, x.flat ((i * sh.prod + k) * m.din + j)) / sh.prod
      refine ⟨divSqrtRows (if m.bias.isSome = true then appendOnes Y else Y), ?_, ?_, ?_⟩
      · simp [linearProcessInput, meanMiddle, hx, split3_eq, Except.bind_ok', Except.pure_ok, Y]
      · simp [divSqrtRows, cols_bias, Layer.nK, Y]
      · simp only [divSqrtRows, rows_bias, Mat.rows_ofFn, Y]; exact hb
  | conv2d cfg =>
    rw [hk] at h
    obtain ⟨B, cin, I1, I2, hx, hB, hdin, fit⟩ := h
    obtain ⟨p, r, hpad, h1, h2, hpr⟩ := fit.paddings
    obtain ⟨O1, e1, p1, _⟩ := outSize_spec fit.k1 fit.s1 fit.d1 h1
    obtain ⟨O2, e2, p2, _⟩ := outSize_spec fit.k2 fit.s2 fit.d2 h2
    rcases ha with rfl | rfl
    · obtain rfl := hpr rfl
      obtain ⟨P, hP, d0, d1, d2, _⟩ := extractPatches_spec hx (hpad.imp And.left id) fit.groups rfl e1 e2
      refine ⟨divSqrtRows (if m.bias.isSome = true then appendOnes (flattenPatches P) else flattenPatches P), ?_, ?_, ?_⟩
      · simp [convProcessInput, hP, Except.bind_ok', Except.pure_ok, Functor.map, Except.map]
      · simp [divSqrtRows, cols_bias, Layer.nK, flattenPatches, d2, hdin]
      · simp only [divSqrtRows, rows_bias, flattenPatches, d0, d1, Mat.rows_ofFn]
        positivity
    · obtain ⟨P, hP, d0, d2, _⟩ := extractAveraged_spec hx hpad fit.groups rfl e1 e2
      refine ⟨divSqrtRows (if m.bias.isSome = true then appendOnes P else P), ?_, ?_, ?_⟩
      · simp [convProcessInput, hP, Except.bind_ok', Except.pure_ok]
      · simp [divSqrtRows, cols_bias, Layer.nK, d2, hdin]
      · simp only [divSqrtRows, rows_bias, d0, Mat.rows_ofFn]
        exact hB

theorem processGrad_fits {m : Layer} {approx : String} {avg : Option String} {g : ND α} (ha : approx = "expand" ∨ approx = "reduce")
    (hl : avg = none ∨ avg = some "batch" ∨ avg = some "batch+sequence") (h : GradFits m g) :
    ∃ a, processGradOutput g m.kind avg approx = .ok a ∧ a.cols = m.nC ∧ 0 < a.rows := by
  unfold GradFits at h
  unfold processGradOutput
  rw [if_neg (not_not.2 hl), if_neg (not_not.2 ha)]
  cases hk : m.kind with
  | other => rw [hk] at h; exact h.elim
  | linear =>
    rw [hk] at h
    obtain ⟨b, sh, hx, hp⟩ := h
    have hb : 0 < b := Nat.pos_of_mul_pos_right hp
    have hs : ∃ s : α, linearScaling g.shape avg = .ok s := by
      rcases avg with _ | avg
      · exact ⟨1, rfl⟩
      · rw [hx]; exact ⟨_, rfl⟩
    obtain ⟨s, hs⟩ := hs
    rw [hx] at hs
    rcases ha with rfl | rfl
    · refine ⟨Mat.smul (Mat.ofFn (b * sh.prod) m.dout fun i j => g.flat (i * m.dout + j)) s, ?_, ?_, ?_⟩
      · simp only [linearProcessGrad, hx, hs, Except.bind_ok', if_true, mergeLeading, split3_eq, Except.pure_ok]
      · simp [Layer.nC]
      · simp [hp]
    · refine ⟨Mat.smul (Mat.ofFn b m.dout fun i j => ∑ k ∈ range sh.prod, g.flat ((i * sh.prod + k) * m.dout + j)) s, ?_, ?_, ?_⟩
      · simp only [linearProcessGrad, hx, hs, Except.bind_ok', sumMiddle, split3_eq, Except.pure_ok]
        rw [if_neg (show ¬ "reduce" = "expand" by decide)]
      · simp [Layer.nC]
      · simp [hb]
  | conv2d cfg =>
    rw [hk] at h
    obtain ⟨B, O1, O2, hx, hp⟩ := h
    have hB : 0 < B := by
      rcases Nat.eq_zero_or_pos B with h0 | h0
      · simp [h0] at hp
      · exact h0
    have hs : ∃ s : α, convScaling g.shape avg = .ok s := by
      rcases avg with _ | avg
      · exact ⟨1, rfl⟩
      · rw [hx]; exact ⟨_, rfl⟩
    obtain ⟨s, hs⟩ := hs
    rw [hx] at hs
    rcases ha with rfl | rfl
    · refine ⟨Mat.smul (Mat.ofFn (B * O1 * O2) m.dout fun r c => at4 g m.dout O1 O2 (r / (O1 * O2)) c (r / O2 % O1) (r % O2)) s, ?_, ?_, ?_⟩
      · simp only [convProcessGrad, hx, hs, Except.bind_ok', if_true, mergeSpatial, shape4_eq hx, Except.pure_ok]
      · simp [Layer.nC]
      · simp only [Mat.rows_smul, Mat.rows_ofFn]; exact hp
    · refine ⟨Mat.smul (Mat.ofFn B m.dout fun b c => ∑ o1 ∈ range O1, ∑ o2 ∈ range O2, at4 g m.dout O1 O2 b c o1 o2) s, ?_, ?_, ?_⟩
      · simp only [convProcessGrad, hx, hs, Except.bind_ok', sumSpatial, shape4_eq hx, Except.pure_ok]
        rw [if_neg (show ¬ "reduce" = "expand" by decide)]
      · simp [Layer.nC]
      · simp [hB]

theorem secMom_T {A : Mat α} {n : ℕ} : secMom A n = A.T.M n A.rows * (A.T.M n A.rows)ᵀ := by
  funext i j
  rw [Matrix.mul_apply, secMom, ← Fin.sum_univ_eq_sum_range (fun r => A.get r i * A.get r j)]
  exact Finset.sum_congr rfl fun r _ => by simp [Mat.M]

theorem secMom_smul {A : Mat α} {n : ℕ} (c : α) (h : A.cols = n) : secMom (A.smul c) n = (c * c) • secMom A n := by
  funext i j
  simp only [secMom, Matrix.smul_apply, smul_eq_mul, Mat.rows_smul, Finset.mul_sum]
  refine Finset.sum_congr rfl fun r hr => ?_
  rw [Mat.get_smul, Mat.get_smul]
  ring

theorem unscaleGrad_spec {p : α} (hp : 0 < p) (g : Mat α) {n : ℕ} (hg : g.cols = n) :
    ∃ g', World.unscaleGrad p g = .ok g' ∧ g'.rows = g.rows ∧ g'.cols = g.cols ∧ secMom g' n = (1 / p) • secMom g n := by
  unfold World.unscaleGrad
  by_cases h1 : p = 1
  · exact ⟨g, by rw [if_pos h1], rfl, rfl, by rw [h1]; simp⟩
  · refine ⟨_, by rw [if_neg h1, if_neg (not_lt.2 hp.le)], by simp, by simp, ?_⟩
    rw [secMom_smul _ hg]
    congr 1
    have := LawfulSqrt.sqrt_mul_self p hp.le
    rw [div_mul_div_comm, this, one_mul]

/-- the two statistics of a backward pass through a layer -/
theorem localH_spec {cl : Cls × Cls} {o : Opt α} {m : Layer} {h : Hyper α} {x g : ND α} {p : α} (hw : LayerWF cl o m)
    (hh : o.hyperOf m = .ok h) (hv : h.Valid) (hx : InputFits m h.kfacApprox x) (hg : GradFits m g)
    (hp : o.scales ((o.steps : ℤ) - 1) = some p) (hp0 : 0 < p) :
    ∃ HK HC, World.localH o m x g = .ok (HK, HC) ∧ WF cl.1 m.nK HK ∧ WF cl.2 m.nC HC ∧
      HK.den m.nK = cl.1.proj m.nK (cl.1.sandwich (denO (o.Ks m.name) m.nK) (inputMoment h m x)) ∧
      HC.den m.nC = (1 / p) • cl.2.proj m.nC (cl.2.sandwich (denO (o.Cs m.name) m.nC) (gradMoment h m g)) := by
  obtain ⟨a, ea, ca, ra⟩ := processInput_fits hv.approx hx
  obtain ⟨b, eb, cb, rb⟩ := processGrad_fits hv.approx hv.avg hg
  obtain ⟨K, eK, wK⟩ := hw.K
  obtain ⟨C, eC, wC⟩ := hw.C
  obtain ⟨b', eb', rb', cb', db'⟩ := unscaleGrad_spec hp0 b cb
  obtain ⟨HK, eHK, wHK, dHK⟩ := fromInner_some_den wK (X := a.T) (by simp [ca]) (by simpa using ra)
  obtain ⟨HC, eHC, wHC, dHC⟩ := fromInner_some_den wC (X := b'.T) (by simp [cb', cb]) (by simpa [rb'] using rb)
  refine ⟨HK, HC, ?_, wHK, wHC, ?_, ?_⟩
  · simp only [World.localH, hh, Except.bind_ok', ea, eb, lookup, eK, eC, eHK, Opt.scale, hp, eb', eHC, Except.pure_ok]
  · have e2 : a.T.M m.nK a.T.cols * (a.T.M m.nK a.T.cols)ᵀ = secMom a m.nK := secMom_T.symm
    rw [dHK, e2, eK, denO_some, inputMoment, ea]
  · have e2 : b'.T.M m.nC b'.T.cols * (b'.T.M m.nC b'.T.cols)ᵀ = secMom b' m.nC := secMom_T.symm
    rw [dHC, e2, db', sandwich_smul, proj_smul wC.supports, eC, denO_some, gradMoment, eb]

theorem accum_spec {c : Cls} {n : ℕ} {old : Option (SM α)} {H : SM α} (ho : ∀ X, old = some X → WF c n X) (hH : WF c n H) :
    ∃ H', World.accum old H = .ok H' ∧ WF c n H' ∧ H'.den n = denO old n + H.den n := by
  rcases old with _ | X
  · exact ⟨H, rfl, hH, by simp [denO]⟩
  · obtain ⟨R, e, w, d⟩ := (C04_inplace_exact (ho X rfl) hH 1).1
    exact ⟨R, e, w, by rw [denO_some, d, one_smul]⟩

/-- what a backward pass through layer `m` with input `x` and output gradient `g` does to the statistics of `m` -/
structure BackSpec (cl : Cls × Cls) (m : Layer) (h : Hyper α) (p : α) (x g : ND α) (w w' : World α) : Prop where
  wf : LayerWF cl w'.opt m
  someK : w'.opt.HKs m.name ≠ none
  someC : w'.opt.HCs m.name ≠ none
  HK : denO (w'.opt.HKs m.name) m.nK = denO (w.opt.HKs m.name) m.nK +
    cl.1.proj m.nK (cl.1.sandwich (denO (w.opt.Ks m.name) m.nK) (inputMoment h m x))
  HC : denO (w'.opt.HCs m.name) m.nC = denO (w.opt.HCs m.name) m.nC +
    (1 / p) • cl.2.proj m.nC (cl.2.sandwich (denO (w.opt.Cs m.name) m.nC) (gradMoment h m g))
  frame : Frame World.none' (fun n => n = m.name) World.none' w w'

theorem accumulateH_spec {cl : Cls × Cls} {w : World α} {m : Layer} {h : Hyper α} {x g : ND α} {p : α} (hw : LayerWF cl w.opt m)
    (hh : w.opt.hyperOf m = .ok h) (hv : h.Valid) (hx : InputFits m h.kfacApprox x) (hg : GradFits m g)
    (hp : w.opt.scales ((w.opt.steps : ℤ) - 1) = some p) (hp0 : 0 < p) :
    ∃ w', World.accumulateH m x g w = (.ok (), w') ∧ BackSpec cl m h p x g w w' := by
  obtain ⟨HK, HC, e, wK, wC, dK, dC⟩ := localH_spec hw hh hv hx hg hp hp0
  obtain ⟨HK', eK, wK', dK'⟩ := accum_spec hw.HK wK
  obtain ⟨HC', eC, wC', dC'⟩ := accum_spec hw.HC wC
  have f := World.accumulateH_frame m x g w
  have run : World.accumulateH m x g w = (.ok (), { w with opt := { w.opt with
      HKs := Dict.set w.opt.HKs m.name HK', HCs := Dict.set w.opt.HCs m.name HC' } }) := by
    rw [World.accumulateH, Py.get_bind_run, e, Py.lift_ok_bind_run, World.commitH, Py.get_bind_run]
    dsimp only
    rw [eK, Py.lift_ok_bind_run, World.setOpt, Py.modify_bind_run, eC, Py.lift_ok_bind_run]
    rfl
  refine ⟨_, run, ?_⟩
  rw [run] at f
  have hK : (Dict.set w.opt.HKs m.name HK') m.name = some HK' := by simp [Dict.set]
  have hC : (Dict.set w.opt.HCs m.name HC') m.name = some HC' := by simp [Dict.set]
  refine ⟨⟨hw.K, hw.C, hw.mK, hw.mC, ?_, ?_⟩, by simp [Dict.set], by simp [Dict.set], ?_, ?_, f⟩
  · intro X hX; dsimp only at hX; rw [hK] at hX; cases hX; exact wK'
  · intro X hX; dsimp only at hX; rw [hC] at hX; cases hX; exact wC'
  · dsimp only; rw [hK, denO_some, dK', dK]
  · dsimp only; rw [hC, denO_some, dC', dC]
