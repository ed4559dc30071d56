import Verif.Props.Dynamics
import Verif.Proofs.RoundingFactor
import Verif.Proofs.RoundingEval

/-!
C71: with `normalize_lr_cov`, factors stay invertible if `lr_cov` is smaller than the inverse of the size of the largest diagonal block of the
structure, whatever the dimension; for diagonal and triangular structures this survives rounding, for dense ones it does not.
-/

set_option linter.unusedSectionVars false
open Construct
namespace Invertible

section
variable {α : Type} [Field α]

/-- **C71 (pattern).** The matrices of a class are block-triangular for an order of the indices that depends on the class only, with diagonal
blocks of size at most `c.bw n`. -/
theorem C71_pattern {c : Cls} {n : ℕ} (h : c.Supports n) : ∃ r : ℕ → ℕ,
    (∀ K : SM α, WF c n K → ∀ i j : Fin n, r j < r i → K.den n i j = 0) ∧
    ∀ i < n, ((Finset.range n).filter fun j => r j = r i).card ≤ c.bw n := by
  obtain ⟨r, R, hR⟩ := Cls.ranked (α := α) c n h
  exact ⟨r, fun K hK => hR.den hK, hR.card⟩

/-- sizes of the blocks: 1 for diagonal and triangular classes, bounded for block-diagonal and hierarchical ones, the dimension for dense ones -/
example (n : ℕ) : Cls.dense.bw n = n ∧ Cls.diagonal.bw n = 1 ∧ Cls.tril.bw n = 1 ∧ Cls.triu.bw n = 1 ∧ (Cls.block 30).bw n ≤ 30 ∧
    (Cls.hier 15 15).bw n ≤ 15 := ⟨rfl, rfl, rfl, rfl, min_le_left _ _, by simp [Cls.bw]⟩
example : (Cls.topRight .inf (.int 2) .diagonal .dense).bw 10 = 2 ∧ (Cls.topRight .inf (.int 2) .diagonal .dense).Supports 10 :=
  ⟨by decide, 8, rfl, trivial, trivial⟩
example : (Cls.block 3).Supports 7 ∧ (Cls.block 3).bw 7 = 3 := ⟨by show 0 < 3; decide, by decide⟩
end

variable {α : Type} [Field α] [LinearOrder α] [IsStrictOrderedRing α] [LawfulSqrt α]

/-- **C71 (bounded change).** A fitting step with `normalize_lr_cov` multiplies the factors of every layer by `I - D_K` and `I - D_C`, where all
entries are at most `lr_cov` in absolute value, and vanish where the entries of the class vanish. -/
theorem C71_bounded_change {cl : String → Cls × Cls} {w : World α} (hw : w.Live cl) {attr : Option α} (hf : FitsOp w (.step false attr false)) :
    ∃ w', exec (.step false attr false) w = (.ok (), w') ∧ ∀ m ∈ w.opt.layers, ∀ h, w.opt.hyperOf m = .ok h → h.normalize = true →
      ∃ DK DC, denO (w'.opt.Ks m.name) m.nK = denO (w.opt.Ks m.name) m.nK * (1 - DK) ∧
        denO (w'.opt.Cs m.name) m.nC = denO (w.opt.Cs m.name) m.nC * (1 - DC) ∧
        (∀ i j, |DK i j| ≤ |h.lrCov.at w.opt.steps|) ∧ (∀ i j, |DC i j| ≤ |h.lrCov.at w.opt.steps|) ∧
        (∀ i j, (∀ K : SM α, WF (cl m.name).1 m.nK K → K.den m.nK i j = 0) → DK i j = 0) ∧
        ∀ i j, (∀ C : SM α, WF (cl m.name).2 m.nC C → C.den m.nC i j = 0) → DC i j = 0 := by
  obtain ⟨w', e, sp, _⟩ := hw.step hf
  refine ⟨w', e, fun m hm h hh hn => ?_⟩
  by_cases hT : w.opt.steps % h.T = 0
  · obtain ⟨mK, mC, bK, bC, e1, e2, e3, e4, e5, e6, e7⟩ := ((sp.layer m hm h hh).upd hT).eqs
    have hg := hw.sound.good m hm
    have hl := hw.sound.lay m hm
    have dir : ∀ {c : Cls} {n : ℕ} (_ : c.Supports n) (x y : Option (SM α)) (_ : ∀ X, x = some X → WF c n X) (_ : ∀ X, y = some X → WF c n X)
        (a s p q l : α) (A : Matrix (Fin n) (Fin n) α) (i j : Fin n), (∀ K : SM α, WF c n K → K.den n i j = 0) →
        (a • denO x n + updDir c s p q l A (denO y n)) i j = 0 := by
      intro c n hs x y hx hy a s p q l A i j h0
      have d0 : ∀ z : Option (SM α), (∀ X, z = some X → WF c n X) → denO z n i j = 0 := fun z hz => by
        cases z with
        | none => rfl
        | some Z => exact h0 Z (hz Z rfl)
      have p0 : ∀ B : Matrix (Fin n) (Fin n) α, c.proj n B i j = 0 := fun B => by
        obtain ⟨K, e, w⟩ := fromDense_wf hs (m := Mat.ofMatrix B) rfl rfl
        rw [Cls.proj, e]; exact h0 K w
      have i0 : (1 : Matrix (Fin n) (Fin n) α) i j = 0 := by
        obtain ⟨I, _, wI, dI⟩ := (C12_eye_zeros (α := α) hs).1
        rw [← dI]; exact h0 I wI
      simp only [updDir, Matrix.add_apply, Matrix.smul_apply, Matrix.sub_apply, smul_eq_mul, d0 x hx, d0 y hy, p0, i0]
      ring
    refine ⟨bK • mK, bC • mC, e6, e7, e4.bound hn, e5.bound hn, fun i j h0 => ?_, fun i j h0 => ?_⟩
    · rw [Matrix.smul_apply, e2, dirK, dir hg.supK _ _ hl.mK hl.HK _ _ _ _ _ _ i j h0, smul_zero]
    · rw [Matrix.smul_apply, e3, dirC, dir hg.supC _ _ hl.mC hl.HC _ _ _ _ _ _ i j h0, smul_zero]
  · have s := (sp.layer m hm h hh).noupd hT
    refine ⟨0, 0, by rw [s.Ks]; simp, by rw [s.Cs]; simp, ?_, ?_, ?_, ?_⟩ <;> intros <;> simp

example : ∃ (cl : String → Cls × Cls) (w : World ℝ), w.Live cl ∧ FitsOp w (.step false none false) ∧ w.opt.layers = [Sample.la, Sample.lb] := by
  obtain ⟨cl, w, a, _, b, _, _, c, _⟩ := Sample.gready (α := ℝ)
  exact ⟨cl, w, a, c, b⟩

/-- steps are only taken with `normalize_lr_cov` and `lr_cov · block size < 1` for both factors of every layer -/
def SmallBlocks (cl : String → Cls × Cls) (w : World α) (op : Op α) : Prop := ∀ a, op = .step false a false → ∀ m ∈ w.opt.layers, ∀ h,
  w.opt.hyperOf m = .ok h → h.normalize = true ∧ |h.lrCov.at w.opt.steps| * (cl m.name).1.bw m.nK < 1 ∧
    |h.lrCov.at w.opt.steps| * (cl m.name).2.bw m.nC < 1

/-- all factors of the layer keep a property that such updates keep -/
theorem run_keeps {cl : String → Cls × Cls} {P : ∀ n, Cls → Matrix (Fin n) (Fin n) α → Prop}
    (hP : ∀ {n : ℕ} {c : Cls} {A D : Matrix (Fin n) (Fin n) α} {ρ : α} {r : ℕ → ℕ}, c.Supports n → (∃ X, WF c n X ∧ X.den n = A) →
      (∀ i < n, ((Finset.range n).filter fun j => r j = r i).card ≤ c.bw n) → (∀ K : SM α, WF c n K → Zeros n r (K.den n)) → Zeros n r D →
      (∀ i j, |D i j| ≤ ρ) → ρ * c.bw n < 1 → P n c A → P n c (A * (1 - D))) :
    ∀ {ops : List (Op α)} {w : World α}, w.Live cl → FitsRun w ops → Along (SmallBlocks cl) w ops →
    (∀ m ∈ w.opt.layers, P m.nK (cl m.name).1 (denO (w.opt.Ks m.name) m.nK) ∧ P m.nC (cl m.name).2 (denO (w.opt.Cs m.name) m.nC)) →
    ∀ m ∈ w.opt.layers, P m.nK (cl m.name).1 (denO ((run ops w).opt.Ks m.name) m.nK) ∧ P m.nC (cl m.name).2 (denO ((run ops w).opt.Cs m.name) m.nC)
  | [], _, _, _, _, h => h
  | op :: ops, w, hl, hf, hs, h => by
    rw [run_cons]
    obtain ⟨w', e, l⟩ := hl.exec hf.1
    have ew : (exec op w).2 = w' := by rw [e]
    have st : (exec op w).2.opt.layers = w.opt.layers := (exec_static op w).1
    have := run_keeps (P := P) @hP (w := (exec op w).2) (by rw [ew]; exact l) hf.2 hs.2 ?_
    · rw [st] at this; exact this
    intro m hm
    rw [st] at hm
    by_cases hop : ∃ a, op = .step false a false
    · obtain ⟨a, rfl⟩ := hop
      obtain ⟨w2, e2, key⟩ := C71_bounded_change hl hf.1
      rw [e2] at e; cases e
      obtain ⟨hy, hh, _⟩ := hl.sound.hyper m hm
      obtain ⟨n1, n2, n3⟩ := hs.1 a rfl m hm hy hh
      obtain ⟨DK, DC, k1, k2, k3, k4, k5, k6⟩ := key m hm hy hh n1
      have hg := hl.sound.good m hm
      obtain ⟨K, eK, wK⟩ := (hl.sound.lay m hm).K
      obtain ⟨C, eC, wC⟩ := (hl.sound.lay m hm).C
      obtain ⟨rK, _, hK⟩ := Cls.ranked (α := α) _ _ hg.supK
      obtain ⟨rC, _, hC⟩ := Cls.ranked (α := α) _ _ hg.supC
      rw [ew, k1, k2]
      exact ⟨hP hg.supK ⟨K, wK, by rw [eK]; rfl⟩ hK.card (fun K h => hK.den h) (fun i j h => k5 i j fun K w => hK.den w i j h) k3 n2 (h m hm).1,
        hP hg.supC ⟨C, wC, by rw [eC]; rfl⟩ hC.card (fun K h => hC.den h) (fun i j h => k6 i j fun K w => hC.den w i j h) k4 n3 (h m hm).2⟩
    · have : ∀ n, (exec op w).2.opt.Ks n = w.opt.Ks n ∧ (exec op w).2.opt.Cs n = w.opt.Cs n := by
        intro n
        by_contra hne
        obtain ⟨⟨a, ha⟩, _⟩ := C29_factors_change_only_on_update_steps op w n (by
          rw [not_and_or] at hne
          rcases hne with h | h
          · exact Or.inl h
          · exact Or.inr (Or.inl h))
        exact hop ⟨a, ha⟩
      rw [(this _).1, (this _).2]; exact h m hm

/-- **C71 (invertibility).** Throughout every fitting history all of whose steps have `normalize_lr_cov` and `lr_cov · b < 1`, where `b` is the
size of the largest diagonal block of the structure, invertible factors stay invertible. -/
theorem C71_invertible {cl : String → Cls × Cls} {w : World α} (hw : w.Live cl) {ops : List (Op α)} (hf : FitsRun w ops)
    (hs : Along (SmallBlocks cl) w ops)
    (h0 : ∀ m ∈ w.opt.layers, IsUnit (denO (w.opt.Ks m.name) m.nK).det ∧ IsUnit (denO (w.opt.Cs m.name) m.nC).det) :
    ∀ m ∈ w.opt.layers, IsUnit (denO ((run ops w).opt.Ks m.name) m.nK).det ∧ IsUnit (denO ((run ops w).opt.Cs m.name) m.nC).det :=
  run_keeps (P := fun _ _ A => IsUnit A.det) (fun {n c A D ρ r} _ _ hb _ hD hρ hr h => by
    rw [isUnit_iff_ne_zero] at h ⊢
    rw [Matrix.det_mul]
    exact mul_ne_zero h (det_one_sub_ne_zero_of_zeros hD hρ hb hr)) hw hf hs h0

/-- **C71 (positive diagonal).** Under the same conditions, factors whose structure has diagonal blocks of size 1 (diagonal, triangular) keep a
positive diagonal. -/
theorem C71_positive {cl : String → Cls × Cls} {w : World α} (hw : w.Live cl) {ops : List (Op α)} (hf : FitsRun w ops)
    (hs : Along (SmallBlocks cl) w ops)
    (h0 : ∀ m ∈ w.opt.layers, ((cl m.name).1.bw m.nK ≤ 1 → ∀ i, 0 < denO (w.opt.Ks m.name) m.nK i i) ∧
      ((cl m.name).2.bw m.nC ≤ 1 → ∀ i, 0 < denO (w.opt.Cs m.name) m.nC i i)) :
    ∀ m ∈ w.opt.layers, ((cl m.name).1.bw m.nK ≤ 1 → ∀ i, 0 < denO ((run ops w).opt.Ks m.name) m.nK i i) ∧
      ((cl m.name).2.bw m.nC ≤ 1 → ∀ i, 0 < denO ((run ops w).opt.Cs m.name) m.nC i i) :=
  run_keeps (P := fun n c A => c.bw n ≤ 1 → ∀ i, 0 < A i i) (fun {n c A D ρ r} _ hA hb hz hD hρ hr h hw i => by
    have inj : ∀ i j : Fin n, r i = r j → i = j := fun i j e => Fin.ext
      (Finset.card_le_one.1 ((hb i i.2).trans hw) i (by simp) j (by simp [e]))
    obtain ⟨X, wX, rfl⟩ := hA
    rw [(hz X wX).mul_diag (Zeros.one.sub hD) inj i]
    refine mul_pos (h hw i) ?_
    have one : 1 ≤ c.bw n := le_trans (Finset.card_pos.2 ⟨(i : ℕ), by simp⟩) (hb i i.2)
    have h1 : ρ * (c.bw n : α) < 1 := hr
    rw [le_antisymm hw one, Nat.cast_one, mul_one] at h1
    rw [Matrix.sub_apply, Matrix.one_apply_eq]
    have := (le_abs_self _).trans (hρ i i)
    linarith) hw hf hs h0

/-- the factors of a constructed optimizer -/
theorem init_factors {structs : String → Option Cls} {model : Model} {p : ParamArg α} {a : Args α} {o : Opt α} {ws : List Warn}
    (hn : (model.layers.map (·.name)).Nodup) (hi : Construct.init structs model p a = .ok (o, ws)) {data : ℕ → Mat α} (ht : Trainable o data) :
    ∀ m ∈ o.layers, denO (o.Ks m.name) m.nK = 1 ∧ denO (o.Cs m.name) m.nC = 1 := by
  have I := init_ok hn hi
  intro m hm
  obtain ⟨h, cK, cC, K, C, e1, e2, e3, eK, eC, sK, sC, _⟩ := (I.lay m hm).ex
  have := ht.cls m hm h cK cC e1 e2 e3
  obtain ⟨K', eK', wK, dK⟩ := (C12_eye_zeros (α := α) this.1).1
  obtain ⟨C', eC', wC, dC⟩ := (C12_eye_zeros (α := α) this.2.2.1).1
  rw [eK] at eK'; cases eK'
  rw [eC] at eC'; cases eC'
  rw [sK, sC, denO_some, denO_some, dK, dC]; exact ⟨rfl, rfl⟩

/-- **C71 (the library's structures).** An optimizer constructed with the library's structures other than `dense`: throughout every fitting
history all of whose steps have `normalize_lr_cov` and `lr_cov < 1/30`, all factors are invertible, whatever the dimensions. -/
theorem C71_library {model : Model} {p : ParamArg α} {a : Args α} {o : Opt α} {ws : List Warn}
    (hn : (model.layers.map (·.name)).Nodup) (hi : Construct.init supportedStructures model p a = .ok (o, ws)) {data : ℕ → Mat α}
    {grad : ℕ → Option (Mat α)} (ht : Trainable o data) (hs : 0 < a.initGradScale)
    (hd : ∀ m ∈ o.layers, ∀ h, o.hyperOf m = .ok h → h.structures.1 ≠ "dense" ∧ h.structures.2 ≠ "dense") {ops : List (Op α)}
    (hf : FitsRun ⟨o, data, grad, []⟩ ops)
    (hr : Along (fun w op => ∀ a, op = .step false a false → ∀ m ∈ w.opt.layers, ∀ h, w.opt.hyperOf m = .ok h →
      h.normalize = true ∧ |h.lrCov.at w.opt.steps| < 1 / 30) ⟨o, data, grad, []⟩ ops) :
    ∀ m ∈ o.layers, IsUnit (denO ((run ops ⟨o, data, grad, []⟩).opt.Ks m.name) m.nK).det ∧
      IsUnit (denO ((run ops ⟨o, data, grad, []⟩).opt.Cs m.name) m.nC).det := by
  have I := init_ok hn hi
  obtain ⟨cl, hcl, hlive⟩ := I.live (grad := grad) ht hs
  have bw30 : ∀ (s : String) (c : Cls) (n : ℕ), s ≠ "dense" → supportedStructures s = some c → c.bw n ≤ 30 := by
    intro s c n hs e
    unfold supportedStructures at e
    rw [if_neg hs] at e
    split_ifs at e <;> cases e
    · simp [Cls.bw]
    · exact min_le_left _ _
    · simp only [Cls.bw]; omega
    · simp [Cls.bw]
    · simp [Cls.bw]
  have bwK : ∀ m ∈ o.layers, (cl m.name).1.bw m.nK ≤ 30 ∧ (cl m.name).2.bw m.nC ≤ 30 := fun m hm => by
    obtain ⟨hy, e, e1, e2⟩ := hcl m hm
    exact ⟨bw30 _ _ _ (hd m hm hy e).1 e1, bw30 _ _ _ (hd m hm hy e).2 e2⟩
  have mono : ∀ (ops : List (Op α)) (w : World α), w.opt.layers = o.layers →
      Along (fun w op => ∀ a, op = .step false a false → ∀ m ∈ w.opt.layers, ∀ h, w.opt.hyperOf m = .ok h →
        h.normalize = true ∧ |h.lrCov.at w.opt.steps| < 1 / 30) w ops → Along (SmallBlocks cl) w ops := by
    intro ops
    induction ops with
    | nil => intro _ _ _; trivial
    | cons op ops ih =>
      intro w hl h
      refine ⟨fun a ha m hm hy hh => ?_, ih _ ((exec_static op w).1.trans hl) h.2⟩
      obtain ⟨h1, h2⟩ := h.1 a ha m hm hy hh
      have h3 := bwK m (hl ▸ hm)
      have lem : ∀ k : ℕ, k ≤ 30 → |hy.lrCov.at w.opt.steps| * (k : α) < 1 := fun k hk => by
        have hk' : (k : α) ≤ 30 := by exact_mod_cast hk
        calc |hy.lrCov.at w.opt.steps| * (k : α) ≤ |hy.lrCov.at w.opt.steps| * 30 := mul_le_mul_of_nonneg_left hk' (abs_nonneg _)
          _ < 1 / 30 * 30 := mul_lt_mul_of_pos_right h2 (by norm_num)
          _ = 1 := by norm_num
      exact ⟨h1, lem _ h3.1, lem _ h3.2⟩
  refine C71_invertible hlive hf (mono ops _ rfl hr) fun m hm => ?_
  have := init_factors hn hi ht m hm
  rw [this.1, this.2]; simp

/-- the sample's arguments with other structures, `normalize_lr_cov`, and a small `lr_cov` -/
def iargs : Args α := { (Sample.gargs : Args α) with structures := ("triltoeplitz", "block30diagonal"), normalize := true, lrCov := .num (.float (1 / 100)) }

/-- a step after construction with these arguments fits and has small blocks -/
theorem sample : ∃ (o : Opt α) (ws : List Warn) (cl : String → Cls × Cls),
    Construct.init supportedStructures Sample.model .default iargs = .ok (o, ws) ∧ o.layers = [Sample.la, Sample.lb] ∧ Trainable o Sample.gdata ∧
    (∀ m ∈ o.layers, o.hyperOf m = .ok (defaults iargs)) ∧ World.Live cl ⟨o, Sample.gdata, Sample.ggrad, []⟩ ∧
    FitsRun ⟨o, Sample.gdata, Sample.ggrad, []⟩ (Sample.gpass ++ [.step false none false]) := by
  have h2 : ¬ ((2⁻¹ : α) < 0) := by simp
  obtain ⟨o, ws, cl, a, b, c, d, e, f, g, h, _⟩ := Sample.glive2_any (a := (iargs : Args α)) (cK := .tril) (cC := .block 30)
    (by simp [validate, iargs, Sample.gargs, PyNum.rejected, PyRate.rejected, h2]) rfl rfl rfl ⟨Or.inl rfl, Or.inr (Or.inl rfl)⟩
    (by simp [checked, defaults, iargs, Sample.gargs]) (show (2 : ℕ) ≠ 0 by decide) rfl
  exact ⟨o, ws, cl, a, b, c, d, e, along_append.2 ⟨f, h, trivial⟩⟩

/-- hyper-parameters do not change in a pass -/
theorem sample_hyper (w : World α) (m : Layer) : (run Sample.gpass w).opt.hyperOf m = w.opt.hyperOf m := by
  have all : ∀ (ops : List (Op α)) (w : World α), (∀ op ∈ ops, ∀ i h, op ≠ .setHyper i h) → (run ops w).opt.hyperOf m = w.opt.hyperOf m := by
    intro ops
    induction ops with
    | nil => intro w _; rfl
    | cons op ops ih => intro w h; rw [run_cons, ih _ fun o h' => h o (by simp [h']), exec_hyperOf op w (h op (by simp))]
  refine all _ _ fun op hop => ?_
  simp only [Sample.gpass, List.mem_cons, List.not_mem_nil, or_false] at hop
  rcases hop with rfl | rfl | rfl | rfl <;> simp

/-- the sample satisfies the hypotheses of `C71_invertible` and `C71_positive` -/
example : ∃ (cl : String → Cls × Cls) (w : World ℝ) (ops : List (Op ℝ)), w.Live cl ∧ FitsRun w ops ∧ .step false none false ∈ ops ∧
    Along (SmallBlocks cl) w ops ∧ w.opt.layers = [Sample.la, Sample.lb] ∧
    ∀ m ∈ w.opt.layers, denO (w.opt.Ks m.name) m.nK = 1 ∧ denO (w.opt.Cs m.name) m.nC = 1 := by
  obtain ⟨o, ws, cl, a, b, c, d, e, f⟩ := sample (α := ℝ)
  refine ⟨cl, _, _, e, f, by simp, along_append.2 ⟨?_, ?_, trivial⟩, b, init_factors (by decide) a c⟩
  · refine ⟨?_, ?_, ?_, ?_, trivial⟩ <;> intro a h <;> cases h
  · intro a _ m hm h hh
    rw [(run_layers _ _).1] at hm
    rw [sample_hyper, d m hm] at hh
    cases hh
    have hlr : ∀ t, (defaults (iargs : Args ℝ)).lrCov.at t = 1 / 100 := fun t => rfl
    rw [hlr, abs_of_pos (by norm_num)]
    have lem : ∀ (c : Cls) (n : ℕ), n ≤ 2 → (1 / 100 : ℝ) * c.bw n < 1 := fun c n hn => by
      have h1 : c.bw n ≤ 2 := (c.bw_le n).trans (by omega)
      have : (c.bw n : ℝ) ≤ 2 := by exact_mod_cast h1
      linarith
    change m ∈ o.layers at hm
    rw [b] at hm
    simp only [List.mem_cons, List.not_mem_nil, or_false] at hm
    rcases hm with rfl | rfl
    · exact ⟨rfl, lem _ _ (by decide), lem _ _ (by decide)⟩
    · exact ⟨rfl, lem _ _ (by decide), lem _ _ (by decide)⟩

/-- the sample satisfies the hypotheses of `C71_library` -/
example : ∃ (o : Opt ℝ) (ws : List Warn) (ops : List (Op ℝ)),
    Construct.init supportedStructures Sample.model .default iargs = .ok (o, ws) ∧ Trainable o Sample.gdata ∧
    (∀ m ∈ o.layers, ∀ h, o.hyperOf m = .ok h → h.structures.1 ≠ "dense" ∧ h.structures.2 ≠ "dense") ∧ .step false none false ∈ ops ∧
    FitsRun ⟨o, Sample.gdata, Sample.ggrad, []⟩ ops ∧
    Along (fun w op => ∀ a, op = .step false a false → ∀ m ∈ w.opt.layers, ∀ h, w.opt.hyperOf m = .ok h →
      h.normalize = true ∧ |h.lrCov.at w.opt.steps| < 1 / 30) ⟨o, Sample.gdata, Sample.ggrad, []⟩ ops := by
  obtain ⟨o, ws, cl, a, b, c, d, e, f⟩ := sample (α := ℝ)
  refine ⟨o, ws, _, a, c, ?_, by simp, f, along_append.2 ⟨?_, ?_, trivial⟩⟩
  · intro m hm h hh
    rw [d m hm] at hh; cases hh
    exact ⟨by decide, by decide⟩
  · refine ⟨?_, ?_, ?_, ?_, trivial⟩ <;> intro a h <;> cases h
  · intro a _ m hm h hh
    rw [(run_layers _ _).1] at hm
    rw [sample_hyper, d m hm] at hh
    cases hh
    have hlr : ∀ t, (defaults (iargs : Args ℝ)).lrCov.at t = 1 / 100 := fun t => rfl
    rw [hlr]
    exact ⟨rfl, by norm_num [abs_of_pos]⟩

/-! ### Sharpness -/

/-- **C71 (limit).** The bound is sharp for structures with blocks of size 1: with `lr_cov = 1` and momentum `I` a factor of any class becomes 0
in one update. -/
theorem C71_limit {c : Cls} {n : ℕ} (hs : c.Supports n) (hc : c.Regular) (hn : 0 < n) {h : Hyper α} (hh : h.normalize = true) {t : ℕ}
    (h1 : h.lrCov.at t = 1) {K : SM α} (hK : WF c n K) : ∃ M K' : SM α, ∃ b, WF c n M ∧ M.den n = 1 ∧ factorRate h t M = .ok b ∧
      factorStep K M b = .ok K' ∧ K'.den n = 0 := by
  obtain ⟨M, _, wM, dM⟩ := (C12_eye_zeros (α := α) hs).1
  obtain ⟨b, e, hb⟩ := factorRate_den h t wM hn
  obtain ⟨K', e', wK', d'⟩ := factorStep_den hc hK wM b
  refine ⟨M, K', b, wM, dM, e, e', ?_⟩
  rw [IsRate, if_pos hh, h1] at hb
  obtain ⟨v, ⟨⟨i, j, hv⟩, _⟩, rfl⟩ := hb
  have v1 : v ≤ 1 := by
    rw [hv, dM, Matrix.one_apply]
    split_ifs <;> simp
  rw [d', dM, max_eq_left v1]
  simp

/-- **C71 (limit for dense factors).** The bound is sharp for dense factors: with `lr_cov = 1/n` a factor becomes singular in one update. -/
theorem C71_limit_dense {n : ℕ} (hn : 0 < n) {h : Hyper α} (hh : h.normalize = true) {t : ℕ} (h1 : h.lrCov.at t = 1 / n) {K : SM α}
    (hK : WF .dense n K) : ∃ M K' : SM α, ∃ b, WF .dense n M ∧ (∀ i j, M.den n i j = 1) ∧ factorRate h t M = .ok b ∧
      factorStep K M b = .ok K' ∧ (K'.den n).det = 0 := by
  have wM : WF .dense n (.dense (Mat.ofFn n n fun _ _ => (1 : α))) := .dense rfl rfl
  have dM : ∀ i j : Fin n, (SM.dense (Mat.ofFn n n fun _ _ => (1 : α))).den n i j = 1 := fun i j => by
    simp [SM.den, SM.toDense, Mat.M]
  obtain ⟨b, e, hb⟩ := factorRate_den h t wM hn
  obtain ⟨K', e', wK', d'⟩ := factorStep_den (c := .dense) trivial hK wM b
  refine ⟨_, K', b, wM, dM, e, e', ?_⟩
  rw [IsRate, if_pos hh, h1] at hb
  obtain ⟨v, ⟨⟨i, j, hv⟩, _⟩, rfl⟩ := hb
  rw [dM, abs_one] at hv
  rw [d', Matrix.det_mul]
  refine mul_eq_zero_of_right _ ?_
  have hn0 : (n : α) ≠ 0 := by exact_mod_cast hn.ne'
  refine Matrix.exists_mulVec_eq_zero_iff.1 ⟨fun _ => 1, fun h0 => one_ne_zero (congrFun h0 ⟨0, hn⟩), ?_⟩
  funext i
  simp only [Matrix.mulVec, dotProduct, Matrix.sub_apply, Matrix.smul_apply, dM, smul_eq_mul, mul_one, hv, max_self, div_one,
    Finset.sum_sub_distrib, Finset.sum_const, Finset.card_univ, Fintype.card_fin, nsmul_eq_mul, Pi.zero_apply]
  rw [Finset.sum_eq_single i (fun j _ hj => Matrix.one_apply_ne hj.symm) (by simp), Matrix.one_apply_eq]
  field_simp
  ring

example : (Cls.hier 2 1).Supports 5 ∧ (Cls.hier 2 1).Regular ∧ ∃ h : Hyper ℝ, h.normalize = true ∧ h.lrCov.at 0 = 1 :=
  ⟨trivial, trivial, { defaults (iargs : Args ℝ) with lrCov := .const 1 }, rfl, rfl⟩

/-! ### Rounding -/

/-- **C71 (rounding error).** The rounded update of a factor: with the exact learning rate `b`, every entry differs from that of `K (I - b M)` by at
most `((1 + u)^(4n + 11) - 1)` times that of `|K| + |b| |K| |M|`. -/
theorem C71_rounded_error {u : α} (hu : 0 ≤ u) {c : Cls} {n : ℕ} {K M K' : SM α} {h : Hyper α} {t : ℕ} (hc : c.Regular) (hK : WF c n K) (hM : WF c n M)
    (hn : 0 < n) (hf : FFactor u h t c n K M K') : ∃ b, IsRate h t (M.den n) b ∧
      ∀ i j, |(K'.den n - K.den n * (1 - b • M.den n)) i j| ≤
        ((1 + u) ^ (4 * n + 11) - 1) * (|K.den n i j| + |b| * ∑ k, |K.den n i k| * |M.den n k j|) := by
  obtain ⟨b, hb, e⟩ := hf.err hu hc hK hM hn
  exact ⟨b, hb, fun i j => (e i j).err⟩

/-- **C71 (without rounding).** With `u = 0` the rounded update is the exact one. -/
theorem C71_rounded_exact {c : Cls} {n : ℕ} {K M K' : SM α} {h : Hyper α} {t : ℕ} (hc : c.Regular) (hK : WF c n K) (hM : WF c n M)
    (hn : 0 < n) (hf : FFactor 0 h t c n K M K') : ∃ b L, factorRate h t M = .ok b ∧ factorStep K M b = .ok L ∧ K'.den n = L.den n := by
  obtain ⟨b, hb, e⟩ := hf.err le_rfl hc hK hM hn
  obtain ⟨b', e', hb'⟩ := factorRate_den h t hM hn
  obtain ⟨L, eL, wL, dL⟩ := factorStep_den hc hK hM b'
  refine ⟨b', L, e', eL, ?_⟩
  have : b = b' := by
    unfold IsRate at hb hb'
    split_ifs at hb hb'
    · obtain ⟨v, ⟨⟨i, j, h1⟩, h2⟩, rfl⟩ := hb
      obtain ⟨v', ⟨⟨i', j', h1'⟩, h2'⟩, rfl⟩ := hb'
      rw [show v = v' from le_antisymm (by rw [h1]; exact h2' _ _) (by rw [h1']; exact h2 _ _)]
    · rw [hb, hb']
  rw [dL, ← this]
  ext i j
  have := (e i j).err
  rw [add_zero, one_pow, sub_self, zero_mul] at this
  exact sub_eq_zero.1 (abs_eq_zero.1 (le_antisymm this (abs_nonneg _)))

/-- updates of one factor, with any momenta of its class -/
inductive FSteps (u : α) (c : Cls) (n : ℕ) : List (Hyper α × ℕ) → SM α → SM α → Prop
  | nil (K : SM α) : FSteps u c n [] K K
  | cons {h : Hyper α} {t : ℕ} {hs : List (Hyper α × ℕ)} {K M K' L : SM α} (hM : WF c n M) (hf : FFactor u h t c n K M K')
      (rest : FSteps u c n hs K' L) : FSteps u c n ((h, t) :: hs) K L

/-- **C71 (triangular structures with rounding).** Structures with diagonal blocks of size 1 (diagonal, triangular Toeplitz, and recursive ones
built of them): over any number of rounded updates with any momenta, every diagonal entry keeps its sign, and shrinks in every update by a
factor of at least `(1 - u)(1 - ρ)`, where `ρ < 1` bounds `lr_cov (1 + u)^(4n + 10)`. So the factor stays invertible. -/
theorem C71_rounded_triangular {u : α} (hu : 0 ≤ u) (u1 : u < 1) {c : Cls} {n : ℕ} (hc : c.Regular) (hw : c.bw n ≤ 1) {ρ : α} (hρ : ρ < 1) {K L : SM α}
    {hs : List (Hyper α × ℕ)} (hh : ∀ h ∈ hs, h.1.normalize = true ∧ |h.1.lrCov.at h.2| * (1 + u) ^ (4 * n + 10) ≤ ρ) (hK : WF c n K)
    (h0 : ∀ i, K.den n i i ≠ 0) (h : FSteps u c n hs K L) :
    WF c n L ∧ (∀ i, 0 < L.den n i i * K.den n i i ∧ ((1 - u) * (1 - ρ)) ^ hs.length * |K.den n i i| ≤ |L.den n i i|) ∧
      IsUnit (L.den n).det := by
  have key : WF c n L ∧ ∀ i, 0 < L.den n i i * K.den n i i ∧ ((1 - u) * (1 - ρ)) ^ hs.length * |K.den n i i| ≤ |L.den n i i| := by
    induction h with
    | nil K => exact ⟨hK, fun i => ⟨mul_self_pos.2 (h0 i), by simp⟩⟩
    | @cons h t hs K M K' L hM hf rest ih =>
      obtain ⟨hn, hr⟩ := hh _ (List.mem_cons_self ..)
      have d := fun i => hf.diag hu u1 hn hc hK hM hw (lt_of_le_of_lt hr hρ) i
      have pos : 0 < (1 - u) * (1 - ρ) := mul_pos (by linarith) (by linarith)
      have low : ∀ i, (1 - u) * (1 - ρ) * |K.den n i i| ≤ |K'.den n i i| := fun i => by
        refine le_trans ?_ (d i).1
        refine mul_le_mul_of_nonneg_right (mul_le_mul_of_nonneg_left (by linarith) (by linarith)) (abs_nonneg _)
      have h0' : ∀ i, K'.den n i i ≠ 0 := fun i h => by
        have := low i
        rw [h, abs_zero] at this
        exact absurd this (not_le.2 (mul_pos pos (abs_pos.2 (h0 i))))
      obtain ⟨wL, e⟩ := ih (fun x hx => hh x (List.mem_cons_of_mem _ hx)) hf.1 h0'
      refine ⟨wL, fun i => ⟨?_, ?_⟩⟩
      · have s1 : 0 < K'.den n i i * K.den n i i := lt_of_le_of_ne (d i).2.2 (mul_ne_zero (h0' i) (h0 i)).symm
        have s2 := mul_pos (e i).1 s1
        have s3 : 0 < K'.den n i i * K'.den n i i := mul_self_pos.2 (h0' i)
        have s4 : 0 < K'.den n i i * K'.den n i i * (L.den n i i * K.den n i i) := by
          rw [show K'.den n i i * K'.den n i i * (L.den n i i * K.den n i i) = L.den n i i * K'.den n i i * (K'.den n i i * K.den n i i) by ring]
          exact s2
        exact (mul_pos_iff_of_pos_left s3).1 s4
      · rw [List.length_cons, pow_succ, mul_assoc]
        exact (mul_le_mul_of_nonneg_left (low i) (pow_nonneg pos.le _)).trans (e i).2
  obtain ⟨r, R, hR⟩ := Cls.ranked (α := α) c n hK.supports
  refine ⟨key.1, key.2, isUnit_iff_ne_zero.2 ((hR.den key.1).det_ne_zero (hR.inj hw) fun i h => ?_)⟩
  have := (key.2 i).1
  rw [h, zero_mul] at this
  exact lt_irrefl _ this

/-- in `bfloat16` (`u = 2^-8`), with `lr_cov = 1/100` and dimension 50, `ρ = 1/40` will do -/
example : (|1 / 100| : ℝ) * (1 + 1 / 256) ^ (4 * 50 + 10) ≤ 1 / 40 := by
  rw [abs_of_pos (by norm_num)]
  norm_num

/-- **C71 (any structure with rounding).** A rounded update keeps a factor invertible if `lr_cov` and the rounding errors, amplified by the
inverse `W` of the factor, are small enough. -/
theorem C71_rounded_invertible {u : α} (hu : 0 ≤ u) {c : Cls} {n : ℕ} {K M K' : SM α} {h : Hyper α} {t : ℕ} (hn : h.normalize = true)
    (hc : c.Regular) (hK : WF c n K) (hM : WF c n M) (h0 : 0 < n) {W : Matrix (Fin n) (Fin n) α} (hW : K.den n * W = 1) {κ : α}
    (hκ : ∀ i j, (absM W * absM (K.den n)) i j ≤ κ)
    (hr : (|h.lrCov.at t| + ((1 + u) ^ (4 * n + 11) - 1) * (κ * (1 + n * |h.lrCov.at t|))) * n < 1) (hf : FFactor u h t c n K M K') :
    IsUnit (K'.den n).det := by
  obtain ⟨b, hb, e⟩ := hf.err hu hc hK hM h0
  set g := (1 + u) ^ (4 * n + 11) - 1 with hg
  have g0 : 0 ≤ g := by linarith [one_le_gr hu (4 * n + 11)]
  set E := K'.den n - K.den n * (1 - b • M.den n) with hE
  set D := b • M.den n - W * E with hD
  have e1 : K'.den n = K.den n * (1 - D) := by
    rw [hD, sub_sub_eq_add_sub, mul_sub, mul_add, mul_one, ← mul_assoc, hW, one_mul, hE, mul_sub, mul_one]
    abel
  have kW : (0 : α) ≤ κ := le_trans (by
    rw [Matrix.mul_apply]
    exact Finset.sum_nonneg fun k _ => mul_nonneg (abs_nonneg _) (abs_nonneg _)) (hκ ⟨0, h0⟩ ⟨0, h0⟩)
  have hbM : ∀ i j, |b| * |M.den n i j| ≤ |h.lrCov.at t| := fun i j => by
    have := hb.bound hn i j
    rwa [Matrix.smul_apply, smul_eq_mul, abs_mul] at this
  have hEb : ∀ i j, |E i j| ≤ g * (absM (K.den n) + |b| • (absM (K.den n) * absM (M.den n))) i j := fun i j => (e i j).err
  have hDb : ∀ i j, |D i j| ≤ |h.lrCov.at t| + g * (κ * (1 + n * |h.lrCov.at t|)) := fun i j => by
    have b1 : |(b • M.den n) i j| ≤ |h.lrCov.at t| := hb.bound hn i j
    have b2 : |(W * E) i j| ≤ g * (κ * (1 + n * |h.lrCov.at t|)) := by
      calc |(W * E) i j| = |∑ k, W i k * E k j| := by rw [Matrix.mul_apply]
        _ ≤ ∑ k, |W i k * E k j| := Finset.abs_sum_le_sum_abs _ _
        _ ≤ ∑ k, |W i k| * (g * (absM (K.den n) + |b| • (absM (K.den n) * absM (M.den n))) k j) := by
          refine Finset.sum_le_sum fun k _ => ?_
          rw [abs_mul]
          exact mul_le_mul_of_nonneg_left (hEb k j) (abs_nonneg _)
        _ = g * (absM W * (absM (K.den n) + |b| • (absM (K.den n) * absM (M.den n)))) i j := by
          rw [Matrix.mul_apply, Finset.mul_sum]
          refine Finset.sum_congr rfl fun k _ => ?_
          show |W i k| * (g * _) = g * (|W i k| * _)
          ring
        _ = g * ((absM W * absM (K.den n)) i j + |b| * (absM W * absM (K.den n) * absM (M.den n)) i j) := by
          rw [mul_add, mul_smul_comm, ← mul_assoc, Matrix.add_apply, Matrix.smul_apply, smul_eq_mul]
        _ ≤ g * (κ + ∑ _k : Fin n, κ * |h.lrCov.at t|) := by
          refine mul_le_mul_of_nonneg_left (add_le_add (hκ i j) ?_) g0
          rw [Matrix.mul_apply, Finset.mul_sum]
          refine Finset.sum_le_sum fun k _ => ?_
          calc |b| * ((absM W * absM (K.den n)) i k * absM (M.den n) k j) = (absM W * absM (K.den n)) i k * (|b| * |M.den n k j|) := by
                show |b| * (_ * |M.den n k j|) = _
                ring
            _ ≤ κ * |h.lrCov.at t| := mul_le_mul (hκ i k) (hbM k j) (mul_nonneg (abs_nonneg _) (abs_nonneg _)) kW
        _ = g * (κ * (1 + n * |h.lrCov.at t|)) := by
          rw [Finset.sum_const, Finset.card_univ, Fintype.card_fin, nsmul_eq_mul]; ring
    rw [hD, Matrix.sub_apply]
    exact (abs_sub _ _).trans (add_le_add b1 b2)
  rw [isUnit_iff_ne_zero, e1, Matrix.det_mul]
  refine mul_ne_zero ?_ (det_one_sub_ne_zero hDb hr)
  intro hdet
  have := congrArg Matrix.det hW
  rw [Matrix.det_mul, hdet, zero_mul, Matrix.det_one] at this
  exact zero_ne_one this

end Invertible

/-! ### Evaluation with a rounding function -/

namespace Invertible
variable {α : Type} [Field α] [LinearOrder α] [IsStrictOrderedRing α]

/-- the update of a dense factor with rate `b`, evaluated with a rounding function: plain loops, every operation rounded -/
def flFactor (fl : α → α) (n : ℕ) (b : α) (K M : Mat α) : Mat α :=
  Mat.ofFn n n fun i j => fl (K.get i j + fl (-b * flDot fl (K.terms M i j)))

/-- **C71 (evaluation).** The relation admits the evaluation with any rounding function (in particular rounding to nearest, see C70). -/
theorem C71_rounded_admits {u : α} (hu : 0 ≤ u) {fl : α → α} (hfl : ∀ x, Rnd u x (fl x)) {n : ℕ} {K M : Mat α} (hK : WF .dense n (.dense K))
    {h : Hyper α} {t : ℕ} {b : α} (hb : factorRate h t (.dense M) = .ok b) :
    FFactor u h t .dense n (.dense K) (.dense M) (.dense (flFactor fl n (fl b) K M)) := by
  have hc : K.cols = n := by cases hK; assumption
  refine ⟨.dense rfl rfl, fl b, .dense (Mat.ofFn n n fun i j => flDot fl (K.terms M i j)), ⟨b, fl b, hb, hfl b, Rnd.refl hu _⟩,
    ⟨.dense rfl rfl, .dense K, .dense M, Mat.ofFn n n fun i j => flDot fl (K.terms M i j), SM.Cast.refl hu _, SM.Cast.refl hu _, rfl, rfl, fun i hi j hj => ?_, fun i hi j hj => Rnd.refl hu _⟩,
    fun i hi j hj => ?_⟩
  · rw [Mat.get_ofFn, if_pos ⟨hi, hj⟩]
    exact flDot_dot hfl _ (by simp only [Mat.terms, List.length_map, List.length_range, SM.toDense]; omega)
  · simp only [SM.toDense]
    rw [Mat.get_ofFn, if_pos ⟨hi, hj⟩, flFactor, Mat.get_ofFn, if_pos ⟨hi, hj⟩]
    exact ⟨_, hfl _, hfl _⟩

/-- a rounded update of a `1 × 1` factor, satisfying the hypotheses of `C71_rounded_error`, `C71_rounded_triangular`, `C71_rounded_invertible` -/
example : ∃ (K M K' : SM ℝ) (h : Hyper ℝ), WF .dense 1 K ∧ WF .dense 1 M ∧ FFactor (1 / 256) h 0 .dense 1 K M K' ∧ K'.den 1 ≠ K.den 1 ∧
    FSteps (1 / 256) .dense 1 [(h, 0)] K K' ∧ Cls.dense.bw 1 ≤ 1 ∧ h.normalize = true ∧ |h.lrCov.at 0| * (1 + 1 / 256) ^ (4 * 1 + 10) ≤ (1 / 20 : ℝ) ∧
    K.den 1 * 1 = 1 ∧ (∀ i j, (absM (1 : Matrix (Fin 1) (Fin 1) ℝ) * absM (K.den 1)) i j ≤ 1) ∧
    (|h.lrCov.at 0| + ((1 + 1 / 256 : ℝ) ^ (4 * 1 + 11) - 1) * (1 * (1 + (1 : ℕ) * |h.lrCov.at 0|))) * (1 : ℕ) < 1 := by
  let I : Mat ℝ := Mat.ofFn 1 1 fun _ _ => 1
  let h : Hyper ℝ := { defaults (iargs : Args ℝ) with lrCov := .const (1 / 100) }
  have w : WF .dense 1 (.dense I) := .dense rfl rfl
  have d : (SM.dense I).den 1 = 1 := by
    ext i j
    rw [Subsingleton.elim i 0, Subsingleton.elim j 0]
    simp [SM.den, SM.toDense, Mat.M, I]
  obtain ⟨b, eb, hb⟩ := factorRate_den h 0 w one_pos
  have b1 : b = 1 / 100 := by
    have hno : h.normalize = true := rfl
    rw [IsRate, if_pos hno] at hb
    obtain ⟨v, ⟨⟨i, j, hv⟩, _⟩, rfl⟩ := hb
    rw [d, Subsingleton.elim i 0, Subsingleton.elim j 0] at hv
    simp at hv
    rw [hv]
    show (1 / 100 : ℝ) / max 1 1 = 1 / 100
    simp
  have f := C71_rounded_admits (u := (1 / 256 : ℝ)) (fl := id) (by norm_num) (fun x => Rnd.refl (by norm_num) x) w eb
  have hl : |h.lrCov.at 0| = 1 / 100 := abs_of_pos (by show (0 : ℝ) < 1 / 100; norm_num)
  refine ⟨_, _, _, h, w, w, f, ?_, .cons w f (.nil _), le_rfl, rfl, ?_, ?_, ?_, ?_⟩
  · rw [d]
    intro e
    have := congrFun (congrFun e 0) 0
    simp [SM.den, SM.toDense, Mat.M, flFactor, Mat.terms, flDot, I, b1, List.range_succ] at this
  · rw [hl]; norm_num
  · rw [d, one_mul]
  · intro i j
    rw [d, Matrix.mul_apply, Subsingleton.elim i 0, Subsingleton.elim j 0]
    simp [absM]
  · rw [hl]; norm_num

/-- a dense factor and a momentum, all entries `bfloat16` numbers -/
def bK : Mat ℚ := Mat.ofFn 2 2 fun i j => if j = 0 then 1 else if i = 0 then 3 / 2 else 3 / 2 + 1 / 128
def bM : Mat ℚ := Mat.ofFn 2 2 fun i j => if i = 0 ∧ j = 1 then -1 else 0
/-- `normalize_lr_cov` with `lr_cov = 159/256`, a `bfloat16` number -/
def bH : Hyper ℚ := { (defaults (Sample.gargs : Args ℚ)) with normalize := true, lrCov := .const (159 / 256) }

/-- **C71 (dense factors with rounding).** Dense factors can become singular by rounding: in `bfloat16` with rounding to nearest, an update of
an invertible dense factor, all of whose data are `bfloat16` numbers, yields a singular one, although the momentum is nilpotent and the exact
result `K (I - b M)` is invertible for every rate `b`. -/
theorem C71_rounded_singular : WF .dense 2 (.dense bK) ∧ WF .dense 2 (.dense bM) ∧ bH.normalize = true ∧
    (∀ i < 2, ∀ j < 2, flBin 8 (bK.get i j) = bK.get i j ∧ flBin 8 (bM.get i j) = bM.get i j) ∧ flBin 8 (bH.lrCov.at 0) = bH.lrCov.at 0 ∧
    (∀ b : ℚ, ((SM.dense bK).den 2 * (1 - b • (SM.dense bM).den 2)).det ≠ 0) ∧
    ∃ K', FFactor (2 ^ (-8 : ℤ)) bH 0 .dense 2 (.dense bK) (.dense bM) K' ∧ (K'.den 2).det = 0 := by
  have wK : WF .dense 2 (.dense bK) := .dense rfl rfl
  have wM : WF .dense 2 (.dense bM) := .dense rfl rfl
  have hb : factorRate bH 0 (.dense bM) = .ok (159 / 256) := by decide +kernel
  refine ⟨wK, wM, rfl, by decide +kernel, by decide +kernel, fun b => ?_, _,
    C71_rounded_admits (by positivity) (fun x => flBin_rnd 8 x) wK hb, ?_⟩
  · rw [Matrix.det_mul, Matrix.det_fin_two, Matrix.det_fin_two]
    simp [SM.den, SM.toDense, Mat.M, bK, bM]
  · have g : ∀ i < 2, ∀ j < 2, (flFactor (flBin 8) 2 (flBin 8 (159 / 256)) bK bM).get i j = if j = 0 then 1 else 17 / 8 := by decide +kernel
    rw [Matrix.det_fin_two]
    simp only [SM.den, SM.toDense, Mat.M]
    show (flFactor (flBin 8) 2 (flBin 8 (159 / 256)) bK bM).get 0 0 * (flFactor (flBin 8) 2 (flBin 8 (159 / 256)) bK bM).get 1 1 -
      (flFactor (flBin 8) 2 (flBin 8 (159 / 256)) bK bM).get 0 1 * (flFactor (flBin 8) 2 (flBin 8 (159 / 256)) bK bM).get 1 0 = 0
    rw [g 0 (by decide) 0 (by decide), g 1 (by decide) 1 (by decide), g 0 (by decide) 1 (by decide), g 1 (by decide) 0 (by decide)]
    norm_num
end Invertible
