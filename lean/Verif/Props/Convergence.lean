import Verif.Props.KFAC
import Verif.Proofs.FixedData
import Mathlib.Data.Nat.Nth
import Mathlib.Data.Real.StarOrdered

/-! C64: what the `kfac_like` factors do when the statistics are the same at every update. -/

set_option linter.unusedSectionVars false
open Matrix Construct Filter Topology

section
variable {α : Type} [Field α] [LinearOrder α] [IsStrictOrderedRing α] [LawfulSqrt α]

/-- the state after `t` rounds; round `t` consists of the operations `ops t` and a step -/
def World.rounds (ops : ℕ → List (Op α)) (attr : ℕ → Option α) (w : World α) : ℕ → World α
  | 0 => w
  | t + 1 => run (ops t ++ [.step false (attr t) false]) (World.rounds ops attr w t)

/-- Training in rounds, seen from layer `m` with hyper-parameters `h`: `kfac_like`, without factor momentum; between steps only forward and
backward passes, assignments of gradients and of the scale; no backward pass through `m` before steps that do not update the factors. -/
structure Passes (cl : String → Cls × Cls) (m : Layer) (h : Hyper α) (ops : ℕ → List (Op α)) (attr : ℕ → Option α) (w : World α) : Prop where
  live : w.Live cl
  fits : ∀ t, FitsRun (w.rounds ops attr t) (ops t ++ [.step false (attr t) false])
  quiet : ∀ t, ∀ op ∈ ops t, op.Quiet
  mem : m ∈ w.opt.layers
  hyper : w.opt.hyperOf m = .ok h
  fresh : w.opt.HKs m.name = none ∧ w.opt.HCs m.name = none
  kfac : h.kfacLike = true
  alpha : h.alpha1 = 0
  idle : ∀ t, (w.opt.steps + t) % h.T ≠ 0 → fired m.name (ops t) (w.rounds ops attr t) = []

/-- the same without `normalize_lr_cov` -/
structure Rounds (cl : String → Cls × Cls) (m : Layer) (h : Hyper α) (ops : ℕ → List (Op α)) (attr : ℕ → Option α) (w : World α) : Prop
    extends Passes cl m h ops attr w where
  norm : h.normalize = false

/-- a second moment as a factor of class `c` sees it: all of it, or its diagonal -/
def seen (c : Cls) {n : ℕ} (U : Matrix (Fin n) (Fin n) α) : Matrix (Fin n) (Fin n) α := if c = .dense then U else Matrix.diagonal fun i => U i i

theorem seen_eq {c : Cls} (hc : c = .dense ∨ c = .diagonal) {n : ℕ} (U : Matrix (Fin n) (Fin n) α) : seen c U = c.proj n U := by
  rcases hc with rfl | rfl
  · rw [seen, if_pos rfl, proj_dense]
  · rw [seen, if_neg (by simp), _root_.proj_diagonal]

theorem seen_add (c : Cls) {n : ℕ} (U V : Matrix (Fin n) (Fin n) α) : seen c (U + V) = seen c U + seen c V := by
  unfold seen; split
  · rfl
  · rw [diagonal_add]; rfl

theorem seen_smul (c : Cls) {n : ℕ} (s : α) (U : Matrix (Fin n) (Fin n) α) : seen c (s • U) = s • seen c U := by
  unfold seen; split
  · rfl
  · rw [← diagonal_smul]; rfl

theorem seen_sum {β : Type} (c : Cls) {n : ℕ} (f : β → Matrix (Fin n) (Fin n) α) : ∀ l : List β, (l.map fun e => seen c (f e)).sum = seen c (l.map f).sum
  | [] => by
    simp only [List.map_nil, List.sum_nil, seen]
    split
    · rfl
    · ext i j; by_cases e : i = j
      · subst e; simp
      · simp [e]
  | e :: l => by rw [List.map_cons, List.sum_cons, seen_sum c f l, List.map_cons, List.sum_cons, seen_add]

theorem proj_seen {β : Type} {c : Cls} (hc : c = .dense ∨ c = .diagonal) {n : ℕ} (f : β → Matrix (Fin n) (Fin n) α) (l : List β) :
    (l.map fun e => c.proj n (f e)).sum = seen c (l.map f).sum := by
  rw [← seen_sum]
  congr 2
  funext e
  rw [seen_eq hc]

/-- `K (1 − β/2 (KᵀSK − 1))` -/
def nextFactor {n : ℕ} (b : α) (S K : Matrix (Fin n) (Fin n) α) : Matrix (Fin n) (Fin n) α := K * (1 - (b / 2) • (Kᵀ * S * K - 1))

/-- the state between rounds -/
structure Between (cl : String → Cls × Cls) (m : Layer) (h : Hyper α) (t : ℕ) (w v : World α) : Prop where
  live : v.Live cl
  mem : m ∈ v.opt.layers
  hyper : v.opt.hyperOf m = .ok h
  fresh : v.opt.HKs m.name = none ∧ v.opt.HCs m.name = none
  steps : v.opt.steps = w.opt.steps + t

variable {cl : String → Cls × Cls} {m : Layer} {h : Hyper α} {ops : ℕ → List (Op α)} {attr : ℕ → Option α} {w : World α}

/-- the damped second moment of the inputs in round `t`, as the factor sees it -/
def roundK (c : Cls) (m : Layer) (h : Hyper α) (ops : ℕ → List (Op α)) (attr : ℕ → Option α) (w : World α) (t : ℕ) : Matrix (Fin m.nK) (Fin m.nK) α :=
  seen c ((fired m.name (ops t) (w.rounds ops attr t)).map fun e => inputMoment h m e.1).sum + h.damping • 1

/-- the damped second moment of the output gradients, divided by the scale, in round `t`, as the factor sees it -/
def roundC (c : Cls) (m : Layer) (h : Hyper α) (ops : ℕ → List (Op α)) (attr : ℕ → Option α) (w : World α) (t : ℕ) : Matrix (Fin m.nC) (Fin m.nC) α :=
  seen c ((1 / (run (ops t) (w.rounds ops attr t)).curScale (attr t) ^ 2) •
    ((fired m.name (ops t) (w.rounds ops attr t)).map fun e => gradMoment h m e.2).sum) + h.damping • 1

/-- one round -/
theorem Passes.round (R : Passes cl m h ops attr w) {t : ℕ} (B : Between cl m h t w (w.rounds ops attr t)) :
    Between cl m h (t + 1) w (w.rounds ops attr (t + 1)) ∧
    ((w.opt.steps + t) % h.T ≠ 0 → (w.rounds ops attr (t + 1)).opt.Ks m.name = (w.rounds ops attr t).opt.Ks m.name ∧
      (w.rounds ops attr (t + 1)).opt.Cs m.name = (w.rounds ops attr t).opt.Cs m.name) ∧
    ((w.opt.steps + t) % h.T = 0 →
      ((cl m.name).1 = .dense ∨ (cl m.name).1 = .diagonal → ∀ K S, K = denO ((w.rounds ops attr t).opt.Ks m.name) m.nK → S = roundK (cl m.name).1 m h ops attr w t →
        ∃ b, IsRate h (w.opt.steps + t) ((1 / 2 : α) • (Kᵀ * S * K - 1)) b ∧ denO ((w.rounds ops attr (t + 1)).opt.Ks m.name) m.nK = nextFactor b S K) ∧
      ((cl m.name).2 = .dense ∨ (cl m.name).2 = .diagonal → ∀ C S, C = denO ((w.rounds ops attr t).opt.Cs m.name) m.nC → S = roundC (cl m.name).2 m h ops attr w t →
        ∃ b, IsRate h (w.opt.steps + t) ((1 / 2 : α) • (Cᵀ * S * C - 1)) b ∧ denO ((w.rounds ops attr (t + 1)).opt.Cs m.name) m.nC = nextFactor b S C)) := by
  unfold roundK roundC
  generalize hv : w.rounds ops attr t = v at B
  have f := R.fits t
  rw [hv] at f
  obtain ⟨f1, f2, -⟩ := along_append.1 f
  have W := B.live.window f1 (R.quiet t)
  obtain ⟨v', e, sp, lv'⟩ := W.live.step f2
  have er : w.rounds ops attr (t + 1) = v' := by
    rw [World.rounds, hv, run_append, run_cons, e]; rfl
  rw [er]
  have hm' : m ∈ (run (ops t) v).opt.layers := by rw [W.layers]; exact B.mem
  have hh' : (run (ops t) v).opt.hyperOf m = .ok h := by rw [W.hyperOf]; exact B.hyper
  have L := sp.layer m hm' h hh'
  obtain ⟨p, hp⟩ := B.live.prev
  have p0 := (B.live.pos _ _ hp).ne'
  have St := W.stats m B.mem h p B.hyper hp
  have good := B.live.sound.good m B.mem
  have hs : (run (ops t) v).opt.steps = w.opt.steps + t := by rw [W.steps, B.steps]
  have nofire : (w.opt.steps + t) % h.T ≠ 0 → fired m.name (ops t) v = [] := by
    intro h1; have := R.idle t h1; rwa [hv] at this
  refine ⟨⟨lv', by rw [sp.layers]; exact hm', ?_, ?_, by rw [sp.steps, hs]; ring⟩, fun h1 => ?_, fun h1 => ?_⟩
  · have : v'.opt.hyperOf m = (run (ops t) v).opt.hyperOf m := by unfold Opt.hyperOf; rw [sp.ptrGroup, sp.groups]
    rw [this, hh']
  · by_cases h1 : (w.opt.steps + t) % h.T = 0
    · have U := L.upd (by rw [hs]; exact h1)
      exact ⟨U.HK, U.HC⟩
    · have s := L.noupd (by rw [hs]; exact h1)
      have g1 := St.HK0.2 ⟨B.fresh.1, nofire h1⟩
      have g2 := St.HC0.2 ⟨B.fresh.2, nofire h1⟩
      exact ⟨by rw [s.HKs]; exact g1, by rw [s.HCs]; exact g2⟩
  · have s := L.noupd (by rw [hs]; exact h1)
    exact ⟨by rw [s.Ks, W.Ks], by rw [s.Cs, W.Cs]⟩
  · obtain ⟨mK, mC, bK, bC, -, e2, e3, e4, e5, e6, e7⟩ := (L.upd (by rw [hs]; exact h1)).eqs
    rw [hs] at e4 e5
    rw [R.alpha, zero_smul, zero_add] at e2 e3
    have dS : dirScale h = 1 := by unfold dirScale; split <;> simp [R.alpha]
    constructor
    · rintro hc K S rfl rfl
      obtain ⟨A, eA, wA⟩ := (B.live.sound.lay m B.mem).K
      have cm : Commutes (cl m.name).1 (denO (v.opt.Ks m.name) m.nK) := by rw [eA]; exact commutes_of_wf hc wA
      have eH := St.HK
      rw [B.fresh.1, show denO (none : Option (SM α)) m.nK = 0 from rfl, zero_add, sum_commutes cm, proj_seen hc] at eH
      rw [dirK, dS, eH, W.Ks, updDir, cm, proj_one good.supK] at e2
      have e2' : mK = (1 / 2 : α) • ((denO (v.opt.Ks m.name) m.nK)ᵀ *
          (seen (cl m.name).1 ((fired m.name (ops t) v).map fun e => inputMoment h m e.1).sum + h.damping • 1) * denO (v.opt.Ks m.name) m.nK - 1) := by
        rw [e2]
        simp only [R.kfac, if_true, Matrix.mul_add, Matrix.add_mul, Matrix.mul_one, Matrix.mul_smul, Matrix.smul_mul, one_smul, mul_one, smul_smul]
      refine ⟨bK, by rw [← e2']; exact e4, ?_⟩
      rw [e6, e2', W.Ks, nextFactor, smul_smul]
      congr 3
      ring
    · rintro hc C S rfl rfl
      obtain ⟨A, eA, wA⟩ := (B.live.sound.lay m B.mem).C
      have cm : Commutes (cl m.name).2 (denO (v.opt.Cs m.name) m.nC) := by rw [eA]; exact commutes_of_wf hc wA
      have eH := St.HC
      rw [B.fresh.2, show denO (none : Option (SM α)) m.nC = 0 from rfl, zero_add, sum_commutes cm, proj_seen hc] at eH
      rw [dirC, dS, eH, W.Cs, updDir, cm, proj_one good.supC] at e3
      have eu : (run (ops t) v).unscale (attr t) = p * (1 / (run (ops t) v).curScale (attr t) ^ 2) := by
        rw [World.unscale, W.steps, W.prev, hp]
        simp only [Option.getD_some]
        field_simp
      have hpp : p * (1 / (run (ops t) v).curScale (attr t) ^ 2) * (1 / p) = 1 / (run (ops t) v).curScale (attr t) ^ 2 := by field_simp
      have e3' : mC = (1 / 2 : α) • ((denO (v.opt.Cs m.name) m.nC)ᵀ * (seen (cl m.name).2 ((1 / (run (ops t) v).curScale (attr t) ^ 2) •
          ((fired m.name (ops t) v).map fun e => gradMoment h m e.2).sum) + h.damping • 1) * denO (v.opt.Cs m.name) m.nC - 1) := by
        rw [e3, seen_smul, eu]
        simp only [R.kfac, if_true, Matrix.mul_add, Matrix.add_mul, Matrix.mul_one, Matrix.mul_smul, Matrix.smul_mul, one_smul, mul_one, smul_smul, hpp]
      refine ⟨bC, by rw [← e3']; exact e5, ?_⟩
      rw [e7, e3', W.Cs, nextFactor, smul_smul]
      congr 3
      ring

theorem Passes.between (R : Passes cl m h ops attr w) : ∀ t, Between cl m h t w (w.rounds ops attr t)
  | 0 => ⟨R.live, R.mem, R.hyper, R.fresh, rfl⟩
  | t + 1 => (R.round (R.between t)).1

/-- one round without `normalize_lr_cov` -/
theorem Rounds.round (R : Rounds cl m h ops attr w) {t : ℕ} (B : Between cl m h t w (w.rounds ops attr t)) :
    Between cl m h (t + 1) w (w.rounds ops attr (t + 1)) ∧
    ((w.opt.steps + t) % h.T ≠ 0 → (w.rounds ops attr (t + 1)).opt.Ks m.name = (w.rounds ops attr t).opt.Ks m.name ∧
      (w.rounds ops attr (t + 1)).opt.Cs m.name = (w.rounds ops attr t).opt.Cs m.name) ∧
    ((w.opt.steps + t) % h.T = 0 →
      ((cl m.name).1 = .dense ∨ (cl m.name).1 = .diagonal → denO ((w.rounds ops attr (t + 1)).opt.Ks m.name) m.nK =
        nextFactor (h.lrCov.at (w.opt.steps + t)) (roundK (cl m.name).1 m h ops attr w t) (denO ((w.rounds ops attr t).opt.Ks m.name) m.nK)) ∧
      ((cl m.name).2 = .dense ∨ (cl m.name).2 = .diagonal → denO ((w.rounds ops attr (t + 1)).opt.Cs m.name) m.nC =
        nextFactor (h.lrCov.at (w.opt.steps + t)) (roundC (cl m.name).2 m h ops attr w t) (denO ((w.rounds ops attr t).opt.Cs m.name) m.nC))) := by
  obtain ⟨h1, h2, h3⟩ := R.toPasses.round B
  refine ⟨h1, h2, fun h0 => ⟨fun hc => ?_, fun hc => ?_⟩⟩
  · obtain ⟨b, e1, e2⟩ := (h3 h0).1 hc _ _ rfl rfl
    rw [IsRate, if_neg (by simp [R.norm])] at e1
    rw [e2, e1]
  · obtain ⟨b, e1, e2⟩ := (h3 h0).2 hc _ _ rfl rfl
    rw [IsRate, if_neg (by simp [R.norm])] at e1
    rw [e2, e1]

theorem Rounds.between (R : Rounds cl m h ops attr w) : ∀ t, Between cl m h t w (w.rounds ops attr t) := R.toPasses.between

end

/-! Real numbers: limits -/

theorem secMom_psd (A : Mat ℝ) (n : ℕ) : (secMom A n).PosSemidef := by
  have e : secMom A n = (Matrix.of fun (r : Fin A.rows) (j : Fin n) => A.get r j)ᴴ * Matrix.of fun (r : Fin A.rows) (j : Fin n) => A.get r j := by
    ext i j
    rw [conjTranspose_eq_transpose_of_trivial, Matrix.mul_apply, secMom, Finset.sum_range]
    rfl
  rw [e]
  exact posSemidef_conjTranspose_mul_self _

theorem inputMoment_psd (h : Hyper ℝ) (m : Layer) (x : ND ℝ) : (inputMoment h m x).PosSemidef := by
  unfold inputMoment; split
  · exact secMom_psd _ _
  · exact PosSemidef.zero

theorem gradMoment_psd (h : Hyper ℝ) (m : Layer) (x : ND ℝ) : (gradMoment h m x).PosSemidef := by
  unfold gradMoment; split
  · exact secMom_psd _ _
  · exact PosSemidef.zero

theorem list_sum_psd {β : Type} {n : ℕ} (f : β → Matrix (Fin n) (Fin n) ℝ) (hf : ∀ e, (f e).PosSemidef) : ∀ l : List β, ((l.map f).sum).PosSemidef
  | [] => by rw [List.map_nil, List.sum_nil]; exact PosSemidef.zero
  | e :: l => by rw [List.map_cons, List.sum_cons]; exact (hf e).add (list_sum_psd f hf l)

theorem seen_psd (c : Cls) {n : ℕ} {U : Matrix (Fin n) (Fin n) ℝ} (h : U.PosSemidef) : (seen c U).PosSemidef := by
  unfold seen; split
  · exact h
  · exact PosSemidef.diagonal fun i => h.diag_nonneg

theorem damped_posDef (c : Cls) {n : ℕ} {U : Matrix (Fin n) (Fin n) ℝ} (h : U.PosSemidef) {d : ℝ} (d0 : 0 < d) : (seen c U + d • 1).PosDef :=
  PosDef.posSemidef_add (seen_psd c h) (PosDef.one.smul d0)

theorem seen_symm (c : Cls) {n : ℕ} {U : Matrix (Fin n) (Fin n) ℝ} (h : U.PosSemidef) (d : ℝ) : (seen c U + d • 1)ᵀ = seen c U + d • 1 := by
  have := (seen_psd c h).isHermitian
  rw [IsHermitian, conjTranspose_eq_transpose_of_trivial] at this
  rw [transpose_add, this, transpose_smul, transpose_one]

/-- number of updates among the first `t` steps -/
def updates (s T t : ℕ) : ℕ := Nat.count (fun i => (s + i) % T = 0) t

theorem updates_tendsto (s : ℕ) {T : ℕ} (hT : T ≠ 0) : Tendsto (updates s T) atTop atTop := by
  refine tendsto_atTop_atTop_of_monotone (Nat.count_monotone _) fun n => ?_
  refine ⟨Nat.nth (fun i => (s + i) % T = 0) n, (Nat.count_nth_of_infinite ?_ n).ge⟩
  refine Set.infinite_of_not_bddAbove fun ⟨B, hB⟩ => ?_
  have hp : s ≤ T * (B + 1 + s) := by nlinarith [Nat.pos_of_ne_zero hT]
  have hq : B + 1 + s ≤ T * (B + 1 + s) := by nlinarith [Nat.pos_of_ne_zero hT]
  have := hB (show (fun i => (s + i) % T = 0) (T * (B + 1 + s) - s) by
    show (s + (T * (B + 1 + s) - s)) % T = 0
    rw [Nat.add_sub_cancel' hp]; exact Nat.mul_mod_right _ _)
  omega

section
variable {cl : String → Cls × Cls} {m : Layer} {h : Hyper ℝ} {ops : ℕ → List (Op ℝ)} {attr : ℕ → Option ℝ} {w : World ℝ}

/-- the inputs of the layer have the same second moment `U` (summed over the backward passes) at every update -/
def SteadyK (m : Layer) (h : Hyper ℝ) (ops : ℕ → List (Op ℝ)) (attr : ℕ → Option ℝ) (w : World ℝ) (U : Matrix (Fin m.nK) (Fin m.nK) ℝ) : Prop :=
  ∀ t, (w.opt.steps + t) % h.T = 0 → ((fired m.name (ops t) (w.rounds ops attr t)).map fun e => inputMoment h m e.1).sum = U

/-- the output gradients of the layer, divided by the scale, have the same second moment `V` at every update -/
def SteadyC (m : Layer) (h : Hyper ℝ) (ops : ℕ → List (Op ℝ)) (attr : ℕ → Option ℝ) (w : World ℝ) (V : Matrix (Fin m.nC) (Fin m.nC) ℝ) : Prop :=
  ∀ t, (w.opt.steps + t) % h.T = 0 → (1 / (run (ops t) (w.rounds ops attr t)).curScale (attr t) ^ 2) •
    ((fired m.name (ops t) (w.rounds ops attr t)).map fun e => gradMoment h m e.2).sum = V

theorem updates_succ (s T t : ℕ) : updates s T (t + 1) = updates s T t + if (s + t) % T = 0 then 1 else 0 := Nat.count_succ _ _

theorem Rounds.factorK (R : Rounds cl m h ops attr w) (hc : (cl m.name).1 = .dense ∨ (cl m.name).1 = .diagonal) {b : ℝ} (hb : h.lrCov = .const b)
    {U : Matrix (Fin m.nK) (Fin m.nK) ℝ} (hU : SteadyK m h ops attr w U) (t : ℕ) : denO ((w.rounds ops attr t).opt.Ks m.name) m.nK =
      Verif.FixedData.seq b (seen (cl m.name).1 U + h.damping • 1) (denO (w.opt.Ks m.name) m.nK) (updates w.opt.steps h.T t) := by
  induction t with
  | zero => rfl
  | succ t ih =>
    obtain ⟨-, r1, r2⟩ := R.round (R.between t)
    rw [updates_succ]
    by_cases h1 : (w.opt.steps + t) % h.T = 0
    · rw [(r2 h1).1 hc, if_pos h1, roundK, hU t h1, ih, hb]; rfl
    · rw [(r1 h1).1, if_neg h1, ih]; rfl

theorem Rounds.factorC (R : Rounds cl m h ops attr w) (hc : (cl m.name).2 = .dense ∨ (cl m.name).2 = .diagonal) {b : ℝ} (hb : h.lrCov = .const b)
    {V : Matrix (Fin m.nC) (Fin m.nC) ℝ} (hV : SteadyC m h ops attr w V) (t : ℕ) : denO ((w.rounds ops attr t).opt.Cs m.name) m.nC =
      Verif.FixedData.seq b (seen (cl m.name).2 V + h.damping • 1) (denO (w.opt.Cs m.name) m.nC) (updates w.opt.steps h.T t) := by
  induction t with
  | zero => rfl
  | succ t ih =>
    obtain ⟨-, r1, r2⟩ := R.round (R.between t)
    rw [updates_succ]
    by_cases h1 : (w.opt.steps + t) % h.T = 0
    · rw [(r2 h1).2 hc, if_pos h1, roundC, hV t h1, ih, hb]; rfl
    · rw [(r1 h1).2, if_neg h1, ih]; rfl

theorem Rounds.T_ne (R : Rounds cl m h ops attr w) : h.T ≠ 0 := by
  obtain ⟨h', e, hT⟩ := R.live.sound.hyper m R.mem
  rw [R.hyper] at e; cases e
  exact hT

theorem SteadyK.psd {U : Matrix (Fin m.nK) (Fin m.nK) ℝ} (hU : SteadyK m h ops attr w U) (hT : h.T ≠ 0) : U.PosSemidef := by
  obtain ⟨t, ht⟩ : ∃ t, (w.opt.steps + t) % h.T = 0 := by
    refine ⟨h.T * w.opt.steps - w.opt.steps, ?_⟩
    rw [Nat.add_sub_cancel' (Nat.le_mul_of_pos_left _ (Nat.pos_of_ne_zero hT))]
    exact Nat.mul_mod_right _ _
  have := list_sum_psd (fun e : ND ℝ × ND ℝ => inputMoment h m e.1) (fun e => inputMoment_psd h m e.1) (fired m.name (ops t) (w.rounds ops attr t))
  rwa [hU t ht] at this

theorem SteadyC.psd {V : Matrix (Fin m.nC) (Fin m.nC) ℝ} (hV : SteadyC m h ops attr w V) (hT : h.T ≠ 0) : V.PosSemidef := by
  obtain ⟨t, ht⟩ : ∃ t, (w.opt.steps + t) % h.T = 0 := by
    refine ⟨h.T * w.opt.steps - w.opt.steps, ?_⟩
    rw [Nat.add_sub_cancel' (Nat.le_mul_of_pos_left _ (Nat.pos_of_ne_zero hT))]
    exact Nat.mul_mod_right _ _
  have := (list_sum_psd (fun e : ND ℝ × ND ℝ => gradMoment h m e.2) (fun e => gradMoment_psd h m e.2) (fired m.name (ops t) (w.rounds ops attr t))).smul
    (show (0 : ℝ) ≤ 1 / (run (ops t) (w.rounds ops attr t)).curScale (attr t) ^ 2 by positivity)
  rwa [hV t ht] at this

/-- The claims about one factor `K t` after `t` steps of which `N t` were updates; `S` is the damped second moment, `b = lr_cov`, `d` the damping.
`y` and `v` are eigenvalues and eigenvectors of `K₀ᵀ S K₀`. -/
structure SteadyFactor {n : ℕ} (b d : ℝ) (S : Matrix (Fin n) (Fin n) ℝ) (N : ℕ → ℕ) (K : ℕ → Matrix (Fin n) (Fin n) ℝ) : Prop where
  /-- all eigenvalues below `1 + 2/b`: convergence to a root of the inverse -/
  converges : 0 < d → IsUnit (K 0).det → ((1 + 2 / b) • (1 : Matrix (Fin n) (Fin n) ℝ) - (K 0)ᵀ * S * K 0).PosDef →
    ∃ L, Tendsto K atTop (𝓝 L) ∧ L * Lᵀ = S⁻¹
  /-- bounded exactly if no eigenvalue is above `1 + 4/b` -/
  bounded_iff : 0 < d → IsUnit (K 0).det → ((∃ B, ∀ t i j, |K t i j| ≤ B) ↔ ∀ x, x ⬝ᵥ ((K 0)ᵀ * S * K 0) *ᵥ x ≤ (1 + 4 / b) * (x ⬝ᵥ x))
  /-- an eigenvalue above `1 + 4/b`: the norm tends to infinity -/
  diverges : ∀ y v, ((K 0)ᵀ * S * K 0) *ᵥ v = y • v → v ≠ 0 → 1 + 4 / b < y → Tendsto (fun t => ∑ i, ∑ j, K t i j ^ 2) atTop atTop
  /-- eigenvalue `1 + 4/b`: every update changes the sign -/
  flips : ∀ v, ((K 0)ᵀ * S * K 0) *ᵥ v = (1 + 4 / b) • v → ∀ t, K t *ᵥ v = (-1 : ℝ) ^ N t • K 0 *ᵥ v
  /-- eigenvalue between 0 and `1 + 4/b`: convergence up to sign, or the direction is lost for ever -/
  mode : ∀ y v, ((K 0)ᵀ * S * K 0) *ᵥ v = y • v → 0 < y → y < 1 + 4 / b →
    (∀ᶠ t in atTop, K t *ᵥ v = 0) ∨ Tendsto (fun t => K t *ᵥ v) atTop (𝓝 ((√y)⁻¹ • K 0 *ᵥ v)) ∨
      Tendsto (fun t => K t *ᵥ v) atTop (𝓝 (-(√y)⁻¹ • K 0 *ᵥ v))
  /-- eigenvalue between 0 and `1 + 2/b`: convergence -/
  stable : ∀ y v, ((K 0)ᵀ * S * K 0) *ᵥ v = y • v → 0 < y → y < 1 + 2 / b → Tendsto (fun t => K t *ᵥ v) atTop (𝓝 ((√y)⁻¹ • K 0 *ᵥ v))
  /-- eigenvalue `1 + 2/b`: the first update makes the factor singular -/
  dies : ∀ v, ((K 0)ᵀ * S * K 0) *ᵥ v = (1 + 2 / b) • v → ∀ t, 0 < N t → K t *ᵥ v = 0
  /-- eigenvalue 0 (possible without damping): geometric growth -/
  unseen : ∀ v, ((K 0)ᵀ * S * K 0) *ᵥ v = 0 → ∀ t, K t *ᵥ v = (1 + b / 2) ^ N t • K 0 *ᵥ v

open Verif.FixedData in
theorem steadyFactor {n : ℕ} {b d : ℝ} (b0 : 0 < b) (b1 : b ≤ 1) {S K0 : Matrix (Fin n) (Fin n) ℝ} (hS : Sᵀ = S) (hp : 0 < d → S.PosDef) {N : ℕ → ℕ}
    (hN : Tendsto N atTop atTop) (N0 : N 0 = 0) (hN' : ∀ k, ∃ t, N t = k) : SteadyFactor b d S N fun t => seq b S K0 (N t) := by
  have R := seq_rec b S K0
  have s0 : seq b S K0 (N 0) = seq b S K0 0 := by rw [N0]
  refine ⟨fun d0 hK hy => ?_, fun d0 hK => ?_, fun y v hv v0 hy => ?_, fun v hv t => ?_, fun y v hv y0 y1 => ?_, fun y v hv y0 y1 => ?_, fun v hv t ht => ?_,
    fun v hv t => ?_⟩
  · obtain ⟨L, h1, h2⟩ := R.tendsto b0 b1 (hp d0) (by rwa [s0] at hK) (by rwa [s0] at hy)
    exact ⟨L, h1.comp hN, h2⟩
  · rw [s0] at hK ⊢
    rw [← R.bounded_iff b0 b1 (hp d0) hK]
    constructor
    · rintro ⟨B, hB⟩
      refine ⟨B, fun k i j => ?_⟩
      obtain ⟨t, rfl⟩ := hN' k
      exact hB t i j
    · rintro ⟨B, hB⟩
      exact ⟨B, fun t i j => hB _ i j⟩
  · rw [s0] at hv
    exact (R.diverges b0 hS hv v0 hy).comp hN
  · rw [s0] at hv ⊢
    rw [(R.eigen hS hv _).1, orbit_cycle b0]
  · rw [s0] at hv ⊢
    have e : (fun t => seq b S K0 (N t) *ᵥ v) = fun t => orbit b y (N t) • (seq b S K0 0 *ᵥ v) := funext fun t => (R.eigen hS hv (N t)).1
    rw [e]
    rcases orbit_mid b0 b1 y0 y1 with ⟨M, hM⟩ | h | h
    · left
      filter_upwards [hN.eventually_ge_atTop M] with t ht
      rw [(R.eigen hS hv (N t)).1, hM _ ht, zero_smul]
    · exact Or.inr (Or.inl ((h.comp hN).smul_const _))
    · exact Or.inr (Or.inr ((h.comp hN).smul_const _))
  · rw [s0] at hv ⊢
    rw [funext fun t => (R.eigen hS hv (N t)).1]
    exact ((orbit_tendsto b0 b1 y0 y1).comp hN).smul_const _
  · rw [s0] at hv
    rw [(R.eigen hS hv _).1]
    obtain ⟨k, hk⟩ := Nat.exists_eq_succ_of_ne_zero ht.ne'
    rw [hk, orbit_hit b0, zero_smul]
  · rw [s0] at hv ⊢
    rw [(R.eigen hS (y := 0) (by rw [hv, zero_smul]) _).1, orbit_zero]

theorem updates_surj (s : ℕ) {T : ℕ} (hT : T ≠ 0) (k : ℕ) : ∃ t, updates s T t = k := by
  refine ⟨Nat.nth (fun i => (s + i) % T = 0) k, Nat.count_nth_of_infinite ?_ k⟩
  intro hf
  obtain ⟨B, hB⟩ := hf.bddAbove
  have hp : s ≤ T * (B + 1 + s) := by nlinarith [Nat.pos_of_ne_zero hT]
  have hq : B + 1 + s ≤ T * (B + 1 + s) := by nlinarith [Nat.pos_of_ne_zero hT]
  have := hB (show (fun i => (s + i) % T = 0) (T * (B + 1 + s) - s) by
    show (s + (T * (B + 1 + s) - s)) % T = 0
    rw [Nat.add_sub_cancel' hp]; exact Nat.mul_mod_right _ _)
  omega

/-- **C64 (input factor).** Training in rounds with `kfac_like`, a dense or diagonal input factor, constant `0 < lr_cov ≤ 1`, and inputs that have the
same second moment `U` at every update (the parameters, gradients and everything else may change): the behaviour of `K` for all times, from any
start, direction by direction (`SteadyFactor`). -/
theorem C64_input (R : Rounds cl m h ops attr w) (hc : (cl m.name).1 = .dense ∨ (cl m.name).1 = .diagonal) {b : ℝ} (hb : h.lrCov = .const b) (b0 : 0 < b)
    (b1 : b ≤ 1) {U : Matrix (Fin m.nK) (Fin m.nK) ℝ} (hU : SteadyK m h ops attr w U) :
    SteadyFactor b h.damping (seen (cl m.name).1 U + h.damping • 1) (updates w.opt.steps h.T) fun t => denO ((w.rounds ops attr t).opt.Ks m.name) m.nK := by
  rw [funext (R.factorK hc hb hU)]
  have ps := hU.psd R.T_ne
  exact steadyFactor b0 b1 (seen_symm _ ps _) (fun d0 => damped_posDef _ ps d0) (updates_tendsto _ R.T_ne) (Nat.count_zero _) (updates_surj _ R.T_ne)

/-- **C64 (output factor).** The same for `C` and the output gradients divided by the scale. -/
theorem C64_output (R : Rounds cl m h ops attr w) (hc : (cl m.name).2 = .dense ∨ (cl m.name).2 = .diagonal) {b : ℝ} (hb : h.lrCov = .const b) (b0 : 0 < b)
    (b1 : b ≤ 1) {V : Matrix (Fin m.nC) (Fin m.nC) ℝ} (hV : SteadyC m h ops attr w V) :
    SteadyFactor b h.damping (seen (cl m.name).2 V + h.damping • 1) (updates w.opt.steps h.T) fun t => denO ((w.rounds ops attr t).opt.Cs m.name) m.nC := by
  rw [funext (R.factorC hc hb hV)]
  have ps := hV.psd R.T_ne
  exact steadyFactor b0 b1 (seen_symm _ ps _) (fun d0 => damped_posDef _ ps d0) (updates_tendsto _ R.T_ne) (Nat.count_zero _) (updates_surj _ R.T_ne)

end

/-! From construction, and stationary factors -/

section
variable {α : Type} [Field α] [LinearOrder α] [IsStrictOrderedRing α] [LawfulSqrt α]

/-- the factors of a constructed optimizer are identities -/
theorem Construct.InitSpec.identity {structs : String → Option Cls} {model : Model} {p : ParamArg α} {a : Args α} {o : Opt α} {ws : List Warn}
    (I : InitSpec structs model p a o ws) {data : ℕ → Mat α} (ht : Trainable o data) {m : Layer} (hm : m ∈ o.layers) :
    denO (o.Ks m.name) m.nK = 1 ∧ denO (o.Cs m.name) m.nC = 1 := by
  obtain ⟨hy, cK, cC, K, C, e1, e2, e3, eK, eC, sK, sC, m0, m1⟩ := (I.lay m hm).ex
  obtain ⟨g1, _, g3, _⟩ := ht.cls m hm hy _ _ e1 e2 e3
  obtain ⟨K', eK', _, dK⟩ := (C12_eye_zeros (α := α) g1).1
  obtain ⟨C', eC', _, dC⟩ := (C12_eye_zeros (α := α) g3).1
  rw [eK] at eK'; cases eK'
  rw [eC] at eC'; cases eC'
  rw [sK, sC, denO_some, denO_some]; exact ⟨dK, dC⟩

theorem nextFactor_fixed {n : ℕ} {b : α} {S K : Matrix (Fin n) (Fin n) α} (hb : b ≠ 0) (hK : IsUnit K.det) : nextFactor b S K = K ↔ K * Kᵀ * S = 1 := by
  have e : nextFactor b S K = K ↔ Kᵀ * S * K = 1 := by
    constructor
    · intro h
      rw [nextFactor, Matrix.mul_sub, Matrix.mul_one, sub_eq_self] at h
      have := congrArg (K⁻¹ * ·) h
      simp only [Matrix.mul_zero] at this
      rw [← Matrix.mul_assoc, nonsing_inv_mul _ hK, Matrix.one_mul, smul_eq_zero] at this
      exact sub_eq_zero.1 (this.resolve_left (div_ne_zero hb two_ne_zero))
    · intro h
      rw [nextFactor, h]; simp
  rw [e, mul_eq_one_comm, Matrix.mul_assoc K, mul_eq_one_comm (a := K), ]

variable {cl : String → Cls × Cls} {m : Layer} {h : Hyper α} {ops : ℕ → List (Op α)} {attr : ℕ → Option α} {w : World α}

/-- **C64 (stationary factors).** In a round that updates the factors, an invertible input factor stays as it is exactly if `K Kᵀ` is the
inverse of the damped second moment of the round's inputs; the same for the output factor. -/
theorem C64_stationary (R : Rounds cl m h ops attr w) (t : ℕ) (hu : (w.opt.steps + t) % h.T = 0) {b : α} (hb : h.lrCov = .const b) (b0 : b ≠ 0) :
    ((cl m.name).1 = .dense ∨ (cl m.name).1 = .diagonal → ∀ K, K = denO ((w.rounds ops attr t).opt.Ks m.name) m.nK → IsUnit K.det →
      (denO ((w.rounds ops attr (t + 1)).opt.Ks m.name) m.nK = K ↔
        K * Kᵀ * (seen (cl m.name).1 ((fired m.name (ops t) (w.rounds ops attr t)).map fun e => inputMoment h m e.1).sum + h.damping • 1) = 1)) ∧
    ((cl m.name).2 = .dense ∨ (cl m.name).2 = .diagonal → ∀ C, C = denO ((w.rounds ops attr t).opt.Cs m.name) m.nC → IsUnit C.det →
      (denO ((w.rounds ops attr (t + 1)).opt.Cs m.name) m.nC = C ↔
        C * Cᵀ * (seen (cl m.name).2 ((1 / (run (ops t) (w.rounds ops attr t)).curScale (attr t) ^ 2) •
          ((fired m.name (ops t) (w.rounds ops attr t)).map fun e => gradMoment h m e.2).sum) + h.damping • 1) = 1)) := by
  obtain ⟨-, -, r⟩ := R.round (R.between t)
  obtain ⟨rK, rC⟩ := r hu
  constructor
  · rintro hc K rfl hK
    rw [rK hc, hb]; exact nextFactor_fixed b0 hK
  · rintro hc C rfl hC
    rw [rC hc, hb]; exact nextFactor_fixed b0 hC

end

/-- **C64 (from construction).** For a constructed optimizer (identity factors), positive damping and `0 < lr_cov ≤ 1`: if the inputs have the
same second moment `U` at every update, then with `S = U + damping` (for a diagonal factor, its diagonal) `K` converges with `K Kᵀ → S⁻¹` if all
eigenvalues of `S` are below `1 + 2 / lr_cov`, and `K` stays bounded if and only if none is above `1 + 4 / lr_cov`. The same for `C`. -/
theorem C64_from_construction {structs : String → Option Cls} {model : Model} {p : ParamArg ℝ} {a : Args ℝ} {o : Opt ℝ} {ws : List Warn}
    (hn : (model.layers.map (·.name)).Nodup) (hi : Construct.init structs model p a = .ok (o, ws)) {data : ℕ → Mat ℝ} {grad : ℕ → Option (Mat ℝ)}
    (ht : Trainable o data) {cl : String → Cls × Cls} {m : Layer} {h : Hyper ℝ} {ops : ℕ → List (Op ℝ)} {attr : ℕ → Option ℝ} {w : World ℝ}
    (hw : w = ⟨o, data, grad, []⟩) (R : Rounds cl m h ops attr w) {b : ℝ} (hb : h.lrCov = .const b) (b0 : 0 < b) (b1 : b ≤ 1) (d0 : 0 < h.damping) :
    ((cl m.name).1 = .dense ∨ (cl m.name).1 = .diagonal → ∀ U S, SteadyK m h ops attr w U → S = seen (cl m.name).1 U + h.damping • 1 →
      (((1 + 2 / b) • (1 : Matrix (Fin m.nK) (Fin m.nK) ℝ) - S).PosDef →
        ∃ L, Tendsto (fun t => denO ((w.rounds ops attr t).opt.Ks m.name) m.nK) atTop (𝓝 L) ∧ L * Lᵀ = S⁻¹) ∧
      ((∃ B, ∀ t i j, |denO ((w.rounds ops attr t).opt.Ks m.name) m.nK i j| ≤ B) ↔ ∀ x, x ⬝ᵥ S *ᵥ x ≤ (1 + 4 / b) * (x ⬝ᵥ x))) ∧
    ((cl m.name).2 = .dense ∨ (cl m.name).2 = .diagonal → ∀ V S, SteadyC m h ops attr w V → S = seen (cl m.name).2 V + h.damping • 1 →
      (((1 + 2 / b) • (1 : Matrix (Fin m.nC) (Fin m.nC) ℝ) - S).PosDef →
        ∃ L, Tendsto (fun t => denO ((w.rounds ops attr t).opt.Cs m.name) m.nC) atTop (𝓝 L) ∧ L * Lᵀ = S⁻¹) ∧
      ((∃ B, ∀ t i j, |denO ((w.rounds ops attr t).opt.Cs m.name) m.nC i j| ≤ B) ↔ ∀ x, x ⬝ᵥ S *ᵥ x ≤ (1 + 4 / b) * (x ⬝ᵥ x))) := by
  obtain ⟨i1, i2⟩ := (init_ok hn hi).identity ht (by have := R.mem; rw [hw] at this; exact this)
  constructor
  · rintro hc U S hU rfl
    have F := C64_input R hc hb b0 b1 hU
    have k0 : denO ((w.rounds ops attr 0).opt.Ks m.name) m.nK = 1 := by rw [World.rounds, hw]; exact i1
    have c := F.converges d0 (by rw [k0, det_one]; exact isUnit_one)
    have e := F.bounded_iff d0 (by rw [k0, det_one]; exact isUnit_one)
    rw [k0, transpose_one, Matrix.one_mul, Matrix.mul_one] at c e
    exact ⟨c, e⟩
  · rintro hc V S hV rfl
    have F := C64_output R hc hb b0 b1 hV
    have k0 : denO ((w.rounds ops attr 0).opt.Cs m.name) m.nC = 1 := by rw [World.rounds, hw]; exact i2
    have c := F.converges d0 (by rw [k0, det_one]; exact isUnit_one)
    have e := F.bounded_iff d0 (by rw [k0, det_one]; exact isUnit_one)
    rw [k0, transpose_one, Matrix.one_mul, Matrix.mul_one] at c e
    exact ⟨c, e⟩

namespace Sample
section
variable {α : Type} [Field α] [LinearOrder α] [IsStrictOrderedRing α] [LawfulSqrt α]

/-- `kfac_like` arguments, an update at every step -/
def steadyArgs : Args α := { gargs with alpha1 := .float 0, kfacLike := true, T := 1 }

/-- the first layer always sees the inputs `x` -/
def steadyOps (x : ND α) (t : ℕ) : List (Op α) := bpass (2 * t) x (batch 2 2) (batch 2 1) (batch 2 1)

/-- the state between rounds of the sample -/
structure SteadyInv (cl : String → Cls × Cls) (h : Hyper α) (t : ℕ) (v : World α) : Prop where
  live : v.Live cl
  layers : v.opt.layers = [la, lb]
  hyper : ∀ m ∈ v.opt.layers, v.opt.hyperOf m = .ok h
  hooks : v.hooks.length = 2 * t
  grad : v.grad = ggrad
  scales : ∀ i : ℤ, v.opt.steps ≤ i → v.opt.scales i = none
  steps : v.opt.steps = t

theorem steady_round {cl : String → Cls × Cls} {h : Hyper α} (hT : h.T = 1) {t : ℕ} {v : World α} (J : SteadyInv cl h t v) {x : ND α} (hx : x.shape = [2, 1]) :
    FitsRun v (steadyOps x t ++ [.step false none false]) ∧ SteadyInv cl h (t + 1) (run (steadyOps x t ++ [.step false none false]) v) ∧
      fired "a" (steadyOps x t) v = [(x, batch 2 1)] ∧ (run (steadyOps x t) v).curScale none = 1 := by
  have hu : ∀ m ∈ v.opt.layers, ∃ h, v.opt.hyperOf m = .ok h ∧ v.opt.steps % h.T = 0 := fun m hm => ⟨h, J.hyper m hm, by rw [hT, Nat.mod_one]⟩
  obtain ⟨p1, p2, p3, p4, p5, p6⟩ := bpass_states J.live J.layers hu (n := 2 * t) (b := 2) (x0 := x) (x1 := batch 2 2) (g0 := batch 2 1)
    (g1 := batch 2 1) J.hooks (by decide) hx rfl rfl rfl
  have W := J.live.window p1 bpass_quiet
  have st : ∀ m ∈ v.opt.layers, (run (steadyOps x t) v).opt.HKs m.name ≠ none ∧ (run (steadyOps x t) v).opt.HCs m.name ≠ none := by
    intro m hm
    obtain ⟨p, hp⟩ := J.live.prev
    have S := W.stats m hm h p (J.hyper m hm) hp
    have : fired m.name (steadyOps x t) v ≠ [] := by
      rw [J.layers] at hm
      simp only [List.mem_cons, List.not_mem_nil, or_false] at hm
      rcases hm with rfl | rfl
      · rw [show fired la.name (steadyOps x t) v = _ from p5]; simp
      · rw [show fired lb.name (steadyOps x t) v = _ from p6]; simp
    exact ⟨fun e => this (S.HK0.1 e).2, fun e => this (S.HC0.1 e).2⟩
  have F : FitsOp (run (steadyOps x t) v) (.step false none false) := fits_step W.live (W.layers.trans J.layers) (p3.trans J.grad) fun m hm =>
    st m (by have e : (run (steadyOps x t) v).opt.layers = _ := W.layers; rw [e] at hm; exact hm)
  obtain ⟨v', e, sp, lv⟩ := World.Live.step (show (run (steadyOps x t) v).Live cl from W.live) F
  have er : run (steadyOps x t ++ [.step false none false]) v = v' := by rw [run_append, run_cons, e]; rfl
  have es : (run (steadyOps x t) v).opt.steps = t := W.steps.trans J.steps
  have esc : (run (steadyOps x t) v).opt.scales = v.opt.scales := p4
  refine ⟨along_append.2 ⟨p1, F, trivial⟩, ?_, p5, ?_⟩
  · rw [er]
    refine ⟨lv, sp.layers.trans (W.layers.trans J.layers), fun m hm => ?_, ?_, sp.grad.trans (p3.trans J.grad), fun i hi => ?_, by rw [sp.steps, es]⟩
    · have e1 : v'.opt.hyperOf m = (run (steadyOps x t) v).opt.hyperOf m := by unfold Opt.hyperOf; rw [sp.ptrGroup, sp.groups]
      rw [e1, show (run (steadyOps x t) v).opt.hyperOf m = _ from W.hyperOf m]
      exact J.hyper m (by rw [sp.layers] at hm; rwa [show (run (steadyOps x t) v).opt.layers = _ from W.layers] at hm)
    · rw [sp.hooks, show (run (steadyOps x t) v).hooks.length = _ from p2]; ring
    · rw [sp.steps, es] at hi
      push_cast at hi
      rw [sp.scales, es, if_neg (by omega), if_neg (by omega), esc]
      exact J.scales i (by rw [J.steps]; omega)
  · rw [World.curScale, es, esc, J.scales _ (by rw [J.steps])]; rfl

theorem steady_inv {cl : String → Cls × Cls} {h : Hyper α} (hT : h.T = 1) {w : World α} (J : SteadyInv cl h 0 w) {x : ND α} (hx : x.shape = [2, 1]) :
    ∀ t, SteadyInv cl h t (w.rounds (steadyOps x) (fun _ => none) t)
  | 0 => J
  | t + 1 => (steady_round hT (steady_inv hT J hx t) hx).2.1

/-- a training that is as C64 asks -/
theorem steady {x : ND α} (hx : x.shape = [2, 1]) : ∃ (o : Opt α) (ws : List Warn) (cl : String → Cls × Cls),
    Construct.init supportedStructures model .default steadyArgs = .ok (o, ws) ∧ Trainable o gdata ∧
    Rounds cl la (defaults steadyArgs) (steadyOps x) (fun _ => none) ⟨o, gdata, ggrad, []⟩ ∧ cl la.name = (.dense, .diagonal) ∧ o.steps = 0 ∧
    ∀ t, fired la.name (steadyOps x t) (World.rounds (steadyOps x) (fun _ => none) ⟨o, gdata, ggrad, []⟩ t) = [(x, batch 2 1)] ∧
      (run (steadyOps x t) (World.rounds (steadyOps x) (fun _ => none) ⟨o, gdata, ggrad, []⟩ t)).curScale none = 1 := by
  have h2 : ¬ ((2⁻¹ : α) < 0) := by simp
  obtain ⟨o, ws, hi, hl, hh, ht⟩ := Sample.glive_init' (a := steadyArgs (α := α))
    (by simp [validate, steadyArgs, Sample.gargs, PyNum.rejected, PyRate.rejected, h2]) rfl rfl ⟨Or.inl rfl, Or.inr (Or.inl rfl)⟩
    (by simp [checked, defaults, steadyArgs, Sample.gargs, PyNum.val]) (show (1 : ℕ) ≠ 0 by decide)
  have I := init_ok (by decide) hi
  obtain ⟨cl, hcl, lv⟩ := I.live (grad := Sample.ggrad) ht one_pos
  have hla : la ∈ o.layers := by rw [hl]; simp
  have J : SteadyInv cl (defaults steadyArgs) 0 ⟨o, gdata, ggrad, []⟩ := ⟨lv, hl, hh, rfl, rfl, fun i hi => by
    show o.scales i = none
    rw [I.scales]
    rw [show (⟨o, gdata, ggrad, []⟩ : World α).opt.steps = 0 from I.steps] at hi
    have : i ≠ -1 := fun e => by rw [e] at hi; simp at hi
    simp [Dict.set, this], I.steps⟩
  have JJ := steady_inv rfl J hx
  have RR := fun t => steady_round rfl (JJ t) hx
  refine ⟨o, ws, cl, hi, ht, ⟨⟨lv, fun t => (RR t).1, fun t => bpass_quiet, hla, hh la hla, ⟨by show o.HKs _ = _; rw [I.HKs], by show o.HCs _ = _; rw [I.HCs]⟩, rfl,
    rfl, fun t ht => absurd (Nat.mod_one _) ht⟩, rfl⟩, ?_, I.steps, fun t => ⟨(RR t).2.2.1, (RR t).2.2.2⟩⟩
  obtain ⟨hy, e1, e2, e3⟩ := hcl la hla
  rw [show (⟨o, gdata, ggrad, []⟩ : World α).opt.hyperOf la = _ from hh la hla] at e1
  cases e1
  have e2' : supportedStructures "dense" = some (cl la.name).1 := e2
  have e3' : supportedStructures "diagonal" = some (cl la.name).2 := e3
  exact Prod.ext (Option.some.inj e2').symm (Option.some.inj e3').symm

end
end Sample

theorem Sample.quad_add (A : Matrix (Fin 2) (Fin 2) ℝ) (x : Fin 2 → ℝ) (d : ℝ) :
    x ⬝ᵥ (A + d • 1) *ᵥ x = A 0 0 * x 0 ^ 2 + (A 0 1 + A 1 0) * x 0 * x 1 + A 1 1 * x 1 ^ 2 + d * (x 0 ^ 2 + x 1 ^ 2) := by
  simp only [dotProduct, mulVec, Fin.sum_univ_two, Matrix.add_apply, Matrix.smul_apply]
  simp
  ring

theorem Sample.quad_sub (A : Matrix (Fin 2) (Fin 2) ℝ) (x : Fin 2 → ℝ) (c d : ℝ) :
    x ⬝ᵥ (c • 1 - (A + d • 1)) *ᵥ x = c * (x 0 ^ 2 + x 1 ^ 2) - (A 0 0 * x 0 ^ 2 + (A 0 1 + A 1 0) * x 0 * x 1 + A 1 1 * x 1 ^ 2 + d * (x 0 ^ 2 + x 1 ^ 2)) := by
  rw [sub_mulVec, dotProduct_sub, Sample.quad_add]
  simp only [dotProduct, mulVec, Fin.sum_univ_two, Matrix.smul_apply]
  simp
  ring

/-- inputs `c`, `2c` -/
def Sample.hot (c : ℝ) : ND ℝ := ⟨[2, 1], fun i => c * (i + 1)⟩

open IOSpec IOProof PIO in
/-- their second moment, with the column of ones of the bias -/
theorem Sample.hot_moment (c : ℝ) : ∀ i j : Fin 2, inputMoment (defaults Sample.steadyArgs) Sample.la (Sample.hot c) i j =
    if i = 0 then if j = 0 then 5 / 2 * c ^ 2 else 3 / 2 * c else if j = 0 then 3 / 2 * c else 1 := by
  obtain ⟨X, e, hr, hc, hX⟩ := (C20_linear_input (Sample.hot c) (b := 2) (d := 1) (sh := []) rfl true).1
  have e' : inputMoment (defaults Sample.steadyArgs) Sample.la (Sample.hot c) = secMom X Sample.la.nK := by
    unfold inputMoment
    show (match processInput (Sample.hot c) .linear true "expand" with | .ok a => secMom a Sample.la.nK | .error _ => 0) = _
    rw [e]
  intro i j
  rw [e']
  show secMom X 2 i j = _
  simp only [secMom, hX]
  fin_cases i <;> fin_cases j <;> simp [Finset.sum_range_succ, withBias, sumIdx, multiIdx, entry, Sample.hot, ravel]
  all_goals ring

theorem Sample.hot_steady (c : ℝ) {o : Opt ℝ} (hs : ∀ t, fired Sample.la.name (Sample.steadyOps (Sample.hot c) t)
    (World.rounds (Sample.steadyOps (Sample.hot c)) (fun _ => none) ⟨o, Sample.gdata, Sample.ggrad, []⟩ t) = [(Sample.hot c, Sample.batch 2 1)]) :
    SteadyK Sample.la (defaults Sample.steadyArgs) (Sample.steadyOps (Sample.hot c)) (fun _ => none) ⟨o, Sample.gdata, Sample.ggrad, []⟩
      (inputMoment (defaults Sample.steadyArgs) Sample.la (Sample.hot c)) := fun t _ => by
  rw [hs t]; simp

/-- The sample model with inputs 1 and 2 at every step meets the hypotheses of the convergence theorem. -/
example : ∃ (o : Opt ℝ) (ws : List Warn) (cl : String → Cls × Cls) (h : Hyper ℝ) (ops : ℕ → List (Op ℝ)) (w : World ℝ) (b : ℝ)
    (U : Matrix (Fin Sample.la.nK) (Fin Sample.la.nK) ℝ) (V : Matrix (Fin Sample.la.nC) (Fin Sample.la.nC) ℝ),
    Construct.init supportedStructures Sample.model .default Sample.steadyArgs = .ok (o, ws) ∧ (Sample.model.layers.map (·.name)).Nodup ∧
    Trainable o Sample.gdata ∧ w = ⟨o, Sample.gdata, Sample.ggrad, []⟩ ∧ Rounds cl Sample.la h ops (fun _ => none) w ∧ h.lrCov = .const b ∧ 0 < b ∧ b ≤ 1 ∧
    0 < h.damping ∧ (cl Sample.la.name).1 = .dense ∧ (cl Sample.la.name).2 = .diagonal ∧ SteadyK Sample.la h ops (fun _ => none) w U ∧
    SteadyC Sample.la h ops (fun _ => none) w V ∧ U ≠ 0 ∧ ((1 + 2 / b) • (1 : Matrix (Fin Sample.la.nK) (Fin Sample.la.nK) ℝ) - (U + h.damping • 1)).PosDef := by
  obtain ⟨o, ws, cl, hi, ht, R, hc, hs, hf⟩ := Sample.steady (x := Sample.hot 1) rfl
  refine ⟨o, ws, cl, _, _, _, 1 / 10, _, gradMoment (defaults Sample.steadyArgs) Sample.la (Sample.batch 2 1), hi, by decide, ht, rfl, R, rfl, by norm_num, by norm_num,
    show (0 : ℝ) < 1 from one_pos, by rw [hc], by rw [hc], Sample.hot_steady 1 fun t => (hf t).1, fun t _ => ?_, fun e => ?_, ?_⟩
  · rw [(hf t).1, (hf t).2]; simp
  · have := congrFun (congrFun e (0 : Fin 2)) (0 : Fin 2)
    rw [Sample.hot_moment 1] at this
    have : (5 / 2 * 1 ^ 2 : ℝ) = 0 := this
    norm_num at this
  · have M := Sample.hot_moment 1
    have hd : (defaults Sample.steadyArgs : Hyper ℝ).damping = 1 := rfl
    refine PosDef.of_dotProduct_mulVec_pos ?_ ?_
    · show (_)ᴴ = _
      rw [conjTranspose_eq_transpose_of_trivial, transpose_sub, transpose_add, transpose_smul, transpose_smul, transpose_one, inputMoment_symm]
    · intro x hx
      change Fin 2 → ℝ at x
      have e := Sample.quad_sub (inputMoment (defaults Sample.steadyArgs) Sample.la (Sample.hot 1)) x (1 + 2 / (1 / 10)) 1
      refine lt_of_lt_of_eq ?_ e.symm
      rw [M, M, M, M]
      norm_num
      have : x 0 ≠ 0 ∨ x 1 ≠ 0 := by
        by_contra hc
        push Not at hc
        exact hx (funext fun i => by fin_cases i; exacts [hc.1, hc.2])
      rcases this with h | h
      · nlinarith [sq_nonneg (x 0 - x 1), sq_nonneg (x 0 + x 1), sq_nonneg (x 1), pow_pos (abs_pos.2 h) 2, sq_abs (x 0)]
      · nlinarith [sq_nonneg (x 0 - x 1), sq_nonneg (x 0 + x 1), sq_nonneg (x 0), pow_pos (abs_pos.2 h) 2, sq_abs (x 1)]

/-- **C64 (large inputs).** With `lr_cov = 1/10` and inputs 10 and 20 at every step - all data are bounded and never change - the input factor of
the sample model grows beyond every bound. -/
theorem C64_blow_up : ∃ (o : Opt ℝ) (ws : List Warn) (cl : String → Cls × Cls) (ops : ℕ → List (Op ℝ)) (w : World ℝ),
    Construct.init supportedStructures Sample.model .default Sample.steadyArgs = .ok (o, ws) ∧ w = ⟨o, Sample.gdata, Sample.ggrad, []⟩ ∧
    Rounds cl Sample.la (defaults Sample.steadyArgs) ops (fun _ => none) w ∧
    (∀ t, fired Sample.la.name (ops t) (w.rounds ops (fun _ => none) t) = [(Sample.hot 10, Sample.batch 2 1)]) ∧
    ¬ ∃ B, ∀ t i j, |denO ((w.rounds ops (fun _ => none) t).opt.Ks Sample.la.name) Sample.la.nK i j| ≤ B := by
  obtain ⟨o, ws, cl, hi, ht, R, hc, hs, hf⟩ := Sample.steady (x := Sample.hot 10) rfl
  refine ⟨o, ws, cl, _, _, hi, rfl, R, fun t => (hf t).1, fun hB => ?_⟩
  have key := ((C64_from_construction (by decide) hi ht rfl R (b := 1 / 10) rfl (by norm_num) (by norm_num) (show (0 : ℝ) < 1 from one_pos)).1
    (Or.inl (by rw [hc])) _ _ (Sample.hot_steady 10 fun t => (hf t).1) rfl).2.1 hB
  have M := Sample.hot_moment 10
  have q := key (show Fin 2 → ℝ from ![1, 0])
  rw [show seen (cl Sample.la.name).1 (inputMoment (defaults Sample.steadyArgs) Sample.la (Sample.hot 10)) = _ by rw [hc, seen, if_pos rfl]] at q
  have e := Sample.quad_add (inputMoment (defaults Sample.steadyArgs) Sample.la (Sample.hot 10)) ![1, 0] 1
  have e2 : (![1, 0] : Fin 2 → ℝ) ⬝ᵥ ![1, 0] = 1 := by
    simp only [dotProduct, Fin.sum_univ_two]; norm_num
  have := e.symm.le.trans (q.trans (mul_le_of_le_one_right (by norm_num) e2.le))
  rw [M, M, M, M] at this
  norm_num at this
