import Verif.Props.Scaling
import Verif.Props.ProcessIO
import Verif.Proofs.Opt.Window

/-! C34: accumulating statistics over micro-batches. -/

set_option linter.unusedSectionVars false
open Construct Matrix
variable {α : Type} [Field α] [LinearOrder α] [IsStrictOrderedRing α] [LawfulSqrt α]

/-- the `k` equal micro-batches of the inputs and output gradients of a backward pass -/
def micro (k : ℕ) (e : ND α × ND α) : List (ND α × ND α) := (List.range k).map fun j => (e.1.chunk k j, e.2.chunk k j)

/-- The backward passes `bs` through a layer are those of `as`, each one split into `k` micro-batches of equal size, in any order. -/
def SplitInto (k : ℕ) (as bs : List (ND α × ND α)) : Prop := (∀ e ∈ as, e.1.Splits k ∧ e.2.Splits k) ∧ bs.Perm (as.flatMap (micro k))

theorem sum_flatMap {β γ M : Type} [AddCommMonoid M] (f : β → List γ) (g : γ → M) : ∀ l : List β,
    ((l.flatMap f).map g).sum = (l.map fun e => ((f e).map g).sum).sum
  | [] => rfl
  | e :: l => by simp [sum_flatMap f g l]

theorem sum_list_range' {M : Type} [AddCommMonoid M] (f : ℕ → M) : ∀ k : ℕ, ((List.range k).map f).sum = ∑ j ∈ Finset.range k, f j
  | 0 => rfl
  | k + 1 => by rw [List.range_succ, List.map_append, List.sum_append, sum_list_range' f k, Finset.sum_range_succ]; simp

theorem sandwich_sum (c : Cls) {n : ℕ} (A : Matrix (Fin n) (Fin n) α) (k : ℕ) (f : ℕ → Matrix (Fin n) (Fin n) α) :
    c.sandwich A (∑ j ∈ Finset.range k, f j) = ∑ j ∈ Finset.range k, c.sandwich A (f j) := by
  induction k with
  | zero => have := Cls.sandwich_smul c A (0 : Matrix (Fin n) (Fin n) α) 0; simpa using this
  | succ k ih => rw [Finset.sum_range_succ, Finset.sum_range_succ, Cls.sandwich_add, ih]

theorem sum_smul_list {M β : Type} [AddCommMonoid M] [Module α M] (a : α) (f : β → M) : ∀ l : List β,
    (l.map fun e => a • f e).sum = a • (l.map f).sum
  | [] => by simp
  | e :: l => by simp [sum_smul_list a f l]

/-- projected and sandwiched moments that scale when micro-batches are added up -/
theorem sum_split {c : Cls} {n k : ℕ} (hc : c.Supports n) (A : Matrix (Fin n) (Fin n) α) (f : ND α × ND α → Matrix (Fin n) (Fin n) α) (a : α)
    {as bs : List (ND α × ND α)} (hs : SplitInto k as bs)
    (hf : ∀ e ∈ as, ∑ j ∈ Finset.range k, f (e.1.chunk k j, e.2.chunk k j) = a • f e) :
    (bs.map fun e => c.proj n (c.sandwich A (f e))).sum = a • (as.map fun e => c.proj n (c.sandwich A (f e))).sum := by
  rw [(hs.2.map _).sum_eq, sum_flatMap, ← sum_smul_list]
  refine congrArg List.sum (List.map_congr_left fun e he => ?_)
  rw [micro, List.map_map, sum_list_range']
  simp only [Function.comp_def]
  rw [← proj_sum hc, ← sandwich_sum, hf e he, Cls.sandwich_smul, proj_smul hc]

/-- statistics of layer `m` in `B` are multiples of those in `A` -/
structure StatMul (m : Layer) (a c : α) (A B : World α) : Prop where
  HK : denO (B.opt.HKs m.name) m.nK = a • denO (A.opt.HKs m.name) m.nK
  HC : denO (B.opt.HCs m.name) m.nC = c • denO (A.opt.HCs m.name) m.nC
  HK0 : A.opt.HKs m.name = none ↔ B.opt.HKs m.name = none
  HC0 : A.opt.HCs m.name = none ↔ B.opt.HCs m.name = none

/-- what micro-batches do to the statistics of `C`: nothing to a sum of losses, a factor `1/k` to averaged losses -/
def microFactor (k : ℕ) (avg : Option String) : α := if avg = none then 1 else 1 / k

theorem gradMoment_micro {h : Hyper α} {m : Layer} {g : ND α} {k : ℕ} (hv : h.Valid) (hk : 0 < k) (hg : g.Splits k) :
    ∑ j ∈ Finset.range k, gradMoment h m (g.chunk k j) = (microFactor k h.lossAverage : α) • gradMoment h m g := by
  unfold microFactor
  split
  · rw [gradMoment_chunks_sum hv ‹_› hk hg, one_smul]
  · exact gradMoment_chunks hv ‹_› hk hg

/-- **C34, statistics.** Between steps, in whatever order forward and backward passes happen: if the passes of one run are those of the other,
split into `k` micro-batches, `H_K` grows `k` times as much, and `H_C` grows as much for a sum of losses, and `1/k` times as much for
averaged losses. -/
theorem C34_statistics {cl : String → Cls × Cls} {k : ℕ} (hk : 0 < k) {A B : World α} {as bs : List (Op α)} (lA : A.Live cl) (lB : B.Live cl)
    (fA : FitsRun A as) (fB : FitsRun B bs) (qA : ∀ op ∈ as, op.Quiet) (qB : ∀ op ∈ bs, op.Quiet) (conf : SameConf A B)
    (hp : A.opt.scales ((A.opt.steps : ℤ) - 1) = B.opt.scales ((A.opt.steps : ℤ) - 1)) {m : Layer} (hm : m ∈ A.opt.layers) {h : Hyper α}
    (hh : A.opt.hyperOf m = .ok h) (hK : A.opt.Ks m.name = B.opt.Ks m.name) (hC : A.opt.Cs m.name = B.opt.Cs m.name)
    (hs : SplitInto k (fired m.name as A) (fired m.name bs B))
    (r : StatMul m (k : α) (microFactor k h.lossAverage) A B) :
    StatMul m (k : α) (microFactor k h.lossAverage) (run as A) (run bs B) := by
  have good := lA.sound.good m hm
  have hv := lA.valid m hm h hh
  obtain ⟨p, hpA⟩ := lA.prev
  have SA := (lA.window fA qA).stats m hm h p hh hpA
  have SB := (lB.window fB qB).stats m (conf.layers ▸ hm) h p (by rw [← conf.hyperOf]; exact hh) (by rw [← conf.steps, ← hp]; exact hpA)
  have e0 : fired m.name bs B = [] ↔ fired m.name as A = [] := by
    constructor
    · intro e
      have := hs.2
      rw [e] at this
      have h0 := List.flatMap_eq_nil_iff.1 this.nil_eq.symm
      rcases hf : fired m.name as A with _ | ⟨x, l⟩
      · rfl
      · have := h0 x (by rw [hf]; simp)
        simp only [micro, List.map_eq_nil_iff, List.range_eq_nil] at this
        omega
    · intro e
      have := hs.2
      rw [e] at this
      exact this.eq_nil
  refine ⟨?_, ?_, ?_, ?_⟩
  · rw [SA.HK, SB.HK, r.HK, smul_add, ← hK]
    congr 1
    exact sum_split good.supK _ (fun e => inputMoment h m e.1) _ hs fun e he => inputMoment_chunks hv hk (hs.1 e he).1
  · rw [SA.HC, SB.HC, r.HC, smul_add, ← hC, smul_comm _ (1 / p)]
    congr 2
    exact sum_split good.supC _ (fun e => gradMoment h m e.2) _ hs fun e he => gradMoment_micro hv hk (hs.1 e he).2
  · rw [SA.HK0, SB.HK0, r.HK0, e0]
  · rw [SA.HC0, SB.HC0, r.HC0, e0]

/-- Two runs, the second one with `k` micro-batches per batch: everything agrees, but statistics differ by factors `k` and `1/k`. -/
structure Accumulated (k : ℕ) (A B : World α) : Prop where
  conf : SameConf A B
  lay : ∀ m ∈ A.opt.layers, LayEq m A B
  data : A.data = B.data
  mom : A.opt.mom = B.opt.mom
  prev : A.opt.scales ((A.opt.steps : ℤ) - 1) = B.opt.scales ((A.opt.steps : ℤ) - 1)
  stat : ∀ m ∈ A.opt.layers, StatMul m (k : α) (1 / (k : α)) A B

/-- Histories of two runs, the second one with `k` micro-batches per batch. Between steps both runs do any forward and backward passes, set any
gradients and scales; the batches reaching a layer in the second run are the micro-batches of those in the first run. When a step is
taken, the gradients and the scale agree. Parameters and hyper-parameters may be changed in both runs. In passes and steps, the
hyper-parameters of all layers satisfy `P`. -/
inductive MicroRun (P : Hyper α → Prop) (k : ℕ) : World α → World α → List (Op α) → List (Op α) → Prop
  | done (A B : World α) : MicroRun P k A B [] []
  | passes {A B : World α} {as bs as' bs' : List (Op α)} (qA : ∀ op ∈ as, op.Quiet) (qB : ∀ op ∈ bs, op.Quiet)
      (split : ∀ m ∈ A.opt.layers, SplitInto k (fired m.name as A) (fired m.name bs B))
      (hyp : ∀ m ∈ A.opt.layers, ∀ h, A.opt.hyperOf m = .ok h → P h)
      (next : MicroRun P k (run as A) (run bs B) as' bs') : MicroRun P k A B (as ++ as') (bs ++ bs')
  | step {A B : World α} {a b : Option α} {f : Bool} {as bs : List (Op α)}
      (scale : A.curScale a = B.curScale b) (grad : f = false → ∀ m ∈ A.opt.layers, ∀ p, World.Owns m p → A.grad p = B.grad p)
      (hyp : ∀ m ∈ A.opt.layers, ∀ h, A.opt.hyperOf m = .ok h → P h)
      (next : MicroRun P k (exec (.step false a f) A).2 (exec (.step false b f) B).2 as bs) :
      MicroRun P k A B (.step false a f :: as) (.step false b f :: bs)
  | setParam {A B : World α} {p : ℕ} {M : Mat α} {as bs : List (Op α)}
      (next : MicroRun P k (exec (.setParam p M) A).2 (exec (.setParam p M) B).2 as bs) : MicroRun P k A B (.setParam p M :: as) (.setParam p M :: bs)
  | setHyper {A B : World α} {i : ℕ} {h : Hyper α} {as bs : List (Op α)}
      (next : MicroRun P k (exec (.setHyper i h) A).2 (exec (.setHyper i h) B).2 as bs) :
      MicroRun P k A B (.setHyper i h :: as) (.setHyper i h :: bs)

theorem fitsRun_append {w : World α} : ∀ {xs ys : List (Op α)}, FitsRun w (xs ++ ys) → FitsRun w xs ∧ FitsRun (run xs w) ys := by
  intro xs
  induction xs generalizing w with
  | nil => exact fun h => ⟨trivial, h⟩
  | cons x xs ih => exact fun h => ⟨⟨h.1, (ih h.2).1⟩, (ih h.2).2⟩

theorem Accumulated.passes {cl : String → Cls × Cls} {k : ℕ} (hk : 0 < k) {A B : World α} (r : Accumulated k A B) (lA : A.Live cl) (lB : B.Live cl)
    {as bs : List (Op α)} (fA : FitsRun A as) (fB : FitsRun B bs) (qA : ∀ op ∈ as, op.Quiet) (qB : ∀ op ∈ bs, op.Quiet)
    (split : ∀ m ∈ A.opt.layers, SplitInto k (fired m.name as A) (fired m.name bs B))
    (avg : ∀ m ∈ A.opt.layers, ∀ h, A.opt.hyperOf m = .ok h → h.lossAverage ≠ none) : Accumulated k (run as A) (run bs B) := by
  have wA := lA.window fA qA
  have wB := lB.window fB qB
  refine ⟨⟨by rw [wA.layers, wB.layers, r.conf.layers], by rw [wA.ptrGroup, wB.ptrGroup, r.conf.ptrGroup],
    by rw [wA.groups, wB.groups, r.conf.groups], by rw [wA.steps, wB.steps, r.conf.steps]⟩, ?_, by rw [wA.data, wB.data, r.data],
    by rw [wA.mom, wB.mom, r.mom], ?_, ?_⟩
  · intro m hm
    rw [wA.layers] at hm
    have L := r.lay m hm
    exact ⟨by rw [wA.Ks, wB.Ks, L.Ks], by rw [wA.Cs, wB.Cs, L.Cs], by rw [wA.mKs, wB.mKs, L.mKs],
        by rw [wA.mCs, wB.mCs, L.mCs], fun p hp => by rw [wA.data, wB.data, L.data p hp],
        fun p hp => by rw [wA.mom, wB.mom, L.mom p hp]⟩
  · have := wB.prev
    rw [← r.conf.steps] at this
    rw [wA.steps, wA.prev, this, r.prev]
  · intro m hm
    rw [wA.layers] at hm
    obtain ⟨h, hh, _⟩ := lA.sound.hyper m hm
    have e : (1 / (k : α)) = microFactor k h.lossAverage := by rw [microFactor, if_neg (avg m hm h hh)]
    rw [e]
    exact C34_statistics hk lA lB fA fB qA qB r.conf r.prev hm hh (r.lay m hm).Ks (r.lay m hm).Cs (split m hm) (e ▸ r.stat m hm)

theorem Accumulated.step {cl : String → Cls × Cls} {k : ℕ} (hk : 0 < k) {A B : World α} (r : Accumulated k A B) (lA : A.Live cl) (lB : B.Live cl)
    {a b : Option α} {f : Bool} (fA : FitsOp A (.step false a f)) (fB : FitsOp B (.step false b f)) (scale : A.curScale a = B.curScale b)
    (grad : f = false → ∀ m ∈ A.opt.layers, ∀ p, World.Owns m p → A.grad p = B.grad p)
    (rule : ∀ m ∈ A.opt.layers, ∀ h, A.opt.hyperOf m = .ok h → h.kfacLike = false) :
    Accumulated k (exec (.step false a f) A).2 (exec (.step false b f) B).2 := by
  have k0 : (k : α) ≠ 0 := by exact_mod_cast hk.ne'
  have hlay := r.conf.layers
  cases f
  · obtain ⟨A', eA, sA, _⟩ := lA.step fA
    obtain ⟨B', eB, sB, _⟩ := lB.step fB
    rw [eA, eB]
    have L : ∀ m ∈ A.opt.layers, LayEq m A' B' ∧ StatMul m (k : α) (1 / (k : α)) A' B' := by
      intro m hm
      obtain ⟨h, hh, hT⟩ := lA.sound.hyper m hm
      have LA := sA.layer m hm h hh
      have LB := sB.layer m (hlay ▸ hm) h (by rw [← r.conf.hyperOf]; exact hh)
      have S := r.stat m hm
      refine ⟨LA.two (a := 1 / (k : α)) (c := k) LB (r.lay m hm) r.conf.steps (fun _ => ?_) ?_, ?_⟩
      · refine ⟨by rw [S.HK, smul_smul, one_div_mul_cancel k0, one_smul], by rw [S.HC, smul_smul, mul_one_div_cancel k0, one_smul], ?_, ?_⟩
        · intro h1; rw [rule m hm h hh] at h1; cases h1
        · intro _
          rw [mul_assoc, one_div_mul_cancel k0, mul_one, World.unscale, World.unscale, scale, r.prev, ← r.conf.steps]
      · rw [scale]
        congr 1
        funext i j
        unfold gradM
        rw [grad rfl m hm _ (Or.inl rfl)]
        split
        · rfl
        · rcases hb : m.bias with _ | b
          · rfl
          · simp only [Option.bind_some]
            rw [grad rfl m hm _ (Or.inr ⟨b, hb, rfl⟩)]
      · by_cases h0 : A.opt.steps % h.T = 0
        · have vA := LA.upd h0
          have vB := LB.upd (by rw [← r.conf.steps]; exact h0)
          exact ⟨by rw [vA.HK, vB.HK]; simp [denO], by rw [vA.HC, vB.HC]; simp [denO], by rw [vA.HK, vB.HK], by rw [vA.HC, vB.HC]⟩
        · have vA := LA.noupd h0
          have vB := LB.noupd (by rw [← r.conf.steps]; exact h0)
          exact ⟨by rw [vA.HKs, vB.HKs]; exact S.HK, by rw [vA.HCs, vB.HCs]; exact S.HC, by rw [vA.HKs, vB.HKs]; exact S.HK0,
            by rw [vA.HCs, vB.HCs]; exact S.HC0⟩
    have P : ∀ p, A'.data p = B'.data p ∧ A'.opt.mom p = B'.opt.mom p := by
      intro p
      by_cases hp : ∃ m ∈ A.opt.layers, World.Owns m p
      · obtain ⟨m, hm, hp⟩ := hp
        exact ⟨(L m hm).1.data p hp, (L m hm).1.mom p hp⟩
      · have n1 : ∀ m ∈ A.opt.layers, ¬ World.Owns m p := fun m hm h => hp ⟨m, hm, h⟩
        obtain ⟨a1, a2⟩ := sA.otherP p n1
        obtain ⟨b1, b2⟩ := sB.otherP p (by rw [← hlay]; exact n1)
        rw [a1, a2, b1, b2, r.data, r.mom]; exact ⟨rfl, rfl⟩
    refine ⟨⟨by rw [sA.layers, sB.layers, r.conf.layers], by rw [sA.ptrGroup, sB.ptrGroup, r.conf.ptrGroup],
      by rw [sA.groups, sB.groups, r.conf.groups], by rw [sA.steps, sB.steps, r.conf.steps]⟩, ?_, funext fun p => (P p).1,
      funext fun p => (P p).2, ?_, ?_⟩
    · rw [sA.layers]; exact fun m hm => (L m hm).1
    · have e : (((A.opt.steps + 1 : ℕ) : ℤ) - 1) = A.opt.steps := by push_cast; ring
      rw [sA.steps, e, sA.scales, sB.scales, ← r.conf.steps, if_neg (lt_irrefl _), if_neg (lt_irrefl _), if_pos rfl, if_pos rfl, scale]
    · rw [sA.layers]; exact fun m hm => (L m hm).2
  · obtain ⟨A', eA, a1, a2, a3, a4, a5, a6, a7, a8, a9, a10, a11, a12, a13, a14⟩ := lA.skip a
    obtain ⟨B', eB, b1, b2, b3, b4, b5, b6, b7, b8, b9, b10, b11, b12, b13, b14⟩ := lB.skip b
    rw [eA, eB]
    have nA : ∀ m ∈ A.opt.layers, A'.opt.HKs m.name = none ∧ A'.opt.HCs m.name = none := fun m hm => by
      rw [(a14 _).1, (a14 _).2, if_pos ⟨m, hm, rfl⟩, if_pos ⟨m, hm, rfl⟩]; exact ⟨rfl, rfl⟩
    have nB : ∀ m ∈ A.opt.layers, B'.opt.HKs m.name = none ∧ B'.opt.HCs m.name = none := fun m hm => by
      rw [(b14 _).1, (b14 _).2, if_pos ⟨m, hlay ▸ hm, rfl⟩, if_pos ⟨m, hlay ▸ hm, rfl⟩]; exact ⟨rfl, rfl⟩
    refine ⟨⟨by rw [a1, b1, r.conf.layers], by rw [a2, b2, r.conf.ptrGroup], by rw [a3, b3, r.conf.groups], by rw [a4, b4, r.conf.steps]⟩,
      ?_, by rw [a10, b10, r.data], by rw [a11, b11, r.mom], ?_, ?_⟩
    · rw [a1]; intro m hm
      have L := r.lay m hm
      exact ⟨by rw [a6, b6, L.Ks], by rw [a7, b7, L.Cs], by rw [a8, b8, L.mKs], by rw [a9, b9, L.mCs], fun p hp => by rw [a10, b10, L.data p hp],
        fun p hp => by rw [a11, b11, L.mom p hp]⟩
    · have e : (((A.opt.steps + 1 : ℕ) : ℤ) - 1) = A.opt.steps := by push_cast; ring
      rw [a4, e, a13, b13, ← r.conf.steps, if_neg (lt_irrefl _), if_neg (lt_irrefl _), if_pos rfl, if_pos rfl, scale]
    · rw [a1]; intro m hm
      exact ⟨by rw [(nA m hm).1, (nB m hm).1]; simp [denO], by rw [(nA m hm).2, (nB m hm).2]; simp [denO], by rw [(nA m hm).1, (nB m hm).1],
        by rw [(nA m hm).2, (nB m hm).2]⟩

/-- **C34.** Splitting every batch into `k` micro-batches of equal size and accumulating the statistics before each step gives the same factors, factor
momenta, parameters and momentum buffers, after every history, if losses are averaged and the default update rule is used. -/
theorem C34_accumulation {cl : String → Cls × Cls} {k : ℕ} (hk : 0 < k) {A B : World α} {as bs : List (Op α)} (lA : A.Live cl) (lB : B.Live cl)
    (fA : FitsRun A as) (fB : FitsRun B bs) (r : Accumulated k A B) (h : MicroRun (fun h => h.lossAverage ≠ none ∧ h.kfacLike = false) k A B as bs) : Accumulated k (run as A) (run bs B) := by
  induction h with
  | done => exact r
  | passes qA qB split hyp next ih =>
    obtain ⟨fA1, fA2⟩ := fitsRun_append fA
    obtain ⟨fB1, fB2⟩ := fitsRun_append fB
    rw [run_append, run_append]
    exact ih (lA.window fA1 qA).live (lB.window fB1 qB).live fA2 fB2 (r.passes hk lA lB fA1 fB1 qA qB split fun m hm h hh => (hyp m hm h hh).1)
  | step scale grad hyp next ih =>
    have r' := r.step hk lA lB fA.1 fB.1 scale grad fun m hm h hh => (hyp m hm h hh).2
    obtain ⟨A', eA, lA'⟩ := lA.exec fA.1
    obtain ⟨B', eB, lB'⟩ := lB.exec fB.1
    rw [run_cons, run_cons]
    refine ih ?_ ?_ fA.2 fB.2 r'
    · rw [eA]; exact lA'
    · rw [eB]; exact lB'
  | @setParam A B p M as bs next ih =>
    obtain ⟨A', eA, lA'⟩ := lA.exec fA.1
    obtain ⟨B', eB, lB'⟩ := lB.exec fB.1
    rw [run_cons, run_cons]
    refine ih ?_ ?_ fA.2 fB.2 ?_
    · rw [eA]; exact lA'
    · rw [eB]; exact lB'
    · have ed : Function.update A.data p M = Function.update B.data p M := by rw [r.data]
      exact ⟨⟨r.conf.1, r.conf.2, r.conf.3, r.conf.4⟩, fun m hm => ⟨(r.lay m hm).1, (r.lay m hm).2, (r.lay m hm).3, (r.lay m hm).4,
        fun q _ => congrFun ed q, (r.lay m hm).6⟩, ed, r.mom, r.prev, fun m hm => ⟨(r.stat m hm).1, (r.stat m hm).2, (r.stat m hm).3, (r.stat m hm).4⟩⟩
  | @setHyper A B i hy as bs next ih =>
    obtain ⟨A', eA, lA'⟩ := lA.exec fA.1
    obtain ⟨B', eB, lB'⟩ := lB.exec fB.1
    rw [run_cons, run_cons]
    refine ih ?_ ?_ fA.2 fB.2 ?_
    · rw [eA]; exact lA'
    · rw [eB]; exact lB'
    · rw [exec_setHyper, exec_setHyper]
      refine ⟨⟨r.conf.1, r.conf.2, ?_, r.conf.4⟩, fun m hm => ⟨(r.lay m hm).1, (r.lay m hm).2, (r.lay m hm).3, (r.lay m hm).4,
        (r.lay m hm).5, (r.lay m hm).6⟩, r.data, r.mom, r.prev, fun m hm => ⟨(r.stat m hm).1, (r.stat m hm).2, (r.stat m hm).3, (r.stat m hm).4⟩⟩
      show A.opt.groups.modify i _ = B.opt.groups.modify i _
      rw [r.conf.groups]

/-- **C34 (same start).** Two runs from the same state, in which no statistics wait. -/
theorem C34_same_start {cl : String → Cls × Cls} {k : ℕ} (hk : 0 < k) {A : World α} {as bs : List (Op α)} (lA : A.Live cl)
    (fA : FitsRun A as) (fB : FitsRun A bs) (h0 : ∀ m ∈ A.opt.layers, A.opt.HKs m.name = none ∧ A.opt.HCs m.name = none)
    (h : MicroRun (fun h => h.lossAverage ≠ none ∧ h.kfacLike = false) k A A as bs) :
    (∀ m ∈ A.opt.layers, LayEq m (run as A) (run bs A)) ∧ (run as A).data = (run bs A).data ∧ (run as A).opt.mom = (run bs A).opt.mom := by
  have r : Accumulated k A A := ⟨⟨rfl, rfl, rfl, rfl⟩, fun m _ => ⟨rfl, rfl, rfl, rfl, fun _ _ => rfl, fun _ _ => rfl⟩, rfl, rfl, rfl,
    fun m hm => ⟨by rw [(h0 m hm).1]; simp [denO], by rw [(h0 m hm).2]; simp [denO], Iff.rfl, Iff.rfl⟩⟩
  have := C34_accumulation hk lA lA fA fB r h
  have el : (run as A).opt.layers = A.opt.layers := (run_inv (P := fun w => w.opt.layers = A.opt.layers)
    (fun op w h => by rw [(exec_static op w).1]; exact h) as A rfl)
  exact ⟨el ▸ this.lay, this.data, this.mom⟩

/-- **C34 fails in KFAC-like mode.** There `K` is updated with `H_K` itself, which is `k` times as large: a step of the run with micro-batches (no
momentum, no normalisation) moves `K` by an additional `-β/2 (k - 1) K H_K`. -/
theorem C34_kfac_like_deviation {cl : String → Cls × Cls} {k : ℕ} {c : α} {A B A' B' : World α} {m : Layer} {h : Hyper α} {s u s' u' : α}
    (sA : StepSpec cl s u A A') (sB : StepSpec cl s' u' B B') (hm : m ∈ A.opt.layers) (conf : SameConf A B)
    (hh : A.opt.hyperOf m = .ok h) (hu : A.opt.steps % h.T = 0) (hl : h.kfacLike = true) (ha : h.alpha1 = 0) (hn : h.normalize = false)
    (hK : A.opt.Ks m.name = B.opt.Ks m.name) (r : StatMul m (k : α) c A B) :
    denO (B'.opt.Ks m.name) m.nK = denO (A'.opt.Ks m.name) m.nK -
      (h.lrCov.at A.opt.steps / 2 * ((k : α) - 1)) • (denO (A.opt.Ks m.name) m.nK * denO (A.opt.HKs m.name) m.nK) := by
  obtain ⟨mK, mC, bK, bC, a1, a2, a3, a4, a5, a6, a7⟩ := ((sA.layer m hm h hh).upd hu).eqs
  obtain ⟨mK', mC', bK', bC', b1, b2, b3, b4, b5, b6, b7⟩ :=
    ((sB.layer m (conf.layers ▸ hm) h (by rw [← conf.hyperOf]; exact hh)).upd (by rw [← conf.steps]; exact hu)).eqs
  rw [IsRate, if_neg (by simp [hn])] at a4 b4
  rw [a6, b6, a2, b2, a4, b4, ← hK, ha, r.HK, ← conf.steps]
  simp only [dirK, updDir, dirScale, hl, hn, if_true, zero_smul, zero_add, one_smul, mul_one, Bool.false_eq_true, if_false]
  simp only [mul_sub, mul_add, Matrix.mul_smul, smul_sub, smul_add, smul_smul, mul_one, sub_smul]
  rw [← sub_eq_zero]
  have : ∀ X : Matrix (Fin m.nK) (Fin m.nK) α, (h.lrCov.at A.opt.steps / 2 * (k : α)) • X = (h.lrCov.at A.opt.steps * (1 / 2 * (k : α))) • X :=
    fun X => by congr 1; ring
  rw [this]
  have : ∀ X : Matrix (Fin m.nK) (Fin m.nK) α, (h.lrCov.at A.opt.steps / 2) • X = (h.lrCov.at A.opt.steps * (1 / 2)) • X :=
    fun X => by congr 1; ring
  rw [this]
  abel

/-- **C34 fails for a sum of losses.** Then `H_C` is the same, but `H_K` `k` times as large: a step of the run with micro-batches
(default rule, no momentum, no normalisation) moves `K` by an additional `-β/2 u (k - 1) tr(H_C)/d_C K H_K`. -/
theorem C34_sum_deviation {cl : String → Cls × Cls} {k : ℕ} {A B A' B' : World α} {m : Layer} {h : Hyper α} {s u : α}
    (sA : StepSpec cl s u A A') (sB : StepSpec cl s u B B') (hm : m ∈ A.opt.layers) (conf : SameConf A B)
    (hh : A.opt.hyperOf m = .ok h) (hu : A.opt.steps % h.T = 0) (hl : h.kfacLike = false) (ha : h.alpha1 = 0) (hn : h.normalize = false)
    (hK : A.opt.Ks m.name = B.opt.Ks m.name) (hC : A.opt.Cs m.name = B.opt.Cs m.name) (r : StatMul m (k : α) 1 A B) :
    denO (B'.opt.Ks m.name) m.nK = denO (A'.opt.Ks m.name) m.nK -
      (h.lrCov.at A.opt.steps / 2 * ((k : α) - 1) * (u * avgTr (denO (A.opt.HCs m.name) m.nC))) •
        (denO (A.opt.Ks m.name) m.nK * denO (A.opt.HKs m.name) m.nK) := by
  obtain ⟨mK, mC, bK, bC, a1, a2, a3, a4, a5, a6, a7⟩ := ((sA.layer m hm h hh).upd hu).eqs
  obtain ⟨mK', mC', bK', bC', b1, b2, b3, b4, b5, b6, b7⟩ :=
    ((sB.layer m (conf.layers ▸ hm) h (by rw [← conf.hyperOf]; exact hh)).upd (by rw [← conf.steps]; exact hu)).eqs
  rw [IsRate, if_neg (by simp [hn])] at a4 b4
  rw [a6, b6, a2, b2, a4, b4, ← hK, ← hC, ha, r.HK, r.HC, ← conf.steps]
  simp only [dirK, updDir, dirScale, hl, hn, zero_smul, zero_add, one_smul, mul_one, Bool.false_eq_true, if_false]
  simp only [mul_sub, mul_add, Matrix.mul_smul, smul_sub, smul_add, smul_smul, mul_one, sub_smul, sub_mul]
  rw [← sub_eq_zero]
  generalize avgTr (denO (A.opt.HCs m.name) m.nC) = t
  generalize h.lrCov.at A.opt.steps = β
  have : ∀ X : Matrix (Fin m.nK) (Fin m.nK) α, (β / 2 * (k : α) * (u * t)) • X = (β * (1 / 2 * (u * t * (k : α)))) • X :=
    fun X => by congr 1; ring
  rw [this]
  have : ∀ X : Matrix (Fin m.nK) (Fin m.nK) α, (β / 2 * (u * t)) • X = (β * (1 / 2 * (u * t))) • X :=
    fun X => by congr 1; ring
  rw [this]
  abel

namespace Sample

/-- forward and backward through both layers of the sample model, if `n` hooks have been registered before -/
def bpass (n : ℕ) (x0 x1 g0 g1 : ND α) : List (Op α) :=
  [.forward 0 x0 true, .forward 1 x1 true, .backward (n + 1) g1, .backward n g0]

theorem bpass_quiet {n : ℕ} {x0 x1 g0 g1 : ND α} : ∀ op ∈ bpass n x0 x1 g0 g1, op.Quiet := by
  intro op hop
  simp only [bpass, List.mem_cons, List.not_mem_nil, or_false] at hop
  rcases hop with rfl | rfl | rfl | rfl <;> trivial

theorem bpass_states {cl : String → Cls × Cls} {w : World α} (hw : w.Live cl) (hl : w.opt.layers = [la, lb])
    (hu : ∀ m ∈ w.opt.layers, ∃ h, w.opt.hyperOf m = .ok h ∧ w.opt.steps % h.T = 0) {n b : ℕ} (hn : w.hooks.length = n) (hb : 0 < b)
    {x0 x1 g0 g1 : ND α} (s0 : x0.shape = [b, 1]) (s1 : x1.shape = [b, 2]) (t0 : g0.shape = [b, 1]) (t1 : g1.shape = [b, 1]) :
    FitsRun w (bpass n x0 x1 g0 g1) ∧ (run (bpass n x0 x1 g0 g1) w).hooks.length = n + 2 ∧ (run (bpass n x0 x1 g0 g1) w).grad = w.grad ∧
      (run (bpass n x0 x1 g0 g1) w).opt.scales = w.opt.scales ∧
      fired "a" (bpass n x0 x1 g0 g1) w = [(x0, g0)] ∧ fired "b" (bpass n x0 x1 g0 g1) w = [(x1, g1)] := by
  have ma : la ∈ w.opt.layers := by rw [hl]; simp
  have mb : lb ∈ w.opt.layers := by rw [hl]; simp
  have e0 : w.opt.layers[0]? = some la := by rw [hl]; rfl
  have e1 : w.opt.layers[1]? = some lb := by rw [hl]; rfl
  obtain ⟨ha', hha, hsa⟩ := hu la ma
  obtain ⟨hb', hhb, hsb⟩ := hu lb mb
  let v1 : World α := { w with hooks := w.hooks ++ [(la, x0)] }
  let v2 : World α := { w with hooks := w.hooks ++ [(la, x0)] ++ [(lb, x1)] }
  have x1' : exec (.forward 0 x0 true) w = (.ok (), v1) := forward_on _ e0 hha (hw.valid _ ma _ hha).period hsa
  have x2' : exec (.forward 1 x1 true) v1 = (.ok (), v2) := forward_on (w := v1) _ e1 hhb (hw.valid _ mb _ hhb).period hsb
  have f1 : FitsOp w (.forward 0 x0 true) := by
    intro m hm hy _
    rw [e0] at hm; cases hm
    exact ⟨b, [], s0, by simpa using hb⟩
  have f2 : FitsOp v1 (.forward 1 x1 true) := by
    intro m hm hy _
    replace hm : w.opt.layers[1]? = some m := hm
    rw [e1] at hm; cases hm
    exact ⟨b, [], s1, by simpa using hb⟩
  obtain ⟨_, y1, l1⟩ := hw.exec f1
  rw [x1'] at y1; cases y1
  obtain ⟨_, y2, l2⟩ := l1.exec f2
  rw [x2'] at y2; cases y2
  have k1 : v2.hooks[n + 1]? = some (lb, x1) := by
    show (w.hooks ++ [(la, x0)] ++ [(lb, x1)])[n + 1]? = _
    rw [List.getElem?_append_right (by simp [hn])]; simp [hn]
  have f3 : FitsOp v2 (.backward (n + 1) g1) := by
    intro mx hmx; rw [k1] at hmx; cases hmx; exact ⟨b, [], t1, by simpa using hb⟩
  obtain ⟨v3, y3, l3⟩ := l2.exec f3
  obtain ⟨_, _, _, _, _, _, b3⟩ := l2.back k1 f3
  rw [y3] at b3
  have fr := b3.frame
  have h3 : v3.hooks[n]? = some (la, x0) := by
    rw [fr.hooks]
    show (w.hooks ++ [(la, x0)] ++ [(lb, x1)])[n]? = _
    rw [List.append_assoc, List.getElem?_append_right (by simp [hn])]; simp [hn]
  have f4 : FitsOp v3 (.backward n g0) := by
    intro mx hmx; rw [h3] at hmx; cases hmx; exact ⟨b, [], t0, by simpa using hb⟩
  obtain ⟨v4, y4, l4⟩ := l3.exec f4
  obtain ⟨_, _, _, _, _, _, b4⟩ := l3.back h3 f4
  rw [y4] at b4
  have fr4 := b4.frame
  have er : run (bpass n x0 x1 g0 g1) w = v4 := by
    show (exec _ (exec _ (exec _ (exec _ w).2).2).2).2 = _
    rw [x1', x2', y3, y4]
  rw [er]
  refine ⟨⟨f1, ?_⟩, by rw [fr4.hooks, fr.hooks]; simp [v2, hn], by rw [fr4.grad, fr.grad], by rw [fr4.scales, fr.scales], ?_, ?_⟩
  · rw [x1']; refine ⟨f2, ?_⟩
    rw [x2']; refine ⟨f3, ?_⟩
    rw [y3]; exact ⟨f4, trivial⟩
  · simp only [fired, bpass, firedOp, x1', x2', y3, y4, k1, h3, List.nil_append, Option.toList_some]
    rfl
  · simp only [fired, bpass, firedOp, x1', x2', y3, y4, k1, h3, List.nil_append, Option.toList_some]
    rfl

end Sample

namespace Sample

/-- rows `1, ..., b` -/
def batch (b n : ℕ) : ND α := ⟨[b, n], fun i => i + 1⟩
/-- a batch of two inputs through both layers -/
def full : List (Op α) := bpass 0 (batch 2 1) (batch 2 2) (batch 2 1) (batch 2 1)
/-- the same as two micro-batches of one input -/
def halves : List (Op α) := bpass 0 ((batch 2 1).chunk 2 0) ((batch 2 2).chunk 2 0) ((batch 2 1).chunk 2 0) ((batch 2 1).chunk 2 0) ++
  bpass 2 ((batch 2 1).chunk 2 1) ((batch 2 2).chunk 2 1) ((batch 2 1).chunk 2 1) ((batch 2 1).chunk 2 1)

theorem fits_step {cl : String → Cls × Cls} {w : World α} (hw : w.Live cl) (hl : w.opt.layers = [la, lb]) (hg : w.grad = ggrad)
    (hs : ∀ m ∈ w.opt.layers, w.opt.HKs m.name ≠ none ∧ w.opt.HCs m.name ≠ none) : FitsOp w (.step false none false) := by
  refine ⟨rfl, by simp, fun _ m hm => ⟨?_, fun h e _ => ⟨(hs m hm).1, (hs m hm).2, hw.mom m hm h e⟩⟩⟩
  rw [hl] at hm
  simp only [List.mem_cons, List.not_mem_nil, or_false] at hm
  rcases hm with rfl | rfl
  · refine ⟨⟨gdata 0, by rw [hg]; rfl, rfl, rfl⟩, ?_⟩
    rintro b hb; cases hb
    exact ⟨gdata 1, by rw [hg]; rfl, rfl, rfl⟩
  · exact ⟨⟨gdata 2, by rw [hg]; rfl, rfl, rfl⟩, by rintro b hb; cases hb⟩

/-- a batch of two inputs, and two micro-batches of one input: both runs fit, and are as C34 asks -/
theorem micro_run {cl : String → Cls × Cls} {w : World α} (hw : w.Live cl) (hl : w.opt.layers = [la, lb])
    (hu : ∀ m ∈ w.opt.layers, ∃ h, w.opt.hyperOf m = .ok h ∧ w.opt.steps % h.T = 0) (hk : w.hooks = []) (hg : w.grad = ggrad)
    {P : Hyper α → Prop} (hP : ∀ m ∈ w.opt.layers, ∀ h, w.opt.hyperOf m = .ok h → P h) :
    (FitsRun w full ∧ FitsRun w halves) ∧ (∀ op ∈ (full : List (Op α)), op.Quiet) ∧ (∀ op ∈ (halves : List (Op α)), op.Quiet) ∧
      (∀ m ∈ w.opt.layers, SplitInto 2 (fired m.name full w) (fired m.name halves w)) ∧
      FitsOp (run full w) (.step false none false) ∧ FitsOp (run halves w) (.step false none false) ∧
      MicroRun P 2 w w (full ++ [.step false none false]) (halves ++ [.step false none false]) ∧
      fired "a" full w = [(batch 2 1, batch 2 1)] ∧ (run full w).curScale none = (run halves w).curScale none := by
  obtain ⟨p1, p2, p3, p4, p5, p6⟩ := bpass_states hw hl hu (n := 0) (b := 2) (x0 := batch 2 1) (x1 := batch 2 2) (g0 := batch 2 1)
    (g1 := batch 2 1) (by rw [hk]; rfl) (by decide) rfl rfl rfl rfl
  obtain ⟨q1, q2, q3, q4, q5, q6⟩ := bpass_states hw hl hu (n := 0) (b := 1) (x0 := (batch 2 1).chunk 2 0) (x1 := (batch 2 2).chunk 2 0)
    (g0 := (batch 2 1).chunk 2 0) (g1 := (batch 2 1).chunk 2 0) (by rw [hk]; rfl) (by decide) rfl rfl rfl rfl
  have W1 := hw.window q1 bpass_quiet
  obtain ⟨r1, r2, r3, r4, r5, r6⟩ := bpass_states W1.live (by rw [W1.layers, hl]) (by
      intro m hm
      rw [W1.layers] at hm
      rw [W1.hyperOf, W1.steps]; exact hu m hm) (n := 2) (b := 1) (x0 := (batch 2 1).chunk 2 1) (x1 := (batch 2 2).chunk 2 1)
    (g0 := (batch 2 1).chunk 2 1) (g1 := (batch 2 1).chunk 2 1) q2 (by decide) rfl rfl rfl rfl
  have fh : FitsRun w halves := by
    have app : ∀ (xs ys : List (Op α)) (w : World α), FitsRun w xs → FitsRun (run xs w) ys → FitsRun w (xs ++ ys) := by
      intro xs
      induction xs with
      | nil => exact fun _ _ _ h => h
      | cons x xs ih => exact fun ys w h1 h2 => ⟨h1.1, ih ys _ h1.2 h2⟩
    exact app _ _ _ q1 r1
  have qh : ∀ op ∈ (halves : List (Op α)), op.Quiet := by
    intro op hop
    rcases List.mem_append.1 hop with h | h <;> exact bpass_quiet op h
  have WF := hw.window p1 bpass_quiet
  have WH := hw.window fh qh
  have fa : fired "a" (halves : List (Op α)) w = _ := fired_append "a" _ _ w
  have fb : fired "b" (halves : List (Op α)) w = _ := fired_append "b" _ _ w
  rw [q5, r5] at fa
  rw [q6, r6] at fb
  have sp : ∀ m ∈ w.opt.layers, SplitInto 2 (fired m.name full w) (fired m.name halves w) := by
    intro m hm
    rw [hl] at hm
    simp only [List.mem_cons, List.not_mem_nil, or_false] at hm
    rcases hm with rfl | rfl
    · show SplitInto 2 (fired "a" full w) (fired "a" halves w)
      rw [fa, show fired "a" full w = _ from p5]
      refine ⟨fun e he => ?_, List.Perm.refl _⟩
      obtain rfl := List.mem_singleton.1 he
      exact ⟨⟨1, [1], rfl⟩, ⟨1, [1], rfl⟩⟩
    · show SplitInto 2 (fired "b" full w) (fired "b" halves w)
      rw [fb, show fired "b" full w = _ from p6]
      refine ⟨fun e he => ?_, List.Perm.refl _⟩
      obtain rfl := List.mem_singleton.1 he
      exact ⟨⟨1, [2], rfl⟩, ⟨1, [1], rfl⟩⟩
  have hne : ∀ m ∈ w.opt.layers, fired m.name full w ≠ [] ∧ fired m.name halves w ≠ [] := by
    intro m hm
    rw [hl] at hm
    simp only [List.mem_cons, List.not_mem_nil, or_false] at hm
    rcases hm with rfl | rfl
    · show fired "a" full w ≠ [] ∧ fired "a" halves w ≠ []
      rw [fa, show fired "a" full w = _ from p5]; simp
    · show fired "b" full w ≠ [] ∧ fired "b" halves w ≠ []
      rw [fb, show fired "b" full w = _ from p6]; simp
  have st : ∀ m ∈ w.opt.layers, ((run full w).opt.HKs m.name ≠ none ∧ (run full w).opt.HCs m.name ≠ none) ∧
      ((run halves w).opt.HKs m.name ≠ none ∧ (run halves w).opt.HCs m.name ≠ none) := by
    intro m hm
    obtain ⟨h, hh, _⟩ := hu m hm
    obtain ⟨p, hp⟩ := hw.prev
    have S1 := WF.stats m hm h p hh hp
    have S2 := WH.stats m hm h p hh hp
    have := hne m hm
    exact ⟨⟨fun e => this.1 (S1.HK0.1 e).2, fun e => this.1 (S1.HC0.1 e).2⟩, ⟨fun e => this.2 (S2.HK0.1 e).2, fun e => this.2 (S2.HC0.1 e).2⟩⟩
  have gh : (run halves w).grad = ggrad := by
    have : run halves w = _ := run_append _ _ w
    rw [this, r3, q3, hg]
  have sh : (run halves w).opt.scales = w.opt.scales := by
    have : run halves w = _ := run_append _ _ w
    rw [this, r4, q4]
  have gf : (run full w).grad = ggrad := by
    have : (run full w).grad = _ := p3
    rw [this, hg]
  have F1 : FitsOp (run full w) (.step false none false) := fits_step WF.live (by
    have := WF.layers; rw [show bpass 0 (batch 2 1) (batch 2 2) (batch 2 1) (batch 2 1) = (full : List (Op α)) from rfl] at this; rw [this, hl])
    gf fun m hm => (st m (by have := WF.layers; rw [← this]; exact hm)).1
  have F2 : FitsOp (run halves w) (.step false none false) := fits_step WH.live (by rw [WH.layers, hl])
    gh fun m hm => (st m (by rw [← WH.layers]; exact hm)).2
  have cs : (run full w).curScale none = (run halves w).curScale none := by
    have e1 : (run full w).opt.scales = w.opt.scales := p4
    have e2 : (run full w).opt.steps = w.opt.steps := WF.steps
    rw [World.curScale, World.curScale, sh, WH.steps, e1, e2]
  refine ⟨⟨p1, fh⟩, bpass_quiet, qh, sp, F1, F2, ?_, p5, cs⟩
  refine .passes bpass_quiet qh sp hP (.step cs ?_ ?_ (.done _ _))
  · intro _ m _ p _
    rw [gh, gf]
  · have e1 : (run full w).opt.layers = w.opt.layers := WF.layers
    have e2 : ∀ m, (run full w).opt.hyperOf m = w.opt.hyperOf m := WF.hyperOf
    rw [e1]; intro m hm h hh
    rw [e2] at hh; exact hP m hm h hh

end Sample

-- a batch of two as two micro-batches
example : ∃ (cl : String → Cls × Cls) (w : World ℝ), w.Live cl ∧ (∀ m ∈ w.opt.layers, w.opt.HKs m.name = none ∧ w.opt.HCs m.name = none) ∧
    FitsRun w (Sample.full ++ [.step false none false]) ∧ FitsRun w (Sample.halves ++ [.step false none false]) ∧
    MicroRun (fun h => h.lossAverage ≠ none ∧ h.kfacLike = false) 2 w w (Sample.full ++ [.step false none false])
      (Sample.halves ++ [.step false none false]) := by
  obtain ⟨o, ws, hi, hl, hh, ht⟩ := Sample.glive_init (α := ℝ)
  have I := init_ok (by decide) hi
  obtain ⟨cl, _, lv⟩ := I.live (grad := Sample.ggrad) ht one_pos
  obtain ⟨⟨f1, f2⟩, _, _, _, s1, s2, mr, _, _⟩ := Sample.micro_run lv hl (fun m hm => ⟨_, hh m hm, by rw [I.steps]; rfl⟩) rfl rfl
    (P := fun h => h.lossAverage ≠ none ∧ h.kfacLike = false) (fun m hm h e => by
      rw [hh m hm] at e; cases e; exact ⟨by simp [defaults, Sample.gargs], rfl⟩)
  have app : ∀ (xs ys : List (Op ℝ)) (w : World ℝ), FitsRun w xs → FitsRun (run xs w) ys → FitsRun w (xs ++ ys) := by
    intro xs
    induction xs with
    | nil => exact fun _ _ _ h => h
    | cons x xs ih => exact fun ys w h1 h2 => ⟨h1.1, ih ys _ h1.2 h2⟩
  exact ⟨cl, _, lv, fun m _ => ⟨by rw [I.HKs], by rw [I.HCs]⟩, app _ _ _ f1 ⟨s1, trivial⟩, app _ _ _ f2 ⟨s2, trivial⟩, mr⟩

namespace Sample
open IOSpec IOProof PIO

theorem inputMoment_trace {h : Hyper α} (hv : h.kfacApprox = "expand") : 0 < (inputMoment h la (batch 2 1)).trace := by
  obtain ⟨X, e, hr, hc, hX⟩ := (C20_linear_input (batch 2 1 : ND α) (b := 2) (d := 1) (sh := []) rfl true).1
  have e' : inputMoment h la (batch 2 1) = secMom X la.nK := by
    unfold inputMoment; rw [hv]
    show (match processInput (batch 2 1 : ND α) .linear true "expand" with | .ok a => secMom a la.nK | .error _ => 0) = _
    rw [e]
  rw [e']
  show 0 < ∑ i : Fin 2, secMom X 2 i i
  simp only [secMom, hX, Fin.sum_univ_two]
  simp [Finset.sum_range_succ, withBias, sumIdx, multiIdx, entry, batch, ravel]
  positivity

theorem gradMoment_trace {h : Hyper α} (hv : h.kfacApprox = "expand") (hl : h.lossAverage = none) :
    0 < (gradMoment h la (batch 2 1)).trace := by
  obtain ⟨X, e, hr, hc, hX⟩ := (C21_linear_grad (batch 2 1 : ND α) (batch 2 1 : ND α) (b := 2) (d := 1) (sh := []) rfl rfl (la := none)
    (Or.inl rfl) (by decide) (fun k _ => by simp [numTerms])).1
  have e' : gradMoment h la (batch 2 1) = secMom X la.nC := by
    unfold gradMoment; rw [hv, hl]
    show (match processGradOutput (batch 2 1 : ND α) .linear none "expand" with | .ok a => secMom a la.nC | .error _ => 0) = _
    rw [e]
  rw [e']
  show 0 < ∑ i : Fin 1, secMom X 1 i i
  simp only [secMom, Fin.sum_univ_one]
  rw [hX _ (by simp) _ (by simp)]
  simp [Finset.sum_range_succ, sumIdx, multiIdx, entry, batch, ravel, numTerms]
  positivity

/-- the sample model, a batch of two inputs before and after being split, the state before the step, and the statistics of the first layer -/
theorem micro_step {a : Args α} (hv : validate a = .ok ()) (hwu : a.warnUnsupported = true) (hst : a.structures = ("dense", "diagonal"))
    (hac : Accepted (defaults a)) (hck : checked (defaults a) = defaults a) (hT : a.T ≠ 0) (hs : a.initGradScale = 1)
    (he : (defaults a).kfacApprox = "expand") :
    ∃ (cl : String → Cls × Cls) (w : World α), w.Live cl ∧ (∀ m ∈ w.opt.layers, w.opt.HKs m.name = none ∧ w.opt.HCs m.name = none) ∧
      FitsRun w (full ++ [.step false none false]) ∧ FitsRun w (halves ++ [.step false none false]) ∧
      MicroRun (fun h => h = defaults a) 2 w w (full ++ [.step false none false]) (halves ++ [.step false none false]) ∧
      la ∈ w.opt.layers ∧ w.opt.steps = 0 ∧ w.opt.hyperOf la = .ok (defaults a) ∧
      StatMul la ((2 : ℕ) : α) (microFactor 2 (defaults a).lossAverage) (run full w) (run halves w) ∧ SameConf (run full w) (run halves w) ∧
      (∃ u > 0, ∃ s, StepSpec cl s u (run full w) (run (full ++ [.step false none false]) w) ∧
        StepSpec cl s u (run halves w) (run (halves ++ [.step false none false]) w)) ∧
      (run full w).opt.Ks la.name = (run halves w).opt.Ks la.name ∧ (run full w).opt.Cs la.name = (run halves w).opt.Cs la.name ∧
      (run full w).opt.hyperOf la = .ok (defaults a) ∧ (run full w).opt.steps = 0 ∧ la ∈ (run full w).opt.layers ∧
      denO ((run full w).opt.Ks la.name) la.nK * denO ((run full w).opt.HKs la.name) la.nK ≠ 0 ∧
      ((defaults a).lossAverage = none → avgTr (denO ((run full w).opt.HCs la.name) la.nC) ≠ 0) ∧
      w.hooks = [] ∧ (∀ m ∈ w.opt.layers, w.opt.hyperOf m = .ok (defaults a) ∧ cl m.name = (.dense, .diagonal)) ∧
      denO (w.opt.Ks la.name) la.nK = 1 ∧ denO (w.opt.Cs la.name) la.nC = 1 := by
  obtain ⟨o, ws, hi, hl, hh, ht⟩ := Sample.glive_init' hv hwu hst hac hck hT
  have I := init_ok (by decide) hi
  obtain ⟨cl, hcl, lv⟩ := I.live (grad := Sample.ggrad) ht (by rw [hs]; exact one_pos)
  obtain ⟨⟨f1, f2⟩, q1, q2, sp, s1, s2, mr, fa, cs⟩ := Sample.micro_run lv hl (fun m hm => ⟨_, hh m hm, by rw [I.steps]; exact Nat.zero_mod _⟩) rfl rfl
    (P := fun h => h = defaults a) (fun m hm h e => by
      have := hh m hm
      rw [this] at e; cases e; rfl)
  have app : ∀ (xs ys : List (Op α)) (w : World α), FitsRun w xs → FitsRun (run xs w) ys → FitsRun w (xs ++ ys) := by
    intro xs
    induction xs with
    | nil => exact fun _ _ _ h => h
    | cons x xs ih => exact fun ys w h1 h2 => ⟨h1.1, ih ys _ h1.2 h2⟩
  have hla : la ∈ o.layers := by rw [hl]; simp
  have WF := lv.window f1 q1
  have WH := lv.window f2 q2
  have conf : SameConf (run full ⟨o, gdata, ggrad, []⟩) (run halves ⟨o, gdata, ggrad, []⟩) :=
    ⟨by rw [WF.layers, WH.layers], by rw [WF.ptrGroup, WH.ptrGroup], by rw [WF.groups, WH.groups], by rw [WF.steps, WH.steps]⟩
  obtain ⟨p, hp⟩ := lv.prev
  have S := WF.stats la hla _ p (hh la hla) hp
  have hp0 := lv.pos _ _ hp
  have hc : (cl la.name).1.Supports la.nK ∧ (cl la.name).2.Supports la.nC := by
    obtain ⟨hy, e1, e2, e3⟩ := hcl la hla
    rw [← I.structs] at e2 e3
    obtain ⟨g1, _, g3, _⟩ := ht.cls la hla hy _ _ e1 e2 e3
    exact ⟨g1, g3⟩
  have hK1 : denO (o.Ks la.name) la.nK = 1 ∧ denO (o.Cs la.name) la.nC = 1 := by
    obtain ⟨hy, cK, cC, K, C, e1, e2, e3, eK, eC, sK, sC, m0, m1⟩ := (I.lay la hla).ex
    obtain ⟨g1, _, g3, _⟩ := ht.cls la hla hy _ _ e1 e2 e3
    obtain ⟨K', eK', _, dK⟩ := (C12_eye_zeros (α := α) g1).1
    obtain ⟨C', eC', _, dC⟩ := (C12_eye_zeros (α := α) g3).1
    rw [eK] at eK'; cases eK'
    rw [eC] at eC'; cases eC'
    rw [sK, sC, denO_some, denO_some]; exact ⟨dK, dC⟩
  have sand : ∀ (c : Cls) {n : ℕ} (G : Matrix (Fin n) (Fin n) α), c.sandwich 1 G = G := by
    intro c n G; unfold Cls.sandwich; cases c <;> simp
  have tK : 0 < (denO ((run full ⟨o, gdata, ggrad, []⟩).opt.HKs la.name) la.nK).trace := by
    rw [S.HK, show fired la.name full _ = _ from fa]
    show 0 < (denO (o.HKs la.name) la.nK + _).trace
    rw [I.HKs]
    rw [show denO (none : Option (SM α)) _ = 0 from rfl, zero_add]
    simp only [List.map_cons, List.map_nil, List.sum_cons, List.sum_nil, add_zero]
    rw [proj_trace hc.1]
    show 0 < ((cl la.name).1.sandwich (denO (o.Ks la.name) la.nK) _).trace
    rw [hK1.1, sand]
    exact inputMoment_trace he
  have tC : (defaults a).lossAverage = none → 0 < (denO ((run full ⟨o, gdata, ggrad, []⟩).opt.HCs la.name) la.nC).trace := by
    intro hn
    rw [S.HC, show fired la.name full _ = _ from fa]
    show 0 < (denO (o.HCs la.name) la.nC + _).trace
    rw [I.HCs]
    rw [show denO (none : Option (SM α)) _ = 0 from rfl, zero_add]
    simp only [List.map_cons, List.map_nil, List.sum_cons, List.sum_nil, add_zero]
    rw [Matrix.trace_smul, proj_trace hc.2]
    show 0 < (1 / p) • ((cl la.name).2.sandwich (denO (o.Cs la.name) la.nC) _).trace
    rw [hK1.2, sand, smul_eq_mul]
    exact mul_pos (by positivity) (gradMoment_trace he hn)
  obtain ⟨A', eA, sA, _⟩ := WF.live.step s1
  obtain ⟨B', eB, sB, _⟩ := WH.live.step s2
  have us : (run full ⟨o, gdata, ggrad, []⟩).unscale none = (run halves ⟨o, gdata, ggrad, []⟩).unscale none := by
    rw [World.unscale, World.unscale, cs, WF.steps, WF.prev, WH.steps, WH.prev]
  have rA : run (full ++ [.step false none false]) ⟨o, gdata, ggrad, []⟩ = A' := by rw [run_append, run_cons, eA]; rfl
  have rB : run (halves ++ [.step false none false]) ⟨o, gdata, ggrad, []⟩ = B' := by rw [run_append, run_cons, eB]; rfl
  have up : 0 < (run full ⟨o, gdata, ggrad, []⟩).unscale none := by
    rw [World.unscale, WF.steps, WF.prev, hp]
    exact div_pos hp0 (pow_pos (WF.live.curScale_pos (by simp)) 2)
  refine ⟨cl, ⟨o, gdata, ggrad, []⟩, lv, fun m _ => ⟨congrFun I.HKs _, congrFun I.HCs _⟩, app _ _ _ f1 ⟨s1, trivial⟩,
    app _ _ _ f2 ⟨s2, trivial⟩, mr, hla, I.steps, hh la hla, ?_, conf, ⟨_, up, (run full ⟨o, gdata, ggrad, []⟩).curScale none, ?_, ?_⟩, by rw [WF.Ks, WH.Ks], by rw [WF.Cs, WH.Cs],
    by rw [WF.hyperOf]; exact hh la hla, by rw [WF.steps]; exact I.steps, by rw [WF.layers]; exact hla, ?_, ?_, rfl, fun m hm => ⟨hh m hm, ?_⟩, hK1⟩
  · exact C34_statistics (by decide) lv lv f1 f2 q1 q2 ⟨rfl, rfl, rfl, rfl⟩ rfl hla (hh la hla) rfl rfl (sp la hla)
      ⟨by show denO (o.HKs _) _ = _ • denO (o.HKs _) _; rw [I.HKs]; simp [denO],
       by show denO (o.HCs _) _ = _ • denO (o.HCs _) _; rw [I.HCs]; simp [denO], Iff.rfl, Iff.rfl⟩
  · rw [rA]; exact sA
  · rw [rB, cs, us]; exact sB
  · rw [WF.Ks]
    show denO (o.Ks la.name) la.nK * denO _ la.nK ≠ 0
    rw [hK1.1, one_mul]
    intro e
    have : (denO ((run full ⟨o, gdata, ggrad, []⟩).opt.HKs la.name) la.nK).trace = 0 := by
      rw [show denO ((run full ⟨o, gdata, ggrad, []⟩).opt.HKs la.name) la.nK = 0 from e]; simp
    exact tK.ne' this
  · intro hn
    have := tC hn
    show (denO ((run full ⟨o, gdata, ggrad, []⟩).opt.HCs la.name) la.nC).trace / _ ≠ 0
    exact div_ne_zero this.ne' (Nat.cast_ne_zero.2 (by decide))
  · obtain ⟨hy, e1, e2, e3⟩ := hcl m hm
    rw [show o.hyperOf m = .ok (defaults a) from hh m hm] at e1
    cases e1
    rw [show (defaults a).structures = ("dense", "diagonal") from hst] at e2 e3
    exact Prod.ext (Option.some.inj e2).symm (Option.some.inj e3).symm

end Sample

/-- the arguments of a counterexample to C34 -/
noncomputable def Sample.margs (kfac : Bool) (avg : Option String) : Args ℝ := { Sample.gargs with alpha1 := .float 0, kfacLike := kfac, lossAverage := avg }

/-- **C34 is false for `kfac_like` and for `loss_average=None`.** Trained on a batch of two inputs at once or as two micro-batches, with the
same gradients, a model ends up with different factors after one step. -/
theorem C34_false (avg : Option String) (kfac : Bool) (hk : (kfac = true ∧ avg = some "batch") ∨ (kfac = false ∧ avg = none)) :
    ∃ (cl : String → Cls × Cls) (w : World ℝ) (as bs : List (Op ℝ)), w.Live cl ∧
      (∀ m ∈ w.opt.layers, w.opt.HKs m.name = none ∧ w.opt.HCs m.name = none) ∧ FitsRun w as ∧ FitsRun w bs ∧
      MicroRun (fun h => h.lossAverage = avg ∧ h.kfacLike = kfac) 2 w w as bs ∧
      ∃ m ∈ w.opt.layers, (run as w).opt.Ks m.name ≠ (run bs w).opt.Ks m.name := by
  have h2 : ¬ ((2⁻¹ : ℝ) < 0) := by simp
  have mono : ∀ {P Q : Hyper ℝ → Prop} (_ : ∀ h, P h → Q h) {k : ℕ} {A B : World ℝ} {as bs : List (Op ℝ)}, MicroRun P k A B as bs → MicroRun Q k A B as bs := by
    intro P Q hPQ k A B as bs hm
    induction hm with
    | done A B => exact .done A B
    | passes qA qB split hyp _ ih => exact .passes qA qB split (fun m hm h e => hPQ h (hyp m hm h e)) ih
    | step scale grad hyp _ ih => exact .step scale grad (fun m hm h e => hPQ h (hyp m hm h e)) ih
    | setParam _ ih => exact .setParam ih
    | setHyper _ ih => exact .setHyper ih
  have hav : avg = none ∨ avg = some "batch" ∨ avg = some "batch+sequence" := by rcases hk with ⟨_, h⟩ | ⟨_, h⟩ <;> simp [h]
  obtain ⟨cl, w, lv, h0, f1, f2, mr, hm, st, hy, sm, conf, ⟨u, up, s, sA, sB⟩, eK, eC, hyF, stF, hmF, neK, neC, -⟩ := Sample.micro_step (a := Sample.margs kfac avg)
    (by simp [validate, Sample.margs, Sample.gargs, PyNum.rejected, PyRate.rejected, h2]) rfl rfl ⟨Or.inl rfl, hav⟩
    (by simp [checked, defaults, Sample.margs, Sample.gargs, PyNum.val]) (show (2 : ℕ) ≠ 0 by decide) rfl rfl
  refine ⟨cl, w, _, _, lv, h0, f1, f2, mono (by rintro h rfl; exact ⟨rfl, rfl⟩) mr, Sample.la, hm, fun e => ?_⟩
  have hβ : (defaults (Sample.margs kfac avg)).lrCov.at 0 = 1 / 10 := by simp [defaults, Sample.margs, Sample.gargs, PyRate.val, PyNum.val, LrCov.at]
  rcases hk with ⟨rfl, rfl⟩ | ⟨rfl, rfl⟩
  · have := C34_kfac_like_deviation sA sB hmF conf hyF (by rw [stF]; rfl) rfl rfl rfl eK sm
    rw [e, stF, hβ] at this
    have := (sub_eq_self.1 this.symm)
    rcases smul_eq_zero.1 this with h | h
    · norm_num at h
    · exact neK h
  · have := C34_sum_deviation sA sB hmF conf hyF (by rw [stF]; rfl) rfl rfl rfl eK eC (by have := sm; rw [show microFactor 2 (defaults (Sample.margs false none)).lossAverage = (1 : ℝ) from rfl] at this; exact this)
    rw [e, stF, hβ] at this
    have := (sub_eq_self.1 this.symm)
    rcases smul_eq_zero.1 this with h | h
    · rcases mul_eq_zero.1 h with h | h
      · norm_num at h
      · rcases mul_eq_zero.1 h with h | h
        · exact up.ne' h
        · exact neC rfl h
    · exact neK h
