import Verif.Proofs.Storage
import Verif.Proofs.Opt.InitLive
import Verif.Props.LiveSample

/-! Property C69: what the structures and the optimizer store. -/

set_option linter.unusedSectionVars false
variable {α : Type} [Field α]

/-- Number of scalars a matrix of class `c` and dimension `n` needs, counted from the documented shapes. -/
def Cls.stored : Cls → ℕ → ℕ
  | .dense, n => n * n
  | .diagonal, n => n
  | .block D, n => n / D * (D * D) + (n % D) * (n % D)
  | .hier m1 m2, n =>
    let k1 := min m1 n
    let k2 := min m2 (n - k1)
    let d := n - k1 - k2
    k1 * k1 + k1 * (d + k2) + d + k2 * d + k2 * k2
  | .tril, n => n
  | .triu, n => n
  | .topRight (.int a) _ ca cc, n => min a n * (n - min a n) + ca.stored (min a n) + cc.stored (n - min a n)
  | .topRight .inf (.int c) ca cc, n => (n - min c n) * min c n + ca.stored (n - min c n) + cc.stored (min c n)
  | .topRight .inf .inf _ _, _ => 0
  | .bottomLeft (.int a) _ ca cc, n => min a n * (n - min a n) + ca.stored (min a n) + cc.stored (n - min a n)
  | .bottomLeft .inf (.int c) ca cc, n => (n - min c n) * min c n + ca.stored (n - min c n) + cc.stored (min c n)
  | .bottomLeft .inf .inf _ _, _ => 0

/-- number of scalars in the tensors of an object -/
def SM.size (K : SM α) : ℕ := (K.parts.map List.length).sum

theorem Cls.stored_rec {n b : ℕ} {x y : MaxDim} (hb : RecBoundary n x y b) (ca cc : Cls) :
    (Cls.topRight x y ca cc).stored n = b * (n - b) + ca.stored b + cc.stored (n - b) ∧
    (Cls.bottomLeft x y ca cc).stored n = b * (n - b) + ca.stored b + cc.stored (n - b) := by
  cases x <;> cases y <;> simp only [RecBoundary] at hb
  · subst hb; exact ⟨rfl, rfl⟩
  · subst hb
    rename_i c
    have : n - (n - min c n) = min c n := by omega
    rw [this]
    exact ⟨rfl, rfl⟩

/-- every object of class `c` and dimension `n` stores exactly `c.stored n` numbers -/
theorem C69_size {c : Cls} {n : ℕ} {K : SM α} (h : WF c n K) : K.size = c.stored n := by
  induction h with
  | dense hr hc => simp [SM.size, SM.parts, Cls.stored, length_rowMajor, hr, hc]
  | diagonal h => simp [SM.size, SM.parts, Cls.stored, Vec.length_toList', h]
  | block h =>
    simp [SM.size, SM.parts, BlockDiag.parts, Cls.stored, length_rowMajor, List.length_flatMap, h.d0, h.d1, h.d2, h.lr, h.lc]
  | hier hd hs =>
    have h1 := hd.k1_eq; have h2 := hd.k2_eq; have h3 := hd.sum
    simp only [SM.size, SM.parts, Hier.parts, Cls.stored, List.map_cons, List.map_nil, List.length_map, length_rowMajor, List.sum_cons,
      List.sum_nil, Vec.length_toList', hs.Ar, hs.Ac, hs.Br, hs.Bc, hs.Cl, hs.Dr, hs.Dc, hs.Er, hs.Ec]
    rw [← h1, ← h2]
    have h4 : ∀ n k1 d k2 : ℕ, k1 + d + k2 = n → n - k1 - k2 = d := by omega
    rw [h4 _ _ _ _ h3]
    omega
  | tril _ h => simp [SM.size, SM.parts, Cls.stored, Vec.length_toList', h]
  | triu _ h => simp [SM.size, SM.parts, Cls.stored, Vec.length_toList', h]
  | topRight hb hA hr hc hC ihA ihC =>
    rw [(Cls.stored_rec hb _ _).1, ← ihA, ← ihC]
    simp [SM.size, SM.parts, length_rowMajor, hr, hc]; omega
  | bottomLeft hb hA hr hc hC ihA ihC =>
    rw [(Cls.stored_rec hb _ _).2, ← ihA, ← ihC]
    simp [SM.size, SM.parts, length_rowMajor, hr, hc, Nat.mul_comm]; omega

/-- `C69_size` on a nested class: a dense corner, a row block and a diagonal rest -/
example : ∃ K : SM ℚ, SM.eye (.topRight (.int 1) .inf .dense .diagonal) 3 = .ok K ∧ WF (.topRight (.int 1) .inf .dense .diagonal) 3 K ∧
    (K.parts.map List.length).sum = 5 := by
  obtain ⟨K, e, h, _⟩ := smeye_spec (α := ℚ) (c := .topRight (.int 1) .inf .dense .diagonal) (n := 3) ⟨1, rfl, trivial, trivial⟩
  exact ⟨K, e, h, C69_size h⟩

/-- nothing is stored twice: two objects that represent the same matrix have the same tensors -/
theorem C69_unique {c : Cls} {n : ℕ} {K L : SM α} (hK : WF c n K) (hL : WF c n L) (h : K.den n = L.den n) : K.parts = L.parts := by
  rw [hK.injective hL (Mat.eq_of_M hK.rows hK.cols hL.rows hL.cols h)]

theorem split_list {l : List α} {a b : ℕ} (h : l.length = a + b) : ∃ x y, l = x ++ y ∧ x.length = a ∧ y.length = b :=
  ⟨l.take a, l.drop a, (List.take_append_drop a l).symm, by rw [List.length_take]; omega, by rw [List.length_drop]; omega⟩

/-- and the count cannot be lowered: all values of the stored numbers occur -/
theorem C69_free {c : Cls} {n : ℕ} (hc : c.Supports n) (l : List α) (hl : l.length = c.stored n) :
    ∃ K : SM α, WF c n K ∧ K.parts.flatten = l := by
  induction c generalizing n l with
  | dense =>
    obtain ⟨A, h1, h2, e⟩ := Mat.exists_of_list n n l hl
    exact ⟨.dense A, .dense h1 h2, by simp [SM.parts, e]⟩
  | diagonal =>
    obtain ⟨d, h1, e⟩ := Vec.exists_of_list l
    exact ⟨.diagonal d, .diagonal (h1.trans hl), by simp [SM.parts, e]⟩
  | tril =>
    obtain ⟨d, h1, e⟩ := Vec.exists_of_list l
    exact ⟨.tril d, .tril hc (h1.trans hl), by simp [SM.parts, e]⟩
  | triu =>
    obtain ⟨d, h1, e⟩ := Vec.exists_of_list l
    exact ⟨.triu d, .triu hc (h1.trans hl), by simp [SM.parts, e]⟩
  | block D =>
    obtain ⟨x, y, rfl, hx, hy⟩ := split_list hl
    obtain ⟨L, l1, l2, el⟩ := Mat.exists_of_list _ _ y hy
    obtain ⟨T, t0, t1, t2, et⟩ := T3.exists_of_list _ _ _ x hx
    exact ⟨.block ⟨D, T, L⟩, .block ⟨hc, rfl, t0, t1, t2, l1, l2⟩, by simp [SM.parts, BlockDiag.parts, et, el]⟩
  | hier m1 m2 =>
    simp only [Cls.stored] at hl
    obtain ⟨x, xE, rfl, hx, hE⟩ := split_list hl
    obtain ⟨x, xD, rfl, hx, hD⟩ := split_list hx
    obtain ⟨x, xC, rfl, hx, hC⟩ := split_list hx
    obtain ⟨xA, xB, rfl, hA, hB⟩ := split_list hx
    obtain ⟨A, a1, a2, ea⟩ := Mat.exists_of_list _ _ xA hA
    obtain ⟨B, b1, b2, eb⟩ := Mat.exists_of_list _ _ xB hB
    obtain ⟨C, c1, ec⟩ := Vec.exists_of_list xC
    obtain ⟨D, d1, d2, ed⟩ := Mat.exists_of_list _ _ xD hD
    obtain ⟨E, e1, e2, ee⟩ := Mat.exists_of_list _ _ xE hE
    exact ⟨.hier ⟨m1, m2, A, B, C, D, E⟩, .hier (k1 := min m1 n) (k2 := min m2 (n - min m1 n)) (d := n - min m1 n - min m2 (n - min m1 n))
      ⟨by omega, rfl, rfl⟩ ⟨rfl, rfl, by omega, by omega, a1, a2, b1, b2, c1.trans hC, d1, d2, e1, e2⟩,
      by simp [SM.parts, Hier.parts, ea, eb, ec, ed, ee]⟩
  | topRight x y ca cc ihA ihC =>
    obtain ⟨b, hb, sa, sc⟩ := hc
    rw [(Cls.stored_rec hb _ _).1] at hl
    obtain ⟨l, lC, rfl, hx, hC⟩ := split_list hl
    obtain ⟨lB, lA, rfl, hB, hA⟩ := split_list hx
    obtain ⟨B, b1, b2, eb⟩ := Mat.exists_of_list _ _ lB hB
    obtain ⟨A, wA, ea⟩ := ihA sa lA hA
    obtain ⟨C, wC, ec⟩ := ihC sc lC hC
    exact ⟨.topRight x y ca cc A B C, .topRight hb wA b1 b2 wC, by simp [SM.parts, ea, eb, ec]⟩
  | bottomLeft x y ca cc ihA ihC =>
    obtain ⟨b, hb, sa, sc⟩ := hc
    rw [(Cls.stored_rec hb _ _).2, Nat.mul_comm b] at hl
    obtain ⟨l, lC, rfl, hx, hC⟩ := split_list hl
    obtain ⟨lB, lA, rfl, hB, hA⟩ := split_list hx
    obtain ⟨B, b1, b2, eb⟩ := Mat.exists_of_list _ _ lB hB
    obtain ⟨A, wA, ea⟩ := ihA sa lA hA
    obtain ⟨C, wC, ec⟩ := ihC sc lC hC
    exact ⟨.bottomLeft x y ca cc A B C, .bottomLeft hb wA b1 b2 wC, by simp [SM.parts, ea, eb, ec]⟩

/-- No class stores more than the dense matrix; the sizes of all but dense and recursive classes grow linearly with the dimension. -/
theorem C69_le (n : ℕ) : (∀ c : Cls, c.stored n ≤ n * n) ∧ Cls.diagonal.stored n = n ∧ Cls.tril.stored n = n ∧ Cls.triu.stored n = n ∧
    (∀ D, 0 < D → (Cls.block D).stored n ≤ n * D) ∧ ∀ m1 m2, (Cls.hier m1 m2).stored n ≤ n * (m1 + m2 + 1) := by
  refine ⟨fun c => ?_, rfl, rfl, rfl, fun D hD => ?_, fun m1 m2 => ?_⟩
  · have two : ∀ b n x y : ℕ, b ≤ n → x ≤ b * b → y ≤ (n - b) * (n - b) → b * (n - b) + x + y ≤ n * n := by
      intro b n x y hb hx hy
      obtain ⟨e, rfl⟩ := Nat.exists_eq_add_of_le hb
      rw [Nat.add_sub_cancel_left] at *
      nlinarith
    induction c generalizing n with
    | dense => exact le_rfl
    | diagonal => exact Nat.le_mul_self n
    | tril => exact Nat.le_mul_self n
    | triu => exact Nat.le_mul_self n
    | block D =>
      have := Nat.div_add_mod n D
      show n / D * (D * D) + (n % D) * (n % D) ≤ n * n
      generalize n / D = q at *
      generalize n % D = r at *
      subst this
      have := Nat.le_mul_self q
      nlinarith [Nat.zero_le (D * q * r), Nat.mul_le_mul_right (D * D) this]
    | hier m1 m2 =>
      simp only [Cls.stored]
      have h1 : min m1 n ≤ n := Nat.min_le_right _ _
      generalize min m1 n = k1 at *
      have h2 : min m2 (n - k1) ≤ n - k1 := Nat.min_le_right _ _
      generalize min m2 (n - k1) = k2 at *
      obtain ⟨d, rfl⟩ : ∃ d, n = k1 + d + k2 := ⟨n - k1 - k2, by omega⟩
      rw [show k1 + d + k2 - k1 - k2 = d by omega]
      have := Nat.le_mul_self d
      nlinarith [Nat.zero_le (k1 * d), Nat.zero_le (k1 * k2), Nat.zero_le (d * k2)]
    | topRight x y ca cc ihA ihC =>
      cases x with
      | int a => exact two _ _ _ _ (Nat.min_le_right _ _) (ihA _) (ihC _)
      | inf => cases y with
        | int c =>
          have h1 := two (n - min c n) n _ _ (by omega) (ihA _) (ihC _)
          rw [show n - (n - min c n) = min c n by omega] at h1
          exact h1
        | inf => exact Nat.zero_le _
    | bottomLeft x y ca cc ihA ihC =>
      cases x with
      | int a => exact two _ _ _ _ (Nat.min_le_right _ _) (ihA _) (ihC _)
      | inf => cases y with
        | int c =>
          have h1 := two (n - min c n) n _ _ (by omega) (ihA _) (ihC _)
          rw [show n - (n - min c n) = min c n by omega] at h1
          exact h1
        | inf => exact Nat.zero_le _
  · have h1 := Nat.div_add_mod n D
    have h2 := Nat.mod_lt n hD
    show n / D * (D * D) + (n % D) * (n % D) ≤ n * D
    generalize n / D = q at *
    generalize n % D = r at *
    subst h1
    nlinarith
  · simp only [Cls.stored]
    have h1 : min m1 n ≤ n := Nat.min_le_right _ _
    have h1' : min m1 n ≤ m1 := Nat.min_le_left _ _
    generalize min m1 n = k1 at *
    have h2 : min m2 (n - k1) ≤ n - k1 := Nat.min_le_right _ _
    have h2' : min m2 (n - k1) ≤ m2 := Nat.min_le_left _ _
    generalize min m2 (n - k1) = k2 at *
    obtain ⟨d, rfl⟩ : ∃ d, n = k1 + d + k2 := ⟨n - k1 - k2, by omega⟩
    rw [show k1 + d + k2 - k1 - k2 = d by omega]
    have e1 := Nat.mul_le_mul_left (k1 + d + k2) h1'
    have e2 := Nat.mul_le_mul_left (k1 + d + k2) h2'
    nlinarith [Nat.zero_le (k1 * k2)]

example : (Cls.block 30).stored 100 = 2800 ∧ (Cls.hier 15 15).stored 100 = 2845 ∧ Cls.dense.stored 100 = 10000 ∧
    (Cls.topRight (.int 3) .inf .dense .diagonal).stored 10 = 37 := by decide

section
variable [LinearOrder α] [HasSqrt α]

/-- everything the optimizer stores belongs to a layer it trains: no operation, successful or not, adds factors, momenta or
statistics under another name, nor momentum buffers of other parameters -/
structure Opt.Owned (o : Opt α) : Prop where
  fac : ∀ n, (∀ m ∈ o.layers, n ≠ m.name) → o.Ks n = none ∧ o.Cs n = none ∧ o.mKs n = none ∧ o.mCs n = none ∧ o.HKs n = none ∧ o.HCs n = none
  mom : ∀ p, (∀ m ∈ o.layers, p ≠ m.weight.ptr ∧ ∀ b, m.bias = some b → p ≠ b.ptr) → o.mom p = none

theorem Opt.Owned.frame {N S : String → Prop} {P : ℕ → Prop} {w w' : World α} (h : w.opt.Owned) (f : Frame N S P w w')
    (hN : ∀ n, N n → ∃ m ∈ w.opt.layers, n = m.name) (hS : ∀ n, S n → ∃ m ∈ w.opt.layers, n = m.name)
    (hP : ∀ p, P p → ∃ m ∈ w.opt.layers, World.Owns m p) : w'.opt.Owned := by
  refine ⟨fun n hn => ?_, fun p hp => ?_⟩
  · rw [f.layers] at hn
    have h1 : ¬ N n := fun c => by obtain ⟨m, hm, e⟩ := hN n c; exact hn m hm e
    have h2 : ¬ S n := fun c => by obtain ⟨m, hm, e⟩ := hS n c; exact hn m hm e
    rw [f.Ks n h1, f.Cs n h1, f.mKs n h1, f.mCs n h1, f.HKs n h2, f.HCs n h2]
    exact h.fac n hn
  · rw [f.layers] at hp
    have h1 : ¬ P p := fun c => by
      obtain ⟨m, hm, e⟩ := hP p c
      rcases e with e | ⟨b, hb, e⟩
      · exact (hp m hm).1 e
      · exact (hp m hm).2 b hb e
    rw [f.mom p h1]
    exact h.mom p hp

theorem exec_owned (op : Op α) (w : World α) (h : w.opt.Owned ∧ ∀ mx ∈ w.hooks, mx.1 ∈ w.opt.layers) :
    (exec op w).2.opt.Owned ∧ ∀ mx ∈ (exec op w).2.hooks, mx.1 ∈ (exec op w).2.opt.layers := by
  obtain ⟨h, hk⟩ := h
  cases op with
  | forward i x ge =>
    rcases exec_forward i x ge w with e | ⟨_, m, hm, _, e⟩
    · rw [e]; exact ⟨h, hk⟩
    · rw [e]
      refine ⟨h, fun mx hmx => ?_⟩
      rcases List.mem_append.1 hmx with hmx | hmx
      · exact hk mx hmx
      · rw [List.mem_singleton.1 hmx]; exact List.mem_of_getElem? hm
  | backward k g =>
    have f := exec_backward k g w
    refine ⟨h.frame f (fun _ => False.elim) (fun n hn => ?_) (fun _ => False.elim), by rw [f.hooks, f.layers]; exact hk⟩
    obtain ⟨mx, hmx, e⟩ := hn
    exact ⟨mx.1, hk mx (List.mem_of_getElem? hmx), e⟩
  | setGrad p G => exact ⟨⟨h.fac, h.mom⟩, hk⟩
  | setParam p M => exact ⟨⟨h.fac, h.mom⟩, hk⟩
  | setHyper i h' => exact ⟨⟨h.fac, h.mom⟩, hk⟩
  | setScale s => rw [exec, World.setScale_state]; exact ⟨⟨h.fac, h.mom⟩, hk⟩
  | step c attr f =>
    cases c
    · rw [exec]
      have fr := stepBody_frame f (World.withScale attr w)
      have h0 : (World.withScale attr w).opt.Owned := ⟨h.fac, h.mom⟩
      have h1 := h0.frame fr (fun n hn => by obtain ⟨_, m, hm, e, _⟩ := hn; exact ⟨m, hm, e⟩)
        (fun n hn => by obtain ⟨m, hm, e, _⟩ := hn; exact ⟨m, hm, e⟩) (fun p hp => hp.2)
      have k1 : ∀ mx ∈ (World.stepBody f (World.withScale attr w)).2.hooks, mx.1 ∈ (World.stepBody f (World.withScale attr w)).2.opt.layers := by
        rw [fr.hooks, fr.layers]; exact hk
      rcases step_state attr f w with e | ⟨e', e⟩ | ⟨w1, e1, e⟩
      · rw [e]; exact ⟨h0, hk⟩
      · rw [e]; exact ⟨h1, k1⟩
      · rw [e]
        rw [e1] at h1 k1
        exact ⟨⟨h1.fac, h1.mom⟩, k1⟩
    · rw [exec, step_closure]; exact ⟨h, hk⟩

/-- In every reachable state, whatever operations were tried, nothing is stored for other layers or parameters. -/
theorem C69_owned {structs : String → Option Cls} {w : World α} (h : Reachable structs w) : w.opt.Owned := by
  obtain ⟨model, p, a, o, ws, data, grad, ops, hn, hi, rfl⟩ := h
  have I := Construct.init_ok hn hi
  refine (run_inv (P := fun w => w.opt.Owned ∧ ∀ mx ∈ w.hooks, mx.1 ∈ w.opt.layers) exec_owned ops _ ⟨⟨fun n hn => ?_, fun p _ => ?_⟩, ?_⟩).1
  · obtain ⟨h1, h2, h3, h4⟩ := I.other n hn
    exact ⟨h1, h2, h3, h4, by show o.HKs n = none; rw [I.HKs], by show o.HCs n = none; rw [I.HCs]⟩
  · show o.mom p = none; rw [I.mom]
  · simp
end

variable [LinearOrder α] [IsStrictOrderedRing α] [LawfulSqrt α]

/-- Training never changes what the factors, momenta and statistics cost: after every run each layer holds exactly
`c_K.stored n_K + c_C.stored n_C` numbers in its factors, and at most as many again in each of momenta and statistics. -/
theorem C69_training {structs : String → Option Cls} {model : Model} {p : ParamArg α} {a : Args α} {o : Opt α} {ws : List Warn}
    (hn : (model.layers.map (·.name)).Nodup) (hi : Construct.init structs model p a = .ok (o, ws)) {data : ℕ → Mat α}
    {grad : ℕ → Option (Mat α)} (ht : Trainable o data) (hs : 0 < a.initGradScale) {ops : List (Op α)}
    (hf : FitsRun ⟨o, data, grad, []⟩ ops) {m : Layer} (hm : m ∈ o.layers) :
    ∃ hy cK cC, o.hyperOf m = .ok hy ∧ structs hy.structures.1 = some cK ∧ structs hy.structures.2 = some cC ∧
    let o' := (run ops ⟨o, data, grad, []⟩).opt
    (o'.Ks m.name).map SM.size = some (cK.stored m.nK) ∧ (o'.Cs m.name).map SM.size = some (cC.stored m.nC) ∧
    (∀ X, o'.mKs m.name = some X → X.size = cK.stored m.nK) ∧ (∀ X, o'.mCs m.name = some X → X.size = cC.stored m.nC) ∧
    (∀ X, o'.HKs m.name = some X → X.size = cK.stored m.nK) ∧ (∀ X, o'.HCs m.name = some X → X.size = cC.stored m.nC) := by
  have I := Construct.init_ok hn hi
  obtain ⟨cl, hcl, L⟩ := I.live (grad := grad) ht hs
  obtain ⟨hy, h1, h2, h3⟩ := hcl m hm
  obtain ⟨-, L'⟩ := L.run hf
  have hl : (run ops ⟨o, data, grad, []⟩).opt.layers = o.layers :=
    run_inv (P := fun w => w.opt.layers = o.layers) (fun op w h => (exec_static op w).1.trans h) ops _ rfl
  have W := L'.sound.lay m (by rw [hl]; exact hm)
  refine ⟨hy, _, _, h1, h2, h3, ?_, ?_, fun X hX => C69_size (W.mK X hX), fun X hX => C69_size (W.mC X hX),
    fun X hX => C69_size (W.HK X hX), fun X hX => C69_size (W.HC X hX)⟩
  · obtain ⟨K, e, h⟩ := W.K; rw [e]; exact congrArg some (C69_size h)
  · obtain ⟨K, e, h⟩ := W.C; rw [e]; exact congrArg some (C69_size h)

/-- constructing and training the sample model (two layers, structures `("dense", "diagonal")`) meets the hypotheses -/
example : ∃ (o : Opt α) (ws : List Warn), Construct.init supportedStructures Sample.model .default Sample.gargs = .ok (o, ws) ∧
    (Sample.model.layers.map (·.name)).Nodup ∧ Trainable o Sample.gdata ∧ Sample.la ∈ o.layers ∧
    FitsRun ⟨o, Sample.gdata, Sample.ggrad, []⟩ (Sample.gpass ++ [.step false none false]) := by
  obtain ⟨o, ws, cl, h, hl, ht, _, _, hf, _, hs⟩ := Sample.glive (α := α)
  obtain ⟨a1, a2, a3, a4, _⟩ := hf
  exact ⟨o, ws, h, by decide, ht, by rw [hl]; simp, a1, a2, a3, a4, hs, trivial⟩
