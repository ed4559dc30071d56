import Verif.Model.AllReduce
import Verif.Props.Structured
import Verif.Proofs.Opt.Den
import Mathlib.Algebra.BigOperators.Fin

/-! # C42: reducing structured matrices over ranks -/

open Matrix

variable {α : Type} [Field α] {c : Cls} {n : ℕ}

/-- the flags are those of the tensors of a matrix of class `c` -/
def Contig.Fits : Contig → Cls → Prop
  | .one _, .dense => True
  | .one _, .diagonal => True
  | .one _, .tril => True
  | .one _, .triu => True
  | .block _ _, .block _ => True
  | .hier _ _ _ _ _, .hier _ _ => True
  | .node A _ C, .topRight _ _ ca cc => A.Fits ca ∧ C.Fits cc
  | .node A _ C, .bottomLeft _ _ ca cc => A.Fits ca ∧ C.Fits cc
  | _, _ => False

theorem fromDenseContig_fits : ∀ {c : Cls} {n : ℕ} {v : View}, c.Supports n → v.rows = n → (c.fromDenseContig v).Fits c := by
  intro c
  induction c with
  | topRight a c ca cc iA iC =>
    rintro n v ⟨b, hb, hA, hC⟩ hv
    rw [Cls.fromDenseContig, hv, getBoundary_eq hb]
    exact ⟨iA hA (by simp [View.slice]), iC hC (by simp [View.slice])⟩
  | bottomLeft a c ca cc iA iC =>
    rintro n v ⟨b, hb, hA, hC⟩ hv
    rw [Cls.fromDenseContig, hv, getBoundary_eq hb]
    exact ⟨iA hA (by simp [View.slice]), iC hC (by simp [View.slice])⟩
  | _ => intros; trivial

theorem fromInnerContig_fits (h : c.Supports n) : (c.fromInnerContig n).Fits c := by
  cases c
  case diagonal => trivial
  case block => trivial
  case hier => trivial
  all_goals exact fromDenseContig_fits h rfl

theorem pick_all {K S : SM α} {f : Contig} (hK : WF c n K) (hS : WF c n S) (hf : f.Fits c) (ha : f.all = true) : SM.pick f K S = S := by
  induction hK generalizing S f with
  | dense hr hc =>
    cases hS; cases f <;> simp only [Contig.Fits] at hf
    simp only [Contig.all] at ha; subst ha; rfl
  | diagonal h =>
    cases hS; cases f <;> simp only [Contig.Fits] at hf
    simp only [Contig.all] at ha; subst ha; rfl
  | tril hn h =>
    cases hS; cases f <;> simp only [Contig.Fits] at hf
    simp only [Contig.all] at ha; subst ha; rfl
  | triu hn h =>
    cases hS; cases f <;> simp only [Contig.Fits] at hf
    simp only [Contig.all] at ha; subst ha; rfl
  | block h =>
    cases hS with | block h' =>
    cases f <;> simp only [Contig.Fits] at hf
    simp only [Contig.all, Bool.and_eq_true] at ha
    obtain ⟨rfl, rfl⟩ := ha
    simp only [SM.pick, if_true, h.hD, ← h'.hD]
  | hier hd h =>
    cases hS with | hier hd' h' =>
    cases f <;> simp only [Contig.Fits] at hf
    simp only [Contig.all, Bool.and_eq_true] at ha
    obtain ⟨⟨⟨⟨rfl, rfl⟩, rfl⟩, rfl⟩, rfl⟩ := ha
    simp only [SM.pick, if_true, h.h1, h.h2, ← h'.h1, ← h'.h2]
  | topRight hb hA hr hc hC iA iC =>
    cases hS with | topRight hb' hA' hr' hc' hC' =>
    have := hb.unique hb'; subst this
    cases f <;> simp only [Contig.Fits] at hf
    simp only [Contig.all, Bool.and_eq_true] at ha
    obtain ⟨⟨a1, rfl⟩, a2⟩ := ha
    simp only [SM.pick, if_true, iA hA' hf.1 a1, iC hC' hf.2 a2]
  | bottomLeft hb hA hr hc hC iA iC =>
    cases hS with | bottomLeft hb' hA' hr' hc' hC' =>
    have := hb.unique hb'; subst this
    cases f <;> simp only [Contig.Fits] at hf
    simp only [Contig.all, Bool.and_eq_true] at ha
    obtain ⟨⟨a1, rfl⟩, a2⟩ := ha
    simp only [SM.pick, if_true, iA hA' hf.1 a1, iC hC' hf.2 a2]

theorem pick_wf {K S : SM α} {f : Contig} (hK : WF c n K) (hS : WF c n S) : WF c n (SM.pick f K S) := by
  have M : ∀ {b : Bool} {x y : Mat α} {k : ℕ}, x.rows = k → y.rows = k → (if b then y else x).rows = k := by intro b x y k h h'; cases b <;> assumption
  have M' : ∀ {b : Bool} {x y : Mat α} {k : ℕ}, x.cols = k → y.cols = k → (if b then y else x).cols = k := by intro b x y k h h'; cases b <;> assumption
  have V : ∀ {b : Bool} {x y : Vec α} {k : ℕ}, x.len = k → y.len = k → (if b then y else x).len = k := by intro b x y k h h'; cases b <;> assumption
  induction hK generalizing S f with
  | dense hr hc =>
    cases hS with | dense hr' hc' =>
    cases f <;> first | exact .dense hr hc | exact .dense (M hr hr') (M' hc hc')
  | diagonal h =>
    cases hS with | diagonal h' =>
    cases f <;> first | exact .diagonal h | exact .diagonal (V h h')
  | tril hn h =>
    cases hS with | tril hn h' =>
    cases f <;> first | exact .tril hn h | exact .tril hn (V h h')
  | triu hn h =>
    cases hS with | triu hn h' =>
    cases f <;> first | exact .triu hn h | exact .triu hn (V h h')
  | block h =>
    cases hS with | block h' =>
    cases f with
    | block a b =>
      refine .block ⟨h.pos, h.hD, ?_, ?_, ?_, M h.lr h'.lr, M' h.lc h'.lc⟩
      · cases a <;> [exact h.d0; exact h'.d0]
      · cases a <;> [exact h.d1; exact h'.d1]
      · cases a <;> [exact h.d2; exact h'.d2]
    | _ => exact .block h
  | @hier m1 m2 n k1 d k2 o hd h =>
    obtain ⟨k1, d, k2, o, o', e, rfl, hd, h, h'⟩ := WF.hier_inv2 (.hier hd h) hS
    cases e
    cases f with
    | hier a b c d e =>
      exact .hier hd ⟨h.h1, h.h2, h.le1, h.le2, M h.Ar h'.Ar, M' h.Ac h'.Ac, M h.Br h'.Br, M' h.Bc h'.Bc, V h.Cl h'.Cl, M h.Dr h'.Dr, M' h.Dc h'.Dc,
        M h.Er h'.Er, M' h.Ec h'.Ec⟩
    | _ => exact .hier hd h
  | topRight hb hA hr hc hC iA iC =>
    cases hS with | topRight hb' hA' hr' hc' hC' =>
    have := hb.unique hb'; subst this
    cases f with
    | node a b c => exact .topRight hb (iA hA') (M hr hr') (M' hc hc') (iC hC')
    | _ => exact .topRight hb hA hr hc hC
  | bottomLeft hb hA hr hc hC iA iC =>
    cases hS with | bottomLeft hb' hA' hr' hc' hC' =>
    have := hb.unique hb'; subst this
    cases f with
    | node a b c => exact .bottomLeft hb (iA hA') (M hr hr') (M' hc hc') (iC hC')
    | _ => exact .bottomLeft hb hA hr hc hC

theorem foldlM_add {K : SM α} : ∀ {Ls : List (SM α)}, WF c n K → (∀ L ∈ Ls, WF c n L) →
    ∃ S, Ls.foldlM (fun S L => S.add_ L 1) K = Except.ok S ∧ WF c n S ∧ S.den n = K.den n + (Ls.map (·.den n)).sum := by
  intro Ls
  induction Ls generalizing K with
  | nil => exact fun h _ => ⟨K, rfl, h, by simp⟩
  | cons L Ls ih =>
    intro hK hL
    obtain ⟨P, e, w, d⟩ := (C04_inplace_exact hK (hL L (by simp)) 1).1
    obtain ⟨S, eS, wS, dS⟩ := ih w fun M hM => hL M (by simp [hM])
    refine ⟨S, ?_, wS, by rw [dS, d, one_smul, List.map_cons, List.sum_cons, add_assoc]⟩
    rw [List.foldlM_cons, e]
    exact eS

theorem reduceParts_spec (op : ReduceOp) {R : ℕ} (hR : 0 < R) {Ks : Fin R → SM α} (hK : ∀ r, WF c n (Ks r)) :
    ∃ S, SM.reduceParts op Ks = .ok S ∧ WF c n S ∧ S.den n = (op.factor R : α) • ∑ r, (Ks r).den n := by
  obtain ⟨R, rfl⟩ : ∃ k, R = k + 1 := ⟨R - 1, by omega⟩
  obtain ⟨S, e, w, d⟩ := foldlM_add (hK 0) (Ls := List.ofFn fun i : Fin R => Ks i.succ) (by
    intro L hL
    obtain ⟨i, rfl⟩ := (List.mem_ofFn' _ _).1 hL
    exact hK _)
  obtain ⟨w', d'⟩ := (C04_inplace_exact w w (op.factor (R + 1))).2
  refine ⟨_, ?_, w', ?_⟩
  · rw [SM.reduceParts, List.ofFn_succ]
    simp only [e, Except.bind_ok', Except.pure_ok]
  · rw [d', d, Fin.sum_univ_succ, List.map_ofFn, List.sum_ofFn]
    rfl

/-- **C42 for contiguous tensors.** For every class, number of ranks and matrices: if all tensors of all ranks are contiguous, `all_reduce` leaves on
every rank a matrix representing the mean or sum over ranks. Full statement: no hypothesis on memory layouts. -/
theorem C42_all_reduce_partial (op : ReduceOp) {R : ℕ} (hR : 0 < R) {Ks : Fin R → SM α} (hK : ∀ r, WF c n (Ks r)) {f : Fin R → Contig}
    (hf : ∀ r, (f r).Fits c) (ha : ∀ r, (f r).all = true) :
    ∃ S, SM.allReduce op f Ks = .ok (fun _ => S) ∧ WF c n S ∧
      S.den n = (match op with | .avg => 1 / (R : α) | .sum => 1) • ∑ r, (Ks r).den n := by
  obtain ⟨S, e, w, d⟩ := reduceParts_spec op hR hK
  refine ⟨S, ?_, w, by rw [d]; cases op <;> rfl⟩
  rw [SM.allReduce, e]
  simp only [Except.bind_ok', Except.pure_ok]
  congr 1
  funext r
  exact pick_all (hK r) w (hf r) (ha r)

/-- **C42 for the statistics of the optimizer.** `H = K.from_inner(X)` of every class but the recursive ones consists of contiguous tensors, so
`H.all_reduce(op)` leaves the mean or sum over ranks on every rank. -/
theorem C42_from_inner_partial (hc : ∀ a b ca cc, c ≠ .topRight a b ca cc ∧ c ≠ .bottomLeft a b ca cc) : (c.fromInnerContig n).all = true := by
  cases c with
  | topRight a b ca cc => exact absurd rfl (hc a b ca cc).1
  | bottomLeft a b ca cc => exact absurd rfl (hc a b ca cc).2
  | dense => simp [Cls.fromInnerContig, Cls.fromDenseContig, Contig.all, View.contiguous, View.fresh]
  | _ => rfl

theorem smul0_get {m : Mat α} (h : m.smul 0 = m) (i j : ℕ) : m.get i j = 0 := by
  have := congrArg (·.get i j) h
  simpa [Mat.get_smul] using this.symm

/-- If a tensor is not contiguous, reducing leaves the zero matrix of a rank different from the identity. -/
theorem pick_skips {E : SM α} (hE : WF c n E) (h1 : ∀ i < n, E.toDense.get i i ≠ 0) {v : View} (hr : v.rows = n) (hc : v.cols = n)
    (e : SM.pick (c.fromDenseContig v) (E.mul_ 0) E = E) : (c.fromDenseContig v).all = true := by
  have contig : ∀ {u : View}, ¬ u.contiguous = true → 0 < u.rows := by
    intro u hu
    rcases Nat.eq_zero_or_pos u.rows with h0 | h0
    · exact absurd (by simp [View.contiguous, h0]) hu
    · exact h0
  induction hE generalizing v with
  | @dense n m hr' hc' =>
    simp only [Cls.fromDenseContig, SM.mul_, SM.pick, SM.dense.injEq, Contig.all] at e ⊢
    by_contra hn
    rw [if_neg hn] at e
    exact h1 0 (by rw [← hr]; exact contig hn) (smul0_get e 0 0)
  | diagonal h => rfl
  | tril hn h => rfl
  | triu hn h => rfl
  | @block D n b h =>
    simp only [Cls.fromDenseContig, SM.mul_, SM.pick, SM.block.injEq, Contig.all, Bool.true_and] at e ⊢
    by_contra hn
    rw [if_neg hn] at e
    have h0 := smul0_get (congrArg BlockDiag.last e) 0 0
    have pos := contig hn
    simp only [View.slice, hr] at pos
    have := BlockDiag.get_toDense h (q := n / D) (r := 0) (q' := n / D) (r' := 0) h.pos h.pos
    refine h1 (n / D * D + 0) (by omega) ?_
    rw [SM.toDense, this, if_pos rfl, BlockDiag.ent, h.d0]
    simp [h0]
  | @hier m1 m2 n k1 d k2 o hd w =>
    simp only [Cls.fromDenseContig, SM.mul_, SM.pick, SM.hier.injEq, Contig.all, Bool.and_true, hr, Hier.blockDims_eq hd, Bool.and_eq_true] at e ⊢
    have hs := hd.sum
    constructor
    · by_contra hn
      rw [if_neg hn] at e
      have h0 := smul0_get (congrArg Hier.A e) 0 0
      have pos := contig hn
      simp only [View.slice] at pos
      exact h1 0 (by omega) (by rw [SM.toDense, Hier.get_tt w (by omega) (by omega), h0])
    · by_contra hn
      rw [if_neg hn] at e
      have h0 := smul0_get (congrArg Hier.E e) 0 0
      have pos := contig hn
      simp only [View.slice] at pos
      exact h1 (k1 + d + 0) (by omega) (by rw [SM.toDense, Hier.get_bb w (by omega) (by omega), h0])
  | @topRight a c ca cc n b A C B hb hA hr' hc' hC iA iC =>
    simp only [Cls.fromDenseContig, hr, getBoundary_eq hb, SM.mul_, SM.pick, if_true, SM.topRight.injEq, true_and, Contig.all, Bool.and_true,
      Bool.and_eq_true] at e ⊢
    have hle := hb.le
    have t := toDense_tr (x := a) (y := c) hA hr' hc' hC
    refine ⟨iA (fun i hi => ?_) rfl rfl e.1, iC (fun i hi => ?_) rfl (by simp [View.slice, hc]) e.2⟩
    · have := h1 i (by omega)
      rwa [t, Mat.blk_tl hi hi] at this
    · have := h1 (b + i) (by omega)
      rwa [t, Mat.blk_br hi hi] at this
  | @bottomLeft a c ca cc n b A C B hb hA hr' hc' hC iA iC =>
    simp only [Cls.fromDenseContig, hr, getBoundary_eq hb, SM.mul_, SM.pick, if_true, SM.bottomLeft.injEq, true_and, Contig.all, Bool.and_true,
      Bool.and_eq_true] at e ⊢
    have hle := hb.le
    have t := toDense_bl (x := a) (y := c) hA hr' hc' hC
    refine ⟨iA (fun i hi => ?_) rfl rfl e.1, iC (fun i hi => ?_) rfl (by simp [View.slice, hc]) e.2⟩
    · have := h1 i (by omega)
      rwa [t, Mat.blk_tl hi hi] at this
    · have := h1 (b + i) (by omega)
      rwa [t, Mat.blk_br hi hi] at this

/-- **C42, exactly.** Reducing the statistics `K.from_inner(X)` over ranks is right for all matrices and ranks if and only if all their tensors
are contiguous. -/
theorem C42_from_inner_iff [CharZero α] (h : c.Supports n) : (c.fromInnerContig n).all = true ↔
    ∀ (op : ReduceOp) (R : ℕ), 0 < R → ∀ Ks : Fin R → SM α, (∀ r, WF c n (Ks r)) → ∃ Ss, SM.allReduce op (fun _ => c.fromInnerContig n) Ks = .ok Ss ∧
      ∀ r, (Ss r).den n = (match op with | .avg => 1 / (R : α) | .sum => 1) • ∑ r, (Ks r).den n := by
  refine ⟨fun ha op R hR Ks hK => ?_, fun H => ?_⟩
  · obtain ⟨S, e, w, d⟩ := C42_all_reduce_partial op hR hK (f := fun _ => c.fromInnerContig n) (fun _ => fromInnerContig_fits h) fun _ => ha
    exact ⟨_, e, fun _ => d⟩
  · by_cases hc : ∀ a b ca cc, c ≠ .topRight a b ca cc ∧ c ≠ .bottomLeft a b ca cc
    · exact C42_from_inner_partial hc
    obtain ⟨⟨E, eE, wE, dE⟩, -⟩ := C12_eye_zeros (α := α) h
    obtain ⟨w0, d0⟩ := (C04_inplace_exact wE wE 0).2
    have hK : ∀ r, WF c n ((![E.mul_ 0, E] : Fin 2 → SM α) r) := by
      intro r; fin_cases r
      · exact w0
      · exact wE
    obtain ⟨S, eS, wS, dS⟩ := reduceParts_spec .sum (by decide) hK
    have e1 : (ReduceOp.sum.factor 2 : α) • ∑ r, ((![E.mul_ 0, E] : Fin 2 → SM α) r).den n = E.den n := by
      rw [Fin.sum_univ_two]
      simp [ReduceOp.factor, d0]
    obtain ⟨Ss, e, d⟩ := H .sum 2 (by decide) _ hK
    have es : S = E := wS.ext_den wE (dS.trans e1)
    subst es
    rw [SM.allReduce, eS] at e
    simp only [Except.bind_ok', Except.pure_ok, Except.ok.injEq] at e
    have d0 := d 0
    rw [← e] at d0
    have ep : SM.pick (c.fromInnerContig n) (S.mul_ 0) S = S := (pick_wf w0 wS).ext_den wS (d0.trans e1)
    have hd : ∀ i < n, S.toDense.get i i ≠ 0 := by
      intro i hi
      have : S.den n ⟨i, hi⟩ ⟨i, hi⟩ = 1 := by rw [dE, Matrix.one_apply_eq]
      rw [SM.den, Mat.M] at this
      simp [this]
    cases c
    case topRight => exact pick_skips wS hd rfl rfl ep
    case bottomLeft => exact pick_skips wS hd rfl rfl ep
    all_goals exact C42_from_inner_partial fun _ _ _ _ => ⟨by simp, by simp⟩

/-- **C42, recursive classes with a dense top-left block.** `A` of `K.from_inner(X)` is the slice `(S @ S.T)[:b, :b]`. It is reduced only if it has at
most one row or is the whole matrix. -/
theorem C42_dense_block {x y : MaxDim} {cc : Cls} {n b : ℕ} (hb : RecBoundary n x y b) :
    ∃ C, (Cls.topRight x y .dense cc).fromInnerContig n = .node (.one (b ≤ 1 ∨ b = n)) true C := by
  simp only [Cls.fromInnerContig, Cls.fromDenseContig, View.fresh, getBoundary_eq hb, Contig.node.injEq, Contig.one.injEq, true_and]
  refine ⟨_, ?_, rfl⟩
  have := hb.le
  simp only [View.contiguous, View.slice, decide_eq_decide, Nat.sub_zero, mul_self_eq_zero, or_true, true_and]
  omega

/-- a class with a dense block: `A` of dimension at most 2, `C` diagonal, as in `singd.structures.recursive` -/
def Sample.recCls : Cls := .topRight (.int 2) .inf .dense .diagonal
/-- a matrix of this class on the rank `r` -/
def Sample.recMat (r : Fin 2) : SM ℚ := .topRight (.int 2) .inf .dense .diagonal (.dense (.ofLists 2 2 [[1 + r, 0], [0, 1 + r]]))
  (.ofLists 2 1 [[r], [0]]) (.diagonal (.ofList [1 + r]))

/-- **C42 is false for recursive classes.** Two ranks average a statistic: afterwards the ranks hold different matrices. -/
theorem C42_false : ∃ (c : Cls) (n : ℕ) (Ks Ss : Fin 2 → SM ℚ), (∀ r, WF c n (Ks r)) ∧
    SM.allReduce .avg (fun _ => c.fromInnerContig n) Ks = .ok Ss ∧ (Ss 0).den n ≠ (Ss 1).den n ∧
    ∀ r, (Ss r).den n ≠ (1 / 2 : ℚ) • ∑ r, (Ks r).den n := by
  have hb : RecBoundary 3 (.int 2) .inf 2 := by simp [RecBoundary]
  have wf : ∀ r, WF Sample.recCls 3 (Sample.recMat r) := fun r => .topRight hb (.dense rfl rfl) rfl rfl (.diagonal rfl)
  obtain ⟨S, e, w, d⟩ := reduceParts_spec .avg (by decide) wf
  have h0 : ∀ r, (Sample.recMat r).den 3 0 0 = 1 + r := by
    intro r
    rw [SM.den, Mat.M, Sample.recMat, toDense_tr (b := 2) (e := 1) (.dense rfl rfl) rfl rfl (.diagonal rfl)]
    rfl
  have h1 : ∀ r, (SM.pick (Sample.recCls.fromInnerContig 3) (Sample.recMat r) S).den 3 0 0 = 1 + r := by
    intro r
    cases w with | topRight hb' hA hr hc hC =>
    have := hb'.unique hb; subst this
    cases hA with | dense hr' hc' =>
    cases hC with | diagonal hl =>
    rw [SM.den, Mat.M, show Sample.recCls.fromInnerContig 3 = .node (.one false) true (.one true) by decide]
    simp only [Sample.recMat, SM.pick, if_true, Bool.false_eq_true, if_false]
    rw [toDense_tr (b := 2) (e := 1) (.dense rfl rfl) hr hc (.diagonal hl), Mat.blk_tl (by simp) (by simp)]
    rfl
  refine ⟨Sample.recCls, 3, Sample.recMat, _, wf, by rw [SM.allReduce, e]; rfl, fun h => ?_, fun r h => ?_⟩
  · have := congrFun (congrFun h 0) 0
    rw [h1, h1] at this
    norm_num at this
  · have := congrFun (congrFun h 0) 0
    rw [h1, Matrix.smul_apply, Matrix.sum_apply, Fin.sum_univ_two, h0, h0] at this
    fin_cases r <;> norm_num at this

/-! ### examples -/

/-- three ranks average block-diagonal matrices -/
example : ∃ S, SM.allReduce .avg (fun _ : Fin 3 => (Cls.block 2).fromInnerContig 3) (fun r => Sample.block.mul_ (r : ℕ)) = .ok (fun _ => S) ∧
    WF (.block 2) 3 S ∧ S.den 3 = (1 / ((3 : ℕ) : ℚ)) • ∑ r : Fin 3, (Sample.block.mul_ ((r : ℕ) : ℚ)).den 3 :=
  C42_all_reduce_partial .avg (by decide) (fun r => (C04_inplace_exact Sample.wf_block Sample.wf_block _).2.1) (fun _ => trivial)
    fun _ => C42_from_inner_partial fun _ _ _ _ => ⟨by simp, by simp⟩

/-- the statement of C42 holds for a class of dimension 3 and fails for another one -/
example : ((Cls.hier 1 1).fromInnerContig 3).all = true ∧ (Cls.hier 1 1).Supports 3 ∧ (Sample.recCls.fromInnerContig 3).all = false ∧
    Sample.recCls.Supports 3 := ⟨rfl, trivial, rfl, 2, by simp [RecBoundary], trivial, trivial⟩

example : ∃ C, Sample.recCls.fromInnerContig 3 = .node (.one ((2 : ℕ) ≤ 1 ∨ 2 = 3)) true C := C42_dense_block (by simp [RecBoundary])

/-- the classes defined by the library (`singd/structures`), of which the optimizer supports the first six by name (`optimizer.py:66-73`) -/
def libraryClasses : List Cls := [.dense, .diagonal, .block 30, .hier 15 15, .tril, .triu, .topRight (.int 1) .inf .dense .diagonal,
  .topRight .inf (.int 1) .diagonal .dense, .bottomLeft .inf (.int 1) .diagonal .dense, .bottomLeft (.int 1) .inf .dense .diagonal]

/-- **C42 for the classes of the library.** All of them are reduced correctly, in every dimension: the dense blocks of the recursive ones are 1x1. -/
theorem C42_library {c : Cls} (hc : c ∈ libraryClasses) (n : ℕ) : (c.fromInnerContig n).all = true := by
  have one : ∀ {v : View}, v.rows ≤ 1 → v.cols ≤ 1 → v.contiguous = true := by
    intro v h h'
    have h2 : v.rows * v.cols = 0 ∨ (v.rows = 1 ∧ v.cols = 1) := by
      rcases Nat.eq_zero_or_pos v.rows with e | e
      · simp [e]
      rcases Nat.eq_zero_or_pos v.cols with e' | e'
      · simp [e']
      · exact Or.inr ⟨by omega, by omega⟩
    rcases h2 with h2 | ⟨h2, h3⟩
    · simp [View.contiguous, h2]
    · simp [View.contiguous, h2, h3]
  simp only [libraryClasses, List.mem_cons, List.not_mem_nil, or_false] at hc
  rcases hc with rfl | rfl | rfl | rfl | rfl | rfl | rfl | rfl | rfl | rfl
  · exact C42_from_inner_partial fun _ _ _ _ => ⟨by simp, by simp⟩
  · rfl
  · rfl
  · rfl
  · rfl
  · rfl
  all_goals
    simp only [Cls.fromInnerContig, Cls.fromDenseContig, getBoundary, Contig.all, Bool.and_true, Bool.true_and]
    refine one ?_ ?_ <;> simp only [View.slice, View.fresh] <;> omega
