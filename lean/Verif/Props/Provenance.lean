import Verif.Model.Provenance
import Verif.Proofs.Opt.History
import Verif.Proofs.Opt.Live
import Verif.Props.OptSamples

/-!
C84: provenance. Every tensor is a function of the data its label lists, and no label lists too much.
-/

set_option linter.unusedSectionVars false
variable {ℒ : Type} [SemilatticeSup ℒ] [OrderBot ℒ] {α : Type} [Field α] [LinearOrder α] [HasSqrt α]

namespace Prov

/-- Two executions with the same control agree on every tensor whose label satisfies `I`. -/
structure Agree (I : ℒ → Prop) (p : Prov ℒ) (A B : World α) : Prop where
  structs : A.opt.structs = B.opt.structs
  layers : A.opt.layers = B.opt.layers
  ptrGroup : A.opt.ptrGroup = B.opt.ptrGroup
  groups : A.opt.groups = B.opt.groups
  steps : A.opt.steps = B.opt.steps
  dom : ∀ t, A.opt.scales t = none ↔ B.opt.scales t = none
  scale : ∀ t, I (p.scale t) → A.opt.scales t = B.opt.scales t
  K : ∀ n, I (p.K n) → A.opt.Ks n = B.opt.Ks n
  C : ∀ n, I (p.C n) → A.opt.Cs n = B.opt.Cs n
  mK : ∀ n, I (p.mK n) → A.opt.mKs n = B.opt.mKs n
  mC : ∀ n, I (p.mC n) → A.opt.mCs n = B.opt.mCs n
  HK : ∀ n, I (p.HK n) → A.opt.HKs n = B.opt.HKs n
  HC : ∀ n, I (p.HC n) → A.opt.HCs n = B.opt.HCs n
  data : ∀ q, I (p.data q) → A.data q = B.data q
  grad : ∀ q, I (p.grad q) → A.grad q = B.grad q
  mom : ∀ q, I (p.mom q) → A.opt.mom q = B.opt.mom q
  hookA : A.hooks.length = p.hooks.length
  hookB : B.hooks.length = p.hooks.length
  hookLayer : A.hooks.map (·.1) = B.hooks.map (·.1)
  hook : ∀ (k : ℕ) (x : ℒ), p.hooks[k]? = some x → I x → A.hooks[k]? = B.hooks[k]?

/-- Two operations that differ in their data at most. -/
inductive SameKind : Op α → Op α → Prop
  | forward (i : ℕ) (x y : ND α) (ge : Bool) : SameKind (.forward i x ge) (.forward i y ge)
  | backward (k : ℕ) (g g' : ND α) : SameKind (.backward k g) (.backward k g')
  | setGrad (q : ℕ) (G G' : Option (Mat α)) : SameKind (.setGrad q G) (.setGrad q G')
  | setParam (q : ℕ) (M M' : Mat α) : SameKind (.setParam q M) (.setParam q M')
  | setHyper (i : ℕ) (h : Hyper α) : SameKind (.setHyper i h) (.setHyper i h)
  | setScale (s s' : α) : SameKind (.setScale s) (.setScale s')
  | step (c : Bool) (a a' : Option α) (f : Bool) : SameKind (.step c a f) (.step c a' f)

end Prov

theorem Py.lift_bind_ok_iff {σ β γ : Type} {x : Except PyErr β} {f : β → Py σ γ} {s s' : σ} {c : γ} :
    (Py.lift x >>= f) s = (.ok c, s') ↔ ∃ b, x = .ok b ∧ f b s = (.ok c, s') := by
  rcases x with e | b
  · rw [Py.lift_error_bind_run]; simp
  · rw [Py.lift_ok_bind_run]; simp

theorem lookup_ok_iff {κ v : Type} {d : κ → Option v} {k : κ} {x : v} : lookup d k = .ok x ↔ d k = some x := by
  unfold lookup; split <;> simp_all

theorem Except.bind_ok_iff' {ε β γ : Type} {x : Except ε β} {f : β → Except ε γ} {c : γ} :
    (x >>= f) = .ok c ↔ ∃ b, x = .ok b ∧ f b = .ok c := by
  rcases x with e | b
  · constructor
    · intro h; cases h
    · rintro ⟨b, h, -⟩; cases h
  · exact ⟨fun h => ⟨b, rfl, h⟩, fun ⟨b', h, h'⟩ => by cases h; exact h'⟩

/-- what `newMomenta` computes from what -/
theorem newMomenta_inv {h : Hyper α} {dK dC : ℕ} {u : α} {K C HK HC : SM α} {ms : SM α × SM α} (e : newMomenta h dK dC u K C HK HC = .ok ms) :
    ∃ KtK CtC tHC tCC tHK tKK, K.fromInner none = .ok KtK ∧ C.fromInner none = .ok CtC ∧ traceOr1 h.kfacLike HC = .ok tHC ∧
      traceOr1 h.kfacLike CtC = .ok tCC ∧ traceOr1 h.kfacLike HK = .ok tHK ∧ traceOr1 h.kfacLike KtK = .ok tKK ∧
      momentumDir K HK KtK dK (if h.kfacLike then 1 else u * tHC) (h.damping * tCC) (1 / 2 * (if h.normalize then 1 - h.alpha1 else 1)) = .ok ms.1 ∧
      momentumDir C HC CtC dC (if h.kfacLike then u else u * tHK) (h.damping * tKK) (1 / 2 * (if h.normalize then 1 - h.alpha1 else 1)) = .ok ms.2 := by
  unfold newMomenta at e
  obtain ⟨KtK, h1, e⟩ := Except.bind_ok_iff'.1 e
  obtain ⟨CtC, h2, e⟩ := Except.bind_ok_iff'.1 e
  obtain ⟨tHC, h3, e⟩ := Except.bind_ok_iff'.1 e
  obtain ⟨tCC, h4, e⟩ := Except.bind_ok_iff'.1 e
  obtain ⟨mK, h5, e⟩ := Except.bind_ok_iff'.1 e
  obtain ⟨tHK, h6, e⟩ := Except.bind_ok_iff'.1 e
  obtain ⟨tKK, h7, e⟩ := Except.bind_ok_iff'.1 e
  obtain ⟨mC, h8, e⟩ := Except.bind_ok_iff'.1 e
  cases e
  exact ⟨KtK, CtC, tHC, tCC, tHK, tKK, h1, h2, h3, h4, h6, h7, h5, h8⟩

namespace World

/-- the two directions of an update step, as functions of what they read -/
def dirK (o : Opt α) (h : Hyper α) (m : Layer) (mK : SM α) : Prop := ∃ K HK tHC tCC u KtK d mK',
  o.Ks m.name = some K ∧ o.HKs m.name = some HK ∧ K.fromInner none = .ok KtK ∧ m.dims = .ok d ∧
  (h.kfacLike = false → gradUnscaling o = .ok u ∧ ∃ C HC CtC, o.Cs m.name = some C ∧ o.HCs m.name = some HC ∧ C.fromInner none = .ok CtC ∧
    HC.averageTrace = .ok tHC ∧ CtC.averageTrace = .ok tCC) ∧
  (h.kfacLike = true → tCC = 1) ∧
  momentumDir K HK KtK d.1 (if h.kfacLike then 1 else u * tHC) (h.damping * tCC) (1 / 2 * (if h.normalize then 1 - h.alpha1 else 1)) = .ok mK' ∧
  addMomentum h o.mKs m.name mK' = .ok mK

/-- see `dirK` -/
def dirC (o : Opt α) (h : Hyper α) (m : Layer) (mC : SM α) : Prop := ∃ C HC tHK tKK u CtC d mC',
  o.Cs m.name = some C ∧ o.HCs m.name = some HC ∧ C.fromInner none = .ok CtC ∧ m.dims = .ok d ∧ gradUnscaling o = .ok u ∧
  (h.kfacLike = false → ∃ K HK KtK, o.Ks m.name = some K ∧ o.HKs m.name = some HK ∧ K.fromInner none = .ok KtK ∧
    HK.averageTrace = .ok tHK ∧ KtK.averageTrace = .ok tKK) ∧
  (h.kfacLike = true → tKK = 1) ∧
  momentumDir C HC CtC d.2 (if h.kfacLike then u else u * tHK) (h.damping * tKK) (1 / 2 * (if h.normalize then 1 - h.alpha1 else 1)) = .ok mC' ∧
  addMomentum h o.mCs m.name mC' = .ok mC

theorem updateOn_inv {h : Hyper α} {m : Layer} {w w' : World α} (e : updateOn h m w = (.ok (), w')) :
    ∃ K C mK mC bK bC K' C', w.opt.Ks m.name = some K ∧ w.opt.Cs m.name = some C ∧ dirK w.opt h m mK ∧ dirC w.opt h m mC ∧
      factorRate h w.opt.steps mK = .ok bK ∧ factorRate h w.opt.steps mC = .ok bC ∧ factorStep K mK bK = .ok K' ∧ factorStep C mC bC = .ok C' ∧
      w' = { w with opt := { w.opt with
        HKs := Dict.erase w.opt.HKs m.name, HCs := Dict.erase w.opt.HCs m.name,
        mKs := if h.alpha1 ≠ 0 then Dict.set w.opt.mKs m.name mK else w.opt.mKs,
        mCs := if h.alpha1 ≠ 0 then Dict.set w.opt.mCs m.name mC else w.opt.mCs,
        Ks := Dict.set w.opt.Ks m.name K', Cs := Dict.set w.opt.Cs m.name C' } } := by
  unfold updateOn at e
  rw [Py.get_bind_run] at e
  obtain ⟨K, hK, e⟩ := Py.lift_bind_ok_iff.1 e
  obtain ⟨C, hC, e⟩ := Py.lift_bind_ok_iff.1 e
  obtain ⟨HK, hHK, e⟩ := Py.lift_bind_ok_iff.1 e
  rw [setOpt, Py.modify_bind_run] at e
  obtain ⟨HC, hHC, e⟩ := Py.lift_bind_ok_iff.1 e
  rw [setOpt, Py.modify_bind_run] at e
  obtain ⟨ms, hms, e⟩ := Py.lift_bind_ok_iff.1 e
  rw [setOpt, Py.modify_bind_run] at e
  obtain ⟨bK, hbK, e⟩ := Py.lift_bind_ok_iff.1 e
  obtain ⟨bC, hbC, e⟩ := Py.lift_bind_ok_iff.1 e
  obtain ⟨K', hK', e⟩ := Py.lift_bind_ok_iff.1 e
  rw [setOpt, Py.modify_bind_run] at e
  obtain ⟨C', hC', e⟩ := Py.lift_bind_ok_iff.1 e
  rw [lookup_ok_iff] at hK hC hHK hHC
  unfold updateDirs at hms
  obtain ⟨u, hu, hms⟩ := Except.bind_ok_iff'.1 hms
  obtain ⟨d, hd, hms⟩ := Except.bind_ok_iff'.1 hms
  obtain ⟨n, hn, hms⟩ := Except.bind_ok_iff'.1 hms
  obtain ⟨mC, hmC, hms⟩ := Except.bind_ok_iff'.1 hms
  obtain ⟨mK, hmK, hms⟩ := Except.bind_ok_iff'.1 hms
  cases hms
  obtain ⟨KtK, CtC, tHC, tCC, tHK, tKK, h1, h2, h3, h4, h6, h7, h5, h8⟩ := newMomenta_inv hn
  refine ⟨K, C, mK, mC, bK, bC, K', C', hK, hC, ?_, ?_, hbK, hbC, hK', hC', ?_⟩
  · refine ⟨K, HK, tHC, tCC, u, KtK, d, n.1, hK, hHK, h1, hd, fun hk => ?_, fun hk => ?_, h5, hmK⟩
    · simp only [traceOr1, hk] at h3 h4
      exact ⟨hu, C, HC, CtC, hC, hHC, h2, h3, h4⟩
    · simp only [traceOr1, hk, if_true] at h4
      exact (Except.ok.inj h4).symm
  · refine ⟨C, HC, tHK, tKK, u, CtC, d, n.2, hC, hHC, h2, hd, hu, fun hk => ?_, fun hk => ?_, h8, hmC⟩
    · simp only [traceOr1, hk] at h6 h7
      exact ⟨K, HK, KtK, hK, hHK, h1, h6, h7⟩
    · simp only [traceOr1, hk, if_true] at h7
      exact (Except.ok.inj h7).symm
  · have e := congrArg Prod.snd e
    rw [← (show _ = w' from e)]
    simp only [setOpt, Py.modify, storeMomenta]
    by_cases ha : h.alpha1 ≠ 0
    · simp only [if_pos ha]
    · simp only [if_neg ha]

end World

namespace Prov
variable {I : ℒ → Prop} {p : Prov ℒ} {A B A' B' : World α}

theorem dirK_congr (hI : ∀ a b, I (a ⊔ b) ↔ I a ∧ I b) (r : Agree I p A B) {h : Hyper α} {m : Layer} {mK mK' : SM α}
    (a : World.dirK A.opt h m mK) (b : World.dirK B.opt h m mK') (hl : I (p.newMK h A.opt.steps m.name)) : mK = mK' := by
  obtain ⟨K, HK, tHC, tCC, u, KtK, d, n, a1, a2, a3, a4, a5, a6, a7, a8⟩ := a
  obtain ⟨K', HK', tHC', tCC', u', KtK', d', n', b1, b2, b3, b4, b5, b6, b7, b8⟩ := b
  simp only [newMK, hI] at hl
  obtain ⟨⟨⟨l1, l2⟩, l3⟩, l4⟩ := hl
  rw [r.K _ l1, b1] at a1; cases a1
  rw [r.HK _ l2, b2] at a2; cases a2
  rw [b3] at a3; cases a3
  rw [b4] at a4; cases a4
  have hn : n = n' := by
    cases hk : h.kfacLike with
    | true =>
      rw [a6 hk] at a7; rw [b6 hk] at b7
      simp only [hk, if_true] at a7 b7
      rw [a7] at b7; exact Except.ok.inj b7
    | false =>
      simp only [hk, Bool.false_eq_true, if_false, hI, unscale] at l3
      obtain ⟨⟨⟨s1, s2⟩, c1⟩, c2⟩ := l3
      obtain ⟨hu, C, HC, CtC, x1, x2, x3, x4, x5⟩ := a5 hk
      obtain ⟨hu', C', HC', CtC', y1, y2, y3, y4, y5⟩ := b5 hk
      have hs : World.gradUnscaling A.opt = World.gradUnscaling B.opt := by
        simp only [World.gradUnscaling, Opt.scale, lookup, r.scale _ s1, r.scale _ s2, ← r.steps]
      rw [hs, hu'] at hu; cases hu
      rw [r.C _ c1, y1] at x1; cases x1
      rw [r.HC _ c2, y2] at x2; cases x2
      rw [y3] at x3; cases x3
      rw [y4] at x4; cases x4
      rw [y5] at x5; cases x5
      rw [a7] at b7; exact Except.ok.inj b7
  subst hn
  unfold World.addMomentum at a8 b8
  by_cases ha : h.alpha1 ≠ 0
  · simp only [if_pos ha] at a8 b8 l4
    rw [show lookup A.opt.mKs m.name = lookup B.opt.mKs m.name by simp only [lookup, r.mK _ l4], b8] at a8
    exact (Except.ok.inj a8).symm
  · simp only [if_neg ha] at a8 b8
    rw [a8] at b8; exact Except.ok.inj b8

theorem dirC_congr (hI : ∀ a b, I (a ⊔ b) ↔ I a ∧ I b) (r : Agree I p A B) {h : Hyper α} {m : Layer} {mC mC' : SM α}
    (a : World.dirC A.opt h m mC) (b : World.dirC B.opt h m mC') (hl : I (p.newMC h A.opt.steps m.name)) : mC = mC' := by
  obtain ⟨C, HC, tHK, tKK, u, CtC, d, n, a1, a2, a3, a4, hu, a5, a6, a7, a8⟩ := a
  obtain ⟨C', HC', tHK', tKK', u', CtC', d', n', b1, b2, b3, b4, hu', b5, b6, b7, b8⟩ := b
  simp only [newMC, hI, unscale] at hl
  obtain ⟨⟨⟨⟨l1, l2⟩, s1, s2⟩, l3⟩, l4⟩ := hl
  rw [r.C _ l1, b1] at a1; cases a1
  rw [r.HC _ l2, b2] at a2; cases a2
  rw [b3] at a3; cases a3
  rw [b4] at a4; cases a4
  have hs : World.gradUnscaling A.opt = World.gradUnscaling B.opt := by
    simp only [World.gradUnscaling, Opt.scale, lookup, r.scale _ s1, r.scale _ s2, ← r.steps]
  rw [hs, hu'] at hu; cases hu
  have hn : n = n' := by
    cases hk : h.kfacLike with
    | true =>
      rw [a6 hk] at a7; rw [b6 hk] at b7
      simp only [hk, if_true] at a7 b7
      rw [a7] at b7; exact Except.ok.inj b7
    | false =>
      simp only [hk, Bool.false_eq_true, if_false, hI] at l3
      obtain ⟨c1, c2⟩ := l3
      obtain ⟨K, HK, KtK, x1, x2, x3, x4, x5⟩ := a5 hk
      obtain ⟨K', HK', KtK', y1, y2, y3, y4, y5⟩ := b5 hk
      rw [r.K _ c1, y1] at x1; cases x1
      rw [r.HK _ c2, y2] at x2; cases x2
      rw [y3] at x3; cases x3
      rw [y4] at x4; cases x4
      rw [y5] at x5; cases x5
      rw [a7] at b7; exact Except.ok.inj b7
  subst hn
  unfold World.addMomentum at a8 b8
  by_cases ha : h.alpha1 ≠ 0
  · simp only [if_pos ha] at a8 b8 l4
    rw [show lookup A.opt.mCs m.name = lookup B.opt.mCs m.name by simp only [lookup, r.mC _ l4], b8] at a8
    exact (Except.ok.inj a8).symm
  · simp only [if_neg ha] at a8 b8
    rw [a8] at b8; exact Except.ok.inj b8

theorem agree_set {κ v : Type} [DecidableEq κ] {lab : κ → ℒ} {d d' : κ → Option v} (h : ∀ n, I (lab n) → d n = d' n) (n0 : κ) {ℓ : ℒ} {x x' : v}
    (hx : I ℓ → x = x') : ∀ n, I (Function.update lab n0 ℓ n) → Dict.set d n0 x n = Dict.set d' n0 x' n := by
  intro n hn
  unfold Dict.set
  by_cases e : n = n0
  · subst e
    rw [Function.update_self] at hn
    rw [Function.update_self, Function.update_self, hx hn]
  · rw [Function.update_of_ne e] at hn
    rw [Function.update_of_ne e, Function.update_of_ne e, h n hn]

theorem agree_erase {κ v : Type} [DecidableEq κ] {lab : κ → ℒ} {d d' : κ → Option v} (h : ∀ n, I (lab n) → d n = d' n) (n0 : κ) (ℓ : ℒ) :
    ∀ n, I (Function.update lab n0 ℓ n) → Dict.erase d n0 n = Dict.erase d' n0 n := by
  intro n hn
  unfold Dict.erase
  by_cases e : n = n0
  · subst e; rw [Function.update_self, Function.update_self]
  · rw [Function.update_of_ne e] at hn
    rw [Function.update_of_ne e, Function.update_of_ne e, h n hn]

theorem updateOn_agree (hI : ∀ a b, I (a ⊔ b) ↔ I a ∧ I b) (r : Agree I p A B) {h : Hyper α} {m : Layer}
    (a : World.updateOn h m A = (.ok (), A')) (b : World.updateOn h m B = (.ok (), B')) :
    Agree I (p.updateOn h A.opt.steps m.name) A' B' := by
  obtain ⟨K, C, mK, mC, bK, bC, K1, C1, a1, a2, a3, a4, a5, a6, a7, a8, rfl⟩ := World.updateOn_inv a
  obtain ⟨K', C', mK', mC', bK', bC', K1', C1', b1, b2, b3, b4, b5, b6, b7, b8, rfl⟩ := World.updateOn_inv b
  have eK := dirK_congr hI r a3 b3
  have eC := dirC_congr hI r a4 b4
  refine ⟨r.structs, r.layers, r.ptrGroup, r.groups, r.steps, r.dom, r.scale, ?_, ?_, ?_, ?_, ?_, ?_, r.data, r.grad, r.mom,
    r.hookA, r.hookB, r.hookLayer, r.hook⟩
  · refine agree_set r.K _ fun l => ?_
    obtain ⟨l1, l2⟩ := (hI _ _).1 l
    have := eK l2; subst this
    rw [← r.steps, a5] at b5; cases b5
    rw [r.K _ l1, b1] at a1; cases a1
    rw [a7] at b7; exact Except.ok.inj b7
  · refine agree_set r.C _ fun l => ?_
    obtain ⟨l1, l2⟩ := (hI _ _).1 l
    have := eC l2; subst this
    rw [← r.steps, a6] at b6; cases b6
    rw [r.C _ l1, b2] at a2; cases a2
    rw [a8] at b8; exact Except.ok.inj b8
  · dsimp only [updateOn]
    by_cases ha : h.alpha1 ≠ 0
    · simp only [if_pos ha]; exact agree_set r.mK _ eK
    · simp only [if_neg ha]; exact r.mK
  · dsimp only [updateOn]
    by_cases ha : h.alpha1 ≠ 0
    · simp only [if_pos ha]; exact agree_set r.mC _ eC
    · simp only [if_neg ha]; exact r.mC
  · exact agree_erase r.HK _ _
  · exact agree_erase r.HC _ _


theorem hyperOf_congr (r : Agree I p A B) (m : Layer) : A.opt.hyperOf m = B.opt.hyperOf m := by
  unfold Opt.hyperOf; rw [r.ptrGroup, r.groups]

theorem update_agree (hI : ∀ a b, I (a ⊔ b) ↔ I a ∧ I b) (r : Agree I p A B) {h : Hyper α} {m : Layer} (hh : A.opt.hyperOf m = .ok h)
    (a : World.updatePreconditioner m A = (.ok (), A')) (b : World.updatePreconditioner m B = (.ok (), B')) :
    Agree I (p.update h A.opt.steps m) A' B' := by
  have hh' := hh
  rw [hyperOf_congr r] at hh'
  by_cases hT : h.T = 0
  · rw [World.updatePreconditioner, Py.get_bind_run, hh, Py.lift_ok_bind_run, if_pos hT] at a
    cases a
  · by_cases hs : A.opt.steps % h.T = 0
    · rw [World.updatePreconditioner_on hh hT hs] at a
      rw [World.updatePreconditioner_on hh' hT (by rw [← r.steps]; exact hs)] at b
      rw [update, if_pos hs]
      exact updateOn_agree hI r a b
    · rw [World.updatePreconditioner_off hh hT hs] at a
      rw [World.updatePreconditioner_off hh' hT (by rw [← r.steps]; exact hs)] at b
      cases a; cases b
      rw [update, if_neg hs]
      exact r

theorem natGrad_congr (hI : ∀ a b, I (a ⊔ b) ↔ I a ∧ I b) (r : Agree I p A B) (m : Layer) (hl : I (p.natGrad A.opt.steps m)) :
    A.natGradMat m = B.natGradMat m := by
  simp only [natGrad, hI] at hl
  obtain ⟨⟨⟨⟨l1, l2⟩, l3⟩, l4⟩, l5⟩ := hl
  have hg : A.gradMat m = B.gradMat m := by
    unfold World.gradMat World.gradOf
    rw [r.grad _ l1]
    rcases hb : m.bias with _ | b
    · rfl
    · rw [hb] at l2
      dsimp only
      rw [r.grad _ l2]
  unfold World.natGradMat
  rw [hg, hyperOf_congr r]
  simp only [Opt.scale, lookup, ← r.steps, r.scale _ l3, r.K _ l4, r.C _ l5]

theorem paramStep_inv {h : Hyper α} {q : ℕ} {N : Mat α} {w w' : World α} (e : World.paramStep h q N w = (.ok (), w')) :
    ∃ N1, World.decay h (w.data q) N = .ok N1 ∧
      ((h.momentum ≠ 0 ∧ ∃ buf d, World.newBuffer h (w.opt.mom q) (w.data q) N1 = .ok buf ∧ (w.data q).add? (buf.smul (-h.lr)) = .ok d ∧
          w' = { w with opt := { w.opt with mom := Dict.set w.opt.mom q buf }, data := Function.update w.data q d }) ∨
        (h.momentum = 0 ∧ ∃ d, (w.data q).add? (N1.smul (-h.lr)) = .ok d ∧ w' = { w with data := Function.update w.data q d })) := by
  rw [World.paramStep, Py.get_bind_run] at e
  obtain ⟨N1, h1, e⟩ := Py.lift_bind_ok_iff.1 e
  refine ⟨N1, h1, ?_⟩
  by_cases hm : h.momentum ≠ 0
  · rw [if_pos hm] at e
    obtain ⟨buf, h2, e⟩ := Py.lift_bind_ok_iff.1 e
    rw [World.setOpt, Py.modify_bind_run, World.moveParam, Py.get_bind_run] at e
    obtain ⟨d, h3, e⟩ := Py.lift_bind_ok_iff.1 e
    exact .inl ⟨hm, buf, d, h2, h3, (congrArg Prod.snd e).symm⟩
  · rw [if_neg hm, World.moveParam, Py.get_bind_run] at e
    obtain ⟨d, h3, e⟩ := Py.lift_bind_ok_iff.1 e
    exact .inr ⟨not_not.1 hm, d, h3, (congrArg Prod.snd e).symm⟩

/-- a fresh buffer takes the shape of the parameter, which is that of the step -/
theorem newBuffer_fresh {h : Hyper α} {d N b : Mat α} (e : World.newBuffer h none d N = .ok b) :
    ((Mat.zeros N.rows N.cols).smul h.momentum).add? N = .ok b := by
  unfold World.newBuffer at e
  have hs : d.rows = N.rows ∧ d.cols = N.cols := by
    by_contra hne
    simp only [Option.getD_none, Mat.add?] at e
    rw [if_neg (show ¬ (((Mat.zeros d.rows d.cols).smul h.momentum).rows = N.rows ∧ ((Mat.zeros d.rows d.cols).smul h.momentum).cols = N.cols) from hne)] at e
    cases e
  rw [Option.getD_none, hs.1, hs.2] at e
  exact e

theorem paramStep_agree (hI : ∀ a b, I (a ⊔ b) ↔ I a ∧ I b) (r : Agree I p A B) {h : Hyper α} {q : ℕ} {N N' : Mat α} {s : ℒ}
    (hN : I s → N = N') (a : World.paramStep h q N A = (.ok (), A')) (b : World.paramStep h q N' B = (.ok (), B')) :
    Agree I (p.paramStep h q s) A' B' := by
  obtain ⟨N1, a1, a2⟩ := paramStep_inv a
  obtain ⟨N1', b1, b2⟩ := paramStep_inv b
  have hN1 : I (s ⊔ (if h.weightDecay ≠ 0 then p.data q else ⊥)) → N1 = N1' := by
    intro l
    obtain ⟨l1, l2⟩ := (hI _ _).1 l
    have := hN l1; subst this
    unfold World.decay at a1 b1
    by_cases hw : h.weightDecay ≠ 0
    · rw [if_pos hw] at a1 b1 l2
      rw [r.data _ l2, b1] at a1; exact (Except.ok.inj a1).symm
    · rw [if_neg hw] at a1 b1
      rw [b1] at a1; exact (Except.ok.inj a1).symm
  unfold paramStep
  by_cases hm : h.momentum ≠ 0
  · rcases a2 with ⟨-, buf, d, a3, a4, rfl⟩ | ⟨h0, -⟩
    swap; · exact absurd h0 hm
    rcases b2 with ⟨-, buf', d', b3, b4, rfl⟩ | ⟨h0, -⟩
    swap; · exact absurd h0 hm
    have hbuf : I (p.mom q ⊔ (s ⊔ (if h.weightDecay ≠ 0 then p.data q else ⊥))) → buf = buf' := by
      intro l
      obtain ⟨l1, l2⟩ := (hI _ _).1 l
      have := hN1 l2; subst this
      rw [r.mom _ l1] at a3
      rcases hb : B.opt.mom q with _ | m
      · rw [hb] at a3 b3
        have x := newBuffer_fresh a3
        rw [newBuffer_fresh b3] at x; exact (Except.ok.inj x).symm
      · rw [hb] at a3 b3
        unfold World.newBuffer at a3 b3
        rw [Option.getD_some] at a3 b3
        rw [b3] at a3; exact (Except.ok.inj a3).symm
    dsimp only
    rw [if_pos hm]
    refine ⟨r.structs, r.layers, r.ptrGroup, r.groups, r.steps, r.dom, r.scale, r.K, r.C, r.mK, r.mC, r.HK, r.HC, ?_, r.grad,
      agree_set r.mom _ hbuf, r.hookA, r.hookB, r.hookLayer, r.hook⟩
    intro k l
    dsimp only at l ⊢
    by_cases e : k = q
    · subst e
      rw [Function.update_self] at l ⊢
      rw [Function.update_self]
      obtain ⟨l1, l2⟩ := (hI _ _).1 l
      have := hbuf l2; subst this
      rw [r.data _ l1, b4] at a4; exact (Except.ok.inj a4).symm
    · rw [Function.update_of_ne e] at l ⊢
      rw [Function.update_of_ne e]
      exact r.data _ l
  · rcases a2 with ⟨h0, -⟩ | ⟨-, d, a3, rfl⟩
    · exact absurd h0 hm
    rcases b2 with ⟨h0, -⟩ | ⟨-, d', b3, rfl⟩
    · exact absurd h0 hm
    dsimp only
    rw [if_neg hm]
    refine ⟨r.structs, r.layers, r.ptrGroup, r.groups, r.steps, r.dom, r.scale, r.K, r.C, r.mK, r.mC, r.HK, r.HC, ?_, r.grad,
      r.mom, r.hookA, r.hookB, r.hookLayer, r.hook⟩
    intro k l
    dsimp only at l ⊢
    by_cases e : k = q
    · subst e
      rw [Function.update_self] at l ⊢
      rw [Function.update_self]
      obtain ⟨l1, l2⟩ := (hI _ _).1 l
      have := hN1 l2; subst this
      rw [r.data _ l1, b3] at a3; exact (Except.ok.inj a3).symm
    · rw [Function.update_of_ne e] at l ⊢
      rw [Function.update_of_ne e]
      exact r.data _ l

theorem applyNat_agree (hI : ∀ a b, I (a ⊔ b) ↔ I a ∧ I b) (r : Agree I p A B) {h : Hyper α} {m : Layer} {N N' : Mat α} {s : ℒ}
    (hh : A.opt.hyperOf m = .ok h) (hN : I s → N = N') (a : World.applyNat m N A = (.ok (), A')) (b : World.applyNat m N' B = (.ok (), B')) :
    Agree I (p.applyNat h m s) A' B' := by
  have hh' := hh
  rw [hyperOf_congr r] at hh'
  rw [World.applyNat, Py.get_bind_run] at a b
  unfold applyNat
  rcases hb : m.bias with _ | q
  · rw [hb] at a b
    dsimp only at a b ⊢
    obtain ⟨n, a1, a⟩ := Py.lift_bind_ok_iff.1 a
    obtain ⟨n', b1, b⟩ := Py.lift_bind_ok_iff.1 b
    rw [hh, Py.lift_ok_bind_run] at a
    rw [hh', Py.lift_ok_bind_run] at b
    refine paramStep_agree hI r (fun l => ?_) a b
    have := hN l; subst this
    rw [b1] at a1; exact (Except.ok.inj a1).symm
  · rw [hb] at a b
    dsimp only at a b ⊢
    obtain ⟨n, a1, a⟩ := Py.lift_bind_ok_iff.1 a
    obtain ⟨n', b1, b⟩ := Py.lift_bind_ok_iff.1 b
    obtain ⟨n2, a2, a⟩ := Py.lift_bind_ok_iff.1 a
    obtain ⟨n2', b2, b⟩ := Py.lift_bind_ok_iff.1 b
    rw [hh, Py.lift_ok_bind_run] at a
    rw [hh', Py.lift_ok_bind_run] at b
    obtain ⟨_, t, a3, a⟩ := Py.bind_eq_ok.1 a
    obtain ⟨_, t', b3, b⟩ := Py.bind_eq_ok.1 b
    refine paramStep_agree hI (paramStep_agree hI r (fun l => ?_) a3 b3) (fun l => ?_) a b
    · have := hN l; subst this
      rw [b1] at a1; exact (Except.ok.inj a1).symm
    · have := hN l; subst this
      rw [b2] at a2; exact (Except.ok.inj a2).symm

theorem layerStep_agree (hI : ∀ a b, I (a ⊔ b) ↔ I a ∧ I b) (r : Agree I p A B) {o : Opt α} (ho : ∀ m, o.hyperOf m = A.opt.hyperOf m)
    (hs : o.steps = A.opt.steps) {m : Layer} (a : World.layerStep m A = (.ok (), A')) (b : World.layerStep m B = (.ok (), B')) :
    Agree I (p.layerStep o m) A' B' := by
  have f := World.updatePreconditioner_frame m A
  rw [World.layerStep] at a b
  obtain ⟨_, t, a1, a⟩ := Py.bind_eq_ok.1 a
  obtain ⟨_, t', b1, b⟩ := Py.bind_eq_ok.1 b
  rw [a1] at f
  rw [Py.get_bind_run] at a b
  obtain ⟨N, a2, a⟩ := Py.lift_bind_ok_iff.1 a
  obtain ⟨N', b2, b⟩ := Py.lift_bind_ok_iff.1 b
  unfold layerStep
  rw [ho]
  rcases hh : A.opt.hyperOf m with e | h
  · rw [World.updatePreconditioner, Py.get_bind_run, hh, Py.lift_error_bind_run] at a1
    cases a1
  · dsimp only
    have r1 := update_agree hI r hh a1 b1
    rw [hs]
    refine applyNat_agree hI r1 (by rw [f.hyperOf, hh]) (fun l => ?_) a b
    rw [natGrad_congr hI r1 m (by rw [f.steps]; exact l), b2] at a2
    exact (Except.ok.inj a2).symm

theorem innerStep_agree (hI : ∀ a b, I (a ⊔ b) ↔ I a ∧ I b) {o : Opt α} : ∀ {ms : List Layer} {p : Prov ℒ} {A B : World α} (_ : Agree I p A B)
    (_ : ∀ m, o.hyperOf m = A.opt.hyperOf m) (_ : o.steps = A.opt.steps) (_ : Py.forM ms World.layerStep A = (.ok (), A'))
    (_ : Py.forM ms World.layerStep B = (.ok (), B')), Agree I (ms.foldl (layerStep o) p) A' B'
  | [], p, A, B, r, _, _, a, b => by cases a; cases b; exact r
  | m :: ms, p, A, B, r, ho, hs, a, b => by
    obtain ⟨t, a1, a⟩ := Py.forM_cons_ok.1 a
    obtain ⟨t', b1, b⟩ := Py.forM_cons_ok.1 b
    have f := World.layerStep_frame m A
    rw [a1] at f
    exact innerStep_agree (ms := ms) hI (layerStep_agree hI r ho hs a1 b1) (fun n => by rw [ho, f.hyperOf]) (by rw [hs, f.steps]) a b


theorem localH_inv {o : Opt α} {m : Layer} {x g : ND α} {H : SM α × SM α} (e : World.localH o m x g = .ok H) :
    ∃ h a g1 K C s g2, o.hyperOf m = .ok h ∧ PIO.processInput x m.kind m.bias.isSome h.kfacApprox = .ok a ∧
      PIO.processGradOutput g m.kind h.lossAverage h.kfacApprox = .ok g1 ∧ o.Ks m.name = some K ∧ o.Cs m.name = some C ∧
      K.fromInner (some a.T) = .ok H.1 ∧ o.scales ((o.steps : ℤ) - 1) = some s ∧ World.unscaleGrad s g1 = .ok g2 ∧
      C.fromInner (some g2.T) = .ok H.2 := by
  unfold World.localH at e
  obtain ⟨h, h1, e⟩ := Except.bind_ok_iff'.1 e
  obtain ⟨a, h2, e⟩ := Except.bind_ok_iff'.1 e
  obtain ⟨g1, h3, e⟩ := Except.bind_ok_iff'.1 e
  obtain ⟨K, h4, e⟩ := Except.bind_ok_iff'.1 e
  obtain ⟨C, h5, e⟩ := Except.bind_ok_iff'.1 e
  obtain ⟨HK, h6, e⟩ := Except.bind_ok_iff'.1 e
  obtain ⟨s, h7, e⟩ := Except.bind_ok_iff'.1 e
  obtain ⟨g2, h8, e⟩ := Except.bind_ok_iff'.1 e
  obtain ⟨HC, h9, e⟩ := Except.bind_ok_iff'.1 e
  cases e
  exact ⟨h, a, g1, K, C, s, g2, h1, h2, h3, lookup_ok_iff.1 h4, lookup_ok_iff.1 h5, h6, lookup_ok_iff.1 h7, h8, h9⟩

theorem accumulateH_inv {m : Layer} {x g : ND α} {w w' : World α} (e : World.accumulateH m x g w = (.ok (), w')) :
    ∃ H HK HC, World.localH w.opt m x g = .ok H ∧ World.accum (w.opt.HKs m.name) H.1 = .ok HK ∧ World.accum (w.opt.HCs m.name) H.2 = .ok HC ∧
      w' = { w with opt := { w.opt with HKs := Dict.set w.opt.HKs m.name HK, HCs := Dict.set w.opt.HCs m.name HC } } := by
  rw [World.accumulateH, Py.get_bind_run] at e
  obtain ⟨H, h1, e⟩ := Py.lift_bind_ok_iff.1 e
  rw [World.commitH, Py.get_bind_run] at e
  obtain ⟨HK, h2, e⟩ := Py.lift_bind_ok_iff.1 e
  rw [World.setOpt, Py.modify_bind_run] at e
  obtain ⟨HC, h3, e⟩ := Py.lift_bind_ok_iff.1 e
  exact ⟨H, HK, HC, h1, h2, h3, (congrArg Prod.snd e).symm⟩

theorem accumulate_agree (hI : ∀ a b, I (a ⊔ b) ↔ I a ∧ I b) (r : Agree I p A B) {m : Layer} {x x' g g' : ND α} {ℓx ℓg : ℒ}
    (hx : I ℓx → x = x') (hg : I ℓg → g = g') (a : World.accumulateH m x g A = (.ok (), A')) (b : World.accumulateH m x' g' B = (.ok (), B')) :
    Agree I (p.accumulate A.opt.steps m.name ℓx ℓg) A' B' := by
  obtain ⟨H, HK, HC, a1, a2, a3, rfl⟩ := accumulateH_inv a
  obtain ⟨H', HK', HC', b1, b2, b3, rfl⟩ := accumulateH_inv b
  obtain ⟨h, u, g1, K, C, s, g2, c1, c2, c3, c4, c5, c6, c7, c8, c9⟩ := localH_inv a1
  obtain ⟨h', u', g1', K', C', s', g2', d1, d2, d3, d4, d5, d6, d7, d8, d9⟩ := localH_inv b1
  rw [hyperOf_congr r, d1] at c1; cases c1
  refine ⟨r.structs, r.layers, r.ptrGroup, r.groups, r.steps, r.dom, r.scale, r.K, r.C, r.mK, r.mC, ?_, ?_, r.data, r.grad,
    r.mom, r.hookA, r.hookB, r.hookLayer, r.hook⟩
  · refine agree_set r.HK _ fun l => ?_
    simp only [hI] at l
    obtain ⟨l1, l2, l3⟩ := l
    have := hx l2; subst this
    rw [d2] at c2; cases c2
    rw [r.K _ l3, d4] at c4; cases c4
    rw [r.HK _ l1, Except.ok.inj (c6.symm.trans d6), b2] at a2
    exact (Except.ok.inj a2).symm
  · refine agree_set r.HC _ fun l => ?_
    simp only [hI] at l
    obtain ⟨l1, ⟨l2, l3⟩, l4⟩ := l
    have := hg l2; subst this
    rw [d3] at c3; cases c3
    rw [r.C _ l3, d5] at c5; cases c5
    rw [r.scale _ l4, r.steps, d7] at c7; cases c7
    rw [d8] at c8; cases c8
    rw [r.HC _ l1, Except.ok.inj (c9.symm.trans d9), b3] at a3
    exact (Except.ok.inj a3).symm

theorem setScale_agree (r : Agree I p A B) {s s' : α} {ℓ : ℒ} (hs : I ℓ → s = s') :
    Agree I { p with scale := Function.update p.scale A.opt.steps ℓ }
      { A with opt := { A.opt with scales := Dict.set A.opt.scales A.opt.steps s } }
      { B with opt := { B.opt with scales := Dict.set B.opt.scales B.opt.steps s' } } := by
  refine ⟨r.structs, r.layers, r.ptrGroup, r.groups, r.steps, fun t => ?_, ?_, r.K, r.C, r.mK, r.mC, r.HK, r.HC, r.data, r.grad,
    r.mom, r.hookA, r.hookB, r.hookLayer, r.hook⟩
  · dsimp only
    rw [← r.steps]
    unfold Dict.set
    by_cases e : t = (A.opt.steps : ℤ)
    · subst e; rw [Function.update_self, Function.update_self]; simp
    · rw [Function.update_of_ne e, Function.update_of_ne e]; exact r.dom t
  · dsimp only
    rw [← r.steps]
    exact agree_set r.scale _ hs

theorem withScale_agree (r : Agree I p A B) {s s' : Option α} {ℓ : ℒ} (hs : I ℓ → s = s') :
    Agree I (p.ensureScale A.opt ℓ) (A.withScale s) (B.withScale s') := by
  unfold ensureScale
  by_cases h : A.opt.scales A.opt.steps = none
  · have h' := (r.dom _).1 h
    rw [if_pos h]
    rw [r.steps] at h'
    have e1 : A.withScale s = { A with opt := { A.opt with scales := Dict.set A.opt.scales A.opt.steps (s.getD 1) } } := by
      rw [World.withScale, h]; rfl
    have e2 : B.withScale s' = { B with opt := { B.opt with scales := Dict.set B.opt.scales B.opt.steps (s'.getD 1) } } := by
      rw [World.withScale, h']; rfl
    rw [e1, e2]
    exact setScale_agree r fun l => congrArg (Option.getD · 1) (hs l)
  · have h' := fun e => h ((r.dom _).2 e)
    rw [if_neg h]
    obtain ⟨v, hv⟩ := Option.ne_none_iff_exists'.1 h
    rw [r.steps] at h'
    obtain ⟨v', hv'⟩ := Option.ne_none_iff_exists'.1 h'
    have e1 : A.withScale s = A := by rw [World.withScale, hv, Option.getD_some, Dict.set, ← hv, Function.update_eq_self]
    have e2 : B.withScale s' = B := by rw [World.withScale, hv', Option.getD_some, Dict.set, ← hv', Function.update_eq_self]
    rw [e1, e2]; exact r

theorem removeUsed_agree (r : Agree I p A B) : Agree I p
    { A with opt := Opt.removeUsedScales { A.opt with steps := A.opt.steps + 1 } }
    { B with opt := Opt.removeUsedScales { B.opt with steps := B.opt.steps + 1 } } := by
  refine ⟨r.structs, r.layers, r.ptrGroup, r.groups, ?_, fun t => ?_, fun t l => ?_, r.K, r.C, r.mK, r.mC, r.HK, r.HC, r.data, r.grad,
    r.mom, r.hookA, r.hookB, r.hookLayer, r.hook⟩
  · show A.opt.steps + 1 = B.opt.steps + 1
    rw [r.steps]
  · simp only [Opt.removeUsedScales, ← r.steps]
    split
    · exact Iff.rfl
    · exact r.dom t
  · simp only [Opt.removeUsedScales, ← r.steps]
    split
    · rfl
    · exact r.scale t l

theorem dropStats_agree (r : Agree I p A B) : Agree I (p.dropStats A.opt.layers) (World.dropStats A).2 (World.dropStats B).2 := by
  rw [World.dropStats_run, World.dropStats_run]
  refine ⟨r.structs, r.layers, r.ptrGroup, r.groups, r.steps, r.dom, r.scale, r.K, r.C, r.mK, r.mC, fun n l => ?_, fun n l => ?_, r.data, r.grad,
    r.mom, r.hookA, r.hookB, r.hookLayer, r.hook⟩
  · dsimp only [dropStats] at l ⊢
    rw [← r.layers]
    by_cases e : ∃ m ∈ A.opt.layers, m.name = n
    · rw [if_pos e, if_pos e]
    · rw [if_neg e] at l
      rw [if_neg e, if_neg e]; exact r.HK n l
  · dsimp only [dropStats] at l ⊢
    rw [← r.layers]
    by_cases e : ∃ m ∈ A.opt.layers, m.name = n
    · rw [if_pos e, if_pos e]
    · rw [if_neg e] at l
      rw [if_neg e, if_neg e]; exact r.HC n l

theorem step_agree (hI : ∀ a b, I (a ⊔ b) ↔ I a ∧ I b) (r : Agree I p A B) {s s' : Option α} {f : Bool} {ℓ : ℒ} (hs : I ℓ → s = s')
    (a : World.step false s f A = (.ok (), A')) (b : World.step false s' f B = (.ok (), B')) :
    Agree I (p.exec A (.step false s f) ℓ) A' B' := by
  obtain ⟨-, a1, a2, rfl⟩ := World.step_ok_iff.1 a
  obtain ⟨-, b1, b2, rfl⟩ := World.step_ok_iff.1 b
  have r1 := withScale_agree r hs
  refine removeUsed_agree ?_
  unfold exec
  cases f with
  | true =>
    have := dropStats_agree r1
    rw [World.stepBody, if_pos rfl] at a2 b2
    rw [a2, b2] at this
    exact this
  | false =>
    rw [World.stepBody, if_neg (by simp), World.innerStep, Py.get_bind_run] at a2 b2
    have hl : (B.withScale s').opt.layers = (A.withScale s).opt.layers := r.layers.symm
    rw [hl] at b2
    exact innerStep_agree hI r1 (fun _ => rfl) rfl a2 b2

theorem exec_agree (hI : ∀ a b, I (a ⊔ b) ↔ I a ∧ I b) (r : Agree I p A B) {op op' : Op α} {ℓ : ℒ} (hk : SameKind op op') (hd : I ℓ → op = op')
    (a : _root_.exec op A = (.ok (), A')) (b : _root_.exec op' B = (.ok (), B')) : Agree I (p.exec A op ℓ) A' B' := by
  cases hk with
  | forward i x y ge =>
    rw [_root_.exec, Py.get_bind_run] at a b
    rw [← r.layers] at b
    rcases hm : A.opt.layers[i]? with _ | m
    · rw [hm] at a b
      cases a; cases b
      simp only [exec, hm]; exact r
    · rw [hm] at a b
      dsimp only at a b
      rw [World.forwardHook, Py.get_bind_run] at a b
      rw [← hyperOf_congr r] at b
      rcases hh : A.opt.hyperOf m with e | h
      · rw [hh, Py.lift_error_bind_run] at a; cases a
      · rw [hh, Py.lift_ok_bind_run] at a b
        simp only [exec, hm, hh]
        cases ge with
        | false =>
          simp only [Bool.false_eq_true, if_false] at a b
          cases a; cases b
          simp only [Bool.false_eq_true, false_and, if_false]; exact r
        | true =>
          simp only [if_true] at a b
          by_cases hT : h.T = 0
          · rw [if_pos hT] at a; cases a
          · rw [if_neg hT] at a b
            rw [← r.steps] at b
            by_cases hs : A.opt.steps % h.T = 0
            · rw [if_pos hs] at a b
              cases a; cases b
              rw [if_pos ⟨rfl, hs⟩]
              refine ⟨r.structs, r.layers, r.ptrGroup, r.groups, r.steps, r.dom, r.scale, r.K, r.C, r.mK, r.mC, r.HK, r.HC, r.data, r.grad,
                r.mom, ?_, ?_, ?_, fun k z hz l => ?_⟩
              · simp only [List.length_append, r.hookA, List.length_cons, List.length_nil]
              · simp only [List.length_append, r.hookB, List.length_cons, List.length_nil]
              · simp only [List.map_append, r.hookLayer, List.map_cons, List.map_nil]
              · dsimp only at hz ⊢
                rcases lt_trichotomy k p.hooks.length with hlt | heq | hgt
                · rw [List.getElem?_append_left hlt] at hz
                  rw [List.getElem?_append_left (by rw [r.hookA]; exact hlt), List.getElem?_append_left (by rw [r.hookB]; exact hlt)]
                  exact r.hook k z hz l
                · subst heq
                  rw [List.getElem?_concat_length] at hz
                  cases hz
                  have := hd l
                  cases this
                  rw [← r.hookA, List.getElem?_concat_length, r.hookA, ← r.hookB, List.getElem?_concat_length]
                · rw [List.getElem?_eq_none (by simp; omega)] at hz
                  cases hz
            · rw [if_neg hs] at a b
              cases a; cases b
              rw [if_neg (fun c => hs c.2)]; exact r
  | backward k g g' =>
    rw [_root_.exec, Py.get_bind_run] at a b
    rcases hp : p.hooks[k]? with _ | x
    · have hl := List.getElem?_eq_none_iff.1 hp
      rw [List.getElem?_eq_none (by rw [r.hookA]; exact hl)] at a
      rw [List.getElem?_eq_none (by rw [r.hookB]; exact hl)] at b
      cases a; cases b
      unfold exec
      dsimp only
      rw [hp]
      split <;> first | exact r | simp_all
    · have hl := (List.getElem?_eq_some_iff.1 hp).1
      obtain ⟨mx, hA⟩ : ∃ mx, A.hooks[k]? = some mx := ⟨_, List.getElem?_eq_getElem (by rw [r.hookA]; exact hl)⟩
      obtain ⟨mx', hB⟩ : ∃ mx, B.hooks[k]? = some mx := ⟨_, List.getElem?_eq_getElem (by rw [r.hookB]; exact hl)⟩
      have hm : mx.1 = mx'.1 := by
        have := congrArg (·[k]?) r.hookLayer
        simpa [hA, hB] using this
      rw [hA] at a; rw [hB] at b
      dsimp only at a b
      rw [← hm] at b
      simp only [exec, hA, hp]
      refine accumulate_agree hI r (fun l => ?_) (fun l => ?_) a b
      · have := r.hook k x hp l
        rw [hA, hB] at this
        rw [Option.some.inj this]
      · have := hd l
        cases this; rfl
  | setGrad q G G' =>
    cases a; cases b
    refine ⟨r.structs, r.layers, r.ptrGroup, r.groups, r.steps, r.dom, r.scale, r.K, r.C, r.mK, r.mC, r.HK, r.HC, r.data, fun k l => ?_,
      r.mom, r.hookA, r.hookB, r.hookLayer, r.hook⟩
    dsimp only [exec] at l ⊢
    by_cases e : k = q
    · subst e
      rw [Function.update_self] at l
      have := hd l; cases this
      rw [Function.update_self, Function.update_self]
    · rw [Function.update_of_ne e] at l
      rw [Function.update_of_ne e, Function.update_of_ne e]; exact r.grad k l
  | setParam q M M' =>
    cases a; cases b
    refine ⟨r.structs, r.layers, r.ptrGroup, r.groups, r.steps, r.dom, r.scale, r.K, r.C, r.mK, r.mC, r.HK, r.HC, fun k l => ?_, r.grad,
      r.mom, r.hookA, r.hookB, r.hookLayer, r.hook⟩
    dsimp only [exec] at l ⊢
    by_cases e : k = q
    · subst e
      rw [Function.update_self] at l
      have := hd l; cases this
      rw [Function.update_self, Function.update_self]
    · rw [Function.update_of_ne e] at l
      rw [Function.update_of_ne e, Function.update_of_ne e]; exact r.data k l
  | setHyper i h =>
    cases a; cases b
    exact ⟨r.structs, r.layers, r.ptrGroup, (by
      show A.opt.groups.modify i _ = B.opt.groups.modify i _
      rw [r.groups]), r.steps, r.dom, r.scale,
      r.K, r.C, r.mK, r.mC, r.HK, r.HC, r.data, r.grad, r.mom, r.hookA, r.hookB, r.hookLayer, r.hook⟩
  | setScale s s' =>
    have a' := congrArg Prod.snd a
    have b' := congrArg Prod.snd b
    rw [_root_.exec, World.setScale_state] at a' b'
    cases a'; cases b'
    exact setScale_agree r fun l => by have := hd l; cases this; rfl
  | step c x x' f =>
    cases c with
    | true => rw [_root_.exec, World.step, if_pos rfl] at a; cases a
    | false => exact step_agree hI r (fun l => by have := hd l; cases this; rfl) a b

end Prov

open Prov in
/-- Non-interference: two executions that differ in data only, and only in data whose labels are not in `I`, agree on every
tensor whose label is in `I`, whatever ideal of labels `I` is. -/
theorem C84_noninterference {I : ℒ → Prop} (hI : ∀ a b, I (a ⊔ b) ↔ I a ∧ I b) : ∀ (hs : List (Op α × Op α × ℒ)) {p : Prov ℒ} {A B A' B' : World α},
    (∀ t ∈ hs, SameKind t.1 t.2.1 ∧ (I t.2.2 → t.1 = t.2.1)) → Agree I p A B → runOk (hs.map (·.1)) A = some A' → runOk (hs.map (·.2.1)) B = some B' →
      Agree I (Prov.run (hs.map fun t => (t.1, t.2.2)) A p) A' B'
  | [], p, A, B, A', B', _, r, a, b => by cases a; cases b; exact r
  | (op, op', ℓ) :: hs, p, A, B, A', B', h, r, a, b => by
    simp only [List.map_cons, runOk] at a b
    rcases ha : _root_.exec op A with ⟨e | u, A1⟩
    · rw [ha] at a; cases a
    rcases hb : _root_.exec op' B with ⟨e | u', B1⟩
    · rw [hb] at b; cases b
    rw [ha] at a; rw [hb] at b
    have h0 := h _ (List.mem_cons_self ..)
    have r1 := exec_agree hI r h0.1 h0.2 ha hb
    have := C84_noninterference hI hs (fun t ht => h t (List.mem_cons_of_mem _ ht)) r1 a b
    rw [List.map_cons, Prov.run, ha]
    exact this

/-! ### what labels do -/

namespace Prov
variable {p : Prov ℒ}

/-- nothing that was in a factor, its momentum, a parameter or its buffer is lost -/
structure Keeps (p p' : Prov ℒ) : Prop where
  K : p.K ≤ p'.K
  C : p.C ≤ p'.C
  data : p.data ≤ p'.data
  mom : p.mom ≤ p'.mom

theorem Keeps.rfl' : Keeps p p := ⟨le_rfl, le_rfl, le_rfl, le_rfl⟩
theorem Keeps.trans' {p' p'' : Prov ℒ} (h : Keeps p p') (h' : Keeps p' p'') : Keeps p p'' :=
  ⟨h.K.trans h'.K, h.C.trans h'.C, h.data.trans h'.data, h.mom.trans h'.mom⟩

theorem le_update {κ : Type} [DecidableEq κ] {f : κ → ℒ} {k : κ} {x : ℒ} (h : f k ≤ x) : f ≤ Function.update f k x := by
  intro n
  by_cases e : n = k
  · subst e; rw [Function.update_self]; exact h
  · rw [Function.update_of_ne e]

theorem update_keeps (h : Hyper α) (t : ℕ) (m : Layer) : Keeps p (p.update h t m) := by
  unfold update
  split
  · exact ⟨le_update le_sup_left, le_update le_sup_left, le_rfl, le_rfl⟩
  · exact Keeps.rfl'

theorem paramStep_keeps (h : Hyper α) (q : ℕ) (s : ℒ) : Keeps p (p.paramStep h q s) := by
  unfold paramStep
  dsimp only
  split
  · exact ⟨le_rfl, le_rfl, le_update le_sup_left, le_update le_sup_left⟩
  · exact ⟨le_rfl, le_rfl, le_update le_sup_left, le_rfl⟩

theorem applyNat_keeps (h : Hyper α) (m : Layer) (s : ℒ) : Keeps p (p.applyNat h m s) := by
  unfold applyNat
  split
  · exact paramStep_keeps ..
  · exact (paramStep_keeps ..).trans' (paramStep_keeps ..)

theorem layerStep_keeps (o : Opt α) (m : Layer) : Keeps p (p.layerStep o m) := by
  unfold layerStep
  split
  · exact (update_keeps ..).trans' (applyNat_keeps ..)
  · exact Keeps.rfl'

theorem foldl_keeps (o : Opt α) : ∀ (ms : List Layer) (p : Prov ℒ), Keeps p (ms.foldl (layerStep o) p)
  | [], _ => Keeps.rfl'
  | m :: ms, _ => (layerStep_keeps o m).trans' (foldl_keeps o ms _)

theorem ensureScale_keeps (o : Opt α) (ℓ : ℒ) : Keeps p (p.ensureScale o ℓ) := by
  unfold ensureScale
  split <;> exact ⟨le_rfl, le_rfl, le_rfl, le_rfl⟩

/-- the operation does not assign to a parameter -/
def NoAssign : Op α → Prop
  | .setParam _ _ => False
  | _ => True

theorem exec_keeps (w : World α) (op : Op α) (ℓ : ℒ) (h : NoAssign op) : Keeps p (p.exec w op ℓ) := by
  cases op with
  | forward i x ge =>
    unfold exec
    dsimp only
    repeat' split
    all_goals exact ⟨le_rfl, le_rfl, le_rfl, le_rfl⟩
  | backward k g =>
    unfold exec
    dsimp only
    split <;> exact ⟨le_rfl, le_rfl, le_rfl, le_rfl⟩
  | setGrad q G => exact ⟨le_rfl, le_rfl, le_rfl, le_rfl⟩
  | setParam q M => exact h.elim
  | setHyper i h => exact Keeps.rfl'
  | setScale s => exact ⟨le_rfl, le_rfl, le_rfl, le_rfl⟩
  | step c a f =>
    unfold exec
    dsimp only
    split
    · exact (ensureScale_keeps ..).trans' ⟨le_rfl, le_rfl, le_rfl, le_rfl⟩
    · exact (ensureScale_keeps ..).trans' (foldl_keeps ..)

end Prov

open Prov in
/-- What has once entered a factor, a parameter or a momentum buffer stays there for ever, unless the user assigns the
parameter: there is no decay to nothing and no reset. -/
theorem C84_never_forgotten : ∀ (ops : List (Op α × ℒ)) (w : World α) (p : Prov ℒ), (∀ t ∈ ops, NoAssign t.1) → Keeps p (Prov.run ops w p)
  | [], _, _, _ => Keeps.rfl'
  | (op, ℓ) :: ops, w, p, h => (exec_keeps w op ℓ (h _ (List.mem_cons_self ..))).trans'
      (C84_never_forgotten ops _ _ fun t ht => h t (List.mem_cons_of_mem _ ht))

namespace Prov
variable {p : Prov ℒ}

theorem paramStep_data (h : Hyper α) (q : ℕ) (s : ℒ) : s ≤ (p.paramStep h q s).data q := by
  unfold paramStep
  dsimp only
  split
  · dsimp only; rw [Function.update_self]; exact le_sup_left.trans (le_sup_right.trans le_sup_right)
  · dsimp only; rw [Function.update_self]; exact le_sup_left.trans le_sup_right

theorem applyNat_weight (h : Hyper α) (m : Layer) (s : ℒ) : s ≤ (p.applyNat h m s).data m.weight.ptr := by
  unfold applyNat
  split
  · exact paramStep_data ..
  · exact (paramStep_data h _ s).trans ((paramStep_keeps h _ s).data _)

theorem applyNat_bias (h : Hyper α) (m : Layer) (s : ℒ) {b : Param} (hb : m.bias = some b) : s ≤ (p.applyNat h m s).data b.ptr := by
  unfold applyNat
  rw [hb]
  exact paramStep_data ..

theorem layerStep_spread (o : Opt α) (m : Layer) {h : Hyper α} (hh : o.hyperOf m = .ok h) :
    p.K m.name ⊔ p.C m.name ≤ (p.layerStep o m).data m.weight.ptr ∧
      ∀ b, m.bias = some b → p.K m.name ⊔ p.C m.name ≤ (p.layerStep o m).data b.ptr := by
  unfold layerStep
  rw [hh]
  dsimp only
  have hk := update_keeps (p := p) h o.steps m
  have : p.K m.name ⊔ p.C m.name ≤ (p.update h o.steps m).natGrad o.steps m := by
    unfold natGrad
    exact sup_le ((hk.K _).trans (le_sup_right.trans le_sup_left)) ((hk.C _).trans le_sup_right)
  exact ⟨this.trans (applyNat_weight ..), fun b hb => this.trans (applyNat_bias h m _ hb)⟩

theorem foldl_spread (o : Opt α) {m : Layer} {h : Hyper α} (hh : o.hyperOf m = .ok h) : ∀ (ms : List Layer) (p : Prov ℒ), m ∈ ms →
    p.K m.name ⊔ p.C m.name ≤ (ms.foldl (layerStep o) p).data m.weight.ptr ∧
      ∀ b, m.bias = some b → p.K m.name ⊔ p.C m.name ≤ (ms.foldl (layerStep o) p).data b.ptr
  | [], _, hm => by cases hm
  | m' :: ms, p, hm => by
    rw [List.foldl_cons]
    rcases List.mem_cons.1 hm with rfl | hm
    · have := layerStep_spread (p := p) o m hh
      have hk := (foldl_keeps o ms (p.layerStep o m)).data
      exact ⟨this.1.trans (hk _), fun b hb => (this.2 b hb).trans (hk _)⟩
    · have := foldl_spread o hh ms (p.layerStep o m') hm
      have hk := layerStep_keeps (p := p) o m'
      have hle : p.K m.name ⊔ p.C m.name ≤ (p.layerStep o m').K m.name ⊔ (p.layerStep o m').C m.name := sup_le_sup (hk.K _) (hk.C _)
      exact ⟨hle.trans this.1, fun b hb => hle.trans (this.2 b hb)⟩

end Prov

open Prov in
/-- Whatever is in the factors of a layer is in its parameters after the next step which is not skipped. -/
theorem C84_spreads (w : World α) (p : Prov ℒ) (c : Bool) (a : Option α) (ℓ : ℒ) {m : Layer} (hm : m ∈ w.opt.layers) {h : Hyper α}
    (hh : w.opt.hyperOf m = .ok h) : p.K m.name ⊔ p.C m.name ≤ (p.exec w (.step c a false) ℓ).data m.weight.ptr ∧
      ∀ b, m.bias = some b → p.K m.name ⊔ p.C m.name ≤ (p.exec w (.step c a false) ℓ).data b.ptr := by
  have hk := ensureScale_keeps (p := p) w.opt ℓ
  have := foldl_spread w.opt hh w.opt.layers (p.ensureScale w.opt ℓ) hm
  have hle := sup_le_sup (hk.K m.name) (hk.C m.name)
  exact ⟨hle.trans this.1, fun b hb => hle.trans (this.2 b hb)⟩

open Prov in
/-- A skipped step forgets the statistics and touches nothing else: what entered them since the last update is gone. -/
theorem C84_skip_drops (w : World α) (p : Prov ℒ) (c : Bool) (a : Option α) (ℓ : ℒ) :
    (p.exec w (.step c a true) ℓ).K = p.K ∧ (p.exec w (.step c a true) ℓ).C = p.C ∧ (p.exec w (.step c a true) ℓ).mK = p.mK ∧
      (p.exec w (.step c a true) ℓ).mC = p.mC ∧ (p.exec w (.step c a true) ℓ).data = p.data ∧ (p.exec w (.step c a true) ℓ).mom = p.mom ∧
      ∀ m ∈ w.opt.layers, (p.exec w (.step c a true) ℓ).HK m.name = ⊥ ∧ (p.exec w (.step c a true) ℓ).HC m.name = ⊥ := by
  have e : ∀ q : Prov ℒ, (if true = true then dropStats w.opt.layers (ensureScale w.opt ℓ p) else q) = dropStats w.opt.layers (ensureScale w.opt ℓ p) :=
    fun q => if_pos rfl
  simp only [Prov.exec, e]
  unfold Prov.ensureScale
  by_cases hs : w.opt.scales w.opt.steps = none
  · rw [if_pos hs]
    exact ⟨rfl, rfl, rfl, rfl, rfl, rfl, fun m hm => ⟨if_pos ⟨m, hm, rfl⟩, if_pos ⟨m, hm, rfl⟩⟩⟩
  · rw [if_neg hs]
    exact ⟨rfl, rfl, rfl, rfl, rfl, rfl, fun m hm => ⟨if_pos ⟨m, hm, rfl⟩, if_pos ⟨m, hm, rfl⟩⟩⟩

/-! ### consequences for values -/

namespace Prov

theorem bool_ideal : ∀ a b : Bool, (a ⊔ b = false) ↔ a = false ∧ b = false := by decide

/-- only `p.data` and the momentum buffer of parameter `q` are marked -/
structure Only (q : ℕ) (p : Prov Bool) : Prop where
  K : ∀ n, p.K n = false
  C : ∀ n, p.C n = false
  mK : ∀ n, p.mK n = false
  mC : ∀ n, p.mC n = false
  HK : ∀ n, p.HK n = false
  HC : ∀ n, p.HC n = false
  data : ∀ k, k ≠ q → p.data k = false
  grad : ∀ k, p.grad k = false
  mom : ∀ k, k ≠ q → p.mom k = false
  scale : ∀ t, p.scale t = false
  hooks : ∀ x ∈ p.hooks, x = false

theorem update_false {κ : Type} [DecidableEq κ] {f : κ → Bool} {P : κ → Prop} (h : ∀ n, P n → f n = false) {k : κ} {x : Bool} (hx : P k → x = false) :
    ∀ n, P n → Function.update f k x n = false := by
  intro n hn
  by_cases e : n = k
  · subst e; rw [Function.update_self]; exact hx hn
  · rw [Function.update_of_ne e]; exact h n hn

theorem update_false' {κ : Type} [DecidableEq κ] {f : κ → Bool} (h : ∀ n, f n = false) {k : κ} {x : Bool} (hx : x = false) :
    ∀ n, Function.update f k x n = false := fun n => update_false (P := fun _ => True) (fun n _ => h n) (fun _ => hx) n trivial

variable {q : ℕ} {p : Prov Bool}

theorem Only.paramStep (o : Only q p) (h : Hyper α) (k : ℕ) : Only q (p.paramStep h k false) := by
  have hs : k ≠ q → (false ⊔ (if h.weightDecay ≠ 0 then p.data k else ⊥)) = false := by
    intro hk
    rw [o.data k hk]
    split <;> rfl
  unfold Prov.paramStep
  dsimp only
  split
  · exact ⟨o.K, o.C, o.mK, o.mC, o.HK, o.HC,
      update_false o.data fun hk => by rw [hs hk, o.data k hk, o.mom k hk]; rfl, o.grad,
      update_false o.mom fun hk => by rw [o.mom k hk, hs hk]; rfl, o.scale, o.hooks⟩
  · exact ⟨o.K, o.C, o.mK, o.mC, o.HK, o.HC, update_false o.data fun hk => by rw [hs hk, o.data k hk]; rfl, o.grad, o.mom, o.scale, o.hooks⟩

theorem Only.update (o : Only q p) (h : Hyper α) (t : ℕ) (m : Layer) : Only q (p.update h t m) := by
  have hK : p.newMK h t m.name = false := by
    simp only [newMK, unscale, o.K, o.HK, o.C, o.HC, o.mK, o.scale]
    repeat' split
    all_goals rfl
  have hC : p.newMC h t m.name = false := by
    simp only [newMC, unscale, o.K, o.HK, o.C, o.HC, o.mC, o.scale]
    repeat' split
    all_goals rfl
  unfold Prov.update
  split
  · refine ⟨update_false' o.K (by rw [hK, o.K]; rfl), update_false' o.C (by rw [hC, o.C]; rfl), ?_, ?_, update_false' o.HK rfl, update_false' o.HC rfl,
      o.data, o.grad, o.mom, o.scale, o.hooks⟩
    · unfold updateOn; dsimp only; split
      · exact update_false' o.mK hK
      · exact o.mK
    · unfold updateOn; dsimp only; split
      · exact update_false' o.mC hC
      · exact o.mC
  · exact o

theorem Only.layerStep (o : Only q p) (op : Opt α) (m : Layer) : Only q (p.layerStep op m) := by
  unfold Prov.layerStep
  split
  · rename_i h _
    have o1 := o.update h op.steps m
    have hn : (p.update h op.steps m).natGrad op.steps m = false := by
      unfold natGrad
      rw [o1.grad, o1.scale, o1.K, o1.C]
      split
      · rfl
      · rw [o1.grad]; rfl
    rw [hn]
    unfold applyNat
    split
    · exact o1.paramStep h _
    · exact (o1.paramStep h _).paramStep h _
  · exact o

theorem Only.foldl (op : Opt α) : ∀ (ms : List Layer) {p : Prov Bool}, Only q p → Only q (ms.foldl (Prov.layerStep op) p)
  | [], _, o => o
  | m :: ms, _, o => Only.foldl op ms (o.layerStep op m)

theorem Only.exec (o : Only q p) (w : World α) (op : Op α) : Only q (p.exec w op false) := by
  have he : ∀ s : Opt α, Only q (p.ensureScale s false) := fun s => by
    unfold Prov.ensureScale
    split
    · exact ⟨o.K, o.C, o.mK, o.mC, o.HK, o.HC, o.data, o.grad, o.mom, update_false' o.scale rfl, o.hooks⟩
    · exact o
  cases op with
  | forward i x ge =>
    unfold Prov.exec
    dsimp only
    repeat' split
    all_goals first
      | exact o
      | exact ⟨o.K, o.C, o.mK, o.mC, o.HK, o.HC, o.data, o.grad, o.mom, o.scale, fun x hx => by
          rcases List.mem_append.1 hx with hx | hx
          · exact o.hooks x hx
          · exact List.mem_singleton.1 hx⟩
  | backward k g =>
    unfold Prov.exec
    dsimp only
    split
    · rename_i mx x hx hp
      have := o.hooks x (List.mem_of_getElem? hp)
      subst this
      exact ⟨o.K, o.C, o.mK, o.mC, update_false' o.HK (by rw [o.HK, o.K]; rfl), update_false' o.HC (by rw [o.HC, o.C, o.scale]; rfl),
        o.data, o.grad, o.mom, o.scale, o.hooks⟩
    · exact o
  | setGrad k G => exact ⟨o.K, o.C, o.mK, o.mC, o.HK, o.HC, o.data, update_false' o.grad rfl, o.mom, o.scale, o.hooks⟩
  | setParam k M => exact ⟨o.K, o.C, o.mK, o.mC, o.HK, o.HC, update_false o.data fun _ => rfl, o.grad, o.mom, o.scale, o.hooks⟩
  | setHyper i h => exact o
  | setScale s => exact ⟨o.K, o.C, o.mK, o.mC, o.HK, o.HC, o.data, o.grad, o.mom, update_false' o.scale rfl, o.hooks⟩
  | step c a f =>
    unfold Prov.exec
    dsimp only
    have e := he w.opt
    split
    · refine ⟨e.K, e.C, e.mK, e.mC, fun n => ?_, fun n => ?_, e.data, e.grad, e.mom, e.scale, e.hooks⟩
      · unfold Prov.dropStats; dsimp only; split
        · rfl
        · exact e.HK n
      · unfold Prov.dropStats; dsimp only; split
        · rfl
        · exact e.HC n
    · exact e.foldl w.opt _

theorem Only.run : ∀ (ops : List (Op α)) (w : World α) {p : Prov Bool}, Only q p → Only q (Prov.run (ops.map fun op => (op, false)) w p)
  | [], _, _, o => o
  | op :: ops, w, _, o => Only.run ops _ (o.exec w op)

end Prov

open Prov in
/-- The value (and the momentum buffer) of a parameter has an effect on that value and that buffer only: two executions of the
same operations from states that differ in nothing else differ in nothing else at the end. -/
theorem C84_parameter_local (ops : List (Op α)) (w : World α) (q : ℕ) (M : Mat α) (b : Option (Mat α)) {A' B' : World α}
    (a : runOk ops w = some A')
    (e : runOk ops { w with data := Function.update w.data q M, opt := { w.opt with mom := Function.update w.opt.mom q b } } = some B') :
    ∃ M' b', B' = { A' with data := Function.update A'.data q M', opt := { A'.opt with mom := Function.update A'.opt.mom q b' } } := by
  let p0 : Prov Bool := ⟨fun _ => false, fun _ => false, fun _ => false, fun _ => false, fun _ => false, fun _ => false,
    fun k => decide (k = q), fun _ => false, fun k => decide (k = q), fun _ => false, w.hooks.map fun _ => false⟩
  have h0 : Only q p0 := ⟨fun _ => rfl, fun _ => rfl, fun _ => rfl, fun _ => rfl, fun _ => rfl, fun _ => rfl, fun k hk => decide_eq_false hk, fun _ => rfl,
    fun k hk => decide_eq_false hk, fun _ => rfl, fun x hx => by
      obtain ⟨_, _, rfl⟩ := List.mem_map.1 hx; rfl⟩
  have r0 : Agree (· = false) p0 w { w with data := Function.update w.data q M, opt := { w.opt with mom := Function.update w.opt.mom q b } } := by
    refine ⟨rfl, rfl, rfl, rfl, rfl, fun _ => Iff.rfl, fun _ _ => rfl, fun _ _ => rfl, fun _ _ => rfl, fun _ _ => rfl, fun _ _ => rfl, fun _ _ => rfl,
      fun _ _ => rfl, fun k hk => ?_, fun _ _ => rfl, fun k hk => ?_, by simp [p0], by simp [p0], rfl, fun _ _ _ _ => rfl⟩
    · have := of_decide_eq_false hk
      dsimp only; rw [Function.update_of_ne this]
    · have := of_decide_eq_false hk
      dsimp only; rw [Function.update_of_ne this]
  have hops : (ops.map fun op => (op, op, false)).map (·.1) = ops := by simp [Function.comp_def]
  have hops' : (ops.map fun op => (op, op, false)).map (·.2.1) = ops := by simp [Function.comp_def]
  have key := C84_noninterference (I := (· = false)) bool_ideal (ops.map fun op => (op, op, false)) (p := p0) (A' := A') (B' := B')
    (by
      intro t ht
      obtain ⟨op, _, rfl⟩ := List.mem_map.1 ht
      refine ⟨?_, fun _ => rfl⟩
      cases op <;> constructor) r0 (by rw [hops]; exact a) (by rw [hops']; exact e)
  have o := Only.run (q := q) ops w h0
  rw [List.map_map, show ((fun t : Op α × Op α × Bool => (t.1, t.2.2)) ∘ fun op => (op, op, false)) = fun op => (op, false) from rfl] at key
  refine ⟨B'.data q, B'.opt.mom q, ?_⟩
  have e1 : B'.data = Function.update A'.data q (B'.data q) := by
    funext k
    by_cases hk : k = q
    · subst hk; rw [Function.update_self]
    · rw [Function.update_of_ne hk]; exact (key.data k (o.data k hk)).symm
  have e2 : B'.opt.mom = Function.update A'.opt.mom q (B'.opt.mom q) := by
    funext k
    by_cases hk : k = q
    · subst hk; rw [Function.update_self]
    · rw [Function.update_of_ne hk]; exact (key.mom k (o.mom k hk)).symm
  have e3 : B'.hooks = A'.hooks := by
    refine List.ext_getElem? fun k => ?_
    rcases hp : (Prov.run (ops.map fun op => (op, false)) w p0).hooks[k]? with _ | x
    · have hl := List.getElem?_eq_none_iff.1 hp
      rw [List.getElem?_eq_none (by rw [key.hookB]; exact hl), List.getElem?_eq_none (by rw [key.hookA]; exact hl)]
    · exact (key.hook k x hp (o.hooks x (List.mem_of_getElem? hp))).symm
  rw [← e1, ← e2]
  have k1 := funext fun t => key.scale t (o.scale t)
  have k2 := funext fun n => key.K n (o.K n)
  have k3 := funext fun n => key.C n (o.C n)
  have k4 := funext fun n => key.mK n (o.mK n)
  have k5 := funext fun n => key.mC n (o.mC n)
  have k6 := funext fun n => key.HK n (o.HK n)
  have k7 := funext fun n => key.HC n (o.HC n)
  have k8 := funext fun n => key.grad n (o.grad n)
  have k9 := key.structs
  have k10 := key.layers
  have k11 := key.ptrGroup
  have k12 := key.groups
  have k13 := key.steps
  clear key o e1 e2 a e r0
  obtain ⟨oA, dA, gA, hA⟩ := A'
  obtain ⟨oB, dB, gB, hB⟩ := B'
  obtain ⟨⟩ := oA
  obtain ⟨⟩ := oB
  dsimp only at *
  subst_vars
  rfl

/-! ### layers -/

/-- `op` and `op'` are the same, or they are passes through layers not called `n`, or assignments of values or gradients of
parameters outside `P`, with different data -/
inductive Elsewhere (n : String) (P : ℕ → Prop) (w : World α) : Op α → Op α → Prop
  | same (op : Op α) : Elsewhere n P w op op
  | forward (i : ℕ) (x y : ND α) (ge : Bool) (h : ∀ m, w.opt.layers[i]? = some m → m.name ≠ n) : Elsewhere n P w (.forward i x ge) (.forward i y ge)
  | backward (k : ℕ) (g g' : ND α) (h : ∀ mx, w.hooks[k]? = some mx → mx.1.name ≠ n) : Elsewhere n P w (.backward k g) (.backward k g')
  | setGrad (q : ℕ) (G G' : Option (Mat α)) (h : ¬ P q) : Elsewhere n P w (.setGrad q G) (.setGrad q G')
  | setParam (q : ℕ) (M M' : Mat α) (h : ¬ P q) : Elsewhere n P w (.setParam q M) (.setParam q M')

/-- two executions without exceptions, from `A` to `A'` and from `B` to `B'`, that differ elsewhere only -/
inductive TwoRuns (n : String) (P : ℕ → Prop) : World α → World α → World α → World α → Prop
  | nil (A B : World α) : TwoRuns n P A B A B
  | cons {A B A₁ B₁ A' B' : World α} {op op' : Op α} : Elsewhere n P A op op' → exec op A = (.ok (), A₁) → exec op' B = (.ok (), B₁) →
      TwoRuns n P A₁ B₁ A' B' → TwoRuns n P A B A' B'

/-- two states that agree about the layer called `n`, the parameters in `P`, the gradient scales and everything which is not
a tensor -/
structure SameAt (n : String) (P : ℕ → Prop) (A B : World α) : Prop where
  structs : A.opt.structs = B.opt.structs
  layers : A.opt.layers = B.opt.layers
  ptrGroup : A.opt.ptrGroup = B.opt.ptrGroup
  groups : A.opt.groups = B.opt.groups
  steps : A.opt.steps = B.opt.steps
  scales : A.opt.scales = B.opt.scales
  K : A.opt.Ks n = B.opt.Ks n
  C : A.opt.Cs n = B.opt.Cs n
  mK : A.opt.mKs n = B.opt.mKs n
  mC : A.opt.mCs n = B.opt.mCs n
  HK : A.opt.HKs n = B.opt.HKs n
  HC : A.opt.HCs n = B.opt.HCs n
  data : ∀ q, P q → A.data q = B.data q
  grad : ∀ q, P q → A.grad q = B.grad q
  mom : ∀ q, P q → A.opt.mom q = B.opt.mom q
  hookLayer : A.hooks.map (·.1) = B.hooks.map (·.1)
  hook : ∀ (k : ℕ) (mx : Layer × ND α), A.hooks[k]? = some mx → mx.1.name = n → B.hooks[k]? = some mx

/-- the layer called `n` has its parameters in `P`, all others have none there -/
def Separated (n : String) (P : ℕ → Prop) (ms : List Layer) : Prop :=
  ∀ m ∈ ms, (m.name = n → P m.weight.ptr ∧ ∀ b, m.bias = some b → P b.ptr) ∧ (m.name ≠ n → ¬ P m.weight.ptr ∧ ∀ b, m.bias = some b → ¬ P b.ptr)

namespace Prov
variable {n : String} {P : ℕ → Prop} {p : Prov Bool}

/-- nothing of the layer is marked -/
structure Clean (n : String) (P : ℕ → Prop) (p : Prov Bool) : Prop where
  K : p.K n = false
  C : p.C n = false
  mK : p.mK n = false
  mC : p.mC n = false
  HK : p.HK n = false
  HC : p.HC n = false
  data : ∀ q, P q → p.data q = false
  grad : ∀ q, P q → p.grad q = false
  mom : ∀ q, P q → p.mom q = false
  scale : ∀ t, p.scale t = false

theorem upd {κ : Type} [DecidableEq κ] {f : κ → Bool} {n : κ} (h : f n = false) {k : κ} {x : Bool} (hx : k = n → x = false) : Function.update f k x n = false :=
  update_false (P := (· = n)) (fun _ e => e ▸ h) hx n rfl

theorem Clean.paramStep (o : Clean n P p) (h : Hyper α) (k : ℕ) {s : Bool} (hs : P k → s = false) : Clean n P (p.paramStep h k s) := by
  have hs' : P k → (s ⊔ (if h.weightDecay ≠ 0 then p.data k else ⊥)) = false := by
    intro hk
    rw [o.data k hk, hs hk]
    split <;> rfl
  unfold Prov.paramStep
  dsimp only
  split
  · exact ⟨o.K, o.C, o.mK, o.mC, o.HK, o.HC, update_false o.data fun hk => by rw [hs' hk, o.data k hk, o.mom k hk]; rfl, o.grad,
      update_false o.mom fun hk => by rw [hs' hk, o.mom k hk]; rfl, o.scale⟩
  · exact ⟨o.K, o.C, o.mK, o.mC, o.HK, o.HC, update_false o.data fun hk => by rw [hs' hk, o.data k hk]; rfl, o.grad, o.mom, o.scale⟩

theorem Clean.update (o : Clean n P p) (h : Hyper α) (t : ℕ) (m : Layer) : Clean n P (p.update h t m) := by
  have hK : m.name = n → p.newMK h t m.name = false := by
    intro e; rw [e]
    simp only [newMK, unscale, o.K, o.HK, o.C, o.HC, o.mK, o.scale]
    repeat' split
    all_goals rfl
  have hC : m.name = n → p.newMC h t m.name = false := by
    intro e; rw [e]
    simp only [newMC, unscale, o.K, o.HK, o.C, o.HC, o.mC, o.scale]
    repeat' split
    all_goals rfl
  unfold Prov.update
  split
  · refine ⟨upd o.K fun e => by rw [hK e, e, o.K]; rfl, upd o.C fun e => by rw [hC e, e, o.C]; rfl, ?_, ?_, upd o.HK fun _ => rfl, upd o.HC fun _ => rfl,
      o.data, o.grad, o.mom, o.scale⟩
    · unfold updateOn; dsimp only; split
      · exact upd o.mK hK
      · exact o.mK
    · unfold updateOn; dsimp only; split
      · exact upd o.mC hC
      · exact o.mC
  · exact o

theorem Clean.layerStep (o : Clean n P p) (op : Opt α) {m : Layer} (hm : Separated n P [m]) : Clean n P (p.layerStep op m) := by
  obtain ⟨h1, h2⟩ := hm m (List.mem_singleton_self m)
  unfold Prov.layerStep
  split
  · rename_i h _
    have o1 := o.update h op.steps m
    have hn : m.name = n → (p.update h op.steps m).natGrad op.steps m = false := by
      intro e
      obtain ⟨hw, hb⟩ := h1 e
      unfold natGrad
      rw [o1.grad _ hw, o1.scale, e, o1.K, o1.C]
      split
      · rfl
      · rename_i b hb'
        rw [o1.grad _ (hb b hb')]; rfl
    have hs : ∀ k, (m.name ≠ n → ¬ P k) → P k → (p.update h op.steps m).natGrad op.steps m = false := fun k hk hP => hn (not_not.1 fun hne => hk hne hP)
    unfold applyNat
    split
    · exact o1.paramStep h _ (hs _ fun e => (h2 e).1)
    · rename_i b hb
      exact (o1.paramStep h _ (hs _ fun e => (h2 e).1)).paramStep h _ (hs _ fun e => (h2 e).2 b hb)
  · exact o

theorem Clean.foldl (op : Opt α) : ∀ (ms : List Layer) {p : Prov Bool}, Separated n P ms → Clean n P p → Clean n P (ms.foldl (Prov.layerStep op) p)
  | [], _, _, o => o
  | m :: ms, _, h, o => Clean.foldl op ms (fun x hx => h x (List.mem_cons_of_mem _ hx))
      (o.layerStep op fun x hx => h x (by rw [List.mem_singleton.1 hx]; exact List.mem_cons_self ..))

open Classical in
/-- everything is marked except what belongs to the layer -/
noncomputable def others (n : String) (P : ℕ → Prop) (A : World α) : Prov Bool :=
  ⟨fun k => decide (k ≠ n), fun k => decide (k ≠ n), fun k => decide (k ≠ n), fun k => decide (k ≠ n), fun k => decide (k ≠ n), fun k => decide (k ≠ n),
    fun q => decide (¬ P q), fun q => decide (¬ P q), fun q => decide (¬ P q), fun _ => false, A.hooks.map fun mx => decide (mx.1.name ≠ n)⟩

theorem others_clean (A : World α) : Clean n P (others n P A) := by
  constructor <;> simp [others]
  all_goals exact fun q h => h

theorem others_agree {A B : World α} (h : SameAt n P A B) : Agree (· = false) (others n P A) A B := by
  refine ⟨h.structs, h.layers, h.ptrGroup, h.groups, h.steps, fun t => by rw [h.scales], fun t _ => by rw [h.scales], ?_, ?_, ?_, ?_, ?_, ?_,
    fun q hq => h.data q (by simpa [others] using hq), fun q hq => h.grad q (by simpa [others] using hq), fun q hq => h.mom q (by simpa [others] using hq),
    by simp [others], ?_, h.hookLayer, ?_⟩
  · intro k hk; have : k = n := by simpa [others] using hk
    subst this; exact h.K
  · intro k hk; have : k = n := by simpa [others] using hk
    subst this; exact h.C
  · intro k hk; have : k = n := by simpa [others] using hk
    subst this; exact h.mK
  · intro k hk; have : k = n := by simpa [others] using hk
    subst this; exact h.mC
  · intro k hk; have : k = n := by simpa [others] using hk
    subst this; exact h.HK
  · intro k hk; have : k = n := by simpa [others] using hk
    subst this; exact h.HC
  · have := congrArg List.length h.hookLayer
    simpa [others] using this.symm
  · intro k x hx hf
    simp only [others, List.getElem?_map, Option.map_eq_some_iff] at hx
    obtain ⟨mx, h1, rfl⟩ := hx
    have h2 : mx.1.name = n := by simpa using hf
    rw [h1, h.hook k mx h1 h2]

theorem clean_same {A B : World α} (r : Agree (· = false) p A B) (o : Clean n P p)
    (hh : ∀ (k : ℕ) (mx : Layer × ND α), A.hooks[k]? = some mx → mx.1.name = n → p.hooks[k]? = some false) : SameAt n P A B :=
  ⟨r.structs, r.layers, r.ptrGroup, r.groups, r.steps, funext fun t => r.scale t (o.scale t), r.K n o.K, r.C n o.C, r.mK n o.mK, r.mC n o.mC, r.HK n o.HK,
    r.HC n o.HC, fun q hq => r.data q (o.data q hq), fun q hq => r.grad q (o.grad q hq), fun q hq => r.mom q (o.mom q hq), r.hookLayer,
    fun k mx h1 h2 => by rw [← r.hook k false (hh k mx h1 h2) rfl, h1]⟩

/-- label of an operation's data -/
theorem exec_same {A B A' B' : World α} {op op' : Op α} (hs : Separated n P A.opt.layers) (h : SameAt n P A B) (he : Elsewhere n P A op op')
    (a : _root_.exec op A = (.ok (), A')) (b : _root_.exec op' B = (.ok (), B')) : SameAt n P A' B' := by
  have r := others_agree h
  have o := others_clean (n := n) (P := P) A
  have hk0 : ∀ (k : ℕ) (mx : Layer × ND α), A.hooks[k]? = some mx → mx.1.name = n → (others n P A).hooks[k]? = some false := by
    intro k mx h1 h2
    simp [others, h1, h2]
  have hk : SameKind op op' := by
    cases he with
    | same op => cases op <;> constructor
    | forward => constructor
    | backward => constructor
    | setGrad => constructor
    | setParam => constructor
  have hsc : Clean n P ((others n P A).ensureScale A.opt false) := by
    unfold Prov.ensureScale
    split
    · exact ⟨o.K, o.C, o.mK, o.mC, o.HK, o.HC, o.data, o.grad, o.mom, update_false' o.scale rfl⟩
    · exact o
  cases op with
  | forward i x ge =>
    -- the label is `true` exactly if the layer is another one
    rcases hm : A.opt.layers[i]? with _ | m
    · have e1 : A' = A := by
        rw [_root_.exec, Py.get_bind_run, hm] at a
        exact (congrArg Prod.snd a).symm
      have r1 := exec_agree (ℓ := true) bool_ideal r hk (fun e => by cases e) a b
      simp only [Prov.exec, hm] at r1
      subst e1
      exact clean_same r1 o hk0
    · classical
      have r1 := exec_agree (ℓ := decide (m.name ≠ n)) bool_ideal r hk (fun e => by
        cases he with
        | same => rfl
        | forward _ _ _ _ h' => exact absurd (h' m hm) (of_decide_eq_false e)) a b
      have hA' : A'.hooks = A.hooks ∨ A'.hooks = A.hooks ++ [(m, x)] := by
        rw [_root_.exec, Py.get_bind_run, hm] at a
        dsimp only at a
        rw [World.forwardHook, Py.get_bind_run] at a
        obtain ⟨h', -, a⟩ := Py.lift_bind_ok_iff.1 a
        have a := congrArg Prod.snd a
        rw [← (show _ = A' from a)]
        repeat' split
        all_goals first
          | exact .inl rfl
          | exact .inr rfl
      have hlen := r1.hookA
      have hpre : (Prov.exec A (.forward i x ge) (decide (m.name ≠ n)) (others n P A)).hooks = (others n P A).hooks ∨
          (Prov.exec A (.forward i x ge) (decide (m.name ≠ n)) (others n P A)).hooks = (others n P A).hooks ++ [decide (m.name ≠ n)] := by
        simp only [Prov.exec, hm]
        repeat' split
        all_goals first
          | exact .inl rfl
          | exact .inr rfl
      refine clean_same r1 ?_ ?_
      · simp only [Prov.exec, hm]
        repeat' split
        all_goals exact ⟨o.K, o.C, o.mK, o.mC, o.HK, o.HC, o.data, o.grad, o.mom, o.scale⟩
      · intro k mx h1 h2
        have hl0 : (others n P A).hooks.length = A.hooks.length := by simp [others]
        rcases hA' with hA' | hA'
        · rw [hA'] at h1 hlen
          rcases hpre with hp | hp
          · rw [hp]; exact hk0 k mx h1 h2
          · rw [hp, List.length_append, hl0] at hlen
            simp at hlen
        · rw [hA'] at h1 hlen
          rcases hpre with hp | hp
          · rw [hp, List.length_append, hl0] at hlen
            simp at hlen
          · rw [hp]
            rcases lt_trichotomy k A.hooks.length with hlt | heq | hgt
            · rw [List.getElem?_append_left hlt] at h1
              rw [List.getElem?_append_left (by rw [hl0]; exact hlt)]
              exact hk0 k mx h1 h2
            · subst heq
              rw [List.getElem?_concat_length] at h1
              cases h1
              rw [← hl0, List.getElem?_concat_length]
              have h3 : m.name = n := h2
              simp [h3]
            · rw [List.getElem?_eq_none (by simp; omega)] at h1
              cases h1
  | backward k g =>
    rcases hm : A.hooks[k]? with _ | mx
    · have r1 := exec_agree (ℓ := true) bool_ideal r hk (fun e => by cases e) a b
      have e1 : A' = A := by
        rw [_root_.exec, Py.get_bind_run, hm] at a
        exact (congrArg Prod.snd a).symm
      simp only [Prov.exec, hm] at r1
      subst e1
      exact clean_same r1 o hk0
    · classical
      have r1 := exec_agree (ℓ := decide (mx.1.name ≠ n)) bool_ideal r hk (fun e => by
        cases he with
        | same => rfl
        | backward _ _ _ h' => exact absurd (h' mx hm) (of_decide_eq_false e)) a b
      have hp : (others n P A).hooks[k]? = some (decide (mx.1.name ≠ n)) := by simp [others, hm]
      have hA' : A'.hooks = A.hooks := by
        rw [_root_.exec, Py.get_bind_run, hm] at a
        obtain ⟨_, _, _, _, _, _, rfl⟩ := accumulateH_inv a
        rfl
      simp only [Prov.exec, hm, hp] at r1
      refine clean_same r1 ⟨o.K, o.C, o.mK, o.mC, upd o.HK fun e => ?_, upd o.HC fun e => ?_, o.data, o.grad, o.mom, o.scale⟩ ?_
      · rw [e, o.HK, o.K]; simp
      · rw [e, o.HC, o.C, o.scale]; simp
      · intro k' mx' h1 h2
        rw [hA'] at h1
        exact hk0 k' mx' h1 h2
  | setGrad q G =>
    classical
    have r1 := exec_agree (ℓ := decide (¬ P q)) bool_ideal r hk (fun e => by
      cases he with
      | same => rfl
      | setGrad _ _ _ h' => exact absurd h' (of_decide_eq_false e)) a b
    cases a
    exact clean_same r1 ⟨o.K, o.C, o.mK, o.mC, o.HK, o.HC, o.data, update_false o.grad fun hq => by simpa using hq, o.mom, o.scale⟩ hk0
  | setParam q M =>
    classical
    have r1 := exec_agree (ℓ := decide (¬ P q)) bool_ideal r hk (fun e => by
      cases he with
      | same => rfl
      | setParam _ _ _ h' => exact absurd h' (of_decide_eq_false e)) a b
    cases a
    exact clean_same r1 ⟨o.K, o.C, o.mK, o.mC, o.HK, o.HC, update_false o.data fun hq => by simpa using hq, o.grad, o.mom, o.scale⟩ hk0
  | setHyper i h' =>
    cases he
    have r1 := exec_agree (ℓ := false) bool_ideal r hk (fun _ => rfl) a b
    cases a
    exact clean_same r1 o hk0
  | setScale s =>
    cases he
    have r1 := exec_agree (ℓ := false) bool_ideal r hk (fun _ => rfl) a b
    have hA' : A'.hooks = A.hooks := by
      have := congrArg Prod.snd a
      rw [_root_.exec, World.setScale_state] at this
      cases this; rfl
    exact clean_same r1 ⟨o.K, o.C, o.mK, o.mC, o.HK, o.HC, o.data, o.grad, o.mom, update_false' o.scale rfl⟩ (by rw [hA']; exact hk0)
  | step c s f =>
    cases he
    have r1 := exec_agree (ℓ := false) bool_ideal r hk (fun _ => rfl) a b
    have hph : (Prov.exec A (.step c s f) false (others n P A)).hooks = (others n P A).hooks := by
      have hf : ∀ (ms : List Layer) (p : Prov Bool), (ms.foldl (Prov.layerStep A.opt) p).hooks = p.hooks := by
        intro ms
        induction ms with
        | nil => intro p; rfl
        | cons m ms ih =>
          intro p
          rw [List.foldl_cons, ih]
          unfold Prov.layerStep Prov.applyNat Prov.paramStep Prov.update
          repeat' split
          all_goals rfl
      have he : ((others n P A).ensureScale A.opt false).hooks = (others n P A).hooks := by
        unfold Prov.ensureScale; split <;> rfl
      unfold Prov.exec
      dsimp only
      split
      · exact he
      · rw [hf, he]
    have hA' : A'.hooks = A.hooks := by
      cases c with
      | true => rw [_root_.exec, World.step, if_pos rfl] at a; cases a
      | false =>
        obtain ⟨-, w1, h1, rfl⟩ := World.step_ok_iff.1 a
        show w1.hooks = A.hooks
        cases f with
        | true =>
          have := (World.dropStats_frame (A.withScale s)).hooks
          rw [World.stepBody, if_pos rfl] at h1
          rw [h1] at this; exact this
        | false =>
          have := (World.innerStep_frame (A.withScale s)).hooks
          rw [World.stepBody, if_neg (by simp)] at h1
          rw [h1] at this; exact this
    refine clean_same r1 ?_ (by rw [hA', hph]; exact hk0)
    unfold Prov.exec
    dsimp only
    split
    · refine ⟨hsc.K, hsc.C, hsc.mK, hsc.mC, ?_, ?_, hsc.data, hsc.grad, hsc.mom, hsc.scale⟩
      · unfold Prov.dropStats; dsimp only; split
        · rfl
        · exact hsc.HK
      · unfold Prov.dropStats; dsimp only; split
        · rfl
        · exact hsc.HC
    · exact hsc.foldl A.opt _ hs

end Prov

/-- Layers do not influence each other, also within a group: two executions without exceptions that differ in the data of passes through other
layers, and in values and gradients assigned to parameters of other layers, give the layer the same factors, momenta,
statistics, parameters and momentum buffers. -/
theorem C84_layer_local {n : String} {P : ℕ → Prop} {A B A' B' : World α} (hs : Separated n P A.opt.layers) (h : SameAt n P A B)
    (hr : TwoRuns n P A B A' B') : SameAt n P A' B' := by
  induction hr with
  | nil A B => exact h
  | @cons A B A₁ B₁ A' B' op op' he a b _ ih =>
    refine ih ?_ (Prov.exec_same hs h he a b)
    have := (exec_static op A).1
    rw [a] at this
    rw [this]; exact hs

/-! ### exactness -/

/-- the tensors an optimizer writes -/
inductive Target where
  | K (n : String) | C (n : String) | mK (n : String) | mC (n : String) | HK (n : String) | HC (n : String) | data (q : ℕ) | mom (q : ℕ)
  deriving DecidableEq

namespace Target

/-- does the tensor have the same value in two states? -/
def Same (T : Target) (A B : World α) : Prop := match T with
  | .K n => A.opt.Ks n = B.opt.Ks n
  | .C n => A.opt.Cs n = B.opt.Cs n
  | .mK n => A.opt.mKs n = B.opt.mKs n
  | .mC n => A.opt.mCs n = B.opt.mCs n
  | .HK n => A.opt.HKs n = B.opt.HKs n
  | .HC n => A.opt.HCs n = B.opt.HCs n
  | .data q => A.data q = B.data q
  | .mom q => A.opt.mom q = B.opt.mom q

/-- its label -/
def label (T : Target) (p : Prov ℒ) : ℒ := match T with
  | .K n => p.K n
  | .C n => p.C n
  | .mK n => p.mK n
  | .mC n => p.mC n
  | .HK n => p.HK n
  | .HC n => p.HC n
  | .data q => p.data q
  | .mom q => p.mom q

end Target

namespace Prov

/-- no data seen yet; one label per tensor hook -/
def start (k : ℕ) : Prov ℒ := ⟨fun _ => ⊥, fun _ => ⊥, fun _ => ⊥, fun _ => ⊥, fun _ => ⊥, fun _ => ⊥, fun _ => ⊥, fun _ => ⊥, fun _ => ⊥, fun _ => ⊥, List.replicate k ⊥⟩

/-- mark the data of the `i`-th operation -/
def mark : List (Op α) → ℕ → List (Op α × Bool)
  | [], _ => []
  | op :: ops, 0 => (op, true) :: ops.map fun o => (o, false)
  | op :: ops, i + 1 => (op, false) :: mark ops i

theorem Agree.target {I : ℒ → Prop} {p : Prov ℒ} {A B : World α} (r : Agree I p A B) (T : Target) (h : I (T.label p)) : T.Same A B := by
  cases T with
  | K n => exact r.K n h
  | C n => exact r.C n h
  | mK n => exact r.mK n h
  | mC n => exact r.mC n h
  | HK n => exact r.HK n h
  | HC n => exact r.HC n h
  | data q => exact r.data q h
  | mom q => exact r.mom q h

theorem SameKind.rfl' (op : Op α) : SameKind op op := by cases op <;> constructor

theorem start_agree (w : World α) : Agree (· = false) (start w.hooks.length) w w := by
  refine ⟨rfl, rfl, rfl, rfl, rfl, fun _ => Iff.rfl, fun _ _ => rfl, fun _ _ => rfl, fun _ _ => rfl, fun _ _ => rfl, fun _ _ => rfl, fun _ _ => rfl,
    fun _ _ => rfl, fun _ _ => rfl, fun _ _ => rfl, fun _ _ => rfl, by simp [start], by simp [start], rfl, fun _ _ _ _ => rfl⟩

/-- the pairs of operations of a history and of the history with its `i`-th operation replaced -/
def pairs : List (Op α) → ℕ → Op α → List (Op α × Op α × Bool)
  | [], _, _ => []
  | op :: ops, 0, op' => (op, op', true) :: ops.map fun o => (o, o, false)
  | op :: ops, i + 1, op' => (op, op, false) :: pairs ops i op'

theorem pairs_fst : ∀ (ops : List (Op α)) (i : ℕ) (op' : Op α), (pairs ops i op').map (·.1) = ops
  | [], _, _ => rfl
  | op :: ops, 0, op' => by simp [pairs, Function.comp_def]
  | op :: ops, i + 1, op' => by rw [pairs, List.map_cons, pairs_fst ops i op']

theorem pairs_snd : ∀ (ops : List (Op α)) (i : ℕ) (op' : Op α), (pairs ops i op').map (·.2.1) = ops.set i op'
  | [], _, _ => rfl
  | op :: ops, 0, op' => by simp [pairs, Function.comp_def]
  | op :: ops, i + 1, op' => by rw [pairs, List.map_cons, pairs_snd ops i op', List.set_cons_succ]

theorem pairs_mark : ∀ (ops : List (Op α)) (i : ℕ) (op' : Op α), (pairs ops i op').map (fun t => (t.1, t.2.2)) = mark ops i
  | [], _, _ => rfl
  | op :: ops, 0, op' => by simp [pairs, mark, Function.comp_def]
  | op :: ops, i + 1, op' => by rw [pairs, List.map_cons, pairs_mark ops i op', mark]

theorem pairs_ok : ∀ (ops : List (Op α)) (i : ℕ) (op' : Op α), (∀ op, ops[i]? = some op → SameKind op op') →
    ∀ t ∈ pairs ops i op', SameKind t.1 t.2.1 ∧ (t.2.2 = false → t.1 = t.2.1)
  | [], _, _, _, t, ht => by cases ht
  | op :: ops, 0, op', h, t, ht => by
    rcases List.mem_cons.1 ht with rfl | ht
    · exact ⟨h op rfl, fun e => by cases e⟩
    · obtain ⟨o, _, rfl⟩ := List.mem_map.1 ht
      exact ⟨SameKind.rfl' o, fun _ => rfl⟩
  | op :: ops, i + 1, op', h, t, ht => by
    rcases List.mem_cons.1 ht with rfl | ht
    · exact ⟨SameKind.rfl' op, fun _ => rfl⟩
    · exact pairs_ok ops i op' (fun o ho => h o ho) t ht

end Prov

open Prov in
/-- Replacing the data of one operation of a history changes only tensors whose label lists that operation. -/
theorem C84_sound (w : World α) (ops : List (Op α)) (i : ℕ) (op' : Op α) (hk : ∀ op, ops[i]? = some op → SameKind op op') {A B : World α}
    (a : runOk ops w = some A) (b : runOk (ops.set i op') w = some B) (T : Target) (hT : T.label (Prov.run (mark ops i) w (start w.hooks.length)) = false) :
    T.Same A B := by
  have := C84_noninterference (I := (· = false)) bool_ideal (pairs ops i op') (pairs_ok ops i op' hk) (start_agree w) (by rw [pairs_fst]; exact a)
    (by rw [pairs_snd]; exact b)
  rw [pairs_mark] at this
  exact this.target T hT

namespace Sample

/-- a history with an update step, a step without update, and the next pass of one layer -/
def provHist : List (Op ℚ) := [.setScale 4, .forward 0 (row [2]) true, .forward 1 (row [1, 3]) true, .backward 1 (row [1]), .backward 0 (row [2]),
  .setGrad 0 (some (.ofLists 1 1 [[3]])), .setGrad 1 (some (.ofLists 1 1 [[1]])), .setGrad 2 (some (.ofLists 1 2 [[1, 2]])), .step false none false,
  .setParam 2 (.ofLists 1 2 [[5, 7]]), .setGrad 0 (some (.ofLists 1 1 [[2]])), .setScale 4, .step false none false,
  .forward 0 (row [3]) true, .backward 2 (row [2])]

/-- all tensors of both layers -/
def provTargets : List Target := [.K "a", .C "a", .mK "a", .mC "a", .HK "a", .HC "a", .data 0, .data 1, .mom 0, .mom 1,
  .K "b", .C "b", .mK "b", .mC "b", .HK "b", .HC "b", .data 2, .mom 2]

/-- the same operation with other data -/
def provAlt : Op ℚ → Op ℚ
  | .forward i x ge => .forward i ⟨x.shape, fun k => x.flat k + 1⟩ ge
  | .backward k g => .backward k ⟨g.shape, fun k => g.flat k + 1⟩
  | .setGrad q _ => .setGrad q (some (if q = 2 then .ofLists 1 2 [[4, 1]] else .ofLists 1 1 [[7]]))
  | .setParam q _ => .setParam q (if q = 2 then .ofLists 1 2 [[4, 1]] else .ofLists 1 1 [[7]])
  | .setHyper i h => .setHyper i h
  | .setScale _ => .setScale 9
  | .step c _ f => .step c (some 9) f

/-- display of a tensor -/
def provVal (T : Target) (w : World ℚ) : Option (List (List ℚ)) := match T with
  | .K n => fac (w.opt.Ks n)
  | .C n => fac (w.opt.Cs n)
  | .mK n => fac (w.opt.mKs n)
  | .mC n => fac (w.opt.mCs n)
  | .HK n => fac (w.opt.HKs n)
  | .HC n => fac (w.opt.HCs n)
  | .data q => some (w.data q).toLists
  | .mom q => (w.opt.mom q).map (·.toLists)

theorem provVal_same {T : Target} {A B : World ℚ} (h : T.Same A B) : provVal T A = provVal T B := by
  cases T <;> simp only [Target.Same] at h <;> simp only [provVal, h]

theorem provAlt_kind (op : Op ℚ) : Prov.SameKind op (provAlt op) := by cases op <;> constructor

end Sample

theorem runOk_of_isSome : ∀ (ops : List (Op α)) (w : World α), (runOk ops w).isSome = true → runOk ops w = some (run ops w)
  | [], _, _ => rfl
  | op :: ops, w, h => by
    rw [runOk] at h ⊢
    rw [show run (op :: ops) w = run ops (exec op w).2 from rfl]
    rcases hx : exec op w with ⟨e | u, v⟩
    · rw [hx] at h; cases h
    · rw [hx] at h
      exact runOk_of_isSome ops v h

open Prov Sample in
/-- The labels list nothing in vain: in a history with an update, a step without update and a further pass, an operation is
listed in the label of a tensor exactly if there are other data for the operation which change the tensor. -/
theorem C84_exact : ∃ (w : World ℚ) (ops : List (Op ℚ)), Reachable supportedStructures w ∧ (runOk ops w).isSome = true ∧ ops.length = 15 ∧
    ∀ i < ops.length, ∀ T ∈ provTargets, T.label (Prov.run (mark ops i) w (start w.hooks.length)) = true ↔
      ∃ op', (∀ op, ops[i]? = some op → SameKind op op') ∧ ∃ v, runOk (ops.set i op') w = some v ∧ ¬ T.Same (_root_.run ops w) v := by
  have h0 : (runOk provHist w0).isSome = true := by decide +kernel
  have h1 : ∀ i < 15, ∀ T ∈ provTargets, T.label (Prov.run (mark provHist i) w0 (start w0.hooks.length)) = true →
      (runOk (provHist.set i (provAlt (provHist.getD i (.setScale 1)))) w0).isSome = true ∧
      provVal T (_root_.run provHist w0) ≠ provVal T (_root_.run (provHist.set i (provAlt (provHist.getD i (.setScale 1)))) w0) := by decide +kernel
  refine ⟨w0, provHist, reachable (by decide +kernel) (by decide) [], h0, rfl, fun i hi T hT => ⟨fun hl => ?_, ?_⟩⟩
  · obtain ⟨h2, h3⟩ := h1 i hi T hT hl
    refine ⟨_, fun op ho => ?_, _, runOk_of_isSome _ _ h2, fun hs => h3 (provVal_same hs)⟩
    rw [List.getD_eq_getElem?_getD, ho]
    exact provAlt_kind op
  · rintro ⟨op', hk, v, hv, hne⟩
    by_contra hf
    exact hne (C84_sound w0 provHist i op' hk (runOk_of_isSome _ _ h0) hv T (Bool.eq_false_iff.2 hf))

open Prov Sample in
/-- Hypotheses of `C84_noninterference`, with sets of operations as labels: the gradient of parameter 0 (operation 5) is replaced;
the label of the factor `K` of the same layer lists operations 0, 1 and 4 only. -/
example : ∃ (hs : List (Op ℚ × Op ℚ × Bool)) (A' B' : World ℚ), (∀ t ∈ hs, SameKind t.1 t.2.1 ∧ (t.2.2 = false → t.1 = t.2.1)) ∧
    runOk (hs.map (·.1)) w0 = some A' ∧ runOk (hs.map (·.2.1)) w0 = some B' ∧ A'.opt.Ks "a" = B'.opt.Ks "a" ∧ A'.data 2 = B'.data 2 ∧ A'.data 0 ≠ B'.data 0 := by
  have h0 : (runOk provHist w0).isSome = true := by decide +kernel
  have h1 : (runOk (provHist.set 5 (provAlt (provHist.getD 5 (.setScale 1)))) w0).isSome = true := by decide +kernel
  have h2 : ((run provHist w0).data 0).toLists ≠ ((run (provHist.set 5 (provAlt (provHist.getD 5 (.setScale 1)))) w0).data 0).toLists := by decide +kernel
  have hk : ∀ op, provHist[5]? = some op → SameKind op (provAlt (provHist.getD 5 (.setScale 1))) := fun op ho => by
    rw [List.getD_eq_getElem?_getD, ho]; exact provAlt_kind op
  refine ⟨pairs provHist 5 (provAlt (provHist.getD 5 (.setScale 1))), _, _, pairs_ok _ _ _ hk, by rw [pairs_fst]; exact runOk_of_isSome _ _ h0,
    by rw [pairs_snd]; exact runOk_of_isSome _ _ h1, ?_, ?_, fun e => h2 (congrArg Mat.toLists e)⟩
  · exact C84_sound w0 provHist 5 _ hk (runOk_of_isSome _ _ h0) (runOk_of_isSome _ _ h1) (.K "a") (by decide +kernel)
  · exact C84_sound w0 provHist 5 _ hk (runOk_of_isSome _ _ h0) (runOk_of_isSome _ _ h1) (.data 2) (by decide +kernel)

open Sample in
/-- `C84_parameter_local`: another value of parameter 2, with a momentum buffer -/
example : (runOk provHist w0).isSome = true ∧
    (runOk provHist { w0 with data := Function.update w0.data 2 (.ofLists 1 2 [[8, 9]]), opt := { w0.opt with mom := Function.update w0.opt.mom 2 (some (.ofLists 1 2 [[1, 1]])) } }).isSome = true := by
  decide +kernel

open Sample in
/-- `C84_layer_local` for layer `"a"` of the sample model and another input of layer `"b"` -/
example : Separated "a" (fun q => q < 2) w0.opt.layers ∧ SameAt "a" (fun q => q < 2) w0 w0 ∧
    ∃ A' B' : World ℚ, TwoRuns "a" (fun q => q < 2) w0 w0 A' B' ∧ A'.hooks ≠ B'.hooks := by
  have hl : w0.opt.layers = [la, lb] := by decide +kernel
  refine ⟨?_, ?_, ?_⟩
  · rw [hl]; unfold Separated; decide
  · exact ⟨rfl, rfl, rfl, rfl, rfl, rfl, rfl, rfl, rfl, rfl, rfl, rfl, fun _ _ => rfl, fun _ _ => rfl, fun _ _ => rfl, rfl, fun _ _ h _ => h⟩
  · have ha : (runOk [.forward 1 (row [1, 3]) true] w0).isSome = true := by decide +kernel
    have hb : (runOk [.forward 1 (row [2, 3]) true] w0).isSome = true := by decide +kernel
    have one : ∀ {op : Op ℚ}, (runOk [op] w0).isSome = true → exec op w0 = (.ok (), (exec op w0).2) := by
      intro op h
      rw [runOk] at h
      rcases hx : exec op w0 with ⟨e | u, v⟩
      · rw [hx] at h; cases h
      · rfl
    refine ⟨_, _, .cons (.forward 1 (row [1, 3]) (row [2, 3]) true ?_) (one ha) (one hb) (.nil _ _), ?_⟩
    · intro m hm
      rw [hl] at hm
      cases hm; decide
    · intro e
      have h3 : (exec (.forward 1 (row [1, 3]) true) w0).2.hooks.map (·.2.flat 0) ≠ (exec (.forward 1 (row [2, 3]) true) w0).2.hooks.map (·.2.flat 0) := by decide +kernel
      exact h3 (congrArg (fun l : List (Layer × ND ℚ) => l.map (·.2.flat 0)) e)

open Prov Sample in
/-- `C84_never_forgotten`, `C84_spreads`, `C84_skip_drops`: a marked input is in the factor after the step, in the parameters, and for ever; it is
in nothing if the step is skipped -/
example : (Prov.run [(.forward 0 (row [2]) true, true), (.backward 0 (row [2]), false), (.step false none true, false)] w0 (start 0)).K "a" = false ∧
    (Prov.run [(.forward 0 (row [2]) true, true), (.backward 0 (row [2]), false), (.step false none true, false)] w0 (start 0)).HK "a" = false ∧
    (Prov.run ((Op.forward 0 (row [2]) true, true) :: (pass.drop 1 ++ [Op.step false none false]).map fun o => (o, false)) w0 (start 0)).K "a" = true ∧
    (Prov.run ((Op.forward 0 (row [2]) true, true) :: (pass.drop 1 ++ [Op.step false none false]).map fun o => (o, false)) w0 (start 0)).data 1 = true ∧
    (Prov.run ((Op.forward 0 (row [2]) true, true) :: (pass.drop 1 ++ [Op.step false none false]).map fun o => (o, false)) w0 (start 0)).data 2 = false ∧
    w0.opt.layers = [la, lb] := by decide +kernel
