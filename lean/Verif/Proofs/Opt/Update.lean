import Verif.Proofs.Opt.Inner
import Verif.Proofs.Opt.Frame

/-! The pre-conditioner update of one layer, at the level of Mathlib matrices. -/

set_option linter.unusedSectionVars false
open Finset Mat Matrix
variable {α : Type} [Field α] [LinearOrder α] [IsStrictOrderedRing α] [HasSqrt α]

section
variable {c : Cls} {n : ℕ} {K H P : SM α}

theorem momentumDir_den (hc : c.Regular) (hK : WF c n K) (hH : WF c n H) (hP : WF c n P) (a b s : α) :
    ∃ m, momentumDir K H P n a b s = .ok m ∧ WF c n m ∧ m.den n = s • (a • H.den n + b • P.den n - 1) := by
  obtain ⟨z, ez, wz, dz⟩ := (C12_eye_zeros (α := α) hK.supports).2
  obtain ⟨m1, e1, w1, d1⟩ := (C04_inplace_exact wz hH a).1
  obtain ⟨m2, e2, w2, d2⟩ := (C04_inplace_exact w1 hP b).1
  obtain ⟨m3, e3, w3, d3⟩ := C10_diag_add_partial hc w2 (-1)
  obtain ⟨w4, d4⟩ := (C04_inplace_exact w3 w3 s).2
  refine ⟨m3.mul_ s, ?_, w4, ?_⟩
  · rw [momentumDir, hK.cls_eq, ez, Except.bind_ok', e1, Except.bind_ok', e2, Except.bind_ok', e3, Except.bind_ok']; rfl
  · rw [d4, d3, d2, d1, dz, zero_add, neg_one_smul, sub_eq_add_neg]

theorem traceOr1_den (b : Bool) (hK : WF c n K) : traceOr1 b K = .ok (if b then 1 else avgTr (K.den n)) := by
  rw [traceOr1]
  split
  · rfl
  · rw [C09_average_trace hK]; rfl

theorem factorRate_den (h : Hyper α) (t : ℕ) (hK : WF c n K) (hn : 0 < n) :
    ∃ b, factorRate h t K = .ok b ∧ IsRate h t (K.den n) b := by
  unfold factorRate IsRate
  split
  · obtain ⟨v, e, h1, h2⟩ := C11_infinity_norm hK hn
    exact ⟨h.lrCov.at t / max 1 v, by rw [e, Except.bind_ok']; rfl, v, ⟨h1, h2⟩, rfl⟩
  · exact ⟨_, rfl, rfl⟩

theorem factorStep_den (hc : c.Regular) (hK : WF c n K) (hH : WF c n H) (b : α) :
    ∃ K', factorStep K H b = .ok K' ∧ WF c n K' ∧ K'.den n = K.den n * (1 - b • H.den n) := by
  obtain ⟨P, e, w, d⟩ := C01_matmul_exact hc hK hH
  obtain ⟨K', e', w', d'⟩ := (C04_inplace_exact hK w (-b)).1
  refine ⟨K', by rw [factorStep, e, Except.bind_ok', e'], w', ?_⟩
  rw [d', d, Matrix.mul_sub, Matrix.mul_one, Matrix.mul_smul, neg_smul, sub_eq_add_neg]

theorem addMomentum_den {h : Hyper α} {d : String → Option (SM α)} {name : String} (hK : WF c n K)
    (hd : ∀ X, d name = some X → WF c n X) (ha : h.alpha1 ≠ 0 → d name ≠ none) :
    ∃ m, World.addMomentum h d name K = .ok m ∧ WF c n m ∧ m.den n = h.alpha1 • denO (d name) n + K.den n := by
  rw [World.addMomentum]
  split
  · rename_i h0
    rcases hx : d name with _ | X
    · exact absurd hx (ha h0)
    · obtain ⟨P, e, w, dd⟩ := (C04_inplace_exact hK (hd X hx) h.alpha1).1
      refine ⟨P, by rw [lookup, hx]; simp only [Except.bind_ok', e], w, ?_⟩
      rw [dd, add_comm]; simp [denO]
  · rename_i h0
    refine ⟨K, rfl, hK, ?_⟩
    rw [not_not] at h0
    rw [h0]; simp
end

theorem newMomenta_den {cK cC : Cls} {nK nC : ℕ} {K C HK HC : SM α} (h : Hyper α) (rK : cK.Regular) (rC : cC.Regular)
    (hK : WF cK nK K) (hC : WF cC nC C) (hHK : WF cK nK HK) (hHC : WF cC nC HC) (u : α) :
    ∃ mK mC, newMomenta h nK nC u K C HK HC = .ok (mK, mC) ∧ WF cK nK mK ∧ WF cC nC mC ∧
      mK.den nK = updDir cK (dirScale h) (if h.kfacLike then 1 else u * avgTr (HC.den nC))
        (if h.kfacLike then 1 else avgTr (cC.sandwich (C.den nC) 1)) h.damping (K.den nK) (HK.den nK) ∧
      mC.den nC = updDir cC (dirScale h) (if h.kfacLike then u else u * avgTr (HK.den nK))
        (if h.kfacLike then 1 else avgTr (cK.sandwich (K.den nK) 1)) h.damping (C.den nC) (HC.den nC) := by
  obtain ⟨P, eP, wP, dP⟩ := fromInner_none_den hK
  obtain ⟨Q, eQ, wQ, dQ⟩ := fromInner_none_den hC
  have tP : avgTr (P.den nK) = avgTr (cK.sandwich (K.den nK) 1) := by rw [avgTr, avgTr, dP, proj_trace hK.supports]
  have tQ : avgTr (Q.den nC) = avgTr (cC.sandwich (C.den nC) 1) := by rw [avgTr, avgTr, dQ, proj_trace hC.supports]
  obtain ⟨mK, e1, w1, d1⟩ := momentumDir_den rK hK hHK wP
    (if h.kfacLike then 1 else u * (if h.kfacLike then 1 else avgTr (HC.den nC)))
    (h.damping * (if h.kfacLike then 1 else avgTr (Q.den nC))) (1 / 2 * (if h.normalize then 1 - h.alpha1 else 1))
  obtain ⟨mC, e2, w2, d2⟩ := momentumDir_den rC hC hHC wQ
    (if h.kfacLike then u else u * (if h.kfacLike then 1 else avgTr (HK.den nK)))
    (h.damping * (if h.kfacLike then 1 else avgTr (P.den nK))) (1 / 2 * (if h.normalize then 1 - h.alpha1 else 1))
  refine ⟨mK, mC, ?_, w1, w2, ?_, ?_⟩
  · rw [newMomenta, eP, Except.bind_ok', eQ, Except.bind_ok', traceOr1_den _ hHC, Except.bind_ok', traceOr1_den _ wQ,
      Except.bind_ok', e1, Except.bind_ok', traceOr1_den _ hHK, Except.bind_ok', traceOr1_den _ wP, Except.bind_ok', e2,
      Except.bind_ok']; rfl
  · rw [d1, dP, tQ, updDir, dirScale]
    cases h.kfacLike <;> rfl
  · rw [d2, dQ, tP, updDir, dirScale]
    cases h.kfacLike <;> rfl

theorem Layer.dims_eq {m : Layer} (h : m.supported) : m.dims = .ok (m.nK, m.nC) := by
  unfold Layer.dims Layer.nK Layer.nC
  unfold Layer.supported at h
  cases hk : m.kind <;> simp_all

theorem Layer.supported_of_dims {m : Layer} {d : ℕ × ℕ} (h : m.dims = .ok d) : m.supported ∧ d = (m.nK, m.nC) := by
  unfold Layer.dims at h
  unfold Layer.supported Layer.nK Layer.nC
  cases hk : m.kind <;> simp_all

/-- What a successful update of layer `m` does (to that layer; see `Frame` for the rest). -/
structure UpdSpec (cl : Cls × Cls) (m : Layer) (h : Hyper α) (u : α) (w w' : World α) : Prop where
  wf : LayerWF cl w'.opt m
  HK : w'.opt.HKs m.name = none
  HC : w'.opt.HCs m.name = none
  mK0 : h.alpha1 = 0 → w'.opt.mKs m.name = w.opt.mKs m.name ∧ w'.opt.mCs m.name = w.opt.mCs m.name
  eqs : ∃ mK mC bK bC,
    (h.alpha1 ≠ 0 → w'.opt.mKs m.name ≠ none ∧ w'.opt.mCs m.name ≠ none ∧
      denO (w'.opt.mKs m.name) m.nK = mK ∧ denO (w'.opt.mCs m.name) m.nC = mC) ∧
    mK = h.alpha1 • denO (w.opt.mKs m.name) m.nK + dirK cl m h u (denO (w.opt.Ks m.name) _) (denO (w.opt.HKs m.name) _)
      (denO (w.opt.Cs m.name) _) (denO (w.opt.HCs m.name) _) ∧
    mC = h.alpha1 • denO (w.opt.mCs m.name) m.nC + dirC cl m h u (denO (w.opt.Ks m.name) _) (denO (w.opt.HKs m.name) _)
      (denO (w.opt.Cs m.name) _) (denO (w.opt.HCs m.name) _) ∧
    IsRate h w.opt.steps mK bK ∧ IsRate h w.opt.steps mC bC ∧
    denO (w'.opt.Ks m.name) m.nK = denO (w.opt.Ks m.name) m.nK * (1 - bK • mK) ∧
    denO (w'.opt.Cs m.name) m.nC = denO (w.opt.Cs m.name) m.nC * (1 - bC • mC)

theorem denO_some (K : SM α) (n : ℕ) : denO (some K) n = K.den n := rfl

/-- An update of a layer with well-formed factors and statistics succeeds and follows the rule. -/
theorem updateOn_spec {cl : Cls × Cls} {m : Layer} {h : Hyper α} {w : World α} {u : α} (hg : m.Good cl)
    (hw : LayerWF cl w.opt m) (hHK : w.opt.HKs m.name ≠ none) (hHC : w.opt.HCs m.name ≠ none)
    (hu : World.gradUnscaling w.opt = .ok u)
    (ha : h.alpha1 ≠ 0 → w.opt.mKs m.name ≠ none ∧ w.opt.mCs m.name ≠ none) :
    ∃ w', World.updateOn h m w = (.ok (), w') ∧ UpdSpec cl m h u w w' := by
  obtain ⟨K, eK, wK⟩ := hw.K
  obtain ⟨C, eC, wC⟩ := hw.C
  obtain ⟨HK, eHK⟩ := Option.ne_none_iff_exists'.1 hHK
  obtain ⟨HC, eHC⟩ := Option.ne_none_iff_exists'.1 hHC
  have wHK := hw.HK _ eHK
  have wHC := hw.HC _ eHC
  obtain ⟨dK, dC, eN, wdK, wdC, ddK, ddC⟩ := newMomenta_den h hg.regK hg.regC wK wC wHK wHC u
  obtain ⟨mC, emC, wmC, dmC⟩ := addMomentum_den (h := h) wdC hw.mC (fun x => (ha x).2)
  obtain ⟨mK, emK, wmK, dmK⟩ := addMomentum_den (h := h) wdK hw.mK (fun x => (ha x).1)
  obtain ⟨bK, ebK, rK⟩ := factorRate_den h w.opt.steps wmK hg.posK
  obtain ⟨bC, ebC, rC⟩ := factorRate_den h w.opt.steps wmC hg.posC
  obtain ⟨K', eK', wK', dK'⟩ := factorStep_den hg.regK wK wmK bK
  obtain ⟨C', eC', wC', dC'⟩ := factorStep_den hg.regC wC wmC bC
  have eD : World.updateDirs w.opt h m K C HK HC = .ok (mK, mC) := by
    rw [World.updateDirs, hu, Except.bind_ok', Layer.dims_eq hg.sup, Except.bind_ok', eN, Except.bind_ok', emC, Except.bind_ok', emK,
      Except.bind_ok']; rfl
  let o1 : Opt α := World.storeMomenta h m.name mK mC
    { w.opt with HKs := Dict.erase w.opt.HKs m.name, HCs := Dict.erase w.opt.HCs m.name }
  let o2 : Opt α := { o1 with Ks := Dict.set o1.Ks m.name K' }
  let o3 : Opt α := { o2 with Cs := Dict.set o2.Cs m.name C' }
  refine ⟨{ w with opt := o3 }, ?_, ?_⟩
  · simp only [World.updateOn, Py.get_bind_run, World.setOpt]
    rw [lookup, eK, Py.lift_ok_bind_run, lookup, eC, Py.lift_ok_bind_run, lookup, eHK, Py.lift_ok_bind_run, Py.modify_bind_run,
      lookup, eHC, Py.lift_ok_bind_run, Py.modify_bind_run, eD, Py.lift_ok_bind_run, Py.modify_bind_run, ebK, Py.lift_ok_bind_run,
      ebC, Py.lift_ok_bind_run, eK', Py.lift_ok_bind_run, Py.modify_bind_run, eC', Py.lift_ok_bind_run]
    rfl
  · have hKs : o3.Ks m.name = some K' := by simp [o3, o2, Dict.set]
    have hCs : o3.Cs m.name = some C' := by simp [o3, Dict.set]
    have hHK' : o3.HKs m.name = none := by
      simp only [o3, o2, o1, World.storeMomenta]; split <;> simp [Dict.erase]
    have hHC' : o3.HCs m.name = none := by
      simp only [o3, o2, o1, World.storeMomenta]; split <;> simp [Dict.erase]
    have hm0 : h.alpha1 = 0 → o3.mKs = w.opt.mKs ∧ o3.mCs = w.opt.mCs := by
      intro h0; simp [o3, o2, o1, World.storeMomenta, h0]
    have hm1 : h.alpha1 ≠ 0 → o3.mKs m.name = some mK ∧ o3.mCs m.name = some mC := by
      intro h0; simp [o3, o2, o1, World.storeMomenta, h0, Dict.set]
    refine ⟨⟨⟨K', hKs, wK'⟩, ⟨C', hCs, wC'⟩, ?_, ?_, ?_, ?_⟩, hHK', hHC', ?_, mK.den _, mC.den _, bK, bC, ?_, ?_, ?_, rK, rC, ?_, ?_⟩
    · intro X hX
      by_cases h0 : h.alpha1 = 0
      · rw [(hm0 h0).1] at hX; exact hw.mK X hX
      · rw [(hm1 h0).1] at hX; cases hX; exact wmK
    · intro X hX
      by_cases h0 : h.alpha1 = 0
      · rw [(hm0 h0).2] at hX; exact hw.mC X hX
      · rw [(hm1 h0).2] at hX; cases hX; exact wmC
    · intro X hX; simp [hHK'] at hX
    · intro X hX; simp [hHC'] at hX
    · intro h0; exact ⟨by simp [(hm0 h0).1], by simp [(hm0 h0).2]⟩
    · intro h0
      simp only [(hm1 h0).1, (hm1 h0).2]
      exact ⟨by simp, by simp, rfl, rfl⟩
    · rw [dmK, ddK, eK, eC, eHK, eHC]; rfl
    · rw [dmC, ddC, eK, eC, eHK, eHC]; rfl
    · simp only [hKs, eK]; exact dK'
    · simp only [hCs, eC]; exact dC'
