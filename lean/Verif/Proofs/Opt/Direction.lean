import Verif.Proofs.Opt.Update

/-! The natural gradient and the parameter update of one layer. -/

set_option linter.unusedSectionVars false
open Finset Mat Matrix
variable {α : Type} [Field α] [LinearOrder α] [IsStrictOrderedRing α] [HasSqrt α]

section
variable {c : Cls} {n : ℕ} {K : SM α}

/-- `K @ (K.rmatmat(X))` -/
theorem gram_apply (hK : WF c n K) {X : Mat α} (hX : X.rows = n) (hk : 0 < X.cols) :
    ∃ Y, (do K.matmulT (← K.rmatmat X)) = .ok Y ∧ Y.rows = n ∧ Y.cols = X.cols ∧
      Y.M n X.cols = c.gram (K.den n) * X.M n X.cols := by
  by_cases hc : c.IsBlock
  · cases c <;> simp only [Cls.IsBlock] at hc
    rw [rmatmat_block hK hX, Except.bind_ok']
    obtain ⟨Y, e, r, cc, d⟩ := C02_matmul_tensor_exact hK (X := K.toDense.mul X) (by simp [hK.rows]) (by simpa using hk)
    refine ⟨Y, e, r, by simpa using cc, ?_⟩
    have e2 : (K.toDense.mul X).cols = X.cols := rfl
    rw [e2] at d
    rw [d, Mat.M_mul' hK.cols, Cls.gram, ← Matrix.mul_assoc]; rfl
  · rw [rmatmat_spec hc hK hX hk, Except.bind_ok']
    obtain ⟨Y, e, r, cc, d⟩ := C02_matmul_tensor_exact hK (X := K.toDense.T.mul X) (by simp [hK.cols]) (by simpa using hk)
    refine ⟨Y, e, r, by simpa using cc, ?_⟩
    have e2 : (K.toDense.T.mul X).cols = X.cols := rfl
    rw [e2] at d
    rw [d, Mat.M_mul' (show K.toDense.T.cols = n by simp [hK.rows]), Mat.M_T]
    have : c.gram (K.den n) = K.den n * (K.den n)ᵀ := by
      cases c <;> simp [Cls.gram, Cls.IsBlock] at hc ⊢
    rw [this, ← Matrix.mul_assoc]; rfl
end

namespace World

theorem gradMat_spec {w : World α} {m : Layer} (hs : m.supported) (hg : LayerGrads w m) :
    ∃ G, w.gradMat m = .ok G ∧ G.OfShape m.nC m.nK ∧ G.M m.nC m.nK = gradM w m := by
  obtain ⟨Gw, ew, sw⟩ := hg.weight
  rw [gradMat, if_pos hs, gradOf, ew, Except.bind_ok']
  rcases hb : m.bias with _ | b
  · refine ⟨Gw, rfl, ⟨sw.1, by simp [Layer.nK, hb, sw.2]⟩, ?_⟩
    funext i j
    have : j.1 < m.din := by have := j.2; simpa [Layer.nK, hb] using this
    simp [gradM, this, ew, Mat.M]
  · obtain ⟨Gb, eb, sb⟩ := hg.bias b hb
    refine ⟨Gw.hcat Gb, ?_, ⟨sw.1, by simp [Layer.nK, hb, sw.2, sb.2]⟩, ?_⟩
    · simp only [gradOf, eb, Except.bind_ok']
      exact hcat?_ok (by rw [sw.1, sb.1])
    · funext i j
      have hi : i.1 < m.dout := i.2
      have hj := j.2
      simp only [Layer.nK, hb, Option.isSome_some, if_true] at hj
      simp only [gradM, ew, hb, eb, Option.map_some, Option.bind_some, Option.getD_some, Mat.M, Mat.hcat, Mat.get_ofFn, sw.1, sw.2, sb.2]
      by_cases h : j.1 < m.din
      · rw [if_pos h, if_pos ⟨hi, by omega⟩, if_pos h]
      · have : j.1 = m.din := by omega
        rw [if_neg h, if_pos ⟨hi, by omega⟩, if_neg h, this, Nat.sub_self]

/-- the natural gradient is `C Cᵀ G K Kᵀ / s` (with the missing transposes for block-diagonal classes) -/
theorem natGradMat_spec {cl : Cls × Cls} {w : World α} {m : Layer} {h : Hyper α} {s : α} (hm : m.Good cl)
    (hw : LayerWF cl w.opt m) (hg : LayerGrads w m) (hh : w.opt.hyperOf m = .ok h) (hs : w.opt.scale w.opt.steps = .ok s) :
    ∃ N, w.natGradMat m = .ok N ∧ N.OfShape m.nC m.nK ∧
      N.M m.nC m.nK = (1 / s) • (cl.2.gram (denO (w.opt.Cs m.name) m.nC) * gradM w m * (cl.1.gram (denO (w.opt.Ks m.name) m.nK))ᵀ) := by
  obtain ⟨G, eG, sG, dG⟩ := gradMat_spec hm.sup hg
  obtain ⟨K, eK, wK⟩ := hw.K
  obtain ⟨C, eC, wC⟩ := hw.C
  have e1 : (if s ≠ 1 then G.smul (1 / s) else G) = G.smul (1 / s) := by
    split
    · rfl
    · rename_i h1
      rw [not_not] at h1
      subst h1
      exact Mat.ext' rfl rfl (by simp)
  have s1 : (G.smul (1 / s)).T.rows = m.nK := by simp [sG.2]
  obtain ⟨R, eR, rR, cR, dR⟩ := gram_apply wK s1 (by simp [sG.1]; exact hm.posC)
  have cR' : R.cols = m.nC := by rw [cR]; simp [sG.1]
  obtain ⟨N, eN, rN, cN, dN⟩ := gram_apply wC (X := R.T) (by simp [cR']) (by simp [rR]; exact hm.posK)
  have cN' : N.cols = m.nK := by rw [cN]; simp [rR]
  refine ⟨N, ?_, ⟨rN, cN'⟩, ?_⟩
  · simp only [natGradMat, eG, hs, hh, e1, Except.bind_ok', eK, eC, lookup]
    rcases hx : K.rmatmat (G.smul (1 / s)).T with e | X
    · rw [hx, Except.bind_error'] at eR; cases eR
    · rw [hx, Except.bind_ok'] at eR
      simp only [Except.bind_ok', eR]
      exact eN
  · have c1 : (G.smul (1 / s)).T.cols = m.nC := by simp [sG.1]
    have c2 : R.T.cols = m.nK := by simp [rR]
    rw [c1] at dR
    rw [c2] at dN
    rw [dN, eC, eK, denO_some, denO_some, Mat.M_T, dR, Mat.M_T, Mat.M_smul, dG, Matrix.transpose_mul, Matrix.transpose_transpose,
      Matrix.smul_mul, Matrix.mul_smul, Matrix.mul_assoc]

/-! ### parameters -/

theorem Mat.add_smul_zero_eq {A B : Mat α} : A.add (B.smul 0) = A :=
  Mat.ext' rfl rfl fun i hi j hj => by simp at hi hj; simp [Mat.add, hi, hj]

theorem decay_spec {h : Hyper α} {d S : Mat α} {r c : ℕ} (hd : d.OfShape r c) (hS : S.OfShape r c) :
    ∃ V, decay h d S = .ok V ∧ V.OfShape r c ∧ V.M r c = S.M r c + h.weightDecay • d.M r c := by
  refine ⟨S.add (d.smul h.weightDecay), ?_, ⟨by simp [hS.1], by simp [hS.2]⟩, ?_⟩
  · rw [decay]
    split
    · exact add?_ok (by simp [hS.1, hd.1]) (by simp [hS.2, hd.2])
    · rename_i h0
      rw [not_not] at h0
      rw [h0, Mat.add_smul_zero_eq]
  · rw [Mat.M_add (by simp [hS.1, hd.1]) (by simp [hS.2, hd.2]), Mat.M_smul]

theorem newBuffer_spec {h : Hyper α} {old : Option (Mat α)} {d S : Mat α} {r c : ℕ} (ho : ∀ B, old = some B → B.OfShape r c)
    (hd : d.OfShape r c) (hS : S.OfShape r c) :
    ∃ V, newBuffer h old d S = .ok V ∧ V.OfShape r c ∧ V.M r c = h.momentum • momO old r c + S.M r c := by
  have sB : (old.getD (Mat.zeros d.rows d.cols)).OfShape r c := by
    rcases old with _ | B
    · exact ⟨by simp [hd.1], by simp [hd.2]⟩
    · exact ho B rfl
  have dB : (old.getD (Mat.zeros d.rows d.cols)).M r c = momO old r c := by
    rcases old with _ | B
    · simp only [Option.getD_none, hd.1, hd.2]; exact Mat.M_zeros
    · rfl
  refine ⟨_, add?_ok (by simp [sB.1, hS.1]) (by simp [sB.2, hS.2]), ⟨by simp [sB.1], by simp [sB.2]⟩, ?_⟩
  rw [Mat.M_add (by simp [sB.1, hS.1]) (by simp [sB.2, hS.2]), Mat.M_smul, dB]

theorem moveParam_run {h : Hyper α} {p : ℕ} {S : Mat α} {w : World α} {r c : ℕ} (hd : (w.data p).OfShape r c) (hS : S.OfShape r c) :
    moveParam h p S w = (.ok (), { w with data := Function.update w.data p ((w.data p).add (S.smul (-h.lr))) }) := by
  rw [moveParam, Py.get_bind_run, add?_ok (by simp [hS.1, hd.1]) (by simp [hS.2, hd.2]), Py.lift_ok_bind_run]; rfl

theorem paramStep_spec {h : Hyper α} {p : ℕ} {S : Mat α} {w : World α} {r c : ℕ} (hp : ParamShape w p r c) (hS : S.OfShape r c) :
    ∃ w', paramStep h p S w = (.ok (), w') ∧ ParamSpec h p (S.M r c) w w' := by
  obtain ⟨V, eV, sV, dV⟩ := decay_spec (h := h) hp.data hS
  rw [paramStep, Py.get_bind_run, eV, Py.lift_ok_bind_run]
  by_cases h0 : h.momentum ≠ 0
  · rw [if_pos h0]
    obtain ⟨B, eB, sB, dB⟩ := newBuffer_spec (h := h) hp.mom hp.data sV
    rw [eB, Py.lift_ok_bind_run, setOpt, Py.modify_bind_run, moveParam_run (by exact hp.data) sB]
    refine ⟨_, rfl, ⟨⟨by simp [hp.data.1], by simp [hp.data.2]⟩, ?_⟩, fun h1 => absurd h1 h0, fun _ => ?_, ?_⟩
    · intro B' hB'
      simp only [Dict.set, Function.update_self, Option.some.injEq] at hB'
      rw [← hB']; exact sB
    · simp only [Dict.set, Function.update_self]
      exact ⟨by simp, by rw [← dV]; exact dB⟩
    · simp only [Function.update_self]
      rw [Mat.M_add (by simp [hp.data.1, sB.1]) (by simp [hp.data.2, sB.2]), Mat.M_smul, dB, dV, neg_smul, sub_eq_add_neg]
  · rw [if_neg h0, moveParam_run hp.data sV]
    rw [not_not] at h0
    refine ⟨_, rfl, ⟨⟨by simp [hp.data.1], by simp [hp.data.2]⟩, hp.mom⟩, fun _ => rfl, fun h1 => absurd h0 h1, ?_⟩
    simp only [Function.update_self]
    rw [Mat.M_add (by simp [hp.data.1, sV.1]) (by simp [hp.data.2, sV.2]), Mat.M_smul, dV, h0, zero_smul, zero_add, neg_smul,
      sub_eq_add_neg]

/-- What applying the natural gradient `N` does to the layer's parameters (see `Frame` for the rest). -/
structure ApplySpec (h : Hyper α) (m : Layer) (N : Matrix (Fin m.nC) (Fin m.nK) α) (w w' : World α) : Prop where
  weight : ParamSpec h m.weight.ptr (weightPart N) w w'
  bias : ∀ b, ∀ hb : m.bias = some b, ParamSpec h b.ptr (biasPart (by simp [hb]) N) w w'

theorem _root_.ParamSpec.congr {h : Hyper α} {p r c : ℕ} {S : Matrix (Fin r) (Fin c) α} {w w' v v' : World α} (hs : ParamSpec h p S w w')
    (d : v.data p = w.data p) (b : v.opt.mom p = w.opt.mom p) (d' : v'.data p = w'.data p) (b' : v'.opt.mom p = w'.opt.mom p) :
    ParamSpec h p S v v' where
  shape := ⟨by rw [d']; exact hs.shape.data, by rw [b']; exact hs.shape.mom⟩
  mom0 h0 := by rw [b, b']; exact hs.mom0 h0
  mom1 h0 := by rw [b, b', d]; exact hs.mom1 h0
  data := by rw [b, d', d]; exact hs.data

theorem _root_.ParamShape.congr {w v : World α} {p r c : ℕ} (hs : ParamShape w p r c) (d : v.data p = w.data p) (b : v.opt.mom p = w.opt.mom p) :
    ParamShape v p r c := ⟨by rw [d]; exact hs.data, by rw [b]; exact hs.mom⟩

theorem applyNat_spec {w : World α} {m : Layer} {h : Hyper α} {N : Mat α} (hs : LayerShape w m) (hh : w.opt.hyperOf m = .ok h)
    (hN : N.OfShape m.nC m.nK) :
    ∃ w', applyNat m N w = (.ok (), w') ∧ ApplySpec h m (N.M m.nC m.nK) w w' := by
  rw [applyNat, Py.get_bind_run]
  rcases hb : m.bias with _ | b
  · have sN : N.OfShape m.dout m.din := ⟨hN.1, by rw [hN.2]; simp [Layer.nK, hb]⟩
    obtain ⟨w', e, sp⟩ := paramStep_spec (h := h) hs.weight sN
    refine ⟨w', ?_, ?_, by intro b hb'; rw [hb] at hb'; cases hb'⟩
    · simp only [asShape, sN.1, sN.2, and_self, if_true, Py.lift_ok_bind_run, hh, e]
    · have : weightPart (N.M m.nC m.nK) = N.M m.dout m.din := by funext i j; rfl
      rw [this]; exact sp
  · obtain ⟨sb, hne⟩ := hs.bias b hb
    have hc : N.cols = m.din + 1 := by rw [hN.2]; simp [Layer.nK, hb]
    have hr : N.rows = m.dout := hN.1
    let Nw := N.slice 0 N.rows 0 (N.cols - 1)
    let Nb := N.slice 0 N.rows (N.cols - 1) N.cols
    have s1 : Nw.OfShape m.dout m.din := ⟨by simp [Nw, hr], by simp [Nw, hc]⟩
    have s2 : Nb.OfShape m.dout 1 := ⟨by simp [Nb, hr], by simp [Nb, hc]⟩
    obtain ⟨w1, e1, sp1⟩ := paramStep_spec (h := h) hs.weight s1
    have f1 := paramStep_frame h m.weight.ptr Nw w
    rw [e1] at f1
    have hd : w1.data b.ptr = w.data b.ptr := f1.data _ (by simpa using hne)
    have hm : w1.opt.mom b.ptr = w.opt.mom b.ptr := f1.mom _ (by simpa using hne)
    obtain ⟨w2, e2, sp2⟩ := paramStep_spec (h := h) (sb.congr hd hm) s2
    have f2 := paramStep_frame h b.ptr Nb w1
    rw [e2] at f2
    refine ⟨w2, ?_, ?_, ?_⟩
    · have a1 : asShape (N.slice 0 N.rows 0 (N.cols - 1)) m.dout m.din = .ok Nw := if_pos s1
      have a2 : asShape (N.slice 0 N.rows (N.cols - 1) N.cols) m.dout 1 = .ok Nb := if_pos s2
      simp only [a1, a2, Py.lift_ok_bind_run, hh]
      rw [Py.bind_ok e1, e2]
    · have : weightPart (N.M m.nC m.nK) = Nw.M m.dout m.din := by
        funext i j
        have := i.2; have := j.2
        simp only [weightPart, Mat.M, Nw, Mat.get_slice, hr, hc]
        rw [if_pos (by omega), Nat.zero_add, Nat.zero_add]
      rw [this]
      exact sp1.congr rfl rfl (f2.data _ (Ne.symm hne)) (f2.mom _ (Ne.symm hne))
    · intro b' hb'
      have hb'' := hb'
      rw [hb] at hb''; cases hb''
      have : biasPart (by simp [hb']) (N.M m.nC m.nK) = Nb.M m.dout 1 := by
        funext i j
        have := i.2; have := j.2
        simp only [biasPart, Mat.M, Nb, Mat.get_slice, hr, hc]
        rw [if_pos (by omega)]
        congr 1 <;> omega
      rw [this]
      exact sp2.congr hd.symm hm.symm rfl rfl

end World
