import Verif.Props.History
import Verif.Props.Errors

/-! C72: exceptions caused by hyper-parameters and gradient scales which no check refuses: period 0, zero and negative scales. -/

set_option linter.unusedSectionVars false

namespace Errors

variable {α : Type} [Field α] [LinearOrder α] [HasSqrt α]

/-- a step in which layer `m` raises, the layers before it having succeeded -/
theorem step_layer_error {structs : String → Option Cls} {w v v' : World α} (hw : Reachable structs w) {attr : Option α} {pre post : List Layer} {m : Layer} {e : PyErr}
    (hl : w.opt.layers = pre ++ m :: post) (hp : Py.forM pre World.layerStep (World.ensureScale attr w).2 = (.ok (), v))
    (hm : World.layerStep m v = (.error e, v')) : exec (.step false attr false) w = (.error e, v') := by
  rw [World.ensureScale_state] at hp
  have es : World.ensureScale attr w = (.ok (), World.withScale attr w) := by
    obtain ⟨v', h, _⟩ := (C31_scale_memory hw).2.2 attr
    have := World.ensureScale_state attr w
    rw [h] at this ⊢; rw [← this]
  rw [exec, World.step, if_neg (by simp), Py.bind_ok es]
  have hb : World.stepBody false (World.withScale attr w) = (.error e, v') := by
    rw [World.stepBody, if_neg (by simp), World.innerStep, Py.get_bind_run]
    have : (World.withScale attr w).opt.layers = pre ++ m :: post := hl
    rw [this, forM_append hp, Py.forM, Py.bind_error hm]
  rw [Py.bind_error hb]

/-- **C72 (period).** No check refuses `T = 0`. With it, forward passes of the layer raise `ZeroDivisionError` if gradients are enabled and do nothing otherwise,
and so does every step that gets to the layer; the layers before it have been updated then. -/
theorem C72_period {structs : String → Option Cls} {w : World α} (hw : Reachable structs w) {m : Layer} {h : Hyper α} (hh : w.opt.hyperOf m = .ok h) (hT : h.T = 0) :
    (∀ i x, w.opt.layers[i]? = some m → exec (.forward i x true) w = (.error .zeroDivisionError, w) ∧ exec (.forward i x false) w = (.ok (), w)) ∧
    ∀ attr pre post v, w.opt.layers = pre ++ m :: post → Py.forM pre World.layerStep (World.ensureScale attr w).2 = (.ok (), v) →
      exec (.step false attr false) w = (.error .zeroDivisionError, v) := by
  constructor
  · intro i x hi
    constructor
    · rw [exec, Py.get_bind_run]
      simp only [hi]
      rw [World.forwardHook, Py.get_bind_run, hh, Py.lift_ok_bind_run, if_pos rfl, if_pos hT]
      rfl
    · rw [exec, Py.get_bind_run]
      simp only [hi]
      rw [World.forwardHook, Py.get_bind_run, hh, Py.lift_ok_bind_run, if_neg (by simp)]
      rfl
  · intro attr pre post v hl hp
    refine step_layer_error hw hl hp ?_
    have fr := World.innerStep_frame_aux (World.withScale attr w) pre _ (Frame.refl _)
    rw [World.ensureScale_state] at hp
    rw [hp] at fr
    have hv : v.opt.hyperOf m = .ok h := by
      rw [← hh]
      unfold Opt.hyperOf
      rw [fr.ptrGroup, fr.groups]
      rfl
    rw [World.layerStep]
    refine Py.bind_error ?_
    rw [World.updatePreconditioner, Py.get_bind_run, hv, Py.lift_ok_bind_run, if_pos hT]
    rfl

/-- **C72 (zero scale).** No check refuses a gradient scale of zero. A step that gets to a layer due for an update raises `ZeroDivisionError` then; the statistics of the
layer are gone, and the layers before it have been updated. -/
theorem C72_zero_scale {structs : String → Option Cls} {w v : World α} (hw : Reachable structs w) {attr : Option α} {pre post : List Layer} {m : Layer}
    (hl : w.opt.layers = pre ++ m :: post) (hp : Py.forM pre World.layerStep (World.ensureScale attr w).2 = (.ok (), v)) (hu : OnStep w m)
    (hc : v.opt.scales v.opt.steps = some 0) (hk : v.opt.Ks m.name ≠ none ∧ v.opt.Cs m.name ≠ none) (hs : v.opt.HKs m.name ≠ none ∧ v.opt.HCs m.name ≠ none) :
    exec (.step false attr false) w = (.error .zeroDivisionError,
      { v with opt := { v.opt with HKs := Dict.erase v.opt.HKs m.name, HCs := Dict.erase v.opt.HCs m.name } }) := by
  refine step_layer_error hw hl hp ?_
  have fr := World.innerStep_frame_aux (World.withScale attr w) pre _ (Frame.refl _)
  rw [World.ensureScale_state] at hp
  rw [hp] at fr
  obtain ⟨h, a, b, c⟩ := (World.Updates_frame fr).2 (onStep_iff.2 hu)
  have prev : v.opt.scales ((v.opt.steps : ℤ) - 1) ≠ none := by
    obtain ⟨v', h1, _, h3⟩ := (C31_scale_memory hw).2.2 attr
    have e := World.ensureScale_state attr w
    rw [h1] at e
    have e' : v' = World.withScale attr w := e
    rw [e'] at h3
    rwa [fr.scales, fr.steps]
  obtain ⟨K, hK⟩ := Option.ne_none_iff_exists'.1 hk.1
  obtain ⟨C, hC⟩ := Option.ne_none_iff_exists'.1 hk.2
  obtain ⟨HK, hHK⟩ := Option.ne_none_iff_exists'.1 hs.1
  obtain ⟨HC, hHC⟩ := Option.ne_none_iff_exists'.1 hs.2
  obtain ⟨p, hpv⟩ := Option.ne_none_iff_exists'.1 prev
  rw [World.layerStep]
  refine Py.bind_error ?_
  rw [World.updatePreconditioner_on a b c, World.updateOn, Py.get_bind_run, lookup, hK, Py.lift_ok_bind_run, lookup, hC, Py.lift_ok_bind_run, lookup, hHK,
    Py.lift_ok_bind_run, Py.bind_run]
  show (Py.lift (lookup v.opt.HCs m.name) >>= _) _ = _
  rw [lookup, hHC, Py.lift_ok_bind_run, Py.bind_run]
  show (Py.lift (World.updateDirs v.opt h m K C HK HC) >>= _) _ = _
  have hd : World.updateDirs v.opt h m K C HK HC = .error .zeroDivisionError := by
    rw [World.updateDirs, World.gradUnscaling, Opt.scale, lookup, hpv, Opt.scale, lookup, hc]
    show ((if (0 : α) = 0 then Except.error PyErr.zeroDivisionError else _) >>= _) = _
    rw [if_pos rfl]
    rfl
  rw [hd]
  rfl

/-- **C72 (negative scale).** No check refuses a negative gradient scale. A backward pass of the following step, which would succeed with the scale 1, raises `ValueError` then
and changes nothing. -/
theorem C72_negative_scale {w : World α} {k : ℕ} {g : ND α} {s : α} (hs : w.opt.scales ((w.opt.steps : ℤ) - 1) = some s) (hneg : s < 0) (hk : w.hooks[k]? ≠ none)
    (hf : (1 : α) ≠ s) (hok : (exec (.backward k g) { w with opt := { w.opt with scales := Dict.set w.opt.scales ((w.opt.steps : ℤ) - 1) 1 } }).1 = .ok ()) :
    exec (.backward k g) w = (.error .valueError, w) := by
  obtain ⟨mx, hmx⟩ := Option.ne_none_iff_exists'.1 hk
  rw [exec, Py.get_bind_run] at hok ⊢
  simp only [hmx] at hok ⊢
  rw [World.accumulateH, Py.get_bind_run] at hok ⊢
  suffices hx : World.localH w.opt mx.1 mx.2 g = .error .valueError by rw [hx]; rfl
  have hok' : ∃ H, World.localH { w.opt with scales := Dict.set w.opt.scales ((w.opt.steps : ℤ) - 1) 1 } mx.1 mx.2 g = .ok H := by
    rcases hl : World.localH { w.opt with scales := Dict.set w.opt.scales ((w.opt.steps : ℤ) - 1) 1 } mx.1 mx.2 g with e | H
    · rw [hl] at hok; cases hok
    · exact ⟨H, rfl⟩
  obtain ⟨H, hH⟩ := hok'
  unfold World.localH at hH ⊢
  rw [show Opt.hyperOf { w.opt with scales := Dict.set w.opt.scales ((w.opt.steps : ℤ) - 1) 1 } mx.1 = w.opt.hyperOf mx.1 from rfl] at hH
  rcases h1 : w.opt.hyperOf mx.1 with e | h
  · rw [h1] at hH; cases hH
  rw [h1, Except.bind_ok'] at hH
  rw [Except.bind_ok']
  rcases h2 : PIO.processInput mx.2 mx.1.kind mx.1.bias.isSome h.kfacApprox with e | a
  · rw [h2] at hH; cases hH
  rw [h2, Except.bind_ok'] at hH
  rw [Except.bind_ok']
  rcases h3 : PIO.processGradOutput g mx.1.kind h.lossAverage h.kfacApprox with e | g'
  · rw [h3] at hH; cases hH
  rw [h3, Except.bind_ok'] at hH
  rw [Except.bind_ok']
  rcases h4 : lookup w.opt.Ks mx.1.name with e | K
  · rw [h4] at hH; cases hH
  rw [h4, Except.bind_ok'] at hH
  rw [Except.bind_ok']
  rcases h5 : lookup w.opt.Cs mx.1.name with e | C
  · rw [h5] at hH; cases hH
  rw [h5, Except.bind_ok'] at hH
  rw [Except.bind_ok']
  rcases h6 : K.fromInner (some a.T) with e | HK
  · rw [h6] at hH; cases hH
  rw [Except.bind_ok', Opt.scale, lookup, hs, Except.bind_ok', World.unscaleGrad, if_neg hf.symm, if_pos hneg]
  rfl

end Errors

namespace Sample.BadScale

/-- the exception of an operation -/
def err (r : Except PyErr Unit × World ℚ) : Option PyErr := match r.1 with
  | .ok _ => none
  | .error e => some e

-- the constructor accepts `T = 0`
def args0 : Args ℚ := { Sample.args with T := 0 }
def wT : World ℚ := Sample.world Sample.model .default args0
example : Reachable supportedStructures wT := Sample.reachable (by decide +kernel) (by decide +kernel) []
example : ∃ h, wT.opt.hyperOf Sample.la = .ok h ∧ h.T = 0 := by
  have key : (match wT.opt.hyperOf Sample.la with
    | .ok h => decide (h.T = 0)
    | .error _ => false) = true := by decide +kernel
  rcases hh : wT.opt.hyperOf Sample.la with e | h
  · rw [hh] at key; cases key
  · rw [hh] at key; exact ⟨h, rfl, of_decide_eq_true key⟩
example : err (exec (.forward 0 (Sample.row [2]) true) wT) = some .zeroDivisionError ∧ err (exec (.forward 0 (Sample.row [2]) false) wT) = none ∧
    err (exec (.step false none false) wT) = some .zeroDivisionError := by decide +kernel

-- a scale of zero: the step raises and the statistics of the first layer are lost
def wZ : World ℚ := run [.setScale 0] Sample.w1
example : wZ.opt.layers = [] ++ Sample.la :: [Sample.lb] ∧ OnStep wZ Sample.la ∧ (World.ensureScale none wZ).2.opt.scales wZ.opt.steps = some 0 ∧
    (Sample.fac ((World.ensureScale none wZ).2.opt.HKs "a")).isSome = true ∧ err (exec (.step false none false) wZ) = some .zeroDivisionError ∧
    Sample.fac ((exec (.step false none false) wZ).2.opt.HKs "a") = none ∧ (Sample.fac ((exec (.step false none false) wZ).2.opt.HKs "b")).isSome = true :=
  ⟨by decide +kernel, Sample.onStep_iff.1 (by decide +kernel), by decide +kernel, by decide +kernel, by decide +kernel, by decide +kernel, by decide +kernel⟩

-- a negative scale: backward passes of the next update step fail
def argsN : Args ℚ := { Sample.args with initGradScale := -4 }
def wN : World ℚ := run [.forward 0 (Sample.row [2]) true] (Sample.world Sample.model .default argsN)
example : wN.opt.scales ((wN.opt.steps : ℤ) - 1) = some (-4) ∧ wN.hooks.length = 1 ∧ err (exec (.backward 0 (Sample.row [2])) wN) = some .valueError ∧
    err (exec (.backward 0 (Sample.row [2])) { wN with opt := { wN.opt with scales := Dict.set wN.opt.scales ((wN.opt.steps : ℤ) - 1) 1 } }) = none := by decide +kernel

end Sample.BadScale
