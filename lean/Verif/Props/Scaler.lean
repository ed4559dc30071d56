import Verif.Proofs.Scaler
import Verif.Props.OptSamples

/-! C92: training with torch's `GradScaler`. -/

set_option linter.unusedSectionVars false
open Construct Matrix

namespace Amp

section
variable {α : Type} [Field α] [LinearOrder α] [HasSqrt α]

theorem next_const (sc : Scaler α) (b : Bool) : (sc.next b).growth = sc.growth ∧ (sc.next b).backoff = sc.backoff ∧ (sc.next b).interval = sc.interval ∧ (sc.next b).stage = .ready := by
  unfold Scaler.next Scaler.adjust
  split
  · exact ⟨rfl, rfl, rfl, rfl⟩
  · split <;> exact ⟨rfl, rfl, rfl, rfl⟩

theorem after_cons (sc : Scaler α) (b : Bool) (bs : List Bool) : sc.after (b :: bs) = (sc.next b).after bs := rfl

end

section
variable {α : Type} [Field α] [LinearOrder α] [IsStrictOrderedRing α] [LawfulSqrt α]

theorem next_pos {sc : Scaler α} (h : 0 < sc.scale ∧ 0 < sc.growth ∧ 0 < sc.backoff) (b : Bool) : 0 < (sc.next b).scale ∧ 0 < (sc.next b).growth ∧ 0 < (sc.next b).backoff := by
  obtain ⟨h1, h2, h3⟩ := h
  unfold Scaler.next Scaler.adjust
  split
  · exact ⟨mul_pos h1 h3, h2, h3⟩
  · split
    · exact ⟨mul_pos h1 h2, h2, h3⟩
    · exact ⟨h1, h2, h3⟩

theorem after_pos : ∀ {bs : List Bool} {sc : Scaler α}, (0 < sc.scale ∧ 0 < sc.growth ∧ 0 < sc.backoff) → 0 < (sc.after bs).scale
  | [], _, h => h.1
  | b :: bs, _, h => after_pos (bs := bs) (next_pos h b)

/-- iterations -/
theorem Side.iters {cl : String → Cls × Cls} {sA : ℕ → α} (pA : ∀ t, 0 < sA t) {ps : List ℕ} : ∀ {its : List (Iter α)} {s : State α} {B : World α}, Side cl sA s.w B →
    (∀ k, sA (s.w.opt.steps + k) = (s.sc.after ((its.map (·.inf)).take k)).scale) → s.sc.stage = .ready → s.attr = .absent → s.inf = false →
    (∀ m ∈ B.opt.layers, ∀ p, World.Owns m p → p ∈ ps) → (∀ it ∈ its, ∀ op ∈ it.body, NotStep op) → FitsRun B (its.flatMap (·.plain ps)) → Along Plain B (its.flatMap (·.plain ps)) →
    ∃ A', arun (its.flatMap (·.amp ps)) s = ⟨A', s.sc.after (its.map (·.inf)), .absent, false⟩ ∧ arunOk (its.flatMap (·.amp ps)) s ∧ Side cl sA A' (run (its.flatMap (·.plain ps)) B) ∧
      A'.opt.layers = s.w.opt.layers
  | [], s, B, r, _, _, ha, hi, _, _, _, _ => by
    obtain ⟨w, sc, a, i⟩ := s
    cases ha
    cases hi
    exact ⟨w, rfl, trivial, r, rfl⟩
  | it :: its, s, B, r, hs, hst, ha, hi, hps, hn, hf, hp => by
    rw [List.flatMap_cons] at hf hp
    obtain ⟨f1, f2⟩ := along_append hf
    obtain ⟨p1, p2⟩ := along_append hp
    obtain ⟨A1, x1, x2, x3, x4, x5⟩ := r.iter pA (by simpa [Scaler.after] using hs 0) hst hps (hn it (by simp)) f1 p1
    have el : (run (it.plain ps) B).opt.layers = B.opt.layers := run_inv (P := fun w => w.opt.layers = B.opt.layers) (fun op w h => by rw [(exec_static op w).1]; exact h) _ B rfl
    obtain ⟨A2, y1, y2, y3, y4⟩ := Side.iters pA (its := its) (s := ⟨A1, s.sc.next it.inf, .absent, false⟩) x3 (by
      intro k
      have := hs (k + 1)
      rw [List.map_cons, List.take_succ_cons, after_cons] at this
      rw [← this]
      show sA (A1.opt.steps + k) = _
      rw [x4]
      congr 1
      omega) (next_const _ _).2.2.2 rfl rfl (by rw [el]; exact hps) (fun i hi => hn i (by simp [hi])) f2 p2
    refine ⟨A2, ?_, ?_, ?_, y4.trans x5⟩
    · rw [List.flatMap_cons, arun_append, x1, y1]; rfl
    · rw [List.flatMap_cons]
      refine arunOk_append x2 ?_
      rw [x1]; exact y2
    · rw [List.flatMap_cons, run_append]; exact y3

/-- **C92 (dynamic scaling).** Train a model with a `GradScaler` (any positive initial scale, growth and backoff factors, any interval; `scaler.scale(loss).backward()`, `scaler.step`, `scaler.update` in every
iteration) and, constructed with the same arguments except `init_grad_scale`, without it, the same iterations being skipped. Whatever infs are found, nothing raises, and factors,
factor momenta, parameters, momentum buffers and the step counter agree. -/
theorem C92_dynamic {structs : String → Option Cls} {model : Model} {p : ParamArg α} {a : Args α} {o : Opt α} {ws : List Warn} (hn : (model.layers.map (·.name)).Nodup)
    (hi : Construct.init structs model p a = .ok (o, ws)) {data : ℕ → Mat α} (ht : Trainable o data) (ha : 0 < a.initGradScale) {s0 : α} (hs : 0 < s0) {sc : Scaler α}
    (hsc : 0 < sc.scale ∧ 0 < sc.growth ∧ 0 < sc.backoff) (hst : sc.stage = .ready) {ps : List ℕ} (hps : ∀ m ∈ o.layers, ∀ q, World.Owns m q → q ∈ ps) {its : List (Iter α)}
    (hb : ∀ it ∈ its, ∀ op ∈ it.body, ∀ c b f, op ≠ .step c b f) {grad grad' : ℕ → Option (Mat α)} (hf : FitsRun ⟨o, data, grad, []⟩ (its.flatMap (·.plain ps)))
    (hp : Along Plain ⟨o, data, grad, []⟩ (its.flatMap (·.plain ps))) :
    ∃ o' S, Construct.init structs model p { a with initGradScale := s0 } = .ok (o', ws) ∧ arun (its.flatMap (·.amp ps)) ⟨⟨o', data, grad', []⟩, sc, .absent, false⟩ = S ∧
      arunOk (its.flatMap (·.amp ps)) ⟨⟨o', data, grad', []⟩, sc, .absent, false⟩ ∧
      (∀ m ∈ o.layers, LayEq m S.w (run (its.flatMap (·.plain ps)) ⟨o, data, grad, []⟩)) ∧ S.w.data = (run (its.flatMap (·.plain ps)) ⟨o, data, grad, []⟩).data ∧
      S.w.opt.mom = (run (its.flatMap (·.plain ps)) ⟨o, data, grad, []⟩).opt.mom ∧ S.w.opt.steps = (run (its.flatMap (·.plain ps)) ⟨o, data, grad, []⟩).opt.steps ∧
      S.sc = sc.after (its.map (·.inf)) := by
  have I := init_ok hn hi
  obtain ⟨cl, _, lB⟩ := I.live (grad := grad) ht ha
  let A : World α := ⟨{ o with scales := Dict.set (fun _ => none) (-1) s0 }, data, grad', []⟩
  let sA : ℕ → α := fun k => (sc.after ((its.map (·.inf)).take k)).scale
  have pA : ∀ t, 0 < sA t := fun t => after_pos hsc
  have lA : A.Live cl := by
    refine ⟨lB.sound.congr rfl (fun _ => rfl) (fun m hm => (lB.sound.lay m hm).congr ⟨rfl, rfl, rfl, rfl, rfl, rfl⟩)
      (fun m' hm' => (lB.sound.shape m' hm').congr (fun _ _ => rfl) fun _ _ => rfl), lB.valid, lB.hooks, ⟨s0, ?_⟩, ?_, lB.mom⟩
    · show Dict.set (fun _ => none) (-1) s0 ((o.steps : ℤ) - 1) = _
      rw [I.steps]; simp [Dict.set]
    · intro t s hts
      replace hts : Dict.set (fun _ => none) (-1) s0 t = some s := hts
      rw [Dict.set, Function.update_apply] at hts
      split at hts
      · cases hts; exact hs
      · cases hts
  have hC : ∀ n, o.HCs n = none := fun n => by rw [I.HCs]
  have r : Scaled sA (fun _ => 1) A ⟨o, data, grad, []⟩ := by
    refine ⟨⟨rfl, rfl, rfl, rfl⟩, fun m _ => ⟨rfl, rfl, rfl, rfl, fun _ _ => rfl, fun _ _ => rfl⟩, rfl, rfl, rfl, fun _ _ => rfl, fun _ _ => Iff.rfl,
      fun m _ h => absurd (hC _) h, fun m _ _ _ _ _ => ?_⟩
    show _ • denO (o.HCs m.name) _ = _ • denO (o.HCs m.name) _
    rw [hC]; simp [denO]
  have sd : Side cl sA A ⟨o, data, grad, []⟩ := by
    refine ⟨lA, lB, r, fun t h => ?_, fun t h => ?_⟩
    · show Dict.set (fun _ => none) (-1) s0 t = none
      have : (o.steps : ℤ) ≤ t := h
      rw [Dict.set, Function.update_of_ne (by omega)]
    · have : (o.steps : ℤ) ≤ t := h
      show o.scales t = none
      rw [I.scales, Dict.set, Function.update_of_ne (by omega)]
  obtain ⟨A', y1, y2, y3, y4⟩ := sd.iters pA (s := ⟨A, sc, .absent, false⟩) (by
    intro k
    show sA (o.steps + k) = _
    rw [I.steps, Nat.zero_add]) hst rfl rfl hps (fun it hit op hop => by
      cases op <;> first | trivial | exact hb it hit _ hop _ _ _ rfl) hf hp
  refine ⟨_, _, init_scale hi s0, y1, y2, fun m hm => y3.sc.lay m ?_, y3.sc.data, y3.sc.mom, y3.sc.conf.steps, rfl⟩
  rw [y4]; exact hm

end

end Amp

namespace Amp

section
variable {α : Type} [Field α] [LinearOrder α] [HasSqrt α]

/-- the world after `unscale_` divided the gradients of the groups' parameters by the scale `s` -/
def unscaledGrads (s : α) (w : World α) : World α := { w with grad := fun p => if p ∈ params w.opt then (w.grad p).map (·.smul s⁻¹) else w.grad p }

theorem aexec_unscale {s : State α} (hst : s.sc.stage = .ready) (inf : Bool) :
    aexec (.unscale inf) s = (.ok (), ⟨unscaledGrads s.sc.scale s.w, { s.sc with stage := .unscaled, found := some inf }, s.attr, s.inf⟩) := by
  rw [aexec]
  exact if_pos hst

/-- the state `scaler.step` leaves after `unscale_` -/
def stepped (sc : Scaler α) (inf : Bool) : Except PyErr Unit → World α → State α
  | .ok _, w => ⟨w, { sc with stage := .stepped }, .absent, false⟩
  | .error _, w => ⟨w, sc, .none, inf⟩

theorem aexec_step_unscaled {s : State α} (hst : s.sc.stage = .unscaled) {inf : Bool} (hf : s.sc.found = some inf) {r : Except PyErr Unit} {w' : World α}
    (hr : singdStep false .none inf s.w = (r, w')) (inf' : Bool) : aexec (.step inf') s = (r, stepped s.sc inf r w') := by
  obtain ⟨w, ⟨scale, growth, backoff, interval, tracker, stage, found⟩, attr, i⟩ := s
  cases hst
  cases hf
  replace hr : singdStep false .none inf w = (r, w') := hr
  have e1 : (if Stage.unscaled = Stage.ready then some inf' else some inf) = some inf := if_neg (by decide)
  rw [aexec]
  simp only [e1, if_true, Option.getD_some, hr]
  rw [if_neg (by decide)]
  cases r <;> rfl

/-- **C92 (gradient clipping with `unscale_` raises).** If no scale was set for this step with `set_current_grad_scale`, then `scaler.step` after `scaler.unscale_` raises
`AttributeError` (`None.item()`), whether infs were found or not. Nothing but the gradients has changed, but the attribute stays: a direct `optimizer.step()` raises as well. -/
theorem C92_unscale_raises {s : State α} (hst : s.sc.stage = .ready) (h0 : s.w.opt.scales s.w.opt.steps = none) (inf inf' : Bool) :
    ∃ u v, aexec (.unscale inf) s = (.ok (), u) ∧ u.w = unscaledGrads s.sc.scale s.w ∧ aexec (.step inf') u = (.error .attributeError, v) ∧ v.w = u.w ∧
      (∀ b f, aexec (.user (.step false b f)) v = (.error .attributeError, v)) ∧ ∀ f, aexec (.step f) v = (.error .attributeError, v) := by
  have hs : ∀ f, singdStep false .none f (unscaledGrads s.sc.scale s.w) = (.error .attributeError, unscaledGrads s.sc.scale s.w) := by
    intro f
    rw [singdStep]
    exact if_pos ⟨rfl, h0⟩
  refine ⟨_, ⟨unscaledGrads s.sc.scale s.w, { s.sc with stage := .unscaled, found := some inf }, .none, inf⟩, aexec_unscale hst inf, rfl, aexec_step_unscaled rfl rfl (hs inf) inf', rfl,
    fun b f => ?_, fun f => aexec_step_unscaled rfl rfl (hs inf) f⟩
  show onWorld (singdStep false .none inf) _ = _
  rw [onWorld, hs]

/-- **C92 (`unscale_` with an explicit scale).** If the user sets the scale `c` explicitly, `scaler.step` after `scaler.unscale_` is a step with scale `c` on the gradients already divided by the
scaler's scale. -/
theorem C92_explicit {s : State α} (hst : s.sc.stage = .ready) {c : α} (hc : s.w.opt.scales s.w.opt.steps = some c) (inf inf' : Bool) :
    ∃ u, aexec (.unscale inf) s = (.ok (), u) ∧ (aexec (.step inf') u).1 = (exec (.step false none inf) (unscaledGrads s.sc.scale s.w)).1 ∧
      (aexec (.step inf') u).2.w = (exec (.step false none inf) (unscaledGrads s.sc.scale s.w)).2 ∧ (unscaledGrads s.sc.scale s.w).opt.scales s.w.opt.steps = some c := by
  have hs : singdStep false .none inf (unscaledGrads s.sc.scale s.w) = exec (.step false none inf) (unscaledGrads s.sc.scale s.w) := by
    rw [singdStep]
    exact if_neg fun h => by rw [show (unscaledGrads s.sc.scale s.w).opt = s.w.opt from rfl, hc] at h; cases h.2
  rcases hr : exec (.step false none inf) (unscaledGrads s.sc.scale s.w) with ⟨r, w'⟩
  rw [hr] at hs
  refine ⟨_, aexec_unscale hst inf, ?_, ?_, hc⟩
  · rw [aexec_step_unscaled rfl rfl hs inf']
  · rw [aexec_step_unscaled rfl rfl hs inf']
    cases r <;> rfl

/-- **C92 (the scale).** Every inf multiplies the scale by the backoff factor; it grows once per interval without infs at most. -/
theorem C92_scale (infs : List Bool) (sc : Scaler α) : ∃ j, (sc.after infs).scale = sc.scale * sc.backoff ^ infs.count true * sc.growth ^ j ∧
    j * sc.interval + (sc.after infs).tracker ≤ sc.tracker + infs.count false := by
  induction infs generalizing sc with
  | nil => exact ⟨0, by simp [Scaler.after], by simp [Scaler.after]⟩
  | cons b infs ih =>
    obtain ⟨j, h1, h2⟩ := ih (sc.next b)
    obtain ⟨g, k, i, _⟩ := next_const sc b
    rw [g, k] at h1; rw [i] at h2
    rw [after_cons]
    cases b with
    | true =>
      refine ⟨j, ?_, ?_⟩
      · rw [h1, show (sc.next true).scale = sc.scale * sc.backoff from rfl, List.count_cons_self, pow_succ]; ring
      · rw [show (sc.next true).tracker = 0 from rfl] at h2
        simp only [List.count_cons, beq_iff_eq, Bool.true_eq_false, if_false]
        omega
    | false =>
      have ec : (false :: infs).count true = infs.count true := by simp
      have ef : (false :: infs).count false = infs.count false + 1 := by simp
      rw [ec, ef]
      by_cases ht : sc.tracker + 1 = sc.interval
      · have e1 : (sc.next false).scale = sc.scale * sc.growth := by simp [Scaler.next, Scaler.adjust, ht]
        have e2 : (sc.next false).tracker = 0 := by simp [Scaler.next, Scaler.adjust, ht]
        rw [e1] at h1; rw [e2] at h2
        exact ⟨j + 1, by rw [h1, pow_succ]; ring, by rw [Nat.succ_mul]; omega⟩
      · have e1 : (sc.next false).scale = sc.scale := by simp [Scaler.next, Scaler.adjust, ht]
        have e2 : (sc.next false).tracker = sc.tracker + 1 := by simp [Scaler.next, Scaler.adjust, ht]
        rw [e1] at h1; rw [e2] at h2
        exact ⟨j, h1, by omega⟩

/-- without infs, the scale grows exactly once per interval -/
theorem C92_growth (n : ℕ) (sc : Scaler α) (ht : sc.tracker < sc.interval) :
    (sc.after (List.replicate n false)).scale = sc.scale * sc.growth ^ ((sc.tracker + n) / sc.interval) := by
  induction n generalizing sc with
  | zero => simp [Scaler.after, Nat.div_eq_of_lt ht]
  | succ n ih =>
    rw [List.replicate_succ, after_cons]
    obtain ⟨g, _, i, _⟩ := next_const sc false
    by_cases h : sc.tracker + 1 = sc.interval
    · have e1 : (sc.next false).scale = sc.scale * sc.growth := by simp [Scaler.next, Scaler.adjust, h]
      have e2 : (sc.next false).tracker = 0 := by simp [Scaler.next, Scaler.adjust, h]
      rw [ih _ (by rw [e2, i]; omega), e1, e2, g, i, mul_assoc, ← pow_succ']
      congr 2
      rw [show sc.tracker + (n + 1) = (0 + n) + sc.interval by omega, Nat.add_div_right _ (by omega)]
    · have e1 : (sc.next false).scale = sc.scale := by simp [Scaler.next, Scaler.adjust, h]
      have e2 : (sc.next false).tracker = sc.tracker + 1 := by simp [Scaler.next, Scaler.adjust, h]
      rw [ih _ (by rw [e2, i]; omega), e1, e2, g, i]
      congr 3
      omega

/-- **C92 (two scalers).** The documentation uses one scaler per optimizer. Let two scalers with the same parameters have found infs in the same iterations (then they agree), and in the next iteration only
the first one (infs in the gradients of its optimizer alone). Their scales differ from then on by a factor `r ≠ 1`, so that gradients of the other optimizer, scaled by the first scaler, are
divided by the wrong number. -/
theorem C92_two_scalers (sc : Scaler α) (infs : List Bool) (hs : sc.scale ≠ 0) (hg : sc.growth ≠ 0) (hb : sc.backoff ≠ 0) (h1 : sc.backoff ≠ 1) (h2 : sc.backoff ≠ sc.growth) :
    ∃ r, r ≠ 1 ∧ (r = sc.backoff ∨ r = sc.backoff / sc.growth) ∧ (sc.after (infs ++ [true])).scale = r * (sc.after (infs ++ [false])).scale ∧
    ∀ x : α, x * (sc.after (infs ++ [true])).scale / (sc.after (infs ++ [false])).scale = r * x ∧ (x ≠ 0 → r * x ≠ x) := by
  have app : ∀ b, sc.after (infs ++ [b]) = (sc.after infs).next b := fun b => by unfold Scaler.after; rw [List.foldl_append]; rfl
  have const : ∀ (l : List Bool) (sc : Scaler α), (sc.after l).growth = sc.growth ∧ (sc.after l).backoff = sc.backoff := by
    intro l
    induction l with
    | nil => intro sc; exact ⟨rfl, rfl⟩
    | cons b l ih => intro sc; rw [after_cons, (ih _).1, (ih _).2]; exact ⟨(next_const sc b).1, (next_const sc b).2.1⟩
  have n0 : (sc.after infs).scale ≠ 0 := by
    obtain ⟨j, h, _⟩ := C92_scale infs sc
    rw [h]
    exact mul_ne_zero (mul_ne_zero hs (pow_ne_zero _ hb)) (pow_ne_zero _ hg)
  rw [app, app]
  obtain ⟨c1, c2⟩ := const infs sc
  generalize sc.after infs = t at *
  have e1 : (t.next true).scale = t.scale * sc.backoff := by rw [← c2]; rfl
  have key : ∃ r, r ≠ 1 ∧ (r = sc.backoff ∨ r = sc.backoff / sc.growth) ∧ (t.next true).scale = r * (t.next false).scale ∧ (t.next false).scale ≠ 0 := by
    by_cases h : t.tracker + 1 = t.interval
    · have e2 : (t.next false).scale = t.scale * sc.growth := by rw [← c1]; simp [Scaler.next, Scaler.adjust, h]
      refine ⟨sc.backoff / sc.growth, ?_, Or.inr rfl, by rw [e1, e2]; field_simp, by rw [e2]; exact mul_ne_zero n0 hg⟩
      rw [Ne, div_eq_one_iff_eq hg]; exact h2
    · have e2 : (t.next false).scale = t.scale := by simp [Scaler.next, Scaler.adjust, h]
      exact ⟨sc.backoff, h1, Or.inl rfl, by rw [e1, e2, mul_comm], by rw [e2]; exact n0⟩
  obtain ⟨r, r1, r2, r3, r4⟩ := key
  refine ⟨r, r1, r2, r3, fun x => ⟨by rw [r3]; field_simp, fun hx h => r1 ?_⟩⟩
  exact mul_right_cancel₀ hx (by rw [h, one_mul])

end

section
variable {α : Type} [Field α] [LinearOrder α] [IsStrictOrderedRing α] [HasSqrt α]

/-- the step without `unscale_` and the one with `unscale_` and the explicit scale `c` -/
theorem explicit_specs {cl : String → Cls × Cls} {s : State α} (hst : s.sc.stage = .ready) (hw : s.w.Sound cl) (hr : ∀ m ∈ s.w.opt.layers, LayerReady s.w m)
    (h0 : s.w.opt.scales s.w.opt.steps = none) (hS : 0 < s.sc.scale) {p : α} (hp : s.w.opt.scales ((s.w.opt.steps : ℤ) - 1) = some p) (hps : ∀ m ∈ s.w.opt.layers, ∀ p, World.Owns m p → p ∈ params s.w.opt) {c : α} (hc : 0 < c) (inf' : Bool) :
    ∃ (R U : State α) (v : World α), aexec (.step false) s = (.ok (), R) ∧ arun [.user (.setScale c), .unscale false, .step inf'] s = U ∧
      arunOk [.user (.setScale c), .unscale false, .step inf'] s ∧
      StepSpec cl s.sc.scale (p / s.sc.scale ^ 2) s.w R.w ∧ StepSpec cl c (p / c ^ 2) v U.w ∧ v = unscaledGrads s.sc.scale (exec (.setScale c) s.w).2 ∧
      (exec (.setScale c) s.w).2 = { s.w with opt := { s.w.opt with scales := Dict.set s.w.opt.scales s.w.opt.steps c } } := by
  obtain ⟨R, eR, sR⟩ := World.step_spec (attr := some s.sc.scale) hw hr hp (s := s.sc.scale) (by rw [h0]; rfl) hS.ne'
  have e1 : exec (.setScale c) s.w = (.ok (), { s.w with opt := { s.w.opt with scales := Dict.set s.w.opt.scales s.w.opt.steps c } }) :=
    World.setScale_run c s.w fun h => by rw [h] at hp; simp at hp; rw [hp]; simp
  have ew : (exec (.setScale c) s.w).2 = { s.w with opt := { s.w.opt with scales := Dict.set s.w.opt.scales s.w.opt.steps c } } := by rw [e1]
  obtain ⟨w1, ew1⟩ : ∃ w1 : World α, w1 = { s.w with opt := { s.w.opt with scales := Dict.set s.w.opt.scales s.w.opt.steps c } } := ⟨_, rfl⟩
  rw [← ew1] at e1
  have sv : (unscaledGrads s.sc.scale w1).opt.scales (unscaledGrads s.sc.scale w1).opt.steps = some c := by
    rw [ew1]; exact Function.update_self _ _ _
  have lv : (unscaledGrads s.sc.scale w1).Sound cl := by
    rw [ew1]
    exact ⟨hw.untied, hw.good, fun m hm => ⟨(hw.lay m hm).1, (hw.lay m hm).2, (hw.lay m hm).3, (hw.lay m hm).4, (hw.lay m hm).5, (hw.lay m hm).6⟩,
      fun m hm => ⟨⟨(hw.shape m hm).1.1, (hw.shape m hm).1.2⟩, fun b hb => ⟨⟨((hw.shape m hm).2 b hb).1.1, ((hw.shape m hm).2 b hb).1.2⟩, ((hw.shape m hm).2 b hb).2⟩⟩, hw.hyper⟩
  have fv : ∀ m ∈ (unscaledGrads s.sc.scale w1).opt.layers, LayerReady (unscaledGrads s.sc.scale w1) m := by
    intro m hm
    have hm' : m ∈ s.w.opt.layers := by rw [ew1] at hm; exact hm
    obtain ⟨⟨gw, gb⟩, st⟩ := hr m hm'
    rw [ew1]
    refine ⟨⟨?_, fun b hb => ?_⟩, st⟩
    · obtain ⟨G, e, sh⟩ := gw
      refine ⟨G.smul (s.sc.scale)⁻¹, ?_, sh⟩
      show (if m.weight.ptr ∈ params s.w.opt then _ else _) = _
      rw [if_pos (hps m hm' _ (Or.inl rfl)), e]; rfl
    · obtain ⟨G, e, sh⟩ := gb b hb
      refine ⟨G.smul (s.sc.scale)⁻¹, ?_, sh⟩
      show (if b.ptr ∈ params s.w.opt then _ else _) = _
      rw [if_pos (hps m hm' _ (Or.inr ⟨b, hb, rfl⟩)), e]; rfl
  have pU : (unscaledGrads s.sc.scale w1).opt.scales (((unscaledGrads s.sc.scale w1).opt.steps : ℤ) - 1) = some p := by
    rw [ew1]
    show Dict.set s.w.opt.scales s.w.opt.steps c _ = _
    rw [Dict.set, Function.update_of_ne (by show (s.w.opt.steps : ℤ) - 1 ≠ _; omega)]; exact hp
  obtain ⟨U, eU, sU⟩ := World.step_spec (attr := none) lv fv pU (s := c) (by rw [sv]; rfl) hc.ne'
  have hR : aexec (.step false) s = (.ok (), ⟨R, { s.sc with stage := .stepped, found := some false }, .absent, false⟩) := by
    have e2 : singdStep false (.val s.sc.scale) false s.w = (.ok (), R) := eR
    rw [aexec]
    simp only [hst]
    rw [if_neg (by simp), if_pos trivial, if_neg (by simp)]
    simp only [Option.getD_some, e2]
  have x1 : aexec (.user (.setScale c)) s = (.ok (), { s with w := w1 }) := by
    show onWorld (exec (.setScale c)) s = _
    rw [onWorld, e1]
  have x2 := aexec_unscale (s := { s with w := w1 }) hst false
  have x3 := aexec_step_unscaled (s := ⟨unscaledGrads s.sc.scale w1, { s.sc with stage := .unscaled, found := some false }, s.attr, s.inf⟩) rfl rfl (w' := U) (r := .ok ()) (by
    rw [singdStep]
    have : ¬(false = false ∧ (unscaledGrads s.sc.scale w1).opt.scales (unscaledGrads s.sc.scale w1).opt.steps = none) := fun h => by rw [sv] at h; cases h.2
    exact (if_neg this).trans eU) inf'
  refine ⟨_, ⟨U, { s.sc with stage := .stepped, found := some false }, .absent, false⟩, unscaledGrads s.sc.scale w1, hR, ?_, ?_, sR, sU, by rw [ew, ew1], ew⟩
  · show (aexec _ (aexec _ (aexec _ s).2).2).2 = _
    rw [x1, x2, x3]; rfl
  · refine ⟨by rw [x1], ?_⟩
    rw [x1]
    refine ⟨by rw [x2], ?_⟩
    rw [x2]
    exact ⟨by rw [x3], trivial⟩

theorem gradM_unscaled {w : World α} {s : α} {m : Layer} (hps : ∀ p, World.Owns m p → p ∈ params w.opt) : gradM (unscaledGrads s w) m = (1 / s) • gradM w m := by
  have key : ∀ p, World.Owns m p → (unscaledGrads s w).grad p = (w.grad p).map (·.smul s⁻¹) := fun p hp => if_pos (hps p hp)
  funext i j
  simp only [Matrix.smul_apply, gradM, smul_eq_mul]
  split
  · rw [key _ (Or.inl rfl)]
    rcases w.grad m.weight.ptr with _ | G
    · simp
    · simp only [Option.map_some, Option.getD_some, Mat.get_smul, one_div]; ring
  · rcases hb : m.bias with _ | b
    · simp
    · simp only [Option.bind_some]
      rw [key _ (Or.inr ⟨b, hb, rfl⟩)]
      rcases w.grad b.ptr with _ | G
      · simp
      · simp only [Option.map_some, Option.getD_some, Mat.get_smul, one_div]; ring

/-- **C92 (`unscale_` in an update step).** With the scale `c` set explicitly, `scaler.step` after `unscale_` moves `C` by an additional multiple of `C H_C` (which vanishes only if `c` is the scaler's scale), and,
if the factors are those of `scaler.step` without `unscale_` nevertheless, the parameters get `1/c` times the natural gradient. Here without normalisation. -/
theorem C92_explicit_deviation {cl : String → Cls × Cls} {s : State α} (hst : s.sc.stage = .ready) (hw : s.w.Sound cl) (hr : ∀ m ∈ s.w.opt.layers, LayerReady s.w m)
    (h0 : s.w.opt.scales s.w.opt.steps = none) (hS : 0 < s.sc.scale) {p : α} (hp : s.w.opt.scales ((s.w.opt.steps : ℤ) - 1) = some p) (hps : ∀ m ∈ s.w.opt.layers, ∀ p, World.Owns m p → p ∈ params s.w.opt) {c : α} (hc : 0 < c) (inf' : Bool)
    {m : Layer} (hm : m ∈ s.w.opt.layers) {h : Hyper α} (hh : s.w.opt.hyperOf m = .ok h) (hu : OnStep s.w m) (hn : h.normalize = false) :
    ∃ (R U : State α), aexec (.step false) s = (.ok (), R) ∧ arun [.user (.setScale c), .unscale false, .step inf'] s = U ∧
      arunOk [.user (.setScale c), .unscale false, .step inf'] s ∧
      denO (U.w.opt.Cs m.name) m.nC = denO (R.w.opt.Cs m.name) m.nC - (h.lrCov.at s.w.opt.steps / 2 * (p / c ^ 2 - p / s.sc.scale ^ 2) *
        (if h.kfacLike then 1 else avgTr (denO (s.w.opt.HKs m.name) m.nK))) • (denO (s.w.opt.Cs m.name) m.nC * denO (s.w.opt.HCs m.name) m.nC) ∧
      (U.w.opt.Ks m.name = R.w.opt.Ks m.name → U.w.opt.Cs m.name = R.w.opt.Cs m.name →
        (U.w.data m.weight.ptr).M m.dout m.din = (R.w.data m.weight.ptr).M m.dout m.din + (h.lr * (1 - 1 / c)) •
          weightPart (natDir (cl m.name) s.sc.scale (gradM s.w m) (denO (R.w.opt.Ks m.name) m.nK) (denO (R.w.opt.Cs m.name) m.nC))) := by
  obtain ⟨R, U, v, a1, a2, a3, sR, sU, ev, ew⟩ := explicit_specs hst hw hr h0 hS hp hps hc inf'
  rw [ew] at ev
  obtain ⟨h', hh', hT, hd⟩ := hu
  rw [hh] at hh'; cases hh'
  have hm' : m ∈ v.opt.layers := by rw [ev]; exact hm
  have LA := sR.layer m hm h hh
  have LB := sU.layer m hm' h (by rw [ev]; exact hh)
  refine ⟨R, U, a1, a2, a3, ?_, fun eK eC => ?_⟩
  · obtain ⟨mK, mC, bK, bC, _, _, x3, _, x5, _, x7⟩ := (LA.upd (Nat.mod_eq_zero_of_dvd hd)).eqs
    obtain ⟨mK', mC', bK', bC', _, _, y3, _, y5, _, y7⟩ := (LB.upd (by rw [ev]; exact Nat.mod_eq_zero_of_dvd hd)).eqs
    have f1 : v.opt.Cs = s.w.opt.Cs := by rw [ev]; rfl
    have f2 : v.opt.Ks = s.w.opt.Ks := by rw [ev]; rfl
    have f3 : v.opt.HCs = s.w.opt.HCs := by rw [ev]; rfl
    have f4 : v.opt.HKs = s.w.opt.HKs := by rw [ev]; rfl
    have f5 : v.opt.steps = s.w.opt.steps := by rw [ev]; rfl
    have f6 : v.opt.mCs = s.w.opt.mCs := by rw [ev]; rfl
    rw [IsRate, if_neg (by simp [hn])] at x5 y5
    rw [x7, y7, x3, y3, x5, y5, f1, f2, f3, f4, f5, f6]
    simp only [dirC, updDir, dirScale, hn, mul_one, Bool.false_eq_true, if_false]
    generalize denO (s.w.opt.Cs m.name) m.nC = C
    generalize denO (s.w.opt.HCs m.name) m.nC = H
    generalize denO (s.w.opt.HKs m.name) m.nK = HK
    generalize h.lrCov.at s.w.opt.steps = β
    simp only [mul_sub, mul_add, Matrix.mul_smul, smul_sub, smul_add, smul_smul, mul_one]
    cases h.kfacLike
    · simp only [Bool.false_eq_true, if_false]; module
    · simp only [if_true]; module
  · have dA := LA.apply.weight.data
    have dB := LB.apply.weight.data
    have g1 : v.data = s.w.data := by rw [ev]; rfl
    have g2 : v.opt.mom = s.w.opt.mom := by rw [ev]; rfl
    have g3 : gradM v m = (1 / s.sc.scale) • gradM s.w m := by
      rw [ev, gradM_unscaled (by exact hps m hm)]; rfl
    have eN : natDir (cl m.name) c (gradM v m) (denO (U.w.opt.Ks m.name) m.nK) (denO (U.w.opt.Cs m.name) m.nC) =
        (1 / c) • natDir (cl m.name) s.sc.scale (gradM s.w m) (denO (R.w.opt.Ks m.name) m.nK) (denO (R.w.opt.Cs m.name) m.nC) := by
      rw [eK, eC, g3, natDir, natDir, Matrix.mul_smul, Matrix.smul_mul]
    rw [eN, g1, g2] at dB
    rw [dA, dB]
    generalize natDir (cl m.name) s.sc.scale (gradM s.w m) (denO (R.w.opt.Ks m.name) m.nK) (denO (R.w.opt.Cs m.name) m.nC) = N
    have : weightPart ((1 / c) • N) = (1 / c) • weightPart N := rfl
    rw [this]
    module

/-- **C92 (`unscale_` cannot be made to work).** In an update step of a layer (without normalisation) in which its statistics and its gradient matter, and with a scale other than 1, no explicit
scale makes `scaler.step` after `unscale_` give the factors and weights of `scaler.step` without it. -/
theorem C92_explicit_wrong {cl : String → Cls × Cls} {s : State α} (hst : s.sc.stage = .ready) (hw : s.w.Sound cl) (hr : ∀ m ∈ s.w.opt.layers, LayerReady s.w m)
    (h0 : s.w.opt.scales s.w.opt.steps = none) (hS : 0 < s.sc.scale) {p : α} (hp : s.w.opt.scales ((s.w.opt.steps : ℤ) - 1) = some p) (hp0 : 0 < p) (hps : ∀ m ∈ s.w.opt.layers, ∀ p, World.Owns m p → p ∈ params s.w.opt) {c : α} (hc : 0 < c) (inf' : Bool)
    {m : Layer} (hm : m ∈ s.w.opt.layers) {h : Hyper α} (hh : s.w.opt.hyperOf m = .ok h) (hu : OnStep s.w m) (hn : h.normalize = false)
    (hs1 : s.sc.scale ≠ 1) (hlr : h.lr ≠ 0) (hβ : h.lrCov.at s.w.opt.steps ≠ 0) (hk : h.kfacLike = true ∨ avgTr (denO (s.w.opt.HKs m.name) m.nK) ≠ 0)
    (hC : denO (s.w.opt.Cs m.name) m.nC * denO (s.w.opt.HCs m.name) m.nC ≠ 0) {R U : State α} (hR : aexec (.step false) s = (.ok (), R))
    (hU : arun [.user (.setScale c), .unscale false, .step inf'] s = U)
    (hN : weightPart (natDir (cl m.name) s.sc.scale (gradM s.w m) (denO (R.w.opt.Ks m.name) m.nK) (denO (R.w.opt.Cs m.name) m.nC)) ≠ 0) :
    ¬(U.w.opt.Ks m.name = R.w.opt.Ks m.name ∧ U.w.opt.Cs m.name = R.w.opt.Cs m.name ∧ U.w.data m.weight.ptr = R.w.data m.weight.ptr) := by
  rintro ⟨eK, eC, eD⟩
  obtain ⟨R', U', a1, a2, _, dC, dW⟩ := C92_explicit_deviation hst hw hr h0 hS hp hps hc inf' hm hh hu hn
  rw [hR] at a1; cases a1
  rw [hU] at a2; cases a2
  rw [eC, eq_comm, sub_eq_self, smul_eq_zero] at dC
  have hcs : c = s.sc.scale := by
    rcases dC with z | z
    · rw [mul_eq_zero, mul_eq_zero] at z
      rcases z with (z | z) | z
      · exact absurd z (div_ne_zero hβ two_ne_zero)
      · have : c ^ 2 = s.sc.scale ^ 2 := by
          rw [sub_eq_zero, div_eq_div_iff (by positivity) (by positivity)] at z
          exact (mul_left_cancel₀ hp0.ne' z).symm
        exact (sq_eq_sq₀ hc.le hS.le).1 this
      · rcases hk with hk | hk
        · rw [hk] at z; simp at z
        · split at z
          · exact absurd z one_ne_zero
          · exact absurd z hk
    · exact absurd z hC
  have := dW eK eC
  rw [eD, eq_comm, add_eq_left, smul_eq_zero] at this
  rcases this with z | z
  · rw [mul_eq_zero, sub_eq_zero, hcs] at z
    rcases z with z | z
    · exact hlr z
    · rw [eq_comm, div_eq_one_iff_eq hS.ne'] at z
      exact hs1 z.symm
  · exact hN z

end

section
variable {α : Type} [Field α] [LinearOrder α] [IsStrictOrderedRing α] [LawfulSqrt α]

/-- **C92 (`unscale_` between updates).** In a step that updates no factors, setting the scale 1 explicitly makes `scaler.step` after `unscale_` do the same as `scaler.step` without it. -/
theorem C92_explicit_between {cl : String → Cls × Cls} {s : State α} (hst : s.sc.stage = .ready) (hw : s.w.Sound cl) (hr : ∀ m ∈ s.w.opt.layers, LayerReady s.w m)
    (h0 : s.w.opt.scales s.w.opt.steps = none) (hS : 0 < s.sc.scale) {p : α} (hp : s.w.opt.scales ((s.w.opt.steps : ℤ) - 1) = some p) (hps : ∀ m ∈ s.w.opt.layers, ∀ p, World.Owns m p → p ∈ params s.w.opt) (hoff : ∀ m ∈ s.w.opt.layers, ¬ OnStep s.w m) (inf' : Bool) :
    ∃ R U : State α, aexec (.step false) s = (.ok (), R) ∧ arun [.user (.setScale 1), .unscale false, .step inf'] s = U ∧
      arunOk [.user (.setScale 1), .unscale false, .step inf'] s ∧ ∀ m ∈ s.w.opt.layers, LayEq m R.w U.w := by
  obtain ⟨R, U, v, a1, a2, a3, sR, sU, ev, ew⟩ := explicit_specs hst hw hr h0 hS hp hps one_pos inf'
  refine ⟨R, U, a1, a2, a3, fun m hm => ?_⟩
  obtain ⟨h, hh, hT⟩ := hw.hyper m hm
  rw [ew] at ev
  have hm' : m ∈ v.opt.layers := by rw [ev]; exact hm
  have LA := sR.layer m hm h hh
  have LB := sU.layer m hm' h (by rw [ev]; exact hh)
  refine LA.two (a := 1) (c := 1) LB ?_ (by rw [ev]; rfl) (fun hu => ?_) ?_
  · rw [ev]; exact ⟨rfl, rfl, rfl, rfl, fun _ _ => rfl, fun _ _ => rfl⟩
  · exact absurd ⟨h, hh, hT, Nat.dvd_of_mod_eq_zero hu⟩ (hoff m hm)
  · rw [ev, gradM_unscaled (by exact hps m hm), one_div_one, one_smul]
    rfl

end

/-! Examples. -/

section
variable {α : Type} [Field α] [LinearOrder α] [HasSqrt α]

/-- **C92 (no scaler).** A scaler that is not used has no effect: histories in which `step` is called directly are those without a scaler (scale 1 unless set explicitly,
no infs), and neither the scaler nor the attributes change. -/
theorem C92_plain (ops : List (Op α)) (hops : ∀ c a f, Op.step c a f ∈ ops → a = none ∧ f = false) (w : World α) (sc : Scaler α) :
    arun (ops.map .user) ⟨w, sc, .absent, false⟩ = ⟨run ops w, sc, .absent, false⟩ := by
  induction ops generalizing w with
  | nil => rfl
  | cons op ops ih =>
    have e : (aexec (.user op) ⟨w, sc, .absent, false⟩).2 = ⟨(exec op w).2, sc, .absent, false⟩ := by
      cases op with
      | step c a f =>
        obtain ⟨rfl, rfl⟩ := hops c a f (by simp)
        rfl
      | _ => rfl
    show arun (ops.map .user) (aexec (.user op) ⟨w, sc, .absent, false⟩).2 = _
    rw [e, ih fun c a f h => hops c a f (by simp [h]), run_cons]

/-- a history of this kind -/
example : ∀ c a f, Op.step (α := α) c a f ∈ ([.setGrad 0 none, .step false none false, .forward 0 ⟨[1], fun _ => 1⟩ true] : List (Op α)) → a = none ∧ f = false := by
  intro c a f h
  simp only [List.mem_cons, Op.step.injEq, List.not_mem_nil, or_false, reduceCtorEq, false_or] at h
  exact h.2

end

namespace Ex

/-- a scaler with growth factor 2, backoff factor 1/2, interval 2 -/
def sc (α : Type) [Field α] (s : α) : Scaler α := ⟨s, 2, 1 / 2, 2, 0, .ready, none⟩

/-- a linear layer `1 → 1` without bias -/
def L : Layer := ⟨"x", true, .linear, ⟨0, true⟩, none, 1, 1, []⟩

/-- `1 × 1` matrix -/
def m1 {α : Type} [Field α] (x : α) : Mat α := .ofFn 1 1 fun _ _ => x

def hyp {α : Type} [Field α] : Hyper α := ⟨1, 0, 1, 0, 0, 2, none, .const 1, ("dense", "dense"), "expand", true, false⟩

/-- an optimizer for the layer before step `t`, with statistics; the last scale was 1 -/
def world {α : Type} [Field α] (t : ℕ) : World α where
  opt := { structs := supportedStructures, layers := [L], ptrGroup := fun p => if p = 0 then some 0 else none, groups := [⟨[0], hyp⟩], steps := t
           scales := fun k => if k = (t : ℤ) - 1 then some 1 else none, Ks := fun _ => some (.dense (m1 1)), Cs := fun _ => some (.dense (m1 1)), mKs := fun _ => none
           mCs := fun _ => none, HKs := fun _ => some (.dense (m1 1)), HCs := fun _ => some (.dense (m1 1)), mom := fun _ => none }
  data := fun _ => m1 1
  grad := fun _ => some (m1 1)
  hooks := []

def cl : String → Cls × Cls := fun _ => (.dense, .dense)

theorem mem {α : Type} [Field α] {t : ℕ} {m : Layer} (h : m ∈ (world (α := α) t).opt.layers) : m = L := by simpa [world] using h

theorem sound {α : Type} [Field α] [LinearOrder α] [IsStrictOrderedRing α] [HasSqrt α] (t : ℕ) : (world (α := α) t).Sound cl := by
  have d : ∀ x : α, WF .dense 1 (.dense (m1 x)) := fun x => .dense rfl rfl
  refine ⟨List.pairwise_singleton _ _, fun m h => ?_, fun m h => ?_, fun m h => ?_, fun m h => ?_⟩ <;> cases mem h
  · exact ⟨rfl, by decide, by decide, trivial, trivial, trivial, trivial⟩
  · exact ⟨⟨_, rfl, d _⟩, ⟨_, rfl, d _⟩, fun _ h => (by cases h), fun _ h => (by cases h), fun _ h => (by cases h; exact d _), fun _ h => (by cases h; exact d _)⟩
  · exact ⟨⟨⟨rfl, rfl⟩, fun _ h => (by cases h)⟩, fun _ h => (by cases h)⟩
  · exact ⟨hyp, rfl, show (2 : ℕ) ≠ 0 by decide⟩

theorem ready {α : Type} [Field α] [LinearOrder α] [IsStrictOrderedRing α] [HasSqrt α] (t : ℕ) : ∀ m ∈ (world (α := α) t).opt.layers, LayerReady (world (α := α) t) m := by
  intro m h
  cases mem h
  refine ⟨⟨⟨_, rfl, rfl, rfl⟩, fun _ h => (by cases h)⟩, fun h e _ => ⟨by simp [world], by simp [world], fun ha => ?_⟩⟩
  cases e
  exact absurd rfl ha

theorem owned {α : Type} [Field α] [LinearOrder α] [HasSqrt α] (t : ℕ) : ∀ m ∈ (world (α := α) t).opt.layers, ∀ p, World.Owns m p → p ∈ params (world (α := α) t).opt := by
  intro m h p hp
  cases mem h
  rcases hp with rfl | ⟨b, hb, _⟩
  · simp [params, world, L]
  · cases hb

def st (α : Type) [Field α] (t : ℕ) : State α := ⟨world t, sc α 4, .absent, false⟩

-- the scale 4 is not set explicitly: `unscale_`, `step` raises
example : ∃ u v, aexec (.unscale false) (st ℚ 2) = (.ok (), u) ∧ u.w = unscaledGrads 4 (world 2) ∧ aexec (.step true) u = (.error .attributeError, v) ∧ v.w = u.w := by
  obtain ⟨u, v, h1, h2, h3, h4, _⟩ := C92_unscale_raises (s := st ℚ 2) rfl (by decide +kernel) false true
  exact ⟨u, v, h1, h2, h3, h4⟩
-- with an explicit scale 3 it does not
example : ∃ u, aexec (.unscale false) { st ℚ 2 with w := (exec (.setScale 3) (world 2)).2 } = (.ok (), u) ∧ (aexec (.step true) u).2.w.opt.steps = 3 := by
  obtain ⟨u, h1, h2, h3, h4⟩ := C92_explicit (s := { st ℚ 2 with w := (exec (.setScale 3) (world 2)).2 }) rfl (c := 3) (by decide +kernel) false true
  exact ⟨u, h1, by rw [h3]; decide +kernel⟩
-- the factor `C` after the step; with `unscale_` and scale 1 it goes elsewhere
example : Sample.fac ((aexec (.step false) (st ℚ 2)).2.w.opt.Cs "x") = some [[31 / 32]] ∧
    Sample.fac ((arun [.user (.setScale 1), .unscale false, .step false] (st ℚ 2)).w.opt.Cs "x") = some [[1 / 2]] := by decide +kernel
example (c : ℚ) (hc : 0 < c) : ¬((arun [.user (.setScale c), .unscale false, .step false] (st ℚ 2)).w.opt.Ks "x" = (aexec (.step false) (st ℚ 2)).2.w.opt.Ks "x" ∧
    (arun [.user (.setScale c), .unscale false, .step false] (st ℚ 2)).w.opt.Cs "x" = (aexec (.step false) (st ℚ 2)).2.w.opt.Cs "x" ∧
    (arun [.user (.setScale c), .unscale false, .step false] (st ℚ 2)).w.data 0 = (aexec (.step false) (st ℚ 2)).2.w.data 0) := by
  have ok : (aexec (.step false) (st ℚ 2)).1 = .ok () := by
    have : Sample.isOk (aexec (.step false) (st ℚ 2)).1 = true := by decide +kernel
    rcases h : (aexec (.step false) (st ℚ 2)).1 with e | ⟨⟩
    · rw [h] at this; cases this
    · rfl
  refine C92_explicit_wrong (s := st ℚ 2) (cl := cl) rfl (sound 2) (ready 2) (by decide +kernel) (by decide +kernel) (p := 1) (by decide +kernel) one_pos (owned 2) hc false
    (m := L) (by simp [st, world]) (h := hyp) rfl ⟨hyp, rfl, by decide, by decide⟩ rfl (by decide +kernel) (by decide +kernel) (by decide +kernel) (Or.inl rfl) ?_
    (R := (aexec (.step false) (st ℚ 2)).2) (Prod.ext ok rfl) rfl ?_
  · exact fun h => absurd (congrFun (congrFun h ⟨0, by decide⟩) ⟨0, by decide⟩) (by decide +kernel)
  · exact fun h => absurd (congrFun (congrFun h ⟨0, by decide⟩) ⟨0, by decide⟩) (by decide +kernel)
-- between updates (`T = 2`, step 3)
noncomputable example : ∃ R U : State ℝ, aexec (.step false) (st ℝ 3) = (.ok (), R) ∧ arun [.user (.setScale 1), .unscale false, .step false] (st ℝ 3) = U ∧ LayEq L R.w U.w := by
  obtain ⟨R, U, h1, h2, _, h3⟩ := C92_explicit_between (s := st ℝ 3) (cl := cl) rfl (sound 3) (ready 3) (if_neg (t := some (1 : ℝ)) (c := ((3 : ℕ) : ℤ) = ((3 : ℕ) : ℤ) - 1) (by decide)) (by norm_num [st, sc]) (p := 1) (if_pos (e := (none : Option ℝ)) (c := ((3 : ℕ) : ℤ) - 1 = ((3 : ℕ) : ℤ) - 1) rfl)
    (owned 3) (fun m hm ⟨h, e, _, d⟩ => by cases mem hm; cases e; exact absurd d (by decide)) false
  exact ⟨R, U, h1, h2, h3 L (by simp [st, world])⟩
-- infs in iterations 3 and 4
example : (((sc ℚ 8).after [false, false, true, true, false]).scale, ((sc ℚ 8).after [false, false, true, true, false]).tracker) = (4, 1) := by decide +kernel
example : ((sc ℚ 8).after (List.replicate 5 false)).scale = 8 * 2 ^ ((0 + 5) / 2) := C92_growth 5 (sc ℚ 8) (by decide)
example : ∃ r : ℚ, r ≠ 1 ∧ ((sc ℚ 8).after ([false] ++ [true])).scale = r * ((sc ℚ 8).after ([false] ++ [false])).scale := by
  obtain ⟨r, h1, _, h2, _⟩ := C92_two_scalers (sc ℚ 8) [false] (by decide +kernel) (by decide +kernel) (by decide +kernel) (by decide +kernel) (by decide +kernel)
  exact ⟨r, h1, h2⟩

theorem along_join {α : Type} [Field α] [LinearOrder α] [HasSqrt α] {P : World α → Op α → Prop} {as bs : List (Op α)} : ∀ {w : World α}, Along P w as → Along P (run as w) bs → Along P w (as ++ bs) := by
  induction as with
  | nil => intro w _ h; exact h
  | cons a as ih => intro w h1 h2; exact ⟨h1.1, ih h1.2 h2⟩

/-- an iteration of the sample model: gradients, and passes through both layers -/
noncomputable def body : List (Op ℝ) :=
  [.setGrad 0 (some (Sample.gdata 0)), .setGrad 1 (some (Sample.gdata 1)), .setGrad 2 (some (Sample.gdata 2)), .forward 0 (Sample.grow 1) true, .forward 1 (Sample.grow 2) true,
    .backward 1 (Sample.grow 1), .backward 0 (Sample.grow 1)]

-- an iteration without and one with infs
example : ∃ (o o' : Opt ℝ) (ws : List Warn) (S : State ℝ), Construct.init supportedStructures Sample.model .default Sample.gargs = .ok (o, ws) ∧
    Construct.init supportedStructures Sample.model .default { Sample.gargs with initGradScale := (16 : ℝ) } = .ok (o', ws) ∧
    arun ([⟨body, false⟩, ⟨[], true⟩].flatMap (Iter.amp [0, 1, 2])) ⟨⟨o', Sample.gdata, fun _ => none, []⟩, sc ℝ 4, .absent, false⟩ = S ∧
    S.w.data = (run ([⟨body, false⟩, ⟨[], true⟩].flatMap (Iter.plain [0, 1, 2])) ⟨o, Sample.gdata, fun _ => none, []⟩).data ∧ S.sc = (sc ℝ 4).after [false, true] := by
  obtain ⟨o, ws, hi, hl, hh, ht⟩ := Sample.glive_init (α := ℝ)
  have I := init_ok (by decide) hi
  let gr : ℕ → Option (Mat ℝ) := Function.update (Function.update (Function.update (Function.update (Function.update (Function.update (fun _ => none) 0 none) 1 none) 2 none)
    0 (some (Sample.gdata 0))) 1 (some (Sample.gdata 1))) 2 (some (Sample.gdata 2))
  obtain ⟨cl, _, lv⟩ := I.live (grad := gr) ht one_pos
  have hu : ∀ m ∈ o.layers, ∃ h, o.hyperOf m = .ok h ∧ o.steps % h.T = 0 := fun m hm => ⟨_, hh m hm, by rw [I.steps]; rfl⟩
  have hgr : ∀ m ∈ o.layers, LayerGrads ⟨o, Sample.gdata, gr, []⟩ m := by
    intro m hm
    rw [hl] at hm
    simp only [List.mem_cons, List.not_mem_nil, or_false] at hm
    rcases hm with rfl | rfl
    · exact ⟨⟨_, rfl, rfl, rfl⟩, fun b hb => by cases hb; exact ⟨_, rfl, rfl, rfl⟩⟩
    · exact ⟨⟨_, rfl, rfl, rfl⟩, fun b hb => by cases hb⟩
  obtain ⟨a1, a2, a3, a4, p1, p2, p3, p4, p5, p6, p7, p8, fA⟩ := Sample.pass_states lv hl hu rfl (x0 := Sample.grow 1) (x1 := Sample.grow 2)
    (g0 := Sample.grow 1) (g1 := Sample.grow 1) rfl rfl rfl rfl hgr (attr := none) (by simp)
  have up : ∀ m ∈ o.layers, World.Updates o m := fun m hm => ⟨_, hh m hm, show (2 : ℕ) ≠ 0 by decide, by rw [I.steps]; rfl⟩
  have ma : Sample.la ∈ o.layers := by rw [hl]; simp
  have mb : Sample.lb ∈ o.layers := by rw [hl]; simp
  have pA : Along Plain ⟨o, Sample.gdata, gr, []⟩ (Sample.wpass (Sample.grow 1) (Sample.grow 2) (Sample.grow 1) (Sample.grow 1) none) := by
    refine ⟨trivial, ?_⟩
    rw [p1]
    refine ⟨trivial, ?_⟩
    rw [p2]
    refine ⟨?_, ?_⟩
    · intro mx hmx; rw [p6] at hmx ⊢; cases hmx; exact onStep_iff.1 (up _ mb)
    rw [p3]
    refine ⟨?_, trivial, trivial⟩
    intro mx hmx
    rw [p7.hooks, p6] at hmx; cases hmx
    refine onStep_iff.1 ((p7.conf.updates _).2 ?_)
    rw [p6]; exact up _ ma
  obtain ⟨o', S, h1, h2, _, _, h3, _, _, h4⟩ := C92_dynamic (p := .default) (by decide) hi ht one_pos (s0 := 16) (by norm_num) (sc := sc ℝ 4) ⟨by norm_num [sc], by norm_num [sc], by norm_num [sc]⟩ rfl (ps := [0, 1, 2])
    (by
      intro m hm q hq
      rw [hl] at hm
      simp only [List.mem_cons, List.not_mem_nil, or_false] at hm
      rcases hm with rfl | rfl <;> rcases hq with rfl | ⟨b, hb, rfl⟩ <;> first | (cases hb; decide) | decide | cases hb)
    (its := [⟨body, false⟩, ⟨[], true⟩]) (by
      intro it hit op hop c b f e
      subst e
      simp [body] at hit
      rcases hit with rfl | rfl <;> simp at hop)
    (grad := fun _ => none) (grad' := fun _ => none)
    ⟨trivial, trivial, trivial, trivial, trivial, trivial, along_join (as := Sample.wpass (Sample.grow 1) (Sample.grow 2) (Sample.grow 1) (Sample.grow 1) none) fA
      ⟨trivial, trivial, trivial, ⟨rfl, by simp, by simp⟩, trivial⟩⟩
    ⟨trivial, trivial, trivial, trivial, trivial, trivial, along_join (as := Sample.wpass (Sample.grow 1) (Sample.grow 2) (Sample.grow 1) (Sample.grow 1) none) pA
      ⟨trivial, trivial, trivial, trivial, trivial⟩⟩
  exact ⟨o, o', ws, S, hi, h1, h2, h3, h4⟩

/-- the state of the examples with `normalize_lr_cov`, `lr_cov` 1/2 and large statistics -/
def stN : State ℚ :=
  { st ℚ 2 with w := { world 2 with opt := { (world (α := ℚ) 2).opt with groups := [⟨[0], { hyp with normalize := true, lrCov := .const (1 / 2) }⟩], HCs := fun _ => some (.dense (m1 1000)) } } }

/-- **C92 (with normalisation `unscale_` can work by chance).** That there is no normalisation is needed in `C92_explicit_wrong`: for a layer with `1 × 1` factors whose momenta have norms above 1 the statistics only
determine the direction, and the explicit scale 1 gives the factors and weights of `scaler.step` without `unscale_` in an update step. -/
theorem C92_explicit_normalized : OnStep stN.w L ∧ stN.sc.scale ≠ 1 ∧
    Sample.fac ((aexec (.step false) stN).2.w.opt.Cs "x") = some [[1 / 2]] ∧ Sample.fac ((arun [.user (.setScale 1), .unscale false, .step false] stN).w.opt.Cs "x") = some [[1 / 2]] ∧
    Sample.fac ((aexec (.step false) stN).2.w.opt.Ks "x") = Sample.fac ((arun [.user (.setScale 1), .unscale false, .step false] stN).w.opt.Ks "x") ∧
    ((aexec (.step false) stN).2.w.data 0).get 0 0 = ((arun [.user (.setScale 1), .unscale false, .step false] stN).w.data 0).get 0 0 ∧
    ((aexec (.step false) stN).2.w.data 0).get 0 0 ≠ (stN.w.data 0).get 0 0 := by
  refine ⟨⟨_, rfl, by decide, by decide⟩, by decide +kernel, by decide +kernel, by decide +kernel, by decide +kernel, by decide +kernel, by decide +kernel⟩

end Ex
end Amp
