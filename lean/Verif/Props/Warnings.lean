import Verif.Model.Warnings
import Verif.Proofs.Opt.Live
import Verif.Props.LiveSample

/-! C66: which operations issue warnings about naive implementations. -/

set_option linter.unusedSectionVars false
set_option linter.unusedSimpArgs false

/-! ### Methods and exceptions -/

/-- **C66 (exceptions).** The methods listed in `WARN_NAIVE_EXCEPTIONS` do not warn, whatever the class overrides, except `from_inner`,
`average_trace` and `zeros`. Missing for the documented claim (all methods): these three, for which it is false (`C66_exceptions_false`). -/
theorem C66_exceptions_partial (c : WarnCfg) (m : Meth) (h : m.pyName ∈ c.exceptions) (h1 : m.pyName ≠ "from_inner")
    (h2 : m.pyName ≠ "average_trace") (h3 : m.pyName ≠ "zeros") : c.call m = [] := by
  have key : m.warnName = m.pyName := by cases m <;> first | rfl | exact absurd rfl h2 | exact absurd rfl h3
  have hw : c.warn m = [] := if_neg fun hc => hc.2 (key ▸ h)
  unfold WarnCfg.call
  split
  · rfl
  · cases m <;> first | exact absurd rfl h1 | exact hw

example : (⟨true, ["rmatmat"], fun _ => false⟩ : WarnCfg).call .rmatmat = [] ∧
    (⟨true, ["eye"], fun _ => false⟩ : WarnCfg).call .rmatmat = ["rmatmat"] := by decide

/-- **C66 (exceptions, all methods).** A listed method warns exactly if the class asks for warnings, does not override the method, and: the
method is `average_trace` or `zeros` and the name `"trace"` or `"zero"` is not listed as well; or it is `from_inner` and one of the methods
it calls is neither overridden nor listed. -/
theorem C66_exceptions_exact (c : WarnCfg) (m : Meth) (h : m.pyName ∈ c.exceptions) :
    c.call m ≠ [] ↔ c.naive = true ∧ c.overrides m = false ∧
      ((m = .averageTrace ∧ "trace" ∉ c.exceptions) ∨ (m = .zeros ∧ "zero" ∉ c.exceptions) ∨
        (m = .fromInner true ∧ c.overrides .rmatmat = false ∧ "rmatmat" ∉ c.exceptions) ∨
        ((m = .fromInner true ∨ m = .fromInner false) ∧ c.overrides .fromMatInner = false ∧ "from_mat_inner" ∉ c.exceptions)) := by
  obtain ⟨n, e, o⟩ := c
  rcases m with _ | _ | _ | _ | x | _ | _ | _ | _ | _ | _ | _
  case fromInner =>
    simp only [Meth.pyName] at h
    cases x <;> cases n <;> simp [WarnCfg.call, WarnCfg.warn, WarnCfg.leaf, Meth.warnName, Meth.pyName, h] <;> tauto
  all_goals
    simp only [Meth.pyName] at h
    cases n <;> simp [WarnCfg.call, WarnCfg.warn, WarnCfg.leaf, Meth.warnName, Meth.pyName, h]

/-- **C66 (exceptions, negation).** Listing a method does not silence it: `from_inner` of the library's own Toeplitz classes, and
`average_trace` and `zeros` of a class that lists them. -/
theorem C66_exceptions_false :
    ("from_inner" ∈ Cls.tril.warnCfg.exceptions ∧ Cls.tril.warnCfg.call (.fromInner true) = ["from_mat_inner"]) ∧
    ("from_inner" ∈ Cls.triu.warnCfg.exceptions ∧ Cls.triu.warnCfg.call (.fromInner false) = ["from_mat_inner"]) ∧
    (⟨true, ["average_trace"], fun _ => false⟩ : WarnCfg).call .averageTrace = ["trace"] ∧
    (⟨true, ["zeros"], fun _ => false⟩ : WarnCfg).call .zeros = ["zero"] := by decide

/-! ### Training -/

/-- the classes with structure-aware versions of everything the optimizer calls -/
def Cls.Silent (c : Cls) : Prop := c = .dense ∨ c = .diagonal ∨ (∃ D, c = .block D) ∨ ∃ a b, c = .hier a b

/-- the classes without structure-aware products -/
def Cls.Nested (c : Cls) : Prop := (∃ a b cA cC, c = .topRight a b cA cC) ∨ ∃ a b cA cC, c = .bottomLeft a b cA cC

theorem Cls.silent_or (c : Cls) : c.Silent ∨ (c = .tril ∨ c = .triu) ∨ c.Nested := by
  cases c <;> simp [Cls.Silent, Cls.Nested]

theorem Cls.Silent.call {c : Cls} (h : c.Silent) {m : Meth} (h1 : m ≠ .fromMatInner) (h2 : m ≠ .fromInner2) : c.call m = [] := by
  rcases h with rfl | rfl | ⟨D, rfl⟩ | ⟨a, b, rfl⟩ <;> cases m <;>
    first | rfl | exact absurd rfl h1 | exact absurd rfl h2 |
      simp [Cls.call, Cls.warnCfg, WarnCfg.call, WarnCfg.warn, WarnCfg.leaf, Cls.overrides]

theorem toeplitz_call {c : Cls} (h : c = .tril ∨ c = .triu) :
    (∀ x, c.call (.fromInner x) = [(c, "from_mat_inner")]) ∧ c.call .zeros = [] ∧ c.call .eye = [] ∧ c.call .averageTrace = [] ∧
    c.call .diagAdd = [] ∧ c.call .matmul = [] ∧ c.call .rmatmat = [] := by
  rcases h with rfl | rfl <;> decide

theorem Cls.Nested.call {c : Cls} (h : c.Nested) :
    c.call (.fromInner true) = [(c, "from_inner"), (c, "rmatmat"), (c, "from_mat_inner")] ∧
    c.call (.fromInner false) = [(c, "from_inner"), (c, "from_mat_inner")] ∧ c.call .zeros = [(c, "zero")] ∧ c.call .eye = [(c, "eye")] ∧
    c.call .averageTrace = [(c, "trace")] ∧ c.call .diagAdd = [(c, "diag_add_")] ∧ c.call .matmul = [(c, "__matmul__")] ∧
    c.call .rmatmat = [(c, "rmatmat")] := by
  rcases h with ⟨a, b, cA, cC, rfl⟩ | ⟨a, b, cA, cC, rfl⟩ <;>
    simp [Cls.call, Cls.warnCfg, WarnCfg.call, WarnCfg.warn, WarnCfg.leaf, Cls.overrides, Meth.warnName, Meth.pyName]

theorem Cls.Silent.not {c : Cls} (h : c.Silent) : ¬ (c = .tril ∨ c = .triu) ∧ ¬ c.Nested := by
  rcases h with rfl | rfl | ⟨D, rfl⟩ | ⟨a, b, rfl⟩ <;> simp [Cls.Nested]

theorem fromInner_nil {c : Cls} {x : Bool} : c.call (.fromInner x) = [] ↔ c.Silent := by
  refine ⟨fun h => ?_, fun h => h.call (by simp) (by simp)⟩
  rcases c.silent_or with h' | h' | h'
  · exact h'
  · rw [(toeplitz_call h').1] at h; simp at h
  · cases x
    · rw [h'.call.2.1] at h; simp at h
    · rw [h'.call.1] at h; simp at h

theorem hookWarns_nil {a b : Cls} : hookWarns a b = [] ↔ a.Silent ∧ b.Silent := by
  simp [hookWarns, fromInner_nil]

theorem updateWarns_nil {k : Bool} {a b : Cls} : updateWarns k a b = [] ↔ a.Silent ∧ b.Silent := by
  constructor
  · intro h
    simp only [updateWarns, List.append_eq_nil_iff, fromInner_nil] at h
    exact ⟨h.1.1.1.1.1, h.1.1.1.1.2⟩
  · rintro ⟨ha, hb⟩
    simp [updateWarns, traceWarns, ha.call, hb.call]

theorem natWarns_nil {a b : Cls} : natWarns a b = [] ↔ ¬ a.Nested ∧ ¬ b.Nested := by
  have key : ∀ c : Cls, (c.call .rmatmat = [] ↔ ¬ c.Nested) ∧ (c.call .matmul = [] ↔ ¬ c.Nested) := by
    intro c
    rcases c.silent_or with h | h | h
    · simp [h.call, h.not.2]
    · have t := toeplitz_call h
      have : ¬ c.Nested := by rcases h with rfl | rfl <;> simp [Cls.Nested]
      simp [t, this]
    · simp [h.call, h]
  simp [natWarns, key]

section
variable {α : Type} [Field α] [LinearOrder α]

theorem World.Sound.classes {cl : String → Cls × Cls} {w : World α} (h : w.Sound cl) {m : Layer} (hm : m ∈ w.opt.layers) :
    w.opt.classes m = some (cl m.name) := by
  obtain ⟨K, hK, wK⟩ := (h.lay m hm).K
  obtain ⟨C, hC, wC⟩ := (h.lay m hm).C
  simp [Opt.classes, hK, hC, wK.cls_eq, wC.cls_eq]

/-- **C66 (operations).** In every state of a training, an operation issues no naive-implementation warning exactly if: for a backward pass
(of a layer that registered a hook), both factors of the layer are dense, diagonal, block diagonal or hierarchical; for a step that is not
skipped, no factor is of a recursive class, and the factors of layers that are updated are dense, diagonal, block diagonal or hierarchical.
Other operations never warn. -/
theorem C66_operation {cl : String → Cls × Cls} {w : World α} (hw : w.Live cl) (op : Op α) :
    opWarns w op = [] ↔
      (∀ k g mx, op = .backward k g → w.hooks[k]? = some mx → (cl mx.1.name).1.Silent ∧ (cl mx.1.name).2.Silent) ∧
      (∀ attr, op = .step false attr false → ∀ m ∈ w.opt.layers, ¬ (cl m.name).1.Nested ∧ ¬ (cl m.name).2.Nested ∧
        ∀ h, w.opt.hyperOf m = .ok h → h.T ∣ w.opt.steps → (cl m.name).1.Silent ∧ (cl m.name).2.Silent) := by
  cases op with
  | backward k g =>
    cases hk : w.hooks[k]? with
    | none =>
      refine iff_of_true (by simp [opWarns, hk]) ⟨fun k' g' mx e hk' => ?_, by simp⟩
      cases e; rw [hk] at hk'; cases hk'
    | some mx =>
      have := hw.sound.classes (hw.hooks mx (List.mem_of_getElem? hk)).1
      simp only [opWarns, hk, this, hookWarns_nil]
      refine ⟨fun h => ⟨fun k' g' mx' e hk' => ?_, by simp⟩, fun h => h.1 k g mx rfl hk⟩
      cases e; rw [hk] at hk'; cases hk'; exact h
  | step c attr f =>
    cases c
    · cases f
      · simp only [opWarns, List.flatMap_eq_nil_iff]
        constructor
        · intro h
          refine ⟨by simp, fun _ _ m hm => ?_⟩
          obtain ⟨hy, eh, -⟩ := hw.sound.hyper m hm
          have hm' := h m hm
          simp only [layerWarns, hw.sound.classes hm, eh, List.append_eq_nil_iff, natWarns_nil] at hm'
          refine ⟨hm'.2.1, hm'.2.2, fun h' e' hd => ?_⟩
          rw [eh] at e'; cases e'
          have := hm'.1
          rw [if_pos (Nat.mod_eq_zero_of_dvd hd), updateWarns_nil] at this
          exact this
        · rintro ⟨-, h⟩ m hm
          obtain ⟨hy, eh, -⟩ := hw.sound.hyper m hm
          obtain ⟨a, b, c⟩ := h attr rfl m hm
          simp only [layerWarns, hw.sound.classes hm, eh, List.append_eq_nil_iff, natWarns_nil]
          refine ⟨?_, a, b⟩
          split
          · next hd => exact updateWarns_nil.2 (c hy eh (Nat.dvd_of_mod_eq_zero hd))
          · rfl
      · simp [opWarns]
    · cases f <;> simp [opWarns]
  | _ => simp [opWarns]

variable [IsStrictOrderedRing α] [LawfulSqrt α]

/-- **C66 (silent training).** With dense, diagonal, block diagonal and hierarchical factors, no training without misuse ever warns. -/
theorem C66_silent {cl : String → Cls × Cls} {w : World α} (hw : w.Live cl) {ops : List (Op α)} (ho : FitsRun w ops)
    (hc : ∀ m ∈ w.opt.layers, (cl m.name).1.Silent ∧ (cl m.name).2.Silent) : runWarns w ops = [] := by
  induction ops generalizing w with
  | nil => rfl
  | cons op ops ih =>
    have st := exec_static op w
    obtain ⟨w', e, hl⟩ := hw.exec ho.1
    have e2 : (exec op w).2 = w' := congrArg Prod.snd e
    rw [runWarns, ih (by rw [e2]; exact hl) ho.2 (by rw [st.1]; exact hc), List.append_nil]
    refine (C66_operation hw op).2 ⟨fun k g mx e hk => ?_, fun attr e m hm => ?_⟩
    · exact hc _ (hw.hooks mx (List.mem_of_getElem? hk)).1
    · exact ⟨(hc m hm).1.not.2, (hc m hm).2.not.2, fun _ _ _ => hc m hm⟩

/-- **C66 (silent training, from construction on).** If the groups of a constructed optimizer name only structures whose registered classes
are dense, diagonal, block diagonal or hierarchical, neither the construction of the factors nor any training without misuse warns. -/
theorem C66_constructed {structs : String → Option Cls} {model : Model} {p : ParamArg α} {a : Args α} {o : Opt α} {ws : List Warn}
    (hn : (model.layers.map (·.name)).Nodup) (hi : Construct.init structs model p a = .ok (o, ws)) {data : ℕ → Mat α}
    {grad : ℕ → Option (Mat α)} (ht : Trainable o data) (hs : 0 < a.initGradScale)
    (hc : ∀ m ∈ o.layers, ∀ h cK cC, o.hyperOf m = .ok h → structs h.structures.1 = some cK → structs h.structures.2 = some cC →
      cK.Silent ∧ cC.Silent) {ops : List (Op α)} (ho : FitsRun ⟨o, data, grad, []⟩ ops) :
    (∀ m ∈ o.layers, ∀ c, o.classes m = some c → ∀ b, initWarns b c.1 c.2 = []) ∧ runWarns ⟨o, data, grad, []⟩ ops = [] := by
  have I := Construct.init_ok hn hi
  obtain ⟨cl, hcl, hl⟩ := I.live (grad := grad) ht hs
  have hsil : ∀ m ∈ o.layers, (cl m.name).1.Silent ∧ (cl m.name).2.Silent := fun m hm => by
    obtain ⟨hy, e1, e2, e3⟩ := hcl m hm
    exact hc m hm hy _ _ e1 e2 e3
  refine ⟨fun m hm c hcm b => ?_, C66_silent hl ho hsil⟩
  have := hl.sound.classes hm
  rw [show (⟨o, data, grad, []⟩ : World α).opt = o from rfl, hcm] at this
  cases this
  cases b <;> simp [initWarns, (hsil m hm).1.call, (hsil m hm).2.call]

example : ∃ (o : Opt ℝ) (ws : List Warn), Construct.init supportedStructures Sample.model .default Sample.gargs = .ok (o, ws) ∧
    o.layers = [Sample.la, Sample.lb] ∧ FitsRun ⟨o, Sample.gdata, Sample.ggrad, []⟩ Sample.gpass ∧
    runWarns ⟨o, Sample.gdata, Sample.ggrad, []⟩ Sample.gpass = [] := by
  obtain ⟨o, ws, cl, h1, h2, h3, h4, h5, h6, h7, h8⟩ := Sample.glive (α := ℝ)
  refine ⟨o, ws, h1, h2, h6, (C66_constructed (model := Sample.model) (by decide) h1 h3 one_pos ?_ h6).2⟩
  intro m hm h cK cC e1 e2 e3
  rw [h4 m hm] at e1; cases e1
  cases (show some Cls.dense = some cK from e2)
  cases (show some Cls.diagonal = some cC from e3)
  exact ⟨Or.inl rfl, Or.inr (Or.inl rfl)⟩

/-- **C66 (Toeplitz).** Toeplitz factors only ever issue the warning `from_mat_inner`, which the classes do not list as an exception: twice
per backward pass of a layer and twice per update of a layer. -/
theorem C66_toeplitz {cl : String → Cls × Cls} {w : World α} (hw : w.Live cl)
    (hc : ∀ m ∈ w.opt.layers, ((cl m.name).1 = .tril ∨ (cl m.name).1 = .triu) ∧ ((cl m.name).2 = .tril ∨ (cl m.name).2 = .triu)) (op : Op α) :
    opWarns w op = match op with
      | .backward k _ => (w.hooks[k]?.toList).flatMap fun mx => [((cl mx.1.name).1, "from_mat_inner"), ((cl mx.1.name).2, "from_mat_inner")]
      | .step false _ false => w.opt.layers.flatMap fun m => match w.opt.hyperOf m with
        | .ok h => if h.T ∣ w.opt.steps then [((cl m.name).1, "from_mat_inner"), ((cl m.name).2, "from_mat_inner")] else []
        | .error _ => []
      | _ => [] := by
  cases op with
  | backward k g =>
    cases hk : w.hooks[k]? with
    | none => simp [opWarns, hk]
    | some mx =>
      have hm := (hw.hooks mx (List.mem_of_getElem? hk)).1
      have t1 := toeplitz_call (hc _ hm).1
      have t2 := toeplitz_call (hc _ hm).2
      simp [opWarns, hk, hw.sound.classes hm, hookWarns, t1, t2]
  | step c attr f =>
    cases c
    · cases f
      · simp only [opWarns]
        refine List.flatMap_congr fun m hm => ?_
        obtain ⟨hy, eh, -⟩ := hw.sound.hyper m hm
        have t1 := toeplitz_call (hc _ hm).1
        have t2 := toeplitz_call (hc _ hm).2
        simp only [layerWarns, hw.sound.classes hm, eh, Nat.dvd_iff_mod_eq_zero]
        split <;> simp [updateWarns, natWarns, traceWarns, t1, t2]
      · simp [opWarns]
    · cases f <;> simp [opWarns]
  | _ => simp [opWarns]

-- the sample model with Toeplitz factors: the first step issues four warnings
example : ∃ (w : World ℝ) (cl : String → Cls × Cls), w.Live cl ∧ w.opt.layers = [Sample.la, Sample.lb] ∧
    opWarns w (.step false none false) = [(.tril, "from_mat_inner"), (.triu, "from_mat_inner"), (.tril, "from_mat_inner"), (.triu, "from_mat_inner")] := by
  have h2 : ¬ ((2⁻¹ : ℝ) < 0) := by simp
  let a : Args ℝ := { Sample.gargs with structures := ("triltoeplitz", "triutoeplitz") }
  obtain ⟨o, ws, h, hl, hh, ht⟩ := Sample.glive_any (a := a) (cK := .tril) (cC := .triu)
    (by simp [a, Construct.validate, Sample.gargs, PyNum.rejected, PyRate.rejected, h2]) rfl rfl rfl ⟨Or.inl rfl, Or.inr (Or.inl rfl)⟩
    (by simp [a, Construct.checked, Construct.defaults, Sample.gargs]) (show (2 : ℕ) ≠ 0 by decide)
  have I := Construct.init_ok (model := Sample.model) (by decide) h
  obtain ⟨cl, hcl, hlive⟩ := I.live (grad := Sample.ggrad) ht one_pos
  have hc : ∀ m ∈ o.layers, (cl m.name).1 = .tril ∧ (cl m.name).2 = .triu := fun m hm => by
    obtain ⟨hy, e1, e2, e3⟩ := hcl m hm
    rw [hh m hm] at e1; cases e1
    exact ⟨(Option.some.inj (show some Cls.tril = some _ from e2)).symm, (Option.some.inj (show some Cls.triu = some _ from e3)).symm⟩
  refine ⟨_, cl, hlive, hl, ?_⟩
  rw [C66_toeplitz hlive (fun m hm => ⟨Or.inl (hc m hm).1, Or.inr (hc m hm).2⟩)]
  have ca := hc Sample.la (by rw [hl]; simp)
  have cb := hc Sample.lb (by rw [hl]; simp)
  simp only [hl, List.flatMap_cons, List.flatMap_nil]
  rw [hh Sample.la (by rw [hl]; simp), hh Sample.lb (by rw [hl]; simp)]
  simp [I.steps, ca, cb]

/-- the warnings of one class: those of `toep` for a Toeplitz class, those of `nest` for a recursive class, none otherwise -/
def Cls.says (c : Cls) (toep nest : List String) : List (Cls × String) := match c with
  | .tril | .triu => toep.map fun s => (c, s)
  | .topRight .. | .bottomLeft .. => nest.map fun s => (c, s)
  | _ => []

theorem Cls.Silent.says {c : Cls} (h : c.Silent) (t n : List String) : c.says t n = [] := by
  rcases h with rfl | rfl | ⟨D, rfl⟩ | ⟨a, b, rfl⟩ <;> rfl

theorem toeplitz_says {c : Cls} (h : c = .tril ∨ c = .triu) (t n : List String) : c.says t n = t.map fun s => (c, s) := by
  rcases h with rfl | rfl <;> rfl

theorem Cls.Nested.says {c : Cls} (h : c.Nested) (t n : List String) : c.says t n = n.map fun s => (c, s) := by
  rcases h with ⟨a, b, cA, cC, rfl⟩ | ⟨a, b, cA, cC, rfl⟩ <;> rfl

theorem Cls.call_says (c : Cls) :
    c.call (.fromInner true) = c.says ["from_mat_inner"] ["from_inner", "rmatmat", "from_mat_inner"] ∧
    c.call (.fromInner false) = c.says ["from_mat_inner"] ["from_inner", "from_mat_inner"] ∧ c.call .zeros = c.says [] ["zero"] ∧
    c.call .eye = c.says [] ["eye"] ∧ c.call .averageTrace = c.says [] ["trace"] ∧ c.call .diagAdd = c.says [] ["diag_add_"] ∧
    c.call .matmul = c.says [] ["__matmul__"] ∧ c.call .rmatmat = c.says [] ["rmatmat"] := by
  rcases c.silent_or with h | h | h
  · simp [h.says, h.call]
  · simp [toeplitz_says h, toeplitz_call h]
  · simp [h.says, h.call]

theorem Cls.says_twice (c : Cls) (s : String) : c.says [] [s] ++ c.says [] [s] = c.says [] [s, s] := by
  rcases c.silent_or with h | h | h
  · simp [h.says]
  · simp [toeplitz_says h]
  · simp [h.says]

/-- **C66 (all warnings, in order).** The warnings of an operation in every state of a training, for all classes of the factors. Backward pass
of a layer: the factor `K`, then `C`; recursive classes name `from_inner`, `rmatmat` and `from_mat_inner`, Toeplitz classes the last one.
Layer in a step: if it is updated, the two curvature terms `KᵀK` and `CᵀC`, then for each factor the new statistic (`zero`), the two traces of
the other factor unless `kfac_like`, and the damping on the diagonal, then the two products; always the natural gradient, four products. -/
theorem C66_exact {cl : String → Cls × Cls} {w : World α} (hw : w.Live cl) (op : Op α) :
    opWarns w op = match op with
      | .backward k _ => (w.hooks[k]?.toList).flatMap fun mx =>
          (cl mx.1.name).1.says ["from_mat_inner"] ["from_inner", "rmatmat", "from_mat_inner"] ++
          (cl mx.1.name).2.says ["from_mat_inner"] ["from_inner", "rmatmat", "from_mat_inner"]
      | .step false _ false => w.opt.layers.flatMap fun m => match w.opt.hyperOf m with
        | .ok h =>
          (if h.T ∣ w.opt.steps then
            (cl m.name).1.says ["from_mat_inner"] ["from_inner", "from_mat_inner"] ++
            (cl m.name).2.says ["from_mat_inner"] ["from_inner", "from_mat_inner"] ++
            (cl m.name).1.says [] ["zero"] ++ (if h.kfacLike then [] else (cl m.name).2.says [] ["trace", "trace"]) ++
            (cl m.name).1.says [] ["diag_add_"] ++
            (cl m.name).2.says [] ["zero"] ++ (if h.kfacLike then [] else (cl m.name).1.says [] ["trace", "trace"]) ++
            (cl m.name).2.says [] ["diag_add_"] ++
            (cl m.name).1.says [] ["__matmul__"] ++ (cl m.name).2.says [] ["__matmul__"]
          else []) ++
          ((cl m.name).1.says [] ["rmatmat", "__matmul__"] ++ (cl m.name).2.says [] ["rmatmat", "__matmul__"])
        | .error _ => []
      | _ => [] := by
  have two : ∀ c : Cls, c.says [] ["rmatmat"] ++ c.says [] ["__matmul__"] = c.says [] ["rmatmat", "__matmul__"] := fun c => by
    rcases c.silent_or with h | h | h
    · simp [h.says]
    · simp [toeplitz_says h]
    · simp [h.says]
  cases op with
  | backward k g =>
    cases hk : w.hooks[k]? with
    | none => simp [opWarns, hk]
    | some mx =>
      have hm := (hw.hooks mx (List.mem_of_getElem? hk)).1
      simp [opWarns, hk, hw.sound.classes hm, hookWarns, Cls.call_says]
  | step c attr f =>
    cases c
    · cases f
      · simp only [opWarns]
        refine List.flatMap_congr fun m hm => ?_
        obtain ⟨hy, eh, -⟩ := hw.sound.hyper m hm
        simp only [layerWarns, hw.sound.classes hm, eh, Nat.dvd_iff_mod_eq_zero, natWarns, updateWarns, traceWarns, ← Cls.says_twice,
          ← two, Cls.call_says]
        cases hy.kfacLike <;> simp [List.append_assoc]
      · simp [opWarns]
    · cases f <;> simp [opWarns]
  | _ => simp [opWarns]

-- a Toeplitz factor and a hierarchical one: the first step issues one warning per layer
example : ∃ (w : World ℝ) (cl : String → Cls × Cls), w.Live cl ∧ w.opt.layers = [Sample.la, Sample.lb] ∧
    opWarns w (.step false none false) = [(.tril, "from_mat_inner"), (.tril, "from_mat_inner")] := by
  have h2 : ¬ ((2⁻¹ : ℝ) < 0) := by simp
  let a : Args ℝ := { Sample.gargs with structures := ("triltoeplitz", "hierarchical15_15") }
  obtain ⟨o, ws, h, hl, hh, ht⟩ := Sample.glive_any (a := a) (cK := .tril) (cC := .hier 15 15)
    (by simp [a, Construct.validate, Sample.gargs, PyNum.rejected, PyRate.rejected, h2]) rfl rfl rfl ⟨Or.inl rfl, Or.inr (Or.inl rfl)⟩
    (by simp [a, Construct.checked, Construct.defaults, Sample.gargs]) (show (2 : ℕ) ≠ 0 by decide)
  have I := Construct.init_ok (model := Sample.model) (by decide) h
  obtain ⟨cl, hcl, hlive⟩ := I.live (grad := Sample.ggrad) ht one_pos
  have hc : ∀ m ∈ o.layers, (cl m.name).1 = .tril ∧ (cl m.name).2 = .hier 15 15 := fun m hm => by
    obtain ⟨hy, e1, e2, e3⟩ := hcl m hm
    rw [hh m hm] at e1; cases e1
    exact ⟨(Option.some.inj (show some Cls.tril = some _ from e2)).symm, (Option.some.inj (show some (Cls.hier 15 15) = some _ from e3)).symm⟩
  refine ⟨_, cl, hlive, hl, ?_⟩
  rw [C66_exact hlive]
  have ca := hc Sample.la (by rw [hl]; simp)
  have cb := hc Sample.lb (by rw [hl]; simp)
  simp only [hl, List.flatMap_cons, List.flatMap_nil]
  rw [hh Sample.la (by rw [hl]; simp), hh Sample.lb (by rw [hl]; simp)]
  simp [I.steps, ca, cb, Cls.says]

-- recursive classes
example : hookWarns (.topRight (.int 1) .inf .dense .diagonal) .tril = [(.topRight (.int 1) .inf .dense .diagonal, "from_inner"),
    (.topRight (.int 1) .inf .dense .diagonal, "rmatmat"), (.topRight (.int 1) .inf .dense .diagonal, "from_mat_inner"),
    (.tril, "from_mat_inner")] := by decide

end
