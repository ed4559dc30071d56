import Verif.Props.ProcessIO
import Verif.Props.AddGroup

/-! C72: which exception is raised, exactly. -/

set_option linter.unusedSectionVars false
open Finset PIO

namespace Errors

/-- `Fails l e`: going through the checks of the list in order, the first one that applies raises `e`. -/
def Fails : List (Prop × PyErr) → PyErr → Prop
  | [], _ => False
  | (p, e') :: l, e => (p ∧ e = e') ∨ (¬ p ∧ Fails l e)

/-- Python strings `kfac_approx` that are accepted -/
def KnownApprox (s : String) : Prop := s = "expand" ∨ s = "reduce"

/-- values of `loss_average` that are accepted -/
def KnownAverage (s : Option String) : Prop := s = none ∨ s = some "batch" ∨ s = some "batch+sequence"

/-- the padding is a string torch does not know -/
def UnknownPadding (cfg : ConvCfg) : Prop := ∃ s, cfg.padding = .str s ∧ s ≠ "valid" ∧ s ≠ "same"

/-- rows (or columns) that are added on both sides together -/
def padded (p : Padding) (side : ℕ × ℕ → ℕ) (d k : ℕ) : ℕ := match p with
  | .ints q => 2 * side q
  | .str s => if s = "same" then d * (k - 1) else 0

/-- along an axis of length `i`, the kernel does not fit into the padded image (or a size is zero) -/
def NoRoom (i k s d p : ℕ) : Prop := k = 0 ∨ s = 0 ∨ d = 0 ∨ i + p ≤ d * (k - 1)

/-- What goes wrong when a layer's input is processed, in this order. For convolutions, with `expand` the string padding is looked at
first, with `reduce` last, and `expand` does not support asymmetric padding. -/
def inputErrors (shape : List ℕ) (kind : LayerKind) (approx : String) : List (Prop × PyErr) :=
  (¬ KnownApprox approx, .assertionError) :: match kind with
    | .other => [(True, .notImplementedError)]
    | .linear => [(shape.length < 2, .runtimeError)]
    | .conv2d cfg =>
      let rank := [(shape.length ≠ 4, .runtimeError), (cfg.groups = 0, .zeroDivisionError), (¬ cfg.groups ∣ shape.getD 1 0, .runtimeError)]
      let room1 := (NoRoom (shape.getD 2 0) cfg.kernel.1 cfg.stride.1 cfg.dilation.1 (padded cfg.padding Prod.fst cfg.dilation.1 cfg.kernel.1), .runtimeError)
      let room2 := (NoRoom (shape.getD 3 0) cfg.kernel.2 cfg.stride.2 cfg.dilation.2 (padded cfg.padding Prod.snd cfg.dilation.2 cfg.kernel.2), .runtimeError)
      let str1 := (UnknownPadding cfg ∨ (cfg.padding = .str "same" ∧ cfg.stride.1 ≠ 1), .valueError)
      let str2 := (cfg.padding = .str "same" ∧ cfg.stride.2 ≠ 1, .valueError)
      let odd1 := (cfg.padding = .str "same" ∧ Odd (cfg.dilation.1 * (cfg.kernel.1 - 1)), .notImplementedError)
      let odd2 := (cfg.padding = .str "same" ∧ Odd (cfg.dilation.2 * (cfg.kernel.2 - 1)), .notImplementedError)
      if approx = "expand" then [str1, odd1, str2, odd2] ++ rank ++ [room1, room2] else rank ++ [str1, room1, str2, room2]

/-- What goes wrong when an output gradient is processed, in this order. -/
def gradErrors (shape : List ℕ) (kind : LayerKind) (avg : Option String) (approx : String) : List (Prop × PyErr) :=
  [(¬ KnownAverage avg, .assertionError), (¬ KnownApprox approx, .assertionError)] ++ match kind with
    | .other => [(True, .notImplementedError)]
    | .linear => [(avg ≠ none ∧ shape = [], .indexError), (shape.length < 2, .runtimeError)]
    | .conv2d _ => [(avg ≠ none ∧ shape = [], .indexError), (shape.length ≠ 4, .runtimeError)]

section
variable {α : Type} [Field α] [HasSqrt α]

theorem bind_error_iff {β γ : Type} {x : Except PyErr β} {f : β → Except PyErr γ} {e : PyErr} :
    (x >>= f) = .error e ↔ x = .error e ∨ ∃ b, x = .ok b ∧ f b = .error e := by
  cases x with
  | error e' => simp [Except.bind_error']
  | ok b => simp [Except.bind_ok']

theorem map_error_iff {β γ : Type} {x : Except PyErr β} {f : β → γ} {e : PyErr} :
    (f <$> x) = .error e ↔ x = .error e := by
  cases x <;> simp [Functor.map, Except.map]

theorem split3_none {shape : List ℕ} : split3 shape = none ↔ shape.length < 2 := by
  match shape with
  | [] => simp [split3]
  | [_] => simp [split3]
  | _ :: _ :: _ => simp [split3]

theorem mergeLeading_error (x : ND α) (e : PyErr) : mergeLeading x = .error e ↔ x.shape.length < 2 ∧ e = .runtimeError := by
  rw [← split3_none, mergeLeading]
  rcases h : split3 x.shape with _ | ⟨b, s, d⟩
  · simp [eq_comm]
  · simp

theorem meanMiddle_error (x : ND α) (e : PyErr) : meanMiddle x = .error e ↔ x.shape.length < 2 ∧ e = .runtimeError := by
  rw [← split3_none, meanMiddle]
  rcases h : split3 x.shape with _ | ⟨b, s, d⟩
  · simp [eq_comm]
  · simp

theorem sumMiddle_error (x : ND α) (e : PyErr) : sumMiddle x = .error e ↔ x.shape.length < 2 ∧ e = .runtimeError := by
  rw [← split3_none, sumMiddle]
  rcases h : split3 x.shape with _ | ⟨b, s, d⟩
  · simp [eq_comm]
  · simp

theorem shape4_error (x : ND α) (e : PyErr) : shape4 x = .error e ↔ x.shape.length ≠ 4 ∧ e = .runtimeError := by
  rw [shape4]
  match h : x.shape with
  | [] => simp [eq_comm]
  | [_] => simp [eq_comm]
  | [_, _] => simp [eq_comm]
  | [_, _, _] => simp [eq_comm]
  | [_, _, _, _] => simp
  | _ :: _ :: _ :: _ :: _ :: _ => simp [eq_comm]

theorem shape4_ok (x : ND α) (b c i j : ℕ) : shape4 x = .ok (b, c, i, j) ↔ x.shape = [b, c, i, j] := by
  rw [shape4]
  match h : x.shape with
  | [] => simp
  | [_] => simp
  | [_, _] => simp
  | [_, _, _] => simp
  | [_, _, _, _] => simp
  | _ :: _ :: _ :: _ :: _ :: _ => simp

theorem check {β : Type} {x : Except PyErr β} {p : Prop} {e e' : PyErr} {l : List (Prop × PyErr)} (h : p → x = .error e')
    (h' : ¬ p → (x = .error e ↔ Fails l e)) : x = .error e ↔ Fails ((p, e') :: l) e := by
  by_cases hp : p
  · rw [h hp]; simp [Fails, hp, eq_comm]
  · rw [h' hp]; simp [Fails, hp]

theorem done {β : Type} {x : Except PyErr β} {e : PyErr} (h : ∃ b, x = .ok b) : x = .error e ↔ Fails [] e := by
  obtain ⟨b, rfl⟩ := h
  simp [Fails]

theorem outSize_error {i k s d pl pr : ℕ} (h : NoRoom i k s d (pl + pr)) : outSize i k s d pl pr = .error .runtimeError := by
  unfold outSize
  split
  · rfl
  · rename_i h1
    rw [if_pos (by rcases h with h | h | h | h <;> omega)]

theorem outSize_ok {i k s d pl pr : ℕ} (h : ¬ NoRoom i k s d (pl + pr)) : ∃ n, outSize i k s d pl pr = .ok n := by
  unfold outSize
  simp only [NoRoom, not_or] at h
  rw [if_neg (by omega), if_neg (by omega)]
  exact ⟨_, rfl⟩

theorem groupChannels_ok {C g : ℕ} (h0 : ¬ g = 0) (h : ¬ ¬ g ∣ C) : groupChannels C g = .ok (C / g) := by
  rw [groupChannels, if_neg h0, if_neg (by simpa [Nat.dvd_iff_mod_eq_zero] using h)]

theorem groupChannels_bad {C g : ℕ} (h0 : ¬ g = 0) (h : ¬ g ∣ C) : groupChannels C g = .error .runtimeError := by
  rw [groupChannels, if_neg h0, if_pos (by simpa [Nat.dvd_iff_mod_eq_zero] using h)]

theorem four {shape : List ℕ} (h : ¬ shape.length ≠ 4) : ∃ a b c d, shape = [a, b, c, d] := by
  match shape with
  | [] => simp at h
  | [_] => simp at h
  | [_, _] => simp at h
  | [_, _, _] => simp at h
  | [a, b, c, d] => exact ⟨a, b, c, d, rfl⟩
  | _ :: _ :: _ :: _ :: _ :: _ => simp at h

theorem expand_same {cfg : ConvCfg} (hp : cfg.padding = .str "same") :
    (cfg.stride.1 ≠ 1 → expandPadding cfg = .error .valueError) ∧ (cfg.stride.1 = 1 →
    (Odd (cfg.dilation.1 * (cfg.kernel.1 - 1)) → expandPadding cfg = .error .notImplementedError) ∧
    (¬ Odd (cfg.dilation.1 * (cfg.kernel.1 - 1)) → (cfg.stride.2 ≠ 1 → expandPadding cfg = .error .valueError) ∧ (cfg.stride.2 = 1 →
    (Odd (cfg.dilation.2 * (cfg.kernel.2 - 1)) → expandPadding cfg = .error .notImplementedError) ∧
    (¬ Odd (cfg.dilation.2 * (cfg.kernel.2 - 1)) →
      expandPadding cfg = .ok (cfg.dilation.1 * (cfg.kernel.1 - 1) / 2, cfg.dilation.2 * (cfg.kernel.2 - 1) / 2))))) := by
  have key : ∀ n : ℕ, n / 2 = n - n / 2 ↔ ¬ Odd n := fun n => by rw [Nat.odd_iff]; omega
  have sv : ¬ ("same" : String) = "valid" := by decide
  unfold expandPadding
  rw [hp]
  refine ⟨fun h => ?_, fun h1 => ⟨fun h => ?_, fun h2 => ⟨fun h => ?_, fun h3 => ⟨fun h => ?_, fun h4 => ?_⟩⟩⟩⟩
  · simp [convPaddings, h, Except.bind_error']
  · simp [convPaddings, h1, Except.bind_ok', key, h]; rfl
  · simp [convPaddings, h1, Except.bind_ok', Except.bind_error', key, h2, h]
  · simp [convPaddings, h1, Except.bind_ok', key, h2, h3, h]; rfl
  · simp [convPaddings, h1, Except.bind_ok', key, h2, h3, h4]; rfl

/-- `_extract_patches` -/
theorem extractPatches_error (x : ND α) (cfg : ConvCfg) (e : PyErr) :
    extractPatches x cfg = .error e ↔ Fails ((inputErrors x.shape (.conv2d cfg) "expand").tail) e := by
  show _ ↔ Fails (_ :: _ :: _ :: _ :: _ :: _ :: _ :: _ :: _ :: []) e
  have rest : ∀ pad : ℕ × ℕ, 2 * pad.1 = padded cfg.padding Prod.fst cfg.dilation.1 cfg.kernel.1 →
      2 * pad.2 = padded cfg.padding Prod.snd cfg.dilation.2 cfg.kernel.2 → expandPadding cfg = .ok pad →
      (extractPatches x cfg = .error e ↔ Fails ((inputErrors x.shape (.conv2d cfg) "expand").tail.drop 4) e) := by
    intro pad h1 h2 hp
    show _ ↔ Fails (_ :: _ :: _ :: _ :: _ :: []) e
    unfold extractPatches
    rw [hp, Except.bind_ok']
    refine check (fun h => by rw [(shape4_error x _).2 ⟨h, rfl⟩]; rfl) fun h => ?_
    obtain ⟨B, C, I1, I2, hs⟩ := four h
    rw [(shape4_ok x _ _ _ _).2 hs, Except.bind_ok']
    simp only [hs, List.getD_cons_succ, List.getD_cons_zero]
    refine check (fun h => by rw [groupChannels, if_pos h]; rfl) fun h0 => ?_
    refine check (fun h => by rw [groupChannels_bad h0 h]; rfl) fun h => ?_
    rw [groupChannels_ok h0 h, Except.bind_ok', ← h1, ← h2, two_mul, two_mul]
    refine check (fun h => by rw [outSize_error h]; rfl) fun h => ?_
    obtain ⟨O1, e1⟩ := outSize_ok h
    rw [e1, Except.bind_ok']
    refine check (fun h => by rw [outSize_error h]; rfl) fun h => ?_
    obtain ⟨O2, e2⟩ := outSize_ok h
    rw [e2, Except.bind_ok']
    exact done ⟨_, rfl⟩
  obtain ⟨P, hp⟩ : ∃ P, cfg.padding = P := ⟨_, rfl⟩
  rcases P with p | s
  · have r := rest p (by rw [hp]; rfl) (by rw [hp]; rfl) (by rw [expandPadding, hp])
    refine check (fun h => ?_) fun _ => check (fun h => ?_) fun _ => check (fun h => ?_) fun _ => check (fun h => ?_) fun _ => r
    · rcases h with ⟨s, h, _⟩ | ⟨h, _⟩ <;> rw [hp] at h <;> cases h
    all_goals (obtain ⟨h, _⟩ := h; rw [hp] at h; cases h)
  · by_cases hv : s = "valid"
    · subst hv
      have r := rest (0, 0) (by rw [hp]; rfl) (by rw [hp]; rfl) (by rw [expandPadding, hp]; rfl)
      refine check (fun h => ?_) fun _ => check (fun h => ?_) fun _ => check (fun h => ?_) fun _ => check (fun h => ?_) fun _ => r
      · rcases h with ⟨s, h, _⟩ | ⟨h, _⟩ <;> rw [hp] at h
        · cases h; contradiction
        · exact absurd (Padding.str.inj h) (by decide)
      all_goals (obtain ⟨h, _⟩ := h; rw [hp] at h; exact absurd (Padding.str.inj h) (by decide))
    · by_cases hm : s = "same"
      · subst hm
        have un : ¬ UnknownPadding cfg := by rintro ⟨s, h, _, h'⟩; rw [hp] at h; exact h' (Padding.str.inj h).symm
        have E := expand_same hp
        refine check (fun h => ?_) fun h1 => check (fun h => ?_) fun h2 => check (fun h => ?_) fun h3 => check (fun h => ?_) fun h4 => ?_
        · rw [extractPatches, E.1 (h.resolve_left un).2]; rfl
        all_goals have s1 : cfg.stride.1 = 1 := by by_contra h'; exact h1 (Or.inr ⟨hp, h'⟩)
        · rw [extractPatches, (E.2 s1).1 h.2]; rfl
        all_goals have o1 : ¬ Odd (cfg.dilation.1 * (cfg.kernel.1 - 1)) := fun h' => h2 ⟨hp, h'⟩
        · rw [extractPatches, ((E.2 s1).2 o1).1 h.2]; rfl
        all_goals have s2 : cfg.stride.2 = 1 := by by_contra h'; exact h3 ⟨hp, h'⟩
        · rw [extractPatches, (((E.2 s1).2 o1).2 s2).1 h.2]; rfl
        have o2 : ¬ Odd (cfg.dilation.2 * (cfg.kernel.2 - 1)) := fun h' => h4 ⟨hp, h'⟩
        refine rest (cfg.dilation.1 * (cfg.kernel.1 - 1) / 2, cfg.dilation.2 * (cfg.kernel.2 - 1) / 2) ?_ ?_ ((((E.2 s1).2 o1).2 s2).2 o2)
        · rw [hp]; simp only [padded, if_true]
          rw [Nat.odd_iff] at o1; omega
        · rw [hp]; simp only [padded, if_true]
          rw [Nat.odd_iff] at o2; omega
      · refine check (fun _ => ?_) fun h => absurd (Or.inl ⟨s, hp, hv, hm⟩) h
        rw [extractPatches, expandPadding, hp]
        show ((convPaddings _ _ _ s >>= _) >>= _) = _
        rw [convPaddings, if_neg hv, if_neg hm]; rfl

/-- the padding along one axis as `_extract_averaged_patches` resolves it -/
theorem convPaddings_cases {k st d : ℕ} {s : String} :
    (s = "valid" → convPaddings k st d s = .ok (0, 0)) ∧
    (s = "same" → st ≠ 1 → convPaddings k st d s = .error .valueError) ∧
    (s = "same" → st = 1 → ∃ l r, convPaddings k st d s = .ok (l, r) ∧ l + r = d * (k - 1)) ∧
    (s ≠ "valid" → s ≠ "same" → convPaddings k st d s = .error .valueError) := by
  refine ⟨?_, ?_, ?_, ?_⟩
  · rintro rfl; rfl
  · rintro rfl h; rw [convPaddings, if_neg (by decide), if_pos rfl, if_pos h]
  · rintro rfl rfl
    exact ⟨d * (k - 1) / 2, d * (k - 1) - d * (k - 1) / 2, by rw [convPaddings, if_neg (by decide), if_pos rfl, if_neg (by simp)], by omega⟩
  · intro h1 h2; rw [convPaddings, if_neg h1, if_neg h2]

/-- `_extract_averaged_patches` -/
theorem extractAveraged_error (x : ND α) (cfg : ConvCfg) (e : PyErr) :
    extractAveragedPatches x cfg = .error e ↔ Fails ((inputErrors x.shape (.conv2d cfg) "reduce").tail) e := by
  show _ ↔ Fails (_ :: _ :: _ :: _ :: _ :: _ :: _ :: []) e
  unfold extractAveragedPatches
  refine check (fun h => by rw [(shape4_error x _).2 ⟨h, rfl⟩]; rfl) fun h => ?_
  obtain ⟨B, C, I1, I2, hs⟩ := four h
  rw [(shape4_ok x _ _ _ _).2 hs, Except.bind_ok']
  simp only [hs, List.getD_cons_succ, List.getD_cons_zero]
  refine check (fun h => by rw [groupChannels, if_pos h]; rfl) fun h0 => ?_
  refine check (fun h => by rw [groupChannels_bad h0 h]; rfl) fun h => ?_
  rw [groupChannels_ok h0 h, Except.bind_ok']
  rcases hp : cfg.padding with p | s <;> dsimp only
  · refine check (fun h => ?_) fun _ => ?_
    · rcases h with ⟨s, h, _⟩ | ⟨h, _⟩
      · rw [hp] at h; cases h
      · cases h
    rw [Except.pure_ok, Except.bind_ok']
    refine check (fun h => ?_) fun h => ?_
    · rw [show padded (.ints p) Prod.fst cfg.dilation.1 cfg.kernel.1 = p.1 + p.1 by rw [padded]; omega] at h
      rw [outSize_error h]; rfl
    rw [show padded (.ints p) Prod.fst cfg.dilation.1 cfg.kernel.1 = p.1 + p.1 by rw [padded]; omega] at h
    obtain ⟨O1, e1⟩ := outSize_ok h
    rw [e1, Except.bind_ok']
    refine check (fun h => by cases h.1) fun _ => ?_
    rw [Except.pure_ok, Except.bind_ok']
    refine check (fun h => ?_) fun h => ?_
    · rw [show padded (.ints p) Prod.snd cfg.dilation.2 cfg.kernel.2 = p.2 + p.2 by rw [padded]; omega] at h
      rw [outSize_error h]; rfl
    rw [show padded (.ints p) Prod.snd cfg.dilation.2 cfg.kernel.2 = p.2 + p.2 by rw [padded]; omega] at h
    obtain ⟨O2, e2⟩ := outSize_ok h
    rw [e2, Except.bind_ok']
    exact done ⟨_, rfl⟩
  · have c1 := convPaddings_cases (k := cfg.kernel.1) (st := cfg.stride.1) (d := cfg.dilation.1) (s := s)
    have c2 := convPaddings_cases (k := cfg.kernel.2) (st := cfg.stride.2) (d := cfg.dilation.2) (s := s)
    by_cases hv : s = "valid"
    · refine check (fun h => ?_) fun _ => ?_
      · rcases h with ⟨s', h, h1, _⟩ | ⟨h, _⟩
        · rw [hp] at h; cases h; exact absurd hv h1
        · rw [hv] at h; exact absurd (Padding.str.inj h) (by decide)
      have pz : ∀ f d k, padded (.str s) f d k = 0 := fun f d k => by rw [padded, if_neg (by rw [hv]; decide)]
      rw [c1.1 hv, Except.bind_ok', pz, pz]
      refine check (fun h => by rw [outSize_error h]; rfl) fun h => ?_
      obtain ⟨O1, e1⟩ := outSize_ok (pl := 0) (pr := 0) h
      rw [e1, Except.bind_ok']
      refine check (fun h => ?_) fun _ => ?_
      · rw [hv] at h; exact absurd (Padding.str.inj h.1) (by decide)
      rw [c2.1 hv, Except.bind_ok']
      refine check (fun h => by rw [outSize_error h]; rfl) fun h => ?_
      obtain ⟨O2, e2⟩ := outSize_ok (pl := 0) (pr := 0) h
      rw [e2, Except.bind_ok']
      exact done ⟨_, rfl⟩
    · by_cases hm : s = "same"
      · have un : ¬ UnknownPadding cfg := by rintro ⟨s', h, _, h'⟩; rw [hp] at h; cases h; exact h' hm
        refine check (fun h => by rw [c1.2.1 hm (h.resolve_left un).2]; rfl) fun h1 => ?_
        obtain ⟨l1, r1, q1, s1⟩ := c1.2.2.1 hm (by by_contra h'; exact h1 (Or.inr ⟨by rw [hm], h'⟩))
        have pz : ∀ f d k, padded (.str s) f d k = d * (k - 1) := fun f d k => by rw [padded, if_pos hm]
        rw [q1, Except.bind_ok', pz, pz, ← s1]
        refine check (fun h => by rw [outSize_error h]; rfl) fun h => ?_
        obtain ⟨O1, e1⟩ := outSize_ok h
        rw [e1, Except.bind_ok']
        refine check (fun h => by rw [c2.2.1 hm h.2]; rfl) fun h2 => ?_
        obtain ⟨l2, r2, q2, s2⟩ := c2.2.2.1 hm (by by_contra h'; exact h2 ⟨by rw [hm], h'⟩)
        rw [q2, Except.bind_ok', ← s2]
        refine check (fun h => by rw [outSize_error h]; rfl) fun h => ?_
        obtain ⟨O2, e2⟩ := outSize_ok h
        rw [e2, Except.bind_ok']
        exact done ⟨_, rfl⟩
      · refine check (fun _ => by rw [c1.2.2.2 hv hm]; rfl) fun h => absurd (Or.inl ⟨s, hp, hv, hm⟩) h

/-- **C72 (inputs).** `process_input` raises exactly in the listed situations, and exactly the listed exception. -/
theorem C72_input (x : ND α) (kind : LayerKind) (bias : Bool) (approx : String) (e : PyErr) :
    processInput x kind bias approx = .error e ↔ Fails (inputErrors x.shape kind approx) e := by
  unfold processInput
  refine check (fun h => by rw [if_pos (by exact h)]) fun h => ?_
  rw [if_neg (by exact h)]
  have h' : KnownApprox approx := not_not.1 h
  have bnd : ∀ {y : Except PyErr (Mat α)}, ((y >>= fun x => (pure (divSqrtRows (if bias = true then appendOnes x else x)) : Except PyErr (Mat α))) = .error e) ↔ y = .error e := by
    intro y; cases y <;> simp [Except.bind_ok', Except.bind_error', Except.pure_ok]
  cases kind with
  | other => exact check (fun _ => rfl) fun h => absurd trivial h
  | linear =>
    show (linearProcessInput x bias approx = .error e) ↔ _
    refine Iff.trans ?_ (Iff.intro (fun h => Or.inl h) fun h => h.resolve_right fun h => h.2)
    rcases h' with rfl | rfl
    · rw [← mergeLeading_error, linearProcessInput, if_pos rfl]
      exact bnd
    · rw [← meanMiddle_error, linearProcessInput, if_neg (by decide)]
      exact bnd
  | conv2d cfg =>
    show (convProcessInput x cfg bias approx = .error e) ↔ Fails (inputErrors x.shape (.conv2d cfg) approx).tail e
    rcases h' with rfl | rfl
    · rw [← extractPatches_error, convProcessInput, if_pos rfl]
      exact bnd.trans map_error_iff
    · rw [← extractAveraged_error, convProcessInput, if_neg (by decide)]
      exact bnd

/-- **C72 (output gradients).** `process_grad_output` raises exactly in the listed situations, and exactly the listed exception. -/
theorem C72_grad (g : ND α) (kind : LayerKind) (avg : Option String) (approx : String) (e : PyErr) :
    processGradOutput g kind avg approx = .error e ↔ Fails (gradErrors g.shape kind avg approx) e := by
  unfold processGradOutput
  refine check (fun h => by rw [if_pos (by exact h)]) fun h => ?_
  rw [if_neg (by exact h)]
  refine check (fun h => by rw [if_pos (by exact h)]) fun h => ?_
  rw [if_neg (by exact h)]
  cases kind with
  | other => exact check (fun _ => rfl) fun h => absurd trivial h
  | linear =>
    show (linearProcessGrad g avg approx = .error e) ↔ _
    have sc : ¬ (avg ≠ none ∧ g.shape = []) → ∃ c : α, linearScaling g.shape avg = .ok c := by
      intro h
      rcases avg with _ | a
      · exact ⟨1, rfl⟩
      · rcases hs : g.shape with _ | ⟨b, r⟩
        · exact absurd ⟨by simp, hs⟩ h
        · exact ⟨_, rfl⟩
    refine check (fun h => ?_) fun h1 => ?_
    · obtain ⟨ha, hs⟩ := h
      rcases avg with _ | a
      · exact absurd rfl ha
      · rw [linearProcessGrad, hs]; rfl
    obtain ⟨c, hc⟩ := sc h1
    rw [linearProcessGrad, hc, Except.bind_ok']
    refine check (fun hs => ?_) fun hs => done ?_
    · split
      · rw [(mergeLeading_error g _).2 ⟨hs, rfl⟩]; rfl
      · rw [(sumMiddle_error g _).2 ⟨hs, rfl⟩]; rfl
    · split
      · rcases h : mergeLeading g with e | b
        · exact absurd ((mergeLeading_error g e).1 h).1 hs
        · exact ⟨_, rfl⟩
      · rcases h : sumMiddle g with e | b
        · exact absurd ((sumMiddle_error g e).1 h).1 hs
        · exact ⟨_, rfl⟩
  | conv2d cfg =>
    show (convProcessGrad g avg approx = .error e) ↔ _
    have sc : ¬ (avg ≠ none ∧ g.shape = []) → ∃ c : α, convScaling g.shape avg = .ok c := by
      intro h
      rcases avg with _ | a
      · exact ⟨1, rfl⟩
      · rcases hs : g.shape with _ | ⟨b, r⟩
        · exact absurd ⟨by simp, hs⟩ h
        · exact ⟨_, rfl⟩
    refine check (fun h => ?_) fun h1 => ?_
    · obtain ⟨ha, hs⟩ := h
      rcases avg with _ | a
      · exact absurd rfl ha
      · rw [convProcessGrad, hs]; rfl
    obtain ⟨c, hc⟩ := sc h1
    rw [convProcessGrad, hc, Except.bind_ok']
    refine check (fun hs => ?_) fun hs => done ?_
    · split
      · rw [mergeSpatial, (shape4_error g _).2 ⟨hs, rfl⟩]; rfl
      · rw [sumSpatial, (shape4_error g _).2 ⟨hs, rfl⟩]; rfl
    · obtain ⟨a, b, c', d, hs⟩ := four hs
      have := (shape4_ok g _ _ _ _).2 hs
      split
      · rw [mergeSpatial, this]; exact ⟨_, rfl⟩
      · rw [sumSpatial, this]; exact ⟨_, rfl⟩

/-! ### Layers, groups and gradients -/

/-- **C72 (dimensions).** The dimensions of the factors are asked for successfully exactly for the supported modules; for the others
`NotImplementedError` is raised. -/
theorem C72_dims (m : Layer) (e : PyErr) : m.dims = .error e ↔ Fails [(m.kind = .other, .notImplementedError)] e := by
  refine check (fun h => by rw [Layer.dims, h]) fun h => done ?_
  rw [Layer.dims]
  split
  · rename_i h'; exact absurd h' h
  · exact ⟨_, rfl⟩

end

section
variable {α : Type} [Field α] [LinearOrder α] [HasSqrt α]

theorem supported_iff (m : Layer) : m.supported = true ↔ m.kind ≠ .other := by
  unfold Layer.supported
  split <;> simp_all

/-- **C72 (gradient of a layer).** Collecting the gradient matrix of a layer raises exactly in the listed situations: unsupported module,
no gradient for the weight, none for the bias, or gradients whose numbers of rows differ. -/
theorem C72_grad_matrix (w : World α) (m : Layer) (e : PyErr) : w.gradMat m = .error e ↔
    Fails [(m.kind = .other, .notImplementedError), (w.grad m.weight.ptr = none, .attributeError),
      ((∃ b, m.bias = some b ∧ w.grad b.ptr = none), .attributeError),
      ((∃ b G g, m.bias = some b ∧ w.grad m.weight.ptr = some G ∧ w.grad b.ptr = some g ∧ G.rows ≠ g.rows), .runtimeError)] e := by
  unfold World.gradMat
  refine check (fun h => by rw [if_neg (by rw [supported_iff, not_not]; exact h)]) fun h => ?_
  rw [if_pos ((supported_iff m).2 h)]
  refine check (fun h => by rw [World.gradOf, h]; rfl) fun h => ?_
  obtain ⟨G, hG⟩ := Option.ne_none_iff_exists'.1 h
  rw [World.gradOf, hG]
  show ((match m.bias with | none => .ok G | some b => (do G.hcat? (← w.gradOf b)) : Except PyErr (Mat α)) = .error e) ↔ _
  rcases hb : m.bias with _ | b
  · exact check (fun h => by obtain ⟨b, h, _⟩ := h; cases h) fun _ => check (fun h => by obtain ⟨b, _, _, h, _⟩ := h; cases h) fun _ => done ⟨_, rfl⟩
  · dsimp only
    refine check (fun h => ?_) fun h => ?_
    · obtain ⟨b', h, hn⟩ := h
      cases h
      rw [World.gradOf, hn]; rfl
    obtain ⟨g, hg⟩ := Option.ne_none_iff_exists'.1 fun hn => h ⟨b, rfl, hn⟩
    rw [World.gradOf, hg]
    show (G.hcat? g = .error e) ↔ _
    refine check (fun h => ?_) fun h => done ?_
    · obtain ⟨b', G', g', h1, h2, h3, h4⟩ := h
      cases h1
      cases h2
      rw [hg] at h3; cases h3
      rw [Mat.hcat?, if_neg h4]
    · rw [Mat.hcat?, if_pos (by by_contra h'; exact h ⟨b, G, g, rfl, rfl, hg, h'⟩)]
      exact ⟨_, rfl⟩

/-- `param_to_group_idx` and the parameter groups fit together in every state of an optimizer. -/
theorem groups_fit {structs : String → Option Cls} {w : World α} (hw : Reachable structs w) (p : ℕ) :
    (∀ i, w.opt.ptrGroup p = some i → ∃ g, w.opt.groups[i]? = some g ∧ p ∈ g.params) ∧
    ((∃ g ∈ w.opt.groups, p ∈ g.params) → w.opt.ptrGroup p ≠ none) := by
  obtain ⟨model, q, a, o, ws, data, grad, ops, hn, hi, rfl⟩ := hw
  have I := Construct.init_ok hn hi
  have hs : ∀ ops : List (Op α), (run ops ⟨o, data, grad, []⟩).opt.ptrGroup = o.ptrGroup ∧
      (run ops ⟨o, data, grad, []⟩).opt.groups.map (·.params) = o.groups.map (·.params) := fun ops =>
    run_inv (P := fun w => w.opt.ptrGroup = o.ptrGroup ∧ w.opt.groups.map (·.params) = o.groups.map (·.params))
      (fun op w h => ⟨(exec_static op w).2.1.trans h.1, (exec_static op w).2.2.2.trans h.2⟩) ops _ ⟨rfl, rfl⟩
  obtain ⟨h1, h2⟩ := hs ops
  have par : ∀ i : ℕ, ((run ops ⟨o, data, grad, []⟩).opt.groups[i]?).map (·.params) = (o.groups[i]?).map (·.params) := fun i => by
    rw [← List.getElem?_map, ← List.getElem?_map, h2]
  rw [h1, I.ptrGroup]
  constructor
  · intro i hp
    obtain ⟨g, hg, hm⟩ := ptrGroup_mem hp
    have := par i
    rw [hg] at this
    rcases hx : (run ops ⟨o, data, grad, []⟩).opt.groups[i]? with _ | g'
    · rw [hx] at this; cases this
    · rw [hx] at this
      simp only [Option.map_some, Option.some.injEq] at this
      exact ⟨g', rfl, by rw [this]; exact hm⟩
  · rintro ⟨g, hg, hm⟩ hn
    obtain ⟨i, hi'⟩ := List.mem_iff_getElem?.1 hg
    have := par i
    rw [hi'] at this
    rcases hx : o.groups[i]? with _ | g'
    · rw [hx] at this; cases this
    · rw [hx] at this
      simp only [Option.map_some, Option.some.injEq] at this
      rw [Construct.ptrGroup, List.getLast?_eq_none_iff, List.filter_eq_nil_iff] at hn
      refine hn i (List.mem_range.2 (List.getElem?_eq_some_iff.1 hx).1) ?_
      rw [List.getD_eq_getElem?_getD, List.getElem?_map, hx]
      simpa [← this] using hm

/-- **C72 (group of a layer).** In every state of an optimizer, looking up the hyper-parameters of a module (of the model or not) raises
exactly in the listed situations: `AssertionError` for unsupported modules, `KeyError` if the weight is in no group; never `IndexError`. -/
theorem C72_group {structs : String → Option Cls} {w : World α} (hw : Reachable structs w) (m : Layer) (e : PyErr) :
    w.opt.hyperOf m = .error e ↔
    Fails [(m.kind = .other, .assertionError), ((∀ g ∈ w.opt.groups, m.weight.ptr ∉ g.params), .keyError)] e := by
  obtain ⟨h1, h2⟩ := groups_fit hw m.weight.ptr
  unfold Opt.hyperOf
  refine check (fun h => by rw [if_neg (by rw [supported_iff, not_not]; exact h)]) fun h => ?_
  rw [if_pos ((supported_iff m).2 h)]
  rcases hp : w.opt.ptrGroup m.weight.ptr with _ | i
  · refine check (fun _ => by rw [lookup, hp]; rfl) fun h => ?_
    push Not at h
    exact absurd hp (h2 h)
  · obtain ⟨g, hg, hm⟩ := h1 i hp
    refine check (fun h => absurd hm (h g (List.mem_of_getElem? hg))) fun _ => done ⟨g.h, ?_⟩
    rw [lookup, hp]
    show (match w.opt.groups[i]? with | some g => _ | none => _) = _
    rw [hg]

/-- **C72 (adding a group).** `add_param_group` raises exactly if one of the parameters is in a group already, and then `ValueError`;
nothing has changed then. -/
theorem C72_add_group (dflt : Hyper α) (g : GroupArg α) (w : World α) (e : PyErr) :
    ((gexec dflt (.addGroup g) w).1 = .error e ↔ Fails [((∃ q ∈ g.params, ∃ g' ∈ w.opt.groups, q.ptr ∈ g'.params), .valueError)] e) ∧
    ((gexec dflt (.addGroup g) w).1 = .error e → (gexec dflt (.addGroup g) w).2 = w) := by
  have hx : (g.params.any fun p => p.ptr ∈ Construct.paramIds w.opt.groups) = true ↔ ∃ q ∈ g.params, ∃ g' ∈ w.opt.groups, q.ptr ∈ g'.params := by
    simp [Construct.paramIds]
  show ((World.addGroup dflt g w).1 = _ ↔ _) ∧ ((World.addGroup dflt g w).1 = _ → (World.addGroup dflt g w).2 = w)
  rw [World.addGroup, Py.get_bind_run]
  constructor
  · refine check (fun h => by rw [if_pos (hx.2 h)]; rfl) fun h => done ?_
    rw [if_neg (fun h' => h (hx.1 h'))]
    exact ⟨(), rfl⟩
  · split
    · intro _; rfl
    · intro h; cases h

end

/-! ### Structured matrices -/

/-- The exception `cls.from_dense` raises on a matrix with `r` rows and `c` columns, if any. -/
def denseError : Cls → ℕ → ℕ → Option PyErr
  | .dense, _, _ => none
  | .diagonal, _, _ => none
  | .block D, r, c => if D = 0 then some .zeroDivisionError else if c < r / D * D then some .runtimeError else if r ≠ c then some .valueError else none
  | .hier _ _, r, c => if r ≠ c then some .valueError else none
  | .tril, r, c => if r ≠ c then some .assertionError else if r = 0 then some .runtimeError else none
  | .triu, r, c => if r ≠ c then some .assertionError else if r = 0 then some .runtimeError else none
  | .topRight (.int a) .inf ca cc, r, c | .bottomLeft (.int a) .inf ca cc, r, c =>
    if r ≠ c then some .valueError else (denseError ca (min a r) (min a r)).or (denseError cc (r - a) (r - a))
  | .topRight .inf (.int b) ca cc, r, c | .bottomLeft .inf (.int b) ca cc, r, c =>
    if r ≠ c then some .valueError else (denseError ca (r - b) (r - b)).or (denseError cc (min b r) (min b r))
  | .topRight _ _ _ _, _, _ | .bottomLeft _ _ _ _, _, _ => some .valueError

section
variable {α : Type} [Field α]

theorem denseError_none {c : Cls} : ∀ {n : ℕ}, denseError c n n = none → c.Supports n := by
  induction c with
  | dense => intro n _; trivial
  | diagonal => intro n _; trivial
  | block D =>
    intro n h
    simp only [denseError] at h
    show 0 < D
    by_contra h0
    rw [if_pos (by omega)] at h; cases h
  | hier => intro n _; trivial
  | tril =>
    intro n h
    simp only [denseError] at h
    show 0 < n
    by_contra h0
    rw [if_neg (by simp), if_pos (by omega)] at h; cases h
  | triu =>
    intro n h
    simp only [denseError] at h
    show 0 < n
    by_contra h0
    rw [if_neg (by simp), if_pos (by omega)] at h; cases h
  | topRight a b ca cc iA iC =>
    intro n h
    cases a <;> cases b <;> simp only [denseError, reduceCtorEq, ne_eq, not_true_eq_false, if_false, Option.or_eq_none_iff] at h
    · rename_i a; exact ⟨min a n, rfl, iA h.1, by rw [show n - min a n = n - a by omega]; exact iC h.2⟩
    · rename_i b; exact ⟨n - min b n, rfl, by rw [show n - min b n = n - b by omega]; exact iA h.1, by rw [show n - (n - min b n) = min b n by omega]; exact iC h.2⟩
  | bottomLeft a b ca cc iA iC =>
    intro n h
    cases a <;> cases b <;> simp only [denseError, reduceCtorEq, ne_eq, not_true_eq_false, if_false, Option.or_eq_none_iff] at h
    · rename_i a; exact ⟨min a n, rfl, iA h.1, by rw [show n - min a n = n - a by omega]; exact iC h.2⟩
    · rename_i b; exact ⟨n - min b n, rfl, by rw [show n - min b n = n - b by omega]; exact iA h.1, by rw [show n - (n - min b n) = min b n by omega]; exact iC h.2⟩

/-- the exception, if there is one -/
theorem fromDense_error : ∀ {c : Cls} {m : Mat α} {e : PyErr}, denseError c m.rows m.cols = some e → SM.fromDense c m = .error e := by
  intro c
  induction c with
  | dense => intro m e h; cases h
  | diagonal => intro m e h; cases h
  | block D =>
    intro m e h
    simp only [denseError] at h
    rw [SM.fromDense, BlockDiag.fromDense]
    split at h
    · cases h; rename_i h; rw [if_pos h]; rfl
    · rename_i hD
      rw [if_neg hD]
      dsimp only
      split at h
      · cases h; rename_i h; rw [if_pos h]; rfl
      · rename_i hc
        rw [if_neg hc]
        split at h
        · cases h
          rename_i hr
          rw [BlockDiag.init, if_neg (by simp), if_pos]
          · rfl
          · have := Nat.div_mul_le_self m.rows D
            shp
        · cases h
  | hier a b =>
    intro m e h
    simp only [denseError] at h
    split at h
    · cases h; rename_i h; rw [SM.fromDense, Hier.fromDense, if_pos h]; rfl
    · cases h
  | tril =>
    intro m e h
    simp only [denseError] at h
    rw [SM.fromDense, Tril.fromDense, toeplitzFromDense]
    split at h
    · cases h; rename_i h; rw [if_pos h]; rfl
    · rename_i hr
      rw [if_neg hr]
      split at h
      · cases h; rw [allTraces, if_pos (by omega)]; rfl
      · cases h
  | triu =>
    intro m e h
    simp only [denseError] at h
    rw [SM.fromDense, Triu.fromDense, toeplitzFromDense]
    split at h
    · cases h; rename_i h; rw [if_pos h]; rfl
    · rename_i hr
      rw [if_neg hr]
      split at h
      · cases h; rw [allTraces, if_pos (by omega)]; rfl
      · cases h
  | topRight a b ca cc iA iC =>
    intro m e h
    rw [SM.fromDense]
    by_cases hr : m.rows ≠ m.cols
    · rw [if_pos hr]
      cases a <;> cases b <;> simp only [denseError, if_pos hr, Option.some.injEq] at h <;> rw [h]
    rw [if_neg hr]
    have hrc : m.rows = m.cols := not_not.1 hr
    have body : ∀ d, RecBoundary m.rows a b d → (denseError ca d d).or (denseError cc (m.rows - d) (m.rows - d)) = some e →
        (do let b' ← getBoundary m.rows a b
            let A ← SM.fromDense ca (m.slice 0 b' 0 b')
            let B ← Mat.add? (m.slice 0 b' b' m.cols) (m.slice b' m.rows 0 b').T
            let C ← SM.fromDense cc (m.slice b' m.rows b' m.cols)
            SM.initTopRight a b ca cc A B C) = .error e := by
      intro d hd h
      have := hd.le
      rw [getBoundary_eq hd, Except.bind_ok']
      have sA : (m.slice 0 d 0 d).rows = d ∧ (m.slice 0 d 0 d).cols = d := ⟨by shp, by shp⟩
      have sC : (m.slice d m.rows d m.cols).rows = m.rows - d ∧ (m.slice d m.rows d m.cols).cols = m.rows - d := ⟨by shp, by shp⟩
      rw [Option.or_eq_some_iff] at h
      rcases h with h | ⟨h1, h2⟩
      · rw [iA (m := m.slice 0 d 0 d) (e := e) (by rw [sA.1, sA.2]; exact h)]; rfl
      · obtain ⟨A, eA, _⟩ := fromDense_wf (denseError_none h1) sA.1 sA.2
        rw [eA, Except.bind_ok', Mat.add?_ok (by shp) (by shp), Except.bind_ok', iC (m := m.slice d m.rows d m.cols) (e := e) (by rw [sC.1, sC.2]; exact h2)]; rfl
    cases a with
    | int a =>
      cases b with
      | int b => simp only [denseError, Option.some.injEq] at h; rw [← h]; rfl
      | inf =>
        simp only [denseError, if_neg hr] at h
        exact body _ rfl (by rw [show m.rows - min a m.rows = m.rows - a by omega]; exact h)
    | inf =>
      cases b with
      | int b =>
        simp only [denseError, if_neg hr] at h
        refine body _ rfl ?_
        rw [show m.rows - (m.rows - min b m.rows) = min b m.rows by omega, show m.rows - min b m.rows = m.rows - b by omega]; exact h
      | inf => simp only [denseError, Option.some.injEq] at h; rw [← h]; rfl
  | bottomLeft a b ca cc iA iC =>
    intro m e h
    rw [SM.fromDense]
    by_cases hr : m.rows ≠ m.cols
    · rw [if_pos hr]
      cases a <;> cases b <;> simp only [denseError, if_pos hr, Option.some.injEq] at h <;> rw [h]
    rw [if_neg hr]
    have hrc : m.rows = m.cols := not_not.1 hr
    have body : ∀ d, RecBoundary m.rows a b d → (denseError ca d d).or (denseError cc (m.rows - d) (m.rows - d)) = some e →
        (do let b' ← getBoundary m.rows a b
            let A ← SM.fromDense ca (m.slice 0 b' 0 b')
            let B ← Mat.add? (m.slice b' m.rows 0 b') (m.slice 0 b' b' m.cols).T
            let C ← SM.fromDense cc (m.slice b' m.rows b' m.cols)
            SM.initBottomLeft a b ca cc A B C) = .error e := by
      intro d hd h
      have := hd.le
      rw [getBoundary_eq hd, Except.bind_ok']
      have sA : (m.slice 0 d 0 d).rows = d ∧ (m.slice 0 d 0 d).cols = d := ⟨by shp, by shp⟩
      have sC : (m.slice d m.rows d m.cols).rows = m.rows - d ∧ (m.slice d m.rows d m.cols).cols = m.rows - d := ⟨by shp, by shp⟩
      rw [Option.or_eq_some_iff] at h
      rcases h with h | ⟨h1, h2⟩
      · rw [iA (m := m.slice 0 d 0 d) (e := e) (by rw [sA.1, sA.2]; exact h)]; rfl
      · obtain ⟨A, eA, _⟩ := fromDense_wf (denseError_none h1) sA.1 sA.2
        rw [eA, Except.bind_ok', Mat.add?_ok (by shp) (by shp), Except.bind_ok', iC (m := m.slice d m.rows d m.cols) (e := e) (by rw [sC.1, sC.2]; exact h2)]; rfl
    cases a with
    | int a =>
      cases b with
      | int b => simp only [denseError, Option.some.injEq] at h; rw [← h]; rfl
      | inf =>
        simp only [denseError, if_neg hr] at h
        exact body _ rfl (by rw [show m.rows - min a m.rows = m.rows - a by omega]; exact h)
    | inf =>
      cases b with
      | int b =>
        simp only [denseError, if_neg hr] at h
        refine body _ rfl ?_
        rw [show m.rows - (m.rows - min b m.rows) = min b m.rows by omega, show m.rows - min b m.rows = m.rows - b by omega]; exact h
      | inf => simp only [denseError, Option.some.injEq] at h; rw [← h]; rfl

/-- **C72 (from_dense).** Which exception `from_dense` raises, for every class and every (also rectangular) matrix. -/
theorem C72_from_dense (c : Cls) (m : Mat α) (e : PyErr) : SM.fromDense c m = .error e ↔ denseError c m.rows m.cols = some e := by
  refine ⟨fun h => ?_, fromDense_error⟩
  rcases hd : denseError c m.rows m.cols with _ | e'
  · have sq : m.rows = m.cols → False := fun hr => by
      rw [← hr] at hd
      obtain ⟨P, eP, _⟩ := fromDense_wf (denseError_none hd) (rfl : m.rows = m.rows) hr.symm
      rw [eP] at h; cases h
    by_cases hr : m.rows = m.cols
    · exact (sq hr).elim
    · cases c with
      | dense => cases h
      | diagonal => cases h
      | block D =>
        simp only [denseError, if_pos hr, ne_eq, hr, not_false_eq_true, if_true] at hd
        split at hd
        · cases hd
        · split at hd <;> cases hd
      | hier => simp [denseError, hr] at hd
      | tril => simp [denseError, hr] at hd
      | triu => simp [denseError, hr] at hd
      | topRight a b ca cc => cases a <;> cases b <;> simp [denseError, hr] at hd
      | bottomLeft a b ca cc => cases a <;> cases b <;> simp [denseError, hr] at hd
  · rw [fromDense_error hd] at h; cases h; rfl

/-- **C72 (matrices from inner products).** `from_mat_inner(X)` raises what `from_dense` of the square matrix `X Xᵀ` raises, although two classes do not form it. -/
theorem C72_from_mat_inner (c : Cls) (X : Mat α) (e : PyErr) : SM.fromMatInner c X = .error e ↔ denseError c X.rows X.rows = some e := by
  have gen : ((do SM.fromDense c (← X.matmul X.T)) : Except PyErr (SM α)) = SM.fromDense c (X.mul X.T) := by
    rw [Mat.matmul, if_pos (show X.cols = X.T.rows from rfl)]; rfl
  have dn := C72_from_dense c (X.mul X.T) e
  rw [show (X.mul X.T).rows = X.rows from rfl, show (X.mul X.T).cols = X.rows from rfl] at dn
  cases c with
  | diagonal => exact ⟨fun h => (by cases h), fun h => (by cases h)⟩
  | block D =>
    by_cases hD : D = 0
    · subst hD
      rw [show SM.fromMatInner (.block 0) X = .error .zeroDivisionError from rfl, denseError, if_pos rfl]
      exact ⟨fun h => (by cases h; rfl), fun h => (by cases h; rfl)⟩
    · rw [SM.fromMatInner, BlockDiag.fromMatInner_eq (Nat.pos_of_ne_zero hD)]
      exact dn
  | _ => exact (Eq.congr_left gen).trans dn

/-- exceptions of `eye(n)` and `zeros(n)`: those of `from_dense`, except for Toeplitz classes of size 0 -/
def eyeError (c : Cls) (n : ℕ) : Option PyErr := if c = .tril ∨ c = .triu then if n = 0 then some .indexError else none else denseError c n n
def zerosError (c : Cls) (n : ℕ) : Option PyErr := if c = .tril ∨ c = .triu then none else denseError c n n

/-- **C72 (`eye`, `zeros`).** -/
theorem C72_eye_zeros (c : Cls) (n : ℕ) (e : PyErr) :
    ((SM.eye c n : Except PyErr (SM α)) = .error e ↔ eyeError c n = some e) ∧ ((SM.zeros c n : Except PyErr (SM α)) = .error e ↔ zerosError c n = some e) := by
  have dn : ∀ m : Mat α, m.rows = n → m.cols = n → (SM.fromDense c m = .error e ↔ denseError c n n = some e) := fun m h1 h2 => by
    rw [C72_from_dense, h1, h2]
  cases c with
  | diagonal => exact ⟨⟨fun h => (by cases h), fun h => (by cases h)⟩, ⟨fun h => (by cases h), fun h => (by cases h)⟩⟩
  | block D =>
    rw [eyeError, zerosError, if_neg (by simp), denseError]
    by_cases hD : D = 0
    · subst hD
      exact ⟨⟨fun h => (by cases h; rfl), fun h => (by cases h; rfl)⟩, ⟨fun h => (by cases h; rfl), fun h => (by cases h; rfl)⟩⟩
    · obtain ⟨p, h, _⟩ := BlockDiag.eye_spec (α := α) (n := n) (Nat.pos_of_ne_zero hD)
      obtain ⟨q, h', _⟩ := BlockDiag.zeros_spec (α := α) (n := n) (Nat.pos_of_ne_zero hD)
      rw [SM.eye, SM.zeros, h, h', if_neg hD, if_neg (Nat.not_lt.2 (Nat.div_mul_le_self n D)), if_neg (not_not.2 rfl)]
      exact ⟨⟨fun h => (by cases h), fun h => (by cases h)⟩, ⟨fun h => (by cases h), fun h => (by cases h)⟩⟩
  | hier a b =>
    rw [eyeError, zerosError, if_neg (by simp), denseError, if_neg (not_not.2 rfl)]
    obtain ⟨p, h, _⟩ := Hier.eye_spec (α := α) (Hier.hierDims_blockDims a b n)
    obtain ⟨q, h', _⟩ := Hier.zeros_spec (α := α) (Hier.hierDims_blockDims a b n)
    rw [SM.eye, SM.zeros, h, h']
    exact ⟨⟨fun h => (by cases h), fun h => (by cases h)⟩, ⟨fun h => (by cases h), fun h => (by cases h)⟩⟩
  | tril =>
    refine ⟨?_, ⟨fun h => (by cases h), fun h => (by cases h)⟩⟩
    rw [SM.eye, Toeplitz.eye, eyeError, if_pos (Or.inl rfl)]
    split
    · exact ⟨fun h => (by cases h; rfl), fun h => (by cases h; rfl)⟩
    · exact ⟨fun h => (by cases h), fun h => (by cases h)⟩
  | triu =>
    refine ⟨?_, ⟨fun h => (by cases h), fun h => (by cases h)⟩⟩
    rw [SM.eye, Toeplitz.eye, eyeError, if_pos (Or.inr rfl)]
    split
    · exact ⟨fun h => (by cases h; rfl), fun h => (by cases h; rfl)⟩
    · exact ⟨fun h => (by cases h), fun h => (by cases h)⟩
  | _ =>
    rw [eyeError, zerosError, if_neg (by simp)]
    exact ⟨dn _ rfl rfl, dn _ rfl rfl⟩

/-- what a product with a tensor of a wrong size raises -/
def sizeError : Cls → PyErr
  | .block _ => .valueError
  | _ => .runtimeError

/-- **C72 (sizes).** Multiplying an `n × n` structured matrix (or its transpose) with a tensor that does not have `n` rows raises:
`ValueError` for block-diagonal matrices, `RuntimeError` for all others. (For diagonal matrices, sizes 1 are excluded: there `einsum` broadcasts.) -/
theorem C72_matmul {c : Cls} {n : ℕ} {K : SM α} (hK : WF c n K) {X : Mat α} (hX : X.rows ≠ n) (_h1 : c = .diagonal → n ≠ 1 ∧ X.rows ≠ 1) :
    K.matmulT X = .error (sizeError c) ∧ K.rmatmat X = .error (sizeError c) := by
  have dn : ∀ {K : SM α} {c : Cls}, WF c n K → (K.toDense.matmul X : Except PyErr (Mat α)) = .error .runtimeError ∧
      (K.toDense.T.matmul X : Except PyErr (Mat α)) = .error .runtimeError := by
    intro K c hK
    rw [Mat.matmul, if_neg (by rw [hK.cols]; exact hX.symm), Mat.matmul, if_neg (by show ¬ K.toDense.rows = _; rw [hK.rows]; exact hX.symm)]
    exact ⟨rfl, rfl⟩
  cases hK with
  | dense hr hc => exact dn (.dense hr hc)
  | diagonal h =>
    rw [SM.matmulT, SM.rmatmat, Diagonal.rmatmat, Diagonal.matmulT, Mat.scaleRows?, if_neg (by rw [h]; exact hX.symm)]
    exact ⟨rfl, rfl⟩
  | block h =>
    rw [SM.matmulT, SM.rmatmat, BlockDiag.rmatmat, BlockDiag.matmulT, if_pos]
    · exact ⟨rfl, rfl⟩
    · rw [BlockDiag.dim, h.d0, h.hD, h.lr, Nat.div_add_mod']; exact hX
  | hier hd w =>
    have hs := hd.sum
    rw [SM.matmulT, SM.rmatmat, Hier.matmulT, Hier.rmatmat, Mat.split2c, Mat.split3, if_pos, if_neg]
    · exact ⟨rfl, rfl⟩
    · rw [Hier.K1, Hier.diagDim, Hier.K2, w.Ar, w.Cl, w.Er]; omega
    · rw [Hier.diagDim, Hier.K2, w.Cl, w.Er, w.Bc]
  | tril hn h =>
    rw [SM.matmulT, SM.rmatmat, Tril.matmulT, Tril.rmatmat, if_neg (by omega), if_neg (by omega), toeplitzMatmul, toeplitzMatmul, if_pos, if_pos]
    · exact ⟨rfl, rfl⟩
    all_goals (simp [Vec.cat, Vec.flip, Vec.zeros, h]; omega)
  | triu hn h =>
    rw [SM.matmulT, SM.rmatmat, Triu.matmulT, Triu.rmatmat, if_neg (by omega), if_neg (by omega), toeplitzMatmul, toeplitzMatmul, if_pos, if_pos]
    · exact ⟨rfl, rfl⟩
    all_goals (simp [Vec.cat, Vec.flip, Vec.zeros, h]; omega)
  | topRight hb hA hr hc hC => exact dn (.topRight hb hA hr hc hC)
  | bottomLeft hb hA hr hc hC => exact dn (.bottomLeft hb hA hr hc hC)

/-- **C72 (constructor of recursive matrices).** From parts of dimensions `a` and `b`, the constructors of the recursive classes accept exactly
parts of the registered classes within the maximal dimensions and an off-diagonal block of the fitting shape; everything else is a `ValueError`. -/
theorem C72_recursive_init {x y : MaxDim} {ca cc ca' cc' : Cls} {a b : ℕ} {A C : SM α} (hA : WF ca' a A) (hC : WF cc' b C) (B : Mat α) :
    (SM.initTopRight x y ca cc A B C = if ca' = ca ∧ cc' = cc ∧ (B.rows, B.cols) = (a, b) ∧ ¬ x.lt a ∧ ¬ y.lt b
      then .ok (.topRight x y ca cc A B C) else .error .valueError) ∧
    (SM.initBottomLeft x y ca cc A B C = if ca' = ca ∧ cc' = cc ∧ (B.rows, B.cols) = (b, a) ∧ ¬ x.lt a ∧ ¬ y.lt b
      then .ok (.bottomLeft x y ca cc A B C) else .error .valueError) := by
  rw [SM.initTopRight, SM.initBottomLeft, hA.cls_eq, hC.cls_eq, hA.rows, hC.rows]
  simp only [Prod.mk.injEq]
  constructor <;> split_ifs <;> first | rfl | (exfalso; tauto)

end

/-! ### The situations occur -/

section
/-- a scalar tensor, and one of shape `[2, 4, 3, 3]` -/
def scalar : ND ℚ := ⟨[], fun _ => 1⟩
def image : ND ℚ := ⟨[2, 4, 3, 3], fun _ => 1⟩

example : Fails (inputErrors scalar.shape .linear "expand") .runtimeError ∧ Fails (inputErrors scalar.shape .linear "both") .assertionError ∧
    Fails (inputErrors scalar.shape .other "expand") .notImplementedError := by
  simp [Fails, inputErrors, KnownApprox, scalar]

example : Fails (inputErrors image.shape (.conv2d ⟨(2, 2), (1, 1), .str "same", (1, 1), 1⟩) "expand") .notImplementedError ∧
    (¬ ∃ e, Fails (inputErrors image.shape (.conv2d ⟨(2, 2), (1, 1), .str "same", (1, 1), 1⟩) "reduce") e) ∧
    Fails (inputErrors image.shape (.conv2d ⟨(2, 2), (1, 1), .ints (0, 0), (1, 1), 0⟩) "reduce") .zeroDivisionError ∧
    Fails (inputErrors image.shape (.conv2d ⟨(2, 2), (1, 1), .ints (0, 0), (1, 1), 3⟩) "reduce") .runtimeError ∧
    Fails (inputErrors image.shape (.conv2d ⟨(5, 5), (1, 1), .ints (0, 0), (1, 1), 2⟩) "expand") .runtimeError ∧
    Fails (inputErrors image.shape (.conv2d ⟨(3, 3), (2, 2), .str "same", (1, 1), 2⟩) "expand") .valueError := by
  simp [Fails, inputErrors, KnownApprox, image, NoRoom, padded, UnknownPadding]

example : Fails (gradErrors scalar.shape .linear (some "batch") "expand") .indexError ∧ Fails (gradErrors scalar.shape .linear none "expand") .runtimeError ∧
    Fails (gradErrors image.shape .linear (some "sum") "expand") .assertionError ∧ ¬ ∃ e, Fails (gradErrors image.shape .linear (some "batch") "expand") e := by
  simp [Fails, gradErrors, KnownApprox, KnownAverage, scalar, image]

example : denseError (.block 3) 7 5 = some .runtimeError ∧ denseError (.block 3) 7 8 = some .valueError ∧ denseError (.block 0) 3 3 = some .zeroDivisionError ∧
    denseError .tril 2 3 = some .assertionError ∧ denseError .diagonal 2 3 = none ∧ denseError (.topRight (.int 2) .inf .tril .dense) 5 5 = none ∧
    denseError (.topRight (.int 2) .inf .dense .tril) 2 2 = some .runtimeError ∧ denseError (.bottomLeft (.int 2) (.int 3) .dense .dense) 5 5 = some .valueError := by
  decide

example : WF (.block 2) 3 (SM.block ⟨2, T3.ofFn 1 2 2 fun _ _ _ => (1 : ℚ), Mat.eye 1⟩) ∧ (Mat.zeros 4 1 : Mat ℚ).rows ≠ 3 :=
  ⟨.block ⟨by decide, rfl, rfl, rfl, rfl, rfl, rfl⟩, by decide⟩

-- an optimizer that does not train the second layer: looking up its group is a `KeyError`; its weight may be added later, that of the first layer not
example : Reachable supportedStructures (Sample.world Sample.model (.flat [⟨0, true⟩, ⟨1, true⟩]) Sample.args) ∧
    (∃ m ∈ Sample.model.layers, m.kind ≠ .other ∧
      ∀ g ∈ (Sample.world Sample.model (.flat [⟨0, true⟩, ⟨1, true⟩]) Sample.args).opt.groups, m.weight.ptr ∉ g.params) ∧
    (gexec (Construct.defaults Sample.args) (.addGroup ⟨[⟨0, true⟩], id⟩) (Sample.world Sample.model (.flat [⟨0, true⟩, ⟨1, true⟩]) Sample.args)).1 = .error .valueError :=
  ⟨Sample.reachable (by decide +kernel) (by decide +kernel) [], by decide +kernel, by decide +kernel⟩

end
end Errors
