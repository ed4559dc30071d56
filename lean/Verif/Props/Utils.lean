import Verif.Model.Registry
import Verif.Model.Dtype
import Mathlib.Data.List.Nodup
import Mathlib.Data.List.Permutation
import Mathlib.Order.Basic
import Mathlib.Tactic.Common

/-! C18, C19. -/

/-! ### C18 lowest_precision -/

/-- the documented order `float16 < bfloat16 < float32` (`utils.py:147`); other types have no rank -/
def DType.rank : DType → Option Nat
  | .float16 => some 0
  | .bfloat16 => some 1
  | .float32 => some 2
  | _ => none

theorem DType.rank_inj {a b : DType} {k : Nat} (ha : a.rank = some k) (hb : b.rank = some k) : a = b := by
  cases a <;> cases b <;> simp_all [DType.rank] <;> omega

theorem DType.contains_iff (d : DType) : supportedDTypes.contains d = d.rank.isSome := by
  cases d <;> simp [supportedDTypes, DType.rank]

theorem DType.idx_of_rank {d : DType} {k : Nat} (h : d.rank = some k) : supportedDTypes.idxOf d = k := by
  cases d <;> simp [DType.rank] at h <;> subst h <;> decide

theorem DType.at_rank {d : DType} {k : Nat} (h : d.rank = some k) : supportedDTypes[k]? = some d := by
  cases d <;> simp [DType.rank] at h <;> subst h <;> decide

theorem foldl_min_spec (l : List Nat) (x : Nat) :
    (l.foldl min x = x ∨ l.foldl min x ∈ l) ∧ l.foldl min x ≤ x ∧ ∀ y ∈ l, l.foldl min x ≤ y := by
  induction l generalizing x with
  | nil => simp
  | cons a l ih =>
    obtain ⟨h1, h2, h3⟩ := ih (min x a)
    rw [List.foldl_cons]
    refine ⟨?_, by omega, ?_⟩
    · rcases h1 with h | h
      · rcases Nat.le_total x a with h' | h'
        · left; rw [h]; omega
        · right; rw [h, Nat.min_eq_right h']; simp
      · right; exact List.mem_cons_of_mem _ h
    · intro y hy
      rcases List.mem_cons.1 hy with rfl | hy
      · omega
      · exact h3 y hy

theorem pyMin_spec {l : List Nat} (h : l ≠ []) : ∃ v, pyMin l = .ok v ∧ v ∈ l ∧ ∀ y ∈ l, v ≤ y := by
  cases l with
  | nil => exact absurd rfl h
  | cons x l =>
    obtain ⟨h1, h2, h3⟩ := foldl_min_spec l x
    refine ⟨_, rfl, ?_, ?_⟩
    · rcases h1 with h | h
      · rw [h]; simp
      · exact List.mem_cons_of_mem _ h
    · intro y hy
      rcases List.mem_cons.1 hy with rfl | hy
      · exact h2
      · exact h3 y hy

/-- C18: on supported types the result is one of the arguments and a minimum in the documented order. -/
theorem C18_lowest_precision_min {l : List DType} (hne : l ≠ []) (hs : ∀ d ∈ l, d.rank ≠ none) :
    ∃ r, lowestPrecision l = .ok r ∧ r ∈ l ∧ ∀ d ∈ l, ∀ k, d.rank = some k → ∃ m, r.rank = some m ∧ m ≤ k := by
  have h0 : (l.any fun d => !supportedDTypes.contains d) = false := by
    rw [List.any_eq_false]; intro d hd
    rw [DType.contains_iff]
    have := hs d hd
    cases h : d.rank with
    | none => exact absurd h this
    | some k => simp
  obtain ⟨v, e, hv, hle⟩ := pyMin_spec (l := l.map fun d => supportedDTypes.idxOf d) (by simpa using hne)
  obtain ⟨r, hr, rfl⟩ := List.mem_map.1 hv
  have hk : ∃ k, r.rank = some k := Option.ne_none_iff_exists'.1 (hs r hr)
  obtain ⟨k, hk⟩ := hk
  refine ⟨r, ?_, hr, ?_⟩
  · have at' := DType.at_rank hk
    rw [lowestPrecision, h0, e, DType.idx_of_rank hk]
    change ((match supportedDTypes[k]? with | some d => .ok d | none => .error .indexError) : Except PyErr DType) = _
    rw [at']
  · intro d hd k' hk'
    refine ⟨k, hk, ?_⟩
    have := hle _ (List.mem_map.2 ⟨d, hd, rfl⟩)
    rwa [DType.idx_of_rank hk, DType.idx_of_rank hk'] at this

/-- C18: NotImplementedError exactly when some argument has no rank. -/
theorem C18_lowest_precision_error {l : List DType} (hne : l ≠ []) :
    lowestPrecision l = .error .notImplementedError ↔ ∃ d ∈ l, d.rank = none := by
  constructor
  · intro h
    by_contra hcon
    push Not at hcon
    obtain ⟨r, e, -⟩ := C18_lowest_precision_min hne hcon
    rw [e] at h; cases h
  · rintro ⟨d, hd, hr⟩
    rw [lowestPrecision, if_pos]
    rw [List.any_eq_true]
    exact ⟨d, hd, by rw [DType.contains_iff, hr]; rfl⟩

/-- C18: without arguments, and only then, the exception is the `ValueError` of `min`. -/
theorem C18_lowest_precision_empty (l : List DType) : lowestPrecision l = .error .valueError ↔ l = [] := by
  constructor
  · intro h
    by_contra hne
    by_cases hs : ∃ d ∈ l, d.rank = none
    · rw [(C18_lowest_precision_error hne).2 hs] at h; cases h
    · push Not at hs
      obtain ⟨r, e, -⟩ := C18_lowest_precision_min hne hs
      rw [e] at h; cases h
  · rintro rfl
    rfl

/-- C18: the result depends only on the multiset of arguments. -/
theorem C18_lowest_precision_perm {l l' : List DType} (h : l.Perm l') : lowestPrecision l = lowestPrecision l' := by
  by_cases hne : l = []
  · subst hne; rw [List.nil_perm.1 h]
  · have hne' : l' ≠ [] := by rintro rfl; exact hne (List.perm_nil.1 h)
    by_cases hs : ∀ d ∈ l, d.rank ≠ none
    · obtain ⟨r, e, hr, hm⟩ := C18_lowest_precision_min hne hs
      obtain ⟨r', e', hr', hm'⟩ := C18_lowest_precision_min hne' (fun d hd => hs d (h.mem_iff.2 hd))
      rw [e, e']
      obtain ⟨k, hk⟩ := Option.ne_none_iff_exists'.1 (hs r hr)
      obtain ⟨k', hk'⟩ := Option.ne_none_iff_exists'.1 (hs r' (h.mem_iff.2 hr'))
      obtain ⟨m, h1, h2⟩ := hm r' (h.mem_iff.2 hr') k' hk'
      obtain ⟨m', h3, h4⟩ := hm' r (h.mem_iff.1 hr) k hk
      rw [hk] at h1; rw [hk'] at h3
      cases h1; cases h3
      have : k = k' := by omega
      subst this
      rw [DType.rank_inj hk hk']
    · push Not at hs
      obtain ⟨d, hd, hr⟩ := hs
      rw [(C18_lowest_precision_error hne).2 ⟨d, hd, hr⟩, (C18_lowest_precision_error hne').2 ⟨d, h.mem_iff.1 hd, hr⟩]

/-- hypotheses are satisfiable and the result is the documented one -/
example : lowestPrecision [.float32, .bfloat16, .float16, .float32] = .ok .float16 ∧
    lowestPrecision [.float32, .float64] = .error .notImplementedError := by decide +kernel
example : ([DType.float32, .bfloat16] ≠ []) ∧ ∀ d ∈ [DType.float32, .bfloat16], d.rank ≠ none := by decide

/-! ### C19 registry -/

namespace Obj
variable {τ : Type}

/-- Objects that arise from a fresh object by any sequence of registration calls (failing ones included), the
substructures arising in the same way. -/
inductive Reachable : Obj τ → Prop
  | fresh (r : List String) : Reachable (node r [] [])
  | tensor {o : Obj τ} (h : Reachable o) (t : τ) (n : String) : Reachable (registerTensor t n o).2
  | sub {o s : Obj τ} (h : Reachable o) (hs : Reachable s) (n : String) : Reachable (registerSubstructure s n o).2

/-- `Part o p t`: `t` is a tensor of `o` or of a nested substructure; `p` lists its own name followed by the names
of the enclosing substructures, innermost first. -/
inductive Part : Obj τ → List String → τ → Prop
  | own {o : Obj τ} {n : String} {t : τ} (h : (n, t) ∈ o.tensors) : Part o [n] t
  | sub {o s : Obj τ} {n : String} {p : List String} {t : τ} (h : (n, s) ∈ o.subs) (hp : Part s p t) :
      Part o (p ++ [n]) t

/-- no name on the way to a tensor contains a dot (true for every Python identifier) -/
def DotFree (o : Obj τ) : Prop := ∀ p t, Part o p t → ∀ s ∈ p, '.' ∉ s.toList

/-- all attribute names registered on the object itself -/
def names (o : Obj τ) : List String := o.tensors.map Prod.fst ++ o.subs.map Prod.fst

theorem hasAttr_iff (o : Obj τ) (n : String) : o.hasAttr n = true ↔ n ∈ o.reserved ∨ n ∈ o.names := by
  simp only [hasAttr, names, Bool.or_eq_true, List.contains_iff_mem, List.mem_append, or_assoc]

/-- C19: a taken name is rejected and the object is unchanged; a free name is appended. -/
theorem C19_register (o s : Obj τ) (t : τ) (n : String) :
    (n ∈ o.reserved ∨ n ∈ o.names → registerTensor t n o = (.error .valueError, o) ∧
      registerSubstructure s n o = (.error .valueError, o)) ∧
    (¬(n ∈ o.reserved ∨ n ∈ o.names) →
      (∃ o', registerTensor t n o = (.ok (), o') ∧ o'.tensors = o.tensors ++ [(n, t)] ∧ o'.subs = o.subs ∧
        o'.reserved = o.reserved) ∧
      (∃ o', registerSubstructure s n o = (.ok (), o') ∧ o'.tensors = o.tensors ∧ o'.subs = o.subs ++ [(n, s)] ∧
        o'.reserved = o.reserved)) := by
  constructor
  · intro h
    have h := (hasAttr_iff o n).2 h
    constructor
    · show (if o.hasAttr n = true then _ else _ : Py (Obj τ) Unit) o = _; rw [if_pos h]; rfl
    · show (if o.hasAttr n = true then _ else _ : Py (Obj τ) Unit) o = _; rw [if_pos h]; rfl
  · intro h
    have h : ¬ o.hasAttr n = true := fun e => h ((hasAttr_iff o n).1 e)
    constructor
    · refine ⟨node o.reserved (o.tensors ++ [(n, t)]) o.subs, ?_, rfl, rfl, rfl⟩
      show (if o.hasAttr n = true then _ else _ : Py (Obj τ) Unit) o = _; rw [if_neg h]; rfl
    · refine ⟨node o.reserved o.tensors (o.subs ++ [(n, s)]), ?_, rfl, rfl, rfl⟩
      show (if o.hasAttr n = true then _ else _ : Py (Obj τ) Unit) o = _; rw [if_neg h]; rfl

/-- the registry invariant, at this object and all nested ones -/
inductive Good : Obj τ → Prop
  | mk {o : Obj τ} (nd : o.names.Nodup) (dj : ∀ n ∈ o.names, n ∉ o.reserved) (sub : ∀ p ∈ o.subs, Good p.2) : Good o

theorem Good.nd {o : Obj τ} (h : Good o) : o.names.Nodup := by cases h; assumption
theorem Good.dj {o : Obj τ} (h : Good o) : ∀ n ∈ o.names, n ∉ o.reserved := by cases h; assumption
theorem Good.sub {o : Obj τ} (h : Good o) : ∀ p ∈ o.subs, Good p.2 := by cases h; assumption

/-- the invariant holds in every reachable object -/
theorem Reachable.good {o : Obj τ} (h : Reachable o) : Good o := by
  induction h with
  | fresh r => exact ⟨by simp [names, tensors, subs], by simp [names, tensors, subs], by simp [subs]⟩
  | @tensor o h t n ih =>
    have C := C19_register o o t n
    by_cases hn : n ∈ o.reserved ∨ n ∈ o.names
    · rw [(C.1 hn).1]; exact ih
    · obtain ⟨o', e, h1, h2, h3⟩ := (C.2 hn).1
      rw [e]
      push Not at hn
      have hnm : o'.names.Perm (n :: o.names) := by
        simp only [names, h1, h2, List.map_append, List.map_cons, List.map_nil, List.append_assoc]
        exact List.perm_middle
      refine ⟨hnm.nodup_iff.2 (List.nodup_cons.2 ⟨hn.2, ih.nd⟩), ?_, by simpa [h2] using ih.sub⟩
      intro m hm
      rw [h3]
      rcases List.mem_cons.1 (hnm.mem_iff.1 hm) with rfl | hm
      · exact hn.1
      · exact ih.dj m hm
  | @sub o s h hs n ih ihs =>
    cases ht : o.tensors with
    | _ =>
    by_cases hn : n ∈ o.reserved ∨ n ∈ o.names
    · have : registerSubstructure s n o = (.error .valueError, o) := by
        have h := (hasAttr_iff o n).2 hn
        show (if o.hasAttr n = true then _ else _ : Py (Obj τ) Unit) o = _; rw [if_pos h]; rfl
      rw [this]; exact ih
    · have e : registerSubstructure s n o = (.ok (), node o.reserved o.tensors (o.subs ++ [(n, s)])) := by
        have h : ¬ o.hasAttr n = true := fun e => hn ((hasAttr_iff o n).1 e)
        show (if o.hasAttr n = true then _ else _ : Py (Obj τ) Unit) o = _; rw [if_neg h]; rfl
      rw [e]
      push Not at hn
      have hnm : (node o.reserved o.tensors (o.subs ++ [(n, s)])).names.Perm (n :: o.names) := by
        simp only [names, tensors, subs, List.map_append, List.map_cons, List.map_nil]
        rw [← List.append_assoc]
        exact List.perm_append_singleton _ _
      refine ⟨hnm.nodup_iff.2 (List.nodup_cons.2 ⟨hn.2, ih.nd⟩), ?_, ?_⟩
      · intro m hm
        rcases List.mem_cons.1 (hnm.mem_iff.1 hm) with rfl | hm
        · exact hn.1
        · exact ih.dj m hm
      · intro p hp
        rcases List.mem_append.1 hp with hp | hp
        · exact ih.sub p hp
        · rw [List.mem_singleton.1 hp]; exact ihs

/-- C19: names of registered parts are unique and never shadow existing attributes. -/
theorem C19_names_unique {o : Obj τ} (h : Reachable o) :
    o.names.Nodup ∧ (∀ n ∈ o.names, n ∉ o.reserved) := ⟨h.good.nd, h.good.dj⟩

theorem named_eq (o : Obj τ) : o.named = o.tensors ++ namedSubs o.subs := by cases o; rw [named]; rfl

theorem namedSubs_eq (l : List (String × Obj τ)) :
    namedSubs l = l.flatMap fun p => p.2.named.map fun q => (q.1 ++ "." ++ p.1, q.2) := by
  induction l with
  | nil => rw [namedSubs]; rfl
  | cons p l ih => obtain ⟨s, o⟩ := p; rw [namedSubs, ih, List.flatMap_cons, namedSub]

/-- induction over the nesting of objects -/
theorem rec_subs {P : Obj τ → Prop} (h : ∀ o, (∀ p ∈ o.subs, P p.2) → P o) : ∀ o, P o := by
  intro o
  induction o using Obj.rec (motive_2 := fun l => ∀ p ∈ l, P p.2) (motive_3 := fun p => P p.2) with
  | node r t s ih => exact h _ ih
  | nil => simp_all
  | cons p l ihp ihl =>
    rename_i q hq
    rcases List.mem_cons.1 hq with rfl | hq
    · exact ihp
    · exact ihl q hq
  | mk n o ih => exact ih

/-- the name `f"{name}.{subname}"`, nested -/
def render : List String → String
  | [] => ""
  | n :: p => p.foldl (fun acc s => acc ++ "." ++ s) n

theorem render_snoc {p : List String} (hp : p ≠ []) (n : String) : render (p ++ [n]) = render p ++ "." ++ n := by
  cases p with
  | nil => exact absurd rfl hp
  | cons a p => simp [render, List.foldl_append]

theorem Part.ne_nil {o : Obj τ} {p : List String} {t : τ} (h : Part o p t) : p ≠ [] := by
  cases h <;> simp

/-- C19: `named_tensors` lists exactly the tensors of the object and of all nested substructures, each under the
name of its path, and starts with the object's own tensors. -/
theorem C19_named_tensors_complete (o : Obj τ) :
    (∀ n t, (n, t) ∈ o.named ↔ ∃ p, Part o p t ∧ n = render p) ∧ o.tensors <+: o.named := by
  refine ⟨?_, by rw [named_eq]; exact List.prefix_append _ _⟩
  induction o using rec_subs with
  | h o ih =>
    intro n t
    rw [named_eq, namedSubs_eq, List.mem_append, List.mem_flatMap]
    constructor
    · rintro (h | ⟨⟨s, o'⟩, hs, h⟩)
      · exact ⟨[n], .own h, rfl⟩
      · obtain ⟨⟨m, t'⟩, hm, e⟩ := List.mem_map.1 h
        cases e
        obtain ⟨p, hp, rfl⟩ := (ih _ hs m t').1 hm
        exact ⟨p ++ [s], .sub hs hp, (render_snoc hp.ne_nil s).symm⟩
    · rintro ⟨p, hp, rfl⟩
      cases hp with
      | own h => exact .inl h
      | sub h hp =>
        rename_i s n p
        right
        refine ⟨_, h, List.mem_map.2 ⟨(render p, t), (ih _ h _ _).2 ⟨p, hp, rfl⟩, ?_⟩⟩
        rw [render_snoc hp.ne_nil]

theorem append_dot_inj {a b s t : List Char} (hs : '.' ∉ s) (ht : '.' ∉ t) (h : a ++ '.' :: s = b ++ '.' :: t) :
    a = b ∧ s = t := by
  have key : ∀ (a s : List Char), '.' ∉ s → (a ++ '.' :: s).reverse.takeWhile (· ≠ '.') = s.reverse := by
    intro a s hs
    rw [List.reverse_append, List.reverse_cons, List.append_assoc, List.takeWhile_append_of_pos]
    · simp
    · intro x hx
      have : x ≠ '.' := by rintro rfl; exact hs (List.mem_reverse.1 hx)
      simpa using this
  have e : s = t := by
    have := key a s hs
    rw [h, key b t ht] at this
    exact (List.reverse_injective this).symm
  subst e
  exact ⟨List.append_cancel_right h, rfl⟩

theorem dot_name_inj {a b s t : String} (hs : '.' ∉ s.toList) (ht : '.' ∉ t.toList) (h : a ++ "." ++ s = b ++ "." ++ t) :
    a = b ∧ s = t := by
  have h' := congrArg String.toList h
  simp only [String.toList_append] at h'
  have e : (".":String).toList = ['.'] := rfl
  rw [e, List.append_assoc, List.append_assoc] at h'
  obtain ⟨h1, h2⟩ := append_dot_inj hs ht h'
  exact ⟨String.toList_injective h1, String.toList_injective h2⟩

/-- C19: no name is listed twice. -/
theorem C19_named_tensors_nodup {o : Obj τ} (h : Reachable o) (hd : DotFree o) : (o.named.map Prod.fst).Nodup := by
  have := h.good
  clear h
  induction o using rec_subs with
  | h o ih =>
    rw [named_eq, List.map_append, List.nodup_append']
    have nd := this.nd
    rw [names, List.nodup_append'] at nd
    have hown : ∀ n ∈ o.tensors.map Prod.fst, '.' ∉ n.toList := by
      intro n hn
      obtain ⟨⟨n, t⟩, hm, rfl⟩ := List.mem_map.1 hn
      exact hd [n] t (.own hm) n (by simp)
    refine ⟨nd.1, ?_, ?_⟩
    · have hsubs : ∀ p ∈ o.subs, Good p.2 ∧ (p.2.named.map Prod.fst).Nodup ∧ (p.2.named ≠ [] → '.' ∉ p.1.toList) := by
        intro p hp
        obtain ⟨s, o'⟩ := p
        refine ⟨this.sub _ hp, ih _ hp (fun q t hq r hr => ?_) (this.sub _ hp), ?_⟩
        · exact hd _ _ (.sub hp hq) r (by simp [hr])
        · intro hne
          obtain ⟨⟨n, t⟩, hx⟩ := List.exists_mem_of_ne_nil _ hne
          obtain ⟨q, hq, -⟩ := ((C19_named_tensors_complete o').1 n t).1 hx
          exact hd _ _ (.sub hp hq) s (by simp)
      have nds := nd.2.1
      revert hsubs nds
      generalize o.subs = l
      intro hsubs nds
      rw [namedSubs_eq]
      induction l with
      | nil => simp
      | cons p l ihl =>
        rw [List.flatMap_cons, List.map_append, List.nodup_append']
        rw [List.map_cons, List.nodup_cons] at nds
        refine ⟨?_, ihl (fun q hq => hsubs q (List.mem_cons_of_mem _ hq)) nds.2, ?_⟩
        · rw [List.map_map]
          have e : (Prod.fst ∘ fun q : String × τ => (q.1 ++ "." ++ p.1, q.2)) = (fun n => n ++ "." ++ p.1) ∘ Prod.fst := rfl
          rw [e, ← List.map_map]
          obtain ⟨-, h2, h3⟩ := hsubs p (by simp)
          refine h2.map_on ?_
          intro x hx y hy hxy
          obtain ⟨q, hq, -⟩ := List.mem_map.1 hx
          have hdot := h3 (by rintro h; rw [h] at hq; simp at hq)
          exact (dot_name_inj hdot hdot hxy).1
        · intro n hn hn'
          obtain ⟨q, hq, rfl⟩ := List.mem_map.1 hn
          obtain ⟨q0, hq0, rfl⟩ := List.mem_map.1 hq
          obtain ⟨r, hr, er⟩ := List.mem_map.1 hn'
          obtain ⟨p', hp', hr⟩ := List.mem_flatMap.1 hr
          obtain ⟨r0, hr0, rfl⟩ := List.mem_map.1 hr
          have d1 := (hsubs p (by simp)).2.2 (by rintro h; rw [h] at hq0; simp at hq0)
          have d2 := (hsubs p' (List.mem_cons_of_mem _ hp')).2.2 (by rintro h; rw [h] at hr0; simp at hr0)
          have := (dot_name_inj d2 d1 er).2
          exact nds.1 (this ▸ List.mem_map.2 ⟨p', hp', rfl⟩)
    · intro n hn hn'
      rw [namedSubs_eq] at hn'
      obtain ⟨r, hr, rfl⟩ := List.mem_map.1 hn'
      obtain ⟨p', hp', hr⟩ := List.mem_flatMap.1 hr
      obtain ⟨r0, hr0, rfl⟩ := List.mem_map.1 hr
      apply hown _ hn
      simp [String.toList_append]

/-- the object of a recursive matrix whose blocks `A`, `C` are dense: built by registration calls -/
def exLeaf : Obj ℕ := (registerTensor 7 "_mat" (node ["from_dense"] [] [])).2
def exRec : Obj ℕ :=
  (registerSubstructure exLeaf "C" (registerTensor 5 "B" (registerSubstructure exLeaf "A" (node ["from_dense"] [] [])).2).2).2
example : Reachable exRec := .sub (.tensor (.sub (.fresh _) (.tensor (.fresh _) _ _) _) _ _) (.tensor (.fresh _) _ _) _
example : exRec.named = [("B", 5), ("_mat.A", 7), ("_mat.C", 7)] := by decide +kernel
example : DotFree exRec := by
  intro p t hp s hs
  have : ∀ (o : Obj ℕ) p t, Part o p t → o = exLeaf ∨ o = exRec → ∀ s ∈ p, s = "_mat" ∨ s = "A" ∨ s = "B" ∨ s = "C" := by
    intro o p t hp
    induction hp with
    | @own o n t h =>
      rintro (rfl | rfl) s hs
      · have : (n, t) ∈ [("_mat", 7)] := h
        simp at this hs; subst hs; simp [this]
      · have : (n, t) ∈ [("B", 5)] := h
        simp at this hs; subst hs; simp [this]
    | @sub o s n p t h hp ih =>
      rintro (rfl | rfl) s' hs'
      · have : (n, s) ∈ ([] : List (String × Obj ℕ)) := h
        simp at this
      · have : (n, s) ∈ [("A", exLeaf), ("C", exLeaf)] := h
        simp at this
        rcases List.mem_append.1 hs' with hs' | hs'
        · exact ih (.inl (by rcases this with h | h <;> exact h.2)) s' hs'
        · simp at hs'; subst hs'
          rcases this with h | h <;> simp [h.1]
  rcases this exRec p t hp (.inr rfl) s hs with rfl | rfl | rfl | rfl <;> decide
/-- a taken name is rejected and nothing changes -/
example : registerTensor 9 "A" exRec = (.error .valueError, exRec) :=
  ((C19_register exRec exRec 9 "A").1 (.inr (by decide))).1
/-- without the dot-free condition two tensors can be listed under one name -/
theorem C19_dotted_names_clash : ∃ o : Obj ℕ, Reachable o ∧ ¬ (o.named.map Prod.fst).Nodup :=
  ⟨(registerSubstructure exLeaf "A" (registerTensor 5 "_mat.A" (node [] [] [])).2).2,
    .sub (.tensor (.fresh _) _ _) (.tensor (.fresh _) _ _) _, by decide +kernel⟩
end Obj
