import Verif.Model.Async
import Verif.Props.AllReduce

/-! # C87: asynchronous reductions -/

namespace As

open State

variable {α : Type} [Field α] {R : ℕ} {op : ReduceOp}

/-- the contents of the tensor that rank `r` hands over, if the event is such a call -/
def contents (s : State α R) (r : Fin R) : Act α R → List (List α)
  | .call q l _ => if q = r then [l.map (s.mem r).val] else []
  | _ => []

/-- the contents of the tensors that rank `r` hands over, at the times of its calls -/
def handed (op : ReduceOp) (r : Fin R) : List (Act α R) → State α R → List (List α)
  | [], _ => []
  | a :: as, s => contents s r a ++ (match act op s a with
    | some s' => handed op r as s'
    | none => [])

/-- The program respects communication in flight: between a call and the wait for it, it stores nothing to the memory handed over and does not hand it over again; what it hands
over exists and does not overlap itself. -/
def Polite (s : State α R) : Act α R → Prop
  | .write r a _ => ∀ k e, s.waited r k = false → s.cell r k e ≠ some a
  | .call r l _ => l.Nodup ∧ ∀ a ∈ l, a < (s.mem r).next ∧ ∀ k e, s.waited r k = false → s.cell r k e ≠ some a
  | _ => True

/-- all events are polite -/
def AllPolite (op : ReduceOp) : List (Act α R) → State α R → Prop
  | [], _ => True
  | a :: as, s => Polite s a ∧ ∀ s', act op s a = some s' → AllPolite op as s'

/-- entry `e` of the `k`-th list -/
def entry {β : Type} (l : List (List β)) (k e : ℕ) : Option β := l[k]?.bind (·[e]?)

theorem cell_eq (s : State α R) (r : Fin R) (k e : ℕ) : s.cell r k e = entry (s.jobs r) k e := rfl

theorem entry_append_left {β : Type} {l : List (List β)} {x : List β} {k e : ℕ} (h : k ≠ l.length) : entry (l ++ [x]) k e = entry l k e := by
  unfold entry
  rcases lt_or_gt_of_ne h with h | h
  · rw [List.getElem?_append_left h]
  · rw [List.getElem?_eq_none (by simp; omega), List.getElem?_eq_none (by omega)]

theorem entry_append_self {β : Type} {l : List (List β)} {x : List β} {e : ℕ} : entry (l ++ [x]) l.length e = x[e]? := by
  simp [entry]

theorem entry_lt {β : Type} {l : List (List β)} {k e : ℕ} {a : β} (h : entry l k e = some a) : k < l.length := by
  unfold entry at h
  by_contra hc
  rw [List.getElem?_eq_none (by omega)] at h
  simp at h

/-- the state of communication, in terms of what was handed over (`h`) -/
structure Inv (op : ReduceOp) (h : Fin R → List (List α)) (s : State α R) : Prop where
  len : ∀ r, (h r).map List.length = (s.jobs r).map List.length
  tcell : ∀ r k e, s.took r k e ≠ none → ∃ a, s.cell r k e = some a
  tval : ∀ r k e v, s.took r k e = some v → entry (h r) k e = some v
  gtook : ∀ r k e, s.gave r k e = true → ∀ q, s.took q k e ≠ none
  fresh : ∀ r k e a, s.waited r k = false → s.cell r k e = some a → s.took r k e = none → entry (h r) k e = some ((s.mem r).val a)
  done : ∀ r k e a, s.waited r k = false → s.cell r k e = some a → s.gave r k e = true →
    (s.mem r).val a = op.factor R * ∑ q, (entry (h q) k e).getD 0
  inj : ∀ r k e j i a, s.waited r k = false → s.waited r j = false → s.cell r k e = some a → s.cell r j i = some a → k = j ∧ e = i
  wait : ∀ r k, s.waited r k = true → s.complete r k = true
  bound : ∀ r k e a, s.cell r k e = some a → a < (s.mem r).next

theorem complete_gave {s : State α R} {r : Fin R} {k e a : ℕ} (h : s.complete r k = true) (hc : s.cell r k e = some a) : s.gave r k e = true := by
  unfold complete at h
  rw [cell_eq, entry] at hc
  rcases hl : (s.jobs r)[k]? with - | l
  · simp [hl] at hc
  · rw [hl] at h hc
    simp only [List.all_eq_true, List.mem_range] at h
    refine h e ?_
    simp only [Option.bind_some] at hc
    exact (List.getElem?_eq_some_iff.1 hc).1

theorem Inv.start (mem : Fin R → Mem α) : Inv op (fun _ => []) (State.start mem) := by
  constructor <;> intros <;> simp_all [State.start, State.cell]

theorem entry_len {β γ : Type} {l : List (List β)} {l' : List (List γ)} (h : l.map List.length = l'.map List.length) (k e : ℕ) :
    (entry l k e).isSome = (entry l' k e).isSome := by
  have h1 := congrArg (·[k]?) h
  simp only [List.getElem?_map] at h1
  unfold entry
  rcases h2 : l[k]? with - | x <;> rcases h3 : l'[k]? with - | y <;> rw [h2, h3] at h1 <;> simp at h1
  · rfl
  · simp only [Option.bind_some]
    by_cases he : e < x.length
    · rw [List.getElem?_eq_getElem he, List.getElem?_eq_getElem (h1 ▸ he)]; rfl
    · rw [List.getElem?_eq_none (by omega), List.getElem?_eq_none (by omega)]; rfl

/-- a number is stored where no entry in flight is -/
theorem Inv.store {h : Fin R → List (List α)} {s : State α R} (i : Inv op h s) {r : Fin R} {a : ℕ} {v : α}
    (ha : ∀ k e, s.waited r k = false → s.cell r k e ≠ some a) : Inv op h (s.store r a v) := by
  have hm : ∀ q k e b, s.waited q k = false → s.cell q k e = some b → ((s.store r a v).mem q).val b = (s.mem q).val b := by
    intro q k e b hq hb
    unfold State.store
    by_cases e : q = r
    · subst e
      have : b ≠ a := fun hba => ha _ _ hq (hba ▸ hb)
      simp [this]
    · simp [e]
  have hn : ∀ q, ((s.store r a v).mem q).next = (s.mem q).next := by
    intro q
    unfold State.store
    by_cases e : q = r
    · subst e; simp
    · simp [e]
  exact ⟨i.len, i.tcell, i.tval, i.gtook, fun q k e b hw hc ht => by rw [hm q k e b hw hc]; exact i.fresh q k e b hw hc ht,
    fun q k e b hw hc hg => by rw [hm q k e b hw hc]; exact i.done q k e b hw hc hg, i.inj, i.wait, fun q k e b hc => by rw [hn]; exact i.bound q k e b hc⟩

theorem Inv.wait' {h : Fin R → List (List α)} {s : State α R} (i : Inv op h s) {r : Fin R} {k : ℕ} (hc : s.complete r k = true) :
    Inv op h { s with waited := fun q j => if q = r ∧ j = k then true else s.waited q j } := by
  have hw : ∀ q j, (if q = r ∧ j = k then true else s.waited q j) = false → s.waited q j = false := by
    intro q j; split <;> simp
  refine ⟨i.len, i.tcell, i.tval, i.gtook, fun q j e b h1 => i.fresh q j e b (hw q j h1), fun q j e b h1 => i.done q j e b (hw q j h1),
    fun q j e j' e' b h1 h2 => i.inj q j e j' e' b (hw _ _ h1) (hw _ _ h2), fun q j h1 => ?_, i.bound⟩
  by_cases e : q = r ∧ j = k
  · obtain ⟨rfl, rfl⟩ := e; exact hc
  · simp only [e, if_false] at h1
    exact i.wait q j h1

theorem Inv.take {h : Fin R → List (List α)} {s : State α R} (i : Inv op h s) {r : Fin R} {k e a : ℕ} (hc : s.cell r k e = some a)
    (ht : s.took r k e = none) :
    Inv op h { s with took := fun q j i => if q = r ∧ j = k ∧ i = e then some ((s.mem r).val a) else s.took q j i } := by
  have hw : s.waited r k = false := by
    by_contra hw
    have h1 := complete_gave (i.wait r k (by simpa using hw)) hc
    exact i.gtook r k e h1 r ht
  refine ⟨i.len, fun q j l hq => ?_, fun q j l v hq => ?_, fun q j l hg p => ?_, fun q j l b h1 h2 h3 => ?_, i.done, i.inj, i.wait, i.bound⟩
  · by_cases c : q = r ∧ j = k ∧ l = e
    · obtain ⟨rfl, rfl, rfl⟩ := c; exact ⟨a, hc⟩
    · simp only [c, if_false] at hq; exact i.tcell q j l hq
  · by_cases c : q = r ∧ j = k ∧ l = e
    · obtain ⟨rfl, rfl, rfl⟩ := c
      simp only [and_self, if_true, Option.some.injEq] at hq
      rw [← hq]; exact i.fresh _ _ _ _ hw hc ht
    · simp only [c, if_false] at hq; exact i.tval q j l v hq
  · have := i.gtook q j l hg p
    dsimp only
    split <;> simp_all
  · by_cases c : q = r ∧ j = k ∧ l = e
    · simp [c] at h3
    · simp only [c, if_false] at h3; exact i.fresh q j l b h1 h2 h3

/-- the library writes to the memory of an entry it has read -/
theorem Inv.scratch {h : Fin R → List (List α)} {s : State α R} (i : Inv op h s) {r : Fin R} {k e a : ℕ} {v : α} (hc : s.cell r k e = some a)
    (ht : s.took r k e ≠ none) (hg : s.gave r k e = false) : Inv op h (s.store r a v) := by
  have hw : s.waited r k = false := by
    by_contra hw
    have h1 := complete_gave (i.wait r k (by simpa using hw)) hc
    simp [h1] at hg
  have hm : ∀ q j l b, s.waited q j = false → s.cell q j l = some b → ¬ (q = r ∧ j = k ∧ l = e) → ((s.store r a v).mem q).val b = (s.mem q).val b := by
    intro q j l b hq hb hn
    unfold State.store
    by_cases e' : q = r
    · subst e'
      have : b ≠ a := by
        rintro rfl
        obtain ⟨rfl, rfl⟩ := i.inj _ _ _ _ _ _ hq hw hb hc
        exact hn ⟨rfl, rfl, rfl⟩
      simp [this]
    · simp [e']
  have hn : ∀ q, ((s.store r a v).mem q).next = (s.mem q).next := by
    intro q
    unfold State.store
    by_cases e : q = r
    · subst e; simp
    · simp [e]
  refine ⟨i.len, i.tcell, i.tval, i.gtook, fun q j l b h1 h2 h3 => ?_, fun q j l b h1 h2 h3 => ?_, i.inj, i.wait, fun q j l b h1 => by rw [hn]; exact i.bound q j l b h1⟩
  · rw [hm q j l b h1 h2 (by rintro ⟨rfl, rfl, rfl⟩; exact ht h3)]
    exact i.fresh q j l b h1 h2 h3
  · rw [hm q j l b h1 h2 (by rintro ⟨rfl, rfl, rfl⟩; exact absurd h3 (by simp [State.store, hg]))]
    exact i.done q j l b h1 h2 h3

theorem result_eq {h : Fin R → List (List α)} {s : State α R} (i : Inv op h s) {k e : ℕ} {v : α} (hr : s.result op k e = some v) :
    (∀ q, s.took q k e ≠ none) ∧ v = op.factor R * ∑ q, (entry (h q) k e).getD 0 := by
  unfold result at hr
  split at hr
  · rename_i ha
    refine ⟨fun q hq => by simpa [hq] using ha q, ?_⟩
    rw [← Option.some.inj hr]
    congr 1
    refine Finset.sum_congr rfl fun q _ => ?_
    obtain ⟨x, hx⟩ := Option.isSome_iff_exists.1 (ha q)
    rw [i.tval q k e x hx, hx]
  · simp at hr

theorem Inv.give {h : Fin R → List (List α)} {s : State α R} (i : Inv op h s) {r : Fin R} {k e a : ℕ} {v : α} (hc : s.cell r k e = some a)
    (hv : s.result op k e = some v) (hg : s.gave r k e = false) :
    Inv op h { s.store r a v with gave := fun q j i => if q = r ∧ j = k ∧ i = e then true else s.gave q j i } := by
  obtain ⟨ht, rfl⟩ := result_eq i hv
  have i' := i.scratch (v := op.factor R * ∑ q, (entry (h q) k e).getD 0) hc (ht r) hg
  refine ⟨i'.len, i'.tcell, i'.tval, fun q j l h1 => ?_, i'.fresh, fun q j l b h1 h2 h3 => ?_, i'.inj, fun q j h1 => ?_, i'.bound⟩
  · by_cases c : q = r ∧ j = k ∧ l = e
    · obtain ⟨rfl, rfl, rfl⟩ := c; exact ht
    · simp only [c, if_false] at h1; exact i.gtook q j l h1
  · by_cases c : q = r ∧ j = k ∧ l = e
    · obtain ⟨rfl, rfl, rfl⟩ := c
      have : b = a := by
        have h2' : s.cell q j l = some b := h2
        rw [hc] at h2'; exact (Option.some.inj h2').symm
      subst this
      simp [State.store]
    · simp only [c, if_false] at h3; exact i'.done q j l b h1 h2 h3
  · have h2 := i.wait q j h1
    unfold complete at h2 ⊢
    change (match (s.jobs q)[j]? with | none => false | some l => _) = true
    rcases hl : (s.jobs q)[j]? with - | l
    · simp [hl] at h2
    · rw [hl] at h2
      simp only [List.all_eq_true, List.mem_range] at h2 ⊢
      intro x hx
      rw [h2 x hx]
      simp

theorem contiguous_len (m : Mem α) (l : List ℕ) (c : Bool) : (contiguous m l c).1.length = l.length := by
  unfold contiguous
  cases c <;> simp

theorem contiguous_val {m : Mem α} {l : List ℕ} {c : Bool} {a : ℕ} (ha : a < m.next) : (contiguous m l c).2.val a = m.val a := by
  unfold contiguous
  cases c
  · simp; omega
  · rfl

theorem contiguous_next (m : Mem α) (l : List ℕ) (c : Bool) : m.next ≤ (contiguous m l c).2.next := by
  unfold contiguous
  cases c <;> simp

theorem contiguous_mem {m : Mem α} {l : List ℕ} {c : Bool} (hl : ∀ a ∈ l, a < m.next) {a : ℕ} (ha : a ∈ (contiguous m l c).1) :
    a < (contiguous m l c).2.next ∧ (c = true ∧ a ∈ l ∨ m.next ≤ a) := by
  unfold contiguous at ha ⊢
  cases c
  · simp at ha ⊢; obtain ⟨x, hx, rfl⟩ := ha; omega
  · simp at ha ⊢; exact ⟨hl a ha, Or.inl ha⟩

theorem contiguous_nodup {m : Mem α} {l : List ℕ} {c : Bool} (hl : l.Nodup) : (contiguous m l c).1.Nodup := by
  unfold contiguous
  cases c
  · exact List.nodup_range.map (fun x y h => by simpa using h)
  · exact hl

theorem contiguous_read {m : Mem α} {l : List ℕ} {c : Bool} {e a : ℕ} (ha : (contiguous m l c).1[e]? = some a) :
    (l.map m.val)[e]? = some ((contiguous m l c).2.val a) := by
  unfold contiguous at ha ⊢
  cases c
  · simp only [Bool.false_eq_true, if_false, List.getElem?_map, Option.map_eq_some_iff] at ha ⊢
    obtain ⟨x, hx, rfl⟩ := ha
    obtain ⟨h1, h2⟩ := List.getElem?_eq_some_iff.1 hx
    simp at h1 h2
    subst h2
    exact ⟨l[e], by simp [h1], by simp [h1]⟩
  · simp at ha ⊢
    exact ⟨a, ha, rfl⟩

theorem Inv.call {h : Fin R → List (List α)} {s : State α R} (i : Inv op h s) {r : Fin R} {l : List ℕ} {c : Bool} (hp : Polite s (.call r l c)) :
    Inv op (fun q => h q ++ if r = q then [l.map (s.mem q).val] else []) { s with
      mem := fun q => if q = r then (contiguous (s.mem r) l c).2 else s.mem q
      jobs := fun q => if q = r then s.jobs r ++ [(contiguous (s.mem r) l c).1] else s.jobs q } := by
  obtain ⟨hd, hl⟩ := hp
  have lr : (h r).length = (s.jobs r).length := by simpa using congrArg List.length (i.len r)
  set s' : State α R := { s with
      mem := fun q => if q = r then (contiguous (s.mem r) l c).2 else s.mem q
      jobs := fun q => if q = r then s.jobs r ++ [(contiguous (s.mem r) l c).1] else s.jobs q } with hs'
  -- entries: old ones and new ones
  have cold : ∀ q k e, ¬ (q = r ∧ k = (s.jobs r).length) → s'.cell q k e = s.cell q k e := by
    intro q k e hn
    rw [cell_eq, cell_eq, hs']
    by_cases hq : q = r
    · subst hq
      simp only [if_true]
      exact entry_append_left fun hk => hn ⟨rfl, hk⟩
    · simp only [if_neg hq]
  have cnew : ∀ e : ℕ, s'.cell r (s.jobs r).length e = (contiguous (s.mem r) l c).1[e]? := by
    intro e
    rw [cell_eq, hs']
    simp only [if_true]
    exact entry_append_self
  have none_new : ∀ e, s.cell r (s.jobs r).length e = none := by
    intro e
    rw [cell_eq, entry]
    simp
  have hold : ∀ q k e, ¬ (q = r ∧ k = (s.jobs r).length) → entry (h q ++ if r = q then [l.map (s.mem q).val] else []) k e = entry (h q) k e := by
    intro q k e hn
    by_cases hq : r = q
    · subst hq
      simp only [if_true]
      exact entry_append_left fun hk => hn ⟨rfl, hk.trans lr⟩
    · simp only [if_neg hq, List.append_nil]
  have hnew : ∀ e : ℕ, entry (h r ++ if r = r then [l.map (s.mem r).val] else []) (s.jobs r).length e = (l.map (s.mem r).val)[e]? := by
    intro e
    rw [← lr]
    simp only [if_true]
    exact entry_append_self
  have mold : ∀ q a, a < (s.mem q).next → (s'.mem q).val a = (s.mem q).val a := by
    intro q a ha
    rw [hs']
    by_cases hq : q = r
    · subst hq; simp only [if_true]; exact contiguous_val ha
    · simp only [if_neg hq]
  have took_new : ∀ e, s.took r (s.jobs r).length e = none := by
    intro e
    by_contra hc
    obtain ⟨a, ha⟩ := i.tcell _ _ _ hc
    rw [none_new] at ha; simp at ha
  have gave_new : ∀ q e, s.gave q (s.jobs r).length e = false := by
    intro q e
    by_contra hc
    exact i.gtook _ _ _ (by simpa using hc) r (took_new e)
  have wait_new : s.waited r (s.jobs r).length = false := by
    by_contra hc
    have := i.wait r _ (by simpa using hc)
    simp [complete] at this
  have memcell : ∀ (e a : ℕ), (contiguous (s.mem r) l c).1[e]? = some a → a < (contiguous (s.mem r) l c).2.next ∧ (c = true ∧ a ∈ l ∨ (s.mem r).next ≤ a) :=
    fun e a ha => contiguous_mem (fun a ha => (hl a ha).1) (List.mem_of_getElem? ha)
  -- a new entry is no old one
  have apart : ∀ (k e e' : ℕ) (a : ℕ), s.waited r k = false → s.cell r k e = some a → (contiguous (s.mem r) l c).1[e']? = some a → False := by
    intro k e e' a hw h1 h2
    rcases (memcell e' a h2).2 with ⟨-, h3⟩ | h3
    · exact (hl a h3).2 k e hw h1
    · have := i.bound r k e a h1; omega
  refine ⟨fun q => ?_, fun q k e hq => ?_, fun q k e v hq => ?_, fun q k e hg => i.gtook q k e hg, fun q k e a hw hc ht => ?_, fun q k e a hw hc hg => ?_,
    fun q k e j f a h1 h2 h3 h4 => ?_, fun q k hw => ?_, fun q k e a hc => ?_⟩
  · rw [hs']
    by_cases hq : r = q
    · subst hq
      simp only [if_true, List.map_append, i.len, List.map_cons, List.map_nil, List.length_map, contiguous_len]
    · simp only [if_neg hq, if_neg (Ne.symm hq), List.append_nil, i.len]
  · obtain ⟨a, ha⟩ := i.tcell q k e hq
    refine ⟨a, ?_⟩
    rw [cold q k e ?_]
    · exact ha
    · rintro ⟨rfl, rfl⟩
      rw [none_new] at ha; simp at ha
  · have hq' : s.took q k e = some v := hq
    rw [hold q k e ?_]
    · exact i.tval q k e v hq'
    · rintro ⟨rfl, rfl⟩
      rw [took_new] at hq'; simp at hq'
  · by_cases hn : q = r ∧ k = (s.jobs r).length
    · obtain ⟨rfl, rfl⟩ := hn
      rw [hnew]
      rw [cnew] at hc
      rw [contiguous_read hc, hs']
      simp
    · rw [hold q k e hn]
      rw [cold q k e hn] at hc
      rw [mold q a (i.bound q k e a hc)]
      exact i.fresh q k e a hw hc ht
  · have hk : k ≠ (s.jobs r).length := by
      rintro rfl
      rw [show s'.gave = s.gave from rfl, gave_new] at hg
      simp at hg
    have hn : ∀ q : Fin R, ¬ (q = r ∧ k = (s.jobs r).length) := fun q h => hk h.2
    rw [cold q k e (hn q)] at hc
    rw [mold q a (i.bound q k e a hc), i.done q k e a hw hc hg]
    congr 1
    exact Finset.sum_congr rfl fun p _ => by rw [hold p k e (hn p)]
  · by_cases n1 : q = r ∧ k = (s.jobs r).length <;> by_cases n2 : q = r ∧ j = (s.jobs r).length
    · obtain ⟨rfl, rfl⟩ := n1
      obtain ⟨-, rfl⟩ := n2
      refine ⟨rfl, ?_⟩
      rw [cnew] at h3 h4
      exact (List.getElem?_inj (List.getElem?_eq_some_iff.1 h3).1 (contiguous_nodup hd)).1 (h3.trans h4.symm)
    · obtain ⟨rfl, rfl⟩ := n1
      rw [cnew] at h3
      rw [cold _ _ _ n2] at h4
      exact (apart _ _ _ _ h2 h4 h3).elim
    · obtain ⟨rfl, rfl⟩ := n2
      rw [cnew] at h4
      rw [cold _ _ _ n1] at h3
      exact (apart _ _ _ _ h1 h3 h4).elim
    · rw [cold _ _ _ n1] at h3
      rw [cold _ _ _ n2] at h4
      exact i.inj q k e j f a h1 h2 h3 h4
  · have h1 : s.complete q k = true := i.wait q k hw
    have hk : ¬ (q = r ∧ k = (s.jobs r).length) := by
      rintro ⟨rfl, rfl⟩
      simp [complete] at h1
    have e1 : (s'.jobs q)[k]? = (s.jobs q)[k]? := by
      rw [hs']
      by_cases hq : q = r
      · subst hq
        simp only [if_true]
        have : k ≠ (s.jobs q).length := fun h => hk ⟨rfl, h⟩
        rcases lt_or_gt_of_ne this with h | h
        · rw [List.getElem?_append_left h]
        · rw [List.getElem?_eq_none (by simp; omega), List.getElem?_eq_none (by omega)]
      · simp only [if_neg hq]
    unfold complete at h1 ⊢
    rw [e1]
    exact h1
  · by_cases hn : q = r ∧ k = (s.jobs r).length
    · obtain ⟨rfl, rfl⟩ := hn
      rw [cnew] at hc
      have := (memcell e a hc).1
      rw [hs']
      simpa using this
    · rw [cold q k e hn] at hc
      have h1 := i.bound q k e a hc
      rw [hs']
      by_cases hq : q = r
      · subst hq
        simp only [if_true]
        exact lt_of_lt_of_le h1 (contiguous_next _ _ _)
      · simpa only [if_neg hq] using h1

/-- every event keeps the invariant -/
theorem Inv.act {h : Fin R → List (List α)} {s s' : State α R} (i : Inv op h s) {a : Act α R} (hp : Polite s a) (ha : As.act op s a = some s') :
    Inv op (fun q => h q ++ contents s q a) s' := by
  cases a with
  | call r l c =>
    simp only [As.act, Option.some.injEq] at ha
    subst ha
    exact i.call hp
  | write r a v =>
    simp only [As.act, Option.some.injEq] at ha
    subst ha
    simpa [contents] using i.store hp
  | wait r k =>
    simp only [As.act] at ha
    split at ha
    · rename_i hc
      simp only [Option.some.injEq] at ha
      subst ha
      simpa [contents] using i.wait' hc
    · simp at ha
  | take r k e =>
    simp only [As.act, Option.bind_eq_bind, Option.bind_eq_some_iff] at ha
    obtain ⟨a, hc, ha⟩ := ha
    split at ha
    · rename_i ht
      simp only [Option.some.injEq] at ha
      subst ha
      simpa [contents] using i.take hc ht
    · simp at ha
  | scratch r k e v =>
    simp only [As.act, Option.bind_eq_bind, Option.bind_eq_some_iff] at ha
    obtain ⟨a, hc, ha⟩ := ha
    split at ha
    · rename_i ht
      simp only [Option.some.injEq] at ha
      subst ha
      simpa [contents] using i.scratch hc ht.1 ht.2
    · simp at ha
  | give r k e =>
    simp only [As.act, Option.bind_eq_bind, Option.bind_eq_some_iff] at ha
    obtain ⟨a, hc, v, hv, ha⟩ := ha
    split at ha
    · rename_i hg
      simp only [Option.some.injEq] at ha
      subst ha
      simpa [contents] using i.give hc hv hg
    · simp at ha

theorem Inv.exec {h : Fin R → List (List α)} : ∀ {as : List (Act α R)} {s s' : State α R}, Inv op h s → AllPolite op as s → exec op as s = some s' →
    Inv op (fun q => h q ++ handed op q as s) s' := by
  intro as
  induction as generalizing h with
  | nil =>
    intro s s' i _ he
    simp only [As.exec, Option.some.injEq] at he
    subst he
    simpa [handed] using i
  | cons a as ih =>
    intro s s' i hp he
    simp only [As.exec, Option.bind_eq_some_iff] at he
    obtain ⟨t, ht, he⟩ := he
    have := ih (i.act hp.1 ht) (hp.2 t ht) he
    have e : (fun q => h q ++ handed op q (a :: as) s) = fun q => (h q ++ contents s q a) ++ handed op q as t := by
      funext q
      simp only [handed, ht, List.append_assoc]
    rw [e]
    exact this

/-- **C87 (wait).** Any number of ranks and calls, under every schedule of ranks and communication: if the programs respect communication in flight, then when `handle.wait()` returns for
the first time, the memory handed over holds the mean or sum over ranks of what the tensors contained when each rank made its matching call, in every entry - however
late the contributions were read. -/
theorem C87_wait {mem : Fin R → Mem α} {as : List (Act α R)} {s s' : State α R} (hp : AllPolite op as (start mem)) (he : exec op as (start mem) = some s) {r : Fin R}
    {k : ℕ} (hw : s.waited r k = false) (hs : act op s (.wait r k) = some s') :
    ∃ l, (s.jobs r)[k]? = some l ∧ ∀ (e : ℕ) (h : e < l.length), ∃ x : Fin R → α, (∀ q, entry (handed op q as (start mem)) k e = some (x q)) ∧
      (s'.mem r).val l[e] = (if op = .avg then 1 / (R : α) else 1) * ∑ q, x q := by
  have i := (Inv.start (op := op) mem).exec hp he
  simp only [List.nil_append] at i
  simp only [act] at hs
  split at hs
  swap
  · simp at hs
  rename_i hc
  simp only [Option.some.injEq] at hs
  subst hs
  rcases hl : (s.jobs r)[k]? with - | l
  · simp [complete, hl] at hc
  refine ⟨l, rfl, fun e h => ?_⟩
  have hcell : s.cell r k e = some l[e] := by simp [cell_eq, entry, hl, h]
  have hg := complete_gave hc hcell
  have hx : ∀ q, ∃ x, entry (handed op q as (start mem)) k e = some x := by
    intro q
    obtain ⟨v, hv⟩ := Option.ne_none_iff_exists'.1 (i.gtook r k e hg q)
    exact ⟨v, i.tval q k e v hv⟩
  choose x hx using hx
  refine ⟨x, hx, ?_⟩
  have := i.done r k e _ hw hcell hg
  simp only [hx, Option.getD_some] at this
  rw [show (if op = .avg then 1 / (R : α) else 1) = op.factor R by cases op <;> rfl]
  exact this

/-! ### Programs that only call, and write elsewhere -/

/-- nobody has waited -/
def State.unwait (s : State α R) : State α R := { s with waited := fun _ _ => false }

/-- the event is a wait -/
def Act.isWait : Act α R → Bool
  | .wait _ _ => true
  | _ => false

theorem act_unwait (s : State α R) {a : Act α R} (ha : a.isWait = false) : act op s.unwait a = (act op s a).map State.unwait := by
  cases a with
  | call r l c => rfl
  | write r a v => rfl
  | wait r k => simp [Act.isWait] at ha
  | take r k e =>
    simp only [act, show s.unwait.cell r k e = s.cell r k e from rfl, show s.unwait.took = s.took from rfl]
    rcases s.cell r k e with - | b
    · rfl
    · simp only [Option.bind_eq_bind, Option.bind_some]; split <;> rfl
  | scratch r k e v =>
    simp only [act, show s.unwait.cell r k e = s.cell r k e from rfl, show s.unwait.took = s.took from rfl, show s.unwait.gave = s.gave from rfl]
    rcases s.cell r k e with - | b
    · rfl
    · simp only [Option.bind_eq_bind, Option.bind_some]; split <;> rfl
  | give r k e =>
    simp only [act, show s.unwait.cell r k e = s.cell r k e from rfl, show s.unwait.result op k e = s.result op k e from rfl, show s.unwait.gave = s.gave from rfl]
    rcases s.cell r k e with - | b
    · rfl
    · rcases s.result op k e with - | v
      · rfl
      · simp only [Option.bind_eq_bind, Option.bind_some]; split <;> rfl

theorem wait_unwait {s t : State α R} {a : Act α R} (ha : a.isWait = true) (h : act op s a = some t) : t.unwait = s.unwait := by
  cases a with
  | wait r k =>
    simp only [act] at h
    split at h
    · simp only [Option.some.injEq] at h; subst h; rfl
    · simp at h
  | _ => simp [Act.isWait] at ha

/-- waiting changes nothing -/
theorem exec_unwait : ∀ {as : List (Act α R)} {s t : State α R}, exec op as s = some t → exec op (as.filter fun a => !a.isWait) s.unwait = some t.unwait := by
  intro as
  induction as with
  | nil => intro s t h; simp only [exec, Option.some.injEq] at h; subst h; rfl
  | cons a as ih =>
    intro s t h
    simp only [exec, Option.bind_eq_some_iff] at h
    obtain ⟨u, hu, h⟩ := h
    rcases ha : a.isWait with - | -
    · rw [List.filter_cons_of_pos (by simp [ha])]
      simp only [exec, act_unwait s ha, hu, Option.map_some, Option.bind_some]
      exact ih h
    · rw [List.filter_cons_of_neg (by simp [ha]), ← wait_unwait ha hu]
      exact ih h

/-- stored results stay stored -/
theorem complete_mono {as : List (Act α R)} {s t : State α R} (h : exec op as s = some t) {r : Fin R} {k : ℕ} (hc : s.complete r k = true) : t.complete r k = true := by
  induction as generalizing s with
  | nil => simp only [exec, Option.some.injEq] at h; subst h; exact hc
  | cons a as ih =>
    simp only [exec, Option.bind_eq_some_iff] at h
    obtain ⟨u, hu, h⟩ := h
    refine ih h ?_
    cases a with
    | call q l c =>
      simp only [act, Option.some.injEq] at hu
      subst hu
      unfold complete at hc ⊢
      by_cases hq : r = q
      · subst hq
        simp only [if_true]
        rcases lt_or_ge k (s.jobs r).length with h' | h'
        · rw [List.getElem?_append_left h']; exact hc
        · rw [List.getElem?_eq_none h'] at hc; simp at hc
      · simp only [if_neg hq]; exact hc
    | write q a v => simp only [act, Option.some.injEq] at hu; subst hu; exact hc
    | wait q j =>
      simp only [act] at hu
      split at hu
      · simp only [Option.some.injEq] at hu; subst hu; exact hc
      · simp at hu
    | take q j e =>
      simp only [act, Option.bind_eq_bind, Option.bind_eq_some_iff] at hu
      obtain ⟨b, hb, hu⟩ := hu
      split at hu
      · simp only [Option.some.injEq] at hu; subst hu; exact hc
      · simp at hu
    | scratch q j e v =>
      simp only [act, Option.bind_eq_bind, Option.bind_eq_some_iff] at hu
      obtain ⟨b, hb, hu⟩ := hu
      split at hu
      · simp only [Option.some.injEq] at hu; subst hu; exact hc
      · simp at hu
    | give q j e =>
      simp only [act, Option.bind_eq_bind, Option.bind_eq_some_iff] at hu
      obtain ⟨b, hb, v, hv, hu⟩ := hu
      split at hu
      · simp only [Option.some.injEq] at hu
        subst hu
        unfold complete at hc ⊢
        change (match (s.jobs r)[k]? with | none => false | some l => _) = true
        rcases hl : (s.jobs r)[k]? with - | l
        · simp [hl] at hc
        · rw [hl] at hc
          simp only [List.all_eq_true, List.mem_range] at hc ⊢
          intro x hx
          rw [hc x hx]
          simp
      · simp at hu

theorem wait_complete {as : List (Act α R)} {s t : State α R} (h : exec op as s = some t) {r : Fin R} {k : ℕ} (hw : Act.wait r k ∈ as) : t.complete r k = true := by
  induction as generalizing s with
  | nil => simp at hw
  | cons a as ih =>
    simp only [exec, Option.bind_eq_some_iff] at h
    obtain ⟨u, hu, h⟩ := h
    rcases List.mem_cons.1 hw with rfl | hw
    · simp only [act] at hu
      split at hu
      · rename_i hc
        simp only [Option.some.injEq] at hu
        subst hu
        exact complete_mono h (show State.complete _ r k = true from hc)
      · simp at hu
    · exact ih h hw

/-- the call of rank `r`, if the event is one -/
def callOf (r : Fin R) : Act α R → List (List ℕ × Bool)
  | .call q l c => if q = r then [(l, c)] else []
  | _ => []

theorem calls_cons (r : Fin R) (a : Act α R) (as : List (Act α R)) : calls r (a :: as) = callOf r a ++ calls r as := by
  unfold calls
  cases a <;> simp [callOf, List.filterMap_cons]
  rename_i q l c
  by_cases h : q = r <;> simp [h]

theorem calls_filter (r : Fin R) (as : List (Act α R)) : calls r (as.filter fun a => !a.isWait) = calls r as := by
  induction as with
  | nil => rfl
  | cons a as ih =>
    rcases ha : a.isWait with - | -
    · rw [List.filter_cons_of_pos (by simp [ha]), calls_cons, calls_cons, ih]
    · rw [List.filter_cons_of_neg (by simp [ha]), calls_cons, ih]
      cases a <;> simp [Act.isWait, callOf] at ha ⊢

/-- what is known after the calls `D` of a program that writes to `W` -/
structure Quiet (mem : Fin R → Mem α) (W : Fin R → ℕ → Prop) (D : Fin R → List (List ℕ × Bool)) (s : State α R) : Prop where
  len : ∀ r, (s.jobs r).length = (D r).length
  yes : ∀ (r : Fin R) (k : ℕ) (l : List ℕ), (D r)[k]? = some (l, true) → (s.jobs r)[k]? = some l
  no : ∀ (r : Fin R) (k : ℕ) (l : List ℕ), (D r)[k]? = some (l, false) → ∀ e a, s.cell r k e = some a → (mem r).next ≤ a
  next : ∀ r, (mem r).next ≤ (s.mem r).next
  val : ∀ r a, a < (mem r).next → ¬ W r a → (∀ l, (l, true) ∈ D r → a ∉ l) → (s.mem r).val a = (mem r).val a
  unwaited : ∀ r k, s.waited r k = false

/-- where the entries of calls can be -/
theorem Quiet.cell {mem : Fin R → Mem α} {W : Fin R → ℕ → Prop} {D : Fin R → List (List ℕ × Bool)} {s : State α R} (h : Quiet mem W D s) {r : Fin R} {k e a : ℕ}
    (hc : s.cell r k e = some a) : (mem r).next ≤ a ∨ ∃ l, (l, true) ∈ D r ∧ a ∈ l := by
  have hk : k < (D r).length := by rw [← h.len]; exact entry_lt hc
  rcases hd : (D r)[k] with ⟨l, c⟩
  have hd' : (D r)[k]? = some (l, c) := by rw [List.getElem?_eq_getElem hk, hd]
  cases c
  · exact Or.inl (h.no r k l hd' e a hc)
  · refine Or.inr ⟨l, List.mem_of_getElem? hd', ?_⟩
    rw [cell_eq, entry, h.yes r k l hd'] at hc
    exact List.mem_of_getElem? hc

theorem Quiet.store {mem : Fin R → Mem α} {W : Fin R → ℕ → Prop} {D : Fin R → List (List ℕ × Bool)} {s : State α R} (h : Quiet mem W D s) {r : Fin R} {a : ℕ} {v : α}
    (ha : W r a ∨ (mem r).next ≤ a ∨ ∃ l, (l, true) ∈ D r ∧ a ∈ l) : Quiet mem W D (s.store r a v) := by
  refine ⟨h.len, h.yes, h.no, fun q => ?_, fun q b hb hW hD => ?_, h.unwaited⟩
  · have := h.next q
    unfold State.store
    by_cases e : q = r
    · subst e; simpa using this
    · simpa [e] using this
  · rw [← h.val q b hb hW hD]
    unfold State.store
    by_cases e : q = r
    · subst e
      have : b ≠ a := by
        rintro rfl
        rcases ha with h | h | ⟨l, h1, h2⟩
        · exact hW h
        · omega
        · exact hD l h1 h2
      simp [this]
    · simp [e]

theorem Quiet.act {mem : Fin R → Mem α} {W : Fin R → ℕ → Prop} {D : Fin R → List (List ℕ × Bool)} {s t : State α R} (h : Quiet mem W D s) {a : Act α R}
    (ha : a.isWait = false) (hW : ∀ r b v, a = .write r b v → W r b) (ht : As.act op s a = some t) : Quiet mem W (fun q => D q ++ callOf q a) t := by
  cases a with
  | call r l c =>
    simp only [As.act, Option.some.injEq] at ht
    have cold : ∀ q k e, k < (s.jobs q).length → t.cell q k e = s.cell q k e := by
      intro q k e hk
      rw [cell_eq, cell_eq, ← ht]
      by_cases hq : q = r
      · subst hq
        simp only [if_true]
        exact entry_append_left (by omega)
      · simp only [if_neg hq]
    refine ⟨fun q => ?_, fun q k m hd => ?_, fun q k m hd e b hc => ?_, fun q => ?_, fun q b hb hw hd => ?_, fun q k => ?_⟩
    · rw [← ht]
      by_cases hq : r = q
      · subst hq; simp [callOf, h.len]
      · simp [callOf, hq, Ne.symm hq, h.len]
    · by_cases hq : r = q
      · subst hq
        simp only [callOf, if_true] at hd
        rw [← ht]
        simp only [if_true]
        rcases lt_trichotomy k (D r).length with hk | hk | hk
        · rw [List.getElem?_append_left hk] at hd
          rw [List.getElem?_append_left (by rw [h.len]; exact hk)]
          exact h.yes r k m hd
        · subst hk
          rw [List.getElem?_concat_length] at hd
          simp only [Option.some.injEq, Prod.mk.injEq] at hd
          obtain ⟨rfl, rfl⟩ := hd
          rw [← h.len, List.getElem?_concat_length]
          rfl
        · rw [List.getElem?_eq_none (by simp; omega)] at hd; simp at hd
      · simp only [callOf, if_neg hq, List.append_nil] at hd
        rw [← ht]
        simp only [if_neg (Ne.symm hq)]
        exact h.yes q k m hd
    · by_cases hq : r = q
      · subst hq
        simp only [callOf, if_true] at hd
        rcases lt_trichotomy k (D r).length with hk | hk | hk
        · rw [List.getElem?_append_left hk] at hd
          rw [cold r k e (by rw [h.len]; exact hk)] at hc
          exact h.no r k m hd e b hc
        · subst hk
          rw [List.getElem?_concat_length] at hd
          simp only [Option.some.injEq, Prod.mk.injEq] at hd
          obtain ⟨rfl, rfl⟩ := hd
          rw [cell_eq, ← ht, ← h.len] at hc
          simp only [if_true] at hc
          rw [entry_append_self] at hc
          have := List.mem_of_getElem? hc
          simp only [contiguous, Bool.false_eq_true, if_false, List.mem_map, List.mem_range] at this
          obtain ⟨x, -, rfl⟩ := this
          have := h.next r
          omega
        · rw [List.getElem?_eq_none (by simp; omega)] at hd; simp at hd
      · simp only [callOf, if_neg hq, List.append_nil] at hd
        rw [cold q k e (entry_lt (by
          rw [cell_eq, ← ht] at hc
          simp only [if_neg (Ne.symm hq)] at hc
          exact hc))] at hc
        exact h.no q k m hd e b hc
    · rw [← ht]
      by_cases hq : q = r
      · subst hq; simp only [if_true]; exact (h.next q).trans (contiguous_next _ _ _)
      · simpa only [if_neg hq] using h.next q
    · rw [← h.val q b hb hw fun l hl => hd l (List.mem_append_left _ hl), ← ht]
      by_cases hq : q = r
      · subst hq; simp only [if_true]; exact contiguous_val (lt_of_lt_of_le hb (h.next q))
      · simp only [if_neg hq]
    · rw [← ht]; exact h.unwaited q k
  | write r a v =>
    simp only [As.act, Option.some.injEq] at ht
    subst ht
    simpa [callOf] using h.store (Or.inl (hW r a v rfl))
  | wait r k => simp [Act.isWait] at ha
  | take r k e =>
    simp only [As.act, Option.bind_eq_bind, Option.bind_eq_some_iff] at ht
    obtain ⟨b, hb, ht⟩ := ht
    split at ht
    · simp only [Option.some.injEq] at ht
      subst ht
      simp only [callOf, List.append_nil]
      exact ⟨h.len, h.yes, h.no, h.next, h.val, h.unwaited⟩
    · simp at ht
  | scratch r k e v =>
    simp only [As.act, Option.bind_eq_bind, Option.bind_eq_some_iff] at ht
    obtain ⟨b, hb, ht⟩ := ht
    split at ht
    · simp only [Option.some.injEq] at ht
      subst ht
      simpa [callOf] using h.store (Or.inr (h.cell hb))
    · simp at ht
  | give r k e =>
    simp only [As.act, Option.bind_eq_bind, Option.bind_eq_some_iff] at ht
    obtain ⟨b, hb, v, hv, ht⟩ := ht
    split at ht
    · simp only [Option.some.injEq] at ht
      subst ht
      have := h.store (v := v) (Or.inr (h.cell hb))
      simp only [callOf, List.append_nil]
      exact ⟨this.len, this.yes, this.no, this.next, this.val, this.unwaited⟩
    · simp at ht

/-- the memory of all tensors that rank `r` hands over -/
def memory (D : List (List ℕ × Bool)) : List ℕ := (D.map (·.1)).flatten

/-- a program without waits that writes elsewhere is polite, and hands over what was in memory at the start -/
theorem Quiet.exec {mem : Fin R → Mem α} {W : Fin R → ℕ → Prop} : ∀ {as : List (Act α R)} {D : Fin R → List (List ℕ × Bool)} {s t : State α R}, Quiet mem W D s →
    (∀ a ∈ as, a.isWait = false) → (∀ r b v, Act.write r b v ∈ as → W r b ∧ b < (mem r).next) → (∀ r, (memory (D r ++ calls r as)).Nodup) →
    (∀ r, ∀ a ∈ memory (D r ++ calls r as), a < (mem r).next ∧ ¬ W r a) → exec op as s = some t →
    Quiet mem W (fun q => D q ++ calls q as) t ∧ AllPolite op as s ∧ ∀ q, handed op q as s = (calls q as).map fun d => d.1.map (mem q).val := by
  intro as
  induction as with
  | nil =>
    intro D s t h _ _ _ _ he
    simp only [As.exec, Option.some.injEq] at he
    subst he
    exact ⟨by simpa [calls] using h, trivial, fun q => rfl⟩
  | cons a as ih =>
    intro D s t h hw hW hn hb he
    simp only [As.exec, Option.bind_eq_some_iff] at he
    obtain ⟨u, hu, he⟩ := he
    have hq := h.act (hw a (by simp)) (fun r b v e => (hW r b v (by simp [e])).1) hu
    have e : ∀ r, D r ++ calls r (a :: as) = (D r ++ callOf r a) ++ calls r as := fun r => by rw [calls_cons, List.append_assoc]
    obtain ⟨h1, h2, h3⟩ := ih hq (fun b hb => hw b (by simp [hb])) (fun r b v hm => hW r b v (by simp [hm])) (fun r => by rw [← e]; exact hn r)
      (fun r => by rw [← e]; exact hb r) he
    refine ⟨by simpa only [e] using h1, ⟨?_, fun s' hs' => ?_⟩, fun q => ?_⟩
    · cases a with
      | call r l c =>
        have hn' := hn r
        rw [calls_cons] at hn'
        simp only [callOf, if_true, memory, List.map_append, List.flatten_append, List.map_cons, List.map_nil, List.flatten_cons, List.flatten_nil,
          List.append_nil] at hn'
        rw [List.nodup_append'] at hn'
        obtain ⟨-, hn1, hn2⟩ := hn'
        have hm : ∀ a ∈ l, a ∈ memory (D r ++ calls r (Act.call r l c :: as)) := by
          intro a ha
          rw [calls_cons]
          simp only [callOf, if_true, memory, List.map_append, List.flatten_append, List.map_cons, List.map_nil, List.flatten_cons, List.mem_append]
          exact Or.inr (Or.inl (Or.inl ha))
        refine ⟨(List.nodup_append'.1 hn1).1, fun a ha => ⟨lt_of_lt_of_le (hb r a (hm a ha)).1 (h.next r), fun k e _ hc => ?_⟩⟩
        rcases h.cell hc with h' | ⟨m, h1, h2⟩
        · have := (hb r a (hm a ha)).1; omega
        · exact hn2 (List.mem_flatten.2 ⟨m, List.mem_map.2 ⟨_, h1, rfl⟩, h2⟩) (List.mem_append_left _ ha)
      | write r b v =>
        intro k e _ hc
        obtain ⟨hWb, hlt⟩ := hW r b v (by simp)
        rcases h.cell hc with h' | ⟨m, h1, h2⟩
        · omega
        · exact (hb r b (List.mem_flatten.2 ⟨m, List.mem_map.2 ⟨(m, true), by simp [h1], rfl⟩, h2⟩)).2 hWb
      | _ => trivial
    · rw [hu] at hs'
      rw [← Option.some.inj hs']
      exact h2
    · rw [handed, hu, calls_cons, List.map_append, ← h3 q]
      congr 1
      cases a with
      | call r l c =>
        by_cases hr : r = q
        · subst hr
          simp only [contents, callOf, if_true, List.map_cons, List.map_nil, List.cons.injEq, and_true]
          refine List.map_congr_left fun a ha => ?_
          have hm : a ∈ memory (D r ++ calls r (Act.call r l c :: as)) := by
            rw [calls_cons]
            simp only [callOf, if_true, memory, List.map_append, List.flatten_append, List.map_cons, List.map_nil, List.flatten_cons, List.mem_append]
            exact Or.inr (Or.inl (Or.inl ha))
          refine h.val r a (hb r a hm).1 (hb r a hm).2 fun m h1 h2 => ?_
          have hn' := hn r
          rw [calls_cons] at hn'
          simp only [callOf, if_true, memory, List.map_append, List.flatten_append, List.map_cons, List.map_nil, List.flatten_cons, List.flatten_nil,
            List.append_nil] at hn'
          rw [List.nodup_append'] at hn'
          exact hn'.2.2 (List.mem_flatten.2 ⟨m, List.mem_map.2 ⟨_, h1, rfl⟩, h2⟩) (List.mem_append_left _ ha)
        · simp [contents, callOf, hr]
      | _ => rfl

/-- What programs may do around their calls: the tensors they hand over exist and do not overlap, and whatever they write to (between calls and waits, or at any other time) is
no part of them. -/
structure Tidy (mem : Fin R → Mem α) (as : List (Act α R)) : Prop where
  nodup : ∀ r, (memory (calls r as)).Nodup
  alloc : ∀ r, ∀ a ∈ memory (calls r as), a < (mem r).next
  write : ∀ r a v, Act.write r a v ∈ as → a < (mem r).next ∧ a ∉ memory (calls r as)

/-- **C87 (tensors).** Ranks hand over tensors and do other things, in any order and under any schedule; nobody writes to tensors handed over. At the end of any execution:
a contiguous tensor whose handle rank `r` has waited for - at any time, in any order - contains the mean or sum over ranks of what the tensors contained at the start, whether or not anybody
else has waited; a tensor that is not contiguous contains what it did at the start. -/
theorem C87_tensors {mem : Fin R → Mem α} {as : List (Act α R)} {s : State α R} (ht : Tidy mem as) (he : exec op as (start mem) = some s) (r : Fin R) (k : ℕ) (l : List ℕ) :
    ((calls r as)[k]? = some (l, true) → Act.wait r k ∈ as → ∀ (e : ℕ) (h : e < l.length), ∃ x : Fin R → α,
      (∀ q, ∃ m c, (calls q as)[k]? = some (m, c) ∧ ∃ a, m[e]? = some a ∧ x q = (mem q).val a) ∧
      (s.mem r).val l[e] = (if op = .avg then 1 / (R : α) else 1) * ∑ q, x q) ∧
    ((calls r as)[k]? = some (l, false) → l.map (s.mem r).val = l.map (mem r).val) := by
  have he' := exec_unwait he
  set bs := as.filter fun a => !a.isWait with hbs
  have hcs : ∀ q, calls q bs = calls q as := fun q => calls_filter q as
  have q0 : Quiet mem (fun r a => ∃ v, Act.write r a v ∈ as) (fun _ => []) (start mem) :=
    ⟨fun _ => rfl, fun _ _ _ h => by simp at h, fun _ _ _ h => by simp at h, fun _ => le_rfl, fun _ _ _ _ _ => rfl, fun _ _ => rfl⟩
  obtain ⟨q1, hp, hh⟩ := q0.exec (op := op) (as := bs) (t := s.unwait) (fun a ha => by simpa using (List.mem_filter.1 ha).2)
    (fun r b v hm => ⟨⟨v, (List.mem_filter.1 hm).1⟩, (ht.write r b v (List.mem_filter.1 hm).1).1⟩)
    (fun r => by rw [List.nil_append, hcs]; exact ht.nodup r)
    (fun r a ha => by
      rw [List.nil_append, hcs] at ha
      exact ⟨ht.alloc r a ha, fun ⟨v, hv⟩ => (ht.write r a v hv).2 ha⟩) he'
  simp only [List.nil_append, hcs] at q1 hh
  refine ⟨fun hc hw e h => ?_, fun hc => ?_⟩
  · have hcomp : s.unwait.complete r k = true := wait_complete he hw
    obtain ⟨l', hl', H⟩ := C87_wait (s' := { s.unwait with waited := fun q j => if q = r ∧ j = k then true else s.unwait.waited q j }) hp he' (r := r) (k := k) rfl
      (by simp only [act, hcomp, if_true])
    rw [q1.yes r k l hc] at hl'
    cases hl'
    obtain ⟨x, hx, hv⟩ := H e h
    refine ⟨x, fun q => ?_, hv⟩
    have := hx q
    rw [hh q, entry, List.getElem?_map] at this
    rcases hd : (calls q as)[k]? with - | ⟨m, c⟩
    · simp [hd] at this
    · rw [hd] at this
      simp only [Option.map_some, Option.bind_some, List.getElem?_map, Option.map_eq_some_iff] at this
      obtain ⟨a, ha, hxa⟩ := this
      exact ⟨m, c, rfl, a, ha, hxa.symm⟩
  · refine List.map_congr_left fun a ha => ?_
    have hm : a ∈ memory (calls r as) := List.mem_flatten.2 ⟨l, List.mem_map.2 ⟨_, List.mem_of_getElem? hc, rfl⟩, ha⟩
    refine q1.val r a (ht.alloc r a hm) (fun ⟨v, hv⟩ => (ht.write r a v hv).2 hm) fun m hm' ha' => ?_
    -- the tensors do not overlap
    obtain ⟨j, hj, hj'⟩ := List.getElem_of_mem hm'
    obtain ⟨hk, hk'⟩ := List.getElem?_eq_some_iff.1 hc
    have hjk : j ≠ k := by rintro rfl; rw [hj'] at hk'; simp at hk'
    have hd := (List.nodup_flatten.1 (ht.nodup r)).2
    have hmem : ∀ (i : ℕ) (hi : i < (calls r as).length), ((calls r as).map (·.1))[i]'(by simpa using hi) = (calls r as)[i].1 := by simp
    rcases lt_or_gt_of_ne hjk with h' | h'
    · have := List.pairwise_iff_getElem.1 hd j k (by simpa using hj) (by simpa using hk) h'
      rw [hmem j hj, hmem k hk, hj', hk'] at this
      exact this ha' ha
    · have := List.pairwise_iff_getElem.1 hd k j (by simpa using hk) (by simpa using hj) h'
      rw [hmem j hj, hmem k hk, hj', hk'] at this
      exact this ha ha'

end As
