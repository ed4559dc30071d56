import Verif.Props.InfNorm
import Verif.Props.OverflowSilent

/-!
# Overflow and computed norms

With `normalize_lr_cov` an overflow is silent only through a norm: while the momenta whose norms are taken are numbers, C98 holds for computed norms, too.
-/

namespace Ov

variable {α : Type} [Field α] [LinearOrder α]

/-- all entries of the tensors of a matrix are numbers -/
def Clean (n : ℕ) (o : Obj α) : Prop := ∀ t ∈ parts n o, ∀ x ∈ t, ¬ x.Bad

omit [Field α] [LinearOrder α] in
theorem map_le {ι : Type} {f g : ι → Fl α} {l : List ι} (h : ∀ i, Le (f i) (g i)) (c : ∀ x ∈ l.map f, ¬ x.Bad) : l.map f = l.map g :=
  List.map_congr_left fun i hi => (h i).resolve_left (c _ (List.mem_map_of_mem hi))

omit [Field α] [LinearOrder α] in
theorem entries_le {r c : ℕ} {A B : M α} (h : LeM A B) (hc : ∀ x ∈ entries r c A, ¬ x.Bad) : entries r c A = entries r c B :=
  map_le (fun p => h p.1 p.2) hc

/-- matrices whose entries are numbers in the narrower type have the same entries in the wider one -/
theorem parts_le {o o' : Obj α} (h : LeO o o') : ∀ n, Clean n o → parts n o = parts n o' := by
  induction h with
  | dense h => intro n c; simp only [parts]; rw [entries_le h (c _ (by simp [parts]))]
  | diagonal h => intro n c; simp only [parts]; rw [map_le h (c _ (by simp [parts]))]
  | tril h => intro n c; simp only [parts]; rw [map_le h (c _ (by simp [parts]))]
  | triu h => intro n c; simp only [parts]; rw [map_le h (c _ (by simp [parts]))]
  | @block D b b' l l' hb hl =>
    intro n c
    have c1 : ∀ k ∈ List.range (n / D), entries D D (b k) = entries D D (b' k) := fun k hk =>
      entries_le (hb k) fun x hx => c _ (by simp only [parts]; exact List.mem_cons_self) x (List.mem_flatMap.2 ⟨k, hk, hx⟩)
    simp only [parts]
    rw [entries_le hl (c _ (by simp [parts]))]
    congr 1
    rw [List.flatMap_def, List.flatMap_def, List.map_congr_left c1]
  | hier hA hB hC hD hE =>
    intro n c
    simp only [parts]
    rw [entries_le hA (c _ (by simp [parts])), entries_le hB (c _ (by simp [parts])), map_le hC (c _ (by simp [parts])), entries_le hD (c _ (by simp [parts])), entries_le hE (c _ (by simp [parts]))]
  | topRight _ hB _ iA iC =>
    intro n c
    simp only [parts]
    rw [entries_le hB (c _ (by simp [parts])), iA _ fun t ht => c t (by simp [parts, ht]), iC _ fun t ht => c t (by simp [parts, ht])]
  | bottomLeft _ hB _ iA iC =>
    intro n c
    simp only [parts]
    rw [entries_le hB (c _ (by simp [parts])), iA _ fun t ht => c t (by simp [parts, ht]), iC _ fun t ht => c t (by simp [parts, ht])]

section
variable {st st' : Fl α → Fl α} (W : Wider st st') (n d : ℕ)
include W

theorem Wider.momenta (h : Hyp α) {l l' : Lay α} (r : LeL l l') : LeO (momentaOf st n d h l).1 (momentaOf st' n d h l').1 ∧ LeO (momentaOf st n d h l).2 (momentaOf st' n d h l').2 := by
  have rH := r.H
  unfold momentaOf
  revert rH
  cases l.H with
  | none =>
    cases l'.H with
    | none => exact fun _ => ⟨r.mK, r.mC⟩
    | some _ => exact fun e => nomatch e
  | some H =>
    cases l'.H with
    | none => exact fun e => nomatch e
    | some H' =>
      intro e
      obtain ⟨HK, HC⟩ := H
      obtain ⟨HK', HC'⟩ := H'
      cases e with
      | some e =>
        obtain ⟨e1, e2⟩ := e
        have iK := W.inner n r.K
        have iC := W.inner d r.C
        have T : ∀ {k : ℕ} {o o' : Obj α} (a b : α), LeO o o' → Le (if h.kfac then Fl.fin a else st (.fin b * Ov.averageTrace st k o)) (if h.kfac then Fl.fin a else st' (.fin b * Ov.averageTrace st' k o')) :=
          fun a b g => .ite (.refl _) (W.store ((Le.refl _).mul (W.averageTrace _ g)))
        dsimp only
        have mK1 := W.newMomentum n (c := l.K.cls) h e1 (T (k := d) 1 h.unscale e2) iK (T (k := d) h.damping h.damping iC)
        have mC1 := W.newMomentum d (c := l.C.cls) h e2 (T (k := n) h.unscale h.unscale e1) iC (T (k := n) h.damping h.damping iK)
        rw [← r.K.cls, ← r.C.cls]
        by_cases ha : h.alpha1 ≠ 0
        · simp only [if_pos ha]
          exact ⟨W.add (.refl (.fin h.alpha1)) mK1 r.mK, W.add (.refl (.fin h.alpha1)) mC1 r.mC⟩
        · simp only [if_neg ha]
          exact ⟨mK1, mC1⟩

/-- the momenta of the steps that normalise are numbers, in the order of a history -/
def CleanRun (st : Fl α → Fl α) (n d : ℕ) : Lay α → List (Op α) → Prop
  | _, [] => True
  | l, op :: ops => (match op with
      | .step h due _ => due = true → h.norms ≠ none → Clean n (momentaOf st n d h l).1 ∧ Clean d (momentaOf st n d h l).2
      | _ => True) ∧ CleanRun st n d (execN st n d l op) ops

theorem Wider.execN {l l' : Lay α} (r : LeL l l') {op op' : Op α} (ho : LeOp op op')
    (hc : ∀ h G, op = .step h true G → h.norms ≠ none → Clean n (momentaOf st n d h l).1 ∧ Clean d (momentaOf st n d h l).2) : LeL (execN st n d l op) (execN st' n d l' op') := by
  cases ho with
  | backward c hX hg => exact W.exec n d r (.backward c hX hg)
  | skip => exact W.exec n d r .skip
  | setParam hW => exact W.exec n d r (.setParam hW)
  | step h due hG =>
    rename_i G G'
    show LeL (Ov.exec st n d l (.step (h.normed st n d l) due G)) (Ov.exec st' n d l' (.step (h.normed st' n d l') due G'))
    cases due with
    | false => exact W.exec n d r (op := .step h false G) (op' := .step h false G') (.step h false hG)
    | true =>
      have e : h.normed st n d l = h.normed st' n d l' := by
        unfold Hyp.normed
        cases hn : h.norms with
        | none => rfl
        | some ν =>
          obtain ⟨c1, c2⟩ := hc h G rfl (by rw [hn]; exact Option.some_ne_none ν)
          obtain ⟨m1, m2⟩ := W.momenta n d h r
          unfold infNorm
          rw [parts_le m1 n c1, parts_le m2 d c2]
      rw [← e]
      exact W.exec n d r (.step _ true hG)

/-- **Only a norm hides an overflow.** Two histories with the same operations in a type that overflows and in a wider one, with computed norms. If the momenta of the updates that normalise are numbers in the
first one, then every entry of the layer at the end is infinite or NaN there, or the same in both. -/
theorem C98_computed_norms (ops ops' : List (Op α)) (ho : List.Forall₂ LeOp ops ops') : ∀ l l' : Lay α, LeL l l' → CleanRun st n d l ops → LeL (runN st n d l ops) (runN st' n d l' ops') := by
  induction ho with
  | nil => exact fun l l' r _ => r
  | @cons op op' _ _ h _ ih =>
    intro l l' r c
    refine ih _ _ (W.execN n d r h ?_) c.2
    rintro h G rfl hn
    exact c.1 rfl hn

end

/-! ### an infinite norm -/

theorem add_zero_le {st : Fl α → Fl α} (W : Wider st id) : ∀ o p : Obj α, LeO (add st (.fin (-0)) o p) o := by
  have A : ∀ x y : Fl α, Le (st (x + .fin (-0) * y)) x := by
    intro x y
    rcases y with y | s | _
    · have e : x + (.fin (-0) * .fin y : Fl α) = x := by
        rcases x with x | s | _
        · show Fl.fin (x + -0 * y) = _
          rw [neg_zero, zero_mul, add_zero]
        · rfl
        · rfl
      rw [e]; exact W.le x
    · refine .inl (W.bad _ ?_)
      have e : (.fin (-0) * .inf s : Fl α) = .nan := if_pos neg_zero
      rw [e]
      rcases x with x | s | _ <;> trivial
    · refine .inl (W.bad _ ?_)
      rcases x with x | s | _ <;> trivial
  intro o
  induction o with
  | dense d => intro p; cases p <;> first | exact .refl _ | exact .dense fun i j => A _ _
  | diagonal v => intro p; cases p <;> first | exact .refl _ | exact .diagonal fun i => A _ _
  | block D b l => intro p; cases p <;> first | exact .refl _ | exact .block (fun k i j => A _ _) fun i j => A _ _
  | hier => intro p; cases p <;> first | exact .refl _ | exact .hier (fun i j => A _ _) (fun i j => A _ _) (fun i => A _ _) (fun i j => A _ _) fun i j => A _ _
  | tril v => intro p; cases p <;> first | exact .refl _ | exact .tril fun i => A _ _
  | triu v => intro p; cases p <;> first | exact .refl _ | exact .triu fun i => A _ _
  | topRight x y ca cc A' B C iA iC => intro p; cases p <;> first | exact .refl _ | exact .topRight (iA _) (fun i j => A _ _) (iC _)
  | bottomLeft x y ca cc A' B C iA iC => intro p; cases p <;> first | exact .refl _ | exact .bottomLeft (iA _) (fun i j => A _ _) (iC _)

/-- **An infinite norm stops the whole factor**: an update with `normalize_lr_cov` in which the norm of the momentum of a factor is infinite leaves every entry of the factor as it is, or infinite or NaN. -/
theorem C98_stalled {st : Fl α → Fl α} (W : Wider st id) (n d : ℕ) (h : Hyp α) (l : Lay α) (hn : h.norms ≠ none) :
    (infNorm n (momentaOf st n d h l).1 = some (.inf false) → LeO (update st n d (h.normed st n d l) l).K l.K) ∧
    (infNorm d (momentaOf st n d h l).2 = some (.inf false) → LeO (update st n d (h.normed st n d l) l).C l.C) := by
  by_cases hH : l.H = none
  · have e : update st n d (h.normed st n d l) l = l := by unfold update; rw [hH]
    rw [e]; exact ⟨fun _ => .refl _, fun _ => .refl _⟩
  · obtain ⟨ν, eν⟩ := Option.ne_none_iff_exists'.1 hn
    obtain ⟨u1, u2⟩ := momentaOf_used st n d (h.normed st n d l) l hH
    have e : (h.normed st n d l).norms = some ((infNorm n (momentaOf st n d h l).1).getD .nan, (infNorm d (momentaOf st n d h l).2).getD .nan) := by
      unfold Hyp.normed; rw [eν]; rfl
    rw [u1, u2, e]
    constructor
    · intro k; rw [k]; exact add_zero_le W _ _
    · intro k; rw [k]; exact add_zero_le W _ _

/-- **A NaN norm, or one of at most 1, does not normalise**: the factor is updated as without `normalize_lr_cov` (but with momenta scaled by `1 - alpha1`). -/
theorem C98_not_normalized (st : Fl α → Fl α) (n d : ℕ) (h : Hyp α) (l : Lay α) :
    (∀ r, infNorm n (momentaOf st n d h l).1 = some r → (r = .nan ∨ ∃ a ≤ 1, r = .fin a) → (update st n d (h.normed st n d l) l).K = (update st n d { h with norms := none } l).K) ∧
    (∀ r, infNorm d (momentaOf st n d h l).2 = some r → (r = .nan ∨ ∃ a ≤ 1, r = .fin a) → (update st n d (h.normed st n d l) l).C = (update st n d { h with norms := none } l).C) := by
  have R : ∀ (β : α) (r : Fl α), (r = .nan ∨ ∃ a ≤ 1, r = .fin a) → Fl.rate β r = β := by
    rintro β r (rfl | ⟨a, ha, rfl⟩)
    · rfl
    · show β / max 1 a = β
      rw [max_eq_left ha, div_one]
  by_cases hH : l.H = none
  · have e : ∀ y, update st n d y l = l := fun y => by unfold update; rw [hH]
    rw [e, e]; exact ⟨fun _ _ _ => rfl, fun _ _ _ => rfl⟩
  · obtain ⟨u1, u2⟩ := momentaOf_used st n d (h.normed st n d l) l hH
    obtain ⟨v1, v2⟩ := momentaOf_used st n d { h with norms := none } l hH
    rw [u1, u2, v1, v2]
    unfold Hyp.normed
    cases h.norms with
    | none => exact ⟨fun _ _ _ => rfl, fun _ _ _ => rfl⟩
    | some ν =>
      constructor
      · intro r k hr
        rw [k]
        show add st (.fin (-Fl.rate h.lrCov r)) _ _ = _
        rw [R _ r hr]; rfl
      · intro r k hr
        rw [k]
        show add st (.fin (-Fl.rate h.lrCov r)) _ _ = _
        rw [R _ r hr]; rfl

/-- hypotheses: an input that is NaN makes the norm NaN; the other entry of the factor is updated with the full learning rate -/
example : infNorm 2 (momentaOf (Fl.clip 65504) 2 1 (twoHyp (.fin 0)) (execN (Fl.clip 65504) 2 1 two (.backward 1 (fun i _ => if i = 0 then .nan else .fin 200) 1 (fun _ _ => .fin 1) 1))).1 = some .nan := by
  decide +kernel

/-- hypotheses: the pass whose statistics overflow in one entry -/
example : infNorm 2 (momentaOf (Fl.clip 65504) 2 1 (twoHyp (.fin 0)) (execN (Fl.clip 65504) 2 1 two twoPass)).1 = some (.inf false) := by decide +kernel

/-- a history whose parameters overflow meets the hypothesis: the momenta are numbers, a parameter is not -/
def cleanOps : List (Op ℚ) :=
  [.backward 1 (fun i _ => .fin (i + 1)) 1 (fun _ _ => .fin 1) 1, .step { twoHyp (.fin 0) with momentum := 1 / 2 } true fun _ j => if j = 0 then .fin 65504 else .fin 1,
   .step { twoHyp (.fin 0) with momentum := 1 / 2 } false fun _ j => if j = 0 then .fin 65504 else .fin 1]

def cleanB (n : ℕ) (o : Obj ℚ) : Bool := (parts n o).all fun t => t.all fun x => match x with | .fin _ => true | _ => false

theorem clean_of {n : ℕ} {o : Obj ℚ} (h : cleanB n o = true) : Clean n o := by
  intro t ht x hx
  have := List.all_eq_true.1 (List.all_eq_true.1 h t ht) x hx
  rcases x with x | s | _
  · exact fun h => h
  · exact absurd this Bool.false_ne_true
  · exact absurd this Bool.false_ne_true

example : CleanRun (Fl.clip 65504) 2 1 two cleanOps ∧ ((runN (Fl.clip 65504) 2 1 two cleanOps).W 0 0).Bad ∧ ¬ ((runN (Fl.clip 65504) 2 1 two cleanOps).W 0 1).Bad := by
  refine ⟨⟨trivial, fun _ _ => ⟨clean_of (by decide +kernel), clean_of (by decide +kernel)⟩, fun h => absurd h Bool.false_ne_true, trivial⟩, by decide +kernel, by decide +kernel⟩

/-- **Computed norms can hide an overflow**: the same two operations in half precision and without overflow, with norms as computed. In the first run one entry of the momentum is infinite, so the norm is; in both
the second entry of `K` is a number, but not the same one. -/
theorem C98_computed_norms_false :
    ¬ CleanRun (Fl.clip 65504) 2 1 two [twoPass, .step (twoHyp (.fin 0)) true fun _ _ => .fin 0] ∧
    (match (runN (Fl.clip 65504) 2 1 two [twoPass, .step (twoHyp (.fin 0)) true fun _ _ => .fin 0]).K with | .diagonal v => [v 0, v 1] | _ => []) = [.nan, .fin 1] ∧
    (match (runN id 2 1 two [twoPass, .step (twoHyp (.fin 0)) true fun _ _ => .fin 0]).K with | .diagonal v => [v 0, v 1] | _ => []) = [.fin (9 / 10), .fin (1 - 3 / 899990)] := by
  refine ⟨fun h => ?_, by decide +kernel, by decide +kernel⟩
  have c := (h.2.1 rfl (Option.some_ne_none _)).1
  have e : parts 2 (momentaOf (Fl.clip 65504) 2 1 (twoHyp (.fin 0)) (execN (Fl.clip 65504) 2 1 two twoPass)).1 = [[.inf false, .fin (3 / 4)]] := by decide +kernel
  exact c _ (by rw [e]; exact List.mem_cons_self) (.inf false) List.mem_cons_self trivial

end Ov
