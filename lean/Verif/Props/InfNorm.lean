import Verif.Model.InfNorm
import Verif.Props.OverflowValues
import Verif.Proofs.Norms

/-!
# The norm of `normalize_lr_cov` with infinite values and NaN (C100)
-/

namespace Fl

variable {α : Type} [Field α] [LinearOrder α]

/-- at most: false if an operand is NaN -/
def Le : Fl α → Fl α → Prop
  | fin x, fin y => x ≤ y
  | fin _, inf s => s = false
  | inf s, fin _ => s = true
  | inf s, inf s' => s = true ∨ s' = false
  | _, _ => False

theorem Le.rfl' {x : Fl α} (h : x ≠ nan) : Le x x := by
  rcases x with x | s | _
  · exact le_rfl
  · cases s
    · exact .inr rfl
    · exact .inl rfl
  · exact absurd rfl h

theorem Le.trans {x y z : Fl α} (h : Le x y) (g : Le y z) : Le x z := by
  rcases x with x | s | _ <;> rcases y with y | t | _ <;> rcases z with z | u | _ <;> simp_all [Le]
  · exact h.trans g
  · rcases h with h | h <;> simp_all

theorem le_of_lt {x y : Fl α} (h : x.lt y = true) : Le x y := by
  rcases x with x | s | _ <;> rcases y with y | t | _ <;> simp_all [Le, lt]
  exact _root_.le_of_lt h

theorem le_of_not_lt {x y : Fl α} (hx : x ≠ nan) (hy : y ≠ nan) (h : x.lt y = false) : Le y x := by
  rcases x with x | s | _ <;> rcases y with y | t | _ <;> simp_all [Le, lt]
  cases s
  · exact .inr rfl
  · exact .inl (h rfl)

theorem lt_nan (x : Fl α) : x.lt nan = false := by cases x <;> rfl
theorem nan_lt (x : Fl α) : (nan : Fl α).lt x = false := by cases x <;> rfl

theorem abs_nan (x : Fl α) : x.abs = nan ↔ x = nan := by cases x <;> simp [abs]

theorem tstep_nan (x y : Fl α) : tstep x y = nan ↔ x = nan ∨ y = nan := by
  rcases x with x | s | _ <;> rcases y with y | t | _ <;> simp only [tstep] <;> (try split_ifs) <;> simp

theorem tstep_eq {x y : Fl α} (hx : x ≠ nan) (hy : y ≠ nan) : tstep x y = pstep x y := by
  rcases x with x | s | _ <;> rcases y with y | t | _ <;> first | rfl | exact absurd rfl hx | exact absurd rfl hy

theorem pstep_spec {x y : Fl α} (hx : x ≠ nan) : pstep x y ≠ nan ∧ (pstep x y = x ∨ pstep x y = y) ∧ Le x (pstep x y) ∧ (y ≠ nan → Le y (pstep x y)) := by
  unfold pstep
  cases e : x.lt y with
  | true =>
    have : y ≠ nan := by rintro rfl; rw [lt_nan] at e; cases e
    exact ⟨this, .inr rfl, le_of_lt e, fun h => .rfl' h⟩
  | false => exact ⟨hx, .inl rfl, .rfl' hx, fun h => le_of_not_lt hx h e⟩

theorem pfold_nan : ∀ l : List (Fl α), l.foldl pstep nan = nan
  | [] => rfl
  | y :: l => by rw [List.foldl_cons, pstep, nan_lt]; exact pfold_nan l

theorem pfold_spec : ∀ (l : List (Fl α)) {x : Fl α}, x ≠ nan → l.foldl pstep x ≠ nan ∧ l.foldl pstep x ∈ x :: l ∧ Le x (l.foldl pstep x) ∧ ∀ y ∈ l, y ≠ nan → Le y (l.foldl pstep x)
  | [], x, hx => ⟨hx, by simp, .rfl' hx, by simp⟩
  | y :: l, x, hx => by
    obtain ⟨a, b, c, d⟩ := pstep_spec (y := y) hx
    obtain ⟨a', b', c', d'⟩ := pfold_spec l a
    rw [List.foldl_cons]
    refine ⟨a', ?_, c.trans c', fun z hz hn => ?_⟩
    · rcases List.mem_cons.1 b' with h | h
      · rw [h]; rcases b with b | b <;> rw [b] <;> simp
      · simp [h]
    · rcases List.mem_cons.1 hz with rfl | hz
      · exact (d hn).trans c'
      · exact d' z hz hn

theorem tfold_nan : ∀ (l : List (Fl α)) (x : Fl α), l.foldl tstep x = nan ↔ x = nan ∨ nan ∈ l
  | [], x => by simp
  | y :: l, x => by
    rw [List.foldl_cons, tfold_nan l, tstep_nan, List.mem_cons]
    constructor
    · rintro ((h | h) | h)
      · exact .inl h
      · exact .inr (.inl h.symm)
      · exact .inr (.inr h)
    · rintro (h | h | h)
      · exact .inl (.inl h)
      · exact .inl (.inr h.symm)
      · exact .inr h

theorem tfold_eq : ∀ (l : List (Fl α)) {x : Fl α}, x ≠ nan → nan ∉ l → l.foldl tstep x = l.foldl pstep x
  | [], _, _, _ => rfl
  | y :: l, x, hx, h => by
    have hy : y ≠ nan := fun e => h (by simp [e])
    rw [List.foldl_cons, List.foldl_cons, tstep_eq hx hy]
    exact tfold_eq l (pstep_spec hx).1 fun e => h (by simp [e])

/-- torch's maximum of a tensor: NaN exactly if it contains one, else the largest absolute value -/
theorem tmax_spec {l : List (Fl α)} (h : l ≠ []) : (tmax l = nan ↔ nan ∈ l) ∧ (nan ∉ l → (∃ x ∈ l, tmax l = x.abs) ∧ ∀ x ∈ l, Le x.abs (tmax l)) := by
  cases l with
  | nil => exact absurd rfl h
  | cons x l =>
    have e : tmax (x :: l) = (l.map abs).foldl tstep x.abs := rfl
    have hm : nan ∈ l.map abs ↔ nan ∈ l := by
      rw [List.mem_map]
      exact ⟨fun ⟨y, hy, ey⟩ => by rw [abs_nan] at ey; rw [← ey]; exact hy, fun h => ⟨nan, h, rfl⟩⟩
    rw [e]
    refine ⟨by rw [tfold_nan, abs_nan, hm, List.mem_cons, eq_comm], fun hn => ?_⟩
    have hx : x.abs ≠ nan := fun e => hn (by rw [(abs_nan x).1 e]; simp)
    have hl : nan ∉ l.map abs := fun e => hn (by rw [hm] at e; simp [e])
    rw [tfold_eq _ hx hl]
    obtain ⟨a, b, c, d⟩ := pfold_spec (l.map abs) hx
    refine ⟨?_, fun y hy => ?_⟩
    · rcases List.mem_cons.1 b with h | h
      · exact ⟨x, by simp, h⟩
      · obtain ⟨y, hy, ey⟩ := List.mem_map.1 h
        exact ⟨y, by simp [hy], ey.symm⟩
    · rcases List.mem_cons.1 hy with rfl | hy
      · exact c
      · exact d _ (List.mem_map_of_mem hy) fun e => hl (e ▸ List.mem_map_of_mem hy)

/-- **The norm, exactly.** `t`: the first non-empty tensor. The norm is NaN exactly if `t` contains NaN; otherwise it is the largest absolute value in the tensors without NaN: a tensor with a NaN, other than the
first, is ignored with all its entries. -/
theorem C100_norm {t : List (Fl α)} {ts us : List (List (Fl α))} (ht : t ≠ []) (hu : ∀ u ∈ us, u = []) :
    ∃ r, norm (us ++ t :: ts) = some r ∧ (r = nan ↔ nan ∈ t) ∧
      (nan ∉ t → (∃ u ∈ t :: ts, nan ∉ u ∧ ∃ x ∈ u, r = x.abs) ∧ ∀ u ∈ t :: ts, nan ∉ u → ∀ x ∈ u, Le x.abs r) := by
  have e : (us ++ t :: ts).filter (fun l => !l.isEmpty) = t :: ts.filter (fun l => !l.isEmpty) := by
    rw [List.filter_append, List.filter_eq_nil_iff.2 (fun u h => by rw [hu u h]; simp), List.nil_append, List.filter_cons, if_pos (by simpa using ht)]
  have mem : ∀ {u}, u ∈ ts.filter (fun l => !l.isEmpty) ↔ u ∈ ts ∧ u ≠ [] := by
    intro u
    rw [List.mem_filter]; simp
  refine ⟨_, by rw [norm, e], ?_⟩
  set ps := ts.filter (fun l => !l.isEmpty)
  obtain ⟨n1, n2⟩ := tmax_spec ht
  by_cases h : nan ∈ t
  · have e1 := n1.2 h
    rw [e1]
    refine ⟨⟨fun _ => h, fun _ => pfold_nan _⟩, fun k => absurd h k⟩
  · have e1 : tmax t ≠ nan := fun e => h (n1.1 e)
    obtain ⟨a, b, c, d⟩ := pfold_spec (ps.map tmax) e1
    refine ⟨⟨fun k => absurd k a, fun k => absurd k h⟩, fun _ => ⟨?_, fun u hu' hn x hx => ?_⟩⟩
    · rcases List.mem_cons.1 b with k | k
      · obtain ⟨x, hx, ex⟩ := (n2 h).1
        exact ⟨t, by simp, h, x, hx, by rw [k, ex]⟩
      · obtain ⟨u, hu', eu⟩ := List.mem_map.1 k
        have hu' := mem.1 hu'
        obtain ⟨m1, m2⟩ := tmax_spec hu'.2
        have hn : nan ∉ u := fun k => a (by rw [← eu]; exact m1.2 k)
        obtain ⟨x, hx, ex⟩ := (m2 hn).1
        exact ⟨u, by simp [hu'.1], hn, x, hx, by rw [← eu, ex]⟩
    · rcases List.mem_cons.1 hu' with rfl | hu'
      · exact ((n2 h).2 x hx).trans c
      · have hne : u ≠ [] := fun k => by rw [k] at hx; cases hx
        obtain ⟨m1, m2⟩ := tmax_spec hne
        exact ((m2 hn).2 x hx).trans (d _ (List.mem_map_of_mem (mem.2 ⟨hu', hne⟩)) fun k => hn (m1.1 k))

/-- **Infinite norms**: if the first non-empty tensor has no NaN, the norm is infinite exactly if a tensor without NaN has an infinite entry of either sign, it is never negative, and a norm that is a number bounds all
entries of the tensors without NaN. -/
theorem C100_infinite [IsStrictOrderedRing α] {t : List (Fl α)} {ts us : List (List (Fl α))} (ht : t ≠ []) (hu : ∀ u ∈ us, u = []) (hn : nan ∉ t) :
    (norm (us ++ t :: ts) = some (inf false) ↔ ∃ u ∈ t :: ts, nan ∉ u ∧ ∃ s, inf s ∈ u) ∧ norm (us ++ t :: ts) ≠ some (inf true) ∧
    ∀ a, norm (us ++ t :: ts) = some (fin a) → 0 ≤ a ∧ ∀ u ∈ t :: ts, nan ∉ u → ∀ x ∈ u, ∃ b, x = fin b ∧ |b| ≤ a := by
  obtain ⟨r, e, -, h⟩ := C100_norm (ts := ts) ht hu
  obtain ⟨⟨u, h1, h2, x, h3, rfl⟩, h4⟩ := h hn
  rw [e]
  refine ⟨⟨fun k => ?_, fun ⟨v, v1, v2, s, v3⟩ => ?_⟩, fun k => ?_, fun a k => ?_⟩
  · rcases x with x | s | _
    · cases k
    · exact ⟨u, h1, h2, s, h3⟩
    · cases k
  · have := h4 v v1 v2 _ v3
    rcases x with x | s | _
    · exact absurd this Bool.false_ne_true
    · rfl
    · exact this.elim
  · rcases x with x | s | _ <;> cases k
  · rcases x with x | s | _
    · injection k with k
      injection k with k
      subst k
      refine ⟨abs_nonneg x, fun v v1 v2 y v3 => ?_⟩
      have := h4 v v1 v2 y v3
      rcases y with y | s | _
      · exact ⟨y, rfl, this⟩
      · exact absurd this Bool.false_ne_true
      · exact this.elim
    · cases k
    · cases k

/-- an infinite entry beside a tensor with NaN -/
example : norm ([[], [fin 1, inf true], [nan, fin 7]] : List (List (Fl ℚ))) = some (inf false) ∧ norm ([[fin 1, fin (-3)], [nan, inf true], []] : List (List (Fl ℚ))) = some (fin 3) := by decide +kernel

/-- without a non-empty tensor the norm raises -/
theorem C100_empty (ts : List (List (Fl α))) : norm ts = none ↔ ∀ t ∈ ts, t = [] := by
  unfold norm
  cases e : ts.filter (fun l => !l.isEmpty) with
  | nil => exact ⟨fun _ t ht => by simpa using List.filter_eq_nil_iff.1 e t ht, fun _ => rfl⟩
  | cons t l =>
    refine ⟨fun h => (nomatch h), fun h => ?_⟩
    have : t ∈ ts.filter (fun l => !l.isEmpty) := by rw [e]; simp
    rw [List.mem_filter] at this
    rw [h t this.1] at this
    simp at this

end Fl

namespace Ov

variable {α : Type} [Field α] [LinearOrder α] [IsStrictOrderedRing α]

omit [LinearOrder α] [IsStrictOrderedRing α] in
theorem entries_val {r c : ℕ} {A : M α} {m : Mat α} (hr : m.rows = r) (hc : m.cols = c) (h : Eq2 r c A m.get) :
    entries r c A = ((rowMajor m.rows m.cols).map fun p => m.get p.1 p.2).map .fin := by
  rw [entries, List.map_map, hr, hc]
  exact List.map_congr_left fun p hp => h _ (mem_rowMajor.1 hp).1 _ (mem_rowMajor.1 hp).2

omit [LinearOrder α] [IsStrictOrderedRing α] in
theorem range_val {n : ℕ} {v : V α} {u : Vec α} (hl : u.len = n) (h : Eq1 n v u.get) : (List.range n).map v = u.toList.map .fin := by
  rw [Vec.toList, List.map_map, hl]
  exact List.map_congr_left fun i hi => h i (List.mem_range.1 hi)

/-- the tensors of a matrix of numbers -/
theorem parts_val {c : Cls} {n : ℕ} {o : Obj α} {K : SM α} (h : Agree c n o K) : parts n o = K.parts.map (List.map .fin) := by
  induction h with
  | dense hr hc h => rw [parts, entries_val hr hc h]; rfl
  | diagonal hl h => rw [parts, range_val hl h]; rfl
  | @block n D b l c w hb hl =>
    rw [parts, entries_val w.lr w.lc hl, SM.parts, BlockDiag.parts, w.d0, w.d1, w.d2]
    simp only [List.map_cons, List.map_nil, List.map_flatMap]
    congr 1
    refine List.flatMap_congr fun k hk => ?_
    rw [entries, List.map_map]
    exact List.map_congr_left fun p hp => hb k (List.mem_range.1 hk) _ (mem_rowMajor.1 hp).1 _ (mem_rowMajor.1 hp).2
  | hier hd w hA hB hC hD hE =>
    rw [parts, Hier.blockDims_eq hd]
    dsimp only
    rw [entries_val w.Ar w.Ac hA, entries_val w.Br w.Bc hB, range_val w.Cl hC, entries_val w.Dr w.Dc hD, entries_val w.Er w.Ec hE]
    rfl
  | tril hn hl h => rw [parts, range_val hl h]; rfl
  | triu hn hl h => rw [parts, range_val hl h]; rfl
  | topRight hb hA hr hc hB hC iA iC =>
    rw [parts, bnd_eq hb]
    rw [entries_val hr hc hB, iA, iC, SM.parts, List.map_cons, List.map_append]
  | bottomLeft hb hA hr hc hB hC iA iC =>
    rw [parts, bnd_eq hb]
    rw [entries_val hr hc hB, iA, iC, SM.parts, List.map_cons, List.map_append]

/-- **Without infinite values and NaN** the norm is that of the exact model, for all classes: the largest absolute value of the represented matrix (`C11_infinity_norm`). -/
theorem C100_values {c : Cls} {n : ℕ} {o : Obj α} {K : SM α} (h : Agree c n o K) (ν : α) (hν : K.infNorm = .ok ν) : infNorm n o = some (.fin ν) := by
  have hne : K.parts.flatten ≠ [] := by
    intro e
    have e' : K.parts.filter (fun l => l ≠ []) = [] := List.filter_eq_nil_iff.2 fun l hl => by simpa using List.flatten_eq_nil_iff.1 e l hl
    rw [SM.infNorm, e'] at hν
    cases hν
  obtain ⟨v, e, ⟨x, hx, hv⟩, hle⟩ := infNorm_parts K hne
  rw [hν] at e; injection e with e; subst e
  have hp := parts_val h
  rw [infNorm]
  have nn : ∀ u ∈ parts n o, Fl.nan ∉ u := by
    rw [hp]
    intro u hu hn
    obtain ⟨l, -, rfl⟩ := List.mem_map.1 hu
    obtain ⟨y, -, ey⟩ := List.mem_map.1 hn
    cases ey
  obtain ⟨l0, hl0, hx0⟩ := List.mem_flatten.1 hx
  have : ∃ us t ts, parts n o = us ++ t :: ts ∧ t ≠ [] ∧ ∀ u ∈ us, u = [] := by
    have : ∃ u ∈ parts n o, u ≠ [] := ⟨l0.map .fin, by rw [hp]; exact List.mem_map_of_mem hl0, fun e => by rw [List.map_eq_nil_iff] at e; rw [e] at hx0; cases hx0⟩
    revert this
    generalize parts n o = L
    induction L with
    | nil => rintro ⟨u, hu, -⟩; cases hu
    | cons a L ih =>
      rintro ⟨u, hu, hn⟩
      by_cases ha : a = []
      · obtain ⟨us, t, ts, e, h1, h2⟩ := ih ⟨u, (List.mem_cons.1 hu).resolve_left fun k => hn (k.trans ha), hn⟩
        refine ⟨a :: us, t, ts, by rw [e]; rfl, h1, fun w hw => ?_⟩
        rcases List.mem_cons.1 hw with rfl | hw
        · exact ha
        · exact h2 w hw
      · exact ⟨[], a, L, rfl, ha, fun w hw => nomatch hw⟩
  obtain ⟨us, t, ts, eL, ht, hus⟩ := this
  obtain ⟨r, hr, -, h3⟩ := Fl.C100_norm (ts := ts) ht hus
  rw [eL, hr]
  obtain ⟨⟨u, hu, -, y, hy, ey⟩, hmax⟩ := h3 (nn t (by rw [eL]; simp))
  have sub : ∀ w ∈ t :: ts, w ∈ parts n o := fun w hw => by rw [eL]; exact List.mem_append_right _ hw
  have hu' := sub u hu
  rw [hp] at hu'
  obtain ⟨l, hl, rfl⟩ := List.mem_map.1 hu'
  obtain ⟨z, hz, rfl⟩ := List.mem_map.1 hy
  have le1 : |z| ≤ ν := hle z (List.mem_flatten.2 ⟨l, hl, hz⟩)
  have hm0 : l0.map Fl.fin ∈ parts n o := by rw [hp]; exact List.mem_map_of_mem hl0
  have hm1 : l0.map Fl.fin ∈ t :: ts := by
    rw [eL] at hm0
    rcases List.mem_append.1 hm0 with k | k
    · have := hus _ k
      rw [List.map_eq_nil_iff] at this; rw [this] at hx0; cases hx0
    · exact k
  have le2 := hmax _ hm1 (nn _ hm0) (.fin x) (List.mem_map_of_mem hx0)
  rw [ey] at le2 ⊢
  have le2 : |x| ≤ |z| := le2
  rw [Fl.abs, le_antisymm le1 (hv ▸ le2)]

/-! ### the norm overlooks NaN -/

/-- **The position of a NaN decides**: the same block-diagonal matrix with a NaN in the smaller last block has a norm, with a NaN in another block it has not. In the first case the NaN is
ignored, in the second one the norm is NaN and counts as 1 in the rate, although other entries are large: the rate is not reduced. -/
theorem C100_position_false :
    infNorm 3 (.block 2 (fun _ i j => .fin (i + 2 * j)) (fun _ _ => .nan) : Obj ℚ) = some (.fin 3) ∧
    infNorm 3 (.block 2 (fun _ i j => if i = j then .nan else .fin 100) (fun _ _ => .fin 50) : Obj ℚ) = some .nan ∧
    Fl.rate (1 / 10 : ℚ) .nan = 1 / 10 ∧ infNorm 3 (.block 2 (fun _ i j => if i = j then .fin 1 else .fin 100) (fun _ _ => .fin 50) : Obj ℚ) = some (.fin 100) := by
  decide +kernel

/-- **An infinite entry can be overlooked**: in a recursive matrix the norm is a number although a tensor contains an infinity, if it also contains a NaN. -/
theorem C100_infinity_false : infNorm 3 (.topRight (.int 1) .inf .dense .dense (.dense fun _ _ => .fin 2) (fun _ _ => .fin 3) (.dense fun i j => if i = j then .inf true else .nan) : Obj ℚ) = some (.fin 3) := by
  decide +kernel

/-- hypotheses of `C100_values` -/
example : infNorm 2 (exV 1) = some (.fin 2) := by
  obtain ⟨v, hv⟩ := ok_of (x := (exT 1).infNorm) (by decide +kernel)
  rw [C100_values (exT_agree 1) v hv]
  have : (exT 1).infNorm = .ok 2 := by decide +kernel
  rw [hv] at this; injection this with this; rw [this]

/-! ### updates with computed norms -/

/-- the same operation but for the norms -/
inductive SameButNorms : Op α → Op α → Prop
  | rfl (op : Op α) : SameButNorms op op
  | step (h : Hyp α) (ν : Option (Fl α × Fl α)) (due : Bool) (G : M α) : SameButNorms (.step h due G) (.step { h with norms := ν } due G)

omit [IsStrictOrderedRing α] in
/-- **Computed norms**: a history in which the code computes its norms is one with given norms, so all statements about all histories of C97, C98 and C99 hold for it. -/
theorem C100_history (st : Fl α → Fl α) (n d : ℕ) (ops : List (Op α)) : ∀ l : Lay α, ∃ ops', List.Forall₂ SameButNorms ops ops' ∧ runN st n d l ops = run st n d l ops' := by
  induction ops with
  | nil => exact fun l => ⟨[], .nil, rfl⟩
  | cons op ops ih =>
    intro l
    obtain ⟨ops', h1, h2⟩ := ih (execN st n d l op)
    have : ∃ op', SameButNorms op op' ∧ execN st n d l op = exec st n d l op' := by
      cases op with
      | step h due G => exact ⟨_, .step h _ due G, rfl⟩
      | _ => exact ⟨_, .rfl _, rfl⟩
    obtain ⟨op', h3, h4⟩ := this
    exact ⟨op' :: ops', .cons h3 h1, by rw [runN, List.foldl_cons, run, List.foldl_cons, ← h4]; exact h2⟩

omit [IsStrictOrderedRing α] in
/-- the momenta whose norms are taken are those that the update stores -/
theorem momentaOf_stored (st : Fl α → Fl α) (n d : ℕ) (h : Hyp α) (l : Lay α) (ha : h.alpha1 ≠ 0) :
    ((update st n d h l).mK, (update st n d h l).mC) = momentaOf st n d h l := by
  unfold update momentaOf
  cases l.H with
  | none => rfl
  | some H => dsimp only; simp only [if_pos ha]

omit [IsStrictOrderedRing α] in
/-- the momenta whose norms are taken are those that move the factors -/
theorem momentaOf_used (st : Fl α → Fl α) (n d : ℕ) (h : Hyp α) (l : Lay α) (hH : l.H ≠ none) :
    (update st n d h l).K = add st (.fin (-(h.norms.elim h.lrCov fun ν => Fl.rate h.lrCov ν.1))) l.K (product st n l.K (momentaOf st n d h l).1) ∧
    (update st n d h l).C = add st (.fin (-(h.norms.elim h.lrCov fun ν => Fl.rate h.lrCov ν.2))) l.C (product st d l.C (momentaOf st n d h l).2) := by
  unfold update momentaOf
  cases e : l.H with
  | none => exact absurd e hH
  | some H => exact ⟨rfl, rfl⟩

section
variable {cK cC : Cls} {n d : ℕ} {l : Lay α} {K C mK mC HK HC nK nC mK' mC' K' C' : SM α} {oK oC : Obj α} {y : Hyp α} {h : Hyper α} {t : ℕ} {u s βK βC : α} {ν : α × α}

/-- the momenta of an update of numbers without overflow are those of the exact model -/
theorem momenta_val (hy : y.Of h t u s ν) (hK : Agree cK n l.K K) (hC : Agree cC d l.C C) (hmK : Agree cK n l.mK mK) (hmC : Agree cC d l.mC mC) (eH : l.H = some (oK, oC)) (hHK : Agree cK n oK HK)
    (hHC : Agree cC d oC HC) (e1 : newMomenta h n d u K C HK HC = .ok (nK, nC)) (e2 : (if h.alpha1 ≠ 0 then nK.add_ mK h.alpha1 else .ok nK) = .ok mK')
    (e3 : (if h.alpha1 ≠ 0 then nC.add_ mC h.alpha1 else .ok nC) = .ok mC') : Agree cK n (momentaOf id n d y l).1 mK' ∧ Agree cC d (momentaOf id n d y l).2 mC' := by
  obtain ⟨KtK, a1, e1⟩ := bind_split e1
  obtain ⟨CtC, a2, e1⟩ := bind_split e1
  obtain ⟨tHC, a3, e1⟩ := bind_split e1
  obtain ⟨tCC, a4, e1⟩ := bind_split e1
  obtain ⟨x1, a5, e1⟩ := bind_split e1
  obtain ⟨tHK, a6, e1⟩ := bind_split e1
  obtain ⟨tKK, a7, e1⟩ := bind_split e1
  obtain ⟨x2, a8, e1⟩ := bind_split e1
  injection e1 with e1
  obtain ⟨rfl, rfl⟩ := Prod.mk.inj e1
  have iK := inner_val hK a1
  have iC := inner_val hC a2
  rw [← hy.half] at a5 a8
  have mK1 := newMomentum_val hK.wf hHK iK y _ _ a5
  have mC1 := newMomentum_val hC.wf hHC iC y _ _ a8
  have tK : (if y.kfac then Fl.fin 1 else id (.fin y.unscale * averageTrace id d oC)) = .fin (if h.kfacLike then 1 else u * tHC) := by
    have := traceOr1_val hHC h.kfacLike u a3
    rw [hy.kfac, hy.unscale]
    cases hk : h.kfacLike with
    | true => rfl
    | false => rw [hk] at this; simpa using this
  have tC : (if y.kfac then Fl.fin y.unscale else id (.fin y.unscale * averageTrace id n oK)) = .fin (if h.kfacLike then u else u * tHK) := by
    have := traceOr1_val hHK h.kfacLike u a6
    rw [hy.kfac, hy.unscale]
    cases hk : h.kfacLike with
    | true => rfl
    | false => rw [hk] at this; simpa using this
  have gK : (if y.kfac then Fl.fin y.damping else id (.fin y.damping * averageTrace id d (inner id d l.C))) = .fin (h.damping * tCC) := by
    rw [hy.kfac, hy.damping]; exact traceOr1_val iC h.kfacLike h.damping a4
  have gC : (if y.kfac then Fl.fin y.damping else id (.fin y.damping * averageTrace id n (inner id n l.K))) = .fin (h.damping * tKK) := by
    rw [hy.kfac, hy.damping]; exact traceOr1_val iK h.kfacLike h.damping a7
  unfold momentaOf
  rw [eH]
  dsimp only
  rw [tK, tC, gK, gC, hK.cls, hC.cls, hy.alpha1]
  by_cases ha : h.alpha1 ≠ 0
  · rw [if_pos ha] at e2 e3
    simp only [if_pos ha]
    exact ⟨add_val _ mK1 hmK e2, add_val _ mC1 hmC e3⟩
  · rw [if_neg ha] at e2 e3
    injection e2 with e2; injection e3 with e3
    subst e2; subst e3
    simp only [if_neg ha]
    exact ⟨mK1, mC1⟩

/-- **An update with computed norms** in which all entries are numbers and nothing overflows computes the factors of the exact model, with and without `normalize_lr_cov`. -/
theorem C100_update (hy : y.Of h t u s ν) (hK : Agree cK n l.K K) (hC : Agree cC d l.C C) (hmK : Agree cK n l.mK mK) (hmC : Agree cC d l.mC mC) (eH : l.H = some (oK, oC)) (hHK : Agree cK n oK HK)
    (hHC : Agree cC d oC HC) (e1 : newMomenta h n d u K C HK HC = .ok (nK, nC)) (e2 : (if h.alpha1 ≠ 0 then nK.add_ mK h.alpha1 else .ok nK) = .ok mK')
    (e3 : (if h.alpha1 ≠ 0 then nC.add_ mC h.alpha1 else .ok nC) = .ok mC') (b4 : factorRate h t mK' = .ok βK) (b5 : factorRate h t mC' = .ok βC) (e4 : factorStep K mK' βK = .ok K')
    (e5 : factorStep C mC' βC = .ok C') : Agree cK n (update id n d (y.normed id n d l) l).K K' ∧ Agree cC d (update id n d (y.normed id n d l) l).C C' := by
  obtain ⟨m1, m2⟩ := momenta_val hy hK hC hmK hmC eH hHK hHC e1 e2 e3
  by_cases hn : h.normalize = true
  · have q1 : ∃ a, mK'.infNorm = .ok a := by
      unfold factorRate at b4
      rw [if_pos hn] at b4
      obtain ⟨a, e, -⟩ := bind_split b4
      exact ⟨a, e⟩
    have q2 : ∃ a, mC'.infNorm = .ok a := by
      unfold factorRate at b5
      rw [if_pos hn] at b5
      obtain ⟨a, e, -⟩ := bind_split b5
      exact ⟨a, e⟩
    obtain ⟨a, ea⟩ := q1
    obtain ⟨b, eb⟩ := q2
    have hy' : (y.normed id n d l).Of h t u s (a, b) := by
      refine ⟨hy.kfac, hy.alpha1, hy.damping, hy.half, hy.lrCov, ?_, hy.momentum, hy.weightDecay, hy.lr, hy.unscale, hy.inv⟩
      show y.norms.map _ = _
      rw [hy.norms, if_pos hn, if_pos hn, C100_values m1 a ea, C100_values m2 b eb]; rfl
    have := C97_update hy' hK hC hmK hmC eH hHK hHC e1 e2 e3 (fun _ => ⟨ea, eb⟩) b4 b5 e4 e5
    exact ⟨this.1, this.2.1⟩
  · have hy' : (y.normed id n d l).Of h t u s ν := by
      refine ⟨hy.kfac, hy.alpha1, hy.damping, hy.half, hy.lrCov, ?_, hy.momentum, hy.weightDecay, hy.lr, hy.unscale, hy.inv⟩
      show y.norms.map _ = _
      rw [hy.norms, if_neg hn]; rfl
    have := C97_update hy' hK hC hmK hmC eH hHK hHC e1 e2 e3 (fun k => absurd k hn) b4 b5 e4 e5
    exact ⟨this.1, this.2.1⟩

end

/-- the update of the example with `normalize_lr_cov` -/
def exHn : Hyper ℚ := { exH with normalize := true }

def exUpN : Except PyErr ((SM ℚ × SM ℚ) × (SM ℚ × SM ℚ) × (ℚ × ℚ) × SM ℚ × SM ℚ) := do
  let n ← newMomenta exHn 2 2 3 (exT 1) (exD 1) (exT 2) (exD 3)
  let a ← n.1.add_ (exT 4) exHn.alpha1
  let b ← n.2.add_ (exD 5) exHn.alpha1
  let β ← factorRate exHn 0 a
  let γ ← factorRate exHn 0 b
  let K ← factorStep (exT 1) a β
  let C ← factorStep (exD 1) b γ
  return (n, (a, b), (β, γ), K, C)

def exYn : Hyp ℚ := { exY with norms := some (.fin 0, .fin 0), half := 1 / 2 * (1 - 1 / 4) }

theorem exYn_of : exYn.Of exHn 0 3 2 (0, 0) := ⟨rfl, rfl, rfl, by norm_num [exYn, exHn, exH], by norm_num [exYn, exY, exHn, exH, LrCov.at], rfl, rfl, rfl, rfl, rfl, rfl⟩

example : ∃ K' C' : SM ℚ, Agree .tril 2 (update id 2 2 (exYn.normed id 2 2 exL) exL).K K' ∧ Agree .dense 2 (update id 2 2 (exYn.normed id 2 2 exL) exL).C C' := by
  obtain ⟨v, hv⟩ := ok_of (x := exUpN) (by decide +kernel)
  obtain ⟨n, h1, hv⟩ := bind_split hv
  obtain ⟨a, h2, hv⟩ := bind_split hv
  obtain ⟨b, h3, hv⟩ := bind_split hv
  obtain ⟨β, h4, hv⟩ := bind_split hv
  obtain ⟨γ, h5, hv⟩ := bind_split hv
  obtain ⟨K', h6, hv⟩ := bind_split hv
  obtain ⟨C', h7, hv⟩ := bind_split hv
  have ha : exHn.alpha1 ≠ 0 := by norm_num [exHn, exH]
  exact ⟨K', C', C100_update (l := exL) exYn_of (exT_agree 1) (exD_agree 1) (exT_agree 4) (exD_agree 5) rfl (exT_agree 2) (exD_agree 3) h1 (by rw [if_pos ha]; exact h2) (by rw [if_pos ha]; exact h3) h4 h5 h6 h7⟩

/-- the norms in the example are larger than 1 -/
example : (exYn.normed id 2 2 exL).norms.map (fun ν => (Fl.lt (.fin 1) ν.1, Fl.lt (.fin 1) ν.2)) = some (true, true) := by decide +kernel

end Ov
