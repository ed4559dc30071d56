import Verif.Proofs.Opt.Scale

/-! Second moments of a batch and of the micro-batches it is split into. -/

set_option linter.unusedSectionVars false
open Matrix PIO Finset
variable {α : Type} [Field α]

/-- micro-batch `j` of `k` equal ones (`x.chunk(k)[j]`, the batch is the first axis) -/
def ND.chunk (x : ND α) (k j : ℕ) : ND α := match x.shape with
  | [] => x
  | b :: rest => ⟨b / k :: rest, fun i => x.flat (j * (b / k * rest.prod) + i)⟩

/-- the batch size is a multiple of `k` -/
def ND.Splits (x : ND α) (k : ℕ) : Prop := ∃ b rest, x.shape = k * b :: rest

/-- rows `j n/k, ..., (j + 1) n/k - 1` -/
def Mat.rowBlock (k : ℕ) (Y : Mat α) (j : ℕ) : Mat α := Mat.ofFn (Y.rows / k) Y.cols fun r c => Y.get (j * (Y.rows / k) + r) c

theorem row_lt {k j R r : ℕ} (hj : j < k) (hr : r < R) : j * R + r < k * R := by
  have : (j + 1) * R ≤ k * R := Nat.mul_le_mul_right _ hj
  rw [Nat.add_mul, one_mul] at this
  omega

theorem chunk_eq {x : ND α} {k b : ℕ} {rest : List ℕ} (hk : 0 < k) (h : x.shape = k * b :: rest) (j : ℕ) :
    x.chunk k j = ⟨b :: rest, fun i => x.flat (j * (b * rest.prod) + i)⟩ := by
  unfold ND.chunk
  rw [h]
  simp only [Nat.mul_div_cancel_left b hk]

theorem rowBlock_ofFn {k j R c : ℕ} (hk : 0 < k) (hj : j < k) (f : ℕ → ℕ → α) :
    (Mat.ofFn (k * R) c f).rowBlock k j = Mat.ofFn R c fun r c => f (j * R + r) c := by
  unfold Mat.rowBlock
  rw [Mat.rows_ofFn, Mat.cols_ofFn, Nat.mul_div_cancel_left R hk]
  refine Mat.ext' rfl rfl fun r hr i hi => ?_
  simp only [Mat.rows_ofFn, Mat.cols_ofFn] at hr hi
  simp [hr, hi, row_lt hj hr]

theorem split3_cons {k b : ℕ} {rest : List ℕ} : (split3 (k * b :: rest)) = (split3 (b :: rest)).map fun y => (k * b, y.2) := by
  rcases rest with _ | ⟨c, rest⟩ <;> rfl

theorem split3_prod {b b' s d : ℕ} {rest : List ℕ} (h : split3 (b :: rest) = some (b', s, d)) : b' = b ∧ rest.prod = s * d := by
  rcases rest with _ | ⟨c, rest⟩
  · cases h
  · simp only [split3, Option.some.injEq, Prod.mk.injEq] at h
    obtain ⟨rfl, rfl, rfl⟩ := h
    refine ⟨rfl, ?_⟩
    conv_lhs => rw [← List.dropLast_append_getLast (show c :: rest ≠ [] by simp)]
    rw [List.prod_append]; simp

theorem mergeLeading_chunk {x : ND α} {k j : ℕ} (hx : x.Splits k) (hj : j < k) :
    mergeLeading (x.chunk k j) = (mergeLeading x).map (Mat.rowBlock k · j) := by
  obtain ⟨b, rest, h⟩ := hx
  have hk : 0 < k := by omega
  rw [chunk_eq hk h]
  unfold mergeLeading
  rw [h, split3_cons]
  simp only
  rcases hs : split3 (b :: rest) with _ | ⟨b', s, d⟩
  · rfl
  · obtain ⟨rfl, hp⟩ := split3_prod hs
    simp only [Option.map_some, Except.map, hp]
    rw [Nat.mul_assoc, rowBlock_ofFn hk hj]
    congr 2; funext r c; congr 1; ring

theorem meanMiddle_chunk {x : ND α} {k j : ℕ} (hx : x.Splits k) (hj : j < k) :
    meanMiddle (x.chunk k j) = (meanMiddle x).map (Mat.rowBlock k · j) := by
  obtain ⟨b, rest, h⟩ := hx
  have hk : 0 < k := by omega
  rw [chunk_eq hk h]
  unfold meanMiddle
  rw [h, split3_cons]
  simp only
  rcases hs : split3 (b :: rest) with _ | ⟨b', s, d⟩
  · rfl
  · obtain ⟨rfl, hp⟩ := split3_prod hs
    simp only [Option.map_some, Except.map, hp]
    rw [rowBlock_ofFn hk hj]
    congr 2; funext r c; congr 1; refine sum_congr rfl fun i _ => ?_; congr 1; ring

theorem sumMiddle_chunk {x : ND α} {k j : ℕ} (hx : x.Splits k) (hj : j < k) :
    sumMiddle (x.chunk k j) = (sumMiddle x).map (Mat.rowBlock k · j) := by
  obtain ⟨b, rest, h⟩ := hx
  have hk : 0 < k := by omega
  rw [chunk_eq hk h]
  unfold sumMiddle
  rw [h, split3_cons]
  simp only
  rcases hs : split3 (b :: rest) with _ | ⟨b', s, d⟩
  · rfl
  · obtain ⟨rfl, hp⟩ := split3_prod hs
    simp only [Option.map_some, Except.map, hp]
    rw [rowBlock_ofFn hk hj]
    congr 2; funext r c; refine sum_congr rfl fun i _ => ?_; congr 1; ring

theorem shape4_cons {k b : ℕ} {rest : List ℕ} (f f' : ℕ → α) :
    (shape4 ⟨k * b :: rest, f⟩ = .error .runtimeError ∧ shape4 ⟨b :: rest, f'⟩ = .error .runtimeError) ∨
    ∃ C I J, rest = [C, I, J] ∧ shape4 ⟨k * b :: rest, f⟩ = .ok (k * b, C, I, J) ∧ shape4 ⟨b :: rest, f'⟩ = .ok (b, C, I, J) := by
  rcases rest with _ | ⟨c, _ | ⟨i, _ | ⟨j, _ | ⟨l, rest⟩⟩⟩⟩
  · exact Or.inl ⟨rfl, rfl⟩
  · exact Or.inl ⟨rfl, rfl⟩
  · exact Or.inl ⟨rfl, rfl⟩
  · exact Or.inr ⟨c, i, j, rfl, rfl, rfl⟩
  · exact Or.inl ⟨rfl, rfl⟩

/-- entries of a micro-batch -/
theorem at4_chunk {x : ND α} (b C I J j r c i l : ℕ) :
    at4 ⟨b :: [C, I, J], fun i => x.flat (j * (b * [C, I, J].prod) + i)⟩ C I J r c i l = at4 x C I J (j * b + r) c i l := by
  unfold at4
  simp only [List.prod_cons, List.prod_nil, mul_one]
  congr 1; ring

theorem mergeSpatial_chunk {x : ND α} {k j : ℕ} (hx : x.Splits k) (hj : j < k) :
    mergeSpatial (x.chunk k j) = (mergeSpatial x).map (Mat.rowBlock k · j) := by
  obtain ⟨b, rest, h⟩ := hx
  have hk : 0 < k := by omega
  rw [chunk_eq hk h]
  have ex : x = ⟨k * b :: rest, x.flat⟩ := by rw [← h]
  unfold mergeSpatial
  rcases shape4_cons (k := k) (b := b) (rest := rest) x.flat (fun i => x.flat (j * (b * rest.prod) + i)) with ⟨e1, e2⟩ | ⟨C, I, J, rfl, e1, e2⟩
  · rw [e2]; rw [← ex] at e1; rw [e1]; rfl
  · rw [e2]; rw [← ex] at e1; rw [e1]
    simp only [Except.bind_ok', Except.pure_ok, Except.map]
    rw [show k * b * I * J = k * (b * I * J) by ring, rowBlock_ofFn hk hj]
    congr 2; funext r c
    rw [at4_chunk]
    rcases Nat.eq_zero_or_pos J with rfl | hJ
    · simp [at4]
    rcases Nat.eq_zero_or_pos I with rfl | hI
    · simp [at4]
    have a1 : (j * (b * I * J) + r) / (I * J) = j * b + r / (I * J) := by
      rw [show j * (b * I * J) + r = r + (I * J) * (j * b) by ring, Nat.add_mul_div_left _ _ (Nat.mul_pos hI hJ)]; ring
    have a2 : (j * (b * I * J) + r) / J % I = r / J % I := by
      rw [show j * (b * I * J) + r = r + J * (I * (j * b)) by ring, Nat.add_mul_div_left _ _ hJ, Nat.add_mul_mod_self_left]
    have a3 : (j * (b * I * J) + r) % J = r % J := by
      rw [show j * (b * I * J) + r = r + J * (I * (j * b)) by ring, Nat.add_mul_mod_self_left]
    rw [a1, a2, a3]

theorem sumSpatial_chunk {x : ND α} {k j : ℕ} (hx : x.Splits k) (hj : j < k) :
    sumSpatial (x.chunk k j) = (sumSpatial x).map (Mat.rowBlock k · j) := by
  obtain ⟨b, rest, h⟩ := hx
  have hk : 0 < k := by omega
  rw [chunk_eq hk h]
  have ex : x = ⟨k * b :: rest, x.flat⟩ := by rw [← h]
  unfold sumSpatial
  rcases shape4_cons (k := k) (b := b) (rest := rest) x.flat (fun i => x.flat (j * (b * rest.prod) + i)) with ⟨e1, e2⟩ | ⟨C, I, J, rfl, e1, e2⟩
  · rw [e2]; rw [← ex] at e1; rw [e1]; rfl
  · rw [e2]; rw [← ex] at e1; rw [e1]
    simp only [Except.bind_ok', Except.pure_ok, Except.map]
    rw [rowBlock_ofFn hk hj]
    simp only [at4_chunk]

theorem groupMean_chunk {x : ND α} (b C I J g cin j r c i l : ℕ) :
    groupMean ⟨b :: [C, I, J], fun i => x.flat (j * (b * [C, I, J].prod) + i)⟩ C I J g cin r c i l = groupMean x C I J g cin (j * b + r) c i l := by
  unfold groupMean; simp only [at4_chunk]

theorem extractAveraged_chunk {x : ND α} {cfg : ConvCfg} {k j : ℕ} (hx : x.Splits k) (hj : j < k) :
    extractAveragedPatches (x.chunk k j) cfg = (extractAveragedPatches x cfg).map (Mat.rowBlock k · j) := by
  obtain ⟨b, rest, h⟩ := hx
  have hk : 0 < k := by omega
  rw [chunk_eq hk h]
  have ex : x = ⟨k * b :: rest, x.flat⟩ := by rw [← h]
  unfold extractAveragedPatches
  rcases shape4_cons (k := k) (b := b) (rest := rest) x.flat (fun i => x.flat (j * (b * rest.prod) + i)) with ⟨e1, e2⟩ | ⟨C, I, J, rfl, e1, e2⟩
  · rw [e2]; rw [← ex] at e1; rw [e1]; rfl
  · rw [e2]; rw [← ex] at e1; rw [e1]
    simp only [Except.bind_ok', Except.pure_ok]
    rcases groupChannels C cfg.groups with _ | cin
    · rfl
    simp only [Except.bind_ok']
    obtain ⟨kernel, stride, padding, dilation, groups⟩ := cfg
    cases padding with
    | ints p =>
      simp only
      rcases outSize I kernel.1 stride.1 dilation.1 p.1 p.1 with _ | O1
      · rfl
      simp only [Except.bind_ok']
      rcases outSize J kernel.2 stride.2 dilation.2 p.2 p.2 with _ | O2
      · rfl
      simp only [Except.bind_ok', Except.map]
      rw [rowBlock_ofFn hk hj]
      simp only [groupMean_chunk]
    | str s =>
      simp only
      rcases convPaddings kernel.1 stride.1 dilation.1 s with _ | l1
      · rfl
      simp only [Except.bind_ok']
      rcases outSize I kernel.1 stride.1 dilation.1 l1.1 l1.2 with _ | O1
      · rfl
      simp only [Except.bind_ok']
      rcases convPaddings kernel.2 stride.2 dilation.2 s with _ | l2
      · rfl
      simp only [Except.bind_ok']
      rcases outSize J kernel.2 stride.2 dilation.2 l2.1 l2.2 with _ | O2
      · rfl
      simp only [Except.bind_ok', Except.map]
      rw [rowBlock_ofFn hk hj]
      simp only [groupMean_chunk]

theorem flatten_chunk {x : ND α} {cfg : ConvCfg} {k j : ℕ} (hx : x.Splits k) (hj : j < k) :
    (flattenPatches <$> extractPatches (x.chunk k j) cfg) = (flattenPatches <$> extractPatches x cfg).map (Mat.rowBlock k · j) := by
  obtain ⟨b, rest, h⟩ := hx
  have hk : 0 < k := by omega
  rw [chunk_eq hk h]
  have ex : x = ⟨k * b :: rest, x.flat⟩ := by rw [← h]
  unfold extractPatches
  rcases expandPadding cfg with _ | pad
  · rfl
  simp only [Except.bind_ok']
  rcases shape4_cons (k := k) (b := b) (rest := rest) x.flat (fun i => x.flat (j * (b * rest.prod) + i)) with ⟨e1, e2⟩ | ⟨C, I, J, rfl, e1, e2⟩
  · rw [e2]; rw [← ex] at e1; rw [e1]; rfl
  · rw [e2]; rw [← ex] at e1; rw [e1]
    simp only [Except.bind_ok', Except.pure_ok]
    rcases groupChannels C cfg.groups with _ | cin
    · rfl
    simp only [Except.bind_ok']
    rcases outSize I cfg.kernel.1 cfg.stride.1 cfg.dilation.1 pad.1 pad.1 with _ | O1
    · rfl
    simp only [Except.bind_ok']
    rcases outSize J cfg.kernel.2 cfg.stride.2 cfg.dilation.2 pad.2 pad.2 with _ | O2
    · rfl
    simp only [Except.bind_ok', Functor.map, Except.map, flattenPatches, T3.d0_ofFn, T3.d1_ofFn, T3.d2_ofFn]
    rw [show k * b * (O1 * O2) = k * (b * (O1 * O2)) by ring, rowBlock_ofFn hk hj]
    congr 1
    refine Mat.ext' rfl rfl fun r hr c hc => ?_
    simp only [Mat.rows_ofFn, Mat.cols_ofFn] at hr hc
    have hO : 0 < O1 * O2 := by
      rcases Nat.eq_zero_or_pos (O1 * O2) with h0 | h0
      · rw [h0] at hr; simp at hr
      · exact h0
    have a1 : (j * (b * (O1 * O2)) + r) / (O1 * O2) = j * b + r / (O1 * O2) := by
      rw [show j * (b * (O1 * O2)) + r = r + (O1 * O2) * (j * b) by ring, Nat.add_mul_div_left _ _ hO]; ring
    have a2 : (j * (b * (O1 * O2)) + r) % (O1 * O2) = r % (O1 * O2) := by
      rw [show j * (b * (O1 * O2)) + r = r + (O1 * O2) * (j * b) by ring, Nat.add_mul_mod_self_left]
    have hb : r / (O1 * O2) < b := Nat.div_lt_of_lt_mul (by rw [mul_comm]; exact hr)
    have hkb : j * b + r / (O1 * O2) < k * b := row_lt hj hb
    simp only [Mat.get_ofFn, hr, hc, and_self, if_true, T3.get_ofFn, a1, a2, hb, hkb, groupMean_chunk]

theorem appendOnes_block (k j : ℕ) (Y : Mat α) (hk : 0 < k) (hj : j < k) (hd : k ∣ Y.rows) :
    appendOnes (Y.rowBlock k j) = (appendOnes Y).rowBlock k j := by
  obtain ⟨R, hR⟩ := hd
  have hdiv : Y.rows / k = R := by rw [hR]; exact Nat.mul_div_cancel_left R hk
  refine Mat.ext' rfl rfl fun r hr c hc => ?_
  simp only [appendOnes, Mat.rowBlock, Mat.hcat, Mat.rows_ofFn, Mat.cols_ofFn, hdiv] at hr hc
  have h1 := row_lt hj hr
  rw [← hR] at h1
  simp only [appendOnes, Mat.rowBlock, Mat.hcat, Mat.rows_ofFn, Mat.cols_ofFn, Mat.get_ofFn, hdiv, hr, hc, h1, true_and, if_true]
  split
  · rfl
  · simp

theorem sum_blocks (f : ℕ → α) (R : ℕ) : ∀ k : ℕ, ∑ j ∈ range k, ∑ r ∈ range R, f (j * R + r) = ∑ i ∈ range (k * R), f i
  | 0 => by simp
  | k + 1 => by rw [sum_range_succ, sum_blocks f R k, Nat.add_mul, one_mul, Finset.sum_range_add]

theorem mergeLeading_dvd {x : ND α} {k : ℕ} (hx : x.Splits k) {Y : Mat α} (h : mergeLeading x = .ok Y) : k ∣ Y.rows := by
  obtain ⟨b, rest, e⟩ := hx
  unfold mergeLeading at h
  rw [e, split3_cons] at h
  rcases hs : split3 (b :: rest) with _ | ⟨b', s, d⟩ <;> rw [hs] at h <;> cases h
  exact ⟨b * s, by simp [mul_assoc]⟩

theorem meanMiddle_dvd {x : ND α} {k : ℕ} (hx : x.Splits k) {Y : Mat α} (h : meanMiddle x = .ok Y) : k ∣ Y.rows := by
  obtain ⟨b, rest, e⟩ := hx
  unfold meanMiddle at h
  rw [e, split3_cons] at h
  rcases hs : split3 (b :: rest) with _ | ⟨b', s, d⟩ <;> rw [hs] at h <;> cases h
  exact ⟨b, rfl⟩

theorem sumMiddle_dvd {x : ND α} {k : ℕ} (hx : x.Splits k) {Y : Mat α} (h : sumMiddle x = .ok Y) : k ∣ Y.rows := by
  obtain ⟨b, rest, e⟩ := hx
  unfold sumMiddle at h
  rw [e, split3_cons] at h
  rcases hs : split3 (b :: rest) with _ | ⟨b', s, d⟩ <;> rw [hs] at h <;> cases h
  exact ⟨b, rfl⟩

theorem shape4_splits {x : ND α} {k : ℕ} (hx : x.Splits k) : shape4 x = .error .runtimeError ∨ ∃ b C I J, shape4 x = .ok (k * b, C, I, J) := by
  obtain ⟨b, rest, e⟩ := hx
  have ex : x = ⟨k * b :: rest, x.flat⟩ := by rw [← e]
  rw [ex]
  rcases shape4_cons (k := k) (b := b) (rest := rest) x.flat x.flat with ⟨e1, _⟩ | ⟨C, I, J, _, e1, _⟩
  · exact Or.inl e1
  · exact Or.inr ⟨b, C, I, J, e1⟩

theorem mergeSpatial_dvd {x : ND α} {k : ℕ} (hx : x.Splits k) {Y : Mat α} (h : mergeSpatial x = .ok Y) : k ∣ Y.rows := by
  unfold mergeSpatial at h
  rcases shape4_splits hx with e | ⟨b, C, I, J, e⟩ <;> rw [e] at h <;> cases h
  exact ⟨b * I * J, by simp only [Mat.rows_ofFn]; ring⟩

theorem sumSpatial_dvd {x : ND α} {k : ℕ} (hx : x.Splits k) {Y : Mat α} (h : sumSpatial x = .ok Y) : k ∣ Y.rows := by
  unfold sumSpatial at h
  rcases shape4_splits hx with e | ⟨b, C, I, J, e⟩ <;> rw [e] at h <;> cases h
  exact ⟨b, rfl⟩

theorem extractAveraged_dvd {x : ND α} {cfg : ConvCfg} {k : ℕ} (hx : x.Splits k) {Y : Mat α} (h : extractAveragedPatches x cfg = .ok Y) :
    k ∣ Y.rows := by
  unfold extractAveragedPatches at h
  rcases shape4_splits hx with e | ⟨b, C, I, J, e⟩
  · rw [e] at h; cases h
  rw [e] at h
  simp only [Except.bind_ok'] at h
  obtain ⟨cin, _, h⟩ := IOProof.Except.bind_eq_ok h
  obtain ⟨kernel, stride, padding, dilation, groups⟩ := cfg
  cases padding with
  | ints p =>
    obtain ⟨_, _, h⟩ := IOProof.Except.bind_eq_ok h
    obtain ⟨O1, _, h⟩ := IOProof.Except.bind_eq_ok h
    obtain ⟨_, _, h⟩ := IOProof.Except.bind_eq_ok h
    obtain ⟨O2, _, h⟩ := IOProof.Except.bind_eq_ok h
    cases h
    exact ⟨b, rfl⟩
  | str s =>
    obtain ⟨_, _, h⟩ := IOProof.Except.bind_eq_ok h
    obtain ⟨O1, _, h⟩ := IOProof.Except.bind_eq_ok h
    obtain ⟨_, _, h⟩ := IOProof.Except.bind_eq_ok h
    obtain ⟨O2, _, h⟩ := IOProof.Except.bind_eq_ok h
    cases h
    exact ⟨b, rfl⟩

theorem flatten_dvd {x : ND α} {cfg : ConvCfg} {k : ℕ} (hx : x.Splits k) {Y : Mat α}
    (h : (flattenPatches <$> extractPatches x cfg) = .ok Y) : k ∣ Y.rows := by
  rcases hp : extractPatches x cfg with _ | T
  · rw [hp] at h; cases h
  rw [hp] at h
  cases h
  unfold extractPatches at hp
  obtain ⟨pad, _, hp⟩ := IOProof.Except.bind_eq_ok hp
  rcases shape4_splits hx with e | ⟨b, C, I, J, e⟩
  · rw [e] at hp; cases hp
  rw [e] at hp
  simp only [Except.bind_ok'] at hp
  obtain ⟨cin, _, hp⟩ := IOProof.Except.bind_eq_ok hp
  obtain ⟨O1, _, hp⟩ := IOProof.Except.bind_eq_ok hp
  obtain ⟨O2, _, hp⟩ := IOProof.Except.bind_eq_ok hp
  cases hp
  exact ⟨b * (O1 * O2), by simp only [flattenPatches, Mat.rows_ofFn, T3.d0_ofFn, T3.d1_ofFn]; ring⟩

/-- the input matrix before division by the square root of its number of rows -/
def rawInput (x : ND α) (kind : LayerKind) (bias : Bool) (approx : String) : Except PyErr (Mat α) :=
  (match kind with
    | .conv2d cfg => if approx = "expand" then flattenPatches <$> extractPatches x cfg else extractAveragedPatches x cfg
    | .linear => if approx = "expand" then mergeLeading x else meanMiddle x
    | .other => .error .notImplementedError).map fun Y => if bias then appendOnes Y else Y

theorem processInput_raw [HasSqrt α] {x : ND α} {kind : LayerKind} {bias : Bool} {approx : String}
    (ha : approx = "expand" ∨ approx = "reduce") : processInput x kind bias approx = (rawInput x kind bias approx).map divSqrtRows := by
  unfold processInput rawInput
  rw [if_neg (not_not.2 ha)]
  cases kind with
  | other => rfl
  | linear =>
    simp only [linearProcessInput]
    by_cases he : approx = "expand"
    · simp only [he, if_true]; rcases mergeLeading x with _ | Y <;> rfl
    · simp only [he, if_false]; rcases meanMiddle x with _ | Y <;> rfl
  | conv2d cfg =>
    simp only [convProcessInput]
    by_cases he : approx = "expand"
    · simp only [he, if_true]; rcases (flattenPatches <$> extractPatches x cfg) with _ | Y <;> rfl
    · simp only [he, if_false]; rcases extractAveragedPatches x cfg with _ | Y <;> rfl

theorem rawInput_chunk {x : ND α} {k j : ℕ} {kind : LayerKind} {bias : Bool} {approx : String} (hx : x.Splits k) (hj : j < k) :
    rawInput (x.chunk k j) kind bias approx = (rawInput x kind bias approx).map (Mat.rowBlock k · j) ∧
      ∀ Y, rawInput x kind bias approx = .ok Y → k ∣ Y.rows := by
  have hk : 0 < k := by omega
  have key : ∀ E E' : Except PyErr (Mat α), E' = E.map (Mat.rowBlock k · j) → (∀ Y, E = .ok Y → k ∣ Y.rows) →
      (E'.map fun Y => if bias then appendOnes Y else Y) = (E.map fun Y => if bias then appendOnes Y else Y).map (Mat.rowBlock k · j) ∧
      ∀ Y, (E.map fun Y => if bias then appendOnes Y else Y) = .ok Y → k ∣ Y.rows := by
    rintro E E' rfl hd
    rcases E with _ | Y
    · exact ⟨rfl, by rintro Y h; cases h⟩
    · have := hd Y rfl
      constructor
      · cases bias
        · rfl
        · simp only [Except.map, if_true, appendOnes_block k j Y hk hj this]
      · rintro Z h; cases h
        cases bias
        · exact this
        · exact this
  unfold rawInput
  cases kind with
  | other => exact key _ _ rfl (by rintro Y h; cases h)
  | linear =>
    by_cases he : approx = "expand"
    · simp only [he, if_true]; exact key _ _ (mergeLeading_chunk hx hj) fun Y => mergeLeading_dvd hx
    · simp only [he, if_false]; exact key _ _ (meanMiddle_chunk hx hj) fun Y => meanMiddle_dvd hx
  | conv2d cfg =>
    by_cases he : approx = "expand"
    · simp only [he, if_true]; exact key _ _ (flatten_chunk hx hj) fun Y => flatten_dvd hx
    · simp only [he, if_false]; exact key _ _ (extractAveraged_chunk hx hj) fun Y => extractAveraged_dvd hx

/-- the output gradient matrix before scaling -/
def rawGrad (g : ND α) (kind : LayerKind) (approx : String) : Except PyErr (Mat α) :=
  match kind with
    | .conv2d _ => if approx = "expand" then mergeSpatial g else sumSpatial g
    | .linear => if approx = "expand" then mergeLeading g else sumMiddle g
    | .other => .error .notImplementedError

theorem rawGrad_chunk {x : ND α} {k j : ℕ} {kind : LayerKind} {approx : String} (hx : x.Splits k) (hj : j < k) :
    rawGrad (x.chunk k j) kind approx = (rawGrad x kind approx).map (Mat.rowBlock k · j) ∧ ∀ Y, rawGrad x kind approx = .ok Y → k ∣ Y.rows := by
  unfold rawGrad
  cases kind with
  | other => exact ⟨rfl, by rintro Y h; cases h⟩
  | linear =>
    simp only
    split
    · exact ⟨mergeLeading_chunk hx hj, fun Y => mergeLeading_dvd hx⟩
    · exact ⟨sumMiddle_chunk hx hj, fun Y => sumMiddle_dvd hx⟩
  | conv2d cfg =>
    simp only
    split
    · exact ⟨mergeSpatial_chunk hx hj, fun Y => mergeSpatial_dvd hx⟩
    · exact ⟨sumSpatial_chunk hx hj, fun Y => sumSpatial_dvd hx⟩

section
variable [LinearOrder α] [IsStrictOrderedRing α] [LawfulSqrt α]

theorem secMom_divSqrtRows (Y : Mat α) (n : ℕ) : secMom (divSqrtRows Y) n = (1 / (Y.rows : α)) • secMom Y n := by
  have e : divSqrtRows Y = Y.smul (1 / HasSqrt.sqrt (Y.rows : α)) := by
    refine Mat.ext' rfl rfl fun i hi j hj => ?_
    simp only [divSqrtRows, Mat.rows_ofFn, Mat.cols_ofFn] at hi hj
    simp [divSqrtRows, Mat.get_smul, hi, hj, div_eq_mul_inv]
  rw [e, secMom_smul', div_mul_div_comm, LawfulSqrt.sqrt_mul_self _ (Nat.cast_nonneg _), one_mul]

/-- the square of the factor a gradient matrix is multiplied with: number of terms the loss is averaged over -/
def gradTerms (kind : LayerKind) (shape : List ℕ) (avg : Option String) : ℕ := match avg with
  | none => 1
  | some avg => match shape with
    | [] => 0
    | b :: rest => if avg = "batch+sequence" then b * (match kind with | .linear => rest.dropLast.prod | _ => (rest.drop 1).prod) else b

theorem gradMoment_raw {h : Hyper α} {m : Layer} {g : ND α} (hv : h.Valid) (hg : g.shape ≠ []) : gradMoment h m g =
    match rawGrad g m.kind h.kfacApprox with
    | .ok Y => (gradTerms m.kind g.shape h.lossAverage : α) • secMom Y m.nC
    | .error _ => 0 := by
  unfold gradMoment processGradOutput rawGrad
  rw [if_neg (not_not.2 hv.avg), if_neg (not_not.2 hv.approx)]
  cases m.kind with
  | other => rfl
  | linear =>
    simp only [linearProcessGrad]
    have sq : ∃ s : α, linearScaling g.shape h.lossAverage = .ok s ∧ s * s = gradTerms .linear g.shape h.lossAverage := by
      unfold linearScaling gradTerms
      rcases h.lossAverage with _ | avg
      · exact ⟨1, rfl, by simp⟩
      · rcases hs : g.shape with _ | ⟨b, rest⟩
        · exact absurd hs hg
        · refine ⟨_, rfl, ?_⟩
          rw [one_mul, LawfulSqrt.sqrt_mul_self _ (Nat.cast_nonneg _)]
    obtain ⟨s, hs, hss⟩ := sq
    rw [hs]
    simp only [Except.bind_ok']
    by_cases he : h.kfacApprox = "expand"
    · simp only [he, if_true]
      rcases mergeLeading g with _ | Y
      · rfl
      · simp only [Except.bind_ok', Except.pure_ok, secMom_smul', hss]
    · simp only [he, if_false]
      rcases sumMiddle g with _ | Y
      · rfl
      · simp only [Except.bind_ok', Except.pure_ok, secMom_smul', hss]
  | conv2d cfg =>
    simp only [convProcessGrad]
    have sq : ∃ s : α, convScaling g.shape h.lossAverage = .ok s ∧ s * s = gradTerms (.conv2d cfg) g.shape h.lossAverage := by
      unfold convScaling gradTerms
      rcases h.lossAverage with _ | avg
      · exact ⟨1, rfl, by simp⟩
      · rcases hs : g.shape with _ | ⟨b, rest⟩
        · exact absurd hs hg
        · refine ⟨_, rfl, ?_⟩
          rw [one_mul, LawfulSqrt.sqrt_mul_self _ (Nat.cast_nonneg _)]
    obtain ⟨s, hs, hss⟩ := sq
    rw [hs]
    simp only [Except.bind_ok']
    by_cases he : h.kfacApprox = "expand"
    · simp only [he, if_true]
      rcases mergeSpatial g with _ | Y
      · rfl
      · simp only [Except.bind_ok', Except.pure_ok, secMom_smul', hss]
    · simp only [he, if_false]
      rcases sumSpatial g with _ | Y
      · rfl
      · simp only [Except.bind_ok', Except.pure_ok, secMom_smul', hss]

theorem secMom_blocks' (Y : Mat α) (k n : ℕ) (hk : 0 < k) (hd : k ∣ Y.rows) : ∑ j ∈ range k, secMom (Y.rowBlock k j) n = secMom Y n := by
  obtain ⟨R, hR⟩ := hd
  have hdiv : Y.rows / k = R := by rw [hR]; exact Nat.mul_div_cancel_left R hk
  funext a b
  rw [Matrix.sum_apply]
  simp only [secMom, Mat.rowBlock, Mat.rows_ofFn, hdiv]
  rw [hR, ← sum_blocks (fun i => Y.get i a * Y.get i b) R k]
  refine sum_congr rfl fun j _ => sum_congr rfl fun r hr => ?_
  have hr' := mem_range.1 hr
  rw [Mat.get_ofFn, Mat.get_ofFn]
  by_cases ha : a.1 < Y.cols
  · by_cases hb : b.1 < Y.cols
    · simp [hr', ha, hb]
    · simp [hb, Y.supp _ b.1 (Or.inr (not_lt.1 hb))]
  · simp [ha, Y.supp _ a.1 (Or.inr (not_lt.1 ha))]

/-- the micro-batches' input moments add up to `k` times that of the batch -/
theorem inputMoment_chunks {h : Hyper α} {m : Layer} {x : ND α} {k : ℕ} (hv : h.Valid) (hk : 0 < k) (hx : x.Splits k) :
    ∑ j ∈ range k, inputMoment h m (x.chunk k j) = (k : α) • inputMoment h m x := by
  have e : ∀ j ∈ range k, inputMoment h m (x.chunk k j) = match rawInput x m.kind m.bias.isSome h.kfacApprox with
      | .ok Y => ((k : α) / Y.rows) • secMom (Y.rowBlock k j) m.nK
      | .error _ => 0 := by
    intro j hj
    unfold inputMoment
    obtain ⟨e1, e2⟩ := rawInput_chunk (kind := m.kind) (bias := m.bias.isSome) (approx := h.kfacApprox) hx (mem_range.1 hj)
    rw [processInput_raw hv.approx, e1]
    rcases hr : rawInput x m.kind m.bias.isSome h.kfacApprox with _ | Y
    · rfl
    · obtain ⟨R, hR⟩ := e2 Y hr
      simp only [Except.map, secMom_divSqrtRows]
      congr 1
      have : (k : α) ≠ 0 := by exact_mod_cast hk.ne'
      simp only [Mat.rowBlock, Mat.rows_ofFn, hR, Nat.mul_div_cancel_left R hk]
      push_cast
      rw [div_mul_eq_div_div, div_self this]
  rw [sum_congr rfl e]
  unfold inputMoment
  rw [processInput_raw hv.approx]
  rcases hr : rawInput x m.kind m.bias.isSome h.kfacApprox with _ | Y
  · simp [Except.map]
  · simp only [Except.map, secMom_divSqrtRows]
    rw [← smul_sum, secMom_blocks' Y k _ hk ((rawInput_chunk hx hk).2 Y hr), smul_smul]
    congr 1; ring

theorem gradTerms_chunk {kind : LayerKind} {g : ND α} {k j : ℕ} {avg : String} (hk : 0 < k) (hg : g.Splits k) :
    gradTerms kind g.shape (some avg) = k * gradTerms kind (g.chunk k j).shape (some avg) := by
  obtain ⟨b, rest, e⟩ := hg
  rw [chunk_eq hk e, e]
  simp only [gradTerms]
  split
  · rw [mul_assoc]
  · rfl

/-- the micro-batches' gradient moments add up to `1/k` of that of the batch if the loss is averaged -/
theorem gradMoment_chunks {h : Hyper α} {m : Layer} {g : ND α} {k : ℕ} (hv : h.Valid) (ha : h.lossAverage ≠ none) (hk : 0 < k)
    (hg : g.Splits k) : ∑ j ∈ range k, gradMoment h m (g.chunk k j) = (1 / (k : α)) • gradMoment h m g := by
  obtain ⟨avg, hav⟩ := Option.ne_none_iff_exists'.1 ha
  have k0 : (k : α) ≠ 0 := by exact_mod_cast hk.ne'
  have sh : g.shape ≠ [] := by obtain ⟨b, rest, e⟩ := hg; rw [e]; simp
  have sh' : ∀ j, (g.chunk k j).shape ≠ [] := by intro j; obtain ⟨b, rest, e⟩ := hg; rw [chunk_eq hk e]; simp
  have e : ∀ j ∈ range k, gradMoment h m (g.chunk k j) = match rawGrad g m.kind h.kfacApprox with
      | .ok Y => ((gradTerms m.kind g.shape h.lossAverage : α) / k) • secMom (Y.rowBlock k j) m.nC
      | .error _ => 0 := by
    intro j hj
    rw [gradMoment_raw hv (sh' j), (rawGrad_chunk hg (mem_range.1 hj)).1]
    rcases hr : rawGrad g m.kind h.kfacApprox with _ | Y
    · rfl
    · simp only [Except.map]
      congr 1
      rw [hav, gradTerms_chunk (j := j) hk hg]
      push_cast
      rw [mul_div_cancel_left₀ _ k0]
  rw [sum_congr rfl e, gradMoment_raw hv sh]
  rcases hr : rawGrad g m.kind h.kfacApprox with _ | Y
  · simp
  · simp only
    rw [← smul_sum, secMom_blocks' Y k _ hk ((rawGrad_chunk hg hk).2 Y hr), smul_smul]
    congr 1; ring

/-- the micro-batches' gradient moments add up to that of the batch if the loss is a sum -/
theorem gradMoment_chunks_sum {h : Hyper α} {m : Layer} {g : ND α} {k : ℕ} (hv : h.Valid) (ha : h.lossAverage = none) (hk : 0 < k)
    (hg : g.Splits k) : ∑ j ∈ range k, gradMoment h m (g.chunk k j) = gradMoment h m g := by
  have sh : g.shape ≠ [] := by obtain ⟨b, rest, e⟩ := hg; rw [e]; simp
  have sh' : ∀ j, (g.chunk k j).shape ≠ [] := by intro j; obtain ⟨b, rest, e⟩ := hg; rw [chunk_eq hk e]; simp
  have e : ∀ j ∈ range k, gradMoment h m (g.chunk k j) = match rawGrad g m.kind h.kfacApprox with
      | .ok Y => secMom (Y.rowBlock k j) m.nC
      | .error _ => 0 := by
    intro j hj
    rw [gradMoment_raw hv (sh' j), (rawGrad_chunk hg (mem_range.1 hj)).1, ha]
    rcases hr : rawGrad g m.kind h.kfacApprox with _ | Y
    · rfl
    · simp [Except.map, gradTerms]
  rw [sum_congr rfl e, gradMoment_raw hv sh, ha]
  rcases hr : rawGrad g m.kind h.kfacApprox with _ | Y
  · simp
  · simp only [gradTerms, Nat.cast_one, one_smul]
    rw [secMom_blocks' Y k _ hk ((rawGrad_chunk hg hk).2 Y hr)]
end
