/-
  C50 (single band, file level; equivalence test; one-particle data) and C60 (vertex files).
-/
import Verif.Symm.Props2
import Mathlib.Data.List.Perm.Subperm
import Mathlib.Tactic.IntervalCases

namespace DGA.Sym

variable {K : Type} [Field K]

/-! ### non-vacuity of the hypotheses of `symmetrize_average` -/

/-- three bands, the first two equivalent -/
example : Valid [[2, 1], [1, 2], [3]] 3 := by
  have h : ∀ (P : Int → Prop), P 0 → P 1 → P 2 → ∀ i : Int, 0 ≤ i → i < (3 : Nat) → P i := by
    intro P h0 h1 h2 i hi hi'
    have : i = 0 ∨ i = 1 ∨ i = 2 := by omega
    rcases this with rfl | rfl | rfl <;> assumption
  refine ⟨rfl, h _ (by decide) (by decide) (by decide), h _ (by decide) (by decide) (by decide),
    h _ (by decide) (by decide) (by decide), h _ ?_ ?_ ?_⟩ <;>
  · intro x hx y
    simp [cls, Py.get?] at hx ⊢
    try rcases hx with rfl | rfl
    all_goals simp [or_comm]

/-- the table of the command line default: one band -/
theorem valid_one : Valid [[1]] 1 := by
  have h : ∀ (P : Int → Prop), P 0 → ∀ i : Int, 0 ≤ i → i < (1 : Nat) → P i := by
    intro P h0 i hi hi'
    have : i = 0 := by omega
    subst this; exact h0
  refine ⟨rfl, h _ (by decide), h _ (by decide), h _ (by decide), h _ ?_⟩
  intro x hx y
  simp [cls, Py.get?] at hx ⊢
  subst hx; simp

/-- the components of a single-band run meet the hypotheses of `symmetrize_average` -/
theorem one_band_components (sb : Q4 × Q4) :
    sb ∈ (sixSpins.toList.map fun s => (s, ((0, 0, 0, 0) : Q4))) ↔ sb.1 ∈ sixSpins ∧ InRange 1 sb.2 ∧ Kan sb.2 := by
  obtain ⟨s, b1, b2, b3, b4⟩ := sb
  simp only [List.mem_map, Finset.mem_toList, Prod.mk.injEq, InRange, Kan]
  constructor
  · rintro ⟨a, ha, rfl, rfl, rfl, rfl, rfl⟩
    refine ⟨ha, ?_, ?_⟩ <;> simp
  · rintro ⟨h, ⟨_, _, _, _⟩, _⟩
    exact ⟨s, h, rfl, by omega, by omega, by omega, by omega⟩

/-- C50, single band: the six groups of a one-band run are 1, 4, 7, 10, 13, 16; from their values the density channel is
    `(G_uuuu + G_uudd + G_dduu + G_dddd)/2` and the magnetic channel
    `(G_uuuu + G_dddd - G_uudd - G_dduu + G_uddu + G_duud)/4`. -/
theorem symmetrize_one_band (x1 x4 x7 x10 x13 x16 : K) (h2 : (2 : K) ≠ 0) :
    (∃ o, symmetrizeFile "dens" [[1]] 1 [(1, x1), (4, x4), (7, x7), (10, x10), (13, x13), (16, x16)] = some o ∧
      o 1 = some ((x1 + x4 + x13 + x16) / 2)) ∧
    (∃ o, symmetrizeFile "magn" [[1]] 1 [(1, x1), (4, x4), (7, x7), (10, x10), (13, x13), (16, x16)] = some o ∧
      o 1 = some ((x1 + x16 + x7 + x10 - x4 - x13) / 4)) := by
  have h4 : (4 : K) ≠ 0 := by
    have : (4 : K) = 2 * 2 := by norm_num
    rw [this]; exact mul_ne_zero h2 h2
  have d1 : decode 1 1 = some ((0, 0, 0, 0), (0, 0, 0, 0)) := by decide
  have d4 : decode 1 4 = some ((0, 0, 1, 1), (0, 0, 0, 0)) := by decide
  have d7 : decode 1 7 = some ((0, 1, 1, 0), (0, 0, 0, 0)) := by decide
  have d10 : decode 1 10 = some ((1, 0, 0, 1), (0, 0, 0, 0)) := by decide
  have d13 : decode 1 13 = some ((1, 1, 0, 0), (0, 0, 0, 0)) := by decide
  have d16 : decode 1 16 = some ((1, 1, 1, 1), (0, 0, 0, 0)) := by decide
  have c1 : component2indexBand 1 4 (Q4.toList (0, 0, 0, 0)) = some 1 := by decide
  have s1 : symBands [[1]] (0, 0, 0, 0) = some [(0, 0, 0, 0)] := by decide
  constructor
  · unfold symmetrizeFile
    simp only [List.mapM_cons, List.mapM_nil, d1, d4, d7, d10, d13, d16, Option.map_some, Option.bind_eq_bind,
      Option.bind_some, Option.pure_def]
    simp only [symmetrizeChannel, List.foldlM_cons, List.foldlM_nil, getSymgroups, actionOf, s1, readAndAdd, prefactor, c1,
      List.mapM_cons, List.mapM_nil, Option.map_some, Option.bind_eq_bind, Option.bind_some, Option.pure_def]
    simp [applyAct, addAt, initOut, c1]
    field_simp
  · unfold symmetrizeFile
    simp only [List.mapM_cons, List.mapM_nil, d1, d4, d7, d10, d13, d16, Option.map_some, Option.bind_eq_bind,
      Option.bind_some, Option.pure_def]
    simp only [symmetrizeChannel, List.foldlM_cons, List.foldlM_nil, getSymgroups, actionOf, s1, readAndAdd, prefactor, c1,
      List.mapM_cons, List.mapM_nil, Option.map_some, Option.bind_eq_bind, Option.bind_some, Option.pure_def]
    simp [applyAct, addAt, initOut, c1]
    field_simp
    ring

/-- with SU(2) symmetric data (`uuuu = dddd = a`, `uudd = dduu = b`, spin flips `a - b`): density `a + b`, magnetic `a - b` -/
theorem symmetrize_one_band_su2 (a b : K) (h2 : (2 : K) ≠ 0) :
    (∃ o, symmetrizeFile "dens" [[1]] 1 [(1, a), (4, b), (7, a - b), (10, a - b), (13, b), (16, a)] = some o ∧
      o 1 = some (a + b)) ∧
    (∃ o, symmetrizeFile "magn" [[1]] 1 [(1, a), (4, b), (7, a - b), (10, a - b), (13, b), (16, a)] = some o ∧
      o 1 = some (a - b)) := by
  have h4 : (4 : K) ≠ 0 := by
    have : (4 : K) = 2 * 2 := by norm_num
    rw [this]; exact mul_ne_zero h2 h2
  obtain ⟨⟨o, h, e⟩, ⟨o', h', e'⟩⟩ := symmetrize_one_band a b (a - b) (a - b) b a h2
  refine ⟨⟨o, h, ?_⟩, ⟨o', h', ?_⟩⟩
  · rw [e]; congr 1; field_simp; ring
  · rw [e']; congr 1; field_simp; ring

/-! ### check_sym -/

theorem checkSym_inner (sy : List (List Int)) (yi : List Int) (l : List Int) (ok : Bool) :
    l.foldlM (fun ok j => (Py.get? sy (j - 1)).map fun yj =>
      ok && decide ((∀ x ∈ yi, x ∈ yj) ∧ ∀ x ∈ yj, x ∈ yi)) ok = some true →
    ok = true ∧ ∀ j ∈ l, ∀ y, y ∈ cls sy (j - 1) ↔ y ∈ yi := by
  induction l generalizing ok with
  | nil => intro h; simp only [List.foldlM_nil, Option.pure_def, Option.some.injEq] at h; simp [h]
  | cons j l ih =>
    intro h
    rw [List.foldlM_cons] at h
    cases hg : Py.get? sy (j - 1) with
    | none => simp [hg] at h
    | some yj =>
      simp only [hg, Option.map_some, Option.bind_eq_bind, Option.bind_some] at h
      obtain ⟨h1, h2⟩ := ih _ h
      simp only [Bool.and_eq_true, decide_eq_true_eq] at h1
      refine ⟨h1.1, ?_⟩
      intro j' hj' y
      rcases List.mem_cons.mp hj' with rfl | hj'
      · unfold cls; rw [hg]
        exact ⟨h1.2.2 y, h1.2.1 y⟩
      · exact h2 j' hj' y

/-- What `check_sym` guarantees: if it accepts, then bands listed as equivalent have the same list; together with lists that
    are repetition-free, inside the atom and contain the band itself (which it does not test), the table is valid. -/
theorem checkSym_valid (sy : List (List Int)) (nd : Nat) (hc : checkSym sy nd = some true) (hlen : sy.length = nd)
    (hn : ∀ i : Int, 0 ≤ i → i < nd → (cls sy i).Nodup) (hr : ∀ i : Int, 0 ≤ i → i < nd → ∀ x ∈ cls sy i, 1 ≤ x ∧ x ≤ nd)
    (hs : ∀ i : Int, 0 ≤ i → i < nd → i + 1 ∈ cls sy i) : Valid sy nd := by
  refine ⟨hlen, hn, hr, hs, ?_⟩
  have key : ∀ (l : List Nat) (ok : Bool), (∀ i ∈ l, i < nd) →
      l.foldlM (fun ok i => (sy[i]?).bind fun yi =>
        yi.foldlM (fun ok j => (Py.get? sy (j - 1)).map fun yj =>
          ok && decide ((∀ x ∈ yi, x ∈ yj) ∧ ∀ x ∈ yj, x ∈ yi)) ok) ok = some true →
      ok = true ∧ ∀ i ∈ l, ∀ x ∈ cls sy (i : Int), ∀ y, y ∈ cls sy (x - 1) ↔ y ∈ cls sy (i : Int) := by
    intro l
    induction l with
    | nil => intro ok _ h; simp only [List.foldlM_nil, Option.pure_def, Option.some.injEq] at h; simp [h]
    | cons i l ih =>
      intro ok hl h
      have hi := hl i (by simp)
      have e : sy[i]? = some (cls sy (i : Int)) := by
        have := get?_cls sy nd hlen i (by omega) (by omega)
        unfold Py.get? at this
        rw [if_neg (by omega)] at this
        simpa using this
      rw [List.foldlM_cons, e, Option.bind_some, Option.bind_eq_bind] at h
      cases hf : (cls sy (i : Int)).foldlM (fun ok j => (Py.get? sy (j - 1)).map fun yj =>
          ok && decide ((∀ x ∈ cls sy (i : Int), x ∈ yj) ∧ ∀ x ∈ yj, x ∈ cls sy (i : Int))) ok with
      | none => rw [hf] at h; simp at h
      | some ok' =>
        rw [hf, Option.bind_some] at h
        obtain ⟨h1, h2⟩ := ih ok' (fun i' hi' => hl i' (by simp [hi'])) h
        subst h1
        obtain ⟨h3, h4⟩ := checkSym_inner sy _ _ _ hf
        refine ⟨h3, ?_⟩
        intro i' hi'
        rcases List.mem_cons.mp hi' with rfl | hi'
        · exact h4
        · exact h2 i' hi'
  intro i h0 h1
  have := (key (List.range nd) true (by simp) hc).2 i.toNat (by simp; omega)
  rwa [Int.toNat_of_nonneg h0] at this

example : checkSym [[2, 1], [1, 2], [3]] 3 = some true ∧ checkSym [[2, 1], [2], [3]] 3 = some false := by decide

/-- `check_sym` accepts tables in which a band does not list itself: here band 1 is sent to bands 2 and 3 only, and its own
    dataset stays zero whatever the data. -/
theorem checkSym_accepts_nonreflexive : checkSym [[2, 3], [2, 3], [2, 3]] 3 = some true ∧
    ¬ Valid [[2, 3], [2, 3], [2, 3]] 3 ∧ symBands [[2, 3], [2, 3], [2, 3]] (0, 0, 0, 0) = some [(1, 1, 1, 1), (2, 2, 2, 2)] := by
  refine ⟨by decide, ?_, by decide⟩
  intro h
  have := h.refl 0 (by decide) (by decide)
  revert this
  decide

/-! ### one-particle data -/

/-- C50, one frequency: if every band lists `m > 0` existing bands, the entry of every spin of the band is the average over the listed
    bands of their spin average. -/
theorem sym1freqBand_value (x : List (List K)) (ys : List Int) (row : List K)
    (hx : ∀ j ∈ ys, ∃ xs, Py.get? x (j - 1) = some xs) :
    sym1freqBand x ys row = some (row.map fun r => r +
      (ys.map fun j => (((Py.get? x (j - 1)).getD []).sum / (((Py.get? x (j - 1)).getD []).length : K))).sum / (ys.length : K)) := by
  unfold sym1freqBand
  generalize (ys.length : K) = m
  induction ys generalizing row with
  | nil => simp
  | cons j ys ih =>
    obtain ⟨xs, hxs⟩ := hx j (by simp)
    rw [List.foldlM_cons, hxs, Option.map_some, Option.bind_eq_bind, Option.bind_some, ih _ fun j' h' => hx j' (by simp [h'])]
    congr 1
    rw [List.map_map]
    apply List.map_congr_left
    intro r _
    simp only [Function.comp_apply, List.map_cons, List.sum_cons, hxs, Option.getD_some]
    have : (xs.map fun v => v / m).sum = xs.sum / m := by
      simp only [div_eq_mul_inv]
      rw [List.sum_map_mul_right, List.map_id']
    rw [this, add_assoc, add_div, div_div, div_div, mul_comm m]

/-- The symmetrised one-particle function does not depend on the spin, is the same for bands with the same list, and a function
    that already is the same for all listed bands and spins is reproduced. -/
theorem sym1freqBand_const [CharZero K] (x : List (List K)) (ys : List Int) (c : K) (n : Nat) (hn : 0 < n) (hy : ys ≠ [])
    (hx : ∀ j ∈ ys, Py.get? x (j - 1) = some (List.replicate n c)) :
    sym1freqBand x ys (List.replicate n 0) = some (List.replicate n c) := by
  rw [sym1freqBand_value x ys _ fun j hj => ⟨_, hx j hj⟩]
  congr 1
  have hn0 : (n : K) ≠ 0 := by exact_mod_cast hn.ne'
  have hm : (ys.length : K) ≠ 0 := by
    have := List.length_pos_iff.mpr hy
    exact_mod_cast this.ne'
  have : (ys.map fun j => (((Py.get? x (j - 1)).getD []).sum / (((Py.get? x (j - 1)).getD []).length : K))) =
      List.replicate ys.length c := by
    rw [List.eq_replicate_iff]
    refine ⟨by simp, ?_⟩
    intro b hb
    rw [List.mem_map] at hb
    obtain ⟨j, hj, rfl⟩ := hb
    rw [hx j hj]
    simp [List.sum_replicate]
    field_simp
  rw [this, List.map_replicate, List.sum_replicate, nsmul_eq_mul, zero_add, mul_div_cancel_left₀ _ hm]

example : sym1freq ([[1, 3], [5, 7], [2, 2]] : List (List Rat)) [[1, 2], [2, 1], [3]] 3 = some [[4, 4], [4, 4], [2, 2]] := by
  decide +kernel


/-! ### C60: vertex files -/

omit [Field K] in
theorem tr_ofFn (n m : Nat) (S : Nat → Nat → K) :
    tr m ((List.range n).map fun i => (List.range m).map fun j => S i j) =
      some ((List.range m).map fun j => (List.range n).map fun i => S i j) := by
  unfold tr
  have : ∀ l : List Nat, (∀ j ∈ l, j < m) → (l.mapM fun j =>
      ((List.range n).map fun i => (List.range m).map fun j => S i j).mapM fun r => r[j]?) =
      some (l.map fun j => (List.range n).map fun i => S i j) := by
    intro l
    induction l with
    | nil => intro _; rfl
    | cons j l ih =>
      intro h
      have hj := h j (by simp)
      rw [List.mapM_cons, ih fun j' h' => h j' (by simp [h'])]
      have : ((List.range n).map fun i => (List.range m).map fun j => S i j).mapM (fun r => r[j]?) =
          some ((List.range n).map fun i => S i j) := by
        generalize List.range n = l'
        induction l' with
        | nil => rfl
        | cons i l' ih' =>
          rw [List.map_cons, List.mapM_cons, ih', List.getElem?_map, List.getElem?_range hj]
          rfl
      rw [this]; rfl
  exact this _ (by simp)

omit [Field K] in
/-- what is stored under bosonic index `w`, and that nothing else is stored -/
theorem writeG2_get (n4iwf n4iwb : Nat) (S : Nat → Nat → Nat → K) (w : Int) :
    (writeG2 n4iwf n4iwb S).get w = if 0 ≤ w ∧ w ≤ 2 * n4iwb then
      some ((List.range (2 * n4iwf)).map fun i => (List.range (2 * n4iwf)).map fun j => S j i w.toNat) else none := by
  unfold writeG2 G2File.get
  split
  · next h =>
    obtain ⟨k, rfl⟩ := Int.eq_ofNat_of_zero_le h.1
    have hk : k < 2 * n4iwb + 1 := by omega
    rw [List.find?_map]
    have : (List.range (2 * n4iwb + 1)).find? ((fun e : Int × List (List K) => e.1 == (k : Int)) ∘ fun w : Nat =>
      ((w : Int), (List.range (2 * n4iwf)).map fun i => (List.range (2 * n4iwf)).map fun j => S j i w)) = some k := by
      rw [List.find?_range_eq_some]
      refine ⟨by simp, by simpa using hk, ?_⟩
      intro j hj
      simp; omega
    rw [this]; simp
  · next h =>
    rw [Option.map_eq_none_iff, List.find?_eq_none]
    intro e he
    rw [List.mem_map] at he
    obtain ⟨k, hk, rfl⟩ := he
    rw [List.mem_range] at hk
    simp only [beq_iff_eq]
    omega

omit [Field K] in
theorem writeG2_getT (n4iwf n4iwb : Nat) (S : Nat → Nat → Nat → K) (w : Int) :
    (writeG2 n4iwf n4iwb S).getT w = if 0 ≤ w ∧ w ≤ 2 * n4iwb then
      some ((List.range (2 * n4iwf)).map fun i => (List.range (2 * n4iwf)).map fun j => S i j w.toNat) else none := by
  unfold G2File.getT
  rw [writeG2_get]
  split
  · rw [Option.bind_some]
    have hc : cols ((List.range (2 * n4iwf)).map fun i => (List.range (2 * n4iwf)).map fun j => S j i w.toNat) = 2 * n4iwf := by
      unfold cols
      cases h : 2 * n4iwf with
      | zero => simp
      | succ m => simp [List.range_succ_eq_map]
    rw [hc]
    exact tr_ofFn (2 * n4iwf) (2 * n4iwf) (fun i j => S j i w.toNat)
  · rfl

omit [Field K] in
/-- number of datasets counted by `get_niw` -/
theorem countLoop_eq (f : G2File K) (n : Nat) (h : ∀ w : Int, (f.get w).isSome ↔ 0 ≤ w ∧ w < n) (fuel k : Nat)
    (hk : k ≤ n) (hf : n < k + fuel) : countLoop f fuel (k : Int) = n := by
  induction fuel generalizing k with
  | zero => omega
  | succ fuel ih =>
    unfold countLoop
    by_cases hkn : k < n
    · rw [if_pos ((h k).mpr ⟨by omega, by omega⟩)]
      have := ih (k + 1) (by omega) (by omega)
      push_cast at this
      exact this
    · rw [if_neg]
      · omega
      · rw [h]; omega

omit [Field K] in
theorem readFullLoop_eq (f : G2File K) (n : Nat) (A : Nat → List (List K))
    (h : ∀ w : Nat, f.getT w = if w < n then some (A w) else none) (fuel k : Nat)
    (hk : k ≤ n) (hf : n < k + fuel) : readFullLoop f fuel (k : Int) = (List.range' k (n - k)).map A := by
  induction fuel generalizing k with
  | zero => omega
  | succ fuel ih =>
    unfold readFullLoop
    rw [h k]
    by_cases hkn : k < n
    · rw [if_pos hkn]
      have := ih (k + 1) (by omega) (by omega)
      push_cast at this
      simp only [this]
      have e : n - k = (n - (k + 1)) + 1 := by omega
      rw [e, List.range'_succ, List.map_cons]
    · rw [if_neg hkn]
      have : n - k = 0 := by omega
      rw [this]; rfl

omit [Field K] in
/-- For every file written by the symmetrisation, `get_niw` is the half range of the bosonic axis. -/
theorem getNiw_writeG2 (n4iwf n4iwb : Nat) (S : Nat → Nat → Nat → K) : getNiw (writeG2 n4iwf n4iwb S) = n4iwb := by
  unfold getNiw
  have := countLoop_eq (writeG2 n4iwf n4iwb S) (2 * n4iwb + 1) (by
    intro w
    rw [writeG2_get]
    split
    · next h => simp; omega
    · next h => simp; omega) ((writeG2 n4iwf n4iwb S).length + 1) 0 (by omega) (by simp [writeG2])
  rw [Nat.cast_zero] at this
  rw [this]
  omega

omit [Field K] in
/-- C60. Reading a symmetrised file returns the symmetrised data: entry `(w, v, v')` of `read_g2_full` is `S v v' w` (the
    transposition on writing is undone on reading), for all box sizes; -/
theorem readG2Full_writeG2 (n4iwf n4iwb : Nat) (S : Nat → Nat → Nat → K) :
    readG2Full (writeG2 n4iwf n4iwb S) = (List.range (2 * n4iwb + 1)).map fun w =>
      (List.range (2 * n4iwf)).map fun v => (List.range (2 * n4iwf)).map fun v' => S v v' w := by
  unfold readG2Full
  have := readFullLoop_eq (writeG2 n4iwf n4iwb S) (2 * n4iwb + 1)
    (fun w => (List.range (2 * n4iwf)).map fun v => (List.range (2 * n4iwf)).map fun v' => S v v' w) (by
      intro w
      rw [writeG2_getT]
      by_cases h : w < 2 * n4iwb + 1
      · rw [if_pos h, if_pos (by omega), Int.toNat_natCast]
      · rw [if_neg h, if_neg (by omega)]) ((writeG2 n4iwf n4iwb S).length + 1) 0 (by omega) (by simp [writeG2])
  rw [Nat.cast_zero] at this
  rw [this, Nat.sub_zero]
  simp only [List.range_eq_range']

omit [Field K] in
/-- `read_g2` with the matching sizes returns the same array, -/
theorem readG2_writeG2 (n4iwf n4iwb : Nat) (S : Nat → Nat → Nat → K) :
    readG2 (writeG2 n4iwf n4iwb S) n4iwb n4iwf = some (readG2Full (writeG2 n4iwf n4iwb S)) := by
  rw [readG2Full_writeG2]
  unfold readG2
  have : ∀ l : List Nat, (∀ w ∈ l, w ≤ 2 * n4iwb) → (l.mapM fun wn : Nat => ((writeG2 n4iwf n4iwb S).getT (wn : Int)).bind fun A =>
      if A.length = 2 * n4iwf ∧ ∀ r ∈ A, r.length = 2 * n4iwf then some A else none) =
      some (l.map fun w => (List.range (2 * n4iwf)).map fun v => (List.range (2 * n4iwf)).map fun v' => S v v' w) := by
    intro l
    induction l with
    | nil => intro _; rfl
    | cons w l ih =>
      intro h
      have hw := h w (by simp)
      rw [List.mapM_cons, ih fun w' h' => h w' (by simp [h']), writeG2_getT, if_pos (by omega), Option.bind_some, if_pos]
      · rfl
      · refine ⟨by simp, ?_⟩
        intro r hr
        rw [List.mem_map] at hr
        obtain ⟨v, _, rfl⟩ := hr
        simp
  exact this _ (by intro w hw; rw [List.mem_range] at hw; omega)

omit [Field K] in
/-- and reading the bosonic frequencies `iw` (centred) returns for each of them exactly its entry; a frequency outside
    `-niw..niw` raises KeyError (there is no wrap-around). -/
theorem readG2Iw_writeG2 (n4iwf n4iwb : Nat) (S : Nat → Nat → Nat → K) (iw : List Int) :
    ((∀ w ∈ iw, -(n4iwb : Int) ≤ w ∧ w ≤ n4iwb) → readG2Iw (writeG2 n4iwf n4iwb S) iw = some (iw.map fun w : Int =>
      (List.range (2 * n4iwf)).map fun v => (List.range (2 * n4iwf)).map fun v' => S v v' (w + n4iwb).toNat)) ∧
    ((∃ w ∈ iw, w < -(n4iwb : Int) ∨ (n4iwb : Int) < w) → readG2Iw (writeG2 n4iwf n4iwb S) iw = none) := by
  unfold readG2Iw
  rw [getNiw_writeG2]
  induction iw with
  | nil => exact ⟨fun _ => rfl, by simp⟩
  | cons w iw ih =>
    rw [List.mapM_cons, writeG2_getT]
    constructor
    · intro h
      have hw := h w (by simp)
      rw [ih.1 fun w' h' => h w' (by simp [h']), if_pos (by omega)]
      rfl
    · rintro ⟨w', hw', ho⟩
      rcases List.mem_cons.mp hw' with rfl | hw'
      · rw [if_neg (by omega)]; rfl
      · rw [ih.2 ⟨w', hw', ho⟩]
        split <;> rfl

example : readG2Full (writeG2 1 1 fun v v' w => ((100 * w + 10 * v + v' : Nat) : Rat)) =
    [[[0, 1], [10, 11]], [[100, 101], [110, 111]], [[200, 201], [210, 211]]] ∧
    readG2Iw (writeG2 1 1 fun v v' w => ((100 * w + 10 * v + v' : Nat) : Rat)) [-1, 0] =
    some [[[0, 1], [10, 11]], [[100, 101], [110, 111]]] := by decide +kernel

omit [Field K] in
/-- For an arbitrary file: `read_g2_full` returns the datasets 0, 1, … up to the first missing one. -/
theorem readG2Full_prefix (f : G2File K) (n : Nat) (A : Nat → List (List K)) (h : ∀ w < n, f.getT (w : Nat) = some (A w))
    (hn : f.getT (n : Nat) = none) : readG2Full f = (List.range n).map A := by
  have hlen : n ≤ f.length := by
    have hsub : (List.range n).map (fun w : Nat => (w : Int)) ⊆ f.map Prod.fst := by
      intro x hx
      rw [List.mem_map] at hx
      obtain ⟨w, hw, rfl⟩ := hx
      rw [List.mem_range] at hw
      have := h w hw
      unfold G2File.getT G2File.get at this
      cases hf : f.find? (fun e => e.1 == (w : Int)) with
      | none => rw [hf] at this; simp at this
      | some e =>
        have h1 := List.mem_of_find?_eq_some hf
        have h2 := List.find?_some hf
        rw [beq_iff_eq] at h2
        rw [List.mem_map]
        exact ⟨e, h1, h2⟩
    have hnd : ((List.range n).map (fun w : Nat => (w : Int))).Nodup :=
      List.Nodup.map (fun a b h => by exact_mod_cast h) List.nodup_range
    have := (hnd.subperm hsub).length_le
    simpa using this
  unfold readG2Full
  have key : ∀ fuel k : Nat, k ≤ n → n < k + fuel → readFullLoop f fuel (k : Int) = (List.range' k (n - k)).map A := by
    intro fuel
    induction fuel with
    | zero => intro k _ _; omega
    | succ fuel ih =>
      intro k hk hf
      unfold readFullLoop
      by_cases hkn : k < n
      · rw [h k hkn]
        have := ih (k + 1) (by omega) (by omega)
        push_cast at this
        simp only [this]
        have e : n - k = (n - (k + 1)) + 1 := by omega
        rw [e, List.range'_succ, List.map_cons]
      · have : k = n := by omega
        subst this
        rw [hn]
        simp
  have := key (f.length + 1) 0 (by omega) (by omega)
  rw [Nat.cast_zero] at this
  rw [this, Nat.sub_zero, List.range_eq_range']

end DGA.Sym
