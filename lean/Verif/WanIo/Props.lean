/-
  Properties of the real-space Hamiltonian files (C80).
-/
import Verif.WanIo.Lemmas
import Mathlib.Algebra.Order.Round

namespace DGA.WanIo

open DGA.RankFiles

/-! ### specification -/

/-- the value the text file keeps: the nearest multiple of `10^-6` (ties to even) with the sign of the number -/
def rounded (q : ℚ) : ℚ := if q < 0 then -(roundEven (|q| * 10 ^ 6) / 10 ^ 6) else roundEven (|q| * 10 ^ 6) / 10 ^ 6

/-- the fields of a line stay apart: integer fields other than the first are above -1000, and a negative matrix element is, after rounding to
    six decimals, above -1000 -/
def Fits (x : Row) : Prop :=
  -1000 < x.r.2.1 ∧ -1000 < x.r.2.2 ∧ -1000 < x.o.1 ∧ -1000 < x.o.2 ∧ -1000 < rounded x.re ∧ -1000 < rounded x.im

instance (x : Row) : Decidable (Fits x) := by unfold Fits; infer_instance

/-- what the reader returns for the data written -/
def expected (nr nb : Nat) (w : List Nat) (rows : List Row) : Read :=
  { nr := nr
    nb := nb
    w := w.map fun (k : Nat) => (k : Int)
    r := rows.map fun (x : Row) => ((x.r.1 : ℚ), (x.r.2.1 : ℚ), (x.r.2.2 : ℚ))
    o := rows.map fun (x : Row) => ((x.o.1 : ℚ), (x.o.2 : ℚ))
    h := rows.map fun (x : Row) => (rounded x.re, rounded x.im) }

/-! ### rounding -/

theorem roundEven_bounds (x : ℚ) : |x - roundEven x| ≤ 1 / 2 := by
  have h1 := Int.floor_le x
  have h2 := Int.lt_floor_add_one x
  unfold roundEven
  simp only
  rw [abs_le]
  split_ifs <;> push_cast <;> constructor <;> linarith

theorem roundEven_nonneg (x : ℚ) (h : 0 ≤ x) : 0 ≤ roundEven x := by
  have := Int.floor_nonneg.mpr h
  unfold roundEven
  simp only
  split_ifs <;> omega

theorem micro_eq (q : ℚ) : (micro q : ℚ) = roundEven (|q| * 10 ^ 6) := by
  have := roundEven_nonneg (|q| * 10 ^ 6) (by positivity)
  rw [micro, ← Int.cast_natCast, Int.toNat_of_nonneg this]

/-- the stored value is within half a unit of the sixth decimal -/
theorem rounded_close (q : ℚ) : |q - rounded q| ≤ 1 / 2 / 10 ^ 6 := by
  have h := roundEven_bounds (|q| * 10 ^ 6)
  have key : |q - rounded q| = abs (|q| * 10 ^ 6 - roundEven (|q| * 10 ^ 6)) / 10 ^ 6 := by
    rw [rounded, ← abs_of_pos (show (0 : ℚ) < 10 ^ 6 by norm_num), ← abs_div, abs_of_pos (show (0 : ℚ) < 10 ^ 6 by norm_num)]
    split
    · rename_i hq
      rw [abs_of_neg hq, ← abs_neg]
      congr 1
      field_simp
      ring
    · rename_i hq
      rw [abs_of_nonneg (not_lt.mp hq)]
      congr 1
      field_simp
  rw [key]
  gcongr

/-- numbers that are multiples of `10^-6` are kept exactly -/
theorem rounded_exact (n : Int) : rounded ((n : ℚ) / 10 ^ 6) = (n : ℚ) / 10 ^ 6 := by
  have hr : ∀ m : Int, roundEven (m : ℚ) = m := by
    intro m
    simp [roundEven]
  have ha : |(n : ℚ) / 10 ^ 6| * 10 ^ 6 = ((|n| : Int) : ℚ) := by
    rw [abs_div, abs_of_pos (show (0 : ℚ) < 10 ^ 6 by norm_num), div_mul_cancel₀ _ (by norm_num)]; push_cast; rfl
  rw [rounded, ha, hr]
  have hs : (n : ℚ) / 10 ^ 6 < 0 ↔ n < 0 := by
    rw [div_lt_iff₀ (by norm_num), zero_mul]; exact_mod_cast Iff.rfl
  by_cases h : n < 0
  · rw [if_pos (hs.mpr h), abs_of_neg h]; push_cast; ring
  · rw [if_neg (fun hc => h (hs.mp hc)), abs_of_nonneg (not_lt.mp h)]

theorem fits_float (q : ℚ) : (q < 0 → micro q < 10 ^ 9) ↔ -1000 < rounded q := by
  rw [rounded, ← micro_eq]
  by_cases h : q < 0
  · rw [if_pos h]
    simp only [h, true_implies]
    rw [neg_lt_neg_iff, div_lt_iff₀ (by norm_num), show (1000 * 10 ^ 6 : ℚ) = ((10 ^ 9 : ℕ) : ℚ) by norm_num]
    exact Nat.cast_lt.symm
  · rw [if_neg h]
    have : (0 : ℚ) ≤ (micro q : ℚ) / 10 ^ 6 := by positivity
    simp only [h, false_implies, true_iff]
    linarith

/-! ### lines -/

theorem words_rowLine (x : Row) (h : Fits x) : words (rowLine x) = tokInt x.r.1 :: (rowFields x).map Prod.snd := by
  obtain ⟨h1, h2, h3, h4, h5, h6⟩ := h
  obtain ⟨k, hk, -⟩ := fmtInt_fld x.r.1
  rw [rowLine_eq, words_fields _ _ k hk]
  have hi : ∀ i : Int, -1000 < i → ∃ k, 0 < k ∧ Fld (fmtInt i) (tokInt i) k := fun i hi => by
    obtain ⟨k, hk, hk'⟩ := fmtInt_fld i
    exact ⟨k, hk'.mpr hi, hk⟩
  have hq : ∀ q : ℚ, -1000 < rounded q → ∃ k, 0 < k ∧ Fld (fmtFloat q) (tokFloat q) k := fun q hq => by
    obtain ⟨k, hk, hk'⟩ := fmtFloat_fld q
    exact ⟨k, hk'.mpr ((fits_float q).mpr hq), hk⟩
  intro y hy
  simp only [rowFields, List.mem_cons, List.not_mem_nil, or_false] at hy
  rcases hy with rfl | rfl | rfl | rfl | rfl | rfl
  · exact hi _ h1
  · exact hi _ h2
  · exact hi _ h3
  · exact hi _ h4
  · exact hq _ h5
  · exact hq _ h6

theorem words_rowLine_fused (x : Row) (h : ¬ Fits x) : ∃ w ∈ words (rowLine x), Fused w := by
  obtain ⟨k, hk, -⟩ := fmtInt_fld x.r.1
  rw [rowLine_eq]
  refine words_fused _ _ k hk _ ?_ ?_
  · intro y hy
    simp only [rowFields, List.mem_cons, List.not_mem_nil, or_false] at hy
    rcases hy with rfl | rfl | rfl | rfl | rfl | rfl
    · obtain ⟨k, hk, -⟩ := fmtInt_fld x.r.2.1; exact ⟨k, hk⟩
    · obtain ⟨k, hk, -⟩ := fmtInt_fld x.r.2.2; exact ⟨k, hk⟩
    · obtain ⟨k, hk, -⟩ := fmtInt_fld x.o.1; exact ⟨k, hk⟩
    · obtain ⟨k, hk, -⟩ := fmtInt_fld x.o.2; exact ⟨k, hk⟩
    · obtain ⟨k, hk, -⟩ := fmtFloat_fld x.re; exact ⟨k, hk⟩
    · obtain ⟨k, hk, -⟩ := fmtFloat_fld x.im; exact ⟨k, hk⟩
  · unfold Fits at h
    by_cases h1 : -1000 < x.r.2.1
    swap; · exact ⟨(fmtInt x.r.2.1, tokInt x.r.2.1), by simp [rowFields], fmtInt_fused _ h1⟩
    by_cases h2 : -1000 < x.r.2.2
    swap; · exact ⟨(fmtInt x.r.2.2, tokInt x.r.2.2), by simp [rowFields], fmtInt_fused _ h2⟩
    by_cases h3 : -1000 < x.o.1
    swap; · exact ⟨(fmtInt x.o.1, tokInt x.o.1), by simp [rowFields], fmtInt_fused _ h3⟩
    by_cases h4 : -1000 < x.o.2
    swap; · exact ⟨(fmtInt x.o.2, tokInt x.o.2), by simp [rowFields], fmtInt_fused _ h4⟩
    by_cases h5 : -1000 < rounded x.re
    swap; · exact ⟨(fmtFloat x.re, tokFloat x.re), by simp [rowFields], fmtFloat_fused _ (fun hc => h5 ((fits_float _).mp hc))⟩
    by_cases h6 : -1000 < rounded x.im
    swap; · exact ⟨(fmtFloat x.im, tokFloat x.im), by simp [rowFields], fmtFloat_fused _ (fun hc => h6 ((fits_float _).mp hc))⟩
    exact absurd ⟨h1, h2, h3, h4, h5, h6⟩ h

def rowVals (x : Row) : List ℚ := [(x.r.1 : ℚ), (x.r.2.1 : ℚ), (x.r.2.2 : ℚ), (x.o.1 : ℚ), (x.o.2 : ℚ), rounded x.re, rounded x.im]

theorem parse_row (x : Row) : (tokInt x.r.1 :: (rowFields x).map Prod.snd).mapM parseNum = some (rowVals x) := by
  have hq : ∀ q, parseNum (tokFloat q) = some (rounded q) := by
    intro q; rw [parse_tokFloat, micro_eq]; rfl
  simp [rowFields, List.mapM_cons, parse_tokInt, hq, rowVals]

theorem mapM_none {α β : Type _} (f : α → Option β) (l : List α) (h : ∃ x ∈ l, f x = none) : l.mapM f = none := by
  induction l with
  | nil => simp at h
  | cons a l ih =>
    rw [List.mapM_cons]
    obtain ⟨x, hx, hn⟩ := h
    rcases List.mem_cons.mp hx with rfl | hx
    · rw [hn]; rfl
    · rw [ih ⟨x, hx, hn⟩]; cases f a <;> rfl

theorem mapM_map_some {α β γ : Type _} (f : β → Option γ) (g : α → β) (v : α → γ) (l : List α) (h : ∀ x ∈ l, f (g x) = some (v x)) :
    (l.map g).mapM f = some (l.map v) := by
  induction l with
  | nil => rfl
  | cons a l ih =>
    rw [List.map_cons, List.mapM_cons, h a (by simp), ih (fun x hx => h x (by simp [hx]))]
    rfl

theorem mapM_append_some {α β : Type _} (f : α → Option β) (l l' : List α) (r : List β) (h : l.mapM f = some r) :
    (l ++ l').mapM f = (l'.mapM f).map fun r' => r ++ r' := by
  rw [List.mapM_append, h]
  cases l'.mapM f <;> rfl

theorem words_dec (n : Nat) : words (decDigits n ++ [' ']) = [decDigits n] := by
  have h : ∀ c ∈ decDigits n, isSp c = false := fun c hc => isSp_of_isDigit c (decDigits_all _ c hc)
  rw [words, wordsAux_tok _ _ _ h, List.nil_append]
  have := wordsAux_sep (decDigits n) 1 (by norm_num) [] (decDigits_ne_nil n)
  simpa [wordsAux] using this

theorem parse_dec (n : Nat) : parseNum (decDigits n) = some (n : ℚ) := by
  have := parseNum_pos n []
  rw [List.append_nil] at this
  rw [this, parseU_dec]

/-- the step of `readTable` -/
def lineVals (l : List Str) : Option (List ℚ) := if l.length ≤ 15 then l.mapM parseNum else none

theorem lineVals_weight (b : Bool) (ws : List Nat) (h : ws ≠ []) (h15 : ws.length ≤ 15) :
    lineVals (words (weightLine b ws)) = some (ws.map fun (k : Nat) => (k : ℚ)) := by
  rw [words_weightLine b ws h, lineVals, if_pos (by simpa using h15)]
  exact mapM_map_some _ _ _ _ fun k _ => parse_strWeight b k

theorem lineVals_row (x : Row) (h : Fits x) : lineVals (words (rowLine x)) = some (rowVals x) := by
  rw [words_rowLine x h, lineVals, if_pos (by simp [rowFields]), parse_row]

theorem lineVals_row_fused (x : Row) (h : ¬ Fits x) : lineVals (words (rowLine x)) = none := by
  obtain ⟨w, hw, hf⟩ := words_rowLine_fused x h
  rw [lineVals]
  split
  · exact mapM_none _ _ ⟨w, hw, parseNum_fused w hf⟩
  · rfl

def weightChunk (w : List Nat) (i : Nat) : List Nat := (w.drop (15 * i)).take 15

theorem weightChunk_ne (w : List Nat) (i : Nat) (h : i < (w.length + 14) / 15) : weightChunk w i ≠ [] := by
  have : 0 < (weightChunk w i).length := by simp [weightChunk]; omega
  exact List.length_pos_iff.mp this

theorem flatten_chunks (w : List Nat) (n : Nat) (h : n * 15 ≥ w.length) : ((List.range n).map (weightChunk w)).flatten = w := by
  have key : ∀ n, ((List.range n).map (weightChunk w)).flatten = w.take (15 * n) := by
    intro n
    induction n with
    | zero => simp
    | succ n ih =>
      rw [List.range_succ, List.map_append, List.flatten_append, ih]
      simp only [List.map_cons, List.map_nil, List.flatten_cons, List.flatten_nil, List.append_nil, weightChunk]
      rw [Nat.mul_succ, List.take_add]
  rw [key, List.take_of_length_le (by omega)]

theorem readTable_eq (b : Bool) (nr nb : Nat) (w : List Nat) (rows : List Row) :
    readTable (writeHr b nr nb w rows) =
      ((rows.map rowLine).mapM fun (l : Str) => lineVals (words l)).map fun t =>
        [[(nb : ℚ)], [(nr : ℚ)]] ++ (((List.range ((w.length + 14) / 15)).map (weightChunk w)).map fun (c : List Nat) => c.map fun (k : Nat) => (k : ℚ)) ++ t := by
  have hne : ∀ l ∈ ((writeHr b nr nb w rows).drop 1).map words, (!l.isEmpty) = true := by
    intro l hl
    simp only [writeHr, List.cons_append, List.nil_append, List.drop_succ_cons, List.drop_zero, List.map_cons, List.map_append, List.map_map,
      List.mem_cons, List.mem_append, List.mem_map, words_dec] at hl
    have : l ≠ [] := by
      rcases hl with rfl | rfl | hl | hl
      · simp
      · simp
      · obtain ⟨a, ha, rfl⟩ := hl
        obtain ⟨i, hi, rfl⟩ := List.mem_map.mp ha
        have := weightChunk_ne w i (by simpa using hi)
        rw [← weightChunk, words_weightLine b _ this]
        simpa using this
      · obtain ⟨x, -, rfl⟩ := hl
        obtain ⟨k, hk, -⟩ := fmtInt_fld x.r.1
        rw [Function.comp_apply, rowLine_eq, words, wordsAux_fld hk]
        obtain ⟨y, l, h⟩ := wordsAux_head (tokInt x.r.1) ((rowFields x).map Prod.fst).flatten hk.ne
        rw [h]; simp
    simpa using this
  rw [readTable, List.filter_eq_self.mpr hne]
  have hfold : (fun (l : List Str) => if l.length ≤ 15 then l.mapM parseNum else none) = lineVals := rfl
  rw [hfold]
  simp only [writeHr, List.cons_append, List.nil_append, List.drop_succ_cons, List.drop_zero, List.map_cons, List.map_append, words_dec]
  have hd : ∀ n : Nat, lineVals [decDigits n] = some [(n : ℚ)] := by
    intro n; simp [lineVals, List.mapM_cons, parse_dec]
  have hwt : ((weightLines b w).map words).mapM lineVals =
      some (((List.range ((w.length + 14) / 15)).map (weightChunk w)).map fun (c : List Nat) => c.map fun (k : Nat) => (k : ℚ)) := by
    rw [weightLines, List.map_map, List.map_map]
    refine mapM_map_some _ _ _ _ fun i hi => ?_
    exact lineVals_weight b (weightChunk w i) (weightChunk_ne w i (by simpa using hi)) (by simp [weightChunk])
  have h2 : ([[decDigits nb], [decDigits nr]] : List (List Str)).mapM lineVals = some [[(nb : ℚ)], [(nr : ℚ)]] := by
    simp [List.mapM_cons, hd]
  have e : [decDigits nb] :: [decDigits nr] :: (List.map words (weightLines b w) ++ List.map words (List.map rowLine rows)) =
      ([[decDigits nb], [decDigits nr]] ++ List.map words (weightLines b w)) ++ List.map words (List.map rowLine rows) := by simp
  rw [e, mapM_append_some lineVals _ _ ([[(nb : ℚ)], [(nr : ℚ)]] ++ (((List.range ((w.length + 14) / 15)).map (weightChunk w)).map
    fun (c : List Nat) => c.map fun (k : Nat) => (k : ℚ))) (by rw [mapM_append_some _ _ _ _ h2, hwt]; rfl)]
  congr 1
  rw [List.map_map]
  have : ∀ l : List Row, (l.map (words ∘ rowLine)).mapM lineVals = (l.map rowLine).mapM fun (s : Str) => lineVals (words s) := by
    intro l
    induction l with
    | nil => rfl
    | cons x l ih => simp only [List.map_cons, List.mapM_cons, ih, Function.comp_apply]
  exact this rows

theorem truncQ_nat (n : Nat) : truncQ (n : ℚ) = n := by
  simp [truncQ]

theorem rows7_rows (rows : List Row) : rows7 (rows.map rowVals).flatten =
    rows.map fun (x : Row) => ((x.r.1 : ℚ), (x.r.2.1 : ℚ), (x.r.2.2 : ℚ), (x.o.1 : ℚ), (x.o.2 : ℚ), rounded x.re, rounded x.im) := by
  induction rows with
  | nil => rfl
  | cons x rows ih =>
    rw [List.map_cons, List.flatten_cons, List.map_cons, ← ih]
    rfl

theorem length_rows (rows : List Row) : (rows.map rowVals).flatten.length = rows.length * 7 := by
  induction rows with
  | nil => rfl
  | cons x rows ih => rw [List.map_cons, List.flatten_cons, List.length_append, ih]; simp [rowVals]; omega

/-- **C80.** Reading a real-space Hamiltonian back from the file that was written returns the shape, the weights, the lattice vectors and the
    orbital labels exactly and the matrix elements rounded to six decimals — if the fields of every line stay apart; otherwise the file cannot be
    read.  For every number of lattice vectors, bands, every list of weights and every matrix. -/
theorem hr_file_roundtrip (isFloat : Bool) (nr nb : Nat) (w : List Nat) (rows : List Row) (hw : w.length = nr)
    (hrows : rows.length = nr * nb * nb) :
    readHr (writeHr isFloat nr nb w rows) = if ∀ x ∈ rows, Fits x then some (expected nr nb w rows) else none := by
  rw [readHr, readTable_eq]
  by_cases hf : ∀ x ∈ rows, Fits x
  · rw [if_pos hf, mapM_map_some (fun (l : Str) => lineVals (words l)) rowLine rowVals rows fun x hx => lineVals_row x (hf x hx)]
    have hc := flatten_chunks w ((w.length + 14) / 15) (by omega)
    have hflat : ([[(nb : ℚ)], [(nr : ℚ)]] ++ (((List.range ((w.length + 14) / 15)).map (weightChunk w)).map
        fun (c : List Nat) => c.map fun (k : Nat) => (k : ℚ)) ++ rows.map rowVals).flatten =
        (nb : ℚ) :: (nr : ℚ) :: ((w.map fun (k : Nat) => (k : ℚ)) ++ (rows.map rowVals).flatten) := by
      rw [List.flatten_append, List.flatten_append, ← List.map_flatten, hc]; simp
    have hnr : Py.clip (w.length + (rows.length * 7) + 1 + 1) (2 + (nr : Int)) = 2 + nr := by
      rw [Py.clip_of_nonneg _ _ (by omega) (by push_cast; omega)]; omega
    have h2 : Py.clip (w.length + (rows.length * 7) + 1 + 1) 2 = 2 := by
      rw [Py.clip_of_nonneg _ _ (by omega) (by push_cast; omega)]; omega
    simp only [Option.map_some, Option.bind_some, List.cons_append, List.nil_append, List.getElem?_cons_zero, List.getElem?_cons_succ] at hflat ⊢
    rw [hflat]
    simp only [truncQ_nat, Py.slice, Py.sliceFrom, List.length_cons, List.length_append, List.length_map, length_rows, hnr, h2,
      List.drop_succ_cons, List.drop_zero]
    have hdrop : List.drop (2 + nr) ((nb : ℚ) :: (nr : ℚ) :: ((w.map fun (k : Nat) => (k : ℚ)) ++ (rows.map rowVals).flatten)) =
        (rows.map rowVals).flatten := by
      rw [show 2 + nr = nr + 1 + 1 by omega, List.drop_succ_cons, List.drop_succ_cons, List.drop_left' (by simpa using hw)]
    have htake : List.take (2 + nr - 2) ((w.map fun (k : Nat) => (k : ℚ)) ++ (rows.map rowVals).flatten) = w.map fun (k : Nat) => (k : ℚ) := by
      rw [show 2 + nr - 2 = nr by omega, List.take_left' (by simpa using hw)]
    rw [hdrop, htake, length_rows, Nat.mul_div_cancel _ (by norm_num : 0 < 7), rows7_rows, hrows]
    rw [if_pos ⟨rfl, by push_cast; ring, by push_cast; ring, by push_cast; ring, by omega, by omega⟩]
    simp [expected, Function.comp_def, truncQ_nat]
  · rw [if_neg hf]
    push Not at hf
    obtain ⟨x, hx, hn⟩ := hf
    rw [mapM_none (fun (l : Str) => lineVals (words l)) (rows.map rowLine) ⟨rowLine x, List.mem_map_of_mem hx, lineVals_row_fused x hn⟩]
    rfl

end DGA.WanIo
