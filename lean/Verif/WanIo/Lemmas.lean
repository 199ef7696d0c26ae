/- Helper lemmas for the text files of the tight-binding module (not claims). -/
import Verif.WanIo.Model
import Mathlib.Tactic.Ring
import Mathlib.Tactic.Linarith
import Mathlib.Tactic.FieldSimp
import Mathlib.Tactic.NormNum

namespace DGA.WanIo

open DGA.RankFiles

theorem decDigits_length_le (n k : Nat) (hk : 0 < k) (h : n < 10 ^ k) : (decDigits n).length ≤ k := by
  induction k generalizing n with
  | zero => omega
  | succ k ih =>
    rw [decDigits]
    split
    · simp
    · rename_i hn
      cases k with
      | zero => simp at h; omega
      | succ k =>
        have := ih (n / 10) (by omega) (by rw [Nat.div_lt_iff_lt_mul (by norm_num)]; rw [pow_succ] at h; exact h)
        simp; omega

theorem decDigits_length_ge (n k : Nat) (h : 10 ^ k ≤ n) : k + 1 ≤ (decDigits n).length := by
  induction k generalizing n with
  | zero => have := decDigits_ne_nil n; have := List.length_pos_iff.mpr this; omega
  | succ k ih =>
    rw [decDigits]
    have h10 : 10 ≤ n := le_trans (by have := Nat.one_le_pow k 10 (by norm_num); rw [pow_succ]; omega) h
    rw [if_neg (by omega)]
    have := ih (n / 10) (by rw [Nat.le_div_iff_mul_le (by norm_num)]; rw [pow_succ] at h; exact h)
    simp; omega

theorem isSp_of_isDigit (c : Char) (h : isDigit c = true) : isSp c = false := by
  simp only [isSp, Bool.or_eq_false_iff, decide_eq_false_iff_not]
  refine ⟨⟨?_, ?_⟩, ?_⟩ <;> rintro rfl <;> revert h <;> decide

/-! ### splitting -/

theorem wordsAux_tok (cur t s : Str) (ht : ∀ c ∈ t, isSp c = false) : wordsAux cur (t ++ s) = wordsAux (cur ++ t) s := by
  induction t generalizing cur with
  | nil => simp
  | cons c t ih =>
    rw [List.cons_append, wordsAux, ht c (by simp)]
    simp only [Bool.false_eq_true, if_false]
    rw [ih _ (fun d hd => ht d (by simp [hd]))]
    simp

theorem wordsAux_blank (k : Nat) (s : Str) : wordsAux [] (List.replicate k ' ' ++ s) = wordsAux [] s := by
  induction k with
  | zero => simp
  | succ k ih => rw [List.replicate_succ, List.cons_append, wordsAux]; simpa [isSp] using ih

theorem wordsAux_sep (cur : Str) (k : Nat) (hk : 0 < k) (s : Str) (hc : cur ≠ []) :
    wordsAux cur (List.replicate k ' ' ++ s) = cur :: wordsAux [] s := by
  obtain ⟨k, rfl⟩ : ∃ j, k = j + 1 := ⟨k - 1, by omega⟩
  rw [List.replicate_succ, List.cons_append, wordsAux]
  simp [isSp, hc, wordsAux_blank]

theorem wordsAux_head (cur s : Str) (hc : cur ≠ []) : ∃ y l, wordsAux cur s = (cur ++ y) :: l := by
  induction s generalizing cur with
  | nil => exact ⟨[], [], by simp [wordsAux, hc]⟩
  | cons c s ih =>
    rw [wordsAux]
    split
    · exact ⟨[], wordsAux [] s, by simp [hc]⟩
    · obtain ⟨y, l, h⟩ := ih (cur ++ [c]) (by simp)
      exact ⟨c :: y, l, by simpa using h⟩

/-- a field of a line: blanks and a word -/
structure Fld (f t : Str) (k : Nat) : Prop where
  eq : f = List.replicate k ' ' ++ t
  ne : t ≠ []
  ns : ∀ c ∈ t, isSp c = false

theorem wordsAux_fld {f t : Str} {k : Nat} (h : Fld f t k) (s : Str) : wordsAux [] (f ++ s) = wordsAux t s := by
  rw [h.eq, List.append_assoc, wordsAux_blank, wordsAux_tok _ _ _ h.ns]; rfl

theorem wordsAux_fld_sep {f t : Str} {k : Nat} (h : Fld f t k) (hk : 0 < k) (cur s : Str) (hc : cur ≠ []) :
    wordsAux cur (f ++ s) = cur :: wordsAux t s := by
  rw [h.eq, List.append_assoc, wordsAux_sep _ _ hk _ hc, wordsAux_tok _ _ _ h.ns]; rfl

theorem wordsAux_seps (l : List (Str × Str)) (cur : Str) (hc : cur ≠ []) (h : ∀ x ∈ l, ∃ k, 0 < k ∧ Fld x.1 x.2 k) :
    wordsAux cur (l.map Prod.fst).flatten = cur :: l.map Prod.snd := by
  induction l generalizing cur with
  | nil => simp [wordsAux, hc]
  | cons x l ih =>
    obtain ⟨k, hk, hf⟩ := h x (by simp)
    rw [List.map_cons, List.flatten_cons, wordsAux_fld_sep hf hk _ _ hc, ih _ hf.ne (fun y hy => h y (by simp [hy]))]
    simp

theorem words_fields (f t : Str) (k : Nat) (hf : Fld f t k) (l : List (Str × Str)) (h : ∀ x ∈ l, ∃ k, 0 < k ∧ Fld x.1 x.2 k) :
    words (f ++ (l.map Prod.fst).flatten) = t :: l.map Prod.snd := by
  rw [words, wordsAux_fld hf, wordsAux_seps _ _ hf.ne h]

/-- a word that cannot be converted -/
def Fused (w : Str) : Prop := ∃ x y, x ≠ [] ∧ w = x ++ '-' :: y

/-- a fused field somewhere in the line gives a bad word -/
theorem wordsAux_fused (l : List (Str × Str)) (cur : Str) (hc : cur ≠ []) (h : ∀ x ∈ l, ∃ k, Fld x.1 x.2 k)
    (hb : ∃ x ∈ l, ∃ y, x.1 = '-' :: y) : ∃ w ∈ wordsAux cur (l.map Prod.fst).flatten, Fused w := by
  induction l generalizing cur with
  | nil => simp at hb
  | cons x l ih =>
    obtain ⟨k, hf⟩ := h x (by simp)
    rw [List.map_cons, List.flatten_cons]
    obtain ⟨b, hbm, y, hy⟩ := hb
    rcases List.mem_cons.mp hbm with rfl | hbm
    · rw [hy]
      have hs : isSp '-' = false := by decide
      rw [List.cons_append, wordsAux, hs]
      simp only [Bool.false_eq_true, if_false]
      obtain ⟨z, l', hz⟩ := wordsAux_head (cur ++ ['-']) (y ++ (l.map Prod.fst).flatten) (by simp)
      exact ⟨_, by rw [hz]; exact List.mem_cons_self, cur, z, hc, by simp⟩
    · have hrec := fun c hc => ih c hc (fun y hy => h y (by simp [hy])) ⟨b, hbm, y, hy⟩
      rcases Nat.eq_zero_or_pos k with rfl | hk
      · rw [hf.eq]
        simp only [List.replicate_zero, List.nil_append]
        rw [wordsAux_tok _ _ _ hf.ns]
        exact hrec _ (by simp [hc])
      · rw [wordsAux_fld_sep hf hk _ _ hc]
        obtain ⟨w, hw, hw'⟩ := hrec x.2 hf.ne
        exact ⟨w, by simp [hw], hw'⟩

theorem words_fused (f t : Str) (k : Nat) (hf : Fld f t k) (l : List (Str × Str)) (h : ∀ x ∈ l, ∃ k, Fld x.1 x.2 k)
    (hb : ∃ x ∈ l, ∃ y, x.1 = '-' :: y) : ∃ w ∈ words (f ++ (l.map Prod.fst).flatten), Fused w := by
  rw [words, wordsAux_fld hf]
  exact wordsAux_fused l t hf.ne h hb

/-! ### conversion -/

theorem takeWhile_digits (a s : Str) (ha : ∀ c ∈ a, isDigit c = true) (hs : ∀ c ∈ s.head?, isDigit c = false) :
    (a ++ s).takeWhile isDigit = a ∧ (a ++ s).dropWhile isDigit = s := by
  induction a with
  | nil =>
    cases s with
    | nil => simp
    | cons c s => have := hs c (by simp); simp [this]
  | cons c a ih =>
    have h1 := ha c (by simp)
    have := ih (fun d hd => ha d (by simp [hd]))
    simp [h1, this]

theorem parseU_dec (n : Nat) : parseU (decDigits n) = some (n : ℚ) := by
  have h := takeWhile_digits (decDigits n) [] (decDigits_all n) (by simp)
  rw [List.append_nil] at h
  simp [parseU, h.1, h.2, decDigits_ne_nil, parseDec_decDigits]

theorem parseU_point (n : Nat) (b : Str) (hb : ∀ c ∈ b, isDigit c = true) :
    parseU (decDigits n ++ '.' :: b) = some ((n : ℚ) + parseDec b / 10 ^ b.length) := by
  have h := takeWhile_digits (decDigits n) ('.' :: b) (decDigits_all n) (by simp; decide)
  simp only [parseU, h.1, h.2]
  rw [if_pos ⟨trivial, by simpa using hb, Or.inl (decDigits_ne_nil n)⟩, parseDec_decDigits]

theorem parseU_dash (s : Str) (h : '-' ∈ s) : parseU s = none := by
  have hs : s = s.takeWhile isDigit ++ s.dropWhile isDigit := (List.takeWhile_append_dropWhile).symm
  have hm : '-' ∈ s.dropWhile isDigit := by
    rw [hs] at h
    rcases List.mem_append.mp h with h | h
    · have := List.all_eq_true.mp (List.all_takeWhile (p := isDigit) (l := s)) _ h; exact absurd this (by decide)
    · exact h
  rw [parseU]
  revert hm
  cases s.dropWhile isDigit with
  | nil => simp
  | cons c b =>
    intro hm
    simp only
    rw [if_neg]
    rintro ⟨rfl, hb, -⟩
    rcases List.mem_cons.mp hm with h1 | h1
    · revert h1; decide
    · have := List.all_eq_true.mp hb _ h1; revert this; decide

theorem parseNum_fused (w : Str) (h : Fused w) : parseNum w = none := by
  obtain ⟨x, y, hx, rfl⟩ := h
  cases x with
  | nil => exact absurd rfl hx
  | cons c x =>
    have hd := parseU_dash (x ++ '-' :: y) (by simp)
    rw [List.cons_append]
    unfold parseNum
    split
    · rename_i s heq
      obtain ⟨-, rfl⟩ := List.cons.inj heq
      rw [hd]; rfl
    · rename_i s heq
      obtain ⟨-, rfl⟩ := List.cons.inj heq
      exact hd
    · exact parseU_dash _ (by simp)

theorem parseNum_neg (s : Str) : parseNum ('-' :: s) = (parseU s).map fun x => -x := rfl

theorem decDigits_cons (n : Nat) : ∃ c s, decDigits n = c :: s ∧ c ≠ '-' ∧ c ≠ '+' := by
  obtain ⟨c, s, h⟩ := List.exists_cons_of_ne_nil (decDigits_ne_nil n)
  have hc := decDigits_all n c (by rw [h]; simp)
  refine ⟨c, s, h, ?_, ?_⟩ <;> rintro rfl <;> revert hc <;> decide

theorem parseNum_pos (n : Nat) (s : Str) : parseNum (decDigits n ++ s) = parseU (decDigits n ++ s) := by
  obtain ⟨c, s', h, h1, h2⟩ := decDigits_cons n
  rw [h, List.cons_append]
  unfold parseNum
  split
  · rename_i heq; exact absurd (List.cons.inj heq).1 h1
  · rename_i heq; exact absurd (List.cons.inj heq).1 h2
  · rfl

theorem padZero_length (w : Nat) (s : Str) (h : s.length ≤ w) : (padZero w s).length = w := by
  simp [padZero]; omega

theorem parseU_digits6 (m : Nat) : parseU (digits6 m) = some ((m : ℚ) / 10 ^ 6) := by
  have hlt : m % 10 ^ 6 < 10 ^ 6 := Nat.mod_lt _ (by norm_num)
  rw [digits6, parseU_point _ _ (padZero_all _ _ (decDigits_all _)), parseDec_padZero, parseDec_decDigits,
    padZero_length _ _ (decDigits_length_le _ 6 (by norm_num) hlt)]
  congr 1
  have h : (m : ℚ) = (10 ^ 6 : ℕ) * (m / 10 ^ 6 : ℕ) + (m % 10 ^ 6 : ℕ) := by exact_mod_cast (Nat.div_add_mod m (10 ^ 6)).symm
  rw [eq_div_iff (by norm_num), h]
  push_cast
  rw [add_mul, div_mul_cancel₀ _ (by norm_num)]
  ring

/-! ### the fields -/

def tokSign (neg : Bool) (s : Str) : Str := if neg then '-' :: s else s

theorem padL_sign (w : Nat) (neg : Bool) (s : Str) (h0 : s ≠ []) (hs : ∀ c ∈ s, isSp c = false) :
    ∃ k, Fld (padL w (signSp neg s)) (tokSign neg s) k ∧ (0 < k ↔ (neg = true → s.length + 1 < w)) := by
  cases neg with
  | false =>
    refine ⟨w - (s.length + 1) + 1, ⟨?_, ?_, ?_⟩, by simp⟩
    · simp [padL, signSp, tokSign, List.replicate_succ']
    · simpa [tokSign] using h0
    · simpa [tokSign] using hs
  | true =>
    refine ⟨w - (s.length + 1), ⟨?_, ?_, ?_⟩, by simp⟩
    · simp [padL, signSp, tokSign]
    · simp [tokSign]
    · intro c hc
      rcases List.mem_cons.mp hc with rfl | hc
      · decide
      · exact hs c hc

theorem fused_sign (w : Nat) (s : Str) (h : ¬ s.length + 1 < w) : padL w (signSp true s) = '-' :: s := by
  simp [padL, signSp]; omega

def tokInt (i : Int) : Str := tokSign (decide (i < 0)) (decDigits i.natAbs)

theorem parse_tokInt (i : Int) : parseNum (tokInt i) = some (i : ℚ) := by
  rw [tokInt]
  by_cases h : i < 0
  · simp only [h, decide_true, tokSign, if_true, parseNum_neg, parseU_dec, Option.map_some]
    congr 1
    rw [← Int.cast_natCast, show (i.natAbs : ℤ) = -i by omega]
    simp
  · simp only [h, decide_false, tokSign, Bool.false_eq_true, if_false]
    have := parseNum_pos i.natAbs []
    rw [List.append_nil] at this
    rw [this, parseU_dec]
    congr 1
    rw [← Int.cast_natCast, show (i.natAbs : ℤ) = i by omega]

theorem fmtInt_fld (i : Int) : ∃ k, Fld (fmtInt i) (tokInt i) k ∧ (0 < k ↔ -1000 < i) := by
  obtain ⟨k, hk, hk'⟩ := padL_sign 5 (decide (i < 0)) (decDigits i.natAbs) (decDigits_ne_nil _)
    (fun c hc => isSp_of_isDigit c (decDigits_all _ c hc))
  refine ⟨k, hk, hk'.trans ?_⟩
  simp only [decide_eq_true_eq]
  constructor
  · intro h
    by_contra hc
    have := h (by omega)
    have := decDigits_length_ge i.natAbs 3 (by omega)
    omega
  · intro h hneg
    have := decDigits_length_le i.natAbs 3 (by omega) (by omega)
    omega

theorem fmtInt_fused (i : Int) (h : ¬ -1000 < i) : ∃ y, fmtInt i = '-' :: y := by
  have hneg : i < 0 := by omega
  have := decDigits_length_ge i.natAbs 3 (by omega)
  exact ⟨_, by rw [fmtInt]; simp only [hneg, decide_true]; exact fused_sign 5 _ (by omega)⟩

def micro (q : ℚ) : Nat := (roundEven (|q| * 10 ^ 6)).toNat

def tokFloat (q : ℚ) : Str := tokSign (decide (q < 0)) (digits6 (micro q))

theorem digits6_ns (m : Nat) : ∀ c ∈ digits6 m, isSp c = false := by
  intro c hc
  rw [digits6] at hc
  rcases List.mem_append.mp hc with hc | hc
  · exact isSp_of_isDigit c (decDigits_all _ c hc)
  · rcases List.mem_cons.mp hc with rfl | hc
    · decide
    · exact isSp_of_isDigit c (padZero_all _ _ (decDigits_all _) c hc)

theorem digits6_length (m : Nat) : (digits6 m).length = (decDigits (m / 10 ^ 6)).length + 7 := by
  have hlt : m % 10 ^ 6 < 10 ^ 6 := Nat.mod_lt _ (by norm_num)
  rw [digits6, List.length_append, List.length_cons, padZero_length _ _ (decDigits_length_le _ 6 (by norm_num) hlt)]

theorem digits6_short (m : Nat) : (digits6 m).length + 1 < 12 ↔ m < 10 ^ 9 := by
  rw [digits6_length]
  constructor
  · intro h
    by_contra hc
    have := decDigits_length_ge (m / 10 ^ 6) 3 (by rw [Nat.le_div_iff_mul_le (by norm_num)]; norm_num at hc ⊢; omega)
    omega
  · intro h
    have := decDigits_length_le (m / 10 ^ 6) 3 (by norm_num) (by rw [Nat.div_lt_iff_lt_mul (by norm_num)]; norm_num at h ⊢; omega)
    omega

theorem fmtFloat_fld (q : ℚ) : ∃ k, Fld (fmtFloat q) (tokFloat q) k ∧ (0 < k ↔ (q < 0 → micro q < 10 ^ 9)) := by
  obtain ⟨k, hk, hk'⟩ := padL_sign 12 (decide (q < 0)) (digits6 (micro q)) (by simp [digits6]) (digits6_ns _)
  refine ⟨k, hk, hk'.trans ?_⟩
  simp only [decide_eq_true_eq, digits6_short]

theorem fmtFloat_fused (q : ℚ) (h : ¬ (q < 0 → micro q < 10 ^ 9)) : ∃ y, fmtFloat q = '-' :: y := by
  rw [Classical.not_imp] at h
  refine ⟨digits6 (micro q), ?_⟩
  rw [fmtFloat]
  simp only [h.1, decide_true]
  exact fused_sign 12 _ (by rw [← micro, digits6_short]; exact h.2)

theorem parse_tokFloat (q : ℚ) :
    parseNum (tokFloat q) = some (if q < 0 then -((micro q : ℚ) / 10 ^ 6) else (micro q : ℚ) / 10 ^ 6) := by
  rw [tokFloat]
  by_cases h : q < 0
  · simp only [h, decide_true, tokSign, if_true, parseNum_neg, parseU_digits6, Option.map_some]
  · simp only [h, decide_false, tokSign, Bool.false_eq_true, if_false]
    rw [digits6, parseNum_pos, ← digits6, parseU_digits6]

/-! ### lines -/

theorem intercalate_blank (s : Str) (ts : List Str) (h : ts ≠ []) :
    s ++ s.intercalate ts = (ts.map fun (t : Str) => s ++ t).flatten := by
  induction ts with
  | nil => exact absurd rfl h
  | cons t ts ih =>
    cases ts with
    | nil => simp
    | cons u ts =>
      have := ih (by simp)
      rw [List.map_cons, List.flatten_cons, ← this]
      simp [List.intercalate]

theorem strWeight_ns (b : Bool) (k : Nat) : ∀ c ∈ strWeight b k, isSp c = false := by
  intro c hc
  rw [strWeight] at hc
  rcases List.mem_append.mp hc with hc | hc
  · exact isSp_of_isDigit c (decDigits_all _ c hc)
  · cases b with
    | false => simp at hc
    | true => simp at hc; rcases hc with rfl | rfl <;> decide

theorem parse_strWeight (b : Bool) (k : Nat) : parseNum (strWeight b k) = some (k : ℚ) := by
  rw [strWeight, parseNum_pos]
  cases b with
  | false => simpa using parseU_dec k
  | true =>
    have := parseU_point k ['0'] (by decide)
    simpa [parseDec] using this

theorem words_weightLine (b : Bool) (ws : List Nat) (h : ws ≠ []) : words (weightLine b ws) = ws.map (strWeight b) := by
  rw [weightLine, intercalate_blank _ _ (by simpa using h)]
  have hf : ∀ k, Fld ("    ".toList ++ strWeight b k) (strWeight b k) 4 := fun k =>
    ⟨rfl, by simp [strWeight, decDigits_ne_nil], strWeight_ns b k⟩
  obtain ⟨w, ws, rfl⟩ := List.exists_cons_of_ne_nil h
  have := words_fields _ _ 4 (hf w) (ws.map fun k => ("    ".toList ++ strWeight b k, strWeight b k)) (by
    intro x hx
    obtain ⟨k, -, rfl⟩ := List.mem_map.mp hx
    exact ⟨4, by norm_num, hf k⟩)
  simpa [Function.comp_def] using this

def rowFields (x : Row) : List (Str × Str) :=
  [(fmtInt x.r.2.1, tokInt x.r.2.1), (fmtInt x.r.2.2, tokInt x.r.2.2), (fmtInt x.o.1, tokInt x.o.1), (fmtInt x.o.2, tokInt x.o.2),
    (fmtFloat x.re, tokFloat x.re), (fmtFloat x.im, tokFloat x.im)]

theorem rowLine_eq (x : Row) : rowLine x = fmtInt x.r.1 ++ ((rowFields x).map Prod.fst).flatten := by
  simp [rowLine, rowFields]

end DGA.WanIo
