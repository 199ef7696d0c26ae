/-
  Model of the text files of the tight-binding module: src/dga/wannier.py:268-325 (`read_hr_w2k`, `write_hr_w2k`), at the level of
  characters.  A file is the list of its lines.  Numbers are exact rationals: Python formats the exact value of a float (correctly
  rounded, ties to even), and the rounding of the decimal text to the nearest float on reading is not modelled.
-/
import Verif.RankFiles.Lemmas
import Mathlib.Data.Rat.Floor

namespace DGA.WanIo

open DGA.RankFiles (Str decDigits parseDec isDigit padZero)

/-! ### formatting -/

/-- alignment to the right in a field of width `w` -/
def padL (w : Nat) (s : Str) : Str := List.replicate (w - s.length) ' ' ++ s

/-- sign option ' ' of a format specification: a space in front of non-negative numbers -/
def signSp (neg : Bool) (s : Str) : Str := (if neg then '-' else ' ') :: s

/-- Python `{: 5d}` (wannier.py:321) -/
def fmtInt (i : Int) : Str := padL 5 (signSp (i < 0) (decDigits i.natAbs))

/-- rounding to the nearest integer, ties to even (Python's `float.__format__` rounds the exact value this way) -/
def roundEven (x : ℚ) : Int :=
  let r := ⌊x⌋
  if x - r < 1 / 2 then r else if 1 / 2 < x - r then r + 1 else if r % 2 = 0 then r else r + 1

/-- the six-decimals text of a number in units of `10^-6` -/
def digits6 (m : Nat) : Str := decDigits (m / 10 ^ 6) ++ '.' :: padZero 6 (decDigits (m % 10 ^ 6))

/-- Python `{: 12.6f}` (wannier.py:321) -/
def fmtFloat (q : ℚ) : Str := padL 12 (signSp (q < 0) (digits6 (roundEven (|q| * 10 ^ 6)).toNat))

/-- `str` of a weight (wannier.py:314): `k.0` for an array of floats, `k` for an array of integers (weights below `10^16`) -/
def strWeight (isFloat : Bool) (k : Nat) : Str := decDigits k ++ if isFloat then ".0".toList else []

/-- one matrix element: lattice vector, orbital labels, real and imaginary part -/
structure Row where
  r : Int × Int × Int
  o : Int × Int
  re : ℚ
  im : ℚ
deriving DecidableEq

/-- wannier.py:321 -/
def rowLine (x : Row) : Str :=
  fmtInt x.r.1 ++ fmtInt x.r.2.1 ++ fmtInt x.r.2.2 ++ fmtInt x.o.1 ++ fmtInt x.o.2 ++ fmtFloat x.re ++ fmtFloat x.im

/-- wannier.py:314-315: one line of weights, `'    ' + '    '.join(map(str, ...))` -/
def weightLine (isFloat : Bool) (ws : List Nat) : Str := "    ".toList ++ ("    ".toList).intercalate (ws.map (strWeight isFloat))

/-- wannier.py:313-315: fifteen weights per line -/
def weightLines (isFloat : Bool) (w : List Nat) : List Str :=
  (List.range ((w.length + 14) / 15)).map fun (i : Nat) => weightLine isFloat ((w.drop (15 * i)).take 15)

/-- wannier.py:300-322 `write_hr_w2k`: `rows` are the elements in C order of `[R, a, b]` (the three arrays after their `reshape`).
    `r_grid` and `orbs` are integer here (the program truncates them with `astype(int)`). -/
def writeHr (isFloat : Bool) (nr nb : Nat) (w : List Nat) (rows : List Row) : List Str :=
  ["# Written using the wannier module of the dga code".toList, decDigits nb ++ [' '], decDigits nr ++ [' ']] ++
    weightLines isFloat w ++ rows.map rowLine

/-! ### reading -/

/-- ASCII whitespace -/
def isSp (c : Char) : Bool := c = ' ' || c = '\t' || c = '\r'

/-- splitting of a line at white space (`sep=r'\s+'` of pandas' python engine: strip and split); `cur` is the word being scanned -/
def wordsAux (cur : Str) : Str → List Str
  | [] => if cur.isEmpty then [] else [cur]
  | c :: cs =>
    if isSp c then (if cur.isEmpty then wordsAux [] cs else cur :: wordsAux [] cs)
    else wordsAux (cur ++ [c]) cs

def words (s : Str) : List Str := wordsAux [] s

/-- conversion of an unsigned number: digits, optionally with a decimal point -/
def parseU (s : Str) : Option ℚ :=
  let a := s.takeWhile isDigit
  match s.dropWhile isDigit with
  | [] => if a.isEmpty then none else some (parseDec a)
  | c :: b => if c = '.' ∧ b.all isDigit = true ∧ (a ≠ [] ∨ b ≠ []) then some (parseDec a + parseDec b / 10 ^ b.length) else none

/-- conversion of a text field to float (`dtype=float`); anything else raises `ValueError`.  Exponents, `inf` and `nan` are not modelled
    (the writer does not produce them). -/
def parseNum : Str → Option ℚ
  | '-' :: s => (parseU s).map fun x => -x
  | '+' :: s => parseU s
  | s => parseU s

/-- float to int, `astype(int)`: truncation -/
def truncQ (x : ℚ) : Int := if 0 ≤ x then ⌊x⌋ else -⌊-x⌋

/-- the arrays read: shapes `(nr, nb, nb)`, flattened in C order -/
structure Read where
  nr : Int
  nb : Int
  w : List Int
  r : List (ℚ × ℚ × ℚ)
  o : List (ℚ × ℚ)
  h : List (ℚ × ℚ)
deriving DecidableEq

/-- consecutive groups of seven -/
def rows7 : List ℚ → List (ℚ × ℚ × ℚ × ℚ × ℚ × ℚ × ℚ)
  | a :: b :: c :: d :: e :: f :: g :: l => (a, b, c, d, e, f, g) :: rows7 l
  | _ => []

/-- wannier.py:272 `pd.read_csv(fname, skiprows=1, names=np.arange(15), sep=r'\s+', dtype=float, engine='python')`: rows of at most fifteen
    numbers (missing ones become NaN); blank lines are skipped; more than fifteen fields raise -/
def readTable (file : List Str) : Option (List (List ℚ)) :=
  (((file.drop 1).map words).filter fun l => !l.isEmpty).mapM fun l => if l.length ≤ 15 then l.mapM parseNum else none

/-- wannier.py:268-296 `read_hr_w2k`.  `none` is an exception: unreadable field, missing header, or a `reshape` that does not fit. -/
def readHr (file : List Str) : Option Read :=
  (readTable file).bind fun vals =>
    vals[0]?.bind fun v0 => vals[1]?.bind fun v1 => v0[0]?.bind fun b0 => v1[0]?.bind fun r0 =>
      let nb := truncQ b0
      let nr := truncQ r0
      let tmp := vals.flatten
      let w := (Py.slice tmp 2 (2 + nr)).map truncQ
      let rest := Py.sliceFrom tmp (2 + nr)
      let n := rest.length / 7
      if rest.length = n * 7 ∧ (n : Int) * 3 = nr * nb * nb * 3 ∧ (n : Int) * 2 = nr * nb * nb * 2 ∧ (n : Int) = nr * nb * nb ∧ 0 ≤ nr ∧ 0 ≤ nb then
        let t := rows7 rest
        some ⟨nr, nb, w, t.map fun x => (x.1, x.2.1, x.2.2.1), t.map fun x => (x.2.2.2.1, x.2.2.2.2.1),
          t.map fun x => (x.2.2.2.2.2.1, x.2.2.2.2.2.2)⟩
      else none

end DGA.WanIo
