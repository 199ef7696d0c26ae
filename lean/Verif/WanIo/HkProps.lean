/-
  Properties of the momentum-space Hamiltonian files (C81).
-/
import Verif.WanIo.HkModel
import Verif.WanIo.Props
import Mathlib.Data.List.GetD
import Mathlib.Tactic.IntervalCases

namespace DGA.WanIo

/-! ### indices of concatenated blocks -/

theorem length_flatMap_range {β : Type} (n m : Nat) (f : Nat → List β) (h : ∀ i < n, (f i).length = m) : ((List.range n).flatMap f).length = n * m := by
  induction n with
  | zero => simp
  | succ n ih =>
    rw [List.range_succ, List.flatMap_append, List.length_append, ih (fun i hi => h i (by omega))]
    simp [h n (by omega), Nat.succ_mul]

theorem getD_flatMap_range {β : Type} (n m : Nat) (f : Nat → List β) (h : ∀ i < n, (f i).length = m) (i j : Nat) (hi : i < n) (hj : j < m) (d : β) :
    ((List.range n).flatMap f).getD (i * m + j) d = (f i).getD j d := by
  induction n with
  | zero => omega
  | succ n ih =>
    have hl := length_flatMap_range n m f (fun i hi => h i (by omega))
    rw [List.range_succ, List.flatMap_append]
    rcases Nat.lt_or_ge i n with hin | hin
    · have hlt : i * m + j < ((List.range n).flatMap f).length := by
        rw [hl]
        calc i * m + j < i * m + m := by omega
          _ = (i + 1) * m := by ring
          _ ≤ n * m := Nat.mul_le_mul_right _ hin
      rw [List.getD_append _ _ _ _ hlt]
      exact ih (fun i hi => h i (by omega)) hin
    · have : i = n := by omega
      subst this
      rw [List.getD_append_right _ _ _ _ (by rw [hl]; omega), hl]
      simp

theorem length_viewRow (c : Bool) (nb : Nat) (row : Nat → ℚ × ℚ) : (viewRow c nb row).length = nb * if c then 2 else 1 :=
  length_flatMap_range nb _ _ fun i _ => by cases c <;> rfl

theorem length_hkBlock (c : Bool) (nb : Nat) (k : ℚ × ℚ × ℚ) (m : Nat → Nat → ℚ × ℚ) :
    (hkBlock c nb k m).length = 3 + nb * (nb * if c then 2 else 1) := by
  rw [hkBlock, List.length_append, length_flatMap_range nb (nb * if c then 2 else 1) _ fun i _ => by rw [List.length_map, length_viewRow]]
  rfl

theorem hkBlock_elem (nb : Nat) (k : ℚ × ℚ × ℚ) (m : Nat → Nat → ℚ × ℚ) (a b : Nat) (ha : a < nb) (hb : b < nb) :
    (hkBlock true nb k m).getD (3 + ((a * nb + b) * 2)) 0 = text12 (m a b).1 ∧
    (hkBlock true nb k m).getD (3 + ((a * nb + b) * 2) + 1) 0 = text12 (m a b).2 := by
  have hlen : ∀ i < nb, ((viewRow true nb (m i)).map text12).length = nb * 2 := fun i _ => by rw [List.length_map, length_viewRow]; rfl
  have key : ∀ c < 2, (hkBlock true nb k m).getD (3 + ((a * nb + b) * 2) + c) 0 = text12 (if c = 0 then (m a b).1 else (m a b).2) := by
    intro c hc
    rw [hkBlock, List.getD_append_right _ _ _ _ (by simp; omega)]
    rw [show 3 + (a * nb + b) * 2 + c - [k.1, k.2.1, k.2.2].length = a * (nb * 2) + (b * 2 + c) by
      simp only [List.length_cons, List.length_nil]; have : (a * nb + b) * 2 = a * (nb * 2) + b * 2 := by ring
      omega]
    rw [getD_flatMap_range nb (nb * 2) _ hlen a _ ha (by omega)]
    have h0 : (0 : ℚ) = text12 0 := by decide +kernel
    rw [h0, List.getD_map, viewRow, getD_flatMap_range nb 2 _ (fun i _ => by rfl) b c hb hc]
    interval_cases c <;> rfl
  exact ⟨key 0 (by norm_num), key 1 (by norm_num)⟩

/-! ### specification -/

/-- reading with `nspins` spin blocks: element `[k, b, s, b', s']` of the result is the element between the orbitals `s·nb + b` and `s'·nb + b'` of
    the matrix written, rounded to twelve decimals; k-points are returned exactly -/
def HkExpected (n nb ns : Nat) (kmesh : Nat → ℚ × ℚ × ℚ) (hk : Nat → Nat → Nat → ℚ × ℚ) (d : HkRead) : Prop :=
  d.nk = n ∧ d.nb = nb ∧ d.ns = ns ∧ d.shape = ([n, nb, ns, nb, ns].filter fun (x : Nat) => x ≠ 1) ∧
  (∀ k < n, d.kpt k = kmesh k) ∧
  ∀ k < n, ∀ b < nb, ∀ s < ns, ∀ b' < nb, ∀ s' < ns,
    d.at_ k b s b' s' = (text12 (hk k (s * nb + b) (s' * nb + b')).1, text12 (hk k (s * nb + b) (s' * nb + b')).2)

theorem text12_close (q : ℚ) : |q - text12 q| ≤ 1 / 2 / 10 ^ 12 := by
  have h := roundEven_bounds (|q| * 10 ^ 12)
  have key : |q - text12 q| = abs (|q| * 10 ^ 12 - roundEven (|q| * 10 ^ 12)) / 10 ^ 12 := by
    rw [text12, ← abs_of_pos (show (0 : ℚ) < 10 ^ 12 by norm_num), ← abs_div, abs_of_pos (show (0 : ℚ) < 10 ^ 12 by norm_num)]
    split
    · rename_i hq
      rw [abs_of_neg hq, ← abs_neg]
      congr 1
      field_simp
      ring
    · rename_i hq
      rw [abs_of_nonneg (not_lt.mp hq)]
      congr 1
      field_simp
  rw [key]
  gcongr

theorem hkBody_write (n nb ns : Nat) (kmesh : Nat → ℚ × ℚ × ℚ) (hk : Nat → Nat → Nat → ℚ × ℚ) :
    ∃ d, hkBody ((List.range n).flatMap fun (ik : Nat) => hkBlock true (nb * ns) (kmesh ik) (hk ik)) n nb ns = some d ∧
      HkExpected n nb ns kmesh hk d := by
  have hm : ∀ i < n, (hkBlock true (nb * ns) (kmesh i) (hk i)).length = 3 + 2 * nb ^ 2 * ns ^ 2 := fun i _ => by
    rw [length_hkBlock]; simp only [if_true]; ring
  have hlen := length_flatMap_range n (3 + 2 * nb ^ 2 * ns ^ 2) (fun ik => hkBlock true (nb * ns) (kmesh ik) (hk ik)) hm
  have hpos : 0 < 3 + 2 * nb ^ 2 * ns ^ 2 := by omega
  rw [hkBody]
  simp only [hlen, Nat.mul_mod_left, ne_eq, not_true_eq_false, if_false, Nat.mul_div_cancel _ hpos, lt_irrefl]
  refine ⟨_, rfl, ?_⟩
  · refine ⟨rfl, rfl, rfl, rfl, ?_, ?_⟩
    · intro k hk'
      have h0 := getD_flatMap_range n _ _ hm k 0 hk' (by omega) (0 : ℚ)
      have h1 := getD_flatMap_range n _ _ hm k 1 hk' (by omega) (0 : ℚ)
      have h2 := getD_flatMap_range n _ _ hm k 2 hk' (by omega) (0 : ℚ)
      rw [Nat.add_zero] at h0
      dsimp only
      rw [h0, h1, h2, hkBlock]
      rfl
    · intro k hk' b hb s hs b' hb' s' hs'
      have ho : s * nb + b < nb * ns := by
        calc s * nb + b < s * nb + nb := by omega
          _ = (s + 1) * nb := by ring
          _ ≤ ns * nb := Nat.mul_le_mul_right _ hs
          _ = nb * ns := mul_comm _ _
      have ho' : s' * nb + b' < nb * ns := by
        calc s' * nb + b' < s' * nb + nb := by omega
          _ = (s' + 1) * nb := by ring
          _ ≤ ns * nb := Nat.mul_le_mul_right _ hs'
          _ = nb * ns := mul_comm _ _
      have hi : ((s * nb + b) * ns + s') * nb + b' = (s * nb + b) * (nb * ns) + (s' * nb + b') := by ring
      have hlt : (s * nb + b) * (nb * ns) + (s' * nb + b') < nb ^ 2 * ns ^ 2 := by
        calc (s * nb + b) * (nb * ns) + (s' * nb + b') < (s * nb + b) * (nb * ns) + nb * ns := by omega
          _ = (s * nb + b + 1) * (nb * ns) := by ring
          _ ≤ (nb * ns) * (nb * ns) := Nat.mul_le_mul_right _ ho
          _ = nb ^ 2 * ns ^ 2 := by ring
      have hm' : 2 * nb ^ 2 * ns ^ 2 = 2 * (nb ^ 2 * ns ^ 2) := by ring
      have e := hkBlock_elem (nb * ns) (kmesh k) (hk k) _ _ ho ho'
      simp only [hi]
      rw [show ∀ M x : Nat, k * M + 3 + x = k * M + (3 + x) by intros; omega, add_assoc (k * _) (3 + _) 1,
        getD_flatMap_range n _ _ hm k _ hk' (by omega), getD_flatMap_range n _ _ hm k _ hk' (by omega), e.1, e.2]

/-- **C81.** A complex Hamiltonian written with `write_hk_wannier90` is read back by `read_hk_w2k`: same k-points, every matrix element rounded to
    twelve decimals, for every k-grid and number of bands.  Axes of length one are dropped from the result. -/
theorem hk_file_roundtrip (nk : List Nat) (nkHk nkMesh nb : Nat) (kmesh : Nat → ℚ × ℚ × ℚ) (hk : Nat → Nat → Nat → ℚ × ℚ)
    (h1 : nk.prod ≤ nkHk) (h2 : nk.prod ≤ nkMesh) :
    ∃ d, (writeHk true nk nkHk nkMesh nb kmesh hk).bind (fun f => readHk f true) = some d ∧ HkExpected nk.prod nb 1 kmesh hk d := by
  obtain ⟨d, hd, he⟩ := hkBody_write nk.prod nb 1 kmesh hk
  refine ⟨d, ?_, he⟩
  rw [mul_one] at hd
  simp only [writeHk, h1, h2, and_self, if_true, Option.bind_some, readHk, hkHeader]
  exact hd

/-- **C81.** With spin-orbit coupling (`spin_sym=False`) an even number of orbitals is split into two spin blocks; an odd number is refused. -/
theorem hk_file_spin_orbit (nk : List Nat) (nkHk nkMesh nb : Nat) (kmesh : Nat → ℚ × ℚ × ℚ) (hk : Nat → Nat → Nat → ℚ × ℚ)
    (h1 : nk.prod ≤ nkHk) (h2 : nk.prod ≤ nkMesh) :
    (∃ d, (writeHk true nk nkHk nkMesh (nb * 2) kmesh hk).bind (fun f => readHk f false) = some d ∧ HkExpected nk.prod nb 2 kmesh hk d) ∧
    (writeHk true nk nkHk nkMesh (nb * 2 + 1) kmesh hk).bind (fun f => readHk f false) = none := by
  constructor
  · obtain ⟨d, hd, he⟩ := hkBody_write nk.prod nb 2 kmesh hk
    refine ⟨d, ?_, he⟩
    simp only [writeHk, h1, h2, and_self, if_true, Option.bind_some, readHk, hkHeader, Bool.false_eq_true, if_false, Nat.mul_mod_left,
      ne_eq, not_true_eq_false, Nat.mul_div_cancel nb (show 0 < 2 by norm_num)]
    exact hd
  · simp only [writeHk, h1, h2, and_self, if_true, Option.bind_some, readHk, hkHeader, Bool.false_eq_true, if_false]
    rw [if_pos (by omega)]

/-- **C81, the limit.** A Hamiltonian stored as a real array is written without imaginary parts, and no such file can be read back. -/
theorem real_hk_rejected (nk : List Nat) (nkHk nkMesh nb : Nat) (kmesh : Nat → ℚ × ℚ × ℚ) (hk : Nat → Nat → Nat → ℚ × ℚ)
    (h1 : nk.prod ≤ nkHk) (h2 : nk.prod ≤ nkMesh) (hn : 0 < nk.prod) (hb : 0 < nb) :
    (writeHk false nk nkHk nkMesh nb kmesh hk).bind (fun f => readHk f true) = none := by
  simp only [writeHk, h1, h2, and_self, if_true, Option.bind_some, readHk, hkHeader, hkBody]
  rw [length_flatMap_range nk.prod (3 + nb * (nb * 1)) _ fun i _ => length_hkBlock false nb (kmesh i) (hk i)]
  split
  · rfl
  · rw [if_pos]
    rw [Nat.div_lt_iff_lt_mul (by omega)]
    refine Nat.mul_lt_mul_of_pos_left ?_ hn
    have : 0 < nb ^ 2 := by positivity
    have e1 : nb * (nb * 1) = nb ^ 2 := by ring
    have e2 : 2 * nb ^ 2 * 1 ^ 2 = 2 * nb ^ 2 := by ring
    omega

/-- further k-points in the file are ignored, missing ones are an error -/
theorem hk_file_counts (f : HkFile) (n nb ig : Nat) (h : f.header = [n, nb, ig]) (d : HkRead) (hd : readHk f true = some d) :
    n * (3 + 2 * nb ^ 2) ≤ f.num.length ∧ (3 + 2 * nb ^ 2) ∣ f.num.length := by
  simp only [readHk, h, hkHeader, Option.bind_some, if_true, hkBody, one_pow, mul_one] at hd
  split at hd
  · simp at hd
  · rename_i hmod
    split at hd
    · simp at hd
    · rename_i hlt
      push Not at hmod hlt
      exact ⟨(Nat.le_div_iff_mul_le (by omega)).mp hlt, Nat.dvd_of_mod_eq_zero hmod⟩

/-- a 2×1×1 grid and two bands -/
example : ∃ d, (writeHk true [2, 1, 1] 2 2 2 (fun i => (i, 0, 0)) (fun i a b => (if a = b then 1 else 1 / 3, (a : ℚ) - b + i * 0))).bind
    (fun f => readHk f true) = some d ∧ d.shape = [2, 2, 2] ∧ d.at_ 1 0 0 1 0 = (333333333333 / 10 ^ 12, -1) := by
  obtain ⟨d, h, he⟩ := hk_file_roundtrip [2, 1, 1] 2 2 2 (fun i => (i, 0, 0)) (fun i a b => (if a = b then 1 else 1 / 3, (a : ℚ) - b + i * 0))
    (by decide) (by decide)
  refine ⟨d, h, by rw [he.2.2.2.1]; decide, ?_⟩
  rw [he.2.2.2.2.2 1 (by decide) 0 (by decide) 0 (by decide) 1 (by decide) 0 (by decide)]
  decide +kernel

/-- one k-point and one band: all axes are dropped -/
example : ∃ d, (writeHk true [1, 1, 1] 1 1 1 (fun _ => (0, 0, 0)) (fun _ _ _ => (1, 0))).bind (fun f => readHk f true) = some d ∧ d.shape = [] := by
  obtain ⟨d, h, he⟩ := hk_file_roundtrip [1, 1, 1] 1 1 1 (fun _ => (0, 0, 0)) (fun _ _ _ => (1, 0)) (by decide) (by decide)
  exact ⟨d, h, by rw [he.2.2.2.1]; decide⟩

/-- C81: a file with the old header `kpoints atoms d p …` is read exactly as the same file with the header `kpoints bands …` and
    `bands = atoms · (d + p)`; headers of one or two entries are refused -/
theorem hk_file_old_header (num : List ℚ) (n atoms d p ig : Nat) (rest : List Nat) (spinSym : Bool) :
    readHk ⟨n :: atoms :: d :: p :: rest, num⟩ spinSym = readHk ⟨[n, atoms * (d + p), ig], num⟩ spinSym ∧
    (∀ h : List Nat, h.length < 3 → readHk ⟨h, num⟩ spinSym = none) := by
  refine ⟨rfl, ?_⟩
  intro h hh
  match h with
  | [] => rfl
  | [_] => rfl
  | [_, _] => rfl

end DGA.WanIo
