/-
  Concrete inputs that meet the hypotheses of C61–C63: rational numbers, `beta = u = 1`, impurity Green's function `1`, core box of two and
  full box of four frequencies, bosonic frequencies -1, 0, 1, a chain of two momenta with `G = 1, 2`.  The density vertex is not flat
  at bosonic frequency zero.
-/
import Verif.Pipeline.Symmetry
import Verif.Pipeline.Conj
import Mathlib.Tactic.FinCases
import Mathlib.Tactic.NormNum
import Mathlib.LinearAlgebra.Matrix.Notation

namespace DGA.Pipe.Ex

open DGA.Mf DGA.Bz DGA.Bubble DGA.Fp DGA.Pipe

/-- two-particle Green's function, density channel: the generalized susceptibility is `-3` at `x = 0` and `-1 + 1/3` elsewhere -/
def G2D (x : Int) : Matrix (Fin (2 * 1)) (Fin (2 * 1)) ℚ :=
  if x = 0 then Matrix.of fun i j => (if i = j then -3 else 0) + 2 else Matrix.of fun i j => (if i = j then -1 else 0) + 1 / 3
/-- magnetic channel -/
def G2M (_ : Int) : Matrix (Fin (2 * 1)) (Fin (2 * 1)) ℚ := Matrix.of fun i j => (if i = j then -1 else 0) + 1 / 5
/-- the irreducible vertices -/
def ΓD (x : Int) : Matrix (Fin (2 * 1)) (Fin (2 * 1)) ℚ :=
  if x = 0 then Matrix.of fun i j => (if i = j then 2 / 3 else 0) + 2 else Matrix.of fun _ _ => 1
def ΓM (_ : Int) : Matrix (Fin (2 * 1)) (Fin (2 * 1)) ℚ := Matrix.of fun _ _ => -1
def XD (x : Int) : Matrix (Fin (2 * 1)) (Fin (2 * 1)) ℚ :=
  if x = 0 then Matrix.of fun i j => (if i = j then -3 else 0) + 9 / 5 else Matrix.of fun i j => if i = j then -1 else 0
def XM (_ : Int) : Matrix (Fin (2 * 1)) (Fin (2 * 1)) ℚ := Matrix.of fun i j => if i = j then -1 else 0

def g (_ : Int) : ℚ := 1
def G (i _ _ : Nat) (_ : Int) : ℚ := if i = 0 then 1 else 2


def xD00 : Matrix (Fin 4) (Fin 4) ℚ := !![(-6), 3, 3, (-5); 3, (-3), 0, 3; 3, 0, (-3), 3; (-5), 3, 3, (-6)]
def xD01 : Matrix (Fin 4) (Fin 4) ℚ := !![(-105/212), (-75/212), (-75/212), (425/212); (-75/212), (915/424), (-675/424), (-75/212); (-75/212), (-675/424), (915/424), (-75/212); (425/212), (-75/212), (-75/212), (-105/212)]
def xD02 : Matrix (Fin 4) (Fin 4) ℚ := !![(-2/27), (-4/9), (-4/9), (52/27); (-4/9), (10/3), (-8/3), (-4/9); (-4/9), (-8/3), (10/3), (-4/9); (52/27), (-4/9), (-4/9), (-2/27)]
def xD0 : Matrix (Fin 4) (Fin 4) ℚ := !![(-2/3), (1/3), (1/3), (1/3); (1/3), (-2/3), (1/3), (1/3); (1/3), (1/3), (-2/3), (1/3); (1/3), (1/3), (1/3), (-2/3)]
def xD1 : Matrix (Fin 4) (Fin 4) ℚ := !![(-65/36), (25/36), (25/36), (25/36); (25/36), (-65/36), (25/36), (25/36); (25/36), (25/36), (-65/36), (25/36); (25/36), (25/36), (25/36), (-65/36)]
def xD2 : Matrix (Fin 4) (Fin 4) ℚ := !![(-10/7), (4/7), (4/7), (4/7); (4/7), (-10/7), (4/7), (4/7); (4/7), (4/7), (-10/7), (4/7); (4/7), (4/7), (4/7), (-10/7)]
def xM0 : Matrix (Fin 4) (Fin 4) ℚ := !![(-4/5), (1/5), (1/5), (1/5); (1/5), (-4/5), (1/5), (1/5); (1/5), (1/5), (-4/5), (1/5); (1/5), (1/5), (1/5), (-4/5)]
def xM1 : Matrix (Fin 4) (Fin 4) ℚ := !![(-85/44), (25/44), (25/44), (25/44); (25/44), (-85/44), (25/44), (25/44); (25/44), (25/44), (-85/44), (25/44); (25/44), (25/44), (25/44), (-85/44)]
def xM2 : Matrix (Fin 4) (Fin 4) ℚ := !![(-14/9), (4/9), (4/9), (4/9); (4/9), (-14/9), (4/9), (4/9); (4/9), (4/9), (-14/9), (4/9); (4/9), (4/9), (4/9), (-14/9)]

theorem mdec {n : Nat} (A B : Mat n ℚ) (h : decide ((A : Matrix (Fin n) (Fin n) ℚ) = B) = true) : A = B := of_decide_eq_true h

theorem box_loc (n : Nat) (x : Int) : onBox n (bubLoc 1 g x) = fun _ => -1 := by
  funext a
  simp [onBox, bubLoc, g]

theorem gam_D (x : Int) : gamUrangeW (c := 1) (s := 1) (Matrix.of (gchiOf 1 g true G2D x)) (onBox (1 + 1) (bubLoc 1 g x)) 1 1 = some (ΓD x) := by
  rw [box_loc]
  unfold gamUrangeW
  rw [(inv?_iff _ (Matrix.of fun i j => (if i = j then -1 else 0) + 1 / 3)).2 (mdec _ _ (by decide +kernel)), Option.bind_some,
    (inv?_iff _ (Matrix.of fun i j => (if i = j then -1 else 0) - 1)).2 (mdec _ _ (by decide +kernel)), Option.bind_some]
  by_cases h : x = 0
  · subst h
    rw [(inv?_iff _ (Matrix.of fun i j => if i = j then -1 / 3 else 0)).2 (mdec _ _ (by decide +kernel)), Option.map_some]
    congr 1
    exact mdec _ _ (by decide +kernel)
  · have e : (Matrix.of (gchiOf 1 g true G2D x) : Mat (2 * 1) ℚ) = Matrix.of fun i j => (if i = j then -1 else 0) + 1 / 3 := by
      ext i j
      simp [gchiOf, G2D, h]
    rw [e, (inv?_iff _ (Matrix.of fun i j => (if i = j then -1 else 0) - 1)).2 (mdec _ _ (by decide +kernel)), Option.map_some]
    congr 1
    unfold ΓD
    rw [if_neg h]
    exact mdec _ _ (by decide +kernel)

theorem gam_M (x : Int) : gamUrangeW (c := 1) (s := 1) (Matrix.of (gchiOf 1 g false G2M x)) (onBox (1 + 1) (bubLoc 1 g x)) 1 (-1) = some (ΓM x) := by
  rw [box_loc]
  unfold gamUrangeW
  have e : (Matrix.of (gchiOf 1 g false G2M x) : Mat (2 * 1) ℚ) = Matrix.of fun i j => (if i = j then -1 else 0) + 1 / 5 := by
    ext i j
    simp [gchiOf, G2M]
  rw [e, (inv?_iff _ (Matrix.of fun i j => (if i = j then -1 else 0) + 1 / 5)).2 (mdec _ _ (by decide +kernel)), Option.bind_some,
    (inv?_iff _ (Matrix.of fun i j => (if i = j then -1 else 0) - 1 / 3)).2 (mdec _ _ (by decide +kernel)), Option.bind_some,
    (inv?_iff _ (Matrix.of fun i j => (if i = j then -1 else 0) - 1 / 3)).2 (mdec _ _ (by decide +kernel)), Option.map_some]
  congr 1
  unfold ΓM
  exact mdec _ _ (by decide +kernel)

/-- a bubble of the examples: one of four values -/
def IsB (b : ℚ) : Prop := b = -1 ∨ b = -5 / 2 ∨ b = -2 ∨ b = -3

theorem aux_D (x : Int) (b : ℚ) (hb : IsB b) : (auxGamW (ΓD x) (fun _ => b) 1 1).isSome := by
  rw [Option.isSome_iff_exists]
  unfold auxGamW
  by_cases h : x = 0
  · subst h
    rcases hb with rfl | rfl | rfl | rfl
    · exact ⟨Matrix.of fun i j => (if i = j then -3 else 0) + 9 / 5, (inv?_iff _ _).2 (mdec _ _ (by decide +kernel))⟩
    · exact ⟨Matrix.of fun i j => (if i = j then 15 / 4 else 0) - 225 / 136, (inv?_iff _ _).2 (mdec _ _ (by decide +kernel))⟩
    · exact ⟨Matrix.of fun i j => (if i = j then 6 else 0) - 36 / 13, (inv?_iff _ _).2 (mdec _ _ (by decide +kernel))⟩
    · exact ⟨Matrix.of fun i j => (if i = j then 3 else 0) - 9 / 7, (inv?_iff _ _).2 (mdec _ _ (by decide +kernel))⟩
  · unfold ΓD
    rw [if_neg h]
    refine ⟨Matrix.of fun i j => if i = j then b else 0, (inv?_iff _ _).2 ?_⟩
    rcases hb with rfl | rfl | rfl | rfl <;> exact mdec _ _ (by decide +kernel)

theorem aux_M (x : Int) (b : ℚ) (hb : IsB b) : (auxGamW (ΓM x) (fun _ => b) 1 (-1)).isSome := by
  rw [Option.isSome_iff_exists]
  unfold auxGamW ΓM
  refine ⟨Matrix.of fun i j => if i = j then b else 0, (inv?_iff _ _).2 ?_⟩
  rcases hb with rfl | rfl | rfl | rfl <;> exact mdec _ _ (by decide +kernel)

theorem aux_loc_D (x : Int) : auxGamW (ΓD x) (onBox 1 (bubLoc 1 g x)) 1 1 = some (XD x) := by
  rw [box_loc]
  unfold auxGamW
  rw [inv?_iff]
  unfold ΓD XD
  split <;> exact mdec _ _ (by decide +kernel)

theorem aux_loc_M (x : Int) : auxGamW (ΓM x) (onBox 1 (bubLoc 1 g x)) 1 (-1) = some (XM x) := by
  rw [box_loc]
  unfold auxGamW
  rw [inv?_iff]
  unfold ΓM XM
  exact mdec _ _ (by decide +kernel)

theorem fob_M (x : Int) : (fob2GamSlice (shell2 1 (ΓM x) (-1 / 1 ^ 2)) (onBox (1 + 1) (bubLoc 1 g x))).isSome := by
  rw [box_loc]
  unfold fob2GamSlice ΓM
  rw [(inv?_iff _ (Matrix.of fun i j => (if i = j then 1 else 0) - 1 / 5)).2 (mdec _ _ (by decide +kernel))]
  rfl

theorem bub_lat (n : Nat) (q : Mom) (x : Int) :
    onBox n (bubQ 2 1 1 1 G q x) = fun _ => if q.1 % 2 = 0 then (-5 / 2 : ℚ) else -2 := by
  funext a
  have h : q.1 % 2 = 0 ∨ q.1 % 2 = 1 := by omega
  have e1 : ((q.1 : Int) % 2).toNat = if q.1 % 2 = 0 then 0 else 1 := by
    split <;> omega
  have e2 : ((1 + q.1 : Int) % 2).toNat = if q.1 % 2 = 0 then 1 else 0 := by
    split <;> omega
  unfold onBox bubQ kSum
  simp only [Finset.sum_range_succ, Finset.sum_range_zero, shiftG, G]
  push_cast
  simp only [zero_add, e1, e2]
  rcases h with h | h
  · simp [h]
    norm_num
  · simp [h]

theorem bub_isB (q : Mom) : IsB (if q.1 % 2 = 0 then (-5 / 2 : ℚ) else -2) := by
  split
  · exact .inr (.inl rfl)
  · exact .inr (.inr (.inl rfl))

/-- the calculation of the example returns a result on three ranks -/
theorem returns (lamD lamM : Option ℚ) (n : ℚ) (S : Int → ℚ) :
    ∃ sig, dgaSelfEnergy 1 3 2 1 1 (flat3 (table 2 1 1 fun i _ _ => i)) (objOf true 1 1 1 G2D) (objOf false 1 1 1 G2M)
      (genOf 2 1 1 3 1 1 G g) lamD lamM 1 n (samplesF S 2) = some sig := by
  refine dga_of 1 2 1 1 3 2 1 1 1 n rfl one_ne_zero G g S (fun _ _ _ => rfl) (fun _ _ _ _ _ _ => rfl) (by decide) (by decide)
    G2D G2M ΓD ΓM XD XM _ lamD lamM 3 (by decide) (fun x _ => gam_D x) (fun x _ => aux_loc_D x) (fun x _ => gam_M x)
    (fun x _ => aux_loc_M x) (fun x _ => fob_M x) ?_
  intro q x _
  rw [bub_lat]
  exact ⟨aux_D x _ (bub_isB q), aux_M x _ (bub_isB q)⟩

/-- lattice ladder of the example -/
def χD (i _ _ : Nat) (x : Int) : Matrix (Fin (2 * (1 + 1))) (Fin (2 * (1 + 1))) ℚ :=
  if x = 0 then (if i % 2 = 0 then xD01 else xD02) else (if i % 2 = 0 then xD1 else xD2)
def χM (i _ _ : Nat) (_ : Int) : Matrix (Fin (2 * (1 + 1))) (Fin (2 * (1 + 1))) ℚ := if i % 2 = 0 then xM1 else xM2

theorem ladder_ex (i j k : Nat) (x : Int) :
    Ladder 1 1 (onBox (1 + 1) (bubQ 2 1 1 1 G ((i : Int), (j : Int), (k : Int)) x)) (ΓD x) (χD i j k x) ∧ phys 1 (χD i j k x) ≠ 0 ∧
    Ladder 1 (-1) (onBox (1 + 1) (bubQ 2 1 1 1 G ((i : Int), (j : Int), (k : Int)) x)) (ΓM x) (χM i j k x) ∧ phys 1 (χM i j k x) ≠ 0 := by
  rw [bub_lat]
  unfold Ladder ΓD ΓM χD χM
  have hi : ((i : Int) % 2 = 0) = (i % 2 = 0) := by rw [eq_iff_iff]; omega
  simp only [hi]
  split <;> split <;> refine ⟨?_, ?_, ?_, ?_⟩ <;>
    decide +kernel

/-- impurity ladder of the example -/
theorem ladder_loc (x : Int) :
    Ladder 1 1 (onBox (1 + 1) (bubLoc 1 g x)) (ΓD x) (if x = 0 then xD00 else xD0 : Matrix (Fin (2 * (1 + 1))) (Fin (2 * (1 + 1))) ℚ) ∧
    phys 1 (if x = 0 then xD00 else xD0) ≠ 0 ∧
    Ladder 1 (-1) (onBox (1 + 1) (bubLoc 1 g x)) (ΓM x) (xM0 : Matrix (Fin (2 * (1 + 1))) (Fin (2 * (1 + 1))) ℚ) ∧ phys 1 xM0 ≠ 0 := by
  rw [box_loc]
  unfold Ladder ΓD ΓM
  split <;> refine ⟨?_, ?_, ?_, ?_⟩ <;>
    decide +kernel

/-- C61, C62: all hypotheses hold together for a concrete calculation on three ranks with a lambda correction in both channels, so the
    result is the formula (the ladders that enter it exist: `ladder_ex`, `ladder_loc`) -/
example : ∃ sig, dgaSelfEnergy 1 3 2 1 1 (flat3 (table 2 1 1 fun i _ _ => i)) (objOf true 1 1 1 G2D) (objOf false 1 1 1 G2M)
      (genOf 2 1 1 3 1 1 G g) (some (1 / 7)) (some (1 / 3)) 1 (9 / 10) (samplesF (fun v => (v : ℚ)) 2) = some sig ∧
    ∃ (ΓD ΓM : Int → Matrix (Fin (2 * 1)) (Fin (2 * 1)) ℚ) (χD0 χM0 : Int → Matrix (Fin (2 * (1 + 1))) (Fin (2 * (1 + 1))) ℚ),
      ∀ x ∈ Finset.Icc (-((1 : Nat) : Int)) (1 : Nat), Ladder 1 1 (onBox (1 + 1) (bubLoc 1 g x)) (ΓD x) (χD0 x) ∧
        Ladder 1 (-1) (onBox (1 + 1) (bubLoc 1 g x)) (ΓM x) (χM0 x) := by
  obtain ⟨sig, h⟩ := returns (some (1 / 7)) (some (1 / 3)) (9 / 10) fun v => (v : ℚ)
  refine ⟨sig, h, ?_⟩
  obtain ⟨ΓD, ΓM, χD0, χM0, h1, _⟩ := dga_self_energy 1 2 1 1 3 2 1 1 1 (9 / 10) rfl one_ne_zero G g (fun v => (v : ℚ)) (fun _ _ _ => rfl)
    (fun _ _ _ => one_ne_zero) (fun _ _ _ _ _ _ => rfl) (by decide) (by decide) G2D G2M (fun i _ _ => i) (some (1 / 7)) (some (1 / 3))
    (fun i j k _ _ _ x _ a => by rw [bub_lat]; beta_reduce; split <;> norm_num)
    (fun i j k i' j' k' _ hj hk _ hj' hk' hl x _ => by
      obtain rfl : i' = i := hl
      obtain rfl : j' = j := by omega
      obtain rfl : k' = k := by omega
      rfl) 3 (by decide) sig h
  exact ⟨ΓD, ΓM, χD0, χM0, fun x hx => ⟨(h1 x hx).1, (h1 x hx).2.2.1⟩⟩

/-- C63: a momentum-independent lattice Green's function, grid of 2×2 momenta labelled as one point, five ranks -/
example : ∃ sig, dgaSelfEnergy 1 5 2 2 1 (flat3 (table 2 2 1 fun _ _ _ => 0)) (objOf true 1 1 1 G2D) (objOf false 1 1 1 G2M)
      (genOf 2 2 1 3 1 1 (fun _ _ _ => g) g) none none 1 (9 / 10) (samplesF (fun v => (v : ℚ)) 2) = some sig := by
  have hb : ∀ (n : Nat) (q : Mom) (x : Int), onBox n (bubQ 2 2 1 1 (fun _ _ _ => g) q x) = fun _ => -1 := by
    intro n q x
    rw [← box_loc n x]
    funext a
    exact bubQ_const 2 2 1 (by norm_num) 1 g q x _
  refine dga_of 1 2 2 1 3 2 1 1 1 (9 / 10) rfl one_ne_zero (fun _ _ _ => g) g (fun v => (v : ℚ)) (fun _ _ _ => rfl) (fun _ _ _ _ _ _ => rfl)
    (by decide) (by decide) G2D G2M ΓD ΓM XD XM _ none none 5 (by decide) (fun x _ => gam_D x) (fun x _ => aux_loc_D x)
    (fun x _ => gam_M x) (fun x _ => aux_loc_M x) (fun x _ => fob_M x) ?_
  intro q x _
  rw [hb]
  exact ⟨aux_D x _ (.inl rfl), aux_M x _ (.inl rfl)⟩

/-- a Green's function on the 2×2 square lattice, symmetric under `k_x ↔ k_y` but not under all permutations of the momenta -/
def Gs (i j _ : Nat) (_ : Int) : ℚ := if i = 1 ∧ j = 1 then 3 else 1

theorem bub_square (n : Nat) (q : Mom) (x : Int) :
    onBox n (bubQ 2 2 1 1 Gs q x) = fun _ => if q.1 % 2 = 0 ∧ q.2.1 % 2 = 0 then (-3 : ℚ) else -2 := by
  funext a
  have h : q.1 % 2 = 0 ∨ q.1 % 2 = 1 := by omega
  have h' : q.2.1 % 2 = 0 ∨ q.2.1 % 2 = 1 := by omega
  have e1 : (q.1 % 2).toNat = if q.1 % 2 = 0 then 0 else 1 := by split <;> omega
  have e2 : ((1 + q.1) % 2).toNat = if q.1 % 2 = 0 then 1 else 0 := by split <;> omega
  have e3 : (q.2.1 % 2).toNat = if q.2.1 % 2 = 0 then 0 else 1 := by split <;> omega
  have e4 : ((1 + q.2.1) % 2).toNat = if q.2.1 % 2 = 0 then 1 else 0 := by split <;> omega
  unfold onBox bubQ kSum
  simp only [Finset.sum_range_succ, Finset.sum_range_zero, shiftG, Gs]
  push_cast
  simp only [zero_add, e1, e2, e3, e4]
  rcases h with h | h <;> rcases h' with h' | h' <;> simp [h, h'] <;> norm_num

/-- C69: the hypotheses hold for a concrete calculation on the square lattice -/
example : ∃ mp sig, square ∈ predefined ∧ fbz2irrk 2 2 1 square = some mp ∧ Invariant 2 2 1 square Gs ∧
    dgaSelfEnergy 1 3 2 2 1 (flat3 mp) (objOf true 1 1 1 G2D) (objOf false 1 1 1 G2M)
      (genOf 2 2 1 3 1 1 Gs g) none (some (1 / 3)) 1 (9 / 10) (samplesF (fun v => (v : ℚ)) 2) = some sig := by
  obtain ⟨mp, hmp, _⟩ := irrk_representative 2 2 1 square (by decide)
  obtain ⟨label, hl, _⟩ := label_of 2 2 1 square mp hmp
  subst hl
  obtain ⟨sig, h⟩ := dga_of 1 2 2 1 3 2 1 1 1 (9 / 10) rfl one_ne_zero Gs g (fun v => (v : ℚ)) (fun _ _ _ => rfl) (fun _ _ _ _ _ _ => rfl)
    (by decide) (by decide) G2D G2M ΓD ΓM XD XM label none (some (1 / 3)) 3 (by decide) (fun x _ => gam_D x) (fun x _ => aux_loc_D x)
    (fun x _ => gam_M x) (fun x _ => aux_loc_M x) (fun x _ => fob_M x) (by
      intro q x _
      rw [bub_square]
      have : IsB (if q.1 % 2 = 0 ∧ q.2.1 % 2 = 0 then (-3 : ℚ) else -2) := by
        split
        · exact .inr (.inr (.inr rfl))
        · exact .inr (.inr (.inl rfl))
      exact ⟨aux_D x _ this, aux_M x _ this⟩)
  refine ⟨_, sig, by decide, hmp, ?_, h⟩
  intro σ hσ p hp
  obtain ⟨i, j, k⟩ := p
  obtain ⟨h1, h2, _⟩ := hp
  simp only at h1 h2
  funext v
  simp only [square, List.mem_cons, List.not_mem_nil, or_false] at hσ
  have h1' : i = 0 ∨ i = 1 := by omega
  have h2' : j = 0 ∨ j = 1 := by omega
  rcases hσ with rfl | rfl | rfl <;> rcases h1' with rfl | rfl <;> rcases h2' with rfl | rfl <;> simp [Bz.image, Gs]

/-- C70: the hypotheses hold for a concrete calculation (real data, even in the frequency, so that `conj` is the identity), with a
    frequency-dependent self-energy -/
example : ∃ sig, (∀ x ∈ Finset.Icc (-((1 : Nat) : Int)) (1 : Nat), ∀ i j, G2D (-x) i.rev j.rev = star (G2D x i j)) ∧
    (∀ x ∈ Finset.Icc (-((1 : Nat) : Int)) (1 : Nat), ∀ i j, G2M (-x) i.rev j.rev = star (G2M x i j)) ∧
    (∀ n : Int, (fun v : Int => (2 * (v : ℚ) + 1) ^ 2) (-n - 1) = star ((fun v : Int => (2 * (v : ℚ) + 1) ^ 2) n)) ∧
    dgaSelfEnergy 1 3 2 1 1 (flat3 (table 2 1 1 fun i _ _ => i)) (objOf true 1 1 1 G2D) (objOf false 1 1 1 G2M)
      (genOf 2 1 1 3 1 1 G g) (some (1 / 7)) (some (1 / 3)) 1 (9 / 10) (samplesF (fun v : Int => (2 * (v : ℚ) + 1) ^ 2) 2) = some sig := by
  obtain ⟨sig, h⟩ := returns (some (1 / 7)) (some (1 / 3)) (9 / 10) fun v : Int => (2 * (v : ℚ) + 1) ^ 2
  refine ⟨sig, by decide +kernel, by decide +kernel, ?_, h⟩
  intro n
  simp only [star_trivial]
  push_cast
  ring

end DGA.Pipe.Ex
