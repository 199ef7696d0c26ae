import Verif.Pipeline.Rpa
import Mathlib.Tactic.LinearCombination

namespace DGA.Pipe

open DGA.Mf DGA.Bz DGA.Bubble DGA.Fp

variable {K : Type} [Field K]

/-- C79: the irreducible vertex is determined by the bubble and the core block of the susceptibility (if this block is regular): two
    vertices whose ladders agree on the core are equal -/
theorem vertex_unique {c s : Nat} {beta U : K} {B : Fin (2 * (c + s)) → K} {Γ Γ' : Matrix (Fin (2 * c)) (Fin (2 * c)) K}
    {χ χ' : Matrix (Fin (2 * (c + s))) (Fin (2 * (c + s))) K} (h : Ladder beta U B Γ χ) (h' : Ladder beta U B Γ' χ')
    (hc : ∀ i j, χ (core c s i) (core c s j) = χ' (core c s i) (core c s j)) (Y : Matrix (Fin (2 * c)) (Fin (2 * c)) K)
    (hY : Y * Matrix.of (fun i j => χ (core c s i) (core c s j)) = 1) : Γ = Γ' := by
  unfold Ladder at h h'
  rw [withShell_eq, shell2_eq] at h h'
  have e1 : (Matrix.of (fun i j => χ (core c s i) (core c s j)) : Mat (2 * c) K) = sel c s K * χ * (sel c s K).transpose := by
    rw [← cut2_eq]; rfl
  have e2 : (Matrix.of (fun i j => χ (core c s i) (core c s j)) : Mat (2 * c) K) = sel c s K * χ' * (sel c s K).transpose := by
    rw [← cut2_eq]; ext i j; exact hc i j
  generalize (Matrix.of (fun i j => χ (core c s i) (core c s j)) : Mat (2 * c) K) = X at *
  generalize sel c s K = P at *
  generalize Matrix.diagonal (fun a => 1 / B a) = D at *
  have h2 : (D + ((U / beta ^ 2) • ones _ K + P.transpose * (Γ' + (-(U / beta ^ 2)) • ones _ K) * P)) * χ' = 1 := mul_eq_one_comm.1 h'
  generalize U / beta ^ 2 = k at *
  generalize ones (2 * (c + s)) K = J at *
  generalize ones (2 * c) K = j at *
  have h3 : χ * (P.transpose * (Γ - Γ') * P) * χ' = χ' - χ := by
    have : P.transpose * (Γ - Γ') * P = (D + (k • J + P.transpose * (Γ + (-k) • j) * P)) - (D + (k • J + P.transpose * (Γ' + (-k) • j) * P)) := by
      rw [add_sub_add_left_eq_sub, add_sub_add_left_eq_sub, ← Matrix.sub_mul, ← Matrix.mul_sub, add_sub_add_right_eq_sub]
    rw [this, Matrix.mul_sub, h, Matrix.sub_mul, Matrix.one_mul, Matrix.mul_assoc, h2, Matrix.mul_one]
  have h4 : X * (Γ - Γ') * X = 0 := by
    calc X * (Γ - Γ') * X = (P * χ * P.transpose) * (Γ - Γ') * (P * χ' * P.transpose) := by rw [← e1, ← e2]
      _ = P * (χ * (P.transpose * (Γ - Γ') * P) * χ') * P.transpose := by simp only [Matrix.mul_assoc]
      _ = P * χ' * P.transpose - P * χ * P.transpose := by rw [h3, Matrix.mul_sub, Matrix.sub_mul]
      _ = 0 := by rw [← e1, ← e2, sub_self]
  have hY' : X * Y = 1 := mul_eq_one_comm.1 hY
  have : Γ - Γ' = 0 := by
    calc Γ - Γ' = (Y * X) * (Γ - Γ') * (X * Y) := by rw [hY, hY', Matrix.one_mul, Matrix.mul_one]
      _ = Y * (X * (Γ - Γ') * X) * Y := by simp only [Matrix.mul_assoc]
      _ = 0 := by rw [h4, Matrix.mul_zero, Matrix.zero_mul]
  exact sub_eq_zero.1 this

theorem sum_core_box (c s : Nat) (f : Int → K) : ∑ l, onBox (c + s) f (core c s l) = ∑ l, onBox c f l := by
  apply Finset.sum_congr rfl
  intro l _
  unfold onBox core
  congr 1
  push_cast
  ring

variable [StarRing K]

/-- C79.  Random-phase limit of the complete calculation.  If the measured impurity susceptibilities are those of the bare interaction
    (`U` in the density channel, `-U` in the magnetic channel) and no RPA denominator vanishes, the program returns, for every grid
    labelling compatible with the bubbles, every number of ranks and either choice of lambda correction, at every momentum and frequency
    `S(v) - u²/(2 beta) sum_x (χ_D + χ_M)(x) g(v-x)
       + u²/(beta N) sum_q sum_x (χ_D,q/2 + 3 χ_M,q/2 - χ0_q/(1 - u χ0))(x) G(k+q, v-x)`
    where `χ_D = χ0/(1 + u χ0)`, `χ_M = χ0/(1 - u χ0)` with the impurity bubble, `χ_D,q`, `χ_M,q` the same with the lattice bubble and lambda
    correction. -/
theorem dga_rpa {c : Nat} (s nx ny nz N Ns niw : Nat) (beta u n : K) (hb : star beta = beta) (hb0 : beta ≠ 0)
    (G : Nat → Nat → Nat → Int → K) (g S : Int → K) (hg : ∀ n : Int, -(N : Int) ≤ n → n < N → g (-n - 1) = star (g n))
    (hg0 : ∀ m : Int, -(N : Int) ≤ m → m < N → g m ≠ 0)
    (hG : ∀ i j k, ∀ n : Int, -(N : Int) ≤ n → n < N → G i j k (-n - 1) = star (G i j k n))
    (hfit : niw + (c + s) ≤ N) (hS : c ≤ Ns) (G2D G2M : Int → Matrix (Fin (2 * c)) (Fin (2 * c)) K)
    (label : Nat → Nat → Nat → Nat) (lamD lamM : Option K) (R : Nat) (hR : 0 < R)
    (hD : ∀ x ∈ Finset.Icc (-(niw : Int)) niw, ∀ i j, gchiOf beta g true G2D x i j =
      rpaChi (u / (beta * beta)) (onBox (c + s) (bubLoc beta g x)) (core c s i) (core c s j))
    (hM : ∀ x ∈ Finset.Icc (-(niw : Int)) niw, ∀ i j, gchiOf beta g false G2M x i j =
      rpaChi (-u / (beta * beta)) (onBox (c + s) (bubLoc beta g x)) (core c s i) (core c s j))
    (hL : ∀ x ∈ Finset.Icc (-(niw : Int)) niw, chi0Box (c + s) beta (bubLoc beta g x) ≠ 0 ∧
      1 + u * chi0Box (c + s) beta (bubLoc beta g x) ≠ 0 ∧ 1 - u * chi0Box (c + s) beta (bubLoc beta g x) ≠ 0 ∧
      1 + u * (chi0Box (c + s) beta (bubLoc beta g x) - chi0Box c beta (bubLoc beta g x)) ≠ 0 ∧
      1 - u * (chi0Box (c + s) beta (bubLoc beta g x) - chi0Box c beta (bubLoc beta g x)) ≠ 0)
    (hQ : ∀ q : Mom, ∀ x ∈ Finset.Icc (-(niw : Int)) niw, chi0Box (c + s) beta (bubQ nx ny nz beta G q x) ≠ 0 ∧
      1 + u * chi0Box (c + s) beta (bubQ nx ny nz beta G q x) ≠ 0 ∧ 1 - u * chi0Box (c + s) beta (bubQ nx ny nz beta G q x) ≠ 0 ∧
      ∀ a, onBox (c + s) (bubQ nx ny nz beta G q x) a ≠ 0)
    (hsym : ∀ i j k i' j' k', i < nx → j < ny → k < nz → i' < nx → j' < ny → k' < nz → label i' j' k' = label i j k →
      ∀ x ∈ Finset.Icc (-(niw : Int)) niw, onBox (c + s) (bubQ nx ny nz beta G (i', j', k') x) = onBox (c + s) (bubQ nx ny nz beta G (i, j, k) x)) :
    dgaSelfEnergy s R nx ny nz (flat3 (table nx ny nz label)) (objOf true niw beta u G2D) (objOf false niw beta u G2M)
      (genOf nx ny nz N niw beta G g) lamD lamM u n (samplesF S Ns) =
      some (flat3 (table nx ny nz fun i j k => List.ofFn fun a : Fin (2 * c) =>
        S ((a.val : Int) - c)
        - u ^ 2 / (2 * beta) * ∑ x ∈ Finset.Icc (-(niw : Int)) niw,
            (chi0Box (c + s) beta (bubLoc beta g x) / (1 + u * chi0Box (c + s) beta (bubLoc beta g x)) +
             chi0Box (c + s) beta (bubLoc beta g x) / (1 - u * chi0Box (c + s) beta (bubLoc beta g x))) * g ((a.val : Int) - c - x)
        + u ^ 2 / (((nx * ny * nz : Nat) : K) * beta) * kSum nx ny nz fun q1 q2 q3 => ∑ x ∈ Finset.Icc (-(niw : Int)) niw,
            (withLambda lamD (chi0Box (c + s) beta (bubQ nx ny nz beta G (q1, q2, q3) x) /
                (1 + u * chi0Box (c + s) beta (bubQ nx ny nz beta G (q1, q2, q3) x))) / 2 +
             3 * withLambda lamM (chi0Box (c + s) beta (bubQ nx ny nz beta G (q1, q2, q3) x) /
                (1 - u * chi0Box (c + s) beta (bubQ nx ny nz beta G (q1, q2, q3) x))) / 2 -
             chi0Box (c + s) beta (bubQ nx ny nz beta G (q1, q2, q3) x) / (1 - u * chi0Box (c + s) beta (bubLoc beta g x))) *
              G (shiftG nx i q1) (shiftG ny j q2) (shiftG nz k q3) ((a.val : Int) - c - x))) := by
  have hmem : ∀ x, x ∈ wn niw ↔ x ∈ Finset.Icc (-(niw : Int)) niw := fun x => by rw [mem_wn, Finset.mem_Icc]
  have hBl : ∀ x ∈ Finset.Icc (-(niw : Int)) niw, ∀ m, m ≤ c + s → ∀ a, onBox m (bubLoc beta g x) a ≠ 0 := fun x hx m hm =>
    bubLoc_ne_zero beta hb0 g N niw m hg0 (by omega) x (by rwa [Finset.mem_Icc] at hx)
  have sc : ∀ (v : K) (X : K), 1 + v / (beta * beta) * X = 1 + v * (X / beta ^ 2) := fun v X => by field_simp
  have dc : ∀ (m : Nat) (f : Int → K), (∑ l, onBox m f l) / beta ^ 2 = chi0Box m beta f := fun _ _ => rfl
  have hBc : ∀ q : Mom, ∀ x ∈ Finset.Icc (-(niw : Int)) niw, ∀ a, onBox c (bubQ nx ny nz beta G q x) a ≠ 0 := by
    intro q x hx a
    have := (hQ q x hx).2.2.2 (core c s a)
    intro h0
    apply this
    rw [← h0]
    unfold onBox core
    congr 1
    push_cast
    ring
  -- local vertices
  have neg : ∀ X : K, 1 + -u * X = 1 - u * X := fun X => by ring
  have hΓ : ∀ (dens : Bool) (G2 : Int → Mat (2 * c) K),
      (∀ x ∈ Finset.Icc (-(niw : Int)) niw, ∀ i j, gchiOf beta g dens G2 x i j =
        rpaChi (urOf dens u / (beta * beta)) (onBox (c + s) (bubLoc beta g x)) (core c s i) (core c s j)) →
      ∀ x ∈ wn niw, gamUrangeW (s := s) (Matrix.of (gchiOf beta g dens G2 x)) (onBox (c + s) (bubLoc beta g x)) beta (urOf dens u) =
        some (Matrix.of fun _ _ => urOf dens u / (beta * beta)) := by
    intro dens G2 h x hx
    rw [hmem] at hx
    obtain ⟨_, l1, l2, l3, l4⟩ := hL x hx
    apply gamUrange_rpa _ (hBl x hx (c + s) le_rfl)
    · rw [sc, dc]; cases dens
      · exact (neg _).trans_ne l2
      · exact l1
    · rw [sum_core_box, sc, sub_div, dc, dc]; cases dens
      · exact (neg _).trans_ne l4
      · exact l3
    · exact h x hx
  have hX : ∀ (dens : Bool), ∀ x ∈ wn niw, auxGamW (Matrix.of fun _ _ => urOf dens u / (beta * beta)) (onBox c (bubLoc beta g x)) beta (urOf dens u) =
      some (diag (onBox c (bubLoc beta g x))) := by
    intro dens x hx
    rw [hmem] at hx
    exact auxGam_rpa _ (hBl x hx c (by omega)) _ _
  obtain ⟨sig, hsig⟩ := dga_of s nx ny nz N Ns niw beta u n hb hb0 G g S hg hG hfit hS G2D G2M _ _ _ _ label lamD lamM R hR
    (hΓ true G2D hD) (hX true) (hΓ false G2M hM) (hX false)
    (by
      intro x hx
      rw [hmem] at hx
      show (fob2GamSlice (shell2 s (Matrix.of fun _ _ => -u / (beta * beta)) (-u / beta ^ 2)) _).isSome
      rw [pow_two, shell2_const]
      apply fob_rpa
      rw [sc, dc, neg]
      exact (hL x hx).2.2.1)
    (by
      intro q x hx
      rw [hmem] at hx
      exact ⟨by rw [show urOf true u = u from rfl, auxGam_rpa _ (hBc q x hx)]; rfl,
        by rw [show urOf false u = -u from rfl, auxGam_rpa _ (hBc q x hx)]; rfl⟩)
  rw [hsig]
  obtain ⟨ΓD, ΓM, χD0, χM0, e1, e2⟩ := dga_self_energy s nx ny nz N Ns niw beta u n hb hb0 G g S hg hg0 hG hfit hS G2D G2M label lamD lamM
    (fun i j k _ _ _ x hx => (hQ _ x hx).2.2.2) hsym R hR sig hsig
  -- the ladders are the RPA ones
  have key : ∀ (dens : Bool) (G2 Γ : Int → Mat (2 * c) K) (χ : Int → Mat (2 * (c + s)) K), ∀ x ∈ Finset.Icc (-(niw : Int)) niw,
      (∀ i j, gchiOf beta g dens G2 x i j =
        rpaChi (urOf dens u / (beta * beta)) (onBox (c + s) (bubLoc beta g x)) (core c s i) (core c s j)) →
      Ladder beta (urOf dens u) (onBox (c + s) (bubLoc beta g x)) (Γ x) (χ x) →
      (∀ i j, χ x (core c s i) (core c s j) = gchiOf beta g dens G2 x i j) →
      Γ x = (Matrix.of fun _ _ => urOf dens u / (beta * beta)) ∧ χ x = rpaChi (urOf dens u / (beta * beta)) (onBox (c + s) (bubLoc beta g x)) := by
    intro dens G2 Γ χ x hx h h1 h2
    obtain ⟨_, l1, l2, l3, l4⟩ := hL x hx
    have hDen : 1 + urOf dens u / (beta * beta) * ∑ l, onBox (c + s) (bubLoc beta g x) l ≠ 0 := by
      rw [sc, dc]; cases dens
      · exact (neg _).trans_ne l2
      · exact l1
    have hSh : 1 + urOf dens u / (beta * beta) * (∑ l, onBox (c + s) (bubLoc beta g x) l - ∑ l, onBox (c + s) (bubLoc beta g x) (core c s l)) ≠ 0 := by
      rw [sum_core_box, sc, sub_div, dc, dc]; cases dens
      · exact (neg _).trans_ne l4
      · exact l3
    have hr := rpa_ladder (c := c) (s := s) beta (urOf dens u) _ (hBl x hx (c + s) le_rfl) hDen
    have hc : ∀ i j, χ x (core c s i) (core c s j) =
        rpaChi (urOf dens u / (beta * beta)) (onBox (c + s) (bubLoc beta g x)) (core c s i) (core c s j) := fun i j => (h2 i j).trans (h i j)
    obtain ⟨Y, hY⟩ := rpa_core_inv _ _ (hBl x hx (c + s) le_rfl) hDen hSh (Matrix.of fun i j => χ x (core c s i) (core c s j)) hc
    have hg' := vertex_unique h1 hr hc Y hY
    refine ⟨hg', ?_⟩
    rw [hg'] at h1
    exact ladder_unique h1 hr
  have kD := fun x hx => key true G2D ΓD χD0 x hx (hD x hx) (e1 x hx).1 (e1 x hx).2.1
  have kM := fun x hx => key false G2M ΓM χM0 x hx (hM x hx) (e1 x hx).2.2.1 (e1 x hx).2.2.2.1
  have aD : urOf true u = u := rfl
  have aM : urOf false u = -u := rfl
  rw [aD] at kD
  rw [aM] at kM
  have pL : ∀ x ∈ Finset.Icc (-(niw : Int)) niw,
      phys beta (χD0 x) = chi0Box (c + s) beta (bubLoc beta g x) / (1 + u * chi0Box (c + s) beta (bubLoc beta g x)) ∧
      phys beta (χM0 x) = chi0Box (c + s) beta (bubLoc beta g x) / (1 - u * chi0Box (c + s) beta (bubLoc beta g x)) := by
    intro x hx
    obtain ⟨_, l1, l2, _, _⟩ := hL x hx
    rw [(kD x hx).2, (kM x hx).2, rpa_phys beta u hb0 _ (by rwa [dc]), rpa_phys beta (-u) hb0 _ (by rw [dc, neg]; exact l2), dc, neg]
    exact ⟨rfl, rfl⟩
  have pQ : ∀ (q : Mom), ∀ x ∈ Finset.Icc (-(niw : Int)) niw,
      phys beta (rpaChi (u / (beta * beta)) (onBox (c + s) (bubQ nx ny nz beta G q x))) ≠ 0 ∧
      phys beta (rpaChi (-u / (beta * beta)) (onBox (c + s) (bubQ nx ny nz beta G q x))) ≠ 0 := by
    intro q x hx
    obtain ⟨l0, l1, l2, _⟩ := hQ q x hx
    rw [rpa_phys beta u hb0 _ (by rwa [dc]), rpa_phys beta (-u) hb0 _ (by rw [dc, neg]; exact l2), dc, neg]
    exact ⟨div_ne_zero l0 l1, div_ne_zero l0 l2⟩
  have e3 := e2 (fun x hx => by
      obtain ⟨l0, l1, l2, _, _⟩ := hL x hx
      rw [(pL x hx).1, (pL x hx).2]
      exact ⟨div_ne_zero l0 l1, div_ne_zero l0 l2⟩)
    (fun i j k x => rpaChi (u / (beta * beta)) (onBox (c + s) (bubQ nx ny nz beta G (i, j, k) x)))
    (fun i j k x => rpaChi (-u / (beta * beta)) (onBox (c + s) (bubQ nx ny nz beta G (i, j, k) x)))
    (fun i j k _ _ _ x hx => by
      obtain ⟨l0, l1, l2, l3⟩ := hQ ((i : Int), (j : Int), (k : Int)) x hx
      refine ⟨?_, (pQ _ x hx).1, ?_, (pQ _ x hx).2⟩
      · rw [(kD x hx).1]
        exact rpa_ladder beta u _ l3 (by rwa [sc, dc])
      · rw [(kM x hx).1]
        exact rpa_ladder beta (-u) _ l3 (by rw [sc, dc, neg]; exact l2))
  rw [e3]
  congr 3
  funext i j k
  congr 1
  funext a
  have hvD : ∀ x ∈ Finset.Icc (-(niw : Int)) niw, ∀ b, vertexF (onBox (c + s) (bubLoc beta g x)) (χD0 x) (core c s a) b =
      u / (beta * beta) / (1 + u * chi0Box (c + s) beta (bubLoc beta g x)) := by
    intro x hx b
    rw [(kD x hx).2, rpa_vertex _ _ (hBl x hx (c + s) le_rfl) (by rw [sc, dc]; exact (hL x hx).2.1), sc, dc]
  have hvM : ∀ x ∈ Finset.Icc (-(niw : Int)) niw, ∀ b, vertexF (onBox (c + s) (bubLoc beta g x)) (χM0 x) (core c s a) b =
      -u / (beta * beta) / (1 - u * chi0Box (c + s) beta (bubLoc beta g x)) := by
    intro x hx b
    rw [(kM x hx).2, rpa_vertex _ _ (hBl x hx (c + s) le_rfl) (by rw [sc, dc, neg]; exact (hL x hx).2.2.1), sc, dc, neg]
  have contr : ∀ (v : K) (m : Nat) (f : Int → K), ∑ b, v * onBox m f b = v * beta ^ 2 * chi0Box m beta f := by
    intro v m f
    rw [← Finset.mul_sum, ← dc]
    field_simp
  congr 1
  · congr 1
    unfold locTerm
    rw [show u ^ 2 / (2 * beta) = u / (2 * beta) * u by ring, mul_assoc]
    congr 1
    rw [Finset.mul_sum]
    apply Finset.sum_congr rfl
    intro x hx
    simp only [hvD x hx, hvM x hx]
    rw [contr]
    obtain ⟨_, l1, l2, _, _⟩ := hL x hx
    field_simp
    ring
  · unfold latTerm
    rw [show u ^ 2 / (((nx * ny * nz : Nat) : K) * beta) = 1 / (((nx * ny * nz : Nat) : K) * beta) * u ^ 2 by ring, mul_assoc (1 / _)]
    congr 1
    unfold kSum
    simp only [Finset.mul_sum]
    apply Finset.sum_congr rfl; intro q1 _
    apply Finset.sum_congr rfl; intro q2 _
    apply Finset.sum_congr rfl; intro q3 _
    apply Finset.sum_congr rfl; intro x hx
    obtain ⟨l0, l1, l2, l3⟩ := hQ ((q1 : Int), (q2 : Int), (q3 : Int)) x hx
    rw [rpa_eom beta u hb0 lamD _ l3 (by rwa [dc]), rpa_eom beta (-u) hb0 lamM _ l3 (by rw [dc, neg]; exact l2), dc, neg]
    simp only [hvM x hx]
    rw [← Finset.mul_sum, contr]
    have m2 := (hL x hx).2.2.1
    generalize withLambda lamD _ = X
    generalize withLambda lamM _ = Y
    generalize G _ _ _ _ = Z
    generalize chi0Box (c + s) beta (bubQ nx ny nz beta G (q1, q2, q3) x) = W
    field_simp

end DGA.Pipe
