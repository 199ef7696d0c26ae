/-
  C69: the self-energy has the symmetry of the lattice, and the reduction to the irreducible momenta loses nothing.
-/
import Verif.Pipeline.Success
import Verif.Bz.AnyList

namespace DGA.Pipe

open DGA.Mf DGA.Bz DGA.Bubble DGA.Fp

variable {K : Type} [Field K]

/-- a function on the grid is invariant under the symmetry operations -/
def Invariant {α : Type} (nx ny nz : Nat) (syms : List Sym) (F : Nat → Nat → Nat → α) : Prop :=
  ∀ σ ∈ syms, ∀ p, InGrid nx ny nz p →
    F (image nx ny nz σ p).1 (image nx ny nz σ p).2.1 (image nx ny nz σ p).2.2 = F p.1 p.2.1 p.2.2

/-! ### sums over the grid -/

theorem sum_neg_axis (n : Nat) (f : Nat → K) : ∑ i ∈ Finset.range n, f ((n - i) % n) = ∑ i ∈ Finset.range n, f i := by
  apply Finset.sum_nbij' (fun i => (n - i) % n) (fun i => (n - i) % n)
  · intro i hi; rw [Finset.mem_range] at hi ⊢; exact neg_lt n i hi
  · intro i hi; rw [Finset.mem_range] at hi ⊢; exact neg_lt n i hi
  · intro i hi; rw [Finset.mem_range] at hi; exact Bz.neg_neg n i hi
  · intro i hi; rw [Finset.mem_range] at hi; exact Bz.neg_neg n i hi
  · intro i _; rfl

theorem kSum_congr (nx ny nz : Nat) (F F' : Nat → Nat → Nat → K) (h : ∀ i j k, i < nx → j < ny → k < nz → F i j k = F' i j k) :
    kSum nx ny nz F = kSum nx ny nz F' := by
  unfold kSum
  apply Finset.sum_congr rfl; intro i hi
  apply Finset.sum_congr rfl; intro j hj
  apply Finset.sum_congr rfl; intro k hk
  exact h i j k (Finset.mem_range.1 hi) (Finset.mem_range.1 hj) (Finset.mem_range.1 hk)

/-- a sum over the grid does not change when the summand is evaluated at the image points -/
theorem kSum_image (nx ny nz : Nat) (σ : Sym) (F : Nat → Nat → Nat → K) :
    (kSum nx ny nz fun i j k => F (image nx ny nz σ (i, j, k)).1 (image nx ny nz σ (i, j, k)).2.1 (image nx ny nz σ (i, j, k)).2.2) =
      kSum nx ny nz F := by
  unfold kSum
  cases σ with
  | xInv => exact sum_neg_axis nx fun i => ∑ j ∈ Finset.range ny, ∑ k ∈ Finset.range nz, F i j k
  | yInv =>
    apply Finset.sum_congr rfl; intro i _
    exact sum_neg_axis ny fun j => ∑ k ∈ Finset.range nz, F i j k
  | zInv =>
    apply Finset.sum_congr rfl; intro i _
    apply Finset.sum_congr rfl; intro j _
    exact sum_neg_axis nz fun k => F i j k
  | xySym =>
    simp only [image]
    by_cases h : nx = ny
    · subst h
      simp only [if_true]
      rw [Finset.sum_comm]
    · simp only [if_neg h]
  | xyInv =>
    simp only [image]
    rw [← sum_neg_axis nx fun i => ∑ j ∈ Finset.range ny, ∑ k ∈ Finset.range nz, F i j k]
    apply Finset.sum_congr rfl; intro i _
    exact sum_neg_axis ny fun j => ∑ k ∈ Finset.range nz, F ((nx - i) % nx) j k
  | other _ => rfl

theorem shift_lt (n i : Nat) (q : Int) (h : i < n) : shiftG n i q < n := by
  unfold shiftG
  have h1 := Int.emod_lt_of_pos ((i : Int) + q) (by omega : (0 : Int) < n)
  have h2 := Int.emod_nonneg ((i : Int) + q) (by omega : (n : Int) ≠ 0)
  omega

theorem shift_neg (n i q : Nat) (hi : i < n) (hq : q < n) :
    shiftG n ((n - i) % n) (((n - q) % n : Nat) : Int) = (n - shiftG n i (q : Int)) % n := by
  unfold shiftG
  have e1 : (((i : Int) + (q : Int)) % n).toNat = (i + q) % n := by
    rw [← Nat.cast_add, ← Int.natCast_emod, Int.toNat_natCast]
  have e2 : (((((n - i) % n : Nat) : Int) + ((n - q) % n : Nat)) % n).toNat = ((n - i) % n + (n - q) % n) % n := by
    rw [← Nat.cast_add, ← Int.natCast_emod, Int.toNat_natCast]
  rw [e1, e2, ← Nat.add_mod]
  by_cases h : i + q < n
  · rw [Nat.mod_eq_of_lt h]
    by_cases h0 : i + q = 0
    · have hi0 : i = 0 := by omega
      have hq0 : q = 0 := by omega
      subst hi0 hq0
      simp
    · rw [show n - i + (n - q) = n - (i + q) + n by omega, Nat.add_mod_right]
  · rw [show (i + q) % n = i + q - n by rw [Nat.mod_eq_sub_mod (by omega), Nat.mod_eq_of_lt (by omega)]]
    congr 1
    omega

/-- the images of two points and of their sum -/
theorem image_shift (nx ny nz : Nat) (σ : Sym) (p q : Pt) (hp : InGrid nx ny nz p) (hq : InGrid nx ny nz q) :
    image nx ny nz σ (shiftG nx p.1 (q.1 : Int), shiftG ny p.2.1 (q.2.1 : Int), shiftG nz p.2.2 (q.2.2 : Int)) =
      (shiftG nx (image nx ny nz σ p).1 ((image nx ny nz σ q).1 : Int),
       shiftG ny (image nx ny nz σ p).2.1 ((image nx ny nz σ q).2.1 : Int),
       shiftG nz (image nx ny nz σ p).2.2 ((image nx ny nz σ q).2.2 : Int)) := by
  obtain ⟨i, j, k⟩ := p
  obtain ⟨a, b, c⟩ := q
  obtain ⟨h1, h2, h3⟩ := hp
  obtain ⟨g1, g2, g3⟩ := hq
  simp only at h1 h2 h3 g1 g2 g3
  cases σ with
  | xInv => simp only [image, shift_neg nx i a h1 g1]
  | yInv => simp only [image, shift_neg ny j b h2 g2]
  | zInv => simp only [image, shift_neg nz k c h3 g3]
  | xySym =>
    simp only [image]
    by_cases h : nx = ny
    · subst h; simp
    · simp [h]
  | xyInv => simp only [image, shift_neg nx i a h1 g1, shift_neg ny j b h2 g2]
  | other _ => rfl

/-- the bubble of a symmetric Green's function is symmetric -/
theorem bubQ_image (nx ny nz : Nat) (beta : K) (syms : List Sym) (G : Nat → Nat → Nat → Int → K) (hG : Invariant nx ny nz syms G)
    (σ : Sym) (hσ : σ ∈ syms) (q : Pt) (hq : InGrid nx ny nz q) :
    bubQ nx ny nz beta G (momOf (image nx ny nz σ q)) = bubQ nx ny nz beta G (momOf q) := by
  funext w v
  unfold bubQ
  rw [← kSum_image nx ny nz σ]
  congr 2
  apply kSum_congr
  intro i j k hi hj hk
  have hp : InGrid nx ny nz (i, j, k) := ⟨hi, hj, hk⟩
  have h1 := congrFun (hG σ hσ (i, j, k) hp) v
  have h2 := hG σ hσ (shiftG nx i (q.1 : Int), shiftG ny j (q.2.1 : Int), shiftG nz k (q.2.2 : Int))
    ⟨shift_lt nx i (q.1 : Int) hi, shift_lt ny j (q.2.1 : Int) hj, shift_lt nz k (q.2.2 : Int) hk⟩
  rw [image_shift nx ny nz σ (i, j, k) q hp hq] at h2
  have h2 := congrFun h2 (v - w)
  simp only [momOf] at h1 h2 ⊢
  rw [h1, h2]

theorem bubQ_related (nx ny nz : Nat) (beta : K) (syms : List Sym) (G : Nat → Nat → Nat → Int → K) (hG : Invariant nx ny nz syms G)
    (p q : Pt) (hp : InGrid nx ny nz p) (h : Related nx ny nz syms p q) :
    bubQ nx ny nz beta G (momOf q) = bubQ nx ny nz beta G (momOf p) := by
  induction h with
  | refl => rfl
  | step hs hr ih => rw [bubQ_image nx ny nz beta syms G hG _ hs _ (related_inGrid hp hr), ih]

/-- the index map of the program, as a function of the grid point -/
theorem label_of (nx ny nz : Nat) (syms : List Sym) (m : Arr3 Nat) (hm : fbz2irrk nx ny nz syms = some m) :
    ∃ label : Nat → Nat → Nat → Nat, m = table nx ny nz label ∧
      ∀ p q, InGrid nx ny nz p → InGrid nx ny nz q → label p.1 p.2.1 p.2.2 = label q.1 q.2.1 q.2.2 → Related nx ny nz syms p q :=
  label_any nx ny nz syms m hm

theorem kerQ_congr {c : Nat} (s : Nat) (beta u : K) (lamD lamM : Option K) (ΓD ΓM : Int → Mat (2 * c) K)
    (B : Mom → Int → Int → K) (Bl : Int → Int → K) (q q' : Mom) (h : B q = B q') :
    kerQ s beta u lamD lamM ΓD ΓM B Bl q = kerQ s beta u lamD lamM ΓD ΓM B Bl q' := by
  funext x v
  unfold kerQ CQ VQ DQ XQ
  rw [h]

variable [StarRing K]

omit [StarRing K] in
/-- C62 for a lattice with symmetry: with the index map of any list of symmetry names and a Green's function of that symmetry the
    requirement on the bubble in `dga_self_energy` holds -/
theorem bubble_labels (nx ny nz n niw : Nat) (beta : K) (syms : List Sym) (m : Arr3 Nat)
    (hm : fbz2irrk nx ny nz syms = some m) (G : Nat → Nat → Nat → Int → K) (hG : Invariant nx ny nz syms G) :
    ∃ label : Nat → Nat → Nat → Nat, m = table nx ny nz label ∧
      ∀ i j k i' j' k', i < nx → j < ny → k < nz → i' < nx → j' < ny → k' < nz → label i' j' k' = label i j k →
        ∀ x ∈ Finset.Icc (-(niw : Int)) niw, onBox n (bubQ nx ny nz beta G (i', j', k') x) = onBox n (bubQ nx ny nz beta G (i, j, k) x) := by
  obtain ⟨label, h1, h2⟩ := label_of nx ny nz syms m hm
  refine ⟨label, h1, ?_⟩
  intro i j k i' j' k' hi hj hk hi' hj' hk' hl x _
  have := bubQ_related nx ny nz beta syms G hG (i, j, k) (i', j', k') ⟨hi, hj, hk⟩ (h2 (i, j, k) (i', j', k') ⟨hi, hj, hk⟩ ⟨hi', hj', hk'⟩ hl.symm)
  simp only [momOf] at this
  rw [this]

/-- C69.  The self-energy has the symmetry of the lattice: for any list of symmetry names the grid accepts, a lattice Green's function invariant under
    it and any number of ranks, whatever the program returns takes the same values at symmetry-equivalent momenta. -/
theorem dga_symmetric {c : Nat} (s nx ny nz N niw : Nat) (beta u n : K) (hb : star beta = beta) (hb0 : beta ≠ 0)
    (syms : List Sym) (mp : Arr3 Nat) (hmp : fbz2irrk nx ny nz syms = some mp)
    (G : Nat → Nat → Nat → Int → K) (hinv : Invariant nx ny nz syms G)
    (g : Int → K) (hg : ∀ n : Int, -(N : Int) ≤ n → n < N → g (-n - 1) = star (g n))
    (hG : ∀ i j k, ∀ n : Int, -(N : Int) ≤ n → n < N → G i j k (-n - 1) = star (G i j k n))
    (hfit : niw + (c + s) ≤ N) (G2D G2M : Int → Matrix (Fin (2 * c)) (Fin (2 * c)) K) (lamD lamM : Option K) (siw : List K)
    (R : Nat) (hR : 0 < R) (sig : List (List K))
    (h : dgaSelfEnergy s R nx ny nz (flat3 mp) (objOf true niw beta u G2D) (objOf false niw beta u G2M)
        (genOf nx ny nz N niw beta G g) lamD lamM u n siw = some sig) :
    ∃ Sig : Nat → Nat → Nat → List K, sig = flat3 (table nx ny nz Sig) ∧ Invariant nx ny nz syms Sig := by
  obtain ⟨label, rfl, hlab⟩ := label_of nx ny nz syms mp hmp
  unfold dgaSelfEnergy at h
  cases hl : localSde s (objOf true niw beta u G2D) (objOf false niw beta u G2M) (genOf nx ny nz N niw beta G g) n with
  | none => rw [hl] at h; cases h
  | some r =>
  obtain ⟨d, m, loc⟩ := r
  rw [hl, Option.bind_some] at h
  obtain ⟨ΓD, ΓM, e1, e2⟩ := localSde_gam nx ny nz N niw beta u n hb hb0 G g hg hfit G2D G2M d m loc hl
  obtain ⟨irr, rep, hrep, hlat⟩ := latticeSde_eq s nx ny nz N niw beta u hb G g hg hG hfit ΓD ΓM label lamD lamM
  simp only [e1, e2] at h
  rw [hlat R hR] at h
  split at h
  case isFalse => cases h
  case isTrue =>
  rw [Option.bind_some] at h
  have hB : ∀ q, InGrid nx ny nz q → bubQ nx ny nz beta G (rep (momOf q)) = bubQ nx ny nz beta G (momOf q) := by
    intro q hq
    obtain ⟨i', j', k', b1, b2, b3, b4, b5, _⟩ := hrep q.1 q.2.1 q.2.2 hq.1 hq.2.1 hq.2.2
    rw [b4]
    exact bubQ_related nx ny nz beta syms G hinv q (i', j', k') hq (hlab q (i', j', k') hq ⟨b1, b2, b3⟩ b5.symm)
  -- the lattice part has the symmetry
  generalize hF : (fun (i j k : Nat) => samplesF (fun v => 1 / (((nx * ny * nz : Nat) : K) * beta) *
    kSum nx ny nz fun q1 q2 q3 => ∑ x ∈ Finset.Icc (-(niw : Int)) niw,
      kerQ s beta u lamD lamM ΓD ΓM (bubQ nx ny nz beta G) (bubLoc beta g) (rep (momOf (q1, q2, q3))) x v *
        G (shiftG nx i q1) (shiftG ny j q2) (shiftG nz k q3) (v - x)) c) = F at h
  have hinvF : Invariant nx ny nz syms F := by
    intro σ hσ p hp
    subst hF
    beta_reduce
    congr 1
    funext v
    congr 1
    rw [← kSum_image nx ny nz σ]
    apply kSum_congr
    intro q1 q2 q3 h1 h2 h3
    have hq : InGrid nx ny nz (q1, q2, q3) := ⟨h1, h2, h3⟩
    have hiq := image_inGrid nx ny nz σ (q1, q2, q3) hq
    apply Finset.sum_congr rfl
    intro x _
    have hk : kerQ s beta u lamD lamM ΓD ΓM (bubQ nx ny nz beta G) (bubLoc beta g) (rep (momOf (image nx ny nz σ (q1, q2, q3)))) =
        kerQ s beta u lamD lamM ΓD ΓM (bubQ nx ny nz beta G) (bubLoc beta g) (rep (momOf (q1, q2, q3))) := by
      apply kerQ_congr
      rw [hB _ hiq, hB _ hq, bubQ_image nx ny nz beta syms G hinv σ hσ _ hq]
    have h2' := hinv σ hσ (shiftG nx p.1 (q1 : Int), shiftG ny p.2.1 (q2 : Int), shiftG nz p.2.2 (q3 : Int))
      ⟨shift_lt nx p.1 (q1 : Int) hp.1, shift_lt ny p.2.1 (q2 : Int) hp.2.1, shift_lt nz p.2.2 (q3 : Int) hp.2.2⟩
    rw [image_shift nx ny nz σ p (q1, q2, q3) hp hq] at h2'
    have h2' := congrFun h2' (v - x)
    simp only at h2'
    rw [h2', ← hk]
  obtain ⟨Sig, hSig⟩ : ∃ Sig : List K → Option (List K), ∀ row, assemble row (cutV siw (c : Int)) (cutV loc (c : Int)) (u * n / 2) = Sig row :=
    ⟨_, fun _ => rfl⟩
  simp only [hSig] at h
  rw [flat3_table, List.mapM_map] at h
  obtain ⟨f, hf, hff⟩ := mapM_ex [] _ _ _ h
  refine ⟨fun i j k => (Sig (F i j k)).getD [], ?_, ?_⟩
  · rw [flat3_table, hff]
    apply List.map_congr_left
    intro l hl'
    have := hf l hl'
    simp only [Function.comp] at this
    rw [this]
    rfl
  · intro σ hσ p hp
    beta_reduce
    rw [hinvF σ hσ p hp]

end DGA.Pipe
