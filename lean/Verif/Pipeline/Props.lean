/-
  C62, C63: the complete calculation.
-/
import Verif.Pipeline.Lattice

namespace DGA.Pipe

open DGA.Mf DGA.Bz DGA.Bubble DGA.Fp

variable {K : Type} [Field K] [StarRing K]

/-- the vertices `local_sde_from_g2` hands on are full objects of the two channels -/
theorem localSde_gam {c s : Nat} (nx ny nz N niw : Nat) (beta u n : K) (hb : star beta = beta) (hb0 : beta ≠ 0)
    (G : Nat → Nat → Nat → Int → K) (g : Int → K) (hg : ∀ m : Int, -(N : Int) ≤ m → m < N → g (-m - 1) = star (g m))
    (hfit : niw + (c + s) ≤ N) (G2D G2M : Int → Mat (2 * c) K) (d m : Chan (2 * c) K) (siw : List K)
    (h : localSde s (objOf true niw beta u G2D) (objOf false niw beta u G2M) (genOf nx ny nz N niw beta G g) n = some (d, m, siw)) :
    ∃ ΓD ΓM : Int → Mat (2 * c) K, d.gam = objOf true niw beta u ΓD ∧ m.gam = objOf false niw beta u ΓM := by
  unfold localSde at h
  rw [gchi0_gen nx ny nz N niw beta hb G g hg (c + s) (by omega), Option.bind_some, mapM_toVec, Option.bind_some] at h
  cases hd : localChannel s (objOf true niw beta u G2D) (genOf nx ny nz N niw beta G g)
      ((wn niw).map fun (x : Int) => onBox (c + s) (bubLoc beta g x)) with
  | none => rw [hd] at h; simp at h
  | some d' =>
  rw [hd, Option.bind_some] at h
  cases hm : localChannel s (objOf false niw beta u G2M) (genOf nx ny nz N niw beta G g)
      ((wn niw).map fun (x : Int) => onBox (c + s) (bubLoc beta g x)) with
  | none => rw [hm] at h; simp at h
  | some m' =>
  rw [hm, Option.bind_some] at h
  obtain ⟨ΓD, XD, hΓD, hXD, hdv⟩ := localChannel_spec nx ny nz N niw true beta u hb hb0 G g hg hfit G2D d' hd
  obtain ⟨ΓM, XM, hΓM, hXM, hmv⟩ := localChannel_spec nx ny nz N niw false beta u hb hb0 G g hg hfit G2M m' hm
  refine ⟨ΓD, ΓM, ?_⟩
  rw [Option.map_eq_some_iff] at h
  obtain ⟨a, _, h⟩ := h
  rw [Prod.mk.injEq, Prod.mk.injEq] at h
  obtain ⟨rfl, rfl, _⟩ := h
  subst hdv hmv
  exact ⟨rfl, rfl⟩

/-- C62.  The number of ranks does not matter: whatever number of processes the calculation is started with, the result — including
    the failure of an inversion — is the same. -/
theorem dga_rank_independent {c : Nat} (s nx ny nz N niw : Nat) (beta u n : K) (hb : star beta = beta) (hb0 : beta ≠ 0)
    (G : Nat → Nat → Nat → Int → K) (g : Int → K) (hg : ∀ n : Int, -(N : Int) ≤ n → n < N → g (-n - 1) = star (g n))
    (hG : ∀ i j k, ∀ n : Int, -(N : Int) ≤ n → n < N → G i j k (-n - 1) = star (G i j k n))
    (hfit : niw + (c + s) ≤ N) (G2D G2M : Int → Mat (2 * c) K) (label : Nat → Nat → Nat → Nat) (lamD lamM : Option K) (siw : List K)
    (R R' : Nat) (hR : 0 < R) (hR' : 0 < R') :
    dgaSelfEnergy s R nx ny nz (flat3 (table nx ny nz label)) (objOf true niw beta u G2D) (objOf false niw beta u G2M)
        (genOf nx ny nz N niw beta G g) lamD lamM u n siw =
      dgaSelfEnergy s R' nx ny nz (flat3 (table nx ny nz label)) (objOf true niw beta u G2D) (objOf false niw beta u G2M)
        (genOf nx ny nz N niw beta G g) lamD lamM u n siw := by
  unfold dgaSelfEnergy
  cases h : localSde s (objOf true niw beta u G2D) (objOf false niw beta u G2M) (genOf nx ny nz N niw beta G g) n with
  | none => rfl
  | some r =>
    obtain ⟨d, m, loc⟩ := r
    obtain ⟨ΓD, ΓM, e1, e2⟩ := localSde_gam nx ny nz N niw beta u n hb hb0 G g hg hfit G2D G2M d m loc h
    rw [Option.bind_some, Option.bind_some]
    simp only [e1, e2]
    obtain ⟨irr, rep, _, h3⟩ := latticeSde_eq s nx ny nz N niw beta u hb G g hg hG hfit ΓD ΓM label lamD lamM
    rw [h3 R hR, h3 R' hR']

/-! ### specification of the result -/

/-- impurity part of the equation of motion at core frequency `a` (without Hartree term):
    `u/(2 beta) sum_x sum_b (F_D - F_M)(a,b) B_x(b) g(a-x)` -/
def locTerm {c s : Nat} (niw : Nat) (beta u : K) (g : Int → K) (χD χM : Int → Matrix (Fin (2 * (c + s))) (Fin (2 * (c + s))) K)
    (a : Fin (2 * c)) : K :=
  u / (2 * beta) * ∑ x ∈ Finset.Icc (-(niw : Int)) niw,
    (∑ b, (vertexF (onBox (c + s) (bubLoc beta g x)) (χD x) (core c s a) b -
        vertexF (onBox (c + s) (bubLoc beta g x)) (χM x) (core c s a) b) * onBox (c + s) (bubLoc beta g x) b) * g ((a.val : Int) - c - x)

/-- lattice part at momentum `(i,j,k)` and core frequency `a`: density channel plus three times the magnetic channel minus the
    impurity vertex in the magnetic channel (double counting), each contracted with `G(k+q, v-x)` -/
def latTerm {c s : Nat} (nx ny nz niw : Nat) (beta u : K) (lamD lamM : Option K) (G : Nat → Nat → Nat → Int → K) (g : Int → K)
    (χM0 : Int → Matrix (Fin (2 * (c + s))) (Fin (2 * (c + s))) K)
    (χD χM : Nat → Nat → Nat → Int → Matrix (Fin (2 * (c + s))) (Fin (2 * (c + s))) K) (i j k : Nat) (a : Fin (2 * c)) : K :=
  1 / (((nx * ny * nz : Nat) : K) * beta) * kSum nx ny nz fun q1 q2 q3 => ∑ x ∈ Finset.Icc (-(niw : Int)) niw,
    (eomTerm beta u lamD (onBox (c + s) (bubQ nx ny nz beta G (q1, q2, q3) x)) (χD q1 q2 q3 x) (core c s a) +
      3 * eomTerm beta (-u) lamM (onBox (c + s) (bubQ nx ny nz beta G (q1, q2, q3) x)) (χM q1 q2 q3 x) (core c s a) -
      -u * ∑ b, vertexF (onBox (c + s) (bubLoc beta g x)) (χM0 x) (core c s a) b *
        onBox (c + s) (bubQ nx ny nz beta G (q1, q2, q3) x) b) *
      G (shiftG nx i q1) (shiftG ny j q2) (shiftG nz k q3) ((a.val : Int) - c - x)

omit [StarRing K] in
theorem FL_value {c : Nat} (s : Nat) (beta ur : K) (Γ : Int → Mat (2 * c) K) (Bl : Int → Int → K) (x : Int)
    (hB : ∀ a, onBox (c + s) (Bl x) a ≠ 0) (chi : Mat (2 * (c + s)) K) (h : Ladder beta ur (onBox (c + s) (Bl x)) (Γ x) chi)
    (a b : Fin (2 * (c + s))) : FL s beta ur Γ Bl x a b = vertexF (onBox (c + s) (Bl x)) chi a b := by
  unfold FL
  rw [fob2GamSlice_eq _ chi _ hB ((ladder_iff _ _ _ _ _).1 h), Option.getD_some]
  unfold fob2Slice vertexF diag
  rw [Matrix.of_apply, Matrix.of_apply]
  congr 1
  have : ∀ p y r : K, 1 / p * y * 1 / r = y / (p * r) := fun p y r => by
    rw [mul_one, one_div, div_eq_mul_inv, div_eq_mul_inv, mul_inv]; ring
  exact this _ _ _

omit [StarRing K] in
/-- the kernel of the program at one momentum and frequency is the kernel of the specification -/
theorem kerQ_value {c : Nat} (s : Nat) (beta u : K) (hb0 : beta ≠ 0) (lamD lamM : Option K) (ΓD ΓM : Int → Mat (2 * c) K)
    (B : Mom → Int → Int → K) (Bl : Int → Int → K) (q : Mom) (x : Int) (Bq : Vec (2 * (c + s)) K) (hBq : onBox (c + s) (B q x) = Bq)
    (hne : ∀ a, Bq a ≠ 0) (hne0 : ∀ a, onBox (c + s) (Bl x) a ≠ 0)
    (hokD : (auxGamW (ΓD x) (onBox c (B q x)) beta u).isSome) (hokM : (auxGamW (ΓM x) (onBox c (B q x)) beta (-u)).isSome)
    (χD χM χM0 : Mat (2 * (c + s)) K) (hD : Ladder beta u Bq (ΓD x) χD) (hM : Ladder beta (-u) Bq (ΓM x) χM)
    (hM0 : Ladder beta (-u) (onBox (c + s) (Bl x)) (ΓM x) χM0) (hpD : phys beta χD ≠ 0) (hpM : phys beta χM ≠ 0) (a : Fin (2 * c)) :
    kerQ s beta u lamD lamM ΓD ΓM B Bl q x ((a.val : Int) - c) =
      eomTerm beta u lamD Bq χD (core c s a) + 3 * eomTerm beta (-u) lamM Bq χM (core c s a) -
        -u * ∑ b, vertexF (onBox (c + s) (Bl x)) χM0 (core c s a) b * Bq b := by
  subst hBq
  obtain ⟨XD, hXD⟩ := Option.isSome_iff_exists.1 hokD
  obtain ⟨XM, hXM⟩ := Option.isSome_iff_exists.1 hokM
  obtain ⟨d1, d2, d3⟩ := slice_value (s := s) (ΓD x) XD (onBox (c + s) (B q x)) hne beta u hb0 (by rw [cut1_box]; exact hXD) χD hD
  obtain ⟨m1, m2, m3⟩ := slice_value (s := s) (ΓM x) XM (onBox (c + s) (B q x)) hne beta (-u) hb0 (by rw [cut1_box]; exact hXM) χM hM
  have d3 := d3 hpD
  have m3 := m3 hpM
  simp only [cut1_box] at d2 d3 m2 m3
  have hin : -(c : Int) ≤ (a.val : Int) - c ∧ (a.val : Int) - c < c := by omega
  have hix : (⟨((a.val : Int) - c + c).toNat, by omega⟩ : Fin (2 * c)) = a := by
    apply Fin.ext; simp only; omega
  have eXD : XQ beta u ΓD B q x = XD := by unfold XQ; rw [hXD]; rfl
  have eXM : XQ beta (-u) ΓM B q x = XM := by unfold XQ; rw [hXM]; rfl
  have eD : DQ s beta (-u) ΓM B Bl q x ((a.val : Int) - c) =
      -u * ∑ b, vertexF (onBox (c + s) (Bl x)) χM0 (core c s a) b * onBox (c + s) (B q x) b := by
    unfold DQ
    congr 1
    have : ∀ f : Int → K, Opt.vSum (c + s) f = ∑ b, onBox (c + s) f b := fun f => sum_box f (c + s)
    rw [this]
    apply Finset.sum_congr rfl
    intro b _
    have hb : -((c + s : Nat) : Int) ≤ (b.val : Int) - (c + s : Nat) ∧ (b.val : Int) - (c + s : Nat) < (c + s : Nat) := by omega
    have ha : -((c + s : Nat) : Int) ≤ (a.val : Int) - c ∧ (a.val : Int) - c < (c + s : Nat) := by omega
    have hbx : (⟨((b.val : Int) - (c + s : Nat) + (c + s : Nat)).toNat, by omega⟩ : Fin (2 * (c + s))) = b := by
      apply Fin.ext; simp only; omega
    have hax : (⟨((a.val : Int) - c + (c + s : Nat)).toNat, by omega⟩ : Fin (2 * (c + s))) = core c s a := by
      apply Fin.ext; simp only [core]; omega
    show B q x ((b.val : Int) - (c + s : Nat)) * atV _ ((b.val : Int) - (c + s : Nat)) = _
    rw [atV_of _ _ hb, hbx, atV_of _ _ ha, hax, FL_value s beta (-u) ΓM Bl x hne0 χM0 hM0, mul_comm]
    rfl
  unfold kerQ
  rw [eD]
  unfold VQ CQ
  rw [eXD, eXM, d3, m3, atV_of _ _ hin, atV_of _ _ hin, hix, d2 a, m2 a]
  have hlam : ∀ (lam : Option K) (y : K), corrected lam y = withLambda lam y := by
    intro lam y
    cases lam <;> rfl
  rw [hlam, hlam]
  unfold eomTerm
  have rD : ∀ r : K, (1 - u * withLambda lamD (phys beta χD)) * (r / (1 - u * phys beta χD)) =
      (1 - u * withLambda lamD (phys beta χD)) / (1 - u * phys beta χD) * r := fun r => by ring
  have rM : ∀ r : K, (1 - -u * withLambda lamM (phys beta χM)) * (r / (1 - -u * phys beta χM)) =
      (1 - -u * withLambda lamM (phys beta χM)) / (1 - -u * phys beta χM) * r := fun r => by ring
  rw [rD, rM]

/-- the same as `dga_self_energy` below, also naming the intermediate results of the run -/
theorem dga_self_energy_full {c : Nat} (s nx ny nz N Ns niw : Nat) (beta u n : K) (hb : star beta = beta) (hb0 : beta ≠ 0)
    (G : Nat → Nat → Nat → Int → K) (g S : Int → K) (hg : ∀ n : Int, -(N : Int) ≤ n → n < N → g (-n - 1) = star (g n))
    (hg0 : ∀ m : Int, -(N : Int) ≤ m → m < N → g m ≠ 0)
    (hG : ∀ i j k, ∀ n : Int, -(N : Int) ≤ n → n < N → G i j k (-n - 1) = star (G i j k n))
    (hfit : niw + (c + s) ≤ N) (hS : c ≤ Ns) (G2D G2M : Int → Matrix (Fin (2 * c)) (Fin (2 * c)) K)
    (label : Nat → Nat → Nat → Nat) (lamD lamM : Option K)
    (hB0 : ∀ i j k, i < nx → j < ny → k < nz → ∀ x ∈ Finset.Icc (-(niw : Int)) niw, ∀ a,
      onBox (c + s) (bubQ nx ny nz beta G (i, j, k) x) a ≠ 0)
    (hsym : ∀ i j k i' j' k', i < nx → j < ny → k < nz → i' < nx → j' < ny → k' < nz → label i' j' k' = label i j k →
      ∀ x ∈ Finset.Icc (-(niw : Int)) niw, onBox (c + s) (bubQ nx ny nz beta G (i', j', k') x) = onBox (c + s) (bubQ nx ny nz beta G (i, j, k) x))
    (R : Nat) (hR : 0 < R) (sig : List (List K))
    (h : dgaSelfEnergy s R nx ny nz (flat3 (table nx ny nz label)) (objOf true niw beta u G2D) (objOf false niw beta u G2M)
        (genOf nx ny nz N niw beta G g) lamD lamM u n (samplesF S Ns) = some sig) :
    ∃ (d m : Chan (2 * c) K) (loc : List K) (ΓD ΓM : Int → Matrix (Fin (2 * c)) (Fin (2 * c)) K) (χD0 χM0 : Int → Matrix (Fin (2 * (c + s))) (Fin (2 * (c + s))) K),
      localSde s (objOf true niw beta u G2D) (objOf false niw beta u G2M) (genOf nx ny nz N niw beta G g) n = some (d, m, loc) ∧
      d.gam = objOf true niw beta u ΓD ∧ m.gam = objOf false niw beta u ΓM ∧
      (∀ x ∈ Finset.Icc (-(niw : Int)) niw,
        Ladder beta u (onBox (c + s) (bubLoc beta g x)) (ΓD x) (χD0 x) ∧
        (∀ i j, χD0 x (core c s i) (core c s j) = gchiOf beta g true G2D x i j) ∧
        Ladder beta (-u) (onBox (c + s) (bubLoc beta g x)) (ΓM x) (χM0 x) ∧
        (∀ i j, χM0 x (core c s i) (core c s j) = gchiOf beta g false G2M x i j) ∧
        1 - u * phys beta (χD0 x) ≠ 0 ∧ 1 - -u * phys beta (χM0 x) ≠ 0) ∧
      ((∀ x ∈ Finset.Icc (-(niw : Int)) niw, phys beta (χD0 x) ≠ 0 ∧ phys beta (χM0 x) ≠ 0) →
        d.chi = (wn niw).map (fun x => phys beta (χD0 x)) ∧ m.chi = (wn niw).map (fun x => phys beta (χM0 x)) ∧
        ∀ χD χM : Nat → Nat → Nat → Int → Matrix (Fin (2 * (c + s))) (Fin (2 * (c + s))) K,
          (∀ i j k, i < nx → j < ny → k < nz → ∀ x ∈ Finset.Icc (-(niw : Int)) niw,
            Ladder beta u (onBox (c + s) (bubQ nx ny nz beta G (i, j, k) x)) (ΓD x) (χD i j k x) ∧ phys beta (χD i j k x) ≠ 0 ∧
            Ladder beta (-u) (onBox (c + s) (bubQ nx ny nz beta G (i, j, k) x)) (ΓM x) (χM i j k x) ∧ phys beta (χM i j k x) ≠ 0) →
          sig = flat3 (table nx ny nz fun i j k => List.ofFn fun a : Fin (2 * c) =>
            S ((a.val : Int) - c) - locTerm niw beta u g χD0 χM0 a +
              latTerm nx ny nz niw beta u lamD lamM G g χM0 χD χM i j k a)) := by
  unfold dgaSelfEnergy at h
  cases hl : localSde s (objOf true niw beta u G2D) (objOf false niw beta u G2M) (genOf nx ny nz N niw beta G g) n with
  | none => rw [hl] at h; cases h
  | some r =>
  obtain ⟨d, m, loc⟩ := r
  rw [hl, Option.bind_some] at h
  obtain ⟨ΓD, ΓM, χD0, χM0, e1, e2, e3, e4⟩ := local_sde_is_equation_of_motion nx ny nz N niw beta u n hb hb0 G g hg hg0 hfit G2D G2M d m loc hl
  refine ⟨d, m, loc, ΓD, ΓM, χD0, χM0, rfl, e1, e2, e3, ?_⟩
  intro hp
  obtain ⟨p1, p2, f1, f2, _⟩ := e4 hp
  refine ⟨p1, p2, ?_⟩
  intro χD χM hχ
  obtain ⟨irr, rep, hrep, hlat⟩ := latticeSde_eq s nx ny nz N niw beta u hb G g hg hG hfit ΓD ΓM label lamD lamM
  simp only [e1, e2] at h
  rw [hlat R hR] at h
  split at h
  case isFalse => cases h
  case isTrue hok =>
  rw [Option.bind_some] at h
  have hmem : ∀ x, x ∈ wn niw ↔ x ∈ Finset.Icc (-(niw : Int)) niw := fun x => by rw [mem_wn, Finset.mem_Icc]
  -- the kernel
  have hker : ∀ q1 q2 q3, q1 < nx → q2 < ny → q3 < nz → ∀ x ∈ Finset.Icc (-(niw : Int)) niw, ∀ a : Fin (2 * c),
      kerQ s beta u lamD lamM ΓD ΓM (bubQ nx ny nz beta G) (bubLoc beta g) (rep (momOf (q1, q2, q3))) x ((a.val : Int) - c) =
        eomTerm beta u lamD (onBox (c + s) (bubQ nx ny nz beta G (q1, q2, q3) x)) (χD q1 q2 q3 x) (core c s a) +
          3 * eomTerm beta (-u) lamM (onBox (c + s) (bubQ nx ny nz beta G (q1, q2, q3) x)) (χM q1 q2 q3 x) (core c s a) -
          -u * ∑ b, vertexF (onBox (c + s) (bubLoc beta g x)) (χM0 x) (core c s a) b *
            onBox (c + s) (bubQ nx ny nz beta G (q1, q2, q3) x) b := by
    intro q1 q2 q3 h1 h2 h3 x hx a
    obtain ⟨i', j', k', b1, b2, b3, b4, b5, b6⟩ := hrep q1 q2 q3 h1 h2 h3
    have hBe := hsym q1 q2 q3 i' j' k' h1 h2 h3 b1 b2 b3 b5 x hx
    have hBr : onBox (c + s) (bubQ nx ny nz beta G (rep (momOf (q1, q2, q3))) x) = onBox (c + s) (bubQ nx ny nz beta G (q1, q2, q3) x) := by
      rw [b4]; exact hBe
    have hok' := hok.2 _ b6
    rw [← b4] at hok'
    obtain ⟨l1, l2, l3, l4⟩ := hχ q1 q2 q3 h1 h2 h3 x hx
    exact kerQ_value s beta u hb0 lamD lamM ΓD ΓM _ _ _ x _ hBr (hB0 q1 q2 q3 h1 h2 h3 x hx)
      (bubLoc_ne_zero beta hb0 g N niw (c + s) hg0 hfit x (by rwa [Finset.mem_Icc] at hx))
      (hok'.1 x ((hmem x).2 hx)) (hok'.2 x ((hmem x).2 hx)) _ _ _ l1 l3 (e3 x hx).2.2.1 l2 l4 a
  -- the impurity self-energy as samples
  have hloc : loc = samplesF (fun v => (loc[(v + (c + s : Nat)).toNat]?).getD 0) (c + s) := by
    apply eq_samplesF _ _ _ f1
    intro k hk
    rw [show (k : Int) - (c + s : Nat) + (c + s : Nat) = k by omega, Int.toNat_natCast, List.getElem?_eq_getElem (by omega), Option.getD_some]
  have hcl : cutV loc (c : Int) = samplesF (fun v => (loc[(v + (c + s : Nat)).toNat]?).getD 0) c := by
    rw [hloc, cutV_samplesF _ _ _ (by omega), ← hloc]
  have hcs : cutV (samplesF S Ns) (c : Int) = samplesF S c := cutV_samplesF _ _ _ hS
  simp only [hcl, hcs] at h
  rw [flat3_table, List.mapM_map, mapM_some _ _ (fun (l : Nat) => List.ofFn fun a : Fin (2 * c) =>
    S ((a.val : Int) - c) - locTerm niw beta u g χD0 χM0 a +
      latTerm nx ny nz niw beta u lamD lamM G g χM0 χD χM (l / nz / ny) (l / nz % ny) (l % nz) a)] at h
  · rw [flat3_table]
    exact (Option.some.inj h).symm
  · intro l _
    simp only [Function.comp]
    unfold assemble
    rw [if_pos (by simp [samplesF_length])]
    congr 1
    apply List.ext_getElem?
    intro k
    by_cases hk : k < 2 * c
    · rw [List.getElem?_zipWith, List.getElem?_zipWith, samplesF_get? _ _ _ hk, samplesF_get? _ _ _ hk, samplesF_get? _ _ _ hk,
        List.getElem?_ofFn, dif_pos hk]
      simp only
      congr 1
      have hf2 := f2 ⟨k, hk⟩
      simp only at hf2
      rw [show ((k : Int) - c + (c + s : Nat)).toNat = k + s by omega, hf2, Option.getD_some]
      have hlatT : 1 / (((nx * ny * nz : Nat) : K) * beta) * (kSum nx ny nz fun q1 q2 q3 => ∑ x ∈ Finset.Icc (-(niw : Int)) niw,
          kerQ s beta u lamD lamM ΓD ΓM (bubQ nx ny nz beta G) (bubLoc beta g) (rep (momOf (q1, q2, q3))) x ((k : Int) - c) *
            G (shiftG nx (l / nz / ny) q1) (shiftG ny (l / nz % ny) q2) (shiftG nz (l % nz) q3) ((k : Int) - c - x)) =
          latTerm nx ny nz niw beta u lamD lamM G g χM0 χD χM (l / nz / ny) (l / nz % ny) (l % nz) ⟨k, hk⟩ := by
        unfold latTerm
        congr 1
        unfold kSum
        apply Finset.sum_congr rfl
        intro q1 h1
        apply Finset.sum_congr rfl
        intro q2 h2
        apply Finset.sum_congr rfl
        intro q3 h3
        apply Finset.sum_congr rfl
        intro x hx
        have := hker q1 q2 q3 (Finset.mem_range.1 h1) (Finset.mem_range.1 h2) (Finset.mem_range.1 h3) x hx ⟨k, hk⟩
        simp only at this
        rw [this]
      rw [hlatT]
      unfold locTerm
      ring
    · rw [List.getElem?_eq_none (by simp only [List.length_zipWith, samplesF_length]; omega),
        List.getElem?_eq_none (by simp only [List.length_ofFn]; omega)]

/-- C62.  The complete calculation.  Inputs: the two-particle Green's functions of the impurity, its Green's function `g`, the lattice
    Green's function `G`, the DMFT self-energy `S`; `label` is the index map of the momentum grid.  Whenever the program returns a
    self-energy, there are irreducible impurity vertices `ΓD`, `ΓM` and solutions `χD0`, `χM0` of the impurity Bethe–Salpeter
    equations whose core blocks are the measured susceptibilities, such that for all solutions `χD`, `χM` of the lattice ladder
    equations with the same vertices, at every momentum and core frequency the result is the DMFT self-energy minus the impurity
    equation of motion plus the lattice equation of motion. -/
theorem dga_self_energy {c : Nat} (s nx ny nz N Ns niw : Nat) (beta u n : K) (hb : star beta = beta) (hb0 : beta ≠ 0)
    (G : Nat → Nat → Nat → Int → K) (g S : Int → K) (hg : ∀ n : Int, -(N : Int) ≤ n → n < N → g (-n - 1) = star (g n))
    (hg0 : ∀ m : Int, -(N : Int) ≤ m → m < N → g m ≠ 0)
    (hG : ∀ i j k, ∀ n : Int, -(N : Int) ≤ n → n < N → G i j k (-n - 1) = star (G i j k n))
    (hfit : niw + (c + s) ≤ N) (hS : c ≤ Ns) (G2D G2M : Int → Matrix (Fin (2 * c)) (Fin (2 * c)) K)
    (label : Nat → Nat → Nat → Nat) (lamD lamM : Option K)
    (hB0 : ∀ i j k, i < nx → j < ny → k < nz → ∀ x ∈ Finset.Icc (-(niw : Int)) niw, ∀ a,
      onBox (c + s) (bubQ nx ny nz beta G (i, j, k) x) a ≠ 0)
    (hsym : ∀ i j k i' j' k', i < nx → j < ny → k < nz → i' < nx → j' < ny → k' < nz → label i' j' k' = label i j k →
      ∀ x ∈ Finset.Icc (-(niw : Int)) niw, onBox (c + s) (bubQ nx ny nz beta G (i', j', k') x) = onBox (c + s) (bubQ nx ny nz beta G (i, j, k) x))
    (R : Nat) (hR : 0 < R) (sig : List (List K))
    (h : dgaSelfEnergy s R nx ny nz (flat3 (table nx ny nz label)) (objOf true niw beta u G2D) (objOf false niw beta u G2M)
        (genOf nx ny nz N niw beta G g) lamD lamM u n (samplesF S Ns) = some sig) :
    ∃ (ΓD ΓM : Int → Matrix (Fin (2 * c)) (Fin (2 * c)) K) (χD0 χM0 : Int → Matrix (Fin (2 * (c + s))) (Fin (2 * (c + s))) K),
      (∀ x ∈ Finset.Icc (-(niw : Int)) niw,
        Ladder beta u (onBox (c + s) (bubLoc beta g x)) (ΓD x) (χD0 x) ∧
        (∀ i j, χD0 x (core c s i) (core c s j) = gchiOf beta g true G2D x i j) ∧
        Ladder beta (-u) (onBox (c + s) (bubLoc beta g x)) (ΓM x) (χM0 x) ∧
        (∀ i j, χM0 x (core c s i) (core c s j) = gchiOf beta g false G2M x i j) ∧
        1 - u * phys beta (χD0 x) ≠ 0 ∧ 1 - -u * phys beta (χM0 x) ≠ 0) ∧
      ((∀ x ∈ Finset.Icc (-(niw : Int)) niw, phys beta (χD0 x) ≠ 0 ∧ phys beta (χM0 x) ≠ 0) →
        ∀ χD χM : Nat → Nat → Nat → Int → Matrix (Fin (2 * (c + s))) (Fin (2 * (c + s))) K,
          (∀ i j k, i < nx → j < ny → k < nz → ∀ x ∈ Finset.Icc (-(niw : Int)) niw,
            Ladder beta u (onBox (c + s) (bubQ nx ny nz beta G (i, j, k) x)) (ΓD x) (χD i j k x) ∧ phys beta (χD i j k x) ≠ 0 ∧
            Ladder beta (-u) (onBox (c + s) (bubQ nx ny nz beta G (i, j, k) x)) (ΓM x) (χM i j k x) ∧ phys beta (χM i j k x) ≠ 0) →
          sig = flat3 (table nx ny nz fun i j k => List.ofFn fun a : Fin (2 * c) =>
            S ((a.val : Int) - c) - locTerm niw beta u g χD0 χM0 a +
              latTerm nx ny nz niw beta u lamD lamM G g χM0 χD χM i j k a)) := by
  obtain ⟨_, _, _, ΓD, ΓM, χD0, χM0, _, _, _, e3, e4⟩ := dga_self_energy_full s nx ny nz N Ns niw beta u n hb hb0 G g S hg hg0 hG hfit hS
    G2D G2M label lamD lamM hB0 hsym R hR sig h
  exact ⟨ΓD, ΓM, χD0, χM0, e3, fun hp => (e4 hp).2.2⟩

omit [StarRing K] in
theorem bubQ_const (nx ny nz : Nat) (hk : ((nx * ny * nz : Nat) : K) ≠ 0) (beta : K) (g : Int → K) (q : Int × Int × Int) (w v : Int) :
    bubQ nx ny nz beta (fun _ _ _ => g) q w v = bubLoc beta g w v := by
  unfold bubQ bubLoc kSum
  simp only [Finset.sum_const, Finset.card_range, nsmul_eq_mul]
  congr 1
  rw [div_eq_iff hk]
  push_cast
  ring

/-- C63.  Consistency with DMFT: if the lattice Green's function does not depend on momentum and equals the impurity one, and no lambda
    correction is applied, then whenever the calculation returns a self-energy (and no physical susceptibility of the impurity
    vanishes) it is the DMFT self-energy, at every momentum and for any number of ranks. -/
theorem dga_reduces_to_dmft {c : Nat} (s nx ny nz N Ns niw : Nat) (beta u n : K) (hb : star beta = beta) (hb0 : beta ≠ 0)
    (hk : ((nx * ny * nz : Nat) : K) ≠ 0) (h2 : (2 : K) ≠ 0)
    (g S : Int → K) (hg : ∀ n : Int, -(N : Int) ≤ n → n < N → g (-n - 1) = star (g n))
    (hg0 : ∀ m : Int, -(N : Int) ≤ m → m < N → g m ≠ 0)
    (hfit : niw + (c + s) ≤ N) (hS : c ≤ Ns) (G2D G2M : Int → Matrix (Fin (2 * c)) (Fin (2 * c)) K)
    (label : Nat → Nat → Nat → Nat) (R : Nat) (hR : 0 < R) (sig : List (List K))
    (h : dgaSelfEnergy s R nx ny nz (flat3 (table nx ny nz label)) (objOf true niw beta u G2D) (objOf false niw beta u G2M)
        (genOf nx ny nz N niw beta (fun _ _ _ => g) g) none none u n (samplesF S Ns) = some sig) :
    ∃ (ΓD ΓM : Int → Matrix (Fin (2 * c)) (Fin (2 * c)) K) (χD0 χM0 : Int → Matrix (Fin (2 * (c + s))) (Fin (2 * (c + s))) K),
      (∀ x ∈ Finset.Icc (-(niw : Int)) niw,
        Ladder beta u (onBox (c + s) (bubLoc beta g x)) (ΓD x) (χD0 x) ∧
        (∀ i j, χD0 x (core c s i) (core c s j) = gchiOf beta g true G2D x i j) ∧
        Ladder beta (-u) (onBox (c + s) (bubLoc beta g x)) (ΓM x) (χM0 x) ∧
        (∀ i j, χM0 x (core c s i) (core c s j) = gchiOf beta g false G2M x i j)) ∧
      ((∀ x ∈ Finset.Icc (-(niw : Int)) niw, phys beta (χD0 x) ≠ 0 ∧ phys beta (χM0 x) ≠ 0) →
        sig = flat3 (table nx ny nz fun _ _ _ => List.ofFn fun a : Fin (2 * c) => S ((a.val : Int) - c))) := by
  have hB : ∀ i j k x, onBox (c + s) (bubQ nx ny nz beta (fun _ _ _ => g) (i, j, k) x) = onBox (c + s) (bubLoc beta g x) := by
    intro i j k x
    funext a
    exact bubQ_const nx ny nz hk beta g _ _ _
  have hBl : ∀ x ∈ Finset.Icc (-(niw : Int)) niw, ∀ a, onBox (c + s) (bubLoc beta g x) a ≠ 0 := fun x hx =>
    bubLoc_ne_zero beta hb0 g N niw (c + s) hg0 hfit x (by rwa [Finset.mem_Icc] at hx)
  obtain ⟨ΓD, ΓM, χD0, χM0, e1, e2⟩ := dga_self_energy s nx ny nz N Ns niw beta u n hb hb0 (fun _ _ _ => g) g S hg hg0
    (fun _ _ _ => hg) hfit hS G2D G2M label none none (fun i j k _ _ _ x hx => by rw [hB]; exact hBl x hx)
    (fun _ _ _ _ _ _ _ _ _ _ _ _ _ x _ => by rw [hB, hB]) R hR sig h
  refine ⟨ΓD, ΓM, χD0, χM0, fun x hx => ⟨(e1 x hx).1, (e1 x hx).2.1, (e1 x hx).2.2.1, (e1 x hx).2.2.2.1⟩, ?_⟩
  intro hp'
  rw [e2 hp' (fun _ _ _ => χD0) (fun _ _ _ => χM0) (fun i j k _ _ _ x hx => by
    rw [hB]
    exact ⟨(e1 x hx).1, (hp' x hx).1, (e1 x hx).2.2.1, (hp' x hx).2⟩)]
  congr 2
  funext i j k
  congr 1
  funext a
  suffices hz : latTerm nx ny nz niw beta u none none (fun _ _ _ => g) g χM0 (fun _ _ _ => χD0) (fun _ _ _ => χM0) i j k a =
      locTerm niw beta u g χD0 χM0 a by rw [hz]; ring
  unfold latTerm locTerm
  have hq : ∀ q1 q2 q3 : Nat, (∑ x ∈ Finset.Icc (-(niw : Int)) niw,
      (eomTerm beta u none (onBox (c + s) (bubQ nx ny nz beta (fun _ _ _ => g) (q1, q2, q3) x)) (χD0 x) (core c s a) +
        3 * eomTerm beta (-u) none (onBox (c + s) (bubQ nx ny nz beta (fun _ _ _ => g) (q1, q2, q3) x)) (χM0 x) (core c s a) -
        -u * ∑ b, vertexF (onBox (c + s) (bubLoc beta g x)) (χM0 x) (core c s a) b *
          onBox (c + s) (bubQ nx ny nz beta (fun _ _ _ => g) (q1, q2, q3) x) b) * g ((a.val : Int) - c - x)) =
      u / 2 * ∑ x ∈ Finset.Icc (-(niw : Int)) niw,
        (∑ b, (vertexF (onBox (c + s) (bubLoc beta g x)) (χD0 x) (core c s a) b -
        vertexF (onBox (c + s) (bubLoc beta g x)) (χM0 x) (core c s a) b) * onBox (c + s) (bubLoc beta g x) b) * g ((a.val : Int) - c - x) := by
    intro q1 q2 q3
    rw [Finset.mul_sum]
    apply Finset.sum_congr rfl
    intro x hx
    rw [hB, eomTerm_none _ _ _ (hBl x hx) _ (e1 x hx).2.2.2.2.1, eomTerm_none _ _ _ (hBl x hx) _ (e1 x hx).2.2.2.2.2]
    have e2 : ∀ (p q r : Fin (2 * (c + s)) → K), ∑ b, (p b - q b) * r b = ∑ b, p b * r b - ∑ b, q b * r b := by
      intro p q r
      rw [← Finset.sum_sub_distrib]
      exact Finset.sum_congr rfl fun b _ => sub_mul _ _ _
    rw [e2]
    generalize ∑ b, vertexF (onBox (c + s) (bubLoc beta g x)) (χD0 x) (core c s a) b * onBox (c + s) (bubLoc beta g x) b = P
    generalize ∑ b, vertexF (onBox (c + s) (bubLoc beta g x)) (χM0 x) (core c s a) b * onBox (c + s) (bubLoc beta g x) b = Q
    field_simp
    ring
  unfold kSum
  simp only [hq, Finset.sum_const, Finset.card_range, nsmul_eq_mul]
  generalize (∑ x ∈ Finset.Icc (-(niw : Int)) niw, _ : K) = T
  push_cast at hk ⊢
  have k1 : (nx : K) ≠ 0 := fun h => hk (by rw [h]; ring)
  have k2 : (ny : K) ≠ 0 := fun h => hk (by rw [h]; ring)
  have k3 : (nz : K) ≠ 0 := fun h => hk (by rw [h]; ring)
  field_simp

end DGA.Pipe
