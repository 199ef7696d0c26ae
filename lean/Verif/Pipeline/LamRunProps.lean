/-
  C128, third part: what the user relies on after a run with lambda correction.
-/
import Verif.Pipeline.LamRun
import Verif.Pipeline.Rpa3

namespace DGA.Pipe

open DGA.Mf DGA.Bz DGA.Bubble DGA.Fp

/-- C128.  The run with one of the three modes returns whenever the calculation with prescribed lambdas does: the search never makes it
    fail (it may stop after its iterations, it does not raise). -/
theorem run_returns {c : Nat} (s nx ny nz N niw : Nat) (beta : ℝ) (u n : ℂ) (hb0 : beta ≠ 0) (hk : 0 < nx * ny * nz)
    (G : Nat → Nat → Nat → Int → ℂ) (g : Int → ℂ) (hg : ∀ n : Int, -(N : Int) ≤ n → n < N → g (-n - 1) = star (g n))
    (hG : ∀ i j k, ∀ n : Int, -(N : Int) ≤ n → n < N → G i j k (-n - 1) = star (G i j k n))
    (hfit : niw + (c + s) ≤ N) (G2D G2M : Int → Matrix (Fin (2 * c)) (Fin (2 * c)) ℂ) (label : Nat → Nat → Nat → Nat) (siw : List ℂ)
    (R : Nat) (hR : 0 < R) (mode : String) (hm : mode ∈ ["spch", "sp", "none"])
    (h : ∀ lamD lamM : Option ℂ, ∃ sig, dgaSelfEnergy s R nx ny nz (flat3 (table nx ny nz label)) (objOf true niw (beta : ℂ) u G2D)
      (objOf false niw (beta : ℂ) u G2M) (genOf nx ny nz N niw (beta : ℂ) G g) lamD lamM u n siw = some sig) :
    ∃ out, dgaRun s R nx ny nz (flat3 (table nx ny nz label)) (objOf true niw (beta : ℂ) u G2D) (objOf false niw (beta : ℂ) u G2M)
        (genOf nx ny nz N niw (beta : ℂ) G g) beta mode u n siw = .ok out := by
  have hb : star (beta : ℂ) = (beta : ℂ) := Complex.conj_ofReal beta
  have hbc : (beta : ℂ) ≠ 0 := by exact_mod_cast hb0
  unfold dgaSelfEnergy at h
  unfold dgaRun
  cases hl : localSde s (objOf true niw (beta : ℂ) u G2D) (objOf false niw (beta : ℂ) u G2M) (genOf nx ny nz N niw (beta : ℂ) G g) n with
  | none =>
    obtain ⟨sig, hs⟩ := h none none
    rw [hl] at hs
    cases hs
  | some r =>
  obtain ⟨d, m, loc⟩ := r
  obtain ⟨ΓD, ΓM, e1, e2⟩ := localSde_gam nx ny nz N niw (beta : ℂ) u n hb hbc G g hg hfit G2D G2M d m loc hl
  obtain ⟨irr, rep, _, hlad⟩ := ladderFbz_eq s nx ny nz N niw (beta : ℂ) u hb G g hg hG hfit ΓD ΓM label
  simp only [hl, Option.bind_some, latticeSde_split, e1, e2, hlad R hR] at h ⊢
  by_cases hok : OkL s (wn niw) (beta : ℂ) (-u) ΓM (bubLoc (beta : ℂ) g) ∧ ∀ q ∈ irr, OkBoth (wn niw) (beta : ℂ) u ΓD ΓM (bubQ nx ny nz (beta : ℂ) G) q
  swap
  · obtain ⟨sig, hs⟩ := h none none
    rw [if_neg hok] at hs
    cases hs
  simp only [if_pos hok, Option.bind_some] at h ⊢
  have hD : (mk5 c (wn niw) (fun q => VQ (beta : ℂ) u ΓD (bubQ nx ny nz (beta : ℂ) G) (rep q)) (fun q => VQ (beta : ℂ) (-u) ΓM (bubQ nx ny nz (beta : ℂ) G) (rep q))
      (fun q => CQ s (beta : ℂ) u ΓD (bubQ nx ny nz (beta : ℂ) G) (rep q)) (fun q => CQ s (beta : ℂ) (-u) ΓM (bubQ nx ny nz (beta : ℂ) G) (rep q))
      (fun q => DQ s (beta : ℂ) (-u) ΓM (bubQ nx ny nz (beta : ℂ) G) (bubLoc (beta : ℂ) g) (rep q)) ((qList nx ny nz).map momOf)).chiD = _ :=
    rows_grid nx ny nz niw fun q => CQ s (beta : ℂ) u ΓD (bubQ nx ny nz (beta : ℂ) G) (rep q)
  have hM : (mk5 c (wn niw) (fun q => VQ (beta : ℂ) u ΓD (bubQ nx ny nz (beta : ℂ) G) (rep q)) (fun q => VQ (beta : ℂ) (-u) ΓM (bubQ nx ny nz (beta : ℂ) G) (rep q))
      (fun q => CQ s (beta : ℂ) u ΓD (bubQ nx ny nz (beta : ℂ) G) (rep q)) (fun q => CQ s (beta : ℂ) (-u) ΓM (bubQ nx ny nz (beta : ℂ) G) (rep q))
      (fun q => DQ s (beta : ℂ) (-u) ΓM (bubQ nx ny nz (beta : ℂ) G) (bubLoc (beta : ℂ) g) (rep q)) ((qList nx ny nz).map momOf)).chiM = _ :=
    rows_grid nx ny nz niw fun q => CQ s (beta : ℂ) (-u) ΓM (bubQ nx ny nz (beta : ℂ) G) (rep q)
  generalize mk5 c (wn niw) _ _ _ _ _ _ = Q at *
  obtain ⟨sd, hsd, _⟩ := Lam.startC_spec (nb := niw)
    (gridArr nx ny nz niw fun i j k x => CQ s (beta : ℂ) u ΓD (bubQ nx ny nz (beta : ℂ) G) (rep (momOf (i, j, k))) x) hk
  obtain ⟨sm, hsm, _⟩ := Lam.startC_spec (nb := niw)
    (gridArr nx ny nz niw fun i j k x => CQ s (beta : ℂ) (-u) ΓM (bubQ nx ny nz (beta : ℂ) G) (rep (momOf (i, j, k))) x) hk
  rw [← hD] at hsd
  rw [← hM] at hsm
  have hcorr : ∃ r, Lam.lambdaCorrection Q.chiD Q.chiM beta d.chi m.chi mode = .ok r := by
    simp only [List.mem_cons, List.not_mem_nil, or_false] at hm
    unfold Lam.lambdaCorrection
    rcases hm with rfl | rfl | rfl
    · simp [hsd, hsm]
    · simp [hsm]
    · simp
  obtain ⟨r, hr⟩ := hcorr
  obtain ⟨sig, hs⟩ := h (lamOf mode r).1 (lamOf mode r).2
  obtain ⟨_, a1, a2⟩ := lambdaCorrection_arrays _ _ _ _ _ _ _ hr
  simp only [← a1, ← a2] at hs
  rw [hr]
  simp only [hs]
  exact ⟨_, rfl⟩

/-- C128.  The self-energy of the run is conjugate at opposite frequencies: the lambdas the search finds are real, whatever the run. -/
theorem run_conj_symmetric {c : Nat} (s nx ny nz N Ns niw : Nat) (beta : ℝ) (u n : ℂ) (hb0 : beta ≠ 0) (hu : star u = u) (hn : star n = n)
    (G : Nat → Nat → Nat → Int → ℂ) (g S : Int → ℂ) (hg : ∀ n : Int, -(N : Int) ≤ n → n < N → g (-n - 1) = star (g n))
    (hG : ∀ i j k, ∀ n : Int, -(N : Int) ≤ n → n < N → G i j k (-n - 1) = star (G i j k n))
    (hSc : ∀ n : Int, -(Ns : Int) ≤ n → n < Ns → S (-n - 1) = star (S n))
    (hfit : niw + (c + s) ≤ N) (hS : c ≤ Ns) (G2D G2M : Int → Matrix (Fin (2 * c)) (Fin (2 * c)) ℂ)
    (hD : ∀ x ∈ Finset.Icc (-(niw : Int)) niw, ∀ i j, G2D (-x) i.rev j.rev = star (G2D x i j))
    (hM : ∀ x ∈ Finset.Icc (-(niw : Int)) niw, ∀ i j, G2M (-x) i.rev j.rev = star (G2M x i j))
    (label : Nat → Nat → Nat → Nat) (mode : String) (R : Nat) (hR : 0 < R) (out : RunOut)
    (h : dgaRun s R nx ny nz (flat3 (table nx ny nz label)) (objOf true niw (beta : ℂ) u G2D) (objOf false niw (beta : ℂ) u G2M)
        (genOf nx ny nz N niw (beta : ℂ) G g) beta mode u n (samplesF S Ns) = .ok out) :
    ∃ Sig : Nat → Nat → Nat → Int → ℂ, out.sigma = flat3 (table nx ny nz fun i j k => samplesF (Sig i j k) c) ∧
      ∀ i j k, ∀ v : Int, -(c : Int) ≤ v → v < c → Sig i j k (-v - 1) = star (Sig i j k v) := by
  obtain ⟨_, hself⟩ := run_is_self_energy _ _ _ _ _ _ _ _ _ _ _ _ _ _ _ h
  refine dga_conj_symmetric s nx ny nz N Ns niw (beta : ℂ) u n (Complex.conj_ofReal beta) (by exact_mod_cast hb0) hu hn G g S hg hG hSc hfit hS
    G2D G2M hD hM label _ _ ?_ ?_ R hR _ hself
  · intro l hl
    unfold lamOf at hl
    split at hl
    · cases hl; exact Complex.conj_ofReal _
    · split at hl <;> cases hl
  · intro l hl
    unfold lamOf at hl
    split at hl
    · cases hl; exact Complex.conj_ofReal _
    · split at hl
      · cases hl; exact Complex.conj_ofReal _
      · cases hl

/-- the inverse susceptibility lies in the cone of opening angle 30 degrees above the smallest static one (real susceptibilities: the
    static one is the largest) -/
def Cone (nx ny nz niw : Nat) (C : Nat → Nat → Nat → Int → ℂ) : Prop :=
  ∀ i j k, i < nx → j < ny → k < nz → ∀ x ∈ Finset.Icc (-(niw : Int)) niw, ∃ i' j' k', i' < nx ∧ j' < ny ∧ k' < nz ∧
    √3 * |(1 / C i j k x).im| ≤ (1 / C i j k x).re - (1 / C i' j' k' 0).re

theorem grid_surj {nx ny nz i j k : Nat} (hi : i < nx) (hj : j < ny) (hk : k < nz) :
    ∃ l : Fin (nx * ny * nz), l.val / nz / ny = i ∧ l.val / nz % ny = j ∧ l.val % nz = k := by
  have h1 : i * ny + j < nx * ny := by
    calc i * ny + j < i * ny + ny := by omega
      _ = (i + 1) * ny := by ring
      _ ≤ nx * ny := Nat.mul_le_mul_right _ hi
  have h2 : (i * ny + j) * nz + k < nx * ny * nz := by
    calc (i * ny + j) * nz + k < (i * ny + j) * nz + nz := by omega
      _ = (i * ny + j + 1) * nz := by ring
      _ ≤ nx * ny * nz := Nat.mul_le_mul_right _ h1
  have e : ((i * ny + j) * nz + k) / nz = i * ny + j := by
    rw [Nat.mul_comm, Nat.mul_add_div (by omega), Nat.div_eq_of_lt hk, Nat.add_zero]
  refine ⟨⟨_, h2⟩, ?_, ?_, ?_⟩
  · simp only [e]
    rw [Nat.mul_comm, Nat.mul_add_div (by omega), Nat.div_eq_of_lt hj, Nat.add_zero]
  · simp only [e]
    rw [Nat.mul_comm, Nat.mul_add_mod, Nat.mod_eq_of_lt hj]
  · simp only
    rw [Nat.mul_comm, Nat.mul_add_mod, Nat.mod_eq_of_lt hk]

theorem wOf_static (niw : Nat) : wOf niw (Lam.static niw) = 0 := by simp [wOf, Lam.static]

theorem sectorial_grid (nx ny nz niw : Nat) (C : Nat → Nat → Nat → Int → ℂ)
    (hne : ∀ i j k, i < nx → j < ny → k < nz → ∀ x ∈ Finset.Icc (-(niw : Int)) niw, C i j k x ≠ 0)
    (hconj : ∀ q w, gridArr nx ny nz niw C q w.rev = (starRingEnd ℂ) (gridArr nx ny nz niw C q w))
    (hcone : Cone nx ny nz niw C) : Lam.Sectorial (gridArr nx ny nz niw C) := by
  refine ⟨?_, hconj, ?_⟩
  · intro q w
    obtain ⟨g1, g2, g3⟩ := grid_lt q
    exact hne _ _ _ g1 g2 g3 _ (wOf_mem niw w)
  · intro q w
    obtain ⟨g1, g2, g3⟩ := grid_lt q
    obtain ⟨i', j', k', a1, a2, a3, h⟩ := hcone _ _ _ g1 g2 g3 _ (wOf_mem niw w)
    obtain ⟨l, l1, l2, l3⟩ := grid_surj a1 a2 a3
    refine ⟨l, ?_⟩
    unfold gridArr
    rw [l1, l2, l3, wOf_static]
    exact h

/-- C128.  Mode 'spch' at the defaults.  If the physical ladder susceptibilities of the run satisfy the cone condition, then the
    susceptibilities it saves have positive real part everywhere, are real at the static frequency, and their momentum and frequency sums
    are real and equal the local sums of the same channel up to `1e-7` from above. -/
theorem run_sum_rules {c : Nat} (s nx ny nz N Ns niw : Nat) (beta : ℝ) (u n : ℂ) (hk : 0 < nx * ny * nz)
    (hb : 1e-6 ≤ beta) (hb2 : beta ≤ 1e6) (hbn : beta * (nx * ny * nz : Nat) ≤ 5e7) (hnw : ((2 * niw + 1 : ℕ) : ℝ) ≤ 1e12)
    (hnq : ((nx * ny * nz : Nat) : ℝ) ≤ 1e12) (hu : star u = u)
    (G : Nat → Nat → Nat → Int → ℂ) (g S : Int → ℂ) (hg : ∀ n : Int, -(N : Int) ≤ n → n < N → g (-n - 1) = star (g n))
    (hg0 : ∀ m : Int, -(N : Int) ≤ m → m < N → g m ≠ 0)
    (hG : ∀ i j k, ∀ n : Int, -(N : Int) ≤ n → n < N → G i j k (-n - 1) = star (G i j k n))
    (hfit : niw + (c + s) ≤ N) (hS : c ≤ Ns) (G2D G2M : Int → Matrix (Fin (2 * c)) (Fin (2 * c)) ℂ)
    (hD : ∀ x ∈ Finset.Icc (-(niw : Int)) niw, ∀ i j, G2D (-x) i.rev j.rev = star (G2D x i j))
    (hM : ∀ x ∈ Finset.Icc (-(niw : Int)) niw, ∀ i j, G2M (-x) i.rev j.rev = star (G2M x i j))
    (label : Nat → Nat → Nat → Nat)
    (hB0 : ∀ i j k, i < nx → j < ny → k < nz → ∀ x ∈ Finset.Icc (-(niw : Int)) niw, ∀ a,
      onBox (c + s) (bubQ nx ny nz (beta : ℂ) G (i, j, k) x) a ≠ 0)
    (hsym : ∀ i j k i' j' k', i < nx → j < ny → k < nz → i' < nx → j' < ny → k' < nz → label i' j' k' = label i j k →
      ∀ x ∈ Finset.Icc (-(niw : Int)) niw,
        onBox (c + s) (bubQ nx ny nz (beta : ℂ) G (i', j', k') x) = onBox (c + s) (bubQ nx ny nz (beta : ℂ) G (i, j, k) x))
    (R : Nat) (hR : 0 < R) (out : RunOut)
    (h : dgaRun s R nx ny nz (flat3 (table nx ny nz label)) (objOf true niw (beta : ℂ) u G2D) (objOf false niw (beta : ℂ) u G2M)
        (genOf nx ny nz N niw (beta : ℂ) G g) beta "spch" u n (samplesF S Ns) = .ok out) :
    ∃ (ΓD ΓM : Int → Matrix (Fin (2 * c)) (Fin (2 * c)) ℂ) (χD0 χM0 : Int → Matrix (Fin (2 * (c + s))) (Fin (2 * (c + s))) ℂ),
      (∀ x ∈ Finset.Icc (-(niw : Int)) niw,
        Ladder (beta : ℂ) u (onBox (c + s) (bubLoc (beta : ℂ) g x)) (ΓD x) (χD0 x) ∧
        (∀ i j, χD0 x (core c s i) (core c s j) = gchiOf (beta : ℂ) g true G2D x i j) ∧
        Ladder (beta : ℂ) (-u) (onBox (c + s) (bubLoc (beta : ℂ) g x)) (ΓM x) (χM0 x) ∧
        (∀ i j, χM0 x (core c s i) (core c s j) = gchiOf (beta : ℂ) g false G2M x i j)) ∧
      ((∀ x ∈ Finset.Icc (-(niw : Int)) niw, phys (beta : ℂ) (χD0 x) ≠ 0 ∧ phys (beta : ℂ) (χM0 x) ≠ 0) →
        ∀ locD locM : ℝ, 1 / (beta : ℂ) * ∑ x ∈ Finset.Icc (-(niw : Int)) niw, phys (beta : ℂ) (χD0 x) = locD →
          1 / (beta : ℂ) * ∑ x ∈ Finset.Icc (-(niw : Int)) niw, phys (beta : ℂ) (χM0 x) = locM →
          1e-6 ≤ locD → locD ≤ 1e6 → 1e-6 ≤ locM → locM ≤ 1e6 →
        ∀ χD χM : Nat → Nat → Nat → Int → Matrix (Fin (2 * (c + s))) (Fin (2 * (c + s))) ℂ,
          (∀ i j k, i < nx → j < ny → k < nz → ∀ x ∈ Finset.Icc (-(niw : Int)) niw,
            Ladder (beta : ℂ) u (onBox (c + s) (bubQ nx ny nz (beta : ℂ) G (i, j, k) x)) (ΓD x) (χD i j k x) ∧
              phys (beta : ℂ) (χD i j k x) ≠ 0 ∧
            Ladder (beta : ℂ) (-u) (onBox (c + s) (bubQ nx ny nz (beta : ℂ) G (i, j, k) x)) (ΓM x) (χM i j k x) ∧
              phys (beta : ℂ) (χM i j k x) ≠ 0) →
          Cone nx ny nz niw (fun i j k x => phys (beta : ℂ) (χD i j k x)) → Cone nx ny nz niw (fun i j k x => phys (beta : ℂ) (χM i j k x)) →
          ∃ d' m' : Fin (nx * ny * nz) → Fin (2 * niw + 1) → ℂ, out.chi.dens = Lam.rowsC d' ∧ out.chi.magn = Lam.rowsC m' ∧
            (∀ q w, 0 < (d' q w).re ∧ 0 < (m' q w).re) ∧ (∀ q, (d' q (Lam.static niw)).im = 0 ∧ (m' q (Lam.static niw)).im = 0) ∧
            (Lam.totalC beta d').im = 0 ∧ (Lam.totalC beta m').im = 0 ∧
            0 ≤ (Lam.totalC beta d').re - locD ∧ (Lam.totalC beta d').re - locD < 1e-7 ∧
            0 ≤ (Lam.totalC beta m').re - locM ∧ (Lam.totalC beta m').re - locM < 1e-7) := by
  have hb0 : beta ≠ 0 := by norm_num at hb; intro h0; linarith
  obtain ⟨ΓD, ΓM, χD0, χM0, e3, e4⟩ := dga_run s nx ny nz N Ns niw beta u n hb0 hu G g S hg hg0 hG hfit hS G2D G2M hD hM label hB0 hsym
    "spch" R hR out h
  refine ⟨ΓD, ΓM, χD0, χM0, e3, ?_⟩
  intro hp locD locM hlD hlM d1 d2 m1 m2 χD χM hχ cD cM
  obtain ⟨hr, _, qD, qM, _⟩ := e4 hp χD χM hχ
  have sD := sectorial_grid nx ny nz niw (fun i j k x => phys (beta : ℂ) (χD i j k x))
    (fun i j k hi hj hk x hx => (hχ i j k hi hj hk x hx).2.1) qD cD
  have sM := sectorial_grid nx ny nz niw (fun i j k x => phys (beta : ℂ) (χM i j k x))
    (fun i j k hi hj hk x hx => (hχ i j k hi hj hk x hx).2.2.2) qM cM
  have tD : 1 / (beta : ℂ) * ((wn niw).map fun x => phys (beta : ℂ) (χD0 x)).sum = locD := by rw [sum_wn]; exact hlD
  have tM : 1 / (beta : ℂ) * ((wn niw).map fun x => phys (beta : ℂ) (χM0 x)).sum = locM := by rw [sum_wn]; exact hlM
  obtain ⟨r, d', m', hr', rest⟩ := Lam.spch_sum_rules_complex sD sM hk hb hb2 hbn hnw ((wn niw).map fun x => phys (beta : ℂ) (χD0 x))
    ((wn niw).map fun x => phys (beta : ℂ) (χM0 x)) (by rw [tD]; exact d1) (by rw [tD]; exact d2) (by rw [tM]; exact m1) (by rw [tM]; exact m2) hnq
  rw [hr] at hr'
  cases hr'
  rw [tD, tM, Complex.ofReal_re, Complex.ofReal_re] at rest
  exact ⟨d', m', rest⟩

/-- C128.  Mode 'sp' at the defaults: the density susceptibility is saved unchanged, the magnetic one is positive after the correction and
    the sum of the two channels equals the sum of the two local ones up to `1e-7` from above. -/
theorem run_sum_rule_sp {c : Nat} (s nx ny nz N Ns niw : Nat) (beta : ℝ) (u n : ℂ) (hk : 0 < nx * ny * nz)
    (hb : 1e-6 ≤ beta) (hb2 : beta ≤ 1e6) (hbn : beta * (nx * ny * nz : Nat) ≤ 5e7) (hnw : ((2 * niw + 1 : ℕ) : ℝ) ≤ 1e12)
    (hnq : ((nx * ny * nz : Nat) : ℝ) ≤ 1e12) (hu : star u = u)
    (G : Nat → Nat → Nat → Int → ℂ) (g S : Int → ℂ) (hg : ∀ n : Int, -(N : Int) ≤ n → n < N → g (-n - 1) = star (g n))
    (hg0 : ∀ m : Int, -(N : Int) ≤ m → m < N → g m ≠ 0)
    (hG : ∀ i j k, ∀ n : Int, -(N : Int) ≤ n → n < N → G i j k (-n - 1) = star (G i j k n))
    (hfit : niw + (c + s) ≤ N) (hS : c ≤ Ns) (G2D G2M : Int → Matrix (Fin (2 * c)) (Fin (2 * c)) ℂ)
    (hD : ∀ x ∈ Finset.Icc (-(niw : Int)) niw, ∀ i j, G2D (-x) i.rev j.rev = star (G2D x i j))
    (hM : ∀ x ∈ Finset.Icc (-(niw : Int)) niw, ∀ i j, G2M (-x) i.rev j.rev = star (G2M x i j))
    (label : Nat → Nat → Nat → Nat)
    (hB0 : ∀ i j k, i < nx → j < ny → k < nz → ∀ x ∈ Finset.Icc (-(niw : Int)) niw, ∀ a,
      onBox (c + s) (bubQ nx ny nz (beta : ℂ) G (i, j, k) x) a ≠ 0)
    (hsym : ∀ i j k i' j' k', i < nx → j < ny → k < nz → i' < nx → j' < ny → k' < nz → label i' j' k' = label i j k →
      ∀ x ∈ Finset.Icc (-(niw : Int)) niw,
        onBox (c + s) (bubQ nx ny nz (beta : ℂ) G (i', j', k') x) = onBox (c + s) (bubQ nx ny nz (beta : ℂ) G (i, j, k) x))
    (R : Nat) (hR : 0 < R) (out : RunOut)
    (h : dgaRun s R nx ny nz (flat3 (table nx ny nz label)) (objOf true niw (beta : ℂ) u G2D) (objOf false niw (beta : ℂ) u G2M)
        (genOf nx ny nz N niw (beta : ℂ) G g) beta "sp" u n (samplesF S Ns) = .ok out) :
    ∃ (ΓD ΓM : Int → Matrix (Fin (2 * c)) (Fin (2 * c)) ℂ) (χD0 χM0 : Int → Matrix (Fin (2 * (c + s))) (Fin (2 * (c + s))) ℂ),
      (∀ x ∈ Finset.Icc (-(niw : Int)) niw,
        Ladder (beta : ℂ) u (onBox (c + s) (bubLoc (beta : ℂ) g x)) (ΓD x) (χD0 x) ∧
        (∀ i j, χD0 x (core c s i) (core c s j) = gchiOf (beta : ℂ) g true G2D x i j) ∧
        Ladder (beta : ℂ) (-u) (onBox (c + s) (bubLoc (beta : ℂ) g x)) (ΓM x) (χM0 x) ∧
        (∀ i j, χM0 x (core c s i) (core c s j) = gchiOf (beta : ℂ) g false G2M x i j)) ∧
      ((∀ x ∈ Finset.Icc (-(niw : Int)) niw, phys (beta : ℂ) (χD0 x) ≠ 0 ∧ phys (beta : ℂ) (χM0 x) ≠ 0) →
        ∀ χD χM : Nat → Nat → Nat → Int → Matrix (Fin (2 * (c + s))) (Fin (2 * (c + s))) ℂ,
          (∀ i j k, i < nx → j < ny → k < nz → ∀ x ∈ Finset.Icc (-(niw : Int)) niw,
            Ladder (beta : ℂ) u (onBox (c + s) (bubQ nx ny nz (beta : ℂ) G (i, j, k) x)) (ΓD x) (χD i j k x) ∧
              phys (beta : ℂ) (χD i j k x) ≠ 0 ∧
            Ladder (beta : ℂ) (-u) (onBox (c + s) (bubQ nx ny nz (beta : ℂ) G (i, j, k) x)) (ΓM x) (χM i j k x) ∧
              phys (beta : ℂ) (χM i j k x) ≠ 0) →
          Cone nx ny nz niw (fun i j k x => phys (beta : ℂ) (χM i j k x)) →
          ∀ loc lat : ℝ, 1 / (beta : ℂ) * ∑ x ∈ Finset.Icc (-(niw : Int)) niw, (phys (beta : ℂ) (χM0 x) + phys (beta : ℂ) (χD0 x)) = loc →
            (Lam.totalC beta (gridArr nx ny nz niw fun i j k x => phys (beta : ℂ) (χD i j k x))).re = lat →
            1e-6 ≤ loc - lat → loc - lat ≤ 1e6 →
          ∃ m' : Fin (nx * ny * nz) → Fin (2 * niw + 1) → ℂ,
            out.chi.dens = Lam.rowsC (gridArr nx ny nz niw fun i j k x => phys (beta : ℂ) (χD i j k x)) ∧ out.chi.magn = Lam.rowsC m' ∧
            (∀ q w, 0 < (m' q w).re) ∧ (∀ q, (m' q (Lam.static niw)).im = 0) ∧ (Lam.totalC beta m').im = 0 ∧
            0 ≤ lat + (Lam.totalC beta m').re - loc ∧ lat + (Lam.totalC beta m').re - loc < 1e-7) := by
  have hb0 : beta ≠ 0 := by norm_num at hb; intro h0; linarith
  obtain ⟨ΓD, ΓM, χD0, χM0, e3, e4⟩ := dga_run s nx ny nz N Ns niw beta u n hb0 hu G g S hg hg0 hG hfit hS G2D G2M hD hM label hB0 hsym
    "sp" R hR out h
  refine ⟨ΓD, ΓM, χD0, χM0, e3, ?_⟩
  intro hp χD χM hχ cM loc lat hloc hlat t1 t2
  obtain ⟨hr, _, qD, qM, _⟩ := e4 hp χD χM hχ
  have sM := sectorial_grid nx ny nz niw (fun i j k x => phys (beta : ℂ) (χM i j k x))
    (fun i j k hi hj hk x hx => (hχ i j k hi hj hk x hx).2.2.2) qM cM
  have tL : 1 / (beta : ℂ) * (((wn niw).map fun x => phys (beta : ℂ) (χM0 x)).sum + ((wn niw).map fun x => phys (beta : ℂ) (χD0 x)).sum) = loc := by
    rw [sum_wn, sum_wn, ← Finset.sum_add_distrib]; exact hloc
  obtain ⟨r, m', hr', rest⟩ := Lam.sp_sum_rule_complex (dens := gridArr nx ny nz niw fun i j k x => phys (beta : ℂ) (χD i j k x)) sM hk hb hb2 hbn hnw
    hnq ((wn niw).map fun x => phys (beta : ℂ) (χD0 x)) ((wn niw).map fun x => phys (beta : ℂ) (χM0 x)) (by simp)
    (by rw [tL, hlat, Complex.ofReal_re]; exact t1) (by rw [tL, hlat, Complex.ofReal_re]; exact t2)
  rw [hr] at hr'
  cases hr'
  rw [tL, hlat, Complex.ofReal_re] at rest
  exact ⟨m', rest⟩

/-- the local sums are real, so that `locD`, `locM` of `run_sum_rules` exist -/
theorem sum_real (niw : Nat) (beta : ℝ) (C : Int → ℂ) (h : ∀ x ∈ Finset.Icc (-(niw : Int)) niw, C (-x) = (starRingEnd ℂ) (C x)) :
    ∃ r : ℝ, 1 / (beta : ℂ) * ∑ x ∈ Finset.Icc (-(niw : Int)) niw, C x = r := by
  have e : (starRingEnd ℂ) (∑ x ∈ Finset.Icc (-(niw : Int)) niw, C x) = ∑ x ∈ Finset.Icc (-(niw : Int)) niw, C x := by
    rw [map_sum, ← sum_wn_neg niw C]
    apply Finset.sum_congr rfl
    intro x hx
    rw [h x hx]
  refine ⟨(1 / (beta : ℂ) * ∑ x ∈ Finset.Icc (-(niw : Int)) niw, C x).re, ?_⟩
  symm
  rw [← Complex.conj_eq_iff_re, map_mul, e, map_div₀, map_one, Complex.conj_ofReal]

end DGA.Pipe
