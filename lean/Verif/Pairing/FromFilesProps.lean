/-
  C130: what a user gets out of the complete run, from the files to the Eliashberg eigenvalues.
-/
import Verif.Pairing.FromFilesChain

noncomputable section

namespace DGA.Pairing

open DGA.RankFiles DGA.Mpi DGA.Pipe DGA.Fp DGA.Mf DGA.Bz DGA.Bubble DGA.Two DGA.Inp
open DGA.Eli (Grid Run elCfg linearEliashberg)

local notation "conj" => starRingEnd ℂ

/-! ### symmetric data give symmetric vertices -/

theorem inv?_symm {n : Nat} (A X : Mat n ℂ) (h : inv? A = some X) (hs : ∀ i j, A i j = A j i) (i j : Fin n) : X i j = X j i := by
  unfold inv? at h
  split at h
  · simp at h
  · rw [Option.some.injEq] at h
    have ht : A.transpose = A := by ext a b; exact hs b a
    have : X.transpose = X := by rw [← h, Matrix.transpose_nonsing_inv, ht]
    exact congrFun (congrFun this j) i

theorem gamUrange_symm {c s : Nat} (χ : Mat (2 * c) ℂ) (g0 : Vec (2 * (c + s)) ℂ) (beta u : ℂ) (Γ : Mat (2 * c) ℂ)
    (h : gamUrangeW (s := s) χ g0 beta u = some Γ) (hs : ∀ i j, χ i j = χ j i) (i j : Fin (2 * c)) : Γ i j = Γ j i := by
  unfold gamUrangeW at h
  rw [Option.bind_eq_some_iff] at h
  obtain ⟨T, hT, h⟩ := h
  rw [Option.bind_eq_some_iff] at h
  obtain ⟨Co, hCo, h⟩ := h
  rw [Option.map_eq_some_iff] at h
  obtain ⟨ci, hci, rfl⟩ := h
  have t : ∀ a b, T a b = T b a := inv?_symm _ _ hT (by
    intro a b
    simp only [addC, Matrix.of_apply, Fp.diag]
    by_cases hab : a = b
    · subst hab; rfl
    · simp [hab, Ne.symm hab])
  have co : ∀ a b, Co a b = Co b a := inv?_symm _ _ hCo (fun a b => by unfold cut2; exact t _ _)
  have cc := inv?_symm _ _ hci hs
  simp only [addC, Matrix.of_apply, Matrix.sub_apply, co i j, cc i j]

theorem used_symm (sym : Bool) (D : Int → Int → Int → ℂ) (h : sym = true ∨ ∀ w v v', D w v v' = D w v' v) (w v v' : Int) :
    used sym D w v v' = used sym D w v' v := by
  unfold used
  cases sym
  · rcases h with h | h
    · cases h
    · exact h w v v'
  · simp only [if_true]
    ring

theorem gchiOf_symm {c : Nat} (beta : ℂ) (g : Int → ℂ) (dens : Bool) (F : Int → Int → Int → ℂ) (hF : ∀ w v v', F w v v' = F w v' v) (x : Int)
    (i j : Fin (2 * c)) : gchiOf beta g dens (onBox2 c F) x i j = gchiOf beta g dens (onBox2 c F) x j i := by
  unfold gchiOf
  simp only [onBox2, Matrix.of_apply]
  rw [hF, mul_comm (g _)]

/-- d-wave gaps from a saved vertex, in terms of grid points -/
theorem d_wave_pts {nx ny nz c : Nat} [NeZero nx] [NeZero ny] [NeZero nz] (hn : nx = ny) (W : Saved nx ny nz c)
    (hsq : Bz.Sym.xInv ∈ W.syms ∧ Bz.Sym.yInv ∈ W.syms ∧ Bz.Sym.xySym ∈ W.syms) (rr : Run nx ny nz W.npp) (hl' : W.Loads rr) (hk' : rr.kSym = "d-wave")
    (hG' : ∀ σ ∈ W.syms, ∀ (k k' : Grid nx ny nz) (m : Int), ptOf k' = Bz.image nx ny nz σ (ptOf k) → rr.G k' m = rr.G k m)
    (l : List (ℂ × (Grid nx ny nz × Fin (2 * W.npp) → ℂ))) (hl : rr.result = some l) :
    ∀ p ∈ l, ∀ (k k' : Grid nx ny nz) (v : Fin (2 * W.npp)),
      ((ptOf k' = Bz.image nx ny nz .xInv (ptOf k) ∨ ptOf k' = Bz.image nx ny nz .yInv (ptOf k)) → p.2 (k', v) = p.2 (k, v)) ∧
      (ptOf k' = Bz.image nx ny nz .xySym (ptOf k) → p.2 (k', v) = -p.2 (k, v)) := by
  subst hn
  have key := saved_d_wave W hsq rr hl' hk' (fun k m => ⟨hG' _ hsq.1 k _ m (Saved.ptOf_neg k).1,
    hG' _ hsq.2.1 k _ m (Saved.ptOf_neg k).2.1, hG' _ hsq.2.2 k _ m (by simp [ptOf, Bz.image])⟩) l hl
  intro p hp k k' v
  have inj : ∀ a b : Grid nx nx nz, ptOf a = ptOf b → a = b := by
    intro a b hab
    unfold ptOf at hab
    simp only [Prod.mk.injEq] at hab
    exact Prod.ext (ZMod.val_injective _ hab.1) (Prod.ext (ZMod.val_injective _ hab.2.1) (ZMod.val_injective _ hab.2.2))
  obtain ⟨a1, a2, a3⟩ := key p hp k v
  refine ⟨?_, ?_⟩
  · rintro (e | e)
    · rw [inj _ _ (e.trans (Saved.ptOf_neg k).1.symm)]; exact a1
    · rw [inj _ _ (e.trans (Saved.ptOf_neg k).2.1.symm)]; exact a2
  · intro e
    rw [inj k' (k.2.1, k.1, k.2.2) (e.trans (by simp [ptOf, Bz.image]))]; exact a3

namespace Files

variable {fs : Fs} {ty path f1 : String} {f2 : Option String} {S : Settings} (I : Files fs ty path f1 f2 S)
variable [NeZero S.nx] [NeZero S.ny] [NeZero S.nz] (E : EliSettings) (X : Chance S.nx S.ny S.nz)

/-- **C130 (a).** Whenever the complete run returns, the run of C129 has returned with the same result; the pairing box has half the size of the smaller
    of the two core boxes, each channel has as many eigenvalues as asked for; and both pairing vertices are Hermitian in the two frequencies,
    conjugate when both frequencies are reversed and equal at momenta related by the lattice symmetries — for every number of ranks. -/
theorem eli_run (r : EliOut S.nx S.ny S.nz) (h : mainEli fs ty path f1 f2 S E X = .ok r) :
    mainRun fs ty path f1 f2 S = .ok r.main ∧ r.npp = min (I.w / 2) (I.c / 2) ∧ r.sing.length = E.nEig ∧ r.trip.length = E.nEig ∧
    ∀ F, F = r.fSing ∨ F = r.fTrip → ∀ (q q' : Grid S.nx S.ny S.nz) (v v' : Fin (2 * r.npp)),
      conj (F q v v') = F q v' v ∧ F q v.rev v'.rev = conj (F q v v') ∧
      (Bz.Related S.nx S.ny S.nz S.syms (ptOf q) (ptOf q') → F q v v' = F q' v v') := by
  obtain ⟨out, V, hn, mu, ls, lt, h1, h2, h3, h4, rfl⟩ := I.eli_chain E X r h
  refine ⟨h1, V.npp_eq, (Eli.driver_total _).2 ls h3, (Eli.driver_total _).2 lt h4, ?_⟩
  rw [← V.hsyms]
  rintro F (rfl | rfl) q q' v v'
  · exact V.Sv.symmetries true q q' v v'
  · exact V.Sv.symmetries false q q' v v'

include I in
/-- **C130 (b).** Named start gap, no shift: whenever the complete run returns, all eigenvalues written in both channels are real and the gaps obey
    `Delta(k,-v) = ± conj Delta(k,v)` with the sign of their start gap. -/
theorem eli_real (hk : E.kSym ∈ Eli.namedK) (hs : E.shiftMat = false) (r : EliOut S.nx S.ny S.nz) (h : mainEli fs ty path f1 f2 S E X = .ok r) :
    (∀ p ∈ r.sing, p.1.im = 0 ∧ ∀ k v, p.2 (k, v.rev) = Eli.startSign E.kSym "sing" * conj (p.2 (k, v))) ∧
    (∀ p ∈ r.trip, p.1.im = 0 ∧ ∀ k v, p.2 (k, v.rev) = Eli.startSign E.kSym "trip" * conj (p.2 (k, v))) := by
  obtain ⟨out, V, hn, mu, ls, lt, h1, h2, h3, h4, rfl⟩ := I.eli_chain E X r h
  have hG : ∀ ch, ∀ k n, (V.solver E X mu hn ch).G k (-n - 1) = conj ((V.solver E X mu hn ch).G k n) := by
    intro ch k n
    exact gFull_symm _ _ _ _ _
  exact ⟨V.Sv.reported_eigenvalues_real (V.solver E X mu hn "sing") rfl hk (hG _) hs ls h3,
    V.Sv.reported_eigenvalues_real (V.solver E X mu hn "trip") rfl hk (hG _) hs lt h4⟩

/-! ### The Green's function of the run and the kernel -/

/-- the Green's function of the Eliashberg equation: Dyson's equation with the saved self-energy and the band at the chemical potential of the run -/
def gDga (S : Settings) [NeZero S.nx] [NeZero S.ny] [NeZero S.nz] (r : EliOut S.nx S.ny S.nz) (k : Grid S.nx S.ny S.nz) (m : Int) : ℂ :=
  1 / (iv r.main.sigma.beta m + (r.mu : ℂ) - (((bloch S.hr (kPt S.nx S.ny S.nz k.1.val k.2.1.val k.2.2.val)).re : ℝ) : ℂ) -
    sigmaSpec r.main.sigma (rowOf r.main.sigma (flatQ k)) m)

theorem gDga_eq (S : Settings) [NeZero S.nx] [NeZero S.ny] [NeZero S.nz] (r : EliOut S.nx S.ny S.nz) :
    gDga S r = fun k m => gVal r.main.sigma (bandOf S) r.mu (flatQ k) m := by
  funext k m
  unfold gDga gVal
  rw [bandOf_at]

include I in
/-- the saved self-energy and the band, hence Dyson's equation, have the symmetry of the lattice -/
theorem gVal_image (out : MainOut) (h : mainRun fs ty path f1 f2 S = .ok out) (mu : ℝ) (σ : Bz.Sym) (hσ : σ ∈ S.syms) (k k' : Grid S.nx S.ny S.nz)
    (e : ptOf k' = Bz.image S.nx S.ny S.nz σ (ptOf k)) (m : Int) :
    gVal out.sigma (bandOf S) mu (flatQ k') m = gVal out.sigma (bandOf S) mu (flatQ k) m := by
  rw [I.mainRun_eq] at h
  obtain ⟨Sig, -, hsym, hsig, -, hcore⟩ := I.calc_sigma out h
  have hrow : rowOf out.sigma (flatQ k') = rowOf out.sigma (flatQ k) := by
    rw [rowOf_flat S out.sigma _ hsig, rowOf_flat S out.sigma _ hsig]
    apply List.map_congr_left
    intro l _
    by_cases hl : l < I.c
    · rw [if_pos hl, if_pos hl]
      have := hsym σ hσ (ptOf k) (ptOf_inGrid k) l (by omega) (by omega)
      rw [← e] at this
      exact this
    · rw [if_neg hl, if_neg hl]
  have hek : ekOf (bandOf S) (flatQ k') = ekOf (bandOf S) (flatQ k) := by
    rw [bandOf_at, bandOf_at]
    have := I.lat.sym σ hσ (ptOf k) (ptOf_inGrid k)
    rw [← e] at this
    unfold ptOf at this
    rw [this]
  unfold gVal
  rw [hrow, hek]

include I in
/-- **C130 (c).** d-wave start gap on a square grid with the square-lattice symmetries: every gap function the complete run writes, in both channels,
    with or without shift, is even under `kx → -kx` and `ky → -ky` and odd under exchange of `kx` and `ky`. -/
theorem eli_d_wave (hn : S.nx = S.ny) (hsq : Bz.Sym.xInv ∈ S.syms ∧ Bz.Sym.yInv ∈ S.syms ∧ Bz.Sym.xySym ∈ S.syms) (hk : E.kSym = "d-wave")
    (r : EliOut S.nx S.ny S.nz) (h : mainEli fs ty path f1 f2 S E X = .ok r) :
    ∀ l, l = r.sing ∨ l = r.trip → ∀ p ∈ l, ∀ (k k' : Grid S.nx S.ny S.nz) (v : Fin (2 * r.npp)),
      ((ptOf k' = Bz.image S.nx S.ny S.nz .xInv (ptOf k) ∨ ptOf k' = Bz.image S.nx S.ny S.nz .yInv (ptOf k)) → p.2 (k', v) = p.2 (k, v)) ∧
      (ptOf k' = Bz.image S.nx S.ny S.nz .xySym (ptOf k) → p.2 (k', v) = -p.2 (k, v)) := by
  obtain ⟨out, V, hn', mu, ls, lt, h1, h2, h3, h4, rfl⟩ := I.eli_chain E X r h
  have hG : ∀ σ ∈ S.syms, ∀ (k k' : Grid S.nx S.ny S.nz) (m : Int), ptOf k' = Bz.image S.nx S.ny S.nz σ (ptOf k) →
      gVal out.sigma (bandOf S) mu (flatQ k') m = gVal out.sigma (bandOf S) mu (flatQ k) m :=
    fun σ hσ k k' m e => I.gVal_image out h1 mu σ hσ k k' e m
  have main : ∀ ch l, (V.solver E X mu hn' ch).result = some l → ∀ p ∈ l, ∀ (k k' : Grid S.nx S.ny S.nz) (v : Fin (2 * V.Sv.npp)),
      ((ptOf k' = Bz.image S.nx S.ny S.nz .xInv (ptOf k) ∨ ptOf k' = Bz.image S.nx S.ny S.nz .yInv (ptOf k)) → p.2 (k', v) = p.2 (k, v)) ∧
      (ptOf k' = Bz.image S.nx S.ny S.nz .xySym (ptOf k) → p.2 (k', v) = -p.2 (k, v)) := by
    intro ch l hl
    exact d_wave_pts hn V.Sv (by rw [V.hsyms]; exact hsq) (V.solver E X mu hn' ch) rfl hk (fun σ hσ => hG σ (by rw [← V.hsyms]; exact hσ)) l hl
  rintro l (e | e)
  · rw [e]; exact main _ _ h3
  · rw [e]; exact main _ _ h4

include I in
/-- **C130 (d).** What is solved in each channel: power iterations of the kernel with the saved pairing vertex and Dyson's equation for the saved
    self-energy.  With inversion among the lattice symmetries and the symmetrisation flag of a channel set, this kernel has only real eigenvalues. -/
theorem eli_kernel (r : EliOut S.nx S.ny S.nz) (h : mainEli fs ty path f1 f2 S E X = .ok r) :
    ∀ ch l sym F, (ch = "sing" ∧ l = r.sing ∧ sym = E.symSing ∧ F = r.fSing ∨ ch = "trip" ∧ l = r.trip ∧ sym = E.symTrip ∧ F = r.fTrip) →
      ∃ A, A = Eli.kernel (Eli.gammaOf r.npp F sym ch) (Eli.gkOf r.npp (gDga S r)) (((S.nx * S.ny * S.nz : Nat) : ℂ) * I.beta) ∧
        l = Eli.getEig A E.shiftMat E.eps E.maxCount (Eli.gap0Of r.npp E.kSym ch (X.rk ch) (X.rv ch)) (X.gap0s ch r.npp) E.nEig ∧
        (sym = true → (Bz.Sym.xInv ∈ S.syms ∧ Bz.Sym.yInv ∈ S.syms ∧ (Bz.Sym.zInv ∈ S.syms ∨ S.nz = 1)) → (∀ k m, gDga S r k m ≠ 0) →
          ∀ ev : ℂ, Eli.Eig A ev → ev.im = 0) := by
  obtain ⟨out, V, hn', mu, ls, lt, h1, h2, h3, h4, rfl⟩ := I.eli_chain E X r h
  have hg := gDga_eq S ⟨out, V.Sv.npp, V.Sv.F true, V.Sv.F false, mu, ls, lt⟩
  simp only at hg
  have main : ∀ ch l sym, (ch = "sing" ∧ sym = E.symSing ∨ ch = "trip" ∧ sym = E.symTrip) → (V.solver E X mu hn' ch).result = some l →
      ∃ A, A = Eli.kernel (Eli.gammaOf V.Sv.npp (V.Sv.F (ch = "sing")) sym ch) (Eli.gkOf V.Sv.npp fun k m => gVal out.sigma (bandOf S) mu (flatQ k) m)
          (((S.nx * S.ny * S.nz : Nat) : ℂ) * I.beta) ∧
        l = Eli.getEig A E.shiftMat E.eps E.maxCount (Eli.gap0Of V.Sv.npp E.kSym ch (X.rk ch) (X.rv ch)) (X.gap0s ch V.Sv.npp) E.nEig ∧
        (sym = true → (Bz.Sym.xInv ∈ S.syms ∧ Bz.Sym.yInv ∈ S.syms ∧ (Bz.Sym.zInv ∈ S.syms ∨ S.nz = 1)) →
          (∀ k m, gVal out.sigma (bandOf S) mu (flatQ (nx := S.nx) (ny := S.ny) (nz := S.nz) k) m ≠ 0) → ∀ ev : ℂ, Eli.Eig A ev → ev.im = 0) := by
    intro ch l sym hch hl
    have hc : ch = "sing" ∨ ch = "trip" := hch.imp And.left And.left
    have hsy : (if ch = "sing" then E.symSing else E.symTrip) = sym := by
      rcases hch with ⟨rfl, rfl⟩ | ⟨rfl, rfl⟩ <;> simp
    have hA : (V.solver E X mu hn' ch).A = Eli.kernel (Eli.gammaOf V.Sv.npp (V.Sv.F (ch = "sing")) sym ch)
        (Eli.gkOf V.Sv.npp fun k m => gVal out.sigma (bandOf S) mu (flatQ k) m) (((S.nx * S.ny * S.nz : Nat) : ℂ) * I.beta) := by
      unfold Run.A VertexOf.solver
      simp only [hsy]
    rw [Run.result_eq _ hc] at hl
    refine ⟨(V.solver E X mu hn' ch).A, hA, (Option.some.inj hl).symm, ?_⟩
    intro hs hinv hg0 ev hev
    refine saved_eigenvalues_real V.Sv ?_ (V.solver E X mu hn' ch) rfl (hsy.trans hs) (fun k n => gFull_symm _ _ _ _ _) hg0 ev hev
    unfold Saved.Inversion
    rw [V.hsyms]
    exact hinv
  rintro ch l sym F (⟨a1, a2, a3, a4⟩ | ⟨a1, a2, a3, a4⟩)
  · rw [hg, a1, a2, a3, a4]
    exact main "sing" ls _ (Or.inl ⟨rfl, rfl⟩) h3
  · rw [hg, a1, a2, a3, a4]
    exact main "trip" lt _ (Or.inr ⟨rfl, rfl⟩) h4

/-- **C130 (e).** The saved pairing vertices are what the theory says.  For a causal self-energy, non-vanishing bubbles and two-particle data that are
    symmetric in the two fermionic frequencies (or symmetrised by the program) there are irreducible vertices that reproduce the data of the
    files through the impurity's ladder, and for every solution of the lattice ladder with these vertices and non-vanishing susceptibilities,
    `F_sing = -(3/2 F_magn - 1/2 F_dens)` and `F_trip = -(1/2 F_magn + 1/2 F_dens)` at all momenta and all frequencies `v`, `-v'-1`, transfer
    `v - v'`, with the lambda-corrected full vertices. -/
theorem eli_vertex (hcausal : ∀ m : Nat, m < I.N → (I.Sg m).im ≤ 0)
    (hB0 : ∀ i j k, i < S.nx → j < S.ny → k < S.nz → ∀ x ∈ Finset.Icc (-(I.w : Int)) I.w, ∀ a,
      Pipe.onBox (I.c + I.sh) (bubQ S.nx S.ny S.nz (I.beta : ℂ) (runG S I.mu I.beta I.Sg I.N) (i, j, k) x) a ≠ 0)
    (hDs : S.symVVp = true ∨ ∀ w v v', I.D w v v' = I.D w v' v) (hMs : S.symVVp = true ∨ ∀ w v v', I.M w v v' = I.M w v' v)
    (r : EliOut S.nx S.ny S.nz) (h : mainEli fs ty path f1 f2 S E X = .ok r) :
    ∃ (ΓD ΓM : Int → Matrix (Fin (2 * I.c)) (Fin (2 * I.c)) ℂ) (χD0 χM0 : Int → Matrix (Fin (2 * (I.c + I.sh))) (Fin (2 * (I.c + I.sh))) ℂ),
      (∀ x ∈ Finset.Icc (-(I.w : Int)) I.w,
        Ladder (I.beta : ℂ) I.u (Pipe.onBox (I.c + I.sh) (bubLoc (I.beta : ℂ) (runGloc S I.mu I.beta I.Sg I.N) x)) (ΓD x) (χD0 x) ∧
        (∀ i j, χD0 x (core I.c I.sh i) (core I.c I.sh j) =
          gchiOf (I.beta : ℂ) (runGloc S I.mu I.beta I.Sg I.N) true (onBox2 I.c (used S.symVVp I.D)) x i j) ∧
        Ladder (I.beta : ℂ) (-I.u) (Pipe.onBox (I.c + I.sh) (bubLoc (I.beta : ℂ) (runGloc S I.mu I.beta I.Sg I.N) x)) (ΓM x) (χM0 x) ∧
        (∀ i j, χM0 x (core I.c I.sh i) (core I.c I.sh j) =
          gchiOf (I.beta : ℂ) (runGloc S I.mu I.beta I.Sg I.N) false (onBox2 I.c (used S.symVVp I.M)) x i j)) ∧
      ∀ χD χM : Nat → Nat → Nat → Int → Matrix (Fin (2 * (I.c + I.sh))) (Fin (2 * (I.c + I.sh))) ℂ,
        (∀ i j k, i < S.nx → j < S.ny → k < S.nz → ∀ x ∈ Finset.Icc (-(I.w : Int)) I.w,
          Ladder (I.beta : ℂ) I.u (Pipe.onBox (I.c + I.sh) (bubQ S.nx S.ny S.nz (I.beta : ℂ) (runG S I.mu I.beta I.Sg I.N) (i, j, k) x)) (ΓD x) (χD i j k x) ∧
            phys (I.beta : ℂ) (χD i j k x) ≠ 0 ∧
          Ladder (I.beta : ℂ) (-I.u) (Pipe.onBox (I.c + I.sh) (bubQ S.nx S.ny S.nz (I.beta : ℂ) (runG S I.mu I.beta I.Sg I.N) (i, j, k) x)) (ΓM x) (χM i j k x) ∧
            phys (I.beta : ℂ) (χM i j k x) ≠ 0) →
        ∀ (q : Grid S.nx S.ny S.nz) (i j : Fin (2 * r.npp)) (v v' : Int), v = (i : Nat) - (r.npp : Int) → v' = (j : Nat) - (r.npp : Int) →
          ∀ B FM FD, B = Pipe.onBox (I.c + I.sh) (bubQ S.nx S.ny S.nz (I.beta : ℂ) (runG S I.mu I.beta I.Sg I.N) (q.1.val, q.2.1.val, q.2.2.val) (v - v')) →
            FM = atFreq (vertexLam I.beta (-I.u) (lamOf S.lambdaCorr r.main.run.chi).2 B (χM q.1.val q.2.1.val q.2.2.val (v - v'))) v (-v' - 1) →
            FD = atFreq (vertexLam I.beta I.u (lamOf S.lambdaCorr r.main.run.chi).1 B (χD q.1.val q.2.1.val q.2.2.val (v - v'))) v (-v' - 1) →
            r.fSing q i j = -(3 / 2 * FM - 1 / 2 * FD) ∧ r.fTrip q i j = -(1 / 2 * FM + 1 / 2 * FD) := by
  obtain ⟨out, V, hn', mu, ls, lt, h1, h2, h3, h4, rfl⟩ := I.eli_chain E X r h
  have hc := h1
  rw [I.mainRun_eq] at hc
  obtain ⟨mp, hmp, hbx, hrun, hcr⟩ := calcFrom_eq S I.d I.n I.beta I.u I.mu I.N I.Sg I.siw I.d_n I.d_beta I.d_u I.d_mu I.w I.c I.sh I.as I.hN
    (used S.symVVp I.D) (used S.symVVp I.M) out hc
  have hinv := gBand_invariant I.lat I.mu (siwObj (samplesF I.Sg I.N) I.beta) (posHalf I.Sg I.N)
  obtain ⟨label, hlab, hsymB⟩ := bubble_labels S.nx S.ny S.nz (I.c + I.sh) I.w (I.beta : ℂ) S.syms mp hmp _ hinv
  rw [hlab] at hrun
  have hk : 0 < S.nx * S.ny * S.nz :=
    Nat.mul_pos (Nat.mul_pos (Nat.pos_of_ne_zero (NeZero.ne _)) (Nat.pos_of_ne_zero (NeZero.ne _))) (Nat.pos_of_ne_zero (NeZero.ne _))
  obtain ⟨d, m, loc, ΓD, ΓM, χD0, χM0, c1, c2, c3, c4, -⟩ := dga_run_core I.sh S.nx S.ny S.nz I.NG I.N I.w I.beta (I.u : ℂ) (I.n : ℂ) I.beta_pos.ne' I.G I.gloc I.Sg
    (fun m _ _ => I.gloc_conj m) (fun m _ _ => gLoc_ne_zero S.nx S.ny S.nz hk S.hr I.mu I.Sg I.N I.beta I.beta_pos I.hN hcausal m)
    (fun i j k m _ _ => I.G_conj i j k m) I.fit I.cN _ _ label hB0 hsymB _ S.ranks I.ranks _ hrun
  have hloc := V.hloc
  unfold localRun at hloc
  rw [hloc] at c1
  simp only [Option.some.injEq, Prod.mk.injEq] at c1
  obtain ⟨rfl, rfl, rfl⟩ := c1
  have eD : ∀ x ∈ wn I.w, V.ΓD x = ΓD x := fun x hx => objOf_inj (V.gamD.symm.trans c2) x hx
  have eM : ∀ x ∈ wn I.w, V.ΓM x = ΓM x := fun x hx => objOf_inj (V.gamM.symm.trans c3) x hx
  have mem : ∀ x : Int, -(I.w : Int) ≤ x ∧ x ≤ I.w → x ∈ wn I.w := fun x hx => (mem_wn I.w x).2 hx
  refine ⟨ΓD, ΓM, χD0, χM0, c4, ?_⟩
  intro χD χM hχ q i j v v' hv hv' B FM FD hB hFM hFD
  have q1 := ZMod.val_lt q.1
  have q2 := ZMod.val_lt q.2.1
  have q3 := ZMod.val_lt q.2.2
  have hlam := lamOf_real S.lambdaCorr out.run.chi
  have hmom : momOf (ptOf q) = ((q.1.val : Int), (q.2.1.val : Int), (q.2.2.val : Int)) := rfl
  have main : ∀ sing, V.Sv.F sing q i j = -((if sing then 3 / 2 else 1 / 2) * FM + (if sing then -(1 / 2) else 1 / 2) * FD) := by
    intro sing
    obtain ⟨iq, g1, g2⟩ := V.Sv.value sing q
    obtain ⟨hok, hbub⟩ := V.hrep q iq g1
    rw [hmom] at hbub
    have hi := i.isLt
    have hj := j.isLt
    have hp : V.Sv.npp = nivPP I.w I.c := V.npp_eq
    have hp' : 2 * V.Sv.npp ≤ I.w + 1 ∧ V.Sv.npp ≤ I.c := by rw [hp]; unfold nivPP; omega
    rw [g2, V.hC]
    have RM : (I.theCalc (lamReal S.lambdaCorr out.run.chi) V.ΓD V.ΓM V.hD V.hM V.rep).Regular (-(I.u : ℝ) : ℂ) V.ΓM (V.rep iq)
        (χM q.1.val q.2.1.val q.2.2.val) := by
      refine ⟨by exact_mod_cast I.beta_pos.ne', ?_, ?_, ?_, ?_, ?_⟩
      · intro x hx a
        show Pipe.onBox (I.c + I.sh) (bubQ S.nx S.ny S.nz (I.beta : ℂ) I.G (V.rep iq) x) a ≠ 0
        rw [hbub]
        exact hB0 _ _ _ q1 q2 q3 x (Finset.mem_Icc.2 hx) a
      · intro x hx a b
        exact gamUrange_symm _ _ _ _ _ (V.invM x (mem x hx)) (fun a b => gchiOf_symm _ _ _ _ (used_symm _ _ hMs) _ a b) a b
      · intro x hx
        exact hok.2 x (mem x hx)
      · intro x hx
        show Ladder (I.beta : ℂ) (-I.u) (Pipe.onBox (I.c + I.sh) (bubQ S.nx S.ny S.nz (I.beta : ℂ) I.G (V.rep iq) x)) (V.ΓM x) _
        rw [hbub, eM x (mem x hx)]
        exact (hχ _ _ _ q1 q2 q3 x (Finset.mem_Icc.2 hx)).2.2.1
      · intro x hx
        exact (hχ _ _ _ q1 q2 q3 x (Finset.mem_Icc.2 hx)).2.2.2
    have RD : (I.theCalc (lamReal S.lambdaCorr out.run.chi) V.ΓD V.ΓM V.hD V.hM V.rep).Regular ((I.u : ℝ) : ℂ) V.ΓD (V.rep iq)
        (χD q.1.val q.2.1.val q.2.2.val) := by
      refine ⟨by exact_mod_cast I.beta_pos.ne', ?_, ?_, ?_, ?_, ?_⟩
      · intro x hx a
        show Pipe.onBox (I.c + I.sh) (bubQ S.nx S.ny S.nz (I.beta : ℂ) I.G (V.rep iq) x) a ≠ 0
        rw [hbub]
        exact hB0 _ _ _ q1 q2 q3 x (Finset.mem_Icc.2 hx) a
      · intro x hx a b
        exact gamUrange_symm _ _ _ _ _ (V.invD x (mem x hx)) (fun a b => gchiOf_symm _ _ _ _ (used_symm _ _ hDs) _ a b) a b
      · intro x hx
        exact hok.1 x (mem x hx)
      · intro x hx
        show Ladder (I.beta : ℂ) I.u (Pipe.onBox (I.c + I.sh) (bubQ S.nx S.ny S.nz (I.beta : ℂ) I.G (V.rep iq) x)) (V.ΓD x) _
        rw [hbub, eD x (mem x hx)]
        exact (hχ _ _ _ q1 q2 q3 x (Finset.mem_Icc.2 hx)).1
      · intro x hx
        exact (hχ _ _ _ q1 q2 q3 x (Finset.mem_Icc.2 hx)).2.1
    have hv0 : -(V.Sv.npp : Int) ≤ v ∧ v < V.Sv.npp := by simp only at hv; omega
    have hv0' : -(V.Sv.npp : Int) ≤ v' ∧ v' < V.Sv.npp := by simp only at hv'; omega
    have hpp := Calc.pp_value RM RD sing v v' (by omega) (by omega) (by show -(I.w : Int) ≤ v - v' ∧ v - v' ≤ I.w; omega)
    simp only at hv hv'
    rw [← hv, ← hv', hpp, hFM, hFD, hB]
    have hb2 : (I.theCalc (lamReal S.lambdaCorr out.run.chi) V.ΓD V.ΓM V.hD V.hM V.rep).B (V.rep iq) =
        bubQ S.nx S.ny S.nz (I.beta : ℂ) (runG S I.mu I.beta I.Sg I.N) (q.1.val, q.2.1.val, q.2.2.val) := hbub
    simp only [theCalc] at hb2 ⊢
    rw [hb2, hlam]
  refine ⟨?_, ?_⟩
  · have := main true
    simp only [if_true] at this
    show V.Sv.F true q i j = _
    rw [this]; ring
  · have := main false
    simp only [Bool.false_eq_true, if_false] at this
    show V.Sv.F false q i j = _
    rw [this]

end Files

end DGA.Pairing
