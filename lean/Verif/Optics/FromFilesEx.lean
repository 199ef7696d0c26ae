/-
  The input of Pairing/FromFilesEx.lean continued to the optical conductivity: it meets every hypothesis of C133.
-/
import Verif.Optics.FromFilesProps
import Verif.Pairing.FromFilesEx

noncomputable section

namespace DGA.Pairing.Ex4

open DGA.RankFiles DGA.Mpi DGA.Pipe DGA.Fp DGA.Mf DGA.Bz DGA.Bubble DGA.Two DGA.Inp DGA.Wan

/-- the band of every calculation has velocities -/
theorem velocity (S : Settings) (der : Fin 3) : ∃ A, IsVelocity S der A := by
  refine ⟨fun i j k => (lightAt S der i j k).re, fun i j k hi hj hk => ?_⟩
  have h1 := Wan.getLightVertex_is_derivative S.hr S.nx S.ny S.nz i j k hj hk der 0 0
  simp only at h1
  have h2 := Complex.reCLM.hasFDerivAt.comp_hasDerivAt _ h1
  have e : (fun x => bandAt S (Function.update (kPoint S i j k) der x)) =
      Complex.reCLM ∘ fun x : ℝ => Wan.convham S.hr (fun c (_ : Unit) => if c = der then x else kPoint S i j k c) () 0 0 := by
    funext x
    have e1 : (fun c => if c = der then x else kPoint S i j k c) = Function.update (kPoint S i j k) der x := by
      funext c
      unfold Function.update
      simp only [eq_rec_constant, dite_eq_ite]
    rw [← e1]
    rfl
  rw [e]
  exact h2

/-- the ranges the defaults stand for in this calculation -/
theorem ranges : ({} : Cfg.Optics).setRanges ⟨(theFiles.w : Int), theFiles.c, theFiles.sh, theFiles.as⟩ =
    some (⟨1, 1, 2, 4, 1⟩, ⟨(theFiles.w : Int), theFiles.c, theFiles.sh, ((6 : Nat) : Int)⟩) := by rfl

theorem optics_returns (derA derB : Fin 3) (mu : ℝ) :
    ∃ r, mainOptics fs "test" "in/" "data.npy" none S {} derA derB (X mu).newton = .ok r ∧ r.mu = mu ∧ r.ranges = ⟨1, 1, 2, 4, 1⟩ := by
  obtain ⟨out, h⟩ := returns
  have hr : mainRun fs "test" "in/" "data.npy" none (withAs S 6) = .ok out := by
    rw [(theFiles.enlarge 6 le_rfl).mainRun_eq]
    rw [theFiles.mainRun_eq] at h
    exact h
  obtain ⟨r, h1, _, h3, h4⟩ := theFiles.opt_returns {} derA derB (X mu).newton (by decide) _ 6 ranges (by decide) out hr mu
    (by simp [gfMu, updateMu, X]; norm_num)
  exact ⟨r, h1, h3, h4⟩

/-- (a) to (e) of C133: the run returns on two ranks and on five, velocities exist -/
example : ∃ r A, mainOptics fs "test" "in/" "data.npy" none S {} 0 0 (X 1).newton = .ok r ∧
    mainOptics fs "test" "in/" "data.npy" none { S with ranks := 5 } {} 0 0 (X 1).newton = .ok r ∧ S.ranks = 2 ∧ IsVelocity S 0 A ∧ r.vert.length = 3 ∧
    r.bubble.length = 3 := by
  obtain ⟨r, h, _, h4⟩ := optics_returns 0 0 1
  obtain ⟨A, hA⟩ := velocity S 0
  obtain ⟨a, -, -, -, -, -, -, -, -, -, -, l1, l2, -⟩ := theFiles.opt_run {} 0 0 (X 1).newton (by decide) r h
  rw [h4] at l1 l2
  simp only at l1 l2
  exact ⟨r, A, h, (theFiles.opt_ranks {} 0 0 (X 1).newton (by decide) 5 (by norm_num)).trans h, rfl, hA, by omega, by omega⟩

/-- (f) of C133: causal, symmetric data, bubbles that do not vanish -/
example : theFiles.w ≤ theFiles.sh + theFiles.as ∧
    (∀ m : Nat, m < theFiles.N → (theFiles.Sg m).im ≤ 0) ∧ (∀ w v v', theFiles.D w v v' = theFiles.D w v' v) ∧
    (∀ w v v', theFiles.M w v v' = theFiles.M w v' v) ∧
    ∀ i j k, i < S.nx → j < S.ny → k < S.nz → ∀ x ∈ Finset.Icc (-(theFiles.w : Int)) theFiles.w, ∀ a,
      Pipe.onBox (theFiles.c + theFiles.sh) (bubQ S.nx S.ny S.nz (theFiles.beta : ℂ) (runG S theFiles.mu theFiles.beta theFiles.Sg theFiles.N) (i, j, k) x) a ≠ 0 := by
  refine ⟨by decide, fun m _ => by simp [theFiles], fun w v v' => dat_symm true w v v', fun w v v' => dat_symm false w v v', ?_⟩
  intro i j k _ _ _ x hx a
  have hx' : -2 ≤ x ∧ x ≤ 2 := by
    rw [Finset.mem_Icc] at hx
    exact hx
  exact (denoms _ x hx' (fun v hv => bubQ_at (i, j, k) x v hx' hv)).2.2.2 a

end DGA.Pairing.Ex4
