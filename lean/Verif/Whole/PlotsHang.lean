/-
  C152 (d): what the figures of the main program mean for a run on several processes (C96-C99): src/dga/dga_main.py:82-83, 95-96, 258-263, 283.
-/
import Verif.Whole.PlotsEx
import Verif.Spmd.Main2

noncomputable section

namespace DGA.Whole

open DGA.Inp DGA.Pipe DGA.Shared DGA.Pairing

/-! ### Specification -/

/-- The switches of the parallel program that the figures depend on are those of the settings, of a box of `w` bosonic frequencies and of the polynomial fits. -/
structure SameRun (S : Settings) (w : Nat) (F : Option (Nat × Nat)) (f : DGA.Spmd.Flags) : Prop where
  niw : f.niw = w
  nx : f.nx = S.nx
  ny : f.ny = S.ny
  nz : f.nz = S.nz
  fits : f.polyFit = F.isSome

/-- Nothing else is wrong with the configuration (C99): not too many processes, Eliashberg only with the pairing vertex, the optics section only with the bubble, continuation on
    grids with equally many irreducible points. -/
structure OtherwiseFine (n : Nat) (f : DGA.Spmd.Flags) : Prop where
  pos : 0 < n
  size : n ≤ f.nkIrr
  eliash : f.eliash = true → f.pairing = true
  optics : f.opticsSec = true → f.bubble = true
  grid : ∀ m, f.maxEnt = some m → m.sDga = some true ∨ m.gDga = some true → f.nkIrr = f.nqIrr

/-! ### Theorems -/

variable {β : Type} {L : DGA.Spmd.Lib} {n : Nat} {f : DGA.Spmd.Flags} {data : Nat → DGA.Spmd.Vtx → DGA.Spmd.Ch → β}

/-- If the figures cannot be drawn no rank ever completes, in any schedule, whatever else is configured; if they can and nothing else is wrong, every schedule leads to the end. -/
theorem ranks_complete (S : Settings) (w : Nat) (F : Option (Nat × Nat)) (hs : SameRun S w F f) (hn : 0 < n) :
    (¬ PlotsFit S w (F ≠ none) → ∀ st, DGA.Spmd.Runs L n f data st → ∀ r < n, (st.rk r).pc < (DGA.Spmd.mainProg n f r).length) ∧
    (PlotsFit S w (F ≠ none) → OtherwiseFine n f → ∀ st, DGA.Spmd.Runs L n f data st →
      ∃ st', Relation.ReflTransGen (DGA.Spmd.Step L n (DGA.Spmd.mainProg n f) (DGA.Spmd.eff n data)) st st' ∧ DGA.Spmd.Done n (DGA.Spmd.mainProg n f) st') := by
  constructor
  · intro hbad st h
    by_cases h1 : f.niw < 10
    · exact DGA.Spmd.few_frequencies_hang hn h1 h
    by_cases h2 : f.nx < 4 ∨ f.ny < 4
    · exact DGA.Spmd.small_grid_hangs hn h2 h
    by_cases h3 : f.polyFit = true ∧ f.nz ≠ 1
    · exact DGA.Spmd.fits_on_3d_grid_hang hn h3.1 h3.2 h
    refine absurd ⟨?_, ?_, ?_, fun hF => ?_⟩ hbad
    · rw [← hs.niw]; omega
    · rw [← hs.nx]; omega
    · rw [← hs.ny]; omega
    · rw [← hs.nz]
      by_contra hz
      refine h3 ⟨?_, hz⟩
      rw [hs.fits]
      exact Option.isSome_iff_ne_none.2 hF
  · rintro ⟨q1, q2, q3, q4⟩ ho st h
    refine DGA.Spmd.run_completes ⟨ho.pos, ho.size, ho.eliash, ho.optics, ho.grid, ?_, ?_, ?_, fun hp => ?_⟩ h
    · rw [hs.niw]; exact q1
    · rw [hs.nx]; exact q2
    · rw [hs.ny]; exact q3
    · rw [hs.nz]
      rw [hs.fits] at hp
      exact q4 (Option.isSome_iff_ne_none.1 hp)

variable {fs : Fs} {ty path f1 : String} {f2 : Option String} {S : Settings} [NeZero S.nx] [NeZero S.ny] [NeZero S.nz]

/-- **C152 (d).** Let the calculation of a run return, and nothing else be wrong with its configuration.  Then it gets through its figures exactly if the run on several processes can come
    to its end, and otherwise none of its ranks ever does. -/
theorem plotted_iff_completes (I : Files fs ty path f1 f2 S) (P : Plan) (saveFq : Bool) (F : Option (Nat × Nat)) (fit : Fitter) (contour : Contour) (C : ContPlan) (T : Tools)
    (X : Chance S.nx S.ny S.nz) (x : OneOut S.nx S.ny S.nz) (fits : Option PolyFits) (c : ContsOut)
    (hret : mainConts fs ty path f1 f2 S P saveFq F fit C T X = .ok (x, fits, c)) (hs : SameRun S I.w F f) (ho : OtherwiseFine n f) :
    ((∃ p, mainPlotted fs ty path f1 f2 S P saveFq F fit contour C T X = .ok (x, fits, c, p)) ↔
      ∃ st, DGA.Spmd.Runs L n f data st ∧ DGA.Spmd.Done n (DGA.Spmd.mainProg n f) st) ∧
    ((¬ ∃ p, mainPlotted fs ty path f1 f2 S P saveFq F fit contour C T X = .ok (x, fits, c, p)) →
      ∀ st, DGA.Spmd.Runs L n f data st → ∀ r < n, (st.rk r).pc < (DGA.Spmd.mainProg n f r).length) := by
  have hp := plotted_iff I P saveFq F fit contour C T X x fits c
  obtain ⟨a, b⟩ := ranks_complete (L := L) (data := data) S I.w F hs ho.pos
  by_cases hq : PlotsFit S I.w (F ≠ none)
  · have h1 := hp.2 ⟨hret, hq⟩
    obtain ⟨st, r1, r2⟩ := b hq ho _ .refl
    exact ⟨⟨fun _ => ⟨st, r1, r2⟩, fun _ => h1⟩, fun h => absurd h1 h⟩
  · have h1 := fun h => hq (hp.1 h).2
    refine ⟨⟨fun h => absurd h h1, ?_⟩, fun _ => a hq⟩
    rintro ⟨st, r1, r2⟩
    exact absurd (r2 0 ho.pos) (a hq st r1 0 ho.pos).ne

/-! ### non-vacuity -/

/-- the input of C152 with its sixteen momenta on three processes: the calculation returns, the figures are drawn, the processes get to their end -/
example (contour : Contour) : ∃ f : DGA.Spmd.Flags, SameRun PlotEx.S PlotEx.theFiles.w none f ∧ OtherwiseFine 3 f ∧
    ∃ st, DGA.Spmd.Runs DGA.Spmd.stdLib 3 f (fun r _ _ => r) st ∧ DGA.Spmd.Done 3 (DGA.Spmd.mainProg 3 f) st := by
  let f : DGA.Spmd.Flags := { DGA.Spmd.flagsAll with polyFit := false, niw := PlotEx.theFiles.w, nx := 4, ny := 4, nz := 1, nkIrr := 6, nqIrr := 6 }
  have hs : SameRun PlotEx.S PlotEx.theFiles.w none f := ⟨rfl, rfl, rfl, rfl, rfl⟩
  have ho : OtherwiseFine 3 f := ⟨by decide, by decide, fun _ => rfl, fun _ => rfl, fun _ _ _ => rfl⟩
  obtain ⟨x, fits, c, h, -⟩ := PlotEx.conts_return
  obtain ⟨p, hp⟩ := (plotted_iff PlotEx.theFiles PlotEx.plan true none (fun _ _ _ _ => 0) contour PlotEx.theConts PlotEx.T PlotEx.X x fits c).2
    ⟨h, by decide, by decide, by decide, fun h => absurd rfl h⟩
  exact ⟨f, hs, ho, (plotted_iff_completes PlotEx.theFiles PlotEx.plan true none (fun _ _ _ _ => 0) contour PlotEx.theConts PlotEx.T PlotEx.X x fits c h hs ho).1.1 ⟨p, hp⟩⟩

end DGA.Whole
