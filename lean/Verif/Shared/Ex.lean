/-
  C137 for the complete run from the files on disk, and cases that meet the hypotheses of the theorems of C137.
-/
import Verif.Shared.Run
import Verif.Optics.FromFilesEx

noncomputable section

namespace DGA.Shared

open DGA.RankFiles DGA.Mpi DGA.Pipe DGA.Fp DGA.Mf DGA.Bz DGA.Bubble DGA.Pairing DGA.Two DGA.Inp

/-- C137.  In every complete run that returns (C129), on any number of ranks and whatever is asked for, the shared rank files can be written, provided the ranges of the optics
    slices (if asked for) lie inside the box. -/
theorem files_run {fs : Fs} {ty path f1 : String} {f2 : Option String} {S : Settings} (I : Files fs ty path f1 f2 S) [NeZero S.nx] [NeZero S.ny] [NeZero S.nz]
    {out : MainOut} (V : I.VertexOf out) (fl : Flags) (R niwV niwC nivV : Nat) (hR : 0 < R) (hopt : fl.vertex = true → niwV ≤ I.w ∧ nivV + niwC ≤ I.c) :
    ∃ files, runFiles fl I.sh R S.nx S.ny S.nz (flat3 V.Sv.m) I.w niwV niwC nivV V.dc.gam V.mc.gam (genOf S.nx S.ny S.nz I.NG I.w (I.beta : ℂ) I.G I.gloc) (I.beta : ℂ)
      (I.u : ℂ) = some files := by
  have hb : star (I.beta : ℂ) = (I.beta : ℂ) := Complex.conj_ofReal I.beta
  have hok : ∀ magn : Bool, ∀ q ∈ V.irr.map momOf, OkQ (wn I.w) (I.beta : ℂ) (urOf (!magn) (I.u : ℂ)) (if magn then V.ΓM else V.ΓD) (bubQ S.nx S.ny S.nz (I.beta : ℂ) I.G) q := by
    intro magn q hq
    cases magn
    · exact (V.hokI q hq).1
    · exact (V.hokI q hq).2
  have hgam : ∀ magn : Bool, (if magn then V.mc.gam else V.dc.gam) = objOf (!magn) I.w (I.beta : ℂ) (I.u : ℂ) (if magn then V.ΓM else V.ΓD) := by
    intro magn
    cases magn
    · exact V.gamD
    · exact V.gamM
  refine run_returns fl I.sh R S.nx S.ny S.nz (flat3 V.Sv.m) I.w niwV niwC nivV V.dc.gam V.mc.gam _ _ _ hR ?_ ?_
  · intro magn
    obtain ⟨F, hF, -⟩ := pvFiles_written I.sh S.nx S.ny S.nz I.NG I.w (I.beta : ℂ) (I.u : ℂ) hb I.G I.gloc (fun i j k m _ _ => I.G_conj i j k m) I.fit (!magn) _
      (flat3 V.Sv.m) V.irr V.hirr (hok magn) R hR false
    exact ⟨F, by rw [hgam]; exact hF⟩
  · intro hv magn second
    obtain ⟨F, hF, -⟩ := optFiles_written I.sh S.nx S.ny S.nz I.NG I.w niwV niwC nivV (I.beta : ℂ) (I.u : ℂ) hb I.G I.gloc (fun i j k m _ _ => I.G_conj i j k m) I.fit
      (hopt hv).1 (hopt hv).2 (!magn) _ (flat3 V.Sv.m) V.irr V.hirr (hok magn) R hR second
    exact ⟨F, by rw [hgam]; exact hF⟩

/-- two ranks with different momenta, all three kinds of slices -/
def two : List (RankData Nat) :=
  [⟨[0, 1], [-1, 0, 1], [0], 1, 1, fun _ _ _ _ _ _ => 1, fun _ _ i j => i + j, fun _ _ i j => 10 * i + j⟩,
   ⟨[2], [-1, 0, 1], [0], 1, 1, fun _ _ _ _ _ _ => 2, fun _ _ i j => i + j, fun _ _ i j => 10 * i + j⟩]

example : ∀ D ∈ two, Ok D := by
  intro D hD
  unfold two at hD
  simp only [List.mem_cons, List.not_mem_nil, or_false] at hD
  rcases hD with rfl | rfl <;> (unfold Ok; decide)

end DGA.Shared

namespace DGA.Pairing.Ex4

open DGA.Shared DGA.RankFiles DGA.Mpi DGA.Pipe DGA.Fp DGA.Mf DGA.Bz DGA.Bubble DGA.Two DGA.Inp DGA.Wan

/-- a complete run on two ranks that writes all three kinds of slices -/
example : ∃ (out : MainOut) (V : theFiles.VertexOf out) (files : List (H5 (List (List ℂ)))),
    runFiles ⟨true, true, true⟩ theFiles.sh 2 S.nx S.ny S.nz (flat3 V.Sv.m) theFiles.w 1 1 1 V.dc.gam V.mc.gam
      (genOf S.nx S.ny S.nz theFiles.NG theFiles.w (theFiles.beta : ℂ) theFiles.G theFiles.gloc) (theFiles.beta : ℂ) (theFiles.u : ℂ) = some files := by
  obtain ⟨out, h⟩ := returns
  rw [theFiles.mainRun_eq] at h
  obtain ⟨V⟩ := theFiles.vertexOf out h
  obtain ⟨files, hf⟩ := files_run theFiles V ⟨true, true, true⟩ 2 1 1 1 (by norm_num) (fun _ => by decide)
  exact ⟨out, V, files, hf⟩

end DGA.Pairing.Ex4
