/-
  The hypotheses of C104 are met: the impurity of Examples.lean with an asymptotic correction of 1/100.
-/
import Verif.Pipeline.Uasympt
import Verif.Pipeline.Examples

namespace DGA.Pipe.Ex

open DGA.Mf DGA.Bz DGA.Bubble DGA.Fp DGA.Pipe

example : ∃ o chi, vrgChiUasympt (objOf true 1 1 1 ΓD) (genOf 2 1 1 3 1 1 G g) ((wn 1).map fun _ => (1 / 100 : ℚ)) 1 true = some (o, chi) ∧
    chi[0]? = some (4 / 3 + 1 / 100) := by
  have h : ∃ o chi, vrgChiUasympt (objOf true 1 1 1 ΓD) (genOf 2 1 1 3 1 1 G g) ((wn 1).map fun _ => (1 / 100 : ℚ)) 1 true = some (o, chi) := by
    unfold vrgChiUasympt objOf
    rw [chi0_gen 2 1 1 3 1 1 rfl one_ne_zero G g (fun _ _ _ => rfl) 1 (by decide), Option.bind_some,
      chi0_gen 2 1 1 3 1 1 rfl one_ne_zero G g (fun _ _ _ => rfl) (1 + 1) (by decide), Option.bind_some,
      gchi0_gen 2 1 1 3 1 1 rfl G g (fun _ _ _ => rfl) 1 (by decide), Option.bind_some, mapM_toVec, Option.bind_some, aux_obj]
    rw [mapM_congr (wn 1) (fun (x : Int) => auxGamW (ΓD x) (onBox 1 (bubLoc 1 g x)) 1 (urOf true 1)) (fun x => some (XD x))
      (fun x _ => aux_loc_D x)]
    rw [show (wn 1).mapM (fun x : Int => some (XD x)) = some ((wn 1).map XD) from mapM_some _ _ _ fun _ _ => rfl]
    rw [Option.map_some, Option.bind_some, ur_obj, Option.bind_some, uasymptFromAux_value]
    exact ⟨_, _, rfl⟩
  obtain ⟨o, chi, h⟩ := h
  refine ⟨o, chi, h, ?_⟩
  have := (uasympt_value (c := 1) (s := 1) 2 1 1 3 1 true 1 1 rfl one_ne_zero G g (fun _ _ _ => rfl) (fun _ _ _ => one_ne_zero) (by decide) ΓD
    (fun _ => 1 / 100) o chi h (fun x => if x = 0 then xD00 else xD0)
    (fun x _ => ⟨(ladder_loc x).1, (ladder_loc x).2.1, by split <;> decide +kernel⟩)).2 0 (-1) (by decide +kernel)
  rw [this]
  decide +kernel

end DGA.Pipe.Ex
