/-
  Specification vocabulary: values by Matsubara index.
-/
import Verif.Matsubara.Model

namespace DGA.Mf

/-- Value of a fermionic array of even length `2N` at Matsubara index `-N ≤ n < N` (frequency (2n+1)π/β). -/
def atF {α : Type} (l : List α) (n : Int) : Option α :=
  if -((l.length / 2 : Nat) : Int) ≤ n ∧ n < ((l.length / 2 : Nat) : Int) then l[(n + (l.length / 2 : Nat)).toNat]?
  else none

/-- Value of a bosonic array of odd length `2N+1` at Matsubara index `-N ≤ n ≤ N` (frequency 2nπ/β). -/
def atB {α : Type} (l : List α) (n : Int) : Option α :=
  if -((l.length / 2 : Nat) : Int) ≤ n ∧ n ≤ ((l.length / 2 : Nat) : Int) then l[(n + (l.length / 2 : Nat)).toNat]?
  else none

/-- Value of a three-dimensional array `[w, v, v']` (bosonic, fermionic, fermionic) by Matsubara indices. -/
def at3 {α : Type} (m : List (List (List α))) (w v v' : Int) : Option α :=
  (atB m w).bind fun x => (atF x v).bind fun y => atF y v'

/-- Value of a two-dimensional fermionic array by Matsubara indices. -/
def at2 {α : Type} (m : List (List α)) (v v' : Int) : Option α := (atF m v).bind fun x => atF x v'

end DGA.Mf
