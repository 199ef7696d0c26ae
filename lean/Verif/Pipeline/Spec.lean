/-
  Specification vocabulary for the complete calculation: bubbles, the ladder (Bethe–Salpeter) on a box with asymptotic
  shell, the full vertex and the terms of the Schwinger–Dyson equation.  Nothing here refers to the program; a box of `2 n`
  fermionic frequencies is `Fin (2 n)`, position `a` is the Matsubara index `a - n`.
-/
import Mathlib.LinearAlgebra.Matrix.NonsingularInverse
import Mathlib.Algebra.BigOperators.Intervals
import Mathlib.Order.Interval.Finset.Nat
import Mathlib.Data.Int.Interval
import Mathlib.Algebra.BigOperators.Field
import Mathlib.Tactic.FieldSimp
import Mathlib.Tactic.Ring

namespace DGA.Pipe

variable {K : Type} [Field K]

/-- the values of a function of the Matsubara index on a box of `2 n` frequencies -/
def onBox (n : Nat) (f : Int → K) : Fin (2 * n) → K := fun a => f ((a.val : Int) - n)

/-- local bubble `-beta g(v) g(v-w)` -/
def bubLoc (beta : K) (g : Int → K) (w v : Int) : K := -beta * (g v * g (v - w))

/-- grid point `i + q` (modulo the grid size) -/
def shiftG (n i : Nat) (q : Int) : Nat := (((i : Int) + q) % n).toNat

/-- sum over a momentum grid -/
def kSum (nx ny nz : Nat) (F : Nat → Nat → Nat → K) : K :=
  ∑ i ∈ Finset.range nx, ∑ j ∈ Finset.range ny, ∑ k ∈ Finset.range nz, F i j k

/-- lattice bubble `-beta/N sum_k G(k, v) G(k+q, v-w)` -/
def bubQ (nx ny nz : Nat) (beta : K) (G : Nat → Nat → Nat → Int → K) (q : Int × Int × Int) (w v : Int) : K :=
  -beta * (kSum nx ny nz (fun i j k =>
    G i j k v * G (shiftG nx i q.1) (shiftG ny j q.2.1) (shiftG nz k q.2.2) (v - w)) / ((nx * ny * nz : Nat) : K))

/-- an irreducible vertex on a core box of `2 c` frequencies continued by a constant on a shell of `s` frequencies on each side -/
def withShell {c : Nat} (s : Nat) (Γ : Matrix (Fin (2 * c)) (Fin (2 * c)) K) (val : K) :
    Matrix (Fin (2 * (c + s))) (Fin (2 * (c + s))) K := Matrix.of fun i j =>
  if h : (s ≤ i.val ∧ i.val < s + 2 * c) ∧ (s ≤ j.val ∧ j.val < s + 2 * c) then
    Γ ⟨i.val - s, by omega⟩ ⟨j.val - s, by omega⟩
  else val

/-- position in the large box of a core frequency -/
def core (c s : Nat) (i : Fin (2 * c)) : Fin (2 * (c + s)) := ⟨i.val + s, by omega⟩

/-- `chi` solves the Bethe–Salpeter equation with bubble `B`, irreducible vertex `Γ` on the core and its asymptotic value `U/beta^2` on
    the shell: `chi (1/B + Γ) = 1` -/
def Ladder {c s : Nat} (beta U : K) (B : Fin (2 * (c + s)) → K) (Γ : Matrix (Fin (2 * c)) (Fin (2 * c)) K)
    (chi : Matrix (Fin (2 * (c + s))) (Fin (2 * (c + s))) K) : Prop :=
  chi * (Matrix.diagonal (fun a => 1 / B a) + withShell s Γ (U / beta ^ 2)) = 1

/-- physical susceptibility: `1/beta^2` times the sum over both fermionic frequencies -/
def phys {n : Nat} (beta : K) (chi : Matrix (Fin n) (Fin n) K) : K := (∑ a, ∑ b, chi a b) / beta ^ 2

/-- full vertex `F = 1/B - chi/(B B')` -/
def vertexF {n : Nat} (B : Fin n → K) (chi : Matrix (Fin n) (Fin n) K) (a b : Fin n) : K :=
  (if a = b then 1 / B a else 0) - chi a b / (B a * B b)

/-- `1/(1/chi + lambda)` -/
def withLambda (lam : Option K) (chi : K) : K :=
  match lam with
  | none => chi
  | some l => 1 / (1 / chi + l)

/-- contribution of one channel with interaction `U` to the equation of motion, the physical susceptibility in the three-leg part being
    replaced by the `lambda`-corrected one: `U/2 (1 - (1 - U chi_lam)/(1 - U chi) sum_v' chi(v,v')/B(v))`.  Without correction this is
    `U/2 sum_v' F(v,v') B(v')` (`eomTerm_none`). -/
def eomTerm {n : Nat} (beta U : K) (lam : Option K) (B : Fin n → K) (chi : Matrix (Fin n) (Fin n) K) (a : Fin n) : K :=
  U / 2 * (1 - (1 - U * withLambda lam (phys beta chi)) / (1 - U * phys beta chi) * ((∑ b, chi a b) / B a))

theorem vertexF_row {n : Nat} (B : Fin n → K) (hB : ∀ a, B a ≠ 0) (chi : Matrix (Fin n) (Fin n) K) (a : Fin n) :
    ∑ b, vertexF B chi a b * B b = 1 - (∑ b, chi a b) / B a := by
  unfold vertexF
  have : ∀ b, ((if a = b then 1 / B a else 0) - chi a b / (B a * B b)) * B b = (if a = b then 1 else 0) - chi a b / B a := by
    intro b
    have h1 := hB a
    have h2 := hB b
    split
    · next h => subst h; field_simp
    · field_simp; ring
  rw [Finset.sum_congr rfl fun b _ => this b, Finset.sum_sub_distrib, Finset.sum_ite_eq, if_pos (Finset.mem_univ _), Finset.sum_div]

theorem eomTerm_none {n : Nat} (beta U : K) (B : Fin n → K) (hB : ∀ a, B a ≠ 0) (chi : Matrix (Fin n) (Fin n) K)
    (h : 1 - U * phys beta chi ≠ 0) (a : Fin n) :
    eomTerm beta U none B chi a = U / 2 * ∑ b, vertexF B chi a b * B b := by
  unfold eomTerm withLambda
  rw [div_self h, one_mul, vertexF_row B hB]

end DGA.Pipe
