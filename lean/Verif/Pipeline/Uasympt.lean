/-
  Model of the U-asymptotic variant of the local susceptibility and three-leg vertex (src/dga/local_four_point.py:392-419, 431-456)
  and of the lattice susceptibility without shell (src/dga/four_point.py:126-139), and property C104.

  The list `sh` is the result of `get_asymptotic_correction` (bubble.py:184-187, modelled in Bubble/AsymptModel.lean).
  `four_point.get_vrg_and_chir_lad_from_gammar_uasympt_q` (four_point.py:228-277) is not modelled: its line 254 passes an array
  to `get_kernel_dc`, which asks it for the attribute `u_r`, so the routine always raises.
-/
import Verif.Pipeline.AuxChi
import Verif.Pipeline.Slice
import Verif.FourPoint.Props3

namespace DGA.Pipe

open DGA.Mf DGA.Bz DGA.Bubble DGA.Fp

variable {K : Type} [Field K]

/-- local_four_point.py:404-419, 441-456 the common part of the two routines: bubbles, physical susceptibilities and three-leg vertex
    from the auxiliary susceptibility `aux`; `last` is `sum_axis = -1` (otherwise `-2`) -/
noncomputable def uasymptFromAux {n : Nat} (aux : FourP n K) (ur : K) (chi0Core chi0Ur sh : List K) (gchi0 : List (Vec n K)) (last : Bool) :
    Option (ThreeP n K × List K) :=
  (zipW (fun x y => x + y) chi0Ur sh).bind fun chi0As =>
    (zip3 (fun a x y => chiPhysUrange a x y ur) (contract4 aux) chi0Core chi0Ur).bind fun chiU =>
      (zip3 (fun a x y => chiPhysAsympt a x y) chiU chi0Ur chi0As).bind fun chiA =>
        aux.ur.bind fun ura => (zipW (fun X g0 => (X, g0)) aux.mat gchi0).bind fun xg =>
          (zip3 (fun (p : Mat n K × Vec n K) a b => vrgAsymptSlice last p.1 p.2 a b ura) xg chiU chiA).bind fun v =>
            (construct aux v).map fun o => (o, chiA)

/-- local_four_point.py:392-419 `get_vrg_and_chir_tilde_from_gammar_uasympt` -/
noncomputable def vrgChiUasympt [Star K] {c : Nat} (gam : FourP (2 * c) K) (b : Bub K) (sh : List K) (s : Nat) (last : Bool) :
    Option (ThreeP (2 * c) K × List K) :=
  (b.chi0 c).bind fun chi0Core => (b.chi0 (c + s)).bind fun chi0Ur => (b.gchi0 c).bind fun g =>
    (g.mapM (toVec (2 * c))).bind fun gchi0 => (gchiAuxFromGammar gam gchi0).bind fun aux =>
      gam.ur.bind fun ur => uasymptFromAux aux ur chi0Core chi0Ur sh gchi0 last

/-- the Python object given as `u`: an integer or a number of another type (language construct) -/
inductive PyNum where
  | int (z : Int)
  | other

/-- `np.sum(mat, axis=u)` of a three-dimensional array: a non-integer axis and an axis out of range raise; the axis of the bosonic
    frequencies (`0`, `-3`) gives an array of the wrong shape, taken as an exception here -/
def axisOf : PyNum → Option Bool
  | .int z => if z = 2 ∨ z = -1 then some true else if z = 1 ∨ z = -2 then some false else none
  | .other => none

/-- local_four_point.py:431-456 `get_vrg_and_chir_tilde_from_chir_uasympt`; line 454 passes `u` in the place of `sum_axis` -/
noncomputable def vrgChiUasymptChir [Star K] {c : Nat} (chir : FourP (2 * c) K) (b : Bub K) (u : PyNum) (uval : K) (sh : List K) (s : Nat) :
    Option (ThreeP (2 * c) K × List K) :=
  (b.chi0 c).bind fun chi0Core => (b.chi0 (c + s)).bind fun chi0Ur => (b.gchi0 c).bind fun g =>
    (g.mapM (toVec (2 * c))).bind fun gchi0 => (gchiAuxCore chir).bind fun aux =>
      (getUr uval chir.channel).bind fun ur => (axisOf u).bind fun last => uasymptFromAux aux ur chi0Core chi0Ur sh gchi0 last

/-- four_point.py:126-139 `get_gchir_from_gamma_loc_q`: `gchi0_q[q][w]` -/
noncomputable def gchirQ {n : Nat} (gam : FourP n K) (gchi0q : List (List (Vec n K))) : Option (List (List (Mat n K))) :=
  gchi0q.mapM fun g0w => (List.range g0w.length).mapM fun i => (g0w[i]?).bind fun g0 => (gam.mat[i]?).bind fun m =>
    inv? (diag (fun j => 1 / g0 j) + m)

/-! ### C104 -/

theorem uasymptFromAux_value {n : Nat} (dens : Bool) (niw : Nat) (beta u ur : K) (X : Int → Mat n K) (cc cu sh : Int → K)
    (B : Int → Vec n K) (last : Bool) :
    uasymptFromAux (⟨chName dens, (wn niw).map X, beta, u, none⟩ : FourP n K) ur ((wn niw).map cc) ((wn niw).map cu) ((wn niw).map sh)
        ((wn niw).map B) last =
      some (⟨chName dens, (wn niw).map fun (x : Int) => vrgAsymptSlice last (X x) (B x)
          (chiPhysUrange (physical beta (X x)) (cc x) (cu x) ur) (chiPhysUrange (physical beta (X x)) (cc x) (cu x) ur + sh x) (urOf dens u),
          beta, u, none⟩,
        (wn niw).map fun (x : Int) => chiPhysUrange (physical beta (X x)) (cc x) (cu x) ur + sh x) := by
  unfold uasymptFromAux contract4
  simp only [List.map_map]
  rw [zipW_map, Option.bind_some, zip3_map, Option.bind_some, zip3_map, Option.bind_some, ur_obj, Option.bind_some, zipW_map,
    Option.bind_some, zip3_map, Option.bind_some, construct_eq _ (chName_known dens), Option.map_some]
  simp only [Function.comp, contract_physical, chiPhysAsympt]
  have e : ∀ x : Int, chiPhysUrange (physical beta (X x)) (cc x) (cu x) ur + (cu x + sh x) - cu x =
      chiPhysUrange (physical beta (X x)) (cc x) (cu x) ur + sh x := fun x => by ring
  simp only [e]

variable [StarRing K]

/-- **C104.** `get_vrg_and_chir_tilde_from_gammar_uasympt`: let `χ` be the solution of the Bethe–Salpeter equation on the full box
    (`Γ` on the core, its asymptotic value on the shell).  The physical susceptibility returned at frequency `x` is that of `χ` plus
    the asymptotic correction `sh x` of the bubble; the three-leg vertex is such that `(1 - u_r χ_phys) vrg` is the sum over `v'` of
    `χ` divided by the bubble, as without the correction. -/
theorem uasympt_value {c s : Nat} (nx ny nz N niw : Nat) (dens : Bool) (beta u : K) (hb : star beta = beta) (hb0 : beta ≠ 0)
    (G : Nat → Nat → Nat → Int → K) (g : Int → K) (hg : ∀ n : Int, -(N : Int) ≤ n → n < N → g (-n - 1) = star (g n))
    (hg0 : ∀ m : Int, -(N : Int) ≤ m → m < N → g m ≠ 0) (hfit : niw + (c + s) ≤ N) (Γ : Int → Mat (2 * c) K) (sh : Int → K)
    (o : ThreeP (2 * c) K) (chi : List K)
    (h : vrgChiUasympt (objOf dens niw beta u Γ) (genOf nx ny nz N niw beta G g) ((wn niw).map sh) s true = some (o, chi))
    (χ : Int → Matrix (Fin (2 * (c + s))) (Fin (2 * (c + s))) K)
    (hL : ∀ x ∈ wn niw, Ladder beta (urOf dens u) (onBox (c + s) (bubLoc beta g x)) (Γ x) (χ x) ∧ phys beta (χ x) ≠ 0 ∧
      1 - urOf dens u * (phys beta (χ x) + sh x) ≠ 0) :
    (∃ v : Int → Vec (2 * c) K, o = ⟨chName dens, (wn niw).map v, beta, u, none⟩ ∧ ∀ x ∈ wn niw, ∀ i,
      (1 - urOf dens u * (phys beta (χ x) + sh x)) * v x i =
        (∑ j, χ x (core c s i) j) / bubLoc beta g x ((i.val : Int) - c)) ∧
    ∀ (k : Nat) (x : Int), (wn niw)[k]? = some x → chi[k]? = some (phys beta (χ x) + sh x) := by
  unfold vrgChiUasympt objOf at h
  rw [chi0_gen nx ny nz N niw beta hb hb0 G g hg c (by omega), Option.bind_some,
    chi0_gen nx ny nz N niw beta hb hb0 G g hg (c + s) (by omega), Option.bind_some,
    gchi0_gen nx ny nz N niw beta hb G g hg c (by omega), Option.bind_some, mapM_toVec,
    Option.bind_some, aux_obj] at h
  cases h2 : (wn niw).mapM fun (x : Int) => auxGamW (Γ x) (onBox c (bubLoc beta g x)) beta (urOf dens u) with
  | none => rw [h2] at h; simp at h
  | some l =>
    rw [h2, Option.map_some, Option.bind_some] at h
    obtain ⟨X, hX, rfl⟩ := mapM_ex 0 _ _ _ h2
    rw [ur_obj, Option.bind_some, uasymptFromAux_value] at h
    have key : ∀ x ∈ wn niw, chiPhysUrange (physical beta (X x)) (physicalBubble beta (onBox c (bubLoc beta g x)))
        (physicalBubble beta (onBox (c + s) (bubLoc beta g x))) (urOf dens u) = phys beta (χ x) ∧
        ∀ i, (1 - urOf dens u * phys beta (χ x)) * vrgSlice true (X x) (onBox c (bubLoc beta g x)) i =
          (∑ j, χ x (core c s i) j) / bubLoc beta g x ((i.val : Int) - c) := by
      intro x hx
      obtain ⟨l1, l2, -⟩ := hL x hx
      have hXx := hX x hx
      rw [← cut1_box _ c s] at hXx
      have hne : ∀ i, onBox (c + s) (bubLoc beta g x) i ≠ 0 := fun i =>
        bubLoc_ne_zero beta hb0 g N niw (c + s) hg0 hfit x (by have := (mem_wn _ _).1 hx; omega) i
      obtain ⟨e1, e2, e3⟩ := slice_value (Γ x) (X x) (onBox (c + s) (bubLoc beta g x)) hne beta (urOf dens u) hb0 hXx (χ x) l1
      rw [cut1_box] at e2 e3
      refine ⟨e3 l2, fun i => ?_⟩
      rw [e2 i, mul_div_cancel₀ _ e1]
      congr 1
      unfold onBox core
      congr 1
      simp only [Nat.cast_add]
      ring
    rw [Option.some.injEq, Prod.mk.injEq] at h
    refine ⟨⟨_, h.1.symm, ?_⟩, ?_⟩
    · intro x hx i
      obtain ⟨k1, k2⟩ := key x hx
      rw [k1, ← k2 i]
      exact asympt_invariant true (X x) _ _ _ _ (hL x hx).2.2 i
    · intro k x hk
      rw [← h.2, List.getElem?_map, hk, Option.map_some, (key x (List.mem_of_getElem? hk)).1]

omit [StarRing K] in
/-- **C104.** Without asymptotic correction the routine returns what `get_vrg_and_chir_tilde_from_gammar_urange` returns. -/
theorem uasympt_zero_shell [StarRing K] {c s : Nat} (nx ny nz N niw : Nat) (dens : Bool) (beta u : K) (hb : star beta = beta) (hb0 : beta ≠ 0)
    (G : Nat → Nat → Nat → Int → K) (g : Int → K) (hg : ∀ n : Int, -(N : Int) ≤ n → n < N → g (-n - 1) = star (g n))
    (hfit : niw + (c + s) ≤ N) (Γ : Int → Mat (2 * c) K) (o : ThreeP (2 * c) K) (chi : List K)
    (h : vrgChiUrange (objOf dens niw beta u Γ) (genOf nx ny nz N niw beta G g) s = some (o, chi)) (hne : ∀ y ∈ chi, 1 - urOf dens u * y ≠ 0) :
    vrgChiUasympt (objOf dens niw beta u Γ) (genOf nx ny nz N niw beta G g) ((wn niw).map fun _ => 0) s true = some (o, chi) := by
  unfold vrgChiUrange objOf at h
  unfold vrgChiUasympt objOf
  rw [chi0_gen nx ny nz N niw beta hb hb0 G g hg c (by omega), Option.bind_some,
    chi0_gen nx ny nz N niw beta hb hb0 G g hg (c + s) (by omega), Option.bind_some,
    gchi0_gen nx ny nz N niw beta hb G g hg c (by omega), Option.bind_some, mapM_toVec,
    Option.bind_some, aux_obj] at h ⊢
  cases h2 : (wn niw).mapM fun (x : Int) => auxGamW (Γ x) (onBox c (bubLoc beta g x)) beta (urOf dens u) with
  | none => rw [h2] at h; simp at h
  | some l =>
    rw [h2, Option.map_some, Option.bind_some, ur_obj, Option.bind_some] at h
    rw [Option.map_some, Option.bind_some, ur_obj, Option.bind_some]
    obtain ⟨X, hX, rfl⟩ := mapM_ex 0 _ _ _ h2
    rw [uasymptFromAux_value]
    unfold contract4 at h
    simp only [List.map_map] at h
    rw [zip3_map, Option.bind_some, zipW_map, Option.bind_some, construct_eq _ (chName_known dens)] at h
    simp only [Option.map_some, Function.comp, contract_physical, Option.some.injEq, Prod.mk.injEq] at h
    obtain ⟨h3, h4⟩ := h
    subst h3 h4
    simp only [add_zero]
    congr 3
    refine List.map_congr_left fun x hx => ?_
    funext i
    have := hne _ (List.mem_map.2 ⟨x, hx, rfl⟩)
    unfold vrgAsymptSlice vrgSlice
    rw [mul_div_assoc, div_self this, mul_one]

/-- **C104 (finding).** `get_vrg_and_chir_tilde_from_chir_uasympt` passes the interaction in the place of the axis: it raises for
    every `u` that is not an integer, and for integers other than ±1, ±2; for `u = -1, 2` it gives the result of the route over `Γ`. -/
theorem uasympt_chir {c s : Nat} (nx ny nz N niw : Nat) (dens : Bool) (beta u : K) (hb : star beta = beta) (hb0 : beta ≠ 0)
    (G : Nat → Nat → Nat → Int → K) (g : Int → K) (hg : ∀ n : Int, -(N : Int) ≤ n → n < N → g (-n - 1) = star (g n))
    (hfit : niw + (c + s) ≤ N) (A Γ : Int → Mat (2 * c) K) (sh : Int → K)
    (hΓ : ∀ x ∈ wn niw, gamob2W (A x) (onBox c (bubLoc beta g x)) = some (Γ x)) :
    (∀ p : PyNum, (∀ z, p = .int z → z ≠ -2 ∧ z ≠ -1 ∧ z ≠ 1 ∧ z ≠ 2) →
      vrgChiUasymptChir (objOf dens niw beta u A) (genOf nx ny nz N niw beta G g) p u ((wn niw).map sh) s = none) ∧
    (∀ z : Int, z = -1 ∨ z = 2 → vrgChiUasymptChir (objOf dens niw beta u A) (genOf nx ny nz N niw beta G g) (.int z) u ((wn niw).map sh) s =
      vrgChiUasympt (objOf dens niw beta u Γ) (genOf nx ny nz N niw beta G g) ((wn niw).map sh) s true) := by
  constructor
  · intro p hp
    have : axisOf p = none := by
      cases p with
      | other => rfl
      | int z =>
        obtain ⟨a, b, d, e⟩ := hp z rfl
        simp [axisOf, a, b, d, e]
    unfold vrgChiUasymptChir
    simp only [this, Option.bind_none, Option.bind_fun_none]
  · intro z hz
    have haxis : axisOf (.int z) = some true := by rcases hz with rfl | rfl <;> rfl
    unfold vrgChiUasymptChir vrgChiUasympt objOf
    rw [chi0_gen nx ny nz N niw beta hb hb0 G g hg c (by omega), chi0_gen nx ny nz N niw beta hb hb0 G g hg (c + s) (by omega),
      gchi0_gen nx ny nz N niw beta hb G g hg c (by omega)]
    simp only [Option.bind_some]
    rw [mapM_toVec]
    simp only [Option.bind_some]
    rw [aux_obj]
    have hur : getUr u (chName dens) = some (urOf dens u) := by
      cases dens <;> simp [chName, urOf, getUr]
    rw [gchiAuxCore_eq]
    rw [mapM_congr (wn niw) (fun (x : Int) => auxW (A x) beta (urOf dens u))
      (fun (x : Int) => auxGamW (Γ x) (onBox c (bubLoc beta g x)) beta (urOf dens u))
      (fun x hx => aux_routes (A x) (Γ x) _ beta (urOf dens u) (hΓ x hx))]
    cases (wn niw).mapM fun (x : Int) => auxGamW (Γ x) (onBox c (bubLoc beta g x)) beta (urOf dens u) with
    | none => rfl
    | some l =>
      rw [Option.map_some, Option.bind_some, Option.bind_some, ur_obj, haxis]
      simp only [Option.bind_some, hur]

omit [StarRing K] in
/-- **C104.** `get_gchir_from_gamma_loc_q`: for every momentum and frequency the solution of the Bethe–Salpeter equation with the local
    vertex and the bubble of that momentum; where the bubble is the local one and `Γ` is the vertex of a local susceptibility `A`
    (`gamob2_from_gchir`), this is `A` again. -/
theorem gchirQ_value {n : Nat} (dens : Bool) (niw : Nat) (beta u : K) (Γ : Int → Mat n K) (qs : List (Int → Vec n K))
    (r : List (List (Mat n K)))
    (h : gchirQ (⟨chName dens, (wn niw).map Γ, beta, u, none⟩ : FourP n K) (qs.map fun B => (wn niw).map B) = some r) :
    ∀ (k : Nat) (B : Int → Vec n K), qs[k]? = some B → ∃ chi : Int → Mat n K, r[k]? = some ((wn niw).map chi) ∧
      ∀ x ∈ wn niw, chi x * (Matrix.diagonal (fun j => 1 / B x j) + Γ x) = 1 ∧
        ∀ A, gamob2W A (B x) = some (Γ x) → chi x = A := by
  intro k B hk
  unfold gchirQ at h
  have e : ∀ B : Int → Vec n K, ((List.range ((wn niw).map B).length).mapM fun i => (((wn niw).map B)[i]?).bind fun g0 =>
      (((wn niw).map Γ)[i]?).bind fun m => inv? (diag (fun j => 1 / g0 j) + m)) =
      (wn niw).mapM fun (x : Int) => inv? (diag (fun j => 1 / B x j) + Γ x) := by
    intro B
    rw [List.length_map]
    apply mapM_range_congr
    intro j x hx
    simp only [List.getElem?_map, hx, Option.map_some, Option.bind_some]
  obtain ⟨F, hF, hr⟩ := mapM_ex [] _ _ _ h
  have hk2 : (qs.map fun B => (wn niw).map B)[k]? = some ((wn niw).map B) := by rw [List.getElem?_map, hk]; rfl
  have hFB := hF _ (List.mem_of_getElem? hk2)
  simp only at hFB
  rw [e B] at hFB
  obtain ⟨chi, hchi, hc2⟩ := mapM_ex 0 _ _ _ hFB
  refine ⟨chi, ?_, ?_⟩
  · rw [hr, List.getElem?_map, hk2, Option.map_some, hc2]
  · intro x hx
    have h1 := inv?_left (hchi x hx)
    rw [diag_eq] at h1
    refine ⟨h1, ?_⟩
    intro A hA
    unfold gamob2W at hA
    cases hi : inv? A with
    | none => rw [hi] at hA; simp at hA
    | some C =>
      rw [hi, Option.map_some, Option.some.injEq] at hA
      rw [← hA, diag_eq] at h1
      have h3 : chi x * C = 1 := by
        rw [← h1]; congr 1; abel
      calc chi x = chi x * (C * A) := by rw [inv?_left hi, mul_one]
        _ = A := by rw [← mul_assoc, h3, one_mul]

end DGA.Pipe
