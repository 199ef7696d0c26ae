/-
  C30: the Schwinger–Dyson equation, impurity and lattice.
-/
import Verif.Sde.Model
import Verif.Optics.Props2

namespace DGA.Sde

open DGA.Mf DGA.Bz DGA.Bubble DGA.Opt

variable {K : Type} [Field K]

/-! ### helpers -/

omit [Field K] in
/-- a loop over `range n` whose `m`-th step maps `st m` to `st (m+1)` ends in `st n` -/
theorem range_foldlM {S : Type} (f : S → Nat → Option S) (st : Nat → S) (n : Nat)
    (h : ∀ m, m < n → f (st m) m = some (st (m + 1))) : (List.range n).foldlM f (st 0) = some (st n) := by
  induction n with
  | zero => simp
  | succ n ih =>
    rw [List.range_succ, List.foldlM_append, ih fun m hm => h m (by omega)]
    simp only [Option.bind_eq_bind, Option.bind_some, List.foldlM_cons, List.foldlM_nil]
    rw [h n (by omega)]
    rfl

theorem zeros_samplesF (n : Nat) : List.replicate (2 * n) (0 : K) = samplesF (fun _ => 0) n := by
  apply eq_samplesF
  · simp
  · intro k hk; rw [List.getElem?_replicate]; simp [hk]

theorem zeros_table (nx ny nz n : Nat) : List.replicate (nx * ny * nz) (List.replicate (2 * n) (0 : K)) =
    flat3 (table nx ny nz fun _ _ _ => samplesF (fun _ => (0 : K)) n) := by
  rw [flat3_table, zeros_samplesF]
  apply List.ext_getElem?
  intro k
  simp [List.getElem?_replicate]

theorem sumRows_samplesF {α : Type} (w : List α) (F : α → Int → K) (n : Nat) :
    sumRows (2 * n) (w.map fun x => samplesF (F x) n) = some (samplesF (fun v => (w.map fun x => F x v).sum) n) := by
  unfold sumRows
  rw [zeros_samplesF]
  suffices h : ∀ acc : Int → K, (w.map fun x => samplesF (F x) n).foldlM addRows (samplesF acc n) =
      some (samplesF (fun v => acc v + (w.map fun x => F x v).sum) n) by
    rw [h]
    simp
  induction w with
  | nil => intro acc; simp
  | cons a w ih =>
    intro acc
    rw [List.map_cons, List.foldlM_cons, addRows_samplesF, Option.bind_eq_bind, Option.bind_some, ih]
    simp [add_assoc]

omit [Field K] in
theorem gen_samplesF (G : Int → K) (N niv : Nat) (w : List Int) (h : ∀ x ∈ w, x.natAbs + niv ≤ N) :
    wnSlicesGen (samplesF G N) niv w = w.map fun x => samplesF (fun v => G (v - x)) niv := by
  unfold wnSlicesGen
  simp only [nFromMat_eq _ N (samplesF_length G N)]
  apply List.map_congr_left
  intro x hx
  have := slice_samplesF G N niv (-x) (by have := h x hx; omega)
  rw [show (N : Int) - niv - x = (N : Int) - niv + -x by omega, show (N : Int) + niv - x = (N : Int) + niv + -x by omega, this]
  rfl

omit [Field K] in
theorem cutIvShift_samplesF (G : Int → K) (N niv : Nat) (x : Int) (h : x.natAbs + niv ≤ N) :
    cutIvShift (samplesF G N) niv x = samplesF (fun v => G (v - x)) niv := by
  unfold cutIvShift
  simp only [nFromMat_eq _ N (samplesF_length G N)]
  rw [if_neg (by omega)]
  have := slice_samplesF G N niv (-x) (by omega)
  rw [show (N : Int) - niv - x = (N : Int) - niv + -x by omega, show (N : Int) + niv - x = (N : Int) + niv + -x by omega, this]
  rfl

/-- Matsubara index of the `n`-th entry of a shell array (`-s ≤ n < s`) around a core of half width `c` -/
def shellIx (c : Nat) (n : Int) : Int := if 0 ≤ n then n + c else n - c

omit [Field K] in
theorem shell_samplesF (G : Int → K) (N c s : Nat) (w : List Int) (h : ∀ x ∈ w, x.natAbs + c + s ≤ N) :
    wnSlicesShell (samplesF G N) s c w = w.map fun x => samplesF (fun n => G (shellIx c n - x)) s := by
  have one : ∀ x ∈ w, wnSlicesShell (samplesF G N) s c [x] = [samplesF (fun n => G (shellIx c n - x)) s] := by
    intro x hx
    obtain ⟨row, e, hl, hv⟩ := shell_window_value (samplesF G N) N (samplesF_length G N) c s x (h x hx)
    rw [e]
    congr 1
    apply eq_samplesF _ _ _ hl
    intro k hk
    have hf := h x hx
    have e2 : row[k]? = atF row ((k : Int) - s) := by
      rw [atF_eq _ s hl, if_pos (by omega)]
      congr 1; omega
    rw [e2]
    unfold shellIx
    by_cases h0 : (0 : Int) ≤ (k : Int) - s
    · rw [(hv _).1 h0 (by omega), if_pos h0, samplesF_atF _ _ _ (by omega) (by omega)]
    · rw [(hv _).2 (by omega) (by omega), if_neg h0, samplesF_atF _ _ _ (by omega) (by omega)]
  unfold wnSlicesShell at one ⊢
  apply List.map_congr_left
  intro x hx
  have := one x hx
  simpa using this

omit [Field K] in
theorem concat_samplesF (A B : Int → K) (c s : Nat) :
    concatCoreAsympt (samplesF A c) (samplesF (fun n => B (shellIx c n)) s) =
      samplesF (fun v => if -(c : Int) ≤ v ∧ v < c then A v else B v) (c + s) := by
  obtain ⟨hl, hv⟩ := concatCoreAsympt_value (samplesF A c) (samplesF (fun n => B (shellIx c n)) s) c s (samplesF_length _ _)
    (samplesF_length _ _)
  apply eq_samplesF _ _ _ hl
  intro k hk
  have e2 : (concatCoreAsympt (samplesF A c) (samplesF (fun n => B (shellIx c n)) s))[k]? =
      atF (concatCoreAsympt (samplesF A c) (samplesF (fun n => B (shellIx c n)) s)) ((k : Int) - (c + s : Nat)) := by
    rw [atF_eq _ (c + s) hl, if_pos (by omega)]
    congr 1; omega
  rw [e2]
  obtain ⟨h1, h2, h3⟩ := hv ((k : Int) - (c + s : Nat))
  by_cases hc : -(c : Int) ≤ (k : Int) - (c + s : Nat) ∧ (k : Int) - (c + s : Nat) < c
  · rw [h1 hc.1 hc.2, samplesF_atF _ _ _ hc.1 hc.2, if_pos hc]
  · rw [if_neg hc]
    by_cases hp : (c : Int) ≤ (k : Int) - (c + s : Nat)
    · rw [h2 hp (by omega), samplesF_atF _ _ _ (by omega) (by omega)]
      unfold shellIx; rw [if_pos (by omega)]; congr 2; omega
    · rw [h3 (by omega) (by omega), samplesF_atF _ _ _ (by omega) (by omega)]
      unfold shellIx; rw [if_neg (by omega)]; congr 2; omega

omit [Field K] in
/-- a table built from a loop over the positions of a list -/
theorem mapM_pos {β : Type} (w : List Int) (f : Nat → Option β) (F : Int → β)
    (h : ∀ j x, w[j]? = some x → f j = some (F x)) : (List.range w.length).mapM f = some (w.map F) := by
  have e : w.map F = (List.range w.length).map fun j => F ((w[j]?).getD 0) := by
    apply List.ext_getElem?
    intro k
    by_cases hk : k < w.length
    · simp [hk]
    · simp [hk]
  rw [e]
  apply mapM_some
  intro j hj
  rw [List.mem_range] at hj
  rw [h j w[j] (List.getElem?_eq_getElem hj), List.getElem?_eq_getElem hj]
  rfl

/-! ### impurity -/

/-- `u_r/(2 beta) sum_w (1 - (1 - u_r chi(w)) gamma(w,v)) G(v-w)` -/
def sdeSpec (ur beta : K) (w : List Int) (V : Int → Int → K) (C : Int → K) (G : Int → K) (v : Int) : K :=
  ur / (2 * beta) * (w.map fun x => (1 - (1 - ur * C x) * V x v) * G (v - x)).sum

/-- C30 (impurity, core): every frequency of the core box gets
    `u_r/(2 beta) sum_w (1 - (1 - u_r chi(w)) gamma(w,v)) G(v-w)`. -/
theorem sdeVrg_value (V : Int → Int → K) (niv : Nat) (C : Int → K) (G : Int → K) (N : Nat) (beta ur : K) (w : List Int)
    (h : ∀ x ∈ w, x.natAbs + niv ≤ N) :
    sdeVrg (w.map fun x => samplesF (V x) niv) niv (w.map C) (samplesF G N) beta ur w =
      some (samplesF (sdeSpec ur beta w V C G) niv) := by
  unfold sdeVrg
  rw [if_pos (by simp)]
  simp only [gen_samplesF G N niv w h, List.length_map]
  rw [mapM_pos w _ fun x => samplesF (fun v => (1 - (1 - ur * C x) * V x v) * G (v - x)) niv]
  · rw [Option.bind_some, sumRows_samplesF, Option.map_some, samplesF_map]
    congr 2
    funext v
    unfold sdeSpec
    congr 1
    rw [mul_one, div_div]
  · intro j x hx
    simp only [List.getElem?_map, hx, Option.map_some, Option.bind_some]
    rw [samplesF_map, mulRows_samplesF]

/-- C30 (impurity, shell): in the shell the vertex is the bare interaction, the contribution is
    `u/(2 beta) sum_w u chi(w) G(v-w)`. -/
theorem sdeShell_value (C : Int → K) (G : Int → K) (N c s : Nat) (beta u : K) (w : List Int)
    (h : ∀ x ∈ w, x.natAbs + c + s ≤ N) :
    sdeShell (w.map C) (samplesF G N) beta u s c w =
      some (samplesF (fun n => u / (2 * beta) * (w.map fun x => u * C x * G (shellIx c n - x)).sum) s) := by
  unfold sdeShell
  rw [if_pos (by simp)]
  simp only [shell_samplesF G N c s w h, List.length_map]
  rw [mapM_pos w _ fun x => samplesF (fun n => u * C x * G (shellIx c n - x)) s]
  · rw [Option.bind_some, sumRows_samplesF, Option.map_some, samplesF_map]
    congr 2
    funext v
    rw [mul_one, div_div]
  · intro j x hx
    simp only [List.getElem?_map, hx, Option.map_some, Option.bind_some]
    rw [samplesF_map]

/-- The shell routine kept in the lattice module computes the same thing. -/
theorem sdeShellLat_eq (C : Int → K) (G : Int → K) (N c s : Nat) (beta u : K) (w : List Int)
    (h : ∀ x ∈ w, x.natAbs + c + s ≤ N) :
    sdeShellLat (w.map C) (samplesF G N) beta u s c w = sdeShell (w.map C) (samplesF G N) beta u s c w := by
  rw [sdeShell_value C G N c s beta u w h]
  unfold sdeShellLat
  rw [if_pos (by simp)]
  simp only [shell_samplesF G N c s w h, List.length_map]
  rw [mapM_pos w _ fun x => samplesF (fun n => C x * G (shellIx c n - x)) s]
  · rw [Option.bind_some, sumRows_samplesF, Option.map_some, samplesF_map]
    congr 2
    funext v
    rw [← List.sum_map_mul_left, ← List.sum_map_mul_left]
    congr 1
    apply List.map_congr_left
    intro x _
    rw [mul_one, div_div]; ring
  · intro j x hx
    simp only [List.getElem?_map, hx, Option.map_some, Option.bind_some]
    rw [samplesF_map]

/-- the three-leg vertex outside the core: `1` -/
def extendOne (c : Nat) (V : Int → Int → K) (x v : Int) : K := if -(c : Int) ≤ v ∧ v < c then V x v else 1

/-- C30 (impurity, core and shell): the result on the enlarged box is the core formula with the three-leg vertex continued by
    one outside the core, because `u_r^2 = u^2`. -/
theorem sdeCoreUrange_value (V : Int → Int → K) (c : Nat) (C : Int → K) (G : Int → K) (N s : Nat) (beta u ur : K)
    (hu : ur * ur = u * u) (w : List Int) (h : ∀ x ∈ w, x.natAbs + c + s ≤ N) :
    sdeCoreUrange (w.map fun x => samplesF (V x) c) c (w.map C) (samplesF G N) beta u ur w s =
      some (samplesF (sdeSpec ur beta w (extendOne c V) C G) (c + s)) := by
  unfold sdeCoreUrange
  rw [sdeVrg_value V c C G N beta ur w (fun x hx => by have := h x hx; omega), Option.bind_some]
  by_cases hs : s = 0
  · subst hs
    rw [if_pos rfl, Nat.add_zero]
    congr 1
    apply samplesF_congr
    intro v h1 h2
    unfold sdeSpec extendOne
    simp [h1, h2]
  · rw [if_neg hs, sdeShell_value C G N c s beta u w h, Option.map_some,
      concat_samplesF (sdeSpec ur beta w V C G) (fun v => u / (2 * beta) * (w.map fun x => u * C x * G (v - x)).sum) c s]
    congr 1
    apply samplesF_congr
    intro v _ _
    unfold sdeSpec extendOne
    by_cases hv : -(c : Int) ≤ v ∧ v < c
    · simp [hv]
    · simp only [if_neg hv]
      rw [← List.sum_map_mul_left, ← List.sum_map_mul_left]
      congr 1
      apply List.map_congr_left
      intro x _
      rw [show ur / (2 * beta) * ((1 - (1 - ur * C x) * 1) * G (v - x)) = (ur * ur) * C x * G (v - x) / (2 * beta) by ring, hu]
      ring

/-- C30 (impurity, total): Hartree term plus the density and magnetic contributions. -/
theorem sdeFull_value (VD VM : Int → Int → K) (c : Nat) (CD CM : Int → K) (G : Int → K) (N s : Nat) (beta u n : K) (w : List Int)
    (h : ∀ x ∈ w, x.natAbs + c + s ≤ N) :
    sdeFull (w.map fun x => samplesF (VD x) c) (w.map fun x => samplesF (VM x) c) c (w.map CD) (w.map CM) (samplesF G N) beta u n w s =
      some (samplesF (fun v => u * n / 2 + sdeSpec u beta w (extendOne c VD) CD G v + sdeSpec (-u) beta w (extendOne c VM) CM G v)
        (c + s)) := by
  unfold sdeFull
  have e1 : Fp.getUr u "dens" = some u := by simp [Fp.getUr]
  have e2 : Fp.getUr u "magn" = some (-u) := by simp [Fp.getUr]
  rw [e1, Option.bind_some, e2, Option.bind_some, sdeCoreUrange_value VD c CD G N s beta u u rfl w h, Option.bind_some,
    sdeCoreUrange_value VM c CM G N s beta u (-u) (by ring) w h, Option.bind_some, samplesF_map, addRows_samplesF]

end DGA.Sde
