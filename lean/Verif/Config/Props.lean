import Verif.Config.Model
import Verif.Bz.Props
import Verif.Bz.Props2
import Mathlib.Algebra.Order.Ring.Rat
import Mathlib.Tactic.NormNum

/-
  C42 (box sizes), C43 first part (optics ranges), C49 (symmetry names), C55 (gap symmetries), C56 (mesh of MaxEntConfig).
-/

namespace DGA.Cfg

open DGA.Bz (Sym)

/-! ### C42 -/

/-- `set_from_lfp` succeeds exactly when no requested size exceeds the available one; then every size that was left at
    -1 is the available one, the others are unchanged, no core size exceeds the available one and the shell is
    unchanged. -/
theorem setFromLfp_sizes (b : Box) (lfpNiv lfpNw : Nat) :
    ((b.setFromLfp lfpNiv lfpNw).isSome ↔ b.nivCore ≤ lfpNiv ∧ b.niwCore ≤ ((lfpNw / 2 : Nat) : Int)) ∧
    ∀ b', b.setFromLfp lfpNiv lfpNw = some b' →
      b'.nivCore = (if b.nivCore = -1 then (lfpNiv : Int) else b.nivCore) ∧
      b'.niwCore = (if b.niwCore = -1 then ((lfpNw / 2 : Nat) : Int) else b.niwCore) ∧
      b'.nivShell = b.nivShell ∧ b'.nivCore ≤ lfpNiv ∧ b'.niwCore ≤ ((lfpNw / 2 : Nat) : Int) := by
  unfold Box.setFromLfp
  constructor
  · by_cases h1 : b.nivCore = -1 <;> by_cases h2 : b.niwCore = -1 <;> by_cases h3 : b.nivCore > lfpNiv <;>
      by_cases h4 : b.niwCore > ((lfpNw / 2 : Nat) : Int) <;>
      simp only [h1, h2, h3, h4, if_true, if_false, Option.bind_eq_bind, Option.bind_some, Option.bind_none] <;>
      (try split) <;> simp <;> omega
  · intro b' h
    by_cases h1 : b.nivCore = -1 <;> by_cases h2 : b.niwCore = -1 <;> by_cases h3 : b.nivCore > lfpNiv <;>
      by_cases h4 : b.niwCore > ((lfpNw / 2 : Nat) : Int) <;>
      simp only [h1, h2, h3, h4, if_true, if_false, Option.bind_eq_bind, Option.bind_some, Option.bind_none] at h <;>
      (try split at h) <;> simp at h <;> (try subst h) <;> simp_all

/-- The asymptotic range after construction and `set_from_lfp`: the given one if a positive one was given; otherwise it is
    `niv_full + 2 niw_core` of the final sizes, provided that the sizes were given explicitly or the provisional value
    computed in the constructor is not positive.  (Without the proviso the claim is false, `asympt_stale`.) -/
theorem asympt_partial (niw niv shell asympt : Option Int) (lfpNiv lfpNw : Nat) (b' : Box)
    (h : (newBox niw niv shell asympt).setFromLfp lfpNiv lfpNw = some b') :
    (∀ a, asympt = some a → 0 < a → b'.nivAsympt = a) ∧
    ((asympt.getD (-1) ≤ 0) →
      ((niw.getD (-1) ≠ -1 ∧ niv.getD (-1) ≠ -1) ∨ shell.getD 0 + niv.getD (-1) + 2 * niw.getD (-1) ≤ 0) →
      b'.nivAsympt = b'.nivShell + b'.nivCore + 2 * b'.niwCore) := by
  constructor
  · intro a ha h0
    subst ha
    have hb : newBox niw niv shell (some a) = ⟨niw.getD (-1), niv.getD (-1), shell.getD 0, a⟩ := by
      simp [newBox, show a ≠ -1 by omega]
    rw [hb] at h
    unfold Box.setFromLfp at h
    simp only [] at h
    generalize niw.getD (-1) = w at h
    generalize niv.getD (-1) = v at h
    by_cases h1 : v = -1 <;> by_cases h2 : w = -1 <;> by_cases h3 : v > lfpNiv <;>
      by_cases h4 : w > ((lfpNw / 2 : Nat) : Int) <;>
      simp only [h1, h2, h3, h4, if_true, if_false, Option.bind_eq_bind, Option.bind_some, Option.bind_none] at h <;>
      (try rw [if_neg (by omega)] at h) <;> simp at h <;> (try subst h) <;> (try omega) <;> simp
  · intro ha hor
    unfold newBox at h
    simp only [] at h
    generalize niw.getD (-1) = w at h hor
    generalize niv.getD (-1) = v at h hor
    generalize shell.getD 0 = s at h hor
    generalize asympt.getD (-1) = a at h ha
    by_cases h0 : a = -1
    · rw [if_pos h0] at h
      unfold Box.setFromLfp Box.nivFull at h
      simp only [] at h
      by_cases h1 : v = -1 <;> by_cases h2 : w = -1 <;> by_cases h3 : v > lfpNiv <;>
        by_cases h4 : w > ((lfpNw / 2 : Nat) : Int) <;>
        simp only [h1, h2, h3, h4, if_true, if_false, Option.bind_eq_bind, Option.bind_some, Option.bind_none] at h <;>
        (try split at h) <;> simp at h <;> (try subst h) <;> (try simp only) <;> omega
    · rw [if_neg h0] at h
      unfold Box.setFromLfp Box.nivFull at h
      simp only [] at h
      by_cases h1 : v = -1 <;> by_cases h2 : w = -1 <;> by_cases h3 : v > lfpNiv <;>
        by_cases h4 : w > ((lfpNw / 2 : Nat) : Int) <;>
        simp only [h1, h2, h3, h4, if_true, if_false, Option.bind_eq_bind, Option.bind_some, Option.bind_none] at h <;>
        (try rw [if_pos (by omega)] at h) <;> simp at h <;> (try subst h) <;> (try simp only) <;> omega

/-- Non-vacuity of both cases. -/
example : (newBox (some 10) (some 12) (some 5) none).setFromLfp 20 31 = some ⟨10, 12, 5, 37⟩ ∧
    (newBox none none none none).setFromLfp 20 31 = some ⟨15, 20, 0, 50⟩ := by decide

/-- C42 refuted in general: with `niv_core` given and `niw_core` left to the input file (or with a shell of four or more
    frequencies and both left open) the provisional asymptotic range of the constructor is positive and is kept, although
    the final sizes are different. -/
theorem asympt_stale :
    (newBox none (some 12) none none).setFromLfp 20 31 = some ⟨15, 12, 0, 10⟩ ∧
    (newBox none none (some 10) none).setFromLfp 20 31 = some ⟨15, 20, 10, 7⟩ := by decide

/-- exactly what is stored in the stale case -/
theorem asympt_stale_value (niw niv shell : Option Int) (lfpNiv lfpNw : Nat) (b' : Box)
    (h : (newBox niw niv shell none).setFromLfp lfpNiv lfpNw = some b')
    (hpos : 0 < shell.getD 0 + niv.getD (-1) + 2 * niw.getD (-1)) :
    b'.nivAsympt = shell.getD 0 + niv.getD (-1) + 2 * niw.getD (-1) := by
  unfold newBox at h
  simp only [Option.getD_none, if_true] at h
  generalize niw.getD (-1) = w at *
  generalize niv.getD (-1) = v at *
  generalize shell.getD 0 = s at *
  unfold Box.setFromLfp Box.nivFull at h
  simp only [] at h
  by_cases h1 : v = -1 <;> by_cases h2 : w = -1 <;> by_cases h3 : v > lfpNiv <;>
    by_cases h4 : w > ((lfpNw / 2 : Nat) : Int) <;>
    simp only [h1, h2, h3, h4, if_true, if_false, Option.bind_eq_bind, Option.bind_some, Option.bind_none] at h <;>
    (try rw [if_neg (by omega)] at h) <;> simp at h <;> (try subst h) <;> (try simp only) <;> omega

/-! ### C49 -/

/-- The strings `apply_symmetry` knows. -/
def knownNames : List String := ["x-inv", "y-inv", "z-inv", "x-y-sym", "x-y-inv"]

theorem symOfName_known (s : String) : (∀ n, symOfName s ≠ .other n) ↔ s ∈ knownNames := by
  unfold symOfName knownNames
  constructor
  · intro h
    by_contra hc
    simp only [List.mem_cons, List.not_mem_nil, or_false, not_or] at hc
    apply h s
    simp [hc]
  · intro h n
    simp only [List.mem_cons, List.not_mem_nil, or_false] at h
    rcases h with rfl | rfl | rfl | rfl | rfl <;> simp

/-- `check_symmetries` accepts exactly: the three named sets, the empty value, `'none'` and tuples; other strings and
    non-empty lists raise.  The sets have the documented meaning. -/
theorem checkSymmetries_accepts (v : SymValue) :
    ((checkSymmetries v).isSome ↔
      (v = .null ∨ (∃ l, v = .tuple l) ∨ v = .seq [] ∨
        ∃ s ∈ ["two_dimensional_square", "quasi_one_dimensional_square", "simultaneous_x_y_inversion", "", "none"], v = .str s)) ∧
    checkSymmetries (.str "two_dimensional_square") = some [.xInv, .yInv, .xySym] ∧
    checkSymmetries (.str "quasi_one_dimensional_square") = some [.xInv, .yInv] ∧
    checkSymmetries (.str "simultaneous_x_y_inversion") = some [.xyInv] ∧
    checkSymmetries (.str "none") = some [] ∧ checkSymmetries (.str "") = some [] ∧ checkSymmetries .null = some [] := by
  refine ⟨?_, rfl, rfl, rfl, rfl, rfl, rfl⟩
  cases v with
  | null => simp [checkSymmetries]
  | tuple l => simp [checkSymmetries]
  | seq l => by_cases h : l = [] <;> simp [checkSymmetries, h]
  | str s =>
    simp only [checkSymmetries, reduceCtorEq, exists_false, false_or, List.mem_cons, List.not_mem_nil, or_false, SymValue.str.injEq]
    constructor
    · intro h
      refine ⟨s, ?_, rfl⟩
      by_contra hc
      simp only [not_or] at hc
      simp [hc] at h
    · rintro ⟨s', h, rfl⟩
      rcases h with rfl | rfl | rfl | rfl | rfl <;> decide

/-- An unknown entry of a tuple is rejected when the grids are built (the check itself lets it pass), for every grid. -/
theorem unknown_tuple_entry_rejected (nk : Nat × Nat × Nat) (nq : Option (Nat × Nat × Nat)) (l : List String) (s : String)
    (hs : s ∈ l) (hk : s ∉ knownNames) : latticeGrids nk nq (.tuple l) = none := by
  obtain ⟨pre, post, rfl⟩ := List.append_of_mem hs
  have ho : ∃ n, symOfName s = .other n := by
    by_contra hc
    push Not at hc
    exact hk ((symOfName_known s).mp hc)
  obtain ⟨n, ho⟩ := ho
  unfold latticeGrids
  simp only [checkSymmetries, List.map_append, List.map_cons, ho, Option.bind_eq_bind, Option.bind_some]
  rw [Bz.unknown_symmetry_raises]
  rfl

/-- Specification: the names of the symmetries. -/
inductive Names : String → Sym → Prop
  | xInv : Names "x-inv" .xInv
  | yInv : Names "y-inv" .yInv
  | zInv : Names "z-inv" .zInv
  | xySym : Names "x-y-sym" .xySym
  | xyInv : Names "x-y-inv" .xyInv

/-- A tuple of known names means exactly these symmetries in this order; in particular writing out the entries of a named set gives
    the grids of the named set. -/
theorem tuple_symmetries (l : List String) (syms : List Sym) (h : List.Forall₂ Names l syms) :
    checkSymmetries (.tuple l) = some syms ∧
    ∀ nk nq, latticeGrids nk nq (.tuple ["x-inv", "y-inv", "x-y-sym"]) = latticeGrids nk nq (.str "two_dimensional_square") ∧
      latticeGrids nk nq (.tuple ["x-inv", "y-inv"]) = latticeGrids nk nq (.str "quasi_one_dimensional_square") ∧
      latticeGrids nk nq (.tuple ["x-y-inv"]) = latticeGrids nk nq (.str "simultaneous_x_y_inversion") := by
  refine ⟨?_, fun nk nq => ⟨rfl, rfl, rfl⟩⟩
  show some (l.map symOfName) = some syms
  congr 1
  induction h with
  | nil => rfl
  | cons h1 _ ih =>
    rw [List.map_cons, ih]
    congr 1
    cases h1 <;> rfl

/-- non-vacuity -/
example : checkSymmetries (.tuple ["z-inv", "x-inv"]) = some [.zInv, .xInv] :=
  (tuple_symmetries _ _ (.cons .zInv (.cons .xInv .nil))).1

/-- Everything `check_symmetries` rejects is rejected by `LatticeConfig`. -/
theorem latticeGrids_rejects (nk : Nat × Nat × Nat) (nq : Option (Nat × Nat × Nat)) (v : SymValue)
    (h : checkSymmetries v = none) : latticeGrids nk nq v = none := by
  unfold latticeGrids; rw [h]; rfl

/-- When the lattice part of the configuration is accepted, the k-grid is built from `nk` and the q-grid from `nq` (from `nk` if `nq`
    is not given), both with the same symmetries. -/
theorem latticeGrids_value (nk : Nat × Nat × Nat) (nq : Option (Nat × Nat × Nat)) (v : SymValue) (syms : List Sym) (k q : Bz.Arr3 Nat)
    (hs : checkSymmetries v = some syms) :
    latticeGrids nk nq v = some (k, q) ↔ Bz.fbz2irrk nk.1 nk.2.1 nk.2.2 syms = some k ∧
      (∀ n, nq = some n → Bz.fbz2irrk n.1 n.2.1 n.2.2 syms = some q) ∧ (nq = none → q = k) := by
  unfold latticeGrids
  rw [hs]
  simp only [Option.bind_eq_bind, Option.bind_some, Option.pure_def]
  cases nq with
  | none =>
    simp only [Option.getD_none, reduceCtorEq, false_implies, implies_true, true_and, forall_const]
    cases Bz.fbz2irrk nk.1 nk.2.1 nk.2.2 syms with
    | none => simp
    | some a =>
      simp only [Option.bind_some, Option.some.injEq, Prod.mk.injEq, and_congr_right_iff]
      rintro rfl
      exact eq_comm
  | some n =>
    simp only [Option.getD_some, Option.some.injEq, reduceCtorEq, false_implies, and_true, forall_eq']
    cases Bz.fbz2irrk nk.1 nk.2.1 nk.2.2 syms with
    | none => simp
    | some a =>
      cases Bz.fbz2irrk n.1 n.2.1 n.2.2 syms with
      | none => simp
      | some b => simp

example : checkSymmetries (.str "two_dimensional_square") = some [.xInv, .yInv, .xySym] ∧
    (latticeGrids (4, 4, 1) (some (2, 2, 1)) (.str "two_dimensional_square")).isSome := by decide +kernel

/-- The named set `quasi_two_dimensional_square` exists in `brillouin_zone.py` but is not accepted by name. -/
theorem quasi2d_not_accepted : checkSymmetries (.str "quasi_two_dimensional_square") = none := by decide

/-- A YAML list of symmetry names (even known ones) is rejected. -/
theorem yaml_list_rejected (s : String) (l : List String) : checkSymmetries (.seq (s :: l)) = none := by
  simp [checkSymmetries]

/-! ### C43, frequency ranges -/

theorem setRanges_cases (o : Optics) (b : Box) (o' : Optics) (b' : Box) (h : o.setRanges b = some (o', b')) :
    ∃ wv wc : Int, ((o.niwVert = -1 ∧ wv = b.niwCore) ∨ (o.niwVert ≠ -1 ∧ wv = o.niwVert ∧ wv ≤ b.niwCore)) ∧
      ((o.niwCond = -1 ∧ wc = b.niwCore / 2) ∨ (o.niwCond ≠ -1 ∧ wc = o.niwCond ∧ wc < b.nivCore)) ∧
      o' = ⟨wc, if o.niwBubble = -1 then wc else o.niwBubble, wv,
        if o.nivBubble = -1 then b.nivAsympt - wc * 2 else o.nivBubble, b.nivCore - wc⟩ ∧
      b' = if (if o.nivBubble = -1 then b.nivAsympt - wc * 2 else o.nivBubble) +
          (if o.niwBubble = -1 then wc else o.niwBubble) ≥ b.nivAsympt then
        { b with nivAsympt := (if o.nivBubble = -1 then b.nivAsympt - wc * 2 else o.nivBubble) +
          (if o.niwBubble = -1 then wc else o.niwBubble) } else b := by
  unfold Optics.setRanges at h
  rw [Option.bind_eq_some_iff] at h
  obtain ⟨wv, hv, h⟩ := h
  rw [Option.bind_eq_some_iff] at h
  obtain ⟨wc, hc, h⟩ := h
  simp only [Option.some.injEq, Prod.mk.injEq] at h
  refine ⟨wv, wc, ?_, ?_, h.1.symm, h.2.symm⟩
  · by_cases h1 : o.niwVert = -1
    · simp only [h1, if_true, Option.some.injEq] at hv; exact Or.inl ⟨h1, hv.symm⟩
    · by_cases h2 : o.niwVert ≤ b.niwCore
      · simp only [h1, h2, if_true, if_false, Option.some.injEq] at hv; exact Or.inr ⟨h1, hv.symm, hv ▸ h2⟩
      · simp [h1, h2] at hv
  · by_cases h1 : o.niwCond = -1
    · simp only [h1, if_true, Option.some.injEq] at hc; exact Or.inl ⟨h1, hc.symm⟩
    · by_cases h2 : o.niwCond < b.nivCore
      · simp only [h1, h2, if_true, if_false, Option.some.injEq] at hc; exact Or.inr ⟨h1, hc.symm, hc ▸ h2⟩
      · simp [h1, h2] at hc

/-- What holds after `set_frequency_ranges` succeeds: the bosonic range of the vertex is available, the fermionic range of
    the conductivity vertex plus its bosonic range is exactly the available core, the bubble fits into the (possibly
    enlarged) asymptotic range, nothing else of the box changes and the asymptotic range never shrinks. -/
theorem setRanges_spec (o : Optics) (b : Box) (o' : Optics) (b' : Box) (h : o.setRanges b = some (o', b')) :
    o'.niwVert ≤ b.niwCore ∧ o'.nivVert + o'.niwCond = b.nivCore ∧ o'.nivBubble + o'.niwBubble ≤ b'.nivAsympt ∧
    b.nivAsympt ≤ b'.nivAsympt ∧ b'.nivCore = b.nivCore ∧ b'.niwCore = b.niwCore ∧ b'.nivShell = b.nivShell ∧
    (o.niwVert ≠ -1 → o'.niwVert = o.niwVert) ∧ (o.niwCond ≠ -1 → o'.niwCond = o.niwCond) ∧
    (o.nivBubble ≠ -1 → o'.nivBubble = o.nivBubble) ∧ (o.niwBubble ≠ -1 → o'.niwBubble = o.niwBubble) := by
  obtain ⟨wv, wc, h1, h2, rfl, rfl⟩ := setRanges_cases o b o' b' h
  dsimp only
  refine ⟨by omega, by omega, ?_, ?_, ?_, ?_, ?_, by omega, by omega, fun hh => by rw [if_neg hh], fun hh => by rw [if_neg hh]⟩
  all_goals clear h
  all_goals generalize (if o.nivBubble = -1 then b.nivAsympt - wc * 2 else o.nivBubble) = x
  all_goals generalize (if o.niwBubble = -1 then wc else o.niwBubble) = y
  · split
    · exact le_refl _
    · omega
  · split
    · dsimp only; omega
    · exact le_refl _
  · split <;> rfl
  · split <;> rfl
  · split <;> rfl

/-- The range is positive when the number of conductivity frequencies is given (asserted), but the default
    `niw_core // 2` is not checked: `niv_vert` may then be zero or negative. -/
theorem setRanges_nivVert_pos (o : Optics) (b : Box) (o' : Optics) (b' : Box) (h : o.setRanges b = some (o', b')) :
    (o.niwCond ≠ -1 → 0 < o'.nivVert) ∧ (o.niwCond = -1 → o'.nivVert = b.nivCore - b.niwCore / 2) := by
  obtain ⟨wv, wc, h1, h2, rfl, rfl⟩ := setRanges_cases o b o' b' h
  dsimp only
  constructor <;> intro hh <;> omega

example : (Optics.setRanges {} ⟨40, 10, 0, 90⟩).map (fun r => r.1.nivVert) = some (-10) := by decide

example : (Optics.setRanges {} ⟨10, 12, 5, 37⟩).map (fun r => (r.1.niwCond, r.1.nivVert, r.1.nivBubble, r.2.nivAsympt)) =
    some (5, 7, 27, 37) := by decide

/-! ### C55: start functions have the parity required by the Pauli principle -/

/-- For every named k symmetry the singlet gap starts with total parity (k parity times frequency parity) even and the
    triplet gap with total parity odd: d-wave is even in k, p-wave odd. -/
theorem gap0_parity :
    (gap0Sing "d-wave" = "even" ∧ gap0Trip "d-wave" = "odd") ∧
    (∀ k ∈ ["p-wave-x", "p-wave-y"], gap0Sing k = "odd" ∧ gap0Trip k = "even") ∧
    ∀ k, k ∉ ["d-wave", "p-wave-x", "p-wave-y"] → gap0Sing k = "random" ∧ gap0Trip k = "random" := by
  refine ⟨by decide, by decide, ?_⟩
  intro k hk
  simp only [List.mem_cons, List.not_mem_nil, or_false, not_or] at hk
  simp [gap0Sing, gap0Trip, hk]

/-! ### process count -/

/-- A run is accepted exactly if every rank can get at least one irreducible q point. -/
theorem commSize_iff (n nkIrr : Nat) : commSizeOk (some n) nkIrr = true ↔ n ≤ nkIrr := by
  simp [commSizeOk]

/-! ### C56: the mesh stored in `MaxEntConfig` -/

/-- Whatever window, size or mesh type the configuration asks for, the stored mesh is the tan mesh on [-15, 15] with 501
    points; the attributes themselves are updated (except the mesh type). -/
theorem maxEnt_mesh_ignores_config (cut : Option Rat) (nwr : Option Int) (wmax : Option Rat) (mt : Option String) :
    (newMaxEnt cut nwr wmax mt).mesh = ("tan", -15, 15, 501, 4 / 100) ∧ (newMaxEnt cut nwr wmax mt).meshType = "tan" ∧
    (∀ x, wmax = some x → (newMaxEnt cut nwr wmax mt).wmax = x) ∧
    (∀ x, nwr = some x → (newMaxEnt cut nwr wmax mt).nwr = x) := by
  refine ⟨rfl, rfl, ?_, ?_⟩
  · rintro x rfl; rfl
  · rintro x rfl; rfl

/-- The property "the mesh covers the configured window" therefore fails. -/
theorem maxEnt_mesh_stale : ∃ c : MaxEntCfg, c = newMaxEnt none (some 101) (some 5) (some "linear") ∧
    c.mesh ≠ (c.meshType, -c.wmax, c.wmax, c.nwr, c.cut) := by
  refine ⟨_, rfl, ?_⟩
  simp [newMaxEnt, MaxEntCfg.setMeshType]

end DGA.Cfg
