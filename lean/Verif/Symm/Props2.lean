/-
  C50: the symmetrised output is the spin combination of the averages over equivalent band tuples.
-/
import Verif.Symm.Props
import Mathlib.Algebra.BigOperators.Field
import Mathlib.Algebra.BigOperators.Ring.Finset
import Mathlib.Algebra.BigOperators.Group.Finset.Sigma
import Mathlib.Data.List.Nodup
import Mathlib.Algebra.CharZero.Defs
import Mathlib.Data.Rat.Cast.CharZero
import Mathlib.Tactic.NormNum
import Mathlib.Tactic.FieldSimp

namespace DGA.Sym

open Finset

/-! ### specification -/

/-- bands listed as equivalent to `i`, counted from one -/
def cls (sy : List (List Int)) (i : Int) : List Int := (Py.get? sy i).getD []

/-- A table of equivalent bands: every band lists bands of the atom without repetition, lists itself, and equivalent bands
    have the same list up to order (this last condition is what `check_sym` tests). -/
structure Valid (sy : List (List Int)) (nd : Nat) : Prop where
  len : sy.length = nd
  nodup : ∀ i : Int, 0 ≤ i → i < nd → (cls sy i).Nodup
  range : ∀ i : Int, 0 ≤ i → i < nd → ∀ x ∈ cls sy i, 1 ≤ x ∧ x ≤ nd
  refl : ∀ i : Int, 0 ≤ i → i < nd → i + 1 ∈ cls sy i
  trans : ∀ i : Int, 0 ≤ i → i < nd → ∀ x ∈ cls sy i, ∀ y, y ∈ cls sy (x - 1) ↔ y ∈ cls sy i

/-- a band tuple of the Kanamori interaction: pairwise equal bands -/
def Kan (b : Q4) : Prop :=
  (b.1 = b.2.1 ∧ b.2.2.1 = b.2.2.2) ∨ (b.1 = b.2.2.1 ∧ b.2.1 = b.2.2.2) ∨ (b.1 = b.2.2.2 ∧ b.2.1 = b.2.2.1)

/-- the bands exist -/
def InRange (nd : Nat) (b : Q4) : Prop :=
  (0 ≤ b.1 ∧ b.1 < nd) ∧ (0 ≤ b.2.1 ∧ b.2.1 < nd) ∧ (0 ≤ b.2.2.1 ∧ b.2.2.1 < nd) ∧ (0 ≤ b.2.2.2 ∧ b.2.2.2 < nd)

/-- `t` is equivalent to `b`: each band of `t` is equivalent to that of `b`, and the same bands coincide. -/
def Equiv4 (sy : List (List Int)) (b t : Q4) : Prop :=
  (t.1 + 1 ∈ cls sy b.1 ∧ t.2.1 + 1 ∈ cls sy b.2.1 ∧ t.2.2.1 + 1 ∈ cls sy b.2.2.1 ∧ t.2.2.2 + 1 ∈ cls sy b.2.2.2) ∧
  ((t.1 = t.2.1 ↔ b.1 = b.2.1) ∧ (t.1 = t.2.2.1 ↔ b.1 = b.2.2.1) ∧ (t.1 = t.2.2.2 ↔ b.1 = b.2.2.2) ∧
   (t.2.1 = t.2.2.1 ↔ b.2.1 = b.2.2.1) ∧ (t.2.1 = t.2.2.2 ↔ b.2.1 = b.2.2.2) ∧ (t.2.2.1 = t.2.2.2 ↔ b.2.2.1 = b.2.2.2))

/-- the six spin combinations that conserve spin -/
def sixSpins : Finset Q4 := {(0, 0, 0, 0), (0, 0, 1, 1), (0, 1, 1, 0), (1, 0, 0, 1), (1, 1, 0, 0), (1, 1, 1, 1)}

/-- weights of the spin combinations: density = (uu + ud + du + dd)/2, magnetic = (uu + dd - ud - du + two spin flips)/4 -/
def weight (K : Type) [Field K] (ch : String) (s : Q4) : K :=
  if ch = "dens" then (if s = (0, 1, 1, 0) ∨ s = (1, 0, 0, 1) then 0 else 1 / 2)
  else (if s = (0, 0, 1, 1) ∨ s = (1, 1, 0, 0) then -(1 / 4) else 1 / 4)

/-! ### the table of equivalent bands -/

theorem get?_cls (sy : List (List Int)) (nd : Nat) (h : sy.length = nd) (i : Int) (h0 : 0 ≤ i) (h1 : i < nd) :
    Py.get? sy i = some (cls sy i) := by
  have e : Py.get? sy i = some (sy[i.toNat]'(by omega)) := by
    unfold Py.get?
    rw [if_neg (by omega), List.getElem?_eq_getElem]
  unfold cls
  rw [e]; rfl

theorem cls_one (sy : List (List Int)) (nd : Nat) (hv : Valid sy nd) (i : Int) (h0 : 0 ≤ i) (h1 : i < nd)
    (hl : (cls sy i).length = 1) (t : Int) : t + 1 ∈ cls sy i ↔ t = i := by
  obtain ⟨x, hx⟩ := List.length_eq_one_iff.mp hl
  have := hv.refl i h0 h1
  rw [hx] at this ⊢
  simp only [List.mem_singleton] at this ⊢
  omega

theorem nodup_pairs (y z : List Int) (hy : y.Nodup) (hz : z.Nodup) (f : Int → Int → Q4)
    (hf : ∀ i j i' j', f i j = f i' j' → i = i' ∧ j = j') :
    (y.flatMap fun i => (z.filter fun j => decide (i - 1 ≠ j - 1)).map fun j => f i j).Nodup := by
  rw [List.nodup_flatMap]
  constructor
  · intro i _
    exact (hz.filter _).map fun j j' h => (hf i j i j' h).2
  · refine hy.imp ?_
    intro i i' hne t ht ht'
    simp only [List.mem_map] at ht ht'
    obtain ⟨j, _, rfl⟩ := ht
    obtain ⟨j', _, h⟩ := ht'
    exact hne (hf _ _ _ _ h).1.symm

theorem mem_pairs (y z : List Int) (f : Int → Int → Q4) (t : Q4) :
    t ∈ (y.flatMap fun i => (z.filter fun j => decide (i - 1 ≠ j - 1)).map fun j => f i j) ↔
      ∃ i ∈ y, ∃ j ∈ z, i ≠ j ∧ f i j = t := by
  simp only [List.mem_flatMap, List.mem_map, List.mem_filter, decide_eq_true_eq]
  constructor
  · rintro ⟨i, hi, j, ⟨hj, hne⟩, rfl⟩; exact ⟨i, hi, j, hj, by omega, rfl⟩
  · rintro ⟨i, hi, j, hj, hne, rfl⟩; exact ⟨i, hi, j, ⟨hj, by omega⟩, rfl⟩

/-- `symBands` lists every equivalent tuple exactly once. -/
theorem symBands_spec (sy : List (List Int)) (nd : Nat) (hv : Valid sy nd) (b : Q4) (hr : InRange nd b) (hk : Kan b) :
    ∃ l, symBands sy b = some l ∧ l.Nodup ∧ ∀ t, t ∈ l ↔ Equiv4 sy b t := by
  obtain ⟨b1, b2, b3, b4⟩ := b
  obtain ⟨⟨r1, r1'⟩, ⟨r2, r2'⟩, ⟨r3, r3'⟩, ⟨r4, r4'⟩⟩ := hr
  simp only at r1 r1' r2 r2' r3 r3' r4 r4'
  unfold symBands
  simp only [get?_cls sy nd hv.len _ r1 r1', get?_cls sy nd hv.len _ r2 r2', get?_cls sy nd hv.len _ r3 r3',
    get?_cls sy nd hv.len _ r4 r4', Option.bind_some, Option.map_some]
  refine ⟨_, rfl, ?_⟩
  by_cases c0 : (cls sy b1).length = 1 ∧ (cls sy b2).length = 1 ∧ (cls sy b3).length = 1 ∧ (cls sy b4).length = 1
  · rw [if_pos c0]
    refine ⟨by simp, ?_⟩
    rintro ⟨t1, t2, t3, t4⟩
    unfold Equiv4
    simp only [List.mem_singleton, Prod.mk.injEq, cls_one sy nd hv _ r1 r1' c0.1, cls_one sy nd hv _ r2 r2' c0.2.1,
      cls_one sy nd hv _ r3 r3' c0.2.2.1, cls_one sy nd hv _ r4 r4' c0.2.2.2]
    constructor
    · rintro ⟨rfl, rfl, rfl, rfl⟩; simp
    · rintro ⟨h, _⟩; exact h
  rw [if_neg c0]
  by_cases c1 : b1 = b2 ∧ b1 = b3 ∧ b1 = b4
  · rw [if_pos c1]
    obtain ⟨rfl, rfl, rfl⟩ := c1
    refine ⟨(hv.nodup _ r1 r1').map (by intro i j h; simp only [Prod.mk.injEq] at h; omega), ?_⟩
    rintro ⟨t1, t2, t3, t4⟩
    unfold Equiv4
    simp only [List.mem_map, Prod.mk.injEq, iff_true]
    constructor
    · rintro ⟨i, hi, rfl, rfl, rfl, rfl⟩
      simp [hi]
    · rintro ⟨⟨h1, _⟩, h2, h3, h4, _⟩
      exact ⟨t1 + 1, h1, by omega, by omega, by omega, by omega⟩
  rw [if_neg c1]
  by_cases c2 : b1 = b2 ∧ b3 = b4 ∧ b2 ≠ b3
  · rw [if_pos c2]
    obtain ⟨rfl, rfl, hne⟩ := c2
    refine ⟨nodup_pairs _ _ (hv.nodup _ r1 r1') (hv.nodup _ r3 r3') _
      (by intro i j i' j' h; simp only [Prod.mk.injEq] at h; omega), ?_⟩
    rintro ⟨t1, t2, t3, t4⟩
    rw [mem_pairs]
    unfold Equiv4
    simp only [Prod.mk.injEq, iff_true, hne, iff_false]
    constructor
    · rintro ⟨i, hi, j, hj, hij, rfl, rfl, rfl, rfl⟩
      simp only [sub_add_cancel]
      refine ⟨⟨hi, hi, hj, hj⟩, ?_, ?_, ?_, ?_, ?_, ?_⟩ <;> first | trivial | omega
    · rintro ⟨⟨h1, h2, h3, h4⟩, e1, e2, e3, e4, e5, e6⟩
      exact ⟨t1 + 1, h1, t3 + 1, h3, by omega, by omega, by omega, by omega, by omega⟩
  rw [if_neg c2]
  by_cases c3 : b1 = b3 ∧ b2 = b4 ∧ b1 ≠ b2
  · rw [if_pos c3]
    obtain ⟨rfl, rfl, hne⟩ := c3
    refine ⟨nodup_pairs _ _ (hv.nodup _ r1 r1') (hv.nodup _ r2 r2') _
      (by intro i j i' j' h; simp only [Prod.mk.injEq] at h; omega), ?_⟩
    rintro ⟨t1, t2, t3, t4⟩
    rw [mem_pairs]
    unfold Equiv4
    simp only [Prod.mk.injEq, iff_true, hne, hne.symm, iff_false]
    constructor
    · rintro ⟨i, hi, j, hj, hij, rfl, rfl, rfl, rfl⟩
      simp only [sub_add_cancel]
      refine ⟨⟨hi, hj, hi, hj⟩, ?_, ?_, ?_, ?_, ?_, ?_⟩ <;> first | trivial | omega
    · rintro ⟨⟨h1, h2, h3, h4⟩, e1, e2, e3, e4, e5, e6⟩
      exact ⟨t1 + 1, h1, t2 + 1, h2, by omega, by omega, by omega, by omega, by omega⟩
  rw [if_neg c3]
  have c4 : b1 = b4 ∧ b2 = b3 ∧ b1 ≠ b2 := by
    unfold Kan at hk
    simp only at hk
    omega
  rw [if_pos c4]
  obtain ⟨rfl, rfl, hne⟩ := c4
  refine ⟨nodup_pairs _ _ (hv.nodup _ r1 r1') (hv.nodup _ r2 r2') _
    (by intro i j i' j' h; simp only [Prod.mk.injEq] at h; omega), ?_⟩
  rintro ⟨t1, t2, t3, t4⟩
  rw [mem_pairs]
  unfold Equiv4
  simp only [Prod.mk.injEq, iff_true, hne, hne.symm, iff_false]
  constructor
  · rintro ⟨i, hi, j, hj, hij, rfl, rfl, rfl, rfl⟩
    simp only [sub_add_cancel]
    refine ⟨⟨hi, hj, hj, hi⟩, ?_, ?_, ?_, ?_, ?_, ?_⟩ <;> first | trivial | omega
  · rintro ⟨⟨h1, h2, h3, h4⟩, e1, e2, e3, e4, e5, e6⟩
    exact ⟨t1 + 1, h1, t2 + 1, h2, by omega, by omega, by omega, by omega, by omega⟩

theorem equiv4_range (sy : List (List Int)) (nd : Nat) (hv : Valid sy nd) (b t : Q4) (hr : InRange nd b) (h : Equiv4 sy b t) :
    InRange nd t := by
  obtain ⟨⟨r1, r1'⟩, ⟨r2, r2'⟩, ⟨r3, r3'⟩, ⟨r4, r4'⟩⟩ := hr
  obtain ⟨⟨h1, h2, h3, h4⟩, _⟩ := h
  have a1 := hv.range _ r1 r1' _ h1
  have a2 := hv.range _ r2 r2' _ h2
  have a3 := hv.range _ r3 r3' _ h3
  have a4 := hv.range _ r4 r4' _ h4
  unfold InRange
  omega

theorem equiv4_kan (sy : List (List Int)) (b t : Q4) (hk : Kan b) (h : Equiv4 sy b t) : Kan t := by
  obtain ⟨_, e1, e2, e3, e4, e5, e6⟩ := h
  unfold Kan at *
  rw [e1, e2, e3, e4, e5, e6]
  exact hk

/-- equivalent tuples have the same equivalent tuples -/
theorem equiv4_congr (sy : List (List Int)) (nd : Nat) (hv : Valid sy nd) (b t : Q4) (hr : InRange nd b) (h : Equiv4 sy b t)
    (u : Q4) : Equiv4 sy t u ↔ Equiv4 sy b u := by
  obtain ⟨⟨r1, r1'⟩, ⟨r2, r2'⟩, ⟨r3, r3'⟩, ⟨r4, r4'⟩⟩ := hr
  obtain ⟨⟨h1, h2, h3, h4⟩, e1, e2, e3, e4, e5, e6⟩ := h
  have a1 := hv.trans _ r1 r1' _ h1
  have a2 := hv.trans _ r2 r2' _ h2
  have a3 := hv.trans _ r3 r3' _ h3
  have a4 := hv.trans _ r4 r4' _ h4
  simp only [add_sub_cancel_right] at a1 a2 a3 a4
  unfold Equiv4
  rw [a1, a2, a3, a4, e1, e2, e3, e4, e5, e6]

theorem equiv4_refl (sy : List (List Int)) (nd : Nat) (hv : Valid sy nd) (b : Q4) (hr : InRange nd b) : Equiv4 sy b b := by
  obtain ⟨⟨r1, r1'⟩, ⟨r2, r2'⟩, ⟨r3, r3'⟩, ⟨r4, r4'⟩⟩ := hr
  exact ⟨⟨hv.refl _ r1 r1', hv.refl _ r2 r2', hv.refl _ r3 r3', hv.refl _ r4 r4'⟩, by simp⟩

theorem equiv4_symm (sy : List (List Int)) (nd : Nat) (hv : Valid sy nd) (b t : Q4) (hr : InRange nd b) (h : Equiv4 sy b t) :
    Equiv4 sy t b := by
  rw [equiv4_congr sy nd hv b t hr h]
  exact equiv4_refl sy nd hv b hr

/-! ### indices -/

/-- index of a band tuple -/
def idx (nd : Nat) (b : Q4) : Int := 1 + value nd b.toList

theorem idx_eq (nd : Nat) (b : Q4) : component2indexBand nd 4 b.toList = some (idx nd b) := component2index_eq nd b.toList

theorem idx_inj (nd : Nat) (b c : Q4) (hb : InRange nd b) (hc : InRange nd c) (h : idx nd b = idx nd c) : b = c := by
  have db : IsDigits nd b.toList := by
    intro d hd
    simp only [Q4.toList, List.mem_cons, List.not_mem_nil, or_false] at hd
    unfold InRange at hb
    rcases hd with rfl | rfl | rfl | rfl <;> omega
  have dc : IsDigits nd c.toList := by
    intro d hd
    simp only [Q4.toList, List.mem_cons, List.not_mem_nil, or_false] at hd
    unfold InRange at hc
    rcases hd with rfl | rfl | rfl | rfl <;> omega
  have := component2index_inj nd b.toList c.toList rfl db dc (by
    rw [show b.toList.length = 4 from rfl, show c.toList.length = 4 from rfl, idx_eq, idx_eq, h])
  simp only [Q4.toList, List.cons.injEq, and_true] at this
  exact Prod.ext this.1 (Prod.ext this.2.1 (Prod.ext this.2.2.1 this.2.2.2))

/-! ### accumulation -/

variable {K : Type} [Field K]

/-- sign of an action -/
def Action.sgn (K : Type) [Field K] : Action → K
  | .plus => 1
  | .minus => -1
  | .skip => 0

theorem readAndAdd_value (o : Out K) (ch : String) (p : K) (hp : prefactor ch = some p) (x : K) (a : Action) (groups : List Int)
    (hn : groups.Nodup) (ho : ∀ g ∈ groups, (o g).isSome) :
    ∃ o', readAndAdd o ch x a groups = some o' ∧
      ∀ h, o' h = (o h).map fun y => y + (if h ∈ groups then a.sgn K * (x / (p * (groups.length : K))) else 0) := by
  unfold readAndAdd
  rw [hp, Option.bind_some]
  generalize x / (p * (groups.length : K)) = z
  induction groups generalizing o with
  | nil => exact ⟨o, rfl, fun h => by simp⟩
  | cons g gs ih =>
    obtain ⟨hg, hgs⟩ := List.nodup_cons.mp hn
    obtain ⟨y, hy⟩ := Option.isSome_iff_exists.mp (ho g (by simp))
    obtain ⟨o1, h1, h1'⟩ : ∃ o1, applyAct a z o g = some o1 ∧ ∀ h, o1 h = if h = g then some (y + a.sgn K * z) else o h := by
      cases a
      · refine ⟨fun h => if h = g then some (y + z) else o h, by simp only [applyAct, addAt, hy, Option.map_some], ?_⟩
        intro h; simp [Action.sgn]
      · refine ⟨fun h => if h = g then some (y + -z) else o h, by simp only [applyAct, addAt, hy, Option.map_some], ?_⟩
        intro h; simp [Action.sgn]
      · refine ⟨o, rfl, ?_⟩
        intro h
        split
        · next hh => subst hh; simp [Action.sgn, hy]
        · rfl
    obtain ⟨o', e1, e2⟩ := ih o1 hgs (by
      intro g' hg'
      rw [h1' g']
      split
      · rfl
      · exact ho g' (by simp [hg']))
    refine ⟨o', ?_, ?_⟩
    · rw [List.foldlM_cons, h1]; exact e1
    · intro h
      rw [e2 h, h1' h]
      by_cases hh : h = g
      · subst hh
        simp [hg, hy]
      · simp [hh]

/-- the contribution of one component to the dataset `h` -/
def contrib (ch : String) (p : K) (sy : List (List Int)) (nd : Nat) (X : Q4 → Q4 → K) (h : Int) (sb : Q4 × Q4) : K :=
  match actionOf ch sb.1, symBands sy sb.2 with
  | some a, some l => if h ∈ l.map (idx nd) then a.sgn K * (X sb.1 sb.2 / (p * (l.length : K))) else 0
  | _, _ => 0

theorem symmetrize_fold (ch : String) (p : K) (hp : prefactor ch = some p) (sy : List (List Int)) (nd : Nat) (hv : Valid sy nd)
    (X : Q4 → Q4 → K) (L : List (Q4 × Q4)) (hL : ∀ sb ∈ L, sb.1 ∈ sixSpins ∧ InRange nd sb.2 ∧ Kan sb.2) (o : Out K)
    (ho : ∀ t, InRange nd t → Kan t → (o (idx nd t)).isSome) :
    ∃ o', symmetrizeChannel ch sy nd (L.map fun sb => ⟨sb.1, sb.2, X sb.1 sb.2⟩) o = some o' ∧
      ∀ h, o' h = (o h).map fun y => y + (L.map (contrib ch p sy nd X h)).sum := by
  unfold symmetrizeChannel
  rw [List.foldlM_map]
  induction L generalizing o with
  | nil => exact ⟨o, rfl, fun h => by simp⟩
  | cons sb L ih =>
    obtain ⟨hs, hr, hk⟩ := hL sb (by simp)
    obtain ⟨l, hl, hln, hlm⟩ := symBands_spec sy nd hv sb.2 hr hk
    have ha : ∃ a, actionOf ch sb.1 = some a := by
      have hch : ch = "dens" ∨ ch = "magn" := by
        unfold prefactor at hp
        by_cases h1 : ch = "dens"
        · exact Or.inl h1
        · by_cases h2 : ch = "magn"
          · exact Or.inr h2
          · simp [h1, h2] at hp
      obtain ⟨s, b⟩ := sb
      simp only [sixSpins, Finset.mem_insert, Finset.mem_singleton] at hs
      rcases hch with rfl | rfl <;> rcases hs with rfl | rfl | rfl | rfl | rfl | rfl <;> exact ⟨_, rfl⟩
    obtain ⟨a, ha⟩ := ha
    have hidx : (l.mapM fun b => component2indexBand nd 4 b.toList) = some (l.map (idx nd)) := by
      clear hl hln hlm
      induction l with
      | nil => rfl
      | cons c l ihl => rw [List.mapM_cons, idx_eq, ihl]; rfl
    have hg : getSymgroups ch sb.1 sb.2 sy nd = some (a, l.map (idx nd)) := by
      unfold getSymgroups
      rw [ha, Option.bind_some, hl, Option.bind_some, hidx, Option.map_some]
    have hrange : ∀ t ∈ l, InRange nd t := fun t ht => equiv4_range sy nd hv sb.2 t hr ((hlm t).mp ht)
    obtain ⟨o1, e1, e2⟩ := readAndAdd_value o ch p hp (X sb.1 sb.2) a (l.map (idx nd))
      ((List.nodup_map_iff_inj_on hln).mpr fun t ht t' ht' h => idx_inj nd t t' (hrange t ht) (hrange t' ht') h)
      (by
        intro g hg'
        rw [List.mem_map] at hg'
        obtain ⟨t, ht, rfl⟩ := hg'
        exact ho t (hrange t ht) (equiv4_kan sy sb.2 t hk ((hlm t).mp ht)))
    obtain ⟨o', f1, f2⟩ := ih (fun sb' h' => hL sb' (by simp [h'])) o1 (by
      intro t ht hkt
      rw [e2]
      simpa using ho t ht hkt)
    refine ⟨o', ?_, ?_⟩
    · rw [List.foldlM_cons]
      simp only [hg, Option.bind_some, e1]
      exact f1
    · intro h
      rw [f2, e2, List.map_cons, List.sum_cons]
      have : contrib ch p sy nd X h sb =
          if h ∈ l.map (idx nd) then a.sgn K * (X sb.1 sb.2 / (p * ((l.map (idx nd)).length : K))) else 0 := by
        unfold contrib
        rw [ha, hl, List.length_map]
      rw [this]
      cases o h with
      | none => rfl
      | some y => simp [add_assoc]

open Classical in
/-- C50. Let the input hold every Kanamori component (six spin combinations, all band tuples with pairwise equal bands) once,
    with values `X spins bands`, in any order, and let the table of equivalent bands be valid.  Then the dataset of every
    such band tuple `g` in channel `ch` holds the sum over the spin combinations of their weight times the average of `X`
    over the tuples equivalent to `g`. -/
theorem symmetrize_average [CharZero K] (ch : String) (hch : ch = "dens" ∨ ch = "magn") (sy : List (List Int)) (nd : Nat)
    (hv : Valid sy nd) (X : Q4 → Q4 → K) (L : List (Q4 × Q4)) (hn : L.Nodup)
    (hL : ∀ sb, sb ∈ L ↔ sb.1 ∈ sixSpins ∧ InRange nd sb.2 ∧ Kan sb.2) :
    ∃ o', symmetrizeChannel ch sy nd (L.map fun sb => ⟨sb.1, sb.2, X sb.1 sb.2⟩)
        (initOut nd (L.map fun sb => ⟨sb.1, sb.2, X sb.1 sb.2⟩)) = some o' ∧
      ∀ (g : Q4) (orb : Finset Q4) (i : Int), InRange nd g → Kan g → (∀ t, t ∈ orb ↔ Equiv4 sy g t) →
        component2indexBand nd 4 g.toList = some i →
        o' i = some (∑ s ∈ sixSpins, weight K ch s * ((∑ b ∈ orb, X s b) / (orb.card : K))) := by
  obtain ⟨p, hp, hp0⟩ : ∃ p : K, prefactor ch = some p ∧ p = if ch = "dens" then 2 else 4 := by
    rcases hch with rfl | rfl
    · exact ⟨2, rfl, by simp⟩
    · exact ⟨4, rfl, by simp⟩
  have hinit : ∀ t, InRange nd t → Kan t →
      initOut nd (L.map fun sb => (⟨sb.1, sb.2, X sb.1 sb.2⟩ : Comp K)) (idx nd t) = some 0 := by
    intro t ht hk
    unfold initOut
    rw [if_pos]
    refine ⟨⟨(0, 0, 0, 0), t, X (0, 0, 0, 0) t⟩, ?_, idx_eq nd t⟩
    rw [List.mem_map]
    exact ⟨((0, 0, 0, 0), t), (hL _).mpr ⟨by simp [sixSpins], ht, hk⟩, rfl⟩
  obtain ⟨o', e1, e2⟩ := symmetrize_fold ch p hp sy nd hv X L (fun sb h => (hL sb).mp h)
    (initOut nd (L.map fun sb => ⟨sb.1, sb.2, X sb.1 sb.2⟩)) (fun t ht hk => by rw [hinit t ht hk]; rfl)
  refine ⟨o', e1, ?_⟩
  intro g orb i hg hk horb hi
  rw [idx_eq] at hi
  injection hi with hi
  subst hi
  rw [e2, hinit g hg hk, Option.map_some, zero_add]
  congr 1
  rw [← List.sum_toFinset _ hn]
  obtain ⟨lg, hlg, hlgn, hlgm⟩ := symBands_spec sy nd hv g hg hk
  have horbl : orb = lg.toFinset := by
    ext t; rw [horb, List.mem_toFinset, hlgm]
  have hcard : orb.card = lg.length := by rw [horbl, List.toFinset_card_of_nodup hlgn]
  -- restrict to the components equivalent to g
  have hsub : sixSpins ×ˢ orb ⊆ L.toFinset := by
    intro sb hsb
    rw [Finset.mem_product] at hsb
    rw [List.mem_toFinset, hL]
    have := (horb _).mp hsb.2
    exact ⟨hsb.1, equiv4_range sy nd hv g _ hg this, equiv4_kan sy g _ hk this⟩
  rw [← Finset.sum_subset hsub]
  · rw [Finset.sum_product]
    apply Finset.sum_congr rfl
    intro s hs
    rw [← mul_div_assoc, Finset.mul_sum, Finset.sum_div]
    apply Finset.sum_congr rfl
    intro b hb
    have hgb := (horb b).mp hb
    have hrb := equiv4_range sy nd hv g b hg hgb
    have hkb := equiv4_kan sy g b hk hgb
    obtain ⟨lb, hlb, hlbn, hlbm⟩ := symBands_spec sy nd hv b hrb hkb
    have hlen : lb.length = lg.length := by
      have : lb.toFinset = lg.toFinset := by
        ext t
        rw [List.mem_toFinset, List.mem_toFinset, hlbm, hlgm, equiv4_congr sy nd hv g b hg hgb]
      rw [← List.toFinset_card_of_nodup hlbn, this, List.toFinset_card_of_nodup hlgn]
    have hmem : idx nd g ∈ lb.map (idx nd) := by
      rw [List.mem_map]
      exact ⟨g, (hlbm g).mpr (equiv4_symm sy nd hv g b hg hgb), rfl⟩
    have hw : ∀ a, actionOf ch s = some a → a.sgn K / p = weight K ch s := by
      intro a ha
      simp only [sixSpins, Finset.mem_insert, Finset.mem_singleton] at hs
      rw [hp0]
      rcases hch with rfl | rfl <;> rcases hs with rfl | rfl | rfl | rfl | rfl | rfl <;>
        (simp [actionOf] at ha; subst ha; simp [Action.sgn, weight]) <;> norm_num
    have ha : ∃ a, actionOf ch s = some a := by
      simp only [sixSpins, Finset.mem_insert, Finset.mem_singleton] at hs
      rcases hch with rfl | rfl <;> rcases hs with rfl | rfl | rfl | rfl | rfl | rfl <;> exact ⟨_, rfl⟩
    obtain ⟨a, ha⟩ := ha
    unfold contrib
    rw [ha, hlb]
    simp only [hmem, if_true]
    rw [← hw a ha, hlen, hcard]
    have hpne : p ≠ 0 := by rw [hp0]; split <;> norm_num
    have hlne : (lg.length : K) ≠ 0 := by
      have : 0 < lg.length := List.length_pos_of_mem ((hlgm g).mpr (equiv4_refl sy nd hv g hg))
      exact_mod_cast this.ne'
    field_simp
  · intro sb hsb hnot
    rw [List.mem_toFinset, hL] at hsb
    obtain ⟨hs, hr, hkb⟩ := hsb
    rw [Finset.mem_product, not_and] at hnot
    have hno := hnot hs
    rw [horb] at hno
    obtain ⟨lb, hlb, _, hlbm⟩ := symBands_spec sy nd hv sb.2 hr hkb
    unfold contrib
    rw [hlb]
    split
    · next a l h1 h2 =>
      injection h2 with h2
      subst h2
      rw [if_neg]
      intro hm
      rw [List.mem_map] at hm
      obtain ⟨t, ht, hti⟩ := hm
      have hbt := (hlbm t).mp ht
      have := idx_inj nd t g (equiv4_range sy nd hv sb.2 t hr hbt) hg hti
      subst this
      exact hno (equiv4_symm sy nd hv sb.2 t hr hbt)
    · rfl

end DGA.Sym
