/-
  C40 (component indices), C50 (symmetrisation).
-/
import Verif.Symm.Model
import Mathlib.Tactic.Linarith
import Mathlib.Tactic.Ring
import Mathlib.Algebra.BigOperators.Group.List.Lemmas

namespace DGA.Sym

/-! ### C40 -/

/-- the value of a digit list, most significant first -/
def value (base : Nat) : List Int → Int
  | [] => 0
  | d :: l => (base ^ l.length : Nat) * d + value base l

/-- the digits are digits -/
def IsDigits (base : Nat) (l : List Int) : Prop := ∀ d ∈ l, 0 ≤ d ∧ d < base

theorem value_bounds (base : Nat) (l : List Int) (h : IsDigits base l) :
    0 ≤ value base l ∧ value base l < (base ^ l.length : Nat) := by
  induction l with
  | nil => simp [value]
  | cons d l ih =>
    obtain ⟨h1, h2⟩ := h d (by simp)
    obtain ⟨h3, h4⟩ := ih fun x hx => h x (by simp [hx])
    simp only [value, List.length_cons]
    have hp : (0 : Int) ≤ (base ^ l.length : Nat) := by positivity
    constructor
    · positivity
    · have : ((base ^ (l.length + 1) : Nat) : Int) = (base ^ l.length : Nat) * base := by push_cast; ring
      rw [this]
      nlinarith [mul_nonneg hp (show (0 : Int) ≤ base - 1 - d by omega)]

/-- decoding what was encoded -/
theorem peel_value (base : Nat) (l : List Int) (h : IsDigits base l) : peel base l.length (value base l) = l := by
  induction l with
  | nil => rfl
  | cons d l ih =>
    have hl := fun x hx => h x (List.mem_cons_of_mem d hx)
    obtain ⟨h3, h4⟩ := value_bounds base l hl
    simp only [List.length_cons, peel, value]
    have hp : (0 : Int) < (base ^ l.length : Nat) := lt_of_le_of_lt h3 h4
    have hd : ((base ^ l.length : Nat) * d + value base l) / ((base ^ l.length : Nat) : Int) = d := by
      rw [add_comm, Int.add_mul_ediv_left _ _ (ne_of_gt hp), Int.ediv_eq_zero_of_lt h3 h4, zero_add]
    rw [hd]
    congr 1
    rw [add_sub_cancel_left]
    exact ih hl

/-- encoding what was decoded -/
theorem value_peel (base : Nat) (hb : 0 < base) (k : Nat) (t : Int) (h0 : 0 ≤ t) (h1 : t < (base ^ k : Nat)) :
    (peel base k t).length = k ∧ IsDigits base (peel base k t) ∧ value base (peel base k t) = t := by
  induction k generalizing t with
  | zero =>
    refine ⟨rfl, by intro d hd; simp [peel] at hd, ?_⟩
    simp only [pow_zero, Nat.cast_one] at h1
    simp only [peel, value]; omega
  | succ k ih =>
    have hp : (0 : Int) < (base ^ k : Nat) := by positivity
    have hm0 := Int.emod_nonneg t (ne_of_gt hp)
    have hm1 := Int.emod_lt_of_pos t hp
    have he : t - (base ^ k : Nat) * (t / (base ^ k : Nat)) = t % (base ^ k : Nat) := by
      rw [Int.emod_def]
    obtain ⟨i1, i2, i3⟩ := ih (t % (base ^ k : Nat)) hm0 hm1
    simp only [peel]
    rw [he]
    refine ⟨by rw [List.length_cons, i1], ?_, ?_⟩
    · intro d hd
      rcases List.mem_cons.mp hd with rfl | hd
      · refine ⟨Int.ediv_nonneg h0 hp.le, ?_⟩
        apply Int.ediv_lt_of_lt_mul hp
        have : ((base ^ (k + 1) : Nat) : Int) = (base : Int) * (base ^ k : Nat) := by push_cast; ring
        rw [← this]; exact h1
      · exact i2 d hd
    · simp only [value, i1, i3]
      have := Int.mul_ediv_add_emod t (base ^ k : Nat)
      linarith

/-- `component2index_band` is one plus the positional value. -/
theorem component2index_eq (nb : Nat) (b : List Int) : component2indexBand nb b.length b = some (1 + value nb b) := by
  unfold component2indexBand
  have key : ∀ (b : List Int) (pre : List Int) (acc : Int), (List.range' pre.length b.length).foldlM
      (fun ind i => ((pre ++ b)[i]?).map fun d => ind + ((nb ^ ((pre ++ b).length - i - 1) : Nat) : Int) * d) acc =
      some (acc + value nb b) := by
    intro b
    induction b with
    | nil => intro pre acc; simp [value]
    | cons d b ih =>
      intro pre acc
      rw [List.length_cons, List.range'_succ, List.foldlM_cons]
      have h1 : (pre ++ d :: b)[pre.length]? = some d := by simp
      rw [h1]
      simp only [Option.map_some, Option.bind_eq_bind, Option.bind_some]
      have h2 := ih (pre ++ [d]) (acc + ((nb ^ ((pre ++ d :: b).length - pre.length - 1) : Nat) : Int) * d)
      simp only [List.length_append, List.length_cons, List.length_nil, List.append_assoc, List.cons_append, List.nil_append] at h2
      simp only [List.length_append, List.length_cons]
      rw [h2]
      simp only [value]
      congr 1
      have : pre.length + (b.length + 1) - pre.length - 1 = b.length := by omega
      rw [this]
      ring
  have := key b [] 1
  simpa [List.range_eq_range'] using this

/-- C40. For every number of bands and operators: every tuple of bands is encoded as an index in `1..nb^N` from which
    `index2component_band` recovers the tuple; -/
theorem band_roundtrip (nb : Nat) (b : List Int) (h : IsDigits nb b) :
    ∃ ind, component2indexBand nb b.length b = some ind ∧ 1 ≤ ind ∧ ind ≤ (nb ^ b.length : Nat) ∧
      index2componentBand nb b.length ind = b := by
  obtain ⟨h1, h2⟩ := value_bounds nb b h
  refine ⟨1 + value nb b, component2index_eq nb b, by omega, by omega, ?_⟩
  unfold index2componentBand
  rw [add_sub_cancel_left]
  exact peel_value nb b h

/-- and every index in `1..nb^N` is decoded to a tuple of `N` bands which is encoded as that index. -/
theorem index_roundtrip (nb : Nat) (hnb : 0 < nb) (N : Nat) (ind : Int) (h1 : 1 ≤ ind) (h2 : ind ≤ (nb ^ N : Nat)) :
    (index2componentBand nb N ind).length = N ∧ IsDigits nb (index2componentBand nb N ind) ∧
      component2indexBand nb N (index2componentBand nb N ind) = some ind := by
  obtain ⟨a, b, c⟩ := value_peel nb hnb N (ind - 1) (by omega) (by omega)
  unfold index2componentBand
  refine ⟨a, b, ?_⟩
  have := component2index_eq nb (peel nb N (ind - 1))
  rw [a, c] at this
  rw [this]; congr 1; omega

/-- Different tuples have different indices. -/
theorem component2index_inj (nb : Nat) (b c : List Int) (hl : b.length = c.length) (hb : IsDigits nb b) (hc : IsDigits nb c)
    (h : component2indexBand nb b.length b = component2indexBand nb c.length c) : b = c := by
  rw [component2index_eq, component2index_eq] at h
  have : value nb b = value nb c := by
    have := Option.some.inj h; omega
  rw [← peel_value nb b hb, ← peel_value nb c hc, this, hl]

/-- C40, band and spin: for every index in `1..(2 nb)^N` the compound digits are `2 band + spin` with band `< nb` and spin 0
    or 1, and encoding the compound digits gives the index back. -/
theorem general_roundtrip (nb : Nat) (hnb : 0 < nb) (N : Nat) (ind : Int) (h1 : 1 ≤ ind) (h2 : ind ≤ ((2 * nb) ^ N : Nat)) :
    let r := index2componentGeneral nb N ind
    r.1.length = N ∧ r.2.1.length = N ∧ r.2.2.length = N ∧ IsDigits nb r.2.1 ∧ (∀ x ∈ r.2.2, x = 0 ∨ x = 1) ∧
      r.1 = List.zipWith (fun b s => 2 * b + s) r.2.1 r.2.2 ∧ component2indexBand (2 * nb) N r.1 = some ind := by
  obtain ⟨a, b, c⟩ := index_roundtrip (2 * nb) (by omega) N ind h1 h2
  intro r
  have hr : r.1 = index2componentBand (2 * nb) N ind := rfl
  have hb : r.2.1 = r.1.map (fun x => (x - x % 2) / 2) := rfl
  have hs : r.2.2 = r.1.map (fun x => x % 2) := rfl
  rw [← hr] at a b c
  refine ⟨a, by rw [hb, List.length_map, a], by rw [hs, List.length_map, a], ?_, ?_, ?_, c⟩
  · intro d hd
    rw [hb, List.mem_map] at hd
    obtain ⟨x, hx, rfl⟩ := hd
    have := b x hx
    push_cast at this
    omega
  · intro x hx
    rw [hs, List.mem_map] at hx
    obtain ⟨y, _, rfl⟩ := hx
    omega
  · rw [hb, hs, List.zipWith_map, List.zipWith_self]
    conv_lhs => rw [← List.map_id r.1]
    apply List.map_congr_left
    intro x _
    simp only [id]
    omega

example : component2indexBand 3 4 [2, 0, 1, 2] = some 60 ∧ index2componentBand 3 4 60 = [2, 0, 1, 2] ∧
    index2componentGeneral 3 4 1290 = ([5, 5, 4, 5], [2, 2, 2, 2], [1, 1, 0, 1]) := by decide

end DGA.Sym
