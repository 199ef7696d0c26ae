/-
  C43 (accesses stay in bounds), C57 (conductivity bubble), C58 (vertex correction of the conductivity).
-/
import Verif.Optics.Model
import Verif.Bubble.Props
import Verif.FourPoint.Props2
import Verif.Config.Props

namespace DGA.Opt

open DGA.Mf DGA.Bz DGA.Bubble

/-! ### C43: the slice F(v, v-w) -/

theorem diagRows_get? {α : Type} (m : List (List α)) (n : Nat) (hl : m.length = n) (hr : ∀ r ∈ m, r.length = n) :
    (diagRows m).length = n ∧ ∀ i, i < n → (diagRows m)[i]? = (m[i]?).bind fun r => r[i]? := by
  have key : diagRows m = (List.range n).filterMap fun i => (m[i]?).bind fun r => r[i]? := by
    unfold diagRows; rw [hl]
  by_cases h0 : n = 0
  · subst h0; rw [key]; simp
  have hex : ∀ i, i < n → ∃ x, ((m[i]?).bind fun r => r[i]?) = some x := by
    intro i hi
    have h1 : i < m.length := by omega
    have h2 : m[i].length = n := hr _ (List.getElem_mem h1)
    refine ⟨m[i][i]'(by omega), ?_⟩
    rw [List.getElem?_eq_getElem h1, Option.bind_some, List.getElem?_eq_getElem (by omega)]
  obtain ⟨x0, _⟩ := hex 0 (by omega)
  have e : diagRows m = (List.range n).map fun i => (((m[i]?).bind fun r => r[i]?).getD x0) := by
    rw [key]
    have : ∀ l : List Nat, (∀ i ∈ l, i < n) → (l.filterMap fun i => (m[i]?).bind fun r => r[i]?) =
        l.map fun i => (((m[i]?).bind fun r => r[i]?).getD x0) := by
      intro l hlt
      induction l with
      | nil => rfl
      | cons a l ih =>
        obtain ⟨x, hx⟩ := hex a (hlt a (by simp))
        rw [List.filterMap_cons, hx, List.map_cons, hx, ih fun i hi => hlt i (by simp [hi])]
        rfl
    exact this _ fun i hi => by simpa using hi
  constructor
  · rw [e]; simp
  · intro i hi
    rw [e, range_map_get?, if_pos hi]
    obtain ⟨x, hx⟩ := hex i hi
    rw [hx]; rfl

/-- C43. For every vertex `mat` on `2 niv_old` × `2 niv_old` frequencies and all external frequencies `wn` with
    `niv_new + |w| ≤ niv_old`, the stored slice has one row per `w` and the entry for `v` is `F(v, v - w)`; nothing
    outside the stored range is read. -/
theorem vmwVSlice_value {α : Type} (mat : List (List α)) (nivOld : Nat) (hl : mat.length = 2 * nivOld)
    (hr : ∀ r ∈ mat, r.length = 2 * nivOld) (wn : List Int) (nivNew : Nat)
    (hfit : ∀ w ∈ wn, nivNew + w.natAbs ≤ nivOld) :
    ∃ res, getVmwVSlice mat (2 * nivOld) wn nivNew = some res ∧ res.length = wn.length ∧
      ∀ (i : Nat) (w : Int), wn[i]? = some w → ∃ row, res[i]? = some row ∧ row.length = 2 * nivNew ∧
        ∀ v : Int, -(nivNew : Int) ≤ v → v < nivNew → ∃ x, at2 mat v (v - w) = some x ∧ atF row v = some x := by
  have key : ∀ w : Int, nivNew + w.natAbs ≤ nivOld → ∃ d, d =
      diagRows ((Py.slice mat ((nivOld : Int) - nivNew) ((nivOld : Int) + nivNew)).map fun r =>
        Py.slice r ((nivOld : Int) - nivNew - w) ((nivOld : Int) + nivNew - w)) ∧ d.length = 2 * nivNew ∧
      ∀ v : Int, -(nivNew : Int) ≤ v → v < nivNew → ∃ x, at2 mat v (v - w) = some x ∧ atF d v = some x := by
    intro w hw
    refine ⟨_, rfl, ?_⟩
    have hlen : ((Py.slice mat ((nivOld : Int) - nivNew) ((nivOld : Int) + nivNew)).map fun r =>
        Py.slice r ((nivOld : Int) - nivNew - w) ((nivOld : Int) + nivNew - w)).length = 2 * nivNew := by
      rw [List.length_map, Py.length_slice_in _ _ _ (by omega) (by omega) (by omega)]; omega
    have hrow : ∀ r ∈ (Py.slice mat ((nivOld : Int) - nivNew) ((nivOld : Int) + nivNew)).map fun r =>
        Py.slice r ((nivOld : Int) - nivNew - w) ((nivOld : Int) + nivNew - w), r.length = 2 * nivNew := by
      intro r hr'
      rw [List.mem_map] at hr'
      obtain ⟨r0, h0, rfl⟩ := hr'
      have hm : r0 ∈ mat := by
        unfold Py.slice at h0
        exact List.mem_of_mem_drop (List.mem_of_mem_take h0)
      rw [Py.length_slice_in _ _ _ (by omega) (by omega) (by rw [hr _ hm]; omega)]; omega
    obtain ⟨h1, h2⟩ := diagRows_get? _ _ hlen hrow
    refine ⟨h1, ?_⟩
    intro v hv1 hv2
    have hi : (v + nivNew).toNat < 2 * nivNew := by omega
    have hk : (v + nivOld).toNat < mat.length := by omega
    have hrl : (mat[(v + nivOld).toNat]).length = 2 * nivOld := hr _ (List.getElem_mem hk)
    refine ⟨(mat[(v + nivOld).toNat])[(v - w + nivOld).toNat]'(by omega), ?_, ?_⟩
    · unfold at2
      rw [atF_eq _ nivOld hl, if_pos (by omega), List.getElem?_eq_getElem hk, Option.bind_some,
        atF_eq _ nivOld hrl, if_pos (by omega), List.getElem?_eq_getElem]
    · rw [atF_eq _ nivNew h1, if_pos (by omega), h2 _ hi, List.getElem?_map,
        Py.slice_get?_in _ _ _ (by omega) (by omega) _ (by omega),
        show ((nivOld : Int) - nivNew + ((v + nivNew).toNat : Nat)).toNat = (v + nivOld).toNat by omega,
        List.getElem?_eq_getElem hk, Option.map_some, Option.bind_some,
        Py.slice_get?_in _ _ _ (by omega) (by rw [hrl]; omega) _ (by omega),
        show ((nivOld : Int) - nivNew - w + ((v + nivNew).toNat : Nat)).toNat = (v - w + nivOld).toNat by omega,
        List.getElem?_eq_getElem]
  choose! D hD using key
  refine ⟨wn.map D, ?_, by simp, ?_⟩
  · unfold getVmwVSlice
    apply mapM_some
    intro w hw
    obtain ⟨e1, e2, _⟩ := hD w (hfit w hw)
    simp only [show 2 * nivOld / 2 = nivOld by omega, ← e1]
    rw [if_pos e2]
  · intro i w hi
    obtain ⟨_, e2, e3⟩ := hD w (hfit w (List.mem_of_getElem? hi))
    exact ⟨D w, by rw [List.getElem?_map, hi]; rfl, e2, e3⟩

/-- C43 for the whole program: after `set_frequency_ranges` has succeeded on a box with `niv_core` core frequencies and
    the resulting vertex range is positive, the components written for the optical conductivity are `F(v, v-w)` for every
    non-negative external frequency up to `niw_cond`. -/
theorem optics_ranges_fit {α : Type} (o o' : Cfg.Optics) (b b' : Cfg.Box) (h : o.setRanges b = some (o', b'))
    (hv : 0 ≤ o'.nivVert) (hw : 0 ≤ o'.niwCond) (mat : List (List α)) (hl : mat.length = 2 * b.nivCore.toNat)
    (hr : ∀ r ∈ mat, r.length = 2 * b.nivCore.toNat) :
    ∃ res, getVmwVSlice mat (2 * b.nivCore.toNat) (wn o'.niwCond.toNat 0 true) o'.nivVert.toNat = some res ∧
      res.length = o'.niwCond.toNat + 1 ∧ ∀ w : Nat, w ≤ o'.niwCond.toNat → ∃ row, res[w]? = some row ∧
        row.length = 2 * o'.nivVert.toNat ∧
        ∀ v : Int, -o'.nivVert ≤ v → v < o'.nivVert → ∃ x, at2 mat v (v - w) = some x ∧ atF row v = some x := by
  obtain ⟨_, h2, _⟩ := Cfg.setRanges_spec o b o' b' h
  obtain ⟨res, e1, e2, e3⟩ := vmwVSlice_value mat b.nivCore.toNat hl hr (wn o'.niwCond.toNat 0 true) o'.nivVert.toNat (by
    intro w hw'
    rw [mem_wnPos] at hw'
    omega)
  refine ⟨res, e1, by rw [e2, wnPos_length], ?_⟩
  intro w hw'
  obtain ⟨row, r1, r2, r3⟩ := e3 w (w : Int) (wnPos_get? _ _ hw')
  exact ⟨row, r1, r2, fun v h1 h2 => r3 v (by omega) (by omega)⟩

/-- Non-vacuity: 2 × 2 core frequencies, one external frequency. -/
example : getVmwVSlice [[11, 12, 13, 14], [21, 22, 23, 24], [31, 32, 33, 34], [41, 42, 43, 44]] 4 [0, 1] 1 =
    some [[22, 33], [21, 32]] := by decide

/-- The condition is needed: one frequency further the assignment raises. -/
example : getVmwVSlice [[11, 12, 13, 14], [21, 22, 23, 24], [31, 32, 33, 34], [41, 42, 43, 44]] 4 [2] 1 = none := by decide

/-- Outside the condition a wrong row can be stored without an error: a diagonal of length one is broadcast (`w = -2`) and
    for very large `w` both bounds are negative and wrap around (`w = 4`, read `F(v, v)` instead of `F(v, v - 4)`). -/
theorem vmwVSlice_unnoticed :
    getVmwVSlice [[11, 12, 13, 14], [21, 22, 23, 24], [31, 32, 33, 34], [41, 42, 43, 44]] 4 [-2] 1 = some [[24, 24]] ∧
    getVmwVSlice [[11, 12, 13, 14], [21, 22, 23, 24], [31, 32, 33, 34], [41, 42, 43, 44]] 4 [4] 1 = some [[22, 33]] := by
  decide

/-- The slice is linear: a combination of vertices may be sliced before or after combining. -/
theorem vmwVSlice_map {α β : Type} (f : α → β) (mat : List (List α)) (ncol : Nat) (w : List Int) (nivNew : Nat) :
    getVmwVSlice (mat.map fun r => r.map f) ncol w nivNew = (getVmwVSlice mat ncol w nivNew).map fun res => res.map fun r => r.map f := by
  have hsl : ∀ {γ δ : Type} (g : γ → δ) (l : List γ) (a b : Int), Py.slice (l.map g) a b = (Py.slice l a b).map g := by
    intro γ δ g l a b
    unfold Py.slice
    rw [List.length_map, ← List.map_drop, ← List.map_take]
  have hdg : ∀ m : List (List α), diagRows (m.map fun r => r.map f) = (diagRows m).map f := by
    intro m
    unfold diagRows
    rw [List.length_map, List.map_filterMap]
    congr 1
    funext i
    rw [List.getElem?_map]
    cases m[i]? with
    | none => rfl
    | some r => simp
  unfold getVmwVSlice
  simp only []
  induction w with
  | nil => rfl
  | cons a w ih =>
    rw [List.mapM_cons, List.mapM_cons, ih, hsl, List.map_map]
    have e : ((Py.slice mat (((ncol / 2 : Nat) : Int) - nivNew) (((ncol / 2 : Nat) : Int) + nivNew)).map
        ((fun r => Py.slice r (((ncol / 2 : Nat) : Int) - nivNew - a) (((ncol / 2 : Nat) : Int) + nivNew - a)) ∘ fun r => r.map f)) =
        ((Py.slice mat (((ncol / 2 : Nat) : Int) - nivNew) (((ncol / 2 : Nat) : Int) + nivNew)).map
          fun r => Py.slice r (((ncol / 2 : Nat) : Int) - nivNew - a) (((ncol / 2 : Nat) : Int) + nivNew - a)).map fun r => r.map f := by
      rw [List.map_map]
      apply List.map_congr_left
      intro r _
      simp only [Function.comp]
      rw [hsl]
    rw [e, hdg, List.length_map]
    generalize diagRows _ = d
    by_cases hd : d.length = 2 * nivNew
    · simp only [hd, if_true]
      cases (List.mapM _ w : Option (List (List α))) <;> rfl
    · simp only [hd, if_false]
      match d with
      | [] => rfl
      | [x] =>
        simp only [List.map_cons, List.map_nil]
        cases (List.mapM _ w : Option (List (List α))) <;> simp
      | x :: y :: l => rfl

end DGA.Opt
