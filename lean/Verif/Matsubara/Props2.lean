/-
  Properties of frequency conversions (C18 – C21).
-/
import Verif.Matsubara.Props

namespace DGA.Mf

variable {α : Type}

/-! ### C18 — bosonic → (v, v') -/

/-- C18.  `w_to_vmvp` succeeds for every input and the entry at row `v`, column `v'` is the input at bosonic index
    `v - v'`; the access is inside the stored range. -/
theorem wToVmvp_value (l : List α) (niw : Nat) (h : l.length = 2 * niw + 1) :
    ∃ cols, wToVmvp l = some cols ∧ cols.length = 2 * (niw / 2) ∧
      ∀ v v' : Int, -((niw / 2 : Nat) : Int) ≤ v → v < (niw / 2 : Nat) → -((niw / 2 : Nat) : Int) ≤ v' →
        v' < (niw / 2 : Nat) →
        ((atF cols v').bind fun col => atF col v) = atB l (v - v') ∧ (atB l (v - v')).isSome := by
  have hn := nFromMat_eq' l niw h
  let colOf : Int → List α := fun ivp =>
    Py.slice l ((niw : Int) - (niw / 2 : Nat) - ivp) ((niw : Int) + (niw / 2 : Nat) - ivp)
  have hcol : ∀ ivp : Int, -((niw / 2 : Nat) : Int) ≤ ivp → ivp < (niw / 2 : Nat) →
      (colOf ivp).length = 2 * (niw / 2) := by
    intro ivp h1 h2
    rw [Py.length_slice_in _ _ _ (by omega) (by omega) (by omega)]; omega
  have hex : wToVmvp l = some ((vn (niw / 2)).map colOf) := by
    unfold wToVmvp
    simp only [hn]
    apply mapM_some
    intro ivp hi
    rw [mem_vn] at hi
    rw [if_pos (hcol ivp hi.1 hi.2)]
  have hlen : ((vn (niw / 2)).map colOf).length = 2 * (niw / 2) := by rw [List.length_map, vn_length]
  refine ⟨_, hex, hlen, ?_⟩
  intro v v' h1 h2 h3 h4
  rw [atF_eq _ (niw / 2) hlen, if_pos ⟨h3, h4⟩, List.getElem?_map, vn_get? _ _ (by omega)]
  simp only [Option.map_some, Option.bind_some]
  rw [show (((v' + (niw / 2 : Nat)).toNat : Nat) : Int) - (niw / 2 : Nat) = v' by omega,
    atF_eq _ (niw / 2) (hcol v' h3 h4), if_pos ⟨h1, h2⟩, atB_eq l niw h, if_pos (by omega),
    Py.slice_get?_in _ _ _ (by omega) (by omega) _ (by omega)]
  have e : ((niw : Int) - (niw / 2 : Nat) - v' + ((v + (niw / 2 : Nat)).toNat : Nat)).toNat = (v - v' + niw).toNat := by
    omega
  rw [e]
  refine ⟨rfl, ?_⟩
  rw [List.getElem?_eq_getElem (by omega)]; rfl

/-- C18.  `reshape_chi` for a pairing box that fits (`2 niv_pp ≤ niw + 1`, true for `niv_pp = min(niw//2, niv//2)`):
    entry `(v, v')` is the susceptibility at `v - v'`. -/
theorem reshapeChi_value (chi : List α) (niw nivpp : Nat) (h : chi.length = 2 * niw + 1) (hfit : 2 * nivpp ≤ niw + 1) :
    ∃ m, reshapeChi chi nivpp = some m ∧ m.length = 2 * nivpp ∧ (∀ r ∈ m, r.length = 2 * nivpp) ∧
      ∀ v v' : Int, -(nivpp : Int) ≤ v → v < nivpp → -(nivpp : Int) ≤ v' → v' < nivpp →
        at2 m v v' = atB chi (v - v') ∧ (atB chi (v - v')).isSome := by
  have hn := nFromMat_eq' chi niw h
  have hacc : ∀ v v' : Int, -(nivpp : Int) ≤ v → v < nivpp → -(nivpp : Int) ≤ v' → v' < nivpp →
      Py.get? chi (v - v' + (nFromMat chi : Nat)) = atB chi (v - v') ∧ (atB chi (v - v')).isSome = true := by
    intro v v' h1 h2 h3 h4
    rw [hn, get?_nonneg _ _ (by omega), atB_eq chi niw h, if_pos (by omega)]
    refine ⟨rfl, ?_⟩
    rw [List.getElem?_eq_getElem (by omega)]; rfl
  obtain ⟨m, hm⟩ := table_exists nivpp (fun v v' => Py.get? chi (v - v' + (nFromMat chi : Nat))) (by
    intro v v' h1 h2 h3 h4; rw [(hacc v v' h1 h2 h3 h4).1]; exact (hacc v v' h1 h2 h3 h4).2)
  obtain ⟨t1, t2, t3⟩ := table_value nivpp _ m hm
  refine ⟨m, hm, t1, t2, ?_⟩
  intro v v' h1 h2 h3 h4
  rw [t3 v v' h1 h2 h3 h4]
  exact hacc v v' h1 h2 h3 h4

example : wToVmvp [10, 11, 12, 13, 14] = some [[12, 13], [11, 12]] := by decide
example : reshapeChi [10, 11, 12, 13, 14] 1 = some [[12, 11], [13, 12]] := by decide

/-! ### C19 — adding bosonic objects -/

/-- C19.  The sum has the larger box; at every index it is the sum of the two values, a missing value counting as
    absent (zero). -/
theorem addBosonic_value (add : α → α → α) (hcomm : ∀ x y, add x y = add y x) (a b : List α) (n1 n2 : Nat)
    (h1 : a.length = 2 * n1 + 1) (h2 : b.length = 2 * n2 + 1) :
    ∃ r, addBosonic add a b = some r ∧ r.length = 2 * max n1 n2 + 1 ∧ ∀ n : Int, n.natAbs ≤ max n1 n2 →
      atB r n = match atB a n, atB b n with
        | some x, some y => some (add x y)
        | some x, none => some x
        | none, some y => some y
        | none, none => none := by
  have key : ∀ (p q : List α) (m1 m2 : Nat), p.length = 2 * m1 + 1 → q.length = 2 * m2 + 1 → m2 ≤ m1 →
      ∃ r, updSlice add p ((m1 : Int) - m2) (m1 + m2 + 1) q = some r ∧ r.length = 2 * m1 + 1 ∧
        ∀ n : Int, n.natAbs ≤ m1 → atB r n = match atB p n, atB q n with
          | some x, some y => some (add x y)
          | some x, none => some x
          | none, some y => some y
          | none, none => none := by
    intro p q m1 m2 hp hq hle
    obtain ⟨r, hr, hl, hv⟩ := updSlice_get? add p ((m1 : Int) - m2) (m1 + m2 + 1) q (by omega) (by omega) (by omega)
      (by omega)
    refine ⟨r, hr, by omega, ?_⟩
    intro n hn
    rw [atB_eq r m1 (by omega), atB_eq p m1 hp, atB_eq q m2 hq, if_pos (by omega), if_pos (by omega)]
    have hpk : p[(n + m1).toNat]? = some (p[(n + m1).toNat]'(by omega)) := List.getElem?_eq_getElem (by omega)
    by_cases hin : -(m2 : Int) ≤ n ∧ n ≤ m2
    · rw [if_pos hin]
      obtain ⟨x, y, hx, hy, hz⟩ := (hv (n + m1).toNat).2 (by omega) (by omega)
      rw [hz, hx]
      have e : ((((n + m1).toNat : Nat) : Int) - ((m1 : Int) - m2)).toNat = (n + m2).toNat := by omega
      rw [e] at hy
      rw [hy]
    · rw [if_neg hin, (hv (n + m1).toNat).1 (by omega), hpk]
  have e1 : nFromMat a = n1 := nFromMat_eq' a n1 h1
  have e2 : nFromMat b = n2 := nFromMat_eq' b n2 h2
  unfold addBosonic
  simp only [e1, e2]
  by_cases hle : n2 ≤ n1
  · rw [if_pos hle]
    obtain ⟨r, hr, hl, hv⟩ := key a b n1 n2 h1 h2 hle
    rw [show max n1 n2 = n1 by omega]
    exact ⟨r, hr, hl, hv⟩
  · rw [if_neg hle]
    obtain ⟨r, hr, hl, hv⟩ := key b a n2 n1 h2 h1 (by omega)
    rw [show max n1 n2 = n2 by omega]
    refine ⟨r, hr, hl, ?_⟩
    intro n hn
    rw [hv n hn]
    cases atB a n <;> cases atB b n <;> simp [hcomm]

/-- C19.  Commutative. -/
theorem addBosonic_comm (add : α → α → α) (hcomm : ∀ x y, add x y = add y x) (a b : List α) (n1 n2 : Nat)
    (h1 : a.length = 2 * n1 + 1) (h2 : b.length = 2 * n2 + 1) : addBosonic add a b = addBosonic add b a := by
  obtain ⟨r, hr, hl, hv⟩ := addBosonic_value add hcomm a b n1 n2 h1 h2
  obtain ⟨r', hr', hl', hv'⟩ := addBosonic_value add hcomm b a n2 n1 h2 h1
  rw [hr, hr']
  congr 1
  rw [Nat.max_comm] at hl'
  apply List.ext_getElem?
  intro k
  by_cases hk : k < 2 * max n1 n2 + 1
  · have a1 := hv ((k : Int) - (max n1 n2 : Nat)) (by omega)
    have a2 := hv' ((k : Int) - (max n1 n2 : Nat)) (by omega)
    rw [atB_eq r _ hl, if_pos (by omega)] at a1
    rw [atB_eq r' _ hl', if_pos (by omega)] at a2
    rw [show (((k : Int) - (max n1 n2 : Nat)) + (max n1 n2 : Nat)).toNat = k by omega] at a1 a2
    rw [a1, a2]
    cases atB a ((k : Int) - (max n1 n2 : Nat)) <;> cases atB b ((k : Int) - (max n1 n2 : Nat)) <;> simp [hcomm]
  · rw [List.getElem?_eq_none (by omega), List.getElem?_eq_none (by omega)]

example : addBosonic (· + ·) [1, 2, 3] [10, 20, 30, 40, 50] = some [10, 21, 32, 43, 50] := by decide

/-- C19.  Cutting a bosonic box keeps the values at the indices `-c … c`. -/
theorem cutW_value (l : List α) (niw : Nat) (h : l.length = 2 * niw + 1) (c : Nat) (hc : c ≤ niw) :
    (cutW l c).length = 2 * c + 1 ∧ ∀ n : Int, n.natAbs ≤ c → atB (cutW l c) n = atB l n := by
  have hlen : (cutW l c).length = 2 * c + 1 := by
    unfold cutW
    simp only [nFromMat_eq' l niw h]
    rw [Py.length_slice_in _ _ _ (by omega) (by omega) (by omega)]; omega
  refine ⟨hlen, ?_⟩
  intro n hn
  rw [atB_eq _ c hlen, atB_eq l niw h, if_pos (by omega), if_pos (by omega)]
  unfold cutW
  simp only [nFromMat_eq' l niw h]
  rw [Py.slice_get?_in _ _ _ (by omega) (by omega) _ (by omega)]
  congr 1; omega

/-- C19.  `get_mat_at_iwn` returns the value at the index inside the box, raises above it, and below it silently wraps
    to the other end (`np.take` accepts negative positions) until `-(3 niw + 1)`. -/
theorem matAtIwn_value (l : List α) (niw : Nat) (h : l.length = 2 * niw + 1) (n : Int) :
    (n.natAbs ≤ niw → matAtIwn l n = atB l n) ∧ ((niw : Int) < n → matAtIwn l n = none) ∧
    (n < -(niw : Int) → -(3 * niw + 1 : Int) ≤ n → matAtIwn l n = atB l (n + 2 * niw + 1)) ∧
    (n < -(3 * niw + 1 : Int) → matAtIwn l n = none) := by
  have hn := nFromMat_eq' l niw h
  refine ⟨?_, ?_, ?_, ?_⟩
  · intro hb
    unfold matAtIwn
    rw [hn, get?_nonneg _ _ (by omega), atB_eq l niw h, if_pos (by omega)]
    congr 1; omega
  · intro hb
    unfold matAtIwn
    rw [hn, get?_nonneg _ _ (by omega), List.getElem?_eq_none (by omega)]
  · intro h1 h2
    unfold matAtIwn Py.get?
    rw [hn, if_pos (by omega), if_pos (by omega), atB_eq l niw h, if_pos (by omega)]
    congr 1; omega
  · intro h1
    unfold matAtIwn Py.get?
    rw [hn, if_pos (by omega), if_neg (by omega)]

/-! ### C20 — ph → pp -/

theorem get3_at3 (m : List (List (List α))) (niw niv : Nat) (hs : Shape3 m (2 * niw + 1) (2 * niv) (2 * niv))
    (w v v' : Int) (hw : w.natAbs ≤ niw) (h1 : -(niv : Int) ≤ v) (h2 : v < niv) (h3 : -(niv : Int) ≤ v') (h4 : v' < niv) :
    get3 m (w + niw) (v + niv) (v' + niv) = at3 m w v v' ∧ (at3 m w v v').isSome = true := by
  obtain ⟨hl, hrest⟩ := hs
  have hk : (w + niw).toNat < m.length := by omega
  obtain ⟨hx, hy⟩ := hrest _ (List.getElem_mem hk)
  have hk2 : (v + niv).toNat < (m[(w + niw).toNat]).length := by omega
  have hz := hy _ (List.getElem_mem hk2)
  unfold get3 at3
  rw [get?_nonneg _ _ (by omega), atB_eq m niw hl, if_pos (by omega), List.getElem?_eq_getElem hk]
  simp only [Option.bind_some]
  rw [get?_nonneg _ _ (by omega), atF_eq _ niv hx, if_pos (by omega), List.getElem?_eq_getElem hk2]
  simp only [Option.bind_some]
  rw [get?_nonneg _ _ (by omega), atF_eq _ niv hz, if_pos (by omega)]
  refine ⟨rfl, ?_⟩
  rw [List.getElem?_eq_getElem (by omega)]; rfl

/-- C20.  `ph2pp` succeeds for every input box, never reads outside it, and its entry `(w, v, v')` is the input at
    `(v + v' + 1 - w, v, v')`. -/
theorem ph2pp_value (m : List (List (List α))) (niw niv : Nat) (hs : Shape3 m (2 * niw + 1) (2 * niv) (2 * niv)) :
    ∃ r, ph2pp m (2 * niw + 1) (2 * niv) = some r ∧ r.length = 2 * (niw / 3) + 1 ∧
      ∀ w v v' : Int, w.natAbs ≤ niw / 3 →
        -((min (niw / 3) (niv / 3) : Nat) : Int) ≤ v → v < (min (niw / 3) (niv / 3) : Nat) →
        -((min (niw / 3) (niv / 3) : Nat) : Int) ≤ v' → v' < (min (niw / 3) (niv / 3) : Nat) →
        at3 r w v v' = at3 m (v + v' + 1 - w) v v' ∧ (at3 r w v v').isSome = true := by
  have e0 : (2 * niw + 1) / 6 = niw / 3 := by omega
  have e1 : (2 * niw + 1) / 2 = niw := by omega
  have e2 : (2 * niv) / 2 = niv := by omega
  have hacc : ∀ w v v' : Int, w.natAbs ≤ niw / 3 →
        -((min (niw / 3) (niv / 3) : Nat) : Int) ≤ v → v < (min (niw / 3) (niv / 3) : Nat) →
        -((min (niw / 3) (niv / 3) : Nat) : Int) ≤ v' → v' < (min (niw / 3) (niv / 3) : Nat) →
      get3 m ((niw : Int) + v + v' + 1 - w) ((niv : Int) + v) ((niv : Int) + v') = at3 m (v + v' + 1 - w) v v' ∧
      (at3 m (v + v' + 1 - w) v v').isSome = true := by
    intro w v v' hw h1 h2 h3 h4
    have := get3_at3 m niw niv hs (v + v' + 1 - w) v v' (by omega) (by omega) (by omega) (by omega) (by omega)
    rw [show v + v' + 1 - w + niw = (niw : Int) + v + v' + 1 - w by omega, Int.add_comm v niv, Int.add_comm v' niv] at this
    exact this
  have hrow : ∀ w : Int, w.natAbs ≤ niw / 3 → ∃ t, ph2ppIwn m (2 * niw + 1) (2 * niv) w = some t := by
    intro w hw
    unfold ph2ppIwn
    simp only [e1, e2]
    apply table_exists
    intro v v' h1 h2 h3 h4
    rw [(hacc w v v' hw h1 h2 h3 h4).1]; exact (hacc w v v' hw h1 h2 h3 h4).2
  obtain ⟨r, hr⟩ := mapM_isSome (wn ((2 * niw + 1) / 6)) (fun iwn => ph2ppIwn m (2 * niw + 1) (2 * niv) iwn) (by
    intro w hw
    rw [e0, mem_wn] at hw
    obtain ⟨t, ht⟩ := hrow w (by omega)
    rw [ht]; rfl)
  obtain ⟨hl, hv⟩ := mapM_getElem? _ _ _ hr
  rw [e0, wn_length] at hl
  refine ⟨r, hr, hl, ?_⟩
  intro w v v' hw h1 h2 h3 h4
  have hcell : at3 r w v v' = at3 m (v + v' + 1 - w) v v' := by
    unfold at3
    rw [atB_eq r (niw / 3) hl, if_pos (by omega)]
    have := hv (w + (niw / 3 : Nat)).toNat w (by
      rw [e0, wn_get? _ _ (by omega)]; congr 1; omega)
    rw [← this]
    obtain ⟨t, ht⟩ := hrow w hw
    rw [ht]
    unfold ph2ppIwn at ht
    simp only [e1, e2] at ht
    obtain ⟨_, _, t3⟩ := table_value _ _ _ ht
    have := t3 v v' h1 h2 h3 h4
    unfold at2 at this
    rw [Option.bind_some, this]
    exact (hacc w v v' hw h1 h2 h3 h4).1
  rw [hcell]
  exact ⟨rfl, (hacc w v v' hw h1 h2 h3 h4).2⟩

/-- C20.  `ph2pp_wc` either raises or every entry `(w, v, v')` is minus the input at `(v - v', v, w - v' - 1)`, read from
    inside the box: it never silently wraps.  It raises iff the pp box is non-empty and `niw//2 + niv_pp > niv`. -/
theorem ph2ppWc_value (neg : α → α) (m : List (List (List α))) (niw niv : Nat)
    (hs : Shape3 m (2 * niw + 1) (2 * niv) (2 * niv)) :
    (ph2ppWc neg m (2 * niw + 1) (2 * niv) = none ↔
      0 < min (niw / 2) (niv / 2) ∧ niv < niw / 2 + min (niw / 2) (niv / 2)) ∧
    ∀ r, ph2ppWc neg m (2 * niw + 1) (2 * niv) = some r → r.length = 2 * (niw / 2) + 1 ∧
      ∀ w v v' : Int, w.natAbs ≤ niw / 2 →
        -((min (niw / 2) (niv / 2) : Nat) : Int) ≤ v → v < (min (niw / 2) (niv / 2) : Nat) →
        -((min (niw / 2) (niv / 2) : Nat) : Int) ≤ v' → v' < (min (niw / 2) (niv / 2) : Nat) →
        at3 r w v v' = (at3 m (v - v') v (w - v' - 1)).map neg ∧ (at3 r w v v').isSome = true := by
  have e0 : (2 * niw + 1) / 4 = niw / 2 := by omega
  have e1 : (2 * niw + 1) / 2 = niw := by omega
  have e2 : (2 * niv) / 2 = niv := by omega
  have hbad : 0 < min (niw / 2) (niv / 2) ∧ niv < niw / 2 + min (niw / 2) (niv / 2) →
      ph2ppWc neg m (2 * niw + 1) (2 * niv) = none := by
    rintro ⟨h0, hov⟩
    unfold ph2ppWc
    rw [e0]
    apply mapM_eq_none _ _ ((niw / 2 : Nat) : Int) (by rw [mem_wn]; omega)
    unfold ph2ppIwnWc
    simp only [e1, e2]
    apply mapM_eq_none _ _ (0 : Int) (by rw [mem_vn]; omega)
    apply mapM_eq_none _ _ (-((min (niw / 2) (niv / 2) : Nat) : Int)) (by rw [mem_vn]; omega)
    -- the last index is beyond the end
    have : get3 m ((niw : Int) + 0 - -((min (niw / 2) (niv / 2) : Nat) : Int)) ((niv : Int) + 0)
        ((niv : Int) + ((niw / 2 : Nat) : Int) - (-((min (niw / 2) (niv / 2) : Nat) : Int) + 1)) = none := by
      obtain ⟨hl, hrest⟩ := hs
      unfold get3
      cases hx : Py.get? m ((niw : Int) + 0 - -((min (niw / 2) (niv / 2) : Nat) : Int)) with
      | none => rfl
      | some x =>
        rw [get?_nonneg _ _ (by omega)] at hx
        obtain ⟨hx1, hx2⟩ := hrest x (List.mem_of_getElem? hx)
        simp only [Option.bind_some]
        cases hy : Py.get? x ((niv : Int) + 0) with
        | none => rfl
        | some y =>
          rw [get?_nonneg _ _ (by omega)] at hy
          have hy1 := hx2 y (List.mem_of_getElem? hy)
          simp only [Option.bind_some]
          rw [get?_nonneg _ _ (by omega), List.getElem?_eq_none (by omega)]
    rw [this]; rfl
  have hacc : niw / 2 + min (niw / 2) (niv / 2) ≤ niv → ∀ w v v' : Int, w.natAbs ≤ niw / 2 →
        -((min (niw / 2) (niv / 2) : Nat) : Int) ≤ v → v < (min (niw / 2) (niv / 2) : Nat) →
        -((min (niw / 2) (niv / 2) : Nat) : Int) ≤ v' → v' < (min (niw / 2) (niv / 2) : Nat) →
      (get3 m ((niw : Int) + v - v') ((niv : Int) + v) ((niv : Int) + w - (v' + 1))).map neg =
        (at3 m (v - v') v (w - v' - 1)).map neg ∧
      ((at3 m (v - v') v (w - v' - 1)).map neg).isSome = true := by
    intro hfit w v v' hw h1 h2 h3 h4
    have := get3_at3 m niw niv hs (v - v') v (w - v' - 1) (by omega) (by omega) (by omega) (by omega) (by omega)
    rw [show v - v' + niw = (niw : Int) + v - v' by omega, Int.add_comm v niv,
      show w - v' - 1 + niv = (niv : Int) + w - (v' + 1) by omega] at this
    rw [this.1]
    refine ⟨rfl, ?_⟩
    rw [Option.isSome_map]; exact this.2
  have hrow : (min (niw / 2) (niv / 2) = 0 ∨ niw / 2 + min (niw / 2) (niv / 2) ≤ niv) → ∀ w : Int, w.natAbs ≤ niw / 2 →
      ∃ t, ph2ppIwnWc neg m (2 * niw + 1) (2 * niv) w = some t := by
    intro hc w hw
    unfold ph2ppIwnWc
    simp only [e1, e2]
    apply table_exists
    intro v v' h1 h2 h3 h4
    have hfit : niw / 2 + min (niw / 2) (niv / 2) ≤ niv := by omega
    rw [(hacc hfit w v v' hw h1 h2 h3 h4).1]; exact (hacc hfit w v v' hw h1 h2 h3 h4).2
  have hgood : (min (niw / 2) (niv / 2) = 0 ∨ niw / 2 + min (niw / 2) (niv / 2) ≤ niv) →
      ∃ r, ph2ppWc neg m (2 * niw + 1) (2 * niv) = some r := by
    intro hc
    unfold ph2ppWc
    rw [e0]
    apply mapM_isSome
    intro w hw
    rw [mem_wn] at hw
    obtain ⟨t, ht⟩ := hrow hc w (by omega)
    rw [ht]; rfl
  refine ⟨⟨?_, hbad⟩, ?_⟩
  · intro hn
    apply Classical.byContradiction
    intro hc
    obtain ⟨r, hr⟩ := hgood (by omega)
    rw [hn] at hr; cases hr
  · intro r hr
    have hc : min (niw / 2) (niv / 2) = 0 ∨ niw / 2 + min (niw / 2) (niv / 2) ≤ niv := by
      apply Classical.byContradiction
      intro hc
      rw [hbad (by omega)] at hr; cases hr
    obtain ⟨hl, hv⟩ := mapM_getElem? _ _ _ hr
    rw [e0, wn_length] at hl
    refine ⟨hl, ?_⟩
    intro w v v' hw h1 h2 h3 h4
    have hfit : niw / 2 + min (niw / 2) (niv / 2) ≤ niv := by omega
    have hcell : at3 r w v v' = (at3 m (v - v') v (w - v' - 1)).map neg := by
      rw [← (hacc hfit w v v' hw h1 h2 h3 h4).1]
      unfold at3
      rw [atB_eq r (niw / 2) hl, if_pos (by omega)]
      have := hv (w + (niw / 2 : Nat)).toNat w (by
        rw [e0, wn_get? _ _ (by omega)]; congr 1; omega)
      rw [← this]
      obtain ⟨t, ht⟩ := hrow hc w hw
      rw [ht]
      unfold ph2ppIwnWc at ht
      simp only [e1, e2] at ht
      obtain ⟨_, _, t3⟩ := table_value _ _ _ ht
      have := t3 v v' h1 h2 h3 h4
      unfold at2 at this
      rw [Option.bind_some, this]
    rw [hcell]
    exact ⟨rfl, (hacc hfit w v v' hw h1 h2 h3 h4).2⟩

/-- C20, limit: the single-frequency routine `ph2pp_iwn_wc` called on its own does wrap silently: for `niw = niv = 2`
    and `w = -2` the entry `(v, v') = (0, 0)` is read from the opposite end of the frequency axis. -/
example : let m : List (List (List Int)) := (List.range 5).map fun (w : Nat) => (List.range 4).map fun (v : Nat) =>
      (List.range 4).map fun (v' : Nat) => ((100 * w + 10 * v + v' : Nat) : Int)
    (ph2ppIwnWc (fun x => -x) m 5 4 (-2)).bind (fun t => at2 t 0 0) = some (-(200 + 20 + 3)) := by decide

/-- non-vacuity of C20: a box of the required shape on which both conversions succeed -/
example : let m : List (List (List Nat)) := List.replicate 7 (List.replicate 6 (List.replicate 6 1))
    Shape3 m (2 * 3 + 1) (2 * 3) (2 * 3) ∧ (ph2pp m 7 6).isSome ∧ (ph2ppWc id m 7 6).isSome := by
  refine ⟨⟨by decide, by decide⟩, by decide, by decide⟩

/-! ### C21 — constant shell -/

/-- C21.  The matrix sits in the centre, `val` everywhere else. -/
theorem appendShell_value (m : List (List α)) (val : α) (niv s : Nat) (h0 : 0 < niv) (h : m.length = 2 * niv)
    (hr : ∀ r ∈ m, r.length = 2 * niv) :
    ∃ t, appendShell m val s = some t ∧ t.length = 2 * (niv + s) ∧ (∀ r ∈ t, r.length = 2 * (niv + s)) ∧
      ∀ v v' : Int, -((niv + s : Nat) : Int) ≤ v → v < (niv + s : Nat) → -((niv + s : Nat) : Int) ≤ v' →
        v' < (niv + s : Nat) →
        at2 t v v' = if -(niv : Int) ≤ v ∧ v < niv ∧ -(niv : Int) ≤ v' ∧ v' < niv then at2 m v v' else some val := by
  have hcol : ((m.head?.map List.length).getD 0) / 2 = niv := by
    cases m with
    | nil => simp at h; omega
    | cons r m => simp; rw [hr r (by simp)]; omega
  -- one row
  have hrow : ∀ row : List α, row.length = 2 * niv → ∃ x,
      updSlice (fun _ x => x) (List.replicate (2 * (niv + s)) val) (((niv + s : Nat) : Int) - niv)
        (((niv + s : Nat) : Int) + niv) row = some x ∧ x.length = 2 * (niv + s) ∧
      ∀ v' : Int, -((niv + s : Nat) : Int) ≤ v' → v' < (niv + s : Nat) →
        atF x v' = if -(niv : Int) ≤ v' ∧ v' < niv then atF row v' else some val := by
    intro row hl
    obtain ⟨x, hx, hxl, hxv⟩ := updSlice_get? (fun _ x => x) (List.replicate (2 * (niv + s)) val)
      (((niv + s : Nat) : Int) - niv) (((niv + s : Nat) : Int) + niv) row (by omega) (by omega) (by simp; omega) (by omega)
    rw [List.length_replicate] at hxl
    refine ⟨x, hx, hxl, ?_⟩
    intro v' h1 h2
    rw [atF_eq x _ hxl, if_pos (by omega)]
    by_cases hin : -(niv : Int) ≤ v' ∧ v' < niv
    · rw [if_pos hin, atF_eq row niv hl, if_pos hin]
      obtain ⟨y, z, _, hz, he⟩ := (hxv (v' + (niv + s : Nat)).toNat).2 (by omega) (by omega)
      rw [he, ← hz]
      congr 1; omega
    · rw [if_neg hin, (hxv _).1 (by omega), List.getElem?_replicate, if_pos (by omega)]
  obtain ⟨rows, hrows⟩ := mapM_isSome m (fun row => updSlice (fun _ x => x) (List.replicate (2 * (niv + s)) val)
      (((niv + s : Nat) : Int) - niv) (((niv + s : Nat) : Int) + niv) row) (by
    intro row hm
    obtain ⟨x, hx, _⟩ := hrow row (hr row hm)
    rw [hx]; rfl)
  obtain ⟨hrl, hrv⟩ := mapM_getElem? _ _ _ hrows
  obtain ⟨t, ht, htl, htv⟩ := updSlice_get? (fun (_ x : List α) => x)
    (List.replicate (2 * (niv + s)) (List.replicate (2 * (niv + s)) val))
    (((niv + s : Nat) : Int) - niv) (((niv + s : Nat) : Int) + niv) rows (by omega) (by omega)
    (by simp; omega) (by omega)
  rw [List.length_replicate] at htl
  -- a row of the result
  have hrowk : ∀ k : Nat, k < 2 * (niv + s) →
      ((k : Int) < s ∨ (2 * niv + s : Nat) ≤ k → t[k]? = some (List.replicate (2 * (niv + s)) val)) ∧
      (s ≤ k → k < 2 * niv + s → ∃ x row, t[k]? = some x ∧ m[k - s]? = some row ∧
        updSlice (fun _ x => x) (List.replicate (2 * (niv + s)) val) (((niv + s : Nat) : Int) - niv)
          (((niv + s : Nat) : Int) + niv) row = some x) := by
    intro k hk
    constructor
    · intro hout
      rw [(htv k).1 (by omega), List.getElem?_replicate, if_pos hk]
    · intro h1 h2
      obtain ⟨_, x, _, hx, he⟩ := (htv k).2 (by omega) (by omega)
      have hki : k - s < m.length := by omega
      refine ⟨x, m[k - s], he, List.getElem?_eq_getElem hki, ?_⟩
      rw [hrv (k - s) _ (List.getElem?_eq_getElem hki), ← hx]
      congr 1; omega
  refine ⟨t, ?_, htl, ?_, ?_⟩
  · unfold appendShell
    simp only [hcol]
    rw [if_pos h, hrows]
    exact ht
  · intro r hmem
    obtain ⟨k, hk, rfl⟩ := List.getElem_of_mem hmem
    have hk' := hrowk k (by omega)
    by_cases hin : s ≤ k ∧ k < 2 * niv + s
    · obtain ⟨x, row, h1, h2, h3⟩ := hk'.2 hin.1 hin.2
      rw [List.getElem?_eq_getElem hk] at h1
      injection h1 with h1
      rw [h1]
      obtain ⟨x', hx', hl', _⟩ := hrow row (hr row (List.mem_of_getElem? h2))
      rw [h3] at hx'; injection hx' with hx'; rw [hx']; exact hl'
    · have := hk'.1 (by omega)
      rw [List.getElem?_eq_getElem hk] at this
      injection this with this
      rw [this]; simp
  · intro v v' h1 h2 h3 h4
    unfold at2
    rw [atF_eq t _ htl, if_pos (by omega)]
    have hk' := hrowk (v + (niv + s : Nat)).toNat (by omega)
    by_cases hin : -(niv : Int) ≤ v ∧ v < niv
    · obtain ⟨x, row, e1, e2, e3⟩ := hk'.2 (by omega) (by omega)
      obtain ⟨x', hx', hl', hv'⟩ := hrow row (hr row (List.mem_of_getElem? e2))
      rw [e3] at hx'; injection hx' with hx'; subst hx'
      rw [e1, Option.bind_some, hv' v' h3 h4, atF_eq m niv h, if_pos hin]
      have : m[(v + niv).toNat]? = some row := by rw [← e2]; congr 1; omega
      rw [this, Option.bind_some]
      by_cases hin' : -(niv : Int) ≤ v' ∧ v' < niv
      · rw [if_pos hin', if_pos ⟨hin.1, hin.2, hin'.1, hin'.2⟩]
      · rw [if_neg hin', if_neg (by omega)]
    · rw [hk'.1 (by omega), Option.bind_some, if_neg (by omega),
        atF_eq (List.replicate (2 * (niv + s)) val) (niv + s) (by simp), if_pos (by omega), List.getElem?_replicate,
        if_pos (by omega)]

/-- Two square fermionic tables that agree at every pair of Matsubara indices are equal. -/
theorem ext_at2 (m m' : List (List α)) (N : Nat) (h : m.length = 2 * N) (h' : m'.length = 2 * N)
    (hr : ∀ r ∈ m, r.length = 2 * N) (hr' : ∀ r ∈ m', r.length = 2 * N)
    (hv : ∀ v v' : Int, -(N : Int) ≤ v → v < N → -(N : Int) ≤ v' → v' < N → at2 m v v' = at2 m' v v') : m = m' := by
  apply ext_atF m m' N h h'
  intro n h1 h2
  have e1 : ∃ x, atF m n = some x ∧ x ∈ m := by
    rw [atF_eq m N h, if_pos ⟨h1, h2⟩]
    exact ⟨_, List.getElem?_eq_getElem (by omega), List.getElem_mem _⟩
  have e2 : ∃ x, atF m' n = some x ∧ x ∈ m' := by
    rw [atF_eq m' N h', if_pos ⟨h1, h2⟩]
    exact ⟨_, List.getElem?_eq_getElem (by omega), List.getElem_mem _⟩
  obtain ⟨x, hx, mx⟩ := e1
  obtain ⟨y, hy, my⟩ := e2
  rw [hx, hy]
  congr 1
  apply ext_atF x y N (hr x mx) (hr' y my)
  intro n' h3 h4
  have := hv n n' h1 h2 h3 h4
  unfold at2 at this
  rw [hx, hy] at this
  exact this

/-- C21.  Cutting the padded matrix back to the original box returns the original matrix. -/
theorem appendShell_cutV2 (m : List (List α)) (val : α) (niv s : Nat) (h0 : 0 < niv) (h : m.length = 2 * niv)
    (hr : ∀ r ∈ m, r.length = 2 * niv) : (appendShell m val s).map (fun t => cutV2 t niv) = some m := by
  obtain ⟨t, ht, hl, hrl, hv⟩ := appendShell_value m val niv s h0 h hr
  obtain ⟨c1, c2, c3⟩ := cutV2_value t (niv + s) hl hrl niv (by omega)
  rw [ht, Option.map_some]
  congr 1
  apply ext_at2 _ _ niv c1 h c2 hr
  intro v v' a1 a2 a3 a4
  rw [c3 v v' a1 a2 a3 a4, hv v v' (by omega) (by omega) (by omega) (by omega), if_pos ⟨a1, a2, a3, a4⟩]

/-- non-vacuity: a 2×2 box padded by one frequency on each side -/
example : appendShell [[1, 2], [3, 4]] 0 1 = some [[0, 0, 0, 0], [0, 1, 2, 0], [0, 3, 4, 0], [0, 0, 0, 0]] := by decide

end DGA.Mf
