/- Helper lemmas for the Matsubara boxes (not claims). -/
import Verif.Matsubara.Spec

namespace DGA.Mf

variable {α : Type}

theorem atF_eq (l : List α) (N : Nat) (h : l.length = 2 * N) (n : Int) :
    atF l n = if -(N : Int) ≤ n ∧ n < N then l[(n + N).toNat]? else none := by
  unfold atF
  have : l.length / 2 = N := by omega
  rw [this]

theorem atB_eq (l : List α) (N : Nat) (h : l.length = 2 * N + 1) (n : Int) :
    atB l n = if -(N : Int) ≤ n ∧ n ≤ N then l[(n + N).toNat]? else none := by
  unfold atB
  have : l.length / 2 = N := by omega
  rw [this]

theorem nFromMat_eq (l : List α) (N : Nat) (h : l.length = 2 * N) : nFromMat l = N := by unfold nFromMat; omega
theorem nFromMat_eq' (l : List α) (N : Nat) (h : l.length = 2 * N + 1) : nFromMat l = N := by unfold nFromMat; omega

/-- Two fermionic arrays of the same size that agree at every Matsubara index are equal. -/
theorem ext_atF (l l' : List α) (N : Nat) (h : l.length = 2 * N) (h' : l'.length = 2 * N)
    (hv : ∀ n : Int, -(N : Int) ≤ n → n < N → atF l n = atF l' n) : l = l' := by
  apply List.ext_getElem?
  intro k
  by_cases hk : k < 2 * N
  · have := hv ((k : Int) - N) (by omega) (by omega)
    rw [atF_eq l N h, atF_eq l' N h', if_pos (by omega), if_pos (by omega)] at this
    rwa [show ((k : Int) - N + N).toNat = k by omega] at this
  · rw [List.getElem?_eq_none (by omega), List.getElem?_eq_none (by omega)]


theorem vn_length (n : Nat) : (vn n).length = 2 * n := by
  unfold vn; simp only [Bool.false_eq_true, if_false]; rw [Py.length_arange]; omega

theorem vn_get? (n k : Nat) (h : k < 2 * n) : (vn n)[k]? = some ((k : Int) - n) := by
  unfold vn; simp only [Bool.false_eq_true, if_false]; rw [Py.arange_get? _ _ _ (by omega)]; congr 1; omega

theorem wn_length (n : Nat) : (wn n).length = 2 * n + 1 := by
  unfold wn; simp only [Bool.false_eq_true, if_false]; rw [Py.length_arange]; omega

theorem wn_get? (n k : Nat) (h : k < 2 * n + 1) : (wn n)[k]? = some ((k : Int) - n) := by
  unfold wn; simp only [Bool.false_eq_true, if_false]; rw [Py.arange_get? _ _ _ (by omega)]; congr 1; omega

theorem mem_vn (n : Nat) (x : Int) : x ∈ vn n ↔ -(n : Int) ≤ x ∧ x < n := by
  unfold vn; simp only [Bool.false_eq_true, if_false]; rw [Py.mem_arange]; omega

theorem mem_wn (n : Nat) (x : Int) : x ∈ wn n ↔ -(n : Int) ≤ x ∧ x ≤ n := by
  unfold wn; simp only [Bool.false_eq_true, if_false]; rw [Py.mem_arange]; omega

theorem mapM_some {β γ : Type} (l : List β) (f : β → Option γ) (g : β → γ) (h : ∀ x ∈ l, f x = some (g x)) :
    l.mapM f = some (l.map g) := by
  induction l with
  | nil => rfl
  | cons x l ih =>
    rw [List.mapM_cons, h x (by simp), ih (fun y hy => h y (by simp [hy]))]; rfl

/-- a successful `mapM` has one result per element -/
theorem mapM_getElem? {β γ : Type} (l : List β) (f : β → Option γ) (r : List γ) (h : l.mapM f = some r) :
    r.length = l.length ∧ ∀ (k : Nat) x, l[k]? = some x → f x = r[k]? := by
  induction l generalizing r with
  | nil =>
    have : r = [] := by simpa using h.symm
    subst this; simp
  | cons x l ih =>
    rw [List.mapM_cons] at h
    cases hx : f x with
    | none => rw [hx] at h; simp at h
    | some y =>
      rw [hx] at h
      cases hl : l.mapM f with
      | none => rw [hl] at h; simp at h
      | some ys =>
        rw [hl] at h
        have : r = y :: ys := by simpa using h.symm
        subst this
        obtain ⟨h1, h2⟩ := ih ys hl
        refine ⟨by simp [h1], ?_⟩
        intro k z hk
        cases k with
        | zero => simp at hk; subst hk; simpa using hx
        | succ k => simp at hk; simpa using h2 k z hk

theorem mapM_eq_none {β γ : Type} (l : List β) (f : β → Option γ) (x : β) (hx : x ∈ l) (h : f x = none) :
    l.mapM f = none := by
  induction l with
  | nil => cases hx
  | cons y l ih =>
    rw [List.mapM_cons]
    rcases List.mem_cons.mp hx with rfl | hx
    · rw [h]; rfl
    · cases hy : f y with
      | none => rfl
      | some z => rw [ih hx]; rfl

theorem updSlice_length {α : Type} (f : α → α → α) (l : List α) (a b : Int) (v r : List α)
    (ha : 0 ≤ a) (hab : a ≤ b) (hb : b ≤ l.length) (h : updSlice f l a b v = some r) : r.length = l.length := by
  unfold updSlice at h
  rw [Py.clip_of_nonneg _ _ ha (by omega), Py.clip_of_nonneg _ _ (by omega) hb] at h
  simp only at h
  split at h
  · injection h with h; subst h
    simp only [List.length_append, List.length_take, List.length_zipWith, List.length_drop,
      Py.length_slice_in l a b ha hab hb]
    omega
  · cases h

/-- in-bounds slice update: inside the slice combined with the new value, outside unchanged -/
theorem updSlice_get? {α : Type} (f : α → α → α) (l : List α) (a b : Int) (v : List α)
    (ha : 0 ≤ a) (hab : a ≤ b) (hb : b ≤ l.length) (hv : (v.length : Int) = b - a) :
    ∃ r, updSlice f l a b v = some r ∧ r.length = l.length ∧ ∀ k : Nat,
      ((k : Int) < a ∨ b ≤ k → r[k]? = l[k]?) ∧
      (a ≤ k → (k : Int) < b → ∃ x y, l[k]? = some x ∧ v[(k - a).toNat]? = some y ∧
        r[k]? = some (f x y)) := by
  have hca : Py.clip l.length a = a.toNat := Py.clip_of_nonneg _ _ ha (by omega)
  have hcb : Py.clip l.length b = b.toNat := Py.clip_of_nonneg _ _ (by omega) hb
  have hex : updSlice f l a b v =
      some (l.take a.toNat ++ List.zipWith f (Py.slice l a b) v ++ l.drop b.toNat) := by
    unfold updSlice
    rw [hca, hcb]
    simp only
    rw [if_pos (by omega), show max a.toNat b.toNat = b.toNat by omega]
  have hsl := Py.length_slice_in l a b ha hab hb
  have hz : (List.zipWith f (Py.slice l a b) v).length = (b - a).toNat := by
    rw [List.length_zipWith, hsl]; omega
  have ht : (l.take a.toNat).length = a.toNat := by rw [List.length_take]; omega
  refine ⟨_, hex, updSlice_length f l a b v _ ha hab hb hex, ?_⟩
  intro k
  constructor
  · rintro (h | h)
    · rw [List.append_assoc, List.getElem?_append_left (by omega), List.getElem?_take, if_pos (by omega)]
    · rw [List.getElem?_append_right (by rw [List.length_append, ht, hz]; omega), List.getElem?_drop,
        List.length_append, ht, hz]
      congr 1; omega
  · intro h1 h2
    have hk : k < l.length := by omega
    have hk2 : (k - a).toNat < v.length := by omega
    refine ⟨l[k], v[(k - a).toNat], List.getElem?_eq_getElem hk, List.getElem?_eq_getElem hk2, ?_⟩
    rw [List.getElem?_append_left (by rw [List.length_append, ht, hz]; omega),
      List.getElem?_append_right (by omega), ht, List.getElem?_zipWith,
      Py.slice_get?_in _ _ _ ha hb _ (by omega)]
    have e1 : (a + ((k - a.toNat : Nat) : Int)).toNat = k := by omega
    have e2 : k - a.toNat = (k - a).toNat := by omega
    rw [e1, e2, List.getElem?_eq_getElem hk, List.getElem?_eq_getElem hk2]

theorem get?_nonneg {α : Type} (l : List α) (i : Int) (h : 0 ≤ i) : Py.get? l i = l[i.toNat]? := by
  unfold Py.get?; rw [if_neg (by omega)]

theorem mapM_isSome {β γ : Type} (l : List β) (f : β → Option γ) (h : ∀ x ∈ l, (f x).isSome = true) :
    ∃ r, l.mapM f = some r := by
  induction l with
  | nil => exact ⟨[], rfl⟩
  | cons x l ih =>
    obtain ⟨y, hy⟩ := Option.isSome_iff_exists.mp (h x (by simp))
    obtain ⟨ys, hys⟩ := ih (fun z hz => h z (by simp [hz]))
    exact ⟨y :: ys, by rw [List.mapM_cons, hy, hys]; rfl⟩

/-- a `(v, v')` table filled by a double loop over `vn n` -/
theorem table_value {α : Type} (n : Nat) (f : Int → Int → Option α) (m : List (List α))
    (hm : ((vn n).mapM fun vi => (vn n).mapM (f vi)) = some m) :
    m.length = 2 * n ∧ (∀ r ∈ m, r.length = 2 * n) ∧
      ∀ v v' : Int, -(n : Int) ≤ v → v < n → -(n : Int) ≤ v' → v' < n → at2 m v v' = f v v' := by
  obtain ⟨hl, hv⟩ := mapM_getElem? _ _ _ hm
  rw [vn_length] at hl
  have hrow : ∀ (k : Nat) r, m[k]? = some r → ((vn n).mapM (f ((k : Int) - n))) = some r := by
    intro k r hr
    have hk : k < 2 * n := by
      have := (List.getElem?_eq_some_iff.mp hr).1; omega
    rw [hv k _ (vn_get? n k hk), hr]
  have hrl : ∀ r ∈ m, r.length = 2 * n := by
    intro r hr
    obtain ⟨k, hk, rfl⟩ := List.getElem_of_mem hr
    rw [(mapM_getElem? _ _ _ (hrow k _ (List.getElem?_eq_getElem hk))).1, vn_length]
  refine ⟨hl, hrl, ?_⟩
  intro v v' h1 h2 h3 h4
  unfold at2
  rw [atF_eq m n hl, if_pos ⟨h1, h2⟩]
  have hk : (v + n).toNat < m.length := by omega
  have hr := hrow (v + n).toNat _ (List.getElem?_eq_getElem hk)
  rw [List.getElem?_eq_getElem hk, Option.bind_some, atF_eq _ n (hrl _ (List.getElem_mem hk)), if_pos ⟨h3, h4⟩,
    ← (mapM_getElem? _ _ _ hr).2 _ _ (vn_get? n _ (by omega))]
  congr 1 <;> omega

theorem table_exists {α : Type} (n : Nat) (f : Int → Int → Option α)
    (h : ∀ v v' : Int, -(n : Int) ≤ v → v < n → -(n : Int) ≤ v' → v' < n → (f v v').isSome = true) :
    ∃ m, ((vn n).mapM fun vi => (vn n).mapM (f vi)) = some m := by
  apply mapM_isSome
  intro v hv
  rw [mem_vn] at hv
  obtain ⟨r, hr⟩ := mapM_isSome (vn n) (f v) (by
    intro v' hv'; rw [mem_vn] at hv'; exact h v v' hv.1 hv.2 hv'.1 hv'.2)
  rw [hr]; rfl

end DGA.Mf
