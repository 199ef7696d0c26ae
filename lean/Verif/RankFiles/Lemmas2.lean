/- Helper lemmas for the loader (not claims). -/
import Verif.RankFiles.Spec

namespace DGA.RankFiles
open DGA.Mpi

theorem mem_entries {β : Type} (pre : Str) (tasks : List Nat) (wn : List Int) (data : Nat → Int → β) (e : Str × β) :
    e ∈ entries pre tasks wn data ↔ ∃ q ∈ tasks, ∃ w ∈ wn, e = (groupName pre q w, data q w) := by
  simp only [entries, List.mem_flatMap, List.mem_map]
  constructor
  · rintro ⟨q, hq, w, hw, rfl⟩; exact ⟨q, hq, w, hw, rfl⟩
  · rintro ⟨q, hq, w, hw, rfl⟩; exact ⟨q, hq, w, hw, rfl⟩

theorem exists_preimage {α γ : Type} (f : γ → α) (P : γ → Prop) (l : List α) (h : ∀ x ∈ l, ∃ y, P y ∧ f y = x) :
    ∃ L : List γ, L.map f = l ∧ ∀ y ∈ L, P y := by
  induction l with
  | nil => exact ⟨[], rfl, by simp⟩
  | cons x l ih =>
    obtain ⟨y, hy, rfl⟩ := h x (by simp)
    obtain ⟨L, rfl, hL⟩ := ih (fun x hx => h x (by simp [hx]))
    exact ⟨y :: L, rfl, by simpa using ⟨hy, hL⟩⟩

theorem loadRank_eq {β : Type} (pre : Str) (hpre : ∀ c ∈ pre, isDigit c = false) (nq niw : Nat) (arr : Arr2 β)
    (f0 : File β) (ts : List Nat) (data : Nat → Int → β) (h1 : ∀ e ∈ f0, pre.isPrefixOf e.1 = false)
    (hts : ∀ q ∈ ts, q < nq) :
    ∃ arr', loadRank pre nq niw arr (f0 ++ entries pre ts (wnRange niw) data) = some arr' ∧
      (∀ q ∈ ts, ∀ k : Nat, k ≤ niw → arr' q (niw + k) = data q k) ∧
      (∀ q w, q ∉ ts ∨ w < niw → arr' q w = arr q w) := by
  let f := f0 ++ entries pre ts (wnRange niw) data
  let L := (listGroups f).filter fun e => pre.isPrefixOf e.1
  have hmem : ∀ e, e ∈ L ↔ ∃ q ∈ ts, ∃ w ∈ wnRange niw, e = (groupName pre q w, data q w) := by
    intro e
    rw [← mem_entries]
    simp only [L, List.mem_filter, listGroups, (List.mergeSort_perm f _).mem_iff, f, List.mem_append]
    constructor
    · rintro ⟨h | h, hp⟩
      · rw [h1 e h] at hp; cases hp
      · exact h
    · intro h
      refine ⟨Or.inr h, ?_⟩
      rw [mem_entries] at h
      obtain ⟨q, _, w, _, rfl⟩ := h
      exact groupName_prefix _ _ _
  have hsorted : L.Pairwise fun a b => strLe a.1 b.1 = true :=
    (List.pairwise_mergeSort (fun a b c => strLe_trans a.1 b.1 c.1) (fun a b => strLe_total a.1 b.1) f).filter _
  obtain ⟨M, hM, hMP⟩ := exists_preimage (fun e : (Nat × Int) × β => (groupName pre e.1.1 e.1.2, e.2))
    (fun e => e.1.1 ∈ ts ∧ e.1.2 ∈ wnRange niw ∧ e.2 = data e.1.1 e.1.2) L (by
      intro x hx
      obtain ⟨q, hq, w, hw, rfl⟩ := (hmem x).mp hx
      exact ⟨((q, w), data q w), ⟨hq, hw, rfl⟩, rfl⟩)
  have hwb : ∀ w ∈ wnRange niw, w.natAbs ≤ niw := by
    intro w hw; rw [wnRange, Py.mem_arange] at hw; omega
  refine ⟨M.foldl (upd niw) arr, ?_, ?_, ?_⟩
  · show L.foldlM (loadGroup nq niw) arr = _
    rw [← hM]
    exact foldlM_load pre hpre nq niw M arr (fun e he => ⟨hts _ (hMP e he).1, hwb _ (hMP e he).2.1⟩)
  · intro q hq k hk
    have hkm : (k : Int) ∈ wnRange niw := by rw [wnRange, Py.mem_arange]; omega
    have hinL : (groupName pre q k, data q k) ∈ L := (hmem _).mpr ⟨q, hq, k, hkm, rfl⟩
    have hinM : ((q, (k : Int)), data q k) ∈ M := by
      rw [← hM, List.mem_map] at hinL
      obtain ⟨e, he, h⟩ := hinL
      have hP := hMP e he
      injection h with hn _
      have := groupName_inj pre hpre hn
      obtain ⟨⟨eq, ew⟩, ev⟩ := e
      simp only at this hP
      obtain ⟨rfl, rfl⟩ := this
      rw [hP.2.2] at he; exact he
    rw [← hM, List.pairwise_map] at hsorted
    rw [foldl_upd_last niw M arr q (niw + k) _ hsorted ((q, (k : Int)), data q k) hinM]
    · simp [slot]; omega
    · intro e he hs
      have hP := hMP e he
      obtain ⟨⟨eq, ew⟩, ev⟩ := e
      simp only [slot, Prod.mk.injEq] at hs hP
      obtain ⟨rfl, hs⟩ := hs
      by_cases hkw : ew = k
      · left; subst hkw; rw [hP.2.2]
      · right
        have hew : ew = -(k : Int) := by omega
        have hk0 : 0 < k := by omega
        subst hew
        simp only [strLe_neg pre eq k hk0]; simp
  · intro q w h
    apply foldl_upd_other
    intro e he hs
    have hP := hMP e he
    simp only [slot, Prod.mk.injEq] at hs
    rcases h with h | h
    · apply h; rw [← hs.1]; exact hP.1
    · omega

theorem loadFiles_eq {β : Type} (pre : Str) (hpre : ∀ c ∈ pre, isDigit c = false) (nq niw : Nat)
    (data : Nat → Int → β) (files : List (File β)) (parts : List (List Nat)) (hl : files.length = parts.length)
    (hf : ∀ (r : Nat) f ts, files[r]? = some f → parts[r]? = some ts → (∀ q ∈ ts, q < nq) ∧
      ∃ f0 : File β, (∀ e ∈ f0, pre.isPrefixOf e.1 = false) ∧ f = f0 ++ entries pre ts (wnRange niw) data)
    (arr : Arr2 β) :
    ∃ arr', files.foldlM (loadRank pre nq niw) arr = some arr' ∧
      (∀ q ∈ parts.flatten, ∀ k : Nat, k ≤ niw → arr' q (niw + k) = data q k) ∧
      (∀ q w, q ∉ parts.flatten ∨ w < niw → arr' q w = arr q w) := by
  induction files generalizing parts arr with
  | nil =>
    have : parts = [] := List.length_eq_zero_iff.mp hl.symm
    subst this
    exact ⟨arr, rfl, by simp, by simp⟩
  | cons f files ih =>
    cases parts with
    | nil => simp at hl
    | cons ts parts =>
      obtain ⟨hts, f0, hf0, rfl⟩ := hf 0 f ts rfl rfl
      obtain ⟨a1, h1, h2, h3⟩ := loadRank_eq pre hpre nq niw arr f0 ts data hf0 hts
      obtain ⟨a2, g1, g2, g3⟩ := ih parts (by simpa using hl)
        (fun r f ts hr hp => hf (r + 1) f ts (by simpa using hr) (by simpa using hp)) a1
      refine ⟨a2, ?_, ?_, ?_⟩
      · rw [List.foldlM_cons, h1]; exact g1
      · intro q hq k hk
        rw [List.flatten_cons, List.mem_append] at hq
        by_cases hqp : q ∈ parts.flatten
        · exact g2 q hqp k hk
        · rw [g3 q _ (Or.inl hqp)]
          exact h2 q (hq.resolve_right hqp) k hk
      · intro q w h
        rw [List.flatten_cons, List.mem_append] at h
        have h' : (q ∉ ts ∧ q ∉ parts.flatten) ∨ w < niw := by
          rcases h with h | h
          · exact Or.inl ⟨fun x => h (Or.inl x), fun x => h (Or.inr x)⟩
          · exact Or.inr h
        rw [g3 q w (h'.imp And.right id), h3 q w (h'.imp And.left id)]

theorem load_core {β : Type} (pre : Str) (hpre : ∀ c ∈ pre, isDigit c = false) (n R niw : Nat) (hR : 0 < R)
    (data : Nat → Int → β) (zero : β) (files : List (File β)) (hw : Written pre n R niw data files) :
    ∃ arr, loadVertex pre zero n niw files = some arr ∧
      (∀ q, q < n → ∀ k : Nat, k ≤ niw → arr q (niw + k) = data q k) ∧
      (∀ q w, w < niw → arr q w = zero) := by
  obtain ⟨parts, hlen, hparts, hflat⟩ := tasks_concat n R hR
  obtain ⟨arr, h1, h2, h3⟩ := loadFiles_eq pre hpre n niw data files parts (by rw [hw.count, hlen]) (by
    intro r f ts hf hts
    have hmem : ∀ q ∈ ts, q < n := by
      intro q hq
      have : q ∈ parts.flatten := List.mem_flatten.mpr ⟨ts, List.mem_of_getElem? hts, hq⟩
      rw [hflat] at this; exact List.mem_range.mp this
    refine ⟨hmem, ?_⟩
    obtain ⟨ts', loc, f0, ht', hloc, hnd, hf0, hwr⟩ := hw.write r f hf
    have hr : r < R := by
      have := (List.getElem?_eq_some_iff.mp hf).1; rw [hw.count] at this; exact this
    rw [hparts r hr, hts] at ht'
    injection ht' with ht'; subst ht'
    have htnd : ts.Nodup := by
      have := myTasks_eq n R r hR hr
      rw [hparts r hr, hts] at this
      injection this with this; subst this
      rw [List.Nodup, List.pairwise_map]
      exact List.nodup_range.imp (by intro x y h; omega)
    refine ⟨f0, hf0, ?_⟩
    rw [writeVertex_eq pre hpre ts (wnRange niw) loc data f0 htnd (Py.nodup_arange _ _) hf0 hnd hloc] at hwr
    injection hwr with hwr; exact hwr.symm) (fun _ _ => zero)
  refine ⟨arr, h1, ?_, ?_⟩
  · intro q hq; exact h2 q (by rw [hflat]; exact List.mem_range.mpr hq)
  · intro q w hw; exact h3 q w (Or.inr hw)

end DGA.RankFiles
