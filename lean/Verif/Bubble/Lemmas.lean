/-
  Helper lemmas for the bubble.
-/
import Verif.Bubble.Model
import Verif.Bz.Props2
import Verif.Matsubara.Props
import Mathlib.Algebra.BigOperators.Group.Finset.Basic
import Mathlib.Algebra.BigOperators.Group.Finset.Sigma
import Mathlib.Algebra.BigOperators.Ring.Finset
import Mathlib.Algebra.BigOperators.Field
import Mathlib.Tactic.Ring
import Mathlib.Tactic.FieldSimp

namespace DGA.Bubble

open DGA.Mf DGA.Bz

/-- the array that holds `G n` at the Matsubara indices `-N ≤ n < N` -/
def samplesF {K : Type} (G : Int → K) (N : Nat) : List K := (vn N).map G

/-- the array that holds `G n` at the bosonic Matsubara indices `-N ≤ n ≤ N` -/
def samplesB {K : Type} (G : Int → K) (N : Nat) : List K := (wn N).map G

theorem samplesF_length {K : Type} (G : Int → K) (N : Nat) : (samplesF G N).length = 2 * N := by
  unfold samplesF; rw [List.length_map, vn_length]

theorem samplesF_get? {K : Type} (G : Int → K) (N k : Nat) (h : k < 2 * N) :
    (samplesF G N)[k]? = some (G ((k : Int) - N)) := by
  unfold samplesF; rw [List.getElem?_map, vn_get? N k h]; rfl

theorem eq_samplesF {K : Type} (l : List K) (G : Int → K) (N : Nat) (hl : l.length = 2 * N)
    (h : ∀ k, k < 2 * N → l[k]? = some (G ((k : Int) - N))) : l = samplesF G N := by
  apply List.ext_getElem?
  intro k
  by_cases hk : k < 2 * N
  · rw [h k hk, samplesF_get? G N k hk]
  · rw [List.getElem?_eq_none (by omega), List.getElem?_eq_none (by rw [samplesF_length]; omega)]

theorem samplesF_atF {K : Type} (G : Int → K) (N : Nat) (n : Int) (h1 : -(N : Int) ≤ n) (h2 : n < N) :
    atF (samplesF G N) n = some (G n) := by
  rw [atF_eq _ N (samplesF_length G N), if_pos ⟨h1, h2⟩, samplesF_get? _ _ _ (by omega)]
  congr 2; omega

theorem samplesF_congr {K : Type} (G H : Int → K) (N : Nat) (h : ∀ n : Int, -(N : Int) ≤ n → n < N → G n = H n) :
    samplesF G N = samplesF H N := by
  unfold samplesF
  apply List.map_congr_left
  intro n hn
  rw [mem_vn] at hn
  exact h n hn.1 hn.2

theorem slice_samplesF {K : Type} (G : Int → K) (N niv : Nat) (s : Int) (h : s.natAbs + niv ≤ N) :
    Py.slice (samplesF G N) ((N : Int) - niv + s) ((N : Int) + niv + s) = samplesF (fun v => G (v + s)) niv := by
  apply eq_samplesF
  · rw [Py.length_slice_in _ _ _ (by omega) (by omega) (by rw [samplesF_length]; omega)]; omega
  · intro k hk
    rw [Py.slice_get?_in _ _ _ (by omega) (by rw [samplesF_length]; omega) _ (by omega), samplesF_get? _ _ _ (by omega)]
    congr 2; omega

theorem cutV_samplesF {K : Type} (G : Int → K) (N c : Nat) (h : c ≤ N) :
    cutV (samplesF G N) c = samplesF G c := by
  unfold cutV
  simp only [nFromMat_eq _ N (samplesF_length G N)]
  rw [if_neg (by omega)]
  have := slice_samplesF G N c 0 (by simpa using h)
  simpa using this

theorem samplesF_reverse {K : Type} (G : Int → K) (N : Nat) :
    (samplesF G N).reverse = samplesF (fun v => G (-v - 1)) N := by
  apply eq_samplesF
  · rw [List.length_reverse, samplesF_length]
  · intro k hk
    rw [List.getElem?_reverse (by rw [samplesF_length]; omega), samplesF_length, samplesF_get? _ _ _ (by omega)]
    congr 2; omega

theorem samplesF_map {K L : Type} (G : Int → K) (N : Nat) (f : K → L) :
    (samplesF G N).map f = samplesF (fun v => f (G v)) N := by
  unfold samplesF; rw [List.map_map]; rfl

variable {K : Type} [Field K]

theorem mulRows_samplesF (G H : Int → K) (N : Nat) :
    mulRows (samplesF G N) (samplesF H N) = some (samplesF (fun v => G v * H v) N) := by
  unfold mulRows
  rw [if_pos (by rw [samplesF_length, samplesF_length])]
  congr 1
  unfold samplesF
  rw [List.zipWith_map, List.zipWith_self]

/-- shifts of a notation, and their size -/
theorem shift_bound (w : Int) (nt : String) (s : Int × Int) (h : getFreqShift w nt = some s) :
    s.1.natAbs ≤ w.natAbs ∧ s.2.natAbs ≤ w.natAbs := by
  unfold getFreqShift at h
  split at h
  · injection h with h; subst h; simp
  · split at h
    · injection h with h; subst h; simp
    · split at h
      · injection h with h; subst h; constructor <;> simp only <;> omega
      · cases h

theorem getGchi0_value (G : Int → K) (N : Nat) (beta : K) (niv : Nat) (w : Int) (nt : String) (s : Int × Int)
    (hs : getFreqShift w nt = some s) (hfit : w.natAbs + niv ≤ N) :
    getGchi0 (samplesF G N) beta niv w nt = some (samplesF (fun v => -beta * (G (v + s.1) * G (v + s.2))) niv) := by
  obtain ⟨b1, b2⟩ := shift_bound w nt s hs
  unfold getGchi0
  simp only [samplesF_length, show 2 * N / 2 = N by omega, hs, Option.bind_some]
  rw [slice_samplesF G N niv s.1 (by omega), slice_samplesF G N niv s.2 (by omega), mulRows_samplesF, Option.map_some,
    samplesF_map]

theorem getChi0Sum_value (G : Int → K) (N : Nat) (beta : K) (niv : Nat) (w : Int) (nt : String) (s : Int × Int)
    (hs : getFreqShift w nt = some s) (hfit : w.natAbs + niv ≤ N) :
    getChi0Sum (samplesF G N) beta niv w nt =
      some (-1 / beta * (samplesF (fun v => G (v + s.1) * G (v + s.2)) niv).sum) := by
  obtain ⟨b1, b2⟩ := shift_bound w nt s hs
  unfold getChi0Sum
  simp only [samplesF_length, show 2 * N / 2 = N by omega, hs, Option.bind_some]
  rw [slice_samplesF G N niv s.1 (by omega), slice_samplesF G N niv s.2 (by omega), mulRows_samplesF, Option.map_some]

omit [Field K] in
theorem flat3_zip {α β : Type} (nx ny nz : Nat) (F : Nat → Nat → Nat → α) (H : Nat → Nat → Nat → β) :
    List.zip (flat3 (table nx ny nz F)) (flat3 (table nx ny nz H)) =
      flat3 (table nx ny nz fun i j k => (F i j k, H i j k)) := by
  rw [flat3_table, flat3_table, flat3_table, List.zip, zipWith_range]

omit [Field K] in
theorem roll_tab {α : Type} (n : Nat) (f : Nat → α) (s : Int) :
    roll ((List.range n).map f) s = (List.range n).map fun i : Nat => f ((((i : Int) - s) % n).toNat) := by
  apply eq_range_map
  · rw [roll_length]; simp
  · intro i hi
    have hl : ((List.range n).map f).length = n := by simp
    have := roll_get? ((List.range n).map f) s i (by omega)
    rw [hl, Int.emod_eq_of_lt (by omega) (by omega), Int.toNat_natCast] at this
    rw [this, range_map_get?, if_pos]
    have := Int.emod_lt_of_pos ((i : Int) - s) (show (0 : Int) < n by omega)
    have := Int.emod_nonneg ((i : Int) - s) (show (n : Int) ≠ 0 by omega)
    omega

omit [Field K] in
theorem shift_table {α : Type} (nx ny nz : Nat) (F : Nat → Nat → Nat → α) (s0 s1 s2 : Int) :
    shiftByInd (table nx ny nz F) s0 s1 s2 = table nx ny nz fun i j k : Nat =>
      F (((i : Int) - s0) % nx).toNat (((j : Int) - s1) % ny).toNat (((k : Int) - s2) % nz).toNat := by
  unfold shiftByInd table
  simp only [List.map_map, Function.comp_def, roll_tab]

/-- sum over all grid points -/
theorem sum_shift (nx ny nz : Nat) (F : Nat → Nat → Nat → K) (s0 s1 s2 : Int) :
    (flat3 (table nx ny nz fun i j k : Nat =>
      F (((i : Int) - s0) % nx).toNat (((j : Int) - s1) % ny).toNat (((k : Int) - s2) % nz).toNat)).sum =
      (flat3 (table nx ny nz F)).sum := by
  rw [← shift_table]
  exact (shift_perm _ s0 s1 s2).sum_eq

theorem kMeanRows_flat3 (nx ny nz c : Nat) (F : Nat → Nat → Nat → List K) :
    kMeanRows c (flat3 (table nx ny nz F)) = (List.range c).map fun i =>
      (flat3 (table nx ny nz fun a b d => ((F a b d)[i]?).getD 0)).sum / ((nx * ny * nz : Nat) : K) := by
  unfold kMeanRows
  apply List.map_congr_left
  intro i _
  rw [flat3_table, flat3_table, List.map_map, List.length_map, List.length_range]
  rfl

theorem kMeanRows_samples (nx ny nz niv : Nat) (F : Nat → Nat → Nat → Int → K) :
    kMeanRows (2 * niv) (flat3 (table nx ny nz fun i j k => samplesF (F i j k) niv)) =
      samplesF (fun v => (flat3 (table nx ny nz fun i j k => F i j k v)).sum / ((nx * ny * nz : Nat) : K)) niv := by
  rw [kMeanRows_flat3]
  apply eq_samplesF
  · simp
  · intro c hc
    rw [range_map_get?, if_pos hc]
    simp only [samplesF_get? _ _ _ hc, Option.getD_some]

theorem prodQ_value (nx ny nz : Nat) (G : Nat → Nat → Nat → Int → K) (N niv : Nat) (s : Int × Int)
    (q : Int × Int × Int) (h1 : s.1.natAbs + niv ≤ N) (h2 : s.2.natAbs + niv ≤ N) :
    prodQ (table nx ny nz fun i j k => samplesF (G i j k) N) (2 * N) niv s q =
      some (flat3 (table nx ny nz fun i j k : Nat => samplesF (fun v => G i j k (v + s.1) *
        G (((i : Int) + q.1) % nx).toNat (((j : Int) + q.2.1) % ny).toNat (((k : Int) + q.2.2) % nz).toNat
          (v + s.2)) niv)) := by
  unfold prodQ
  simp only [shift_table, flat3_zip, show 2 * N / 2 = N by omega, Int.sub_neg]
  rw [flat3_table, List.mapM_map, mapM_some, flat3_table]
  intro l hl
  simp only [Function.comp]
  rw [slice_samplesF _ N niv s.1 h1, slice_samplesF _ N niv s.2 h2, mulRows_samplesF]

omit [Field K] in
theorem maxAbs_eq (w : List Int) (n : Nat) (h : ∀ x ∈ w, x.natAbs ≤ n) (hx : ∃ x : Int, x ∈ w ∧ x.natAbs = n) :
    maxAbs w = n := by
  unfold maxAbs
  induction w with
  | nil => obtain ⟨x, hx, _⟩ := hx; cases hx
  | cons a w ih =>
    simp only [List.map_cons, List.foldr_cons]
    have hle : (w.map Int.natAbs).foldr max 0 ≤ n := by
      have h' : ∀ x ∈ w, x.natAbs ≤ n := fun x hx => h x (by simp [hx])
      clear ih hx h
      induction w with
      | nil => simp
      | cons b w ihw =>
        simp only [List.map_cons, List.foldr_cons]
        have := ihw (fun x hx => h' x (by simp [hx]))
        have := h' b (by simp)
        omega
    have ha := h a (by simp)
    obtain ⟨x, hx, he⟩ := hx
    rcases List.mem_cons.1 hx with rfl | hx
    · omega
    · rw [ih (fun y hy => h y (by simp [hy])) ⟨x, hx, he⟩]; omega

end DGA.Bubble
