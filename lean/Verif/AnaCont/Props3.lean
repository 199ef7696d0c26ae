import Verif.AnaCont.Props
import Verif.Mpi.Props

/-
  C67, C68: data handling of `MaxEnt`, back transformation and Kramers–Kronig transformation (analytic_continuation.py).
-/

noncomputable section

namespace DGA.Ana

open Complex

/-! ### C68: back transformation to the imaginary axis -/

/-- Trapezoidal rule as a sum over the intervals (specification). -/
theorem trapz_re : ∀ (y : List ℂ) (x : List ℝ), (trapz y x).re = (trapz (y.map fun z => ((z.re : ℝ) : ℂ)) x).re
  | [], _ => by simp [trapz]
  | [_], _ => by simp [trapz]
  | _ :: _ :: _, [] => by simp [trapz]
  | _ :: _ :: _, [_] => by simp [trapz]
  | y0 :: y1 :: ys, x0 :: x1 :: xs => by
    have ih := trapz_re (y1 :: ys) (x1 :: xs)
    simp only [List.map_cons] at ih
    simp only [trapz, List.map_cons, add_re, ih]
    congr 1
    rw [mul_div_assoc, mul_div_assoc, re_ofReal_mul, re_ofReal_mul]
    congr 1
    rw [show (y0 + y1) / 2 = (y0 + y1) / ((2 : ℝ) : ℂ) by push_cast; rfl, show (((y0.re : ℝ) : ℂ) + ((y1.re : ℝ) : ℂ)) / 2 =
      (((y0.re : ℝ) : ℂ) + ((y1.re : ℝ) : ℂ)) / ((2 : ℝ) : ℂ) by push_cast; rfl, div_ofReal_re, div_ofReal_re]
    simp

theorem trapz_conj : ∀ (y : List ℂ) (x : List ℝ), trapz (y.map (starRingEnd ℂ)) x = (starRingEnd ℂ) (trapz y x)
  | [], _ => by simp [trapz]
  | [_], _ => by simp [trapz]
  | _ :: _ :: _, [] => by simp [trapz]
  | _ :: _ :: _, [_] => by simp [trapz]
  | y0 :: y1 :: ys, x0 :: x1 :: xs => by
    have ih := trapz_conj (y1 :: ys) (x1 :: xs)
    simp only [List.map_cons] at ih
    have h2 : (starRingEnd ℂ) (2 : ℂ) = 2 := Complex.conj_ofNat 2
    simp only [trapz, List.map_cons, ih, map_add, map_div₀, map_mul, conj_ofReal, h2]

/-- trapezoidal rule for real integrands -/
def trapzR : List ℝ → List ℝ → ℝ
  | y0 :: y1 :: ys, x0 :: x1 :: xs => (x1 - x0) * (y0 + y1) / 2 + trapzR (y1 :: ys) (x1 :: xs)
  | _, _ => 0

theorem trapz_ofReal : ∀ (y x : List ℝ), trapz (y.map fun z => ((z : ℝ) : ℂ)) x = ((trapzR y x : ℝ) : ℂ)
  | [], _ => by simp [trapz, trapzR]
  | [_], _ => by simp [trapz, trapzR]
  | _ :: _ :: _, [] => by simp [trapz, trapzR]
  | _ :: _ :: _, [_] => by simp [trapz, trapzR]
  | y0 :: y1 :: ys, x0 :: x1 :: xs => by
    have ih := trapz_ofReal (y1 :: ys) (x1 :: xs)
    simp only [List.map_cons] at ih
    simp only [trapz, trapzR, List.map_cons, ih]
    push_cast; ring

theorem trapz_im : ∀ (y : List ℂ) (x : List ℝ), (trapz y x).im = trapzR (y.map Complex.im) x
  | [], _ => by simp [trapz, trapzR]
  | [_], _ => by simp [trapz, trapzR]
  | _ :: _ :: _, [] => by simp [trapz, trapzR]
  | _ :: _ :: _, [_] => by simp [trapz, trapzR]
  | y0 :: y1 :: ys, x0 :: x1 :: xs => by
    have ih := trapz_im (y1 :: ys) (x1 :: xs)
    simp only [List.map_cons] at ih
    simp only [trapz, trapzR, List.map_cons, add_im, ih]
    congr 1
    rw [mul_div_assoc, im_ofReal_mul, mul_div_assoc]
    congr 1
    rw [show (y0 + y1) / 2 = (y0 + y1) / ((2 : ℝ) : ℂ) by push_cast; rfl, div_ofReal_im]
    simp

theorem trapzR_mono : ∀ (y z x : List ℝ), x.Pairwise (· < ·) → y.length = z.length → (∀ (k : Nat) (a b : ℝ), y[k]? = some a → z[k]? = some b → a ≤ b) →
    trapzR y x ≤ trapzR z x
  | [], [], _, _, _, _ => by simp [trapzR]
  | [_], [_], _, _, _, _ => by simp [trapzR]
  | [], _ :: _, _, _, h, _ => by simp at h
  | _ :: _, [], _, _, h, _ => by simp at h
  | [_], _ :: _ :: _, _, _, h, _ => by simp at h
  | _ :: _ :: _, [_], _, _, h, _ => by simp at h
  | _ :: _ :: _, _ :: _ :: _, [], _, _, _ => by simp [trapzR]
  | _ :: _ :: _, _ :: _ :: _, [_], _, _, _ => by simp [trapzR]
  | y0 :: y1 :: ys, z0 :: z1 :: zs, x0 :: x1 :: xs, hx, hl, h => by
    have ih := trapzR_mono (y1 :: ys) (z1 :: zs) (x1 :: xs) (List.pairwise_cons.mp hx).2 (by simpa using hl) fun k a b ha hb =>
      h (k + 1) a b (by simpa using ha) (by simpa using hb)
    have h0 : y0 ≤ z0 := h 0 y0 z0 rfl rfl
    have h1 : y1 ≤ z1 := h 1 y1 z1 rfl rfl
    have hx01 : x0 < x1 := (List.pairwise_cons.mp hx).1 x1 (by simp)
    simp only [trapzR]
    have : (x1 - x0) * (y0 + y1) ≤ (x1 - x0) * (z0 + z1) := mul_le_mul_of_nonneg_left (by linarith) (by linarith)
    linarith

theorem trapzR_nonneg (y x : List ℝ) (hx : x.Pairwise (· < ·)) (h : ∀ a ∈ y, 0 ≤ a) : 0 ≤ trapzR y x := by
  have hz : ∀ (n : Nat) (x : List ℝ), trapzR (List.replicate n 0) x = 0 := by
    intro n
    induction n with
    | zero => intro x; simp [trapzR]
    | succ n ih =>
      intro x
      cases n with
      | zero => simp [trapzR]
      | succ n =>
        match x with
        | [] => simp [List.replicate_succ, trapzR]
        | [_] => simp [List.replicate_succ, trapzR]
        | x0 :: x1 :: xs =>
          have := ih (x1 :: xs)
          rw [List.replicate_succ] at this
          rw [List.replicate_succ, List.replicate_succ, trapzR, this]; ring
  rw [← hz y.length x]
  apply trapzR_mono _ _ _ hx (by simp)
  intro k a b ha hb
  have hb' := h b (List.mem_of_getElem? hb)
  have ha' := List.mem_of_getElem? ha
  rw [List.mem_replicate] at ha'
  rw [ha'.2]; exact hb'

/-- strict version: one positive entry on a mesh of at least two points -/
theorem trapzR_pos : ∀ (y x : List ℝ), x.Pairwise (· < ·) → y.length = x.length → 2 ≤ x.length → (∀ a ∈ y, 0 ≤ a) →
    (∃ a ∈ y, 0 < a) → 0 < trapzR y x
  | [], [], _, _, h, _, _ => by simp at h
  | [], _ :: _, _, h, _, _, _ => by simp at h
  | _ :: _, [], _, h, _, _, _ => by simp at h
  | [_], [_], _, _, h, _, _ => by simp at h
  | [_], _ :: _ :: _, _, h, _, _, _ => by simp at h
  | _ :: _ :: _, [_], _, h, _, _, _ => by simp at h
  | y0 :: y1 :: ys, x0 :: x1 :: xs, hx, hl, _, h, ⟨a, ha, hpos⟩ => by
    have hx01 : x0 < x1 := (List.pairwise_cons.mp hx).1 x1 (by simp)
    have hx' := (List.pairwise_cons.mp hx).2
    have hn := trapzR_nonneg (y1 :: ys) (x1 :: xs) hx' fun a ha => h a (by simp [List.mem_cons.mp ha])
    have h0 : 0 ≤ y0 := h y0 (by simp)
    have h1 : 0 ≤ y1 := h y1 (by simp)
    simp only [trapzR]
    have hfirst : 0 ≤ (x1 - x0) * (y0 + y1) := mul_nonneg (by linarith) (by linarith)
    rcases List.mem_cons.mp ha with rfl | ha
    · have : 0 < (x1 - x0) * (a + y1) := mul_pos (by linarith) (by linarith)
      linarith
    · rcases List.mem_cons.mp ha with rfl | ha
      · have : 0 < (x1 - x0) * (y0 + a) := mul_pos (by linarith) (by linarith)
        linarith
      · match xs, ys, hl, ha with
        | [], [], _, ha => simp at ha
        | [], _ :: _, hl, _ => simp at hl
        | x2 :: xs, ys, hl, ha =>
          have := trapzR_pos (y1 :: ys) (x1 :: x2 :: xs) hx' (by simpa using hl) (by simp)
            (fun a ha => h a (by simp [List.mem_cons.mp ha])) ⟨a, by simp [ha], hpos⟩
          linarith

/-- the imaginary part of a Green's function at a Matsubara frequency, from its spectral function (specification):
    `int A(w) Re/Im 1/(iv - w) dw` with the trapezoidal rule -/
def fermionSpec (A : List ℝ) (w : List ℝ) (v : ℝ) : ℂ := trapz (List.zipWith (fun (x a : ℝ) => 1 / (I * (v : ℂ) - (x : ℂ)) * (a : ℂ)) w A) w

/-- specification of the bosonic transformation: `int A(w) w^2/(w^2+v^2) dw`, the limit one where both frequencies vanish -/
def bosonSpec (A : List ℝ) (w : List ℝ) (v : ℝ) : ℝ :=
  trapzR (List.zipWith (fun x a => (if v = 0 ∧ x = 0 then 1 else x ^ 2 / (x ^ 2 + v ^ 2)) * a) w A) w

theorem mapM_some {α β : Type} (l : List α) (f : α → β) : (l.mapM fun x => some (f x)) = some (l.map f) := by
  induction l with
  | nil => rfl
  | cons a l ih => simp [List.mapM_cons, ih]

/-- C68. The result is the integral of the kernel with the spectral function `-Im G/pi`. -/
theorem realToImag_value (mat : List ℂ) (w : List ℝ) (h : mat.length = w.length) (v : ℝ) :
    realToImag mat w v "freq_fermionic" = some (fermionSpec (mat.map fun z => -z.im / Real.pi) w v) ∧
    realToImag mat w v "freq_bosonic" = some ((bosonSpec (mat.map fun z => -z.im / Real.pi) w v : ℝ) : ℂ) := by
  constructor
  · simp only [realToImag, h, if_true, kernel, mapM_some, Option.map_some, Option.some.injEq, fermionSpec]
    rw [List.zipWith_map_left, List.zipWith_map_right]
  · simp only [realToImag, h, if_true, kernel, String.reduceEq, if_false, mapM_some, Option.map_some, Option.some.injEq, bosonSpec]
    rw [← trapz_ofReal, List.zipWith_map_left, List.zipWith_map_right, List.map_zipWith]
    congr 1
    congr 1
    funext x s
    split <;> push_cast <;> ring

/-- C68. Unknown kernels are refused — including the default value of `kind` of `get_backtransform_kernel`, `'freq-fermionic'`. -/
theorem kernel_refused (kind : String) (h : kind ≠ "freq_fermionic" ∧ kind ≠ "freq_bosonic") (w v : ℝ) : kernel kind w v = none := by
  simp [kernel, h]

theorem kernel_default_refused (w v : ℝ) : kernel "freq-fermionic" w v = none := by simp [kernel]

/-- C68. The fermionic transform of a real spectral function has the Matsubara symmetry `G(-iv) = conj G(iv)`. -/
theorem fermionSpec_conj (A w : List ℝ) (v : ℝ) : fermionSpec A w (-v) = (starRingEnd ℂ) (fermionSpec A w v) := by
  unfold fermionSpec
  rw [← trapz_conj, List.map_zipWith]
  congr 2
  funext x a
  simp only [map_mul, map_div₀, map_one, map_sub, conj_I, conj_ofReal]
  push_cast; ring

theorem kernel_im (v x : ℝ) (hv : v ≠ 0) : (1 / (I * (v : ℂ) - (x : ℂ))).im = -(v / (x ^ 2 + v ^ 2)) := by
  have hne : (I * (v : ℂ) - (x : ℂ)) ≠ 0 := by
    intro h
    have := congrArg Complex.im h
    simp at this
    exact hv this
  rw [one_div, inv_im]
  have : normSq (I * (v : ℂ) - (x : ℂ)) = x ^ 2 + v ^ 2 := by
    rw [normSq_apply]; simp; ring
  rw [this]
  simp [neg_div]

/-- C68. A non-negative spectral function that does not vanish gives a causal Matsubara function: negative imaginary part at every positive
    frequency, on every strictly increasing mesh. -/
theorem fermion_causal (mat : List ℂ) (w : List ℝ) (h : mat.length = w.length) (h2 : 2 ≤ w.length) (hw : w.Pairwise (· < ·)) (v : ℝ)
    (hv : 0 < v) (hA : ∀ z ∈ mat, z.im ≤ 0) (hpos : ∃ z ∈ mat, z.im < 0) :
    ∃ g, realToImag mat w v "freq_fermionic" = some g ∧ g.im < 0 := by
  refine ⟨_, (realToImag_value mat w h v).1, ?_⟩
  have hpi := Real.pi_pos
  rw [fermionSpec, trapz_im, List.map_zipWith]
  have e : List.zipWith (fun (x : ℝ) (a : ℝ) => (1 / (I * (v : ℂ) - (x : ℂ)) * (a : ℂ)).im) w (mat.map fun z => -z.im / Real.pi) =
      (List.zipWith (fun (x : ℝ) (z : ℂ) => v / (x ^ 2 + v ^ 2) * (-z.im / Real.pi)) w mat).map Neg.neg := by
    rw [List.zipWith_map_right, List.map_zipWith]
    congr 1
    funext x z
    rw [mul_comm, im_ofReal_mul, kernel_im v x hv.ne']; ring
  rw [e]
  have hneg : ∀ (y x : List ℝ), trapzR (y.map Neg.neg) x = -trapzR y x := by
    intro y
    induction y with
    | nil => intro x; simp [trapzR]
    | cons a y ih =>
      intro x
      match y, x with
      | [], _ => simp [trapzR]
      | _ :: _, [] => simp [trapzR]
      | _ :: _, [_] => simp [trapzR]
      | b :: y, x0 :: x1 :: xs =>
        have := ih (x1 :: xs)
        simp only [List.map_cons] at this
        simp only [List.map_cons, trapzR, this]; ring
  rw [hneg, neg_lt_zero]
  have hfac : ∀ x : ℝ, 0 < v / (x ^ 2 + v ^ 2) := fun x => by positivity
  apply trapzR_pos _ _ hw (by simp [h]) h2
  · intro a ha
    obtain ⟨k, hk⟩ := List.mem_iff_getElem?.mp ha
    rw [List.getElem?_zipWith_eq_some] at hk
    obtain ⟨x, z, hx, hz, rfl⟩ := hk
    have := hA z (List.mem_of_getElem? hz)
    exact mul_nonneg (hfac x).le (div_nonneg (by linarith) hpi.le)
  · obtain ⟨z, hz, hzi⟩ := hpos
    obtain ⟨k, hk⟩ := List.mem_iff_getElem?.mp hz
    have hkl : k < w.length := by rw [← h]; exact (List.getElem?_eq_some_iff.mp hk).1
    refine ⟨v / (w[k] ^ 2 + v ^ 2) * (-z.im / Real.pi), ?_, mul_pos (hfac _) (div_pos (by linarith) hpi)⟩
    apply List.mem_of_getElem? (i := k)
    rw [List.getElem?_zipWith_eq_some]
    exact ⟨w[k], z, List.getElem?_eq_getElem hkl, hk, rfl⟩

/-- the bosonic kernel decreases with the size of the Matsubara frequency and lies in [0, 1] -/
theorem bosonKernel_mono (x v v' : ℝ) (h : |v| ≤ |v'|) :
    0 ≤ (if v' = 0 ∧ x = 0 then 1 else x ^ 2 / (x ^ 2 + v' ^ 2)) ∧
    (if v' = 0 ∧ x = 0 then 1 else x ^ 2 / (x ^ 2 + v' ^ 2)) ≤ (if v = 0 ∧ x = 0 then (1 : ℝ) else x ^ 2 / (x ^ 2 + v ^ 2)) ∧
    (if v = 0 ∧ x = 0 then (1 : ℝ) else x ^ 2 / (x ^ 2 + v ^ 2)) ≤ 1 := by
  have hsq : v ^ 2 ≤ v' ^ 2 := sq_le_sq.mpr h
  have hle1 : ∀ u : ℝ, x ^ 2 / (x ^ 2 + u ^ 2) ≤ 1 := by
    intro u
    apply div_le_one_of_le₀
    · have := sq_nonneg u; linarith
    · positivity
  have hnn : ∀ u : ℝ, 0 ≤ x ^ 2 / (x ^ 2 + u ^ 2) := fun u => by positivity
  refine ⟨?_, ?_, ?_⟩
  · split
    · norm_num
    · exact hnn _
  · by_cases h1 : v' = 0 ∧ x = 0
    · have hv0 : v = 0 := by
        have := h1.1 ▸ h
        simpa using this
      rw [if_pos h1, if_pos ⟨hv0, h1.2⟩]
    · rw [if_neg h1]
      by_cases h2 : v = 0 ∧ x = 0
      · rw [if_pos h2]; exact hle1 _
      · rw [if_neg h2]
        by_cases hx : x = 0
        · subst hx; simp
        · apply div_le_div_of_nonneg_left (by positivity) (by positivity) (by linarith)
  · split
    · exact le_refl _
    · exact hle1 _

theorem zipWith_entry {f : ℝ → ℝ → ℝ} {w A : List ℝ} {k : Nat} {a : ℝ} (h : (List.zipWith f w A)[k]? = some a) :
    ∃ x b, w[k]? = some x ∧ A[k]? = some b ∧ f x b = a := by
  rw [List.getElem?_zipWith_eq_some] at h
  exact h

/-- C68. The bosonic transform of a non-negative spectral function is real, non-negative, does not increase with |frequency|, and is the
    total spectral weight at frequency zero. -/
theorem boson_properties (mat : List ℂ) (w : List ℝ) (h : mat.length = w.length) (hw : w.Pairwise (· < ·)) (hA : ∀ z ∈ mat, z.im ≤ 0)
    (v v' : ℝ) (hv : |v| ≤ |v'|) :
    ∃ g g' : ℝ, realToImag mat w v "freq_bosonic" = some (g : ℂ) ∧ realToImag mat w v' "freq_bosonic" = some (g' : ℂ) ∧
      0 ≤ g' ∧ g' ≤ g ∧ g ≤ trapzR (mat.map fun z => -z.im / Real.pi) w ∧
      realToImag mat w 0 "freq_bosonic" = some ((trapzR (mat.map fun z => -z.im / Real.pi) w : ℝ) : ℂ) := by
  have hpi := Real.pi_pos
  have hAn : ∀ (k : Nat) (b : ℝ), (mat.map fun z => -z.im / Real.pi)[k]? = some b → 0 ≤ b := by
    intro k b hb
    obtain ⟨z, hz, rfl⟩ := List.mem_map.mp (List.mem_of_getElem? hb)
    exact div_nonneg (by linarith [hA z hz]) hpi.le
  have hl : ∀ u, (List.zipWith (fun x a => (if u = 0 ∧ x = 0 then 1 else x ^ 2 / (x ^ 2 + u ^ 2)) * a) w
      (mat.map fun z => -z.im / Real.pi)).length = w.length := by intro u; simp [h]
  refine ⟨_, _, (realToImag_value mat w h v).2, (realToImag_value mat w h v').2, ?_, ?_, ?_, ?_⟩
  · apply trapzR_nonneg _ _ hw
    intro a ha
    obtain ⟨k, hk⟩ := List.mem_iff_getElem?.mp ha
    obtain ⟨x, b, hx, hb, rfl⟩ := zipWith_entry hk
    exact mul_nonneg (bosonKernel_mono x v v' hv).1 (hAn k b hb)
  · apply trapzR_mono _ _ _ hw (by rw [hl, hl])
    intro k a b ha hb
    obtain ⟨x, c, hx, hc, rfl⟩ := zipWith_entry ha
    obtain ⟨x', c', hx', hc', rfl⟩ := zipWith_entry hb
    rw [hx] at hx'; rw [hc] at hc'
    cases hx'; cases hc'
    exact mul_le_mul_of_nonneg_right (bosonKernel_mono x v v' hv).2.1 (hAn k c hc)
  · apply trapzR_mono _ _ _ hw (by simp [h])
    intro k a b ha hb
    obtain ⟨x, c, hx, hc, rfl⟩ := zipWith_entry ha
    rw [hc] at hb
    cases hb
    have := mul_le_mul_of_nonneg_right (bosonKernel_mono x v v' hv).2.2 (hAn k _ hc)
    linarith
  · rw [(realToImag_value mat w h 0).2]
    congr 2
    unfold bosonSpec
    congr 1
    apply List.ext_getElem?
    intro k
    rw [List.getElem?_zipWith]
    by_cases hk : k < w.length
    · have hk2 : k < (mat.map fun z => -z.im / Real.pi).length := by simp [h, hk]
      rw [List.getElem?_eq_getElem hk, List.getElem?_eq_getElem hk2]
      simp only [Option.some.injEq]
      by_cases hx : w[k] = 0
      · simp [hx]
      · have : w[k] ^ 2 ≠ 0 := pow_ne_zero _ hx
        simp only [hx, and_false, if_false]
        rw [show w[k] ^ 2 + (0 : ℝ) ^ 2 = w[k] ^ 2 by ring, div_self this, one_mul]
    · rw [List.getElem?_eq_none (by omega), List.getElem?_eq_none (by simp; omega)]

/-! ### Kramers–Kronig transformation -/

/-- C68. The Kramers–Kronig transform keeps the spectral function: `-Im/pi` of the result is the input, at every mesh point. -/
theorem kkt_keeps_spectrum (spec w : List ℝ) (kind : String) (g : List ℂ) (h : kkt spec w kind = some g) :
    g.length = w.length ∧ (g.map fun z => -z.im / Real.pi) = spec := by
  unfold kkt at h
  by_cases hl : spec.length = w.length
  · rw [if_pos hl, Option.bind_eq_some_iff] at h
    obtain ⟨dw, _, h⟩ := h
    have key : ∀ (l : List Nat) (f : Nat → Option (List ℝ)) (g : List ℂ),
        (l.mapM fun j => (f j).map fun col => (⟨col.sum, -(spec.getD j 0) * Real.pi⟩ : ℂ)) = some g →
        g.length = l.length ∧ (g.map fun z => -z.im / Real.pi) = l.map fun j => spec.getD j 0 := by
      intro l f
      induction l with
      | nil => intro g hg; simp at hg; subst hg; simp
      | cons a l ih =>
        intro g hg
        rw [List.mapM_cons] at hg
        simp only [Option.bind_eq_bind, Option.bind_eq_some_iff, Option.map_eq_some_iff, Option.pure_def, Option.some.injEq] at hg
        obtain ⟨_, ⟨c, _, rfl⟩, gs, h2, rfl⟩ := hg
        obtain ⟨h3, h4⟩ := ih gs h2
        constructor
        · simp [h3]
        · simp only [List.map_cons, h4, List.cons.injEq, and_true]
          have := Real.pi_ne_zero
          field_simp
    obtain ⟨h1, h2⟩ := key _ _ _ h
    refine ⟨by simpa using h1, ?_⟩
    rw [h2]
    apply List.ext_getElem
    · simp [hl]
    · intro k hk1 hk2
      simp [List.getD_eq_getElem?_getD, List.getElem?_eq_getElem hk2]
  · rw [if_neg hl] at h; simp at h

/-- C68. Round trip: transforming the Kramers–Kronig result back to the imaginary axis integrates the input spectrum. -/
theorem kkt_round_trip (spec w : List ℝ) (kind : String) (g : List ℂ) (h : kkt spec w kind = some g) (v : ℝ) :
    realToImag g w v "freq_fermionic" = some (fermionSpec spec w v) ∧
    realToImag g w v "freq_bosonic" = some ((bosonSpec spec w v : ℝ) : ℂ) := by
  obtain ⟨h1, h2⟩ := kkt_keeps_spectrum spec w kind g h
  have := realToImag_value g w h1 v
  rwa [h2] at this

/-- C68 (defect). On a half axis the formula used for a *symmetric* spectrum is that of an antisymmetric one (the contribution of `-w'`
    enters with the sign of an odd spectrum), and the formula used for an antisymmetric spectrum is that of a symmetric one. -/
theorem kkt_symmetry_swapped (dw A w' w : ℝ) (h1 : w ≠ w') (h2 : w ≠ -w') (a b : ℝ)
    (ha : kktTerm "general" dw A w' w = some a) (hb : kktTerm "general" dw A (-w') w = some b) :
    kktTerm "symmetric" dw A w' w = some (a - b) ∧ kktTerm "antisymmetric" dw A w' w = some (a + b) := by
  have e1 : w - w' ≠ 0 := sub_ne_zero.mpr h1
  have e2 : w + w' ≠ 0 := by intro h; apply h2; linarith
  have e3 : w ^ 2 - w' ^ 2 ≠ 0 := by
    rw [show w ^ 2 - w' ^ 2 = (w - w') * (w + w') by ring]; exact mul_ne_zero e1 e2
  simp only [kktTerm, String.reduceEq, or_true, or_false, if_true, if_false, Option.some.injEq, sub_neg_eq_add] at ha hb ⊢
  subst ha; subst hb
  constructor
  · rw [div_sub_div _ _ e1 e2, div_eq_div_iff e3 (mul_ne_zero e1 e2)]; ring
  · rw [div_add_div _ _ e1 e2, div_eq_div_iff e3 (mul_ne_zero e1 e2)]; ring

example : ∃ a b, kktTerm "general" 1 1 2 3 = some a ∧ kktTerm "general" 1 1 (-2) 3 = some b ∧ (3 : ℝ) ≠ 2 ∧ (3 : ℝ) ≠ -2 := by
  refine ⟨1 * 1 / (3 - 2), 1 * 1 / (3 - -2), ?_, ?_, by norm_num, by norm_num⟩ <;>
    simp only [kktTerm, String.reduceEq, or_true, or_false, if_true, if_false]

example : ∃ g, kkt [1, 2, 1] [-1, 0, 1] "general" = some g := by
  simp [kkt, cellWidths, midpoints, kktTerm, List.range_succ]

example : ∃ (mat : List ℂ) (w : List ℝ), mat.length = w.length ∧ 2 ≤ w.length ∧ w.Pairwise (· < ·) ∧ (∀ z ∈ mat, z.im ≤ 0) ∧
    ∃ z ∈ mat, z.im < 0 :=
  ⟨[-I, -2 * I, -I], [-1, 0, 1], rfl, by simp, by simp, by simp, by simp⟩

end DGA.Ana
