/-
  C143: the meshes of analytic_continuation.py:83-125 with `wmin = -wmax` and an odd number of points are meshes of `Optics/MeshProps.lean`.
-/
import Verif.Optics.MeshProps
import Verif.AnaCont.Props

noncomputable section

namespace DGA.Optics

open DGA.Ana DGA.KPath

/-- the frequencies read backwards are those with the other sign -/
def Antisym (w : List ℝ) : Prop := w.reverse = w.map fun x => -x

theorem antisym_get (w : List ℝ) : Antisym w ↔ ∀ (i : ℕ) (h : i < w.length), w[w.length - 1 - i]'(by omega) = -w[i] := by
  unfold Antisym
  constructor
  · intro h i hi
    have := congrArg (fun l => l[i]?) h
    simp only [List.getElem?_map, List.getElem?_reverse hi, List.getElem?_eq_getElem hi, List.getElem?_eq_getElem (show w.length - 1 - i < w.length by omega),
      Option.map_some, Option.some.injEq] at this
    exact this
  · intro h
    apply List.ext_getElem (by simp)
    intro i h1 h2
    rw [List.getElem_reverse, List.getElem_map]
    exact h i (by simpa using h2)

theorem Antisym.map {w : List ℝ} (h : Antisym w) (g : ℝ → ℝ) (hg : ∀ x, g (-x) = -g x) : Antisym (w.map g) := by
  unfold Antisym at *
  rw [← List.map_reverse, h, List.map_map, List.map_map]
  exact List.map_congr_left fun x _ => hg x

theorem Antisym.ends {w : List ℝ} (h : Antisym w) (a b : ℝ) (ha : w.head? = some a) (hb : w.getLast? = some b) : b = -a := by
  have := congrArg List.head? h
  rw [List.head?_reverse, hb, List.head?_map, ha] at this
  exact Option.some.inj this

theorem antisym_linspace (a : ℝ) (n : ℕ) (hn : 2 ≤ n) : Antisym (linspace (-a) a n) := by
  rw [antisym_get]
  intro i hi
  simp only [linspace, List.length_map, List.length_range] at hi
  simp only [linspace, List.getElem_map, List.getElem_range, List.length_map, List.length_range]
  have h2 : (0 : ℝ) < (n : ℝ) - 1 := by
    have : (2 : ℝ) ≤ n := by exact_mod_cast hn
    linarith
  rw [show ((n - 1 - i : ℕ) : ℝ) = (n : ℝ) - 1 - i by rw [Nat.cast_sub (by omega), Nat.cast_sub (by omega)]; simp]
  field_simp
  ring

theorem Antisym.midpoints {w : List ℝ} (h : Antisym w) : Antisym (Ana.midpoints w) := by
  rw [antisym_get] at h ⊢
  have e : ∀ (k : ℕ) (hk : k < (Ana.midpoints w).length) (h : k + 1 < w.length), (Ana.midpoints w)[k] = (w[k] + w[k + 1]) / 2 := by
    intro k hk h
    have := midpoints_get w k h
    rw [List.getElem?_eq_getElem hk] at this
    exact Option.some.inj this
  intro i hi
  have hl := midpoints_length w
  have hi' : i + 1 < w.length := by omega
  rw [e i hi hi', e _ _ (by omega)]
  have h1 := h i (by omega)
  have h2 := h (i + 1) hi'
  have e1 : (Ana.midpoints w).length - 1 - i + 1 = w.length - 1 - i := by omega
  have e2 : (Ana.midpoints w).length - 1 - i = w.length - 1 - (i + 1) := by omega
  simp only [e1]
  simp only [e2]
  rw [h1, h2]
  ring

theorem rescale_antisym (W : ℝ) (w : List ℝ) (h : Antisym w) (hp : w.Pairwise (· < ·)) (hl : 2 ≤ w.length) (m : List ℝ) (hm : rescale (-W) W w = some m) :
    Antisym m ∧ m.length = w.length := by
  unfold rescale at hm
  simp only [Option.bind_eq_some_iff, Option.map_eq_some_iff] at hm
  obtain ⟨a, ha, b, hb, rfl⟩ := hm
  have hab := head_lt_last w hp hl a b ha hb
  obtain rfl := h.ends a b ha hb
  have h0 : -a - a ≠ 0 := by linarith
  have ha0 : a ≠ 0 := by rintro rfl; simp at h0
  refine ⟨h.map _ fun x => ?_, by simp⟩
  field_simp
  ring

/-- an increasing mesh that is the same backwards up to the sign, with an odd number of points -/
theorem oddMesh_of_antisym (M : ℕ) (w : List ℝ) (hl : w.length = 2 * M + 1) (h : Antisym w) (hp : w.Pairwise (· < ·)) :
    ∃ f, OddMesh M f ∧ (∀ j : ℤ, -M ≤ j → j ≤ M → f (-j) = -f j) ∧ w = meshOf M f := by
  rw [antisym_get] at h
  rw [List.pairwise_iff_getElem] at hp
  have hg : ∀ (k : ℕ) (hk : k < w.length), w.getD k 0 = w[k] := fun k hk => by
    rw [List.getD_eq_getElem?_getD, List.getElem?_eq_getElem hk]
    rfl
  have hneg : ∀ j : ℤ, -M ≤ j → j ≤ M → w.getD (-j + M).toNat 0 = -w.getD (j + M).toNat 0 := by
    intro j h1 h2
    rw [hg _ (by omega), hg _ (by omega), ← h (j + M).toNat (by omega)]
    congr 1
    omega
  refine ⟨fun j => w.getD (j + M).toNat 0, ⟨?_, ?_⟩, hneg, ?_⟩
  · have := hneg 0 (by omega) (by omega)
    rw [neg_zero] at this
    show w.getD (0 + (M : ℤ)).toNat 0 = 0
    linarith
  · intro i j h1 h2 h3
    show w.getD _ 0 < w.getD _ 0
    rw [hg _ (by omega), hg _ (by omega)]
    exact hp _ _ (by omega) (by omega) (by omega)
  · apply List.ext_getElem (by simp [meshOf, hl])
    intro k h1 h2
    simp only [meshOf, List.getElem_map, List.getElem_range]
    rw [show ((k : ℤ) - M + M).toNat = k by omega, hg k h1]

/-- a mesh the program makes with `wmin = -wmax` is symmetric about zero -/
theorem kinds_antisym (kind : String) (W : ℝ) (hW : 0 < W) (n : ℕ) (hn : 2 ≤ n) (cut : Option ℝ)
    (hk : kind ∈ ["hyperbolic", "linear", "tan"] ∨ kind = "lorentzian" ∧ ∃ c, cut = some c ∧ 0 < c ∧ c < 1 / 2) :
    ∃ m, getWMesh kind (-W) W n cut = some m ∧ IsMesh (-W) W n m ∧ Antisym m := by
  have hlt : -W < W := by linarith
  rcases hk with hk | ⟨rfl, c, rfl, hc0, hc1⟩
  · simp only [List.mem_cons, List.not_mem_nil, or_false] at hk
    rcases hk with rfl | rfl | rfl
    · obtain ⟨m, hm, hi⟩ := hyperbolic_isMesh (-W) W hlt n (by omega)
      refine ⟨m, by simpa [getWMesh] using hm, hi, ?_⟩
      unfold hyperbolicMesh at hm
      refine (rescale_antisym W _ ?_ (incr_map _ (linspace_incr _ _ (by norm_num) _) _ fun x _ y _ h => hyp_mono h) (by simp [linspace]; omega) m hm).1
      refine (antisym_linspace 1 _ (by omega)).map _ fun x => ?_
      rw [Left.sign_neg, SignType.coe_neg, neg_sq]
      ring
    · exact ⟨_, by simp [getWMesh, linearMesh], linear_isMesh (-W) W hlt _ (by omega), antisym_linspace W _ (by omega)⟩
    · obtain ⟨m, hm, hi⟩ := tan_isMesh (-W) W hlt n (by omega)
      refine ⟨m, by simpa [getWMesh] using hm, hi, ?_⟩
      have hpi := Real.pi_pos
      have hq : Real.pi / 2.5 < Real.pi / 2 := div_lt_div_of_pos_left hpi (by norm_num) (by norm_num)
      have hq0 : 0 < Real.pi / 2.5 := by positivity
      have ht : 0 < Real.tan (Real.pi / 2.5) := Real.tan_pos_of_pos_of_lt_pi_div_two hq0 hq
      have hnd : -Real.pi / 2.5 = -(Real.pi / 2.5) := by ring
      unfold tanMesh at hm
      refine (rescale_antisym W _ ?_ (incr_map _ (linspace_incr _ _ (by rw [hnd]; linarith) _) _ fun x hx y hy h => ?_) (by simp [linspace]; omega) m hm).1
      · rw [hnd]
        refine (antisym_linspace _ _ (by omega)).map _ fun x => ?_
        rw [Real.tan_neg]
        ring
      · have hx' := linspace_mem _ _ (by rw [hnd]; linarith) _ (by omega) x hx
        have hy' := linspace_mem _ _ (by rw [hnd]; linarith) _ (by omega) y hy
        rw [hnd] at hx' hy'
        rw [mul_one, mul_one]
        exact (div_lt_div_iff_of_pos_right ht).2 (Real.tan_lt_tan_of_lt_of_lt_pi_div_two (by linarith [hx'.1]) (by linarith [hy'.2]) h)
  · obtain ⟨m, hm, hi⟩ := lorentzian_isMesh (-W) W hlt n (by omega) c hc0 hc1
    refine ⟨m, by simpa [getWMesh] using hm, hi, ?_⟩
    unfold lorentzianMesh at hm
    simp only [Option.bind_eq_some_iff, Option.map_eq_some_iff] at hm
    obtain ⟨a, ha, b, hb, a', ha', b', hb', rfl⟩ := hm
    have hant : Antisym ((linspace 0 1 (n + 1)).map fun u => Real.tan (Real.pi * (u * (1 - 2 * c) + c - 1 / 2))) := by
      rw [antisym_get]
      intro i hi
      simp only [linspace, List.length_map, List.length_range] at hi
      simp only [linspace, List.getElem_map, List.getElem_range, List.length_map, List.length_range]
      rw [← Real.tan_neg]
      congr 1
      rw [show ((n + 1 - 1 - i : ℕ) : ℝ) = n - i by rw [Nat.cast_sub (by omega)]; push_cast; ring]
      push_cast
      have : (0 : ℝ) < n := by positivity
      rw [show ((n : ℝ) + 1 - 1) = n by ring]
      field_simp
      ring
    have hb0 := hant.ends a b ha hb
    subst hb0
    have hlin : (linspace 0 1 (n + 1)).length = n + 1 := by simp [linspace]
    have h1 : Antisym (((linspace 0 1 (n + 1)).map fun u => Real.tan (Real.pi * (u * (1 - 2 * c) + c - 1 / 2))).map fun x => -W + (W - -W) * ((x - a) / (-a - a))) := by
      by_cases h0 : a = 0
      · exfalso
        subst h0
        rw [List.head?_map] at ha
        simp only [linspace, List.head?_map, List.head?_range] at ha
        rw [if_neg (by omega)] at ha
        simp only [Option.map_some, Option.some.injEq] at ha
        have : Real.tan (Real.pi * (c - 1 / 2)) < 0 := by
          have hpi := Real.pi_pos
          refine Real.tan_neg_of_neg_of_pi_div_two_lt ?_ ?_
          · nlinarith
          · nlinarith
        rw [show (0 + ((0 : ℕ) : ℝ) * ((1 - 0) / (((n + 1 : ℕ) : ℝ) - 1))) * (1 - 2 * c) + c - 1 / 2 = c - 1 / 2 by simp] at ha
        linarith
      · refine hant.map _ fun x => ?_
        have : -a - a ≠ 0 := by intro h; apply h0; linarith
        field_simp
        ring
    have h2 := h1.midpoints
    have hb1 := h2.ends a' b' ha' hb'
    subst hb1
    have hsub : IsMesh (-W) W n _ := hi
    have h3 : -a' - a' ≠ 0 := by
      intro h
      have h4 := hsub.2.1
      rw [List.head?_map, ha'] at h4
      have h5 := hsub.2.2.1
      rw [List.getLast?_map, hb'] at h5
      simp only [Option.map_some, Option.some.injEq, h, div_zero] at h4 h5
      linarith
    have ha0 : a' ≠ 0 := by rintro rfl; simp at h3
    refine h2.map _ fun x => ?_
    field_simp
    ring

/-- **C143 (c).** Every mesh the program can make with `wmin = -wmax` and an odd number of points, three or more, is a mesh of (a), symmetric about zero – among them that
    of the default settings: `tan`, 501 points from -15 to 15. -/
theorem kinds_odd (kind : String) (W : ℝ) (hW : 0 < W) (M : ℕ) (hM : 0 < M) (cut : Option ℝ)
    (hk : kind ∈ ["hyperbolic", "linear", "tan"] ∨ kind = "lorentzian" ∧ ∃ c, cut = some c ∧ 0 < c ∧ c < 1 / 2) :
    ∃ f, OddMesh M f ∧ (∀ j : ℤ, -M ≤ j → j ≤ M → f (-j) = -f j) ∧ f M = W ∧ getWMesh kind (-W) W (2 * M + 1) cut = some (meshOf M f) := by
  obtain ⟨m, hm, hi, hant⟩ := kinds_antisym kind W hW (2 * M + 1) (by omega) cut hk
  obtain ⟨f, hf, hneg, rfl⟩ := oddMesh_of_antisym M m hi.1 hant hi.2.2.2
  refine ⟨f, hf, hneg, ?_, hm⟩
  have := hi.2.2.1
  unfold meshOf at this
  rw [List.getLast?_eq_getElem?] at this
  simp only [List.length_map, List.length_range, List.getElem?_map] at this
  rw [List.getElem?_range (by omega)] at this
  simp only [Option.map_some, Option.some.injEq] at this
  rw [← this]
  congr 1
  push_cast [Nat.cast_sub]
  omega

/-- the frequencies of the `tan` mesh -/
theorem tan_mesh_value (W : ℝ) (M : ℕ) (hM : 0 < M) (cut : Option ℝ) (f : ℤ → ℝ) (h : getWMesh "tan" (-W) W (2 * M + 1) cut = some (meshOf M f)) (j : ℤ)
    (h1 : -M ≤ j) (h2 : j ≤ M) : f j = W * (Real.tan (j * (Real.pi / 2.5 / M)) / Real.tan (Real.pi / 2.5)) := by
  have hpi := Real.pi_pos
  have hq : Real.pi / 2.5 < Real.pi / 2 := div_lt_div_of_pos_left hpi (by norm_num) (by norm_num)
  have hq0 : 0 < Real.pi / 2.5 := by positivity
  have ht : 0 < Real.tan (Real.pi / 2.5) := Real.tan_pos_of_pos_of_lt_pi_div_two hq0 hq
  have hMr : (M : ℝ) ≠ 0 := by exact_mod_cast hM.ne'
  have hl : (linspace (-Real.pi / 2.5) (Real.pi / 2.5) (2 * M + 1)) = (List.range (2 * M + 1)).map fun k : ℕ => ((k : ℝ) - M) * (Real.pi / 2.5 / M) := by
    unfold linspace
    apply List.map_congr_left
    intro k _
    push_cast
    rw [show (2 * (M : ℝ) + 1 - 1) = 2 * M by ring]
    field_simp
    ring
  have h' : tanMesh (-W) W (2 * M + 1) = some (meshOf M f) := by simpa [getWMesh] using h
  unfold tanMesh rescale at h'
  rw [hl, List.map_map] at h'
  simp only [Option.bind_eq_some_iff, Option.map_eq_some_iff] at h'
  obtain ⟨a, ha, b, hb, h'⟩ := h'
  have hM1 : ((0 : ℝ) - M) * (Real.pi / 2.5 / M) = -(Real.pi / 2.5) := by field_simp; ring
  have hM2 : ((2 * M : ℕ) - (M : ℝ)) * (Real.pi / 2.5 / M) = Real.pi / 2.5 := by push_cast; field_simp; ring
  obtain rfl : -1 = a := by
    rw [List.head?_map, List.head?_range, if_neg (by omega)] at ha
    simp only [Option.map_some, Function.comp, Nat.cast_zero, Option.some.injEq, hM1, Real.tan_neg] at ha
    rw [← ha]
    field_simp
  obtain rfl : 1 = b := by
    rw [List.getLast?_map, List.getLast?_range, if_neg (by omega)] at hb
    simp only [Option.map_some, Function.comp, Option.some.injEq, show 2 * M + 1 - 1 = 2 * M by omega, hM2] at hb
    rw [← hb]
    field_simp
  have hk : (j + M).toNat < 2 * M + 1 := by omega
  have := congrArg (fun l => l[(j + M).toNat]?) h'
  simp only [meshOf, List.getElem?_map, List.getElem?_range hk, Option.map_some, Option.some.injEq, Function.comp] at this
  rw [show (((j + M).toNat : ℕ) : ℤ) - M = j by omega] at this
  have hc : (((j + M).toNat : ℕ) : ℝ) - M = (j : ℝ) := by
    have : (((j + M).toNat : ℤ) : ℝ) = ((j + M : ℤ) : ℝ) := by congr 1; omega
    push_cast at this
    rw [this]
    ring
  rw [hc] at this
  rw [← this]
  field_simp
  ring

/-- **C143 (d).** On the `tan` mesh the Green's functions are not those at the frequencies of the formula: the mesh point `i` places above the `j`-th positive one
    lies more than the `i`-th frequency above it, for all `i` and `j`. -/
theorem tan_overshoots (W : ℝ) (hW : 0 < W) (M : ℕ) (cut : Option ℝ) (f : ℤ → ℝ) (h : getWMesh "tan" (-W) W (2 * M + 1) cut = some (meshOf M f)) (i j : ℤ)
    (hi : 0 < i) (hj : 0 < j) (hij : j + i ≤ M) : f j + f i < f (j + i) := by
  have hM : 0 < M := by omega
  rw [tan_mesh_value W M hM cut f h j (by omega) (by omega), tan_mesh_value W M hM cut f h i (by omega) (by omega),
    tan_mesh_value W M hM cut f h (j + i) (by omega) hij]
  have hpi := Real.pi_pos
  have hq : Real.pi / 2.5 < Real.pi / 2 := div_lt_div_of_pos_left hpi (by norm_num) (by norm_num)
  have hq0 : 0 < Real.pi / 2.5 := by positivity
  have ht : 0 < Real.tan (Real.pi / 2.5) := Real.tan_pos_of_pos_of_lt_pi_div_two hq0 hq
  have hMr : (0 : ℝ) < M := by exact_mod_cast hM
  have hir : (0 : ℝ) < i := by exact_mod_cast hi
  have hjr : (0 : ℝ) < j := by exact_mod_cast hj
  have hs : (j : ℝ) * (Real.pi / 2.5 / M) + i * (Real.pi / 2.5 / M) < Real.pi / 2 := by
    have : (j : ℝ) + i ≤ M := by exact_mod_cast hij
    calc (j : ℝ) * (Real.pi / 2.5 / M) + i * (Real.pi / 2.5 / M) = ((j : ℝ) + i) / M * (Real.pi / 2.5) := by ring
      _ ≤ 1 * (Real.pi / 2.5) := by
        apply mul_le_mul_of_nonneg_right _ hq0.le
        rw [div_le_one hMr]
        exact this
      _ < Real.pi / 2 := by linarith
  have hx0 : 0 < (j : ℝ) * (Real.pi / 2.5 / M) := by positivity
  have hy0 : 0 < (i : ℝ) * (Real.pi / 2.5 / M) := by positivity
  have e : ((j + i : ℤ) : ℝ) * (Real.pi / 2.5 / M) = j * (Real.pi / 2.5 / M) + i * (Real.pi / 2.5 / M) := by push_cast; ring
  rw [e]
  generalize (j : ℝ) * (Real.pi / 2.5 / M) = x at *
  generalize (i : ℝ) * (Real.pi / 2.5 / M) = y at *
  have hxt : 0 < Real.tan x := Real.tan_pos_of_pos_of_lt_pi_div_two hx0 (by linarith)
  have hyt : 0 < Real.tan y := Real.tan_pos_of_pos_of_lt_pi_div_two hy0 (by linarith)
  have hcx : 0 < Real.cos x := Real.cos_pos_of_mem_Ioo ⟨by linarith, by linarith⟩
  have hcy : 0 < Real.cos y := Real.cos_pos_of_mem_Ioo ⟨by linarith, by linarith⟩
  have hc : 0 < Real.cos (x + y) := Real.cos_pos_of_mem_Ioo ⟨by linarith, by linarith⟩
  have key : Real.tan x + Real.tan y < Real.tan (x + y) := by
    have e1 : Real.tan x + Real.tan y = Real.sin (x + y) / (Real.cos x * Real.cos y) := by
      rw [Real.tan_eq_sin_div_cos, Real.tan_eq_sin_div_cos, Real.sin_add]
      field_simp
    rw [e1, Real.tan_eq_sin_div_cos (x + y)]
    have hsx : 0 < Real.sin x := Real.sin_pos_of_pos_of_lt_pi hx0 (by linarith)
    have hsy : 0 < Real.sin y := Real.sin_pos_of_pos_of_lt_pi hy0 (by linarith)
    apply div_lt_div_of_pos_left (Real.sin_pos_of_pos_of_lt_pi (by linarith) (by linarith)) hc
    rw [Real.cos_add]
    nlinarith [mul_pos hsx hsy]
  rw [← mul_add, ← add_div]
  exact mul_lt_mul_of_pos_left ((div_lt_div_iff_of_pos_right ht).2 key) hW

theorem argNear_zero_antisym (M : ℕ) (hM : 0 < M) (w : List ℝ) (hl : w.length = 2 * M) (h : Antisym w) (hp : w.Pairwise (· < ·)) : argNear 0 w = some (M - 1) := by
  rw [antisym_get] at h
  rw [List.pairwise_iff_getElem] at hp
  obtain ⟨i, hi⟩ := argNear_some 0 w (by intro e; rw [e] at hl; simp at hl; omega)
  obtain ⟨y, hy, hmin, hfirst⟩ := argNear_spec _ _ _ hi
  obtain ⟨hin, rfl⟩ := List.getElem?_eq_some_iff.1 hy
  have hm := h (M - 1) (by omega)
  have hidx : w.length - 1 - (M - 1) = M := by omega
  simp only [hidx] at hm
  have hlt := hp (M - 1) M (by omega) (by omega) (by omega)
  have hneg : w[M - 1]'(by omega) < 0 := by linarith
  rw [hi]
  congr 1
  by_contra hne
  rcases lt_or_gt_of_ne hne with h1 | h1
  · have h2 := hmin (M - 1) _ (List.getElem?_eq_getElem (by omega))
    have h3 := hp i (M - 1) hin (by omega) h1
    rw [sub_zero, sub_zero, abs_of_neg (by linarith), abs_of_neg hneg] at h2
    linarith
  · have h2 := hfirst (M - 1) _ h1 (List.getElem?_eq_getElem (by omega))
    have h3 : w[M]'(by omega) ≤ w[i] := by
      rcases Nat.lt_or_ge M i with h4 | h4
      · exact (hp M i (by omega) hin h4).le
      · have : i = M := by omega
        subst this
        exact le_rfl
    rw [sub_zero, sub_zero, abs_of_pos (by linarith), abs_of_neg hneg] at h2
    linarith

/-- **C143 (e).** On a mesh with an even number of points that is symmetric about zero the routine raises, whatever the Green's function, as soon as the frequency
    nearest to the requested maximum is not the first positive one. -/
theorem mesh_even_raises (M : ℕ) (hM : 0 < M) (w : List ℝ) (hl : w.length = 2 * M) (h : Antisym w) (hp : w.Pairwise (· < ·)) (beta wMax : ℝ) (m : ℕ) (hm : M < m)
    (hw : argNear wMax w = some m) (g : List ℂ) (hg : g.length = 2 * M) (l : ℂ) (gs : List (List ℂ)) (ls : List ℂ) :
    chijjBubbleRealf w (g :: gs) (l :: ls) beta wMax = none := by
  have hm2 : m < 2 * M := by
    obtain ⟨y, hy, -⟩ := argNear_spec _ _ _ hw
    exact hl ▸ (List.getElem?_eq_some_iff.1 hy).1
  unfold chijjBubbleRealf
  split
  · rfl
  have hwin : window w wMax = some (M - 1, m, (m : ℤ) - M - 1, ((3 * M - 1 - m : ℕ) : ℤ)) := by
    unfold window
    rw [argNear_zero_antisym M hM w hl h hp, hw]
    simp only [Option.bind_some, Option.map_some, hl]
    have h2 : (2 * M) % 2 = 0 := by omega
    rw [h2]
    congr 3
    ext <;> simp <;> omega
  rw [hwin]
  simp only [Option.bind_some]
  have hlen : (Py.slice w (((M - 1 : ℕ) : ℤ) + 1) (m : ℤ)).length = m - M := by
    rw [Py.length_slice_in _ _ _ (by omega) (by omega) (by rw [hl]; omega)]; omega
  rw [hlen]
  rw [mapM_none'' _ _ (m - M - 1) (by simp; omega)]
  · rfl
  · rw [List.zip_cons_cons, List.mapM_cons]
    have hterm : realTerm w beta ((m : ℤ) - M - 1) ((3 * M - 1 - m : ℕ) : ℤ) g (((m - M - 1 : ℕ) : ℤ) + 1) = none := by
      unfold realTerm
      dsimp only
      have c1 : ((m : ℤ) - M - 1 - (((m - M - 1 : ℕ) : ℤ) + 1)) = -1 := by omega
      have hnil : Py.slice (g.map fun (z : ℂ) => (starRingEnd ℂ) z) (-1) (((3 * M - 1 - m : ℕ) : ℤ) - (((m - M - 1 : ℕ) : ℤ) + 1)) = [] := by
        apply Py.slice_eq_nil_of_le
        rw [List.length_map, hg, Py.clip_of_neg _ (-1) (by omega)]
        by_cases hneg : 0 ≤ ((3 * M - 1 - m : ℕ) : ℤ) - (((m - M - 1 : ℕ) : ℤ) + 1)
        · rw [Py.clip_of_nonneg _ _ hneg (by omega)]; omega
        · rw [Py.clip_of_neg _ _ (by omega)]; omega
      rw [c1, hnil]
      have hl2 : 2 ≤ (Py.slice g ((m : ℤ) - M - 1 + (((m - M - 1 : ℕ) : ℤ) + 1)) (((3 * M - 1 - m : ℕ) : ℤ) + (((m - M - 1 : ℕ) : ℤ) + 1))).length := by
        rw [Py.length_slice_in _ _ _ (by omega) (by omega) (by rw [hg]; omega)]; omega
      generalize Py.slice g ((m : ℤ) - M - 1 + (((m - M - 1 : ℕ) : ℤ) + 1)) (((3 * M - 1 - m : ℕ) : ℤ) + (((m - M - 1 : ℕ) : ℤ) + 1)) = gl at hl2
      have hb : bc (fun (a b : ℂ) => a + b) gl [] = none := by
        match gl, hl2 with
        | a :: b :: t, _ => rfl
      rw [hb]
      cases bc (fun (a b : ℝ) => a * b) _ _ <;> rfl
    rw [hterm]
    rfl

/-! ### even meshes -/

theorem rescale_odd (W : ℝ) (n : ℕ) (hn : 2 ≤ n) (g : ℝ → ℝ) (hodd : ∀ t, g (-t) = -g t) (h1 : 0 < g 1) :
    rescale (-W) W ((linspace (-1) 1 n).map g) = some ((linspace (-1) 1 n).map fun t => W * (g t / g 1)) := by
  have hn1 : (n : ℝ) - 1 ≠ 0 := by
    have : (2 : ℝ) ≤ n := by exact_mod_cast hn
    linarith
  have ha : (linspace (-1) 1 n).head? = some (-1) := by
    rw [linspace, List.head?_map, List.head?_range, if_neg (by omega)]
    simp
  have hb : (linspace (-1) 1 n).getLast? = some 1 := by
    rw [linspace, List.getLast?_map, List.getLast?_range, if_neg (by omega)]
    simp only [Option.map_some, Option.some.injEq, Nat.cast_sub (show 1 ≤ n by omega), Nat.cast_one]
    field_simp
    ring
  unfold rescale
  rw [List.head?_map, List.getLast?_map, ha, hb]
  simp only [Option.map_some, Option.bind_some, hodd, List.map_map, Option.some.injEq]
  apply List.map_congr_left
  intro t _
  simp only [Function.comp]
  have : g 1 - -g 1 ≠ 0 := by linarith
  field_simp
  ring

theorem second_of (W : ℝ) (hW : 0 < W) (n : ℕ) (hn : 5 ≤ n) (g : ℝ → ℝ) (h1 : 0 < g 1) (hlt : ∀ x y, 0 < x → x < y → y ≤ 1 → g x < g y)
    (h3 : ∀ x, 0 < x → 3 * x ≤ 1 → 3 * g x ≤ g (3 * x)) :
    ∃ a b, ((linspace (-1) 1 (2 * n)).map fun t => W * (g t / g 1))[n]? = some a ∧ ((linspace (-1) 1 (2 * n)).map fun t => W * (g t / g 1))[n + 1]? = some b ∧
      |b - W / 3| < |a - W / 3| := by
  have hn' : (5 : ℝ) ≤ n := by exact_mod_cast hn
  have hd : (0 : ℝ) < 2 * n - 1 := by linarith
  have e : ∀ k < 2 * n, ((linspace (-1) 1 (2 * n)).map fun t => W * (g t / g 1))[k]? = some (W * (g ((2 * k - (2 * n - 1)) / (2 * n - 1)) / g 1)) := by
    intro k hk
    rw [List.getElem?_map, linspace, List.getElem?_map, List.getElem?_range hk]
    simp only [Option.map_some, Option.some.injEq]
    congr 3
    push_cast
    field_simp
    ring
  refine ⟨_, _, e n (by omega), e (n + 1) (by omega), ?_⟩
  rw [show ((2 * (n : ℝ) - (2 * n - 1)) / (2 * n - 1)) = 1 / (2 * n - 1) by ring,
    show ((2 * ((n + 1 : ℕ) : ℝ) - (2 * n - 1)) / (2 * n - 1)) = 3 * (1 / (2 * n - 1)) by push_cast; ring]
  have hy : 0 < 1 / (2 * (n : ℝ) - 1) := by positivity
  have hy9 : 9 * (1 / (2 * (n : ℝ) - 1)) ≤ 1 := by
    rw [mul_one_div, div_le_one hd]
    linarith
  generalize 1 / (2 * (n : ℝ) - 1) = y at hy hy9
  have k1 := hlt y (3 * y) hy (by linarith) (by linarith)
  have k2 : 3 * g (3 * y) ≤ g 1 := by
    have k3 := h3 (3 * y) (by linarith) (by linarith)
    rcases eq_or_lt_of_le hy9 with h | h
    · rw [show 3 * (3 * y) = 1 by linarith] at k3
      exact k3
    · have := hlt (3 * (3 * y)) 1 (by linarith) (by linarith) le_rfl
      linarith
  have k4 : g y / g 1 < g (3 * y) / g 1 := (div_lt_div_iff_of_pos_right h1).2 k1
  have k5 : g (3 * y) / g 1 ≤ 1 / 3 := by
    rw [div_le_iff₀ h1]
    linarith
  have k6 : W * (g y / g 1) < W * (g (3 * y) / g 1) := mul_lt_mul_of_pos_left k4 hW
  have k7 : W * (g (3 * y) / g 1) ≤ W * (1 / 3) := mul_le_mul_of_nonneg_left k5 hW.le
  rw [abs_of_nonpos (by linarith), abs_of_neg (by linarith)]
  linarith

theorem tan_super {x y : ℝ} (hx : 0 < x) (hy : 0 < y) (hs : x + y < Real.pi / 2) : Real.tan x + Real.tan y < Real.tan (x + y) := by
  have hcx : 0 < Real.cos x := Real.cos_pos_of_mem_Ioo ⟨by linarith, by linarith⟩
  have hcy : 0 < Real.cos y := Real.cos_pos_of_mem_Ioo ⟨by linarith, by linarith⟩
  have hc : 0 < Real.cos (x + y) := Real.cos_pos_of_mem_Ioo ⟨by linarith, by linarith⟩
  have e1 : Real.tan x + Real.tan y = Real.sin (x + y) / (Real.cos x * Real.cos y) := by
    rw [Real.tan_eq_sin_div_cos, Real.tan_eq_sin_div_cos, Real.sin_add]
    field_simp
  rw [e1, Real.tan_eq_sin_div_cos (x + y)]
  have hsx : 0 < Real.sin x := Real.sin_pos_of_pos_of_lt_pi hx (by linarith)
  have hsy : 0 < Real.sin y := Real.sin_pos_of_pos_of_lt_pi hy (by linarith)
  apply div_lt_div_of_pos_left (Real.sin_pos_of_pos_of_lt_pi (by linarith) (by linarith)) hc
  rw [Real.cos_add]
  nlinarith [mul_pos hsx hsy]

/-- on the three meshes that need no cut-off, with ten points or more, a third of the largest frequency is nearer to the second positive frequency than to the first -/
theorem second_nearer (kind : String) (hk : kind ∈ ["hyperbolic", "linear", "tan"]) (W : ℝ) (hW : 0 < W) (n : ℕ) (hn : 5 ≤ n) (cut : Option ℝ) (w : List ℝ)
    (h : getWMesh kind (-W) W (2 * n) cut = some w) : ∃ a b, w[n]? = some a ∧ w[n + 1]? = some b ∧ |b - W / 3| < |a - W / 3| := by
  simp only [List.mem_cons, List.not_mem_nil, or_false] at hk
  rcases hk with rfl | rfl | rfl
  · have h' : hyperbolicMesh (-W) W (2 * n) = some w := by simpa [getWMesh] using h
    unfold hyperbolicMesh at h'
    have hsq : ∀ z : ℝ, 0 < z → 1 < Real.sqrt (1 + z ^ 2) := fun z hz => by
      rw [Real.lt_sqrt (by norm_num)]
      nlinarith
    rw [rescale_odd W (2 * n) (by omega) (fun u => SignType.sign u * (Real.sqrt (1 + u ^ 2) - 1)) (fun t => by
        rw [Left.sign_neg, SignType.coe_neg, neg_sq]
        ring) (by
        have := hsq 1 one_pos
        simpa using this)] at h'
    rw [← Option.some.inj h']
    refine second_of W hW n hn (fun u => SignType.sign u * (Real.sqrt (1 + u ^ 2) - 1)) ?_ (fun x y _ hxy _ => hyp_mono hxy) ?_
    · have := hsq 1 one_pos
      simpa using this
    · intro x hx _
      have h3 : 0 < 3 * x := by linarith
      simp only [sign_pos hx, sign_pos h3, SignType.coe_one, one_mul]
      have e := Real.sq_sqrt (show (0 : ℝ) ≤ 1 + x ^ 2 by positivity)
      have : 3 * Real.sqrt (1 + x ^ 2) - 2 ≤ Real.sqrt (1 + (3 * x) ^ 2) := by
        apply Real.le_sqrt_of_sq_le
        have := hsq x hx
        nlinarith
      linarith
  · have h' : linspace (-W) W (2 * n) = w := by simpa [getWMesh, linearMesh] using h
    have e : linspace (-W) W (2 * n) = (linspace (-1) 1 (2 * n)).map fun t => W * (id t / id 1) := by
      unfold linspace
      rw [List.map_map]
      apply List.map_congr_left
      intro k _
      simp only [Function.comp, id]
      ring
    rw [← h', e]
    exact second_of W hW n hn id one_pos (fun x y _ h _ => h) fun x _ _ => le_rfl
  · have h' : tanMesh (-W) W (2 * n) = some w := by simpa [getWMesh] using h
    have hpi := Real.pi_pos
    have hq : Real.pi / 2.5 < Real.pi / 2 := div_lt_div_of_pos_left hpi (by norm_num) (by norm_num)
    have hq0 : 0 < Real.pi / 2.5 := by positivity
    have ht : 0 < Real.tan (Real.pi / 2.5) := Real.tan_pos_of_pos_of_lt_pi_div_two hq0 hq
    have e : ((linspace (-Real.pi / 2.5) (Real.pi / 2.5) (2 * n)).map fun x => Real.tan x * 1 / Real.tan (Real.pi / 2.5)) =
        (linspace (-1) 1 (2 * n)).map fun t => Real.tan (t * (Real.pi / 2.5)) / Real.tan (Real.pi / 2.5) := by
      unfold linspace
      rw [List.map_map, List.map_map]
      apply List.map_congr_left
      intro k _
      simp only [Function.comp, mul_one]
      congr 2
      ring
    unfold tanMesh at h'
    have h1 : Real.tan (1 * (Real.pi / 2.5)) / Real.tan (Real.pi / 2.5) = 1 := by rw [one_mul]; exact div_self ht.ne'
    rw [e, rescale_odd W (2 * n) (by omega) (fun t => Real.tan (t * (Real.pi / 2.5)) / Real.tan (Real.pi / 2.5)) (fun t => by
        rw [neg_mul, Real.tan_neg]
        ring) (by rw [h1]; norm_num)] at h'
    rw [← Option.some.inj h']
    refine second_of W hW n hn (fun t => Real.tan (t * (Real.pi / 2.5)) / Real.tan (Real.pi / 2.5)) (by rw [h1]; norm_num) ?_ ?_
    · intro x y hx hxy hy
      refine (div_lt_div_iff_of_pos_right ht).2 (Real.tan_lt_tan_of_lt_of_lt_pi_div_two ?_ ?_ (mul_lt_mul_of_pos_right hxy hq0))
      · have := mul_pos hx hq0
        linarith
      · have := mul_le_mul_of_nonneg_right hy hq0.le
        linarith
    · intro x hx h3
      have hx0 := mul_pos hx hq0
      have hs : 3 * x * (Real.pi / 2.5) ≤ 1 * (Real.pi / 2.5) := mul_le_mul_of_nonneg_right h3 hq0.le
      have k1 := tan_super hx0 hx0 (by linarith)
      have k2 := tan_super hx0 (show 0 < x * (Real.pi / 2.5) + x * (Real.pi / 2.5) by linarith) (by linarith)
      show 3 * (Real.tan (x * (Real.pi / 2.5)) / Real.tan (Real.pi / 2.5)) ≤ Real.tan (3 * x * (Real.pi / 2.5)) / Real.tan (Real.pi / 2.5)
      rw [← mul_div_assoc]
      apply div_le_div_of_nonneg_right _ ht.le
      rw [show 3 * x * (Real.pi / 2.5) = x * (Real.pi / 2.5) + (x * (Real.pi / 2.5) + x * (Real.pi / 2.5)) by ring]
      linarith

/-- **C143 (f).** On every mesh the program can make with `wmin = -wmax` and an even number of points the routine raises for the window `chijj_bubble_realf` is called
    with in dga_max_ent.py, a third of the largest frequency, if the second positive frequency is nearer to it than the first; on the meshes that need no
    cut-off it is, from ten points on. -/
theorem kinds_even (kind : String) (W : ℝ) (hW : 0 < W) (n : ℕ) (hn : 1 ≤ n) (cut : Option ℝ)
    (hk : kind ∈ ["hyperbolic", "linear", "tan"] ∨ kind = "lorentzian" ∧ ∃ c, cut = some c ∧ 0 < c ∧ c < 1 / 2) :
    ∃ w, getWMesh kind (-W) W (2 * n) cut = some w ∧ w.getLast? = some W ∧ (kind ≠ "lorentzian" ∧ 5 ≤ n → ∃ a b, w[n]? = some a ∧ w[n + 1]? = some b ∧ |b - W / 3| < |a - W / 3|) ∧
      ∀ a b, w[n]? = some a → w[n + 1]? = some b → |b - W / 3| < |a - W / 3| → ∀ beta g gs l ls, g.length = 2 * n →
        chijjBubbleRealf w (g :: gs) (l :: ls) beta (W / 3) = none := by
  obtain ⟨w, hw, hi, hant⟩ := kinds_antisym kind W hW (2 * n) (by omega) cut hk
  refine ⟨w, hw, hi.2.2.1, ?_, ?_⟩
  · rintro ⟨h1, h2⟩
    refine second_nearer kind ?_ W hW n h2 cut w hw
    rcases hk with hk | hk
    · exact hk
    · exact absurd hk.1 h1
  · intro a b ha hb hab beta g gs l ls hg
    have hp := List.pairwise_iff_getElem.1 hi.2.2.2
    obtain ⟨m, hm⟩ := argNear_some (W / 3) w (by rintro rfl; simp at ha)
    obtain ⟨y, hy, hmin, -⟩ := argNear_spec _ _ _ hm
    have h3 := hmin (n + 1) b hb
    refine mesh_even_raises n (by omega) w hi.1 hant hi.2.2.2 beta (W / 3) m ?_ hm g hg l gs ls
    by_contra hle
    obtain ⟨hmw, rfl⟩ := List.getElem?_eq_some_iff.1 hy
    obtain ⟨hnw, rfl⟩ := List.getElem?_eq_some_iff.1 ha
    obtain ⟨hbw, rfl⟩ := List.getElem?_eq_some_iff.1 hb
    have h4 : w[m] ≤ w[n] := by
      rcases Nat.lt_or_ge m n with h5 | h5
      · exact (hp m n hmw hnw h5).le
      · have : m = n := by omega
        subst this
        exact le_rfl
    have h6 := hp n (n + 1) hnw hbw (by omega)
    by_cases h7 : W / 3 ≤ w[n]
    · rw [abs_of_nonneg (by linarith), abs_of_nonneg (by linarith)] at hab
      linarith
    · rw [abs_of_neg (show w[n] - W / 3 < 0 by linarith)] at hab
      rw [abs_of_neg (show w[m] - W / 3 < 0 by linarith)] at h3
      linarith

/-- the default mesh: the fifth frequency above the tenth lies above the sum of the two -/
example : ∃ f, getWMesh "tan" (-15) 15 501 (some 0.04) = some (meshOf 250 f) ∧ OddMesh 250 f ∧ f 10 + f 5 < f 15 ∧ ¬ ∀ j : ℤ, -250 ≤ j → j ≤ 250 → f j = j * f 1 := by
  obtain ⟨f, hf, -, -, h⟩ := kinds_odd "tan" 15 (by norm_num) 250 (by norm_num) (some 0.04) (Or.inl (by simp))
  have h1 := tan_overshoots 15 (by norm_num) 250 _ f h 5 10 (by norm_num) (by norm_num) (by norm_num)
  refine ⟨f, h, hf, by simpa using h1, fun hall => ?_⟩
  have := (shift_is_frequency_iff 250 f hf).2 (by simpa using hall) 5 10 (by norm_num) (by norm_num) (by norm_num) (by norm_num)
  linarith

/-- (a) on the default mesh: the routine returns -/
example (G : ℤ → ℂ) (beta : ℝ) : ∃ f, getWMesh "tan" (-15) 15 501 (some 0.04) = some (meshOf 250 f) ∧
    (chijjBubbleRealf (meshOf 250 f) [oddRow 250 G] [1] beta 5).isSome := by
  obtain ⟨f, hf, -, h5, h⟩ := kinds_odd "tan" 15 (by norm_num) 250 (by norm_num) (some 0.04) (Or.inl (by simp))
  obtain ⟨c, -, -, hv⟩ := mesh_value 250 f hf beta 5 (by norm_num) (by rw [show f ((250 : ℕ) : ℤ) = 15 from h5]; norm_num) [G] [1] rfl
  refine ⟨f, h, ?_⟩
  rw [show [oddRow 250 G] = [G].map (oddRow 250) from rfl, hv]
  rfl

/-- (f) on the default mesh with one point less: the routine raises -/
example (g : List ℂ) (hg : g.length = 2 * 250) (beta : ℝ) : ∃ w, getWMesh "tan" (-15) 15 500 (some 0.04) = some w ∧ chijjBubbleRealf w [g] [1] beta (15 / 3) = none := by
  obtain ⟨w, hw, -, h1, h2⟩ := kinds_even "tan" 15 (by norm_num) 250 (by norm_num) (some 0.04) (Or.inl (by simp))
  obtain ⟨a, b, ha, hb, hab⟩ := h1 ⟨by decide, by norm_num⟩
  exact ⟨w, hw, h2 a b ha hb hab beta g [] 1 [] hg⟩

end DGA.Optics
