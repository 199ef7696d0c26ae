import Verif.AnaCont.Model
import Mathlib.Analysis.SpecialFunctions.Trigonometric.Bounds
import Mathlib.Tactic.Positivity
import Mathlib.Tactic.FieldSimp
import Mathlib.Tactic.Linarith

/-
  C46: real-frequency meshes of analytic_continuation.py.
-/

noncomputable section

namespace DGA.Ana

/-- Specification of a usable mesh on `[wmin, wmax]` with `n` points: right number of points, exact end points, strictly increasing. -/
def IsMesh (wmin wmax : ℝ) (n : Nat) (w : List ℝ) : Prop :=
  w.length = n ∧ w.head? = some wmin ∧ w.getLast? = some wmax ∧ w.Pairwise (· < ·)

theorem pairwise_range_map (n : Nat) (f : Nat → ℝ) (h : ∀ i j, i < j → j < n → f i < f j) : ((List.range n).map f).Pairwise (· < ·) := by
  rw [List.pairwise_iff_getElem]
  intro i j hi hj hij
  simp only [List.length_map, List.length_range] at hi hj
  simpa using h i j hij hj

theorem head_lt_last (w : List ℝ) (hp : w.Pairwise (· < ·)) (hl : 2 ≤ w.length) (a b : ℝ) (ha : w.head? = some a)
    (hb : w.getLast? = some b) : a < b := by
  rw [List.pairwise_iff_getElem] at hp
  rw [List.head?_eq_getElem?] at ha
  rw [List.getLast?_eq_getElem?] at hb
  obtain ⟨h1, rfl⟩ := List.getElem?_eq_some_iff.mp ha
  obtain ⟨h2, rfl⟩ := List.getElem?_eq_some_iff.mp hb
  exact hp 0 (w.length - 1) h1 h2 (by omega)

/-- A strictly increasing affine image of a strictly increasing list, normalised to the window, is a mesh. -/
theorem affine_mesh (wmin wmax : ℝ) (hw : wmin < wmax) (w : List ℝ) (hp : w.Pairwise (· < ·)) (hl : 2 ≤ w.length) (a b : ℝ)
    (ha : w.head? = some a) (hb : w.getLast? = some b) (g : ℝ → ℝ) (hg : ∀ x, g x = wmin + (wmax - wmin) * ((x - a) / (b - a))) :
    IsMesh wmin wmax w.length (w.map g) := by
  have hab := head_lt_last w hp hl a b ha hb
  have hba : 0 < b - a := by linarith
  refine ⟨by simp, ?_, ?_, ?_⟩
  · rw [List.head?_map, ha, Option.map_some, hg]; simp
  · rw [List.getLast?_map, hb, Option.map_some, hg, div_self hba.ne']; simp
  · rw [List.pairwise_map]
    refine hp.imp fun {x y} hxy => ?_
    rw [hg, hg]
    have : (x - a) / (b - a) < (y - a) / (b - a) := div_lt_div_of_pos_right (by linarith) hba
    have hw' : 0 < wmax - wmin := by linarith
    have := mul_lt_mul_of_pos_left this hw'
    linarith

theorem exists_ends (w : List ℝ) (hl : 2 ≤ w.length) : ∃ a b, w.head? = some a ∧ w.getLast? = some b := by
  refine ⟨w[0], w[w.length - 1], ?_, ?_⟩
  · rw [List.head?_eq_getElem?, List.getElem?_eq_getElem]
  · rw [List.getLast?_eq_getElem?, List.getElem?_eq_getElem]

theorem rescale_mesh (wmin wmax : ℝ) (hw : wmin < wmax) (w : List ℝ) (hp : w.Pairwise (· < ·)) (hl : 2 ≤ w.length) :
    ∃ m, rescale wmin wmax w = some m ∧ IsMesh wmin wmax w.length m := by
  obtain ⟨a, b, ha, hb⟩ := exists_ends w hl
  refine ⟨w.map fun x => wmin + (wmax - wmin) * (x - a) / (b - a), by simp only [rescale, ha, hb, Option.bind_some, Option.map_some], ?_⟩
  exact affine_mesh wmin wmax hw w hp hl a b ha hb _ fun x => by rw [mul_div_assoc]

theorem linspace_incr (a b : ℝ) (hab : a < b) (n : Nat) : (linspace a b n).Pairwise (· < ·) := by
  apply pairwise_range_map
  intro i j hij hj
  have hn : (1 : ℝ) < n := by exact_mod_cast (show 1 < n by omega)
  have hs : 0 < (b - a) / ((n : ℝ) - 1) := div_pos (by linarith) (by linarith)
  have : (i : ℝ) < j := by exact_mod_cast hij
  have := mul_lt_mul_of_pos_right this hs
  linarith

theorem linspace_mem (a b : ℝ) (hab : a < b) (n : Nat) (hn : 2 ≤ n) (x : ℝ) (hx : x ∈ linspace a b n) : a ≤ x ∧ x ≤ b := by
  obtain ⟨k, hk, rfl⟩ := List.mem_map.mp hx
  rw [List.mem_range] at hk
  have hn1 : (0 : ℝ) < (n : ℝ) - 1 := by
    have : (2 : ℝ) ≤ n := by exact_mod_cast hn
    linarith
  have hk1 : (k : ℝ) ≤ (n : ℝ) - 1 := by
    have : (k : ℝ) + 1 ≤ n := by exact_mod_cast hk
    linarith
  have hs : 0 < (b - a) / ((n : ℝ) - 1) := div_pos (by linarith) hn1
  constructor
  · have : 0 ≤ (k : ℝ) * ((b - a) / ((n : ℝ) - 1)) := by positivity
    linarith
  · have := mul_le_mul_of_nonneg_right hk1 hs.le
    rw [mul_div_cancel₀ _ hn1.ne'] at this
    linarith

theorem linear_isMesh (wmin wmax : ℝ) (hw : wmin < wmax) (n : Nat) (hn : 2 ≤ n) : IsMesh wmin wmax n (linspace wmin wmax n) := by
  refine ⟨by simp [linspace], ?_, ?_, linspace_incr _ _ hw _⟩
  · simp only [linspace, List.head?_map, List.head?_range]
    rw [if_neg (by omega)]; simp
  · simp only [linspace, List.getLast?_map, List.getLast?_range]
    rw [if_neg (by omega), Option.map_some]
    have hn1 : (0 : ℝ) < (n : ℝ) - 1 := by
      have : (2 : ℝ) ≤ n := by exact_mod_cast hn
      linarith
    rw [Nat.cast_sub (by omega), Nat.cast_one, mul_div_cancel₀ _ hn1.ne']
    simp

theorem incr_map (w : List ℝ) (hp : w.Pairwise (· < ·)) (f : ℝ → ℝ) (hf : ∀ x ∈ w, ∀ y ∈ w, x < y → f x < f y) :
    (w.map f).Pairwise (· < ·) := by
  rw [List.pairwise_map]
  rw [List.pairwise_iff_getElem] at hp ⊢
  intro i j hi hj hij
  exact hf _ (List.getElem_mem hi) _ (List.getElem_mem hj) (hp i j hi hj hij)

/-- the hyperbolic map is strictly increasing -/
theorem hyp_mono {x y : ℝ} (h : x < y) :
    ((SignType.sign x : SignType) : ℝ) * (Real.sqrt (1 + x ^ 2) - 1) < ((SignType.sign y : SignType) : ℝ) * (Real.sqrt (1 + y ^ 2) - 1) := by
  have pos : ∀ z : ℝ, z ≠ 0 → 0 < Real.sqrt (1 + z ^ 2) - 1 := by
    intro z hz
    have : Real.sqrt 1 < Real.sqrt (1 + z ^ 2) := Real.sqrt_lt_sqrt (by norm_num) (by have : 0 < z ^ 2 := by positivity
                                                                                      linarith)
    rw [Real.sqrt_one] at this
    linarith
  have mono : ∀ a b : ℝ, a ^ 2 < b ^ 2 → Real.sqrt (1 + a ^ 2) < Real.sqrt (1 + b ^ 2) := fun a b hab =>
    Real.sqrt_lt_sqrt (by positivity) (by linarith)
  rcases lt_trichotomy x 0 with hx | hx | hx <;> rcases lt_trichotomy y 0 with hy | hy | hy
  · have := mono y x (by nlinarith)
    simp only [sign_neg hx, sign_neg hy, SignType.coe_neg, SignType.coe_one]; linarith
  · have := pos x hx.ne
    subst hy
    simp only [sign_neg hx, sign_zero, SignType.coe_neg, SignType.coe_one, SignType.coe_zero]; linarith
  · have h1 := pos x hx.ne
    have h2 := pos y hy.ne'
    simp only [sign_neg hx, sign_pos hy, SignType.coe_neg, SignType.coe_one]; linarith
  · linarith
  · linarith
  · have h2 := pos y hy.ne'
    subst hx
    simp only [sign_zero, sign_pos hy, SignType.coe_one, SignType.coe_zero]; linarith
  · linarith
  · linarith
  · have := mono x y (by nlinarith)
    simp only [sign_pos hx, sign_pos hy, SignType.coe_one]; linarith

theorem midpoints_get (w : List ℝ) (k : Nat) (h : k + 1 < w.length) : (midpoints w)[k]? = some ((w[k] + w[k + 1]) / 2) := by
  unfold midpoints
  rw [List.getElem?_map]
  have : (w.dropLast.zip w.tail)[k]? = some (w[k], w[k + 1]) := by
    rw [List.getElem?_zip_eq_some]
    constructor
    · rw [List.getElem?_dropLast, if_pos (by omega), List.getElem?_eq_getElem (by omega)]
    · rw [List.getElem?_tail, List.getElem?_eq_getElem h]
  rw [this]; rfl

theorem midpoints_length (w : List ℝ) : (midpoints w).length = w.length - 1 := by simp [midpoints]

theorem midpoints_incr (w : List ℝ) (hp : w.Pairwise (· < ·)) : (midpoints w).Pairwise (· < ·) := by
  rw [List.pairwise_iff_getElem] at hp ⊢
  intro i j hi hj hij
  rw [midpoints_length] at hi hj
  have e : ∀ (k : Nat) (hk : k < (midpoints w).length) (h : k + 1 < w.length), (midpoints w)[k] = (w[k] + w[k + 1]) / 2 := by
    intro k hk h
    have := midpoints_get w k h
    rw [List.getElem?_eq_getElem hk] at this
    exact Option.some.inj this
  rw [e i _ (by omega), e j _ (by omega)]
  have h1 := hp i j (by omega) (by omega) hij
  have h2 := hp (i + 1) (j + 1) (by omega) (by omega) (by omega)
  linarith

theorem lorentzian_isMesh (wmin wmax : ℝ) (hw : wmin < wmax) (n : Nat) (hn : 2 ≤ n) (cut : ℝ) (h0 : 0 < cut) (h1 : cut < 1 / 2) :
    ∃ m, lorentzianMesh wmin wmax n cut = some m ∧ IsMesh wmin wmax n m := by
  have hpi := Real.pi_pos
  have hlin : (linspace 0 1 (n + 1)).length = n + 1 := by simp [linspace]
  set temp := (linspace 0 1 (n + 1)).map fun u => Real.tan (Real.pi * (u * (1 - 2 * cut) + cut - 1 / 2)) with ht
  have htl : temp.length = n + 1 := by rw [ht, List.length_map, hlin]
  have htp : temp.Pairwise (· < ·) := by
    apply incr_map _ (linspace_incr 0 1 one_pos _)
    intro x hx y hy hxy
    have hx' := linspace_mem 0 1 one_pos (n + 1) (by omega) x hx
    have hy' := linspace_mem 0 1 one_pos (n + 1) (by omega) y hy
    have hc : 0 < 1 - 2 * cut := by linarith
    have hxc : 0 ≤ x * (1 - 2 * cut) := mul_nonneg hx'.1 hc.le
    have hyc : y * (1 - 2 * cut) ≤ 1 - 2 * cut := by nlinarith [hy'.2]
    have hxy' : x * (1 - 2 * cut) < y * (1 - 2 * cut) := mul_lt_mul_of_pos_right hxy hc
    apply Real.tan_lt_tan_of_lt_of_lt_pi_div_two
    · rw [show -(Real.pi / 2) = Real.pi * (-(1 / 2)) by ring]
      exact mul_lt_mul_of_pos_left (by linarith) hpi
    · rw [show Real.pi / 2 = Real.pi * (1 / 2) by ring]
      exact mul_lt_mul_of_pos_left (by linarith) hpi
    · exact mul_lt_mul_of_pos_left (by linarith) hpi
  obtain ⟨a, b, ha, hb⟩ := exists_ends temp (by omega)
  have hm := affine_mesh wmin wmax hw temp htp (by omega) a b ha hb (fun x => wmin + (wmax - wmin) * ((x - a) / (b - a))) fun _ => rfl
  set w := temp.map fun x => wmin + (wmax - wmin) * ((x - a) / (b - a)) with hwdef
  have hml : (midpoints w).length = n := by rw [midpoints_length, hm.1, htl]; rfl
  have hmp := midpoints_incr w hm.2.2.2
  obtain ⟨c, d, hc, hd⟩ := exists_ends (midpoints w) (by omega)
  refine ⟨(midpoints w).map fun x => (x - c) / (d - c) * (wmax - wmin) + wmin, ?_, ?_⟩
  · unfold lorentzianMesh
    simp only [← ht, ha, hb, Option.bind_some, ← hwdef, hc, hd, Option.map_some]
  · have := affine_mesh wmin wmax hw (midpoints w) hmp (by omega) c d hc hd (fun x => (x - c) / (d - c) * (wmax - wmin) + wmin)
      fun x => by ring
    rwa [hml] at this

theorem hyperbolic_isMesh (wmin wmax : ℝ) (hw : wmin < wmax) (n : Nat) (hn : 2 ≤ n) :
    ∃ m, hyperbolicMesh wmin wmax n = some m ∧ IsMesh wmin wmax n m := by
  have := rescale_mesh wmin wmax hw ((linspace (-1) 1 n).map fun u => ((SignType.sign u : SignType) : ℝ) * (Real.sqrt (1 + u ^ 2) - 1))
    (incr_map _ (linspace_incr _ _ (by norm_num) _) _ fun x _ y _ h => hyp_mono h) (by simp [linspace]; omega)
  simpa [linspace, hyperbolicMesh] using this

theorem tan_isMesh (wmin wmax : ℝ) (hw : wmin < wmax) (n : Nat) (hn : 2 ≤ n) :
    ∃ m, tanMesh wmin wmax n = some m ∧ IsMesh wmin wmax n m := by
  have hpi := Real.pi_pos
  have hq : Real.pi / 2.5 < Real.pi / 2 := div_lt_div_of_pos_left hpi (by norm_num) (by norm_num)
  have hq0 : 0 < Real.pi / 2.5 := by positivity
  have ht : 0 < Real.tan (Real.pi / 2.5) := Real.tan_pos_of_pos_of_lt_pi_div_two hq0 hq
  have := rescale_mesh wmin wmax hw ((linspace (-Real.pi / 2.5) (Real.pi / 2.5) n).map fun x => Real.tan x * 1 / Real.tan (Real.pi / 2.5))
    (incr_map _ (linspace_incr _ _ (by rw [neg_div]; linarith) _) _ ?_) (by simp [linspace]; omega)
  · simpa [linspace, tanMesh] using this
  · intro x hx y hy hxy
    have hx' := linspace_mem _ _ (by rw [neg_div]; linarith) n hn x hx
    have hy' := linspace_mem _ _ (by rw [neg_div]; linarith) n hn y hy
    rw [neg_div] at hx' hy'
    apply div_lt_div_of_pos_right _ ht
    rw [mul_one, mul_one]
    exact Real.tan_lt_tan_of_lt_of_lt_pi_div_two (by linarith) (by linarith) hxy

/-- C46. Every mesh kind, asked for at least two points on a proper window (and `0 < cut < 1/2` for the Lorentzian mesh), gives exactly
    that many points, from `wmin` to `wmax`, strictly increasing. -/
theorem mesh_valid (kind : String) (hk : kind ∈ ["lorentzian", "hyperbolic", "linear", "tan"]) (wmin wmax : ℝ) (hw : wmin < wmax)
    (n : Nat) (hn : 2 ≤ n) (cut : ℝ) (h0 : 0 < cut) (h1 : cut < 1 / 2) :
    ∃ m, getWMesh kind wmin wmax n (some cut) = some m ∧ IsMesh wmin wmax n m := by
  simp only [List.mem_cons, List.not_mem_nil, or_false] at hk
  rcases hk with rfl | rfl | rfl | rfl
  · exact lorentzian_isMesh wmin wmax hw n hn cut h0 h1
  · exact hyperbolic_isMesh wmin wmax hw n hn
  · exact ⟨_, rfl, linear_isMesh wmin wmax hw n hn⟩
  · exact tan_isMesh wmin wmax hw n hn

/-- C46. A call is refused for every other mesh name, and for the Lorentzian mesh without `cut`; for the other three kinds `cut` is
    irrelevant. -/
theorem mesh_refused (kind : String) (wmin wmax : ℝ) (n : Nat) (cut : Option ℝ) :
    (kind ∉ ["lorentzian", "hyperbolic", "linear", "tan"] → getWMesh kind wmin wmax n cut = none) ∧
    (getWMesh "lorentzian" wmin wmax n none = none) ∧
    (kind ≠ "lorentzian" → getWMesh kind wmin wmax n cut = getWMesh kind wmin wmax n none) := by
  refine ⟨fun h => ?_, rfl, fun h => ?_⟩
  · simp only [List.mem_cons, List.not_mem_nil, or_false, not_or] at h
    simp [getWMesh, h]
  · simp [getWMesh, h]

example : ∃ m, getWMesh "lorentzian" (-15) 15 501 (some 0.04) = some m ∧ IsMesh (-15) 15 501 m :=
  mesh_valid "lorentzian" (by simp) _ _ (by norm_num) _ (by norm_num) _ (by norm_num) (by norm_num)

end DGA.Ana
