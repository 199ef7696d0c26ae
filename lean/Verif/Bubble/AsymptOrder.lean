/-
  C82 (d): the prefactors of the correction are those of the lattice bubble: what is left outside the window is of fifth order.
-/
import Verif.Bubble.AsymptProps
import Mathlib.Analysis.Asymptotics.Lemmas
import Mathlib.Tactic.NormNum

namespace DGA.Bubble

open DGA.Mf DGA.Bz Filter Topology Asymptotics

noncomputable section

/-- specification: the lattice Green's function at `f = 1/(i v)` with the high-frequency self-energy `smom0 - smom1/(i v)`
    (two_point.py:158, 168, 311-313) -/
def tailGreen (mu smom0 smom1 ek : ℝ) (f : ℂ) : ℂ := 1 / (1 / f + mu - ek - (smom0 - smom1 * f))

section order

variable {x y : ℤ → ℂ}

theorem left_bigO : x =O[cofinite] fun n => ‖x n‖ + ‖y n‖ :=
  IsBigO.of_bound 1 (Eventually.of_forall fun n => by
    rw [one_mul, Real.norm_eq_abs, abs_of_nonneg (by positivity)]; linarith [norm_nonneg (y n)])

theorem right_bigO : y =O[cofinite] fun n => ‖x n‖ + ‖y n‖ :=
  IsBigO.of_bound 1 (Eventually.of_forall fun n => by
    rw [one_mul, Real.norm_eq_abs, abs_of_nonneg (by positivity)]; linarith [norm_nonneg (x n)])

theorem pow_bigO (h : ℤ → ℝ) (hh : Tendsto h cofinite (𝓝 0)) (i j : ℕ) (hij : i ≤ j) : (fun n => h n ^ j) =O[cofinite] fun n => h n ^ i := by
  obtain ⟨k, rfl⟩ := Nat.exists_eq_add_of_le hij
  have h1 : (fun n => h n ^ k) =O[cofinite] fun _ => (1 : ℝ) := (hh.pow k).isBigO_one ℝ
  have := (isBigO_refl (fun n => h n ^ i) cofinite).mul h1
  simpa [pow_add] using this

theorem mono_bigO (hx : Tendsto x cofinite (𝓝 0)) (hy : Tendsto y cofinite (𝓝 0)) (c : ℂ) (i j : ℕ) (hij : 5 ≤ i + j) :
    (fun n => c * (x n ^ i * y n ^ j)) =O[cofinite] fun n => (‖x n‖ + ‖y n‖) ^ 5 := by
  have hh : Tendsto (fun n => ‖x n‖ + ‖y n‖) cofinite (𝓝 0) := by simpa using hx.norm.add hy.norm
  have h1 := ((left_bigO (x := x) (y := y)).pow i).mul ((right_bigO (x := x) (y := y)).pow j)
  simp only [← pow_add] at h1
  exact (h1.trans (pow_bigO _ hh 5 _ hij)).const_mul_left c

/-- expansion of the lattice Green's function to third order -/
theorem green_bigO (mu s0 m e : ℝ) (f : ℤ → ℂ) (hf : Tendsto f cofinite (𝓝 0)) (hf0 : ∀ n, f n ≠ 0) (G : ℤ → ℂ)
    (hG : G =ᶠ[cofinite] fun n => tailGreen mu s0 m e (f n)) :
    (fun n => G n - (f n - (mu - s0 - e : ℝ) * f n ^ 2 + ((mu - s0 - e) ^ 2 - m : ℝ) * f n ^ 3)) =O[cofinite] fun n => f n ^ 4 := by
  set a : ℝ := mu - s0 - e with ha
  have hz : Tendsto (fun n => 1 + ((a : ℂ) * f n + m * f n ^ 2)) cofinite (𝓝 1) := by
    have := (((hf.const_mul (a : ℂ)).add ((hf.pow 2).const_mul (m : ℂ)))).const_add 1
    simpa using this
  have hr : Tendsto (fun n => -((a ^ 3 - 2 * a * m : ℂ) + m * (a ^ 2 - m) * f n) / (1 + ((a : ℂ) * f n + m * f n ^ 2))) cofinite
      (𝓝 (-((a ^ 3 - 2 * a * m : ℂ) + m * (a ^ 2 - m) * 0) / 1)) :=
    (((hf.const_mul (m * (a ^ 2 - m) : ℂ)).const_add (a ^ 3 - 2 * a * m : ℂ)).neg).div hz one_ne_zero
  have hb := (isBigO_refl (fun n => f n ^ 4) cofinite).mul (hr.isBigO_one ℂ)
  simp only [mul_one] at hb
  refine hb.congr' ?_ EventuallyEq.rfl
  have hne : ∀ᶠ n in cofinite, 1 + ((a : ℂ) * f n + m * f n ^ 2) ≠ 0 := hz.eventually_ne one_ne_zero
  filter_upwards [hne, hG] with n h1 h2
  rw [h2]
  have h3 : tailGreen mu s0 m e (f n) = f n / (1 + ((a : ℂ) * f n + m * f n ^ 2)) := by
    unfold tailGreen
    rw [eq_div_iff h1, div_mul_eq_mul_div, div_eq_iff]
    · rw [ha]; push_cast; have := hf0 n; field_simp; ring
    · have := hf0 n
      have h4 : 1 / f n + mu - e - (s0 - m * f n) = (1 + ((a : ℂ) * f n + m * f n ^ 2)) / f n := by
        rw [ha]; push_cast; field_simp; ring
      rw [h4]
      exact div_ne_zero h1 this
  rw [h3]
  push_cast
  rw [← mul_div_assoc, div_eq_iff h1, sub_mul, div_mul_cancel₀ _ h1]
  ring

/-- two lattice Green's functions: their product to fourth order -/
theorem pair_bigO (mu s0 m e e' : ℝ) (hx : Tendsto x cofinite (𝓝 0)) (hy : Tendsto y cofinite (𝓝 0)) (hx0 : ∀ n, x n ≠ 0) (hy0 : ∀ n, y n ≠ 0)
    (G G' : ℤ → ℂ) (hG : G =ᶠ[cofinite] fun n => tailGreen mu s0 m e (x n)) (hG' : G' =ᶠ[cofinite] fun n => tailGreen mu s0 m e' (y n)) :
    (fun n => G n * G' n - (x n * y n - ((mu - s0 - e : ℝ) * (x n ^ 2 * y n) + (mu - s0 - e' : ℝ) * (x n * y n ^ 2))
      + (((mu - s0 - e) ^ 2 - m : ℝ) * (x n ^ 3 * y n) + ((mu - s0 - e') ^ 2 - m : ℝ) * (x n * y n ^ 3))
      + ((mu - s0 - e) * (mu - s0 - e') : ℝ) * (x n ^ 2 * y n ^ 2))) =O[cofinite] fun n => (‖x n‖ + ‖y n‖) ^ 5 := by
  set a : ℝ := mu - s0 - e
  set a' : ℝ := mu - s0 - e'
  set b : ℝ := a ^ 2 - m
  set b' : ℝ := a' ^ 2 - m
  set P : ℤ → ℂ := fun n => x n - a * x n ^ 2 + b * x n ^ 3 with hP
  set P' : ℤ → ℂ := fun n => y n - a' * y n ^ 2 + b' * y n ^ 3 with hP'
  have hh : Tendsto (fun n => ‖x n‖ + ‖y n‖) cofinite (𝓝 0) := by simpa using hx.norm.add hy.norm
  have R := green_bigO mu s0 m e x hx hx0 G hG
  have R' := green_bigO mu s0 m e' y hy hy0 G' hG'
  have Rh : (fun n => G n - P n) =O[cofinite] fun n => (‖x n‖ + ‖y n‖) ^ 4 := R.trans (left_bigO.pow 4)
  have Rh' : (fun n => G' n - P' n) =O[cofinite] fun n => (‖x n‖ + ‖y n‖) ^ 4 := R'.trans (right_bigO.pow 4)
  have powone : ∀ (j : ℕ), 1 ≤ j → (fun n => (‖x n‖ + ‖y n‖) ^ j) =O[cofinite] fun n => ‖x n‖ + ‖y n‖ := by
    intro j hj; simpa using pow_bigO _ hh 1 j hj
  have Ph : P =O[cofinite] fun n => ‖x n‖ + ‖y n‖ :=
    (left_bigO.sub (((left_bigO.pow 2).trans (powone 2 (by norm_num))).const_mul_left _)).add
      (((left_bigO.pow 3).trans (powone 3 (by norm_num))).const_mul_left _)
  have Ph' : P' =O[cofinite] fun n => ‖x n‖ + ‖y n‖ :=
    (right_bigO.sub (((right_bigO.pow 2).trans (powone 2 (by norm_num))).const_mul_left _)).add
      (((right_bigO.pow 3).trans (powone 3 (by norm_num))).const_mul_left _)
  have Gh' : G' =O[cofinite] fun n => ‖x n‖ + ‖y n‖ := by
    have := (Rh'.trans (powone 4 (by norm_num))).add Ph'
    simpa using this
  have t1 : (fun n => (G n - P n) * G' n) =O[cofinite] fun n => (‖x n‖ + ‖y n‖) ^ 5 := by
    simpa only [← pow_succ] using Rh.mul Gh'
  have t2 : (fun n => P n * (G' n - P' n)) =O[cofinite] fun n => (‖x n‖ + ‖y n‖) ^ 5 := by
    simpa only [← pow_succ'] using Ph.mul Rh'
  have t3 := mono_bigO hx hy (-(a * b' : ℂ)) 2 3 (by norm_num)
  have t4 := mono_bigO hx hy (-(b * a' : ℂ)) 3 2 (by norm_num)
  have t5 := mono_bigO hx hy (b * b' : ℂ) 3 3 (by norm_num)
  refine ((((t1.add t2).add t3).add t4).add t5).congr (fun n => ?_) (fun n => rfl)
  simp only [hP, hP']
  push_cast
  ring

/-- averages over a mesh of pairs of momenta -/
theorem mesh_bigO {ι : Type} (S : Finset ι) (hS : S.Nonempty) (mu s0 m : ℝ) (e e' : ι → ℝ) (hx : Tendsto x cofinite (𝓝 0))
    (hy : Tendsto y cofinite (𝓝 0)) (hx0 : ∀ n, x n ≠ 0) (hy0 : ∀ n, y n ≠ 0) (G G' : ι → ℤ → ℂ)
    (hG : ∀ l, G l =ᶠ[cofinite] fun n => tailGreen mu s0 m (e l) (x n)) (hG' : ∀ l, G' l =ᶠ[cofinite] fun n => tailGreen mu s0 m (e' l) (y n))
    (he : ∑ l ∈ S, e l = 0) (he' : ∑ l ∈ S, e' l = 0) (h2 : ∑ l ∈ S, e' l ^ 2 = ∑ l ∈ S, e l ^ 2) :
    (fun n => (∑ l ∈ S, G l n * G' l n) / (S.card : ℂ) - tailForm ⟨mu - s0, (mu - s0) ^ 2 + (∑ l ∈ S, e l ^ 2) / S.card - m,
      (mu - s0) ^ 2 + (∑ l ∈ S, e l * e' l) / S.card⟩ (x n) (y n)) =O[cofinite] fun n => (‖x n‖ + ‖y n‖) ^ 5 := by
  have hc : (S.card : ℝ) ≠ 0 := by exact_mod_cast hS.card_pos.ne'
  have hcc : (S.card : ℂ) ≠ 0 := by exact_mod_cast hS.card_pos.ne'
  have h := (IsBigO.sum (s := S) fun l _ => pair_bigO mu s0 m (e l) (e' l) hx hy hx0 hy0 (G l) (G' l) (hG l) (hG' l)).const_mul_left (1 / (S.card : ℂ))
  refine h.congr (fun n => ?_) (fun n => rfl)
  rw [Finset.sum_apply, Finset.sum_sub_distrib, mul_sub]
  congr 1
  · ring
  · rw [Finset.sum_add_distrib, Finset.sum_add_distrib, Finset.sum_sub_distrib, Finset.sum_add_distrib, Finset.sum_add_distrib]
    simp only [← Finset.sum_mul, Finset.sum_const, nsmul_eq_mul, ← Complex.ofReal_sum]
    have f1 : ∑ l ∈ S, (mu - s0 - e l) = S.card * (mu - s0) := by
      rw [Finset.sum_sub_distrib, he, Finset.sum_const, nsmul_eq_mul, sub_zero]
    have f1' : ∑ l ∈ S, (mu - s0 - e' l) = S.card * (mu - s0) := by
      rw [Finset.sum_sub_distrib, he', Finset.sum_const, nsmul_eq_mul, sub_zero]
    have f2 : ∑ l ∈ S, ((mu - s0 - e l) ^ 2 - m) = S.card * ((mu - s0) ^ 2 - m) + ∑ l ∈ S, e l ^ 2 := by
      have : ∀ l, (mu - s0 - e l) ^ 2 - m = ((mu - s0) ^ 2 - m) - 2 * (mu - s0) * e l + e l ^ 2 := fun l => by ring
      simp only [this, Finset.sum_add_distrib, Finset.sum_sub_distrib, ← Finset.mul_sum, he, Finset.sum_const, nsmul_eq_mul]; ring
    have f2' : ∑ l ∈ S, ((mu - s0 - e' l) ^ 2 - m) = S.card * ((mu - s0) ^ 2 - m) + ∑ l ∈ S, e l ^ 2 := by
      have : ∀ l, (mu - s0 - e' l) ^ 2 - m = ((mu - s0) ^ 2 - m) - 2 * (mu - s0) * e' l + e' l ^ 2 := fun l => by ring
      simp only [this, Finset.sum_add_distrib, Finset.sum_sub_distrib, ← Finset.mul_sum, he', h2, Finset.sum_const, nsmul_eq_mul]; ring
    have f3 : ∑ l ∈ S, (mu - s0 - e l) * (mu - s0 - e' l) = S.card * (mu - s0) ^ 2 + ∑ l ∈ S, e l * e' l := by
      have : ∀ l, (mu - s0 - e l) * (mu - s0 - e' l) = (mu - s0) ^ 2 - (mu - s0) * e l - (mu - s0) * e' l + e l * e' l := fun l => by ring
      simp only [this, Finset.sum_add_distrib, Finset.sum_sub_distrib, ← Finset.mul_sum, he, he', Finset.sum_const, nsmul_eq_mul]; ring
    rw [f1, f1', f2, f2', f3]
    unfold tailForm
    push_cast
    field_simp
    ring

theorem bigO_uniform (g : ℤ → ℂ) (hx0 : ∀ n, x n ≠ 0) (h : g =O[cofinite] fun n => (‖x n‖ + ‖y n‖) ^ 5) :
    ∃ C, ∀ n, ‖g n‖ ≤ C * (‖x n‖ + ‖y n‖) ^ 5 := by
  rw [isBigO_cofinite_iff] at h
  · obtain ⟨C, hC⟩ := h
    refine ⟨C, fun n => ?_⟩
    have := hC n
    rwa [Real.norm_eq_abs, abs_of_nonneg (by positivity)] at this
  · intro n hn
    have : 0 < ‖x n‖ := norm_pos_iff.mpr (hx0 n)
    exact absurd hn (by positivity)

end order

theorem invIv_shift_tendsto (beta : ℝ) (s : ℤ) : Tendsto (fun n : ℤ => invIv beta (n + s)) cofinite (𝓝 0) :=
  invIv_tendsto.comp (Function.Injective.tendsto_cofinite (f := fun n : ℤ => n + s) fun a b hab => by simpa using hab)

theorem eventually_shift {g h : ℤ → ℂ} (e : g =ᶠ[cofinite] h) (s : ℤ) : (fun n : ℤ => g (n + s)) =ᶠ[cofinite] fun n => h (n + s) :=
  (Function.Injective.tendsto_cofinite (f := fun n : ℤ => n + s) fun a b hab => by simpa using hab).eventually e

theorem sum_range_list {K : Type} [AddCommMonoid K] (n : ℕ) (F : ℕ → K) : ((List.range n).map F).sum = ∑ l ∈ Finset.range n, F l := by
  induction n with
  | zero => simp
  | succ n ih => rw [List.range_succ, List.map_append, List.sum_append, ih, Finset.sum_range_succ]; simp

/-- the average of a table as a finite sum -/
theorem sum_flat3 {K : Type} [AddCommMonoid K] (nx ny nz : ℕ) (F : ℕ → ℕ → ℕ → K) :
    (flat3 (table nx ny nz F)).sum = ∑ l ∈ Finset.range (nx * ny * nz), F (l / nz / ny) (l / nz % ny) (l % nz) := by
  rw [flat3_table, sum_range_list]

/-- C82 (d): for Green's functions that follow the moments of the self-energy at high frequency, and a dispersion of zero average,
    the momentum-averaged product of `G(k)` and `G(k+q)` agrees with the subtracted asymptotic form up to fifth order -/
theorem lattice_product_order (beta : ℝ) (hb : beta ≠ 0) (mu smom0 smom1 : ℝ) (nx ny nz : ℕ) (hn : 0 < nx * ny * nz) (e : ℕ → ℕ → ℕ → ℝ)
    (G : ℕ → ℕ → ℕ → ℤ → ℂ) (hG : ∀ i j k, ∀ᶠ n in cofinite, G i j k n = tailGreen mu smom0 smom1 (e i j k) (invIv beta n))
    (hmean : meanList (flat3 (table nx ny nz e)) = 0) (q : Int × Int × Int) (s : Int × Int) :
    ∃ C, ∀ n : ℤ, ‖(flat3 (table nx ny nz fun i j k : ℕ => G i j k (n + s.1) *
        G (((i : Int) + q.1) % nx).toNat (((j : Int) + q.2.1) % ny).toNat (((k : Int) + q.2.2) % nz).toNat (n + s.2))).sum / ((nx * ny * nz : ℕ) : ℂ)
      - tailForm (facsQ mu smom0 smom1 (table nx ny nz e) q) (invIv beta (n + s.1)) (invIv beta (n + s.2))‖
      ≤ C * (‖invIv beta (n + s.1)‖ + ‖invIv beta (n + s.2)‖) ^ 5 := by
  have hne : ((nx * ny * nz : ℕ) : ℝ) ≠ 0 := by exact_mod_cast hn.ne'
  set e' : ℕ → ℕ → ℕ → ℝ := fun i j k => e (((i : Int) + q.1) % nx).toNat (((j : Int) + q.2.1) % ny).toNat (((k : Int) + q.2.2) % nz).toNat with he'
  have hlen : ∀ F : ℕ → ℕ → ℕ → ℝ, (flat3 (table nx ny nz F)).length = nx * ny * nz := by
    intro F; rw [flat3_table]; simp
  have h0 : (flat3 (table nx ny nz e)).sum = 0 := by
    unfold meanList at hmean
    rw [hlen, div_eq_zero_iff] at hmean
    exact hmean.resolve_right hne
  have hshift : ∀ F : ℕ → ℕ → ℕ → ℝ, (flat3 (table nx ny nz fun i j k : ℕ => F (((i : Int) + q.1) % nx).toNat (((j : Int) + q.2.1) % ny).toNat
      (((k : Int) + q.2.2) % nz).toNat)).sum = (flat3 (table nx ny nz F)).sum := by
    intro F
    have := sum_shift nx ny nz F (-q.1) (-q.2.1) (-q.2.2)
    simpa only [sub_neg_eq_add] using this
  have h0' : (flat3 (table nx ny nz e')).sum = 0 := by rw [he', hshift e, h0]
  have h2 := hshift fun i j k => e i j k ^ 2
  rw [sum_flat3] at h0 h0'
  rw [sum_flat3, sum_flat3] at h2
  have hf : facsQ mu smom0 smom1 (table nx ny nz e) q = ⟨mu - smom0,
      (mu - smom0) ^ 2 + (∑ l ∈ Finset.range (nx * ny * nz), e (l / nz / ny) (l / nz % ny) (l % nz) ^ 2) / ((Finset.range (nx * ny * nz)).card : ℝ) - smom1,
      (mu - smom0) ^ 2 + (∑ l ∈ Finset.range (nx * ny * nz), e (l / nz / ny) (l / nz % ny) (l % nz) * e' (l / nz / ny) (l / nz % ny) (l % nz)) /
        ((Finset.range (nx * ny * nz)).card : ℝ)⟩ := by
    unfold facsQ ekEkpq meanList
    rw [shift_table, flat3_table, flat3_table, List.zipWith_map, List.zipWith_self, List.map_map, List.length_map, List.length_map,
      List.length_range, Finset.card_range, ← sum_range_list, ← sum_range_list]
    simp only [sub_neg_eq_add, he']
    rfl
  rw [hf]
  have hm := mesh_bigO (Finset.range (nx * ny * nz)) (Finset.nonempty_range_iff.mpr hn.ne') mu smom0 smom1
    (fun l => e (l / nz / ny) (l / nz % ny) (l % nz)) (fun l => e' (l / nz / ny) (l / nz % ny) (l % nz))
    (invIv_shift_tendsto beta s.1) (invIv_shift_tendsto beta s.2) (fun n => invIv_ne hb _) (fun n => invIv_ne hb _)
    (fun l n => G (l / nz / ny) (l / nz % ny) (l % nz) (n + s.1))
    (fun l n => G ((((l / nz / ny : ℕ) : Int) + q.1) % nx).toNat ((((l / nz % ny : ℕ) : Int) + q.2.1) % ny).toNat ((((l % nz : ℕ) : Int) + q.2.2) % nz).toNat (n + s.2))
    (fun l => eventually_shift (hG _ _ _) s.1) (fun l => eventually_shift (hG _ _ _) s.2) h0 h0' h2
  obtain ⟨C, hC⟩ := bigO_uniform _ (fun n => invIv_ne hb _) hm
  refine ⟨C, fun n => ?_⟩
  rw [sum_flat3]
  simpa only [Finset.card_range] using hC n

/-- C82 (d'): the same for the local bubble, with the momentum-averaged Green's function -/
theorem local_product_order (beta : ℝ) (hb : beta ≠ 0) (mu smom0 smom1 : ℝ) (nx ny nz : ℕ) (hn : 0 < nx * ny * nz) (e : ℕ → ℕ → ℕ → ℝ)
    (G : ℕ → ℕ → ℕ → ℤ → ℂ) (hG : ∀ i j k, ∀ᶠ n in cofinite, G i j k n = tailGreen mu smom0 smom1 (e i j k) (invIv beta n))
    (hmean : meanList (flat3 (table nx ny nz e)) = 0) (s : Int × Int) (Gloc : ℤ → ℂ)
    (hloc : ∀ n, Gloc n = (flat3 (table nx ny nz fun i j k => G i j k n)).sum / ((nx * ny * nz : ℕ) : ℂ)) :
    ∃ C, ∀ n : ℤ, ‖Gloc (n + s.1) * Gloc (n + s.2) - tailForm (facsLoc mu smom0 smom1 (table nx ny nz e)) (invIv beta (n + s.1)) (invIv beta (n + s.2))‖
      ≤ C * (‖invIv beta (n + s.1)‖ + ‖invIv beta (n + s.2)‖) ^ 5 := by
  have hne : ((nx * ny * nz : ℕ) : ℝ) ≠ 0 := by exact_mod_cast hn.ne'
  have hnc : ((nx * ny * nz : ℕ) : ℂ) ≠ 0 := by exact_mod_cast hn.ne'
  have hlen : ∀ F : ℕ → ℕ → ℕ → ℝ, (flat3 (table nx ny nz F)).length = nx * ny * nz := by
    intro F; rw [flat3_table]; simp
  have h0 : (flat3 (table nx ny nz e)).sum = 0 := by
    unfold meanList at hmean
    rw [hlen, div_eq_zero_iff] at hmean
    exact hmean.resolve_right hne
  rw [sum_flat3] at h0
  set R := Finset.range (nx * ny * nz) with hR
  set el : ℕ → ℝ := fun l => e (l / nz / ny) (l / nz % ny) (l % nz) with hel
  have hcard : (R ×ˢ R).card = (nx * ny * nz) * (nx * ny * nz) := by rw [Finset.card_product, hR, Finset.card_range]
  have hRn : R.Nonempty := Finset.nonempty_range_iff.mpr hn.ne'
  have p1 : ∑ l ∈ R ×ˢ R, el l.1 = 0 := by
    rw [Finset.sum_product]; simp only [Finset.sum_const, ← Finset.smul_sum]; rw [show ∑ l ∈ R, el l = 0 from h0, smul_zero]
  have p2 : ∑ l ∈ R ×ˢ R, el l.2 = 0 := by
    rw [Finset.sum_product]; simp only [show ∑ l ∈ R, el l = 0 from h0, Finset.sum_const_zero]
  have q1 : ∑ l ∈ R ×ˢ R, el l.1 ^ 2 = (nx * ny * nz : ℕ) * ∑ l ∈ R, el l ^ 2 := by
    rw [Finset.sum_product]; simp only [Finset.sum_const, hR, Finset.card_range, nsmul_eq_mul, Finset.mul_sum]
  have q2 : ∑ l ∈ R ×ˢ R, el l.2 ^ 2 = (nx * ny * nz : ℕ) * ∑ l ∈ R, el l ^ 2 := by
    rw [Finset.sum_product]; simp only [Finset.sum_const, hR, Finset.card_range, nsmul_eq_mul]
  have q3 : ∑ l ∈ R ×ˢ R, el l.1 * el l.2 = 0 := by
    rw [Finset.sum_product]; simp only [← Finset.mul_sum, show ∑ l ∈ R, el l = 0 from h0, mul_zero, Finset.sum_const_zero]
  have hm := mesh_bigO (R ×ˢ R) (hRn.product hRn) mu smom0 smom1 (fun l => el l.1) (fun l => el l.2)
    (invIv_shift_tendsto beta s.1) (invIv_shift_tendsto beta s.2) (fun n => invIv_ne hb _) (fun n => invIv_ne hb _)
    (fun l n => G (l.1 / nz / ny) (l.1 / nz % ny) (l.1 % nz) (n + s.1))
    (fun l n => G (l.2 / nz / ny) (l.2 / nz % ny) (l.2 % nz) (n + s.2))
    (fun l => eventually_shift (hG _ _ _) s.1) (fun l => eventually_shift (hG _ _ _) s.2) p1 p2 (by rw [q1, q2])
  have hf : facsLoc mu smom0 smom1 (table nx ny nz e) = ⟨mu - smom0,
      (mu - smom0) ^ 2 + (∑ l ∈ R ×ˢ R, el l.1 ^ 2) / ((R ×ˢ R).card : ℝ) - smom1,
      (mu - smom0) ^ 2 + (∑ l ∈ R ×ˢ R, el l.1 * el l.2) / ((R ×ˢ R).card : ℝ)⟩ := by
    unfold facsLoc
    rw [hmean, q1, q3, hcard, zero_div]
    congr 1
    · unfold meanList
      rw [flat3_table, List.map_map, List.length_map, List.length_range, sum_range_list]
      push_cast at hne ⊢
      congr 2
      rw [mul_div_mul_left _ _ hne]
      rfl
    · ring
  obtain ⟨C, hC⟩ := bigO_uniform _ (fun n => invIv_ne hb _) hm
  refine ⟨C, fun n => ?_⟩
  rw [hf]
  have h := hC n
  beta_reduce at h
  have eG : Gloc (n + s.1) * Gloc (n + s.2) = (∑ l ∈ R ×ˢ R, G (l.1 / nz / ny) (l.1 / nz % ny) (l.1 % nz) (n + s.1) *
      G (l.2 / nz / ny) (l.2 / nz % ny) (l.2 % nz) (n + s.2)) / ((R ×ˢ R).card : ℂ) := by
    rw [hloc, hloc, sum_flat3, sum_flat3, Finset.sum_product, hcard]
    dsimp only
    rw [← Finset.sum_mul_sum]
    push_cast
    rw [div_mul_div_comm]
  rw [eG]
  exact h

/-- C82 (c'): the corrected momentum-dependent bubble differs from the complete Matsubara sum exactly by what the averaged product of the
    Green's functions and its asymptotic form differ outside the window -/
theorem chi0q_corrected_error (beta : ℝ) (hb : beta ≠ 0) (f : Facs) (nx ny nz : ℕ) (G : ℕ → ℕ → ℕ → ℤ → ℂ) (N niv : ℕ) (w : List Int) (nt : String)
    (sh : Int → Int × Int) (hs : ∀ x ∈ w, getFreqShift x nt = some (sh x)) (hfit : ∀ x ∈ w, x.natAbs + niv ≤ N)
    (hw : ∀ x ∈ w, x.natAbs ≤ w.length) (q : Int × Int × Int) (gg : Int → ℤ → ℂ)
    (hgg : ∀ x n, gg x n = -1 / (beta : ℂ) * ((flat3 (table nx ny nz fun i j k : ℕ => G i j k (n + (sh x).1) *
        G (((i : Int) + q.1) % nx).toNat (((j : Int) + q.2.1) % ny).toNat (((k : Int) + q.2.2) % nz).toNat (n + (sh x).2))).sum / ((nx * ny * nz : ℕ) : ℂ)))
    (chi : Int → ℂ) (hchi : ∀ x ∈ w, HasSum (gg x) (chi x)) :
    ((w.mapM fun x => getChi0Q (table nx ny nz fun i j k => samplesF (G i j k) N) (2 * N) (beta : ℂ) niv x q nt).bind fun core =>
      (asymptCorrectionQ beta f niv w nt).map fun c => List.zipWith (· + ·) core c) =
      some (w.map fun (x : Int) => chi x - outside niv fun n => gg x n - tailTerm beta f (sh x) n) := by
  rw [mapM_some' w (fun x => ∑ n ∈ Finset.Ico (-(niv : ℤ)) niv, gg x n) _ ?_, Option.bind_some,
    correctionQ_is_outside beta hb f niv w nt sh hs hw, Option.map_some]
  · congr 1
    rw [List.zipWith_map, List.zipWith_self]
    refine List.map_congr_left fun x hx => ?_
    have h1 := outside_eq niv _ _ (hchi x hx)
    have h2 := exact_asymptotics_hasSum beta hb f x nt (sh x) (hs x hx)
    have h3 := outside_eq niv _ _ h2
    have h4 := outside_eq niv _ _ ((hchi x hx).sub h2)
    rw [Finset.sum_sub_distrib] at h4
    rw [← h4, ← h3]
    ring
  · intro x hx
    obtain ⟨b1, b2⟩ := shift_bound x nt (sh x) (hs x hx)
    have := hfit x hx
    unfold getChi0Q
    rw [hs x hx, Option.bind_some, prodQ_value nx ny nz G N niv (sh x) q (by omega) (by omega), Option.map_some, kMeanRows_samples, sum_samplesF,
      Finset.mul_sum]
    congr 1
    exact Finset.sum_congr rfl fun n _ => (hgg x n).symm

/-- the padding of the momentum version counts the frequencies instead of looking at their size: one bosonic frequency with index above one
    raises (unless the clipped slice has length one, where numpy broadcasts) -/
theorem correctionQ_single_raises (beta : ℝ) (f : Facs) (niv : ℕ) (x : ℕ) (hx : 1 < x) (_hx' : x ≠ 2 * niv) (hn : 0 < niv) :
    asymptCorrectionQ beta f niv [(x : Int)] "plus" = none := by
  unfold asymptCorrectionQ asymptSumQ
  have : asymptSumW beta f niv 1 (x : Int) "plus" = none := by
    unfold asymptSumW
    have hv : (vn (niv + 1)).map (invIv beta) = samplesF (invIv beta) (niv + 1) := rfl
    simp only [hv, samplesF_length, show 2 * (niv + 1) / 2 = niv + 1 by omega, getFreqShift, if_true, Option.bind_some]
    have h0 := slice_samplesF (invIv beta) (niv + 1) niv 0 (by simp)
    rw [h0, samplesF_length, if_neg]
    have hle : (Py.slice (samplesF (invIv beta) (niv + 1)) (((niv + 1 : ℕ) : Int) - niv + x) (((niv + 1 : ℕ) : Int) + niv + x)).length
        ≤ 2 * niv + 1 - x := by
      unfold Py.slice
      rw [List.length_take, List.length_drop, samplesF_length]
      refine (min_le_right _ _).trans ?_
      unfold Py.clip
      split <;> omega
    omega
  simp [this]

end

end DGA.Bubble
