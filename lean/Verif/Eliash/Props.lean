import Verif.Eliash.Model
import Mathlib.Tactic.FieldSimp
import Mathlib.Tactic.Ring
import Mathlib.Tactic.Linarith

/-
  C34 – C36 and C52: the linearised Eliashberg equation.
-/

open scoped BigOperators ComplexConjugate

namespace DGA.Eli

/-! ### C34: Gram–Schmidt -/

section GS
variable {ι : Type _} [Fintype ι]

theorem dot_self_ne_zero {u : ι → ℂ} (h : u ≠ 0) : dot u u ≠ 0 := by
  intro h0
  apply h
  funext i
  have e : dot u u = ((∑ i, Complex.normSq (u i) : ℝ) : ℂ) := by
    simp only [dot, Complex.ofReal_sum]
    exact Finset.sum_congr rfl fun i _ => by rw [mul_comm, Complex.mul_conj]
  rw [e] at h0
  have h1 : (∑ i, Complex.normSq (u i)) = 0 := by exact_mod_cast h0
  have := (Finset.sum_eq_zero_iff_of_nonneg (fun i _ => Complex.normSq_nonneg (u i))).mp h1 i (Finset.mem_univ i)
  simpa using this

theorem foldl_sub (v : ι → ℂ) : ∀ (basis : List (ι → ℂ)) (acc : ι → ℂ),
    basis.foldl (fun acc u => fun i => acc i - proj v u i) acc = fun i => acc i - (basis.map fun u => proj v u i).sum
  | [], acc => by simp
  | u :: b, acc => by
    rw [List.foldl_cons, foldl_sub v b]
    funext i
    simp only [List.map_cons, List.sum_cons]; ring

theorem dot_sub (w a b : ι → ℂ) : dot w (fun i => a i - b i) = dot w a - dot w b := by
  simp only [dot, mul_sub, Finset.sum_sub_distrib]

theorem dot_add (w a b : ι → ℂ) : dot w (fun i => a i + b i) = dot w a + dot w b := by
  simp only [dot, mul_add, Finset.sum_add_distrib]

theorem dot_smul (w a : ι → ℂ) (c : ℂ) : dot w (fun i => c * a i) = c * dot w a := by
  simp only [dot, Finset.mul_sum]
  exact Finset.sum_congr rfl fun i _ => by ring

theorem dot_list_sum (w v : ι → ℂ) : ∀ basis : List (ι → ℂ),
    dot w (fun i => (basis.map fun u => proj v u i).sum) = (basis.map fun u => dot u v / dot u u * dot w u).sum
  | [] => by simp [dot]
  | u :: b => by
    have := dot_list_sum w v b
    simp only [List.map_cons, List.sum_cons]
    rw [dot_add, this]
    have : dot w (fun i => proj v u i) = dot u v / dot u u * dot w u := by
      simp only [proj]; exact dot_smul w u _
    rw [this]

theorem dot_conj (u v : ι → ℂ) : dot u v = conj (dot v u) := by
  simp only [dot, map_sum, map_mul, Complex.conj_conj]
  exact Finset.sum_congr rfl fun i _ => by ring

theorem sum_orth (w v : ι → ℂ) : ∀ basis : List (ι → ℂ), basis.Pairwise (fun a b => dot a b = 0) → w ∈ basis →
    w ≠ 0 → (basis.map fun u => dot u v / dot u u * dot w u).sum = dot w v
  | [], _, h, _ => by simp at h
  | u :: b, hp, hw, h0 => by
    rw [List.pairwise_cons] at hp
    simp only [List.map_cons, List.sum_cons]
    by_cases e : w = u
    · subst e
      have hz : (b.map fun u => dot u v / dot u u * dot w u).sum = 0 := by
        apply List.sum_eq_zero
        intro x hx
        obtain ⟨u', hu', rfl⟩ := List.mem_map.mp hx
        rw [hp.1 u' hu', mul_zero]
      rw [hz, add_zero, div_mul_cancel₀ _ (dot_self_ne_zero h0)]
    · have hwb : w ∈ b := by
        rcases List.mem_cons.mp hw with h | h
        · exact absurd h e
        · exact h
      have : dot w u = 0 := by rw [dot_conj, hp.1 w hwb, map_zero]
      rw [this, mul_zero, zero_add]
      exact sum_orth w v b hp.2 hwb h0

/-- With mutually orthogonal, non-zero stored vectors the result is orthogonal to each of them. -/
theorem gramSchmidt_orthogonal (v : ι → ℂ) (basis : List (ι → ℂ)) (hp : basis.Pairwise (fun a b => dot a b = 0))
    (h0 : ∀ u ∈ basis, u ≠ 0) : ∀ u ∈ basis, dot u (gramSchmidt v basis) = 0 := by
  intro u hu
  rw [gramSchmidt, foldl_sub, dot_sub, dot_list_sum, sum_orth u v basis hp hu (h0 u hu), sub_self]

/-- A vector orthogonal to all stored vectors is unchanged. -/
theorem gramSchmidt_fixed (v : ι → ℂ) (basis : List (ι → ℂ)) (h : ∀ u ∈ basis, dot u v = 0) :
    gramSchmidt v basis = v := by
  rw [gramSchmidt, foldl_sub]
  funext i
  have : (basis.map fun u => proj v u i).sum = 0 := by
    apply List.sum_eq_zero
    intro x hx
    obtain ⟨u, hu, rfl⟩ := List.mem_map.mp hx
    simp [proj, h u hu]
  rw [this, sub_zero]

/-- Gram–Schmidt is idempotent. -/
theorem gramSchmidt_idem (v : ι → ℂ) (basis : List (ι → ℂ)) (hp : basis.Pairwise (fun a b => dot a b = 0))
    (h0 : ∀ u ∈ basis, u ≠ 0) : gramSchmidt (gramSchmidt v basis) basis = gramSchmidt v basis :=
  gramSchmidt_fixed _ _ (gramSchmidt_orthogonal v basis hp h0)

/-- What is removed lies in the span of the stored vectors: the coefficients are `<u,v>/<u,u>`. -/
theorem gramSchmidt_span (v : ι → ℂ) (basis : List (ι → ℂ)) (i : ι) :
    gramSchmidt v basis i = v i - (basis.map fun u => dot u v / dot u u * u i).sum := by
  rw [gramSchmidt, foldl_sub]; rfl

/-- Without orthogonality of the stored vectors the result need not be orthogonal to them. -/
theorem gramSchmidt_needs_orthogonal : ∃ (v a b : Fin 2 → ℂ), a ≠ 0 ∧ b ≠ 0 ∧ dot a (gramSchmidt v [a, b]) ≠ 0 := by
  refine ⟨![1, 0], ![1, 0], ![1, 1], ?_, ?_, ?_⟩
  · intro h; have := congrFun h 0; simp at this
  · intro h; have := congrFun h 0; simp at this
  · simp [gramSchmidt, proj, dot, Fin.sum_univ_two]

example : ([![1, 0, 0], ![0, 1, 1]] : List (Fin 3 → ℂ)).Pairwise (fun a b => dot a b = 0) ∧
    ∀ u ∈ ([![1, 0, 0], ![0, 1, 1]] : List (Fin 3 → ℂ)), u ≠ 0 := by
  constructor
  · simp [dot, Fin.sum_univ_three]
  · intro u hu h
    simp only [List.mem_cons, List.not_mem_nil, or_false] at hu
    rcases hu with rfl | rfl
    · have := congrFun h 0; simp at this
    · have := congrFun h 1; simp at this

end GS

/-! ### C35: power iteration -/

section Power
variable {ι : Type _} [Fintype ι] (A : (ι → ℂ) → ι → ℂ)

/-- The loop is left after at most `max_count + 1` passes, whatever the kernel and the start vector. -/
theorem powerIteration_count (basis : List (ι → ℂ)) (lamS : Option ℂ) (eps : ℝ) (maxCount : Nat) (gap0 : ι → ℂ) :
    1 ≤ (powerIteration A basis lamS eps maxCount gap0).count ∧
    (powerIteration A basis lamS eps maxCount gap0).count ≤ maxCount + 1 := by
  have : ∀ (n : Nat) (g : ι → ℂ) (l : ℂ), 1 ≤ (powerLoop A basis lamS eps n g l).count ∧
      (powerLoop A basis lamS eps n g l).count ≤ n + 1 := by
    intro n
    induction n with
    | zero => intro g l; simp [powerLoop]
    | succ n ih =>
      intro g l
      unfold powerLoop
      dsimp only
      split
      · simp
      · have := ih (nextGap A lamS (gramSchmidt g basis)) (rayleigh A lamS (gramSchmidt g basis))
        dsimp only; omega
  exact this maxCount gap0 1

omit [Fintype ι] in
theorem shifted_eq (lamS : Option ℂ) (x : ι → ℂ) : shifted A lamS x = fun i => A x i - x i * lamS.getD 0 := by
  cases lamS <;> simp [shifted]

theorem powerLoop_last (basis : List (ι → ℂ)) (lamS : Option ℂ) (eps : ℝ) : ∀ (n : Nat) (g : ι → ℂ) (l : ℂ),
    (powerLoop A basis lamS eps n g l).lam = rayleigh A lamS (powerLoop A basis lamS eps n g l).last ∧
    (powerLoop A basis lamS eps n g l).gap = nextGap A lamS (powerLoop A basis lamS eps n g l).last ∧
    ∃ g', (powerLoop A basis lamS eps n g l).last = gramSchmidt g' basis := by
  intro n
  induction n with
  | zero => intro g l; exact ⟨rfl, rfl, g, rfl⟩
  | succ n ih =>
    intro g l
    unfold powerLoop
    dsimp only
    split
    · exact ⟨rfl, rfl, g, rfl⟩
    · exact ih _ _

/-- Every reported eigenvalue is, for any kernel and any start, the Rayleigh quotient of the *unshifted* kernel at a
    vector `x` (the orthogonalised iterate of the last pass), and the reported gap solves
    `A x = (lam - s) gap + s x` with the internal shift `s`. -/
theorem reported_is_unshifted (shiftMat : Bool) (eps : ℝ) (maxCount : Nat) (gap0 gap0s : ι → ℂ) (nEig : Nat)
    (lam : ℂ) (gap : ι → ℂ) (h : (lam, gap) ∈ getEig A shiftMat eps maxCount gap0 gap0s nEig) :
    ∃ x s, (shiftMat = false → s = 0) ∧ (dot x x ≠ 0 → lam = dot x (A x) / dot x x) ∧
      (lam ≠ s → ∀ i, A x i = (lam - s) * gap i + s * x i) := by
  simp only [getEig, List.mem_map] at h
  obtain ⟨r, hr, heq⟩ := h
  have hs0 : shiftMat = false → (shiftOf A shiftMat eps maxCount gap0s).getD 0 = 0 := by
    rintro rfl; simp [shiftOf]
  generalize shiftOf A shiftMat eps maxCount gap0s = lamS at *
  have hr2 : ∃ basis, r = powerIteration A basis lamS eps maxCount gap0 := by
    clear heq
    induction nEig with
    | zero => simp [eigRuns] at hr
    | succ n ih =>
      simp only [eigRuns, List.mem_append, List.mem_singleton] at hr
      rcases hr with hr | hr
      · exact ih hr
      · exact ⟨_, hr⟩
  obtain ⟨basis, hrb⟩ := hr2
  obtain ⟨h1, h2, _⟩ := powerLoop_last A basis lamS eps maxCount gap0 1
  change r = powerLoop A basis lamS eps maxCount gap0 1 at hrb
  rw [← hrb] at h1 h2
  have hlam : lam = r.lam + lamS.getD 0 := by
    have := congrArg Prod.fst heq
    simp only at this
    rw [← this]
    cases lamS <;> simp
  have hgap : gap = r.gap := (congrArg Prod.snd heq).symm
  refine ⟨r.last, lamS.getD 0, hs0, ?_, ?_⟩
  · intro hx
    rw [hlam, h1, rayleigh, shifted_eq, dot_sub]
    have : dot r.last (fun i => r.last i * lamS.getD 0) = lamS.getD 0 * dot r.last r.last := by
      rw [← dot_smul]; congr 1; funext i; ring
    rw [this]
    field_simp
    ring
  · intro hne i
    have hr0 : r.lam ≠ 0 := by
      intro h0; apply hne; rw [hlam, h0, zero_add]
    have e : gap i = (A r.last i - r.last i * lamS.getD 0) / r.lam := by
      rw [hgap, h2, nextGap, shifted_eq, ← h1]
    rw [e, hlam]
    field_simp
    ring

omit [Fintype ι] in
/-- If moreover the reported gap is a fixed point of the iteration (it equals the vector it was computed from), it is
    an eigenvector of the unshifted kernel with the reported eigenvalue. -/
theorem fixed_point_is_eigenvector (lam s : ℂ) (gap x : ι → ℂ)
    (h : ∀ i, A x i = (lam - s) * gap i + s * x i) (hfix : gap = x) : A x = fun i => lam * x i := by
  funext i; rw [h i, hfix]; ring

/-- Started at an exact eigenvector (orthogonal to the stored gaps) the iteration returns it with its eigenvalue,
    reduced by the shift. -/
theorem eigenvector_start (basis : List (ι → ℂ)) (lamS : Option ℂ) (eps : ℝ) (maxCount : Nat) (v : ι → ℂ) (l : ℂ)
    (hv : v ≠ 0) (hA : A v = fun i => l * v i) (horth : ∀ u ∈ basis, dot u v = 0) (hl : l - lamS.getD 0 ≠ 0) :
    (powerIteration A basis lamS eps maxCount v).lam = l - lamS.getD 0 ∧
    (powerIteration A basis lamS eps maxCount v).gap = v := by
  have hd := dot_self_ne_zero hv
  have hgs := gramSchmidt_fixed v basis horth
  have hnew : shifted A lamS v = fun i => (l - lamS.getD 0) * v i := by
    rw [shifted_eq, hA]; funext i; ring
  have hray : rayleigh A lamS v = l - lamS.getD 0 := by
    rw [rayleigh, hnew, dot_smul, mul_div_cancel_right₀ _ hd]
  have hnext : nextGap A lamS v = v := by
    funext i; rw [nextGap, hray, hnew]; field_simp
  have : ∀ (n : Nat) (l0 : ℂ), (powerLoop A basis lamS eps n v l0).lam = l - lamS.getD 0 ∧
      (powerLoop A basis lamS eps n v l0).gap = v := by
    intro n
    induction n with
    | zero => intro l0; simp only [powerLoop, hgs, hray, hnext, and_self]
    | succ n ih =>
      intro l0
      simp only [powerLoop, hgs, hray, hnext]
      split
      · exact ⟨rfl, rfl⟩
      · exact ih _
  exact this maxCount 1

/-- The public result: with an exact eigenvector as start gap and one requested eigenvalue, the solver reports the
    eigenvalue of the unshifted kernel and the start vector, with or without shift. -/
theorem getEig_eigenvector (shiftMat : Bool) (eps : ℝ) (maxCount : Nat) (v gap0s : ι → ℂ) (l : ℂ)
    (hv : v ≠ 0) (hA : A v = fun i => l * v i)
    (hl : l ≠ (shiftOf A shiftMat eps maxCount gap0s).getD 0) :
    getEig A shiftMat eps maxCount v gap0s 1 = [(l, v)] := by
  simp only [getEig, eigRuns, List.nil_append, List.map_cons, List.map_nil]
  generalize shiftOf A shiftMat eps maxCount gap0s = lamS at *
  obtain ⟨h1, h2⟩ := eigenvector_start A [] lamS eps maxCount v l hv hA (by simp) (sub_ne_zero.mpr hl)
  rw [h1, h2]
  cases lamS <;> simp

/-- The shift never exceeds zero (in numpy's ordering of complex numbers): a dominant positive eigenvalue is not
    subtracted. -/
theorem shift_not_positive (eps : ℝ) (maxCount : Nat) (gap0s : ι → ℂ) (s : ℂ)
    (h : shiftOf A true eps maxCount gap0s = some s) : s.re ≤ 0 := by
  simp only [shiftOf, if_true, Option.some.injEq] at h
  rw [← h]
  split
  · simp
  · rename_i hn
    simp only [gtZero, not_or, not_lt] at hn
    exact hn.1

example : ∃ (A : (Fin 2 → ℂ) → Fin 2 → ℂ) (v : Fin 2 → ℂ), v ≠ 0 ∧ A v = (fun i => 3 * v i) ∧
    (3 : ℂ) ≠ (shiftOf A false 1 5 v).getD 0 ∧ getEig A false 1 5 v v 1 = [(3, v)] := by
  have hv : (![1, 2] : Fin 2 → ℂ) ≠ 0 := by intro h; have := congrFun h 0; simp at this
  have hA : (fun w : Fin 2 → ℂ => fun i => 3 * w i) ![1, 2] = fun i => 3 * (![1, 2] : Fin 2 → ℂ) i := rfl
  have hs : (3 : ℂ) ≠ (shiftOf (fun w : Fin 2 → ℂ => fun i => 3 * w i) false 1 5 ![1, 2]).getD 0 := by simp [shiftOf]
  exact ⟨_, _, hv, hA, hs, getEig_eigenvector _ false 1 5 _ _ 3 hv hA hs⟩

end Power

/-! ### C52: the FFT kernel is the momentum sum -/

section Kernel
variable {nx ny nz nv : Nat} [NeZero nx] [NeZero ny] [NeZero nz]

theorem phase_eq {n : Nat} [NeZero n] (k x : ZMod n) : phase n k x = ZMod.stdAddChar (-(k * x)) := by
  have : (-(k * x) : ZMod n) = ((-((k.val : ℤ) * (x.val : ℤ)) : ℤ) : ZMod n) := by
    push_cast; simp
  rw [this, ZMod.stdAddChar_coe, phase]
  congr 1
  push_cast
  ring

theorem conj_phase {n : Nat} [NeZero n] (k x : ZMod n) : conj (phase n k x) = ZMod.stdAddChar (k * x) := by
  rw [phase, ← Complex.exp_conj]
  have : (k * x : ZMod n) = (((k.val : ℤ) * (x.val : ℤ) : ℤ) : ZMod n) := by push_cast; simp
  rw [this, ZMod.stdAddChar_coe]
  congr 1
  simp only [map_neg, map_div₀, map_mul, Complex.conj_I, Complex.conj_ofReal, map_ofNat, map_natCast]
  push_cast
  ring

/-- The 3-d character `exp(2 pi i k.x)`. -/
noncomputable def chr (k x : Grid nx ny nz) : ℂ :=
  ZMod.stdAddChar (k.1 * x.1) * ZMod.stdAddChar (k.2.1 * x.2.1) * ZMod.stdAddChar (k.2.2 * x.2.2)

theorem chr_add (k k' x : Grid nx ny nz) : chr (k + k') x = chr k x * chr k' x := by
  simp only [chr, Prod.fst_add, Prod.snd_add, add_mul, AddChar.map_add_eq_mul]; ring

theorem chr_comm (k x : Grid nx ny nz) : chr k x = chr x k := by
  simp only [chr, mul_comm]

theorem sum_chr (k : Grid nx ny nz) : ∑ x : Grid nx ny nz, chr k x = if k = 0 then (nx : ℂ) * ny * nz else 0 := by
  obtain ⟨a, b, c⟩ := k
  have h1 := AddChar.sum_mulShift (R' := ℂ) a (ZMod.isPrimitive_stdAddChar nx)
  have h2 := AddChar.sum_mulShift (R' := ℂ) b (ZMod.isPrimitive_stdAddChar ny)
  have h3 := AddChar.sum_mulShift (R' := ℂ) c (ZMod.isPrimitive_stdAddChar nz)
  have : ∑ x : Grid nx ny nz, chr (a, b, c) x =
      (∑ x : ZMod nx, ZMod.stdAddChar (x * a)) * ((∑ y : ZMod ny, ZMod.stdAddChar (y * b)) *
        ∑ z : ZMod nz, (ZMod.stdAddChar (z * c) : ℂ)) := by
    rw [Fintype.sum_prod_type, Finset.sum_mul]
    apply Finset.sum_congr rfl; intro x _
    rw [Fintype.sum_prod_type, Finset.sum_mul, Finset.mul_sum]
    apply Finset.sum_congr rfl; intro y _
    rw [Finset.mul_sum, Finset.mul_sum]
    apply Finset.sum_congr rfl; intro z _
    simp only [chr, mul_comm a x, mul_comm b y, mul_comm c z]; ring
  rw [this, h1, h2, h3]
  simp only [ZMod.card, Prod.mk_eq_zero]
  by_cases ha : a = 0 <;> by_cases hb : b = 0 <;> by_cases hc : c = 0 <;> simp [ha, hb, hc, mul_assoc]

theorem fftn_eq (a : Grid nx ny nz → ℂ) (x : Grid nx ny nz) : fftn a x = ∑ k, chr (-k) x * a k := by
  simp only [fftn, phase_eq, chr, Prod.fst_neg, Prod.snd_neg, neg_mul]

theorem ifftn_eq (a : Grid nx ny nz → ℂ) (x : Grid nx ny nz) :
    ifftn a x = 1 / ((nx : ℂ) * ny * nz) * ∑ k, chr k x * a k := by
  simp only [ifftn, conj_phase, chr]

/-- `ifftn` inverts `fftn`. -/
theorem ifftn_fftn (a : Grid nx ny nz → ℂ) : ifftn (fftn a) = a := by
  have hN : (nx : ℂ) * ny * nz ≠ 0 := by
    simp [NeZero.ne nx, NeZero.ne ny, NeZero.ne nz]
  funext k
  rw [ifftn_eq]
  simp only [fftn_eq, Finset.mul_sum]
  rw [Finset.sum_comm]
  have : ∀ q : Grid nx ny nz, ∑ x, 1 / ((nx : ℂ) * ny * nz) * (chr x k * (chr (-q) x * a q)) =
      if q = k then a q else 0 := by
    intro q
    have e : ∀ x : Grid nx ny nz, 1 / ((nx : ℂ) * ny * nz) * (chr x k * (chr (-q) x * a q)) =
        1 / ((nx : ℂ) * ny * nz) * a q * chr (k - q) x := by
      intro x
      rw [sub_eq_add_neg, chr_add, chr_comm x k]; ring
    simp only [e, ← Finset.mul_sum, sum_chr, sub_eq_zero, eq_comm (a := k)]
    split
    · rw [mul_comm, ← mul_assoc, mul_one_div_cancel hN, one_mul]
    · simp
  simp only [this]
  simp

/-- The kernel application is the sum over momenta and frequencies
    `(1/norm) * sum_{k',v'} Gamma(k'-k; v,v') |G(k',v')|^2 gap(k',v')`, for every grid. -/
theorem kernel_is_momentum_sum (gamma : Grid nx ny nz → Fin nv → Fin nv → ℂ) (gk : Grid nx ny nz → Fin nv → ℂ)
    (norm : ℂ) (gap : Grid nx ny nz × Fin nv → ℂ) (k : Grid nx ny nz) (v : Fin nv) :
    kernel gamma gk norm gap (k, v) =
      1 / norm * ∑ k' : Grid nx ny nz, ∑ v' : Fin nv,
        gamma (k' - k) v v' * ((‖gk k' v'‖ ^ 2 : ℝ) : ℂ) * gap (k', v') := by
  have hN : (nx : ℂ) * ny * nz ≠ 0 := by
    simp [NeZero.ne nx, NeZero.ne ny, NeZero.ne nz]
  -- one frequency
  have key : ∀ (g h : Grid nx ny nz → ℂ), ∑ x : Grid nx ny nz, chr (-x) k * (fftn g x * ifftn h x) =
      ∑ p : Grid nx ny nz, g (p - k) * h p := by
    intro g h
    simp only [fftn_eq, ifftn_eq, Finset.sum_mul]
    simp only [Finset.mul_sum]
    rw [Finset.sum_comm]
    have : ∀ q : Grid nx ny nz, (∑ x, ∑ p, chr (-x) k * (chr (-q) x * g q * (1 / ((nx : ℂ) * ny * nz) * (chr p x * h p)))) =
        g q * h (q + k) := by
      intro q
      rw [Finset.sum_comm]
      have e2 : ∀ p : Grid nx ny nz, (∑ x, chr (-x) k * (chr (-q) x * g q * (1 / ((nx : ℂ) * ny * nz) * (chr p x * h p)))) =
          if p = q + k then g q * h p else 0 := by
        intro p
        have e : ∀ x : Grid nx ny nz, chr (-x) k * (chr (-q) x * g q * (1 / ((nx : ℂ) * ny * nz) * (chr p x * h p))) =
            1 / ((nx : ℂ) * ny * nz) * (g q * h p) * chr (p - (q + k)) x := by
          intro x
          have : p - (q + k) = -k + (-q + p) := by abel
          have hneg : chr (-x) k = chr (-k) x := by
            rw [chr_comm]; simp only [chr, Prod.fst_neg, Prod.snd_neg, neg_mul, mul_neg]
          rw [this, chr_add, chr_add, hneg]; ring
        simp only [e, ← Finset.mul_sum, sum_chr, sub_eq_zero]
        split
        · rw [mul_comm, ← mul_assoc, mul_one_div_cancel hN, one_mul]
        · simp
      simp only [e2]
      simp
    rw [Finset.sum_congr rfl fun q _ => this q]
    exact Fintype.sum_equiv (Equiv.addRight k) _ _ fun q => by simp
  simp only [kernel]
  rw [fftn_eq]
  simp only [Finset.mul_sum]
  rw [Finset.sum_comm]
  conv_rhs => rw [Finset.sum_comm]
  apply Finset.sum_congr rfl; intro v' _
  have := key (fun k => gamma k v v') (fun k => gap (k, v') * ((‖gk k v'‖ ^ 2 : ℝ) : ℂ))
  have e : ∀ x : Grid nx ny nz, chr (-x) k * (1 / norm * (fftn (fun k => gamma k v v') x *
      ifftn (fun k => gap (k, v') * ((‖gk k v'‖ ^ 2 : ℝ) : ℂ)) x)) =
      1 / norm * (chr (-x) k * (fftn (fun k => gamma k v v') x *
      ifftn (fun k => gap (k, v') * ((‖gk k v'‖ ^ 2 : ℝ) : ℂ)) x)) := by intro x; ring
  simp only [e, ← Finset.mul_sum, this]
  simp only [Finset.mul_sum]
  apply Finset.sum_congr rfl; intro p _; ring

/-- For a vertex that is even in the momentum transfer this is the usual `Gamma(k - k')`. -/
theorem kernel_even (gamma : Grid nx ny nz → Fin nv → Fin nv → ℂ) (gk : Grid nx ny nz → Fin nv → ℂ)
    (norm : ℂ) (gap : Grid nx ny nz × Fin nv → ℂ) (heven : ∀ q v v', gamma (-q) v v' = gamma q v v')
    (k : Grid nx ny nz) (v : Fin nv) :
    kernel gamma gk norm gap (k, v) =
      1 / norm * ∑ k' : Grid nx ny nz, ∑ v' : Fin nv,
        gamma (k - k') v v' * ((‖gk k' v'‖ ^ 2 : ℝ) : ℂ) * gap (k', v') := by
  rw [kernel_is_momentum_sum]
  congr 1
  apply Finset.sum_congr rfl; intro k' _
  apply Finset.sum_congr rfl; intro v' _
  rw [← heven (k' - k), neg_sub]

end Kernel

end DGA.Eli
