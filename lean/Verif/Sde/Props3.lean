/-
  C30 continued: kernel form against channel form, additivity over the momentum list, one-point grid.
-/
import Verif.Sde.Props2

namespace DGA.Sde

open DGA.Mf DGA.Bz DGA.Bubble DGA.Opt

variable {K : Type} [Field K]

/-- entrywise combination of momentum-resolved self-energies (rows of the same length) -/
def combine (f : K → K → K) (a b : List (List K)) : List (List K) := List.zipWith (List.zipWith f) a b

omit [Field K] in
theorem combine_table (f : K → K → K) (nx ny nz n : Nat) (A B : Nat → Nat → Nat → Int → K) :
    combine f (flat3 (table nx ny nz fun i j k => samplesF (A i j k) n)) (flat3 (table nx ny nz fun i j k => samplesF (B i j k) n)) =
      flat3 (table nx ny nz fun i j k => samplesF (fun v => f (A i j k v) (B i j k v)) n) := by
  unfold combine
  rw [flat3_table, flat3_table, flat3_table, zipWith_range]
  apply List.map_congr_left
  intro l _
  unfold samplesF
  rw [List.zipWith_map, List.zipWith_self]

/-! ### kernels -/

/-- `u_r/2 (1 - (1 - u_r chi(q,w)) gamma(q,w,v))` -/
def kerSpec (ur : K) (V : Int × Int × Int → Int → Int → K) (C : Int × Int × Int → Int → K) (q : Int × Int × Int) (x v : Int) : K :=
  ur / 2 * (1 - (1 - ur * C q x) * V q x v)

theorem getKernel_value (V : Int × Int × Int → Int → Int → K) (C : Int × Int × Int → Int → K) (ur : K) (niv : Nat)
    (qs : List (Int × Int × Int)) (w : List Int) :
    getKernel (qs.map fun q => w.map fun x => samplesF (V q x) niv) (qs.map fun q => w.map (C q)) ur =
      some (qs.map fun q => w.map fun x => samplesF (kerSpec ur V C q x) niv) := by
  unfold getKernel
  rw [if_pos (by simp), List.zip, List.zipWith_map, List.zipWith_self, List.mapM_map]
  apply mapM_some
  intro q _
  simp only [Function.comp, List.length_map, if_true]
  rw [List.zipWith_map, List.zipWith_self]
  congr 1
  apply List.map_congr_left
  intro x _
  rw [samplesF_map]
  rfl

/-- `u_r sum_v' chi0(q,w,v') F(w,v,v')` -/
theorem getKernelDc_value (F : Int → Int → Int → K) (g0 : Int × Int × Int → Int → Int → K) (ur : K) (niv : Nat)
    (qs : List (Int × Int × Int)) (w : List Int) :
    getKernelDc (w.map fun x => (vn niv).map fun v => samplesF (F x v) niv) ur (qs.map fun q => w.map fun x => samplesF (g0 q x) niv) =
      some (qs.map fun q => w.map fun x => samplesF (fun v => ur * vSum niv fun v' => g0 q x v' * F x v v') niv) := by
  unfold getKernelDc
  rw [List.mapM_map]
  apply mapM_some
  intro q _
  simp only [Function.comp, List.length_map]
  apply mapM_pos
  intro j x hx
  simp only [List.getElem?_map, hx, Option.map_some, Option.bind_some]
  rw [List.mapM_map]
  unfold samplesF
  apply mapM_some
  intro v _
  have := mulRows_samplesF (g0 q x) (F x v) niv
  unfold samplesF at this
  rw [Function.comp, this]
  rfl

omit [Field K] in
theorem zipKer_value (f : K → K → K) (A B : Int × Int × Int → Int → Int → K) (niv : Nat) (qs : List (Int × Int × Int)) (w : List Int) :
    zipKer f (qs.map fun q => w.map fun x => samplesF (A q x) niv) (qs.map fun q => w.map fun x => samplesF (B q x) niv) =
      qs.map fun q => w.map fun x => samplesF (fun v => f (A q x v) (B q x v)) niv := by
  unfold zipKer
  rw [List.zipWith_map, List.zipWith_self]
  apply List.map_congr_left
  intro q _
  rw [List.zipWith_map, List.zipWith_self]
  apply List.map_congr_left
  intro x _
  unfold samplesF
  rw [List.zipWith_map, List.zipWith_self]

/-! ### the complete lattice routine -/

/-- C30 (lattice, total).  Inside the core the kernel is `K_dens + 3 K_magn - K_dc`; in the shell the contribution is
    `u^2/(2 nq beta) sum_q sum_w (chi_dens(q,w) + chi_magn(q,w)) G(k+q,v-w)`. -/
theorem sdeFullQ_value (nx ny nz c s N : Nat) (G : Nat → Nat → Nat → Int → K) (VD VM : Int × Int × Int → Int → Int → K)
    (CD CM : Int × Int × Int → Int → K) (dc : Int × Int × Int → Int → Int → K) (beta u : K)
    (qs : List (Int × Int × Int)) (w : List Int) (nq : Nat) (h : c + s + maxAbs w ≤ N) :
    sdeFullQ (qs.map fun q => w.map fun x => samplesF (VD q x) c) (qs.map fun q => w.map fun x => samplesF (VM q x) c) c
        (qs.map fun q => w.map (CD q)) (qs.map fun q => w.map (CM q)) (qs.map fun q => w.map fun x => samplesF (dc q x) c)
        (table nx ny nz fun i j k => samplesF (G i j k) N) (nx * ny * nz) beta u qs w nq s =
      some (flat3 (table nx ny nz fun i j k => samplesF (fun v =>
        if -(c : Int) ≤ v ∧ v < c then 1 / ((nq : K) * beta) * (qs.map fun q =>
          qTerm nx ny nz w (fun x v => kerSpec u VD CD q x v + 3 * kerSpec (-u) VM CM q x v - dc q x v) G q i j k v).sum
        else u ^ 2 / (2 * (nq : K) * beta) *
          (qs.map fun q => qTerm nx ny nz w (fun x _ => CD q x + CM q x) G q i j k v).sum) (c + s))) := by
  unfold sdeFullQ
  have e1 : Fp.getUr u "dens" = some u := by simp [Fp.getUr]
  have e2 : Fp.getUr u "magn" = some (-u) := by simp [Fp.getUr]
  have hw : ∀ x ∈ w, x.natAbs + c + s ≤ N := fun x hx => by have := le_maxAbs w x hx; omega
  rw [e1, Option.bind_some, e2, Option.bind_some, getKernel_value, Option.bind_some, getKernel_value, Option.bind_some]
  simp only [zipKer_value]
  rw [sdeKernelQ_value nx ny nz c N G (fun q x v => kerSpec u VD CD q x v + 3 * kerSpec (-u) VM CM q x v - dc q x v) beta qs w nq
    (by omega), Option.bind_some]
  by_cases hs : s = 0
  · subst hs
    rw [if_pos rfl, Nat.add_zero]
    congr 3
    funext i j k
    apply samplesF_congr
    intro v h1 h2
    rw [if_pos ⟨h1, h2⟩]
  · rw [if_neg hs, sdeShellQ_value nx ny nz N c s G CD beta u qs w nq hw, Option.bind_some,
      sdeShellQ_value nx ny nz N c s G CM beta u qs w nq hw, Option.bind_some, flat3_zip,
      mapM_flat3 nx ny nz _ _ (fun i j k => samplesF (fun n => u ^ 2 / (2 * (nq : K) * beta) *
          (qs.map fun q => qTerm nx ny nz w (fun x _ => CD q x + CM q x) G q i j k (shellIx c n)).sum) s)]
    · rw [Option.map_some, flat3_table, flat3_table, flat3_table, zipWith_range]
      congr 1
      apply List.map_congr_left
      intro l _
      exact concat_samplesF _ (fun v => u ^ 2 / (2 * (nq : K) * beta) *
          (qs.map fun q => qTerm nx ny nz w (fun x _ => CD q x + CM q x) G q _ _ _ v).sum) c s
    · intro i j k
      rw [addRows_samplesF]
      congr 2
      funext n
      rw [← mul_add, ← List.sum_map_add]
      congr 2
      apply List.map_congr_left
      intro q _
      unfold qTerm
      rw [← List.sum_map_add]
      congr 1
      apply List.map_congr_left
      intro x _
      ring

/-- C30 (lattice, total): kernel form = channel form.  In the core box, with unit duplicities, the result is the density channel
    contribution plus three times the magnetic one minus the kernel-form double counting. -/
theorem sdeFullQ_eq_channels (nx ny nz c N : Nat) (G : Nat → Nat → Nat → Int → K) (VD VM : Int × Int × Int → Int → Int → K)
    (CD CM : Int × Int × Int → Int → K) (dc : Int × Int × Int → Int → Int → K) (beta u : K)
    (qs : List (Int × Int × Int)) (w : List Int) (nq : Nat) (h : c + maxAbs w ≤ N) :
    ∃ sd sm sc,
      sdeVrgQ (qs.map fun q => w.map fun x => samplesF (VD q x) c) c (qs.map fun q => w.map (CD q))
        (table nx ny nz fun i j k => samplesF (G i j k) N) (nx * ny * nz) beta u qs (qs.map fun _ => 1) w nq = some sd ∧
      sdeVrgQ (qs.map fun q => w.map fun x => samplesF (VM q x) c) c (qs.map fun q => w.map (CM q))
        (table nx ny nz fun i j k => samplesF (G i j k) N) (nx * ny * nz) beta (-u) qs (qs.map fun _ => 1) w nq = some sm ∧
      sdeKernelQ (qs.map fun q => w.map fun x => samplesF (dc q x) c) c (table nx ny nz fun i j k => samplesF (G i j k) N)
        (nx * ny * nz) beta qs w nq = some sc ∧
      sdeFullQ (qs.map fun q => w.map fun x => samplesF (VD q x) c) (qs.map fun q => w.map fun x => samplesF (VM q x) c) c
        (qs.map fun q => w.map (CD q)) (qs.map fun q => w.map (CM q)) (qs.map fun q => w.map fun x => samplesF (dc q x) c)
        (table nx ny nz fun i j k => samplesF (G i j k) N) (nx * ny * nz) beta u qs w nq 0 =
        some (combine (· - ·) (combine (fun a b => a + 3 * b) sd sm) sc) := by
  have hw : ∀ x ∈ w, x.natAbs + c ≤ N := fun x hx => by have := le_maxAbs w x hx; omega
  refine ⟨_, _, _, sdeVrgQ_value nx ny nz c N G VD CD (fun _ => 1) beta u qs w nq hw,
    sdeVrgQ_value nx ny nz c N G VM CM (fun _ => 1) beta (-u) qs w nq hw,
    sdeKernelQ_value nx ny nz c N G dc beta qs w nq h, ?_⟩
  rw [sdeFullQ_value nx ny nz c 0 N G VD VM CD CM dc beta u qs w nq (by omega), combine_table, combine_table, Nat.add_zero]
  congr 3
  funext i j k
  apply samplesF_congr
  intro v h1 h2
  rw [if_pos ⟨h1, h2⟩]
  simp only [one_mul, ← List.sum_map_mul_left]
  have key : ∀ (l : List (Int × Int × Int)) (f g e : Int × Int × Int → K),
      (l.map f).sum + (l.map g).sum - (l.map e).sum = (l.map fun q => f q + g q - e q).sum := by
    intro l f g e
    induction l with
    | nil => simp
    | cons a l ih => simp only [List.map_cons, List.sum_cons, ← ih]; ring
  rw [key]
  congr 1
  apply List.map_congr_left
  intro q _
  unfold qTerm
  simp only [← List.sum_map_mul_left]
  have key2 : ∀ (l : List Int) (f g e : Int → K),
      (l.map f).sum + (l.map g).sum - (l.map e).sum = (l.map fun q => f q + g q - e q).sum := by
    intro l f g e
    induction l with
    | nil => simp
    | cons a l ih => simp only [List.map_cons, List.sum_cons, ← ih]; ring
  rw [key2]
  congr 1
  apply List.map_congr_left
  intro x _
  unfold kerSpec
  ring

/-- C30: the two double-counting routines agree: contracting with `schwinger_dyson_dc`
    `chi0 F / beta` summed over `v'` is the kernel form of the `u sum_v' chi0 F`. -/
theorem sdeDc_eq_kernel (nx ny nz c N : Nat) (G : Nat → Nat → Nat → Int → K) (F : Int → Int → Int → K)
    (g0 : Int × Int × Int → Int → Int → K) (beta u : K) (qs : List (Int × Int × Int)) (w : List Int) (nq : Nat) (h : c + maxAbs w ≤ N) :
    ∃ ker, getKernelDc (w.map fun x => (vn c).map fun v => samplesF (F x v) c) u (qs.map fun q => w.map fun x => samplesF (g0 q x) c) =
        some ker ∧
      sdeKernelQ ker c (table nx ny nz fun i j k => samplesF (G i j k) N) (nx * ny * nz) beta qs w nq =
      sdeDc (qs.map fun q => w.map fun x => samplesF (fun v => 1 / beta * vSum c fun v' => g0 q x v' * F x v v') c) c
        (table nx ny nz fun i j k => samplesF (G i j k) N) (nx * ny * nz) u qs (qs.map fun _ => 1) w nq := by
  have hw : ∀ x ∈ w, x.natAbs + c ≤ N := fun x hx => by have := le_maxAbs w x hx; omega
  refine ⟨_, getKernelDc_value F g0 u c qs w, ?_⟩
  rw [sdeKernelQ_value nx ny nz c N G (fun q x v => u * vSum c fun v' => g0 q x v' * F x v v') beta qs w nq h,
    sdeDc_value nx ny nz c N G (fun q x v => 1 / beta * vSum c fun v' => g0 q x v' * F x v v') (fun _ => 1) u qs w nq hw]
  congr 3
  funext i j k
  congr 1
  funext v
  rw [← List.sum_map_mul_left, ← List.sum_map_mul_left]
  congr 1
  apply List.map_congr_left
  intro q _
  unfold qTerm
  rw [one_mul, ← List.sum_map_mul_left, ← List.sum_map_mul_left]
  congr 1
  apply List.map_congr_left
  intro x _
  rw [one_div, mul_inv, div_eq_mul_inv]
  ring

/-! ### additivity, linearity -/

/-- C30: splitting the momentum list.  The result of a list of momenta is the sum of the results of its parts. -/
theorem sdeKernelQ_split (nx ny nz niv N : Nat) (G : Nat → Nat → Nat → Int → K) (ker : Int × Int × Int → Int → Int → K) (beta : K)
    (qs qs' : List (Int × Int × Int)) (w : List Int) (nq : Nat) (h : niv + maxAbs w ≤ N) :
    ∃ a b,
      sdeKernelQ (qs.map fun q => w.map fun x => samplesF (ker q x) niv) niv (table nx ny nz fun i j k => samplesF (G i j k) N)
        (nx * ny * nz) beta qs w nq = some a ∧
      sdeKernelQ (qs'.map fun q => w.map fun x => samplesF (ker q x) niv) niv (table nx ny nz fun i j k => samplesF (G i j k) N)
        (nx * ny * nz) beta qs' w nq = some b ∧
      sdeKernelQ ((qs ++ qs').map fun q => w.map fun x => samplesF (ker q x) niv) niv
        (table nx ny nz fun i j k => samplesF (G i j k) N) (nx * ny * nz) beta (qs ++ qs') w nq = some (combine (· + ·) a b) := by
  refine ⟨_, _, sdeKernelQ_value nx ny nz niv N G ker beta qs w nq h, sdeKernelQ_value nx ny nz niv N G ker beta qs' w nq h, ?_⟩
  rw [sdeKernelQ_value nx ny nz niv N G ker beta (qs ++ qs') w nq h, combine_table]
  simp only [List.map_append, List.sum_append, mul_add]

/-- sum of the partial results of all ranks (`Allreduce`) -/
def reduceAll (z : List (List K)) (parts : List (List (List K))) : List (List K) := parts.foldl (combine (· + ·)) z

/-- C30: rank independence.  However the momentum list is cut into consecutive or arbitrary parts (one per rank, some possibly
    empty), the sum of the rank results is the result of one process that owns any rearrangement of the whole list. -/
theorem sdeKernelQ_ranks (nx ny nz niv N : Nat) (G : Nat → Nat → Nat → Int → K) (ker : Int × Int × Int → Int → Int → K) (beta : K)
    (parts : List (List (Int × Int × Int))) (qs : List (Int × Int × Int)) (hp : parts.flatten.Perm qs) (w : List Int) (nq : Nat)
    (h : niv + maxAbs w ≤ N) :
    ∃ rs, (parts.mapM fun p => sdeKernelQ (p.map fun q => w.map fun x => samplesF (ker q x) niv) niv
        (table nx ny nz fun i j k => samplesF (G i j k) N) (nx * ny * nz) beta p w nq) = some rs ∧
      sdeKernelQ (qs.map fun q => w.map fun x => samplesF (ker q x) niv) niv
        (table nx ny nz fun i j k => samplesF (G i j k) N) (nx * ny * nz) beta qs w nq =
          some (reduceAll (List.replicate (nx * ny * nz) (List.replicate (2 * niv) 0)) rs) := by
  refine ⟨_, mapM_some _ _ _ (fun p _ => sdeKernelQ_value nx ny nz niv N G ker beta p w nq h), ?_⟩
  rw [sdeKernelQ_value nx ny nz niv N G ker beta qs w nq h, zeros_table]
  have red : ∀ (l : List (List (Int × Int × Int))) (A : Nat → Nat → Nat → Int → K),
      reduceAll (flat3 (table nx ny nz fun i j k => samplesF (A i j k) niv))
        (l.map fun p => flat3 (table nx ny nz fun i j k => samplesF (fun v =>
          1 / ((nq : K) * beta) * (p.map fun q => qTerm nx ny nz w (ker q) G q i j k v).sum) niv)) =
      flat3 (table nx ny nz fun i j k => samplesF (fun v => A i j k v +
          1 / ((nq : K) * beta) * (l.flatten.map fun q => qTerm nx ny nz w (ker q) G q i j k v).sum) niv) := by
    intro l
    induction l with
    | nil => intro A; simp [reduceAll]
    | cons p l ih =>
      intro A
      unfold reduceAll at ih ⊢
      rw [List.map_cons, List.foldl_cons, combine_table, ih]
      simp only [List.flatten_cons, List.map_append, List.sum_append, mul_add, add_assoc]
  rw [red]
  congr 3
  funext i j k
  congr 1
  funext v
  rw [zero_add, (hp.map _).sum_eq]

/-- C30: linearity in the kernel. -/
theorem sdeKernelQ_linear (nx ny nz niv N : Nat) (G : Nat → Nat → Nat → Int → K) (k1 k2 : Int × Int × Int → Int → Int → K) (a b beta : K)
    (qs : List (Int × Int × Int)) (w : List Int) (nq : Nat) (h : niv + maxAbs w ≤ N) :
    ∃ r1 r2,
      sdeKernelQ (qs.map fun q => w.map fun x => samplesF (k1 q x) niv) niv (table nx ny nz fun i j k => samplesF (G i j k) N)
        (nx * ny * nz) beta qs w nq = some r1 ∧
      sdeKernelQ (qs.map fun q => w.map fun x => samplesF (k2 q x) niv) niv (table nx ny nz fun i j k => samplesF (G i j k) N)
        (nx * ny * nz) beta qs w nq = some r2 ∧
      sdeKernelQ (qs.map fun q => w.map fun x => samplesF (fun v => a * k1 q x v + b * k2 q x v) niv) niv
        (table nx ny nz fun i j k => samplesF (G i j k) N) (nx * ny * nz) beta qs w nq =
        some (combine (fun s t => a * s + b * t) r1 r2) := by
  refine ⟨_, _, sdeKernelQ_value nx ny nz niv N G k1 beta qs w nq h, sdeKernelQ_value nx ny nz niv N G k2 beta qs w nq h, ?_⟩
  rw [sdeKernelQ_value nx ny nz niv N G (fun q x v => a * k1 q x v + b * k2 q x v) beta qs w nq h, combine_table]
  congr 3
  funext i j k
  congr 1
  funext v
  have key : ∀ (l : List (Int × Int × Int)), (l.map fun q => qTerm nx ny nz w (fun x v => a * k1 q x v + b * k2 q x v) G q i j k v).sum =
      a * (l.map fun q => qTerm nx ny nz w (k1 q) G q i j k v).sum + b * (l.map fun q => qTerm nx ny nz w (k2 q) G q i j k v).sum := by
    intro l
    have one : ∀ q, qTerm nx ny nz w (fun x v => a * k1 q x v + b * k2 q x v) G q i j k v =
        a * qTerm nx ny nz w (k1 q) G q i j k v + b * qTerm nx ny nz w (k2 q) G q i j k v := by
      intro q
      unfold qTerm
      induction w with
      | nil => simp
      | cons x w ih =>
        have := ih (by
          have : maxAbs w ≤ maxAbs (x :: w) := by unfold maxAbs; simp
          omega)
        simp only [List.map_cons, List.sum_cons, this]; ring
    induction l with
    | nil => simp
    | cons q l ih => rw [List.map_cons, List.sum_cons, ih, one]; simp only [List.map_cons, List.sum_cons]; ring
  rw [key]
  ring

/-- C30: on a one-point momentum grid (the only momentum transfer is any `q`, the shift wraps around) the lattice channel
    contribution is the impurity one. -/
theorem sdeVrgQ_one_point (G : Int → K) (N niv : Nat) (V : Int → Int → K) (C : Int → K) (beta ur : K) (w : List Int)
    (q : Int × Int × Int) (h : ∀ x ∈ w, x.natAbs + niv ≤ N) :
    sdeVrgQ [w.map fun x => samplesF (V x) niv] niv [w.map C] (table 1 1 1 fun _ _ _ => samplesF G N) 1 beta ur [q] [1] w 1 =
      (sdeVrg (w.map fun x => samplesF (V x) niv) niv (w.map C) (samplesF G N) beta ur w).map fun r => [r] := by
  rw [sdeVrg_value V niv C G N beta ur w h, Option.map_some]
  have := sdeVrgQ_value 1 1 1 niv N (fun _ _ _ => G) (fun _ => V) (fun _ => C) (fun _ => 1) beta ur [q] w 1 h
  simp only [List.map_cons, List.map_nil, mul_one] at this
  rw [this]
  simp [flat3, table, qTerm]
  rfl

/-- C30: momentum-independent vertices and susceptibilities.  If vertex and susceptibility do not depend on the momentum transfer
    and the list contains every momentum of the grid once (all shifts of the grid), the channel contribution at every `k` is the
    impurity one with the local Green's function `G_loc = (1/nk) sum_k G(k)`. -/
theorem sdeVrgQ_local (nx ny nz N niv : Nat) (G : Nat → Nat → Nat → Int → K) (V : Int → Int → K) (C : Int → K) (beta ur : K)
    (w : List Int) (h : ∀ x ∈ w, x.natAbs + niv ≤ N) :
    sdeVrgQ ((flat3 (table nx ny nz fun a b d => ((a : Int), (b : Int), (d : Int)))).map fun _ => w.map fun x => samplesF (V x) niv) niv
        ((flat3 (table nx ny nz fun a b d => ((a : Int), (b : Int), (d : Int)))).map fun _ => w.map C)
        (table nx ny nz fun i j k => samplesF (G i j k) N) (nx * ny * nz) beta ur
        (flat3 (table nx ny nz fun a b d => ((a : Int), (b : Int), (d : Int))))
        ((flat3 (table nx ny nz fun a b d => ((a : Int), (b : Int), (d : Int)))).map fun _ => 1) w (nx * ny * nz) =
      some (flat3 (table nx ny nz fun _ _ _ => samplesF
        (sdeSpec ur beta w V C fun v => kSum nx ny nz (fun i j k => G i j k v) / ((nx * ny * nz : Nat) : K)) niv)) := by
  rw [sdeVrgQ_value nx ny nz niv N G (fun _ => V) (fun _ => C) (fun _ => 1) beta ur _ w (nx * ny * nz) h]
  congr 3
  funext i j k
  congr 1
  funext v
  have e : ∀ x : Int, ((flat3 (table nx ny nz fun a b d => ((a : Int), (b : Int), (d : Int)))).map fun q =>
      G (per nx i q.1) (per ny j q.2.1) (per nz k q.2.2) (v - x)).sum = kSum nx ny nz fun a b d => G a b d (v - x) := by
    intro x
    rw [← flat3_sum, ← sum_shift nx ny nz (fun a b d => G a b d (v - x)) (-i) (-j) (-k), flat3_table, flat3_table, List.map_map]
    congr 1
    apply List.map_congr_left
    intro l _
    simp only [Function.comp, per, sub_neg_eq_add, add_comm]
  unfold sdeSpec qTerm
  simp only [one_mul]
  have sw : ∀ (l : List (Int × Int × Int)), (l.map fun q => (w.map fun x => (1 - (1 - ur * C x) * V x v) *
      G (per nx i q.1) (per ny j q.2.1) (per nz k q.2.2) (v - x)).sum).sum =
      (w.map fun x => (1 - (1 - ur * C x) * V x v) * (l.map fun q => G (per nx i q.1) (per ny j q.2.1) (per nz k q.2.2) (v - x)).sum).sum := by
    intro l
    induction l with
    | nil => simp
    | cons q l ih => simp only [List.map_cons, List.sum_cons, ih, mul_add, List.sum_map_add]
  rw [sw, ← List.sum_map_mul_left, ← List.sum_map_mul_left]
  congr 1
  apply List.map_congr_left
  intro x _
  rw [e]
  rw [div_mul_eq_mul_div, div_mul_eq_mul_div, ← mul_div_assoc, ← mul_div_assoc, div_div]
  congr 1
  ring

/-- C30 (lattice channel): core and shell together. -/
theorem sdeChannelQ_value (nx ny nz c s N : Nat) (G : Nat → Nat → Nat → Int → K) (V : Int × Int × Int → Int → Int → K)
    (C : Int × Int × Int → Int → K) (D : Int × Int × Int → K) (beta u ur : K) (qs : List (Int × Int × Int)) (w : List Int) (nq : Nat)
    (h : ∀ x ∈ w, x.natAbs + c + s ≤ N) :
    sdeChannelQ (qs.map fun q => w.map fun x => samplesF (V q x) c) c (qs.map fun q => w.map (C q))
        (table nx ny nz fun i j k => samplesF (G i j k) N) (nx * ny * nz) beta u ur qs (qs.map D) w nq s =
      some (flat3 (table nx ny nz fun i j k => samplesF (fun v =>
        if -(c : Int) ≤ v ∧ v < c then ur / (2 * (nq : K) * beta) * (qs.map fun q =>
          D q * qTerm nx ny nz w (fun x v => 1 - (1 - ur * C q x) * V q x v) G q i j k v).sum
        else u ^ 2 / (2 * (nq : K) * beta) * (qs.map fun q => qTerm nx ny nz w (fun x _ => C q x) G q i j k v).sum) (c + s))) := by
  unfold sdeChannelQ
  rw [sdeVrgQ_value nx ny nz c N G V C D beta ur qs w nq (fun x hx => by have := h x hx; omega), Option.bind_some]
  by_cases hs : s = 0
  · subst hs
    rw [if_pos rfl, Nat.add_zero]
    congr 3
    funext i j k
    apply samplesF_congr
    intro v h1 h2
    rw [if_pos ⟨h1, h2⟩]
  · rw [if_neg hs, sdeShellQ_value nx ny nz N c s G C beta u qs w nq h, Option.map_some, flat3_table, flat3_table, flat3_table,
      zipWith_range]
    congr 1
    apply List.map_congr_left
    intro l _
    exact concat_samplesF _ (fun v => u ^ 2 / (2 * (nq : K) * beta) *
          (qs.map fun q => qTerm nx ny nz w (fun x _ => C q x) G q _ _ _ v).sum) c s

/-! ### non-vacuity: concrete data over the rationals -/

/-- a Green's function on 2 x 1 x 1 momenta and 8 frequencies, kernels on 2 momentum transfers and w in {-1,0,1} -/
example : ∃ r, sdeKernelQ ([(0, 0, 0), (1, 0, 0)].map fun q : Int × Int × Int => [-1, 0, 1].map fun x : Int =>
    samplesF (fun v => (q.1 + 2 * x + 3 * v : ℚ)) 2) 2 (table 2 1 1 fun i _ _ => samplesF (fun v => (i + v : ℚ)) 4) 2 (1 / 2)
      [(0, 0, 0), (1, 0, 0)] [-1, 0, 1] 2 = some r ∧ r = [[43, 1, -5, 25], [40, -2, -8, 22]] := by
  refine ⟨_, ?_, rfl⟩
  decide +kernel

/-- the fit hypotheses are met by a box of 10 frequencies, a core of 2, a shell of 1 and w in {-2,...,2} -/
example : (∀ x ∈ wn 2, x.natAbs + 2 + 1 ≤ 5) ∧ 2 + 1 + maxAbs (wn 2) ≤ 5 := by decide +kernel

/-- hypotheses of `sdeF_eq_channels`: a diagonal susceptibility equal to the bubble and a three-leg vertex `1/(1 - u_r chi)` -/
example : ∃ (XD XM : Int → Int → Int → ℚ) (g0 VD VM : Int → Int → ℚ) (CD CM : Int → ℚ),
    (∀ x ∈ wn 1, ∀ v ∈ vn 2, g0 x v ≠ 0) ∧ (∀ x ∈ wn 1, ∀ v ∈ vn 2, (1 - 2 * CD x) * VD x v = vSum 2 (XD x v) / g0 x v) ∧
      (∀ x ∈ wn 1, ∀ v ∈ vn 2, (1 - -2 * CM x) * VM x v = vSum 2 (XM x v) / g0 x v) :=
  ⟨fun _ v v' => if v = v' then 2 * v + 1 else 1, fun _ v v' => if v = v' then 2 * v + 1 else 0, fun _ v => 2 * v + 1,
    fun _ v => (1 + 3 / (2 * v + 1)) / (1 - 2 * (1 / 3)), fun _ _ => 1 / (1 + 2 * (1 / 4)), fun _ => 1 / 3, fun _ => 1 / 4,
    by decide +kernel, by decide +kernel, by decide +kernel⟩

end DGA.Sde
