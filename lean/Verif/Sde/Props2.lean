/-
  C30 continued: the equation of motion with the full vertex, and the lattice routines.
-/
import Verif.Sde.Props

namespace DGA.Sde

open DGA.Mf DGA.Bz DGA.Bubble DGA.Opt

variable {K : Type} [Field K]

/-! ### full vertex -/

/-- Closed form of the SDE with the full vertex `f[w][v][v']`: `u/beta sum_w (sum_v' f(w,v,v') chi0(w,v')) G(v-w)`. -/
theorem sdeF_value (F : Int → Int → Int → K) (g0 : Int → Int → K) (niv : Nat) (G : Int → K) (N : Nat) (beta u : K) (w : List Int)
    (h : ∀ x ∈ w, x.natAbs + niv ≤ N) :
    sdeF (w.map fun x => (vn niv).map fun v => samplesF (F x v) niv) niv (w.map fun x => samplesF (g0 x) niv) (samplesF G N) beta u w =
      some (samplesF (fun v => (w.map fun x => vSum niv (fun v' => u / beta * F x v v' * g0 x v') * G (v - x)).sum) niv) := by
  unfold sdeF
  rw [if_pos (by simp)]
  simp only [gen_samplesF G N niv w h, List.length_map]
  rw [mapM_pos w _ fun x => samplesF (fun v => vSum niv (fun v' => u / beta * F x v v' * g0 x v') * G (v - x)) niv]
  · rw [Option.bind_some, sumRows_samplesF]
  · intro j x hx
    simp only [List.getElem?_map, hx, Option.map_some, Option.bind_some]
    rw [List.mapM_map, mapM_some _ _ fun v => vSum niv (fun v' => u / beta * F x v v' * g0 x v')]
    · rw [Option.bind_some]
      exact mulRows_samplesF _ _ _
    · intro v _
      rw [Function.comp, samplesF_map, mulRows_samplesF, Option.map_some]
      unfold vSum samplesF
      congr 3
      funext v'
      ring

/-- C30: Hedin form = full-vertex form.  Let `chi_r(w,v,v')` be the generalised susceptibilities on the core box,
    `F_r = delta/chi0 - chi_r/(chi0 chi0)` the full vertices (`Fp.fob2Slice`) and let the three-leg vertices satisfy
    `(1 - u_r chi_r^phys) gamma_r(v) = sum_v' chi_r(v,v')/chi0(v)` (this is C27, `Fp.vrg_is_row_sum`).  Then the SDE with
    `F_updo = (F_dens - F_magn)/2` is the sum of the two channel contributions. -/
theorem sdeF_eq_channels (XD XM : Int → Int → Int → K) (g0 : Int → Int → K) (VD VM : Int → Int → K) (CD CM : Int → K) (niv : Nat)
    (G : Int → K) (N : Nat) (beta u : K) (w : List Int) (h : ∀ x ∈ w, x.natAbs + niv ≤ N)
    (h0 : ∀ x ∈ w, ∀ v ∈ vn niv, g0 x v ≠ 0)
    (hD : ∀ x ∈ w, ∀ v ∈ vn niv, (1 - u * CD x) * VD x v = vSum niv (XD x v) / g0 x v)
    (hM : ∀ x ∈ w, ∀ v ∈ vn niv, (1 - -u * CM x) * VM x v = vSum niv (XM x v) / g0 x v) :
    ∃ d m, sdeVrg (w.map fun x => samplesF (VD x) niv) niv (w.map CD) (samplesF G N) beta u w = some d ∧
      sdeVrg (w.map fun x => samplesF (VM x) niv) niv (w.map CM) (samplesF G N) beta (-u) w = some m ∧
      sdeF (w.map fun x => (vn niv).map fun v => samplesF (fun v' =>
          (((if v = v' then 1 / g0 x v else 0) - XD x v v' / (g0 x v * g0 x v')) -
            ((if v = v' then 1 / g0 x v else 0) - XM x v v' / (g0 x v * g0 x v'))) / 2) niv)
        niv (w.map fun x => samplesF (g0 x) niv) (samplesF G N) beta u w = addRows d m := by
  refine ⟨_, _, sdeVrg_value VD niv CD G N beta u w h, sdeVrg_value VM niv CM G N beta (-u) w h, ?_⟩
  rw [sdeF_value _ g0 niv G N beta u w h, addRows_samplesF]
  congr 1
  apply samplesF_congr
  intro v h1 h2
  have hv : v ∈ vn niv := (mem_vn _ _).2 ⟨h1, h2⟩
  unfold sdeSpec
  rw [← List.sum_map_mul_left, ← List.sum_map_mul_left, ← List.sum_map_add]
  congr 1
  apply List.map_congr_left
  intro x hx
  rw [hD x hx v hv, hM x hx v hv]
  have e : vSum niv (fun v' => u / beta * ((((if v = v' then 1 / g0 x v else 0) - XD x v v' / (g0 x v * g0 x v')) -
            ((if v = v' then 1 / g0 x v else 0) - XM x v v' / (g0 x v * g0 x v'))) / 2) * g0 x v') =
      vSum niv (fun v' => u / (2 * beta) / g0 x v * (XM x v v' - XD x v v')) := by
    unfold vSum
    congr 1
    apply List.map_congr_left
    intro v' hv'
    have n1 := h0 x hx v hv
    have n2 := h0 x hx v' hv'
    generalize (if v = v' then 1 / g0 x v else 0) = t
    rw [show t - XD x v v' / (g0 x v * g0 x v') - (t - XM x v v' / (g0 x v * g0 x v')) =
      (XM x v v' - XD x v v') / g0 x v / g0 x v' by field_simp; ring]
    rw [show u / beta * ((XM x v v' - XD x v v') / g0 x v / g0 x v' / 2) * g0 x v' =
      u / (2 * beta) / g0 x v * (XM x v v' - XD x v v') * (g0 x v' / g0 x v') by ring, div_self n2, mul_one]
  have e2 : vSum niv (fun v' => u / (2 * beta) / g0 x v * (XM x v v' - XD x v v')) =
      u / (2 * beta) / g0 x v * (vSum niv (XM x v) - vSum niv (XD x v)) := by
    unfold vSum
    rw [List.sum_map_mul_left]
    congr 1
    induction vn niv with
    | nil => simp
    | cons a l ih => simp only [List.map_cons, List.sum_cons, ih]; ring
  rw [e, e2]
  ring

/-! ### lattice -/

omit [Field K] in
theorem le_maxAbs (w : List Int) (x : Int) (h : x ∈ w) : x.natAbs ≤ maxAbs w := by
  unfold maxAbs
  induction w with
  | nil => cases h
  | cons a w ih =>
    rw [List.map_cons, List.foldr_cons]
    rcases List.mem_cons.1 h with rfl | h
    · exact le_max_left _ _
    · exact le_trans (ih h) (le_max_right _ _)

omit [Field K] in
theorem shiftedRows_table {α : Type} (nx ny nz : Nat) (G : Nat → Nat → Nat → α) (q : Int × Int × Int) :
    shiftedRows (table nx ny nz G) q = flat3 (table nx ny nz fun i j k => G (per nx i q.1) (per ny j q.2.1) (per nz k q.2.2)) := by
  unfold shiftedRows
  rw [shift_table]
  simp only [sub_neg_eq_add]
  rfl

/-- summand of one momentum transfer `q` at momentum `(i,j,k)` and frequency `v`: `sum_w ker(w,v) G(k+q, v-w)` -/
def qTerm (nx ny nz : Nat) (w : List Int) (ker : Int → Int → K) (G : Nat → Nat → Nat → Int → K) (q : Int × Int × Int) (i j k : Nat)
    (v : Int) : K := (w.map fun x => ker x v * G (per nx i q.1) (per ny j q.2.1) (per nz k q.2.2) (v - x)).sum

theorem addKG_value (nx ny nz niv N : Nat) (G : Nat → Nat → Nat → Int → K) (ker : Int → K) (x : Int) (S : Nat → Nat → Nat → Int → K)
    (h : x.natAbs + niv ≤ N) :
    addKG niv (flat3 (table nx ny nz fun i j k => samplesF (G i j k) N)) (samplesF ker niv) x
        (flat3 (table nx ny nz fun i j k => samplesF (S i j k) niv)) =
      some (flat3 (table nx ny nz fun i j k => samplesF (fun v => S i j k v + ker v * G i j k (v - x)) niv)) := by
  unfold addKG
  rw [flat3_zip]
  apply mapM_flat3
  intro i j k
  rw [cutIvShift_samplesF _ N niv x h, mulRows_samplesF, Option.bind_some, addRows_samplesF]

theorem addQ_value (nx ny nz niv N : Nat) (G : Nat → Nat → Nat → Int → K) (ker : Int → Int → K) (w : List Int)
    (S : Nat → Nat → Nat → Int → K) (q : Int × Int × Int) (h : ∀ x ∈ w, x.natAbs + niv ≤ N) :
    addQ niv (shiftedRows (table nx ny nz fun i j k => samplesF (G i j k) N) q) (w.map fun x => samplesF (ker x) niv) w
        (flat3 (table nx ny nz fun i j k => samplesF (S i j k) niv)) =
      some (flat3 (table nx ny nz fun i j k => samplesF (fun v => S i j k v + qTerm nx ny nz w ker G q i j k v) niv)) := by
  unfold addQ
  rw [shiftedRows_table]
  have := range_foldlM (fun sig j => (w[j]?).bind fun iwn => ((w.map fun x => samplesF (ker x) niv)[j]?).bind fun kr =>
      addKG niv (flat3 (table nx ny nz fun i j k => samplesF (G (per nx i q.1) (per ny j q.2.1) (per nz k q.2.2)) N)) kr iwn sig)
    (fun m => flat3 (table nx ny nz fun i j k => samplesF (fun v => S i j k v +
      ((w.take m).map fun x => ker x v * G (per nx i q.1) (per ny j q.2.1) (per nz k q.2.2) (v - x)).sum) niv)) w.length (by
      intro m hm
      have hx : w[m]? = some w[m] := List.getElem?_eq_getElem hm
      simp only [List.getElem?_map, hx, Option.bind_some, Option.map_some]
      rw [addKG_value nx ny nz niv N (fun i j k => G (per nx i q.1) (per ny j q.2.1) (per nz k q.2.2)) (ker w[m]) w[m] _
        (h _ (List.getElem_mem hm))]
      congr 3
      funext i j k
      congr 1
      funext v
      rw [take_succ_sum w _ m _ hx]
      ring)
  simp only [List.take_zero, List.map_nil, List.sum_nil, add_zero, List.take_length] at this
  exact this

/-- C30 (lattice, kernel form): at every momentum `k` and frequency `v` the result is
    `1/(nq beta) sum_q sum_w kernel(q,w,v) G(k+q, v-w)`, momenta being periodic; cutting the Green's function before the loop
    does not change anything. -/
theorem sdeKernelQ_value (nx ny nz niv N : Nat) (G : Nat → Nat → Nat → Int → K) (ker : Int × Int × Int → Int → Int → K) (beta : K)
    (qs : List (Int × Int × Int)) (w : List Int) (nq : Nat) (h : niv + maxAbs w ≤ N) :
    sdeKernelQ (qs.map fun q => w.map fun x => samplesF (ker q x) niv) niv (table nx ny nz fun i j k => samplesF (G i j k) N)
        (nx * ny * nz) beta qs w nq =
      some (flat3 (table nx ny nz fun i j k => samplesF (fun v =>
        1 / ((nq : K) * beta) * (qs.map fun q => qTerm nx ny nz w (ker q) G q i j k v).sum) niv)) := by
  unfold sdeKernelQ
  simp only []
  rw [table_map_cut nx ny nz G N (niv + maxAbs w) h, zeros_table]
  have := range_foldlM (fun sig i => (qs[i]?).bind fun q => ((qs.map fun q => w.map fun x => samplesF (ker q x) niv)[i]?).bind fun kr =>
      addQ niv (shiftedRows (table nx ny nz fun i j k => samplesF (G i j k) (niv + maxAbs w)) q) kr w sig)
    (fun m => flat3 (table nx ny nz fun i j k => samplesF (fun v =>
      ((qs.take m).map fun q => qTerm nx ny nz w (ker q) G q i j k v).sum) niv)) qs.length (by
      intro m hm
      have hx : qs[m]? = some qs[m] := List.getElem?_eq_getElem hm
      simp only [List.getElem?_map, hx, Option.bind_some, Option.map_some]
      rw [addQ_value nx ny nz niv (niv + maxAbs w) G (ker qs[m]) w _ qs[m]
        (fun x hx => by have := le_maxAbs w x hx; omega)]
      congr 3
      funext i j k
      congr 1
      funext v
      rw [take_succ_sum qs _ m _ hx])
  simp only [List.take_zero, List.map_nil, List.sum_nil, List.take_length] at this
  rw [this, Option.map_some, flat3_table, flat3_table, List.map_map]
  congr 1
  apply List.map_congr_left
  intro l _
  simp only [Function.comp, samplesF_map]
  congr 1
  funext v
  rw [mul_one, div_div]

/-- C30 (lattice, channel form): `u_r/(2 nq beta) sum_q dup(q) sum_w (1 - (1 - u_r chi(q,w)) gamma(q,w,v)) G(k+q,v-w)`. -/
theorem sdeVrgQ_value (nx ny nz niv N : Nat) (G : Nat → Nat → Nat → Int → K) (V : Int × Int × Int → Int → Int → K)
    (C : Int × Int × Int → Int → K) (D : Int × Int × Int → K) (beta ur : K)
    (qs : List (Int × Int × Int)) (w : List Int) (nq : Nat) (h : ∀ x ∈ w, x.natAbs + niv ≤ N) :
    sdeVrgQ (qs.map fun q => w.map fun x => samplesF (V q x) niv) niv (qs.map fun q => w.map (C q))
        (table nx ny nz fun i j k => samplesF (G i j k) N) (nx * ny * nz) beta ur qs (qs.map D) w nq =
      some (flat3 (table nx ny nz fun i j k => samplesF (fun v => ur / (2 * (nq : K) * beta) * (qs.map fun q =>
        D q * qTerm nx ny nz w (fun x v => 1 - (1 - ur * C q x) * V q x v) G q i j k v).sum) niv)) := by
  unfold sdeVrgQ
  rw [zeros_table]
  have := range_foldlM (fun sig i => (qs[i]?).bind fun q => ((qs.map fun q => w.map fun x => samplesF (V q x) niv)[i]?).bind fun vq =>
      ((qs.map fun q => w.map (C q))[i]?).bind fun cq => ((qs.map D)[i]?).bind fun d =>
        ((List.range w.length).mapM fun j => (cq[j]?).bind fun c => (vq[j]?).map fun vr =>
          vr.map fun x => (1 - (1 - ur * c) * x) * d).bind fun kr =>
            addQ niv (shiftedRows (table nx ny nz fun i j k => samplesF (G i j k) N) q) kr w sig)
    (fun m => flat3 (table nx ny nz fun i j k => samplesF (fun v => ((qs.take m).map fun q =>
      D q * qTerm nx ny nz w (fun x v => 1 - (1 - ur * C q x) * V q x v) G q i j k v).sum) niv)) qs.length (by
      intro m hm
      have hx : qs[m]? = some qs[m] := List.getElem?_eq_getElem hm
      simp only [List.getElem?_map, hx, Option.bind_some, Option.map_some]
      rw [mapM_pos w _ (fun x => samplesF (fun v => (1 - (1 - ur * C qs[m] x) * V qs[m] x v) * D qs[m]) niv)]
      · rw [Option.bind_some, addQ_value nx ny nz niv N G _ w _ qs[m] h]
        congr 3
        funext i j k
        congr 1
        funext v
        rw [take_succ_sum qs _ m _ hx]
        congr 1
        unfold qTerm
        rw [← List.sum_map_mul_left]
        congr 1
        apply List.map_congr_left
        intro x _
        ring
      · intro j x hj
        simp only [hj, Option.bind_some, Option.map_some, samplesF_map])
  simp only [List.take_zero, List.map_nil, List.sum_nil, List.take_length] at this
  rw [this, Option.map_some, flat3_table, flat3_table, List.map_map]
  congr 1
  apply List.map_congr_left
  intro l _
  simp only [Function.comp, samplesF_map]
  congr 1
  funext v
  congr 1
  rw [mul_one, one_div, inv_mul_eq_div, div_div, div_div]
  congr 1
  ring

/-- C30 (lattice, shell). -/
theorem sdeShellQ_value (nx ny nz N c s : Nat) (G : Nat → Nat → Nat → Int → K) (C : Int × Int × Int → Int → K) (beta u : K)
    (qs : List (Int × Int × Int)) (w : List Int) (nq : Nat) (h : ∀ x ∈ w, x.natAbs + c + s ≤ N) :
    sdeShellQ (qs.map fun q => w.map (C q)) (table nx ny nz fun i j k => samplesF (G i j k) N) (nx * ny * nz) beta u s c w qs nq =
      some (flat3 (table nx ny nz fun i j k => samplesF (fun n => u ^ 2 / (2 * (nq : K) * beta) *
        (qs.map fun q => qTerm nx ny nz w (fun x _ => C q x) G q i j k (shellIx c n)).sum) s)) := by
  unfold sdeShellQ
  rw [zeros_table]
  have := range_foldlM (fun sig i => (qs[i]?).bind fun q => ((qs.map fun q => w.map (C q))[i]?).bind fun cq =>
      addShellQ s c (shiftedRows (table nx ny nz fun i j k => samplesF (G i j k) N) q) cq w (1 / (nq : K) * u ^ 2 / 2 * 1 / beta) sig)
    (fun m => flat3 (table nx ny nz fun i j k => samplesF (fun n => u ^ 2 / (2 * (nq : K) * beta) *
        ((qs.take m).map fun q => qTerm nx ny nz w (fun x _ => C q x) G q i j k (shellIx c n)).sum) s)) qs.length (by
      intro m hm
      have hx : qs[m]? = some qs[m] := List.getElem?_eq_getElem hm
      simp only [List.getElem?_map, hx, Option.bind_some, Option.map_some]
      unfold addShellQ
      rw [if_pos (by simp), shiftedRows_table, flat3_zip]
      apply mapM_flat3
      intro i j k
      simp only [shell_samplesF _ N c s w h, List.length_map]
      rw [mapM_pos w _ fun x => samplesF (fun n => C qs[m] x *
        G (per nx i qs[m].1) (per ny j qs[m].2.1) (per nz k qs[m].2.2) (shellIx c n - x)) s]
      · rw [Option.bind_some, sumRows_samplesF, Option.bind_some, samplesF_map, addRows_samplesF]
        congr 2
        funext v
        rw [take_succ_sum qs _ m _ hx, mul_add]
        congr 1
        unfold qTerm
        congr 1
        rw [mul_one, one_div, inv_mul_eq_div, div_div, div_div]
        congr 1
        ring
      · intro j x hj
        simp only [List.getElem?_map, hj, Option.bind_some, Option.map_some, samplesF_map])
  simp only [List.take_zero, List.map_nil, List.sum_nil, List.take_length, mul_zero] at this
  exact this

/-- C30 (lattice, double counting): `u/nq sum_q dup(q) sum_w gf(q,w,v) G(k+q,v-w)`. -/
theorem sdeDc_value (nx ny nz niv N : Nat) (G : Nat → Nat → Nat → Int → K) (gf : Int × Int × Int → Int → Int → K)
    (D : Int × Int × Int → K) (u : K) (qs : List (Int × Int × Int)) (w : List Int) (nq : Nat) (h : ∀ x ∈ w, x.natAbs + niv ≤ N) :
    sdeDc (qs.map fun q => w.map fun x => samplesF (gf q x) niv) niv (table nx ny nz fun i j k => samplesF (G i j k) N)
        (nx * ny * nz) u qs (qs.map D) w nq =
      some (flat3 (table nx ny nz fun i j k => samplesF (fun v =>
        u / (nq : K) * (qs.map fun q => D q * qTerm nx ny nz w (gf q) G q i j k v).sum) niv)) := by
  unfold sdeDc
  rw [zeros_table]
  have := range_foldlM (fun sig i => (qs[i]?).bind fun q => ((qs.map fun q => w.map fun x => samplesF (gf q x) niv)[i]?).bind fun gq =>
      ((qs.map D)[i]?).bind fun d =>
      if w.length = gq.length then
        (List.zip sig (shiftedRows (table nx ny nz fun i j k => samplesF (G i j k) N) q)).mapM fun (p : List K × List K) =>
          let grid := wnSlicesGen p.2 niv w
          ((List.range gq.length).mapM fun j => (gq[j]?).bind fun r => (grid[j]?).bind fun g => mulRows r g).bind
            fun t => (sumRows (2 * niv) t).bind fun r => addRows p.1 (r.map fun x => u * 1 / (nq : K) * d * x)
      else none)
    (fun m => flat3 (table nx ny nz fun i j k => samplesF (fun v => u / (nq : K) *
        ((qs.take m).map fun q => D q * qTerm nx ny nz w (gf q) G q i j k v).sum) niv)) qs.length (by
      intro m hm
      have hx : qs[m]? = some qs[m] := List.getElem?_eq_getElem hm
      simp only [List.getElem?_map, hx, Option.bind_some, Option.map_some]
      rw [if_pos (by simp), shiftedRows_table, flat3_zip]
      apply mapM_flat3
      intro i j k
      simp only [gen_samplesF _ N niv w h, List.length_map]
      rw [mapM_pos w _ fun x => samplesF (fun v => gf qs[m] x v *
        G (per nx i qs[m].1) (per ny j qs[m].2.1) (per nz k qs[m].2.2) (v - x)) niv]
      · rw [Option.bind_some, sumRows_samplesF, Option.bind_some, samplesF_map, addRows_samplesF]
        congr 2
        funext v
        rw [take_succ_sum qs _ m _ hx, mul_add]
        congr 1
        unfold qTerm
        rw [mul_one, mul_assoc]
      · intro j x hj
        simp only [List.getElem?_map, hj, Option.bind_some, Option.map_some]
        exact mulRows_samplesF _ _ _)
  simp only [List.take_zero, List.map_nil, List.sum_nil, List.take_length, mul_zero] at this
  exact this

end DGA.Sde
