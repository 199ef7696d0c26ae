/-
  What the ranks compute and how it is put together: closed form of the lattice part for an arbitrary number of ranks.
-/
import Verif.Pipeline.Local
import Verif.Mpi.Flat
import Verif.Bz.Props2

namespace DGA.Pipe

open DGA.Mf DGA.Bz DGA.Bubble DGA.Fp

variable {K : Type} [Field K]

/-- momenta as the program stores them -/
abbrev Mom := Int × Int × Int

section closed

variable {c : Nat} (s : Nat) (w : List Int) (beta ur : K) (Γ : Int → Mat (2 * c) K) (B : Mom → Int → Int → K) (Bl : Int → Int → K)

/-- auxiliary susceptibility of one momentum and frequency (0 where the inversion fails) -/
noncomputable def XQ (q : Mom) (x : Int) : Mat (2 * c) K := (auxGamW (Γ x) (onBox c (B q x)) beta ur).getD 0

/-- no inversion fails at this momentum -/
def OkQ (q : Mom) : Prop := ∀ x ∈ w, (auxGamW (Γ x) (onBox c (B q x)) beta ur).isSome

/-- three-leg vertex at a momentum, frequency by frequency -/
noncomputable def VQ (q : Mom) (x : Int) : Int → K := atV (vrgSlice true (XQ beta ur Γ B q x) (onBox c (B q x)))

/-- physical susceptibility of the program -/
noncomputable def CQ (q : Mom) (x : Int) : K :=
  chiPhysUrange (physical beta (XQ beta ur Γ B q x)) (physicalBubble beta (onBox c (B q x)))
    (physicalBubble beta (onBox (c + s) (B q x))) ur

/-- local full vertex on the large box -/
noncomputable def FL (x : Int) : Mat (2 * (c + s)) K :=
  (fob2GamSlice (shell2 s (Γ x) (ur / beta ^ 2)) (onBox (c + s) (Bl x))).getD 0

/-- the local full vertex exists at every frequency -/
def OkL : Prop := ∀ x ∈ w, (fob2GamSlice (shell2 s (Γ x) (ur / beta ^ 2)) (onBox (c + s) (Bl x))).isSome

/-- double-counting kernel -/
noncomputable def DQ (q : Mom) (x v : Int) : K :=
  ur * Opt.vSum (c + s) fun v' => B q x v' * atV (fun j => atV (fun i => FL s beta ur Γ Bl x i j) v) v'

end closed

open Classical in
theorem vrgChiOne_eq {c : Nat} (s : Nat) (dens : Bool) (niw : Nat) (beta u ur : K) (Γ : Int → Mat (2 * c) K) (B : Mom → Int → Int → K)
    (q : Mom) :
    vrgChiOne (objOf dens niw beta u Γ) ur ((wn niw).map fun (x : Int) => samplesF (B q x) c)
        ((wn niw).map fun (x : Int) => physicalBubble beta (onBox (c + s) (B q x)))
        ((wn niw).map fun (x : Int) => physicalBubble beta (onBox c (B q x))) =
      if OkQ (wn niw) beta ur Γ B q then
        some ((wn niw).map fun (x : Int) => samplesF (VQ beta ur Γ B q x) c, (wn niw).map fun (x : Int) => CQ s beta ur Γ B q x)
      else none := by
  unfold vrgChiOne
  rw [List.length_map, mapM_range_congr (wn niw) _ (fun x => (auxGamW (Γ x) (onBox c (B q x)) beta ur).map fun X =>
    (List.ofFn (vrgSlice true X (onBox c (B q x))), chiPhysUrange (physical beta X) (physicalBubble beta (onBox c (B q x)))
      (physicalBubble beta (onBox (c + s) (B q x))) ur))]
  · rw [mapM_if _ _ ([], 0)]
    by_cases h : OkQ (wn niw) beta ur Γ B q
    · rw [if_pos h, if_pos (by intro x hx; rw [Option.isSome_map]; exact h x hx), Option.map_some, List.map_map, List.map_map]
      congr 2
      · apply List.map_congr_left
        intro x hx
        obtain ⟨X, hX⟩ := Option.isSome_iff_exists.1 (h x hx)
        simp only [Function.comp, hX, Option.map_some, Option.getD_some, VQ, XQ]
        exact ofFn_samplesF _
      · apply List.map_congr_left
        intro x hx
        obtain ⟨X, hX⟩ := Option.isSome_iff_exists.1 (h x hx)
        simp only [Function.comp, hX, Option.map_some, Option.getD_some, CQ, XQ]
    · rw [if_neg h, if_neg]
      · rfl
      · intro h'
        apply h
        intro x hx
        have := h' x hx
        rwa [Option.isSome_map] at this
  · intro j x hx
    simp only [List.getElem?_map, hx, Option.map_some, Option.bind_some, objOf, toVec_box]
    cases auxGamW (Γ x) (onBox c (B q x)) beta ur with
    | none => rfl
    | some X => simp only [Option.bind_some, Option.map_some, contract_physical]

open Classical in
theorem vrgChiQ_eq {c : Nat} (s : Nat) (dens : Bool) (niw : Nat) (beta u : K) (Γ : Int → Mat (2 * c) K) (B : Mom → Int → Int → K)
    (qs : List Mom) :
    vrgChiQ (objOf dens niw beta u Γ) (qs.map fun (q : Mom) => (wn niw).map fun (x : Int) => samplesF (B q x) c)
        (qs.map fun (q : Mom) => (wn niw).map fun (x : Int) => physicalBubble beta (onBox (c + s) (B q x)))
        (qs.map fun (q : Mom) => (wn niw).map fun (x : Int) => physicalBubble beta (onBox c (B q x))) =
      if ∀ q ∈ qs, OkQ (wn niw) beta (urOf dens u) Γ B q then
        some (qs.map fun (q : Mom) => (wn niw).map fun (x : Int) => samplesF (VQ beta (urOf dens u) Γ B q x) c,
          qs.map fun (q : Mom) => (wn niw).map fun (x : Int) => CQ s beta (urOf dens u) Γ B q x)
      else none := by
  unfold vrgChiQ
  rw [show (objOf dens niw beta u Γ).ur = some (urOf dens u) from ur_obj .., Option.bind_some, List.length_map,
    mapM_range_congr qs _ (fun q => if OkQ (wn niw) beta (urOf dens u) Γ B q then
        some ((wn niw).map fun (x : Int) => samplesF (VQ beta (urOf dens u) Γ B q x) c,
          (wn niw).map fun (x : Int) => CQ s beta (urOf dens u) Γ B q x)
      else none)]
  · rw [mapM_if _ _ ([], [])]
    by_cases h : ∀ q ∈ qs, OkQ (wn niw) beta (urOf dens u) Γ B q
    · rw [if_pos h, if_pos (by intro q hq; rw [if_pos (h q hq)]; rfl), Option.map_some, List.map_map, List.map_map]
      congr 2
      · apply List.map_congr_left
        intro q hq
        simp only [Function.comp, if_pos (h q hq), Option.getD_some]
      · apply List.map_congr_left
        intro q hq
        simp only [Function.comp, if_pos (h q hq), Option.getD_some]
    · rw [if_neg h, if_neg]
      · rfl
      · intro h'
        apply h
        intro q hq
        have := h' q hq
        by_contra hc
        rw [if_neg hc] at this
        cases this
  · intro j q hq
    simp only [List.getElem?_map, hq, Option.map_some, Option.bind_some]
    exact vrgChiOne_eq s dens niw beta u (urOf dens u) Γ B q

theorem rowsOf_samples {n : Nat} (A : Mat (2 * n) K) :
    rowsOf A = (vn n).map fun (v : Int) => samplesF (fun v' => atV (fun j => atV (fun i => A i j) v) v') n := by
  have h : rowsOf A = List.ofFn fun i => List.ofFn fun j => A i j := rfl
  have h2 : ((vn n).map fun (v : Int) => samplesF (fun v' => atV (fun j => atV (fun i => A i j) v) v') n) =
      samplesF (K := List K) (fun v => samplesF (fun v' => atV (fun j => atV (fun i => A i j) v) v') n) n := rfl
  rw [h, h2]
  apply List.ext_getElem?
  intro k
  by_cases hk : k < 2 * n
  · rw [samplesF_get? _ _ _ hk, List.getElem?_ofFn, dif_pos hk]
    congr 1
    rw [samplesF_ofFn]
    congr 1
    funext j
    have := congrFun (onBox_atV (fun j => atV (fun i => A i j) ((k : Int) - n))) j
    rw [show (fun v' => atV (fun j => atV (fun i => A i j) ((k : Int) - n)) v') = atV (fun j => atV (fun i => A i j) ((k : Int) - n)) from rfl,
      this]
    have := congrFun (onBox_atV (fun i => A i j)) ⟨k, hk⟩
    exact this.symm
  · rw [List.getElem?_eq_none (by rw [List.length_ofFn]; omega), List.getElem?_eq_none (by rw [samplesF_length]; omega)]

variable [StarRing K]

open Classical in
theorem dcKernel_eq {c : Nat} (s nx ny nz N niw : Nat) (dens : Bool) (beta u : K) (hb : star beta = beta)
    (G : Nat → Nat → Nat → Int → K) (g : Int → K) (hg : ∀ n : Int, -(N : Int) ≤ n → n < N → g (-n - 1) = star (g n))
    (hfit : niw + (c + s) ≤ N) (Γ : Int → Mat (2 * c) K) (B : Mom → Int → Int → K) (qs : List Mom) :
    dcKernel s (objOf dens niw beta u Γ) (genOf nx ny nz N niw beta G g)
        (qs.map fun (q : Mom) => (wn niw).map fun (x : Int) => samplesF (B q x) (c + s)) =
      if OkL s (wn niw) beta (urOf dens u) Γ (bubLoc beta g) then
        some (qs.map fun (q : Mom) => (wn niw).map fun (x : Int) => samplesF (DQ s beta (urOf dens u) Γ B (bubLoc beta g) q x) c)
      else none := by
  unfold dcKernel
  rw [gchi0_gen nx ny nz N niw beta hb G g hg (c + s) hfit, Option.bind_some, mapM_toVec, Option.bind_some]
  unfold fob2FromGamob2Urange getUrange
  rw [show (objOf dens niw beta u Γ).ur = some (urOf dens u) from ur_obj .., Option.bind_some,
    construct_eq _ (chName_known dens), Option.bind_some,
    show (objOf dens niw beta u Γ).mat = (wn niw).map Γ from rfl, List.map_map]
  rw [show ((fun m => shell2 s m (urOf dens u / (objOf dens niw beta u Γ).beta ^ 2)) ∘ Γ) =
    fun x => shell2 s (Γ x) (urOf dens u / beta ^ 2) from rfl,
    overWn_map _ (wn niw) (show (objOf dens niw beta u Γ).wn = wn niw from objWn ..), mapM_if _ _ 0]
  by_cases h : OkL s (wn niw) beta (urOf dens u) Γ (bubLoc beta g)
  · have h0 := h
    unfold OkL at h0
    rw [if_pos h, if_pos h0, Option.bind_some, construct_eq _ (chName_known dens), Option.bind_some]
    rw [show (objOf dens niw beta u Γ).channel = chName dens from rfl, ur_obj, Option.bind_some, List.map_map]
    have e : (rowsOf ∘ fun (a : Int) => (fob2GamSlice (shell2 s (Γ a) (urOf dens u / beta ^ 2)) (onBox (c + s) (bubLoc beta g a))).getD 0) =
        fun (x : Int) => (vn (c + s)).map fun (v : Int) => samplesF (fun v' =>
          atV (fun j => atV (fun i => FL s beta (urOf dens u) Γ (bubLoc beta g) x i j) v) v') (c + s) := by
      funext x
      exact rowsOf_samples _
    rw [e, Sde.getKernelDc_value (fun x v v' => atV (fun j => atV (fun i => FL s beta (urOf dens u) Γ (bubLoc beta g) x i j) v) v'),
      Option.map_some, List.map_map]
    congr 1
    apply List.map_congr_left
    intro q _
    simp only [Function.comp, List.map_map]
    apply List.map_congr_left
    intro x _
    exact cutV_samplesF _ _ _ (by omega)
  · have h0 := h
    unfold OkL at h0
    rw [if_neg h, if_neg h0]
    rfl

omit [StarRing K] in
theorem contract_bubble (beta : K) (f : Int → K) (n : Nat) : 1 / beta ^ 2 * (samplesF f n).sum = physicalBubble beta (onBox n f) := by
  rw [sum_box]
  unfold physicalBubble
  rw [one_div, mul_comm, div_eq_mul_inv]

/-- the momentum-resolved quantities of a list of momenta, in closed form -/
noncomputable def mkQ {c : Nat} (s : Nat) (w : List Int) (beta u : K) (ΓD ΓM : Int → Mat (2 * c) K) (B : Mom → Int → Int → K)
    (Bl : Int → Int → K) (qs : List Mom) : QData K :=
  ⟨qs.map fun (q : Mom) => w.map fun (x : Int) => samplesF (VQ beta u ΓD B q x) c,
   qs.map fun (q : Mom) => w.map fun (x : Int) => samplesF (VQ beta (-u) ΓM B q x) c,
   qs.map fun (q : Mom) => w.map fun (x : Int) => CQ s beta u ΓD B q x,
   qs.map fun (q : Mom) => w.map fun (x : Int) => CQ s beta (-u) ΓM B q x,
   qs.map fun (q : Mom) => w.map fun (x : Int) => samplesF (DQ s beta (-u) ΓM B Bl q x) c⟩

/-- all inversions of one momentum succeed -/
def OkBoth {c : Nat} (w : List Int) (beta u : K) (ΓD ΓM : Int → Mat (2 * c) K) (B : Mom → Int → Int → K) (q : Mom) : Prop :=
  OkQ w beta u ΓD B q ∧ OkQ w beta (-u) ΓM B q

open Classical in
theorem rankQ_eq {c : Nat} (s nx ny nz N niw : Nat) (beta u : K) (hb : star beta = beta)
    (G : Nat → Nat → Nat → Int → K) (g : Int → K) (hg : ∀ n : Int, -(N : Int) ≤ n → n < N → g (-n - 1) = star (g n))
    (hG : ∀ i j k, ∀ n : Int, -(N : Int) ≤ n → n < N → G i j k (-n - 1) = star (G i j k n))
    (hfit : niw + (c + s) ≤ N) (ΓD ΓM : Int → Mat (2 * c) K) (qs : List Mom) :
    rankQ s (objOf true niw beta u ΓD) (objOf false niw beta u ΓM) (genOf nx ny nz N niw beta G g) qs =
      if OkL s (wn niw) beta (-u) ΓM (bubLoc beta g) ∧ ∀ q ∈ qs, OkBoth (wn niw) beta u ΓD ΓM (bubQ nx ny nz beta G) q then
        some (mkQ s (wn niw) beta u ΓD ΓM (bubQ nx ny nz beta G) (bubLoc beta g) qs)
      else none := by
  unfold rankQ
  rw [gchi0Q_gen nx ny nz N niw beta hb G g hG (c + s) hfit, Option.bind_some]
  have e1 : ((qs.map fun (q : Mom) => (wn niw).map fun (x : Int) => samplesF (bubQ nx ny nz beta G q x) (c + s)).map fun g' =>
      g'.map fun row => 1 / (genOf nx ny nz N niw beta G g).beta ^ 2 * row.sum) =
      qs.map fun (q : Mom) => (wn niw).map fun (x : Int) => physicalBubble beta (onBox (c + s) (bubQ nx ny nz beta G q x)) := by
    rw [List.map_map]
    apply List.map_congr_left
    intro q _
    simp only [Function.comp, List.map_map]
    apply List.map_congr_left
    intro x _
    exact contract_bubble _ _ _
  have e2 : ((qs.map fun (q : Mom) => (wn niw).map fun (x : Int) => samplesF (bubQ nx ny nz beta G q x) (c + s)).map fun g' =>
      g'.map fun row => cutV row (c : Int)) =
      qs.map fun (q : Mom) => (wn niw).map fun (x : Int) => samplesF (bubQ nx ny nz beta G q x) c := by
    rw [List.map_map]
    apply List.map_congr_left
    intro q _
    simp only [Function.comp, List.map_map]
    apply List.map_congr_left
    intro x _
    exact cutV_samplesF _ _ _ (by omega)
  have e3 : ((qs.map fun (q : Mom) => (wn niw).map fun (x : Int) => samplesF (bubQ nx ny nz beta G q x) c).map fun g' =>
      g'.map fun row => 1 / (genOf nx ny nz N niw beta G g).beta ^ 2 * row.sum) =
      qs.map fun (q : Mom) => (wn niw).map fun (x : Int) => physicalBubble beta (onBox c (bubQ nx ny nz beta G q x)) := by
    rw [List.map_map]
    apply List.map_congr_left
    intro q _
    simp only [Function.comp, List.map_map]
    apply List.map_congr_left
    intro x _
    exact contract_bubble _ _ _
  simp only [e1, e2, e3]
  rw [dcKernel_eq s nx ny nz N niw false beta u hb G g hg hfit, vrgChiQ_eq s true, vrgChiQ_eq s false]
  simp only [urOf, if_true, Bool.false_eq_true, if_false]
  have hN : ∀ p : Prop, (OkL s (wn niw) beta (-u) ΓM (bubLoc beta g) ∧
      (∀ q ∈ qs, OkBoth (wn niw) beta u ΓD ΓM (bubQ nx ny nz beta G) q) → p) → ¬ p →
      (if OkL s (wn niw) beta (-u) ΓM (bubLoc beta g) ∧ ∀ q ∈ qs, OkBoth (wn niw) beta u ΓD ΓM (bubQ nx ny nz beta G) q then
        some (mkQ s (wn niw) beta u ΓD ΓM (bubQ nx ny nz beta G) (bubLoc beta g) qs) else none) = none :=
    fun p h1 h2 => if_neg fun h => h2 (h1 h)
  by_cases hL : OkL s (wn niw) beta (-u) ΓM (bubLoc beta g)
  · rw [if_pos hL, Option.bind_some]
    by_cases hD : ∀ q ∈ qs, OkQ (wn niw) beta u ΓD (bubQ nx ny nz beta G) q
    · rw [if_pos hD, Option.bind_some]
      by_cases hM : ∀ q ∈ qs, OkQ (wn niw) beta (-u) ΓM (bubQ nx ny nz beta G) q
      · rw [if_pos hM, if_pos ⟨hL, fun q hq => ⟨hD q hq, hM q hq⟩⟩]
        rfl
      · rw [if_neg hM, hN _ (fun h q hq => (h.2 q hq).2) hM]
        rfl
    · rw [if_neg hD, hN _ (fun h q hq => (h.2 q hq).1) hD]
      rfl
  · rw [if_neg hL, hN _ (fun h => h.1) hL]
    rfl

/-! ### distribution over the ranks -/

omit [StarRing K] [Field K] in
theorem distribute_spec {α : Type} (R : Nat) (hR : 0 < R) (l : List α) :
    ∃ b : Nat → Nat, (∀ r, r < R → Mpi.mySlice l.length R r = some (b r, b (r + 1))) ∧
      distribute R l = some ((List.range R).map fun (r : Nat) => Py.slice l (b r) (b (r + 1))) ∧
      ((List.range R).map fun (r : Nat) => Py.slice l (b r) (b (r + 1))).flatten = l := by
  obtain ⟨b, h0, hn, hmono, hs⟩ := Mpi.slices_contiguous l.length R hR
  have hd : distribute R l = some ((List.range R).map fun (r : Nat) => Py.slice l (b r) (b (r + 1))) := by
    unfold distribute
    apply mapM_some
    intro r hr
    rw [List.mem_range] at hr
    rw [hs r hr]
    rfl
  refine ⟨b, hs, hd, ?_⟩
  have := Mpi.ranks_flatten (fun x : α => x) l R hR
  simp only [List.map_id'] at this
  unfold distribute at hd
  rw [hd, Option.map_some] at this
  exact Option.some.inj this

omit [StarRing K] [Field K] in
theorem slice_map {α β : Type} (f : α → β) (l : List α) (a b : Int) : Py.slice (l.map f) a b = (Py.slice l a b).map f := by
  apply List.ext_getElem?
  intro k
  rw [List.getElem?_map, Py.slice_get?, Py.slice_get?, List.length_map]
  split
  · rw [List.getElem?_map]
  · rfl

omit [StarRing K] in
theorem collect_mkQ {c : Nat} (s : Nat) (w : List Int) (beta u : K) (ΓD ΓM : Int → Mat (2 * c) K) (B : Mom → Int → Int → K)
    (Bl : Int → Int → K) (parts : List (List Mom)) :
    collect (parts.map fun (qs : List Mom) => mkQ s w beta u ΓD ΓM B Bl qs) = mkQ s w beta u ΓD ΓM B Bl parts.flatten := by
  unfold collect mkQ
  simp only [List.map_map, Function.comp_def, List.map_flatten]

omit [StarRing K] in
theorem allreduceK_table {ι : Type} (nx ny nz n : Nat) (l : List ι) (A : ι → Nat → Nat → Nat → Int → K) :
    allreduceK (nx * ny * nz) (2 * n) (l.map fun (p : ι) => flat3 (table nx ny nz fun i j k => samplesF (A p i j k) n)) =
      flat3 (table nx ny nz fun i j k => samplesF (fun v => (l.map fun (p : ι) => A p i j k v).sum) n) := by
  unfold allreduceK
  induction l with
  | nil => simp only [List.map_nil, List.foldr_nil, List.sum_nil]; exact Sde.zeros_table ..
  | cons a l ih =>
    rw [List.map_cons, List.foldr_cons, ih]
    have := Sde.combine_table (· + ·) nx ny nz n (A a) (fun i j k v => (l.map fun (p : ι) => A p i j k v).sum)
    unfold Sde.combine at this
    rw [this]
    simp only [List.map_cons, List.sum_cons]

/-! ### from the irreducible to all momenta -/

/-- grid points as the program stores them -/
def momOf (q : Nat × Nat × Nat) : Mom := ((q.1 : Int), (q.2.1 : Int), (q.2.2 : Int))

omit [StarRing K] [Field K] in
/-- the irreducible list expanded to the full zone puts at every grid point a grid point with the same label -/
theorem expand_irr (nx ny nz : Nat) (label : Nat → Nat → Nat → Nat) :
    ∃ (irr : List (Nat × Nat × Nat)) (rep : Mom → Mom), irrqList nx ny nz (flat3 (table nx ny nz label)) = some irr ∧
      (∀ {α : Type} (φ : Mom → α), irrk2fbzList (flat3 (table nx ny nz label)) ((irr.map momOf).map φ) =
        some (((qList nx ny nz).map momOf).map fun (q : Mom) => φ (rep q))) ∧
      ∀ i j k, i < nx → j < ny → k < nz → ∃ i' j' k', i' < nx ∧ j' < ny ∧ k' < nz ∧ rep (momOf (i, j, k)) = momOf (i', j', k') ∧
        label i' j' k' = label i j k ∧ (i', j', k') ∈ irr := by
  have hf : flat3 (table nx ny nz label) = (List.range (nx * ny * nz)).map fun l => label (l / nz / ny) (l / nz % ny) (l % nz) :=
    flat3_table ..
  have hq : qList nx ny nz = (List.range (nx * ny * nz)).map fun l => pt ny nz l := flat3_table nx ny nz fun i j k => (i, j, k)
  generalize hF : flat3 (table nx ny nz label) = f at *
  have hfl : f.length = nx * ny * nz := by rw [hf]; simp
  have hql : (qList nx ny nz).length = nx * ny * nz := by rw [hq]; simp
  obtain ⟨irr, h1, h2, h3⟩ := take?_some (qList nx ny nz) (irrkInd f) (by intro i hi; rw [hql, ← hfl]; exact irrkInd_lt f i hi)
  refine ⟨irr, fun m => momOf (pt ny nz (f.idxOf (label m.1.toNat m.2.1.toNat m.2.2.toNat))), h1, ?_, ?_⟩
  · intro α φ
    obtain ⟨r, e1, e2, e3⟩ := irrk2fbzList_value f ((irr.map momOf).map φ) (by rw [List.length_map, List.length_map, h2])
    rw [e1]
    congr 1
    apply List.ext_getElem?
    intro l
    by_cases hl : l < nx * ny * nz
    · have hx : f[l]? = some (label (l / nz / ny) (l / nz % ny) (l % nz)) := by rw [hf]; simp [hl]
      have hmem : label (l / nz / ny) (l / nz % ny) (l % nz) ∈ f := List.mem_of_getElem? hx
      have hmu := (mem_uniq _ f).2 hmem
      have hu := idxOf_get (uniq f) _ hmu
      have hi : (irrkInd f)[(uniq f).idxOf (label (l / nz / ny) (l / nz % ny) (l % nz))]? =
          some (f.idxOf (label (l / nz / ny) (l / nz % ny) (l % nz))) := by
        unfold irrkInd
        rw [List.getElem?_map, hu]
        rfl
      have hlt : f.idxOf (label (l / nz / ny) (l / nz % ny) (l % nz)) < nx * ny * nz := by
        rw [← hfl]; exact List.idxOf_lt_length_of_mem hmem
      rw [e3 l _ hx, List.getElem?_map, List.getElem?_map, h3 _ _ hi, hq, List.getElem?_map, List.getElem?_range hlt,
        List.map_map, List.map_map, List.getElem?_map, List.getElem?_range hl]
      simp only [Option.map_some, Function.comp, momOf, pt, Int.toNat_natCast]
    · rw [List.getElem?_eq_none (by omega), List.getElem?_eq_none (by simp [hql]; omega)]
  · intro i j k hi hj hk
    have hx : f[lin ny nz i j k]? = some (label i j k) := by
      rw [hf, List.getElem?_map, List.getElem?_range (lin_lt nx ny nz i j k hi hj hk)]
      have := lin_div ny nz i j k hj hk
      unfold pt at this
      simp only [Prod.mk.injEq] at this
      simp only [Option.map_some, this.1, this.2.1, this.2.2]
    have hmem : label i j k ∈ f := List.mem_of_getElem? hx
    have hlt : f.idxOf (label i j k) < nx * ny * nz := by rw [← hfl]; exact List.idxOf_lt_length_of_mem hmem
    have hg := idxOf_get f _ hmem
    have hmu := (mem_uniq _ f).2 hmem
    have hu := idxOf_get (uniq f) _ hmu
    have hind : (irrkInd f)[(uniq f).idxOf (label i j k)]? = some (f.idxOf (label i j k)) := by
      unfold irrkInd
      rw [List.getElem?_map, hu]
      rfl
    have hirr := h3 _ _ hind
    rw [hq, List.getElem?_map, List.getElem?_range hlt] at hirr
    rw [hf, List.getElem?_map, ← hf, List.getElem?_range hlt] at hg
    have hyz : 0 < ny ∧ 0 < nz := ⟨by omega, by omega⟩
    refine ⟨_, _, _, ?_, ?_, ?_, rfl, Option.some.inj hg, List.mem_of_getElem? hirr⟩
    · rw [Nat.div_div_eq_div_mul]
      apply Nat.div_lt_of_lt_mul
      rw [Nat.mul_comm nz ny]
      calc f.idxOf (label i j k) < nx * ny * nz := hlt
        _ = ny * nz * nx := by rw [Nat.mul_assoc, Nat.mul_comm]
    · exact Nat.mod_lt _ hyz.1
    · exact Nat.mod_lt _ hyz.2

end DGA.Pipe
