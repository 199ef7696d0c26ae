/-
  Closed form of the lattice part for every number of ranks.
-/
import Verif.Pipeline.Ranks

namespace DGA.Pipe

open DGA.Mf DGA.Bz DGA.Bubble DGA.Fp

variable {K : Type} [Field K] [StarRing K]

/-- kernel of the lattice equation of motion at a momentum, program form -/
noncomputable def kerQ {c : Nat} (s : Nat) (beta u : K) (lamD lamM : Option K) (ΓD ΓM : Int → Mat (2 * c) K) (B : Mom → Int → Int → K)
    (Bl : Int → Int → K) (q : Mom) (x v : Int) : K :=
  u / 2 * (1 - (1 - u * corrected lamD (CQ s beta u ΓD B q x)) * VQ beta u ΓD B q x v) +
    3 * (-u / 2 * (1 - (1 - -u * corrected lamM (CQ s beta (-u) ΓM B q x)) * VQ beta (-u) ΓM B q x v)) -
    DQ s beta (-u) ΓM B Bl q x v

/-- five momentum-resolved arrays given by functions -/
def mk5 (c : Nat) (w : List Int) (VD VM : Mom → Int → Int → K) (CD CM : Mom → Int → K) (D : Mom → Int → Int → K) (qs : List Mom) : QData K :=
  ⟨qs.map fun (q : Mom) => w.map fun (x : Int) => samplesF (VD q x) c, qs.map fun (q : Mom) => w.map fun (x : Int) => samplesF (VM q x) c,
   qs.map fun (q : Mom) => w.map fun (x : Int) => CD q x, qs.map fun (q : Mom) => w.map fun (x : Int) => CM q x,
   qs.map fun (q : Mom) => w.map fun (x : Int) => samplesF (D q x) c⟩

omit [StarRing K] in
/-- the second distribution, the lattice equation of motion on every rank and the reduction -/
theorem eom_ranks {c : Nat} (nx ny nz N niw : Nat) (beta u : K) (G : Nat → Nat → Nat → Int → K) (hfit : niw + c ≤ N)
    (VD VM : Mom → Int → Int → K) (CD CM : Mom → Int → K) (D : Mom → Int → Int → K) (R : Nat) (hR : 0 < R) (qs : List Mom) :
    ((distribute R qs).bind fun qparts =>
      ((List.range R).mapM fun r => (qparts[r]?).bind fun qr => (scatterQ qs.length R r (mk5 c (wn niw) VD VM CD CM D qs)).bind fun dr =>
        Sde.sdeFullQ dr.vrgD dr.vrgM c dr.chiD dr.chiM dr.dc (table nx ny nz fun i j k => samplesF (G i j k) N) (nx * ny * nz) beta u qr
          (wn niw) (nx * ny * nz) 0).map fun l => allreduceK (nx * ny * nz) (2 * c) l) =
      some (flat3 (table nx ny nz fun i j k => samplesF (fun v => 1 / (((nx * ny * nz : Nat) : K) * beta) *
        (qs.map fun (q : Mom) => ∑ x ∈ Finset.Icc (-(niw : Int)) niw,
          (Sde.kerSpec u VD CD q x v + 3 * Sde.kerSpec (-u) VM CM q x v - D q x v) *
            G (shiftG nx i q.1) (shiftG ny j q.2.1) (shiftG nz k q.2.2) (v - x)).sum) c)) := by
  obtain ⟨b, hbs, hd, hfl⟩ := distribute_spec R hR qs
  rw [hd, Option.bind_some]
  have hmax : maxAbs (wn niw) = niw := maxAbs_eq _ _ (by intro x hx; rw [mem_wn] at hx; omega)
    ⟨niw, (mem_wn _ _).2 (by omega), by omega⟩
  have key : ∀ r ∈ List.range R, ((((List.range R).map fun (r : Nat) => Py.slice qs (b r) (b (r + 1)))[r]?).bind fun qr =>
      (scatterQ qs.length R r (mk5 c (wn niw) VD VM CD CM D qs)).bind fun dr =>
        Sde.sdeFullQ dr.vrgD dr.vrgM c dr.chiD dr.chiM dr.dc (table nx ny nz fun i j k => samplesF (G i j k) N) (nx * ny * nz) beta u qr
          (wn niw) (nx * ny * nz) 0) =
      some (flat3 (table nx ny nz fun i j k => samplesF (fun v => 1 / (((nx * ny * nz : Nat) : K) * beta) *
        ((Py.slice qs (b r) (b (r + 1))).map fun (q : Mom) => ∑ x ∈ Finset.Icc (-(niw : Int)) niw,
          (Sde.kerSpec u VD CD q x v + 3 * Sde.kerSpec (-u) VM CM q x v - D q x v) *
            G (shiftG nx i q.1) (shiftG ny j q.2.1) (shiftG nz k q.2.2) (v - x)).sum) c)) := by
    intro r hr
    rw [List.mem_range] at hr
    rw [List.getElem?_map, List.getElem?_range hr, Option.map_some, Option.bind_some]
    unfold scatterQ
    rw [hbs r hr, Option.map_some, Option.bind_some]
    simp only [mk5, slice_map]
    rw [Sde.sdeFullQ_value nx ny nz c 0 N G VD VM CD CM D beta u _ (wn niw) (nx * ny * nz) (by rw [hmax]; omega)]
    congr 3
    funext i j k
    apply samplesF_congr
    intro v h1 h2
    rw [if_pos ⟨by omega, by omega⟩]
    congr 2
    apply List.map_congr_left
    intro q _
    unfold Sde.qTerm
    rw [sum_wn]
    rfl
  rw [mapM_some (List.range R) _ _ key, Option.map_some, allreduceK_table]
  congr 3
  funext i j k
  apply samplesF_congr
  intro v _ _
  have : ∀ (T : Mom → K) (a : K), ((List.range R).map fun (r : Nat) => a * ((Py.slice qs (b r) (b (r + 1))).map T).sum).sum =
      a * (qs.map T).sum := by
    intro T a
    rw [List.sum_map_mul_left]
    congr 1
    conv_rhs => rw [← hfl]
    rw [List.map_flatten, List.sum_flatten, List.map_map, List.map_map]
    rfl
  exact this _ _

omit [StarRing K] in
theorem qList_sum (nx ny nz : Nat) (T : Mom → K) :
    (((qList nx ny nz).map momOf).map T).sum = kSum nx ny nz fun q1 q2 q3 => T (momOf (q1, q2, q3)) := by
  rw [← kSum_flat3, flat3_table, show qList nx ny nz = (List.range (nx * ny * nz)).map fun l => pt ny nz l from
    flat3_table nx ny nz fun i j k => (i, j, k), List.map_map, List.map_map]
  rfl

open Classical in
theorem latticeSde_eq {c : Nat} (s nx ny nz N niw : Nat) (beta u : K) (hb : star beta = beta)
    (G : Nat → Nat → Nat → Int → K) (g : Int → K) (hg : ∀ n : Int, -(N : Int) ≤ n → n < N → g (-n - 1) = star (g n))
    (hG : ∀ i j k, ∀ n : Int, -(N : Int) ≤ n → n < N → G i j k (-n - 1) = star (G i j k n))
    (hfit : niw + (c + s) ≤ N) (ΓD ΓM : Int → Mat (2 * c) K) (label : Nat → Nat → Nat → Nat) (lamD lamM : Option K) :
    ∃ (irr : List Mom) (rep : Mom → Mom),
      (∀ i j k, i < nx → j < ny → k < nz → ∃ i' j' k', i' < nx ∧ j' < ny ∧ k' < nz ∧ rep (momOf (i, j, k)) = momOf (i', j', k') ∧
        label i' j' k' = label i j k ∧ momOf (i', j', k') ∈ irr) ∧
      ∀ R, 0 < R → latticeSde s R nx ny nz (flat3 (table nx ny nz label)) (objOf true niw beta u ΓD) (objOf false niw beta u ΓM)
          (genOf nx ny nz N niw beta G g) lamD lamM u =
        if OkL s (wn niw) beta (-u) ΓM (bubLoc beta g) ∧ ∀ q ∈ irr, OkBoth (wn niw) beta u ΓD ΓM (bubQ nx ny nz beta G) q then
          some (flat3 (table nx ny nz fun i j k => samplesF (fun v => 1 / (((nx * ny * nz : Nat) : K) * beta) *
            kSum nx ny nz fun q1 q2 q3 => ∑ x ∈ Finset.Icc (-(niw : Int)) niw,
              kerQ s beta u lamD lamM ΓD ΓM (bubQ nx ny nz beta G) (bubLoc beta g) (rep (momOf (q1, q2, q3))) x v *
                G (shiftG nx i q1) (shiftG ny j q2) (shiftG nz k q3) (v - x)) c))
        else none := by
  obtain ⟨irr, rep, h1, h2, h3⟩ := expand_irr nx ny nz label
  refine ⟨irr.map momOf, rep, ?_, ?_⟩
  · intro i j k hi hj hk
    obtain ⟨i', j', k', a1, a2, a3, a4, a5, a6⟩ := h3 i j k hi hj hk
    exact ⟨i', j', k', a1, a2, a3, a4, a5, List.mem_map.2 ⟨_, a6, rfl⟩⟩
  · intro R hR
    unfold latticeSde
    rw [h1, Option.bind_some]
    obtain ⟨b, hbs, hd, hfl⟩ := distribute_spec R hR (irr.map momOf)
    rw [show (irr.map fun (q : Nat × Nat × Nat) => (((q.1 : Int), (q.2.1 : Int), (q.2.2 : Int)) : Mom)) = irr.map momOf from rfl, hd,
      Option.bind_some]
    generalize hparts : (List.range R).map (fun (r : Nat) => Py.slice (irr.map momOf) (b r) (b (r + 1))) = parts at *
    have hpne : parts ≠ [] := by
      rw [← hparts]
      intro h
      have := congrArg List.length h
      simp at this
      omega
    simp only [rankQ_eq s nx ny nz N niw beta u hb G g hg hG hfit ΓD ΓM]
    rw [mapM_if _ _ ⟨[], [], [], [], []⟩]
    by_cases hok : OkL s (wn niw) beta (-u) ΓM (bubLoc beta g) ∧ ∀ q ∈ irr.map momOf, OkBoth (wn niw) beta u ΓD ΓM (bubQ nx ny nz beta G) q
    · have hall : ∀ qs ∈ parts, OkL s (wn niw) beta (-u) ΓM (bubLoc beta g) ∧ ∀ q ∈ qs, OkBoth (wn niw) beta u ΓD ΓM (bubQ nx ny nz beta G) q := by
        intro qs hqs
        refine ⟨hok.1, fun q hq => hok.2 q ?_⟩
        rw [← hfl]
        exact List.mem_flatten.2 ⟨qs, hqs, hq⟩
      rw [if_pos (by intro qs hqs; rw [if_pos (hall qs hqs)]; rfl), Option.bind_some, if_pos hok]
      have e : (parts.map fun qs => (if OkL s (wn niw) beta (-u) ΓM (bubLoc beta g) ∧
          ∀ q ∈ qs, OkBoth (wn niw) beta u ΓD ΓM (bubQ nx ny nz beta G) q then
            some (mkQ s (wn niw) beta u ΓD ΓM (bubQ nx ny nz beta G) (bubLoc beta g) qs) else none).getD ⟨[], [], [], [], []⟩) =
          parts.map fun (qs : List Mom) => mkQ s (wn niw) beta u ΓD ΓM (bubQ nx ny nz beta G) (bubLoc beta g) qs := by
        apply List.map_congr_left
        intro qs hqs
        rw [if_pos (hall qs hqs)]
        rfl
      rw [e, collect_mkQ, hfl]
      have hfbz : toFbz (flat3 (table nx ny nz label)) (mkQ s (wn niw) beta u ΓD ΓM (bubQ nx ny nz beta G) (bubLoc beta g) (irr.map momOf)) =
          some (mk5 c (wn niw) (fun q => VQ beta u ΓD (bubQ nx ny nz beta G) (rep q)) (fun q => VQ beta (-u) ΓM (bubQ nx ny nz beta G) (rep q))
            (fun q => CQ s beta u ΓD (bubQ nx ny nz beta G) (rep q)) (fun q => CQ s beta (-u) ΓM (bubQ nx ny nz beta G) (rep q))
            (fun q => DQ s beta (-u) ΓM (bubQ nx ny nz beta G) (bubLoc beta g) (rep q)) ((qList nx ny nz).map momOf)) := by
        unfold toFbz mkQ
        simp only [h2, Option.bind_some, Option.map_some]
        rfl
      rw [hfbz, Option.bind_some]
      have hcorr : ∀ (lam : Option K) (C : Mom → Int → K) (qs : List Mom),
          ((qs.map fun (q : Mom) => (wn niw).map fun (x : Int) => C q x).map fun r => r.map (corrected lam)) =
            qs.map fun (q : Mom) => (wn niw).map fun (x : Int) => corrected lam (C q x) := by
        intro lam C qs
        simp only [List.map_map, Function.comp_def]
      have := eom_ranks (c := c) nx ny nz N niw beta u G (by omega) (fun q => VQ beta u ΓD (bubQ nx ny nz beta G) (rep q))
        (fun q => VQ beta (-u) ΓM (bubQ nx ny nz beta G) (rep q))
        (fun q x => corrected lamD (CQ s beta u ΓD (bubQ nx ny nz beta G) (rep q) x))
        (fun q x => corrected lamM (CQ s beta (-u) ΓM (bubQ nx ny nz beta G) (rep q) x))
        (fun q => DQ s beta (-u) ΓM (bubQ nx ny nz beta G) (bubLoc beta g) (rep q)) R hR ((qList nx ny nz).map momOf)
      simp only [mk5, hcorr, genOf] at this ⊢
      refine Eq.trans this ?_
      congr 3
      funext i j k
      apply samplesF_congr
      intro v _ _
      congr 1
      rw [qList_sum]
      rfl
    · rw [if_neg hok, if_neg]
      · rfl
      · intro h
        apply hok
        have h' : ∀ qs ∈ parts, OkL s (wn niw) beta (-u) ΓM (bubLoc beta g) ∧ ∀ q ∈ qs, OkBoth (wn niw) beta u ΓD ΓM (bubQ nx ny nz beta G) q := by
          intro qs hqs
          have := h qs hqs
          by_contra hc
          rw [if_neg hc] at this
          cases this
        obtain ⟨qs0, hqs0⟩ := List.exists_mem_of_ne_nil _ hpne
        refine ⟨(h' qs0 hqs0).1, ?_⟩
        intro q hq
        rw [← hfl, List.mem_flatten] at hq
        obtain ⟨qs, hqs, hq⟩ := hq
        exact (h' qs hqs).2 q hq

end DGA.Pipe
