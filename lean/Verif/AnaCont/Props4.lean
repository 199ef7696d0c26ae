import Verif.AnaCont.Props3
import Verif.Bubble.Lemmas
import Verif.Mpi.Flat

/-
  C67: data handling of the class `MaxEnt` (analytic_continuation.py:223-360).
-/

noncomputable section

namespace DGA.Ana

open DGA.Bubble DGA.Mf

abbrev Solver := List ℝ → List ℝ → List ℂ → List ℝ → Option (List ℝ)

theorem slice_full {α : Type} (f : Int → α) (l : List Int) (s m : Nat) (hl : ∀ k, k < m → l[s + k]? = some (k : Int)) (hm : s + m ≤ l.length) :
    Py.slice (l.map f) (s : Int) ((s : Int) + (m : Int)) = (List.range m).map fun (k : Nat) => f k := by
  apply List.ext_getElem?
  intro k
  by_cases hk : k < m
  · rw [Py.slice_get?_in _ _ _ (by omega) (by simp; omega) k (by omega)]
    have e : ((s : Int) + (k : Int)).toNat = s + k := by omega
    rw [e, List.getElem?_map, hl k hk, List.getElem?_map, List.getElem?_range hk]
    rfl
  · have hn : (Py.slice (l.map f) (s : Int) ((s : Int) + (m : Int)))[k]? = none := by
      rw [Py.slice_get?, if_neg]
      rw [List.length_map]
      unfold Py.clip
      split <;> split <;> omega
    rw [hn, List.getElem?_eq_none (by simp; omega)]

/-- C67. Fermionic data: whatever the state of the controller, the part handed to the optimisation are the values at the Matsubara indices
    `0, …, n-1`, `n` the smaller of the requested and the available number, and the controller continues with that `n`. -/
theorem cutMatrix_fermion {α : Type} (c : Cfg) (hm : c.mode = "freq_fermionic") (F : Int → α) (N : Nat) :
    cutMatrix c (samplesF F N) = some ((List.range (min c.nFit N)).map fun (k : Nat) => F k, { c with nFit := min c.nFit N }) := by
  have hl : (samplesF F N).length / 2 = N := by rw [samplesF_length]; omega
  have hmin : (if c.nFit > N then N else c.nFit) = min c.nFit N := by split <;> omega
  simp only [cutMatrix, hl, hmin, hm, if_true]
  rw [samplesF, slice_full F (vn N) N (min c.nFit N) _ _]
  · intro k hk
    simp only [vn, Bool.false_eq_true, if_false]
    rw [Py.arange_get? _ _ _ (by omega)]
    congr 1; omega
  · simp [vn, Py.arange]

/-- C67. Bosonic data: the indices `0, …, n`. -/
theorem cutMatrix_boson {α : Type} (c : Cfg) (hm : c.mode = "freq_bosonic") (F : Int → α) (N : Nat) :
    cutMatrix c (samplesB F N) = some ((List.range (min c.nFit N + 1)).map fun (k : Nat) => F k, { c with nFit := min c.nFit N }) := by
  have hl : (samplesB F N).length / 2 = N := by simp [samplesB, wn, Py.arange]; omega
  have hmin : (if c.nFit > N then N else c.nFit) = min c.nFit N := by split <;> omega
  simp only [cutMatrix, hl, hmin, hm, String.reduceEq, if_true, if_false]
  have : (N : Int) + ((min c.nFit N : Nat) : Int) + 1 = (N : Int) + ((min c.nFit N + 1 : Nat) : Int) := by push_cast; ring
  rw [this, samplesB, slice_full F (wn N) N (min c.nFit N + 1) _ _]
  · intro k hk
    simp only [wn, Bool.false_eq_true, if_false]
    rw [Py.arange_get? _ _ _ (by omega)]
    congr 1; omega
  · simp [wn, Py.arange]; omega

theorem range_arange (n : Nat) : (Py.arange 0 (n : Int)) = (List.range n).map fun (k : Nat) => (k : Int) := by
  apply List.ext_getElem?
  intro k
  by_cases hk : k < n
  · rw [Py.arange_get? _ _ _ (by omega), List.getElem?_map, List.getElem?_range hk]; simp
  · rw [List.getElem?_eq_none (by simp [Py.arange]; omega), List.getElem?_eq_none (by simp; omega)]

/-- C67. The imaginary axis consists of the Matsubara frequencies of these indices, `(2k+1)pi/beta` or `2k pi/beta`. -/
theorem imFreq_value (c : Cfg) :
    (c.mode = "freq_fermionic" → imFreq c = some ((List.range c.nFit).map fun (k : Nat) => Real.pi / c.beta * (2 * (k : ℝ) + 1))) ∧
    (c.mode = "freq_bosonic" → imFreq c = some ((List.range (c.nFit + 1)).map fun (k : Nat) => Real.pi / c.beta * (2 * (k : ℝ)))) := by
  constructor
  · intro h
    simp only [imFreq, h, if_true, vn, add_zero, range_arange, List.map_map]
    simp [Function.comp_def]
  · intro h
    have := range_arange (c.nFit + 1)
    push_cast at this
    simp only [imFreq, h, String.reduceEq, if_true, if_false, wn, add_zero, this, List.map_map]
    simp [Function.comp_def]

/-- C67. For any history of the controller: the optimisation is called with frequencies and data that belong together (same length, same
    Matsubara indices), and afterwards only the fit length has changed, to the smaller of itself and the number of available frequencies. -/
theorem contSingle_aligned (solve : Solver) (c : Cfg) (F : Int → ℂ) (N : Nat) :
    (c.mode = "freq_fermionic" → ∃ model, getModel c (samplesF F N) = some model ∧ contSingle solve c (samplesF F N) =
      ((solve ((List.range (min c.nFit N)).map fun (k : Nat) => Real.pi / c.beta * (2 * (k : ℝ) + 1)) c.w
        ((List.range (min c.nFit N)).map fun (k : Nat) => F k) model).bind fun A => kkt A c.w "fermionic", { c with nFit := min c.nFit N })) ∧
    (c.mode = "freq_bosonic" → ∃ model, getModel c (samplesB F N) = some model ∧ contSingle solve c (samplesB F N) =
      ((solve ((List.range (min c.nFit N + 1)).map fun (k : Nat) => Real.pi / c.beta * (2 * (k : ℝ))) c.w
        ((List.range (min c.nFit N + 1)).map fun (k : Nat) => F k) model).map fun A => A.map fun x => ((x * Real.pi / 2 : ℝ) : ℂ),
        { c with nFit := min c.nFit N })) := by
  constructor
  · intro h
    refine ⟨c.w.map fun _ => 1 / trapzOne c.w, by simp only [getModel, h, if_true], ?_⟩
    have him := (imFreq_value { c with nFit := min c.nFit N }).1 h
    simp only [h] at him
    simp only [contSingle, cutMatrix_fermion c h F N, him, Option.bind_some, getModel, h, if_true]
  · intro h
    have hh : (samplesB F N).head? = some (F (-(N : Int))) := by
      rw [List.head?_eq_getElem?, samplesB, List.getElem?_map]
      simp only [wn, Bool.false_eq_true, if_false]
      rw [Py.arange_get? _ _ _ (by omega)]
      simp
    refine ⟨c.w.map fun _ => 1 * ((F (-(N : Int))).re / trapzOne c.w), by
      simp only [getModel, h, hh, Option.map_some, String.reduceEq, if_true, if_false], ?_⟩
    have him := (imFreq_value { c with nFit := min c.nFit N }).2 h
    simp only [h] at him
    simp only [contSingle, cutMatrix_boson c h F N, him, Option.bind_some, getModel, h, hh, Option.map_some, String.reduceEq, if_true,
      if_false]
    cases solve _ c.w _ _ <;> rfl

theorem cutMatrix_none {α : Type} (c : Cfg) (m : List α) (h : cutMatrix c m = none) : c.mode ≠ "freq_fermionic" ∧ c.mode ≠ "freq_bosonic" := by
  unfold cutMatrix at h
  constructor <;> (intro hc; simp [hc] at h)

/-- after a first matrix the same matrix length leaves the controller unchanged -/
theorem contSingle_cfg (solve : Solver) (c : Cfg) (m : List ℂ) :
    (contSingle solve c m).2 = c ∨ (contSingle solve c m).2 = { c with nFit := min c.nFit (m.length / 2) } := by
  unfold contSingle
  cases h : cutMatrix c m with
  | none => left; rfl
  | some p =>
    right
    have hmin : (if c.nFit > m.length / 2 then m.length / 2 else c.nFit) = min c.nFit (m.length / 2) := by split <;> omega
    unfold cutMatrix at h
    simp only [hmin] at h
    split at h
    · rw [Option.some.injEq] at h; rw [← h]
    · split at h
      · rw [Option.some.injEq] at h; rw [← h]
      · simp at h

theorem contSingle_idem (solve : Solver) (c : Cfg) (m m' : List ℂ) (hl : m.length = m'.length) :
    (contSingle solve (contSingle solve c m).2 m').1 = (contSingle solve c m').1 := by
  rcases contSingle_cfg solve c m with h | h
  · rw [h]
  · rw [h, hl]
    unfold contSingle
    have e : cutMatrix { c with nFit := min c.nFit (m'.length / 2) } m' = cutMatrix c m' := by
      have h1 : (if c.nFit > m'.length / 2 then m'.length / 2 else c.nFit) = min c.nFit (m'.length / 2) := by split <;> omega
      have h2 : (if min c.nFit (m'.length / 2) > m'.length / 2 then m'.length / 2 else min c.nFit (m'.length / 2)) =
          min c.nFit (m'.length / 2) := by split <;> omega
      simp only [cutMatrix, h1, h2]
    rw [e]
    cases cutMatrix c m' <;> rfl

/-- C67. For a list of matrices of equal length every row of the result is the continuation of that matrix alone, with the initial
    controller (zeros where the continuation failed): no row depends on the others. -/
theorem contAll_independent (solve : Solver) (L : Nat) : ∀ (ms : List (List ℂ)) (c : Cfg), (∀ m ∈ ms, m.length = L) →
    (contAll solve c ms).1 = ms.map fun m => (contSingle solve c m).1.getD (c.w.map fun _ => 0)
  | [], _, _ => rfl
  | m :: ms, c, h => by
    have ih := contAll_independent solve L ms (contSingle solve c m).2 fun m hm => h m (by simp [hm])
    have hw : (contSingle solve c m).2.w = c.w := by rcases contSingle_cfg solve c m with e | e <;> rw [e]
    simp only [contAll, List.map_cons, List.cons.injEq, true_and]
    rw [ih, hw]
    apply List.map_congr_left
    intro m' hm'
    rw [contSingle_idem solve c m m' (by rw [h m (by simp), h m' (by simp [hm'])])]

/-- the element type a rank with these rows returns: complex if and only if the kernel is fermionic and one of its rows could be continued -/
theorem contIsComplex_value (solve : Solver) (L : Nat) : ∀ (ms : List (List ℂ)) (c : Cfg), (∀ m ∈ ms, m.length = L) →
    (contIsComplex solve c ms = true ↔ c.mode = "freq_fermionic" ∧ ∃ m ∈ ms, (contSingle solve c m).1.isSome)
  | [], _, _ => by simp [contIsComplex]
  | m :: ms, c, h => by
    have ih := contIsComplex_value solve L ms (contSingle solve c m).2 fun m hm => h m (by simp [hm])
    have hw : (contSingle solve c m).2.mode = c.mode := by rcases contSingle_cfg solve c m with e | e <;> rw [e]
    have hi : ∀ m' ∈ ms, (contSingle solve (contSingle solve c m).2 m').1 = (contSingle solve c m').1 :=
      fun m' hm' => contSingle_idem solve c m m' (by rw [h m (by simp), h m' (by simp [hm'])])
    simp only [contIsComplex, Bool.or_eq_true, Bool.and_eq_true, decide_eq_true_eq, ih, hw, List.mem_cons, exists_eq_or_imp]
    constructor
    · rintro (⟨h1, h2⟩ | ⟨h1, m', h2, h3⟩)
      · exact ⟨h1, Or.inl h2⟩
      · exact ⟨h1, Or.inr ⟨m', h2, by rw [← hi m' h2]; exact h3⟩⟩
    · rintro ⟨h1, h2 | ⟨m', h2, h3⟩⟩
      · exact Or.inl ⟨h1, h2⟩
      · exact Or.inr ⟨h1, m', h2, by rw [hi m' h2]; exact h3⟩

/-- all ranks return the same element type: a single rank, a bosonic kernel, every row could be continued, or none could -/
def OneType (solve : Solver) (c : Cfg) (R : Nat) (mat : List (List ℂ)) : Prop :=
  R = 1 ∨ c.mode = "freq_bosonic" ∨ (∀ m ∈ mat, (contSingle solve c m).1.isSome) ∨ ∀ m ∈ mat, (contSingle solve c m).1 = none

/-- C67. The continuation distributed over ranks, if it returns, equals the serial one. -/
theorem mpiCont_serial (solve : Solver) (c : Cfg) (R : Nat) (hR : 0 < R) (L : Nat) (mat : List (List ℂ)) (h : ∀ m ∈ mat, m.length = L) (x : List (List ℂ))
    (hx : mpiCont solve c R mat = some x) : R ≤ mat.length ∧ x = (contAll solve c mat).1 := by
  obtain ⟨bs, h1, h2, -, h3⟩ := Mpi.blocks mat R hR
  unfold mpiCont at hx
  rw [h1] at hx
  simp only [Option.bind_some] at hx
  split at hx
  · rename_i hc
    refine ⟨h3.1 hc.1, ?_⟩
    have hb : ∀ b ∈ bs, (contAll solve c b).1 = b.map fun m => (contSingle solve c m).1.getD (c.w.map fun _ => 0) := by
      intro b hb
      apply contAll_independent solve L
      intro m hm
      apply h
      rw [← h2]
      exact List.mem_flatten.2 ⟨b, hb, hm⟩
    rw [contAll_independent solve L mat c h, ← Option.some.inj hx, List.map_congr_left hb, ← List.map_flatten, h2]
  · cases hx

/-- C67. The continuation distributed over at most as many ranks as there are rows equals the serial one, if all ranks return the same element type. -/
theorem mpiCont_eq_serial (solve : Solver) (c : Cfg) (R : Nat) (hR : 0 < R) (L : Nat) (mat : List (List ℂ)) (h : ∀ m ∈ mat, m.length = L)
    (hle : R ≤ mat.length) (ht : OneType solve c R mat) : mpiCont solve c R mat = some (contAll solve c mat).1 := by
  obtain ⟨bs, h1, h2, h4, h3⟩ := Mpi.blocks mat R hR
  have hm : ∀ b ∈ bs, ∀ m ∈ b, m ∈ mat := by
    intro b hb m hm
    rw [← h2]
    exact List.mem_flatten.2 ⟨b, hb, hm⟩
  have hcond : bs.headD [] ≠ [] ∧ ∀ m ∈ bs, m ≠ [] → contIsComplex solve c m = contIsComplex solve c (bs.headD []) := by
    refine ⟨h3.2 hle, fun b hb hne => ?_⟩
    have hmem : bs.headD [] ∈ bs := by
      cases bs with
      | nil => simp at hb
      | cons x xs => simp
    have hv : ∀ b ∈ bs, (contIsComplex solve c b = true ↔ c.mode = "freq_fermionic" ∧ ∃ m ∈ b, (contSingle solve c m).1.isSome) :=
      fun b hb => contIsComplex_value solve L b c fun m hm' => h m (hm b hb m hm')
    rw [Bool.eq_iff_iff, hv b hb, hv _ hmem]
    rcases ht with rfl | hbo | hs | hn
    · obtain ⟨x, rfl⟩ := List.length_eq_one_iff.1 h4
      simp only [List.mem_singleton] at hb
      rw [hb]
      rfl
    · rw [hbo]; simp
    · obtain ⟨m, hm1⟩ := List.exists_mem_of_ne_nil _ hne
      obtain ⟨m', hm2⟩ := List.exists_mem_of_ne_nil _ (h3.2 hle)
      exact and_congr_right fun _ => ⟨fun _ => ⟨m', hm2, hs m' (hm _ hmem m' hm2)⟩, fun _ => ⟨m, hm1, hs m (hm b hb m hm1)⟩⟩
    · refine and_congr_right fun _ => ⟨?_, ?_⟩
      · rintro ⟨m, hm1, hm2⟩
        rw [hn m (hm b hb m hm1)] at hm2
        cases hm2
      · rintro ⟨m, hm1, hm2⟩
        rw [hn m (hm _ hmem m hm1)] at hm2
        cases hm2
  have : mpiCont solve c R mat = some (bs.map fun m => (contAll solve c m).1).flatten := by
    unfold mpiCont
    rw [h1]
    simp only [Option.bind_some]
    rw [if_pos hcond]
  rw [this]
  exact congrArg some (mpiCont_serial solve c R hR L mat h _ this).2

/-- C67 (defect). With more ranks than rows the distributed continuation fails: rank 0 has no row, and its empty array has one axis only. -/
theorem mpiCont_few_rows (solve : Solver) (c : Cfg) (R : Nat) (mat : List (List ℂ)) (h : mat.length < R) : mpiCont solve c R mat = none := by
  obtain ⟨bs, h1, -, -, h3⟩ := Mpi.blocks mat R (by omega)
  unfold mpiCont
  rw [h1]
  simp only [Option.bind_some]
  rw [if_neg fun hc => absurd (h3.1 hc.1) (by omega)]

theorem trapzOne_value (wmin wmax : ℝ) (w : List ℝ) (n : Nat) (h : IsMesh wmin wmax n w) : trapzOne w = wmax - wmin := by
  have key : ∀ (w : List ℝ) (a b : ℝ), w.head? = some a → w.getLast? = some b → trapzR (w.map fun _ => 1) w = b - a := by
    intro w
    induction w with
    | nil => intro a b h; simp at h
    | cons x w ih =>
      intro a b ha hb
      cases w with
      | nil =>
        simp at ha hb; subst ha; subst hb; simp [trapzR]
      | cons y w =>
        simp only [List.head?_cons, Option.some.injEq] at ha
        subst ha
        have := ih y b rfl (by simpa using hb)
        simp only [List.map_cons] at this
        simp only [List.map_cons, trapzR, this]; ring
  unfold trapzOne
  have e : (w.map fun _ => (1 : ℂ)) = (w.map fun _ => (1 : ℝ)).map fun z => ((z : ℝ) : ℂ) := by rw [List.map_map]; simp [Function.comp_def]
  rw [e, trapz_ofReal, Complex.ofReal_re]
  exact key w wmin wmax h.2.1 h.2.2.1

theorem trapzR_smul (k : ℝ) : ∀ (w : List ℝ), trapzR (w.map fun _ => k) w = k * trapzR (w.map fun _ => 1) w
  | [] => by simp [trapzR]
  | [_] => by simp [trapzR]
  | _ :: y :: w => by
    have := trapzR_smul k (y :: w)
    simp only [List.map_cons] at this
    simp only [List.map_cons, trapzR, this]; ring

theorem trapzR_one (w : List ℝ) : trapzR (w.map fun _ => 1) w = trapzOne w := by
  unfold trapzOne
  have e : (w.map fun _ => (1 : ℂ)) = (w.map fun _ => (1 : ℝ)).map fun z => ((z : ℝ) : ℂ) := by rw [List.map_map]; simp [Function.comp_def]
  rw [e, trapz_ofReal, Complex.ofReal_re]

/-- C67. The default model of a fermionic continuation integrates to one on every mesh. -/
theorem model_fermion_weight (c : Cfg) (hm : c.mode = "freq_fermionic") (wmin wmax : ℝ) (hw : wmin < wmax) (n : Nat)
    (h : IsMesh wmin wmax n c.w) (mat : List ℂ) : ∃ m, getModel c mat = some m ∧ trapzR m c.w = 1 := by
  refine ⟨c.w.map fun _ => 1 / trapzOne c.w, by simp only [getModel, hm, if_true], ?_⟩
  rw [trapzR_smul, trapzR_one, trapzOne_value wmin wmax c.w n h, one_div_mul_cancel]
  linarith

/-- C67 (defect). The default model of a bosonic continuation integrates to the value at the *most negative* Matsubara frequency, not to the
    static value at index zero, which is the total weight of the spectrum sought (`boson_properties`). -/
theorem model_boson_weight (c : Cfg) (hm : c.mode = "freq_bosonic") (wmin wmax : ℝ) (hw : wmin < wmax) (n : Nat)
    (h : IsMesh wmin wmax n c.w) (F : Int → ℂ) (N : Nat) :
    ∃ m, getModel c (samplesB F N) = some m ∧ trapzR m c.w = (F (-(N : Int))).re := by
  have hh : (samplesB F N).head? = some (F (-(N : Int))) := by
    rw [List.head?_eq_getElem?, samplesB, List.getElem?_map]
    simp only [wn, Bool.false_eq_true, if_false]
    rw [Py.arange_get? _ _ _ (by omega)]
    simp
  refine ⟨c.w.map fun _ => 1 * ((F (-(N : Int))).re / trapzOne c.w), by
    simp only [getModel, hm, String.reduceEq, if_true, if_false, hh, Option.map_some], ?_⟩
  have hne : wmax - wmin ≠ 0 := by linarith
  rw [trapzR_smul, trapzR_one, trapzOne_value wmin wmax c.w n h]
  field_simp

theorem model_boson_not_static : ∃ (c : Cfg) (F : Int → ℂ) (N : Nat) (m : List ℝ), c.mode = "freq_bosonic" ∧
    (∀ k, F (-k) = F k) ∧ getModel c (samplesB F N) = some m ∧ trapzR m c.w ≠ (F 0).re := by
  let F : Int → ℂ := fun k => if k = 0 then 1 else 0
  let c : Cfg := ⟨"freq_bosonic", 1, 1, [0, 1], 0, 0⟩
  have hmesh : IsMesh 0 1 2 c.w := ⟨rfl, rfl, rfl, by simp [c]⟩
  obtain ⟨m, h1, h2⟩ := model_boson_weight c rfl 0 1 one_pos 2 hmesh F 1
  refine ⟨c, F, 1, m, rfl, ?_, h1, ?_⟩
  · intro k; simp [F]
  · rw [h2]; simp [F]

/-- C67. Construction: only the two kernels are accepted; the mesh spans the (for bosons: non-negative) window; a bosonic controller has
    no preblur unless forced. -/
theorem initMaxEnt_valid (mode : String) (beta : ℝ) (nFit nwr : Nat) (wmin wmax bw : ℝ) (mesh : String) (cut : ℝ) (fp : Bool)
    (hmesh : mesh ∈ ["lorentzian", "hyperbolic", "linear", "tan"]) (hn : 2 ≤ nwr) (h0 : 0 < cut) (h1 : cut < 1 / 2)
    (hw : wmin < wmax) (hw0 : 0 < wmax) :
    (mode ≠ "freq_fermionic" ∧ mode ≠ "freq_bosonic" → initMaxEnt mode beta nFit nwr wmin wmax bw mesh (some cut) fp = none) ∧
    (mode = "freq_fermionic" → ∃ c, initMaxEnt mode beta nFit nwr wmin wmax bw mesh (some cut) fp = some c ∧
      c.mode = mode ∧ c.beta = beta ∧ c.nFit = nFit ∧ c.bw = bw ∧ IsMesh wmin wmax nwr c.w) ∧
    (mode = "freq_bosonic" → ∃ c, initMaxEnt mode beta nFit nwr wmin wmax bw mesh (some cut) fp = some c ∧
      c.mode = mode ∧ c.beta = beta ∧ c.nFit = nFit ∧ (fp = false → c.bw = 0) ∧ IsMesh (max wmin 0) wmax nwr c.w) := by
  refine ⟨fun h => by simp [initMaxEnt, h], ?_, ?_⟩
  · rintro rfl
    obtain ⟨m, hm1, hm2⟩ := mesh_valid mesh hmesh wmin wmax hw nwr hn cut h0 h1
    exact ⟨⟨_, beta, nFit, m, wmin, bw⟩, by simp [initMaxEnt, hm1], rfl, rfl, rfl, rfl, hm2⟩
  · rintro rfl
    have hmax : (if True ∧ wmin < 0 then 0 else wmin) = max wmin 0 := by
      by_cases h : wmin < 0
      · rw [if_pos ⟨trivial, h⟩, max_eq_right h.le]
      · rw [if_neg (by simp [h]), max_eq_left (by linarith)]
    obtain ⟨m, hm1, hm2⟩ := mesh_valid mesh hmesh (max wmin 0) wmax (max_lt hw hw0) nwr hn cut h0 h1
    refine ⟨_, by simp only [initMaxEnt, hmax, or_true, if_true, hm1, Option.map_some]; rfl, rfl, rfl, rfl, ?_, hm2⟩
    intro hf
    by_cases hb : bw = 0 <;> simp [hb, hf]

/-- C67 (defect). The element type of the array a rank returns depends on whether any of its continuations succeeded: a rank on which all
    fail returns a real array while the others return complex ones, so the ranks call `Gatherv` with different types. -/
theorem rank_types_differ : ∃ (solve : Solver) (c : Cfg) (m1 m2 : List ℂ), c.mode = "freq_fermionic" ∧ m1.length = m2.length ∧
    Mpi.mySlice 2 2 0 = some (0, 1) ∧ Mpi.mySlice 2 2 1 = some (1, 2) ∧
    contIsComplex solve c (Py.slice [m1, m2] 0 1) = true ∧ contIsComplex solve c (Py.slice [m1, m2] 1 2) = false ∧ mpiCont solve c 2 [m1, m2] = none := by
  classical
  have key : ∃ (solve : Solver) (c : Cfg) (m1 m2 : List ℂ), c.mode = "freq_fermionic" ∧ m1.length = m2.length ∧
      Mpi.mySlice 2 2 0 = some (0, 1) ∧ Mpi.mySlice 2 2 1 = some (1, 2) ∧
      contIsComplex solve c (Py.slice [m1, m2] 0 1) = true ∧ contIsComplex solve c (Py.slice [m1, m2] 1 2) = false := ?_
  · obtain ⟨solve, c, m1, m2, h1, h2, h3, h4, h5, h6⟩ := key
    refine ⟨solve, c, m1, m2, h1, h2, h3, h4, h5, h6, ?_⟩
    have e : ((List.range 2).mapM fun r => (Mpi.mySlice [m1, m2].length 2 r).map fun (p : Nat × Nat) => Py.slice [m1, m2] p.1 p.2) =
        some [Py.slice [m1, m2] 0 1, Py.slice [m1, m2] 1 2] := by
      simp [List.range_succ, h3, h4]
    unfold mpiCont
    rw [e]
    simp only [Option.bind_some]
    rw [if_neg]
    rintro ⟨-, hc⟩
    have := hc (Py.slice [m1, m2] 1 2) (by simp) (by simp [Py.slice, Py.clip])
    rw [h6, List.headD_cons, h5] at this
    cases this
  refine ⟨fun _ w d _ => if d = [1] then some (w.map fun _ => 0) else none, ⟨"freq_fermionic", 1, 5, [0, 1], 0, 0⟩, [0, 1], [0, 2], rfl, rfl,
    by decide, by decide, ?_, ?_⟩
  · simp [contIsComplex, contSingle, cutMatrix, imFreq, getModel, Py.slice, Py.clip, kkt, cellWidths, midpoints, kktTerm, List.range_succ]
  · simp [contIsComplex, contSingle, cutMatrix, imFreq, getModel, Py.slice, Py.clip]

example : ∃ (c : Cfg), c.mode = "freq_fermionic" ∧ c.nFit = 20 ∧ IsMesh (-15) 15 501 c.w ∧ ∀ m ∈ [[(1 : ℂ), 2], [3, 4]], m.length = 2 := by
  obtain ⟨c, h1, h2, h3, h4, h5, h6⟩ := (initMaxEnt_valid "freq_fermionic" 10 20 501 (-15) 15 0.01 "tan" 0.04 false (by simp) (by norm_num)
    (by norm_num) (by norm_num) (by norm_num) (by norm_num)).2.1 rfl
  exact ⟨c, h2, h4, h6, by simp⟩

example (solve : Solver) : mpiCont solve ⟨"freq_bosonic", 1, 5, [0, 1], 0, 0⟩ 2 [[1, 2], [3, 4], [5, 6]] =
    some (contAll solve ⟨"freq_bosonic", 1, 5, [0, 1], 0, 0⟩ [[1, 2], [3, 4], [5, 6]]).1 :=
  mpiCont_eq_serial _ _ 2 (by norm_num) 2 _ (by simp) (by simp) (Or.inr (Or.inl rfl))

example (solve : Solver) (c : Cfg) : mpiCont solve c 4 [[1, 2], [3, 4], [5, 6]] = none := mpiCont_few_rows _ _ _ _ (by simp)

end DGA.Ana
