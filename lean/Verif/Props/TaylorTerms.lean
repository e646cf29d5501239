import Verif.Lemmas.Terms6

/-!
# C52, C53, C54, C59: the terms of a Taylor expansion and the derivative array
-/

namespace LRVB

noncomputable section

open scoped ContDiff
open Classical

/-! ### C59 -/

/-- **C59** Let `f(x1, x2)` compute `G(x1, x2)`, with `G` smooth.  The generated array has `order`
rows of `order + 1` entries, and entry `[i][j]`, called with `v1 ... vi` and then `w1 ... wj`, returns
the derivative of order `i + j` of `G` in the directions `(v1, 0) ... (vi, 0), (0, w1) ... (0, wj)`. -/
theorem C59_derivative_array {n m p : ℕ} (f : DFun)
    (G : (Fin n → ℝ) × (Fin m → ℝ) → (Fin p → ℝ)) (hG : ContDiff ℝ ∞ G)
    (hf : ∀ x1 x2 : List ℝ, x1.length = n → x2.length = m →
      f x1 x2 [] = .ok (List.ofFn (G (toVec n x1, toVec m x2)))) (order : ℕ) (horder : 0 < order) :
    ∃ arr, generateArray f order = .ok arr ∧ arr.length = order ∧
      ∀ i, ∀ row, arr[i]? = some row → row.length = order + 1 ∧ ∀ j, ∀ entry, row[j]? = some entry →
        ∀ x1 x2 : List ℝ, x1.length = n → x2.length = m →
        ∀ vs ws : List (List ℝ), vs.length = i → ws.length = j →
          (∀ v ∈ vs, v.length = n) → (∀ w ∈ ws, w.length = m) →
          let dirs : List ((Fin n → ℝ) × (Fin m → ℝ)) :=
            vs.map (fun v => (toVec n v, 0)) ++ ws.map (fun w => (0, toVec m w))
          entry x1 x2 (vs ++ ws) = .ok (List.ofFn
            (iteratedFDeriv ℝ dirs.length G (toVec n x1, toVec m x2) dirs.get)) := by
  refine ⟨_, generateArray_eq f horder, by simp, ?_⟩
  intro i row hrow
  simp only [List.getElem?_map, Option.map_eq_some_iff] at hrow
  obtain ⟨i', hi', rfl⟩ := hrow
  obtain rfl : i' = i := by
    have := (List.getElem?_eq_some_iff.mp hi').2
    simpa using this.symm
  refine ⟨by simp, ?_⟩
  intro j entry hentry
  simp only [List.getElem?_map, Option.map_eq_some_iff] at hentry
  obtain ⟨j', hj', rfl⟩ := hentry
  obtain rfl : j' = j := by
    have := (List.getElem?_eq_some_iff.mp hj').2
    simpa using this.symm
  intro x1 x2 h1 h2 vs ws hvs hws hv hw
  simp only
  rw [iterD_eq_iteratedFDeriv hG]
  exact jvpArr_computes hG hf i' j' x1 x2 h1 h2 vs ws hvs hws hv hw

/-- A smooth function of two vectors as the code sees it. -/
def exFun : DFun := fun x1 x2 vecs =>
  match vecs with
  | [] => .ok (List.ofFn fun _ : Fin 1 => (toVec 2 x1 0) ^ 3 * Real.exp (toVec 1 x2 0))
  | _ :: _ => .error .unmodelled

/-- C59 applies to `f(x, y) = x₀³ exp(y₀)`. -/
example : ContDiff ℝ ∞ (fun z : (Fin 2 → ℝ) × (Fin 1 → ℝ) => fun _ : Fin 1 => z.1 0 ^ 3 * Real.exp (z.2 0)) ∧
    ∀ x1 x2 : List ℝ, x1.length = 2 → x2.length = 1 → exFun x1 x2 [] =
      .ok (List.ofFn ((fun z : (Fin 2 → ℝ) × (Fin 1 → ℝ) => fun _ : Fin 1 => z.1 0 ^ 3 * Real.exp (z.2 0))
        (toVec 2 x1, toVec 1 x2))) := by
  refine ⟨?_, fun _ _ _ _ => rfl⟩
  refine contDiff_pi.mpr fun _ => ContDiff.mul (ContDiff.pow ?_ 3) (ContDiff.exp ?_)
  · exact (contDiff_apply ℝ ℝ 0).comp contDiff_fst
  · exact (contDiff_apply ℝ ℝ 0).comp contDiff_snd

/-! ### C52 -/

theorem taylorTerms_level {G : List (List DFun)} :
    ∀ (j k : ℕ) (E : List EtaFun) (ts : List DTerm), Level k E G ts → E.length + 1 = k →
      k + j < G.length → (∀ r ∈ G, k + j < r.length) →
      ∃ L, taylorTerms ts j = .ok L ∧ L.length = j + 1 ∧
        ∀ i l, L[i]? = some l → ∀ T ∈ l, T.WF ∧ T.order = k + i := by
  intro j
  induction j with
  | zero =>
    intro k E ts h _ _ _
    refine ⟨[ts], rfl, rfl, ?_⟩
    intro i l hl
    cases i with
    | zero => simp at hl; subst hl; exact fun T hT => ⟨(h T hT).1, (h T hT).2.1⟩
    | succ i => simp at hl
  | succ j ih =>
    intro k E ts h hE hrow hcol
    obtain ⟨ts', h1, h2, -⟩ := differentiateTerms_spec (by omega) h (dkinputFromTerms ts) (by omega)
      (by omega) (fun r hr => by have := hcol r hr; omega)
    obtain ⟨L, g1, g2, g3⟩ := ih (k + 1) _ ts' h2 (by simp [hE]) (by omega)
      (fun r hr => by have := hcol r hr; omega)
    refine ⟨ts :: L, ?_, by simp [g2], ?_⟩
    · rw [taylorTerms, h1, py_ok_bind, g1, py_ok_bind]
    · intro i l hl
      cases i with
      | zero => simp at hl; subst hl; exact fun T hT => ⟨(h T hT).1, (h T hT).2.1⟩
      | succ i =>
        have := g3 i l (by simpa using hl)
        rwa [show k + (i + 1) = k + 1 + i by omega]

theorem base_level {G : List (List DFun)} (hrow : 1 < G.length) (hcol : ∀ r ∈ G, 1 < r.length) :
    ∃ ts, getTaylorBaseTerms G = .ok ts ∧ Level 1 [] G ts := by
  have a := DTerm.inLevel_mk' (k := 1) (eps := 1) (os := [0]) 1 (E := []) (G := G) rfl rfl le_rfl
    hrow hcol
  have b := DTerm.inLevel_mk' (k := 1) (eps := 0) (os := [1]) 1 (E := []) (G := G) rfl rfl le_rfl
    hrow hcol
  refine ⟨[DTerm.mk' 1 [0] 1 [] G, DTerm.mk' 0 [1] 1 [] G], ?_, ?_⟩
  · rw [getTaylorBaseTerms, a.1, py_ok_bind, b.1, py_ok_bind]
  · intro T hT
    simp only [List.mem_cons, List.not_mem_nil, or_false] at hT
    rcases hT with rfl | rfl
    · exact a.2
    · exact b.2

/-- **C52** `set_order` succeeds for every order ≥ 1, whatever the objective.  There is one list of
terms and one derivative function for every order up to the declared one, and in every term of the
list for order `k` the derivatives of `eps` and of `eta` add up to `k`. -/
theorem C52_set_order (T : Taylor) (order : ℕ) (horder : 1 ≤ order) :
    (T.setOrder order).2 = none ∧ (T.setOrder order).1.order = order ∧
      (T.setOrder order).1.termsList.length = order ∧ (T.setOrder order).1.dkList.length = order ∧
      ∀ k ts, (T.setOrder order).1.termsList[k]? = some ts → ∀ t ∈ ts,
        t.epsOrder + ∑ i ∈ Finset.range t.etaOrders.length, (i + 1) * t.etaOrders.getD i 0 = k + 1 ∧
          t.etaOrders.length = k + 1 := by
  obtain ⟨G, hG⟩ : ∃ G, G = (List.range (order + 1)).map fun i => (List.range (order + 1 + 1)).map
    (jvpArr ({ T with order := order } : Taylor).objectiveGradient i) := ⟨_, rfl⟩
  have hgen := generateArray_eq ({ T with order := order } : Taylor).objectiveGradient
    (Nat.succ_pos order)
  rw [Nat.succ_eq_add_one, ← hG] at hgen
  have hrow : order < G.length := by rw [hG]; simp
  have hcol : ∀ r ∈ G, order < r.length := by
    intro r hr
    rw [hG] at hr
    obtain ⟨i, -, rfl⟩ := List.mem_map.mp hr
    simp
  obtain ⟨ts, h1, h2⟩ := base_level (G := G) (by omega) (fun r hr => by have := hcol r hr; omega)
  obtain ⟨L, g1, g2, g3⟩ := taylorTerms_level (order - 1) 1 [] ts h2 rfl
    (by rw [show 1 + (order - 1) = order by omega]; exact hrow)
    (by rw [show 1 + (order - 1) = order by omega]; exact hcol)
  have e : T.setOrder order = ({ { T with order := order } with
      termsList := L, dkList := L.map dkinputFromTerms }, none) := by
    simp only [Taylor.setOrder, hgen, py_ok_bind, h1, g1]
  rw [e]
  refine ⟨rfl, rfl, by simp [g2]; omega, by simp [g2]; omega, ?_⟩
  intro k ts hk t ht
  obtain ⟨hwf, ho⟩ := g3 k ts hk t ht
  have hl := hwf.length
  rw [DTerm.order, totalOrder_eq] at ho
  rw [DTerm.order, totalOrder_eq] at hl
  refine ⟨?_, by omega⟩
  simp only [mul_comm (_ + 1) _]
  omega

/-- The lists of terms the module level functions produce from an array: the base terms, and the
result of `differentiate_terms`. -/
inductive Expansion (hess0 : Arr) (G : List (List DFun)) : ℕ → List DTerm → Prop
  | base {ts} : getTaylorBaseTerms G = .ok ts → Expansion hess0 G 1 ts
  | step {k ts ts'} : Expansion hess0 G k ts → differentiateTermsHess hess0 ts = .ok ts' →
      Expansion hess0 G (k + 1) ts'

theorem expansion_level {hess0 : Arr} {G : List (List DFun)} (hrow : 1 < G.length)
    (hcol : ∀ r ∈ G, 1 < r.length) : ∀ k, k + 1 < G.length → (∀ r ∈ G, k + 1 < r.length) →
      ∃ ts E, Expansion hess0 G (k + 1) ts ∧ Level (k + 1) E G ts ∧ E.length = k := by
  intro k
  induction k with
  | zero =>
    intro _ _
    obtain ⟨ts, h1, h2⟩ := base_level hrow hcol
    exact ⟨ts, [], .base h1, h2, rfl⟩
  | succ k ih =>
    intro hk hk'
    obtain ⟨ts, E, h1, h2, h3⟩ := ih (by omega) (fun r hr => by have := hk' r hr; omega)
    obtain ⟨ts', g1, g2, -⟩ := differentiateTerms_spec (Nat.succ_pos k) h2
      (fun self eta eps deps => evaluateDketaDepsk hess0 ts self eta eps deps) (by omega) hk hk'
    exact ⟨ts', _, .step h1 g1, g2, by simp [h3]⟩

/-- **C52** for the module level functions: with the array generated for `order + 1`, the terms of
every order up to `order` can be built, and the derivatives in every term of order `k` add up
to `k`. -/
theorem C52_module_functions (f : DFun) (hess0 : Arr) (order : ℕ) :
    ∃ G, generateArray f (order + 1) = .ok G ∧ ∀ k, 1 ≤ k → k ≤ order →
      ∃ ts, Expansion hess0 G k ts ∧ ∀ t ∈ ts,
        t.epsOrder + ∑ i ∈ Finset.range t.etaOrders.length, (i + 1) * t.etaOrders.getD i 0 = k := by
  refine ⟨_, generateArray_eq f (Nat.succ_pos order), ?_⟩
  intro k h1 h2
  obtain ⟨j, rfl⟩ := Nat.exists_eq_add_of_le' h1
  have hcol : ∀ r ∈ (List.range (order + 1)).map fun i => (List.range (order + 1 + 1)).map (jvpArr f i),
      order < r.length := by
    intro r hr
    obtain ⟨i, -, rfl⟩ := List.mem_map.mp hr
    simp
  obtain ⟨ts, E, a, b, -⟩ := expansion_level (hess0 := hess0)
    (G := (List.range (order + 1)).map fun i => (List.range (order + 1 + 1)).map (jvpArr f i))
    (by simp; omega) (fun r hr => by have := hcol r hr; omega) j (by simp; omega)
    (fun r hr => by have := hcol r hr; omega)
  refine ⟨ts, a, fun t ht => ?_⟩
  have := (b t ht).2.1
  rw [DTerm.order, totalOrder_eq] at this
  simp only [mul_comm (_ + 1) _]
  omega

/-! ### C53 -/

/-- The terms could have been built by the constructor, and terms with the same pattern of
derivatives evaluate the same functions. -/
def TermFamily (ts : List DTerm) : Prop :=
  (∀ T ∈ ts, DTerm.new T.epsOrder T.etaOrders T.prefactor T.evalEta T.evalG = .ok T) ∧
  ∀ S ∈ ts, ∀ T ∈ ts, S.etaOrders = T.etaOrders → S.evalEta = T.evalEta ∧ S.evalG = T.evalG

/-- **C53** Consolidating any list of terms of one family raises nothing, and at every point, with
and without the terms of the highest order, the sum of the consolidated list is computed exactly when
the sum of the original list is, and is the same. -/
theorem C53_consolidation_keeps_sum (ts : List DTerm) (hts : TermFamily ts) :
    ∃ ts', consolidateTerms ts = .ok ts' ∧
      ∀ (self : Base) (eta0 eps0 deps : List ℝ) (highest : Bool) (r : Option (List ℝ)),
        evaluateTerms ts' self eta0 eps0 deps highest = .ok r ↔
          evaluateTerms ts self eta0 eps0 deps highest = .ok r := by
  obtain ⟨ts', h1, h2, h3, h4⟩ := consolidateTerms_spec (show Family ts from hts)
  refine ⟨ts', h1, fun self eta0 eps0 deps highest r => ?_⟩
  rw [evaluateTerms_iff, evaluateTerms_iff]
  exact ⟨SumIs_congr h3 (fun T hT => (h2 T hT).2) (fun c => (h4 c).symm) r,
    SumIs_congr (fun T hT => (h2 T hT).2) h3 h4 r⟩

/-- A square array of functions. -/
def exArr (f : DFun) (k : ℕ) : List (List DFun) := List.replicate k (List.replicate k f)

/-- A term of order 2: `c · d²g/(deta deps)`. -/
def exTerm (c : ℝ) : DTerm := DTerm.mk' 1 [1, 0] c [fun _ _ _ _ => .ok [2, 3]] (exArr exFun 3)

/-- A term of order 2: `c · d²g/deps²`. -/
def exTerm' (c : ℝ) : DTerm := DTerm.mk' 2 [0, 0] c [fun _ _ _ _ => .ok [2, 3]] (exArr exFun 3)

/-- C53 applies to a list with two like terms and another one. -/
example : TermFamily [exTerm 1, exTerm' 3, exTerm 2] := by
  have a : ∀ c, DTerm.new 1 [1, 0] c [fun _ _ _ _ => .ok [2, 3]] (exArr exFun 3) = .ok (exTerm c) :=
    fun c => (DTerm.inLevel_mk' (k := 2) c rfl rfl (by simp) (by simp [exArr])
      (by simp [exArr])).1
  have b : ∀ c, DTerm.new 2 [0, 0] c [fun _ _ _ _ => .ok [2, 3]] (exArr exFun 3) = .ok (exTerm' c) :=
    fun c => (DTerm.inLevel_mk' (k := 2) c rfl rfl (by simp) (by simp [exArr])
      (by simp [exArr])).1
  constructor
  · intro T hT
    simp only [List.mem_cons, List.not_mem_nil, or_false] at hT
    rcases hT with rfl | rfl | rfl
    · exact a 1
    · exact b 3
    · exact a 2
  · intro S hS T hT _
    simp only [List.mem_cons, List.not_mem_nil, or_false] at hS hT
    rcases hS with rfl | rfl | rfl <;> rcases hT with rfl | rfl | rfl <;> exact ⟨rfl, rfl⟩

/-! ### C54 -/

theorem exTerm_wf (c : ℝ) : (exTerm c).WF :=
  (DTerm.inLevel_mk' (k := 2) c (E := [fun _ _ _ _ => .ok [2, 3]]) (G := exArr exFun 3)
    (os := [1, 0]) (eps := 1) rfl rfl (by simp) (by simp [exArr]) (by simp [exArr])).2.1

theorem exTerm_combine (c c' : ℝ) : (exTerm c).combineWith (exTerm c') = .ok (exTerm (c + c')) :=
  DTerm.combineWith_ok (exTerm_wf c) ⟨rfl, rfl⟩

/-- **C54** is false of the code: of three like terms only two are combined, because the loop removes
from the list it iterates over. -/
theorem C54_three_like_terms_counterexample : TermFamily [exTerm 1, exTerm 1, exTerm 1] ∧
    consolidateTerms [exTerm 1, exTerm 1, exTerm 1] = .ok [exTerm (1 + 1), exTerm 1] ∧
    (exTerm (1 + 1)).epsOrder = (exTerm 1).epsOrder ∧
    (exTerm (1 + 1)).etaOrders = (exTerm 1).etaOrders := by
  refine ⟨⟨?_, ?_⟩, ?_, rfl, rfl⟩
  · intro T hT
    simp only [List.mem_cons, List.not_mem_nil, or_false, or_self] at hT
    subst hT
    exact exTerm_wf 1
  · intro S hS T hT _
    simp only [List.mem_cons, List.not_mem_nil, or_false, or_self] at hS hT
    subst hS hT
    exact ⟨rfl, rfl⟩
  · have e : ∀ c c', (exTerm c).etaOrders = (exTerm c').etaOrders := fun _ _ => rfl
    rw [consolidateTerms]
    rw [show List.range [exTerm 1, exTerm 1, exTerm 1].length = [0, 1, 2] from rfl]
    have s1 : consolidateScan [exTerm 1, exTerm 1, exTerm 1] (exTerm 1) [1, 2] 0 =
        .ok (exTerm (1 + 1), [2]) := by
      rw [consolidateScan, dif_pos (by simp), getIdx_ok (by simp), py_ok_bind]
      rw [show [exTerm 1, exTerm 1, exTerm 1][[1, 2][0]] = exTerm 1 from rfl, if_pos (e _ _),
        exTerm_combine, py_ok_bind, consolidateScan, dif_neg (by simp)]
      rfl
    have s2 : consolidateScan [exTerm 1, exTerm 1, exTerm 1] (exTerm 1) [] 0 = .ok (exTerm 1, []) := by
      rw [consolidateScan, dif_neg (by simp)]
    rw [show [exTerm 1, exTerm 1, exTerm 1].length = 3 from rfl, consolidateLoop,
      getIdx_ok (by simp), py_ok_bind]
    rw [show [exTerm 1, exTerm 1, exTerm 1][0] = exTerm 1 from rfl, s1, py_ok_bind]
    rw [consolidateLoop, getIdx_ok (by simp), py_ok_bind]
    rw [show [exTerm 1, exTerm 1, exTerm 1][2] = exTerm 1 from rfl, s2, py_ok_bind]
    rw [consolidateLoop, py_ok_bind, py_ok_bind]

theorem scan_none {ts : List DTerm} {m : DTerm} {is : List ℕ} (hin : ∀ i ∈ is, i < ts.length)
    (hno : ∀ T ∈ pick ts is, T.etaOrders ≠ m.etaOrders) :
    ∀ (k pos : ℕ), is.length - pos ≤ k → consolidateScan ts m is pos = .ok (m, is) := by
  intro k
  induction k with
  | zero =>
    intro pos hk
    rw [consolidateScan, dif_neg (by omega)]
  | succ k ih =>
    intro pos hk
    rw [consolidateScan]
    by_cases h : pos < is.length
    · have hi := hin _ (List.getElem_mem h)
      rw [dif_pos h, getIdx_ok hi, py_ok_bind, if_neg]
      · exact ih (pos + 1) (by omega)
      · refine Ne.symm (hno _ ?_)
        exact List.mem_filterMap.mpr ⟨is[pos], List.getElem_mem h, by simp [hi]⟩
    · rw [dif_neg h]

theorem scan_removes {ts : List DTerm} (hts : Family ts) {m : DTerm} (hm : m.WF) {is : List ℕ}
    (hin : ∀ i ∈ is, i < ts.length)
    (hone : ((pick ts is).filter fun T => T.etaOrders = m.etaOrders).length ≤ 1) :
    ∀ (k pos : ℕ), is.length - pos ≤ k →
      (∀ p (hp : p < is.length) (hi : is[p] < ts.length), p < pos → (ts[is[p]]).etaOrders ≠ m.etaOrders) →
      ∀ m' is', consolidateScan ts m is pos = .ok (m', is') →
        ∀ T ∈ pick ts is', T.etaOrders ≠ m.etaOrders := by
  intro k
  have last : ∀ pos, is.length ≤ pos →
      (∀ p (hp : p < is.length) (hi : is[p] < ts.length), p < pos → (ts[is[p]]).etaOrders ≠ m.etaOrders) →
      ∀ m' is', consolidateScan ts m is pos = .ok (m', is') →
        ∀ T ∈ pick ts is', T.etaOrders ≠ m.etaOrders := by
    intro pos hpos hbefore m' is' h T hT
    rw [consolidateScan, dif_neg (by omega)] at h
    simp only [Except.ok.injEq, Prod.mk.injEq] at h
    obtain ⟨rfl, rfl⟩ := h
    obtain ⟨i, hi, hiT⟩ := pick_mem hT
    obtain ⟨p, hp, rfl⟩ := List.mem_iff_getElem.mp hi
    obtain ⟨hlt, rfl⟩ := List.getElem?_eq_some_iff.mp hiT
    exact hbefore p hp hlt (by omega)
  induction k with
  | zero => exact fun pos hk => last pos (by omega)
  | succ k ih =>
    intro pos hk hbefore m' is' h T hT
    by_cases hp : pos < is.length
    · have hi := hin _ (List.getElem_mem hp)
      have hmem : ts[is[pos]] ∈ ts := List.getElem_mem hi
      rw [consolidateScan, dif_pos hp, getIdx_ok hi, py_ok_bind] at h
      by_cases he : m.etaOrders = (ts[is[pos]]).etaOrders
      · rw [if_pos he, DTerm.combineWith_ok hm (hm.similar (hts.1 _ hmem) he), py_ok_bind] at h
        have hno : ∀ T ∈ pick ts (is.eraseIdx pos), T.etaOrders ≠ m.etaOrders := by
          intro T hT hc
          have hperm := ((pick_eraseIdx ts hp hi).filter fun T => T.etaOrders = m.etaOrders).length_eq
          rw [List.filter_cons_of_pos (by simp [he]), List.length_cons] at hperm
          have : 0 < ((pick ts (is.eraseIdx pos)).filter fun T => T.etaOrders = m.etaOrders).length :=
            List.length_pos_of_mem (List.mem_filter.mpr ⟨hT, by simp [hc]⟩)
          omega
        have hin' : ∀ i ∈ is.eraseIdx pos, i < ts.length :=
          fun i hi => hin i ((List.eraseIdx_sublist is pos).mem hi)
        rw [scan_none (m := { m with prefactor := m.prefactor + (ts[is[pos]]).prefactor }) hin' hno _ _
          le_rfl] at h
        simp only [Except.ok.injEq, Prod.mk.injEq] at h
        obtain ⟨-, rfl⟩ := h
        exact hno T hT
      · rw [if_neg he] at h
        refine ih (pos + 1) (by omega) ?_ m' is' h T hT
        intro p hp' hi' hlt
        by_cases hpp : p = pos
        · subst hpp; exact Ne.symm he
        · exact hbefore p hp' hi' (by omega)
    · exact last pos (by omega) hbefore m' is' h T hT

/-- **C54**, partial: when no pattern occurs more than twice, no two terms of the consolidated list
have the same pattern.  Missing: patterns that occur three times or more, for which the claim is
false (`C54_three_like_terms_counterexample`). -/
theorem C54_consolidation_partial (ts : List DTerm) (hts : TermFamily ts)
    (htwo : ∀ T ∈ ts, (ts.filter fun S => S.etaOrders = T.etaOrders).length ≤ 2) :
    ∃ ts', consolidateTerms ts = .ok ts' ∧
      ts'.Pairwise fun S T => ¬ (S.epsOrder = T.epsOrder ∧ S.etaOrders = T.etaOrders) := by
  have hF : Family ts := hts
  have key : ∀ (fuel : ℕ) (is : List ℕ), is.length ≤ fuel → (∀ i ∈ is, i < ts.length) →
      (∀ T ∈ ts, ((pick ts is).filter fun S => S.etaOrders = T.etaOrders).length ≤ 2) →
      ∀ ts', consolidateLoop ts fuel is = .ok ts' →
        ts'.Pairwise fun S T => S.etaOrders ≠ T.etaOrders := by
    intro fuel
    induction fuel with
    | zero =>
      intro is hf _ _ ts' h
      obtain rfl : is = [] := List.length_eq_zero_iff.mp (by omega)
      simp only [consolidateLoop, Except.ok.injEq] at h
      subst h
      exact List.Pairwise.nil
    | succ fuel ih =>
      intro is hf hin h2 ts' h
      cases is with
      | nil =>
        simp only [consolidateLoop, Except.ok.injEq] at h
        subst h
        exact List.Pairwise.nil
      | cons i rest =>
        have hi := hin i (List.mem_cons_self ..)
        have hmem : ts[i] ∈ ts := List.getElem_mem hi
        have hinr : ∀ j ∈ rest, j < ts.length := fun j hj => hin j (List.mem_cons_of_mem _ hj)
        obtain ⟨m', is', s1, s2, s3, s4, s5, s6⟩ := consolidateScan_spec hF _ ts[i] rest 0 le_rfl
          (hF.1 _ hmem) ⟨_, hmem, rfl⟩ hinr
        obtain ⟨ts2, l1, l2, l3, l4⟩ := consolidateLoop_spec hF fuel is'
          (by have := s4.length_le; simp only [List.length_cons] at hf; omega)
          (fun j hj => hinr j (s4.mem hj))
        rw [consolidateLoop, getIdx_ok hi, py_ok_bind, s1, py_ok_bind, l1, py_ok_bind] at h
        simp only [Except.ok.injEq] at h
        subst h
        have hone : ((pick ts rest).filter fun T => T.etaOrders = (ts[i]).etaOrders).length ≤ 1 := by
          have := h2 _ hmem
          rw [pick_cons hi, List.filter_cons_of_pos (by simp), List.length_cons] at this
          omega
        have hrem := scan_removes hF (hF.1 _ hmem) hinr hone _ 0 le_rfl (fun _ _ _ h => absurd h (by omega))
          m' is' s1
        refine List.Pairwise.cons ?_ (ih is'
          (by have := s4.length_le; simp only [List.length_cons] at hf; omega)
          (fun j hj => hinr j (s4.mem hj)) ?_ ts2 l1)
        · intro T hT
          obtain ⟨-, S, hS, he⟩ := l2 T hT
          rw [← etaOrders_of_erase he, etaOrders_of_erase s3]
          exact Ne.symm (hrem S hS)
        · intro T hT
          refine le_trans ?_ (h2 T hT)
          have hsub : (pick ts is').Sublist (pick ts (i :: rest)) :=
            (s4.trans (List.sublist_cons_self ..)).filterMap _
          exact (hsub.filter _).length_le
  obtain ⟨ts', h1, -⟩ := consolidateTerms_spec hF
  refine ⟨ts', h1, ?_⟩
  have := key ts.length (List.range ts.length) (by simp) (by simp)
    (by intro T hT; rw [pick_range]; exact htwo T hT) ts' h1
  exact this.imp fun h hc => h hc.2

end

end LRVB
