import Verif.Lemmas.TaylorArr
import Mathlib.Algebra.BigOperators.Group.List.Basic
import Mathlib.Algebra.BigOperators.Intervals

/-! Derivative terms: construction, differentiation, consolidation. -/

namespace LRVB

noncomputable section

theorem totalOrder_eq (eps : ℕ) (os : List ℕ) :
    totalOrder eps os = eps + ∑ i ∈ Finset.range os.length, os.getD i 0 * (i + 1) := by
  have key : ∀ (os : List ℕ) (s : ℕ), ((os.zipIdx s).map fun p => p.1 * (p.2 + 1)).sum =
      ∑ i ∈ Finset.range os.length, os.getD i 0 * (s + i + 1) := by
    intro os
    induction os with
    | nil => intro s; rfl
    | cons o os ih =>
      intro s
      rw [List.zipIdx_cons, List.map_cons, List.sum_cons, ih, List.length_cons,
        Finset.sum_range_succ']
      simp only [List.getD_cons_zero, List.getD_cons_succ, add_zero]
      rw [add_comm]
      congr 1
      refine Finset.sum_congr rfl fun i _ => ?_
      ring
  rw [totalOrder, key]
  simp

theorem sum_eq_range (os : List ℕ) : os.sum = ∑ i ∈ Finset.range os.length, os.getD i 0 := by
  induction os with
  | nil => rfl
  | cons o os ih =>
    rw [List.sum_cons, List.length_cons, Finset.sum_range_succ', ih]
    simp [add_comm]

theorem sum_le_totalOrder (eps : ℕ) (os : List ℕ) : os.sum + eps ≤ totalOrder eps os := by
  rw [totalOrder_eq, sum_eq_range, add_comm]
  refine Nat.add_le_add_left (Finset.sum_le_sum fun i _ => ?_) _
  exact Nat.le_mul_of_pos_right _ (Nat.succ_pos i)

theorem totalOrder_append_zero (eps : ℕ) (os : List ℕ) :
    totalOrder eps (os ++ [0]) = totalOrder eps os := by
  simp [totalOrder, List.zipIdx_append]

/-- Changing one entry of the orders. -/
theorem totalOrder_set (eps : ℕ) (os : List ℕ) (i v : ℕ) (hi : i < os.length) :
    totalOrder eps (os.set i v) + os.getD i 0 * (i + 1) = totalOrder eps os + v * (i + 1) := by
  simp only [totalOrder_eq, List.length_set]
  rw [← Finset.add_sum_erase _ _ (Finset.mem_range.mpr hi),
    ← Finset.add_sum_erase (Finset.range os.length) (fun i => os.getD i 0 * (i + 1))
      (Finset.mem_range.mpr hi)]
  have e : ∑ j ∈ (Finset.range os.length).erase i, (os.set i v).getD j 0 * (j + 1) =
      ∑ j ∈ (Finset.range os.length).erase i, os.getD j 0 * (j + 1) := by
    refine Finset.sum_congr rfl fun j hj => ?_
    rw [List.getD_eq_getElem?_getD, List.getD_eq_getElem?_getD,
      List.getElem?_set_ne (Finset.ne_of_mem_erase hj).symm]
  rw [e]
  have : (os.set i v).getD i 0 = v := by
    simp [List.getD_eq_getElem?_getD, hi]
  rw [this]
  ring

namespace DTerm

/-- The term without its prefactor. -/
def erase (T : DTerm) : DTerm := { T with prefactor := 0 }

/-- The term is what the constructor returns. -/
def WF (T : DTerm) : Prop := new T.epsOrder T.etaOrders T.prefactor T.evalEta T.evalG = .ok T

theorem new_ok {eps : ℕ} {os : List ℕ} {c : ℝ} {E : List EtaFun} {G : List (List DFun)} {T : DTerm}
    (h : new eps os c E G = .ok T) :
    T.epsOrder = eps ∧ T.etaOrders = os ∧ T.prefactor = c ∧ T.evalEta = E ∧ T.evalG = G ∧
      os.length = totalOrder eps os ∧ totalOrder eps os - 1 ≤ E.length ∧ os.length < G.length ∧
      (∀ r ∈ G, eps < r.length) ∧
      ∃ row g, G[os.sum]? = some row ∧ row[eps]? = some g ∧ T.gDeriv = g := by
  simp only [new, getIdx] at h
  cases h1 : G[os.sum]? with
  | none => rw [h1] at h; simp [bind, Except.bind] at h
  | some row =>
    simp only [h1, py_ok_bind] at h
    cases h2 : row[eps]? with
    | none => rw [h2] at h; simp [bind, Except.bind] at h
    | some g =>
      simp only [h2, py_ok_bind] at h
      split_ifs at h with a b c' d
      simp only [Except.ok.injEq] at h
      subst h
      push Not at a b c' d
      exact ⟨rfl, rfl, rfl, rfl, rfl, a, b, c', d, row, g, rfl, h2, rfl⟩

theorem wf_of_new {eps : ℕ} {os : List ℕ} {c : ℝ} {E : List EtaFun} {G : List (List DFun)} {T : DTerm}
    (h : new eps os c E G = .ok T) : T.WF := by
  obtain ⟨h1, h2, h3, h4, h5, -⟩ := new_ok h
  rw [WF, h1, h2, h3, h4, h5, h]

/-- The constructor succeeds when its assertions hold. -/
theorem new_of {eps : ℕ} {os : List ℕ} (c : ℝ) {E : List EtaFun} {G : List (List DFun)}
    (h1 : os.length = totalOrder eps os) (h2 : totalOrder eps os - 1 ≤ E.length)
    (h3 : os.length < G.length) (h4 : ∀ r ∈ G, eps < r.length) :
    ∃ T, new eps os c E G = .ok T := by
  have hs : os.sum < G.length := by have := sum_le_totalOrder eps os; omega
  have he : eps < (G[os.sum]).length := h4 _ (List.getElem_mem hs)
  refine ⟨⟨eps, os, c, E, G, G[os.sum][eps]⟩, ?_⟩
  rw [new, getIdx_ok hs, py_ok_bind, getIdx_ok he, py_ok_bind, if_neg (by simpa using h1),
    if_neg (by omega), if_neg (by omega), if_neg (by push Not; exact h4)]

/-- The constructor with another prefactor. -/
theorem new_prefactor {eps : ℕ} {os : List ℕ} {c : ℝ} {E : List EtaFun} {G : List (List DFun)}
    {T : DTerm} (h : new eps os c E G = .ok T) (c' : ℝ) :
    new eps os c' E G = .ok { T with prefactor := c' } := by
  obtain ⟨h1, h2, h3, h4, h5, a1, a2, a3, a4, -⟩ := new_ok h
  obtain ⟨T', hT'⟩ := new_of c' a1 a2 a3 a4
  obtain ⟨k1, k2, k3, k4, k5, -, -, -, -, row', g', r1', r2', r3'⟩ := new_ok hT'
  obtain ⟨-, -, -, -, -, -, -, -, -, row, g, r1, r2, r3⟩ := new_ok h
  rw [hT']
  congr 1
  cases T; cases T'
  simp_all

theorem WF.length {T : DTerm} (h : T.WF) : T.etaOrders.length = T.order := (new_ok h).2.2.2.2.2.1

/-- Well-formed terms with the same orders have the same pattern. -/
theorem WF.similar {S T : DTerm} (hS : S.WF) (hT : T.WF) (h : S.etaOrders = T.etaOrders) :
    S.Similar T := by
  refine ⟨?_, h⟩
  have h1 := hS.length
  have h2 := hT.length
  simp only [order, totalOrder_eq] at h1 h2
  rw [h] at h1
  omega

theorem WF.erase_eq {S T : DTerm} (hS : S.WF) (hT : T.WF) (h : S.Similar T)
    (h1 : S.evalEta = T.evalEta) (h2 : S.evalG = T.evalG) : S.erase = T.erase := by
  have a := new_prefactor hS 0
  have b := new_prefactor hT 0
  rw [h.1, h.2, h1, h2, b] at a
  have e := congrArg gDeriv (Except.ok.inj a)
  obtain ⟨e1, e2⟩ := h
  cases S; cases T
  simp_all [erase]

theorem combineWith_ok {S T : DTerm} (hS : S.WF) (h : S.Similar T) :
    S.combineWith T = .ok { S with prefactor := S.prefactor + T.prefactor } := by
  rw [combineWith, if_pos h, new_prefactor hS]

theorem WF.with_prefactor {S : DTerm} (hS : S.WF) (c : ℝ) : WF { S with prefactor := c } := by
  rw [WF]; exact new_prefactor hS c

end DTerm

/-! ### Consolidation -/

/-- The weighted sum of a statistic that does not depend on the prefactor. -/
def wsum (c : DTerm → ℝ) (ts : List DTerm) : ℝ := (ts.map fun T => T.prefactor * c T.erase).sum

theorem wsum_cons (c : DTerm → ℝ) (T : DTerm) (ts : List DTerm) :
    wsum c (T :: ts) = T.prefactor * c T.erase + wsum c ts := by simp [wsum]

theorem wsum_append (c : DTerm → ℝ) (ss ts : List DTerm) :
    wsum c (ss ++ ts) = wsum c ss + wsum c ts := by simp [wsum]

theorem wsum_perm (c : DTerm → ℝ) {ss ts : List DTerm} (h : ss.Perm ts) : wsum c ss = wsum c ts :=
  (h.map _).sum_eq

/-- Terms of one expansion: well-formed, and terms with the same orders use the same functions. -/
def Family (ts : List DTerm) : Prop :=
  (∀ T ∈ ts, T.WF) ∧ ∀ S ∈ ts, ∀ T ∈ ts, S.etaOrders = T.etaOrders →
    S.evalEta = T.evalEta ∧ S.evalG = T.evalG

theorem Family.erase_eq {ts : List DTerm} (h : Family ts) {S T : DTerm} (hS : S ∈ ts) (hT : T ∈ ts)
    (he : S.etaOrders = T.etaOrders) : S.erase = T.erase :=
  (h.1 S hS).erase_eq (h.1 T hT) ((h.1 S hS).similar (h.1 T hT) he) (h.2 S hS T hT he).1
    (h.2 S hS T hT he).2

theorem etaOrders_of_erase {S T : DTerm} (h : S.erase = T.erase) : S.etaOrders = T.etaOrders := by
  have := congrArg DTerm.etaOrders h
  exact this

/-- The terms at the given indices. -/
def pick (ts : List DTerm) (is : List ℕ) : List DTerm := is.filterMap (ts[·]?)

theorem pick_range (ts : List DTerm) : pick ts (List.range ts.length) = ts := by
  induction ts with
  | nil => rfl
  | cons t ts ih =>
    rw [pick, List.length_cons, List.range_succ_eq_map, List.filterMap_cons, List.filterMap_map]
    simp only [List.getElem?_cons_zero, Function.comp_def, Nat.succ_eq_add_one,
      List.getElem?_cons_succ]
    exact congrArg (t :: ·) ih

theorem pick_cons {ts : List DTerm} {i : ℕ} (hi : i < ts.length) (is : List ℕ) :
    pick ts (i :: is) = ts[i] :: pick ts is := by
  simp [pick, hi]

theorem pick_eraseIdx (ts : List DTerm) {is : List ℕ} {p : ℕ} (hp : p < is.length)
    (hi : is[p] < ts.length) : (ts[is[p]] :: pick ts (is.eraseIdx p)).Perm (pick ts is) := by
  have := (List.getElem_cons_eraseIdx_perm hp).filterMap (ts[·]?)
  rw [List.filterMap_cons] at this
  simpa [hi, pick] using this

theorem pick_mem {ts : List DTerm} {is : List ℕ} {T : DTerm} (h : T ∈ pick ts is) :
    ∃ i ∈ is, ts[i]? = some T := List.mem_filterMap.mp h

theorem pick_subset {ts : List DTerm} {is : List ℕ} {T : DTerm} (h : T ∈ pick ts is) : T ∈ ts := by
  obtain ⟨i, -, hi⟩ := pick_mem h
  exact List.mem_of_getElem? hi

theorem consolidateScan_spec {ts : List DTerm} (hts : Family ts) :
    ∀ (k : ℕ) (m : DTerm) (is : List ℕ) (pos : ℕ), is.length - pos ≤ k → m.WF →
      (∃ S ∈ ts, S.erase = m.erase) → (∀ i ∈ is, i < ts.length) →
      ∃ m' is', consolidateScan ts m is pos = .ok (m', is') ∧ m'.WF ∧ m'.erase = m.erase ∧
        is'.Sublist is ∧ (∀ c, wsum c (m' :: pick ts is') = wsum c (m :: pick ts is)) ∧
        (∀ T ∈ pick ts is, T.etaOrders = m.etaOrders ∨ T ∈ pick ts is') := by
  intro k
  induction k with
  | zero =>
    intro m is pos hk hm _ _
    have h : ¬ pos < is.length := by omega
    refine ⟨m, is, ?_, hm, rfl, List.Sublist.refl _, fun _ => rfl, fun T hT => Or.inr hT⟩
    rw [consolidateScan, dif_neg h]
  | succ k ih =>
    intro m is pos hk hm hex hin
    by_cases h : pos < is.length
    · have hi := hin _ (List.getElem_mem h)
      rw [consolidateScan, dif_pos h, getIdx_ok hi]
      simp only [py_ok_bind]
      by_cases he : m.etaOrders = (ts[is[pos]]).etaOrders
      · obtain ⟨S, hS, hSm⟩ := hex
        have hmem : ts[is[pos]] ∈ ts := List.getElem_mem hi
        have hwf := hts.1 _ hmem
        have heq : (ts[is[pos]]).erase = m.erase := by
          rw [← hSm]
          exact (hts.erase_eq hS hmem ((etaOrders_of_erase hSm).trans he)).symm
        rw [if_pos he, DTerm.combineWith_ok hm (hm.similar hwf he), py_ok_bind]
        obtain ⟨m', is', h1, h2, h3, h4, h5, h6⟩ := ih
          { m with prefactor := m.prefactor + (ts[is[pos]]).prefactor } (is.eraseIdx pos) (pos + 1)
          (by rw [List.length_eraseIdx, if_pos h]; omega) (hm.with_prefactor _) ⟨S, hS, hSm⟩
          (fun i hi => hin i ((List.eraseIdx_sublist is pos).mem hi))
        refine ⟨m', is', h1, h2, h3, h4.trans (List.eraseIdx_sublist is pos), fun c => ?_, ?_⟩
        · rw [h5 c, wsum_cons, wsum_cons, ← wsum_perm c (pick_eraseIdx ts h hi), wsum_cons, heq]
          change (m.prefactor + (ts[is[pos]]).prefactor) * c m.erase + _ = _
          ring
        · intro T hT
          rcases List.mem_cons.mp ((pick_eraseIdx ts h hi).mem_iff.mpr hT) with rfl | hT'
          · exact Or.inl he.symm
          · exact h6 T hT'
      · rw [if_neg he]
        exact ih m is (pos + 1) (by omega) hm hex hin
    · refine ⟨m, is, ?_, hm, rfl, List.Sublist.refl _, fun _ => rfl, fun T hT => Or.inr hT⟩
      rw [consolidateScan, dif_neg h]

theorem consolidateLoop_spec {ts : List DTerm} (hts : Family ts) :
    ∀ (fuel : ℕ) (is : List ℕ), is.length ≤ fuel → (∀ i ∈ is, i < ts.length) →
      ∃ ts', consolidateLoop ts fuel is = .ok ts' ∧
        (∀ T ∈ ts', T.WF ∧ ∃ S ∈ pick ts is, S.erase = T.erase) ∧
        (∀ T ∈ pick ts is, ∃ T' ∈ ts', T'.erase = T.erase) ∧
        ∀ c, wsum c ts' = wsum c (pick ts is) := by
  intro fuel
  induction fuel with
  | zero =>
    intro is hf _
    obtain rfl : is = [] := List.length_eq_zero_iff.mp (by omega)
    exact ⟨[], rfl, by simp, by simp [pick], fun c => rfl⟩
  | succ fuel ih =>
    intro is hf hin
    cases is with
    | nil => exact ⟨[], rfl, by simp, by simp [pick], fun c => rfl⟩
    | cons i rest =>
      have hi := hin i (List.mem_cons_self ..)
      have hmem : ts[i] ∈ ts := List.getElem_mem hi
      rw [consolidateLoop, getIdx_ok hi, py_ok_bind]
      obtain ⟨m', is', h1, h2, h3, h4, h5, h6⟩ := consolidateScan_spec hts _ ts[i] rest 0 le_rfl
        (hts.1 _ hmem) ⟨_, hmem, rfl⟩ (fun j hj => hin j (List.mem_cons_of_mem _ hj))
      rw [h1, py_ok_bind]
      obtain ⟨ts', g1, g2, g3, g4⟩ := ih is'
        (by have := h4.length_le; simp only [List.length_cons] at hf; omega)
        (fun j hj => hin j (List.mem_cons_of_mem _ (h4.mem hj)))
      rw [g1, py_ok_bind]
      refine ⟨m' :: ts', rfl, ?_, ?_, ?_⟩
      · intro T hT
        rcases List.mem_cons.mp hT with rfl | hT
        · exact ⟨h2, _, by rw [pick_cons hi]; exact List.mem_cons_self .., h3.symm⟩
        · obtain ⟨a, S, hS, he⟩ := g2 T hT
          refine ⟨a, S, ?_, he⟩
          rw [pick_cons hi]
          exact List.mem_cons_of_mem _ ((h4.filterMap _).mem hS)
      · intro T hT
        rw [pick_cons hi] at hT
        rcases List.mem_cons.mp hT with rfl | hT
        · exact ⟨m', List.mem_cons_self .., h3⟩
        · rcases h6 T hT with he | hT'
          · exact ⟨m', List.mem_cons_self .., h3.trans (hts.erase_eq hmem (pick_subset hT) he.symm)⟩
          · obtain ⟨T', a, b⟩ := g3 T hT'
            exact ⟨T', List.mem_cons_of_mem _ a, b⟩
      · intro c
        rw [wsum_cons, g4, ← wsum_cons, h5 c, pick_cons hi]

/-- Consolidation succeeds on the terms of one expansion; it keeps the patterns and all weighted
sums. -/
theorem consolidateTerms_spec {ts : List DTerm} (hts : Family ts) :
    ∃ ts', consolidateTerms ts = .ok ts' ∧ (∀ T ∈ ts', T.WF ∧ ∃ S ∈ ts, S.erase = T.erase) ∧
      (∀ T ∈ ts, ∃ T' ∈ ts', T'.erase = T.erase) ∧ ∀ c, wsum c ts' = wsum c ts := by
  have := consolidateLoop_spec hts ts.length (List.range ts.length) (by simp) (by simp)
  rwa [pick_range] at this

end

end LRVB
