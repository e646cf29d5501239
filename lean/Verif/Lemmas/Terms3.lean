import Verif.Lemmas.Terms2

/-! Differentiating terms; the terms of all orders. -/

namespace LRVB

noncomputable section

open Classical

namespace DTerm

/-- The term the constructor builds. -/
def mk' (eps : ℕ) (os : List ℕ) (c : ℝ) (E : List EtaFun) (G : List (List DFun)) : DTerm :=
  ⟨eps, os, c, E, G, (G.getD os.sum []).getD eps fun _ _ _ => .error .unmodelled⟩

theorem new_eq_mk' {eps : ℕ} {os : List ℕ} (c : ℝ) {E : List EtaFun} {G : List (List DFun)}
    (h1 : os.length = totalOrder eps os) (h2 : totalOrder eps os - 1 ≤ E.length)
    (h3 : os.length < G.length) (h4 : ∀ r ∈ G, eps < r.length) :
    new eps os c E G = .ok (mk' eps os c E G) := by
  obtain ⟨T, hT⟩ := new_of c h1 h2 h3 h4
  obtain ⟨a1, a2, a3, a4, a5, -, -, -, -, row, g, r1, r2, r3⟩ := new_ok hT
  rw [hT]
  congr 1
  cases T
  simp_all [mk', List.getD_eq_getElem?_getD]

/-- The terms of the derivative of a term. -/
def derivList (T : DTerm) (next : EtaFun) : List DTerm :=
  mk' (T.epsOrder + 1) (T.etaOrders ++ [0]) T.prefactor (T.evalEta ++ [next]) T.evalG ::
  mk' T.epsOrder ((T.etaOrders ++ [0]).set 0 ((T.etaOrders ++ [0]).getD 0 0 + 1)) T.prefactor
    (T.evalEta ++ [next]) T.evalG ::
  ((List.range T.etaOrders.length).filter fun i => T.etaOrders.getD i 0 > 0).map fun i =>
    mk' T.epsOrder (bump (T.etaOrders ++ [0]) i) (T.prefactor * T.etaOrders.getD i 0)
      (T.evalEta ++ [next]) T.evalG

theorem bump_length (os : List ℕ) (i : ℕ) : (bump os i).length = os.length := by simp [bump]

theorem totalOrder_bump (eps : ℕ) {os : List ℕ} {i : ℕ} (hi : i + 1 < os.length)
    (h : 0 < os.getD i 0) : totalOrder eps (bump os i) = totalOrder eps os + 1 := by
  have h1 := totalOrder_set eps os i (os.getD i 0 - 1) (by omega)
  have h2 := totalOrder_set eps (os.set i (os.getD i 0 - 1)) (i + 1)
    ((os.set i (os.getD i 0 - 1)).getD (i + 1) 0 + 1) (by simpa using hi)
  have e : bump os i = (os.set i (os.getD i 0 - 1)).set (i + 1)
    ((os.set i (os.getD i 0 - 1)).getD (i + 1) 0 + 1) := rfl
  rw [← e] at h2
  generalize (os.set i (os.getD i 0 - 1)).getD (i + 1) 0 = z at h2
  generalize os.getD i 0 = w at h h1 h2
  obtain ⟨w, rfl⟩ := Nat.exists_eq_succ_of_ne_zero h.ne'
  simp only [Nat.succ_sub_one, Nat.succ_eq_add_one] at h1 h2
  ring_nf at h1 h2 ⊢
  omega

/-- Terms of order `k` over the given functions. -/
def InLevel (k : ℕ) (E : List EtaFun) (G : List (List DFun)) (T : DTerm) : Prop :=
  T.WF ∧ T.order = k ∧ T.evalEta = E ∧ T.evalG = G

theorem inLevel_mk' {k eps : ℕ} {os : List ℕ} (c : ℝ) {E : List EtaFun} {G : List (List DFun)}
    (h1 : os.length = k) (h0 : totalOrder eps os = k) (h2 : k - 1 ≤ E.length)
    (h3 : k < G.length) (h4 : ∀ r ∈ G, k < r.length) :
    new eps os c E G = .ok (mk' eps os c E G) ∧ InLevel k E G (mk' eps os c E G) := by
  have he : eps ≤ k := by have := sum_le_totalOrder eps os; omega
  have := new_eq_mk' c (E := E) (h1.trans h0.symm) (h0 ▸ h2) (h1 ▸ h3)
    (fun r hr => he.trans_lt (h4 r hr))
  exact ⟨this, wf_of_new this, h0, rfl, rfl⟩

theorem differentiate_eq {k : ℕ} (hk : 0 < k) {E : List EtaFun} {G : List (List DFun)} {T : DTerm}
    (hT : InLevel k E G T) (next : EtaFun) (hE : k ≤ E.length + 1) (hG : k + 1 < G.length)
    (hR : ∀ r ∈ G, k + 1 < r.length) :
    T.differentiate next = .ok (T.derivList next) ∧
      ∀ S ∈ T.derivList next, InLevel (k + 1) (E ++ [next]) G S := by
  obtain ⟨hwf, ho, rfl, rfl⟩ := hT
  have hl : T.etaOrders.length = k := hwf.length.trans ho
  have ho' : totalOrder T.epsOrder T.etaOrders = k := ho
  have hE' : k + 1 - 1 ≤ (T.evalEta ++ [next]).length := by simp; omega
  have t1 := inLevel_mk' (k := k + 1) (eps := T.epsOrder + 1) (os := T.etaOrders ++ [0]) T.prefactor
    (by simp [hl]) (by rw [totalOrder_append_zero]; simp only [totalOrder] at ho' ⊢; omega) hE' hG hR
  have t2 := inLevel_mk' (k := k + 1) (eps := T.epsOrder)
    (os := (T.etaOrders ++ [0]).set 0 ((T.etaOrders ++ [0]).getD 0 0 + 1)) T.prefactor
    (by simp [hl]) (by
      have := totalOrder_set T.epsOrder (T.etaOrders ++ [0]) 0 ((T.etaOrders ++ [0]).getD 0 0 + 1)
        (by simp)
      rw [totalOrder_append_zero] at this
      omega) hE' hG hR
  have t3 : ∀ i ∈ (List.range T.etaOrders.length).filter (fun i => T.etaOrders.getD i 0 > 0),
      new T.epsOrder (bump (T.etaOrders ++ [0]) i) (T.prefactor * T.etaOrders.getD i 0)
          (T.evalEta ++ [next]) T.evalG =
        .ok (mk' T.epsOrder (bump (T.etaOrders ++ [0]) i) (T.prefactor * T.etaOrders.getD i 0)
          (T.evalEta ++ [next]) T.evalG) ∧
      InLevel (k + 1) (T.evalEta ++ [next]) T.evalG (mk' T.epsOrder (bump (T.etaOrders ++ [0]) i)
        (T.prefactor * T.etaOrders.getD i 0) (T.evalEta ++ [next]) T.evalG) := by
    intro i hi
    rw [List.mem_filter, List.mem_range] at hi
    have h0 : 0 < (T.etaOrders ++ [0]).getD i 0 := by
      have := of_decide_eq_true hi.2
      rwa [List.getD_eq_getElem?_getD, List.getElem?_append_left hi.1, ← List.getD_eq_getElem?_getD]
    exact inLevel_mk' (k := k + 1) (eps := T.epsOrder) (os := bump (T.etaOrders ++ [0]) i)
      (T.prefactor * T.etaOrders.getD i 0) (by rw [bump_length]; simp [hl])
      (by rw [totalOrder_bump _ (by simp; exact hi.1) h0, totalOrder_append_zero, ho']) hE' hG hR
  constructor
  · rw [differentiate, t1.1, py_ok_bind, t2.1, py_ok_bind, mapM_ok_of _ (fun i hi => (t3 i hi).1), py_ok_bind]
    rfl
  · intro S hS
    simp only [derivList, List.mem_cons, List.mem_map] at hS
    rcases hS with rfl | rfl | ⟨i, hi, rfl⟩
    · exact t1.2
    · exact t2.2
    · exact (t3 i hi).2

end DTerm

/-- All terms are of order `k`, over the given functions. -/
def Level (k : ℕ) (E : List EtaFun) (G : List (List DFun)) (ts : List DTerm) : Prop :=
  ∀ T ∈ ts, DTerm.InLevel k E G T

theorem Level.family {k : ℕ} {E : List EtaFun} {G : List (List DFun)} {ts : List DTerm}
    (h : Level k E G ts) : Family ts :=
  ⟨fun T hT => (h T hT).1, fun S hS T hT _ =>
    ⟨(h S hS).2.2.1.trans (h T hT).2.2.1.symm, (h S hS).2.2.2.trans (h T hT).2.2.2.symm⟩⟩

theorem differentiateTerms_spec {k : ℕ} (hk : 0 < k) {E : List EtaFun} {G : List (List DFun)}
    {ts : List DTerm} (hts : Level k E G ts) (next : EtaFun) (hE : k ≤ E.length + 1)
    (hG : k + 1 < G.length) (hR : ∀ r ∈ G, k + 1 < r.length) :
    ∃ ts', differentiateTerms ts next = .ok ts' ∧ Level (k + 1) (E ++ [next]) G ts' ∧
      (∀ T ∈ ts, ∀ S ∈ T.derivList next, ∃ S' ∈ ts', S'.erase = S.erase) ∧
      ∀ c, wsum c ts' = wsum c (ts.flatMap (·.derivList next)) := by
  have hD : Level (k + 1) (E ++ [next]) G (ts.flatMap (·.derivList next)) := by
    intro S hS
    obtain ⟨T, hT, hS⟩ := List.mem_flatMap.mp hS
    exact (DTerm.differentiate_eq hk (hts T hT) next hE hG hR).2 S hS
  obtain ⟨ts', h1, h2, h3, h4⟩ := consolidateTerms_spec hD.family
  refine ⟨ts', ?_, ?_, ?_, h4⟩
  · rw [differentiateTerms, mapM_ok_of (g := fun T => T.derivList next) ts
      (fun T hT => (DTerm.differentiate_eq hk (hts T hT) next hE hG hR).1), py_ok_bind,
      ← List.flatMap_def]
    exact h1
  · intro T hT
    obtain ⟨hwf, S, hS, he⟩ := h2 T hT
    obtain ⟨-, b, c, d⟩ := hD S hS
    refine ⟨hwf, ?_, ?_, ?_⟩
    · rw [← b]
      have h1 : S.erase.order = T.erase.order := by rw [he]
      exact h1.symm
    · rw [← c]; exact (congrArg DTerm.evalEta he).symm
    · rw [← d]; exact (congrArg DTerm.evalG he).symm
  · intro T hT S hS
    exact h3 S (List.mem_flatMap.mpr ⟨T, hT, hS⟩)

end

end LRVB
