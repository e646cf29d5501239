import Verif.Lemmas.Terms5

/-! Every level of terms computes the next derivative of the path. -/

namespace LRVB

noncomputable section

open scoped ContDiff
open Classical Matrix

variable {n m : ℕ} {g : (Fin n → ℝ) × (Fin m → ℝ) → (Fin n → ℝ)}

/-- What is known about the terms of order `k`. -/
structure SemLevel (g : (Fin n → ℝ) × (Fin m → ℝ) → (Fin n → ℝ)) (G : List (List DFun)) (k : ℕ)
    (E : List EtaFun) (ts : List DTerm) : Prop where
  level : Level k E G ts
  len : E.length + 1 = k
  low : ∃ T ∈ ts, T.etaOrders.getLast? = some 0
  top : wsum ctop ts = 1
  eta : ∀ b d η, Path g b d η → ∀ i (f : EtaFun), E[i]? = some f →
    f b b.inputVal0 b.hyperVal0 d = .ok (List.ofFn (iteratedDeriv (i + 1) η 0))
  val : ∀ b d η, ContDiff ℝ ∞ η → ∀ (j : Fin n) (t : ℝ), wsum (cstat g b d η j t) ts =
    iteratedDeriv k (fun s => g (curve (m := m) b d η s) j) t

/-- The value of a term that is not the highest one. -/
theorem SemLevel.raw {G : List (List DFun)} (hG : ArrayOf G g) {k : ℕ} {E : List EtaFun}
    {ts : List DTerm} (h : SemLevel g G k E ts) {b : Base} {d : List ℝ} {η : ℝ → Fin n → ℝ}
    (hp : Path g b d η) {T : DTerm} (hT : T ∈ ts) (hlast : T.etaOrders.getLast? = some 0) :
    T.raw b b.inputVal0 b.hyperVal0 d =
      .ok (List.ofFn (termVal g (etaDir η · 0) (0, toVec m d) T.etaOrders T.epsOrder
        (curve b d η 0))) := by
  obtain ⟨hwf, ho, hE, hTG⟩ := h.level T hT
  have hl : T.etaOrders.length = k := hwf.length.trans ho
  have hk : k - 1 + 1 = k := by have := h.len; omega
  have hjs : ∀ i ∈ js T.etaOrders, i < E.length := by
    intro i hi
    have hpos := mem_js.mp hi
    have hlt := lt_length_of_pos hpos
    rw [getLast?_getD (k := k - 1) (by omega)] at hlast
    have h0 := Option.some.inj hlast
    have : i ≠ k - 1 := by rintro rfl; omega
    have := h.len
    omega
  have hvec : DTerm.etaVecs T.evalEta b b.inputVal0 b.hyperVal0 d T.etaOrders 0 =
      .ok ((js T.etaOrders).map fun i => List.ofFn (iteratedDeriv (i + 1) η 0)) := by
    refine etaVecs_ok _ _ _ _ _ (fun i => List.ofFn (iteratedDeriv (i + 1) η 0)) _ _ ?_
    intro i hi
    rw [hE]
    have hi' := hjs i hi
    exact ⟨E[i], by simp [hi'], h.eta b d η hp i _ (by simp [hi'])⟩
  obtain ⟨-, -, -, -, -, -, -, -, -, row, f, r1, r2, r3⟩ := DTerm.new_ok hwf
  rw [hTG] at r1
  have hnot : 1 ≤ T.epsOrder ∨ 2 ≤ T.etaOrders.sum := by
    by_contra hcon
    push Not at hcon
    have h0 : T.epsOrder = 0 := by omega
    have ho' : totalOrder T.epsOrder T.etaOrders = k := ho
    rw [totalOrder_eq, hl, h0, zero_add] at ho'
    have hs : ∑ i ∈ Finset.range k, T.etaOrders.getD i 0 ≤ 1 := by
      rw [← hl, ← sum_eq_range]
      omega
    rw [getLast?_getD (k := k - 1) (by omega)] at hlast
    have hl0 := Option.some.inj hlast
    have hlt : ∑ i ∈ Finset.range k, T.etaOrders.getD i 0 * (i + 1) ≤
        ∑ i ∈ Finset.range k, T.etaOrders.getD i 0 * (k - 1) := by
      refine Finset.sum_le_sum fun i hi => ?_
      have := Finset.mem_range.1 hi
      by_cases hik : i = k - 1
      · rw [hik, hl0]
        simp
      · exact Nat.mul_le_mul_left _ (by omega)
    rw [ho', ← Finset.sum_mul] at hlt
    have := Nat.mul_le_mul_right (k - 1) hs
    omega
  have hc := hG _ _ _ _ r1 r2 hnot b.inputVal0 b.hyperVal0 hp.hin hp.hhy
    ((js T.etaOrders).map fun i => List.ofFn (iteratedDeriv (i + 1) η 0))
    (List.replicate T.epsOrder d) (by simp [js_length]) (by simp)
    (by intro v hv; obtain ⟨i, -, rfl⟩ := List.mem_map.mp hv; simp)
    (by intro w hw; rw [List.eq_of_mem_replicate hw]; exact hp.hd)
  rw [DTerm.raw, hvec, py_ok_bind, r3, hc]
  congr 2
  rw [termVal, curve, hp.start]
  congr 1
  · congr 1
    · rw [List.map_map]
      apply List.map_congr_left
      intro i _
      simp [etaDir, toVec_ofFn]
    · simp
  · simp

theorem evaluateTerms_of {ts : List DTerm} {b : Base} {eta0 eps0 d : List ℝ} {V : Fin n → ℝ}
    (h1 : ∀ T ∈ ts, T.etaOrders ≠ []) (h2 : ∃ T ∈ ts, T.etaOrders.getLast? = some 0)
    (h3 : ∀ T ∈ ts, T.etaOrders.getLast? = some 0 → ∃ w, T.raw b eta0 eps0 d = .ok w ∧ w.length = n)
    (h4 : ∀ j : Fin n, inclSum false b eta0 eps0 d j ts = V j) :
    evaluateTerms ts b eta0 eps0 d false = .ok (some (List.ofFn V)) := by
  rw [evaluateTerms_iff]
  refine ⟨fun T hT => Or.inr (h1 T hT), by simp, ?_⟩
  rintro v ⟨⟩
  obtain ⟨T, hT, hl⟩ := h2
  refine ⟨⟨T, hT, Or.inr hl⟩, fun T hT hi => ?_, fun k hk => ?_⟩
  · rw [DTerm.evaluate_ok_iff]
    simp only [List.length_ofFn]
    exact h3 T hT (hi.resolve_left (by simp))
  · have hk : k < n := by simpa using hk
    rw [h4 ⟨k, hk⟩]
    simp [List.getD_eq_getElem?_getD, hk]

theorem npSolve_ok {H : Arr} (hs : H.shape = [n, n]) (hd : (toMatrix n n H).det ≠ 0) (u : Fin n → ℝ) :
    npSolve H (List.ofFn u) = .ok (List.ofFn ((toMatrix n n H)⁻¹ *ᵥ u)) := by
  simp only [npSolve, hs]
  rw [if_neg (by simp), if_neg (by simp), if_neg hd]
  congr 3
  funext i
  simp [List.getD_eq_getElem?_getD]

theorem vscale_ofFn (c : ℝ) (u : Fin n → ℝ) : vscale c (List.ofFn u) = List.ofFn (c • u) := by
  simp [vscale, List.map_ofFn, Function.comp_def, Pi.smul_def]

/-- The terms of order `k` compute the `k`-th derivative of the path. -/
theorem SemLevel.deriv {G : List (List DFun)} (hG : ArrayOf G g) (hg : ContDiff ℝ ∞ g) {k : ℕ}
    {E : List EtaFun} {ts : List DTerm} (h : SemLevel g G k E ts) {b : Base} {d : List ℝ}
    {η : ℝ → Fin n → ℝ} (hp : Path g b d η) :
    evaluateDketaDepsk b.hess0 ts b b.inputVal0 b.hyperVal0 d =
      .ok (List.ofFn (iteratedDeriv k η 0)) := by
  have hk : 0 < k := by have := h.len; omega
  have hzero : ∀ j : Fin n, wsum (cstat g b d η j 0) ts = 0 := by
    intro j
    rw [h.val b d η hp.smooth j 0]
    have e : (fun s => g (curve (m := m) b d η s) j) =ᶠ[nhds 0] fun _ => (0 : ℝ) := by
      filter_upwards [hp.zero] with t ht
      exact congrFun ht j
    rw [e.iteratedDeriv_eq]
    rw [iteratedDeriv_const]
    rw [if_neg (by omega)]
  have hsplit : ∀ j : Fin n, inclSum false b b.inputVal0 b.hyperVal0 d j ts =
      (-(toMatrix n n b.hess0 *ᵥ iteratedDeriv k η 0)) j := by
    intro j
    have h1 : wsum (cstat g b d η j 0) ts = inclSum false b b.inputVal0 b.hyperVal0 d j ts +
        wsum ctop ts * (toMatrix n n b.hess0 *ᵥ iteratedDeriv k η 0) j := by
      rw [inclSum, wsum, wsum, wsum, ← List.sum_map_mul_right, ← List.sum_map_add]
      congr 1
      apply List.map_congr_left
      intro T hT
      by_cases hl : T.etaOrders.getLast? = some 0
      · have hi : T.erase.Incl false := Or.inr hl
        have hr := h.raw hG hp hT hl
        rw [if_pos hi, DTerm.raw_erase, hr, show ctop T.erase = 0 from if_pos hl]
        simp only [entryL, mul_zero, zero_mul, add_zero]
        simp [List.getD_eq_getElem?_getD]
        left; rfl
      · have hi : ¬ T.erase.Incl false := by
          rintro (hc | hc)
          · simp at hc
          · exact hl hc
        obtain ⟨hwf, ho, -, -⟩ := h.level T hT
        obtain ⟨t1, t2, t3⟩ := top_of_order hwf ho hk hl
        rw [if_neg hi, show ctop T.erase = 1 from if_neg hl, mul_zero, zero_add, mul_one, hp.hess]
        congr 1
        change termVal g (etaDir η · 0) _ T.etaOrders T.epsOrder _ j = _
        have hperm : (js T.etaOrders).Perm [k - 1] := by
          refine js_perm fun i => ?_
          rw [List.count_singleton]
          by_cases hi : i = k - 1
          · rw [hi, t2]; simp
          · rw [t3 i hi]; simp [Ne.symm hi]
        rw [termVal_perm hg _ _ hperm, t1]
        have e : k - 1 + 1 = k := by omega
        simp only [List.map_cons, List.map_nil, List.replicate_zero, List.append_nil, iterD,
          List.foldl_cons, List.foldl_nil, dirD, etaDir, e, curve, hp.start]
        simp
    rw [hzero, h.top, one_mul] at h1
    simp only [Pi.neg_apply]
    linarith
  have hev := evaluateTerms_of (n := n) (ts := ts) (b := b) (eta0 := b.inputVal0)
    (eps0 := b.hyperVal0) (d := d) (V := -(toMatrix n n b.hess0 *ᵥ iteratedDeriv k η 0))
    (fun T hT he => by
      obtain ⟨hwf, ho, -, -⟩ := h.level T hT
      have := hwf.length.trans ho
      rw [he] at this
      simp at this; omega)
    h.low (fun T hT hl => ⟨_, h.raw hG hp hT hl, by simp⟩) hsplit
  rw [evaluateDketaDepsk, hev, py_ok_bind]
  simp only
  rw [npSolve_ok hp.shape hp.det, py_ok_bind, vscale_ofFn]
  congr 2
  rw [Matrix.mulVec_neg, Matrix.mulVec_mulVec, Matrix.nonsing_inv_mul _ (isUnit_iff_ne_zero.mpr hp.det),
    Matrix.one_mulVec]
  simp

theorem assertClose_self {x : List ℝ} (h : 0 < x.length) : assertClose x x = .ok () := by
  simp only [assertClose, vsub, if_true, py_ok_bind]
  rw [if_neg, if_neg]
  · push Not
    intro z hz
    obtain ⟨i, hi, rfl⟩ := List.mem_iff_getElem.mp hz
    simp
  · intro hc
    have := congrArg List.length hc
    simp at this
    rw [this] at h
    simp at h

theorem SemLevel.dkinput {G : List (List DFun)} (hG : ArrayOf G g) (hg : ContDiff ℝ ∞ g) {k : ℕ}
    {E : List EtaFun} {ts : List DTerm} (h : SemLevel g G k E ts) {b : Base} {d : List ℝ}
    {η : ℝ → Fin n → ℝ} (hp : Path g b d η) :
    dkinputFromTerms ts b b.inputVal0 b.hyperVal0 d = .ok (List.ofFn (iteratedDeriv k η 0)) := by
  rw [dkinputFromTerms, assertClose_self (by rw [hp.hin]; exact hp.n_pos), py_ok_bind,
    assertClose_self (by rw [hp.hhy]; exact hp.m_pos), py_ok_bind, h.deriv hG hg hp]

/-- The next level. -/
theorem SemLevel.step {G : List (List DFun)} (hG : ArrayOf G g) (hg : ContDiff ℝ ∞ g) {k : ℕ}
    {E : List EtaFun} {ts : List DTerm} (h : SemLevel g G k E ts) (hrow : k + 1 < G.length)
    (hcol : ∀ r ∈ G, k + 1 < r.length) :
    ∃ ts', differentiateTerms ts (dkinputFromTerms ts) = .ok ts' ∧
      SemLevel g G (k + 1) (E ++ [dkinputFromTerms ts]) ts' := by
  have hk : 0 < k := by have := h.len; omega
  obtain ⟨ts', h1, h2, h3, h4⟩ := differentiateTerms_spec hk h.level (dkinputFromTerms ts)
    (by have := h.len; omega) hrow hcol
  refine ⟨ts', h1, h2, by simp [h.len], ?_, ?_, ?_, ?_⟩
  · obtain ⟨T, hT, -⟩ := h.low
    obtain ⟨S, hS, he⟩ := h3 T hT _ (List.mem_cons_self ..)
    refine ⟨S, hS, ?_⟩
    rw [etaOrders_of_erase he]
    simp [DTerm.mk']
  · rw [h4, wsum_flatMap, ← h.top, wsum]
    congr 1
    apply List.map_congr_left
    intro T hT
    obtain ⟨hwf, ho, -, -⟩ := h.level T hT
    exact wsum_ctop hwf ho hk _
  · intro b d η hp i f hf
    rw [List.getElem?_append] at hf
    split at hf
    · exact h.eta b d η hp i f hf
    · rename_i hi
      have hlen := h.len
      obtain ⟨hi0, rfl⟩ : i - E.length = 0 ∧ f = dkinputFromTerms ts := by
        rcases Nat.eq_zero_or_pos (i - E.length) with h0 | h0
        · rw [h0] at hf; simp at hf; exact ⟨h0, hf.symm⟩
        · obtain ⟨z, hz⟩ := Nat.exists_eq_succ_of_ne_zero h0.ne'
          rw [hz] at hf; simp at hf
      obtain rfl : i + 1 = k := by omega
      exact h.dkinput hG hg hp
  · intro b d η hη j t
    rw [h4]
    have hd := wsum_hasDerivAt hg hη b d (dkinputFromTerms ts) j t (ts := ts)
    have e : (fun s => wsum (cstat g b d η j s) ts) =
        iteratedDeriv k (fun s => g (curve (m := m) b d η s) j) := funext fun s => h.val b d η hη j s
    rw [e] at hd
    have hc : ContDiff ℝ ∞ fun s => g (curve (m := m) b d η s) j :=
      (contDiff_pi.mp (hg.comp (curve_contDiff hη b d))) j
    exact hd.unique (iteratedDeriv_hasDerivAt hc k t)

/-- The first level. -/
theorem SemLevel.base {G : List (List DFun)} (hg : ContDiff ℝ ∞ g)
    (hrow : 1 < G.length) (hcol : ∀ r ∈ G, 1 < r.length) :
    ∃ ts, getTaylorBaseTerms G = .ok ts ∧ SemLevel g G 1 [] ts := by
  have a := DTerm.inLevel_mk' (k := 1) (eps := 1) (os := [0]) 1 (E := []) (G := G) rfl rfl le_rfl
    hrow hcol
  have b := DTerm.inLevel_mk' (k := 1) (eps := 0) (os := [1]) 1 (E := []) (G := G) rfl rfl le_rfl
    hrow hcol
  refine ⟨[DTerm.mk' 1 [0] 1 [] G, DTerm.mk' 0 [1] 1 [] G], ?_, ?_, rfl, ?_, ?_, ?_, ?_⟩
  · rw [getTaylorBaseTerms, a.1, py_ok_bind, b.1, py_ok_bind]
  · intro T hT
    simp only [List.mem_cons, List.not_mem_nil, or_false] at hT
    rcases hT with rfl | rfl
    · exact a.2
    · exact b.2
  · exact ⟨_, List.mem_cons_self .., rfl⟩
  · simp [wsum, ctop, topOf, DTerm.mk', DTerm.erase]
  · intro b d η _ i f hf
    simp at hf
  · intro b d η hη j t
    have hd : HasDerivAt (fun s => g (curve (m := m) b d η s))
        (fderiv ℝ g (curve b d η t) (etaDir η 0 t + (0, toVec m d))) t :=
      (hg.differentiable (by simp) _).hasFDerivAt.comp_hasDerivAt t (curve_hasDerivAt hη b d t)
    have hd' := hasDerivAt_pi.mp hd j
    rw [iteratedDeriv_one, hd'.deriv, map_add]
    rw [wsum_cons, wsum_cons, show wsum (cstat g b d η j t) [] = 0 from rfl, add_zero]
    have e1 : cstat g b d η j t (DTerm.mk' 1 [0] 1 [] G).erase =
        fderiv ℝ g (curve b d η t) (0, toVec m d) j := rfl
    have e2 : cstat g b d η j t (DTerm.mk' 0 [1] 1 [] G).erase =
        fderiv ℝ g (curve b d η t) (etaDir η 0 t) j := rfl
    rw [e1, e2]
    simp only [DTerm.mk', one_mul, Pi.add_apply]
    ring

/-- All levels. -/
theorem taylorTerms_sem {G : List (List DFun)} (hG : ArrayOf G g) (hg : ContDiff ℝ ∞ g) :
    ∀ (j k : ℕ) (E : List EtaFun) (ts : List DTerm), SemLevel g G k E ts → k + j < G.length →
      (∀ r ∈ G, k + j < r.length) →
      ∃ L, taylorTerms ts j = .ok L ∧ L.length = j + 1 ∧
        ∀ i l, L[i]? = some l → ∃ E, SemLevel g G (k + i) E l := by
  intro j
  induction j with
  | zero =>
    intro k E ts h _ _
    refine ⟨[ts], rfl, rfl, ?_⟩
    intro i l hl
    cases i with
    | zero => simp at hl; subst hl; exact ⟨E, h⟩
    | succ i => simp at hl
  | succ j ih =>
    intro k E ts h hrow hcol
    obtain ⟨ts', h1, h2⟩ := h.step hG hg (by omega) (fun r hr => by have := hcol r hr; omega)
    obtain ⟨L, g1, g2, g3⟩ := ih (k + 1) _ ts' h2 (by omega) (fun r hr => by have := hcol r hr; omega)
    refine ⟨ts :: L, ?_, by simp [g2], ?_⟩
    · rw [taylorTerms, h1, py_ok_bind, g1, py_ok_bind]
    · intro i l hl
      cases i with
      | zero => simp at hl; subst hl; exact ⟨E, h⟩
      | succ i =>
        obtain ⟨E', h'⟩ := g3 i l (by simpa using hl)
        exact ⟨E', by rwa [show k + (i + 1) = k + 1 + i by omega]⟩

end

end LRVB
