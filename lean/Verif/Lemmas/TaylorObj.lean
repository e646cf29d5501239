import Verif.Lemmas.Optimum
import Verif.Props.TwoObjective
import Mathlib.Analysis.Matrix.PosDef

/-! The Taylor expansion object: what its operations keep, and its derivatives. -/

namespace LRVB

open scoped ContDiff Matrix

noncomputable section

variable {n m : ℕ} {F : (Fin n → ℝ) × (Fin m → ℝ) → ℝ}

namespace Taylor

/-- The function solves with the base Hessian, whatever it is, against the derivative of `g` in the
direction `d` of its second argument. -/
def First (g : (Fin n → ℝ) × (Fin m → ℝ) → (Fin n → ℝ)) (f : EtaFun) : Prop :=
  ∀ (b : Base) (d : List ℝ), 0 < n → 0 < m → b.inputVal0.length = n → b.hyperVal0.length = m →
    d.length = m → b.hess0.shape = [n, n] → (toMatrix n n b.hess0).det ≠ 0 →
    f b b.inputVal0 b.hyperVal0 d = .ok (List.ofFn (-((toMatrix n n b.hess0)⁻¹ *ᵥ
      fderiv ℝ g (toVec n b.inputVal0, toVec m b.hyperVal0) (0, toVec m d))))

/-- The derivative functions of an object compute the derivatives of every optimum path.  More generally, with another
base Hessian, they compute those of a path of zeros of the gradient plus an affine function of the input. -/
def Ready (F : (Fin n → ℝ) × (Fin m → ℝ) → ℝ) (T : Taylor) : Prop :=
  ∀ k < T.order, ∃ f, getIdx T.dkList k = .ok f ∧ (∀ (A : (Fin n → ℝ) →L[ℝ] (Fin n → ℝ)) (c : Fin n → ℝ) b d η,
    Path (fun z => gradF F z + (A z.1 + c)) b d η → f b b.inputVal0 b.hyperVal0 d = .ok (List.ofFn (iteratedDeriv (k + 1) η 0))) ∧
    (k = 0 → First (gradF F) f)

theorem taylorTerms_head (ts : List DTerm) : ∀ (j : ℕ) (L : List (List DTerm)),
    taylorTerms ts j = .ok L → L[0]? = some ts
  | 0, L, h => by
    simp only [taylorTerms, Except.ok.injEq] at h
    rw [← h]; rfl
  | j + 1, L, h => by
    rw [taylorTerms] at h
    obtain ⟨a, -, h⟩ := py_bind_ok h
    obtain ⟨b, -, h⟩ := py_bind_ok h
    simp only [Except.ok.injEq] at h
    rw [← h]; rfl

theorem base_first {G : List (List DFun)} {g : (Fin n → ℝ) × (Fin m → ℝ) → (Fin n → ℝ)}
    (hG : ArrayOf G g) (hrow : 1 < G.length) (hcol : ∀ r ∈ G, 1 < r.length) {ts : List DTerm}
    (hts : getTaylorBaseTerms G = .ok ts) : First g (dkinputFromTerms ts) := by
  intro b d hn hm hin hhy hd hs hdet
  have a := DTerm.inLevel_mk' (k := 1) (eps := 1) (os := [0]) 1 (E := []) (G := G) rfl rfl le_rfl
    hrow hcol
  have c := DTerm.inLevel_mk' (k := 1) (eps := 0) (os := [1]) 1 (E := []) (G := G) rfl rfl le_rfl
    hrow hcol
  rw [getTaylorBaseTerms, a.1, py_ok_bind, c.1, py_ok_bind] at hts
  simp only [Except.ok.injEq] at hts
  have hraw : (DTerm.mk' 1 [0] 1 [] G).raw b b.inputVal0 b.hyperVal0 d =
      .ok (List.ofFn (fderiv ℝ g (toVec n b.inputVal0, toVec m b.hyperVal0) (0, toVec m d))) := by
    obtain ⟨-, -, -, -, -, -, -, -, -, row, f, r1, r2, r3⟩ := DTerm.new_ok a.2.1
    have hc := hG _ _ _ _ r1 r2 (Or.inl le_rfl) b.inputVal0 b.hyperVal0 hin hhy [] [d] rfl rfl (by simp)
      (by simpa using hd)
    rw [DTerm.raw, r3]
    exact hc
  have hev := evaluateTerms_of (n := n) (ts := ts) (b := b) (eta0 := b.inputVal0)
    (eps0 := b.hyperVal0) (d := d)
    (V := fderiv ℝ g (toVec n b.inputVal0, toVec m b.hyperVal0) (0, toVec m d))
    (by rw [← hts]; simp [DTerm.mk'])
    ⟨DTerm.mk' 1 [0] 1 [] G, by rw [← hts]; simp, rfl⟩
    (by
      intro T hT hl
      rw [← hts] at hT
      simp only [List.mem_cons, List.not_mem_nil, or_false] at hT
      rcases hT with rfl | rfl
      · exact ⟨_, hraw, by simp⟩
      · simp [DTerm.mk'] at hl)
    (by
      intro j
      rw [← hts, inclSum, wsum_cons, wsum_cons]
      have i1 : (DTerm.mk' 1 [0] 1 [] G).erase.Incl false := Or.inr rfl
      have i2 : ¬ (DTerm.mk' 0 [1] 1 [] G).erase.Incl false := by
        rintro (h | h)
        · simp at h
        · simp [DTerm.mk', DTerm.erase] at h
      rw [if_pos i1, if_neg i2, DTerm.raw_erase, hraw]
      simp [wsum, entryL, DTerm.mk', List.getD_eq_getElem?_getD])
  rw [dkinputFromTerms, assertClose_self (by rw [hin]; exact hn), py_ok_bind,
    assertClose_self (by rw [hhy]; exact hm), py_ok_bind, evaluateDketaDepsk, hev, py_ok_bind]
  simp only
  rw [npSolve_ok hs hdet, py_ok_bind, vscale_ofFn]
  congr 2
  simp

theorem list_ofFn_range (f : ℕ → ℝ) : (List.range n).map f = List.ofFn fun i : Fin n => f i := by
  apply List.ext_getElem <;> simp

theorem evaluates_blank {p q p' q' : Param} {fn} {fi fh : Bool} (h : Evaluates p q fn fi fh F)
    (hp : p.blank = p'.blank) (hq : q.blank = q'.blank) : Evaluates p' q' fn fi fh F := by
  intro y1 y2 h1 h2
  have := h y1 y2 h1 h2
  obtain ⟨s1, s2⟩ := TwoObjective.evalFun_ok this
  simp only [TwoObjective.evalFun] at this ⊢
  simp only at s1 s2
  rw [setPar_eq hp s1, s1]
  simp only [s1] at this ⊢
  rw [setPar_eq hq s2]
  simp only [s2] at this ⊢
  exact this

theorem setOrder_ready (hF : ContDiff ℝ ∞ F) (T : Taylor)
    (hev : Evaluates T.inputPar T.hyperPar T.hyperFn T.inputIsFree T.hyperIsFree F) (order : ℕ)
    (ho : 1 ≤ order) :
    ∃ L : List (List DTerm), T.setOrder order = ({ T with
      order := order, termsList := L, dkList := L.map dkinputFromTerms }, none) ∧ Ready F (T.setOrder order).1 := by
  have hg := gradF_contDiff hF
  have hf : ∀ eta eps : List ℝ, eta.length = n → eps.length = m →
      ({ T with order := order } : Taylor).objectiveGradient eta eps [] =
        .ok (List.ofFn (gradF F (toVec n eta, toVec m eps))) := by
    intro eta eps h1 h2
    change TwoObjective.agGrad1 _ eta eps = _
    refine (agGrad1_ok (f := F) (hF.of_le two_le_infty) hev h1 h2).trans ?_
    rw [list_ofFn_range]
    rfl
  obtain ⟨G, hGdef⟩ : ∃ G, G = (List.range (order + 1)).map fun i => (List.range (order + 1 + 1)).map
    (jvpArr ({ T with order := order } : Taylor).objectiveGradient i) := ⟨_, rfl⟩
  have hgen := generateArray_eq ({ T with order := order } : Taylor).objectiveGradient
    (Nat.succ_pos order)
  rw [Nat.succ_eq_add_one, ← hGdef] at hgen
  have hrow : order < G.length := by rw [hGdef]; simp
  have hcol : ∀ r ∈ G, order < r.length := by
    intro r hr
    rw [hGdef] at hr
    obtain ⟨i, -, rfl⟩ := List.mem_map.mp hr
    simp
  have hGC : ∀ (i j : ℕ) (row : List DFun) (f : DFun), G[i]? = some row → row[j]? = some f →
      Computes f (gradF F) i j := by
    intro i j row f hrow hf'
    rw [hGdef] at hrow
    simp only [List.getElem?_map, Option.map_eq_some_iff] at hrow
    obtain ⟨i', hi', rfl⟩ := hrow
    obtain rfl : i' = i := by simpa using (List.getElem?_eq_some_iff.mp hi').2.symm
    simp only [List.getElem?_map, Option.map_eq_some_iff] at hf'
    obtain ⟨j', hj', rfl⟩ := hf'
    obtain rfl : j' = j := by simpa using (List.getElem?_eq_some_iff.mp hj').2.symm
    exact jvpArr_computes hg hf i' j'
  have hG : ArrayOf G (gradF F) := fun i j row f h1 h2 _ => hGC i j row f h1 h2
  obtain ⟨ts, h1, h2⟩ := SemLevel.base (G := G) hg (by omega) (fun r hr => by have := hcol r hr; omega)
  obtain ⟨L, g1, g2, g3⟩ := taylorTerms_sem hG hg (order - 1) 1 [] ts h2
    (by rw [show 1 + (order - 1) = order by omega]; exact hrow)
    (by rw [show 1 + (order - 1) = order by omega]; exact hcol)
  have e : T.setOrder order = ({ T with
      order := order, termsList := L, dkList := L.map dkinputFromTerms }, none) := by
    simp only [Taylor.setOrder, hgen, py_ok_bind, h1, g1]
  refine ⟨L, e, ?_⟩
  rw [e]
  intro k hk
  simp only at hk
  have hkL : k < L.length := by omega
  refine ⟨dkinputFromTerms L[k], by rw [getIdx_ok (by simpa using hkL)]; simp, ?_, ?_⟩
  swap
  · rintro rfl
    have h0 := taylorTerms_head ts _ L g1
    rw [List.getElem?_eq_getElem hkL] at h0
    rw [Option.some.inj h0]
    exact base_first hG (by omega) (fun r hr => by have := hcol r hr; omega) h1
  intro A c b d η hp
  have hg' : ContDiff ℝ ∞ fun z : (Fin n → ℝ) × (Fin m → ℝ) => gradF F z + (A z.1 + c) :=
    hg.add ((A.contDiff.comp contDiff_fst).add contDiff_const)
  have hG' : ArrayOf G fun z => gradF F z + (A z.1 + c) := fun i j row f h1 h2 h3 =>
    (hGC i j row f h1 h2).add_affine hg h3 A c
  obtain ⟨ts', h1', h2'⟩ := SemLevel.base (G := G) hg' (by omega) (fun r hr => by have := hcol r hr; omega)
  rw [h1] at h1'
  cases h1'
  obtain ⟨L', g1', -, g3'⟩ := taylorTerms_sem hG' hg' (order - 1) 1 [] ts h2'
    (by rw [show 1 + (order - 1) = order by omega]; exact hrow)
    (by rw [show 1 + (order - 1) = order by omega]; exact hcol)
  rw [g1] at g1'
  cases g1'
  obtain ⟨E, hE⟩ := g3' k L[k] (by simp [hkL])
  have := hE.dkinput hG' hg' hp
  rwa [show 1 + k = k + 1 by omega] at this

theorem setParToBase_ok {T : Taylor} (h1 : (setPar T.inputPar T.base.inputVal0 T.inputIsFree).2 = none)
    (h2 : (setPar T.hyperPar T.base.hyperVal0 T.hyperIsFree).2 = none) :
    T.setParToBase = ({ T with
      inputPar := (setPar T.inputPar T.base.inputVal0 T.inputIsFree).1,
      hyperPar := (setPar T.hyperPar T.base.hyperVal0 T.hyperIsFree).1 }, none) := by
  simp only [setParToBase, h1, h2]

/-- `evaluate_dkinput_dhyperk` when the derivative function returns a value. -/
theorem evaluateDk_of {T : Taylor} {d : List ℝ} {f : EtaFun} {v : List ℝ} {k : ℕ}
    (hf1 : getIdx T.dkList (k - 1) = .ok f)
    (hv : f T.base T.base.inputVal0 T.base.hyperVal0 d = .ok v)
    (h1 : (setPar T.inputPar T.base.inputVal0 T.inputIsFree).2 = none)
    (h2 : (setPar T.hyperPar T.base.hyperVal0 T.hyperIsFree).2 = none) (hk : 1 ≤ k)
    (hko : k ≤ T.order) :
    T.evaluateDk d k = ({ T with
      inputPar := (setPar T.inputPar T.base.inputVal0 T.inputIsFree).1,
      hyperPar := (setPar T.hyperPar T.base.hyperVal0 T.hyperIsFree).1 }, .ok v) := by
  have b1 : T.traced.inputPar.blank = T.inputPar.blank := by
    simp only [traced, TwoObjective.trace, joint, h1, h2]
    simp only [if_true]
    rw [Param.mark_blank, setPar_blank]
  have b2 : T.traced.hyperPar.blank = T.hyperPar.blank := by
    simp only [traced, TwoObjective.trace, joint, h1, h2]
    simp only [if_true]
    rw [Param.mark_blank, setPar_blank]
  have e1 : setPar T.traced.inputPar T.base.inputVal0 T.inputIsFree = _ := setPar_eq b1.symm h1
  have e2 : setPar T.traced.hyperPar T.base.hyperVal0 T.hyperIsFree = _ := setPar_eq b2.symm h2
  have e3 : T.traced.setParToBase = ({ T with
      inputPar := (setPar T.inputPar T.base.inputVal0 T.inputIsFree).1,
      hyperPar := (setPar T.hyperPar T.base.hyperVal0 T.hyperIsFree).1 }, none) := by
    have := setParToBase_ok (T := T.traced) (by rw [← h1]; exact congrArg Prod.snd e1)
      (by rw [← h2]; exact congrArg Prod.snd e2)
    rw [this]
    congr 1
    change ({ T.traced with
      inputPar := (setPar T.traced.inputPar T.base.inputVal0 T.inputIsFree).1,
      hyperPar := (setPar T.traced.hyperPar T.base.hyperVal0 T.hyperIsFree).1 } : Taylor) = _
    rw [e1, e2]
    rfl
  rw [evaluateDk, if_neg (by omega), if_neg (by omega)]
  simp only [Int.toNat_natCast, hf1, hv, e3]

/-- `evaluate_dkinput_dhyperk` at the base values of the object. -/
theorem evaluateDk_affine {T : Taylor} (hT : Ready F T) {d : List ℝ} {η : ℝ → Fin n → ℝ}
    (A : (Fin n → ℝ) →L[ℝ] (Fin n → ℝ)) (c : Fin n → ℝ)
    (hp : Path (fun z => gradF F z + (A z.1 + c)) T.base d η)
    (h1 : (setPar T.inputPar T.base.inputVal0 T.inputIsFree).2 = none)
    (h2 : (setPar T.hyperPar T.base.hyperVal0 T.hyperIsFree).2 = none) {k : ℕ} (hk : 1 ≤ k)
    (hko : k ≤ T.order) :
    T.evaluateDk d k = ({ T with
      inputPar := (setPar T.inputPar T.base.inputVal0 T.inputIsFree).1,
      hyperPar := (setPar T.hyperPar T.base.hyperVal0 T.hyperIsFree).1 },
      .ok (List.ofFn (iteratedDeriv k η 0))) := by
  obtain ⟨f, hf1, hf2, -⟩ := hT (k - 1) (by omega)
  have hv := hf2 A c T.base d η hp
  rw [show k - 1 + 1 = k by omega] at hv
  exact evaluateDk_of hf1 hv h1 h2 hk hko

theorem evaluateDk_ok {T : Taylor} (hT : Ready F T) {d : List ℝ} {η : ℝ → Fin n → ℝ}
    (hp : Path (gradF F) T.base d η)
    (h1 : (setPar T.inputPar T.base.inputVal0 T.inputIsFree).2 = none)
    (h2 : (setPar T.hyperPar T.base.hyperVal0 T.hyperIsFree).2 = none) {k : ℕ} (hk : 1 ≤ k)
    (hko : k ≤ T.order) :
    T.evaluateDk d k = ({ T with
      inputPar := (setPar T.inputPar T.base.inputVal0 T.inputIsFree).1,
      hyperPar := (setPar T.hyperPar T.base.hyperVal0 T.hyperIsFree).1 },
      .ok (List.ofFn (iteratedDeriv k η 0))) :=
  evaluateDk_affine hT 0 0 (by simpa using hp) h1 h2 hk hko

/-- What every operation on the object keeps. -/
structure Inv (F : (Fin n → ℝ) × (Fin m → ℝ) → ℝ) (fi fh : Bool) (T : Taylor) : Prop where
  hfi : T.inputIsFree = fi
  hfh : T.hyperIsFree = fh
  same : T.hyperFn = T.objFn
  ev : Evaluates T.inputPar T.hyperPar T.objFn fi fh F
  ready : Ready F T

/-- The object is based at `(x, e)` and holds the Hessian of `F` there. -/
structure Based (F : (Fin n → ℝ) × (Fin m → ℝ) → ℝ) (x e : List ℝ) (T : Taylor) : Prop where
  hx : T.base.inputVal0 = x
  he : T.base.hyperVal0 = e
  shape : T.base.hess0.shape = [n, n]
  hess : toMatrix n n T.base.hess0 = toMatrix n n (hessArr F (toVec n x) (toVec m e))

/-- The parameters of an object changed to others with the same structure. -/
theorem Inv.withPars {fi fh : Bool} {T T' : Taylor} (h : Inv F fi fh T)
    (h1 : T'.inputIsFree = T.inputIsFree) (h2 : T'.hyperIsFree = T.hyperIsFree)
    (h3 : T'.objFn = T.objFn) (h4 : T'.hyperFn = T.hyperFn) (h5 : T'.order = T.order)
    (h6 : T'.dkList = T.dkList) (b1 : T'.inputPar.blank = T.inputPar.blank)
    (b2 : T'.hyperPar.blank = T.hyperPar.blank) : Inv F fi fh T' := by
  refine ⟨h1.trans h.hfi, h2.trans h.hfh, by rw [h3, h4, h.same], ?_, ?_⟩
  · rw [h3]
    exact evaluates_blank h.ev b1.symm b2.symm
  · unfold Ready
    rw [h5, h6]
    exact h.ready

theorem setParToBase_shape (T : Taylor) : ∃ p q, T.setParToBase.1 = { T with inputPar := p, hyperPar := q } ∧
    p.blank = T.inputPar.blank ∧ q.blank = T.hyperPar.blank := by
  unfold setParToBase
  simp only
  split
  · exact ⟨_, _, rfl, setPar_blank _ _ _, rfl⟩
  · exact ⟨_, _, rfl, setPar_blank _ _ _, setPar_blank _ _ _⟩

theorem setHess_shape (T : Taylor) (H : Arr) : ∃ b c, (T.setHess H).1 = { T with base := b, chol := c } := by
  unfold setHess
  split
  · exact ⟨_, _, rfl⟩
  · exact ⟨_, _, rfl⟩

theorem traced_shape (T : Taylor) : ∃ p q, T.traced = { T with inputPar := p, hyperPar := q } ∧
    p.blank = T.inputPar.blank ∧ q.blank = T.hyperPar.blank := by
  refine ⟨_, _, rfl, ?_, ?_⟩
  · simp only [TwoObjective.trace, joint]
    split
    · exact setPar_blank _ _ _
    · split <;> simp [Param.mark_blank, setPar_blank]
  · simp only [TwoObjective.trace, joint]
    split
    · rfl
    · split <;> simp [Param.mark_blank, setPar_blank]

theorem setBaseValues_shape (T : Taylor) (x e : List ℝ) (H : Option Arr) :
    ∃ p q b c, (T.setBaseValues x e H).1 = { T with inputPar := p, hyperPar := q, base := b, chol := c } ∧
      p.blank = T.inputPar.blank ∧ q.blank = T.hyperPar.blank := by
  obtain ⟨p, q, h1, h2, h3⟩ := setParToBase_shape
    ({ T with base := { T.base with inputVal0 := x, hyperVal0 := e } } : Taylor)
  unfold setBaseValues
  simp only
  split
  · exact ⟨p, q, _, _, h1, h2, h3⟩
  · split
    · obtain ⟨b, c, h4⟩ := setHess_shape (setParToBase
        ({ T with base := { T.base with inputVal0 := x, hyperVal0 := e } } : Taylor)).1 ‹Arr›
      rw [h4, h1]
      exact ⟨p, q, b, c, rfl, h2, h3⟩
    · have hb : ∀ o : Objective Unit, (o.funFreeHessian x ()).1.par.blank = o.par.blank :=
        fun o => o.deriv_par_blank _ _ _ _
      split
      · rw [h1]
        exact ⟨_, _, _, _, rfl, (hb _).trans h2, h3⟩
      · obtain ⟨b, c, h4⟩ := setHess_shape
          ({ (setParToBase ({ T with base := { T.base with inputVal0 := x, hyperVal0 := e } } : Taylor)).1 with
            inputPar := ((setParToBase ({ T with base := { T.base with inputVal0 := x, hyperVal0 := e } } :
              Taylor)).1.objective.funFreeHessian x ()).1.par } : Taylor) ‹Arr›
        rw [h4, h1]
        exact ⟨_, _, b, c, rfl, (hb _).trans h2, h3⟩

theorem evaluateDk_shape (T : Taylor) (d : List ℝ) (k : ℤ) :
    ∃ p q, (T.evaluateDk d k).1 = { T with inputPar := p, hyperPar := q } ∧
      p.blank = T.inputPar.blank ∧ q.blank = T.hyperPar.blank := by
  unfold evaluateDk
  obtain ⟨p, q, h1, h2, h3⟩ := T.traced_shape
  split
  · exact ⟨_, _, rfl, rfl, rfl⟩
  split
  · exact ⟨_, _, rfl, rfl, rfl⟩
  split
  · exact ⟨_, _, rfl, rfl, rfl⟩
  split
  · exact ⟨p, q, h1, h2, h3⟩
  · obtain ⟨p', q', g1, g2, g3⟩ := T.traced.setParToBase_shape
    simp only
    rw [g1, h1]
    rw [h1] at g2 g3
    exact ⟨p', q', rfl, g2.trans h2, g3.trans h3⟩

theorem seriesLoop_shape (d : List ℝ) : ∀ (ks : List ℕ) (T : Taylor) (acc : List ℝ),
    ∃ p q, (T.seriesLoop d ks acc).1 = { T with inputPar := p, hyperPar := q } ∧
      p.blank = T.inputPar.blank ∧ q.blank = T.hyperPar.blank := by
  intro ks
  induction ks with
  | nil => exact fun T acc => ⟨_, _, rfl, rfl, rfl⟩
  | cons k ks ih =>
    intro T acc
    obtain ⟨p, q, h1, h2, h3⟩ := T.evaluateDk_shape d k
    unfold seriesLoop
    simp only
    split
    · exact ⟨p, q, h1, h2, h3⟩
    · obtain ⟨p', q', g1, g2, g3⟩ := ih (T.evaluateDk d k).1 ‹List ℝ›
      rw [g1, h1]
      rw [h1] at g2 g3
      exact ⟨p', q', rfl, g2.trans h2, g3.trans h3⟩

theorem evaluateSeries_shape (T : Taylor) (d : List ℝ) (off : Bool) (mo : Option ℤ) :
    ∃ p q, (T.evaluateSeries d off mo).1 = { T with inputPar := p, hyperPar := q } ∧
      p.blank = T.inputPar.blank ∧ q.blank = T.hyperPar.blank := by
  obtain ⟨p, q, h1, h2, h3⟩ := T.evaluateDk_shape d 1
  unfold evaluateSeries
  simp only
  split
  · exact ⟨_, _, rfl, rfl, rfl⟩
  split
  · exact ⟨_, _, rfl, rfl, rfl⟩
  split
  · exact ⟨p, q, h1, h2, h3⟩
  · obtain ⟨p', q', g1, g2, g3⟩ := seriesLoop_shape d
      ((List.range ((mo.getD T.order).toNat - 1)).map (· + 2)) (T.evaluateDk d 1).1 ‹List ℝ›
    rw [h1] at g2 g3
    split
    · refine ⟨p', q', ?_, g2.trans h2, g3.trans h3⟩
      rw [g1, h1]
    · refine ⟨p', q', ?_, g2.trans h2, g3.trans h3⟩
      simp only
      rw [g1, h1]

/-! ### Operations on the object -/

/-- A call of a method of the object. -/
inductive Op
  | setBase (x e : List ℝ) (hess0 : Option Arr)
  | setOrder (order : ℕ)
  | evaluateDk (d : List ℝ) (k : ℤ)
  | evaluateSeries (d : List ℝ) (addOffset : Bool) (maxOrder : Option ℤ)

/-- The object after the call, whether or not it raised. -/
def step (T : Taylor) : Op → Taylor
  | .setBase x e H => (T.setBaseValues x e H).1
  | .setOrder k => (T.setOrder k).1
  | .evaluateDk d k => (T.evaluateDk d k).1
  | .evaluateSeries d a mo => (T.evaluateSeries d a mo).1

theorem Inv.step (hF : ContDiff ℝ ∞ F) {fi fh : Bool} {T : Taylor} (h : Inv F fi fh T) (op : Op) :
    Inv F fi fh (T.step op) := by
  cases op with
  | setBase x e H =>
    obtain ⟨p, q, b, c, h1, h2, h3⟩ := T.setBaseValues_shape x e H
    rw [Taylor.step, h1]
    exact h.withPars rfl rfl rfl rfl rfl rfl h2 h3
  | setOrder k =>
    rw [Taylor.step]
    by_cases hk : 1 ≤ k
    · have hev : Evaluates T.inputPar T.hyperPar T.hyperFn T.inputIsFree T.hyperIsFree F := by
        rw [h.same, h.hfi, h.hfh]; exact h.ev
      obtain ⟨L, e, hr⟩ := setOrder_ready hF T hev k hk
      refine ⟨?_, ?_, ?_, ?_, hr⟩ <;> rw [e]
      exacts [h.hfi, h.hfh, h.same, h.ev]
    · obtain rfl : k = 0 := by omega
      have hshape : ∃ ts dk, (T.setOrder 0).1 = { T with order := 0, termsList := ts, dkList := dk } := by
        unfold setOrder
        simp only
        split
        · exact ⟨_, _, rfl⟩
        · exact ⟨_, _, rfl⟩
      obtain ⟨ts, dk, e⟩ := hshape
      rw [e]
      exact ⟨h.hfi, h.hfh, h.same, h.ev, fun k hk => absurd hk (Nat.not_lt_zero k)⟩
  | evaluateDk d k =>
    obtain ⟨p, q, h1, h2, h3⟩ := T.evaluateDk_shape d k
    rw [Taylor.step, h1]
    exact h.withPars rfl rfl rfl rfl rfl rfl h2 h3
  | evaluateSeries d a mo =>
    obtain ⟨p, q, h1, h2, h3⟩ := T.evaluateSeries_shape d a mo
    rw [Taylor.step, h1]
    exact h.withPars rfl rfl rfl rfl rfl rfl h2 h3

theorem Inv.run (hF : ContDiff ℝ ∞ F) {fi fh : Bool} : ∀ (ops : List Op) {T : Taylor}, Inv F fi fh T →
    Inv F fi fh (ops.foldl Taylor.step T)
  | [], _, h => h
  | op :: ops, _, h => Inv.run hF ops (h.step hF op)

/-- The call does not change the base values. -/
def Op.keepsBase : Op → Prop
  | .setBase _ _ _ => False
  | _ => True

theorem step_base (T : Taylor) (op : Op) (h : op.keepsBase) : (T.step op).base = T.base := by
  cases op with
  | setBase x e H => exact absurd h (by simp [Op.keepsBase])
  | setOrder k =>
    rw [Taylor.step]
    unfold setOrder
    simp only
    split <;> rfl
  | evaluateDk d k =>
    obtain ⟨p, q, h1, -, -⟩ := T.evaluateDk_shape d k
    rw [Taylor.step, h1]
  | evaluateSeries d a mo =>
    obtain ⟨p, q, h1, -, -⟩ := T.evaluateSeries_shape d a mo
    rw [Taylor.step, h1]

theorem run_base : ∀ (ops : List Op) (T : Taylor), (∀ op ∈ ops, op.keepsBase) →
    (ops.foldl Taylor.step T).base = T.base
  | [], _, _ => rfl
  | op :: ops, T, h => by
    rw [List.foldl_cons, run_base ops _ (fun o ho => h o (List.mem_cons_of_mem _ ho)),
      step_base T op (h op (List.mem_cons_self ..))]

theorem Based.of_base {x e : List ℝ} {T T' : Taylor} (h : Based F x e T) (hb : T'.base = T.base) :
    Based F x e T' := by
  obtain ⟨a, b, c, d⟩ := h
  exact ⟨hb ▸ a, hb ▸ b, hb ▸ c, hb ▸ d⟩

/-- `set_base_values` with a positive definite Hessian. -/
theorem setHess_ok (T : Taylor) {H : Arr} (hs : H.shape = [n, n]) (hpd : (toMatrix n n H).PosDef) :
    ∃ l, T.setHess H = ({ T with base := { T.base with hess0 := H }, chol := l }, none) := by
  obtain ⟨l, hl, -⟩ := choFactor_ok hs hpd
  exact ⟨l, by simp only [setHess, hl]⟩

theorem setBase_supplied {fi fh : Bool} {T : Taylor} (hT : Inv F fi fh T) {x e : List ℝ}
    (hx : x.length = n) (he : e.length = m) {H : Arr} (hs : H.shape = [n, n])
    (hpd : (toMatrix n n H).PosDef) :
    ∃ l, T.setBaseValues x e (some H) = ({ T with
      inputPar := (setPar T.inputPar x fi).1, hyperPar := (setPar T.hyperPar e fh).1,
      base := ⟨H, x, e⟩, chol := l }, none) := by
  obtain ⟨s1, s2⟩ := TwoObjective.evalFun_ok (hT.ev x e hx he)
  simp only at s1 s2
  have e1 := setParToBase_ok (T := ({ T with base := { T.base with inputVal0 := x, hyperVal0 := e } } :
    Taylor)) (by simpa [hT.hfi] using s1) (by simpa [hT.hfh] using s2)
  obtain ⟨l, hl⟩ := setHess_ok (setParToBase
    ({ T with base := { T.base with inputVal0 := x, hyperVal0 := e } } : Taylor)).1 hs hpd
  refine ⟨l, ?_⟩
  have hn : (setParToBase ({ T with base := { T.base with inputVal0 := x, hyperVal0 := e } } :
    Taylor)).2 = none := by rw [e1]
  simp only [setBaseValues, hn, hl]
  rw [e1]
  simp only [hT.hfi, hT.hfh]

theorem cacheAndEval_of {β : Type} {p : Param} {free : Bool} {x : List ℝ} {ag : Py β} {v : β}
    (h : ag = .ok v) (hs : (setPar p x free).2 = none) :
    cacheAndEval p free x ag = ((setPar p x free).1, .ok v) := by
  unfold cacheAndEval
  simp only [h]
  rw [setPar_eq (traceSet_blank p x free).symm hs]
  simp only [hs]

/-- The Hessian of the objective at the values set, whatever the input parameter held before. -/
theorem funFreeHessian_base (hF : ContDiff ℝ 2 F) {p q : Param} {fn : Param → Param → Py Arr} {fh : Bool}
    (hev : Evaluates p q fn true fh F) (hn : 0 < n) {x e : List ℝ} (hx : x.length = n)
    (he : e.length = m) :
    (Objective.new p fun (_ : Unit) r => fn r (setPar q e fh).1).funFreeHessian x () =
      (Objective.new (setPar p x true).1 fun (_ : Unit) r => fn r (setPar q e fh).1,
        .ok (hessArr F (toVec n x) (toVec m e))) := by
  obtain ⟨s1, s2⟩ := TwoObjective.evalFun_ok (hev x e hx he)
  simp only at s1 s2
  have hval : ∀ y : List ℝ, y.length = n → valueAt (fun r => fn r (setPar q e fh).1) p true y =
        .ok (Arr.scalar ((fun u => F (u, toVec m e)) (toVec n y))) := by
    intro y hy
    have h := hev y e hy he
    obtain ⟨t1, -⟩ := TwoObjective.evalFun_ok h
    simp only at t1
    simp only [TwoObjective.evalFun, t1, s2] at h
    rw [valueAt]
    simp only [t1]
    rw [Param.mark_plain _ (setPar_plain q e fh s2)] at h
    exact h
  have hag : agHess (valueAt (fun r => fn r (setPar q e fh).1) p true) x =
      .ok (hessArr F (toVec n x) (toVec m e)) := by
    rw [agHess_ok (contDiff_left hF (toVec m e)) hval hx hn]
    congr 1
    rw [hessArr]
    congr 1
    funext i j
    exact fderiv2_left hF _ _ _ _
  simp only [Objective.funFreeHessian, Objective.deriv, Objective.new]
  rw [cacheAndEval_of hag s1]

theorem setBase_computed (hF : ContDiff ℝ ∞ F) {fh : Bool} {T : Taylor} (hfi : T.inputIsFree = true)
    (hfh : T.hyperIsFree = fh) (hev : Evaluates T.inputPar T.hyperPar T.objFn true fh F)
    (hn : 0 < n) {x e : List ℝ} (hx : x.length = n) (he : e.length = m)
    (hpc : PositiveCurvature F (toVec n x) (toVec m e)) :
    ∃ l, T.setBaseValues x e none = ({ T with
      inputPar := (setPar T.inputPar x true).1, hyperPar := (setPar T.hyperPar e fh).1,
      base := ⟨hessArr F (toVec n x) (toVec m e), x, e⟩, chol := l }, none) := by
  obtain ⟨s1, s2⟩ := TwoObjective.evalFun_ok (hev x e hx he)
  simp only at s1 s2
  obtain ⟨T1, hT1⟩ : ∃ T1, T1 = ({ T with base := { T.base with inputVal0 := x, hyperVal0 := e } } :
    Taylor) := ⟨_, rfl⟩
  have e1 : T1.setParToBase = ({ T with
      inputPar := (setPar T.inputPar x true).1, hyperPar := (setPar T.hyperPar e fh).1,
      base := { T.base with inputVal0 := x, hyperVal0 := e } }, none) := by
    have := setParToBase_ok (T := T1) (by rw [hT1]; simpa [hfi] using s1)
      (by rw [hT1]; simpa [hfh] using s2)
    rw [this, hT1]
    simp only [hfi, hfh]
  have hH : T1.setParToBase.1.objective.funFreeHessian x () =
      ({ T1.setParToBase.1.objective with par := (setPar T.inputPar x true).1 },
        .ok (hessArr F (toVec n x) (toVec m e))) := by
    rw [e1]
    have h0 := funFreeHessian_base (hF.of_le two_le_infty) (evaluates_blank hev
      (setPar_blank T.inputPar x true).symm rfl) hn hx he
    rw [setPar_eq (setPar_blank T.inputPar x true).symm s1] at h0
    exact h0
  obtain ⟨l, hl⟩ := setHess_ok ({ T1.setParToBase.1 with inputPar := (setPar T.inputPar x true).1 } : Taylor)
    (H := hessArr F (toVec n x) (toVec m e)) rfl (hessArr_posDef (hF.of_le two_le_infty) hpc)
  refine ⟨l, ?_⟩
  simp only [setBaseValues]
  rw [← hT1, hH]
  simp only [hl]
  rw [e1]

theorem Inv.of_evaluates {fi fh : Bool} {T : Taylor} (h1 : T.inputIsFree = fi) (h2 : T.hyperIsFree = fh)
    (h3 : T.hyperFn = T.objFn) (h4 : Evaluates T.inputPar T.hyperPar T.objFn fi fh F)
    (h5 : T.order = 0) : Inv F fi fh T :=
  ⟨h1, h2, h3, h4, fun k hk => absurd hk (by omega)⟩

/-- The derivatives, for an object based at `(x, e)`. -/
theorem Based.evaluateDk (hF : ContDiff ℝ ∞ F) (hn : 0 < n) (hm : 0 < m) {fi fh : Bool} {T : Taylor}
    (hT : Inv F fi fh T) {x e : List ℝ} (hB : Based F x e T) (hx : x.length = n) (he : e.length = m)
    (hpc : PositiveCurvature F (toVec n x) (toVec m e)) {d : List ℝ} (hd : d.length = m)
    {η : ℝ → Fin n → ℝ} (hη : OptimumPath F (toVec n x) (toVec m e) (toVec m d) η) {k : ℕ} (hk : 1 ≤ k)
    (hko : k ≤ T.order) :
    ∃ T', T.evaluateDk d k = (T', .ok (List.ofFn (iteratedDeriv k η 0))) ∧
      setPar T.inputPar x fi = (T'.inputPar, none) ∧ setPar T.hyperPar e fh = (T'.hyperPar, none) ∧
      T'.inputPar.Plain ∧ T'.hyperPar.Plain := by
  obtain ⟨s1, s2⟩ := TwoObjective.evalFun_ok (hT.ev x e hx he)
  simp only at s1 s2
  have hη' : OptimumPath F (toVec n T.base.inputVal0) (toVec m T.base.hyperVal0) (toVec m d) η := by
    rw [hB.hx, hB.he]; exact hη
  have hpd := hessArr_posDef (hF.of_le two_le_infty) hpc
  obtain ⟨η', hp, hit⟩ := hη'.path hF hn hm (by rw [hB.hx, hx]) (by rw [hB.he, he]) hd hB.shape
    (by rw [hB.hx, hB.he]; exact hB.hess) (by rw [hB.hess]; exact hpd.det_pos.ne')
  have := evaluateDk_ok hT.ready hp (by rw [hB.hx, hT.hfi]; exact s1) (by rw [hB.he, hT.hfh]; exact s2)
    hk hko
  rw [hit, hB.hx, hB.he, hT.hfi, hT.hfh] at this
  exact ⟨_, this, Prod.ext rfl s1, Prod.ext rfl s2, setPar_plain _ _ _ s1, setPar_plain _ _ _ s2⟩

end Taylor

end

end LRVB
