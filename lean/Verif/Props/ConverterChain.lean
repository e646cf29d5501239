import Verif.Props.Converter
import Verif.Props.ObjDeriv

/-!
# C192: Jacobians of chained converters multiply

Converters are used to pass from one parameterization to another, one after the other, and in front
of objectives; the user multiplies the Jacobians the methods return.
-/

namespace LRVB

variable {A : Type}

/-- A partial derivative of a function that is known in closed form. -/
theorem PartialDeriv.hasDerivAt {F : List ℝ → Py (List ℝ)} {n m : ℕ} {G : (Fin n → ℝ) → ℕ → ℝ}
    (hF : ∀ y : List ℝ, y.length = n → F y = .ok ((List.range m).map (G (toVec n y))))
    {x : List ℝ} (hx : x.length = n) {i j : ℕ} (hi : i < m) {d : ℝ} (h : PartialDeriv F i j x d) :
    HasDerivAt (fun s => G (toVec n (x.set j s)) i) d (x.getD j 0) := by
  obtain ⟨g, h1, h2⟩ := h
  have : g = fun s => G (toVec n (x.set j s)) i := by
    funext s
    obtain ⟨v, hv, hg⟩ := h1 s
    rw [hF _ (by simpa using hx)] at hv
    obtain rfl := Except.ok.inj hv
    simpa [List.getElem?_range, hi] using hg.symm
  rwa [this] at h2

/-- The chain rule for functions between lists. -/
theorem partialDeriv_comp {F1 F2 : List ℝ → Py (List ℝ)} {n k m : ℕ}
    {G1 : (Fin n → ℝ) → ℕ → ℝ} {G2 : (Fin k → ℝ) → ℕ → ℝ}
    (hG2 : ∀ i < m, Differentiable ℝ fun u => G2 u i)
    (hF1 : ∀ y : List ℝ, y.length = n → F1 y = .ok ((List.range k).map (G1 (toVec n y))))
    (hF2 : ∀ y : List ℝ, y.length = k → F2 y = .ok ((List.range m).map (G2 (toVec k y))))
    {x : List ℝ} (hx : x.length = n) {D1 D2 : ℕ → ℕ → ℝ}
    (h1 : ∀ i < k, ∀ j < n, PartialDeriv F1 i j x (D1 i j))
    (h2 : ∀ i < m, ∀ j < k, PartialDeriv F2 i j ((List.range k).map (G1 (toVec n x))) (D2 i j))
    {i j : ℕ} (hi : i < m) (hj : j < n) :
    PartialDeriv (fun y => F1 y >>= F2) i j x (∑ l ∈ Finset.range k, D2 i l * D1 l j) := by
  set z := (List.range k).map (G1 (toVec n x)) with hz
  have hzl : z.length = k := by simp [hz]
  have e2 : ∀ l < k, fderiv ℝ (fun u => G2 u i) (toVec k z) (basis k l) = D2 i l := by
    intro l hl
    exact (pd_hasDerivAt (h := fun y => G2 (toVec k y) i) (hG2 i hi) (fun _ _ => rfl) hzl hl).unique
      ((h2 i hi l hl).hasDerivAt hF2 hzl hi)
  have tv : ∀ y : List ℝ, toVec k ((List.range k).map (G1 (toVec n y))) =
      fun l : Fin k => G1 (toVec n y) l := by
    intro y; funext l; simp [toVec, List.getD_eq_getElem?_getD]
  refine ⟨fun s => G2 (fun l : Fin k => G1 (toVec n (x.set j s)) l) i, fun s => ?_, ?_⟩
  · refine ⟨(List.range m).map (G2 (fun l : Fin k => G1 (toVec n (x.set j s)) l)), ?_, ?_⟩
    · simp only
      rw [hF1 _ (by simpa using hx), py_ok_bind, hF2 _ (by simp), tv]
    · simp [List.getElem?_range, hi]
  · have hin : HasDerivAt (fun s => fun l : Fin k => G1 (toVec n (x.set j s)) l)
        (fun l : Fin k => D1 l j) (x.getD j 0) := by
      rw [hasDerivAt_pi]
      exact fun l => (h1 l l.2 j hj).hasDerivAt hF1 hx l.2
    have hp : (fun l : Fin k => G1 (toVec n (x.set j (x.getD j 0))) l) = toVec k z := by
      have : x.set j (x.getD j 0) = x := by
        rw [List.getD_eq_getElem?_getD, List.getElem?_eq_getElem (by omega)]
        simp
      rw [this, hz, tv]
    have hout := ((hG2 i hi) (toVec k z)).hasFDerivAt
    rw [← hp] at hout
    have hc := hout.comp_hasDerivAt (x.getD j 0) hin
    rw [hp] at hc
    refine hc.congr_deriv ?_
    have hb : (fun l : Fin k => D1 l j) = ∑ l : Fin k, D1 l j • basis k l := by
      funext q
      simp [basis_fin, Finset.sum_apply, Pi.single_apply]
    rw [hb, map_sum, ← Fin.sum_univ_eq_sum_range fun l => D2 i l * D1 l j]
    refine Finset.sum_congr rfl fun l _ => ?_
    rw [map_smul, e2 l l.2, smul_eq_mul, mul_comm]

/-- **C192** Let two converters compute differentiable maps, the first from `n` to `k ≥ 1` numbers and
the second from `k` to `m ≥ 1` numbers, in any of the parameterizations.  Then the product of the
Jacobian the second returns at the converted point and the Jacobian the first returns is the Jacobian
of converting with the first and then with the second. -/
theorem C192_chained_converters {eigh : Eigh} (he : EighContract eigh) (c1 c2 : Converter)
    (hc1 : ∀ p q, (c1.conv p q).1.blank = q.blank) (hb1 : Built eigh c1.parOut)
    (hp1 : c1.parOut.HasParams) (hv1 : c1.parOut.Proper)
    (hc2 : ∀ p q, (c2.conv p q).1.blank = q.blank) (hb2 : Built eigh c2.parOut)
    (hp2 : c2.parOut.HasParams) (hv2 : c2.parOut.Proper)
    (freeIn freeMid freeMid' freeOut : Bool) (n k m : ℕ) (hk : 0 < k) (hm : 0 < m)
    (G1 : (Fin n → ℝ) → ℕ → ℝ) (hG1 : ∀ i < k, Differentiable ℝ fun u => G1 u i)
    (G2 : (Fin k → ℝ) → ℕ → ℝ) (hG2 : ∀ i < m, Differentiable ℝ fun u => G2 u i)
    (hval1 : ∀ y : List ℝ, y.length = n →
      (c1.convert freeIn freeMid y).2 = .ok ((List.range k).map (G1 (toVec n y))))
    (hval2 : ∀ y : List ℝ, y.length = k →
      (c2.convert freeMid' freeOut y).2 = .ok ((List.range m).map (G2 (toVec k y))))
    (x : List ℝ) (hx : x.length = n) :
    ∃ z J1 J2 J, (c1.convert freeIn freeMid x).2 = .ok z ∧
      (c1.jacobian freeIn freeMid x).2 = .ok J1 ∧
      (c2.jacobian freeMid' freeOut z).2 = .ok J2 ∧
      J2.matmul J1 = .ok J ∧ IsMat J m n ∧
      ∀ i < m, ∀ j < n, PartialDeriv (fun y => (c1.convert freeIn freeMid y).2 >>= fun z =>
        (c2.convert freeMid' freeOut z).2) i j x (J.at2 i j) := by
  obtain ⟨J1, _, _, e1, s1, d1, -⟩ :=
    C49_jacobian he c1 hc1 hb1 hp1 hv1 freeIn freeMid n k hk G1 hG1 hval1 x hx
  obtain ⟨J2, _, _, e2, s2, d2, -⟩ :=
    C49_jacobian he c2 hc2 hb2 hp2 hv2 freeMid' freeOut k m hm G2 hG2 hval2
      ((List.range k).map (G1 (toVec n x))) (by simp)
  refine ⟨_, J1, J2, _, hval1 x hx, by rw [e1], by rw [e2], matmul_ok s2.2 s1.2,
    ⟨Arr.ofFn2_WF _ _ _, rfl⟩, fun i hi j hj => ?_⟩
  rw [Arr.at2_ofFn2 _ _ _ hi hj]
  exact partialDeriv_comp hG2 hval1 hval2 hx d1 d2 hi hj

/-- **C192** in front of an objective: the transposed Jacobian the converter returns, times the
gradient the objective returns at the converted point, is the gradient of the objective as a function
of the converter's input. -/
theorem C192_objective_after_converter {eigh : Eigh} (he : EighContract eigh) (c : Converter)
    (hc : ∀ p q, (c.conv p q).1.blank = q.blank) (hb : Built eigh c.parOut)
    (hp : c.parOut.HasParams) (hv : c.parOut.Proper)
    (freeIn freeOut : Bool) (n k : ℕ) (hk : 0 < k)
    (G : (Fin n → ℝ) → ℕ → ℝ) (hG : ∀ i < k, Differentiable ℝ fun u => G u i)
    (hval : ∀ y : List ℝ, y.length = n →
      (c.convert freeIn freeOut y).2 = .ok ((List.range k).map (G (toVec n y))))
    (o : Objective A) (a : A) (free : Bool) (f : (Fin k → ℝ) → ℝ) (hf : ContDiff ℝ 2 f)
    (hobj : ∀ y : List ℝ, y.length = k →
      (if free then (o.funFree y a false).2 else (o.funVector y a).2) =
        .ok (Arr.scalar (f (toVec k y))))
    (x : List ℝ) (hx : x.length = n) :
    ∃ z J g w, (c.convert freeIn freeOut x).2 = .ok z ∧
      (c.jacobian freeIn freeOut x).2 = .ok J ∧
      (if free then o.funFreeGrad z a else o.funVectorGrad z a).2 = .ok g ∧
      J.transpose.mulVec g = .ok w ∧ w.length = n ∧
      ∀ j < n, PartialDeriv (fun y => (c.convert freeIn freeOut y).2 >>= o.valueList free a) 0 j x
        (w.getD j 0) := by
  obtain ⟨J, _, _, e1, s1, d1, -⟩ :=
    C49_jacobian he c hc hb hp hv freeIn freeOut n k hk G hG hval x hx
  set z := (List.range k).map (G (toVec n x)) with hz
  have hzl : z.length = k := by simp [hz]
  obtain ⟨g, _, _, hg, -, -, hgl, -, d2, -⟩ :=
    C86_derivatives o a free k hk f hf hobj z z hzl hzl
  have hTs : J.transpose.shape = [n, k] := by simp [s1.2]
  refine ⟨z, J, g, _, hval x hx, by rw [e1], hg, mulVec_ok hTs hgl, by simp, fun j hj => ?_⟩
  rw [mulVecFn_getD _ _ _ _ hj]
  have hF2 : ∀ y : List ℝ, y.length = k → o.valueList free a y =
      .ok ((List.range 1).map fun _ => f (toVec k y)) := by
    intro y hy
    rw [Objective.valueList_eq, valueAt_scalar (hobj y hy)]; rfl
  have := partialDeriv_comp (G2 := fun u _ => f u) (m := 1)
    (fun _ _ => hf.differentiable (by norm_num)) hval hF2 hx d1
    (D2 := fun _ l => g.getD l 0) (fun i hi l hl => by
      obtain rfl : i = 0 := by omega
      exact d2 l hl) Nat.one_pos hj
  convert this using 1
  refine Finset.sum_congr rfl fun l hl => ?_
  have : J.transpose.at2 j l = J.at2 l j := by
    unfold Arr.transpose
    rw [s1.2]
    exact Arr.at2_ofFn2 _ _ _ (by simpa using hj) (by simpa using hl)
  rw [this, mul_comm]

/-- The hypotheses of C192 are met: doubling the vector twice.  (For objectives see the
examples after C86 and C191.) -/
example (x : List ℝ) (hx : x.length = 3) :
    (∃ z J1 J2 J, (exConv.convert false false x).2 = .ok z ∧
      (exConv.jacobian false false x).2 = .ok J1 ∧ (exConv.jacobian false false z).2 = .ok J2 ∧
      J2.matmul J1 = .ok J ∧ IsMat J 3 3 ∧
      ∀ i < 3, ∀ j < 3, PartialDeriv (fun y => (exConv.convert false false y).2 >>= fun z =>
        (exConv.convert false false z).2) i j x (J.at2 i j)) := by
  obtain ⟨eigh, he⟩ := exists_eigh
  obtain ⟨h1, h2, h3, h4, h5⟩ := exConv_meets
  exact C192_chained_converters he exConv exConv h1 (exDict_built eigh) h2 h3 h1 (exDict_built eigh)
    h2 h3 false false false false 3 3 3 (by norm_num) (by norm_num)
    (fun u i => 2 * (List.ofFn u).getD i 0) h4 (fun u i => 2 * (List.ofFn u).getD i 0) h4 h5 h5 x hx

end LRVB
