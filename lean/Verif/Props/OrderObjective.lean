import Verif.Props.Order
import Verif.Props.ObjDeriv
import Verif.Spec.Coordinates
import Verif.Lemmas.AgJac

/-!
# C183 for objectives
-/

namespace LRVB

noncomputable section

variable {A : Type}

/-- The value methods. -/
def Objective.valueIn (o : Objective A) (free : Bool) (x : List ℝ) (a : A) : Py Arr :=
  if free then (o.funFree x a false).2 else (o.funVector x a).2

theorem order_valueAt {f f' : Param → Py Arr} {p q : Param} (hp : p.WF) (hq : q.WF) (h : SameByKey p q)
    (hf : ∀ p q, SameByKey p q → f p = f' q) {free : Bool} {x y : List ℝ} (hx : x.length = p.sizeIn free)
    (hy : y.length = q.sizeIn free) (hxy : SameParts (p.indicesIn free) (q.indicesIn free) x y) :
    valueAt f p free x = valueAt f' q free y := by
  cases free
  · simp only [Param.sizeIn, Param.indicesIn, Bool.false_eq_true, if_false] at hx hy hxy
    simp only [valueAt, setPar, Bool.false_eq_true, if_false]
    rw [p.setVector_ok hp x hx, q.setVector_ok hq y hy]
    exact hf _ _ ((order_vecP hp hq h hxy).mark false)
  · simp only [Param.sizeIn, Param.indicesIn, if_true] at hx hy hxy
    simp only [valueAt, setPar, if_true]
    rw [p.setFree_ok hp x hx, q.setFree_ok hq y hy]
    exact hf _ _ ((order_freeP hp hq h hxy).mark false)

theorem Objective.valueIn_eq (o : Objective A) (free : Bool) (x : List ℝ) (a : A) :
    o.valueIn free x a = valueAt (o.fn a) o.par free x := by
  cases free
  · simp only [Objective.valueIn, Objective.funVector, valueAt, setPar, Bool.false_eq_true, if_false]
    cases (o.par.setVector x).2 <;> rfl
  · rw [← Objective.funFree_value]; rfl

section
variable {n : ℕ} {σ : Equiv.Perm (Fin n)} {x y : List ℝ}

theorem set_rearranged (hx : x.length = n) (hy : y.length = n)
    (h : ∀ i : Fin n, y.getD i 0 = x.getD (σ i) 0) (i : Fin n) (s : ℝ) (k : Fin n) :
    (y.set i s).getD k 0 = (x.set (σ i) s).getD (σ k) 0 := by
  have hi : (i : ℕ) < y.length := by omega
  have hi' : ((σ i : Fin n) : ℕ) < x.length := by omega
  have hk := h k
  simp only [List.getD_eq_getElem?_getD, List.getElem?_set] at hk ⊢
  by_cases e : (i : ℕ) = k
  · have e' : i = k := Fin.ext e
    subst e'
    simp [hi, hi']
  · have e' : ¬ ((σ i : Fin n) : ℕ) = σ k := fun e2 => e (by rw [σ.injective (Fin.ext e2)])
    simp only [e, e', if_false]
    exact hk

/-- Partial derivatives follow a rearrangement of the arguments. -/
theorem PartialDeriv.rearrange {F F' : List ℝ → Py (List ℝ)} (hx : x.length = n) (hy : y.length = n)
    (hF : ∀ u v : List ℝ, u.length = n → v.length = n → (∀ i : Fin n, v.getD i 0 = u.getD (σ i) 0) → F' v = F u)
    (h : ∀ i : Fin n, y.getD i 0 = x.getD (σ i) 0) {r : ℕ} {i : Fin n} {d : ℝ}
    (hd : PartialDeriv F r (σ i) x d) : PartialDeriv F' r i y d := by
  obtain ⟨g, g1, g2⟩ := hd
  refine ⟨g, fun s => ?_, by rw [h i]; exact g2⟩
  rw [hF _ (y.set i s) (by simpa using hx) (by simpa using hy) (set_rearranged hx hy h i s)]
  exact g1 s

theorem SecondPartialDeriv.rearrange {F F' : List ℝ → Py (List ℝ)} (hx : x.length = n) (hy : y.length = n)
    (hF : ∀ u v : List ℝ, u.length = n → v.length = n → (∀ i : Fin n, v.getD i 0 = u.getD (σ i) 0) → F' v = F u)
    (h : ∀ i : Fin n, y.getD i 0 = x.getD (σ i) 0) {r : ℕ} {i j : Fin n} {d : ℝ}
    (hd : SecondPartialDeriv F r (σ i) (σ j) x d) : SecondPartialDeriv F' r i j y d := by
  obtain ⟨g, g1, g2⟩ := hd
  refine ⟨g, fun s => ?_, by rw [h j]; exact g2⟩
  exact (g1 s).rearrange (by simpa using hx) (by simpa using hy) hF (set_rearranged hx hy h j s)

end

theorem exists_perm_in {p q : Param} (hp : p.WF) (hq : q.WF) (h : SameByKey p q) (free : Bool) :
    p.sizeIn free = q.sizeIn free ∧ ∃ σ : Equiv.Perm (Fin (p.sizeIn free)), ∀ x y : List ℝ,
      x.length = p.sizeIn free → y.length = p.sizeIn free →
      (SameParts (p.indicesIn free) (q.indicesIn free) x y ↔
        ∀ i : Fin (p.sizeIn free), y.getD i 0 = x.getD (σ i) 0) := by
  obtain ⟨s1, s2⟩ := order_sizes hp hq h
  obtain ⟨c1, c2⟩ := order_covers hp h.1
  obtain ⟨d1, d2⟩ := order_covers hq h.2.1
  obtain ⟨m1, m2⟩ := order_matching hp hq h
  obtain ⟨n1, n2⟩ := order_matching hq hp h.symm
  cases free
  · have d : Covers p.vecSize q.vecIndices := s2 ▸ d2
    exact ⟨s2, exists_perm c2 d n2 m2⟩
  · have d : Covers p.freeSize q.freeIndices := s1 ▸ d1
    exact ⟨s1, exists_perm c1 d n1 m1⟩

/-- The derivatives of two objectives whose values agree up to a rearrangement `σ` of the arguments. -/
theorem rearranged_derivatives {n : ℕ} (o o' : Objective A) (a : A) (free : Bool) (σ : Equiv.Perm (Fin n))
    (R : List ℝ → List ℝ → Prop)
    (hσ : ∀ x y : List ℝ, x.length = n → y.length = n → (R x y ↔ ∀ i : Fin n, y.getD i 0 = x.getD (σ i) 0))
    (hvals : ∀ x y : List ℝ, x.length = n → y.length = n → R x y → o.valueIn free x a = o'.valueIn free y a)
    (f : (Fin n → ℝ) → ℝ) (hf : ContDiff ℝ 2 f) (hpos : 0 < n)
    (hval : ∀ x : List ℝ, x.length = n → o.valueIn free x a = .ok (Arr.scalar (f (toVec _ x))))
    (x y v w : List ℝ) (hx : x.length = n) (hy : y.length = n) (hv : v.length = n) (hw : w.length = n)
    (hxy : R x y) (hvw : R v w) :
    ∃ g g' H H' u u',
      (if free then o.funFreeGrad x a else o.funVectorGrad x a).2 = .ok g ∧
      (if free then o'.funFreeGrad y a else o'.funVectorGrad y a).2 = .ok g' ∧
      (if free then o.funFreeHessian x a else o.funVectorHessian x a).2 = .ok H ∧
      (if free then o'.funFreeHessian y a else o'.funVectorHessian y a).2 = .ok H' ∧
      (if free then o.funFreeHvp x a v else o.funVectorHvp x a v).2 = .ok u ∧
      (if free then o'.funFreeHvp y a w else o'.funVectorHvp y a w).2 = .ok u' ∧
      R g g' ∧ IsMat H n n ∧ IsMat H' n n ∧ (∀ i j : Fin n, H'.at2 i j = H.at2 (σ i) (σ j)) ∧ R u u' := by
  have hF : ∀ u v : List ℝ, u.length = n → v.length = n → (∀ i : Fin n, v.getD i 0 = u.getD (σ i) 0) →
      o'.valueList free a v = o.valueList free a u := by
    intro u v hu hv huv
    have := hvals u v hu hv ((hσ u v hu hv).mpr huv)
    simp only [Objective.valueIn] at this
    simp only [Objective.valueList]
    rw [this]
  have hval' : ∀ z : List ℝ, z.length = n →
      o'.valueIn free z a = .ok (Arr.scalar ((fun u => f ((permL σ).symm u)) (toVec n z))) := by
    intro z hz
    obtain ⟨z0, a1, a2⟩ := exists_toVec ((permL σ).symm (toVec n z))
    have hz0 : toVec n z = permL σ (toVec n z0) := by rw [a2]; simp
    rw [← hvals z0 z a1 hz ((hσ z0 z a1 hz).mpr fun i => congrFun hz0 i), hval z0 a1, a2]
  obtain ⟨g, H, u, g1, H1, u1, g2, H2, g3, H3, u3⟩ := C86_derivatives o a free n hpos f hf hval x v hx hv
  obtain ⟨g', H', u', g1', H1', u1', g2', H2', g3', H3', u3'⟩ := C86_derivatives o' a free n hpos
    (fun u => f ((permL σ).symm u)) (hf.comp (permL σ).symm.contDiff) hval' y w hy hw
  have hxy' := (hσ x y hx hy).mp hxy
  have hvw' := (hσ v w hv hw).mp hvw
  have hH : ∀ i j : Fin n, H'.at2 i j = H.at2 (σ i) (σ j) := fun i j =>
    (H3' i i.2 j j.2).1.unique ((H3 _ (σ i).2 _ (σ j).2).1.rearrange hx hy hF hxy')
  have ul : ∀ {M : Arr} {b c : List ℝ}, IsMat M n n → b.length = n → M.mulVec b = .ok c →
      c.length = n ∧ ∀ i : Fin n, c.getD i 0 = ∑ j : Fin n, M.at2 i j * b.getD j 0 := by
    intro M b c hM hb hc
    unfold Arr.mulVec at hc
    rw [hM.2] at hc
    simp only [hb] at hc
    cases hc
    refine ⟨by simp, fun i => ?_⟩
    simp [List.getD_eq_getElem?_getD, Finset.sum_range]
  obtain ⟨c1, c2⟩ := ul H2 hv u3
  obtain ⟨c1', c2'⟩ := ul H2' hw u3'
  refine ⟨g, g', H, H', u, u', g1, g1', H1, H1', u1, u1', (hσ _ _ g2 g2').mpr fun i => ?_, H2, H2', hH,
    (hσ _ _ c1 c1').mpr fun i => ?_⟩
  · exact (g3' i i.2).unique ((g3 _ (σ i).2).rearrange hx hy hF hxy')
  · rw [c2, c2', ← Equiv.sum_comp σ fun j : Fin n => H.at2 (σ i) j * v.getD j 0]
    exact Finset.sum_congr rfl fun j _ => by rw [hH, hvw' j]

/-- **C183** (objectives) Two objectives with such dictionaries, whose functions look up parameters by key.
At vectors that hold the same numbers under every key the values are the same, or both calls raise the same
exception.  Where the value is a smooth function of the vector, gradients and products of the Hessian with
such vectors hold the same numbers under every key, and the Hessian is rearranged by the permutation of the
indices. -/
theorem C183_objective {eigh : Eigh} (he : EighContract eigh) (o o' : Objective A) (hp : Built eigh o.par)
    (hq : Built eigh o'.par) (h : SameByKey o.par o'.par) (a : A)
    (hfn : ∀ p q, SameByKey p q → o.fn a p = o'.fn a q) (free : Bool) :
    o.par.sizeIn free = o'.par.sizeIn free ∧
    (∀ x y : List ℝ, x.length = o.par.sizeIn free → y.length = o.par.sizeIn free →
      SameParts (o.par.indicesIn free) (o'.par.indicesIn free) x y →
      o.valueIn free x a = o'.valueIn free y a) ∧
    ∃ σ : Equiv.Perm (Fin (o.par.sizeIn free)),
      (∀ x y : List ℝ, x.length = o.par.sizeIn free → y.length = o.par.sizeIn free →
        (SameParts (o.par.indicesIn free) (o'.par.indicesIn free) x y ↔
          ∀ i : Fin (o.par.sizeIn free), y.getD i 0 = x.getD (σ i) 0)) ∧
      ∀ f : (Fin (o.par.sizeIn free) → ℝ) → ℝ, ContDiff ℝ 2 f → 0 < o.par.sizeIn free →
        (∀ x : List ℝ, x.length = o.par.sizeIn free → o.valueIn free x a = .ok (Arr.scalar (f (toVec _ x)))) →
        ∀ x y v w : List ℝ, x.length = o.par.sizeIn free → y.length = o.par.sizeIn free →
          v.length = o.par.sizeIn free → w.length = o.par.sizeIn free →
          SameParts (o.par.indicesIn free) (o'.par.indicesIn free) x y →
          SameParts (o.par.indicesIn free) (o'.par.indicesIn free) v w →
          ∃ g g' H H' u u',
            (if free then o.funFreeGrad x a else o.funVectorGrad x a).2 = .ok g ∧
            (if free then o'.funFreeGrad y a else o'.funVectorGrad y a).2 = .ok g' ∧
            (if free then o.funFreeHessian x a else o.funVectorHessian x a).2 = .ok H ∧
            (if free then o'.funFreeHessian y a else o'.funVectorHessian y a).2 = .ok H' ∧
            (if free then o.funFreeHvp x a v else o.funVectorHvp x a v).2 = .ok u ∧
            (if free then o'.funFreeHvp y a w else o'.funVectorHvp y a w).2 = .ok u' ∧
            SameParts (o.par.indicesIn free) (o'.par.indicesIn free) g g' ∧
            IsMat H (o.par.sizeIn free) (o.par.sizeIn free) ∧
            IsMat H' (o.par.sizeIn free) (o.par.sizeIn free) ∧
            (∀ i j : Fin (o.par.sizeIn free), H'.at2 i j = H.at2 (σ i) (σ j)) ∧
            SameParts (o.par.indicesIn free) (o'.par.indicesIn free) u u' := by
  have hwp := hp.wf he
  have hwq := hq.wf he
  obtain ⟨hs, σ, hσ⟩ := exists_perm_in hwp hwq h free
  have hvals : ∀ x y : List ℝ, x.length = o.par.sizeIn free → y.length = o.par.sizeIn free →
      SameParts (o.par.indicesIn free) (o'.par.indicesIn free) x y →
      o.valueIn free x a = o'.valueIn free y a := by
    intro x y hx hy hxy
    rw [o.valueIn_eq, o'.valueIn_eq]
    exact order_valueAt hwp hwq h hfn hx (hy.trans hs) hxy
  refine ⟨hs, hvals, σ, hσ, fun f hf hpos hval x y v w hx hy hv hw hxy hvw => ?_⟩
  exact rearranged_derivatives o o' a free σ _ hσ hvals f hf hpos hval x y v w hx hy hv hw hxy hvw

/-- Objectives for `exAB` and `exBA`. -/
example : ∃ (eigh : Eigh) (o o' : Objective Unit), EighContract eigh ∧ Built eigh o.par ∧ Built eigh o'.par ∧
    SameByKey o.par o'.par ∧ o.par ≠ o'.par ∧ (∀ p q, SameByKey p q → o.fn () p = o'.fn () q) ∧
    o.par.sizeIn true = 2 ∧
    ∀ x : List ℝ, x.length = 2 → o.valueIn true x () = .ok (Arr.scalar (toVec 2 x 0 * toVec 2 x 1)) := by
  obtain ⟨eigh, he⟩ := exists_eigh
  refine ⟨eigh, ⟨exAB, fun _ p => do .ok (Arr.scalar ((← look p "a") * (← look p "b"))), none, ⟨1, none, 0, none, none, none, none, [], [], []⟩⟩,
    ⟨exBA, fun _ p => do .ok (Arr.scalar ((← look p "a") * (← look p "b"))), none, ⟨1, none, 0, none, none, none, none, [], [], []⟩⟩, he,
    exAB_built eigh, exBA_built eigh, exAB_same, ?_, ?_, ?_, ?_⟩
  · simp only
    rw [exAB_eq, exBA_eq]
    simp
  · intro p q h
    simp only [look_congr h]
  · simp only [Param.sizeIn, if_true]
    rw [exAB_eq]
    rfl
  · intro x hx
    obtain ⟨s, t, rfl⟩ := List.length_eq_two.mp hx
    obtain ⟨g0, g1, g2⟩ := exAB_set s t
    rw [Objective.valueIn_eq]
    simp only [valueAt, setPar, if_true, g0, g1, g2]
    simp [toVec, bind, Except.bind]

end

end LRVB
