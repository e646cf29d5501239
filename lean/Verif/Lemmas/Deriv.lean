import Verif.Spec.Deriv
import Verif.Lemmas.Leaf2
import Verif.Props.Subspace
import Mathlib.Analysis.Calculus.ContDiff.Operations
import Mathlib.Analysis.Calculus.FDeriv.Pi
import Mathlib.Analysis.Calculus.FDeriv.Symmetric
import Mathlib.Analysis.Calculus.Deriv.Pi
import Mathlib.Analysis.SpecialFunctions.ExpDeriv
import Mathlib.Analysis.SpecialFunctions.Log.Deriv

/-!
Partial derivatives of list functions.
-/

namespace LRVB

open Flt

noncomputable section

/-- First partial derivative of entry `i` in coordinate `j`. -/
def D1 (G : List ℝ → List ℝ) (x : List ℝ) (i j : ℕ) : ℝ :=
  deriv (fun s => (G (x.set j s)).getD i 0) (x.getD j 0)

/-- Second partial derivative. -/
def D2 (G : List ℝ → List ℝ) (x : List ℝ) (i a b : ℕ) : ℝ :=
  deriv (fun s => D1 G (x.set b s) i a) (x.getD b 0)

/-- Entries of `G` are twice continuously differentiable functions of the entries of the argument. -/
def Smooth (n m : ℕ) (G : List ℝ → List ℝ) : Prop :=
  ∀ i < m, ∃ g : (Fin n → ℝ) → ℝ, ContDiff ℝ 2 g ∧ ∀ x : List ℝ, x.length = n →
    (G x).getD i 0 = g (toVec n x)

end

theorem toVec_set {n : ℕ} {x : List ℝ} (hx : x.length = n) (j : Fin n) (s : ℝ) :
    toVec n (x.set j s) = Function.update (toVec n x) j s := by
  ext k
  unfold toVec
  by_cases h : k = j
  · subst h
    have : (k : ℕ) < x.length := by rw [hx]; exact k.2
    simp [List.getD_eq_getElem?_getD, this]
  · have : (j : ℕ) ≠ k := fun hc => h (Fin.ext hc.symm)
    simp [List.getD_eq_getElem?_getD, h, List.getElem?_set_ne this]

theorem hasDerivAt_update {n : ℕ} {g : (Fin n → ℝ) → ℝ} (hg : Differentiable ℝ g) (v : Fin n → ℝ)
    (j : Fin n) :
    HasDerivAt (fun s => g (Function.update v j s)) (fderiv ℝ g v (Pi.single j 1)) (v j) := by
  have h1 : HasDerivAt (fun s : ℝ => Function.update v j s) (Pi.single j 1) (v j) :=
    _root_.hasDerivAt_update v j (v j)
  have h2 : HasFDerivAt g (fderiv ℝ g v) (Function.update v j (v j)) := by
    rw [Function.update_eq_self]; exact (hg v).hasFDerivAt
  exact h2.comp_hasDerivAt _ h1

theorem Smooth.hasDerivAt {n m : ℕ} {G : List ℝ → List ℝ} (h : Smooth n m G) {x : List ℝ}
    (hx : x.length = n) {i j : ℕ} (hi : i < m) (hj : j < n) :
    HasDerivAt (fun s => (G (x.set j s)).getD i 0) (D1 G x i j) (x.getD j 0) := by
  obtain ⟨g, hg, hG⟩ := h i hi
  have hd : Differentiable ℝ g := hg.differentiable (by norm_num)
  have h1 := LRVB.hasDerivAt_update hd (toVec n x) ⟨j, hj⟩
  have h2 : (fun s => (G (x.set j s)).getD i 0) =
      fun s => g (Function.update (toVec n x) ⟨j, hj⟩ s) := by
    funext s
    rw [hG _ (by simpa using hx), ← toVec_set hx ⟨j, hj⟩ s]
  rw [D1, h2]
  exact h1.differentiableAt.hasDerivAt

theorem Smooth.D1_eq {n : ℕ} {G : List ℝ → List ℝ} {g : (Fin n → ℝ) → ℝ} (hg : ContDiff ℝ 2 g)
    {i : ℕ} (hG : ∀ x : List ℝ, x.length = n → (G x).getD i 0 = g (toVec n x)) {x : List ℝ}
    (hx : x.length = n) (j : Fin n) :
    D1 G x i j = fderiv ℝ g (toVec n x) (Pi.single j 1) := by
  have hd : Differentiable ℝ g := hg.differentiable (by norm_num)
  have h1 := LRVB.hasDerivAt_update hd (toVec n x) j
  have h2 : (fun s => (G (x.set j s)).getD i 0) =
      fun s => g (Function.update (toVec n x) j s) := by
    funext s
    rw [hG _ (by simpa using hx), ← toVec_set hx j s]
  rw [D1, h2]
  exact h1.deriv

theorem Smooth.hasDerivAt2 {n m : ℕ} {G : List ℝ → List ℝ} (h : Smooth n m G) {x : List ℝ}
    (hx : x.length = n) {i a b : ℕ} (hi : i < m) (ha : a < n) (hb : b < n) :
    HasDerivAt (fun s => D1 G (x.set b s) i a) (D2 G x i a b) (x.getD b 0) := by
  obtain ⟨g, hg, hG⟩ := h i hi
  have hd1 : ContDiff ℝ 1 (fun v => fderiv ℝ g v (Pi.single ⟨a, ha⟩ 1)) :=
    (hg.fderiv_right (m := 1) (by norm_num)).clm_apply contDiff_const
  have h1 := LRVB.hasDerivAt_update (hd1.differentiable (by norm_num)) (toVec n x) ⟨b, hb⟩
  have h2 : (fun s => D1 G (x.set b s) i a) =
      fun s => fderiv ℝ g (Function.update (toVec n x) ⟨b, hb⟩ s) (Pi.single ⟨a, ha⟩ 1) := by
    funext s
    rw [← toVec_set hx ⟨b, hb⟩ s]
    exact Smooth.D1_eq hg hG (by simpa using hx) ⟨a, ha⟩
  rw [D2, h2]
  exact h1.differentiableAt.hasDerivAt

/-- Second partial derivatives commute. -/
theorem Smooth.D2_comm {n m : ℕ} {G : List ℝ → List ℝ} (h : Smooth n m G) {x : List ℝ}
    (hx : x.length = n) {i a b : ℕ} (hi : i < m) (ha : a < n) (hb : b < n) :
    D2 G x i a b = D2 G x i b a := by
  obtain ⟨g, hg, hG⟩ := h i hi
  have key : ∀ (a b : ℕ) (ha : a < n) (hb : b < n), D2 G x i a b =
      fderiv ℝ (fderiv ℝ g) (toVec n x) (Pi.single ⟨b, hb⟩ 1) (Pi.single ⟨a, ha⟩ 1) := by
    intro a b ha hb
    have hdd : Differentiable ℝ (fderiv ℝ g) :=
      (hg.fderiv_right (m := 1) (by norm_num)).differentiable (by norm_num)
    have hd1 : Differentiable ℝ (fun v => fderiv ℝ g v (Pi.single ⟨a, ha⟩ 1)) :=
      hdd.clm_apply (differentiable_const _)
    have h1 := LRVB.hasDerivAt_update hd1 (toVec n x) ⟨b, hb⟩
    have h2 : (fun s => D1 G (x.set b s) i a) =
        fun s => fderiv ℝ g (Function.update (toVec n x) ⟨b, hb⟩ s) (Pi.single ⟨a, ha⟩ 1) := by
      funext s
      rw [← toVec_set hx ⟨b, hb⟩ s]
      exact Smooth.D1_eq hg hG (by simpa using hx) ⟨a, ha⟩
    rw [D2, h2]
    refine h1.deriv.trans ?_
    rw [fderiv_clm_apply (hdd _) (differentiableAt_const _)]
    simp
  rw [key a b ha hb, key b a hb ha]
  have hs : IsSymmSndFDerivAt ℝ g (toVec n x) :=
    (hg.contDiffAt).isSymmSndFDerivAt (by simp)
  exact hs.eq _ _

/-! ### Transfer to `PartialDeriv` -/

theorem partialDeriv_of {n m : ℕ} {F : List ℝ → Py (List ℝ)} {G : List ℝ → List ℝ}
    (hF : ∀ y : List ℝ, y.length = n → F y = .ok (G y) ∧ (G y).length = m) {x : List ℝ}
    (hx : x.length = n) {i j : ℕ} (hi : i < m) {d : ℝ}
    (h : HasDerivAt (fun s => (G (x.set j s)).getD i 0) d (x.getD j 0)) :
    PartialDeriv F i j x d := by
  refine ⟨_, fun s => ?_, h⟩
  obtain ⟨h1, h2⟩ := hF (x.set j s) (by simpa using hx)
  refine ⟨_, h1, ?_⟩
  rw [← h2] at hi
  simp [List.getD_eq_getElem?_getD, hi]

theorem Smooth.partialDeriv {n m : ℕ} {F : List ℝ → Py (List ℝ)} {G : List ℝ → List ℝ}
    (h : Smooth n m G)
    (hF : ∀ y : List ℝ, y.length = n → F y = .ok (G y) ∧ (G y).length = m) {x : List ℝ}
    (hx : x.length = n) {i j : ℕ} (hi : i < m) (hj : j < n) :
    PartialDeriv F i j x (D1 G x i j) :=
  partialDeriv_of hF hx hi (h.hasDerivAt hx hi hj)

theorem Smooth.secondPartialDeriv {n m : ℕ} {F : List ℝ → Py (List ℝ)} {G : List ℝ → List ℝ}
    (h : Smooth n m G)
    (hF : ∀ y : List ℝ, y.length = n → F y = .ok (G y) ∧ (G y).length = m) {x : List ℝ}
    (hx : x.length = n) {i a b : ℕ} (hi : i < m) (ha : a < n) (hb : b < n) :
    SecondPartialDeriv F i a b x (D2 G x i a b) :=
  ⟨_, fun _ => h.partialDeriv hF (by simpa using hx) hi ha, h.hasDerivAt2 hx hi ha hb⟩

/-- Partial derivatives are unique. -/
theorem PartialDeriv.unique {F : List ℝ → Py (List ℝ)} {i j : ℕ} {x : List ℝ} {d d' : ℝ}
    (h : PartialDeriv F i j x d) (h' : PartialDeriv F i j x d') : d = d' := by
  obtain ⟨g, hg, hd⟩ := h
  obtain ⟨g', hg', hd'⟩ := h'
  have : g = g' := by
    funext s
    obtain ⟨v, h1, h2⟩ := hg s
    obtain ⟨v', h1', h2'⟩ := hg' s
    rw [h1] at h1'
    rw [← Except.ok.inj h1', h2] at h2'
    simpa using h2'
  subst this
  exact hd.unique hd'

/-! ### Smoothness of the building blocks -/

theorem smooth_constrainFn {lb ub : Flt} (h : lb < ub) : ContDiff ℝ 2 (Leaf.constrainFn lb ub) := by
  rcases lt_cases h with ⟨rfl, rfl⟩ | ⟨a, rfl, rfl⟩ | ⟨b, rfl, rfl⟩ | ⟨a, b, rfl, rfl, hab⟩
  · have : Leaf.constrainFn ninf pinf = fun x => x := by
      funext x; simp [Leaf.constrainFn, constrainReal, constrain, Flt.toReal]
    rw [this]; exact contDiff_id
  · have : Leaf.constrainFn (fin a) pinf = fun x => Real.exp x + a := by
      funext x; simp [Leaf.constrainFn, constrainReal, constrain, Flt.toReal]
    rw [this]; fun_prop
  · have : Leaf.constrainFn ninf (fin b) = fun x => b - Real.exp (-x) := by
      funext x; simp [Leaf.constrainFn, constrainReal, constrain, Flt.toReal]
    rw [this]; fun_prop
  · have : Leaf.constrainFn (fin a) (fin b) =
        fun x => (b - a) * Real.exp x / (1 + Real.exp x) + a := by
      funext x
      simp [Leaf.constrainFn, constrainReal, constrain_both x a b hab, Flt.toReal]
    rw [this]
    have : ∀ x : ℝ, 1 + Real.exp x ≠ 0 := fun x => by positivity
    exact ((contDiff_const.mul Real.contDiff_exp).div (contDiff_const.add Real.contDiff_exp) this).add
      contDiff_const

theorem getD_map_of_lt {x : List ℝ} {f : ℝ → ℝ} {i : ℕ} (h : i < x.length) :
    (x.map f).getD i 0 = f (x.getD i 0) := by
  simp [List.getD_eq_getElem?_getD, h]

theorem smooth_map {n : ℕ} {f : ℝ → ℝ} (hf : ContDiff ℝ 2 f) : Smooth n n (fun x => x.map f) := by
  intro i hi
  refine ⟨fun v => f (v ⟨i, hi⟩), hf.comp (contDiff_apply ℝ ℝ _), ?_⟩
  intro x hx
  rw [getD_map_of_lt (by omega)]; rfl

end LRVB
