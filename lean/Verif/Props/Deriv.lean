import Verif.Lemmas.Deriv4

/-!
# C08, C23, C27, C28, C29: Jacobians and Hessians of the transformations
-/

namespace LRVB

open Flt

/-- Every parameter object a program can hold: `free_to_vector_jac(x)` succeeds and is the Jacobian
of `free_to_vector`. -/
theorem reachable_jacobian {eigh : Eigh} (he : EighContract eigh) {l : Leaf} (h : Reachable eigh l)
    (hm : l.HoldsMatrix) {x : List ℝ} (hx : x.length = l.freeSize) :
    ∃ l' m, l.jac x = .ok (l', m) ∧ IsJacobian l.freeToVectorVal l.vecSize l.freeSize x m := by
  have hk := reachable_legal he h hm
  obtain ⟨l', m, h1, h2⟩ := l.jac_ok hk x hx
  refine ⟨l', m, h1, h2.nr, h2.nc, fun i hi j hj => ?_⟩
  rw [h2.val i hi j hj]
  exact (smooth_ftv _ hk).partialDeriv
    (fun y hy => ⟨l.freeToVectorVal_ok hk y hy, ftv_length _ hk y hy⟩) hx hi hj

/-- ... and `free_to_vector_hess(x)` succeeds and returns the Hessians of its entries. -/
theorem reachable_hessians {eigh : Eigh} (he : EighContract eigh) {l : Leaf} (h : Reachable eigh l)
    (hm : l.HoldsMatrix) {x : List ℝ} (hx : x.length = l.freeSize) :
    ∃ l' ms, l.hess x = .ok (l', ms) ∧
      AreHessians l.freeToVectorVal l.vecSize l.freeSize x ms := by
  have hk := reachable_legal he h hm
  obtain ⟨l', ms, h1, h2⟩ := l.hess_ok hk x hx
  refine ⟨l', ms, h1, h2.len, fun i hi => ?_⟩
  obtain ⟨g1, g2, _, g4⟩ := h2.ok i hi
  refine ⟨g1, g2, fun a ha b hb => ?_⟩
  rw [g4 a ha b hb]
  exact (smooth_ftv _ hk).secondPartialDeriv
    (fun y hy => ⟨l.freeToVectorVal_ok hk y hy, ftv_length _ hk y hy⟩) hx
    (by rw [h2.len] at hi; exact hi) ha hb

/-- A bounded scalar, vector or array parameter. -/
def Leaf.IsBounded (l : Leaf) : Prop :=
  match l.kind with
  | .scalar _ _ | .vector _ _ _ | .array _ _ _ => True
  | _ => False

/-- A vector or array of positive definite matrices. -/
def Leaf.IsMatrices (l : Leaf) : Prop :=
  match l.kind with
  | .posdefVec _ _ _ | .posdefArr _ _ _ => True
  | _ => False

/-- A parameter of rows on simplexes. -/
def Leaf.IsSimplex (l : Leaf) : Prop :=
  match l.kind with
  | .simplex _ _ => True
  | _ => False

theorem Leaf.IsBounded.holdsMatrix {l : Leaf} (h : l.IsBounded) : l.HoldsMatrix := by
  unfold IsBounded at h; unfold HoldsMatrix
  split <;> simp_all

theorem Leaf.IsSimplex.holdsMatrix {l : Leaf} (h : l.IsSimplex) : l.HoldsMatrix := by
  unfold IsSimplex at h; unfold HoldsMatrix
  split <;> simp_all

theorem bounded_ftv {l : Leaf} (h : l.IsBounded) :
    ∃ lb ub, ftv l.kind = fun x => x.map (Leaf.constrainFn lb ub) := by
  obtain ⟨name, kind, val, boxed⟩ := l
  cases kind <;> first | exact ⟨_, _, rfl⟩ | exact h.elim

theorem bounded_sizes {l : Leaf} (h : l.IsBounded) : l.kind.vecSize = l.kind.freeSize := by
  obtain ⟨name, kind, val, boxed⟩ := l
  cases kind <;> first | rfl | exact h.elim

/-- **C08** (Jacobian) -/
theorem C08_jacobian {eigh : Eigh} (he : EighContract eigh) (l : Leaf) (h : Reachable eigh l)
    (hb : l.IsBounded) (x : List ℝ) (hx : x.length = l.freeSize) :
    ∃ l' m, l.jac x = .ok (l', m) ∧ IsJacobian l.freeToVectorVal l.vecSize l.freeSize x m ∧
      ∀ i < l.vecSize, ∀ j < l.freeSize, i ≠ j → m.toDense i j = 0 := by
  obtain ⟨l', m, h1, h2⟩ := reachable_jacobian he h hb.holdsMatrix hx
  refine ⟨l', m, h1, h2, ?_⟩
  intro i hi j hj hij
  have hk := reachable_legal he h hb.holdsMatrix
  obtain ⟨l'', m', g1, g2⟩ := l.jac_ok hk x hx
  rw [h1] at g1
  cases g1
  obtain ⟨lb, ub, hf⟩ := bounded_ftv hb
  rw [g2.val i hi j hj, hf, D1_map (by
    have := bounded_sizes hb
    simp only [Leaf.vecSize, Leaf.freeSize] at hi hx
    omega), if_neg hij]

/-- **C08** (Hessians) -/
theorem C08_hessians {eigh : Eigh} (he : EighContract eigh) (l : Leaf) (h : Reachable eigh l)
    (hb : l.IsBounded) (x : List ℝ) (hx : x.length = l.freeSize) :
    ∃ l' ms, l.hess x = .ok (l', ms) ∧
      AreHessians l.freeToVectorVal l.vecSize l.freeSize x ms ∧
      ∀ i (hi : i < ms.length), ∀ a < l.freeSize, ∀ b < l.freeSize, ¬(i = a ∧ i = b) →
        ms[i].toDense a b = 0 := by
  obtain ⟨l', ms, h1, h2⟩ := reachable_hessians he h hb.holdsMatrix hx
  refine ⟨l', ms, h1, h2, ?_⟩
  intro i hi a ha b hb' hij
  have hk := reachable_legal he h hb.holdsMatrix
  obtain ⟨l'', m', g1, g2⟩ := l.hess_ok hk x hx
  rw [h1] at g1
  cases g1
  obtain ⟨lb, ub, hf⟩ := bounded_ftv hb
  have hi' : i < x.length := by
    have := bounded_sizes hb
    have := g2.len
    simp only [Leaf.freeSize] at hx
    omega
  rw [(g2.ok i hi).2.2.2 a ha b hb', hf, D2_map hi', if_neg hij]

/-- **C23** (Jacobian) -/
theorem C23_jacobian {eigh : Eigh} (he : EighContract eigh) (l : Leaf) (h : Reachable eigh l)
    (_ : l.IsMatrices) (hm : l.HoldsMatrix) (x : List ℝ) (hx : x.length = l.freeSize) :
    ∃ l' m, l.jac x = .ok (l', m) ∧ IsJacobian l.freeToVectorVal l.vecSize l.freeSize x m :=
  reachable_jacobian he h hm hx

/-- **C23** (Hessians) -/
theorem C23_hessians {eigh : Eigh} (he : EighContract eigh) (l : Leaf) (h : Reachable eigh l)
    (_ : l.IsMatrices) (hm : l.HoldsMatrix) (x : List ℝ) (hx : x.length = l.freeSize) :
    ∃ l' ms, l.hess x = .ok (l', ms) ∧ AreHessians l.freeToVectorVal l.vecSize l.freeSize x ms :=
  reachable_hessians he h hm hx

/-- The hypotheses are met by a vector of two `2 × 2` matrices with a positive diagonal bound. -/
example (eigh : Eigh) : ∃ l, Reachable eigh l ∧ l.IsMatrices ∧ l.HoldsMatrix ∧ l.freeSize = 6 :=
  ⟨⟨"m", .posdefVec 2 2 (1 / 2), broadcast [2] (diagArr 2 (1 / 2 + 1)), false⟩, ⟨_, [],
    .posDefVec (name := "m") (k := 2) (n := 2) (d := 1 / 2) (val := none)
    (by simp [mkPosDefVec]), rfl⟩, trivial, by simp [Leaf.HoldsMatrix], rfl⟩

/-- **C27** `constrain_grad_from_moment(constrain_simplex_vector(y))` is the Jacobian of
`constrain_simplex_vector` at `y`. -/
theorem C27_simplex_gradient (y : List ℝ) :
    ∃ z, constrainSimplexVector y = .ok z ∧ z.length = y.length + 1 ∧
      ∀ i < y.length + 1, ∀ j < y.length,
        PartialDeriv constrainSimplexVector i j y (constrainGradFromMoment z i j) := by
  have hF : ∀ w : List ℝ, w.length = y.length → constrainSimplexVector w =
      .ok (softVec (y.length + 1) w) ∧ (softVec (y.length + 1) w).length = y.length + 1 :=
    fun w hw => ⟨constrainSimplexVector_ok (Nat.succ_pos _) (by omega), softVec_length _ _⟩
  refine ⟨_, (hF y rfl).1, softVec_length _ _, ?_⟩
  intro i hi j hj
  have h := (smooth_softVec (y.length + 1)).partialDeriv hF rfl hi hj
  rwa [softVec_D1 (by simp) hi (by simpa using hj), ← softVec_getD _ hi,
    ← softVec_getD _ (Nat.succ_lt_succ hj), ← constrainGradFromMoment_eq _ (by
      rw [softVec_length]; exact hi)] at h

/-- **C28** `constrain_hess_from_moment(constrain_simplex_vector(y))` holds the second derivatives
of `constrain_simplex_vector` at `y`. -/
theorem C28_simplex_hessian (y : List ℝ) :
    ∃ z, constrainSimplexVector y = .ok z ∧ z.length = y.length + 1 ∧
      ∀ k < y.length + 1, ∀ i < y.length, ∀ j < y.length,
        SecondPartialDeriv constrainSimplexVector k i j y (constrainHessFromMoment z k i j) := by
  have hF : ∀ w : List ℝ, w.length = y.length → constrainSimplexVector w =
      .ok (softVec (y.length + 1) w) ∧ (softVec (y.length + 1) w).length = y.length + 1 :=
    fun w hw => ⟨constrainSimplexVector_ok (Nat.succ_pos _) (by omega), softVec_length _ _⟩
  refine ⟨_, (hF y rfl).1, softVec_length _ _, ?_⟩
  intro k hk i hi j hj
  have h := (smooth_softVec (y.length + 1)).secondPartialDeriv hF rfl hk hi hj
  rwa [softVec_D2 (by simp) hk (by simpa using hi) (by simpa using hj), ← softVec_getD _ hk,
    ← softVec_getD _ (Nat.succ_lt_succ hj), ← softVec_getD _ (Nat.succ_lt_succ hi),
    ← constrainHessFromMoment_eq _ (by rw [softVec_length]; exact hk) (by
      rw [softVec_length]; simpa using hi)] at h

/-- **C29** (Jacobian) with zero entries between different simplexes. -/
theorem C29_jacobian {eigh : Eigh} (he : EighContract eigh) (l : Leaf) (h : Reachable eigh l)
    (r c : ℕ) (hs : l.kind = .simplex r c) (x : List ℝ) (hx : x.length = l.freeSize) :
    ∃ l' m, l.jac x = .ok (l', m) ∧ IsJacobian l.freeToVectorVal l.vecSize l.freeSize x m ∧
      ∀ row < r, ∀ row' < r, ∀ v < c, ∀ f < c - 1, row ≠ row' →
        m.toDense (row * c + v) (row' * (c - 1) + f) = 0 := by
  have hm : l.HoldsMatrix := by simp [Leaf.HoldsMatrix, hs]
  obtain ⟨l', m, h1, h2⟩ := reachable_jacobian he h hm hx
  refine ⟨l', m, h1, h2, ?_⟩
  intro row hr row' hr' v hv f hf hne
  have hk := reachable_legal he h hm
  obtain ⟨l'', m', g1, g2⟩ := l.jac_ok hk x hx
  rw [h1] at g1
  cases g1
  have hx' : x.length = r * (c - 1) := by simpa [Leaf.freeSize, hs, Kind.freeSize] using hx
  rw [g2.val _ (by rw [hs]; exact block_lt hr hv) _ (by rw [hs]; exact block_lt hr' hf), hs]
  rw [D1_congr (G' := ftv (.simplex r c)) (G := blockG (softVec c) r (c - 1)) (fun y hy => simplexMat_blockG hy) hx',
    D1_blockG (fun y _ => softVec_length c y) (by rw [hx', Nat.mul_comm]) hr hv hf, if_neg hne]

/-- **C29** (Hessians) with zero entries between different simplexes. -/
theorem C29_hessians {eigh : Eigh} (he : EighContract eigh) (l : Leaf) (h : Reachable eigh l)
    (r c : ℕ) (hs : l.kind = .simplex r c) (x : List ℝ) (hx : x.length = l.freeSize) :
    ∃ l' ms, l.hess x = .ok (l', ms) ∧
      AreHessians l.freeToVectorVal l.vecSize l.freeSize x ms ∧
      ∀ row < r, ∀ row₁ < r, ∀ row₂ < r, ∀ v < c, ∀ f₁ < c - 1, ∀ f₂ < c - 1,
        ¬ (row = row₁ ∧ row = row₂) → ∀ H, ms[row * c + v]? = some H →
        H.toDense (row₁ * (c - 1) + f₁) (row₂ * (c - 1) + f₂) = 0 := by
  have hm : l.HoldsMatrix := by simp [Leaf.HoldsMatrix, hs]
  obtain ⟨l', ms, h1, h2⟩ := reachable_hessians he h hm hx
  refine ⟨l', ms, h1, h2, ?_⟩
  intro row hr r1 hr1 r2 hr2 v hv f1 hf1 f2 hf2 hne H hH
  have hk := reachable_legal he h hm
  obtain ⟨l'', m', g1, g2⟩ := l.hess_ok hk x hx
  rw [h1] at g1
  cases g1
  have hx' : x.length = r * (c - 1) := by simpa [Leaf.freeSize, hs, Kind.freeSize] using hx
  obtain ⟨hi, rfl⟩ := List.getElem?_eq_some_iff.mp hH
  rw [(g2.ok _ hi).2.2.2 _ (by rw [hs]; exact block_lt hr1 hf1) _ (by rw [hs]; exact block_lt hr2 hf2),
    hs]
  rw [D2_congr (G' := ftv (.simplex r c)) (G := blockG (softVec c) r (c - 1)) (fun y hy => simplexMat_blockG hy) hx',
    D2_blockG (fun y _ => softVec_length c y) (by rw [hx', Nat.mul_comm]) hr hv hf1 hf2, if_neg hne]

/-- The hypotheses are met by two simplexes with three components. -/
example (eigh : Eigh) : ∃ l, Reachable eigh l ∧ l.kind = .simplex 2 3 ∧ l.freeSize = 4 :=
  ⟨_, ⟨⟨"p", .simplex 2 3, Arr.full [2, 3] (1 / 3), false⟩, [],
    .simplex (name := "p") (r := 2) (c := 3) (val := none)
      (by simp [mkSimplex, Leaf.set, Arr.full]), rfl⟩, rfl, rfl⟩

/-- The hypotheses of C08 are met by a vector of three entries between 0 and 1. -/
example (eigh : Eigh) : ∃ l, Reachable eigh l ∧ l.IsBounded ∧ l.freeSize = 3 :=
  ⟨_, ⟨⟨"v", .vector 3 (fin 0) (fin 1), Arr.full [3] (1 / 2), false⟩, [],
    .vector (name := "v") (n := 3) (lb := fin 0) (ub := fin 1) (val := some (Arr.full [3] (1 / 2)))
      (by
        have : checkBoundsVector (fin 0) (fin 1) = .ok () :=
          (C06_constructor_bounds (fin 0) (fin 1)).2.1.mpr (by simp)
        simp [mkVector, this, Leaf.set, Arr.full, Arr.size]), rfl⟩, trivial, rfl⟩

end LRVB
