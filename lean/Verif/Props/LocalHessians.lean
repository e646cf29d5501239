import Verif.Props.ObjDeriv
import Verif.Props.Sparse

/-!
# C156: sparse Hessians assembled from local terms
-/

namespace LRVB

open Classical

noncomputable section

/-- One local term of an objective: it is the function `f` of the entries `inds` of the full vector,
and `obj` (with the further argument `arg`) computes it from a parameter of its own. -/
structure LocalTerm (A : Type) where
  obj : Objective A
  arg : A
  inds : List ℕ
  f : (Fin inds.length → ℝ) → ℝ

namespace LocalTerm

variable {A B : Type}

/-- The value method in the free (`free = true`) or the vector parameterization. -/
def value (o : Objective A) (a : A) (free : Bool) (y : List ℝ) : Py Arr :=
  if free then (o.funFree y a false).2 else (o.funVector y a).2

/-- The Hessian method in the free or the vector parameterization. -/
def hessian (o : Objective A) (a : A) (free : Bool) (y : List ℝ) : Py Arr :=
  if free then (o.funFreeHessian y a).2 else (o.funVectorHessian y a).2

/-- The entries `inds` of the full vector. -/
def sub (t : LocalTerm A) (y : List ℝ) : List ℝ := t.inds.map fun i => y.getD i 0

/-- The indices point into a vector of length `N`, and `obj` computes `f`, which is twice continuously
differentiable. -/
structure Ok (t : LocalTerm A) (free : Bool) (N : ℕ) : Prop where
  pos : 0 < t.inds.length
  lt : ∀ i ∈ t.inds, i < N
  smooth : ContDiff ℝ 2 t.f
  val : ∀ y : List ℝ, y.length = t.inds.length →
    value t.obj t.arg free y = .ok (Arr.scalar (t.f (toVec _ y)))

/-- What `get_sparse_sub_hessian` returns for the Hessian of the term at its part of `x`. -/
def SparseHessian (t : LocalTerm A) (free : Bool) (N : ℕ) (x : List ℝ) (m : Csr) : Prop :=
  ∃ H, hessian t.obj t.arg free (t.sub x) = .ok H ∧
    getSparseSubHessian H (t.inds.map Nat.cast) N = .ok m

/-- The Hessian method returns the second derivative. -/
theorem hessian_ok (o : Objective A) (a : A) (free : Bool) (m : ℕ) (hm : 0 < m)
    (f : (Fin m → ℝ) → ℝ) (hf : ContDiff ℝ 2 f)
    (hval : ∀ y : List ℝ, y.length = m → value o a free y = .ok (Arr.scalar (f (toVec m y))))
    (x : List ℝ) (hx : x.length = m) :
    hessian o a free x = .ok (Arr.ofFn2 m m fun i j =>
      fderiv ℝ (fderiv ℝ f) (toVec m x) (basis m j) (basis m i)) := by
  have hF : ∀ y : List ℝ, y.length = m →
      valueAt (o.fn a) o.par free y = .ok (Arr.scalar (f (toVec m y))) :=
    fun y hy => valueAt_scalar (hval y hy)
  have h := (o.deriv_value free x a (fun F => agHess F x) (valueAt_ok_set (hF x hx))).trans
    (agHess_ok hf hF hx hm)
  unfold hessian
  cases free <;> exact h

/-- The part of the vector a term depends on. -/
def restrict (inds : List ℕ) (N : ℕ) : (Fin N → ℝ) →L[ℝ] (Fin inds.length → ℝ) :=
  ContinuousLinearMap.pi fun k => if h : inds[k] < N then ContinuousLinearMap.proj ⟨inds[k], h⟩ else 0

theorem restrict_apply (inds : List ℕ) (N : ℕ) (u : Fin N → ℝ) (k : Fin inds.length) :
    restrict inds N u k = if h : inds[(k : ℕ)] < N then u ⟨inds[(k : ℕ)], h⟩ else 0 := by
  by_cases h : inds[(k : ℕ)] < N
  · rw [dif_pos h]
    show (if h : inds[(k : ℕ)] < N then ContinuousLinearMap.proj ⟨inds[(k : ℕ)], h⟩ else 0 :
      (Fin N → ℝ) →L[ℝ] ℝ) u = _
    rw [dif_pos h]
    rfl
  · rw [dif_neg h]
    show (if h : inds[(k : ℕ)] < N then ContinuousLinearMap.proj ⟨inds[(k : ℕ)], h⟩ else 0 :
      (Fin N → ℝ) →L[ℝ] ℝ) u = _
    rw [dif_neg h]
    rfl

theorem toVec_sub (t : LocalTerm A) {N : ℕ} (hlt : ∀ i ∈ t.inds, i < N) (y : List ℝ) :
    toVec t.inds.length (t.sub y) = restrict t.inds N (toVec N y) := by
  funext k
  have hk : t.inds[(k : ℕ)] < N := hlt _ (List.getElem_mem _)
  rw [restrict_apply, dif_pos hk]
  simp [toVec, sub, List.getD_eq_getElem?_getD]

theorem restrict_basis (inds : List ℕ) {N a : ℕ} (ha : a < N) :
    restrict inds N (basis N a) =
      ∑ k ∈ Finset.range inds.length, (if inds.getD k 0 = a then (1 : ℝ) else 0) • basis inds.length k := by
  funext k
  have hs : (∑ k ∈ Finset.range inds.length, (if inds.getD k 0 = a then (1 : ℝ) else 0) •
      basis inds.length k) k = if inds[(k : ℕ)] = a then 1 else 0 := by
    rw [Finset.sum_apply, Finset.sum_eq_single (k : ℕ)]
    · simp [basis, List.getD_eq_getElem?_getD]
    · intro j _ hj
      simp [basis, Ne.symm hj]
    · intro hk
      exact absurd (Finset.mem_range.mpr k.2) hk
  rw [hs, restrict_apply]
  by_cases hk : inds[(k : ℕ)] < N
  · rw [dif_pos hk]
    rfl
  · rw [dif_neg hk, if_neg (by omega)]

/-- The second derivative of a function of a part of the vector. -/
theorem snd_restrict {n N : ℕ} {f : (Fin n → ℝ) → ℝ} (hf : ContDiff ℝ 2 f)
    (L : (Fin N → ℝ) →L[ℝ] (Fin n → ℝ)) (u v w : Fin N → ℝ) :
    fderiv ℝ (fderiv ℝ fun z => f (L z)) u v w = fderiv ℝ (fderiv ℝ f) (L u) (L v) (L w) := by
  have h1 : (fderiv ℝ fun z => f (L z)) = fun z => (fderiv ℝ f (L z)).comp L := by
    funext z
    have := ((hf.differentiable (by norm_num)) (L z)).hasFDerivAt.comp z L.hasFDerivAt
    exact this.fderiv
  have hd : Differentiable ℝ (fderiv ℝ f) :=
    (hf.fderiv_right (m := 1) (by norm_num)).differentiable (by norm_num)
  have h2 : HasFDerivAt (fun z => (fderiv ℝ f (L z)).comp L)
      (((ContinuousLinearMap.compL ℝ (Fin N → ℝ) (Fin n → ℝ) ℝ).flip L).comp
        ((fderiv ℝ (fderiv ℝ f) (L u)).comp L)) u := by
    have h3 : HasFDerivAt (fun z => fderiv ℝ f (L z)) ((fderiv ℝ (fderiv ℝ f) (L u)).comp L) u :=
      (hd (L u)).hasFDerivAt.comp u L.hasFDerivAt
    exact ((ContinuousLinearMap.compL ℝ (Fin N → ℝ) (Fin n → ℝ) ℝ).flip L).hasFDerivAt.comp u h3
  rw [h1, h2.fderiv]
  rfl

theorem snd_list {N : ℕ} (fs : List ((Fin N → ℝ) → ℝ)) (hfs : ∀ f ∈ fs, ContDiff ℝ 2 f) :
    ContDiff ℝ 2 (fun u => (fs.map fun f => f u).sum) ∧
    ∀ u v w, fderiv ℝ (fderiv ℝ fun u => (fs.map fun f => f u).sum) u v w =
      (fs.map fun f => fderiv ℝ (fderiv ℝ f) u v w).sum := by
  induction fs with
  | nil =>
    refine ⟨by simpa using contDiff_const, fun u v w => ?_⟩
    simp
  | cons f fs ih =>
    obtain ⟨i1, i2⟩ := ih fun g hg => hfs g (List.mem_cons_of_mem _ hg)
    have hf := hfs f (List.mem_cons_self ..)
    simp only [List.map_cons, List.sum_cons]
    refine ⟨hf.add i1, fun u v w => ?_⟩
    have h1 : (fderiv ℝ fun u => f u + (fs.map fun f => f u).sum) =
        fun u => fderiv ℝ f u + fderiv ℝ (fun u => (fs.map fun f => f u).sum) u := by
      funext z
      exact fderiv_fun_add (hf.differentiable (by norm_num) z) (i1.differentiable (by norm_num) z)
    have hd : ∀ {g : (Fin N → ℝ) → ℝ}, ContDiff ℝ 2 g → DifferentiableAt ℝ (fderiv ℝ g) u := fun hg =>
      (hg.fderiv_right (m := 1) (by norm_num)).differentiable (by norm_num) u
    rw [h1, fderiv_fun_add (hd hf) (hd i1), ← i2]
    rfl

theorem bilin_sum {n : ℕ} (D : (Fin n → ℝ) →L[ℝ] (Fin n → ℝ) →L[ℝ] ℝ) (c d : ℕ → ℝ)
    (v : ℕ → Fin n → ℝ) (k : ℕ) :
    D (∑ j ∈ Finset.range k, c j • v j) (∑ i ∈ Finset.range k, d i • v i) =
      ∑ i ∈ Finset.range k, ∑ j ∈ Finset.range k, d i * c j * D (v j) (v i) := by
  rw [map_sum]
  refine Finset.sum_congr rfl fun i _ => ?_
  rw [map_sum, sum_apply]
  refine Finset.sum_congr rfl fun j _ => ?_
  rw [map_smul, map_smul, smul_apply, smul_eq_mul, smul_eq_mul]
  ring

/-- The scattered Hessian of one term is the second derivative of the term as a function of the full
vector. -/
theorem sparse_entries (t : LocalTerm A) {free : Bool} {N : ℕ} (ht : t.Ok free N) (x : List ℝ) :
    ∃ m, t.SparseHessian free N x m ∧ m.nr = N ∧ m.nc = N ∧ ∀ a < N, ∀ b < N, m.toDense a b =
      fderiv ℝ (fderiv ℝ fun u => t.f (restrict t.inds N u)) (toVec N x) (basis N b) (basis N a) := by
  have hl : (t.sub x).length = t.inds.length := by simp [sub]
  have hH := hessian_ok t.obj t.arg free _ ht.pos t.f ht.smooth ht.val (t.sub x) hl
  obtain ⟨m, h1, h2, h3, h4⟩ := C69_entries_add (M := Arr.ofFn2 t.inds.length t.inds.length fun i j =>
      fderiv ℝ (fderiv ℝ t.f) (toVec _ (t.sub x)) (basis _ j) (basis _ i)) rfl t.inds t.inds N N rfl rfl
      ht.lt ht.lt
  refine ⟨m, ⟨_, hH, h1⟩, h2, h3, fun a ha b hb => ?_⟩
  rw [h4 a ha b hb, snd_restrict ht.smooth, restrict_basis _ ha, restrict_basis _ hb,
    ← toVec_sub t ht.lt, bilin_sum]
  refine Finset.sum_congr rfl fun i hi => Finset.sum_congr rfl fun j hj => ?_
  rw [Arr.at2_ofFn2 _ _ _ (Finset.mem_range.mp hi) (Finset.mem_range.mp hj)]
  by_cases h5 : t.inds.getD i 0 = a <;> by_cases h6 : t.inds.getD j 0 = b <;>
    simp only [h5, h6, and_self, and_true, and_false, if_true, if_false, one_mul, zero_mul, mul_zero]

end LocalTerm

/-- **C156** Let an objective be the sum of twice continuously differentiable terms, each a function of
some entries of the vector (or free vector) `x`, which may overlap and may repeat, and let each term be
computed by an objective of its own.  Passing the Hessian of every term at its part of `x` and its
indices to `get_sparse_sub_hessian`, and adding up the sparse matrices, gives the Hessian that the
method of the full objective returns at `x`. -/
theorem C156_local_hessians_add {A B : Type} (free : Bool) (N : ℕ) (hN : 0 < N) (o : Objective B) (b : B)
    (ts : List (LocalTerm A)) (hts : ∀ t ∈ ts, t.Ok free N)
    (hval : ∀ y : List ℝ, y.length = N → LocalTerm.value o b free y =
      .ok (Arr.scalar (ts.map fun t => t.f (toVec _ (t.sub y))).sum))
    (x : List ℝ) (hx : x.length = N) :
    ∃ H ms, LocalTerm.hessian o b free x = .ok H ∧ IsMat H N N ∧
      List.Forall₂ (fun t m => LocalTerm.SparseHessian t free N x m ∧ m.nr = N ∧ m.nc = N) ts ms ∧
      ∀ i < N, ∀ j < N, H.at2 i j = (ms.map fun m => m.toDense i j).sum := by
  obtain ⟨hs, hd⟩ := LocalTerm.snd_list (N := N)
    (ts.map fun t u => t.f (LocalTerm.restrict t.inds N u)) (by
      intro f hf
      obtain ⟨t, ht, rfl⟩ := List.mem_map.mp hf
      exact (hts t ht).smooth.comp (ContinuousLinearMap.contDiff _))
  simp only [List.map_map, Function.comp_def] at hs hd
  have hv : ∀ y : List ℝ, y.length = N → LocalTerm.value o b free y =
      .ok (Arr.scalar ((fun u => (ts.map fun t => t.f (LocalTerm.restrict t.inds N u)).sum) (toVec N y))) := by
    intro y hy
    rw [hval y hy]
    congr 3
    exact List.map_congr_left fun t ht => by rw [LocalTerm.toVec_sub t (hts t ht).lt]
  have hms : ∀ ts : List (LocalTerm A), (∀ t ∈ ts, t.Ok free N) →
      ∃ ms : List Csr, List.Forall₂ (fun t m => LocalTerm.SparseHessian t free N x m ∧ m.nr = N ∧ m.nc = N)
        ts ms ∧ ∀ i < N, ∀ j < N, (ms.map fun m => m.toDense i j).sum =
          (ts.map fun t => fderiv ℝ (fderiv ℝ fun u => t.f (LocalTerm.restrict t.inds N u)) (toVec N x)
            (basis N j) (basis N i)).sum := by
    intro ts
    induction ts with
    | nil => exact fun _ => ⟨[], .nil, by simp⟩
    | cons t ts ih =>
      intro h
      obtain ⟨ms, i1, i2⟩ := ih fun s hs => h s (List.mem_cons_of_mem _ hs)
      obtain ⟨m, j1, j2, j3, j4⟩ := t.sparse_entries (h t (List.mem_cons_self ..)) x
      refine ⟨m :: ms, .cons ⟨j1, j2, j3⟩ i1, fun i hi j hj => ?_⟩
      simp only [List.map_cons, List.sum_cons, i2 i hi j hj, j4 i hi j hj]
  obtain ⟨ms, h1, h2⟩ := hms ts hts
  refine ⟨_, ms, LocalTerm.hessian_ok o b free N hN _ hs hv x hx, ⟨Arr.ofFn2_WF _ _ _, rfl⟩, h1,
    fun i hi j hj => ?_⟩
  rw [Arr.at2_ofFn2 _ _ _ hi hj, hd, h2 i hi j hj]

/-- An objective that depends on the vector of `exDict`, which has three entries, through `g`. -/
def exVecObj (g : (Fin 3 → ℝ) → ℝ) : Objective Unit :=
  Objective.new exDict fun _ q => do
    let v ← q.getVector
    .ok (Arr.scalar (g (toVec 3 v)))

theorem exVecObj_value (g : (Fin 3 → ℝ) → ℝ) (y : List ℝ) (hy : y.length = 3) :
    LocalTerm.value (exVecObj g) () false y = .ok (Arr.scalar (g (toVec 3 y))) := by
  obtain ⟨eigh, he⟩ := exists_eigh
  have hw := (exDict_built eigh).wf he
  have hy' : y.length = exDict.vecSize := by rw [exDict_vecSize]; exact hy
  have hpl := Param.setVector_plain exDict y (by rw [exDict.setVector_ok hw y hy'])
  rw [exDict.setVector_ok hw y hy'] at hpl
  have e : (exVecObj g).par.setVector y = (exDict.vecP y, none) := exDict.setVector_ok hw y hy'
  simp only [LocalTerm.value, Bool.false_eq_true, if_false, Objective.funVector, e]
  rw [Param.mark_plain _ hpl]
  simp only [exVecObj, Objective.new, exDict.getVector_vecP hw exDict_hasParams y hy', py_ok_bind]

/-- The hypotheses of C156 are met by `v₀² v₁ + v₂ v₁ v₀` as a sum of two terms: `w₀ w₁ w₂` at the
indices 0, 0, 1 and `w₀ w₁ w₂` at the indices 2, 1, 0. -/
example : ∃ (o : Objective Unit) (ts : List (LocalTerm Unit)), ts.length = 2 ∧
    (∀ t ∈ ts, t.Ok false 3) ∧ ∀ y : List ℝ, y.length = 3 → LocalTerm.value o () false y =
      .ok (Arr.scalar (ts.map fun t => t.f (toVec _ (t.sub y))).sum) := by
  let g : (Fin 3 → ℝ) → ℝ := fun u => u 0 * u 1 * u 2
  have hg : ContDiff ℝ 2 g :=
    ((contDiff_apply ℝ ℝ 0).mul (contDiff_apply ℝ ℝ 1)).mul (contDiff_apply ℝ ℝ 2)
  refine ⟨exVecObj fun u => u 0 * u 0 * u 1 + u 2 * u 1 * u 0,
    [⟨exVecObj g, (), [0, 0, 1], g⟩, ⟨exVecObj g, (), [2, 1, 0], g⟩], rfl, ?_, ?_⟩
  · intro t ht
    simp only [List.mem_cons, List.not_mem_nil, or_false] at ht
    rcases ht with rfl | rfl
    · exact ⟨by simp, by simp, hg, fun y hy => exVecObj_value g y hy⟩
    · exact ⟨by simp, by simp, hg, fun y hy => exVecObj_value g y hy⟩
  · intro y hy
    rw [exVecObj_value _ y hy]
    simp [LocalTerm.sub, toVec, g]

end

end LRVB
