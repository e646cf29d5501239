import Verif.Lemmas.Deriv3

/-! `free_to_vector_jac` and `free_to_vector_hess` of every kind of parameter. -/

namespace LRVB

open Flt

/-- All stored positions are inside the matrix. -/
def Coo.InRange (m : Coo) : Prop := ∀ e ∈ m.entries, e.1 < m.nr ∧ e.2.1 < m.nc

/-- `m` is the Jacobian of `G` at `x`. -/
structure JacOK (nv nf : ℕ) (G : List ℝ → List ℝ) (x : List ℝ) (m : Coo) : Prop where
  nr : m.nr = nv
  nc : m.nc = nf
  inRange : m.InRange
  val : ∀ i < nv, ∀ j < nf, m.toDense i j = D1 G x i j

/-- `ms` are the Hessians of the entries of `G` at `x`. -/
structure HessOK (nv nf : ℕ) (G : List ℝ → List ℝ) (x : List ℝ) (ms : List Coo) : Prop where
  len : ms.length = nv
  ok : ∀ i (h : i < ms.length), ms[i].nr = nf ∧ ms[i].nc = nf ∧ ms[i].InRange ∧
    ∀ a < nf, ∀ b < nf, ms[i].toDense a b = D2 G x i a b

theorem Smooth.congr {n m : ℕ} {G G' : List ℝ → List ℝ} (h : Smooth n m G)
    (he : ∀ x : List ℝ, x.length = n → G' x = G x) : Smooth n m G' := by
  intro i hi
  obtain ⟨g, hg, hG⟩ := h i hi
  exact ⟨g, hg, fun x hx => by rw [he x hx, hG x hx]⟩

theorem D1_congr {n : ℕ} {G G' : List ℝ → List ℝ} (he : ∀ x : List ℝ, x.length = n → G' x = G x)
    {x : List ℝ} (hx : x.length = n) (i j : ℕ) : D1 G' x i j = D1 G x i j := by
  unfold D1
  have : ∀ s, G' (x.set j s) = G (x.set j s) := fun s => he _ (by simpa using hx)
  simp only [this]

theorem D2_congr {n : ℕ} {G G' : List ℝ → List ℝ} (he : ∀ x : List ℝ, x.length = n → G' x = G x)
    {x : List ℝ} (hx : x.length = n) (i a b : ℕ) : D2 G' x i a b = D2 G x i a b := by
  unfold D2
  have : ∀ s, D1 G' (x.set b s) i a = D1 G (x.set b s) i a :=
    fun s => D1_congr he (by simpa using hx) _ _
  simp only [this]

theorem autogradJac_ok {n : ℕ} {F : List ℝ → Py (List ℝ)} {G : List ℝ → List ℝ}
    (hF : ∀ y : List ℝ, y.length = n → F y = .ok (G y)) {x : List ℝ} (hx : x.length = n) :
    autogradJac F x = .ok ((G x).length, D1 G x) := by
  unfold autogradJac
  rw [hF x hx, py_ok_bind]
  congr 2
  funext i j
  have : ∀ s, F (x.set j s) = .ok (G (x.set j s)) := fun s => hF _ (by simpa using hx)
  simp only [this, entry, D1]

theorem autogradHess_ok {n : ℕ} {F : List ℝ → Py (List ℝ)} {G : List ℝ → List ℝ}
    (hF : ∀ y : List ℝ, y.length = n → F y = .ok (G y)) {x : List ℝ} (hx : x.length = n) :
    autogradHess F x = .ok ((G x).length, D2 G x) := by
  unfold autogradHess
  rw [hF x hx, py_ok_bind]
  congr 2
  funext i a b
  have : ∀ s t, F ((x.set b s).set a t) = .ok (G ((x.set b s).set a t)) :=
    fun s t => hF _ (by simpa using hx)
  simp only [this, entry, D1, D2]

/-! ### Dense matrices -/

theorem ofDense_inRange (nr nc : ℕ) (f : ℕ → ℕ → ℝ) : (Coo.ofDense nr nc f).InRange := by
  intro e he
  simp only [Coo.ofDense, List.mem_filter, List.mem_flatMap, List.mem_range, List.mem_map] at he
  obtain ⟨⟨a, ha, b, hb, rfl⟩, _⟩ := he
  exact ⟨ha, hb⟩

theorem jacOK_ofDense {nv nf : ℕ} {G : List ℝ → List ℝ} {x : List ℝ} :
    JacOK nv nf G x (Coo.ofDense nv nf (D1 G x)) :=
  ⟨rfl, rfl, ofDense_inRange _ _ _, fun _ hi _ hj => toDense_ofDense _ _ _ hi hj⟩

theorem hessOK_ofDense {nv nf : ℕ} {G : List ℝ → List ℝ} {x : List ℝ} :
    HessOK nv nf G x ((List.range nv).map fun i => Coo.ofDense nf nf (D2 G x i)) := by
  refine ⟨by simp, fun i h => ?_⟩
  simp only [List.getElem_map, List.getElem_range]
  exact ⟨rfl, rfl, ofDense_inRange _ _ _, fun a ha b hb => toDense_ofDense _ _ _ ha hb⟩

/-! ### Diagonal matrices -/

theorem D1_map {f : ℝ → ℝ} {x : List ℝ} {i j : ℕ} (hi : i < x.length) :
    D1 (fun x => x.map f) x i j = if i = j then deriv f (x.getD i 0) else 0 := by
  unfold D1
  have : ∀ s, ((x.set j s).map f).getD i 0 = if i = j then f s else f (x.getD i 0) := by
    intro s
    rw [getD_map_of_lt (by simpa using hi)]
    split_ifs with h
    · subst h; simp [List.getD_eq_getElem?_getD, hi]
    · simp [List.getD_eq_getElem?_getD, List.getElem?_set_ne (Ne.symm h)]
  simp only [this]
  split_ifs with h
  · subst h; rfl
  · exact deriv_const _ _

theorem D2_map {f : ℝ → ℝ} {x : List ℝ} {i a b : ℕ} (hi : i < x.length) :
    D2 (fun x => x.map f) x i a b =
      if i = a ∧ i = b then deriv (fun t => deriv f t) (x.getD i 0) else 0 := by
  unfold D2
  have : ∀ s, D1 (fun x => x.map f) (x.set b s) i a =
      if i = a then (if i = b then deriv f s else deriv f (x.getD i 0)) else 0 := by
    intro s
    rw [D1_map (by simpa using hi)]
    split_ifs with h h'
    · subst h'; simp [List.getD_eq_getElem?_getD, hi]
    · simp [List.getD_eq_getElem?_getD, List.getElem?_set_ne (Ne.symm h')]
    · rfl
  simp only [this]
  by_cases h : i = a
  · by_cases h' : i = b
    · subst h; subst h'; simp
    · simp [h']
  · simp [h]

theorem toDense_diag (n : ℕ) (f : ℕ → ℝ) {i j : ℕ} (hi : i < n) :
    (⟨n, n, (List.range n).map fun i => (i, i, f i)⟩ : Coo).toDense i j =
      if i = j then f i else 0 := by
  rw [Coo.toDense, List.map_map]
  have : ((fun e : ℕ × ℕ × ℝ => if e.1 = i ∧ e.2.1 = j then e.2.2 else 0) ∘ fun i => (i, i, f i)) =
      fun a => if a = i then (if i = j then f i else 0) else 0 := by
    funext a
    simp only [Function.comp_apply]
    by_cases h : a = i
    · subst h; simp
    · simp [h]
  rw [this, sum_range_ite hi (fun _ => if i = j then f i else 0)]

theorem make_diag (n : ℕ) (f : ℕ → ℝ) :
    Coo.make n n ((List.range n).map fun i => (i, i, f i)) =
      .ok ⟨n, n, (List.range n).map fun i => (i, i, f i)⟩ := by
  unfold Coo.make
  rw [if_pos]
  intro e he
  obtain ⟨a, ha, rfl⟩ := List.mem_map.mp he
  simp only [List.mem_range] at ha
  exact ⟨ha, ha⟩

theorem jac_diag {lb ub : Flt} {n : ℕ} {x : List ℝ} (hx : x.length = n) :
    ∃ m, Coo.make n n ((List.range n).map fun i => (i, i, Leaf.constrainScalarJac lb ub (x.getD i 0)))
      = .ok m ∧ JacOK n n (fun x => x.map (Leaf.constrainFn lb ub)) x m := by
  refine ⟨_, make_diag _ _, rfl, rfl, ?_, ?_⟩
  · intro e he
    obtain ⟨a, ha, rfl⟩ := List.mem_map.mp he
    simp only [List.mem_range] at ha
    exact ⟨ha, ha⟩
  · intro i hi j _
    rw [toDense_diag _ _ hi, D1_map (by omega)]
    rfl

theorem hess_diag {lb ub : Flt} {n : ℕ} {x : List ℝ} (hx : x.length = n) :
    ∃ ms, (List.range n).mapM (fun i =>
        Coo.make n n [(i, i, Leaf.constrainScalarHess lb ub (x.getD i 0))]) = .ok ms ∧
      HessOK n n (fun x => x.map (Leaf.constrainFn lb ub)) x ms := by
  refine ⟨_, mapM_ok_of (g := fun i => ⟨n, n, [(i, i, Leaf.constrainScalarHess lb ub (x.getD i 0))]⟩)
    _ ?_, ?_, ?_⟩
  · intro i hi
    simp only [List.mem_range] at hi
    unfold Coo.make
    rw [if_pos]
    simp [hi]
  · simp
  · intro i h
    have hi : i < n := by simpa using h
    simp only [List.getElem_map, List.getElem_range]
    refine ⟨trivial, trivial, by simp [Coo.InRange, hi], ?_⟩
    intro a _ b _
    rw [D2_map (by omega)]
    simp [Coo.toDense, Leaf.constrainScalarHess]

/-! ### Block diagonal matrices -/

theorem mem_blockEntries {ri ci : ℕ → ℕ} {nr nc : ℕ} {f : ℕ → ℕ → ℝ} {e : ℕ × ℕ × ℝ}
    (h : e ∈ Leaf.blockEntries ri ci nr nc f) : ∃ a < nr, ∃ b < nc, e = (ri a, ci b, f a b) := by
  simp only [Leaf.blockEntries, List.mem_flatMap, List.mem_range, List.mem_map] at h
  obtain ⟨a, ha, b, hb, rfl⟩ := h
  exact ⟨a, ha, b, hb, rfl⟩

theorem block_lt {r len k a : ℕ} (hr : r < len) (ha : a < k) : r * k + a < len * k := by
  have : (r + 1) * k ≤ len * k := Nat.mul_le_mul_right k hr
  rw [Nat.add_mul] at this; omega

theorem idx_split {i len k : ℕ} (h : i < len * k) :
    i / k < len ∧ i % k < k ∧ i / k * k + i % k = i := by
  have hk : 0 < k := by
    rcases Nat.eq_zero_or_pos k with h' | h'
    · subst h'; simp at h
    · exact h'
  exact ⟨Nat.div_lt_of_lt_mul (by rwa [Nat.mul_comm] at h), Nat.mod_lt _ hk, by
    rw [Nat.mul_comm]; exact Nat.div_add_mod i k⟩

theorem jac_blocks {G1 : List ℝ → List ℝ} {len k m1 nv nf : ℕ} {x : List ℝ} {f : ℕ → ℕ → ℕ → ℝ}
    (hnv : nv = len * m1) (hnf : nf = len * k)
    (hG : ∀ y : List ℝ, y.length = k → (G1 y).length = m1) (hx : x.length = k * len)
    (hf : ∀ r < len, ∀ a < m1, ∀ b < k, f r a b = D1 G1 (Leaf.slice x (k * r) k) a b) :
    ∃ m, Coo.make nv nf ((List.range len).flatMap fun row =>
        Leaf.blockEntries (row * m1 + ·) (row * k + ·) m1 k (f row)) = .ok m ∧
      JacOK nv nf (blockG G1 len k) x m := by
  subst hnv hnf
  have hr : ∀ e ∈ ((List.range len).flatMap fun row =>
        Leaf.blockEntries (row * m1 + ·) (row * k + ·) m1 k (f row)),
        e.1 < len * m1 ∧ e.2.1 < len * k := by
    intro e he
    obtain ⟨r, hr, he⟩ := List.mem_flatMap.mp he
    obtain ⟨a, ha, b, hb, rfl⟩ := mem_blockEntries he
    simp only [List.mem_range] at hr
    exact ⟨block_lt hr ha, block_lt hr hb⟩
  refine ⟨_, if_pos hr, rfl, rfl, hr, ?_⟩
  intro i hi j hj
  obtain ⟨h1, h2, h3⟩ := idx_split hi
  obtain ⟨g1, g2, g3⟩ := idx_split hj
  rw [← h3, ← g3, toDense_blocks _ _ _ _ _ _ h1 h2 g2, D1_blockG hG hx h1 h2 g2]
  split_ifs
  · exact hf _ h1 _ h2 _ g2
  · rfl

theorem hess_blocks {G1 : List ℝ → List ℝ} {len k m1 nv nf : ℕ} {x : List ℝ}
    {f : ℕ → ℕ → ℕ → ℕ → ℝ}
    (hnv : nv = len * m1) (hnf : nf = len * k)
    (hG : ∀ y : List ℝ, y.length = k → (G1 y).length = m1) (hx : x.length = k * len)
    (hf : ∀ r < len, ∀ a < m1, ∀ b < k, ∀ c < k,
      f r a b c = D2 G1 (Leaf.slice x (k * r) k) a b c) :
    ∃ ms : List (List Coo), (List.range len).mapM (fun row => (List.range m1).mapM fun v =>
        Coo.make nf nf (Leaf.blockEntries (row * k + ·) (row * k + ·) k k (f row v))) = .ok ms ∧
      HessOK nv nf (blockG G1 len k) x ms.flatten := by
  subst hnv hnf
  have hr : ∀ row < len, ∀ v, ∀ e ∈ Leaf.blockEntries (row * k + ·) (row * k + ·) k k (f row v),
      e.1 < len * k ∧ e.2.1 < len * k := by
    intro r hr v e he
    obtain ⟨a, ha, b, hb, rfl⟩ := mem_blockEntries he
    exact ⟨block_lt hr ha, block_lt hr hb⟩
  let M : ℕ → ℕ → Coo := fun row v =>
    ⟨len * k, len * k, Leaf.blockEntries (row * k + ·) (row * k + ·) k k (f row v)⟩
  refine ⟨_, mapM_ok_of (g := fun row => (List.range m1).map (M row)) _ ?_, ?_⟩
  · intro row hrow
    apply mapM_ok_of
    intro v _
    exact if_pos (hr row (by simpa using hrow) v)
  · have hc : ∀ b ∈ (List.range len).map fun row => (List.range m1).map (M row), b.length = m1 := by
      intro b hb
      obtain ⟨r, _, rfl⟩ := List.mem_map.mp hb
      simp
    have hl := flatten_length_const _ m1 hc
    simp only [List.length_map, List.length_range] at hl
    refine ⟨hl, ?_⟩
    intro i hi
    rw [hl] at hi
    obtain ⟨h1, h2, h3⟩ := idx_split hi
    have hget := flatten_getElem?_const _ m1 hc (i / m1) (i % m1) h2
    rw [h3] at hget
    have hM : (((List.range len).map fun row => (List.range m1).map (M row)).flatten)[i]'(by
        rw [hl]; exact hi) = M (i / m1) (i % m1) := by
      rw [← Option.some_inj, ← List.getElem?_eq_getElem, hget]
      simp [h1, h2]
    rw [hM]
    refine ⟨rfl, rfl, hr _ h1 _, ?_⟩
    intro a ha b hb
    obtain ⟨r1, q1, a1, a2, rfl⟩ : ∃ r q, r < len ∧ q < k ∧ a = r * k + q :=
      ⟨_, _, (idx_split ha).1, (idx_split ha).2.1, (idx_split ha).2.2.symm⟩
    obtain ⟨r2, q2, b1, b2, rfl⟩ : ∃ r q, r < len ∧ q < k ∧ b = r * k + q :=
      ⟨_, _, (idx_split hb).1, (idx_split hb).2.1, (idx_split hb).2.2.symm⟩
    conv_rhs => rw [← h3]
    rw [D2_blockG hG hx h1 h2 a2 b2]
    split_ifs with hh
    · obtain ⟨e1, e2⟩ := hh
      rw [← e1, ← e2]
      simp only [M]
      rw [toDense_block _ _ _ _ _ _ _ a2 b2]
      exact hf _ h1 _ h2 _ a2 _ b2
    · simp only [M]
      apply toDense_block_zero
      by_cases e1 : i / m1 = r1
      · have e2 : i / m1 ≠ r2 := fun hc => hh ⟨e1, hc⟩
        rcases block_ne (Ne.symm e2) b2 with h | h
        · exact .inr (.inr (.inl h))
        · exact .inr (.inr (.inr h))
      · rcases block_ne (Ne.symm e1) a2 with h | h
        · exact .inl h
        · exact .inr (.inl h)

theorem posDefFreeToVector_ok {n : ℕ} {y : List ℝ} (hy : y.length = vecSizeOf n) (d : ℝ) :
    posDefFreeToVector y d = .ok (lowerVec n (unpackMat n y d)) := by
  unfold posDefFreeToVector
  rw [unpackPosdef_ok' hy, py_ok_bind]
  exact vectorizeLd_ok (unpackMat_shape n y d).1

theorem lowerVec_length (n : ℕ) (m : Arr) : (lowerVec n m).length = vecSizeOf n := by
  simp [lowerVec, vecSizeOf_eq]

theorem smooth_matvec (B : Arr) (dim free : ℕ) : Smooth free dim (Leaf.matvec B dim free) := by
  intro i hi
  refine ⟨fun v => ∑ k : Fin free, B.at2 i k * v k,
    ContDiff.sum fun k _ => contDiff_const.mul (contDiff_apply ℝ ℝ k), ?_⟩
  intro x hx
  simp only [Leaf.matvec, List.getD_eq_getElem?_getD, List.getElem?_map, List.getElem?_range hi,
    Option.map_some, Option.getD_some]
  rw [Finset.sum_range]
  rfl

theorem matvec_D1 {B : Arr} {dim free : ℕ} {x : List ℝ} (hx : x.length = free) {i j : ℕ}
    (hi : i < dim) (hj : j < free) : D1 (Leaf.matvec B dim free) x i j = B.at2 i j := by
  unfold D1
  have : ∀ s, (Leaf.matvec B dim free (x.set j s)).getD i 0 =
      (∑ k ∈ Finset.range free, if k = j then 0 else B.at2 i k * x.getD k 0) + B.at2 i j * s := by
    intro s
    simp only [Leaf.matvec, List.getD_eq_getElem?_getD, List.getElem?_map, List.getElem?_range hi,
      Option.map_some, Option.getD_some]
    rw [← Finset.add_sum_erase _ _ (Finset.mem_range.mpr hj),
      ← Finset.add_sum_erase (Finset.range free) (fun k => if k = j then 0 else _)
        (Finset.mem_range.mpr hj)]
    have e1 : ∑ k ∈ (Finset.range free).erase j, B.at2 i k * ((x.set j s)[k]?.getD 0) =
        ∑ k ∈ (Finset.range free).erase j, if k = j then 0 else B.at2 i k * x[k]?.getD 0 := by
      apply Finset.sum_congr rfl
      intro k hk
      have hk : k ≠ j := (Finset.mem_erase.mp hk).1
      simp [hk, List.getElem?_set_ne (Ne.symm hk)]
    rw [e1]
    have : j < x.length := by omega
    simp [this]
    ring
  simp only [this]
  have h := ((hasDerivAt_id (x.getD j 0)).const_mul (B.at2 i j)).const_add
    (∑ k ∈ Finset.range free, if k = j then 0 else B.at2 i k * x.getD k 0)
  simpa only [mul_one, id] using h.deriv

theorem matvec_D2 {B : Arr} {dim free : ℕ} {x : List ℝ} (hx : x.length = free) {i a b : ℕ}
    (hi : i < dim) (ha : a < free) : D2 (Leaf.matvec B dim free) x i a b = 0 := by
  unfold D2
  have : ∀ s, D1 (Leaf.matvec B dim free) (x.set b s) i a = B.at2 i a :=
    fun s => matvec_D1 (by simpa using hx) hi ha
  simp only [this, deriv_const]

/-- `free_to_vector` is twice continuously differentiable. -/
theorem smooth_ftv (k : Kind) (hk : k.Legal) : Smooth k.freeSize k.vecSize (ftv k) := by
  cases k with
  | scalar lb ub => exact smooth_map (smooth_constrainFn hk)
  | vector n lb ub => exact smooth_map (smooth_constrainFn hk)
  | array s lb ub => exact smooth_map (smooth_constrainFn hk)
  | posdef n d => exact smooth_posdef n d
  | posdefVec len n d =>
    have := smooth_blockG (len := len) (fun y _ => lowerVec_length n (unpackMat n y d))
      (smooth_posdef n d)
    rwa [Nat.mul_comm len] at this
  | posdefArr s n d =>
    have := smooth_blockG (len := s.prod) (fun y _ => lowerVec_length n (unpackMat n y d))
      (smooth_posdef n d)
    rwa [Nat.mul_comm s.prod] at this
  | simplex r c =>
    have := smooth_blockG (len := r) (fun y _ => softVec_length c y) (smooth_softVec c)
    rw [Nat.mul_comm (c - 1)] at this
    exact this.congr fun x hx => simplexMat_blockG hx
  | subspace dim free basis => exact smooth_matvec _ _ _

theorem mapM_congr_mem {α β : Type} {f g : α → Py β} (xs : List α) (h : ∀ x ∈ xs, f x = g x) :
    xs.mapM f = xs.mapM g := by
  induction xs with
  | nil => rfl
  | cons a t ih =>
    rw [List.mapM_cons, List.mapM_cons, h a (by simp), ih fun x hx => h x (by simp [hx])]

namespace Leaf

theorem freeToVectorVal_ok (l : Leaf) (hk : l.kind.Legal) (x : List ℝ)
    (hx : x.length = l.kind.freeSize) : l.freeToVectorVal x = .ok (ftv l.kind x) := by
  unfold freeToVectorVal
  rw [freeToVector_ok l hk x hx]
  rfl

theorem checkLen_ok {x : List ℝ} {n : ℕ} (h : x.length = n) : checkLen x n = .ok () := by
  unfold checkLen
  rw [if_neg (by omega)]

theorem slice_comm (x : List ℝ) (r k : ℕ) : slice x (r * k) k = slice x (k * r) k := by
  rw [Nat.mul_comm]

theorem map_inds {x : List ℝ} {o k : ℕ} (h : o + k ≤ x.length) :
    ((List.range k).map (o + ·)).map (fun i => x.getD i 0) = slice x o k := by
  apply List.ext_getElem
  · simp [slice]; omega
  · intro i h1 h2
    have hi : i < k := by simpa using h1
    have : o + i < x.length := by omega
    simp [slice, List.getD_eq_getElem?_getD, this]

theorem inds_ok {s obs : List ℕ} {k j : ℕ} (h : ravel obs s = .ok j) :
    (List.range k).mapM (fun v => ravel (obs ++ [v]) (s ++ [k])) =
      .ok ((List.range k).map (j * k + ·)) := by
  apply mapM_ok_of
  intro v hv
  have := ravel_append h (ravel_single (k := v) (n := k) (by simpa using hv))
  simpa using this

theorem blockEntries_inds {o k : ℕ} {f : ℕ → ℕ → ℝ} :
    blockEntries (fun a => ((List.range k).map (o + ·)).getD a 0)
      (fun a => ((List.range k).map (o + ·)).getD a 0) k k f =
    blockEntries (o + ·) (o + ·) k k f := by
  unfold blockEntries
  apply List.flatMap_congr
  intro a ha
  apply List.map_congr_left
  intro b hb
  simp only [List.mem_range] at ha hb
  simp [List.getD_eq_getElem?_getD, ha, hb]

/-- `free_to_vector_jac`. -/
theorem jac_ok (l : Leaf) (hk : l.kind.Legal) (x : List ℝ) (hx : x.length = l.kind.freeSize) :
    ∃ l' m, l.jac x = .ok (l', m) ∧ JacOK l.kind.vecSize l.kind.freeSize (ftv l.kind) x m := by
  have hF := fun y hy => freeToVectorVal_ok l hk y hy
  have hf := freeToVector_ok l hk x hx
  have hlen := ftv_length l.kind hk x hx
  obtain ⟨name, kind, val, boxed⟩ := l
  cases kind with
  | scalar lb ub =>
    simp only [jac]
    rw [autogradJac_ok hF hx, py_ok_bind, hf, py_ok_bind]
    refine ⟨_, _, rfl, ?_⟩
    simp only at hlen hx ⊢
    rw [hlen, hx]
    exact jacOK_ofDense
  | vector n lb ub =>
    simp only [Kind.freeSize] at hx
    simp only [jac]
    obtain ⟨m, h1, h2⟩ := jac_diag (lb := lb) (ub := ub) hx
    rw [checkLen_ok hx, py_ok_bind, h1]
    exact ⟨_, _, rfl, h2⟩
  | array s lb ub =>
    simp only [Kind.freeSize] at hx
    simp only [jac]
    obtain ⟨m, h1, h2⟩ := jac_diag (lb := lb) (ub := ub) hx
    rw [checkLen_ok hx, py_ok_bind, h1]
    exact ⟨_, _, rfl, h2⟩
  | posdef n d =>
    simp only [jac]
    rw [autogradJac_ok hF hx, py_ok_bind, hf, py_ok_bind]
    refine ⟨_, _, rfl, ?_⟩
    simp only at hlen hx ⊢
    rw [hlen, hx]
    exact jacOK_ofDense
  | posdefVec len n d =>
    simp only [Kind.freeSize] at hx
    simp only [jac]
    rw [checkLen_ok hx, py_ok_bind]
    rw [mapM_ok_of (g := fun row => blockEntries (row * vecSizeOf n + ·) (row * vecSizeOf n + ·)
      (vecSizeOf n) (vecSizeOf n) (D1 (fun y => lowerVec n (unpackMat n y 0))
        (slice x (row * vecSizeOf n) (vecSizeOf n))))]
    · rw [py_ok_bind, ← List.flatMap_def]
      obtain ⟨m, h1, h2⟩ := jac_blocks (len := len) (k := vecSizeOf n) (m1 := vecSizeOf n)
        (nv := vecSizeOf n * len) (nf := vecSizeOf n * len) (x := x)
        (f := fun row => D1 (fun y => lowerVec n (unpackMat n y 0))
          (slice x (row * vecSizeOf n) (vecSizeOf n))) (Nat.mul_comm _ _) (Nat.mul_comm _ _)
        (fun y _ => lowerVec_length n (unpackMat n y d)) hx (by
          intro r hr a ha b hb
          rw [slice_comm, D1_posdef_shift ha d])
      rw [h1]
      exact ⟨_, _, rfl, h2⟩
    · intro row hrow
      rw [slice_comm, autogradJac_ok (fun y hy => posDefFreeToVector_ok hy 0)
        (slice_length hx (by simpa using hrow))]
      rfl
  | posdefArr s n d =>
    simp only [Kind.freeSize] at hx
    simp only [jac]
    rw [checkLen_ok hx, py_ok_bind]
    rw [mapM_congr_of (f := fun row => .ok (blockEntries (row * vecSizeOf n + ·)
      (row * vecSizeOf n + ·) (vecSizeOf n) (vecSizeOf n) (D1 (fun y => lowerVec n (unpackMat n y 0))
        (slice x (row * vecSizeOf n) (vecSizeOf n))))) (ravel_indexProduct s)]
    · rw [mapM_ok_of _ fun _ _ => rfl, py_ok_bind, ← List.flatMap_def]
      obtain ⟨m, h1, h2⟩ := jac_blocks (len := s.prod) (k := vecSizeOf n) (m1 := vecSizeOf n)
        (nv := vecSizeOf n * s.prod) (nf := vecSizeOf n * s.prod) (x := x)
        (f := fun row => D1 (fun y => lowerVec n (unpackMat n y 0))
          (slice x (row * vecSizeOf n) (vecSizeOf n))) (Nat.mul_comm _ _) (Nat.mul_comm _ _)
        (fun y _ => lowerVec_length n (unpackMat n y d)) hx (by
          intro r hr a ha b hb
          rw [slice_comm, D1_posdef_shift ha d])
      rw [h1]
      exact ⟨_, _, rfl, h2⟩
    · intro obs hobs j hj
      have hjl := ravel_lt hj
      have hle : j * vecSizeOf n + vecSizeOf n ≤ x.length := by
        rw [hx, Nat.mul_comm _ s.prod]
        have : (j + 1) * vecSizeOf n ≤ s.prod * vecSizeOf n := Nat.mul_le_mul_right _ hjl
        rwa [Nat.add_mul, Nat.one_mul] at this
      rw [inds_ok hj, py_ok_bind, map_inds hle, slice_comm,
        autogradJac_ok (fun y hy => posDefFreeToVector_ok hy 0) (slice_length hx hjl), py_ok_bind,
        blockEntries_inds]
  | simplex r c =>
    simp only [Kind.freeSize] at hx
    simp only [jac]
    have hx' : x.length = (c - 1) * r := by rw [hx, Nat.mul_comm]
    rw [checkLen_ok hx, py_ok_bind]
    rw [mapM_ok_of (g := fun row => blockEntries (row * c + ·) (row * (c - 1) + ·)
      c (c - 1) (constrainGradFromMoment (softVec c (slice x (row * (c - 1)) (c - 1)))))]
    · rw [py_ok_bind, ← List.flatMap_def]
      obtain ⟨m, h1, h2⟩ := jac_blocks (len := r) (k := c - 1) (m1 := c)
        (nv := r * c) (nf := r * (c - 1)) (x := x) (G1 := softVec c)
        (f := fun row => constrainGradFromMoment (softVec c (slice x (row * (c - 1)) (c - 1))))
        rfl rfl (fun y _ => softVec_length c y) hx' (by
          intro r hr a ha b hb
          rw [slice_comm, softVec_D1 (slice_length hx' hr) ha hb, constrainGradFromMoment_eq _ (by
            rw [softVec_length]; exact ha), softVec_getD _ ha, softVec_getD _ (by omega)])
      rw [h1]
      refine ⟨_, _, rfl, h2.nr, h2.nc, h2.inRange, ?_⟩
      intro i hi j hj
      rw [h2.val i hi j hj]
      exact (D1_congr (n := r * (c - 1)) (fun y hy => simplexMat_blockG hy) hx i j).symm
    · intro row hrow
      rw [slice_comm, constrainSimplexVector_ok hk (slice_length hx' (by simpa using hrow))]
      rfl
  | subspace dim free basis =>
    simp only [Kind.freeSize] at hx
    refine ⟨_, _, rfl, rfl, rfl, ofDense_inRange _ _ _, ?_⟩
    intro i hi j hj
    rw [toDense_ofDense dim free _ hi hj]
    exact (matvec_D1 hx hi hj).symm

/-- `free_to_vector_hess`. -/
theorem hess_ok (l : Leaf) (hk : l.kind.Legal) (x : List ℝ) (hx : x.length = l.kind.freeSize) :
    ∃ l' ms, l.hess x = .ok (l', ms) ∧ HessOK l.kind.vecSize l.kind.freeSize (ftv l.kind) x ms := by
  have hF := fun y hy => freeToVectorVal_ok l hk y hy
  have hf := freeToVector_ok l hk x hx
  have hlen := ftv_length l.kind hk x hx
  obtain ⟨name, kind, val, boxed⟩ := l
  cases kind with
  | scalar lb ub =>
    simp only [hess]
    rw [autogradHess_ok hF hx, py_ok_bind, hf, py_ok_bind]
    refine ⟨_, _, rfl, ?_⟩
    simp only at hlen hx ⊢
    rw [hlen, hx]
    exact hessOK_ofDense
  | vector n lb ub =>
    simp only [Kind.freeSize] at hx
    simp only [hess]
    obtain ⟨m, h1, h2⟩ := hess_diag (lb := lb) (ub := ub) hx
    rw [checkLen_ok hx, py_ok_bind, h1]
    exact ⟨_, _, rfl, h2⟩
  | array s lb ub =>
    simp only [Kind.freeSize] at hx
    simp only [hess]
    obtain ⟨m, h1, h2⟩ := hess_diag (lb := lb) (ub := ub) hx
    rw [checkLen_ok hx, py_ok_bind, h1]
    exact ⟨_, _, rfl, h2⟩
  | posdef n d =>
    simp only [hess]
    rw [autogradHess_ok hF hx, py_ok_bind, hf, py_ok_bind]
    refine ⟨_, _, rfl, ?_⟩
    simp only at hlen hx ⊢
    rw [hlen, hx]
    exact hessOK_ofDense
  | posdefVec len n d =>
    simp only [Kind.freeSize] at hx
    simp only [hess]
    rw [checkLen_ok hx, py_ok_bind]
    obtain ⟨ms, h1, h2⟩ := hess_blocks (len := len) (k := vecSizeOf n) (m1 := vecSizeOf n)
        (nv := vecSizeOf n * len) (nf := len * vecSizeOf n) (x := x)
        (f := fun row => D2 (fun y => lowerVec n (unpackMat n y 0))
          (slice x (row * vecSizeOf n) (vecSizeOf n))) (Nat.mul_comm _ _) rfl
        (fun y _ => lowerVec_length n (unpackMat n y d)) hx (by
          intro r hr a ha b hb c hc
          rw [slice_comm, D2_posdef_shift ha d])
    rw [mapM_congr_mem (g := fun row => (List.range (vecSizeOf n)).mapM fun v =>
      Coo.make (len * vecSizeOf n) (len * vecSizeOf n)
        (blockEntries (row * vecSizeOf n + ·) (row * vecSizeOf n + ·) (vecSizeOf n) (vecSizeOf n)
          (D2 (fun y => lowerVec n (unpackMat n y 0)) (slice x (row * vecSizeOf n) (vecSizeOf n)) v)))]
    · rw [h1]
      refine ⟨_, _, rfl, ?_⟩
      rw [Nat.mul_comm len] at h2
      exact h2
    · intro row hrow
      rw [slice_comm, autogradHess_ok (fun y hy => posDefFreeToVector_ok hy 0)
        (slice_length hx (by simpa using hrow))]
      rfl
  | posdefArr s n d =>
    simp only [Kind.freeSize] at hx
    simp only [hess]
    rw [checkLen_ok hx, py_ok_bind]
    obtain ⟨ms, h1, h2⟩ := hess_blocks (len := s.prod) (k := vecSizeOf n) (m1 := vecSizeOf n)
        (nv := vecSizeOf n * s.prod) (nf := s.prod * vecSizeOf n) (x := x)
        (f := fun row => D2 (fun y => lowerVec n (unpackMat n y 0))
          (slice x (row * vecSizeOf n) (vecSizeOf n))) (Nat.mul_comm _ _) rfl
        (fun y _ => lowerVec_length n (unpackMat n y d)) hx (by
          intro r hr a ha b hb c hc
          rw [slice_comm, D2_posdef_shift ha d])
    rw [mapM_congr_of (f := fun row => (List.range (vecSizeOf n)).mapM fun v =>
      Coo.make (s.prod * vecSizeOf n) (s.prod * vecSizeOf n)
        (blockEntries (row * vecSizeOf n + ·) (row * vecSizeOf n + ·) (vecSizeOf n) (vecSizeOf n)
          (D2 (fun y => lowerVec n (unpackMat n y 0)) (slice x (row * vecSizeOf n) (vecSizeOf n)) v)))
        (ravel_indexProduct s)]
    · rw [h1]
      refine ⟨_, _, rfl, ?_⟩
      rw [Nat.mul_comm s.prod] at h2
      exact h2
    · intro obs hobs j hj
      have hjl := ravel_lt hj
      have hle : j * vecSizeOf n + vecSizeOf n ≤ x.length := by
        rw [hx, Nat.mul_comm _ s.prod]
        have : (j + 1) * vecSizeOf n ≤ s.prod * vecSizeOf n := Nat.mul_le_mul_right _ hjl
        rwa [Nat.add_mul, Nat.one_mul] at this
      rw [inds_ok hj, py_ok_bind, map_inds hle, slice_comm,
        autogradHess_ok (fun y hy => posDefFreeToVector_ok hy 0) (slice_length hx hjl), py_ok_bind]
      simp only [blockEntries_inds]
  | simplex r c =>
    simp only [Kind.freeSize] at hx
    simp only [hess]
    have hx' : x.length = (c - 1) * r := by rw [hx, Nat.mul_comm]
    rw [checkLen_ok hx, py_ok_bind]
    obtain ⟨ms, h1, h2⟩ := hess_blocks (len := r) (k := c - 1) (m1 := c)
        (nv := r * c) (nf := r * (c - 1)) (x := x) (G1 := softVec c)
        (f := fun row => constrainHessFromMoment (softVec c (slice x (row * (c - 1)) (c - 1))))
        rfl rfl (fun y _ => softVec_length c y) hx' (by
          intro r hr a ha b hb d hd
          rw [slice_comm, softVec_D2 (slice_length hx' hr) ha hb hd, constrainHessFromMoment_eq _ (by
            rw [softVec_length]; exact ha) (by rw [softVec_length]; exact hb), softVec_getD _ ha,
            softVec_getD _ (by omega), softVec_getD _ (by omega)])
    rw [mapM_congr_mem (g := fun row => (List.range c).mapM fun v =>
      Coo.make (r * (c - 1)) (r * (c - 1))
        (blockEntries (row * (c - 1) + ·) (row * (c - 1) + ·) (c - 1) (c - 1)
          (constrainHessFromMoment (softVec c (slice x (row * (c - 1)) (c - 1))) v)))]
    · rw [h1]
      refine ⟨_, _, rfl, h2.len, fun i hi => ?_⟩
      obtain ⟨g1, g2, g3, g4⟩ := h2.ok i hi
      refine ⟨g1, g2, g3, fun a ha b hb => ?_⟩
      rw [g4 a ha b hb]
      exact (D2_congr (n := r * (c - 1)) (fun y hy => simplexMat_blockG hy) hx i a b).symm
    · intro row hrow
      rw [slice_comm, constrainSimplexVector_ok hk (slice_length hx' (by simpa using hrow))]
      rfl
  | subspace dim free basis =>
    simp only [Kind.freeSize] at hx
    refine ⟨_, _, rfl, by simp [Kind.vecSize], ?_⟩
    intro i hi
    have hi' : i < dim := by simpa using hi
    simp only [List.getElem_map]
    refine ⟨rfl, rfl, by simp [Coo.InRange], ?_⟩
    intro a ha b hb
    simp only [Coo.toDense, List.map_nil, List.sum_nil]
    exact (matvec_D2 hx hi' ha).symm

end Leaf

end LRVB
