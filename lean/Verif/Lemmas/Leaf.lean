import Verif.Model.Leaf
import Verif.Lemmas.Flt
import Verif.Lemmas.Chol
import Verif.Spec.Matrix

namespace LRVB

open Flt

/-! ## Generalities -/

theorem mapM_congr_of {α β γ : Type} {g : α → Py β} {h : α → Py γ} {f : β → Py γ}
    {xs : List α} {ks : List β} (hg : xs.mapM g = .ok ks)
    (hh : ∀ x ∈ xs, ∀ k, g x = .ok k → h x = f k) : xs.mapM h = ks.mapM f := by
  induction xs generalizing ks with
  | nil => cases hg; rfl
  | cons a t ih =>
    rw [List.mapM_cons] at hg
    cases ha : g a with
    | error e => rw [ha] at hg; cases hg
    | ok k =>
      rw [ha] at hg
      cases ht : t.mapM g with
      | error e => rw [ht] at hg; cases hg
      | ok ks' =>
        rw [ht] at hg
        cases hg
        rw [List.mapM_cons, List.mapM_cons, hh a (by simp) k ha,
          ih ht (fun x hx => hh x (by simp [hx]))]

theorem mapM_length {α β : Type} {f : α → Py β} {xs : List α} {ys : List β}
    (h : xs.mapM f = .ok ys) : ys.length = xs.length := by
  induction xs generalizing ys with
  | nil => cases h; rfl
  | cons a t ih =>
    rw [List.mapM_cons] at h
    cases ha : f a with
    | error e => rw [ha] at h; cases h
    | ok k =>
      rw [ha] at h
      cases ht : t.mapM f with
      | error e => rw [ht] at h; cases h
      | ok ks' => rw [ht] at h; cases h; simp [ih ht]

theorem ravel_append {s t idx jdx : List ℕ} {k l : ℕ} (h1 : ravel idx s = .ok k)
    (h2 : ravel jdx t = .ok l) : ravel (idx ++ jdx) (s ++ t) = .ok (k * t.prod + l) := by
  induction s generalizing idx k with
  | nil =>
    cases idx with
    | nil => cases h1; simpa using h2
    | cons _ _ => cases h1
  | cons n s ih =>
    cases idx with
    | nil => cases h1
    | cons i idx =>
      unfold ravel at h1
      split_ifs at h1 with hi
      cases hr : ravel idx s with
      | error e => rw [hr] at h1; cases h1
      | ok k' =>
        rw [hr] at h1
        cases h1
        have := ih hr
        simp only [List.cons_append, ravel, hi, if_true, this]
        change Except.ok _ = Except.ok _
        congr 1
        simp only [List.prod_append]
        ring

theorem ravel_lt {s idx : List ℕ} {k : ℕ} (h : ravel idx s = .ok k) : k < s.prod := by
  induction s generalizing idx k with
  | nil =>
    cases idx with
    | nil => cases h; simp
    | cons _ _ => cases h
  | cons n s ih =>
    cases idx with
    | nil => cases h
    | cons i idx =>
      unfold ravel at h
      split_ifs at h with hi
      cases hr : ravel idx s with
      | error e => rw [hr] at h; cases h
      | ok k' =>
        rw [hr] at h; cases h
        rw [List.prod_cons]
        exact Arr.lt_mul_add hi (ih hr)

/-- Sub-array at a prefix of the indices. -/
theorem sub_prefix {s t idx : List ℕ} {data : List ℝ} {k : ℕ}
    (hl : data.length = (s ++ t).prod) (h : ravel idx s = .ok k) :
    (⟨s ++ t, data⟩ : Arr).sub idx = .ok ⟨t, (data.drop (k * t.prod)).take t.prod⟩ := by
  induction s generalizing idx data k with
  | nil =>
    cases idx with
    | nil =>
      cases h
      simp at hl
      simp [Arr.sub, ← hl]
    | cons i idx => cases h
  | cons n s ih =>
    cases idx with
    | nil => cases h
    | cons i idx =>
      unfold ravel at h
      split_ifs at h with hi
      cases hr : ravel idx s with
      | error e => rw [hr] at h; cases h
      | ok k' =>
        rw [hr] at h
        cases h
        have hk' := ravel_lt hr
        rw [List.cons_append, List.prod_cons] at hl
        have hle : i * (s ++ t).prod + (s ++ t).prod ≤ data.length := by
          rw [hl]
          calc i * (s ++ t).prod + (s ++ t).prod = (i + 1) * (s ++ t).prod := by ring
            _ ≤ n * (s ++ t).prod := Nat.mul_le_mul_right _ hi
        rw [List.cons_append]
        unfold Arr.sub
        simp only [hi, if_true]
        rw [ih (by simp only [List.length_take, List.length_drop]; omega) hr]
        congr 2
        rw [List.drop_take, List.drop_drop, List.take_take]
        have hkt : k' * t.prod + t.prod ≤ (s ++ t).prod := by
          rw [List.prod_append]
          calc k' * t.prod + t.prod = (k' + 1) * t.prod := by ring
            _ ≤ s.prod * t.prod := Nat.mul_le_mul_right _ hk'
        have e : (i * s.prod + k') * t.prod = i * (s ++ t).prod + k' * t.prod := by
          rw [List.prod_append]; ring
        rw [e, min_eq_left (by omega)]

/-! ## The scalar transform on lists -/

theorem constrainReal_eq {lb ub : Flt} (h : lb < ub) (x : ℝ) :
    constrain (fin x) lb ub = .ok (fin (Leaf.constrainFn lb ub x)) := by
  obtain ⟨v, hv, -, -⟩ := constrain_inside h x
  simp [Leaf.constrainFn, constrainReal, hv]

theorem constrainFn_inside {lb ub : Flt} (h : lb < ub) (x : ℝ) :
    lb < fin (Leaf.constrainFn lb ub x) ∧ fin (Leaf.constrainFn lb ub x) < ub := by
  obtain ⟨v, hv, h1, h2⟩ := constrain_inside h x
  rw [constrainReal_eq h] at hv
  simp only [Except.ok.injEq, fin.injEq] at hv
  rw [hv]; exact ⟨h1, h2⟩

theorem flt_le_of_lt {a b : Flt} (h : a < b) : a ≤ b := by
  rcases lt_cases h with ⟨rfl, rfl⟩ | ⟨a, rfl, rfl⟩ | ⟨b, rfl, rfl⟩ | ⟨a, b, rfl, rfl, hab⟩ <;>
    simp_all [le_of_lt]

theorem constrainVec_ok {lb ub : Flt} (h : lb < ub) (xs : List ℝ) :
    Leaf.constrainVec xs lb ub = .ok (xs.map (Leaf.constrainFn lb ub)) := by
  unfold Leaf.constrainVec constrainList
  rw [if_neg (not_le_of_lt h)]
  have : (xs.map fin).mapM (fun x => constrain x lb ub) =
      .ok (xs.map fun x => fin (Leaf.constrainFn lb ub x)) := by
    induction xs with
    | nil => rfl
    | cons a t ih => rw [List.map_cons, List.mapM_cons, ih, constrainReal_eq h]; rfl
  rw [this]
  simp only [py_ok_bind]
  induction xs with
  | nil => rfl
  | cons a t ih =>
    rw [List.map_cons, List.mapM_cons, ih]
    · rfl
    · clear ih this
      induction t with
      | nil => rfl
      | cons a t ih => rw [List.map_cons, List.mapM_cons, ih, constrainReal_eq h]; rfl

theorem unconstrain_constrainFn {lb ub : Flt} (h : lb < ub) (x : ℝ) :
    unconstrain (fin (Leaf.constrainFn lb ub x)) lb ub = .ok (fin x) :=
  unconstrain_constrain h x _ (constrainReal_eq h x)

theorem unconstrainVec_constrainFn {lb ub : Flt} (h : lb < ub) (xs : List ℝ) :
    Leaf.unconstrainVec (xs.map (Leaf.constrainFn lb ub)) lb ub = .ok xs := by
  unfold Leaf.unconstrainVec unconstrainArray unconstrainList
  rw [if_neg, if_neg, if_neg (not_le_of_lt h)]
  · have : (((xs.map (Leaf.constrainFn lb ub)).map fin).mapM fun v => unconstrain v lb ub) =
        .ok (xs.map fin) := by
      induction xs with
      | nil => rfl
      | cons a t ih =>
        rw [List.map_cons, List.map_cons, List.mapM_cons, ih, unconstrain_constrainFn h]; rfl
    rw [this]
    simp only [py_ok_bind]
    clear this
    induction xs with
    | nil => rfl
    | cons a t ih => rw [List.map_cons, List.mapM_cons, ih]; rfl
  · intro hc; apply hc
    intro v hv
    simp only [List.map_map, List.mem_map] at hv
    obtain ⟨a, _, rfl⟩ := hv
    exact flt_le_of_lt (constrainFn_inside h a).1
  · intro hc; apply hc
    intro v hv
    simp only [List.map_map, List.mem_map] at hv
    obtain ⟨a, _, rfl⟩ := hv
    exact flt_le_of_lt (constrainFn_inside h a).2

/-! ## Legal constructor arguments -/

/-- What the constructors guarantee about their arguments (and, for the subspace parameter, what
`get_perpendicular_subspace` guarantees about the basis: orthonormal columns). -/
def Kind.Legal : Kind → Prop
  | .scalar lb ub => lb < ub
  | .vector _ lb ub => lb < ub
  | .array _ lb ub => lb < ub
  | .posdef _ d => 0 ≤ d
  | .posdefVec len _ d => 0 ≤ d ∧ 0 < len
  | .posdefArr s _ d => 0 ≤ d ∧ s ≠ [] ∧ 0 < s.prod
  | .simplex _ c => 0 < c
  | .subspace dim free basis => IsMat basis dim free ∧
      ∀ i < free, ∀ j < free, ∑ k ∈ Finset.range dim, basis.at2 k i * basis.at2 k j =
        if i = j then 1 else 0

noncomputable section

/-- The matrix unpacked from a free vector. -/
def unpackMat (n : ℕ) (x : List ℝ) (d : ℝ) : Arr := Arr.ofFn2 n n fun i j =>
  (∑ k ∈ Finset.range n, freeChol x i k * freeChol x j k) + (if i = j then d else 0)

/-- The symmetric matrix with a given lower triangle. -/
def symMat (n : ℕ) (v : List ℝ) : Arr := Arr.ofFn2 n n fun i j => v.getD (symIndex i j) 0

/-- The simplex matrix of a free vector (in row-major order). -/
def simplexMat (r c : ℕ) (x : List ℝ) : Arr := Arr.ofFn2 r c fun i j =>
  Real.exp (augment ⟨[r, c - 1], x⟩ i j -
    Real.log (∑ k ∈ Finset.range c, Real.exp (augment ⟨[r, c - 1], x⟩ i k)))

/-- The blocks of a vector. -/
def blocks (x : List ℝ) (len k : ℕ) : List (List ℝ) :=
  (List.range len).map fun b => Leaf.slice x (k * b) k

/-- The value held after a successful `set_free(x)`. -/
def freeVal : Kind → List ℝ → Arr
  | .scalar lb ub, x => Arr.vec (x.map (Leaf.constrainFn lb ub))
  | .vector _ lb ub, x => Arr.vec (x.map (Leaf.constrainFn lb ub))
  | .array s lb ub, x => ⟨s, x.map (Leaf.constrainFn lb ub)⟩
  | .posdef n d, x => unpackMat n x d
  | .posdefVec len n d, x =>
    ⟨[len, n, n], (blocks x len (vecSizeOf n)).flatMap fun y => (unpackMat n y d).data⟩
  | .posdefArr s n d, x =>
    ⟨s ++ [n, n], (blocks x s.prod (vecSizeOf n)).flatMap fun y => (unpackMat n y d).data⟩
  | .simplex r c, x => simplexMat r c x
  | .subspace dim free basis, x => Arr.vec (Leaf.matvec basis dim free x)

/-- The value held after a successful `set_vector(v)`. -/
def vectorVal : Kind → List ℝ → Arr
  | .scalar _ _, v => Arr.vec v
  | .vector _ _ _, v => Arr.vec v
  | .array s _ _, v => ⟨s, v⟩
  | .posdef n _, v => symMat n v
  | .posdefVec len n _, v =>
    ⟨[len, n, n], (blocks v len (vecSizeOf n)).flatMap fun y => (symMat n y).data⟩
  | .posdefArr s n _, v =>
    ⟨s ++ [n, n], (blocks v s.prod (vecSizeOf n)).flatMap fun y => (symMat n y).data⟩
  | .simplex r c, v => ⟨[r, c], v⟩
  | .subspace _ _ _, v => Arr.vec v

/-- The lower triangle of a matrix, row by row. -/
def lowerVec (n : ℕ) (m : Arr) : List ℝ := (trilIndices n).map fun p => m.at2 p.1 p.2

/-- The vector returned by `free_to_vector(x)`. -/
def ftv : Kind → List ℝ → List ℝ
  | .scalar lb ub, x => x.map (Leaf.constrainFn lb ub)
  | .vector _ lb ub, x => x.map (Leaf.constrainFn lb ub)
  | .array _ lb ub, x => x.map (Leaf.constrainFn lb ub)
  | .posdef n d, x => lowerVec n (unpackMat n x d)
  | .posdefVec len n d, x =>
    (blocks x len (vecSizeOf n)).flatMap fun y => lowerVec n (unpackMat n y d)
  | .posdefArr s n d, x =>
    (blocks x s.prod (vecSizeOf n)).flatMap fun y => lowerVec n (unpackMat n y d)
  | .simplex r c, x => (simplexMat r c x).data
  | .subspace dim free basis, x => Leaf.matvec basis dim free x

end

theorem slice_length {x : List ℝ} {len k b : ℕ} (h : x.length = k * len) (hb : b < len) :
    (Leaf.slice x (k * b) k).length = k := by
  unfold Leaf.slice
  rw [List.length_take, List.length_drop, h]
  have : k * b + k ≤ k * len := by
    calc k * b + k = k * (b + 1) := by ring
      _ ≤ k * len := Nat.mul_le_mul_left _ hb
  omega

theorem mem_blocks_length {x y : List ℝ} {len k : ℕ} (h : x.length = k * len)
    (hy : y ∈ blocks x len k) : y.length = k := by
  obtain ⟨b, hb, rfl⟩ := List.mem_map.mp hy
  exact slice_length h (by simpa using hb)

@[simp] theorem blocks_length (x : List ℝ) (len k : ℕ) : (blocks x len k).length = len := by
  simp [blocks]

/-- The blocks of a vector, put together, are the vector. -/
theorem blocks_flatten {x : List ℝ} {len k : ℕ} (h : x.length = k * len) :
    (blocks x len k).flatten = x := by
  induction len generalizing x with
  | zero => simp [blocks] at *; exact h
  | succ n ih =>
    have e : blocks x (n + 1) k = x.take k :: blocks (x.drop k) n k := by
      unfold blocks Leaf.slice
      rw [List.range_succ_eq_map, List.map_cons, List.map_map]
      simp only [Nat.mul_zero, List.drop_zero, List.cons.injEq, true_and]
      apply List.map_congr_left
      intro b _
      simp only [Function.comp, List.drop_drop]
      congr 2
      rw [Nat.succ_eq_add_one]; ring
    rw [e, List.flatten_cons, ih (by rw [List.length_drop, h]; ring_nf; omega), List.take_append_drop]

theorem vecSizeOf_eq (n : ℕ) : vecSizeOf n = tri n := rfl

theorem unpackPosdef_ok' {n : ℕ} {x : List ℝ} (h : x.length = vecSizeOf n) (d : ℝ) :
    unpackPosdef x d = .ok (unpackMat n x d) := unpackPosdef_ok h d

theorem unvectorizeSym_ok' {n : ℕ} {x : List ℝ} (h : x.length = vecSizeOf n) :
    unvectorizeSym x = .ok (symMat n x) := unvectorizeSym_ok h

theorem mapM_blocks {α : Type} {x : List ℝ} {len k : ℕ} (f : List ℝ → Py α) (g : List ℝ → α)
    (h : x.length = k * len) (hf : ∀ y, y.length = k → f y = .ok (g y)) :
    (List.range len).mapM (fun b => f (Leaf.slice x (k * b) k)) = .ok ((blocks x len k).map g) := by
  rw [mapM_ok_of (g := fun b => g (Leaf.slice x (k * b) k))]
  · simp [blocks, Function.comp_def]
  · intro b hb
    exact hf _ (slice_length h (by simpa using hb))

theorem mapM_blocks_product {α : Type} {x : List ℝ} {s : List ℕ} {k : ℕ} (f : List ℝ → Py α)
    (g : List ℝ → α) (h : x.length = k * s.prod) (hf : ∀ y, y.length = k → f y = .ok (g y)) :
    (indexProduct s).mapM (fun obs => do
      let j ← ravel obs s
      f (Leaf.slice x (j * k) k)) = .ok ((blocks x s.prod k).map g) := by
  rw [mapM_congr_of (f := fun j => f (Leaf.slice x (k * j) k)) (ravel_indexProduct s)]
  · exact mapM_blocks f g h hf
  · intro obs _ j hj
    rw [hj, py_ok_bind, Nat.mul_comm]

theorem stack_ok {t : List ℕ} {as : List Arr} (h : as ≠ []) :
    Arr.stack t as = ⟨as.length :: t, as.flatMap Arr.data⟩ := by
  unfold Arr.stack
  rw [if_neg (by simpa using h)]

theorem transpose_data_ofFn2 {n : ℕ} {f : ℕ → ℕ → ℝ} (h : ∀ i < n, ∀ j < n, f i j = f j i) :
    (Arr.ofFn2 n n f).transpose = Arr.ofFn2 n n f := by
  change Arr.ofFn2 n n _ = _
  apply Arr.ofFn2_congr
  intro i hi j hj
  rw [Arr.at2_ofFn2 _ _ _ hj hi, h i hi j hj]

theorem unpackMat_symm (n : ℕ) (x : List ℝ) (d : ℝ) : (unpackMat n x d).transpose = unpackMat n x d := by
  apply transpose_data_ofFn2
  intro i _ j _
  congr 1
  · exact Finset.sum_congr rfl fun k _ => mul_comm _ _
  · simp [eq_comm]

theorem symMat_symm (n : ℕ) (x : List ℝ) : (symMat n x).transpose = symMat n x := by
  apply transpose_data_ofFn2
  intro i _ j _
  rw [symIndex_comm]

namespace Leaf

/-- `set_free` with a vector of the right length succeeds, and what it stores. -/
theorem setFree_ok (l : Leaf) (hk : l.kind.Legal) (x : List ℝ) (hx : x.length = l.freeSize) :
    l.setFree x = .ok { l with val := freeVal l.kind x, boxed := false } := by
  obtain ⟨name, kind, val, boxed⟩ := l
  cases kind with
  | scalar lb ub => simp [setFree, constrainVec_ok hk, set, freeVal]
  | vector n lb ub =>
    simp only [freeSize, Kind.freeSize] at hx
    simp [setFree, constrainVec_ok hk, set, freeVal, hx, Arr.vec, Arr.size]
  | array s lb ub =>
    simp only [freeSize, Kind.freeSize] at hx
    simp [setFree, constrainVec_ok hk, set, freeVal, hx, Arr.vec, Arr.reshape]
  | posdef n d =>
    simp only [freeSize, Kind.freeSize] at hx
    simp only [setFree, hx, ne_eq, not_true_eq_false, if_false]
    rw [unpackPosdef_ok' hx, py_ok_bind]
    simp only [set, freeVal]
    have hs : (unpackMat n x d).shape = [n, n] := rfl
    rw [hs]
    simp [unpackMat_symm]
  | posdefVec len n d =>
    simp only [freeSize, Kind.freeSize] at hx
    simp only [setFree, hx, ne_eq, not_true_eq_false, if_false]
    rw [mapM_blocks (fun y => unpackPosdef y d) (fun y => unpackMat n y d) hx
      (fun y hy => unpackPosdef_ok' hy d), py_ok_bind]
    rw [stack_ok]
    · simp [freeVal, List.flatMap_map]
    · have := hk.2
      simp [blocks]; omega
  | posdefArr s n d =>
    simp only [freeSize, Kind.freeSize] at hx
    simp only [setFree, hx, ne_eq, not_true_eq_false, if_false]
    rw [mapM_blocks_product (fun y => unpackPosdef y d) (fun y => unpackMat n y d) hx
      (fun y hy => unpackPosdef_ok' hy d), py_ok_bind]
    rw [stack_ok]
    · rw [Arr.reshape, if_pos]
      · simp [freeVal, List.flatMap_map]
      · simp only [List.flatMap_def, List.map_map]
        rw [flatten_length_const _ (n * n)]
        · simp
        · intro b hb
          obtain ⟨y, _, rfl⟩ := List.mem_map.mp hb
          simp [unpackMat]
    · have := hk.2.2
      simp [blocks, -List.prod_eq_zero_iff]; omega
  | simplex r c =>
    simp only [freeSize, Kind.freeSize] at hx
    have hc : c - 1 + 1 = c := Nat.succ_pred_eq_of_pos hk
    simp only [setFree, hx, ne_eq, not_true_eq_false, if_false, constrainSimplexMatrix, py_ok_bind, set,
      Arr.ofFn2_shape, hc, freeVal]
    rfl
  | subspace dim free basis =>
    simp only [freeSize, Kind.freeSize] at hx
    simp [setFree, set, freeVal, hx, Arr.vec, Arr.size, matvec]

/-- `set_vector` with a vector of the right length succeeds, and what it stores. -/
theorem setVector_ok (l : Leaf) (hk : l.kind.Legal) (v : List ℝ) (hv : v.length = l.vecSize) :
    l.setVector v = .ok { l with val := vectorVal l.kind v, boxed := false } := by
  obtain ⟨name, kind, val, boxed⟩ := l
  cases kind with
  | scalar lb ub => simp [setVector, set, vectorVal]
  | vector n lb ub =>
    simp only [vecSize, Kind.vecSize] at hv
    simp [setVector, set, vectorVal, hv, Arr.vec, Arr.size]
  | array s lb ub =>
    simp only [vecSize, Kind.vecSize] at hv
    simp [setVector, set, vectorVal, hv, Arr.vec, Arr.reshape]
  | posdef n d =>
    simp only [vecSize, Kind.vecSize] at hv
    simp only [setVector, hv, ne_eq, not_true_eq_false, if_false]
    rw [unvectorizeSym_ok' hv, py_ok_bind]
    simp only [set, vectorVal]
    have hs : (symMat n v).shape = [n, n] := rfl
    rw [hs]
    simp [symMat_symm]
  | posdefVec len n d =>
    simp only [vecSize, Kind.vecSize] at hv
    simp only [setVector, hv, ne_eq, not_true_eq_false, if_false]
    rw [mapM_blocks unvectorizeSym (fun y => symMat n y) hv
      (fun y hy => unvectorizeSym_ok' hy), py_ok_bind]
    rw [stack_ok]
    · simp [vectorVal, List.flatMap_map]
    · have := hk.2
      simp [blocks]; omega
  | posdefArr s n d =>
    simp only [vecSize, Kind.vecSize] at hv
    simp only [setVector, hv, ne_eq, not_true_eq_false, if_false]
    rw [mapM_blocks_product unvectorizeSym (fun y => symMat n y) hv
      (fun y hy => unvectorizeSym_ok' hy), py_ok_bind]
    rw [stack_ok]
    · rw [Arr.reshape, if_pos]
      · simp [vectorVal, List.flatMap_map]
      · simp only [List.flatMap_def, List.map_map]
        rw [flatten_length_const _ (n * n)]
        · simp
        · intro b hb
          obtain ⟨y, _, rfl⟩ := List.mem_map.mp hb
          simp [symMat]
    · have := hk.2.2
      simp [blocks, -List.prod_eq_zero_iff]; omega
  | simplex r c =>
    simp only [vecSize, Kind.vecSize] at hv
    simp [setVector, set, vectorVal, hv, Arr.vec, Arr.reshape]
  | subspace dim free basis =>
    simp only [vecSize, Kind.vecSize] at hv
    simp [setVector, set, vectorVal, hv, Arr.vec, Arr.size]

end Leaf

end LRVB
