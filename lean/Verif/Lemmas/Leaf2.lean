import Verif.Lemmas.Leaf
import Verif.Props.Ld

namespace LRVB

open Flt

theorem sub_flatMap {s t idx : List ℕ} {bl : List (List ℝ)} {g : List ℝ → Arr} {k : ℕ}
    (hbl : bl.length = s.prod) (hg : ∀ y ∈ bl, (g y).shape = t ∧ (g y).data.length = t.prod)
    (h : ravel idx s = .ok k) (hk : k < bl.length) :
    (⟨s ++ t, bl.flatMap fun y => (g y).data⟩ : Arr).sub idx = .ok (g bl[k]) := by
  have hc : ∀ b ∈ bl.map fun y => (g y).data, b.length = t.prod := by
    intro b hb
    obtain ⟨y, hy, rfl⟩ := List.mem_map.mp hb
    exact (hg y hy).2
  rw [sub_prefix (k := k) _ h]
  · rw [List.flatMap_def, flatten_block_const _ _ hc k (by simpa using hk)]
    have := (hg bl[k] (List.getElem_mem hk)).1
    rw [List.getElem_map]
    cases hgk : g bl[k] with
    | mk sh da => rw [hgk] at this; simp at this; rw [this]
  · rw [List.flatMap_def, flatten_length_const _ _ hc, List.length_map, hbl, List.prod_append]

theorem mapM_range_getElem {α β : Type} (bl : List α) (f : ℕ → Py β) (g : α → β)
    (h : ∀ k (hk : k < bl.length), f k = .ok (g bl[k])) :
    (List.range bl.length).mapM f = .ok (bl.map g) := by
  induction bl generalizing f with
  | nil => rfl
  | cons a t ih =>
    rw [List.length_cons, List.range_succ_eq_map, List.mapM_cons, h 0 (by simp), List.mapM_map]
    rw [ih (f ∘ Nat.succ) (fun k hk => by
      have := h (k + 1) (by simp; omega)
      simpa using this)]
    rfl

theorem ravel_single {k n : ℕ} (h : k < n) : ravel [k] [n] = .ok k := by
  simp only [ravel, h, if_true]
  change Except.ok _ = _
  simp

/-- Reading all blocks of an array of matrices, along the flat index. -/
theorem mapM_sub_vec {α : Type} {len : ℕ} {t : List ℕ} {bl : List (List ℝ)} {g : List ℝ → Arr}
    (F : Arr → Py α) (G : List ℝ → α) (hbl : bl.length = len)
    (hg : ∀ y ∈ bl, (g y).shape = t ∧ (g y).data.length = t.prod)
    (hF : ∀ y ∈ bl, F (g y) = .ok (G y)) :
    (List.range len).mapM (fun obs => do
      F (← (⟨len :: t, bl.flatMap fun y => (g y).data⟩ : Arr).sub [obs])) = .ok (bl.map G) := by
  subst hbl
  apply mapM_range_getElem
  intro k hk
  have := sub_flatMap (s := [bl.length]) (t := t) (g := g) (idx := [k]) (k := k) (by simp) hg
    (ravel_single hk) hk
  rw [List.singleton_append] at this
  rw [this, py_ok_bind, hF _ (List.getElem_mem hk)]

theorem mapM_sub_arr {α : Type} {s t : List ℕ} {bl : List (List ℝ)} {g : List ℝ → Arr}
    (F : Arr → Py α) (G : List ℝ → α) (hbl : bl.length = s.prod)
    (hg : ∀ y ∈ bl, (g y).shape = t ∧ (g y).data.length = t.prod)
    (hF : ∀ y ∈ bl, F (g y) = .ok (G y)) :
    (indexProduct s).mapM (fun obs => do
      F (← (⟨s ++ t, bl.flatMap fun y => (g y).data⟩ : Arr).sub obs)) = .ok (bl.map G) := by
  rw [mapM_congr_of (f := fun k => if h : k < bl.length then .ok (G bl[k]) else .error .unmodelled)
    (ravel_indexProduct s)]
  · rw [← hbl]
    apply mapM_range_getElem
    intro k hk
    rw [dif_pos hk]
  · intro obs _ k hk
    have hlt : k < bl.length := by rw [hbl]; exact ravel_lt hk
    rw [sub_flatMap hbl hg hk hlt, py_ok_bind, hF _ (List.getElem_mem hlt), dif_pos hlt]

theorem hstack_ok {xs : List (List ℝ)} (h : xs ≠ []) : Arr.hstack xs = .ok xs.flatten := by
  unfold Arr.hstack
  rw [if_neg (by simpa using h)]

theorem pack_unpackMat {n : ℕ} {y : List ℝ} (d : ℝ) (h : y.length = vecSizeOf n) :
    packPosdef (unpackMat n y d) d = .ok y := by
  have := C20_pack_unpack n y d h
  rwa [unpackPosdef_ok' h, py_ok_bind] at this

theorem vectorize_symMat {n : ℕ} {y : List ℝ} (h : y.length = vecSizeOf n) :
    vectorizeLd (symMat n y) = .ok y :=
  vectorize_ofFn2 (n := n) h _ fun _ _ _ _ => rfl

theorem unpackMat_shape (n : ℕ) (y : List ℝ) (d : ℝ) :
    (unpackMat n y d).shape = [n, n] ∧ (unpackMat n y d).data.length = [n, n].prod := by
  constructor
  · rfl
  · simp [unpackMat]

theorem symMat_shape (n : ℕ) (y : List ℝ) :
    (symMat n y).shape = [n, n] ∧ (symMat n y).data.length = [n, n].prod := by
  constructor
  · rfl
  · simp [symMat]

theorem blocks_ne_nil {x : List ℝ} {len k : ℕ} (h : 0 < len) : blocks x len k ≠ [] := by
  intro hc
  have := blocks_length x len k
  rw [hc] at this
  simp at this; omega

/-! ### The simplex transform -/

theorem simplexMat_at {r c : ℕ} {x : List ℝ} {i j : ℕ} (hi : i < r) (hj : j < c) :
    (simplexMat r c x).at2 i j = Real.exp (augment ⟨[r, c - 1], x⟩ i j -
      Real.log (∑ k ∈ Finset.range c, Real.exp (augment ⟨[r, c - 1], x⟩ i k))) :=
  Arr.at2_ofFn2 _ _ _ hi hj

theorem unconstrain_simplexMat {r c : ℕ} {x : List ℝ} (hc : 0 < c) (hx : x.length = r * (c - 1)) :
    unconstrainSimplexMatrix (simplexMat r c x) = .ok ⟨[r, c - 1], x⟩ := by
  obtain ⟨c, rfl⟩ : ∃ c', c = c' + 1 := ⟨c - 1, by omega⟩
  have hs : (simplexMat r (c + 1) x).shape = [r, c + 1] := rfl
  unfold unconstrainSimplexMatrix
  rw [hs]
  simp only
  rw [if_pos]
  · congr 1
    symm
    simp only [Nat.add_sub_cancel] at hx ⊢
    apply Arr.ext2_ofFn2
    · simp [Arr.WF, hx]
    · rfl
    · intro i hi j hj
      rw [simplexMat_at hi (by omega), simplexMat_at hi (by omega), Real.log_exp, Real.log_exp]
      simp [augment]
  · intro i hi j hj
    rw [simplexMat_at hi hj]
    exact Real.exp_pos _

/-! ### The subspace transform -/

theorem tmatvec_matvec {dim free : ℕ} {B : Arr} {x : List ℝ} (hx : x.length = free)
    (hB : ∀ i < free, ∀ j < free, ∑ k ∈ Finset.range dim, B.at2 k i * B.at2 k j =
        if i = j then 1 else 0) :
    Leaf.tmatvec B dim free (Leaf.matvec B dim free x) = x := by
  unfold Leaf.tmatvec
  apply List.ext_getElem (by simp [hx])
  intro j h1 h2
  have hj : j < free := by simpa using h1
  rw [List.getElem_map, List.getElem_range]
  have hget : ∀ k ∈ Finset.range dim, (Leaf.matvec B dim free x).getD k 0 =
      ∑ l ∈ Finset.range free, B.at2 k l * x.getD l 0 := by
    intro k hk
    have hk : k < dim := by simpa using hk
    simp [Leaf.matvec, List.getD_eq_getElem?_getD, hk]
  rw [Finset.sum_congr rfl fun k hk => by rw [hget k hk, Finset.mul_sum]]
  rw [Finset.sum_comm]
  have : ∀ l ∈ Finset.range free, ∑ k ∈ Finset.range dim, B.at2 k j * (B.at2 k l * x.getD l 0) =
      if j = l then x.getD l 0 else 0 := by
    intro l hl
    rw [Finset.sum_congr rfl fun k _ => (mul_assoc _ _ _).symm, ← Finset.sum_mul,
      hB j hj l (by simpa using hl)]
    split_ifs <;> simp
  rw [Finset.sum_congr rfl this, Finset.sum_ite_eq]
  simp [hj, hx]

namespace Leaf

theorem getFree_freeVal (name : String) (k : Kind) (hk : k.Legal) (x : List ℝ)
    (hx : x.length = k.freeSize) (b : Bool) :
    (⟨name, k, freeVal k x, b⟩ : Leaf).getFree = .ok x := by
  cases k with
  | scalar lb ub =>
    simp only [Kind.freeSize] at hx
    match x, hx with
    | [a], _ =>
      have h1 := flt_le_of_lt (constrainFn_inside hk a).1
      have h2 := flt_le_of_lt (constrainFn_inside hk a).2
      simp [getFree, freeVal, Arr.vec, unconstrainScalar, h1, h2, unconstrain_constrainFn hk]
  | vector n lb ub => simp [getFree, freeVal, Arr.vec, unconstrainVec_constrainFn hk]
  | array s lb ub => simp [getFree, freeVal, unconstrainVec_constrainFn hk]
  | posdef n d => exact pack_unpackMat d hx
  | posdefVec len n d =>
    simp only [Kind.freeSize] at hx
    simp only [getFree]
    rw [if_neg (by simp [freeVal])]
    simp only [freeVal]
    rw [mapM_sub_vec (F := fun m => packPosdef m d) (G := id) (t := [n, n]) (g := fun y => unpackMat n y d)
      (blocks_length _ _ _) (fun y _ => unpackMat_shape n y d)
      (fun y hy => pack_unpackMat d (mem_blocks_length hx hy)), py_ok_bind]
    rw [List.map_id, hstack_ok (blocks_ne_nil hk.2), blocks_flatten hx]
  | posdefArr s n d =>
    simp only [Kind.freeSize] at hx
    simp only [getFree, freeVal]
    rw [mapM_sub_arr (F := fun m => packPosdef m d) (G := id) (t := [n, n]) (g := fun y => unpackMat n y d)
      (blocks_length _ _ _) (fun y _ => unpackMat_shape n y d)
      (fun y hy => pack_unpackMat d (mem_blocks_length hx hy)), py_ok_bind]
    rw [List.map_id, hstack_ok (blocks_ne_nil hk.2.2), blocks_flatten hx]
  | simplex r c =>
    simp only [Kind.freeSize] at hx
    simp [getFree, freeVal, unconstrain_simplexMat hk hx]
  | subspace dim free basis =>
    simp only [Kind.freeSize] at hx
    simp only [getFree]
    rw [if_pos (by simp [freeVal, Arr.vec, matvec])]
    exact congrArg Except.ok (tmatvec_matvec hx hk.2)

theorem getVector_freeVal (name : String) (k : Kind) (hk : k.Legal) (x : List ℝ)
    (hx : x.length = k.freeSize) (b : Bool) :
    (⟨name, k, freeVal k x, b⟩ : Leaf).getVector = .ok (ftv k x) := by
  cases k with
  | scalar lb ub =>
    simp only [Kind.freeSize] at hx
    simp [getVector, freeVal, ftv, Arr.vec, Arr.size, hx]
  | vector n lb ub => simp [getVector, freeVal, ftv, Arr.vec]
  | array s lb ub => simp [getVector, freeVal, ftv]
  | posdef n d => exact vectorizeLd_ok (unpackMat_shape n x d).1
  | posdefVec len n d =>
    simp only [Kind.freeSize] at hx
    simp only [getVector]
    rw [if_neg (by simp [freeVal])]
    simp only [freeVal, ftv]
    rw [mapM_sub_vec (F := vectorizeLd) (G := fun y => lowerVec n (unpackMat n y d)) (t := [n, n])
      (g := fun y => unpackMat n y d)
      (blocks_length _ _ _) (fun y _ => unpackMat_shape n y d)
      (fun y _ => vectorizeLd_ok (unpackMat_shape n y d).1), py_ok_bind]
    rw [hstack_ok (by simpa using blocks_ne_nil hk.2), List.flatMap_def]
  | posdefArr s n d =>
    simp only [Kind.freeSize] at hx
    simp only [getVector, freeVal, ftv]
    rw [mapM_sub_arr (F := vectorizeLd) (G := fun y => lowerVec n (unpackMat n y d)) (t := [n, n])
      (g := fun y => unpackMat n y d)
      (blocks_length _ _ _) (fun y _ => unpackMat_shape n y d)
      (fun y _ => vectorizeLd_ok (unpackMat_shape n y d).1), py_ok_bind]
    rw [hstack_ok (by simpa using blocks_ne_nil hk.2.2), List.flatMap_def]
  | simplex r c => simp [getVector, freeVal, ftv]
  | subspace dim free basis => simp [getVector, freeVal, ftv, Arr.vec]

theorem getVector_vectorVal (name : String) (k : Kind) (hk : k.Legal) (v : List ℝ)
    (hv : v.length = k.vecSize) (b : Bool) :
    (⟨name, k, vectorVal k v, b⟩ : Leaf).getVector = .ok v := by
  cases k with
  | scalar lb ub =>
    simp only [Kind.vecSize] at hv
    simp [getVector, vectorVal, Arr.vec, Arr.size, hv]
  | vector n lb ub => simp [getVector, vectorVal, Arr.vec]
  | array s lb ub => simp [getVector, vectorVal]
  | posdef n d => exact vectorize_symMat hv
  | posdefVec len n d =>
    simp only [Kind.vecSize] at hv
    simp only [getVector]
    rw [if_neg (by simp [vectorVal])]
    simp only [vectorVal]
    rw [mapM_sub_vec (F := vectorizeLd) (G := id) (t := [n, n]) (g := fun y => symMat n y)
      (blocks_length _ _ _) (fun y _ => symMat_shape n y)
      (fun y hy => vectorize_symMat (mem_blocks_length hv hy)), py_ok_bind]
    rw [List.map_id, hstack_ok (blocks_ne_nil hk.2), blocks_flatten hv]
  | posdefArr s n d =>
    simp only [Kind.vecSize] at hv
    simp only [getVector, vectorVal]
    rw [mapM_sub_arr (F := vectorizeLd) (G := id) (t := [n, n]) (g := fun y => symMat n y)
      (blocks_length _ _ _) (fun y _ => symMat_shape n y)
      (fun y hy => vectorize_symMat (mem_blocks_length hv hy)), py_ok_bind]
    rw [List.map_id, hstack_ok (blocks_ne_nil hk.2.2), blocks_flatten hv]
  | simplex r c => simp [getVector, vectorVal]
  | subspace dim free basis => simp [getVector, vectorVal, Arr.vec]

theorem freeToVector_ok (l : Leaf) (hk : l.kind.Legal) (x : List ℝ) (hx : x.length = l.freeSize) :
    l.freeToVector x = .ok ({ l with val := freeVal l.kind x, boxed := false }, ftv l.kind x) := by
  unfold freeToVector
  rw [setFree_ok l hk x hx, py_ok_bind]
  have := getVector_freeVal l.name l.kind hk x hx false
  split
  · rename_i lb ub hs
    simp [hs, freeVal, ftv, Arr.vec]
  · rw [this]; rfl

end Leaf

/-- Lengths of vector forms. -/
theorem ftv_length (k : Kind) (hk : k.Legal) (x : List ℝ) (hx : x.length = k.freeSize) :
    (ftv k x).length = k.vecSize := by
  cases k with
  | scalar lb ub => simpa [ftv, Kind.freeSize, Kind.vecSize] using hx
  | vector n lb ub => simpa [ftv, Kind.freeSize, Kind.vecSize] using hx
  | array s lb ub => simpa [ftv, Kind.freeSize, Kind.vecSize] using hx
  | posdef n d => simp [ftv, lowerVec, Kind.vecSize, vecSizeOf_eq]
  | posdefVec len n d =>
    simp only [ftv, List.flatMap_def, Kind.vecSize]
    rw [flatten_length_const _ (vecSizeOf n)]
    · simp [Nat.mul_comm]
    · intro b hb
      obtain ⟨y, _, rfl⟩ := List.mem_map.mp hb
      simp [lowerVec, vecSizeOf_eq]
  | posdefArr s n d =>
    simp only [ftv, List.flatMap_def, Kind.vecSize]
    rw [flatten_length_const _ (vecSizeOf n)]
    · simp [Nat.mul_comm]
    · intro b hb
      obtain ⟨y, _, rfl⟩ := List.mem_map.mp hb
      simp [lowerVec, vecSizeOf_eq]
  | simplex r c => simp [ftv, simplexMat, Kind.vecSize]
  | subspace dim free basis => simp [ftv, Leaf.matvec, Kind.vecSize]

end LRVB
