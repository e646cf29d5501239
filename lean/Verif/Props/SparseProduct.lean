import Verif.Model.SparseProduct
import Verif.Props.SparsePrecond

/-!
# C143: products of sparse matrices, and `compress`
-/

namespace LRVB

open Classical

/-! ### The loop of `csr_matmat` -/

namespace Csr

/-- The sum of the values of column `j`. -/
def colSum (l : List (ℕ × ℝ)) (j : ℕ) : ℝ := (l.map fun e => if e.1 = j then e.2 else 0).sum

theorem colSum_append (l l' : List (ℕ × ℝ)) (j : ℕ) : colSum (l ++ l') j = colSum l j + colSum l' j := by
  simp [colSum]

theorem colSum_flatMap {α : Type} (l : List α) (f : α → List (ℕ × ℝ)) (j : ℕ) :
    colSum (l.flatMap f) j = (l.map fun a => colSum (f a) j).sum := by
  induction l with
  | nil => simp [colSum]
  | cons a t ih => rw [List.flatMap_cons, colSum_append, ih]; simp

theorem toDense_eq_colSum (m : Csr) (i j : ℕ) : m.toDense i j = colSum (m.rowEntries i) j := by
  unfold colSum rowEntries
  rw [List.map_map, toDense, ← sum_rowRange]
  rfl

theorem rowEntries_lt {m : Csr} (h : m.Readable) {i : ℕ} (hi : i < m.nr) {e : ℕ × ℝ} (he : e ∈ m.rowEntries i) :
    e.1 < m.nc := by
  obtain ⟨k, hk, rfl⟩ := List.mem_map.mp he
  exact (h i hi k hk).2.2

theorem accumulate_facts (l : List (ℕ × ℝ)) (s : (ℕ → ℝ) × List ℕ) (hn : s.2.Nodup)
    (h0 : ∀ k, k ∉ s.2 → s.1 k = 0) :
    (accumulate l s).2.Nodup ∧ (∀ k, (accumulate l s).1 k = s.1 k + colSum l k) ∧
      (∀ k, k ∈ (accumulate l s).2 → k ∈ s.2 ∨ ∃ e ∈ l, e.1 = k) ∧
      ∀ k, k ∉ (accumulate l s).2 → (accumulate l s).1 k = 0 := by
  induction l generalizing s with
  | nil => exact ⟨hn, fun k => by simp [accumulate, colSum], fun k hk => .inl hk, h0⟩
  | cons e es ih =>
    rw [accumulate]
    obtain ⟨h1, h2, h3, h4⟩ := ih
      (Function.update s.1 e.1 (s.1 e.1 + e.2), if e.1 ∈ s.2 then s.2 else e.1 :: s.2) (by
        dsimp only
        split
        · exact hn
        · rename_i h; exact List.nodup_cons.mpr ⟨h, hn⟩) (by
        intro k hk
        dsimp only at hk ⊢
        have hne : k ≠ e.1 := by
          rintro rfl
          split at hk <;> simp_all
        rw [Function.update_of_ne hne]
        refine h0 k fun hc => hk ?_
        split
        · exact hc
        · exact List.mem_cons_of_mem _ hc)
    refine ⟨h1, fun k => ?_, fun k hk => ?_, h4⟩
    · rw [h2]
      by_cases hk : k = e.1
      · subst hk
        simp [colSum, add_assoc]
      · simp [colSum, Function.update_of_ne hk, Ne.symm hk]
    · rcases h3 k hk with h | ⟨f, hf, rfl⟩
      · dsimp only at h
        split at h
        · exact .inl h
        · rcases List.mem_cons.mp h with rfl | h
          · exact .inr ⟨e, by simp, rfl⟩
          · exact .inl h
      · exact .inr ⟨f, by simp [hf], rfl⟩

theorem colSum_nodup (o : List ℕ) (f : ℕ → ℝ) (p : ℕ × ℝ → Bool) (hn : o.Nodup) (h0 : ∀ k, k ∉ o → f k = 0)
    (hp : ∀ k, p (k, f k) = false → f k = 0) (j : ℕ) :
    colSum ((o.map fun k => (k, f k)).filter p) j = f j := by
  have key : ∀ o : List ℕ, o.Nodup →
      colSum ((o.map fun k => (k, f k)).filter p) j = if j ∈ o then f j else 0 := by
    intro o ho
    induction o with
    | nil => simp [colSum]
    | cons a t ih =>
      obtain ⟨h1, h2⟩ := List.nodup_cons.mp ho
      have ih := ih h2
      rw [List.map_cons]
      by_cases hpa : p (a, f a) = true
      · rw [List.filter_cons_of_pos hpa, show ∀ x (l : List (ℕ × ℝ)), x :: l = [x] ++ l from fun _ _ => rfl,
          colSum_append, ih]
        by_cases hj : j = a
        · subst hj; simp [colSum, h1]
        · simp [colSum, hj, Ne.symm hj]
      · rw [List.filter_cons_of_neg hpa, ih]
        by_cases hj : j = a
        · subst hj
          simp [h1, hp j (by simpa using hpa)]
        · simp [hj]
  rw [key o hn]
  split
  · rfl
  · rename_i h; exact (h0 j h).symm

theorem colSum_map_mul (l : List (ℕ × ℝ)) (c : ℝ) (j : ℕ) :
    colSum (l.map fun f => (f.1, c * f.2)) j = c * colSum l j := by
  induction l with
  | nil => simp [colSum]
  | cons a t ih =>
    simp only [colSum, List.map_cons, List.sum_cons, mul_add] at ih ⊢
    rw [ih]
    split <;> simp

/-- A sum over the stored entries of a row is a sum over its columns. -/
theorem sum_rowEntries {m : Csr} (h : m.Readable) {i : ℕ} (hi : i < m.nr) (g : ℕ → ℝ) :
    ((m.rowEntries i).map fun e => e.2 * g e.1).sum = ∑ j ∈ Finset.range m.nc, m.toDense i j * g j := by
  simp only [toDense_eq_colSum]
  have := fun e he => rowEntries_lt h hi (e := e) he
  revert this
  generalize m.rowEntries i = l
  intro hl
  induction l with
  | nil => simp [colSum]
  | cons a t ih =>
    rw [List.map_cons, List.sum_cons, ih fun e he => hl e (by simp [he])]
    simp only [colSum, List.map_cons, List.sum_cons, add_mul, Finset.sum_add_distrib, ite_mul, zero_mul]
    rw [Finset.sum_ite_eq, if_pos (Finset.mem_range.mpr (hl a (by simp)))]

theorem matmat_readable (dz : Bool) {a b : Csr} (ha : a.Readable) (hb : b.Readable) (hd : a.nc = b.nr) :
    (a.matmat dz b).Readable := by
  refine ofRows_readable _ _ _ fun i hi e he => ?_
  obtain ⟨k, hk, rfl⟩ := List.mem_map.mp (List.mem_filter.mp he).1
  rcases (accumulate_facts _ (fun _ => 0, []) (by simp) (by simp)).2.2.1 k hk with h | ⟨f, hf, rfl⟩
  · simp at h
  · obtain ⟨e', he', hf⟩ := List.mem_flatMap.mp hf
    obtain ⟨g, hg, rfl⟩ := List.mem_map.mp hf
    exact rowEntries_lt (e := g) hb (hd ▸ rowEntries_lt ha hi he') hg

theorem matmat_toDense (dz : Bool) {a b : Csr} (ha : a.Readable) {i : ℕ} (hi : i < a.nr) (k : ℕ) :
    (a.matmat dz b).toDense i k = ∑ j ∈ Finset.range a.nc, a.toDense i j * b.toDense j k := by
  unfold matmat
  rw [toDense_ofRows _ _ _ hi]
  obtain ⟨h1, h2, _, h4⟩ := accumulate_facts
    ((a.rowEntries i).flatMap fun e => (b.rowEntries e.1).map fun f => (f.1, e.2 * f.2)) (fun _ => 0, [])
    (by simp) (by simp)
  refine (colSum_nodup _ _ _ h1 h4 ?_ k).trans ?_
  · intro j hj
    cases dz <;> simp_all
  · rw [h2, zero_add, colSum_flatMap]
    simp only [colSum_map_mul]
    rw [← sum_rowEntries ha hi fun j => b.toDense j k]
    simp only [toDense_eq_colSum]

theorem byColumns_readable (m : Csr) : m.byColumns.Readable := by
  refine ofRows_readable _ _ _ fun j _ e he => ?_
  obtain ⟨i, hi, he⟩ := List.mem_flatMap.mp he
  obtain ⟨f, _, rfl⟩ := List.mem_map.mp he
  exact List.mem_range.mp hi

theorem byColumns_toDense (m : Csr) {i j : ℕ} (hi : i < m.nr) (hj : j < m.nc) :
    m.byColumns.toDense j i = m.toDense i j := by
  unfold byColumns
  rw [toDense_ofRows _ _ _ hj]
  change colSum _ i = _
  rw [colSum_flatMap, sum_list_range]
  have key : ∀ i' : ℕ, colSum (((m.rowEntries i').filter fun e => decide (e.1 = j)).map fun e => (i', e.2)) i =
      if i' = i then m.toDense i j else 0 := by
    intro i'
    by_cases h : i' = i
    · subst h
      rw [if_pos rfl, toDense_eq_colSum]
      generalize m.rowEntries i' = l
      induction l with
      | nil => rfl
      | cons a t ih =>
        by_cases ha : a.1 = j
        · rw [List.filter_cons_of_pos (by simpa using ha), List.map_cons]
          simp only [colSum, List.map_cons, List.sum_cons] at ih ⊢
          rw [ih]; simp [ha]
        · rw [List.filter_cons_of_neg (by simpa using ha), ih]
          simp [colSum, ha]
    · rw [if_neg h]
      unfold colSum
      refine List.sum_eq_zero fun x hx => ?_
      obtain ⟨e, he, rfl⟩ := List.mem_map.mp hx
      obtain ⟨f, _, rfl⟩ := List.mem_map.mp he
      simp [h]
  simp only [key]
  rw [Finset.sum_ite_eq', if_pos (Finset.mem_range.mpr hi)]

end Csr

/-! ### C143 -/

open Csr in
theorem sparseSparse_eq (dz : Bool) (P Q : Mat) (hP : P.Valid) (hQ : Q.Valid) (sP : P.isSparse = true)
    (sQ : Q.isSparse = true) :
    (∀ M, P.sparseSparse dz Q = .ok M → M.Valid ∧ M.isSparse = true) ∧
    (P.sparseSparse dz Q).map Mat.toArr = P.toArr.matmul Q.toArr := by
  have mm : ∀ (r c c' d : ℕ) (f g : ℕ → ℕ → ℝ), (Arr.ofFn2 r c f).matmul (Arr.ofFn2 c' d g) =
      if c = c' then .ok (Arr.ofFn2 r d fun i k => ∑ j ∈ Finset.range c,
        (Arr.ofFn2 r c f).at2 i j * (Arr.ofFn2 c' d g).at2 j k) else .error .valueError := fun _ _ _ _ _ _ => rfl
  have at2s : ∀ {r c c' d : ℕ} (f g : ℕ → ℕ → ℝ) {i k : ℕ}, c = c' → i < r → k < d →
      ∑ j ∈ Finset.range c, (Arr.ofFn2 r c f).at2 i j * (Arr.ofFn2 c' d g).at2 j k =
      ∑ j ∈ Finset.range c, f i j * g j k := by
    rintro r c _ d f g i k rfl hi hk
    refine Finset.sum_congr rfl fun j hj => ?_
    have hj := Finset.mem_range.mp hj
    rw [Arr.at2_ofFn2 _ _ _ hi hj, Arr.at2_ofFn2 _ _ _ hj hk]
  cases P with
  | dense a => simp [Mat.isSparse] at sP
  | csr a =>
    have ha : a.Readable := hP
    cases Q with
    | dense b => simp [Mat.isSparse] at sQ
    | csr b =>
      have hb : b.Readable := hQ
      simp only [Mat.sparseSparse, Mat.toArr, mm]
      by_cases hd : a.nc = b.nr
      · rw [if_neg (not_not.mpr hd), if_pos ⟨ha, hb⟩, if_pos hd]
        refine ⟨?_, ?_⟩
        · rintro _ ⟨⟩; exact ⟨matmat_readable dz ha hb hd, rfl⟩
        · refine congrArg Except.ok (Arr.ofFn2_congr fun i hi k hk => ?_)
          have hi' : i < a.nr := hi
          have hk' : k < b.nc := hk
          rw [at2s _ _ hd hi' hk']
          exact matmat_toDense dz ha hi k
      · rw [if_pos hd, if_neg hd]
        exact ⟨by rintro _ ⟨⟩, rfl⟩
    | csc b =>
      have hb : b.Readable := hQ
      simp only [Mat.sparseSparse, Mat.toArr, mm]
      by_cases hd : a.nc = b.nc
      · rw [if_neg (not_not.mpr hd), if_pos ⟨ha, hb⟩, if_pos hd]
        refine ⟨?_, ?_⟩
        · rintro _ ⟨⟩; exact ⟨matmat_readable dz ha (byColumns_readable b) hd, rfl⟩
        · refine congrArg Except.ok (Arr.ofFn2_congr fun i hi k hk => ?_)
          have hi' : i < a.nr := hi
          have hk' : k < b.nr := hk
          rw [at2s _ _ hd hi' hk']
          refine (matmat_toDense dz ha hi k).trans (Finset.sum_congr rfl fun j hj => ?_)
          rw [byColumns_toDense b hk (hd ▸ Finset.mem_range.mp hj)]
      · rw [if_pos hd, if_neg hd]
        exact ⟨by rintro _ ⟨⟩, rfl⟩
  | csc a =>
    have ha : a.Readable := hP
    cases Q with
    | dense b => simp [Mat.isSparse] at sQ
    | csr b =>
      have hb : b.Readable := hQ
      simp only [Mat.sparseSparse, Mat.toArr, mm]
      by_cases hd : a.nr = b.nr
      · rw [if_neg (not_not.mpr hd), if_pos ⟨ha, hb⟩, if_pos hd]
        refine ⟨?_, ?_⟩
        · rintro _ ⟨⟩; exact ⟨matmat_readable dz (byColumns_readable b) ha hd.symm, rfl⟩
        · refine congrArg Except.ok (Arr.ofFn2_congr fun i hi k hk => ?_)
          have hi' : i < a.nc := hi
          have hk' : k < b.nc := hk
          rw [at2s _ _ hd hi' hk']
          refine (matmat_toDense dz (byColumns_readable b) hk i).trans ?_
          change ∑ j ∈ Finset.range b.nr, _ = _
          rw [← hd]
          refine Finset.sum_congr rfl fun j hj => ?_
          rw [byColumns_toDense b (hd ▸ Finset.mem_range.mp hj) hk, mul_comm]
      · rw [if_pos hd, if_neg hd]
        exact ⟨by rintro _ ⟨⟩, rfl⟩
    | csc b =>
      have hb : b.Readable := hQ
      simp only [Mat.sparseSparse, Mat.toArr, mm]
      by_cases hd : a.nr = b.nc
      · rw [if_neg (not_not.mpr hd), if_pos ⟨ha, hb⟩, if_pos hd]
        refine ⟨?_, ?_⟩
        · rintro _ ⟨⟩; exact ⟨matmat_readable dz hb ha hd.symm, rfl⟩
        · refine congrArg Except.ok (Arr.ofFn2_congr fun i hi k hk => ?_)
          have hi' : i < a.nc := hi
          have hk' : k < b.nr := hk
          rw [at2s _ _ hd hi' hk']
          refine (matmat_toDense dz hb hk i).trans ?_
          rw [← hd]
          exact Finset.sum_congr rfl fun j _ => mul_comm _ _
      · rw [if_pos hd, if_neg hd]
        exact ⟨by rintro _ ⟨⟩, rfl⟩

/-- **C143** (products) For matrices in any two formats, `safe_matmul` returns the product of the dense matrices,
and raises where `np.matmul` raises; a product of sparse matrices is sparse, and can be multiplied again. -/
theorem C143_safe_matmul (dz : Bool) (P Q : Mat) (hP : P.Valid) (hQ : Q.Valid) :
    (P.safeProduct dz Q).map Mat.toArr = P.toArr.matmul Q.toArr ∧
    ∀ M, P.safeProduct dz Q = .ok M → M.Valid ∧ (M.isSparse = true ↔ P.isSparse = true ∧ Q.isSparse = true) := by
  unfold Mat.safeProduct
  by_cases hs : P.isSparse = true ∧ Q.isSparse = true
  · obtain ⟨h1, h2⟩ := sparseSparse_eq dz P Q hP hQ hs.1 hs.2
    rw [if_pos hs]
    exact ⟨h2, fun M hM => ⟨(h1 M hM).1, fun _ => hs, fun _ => (h1 M hM).2⟩⟩
  · rw [if_neg hs]
    have e : P.safeMatmul Q = P.toArr.matmul Q.toArr := by
      cases P with
      | dense a => exact safeMatmul_left Q hQ a
      | csr m =>
        cases Q with
        | dense b => exact safeMatmul_right _ hP b
        | csr _ => exact absurd ⟨rfl, rfl⟩ hs
        | csc _ => exact absurd ⟨rfl, rfl⟩ hs
      | csc m =>
        cases Q with
        | dense b => exact safeMatmul_right _ hP b
        | csr _ => exact absurd ⟨rfl, rfl⟩ hs
        | csc _ => exact absurd ⟨rfl, rfl⟩ hs
    rw [e]
    cases hm : P.toArr.matmul Q.toArr with
    | error x => exact ⟨rfl, by rintro _ ⟨⟩⟩
    | ok c =>
      refine ⟨rfl, ?_⟩
      rintro _ ⟨⟩
      refine ⟨?_, ⟨fun h => by simp [Mat.isSparse] at h, fun h => absurd h hs⟩⟩
      obtain ⟨r, k, h1⟩ := P.toArr_shape hP
      obtain ⟨k', d, h2⟩ := Q.toArr_shape hQ
      unfold Arr.matmul at hm
      rw [h1.2, h2.2] at hm
      simp only at hm
      split at hm
      · cases hm
        exact ⟨_, _, Arr.ofFn2_WF _ _ _, rfl⟩
      · cases hm

/-- **C143** (chains) Products of any number of matrices, in any formats, from the left to the right: as with dense
matrices. -/
theorem C143_chain (dz : Bool) (P : Mat) (Qs : List Mat) (hP : P.Valid) (hQ : ∀ Q ∈ Qs, Q.Valid) :
    (Qs.foldlM (fun (M Q : Mat) => M.safeProduct dz Q) P).map Mat.toArr =
      (Qs.map Mat.toArr).foldlM (fun (a b : Arr) => a.matmul b) P.toArr := by
  induction Qs generalizing P with
  | nil => rfl
  | cons Q t ih =>
    rw [List.map_cons, List.foldlM_cons, List.foldlM_cons]
    obtain ⟨h1, h2⟩ := C143_safe_matmul dz P Q hP (hQ Q (by simp))
    rw [← h1]
    cases hm : P.safeProduct dz Q with
    | error e => rfl
    | ok M => exact ih M (h2 M hm).1 fun Q' h' => hQ Q' (by simp [h'])

/-- **C143** (`compress`) The format does not matter, no axis of length one is left, the entries stay as they are,
and a matrix with one column or one row becomes the 1-d array of its entries. -/
theorem C143_compress (P : Mat) (h : P.Valid) :
    compress P = compress (.dense P.toArr) ∧ (compress P).WF ∧ 1 ∉ (compress P).shape ∧
    (compress P).data = P.toArr.data ∧
    (∀ n, n ≠ 1 → P.shape = [n, 1] → (compress P).shape = [n] ∧
      ∀ i < n, (compress P).data.getD i 0 = P.toArr.at2 i 0) ∧
    (∀ n, n ≠ 1 → P.shape = [1, n] → (compress P).shape = [n] ∧
      ∀ i < n, (compress P).data.getD i 0 = P.toArr.at2 0 i) ∧
    (P.shape = [1, 1] → (compress P).shape = []) ∧
    ∀ r c, r ≠ 1 → c ≠ 1 → P.shape = [r, c] → compress P = P.toArr := by
  have e : compress P = P.toArr.squeeze := by
    unfold compress
    cases P <;> simp [Mat.isSparse, Mat.toArr]
  have e' : compress (.dense P.toArr) = P.toArr.squeeze := by simp [compress, Mat.isSparse]
  have hsh : P.shape = P.toArr.shape := by cases P <;> rfl
  obtain ⟨r, c, hw, hs⟩ := P.toArr_shape h
  rw [e, e', hsh]
  generalize P.toArr = a at hw hs ⊢
  refine ⟨rfl, ?_, by simp [Arr.squeeze], rfl, ?_, ?_, ?_, ?_⟩
  · unfold Arr.WF Arr.squeeze
    have hw : a.data.length = a.shape.prod := hw
    rw [hs] at hw ⊢
    simp only [hw]
    by_cases hr : r = 1 <;> by_cases hc : c = 1 <;> simp [hr, hc]
  · intro n hn hs
    simp [Arr.squeeze, Arr.at2, hs, hn]
  · intro n hn hs
    simp [Arr.squeeze, Arr.at2, hs, hn]
  · intro hs
    simp [Arr.squeeze, hs]
  · intro r c hr hc hs
    cases a
    simp_all [Arr.squeeze]

/-- Two sparse matrices in different formats whose product has an entry that adds to zero: `(1, 1) (2, -2)ᵀ = 0`. -/
example : ∃ P Q : Mat, P.Valid ∧ Q.Valid ∧ P.isSparse = true ∧ Q.isSparse = true ∧ P.shape = [1, 2] ∧
    Q.shape = [2, 1] ∧ P.toArr.at2 0 0 = 1 ∧ Q.toArr.at2 1 0 = -2 ∧
    ∀ dz, (P.safeProduct dz Q).map Mat.toArr = .ok ⟨[1, 1], [0]⟩ := by
  let P : Mat := .csr (Csr.ofRows 1 2 fun _ => [(0, 1), (1, 1)])
  let Q : Mat := .csc (Csr.ofRows 1 2 fun _ => [(0, 2), (1, -2)])
  have hP : P.Valid := Csr.ofRows_readable _ _ _ (by
    intro i _ e he
    simp at he
    rcases he with rfl | rfl <;> simp)
  have hQ : Q.Valid := Csr.ofRows_readable _ _ _ (by
    intro i _ e he
    simp at he
    rcases he with rfl | rfl <;> simp)
  have h1 : P.toArr = ⟨[1, 2], [1, 1]⟩ := by
    refine (Arr.ext2_ofFn2 (a := ⟨[1, 2], [1, 1]⟩) (by simp [Arr.WF]) rfl fun i hi j hj => ?_).symm
    rw [Csr.toDense_ofRows _ _ _ hi]
    have : i < 1 := hi
    have : j < 2 := hj
    interval_cases i
    interval_cases j <;> simp [Arr.at2]
  have h2 : Q.toArr = ⟨[2, 1], [2, -2]⟩ := by
    refine (Arr.ext2_ofFn2 (a := ⟨[2, 1], [2, -2]⟩) (by simp [Arr.WF]) rfl fun i hi j hj => ?_).symm
    rw [Csr.toDense_ofRows _ _ _ hj]
    have : i < 2 := hi
    have : j < 1 := hj
    interval_cases j
    interval_cases i <;> simp [Arr.at2]
  refine ⟨P, Q, hP, hQ, rfl, rfl, rfl, rfl, ?_, ?_, fun dz => ?_⟩
  · rw [h1]; simp [Arr.at2]
  · rw [h2]; simp [Arr.at2]
  · rw [(C143_safe_matmul dz P Q hP hQ).1, h1, h2]
    simp [Arr.matmul, Arr.ofFn2, Arr.at2, Finset.sum_range_succ]

end LRVB
