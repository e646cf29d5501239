import Verif.Spec.LegalVec
import Verif.Lemmas.Dict2
import Verif.Props.Simplex

/-! The vectors of legal values are what `free_to_vector` returns. -/

namespace LRVB

open Flt

theorem blocks_of_flatten (bl : List (List ℝ)) (k : ℕ) (h : ∀ y ∈ bl, y.length = k) :
    blocks bl.flatten bl.length k = bl := by
  induction bl with
  | nil => rfl
  | cons y rest ih =>
    have hy : y.length = k := h y (by simp)
    have e : blocks (y :: rest).flatten (rest.length + 1) k =
        (y :: rest).flatten.take k :: blocks ((y :: rest).flatten.drop k) rest.length k := by
      unfold blocks Leaf.slice
      rw [List.range_succ_eq_map, List.map_cons, List.map_map]
      simp only [Nat.mul_zero, List.drop_zero, List.cons.injEq, true_and]
      apply List.map_congr_left
      intro b _
      simp only [Function.comp, List.drop_drop]
      congr 2
      rw [Nat.succ_eq_add_one]; ring
    rw [List.length_cons, e, List.flatten_cons]
    subst hy
    rw [List.take_left, List.drop_left, ih fun y hy => h y (by simp [hy])]

/-- The blocks of what is put together block by block. -/
theorem blocks_flatMap {x : List ℝ} {len k m : ℕ} {g : List ℝ → List ℝ}
    (hg : ∀ y, y.length = k → (g y).length = m) (hx : x.length = k * len) :
    blocks ((blocks x len k).flatMap g) len m = (blocks x len k).map g := by
  have := blocks_of_flatten ((blocks x len k).map g) m fun y hy => by
    obtain ⟨z, hz, rfl⟩ := List.mem_map.mp hy
    exact hg z (mem_blocks_length hx hz)
  simpa [List.flatMap_def] using this

theorem symMat_of_lowerVec {n : ℕ} {m : Arr} (hm : IsMat m n n) (hs : m.transpose = m) :
    symMat n (lowerVec n m) = m := by
  have h1 := C17_symmetric_roundtrip n m hm hs
  rw [vectorizeLd_ok hm.2, py_ok_bind] at h1
  have h2 := unvectorizeSym_ok' (n := n) (x := lowerVec n m) (by simp [lowerVec, vecSizeOf_eq])
  have h3 := h2.symm.trans h1
  exact Except.ok.inj h3

theorem lowerVec_symMat {n : ℕ} {v : List ℝ} (h : v.length = vecSizeOf n) :
    lowerVec n (symMat n v) = v := by
  have h1 := vectorize_symMat h
  rw [vectorizeLd_ok (symMat_shape n v).1] at h1
  exact Except.ok.inj h1

theorem unpackMat_isMat (n : ℕ) (x : List ℝ) (d : ℝ) : IsMat (unpackMat n x d) n n :=
  ⟨Arr.ofFn2_WF _ _ _, rfl⟩

theorem symMat_unpackMat (n : ℕ) (x : List ℝ) (d : ℝ) :
    symMat n (lowerVec n (unpackMat n x d)) = unpackMat n x d :=
  symMat_of_lowerVec (unpackMat_isMat n x d) (unpackMat_symm n x d)

theorem legalTri_iff (n : ℕ) (d : ℝ) (v : List ℝ) :
    LegalTri n d v ↔ (asMatrix n (symMat n v) - d • 1).PosDef := by
  have : Matrix.of (fun i j : Fin n => v.getD (max i j * (max i j + 1) / 2 + min (i : ℕ) j) 0) =
      asMatrix n (symMat n v) := by
    ext i j
    simp only [asMatrix, symMat, Matrix.of_apply]
    rw [Arr.at2_ofFn2 _ _ _ i.2 j.2]
    congr 1
    unfold symIndex
    rcases le_total (j : ℕ) (i : ℕ) with h | h
    · rw [if_pos h]
      have h' : j ≤ i := h
      simp only [max_eq_left h', min_eq_right h]
      omega
    · have h' : i ≤ j := h
      by_cases h2 : (j : ℕ) ≤ i
      · have e : j = i := le_antisymm h2 h'
        subst e
        simp; omega
      · rw [if_neg h2]
        simp only [max_eq_right h', min_eq_left h]
        omega
  unfold LegalTri
  rw [this]

theorem legalTri_unpack {n : ℕ} {x : List ℝ} (d : ℝ) (hx : x.length = vecSizeOf n) :
    LegalTri n d (lowerVec n (unpackMat n x d)) := by
  rw [legalTri_iff, symMat_unpackMat]
  obtain ⟨m, h1, -, -, h2, -⟩ := C19_unpack_posdef n x d hx
  rw [unpackPosdef_ok' hx] at h1
  cases h1
  exact h2

theorem legalTri_exists {n : ℕ} {d : ℝ} {v : List ℝ} (hv : v.length = vecSizeOf n)
    (h : LegalTri n d v) : ∃ x : List ℝ, x.length = vecSizeOf n ∧ lowerVec n (unpackMat n x d) = v := by
  rw [legalTri_iff] at h
  obtain ⟨x, -, hx, h2⟩ := C20_unpack_pack n (symMat n v) d ⟨Arr.ofFn2_WF _ _ _, rfl⟩ h
  rw [unpackPosdef_ok' hx] at h2
  refine ⟨x, hx, ?_⟩
  rw [Except.ok.inj h2, lowerVec_symMat hv]

theorem legal_blocks {n len : ℕ} {d : ℝ} {v : List ℝ} (hv : v.length = vecSizeOf n * len) :
    (∀ b < len, LegalTri n d ((v.drop (n * (n + 1) / 2 * b)).take (n * (n + 1) / 2))) ↔
    ∃ x : List ℝ, x.length = vecSizeOf n * len ∧
      ((blocks x len (vecSizeOf n)).flatMap fun y => lowerVec n (unpackMat n y d)) = v := by
  constructor
  · intro h
    have h1 : ∀ b, ∃ x : List ℝ, b < len → x.length = vecSizeOf n ∧
        lowerVec n (unpackMat n x d) = Leaf.slice v (vecSizeOf n * b) (vecSizeOf n) := by
      intro b
      by_cases hb : b < len
      · obtain ⟨x, h2, h3⟩ := legalTri_exists (slice_length hv hb) (h b hb)
        exact ⟨x, fun _ => ⟨h2, h3⟩⟩
      · exact ⟨[], fun hc => absurd hc hb⟩
    choose X hX using h1
    have hlen : ∀ y ∈ (List.range len).map X, y.length = vecSizeOf n := by
      intro y hy
      obtain ⟨b, hb, rfl⟩ := List.mem_map.mp hy
      exact (hX b (by simpa using hb)).1
    have hb := blocks_of_flatten ((List.range len).map X) (vecSizeOf n) hlen
    rw [List.length_map, List.length_range] at hb
    refine ⟨((List.range len).map X).flatten, ?_, ?_⟩
    · rw [flatten_length_const _ (vecSizeOf n) hlen]
      simp [Nat.mul_comm]
    · rw [hb, List.flatMap_def, List.map_map]
      have : List.map ((fun y => lowerVec n (unpackMat n y d)) ∘ X) (List.range len) =
          blocks v len (vecSizeOf n) := by
        unfold blocks
        apply List.map_congr_left
        intro b hb
        exact (hX b (by simpa using hb)).2
      rw [this, blocks_flatten hv]
  · rintro ⟨x, hx, rfl⟩ b hb
    have h1 := blocks_flatMap (g := fun y => lowerVec n (unpackMat n y d)) (m := vecSizeOf n)
      (fun y _ => by simp [lowerVec, vecSizeOf_eq]) hx
    have h2 := congrArg (fun l => l[b]?) h1
    simp only [blocks, List.getElem?_map, List.getElem?_range hb, Option.map_some,
      Option.some.injEq] at h2
    change LegalTri n d (Leaf.slice _ (vecSizeOf n * b) (vecSizeOf n))
    have h3 := legalTri_unpack d (slice_length hx hb)
    rw [← h2] at h3
    exact h3

theorem legal_bounded {lb ub : Flt} (h : lb < ub) (v : List ℝ) :
    (∀ a ∈ v, lb < fin a ∧ fin a < ub) ↔
      ∃ x : List ℝ, x.length = v.length ∧ x.map (Leaf.constrainFn lb ub) = v := by
  constructor
  · intro hv
    induction v with
    | nil => exact ⟨[], rfl, rfl⟩
    | cons a v ih =>
      obtain ⟨x, hx, hxv⟩ := ih fun b hb => hv b (by simp [hb])
      have ha := hv a (by simp)
      obtain ⟨y, -, hy⟩ := constrain_unconstrain a ha.1 ha.2
      rw [constrainReal_eq h] at hy
      simp only [Except.ok.injEq, fin.injEq] at hy
      exact ⟨y :: x, by simp [hx], by simp [hy, hxv]⟩
  · rintro ⟨x, -, rfl⟩ a ha
    obtain ⟨y, -, rfl⟩ := List.mem_map.mp ha
    exact constrainFn_inside h y

theorem legal_simplex {r c : ℕ} (hc : 0 < c) {v : List ℝ} (hv : v.length = r * c) :
    (Kind.simplex r c).LegalVec v ↔
      ∃ x : List ℝ, x.length = r * (c - 1) ∧ (simplexMat r c x).data = v := by
  obtain ⟨c, rfl⟩ : ∃ c', c = c' + 1 := ⟨c - 1, by omega⟩
  have hm : IsMat (⟨[r, c + 1], v⟩ : Arr) r (c + 1) := ⟨by simp [Arr.WF, hv], rfl⟩
  simp only [Kind.LegalVec, Nat.add_sub_cancel]
  constructor
  · rintro ⟨h1, h2⟩
    have hat : ∀ i j, (⟨[r, c + 1], v⟩ : Arr).at2 i j = v.getD (i * (c + 1) + j) 0 := fun i j => rfl
    have hpos : ∀ i < r, ∀ j < c + 1, 0 < (⟨[r, c + 1], v⟩ : Arr).at2 i j := by
      intro i hi j hj
      rw [hat]
      have hl : i * (c + 1) + j < v.length := by rw [hv]; exact Arr.lt_mul_add hi hj
      rw [List.getD_eq_getElem?_getD, List.getElem?_eq_getElem hl]
      exact h1 _ (List.getElem_mem hl)
    have h3 := C26_constrain_unconstrain r c _ hm hpos h2
    cases hu : unconstrainSimplexMatrix (⟨[r, c + 1], v⟩ : Arr) with
    | error e => rw [hu] at h3; exact absurd h3 (by intro h; cases h)
    | ok f =>
      rw [hu, py_ok_bind] at h3
      have hf : f = Arr.ofFn2 r c fun i j => Real.log ((⟨[r, c + 1], v⟩ : Arr).at2 i (j + 1)) -
          Real.log ((⟨[r, c + 1], v⟩ : Arr).at2 i 0) := by
        unfold unconstrainSimplexMatrix at hu
        simp only at hu
        rw [if_pos hpos] at hu
        exact (Except.ok.inj hu).symm
      subst hf
      refine ⟨(Arr.ofFn2 r c fun i j => Real.log ((⟨[r, c + 1], v⟩ : Arr).at2 i (j + 1)) -
          Real.log ((⟨[r, c + 1], v⟩ : Arr).at2 i 0)).data, by simp, ?_⟩
      have h4 := constrainSimplexMatrix_ok (r := r) (c := c) (x := (Arr.ofFn2 r c fun i j =>
        Real.log ((⟨[r, c + 1], v⟩ : Arr).at2 i (j + 1)) -
          Real.log ((⟨[r, c + 1], v⟩ : Arr).at2 i 0)).data)
      have h5 := h4.symm.trans h3
      exact congrArg Arr.data (Except.ok.inj h5)
  · rintro ⟨x, hx, rfl⟩
    obtain ⟨m, h1, h2, h3, h4⟩ := C25_rows_on_simplex r c ⟨[r, c], x⟩ ⟨by simp [Arr.WF, hx], rfl⟩
    rw [constrainSimplexMatrix_ok] at h1
    cases h1
    refine ⟨fun a ha => ?_, h4⟩
    obtain ⟨i, hi, rfl⟩ := List.getElem_of_mem ha
    have hl : i < r * (c + 1) := by simpa [hv] using hi
    have := h3 (i / (c + 1)) (Nat.div_lt_of_lt_mul (by rw [Nat.mul_comm]; exact hl)) (i % (c + 1))
      (Nat.mod_lt _ (Nat.succ_pos c))
    have e : i / (c + 1) * (c + 1) + i % (c + 1) = i := Nat.div_add_mod' i (c + 1)
    have h5 : (simplexMat r (c + 1) x).at2 (i / (c + 1)) (i % (c + 1)) =
        (simplexMat r (c + 1) x).data.getD (i / (c + 1) * (c + 1) + i % (c + 1)) 0 := rfl
    rw [h5, e, List.getD_eq_getElem?_getD, List.getElem?_eq_getElem hi] at this
    exact this

theorem legal_subspace {dim free : ℕ} {B : Arr}
    (hB : ∀ i < free, ∀ j < free, ∑ k ∈ Finset.range dim, B.at2 k i * B.at2 k j =
        if i = j then 1 else 0) {v : List ℝ} (hv : v.length = dim) :
    (Kind.subspace dim free B).LegalVec v ↔
      ∃ x : List ℝ, x.length = free ∧ Leaf.matvec B dim free x = v := by
  simp only [Kind.LegalVec]
  have hget : ∀ (x : List ℝ) k, k < dim → (Leaf.matvec B dim free x).getD k 0 =
      ∑ j ∈ Finset.range free, B.at2 k j * x.getD j 0 := by
    intro x k hk
    simp [Leaf.matvec, List.getD_eq_getElem?_getD, List.getElem?_range hk]
  constructor
  · intro h
    refine ⟨Leaf.tmatvec B dim free v, by simp [Leaf.tmatvec], ?_⟩
    set x := Leaf.tmatvec B dim free v with hxd
    have hxl : x.length = free := by simp [hxd, Leaf.tmatvec]
    have htm := tmatvec_matvec (x := x) hxl hB
    set w := Leaf.matvec B dim free x with hw
    have hcol : ∀ j < free, ∑ k ∈ Finset.range dim, (v.getD k 0 - w.getD k 0) * B.at2 k j = 0 := by
      intro j hj
      have h1 : ∀ y : List ℝ, (Leaf.tmatvec B dim free y).getD j 0 =
          ∑ k ∈ Finset.range dim, B.at2 k j * y.getD k 0 := by
        intro y
        simp [Leaf.tmatvec, List.getD_eq_getElem?_getD, List.getElem?_range hj]
      have h2 := h1 v
      have h3 := h1 w
      rw [htm] at h3
      rw [← hxd] at h2
      have : ∑ k ∈ Finset.range dim, (v.getD k 0 - w.getD k 0) * B.at2 k j =
          ∑ k ∈ Finset.range dim, B.at2 k j * v.getD k 0 -
            ∑ k ∈ Finset.range dim, B.at2 k j * w.getD k 0 := by
        rw [← Finset.sum_sub_distrib]
        exact Finset.sum_congr rfl fun k _ => by ring
      rw [this, ← h2, ← h3, sub_self]
    have hv0 := h (fun k => v.getD k 0 - w.getD k 0) hcol
    have hw0 : ∑ k ∈ Finset.range dim, (v.getD k 0 - w.getD k 0) * w.getD k 0 = 0 := by
      have : ∀ k ∈ Finset.range dim, (v.getD k 0 - w.getD k 0) * w.getD k 0 =
          ∑ j ∈ Finset.range free, (v.getD k 0 - w.getD k 0) * B.at2 k j * x.getD j 0 := by
        intro k hk
        have e := hget x k (Finset.mem_range.mp hk)
        rw [← hw] at e
        generalize v.getD k 0 - w.getD k 0 = t
        rw [e, Finset.mul_sum]
        exact Finset.sum_congr rfl fun j _ => by ring
      rw [Finset.sum_congr rfl this, Finset.sum_comm]
      apply Finset.sum_eq_zero
      intro j hj
      rw [← Finset.sum_mul, hcol j (Finset.mem_range.mp hj), zero_mul]
    have hsq : ∑ k ∈ Finset.range dim, (v.getD k 0 - w.getD k 0) ^ 2 = 0 := by
      have : ∑ k ∈ Finset.range dim, (v.getD k 0 - w.getD k 0) ^ 2 =
          ∑ k ∈ Finset.range dim, (v.getD k 0 - w.getD k 0) * v.getD k 0 -
            ∑ k ∈ Finset.range dim, (v.getD k 0 - w.getD k 0) * w.getD k 0 := by
        rw [← Finset.sum_sub_distrib]
        exact Finset.sum_congr rfl fun k _ => by ring
      rw [this, hw0, sub_zero]; exact hv0
    rw [Finset.sum_eq_zero_iff_of_nonneg fun k _ => sq_nonneg _] at hsq
    apply List.ext_getElem
    · rw [hv]; simp [hw, Leaf.matvec]
    · intro k h1 h2
      have := hsq k (Finset.mem_range.mpr (by omega))
      have h3 : v.getD k 0 = w.getD k 0 := by
        have := pow_eq_zero_iff (two_ne_zero) |>.mp this
        linarith
      rw [List.getD_eq_getElem?_getD, List.getD_eq_getElem?_getD, List.getElem?_eq_getElem h1,
        List.getElem?_eq_getElem h2] at h3
      exact h3.symm
  · rintro ⟨x, hx, rfl⟩ u hu
    have : ∀ k ∈ Finset.range dim, u k * (Leaf.matvec B dim free x).getD k 0 =
        ∑ j ∈ Finset.range free, u k * B.at2 k j * x.getD j 0 := by
      intro k hk
      rw [hget x k (Finset.mem_range.mp hk), Finset.mul_sum]
      exact Finset.sum_congr rfl fun j _ => by ring
    rw [Finset.sum_congr rfl this, Finset.sum_comm]
    apply Finset.sum_eq_zero
    intro j hj
    rw [← Finset.sum_mul, hu j (Finset.mem_range.mp hj), zero_mul]

theorem legal_ftv (k : Kind) (hk : k.Legal) (v : List ℝ) (hv : v.length = k.vecSize) :
    k.LegalVec v ↔ ∃ x : List ℝ, x.length = k.freeSize ∧ ftv k x = v := by
  cases k with
  | scalar lb ub => have := legal_bounded hk v; rw [hv] at this; exact this
  | vector n lb ub => have := legal_bounded hk v; rw [hv] at this; exact this
  | array s lb ub => have := legal_bounded hk v; rw [hv] at this; exact this
  | posdef n d =>
    constructor
    · exact fun h => legalTri_exists hv h
    · rintro ⟨x, hx, rfl⟩; exact legalTri_unpack d hx
  | posdefVec len n d => exact legal_blocks hv
  | posdefArr s n d => exact legal_blocks hv
  | simplex r c => exact legal_simplex hk hv
  | subspace dim free basis => exact legal_subspace hk.2 hv

/-- Setting the vector of a free vector stores the same value as setting the free vector. -/
theorem vectorVal_ftv (k : Kind) (x : List ℝ) (hx : x.length = k.freeSize) :
    vectorVal k (ftv k x) = freeVal k x := by
  cases k with
  | scalar lb ub => rfl
  | vector n lb ub => rfl
  | array s lb ub => rfl
  | posdef n d => exact symMat_unpackMat n x d
  | posdefVec len n d =>
    simp only [vectorVal, ftv, freeVal]
    rw [blocks_flatMap (fun y _ => by simp [lowerVec, vecSizeOf_eq]) hx, List.flatMap_map]
    simp only [symMat_unpackMat]
  | posdefArr s n d =>
    simp only [vectorVal, ftv, freeVal]
    rw [blocks_flatMap (fun y _ => by simp [lowerVec, vecSizeOf_eq]) hx, List.flatMap_map]
    simp only [symMat_unpackMat]
  | simplex r c => rfl
  | subspace dim free basis => rfl

mutual
theorem Param.legal_ftvP : ∀ (p : Param), p.WF → ∀ (v : List ℝ), v.length = p.vecSize →
    (p.LegalVec v ↔ ∃ x : List ℝ, x.length = p.freeSize ∧ p.ftvP x = v)
  | .leaf l, hw, v, hv => legal_ftv l.kind hw v hv
  | .dict h es, hw, v, hv => by
    simp only [Param.WF] at hw
    simp only [Param.freeSize, Param.vecSize] at hv ⊢
    rw [hw.2.2.2.1] at hv
    rw [hw.2.2.1]
    exact Entries.legal_ftvE es hw.1 v hv
theorem Entries.legal_ftvE : ∀ (es : Entries), es.WF → ∀ (v : List ℝ), v.length = es.vsum →
    (es.LegalVec v ↔ ∃ x : List ℝ, x.length = es.fsum ∧ es.ftvE x = v)
  | .nil, _, v, hv => by
    simp only [Entries.vsum, List.length_eq_zero_iff] at hv
    subst hv
    simp only [Entries.LegalVec, true_iff]
    exact ⟨[], rfl, rfl⟩
  | .cons k p rest, hw, v, hv => by
    simp only [Entries.WF] at hw
    simp only [Entries.vsum] at hv
    simp only [Entries.LegalVec, Entries.fsum]
    rw [Param.legal_ftvP p hw.1 _ (by simp; omega),
      Entries.legal_ftvE rest hw.2.2 _ (by simp; omega)]
    constructor
    · rintro ⟨⟨x, hx, h1⟩, ⟨y, hy, h2⟩⟩
      refine ⟨x ++ y, by simp [hx, hy], ?_⟩
      simp only [Entries.ftvE]
      rw [← hx, List.take_left, List.drop_left, h1, h2, List.take_append_drop]
    · rintro ⟨x, hx, rfl⟩
      have hl := Param.ftvP_length p hw.1 (x.take p.freeSize) (by simp; omega)
      simp only [Entries.ftvE]
      rw [← hl, List.take_left, List.drop_left]
      exact ⟨⟨_, by simp; omega, rfl⟩, ⟨_, by simp; omega, rfl⟩⟩
end

mutual
theorem Param.vecP_ftvP : ∀ (p : Param), p.WF → ∀ (x : List ℝ), x.length = p.freeSize →
    p.vecP (p.ftvP x) = p.freeP x
  | .leaf l, hw, x, hx => by
    simp only [Param.vecP, Param.freeP, Param.ftvP]
    rw [vectorVal_ftv l.kind x hx]
  | .dict h es, hw, x, hx => by
    simp only [Param.WF] at hw
    simp only [Param.freeSize] at hx
    rw [hw.2.2.1] at hx
    simp only [Param.vecP, Param.freeP, Param.ftvP]
    rw [Entries.vecE_ftvE es hw.1 x hx]
theorem Entries.vecE_ftvE : ∀ (es : Entries), es.WF → ∀ (x : List ℝ), x.length = es.fsum →
    es.vecE (es.ftvE x) = es.freeE x
  | .nil, _, _, _ => rfl
  | .cons k p rest, hw, x, hx => by
    simp only [Entries.WF] at hw
    simp only [Entries.fsum] at hx
    have hl := Param.ftvP_length p hw.1 (x.take p.freeSize) (by simp; omega)
    simp only [Entries.ftvE, Entries.vecE, Entries.freeE]
    rw [← hl, List.take_left, List.drop_left, Param.vecP_ftvP p hw.1 _ (by simp; omega),
      Entries.vecE_ftvE rest hw.2.2 _ (by simp; omega)]
end

end LRVB
