import Verif.Lemmas.NdArr
import Verif.Lemmas.Families
import Verif.Model.Regression

/-!
# Lemmas about `einsum`, and the two products of `regression_utils.py`
-/

namespace LRVB

open Classical

noncomputable section

namespace Arr

/-- The sizes the axes would have if the result were computed index by index. -/
theorem labelDim_eq {axes : List (ℕ × ℕ)} {dim : ℕ → ℕ} (h : ∀ p ∈ axes, p.2 = dim p.1) {l : ℕ}
    (hl : ∃ p ∈ axes, p.1 = l) : labelDim axes l = dim l := by
  unfold labelDim
  cases hf : axes.find? fun p => p.1 = l ∧ p.2 ≠ 1 with
  | none =>
    obtain ⟨p, hp, rfl⟩ := hl
    have := List.find?_eq_none.1 hf p hp
    simp only [true_and, decide_not, Bool.not_eq_eq_eq_not, Bool.not_true, decide_eq_true_eq,
      ne_eq, not_not, Bool.not_eq_true, decide_eq_false_iff_not] at this
    simp [← h p hp, this]
  | some p =>
    have h1 := List.mem_of_find?_eq_some hf
    have h2 := List.find?_some hf
    simp only [decide_eq_true_eq] at h2
    simp [h p h1, h2.1]

theorem zip_map_mem {lx : List ℕ} {dim : ℕ → ℕ} {p : ℕ × ℕ} (h : p ∈ List.zip lx (lx.map dim)) :
    p.1 ∈ lx ∧ p.2 = dim p.1 := by
  induction lx with
  | nil => simp at h
  | cons a l ih =>
    simp only [List.map_cons, List.zip_cons_cons, List.mem_cons] at h
    rcases h with rfl | h
    · simp
    · exact ⟨List.mem_cons_of_mem _ (ih h).1, (ih h).2⟩

theorem mem_zip_map {lx : List ℕ} (dim : ℕ → ℕ) {l : ℕ} (h : l ∈ lx) :
    (l, dim l) ∈ List.zip lx (lx.map dim) := by
  induction lx with
  | nil => simp at h
  | cons a t ih =>
    simp only [List.map_cons, List.zip_cons_cons, List.mem_cons]
    rcases List.mem_cons.1 h with rfl | h
    · exact Or.inl rfl
    · exact Or.inr (ih h)

/-- `einsum` when every index has one size. -/
theorem einsum_eq {x y : Arr} {lx ly out : List ℕ} (dim : ℕ → ℕ) (hx : x.shape = lx.map dim)
    (hy : y.shape = ly.map dim) (ho : ∀ l ∈ out, l ∈ lx ∨ l ∈ ly)
    {summed : List ℕ} (hs : ((lx ++ ly).filter fun l => l ∉ out).dedup = summed)
    {F : List ℕ → ℝ}
    (hF : ∀ idx, List.Forall₂ (· < ·) idx (out.map dim) →
      ((indexProduct (summed.map dim)).map fun jdx =>
        x.bget (lx.map fun l => if l ∈ out then idx.getD (out.idxOf l) 0
          else jdx.getD (summed.idxOf l) 0) *
        y.bget (ly.map fun l => if l ∈ out then idx.getD (out.idxOf l) 0
          else jdx.getD (summed.idxOf l) 0)).sum = F idx) :
    einsum x lx y ly out = .ok (ofFn (out.map dim) F) := by
  have hax : ∀ p ∈ List.zip lx x.shape ++ List.zip ly y.shape, p.2 = dim p.1 := by
    intro p hp
    rw [hx, hy, List.mem_append] at hp
    rcases hp with h | h
    · exact (zip_map_mem h).2
    · exact (zip_map_mem h).2
  have hld : ∀ l, l ∈ lx ∨ l ∈ ly →
      labelDim (List.zip lx x.shape ++ List.zip ly y.shape) l = dim l := by
    intro l hl
    refine labelDim_eq hax ⟨(l, dim l), ?_, rfl⟩
    rw [hx, hy, List.mem_append]
    exact hl.imp (mem_zip_map dim) (mem_zip_map dim)
  have h1 : out.map (labelDim (List.zip lx x.shape ++ List.zip ly y.shape)) = out.map dim :=
    List.map_congr_left fun l hl => hld l (ho l hl)
  have h2 : summed.map (labelDim (List.zip lx x.shape ++ List.zip ly y.shape)) = summed.map dim := by
    refine List.map_congr_left fun l hl => hld l ?_
    rw [← hs, List.mem_dedup] at hl
    exact List.mem_append.1 (List.mem_filter.1 hl).1
  unfold einsum
  simp only
  rw [if_neg (by simp [hx, hy]), if_neg, if_neg, hs, h1, h2]
  · congr 1
    exact ofFn_congr hF
  · rintro ⟨l, hl, h3, h4⟩
    rcases ho l hl with h | h
    · exact h3 h
    · exact h4 h
  · rintro ⟨p, hp, h3, -⟩
    refine h3 ?_
    have h5 : p.1 ∈ lx ∨ p.1 ∈ ly := by
      rw [hx, hy, List.mem_append] at hp
      exact hp.imp (fun h => (zip_map_mem h).1) fun h => (zip_map_mem h).1
    rw [hld _ h5]
    exact hax p hp

theorem map_range_getD (L : List ℕ) {n : ℕ} (h : n ≤ L.length) :
    (List.range n).map (fun l => L.getD l 0) = L.take n := by
  refine List.ext_getElem (by simp [h]) fun i h1 h2 => ?_
  have : i < L.length := by simp at h2; omega
  simp [List.getD_eq_getElem?_getD, this]

/-- An array of matrices. -/
def ofBatch (b : List ℕ) (r t : ℕ) (F : List ℕ → ℕ → ℕ → ℝ) : Arr :=
  ofFn (b ++ [r, t]) fun idx => F (idx.take b.length) (idx.getD b.length 0) (idx.getD (b.length + 1) 0)

/-- An array of vectors. -/
def ofBatch1 (b : List ℕ) (r : ℕ) (F : List ℕ → ℕ → ℝ) : Arr :=
  ofFn (b ++ [r]) fun idx => F (idx.take b.length) (idx.getD b.length 0)

@[simp] theorem ofBatch_shape (b : List ℕ) (r t : ℕ) (F : List ℕ → ℕ → ℕ → ℝ) :
    (ofBatch b r t F).shape = b ++ [r, t] := rfl

@[simp] theorem ofBatch1_shape (b : List ℕ) (r : ℕ) (F : List ℕ → ℕ → ℝ) :
    (ofBatch1 b r F).shape = b ++ [r] := rfl

theorem forall₂_batch {b bi : List ℕ} {r t i j : ℕ} (h : List.Forall₂ (· < ·) bi b) (hi : i < r)
    (hj : j < t) : List.Forall₂ (· < ·) (bi ++ [i, j]) (b ++ [r, t]) := by
  have := forall₂_snoc (forall₂_snoc h hi) hj
  simpa using this

theorem exists_of_forall₂_batch {b : List ℕ} {r t : ℕ} {idx : List ℕ}
    (h : List.Forall₂ (· < ·) idx (b ++ [r, t])) :
    ∃ bi i j, idx = bi ++ [i, j] ∧ List.Forall₂ (· < ·) bi b ∧ i < r ∧ j < t := by
  rw [show b ++ [r, t] = (b ++ [r]) ++ [t] by simp] at h
  obtain ⟨i1, j, rfl, h1, hj⟩ := exists_of_forall₂_snoc h
  obtain ⟨bi, i, rfl, h2, hi⟩ := exists_of_forall₂_snoc h1
  exact ⟨bi, i, j, by simp, h2, hi, hj⟩

theorem batch_split {bi : List ℕ} {n i j : ℕ} (h : bi.length = n) :
    (bi ++ [i, j]).take n = bi ∧ (bi ++ [i, j]).getD n 0 = i ∧ (bi ++ [i, j]).getD (n + 1) 0 = j := by
  subst h
  refine ⟨by simp, ?_, ?_⟩
  · simp [List.getD_eq_getElem?_getD]
  · simp [List.getD_eq_getElem?_getD, List.getElem?_append_right]

theorem batch1_split {bi : List ℕ} {n i : ℕ} (h : bi.length = n) :
    (bi ++ [i]).take n = bi ∧ (bi ++ [i]).getD n 0 = i := by
  subst h
  exact ⟨by simp, by simp [List.getD_eq_getElem?_getD]⟩

theorem get_ofBatch {b bi : List ℕ} {r t i j : ℕ} (F : List ℕ → ℕ → ℕ → ℝ)
    (h : List.Forall₂ (· < ·) bi b) (hi : i < r) (hj : j < t) :
    (ofBatch b r t F).get (bi ++ [i, j]) = F bi i j := by
  unfold ofBatch
  rw [get_ofFn _ (forall₂_batch h hi hj)]
  obtain ⟨e1, e2, e3⟩ := batch_split (i := i) (j := j) h.length_eq
  rw [e1, e2, e3]

theorem get_ofBatch1 {b bi : List ℕ} {r i : ℕ} (F : List ℕ → ℕ → ℝ)
    (h : List.Forall₂ (· < ·) bi b) (hi : i < r) :
    (ofBatch1 b r F).get (bi ++ [i]) = F bi i := by
  unfold ofBatch1
  rw [get_ofFn _ (forall₂_snoc h hi)]
  obtain ⟨e1, e2⟩ := batch1_split (i := i) h.length_eq
  rw [e1, e2]

theorem ofBatch_congr {b : List ℕ} {r t : ℕ} {F G : List ℕ → ℕ → ℕ → ℝ}
    (h : ∀ bi, List.Forall₂ (· < ·) bi b → ∀ i < r, ∀ j < t, F bi i j = G bi i j) :
    ofBatch b r t F = ofBatch b r t G := by
  unfold ofBatch
  refine ofFn_congr fun idx hi => ?_
  obtain ⟨bi, i, j, rfl, h1, h2, h3⟩ := exists_of_forall₂_batch hi
  obtain ⟨e1, e2, e3⟩ := batch_split (i := i) (j := j) h1.length_eq
  rw [e1, e2, e3]
  exact h bi h1 i h2 j h3

theorem ofBatch1_congr {b : List ℕ} {r : ℕ} {F G : List ℕ → ℕ → ℝ}
    (h : ∀ bi, List.Forall₂ (· < ·) bi b → ∀ i < r, F bi i = G bi i) :
    ofBatch1 b r F = ofBatch1 b r G := by
  unfold ofBatch1
  refine ofFn_congr fun idx hi => ?_
  obtain ⟨bi, i, rfl, h1, h2⟩ := exists_of_forall₂_snoc hi
  obtain ⟨e1, e2⟩ := batch1_split (i := i) h1.length_eq
  rw [e1, e2]
  exact h bi h1 i h2

theorem eq_ofBatch {a : Arr} {b : List ℕ} {r t : ℕ} (h : IsArr a (b ++ [r, t])) :
    a = ofBatch b r t fun bi i j => a.get (bi ++ [i, j]) := by
  conv_lhs => rw [← ofFn_get h.1, h.2]
  unfold ofBatch
  refine ofFn_congr fun idx hi => ?_
  obtain ⟨bi, i, j, rfl, h1, h2, h3⟩ := exists_of_forall₂_batch hi
  obtain ⟨e1, e2, e3⟩ := batch_split (i := i) (j := j) h1.length_eq
  rw [e1, e2, e3]

theorem eq_ofBatch1 {a : Arr} {b : List ℕ} {r : ℕ} (h : IsArr a (b ++ [r])) :
    a = ofBatch1 b r fun bi i => a.get (bi ++ [i]) := by
  conv_lhs => rw [← ofFn_get h.1, h.2]
  unfold ofBatch1
  refine ofFn_congr fun idx hi => ?_
  obtain ⟨bi, i, rfl, h1, h2⟩ := exists_of_forall₂_snoc hi
  obtain ⟨e1, e2⟩ := batch1_split (i := i) h1.length_eq
  rw [e1, e2]

theorem map_ofBatch (b : List ℕ) (r t : ℕ) (F : List ℕ → ℕ → ℕ → ℝ) (g : ℝ → ℝ) :
    (ofBatch b r t F).map g = ofBatch b r t fun bi i j => g (F bi i j) := map_ofFn _ _ _

theorem add_ofBatch (b : List ℕ) (r t : ℕ) (F G : List ℕ → ℕ → ℕ → ℝ) :
    (ofBatch b r t F).add (ofBatch b r t G) = .ok (ofBatch b r t fun bi i j => F bi i j + G bi i j) :=
  bin_ofFn _ _ _ _

theorem add_ofBatch1 (b : List ℕ) (r : ℕ) (F G : List ℕ → ℕ → ℝ) :
    (ofBatch1 b r F).add (ofBatch1 b r G) = .ok (ofBatch1 b r fun bi i => F bi i + G bi i) :=
  bin_ofFn _ _ _ _

theorem idxOf_range_append {n l : ℕ} (h : l < n) (L : List ℕ) : (List.range n ++ L).idxOf l = l := by
  rw [List.idxOf_append_of_mem (by simpa using h)]
  have := List.nodup_range (n := n) |>.idxOf_getElem l (by simpa using h)
  simpa using this

theorem idxOf_range_append_ge {n l : ℕ} (h : n ≤ l) (L : List ℕ) :
    (List.range n ++ L).idxOf l = n + L.idxOf l := by
  rw [List.idxOf_append_of_notMem (by simpa using h)]
  simp

theorem indexProduct_single (s : ℕ) : indexProduct [s] = (List.range s).map fun k => [k] := by
  simp only [indexProduct, List.map_cons, List.map_nil]
  rw [← List.flatMap_singleton' ((List.range s).map fun k => [k]), List.flatMap_map]

theorem sum_map_range (s : ℕ) (f : ℕ → ℝ) : ((List.range s).map f).sum = ∑ k ∈ Finset.range s, f k := by
  induction s with
  | zero => rfl
  | succ s ih => rw [List.range_succ, List.map_append, List.sum_append, ih, Finset.sum_range_succ]; simp

theorem sum_flatMap' (l : List ℕ) (f : ℕ → List ℝ) :
    (l.flatMap f).sum = (l.map fun a => (f a).sum).sum := by
  induction l with
  | nil => rfl
  | cons a l ih => simp [ih]

theorem getD_mid {p q : List ℕ} {x k : ℕ} (h : p.length = k) : (p ++ x :: q).getD k 0 = x := by
  subst h
  simp [List.getD_eq_getElem?_getD]

theorem take_left_of {p q : List ℕ} {k : ℕ} (h : p.length = k) : (p ++ q).take k = p := by
  subst h
  simp

theorem sum_indexProduct_snoc (e : List ℕ) (s : ℕ) (F : List ℕ → ℝ) :
    ((indexProduct (e ++ [s])).map F).sum =
      ((indexProduct e).map fun ei => ∑ k ∈ Finset.range s, F (ei ++ [k])).sum := by
  induction e generalizing F with
  | nil =>
    rw [List.nil_append, indexProduct_single, List.map_map, sum_map_range]
    simp [indexProduct]
  | cons a e ih =>
    simp only [List.cons_append, indexProduct]
    simp only [List.map_flatMap, sum_flatMap', List.map_map, Function.comp_def]
    congr 1
    refine List.map_congr_left fun i _ => ?_
    exact ih fun idx => F (i :: idx)

end Arr

namespace Regression

open Arr

theorem fromEnd_one (b : List ℕ) (r : ℕ) : fromEnd (b ++ [r]) 1 = .ok r := by
  simp [fromEnd]

theorem fromEnd_one' (b : List ℕ) (s r : ℕ) : fromEnd (b ++ [s, r]) 1 = .ok r := by
  simp [fromEnd]

theorem fromEnd_two (b : List ℕ) (s r : ℕ) : fromEnd (b ++ [s, r]) 2 = .ok s := by
  simp [fromEnd]

theorem assert_ok {c : Prop} (h : c) : assert c = .ok () := if_pos h

theorem matMul_ofBatch (b : List ℕ) (s r t : ℕ) (f g : List ℕ → ℕ → ℕ → ℝ) :
    matMulLast2dims (ofBatch b s r f) (ofBatch b s t g) =
      .ok (ofBatch b r t fun bi i j => ∑ k ∈ Finset.range s, f bi k i * g bi k j) := by
  unfold matMulLast2dims
  simp only [ofBatch_shape, fromEnd_two, py_ok_bind]
  rw [assert_ok (by simp), py_ok_bind, assert_ok trivial, py_ok_bind]
  set n := b.length with hn
  have hlen : (b ++ [s, r]).length = n + 2 := by simp [hn]
  rw [hlen]
  simp only [Nat.add_sub_cancel, show n + 2 - 1 = n + 1 by omega]
  set L := b ++ [s, r, t] with hL
  have hLlen : L.length = n + 3 := by simp [hL, hn]
  have hd : ∀ l, l < n → L.getD l 0 = b.getD l 0 := by
    intro l hl
    simp [hL, List.getD_eq_getElem?_getD, List.getElem?_append_left (hn ▸ hl)]
  have hout : (List.range n ++ [n + 1, n + 2]).map (fun l => L.getD l 0) = b ++ [r, t] := by
    rw [List.map_append, map_range_getD L (by omega)]
    simp [hL, List.getD_eq_getElem?_getD, hn]
  have hsum : (((List.range (n + 2) ++ (List.range (n + 1) ++ [n + 2])).filter
      fun l => l ∉ List.range n ++ [n + 1, n + 2]).dedup) = [n] := by
    have h1 : (List.range n).filter (fun l => l ∉ List.range n ++ [n + 1, n + 2]) = [] := by
      rw [List.filter_eq_nil_iff]
      intro l hl
      simp at hl
      simp [hl]
    simp only [List.range_succ, List.filter_append, h1]
    simp [List.filter_cons]
  have hres := einsum_eq (x := ofBatch b s r f) (y := ofBatch b s t g) (lx := List.range (n + 2))
    (ly := List.range (n + 1) ++ [n + 2]) (out := List.range n ++ [n + 1, n + 2])
    (dim := fun l => L.getD l 0)
    (F := fun idx => ∑ k ∈ Finset.range s, f (idx.take n) k (idx.getD n 0) *
      g (idx.take n) k (idx.getD (n + 1) 0))
    (by rw [map_range_getD L (by omega)]; simp [hL, hn, List.take_append])
    (by
      rw [List.map_append, map_range_getD L (by omega)]
      simp [hL, hn, List.take_append, List.getD_eq_getElem?_getD])
    (by simp; omega) hsum ?_
  · rw [hres, hout]
    rfl
  · intro idx hidx
    rw [hout] at hidx
    obtain ⟨bi, i, j, rfl, h1, h2, h3⟩ := exists_of_forall₂_batch hidx
    have hbl : bi.length = n := h1.length_eq
    obtain ⟨e1, e2, e3⟩ := batch_split (i := i) (j := j) hbl
    rw [e1, e2, e3]
    have hs1 : [n].map (fun l => L.getD l 0) = [s] := by
      simp [hL, List.getD_eq_getElem?_getD, hn]
    rw [hs1, indexProduct_single, List.map_map, ← sum_map_range]
    congr 1
    refine List.map_congr_left fun k hk => ?_
    have hk' : k < s := by simpa using hk
    simp only [Function.comp_apply]
    have henv : ∀ l < n + 3, (if l ∈ List.range n ++ [n + 1, n + 2] then
        (bi ++ [i, j]).getD ((List.range n ++ [n + 1, n + 2]).idxOf l) 0
        else [k].getD ([n].idxOf l) 0) = (bi ++ [k, i, j]).getD l 0 := by
      intro l hl
      rcases lt_trichotomy l n with h | h | h
      · rw [if_pos (by simp [h]), idxOf_range_append h]
        simp [List.getD_eq_getElem?_getD, List.getElem?_append_left (hbl ▸ h)]
      · subst h
        rw [if_neg (by simp)]
        simp [List.getD_eq_getElem?_getD, ← hbl]
      · have : l = n + 1 ∨ l = n + 2 := by omega
        rcases this with rfl | rfl
        · rw [if_pos (by simp), idxOf_range_append_ge (by omega)]
          simp [List.getD_eq_getElem?_getD, ← hbl, List.getElem?_append_right]
        · rw [if_pos (by simp), idxOf_range_append_ge (by omega)]
          simp [List.getD_eq_getElem?_getD, ← hbl, List.getElem?_append_right, List.idxOf_cons]
    have hx : (List.range (n + 2)).map (fun l => if l ∈ List.range n ++ [n + 1, n + 2] then
        (bi ++ [i, j]).getD ((List.range n ++ [n + 1, n + 2]).idxOf l) 0
        else [k].getD ([n].idxOf l) 0) = bi ++ [k, i] := by
      rw [List.map_congr_left fun l hl => henv l (by simp at hl; omega),
        map_range_getD _ (by simp [hbl])]
      simp [List.take_append, hbl]
    have hy : (List.range (n + 1) ++ [n + 2]).map (fun l => if l ∈ List.range n ++ [n + 1, n + 2] then
        (bi ++ [i, j]).getD ((List.range n ++ [n + 1, n + 2]).idxOf l) 0
        else [k].getD ([n].idxOf l) 0) = bi ++ [k, j] := by
      rw [List.map_congr_left fun l hl => henv l (by simp at hl; omega), List.map_append,
        map_range_getD _ (by simp [hbl])]
      have hj : (bi ++ [k, i, j]).getD (n + 2) 0 = j := by
        simp [List.getD_eq_getElem?_getD, ← hbl, List.getElem?_append_right]
      rw [List.map_singleton, hj]
      simp [List.take_append, hbl]
    rw [hx, hy, bget_self (forall₂_batch h1 hk' h2), bget_self (forall₂_batch h1 hk' h3),
      get_ofBatch _ h1 hk' h2, get_ofBatch _ h1 hk' h3]

theorem matvec_eq (b e : List ℕ) (s r : ℕ) (f : List ℕ → ℕ → ℕ → ℝ) (y : Arr)
    (hy : y.shape = b ++ e ++ [s]) :
    matvecMulLast2dims (ofBatch b s r f) y = .ok (ofBatch1 b r fun bi i =>
      ((indexProduct e).map fun ei =>
        ∑ k ∈ Finset.range s, f bi k i * y.get (bi ++ ei ++ [k])).sum) := by
  unfold matvecMulLast2dims
  simp only [ofBatch_shape, fromEnd_two, hy, fromEnd_one, py_ok_bind]
  rw [assert_ok trivial, py_ok_bind]
  set n := b.length with hn
  set m := e.length with hm
  have h1 : (b ++ e ++ [s]).length - 1 = n + m := by simp [hn, hm]
  have h2 : (b ++ [s, r]).length - 2 = n := by simp [hn]
  simp only [h1, h2]
  rw [assert_ok (by omega), py_ok_bind]
  set L := b ++ e ++ [s, r] with hL
  have hLlen : L.length = n + m + 2 := by simp [hL, hn, hm, add_assoc]
  have hLs : L.getD (n + m) 0 = s := getD_mid (by simp [hn, hm])
  have hL2 : L = (b ++ e ++ [s]) ++ [r] := by simp [hL]
  have hLr : L.getD (n + m + 1) 0 = r := by
    rw [hL2]
    exact getD_mid (by simp [hn, hm, add_assoc])
  have hLt : L.take (n + m + 1) = b ++ e ++ [s] := by
    rw [hL2]
    exact take_left_of (by simp [hn, hm, add_assoc])
  have hLb : L.take n = b := by simp [hL, hn]
  have hout : (List.range n ++ [n + m + 1]).map (fun l => L.getD l 0) = b ++ [r] := by
    rw [List.map_append, map_range_getD L (by omega), hLb, List.map_singleton, hLr]
  have hsplit : List.range (n + m + 1) = List.range n ++ (List.range (m + 1)).map (n + ·) := by
    rw [add_assoc, List.range_add]
  have hsummap : ((List.range (m + 1)).map (n + ·)).map (fun l => L.getD l 0) = e ++ [s] := by
    have h3 := map_range_getD L (n := n + m + 1) (by omega)
    rw [hsplit, List.map_append, map_range_getD L (by omega), hLb] at h3
    rw [hLt, List.append_assoc] at h3
    exact List.append_cancel_left h3
  have hsum : (((List.range n ++ [n + m, n + m + 1] ++ List.range (n + m + 1)).filter
      fun l => l ∉ List.range n ++ [n + m + 1]).dedup) = (List.range (m + 1)).map (n + ·) := by
    have h3 : (List.range n).filter (fun l => l ∉ List.range n ++ [n + m + 1]) = [] := by
      rw [List.filter_eq_nil_iff]
      intro l hl
      simp at hl
      simp [hl]
    have h4 : ((List.range (m + 1)).map (n + ·)).filter (fun l => l ∉ List.range n ++ [n + m + 1]) =
        (List.range (m + 1)).map (n + ·) := by
      rw [List.filter_eq_self]
      intro l hl
      simp only [List.mem_map, List.mem_range] at hl
      obtain ⟨a, ha, rfl⟩ := hl
      simp
      omega
    have h5 : [n + m, n + m + 1].filter (fun l => l ∉ List.range n ++ [n + m + 1]) = [n + m] := by
      simp [List.filter_cons]
    rw [hsplit, List.filter_append, List.filter_append, List.filter_append, h3, h4, h5]
    simp only [List.nil_append, List.cons_append]
    rw [List.dedup_cons_of_mem (by simp), List.Nodup.dedup]
    exact List.nodup_range.map (fun a b h => by simpa using h)
  have hres := einsum_eq (x := ofBatch b s r f) (y := y) (lx := List.range n ++ [n + m, n + m + 1])
    (ly := List.range (n + m + 1)) (out := List.range n ++ [n + m + 1])
    (dim := fun l => L.getD l 0)
    (F := fun idx => ((indexProduct e).map fun ei => ∑ k ∈ Finset.range s,
      f (idx.take n) k (idx.getD n 0) * y.get (idx.take n ++ ei ++ [k])).sum)
    (by rw [List.map_append, map_range_getD L (by omega), hLb, List.map_cons, List.map_singleton, hLs,
          hLr]; rfl)
    (by rw [map_range_getD L (by omega), hy, hLt])
    (by simp; omega) hsum ?_
  · rw [hres, hout]
    rfl
  · intro idx hidx
    rw [hout] at hidx
    obtain ⟨bi, i, rfl, hb, hi⟩ := exists_of_forall₂_snoc hidx
    have hbl : bi.length = n := hb.length_eq
    obtain ⟨e1, e2⟩ := batch1_split (i := i) hbl
    rw [e1, e2, hsummap, sum_indexProduct_snoc]
    congr 1
    refine List.map_congr_left fun ei hei => Finset.sum_congr rfl fun k hk => ?_
    have hk' : k < s := by simpa using hk
    have hei' := mem_indexProduct.1 hei
    have hel : ei.length = m := hei'.length_eq
    have hLe2 : bi ++ (ei ++ [k, i]) = bi ++ ei ++ [k] ++ [i] := by simp
    have hLk : (bi ++ (ei ++ [k, i])).getD (n + m) 0 = k := by
      rw [← List.append_assoc]
      exact getD_mid (by simp [hbl, hel])
    have hLi : (bi ++ (ei ++ [k, i])).getD (n + m + 1) 0 = i := by
      rw [hLe2]
      exact getD_mid (by simp [hbl, hel, add_assoc])
    have henv : ∀ l < n + m + 2, (if l ∈ List.range n ++ [n + m + 1] then
        (bi ++ [i]).getD ((List.range n ++ [n + m + 1]).idxOf l) 0
        else (ei ++ [k]).getD (((List.range (m + 1)).map (n + ·)).idxOf l) 0) =
        (bi ++ (ei ++ [k, i])).getD l 0 := by
      intro l hl
      rcases lt_or_ge l n with h | h
      · rw [if_pos (by simp [h]), idxOf_range_append h]
        simp [List.getD_eq_getElem?_getD, List.getElem?_append_left (hbl ▸ h)]
      · rcases Nat.lt_or_ge l (n + m + 1) with h' | h'
        · obtain ⟨a, rfl⟩ := Nat.exists_eq_add_of_le h
          rw [if_neg (by simp; omega)]
          have hidx : ((List.range (m + 1)).map (n + ·)).idxOf (n + a) = a := by
            have hnd : ((List.range (m + 1)).map (n + ·)).Nodup :=
              List.nodup_range.map (fun a b h => by simpa using h)
            have := hnd.idxOf_getElem a (by simp; omega)
            simpa using this
          rw [hidx]
          rw [List.getD_eq_getElem?_getD, List.getD_eq_getElem?_getD,
            List.getElem?_append_right (l₁ := bi) (by omega), hbl, Nat.add_sub_cancel_left,
            show ei ++ [k, i] = (ei ++ [k]) ++ [i] by simp,
            List.getElem?_append_left (l₁ := ei ++ [k]) (by simp [hel]; omega)]
        · have : l = n + m + 1 := by omega
          subst this
          rw [if_pos (by simp), idxOf_range_append_ge (by omega)]
          rw [hLi, List.idxOf_cons_self, add_zero]
          exact getD_mid hbl
    have hx : (List.range n ++ [n + m, n + m + 1]).map (fun l =>
        if l ∈ List.range n ++ [n + m + 1] then
        (bi ++ [i]).getD ((List.range n ++ [n + m + 1]).idxOf l) 0
        else (ei ++ [k]).getD (((List.range (m + 1)).map (n + ·)).idxOf l) 0) = bi ++ [k, i] := by
      rw [List.map_congr_left fun l hl => henv l (by simp at hl; omega), List.map_append,
        map_range_getD _ (by simp [hbl])]
      rw [List.map_cons, List.map_singleton, hLk, hLi, take_left_of hbl]
    have hyy : (List.range (n + m + 1)).map (fun l =>
        if l ∈ List.range n ++ [n + m + 1] then
        (bi ++ [i]).getD ((List.range n ++ [n + m + 1]).idxOf l) 0
        else (ei ++ [k]).getD (((List.range (m + 1)).map (n + ·)).idxOf l) 0) = bi ++ ei ++ [k] := by
      rw [List.map_congr_left fun l hl => henv l (by simp at hl; omega),
        map_range_getD _ (by simp [hbl, hel])]
      rw [hLe2]
      exact take_left_of (by simp [hbl, hel, add_assoc])
    rw [hx, hyy, bget_self (forall₂_batch hb hk' hi), get_ofBatch _ hb hk' hi, bget_self]
    rw [hy]
    exact forall₂_snoc (List.rel_append hb hei') hk'

end Regression

end

end LRVB
