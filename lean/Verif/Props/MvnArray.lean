import Verif.Props.Normal

/-!
# C148: arrays of multivariate normals
-/

namespace LRVB

open MeasureTheory ProbabilityTheory

noncomputable section

open Arr ExpFam Families

/-- An `MVNArray` of shape `n :: s` that holds the means `m` and the precisions `i`, one for every
index of the first axis. -/
structure HoldsRows (p : Param) (n : ℕ) (s : List ℕ) (m i : Arr) : Prop where
  mean : Holds p "mean" m
  info : Holds p "info" i
  mean_arr : IsArr m (n :: s)
  info_arr : IsPosArr i [n]

/-- **C148** (reachable) After any history of calls on an `MVNArray` constructed with a nonnegative
`min_info`, `set_free` with a vector of the right size succeeds and leaves an array of means and a
positive precision for every row. -/
theorem C148_after_set_free (name : String) (minInfo : ℝ) (h0 : 0 ≤ minInfo) (n : ℕ) (s : List ℕ)
    (ops : List ParamOp) :
    ∃ p, mkMVNArray name (n :: s) minInfo = .ok ⟨p, n :: s⟩ ∧ p.freeSize = (n :: s).prod + n ∧
      ∀ x, x.length = (n :: s).prod + n →
        ∃ q m i, (p.run ops).setFree x = (q, none) ∧ HoldsRows q n s m i := by
  have b1 : (Flt.ninf : Flt) < Flt.pinf := by simp
  have b2 : (Flt.fin minInfo : Flt) < Flt.pinf := by simp
  have hne : ("mean" : String) ≠ "info" := by decide
  obtain ⟨l1, m1, n1, k1⟩ := mkArray_kind (name := "mean") (s := n :: s) b1
  obtain ⟨l2, m2, n2, k2⟩ := mkVector_kind (name := "info") (n := n) b2
  have hp := pair_push name (l1 := l1) (l2 := l2) (by rw [n1, n2]; exact hne)
  rw [n1, n2, k1, k2] at hp
  refine ⟨_, by unfold mkMVNArray; simp only [m1, m2, py_ok_bind]; rfl, by rw [hp.freeSize]; rfl,
    fun x hx => ?_⟩
  obtain ⟨q, a, b, h1, h2, h3, h4, h5⟩ := (hp.run ops).setFree hne
    (P1 := fun a => Inside a (n :: s) Flt.ninf Flt.pinf)
    (P2 := fun a => Inside a [n] (Flt.fin minInfo) Flt.pinf)
    (fun l hk x hx => setFree_array hk b1 hx) (fun l hk x hx => setFree_vector hk b2 hx)
    (x := x) (by rw [(hp.run ops).freeSize, hx]; rfl)
  exact ⟨q, a, b, h1, h2, h4, h3.1, h5.pos h0⟩

theorem newaxis_get {n : ℕ} (f : List ℕ → ℝ) {i : ℕ} (hi : i < n) :
    (⟨[n] ++ [1], (ofFn [n] f).data⟩ : Arr).get [i, 0] = f [i] := by
  have h : (ofFn [n] f).get [i] = f [i] := get_ofFn f (by simpa [InShape] using hi)
  rw [← h]
  simp [Arr.get, flat, ofFn]

/-- **C148** (moments) `e()` and `e2()` of an `MVNArray` of shape `(n, k)` return, for every component,
the mean and the second moment of the normal distribution with the held mean and the precision of its
row. -/
theorem C148_moments (p : Param) (n k : ℕ) (m i : Arr) (h : HoldsRows p n [k] m i) :
    mvnArrayE p = .ok (ofFn [n, k] fun idx =>
      ∫ x, x ∂normal (m.get idx) (i.get [idx.getD 0 0])) ∧
    mvnArrayE2 p = .ok (ofFn [n, k] fun idx =>
      ∫ x, x ^ 2 ∂normal (m.get idx) (i.get [idx.getD 0 0])) := by
  have hm := h.mean.item
  have hi := h.info.item
  have ha := h.mean_arr
  have hp := h.info_arr
  constructor
  · unfold mvnArrayE
    rw [hm]
    conv_lhs => rw [arr_eq ha]
    congr 1
    exact ofFn_congr fun idx hx => by rw [normal, integral_id_gaussianReal]
  · unfold mvnArrayE2 add bin
    rw [hi, py_ok_bind, recip_ok hp, py_ok_bind, hm, py_ok_bind, map_arr ha]
    have hs : bshape [n, k] ([n] ++ [1]) = .ok [n, k] := by
      unfold bshape bdim
      simp [padLeft]
      by_cases hk : k = 1
      · subst hk; rfl
      · simp [hk]
    rw [ofFn_shape, ofFn_shape, hs, py_ok_bind]
    congr 1
    refine ofFn_congr fun idx hx => ?_
    obtain ⟨a, b, rfl, ha', hb'⟩ : ∃ a b, idx = [a, b] ∧ a < n ∧ b < k := by
      cases hx with
      | cons h1 h2 => cases h2 with
        | cons h3 h4 => cases h4; exact ⟨_, _, rfl, h1, h3⟩
    rw [bget_self hx, get_ofFn _ hx, normal, integral_sq_gaussianReal, show [a, b].getD 0 0 = a from rfl,
      varOf_coe (hp.2 [a] (by simpa [InShape] using ha'))]
    have e : bIndex ([n] ++ [1]) [a, b] = [a, 0] := by
      simp only [bIndex, List.cons_append, List.nil_append, List.length_cons, List.length_nil,
        Nat.sub_self, List.drop_zero, List.zipWith_cons_cons, List.zipWith_nil_left, if_true]
      by_cases h1 : n = 1
      · have : a = 0 := by omega
        simp [this]
      · simp [h1]
    simp only [bget, e]
    rw [newaxis_get _ ha']

/-- **C148** (three axes) With three axes the second moments are not those of the rows.  The call raises
unless the first axis matches the second one; and if it does, entry `(a, b, c)` gets the variance that
belongs to `b`.  Axes of length one are stretched: a single row is treated rightly, and if the second axis
has length one, the result has as many entries along it as along the first one. -/
theorem C148_three_axes (p : Param) (n k l : ℕ) (m i : Arr) (h : HoldsRows p n [k, l] m i) :
    (n ≠ 1 → k ≠ 1 → n ≠ k → mvnArrayE2 p = .error .valueError) ∧
    (n = k → mvnArrayE2 p = .ok (ofFn [n, k, l] fun idx =>
      ∫ x, x ^ 2 ∂normal (m.get idx) (i.get [idx.getD 1 0]))) ∧
    (n = 1 → mvnArrayE2 p = .ok (ofFn [n, k, l] fun idx =>
      ∫ x, x ^ 2 ∂normal (m.get idx) (i.get [idx.getD 0 0]))) ∧
    (k = 1 → mvnArrayE2 p = .ok (ofFn [n, n, l] fun idx =>
      ∫ x, x ^ 2 ∂normal (m.get [idx.getD 0 0, 0, idx.getD 2 0]) (i.get [idx.getD 1 0]))) := by
  have hm := h.mean.item
  have hi := h.info.item
  have ha := h.mean_arr
  have hp := h.info_arr
  have split3 : ∀ {n k l : ℕ} {idx : List ℕ}, InShape idx [n, k, l] →
      ∃ a b c, idx = [a, b, c] ∧ a < n ∧ b < k ∧ c < l := by
    intro n k l idx hx
    cases hx with
    | cons h1 h2 => cases h2 with
      | cons h3 h4 => cases h4 with
        | cons h5 h6 => cases h6; exact ⟨_, _, _, rfl, h1, h3, h5⟩
  refine ⟨?_, ?_, ?_, ?_⟩
  · intro h1 h2 h3
    unfold mvnArrayE2 add bin
    rw [hi, py_ok_bind, recip_ok hp, py_ok_bind, hm, py_ok_bind, map_arr ha]
    have hs : bshape [n, k, l] ([n] ++ [1]) = .error .valueError := by
      unfold bshape bdim
      simp [padLeft, h1, h2, Ne.symm h3]
    rw [ofFn_shape, ofFn_shape, hs]
    rfl
  · rintro rfl
    unfold mvnArrayE2 add bin
    rw [hi, py_ok_bind, recip_ok hp, py_ok_bind, hm, py_ok_bind, map_arr ha]
    have hs : bshape [n, n, l] ([n] ++ [1]) = .ok [n, n, l] := by
      unfold bshape bdim
      simp [padLeft]
      by_cases h1 : n = 1
      · subst h1
        by_cases hk : l = 1
        · subst hk; rfl
        · simp [hk]
      · by_cases hk : l = 1
        · subst hk; simp [h1]
        · simp [h1, hk]
    rw [ofFn_shape, ofFn_shape, hs, py_ok_bind]
    congr 1
    refine ofFn_congr fun idx hx => ?_
    obtain ⟨a, b, c, rfl, ha', hb', hc'⟩ : ∃ a b c, idx = [a, b, c] ∧ a < n ∧ b < n ∧ c < l := by
      cases hx with
      | cons h1 h2 => cases h2 with
        | cons h3 h4 => cases h4 with
          | cons h5 h6 => cases h6; exact ⟨_, _, _, rfl, h1, h3, h5⟩
    rw [bget_self hx, get_ofFn _ hx, normal, integral_sq_gaussianReal, show [a, b, c].getD 1 0 = b from rfl,
      varOf_coe (hp.2 [b] (by simpa [InShape] using hb'))]
    have e : bIndex ([n] ++ [1]) [a, b, c] = [b, 0] := by
      simp only [bIndex, List.cons_append, List.nil_append, List.length_cons, List.length_nil]
      by_cases h1 : n = 1
      · have : b = 0 := by omega
        simp [this]
      · simp [h1]
    simp only [bget, e]
    rw [newaxis_get _ hb']
  · rintro rfl
    unfold mvnArrayE2 add bin
    rw [hi, py_ok_bind, recip_ok hp, py_ok_bind, hm, py_ok_bind, map_arr ha]
    have hs : bshape [1, k, l] ([1] ++ [1]) = .ok [1, k, l] := by
      unfold bshape bdim
      simp [padLeft]
      by_cases h1 : k = 1 <;> by_cases hk : l = 1 <;> simp [h1, hk]
    rw [ofFn_shape, ofFn_shape, hs, py_ok_bind]
    congr 1
    refine ofFn_congr fun idx hx => ?_
    obtain ⟨a, b, c, rfl, ha', hb', hc'⟩ := split3 hx
    obtain rfl : a = 0 := by omega
    rw [bget_self hx, get_ofFn _ hx, normal, integral_sq_gaussianReal, show [0, b, c].getD 0 0 = 0 from rfl,
      varOf_coe (hp.2 [0] (by simp [InShape]))]
    have e : bIndex ([1] ++ [1]) [0, b, c] = [0, 0] := by
      simp [bIndex]
    simp only [bget, e]
    rw [newaxis_get _ (by norm_num)]
  · rintro rfl
    unfold mvnArrayE2 add bin
    rw [hi, py_ok_bind, recip_ok hp, py_ok_bind, hm, py_ok_bind, map_arr ha]
    have hs : bshape [n, 1, l] ([n] ++ [1]) = .ok [n, n, l] := by
      unfold bshape bdim
      simp [padLeft]
      by_cases h1 : n = 1
      · by_cases hk : l = 1 <;> simp [h1, hk]
      · by_cases hk : l = 1 <;> simp [h1, hk, Ne.symm h1]
    rw [ofFn_shape, ofFn_shape, hs, py_ok_bind]
    congr 1
    refine ofFn_congr fun idx hx => ?_
    obtain ⟨a, b, c, rfl, ha', hb', hc'⟩ := split3 hx
    have e1 : bIndex [n, 1, l] [a, b, c] = [a, 0, c] := by
      simp only [bIndex, List.length_cons, List.length_nil]
      by_cases h1 : n = 1
      · have : a = 0 := by omega
        by_cases h2 : l = 1
        · have : c = 0 := by omega
          simp [*]
        · simp [*]
      · by_cases h2 : l = 1
        · have : c = 0 := by omega
          simp [*]
        · simp [*]
    have e : bIndex ([n] ++ [1]) [a, b, c] = [b, 0] := by
      simp only [bIndex, List.cons_append, List.nil_append, List.length_cons, List.length_nil]
      by_cases h1 : n = 1
      · have : b = 0 := by omega
        simp [this]
      · simp [h1]
    have hx' : InShape [a, 0, c] [n, 1, l] := by simp [InShape, ha', hc']
    simp only [bget, e, ofFn_shape, e1]
    rw [get_ofFn _ hx', newaxis_get _ hb', normal, integral_sq_gaussianReal,
      show [a, b, c].getD 1 0 = b from rfl, varOf_coe (hp.2 [b] (by simpa [InShape] using hb'))]
    rfl

/-- An `MVNArray` of shape `(2, 3)`, after a call that fails and `set_free`. -/
example : ∃ p q m i, mkMVNArray "u" [2, 3] 0.1 = .ok ⟨p, [2, 3]⟩ ∧
    ((p.run [.setFree [1]]).setFree (List.replicate 8 0.5)) = (q, none) ∧ HoldsRows q 2 [3] m i := by
  obtain ⟨p, h1, -, h2⟩ := C148_after_set_free "u" 0.1 (by norm_num) 2 [3] [.setFree [1]]
  obtain ⟨q, m, i, h3, h4⟩ := h2 (List.replicate 8 0.5) (by simp)
  exact ⟨p, q, m, i, h1, h3, h4⟩

/-- ... and of shape `(2, 2, 3)`. -/
example : ∃ p q m i, mkMVNArray "u" [2, 2, 3] 0.1 = .ok ⟨p, [2, 2, 3]⟩ ∧
    ((p.run []).setFree (List.replicate 14 0.5)) = (q, none) ∧ HoldsRows q 2 [2, 3] m i := by
  obtain ⟨p, h1, -, h2⟩ := C148_after_set_free "u" 0.1 (by norm_num) 2 [2, 3] []
  obtain ⟨q, m, i, h3, h4⟩ := h2 (List.replicate 14 0.5) (by simp)
  exact ⟨p, q, m, i, h1, h3, h4⟩

end

end LRVB
