import Verif.Lemmas.Dict5

/-! The derivative of the map from free values to vectors is injective. -/

namespace LRVB

open Flt

/-- The Jacobian of `G` at `x` kills no direction. -/
def RankOK (n m : ℕ) (G : List ℝ → List ℝ) (x : List ℝ) : Prop :=
  ∀ u : ℕ → ℝ, (∀ i < m, ∑ j ∈ Finset.range n, D1 G x i j * u j = 0) → ∀ j < n, u j = 0

/-! ### Entrywise maps -/

theorem deriv_constrainFn_pos {lb ub : Flt} (h : lb < ub) (x : ℝ) :
    0 < deriv (Leaf.constrainFn lb ub) x := by
  rcases lt_cases h with ⟨rfl, rfl⟩ | ⟨a, rfl, rfl⟩ | ⟨b, rfl, rfl⟩ | ⟨a, b, rfl, rfl, hab⟩
  · have : Leaf.constrainFn ninf pinf = fun x => x := by
      funext x; simp [Leaf.constrainFn, constrainReal, constrain, Flt.toReal]
    rw [this, (hasDerivAt_id' x).deriv]; norm_num
  · have : Leaf.constrainFn (fin a) pinf = fun x => Real.exp x + a := by
      funext x; simp [Leaf.constrainFn, constrainReal, constrain, Flt.toReal]
    rw [this, ((Real.hasDerivAt_exp x).add_const a).deriv]; positivity
  · have : Leaf.constrainFn ninf (fin b) = fun x => b - Real.exp (-x) := by
      funext x; simp [Leaf.constrainFn, constrainReal, constrain, Flt.toReal]
    rw [this, (((hasDerivAt_neg x).exp).const_sub b).deriv]
    simp only [mul_neg, mul_one, neg_neg]; positivity
  · have : Leaf.constrainFn (fin a) (fin b) =
        fun x => (b - a) * Real.exp x / (1 + Real.exp x) + a := by
      funext x
      simp [Leaf.constrainFn, constrainReal, constrain_both x a b hab, Flt.toReal]
    rw [this]
    have h1 : 1 + Real.exp x ≠ 0 := by positivity
    have h2 := ((((Real.hasDerivAt_exp x).const_mul (b - a)).div
      ((Real.hasDerivAt_exp x).const_add 1) h1).add_const a).deriv
    have h3 : deriv (fun x => (b - a) * Real.exp x / (1 + Real.exp x) + a) x = _ := h2
    rw [h3]
    have h4 : (b - a) * Real.exp x * (1 + Real.exp x) - (b - a) * Real.exp x * Real.exp x =
        (b - a) * Real.exp x := by ring
    rw [h4]
    have : 0 < b - a := sub_pos.mpr hab
    positivity

theorem rank_map {n : ℕ} {f : ℝ → ℝ} (hf : ∀ t, deriv f t ≠ 0) {x : List ℝ} (hx : x.length = n) :
    RankOK n n (fun x => x.map f) x := by
  intro u hu j hj
  have h := hu j hj
  rw [Finset.sum_eq_single j] at h
  · rw [D1_map (by omega), if_pos rfl] at h
    exact (mul_eq_zero.mp h).resolve_left (hf _)
  · intro b _ hb
    rw [D1_map (by omega), if_neg (Ne.symm hb), zero_mul]
  · intro hc; exact absurd (Finset.mem_range.mpr hj) hc

/-! ### Blocks -/

theorem sum_range_blocks (f : ℕ → ℝ) (k : ℕ) : ∀ len : ℕ,
    ∑ j ∈ Finset.range (k * len), f j =
      ∑ r ∈ Finset.range len, ∑ b ∈ Finset.range k, f (r * k + b)
  | 0 => by simp
  | len + 1 => by
    rw [Nat.mul_succ, Finset.sum_range_add, Finset.sum_range_succ, sum_range_blocks f k len]
    simp only [Nat.mul_comm k len]

theorem rank_blockG {G1 : List ℝ → List ℝ} {len k m1 : ℕ} {x : List ℝ}
    (hG : ∀ y : List ℝ, y.length = k → (G1 y).length = m1) (hx : x.length = k * len)
    (h : ∀ y : List ℝ, y.length = k → RankOK k m1 G1 y) :
    RankOK (k * len) (len * m1) (blockG G1 len k) x := by
  intro u hu j hj
  have hk : 0 < k := by
    rcases Nat.eq_zero_or_pos k with h | h
    · subst h; simp at hj
    · exact h
  have hr : j / k < len := Nat.div_lt_of_lt_mul hj
  have hb : j % k < k := Nat.mod_lt _ hk
  have e : j / k * k + j % k = j := Nat.div_add_mod' j k
  have key := h (Leaf.slice x (k * (j / k)) k) (slice_length hx hr) (fun b => u (j / k * k + b)) ?_
    (j % k) hb
  · rw [← e]; exact key
  · intro a ha
    have hlt : j / k * m1 + a < len * m1 := by
      have : (j / k + 1) * m1 ≤ len * m1 := Nat.mul_le_mul_right m1 hr
      rw [Nat.add_mul] at this; omega
    have h1 := hu (j / k * m1 + a) hlt
    rw [sum_range_blocks, Finset.sum_eq_single (j / k)] at h1
    · rw [← h1]
      apply Finset.sum_congr rfl
      intro b hb
      rw [D1_blockG hG hx hr ha (Finset.mem_range.mp hb), if_pos rfl]
    · intro r _ hr'
      apply Finset.sum_eq_zero
      intro b hb
      rw [D1_blockG hG hx hr ha (Finset.mem_range.mp hb), if_neg (Ne.symm hr'), zero_mul]
    · intro hc; exact absurd (Finset.mem_range.mpr hr) hc

theorem rank_cat {n1 n2 m1 m2 : ℕ} {G1 G2 : List ℝ → List ℝ} {x : List ℝ}
    (h1 : ∀ y : List ℝ, y.length = n1 → (G1 y).length = m1) (hx : x.length = n1 + n2)
    (r1 : RankOK n1 m1 G1 (x.take n1)) (r2 : RankOK n2 m2 G2 (x.drop n1)) :
    RankOK (n1 + n2) (m1 + m2) (catG n1 G1 G2) x := by
  intro u hu j hj
  by_cases hlt : j < n1
  · refine r1 u ?_ j hlt
    intro i hi
    have h := hu i (by omega)
    rw [Finset.sum_range_add] at h
    rw [Finset.sum_eq_zero (s := Finset.range n2), add_zero] at h
    · rw [← h]
      apply Finset.sum_congr rfl
      intro b hb
      rw [D1_cat_left h1 (by omega) hi, if_pos (Finset.mem_range.mp hb)]
    · intro b _
      rw [D1_cat_left h1 (by omega) hi, if_neg (by omega), zero_mul]
  · obtain ⟨j, rfl⟩ : ∃ k, j = n1 + k := ⟨j - n1, by omega⟩
    refine r2 (fun b => u (n1 + b)) ?_ j (by omega)
    intro i hi
    have h := hu (m1 + i) (by omega)
    rw [Finset.sum_range_add] at h
    rw [Finset.sum_eq_zero (s := Finset.range n1), zero_add] at h
    · rw [← h]
      apply Finset.sum_congr rfl
      intro b _
      rw [D1_cat_right h1 (by omega) i, if_neg (by omega), Nat.add_sub_cancel_left]
    · intro b hb
      rw [D1_cat_right h1 (by omega) i, if_pos (Finset.mem_range.mp hb), zero_mul]

/-! ### Subspaces -/

theorem rank_matvec {B : Arr} {dim free : ℕ}
    (hB : ∀ i < free, ∀ j < free, ∑ k ∈ Finset.range dim, B.at2 k i * B.at2 k j =
      if i = j then 1 else 0) {x : List ℝ} (hx : x.length = free) :
    RankOK free dim (Leaf.matvec B dim free) x := by
  intro u hu j hj
  have h0 : ∑ i ∈ Finset.range dim, B.at2 i j * ∑ k ∈ Finset.range free, B.at2 i k * u k = 0 := by
    apply Finset.sum_eq_zero
    intro i hi
    have hi := Finset.mem_range.mp hi
    have : ∑ k ∈ Finset.range free, B.at2 i k * u k = 0 := by
      rw [← hu i hi]
      apply Finset.sum_congr rfl
      intro k hk
      rw [matvec_D1 hx hi (Finset.mem_range.mp hk)]
    rw [this, mul_zero]
  simp only [Finset.mul_sum] at h0
  rw [Finset.sum_comm] at h0
  rw [Finset.sum_eq_single j] at h0
  · simp only [← mul_assoc] at h0
    rw [← Finset.sum_mul, hB j hj j hj, if_pos rfl, one_mul] at h0
    exact h0
  · intro k hk hkj
    simp only [← mul_assoc]
    rw [← Finset.sum_mul, hB j hj k (Finset.mem_range.mp hk), if_neg (Ne.symm hkj), zero_mul]
  · intro hc; exact absurd (Finset.mem_range.mpr hj) hc

/-! ### Simplexes -/

theorem rank_softVec {c : ℕ} {y : List ℝ} (hy : y.length = c - 1) : RankOK (c - 1) c (softVec c) y := by
  intro u hu j hj
  have hz : ∀ i < c, softZ c y i ≠ 0 := fun i hi =>
    (div_pos (Real.exp_pos _) (soft_sum_pos y hi)).ne'
  have key : ∀ i < c, (∑ b ∈ Finset.range (c - 1), (if i = b + 1 then 1 else 0) * u b) =
      ∑ b ∈ Finset.range (c - 1), softZ c y (b + 1) * u b := by
    intro i hi
    have h := hu i hi
    have e : ∑ b ∈ Finset.range (c - 1), D1 (softVec c) y i b * u b =
        softZ c y i * ((∑ b ∈ Finset.range (c - 1), (if i = b + 1 then 1 else 0) * u b) -
          ∑ b ∈ Finset.range (c - 1), softZ c y (b + 1) * u b) := by
      rw [← Finset.sum_sub_distrib, Finset.mul_sum]
      apply Finset.sum_congr rfl
      intro b hb
      rw [softVec_D1 hy hi (Finset.mem_range.mp hb)]
      ring
    rw [e] at h
    exact sub_eq_zero.mp ((mul_eq_zero.mp h).resolve_left (hz i hi))
  have k0 := key 0 (by omega)
  have k1 := key (j + 1) (by omega)
  rw [← k0] at k1
  simpa [Finset.sum_ite_eq, hj] using k1

/-! ### Positive definite matrices -/

/-- The derivative of the Cholesky factor in the direction `u`. -/
noncomputable def cholDir (x : List ℝ) (u : ℕ → ℝ) (i j : ℕ) : ℝ :=
  if j < i then u (symIndex i j)
  else if j = i then Real.exp (x.getD (symIndex i i) 0) * u (symIndex i i)
  else 0

theorem cholDir_hasDerivAt {n : ℕ} {x : List ℝ} (u : ℕ → ℝ) {i j : ℕ}
    (hi : i < n) (hx : x.length = vecSizeOf n) :
    HasDerivAt (fun t : ℝ => cholFn (vecSizeOf n) (toVec (vecSizeOf n) x + t • fun k : Fin (vecSizeOf n) => u k)
      i j) (cholDir x u i j) 0 := by
  have hlin : ∀ k < vecSizeOf n, HasDerivAt (fun t : ℝ => x.getD k 0 + t * u k) (u k) 0 := by
    intro k _
    simpa using ((hasDerivAt_id (0 : ℝ)).mul_const (u k)).const_add (x.getD k 0)
  have hs : ∀ {a b : ℕ}, a < n → b < n → symIndex a b < vecSizeOf n := fun ha hb => by
    rw [vecSizeOf_eq]; exact symIndex_lt ha hb
  unfold cholFn cholDir
  by_cases h1 : j < i
  · have hk := hs hi (h1.trans hi)
    simp only [h1, if_true, hk, dite_true, Pi.add_apply, Pi.smul_apply, smul_eq_mul, toVec]
    exact hlin _ hk
  · by_cases h2 : j = i
    · subst h2
      have hk := hs hi hi
      simp only [lt_irrefl, if_true, if_false, hk, dite_true, Pi.add_apply, Pi.smul_apply, smul_eq_mul,
        toVec]
      have := (hlin _ hk).exp
      simpa using this
    · simp only [h1, h2, if_false]
      exact hasDerivAt_const _ _

theorem rank_posdef {n : ℕ} {d : ℝ} {x : List ℝ} (hx : x.length = vecSizeOf n) :
    RankOK (vecSizeOf n) (vecSizeOf n) (fun y => lowerVec n (unpackMat n y d)) x := by
  intro u hu
  -- the derivative of the matrix vanishes
  have hS : ∀ p < n, ∀ q ≤ p, ∑ k ∈ Finset.range n,
      (cholDir x u p k * freeChol x q k + freeChol x p k * cholDir x u q k) = 0 := by
    intro p hp q hq
    have hk : symIndex p q < vecSizeOf n := by
      rw [vecSizeOf_eq]; exact symIndex_lt hp (by omega)
    have hG : ∀ y : List ℝ, y.length = vecSizeOf n →
        ((fun y => lowerVec n (unpackMat n y d)) y).getD (symIndex p q) 0 =
        (fun v => (∑ k ∈ Finset.range n, cholFn (vecSizeOf n) v p k * cholFn (vecSizeOf n) v q k) +
          (if p = q then d else 0)) (toVec (vecSizeOf n) y) := by
      intro y hy
      have hl : symIndex p q < (trilIndices n).length := by simpa [vecSizeOf_eq] using hk
      have hpq : (trilIndices n)[symIndex p q] = (p, q) := by
        have h1 := trilIndices_getElem_symIndex hl
        have h2 : (trilIndices n)[symIndex p q].2 ≤ (trilIndices n)[symIndex p q].1 ∧
            (trilIndices n)[symIndex p q].1 < n := mem_trilIndices.mp (List.getElem_mem hl)
        generalize (trilIndices n)[symIndex p q] = z at h1 h2
        obtain ⟨a, b⟩ := z
        simp only at h1 h2
        rw [symIndex_of_le h2.1, symIndex_of_le hq] at h1
        have ha : a = p := by
          rcases Nat.lt_trichotomy a p with h | h | h
          · have := tri_mono (show a + 1 ≤ p from h)
            rw [tri_succ] at this; omega
          · exact h
          · have := tri_mono (show p + 1 ≤ a from h)
            rw [tri_succ] at this; omega
        subst ha
        have : b = q := by omega
        rw [this]
      simp only [lowerVec, List.getD_eq_getElem?_getD, List.getElem?_map,
        List.getElem?_eq_getElem hl, hpq, Option.map_some, Option.getD_some]
      rw [unpackMat, Arr.at2_ofFn2 _ _ _ hp (by omega)]
      congr 1
      apply Finset.sum_congr rfl
      intro k _
      rw [cholFn_eq hy, cholFn_eq hy]
    have hc : ContDiff ℝ 2 (fun v => (∑ k ∈ Finset.range n,
        cholFn (vecSizeOf n) v p k * cholFn (vecSizeOf n) v q k) + (if p = q then d else 0)) :=
      (ContDiff.sum fun k _ => (cholFn_smooth _ p k).mul (cholFn_smooth _ q k)).add contDiff_const
    have h0 := hu _ hk
    have h1 : ∑ j ∈ Finset.range (vecSizeOf n),
        D1 (fun y => lowerVec n (unpackMat n y d)) x (symIndex p q) j * u j =
        fderiv ℝ (fun v => (∑ k ∈ Finset.range n,
          cholFn (vecSizeOf n) v p k * cholFn (vecSizeOf n) v q k) + (if p = q then d else 0))
          (toVec (vecSizeOf n) x) (fun k => u k) := by
      rw [clm_apply_sum, Finset.sum_range]
      apply Finset.sum_congr rfl
      intro j _
      rw [Smooth.D1_eq hc hG hx j, mul_comm]
    rw [h1] at h0
    have h2 : HasDerivAt (fun t : ℝ => (fun v => (∑ k ∈ Finset.range n,
        cholFn (vecSizeOf n) v p k * cholFn (vecSizeOf n) v q k) + (if p = q then d else 0))
        (toVec (vecSizeOf n) x + t • fun k : Fin (vecSizeOf n) => u k)) 0 0 := by
      have hd := (hc.differentiable (by norm_num)) (toVec (vecSizeOf n) x)
      have hl : HasDerivAt (fun t : ℝ => toVec (vecSizeOf n) x + t • fun k : Fin (vecSizeOf n) => u k)
          (fun k : Fin (vecSizeOf n) => u k) 0 := by
        simpa using ((hasDerivAt_id (0 : ℝ)).smul_const (fun k : Fin (vecSizeOf n) => u k)).const_add
          (toVec (vecSizeOf n) x)
      have hd' := hd.hasFDerivAt
      have e0 : toVec (vecSizeOf n) x = toVec (vecSizeOf n) x + (0 : ℝ) • fun k : Fin (vecSizeOf n) => u k := by
        simp
      rw [e0] at hd'
      have := hd'.comp_hasDerivAt (0 : ℝ) hl
      rw [← e0] at this
      rw [h0] at this
      exact this
    have h3 := (HasDerivAt.fun_sum (u := Finset.range n) fun k _ =>
      (cholDir_hasDerivAt (j := k) u hp hx).mul
        (cholDir_hasDerivAt (i := q) (j := k) u (by omega) hx)).add_const (if p = q then d else 0)
    have h4 := h2.unique h3
    simp only [zero_smul, add_zero, ← cholFn_eq hx] at h4
    exact h4.symm
  -- hence so does the derivative of the factor, column by column
  have hcol : ∀ q, q < n → ∀ p, q ≤ p → p < n → cholDir x u p q = 0 := by
    intro q
    induction q using Nat.strong_induction_on with
    | _ q ih =>
      intro hq
      have hred : ∀ p, q ≤ p → p < n →
          cholDir x u p q * freeChol x q q + freeChol x p q * cholDir x u q q = 0 := by
        intro p hqp hp
        have h := hS p hp q hqp
        rw [Finset.sum_eq_single q] at h
        · exact h
        · intro k _ hk
          rcases Nat.lt_or_gt_of_ne hk with h | h
          · rw [ih k h (by omega) p (by omega) hp, ih k h (by omega) q (by omega) hq]; ring
          · have e1 : freeChol x q k = 0 := by
              unfold freeChol; rw [if_neg (by omega), if_neg (by omega)]
            have e2 : cholDir x u q k = 0 := by
              unfold cholDir; rw [if_neg (by omega), if_neg (by omega)]
            rw [e1, e2]; ring
        · intro hc; exact absurd (Finset.mem_range.mpr hq) hc
      have hpos : 0 < freeChol x q q := by
        unfold freeChol
        rw [if_neg (lt_irrefl _), if_pos rfl]; exact Real.exp_pos _
      have hqq : cholDir x u q q = 0 := by
        have := hred q le_rfl hq
        have : freeChol x q q * cholDir x u q q = 0 := by linarith
        exact (mul_eq_zero.mp this).resolve_left hpos.ne'
      intro p hqp hp
      have := hred p hqp hp
      rw [hqq, mul_zero, add_zero] at this
      exact (mul_eq_zero.mp this).resolve_right hpos.ne'
  intro i hi
  have hl : i < (trilIndices n).length := by simpa [vecSizeOf_eq] using hi
  have h1 := trilIndices_getElem_symIndex hl
  have h2 : (trilIndices n)[i].2 ≤ (trilIndices n)[i].1 ∧ (trilIndices n)[i].1 < n :=
    mem_trilIndices.mp (List.getElem_mem hl)
  generalize (trilIndices n)[i] = z at h1 h2
  obtain ⟨p, q⟩ := z
  simp only at h1 h2
  have h3 := hcol q (by omega) p h2.1 h2.2
  unfold cholDir at h3
  rcases Nat.lt_or_eq_of_le h2.1 with h | h
  · rw [if_pos h, h1] at h3; exact h3
  · subst h
    rw [if_neg (lt_irrefl _), if_pos rfl, h1] at h3
    exact (mul_eq_zero.mp h3).resolve_left (Real.exp_pos _).ne'

/-! ### Leaves and dictionaries -/

theorem RankOK.congr {n m : ℕ} {G G' : List ℝ → List ℝ} {x : List ℝ} (hx : x.length = n)
    (h : ∀ y : List ℝ, y.length = n → G' y = G y) (hr : RankOK n m G x) : RankOK n m G' x := by
  intro u hu
  refine hr u fun i hi => ?_
  rw [← hu i hi]
  apply Finset.sum_congr rfl
  intro j _
  unfold D1
  simp only [h _ (show (x.set j _).length = n by simpa using hx)]

theorem rank_ftv (k : Kind) (hk : k.Legal) {x : List ℝ} (hx : x.length = k.freeSize) :
    RankOK k.freeSize k.vecSize (ftv k) x := by
  cases k with
  | scalar lb ub => exact rank_map (fun t => (deriv_constrainFn_pos hk t).ne') hx
  | vector n lb ub => exact rank_map (fun t => (deriv_constrainFn_pos hk t).ne') hx
  | array s lb ub => exact rank_map (fun t => (deriv_constrainFn_pos hk t).ne') hx
  | posdef n d => exact rank_posdef hx
  | posdefVec len n d =>
    have := rank_blockG (len := len) (G1 := fun y => lowerVec n (unpackMat n y d)) (x := x)
      (fun y _ => lowerVec_length n (unpackMat n y d)) hx
      (fun y hy => rank_posdef hy)
    rw [Nat.mul_comm len (vecSizeOf n)] at this
    exact this
  | posdefArr s n d =>
    have := rank_blockG (len := s.prod) (G1 := fun y => lowerVec n (unpackMat n y d)) (x := x)
      (fun y _ => lowerVec_length n (unpackMat n y d)) hx
      (fun y hy => rank_posdef hy)
    rw [Nat.mul_comm s.prod (vecSizeOf n)] at this
    exact this
  | simplex r c =>
    have := rank_blockG (len := r) (G1 := softVec c) (x := x) (fun y _ => softVec_length c y)
      (by rw [hx, Kind.freeSize, Nat.mul_comm]) (fun y hy => rank_softVec hy)
    rw [Nat.mul_comm (c - 1)] at this
    exact this.congr hx fun x hx => simplexMat_blockG hx
  | subspace dim free basis => exact rank_matvec hk.2 hx

mutual
theorem Param.rank_ftvP : ∀ (p : Param), p.WF → ∀ {x : List ℝ}, x.length = p.freeSize →
    RankOK p.freeSize p.vecSize p.ftvP x
  | .leaf l, hw, _, hx => rank_ftv l.kind hw hx
  | .dict h es, hw, x, hx => by
    simp only [Param.WF] at hw
    simp only [Param.freeSize, Param.vecSize] at hx ⊢
    rw [hw.2.2.1] at hx
    rw [hw.2.2.1, hw.2.2.2.1]
    exact Entries.rank_ftvE es hw.1 hx
theorem Entries.rank_ftvE : ∀ (es : Entries), es.WF → ∀ {x : List ℝ}, x.length = es.fsum →
    RankOK es.fsum es.vsum es.ftvE x
  | .nil, _, _, _ => fun u _ j hj => by simp [Entries.fsum] at hj
  | .cons k p rest, hw, x, hx => by
    simp only [Entries.WF] at hw
    simp only [Entries.fsum] at hx
    exact rank_cat (Param.ftvP_length p hw.1) hx
      (Param.rank_ftvP p hw.1 (by simp; omega)) (Entries.rank_ftvE rest hw.2.2 (by simp; omega))
end

end LRVB
