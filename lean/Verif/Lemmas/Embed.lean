import Verif.Lemmas.FullRank
import Mathlib.Analysis.Calculus.InverseFunctionTheorem.FDeriv
import Mathlib.Analysis.Calculus.ContDiff.RCLike

/-! The map from free values to vectors has a continuous inverse on its image. -/

namespace LRVB

open Flt Topology

/-- Vectors close to `G x` come only from free values close to `x`. -/
def EmbOK (n m : ℕ) (G : List ℝ → List ℝ) (x : List ℝ) : Prop :=
  ∀ ε > 0, ∃ δ > 0, ∀ y : List ℝ, y.length = n →
    (∀ i < m, |(G y).getD i 0 - (G x).getD i 0| < δ) → ∀ j < n, |y.getD j 0 - x.getD j 0| < ε

theorem dist_toVec_lt {n : ℕ} {x y : List ℝ} {ε : ℝ} (hε : 0 < ε) :
    dist (toVec n y) (toVec n x) < ε ↔ ∀ j < n, |y.getD j 0 - x.getD j 0| < ε := by
  rw [dist_pi_lt_iff hε]
  constructor
  · intro h j hj
    have := h ⟨j, hj⟩
    rwa [Real.dist_eq] at this
  · intro h j
    rw [Real.dist_eq]
    exact h j j.2

/-- With as many outputs as inputs, a smooth map of full rank is open. -/
theorem open_of_rank {n m : ℕ} (hnm : n = m) {G : List ℝ → List ℝ} (hs : Smooth n m G) {x : List ℝ}
    (hx : x.length = n) (hr : RankOK n m G x) :
    ∀ ε > 0, ∃ δ > 0, ∀ v : Fin m → ℝ, dist v (toVec m (G x)) < δ →
      ∃ y : List ℝ, y.length = n ∧ dist (toVec n y) (toVec n x) < ε ∧ toVec m (G y) = v := by
  subst hnm
  obtain ⟨Γ, h1, h2, h3⟩ := hs.exists_fun
  have hc : ContDiff ℝ 2 Γ := contDiff_pi.mpr h1
  have hd := hc.contDiffAt.hasStrictFDerivAt (x := toVec n x) (by norm_num)
  have hinj : Function.Injective (fderiv ℝ Γ (toVec n x)) := by
    refine (LinearMap.ker_eq_bot (f := (fderiv ℝ Γ (toVec n x) : (Fin n → ℝ) →ₗ[ℝ] (Fin n → ℝ)))).mp ?_
    rw [LinearMap.ker_eq_bot']
    intro w hw
    have key := hr (fun j => if hj : j < n then w ⟨j, hj⟩ else 0) (fun i hi => by
      rw [Finset.sum_range]
      have e : ∀ j : Fin n, D1 G x i j = fderiv ℝ Γ (toVec n x) (Pi.single j 1) ⟨i, hi⟩ := by
        intro j
        rw [Smooth.D1_eq (h1 ⟨i, hi⟩) (h3 i hi) hx j]
        have := hasFDerivAt_pi'.mp (hc.differentiable (by norm_num) (toVec n x)).hasFDerivAt ⟨i, hi⟩
        rw [this.fderiv]
        rfl
      simp only [e, Fin.is_lt, dite_true, Fin.eta]
      have := congrFun hw ⟨i, hi⟩
      have e2 := clm_apply_sum ((ContinuousLinearMap.proj ⟨i, hi⟩).comp (fderiv ℝ Γ (toVec n x))) w
      simp only [ContinuousLinearMap.comp_apply, ContinuousLinearMap.proj_apply] at e2
      rw [← show fderiv ℝ Γ (toVec n x) w ⟨i, hi⟩ = 0 from this, e2]
      exact Finset.sum_congr rfl fun j _ => mul_comm _ _)
    funext j
    simpa using key j j.2
  let L : (Fin n → ℝ) ≃L[ℝ] (Fin n → ℝ) :=
    (LinearEquiv.ofInjectiveEndo (fderiv ℝ Γ (toVec n x) : (Fin n → ℝ) →ₗ[ℝ] (Fin n → ℝ))
      hinj).toContinuousLinearEquiv
  have hL : (L : (Fin n → ℝ) →L[ℝ] (Fin n → ℝ)) = fderiv ℝ Γ (toVec n x) := by
    ext w; rfl
  rw [← hL] at hd
  have hmap := hd.map_nhds_eq_of_equiv
  intro ε hε
  have hmem : Γ '' Metric.ball (toVec n x) ε ∈ 𝓝 (Γ (toVec n x)) := by
    rw [← hmap]
    exact Filter.image_mem_map (Metric.ball_mem_nhds _ hε)
  obtain ⟨δ, hδ, hsub⟩ := Metric.mem_nhds_iff.mp hmem
  refine ⟨δ, hδ, fun v hv => ?_⟩
  rw [h2 x hx] at hv
  obtain ⟨u, hu, rfl⟩ := hsub hv
  obtain ⟨y, hy, rfl⟩ := exists_toVec u
  exact ⟨y, hy, hu, h2 y hy⟩

/-- ... and if it is injective, its inverse is continuous. -/
theorem emb_of_rank {n : ℕ} {G : List ℝ → List ℝ} (hs : Smooth n n G) {x : List ℝ}
    (hx : x.length = n) (hr : RankOK n n G x)
    (hi : ∀ y z : List ℝ, y.length = n → z.length = n → toVec n (G y) = toVec n (G z) → y = z) :
    EmbOK n n G x := by
  intro ε hε
  obtain ⟨δ, hδ, h⟩ := open_of_rank rfl hs hx hr ε hε
  refine ⟨δ, hδ, fun y hy hc => ?_⟩
  obtain ⟨z, hz, hz1, hz2⟩ := h (toVec n (G y)) ((dist_toVec_lt hδ).mpr hc)
  rw [hi y z hy hz hz2.symm]
  exact (dist_toVec_lt hε).mp hz1

/-- A continuous left inverse. -/
theorem emb_of_inverse {n m : ℕ} {G : List ℝ → List ℝ} {x : List ℝ} (hx : x.length = n)
    (ψ : (Fin m → ℝ) → Fin n → ℝ) (hc : ∀ j, ContinuousAt (fun v => ψ v j) (toVec m (G x)))
    (h : ∀ y : List ℝ, y.length = n → ψ (toVec m (G y)) = toVec n y) : EmbOK n m G x := by
  intro ε hε
  obtain ⟨δ, hδ, hd⟩ := Metric.continuousAt_iff.mp (continuousAt_pi.mpr hc) ε hε
  refine ⟨δ, hδ, fun y hy hcl => ?_⟩
  have := hd ((dist_toVec_lt hδ).mpr hcl)
  rw [h y hy, h x hx] at this
  exact (dist_toVec_lt hε).mp this

/-! ### The parts -/

theorem toVec_inj {n : ℕ} {y z : List ℝ} (hy : y.length = n) (hz : z.length = n)
    (h : toVec n y = toVec n z) : y = z := by
  apply List.ext_getElem (by omega)
  intro i h1 h2
  have := congrFun h ⟨i, by omega⟩
  simpa [toVec, List.getD_eq_getElem?_getD, h1, h2] using this

theorem emb_map {n : ℕ} {lb ub : Flt} (hb : lb < ub) {x : List ℝ} (hx : x.length = n) :
    EmbOK n n (fun x => x.map (Leaf.constrainFn lb ub)) x := by
  refine emb_of_rank (smooth_map (smooth_constrainFn hb)) hx
    (rank_map (fun t => (deriv_constrainFn_pos hb t).ne') hx) fun y z hy hz h => ?_
  have h' := toVec_inj (by simpa using hy) (by simpa using hz) h
  have := unconstrainVec_constrainFn hb y
  rw [h', unconstrainVec_constrainFn hb z] at this
  exact (Except.ok.inj this).symm

theorem emb_posdef {n : ℕ} {d : ℝ} {x : List ℝ} (hx : x.length = vecSizeOf n) :
    EmbOK (vecSizeOf n) (vecSizeOf n) (fun y => lowerVec n (unpackMat n y d)) x := by
  refine emb_of_rank (smooth_posdef n d) hx (rank_posdef hx) fun y z hy hz h => ?_
  have h' := toVec_inj (lowerVec_length _ _) (lowerVec_length _ _) h
  have hle : ∀ p < n, ∀ q ≤ p, (unpackMat n y d).at2 p q = (unpackMat n z d).at2 p q := by
    intro p hp q hq
    have hmem : (p, q) ∈ trilIndices n := mem_trilIndices.mpr ⟨hq, hp⟩
    exact List.map_inj_left.mp h' (p, q) hmem
  have hsym : ∀ w : List ℝ, ∀ p < n, ∀ q < n, (unpackMat n w d).at2 p q = (unpackMat n w d).at2 q p := by
    intro w p hp q hq
    unfold unpackMat
    rw [Arr.at2_ofFn2 _ _ _ hp hq, Arr.at2_ofFn2 _ _ _ hq hp]
    congr 1
    · exact Finset.sum_congr rfl fun k _ => mul_comm _ _
    · simp [eq_comm]
  have hall : ∀ p < n, ∀ q < n, (unpackMat n y d).at2 p q = (unpackMat n z d).at2 p q := by
    intro p hp q hq
    rcases Nat.le_total q p with hc | hc
    · exact hle p hp q hc
    · rw [hsym y p hp q hq, hsym z p hp q hq]; exact hle q hq p hc
  have heq : unpackMat n y d = unpackMat n z d := by
    unfold unpackMat
    apply Arr.ofFn2_congr
    intro p hp q hq
    have := hall p hp q hq
    unfold unpackMat at this
    rwa [Arr.at2_ofFn2 _ _ _ hp hq, Arr.at2_ofFn2 _ _ _ hp hq] at this
  have := pack_unpackMat d hy
  rw [heq, pack_unpackMat d hz] at this
  exact (Except.ok.inj this).symm

theorem emb_matvec {B : Arr} {dim free : ℕ}
    (hB : ∀ i < free, ∀ j < free, ∑ k ∈ Finset.range dim, B.at2 k i * B.at2 k j =
      if i = j then 1 else 0) {x : List ℝ} (hx : x.length = free) :
    EmbOK free dim (Leaf.matvec B dim free) x := by
  refine emb_of_inverse hx (fun v j => ∑ i : Fin dim, B.at2 i j * v i) (fun j => ?_) fun y hy => ?_
  · exact (continuous_finsetSum _ fun i _ => continuous_const.mul (continuous_apply i)).continuousAt
  · funext j
    have e : ∀ i : Fin dim, toVec dim (Leaf.matvec B dim free y) i =
        ∑ k ∈ Finset.range free, B.at2 i k * y.getD k 0 := by
      intro i
      simp [toVec, Leaf.matvec, List.getD_eq_getElem?_getD]
    simp only [e, Finset.mul_sum]
    rw [Finset.sum_comm, Finset.sum_eq_single (j : ℕ)]
    · simp only [← mul_assoc]
      rw [← Finset.sum_mul, Fin.sum_univ_eq_sum_range fun i => B.at2 i j * B.at2 i j,
        hB j j.2 j j.2, if_pos rfl, one_mul]
      rfl
    · intro k hk hkj
      simp only [← mul_assoc]
      rw [← Finset.sum_mul, Fin.sum_univ_eq_sum_range fun i => B.at2 i j * B.at2 i k,
        hB j j.2 k (Finset.mem_range.mp hk), if_neg (Ne.symm hkj), zero_mul]
    · intro hc; exact absurd (Finset.mem_range.mpr j.2) hc

theorem emb_softVec {c : ℕ} {x : List ℝ} (hx : x.length = c - 1) :
    EmbOK (c - 1) c (softVec c) x := by
  rcases Nat.eq_zero_or_pos c with rfl | hc
  · exact fun ε hε => ⟨1, one_pos, fun y hy _ j hj => absurd hj (by omega)⟩
  have hv : ∀ (y : List ℝ) (i : Fin c), toVec c (softVec c y) i = softZ c y i := by
    intro y i
    exact softVec_getD y i.2
  have hpos : ∀ (y : List ℝ) (i : Fin c), 0 < softZ c y i := fun y i =>
    div_pos (Real.exp_pos _) (soft_sum_pos y i.2)
  refine emb_of_inverse hx (fun v j => Real.log (v ⟨j + 1, by omega⟩) - Real.log (v ⟨0, hc⟩))
    (fun j => ?_) fun y hy => ?_
  · apply ContinuousAt.sub
    · apply ContinuousAt.log
      · exact (continuous_apply _).continuousAt
      · rw [hv]; exact (hpos _ _).ne'
    · apply ContinuousAt.log
      · exact (continuous_apply _).continuousAt
      · rw [hv]; exact (hpos _ _).ne'
  · funext j
    simp only [hv]
    have hs : 0 < ∑ k ∈ Finset.range c, Real.exp (aug y k) := soft_sum_pos y hc
    unfold softZ
    rw [Real.log_div (Real.exp_pos _).ne' hs.ne', Real.log_div (Real.exp_pos _).ne' hs.ne',
      Real.log_exp, Real.log_exp]
    simp [aug, toVec]

theorem exists_delta (P : ℕ → ℝ → Prop) (hP : ∀ r δ δ', δ' ≤ δ → P r δ → P r δ')
    (len : ℕ) (h : ∀ r < len, ∃ δ > 0, P r δ) : ∃ δ > 0, ∀ r < len, P r δ := by
  induction len with
  | zero => exact ⟨1, one_pos, fun r hr => absurd hr (by omega)⟩
  | succ len ih =>
    obtain ⟨δ, hδ, h1⟩ := ih fun r hr => h r (by omega)
    obtain ⟨δ', hδ', h2⟩ := h len (by omega)
    refine ⟨min δ δ', lt_min hδ hδ', fun r hr => ?_⟩
    rcases Nat.lt_or_eq_of_le (Nat.le_of_lt_succ hr) with hr | rfl
    · exact hP r _ _ (min_le_left _ _) (h1 r hr)
    · exact hP r _ _ (min_le_right _ _) h2

theorem emb_blockG {G1 : List ℝ → List ℝ} {len k m1 : ℕ} {x : List ℝ}
    (hG : ∀ y : List ℝ, y.length = k → (G1 y).length = m1) (hx : x.length = k * len)
    (h : ∀ y : List ℝ, y.length = k → EmbOK k m1 G1 y) :
    EmbOK (k * len) (len * m1) (blockG G1 len k) x := by
  intro ε hε
  obtain ⟨δ, hδ, h1⟩ := exists_delta (fun r δ => ∀ y : List ℝ, y.length = k →
      (∀ i < m1, |(G1 y).getD i 0 - (G1 (Leaf.slice x (k * r) k)).getD i 0| < δ) →
      ∀ j < k, |y.getD j 0 - (Leaf.slice x (k * r) k).getD j 0| < ε)
    (fun r δ δ' hle hp y hy hc => hp y hy fun i hi => (hc i hi).trans_le hle) len
    (fun r hr => h _ (slice_length hx hr) ε hε)
  refine ⟨δ, hδ, fun y hy hc j hj => ?_⟩
  have hk : 0 < k := by
    rcases Nat.eq_zero_or_pos k with h | h
    · subst h; simp at hj
    · exact h
  have hr : j / k < len := Nat.div_lt_of_lt_mul hj
  have hb : j % k < k := Nat.mod_lt _ hk
  have e : k * (j / k) + j % k = j := Nat.div_add_mod j k
  have key := h1 (j / k) hr (Leaf.slice y (k * (j / k)) k) (slice_length hy hr) (fun i hi => ?_) (j % k) hb
  · rw [slice_getD hb, slice_getD hb, e] at key
    exact key
  · have hlt : j / k * m1 + i < len * m1 := by
      have : (j / k + 1) * m1 ≤ len * m1 := Nat.mul_le_mul_right m1 hr
      rw [Nat.add_mul] at this; omega
    have := hc _ hlt
    rwa [blockG_getD hG hy hr hi, blockG_getD hG hx hr hi] at this

theorem emb_cat {n1 n2 m1 m2 : ℕ} {G1 G2 : List ℝ → List ℝ} {x : List ℝ}
    (h1 : ∀ y : List ℝ, y.length = n1 → (G1 y).length = m1) (hx : x.length = n1 + n2)
    (r1 : EmbOK n1 m1 G1 (x.take n1)) (r2 : EmbOK n2 m2 G2 (x.drop n1)) :
    EmbOK (n1 + n2) (m1 + m2) (catG n1 G1 G2) x := by
  intro ε hε
  obtain ⟨δ1, hδ1, e1⟩ := r1 ε hε
  obtain ⟨δ2, hδ2, e2⟩ := r2 ε hε
  refine ⟨min δ1 δ2, lt_min hδ1 hδ2, fun y hy hc j hj => ?_⟩
  by_cases hlt : j < n1
  · have := e1 (y.take n1) (by simp; omega) (fun i hi => ?_) j hlt
    · rwa [take_getD hlt, take_getD hlt] at this
    · have := hc i (by omega)
      rw [catG_getD_left h1 (by omega) hi, catG_getD_left h1 (by omega) hi] at this
      exact this.trans_le (min_le_left _ _)
  · obtain ⟨j, rfl⟩ : ∃ k, j = n1 + k := ⟨j - n1, by omega⟩
    have := e2 (y.drop n1) (by simp; omega) (fun i hi => ?_) j (by omega)
    · rwa [drop_getD, drop_getD] at this
    · have := hc (m1 + i) (by omega)
      rw [catG_getD_right h1 (by omega) i, catG_getD_right h1 (by omega) i] at this
      exact this.trans_le (min_le_right _ _)

theorem EmbOK.congr {n m : ℕ} {G G' : List ℝ → List ℝ} {x : List ℝ} (hx : x.length = n)
    (h : ∀ y : List ℝ, y.length = n → G' y = G y) (hr : EmbOK n m G x) : EmbOK n m G' x := by
  intro ε hε
  obtain ⟨δ, hδ, h1⟩ := hr ε hε
  refine ⟨δ, hδ, fun y hy hc => h1 y hy fun i hi => ?_⟩
  rw [← h y hy, ← h x hx]
  exact hc i hi

theorem emb_ftv (k : Kind) (hk : k.Legal) {x : List ℝ} (hx : x.length = k.freeSize) :
    EmbOK k.freeSize k.vecSize (ftv k) x := by
  cases k with
  | scalar lb ub => exact emb_map hk hx
  | vector n lb ub => exact emb_map hk hx
  | array s lb ub => exact emb_map hk hx
  | posdef n d => exact emb_posdef hx
  | posdefVec len n d =>
    have := emb_blockG (len := len) (G1 := fun y => lowerVec n (unpackMat n y d)) (x := x)
      (fun y _ => lowerVec_length n (unpackMat n y d)) hx (fun y hy => emb_posdef hy)
    rw [Nat.mul_comm len (vecSizeOf n)] at this
    exact this
  | posdefArr s n d =>
    have := emb_blockG (len := s.prod) (G1 := fun y => lowerVec n (unpackMat n y d)) (x := x)
      (fun y _ => lowerVec_length n (unpackMat n y d)) hx (fun y hy => emb_posdef hy)
    rw [Nat.mul_comm s.prod (vecSizeOf n)] at this
    exact this
  | simplex r c =>
    have := emb_blockG (len := r) (G1 := softVec c) (x := x) (fun y _ => softVec_length c y)
      (by rw [hx, Kind.freeSize, Nat.mul_comm]) (fun y hy => emb_softVec hy)
    rw [Nat.mul_comm (c - 1)] at this
    exact this.congr hx fun x hx => simplexMat_blockG hx
  | subspace dim free basis => exact emb_matvec hk.2 hx

mutual
theorem Param.emb_ftvP : ∀ (p : Param), p.WF → ∀ {x : List ℝ}, x.length = p.freeSize →
    EmbOK p.freeSize p.vecSize p.ftvP x
  | .leaf l, hw, _, hx => emb_ftv l.kind hw hx
  | .dict h es, hw, x, hx => by
    simp only [Param.WF] at hw
    simp only [Param.freeSize, Param.vecSize] at hx ⊢
    rw [hw.2.2.1] at hx
    rw [hw.2.2.1, hw.2.2.2.1]
    exact Entries.emb_ftvE es hw.1 hx
theorem Entries.emb_ftvE : ∀ (es : Entries), es.WF → ∀ {x : List ℝ}, x.length = es.fsum →
    EmbOK es.fsum es.vsum es.ftvE x
  | .nil, _, _, _ => fun ε hε => ⟨1, one_pos, fun y _ _ j hj => by simp [Entries.fsum] at hj⟩
  | .cons k p rest, hw, x, hx => by
    simp only [Entries.WF] at hw
    simp only [Entries.fsum] at hx
    exact emb_cat (Param.ftvP_length p hw.1) hx
      (Param.emb_ftvP p hw.1 (by simp; omega)) (Entries.emb_ftvE rest hw.2.2 (by simp; omega))
end

end LRVB
