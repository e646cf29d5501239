import Verif.Lemmas.Round7

/-!
# Propagation of rounding errors

`App k a b M`: `a` is `b` up to `k` units of `M`, where `M` bounds `b` and is at least one.
-/

namespace LRVB

open Classical Flt

noncomputable section

namespace Binary64

/-- `a` is `b` up to `k` units of `M`. -/
structure App (k a b M : ℝ) : Prop where
  bound : |b| ≤ M
  one : 1 ≤ M
  err : |a - b| ≤ k * ulp * M

theorem ulp_le : ulp ≤ 1 / 10000 := by rw [ulp_eq]; norm_num

theorem App.exact {b M : ℝ} (h : |b| ≤ M) (h1 : 1 ≤ M) : App 0 b b M := ⟨h, h1, by simp⟩

theorem App.mono {k l a b M N : ℝ} (h : App k a b M) (hk : 0 ≤ k) (hkl : k ≤ l) (hMN : M ≤ N) : App l a b N := by
  refine ⟨h.bound.trans hMN, h.one.trans hMN, h.err.trans ?_⟩
  have := h.one
  exact mul_le_mul (mul_le_mul_of_nonneg_right hkl ulp_pos.le) hMN (by linarith)
    (mul_nonneg (hk.trans hkl) ulp_pos.le)

theorem App.abs_le {k a b M : ℝ} (h : App k a b M) (hk : k ≤ 2 ^ 50) : |a| ≤ 2 * M := by
  have h1 := abs_sub_abs_le_abs_sub a b
  have h2 := h.err
  have h3 := h.bound
  have h4 := h.one
  have h5 : k * ulp ≤ 1 := by
    rw [ulp_eq]
    norm_num at hk
    linarith
  nlinarith

theorem App.add {k a b M l c d N m : ℝ} (h : App k a b M) (h' : App l c d N) (hk : k ≤ m) (hl : l ≤ m) :
    App m (a + c) (b + d) (M + N) := by
  have h1 := h.one
  have h2 := h'.one
  have hu := ulp_pos
  refine ⟨(abs_add_le _ _).trans (add_le_add h.bound h'.bound), by linarith, ?_⟩
  have e : a + c - (b + d) = (a - b) + (c - d) := by ring
  rw [e]
  refine (abs_add_le _ _).trans ((add_le_add h.err h'.err).trans ?_)
  have a1 : k * ulp * M ≤ m * ulp * M :=
    mul_le_mul_of_nonneg_right (mul_le_mul_of_nonneg_right hk hu.le) (by linarith)
  have a2 : l * ulp * N ≤ m * ulp * N :=
    mul_le_mul_of_nonneg_right (mul_le_mul_of_nonneg_right hl hu.le) (by linarith)
  linarith

theorem App.neg {k a b M : ℝ} (h : App k a b M) : App k (-a) (-b) M :=
  ⟨by rw [abs_neg]; exact h.bound, h.one, by rw [show -a - -b = -(a - b) by ring, abs_neg]; exact h.err⟩

theorem App.mul {k a b M l c d N : ℝ} (h : App k a b M) (h' : App l c d N) (hk0 : 0 ≤ k) (hk : k ≤ 1000)
    (hl0 : 0 ≤ l) (hl : l ≤ 1000) : App (k + l + 1) (a * c) (b * d) (M * N) := by
  have h1 := h.one
  have h2 := h'.one
  have hu := ulp_pos
  have hu1 : k * l * ulp ≤ 1 := by
    have : k * l ≤ 1000 * 1000 := mul_le_mul hk hl hl0 (by norm_num)
    rw [ulp_eq]
    linarith
  refine ⟨by rw [abs_mul]; exact mul_le_mul h.bound h'.bound (abs_nonneg _) (by linarith), by nlinarith, ?_⟩
  have e : a * c - b * d = (a - b) * (c - d) + (a - b) * d + b * (c - d) := by ring
  rw [e]
  have t1 : |(a - b) * (c - d)| ≤ k * ulp * M * (l * ulp * N) := by
    rw [abs_mul]
    exact mul_le_mul h.err h'.err (abs_nonneg _) (by positivity)
  have t2 : |(a - b) * d| ≤ k * ulp * M * N := by
    rw [abs_mul]
    exact mul_le_mul h.err h'.bound (abs_nonneg _) (by positivity)
  have t3 : |b * (c - d)| ≤ M * (l * ulp * N) := by
    rw [abs_mul]
    exact mul_le_mul h.bound h'.err (abs_nonneg _) (by positivity)
  have t4 : k * ulp * M * (l * ulp * N) ≤ ulp * (M * N) := by
    have : k * ulp * M * (l * ulp * N) = k * l * ulp * (ulp * (M * N)) := by ring
    rw [this]
    exact mul_le_of_le_one_left (by positivity) hu1
  have t5 := abs_add_le ((a - b) * (c - d) + (a - b) * d) (b * (c - d))
  have t6 := abs_add_le ((a - b) * (c - d)) ((a - b) * d)
  have : (k + l + 1) * ulp * (M * N) = ulp * (M * N) + k * ulp * M * N + M * (l * ulp * N) := by ring
  linarith

/-- Rounding adds two units. -/
theorem App.rnd {k a b M : ℝ} (h : App k a b M) (hk0 : 0 ≤ k) (hk : k ≤ 2 ^ 50) (hM : M ≤ 2 ^ 200) :
    ∃ r, Binary64.rnd a = fin r ∧ Rep r ∧ App (k + 2) r b M := by
  have h1 := h.one
  have hu := ulp_pos
  have ha := h.abs_le hk
  have hb : |a| < 2 ^ 1023 := by
    have h2 : (2 : ℝ) * 2 ^ 200 < 2 ^ 1023 := by
      rw [← pow_succ']
      exact pow_lt_pow_right₀ one_lt_two (by norm_num)
    exact lt_of_le_of_lt (ha.trans (mul_le_mul_of_nonneg_left hM zero_le_two)) h2
  obtain ⟨r, hr, hrr, herr⟩ := rnd_error hb
  refine ⟨r, hr, hrr, h.bound, h.one, ?_⟩
  clear hb hM
  change |r - a| ≤ ulp * |a| + ulp / 256 at herr
  have h2 : |r - b| ≤ |r - a| + |a - b| := by
    have := abs_add_le (r - a) (a - b)
    rwa [sub_add_sub_cancel] at this
  have h3 := h.err
  have h4 : |a| ≤ M + k * ulp * M := by
    have := abs_sub_abs_le_abs_sub a b
    have := h.bound
    linarith
  have h5 : k * ulp ≤ 1 / 2 := by rw [ulp_eq]; norm_num at hk; linarith
  have h6 : k * ulp * M ≤ 1 / 2 * M := mul_le_mul_of_nonneg_right h5 (by linarith)
  have h7 : ulp * |a| ≤ ulp * (3 / 2 * M) := mul_le_mul_of_nonneg_left (by linarith) hu.le
  nlinarith

/-- `√2`, `1/√π` and `1/√info`. -/
theorem App.sqrt {a : ℝ} (h1 : 2 ^ (-1000 : ℤ) ≤ a) (h2 : a ≤ 2 ^ (1000 : ℤ)) :
    ∃ r, Binary64.rnd (Real.sqrt a) = fin r ∧ Rep r ∧ 0 < r ∧ Rel 1 r (Real.sqrt a) := by
  have ha : 0 < a := (two_zpow_pos _).trans_le h1
  have hs : (2 : ℝ) ^ (-500 : ℤ) ≤ Real.sqrt a := by
    apply Real.le_sqrt_of_sq_le
    rw [← zpow_natCast, ← zpow_mul]
    exact h1
  have hs2 : Real.sqrt a ≤ 2 ^ (500 : ℤ) := by
    rw [Real.sqrt_le_left (two_zpow_pos _).le, ← zpow_natCast, ← zpow_mul]
    exact h2
  obtain ⟨r, hr, hrr, hrel⟩ := rnd_rel ((zpow_le (by norm_num)).trans hs) (lt_of_le_of_lt hs2 (zpow_lt_max (by norm_num)))
  exact ⟨r, hr, hrr, hrel.pos (Real.sqrt_pos.2 ha) (by norm_num), hrel⟩

/-- The reciprocal of a number that is accurate. -/
theorem App.inv {k a b : ℝ} (h : Rel k a b) (hk0 : 0 ≤ k) (hk : k ≤ 100) (hb : 0 < b) :
    App (k + 1) a⁻¹ b⁻¹ (max 1 b⁻¹) := by
  have ha := h.pos hb hk
  have hib : 0 < b⁻¹ := inv_pos.2 hb
  have hm : b⁻¹ ≤ max 1 b⁻¹ := le_max_right _ _
  refine ⟨by rw [abs_of_pos hib]; exact hm, le_max_left _ _, ?_⟩
  have h1 : Rel (0 + k + 1) (1 / a) (1 / b) :=
    Rel.div (k := 0) (l := k) (a := 1) (b := 1) (by simp [Rel]) h one_pos hb le_rfl (by norm_num) hk0 hk
  unfold Rel at h1
  rw [one_div, one_div, zero_add] at h1
  have hu := ulp_pos
  exact h1.trans (mul_le_mul_of_nonneg_left hm (by positivity))

end Binary64

/-- `-log(1 - p)` changes at most as fast as its argument. -/
theorem softplus_close (a b : ℝ) : |Real.log (1 + Real.exp a) - Real.log (1 + Real.exp b)| ≤ |a - b| := by
  have key : ∀ a b : ℝ, a ≤ b → Real.log (1 + Real.exp b) - Real.log (1 + Real.exp a) ≤ b - a := by
    intro a b h
    have h1 := Real.exp_pos a
    have h2 := Real.exp_pos b
    have h3 : 1 + Real.exp b ≤ Real.exp (b - a) * (1 + Real.exp a) := by
      have : 1 ≤ Real.exp (b - a) := Real.one_le_exp (by linarith)
      rw [mul_add, ← Real.exp_add]
      simpa using this
    have h4 := Real.log_le_log (by linarith) h3
    rw [Real.log_mul (Real.exp_pos _).ne' (by linarith), Real.log_exp] at h4
    linarith
  have mono : ∀ a b : ℝ, a ≤ b → Real.log (1 + Real.exp a) ≤ Real.log (1 + Real.exp b) := fun a b h =>
    Real.log_le_log (by positivity) (by linarith [Real.exp_le_exp.2 h])
  rcases le_total a b with h | h
  · rw [abs_sub_comm, abs_sub_comm a, abs_of_nonneg (by linarith [mono a b h]), abs_of_nonneg (by linarith)]
    exact key a b h
  · rw [abs_of_nonneg (by linarith [mono b a h]), abs_of_nonneg (by linarith)]
    exact key b a h

theorem softplus_nonneg (a : ℝ) : 0 ≤ Real.log (1 + Real.exp a) := Real.log_nonneg (by linarith [Real.exp_pos a])

theorem softplus_le (a : ℝ) : Real.log (1 + Real.exp a) ≤ |a| + 1 := by
  have h1 := softplus_close a 0
  have h2 := (abs_le.1 h1).2
  have h3 : Real.log (1 + Real.exp 0) ≤ 1 := by
    rw [Real.exp_zero, Real.log_le_iff_le_exp (by norm_num)]
    linarith [Real.add_one_le_exp (1 : ℝ)]
  rw [sub_zero] at h2
  linarith

namespace Binary64

/-- `np.log1p(np.exp(z))` at a point that is known up to rounding errors. -/
theorem softplus_app {expR logR log1pR : ℝ → Flt} {sumR : List ℝ → Flt}
    (c : FloatContract (Binary64.ops expR logR sumR) (2 ^ 1024) (2 ^ (-1075 : ℤ)))
    (c' : Log1pContract (Binary64.ops expR logR sumR) log1pR) {k z x M : ℝ} (h : App k z x M) (hk0 : 0 ≤ k)
    (hk : k ≤ 100) (hM : |x| + 1 ≤ M) (hx : x ≤ 700) (hM2 : M ≤ 2 ^ 40) :
    ∃ t, FloatOps.log1p log1pR ((Binary64.ops expR logR sumR).exp (fin z)) = fin t ∧ Rep t ∧ 0 ≤ t ∧
      App (k + 6) t (Real.log (1 + Real.exp x)) M := by
  have hu := ulp_pos
  have h1 := h.one
  have hz : z ≤ 709 := by
    have := (_root_.abs_le.1 h.err).2
    have e : k * ulp * M ≤ 1 := by
      have : k * ulp * M ≤ 100 * ulp * 2 ^ 40 := by gcongr
      refine this.trans ?_
      rw [ulp_eq]
      norm_num
    linarith
  obtain ⟨e, t, he, he0, ht, hrt, ht0, herr⟩ := log1p_exp_error c c' hz
  have s1 := softplus_close z x
  have s2 := softplus_le x
  have s3 := softplus_nonneg x
  have htau : (2 : ℝ) ^ (-1074 : ℤ) ≤ ulp / 256 := tiny
  set X := Real.log (1 + Real.exp x)
  set Z := Real.log (1 + Real.exp z)
  refine ⟨t, ?_, hrt, ht0, by rw [abs_of_nonneg s3]; linarith, h1, ?_⟩
  · have : (Binary64.ops expR logR sumR).exp (fin z) = fin e := he
    rw [this]
    show (if -1 < e then log1pR e else _) = fin t
    rw [if_pos (by linarith)]
    exact ht
  · have b1 : |t - X| ≤ |t - Z| + |Z - X| := by
      have := abs_add_le (t - Z) (Z - X)
      rwa [sub_add_sub_cancel] at this
    have b2 := h.err
    have b3 : Z ≤ X + k * ulp * M := by
      have := (_root_.abs_le.1 (s1.trans b2)).2
      linarith
    have b4 : k * ulp ≤ 1 / 100 := by rw [ulp_eq]; linarith
    have b5 : k * ulp * M ≤ 1 / 100 * M := mul_le_mul_of_nonneg_right b4 (by linarith)
    have b6 : 4 * ulp * Z ≤ 4 * ulp * (M + 1 / 100 * M) := mul_le_mul_of_nonneg_left (by linarith) (by linarith)
    nlinarith

/-- `log_v` at a point that is known up to rounding errors. -/
theorem logistic_app {k z x M y : ℝ} (h : App k z x M) (hk0 : 0 ≤ k) (hk : k ≤ 100) (hM : |x| + 1 ≤ M)
    (hy : |y - logLogistic z| ≤ 2 ^ (-49 : ℤ) * (1 + |logLogistic z|)) : App (k + 18) y (logLogistic x) M := by
  rw [logLogistic_eq] at *
  have s1 := softplus_close (-z) (-x)
  have s2 := softplus_le (-x)
  have s3 := softplus_nonneg (-x)
  have s4 := softplus_nonneg (-z)
  set X := Real.log (1 + Real.exp (-x))
  set Z := Real.log (1 + Real.exp (-z))
  have hu := ulp_pos
  have h1 := h.one
  have e49 : (2 : ℝ) ^ (-49 : ℤ) = 8 * ulp := by rw [ulp_eq]; norm_num
  rw [e49] at hy
  rw [abs_neg, abs_of_nonneg s4] at hy
  rw [abs_neg] at s2
  rw [show -z - -x = -(z - x) by ring, abs_neg] at s1
  refine ⟨by rw [abs_neg, abs_of_nonneg s3]; linarith, h1, ?_⟩
  have b1 : |y - -X| ≤ |y - -Z| + |Z - X| := by
    have := abs_add_le (y - -Z) (X - Z)
    rw [abs_sub_comm X] at this
    rwa [show y - -Z + (X - Z) = y - -X by ring] at this
  have b2 := h.err
  have b3 : Z ≤ X + k * ulp * M := by
    have := (_root_.abs_le.1 (s1.trans b2)).2
    linarith
  have b4 : k * ulp ≤ 1 / 100 := by rw [ulp_eq]; linarith
  have b5 : k * ulp * M ≤ 1 / 100 * M := mul_le_mul_of_nonneg_right b4 (by linarith)
  have b6 : 8 * ulp * (1 + Z) ≤ 8 * ulp * (M + M + 1 / 100 * M) :=
    mul_le_mul_of_nonneg_left (by linarith) (by linarith)
  have b7 : 0 ≤ ulp * M := by positivity
  nlinarith

theorem pow200 : (2 : ℝ) ^ 200 ≤ 2 ^ (999 : ℤ) := by
  rw [← zpow_natCast]
  exact zpow_le (by norm_num)

theorem sum_map_abs_le {ι : Type} (l : List ι) (f g : ι → ℝ) (h : ∀ i ∈ l, |f i| ≤ g i) :
    |(l.map f).sum| ≤ (l.map g).sum ∧ (l.map fun i => |f i|).sum ≤ (l.map g).sum := by
  induction l with
  | nil => simp
  | cons a l ih =>
    obtain ⟨h1, h2⟩ := ih fun i hi => h i (List.mem_cons_of_mem _ hi)
    have h3 := h a List.mem_cons_self
    simp only [List.map_cons, List.sum_cons]
    exact ⟨(abs_add_le _ _).trans (by linarith), by linarith⟩

theorem sum_map_le_card {ι : Type} (l : List ι) (g : ι → ℝ) (b : ℝ) (h : ∀ i ∈ l, g i ≤ b) :
    (l.map g).sum ≤ l.length * b := by
  induction l with
  | nil => simp
  | cons a l ih =>
    have h1 := ih fun i hi => h i (List.mem_cons_of_mem _ hi)
    have h3 := h a List.mem_cons_self
    simp only [List.map_cons, List.sum_cons, List.length_cons]
    push_cast
    linarith

/-- `np.sum` of numbers that are known up to rounding errors. -/
theorem sum_app {expR logR : ℝ → Flt} {sumR : List ℝ → Flt} (hs : AccurateSum (Binary64.ops expR logR sumR))
    {ι : Type} (l : List ι) (t b M : ι → ℝ) {k : ℝ} (hk0 : 0 ≤ k) (hk : k ≤ 1000)
    (h : ∀ i ∈ l, Rep (t i) ∧ App k (t i) (b i) (M i)) (hl : l.length ≤ 2 ^ 40) (hM : (l.map M).sum ≤ 2 ^ 200) :
    ∃ s, (Binary64.ops expR logR sumR).sum (l.map fun i => fin (t i)) = fin s ∧ Rep s ∧
      App (k + 4 * l.length) s (l.map b).sum (1 + (l.map M).sum) := by
  have hu := ulp_pos
  have hM0 : 0 ≤ (l.map M).sum := List.sum_nonneg (by
    intro x hx
    obtain ⟨i, hi, rfl⟩ := List.mem_map.1 hx
    linarith [(h i hi).2.one])
  have h1 := (sum_map_abs_le l t (fun i => 2 * M i)
    fun i hi => (h i hi).2.abs_le (hk.trans (by norm_num))).2
  have h2 : (l.map fun i => 2 * M i).sum = 2 * (l.map M).sum := List.sum_map_mul_left ..
  rw [h2] at h1
  obtain ⟨s, hs1, hs2, hs3⟩ := hs (l.map t) (by
      intro a ha
      obtain ⟨i, hi, rfl⟩ := List.mem_map.1 ha
      exact (h i hi).1) (by rw [List.length_map]; exact hl.trans (by norm_num)) (by
      rw [List.map_map]
      refine le_trans (h1.trans (mul_le_mul_of_nonneg_left (hM.trans pow200) zero_le_two)) (le_of_eq ?_)
      rw [two_mul_zpow]
      rfl)
  have e1 : (Binary64.ops expR logR sumR).sum (l.map fun i => fin (t i)) = sumR (l.map t) := by
    unfold FloatOps.sum
    rw [if_pos (by
      intro a ha
      obtain ⟨i, hi, rfl⟩ := List.mem_map.1 ha
      exact ⟨_, rfl⟩), List.map_map]
    rfl
  refine ⟨s, e1.trans hs1, hs2, ?_, by linarith, ?_⟩
  · exact (sum_map_abs_le l b M fun i hi => (h i hi).2.bound).1.trans (by linarith)
  · rw [List.map_map, List.length_map] at hs3
    have h3 := (sum_map_abs_le l (fun i => t i - b i) (fun i => k * ulp * M i) fun i hi => (h i hi).2.err).1
    have h4 : (l.map fun i => k * ulp * M i).sum = k * ulp * (l.map M).sum := List.sum_map_mul_left ..
    have h5 : (l.map fun i => t i - b i).sum = (l.map t).sum - (l.map b).sum := by
      clear * -
      induction l with
      | nil => simp
      | cons a l ih =>
        simp only [List.map_cons, List.sum_cons, ih]
        ring
    rw [h4, h5] at h3
    rw [show (2 : ℝ) ^ (-51 : ℤ) = 2 * ulp by rw [ulp_eq]; norm_num] at hs3
    change |s - (l.map t).sum| ≤ 2 * ulp * l.length * (l.map fun i => |t i|).sum at hs3
    have h6 : 2 * ulp * l.length * (l.map fun i => |t i|).sum ≤ 2 * ulp * l.length * (2 * (l.map M).sum) :=
      mul_le_mul_of_nonneg_left h1 (by positivity)
    have h7 : |s - (l.map b).sum| ≤ |s - (l.map t).sum| + |(l.map t).sum - (l.map b).sum| := by
      have := abs_add_le (s - (l.map t).sum) ((l.map t).sum - (l.map b).sum)
      rwa [sub_add_sub_cancel] at this
    have h8 : 0 ≤ (k + 4 * l.length) * ulp := by positivity
    nlinarith

end Binary64

end

end LRVB
