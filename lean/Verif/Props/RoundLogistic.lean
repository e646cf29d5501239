import Verif.Lemmas.Round8

/-!
# C129, C130: the logistic terms in floating point
-/

namespace LRVB

open Classical Flt

noncomputable section

/-- Case `x > -100` of `log_v`. -/
theorem Binary64.logV_large {expR logR : ℝ → Flt} {sumR : List ℝ → Flt}
    (c : FloatContract (Binary64.ops expR logR sumR) (2 ^ 1024) (2 ^ (-1075 : ℤ))) {x : ℝ} (hx : -100 < x) :
    ∃ y, (Binary64.ops expR logR sumR).logV (fin x) = fin y ∧ Binary64.Rep y ∧ y ≤ 0 ∧
      |y - logLogistic x| ≤ 2 ^ (-49 : ℤ) * (1 + |logLogistic x|) := by
  obtain ⟨e, he, he0, hre, herr⟩ := Binary64.exp_error' c (x := -x) (by linarith)
  rw [logLogistic_eq]
  set E := Real.exp (-x) with hE
  have hE0 : 0 < E := Real.exp_pos _
  have hu := Binary64.ulp_pos
  have hu1 : Binary64.ulp ≤ 1 / 1000 := by rw [Binary64.ulp_eq]; norm_num
  have htau : (2 : ℝ) ^ (-1074 : ℤ) ≤ Binary64.ulp / 256 := Binary64.tiny
  have h1 : |1 + e - (1 + E)| ≤ Binary64.ulp * (1 + E) := by
    rw [add_sub_add_left_eq_sub]
    linarith
  have hE100 : Real.log (1 + E) ≤ 101 := by
    rw [Real.log_le_iff_le_exp (by linarith)]
    have h3 : E ≤ Real.exp 100 := Real.exp_le_exp.2 (by linarith)
    have h4 : Real.exp 101 = Real.exp 100 * Real.exp 1 := by rw [← Real.exp_add]; norm_num
    have h5 := Real.add_one_le_exp (1 : ℝ)
    have h6 := Real.add_one_le_exp (100 : ℝ)
    rw [h4]
    nlinarith
  have hB2 : 1 + E ≤ 2 ^ (1021 : ℤ) := by
    rw [← Real.log_le_log_iff (by linarith) (Binary64.two_zpow_pos _), Real.log_zpow]
    have := Real.log_two_gt_d9
    push_cast
    linarith
  have hB1 : (2 : ℝ) ^ (-1020 : ℤ) ≤ 1 + E := by
    have : (2 : ℝ) ^ (-1020 : ℤ) ≤ 2 ^ (0 : ℤ) := Binary64.zpow_le (by norm_num)
    rw [zpow_zero] at this
    linarith
  obtain ⟨-, a, y, ha, ha0, hy, hry, hyerr⟩ := Binary64.log_chain c hB1 hB2 h1 (by linarith)
  clear hB1 hB2
  have hL0 : 0 ≤ Real.log (1 + E) := Real.log_nonneg (by linarith)
  set L := Real.log (1 + E) with hL
  rw [abs_neg, abs_of_nonneg hL0]
  rw [abs_of_nonneg hL0] at hyerr
  have ha1 : 1 ≤ a := by
    have := c.le_rnd c.one (x := 1 + e) (by linarith)
    rwa [show (Binary64.ops expR logR sumR).rnd (1 + e) = fin a from ha] at this
  have hy0 : 0 ≤ y := by
    have := c.log_ge ha0 c.zero (Real.log_nonneg ha1)
    rwa [show (Binary64.ops expR logR sumR).logR a = fin y from hy] at this
  have hy1 : y ≤ 10 ^ 16 := by
    have := (abs_le.1 hyerr).2
    nlinarith
  set o := Binary64.ops expR logR sumR with ho
  have k1 : o.exp (-fin x) = fin e := he
  have k2 : o.add (fin 1) (fin e) = fin a := ha
  have k3 : o.log (fin a) = fin y := by
    show (if 0 < a then o.logR a else Flt.log (fin a)) = fin y
    rw [if_pos ha0]
    exact hy
  have k4 : FloatOps.maximum (-fin y) (fin (-10 ^ 16)) = fin (-y) := by
    show (if fin (-y) ≤ fin (-10 ^ 16) then fin (-10 ^ 16) else fin (-y)) = fin (-y)
    split_ifs with h
    · have h' : -y ≤ -10 ^ 16 := h
      congr 1
      linarith
    · rfl
  have k5 : o.mul (fin (-y)) (fin 1) = fin (-y) := by
    show o.rnd (-y * 1) = fin (-y)
    rw [mul_one]
    exact c.rnd_rep (c.neg hry)
  have k6 : o.mul (fin x) (fin 0) = fin 0 := by
    show o.rnd (x * 0) = fin 0
    rw [mul_zero]
    exact c.rnd_rep c.zero
  have k7 : o.add (fin (-y)) (fin 0) = fin (-y) := by
    show o.rnd (-y + 0) = fin (-y)
    rw [add_zero]
    exact c.rnd_rep (c.neg hry)
  refine ⟨-y, ?_, hry.neg, by linarith, ?_⟩
  · unfold FloatOps.logV FloatOps.indicator
    rw [if_pos (show fin (-100) < fin x from hx), if_neg (show ¬ fin x ≤ fin (-100) from not_le.2 hx),
      k1, k2, k3, k4, k5, k6, k7]
  · rw [show -y - -L = -(y - L) by ring, abs_neg]
    have : (2 : ℝ) ^ (-49 : ℤ) = 8 * Binary64.ulp := by rw [Binary64.ulp_eq]; norm_num
    rw [this]
    nlinarith

/-- Case `x ≤ -100` of `log_v`. -/
theorem Binary64.logV_small {expR logR : ℝ → Flt} {sumR : List ℝ → Flt}
    (c : FloatContract (Binary64.ops expR logR sumR) (2 ^ 1024) (2 ^ (-1075 : ℤ))) {x : ℝ} (hr : Binary64.Rep x)
    (hx : x ≤ -100) :
    (Binary64.ops expR logR sumR).logV (fin x) = fin x ∧
      |x - logLogistic x| ≤ 2 ^ (-49 : ℤ) * (1 + |logLogistic x|) := by
  constructor
  · set o := Binary64.ops expR logR sumR with ho
    have zero : ∀ m : ℝ, o.mul (fin m) (fin 0) = fin 0 := fun m => by
      show o.rnd (m * 0) = fin 0
      rw [mul_zero]
      exact c.rnd_rep c.zero
    have key : o.mul (FloatOps.maximum (-o.log (o.add (fin 1) (o.exp (-fin x)))) (fin (-10 ^ 16))) (fin 0) = fin 0 := by
      have inf : FloatOps.maximum (-pinf) (fin (-10 ^ 16)) = fin (-10 ^ 16) := by
        show (if ninf ≤ fin (-10 ^ 16) then fin (-10 ^ 16) else ninf) = _
        rw [if_pos (show ninf ≤ fin (-10 ^ 16) from trivial)]
      show o.mul (FloatOps.maximum (-o.log (o.add (fin 1) (o.expR (-x)))) (fin (-10 ^ 16))) (fin 0) = fin 0
      rcases Flt.le_cases (c.exp_nonneg (-x)) with h | ⟨e, h, he⟩
      · rw [show o.expR (-x) = pinf from h]
        show o.mul (FloatOps.maximum (-pinf) (fin (-10 ^ 16))) (fin 0) = fin 0
        rw [inf, zero]
      · rw [show o.expR (-x) = fin e from h]
        show o.mul (FloatOps.maximum (-o.log (o.rnd (1 + e))) (fin (-10 ^ 16))) (fin 0) = fin 0
        rcases Flt.le_cases (c.le_rnd c.one (x := 1 + e) (by linarith)) with h' | ⟨a, h', ha⟩
        · rw [show o.rnd (1 + e) = pinf from h']
          show o.mul (FloatOps.maximum (-pinf) (fin (-10 ^ 16))) (fin 0) = fin 0
          rw [inf, zero]
        · rw [show o.rnd (1 + e) = fin a from h']
          obtain ⟨y, hy, -⟩ := c.rep_log (show 0 < a by linarith) (c.rep_rnd h')
          have : o.log (fin a) = fin y := by
            show (if 0 < a then o.logR a else Flt.log (fin a)) = fin y
            rw [if_pos (by linarith)]
            exact hy
          rw [this]
          show o.mul (if fin (-y) ≤ fin (-10 ^ 16) then fin (-10 ^ 16) else fin (-y)) (fin 0) = fin 0
          split_ifs
          · exact zero _
          · exact zero _
    unfold FloatOps.logV FloatOps.indicator
    rw [if_neg (show ¬ fin (-100) < fin x from not_lt.2 hx), if_pos (show fin x ≤ fin (-100) from hx), key]
    have h1 : o.mul (fin x) (fin 1) = fin x := by
      show o.rnd (x * 1) = fin x
      rw [mul_one]
      exact c.rnd_rep hr
    rw [h1]
    show o.rnd (0 + x) = fin x
    rw [zero_add]
    exact c.rnd_rep hr
  · have h1 : logLogistic x = x - Real.log (1 + Real.exp x) := by
      rw [logLogistic_eq, show 1 + Real.exp (-x) = Real.exp (-x) * (1 + Real.exp x) by
        rw [mul_add, ← Real.exp_add]; simp; ring, Real.log_mul (Real.exp_pos _).ne' (by positivity), Real.log_exp]
      ring
    have h2 : x - logLogistic x = Real.log (1 + Real.exp x) := by rw [h1]; ring
    have h3 : Real.log (1 + Real.exp x) ≤ Real.exp x := by
      have := Real.log_le_sub_one_of_pos (show 0 < 1 + Real.exp x by positivity)
      linarith
    have h4 : Real.exp x ≤ 2 ^ (-49 : ℤ) := by
      rw [← Real.le_log_iff_exp_le (by positivity), Real.log_zpow]
      have := Real.log_two_lt_d9
      push_cast
      linarith
    rw [h2, abs_of_nonneg (Real.log_nonneg (by linarith [Real.exp_pos x]))]
    have h5 : (0 : ℝ) < 2 ^ (-49 : ℤ) := by positivity
    nlinarith [abs_nonneg (logLogistic x)]

/-- **C129** In double precision `get_e_log_logitnormal` integrates a function that is finite, not positive, and
the logarithm of the logistic function up to a small relative error, at every finite sample point; in particular
neither the overflow of `exp` for very negative points nor the product of zero and infinity is visible. -/
theorem C129_log_logitnormal (expR logR : ℝ → Flt) (sumR : List ℝ → Flt)
    (c : FloatContract (Binary64.ops expR logR sumR) (2 ^ 1024) (2 ^ (-1075 : ℤ))) (mean info : Flt)
    (nodes : List (Flt × Flt)) :
    ∃ f : Flt → Flt,
      (∀ x, Binary64.Rep x → ∃ y, f (fin x) = fin y ∧ Binary64.Rep y ∧ y ≤ 0 ∧
        |y - logLogistic x| ≤ 2 ^ (-49 : ℤ) * (1 + |logLogistic x|)) ∧
      ((Binary64.ops expR logR sumR).getELogLogitnormal mean info nodes).1 =
        (Binary64.ops expR logR sumR).getEFunNormal mean info nodes f ∧
      ((Binary64.ops expR logR sumR).getELogLogitnormal mean info nodes).2 =
        (Binary64.ops expR logR sumR).add (-mean)
          ((Binary64.ops expR logR sumR).getELogLogitnormal mean info nodes).1 := by
  refine ⟨_, ?_, rfl, rfl⟩
  intro x hr
  rcases lt_or_ge (-100) x with hx | hx
  · exact Binary64.logV_large c hx
  · obtain ⟨h1, h2⟩ := Binary64.logV_small c hr hx
    exact ⟨x, h1, hr, by linarith, h2⟩

/-! ### Accuracy of the estimates -/

theorem flatMap_map_product {α β γ : Type} (l : List α) (m : List β) (f : α → β → γ) :
    (l.flatMap fun a => m.map fun d => f a d) = (l.product m).map fun p => f p.1 p.2 := by
  unfold List.product
  rw [List.map_flatMap]
  congr 1
  funext a
  rw [List.map_map]
  rfl

theorem sum_product {α β : Type} (l : List α) (m : List β) (f : α → β → ℝ) :
    ((l.product m).map fun p => f p.1 p.2).sum = (l.map fun a => (m.map fun d => f a d).sum).sum := by
  rw [← flatMap_map_product]
  induction l with
  | nil => simp
  | cons a l ih => simp [ih]

open Binary64 in
/-- **C130** As long as no draw of `z` exceeds 700, `get_e_logistic_term` in double precision is accurate: its
error is at most `2^-50 (N + 10)` times the size of the numbers in it, for `N` observations times draws. -/
theorem C130_accuracy_partial (expR logR log1pR : ℝ → Flt) (sumR : List ℝ → Flt)
    (c : FloatContract (Binary64.ops expR logR sumR) (2 ^ 1024) (2 ^ (-1075 : ℤ)))
    (c' : Log1pContract (Binary64.ops expR logR sumR) log1pR) (hs : AccurateSum (Binary64.ops expR logR sumR))
    (obs : List (ℝ × ℝ × ℝ)) (draws : List ℝ) (hd : draws ≠ [])
    (hy : ∀ a ∈ obs, |a.1 * a.2.1| ≤ 2 ^ 40)
    (hz : ∀ a ∈ obs, ∀ d ∈ draws, a.2.1 + a.2.2 * d ≤ 700 ∧ |a.2.2 * d| + |a.2.1| ≤ 2 ^ 30)
    (hN : obs.length * draws.length ≤ 2 ^ 40) :
    ∃ r, (Binary64.ops expR logR sumR).getELogisticTerm log1pR
        (obs.map fun a => (fin a.1, fin a.2.1, fin a.2.2)) (draws.map fin) = fin r ∧
      |r - logisticTerm obs draws| ≤
        2 ^ (-50 : ℤ) * (obs.length * draws.length + 10) * logisticSize obs draws := by
  set o := Binary64.ops expR logR sumR with ho
  have hD : 0 < draws.length := List.length_pos_iff.2 hd
  have hD1 : (1 : ℝ) ≤ draws.length := by exact_mod_cast hD
  have hn : obs.length ≤ 2 ^ 40 := le_trans (Nat.le_mul_of_pos_right _ hD) hN
  -- the sum of `y * z_mean`
  have hp : ∀ a : ℝ × ℝ × ℝ, ∃ t, a ∈ obs → o.mul (fin a.1) (fin a.2.1) = fin t ∧ Rep t ∧
      App 2 t (a.1 * a.2.1) (|a.1 * a.2.1| + 1) := by
    intro a
    by_cases ha : a ∈ obs
    · have h1 := hy a ha
      obtain ⟨t, h2, h3, h4⟩ := (App.exact (b := a.1 * a.2.1) (M := |a.1 * a.2.1| + 1) (by linarith)
        (by linarith [abs_nonneg (a.1 * a.2.1)])).rnd le_rfl (by norm_num) (by norm_num at h1 ⊢; linarith)
      exact ⟨t, fun _ => ⟨h2, h3, by simpa using h4⟩⟩
    · exact ⟨0, fun h => absurd h ha⟩
  choose t ht using hp
  obtain ⟨s1, hs1, -, happ1⟩ := sum_app hs obs t (fun a => a.1 * a.2.1) (fun a => |a.1 * a.2.1| + 1) (k := 2)
    (by norm_num) (by norm_num) (fun a ha => (ht a ha).2) hn (by
      have h1 := sum_map_le_card obs (fun a => |a.1 * a.2.1| + 1) (2 ^ 40 + 1) (fun a ha => by linarith [hy a ha])
      have h2 : (obs.length : ℝ) ≤ 2 ^ 40 := by exact_mod_cast hn
      refine h1.trans ?_
      have : (obs.length : ℝ) * (2 ^ 40 + 1) ≤ 2 ^ 40 * (2 ^ 40 + 1) := by gcongr
      refine this.trans (by norm_num))
  -- the sum over the draws
  have hq : ∀ p : (ℝ × ℝ × ℝ) × ℝ, ∃ u, p ∈ obs.product draws →
      FloatOps.log1p log1pR (o.exp (o.add (o.mul (fin p.1.2.2) (fin p.2)) (fin p.1.2.1))) = fin u ∧ Rep u ∧
      App 10 u (negLogOneMinusLogistic (p.1.2.1 + p.1.2.2 * p.2)) (|p.1.2.2 * p.2| + |p.1.2.1| + 2) := by
    rintro ⟨⟨y, m, s⟩, d⟩
    by_cases hp : ((y, m, s), d) ∈ obs.product draws
    · obtain ⟨ha, hd'⟩ := List.mem_product.1 hp
      obtain ⟨h1, h2⟩ := hz _ ha _ hd'
      simp only at h1 h2
      have a1 := abs_nonneg (s * d)
      have a2 := abs_nonneg m
      obtain ⟨q, q1, q2, q3⟩ := (App.exact (b := s * d) (M := |s * d| + 1) (by linarith) (by linarith)).rnd le_rfl
        (by norm_num) (by norm_num at h2 ⊢; linarith)
      have q4 := App.add (m := 2) q3 (App.exact (b := m) (M := |m| + 1) (by linarith) (by linarith)) (by norm_num)
        (by norm_num)
      obtain ⟨z, z1, z2, z3⟩ := q4.rnd (by norm_num) (by norm_num) (by norm_num at h2 ⊢; linarith)
      obtain ⟨u, u1, u2, -, u3⟩ := softplus_app c c' z3 (by norm_num) (by norm_num)
        (by linarith [abs_add_le (s * d) m]) (by linarith) (by norm_num at h2 ⊢; linarith)
      refine ⟨u, fun _ => ⟨?_, u2, ?_⟩⟩
      · have k1 : o.mul (fin s) (fin d) = fin q := q1
        have k2 : o.add (fin q) (fin m) = fin z := z1
        simp only [k1, k2]
        exact u1
      · simp only [negLogOneMinusLogistic_eq]
        rw [add_comm m]
        exact u3.mono (by norm_num) (by norm_num) (by linarith)
    · exact ⟨0, fun h => absurd h hp⟩
  choose u hu using hq
  have hpl : (obs.product draws).length = obs.length * draws.length := List.length_product ..
  have hMsum : ((obs.product draws).map fun p => |p.1.2.2 * p.2| + |p.1.2.1| + 2).sum ≤ 2 ^ 199 := by
    have h1 := sum_map_le_card (obs.product draws) (fun p => |p.1.2.2 * p.2| + |p.1.2.1| + 2) (2 ^ 30 + 2)
      (fun p hp => by
        obtain ⟨ha, hd'⟩ := List.mem_product.1 hp
        linarith [(hz _ ha _ hd').2])
    have h2 : (((obs.product draws).length : ℕ) : ℝ) ≤ 2 ^ 40 := by rw [hpl]; exact_mod_cast hN
    refine h1.trans ?_
    have : (((obs.product draws).length : ℕ) : ℝ) * (2 ^ 30 + 2) ≤ 2 ^ 40 * (2 ^ 30 + 2) := by gcongr
    refine this.trans (by norm_num)
  obtain ⟨s2, hs2, hrs2, happ2⟩ := sum_app hs (obs.product draws) u _ _ (k := 10) (by norm_num) (by norm_num)
    (fun p hp => (hu p hp).2) (by rw [hpl]; exact hN) (hMsum.trans (by norm_num))
  set B := ((obs.product draws).map fun p => negLogOneMinusLogistic (p.1.2.1 + p.1.2.2 * p.2)).sum with hB
  set A := ((obs.product draws).map fun p => |p.1.2.2 * p.2| + |p.1.2.1| + 2).sum with hA
  have hA0 : 0 ≤ A := List.sum_nonneg (by
    intro x hx
    obtain ⟨p, -, rfl⟩ := List.mem_map.1 hx
    positivity)
  rw [hpl] at happ2
  push_cast at happ2
  set N : ℝ := (obs.length : ℝ) * draws.length with hNdef
  have hN0 : 0 ≤ N := by positivity
  have hN40 : N ≤ 2 ^ 40 := by rw [hNdef]; exact_mod_cast hN
  have hnN : (obs.length : ℝ) ≤ N := le_mul_of_one_le_right (by positivity) hD1
  -- the division by the number of draws
  have hdiv : App (10 + 4 * N) (s2 / draws.length) (B / draws.length) (1 + A / draws.length) := by
    have hBA : |B| ≤ A := (sum_map_abs_le (obs.product draws) _ _ fun p hp => (hu p hp).2.2.bound).1
    have hDpos : (0 : ℝ) < draws.length := by linarith
    refine ⟨?_, by linarith [div_nonneg hA0 hDpos.le], ?_⟩
    · rw [abs_div, abs_of_pos hDpos]
      linarith [div_le_div_of_nonneg_right hBA hDpos.le]
    · rw [← sub_div, abs_div, abs_of_pos hDpos, div_le_iff₀ hDpos]
      refine happ2.err.trans ?_
      have h1 : (1 + A / draws.length) * draws.length = draws.length + A := by field_simp
      rw [mul_assoc _ (1 + A / (draws.length : ℝ)), h1]
      have hu0 := ulp_pos
      exact mul_le_mul_of_nonneg_left (by linarith) (by positivity)
  have hAD : A / draws.length ≤ A := div_le_self hA0 hD1
  obtain ⟨r2, hr2, -, happ3⟩ := hdiv.rnd (by linarith) (by norm_num at hN40 ⊢; linarith)
    (by norm_num at hMsum ⊢; linarith)
  have hY0 : 0 ≤ (obs.map fun a => |a.1 * a.2.1| + 1).sum := List.sum_nonneg (by
    intro x hx
    obtain ⟨p, -, rfl⟩ := List.mem_map.1 hx
    positivity)
  set Y := (obs.map fun a => |a.1 * a.2.1| + 1).sum with hY
  have hYb : Y ≤ 2 ^ 190 := by
    have h1 := sum_map_le_card obs (fun a => |a.1 * a.2.1| + 1) (2 ^ 40 + 1) (fun a ha => by linarith [hy a ha])
    have h2 : (obs.length : ℝ) ≤ 2 ^ 40 := by exact_mod_cast hn
    refine h1.trans ?_
    have : (obs.length : ℝ) * (2 ^ 40 + 1) ≤ 2 ^ 40 * (2 ^ 40 + 1) := by gcongr
    refine this.trans (by norm_num)
  have hsub := App.add (m := 12 + 4 * N) happ1 happ3.neg (by linarith) (by linarith)
  obtain ⟨r, hr, -, happ4⟩ := hsub.rnd (by linarith) (by norm_num at hN40 ⊢; linarith)
    (by norm_num at hMsum hYb ⊢; linarith)
  refine ⟨r, ?_, ?_⟩
  · have e1 : ((obs.map fun a => (fin a.1, fin a.2.1, fin a.2.2)).map fun a => o.mul a.1 a.2.1) =
        obs.map fun i => fin (t i) := by
      rw [List.map_map]
      exact List.map_congr_left fun a ha => (ht a ha).1
    have e2 : (((obs.map fun a => (fin a.1, fin a.2.1, fin a.2.2)).flatMap fun a => (draws.map fin).map
        fun d => o.add (o.mul a.2.2 d) a.2.1).map fun z => FloatOps.log1p log1pR (o.exp z)) =
        (obs.product draws).map fun i => fin (u i) := by
      rw [List.flatMap_map]
      simp only [List.map_map]
      rw [flatMap_map_product, List.map_map]
      exact List.map_congr_left fun p hp => (hu p hp).1
    unfold FloatOps.getELogisticTerm
    change o.sum _ = fin s1 at hs1
    change o.sum _ = fin s2 at hs2
    simp only [e1, e2, hs1, hs2, List.length_map]
    have k1 : o.div (fin s2) (fin draws.length) = fin r2 := by
      show o.round (Flt.div (fin s2) (fin draws.length)) = fin r2
      simp only [Flt.div, if_neg (show (draws.length : ℝ) ≠ 0 by positivity)]
      exact hr2
    rw [k1]
    exact hr
  · have e1 : (obs.map fun a => a.1 * a.2.1).sum + -(B / draws.length) = logisticTerm obs draws := by
      rw [hB, sum_product obs draws fun a d => negLogOneMinusLogistic (a.2.1 + a.2.2 * d)]
      unfold logisticTerm
      clear * -
      induction obs with
      | nil => simp
      | cons a l ih =>
        simp only [List.map_cons, List.sum_cons, ← ih]
        ring
    have e2 : 1 + Y + (1 + A / draws.length) = logisticSize obs draws := by
      rw [hA, hY, sum_product obs draws fun a d => |a.2.2 * d| + |a.2.1| + 2]
      unfold logisticSize
      clear * -
      induction obs with
      | nil => simp; norm_num
      | cons a l ih =>
        simp only [List.map_cons, List.sum_cons]
        simp only [add_assoc] at ih ⊢
        linear_combination ih
    have h1 := happ4.err
    rw [e1, e2] at h1
    refine h1.trans ?_
    have h2 : 0 ≤ logisticSize obs draws := by rw [← e2]; positivity
    refine mul_le_mul_of_nonneg_right ?_ h2
    rw [ulp_eq]
    norm_num
    linarith

/-- A sum with an entry that is not finite is not finite. -/
theorem FloatOps.sum_not_finite (o : FloatOps) {l : List Flt} {a : Flt} (ha : a ∈ l) (h : ∀ r, a ≠ fin r) (r : ℝ) :
    o.sum l ≠ fin r := by
  unfold FloatOps.sum
  rw [if_neg (by
    intro hc
    obtain ⟨r, hr⟩ := hc a ha
    exact h r hr)]
  have stay : ∀ (l : List Flt) (b : Flt), (∀ r, b ≠ fin r) → ∀ r, l.foldl Flt.add b ≠ fin r := by
    intro l
    induction l with
    | nil => intro b hb r; exact hb r
    | cons c l ih =>
      intro b hb r
      rw [List.foldl_cons]
      refine ih _ ?_ r
      intro r'
      cases b <;> cases c <;> simp_all [Flt.add]
  have : ∀ (l : List Flt) (b : Flt), a ∈ l → ∀ r, l.foldl Flt.add b ≠ fin r := by
    intro l
    induction l with
    | nil => intro b hb; cases hb
    | cons c l ih =>
      intro b hb r
      rw [List.foldl_cons]
      rcases List.mem_cons.1 hb with rfl | hb
      · refine stay l _ ?_ r
        intro r'
        cases b <;> cases a <;> simp_all [Flt.add]
      · exact ih _ hb r
  exact this l _ ha r

/-- **C130** is false for large draws: as soon as `exp` overflows at one draw of one observation (710 in double
precision), the sum over all observations is not finite, although every term is of the size of the draw. -/
theorem C130_overflow_counterexample {o : FloatOps} {over under : ℝ} (c : FloatContract o over under)
    (log1pR : ℝ → Flt) (obs : List (Flt × Flt × Flt)) (draws : List Flt) (a : Flt × Flt × Flt) (ha : a ∈ obs)
    (d : Flt) (hd : d ∈ draws) (z : ℝ) (hz : o.add (o.mul a.2.2 d) a.2.1 = fin z) (hov : over ≤ Real.exp z) (r : ℝ) :
    o.getELogisticTerm log1pR obs draws ≠ fin r := by
  have h1 : pinf ∈ ((obs.flatMap fun a => draws.map fun d => o.add (o.mul a.2.2 d) a.2.1).map
      fun z => FloatOps.log1p log1pR (o.exp z)) := by
    refine List.mem_map.2 ⟨fin z, List.mem_flatMap.2 ⟨a, ha, List.mem_map.2 ⟨d, hd, hz⟩⟩, ?_⟩
    have : o.exp (fin z) = pinf := c.exp_over hov
    rw [this]
    rfl
  have h2 := o.sum_not_finite h1 (by simp)
  have hlen : (draws.length : ℝ) ≠ 0 := by
    have : 0 < draws.length := List.length_pos_of_mem hd
    positivity
  unfold FloatOps.getELogisticTerm
  dsimp only
  generalize o.sum ((obs.flatMap fun a => draws.map fun d => o.add (o.mul a.2.2 d) a.2.1).map
      fun z => FloatOps.log1p log1pR (o.exp z)) = S at h2
  have hpos : (0 : ℝ) < draws.length := lt_of_le_of_ne (by positivity) hlen.symm
  have h3 : ∀ r, o.div S (fin draws.length) ≠ fin r := by
    intro r
    cases S with
    | fin s => exact absurd rfl (h2 s)
    | pinf => simp [FloatOps.div, FloatOps.round, HDiv.hDiv, Div.div, Flt.div, Flt.infMul, hlen, hpos]
    | ninf => simp [FloatOps.div, FloatOps.round, HDiv.hDiv, Div.div, Flt.div, Flt.infMul, hlen, hpos, Neg.neg, Flt.neg]
    | nan => simp [FloatOps.div, FloatOps.round, HDiv.hDiv, Div.div, Flt.div]
  generalize o.div S (fin draws.length) = T at h3
  generalize o.sum (obs.map fun a => o.mul a.1 a.2.1) = P
  cases T with
  | fin s => exact absurd rfl (h3 s)
  | pinf => cases P <;> simp [FloatOps.sub, FloatOps.round, HSub.hSub, Sub.sub, Flt.sub, Flt.neg, Flt.add]
  | ninf => cases P <;> simp [FloatOps.sub, FloatOps.round, HSub.hSub, Sub.sub, Flt.sub, Flt.neg, Flt.add]
  | nan => cases P <;> simp [FloatOps.sub, FloatOps.round, HSub.hSub, Sub.sub, Flt.sub, Flt.neg, Flt.add]

namespace Binary64

/-- `np.sqrt(2)`. -/
theorem sqrt_two {expR logR : ℝ → Flt} {sumR : List ℝ → Flt} :
    ∃ r, (Binary64.ops expR logR sumR).sqrt (fin 2) = fin r ∧ App 1 r (Real.sqrt 2) 2 := by
  obtain ⟨r, h1, -, -, h2⟩ := App.sqrt (a := 2) ((zpow_le (j := -1000) (k := 1) (by norm_num)).trans (by norm_num))
    ((show (2 : ℝ) ≤ 2 ^ (1 : ℤ) by norm_num).trans (zpow_le (by norm_num)))
  have hs : Real.sqrt 2 ≤ 2 := by
    rw [Real.sqrt_le_left (by norm_num)]
    norm_num
  have hs0 := Real.sqrt_nonneg 2
  refine ⟨r, ?_, by rw [abs_of_nonneg hs0]; exact hs, by norm_num, ?_⟩
  · show (if (0 : ℝ) ≤ 2 then _ else _) = _
    rw [if_pos (by norm_num)]
    exact h1
  · exact le_trans h2 (mul_le_mul_of_nonneg_left hs (by linarith [ulp_pos]))

/-- The reciprocal of `np.sqrt(np.pi)`. -/
theorem sqrt_pi {expR logR : ℝ → Flt} {sumR : List ℝ → Flt} :
    ∃ r, (Binary64.ops expR logR sumR).sqrt (Binary64.ops expR logR sumR).pi = fin r ∧ 0 < r ∧
      App 4 r⁻¹ (Real.sqrt Real.pi)⁻¹ 1 := by
  have hp3 := Real.pi_gt_three
  have hp4 := Real.pi_le_four
  have hu := ulp_pos
  have hu1 := ulp_le
  have lo : ∀ x : ℝ, 1 ≤ x → (2 : ℝ) ^ (-1000 : ℤ) ≤ x := fun x hx =>
    ((zpow_le (j := -1000) (k := 0) (by norm_num)).trans (by simp)).trans hx
  have hi : ∀ x : ℝ, x ≤ 8 → x ≤ 2 ^ (1000 : ℤ) := fun x hx =>
    hx.trans ((show (8 : ℝ) ≤ 2 ^ (3 : ℤ) by norm_num).trans (zpow_le (by norm_num)))
  obtain ⟨q, h1, h2, h3⟩ := rnd_rel (x := Real.pi)
    (((zpow_le (j := -1022) (k := 0) (by norm_num)).trans (by simp)).trans (show (1 : ℝ) ≤ _ by linarith))
    (lt_of_le_of_lt ((show Real.pi ≤ 2 ^ (3 : ℤ) by norm_num; linarith)) (zpow_lt_max (by norm_num)))
  have hq := abs_le.1 (show |q - Real.pi| ≤ 1 * ulp * Real.pi from h3)
  have hq1 : 1 ≤ q := by nlinarith
  have hq8 : q ≤ 8 := by nlinarith
  obtain ⟨r, h4, -, h5, h6⟩ := App.sqrt (lo q hq1) (hi q hq8)
  have hsp : 1 ≤ Real.sqrt Real.pi := by
    apply Real.le_sqrt_of_sq_le
    linarith
  have hsq : 1 ≤ Real.sqrt q := by
    apply Real.le_sqrt_of_sq_le
    linarith
  have h7 : Rel 1 (Real.sqrt q) (Real.sqrt Real.pi) := by
    unfold Rel
    have e1 : (Real.sqrt q - Real.sqrt Real.pi) * (Real.sqrt q + Real.sqrt Real.pi) = q - Real.pi := by
      have a := Real.mul_self_sqrt (show 0 ≤ q by linarith)
      have b := Real.mul_self_sqrt (show 0 ≤ Real.pi by linarith)
      linear_combination a - b
    have e2 : |Real.sqrt q - Real.sqrt Real.pi| * (Real.sqrt q + Real.sqrt Real.pi) ≤
        1 * ulp * (Real.sqrt Real.pi * Real.sqrt Real.pi) := by
      rw [Real.mul_self_sqrt (by linarith)]
      rw [← abs_of_pos (show 0 < Real.sqrt q + Real.sqrt Real.pi by linarith), ← abs_mul, e1]
      exact h3
    have e3 : 0 ≤ |Real.sqrt q - Real.sqrt Real.pi| := abs_nonneg _
    by_contra hc
    nlinarith
  have h8 := Rel.trans h6 h7 (by linarith) (by norm_num) (by norm_num) (by norm_num) (by norm_num)
  refine ⟨r, ?_, h5, ?_⟩
  · have : (Binary64.ops expR logR sumR).pi = fin q := h1
    rw [this]
    show (if (0 : ℝ) ≤ q then _ else _) = _
    rw [if_pos (by linarith)]
    exact h4
  · have := App.inv h8 (by norm_num) (by norm_num) (by linarith)
    rw [max_eq_left (inv_le_one_of_one_le₀ hsp)] at this
    exact this.mono (by norm_num) (by norm_num) le_rfl

end Binary64

open Binary64 in
/-- **C130** The quadrature of the logistic term in double precision is accurate as long as no node exceeds 700. -/
theorem C130_quadrature_accuracy_partial (expR logR log1pR : ℝ → Flt) (sumR : List ℝ → Flt)
    (c : FloatContract (Binary64.ops expR logR sumR) (2 ^ 1024) (2 ^ (-1075 : ℤ)))
    (c' : Log1pContract (Binary64.ops expR logR sumR) log1pR) (hs : AccurateSum (Binary64.ops expR logR sumR))
    (obs nodes : List (ℝ × ℝ)) (hw : ∀ p ∈ nodes, |p.2| ≤ 2 ^ 40)
    (hz : ∀ a ∈ obs, ∀ p ∈ nodes, a.1 + Real.sqrt 2 * a.2 * p.1 ≤ 700 ∧
      2 * (|a.2| + 1) * (|p.1| + 1) + |a.1| + 1 ≤ 2 ^ 40)
    (hN : obs.length * nodes.length ≤ 2 ^ 40) :
    ∃ r, (Binary64.ops expR logR sumR).getELogisticTermGH log1pR
        (obs.map fun a => (fin a.1, fin a.2)) (nodes.map fun p => (fin p.1, fin p.2)) = fin r ∧
      |r - logisticQuadrature obs nodes| ≤
        2 ^ (-50 : ℤ) * (obs.length * nodes.length + 10) * quadratureSize obs nodes := by
  set o := Binary64.ops expR logR sumR with ho
  obtain ⟨s, hs2, has⟩ := sqrt_two (expR := expR) (logR := logR) (sumR := sumR)
  obtain ⟨g, hg, hg0, hag⟩ := sqrt_pi (expR := expR) (logR := logR) (sumR := sumR)
  change o.sqrt (fin 2) = fin s at hs2
  change o.sqrt o.pi = fin g at hg
  have hq : ∀ q : (ℝ × ℝ) × (ℝ × ℝ), ∃ u, q ∈ obs.product nodes →
      o.div (o.mul (fin q.2.2) (FloatOps.log1p log1pR (o.exp
        (o.add (o.mul (o.mul (o.sqrt (fin 2)) (fin q.1.2)) (fin q.2.1)) (fin q.1.1))))) (o.sqrt o.pi) = fin u ∧ Rep u ∧
      App 25 u (q.2.2 / Real.sqrt Real.pi * negLogOneMinusLogistic (q.1.1 + Real.sqrt 2 * q.1.2 * q.2.1))
        ((|q.2.2| + 1) * (2 * (|q.1.2| + 1) * (|q.2.1| + 1) + |q.1.1| + 1)) := by
    rintro ⟨⟨m, sd⟩, x, w⟩
    by_cases hp : ((m, sd), (x, w)) ∈ obs.product nodes
    · obtain ⟨ha, hb⟩ := List.mem_product.1 hp
      obtain ⟨h1, h2⟩ := hz _ ha _ hb
      have h3 := hw _ hb
      simp only at h1 h2 h3
      have a1 := abs_nonneg sd
      have a2 := abs_nonneg m
      have a3 := abs_nonneg x
      have a4 := abs_nonneg w
      have a5 : 2 * (|sd| + 1) ≤ 2 * (|sd| + 1) * (|x| + 1) := le_mul_of_one_le_right (by linarith) (by linarith)
      have b1 := App.mul has (App.exact (b := sd) (M := |sd| + 1) (by linarith) (by linarith)) (by norm_num)
        (by norm_num) (by norm_num) (by norm_num)
      obtain ⟨p, p1, -, p3⟩ := b1.rnd (by norm_num) (by norm_num) (by norm_num at h2 ⊢; linarith)
      have b2 := App.mul p3 (App.exact (b := x) (M := |x| + 1) (by linarith) (by linarith)) (by norm_num)
        (by norm_num) (by norm_num) (by norm_num)
      obtain ⟨q, q1, -, q3⟩ := b2.rnd (by norm_num) (by norm_num) (by norm_num at h2 ⊢; linarith)
      have b3 := App.add (m := 7) q3 (App.exact (b := m) (M := |m| + 1) (by linarith) (by linarith)) (by norm_num)
        (by norm_num)
      obtain ⟨z, z1, -, z3⟩ := b3.rnd (by norm_num) (by norm_num) (by norm_num at h2 ⊢; linarith)
      have hX : |Real.sqrt 2 * sd * x + m| + 1 ≤ 2 * (|sd| + 1) * (|x| + 1) + (|m| + 1) := by
        have e1 := abs_add_le (Real.sqrt 2 * sd * x) m
        rw [abs_mul, abs_mul] at e1
        have e2 := has.bound
        have e3 : |Real.sqrt 2| * |sd| * |x| ≤ 2 * |sd| * |x| := by gcongr
        nlinarith [mul_nonneg a1 a3]
      obtain ⟨u, u1, -, -, u3⟩ := softplus_app c c' z3 (by norm_num) (by norm_num) hX
        (by linarith) (by norm_num at h2 ⊢; linarith)
      have b4 := App.mul (App.exact (b := w) (M := |w| + 1) (by linarith) (by linarith)) u3 le_rfl (by norm_num)
        (by norm_num) (by norm_num)
      have hMM : (|w| + 1) * (2 * (|sd| + 1) * (|x| + 1) + (|m| + 1)) ≤ 2 ^ 200 := by
        have : (|w| + 1) * (2 * (|sd| + 1) * (|x| + 1) + (|m| + 1)) ≤ (2 ^ 40 + 1) * 2 ^ 40 := by
          gcongr
          linarith
        exact this.trans (by norm_num)
      obtain ⟨v, v1, -, v3⟩ := b4.rnd (by norm_num) (by norm_num) hMM
      have b5 := App.mul v3 hag (by norm_num) (by norm_num) (by norm_num) (by norm_num)
      rw [mul_one] at b5
      obtain ⟨y, y1, y2, y3⟩ := b5.rnd (by norm_num) (by norm_num) hMM
      refine ⟨y, fun _ => ⟨?_, y2, ?_⟩⟩
      · have k1 : o.mul (fin s) (fin sd) = fin p := p1
        have k2 : o.mul (fin p) (fin x) = fin q := q1
        have k3 : o.add (fin q) (fin m) = fin z := z1
        have k4 : FloatOps.log1p log1pR (o.exp (fin z)) = fin u := u1
        have k5 : o.mul (fin w) (fin u) = fin v := v1
        simp only [hs2, hg, k1, k2, k3, k4, k5]
        show o.round (Flt.div (fin v) (fin g)) = fin y
        simp only [Flt.div, if_neg hg0.ne']
        exact y1
      · simp only [negLogOneMinusLogistic_eq]
        rw [add_comm m, show w / Real.sqrt Real.pi * Real.log (1 + Real.exp (Real.sqrt 2 * sd * x + m)) =
          w * Real.log (1 + Real.exp (Real.sqrt 2 * sd * x + m)) * (Real.sqrt Real.pi)⁻¹ by ring]
        exact y3.mono (by norm_num) (by norm_num) (le_of_eq (by ring))
    · exact ⟨0, fun h => absurd h hp⟩
  choose u hu using hq
  have hpl : (obs.product nodes).length = obs.length * nodes.length := List.length_product ..
  obtain ⟨r, hr, -, happ⟩ := sum_app hs (obs.product nodes) u _ _ (k := 25) (by norm_num) (by norm_num)
    (fun p hp => (hu p hp).2) (by rw [hpl]; exact hN) (by
      have h1 := sum_map_le_card (obs.product nodes)
        (fun q => (|q.2.2| + 1) * (2 * (|q.1.2| + 1) * (|q.2.1| + 1) + |q.1.1| + 1)) ((2 ^ 40 + 1) * 2 ^ 40)
        (fun q hq => by
          obtain ⟨ha, hb⟩ := List.mem_product.1 hq
          have h2 := (hz _ ha _ hb).2
          have h3 := hw _ hb
          gcongr)
      have h2 : (((obs.product nodes).length : ℕ) : ℝ) ≤ 2 ^ 40 := by rw [hpl]; exact_mod_cast hN
      refine h1.trans ?_
      have : (((obs.product nodes).length : ℕ) : ℝ) * ((2 ^ 40 + 1) * 2 ^ 40) ≤ 2 ^ 40 * ((2 ^ 40 + 1) * 2 ^ 40) := by
        gcongr
      refine this.trans (by norm_num))
  refine ⟨r, ?_, ?_⟩
  · change o.sum _ = fin r at hr
    unfold FloatOps.getELogisticTermGH
    rw [← hr, List.flatMap_map]
    simp only [List.map_map]
    rw [flatMap_map_product]
    congr 1
    exact List.map_congr_left fun p hp => (hu p hp).1
  · have h1 := happ.err
    rw [hpl, sum_product obs nodes fun a p => p.2 / Real.sqrt Real.pi *
        negLogOneMinusLogistic (a.1 + Real.sqrt 2 * a.2 * p.1),
      sum_product obs nodes fun a p => (|p.2| + 1) * (2 * (|a.2| + 1) * (|p.1| + 1) + |a.1| + 1)] at h1
    refine h1.trans ?_
    have h2 : 0 ≤ quadratureSize obs nodes := by
      unfold quadratureSize
      refine add_nonneg zero_le_one (List.sum_nonneg ?_)
      intro x hx
      obtain ⟨a, -, rfl⟩ := List.mem_map.1 hx
      refine List.sum_nonneg ?_
      intro x hx
      obtain ⟨p, -, rfl⟩ := List.mem_map.1 hx
      positivity
    refine mul_le_mul_of_nonneg_right ?_ h2
    have h3 : (0 : ℝ) ≤ (obs.length : ℝ) * nodes.length := by positivity
    push_cast
    rw [ulp_eq]
    norm_num
    linarith

/-- **C130** is false for large nodes of the quadrature in the same way, for nodes with a positive weight. -/
theorem C130_quadrature_counterexample {o : FloatOps} {over under : ℝ} (c : FloatContract o over under)
    (log1pR : ℝ → Flt) (obs nodes : List (Flt × Flt)) (a : Flt × Flt) (ha : a ∈ obs)
    (p : Flt × Flt) (hp : p ∈ nodes) (z w : ℝ)
    (hz : o.add (o.mul (o.mul (o.sqrt (fin 2)) a.2) p.1) a.1 = fin z) (hw : p.2 = fin w) (hov : over ≤ Real.exp z)
    (r : ℝ) : o.getELogisticTermGH log1pR obs nodes ≠ fin r := by
  unfold FloatOps.getELogisticTermGH
  dsimp only
  refine o.sum_not_finite (List.mem_flatMap.2 ⟨a, ha, List.mem_map.2 ⟨p, hp, rfl⟩⟩) ?_ r
  intro r'
  have : o.exp (fin z) = pinf := c.exp_over hov
  rw [hz, this, hw]
  have h1 : ∀ x, FloatOps.log1p x pinf = pinf := fun x => rfl
  rw [h1]
  have h2 : ∀ r, o.mul (fin w) pinf ≠ fin r := by
    intro r
    show o.round (infMul w) ≠ fin r
    unfold infMul
    split_ifs <;> simp [FloatOps.round]
  generalize o.mul (fin w) pinf = S at h2
  generalize o.sqrt o.pi = T
  have hneg : ∀ x : ℝ, ∀ r, infMul x ≠ fin r := by
    intro x r
    unfold infMul
    split_ifs <;> simp
  have hneg' : ∀ x : ℝ, ∀ r, (infMul x).neg ≠ fin r := by
    intro x r
    unfold infMul
    split_ifs <;> simp [Flt.neg]
  have hround : ∀ x : Flt, (∀ r, x ≠ fin r) → ∀ r, o.round x ≠ fin r := by
    intro x hx r
    cases x <;> simp_all [FloatOps.round]
  refine hround _ ?_ r'
  intro r
  cases S with
  | fin s => exact absurd rfl (h2 s)
  | pinf =>
    cases T with
    | fin t =>
      show (if t = 0 then pinf else infMul t) ≠ fin r
      split_ifs
      · simp
      · exact hneg t r
    | pinf => intro h; cases h
    | ninf => intro h; cases h
    | nan => intro h; cases h
  | ninf =>
    cases T with
    | fin t =>
      show (if t = 0 then ninf else (infMul t).neg) ≠ fin r
      split_ifs
      · simp
      · exact hneg' t r
    | pinf => intro h; cases h
    | ninf => intro h; cases h
    | nan => intro h; cases h
  | nan => cases T <;> (intro h; cases h)

open Binary64 in
/-- **C129** `get_e_log_logitnormal` in double precision is accurate, for every mean and positive information of
reasonable size: the quadrature is exact up to rounding, whatever the sign and the size of the sample points. -/
theorem C129_accuracy (expR logR : ℝ → Flt) (sumR : List ℝ → Flt)
    (c : FloatContract (Binary64.ops expR logR sumR) (2 ^ 1024) (2 ^ (-1075 : ℤ)))
    (hs : AccurateSum (Binary64.ops expR logR sumR)) (mean info : ℝ) (nodes : List (ℝ × ℝ))
    (hi1 : 2 ^ (-100 : ℤ) ≤ info) (hi2 : info ≤ 2 ^ 100) (hm : |mean| ≤ 2 ^ 50)
    (hw : ∀ p ∈ nodes, |p.1| ≤ 2 ^ 40 ∧ |p.2| ≤ 2 ^ 40) (hN : nodes.length ≤ 2 ^ 40) :
    ∃ r s, (Binary64.ops expR logR sumR).getELogLogitnormal (fin mean) (fin info)
        (nodes.map fun p => (fin p.1, fin p.2)) = (fin r, fin s) ∧
      |r - logitNormalQuadrature mean info nodes| ≤
        2 ^ (-50 : ℤ) * (nodes.length + 20) * logitNormalSize mean info nodes ∧
      |s - (logitNormalQuadrature mean info nodes - mean)| ≤
        2 ^ (-50 : ℤ) * (nodes.length + 20) * (logitNormalSize mean info nodes + |mean| + 1) := by
  set o := Binary64.ops expR logR sumR with ho
  have hi0 : 0 < info := (two_zpow_pos _).trans_le hi1
  obtain ⟨s, hs2, has⟩ := sqrt_two (expR := expR) (logR := logR) (sumR := sumR)
  obtain ⟨g, hg, hg0, hag⟩ := sqrt_pi (expR := expR) (logR := logR) (sumR := sumR)
  change o.sqrt (fin 2) = fin s at hs2
  change o.sqrt o.pi = fin g at hg
  obtain ⟨b, hb, -, hb0, hbr⟩ := App.sqrt (a := info) ((zpow_le (by norm_num)).trans hi1)
    (hi2.trans (by rw [← zpow_natCast]; exact zpow_le (by norm_num)))
  have hib : o.sqrt (fin info) = fin b := by
    show (if (0 : ℝ) ≤ info then _ else _) = _
    rw [if_pos hi0.le]
    exact hb
  have hbi := App.inv hbr (by norm_num) (by norm_num) (Real.sqrt_pos.2 hi0)
  have hG : max 1 (Real.sqrt info)⁻¹ ≤ 2 ^ 50 := by
    refine max_le (by norm_num) ?_
    rw [inv_le_comm₀ (Real.sqrt_pos.2 hi0) (by norm_num)]
    apply Real.le_sqrt_of_sq_le
    refine le_trans (le_of_eq ?_) hi1
    norm_num
  set G := max 1 (Real.sqrt info)⁻¹ with hGdef
  have hG1 : 1 ≤ G := le_max_left _ _
  clear hi1 hi2
  have a2 := abs_nonneg mean
  obtain ⟨κ, κ1, -, κ3⟩ := hag.rnd (by norm_num) (by norm_num) (by norm_num)
  have hκ : o.div (fin 1) (fin g) = fin κ := by
    show o.round (Flt.div (fin 1) (fin g)) = fin κ
    simp only [Flt.div, if_neg hg0.ne', one_div]
    exact κ1
  have hq : ∀ q : ℝ × ℝ, ∃ u, q ∈ nodes →
      o.mul (o.mul (o.div (fin 1) (o.sqrt o.pi)) (fin q.2)) (o.logV (o.samplePoint (fin mean) (fin info) (fin q.1))) =
        fin u ∧ Rep u ∧
      App 45 u (q.2 / Real.sqrt Real.pi * logLogistic (mean + Real.sqrt 2 * q.1 / Real.sqrt info))
        ((|q.2| + 1) * (2 * (|q.1| + 1) * G + |mean| + 1)) := by
    rintro ⟨x, w⟩
    by_cases hp : (x, w) ∈ nodes
    · obtain ⟨h2, h3⟩ := hw _ hp
      simp only at h2 h3
      have a3 := abs_nonneg x
      have a4 := abs_nonneg w
      have hxG : 2 * (|x| + 1) * G ≤ 2 * (2 ^ 40 + 1) * 2 ^ 50 := by gcongr
      have b1 := App.mul has (App.exact (b := x) (M := |x| + 1) (by linarith) (by linarith)) (by norm_num)
        (by norm_num) (by norm_num) (by norm_num)
      obtain ⟨p, p1, p2, p3⟩ := b1.rnd (by norm_num) (by norm_num) (by norm_num at h2 ⊢; linarith)
      have b2 := App.mul p3 hbi (by norm_num) (by norm_num) (by norm_num) (by norm_num)
      obtain ⟨q, q1, -, q3⟩ := b2.rnd (by norm_num) (by norm_num) (by norm_num at hxG ⊢; linarith)
      have b3 := App.add (m := 9) q3 (App.exact (b := mean) (M := |mean| + 1) (by linarith) (by linarith))
        (by norm_num) (by norm_num)
      obtain ⟨z, z1, z2, z3⟩ := b3.rnd (by norm_num) (by norm_num) (by norm_num at hxG hm ⊢; linarith)
      have hX : |Real.sqrt 2 * x * (Real.sqrt info)⁻¹ + mean| + 1 ≤ 2 * (|x| + 1) * G + (|mean| + 1) := by
        have e1 := abs_add_le (Real.sqrt 2 * x * (Real.sqrt info)⁻¹) mean
        rw [abs_mul, abs_mul] at e1
        have e2 := has.bound
        have e4 := hbi.bound
        have e3 : |Real.sqrt 2| * |x| * |(Real.sqrt info)⁻¹| ≤ 2 * |x| * G := by gcongr
        nlinarith [mul_nonneg a3 (zero_le_one.trans hG1)]
      obtain ⟨y, y1, y2, y4⟩ : ∃ y, o.logV (fin z) = fin y ∧ Rep y ∧
          |y - logLogistic z| ≤ 2 ^ (-49 : ℤ) * (1 + |logLogistic z|) := by
        rcases lt_or_ge (-100) z with hx | hx
        · obtain ⟨y, h1, h2, -, h3⟩ := logV_large c hx
          exact ⟨y, h1, h2, h3⟩
        · exact ⟨z, (logV_small c z2 hx).1, z2, (logV_small c z2 hx).2⟩
      have y3 := logistic_app z3 (by norm_num) (by norm_num) hX y4
      have b4 := App.mul κ3 (App.exact (b := w) (M := |w| + 1) (by linarith) (by linarith)) (by norm_num)
        (by norm_num) (by norm_num) (by norm_num)
      rw [one_mul] at b4
      obtain ⟨v, v1, -, v3⟩ := b4.rnd (by norm_num) (by norm_num) (by norm_num at h3 ⊢; linarith)
      have b5 := App.mul v3 y3 (by norm_num) (by norm_num) (by norm_num) (by norm_num)
      have hMM : (|w| + 1) * (2 * (|x| + 1) * G + (|mean| + 1)) ≤ 2 ^ 200 := by
        have : (|w| + 1) * (2 * (|x| + 1) * G + (|mean| + 1)) ≤
            (2 ^ 40 + 1) * (2 * (2 ^ 40 + 1) * 2 ^ 50 + (2 ^ 50 + 1)) := by gcongr
        exact this.trans (by norm_num)
      obtain ⟨u, u1, u2, u3⟩ := b5.rnd (by norm_num) (by norm_num) hMM
      refine ⟨u, fun _ => ⟨?_, u2, ?_⟩⟩
      · have k1 : o.mul (fin s) (fin x) = fin p := p1
        have k2 : o.mul (fin p) (fin 1) = fin p := by
          show o.rnd (p * 1) = fin p
          rw [mul_one]
          exact c.rnd_rep p2
        have k3 : o.div (fin p) (fin b) = fin q := by
          show o.round (Flt.div (fin p) (fin b)) = fin q
          simp only [Flt.div, if_neg hb0.ne']
          rw [div_eq_mul_inv]
          exact q1
        have k4 : o.add (fin q) (fin mean) = fin z := z1
        have k5 : o.mul (fin κ) (fin w) = fin v := v1
        have k6 : o.mul (fin v) (fin y) = fin u := u1
        simp only [FloatOps.samplePoint, hs2, hib, hg, hκ, k1, k2, k3, k4, y1, k5, k6]
      · have := u3.mono (l := 45) (by norm_num) (by norm_num)
          (show (|w| + 1) * (2 * (|x| + 1) * G + (|mean| + 1)) ≤ _ from le_of_eq
            (show _ = (|w| + 1) * (2 * (|x| + 1) * G + |mean| + 1) by ring))
        rw [div_eq_mul_inv, mul_comm w, add_comm mean, div_eq_mul_inv]
        exact this
    · exact ⟨0, fun h => absurd h hp⟩
  choose u hu using hq
  have hsum : (nodes.map fun q => (|q.2| + 1) * (2 * (|q.1| + 1) * G + |mean| + 1)).sum ≤ 2 ^ 190 := by
    have h1 := sum_map_le_card nodes
      (fun q => (|q.2| + 1) * (2 * (|q.1| + 1) * G + |mean| + 1))
      ((2 ^ 40 + 1) * (2 * (2 ^ 40 + 1) * 2 ^ 50 + 2 ^ 50 + 1))
      (fun q hq => by
        obtain ⟨h2, h3⟩ := hw _ hq
        gcongr)
    have h2 : ((nodes.length : ℕ) : ℝ) ≤ 2 ^ 40 := by exact_mod_cast hN
    refine h1.trans ?_
    have : ((nodes.length : ℕ) : ℝ) * ((2 ^ 40 + 1) * (2 * (2 ^ 40 + 1) * 2 ^ 50 + 2 ^ 50 + 1)) ≤
        2 ^ 40 * ((2 ^ 40 + 1) * (2 * (2 ^ 40 + 1) * 2 ^ 50 + 2 ^ 50 + 1)) := by
      gcongr
    refine this.trans (by norm_num)
  have hsum0 : 0 ≤ (nodes.map fun q => (|q.2| + 1) * (2 * (|q.1| + 1) * G + |mean| + 1)).sum := by
    refine List.sum_nonneg ?_
    intro x hx
    obtain ⟨a, -, rfl⟩ := List.mem_map.1 hx
    positivity
  obtain ⟨r, hr, -, happ⟩ := sum_app hs nodes u _ _ (k := 45) (by norm_num) (by norm_num)
    (fun p hp => (hu p hp).2) hN (hsum.trans (by norm_num))
  have hN0 : (0 : ℝ) ≤ nodes.length := by positivity
  have hN1 : (nodes.length : ℝ) ≤ 2 ^ 40 := by exact_mod_cast hN
  have hadd := App.add (m := 45 + 4 * nodes.length)
    (App.exact (b := -mean) (M := |mean| + 1) (by rw [abs_neg]; linarith) (by linarith)) happ (by linarith) le_rfl
  obtain ⟨t, ht, -, happ'⟩ := hadd.rnd (by linarith)
    (by clear * - hN1; generalize (nodes.length : ℝ) = n at hN1 ⊢; norm_num at hN1 ⊢; linarith)
    (by norm_num at hsum hm ⊢; linarith)
  have hr' : o.getEFunNormal (fin mean) (fin info) (nodes.map fun p => (fin p.1, fin p.2)) o.logV = fin r := by
    change o.sum _ = fin r at hr
    unfold FloatOps.getEFunNormal
    rw [← hr, List.map_map]
    congr 1
    exact List.map_congr_left fun p hp => (hu p hp).1
  refine ⟨r, t, ?_, ?_, ?_⟩
  · unfold FloatOps.getELogLogitnormal
    rw [hr']
    exact Prod.ext rfl ht
  · have h1 := happ.err
    refine h1.trans ?_
    refine mul_le_mul_of_nonneg_right ?_ (show 0 ≤ logitNormalSize mean info nodes from add_nonneg zero_le_one hsum0)
    rw [ulp_eq]
    norm_num
    linarith
  · have h1 := happ'.err
    rw [show logitNormalQuadrature mean info nodes - mean = -mean + logitNormalQuadrature mean info nodes by ring]
    refine h1.trans ?_
    have e1 : |mean| + 1 + (1 + (nodes.map fun q => (|q.2| + 1) * (2 * (|q.1| + 1) * G + |mean| + 1)).sum) =
        logitNormalSize mean info nodes + |mean| + 1 := by
      unfold logitNormalSize
      rw [← hGdef]
      ring
    rw [e1]
    refine mul_le_mul_of_nonneg_right ?_ (by rw [← e1]; positivity)
    rw [ulp_eq]
    norm_num
    linarith

/-! ### The hypotheses -/

namespace Binary64

/-- The rounding of a sum of two doubles has a small relative error, also for the smallest numbers. -/
theorem rnd_add_rel {a b : ℝ} (ha : Rep a) (hb : Rep b) (h : |a + b| < 2 ^ 1023) :
    ∃ r, rnd (a + b) = fin r ∧ Rep r ∧ |r - (a + b)| ≤ ulp * |a + b| := by
  obtain ⟨r, hr, hrr⟩ := rnd_finite h.le
  rcases lt_or_ge |a + b| (2 ^ (-1022 : ℤ)) with hs | hs
  · have hrep : Rep (a + b) := by
      obtain ⟨m, e, -, he, -, rfl⟩ := ha
      obtain ⟨m', e', -, he', -, rfl⟩ := hb
      have key : ∀ (m e : ℤ), -1074 ≤ e → ((m : ℝ) * 2 ^ e) = ((m * 2 ^ (e + 1074).toNat : ℤ) : ℝ) * 2 ^ (-1074 : ℤ) := by
        intro m e he
        obtain ⟨k, rfl⟩ : ∃ k : ℕ, e = -1074 + k := ⟨(e + 1074).toNat, by omega⟩
        rw [zpow_add₀ two_ne_zero, show (-1074 + (k : ℤ) + 1074).toNat = k by omega, zpow_natCast]
        push_cast
        ring
      rw [key m e he, key m' e' he', ← add_mul, ← Int.cast_add] at hs ⊢
      set M : ℤ := m * 2 ^ (e + 1074).toNat + m' * 2 ^ (e' + 1074).toNat
      refine ⟨M, -1074, ?_, le_rfl, by norm_num, rfl⟩
      rw [abs_mul, abs_of_pos (two_zpow_pos _), show (-1022 : ℤ) = 52 + -1074 by norm_num, zpow_add₀ two_ne_zero] at hs
      have h1 := lt_of_mul_lt_mul_right hs (two_zpow_pos _).le
      have h2 : |(M : ℝ)| < 2 ^ 53 := h1.trans (by norm_num)
      exact_mod_cast h2
    rw [rnd_rep hrep] at hr
    cases hr
    refine ⟨_, rnd_rep hrep, hrep, ?_⟩
    rw [sub_self, abs_zero]
    exact mul_nonneg ulp_pos.le (abs_nonneg _)
  · rcases le_total 0 (a + b) with h0 | h0
    · rw [abs_of_nonneg h0] at h hs ⊢
      obtain ⟨r, h1, h2, h3⟩ := rnd_rel hs h
      exact ⟨r, h1, h2, by simpa [Rel] using h3⟩
    · rw [abs_of_nonpos h0] at h hs ⊢
      obtain ⟨r, h1, h2, h3⟩ := rnd_rel hs h
      refine ⟨-r, ?_, h2.neg, ?_⟩
      · rw [rnd_neg] at h1
        have : rnd (a + b) = -(-rnd (a + b)) := by
          cases rnd (a + b) with
          | fin x => exact congrArg fin (neg_neg x).symm
          | pinf => rfl
          | ninf => rfl
          | nan => rfl
        rw [this, h1]
        rfl
      · have : |r - -(a + b)| ≤ 1 * ulp * -(a + b) := h3
        rw [show -r - (a + b) = -(r - -(a + b)) by ring, abs_neg, ← one_mul ulp]
        exact this

/-- Summation from left to right is accurate. -/
theorem ideal_accurateSum : AccurateSum ideal := by
  intro l hl hlen hsum
  have hu := ulp_pos
  have step : ∀ (l : List ℝ) (s S T : ℝ) (k : ℕ), Rep s → (∀ a ∈ l, Rep a) → |S| ≤ T →
      |s - S| ≤ ((1 + ulp) ^ k - 1) * T → k + l.length ≤ 2 ^ 50 → T + (l.map (|·|)).sum ≤ 2 ^ (1000 : ℤ) →
      ∃ r, l.foldl (fun s a => match s + fin a with | fin r => rnd r | y => y) (fin s) = fin r ∧ Rep r ∧
        |r - (S + l.sum)| ≤ ((1 + ulp) ^ (k + l.length) - 1) * (T + (l.map (|·|)).sum) := by
    intro l
    induction l with
    | nil =>
      intro s S T k hs _ _ herr _ _
      exact ⟨s, rfl, hs, by simpa using herr⟩
    | cons a l ih =>
      intro s S T k hs hl hST herr hk hT
      have hpow : ∀ j : ℕ, j ≤ 2 ^ 50 → (1 + ulp) ^ j ≤ 2 := by
        intro j hj
        have h1 : (1 + ulp) ^ j ≤ Real.exp (ulp * j) := by
          rw [mul_comm, Real.exp_nat_mul]
          exact pow_le_pow_left₀ (by linarith) (by linarith [Real.add_one_le_exp ulp]) _
        have h2 : ulp * j ≤ Real.log 2 := by
          have : (j : ℝ) ≤ 2 ^ 50 := by exact_mod_cast hj
          have l2 := Real.log_two_gt_d9
          generalize (j : ℝ) = n at *
          rw [ulp_eq]
          norm_num at this
          linarith
        rw [← Real.exp_log (show (0 : ℝ) < 2 by norm_num)]
        exact h1.trans (Real.exp_le_exp.2 h2)
      have hp1 : 1 ≤ (1 + ulp) ^ k := one_le_pow₀ (by linarith)
      have hT0 : 0 ≤ T := (abs_nonneg _).trans hST
      have ha0 := abs_nonneg a
      have hl0 : 0 ≤ (l.map (|·|)).sum := List.sum_nonneg (by
        intro x hx
        obtain ⟨p, -, rfl⟩ := List.mem_map.1 hx
        exact abs_nonneg _)
      simp only [List.map_cons, List.sum_cons] at hT
      have hsT : |s + a| ≤ (1 + ulp) ^ k * (T + |a|) := by
        have e1 := abs_add_le s a
        have e2 := abs_sub_abs_le_abs_sub s S
        nlinarith
      have hsa : |s + a| < 2 ^ 1023 := by
        have h1 := hpow k (by omega)
        have h2 : (1 + ulp) ^ k * (T + |a|) ≤ 2 * (T + |a|) := mul_le_mul_of_nonneg_right h1 (by linarith)
        have h3 : T + |a| ≤ 2 ^ (1000 : ℤ) := by
          generalize (2 : ℝ) ^ (1000 : ℤ) = B at *
          linarith
        have h4 : 2 * (T + |a|) ≤ 2 * 2 ^ (1000 : ℤ) := mul_le_mul_of_nonneg_left h3 zero_le_two
        rw [two_mul_zpow] at h4
        exact lt_of_le_of_lt (hsT.trans (h2.trans h4)) (zpow_lt_max (by norm_num))
      obtain ⟨r, hr, hrr, hrerr⟩ := rnd_add_rel hs (hl a List.mem_cons_self) hsa
      clear hsa
      obtain ⟨q, hq, hqr, hqerr⟩ := ih r (S + a) (T + |a|) (k + 1) hrr (fun b hb => hl b (List.mem_cons_of_mem _ hb))
        ((abs_add_le _ _).trans (by linarith)) (by
          have e1 : |r - (S + a)| ≤ |r - (s + a)| + |s - S| := by
            have := abs_add_le (r - (s + a)) (s - S)
            rwa [show r - (s + a) + (s - S) = r - (S + a) by ring] at this
          have e2 : ulp * |s + a| ≤ ulp * ((1 + ulp) ^ k * (T + |a|)) := mul_le_mul_of_nonneg_left hsT hu.le
          rw [pow_succ]
          nlinarith) (by simp only [List.length_cons] at hk; omega) (by
          refine le_trans (le_of_eq ?_) hT
          ring)
      refine ⟨q, ?_, hqr, ?_⟩
      · rw [List.foldl_cons]
        have : (match fin s + fin a with | fin r => rnd r | y => y) = fin r := hr
        rw [this]
        exact hq
      · simp only [List.map_cons, List.sum_cons, List.length_cons]
        rw [show k + (l.length + 1) = k + 1 + l.length by omega, ← add_assoc, ← add_assoc]
        exact hqerr
  obtain ⟨r, h1, h2, h3⟩ := step l 0 0 0 0 contract.zero hl (by simp) (by simp) (by simpa using hlen)
    (by rw [zero_add]; exact hsum)
  refine ⟨r, h1, h2, ?_⟩
  rw [zero_add, zero_add, zero_add] at h3
  refine h3.trans (mul_le_mul_of_nonneg_right ?_ (List.sum_nonneg (by
    intro x hx
    obtain ⟨p, -, rfl⟩ := List.mem_map.1 hx
    exact abs_nonneg _)))
  have h4 : (1 + ulp) ^ l.length ≤ Real.exp (ulp * l.length) := by
    rw [mul_comm, Real.exp_nat_mul]
    exact pow_le_pow_left₀ (by linarith) (by linarith [Real.add_one_le_exp ulp]) _
  have h5 : ulp * l.length ≤ 1 / 4 := by
    have : (l.length : ℝ) ≤ 2 ^ 50 := by exact_mod_cast hlen
    generalize (l.length : ℝ) = n at *
    rw [ulp_eq]
    norm_num at this ⊢
    linarith
  have h6 : 0 ≤ ulp * l.length := by positivity
  have h7 : Real.exp (ulp * l.length) ≤ 1 + 2 * (ulp * l.length) := by
    have := Real.abs_exp_sub_one_sub_id_le (x := ulp * l.length) (by rw [abs_of_nonneg h6]; linarith)
    have h8 := (abs_le.1 this).2
    nlinarith
  rw [show (2 : ℝ) ^ (-51 : ℤ) = 2 * ulp by rw [ulp_eq]; norm_num]
  linarith

/-- The correctly rounded `log1p`. -/
theorem ideal_log1p : Log1pContract ideal (fun x => rnd (Real.log (1 + x))) where
  rep {x} h hr := by
    refine rnd_finite ?_
    have h1 : 0 ≤ Real.log (1 + x) := Real.log_nonneg (by linarith)
    have hx := hr.lt
    rw [abs_of_nonneg h1]
    have h2 : 1 + x ≤ 2 ^ 1025 := by
      have : (1 : ℝ) ≤ 2 ^ 1024 := one_le_pow₀ one_le_two
      rw [pow_succ]
      generalize (2 : ℝ) ^ 1024 = B at *
      linarith
    have h3 := Real.log_le_log (by linarith) h2
    rw [Real.log_pow] at h3
    have l2 := Real.log_two_lt_d9
    have h4 : Real.log (1 + x) ≤ 2 ^ 11 := by
      push_cast at h3
      norm_num
      linarith
    exact h4.trans (pow_le_pow_right₀ one_le_two (by norm_num))
  ge _ := rnd_mono_le
  le _ := rnd_mono_ge

end Binary64

/-- The hypotheses of `C130_accuracy_partial`: two observations and two draws, in double precision with correctly
rounded library functions and summation from left to right. -/
example : ∃ r, Binary64.ideal.getELogisticTerm (fun x => Binary64.rnd (Real.log (1 + x)))
      [(fin 1, fin 2, fin 1), (fin 0, fin (-3), fin 2)] [fin (-1), fin 1] = fin r ∧
    |r - logisticTerm [(1, 2, 1), (0, -3, 2)] [-1, 1]| ≤
      2 ^ (-50 : ℤ) * (2 * 2 + 10) * logisticSize [(1, 2, 1), (0, -3, 2)] [-1, 1] := by
  have := C130_accuracy_partial _ _ _ _ Binary64.contract Binary64.ideal_log1p Binary64.ideal_accurateSum
    [(1, 2, 1), (0, -3, 2)] [-1, 1] (by simp) (by simp; norm_num) (by simp; norm_num) (by simp)
  obtain ⟨r, h1, h2⟩ := this
  exact ⟨r, h1, by simpa using h2⟩

/-- The hypotheses of `C130_quadrature_accuracy_partial` and `C129_accuracy`. -/
example : (∃ r, Binary64.ideal.getELogisticTermGH (fun x => Binary64.rnd (Real.log (1 + x)))
      [(fin 2, fin 1)] [(fin (-1), fin 1), (fin 1, fin 1)] = fin r ∧
    |r - logisticQuadrature [(2, 1)] [(-1, 1), (1, 1)]| ≤
      2 ^ (-50 : ℤ) * (1 * 2 + 10) * quadratureSize [(2, 1)] [(-1, 1), (1, 1)]) ∧
    ∃ r s, Binary64.ideal.getELogLogitnormal (fin (-500)) (fin 4) [(fin (-1), fin 1), (fin 1, fin 1)] = (fin r, fin s) := by
  constructor
  · have h2 : Real.sqrt 2 ≤ 2 := by
      rw [Real.sqrt_le_left (by norm_num)]
      norm_num
    have h0 := Real.sqrt_nonneg 2
    have := C130_quadrature_accuracy_partial _ _ _ _ Binary64.contract Binary64.ideal_log1p Binary64.ideal_accurateSum
      [(2, 1)] [(-1, 1), (1, 1)] (by simp; norm_num) (by
        simp
        refine ⟨⟨by linarith, by norm_num⟩, by linarith, by norm_num⟩) (by simp)
    obtain ⟨r, h1, h2⟩ := this
    exact ⟨r, h1, by simpa using h2⟩
  · obtain ⟨r, s, h, -⟩ := C129_accuracy _ _ _ Binary64.contract Binary64.ideal_accurateSum (-500) 4
      [(-1, 1), (1, 1)] (by norm_num) (by norm_num) (by norm_num) (by simp; norm_num) (by simp)
    exact ⟨r, s, h⟩

/-- **C130** is false: one observation with `z_mean = 710` or more. The result is minus infinity, where the exact
value is between `-2^-1000` and zero. -/
theorem C130_infinite_counterexample (expR logR log1pR : ℝ → Flt) (sumR : List ℝ → Flt)
    (c : FloatContract (Binary64.ops expR logR sumR) (2 ^ 1024) (2 ^ (-1075 : ℤ)))
    (hs : AccurateSum (Binary64.ops expR logR sumR)) (m : ℝ) (hm : Binary64.Rep m) (h1 : 710 ≤ m) (h2 : m ≤ 2 ^ 100) :
    (Binary64.ops expR logR sumR).getELogisticTerm log1pR [(fin 1, fin m, fin 1)] [fin 0] = ninf ∧
      logisticTerm [(1, m, 1)] [0] ≤ 0 ∧ -2 ^ (-1000 : ℤ) ≤ logisticTerm [(1, m, 1)] [0] := by
  set o := Binary64.ops expR logR sumR with ho
  have l2 := Real.log_two_lt_d9
  refine ⟨?_, ?_⟩
  · have k1 : o.mul (fin 1) (fin 0) = fin 0 := by
      show o.rnd (1 * 0) = _
      rw [mul_zero]
      exact c.rnd_rep c.zero
    have k2 : o.add (fin 0) (fin m) = fin m := by
      show o.rnd (0 + m) = _
      rw [zero_add]
      exact c.rnd_rep hm
    have k3 : o.mul (fin 1) (fin m) = fin m := by
      show o.rnd (1 * m) = _
      rw [one_mul]
      exact c.rnd_rep hm
    have k4 : o.exp (fin m) = pinf := by
      refine c.exp_over ?_
      rw [← Real.log_le_iff_le_exp (by positivity), Real.log_pow]
      push_cast
      linarith
    obtain ⟨s, hs1, -, -⟩ := hs [m] (by intro a ha; rw [List.mem_singleton.1 ha]; exact hm) (by simp) (by
      simp only [List.map_cons, List.map_nil, List.sum_cons, List.sum_nil, add_zero]
      rw [abs_of_nonneg (by linarith)]
      refine h2.trans ?_
      rw [← zpow_natCast]
      exact Binary64.zpow_le (by norm_num))
    have k5 : o.sum [fin m] = fin s := by
      unfold FloatOps.sum
      rw [if_pos (by simp)]
      exact hs1
    have k6 : o.sum [pinf] = pinf := by
      unfold FloatOps.sum
      rw [if_neg (by simp)]
      rfl
    unfold FloatOps.getELogisticTerm
    simp only [List.flatMap_cons, List.flatMap_nil, List.map_cons, List.map_nil, List.append_nil, k1, k2, k3, k4, k5]
    have k7 : FloatOps.log1p log1pR pinf = pinf := rfl
    rw [k7, k6]
    simp [FloatOps.div, FloatOps.sub, FloatOps.round, HDiv.hDiv, Div.div, Flt.div, Flt.infMul, HSub.hSub, Sub.sub,
      Flt.sub, Flt.neg, Flt.add]
  · have e : logisticTerm [(1, m, 1)] [0] = -Real.log (1 + Real.exp (-m)) := by
      simp only [logisticTerm, List.map_cons, List.map_nil, List.sum_cons, List.sum_nil, negLogOneMinusLogistic_eq,
        mul_zero, add_zero, List.length_cons, List.length_nil, one_mul]
      rw [show 1 + Real.exp m = Real.exp m * (1 + Real.exp (-m)) by rw [mul_add, ← Real.exp_add]; simp; ring,
        Real.log_mul (Real.exp_pos _).ne' (by positivity), Real.log_exp]
      norm_num
    rw [e]
    have h3 : Real.log (1 + Real.exp (-m)) ≤ Real.exp (-m) := by
      have := Real.log_le_sub_one_of_pos (show 0 < 1 + Real.exp (-m) by positivity)
      linarith
    have h4 : Real.exp (-m) ≤ 2 ^ (-1000 : ℤ) := by
      rw [← Real.le_log_iff_exp_le (by positivity), Real.log_zpow]
      push_cast
      linarith
    have h5 : 0 ≤ Real.log (1 + Real.exp (-m)) := Real.log_nonneg (by linarith [Real.exp_pos (-m)])
    exact ⟨by linarith, neg_le_neg (h3.trans h4)⟩

end

end LRVB
