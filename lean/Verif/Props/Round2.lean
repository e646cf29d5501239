import Verif.Lemmas.Round4
import Verif.Lemmas.Ld

/-!
# C110, C111: floating point, simplexes
-/

namespace LRVB

open Classical Flt

noncomputable section

/-! ### C110: simplexes -/

theorem FloatOps.amax_ge (x : ℝ) (l : List ℝ) : x ≤ FloatOps.amax x l ∧ ∀ a ∈ l, a ≤ FloatOps.amax x l := by
  unfold FloatOps.amax
  induction l generalizing x with
  | nil => simp
  | cons b l ih =>
    obtain ⟨h1, h2⟩ := ih (max x b)
    refine ⟨(le_max_left _ _).trans h1, ?_⟩
    intro a ha
    rcases List.mem_cons.1 ha with rfl | ha
    · exact (le_max_right _ _).trans h1
    · exact h2 a ha

theorem FloatOps.amax_mem (x : ℝ) (l : List ℝ) : FloatOps.amax x l ∈ x :: l := by
  unfold FloatOps.amax
  induction l generalizing x with
  | nil => simp
  | cons b l ih =>
    have := ih (max x b)
    simp only [List.foldl_cons]
    rcases List.mem_cons.1 this with h | h
    · rw [h]
      rcases max_choice x b with h | h <;> simp [h]
    · simp [h]

/-- `np.exp` of something that is at most 0. -/
theorem FloatContract.exp_nonpos {o : FloatOps} {over under : ℝ} (c : FloatContract o over under) {x : Flt}
    (h : x ≤ fin 0) : ∃ r, o.exp x = fin r ∧ 0 ≤ r ∧ r ≤ 1 := by
  rcases Flt.ge_cases h with rfl | ⟨a, rfl, ha⟩
  · exact ⟨0, rfl, le_rfl, zero_le_one⟩
  · exact Flt.between_fin (c.exp_nonneg a) (c.exp_le_one ha)

/-- The normalizer is not below the largest entry. -/
theorem FloatContract.logsumexp_ge {o : FloatOps} {over under : ℝ} (c : FloatContract o over under)
    (x : ℝ) (l : List ℝ) (hx : o.Rep x) (hl : ∀ a ∈ l, o.Rep a) :
    ∃ rs : List ℝ, rs.length = l.length + 1 ∧ (∀ r ∈ rs, 0 ≤ r ∧ r ≤ 1) ∧ fin 1 ≤ o.sumR rs ∧
      o.logsumexp x l = o.add (o.log (o.sumR rs)) (fin (FloatOps.amax x l)) ∧
      fin (FloatOps.amax x l) ≤ o.logsumexp x l := by
  set m := FloatOps.amax x l with hm
  have hge : ∀ a ∈ x :: l, a ≤ m := by
    intro a ha
    rcases List.mem_cons.1 ha with rfl | ha
    · exact (FloatOps.amax_ge a l).1
    · exact (FloatOps.amax_ge x l).2 a ha
  have hmem : m ∈ x :: l := FloatOps.amax_mem x l
  have hmr : o.Rep m := by
    rcases List.mem_cons.1 hmem with h | h
    · rw [h]; exact hx
    · exact hl m h
  set zs := (x :: l).map fun a => o.exp (o.sub (fin a) (fin m)) with hz
  have hfin : ∀ z ∈ zs, ∃ r, z = fin r ∧ 0 ≤ r ∧ r ≤ 1 := by
    intro z h
    obtain ⟨a, ha, rfl⟩ := List.mem_map.1 h
    refine c.exp_nonpos ?_
    show o.rnd (a + -m) ≤ fin 0
    exact c.rnd_le c.zero (by linarith [hge a ha])
  set rs := zs.map fun a => match a with | fin r => r | _ => 0 with hrs
  have hone : (1 : ℝ) ∈ rs := by
    refine List.mem_map.2 ⟨fin 1, List.mem_map.2 ⟨m, hmem, ?_⟩, rfl⟩
    have h0 : o.sub (fin m) (fin m) = fin 0 := by
      show o.rnd (m + -m) = fin 0
      rw [add_neg_cancel]
      exact c.rnd_rep c.zero
    rw [h0]
    exact c.exp_zero
  have hb : ∀ r ∈ rs, 0 ≤ r ∧ r ≤ 1 := by
    intro r h
    obtain ⟨z, hz', rfl⟩ := List.mem_map.1 h
    obtain ⟨r, rfl, h1⟩ := hfin z hz'
    exact h1
  have hsum1 := c.sum_ge (fun b hb' => (hb b hb').1) hone c.one
  have hsum : o.sum zs = o.sumR rs := by
    unfold FloatOps.sum
    rw [if_pos (fun a ha => (hfin a ha).imp fun r h => h.1)]
    rfl
  refine ⟨rs, by simp [hrs, hz], hb, hsum1, ?_, ?_⟩
  · show o.add (o.log (o.sum zs)) (fin m) = _
    rw [hsum]
  · show fin m ≤ o.add (o.log (o.sum zs)) (fin m)
    rw [hsum]
    have hlog : fin 0 ≤ o.log (o.sumR rs) := by
      rcases Flt.le_cases hsum1 with h | ⟨s, h, hs⟩
      · rw [h]
        trivial
      · rw [h]
        show fin 0 ≤ if 0 < s then o.logR s else _
        rw [if_pos (by linarith)]
        exact c.log_ge (by linarith) c.zero (Real.log_nonneg hs)
    rcases Flt.le_cases hlog with h | ⟨s, h, hs⟩
    · rw [h]
      trivial
    · rw [h]
      exact c.le_rnd hmr (show m ≤ s + m by linarith)

/-- **C110**: for every finite free value, however large, every entry of the simplex that `set_free` stores is
a number in `[0, 1]`; in particular none of them is NaN. -/
theorem C110_simplex_range {o : FloatOps} {over under : ℝ} (c : FloatContract o over under)
    (x : List ℝ) (hx : ∀ a ∈ x, o.Rep a) :
    (o.constrainSimplexRow x).length = x.length + 1 ∧
    ∀ z ∈ o.constrainSimplexRow x, ∃ r, z = fin r ∧ 0 ≤ r ∧ r ≤ 1 := by
  refine ⟨by simp [FloatOps.constrainSimplexRow], ?_⟩
  intro z hz
  obtain ⟨a, ha, rfl⟩ := List.mem_map.1 hz
  obtain ⟨-, -, -, -, -, hL⟩ := c.logsumexp_ge 0 x c.zero hx
  refine c.exp_nonpos ?_
  have ham : a ≤ FloatOps.amax 0 x := by
    rcases List.mem_cons.1 ha with rfl | ha
    · exact (FloatOps.amax_ge 0 x).1
    · exact (FloatOps.amax_ge 0 x).2 a ha
  rcases Flt.le_cases hL with h | ⟨s, h, hs⟩
  · rw [h]
    trivial
  · rw [h]
    show o.rnd (a + -s) ≤ fin 0
    exact c.rnd_le c.zero (by linarith)

/-- `1000` and `-1000` are doubles, `exp` of the one overflows and of the other underflows. -/
example : Binary64.Rep 1000 ∧ Binary64.Rep (-1000) ∧ (2 : ℝ) ^ 1024 ≤ Real.exp 1000 ∧
    Real.exp (-1000) ≤ 2 ^ (-1075 : ℤ) := by
  have l1 := Real.log_two_lt_d9
  refine ⟨by exact_mod_cast Binary64.rep_nat 1000 (by norm_num),
    (by exact_mod_cast Binary64.rep_nat 1000 (by norm_num) : Binary64.Rep 1000).neg, ?_, ?_⟩
  · rw [← Real.log_le_iff_le_exp (by positivity), Real.log_pow]
    push_cast
    linarith
  · rw [← Real.le_log_iff_exp_le (by positivity), Real.log_zpow]
    push_cast
    linarith

/-! ### C111: the free round trip of simplexes -/

/-- **C111** is false: when `exp` of minus the free value underflows (from 746 on in double precision), the
first entry is stored as 0 and `get_free()` returns no finite number. -/
theorem C111_underflow_counterexample {o : FloatOps} {over under : ℝ} (c : FloatContract o over under)
    (t : ℝ) (ht : o.Rep t) (h0 : 0 < t) (hu : Real.exp (-t) ≤ under) :
    ∃ w, o.constrainSimplexRow [t] = [fin 0, w] ∧
      ∃ y, o.unconstrainSimplexRow [fin 0, w] = .ok [y] ∧ ¬ ∃ r, y = fin r := by
  obtain ⟨-, -, -, -, -, hL⟩ := c.logsumexp_ge 0 [t] c.zero (by simpa using ht)
  have hm : FloatOps.amax 0 [t] = t := by simp [FloatOps.amax, h0.le]
  rw [hm] at hL
  have hz : o.exp (o.sub (fin 0) (o.logsumexp 0 [t])) = fin 0 := by
    rcases Flt.le_cases hL with h | ⟨s, h, hs⟩
    · rw [h]
      rfl
    · rw [h]
      have h1 : o.rnd (0 + -s) ≤ fin (-t) := c.rnd_le (c.neg ht) (by linarith)
      show o.exp (o.rnd (0 + -s)) = fin 0
      rcases Flt.ge_cases h1 with h2 | ⟨r, h2, hr⟩
      · rw [h2]
        rfl
      · rw [h2]
        exact c.exp_under ((Real.exp_le_exp.2 hr).trans hu)
  refine ⟨o.exp (o.sub (fin t) (o.logsumexp 0 [t])), ?_, ?_⟩
  · simp only [FloatOps.constrainSimplexRow, List.map_cons, List.map_nil, hz]
  · refine ⟨_, rfl, ?_⟩
    have h0 : o.log (fin 0) = ninf := by simp [FloatOps.log, Flt.log]
    rw [h0]
    have : ∀ u : Flt, ¬ ∃ r, o.sub u ninf = fin r := by
      rintro (_ | _ | _ | _) ⟨r, hr⟩ <;> cases hr
    exact this _

example : Binary64.Rep 746 ∧ Real.exp (-746) ≤ 2 ^ (-1075 : ℤ) := by
  refine ⟨by exact_mod_cast Binary64.rep_nat 746 (by norm_num), ?_⟩
  rw [← Real.le_log_iff_exp_le (by positivity), Real.log_zpow]
  push_cast
  linarith [Real.log_two_lt_d9]

/-- The normalizer for moderate entries. -/
theorem Binary64.logsumexp_bound {expR logR : ℝ → Flt} {sumR : List ℝ → Flt}
    (c : FloatContract (Binary64.ops expR logR sumR) (2 ^ 1024) (2 ^ (-1075 : ℤ))) (x : List ℝ)
    (hx : ∀ a ∈ x, Rep a ∧ |a| ≤ 300) (hn : x.length < 2 ^ 53) :
    ∃ L, (Binary64.ops expR logR sumR).logsumexp 0 x = fin L ∧ 0 ≤ L ∧ L ≤ 337 := by
  set o := Binary64.ops expR logR sumR with ho
  obtain ⟨rs, hlen, hrs, hs1, hL, hge⟩ := c.logsumexp_ge 0 x c.zero (fun a ha => (hx a ha).1)
  set m := FloatOps.amax 0 x with hm
  have hm0 : 0 ≤ m := (FloatOps.amax_ge 0 x).1
  have hm1 : m ≤ 300 := by
    rcases List.mem_cons.1 (FloatOps.amax_mem 0 x) with h | h
    · rw [hm, h]; norm_num
    · exact (abs_le.1 (hx _ h).2).2
  have hs2 := c.sum_le hrs (fun k hk => Binary64.rep_nat_le k (by omega))
  obtain ⟨s, hs, hs1, hs2⟩ := Flt.between_fin hs1 hs2
  have hlog : Real.log s ≤ 37 := by
    have h1 : s ≤ 2 ^ 53 := hs2.trans (by exact_mod_cast (by omega : rs.length ≤ 2 ^ 53))
    have h2 := Real.log_le_log (by linarith) h1
    rw [Real.log_pow] at h2
    push_cast at h2
    linarith [Real.log_two_lt_d9]
  have h37 : Rep 37 := by exact_mod_cast Binary64.rep_nat 37 (by norm_num)
  have h337 : Rep 337 := by exact_mod_cast Binary64.rep_nat 337 (by norm_num)
  obtain ⟨l, hl, hl0, hl1⟩ := Flt.between_fin
    (c.log_ge (x := s) (by linarith) c.zero (Real.log_nonneg hs1)) (c.log_le (x := s) (by linarith) h37 hlog)
  have h1 : o.log (fin s) = fin l := by
    show (if 0 < s then o.logR s else _) = fin l
    rw [if_pos (by linarith)]
    exact hl
  have h2 : o.logsumexp 0 x ≤ fin 337 := by
    rw [hL, hs, h1]
    exact c.rnd_le h337 (show l + m ≤ 337 by linarith)
  obtain ⟨L, h3, h4, h5⟩ := Flt.between_fin hge h2
  exact ⟨L, h3, by linarith, h5⟩

/-- **C111** for moderate free values: in double precision, when no free value exceeds 300 in absolute value,
whatever their number, the round trip is accurate to `2 ** -40`. -/
theorem C111_moderate_partial (expR logR : ℝ → Flt) (sumR : List ℝ → Flt)
    (c : FloatContract (Binary64.ops expR logR sumR) (2 ^ 1024) (2 ^ (-1075 : ℤ))) (x : List ℝ)
    (hx : ∀ a ∈ x, Binary64.Rep a ∧ |a| ≤ 300) (hn : x.length < 2 ^ 53) :
    ∃ y : List ℝ, (Binary64.ops expR logR sumR).unconstrainSimplexRow
        ((Binary64.ops expR logR sumR).constrainSimplexRow x) = .ok (y.map fin) ∧
      List.Forall₂ (fun a b => |a - b| ≤ 2 ^ (-40 : ℤ)) y x := by
  obtain ⟨L, hL, hL0, hL1⟩ := Binary64.logsumexp_bound c x hx hn
  set o := Binary64.ops expR logR sumR with ho
  have hd : (2 : ℝ) ^ (-52 : ℤ) = 1 / 4503599627370496 := by norm_num
  have hbig : (10000 : ℝ) < 2 ^ 1023 := by
    refine lt_of_lt_of_le (show (10000 : ℝ) < 2 ^ 14 by norm_num) (pow_le_pow_right₀ one_le_two (by norm_num))
  -- one entry
  have key : ∀ a, |a| ≤ 300 → ∃ y, o.log (o.exp (o.sub (fin a) (o.logsumexp 0 x))) = fin y ∧
      |y - (a - L)| ≤ 1400 * 2 ^ (-52 : ℤ) := by
    intro a ha
    obtain ⟨ha1, ha2⟩ := abs_le.1 ha
    have hal : |a + -L| ≤ 637 := abs_le.2 ⟨by linarith, by linarith⟩
    obtain ⟨r, hr, -, hre⟩ := Binary64.rnd_error (x := a + -L) (hal.trans_lt (lt_trans (by norm_num) hbig))
    have hrb : |r| ≤ 638 := by
      have := abs_sub_abs_le_abs_sub r (a + -L)
      rw [hd] at hre
      linarith
    obtain ⟨hr1, hr2⟩ := abs_le.1 hrb
    obtain ⟨e, y, he, he0, -, hy, -, hye⟩ := Binary64.exp_log_error c (x := r) (by linarith) (by linarith)
    refine ⟨y, ?_, ?_⟩
    · rw [hL]
      have h1 : o.sub (fin a) (fin L) = fin r := hr
      have h2 : o.exp (fin r) = fin e := he
      rw [h1, h2]
      show (if 0 < e then o.logR e else _) = fin y
      rw [if_pos he0]
      exact hy
    · have := abs_add_le (y - r) (r - (a + -L))
      rw [sub_add_sub_cancel, ← sub_eq_add_neg] at this
      rw [← sub_eq_add_neg] at hre hal
      rw [hd] at *
      linarith
  obtain ⟨y0, hy0, hy0e⟩ := key 0 (by norm_num)
  have key2 : ∀ a ∈ x, ∃ y, o.sub (o.log (o.exp (o.sub (fin a) (o.logsumexp 0 x)))) (fin y0) = fin y ∧
      |y - a| ≤ 2 ^ (-40 : ℤ) := by
    intro a ha
    obtain ⟨y, hy, hye⟩ := key a (hx a ha).2
    have hdiff : |(y + -y0) - a| ≤ 2800 * 2 ^ (-52 : ℤ) := by
      have := abs_add_le (y - (a - L)) (-(y0 - (0 - L)))
      rw [abs_neg] at this
      rw [show y + -y0 - a = y - (a - L) + -(y0 - (0 - L)) by ring]
      linarith
    have hab : |y + -y0| ≤ 301 := by
      have := abs_sub_abs_le_abs_sub (y + -y0) a
      have h3 := (hx a ha).2
      rw [hd] at hdiff
      linarith
    obtain ⟨r, hr, -, hre⟩ := Binary64.rnd_error (x := y + -y0) (hab.trans_lt (lt_trans (by norm_num) hbig))
    refine ⟨r, ?_, ?_⟩
    · rw [hy]
      exact hr
    · have := abs_add_le (r - (y + -y0)) (y + -y0 - a)
      rw [sub_add_sub_cancel] at this
      have h40 : (2 : ℝ) ^ (-40 : ℤ) = 1 / 1099511627776 := by norm_num
      rw [h40]
      rw [hd] at hre hdiff
      linarith
  choose! f hf using key2
  refine ⟨x.map f, ?_, ?_⟩
  · simp only [FloatOps.constrainSimplexRow, List.map_cons, FloatOps.unconstrainSimplexRow, hy0, List.map_map]
    congr 1
    exact List.map_congr_left fun a ha => (hf a ha).1
  · rw [List.forall₂_map_left_iff, List.forall₂_same]
    exact fun a ha => (hf a ha).2

/-- A row of three free values meets the hypotheses. -/
example : ∀ a ∈ [(300 : ℝ), -300, 1 / 2], Binary64.Rep a ∧ |a| ≤ 300 := by
  have h : Binary64.Rep 300 := by exact_mod_cast Binary64.rep_nat 300 (by norm_num)
  simp only [List.mem_cons, List.not_mem_nil, or_false, forall_eq_or_imp, forall_eq]
  refine ⟨⟨h, by norm_num⟩, ⟨h.neg, by norm_num⟩, ⟨?_, ?_⟩⟩
  · exact ⟨1, -1, by norm_num, by norm_num, by norm_num, by norm_num⟩
  · rw [abs_of_pos] <;> norm_num

end

end LRVB
