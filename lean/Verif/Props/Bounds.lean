import Verif.Lemmas.Flt

/-!
# C01–C07: the bound transforms

Bounds and values are `Flt` (finite real, ±inf, NaN).  Legal bounds are those
with `lb < ub` in IEEE order (so neither is NaN).
-/

namespace LRVB

open Flt

/-! ## C01 -/

/-- **C01** Every finite free value is constrained to a finite value strictly
between the bounds. -/
theorem C01_constrain_strictly_inside (lb ub : Flt) (h : lb < ub) (x : ℝ) :
    ∃ v : ℝ, constrain (fin x) lb ub = .ok (fin v) ∧ lb < fin v ∧ fin v < ub :=
  constrain_inside h x

example : (fin (-3) : Flt) < fin 5 := by simp; norm_num

private theorem mapM_ok {α β : Type} {f : α → Py β} {g : α → β} (xs : List α)
    (h : ∀ x ∈ xs, f x = .ok (g x)) : xs.mapM f = .ok (xs.map g) := by
  induction xs with
  | nil => rfl
  | cons a t ih =>
    rw [List.mapM_cons, h a (by simp), ih (fun x hx => h x (by simp [hx]))]
    rfl

/-- **C01**, arrays of any length: every element is constrained to a finite value strictly
between the bounds, and the result has the same length. -/
theorem C01_constrain_array_strictly_inside (lb ub : Flt) (h : lb < ub) (xs : List ℝ) :
    ∃ vs : List ℝ, constrainList (xs.map fin) lb ub = .ok (vs.map fin) ∧
      vs.length = xs.length ∧ ∀ v ∈ vs, lb < fin v ∧ fin v < ub := by
  choose g hg using constrain_inside h
  refine ⟨xs.map g, ?_, by simp, ?_⟩
  · rw [constrainList, if_neg (not_le_of_lt h)]
    rw [mapM_ok (g := fun x => match x with | fin a => fin (g a) | y => y)]
    · simp
    · intro x hx
      obtain ⟨a, _, rfl⟩ := List.mem_map.mp hx
      exact (hg a).1
  · intro v hv
    obtain ⟨a, _, rfl⟩ := List.mem_map.mp hv
    exact (hg a).2

/-! ## C02 -/

private theorem le_of_lt' {a b : Flt} (h : a < b) : a ≤ b := by
  rcases lt_cases h with ⟨rfl, rfl⟩ | ⟨a, rfl, rfl⟩ | ⟨b, rfl, rfl⟩ | ⟨a, b, rfl, rfl, hab⟩ <;>
    simp_all [le_of_lt]

/-- **C02** Constraining a finite free value and unconstraining the result
(through the checked entry point the parameters use) gives the free value back. -/
theorem C02_unconstrain_constrain (lb ub : Flt) (h : lb < ub) (x : ℝ) :
    (constrain (fin x) lb ub >>= fun v => unconstrainScalar v lb ub) = .ok (fin x) := by
  obtain ⟨v, hv, h1, h2⟩ := constrain_inside h x
  rw [hv]
  change unconstrainScalar (fin v) lb ub = _
  rw [unconstrainScalar, if_neg (by simpa using le_of_lt' h2), if_neg (by simpa using le_of_lt' h1)]
  exact unconstrain_constrain h x v hv

/-- **C02**, arrays of any length. -/
theorem C02_unconstrain_constrain_array (lb ub : Flt) (h : lb < ub) (xs : List ℝ) :
    (constrainList (xs.map fin) lb ub >>= fun v => unconstrainArray v lb ub) = .ok (xs.map fin) := by
  choose g hg using constrain_inside h
  have e1 : constrainList (xs.map fin) lb ub = .ok (xs.map fun a => fin (g a)) := by
    rw [constrainList, if_neg (not_le_of_lt h)]
    rw [mapM_ok (g := fun x => match x with | fin a => fin (g a) | y => y)]
    · simp
    · intro x hx
      obtain ⟨a, _, rfl⟩ := List.mem_map.mp hx
      exact (hg a).1
  rw [e1]
  change unconstrainArray _ lb ub = _
  rw [unconstrainArray, if_neg, if_neg, unconstrainList, if_neg (not_le_of_lt h)]
  · have : ∀ xs : List ℝ, (xs.map fun a => fin (g a)).mapM (fun v => unconstrain v lb ub) =
        .ok (xs.map fin) := by
      intro xs
      induction xs with
      | nil => rfl
      | cons a t ih =>
        rw [List.map_cons, List.mapM_cons, ih, unconstrain_constrain h a _ (hg a).1]
        rfl
    exact this xs
  · intro hc; apply hc
    intro v hv
    obtain ⟨a, _, rfl⟩ := List.mem_map.mp hv
    exact le_of_lt' (hg a).2.1
  · intro hc; apply hc
    intro v hv
    obtain ⟨a, _, rfl⟩ := List.mem_map.mp hv
    exact le_of_lt' (hg a).2.2

example : (fin 0 : Flt) < pinf := by simp

/-! ## C03 -/

/-- **C03**, part that holds: every accepted finite value round-trips, the bounds
included, except the upper bound itself when both bounds are finite. -/
theorem C03_constrain_unconstrain_partial (lb ub : Flt) (v : ℝ) (h : lb < ub)
    (h1 : lb ≤ fin v) (h2 : fin v ≤ ub)
    (hne : ¬ (fin v = ub ∧ ∃ a, lb = fin a)) :
    (unconstrainScalar (fin v) lb ub >>= fun x => constrain x lb ub) = .ok (fin v) := by
  rw [unconstrainScalar, if_neg (by simpa using h2), if_neg (by simpa using h1)]
  by_cases hl : lb < fin v
  · by_cases hu : fin v < ub
    · obtain ⟨x, hx, hx'⟩ := constrain_unconstrain v hl hu
      rw [hx]; exact hx'
    · -- `v = ub`, so `lb` must be `-inf`
      cases ub with
      | nan => simp at h2
      | pinf => simp at hu
      | ninf => simp at h2
      | fin b =>
        have hb : v = b := le_antisymm (by simpa using h2) (by simpa using hu)
        subst hb
        cases lb with
        | nan => simp at h1
        | pinf => simp at h1
        | fin a => exact absurd ⟨rfl, a, rfl⟩ hne
        | ninf =>
          have : unconstrain (fin v) ninf (fin v) = .ok pinf := by simp [unconstrain]
          rw [this]
          change constrain pinf ninf (fin v) = _
          simp [constrain]
  · cases lb with
    | nan => simp at h1
    | pinf => simp at h1
    | ninf => simp at hl
    | fin a =>
      have hb : a = v := le_antisymm (by simpa using h1) (by simpa using hl)
      subst hb
      cases ub with
      | nan => simp at h2
      | ninf => simp at h2
      | pinf =>
        have : unconstrain (fin a) (fin a) pinf = .ok ninf := by simp [unconstrain]
        rw [this]
        change constrain ninf (fin a) pinf = _
        simp [constrain]
      | fin b =>
        have hab : a < b := by simpa using h
        have : unconstrain (fin a) (fin a) (fin b) = .ok ninf := by
          simp [unconstrain, not_le.mpr hab, log_fin_pos _ (sub_pos.mpr hab)]
        rw [this]
        change constrain ninf (fin a) (fin b) = _
        simp [constrain, not_le.mpr hab, fin_div_fin]

example : (fin 1 : Flt) ≤ fin 1 ∧ (fin 1 : Flt) ≤ fin 2 ∧
    ¬ ((fin 1 : Flt) = fin 2 ∧ ∃ a, (fin 1 : Flt) = fin a) := by
  refine ⟨by simp, by simp, ?_⟩; simp

/-- **C03** fails: with two finite bounds the upper bound is accepted but comes back as
NaN. -/
theorem C03_upper_bound_counterexample (a b : ℝ) (h : a < b) :
    unconstrainScalar (fin b) (fin a) (fin b) = .ok pinf ∧
      constrain pinf (fin a) (fin b) = .ok nan := by
  have hd := sub_pos.mpr h
  constructor
  · simp [unconstrainScalar, unconstrain, not_le.mpr h, h.le, log_fin_pos _ hd]
  · simp [constrain, not_le.mpr h, fin_pos_mul_pinf _ hd]

/-! ## C04 -/

private theorem unconstrain_total (v lb ub : Flt) :
    (ub ≤ lb ∧ unconstrain v lb ub = .error .valueError) ∨
    (¬ ub ≤ lb ∧ ∃ x, unconstrain v lb ub = .ok x) := by
  by_cases h : ub ≤ lb
  · left; exact ⟨h, by simp [unconstrain, h]⟩
  · right; refine ⟨h, ?_⟩
    simp only [unconstrain, h, if_false]
    split_ifs <;> exact ⟨_, rfl⟩

private theorem not_le_iff_lt {lb ub v : Flt} (h1 : lb ≤ v) (h2 : v ≤ ub) :
    ¬ ub ≤ lb ↔ lb < ub := by
  cases lb <;> cases ub <;> cases v <;> simp_all

/-- **C04**, scalars: the free value is returned exactly when the bounds are strictly ordered
and the value lies in the closed interval; in all other cases (NaN included) the outcome
is `ValueError`. -/
theorem C04_scalar_rejects_exactly_out_of_bounds (v lb ub : Flt) :
    ((lb < ub ∧ lb ≤ v ∧ v ≤ ub) → ∃ x, unconstrainScalar v lb ub = .ok x) ∧
    (¬ (lb < ub ∧ lb ≤ v ∧ v ≤ ub) → unconstrainScalar v lb ub = .error .valueError) := by
  constructor
  · rintro ⟨h, h1, h2⟩
    rw [unconstrainScalar, if_neg (by simpa using h2), if_neg (by simpa using h1)]
    rcases unconstrain_total v lb ub with ⟨h', _⟩ | ⟨_, h'⟩
    · exact absurd h' (not_le_of_lt h)
    · exact h'
  · intro hn
    by_cases h2 : v ≤ ub
    · by_cases h1 : lb ≤ v
      · have : ub ≤ lb := by
          by_contra hc
          exact hn ⟨(not_le_iff_lt h1 h2).mp hc, h1, h2⟩
        simp [unconstrainScalar, unconstrain, h1, h2, this]
      · simp [unconstrainScalar, h1, h2]
    · simp [unconstrainScalar, h2]

/-- **C04**, arrays of any length (for an empty array only the order of the bounds matters;
there the bounds are assumed not to be NaN, which constructors guarantee). -/
theorem C04_array_rejects_exactly_out_of_bounds (vs : List Flt) (lb ub : Flt)
    (hl : lb ≠ nan) (hu : ub ≠ nan) :
    ((lb < ub ∧ ∀ v ∈ vs, lb ≤ v ∧ v ≤ ub) →
      ∃ xs, unconstrainArray vs lb ub = .ok xs ∧ xs.length = vs.length) ∧
    (¬ (lb < ub ∧ ∀ v ∈ vs, lb ≤ v ∧ v ≤ ub) →
      unconstrainArray vs lb ub = .error .valueError) := by
  constructor
  · rintro ⟨h, h1⟩
    have hall : ∀ v, ∃ x, unconstrain v lb ub = .ok x := fun v => by
      rcases unconstrain_total v lb ub with ⟨h', _⟩ | ⟨_, h'⟩
      · exact absurd h' (not_le_of_lt h)
      · exact h'
    choose g hg using hall
    refine ⟨vs.map g, ?_, by simp⟩
    rw [unconstrainArray, if_neg (by simpa using fun v hv => (h1 v hv).2),
      if_neg (by simpa using fun v hv => (h1 v hv).1), unconstrainList, if_neg (not_le_of_lt h)]
    exact mapM_ok vs (fun x _ => hg x)
  · intro hn
    rw [unconstrainArray]
    by_cases h2 : ∀ v ∈ vs, v ≤ ub
    · rw [if_neg (by simpa using h2)]
      by_cases h1 : ∀ v ∈ vs, lb ≤ v
      · rw [if_neg (by simpa using h1)]
        have : ub ≤ lb := by
          by_contra hc
          apply hn
          refine ⟨?_, fun v hv => ⟨h1 v hv, h2 v hv⟩⟩
          cases lb <;> cases ub <;> simp_all
        simp [unconstrainList, this]
      · rw [if_pos h1]
    · rw [if_pos h2]

/-- Both alternatives of **C04** occur, also with infinite values. -/
example : (ninf < pinf ∧ ninf ≤ pinf ∧ pinf ≤ pinf) ∧ ¬ ((fin 0 : Flt) < fin 1 ∧ fin 0 ≤ nan ∧ nan ≤ fin 1) := by
  simp

/-! ## C05 -/

/-- **C05** fails: with bounds 6/5 and 21/10 the default value is 9/20, below the lower
bound (the code returns half the width instead of the midpoint), and its free value
cannot be read. -/
theorem C05_default_value_counterexample :
    getInboundsValue (fin (6/5)) (fin (21/10)) = .ok (fin (9/20)) ∧
      unconstrainScalar (fin (9/20)) (fin (6/5)) (fin (21/10)) = .error .valueError := by
  constructor
  · have h1 : (6/5 : ℝ) < 21/10 := by norm_num
    simp [getInboundsValue, h1]; norm_num
  · have h2 : ¬ (6/5 : ℝ) ≤ 9/20 := by norm_num
    have h3 : (9/20 : ℝ) ≤ 21/10 := by norm_num
    simp [unconstrainScalar, h2, h3]

/-- **C05**, exact characterisation: construction without a value always yields a finite
value; if a bound is infinite it is strictly inside the bounds; if both are finite it is
within the bounds exactly when `3 lb ≤ ub` and `-lb ≤ ub`. -/
theorem C05_default_value_partial (lb ub : Flt) (h : lb < ub) :
    ∃ v : ℝ, getInboundsValue lb ub = .ok (fin v) ∧
      ((lb = ninf ∨ ub = pinf) → lb < fin v ∧ fin v < ub) ∧
      ∀ a b : ℝ, lb = fin a → ub = fin b →
        ((lb ≤ fin v ∧ fin v ≤ ub) ↔ (3 * a ≤ b ∧ -a ≤ b)) := by
  rcases lt_cases h with ⟨rfl, rfl⟩ | ⟨a, rfl, rfl⟩ | ⟨b, rfl, rfl⟩ | ⟨a, b, rfl, rfl, hab⟩
  · exact ⟨0, by simp [getInboundsValue], by simp, by simp⟩
  · exact ⟨a + 1, by simp [getInboundsValue], by simp, by simp⟩
  · exact ⟨b - 1, by simp [getInboundsValue], by simp, by simp⟩
  · refine ⟨1 / 2 * (b - a), by simp [getInboundsValue, hab], by simp, ?_⟩
    rintro a' b' ha hb
    simp only [fin.injEq] at ha hb
    subst ha hb
    simp only [fin_le_fin]
    constructor
    · rintro ⟨h1, h2⟩; constructor <;> linarith
    · rintro ⟨h1, h2⟩; constructor <;> linarith

example : (fin (-1) : Flt) < fin 2 := by simp; norm_num

/-! ## C06 -/

/-- **C06** The constructors accept exactly the strictly ordered bounds (so NaN bounds are
rejected), for scalars and for vectors and arrays. -/
theorem C06_constructor_bounds (lb ub : Flt) :
    (checkBoundsScalar lb ub = .ok () ↔ lb < ub) ∧
    (checkBoundsVector lb ub = .ok () ↔ lb < ub) ∧
    (ub ≤ lb → checkBoundsScalar lb ub = .error .valueError ∧
      checkBoundsVector lb ub = .error .valueError) := by
  cases lb <;> cases ub <;> simp [checkBoundsScalar, checkBoundsVector]

example : ¬ (nan < pinf) ∧ (ninf < fin 0) := by simp

/-! ## C07 -/

/-- **C07** The transform is strictly increasing and its range is exactly the open interval,
each value being reached once. -/
theorem C07_strictly_increasing_and_onto (lb ub : Flt) (h : lb < ub) :
    (∀ x y : ℝ, x < y → ∃ u v : ℝ, constrain (fin x) lb ub = .ok (fin u) ∧
      constrain (fin y) lb ub = .ok (fin v) ∧ u < v) ∧
    (∀ v : ℝ, lb < fin v → fin v < ub → ∃! x : ℝ, constrain (fin x) lb ub = .ok (fin v)) := by
  constructor
  · intro x y hxy
    obtain ⟨u, hu, -, -⟩ := constrain_inside h x
    obtain ⟨v, hv, -, -⟩ := constrain_inside h y
    exact ⟨u, v, hu, hv, constrain_strictMono h hxy hu hv⟩
  · intro v h1 h2
    obtain ⟨x, -, hx⟩ := constrain_unconstrain v h1 h2
    refine ⟨x, hx, ?_⟩
    intro y hy
    have a := unconstrain_constrain h x v hx
    have b := unconstrain_constrain h y v hy
    rw [a] at b
    simpa using b.symm

example : (fin (-2) : Flt) < fin 3 ∧ (fin (-2) : Flt) < fin 0 ∧ (fin 0 : Flt) < fin 3 := by
  refine ⟨?_, ?_, ?_⟩ <;> simp
  norm_num

end LRVB
