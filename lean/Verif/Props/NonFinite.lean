import Verif.Model.NonFinite
import Verif.Props.Round2

/-!
# Free values that are not finite
-/

namespace LRVB

open Classical Flt

namespace FloatOps

variable (o : FloatOps)

theorem add_nan (a : Flt) : o.add a nan = nan := by
  cases a <;> rfl
theorem nan_add (a : Flt) : o.add nan a = nan := by
  cases a <;> rfl
theorem sub_nan (a : Flt) : o.sub a nan = nan := by
  cases a <;> rfl
theorem nan_sub (a : Flt) : o.sub nan a = nan := by
  cases a <;> rfl
theorem mul_nan (a : Flt) : o.mul a nan = nan := by
  cases a <;> rfl
theorem div_nan (a : Flt) : o.div a nan = nan := by
  cases a <;> rfl

/-- The maximum of finite numbers. -/
theorem amaxF_fin (x : ℝ) (l : List ℝ) : amaxF (fin x) (l.map fin) = fin (amax x l) := by
  induction l generalizing x with
  | nil => rfl
  | cons b l ih =>
    show amaxF (maxF (fin x) (fin b)) (l.map fin) = fin (amax (max x b) l)
    have h : maxF (fin x) (fin b) = fin (max x b) := by
      unfold maxF
      rw [if_neg (by simp)]
      by_cases hb : x ≤ b
      · rw [if_pos (show fin x ≤ fin b from hb), max_eq_right hb]
      · rw [if_neg (show ¬ fin x ≤ fin b from hb), max_eq_left (not_le.1 hb).le]
    rw [h, ih]

/-- On finite free values the model is that of `Model/Round`. -/
theorem constrainSimplexRowF_fin (x : List ℝ) : o.constrainSimplexRowF (x.map fin) = o.constrainSimplexRow x := by
  have h : o.logsumexpF (fin 0) (x.map fin) = o.logsumexp 0 x := by
    unfold logsumexpF logsumexp
    rw [amaxF_fin]
    simp [Function.comp_def]
  unfold constrainSimplexRowF constrainSimplexRow
  rw [h]
  simp [Function.comp_def]

theorem foldl_nan (l : List Flt) : l.foldl Flt.add nan = nan := by
  induction l with
  | nil => rfl
  | cons a l ih =>
    show l.foldl Flt.add (Flt.add nan a) = nan
    have : Flt.add nan a = nan := by cases a <;> rfl
    rw [this, ih]

theorem foldl_of_nan (l : List Flt) (h : nan ∈ l) (s : Flt) : l.foldl Flt.add s = nan := by
  induction l generalizing s with
  | nil => simp at h
  | cons a l ih =>
    rcases List.mem_cons.1 h with h | h
    · subst h
      show l.foldl Flt.add (Flt.add s nan) = nan
      have : Flt.add s nan = nan := by cases s <;> rfl
      rw [this, foldl_nan]
    · exact ih h _

/-- A sum with a NaN is NaN. -/
theorem sum_nan (l : List Flt) (h : nan ∈ l) : o.sum l = nan := by
  unfold sum
  rw [if_neg]
  · exact foldl_of_nan l h _
  · intro h'
    obtain ⟨r, hr⟩ := h' _ h
    cases hr

/-- A sum of numbers that are not negative, one of them infinite, is infinite. -/
theorem foldl_pinf (l : List Flt) (hn : ∀ a ∈ l, fin 0 ≤ a) (s : Flt) (hs : fin 0 ≤ s)
    (h : s = pinf ∨ pinf ∈ l) : l.foldl Flt.add s = pinf := by
  induction l generalizing s with
  | nil => simpa using h
  | cons a l ih =>
    have ha := hn a (by simp)
    refine ih (fun b hb => hn b (by simp [hb])) (Flt.add s a) ?_ ?_
    · rcases Flt.le_cases hs with rfl | ⟨r, rfl, hr⟩ <;> rcases Flt.le_cases ha with rfl | ⟨t, rfl, ht⟩
      · trivial
      · trivial
      · trivial
      · exact add_nonneg hr ht
    · rcases h with rfl | h
      · rcases Flt.le_cases ha with rfl | ⟨t, rfl, ht⟩ <;> exact .inl rfl
      · rcases List.mem_cons.1 h with h | h
        · subst h
          rcases Flt.le_cases hs with rfl | ⟨t, rfl, ht⟩ <;> exact .inl rfl
        · exact .inr h

theorem sum_pinf (l : List Flt) (hn : ∀ a ∈ l, fin 0 ≤ a) (h : pinf ∈ l) : o.sum l = pinf := by
  unfold sum
  rw [if_neg]
  · exact foldl_pinf l hn _ (le_refl (0 : ℝ)) (.inr h)
  · intro h'
    obtain ⟨r, hr⟩ := h' _ h
    cases hr

/-- A row with a NaN has NaN as its normalizer. -/
theorem logsumexpF_nan (x : Flt) (l : List Flt) (h : nan ∈ x :: l) : o.logsumexpF x l = nan := by
  unfold logsumexpF
  extract_lets m
  rw [sum_nan]
  · exact o.nan_add _
  · refine List.mem_map.2 ⟨nan, h, ?_⟩
    rw [nan_sub]
    rfl

theorem maxF_pinf (a : Flt) (h : a ≠ nan) : maxF a pinf = pinf ∧ maxF pinf a = pinf := by
  unfold maxF
  cases a with
  | nan => exact absurd rfl h
  | fin r =>
    refine ⟨?_, ?_⟩
    · rw [if_neg (by simp), if_pos (show fin r ≤ pinf from trivial)]
    · rw [if_neg (by simp), if_neg (fun h : pinf ≤ fin r => h)]
  | pinf => refine ⟨?_, ?_⟩ <;> rw [if_neg (by simp)] <;> split_ifs <;> rfl
  | ninf =>
    refine ⟨?_, ?_⟩
    · rw [if_neg (by simp), if_pos (show ninf ≤ pinf from trivial)]
    · rw [if_neg (by simp), if_neg (fun h : pinf ≤ ninf => h)]

theorem maxF_ne_nan {a b : Flt} (ha : a ≠ nan) (hb : b ≠ nan) : maxF a b ≠ nan := by
  unfold maxF
  rw [if_neg (by simp [ha, hb])]
  split_ifs <;> assumption

theorem amaxF_pinf (x : Flt) (l : List Flt) (hx : x ≠ nan) (hn : nan ∉ l) (h : x = pinf ∨ pinf ∈ l) :
    amaxF x l = pinf := by
  induction l generalizing x with
  | nil => simpa [amaxF] using h
  | cons a l ih =>
    have ha : a ≠ nan := fun h => hn (by simp [h])
    refine ih (maxF x a) (maxF_ne_nan hx ha) (fun h => hn (by simp [h])) ?_
    rcases h with rfl | h
    · exact .inl (maxF_pinf a ha).2
    · rcases List.mem_cons.1 h with h | h
      · subst h
        exact .inl (maxF_pinf x hx).1
      · exact .inr h

end FloatOps

theorem Flt.not_le_of_lt {a b : Flt} (h : a < b) : ¬ b ≤ a := by
  cases a <;> cases b
  case fin.fin x y => exact not_le.2 (show x < y from h)
  all_goals first | exact fun h => h | exact absurd h (fun h => h)

/-- **C178** for NaN, parameters with bounds: in every arithmetic and for all legal bounds, finite or not, a
free value that is NaN stores NaN, and then `get_free()` raises. -/
theorem C178_nan (o : FloatOps) (lb ub : Flt) (h : lb < ub) :
    o.constrain nan lb ub = .ok nan ∧ o.unconstrainScalar nan lb ub = .error .valueError := by
  refine ⟨?_, ?_⟩
  · unfold FloatOps.constrain
    rw [if_neg (Flt.not_le_of_lt h)]
    split_ifs
    · rfl
    · exact congrArg Except.ok (o.nan_add lb)
    · rw [o.mul_nan]
      exact congrArg Except.ok (o.sub_nan ub)
    · show Except.ok (o.add (o.div (o.mul (o.sub ub lb) nan) (o.add (fin 1) nan)) lb) = _
      rw [o.add_nan, o.div_nan, o.nan_add]
  · unfold FloatOps.unconstrainScalar
    rw [if_pos (fun h : nan ≤ ub => by cases ub <;> exact h)]

/-- With legal bounds `constrain` does not raise. -/
theorem FloatOps.constrain_ok (o : FloatOps) (lb ub : Flt) (h : lb < ub) :
    ∃ f : Flt → Flt, ∀ x, o.constrain x lb ub = .ok (f x) := by
  have : ∀ x, ∃ v, o.constrain x lb ub = .ok v := by
    intro x
    unfold FloatOps.constrain
    rw [if_neg (Flt.not_le_of_lt h)]
    split_ifs <;> exact ⟨_, rfl⟩
  choose f hf using this
  exact ⟨f, hf⟩

/-- **C178** for NaN, arrays of any length: NaN is stored where the free value is NaN, every other element is
what it would be without it, and as soon as one element is NaN `get_free()` raises. -/
theorem C178_nan_array (o : FloatOps) (lb ub : Flt) (h : lb < ub) (xs : List Flt) :
    ∃ vs, o.constrainList xs lb ub = .ok vs ∧
      List.Forall₂ (fun x v => o.constrain x lb ub = .ok v ∧ (x = nan → v = nan)) xs vs ∧
      (nan ∈ xs → o.unconstrainArray vs lb ub = .error .valueError) := by
  obtain ⟨f, hf⟩ := o.constrain_ok lb ub h
  have hn : f nan = nan := by
    have := hf nan
    rw [(C178_nan o lb ub h).1] at this
    exact (Except.ok.inj this).symm
  refine ⟨xs.map f, ?_, ?_, ?_⟩
  · unfold FloatOps.constrainList
    rw [if_neg (Flt.not_le_of_lt h)]
    induction xs with
    | nil => rfl
    | cons x xs ih =>
      rw [List.mapM_cons, hf x, ih]
      rfl
  · rw [List.forall₂_map_right_iff, List.forall₂_same]
    exact fun x _ => ⟨hf x, fun hx => by rw [hx, hn]⟩
  · intro hm
    unfold FloatOps.unconstrainArray
    rw [if_pos]
    intro hall
    have := hall nan (List.mem_map.2 ⟨nan, hm, hn⟩)
    cases ub <;> exact this

/-- **C178** for infinite free values, parameters with bounds: minus infinity stores the lower bound and plus
infinity the upper bound, whether the bounds are finite or not, or NaN is stored; the latter for plus infinity
when both bounds are finite, and for minus infinity only when their distance overflows. -/
theorem C178_infinite {o : FloatOps} {over under : ℝ} (c : FloatContract o over under) (lb ub : Flt) (h : lb < ub)
    (hl : ∀ a, lb = fin a → o.Rep a) (hu : ∀ b, ub = fin b → o.Rep b) :
    (o.constrain ninf lb ub = .ok lb ∨
      o.constrain ninf lb ub = .ok nan ∧ ∃ a b, lb = fin a ∧ ub = fin b ∧ o.rnd (b - a) = pinf) ∧
    ((¬ ∃ a b, lb = fin a ∧ ub = fin b) → o.constrain pinf lb ub = .ok ub) ∧
    ((∃ a b, lb = fin a ∧ ub = fin b) → o.constrain pinf lb ub = .ok nan) := by
  have hle := Flt.not_le_of_lt h
  unfold FloatOps.constrain
  simp only [if_neg hle]
  cases lb with
  | nan => exact absurd h (by cases ub <;> exact fun h => h)
  | pinf => exact absurd h (by cases ub <;> exact fun h => h)
  | ninf =>
    simp only [if_pos (show Flt.eq ninf ninf from trivial)]
    cases ub with
    | nan => exact absurd h (fun h => h)
    | ninf => exact absurd h (fun h => h)
    | pinf =>
      simp only [if_pos (show Flt.eq pinf pinf from trivial)]
      exact ⟨.inl trivial, fun _ => trivial, fun ⟨a, b, h, _⟩ => by cases h⟩
    | fin b =>
      simp only [if_neg (show ¬ Flt.eq (fin b) pinf from fun h => h)]
      have e1 : o.mul (fin (-1)) ninf = pinf := by
        show o.round (-(Flt.infMul (-1))) = pinf
        rw [Flt.infMul, if_neg (by norm_num), if_pos (by norm_num)]
        rfl
      have e2 : o.mul (fin (-1)) pinf = ninf := by
        show o.round (Flt.infMul (-1)) = ninf
        rw [Flt.infMul, if_neg (by norm_num), if_pos (by norm_num)]
        rfl
      rw [e1, e2]
      refine ⟨.inl rfl, fun _ => ?_, fun ⟨a, b, h, _⟩ => by cases h⟩
      show Except.ok (o.rnd (b + -0)) = Except.ok (fin b)
      rw [neg_zero, add_zero, c.rnd_rep (hu b rfl)]
  | fin a =>
    simp only [if_neg (show ¬ Flt.eq (fin a) ninf from fun h => h)]
    cases ub with
    | nan => exact absurd h (fun h => h)
    | ninf => exact absurd h (fun h => h)
    | pinf =>
      simp only [if_pos (show Flt.eq pinf pinf from trivial)]
      refine ⟨.inl ?_, fun _ => rfl, fun ⟨a, b, _, h⟩ => by cases h⟩
      show Except.ok (o.rnd (0 + a)) = Except.ok (fin a)
      rw [zero_add, c.rnd_rep (hl a rfl)]
    | fin b =>
      simp only [if_neg (show ¬ Flt.eq (fin b) pinf from fun h => h)]
      have hab : a < b := h
      have hw : o.sub (fin b) (fin a) = o.rnd (b - a) := by
        show o.rnd (b + -a) = _
        rw [sub_eq_add_neg]
      have hw0 : fin 0 ≤ o.rnd (b - a) := c.le_rnd c.zero (by linarith)
      have h0 : o.add (fin 1) (o.exp ninf) = fin 1 := by
        show o.rnd (1 + 0) = fin 1
        rw [add_zero, c.rnd_rep c.one]
      refine ⟨?_, fun hn => absurd ⟨a, b, rfl, rfl⟩ hn, fun _ => ?_⟩
      · show Except.ok (o.add (o.div (o.mul (o.sub (fin b) (fin a)) (fin 0)) (o.add (fin 1) (o.exp ninf))) (fin a)) = _ ∨
          Except.ok (o.add (o.div (o.mul (o.sub (fin b) (fin a)) (fin 0)) (o.add (fin 1) (o.exp ninf))) (fin a)) = _ ∧ _
        rw [h0, hw]
        rcases Flt.le_cases hw0 with hp | ⟨w, hp, -⟩
        · right
          refine ⟨?_, a, b, rfl, rfl, hp⟩
          rw [hp]
          have : o.mul pinf (fin 0) = nan := by
            show o.round (Flt.infMul 0) = nan
            simp [Flt.infMul]
            rfl
          rw [this]
          rfl
        · left
          rw [hp]
          have e1 : o.mul (fin w) (fin 0) = fin 0 := by
            show o.rnd (w * 0) = fin 0
            rw [mul_zero, c.rnd_rep c.zero]
          have e2 : o.div (fin 0) (fin 1) = fin 0 := by
            show o.round (if (1 : ℝ) = 0 then _ else fin (0 / 1)) = fin 0
            rw [if_neg one_ne_zero, zero_div]
            exact c.rnd_rep c.zero
          rw [e1, e2]
          show Except.ok (o.rnd (0 + a)) = _
          rw [zero_add, c.rnd_rep (hl a rfl)]
      · show Except.ok (o.add (o.div (o.mul (o.sub (fin b) (fin a)) pinf) pinf) (fin a)) = _
        rw [hw]
        have : ∀ y : Flt, o.div y pinf = nan ∨ ∃ r, y = fin r := by
          intro y
          cases y with
          | fin r => exact .inr ⟨r, rfl⟩
          | _ => exact .inl rfl
        rcases this (o.mul (o.rnd (b - a)) pinf) with h1 | ⟨r, h1⟩
        · rw [h1]
          rfl
        · exfalso
          rcases Flt.le_cases hw0 with hp | ⟨w, hp, -⟩
          · rw [hp] at h1
            cases h1
          · rw [hp] at h1
            have h1 : o.round (Flt.infMul w) = fin r := h1
            unfold Flt.infMul at h1
            split_ifs at h1 <;> cases h1

/-- **C178** for NaN, simplexes of any length: in every arithmetic, one free value that is NaN makes all
probabilities NaN. -/
theorem C178_simplex_nan (o : FloatOps) (x : List Flt) (h : nan ∈ x) :
    o.constrainSimplexRowF x = List.replicate (x.length + 1) nan := by
  unfold FloatOps.constrainSimplexRowF
  rw [o.logsumexpF_nan _ _ (by simp [h])]
  refine List.eq_replicate_iff.2 ⟨by simp, fun z hz => ?_⟩
  obtain ⟨a, -, rfl⟩ := List.mem_map.1 hz
  rw [o.sub_nan]
  rfl

/-- **C178** for plus infinity, simplexes of any length: the entries with an infinite free value are NaN, the
others are 0. -/
theorem C178_simplex_plus_infinity {o : FloatOps} {over under : ℝ} (c : FloatContract o over under) (x : List Flt)
    (hn : nan ∉ x) (hr : ∀ r, fin r ∈ x → o.Rep r) (h : pinf ∈ x) :
    o.constrainSimplexRowF x = fin 0 :: x.map fun a => if a = pinf then nan else fin 0 := by
  have hL : o.logsumexpF (fin 0) x = pinf := by
    unfold FloatOps.logsumexpF
    rw [FloatOps.amaxF_pinf _ _ (by simp) hn (.inr h)]
    show o.add (o.log (o.sum _)) (fin 0) = pinf
    rw [FloatOps.sum_pinf]
    · rfl
    · intro z hz
      obtain ⟨a, ha, rfl⟩ := List.mem_map.1 hz
      cases a with
      | nan => simp at ha; exact absurd ha hn
      | pinf => trivial
      | ninf => exact le_refl (0 : ℝ)
      | fin r =>
        have hrep : o.Rep r := by
          rcases List.mem_cons.1 ha with ha | ha
          · cases ha
            exact c.zero
          · exact hr r ha
        have : o.sub (fin r) (fin 0) = fin r := by
          show o.rnd (r + -0) = fin r
          rw [neg_zero, add_zero, c.rnd_rep hrep]
        rw [this]
        exact c.exp_nonneg r
    · exact List.mem_map.2 ⟨pinf, by simp [h], rfl⟩
  unfold FloatOps.constrainSimplexRowF
  rw [hL]
  show _ :: _ = _
  congr 1
  refine List.map_congr_left fun a ha => ?_
  cases a with
  | nan => exact absurd ha hn
  | pinf => rw [if_pos rfl]; rfl
  | ninf => rw [if_neg (by simp)]; rfl
  | fin r => rw [if_neg (by simp)]; rfl

/-- The largest of entries that are finite or minus infinity, one of them finite. -/
theorem FloatOps.amaxF_ninf (x : ℝ) (l : List Flt) (hl : ∀ a ∈ l, a = ninf ∨ ∃ r, a = fin r) :
    ∃ m, FloatOps.amaxF (fin x) l = fin m ∧ fin m ∈ fin x :: l ∧ x ≤ m ∧ ∀ r, fin r ∈ l → r ≤ m := by
  induction l generalizing x with
  | nil => exact ⟨x, rfl, by simp, le_rfl, by simp⟩
  | cons a l ih =>
    have hl' : ∀ a ∈ l, a = ninf ∨ ∃ r, a = fin r := fun b hb => hl b (by simp [hb])
    rcases hl a (by simp) with rfl | ⟨b, rfl⟩
    · obtain ⟨m, h1, h2, h3, h4⟩ := ih x hl'
      refine ⟨m, ?_, ?_, h3, fun r hr => h4 r (by simpa using hr)⟩
      · show FloatOps.amaxF (FloatOps.maxF (fin x) ninf) l = fin m
        have : FloatOps.maxF (fin x) ninf = fin x := by
          unfold FloatOps.maxF
          rw [if_neg (by simp), if_neg (fun h : fin x ≤ ninf => h)]
        rw [this, h1]
      · rcases List.mem_cons.1 h2 with h | h <;> simp [h]
    · obtain ⟨m, h1, h2, h3, h4⟩ := ih (max x b) hl'
      refine ⟨m, ?_, ?_, le_trans (le_max_left x b) h3, ?_⟩
      · show FloatOps.amaxF (FloatOps.maxF (fin x) (fin b)) l = fin m
        have := FloatOps.amaxF_fin x [b]
        have h' : FloatOps.maxF (fin x) (fin b) = fin (max x b) := this
        rw [h', h1]
      · rcases List.mem_cons.1 h2 with h | h
        · rcases max_choice x b with h' | h' <;> simp [h, h']
        · simp [h]
      · intro r hr
        rcases List.mem_cons.1 hr with hr | hr
        · cases hr
          exact le_trans (le_max_right x _) h3
        · exact h4 r hr

/-- **C178** for minus infinity, simplexes of any length: every entry is a number in `[0, 1]`, and 0 where the
free value is minus infinity. -/
theorem C178_simplex_minus_infinity {o : FloatOps} {over under : ℝ} (c : FloatContract o over under) (x : List Flt)
    (hx : ∀ a ∈ x, a = ninf ∨ ∃ r, a = fin r ∧ o.Rep r) :
    ∃ z0 zs, o.constrainSimplexRowF x = z0 :: zs ∧ (∃ p, z0 = fin p ∧ 0 ≤ p ∧ p ≤ 1) ∧
      List.Forall₂ (fun a z => (∃ p, z = fin p ∧ 0 ≤ p ∧ p ≤ 1) ∧ (a = ninf → z = fin 0)) x zs := by
  obtain ⟨m, hm, hmem, h0, hge⟩ := FloatOps.amaxF_ninf 0 x (fun a ha => (hx a ha).imp id fun ⟨r, h, _⟩ => ⟨r, h⟩)
  have hrep : ∀ r, fin r ∈ fin 0 :: x → o.Rep r := by
    intro r hr
    rcases List.mem_cons.1 hr with hr | hr
    · cases hr
      exact c.zero
    · rcases hx _ hr with h | ⟨r', h, h'⟩
      · cases h
      · cases h
        exact h'
  have hle : ∀ a ∈ fin 0 :: x, a = ninf ∨ ∃ r, a = fin r ∧ r ≤ m := by
    intro a ha
    rcases List.mem_cons.1 ha with rfl | ha
    · exact .inr ⟨0, rfl, h0⟩
    · rcases hx a ha with h | ⟨r, rfl, h'⟩
      · exact .inl h
      · exact .inr ⟨r, rfl, hge r ha⟩
  have hsub : ∀ a ∈ fin 0 :: x, ∀ L : Flt, fin m ≤ L → o.sub a L ≤ fin 0 := by
    intro a ha L hL
    rcases hle a ha with rfl | ⟨r, rfl, hr⟩ <;> rcases Flt.le_cases hL with rfl | ⟨s, rfl, hs⟩
    · trivial
    · trivial
    · trivial
    · exact c.rnd_le c.zero (show r + -s ≤ 0 by linarith)
  set zs := (fin 0 :: x).map fun a => o.exp (o.sub a (fin m)) with hz
  have hfin : ∀ z ∈ zs, ∃ r, z = fin r ∧ 0 ≤ r ∧ r ≤ 1 := by
    intro z h
    obtain ⟨a, ha, rfl⟩ := List.mem_map.1 h
    exact c.exp_nonpos (hsub a ha _ (le_refl m))
  set rs := zs.map fun a => match a with | fin r => r | _ => 0 with hrs
  have hone : (1 : ℝ) ∈ rs := by
    refine List.mem_map.2 ⟨fin 1, List.mem_map.2 ⟨fin m, hmem, ?_⟩, rfl⟩
    have h0 : o.sub (fin m) (fin m) = fin 0 := by
      show o.rnd (m + -m) = fin 0
      rw [add_neg_cancel]
      exact c.rnd_rep c.zero
    rw [h0]
    exact c.exp_zero
  have hb : ∀ r ∈ rs, 0 ≤ r ∧ r ≤ 1 := by
    intro r h
    obtain ⟨z, hz', rfl⟩ := List.mem_map.1 h
    obtain ⟨r, rfl, h1⟩ := hfin z hz'
    exact h1
  have hsum1 := c.sum_ge (fun b hb' => (hb b hb').1) hone c.one
  have hsum : o.sum zs = o.sumR rs := by
    unfold FloatOps.sum
    rw [if_pos (fun a ha => (hfin a ha).imp fun r h => h.1)]
    rfl
  have hL : fin m ≤ o.logsumexpF (fin 0) x := by
    unfold FloatOps.logsumexpF
    rw [hm]
    show fin m ≤ o.add (o.log (o.sum zs)) (fin m)
    rw [hsum]
    have hlog : fin 0 ≤ o.log (o.sumR rs) := by
      rcases Flt.le_cases hsum1 with h | ⟨s, h, hs⟩
      · rw [h]
        trivial
      · rw [h]
        show fin 0 ≤ if 0 < s then o.logR s else _
        rw [if_pos (by linarith)]
        exact c.log_ge (by linarith) c.zero (Real.log_nonneg hs)
    rcases Flt.le_cases hlog with h | ⟨s, h, hs⟩
    · rw [h]
      trivial
    · rw [h]
      exact c.le_rnd (hrep m hmem) (show m ≤ s + m by linarith)
  refine ⟨_, _, rfl, c.exp_nonpos (hsub _ (by simp) _ hL), ?_⟩
  rw [List.forall₂_map_right_iff, List.forall₂_same]
  intro a ha
  refine ⟨c.exp_nonpos (hsub a (by simp [ha]) _ hL), ?_⟩
  rintro rfl
  rcases Flt.le_cases hL with h | ⟨s, h, -⟩ <;> rw [h] <;> rfl

/-- **C178** on reading a simplex of two or more entries: a NaN in it is never hidden; the free value then has
a NaN, but nothing raises. -/
theorem C178_simplex_read (o : FloatOps) (z w : Flt) (zs : List Flt) (h : nan ∈ z :: w :: zs) :
    ∃ y, o.unconstrainSimplexRow (z :: w :: zs) = .ok y ∧ y.length = zs.length + 1 ∧ nan ∈ y := by
  refine ⟨_, rfl, by simp, ?_⟩
  rcases List.mem_cons.1 h with h | h
  · subst h
    refine List.mem_map.2 ⟨w, by simp, ?_⟩
    exact o.sub_nan _
  · exact List.mem_map.2 ⟨nan, h, o.nan_sub _⟩

/-- Double precision meets the hypotheses: bounds 0 and 1, and a row of free values with all kinds of entries. -/
example : FloatContract Binary64.ideal (2 ^ 1024) (2 ^ (-1075 : ℤ)) ∧ fin 0 < fin 1 ∧ Binary64.ideal.Rep 0 ∧
    Binary64.ideal.Rep 1 ∧ nan ∉ [fin 1, ninf, pinf] ∧ pinf ∈ [fin 1, ninf, pinf] :=
  ⟨Binary64.contract, (zero_lt_one : (0 : ℝ) < 1), Binary64.contract.zero, Binary64.contract.one, by simp, by simp⟩

/-- With free values 1, NaN and 2, `get_free()` raises after `set_free`, and `set_free` stores 1 and 2 around the NaN
when there are no bounds. -/
example : Binary64.ideal.constrainList [fin 1, nan, fin 2] ninf pinf = .ok [fin 1, nan, fin 2] ∧
    Binary64.ideal.unconstrainArray [fin 1, nan, fin 2] ninf pinf = .error .valueError := by
  obtain ⟨vs, h1, h2, h3⟩ := C178_nan_array Binary64.ideal ninf pinf trivial [fin 1, nan, fin 2]
  have hu : ∀ x, Binary64.ideal.constrain x ninf pinf = .ok x := fun x => by
    unfold FloatOps.constrain
    rw [if_neg (fun h : pinf ≤ ninf => h), if_pos (show Flt.eq pinf pinf from trivial),
      if_pos (show Flt.eq ninf ninf from trivial)]
  have hv : vs = [fin 1, nan, fin 2] := by
    have : List.Forall₂ (fun x v => x = v) [fin 1, nan, fin 2] vs :=
      h2.imp fun x v h => by
        have := h.1
        rw [hu] at this
        exact Except.ok.inj this
    exact (List.forall₂_eq_eq_eq ▸ this : [fin 1, nan, fin 2] = vs).symm
  subst hv
  exact ⟨h1, h3 (by simp)⟩

end LRVB
