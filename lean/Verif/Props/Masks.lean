import Verif.Spec.Masks
import Mathlib.Data.Finset.Card
import Mathlib.Data.List.Nodup
import Mathlib.Tactic.Linarith
import Mathlib.Tactic.Ring

/-!
# C60 - C63: masks
-/

namespace LRVB

/-! ### Lemmas -/

theorem Mask.has_lt {m : Mask} {i : ℕ} (h : m.Has i) : i < m.length := by
  unfold Mask.Has at h
  by_contra hc
  rw [List.getElem?_eq_none (by omega)] at h
  exact absurd h (by simp)

theorem mem_argwhere {m : Mask} {i : ℕ} : i ∈ argwhere m ↔ m.Has i := by
  unfold argwhere Mask.Has
  rw [List.mem_filter, List.mem_range]
  constructor
  · rintro ⟨h1, h2⟩
    rw [List.getD_eq_getElem?_getD, List.getElem?_eq_getElem h1] at h2
    rw [List.getElem?_eq_getElem h1]
    simpa using h2
  · intro h
    have h1 : i < m.length := Mask.has_lt h
    refine ⟨h1, ?_⟩
    rw [List.getD_eq_getElem?_getD, h]; rfl

theorem argwhere_nodup (m : Mask) : (argwhere m).Nodup := List.nodup_range.filter _

theorem argwhere_length (m : Mask) : (argwhere m).length = m.num := by
  unfold argwhere Mask.num
  induction m using List.reverseRecOn with
  | nil => rfl
  | append_singleton m b ih =>
    rw [List.length_append, List.length_singleton, List.range_succ, List.filter_append, List.length_append,
      List.count_append]
    have h1 : (List.range m.length).filter (fun i => (m ++ [b]).getD i false) =
        (List.range m.length).filter fun i => m.getD i false := by
      apply List.filter_congr
      intro i hi
      have hi := List.mem_range.mp hi
      simp [List.getD_eq_getElem?_getD, List.getElem?_append_left hi]
    rw [h1, ih]
    congr 1
    cases b <;> simp

theorem setTrue_length (inds : List ℕ) : ∀ m : Mask, (setTrue m inds).length = m.length := by
  induction inds with
  | nil => intro m; rfl
  | cons i is ih =>
    intro m
    change (setTrue (m.set i true) is).length = _
    rw [ih, List.length_set]

theorem setTrue_has (inds : List ℕ) : ∀ (m : Mask) (i : ℕ),
    (setTrue m inds).Has i ↔ m.Has i ∨ (i ∈ inds ∧ i < m.length) := by
  induction inds with
  | nil => intro m i; simp [setTrue]
  | cons j is ih =>
    intro m i
    change (setTrue (m.set j true) is).Has i ↔ _
    rw [ih, List.length_set, List.mem_cons]
    unfold Mask.Has
    rw [List.getElem?_set]
    by_cases hij : j = i
    · subst hij
      rw [if_pos rfl]
      by_cases hl : j < m.length
      · simp [hl]
      · simp [hl, List.getElem?_eq_none (show m.length ≤ j by omega)]
    · rw [if_neg hij]
      have : i ≠ j := fun h => hij h.symm
      simp [this]

theorem blank_has (n i : ℕ) : ¬ Mask.Has (List.replicate n false) i := by
  unfold Mask.Has
  rw [List.getElem?_replicate]
  split <;> simp

/-- A mask selecting the positions of a list. -/
theorem num_eq_length {m : Mask} {inds : List ℕ} (hn : inds.Nodup) (h : ∀ i, m.Has i ↔ i ∈ inds) :
    m.num = inds.length := by
  rw [← argwhere_length, ← List.toFinset_card_of_nodup (argwhere_nodup m), ← List.toFinset_card_of_nodup hn]
  congr 1
  ext i
  rw [List.mem_toFinset, List.mem_toFinset, mem_argwhere, h]

theorem setTrue_blank {n : ℕ} {inds : List ℕ} (hr : ∀ i ∈ inds, i < n) (i : ℕ) :
    (setTrue (List.replicate n false) inds).Has i ↔ i ∈ inds := by
  rw [setTrue_has, List.length_replicate]
  constructor
  · rintro (h | h)
    · exact absurd h (blank_has n i)
    · exact h.1
  · exact fun h => .inr ⟨h, hr i h⟩

/-- What the two parts of a mask are. -/
theorem splitVector_parts (m : Mask) :
    ((splitVector m).1.length = m.length ∧ (splitVector m).2.length = m.length) ∧
    (∀ i, (splitVector m).1.Has i ↔ i ∈ (argwhere m).take (m.num / 2)) ∧
    (∀ i, (splitVector m).2.Has i ↔ i ∈ (argwhere m).drop (m.num / 2)) := by
  have hr : ∀ i ∈ argwhere m, i < m.length := fun i hi => Mask.has_lt (mem_argwhere.mp hi)
  have e1 : (splitVector m).1 = setTrue (List.replicate m.length false) ((argwhere m).take (m.num / 2)) := by
    unfold splitVector
    simp only [argwhere_length]
    split
    · rfl
    · rename_i h
      rw [Nat.eq_zero_of_not_pos h]; rfl
  have e2 : (splitVector m).2 = setTrue (List.replicate m.length false) ((argwhere m).drop (m.num / 2)) := by
    unfold splitVector
    simp only [argwhere_length]
    have ht : ((argwhere m).drop (m.num / 2)).take (m.num - m.num / 2) = (argwhere m).drop (m.num / 2) := by
      rw [List.take_of_length_le]
      rw [List.length_drop, argwhere_length]
    split
    · rw [ht]
    · rename_i h
      rw [← ht, Nat.eq_zero_of_not_pos h]; rfl
  refine ⟨⟨by rw [e1, setTrue_length, List.length_replicate], by rw [e2, setTrue_length, List.length_replicate]⟩,
    fun i => ?_, fun i => ?_⟩
  · rw [e1, setTrue_blank fun i hi => hr i (List.mem_of_mem_take hi)]
  · rw [e2, setTrue_blank fun i hi => hr i (List.mem_of_mem_drop hi)]

theorem splitVector_num (m : Mask) : (splitVector m).1.num = m.num / 2 ∧
    (splitVector m).2.num = m.num - m.num / 2 := by
  obtain ⟨-, h1, h2⟩ := splitVector_parts m
  constructor
  · rw [num_eq_length (List.Nodup.sublist (List.take_sublist _ _) (argwhere_nodup m)) h1, List.length_take,
      argwhere_length]
    omega
  · rw [num_eq_length (List.Nodup.sublist (List.drop_sublist _ _) (argwhere_nodup m)) h2, List.length_drop,
      argwhere_length]

/-! ### C60 -/

/-- **C60** The two parts of a mask partition it, and the numbers of their true entries differ by at
most one (the second part is the larger one). -/
theorem C60_split_vector (m : Mask) :
    PartitionsMask [(splitVector m).1, (splitVector m).2] m ∧
    (splitVector m).1.count true ≤ (splitVector m).2.count true ∧
    (splitVector m).2.count true ≤ (splitVector m).1.count true + 1 ∧
    (splitVector m).1.count true + (splitVector m).2.count true = m.count true := by
  obtain ⟨⟨l1, l2⟩, h1, h2⟩ := splitVector_parts m
  obtain ⟨n1, n2⟩ := splitVector_num m
  unfold Mask.num at n1 n2
  refine ⟨⟨?_, ?_, ?_⟩, by omega, by omega, by omega⟩
  · intro x hx
    simp only [List.mem_cons, List.not_mem_nil, or_false] at hx
    rcases hx with rfl | rfl
    · exact l1
    · exact l2
  · rw [List.pairwise_pair]
    intro i ⟨a, b⟩
    rw [h1] at a
    rw [h2] at b
    have hn := argwhere_nodup m
    rw [← List.take_append_drop (m.num / 2) (argwhere m)] at hn
    exact List.disjoint_of_nodup_append hn a b
  · intro i
    rw [← mem_argwhere, ← List.take_append_drop (m.num / 2) (argwhere m), List.mem_append, ← h1, ← h2]
    simp

example : splitVector [true, false, true, true] = ([true, false, false, false], [false, false, true, true]) := by
  decide

/-! ### C61 -/

theorem PartitionsMask.single (m : Mask) : PartitionsMask [m] m :=
  ⟨by simp, List.pairwise_singleton _ _, by simp⟩

theorem PartitionsMask.append {p1 p2 : List Mask} {m1 m2 m : Mask} (h : PartitionsMask [m1, m2] m)
    (h1 : PartitionsMask p1 m1) (h2 : PartitionsMask p2 m2) : PartitionsMask (p1 ++ p2) m := by
  have l1 := h.lengths m1 (by simp)
  have l2 := h.lengths m2 (by simp)
  refine ⟨?_, ?_, ?_⟩
  · intro x hx
    rcases List.mem_append.mp hx with hx | hx
    · rw [h1.lengths x hx, l1]
    · rw [h2.lengths x hx, l2]
  · rw [List.pairwise_append]
    refine ⟨h1.disjoint, h2.disjoint, ?_⟩
    intro a ha b hb i hi
    have hd := h.disjoint
    rw [List.pairwise_pair] at hd
    exact hd i ⟨(h1.union i).mpr ⟨a, ha, hi.1⟩, (h2.union i).mpr ⟨b, hb, hi.2⟩⟩
  · intro i
    rw [h.union i]
    constructor
    · rintro ⟨x, hx, hi⟩
      simp only [List.mem_cons, List.not_mem_nil, or_false] at hx
      rcases hx with rfl | rfl
      · obtain ⟨y, hy, hyi⟩ := (h1.union i).mp hi
        exact ⟨y, List.mem_append_left _ hy, hyi⟩
      · obtain ⟨y, hy, hyi⟩ := (h2.union i).mp hi
        exact ⟨y, List.mem_append_right _ hy, hyi⟩
    · rintro ⟨y, hy, hyi⟩
      rcases List.mem_append.mp hy with hy | hy
      · exact ⟨m1, by simp, (h1.union i).mpr ⟨y, hy, hyi⟩⟩
      · exact ⟨m2, by simp, (h2.union i).mpr ⟨y, hy, hyi⟩⟩

theorem recursiveSplit_ok (T : ℕ) : ∀ (k limit : ℕ) (m : Mask) (results : List Mask), k < limit →
    m.num ≤ T * 2 ^ k → ∃ parts, recursiveSplit limit m results T = (results ++ parts, none) ∧
      PartitionsMask parts m ∧ ∀ p ∈ parts, p.num ≤ T := by
  intro k
  induction k with
  | zero =>
    intro limit m results hk hm
    obtain ⟨l, rfl⟩ := Nat.exists_eq_add_of_lt hk
    rw [pow_zero, mul_one] at hm
    refine ⟨[m], ?_, .single m, by simpa using hm⟩
    rw [recursiveSplit, if_neg (by push_cast; omega)]
  | succ k ih =>
    intro limit m results hk hm
    obtain ⟨l, rfl⟩ := Nat.exists_eq_add_of_lt (Nat.zero_lt_of_lt hk)
    rw [Nat.zero_add] at hk ⊢
    by_cases hs : m.num ≤ T
    · refine ⟨[m], ?_, .single m, by simpa using hs⟩
      rw [recursiveSplit, if_neg (by push_cast; omega)]
    · obtain ⟨n1, n2⟩ := splitVector_num m
      have hp : T * 2 ^ (k + 1) = 2 * (T * 2 ^ k) := by ring
      rw [hp] at hm
      obtain ⟨p1, e1, q1, c1⟩ := ih l (splitVector m).1 results (by omega) (by omega)
      obtain ⟨p2, e2, q2, c2⟩ := ih l (splitVector m).2 (results ++ p1) (by omega) (by omega)
      refine ⟨p1 ++ p2, ?_, (C60_split_vector m).1.append q1 q2, ?_⟩
      · rw [recursiveSplit, if_pos (by push_cast; omega)]
        simp only [e1, e2, List.append_assoc]
      · intro p hp
        rcases List.mem_append.mp hp with hp | hp
        · exact c1 p hp
        · exact c2 p hp

/-- **C61** For `terminate_len ≥ 1` recursive splitting terminates: `k + 1` nested calls are enough
when the mask has at most `terminate_len · 2 ^ k` true entries (so some depth is enough for every
mask).  It appends to the given results masks that partition the input, with at most `terminate_len`
true entries each. -/
theorem C61_recursive_split (m : Mask) (results : List Mask) (terminateLen : ℕ) (h : 1 ≤ terminateLen) :
    (∃ k, m.count true ≤ terminateLen * 2 ^ k) ∧
    ∀ k limit, m.count true ≤ terminateLen * 2 ^ k → k < limit →
      ∃ parts, recursiveSplit limit m results terminateLen = (results ++ parts, none) ∧
        PartitionsMask parts m ∧ ∀ p ∈ parts, p.count true ≤ terminateLen := by
  refine ⟨⟨m.count true, ?_⟩, fun k limit hk hl => recursiveSplit_ok terminateLen k limit m results hl hk⟩
  have h1 : m.count true < 2 ^ m.count true := Nat.lt_two_pow_self
  nlinarith

example : recursiveSplit 10 [true, false, true, true] [[false]] 1 =
    ([[false], [true, false, false, false], [false, false, true, false], [false, false, false, true]], none) := by
  decide

/-! ### C62 -/

theorem recursiveSplit_mono : ∀ (limit : ℕ) (m : Mask) (results : List Mask) (T : ℤ),
    T ≤ 0 → T < m.num → (recursiveSplit limit m results T).2 = some .recursionError := by
  intro limit
  induction limit with
  | zero => intro m results T _ _; rfl
  | succ k ih =>
    intro m results T hT hm
    rw [recursiveSplit, if_pos hm]
    obtain ⟨n1, n2⟩ := splitVector_num m
    simp only
    cases hr : (recursiveSplit k (splitVector m).1 results T).2 with
    | none =>
      simp only
      refine ih _ _ _ hT ?_
      rw [n2]
      omega
    | some e =>
      simp only
      congr 1
      by_contra hne
      by_cases h1 : T < (splitVector m).1.num
      · rw [ih _ results T hT h1] at hr
        exact hne (by simpa using hr.symm)
      · cases k with
        | zero => simp [recursiveSplit] at hr; exact hne hr.symm
        | succ k =>
          rw [recursiveSplit, if_neg (by omega)] at hr
          simp at hr

/-- **C62 fails** for `terminate_len = 0`: whatever the number of nested calls allowed, splitting a mask
with one true entry exceeds it, because a mask with one true entry is split into an empty mask and
itself. -/
theorem C62_zero_counterexample (limit : ℕ) (results : List Mask) :
    (recursiveSplit limit [true] results 0).2 = some .recursionError :=
  recursiveSplit_mono limit [true] results 0 le_rfl (by decide)

/-- **C62**, the exact condition: splitting returns, for some number of nested calls and then for every
larger one, when `terminate_len ≥ 1` or the mask has no more than `terminate_len` true entries;
otherwise it exceeds every number of nested calls.  Missing: termination for every `terminate_len`,
which is false. -/
theorem C62_termination_partial (m : Mask) (results : List Mask) (terminateLen : ℤ) :
    ((1 ≤ terminateLen ∨ (m.count true : ℤ) ≤ terminateLen) →
      ∃ depth, ∀ limit ≥ depth, (recursiveSplit limit m results terminateLen).2 = none) ∧
    (¬ (1 ≤ terminateLen ∨ (m.count true : ℤ) ≤ terminateLen) →
      ∀ limit, (recursiveSplit limit m results terminateLen).2 = some .recursionError) := by
  constructor
  · intro h
    by_cases hs : (m.count true : ℤ) ≤ terminateLen
    · refine ⟨1, fun limit hl => ?_⟩
      obtain ⟨l, rfl⟩ := Nat.exists_eq_add_of_le' hl
      rw [recursiveSplit, if_neg (by unfold Mask.num; omega)]
    · have h1 : 1 ≤ terminateLen := h.resolve_right hs
      obtain ⟨T, rfl⟩ := Int.eq_ofNat_of_zero_le (by omega : 0 ≤ terminateLen)
      obtain ⟨⟨k, hk⟩, h2⟩ := C61_recursive_split m results T (by omega)
      refine ⟨k + 1, fun limit hl => ?_⟩
      obtain ⟨parts, e, -⟩ := h2 k limit hk (by omega)
      rw [e]
  · intro h limit
    rw [not_or, not_le, not_le] at h
    exact recursiveSplit_mono limit m results terminateLen (by omega) h.2

/-! ### C63 -/

/-- The positions `a ≤ i < b` of `n`. -/
def blockMask (n a b : ℕ) : Mask := (List.range n).map fun i => decide (a ≤ i ∧ i < b)

theorem blockMask_has (n a b i : ℕ) : (blockMask n a b).Has i ↔ i < n ∧ a ≤ i ∧ i < b := by
  unfold blockMask Mask.Has
  rw [List.getElem?_map]
  by_cases hi : i < n
  · rw [List.getElem?_range hi]
    simp [hi]
  · rw [List.getElem?_eq_none (by simpa using hi)]
    simp [hi]

theorem getMasksLoop_eq (n c : ℕ) (h : 0 < c) (hn : 0 < n) : ∀ (r ind : ℕ) (acc : List Mask),
    n ≤ ind + r * c → (r = 0 ∨ ind + (r - 1) * c < n) → getMasksLoop n c h ind acc =
      acc ++ (List.range r).map fun j => blockMask n (ind + j * c) (min (ind + j * c + c) n) := by
  intro r
  induction r with
  | zero =>
    intro ind acc h1 _
    rw [getMasksLoop, if_neg (by omega)]
    simp
  | succ r ih =>
    intro ind acc h1 h2
    have h3 : ind + r * c < n := by
      rcases h2 with h2 | h2
      · omega
      · simpa using h2
    have h4 : (r + 1) * c = r * c + c := by ring
    rw [getMasksLoop, if_pos (by omega)]
    simp only
    rw [ih (ind + c) _ (by omega) (by
      rcases Nat.eq_zero_or_pos r with hr | hr
      · exact .inl hr
      · right
        obtain ⟨q, rfl⟩ : ∃ q, r = q + 1 := ⟨r - 1, by omega⟩
        rw [Nat.add_sub_cancel]
        have : (q + 1) * c = q * c + c := by ring
        omega)]
    rw [List.range_succ_eq_map, List.map_cons, List.map_map, List.append_assoc, List.singleton_append]
    congr 2
    · simp [blockMask]
    · apply List.map_congr_left
      intro j _
      simp only [Function.comp]
      have : (j + 1) * c = c + j * c := by ring
      rw [Nat.succ_eq_add_one, this, ← Nat.add_assoc]

theorem blockMask_num (n a b : ℕ) (hab : a ≤ b) (hb : b ≤ n) : (blockMask n a b).count true = b - a := by
  have h1 := num_eq_length (m := blockMask n a b) (inds := (List.range (b - a)).map (· + a))
    (List.nodup_range.map fun x y h => by simpa using h) (by
      intro i
      rw [blockMask_has, List.mem_map]
      constructor
      · rintro ⟨-, h2, h3⟩
        exact ⟨i - a, List.mem_range.mpr (by omega), by omega⟩
      · rintro ⟨j, hj, rfl⟩
        have := List.mem_range.mp hj
        omega)
  rw [List.length_map, List.length_range] at h1
  exact h1

/-- **C63** For `0 < min_mask_len < full_len` there are `⌈full_len / min_mask_len⌉` masks; mask `j`
selects the contiguous positions from `j · min_mask_len` up to `(j + 1) · min_mask_len` or the end; they
partition the index range, all but the last have `min_mask_len` true entries and the last has at least
one and at most `min_mask_len`.  All other arguments raise `AssertionError`. -/
theorem C63_get_masks (fullLen minLen : ℤ) :
    (¬ (0 < minLen ∧ minLen < fullLen) → getMasks fullLen minLen = .error .assertionError) ∧
    (0 < minLen ∧ minLen < fullLen → ∃ (n c count : ℕ) (masks : List Mask),
      fullLen = n ∧ minLen = c ∧ getMasks fullLen minLen = .ok masks ∧
      masks.length = count ∧ (count - 1) * c < n ∧ n ≤ count * c ∧
      PartitionsMask masks (List.replicate n true) ∧
      (∀ (j : ℕ) (m : Mask), masks[j]? = some m →
        (∀ i, m.Has i ↔ j * c ≤ i ∧ i < (j + 1) * c ∧ i < n) ∧
        (j + 1 < count → m.count true = c) ∧ 1 ≤ m.count true ∧ m.count true ≤ c)) := by
  constructor
  · intro h
    unfold getMasks
    split
    · rw [if_neg (by tauto)]
    · rfl
  · rintro ⟨hc, hn⟩
    obtain ⟨c, rfl⟩ := Int.eq_ofNat_of_zero_le hc.le
    obtain ⟨n, rfl⟩ := Int.eq_ofNat_of_zero_le (hc.trans hn).le
    have hc' : 0 < c := by omega
    have hn' : 0 < n := by omega
    set r := (n - 1) / c + 1 with hr
    have hdm := Nat.div_add_mod (n - 1) c
    have hmod := Nat.mod_lt (n - 1) hc'
    have hcomm : c * ((n - 1) / c) = ((n - 1) / c) * c := by ring
    have e2 : r * c = ((n - 1) / c) * c + c := by rw [hr]; ring
    have e1 : (r - 1) * c = ((n - 1) / c) * c := by rw [hr, Nat.add_sub_cancel]
    have b1 : (r - 1) * c < n := by omega
    have b2 : n ≤ r * c := by omega
    have hloop := getMasksLoop_eq n c hc' hn' r 0 [] (by omega) (.inr (by omega))
    rw [List.nil_append] at hloop
    set masks := (List.range r).map fun j => blockMask n (0 + j * c) (min (0 + j * c + c) n) with hm
    have hget : ∀ (j : ℕ) (m : Mask), masks[j]? = some m → j < r ∧ m = blockMask n (j * c) (min (j * c + c) n) := by
      intro j m hj
      rw [hm, List.getElem?_map] at hj
      by_cases hjr : j < r
      · rw [List.getElem?_range hjr] at hj
        simp only [Option.map_some, Option.some.injEq, Nat.zero_add] at hj
        exact ⟨hjr, hj.symm⟩
      · rw [List.getElem?_eq_none (by simpa using hjr)] at hj
        simp at hj
    have hhas : ∀ (j : ℕ) (m : Mask), masks[j]? = some m →
        ∀ i, m.Has i ↔ j * c ≤ i ∧ i < (j + 1) * c ∧ i < n := by
      intro j m hj i
      rw [(hget j m hj).2, blockMask_has]
      have : (j + 1) * c = j * c + c := by ring
      rw [this, Nat.lt_min]
      tauto
    have hmono : ∀ a b : ℕ, a ≤ b → a * c ≤ b * c := fun a b hab => Nat.mul_le_mul_right c hab
    refine ⟨n, c, r, masks, rfl, rfl, ?_, by simp [hm], b1, b2, ⟨?_, ?_, ?_⟩, ?_⟩
    · unfold getMasks
      rw [dif_pos hc, if_pos hn]
      simp only [Int.toNat_natCast]
      rw [hloop]
    · intro m hmem
      obtain ⟨j, -, rfl⟩ := List.mem_map.mp hmem
      simp [blockMask]
    · rw [List.pairwise_iff_getElem]
      intro a b ha hb hab i ⟨h1, h2⟩
      rw [hhas a _ (List.getElem?_eq_getElem ha)] at h1
      rw [hhas b _ (List.getElem?_eq_getElem hb)] at h2
      have := hmono (a + 1) b hab
      omega
    · intro i
      have hfull : Mask.Has (List.replicate n true) i ↔ i < n := by
        unfold Mask.Has
        rw [List.getElem?_replicate]
        split <;> simp_all
      rw [hfull]
      constructor
      · intro hi
        have hd := Nat.div_add_mod i c
        have hm' := Nat.mod_lt i hc'
        have hcm : c * (i / c) = (i / c) * c := by ring
        have hs : (i / c + 1) * c = (i / c) * c + c := by ring
        have hjr : i / c < r := by
          by_contra hge
          have := hmono r (i / c) (by omega)
          omega
        have hlen : i / c < masks.length := by simpa [hm] using hjr
        refine ⟨masks[i / c], List.getElem_mem hlen, ?_⟩
        rw [hhas _ _ (List.getElem?_eq_getElem hlen)]
        omega
      · rintro ⟨m, hmem, hmi⟩
        have := Mask.has_lt hmi
        obtain ⟨j, -, rfl⟩ := List.mem_map.mp hmem
        simpa [blockMask] using this
    · intro j m hj
      refine ⟨hhas j m hj, ?_⟩
      obtain ⟨hjr, rfl⟩ := hget j m hj
      have hjm := hmono j (r - 1) (by omega)
      have hcount := blockMask_num n (j * c) (min (j * c + c) n) (by omega) (by omega)
      rw [hcount]
      refine ⟨?_, by omega, by omega⟩
      intro hlast
      have h1 := hmono (j + 1) (r - 1) (by omega)
      have h2 : (j + 1) * c = j * c + c := by ring
      omega

example : (0 : ℤ) < 3 ∧ (3 : ℤ) < 7 := by decide

end LRVB
