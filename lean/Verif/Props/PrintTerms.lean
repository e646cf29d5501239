import Verif.Model.PrintTerms
import Verif.Props.TaylorTerms

/-!
# C170: what `print_terms` prints
-/

namespace LRVB

/-! ### Texts that determine what was printed -/

theorem natStr_digits {n : ℕ} {c : Char} (h : c ∈ natStr n) : c.isDigit = true :=
  Nat.isDigit_of_mem_toDigits (by decide) (by decide) h

theorem natStr_inj {a b : ℕ} (h : natStr a = natStr b) : a = b := by
  rw [← Nat.ofDigitChars_toDigits (n := a) (b := 10) (by decide) (by decide),
    ← Nat.ofDigitChars_toDigits (n := b) (b := 10) (by decide) (by decide)]
  exact congrArg (fun l => Nat.ofDigitChars 10 l 0) h

/-- A text up to the first separator. -/
theorem split_sep {c : Char} : ∀ {a a' r r' : List Char}, c ∉ a → c ∉ a' →
    a ++ c :: r = a' ++ c :: r' → a = a' ∧ r = r'
  | [], [], r, r', _, _, h => by simpa using h
  | [], x :: a', r, r', _, h', h => by
    simp only [List.nil_append, List.cons_append, List.cons.injEq] at h
    exact absurd (by simp [h.1]) h'
  | x :: a, [], r, r', h', _, h => by
    simp only [List.nil_append, List.cons_append, List.cons.injEq] at h
    exact absurd (by simp [h.1]) h'
  | x :: a, y :: a', r, r', h1, h2, h => by
    simp only [List.cons_append, List.cons.injEq] at h
    obtain ⟨e1, e2⟩ := split_sep (fun hc => h1 (by simp [hc])) (fun hc => h2 (by simp [hc])) h.2
    exact ⟨by rw [h.1, e1], e2⟩

theorem natStr_ne_nil (n : ℕ) : natStr n ≠ [] := Nat.toDigits_ne_nil

theorem comma_natStr (n : ℕ) : ',' ∉ natStr n := fun h => by
  have := natStr_digits h
  exact absurd this (by decide)

theorem natStr_append_comma {a b : ℕ} {r r' : List Char}
    (h : natStr a ++ (',' :: r) = natStr b ++ (',' :: r')) : a = b ∧ r = r' := by
  obtain ⟨h1, h2⟩ := split_sep (comma_natStr a) (comma_natStr b) h
  exact ⟨natStr_inj h1, h2⟩

theorem intercalate_natStr_inj : ∀ {l l' : List ℕ},
    [',', ' '].intercalate (l.map natStr) = [',', ' '].intercalate (l'.map natStr) → l = l'
  | [], [], _ => rfl
  | [], [b], h => absurd h.symm (by simpa [List.intercalate] using natStr_ne_nil b)
  | [], b :: c :: l', h => absurd h.symm (by simp [List.intercalate, natStr_ne_nil b])
  | [a], [], h => absurd h (by simpa [List.intercalate] using natStr_ne_nil a)
  | a :: c :: l, [], h => absurd h (by simp [List.intercalate, natStr_ne_nil a])
  | [a], [b], h => by
    have : natStr a = natStr b := by simpa [List.intercalate] using h
    rw [natStr_inj this]
  | [a], b :: c :: l', h => by
    exfalso
    have h' : natStr a = natStr b ++ ',' :: ' ' :: [',', ' '].intercalate ((c :: l').map natStr) := by
      simpa [List.intercalate] using h
    exact comma_natStr a (by rw [h']; simp)
  | a :: c :: l, [b], h => by
    exfalso
    have h' : natStr a ++ ',' :: ' ' :: [',', ' '].intercalate ((c :: l).map natStr) = natStr b := by
      simpa [List.intercalate] using h
    exact comma_natStr b (by rw [← h']; simp)
  | a :: c :: l, b :: d :: l', h => by
    have h' : natStr a ++ ',' :: ' ' :: [',', ' '].intercalate ((c :: l).map natStr) =
        natStr b ++ ',' :: ' ' :: [',', ' '].intercalate ((d :: l').map natStr) := by
      simpa [List.intercalate] using h
    obtain ⟨h1, h2⟩ := natStr_append_comma h'
    rw [h1, intercalate_natStr_inj (List.cons.inj h2).2]

theorem bracket_intercalate : ∀ (l : List ℕ), ']' ∉ [',', ' '].intercalate (l.map natStr)
  | [] => by simp [List.intercalate]
  | [a] => by
    simp only [List.map_cons, List.map_nil, List.intercalate, List.intersperse, List.flatten_cons,
      List.flatten_nil, List.append_nil]
    intro h
    exact absurd (natStr_digits h) (by decide)
  | a :: c :: l => by
    intro h
    have h' : ']' ∈ natStr a ++ ',' :: ' ' :: [',', ' '].intercalate ((c :: l).map natStr) := by
      simpa [List.intercalate] using h
    rcases List.mem_append.1 h' with h' | h'
    · exact absurd (natStr_digits h') (by decide)
    · simp only [List.mem_cons] at h'
      rcases h' with h' | h' | h'
      · exact absurd h' (by decide)
      · exact absurd h' (by decide)
      · exact bracket_intercalate (c :: l) h'

theorem natListStr_append {l l' : List ℕ} {r r' : List Char}
    (h : natListStr l ++ r = natListStr l' ++ r') : l = l' ∧ r = r' := by
  unfold natListStr at h
  simp only [List.cons_append, List.append_assoc, List.cons.injEq, true_and, List.nil_append] at h
  obtain ⟨h1, h2⟩ := split_sep (bracket_intercalate l) (bracket_intercalate l') h
  exact ⟨intercalate_natStr_inj h1, h2⟩

/-- **C170** The text of a term determines its order, its constant and its derivatives, if different
constants (out of a set `V` of floats) are printed differently and without blanks. -/
theorem C170_text_determines (fmt : ℝ → List Char) (V : Set ℝ) (hinj : Set.InjOn fmt V)
    (hsp : ∀ a ∈ V, ' ' ∉ fmt a) (S T : DTerm) (hS : S.prefactor ∈ V) (hT : T.prefactor ∈ V)
    (h : S.str fmt = T.str fmt) :
    S.epsOrder = T.epsOrder ∧ S.etaOrders = T.etaOrders ∧ S.prefactor = T.prefactor ∧
      S.order = T.order := by
  unfold DTerm.str at h
  simp only [List.append_assoc, List.append_cancel_left_eq] at h
  have htab : ∀ n, '\t' ∉ natStr n := fun n hc => absurd (natStr_digits hc) (by decide)
  obtain ⟨h1, h2⟩ := split_sep (htab _) (htab _) h
  obtain ⟨h3, h4⟩ := split_sep (c := ' ') (hsp _ hS) (hsp _ hT) h2
  have h5 : natListStr S.etaOrders ++ (" * eps[".toList ++ (natStr S.epsOrder ++ [']'])) =
      natListStr T.etaOrders ++ (" * eps[".toList ++ (natStr T.epsOrder ++ [']'])) := by
    simpa using h4
  obtain ⟨h6, h7⟩ := natListStr_append h5
  have h8 := List.append_cancel_right (List.append_cancel_left h7)
  exact ⟨natStr_inj h8, h6, hinj hS hT h3, natStr_inj h1⟩

/-! ### What is printed -/

theorem printLoop_none (fmt : ℝ → List Char) (L : List (List DTerm)) :
    ∀ ks : List ℕ, (∀ k ∈ ks, k < L.length) → printLoop fmt L none ks =
      .ok (ks.flatMap fun k => termsHeader (k + 1) :: (L.getD k []).map (DTerm.str fmt))
  | [], _ => rfl
  | k :: ks, h => by
    have hk : L[k]? = some (L.getD k []) := by
      rw [List.getD_eq_getElem?_getD, List.getElem?_eq_getElem (h k (by simp))]; rfl
    rw [printLoop, if_pos (Or.inl rfl), getIdx, hk]
    simp only [py_ok_bind]
    rw [printLoop_none fmt L ks fun j hj => h j (by simp [hj])]
    rfl

theorem printLoop_some (fmt : ℝ → List Char) (L : List (List DTerm)) (j : ℤ) :
    ∀ ks : List ℕ, (∀ k ∈ ks, k < L.length) → printLoop fmt L (some j) ks =
      .ok ((ks.filter fun k : ℕ => decide ((k : ℤ) + 1 = j)).flatMap fun k =>
        termsHeader (k + 1) :: (L.getD k []).map (DTerm.str fmt))
  | [], _ => rfl
  | k :: ks, h => by
    have hk : L[k]? = some (L.getD k []) := by
      rw [List.getD_eq_getElem?_getD, List.getElem?_eq_getElem (h k (by simp))]; rfl
    have ih := printLoop_some fmt L j ks fun j hj => h j (by simp [hj])
    by_cases hj : (k : ℤ) + 1 = j
    · rw [printLoop, if_pos (Or.inr (by rw [hj])), getIdx, hk]
      simp only [py_ok_bind]
      rw [ih, List.filter_cons_of_pos (by simpa using hj)]
      rfl
    · rw [printLoop, if_neg (by simp; omega), ih, List.filter_cons_of_neg (by simpa using hj)]

/-- **C170** After `set_order(order)`, whatever the objective: `print_terms(k)` raises `ValueError`
for `k` above the order and prints nothing for `k` below one.  Otherwise it prints a heading and one
line for each term that the derivative of order `k` evaluates, all of them of order `k`; without
argument it does so for all orders in turn. -/
theorem C170_print_terms (fmt : ℝ → List Char) (T : Taylor) (order : ℕ) (horder : 1 ≤ order) :
    (∀ j : ℤ, order < j → (T.setOrder order).1.printTerms fmt (some j) = .error .valueError) ∧
    (∀ j : ℤ, j ≤ 0 → (T.setOrder order).1.printTerms fmt (some j) = .ok []) ∧
    ∃ terms : ℕ → List DTerm,
      (∀ k, 1 ≤ k → k ≤ order →
        (T.setOrder order).1.dkList[k - 1]? = some (dkinputFromTerms (terms k)) ∧
        (∀ t ∈ terms k, t.order = k) ∧
        (T.setOrder order).1.printTerms fmt (some (k : ℤ)) =
          .ok (termsHeader k :: (terms k).map (DTerm.str fmt))) ∧
      (T.setOrder order).1.printTerms fmt none =
        .ok ((List.range order).flatMap fun k =>
          termsHeader (k + 1) :: (terms (k + 1)).map (DTerm.str fmt)) := by
  obtain ⟨h0, h1, h2, h3, h4⟩ := C52_set_order T order horder
  have hdk : (T.setOrder order).1.dkList = (T.setOrder order).1.termsList.map dkinputFromTerms := by
    unfold Taylor.setOrder at h0 ⊢
    simp only at h0 ⊢
    split at h0
    · simp at h0
    · rfl
  generalize hT : (T.setOrder order).1 = T' at *
  have hlt : ∀ k ∈ List.range order, k < T'.termsList.length := by
    intro k hk; rw [h2]; exact List.mem_range.1 hk
  have hsome : ∀ j : ℤ, j ≤ order → T'.printTerms fmt (some j) =
      .ok (((List.range order).filter fun k : ℕ => decide ((k : ℤ) + 1 = j)).flatMap fun k =>
        termsHeader (k + 1) :: (T'.termsList.getD k []).map (DTerm.str fmt)) := by
    intro j hj
    unfold Taylor.printTerms
    rw [if_neg (by rintro ⟨i, hi, hlt⟩; cases hi; omega), h1, printLoop_some fmt _ j _ hlt]
  refine ⟨?_, ?_, fun k => T'.termsList.getD (k - 1) [], ?_, ?_⟩
  · intro j hj
    unfold Taylor.printTerms
    rw [if_pos ⟨j, rfl, by omega⟩]
  · intro j hj
    rw [hsome j (by omega), List.filter_eq_nil_iff.2 (by intro k _; simp; omega)]
    rfl
  · intro k hk1 hk2
    have hget : T'.termsList[k - 1]? = some (T'.termsList.getD (k - 1) []) := by
      rw [List.getD_eq_getElem?_getD, List.getElem?_eq_getElem (by omega)]; rfl
    refine ⟨by rw [hdk, List.getElem?_map, hget]; rfl, ?_, ?_⟩
    · intro t ht
      have := (h4 (k - 1) _ hget t ht).1
      rw [DTerm.order, totalOrder_eq]
      simp only [mul_comm (_ + 1) _] at this
      omega
    · rw [hsome k (by omega)]
      have hf : (List.range order).filter (fun i : ℕ => decide ((i : ℤ) + 1 = k)) = [k - 1] := by
        have : ∀ i : ℕ, decide ((i : ℤ) + 1 = k) = (i == k - 1) := by
          intro i
          rw [Bool.eq_iff_iff]
          simp
          omega
        simp only [this]
        rw [List.filter_beq, List.count_eq_one_of_mem List.nodup_range (List.mem_range.2 (by omega))]
        rfl
      rw [hf, List.flatMap_singleton, show k - 1 + 1 = k by omega]
  · unfold Taylor.printTerms
    rw [if_neg (by simp), h1, printLoop_none fmt _ _ hlt]
    simp

/-! ### The constants -/

/-- The constant of the term is a positive integer. -/
def IntegerTerm (t : DTerm) : Prop := ∃ n : ℕ, 0 < n ∧ t.prefactor = n

theorem getIdx_mem {α : Type} {l : List α} {i : ℕ} {a : α} (h : getIdx l i = .ok a) : a ∈ l := by
  unfold getIdx at h
  split at h
  · next b hb => cases h; exact List.mem_of_getElem? hb
  · cases h

theorem IntegerTerm.combine {S T U : DTerm} (hS : IntegerTerm S) (hT : IntegerTerm T)
    (h : S.combineWith T = .ok U) : IntegerTerm U := by
  unfold DTerm.combineWith at h
  split_ifs at h
  obtain ⟨a, ha, ea⟩ := hS
  obtain ⟨b, hb, eb⟩ := hT
  refine ⟨a + b, by omega, ?_⟩
  rw [(DTerm.new_ok h).2.2.1, ea, eb]
  push_cast
  rfl

theorem consolidateScan_integer {ts : List DTerm} (hts : ∀ t ∈ ts, IntegerTerm t) :
    ∀ (fuel : ℕ) {m : DTerm} {un : List ℕ} {pos : ℕ} {r : DTerm × List ℕ}, un.length - pos ≤ fuel →
      IntegerTerm m → consolidateScan ts m un pos = .ok r → IntegerTerm r.1 := by
  intro fuel
  induction fuel with
  | zero =>
    intro m un pos r hf hm h
    rw [consolidateScan, dif_neg (by omega)] at h
    cases h; exact hm
  | succ fuel ih =>
    intro m un pos r hf hm h
    rw [consolidateScan] at h
    split_ifs at h with hp
    · obtain ⟨t, ht, h⟩ := py_bind_ok h
      split_ifs at h with he
      · obtain ⟨m', hm', h⟩ := py_bind_ok h
        exact ih (by rw [List.length_eraseIdx, if_pos hp]; omega)
          (hm.combine (hts t (getIdx_mem ht)) hm') h
      · exact ih (by omega) hm h
    · cases h; exact hm

theorem consolidateLoop_integer {ts : List DTerm} (hts : ∀ t ∈ ts, IntegerTerm t) :
    ∀ (fuel : ℕ) {un : List ℕ} {out : List DTerm}, consolidateLoop ts fuel un = .ok out →
      ∀ t ∈ out, IntegerTerm t := by
  intro fuel
  induction fuel with
  | zero =>
    intro un out h
    cases un with
    | nil => cases h; simp
    | cons _ _ => cases h
  | succ fuel ih =>
    intro un out h
    cases un with
    | nil => cases h; simp
    | cons i un =>
      rw [consolidateLoop] at h
      obtain ⟨t, ht, h⟩ := py_bind_ok h
      obtain ⟨r, hr, h⟩ := py_bind_ok h
      obtain ⟨more, hm, h⟩ := py_bind_ok h
      cases h
      intro u hu
      rcases List.mem_cons.1 hu with rfl | hu
      · exact consolidateScan_integer hts _ le_rfl (hts t (getIdx_mem ht)) hr
      · exact ih hm u hu

theorem differentiate_integer {T : DTerm} {next : EtaFun} {ds : List DTerm} (hT : IntegerTerm T)
    (h : T.differentiate next = .ok ds) : ∀ t ∈ ds, IntegerTerm t := by
  unfold DTerm.differentiate at h
  simp only at h
  obtain ⟨t1, h1, h⟩ := py_bind_ok h
  obtain ⟨t2, h2, h⟩ := py_bind_ok h
  obtain ⟨rest, hr, h⟩ := py_bind_ok h
  cases h
  intro t ht
  simp only [List.mem_cons] at ht
  rcases ht with rfl | rfl | ht
  · obtain ⟨n, hn, e⟩ := hT
    exact ⟨n, hn, by rw [(DTerm.new_ok h1).2.2.1, e]⟩
  · obtain ⟨n, hn, e⟩ := hT
    exact ⟨n, hn, by rw [(DTerm.new_ok h2).2.2.1, e]⟩
  · obtain ⟨i, hi, hti⟩ := mapM_mem hr t ht
    obtain ⟨n, hn, e⟩ := hT
    have hpos := (List.mem_filter.1 hi).2
    refine ⟨n * T.etaOrders.getD i 0, Nat.mul_pos hn (by simpa using hpos), ?_⟩
    rw [(DTerm.new_ok hti).2.2.1, e]
    push_cast
    rfl

theorem taylorTerms_integer : ∀ (j : ℕ) {ts : List DTerm} {L : List (List DTerm)},
    (∀ t ∈ ts, IntegerTerm t) → taylorTerms ts j = .ok L → ∀ l ∈ L, ∀ t ∈ l, IntegerTerm t
  | 0, ts, L, hts, h => by
    cases h
    intro l hl
    rw [List.mem_singleton.1 hl]
    exact hts
  | j + 1, ts, L, hts, h => by
    rw [taylorTerms] at h
    obtain ⟨next, hn, h⟩ := py_bind_ok h
    obtain ⟨more, hm, h⟩ := py_bind_ok h
    cases h
    intro l hl
    rcases List.mem_cons.1 hl with rfl | hl
    · exact hts
    · refine taylorTerms_integer j ?_ hm l hl
      unfold differentiateTerms at hn
      obtain ⟨ds, hd, hn⟩ := py_bind_ok hn
      refine consolidateLoop_integer ?_ _ hn
      intro t ht
      obtain ⟨d, hd', ht⟩ := List.mem_flatten.1 ht
      obtain ⟨T, hT, hTd⟩ := mapM_mem hd d hd'
      exact differentiate_integer (hts T hT) hTd t ht

/-- **C170** The constants in front of the terms are positive integers, for every objective and
every order. -/
theorem C170_integer_constants (T : Taylor) (order : ℕ) (horder : 1 ≤ order) :
    ∀ ts ∈ (T.setOrder order).1.termsList, ∀ t ∈ ts, ∃ n : ℕ, 0 < n ∧ t.prefactor = n := by
  have h0 := (C52_set_order T order horder).1
  unfold Taylor.setOrder at h0 ⊢
  simp only at h0 ⊢
  split at h0
  · simp at h0
  · next ts h =>
    simp only
    obtain ⟨G, _, h⟩ := py_bind_ok h
    obtain ⟨base, hb, h⟩ := py_bind_ok h
    refine taylorTerms_integer _ ?_ h
    unfold getTaylorBaseTerms at hb
    obtain ⟨a, ha, hb⟩ := py_bind_ok hb
    obtain ⟨b, hb', hb⟩ := py_bind_ok hb
    cases hb
    intro t ht
    simp only [List.mem_cons, List.not_mem_nil, or_false] at ht
    rcases ht with rfl | rfl
    · exact ⟨1, one_pos, by rw [(DTerm.new_ok ha).2.2.1]; simp⟩
    · exact ⟨1, one_pos, by rw [(DTerm.new_ok hb').2.2.1]; simp⟩

/-- Integer constants printed in decimal digits meet the hypotheses; a term of order three. -/
example : Set.InjOn (fun x : ℝ => natStr ⌊x⌋₊) (Set.range (Nat.cast : ℕ → ℝ)) ∧
    (∀ a ∈ Set.range (Nat.cast : ℕ → ℝ), ' ' ∉ natStr ⌊a⌋₊) ∧ totalOrder 2 [1, 0, 0] = 3 ∧
    natListStr [1, 0, 12] = "[1, 0, 12]".toList := by
  refine ⟨?_, ?_, by decide, by decide⟩
  · rintro _ ⟨a, rfl⟩ _ ⟨b, rfl⟩ h
    simp only [Nat.floor_natCast] at h
    rw [natStr_inj h]
  · intro a _ h
    exact absurd (natStr_digits h) (by decide)

end LRVB
