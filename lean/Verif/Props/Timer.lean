import Verif.Model.Timer
import Mathlib.Order.Monotone.Basic
import Mathlib.Data.List.Induction
import Mathlib.Tactic.Linarith

/-!
# C142: the timer
-/

namespace LRVB

open Timer

/-! ### Specification -/

/-- Call `i` is the last `tic` before call `n`. -/
def LastTic (calls : List Call) (n i : ℕ) : Prop :=
  i < n ∧ calls[i]? = some .tic ∧ ∀ k, i < k → k < n → calls[k]? ≠ some .tic

/-- Call `i` is the last `toc(name)`. -/
def LastToc (calls : List Call) (name : String) (i : ℕ) : Prop :=
  calls[i]? = some (.toc name) ∧ ∀ k, i < k → calls[k]? ≠ some (.toc name)

/-! ### Dictionaries -/

theorem lookup_dictSet (d : List (String × ℝ)) (name x : String) (v : ℝ) :
    (dictSet d name v).lookup x = if x = name then some v else d.lookup x := by
  induction d with
  | nil =>
    by_cases h : x = name
    · simp [dictSet, h]
    · have : (x == name) = false := by simpa using h
      simp [dictSet, List.lookup, h, this]
  | cons e es ih =>
    obtain ⟨k, w⟩ := e
    unfold dictSet
    by_cases hk : k = name
    · subst hk
      by_cases hx : x = k
      · simp [hx]
      · have : (x == k) = false := by simpa using hx
        simp [List.lookup, this, hx]
    · simp only [hk, if_false]
      by_cases hx : x = k
      · subst hx
        simp [hk]
      · have : (x == k) = false := by simpa using hx
        simp only [List.lookup, this, ih]

theorem keys_dictSet (d : List (String × ℝ)) (name : String) (v : ℝ) :
    (dictSet d name v).map Prod.fst =
      if name ∈ d.map Prod.fst then d.map Prod.fst else d.map Prod.fst ++ [name] := by
  induction d with
  | nil => simp [dictSet]
  | cons e es ih =>
    unfold dictSet
    by_cases hk : e.1 = name
    · simp [hk]
    · simp only [hk, if_false, List.map_cons, ih, List.mem_cons, Ne.symm hk, false_or]
      split <;> simp

/-! ### Histories -/

theorem history_concat (clock : ℕ → ℝ) (calls : List Call) (c : Call) :
    history clock (calls ++ [c]) =
      (((history clock calls).1.call (clock calls.length) c).1,
        (history clock calls).2 ++ [((history clock calls).1.call (clock calls.length) c).2]) := by
  simp [history, List.zipIdx_append]

theorem LastTic.lt_length {calls : List Call} {n i : ℕ} (h : LastTic calls n i) : i < calls.length :=
  (List.getElem?_eq_some_iff.mp h.2.1).1

theorem LastTic.unique {calls : List Call} {n i j : ℕ} (h : LastTic calls n i) (h' : LastTic calls n j) : i = j := by
  rcases lt_trichotomy i j with hij | hij | hij
  · exact absurd h'.2.1 (h.2.2 j hij h'.1)
  · exact hij
  · exact absurd h.2.1 (h'.2.2 i hij h.1)

theorem LastTic.concat {calls : List Call} {n i : ℕ} (c : Call) (hn : n ≤ calls.length) :
    LastTic (calls ++ [c]) n i ↔ LastTic calls n i := by
  unfold LastTic
  have e : ∀ k < n, (calls ++ [c])[k]? = calls[k]? := fun k hk => List.getElem?_append_left (by omega)
  constructor
  · rintro ⟨h1, h2, h3⟩
    exact ⟨h1, by rwa [e i h1] at h2, fun k hk hkn => by rw [← e k hkn]; exact h3 k hk hkn⟩
  · rintro ⟨h1, h2, h3⟩
    exact ⟨h1, by rwa [e i h1], fun k hk hkn => by rw [e k hkn]; exact h3 k hk hkn⟩

theorem ticTime_history (clock : ℕ → ℝ) (calls : List Call) (s : ℝ) :
    (history clock calls).1.ticTime = some s ↔ ∃ i, LastTic calls calls.length i ∧ s = clock i := by
  induction calls using List.reverseRecOn with
  | nil => simp [history, Timer.new, LastTic]
  | append_singleton calls c ih =>
    rw [history_concat]
    have hlast : (calls ++ [c])[calls.length]? = some c := by simp
    cases c with
    | tic =>
      simp only [call, Timer.tic]
      constructor
      · rintro ⟨⟩
        exact ⟨calls.length, ⟨by simp, hlast, fun k h1 h2 => by simp at h2; omega⟩, rfl⟩
      · rintro ⟨i, hi, rfl⟩
        have : i = calls.length := hi.unique ⟨by simp, hlast, fun k h1 h2 => by simp at h2; omega⟩
        rw [this]
    | toc name =>
      have e : ((history clock calls).1.call (clock calls.length) (.toc name)).1.ticTime =
          (history clock calls).1.ticTime := by
        simp only [call, Timer.toc]
        split <;> simp_all
      rw [e, ih]
      have key : ∀ i, LastTic (calls ++ [Call.toc name]) (calls ++ [Call.toc name]).length i ↔
          LastTic calls calls.length i := by
        intro i
        rw [← LastTic.concat (calls := calls) (n := calls.length) (.toc name) le_rfl]
        simp only [LastTic, List.length_append, List.length_singleton]
        constructor
        · rintro ⟨h1, h2, h3⟩
          refine ⟨?_, h2, fun k hk hkn => h3 k hk (by omega)⟩
          by_contra hc
          have : i = calls.length := by omega
          rw [this, hlast] at h2
          cases h2
        · rintro ⟨h1, h2, h3⟩
          refine ⟨by omega, h2, fun k hk hkn => ?_⟩
          by_cases hc : k = calls.length
          · rw [hc, hlast]; simp
          · exact h3 k hk (by omega)
      simp only [key]

/-- **C142** (recorded times) After any history of calls, whatever the clock does, a name has a recorded time exactly
if it was timed successfully, and the time is the reading of the clock at the last successful `toc` of that name minus
the reading at the last `tic` before it.  (A `toc` fails exactly if there was no `tic` before it, so that all `toc`s
after a successful one are successful.) -/
theorem C142_recorded (clock : ℕ → ℝ) (calls : List Call) (name : String) (d : ℝ) :
    (history clock calls).1.timeDict.lookup name = some d ↔
      ∃ i j, LastToc calls name i ∧ LastTic calls i j ∧ d = clock i - clock j := by
  induction calls using List.reverseRecOn generalizing d with
  | nil => simp [history, Timer.new, LastToc]
  | append_singleton calls c ih =>
    rw [history_concat]
    have hlast : (calls ++ [c])[calls.length]? = some c := by simp
    -- calls other than `toc(name)` do not matter
    have other : c ≠ .toc name →
        ((∃ i j, LastToc (calls ++ [c]) name i ∧ LastTic (calls ++ [c]) i j ∧ d = clock i - clock j) ↔
          ∃ i j, LastToc calls name i ∧ LastTic calls i j ∧ d = clock i - clock j) := by
      intro hc
      have key : ∀ i, LastToc (calls ++ [c]) name i ↔ LastToc calls name i := by
        intro i
        have e : ∀ k : ℕ, (calls ++ [c])[k]? = some (Call.toc name) ↔ calls[k]? = some (Call.toc name) := by
          intro k
          rcases lt_trichotomy k calls.length with h | h | h
          · rw [List.getElem?_append_left h]
          · rw [h, hlast]; simp [hc]
          · rw [List.getElem?_eq_none (by simp; omega), List.getElem?_eq_none (by omega)]
        simp only [LastToc, ne_eq, e]
      constructor
      · rintro ⟨i, j, h1, h2, h3⟩
        have h1 := (key i).mp h1
        exact ⟨i, j, h1, (LastTic.concat c (List.getElem?_eq_some_iff.mp h1.1).1.le).mp h2, h3⟩
      · rintro ⟨i, j, h1, h2, h3⟩
        exact ⟨i, j, (key i).mpr h1, (LastTic.concat c (List.getElem?_eq_some_iff.mp h1.1).1.le).mpr h2, h3⟩
    cases c with
    | tic =>
      rw [other (by simp)]
      exact ih d
    | toc x =>
      by_cases hx : x = name
      · subst hx
        have uniq : ∀ i, LastToc (calls ++ [.toc x]) x i ↔ i = calls.length := by
          intro i
          constructor
          · rintro ⟨h1, h2⟩
            by_contra hne
            rcases lt_or_gt_of_ne hne with h | h
            · exact h2 _ h hlast
            · rw [List.getElem?_eq_none (by simp; omega)] at h1; cases h1
          · rintro rfl
            exact ⟨hlast, fun k hk => by rw [List.getElem?_eq_none (by simp; omega)]; simp⟩
        have tics := ticTime_history clock calls
        simp only [call, Timer.toc]
        cases ht : (history clock calls).1.ticTime with
        | none =>
          -- no `tic` before: nothing was recorded before either
          have no : ∀ i ≤ calls.length, ∀ j, ¬ LastTic calls i j := by
            intro i hi j hj
            obtain ⟨m, hm1, hm2⟩ : ∃ m, m < calls.length ∧ LastTic calls calls.length m := by
              have : ∃ m, m < calls.length ∧ calls[m]? = some .tic := ⟨j, hj.lt_length, hj.2.1⟩
              obtain ⟨m, hm⟩ : ∃ m, (m < calls.length ∧ calls[m]? = some .tic) ∧
                  ∀ k, m < k → ¬ (k < calls.length ∧ calls[k]? = some .tic) := by
                by_contra hcon
                push Not at hcon
                have : ∀ n, ∃ m, n ≤ m ∧ m < calls.length ∧ calls[m]? = some .tic := by
                  intro n
                  induction n with
                  | zero => exact ⟨j, by omega, hj.lt_length, hj.2.1⟩
                  | succ n ihn =>
                    obtain ⟨m, h1, h2⟩ := ihn
                    obtain ⟨k, h3, h4⟩ := hcon m h2
                    exact ⟨k, by omega, h4⟩
                obtain ⟨m, h1, h2, _⟩ := this calls.length
                omega
              exact ⟨m, hm.1.1, hm.1.1, hm.1.2, fun k hk hkn hc => hm.2 k hk ⟨hkn, hc⟩⟩
            have := (tics (clock m)).mpr ⟨m, hm2, rfl⟩
            rw [ht] at this
            cases this
          constructor
          · intro h
            obtain ⟨i, j, h1, h2, _⟩ := (ih d).mp h
            exact absurd h2 (no i (List.getElem?_eq_some_iff.mp h1.1).1.le j)
          · rintro ⟨i, j, h1, h2, _⟩
            rw [(uniq i).mp h1, LastTic.concat _ le_rfl] at h2
            exact absurd h2 (no _ le_rfl j)
        | some s =>
          obtain ⟨j, hj, rfl⟩ := (tics s).mp ht
          simp only [lookup_dictSet, if_true]
          constructor
          · rintro ⟨⟩
            exact ⟨calls.length, j, (uniq _).mpr rfl, (LastTic.concat _ le_rfl).mpr hj, rfl⟩
          · rintro ⟨i, j', h1, h2, rfl⟩
            obtain rfl := (uniq i).mp h1
            rw [LastTic.concat _ le_rfl] at h2
            rw [h2.unique hj]
      · rw [other (by simpa using hx), ← ih d]
        simp only [call, Timer.toc]
        cases (history clock calls).1.ticTime with
        | none => rfl
        | some s => simp only [lookup_dictSet, if_neg (Ne.symm hx)]

/-- **C142** (failures) `tic` never raises, and a `toc` raises exactly if no `tic` came before it; a call that raises
changes nothing. -/
theorem C142_failures (clock : ℕ → ℝ) (calls : List Call) (i : ℕ) (c : Call) (hc : calls[i]? = some c) :
    ((history clock calls).2[i]? = some (.error .attributeError) ∨ (history clock calls).2[i]? = some (.ok ())) ∧
    ((history clock calls).2[i]? = some (.error .attributeError) ↔ c ≠ .tic ∧ ∀ j, ¬ LastTic calls i j) ∧
    ((history clock calls).2[i]? = some (.error .attributeError) →
      (history clock (calls.take (i + 1))).1 = (history clock (calls.take i)).1) := by
  have hlen : ∀ calls : List Call, (history clock calls).2.length = calls.length := by
    intro calls
    induction calls using List.reverseRecOn with
    | nil => rfl
    | append_singleton calls c ih => rw [history_concat]; simp [ih]
  have hi : i < calls.length := (List.getElem?_eq_some_iff.mp hc).1
  -- the outcome of call `i` is that of the last call of the prefix
  have pre : ∀ n, i < n → n ≤ calls.length →
      (history clock (calls.take n)).2[i]? = some ((history clock (calls.take i)).1.call (clock i) c).2 := by
    intro n
    induction n with
    | zero => intro h; omega
    | succ n ih =>
      intro h1 h2
      have ht : calls.take (n + 1) = calls.take n ++ [calls[n]] := by
        rw [List.take_append_getElem]
      rw [ht, history_concat]
      have hl : (history clock (calls.take n)).2.length = n := by rw [hlen]; simp; omega
      by_cases hin : i < n
      · rw [List.getElem?_append_left (by rw [hl]; exact hin)]
        exact ih hin (by omega)
      · have : i = n := by omega
        subst this
        rw [List.getElem?_append_right (by rw [hl]), hl]
        have : calls[i] = c := by
          have := List.getElem?_eq_some_iff.mp hc
          exact this.2
        simp [this, List.length_take, Nat.min_eq_left hi.le]
  have e := pre calls.length hi le_rfl
  rw [List.take_length] at e
  rw [e]
  have ht : calls.take (i + 1) = calls.take i ++ [c] := by
    rw [← (List.getElem?_eq_some_iff.mp hc).2, List.take_append_getElem]
  have hli : (calls.take i).length = i := by simp; omega
  have tics := ticTime_history clock (calls.take i)
  rw [hli] at tics
  have ltake : ∀ j, LastTic (calls.take i) i j ↔ LastTic calls i j := by
    intro j
    have e : ∀ k < i, (calls.take i)[k]? = calls[k]? := fun k hk => by simp [hk]
    unfold LastTic
    constructor
    · rintro ⟨h1, h2, h3⟩
      exact ⟨h1, by rwa [e j h1] at h2, fun k hk hkn => by rw [← e k hkn]; exact h3 k hk hkn⟩
    · rintro ⟨h1, h2, h3⟩
      exact ⟨h1, by rwa [e j h1], fun k hk hkn => by rw [e k hkn]; exact h3 k hk hkn⟩
  cases c with
  | tic =>
    simp only [call]
    simp
  | toc name =>
    rw [ht, history_concat, hli]
    simp only [call, Timer.toc]
    cases htt : (history clock (calls.take i)).1.ticTime with
    | none =>
      refine ⟨.inl rfl, ⟨fun _ => ⟨by simp, fun j hj => ?_⟩, fun _ => rfl⟩, fun _ => rfl⟩
      have := (tics (clock j)).mpr ⟨j, (ltake j).mpr hj, rfl⟩
      rw [htt] at this
      cases this
    | some s =>
      obtain ⟨j, hj, _⟩ := (tics s).mp htt
      refine ⟨.inr rfl, ⟨fun h => by simp at h, fun h => absurd ((ltake j).mp hj) (h.2 j)⟩, fun h => by simp at h⟩

/-- **C142** (names) The names are listed without repetitions, in the order of their first successful `toc`. -/
theorem C142_names (clock : ℕ → ℝ) (calls : List Call) :
    ((history clock calls).1.timeDict.map Prod.fst).Nodup ∧
    ∀ c, (history clock calls).1.timeDict.map Prod.fst <+:
      (history clock (calls ++ [c])).1.timeDict.map Prod.fst := by
  constructor
  · induction calls using List.reverseRecOn with
    | nil => simp [history, Timer.new]
    | append_singleton calls c ih =>
      rw [history_concat]
      cases c with
      | tic => exact ih
      | toc name =>
        simp only [call, Timer.toc]
        split
        · exact ih
        · simp only [keys_dictSet]
          split
          · exact ih
          · rename_i h
            exact List.nodup_append.mpr ⟨ih, by simp, by
              rintro a ha b hb rfl
              simp at hb
              exact h (hb ▸ ha)⟩
  · intro c
    rw [history_concat]
    cases c with
    | tic => exact List.prefix_rfl
    | toc name =>
      simp only [call, Timer.toc]
      split
      · exact List.prefix_rfl
      · simp only [keys_dictSet]
        split
        · exact List.prefix_rfl
        · exact List.prefix_append _ _

/-- **C142** (sign) When the clock is not set back, no recorded time is negative. -/
theorem C142_nonneg (clock : ℕ → ℝ) (hm : Monotone clock) (calls : List Call) (name : String) (d : ℝ)
    (h : (history clock calls).1.timeDict.lookup name = some d) : 0 ≤ d := by
  obtain ⟨i, j, _, h2, rfl⟩ := (C142_recorded clock calls name d).mp h
  linarith [hm h2.1.le]

/-- When it is set back between `tic` and `toc`, the recorded time is negative. -/
example : (history (fun i => if i = 0 then 5 else 2) [.tic, .toc "fit"]).1.timeDict.lookup "fit" = some (-3 : ℝ) := by
  simp [history, call, Timer.tic, Timer.toc, Timer.new, dictSet]
  norm_num

/-- A failed `toc`, two names with the same start, and a name timed again. -/
example :
    let calls : List Call := [.toc "a", .tic, .toc "a", .toc "b", .tic, .toc "a"]
    let h := history (fun i => (i : ℝ) ^ 2) calls
    h.1.timeDict.lookup "a" = some 9 ∧ h.1.timeDict.lookup "b" = some 8 ∧
      h.2[0]? = some (.error .attributeError) ∧ h.1.timeDict.map Prod.fst = ["a", "b"] := by
  simp [history, call, Timer.tic, Timer.toc, Timer.new, dictSet, List.zipIdx]
  norm_num [List.lookup, show ("b" == "a") = false from rfl]

end LRVB
