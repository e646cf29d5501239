import Verif.Model.ThreadsDeriv
import Verif.Props.Threads

/-!
# Derivative calls in threads: C165
-/

namespace LRVB

open Classical

noncomputable section

/-! ### One thread -/

mutual
theorem Param.leaves_mark (b : Bool) : ∀ p : Param, (p.mark b).leaves = p.leaves.map fun l => { l with boxed := b }
  | .leaf l => by simp [Param.mark, Param.leaves]
  | .dict h es => by simpa [Param.mark, Param.leaves] using Entries.leaves_mark b es
theorem Entries.leaves_mark (b : Bool) : ∀ es : Entries,
    (es.mark b).leaves = es.leaves.map fun l => { l with boxed := b }
  | .nil => by simp [Entries.mark, Entries.leaves]
  | .cons k p rest => by
    simp only [Entries.mark, Entries.leaves, List.map_append]
    rw [Param.leaves_mark b p, Entries.leaves_mark b rest]
end

mutual
theorem Param.length_leaves_blank : ∀ p : Param, p.blank.leaves.length = p.leaves.length
  | .leaf l => by simp [Param.blank, Param.leaves]
  | .dict h es => by simpa [Param.blank, Param.leaves] using Entries.length_leaves_blank es
theorem Entries.length_leaves_blank : ∀ es : Entries, es.blank.leaves.length = es.leaves.length
  | .nil => by simp [Entries.blank, Entries.leaves]
  | .cons k p rest => by
    simp only [Entries.blank, Entries.leaves, List.length_append]
    rw [Param.length_leaves_blank p, Entries.length_leaves_blank rest]
end

mutual
theorem Param.setSteps_blank (free : Bool) : ∀ (p : Param) (x : List ℝ) (i : ℕ),
    p.blank.setSteps free x i = p.setSteps free x i
  | .leaf l, x, i => by simp [Param.blank, Param.setSteps]
  | .dict h es, x, i => by
    simp only [Param.blank, Param.setSteps]
    rw [Entries.setSteps_blank free es]
theorem Entries.setSteps_blank (free : Bool) : ∀ (es : Entries) (x : List ℝ) (off i : ℕ),
    Entries.setSteps free es.blank x off i = Entries.setSteps free es x off i
  | .nil, x, off, i => by simp [Entries.blank, Entries.setSteps]
  | .cons k p rest, x, off, i => by
    simp only [Entries.blank, Entries.setSteps, Param.freeSize_blank, Param.vecSize_blank]
    rw [Param.setSteps_blank free p, Entries.setSteps_blank free rest, Param.length_leaves_blank p]
end

theorem Thread.alone_traceSets {free : Bool} {ls T : List Leaf} (hT : T.length = ls.length) (k : Thread) :
    ∀ (ms : List SetStep) (m : ℕ) (s : Shared), Plan free ls T none m ms →
    s.leaves = ((T.take m).map fun l => { l with boxed := true }) ++ ls.drop m →
    (Thread.traceSets free ms k).alone s = k.alone { s with leaves := T.map fun l => { l with boxed := true } }
  | [], m, s, hp, hs => by
    obtain ⟨rfl, -⟩ := hp
    rw [List.drop_length, List.append_nil, ← hT, List.take_length] at hs
    rw [← hs]
    rfl
  | .raise e :: _, m, s, hp, hs => absurd hp.1 (by simp)
  | .call i x :: ms, m, s, hp, hs => by
    obtain ⟨rfl, l, hl, hp⟩ := hp
    have hi : i < ls.length := (List.getElem?_eq_some_iff.1 hl).1
    have hTi : ((T.take i).map fun l : Leaf => { l with boxed := true }).length = i := by
      rw [List.length_map, List.length_take]; omega
    have hget : s.leaves[i]? = some l := by
      rw [hs, List.getElem?_append_right (by omega), hTi, Nat.sub_self, List.getElem?_drop, Nat.add_zero, hl]
    have hc : s.compute free i x = setOutcome free l x := by simp only [Shared.compute, hget]; rfl
    cases h : setOutcome free l x with
    | error e =>
      rw [h] at hp
      exact absurd hp.1 (by simp)
    | ok l' =>
      rw [h] at hp
      simp only [Thread.traceSets, Thread.alone, Shared.assignTraced, hc, h]
      rw [Thread.alone_traceSets hT k ms (i + 1) { s with leaves := s.leaves.set i { l' with boxed := true } } hp.2]
      simp only
      refine List.ext_getElem? fun j => ?_
      rw [List.getElem?_set, hs]
      have hTi' : ((T.take (i + 1)).map fun l : Leaf => { l with boxed := true }).length = i + 1 := by
        rw [List.length_map, List.length_take]; omega
      rcases Nat.lt_trichotomy i j with hj | rfl | hj
      · rw [if_neg (by omega), List.getElem?_append_right (by omega), List.getElem?_append_right (by omega), hTi, hTi',
          List.getElem?_drop, List.getElem?_drop]
        congr 1
        omega
      · rw [if_pos rfl, if_pos (by rw [List.length_append, List.length_drop]; omega),
          List.getElem?_append_left (by omega), List.getElem?_map, List.getElem?_take, if_pos (by omega), hp.1]
        rfl
      · rw [if_neg (by omega), List.getElem?_append_left (by omega), List.getElem?_append_left (by omega),
          List.getElem?_map, List.getElem?_map, List.getElem?_take, List.getElem?_take, if_pos (by omega),
          if_pos (by omega)]

/-- The user function computes the same from placeholders as from the numbers they stand for. -/
def Reader.Blind (fn : Reader) : Prop :=
  ∀ ls : List Leaf, fn.eval (ls.map fun l => { l with boxed := true }) = fn.eval (ls.map fun l => { l with boxed := false })

/-- A thread that runs alone does what a derivative method does, at every point at which the parameter can be
set. -/
theorem C165_alone (o : Objective Unit) (fn : Reader) (hfn : o.ReadBy fn) (hblind : fn.Blind) (free : Bool)
    (x : List ℝ) (hx : (setPar o.par x free).2 = none) (ag : (List ℝ → Py Arr) → Py Arr) (res : Arr → Py Arr)
    (hag : ag (valueAt (o.fn ()) o.par free) = valueAt (o.fn ()) o.par free x >>= res) :
    (Thread.derive o.par fn free x res).alone ⟨o.par.leaves, o.logger⟩ =
      (⟨(o.deriv free x () ag).1.par.leaves, (o.deriv free x () ag).1.logger⟩, (o.deriv free x () ag).2) := by
  have hlen : (setPar o.par x free).1.leaves.length = o.par.leaves.length := Param.leaves_length (setPar_blank _ _ _)
  have hplan := o.par.plan_all free x
  rw [hx] at hplan
  unfold Thread.derive
  rw [Thread.alone_traceSets hlen _ _ 0 _ hplan rfl, Thread.alone_user]
  have hb := setPar_blank o.par x free
  have hval : valueAt (o.fn ()) o.par free x =
      fn.eval ((setPar o.par x free).1.leaves.map fun l => { l with boxed := true }) := by
    unfold valueAt
    simp only [hx]
    rw [hblind, ← Param.leaves_mark, hfn]
    rw [Param.mark_blank]
    exact hb
  have htr : traceSet o.par x free = (setPar o.par x free).1.mark true := by
    unfold traceSet
    simp only [hx]
  simp only [Objective.deriv, hag, hval]
  cases hv : fn.eval ((setPar o.par x free).1.leaves.map fun l => { l with boxed := true }) with
  | error e =>
    simp only [Except.bind, bind, cacheAndEval, htr, Param.leaves_mark]
  | ok v =>
    rw [py_ok_bind]
    simp only
    cases hr : res v with
    | error e =>
      simp only [cacheAndEval, htr, Param.leaves_mark]
      rfl
    | ok d =>
      simp only [cacheAndEval, htr]
      have hb' : ((setPar o.par x free).1.mark true).blank = o.par.blank := by rw [Param.mark_blank]; exact hb
      have hset := setPar_eq hb'.symm hx
      have hlen' : (setPar o.par x free).1.leaves.length =
          ((setPar o.par x free).1.mark true).leaves.length := by
        rw [Param.leaves_mark, List.length_map]
      have hplan' := ((setPar o.par x free).1.mark true).plan_all free x
      rw [hset, hx] at hplan'
      have hsteps : o.par.setSteps free x 0 = ((setPar o.par x free).1.mark true).setSteps free x 0 := by
        rw [← Param.setSteps_blank, ← hb', Param.setSteps_blank]
      rw [hset, hx, hsteps, ← Param.leaves_mark, Thread.alone_sets hlen' _ _ 0 _ hplan' rfl]
      rfl

/-! ### Which thread will put numbers back -/

/-- The `j`-th parameter holds a placeholder. -/
def Shared.boxedAt (s : Shared) (j : ℕ) : Prop := ∃ l, s.leaves[j]? = some l ∧ l.boxed = true

/-- If this thread returns without raising, it sets the `j`-th parameter to a number before. -/
def Thread.Owes (j : ℕ) : Thread → Prop
  | .ret (.error _) => True
  | .ret (.ok _) => False
  | .step f k => ∀ s : Shared, (f s).boxedAt j → (k s).Owes j

/-- Whenever this thread makes a placeholder in one of the parameters `S`, it will put a number back. -/
def Thread.Tidy (S : ℕ → Prop) : Thread → Prop
  | .ret _ => True
  | .step f k => ∀ s : Shared, (∀ j, S j → (f s).boxedAt j → ¬ s.boxedAt j → (k s).Owes j) ∧ (k s).Tidy S

variable {S : ℕ → Prop}

theorem compute_plain {s : Shared} {free : Bool} {i : ℕ} {x : List ℝ} {l : Leaf}
    (h : s.compute free i x = .ok l) : l.boxed = false := by
  unfold Shared.compute at h
  split at h
  · cases h
  · rename_i l0 h0
    have h1 : (setPar (.leaf l0) x free).2 = none := by
      rw [setPar_leaf]
      have : setOutcome free l0 x = .ok l := h
      rw [this]
    have h2 := setPar_plain (.leaf l0) x free h1
    rw [setPar_leaf] at h2
    have : setOutcome free l0 x = .ok l := h
    rw [this] at h2
    exact h2

theorem boxedAt_assign {s : Shared} {free : Bool} {i : ℕ} {x : List ℝ} {j : ℕ}
    (h : (s.assign free i x).boxedAt j) : s.boxedAt j ∧ (j = i → ∃ e, s.compute free i x = .error e) := by
  unfold Shared.assign at h
  cases hc : s.compute free i x with
  | error e =>
    rw [hc] at h
    exact ⟨h, fun _ => ⟨e, rfl⟩⟩
  | ok l =>
    rw [hc] at h
    obtain ⟨l', h1, h2⟩ := h
    simp only [List.getElem?_set] at h1
    split_ifs at h1 with h3 h4
    · cases h1
      rw [compute_plain hc] at h2
      cases h2
    · exact ⟨⟨l', h1, h2⟩, fun he => absurd he.symm h3⟩

theorem owes_sets {j : ℕ} {free : Bool} {k : Thread} : ∀ ms : List SetStep,
    (k.Owes j ∨ ∃ x, .call j x ∈ ms) → (Thread.sets free ms k).Owes j
  | [], h => by
    rcases h with h | ⟨x, h⟩
    · exact h
    · cases h
  | .raise e :: _, _ => trivial
  | .call i x :: ms, h => by
    intro s hb
    cases hc : s.compute free i x with
    | error e =>
      simp only [hc]
      trivial
    | ok l =>
      simp only [hc]
      refine owes_sets ms ?_
      rcases h with h | ⟨y, h⟩
      · exact .inl h
      · rcases List.mem_cons.1 h with h | h
        · cases h
          obtain ⟨e, he⟩ := (boxedAt_assign hb).2 rfl
          rw [hc] at he
          cases he
        · exact .inr ⟨y, h⟩

theorem owes_traceSets {j : ℕ} {free : Bool} {k : Thread} (h : k.Owes j) : ∀ ms : List SetStep,
    (Thread.traceSets free ms k).Owes j
  | [] => h
  | .raise e :: _ => trivial
  | .call i x :: ms => by
    intro s hb
    cases hc : s.compute free i x with
    | error e =>
      simp only [hc]
      trivial
    | ok l =>
      simp only [hc]
      exact owes_traceSets h ms

theorem owes_user {j : ℕ} {k : Arr → Thread} (h : ∀ v, (k v).Owes j) : ∀ r : Reader, (Thread.user r k).Owes j
  | .ret (.error e) => trivial
  | .ret (.ok v) => h v
  | .read i r => by
    rw [Thread.user]
    intro s hb
    cases hl : s.leaves[i]? with
    | none =>
      simp only [hl]
      trivial
    | some l =>
      simp only [hl]
      exact owes_user h (r l)

theorem tidy_sets {free : Bool} {k : Thread} (h : k.Tidy S) : ∀ ms : List SetStep, (Thread.sets free ms k).Tidy S
  | [] => h
  | .raise e :: _ => trivial
  | .call i x :: ms => by
    intro s
    refine ⟨fun j _ hb hn => absurd (boxedAt_assign hb).1 hn, ?_⟩
    cases hc : s.compute free i x with
    | error e =>
      simp only [hc]
      trivial
    | ok l =>
      simp only [hc]
      exact tidy_sets h ms

theorem tidy_traceSets {free : Bool} {k : Thread} (h : k.Tidy S) : ∀ ms : List SetStep,
    (∀ j x, S j → .call j x ∈ ms → k.Owes j) → (Thread.traceSets free ms k).Tidy S
  | [], _ => h
  | .raise e :: _, _ => trivial
  | .call i x :: ms, ho => by
    intro s
    cases hc : s.compute free i x with
    | error e =>
      simp only [hc]
      exact ⟨fun j _ hb hn => trivial, trivial⟩
    | ok l =>
      simp only [hc]
      refine ⟨fun j hS hb hn => ?_, tidy_traceSets h ms fun j y hS hy => ho j y hS (by simp [hy])⟩
      by_cases hj : j = i
      · subst hj
        exact owes_traceSets (ho j x hS (by simp)) ms
      · exfalso
        refine hn ?_
        obtain ⟨l', h1, h2⟩ := hb
        simp only [Shared.assignTraced, hc, List.getElem?_set] at h1
        rw [if_neg (Ne.symm hj)] at h1
        exact ⟨l', h1, h2⟩

theorem tidy_user {k : Arr → Thread} (h : ∀ v, (k v).Tidy S) : ∀ r : Reader, (Thread.user r k).Tidy S
  | .ret (.error e) => trivial
  | .ret (.ok v) => h v
  | .read i r => by
    rw [Thread.user]
    intro s
    refine ⟨fun j _ hb hn => absurd hb hn, ?_⟩
    cases hl : s.leaves[i]? with
    | none =>
      simp only [hl]
      trivial
    | some l =>
      simp only [hl]
      exact tidy_user h (r l)

theorem tidy_logStep {f : Logger Arr → Logger Arr} {k : Thread} (h : k.Tidy S) : (Thread.logStep f k).Tidy S :=
  fun _ => ⟨fun _ _ hb hn => absurd hb hn, h⟩

theorem tidy_logRead {k : Logger Arr → Thread} (h : ∀ l, (k l).Tidy S) : (Thread.logRead k).Tidy S :=
  fun _ => ⟨fun _ _ hb hn => absurd hb hn, h _⟩

theorem tidy_log (v : Arr) (x : List ℝ) : (Thread.log v x).Tidy S := by
  have hend : (Thread.logEnd v x).Tidy S := by
    refine tidy_logStep (tidy_logStep (tidy_logRead fun l => ?_))
    split
    · trivial
    · simp only
      split
      · exact tidy_logStep (tidy_logRead fun l => tidy_logStep trivial)
      · exact tidy_logRead fun l => tidy_logStep trivial
  refine tidy_logStep (tidy_logStep (tidy_logStep (tidy_logStep (tidy_logRead fun l => ?_))))
  split
  · exact hend
  · refine tidy_logRead fun l1 => tidy_logRead fun l2 => ?_
    split
    · split
      · exact hend
      · trivial
    · trivial

theorem tidy_call (par : Param) (c : ThreadCall) : (c.thread par).Tidy S := by
  cases c with
  | value fn free x verbose =>
    refine tidy_sets (tidy_user (fun v => ?_) fn) _
    split
    · exact tidy_log v x
    · trivial
  | deriv fn free x res =>
    refine tidy_traceSets (tidy_user (fun v => ?_) fn) _ fun j y _ hy => owes_user (fun v => ?_) fn
    · split
      · trivial
      · exact tidy_sets (k := .ret (.ok _)) trivial _
    · split
      · trivial
      · exact owes_sets _ (.inr ⟨y, hy⟩)

/-- Every thread is tidy, and for every placeholder in `S` some thread will put a number back. -/
structure Threads.Accounted (S : ℕ → Prop) (c : Threads) : Prop where
  tidy : ∀ t ∈ c.threads, t.Tidy S
  owed : ∀ j, S j → c.shared.boxedAt j → ∃ t ∈ c.threads, t.Owes j

theorem Threads.Accounted.step {c : Threads} (h : c.Accounted S) (i : ℕ) : (c.step i).Accounted S := by
  unfold Threads.step
  cases hi : c.threads[i]? with
  | none => exact h
  | some t =>
    have hmem : t ∈ c.threads := List.mem_of_getElem? hi
    have hlt : i < c.threads.length := (List.getElem?_eq_some_iff.1 hi).1
    cases t with
    | ret r =>
      have : c.threads.set i (.ret r) = c.threads := by
        refine List.ext_getElem? fun j => ?_
        by_cases h1 : i = j
        · rw [← h1, hi, List.getElem?_set_self hlt]
        · rw [List.getElem?_set_ne h1]
      simp only [Thread.next, this]
      exact h
    | step f k =>
      simp only [Thread.next]
      obtain ⟨h1, h2⟩ := h.tidy _ hmem c.shared
      have hset : ∀ t' ∈ c.threads, t' ≠ .step f k → t' ∈ c.threads.set i (k c.shared) := by
        intro t' ht' hne
        obtain ⟨n, hn, rfl⟩ := List.getElem_of_mem ht'
        have hni : i ≠ n := by
          rintro rfl
          rw [List.getElem?_eq_getElem hn] at hi
          exact hne (Option.some.inj hi)
        refine List.mem_of_getElem? (i := n) ?_
        rw [List.getElem?_set_ne hni, List.getElem?_eq_getElem hn]
      refine ⟨fun t' ht' => ?_, fun j hS hb => ?_⟩
      · rcases List.mem_or_eq_of_mem_set ht' with h3 | rfl
        · exact h.tidy t' h3
        · exact h2
      · have hnew : k c.shared ∈ c.threads.set i (k c.shared) := List.mem_set hlt _
        by_cases hs : c.shared.boxedAt j
        · obtain ⟨t', ht', ho⟩ := h.owed j hS hs
          by_cases he : t' = .step f k
          · subst he
            exact ⟨_, hnew, ho c.shared hb⟩
          · exact ⟨t', hset t' ht' he, ho⟩
        · exact ⟨_, hnew, h1 j hS hb hs⟩

/-- Tidy threads leave numbers in the parameters `S` when all of them have returned without raising. -/
theorem numbers_of_tidy (c : Threads) (hpar : ∀ (j : ℕ) (l : Leaf), S j → c.shared.leaves[j]? = some l → l.boxed = false)
    (ht : ∀ t ∈ c.threads, t.Tidy S) (schedule : List ℕ)
    (hdone : ∀ t ∈ (c.run schedule).threads, ∃ v, t = .ret (.ok v)) :
    ∀ (j : ℕ) (l : Leaf), S j → (c.run schedule).shared.leaves[j]? = some l → l.boxed = false := by
  have hrun : ∀ (schedule : List ℕ) (c : Threads), c.Accounted S → (c.run schedule).Accounted S := by
    intro schedule
    induction schedule with
    | nil => exact fun c h => h
    | cons i s ih => exact fun c h => ih _ (h.step i)
  have h := hrun schedule c ⟨ht, fun j hS hb => by
    obtain ⟨l, h1, h2⟩ := hb
    rw [hpar j l hS h1] at h2
    cases h2⟩
  intro j l hS hl
  by_contra hb
  obtain ⟨t, ht, ho⟩ := h.owed j hS ⟨_, hl, by simpa using hb⟩
  obtain ⟨v, rfl⟩ := hdone t ht
  exact ho

/-- **C165** Any number of threads call the value and derivative methods of one objective, at any points, with any
user functions.  Whatever the schedule: when all calls have returned without raising, the parameter holds
numbers only. -/
theorem C165_numbers (par : Param) (logger : Logger Arr) (hpar : ∀ l ∈ par.leaves, l.boxed = false)
    (calls : List ThreadCall) (schedule : List ℕ) (c : Threads)
    (hc : c = Threads.run ⟨⟨par.leaves, logger⟩, calls.map (ThreadCall.thread par)⟩ schedule)
    (hdone : ∀ t ∈ c.threads, ∃ v, t = .ret (.ok v)) :
    ∀ l ∈ c.shared.leaves, l.boxed = false := by
  have h := numbers_of_tidy (S := fun _ => True) ⟨⟨par.leaves, logger⟩, calls.map (ThreadCall.thread par)⟩
    (fun j l _ hl => hpar l (List.mem_of_getElem? hl))
    (fun t ht => by
      obtain ⟨cl, -, rfl⟩ := List.mem_map.1 ht
      exact tidy_call par cl) schedule (hc ▸ hdone)
  intro l hl
  obtain ⟨n, hn, rfl⟩ := List.getElem_of_mem hl
  exact h n _ trivial (by rw [← hc]; exact List.getElem?_eq_getElem hn)

/-- A function that reads both parameters of the example dictionary and says how many placeholders it has seen. -/
def countBoxes : Reader :=
  .read 0 fun a => .read 1 fun b =>
    .ret (.ok (Arr.scalar ((if a.boxed then 1 else 0) + (if b.boxed then 1 else 0))))

theorem exSteps (a b c : ℝ) : exDict.setSteps true [a, b, c] 0 = [.call 0 [a], .call 1 [b, c]] := by
  simp [exDict, exSub, Param.emptyDict, Param.push, Param.setSteps, Entries.setSteps, Entries.assign, Param.freeSize,
    Leaf.freeSize, exScalar, exVector, Kind.freeSize, Param.name, Leaf.slice, Param.leaves]

theorem exScalar_set (v : Arr) (b : Bool) (a : ℝ) : Leaf.setFree ⟨exScalar.name, exScalar.kind, v, b⟩ [a] =
    .ok { exScalar with val := freeVal exScalar.kind [a] } := by
  have h1 := setOutcome_forget (l := ⟨exScalar.name, exScalar.kind, v, b⟩) (l' := exScalar) rfl true [a]
  have h2 : exScalar.setFree [a] = _ := Leaf.setFree_ok exScalar (by simp [exScalar, Kind.Legal]) [a] rfl
  exact h1.trans h2

theorem exVector_set (v : Arr) (b : Bool) (x y : ℝ) : Leaf.setFree ⟨exVector.name, exVector.kind, v, b⟩ [x, y] =
    .ok { exVector with val := freeVal exVector.kind [x, y] } := by
  have h1 := setOutcome_forget (l := ⟨exVector.name, exVector.kind, v, b⟩) (l' := exVector) rfl true [x, y]
  have h2 : exVector.setFree [x, y] = _ := Leaf.setFree_ok exVector (by simp [exVector, Kind.Legal]) [x, y] rfl
  exact h1.trans h2

/-- **C165** (what is not claimed) While a derivative call is under way in another thread, `fun_free` can see
placeholders instead of the numbers it has just set. -/
theorem C165_placeholder_seen : ∃ schedule : List ℕ,
    (Threads.run ⟨⟨exDict.leaves, Logger.new 1⟩, [ThreadCall.deriv countBoxes true [1, 2, 3] .ok,
      ThreadCall.value countBoxes true [4, 5, 6] false].map (ThreadCall.thread exDict)⟩ schedule).threads[1]? =
      some (.ret (.ok (Arr.scalar 2))) := by
  have hl : exDict.leaves = [exScalar, exVector] := rfl
  have k0 := exScalar_set exScalar.val exScalar.boxed
  have k1 := exVector_set exVector.val exVector.boxed
  refine ⟨[1, 1, 0, 0, 1, 1], ?_⟩
  simp only [List.map_cons, List.map_nil, ThreadCall.thread, Thread.evaluate, Thread.derive, exSteps, hl]
  simp [Threads.run, Threads.step, Thread.next, Thread.sets, Thread.traceSets, Shared.assign, Shared.assignTraced,
    Shared.compute, k0, k1, exScalar_set, exVector_set, Thread.user, countBoxes]
  norm_num

/-- The hypotheses of `C165_numbers` hold for a value and a derivative call whose steps alternate. -/
example : (∀ l ∈ exDict.leaves, l.boxed = false) ∧
    ∀ t ∈ (Threads.run ⟨⟨exDict.leaves, Logger.new 1⟩, [ThreadCall.deriv addBoth true [1, 2, 3] .ok,
      ThreadCall.value addBoth true [4, 5, 6] false].map (ThreadCall.thread exDict)⟩
      [0, 1, 0, 1, 0, 1, 0, 1, 0, 0]).threads, ∃ v, t = .ret (.ok v) := by
  have hl : exDict.leaves = [exScalar, exVector] := rfl
  have k0 := exScalar_set exScalar.val exScalar.boxed
  have k1 := exVector_set exVector.val exVector.boxed
  refine ⟨by rw [hl]; simp [exScalar, exVector], ?_⟩
  simp only [List.map_cons, List.map_nil, ThreadCall.thread, Thread.evaluate, Thread.derive, exSteps, hl]
  simp [Threads.run, Threads.step, Thread.next, Thread.sets, Thread.traceSets, Shared.assign, Shared.assignTraced,
    Shared.compute, k0, k1, exScalar_set, exVector_set, Thread.user, addBoth]

/-- The hypotheses of `C165_alone` hold for the gradient of the sum of the example dictionary. -/
example : exSum.ReadBy addBoth ∧ addBoth.Blind ∧ (setPar exSum.par [1, 2, 3] true).2 = none ∧
    (fun F : List ℝ → Py Arr => F [1, 2, 3] >>= Except.ok) (valueAt (exSum.fn ()) exSum.par true) =
      valueAt (exSum.fn ()) exSum.par true [1, 2, 3] >>= Except.ok := by
  refine ⟨exSum_readBy, fun ls => ?_, ?_, rfl⟩
  · simp only [addBoth, Reader.eval, List.getElem?_map]
    cases ls[0]? <;> cases ls[1]? <;> rfl
  · show (setPar exDict [1, 2, 3] true).2 = none
    obtain ⟨eigh, he⟩ := exists_eigh
    simp only [setPar, if_true]
    rw [exDict.setFree_ok ((exDict_built eigh).wf he) _ (by rw [exDict_freeSize]; rfl)]

end

end LRVB
