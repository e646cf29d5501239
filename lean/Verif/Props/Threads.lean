import Verif.Lemmas.Threads

/-!
# Threads: C140, C141
-/

namespace LRVB

open Classical

noncomputable section

/-! ### User functions as readers -/

mutual
theorem Param.ext_leaves : ∀ p q : Param, p.blank = q.blank → p.leaves = q.leaves → p = q
  | .leaf l, .leaf l', _, h => by
    simp only [Param.leaves, List.cons.injEq, and_true] at h
    rw [h]
  | .leaf _, .dict _ _, h, _ => by simp [Param.blank] at h
  | .dict _ _, .leaf _, h, _ => by simp [Param.blank] at h
  | .dict _ es, .dict _ es', h, h' => by
    simp only [Param.blank, Param.dict.injEq] at h
    rw [h.1, Entries.ext_leaves es es' h.2 h']
theorem Entries.ext_leaves : ∀ p q : Entries, p.blank = q.blank → p.leaves = q.leaves → p = q
  | .nil, .nil, _, _ => rfl
  | .nil, .cons _ _ _, h, _ => by simp [Entries.blank] at h
  | .cons _ _ _, .nil, h, _ => by simp [Entries.blank] at h
  | .cons k p es, .cons k' p' es', h, h' => by
    simp only [Entries.blank, Entries.cons.injEq] at h
    simp only [Entries.leaves] at h'
    obtain ⟨h1, h2⟩ := List.append_inj h' (Param.leaves_length h.2.1)
    rw [h.1, Param.ext_leaves p p' h.2.1 h1, Entries.ext_leaves es es' h.2.2 h2]
end

/-- The reader computes the objective function. -/
def Objective.ReadBy (o : Objective Unit) (fn : Reader) : Prop :=
  ∀ p : Param, p.blank = o.par.blank → o.fn () p = fn.eval p.leaves

/-- Read the parameters from the `n`-th last one on. -/
def readAll (f : List Leaf → Py Arr) (len : ℕ) : ℕ → List Leaf → Reader
  | 0, ls => .ret (f ls)
  | n + 1, ls => .read (len - (n + 1)) fun l => readAll f len n (ls ++ [l])

theorem readAll_eval (f : List Leaf → Py Arr) (ls : List Leaf) : ∀ n ≤ ls.length,
    (readAll f ls.length n (ls.take (ls.length - n))).eval ls = f ls
  | 0, _ => by simp [readAll, Reader.eval]
  | n + 1, hn => by
    have hlt : ls.length - (n + 1) < ls.length := by omega
    simp only [readAll, Reader.eval, List.getElem?_eq_getElem hlt]
    have := readAll_eval f ls n (by omega)
    rw [show ls.length - n = ls.length - (n + 1) + 1 by omega, List.take_succ_eq_append_getElem hlt] at this
    exact this

/-- Every objective function can be seen as a reader. -/
theorem Objective.exists_readBy (o : Objective Unit) : ∃ fn, o.ReadBy fn := by
  let f : List Leaf → Py Arr := fun ls =>
    if h : ∃ p : Param, p.blank = o.par.blank ∧ p.leaves = ls then o.fn () h.choose else .error .valueError
  refine ⟨readAll f o.par.leaves.length o.par.leaves.length [], fun p hp => ?_⟩
  have hlen := Param.leaves_length hp
  have h1 := readAll_eval f p.leaves p.leaves.length le_rfl
  rw [Nat.sub_self, List.take_zero, hlen] at h1
  rw [h1]
  have hex : ∃ q : Param, q.blank = o.par.blank ∧ q.leaves = p.leaves := ⟨p, hp, rfl⟩
  simp only [f, dif_pos hex]
  rw [Param.ext_leaves _ p (hex.choose_spec.1.trans hp.symm) hex.choose_spec.2]

/-! ### One thread -/

/-- A thread that runs alone does what `fun_free` does. -/
theorem C140_alone (o : Objective Unit) (fn : Reader) (hfn : o.ReadBy fn) (x : List ℝ) (verbose : Bool) :
    (Thread.evaluate o.par fn true x verbose).alone ⟨o.par.leaves, o.logger⟩ =
      (⟨(o.funFree x () verbose).1.par.leaves, (o.funFree x () verbose).1.logger⟩, (o.funFree x () verbose).2) := by
  have hlen : (setPar o.par x true).1.leaves.length = o.par.leaves.length := Param.leaves_length (setPar_blank _ _ _)
  unfold Thread.evaluate
  rw [Thread.alone_sets hlen _ _ 0 _ (o.par.plan_all true x) rfl]
  have hr : setPar o.par x true = o.par.setFree x := rfl
  have hplain := setPar_plain o.par x true
  have hb := setPar_blank o.par x true
  rw [hr] at hplain hb ⊢
  unfold Objective.funFree
  cases hs : (o.par.setFree x).2 with
  | some e => simp only [hs]
  | none =>
    simp only [hs]
    rw [Thread.alone_user, Param.mark_plain _ (hplain hs)]
    rw [hfn _ hb]
    cases hv : fn.eval (o.par.setFree x).1.leaves with
    | error e => simp only
    | ok v =>
      simp only
      cases verbose with
      | false => rfl
      | true =>
        simp only [if_true]
        rw [Thread.alone_log]
        rfl

/-! ### All calls can be completed -/

theorem Threads.run_append (a b : List ℕ) (c : Threads) : c.run (a ++ b) = (c.run a).run b := by
  simp [Threads.run, List.foldl_append]

theorem Threads.complete_one (i : ℕ) : ∀ (t : Thread) (c : Threads), c.threads[i]? = some t →
    ∃ n r, (c.run (List.replicate n i)).threads = c.threads.set i (.ret r)
  | .ret r, c, h => ⟨0, r, (List.ext_getElem? fun j => by
      show c.threads[j]? = _
      rw [List.getElem?_set]
      split_ifs with h1 h2
      · rw [← h1, h]
      · rw [← h1, List.getElem?_eq_none (by omega)]
      · rfl)⟩
  | .step f k, c, h => by
    have hi := (List.getElem?_eq_some_iff.1 h).1
    have hstep : c.step i = ⟨f c.shared, c.threads.set i (k c.shared)⟩ := by
      unfold Threads.step
      rw [h]
      rfl
    obtain ⟨n, r, hn⟩ := Threads.complete_one i (k c.shared) (c.step i) (by rw [hstep]; simp [hi])
    refine ⟨n + 1, r, ?_⟩
    show ((c.step i).run (List.replicate n i)).threads = _
    rw [hn, hstep]
    simp

/-- **C140** No schedule blocks: the calls that have not returned can still be completed. -/
theorem C140_can_finish (c : Threads) : ∃ schedule, ∀ t ∈ (c.run schedule).threads, ∃ r, t = .ret r := by
  have key : ∀ n ≤ c.threads.length, ∃ schedule, (c.run schedule).threads.length = c.threads.length ∧
      ∀ i < n, ∃ r, (c.run schedule).threads[i]? = some (.ret r) := by
    intro n
    induction n with
    | zero => exact fun _ => ⟨[], rfl, fun i hi => absurd hi (by omega)⟩
    | succ n ih =>
      intro hn
      obtain ⟨schedule, hl, h⟩ := ih (by omega)
      obtain ⟨m, r, hr⟩ := Threads.complete_one n _ (c.run schedule) (List.getElem?_eq_getElem (by omega : n < _))
      refine ⟨schedule ++ List.replicate m n, ?_, fun i hi => ?_⟩
      · rw [Threads.run_append, hr]
        simpa using hl
      · rw [Threads.run_append, hr, List.getElem?_set]
        split_ifs with h1 h2
        · exact ⟨r, rfl⟩
        · exact absurd (by omega : n < (c.run schedule).threads.length) h2
        · exact h i (by omega)
  obtain ⟨schedule, hl, h⟩ := key _ le_rfl
  refine ⟨schedule, fun t ht => ?_⟩
  obtain ⟨i, hi⟩ := List.mem_iff_getElem?.1 ht
  obtain ⟨r, hr⟩ := h i (by rw [← hl]; exact (List.getElem?_eq_some_iff.1 hi).1)
  rw [hr, Option.some.injEq] at hi
  exact ⟨r, hi.symm⟩

/-! ### C140 -/

/-- What all threads may rely on when all of them evaluate at the same point: `T` are the parameters at this point. -/
structure Keeps (ls T : List Leaf) (x : List ℝ) (V : Prop) (a b : Shared) : Prop where
  sig : a.leaves.map Leaf.sig = ls.map Leaf.sig → b.leaves.map Leaf.sig = ls.map Leaf.sig
  done : ∀ m : ℕ, (∀ j < m, a.leaves[j]? = T[j]?) → ∀ j < m, b.leaves[j]? = T[j]?
  print : V → a.logger.printEvery ≠ 0 → b.logger.printEvery ≠ 0
  last : V → (∀ lx, a.logger.lastX = some lx → Logger.diffOk x lx) → ∀ lx, b.logger.lastX = some lx → Logger.diffOk x lx
  isSet : V → a.logger.lastX ≠ none → b.logger.lastX ≠ none
  current : V → a.logger.x = some x → b.logger.x = some x

/-- What a thread knows: the first `m` parameters have their values, `self.x` is set, `self.last_x` is set. -/
structure Knows (ls T : List Leaf) (x : List ℝ) (V : Prop) (m : ℕ) (hx hl : Prop) (s : Shared) : Prop where
  sig : s.leaves.map Leaf.sig = ls.map Leaf.sig
  done : ∀ j < m, s.leaves[j]? = T[j]?
  print : V → s.logger.printEvery ≠ 0
  last : V → ∀ lx, s.logger.lastX = some lx → Logger.diffOk x lx
  current : V → hx → s.logger.x = some x
  isSet : V → hl → s.logger.lastX ≠ none

section

variable {ls T : List Leaf} {x : List ℝ} {V : Prop}

theorem Knows.stable (m : ℕ) (hx hl : Prop) : Stable (Keeps ls T x V) (Knows ls T x V m hx hl) :=
  fun _ _ hg hk => ⟨hg.sig hk.sig, hg.done m hk.done, fun v => hg.print v (hk.print v), fun v => hg.last v (hk.last v),
    fun v h => hg.current v (hk.current v h), fun v h => hg.isSet v (hk.isSet v h)⟩

theorem Keeps.refl (a : Shared) : Keeps ls T x V a a :=
  ⟨id, fun _ => id, fun _ => id, fun _ => id, fun _ => id, fun _ => id⟩

theorem sig_getElem? {a b : List Leaf} (h : a.map Leaf.sig = b.map Leaf.sig) (i : ℕ) :
    (a[i]?).map Leaf.sig = (b[i]?).map Leaf.sig := by
  rw [← List.getElem?_map, h, List.getElem?_map]

theorem obeys_sets {free : Bool} {res : Option PyErr} {Post : Shared → Py Arr → Prop} {k : Thread}
    (hlen : T.length = ls.length)
    (hk : res = none → k.Obeys (Keeps ls T x V) Post (Knows ls T x V ls.length False False))
    (he : ∀ e s, res = some e → Post s (.error e)) :
    ∀ (ms : List SetStep) (m : ℕ), Plan free ls T res m ms →
      (Thread.sets free ms k).Obeys (Keeps ls T x V) Post (Knows ls T x V m False False)
  | [], m, hp => by
    obtain ⟨rfl, hr⟩ := hp
    exact hk hr
  | .raise e :: _, m, hp => fun s _ => he e s hp.1
  | .call i y :: ms, m, hp => by
    obtain ⟨rfl, l, hl, hp⟩ := hp
    intro s hs
    obtain ⟨l0, hl0, hsig⟩ : ∃ l0, s.leaves[i]? = some l0 ∧ l0.sig = l.sig := by
      have := sig_getElem? hs.sig i
      rw [hl, Option.map_some, Option.map_eq_some_iff] at this
      obtain ⟨a, b, c⟩ := this
      exact ⟨a, b, c⟩
    have hc : s.compute free i y = setOutcome free l y := by
      rw [← setOutcome_forget hsig]
      simp only [Shared.compute, hl0]
      rfl
    have hi : i < s.leaves.length := (List.getElem?_eq_some_iff.1 hl0).1
    simp only [Shared.assign, hc]
    cases h : setOutcome free l y with
    | error e =>
      rw [h] at hp
      exact ⟨.refl s, _, Knows.stable i False False, hs, fun s' _ => he e s' hp.1⟩
    | ok l' =>
      rw [h] at hp
      have hset : ∀ a : Shared, a.leaves.map Leaf.sig = ls.map Leaf.sig →
          (a.leaves.set i l').map Leaf.sig = ls.map Leaf.sig := by
        intro a ha
        rw [List.map_set, ha, setOutcome_sig h]
        refine List.ext_getElem? fun j => ?_
        rw [List.getElem?_set]
        split_ifs with h1 h2
        · subst h1
          rw [List.getElem?_map, hl]
          rfl
        · subst h1
          rw [List.getElem?_eq_none (by simpa using h2)]
        · rfl
      have hdone : ∀ m' : ℕ, (∀ j < m', s.leaves[j]? = T[j]?) → ∀ j < m', (s.leaves.set i l')[j]? = T[j]? := by
        intro m' hm j hj
        rw [List.getElem?_set]
        split_ifs with h1
        · rw [← h1, hp.1]
        · exact hm j hj
      refine ⟨⟨hset s, hdone, fun _ => id, fun _ => id, fun _ => id, fun _ => id⟩, _, Knows.stable (i + 1) False False,
        ⟨hset s hs.sig, fun j hj => ?_, hs.print, hs.last, hs.current, hs.isSet⟩, obeys_sets hlen hk he ms (i + 1) hp.2⟩
      rcases Nat.lt_succ_iff_lt_or_eq.1 hj with hj | rfl
      · exact hdone i hs.done j hj
      · show (s.leaves.set j l')[j]? = T[j]?
        rw [List.getElem?_set, if_pos rfl, if_pos hi, hp.1]

theorem knows_all (hlen : T.length = ls.length) {hx hl : Prop} {s : Shared} (h : Knows ls T x V ls.length hx hl s) :
    s.leaves = T := by
  have h1 : s.leaves.length = ls.length := by simpa using congrArg List.length h.sig
  refine List.ext_getElem? fun j => ?_
  rcases Nat.lt_or_ge j ls.length with hj | hj
  · exact h.done j hj
  · rw [List.getElem?_eq_none (by omega), List.getElem?_eq_none (by omega)]

theorem obeys_user {Post : Shared → Py Arr → Prop} {k : Arr → Thread} (hlen : T.length = ls.length) :
    ∀ r : Reader, (∀ v, r.eval T = .ok v → (k v).Obeys (Keeps ls T x V) Post (Knows ls T x V ls.length False False)) →
    (∀ e s, r.eval T = .error e → Post s (.error e)) →
    (Thread.user r k).Obeys (Keeps ls T x V) Post (Knows ls T x V ls.length False False)
  | .ret (.error e), _, he => fun s _ => he e s rfl
  | .ret (.ok v), hk, _ => hk v rfl
  | .read i r, hk, he => by
    unfold Thread.user
    intro s hs
    refine ⟨.refl s, _, Knows.stable _ False False, hs, ?_⟩
    beta_reduce
    rw [knows_all hlen hs]
    simp only [Reader.eval] at hk he
    cases h : T[i]? with
    | none =>
      rw [h] at he
      exact fun s' _ => he _ s' rfl
    | some l =>
      rw [h] at hk he
      exact obeys_user hlen (r l) hk he

theorem obeys_log {Post : Shared → Py Arr → Prop} {v : Arr} (hv : V) (hx : x ≠ [])
    (hpost : ∀ s, Knows ls T x V ls.length True True s → Post s (.ok v)) :
    (Thread.log v x).Obeys (Keeps ls T x V) Post (Knows ls T x V ls.length False False) := by
  have hdx : Logger.diffOk x x := ⟨Or.inl rfl, hx, hx⟩
  have hend : (Thread.logEnd v x).Obeys (Keeps ls T x V) Post (Knows ls T x V ls.length True False) := by
    intro s hs
    refine ⟨⟨id, fun _ => id, fun _ => id, fun _ _ lx h => ?_, fun _ _ => by simp, fun _ => id⟩, _,
      Knows.stable _ True True, ⟨hs.sig, hs.done, hs.print, fun _ lx h => ?_, hs.current, fun _ _ => by simp⟩, ?_⟩
    · simp only [Option.some.injEq] at h
      exact h ▸ hdx
    · simp only [Option.some.injEq] at h
      exact h ▸ hdx
    intro s hs
    refine ⟨⟨id, fun _ => id, fun _ => id, fun _ => id, fun _ => id, fun _ => id⟩, _, Knows.stable _ True True,
      ⟨hs.sig, hs.done, hs.print, hs.last, hs.current, hs.isSet⟩, ?_⟩
    intro s hs
    refine ⟨.refl s, _, Knows.stable _ True True, hs, ?_⟩
    beta_reduce
    rw [if_neg (hs.print hv)]
    have hcount : (Thread.logRead fun l => Thread.logStep (fun l' => { l' with iter := l.iter + 1 }) (.ret (.ok v))).Obeys
        (Keeps ls T x V) Post (Knows ls T x V ls.length True True) := by
      intro s hs
      refine ⟨.refl s, _, Knows.stable _ True True, hs, ?_⟩
      intro s hs
      exact ⟨⟨id, fun _ => id, fun _ => id, fun _ => id, fun _ => id, fun _ => id⟩, _, Knows.stable _ True True,
        ⟨hs.sig, hs.done, hs.print, hs.last, hs.current, hs.isSet⟩, hpost⟩
    simp only
    split_ifs
    · intro s hs
      exact ⟨⟨id, fun _ => id, fun _ => id, fun _ => id, fun _ => id, fun _ => id⟩, _, Knows.stable _ True True,
        ⟨hs.sig, hs.done, hs.print, hs.last, hs.current, hs.isSet⟩, hcount⟩
    · exact hcount
  intro s hs
  refine ⟨⟨id, fun _ => id, fun _ => id, fun _ => id, fun _ => id, fun _ => id⟩, _, Knows.stable _ False False,
    ⟨hs.sig, hs.done, hs.print, hs.last, hs.current, hs.isSet⟩, ?_⟩
  intro s hs
  refine ⟨⟨id, fun _ => id, fun _ => id, fun _ => id, fun _ => id, fun _ _ => rfl⟩, _, Knows.stable _ True False,
    ⟨hs.sig, hs.done, hs.print, hs.last, fun _ _ => rfl, hs.isSet⟩, ?_⟩
  intro s hs
  refine ⟨⟨id, fun _ => id, fun _ => id, fun _ => id, fun _ => id, fun _ => id⟩, _, Knows.stable _ True False,
    ⟨hs.sig, hs.done, hs.print, hs.last, hs.current, hs.isSet⟩, ?_⟩
  intro s hs
  refine ⟨⟨id, fun _ => id, fun _ => id, fun _ => id, fun _ => id, fun _ => id⟩, _, Knows.stable _ True False,
    ⟨hs.sig, hs.done, hs.print, hs.last, hs.current, hs.isSet⟩, ?_⟩
  intro s hs
  by_cases h0 : s.logger.lastX = none
  · refine ⟨.refl s, _, Knows.stable _ True False, hs, ?_⟩
    beta_reduce
    rw [if_pos h0]
    exact hend
  · refine ⟨.refl s, _, Knows.stable _ True True, ⟨hs.sig, hs.done, hs.print, hs.last, hs.current, fun _ _ => h0⟩, ?_⟩
    beta_reduce
    rw [if_neg h0]
    intro s1 hs1
    refine ⟨.refl s1, _, Knows.stable _ True True, hs1, ?_⟩
    intro s2 hs2
    refine ⟨.refl s2, _, Knows.stable _ True False, ⟨hs2.sig, hs2.done, hs2.print, hs2.last, hs2.current, fun _ h => h.elim⟩, ?_⟩
    beta_reduce
    rw [hs1.current hv trivial]
    cases hlx : s2.logger.lastX with
    | none => exact absurd hlx (hs2.isSet hv trivial)
    | some lx =>
      simp only
      rw [if_pos (hs2.last hv lx hlx)]
      exact hend

end

/-- **C140** (partial) Any number of threads evaluate the objective at the same point, all of them with `fun_free` or all with
`fun_vector`, some of them with logging.  Whatever the schedule and the state before, every call that returns has returned
the value of the function at this point, or raised what it raises there, and from then on the parameter is at this
point. -/
theorem C140_same_point_partial (o : Objective Unit) (fn : Reader) (hfn : o.ReadBy fn) (free : Bool) (x : List ℝ)
    (verbose : List Bool)
    (hlog : true ∈ verbose → x ≠ [] ∧ o.logger.printEvery ≠ 0 ∧ ∀ lx, o.logger.lastX = some lx → Logger.diffOk x lx)
    (schedule : List ℕ) (c : Threads)
    (hc : c = Threads.run ⟨⟨o.par.leaves, o.logger⟩, verbose.map (Thread.evaluate o.par fn free x)⟩ schedule)
    (i : ℕ) (r : Py Arr) (hr : c.threads[i]? = some (.ret r)) :
    r = valueAt (o.fn ()) o.par free x ∧
      ∀ v, r = .ok v → c.shared.leaves = (setPar o.par x free).1.leaves := by
  subst hc
  set T := (setPar o.par x free).1.leaves with hT
  have hlen : T.length = o.par.leaves.length := Param.leaves_length (setPar_blank _ _ _)
  refine Threads.obeys_ret (G := Keeps o.par.leaves T x (true ∈ verbose))
    (Post := fun _ s r => r = valueAt (o.fn ()) o.par free x ∧ ∀ v, r = .ok v → s.leaves = T) ?_ hr
  intro j t ht
  refine ⟨Knows o.par.leaves T x (true ∈ verbose) 0 False False, Knows.stable _ _ _,
    ⟨rfl, fun _ h => absurd h (by omega), fun h => (hlog h).2.1, fun h => (hlog h).2.2, fun _ h => h.elim,
      fun _ h => h.elim⟩, ?_⟩
  simp only [List.getElem?_map, Option.map_eq_some_iff] at ht
  obtain ⟨b, hb, rfl⟩ := ht
  refine obeys_sets hlen (fun hn => ?_) (fun e s he => ⟨?_, fun v hv => by cases hv⟩) _ 0 (o.par.plan_all free x)
  · have hval : valueAt (o.fn ()) o.par free x = fn.eval T := by
      unfold valueAt
      simp only [hn]
      rw [Param.mark_plain _ (setPar_plain _ _ _ hn), hfn _ (setPar_blank _ _ _)]
    refine obeys_user hlen fn (fun v hv => ?_) (fun e s he => ⟨by rw [hval, he], fun v hv => by cases hv⟩)
    cases b with
    | false => exact fun s hs => ⟨by rw [hval, hv], fun w _ => knows_all hlen hs⟩
    | true =>
      have hmem : true ∈ verbose := List.mem_of_getElem? hb
      exact obeys_log hmem (hlog hmem).1 fun s hs => ⟨by rw [hval, hv], fun w _ => knows_all hlen hs⟩
  · unfold valueAt
    simp only [he]

/-- The outcomes of the function when each read of the `i`-th parameter gives some value in `S i`. -/
def Reader.Possible (S : ℕ → Leaf → Prop) : Reader → Py Arr → Prop
  | .ret r', r => r = r'
  | .read i k, r => ∃ l, S i l ∧ (k l).Possible S r

section

variable {ls : List Leaf} {S : ℕ → Leaf → Prop}

/-- Threads that only assign values in `S`. -/
structure Mixes (ls : List Leaf) (S : ℕ → Leaf → Prop) (a b : Shared) : Prop where
  sig : a.leaves.map Leaf.sig = ls.map Leaf.sig → b.leaves.map Leaf.sig = ls.map Leaf.sig
  mix : ∀ j : ℕ, (∀ l, a.leaves[j]? = some l → S j l) → ∀ l, b.leaves[j]? = some l → S j l

/-- The first `m` parameters have values in `S`. -/
structure Mixed (ls : List Leaf) (S : ℕ → Leaf → Prop) (m : ℕ) (s : Shared) : Prop where
  sig : s.leaves.map Leaf.sig = ls.map Leaf.sig
  mix : ∀ j < m, ∀ l, s.leaves[j]? = some l → S j l

theorem Mixed.stable (m : ℕ) : Stable (Mixes ls S) (Mixed ls S m) :=
  fun _ _ hg hk => ⟨hg.sig hk.sig, fun j hj => hg.mix j (hk.mix j hj)⟩

theorem Mixes.refl (a : Shared) : Mixes ls S a a := ⟨id, fun _ => id⟩

theorem Mixes.logger (a : Shared) (l : Logger Arr) : Mixes ls S a { a with logger := l } := ⟨id, fun _ => id⟩

theorem mixes_sets {free : Bool} {T : List Leaf} {Post : Shared → Py Arr → Prop} {k : Thread}
    (hT : ∀ j l, T[j]? = some l → S j l) (hk : k.Obeys (Mixes ls S) Post (Mixed ls S ls.length)) :
    ∀ (ms : List SetStep) (m : ℕ), Plan free ls T none m ms →
      (Thread.sets free ms k).Obeys (Mixes ls S) Post (Mixed ls S m)
  | [], m, hp => by
    obtain ⟨rfl, hr⟩ := hp
    exact hk
  | .raise e :: _, m, hp => absurd hp.1 (by simp)
  | .call i y :: ms, m, hp => by
    obtain ⟨rfl, l, hl, hp⟩ := hp
    intro s hs
    obtain ⟨l0, hl0, hsig⟩ : ∃ l0, s.leaves[i]? = some l0 ∧ l0.sig = l.sig := by
      have := sig_getElem? hs.sig i
      rw [hl, Option.map_some, Option.map_eq_some_iff] at this
      obtain ⟨a, b, c⟩ := this
      exact ⟨a, b, c⟩
    have hc : s.compute free i y = setOutcome free l y := by
      rw [← setOutcome_forget hsig]
      simp only [Shared.compute, hl0]
      rfl
    have hi : i < s.leaves.length := (List.getElem?_eq_some_iff.1 hl0).1
    simp only [Shared.assign, hc]
    cases h : setOutcome free l y with
    | error e =>
      rw [h] at hp
      exact absurd hp.1 (by simp)
    | ok l' =>
      rw [h] at hp
      have hset : (s.leaves.set i l').map Leaf.sig = ls.map Leaf.sig := by
        rw [List.map_set, hs.sig, setOutcome_sig h]
        refine List.ext_getElem? fun j => ?_
        rw [List.getElem?_set]
        split_ifs with h1 h2
        · subst h1
          rw [List.getElem?_map, hl]
          rfl
        · subst h1
          rw [List.getElem?_eq_none (by simpa using h2)]
        · rfl
      have hmix : ∀ j : ℕ, (∀ l, s.leaves[j]? = some l → S j l) → ∀ l, (s.leaves.set i l')[j]? = some l → S j l := by
        intro j hj a ha
        rw [List.getElem?_set] at ha
        split_ifs at ha with h1
        · subst h1
          exact hT i a (by rw [hp.1, ha])
        · exact hj a ha
      refine ⟨⟨fun _ => hset, hmix⟩, _, Mixed.stable (i + 1), ⟨hset, fun j hj a ha => ?_⟩,
        mixes_sets hT hk ms (i + 1) hp.2⟩
      rcases Nat.lt_succ_iff_lt_or_eq.1 hj with hj | rfl
      · exact hmix j (hs.mix j hj) a ha
      · change (s.leaves.set j l')[j]? = some a at ha
        rw [List.getElem?_set, if_pos rfl, if_pos hi] at ha
        exact hT j a (by rw [hp.1, ha])

theorem mixes_log {P : Py Arr → Prop} {v : Arr} {x : List ℝ} {κ : Shared → Prop} (hκ : Stable (Mixes ls S) κ)
    (hp : P (.ok v)) : (Thread.log v x).Obeys (Mixes ls S) (fun _ r => P r ∨ ∃ e, r = .error e) κ := by
  have hstep : ∀ (f : Logger Arr → Logger Arr) (k : Thread),
      k.Obeys (Mixes ls S) (fun _ r => P r ∨ ∃ e, r = .error e) κ →
      (Thread.logStep f k).Obeys (Mixes ls S) (fun _ r => P r ∨ ∃ e, r = .error e) κ :=
    fun f k hk s hs => ⟨.logger s _, κ, hκ, hκ _ _ (.logger s _) hs, hk⟩
  have hread : ∀ k : Logger Arr → Thread,
      (∀ l, (k l).Obeys (Mixes ls S) (fun _ r => P r ∨ ∃ e, r = .error e) κ) →
      (Thread.logRead k).Obeys (Mixes ls S) (fun _ r => P r ∨ ∃ e, r = .error e) κ :=
    fun k hk s hs => ⟨.refl s, κ, hκ, hs, hk _⟩
  have herr : ∀ e, (Thread.ret (.error e)).Obeys (Mixes ls S) (fun _ r => P r ∨ ∃ e, r = .error e) κ :=
    fun e _ _ => Or.inr ⟨e, rfl⟩
  have hend : (Thread.logEnd v x).Obeys (Mixes ls S) (fun _ r => P r ∨ ∃ e, r = .error e) κ := by
    refine hstep _ _ (hstep _ _ (hread _ fun l => ?_))
    have hc : (Thread.logRead fun l => Thread.logStep (fun l' => { l' with iter := l.iter + 1 }) (.ret (.ok v))).Obeys
        (Mixes ls S) (fun _ r => P r ∨ ∃ e, r = .error e) κ :=
      hread _ fun l => hstep _ _ fun _ _ => Or.inl hp
    split_ifs
    · exact herr _
    · exact hstep _ _ hc
    · exact hc
  refine hstep _ _ (hstep _ _ (hstep _ _ (hstep _ _ (hread _ fun l => ?_))))
  split_ifs
  · exact hend
  · refine hread _ fun l1 => hread _ fun l2 => ?_
    split
    · split_ifs
      · exact hend
      · exact herr _
    · exact herr _

theorem mixes_user {k : Arr → Thread} {P : Py Arr → Prop} :
    ∀ r : Reader, (∀ r', r.Possible S r' → P r') →
    (∀ v, P (.ok v) → (k v).Obeys (Mixes ls S) (fun _ r => P r ∨ ∃ e, r = .error e) (Mixed ls S ls.length)) →
    (Thread.user r k).Obeys (Mixes ls S) (fun _ r => P r ∨ ∃ e, r = .error e) (Mixed ls S ls.length)
  | .ret (.error e), hr, _ => fun _ _ => Or.inl (hr _ rfl)
  | .ret (.ok v), hr, hk => hk v (hr _ rfl)
  | .read i r, hr, hk => by
    unfold Thread.user
    intro s hs
    refine ⟨.refl s, _, Mixed.stable _, hs, ?_⟩
    beta_reduce
    have hlen : s.leaves.length = ls.length := by simpa using congrArg List.length hs.sig
    cases h : s.leaves[i]? with
    | none => exact fun _ _ => Or.inr ⟨_, rfl⟩
    | some l =>
      have hi : i < s.leaves.length := (List.getElem?_eq_some_iff.1 h).1
      exact mixes_user (r l) (fun r' h' => hr r' ⟨l, hs.mix i (by omega) l h, h'⟩) hk

end

/-- **C140** (partial) Threads evaluate the objective at different points at which it can be evaluated, some of them
with logging.  Whenever the function reads a parameter, it sees the value of this parameter at one of the points, so that
every value returned is that of a mixture of the points. -/
theorem C140_mixture_partial (o : Objective Unit) (fn : Reader) (free : Bool) (calls : List (List ℝ × Bool))
    (hok : ∀ q ∈ calls, (setPar o.par q.1 free).2 = none) (schedule : List ℕ) (i : ℕ) (v : Arr)
    (hr : (Threads.run ⟨⟨o.par.leaves, o.logger⟩, calls.map fun q => Thread.evaluate o.par fn free q.1 q.2⟩
      schedule).threads[i]? = some (.ret (.ok v))) :
    fn.Possible (fun j l => ∃ q ∈ calls, (setPar o.par q.1 free).1.leaves[j]? = some l) (.ok v) := by
  set S : ℕ → Leaf → Prop := fun j l => ∃ q ∈ calls, (setPar o.par q.1 free).1.leaves[j]? = some l with hS
  have key := Threads.obeys_ret (G := Mixes o.par.leaves S) (Post := fun _ _ r => fn.Possible S r ∨ ∃ e, r = .error e) ?_ hr
  · rcases key with h | ⟨e, h⟩
    · exact h
    · cases h
  intro j t ht
  refine ⟨Mixed o.par.leaves S 0, Mixed.stable 0, ⟨rfl, fun _ h => absurd h (by omega)⟩, ?_⟩
  simp only [List.getElem?_map, Option.map_eq_some_iff] at ht
  obtain ⟨q, hq, rfl⟩ := ht
  have hq := List.mem_of_getElem? hq
  have hplan := o.par.plan_all free q.1
  rw [hok q hq] at hplan
  refine mixes_sets (T := (setPar o.par q.1 free).1.leaves) (fun j l h => ⟨q, hq, h⟩) ?_ _ 0 hplan
  refine mixes_user (P := fun r => fn.Possible S r) fn (fun _ h => h) fun v hv => ?_
  cases q.2 with
  | false => exact fun _ _ => Or.inl hv
  | true => exact mixes_log (P := fun r => fn.Possible S r) (Mixed.stable _) hv

/-- Read both parameters of the example dictionary and add up all numbers. -/
def addBoth : Reader :=
  .read 0 fun a => .read 1 fun b => .ret (.ok (Arr.scalar (a.val.data.sum + b.val.data.sum)))

/-- The sum of all numbers in the example dictionary. -/
def exSum : Objective Unit := Objective.new exDict fun _ p => addBoth.eval p.leaves

theorem exSum_readBy : exSum.ReadBy addBoth := fun _ _ => rfl

/-- **C140** (counterexample) Two threads evaluate the sum of the parameters at two points.  The first call returns a
number that is the value at neither point. -/
theorem C140_counterexample : ∃ (schedule : List ℕ) (v : Arr),
    (Threads.run ⟨⟨exSum.par.leaves, exSum.logger⟩,
      [Thread.evaluate exSum.par addBoth true [1, 2, 3] false,
        Thread.evaluate exSum.par addBoth true [4, 5, 6] false]⟩ schedule).threads[0]? = some (.ret (.ok v)) ∧
    (exSum.funFree [1, 2, 3] () false).2 ≠ .ok v ∧ (exSum.funFree [4, 5, 6] () false).2 ≠ .ok v := by
  have hsteps : ∀ a b c : ℝ, exDict.setSteps true [a, b, c] 0 = [.call 0 [a], .call 1 [b, c]] := by
    intro a b c
    simp [exDict, exSub, Param.emptyDict, Param.push, Param.setSteps, Entries.setSteps, Entries.assign, Param.freeSize,
      Leaf.freeSize, exScalar, exVector, Kind.freeSize, Param.name, Leaf.slice, Param.leaves]
  have h0 : ∀ (l : Leaf) (a : ℝ), l.sig = exScalar.sig →
      l.setFree [a] = .ok { exScalar with val := freeVal exScalar.kind [a] } := by
    intro l a hl
    have h1 := setOutcome_forget hl true [a]
    have h2 : exScalar.setFree [a] = _ := Leaf.setFree_ok exScalar (by simp [exScalar, Kind.Legal]) [a] rfl
    exact h1.trans h2
  have h1 : ∀ (l : Leaf) (b c : ℝ), l.sig = exVector.sig →
      l.setFree [b, c] = .ok { exVector with val := Arr.vec [b, c] } := by
    intro l b c hl
    have h1 := setOutcome_forget hl true [b, c]
    have h2 : exVector.setFree [b, c] = _ := Leaf.setFree_ok exVector (by simp [exVector, Kind.Legal]) [b, c] rfl
    refine h1.trans (h2.trans ?_)
    simp [exVector, freeVal, Leaf.constrainFn, constrainReal, constrain, Flt.eq, Flt.toReal]
  have k0 : ∀ v b (a : ℝ), Leaf.setFree ⟨exScalar.name, exScalar.kind, v, b⟩ [a] =
      .ok { exScalar with val := freeVal exScalar.kind [a] } := fun v b a => h0 _ a rfl
  have k1 : ∀ v a (b c : ℝ), Leaf.setFree ⟨exVector.name, exVector.kind, v, a⟩ [b, c] =
      .ok { exVector with val := Arr.vec [b, c] } := fun v a b c => h1 _ b c rfl
  have hl : exSum.par.leaves = [exScalar, exVector] := rfl
  have hval : ∀ a b c : ℝ, (exSum.funFree [a, b, c] () false).2 =
      .ok (Arr.scalar ((freeVal exScalar.kind [a]).data.sum + (b + c))) := by
    intro a b c
    have := C140_alone exSum addBoth exSum_readBy [a, b, c] false
    have := congrArg Prod.snd this
    simp only at this
    rw [← this, Thread.evaluate]
    show ((Thread.sets true (exDict.setSteps true [a, b, c] 0) _).alone _).2 = _
    rw [hsteps, hl]
    simp [Thread.sets, Thread.alone, Shared.assign, Shared.compute, h0, h1, Thread.user, addBoth, Arr.vec]
  refine ⟨[0, 0, 0, 1, 1, 0], Arr.scalar ((freeVal exScalar.kind [1]).data.sum + (5 + 6)), ?_, ?_, ?_⟩
  · rw [hl]
    simp only [Thread.evaluate]
    show (Threads.run ⟨_, [Thread.sets true (exDict.setSteps true [1, 2, 3] 0) _,
      Thread.sets true (exDict.setSteps true [4, 5, 6] 0) _]⟩ _).threads[0]? = _
    rw [hsteps, hsteps]
    simp [Threads.run, Threads.step, Thread.next, Thread.sets, Shared.assign, Shared.compute, h0, h1, k0, k1, Thread.user,
      addBoth, Arr.vec]
  · rw [hval]
    simp only [ne_eq, Except.ok.injEq, Arr.scalar, Arr.mk.injEq, List.cons.injEq, and_true, true_and]
    norm_num
  · rw [hval]
    simp only [ne_eq, Except.ok.injEq, Arr.scalar, Arr.mk.injEq, List.cons.injEq, and_true, true_and]
    have he : ∀ a : ℝ, (freeVal exScalar.kind [a]).data.sum = Real.exp a := by
      intro a
      simp [exScalar, freeVal, Leaf.constrainFn, constrainReal, constrain, Flt.eq, Flt.toReal, Arr.vec, Flt.exp]
    rw [he, he]
    have : Real.exp 1 < Real.exp 4 := Real.exp_lt_exp.2 (by norm_num)
    intro h
    linarith

/-! ### C141 -/

section

variable {α : Type} (obs : Shared → List α)

/-- A thread that does not change `obs` any more and ends with `Q`. -/
def Thread.Quiet (Q : Py Arr → Prop) : Thread → Prop
  | .ret r => Q r
  | .step f k => ∀ s, obs (f s) = obs s ∧ (k s).Quiet Q

/-- A thread that ends with `N` without appending to `obs`, or appends one `a` and ends with `M a`. -/
def Thread.Once (M : α → Py Arr → Prop) (N : Py Arr → Prop) : Thread → Prop
  | .ret r => N r
  | .step f k => ∀ s, (obs (f s) = obs s ∧ (k s).Once M N) ∨ ∃ a, obs (f s) = obs s ++ [a] ∧ (k s).Quiet obs (M a)

/-- The list `log` tells which thread has appended what. -/
structure Logged (M : ℕ → α → Py Arr → Prop) (N : ℕ → Py Arr → Prop) (old : List α) (log : List (ℕ × α)) (c : Threads) :
    Prop where
  nodup : (log.map (·.1)).Nodup
  seen : obs c.shared = old ++ log.map (·.2)
  lt : ∀ i ∈ log.map (·.1), i < c.threads.length
  thread : ∀ i (t : Thread), c.threads[i]? = some t →
    (i ∉ log.map (·.1) ∧ t.Once obs (M i) (N i)) ∨ ∃ a, (i, a) ∈ log ∧ t.Quiet obs (M i a)

variable {obs}

theorem Logged.step {M : ℕ → α → Py Arr → Prop} {N : ℕ → Py Arr → Prop} {old : List α} {log : List (ℕ × α)} {c : Threads}
    (h : Logged obs M N old log c) (n : ℕ) : ∃ log', Logged obs M N old log' (c.step n) := by
  unfold Threads.step
  cases hn : c.threads[n]? with
  | none => exact ⟨log, h⟩
  | some u =>
    have hlt : n < c.threads.length := (List.getElem?_eq_some_iff.1 hn).1
    simp only
    cases u with
    | ret r =>
      refine ⟨log, h.nodup, h.seen, by simpa using h.lt, fun i t ht => ?_⟩
      simp only [Thread.next] at ht
      rw [List.getElem?_set] at ht
      split_ifs at ht with hni
      · exact h.thread i t (by rw [← hni, hn, ← ht])
      · exact h.thread i t ht
    | step f k =>
      simp only [Thread.next]
      rcases h.thread n _ hn with ⟨hnot, ho⟩ | ⟨a, ha, hq⟩
      · rcases ho c.shared with ⟨he, ho⟩ | ⟨a, he, hq⟩
        · refine ⟨log, h.nodup, he.trans h.seen, by simpa using h.lt, fun i t ht => ?_⟩
          rw [List.getElem?_set] at ht
          split_ifs at ht with hni
          · subst hni
            rw [Option.some.injEq] at ht
            exact Or.inl ⟨hnot, ht ▸ ho⟩
          · exact h.thread i t ht
        · refine ⟨log ++ [(n, a)], ?_, ?_, ?_, fun i t ht => ?_⟩
          · rw [List.map_append, List.nodup_append]
            refine ⟨h.nodup, by simp, ?_⟩
            intro b hb b' hb'
            simp only [List.map_cons, List.map_nil, List.mem_singleton] at hb'
            rintro rfl
            exact hnot (hb' ▸ hb)
          · simp only
            rw [he, h.seen, List.map_append, List.append_assoc]
            rfl
          · intro i hi
            simp only [List.map_append, List.map_cons, List.map_nil, List.mem_append, List.mem_singleton] at hi
            simp only [List.length_set]
            rcases hi with hi | rfl
            · exact h.lt i hi
            · exact hlt
          · simp only at ht
            rw [List.getElem?_set] at ht
            split_ifs at ht with hni
            · subst hni
              rw [Option.some.injEq] at ht
              exact Or.inr ⟨a, by simp, ht ▸ hq⟩
            · rcases h.thread i t ht with ⟨h1, h2⟩ | ⟨b, h1, h2⟩
              · refine Or.inl ⟨?_, h2⟩
                simp only [List.map_append, List.map_cons, List.map_nil, List.mem_append, List.mem_singleton, not_or]
                exact ⟨h1, fun e => hni e.symm⟩
              · exact Or.inr ⟨b, List.mem_append_left _ h1, h2⟩
      · obtain ⟨he, hq⟩ := hq c.shared
        refine ⟨log, h.nodup, he.trans h.seen, by simpa using h.lt, fun i t ht => ?_⟩
        rw [List.getElem?_set] at ht
        split_ifs at ht with hni
        · subst hni
          rw [Option.some.injEq] at ht
          exact Or.inr ⟨a, ha, ht ▸ hq⟩
        · exact h.thread i t ht

theorem Logged.run {M : ℕ → α → Py Arr → Prop} {N : ℕ → Py Arr → Prop} {old : List α} :
    ∀ (schedule : List ℕ) {log : List (ℕ × α)} {c : Threads}, Logged obs M N old log c →
    ∃ log', Logged obs M N old log' (c.run schedule)
  | [], log, _, h => ⟨log, h⟩
  | n :: schedule, _, _, h => by
    obtain ⟨log', h'⟩ := h.step n
    exact Logged.run schedule h'

theorem Threads.length_run (schedule : List ℕ) : ∀ c : Threads, (c.run schedule).threads.length = c.threads.length := by
  induction schedule with
  | nil => exact fun c => rfl
  | cons n schedule ih =>
    intro c
    show ((c.step n).run schedule).threads.length = _
    rw [ih]
    unfold Threads.step
    split
    · rfl
    · simp

/-- All threads have returned values, and the `i`-th has appended `F i` if `flag i`: the list is a permutation. -/
theorem Logged.perm {M : ℕ → α → Py Arr → Prop} {N : ℕ → Py Arr → Prop} {old : List α} {log : List (ℕ × α)} {c : Threads}
    (h : Logged obs M N old log c) {n : ℕ} (F : ℕ → α) (flag : ℕ → Bool) (hn : c.threads.length = n)
    (hr : ∀ i < n, ∃ r, c.threads[i]? = some (.ret r) ∧ (N i r → flag i = false) ∧ ∀ a, M i a r → flag i = true ∧ a = F i) :
    (log.map (·.2)).Perm (((List.range n).filter flag).map F) := by
  have hfst : (log.map (·.1)).Perm ((List.range n).filter flag) := by
    rw [List.perm_ext_iff_of_nodup h.nodup (List.nodup_range.filter _)]
    intro i
    rw [List.mem_filter, List.mem_range]
    constructor
    · intro hi
      have hlt := h.lt i hi
      obtain ⟨r, h1, h2, h3⟩ := hr i (by omega)
      rcases h.thread i _ h1 with ⟨h4, -⟩ | ⟨a, -, h5⟩
      · exact absurd hi h4
      · exact ⟨by omega, (h3 a h5).1⟩
    · rintro ⟨hi, hf⟩
      obtain ⟨r, h1, h2, h3⟩ := hr i hi
      rcases h.thread i _ h1 with ⟨-, h4⟩ | ⟨a, h5, -⟩
      · exact absurd (h2 h4) (by rw [hf]; simp)
      · exact List.mem_map.2 ⟨_, h5, rfl⟩
  have hsnd : log.map (·.2) = (log.map (·.1)).map F := by
    rw [List.map_map]
    refine List.map_congr_left fun q hq => ?_
    have hi : q.1 ∈ log.map (·.1) := List.mem_map.2 ⟨q, hq, rfl⟩
    have hlt := h.lt _ hi
    obtain ⟨r, h1, h2, h3⟩ := hr q.1 (by omega)
    rcases h.thread _ _ h1 with ⟨h4, -⟩ | ⟨a, h5, h6⟩
    · exact absurd hi h4
    · have : q.2 = a := by
        have := List.inj_on_of_nodup_map h.nodup hq h5 rfl
        rw [this]
      rw [this, (h3 a h6).2]
      rfl
  rw [hsnd]
  exact hfst.map F

/-- Lists that are not changed by the end of `log`. -/
structure LogObs (obs : Shared → List α) : Prop where
  leaves : ∀ s ls, obs { s with leaves := ls } = obs s
  tail : ∀ s (l : Logger Arr), l.xArray = s.logger.xArray → l.valArray = s.logger.valArray →
    obs { s with logger := l } = obs s

theorem LogObs.assign (h : LogObs obs) (s : Shared) (free : Bool) (i : ℕ) (x : List ℝ) :
    obs (s.assign free i x) = obs s := by
  unfold Shared.assign
  split
  · rfl
  · exact h.leaves s _

theorem once_sets (hobs : LogObs obs) {M : α → Py Arr → Prop} {N : Py Arr → Prop} (hN : ∀ e, N (.error e)) (free : Bool)
    {k : Thread} (hk : k.Once obs M N) : ∀ ms : List SetStep, (Thread.sets free ms k).Once obs M N
  | [] => hk
  | .raise e :: _ => hN e
  | .call i x :: ms => by
    intro s
    refine Or.inl ⟨hobs.assign s free i x, ?_⟩
    beta_reduce
    split
    · exact hN _
    · exact once_sets hobs hN free hk ms

theorem once_user {M : α → Py Arr → Prop} {N : Py Arr → Prop} (hN : ∀ e, N (.error e)) {k : Arr → Thread}
    (hk : ∀ v, (k v).Once obs M N) : ∀ r : Reader, (Thread.user r k).Once obs M N
  | .ret (.error e) => hN e
  | .ret (.ok v) => hk v
  | .read i r => by
    unfold Thread.user
    intro s
    refine Or.inl ⟨rfl, ?_⟩
    beta_reduce
    split
    · exact hN _
    · exact once_user hN hk (r _)

theorem quiet_step (hobs : LogObs obs) {Q : Py Arr → Prop} {f : Logger Arr → Logger Arr} {k : Thread}
    (hf : ∀ l, (f l).xArray = l.xArray ∧ (f l).valArray = l.valArray) (hk : k.Quiet obs Q) :
    (Thread.logStep f k).Quiet obs Q := fun s => ⟨hobs.tail s _ (hf _).1 (hf _).2, hk⟩

theorem quiet_read {Q : Py Arr → Prop} {k : Logger Arr → Thread} (hk : ∀ l, (k l).Quiet obs Q) :
    (Thread.logRead k).Quiet obs Q := fun _ => ⟨rfl, hk _⟩

theorem quiet_logEnd (hobs : LogObs obs) {Q : Py Arr → Prop} {v : Arr} {x : List ℝ} (hv : Q (.ok v))
    (he : ∀ e, Q (.error e)) : (Thread.logEnd v x).Quiet obs Q := by
  refine quiet_step hobs (fun _ => ⟨rfl, rfl⟩) (quiet_step hobs (fun _ => ⟨rfl, rfl⟩) (quiet_read fun l => ?_))
  have hc : (Thread.logRead fun l => Thread.logStep (fun l' => { l' with iter := l.iter + 1 }) (.ret (.ok v))).Quiet
      obs Q := quiet_read fun l => quiet_step hobs (fun _ => ⟨rfl, rfl⟩) hv
  split_ifs
  · exact he _
  · exact quiet_step hobs (fun _ => ⟨rfl, rfl⟩) hc
  · exact hc

theorem quiet_check (hobs : LogObs obs) {Q : Py Arr → Prop} {v : Arr} {x : List ℝ} (hv : Q (.ok v))
    (he : ∀ e, Q (.error e)) : (Thread.logRead fun l =>
      if l.lastX = none then Thread.logEnd v x
      else Thread.logRead fun l1 => Thread.logRead fun l2 =>
        match l1.x, l2.lastX with
        | some a, some b => if Logger.diffOk a b then Thread.logEnd v x else .ret (.error .valueError)
        | _, _ => .ret (.error .typeError)).Quiet obs Q := by
  refine quiet_read fun l => ?_
  split_ifs
  · exact quiet_logEnd hobs hv he
  · refine quiet_read fun l1 => quiet_read fun l2 => ?_
    split
    · split_ifs
      · exact quiet_logEnd hobs hv he
      · exact he _
    · exact he _

end

theorem once_evaluate_x (par : Param) (fn : Reader) (free : Bool) (x : List ℝ) (verbose : Bool) :
    (Thread.evaluate par fn free x verbose).Once (fun s => s.logger.xArray) (fun a _ => verbose = true ∧ a = x)
      (fun r => verbose = false ∨ ∃ e, r = .error e) := by
  have hobs : LogObs fun s : Shared => s.logger.xArray := ⟨fun _ _ => rfl, fun _ _ h _ => h⟩
  refine once_sets hobs (fun e => Or.inr ⟨e, rfl⟩) free (once_user (fun e => Or.inr ⟨e, rfl⟩) (fun v => ?_) fn) _
  cases verbose with
  | false => exact Or.inl rfl
  | true =>
    refine fun s => Or.inl ⟨rfl, fun s => Or.inl ⟨rfl, fun s => Or.inr ⟨x, rfl, ?_⟩⟩⟩
    exact fun s => ⟨rfl, quiet_check hobs ⟨rfl, rfl⟩ fun _ => ⟨rfl, rfl⟩⟩

theorem once_evaluate_val (par : Param) (fn : Reader) (free : Bool) (x : List ℝ) (verbose : Bool) :
    (Thread.evaluate par fn free x verbose).Once (fun s => s.logger.valArray)
      (fun a r => verbose = true ∧ ∀ v, r = .ok v → a = v) (fun r => verbose = false ∨ ∃ e, r = .error e) := by
  have hobs : LogObs fun s : Shared => s.logger.valArray := ⟨fun _ _ => rfl, fun _ _ _ h => h⟩
  refine once_sets hobs (fun e => Or.inr ⟨e, rfl⟩) free (once_user (fun e => Or.inr ⟨e, rfl⟩) (fun v => ?_) fn) _
  cases verbose with
  | false => exact Or.inl rfl
  | true =>
    refine fun s => Or.inl ⟨rfl, fun s => Or.inl ⟨rfl, fun s => Or.inl ⟨rfl, fun s => Or.inr ⟨v, rfl, ?_⟩⟩⟩⟩
    refine quiet_check hobs ⟨rfl, fun w hw => ?_⟩ fun e => ⟨rfl, fun w hw => by cases hw⟩
    simpa using hw

theorem logged_start {α : Type} {obs : Shared → List α} {M : ℕ → α → Py Arr → Prop} {N : ℕ → Py Arr → Prop} {c : Threads}
    (h : ∀ i (t : Thread), c.threads[i]? = some t → t.Once obs (M i) (N i)) : Logged obs M N (obs c.shared) [] c :=
  ⟨by simp, by simp, by simp, fun i t ht => Or.inl ⟨by simp, h i t ht⟩⟩

theorem filter_range {β γ : Type} (l : List β) (d : β) (p : β → Bool) (g : β → γ) :
    ((List.range l.length).filter fun i => p (l.getD i d)).map (fun i => g (l.getD i d)) = (l.filter p).map g := by
  have h : l = (List.range l.length).map fun i => l.getD i d := by
    refine List.ext_getElem? fun i => ?_
    rw [List.getElem?_map]
    by_cases hi : i < l.length
    · rw [List.getElem?_range hi, List.getElem?_eq_getElem hi]
      simp [hi]
    · rw [List.getElem?_eq_none (by omega), List.getElem?_eq_none (by simpa using hi)]
      rfl
  conv_rhs => rw [h, List.filter_map, List.map_map]
  rfl

/-- **C141** (partial) Threads evaluate the objective, some of them with logging.  When all calls have returned, every call with
logging has appended its point once to the list of points, and its value once to the list of values, in any
two orders. -/
theorem C141_partial (o : Objective Unit) (fn : Reader) (free : Bool) (calls : List (List ℝ × Bool)) (schedule : List ℕ)
    (c : Threads)
    (hc : c = Threads.run ⟨⟨o.par.leaves, o.logger⟩, calls.map fun q => Thread.evaluate o.par fn free q.1 q.2⟩ schedule)
    (values : List Arr) (hv : c.threads = values.map fun v => .ret (.ok v)) :
    ∃ xs vs, c.shared.logger.xArray = o.logger.xArray ++ xs ∧ c.shared.logger.valArray = o.logger.valArray ++ vs ∧
      xs.Perm ((calls.filter (·.2)).map (·.1)) ∧ vs.Perm (((calls.zip values).filter (·.1.2)).map (·.2)) := by
  have hlen : values.length = calls.length := by
    have h1 : c.threads.length = calls.length := by
      rw [hc, Threads.length_run]
      simp
    rw [hv] at h1
    simpa using h1
  have hcall : ∀ i < calls.length, calls[i]? = some (calls.getD i ([], false)) := by
    intro i hi
    rw [List.getElem?_eq_getElem hi]
    simp [hi]
  have hval : ∀ i < calls.length, c.threads[i]? = some (.ret (.ok (values.getD i (Arr.scalar 0)))) := by
    intro i hi
    rw [hv, List.getElem?_map, List.getElem?_eq_getElem (by omega)]
    simp [hlen, hi]
  have hn : c.threads.length = calls.length := by rw [hv]; simpa using hlen
  have hthread : ∀ i (t : Thread), (calls.map fun q => Thread.evaluate o.par fn free q.1 q.2)[i]? = some t →
      t = Thread.evaluate o.par fn free (calls.getD i ([], false)).1 (calls.getD i ([], false)).2 := by
    intro i t ht
    rw [List.getElem?_map, Option.map_eq_some_iff] at ht
    obtain ⟨q, hq, rfl⟩ := ht
    have hi := (List.getElem?_eq_some_iff.1 hq).1
    rw [hcall i hi, Option.some.injEq] at hq
    rw [hq]
  have l1 := logged_start (obs := fun s => s.logger.xArray)
    (c := ⟨⟨o.par.leaves, o.logger⟩, calls.map fun q => Thread.evaluate o.par fn free q.1 q.2⟩)
    (M := fun i a _ => (calls.getD i ([], false)).2 = true ∧ a = (calls.getD i ([], false)).1)
    (N := fun i r => (calls.getD i ([], false)).2 = false ∨ ∃ e, r = .error e)
    (fun i t ht => by rw [hthread i t ht]; exact once_evaluate_x _ _ _ _ _)
  have l2 := logged_start (obs := fun s => s.logger.valArray)
    (c := ⟨⟨o.par.leaves, o.logger⟩, calls.map fun q => Thread.evaluate o.par fn free q.1 q.2⟩)
    (M := fun i a r => (calls.getD i ([], false)).2 = true ∧ ∀ v, r = .ok v → a = v)
    (N := fun i r => (calls.getD i ([], false)).2 = false ∨ ∃ e, r = .error e)
    (fun i t ht => by rw [hthread i t ht]; exact once_evaluate_val _ _ _ _ _)
  obtain ⟨log1, l1⟩ := l1.run schedule
  obtain ⟨log2, l2⟩ := l2.run schedule
  rw [← hc] at l1 l2
  refine ⟨log1.map (·.2), log2.map (·.2), l1.seen, l2.seen, ?_, ?_⟩
  · have := l1.perm (n := calls.length) (fun i => (calls.getD i ([], false)).1) (fun i => (calls.getD i ([], false)).2) hn
      fun i hi => ⟨_, hval i hi, fun h => h.elim id fun ⟨e, h⟩ => by simp at h, fun a h => h⟩
    rwa [filter_range calls ([], false) (·.2) (·.1)] at this
  · have hzl : (calls.zip values).length = calls.length := by simp [hlen]
    have hz : ∀ i < calls.length, (calls.zip values).getD i (([], false), Arr.scalar 0) =
        (calls.getD i ([], false), values.getD i (Arr.scalar 0)) := by
      intro i hi
      have h1 : i < (calls.zip values).length := by omega
      have h2 : i < values.length := by omega
      simp [List.getD_eq_getElem?_getD, hi, h2, h1]
    have := l2.perm (n := calls.length) (fun i => ((calls.zip values).getD i (([], false), Arr.scalar 0)).2)
      (fun i => ((calls.zip values).getD i (([], false), Arr.scalar 0)).1.2) hn
      fun i hi => ⟨_, hval i hi, fun h => h.elim (fun h => by rw [hz i hi]; exact h) fun ⟨e, h⟩ => by simp at h,
        fun a h => by rw [hz i hi]; exact ⟨h.1, h.2 _ rfl⟩⟩
    rw [← hzl] at this
    rwa [filter_range (calls.zip values) (([], false), Arr.scalar 0) (·.1.2) (·.2)] at this

/-- **C141** (partial) When all threads evaluate at the same point, the log is right: as many new points and values as calls with
logging, all points are this point, and all values are the value of the function at this point. -/
theorem C141_same_point_partial (o : Objective Unit) (fn : Reader) (hfn : o.ReadBy fn) (free : Bool) (x : List ℝ)
    (verbose : List Bool)
    (hlog : true ∈ verbose → x ≠ [] ∧ o.logger.printEvery ≠ 0 ∧ ∀ lx, o.logger.lastX = some lx → Logger.diffOk x lx)
    (schedule : List ℕ) (c : Threads)
    (hc : c = Threads.run ⟨⟨o.par.leaves, o.logger⟩, verbose.map (Thread.evaluate o.par fn free x)⟩ schedule)
    (hret : ∀ t ∈ c.threads, ∃ r, t = .ret r) (v : Arr) (hv : valueAt (o.fn ()) o.par free x = .ok v) :
    c.shared.logger.xArray = o.logger.xArray ++ List.replicate (verbose.count true) x ∧
    c.shared.logger.valArray = o.logger.valArray ++ List.replicate (verbose.count true) v := by
  have hlen : c.threads.length = verbose.length := by
    rw [hc, Threads.length_run]
    simp
  have hall : c.threads = (List.replicate verbose.length v).map fun v => .ret (.ok v) := by
    rw [List.map_replicate, List.eq_replicate_iff]
    refine ⟨hlen, fun t ht => ?_⟩
    obtain ⟨r, rfl⟩ := hret t ht
    obtain ⟨i, hi⟩ := List.mem_iff_getElem?.1 ht
    rw [(C140_same_point_partial o fn hfn free x verbose hlog schedule c hc i r hi).1, hv]
  obtain ⟨xs, vs, h1, h2, h3, h4⟩ := C141_partial o fn free (verbose.map fun b => (x, b)) schedule c
    (by rw [hc, List.map_map]; rfl) _ hall
  have hcount : (verbose.filter fun b => b).length = verbose.count true := by
    rw [List.count, List.countP_eq_length_filter]
    congr 2
    funext b
    cases b <;> rfl
  have e1 : ((verbose.map fun b => (x, b)).filter (·.2)).map (·.1) = List.replicate (verbose.count true) x := by
    rw [List.eq_replicate_iff]
    refine ⟨?_, fun b hb => ?_⟩
    · rw [List.length_map, List.filter_map, List.length_map, ← hcount]
      rfl
    · obtain ⟨q, hq, rfl⟩ := List.mem_map.1 hb
      obtain ⟨b, -, rfl⟩ := List.mem_map.1 (List.mem_filter.1 hq).1
      rfl
  have e2 : (((verbose.map fun b => (x, b)).zip (List.replicate verbose.length v)).filter (·.1.2)).map (·.2) =
      List.replicate (verbose.count true) v := by
    have hz : (verbose.map fun b => (x, b)).zip (List.replicate verbose.length v) = verbose.map fun b => ((x, b), v) := by
      clear * -
      induction verbose with
      | nil => rfl
      | cons b bs ih => simp only [List.map_cons, List.length_cons, List.replicate_succ, List.zip_cons_cons, ih]
    rw [hz, List.eq_replicate_iff]
    refine ⟨?_, fun b hb => ?_⟩
    · rw [List.length_map, List.filter_map, List.length_map, ← hcount]
      rfl
    · obtain ⟨q, hq, rfl⟩ := List.mem_map.1 hb
      obtain ⟨b, -, rfl⟩ := List.mem_map.1 (List.mem_filter.1 hq).1
      rfl
  rw [e1, List.perm_replicate] at h3
  rw [e2, List.perm_replicate] at h4
  rw [h1, h2, h3, h4]
  exact ⟨rfl, rfl⟩

/-- An unbounded parameter and the function that returns it. -/
def exOne : Objective Unit :=
  Objective.new (.leaf ⟨"v", .vector 1 .ninf .pinf, Arr.vec [0], false⟩) fun _ p =>
    (Reader.read 0 fun a => .ret (.ok a.val)).eval p.leaves

/-- **C141** (counterexample) Two threads evaluate with logging.  When both calls have returned, the points and the values in the
log are in different orders, and one of the calls is not counted. -/
theorem C141_counterexample : ∃ schedule : List ℕ, ∃ c : Threads,
    c = Threads.run ⟨⟨exOne.par.leaves, exOne.logger⟩,
      [Thread.evaluate exOne.par (.read 0 fun a => .ret (.ok a.val)) true [1] true,
        Thread.evaluate exOne.par (.read 0 fun a => .ret (.ok a.val)) true [2] true]⟩ schedule ∧
    c.threads = [.ret (.ok (Arr.vec [1])), .ret (.ok (Arr.vec [2]))] ∧
    c.shared.logger.xArray = [[1], [2]] ∧ c.shared.logger.valArray = [Arr.vec [2], Arr.vec [1]] ∧
    c.shared.logger.iter = 1 := by
  have k1 : ∀ v a (b : ℝ), Leaf.setFree ⟨"v", .vector 1 .ninf .pinf, v, a⟩ [b] =
      .ok ⟨"v", .vector 1 .ninf .pinf, Arr.vec [b], false⟩ := by
    intro v a b
    have h2 := Leaf.setFree_ok ⟨"v", .vector 1 .ninf .pinf, v, a⟩ (by simp [Kind.Legal]) [b] rfl
    rw [h2]
    simp [freeVal, Leaf.constrainFn, constrainReal, constrain, Flt.eq, Flt.toReal]
  refine ⟨[0, 0, 0, 0, 0, 1, 1, 1, 1, 1, 1, 0, 0, 0, 0, 0, 0, 0, 1, 1, 1, 1, 1, 1, 1, 1, 1, 0], _, rfl, ?_⟩
  simp [Threads.run, Threads.step, Thread.next, Thread.evaluate, exOne, Objective.new, Param.leaves, Param.setSteps,
    Thread.sets, Shared.assign, Shared.compute, k1, Thread.user, Thread.log, Thread.logStep, Thread.logRead, Thread.logEnd,
    Logger.new, Logger.reset, Logger.diffOk]

/-- Three threads on the example meet the hypotheses of the theorems, and all of them can return. -/
example : exSum.ReadBy addBoth ∧ (true ∈ [true, false, true] → [(1 : ℝ), 2, 3] ≠ [] ∧ exSum.logger.printEvery ≠ 0 ∧
      ∀ lx, exSum.logger.lastX = some lx → Logger.diffOk [1, 2, 3] lx) ∧
    ∃ schedule, ∀ t ∈ (Threads.run ⟨⟨exSum.par.leaves, exSum.logger⟩,
      [true, false, true].map (Thread.evaluate exSum.par addBoth true [1, 2, 3])⟩ schedule).threads, ∃ r, t = .ret r :=
  ⟨exSum_readBy, fun _ => ⟨by simp, by simp [exSum, Objective.new, Logger.new, Logger.reset],
    by simp [exSum, Objective.new, Logger.new, Logger.reset]⟩, C140_can_finish _⟩

/-- The points of the example can be evaluated. -/
example : ∀ q ∈ [([(1 : ℝ), 2, 3], true), ([4, 5, 6], false)], (setPar exSum.par q.1 true).2 = none := by
  obtain ⟨eigh, he⟩ := exists_eigh
  have hw := (exDict_built eigh).wf he
  have hset : ∀ a b c : ℝ, (setPar exDict [a, b, c] true).2 = none := by
    intro a b c
    simp only [setPar, if_true]
    rw [exDict.setFree_ok hw _ (by rw [exDict_freeSize]; rfl)]
  intro q hq
  simp only [List.mem_cons, List.not_mem_nil, or_false] at hq
  rcases hq with rfl | rfl <;> exact hset _ _ _

end

end LRVB
