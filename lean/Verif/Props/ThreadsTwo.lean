import Verif.Model.ThreadsTwo
import Verif.Props.ThreadsDeriv
import Verif.Props.TwoObjective
import Verif.Props.Grouping

/-!
# C187: threads that share a two-parameter objective or a converter
-/

namespace LRVB

open Classical

noncomputable section

variable {S : ℕ → Prop}

/-! ### Two-parameter objectives -/

theorem tidy_two (par1 par2 : Param) (c : TwoThreadCall) : (c.thread par1 par2).Tidy S := by
  cases c with
  | value fn free1 free2 x1 x2 => exact tidy_sets (tidy_sets (tidy_user (k := fun v => .ret (.ok v)) (fun v => trivial) fn) _) _
  | deriv fn free1 free2 t1 t2 x1 x2 res =>
    have hlast : ∀ v, Thread.Tidy S (match res v with
      | .error e => .ret (.error e)
      | .ok d => Thread.sets free1 (par1.setSteps free1 x1 0) <|
          Thread.sets free2 (par2.setSteps free2 x2 par1.leaves.length) <| .ret (.ok d)) := by
      intro v
      split
      · trivial
      · exact tidy_sets (tidy_sets (k := .ret (.ok _)) trivial _) _
    have ho1 : ∀ j y, .call j y ∈ par1.setSteps free1 x1 0 → ∀ v, Thread.Owes j (match res v with
      | .error e => .ret (.error e)
      | .ok d => Thread.sets free1 (par1.setSteps free1 x1 0) <|
          Thread.sets free2 (par2.setSteps free2 x2 par1.leaves.length) <| .ret (.ok d)) := by
      intro j y hy v
      split
      · trivial
      · exact owes_sets _ (.inr ⟨y, hy⟩)
    have ho2 : ∀ j y, .call j y ∈ par2.setSteps free2 x2 par1.leaves.length → ∀ v, Thread.Owes j (match res v with
      | .error e => .ret (.error e)
      | .ok d => Thread.sets free1 (par1.setSteps free1 x1 0) <|
          Thread.sets free2 (par2.setSteps free2 x2 par1.leaves.length) <| .ret (.ok d)) := by
      intro j y hy v
      split
      · trivial
      · exact owes_sets _ (.inl (owes_sets _ (.inr ⟨y, hy⟩)))
    have h2 : Thread.Tidy S (Thread.setsIf t2 free2 (par2.setSteps free2 x2 par1.leaves.length) <|
        Thread.user fn fun v => match res v with
      | .error e => .ret (.error e)
      | .ok d => Thread.sets free1 (par1.setSteps free1 x1 0) <|
          Thread.sets free2 (par2.setSteps free2 x2 par1.leaves.length) <| .ret (.ok d)) := by
      cases t2
      · exact tidy_sets (tidy_user hlast fn) _
      · exact tidy_traceSets (tidy_user hlast fn) _ fun j y _ hy => owes_user (ho2 j y hy) fn
    cases t1
    · exact tidy_sets h2 _
    · refine tidy_traceSets h2 _ fun j y _ hy => ?_
      cases t2
      · exact owes_sets _ (.inl (owes_user (ho1 j y hy) fn))
      · exact owes_traceSets (owes_user (ho1 j y hy) fn) _

/-- **C187** (two parameters) Any number of threads call the value and derivative methods of a two-parameter objective,
at any points, in any parameterizations, with any user functions.  Whatever the schedule: when all calls have returned
without raising, both parameters hold numbers only. -/
theorem C187_two_parameters (par1 par2 : Param) (logger : Logger Arr)
    (hpar : ∀ l ∈ par1.leaves ++ par2.leaves, l.boxed = false) (calls : List TwoThreadCall) (schedule : List ℕ) (c : Threads)
    (hc : c = Threads.run ⟨⟨par1.leaves ++ par2.leaves, logger⟩, calls.map (TwoThreadCall.thread par1 par2)⟩ schedule)
    (hdone : ∀ t ∈ c.threads, ∃ v, t = .ret (.ok v)) :
    ∀ l ∈ c.shared.leaves, l.boxed = false := by
  have h := numbers_of_tidy (S := fun _ => True)
    ⟨⟨par1.leaves ++ par2.leaves, logger⟩, calls.map (TwoThreadCall.thread par1 par2)⟩
    (fun j l _ hl => hpar l (List.mem_of_getElem? hl))
    (fun t ht => by
      obtain ⟨cl, -, rfl⟩ := List.mem_map.1 ht
      exact tidy_two par1 par2 cl) schedule (hc ▸ hdone)
  intro l hl
  obtain ⟨n, hn, rfl⟩ := List.getElem_of_mem hl
  exact h n _ trivial (by rw [← hc]; exact List.getElem?_eq_getElem hn)

/-! ### A single thread -/

theorem Thread.sets_append (free : Bool) (k : Thread) : ∀ ms ms' : List SetStep,
    Thread.sets free (ms ++ ms') k = Thread.sets free ms (Thread.sets free ms' k)
  | [], _ => rfl
  | .raise e :: _, _ => rfl
  | .call i x :: ms, ms' => by
    simp only [List.cons_append, Thread.sets]
    rw [Thread.sets_append free k ms ms']

theorem Thread.traceSets_append (free : Bool) (k : Thread) : ∀ ms ms' : List SetStep,
    Thread.traceSets free (ms ++ ms') k = Thread.traceSets free ms (Thread.traceSets free ms' k)
  | [], _ => rfl
  | .raise e :: _, _ => rfl
  | .call i x :: ms, ms' => by
    simp only [List.cons_append, Thread.traceSets]
    rw [Thread.traceSets_append free k ms ms']

/-- The parameters with placeholders, or as they are. -/
def boxLeaves (t : Bool) (ls : List Leaf) : List Leaf := if t then ls.map fun l => { l with boxed := true } else ls

theorem boxLeaves_append (t : Bool) (a b : List Leaf) : boxLeaves t (a ++ b) = boxLeaves t a ++ boxLeaves t b := by
  cases t <;> simp [boxLeaves]

theorem boxLeaves_length (t : Bool) (a : List Leaf) : (boxLeaves t a).length = a.length := by
  cases t <;> simp [boxLeaves]

theorem Thread.setsIf_append (t free : Bool) (k : Thread) (ms ms' : List SetStep) :
    Thread.setsIf t free (ms ++ ms') k = Thread.setsIf t free ms (Thread.setsIf t free ms' k) := by
  cases t
  · exact Thread.sets_append free k ms ms'
  · exact Thread.traceSets_append free k ms ms'

mutual
/-- A thread that sets one parameter among others, with nothing else going on. -/
theorem Param.alone_setsIf (t free : Bool) (lg : Logger Arr) (k : Thread) : ∀ (p : Param) (x : List ℝ) (pre post : List Leaf) (m : ℕ),
    m = pre.length → (setPar p x free).2 = none →
    (Thread.setsIf t free (p.setSteps free x m) k).alone ⟨pre ++ p.leaves ++ post, lg⟩ =
      k.alone ⟨pre ++ boxLeaves t (setPar p x free).1.leaves ++ post, lg⟩
  | .leaf l, x, pre, post, m, hm, h => by
    subst hm
    rw [setPar_leaf] at h ⊢
    have hget : (pre ++ [l] ++ post)[pre.length]? = some l := by simp
    have hset : ∀ l' : Leaf, (pre ++ [l] ++ post).set pre.length l' = pre ++ [l'] ++ post := by
      intro l'
      simp
    cases ho : setOutcome free l x with
    | error e => rw [ho] at h; cases h
    | ok l' =>
      have hc : ∀ lg, Shared.compute ⟨pre ++ [l] ++ post, lg⟩ free pre.length x = .ok l' := by
        intro lg
        simp only [Shared.compute, hget]
        exact ho
      cases t
      · simp only [Thread.setsIf, Bool.false_eq_true, if_false, Param.setSteps, Thread.sets, Thread.alone, Param.leaves,
          Shared.assign, hc, hset, boxLeaves]
      · simp only [Thread.setsIf, if_true, Param.setSteps, Thread.traceSets, Thread.alone, Param.leaves,
          Shared.assignTraced, hc, hset, boxLeaves, List.map_cons, List.map_nil]
  | .dict hd es, x, pre, post, m, hm, h => by
    rw [setPar_dict] at h ⊢
    unfold Param.setSteps
    by_cases hl : x.length ≠ (if free then hd.fs else hd.vs)
    · rw [if_pos hl] at h; cases h
    · rw [if_neg hl] at h ⊢
      rw [if_neg hl]
      exact Entries.alone_setsIf t free lg k es x 0 pre post m hm h
theorem Entries.alone_setsIf (t free : Bool) (lg : Logger Arr) (k : Thread) : ∀ (es : Entries) (x : List ℝ) (off : ℕ) (pre post : List Leaf) (m : ℕ),
    m = pre.length → (setParEntries es x off free).2 = none →
    (Thread.setsIf t free (Entries.setSteps free es x off m) k).alone ⟨pre ++ es.leaves ++ post, lg⟩ =
      k.alone ⟨pre ++ boxLeaves t (setParEntries es x off free).1.leaves ++ post, lg⟩
  | .nil, x, off, pre, post, m, hm, h => by
    have e : (setParEntries .nil x off free).1 = .nil := by cases free <;> rfl
    rw [e]
    cases t <;> simp [Thread.setsIf, Entries.setSteps, Thread.sets, Thread.traceSets, Entries.leaves, boxLeaves]
  | .cons key p rest, x, off, pre, post, m, hm, h => by
    rw [setParEntries_cons] at h ⊢
    unfold Entries.setSteps
    simp only
    set size := if free then p.freeSize else p.vecSize with hsize
    set part := Leaf.slice x off size with hpart
    have hlen : (setPar p part free).1.leaves.length = p.leaves.length := Param.leaves_length (setPar_blank _ _ _)
    cases hp : (setPar p part free).2 with
    | some e => rw [hp] at h; cases h
    | none =>
      rw [hp] at h
      simp only at h
      rw [Thread.setsIf_append]
      simp only [Entries.leaves]
      have h1 := Param.alone_setsIf t free lg (Thread.setsIf t free (Entries.setSteps free rest x (off + size) (m + p.leaves.length)) k)
        p part pre (rest.leaves ++ post) m hm hp
      rw [show pre ++ (p.leaves ++ rest.leaves) ++ post = pre ++ p.leaves ++ (rest.leaves ++ post) by simp, h1]
      have h2 := Entries.alone_setsIf t free lg k rest x (off + size) (pre ++ boxLeaves t (setPar p part free).1.leaves) post
        (m + p.leaves.length) (by rw [List.length_append, boxLeaves_length, hlen, hm]) h
      rw [show pre ++ boxLeaves t (setPar p part free).1.leaves ++ (rest.leaves ++ post) =
        pre ++ boxLeaves t (setPar p part free).1.leaves ++ rest.leaves ++ post by simp, h2]
      simp only [boxLeaves_append, List.append_assoc]
end

/-- The reader computes the function of the two parameters, from numbers or from placeholders for them. -/
def TwoObjective.ReadBy (o : TwoObjective Unit) (fn : Reader) : Prop :=
  ∀ p1 p2 : Param, p1.blank = o.par1.blank → p2.blank = o.par2.blank →
    fn.eval (p1.leaves ++ p2.leaves) = o.fn () (p1.mark false) (p2.mark false)

theorem boxLeaves_mark (t : Bool) (p : Param) : boxLeaves t p.leaves = (if t then p.mark true else p).leaves := by
  cases t
  · rfl
  · exact (Param.leaves_mark true p).symm

/-- **C187** (one thread) A thread that runs alone does what the value methods of a two-parameter objective do. -/
theorem C187_alone_value (o : TwoObjective Unit) (fn : Reader) (hfn : o.ReadBy fn) (free1 free2 : Bool) (x1 x2 : List ℝ)
    (h1 : (setPar o.par1 x1 free1).2 = none) (h2 : (setPar o.par2 x2 free2).2 = none) (lg : Logger Arr) :
    (Thread.evaluateTwo o.par1 o.par2 fn free1 free2 x1 x2).alone ⟨o.par1.leaves ++ o.par2.leaves, lg⟩ =
      (⟨(o.evalFun x1 x2 free1 free2 ()).1.par1.leaves ++ (o.evalFun x1 x2 free1 free2 ()).1.par2.leaves, lg⟩,
        (o.evalFun x1 x2 free1 free2 ()).2) := by
  have hl1 : (setPar o.par1 x1 free1).1.leaves.length = o.par1.leaves.length := Param.leaves_length (setPar_blank _ _ _)
  have a1 := Param.alone_setsIf false free1 lg (Thread.sets free2 (o.par2.setSteps free2 x2 o.par1.leaves.length) <|
    Thread.user fn fun v => .ret (.ok v)) o.par1 x1 [] o.par2.leaves 0 rfl h1
  have a2 := Param.alone_setsIf false free2 lg (Thread.user fn fun v => .ret (.ok v)) o.par2 x2
    (setPar o.par1 x1 free1).1.leaves [] o.par1.leaves.length hl1.symm h2
  simp only [Thread.setsIf, Bool.false_eq_true, if_false, boxLeaves, List.nil_append, List.append_nil] at a1 a2
  unfold Thread.evaluateTwo
  rw [a1, a2, Thread.alone_user]
  simp only [TwoObjective.evalFun, h1, h2, hfn _ _ (setPar_blank o.par1 x1 free1) (setPar_blank o.par2 x2 free2)]
  cases o.fn () ((setPar o.par1 x1 free1).1.mark false) ((setPar o.par2 x2 free2).1.mark false) <;> rfl

/-- **C187** (one thread) A thread that runs alone does what the derivative methods of a two-parameter objective do. -/
theorem C187_alone (o : TwoObjective Unit) (fn : Reader) (hfn : o.ReadBy fn) (free1 free2 t1 t2 : Bool) (x1 x2 : List ℝ)
    (h1 : (setPar o.par1 x1 free1).2 = none) (h2 : (setPar o.par2 x2 free2).2 = none) (lg : Logger Arr)
    (res : Arr → Py Arr) (r : TwoObjective Unit × Py Arr)
    (hr : r = o.cacheAndEval x1 x2 free1 free2 t1 t2 (o.valueAt free1 free2 () x1 x2 >>= res)) :
    (Thread.deriveTwo o.par1 o.par2 fn free1 free2 t1 t2 x1 x2 res).alone ⟨o.par1.leaves ++ o.par2.leaves, lg⟩ =
      (⟨r.1.par1.leaves ++ r.1.par2.leaves, lg⟩, r.2) := by
  subst hr
  have hb1 := setPar_blank o.par1 x1 free1
  have hb2 := setPar_blank o.par2 x2 free2
  set p1 := (setPar o.par1 x1 free1).1 with hp1
  set p2 := (setPar o.par2 x2 free2).1 with hp2
  set q1 := if t1 then p1.mark true else p1 with hq1
  set q2 := if t2 then p2.mark true else p2 with hq2
  have hbq1 : q1.blank = o.par1.blank := by
    rw [hq1]; split_ifs
    · rw [Param.mark_blank]; exact hb1
    · exact hb1
  have hbq2 : q2.blank = o.par2.blank := by
    rw [hq2]; split_ifs
    · rw [Param.mark_blank]; exact hb2
    · exact hb2
  have hm1 : q1.mark false = p1.mark false := by
    rw [hq1]; split_ifs
    · exact Param.mark_mark ..
    · rfl
  have hm2 : q2.mark false = p2.mark false := by
    rw [hq2]; split_ifs
    · exact Param.mark_mark ..
    · rfl
  have hl1 : q1.leaves.length = o.par1.leaves.length := Param.leaves_length hbq1
  have htr : o.trace x1 x2 free1 free2 t1 t2 = { o with par1 := q1, par2 := q2 } := by
    simp only [TwoObjective.trace, h1, h2]
    rfl
  have hval : o.valueAt free1 free2 () x1 x2 = fn.eval (q1.leaves ++ q2.leaves) := by
    rw [hfn q1 q2 hbq1 hbq2, hm1, hm2]
    simp only [TwoObjective.valueAt, TwoObjective.evalFun, h1, h2]
    rfl
  have e1 : setPar q1 x1 free1 = setPar o.par1 x1 free1 := setPar_eq hbq1.symm h1
  have e2 : setPar q2 x2 free2 = setPar o.par2 x2 free2 := setPar_eq hbq2.symm h2
  unfold Thread.deriveTwo
  have a1 := fun k => Param.alone_setsIf t1 free1 lg k o.par1 x1 [] o.par2.leaves 0 rfl h1
  have a2 := fun k => Param.alone_setsIf t2 free2 lg k o.par2 x2 q1.leaves [] o.par1.leaves.length hl1.symm h2
  simp only [List.nil_append, List.append_nil] at a1 a2
  rw [a1, boxLeaves_mark]
  rw [a2, boxLeaves_mark, Thread.alone_user]
  simp only
  simp only [TwoObjective.cacheAndEval, htr, hval]
  cases hv : fn.eval (q1.leaves ++ q2.leaves) with
  | error e => rfl
  | ok v =>
    rw [py_ok_bind]
    simp only
    cases hres : res v with
    | error e => rfl
    | ok d =>
      simp only [e1, e2, h1, h2]
      have hl1' : p1.leaves.length = o.par1.leaves.length := Param.leaves_length hb1
      have b1 := fun k => Param.alone_setsIf false free1 lg k q1 x1 [] q2.leaves 0 rfl (by rw [e1]; exact h1)
      have b2 := fun k => Param.alone_setsIf false free2 lg k q2 x2 p1.leaves [] o.par1.leaves.length hl1'.symm
        (by rw [e2]; exact h2)
      simp only [Thread.setsIf, Bool.false_eq_true, if_false, boxLeaves, List.nil_append, List.append_nil, e1, e2] at b1 b2
      have s1 : o.par1.setSteps free1 x1 0 = q1.setSteps free1 x1 0 := by
        rw [← Param.setSteps_blank, ← hbq1, Param.setSteps_blank]
      have s2 : o.par2.setSteps free2 x2 o.par1.leaves.length = q2.setSteps free2 x2 o.par1.leaves.length := by
        rw [← Param.setSteps_blank, ← hbq2, Param.setSteps_blank]
      rw [s1, s2, b1, b2]
      rfl

/-! ### Converters -/

mutual
theorem Param.setSteps_ge (free : Bool) {j : ℕ} {y : List ℝ} : ∀ (p : Param) (x : List ℝ) (i : ℕ),
    .call j y ∈ p.setSteps free x i → i ≤ j
  | .leaf l, x, i, h => by
    simp only [Param.setSteps, List.mem_singleton, SetStep.call.injEq] at h
    omega
  | .dict hd es, x, i, h => by
    simp only [Param.setSteps] at h
    split_ifs at h
    all_goals first
      | exact Entries.setSteps_ge free es x 0 i h
      | simp at h
theorem Entries.setSteps_ge (free : Bool) {j : ℕ} {y : List ℝ} : ∀ (es : Entries) (x : List ℝ) (off i : ℕ),
    .call j y ∈ Entries.setSteps free es x off i → i ≤ j
  | .nil, x, off, i, h => by simp [Entries.setSteps] at h
  | .cons k p rest, x, off, i, h => by
    simp only [Entries.setSteps, List.mem_append] at h
    rcases h with h | h
    · exact Param.setSteps_ge free p _ i h
    · exact le_trans (Nat.le_add_right _ _) (Entries.setSteps_ge free rest _ _ _ h)
end

theorem boxedAt_write {s : Shared} {n i j : ℕ} {y : List ℝ} {box : Bool} (hj : j < n)
    (h : (if box then s.assignTraced false (n + i) y else s.assign false (n + i) y).boxedAt j) : s.boxedAt j := by
  cases box
  · exact (boxedAt_assign h).1
  · obtain ⟨l, h1, h2⟩ := h
    simp only [if_true, Shared.assignTraced] at h1
    split at h1
    · exact ⟨l, h1, h2⟩
    · simp only [List.getElem?_set] at h1
      rw [if_neg (by omega)] at h1
      exact ⟨l, h1, h2⟩

theorem owes_rewrite {n j : ℕ} {k : Thread} (h : k.Owes j) : ∀ r : Rewriter, (Thread.rewrite n r k).Owes j
  | .ret (some e) => trivial
  | .ret none => h
  | .read i r => by
    rw [Thread.rewrite]
    intro s _
    cases hl : s.leaves[i]? with
    | none => simp only [hl]; trivial
    | some l => simp only [hl]; exact owes_rewrite h (r l)
  | .write i y box r => by
    rw [Thread.rewrite]
    intro s _
    cases hc : s.compute false (n + i) y with
    | error e => simp only [hc]; trivial
    | ok l => simp only [hc]; exact owes_rewrite h r

theorem tidy_rewrite {n : ℕ} {k : Thread} (h : k.Tidy (· < n)) : ∀ r : Rewriter, (Thread.rewrite n r k).Tidy (· < n)
  | .ret (some e) => trivial
  | .ret none => h
  | .read i r => by
    rw [Thread.rewrite]
    intro s
    refine ⟨fun j _ hb hn => absurd hb hn, ?_⟩
    cases hl : s.leaves[i]? with
    | none => simp only [hl]; trivial
    | some l => simp only [hl]; exact tidy_rewrite h (r l)
  | .write i y box r => by
    rw [Thread.rewrite]
    intro s
    refine ⟨fun j hj hb hn => absurd (boxedAt_write hj hb) hn, ?_⟩
    cases hc : s.compute false (n + i) y with
    | error e => simp only [hc]; trivial
    | ok l => simp only [hc]; exact tidy_rewrite h r

theorem owes_readLeaves {j : ℕ} : ∀ (m i : ℕ) (k : List Leaf → Thread), (∀ ls, (k ls).Owes j) →
    (Thread.readLeaves m i k).Owes j
  | 0, _, k, h => h []
  | m + 1, i, k, h => by
    rw [Thread.readLeaves]
    intro s _
    cases hl : s.leaves[i]? with
    | none => simp only [hl]; trivial
    | some l => simp only [hl]; exact owes_readLeaves m (i + 1) _ fun ls => h (l :: ls)

theorem tidy_readLeaves : ∀ (m i : ℕ) (k : List Leaf → Thread), (∀ ls, (k ls).Tidy S) → (Thread.readLeaves m i k).Tidy S
  | 0, _, k, h => h []
  | m + 1, i, k, h => by
    rw [Thread.readLeaves]
    intro s
    refine ⟨fun j _ hb hn => absurd hb hn, ?_⟩
    cases hl : s.leaves[i]? with
    | none => simp only [hl]; trivial
    | some l => simp only [hl]; exact tidy_readLeaves m (i + 1) _ fun ls => h (l :: ls)

theorem tidy_conv (parIn parOut : Param) (c : ConvThreadCall) :
    (c.thread parIn parOut).Tidy (· < parIn.leaves.length) := by
  cases c with
  | convert conv freeIn x out =>
    exact tidy_sets (tidy_rewrite (tidy_readLeaves _ _ (fun ls => .ret (out ls)) fun ls => trivial) conv) _
  | jacobian conv freeIn x res =>
    refine tidy_readLeaves _ _ _ fun old => ?_
    split
    · trivial
    · rename_i vs hvs
      refine tidy_traceSets (tidy_rewrite (tidy_readLeaves _ _ _ fun new => ?_) conv) _ fun j y _ hy =>
        owes_rewrite (owes_readLeaves _ _ _ fun new => ?_) conv
      · split
        · trivial
        · refine tidy_sets ?_ _
          unfold Thread.setsIf
          split_ifs
          · exact tidy_traceSets (k := .ret (.ok _)) trivial _ fun j y hj hy =>
              absurd (Param.setSteps_ge false parOut _ _ hy) (by omega)
          · exact tidy_sets (k := .ret (.ok _)) trivial _
      · split
        · trivial
        · exact owes_sets _ (.inr ⟨y, hy⟩)

/-- **C187** (the input of a converter) Any number of threads call the conversions and Jacobians of one converter, at any
points, with any user converters.  Whatever the schedule: when all calls have returned without raising, the input
parameter holds numbers only.

The full property says the same of the output parameter; it is false (`C187_output_counterexample`). -/
theorem C187_input_partial (parIn parOut : Param) (logger : Logger Arr) (hpar : ∀ l ∈ parIn.leaves, l.boxed = false)
    (calls : List ConvThreadCall) (schedule : List ℕ) (c : Threads)
    (hc : c = Threads.run ⟨⟨parIn.leaves ++ parOut.leaves, logger⟩, calls.map (ConvThreadCall.thread parIn parOut)⟩ schedule)
    (hdone : ∀ t ∈ c.threads, ∃ v, t = .ret (.ok v)) :
    ∀ l ∈ c.shared.leaves.take parIn.leaves.length, l.boxed = false := by
  have h := numbers_of_tidy (S := (· < parIn.leaves.length))
    ⟨⟨parIn.leaves ++ parOut.leaves, logger⟩, calls.map (ConvThreadCall.thread parIn parOut)⟩
    (fun j l hj hl => hpar l (List.mem_of_getElem? (i := j) (by
      simp only at hl
      rwa [List.getElem?_append_left hj] at hl)))
    (fun t ht => by
      obtain ⟨cl, -, rfl⟩ := List.mem_map.1 ht
      exact tidy_conv parIn parOut cl) schedule (hc ▸ hdone)
  intro l hl
  obtain ⟨n, hn, rfl⟩ := List.getElem_of_mem hl
  rw [List.length_take] at hn
  refine h n _ (by omega) ?_
  rw [← hc, List.getElem_take]
  exact List.getElem?_eq_getElem (by omega)

/-! ### A single thread of a converter -/

/-- What a user's converter does to the parameters when nothing else is going on. -/
def Rewriter.run (n : ℕ) : Rewriter → List Leaf → List Leaf × Option PyErr
  | .ret r, ls => (ls, r)
  | .read i k, ls =>
    match ls[i]? with
    | none => (ls, some .keyError)
    | some l => (k l).run n ls
  | .write i y box k, ls =>
    match ls[n + i]? with
    | none => (ls, some .keyError)
    | some l =>
      match l.setVector y with
      | .error e => (ls, some e)
      | .ok l' => k.run n (ls.set (n + i) (if box then { l' with boxed := true } else l'))

theorem Thread.alone_rewrite (n : ℕ) (lg : Logger Arr) (k : Thread) : ∀ (r : Rewriter) (ls : List Leaf),
    (Thread.rewrite n r k).alone ⟨ls, lg⟩ = match r.run n ls with
      | (ls', some e) => (⟨ls', lg⟩, .error e)
      | (ls', none) => k.alone ⟨ls', lg⟩
  | .ret (some e), ls => rfl
  | .ret none, ls => rfl
  | .read i r, ls => by
    simp only [Thread.rewrite, Thread.alone, id, Rewriter.run]
    cases ls[i]? with
    | none => rfl
    | some l => exact Thread.alone_rewrite n lg k (r l) ls
  | .write i y box r, ls => by
    simp only [Thread.rewrite, Thread.alone, Rewriter.run, Shared.assign, Shared.assignTraced, Shared.compute]
    cases hl : ls[n + i]? with
    | none => simp only; cases box <;> rfl
    | some l =>
      simp only [Bool.false_eq_true, if_false]
      cases hc : l.setVector y with
      | error e => simp only; cases box <;> rfl
      | ok l' =>
        simp only
        rw [← Thread.alone_rewrite n lg k r]
        cases box <;> rfl

theorem Thread.alone_readLeaves (lg : Logger Arr) : ∀ (mid pre post : List Leaf) (m i : ℕ) (k : List Leaf → Thread),
    m = mid.length → i = pre.length →
    (Thread.readLeaves m i k).alone ⟨pre ++ mid ++ post, lg⟩ = (k mid).alone ⟨pre ++ mid ++ post, lg⟩
  | [], pre, post, m, i, k, hm, hi => by subst hm; rfl
  | l :: mid, pre, post, m, i, k, hm, hi => by
    subst hm hi
    have hget : (pre ++ l :: mid ++ post)[pre.length]? = some l := by simp
    simp only [List.length_cons, Thread.readLeaves, Thread.alone, id, hget]
    have h := Thread.alone_readLeaves lg mid (pre ++ [l]) post mid.length (pre.length + 1) (fun ls => k (l :: ls)) rfl
      (by simp)
    simpa using h

/-- The program does what the user's converter does, and what it sets is a placeholder if the input is one. -/
def Converter.DoneBy (c : Converter) (conv : Rewriter) : Prop :=
  ∀ (p q : Param) (t : Bool), p.blank = c.parIn.blank → q.blank = c.parOut.blank →
    conv.run p.leaves.length ((p.mark t).leaves ++ q.leaves) =
      ((p.mark t).leaves ++ boxLeaves t (c.conv (p.mark false) q).1.leaves, (c.conv (p.mark false) q).2)

/-- **C187** (one thread) A thread that runs alone does what the conversions of a converter do. -/
theorem C187_alone_convert (c : Converter) (conv : Rewriter) (hd : c.DoneBy conv)
    (hconv : ∀ p q, (c.conv p q).1.blank = q.blank) (freeIn freeOut : Bool) (x : List ℝ)
    (hx : (setPar c.parIn x freeIn).2 = none) (lg : Logger Arr) (out : List Leaf → Py Arr)
    (hout : ∀ q : Param, q.blank = c.parOut.blank → out q.leaves = Arr.vec <$> Converter.readOut q freeOut) :
    (Thread.convert c.parIn c.parOut conv freeIn x out).alone ⟨c.parIn.leaves ++ c.parOut.leaves, lg⟩ =
      (⟨(c.convert freeIn freeOut x).1.parIn.leaves ++ (c.convert freeIn freeOut x).1.parOut.leaves, lg⟩,
        Arr.vec <$> (c.convert freeIn freeOut x).2) := by
  have hb := setPar_blank c.parIn x freeIn
  set p := (setPar c.parIn x freeIn).1 with hp
  have hl : p.leaves.length = c.parIn.leaves.length := Param.leaves_length hb
  have hpl : p.mark false = p := Param.mark_plain p (setPar_plain c.parIn x freeIn hx)
  have a1 := fun k => Param.alone_setsIf false freeIn lg k c.parIn x [] c.parOut.leaves 0 rfl hx
  simp only [Thread.setsIf, Bool.false_eq_true, if_false, boxLeaves, List.nil_append] at a1
  have hrun := hd p c.parOut false hb rfl
  simp only [hpl, boxLeaves, Bool.false_eq_true, if_false, hl] at hrun
  unfold Thread.convert
  rw [a1, Thread.alone_rewrite, hrun]
  simp only [Converter.convert, hx]
  rw [← hp, hpl]
  cases hq : (c.conv p c.parOut).2 with
  | some e => rfl
  | none =>
    have hbq := hconv p c.parOut
    simp only
    have h := Thread.alone_readLeaves lg (c.conv p c.parOut).1.leaves p.leaves [] c.parOut.leaves.length c.parIn.leaves.length
      (fun ls => .ret (out ls)) (Param.leaves_length hbq).symm hl.symm
    simp only [List.append_nil] at h
    rw [h, hout _ hbq]
    rfl

mutual
theorem Param.any_boxed : ∀ p : Param, (p.leaves.any (·.boxed)) = p.hasBox
  | .leaf l => by simp [Param.leaves, Param.hasBox]
  | .dict h es => by simpa [Param.leaves, Param.hasBox] using Entries.any_boxed es
theorem Entries.any_boxed : ∀ es : Entries, (es.leaves.any (·.boxed)) = es.hasBox
  | .nil => by simp [Entries.leaves, Entries.hasBox]
  | .cons k p rest => by
    simp only [Entries.leaves, Entries.hasBox, List.any_append]
    rw [Param.any_boxed p, Entries.any_boxed rest]
end

/-- **C187** (one thread) A thread that runs alone does what the Jacobian methods of a converter do, at every point at which
the conversion does not raise. -/
theorem C187_alone_jacobian (c : Converter) (conv : Rewriter) (hd : c.DoneBy conv)
    (hconv : ∀ p q, (c.conv p q).1.blank = q.blank) (hwf : c.parOut.WF) (hpar : c.parOut.HasParams)
    (freeIn freeOut : Bool) (x : List ℝ) (y w : List ℝ) (hy : (c.convert freeIn freeOut x).2 = .ok y)
    (hw : c.parOut.getVector = .ok w) (hback : (c.parOut.setVector w).2 = none) (lg : Logger Arr)
    (res : List Leaf → Py Arr)
    (hres : res (c.trace freeIn freeOut x).parOut.leaves = agJac (c.valueAt freeIn freeOut) x) :
    (Thread.jacobian c.parIn c.parOut conv freeIn x res).alone ⟨c.parIn.leaves ++ c.parOut.leaves, lg⟩ =
      (⟨(c.jacobian freeIn freeOut x).1.parIn.leaves ++ (c.jacobian freeIn freeOut x).1.parOut.leaves, lg⟩,
        (c.jacobian freeIn freeOut x).2) := by
  have hb := setPar_blank c.parIn x freeIn
  have hx : (setPar c.parIn x freeIn).2 = none := by
    cases h : (setPar c.parIn x freeIn).2 with
    | none => rfl
    | some e => simp only [Converter.convert, h] at hy; cases hy
  set p := (setPar c.parIn x freeIn).1 with hp
  have hq : (c.conv (p.mark false) c.parOut).2 = none := by
    cases h : (c.conv (p.mark false) c.parOut).2 with
    | none => rfl
    | some e => simp only [Converter.convert, hx, ← hp, h] at hy; cases hy
  set q := (c.conv (p.mark false) c.parOut).1 with hqd
  have hbq : q.blank = c.parOut.blank := hconv _ _
  have htr : c.trace freeIn freeOut x = { c with parIn := p.mark true, parOut := q.mark true } := by
    simp only [Converter.trace, Converter.convert, hx, ← hp, hq]
    rfl
  have hl : p.leaves.length = c.parIn.leaves.length := Param.leaves_length hb
  have hlm : (p.mark true).leaves.length = c.parIn.leaves.length := by rw [Param.leaves_mark, List.length_map, hl]
  have hlq : (q.mark true).leaves.length = c.parOut.leaves.length := by
    rw [Param.leaves_mark, List.length_map, Param.leaves_length hbq]
  have hbm : (p.mark true).blank = c.parIn.blank := by rw [Param.mark_blank]; exact hb
  have hbqm : (q.mark true).blank = c.parOut.blank := by rw [Param.mark_blank]; exact hbq
  have eIn : setPar (p.mark true) x freeIn = setPar c.parIn x freeIn := setPar_eq hbm.symm hx
  have hback' : (setPar c.parOut w false).2 = none := hback
  have eOut : setPar (q.mark true) w false = setPar c.parOut w false := setPar_eq hbqm.symm hback'
  -- reading the old output
  obtain ⟨vs, hvs, hvw⟩ : ∃ vs, c.parOut.leaves.mapM Leaf.getVector = .ok vs ∧ vs.flatten = w := by
    have h := Param.getVector_leaves c.parOut hwf hpar
    rw [hw] at h
    cases hm : c.parOut.leaves.mapM Leaf.getVector with
    | error e => rw [hm] at h; cases h
    | ok vs =>
      rw [hm] at h
      exact ⟨vs, rfl, (Except.ok.inj h).symm⟩
  unfold Thread.jacobian
  have h0 := fun k => Thread.alone_readLeaves lg c.parOut.leaves c.parIn.leaves [] c.parOut.leaves.length
    c.parIn.leaves.length k rfl rfl
  simp only [List.append_nil] at h0
  rw [h0]
  simp only [hvs, hvw]
  have a1 := fun k => Param.alone_setsIf true freeIn lg k c.parIn x [] c.parOut.leaves 0 rfl hx
  simp only [Thread.setsIf, if_true, List.nil_append, ← hp] at a1
  have hrun := hd p c.parOut true hb rfl
  rw [hl, ← hqd, hq] at hrun
  have hbp : boxLeaves true p.leaves = (p.mark true).leaves := boxLeaves_mark true p
  have hbq' : boxLeaves true q.leaves = (q.mark true).leaves := boxLeaves_mark true q
  rw [a1, hbp, Thread.alone_rewrite, hrun, hbq']
  simp only
  have h2 := fun k => Thread.alone_readLeaves lg (q.mark true).leaves (p.mark true).leaves [] c.parOut.leaves.length
    c.parIn.leaves.length k hlq.symm hlm.symm
  simp only [List.append_nil] at h2
  rw [h2]
  have hres' : res (q.mark true).leaves = agJac (c.valueAt freeIn freeOut) x := by rw [← hres, htr]
  simp only [hres', Converter.jacobian, hw, htr]
  cases hJ : agJac (c.valueAt freeIn freeOut) x with
  | error e => rfl
  | ok J =>
    have s1 : c.parIn.setSteps freeIn x 0 = (p.mark true).setSteps freeIn x 0 := by
      rw [← Param.setSteps_blank, ← hbm, Param.setSteps_blank]
    have s2 : c.parOut.setSteps false w c.parIn.leaves.length = (q.mark true).setSteps false w c.parIn.leaves.length := by
      rw [← Param.setSteps_blank, ← hbqm, Param.setSteps_blank]
    have b1 := fun k => Param.alone_setsIf false freeIn lg k (p.mark true) x [] (q.mark true).leaves 0 rfl
      (by rw [eIn]; exact hx)
    simp only [Thread.setsIf, Bool.false_eq_true, if_false, boxLeaves, List.nil_append, eIn, ← hp] at b1
    have b2 := fun k => Param.alone_setsIf c.parOut.hasBox false lg k (q.mark true) w p.leaves [] c.parIn.leaves.length
      hl.symm (by rw [eOut]; exact hback')
    simp only [List.append_nil, eOut] at b2
    have hsv : (q.mark true).setVector w = setPar c.parOut w false := eOut
    simp only [s1, s2, Param.any_boxed]
    rw [b1, b2, boxLeaves_mark]
    simp only [eIn, hx, hsv, hback', ← hp]
    rfl

/-! ### Examples -/

/-- `VectorParam('w', size=1, val=[0])` -/
def exCell : Leaf := ⟨"w", .vector 1 Flt.ninf Flt.pinf, Arr.vec [0], false⟩

theorem exCell_set (v : Arr) (b : Bool) (a : ℝ) : Leaf.setVector ⟨exCell.name, exCell.kind, v, b⟩ [a] =
    .ok { exCell with val := Arr.vec [a] } := by
  simp [Leaf.setVector, Leaf.set, exCell, Arr.vec, Arr.size]

/-- A converter that copies the first number: what it sets is a placeholder if what it reads is one. -/
def copyOne : Rewriter := .read 0 fun l => .write 0 [l.val.data.getD 0 0] l.boxed (.ret none)

/-- The Jacobian of the copy. -/
def exJac (a : ℝ) : ConvThreadCall := .jacobian copyOne false [a] fun _ => .ok (Arr.scalar 1)

/-- **C187** (the output of a converter) Two threads compute the Jacobian of a converter that copies one number.  Both
return without raising, and the output parameter, which held a number, holds a placeholder: the second thread has
taken the placeholder of the first one for the value to put back. -/
theorem C187_output_counterexample : ∃ schedule : List ℕ, ∀ c : Threads,
    c = Threads.run ⟨⟨[exCell] ++ [exCell], Logger.new 1⟩,
      [exJac 3, exJac 4].map (ConvThreadCall.thread (.leaf exCell) (.leaf exCell))⟩ schedule →
    (∀ l ∈ [exCell] ++ [exCell], l.boxed = false) ∧ (∀ t ∈ c.threads, ∃ v, t = .ret (.ok v)) ∧
      ∃ l, c.shared.leaves[1]? = some l ∧ l.boxed = true := by
  refine ⟨[0, 0, 0, 0, 1, 0, 0, 0, 1, 1, 1, 1, 1, 1], ?_⟩
  rintro c rfl
  have k := exCell_set exCell.val exCell.boxed
  refine ⟨by simp [exCell], ?_⟩
  have hg : ∀ (a : List ℝ) (b : Bool), Leaf.getVector ⟨exCell.name, exCell.kind, Arr.vec a, b⟩ = .ok a := fun a b => rfl
  have hg0 : exCell.getVector = .ok [0] := rfl
  have hb : exCell.boxed = false := rfl
  simp [exJac, ConvThreadCall.thread, Thread.jacobian, Param.setSteps, Param.leaves, Threads.run, Threads.step, Thread.next,
    Thread.readLeaves, Thread.rewrite, copyOne, Thread.sets, Thread.traceSets, Thread.setsIf, Shared.assign,
    Shared.assignTraced, Shared.compute, k, exCell_set, hg, hg0, hb]

/-- The sum of the two numbers. -/
def addCells : Reader :=
  .read 0 fun a => .read 1 fun b => .ret (.ok (Arr.scalar (a.val.data.getD 0 0 + b.val.data.getD 0 0)))

/-- The hypotheses of `C187_two_parameters` hold for a Hessian and a value whose steps alternate. -/
example : (∀ l ∈ (Param.leaf exCell).leaves ++ (Param.leaf exCell).leaves, l.boxed = false) ∧
    ∀ t ∈ (Threads.run ⟨⟨(Param.leaf exCell).leaves ++ (Param.leaf exCell).leaves, Logger.new 1⟩,
      [TwoThreadCall.deriv addCells false false true true [1] [2] .ok,
        TwoThreadCall.value addCells false false [3] [4]].map (TwoThreadCall.thread (.leaf exCell) (.leaf exCell))⟩
      [0, 1, 0, 1, 0, 1, 0, 1, 0, 0]).threads, ∃ v, t = .ret (.ok v) := by
  have k := exCell_set exCell.val exCell.boxed
  refine ⟨by simp [exCell, Param.leaves], ?_⟩
  simp [TwoThreadCall.thread, Thread.evaluateTwo, Thread.deriveTwo, Param.setSteps, Param.leaves, Threads.run, Threads.step,
    Thread.next, Thread.sets, Thread.traceSets, Thread.setsIf, Shared.assign, Shared.assignTraced, Shared.compute, k,
    exCell_set, Thread.user, addCells]

/-- The sum as a two-parameter objective. -/
def exCells : TwoObjective Unit := ⟨.leaf exCell, .leaf exCell, fun _ p q => addCells.eval (p.leaves ++ q.leaves)⟩

/-- The hypotheses of `C187_alone` and `C187_alone_value` hold for the sum. -/
example : exCells.ReadBy addCells ∧ (setPar exCells.par1 [1] false).2 = none ∧ (setPar exCells.par2 [2] false).2 = none := by
  have k := exCell_set exCell.val exCell.boxed
  have hs : ∀ a, (setPar (.leaf exCell) [a] false).2 = none := by
    intro a
    rw [setPar_leaf]
    have : setOutcome false exCell [a] = _ := k a
    rw [this]
  refine ⟨fun p1 p2 _ _ => ?_, hs 1, hs 2⟩
  show _ = addCells.eval _
  rw [Param.leaves_mark, Param.leaves_mark, ← List.map_append]
  simp only [addCells, Reader.eval, List.getElem?_map]
  cases (p1.leaves ++ p2.leaves)[0]? <;> cases (p1.leaves ++ p2.leaves)[1]? <;> rfl

/-- The hypotheses of `C187_input_partial` hold for the two Jacobians of `C187_output_counterexample`. -/
example : (∀ l ∈ (Param.leaf exCell).leaves, l.boxed = false) ∧
    ∃ schedule : List ℕ, ∀ t ∈ (Threads.run ⟨⟨(Param.leaf exCell).leaves ++ (Param.leaf exCell).leaves, Logger.new 1⟩,
      [exJac 3, exJac 4].map (ConvThreadCall.thread (.leaf exCell) (.leaf exCell))⟩ schedule).threads,
      ∃ v, t = .ret (.ok v) := by
  obtain ⟨schedule, h⟩ := C187_output_counterexample
  exact ⟨by simp [exCell, Param.leaves], schedule, (h _ rfl).2.1⟩

/-- The copy as a converter. -/
def exCopy : Converter := ⟨.leaf exCell, .leaf exCell, fun p q => q.setVector [(p.leaves.getD 0 exCell).val.data.getD 0 0]⟩

/-- The hypotheses of `C187_alone_convert` and `C187_alone_jacobian` hold for the copy. -/
example : exCopy.DoneBy copyOne ∧ (∀ p q, (exCopy.conv p q).1.blank = q.blank) ∧ exCopy.parOut.WF ∧
    exCopy.parOut.HasParams ∧ (setPar exCopy.parIn [5] false).2 = none ∧ (exCopy.convert false false [5]).2 = .ok [5] ∧
    exCopy.parOut.getVector = .ok [0] ∧ (exCopy.parOut.setVector [0]).2 = none := by
  have hs : ∀ (v : Arr) (b : Bool) (a : ℝ), (Param.leaf ⟨exCell.name, exCell.kind, v, b⟩).setVector [a] =
      (.leaf { exCell with val := Arr.vec [a] }, none) := by
    intro v b a
    simp only [Param.setVector, exCell_set]
  have hx : setPar exCopy.parIn [5] false = (.leaf { exCell with val := Arr.vec [5] }, none) := hs _ _ 5
  refine ⟨?_, fun p q => setPar_blank q _ false, ?_, trivial, by rw [hx], ?_, rfl, by rw [show exCopy.parOut.setVector [0] = _ from hs _ _ 0]⟩
  · intro p q t hp hq
    cases p with
    | dict h es => simp [exCopy, Param.blank] at hp
    | leaf l =>
      cases q with
      | dict h es => simp [exCopy, Param.blank] at hq
      | leaf m =>
        obtain ⟨n1, k1, v1, b1⟩ := l
        obtain ⟨n2, k2, v2, b2⟩ := m
        simp only [exCopy, Param.blank, Param.leaf.injEq, Leaf.mk.injEq] at hp hq
        obtain ⟨rfl, rfl, -⟩ := hp
        obtain ⟨rfl, rfl, -⟩ := hq
        cases t <;>
          simp [copyOne, Rewriter.run, Param.mark, Param.leaves, exCopy, exCell_set, Param.setVector, boxLeaves]
  · simp [exCopy, Param.WF, Kind.Legal, exCell]
  · simp only [Converter.convert, hx]
    simp only [exCopy, Param.mark, Param.leaves, List.getD_cons_zero]
    rw [hs]
    rfl

end

end LRVB
