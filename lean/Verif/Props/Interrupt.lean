import Verif.Model.Interrupt
import Verif.Spec.Interrupt
import Verif.Props.Minimize

/-!
# Interruptions: C137, C138, C139
-/

namespace LRVB

open Classical

noncomputable section

/-! ### The parameter -/

mutual
theorem Param.leaves_length_blank : ∀ p : Param, p.blank.leaves.length = p.leaves.length
  | .leaf _ => rfl
  | .dict _ es => Entries.leaves_length_blank es
theorem Entries.leaves_length_blank : ∀ es : Entries, es.blank.leaves.length = es.leaves.length
  | .nil => rfl
  | .cons _ p rest => by
    simp only [Entries.blank, Entries.leaves, List.length_append, Param.leaves_length_blank p,
      Entries.leaves_length_blank rest]
end

theorem Param.leaves_length {p q : Param} (h : p.blank = q.blank) : p.leaves.length = q.leaves.length := by
  rw [← p.leaves_length_blank, h, q.leaves_length_blank]

mutual
theorem Param.during_blank (free box : Bool) : ∀ (p : Param) (x : List ℝ), ∀ q ∈ p.during free box x,
    q.blank = p.blank
  | .leaf l, x, q, hq => by
    unfold Param.during at hq
    rcases List.mem_cons.1 hq with rfl | hq
    · rfl
    · cases free with
      | true =>
        rw [if_pos rfl] at hq
        cases h : l.setFree x with
        | error e => rw [h] at hq; simp at hq
        | ok l' =>
          rw [h] at hq
          rw [List.mem_singleton.1 hq]
          have := Param.setFree_blank (.leaf l) x
          simp only [Param.setFree, h] at this
          rw [← this]
          rfl
      | false =>
        rw [if_neg (by simp)] at hq
        cases h : l.setVector x with
        | error e => rw [h] at hq; simp at hq
        | ok l' =>
          rw [h] at hq
          rw [List.mem_singleton.1 hq]
          have := Param.setVector_blank (.leaf l) x
          simp only [Param.setVector, h] at this
          rw [← this]
          rfl
  | .dict h es, x, q, hq => by
    unfold Param.during at hq
    split_ifs at hq
    · rw [List.mem_singleton.1 hq]
    all_goals
      first
      | (obtain ⟨es', he, rfl⟩ := List.mem_map.1 hq
         simp only [Param.blank, Entries.during_blank free box es x 0 es' he])
      | (rw [List.mem_singleton.1 hq])
theorem Entries.during_blank (free box : Bool) : ∀ (es : Entries) (x : List ℝ) (off : ℕ),
    ∀ q ∈ Entries.during free box es x off, q.blank = es.blank
  | .nil, _, _, q, hq => by
    unfold Entries.during at hq
    rw [List.mem_singleton.1 hq]
  | .cons k p rest, x, off, q, hq => by
    unfold Entries.during at hq
    simp only at hq
    rcases List.mem_append.1 hq with hq | hq
    · obtain ⟨p', hp, rfl⟩ := List.mem_map.1 hq
      simp only [Entries.blank, Param.during_blank free box p _ p' hp]
    · split at hq
      · simp at hq
      · obtain ⟨es', he, rfl⟩ := List.mem_map.1 hq
        simp only [Entries.blank, Entries.during_blank free box rest x _ es' he]
        congr 1
        split_ifs <;> first | rw [Param.mark_blank, setPar_blank] | rw [setPar_blank]
end

/-- The loop of `set_free` or `set_vector`. -/
def setParEntries (es : Entries) (x : List ℝ) (off : ℕ) (free : Bool) : Entries × Option PyErr :=
  if free then Param.setFreeEntries es x off else Param.setVectorEntries es x off

theorem setPar_dict (h : Hdr) (es : Entries) (x : List ℝ) (free : Bool) :
    setPar (.dict h es) x free = if x.length ≠ (if free then h.fs else h.vs) then (.dict h es, some .valueError)
      else (.dict h (setParEntries es x 0 free).1, (setParEntries es x 0 free).2) := by
  cases free <;> simp [setPar, setParEntries, Param.setFree, Param.setVector]

theorem setParEntries_cons (k : String) (p : Param) (rest : Entries) (x : List ℝ) (off : ℕ) (free : Bool) :
    setParEntries (.cons k p rest) x off free =
      match (setPar p (Leaf.slice x off (if free then p.freeSize else p.vecSize)) free).2 with
      | some e => (.cons k (setPar p (Leaf.slice x off (if free then p.freeSize else p.vecSize)) free).1 rest, some e)
      | none =>
        (.cons k (setPar p (Leaf.slice x off (if free then p.freeSize else p.vecSize)) free).1
          (setParEntries rest x (off + (if free then p.freeSize else p.vecSize)) free).1,
        (setParEntries rest x (off + (if free then p.freeSize else p.vecSize)) free).2) := by
  cases free <;> rfl

/-- The value that was assigned: a placeholder or a number. -/
def Param.boxIf (box : Bool) (p : Param) : Param := if box then p.mark true else p

def Entries.boxIf (box : Bool) (es : Entries) : Entries := if box then es.mark true else es

theorem Param.boxIf_dict (box : Bool) (h : Hdr) (es : Entries) :
    Param.boxIf box (.dict h es) = .dict h (es.boxIf box) := by
  cases box <;> rfl

theorem Entries.boxIf_cons (box : Bool) (k : String) (p : Param) (es : Entries) :
    Entries.boxIf box (.cons k p es) = .cons k (p.boxIf box) (es.boxIf box) := by
  cases box <;> rfl

theorem Param.boxIf_blank (box : Bool) (p : Param) : (p.boxIf box).blank = p.blank := by
  cases box
  · rfl
  · exact Param.mark_blank true p

mutual
/-- The states during an assignment: the first parameters have their new values, the others the old ones. -/
theorem Param.during_leaves (free box : Bool) : ∀ (p : Param) (x : List ℝ), (setPar p x free).2 = none →
    (∀ q ∈ p.during free box x, ∃ k, q.leaves = ((setPar p x free).1.boxIf box).leaves.take k ++ p.leaves.drop k) ∧
    ∀ k, ∃ q ∈ p.during free box x, q.leaves = ((setPar p x free).1.boxIf box).leaves.take k ++ p.leaves.drop k
  | .leaf l, x, hs => by
    have h1 : ∃ l', (if free then l.setFree x else l.setVector x) = .ok l' ∧ l'.boxed = false ∧
        (setPar (.leaf l) x free).1 = .leaf l' := by
      have hp := setPar_plain (.leaf l) x free hs
      cases free with
      | true =>
        cases h : l.setFree x with
        | error e => simp [setPar, Param.setFree, h] at hs
        | ok l' =>
          simp only [setPar, Param.setFree, h, if_true] at hp ⊢
          exact ⟨l', rfl, hp, rfl⟩
      | false =>
        cases h : l.setVector x with
        | error e => simp [setPar, Param.setVector, h] at hs
        | ok l' =>
          simp only [setPar, Param.setVector, h, Bool.false_eq_true, if_false] at hp ⊢
          exact ⟨l', rfl, hp, rfl⟩
    obtain ⟨l', h1, h2, h3⟩ := h1
    have h4 : (Param.boxIf box (.leaf l')).leaves = [{ l' with boxed := box }] := by
      cases box
      · show [l'] = [{ l' with boxed := false }]
        rw [← h2]
      · rfl
    rw [h3, h4]
    unfold Param.during
    rw [h1]
    refine ⟨?_, ?_⟩
    · intro q hq
      rcases List.mem_cons.1 hq with rfl | hq
      · exact ⟨0, rfl⟩
      · rw [List.mem_singleton.1 hq]
        exact ⟨1, rfl⟩
    · intro k
      cases k with
      | zero => exact ⟨_, List.mem_cons_self, rfl⟩
      | succ k => exact ⟨_, List.mem_cons_of_mem _ (List.mem_singleton.2 rfl), by simp [Param.leaves]⟩
  | .dict h es, x, hs => by
    rw [setPar_dict] at hs ⊢
    unfold Param.during
    by_cases hl : x.length ≠ (if free then h.fs else h.vs)
    · rw [if_pos hl] at hs
      exact absurd hs (by simp)
    · simp only [if_neg hl] at hs ⊢
      obtain ⟨h1, h2⟩ := Entries.during_leaves free box es x 0 hs
      rw [Param.boxIf_dict]
      refine ⟨?_, ?_⟩
      · intro q hq
        obtain ⟨es', he, rfl⟩ := List.mem_map.1 hq
        exact h1 es' he
      · intro k
        obtain ⟨es', he, h3⟩ := h2 k
        exact ⟨_, List.mem_map_of_mem he, h3⟩
theorem Entries.during_leaves (free box : Bool) : ∀ (es : Entries) (x : List ℝ) (off : ℕ),
    (setParEntries es x off free).2 = none →
    (∀ q ∈ Entries.during free box es x off,
      ∃ k, q.leaves = ((setParEntries es x off free).1.boxIf box).leaves.take k ++ es.leaves.drop k) ∧
    ∀ k, ∃ q ∈ Entries.during free box es x off,
      q.leaves = ((setParEntries es x off free).1.boxIf box).leaves.take k ++ es.leaves.drop k
  | .nil, x, off, hs => by
    have h1 : ((setParEntries .nil x off free).1.boxIf box).leaves = [] := by cases free <;> cases box <;> rfl
    rw [h1]
    unfold Entries.during
    exact ⟨fun q hq => ⟨0, by rw [List.mem_singleton.1 hq]; rfl⟩,
      fun k => ⟨_, List.mem_singleton.2 rfl, by simp [Entries.leaves]⟩⟩
  | .cons k p rest, x, off, hs => by
    rw [setParEntries_cons] at hs ⊢
    unfold Entries.during
    simp only
    set size := if free then p.freeSize else p.vecSize with hsize
    set part := Leaf.slice x off size with hpart
    cases hp : (setPar p part free).2 with
    | some e => rw [hp] at hs; exact absurd hs (by simp)
    | none =>
      rw [hp] at hs
      simp only at hs ⊢
      obtain ⟨a1, a2⟩ := Param.during_leaves free box p part hp
      obtain ⟨b1, b2⟩ := Entries.during_leaves free box rest x (off + size) hs
      rw [Entries.boxIf_cons]
      have hb : (if box then (setPar p part free).1.mark true else (setPar p part free).1) =
        (setPar p part free).1.boxIf box := rfl
      rw [hb]
      have hlen : ((setPar p part free).1.boxIf box).leaves.length = p.leaves.length :=
        Param.leaves_length ((Param.boxIf_blank _ _).trans (setPar_blank _ _ _))
      generalize (setPar p part free).1.boxIf box = p' at *
      generalize (setParEntries rest x (off + size) free).1.boxIf box = rest' at *
      simp only [Entries.leaves]
      have low : ∀ m, m ≤ p.leaves.length → (p'.leaves ++ rest'.leaves).take m ++ (p.leaves ++ rest.leaves).drop m =
          (p'.leaves.take m ++ p.leaves.drop m) ++ rest.leaves := by
        intro m hm
        rw [List.take_append_of_le_length (by omega), List.drop_append_of_le_length hm, List.append_assoc]
      have high : ∀ m, (p'.leaves ++ rest'.leaves).take (p.leaves.length + m) ++
          (p.leaves ++ rest.leaves).drop (p.leaves.length + m) =
          p'.leaves ++ (rest'.leaves.take m ++ rest.leaves.drop m) := by
        intro m
        rw [← hlen, List.take_length_add_append, hlen, List.drop_length_add_append, List.append_assoc]
      refine ⟨?_, ?_⟩
      · intro q hq
        rcases List.mem_append.1 hq with hq | hq
        · obtain ⟨q', hq', rfl⟩ := List.mem_map.1 hq
          obtain ⟨m, hm⟩ := a1 q' hq'
          by_cases hmm : m ≤ p.leaves.length
          · exact ⟨m, by rw [low m hmm, ← hm]; rfl⟩
          · refine ⟨p.leaves.length, ?_⟩
            rw [low _ le_rfl]
            have : q'.leaves = p'.leaves := by
              rw [hm, List.take_of_length_le (by omega), List.drop_eq_nil_of_le (by omega), List.append_nil]
            simp only [Entries.leaves, this]
            rw [List.take_of_length_le (by omega), List.drop_eq_nil_of_le le_rfl, List.append_nil]
        · obtain ⟨es', he, rfl⟩ := List.mem_map.1 hq
          obtain ⟨m, hm⟩ := b1 es' he
          exact ⟨p.leaves.length + m, by rw [high, ← hm]; rfl⟩
      · intro m
        by_cases hmm : m ≤ p.leaves.length
        · obtain ⟨q', hq', hm⟩ := a2 m
          exact ⟨_, List.mem_append_left _ (List.mem_map_of_mem hq'), by rw [low m hmm, ← hm]; rfl⟩
        · obtain ⟨es', he, hm⟩ := b2 (m - p.leaves.length)
          refine ⟨_, List.mem_append_right _ (List.mem_map_of_mem he), ?_⟩
          have := high (m - p.leaves.length)
          rw [Nat.add_sub_cancel' (by omega)] at this
          rw [this, ← hm]
          rfl
end

/-! ### C137 -/

/-- **C137** Whenever `set_free(x)` or `set_vector(x)` of a parameter or dictionary is interrupted, there is a number
`k` such that the first `k` of the parameters in it have their new values and the others the old ones; all `k`
occur.  Names and sizes are as before, and the next assignment has the same outcome as without the
interruption. -/
theorem C137_interrupted_assignment (free : Bool) (p : Param) (x : List ℝ) (hx : (setPar p x free).2 = none) :
    (∀ q ∈ p.during free false x, (∃ k, q.leaves = (setPar p x free).1.leaves.take k ++ p.leaves.drop k) ∧
      q.name = p.name ∧ q.freeSize = p.freeSize ∧ q.vecSize = p.vecSize ∧
      ∀ y free', (setPar q y free').2 = (setPar p y free').2 ∧
        ((setPar p y free').2 = none → (setPar q y free').1 = (setPar p y free').1)) ∧
    ∀ k, ∃ q ∈ p.during free false x, q.leaves = (setPar p x free).1.leaves.take k ++ p.leaves.drop k := by
  obtain ⟨h1, h2⟩ := p.during_leaves free false x hx
  refine ⟨fun q hq => ?_, h2⟩
  have hb := p.during_blank free false x q hq
  refine ⟨h1 q hq, ?_, Param.freeSize_of_blank hb, Param.vecSize_of_blank hb, fun y f => setPar_indep hb.symm y f⟩
  have : ∀ r : Param, r.blank.name = r.name := fun r => by cases r <;> rfl
  rw [← this q, hb, this]

/-- **C137** The same when the assignment would have raised half way: names, sizes and the effect of the next
assignment are as before. -/
theorem C137_interrupted_failure (free : Bool) (p : Param) (x : List ℝ) :
    ∀ q ∈ p.during free false x, q.freeSize = p.freeSize ∧ q.vecSize = p.vecSize ∧
      ∀ y free', (setPar q y free').2 = (setPar p y free').2 ∧
        ((setPar p y free').2 = none → (setPar q y free').1 = (setPar p y free').1) := by
  intro q hq
  have hb := p.during_blank free false x q hq
  exact ⟨Param.freeSize_of_blank hb, Param.vecSize_of_blank hb, fun y f => setPar_indep hb.symm y f⟩

/-! ### C138 -/

/-- Objects on which calls have the same outcome. -/
structure Sim (o p : Objective Unit) : Prop where
  same : SameObj o p
  logger : o.logger.Same p.logger

/-- Calls with the same outcome on such objects. -/
def Twin {β : Type} (f : Objective Unit → Objective Unit × Py β) : Prop :=
  ∀ o p, Sim o p → (f p).2 = (f o).2 ∧
    ∀ v, (f o).2 = .ok v → Sim (f o).1 (f p).1 ∧ (f p).1.par = (f o).1.par

theorem Logger.Same.log {V : Type} {l l' : Logger V} (h : l.Same l') (v : V) (x : List ℝ) :
    (l'.log v x).2 = (l.log v x).2 ∧ (l.log v x).1.Same (l'.log v x).1 := by
  obtain ⟨a, b, c, d, e, f, g, h', i, j⟩ := l
  obtain ⟨a', b', c', d', e', f', g', h'', i', j'⟩ := l'
  simp only [Logger.Same, Logger.mk.injEq] at h
  obtain ⟨rfl, rfl, rfl, rfl, rfl, rfl, rfl, rfl, rfl, -⟩ := h
  unfold Logger.log
  simp only
  split_ifs <;> exact ⟨rfl, rfl⟩

theorem twin_funFree (x : List ℝ) (b : Bool) : Twin fun o => o.funFree x () b := by
  intro o p h
  have i := setPar_indep h.same.blank.symm x true
  have e1 : (p.par.setFree x).2 = (o.par.setFree x).2 := i.1
  have hs := (SameObj.funFree o x b).fn
  cases hn : (o.par.setFree x).2 with
  | some e =>
    have a1 : (o.funFree x () b).2 = .error e := by
      unfold Objective.funFree
      simp only [hn]
    have a2 : (p.funFree x () b).2 = .error e := by
      unfold Objective.funFree
      simp only [e1.trans hn]
    simp only [a1, a2]
    exact ⟨trivial, fun v hv => by simp at hv⟩
  | none =>
    have e2 : (p.par.setFree x).1 = (o.par.setFree x).1 := i.2 hn
    cases hv : o.fn () ((o.par.setFree x).1.mark false) with
    | error e =>
      have a1 : (o.funFree x () b).2 = .error e := by
        unfold Objective.funFree
        simp only [hn, hv]
      have a2 : (p.funFree x () b).2 = .error e := by
        unfold Objective.funFree
        simp only [e1.trans hn, e2, h.same.fn, hv]
      simp only [a1, a2]
      exact ⟨trivial, fun v hv => by simp at hv⟩
    | ok v =>
      have a1 : o.funFree x () b = if b then ({ o with par := (o.par.setFree x).1, logger := (o.logger.log v x).1 },
          match (o.logger.log v x).2 with
          | some e => .error e
          | none => .ok v) else ({ o with par := (o.par.setFree x).1 }, .ok v) := by
        unfold Objective.funFree
        simp only [hn, hv]
        rfl
      have a2 : p.funFree x () b = if b then ({ p with par := (o.par.setFree x).1, logger := (p.logger.log v x).1 },
          match (p.logger.log v x).2 with
          | some e => .error e
          | none => .ok v) else ({ p with par := (o.par.setFree x).1 }, .ok v) := by
        unfold Objective.funFree
        simp only [e1.trans hn, e2, h.same.fn, hv]
        rfl
      obtain ⟨l1, l2⟩ := h.logger.log v x
      cases b with
      | true =>
        simp only [a1, a2, if_true, l1]
        exact ⟨trivial, fun _ _ => ⟨⟨⟨h.same.fn, rfl, h.same.precond⟩, l2⟩, trivial⟩⟩
      | false =>
        simp only [a1, a2, Bool.false_eq_true, if_false]
        exact ⟨trivial, fun _ _ => ⟨⟨⟨h.same.fn, rfl, h.same.precond⟩, h.logger⟩, trivial⟩⟩

theorem twin_deriv {β : Type} (x : List ℝ) (ag : (List ℝ → Py Arr) → Py β) :
    Twin fun o => o.deriv true x () ag := by
  intro o p h
  have e : valueAt (p.fn ()) p.par true = valueAt (o.fn ()) o.par true := by
    funext y
    rw [h.same.fn, valueAt_blank h.same.blank.symm]
  have main : (p.deriv true x () ag).2 = (o.deriv true x () ag).2 := by
    unfold Objective.deriv
    simp only [e]
    unfold cacheAndEval
    cases ag (valueAt (o.fn ()) o.par true) with
    | error e => rfl
    | ok v =>
      simp only
      have i := setPar_indep (p := traceSet o.par x true) (q := traceSet p.par x true)
        (by rw [traceSet_blank, traceSet_blank]; exact h.same.blank.symm) x true
      rw [i.1]
      cases (setPar (traceSet o.par x true) x true).2 <;> rfl
  refine ⟨main, fun v hv => ?_⟩
  have h1 := Objective.deriv_ok hv
  have h2 := Objective.deriv_ok (main.trans hv)
  have hpar : (p.deriv true x () ag).1.par = (o.deriv true x () ag).1.par := by
    rw [h1.2, h2.2]
    exact (setPar_indep h.same.blank.symm x true).2 h1.1
  exact ⟨⟨⟨h.same.fn, by rw [hpar], h.same.precond⟩, h.logger⟩, hpar⟩

theorem twin_error {β : Type} (e : PyErr) : Twin (β := β) fun o => (o, .error e) :=
  fun _ _ _ => ⟨rfl, fun v hv => by simp at hv⟩

theorem twin_precond {β : Type} {f : Arr → Objective Unit → Objective Unit × Py β} (hf : ∀ P, Twin (f P)) (e : PyErr) :
    Twin fun o => match o.precond with
      | none => (o, .error e)
      | some P => f P o := by
  intro o p h
  simp only [h.same.precond]
  cases o.precond with
  | none => exact twin_error e o p h
  | some P => exact hf P o p h

theorem twin_bind {β γ : Type} {f : Objective Unit → Objective Unit × Py β} (hf : Twin f) (g : β → Py γ) :
    Twin fun o => ((f o).1, (f o).2 >>= g) := by
  intro o p h
  obtain ⟨h1, h2⟩ := hf o p h
  simp only [h1]
  refine ⟨trivial, fun v hv => ?_⟩
  cases hr : (f o).2 with
  | error e => rw [hr] at hv; exact absurd hv (by simp [bind, Except.bind])
  | ok w => exact h2 w hr

theorem twin_funFreeCond (x : List ℝ) (b : Bool) : Twin fun o => o.funFreeCond x () b :=
  twin_precond (f := fun P o => match Objective.conditionedX P x with
    | .error e => (o, .error e)
    | .ok y => o.funFree y () b) (fun P => by
      cases Objective.conditionedX P x with
      | error e => exact twin_error e
      | ok y => exact twin_funFree y b) _

theorem twin_gradCond (x : List ℝ) : Twin fun o => o.funFreeGradCond x () :=
  twin_precond (f := fun P o => match Objective.conditionedX P x with
    | .error e => (o, .error e)
    | .ok y => ((o.funFreeGrad y ()).1, do P.transpose.mulVec (← (o.funFreeGrad y ()).2))) (fun P => by
      cases Objective.conditionedX P x with
      | error e => exact twin_error e
      | ok y => exact twin_bind (twin_deriv y fun F => agGrad F y) _) _

theorem twin_hvpCond (x v : List ℝ) : Twin fun o => o.funFreeHvpCond x () v :=
  twin_precond (f := fun P o => match Objective.conditionedX P x with
    | .error e => (o, .error e)
    | .ok y =>
      match P.mulVec v with
      | .error e => (o, .error e)
      | .ok pv => ((o.funFreeHvp y () pv).1, do P.transpose.mulVec (← (o.funFreeHvp y () pv).2))) (fun P => by
      cases Objective.conditionedX P x with
      | error e => exact twin_error e
      | ok y =>
        simp only
        cases P.mulVec v with
        | error e => exact twin_error e
        | ok pv => exact twin_bind (twin_deriv y fun F => agHvp F y pv) _) _

theorem twin_run {fn jac hessp} (h1 : ∀ x, Twin fun o => fn o x) (h2 : ∀ x, Twin fun o => jac o x)
    (h3 : ∀ h, hessp = some h → ∀ x v, Twin fun o => h o x v) (t : Optimizer) :
    ∀ o p, Sim o p → (t.run fn jac hessp p).2 = (t.run fn jac hessp o).2 ∧
      ∀ r, (t.run fn jac hessp o).2 = .ok r → Sim (t.run fn jac hessp o).1 (t.run fn jac hessp p).1 ∧
        ((t.run fn jac hessp p).1.par = (t.run fn jac hessp o).1.par ∨
          (t.run fn jac hessp o).1.par = o.par ∧ (t.run fn jac hessp p).1.par = p.par) := by
  induction t with
  | done r => exact fun o p h => ⟨rfl, fun _ _ => ⟨h, Or.inr ⟨rfl, rfl⟩⟩⟩
  | fail e => exact fun o p h => ⟨rfl, fun v hv => by simp [Optimizer.run] at hv⟩
  | value x k ih =>
    intro o p h
    obtain ⟨a1, a2⟩ := h1 x o p h
    simp only [Optimizer.run]
    rw [a1]
    cases hr : (fn o x).2 with
    | error e => exact ⟨rfl, fun v hv => by simp at hv⟩
    | ok v =>
      obtain ⟨a3, a4⟩ := a2 v hr
      obtain ⟨b1, b2⟩ := ih v _ _ a3
      refine ⟨b1, fun r hr => ⟨(b2 r hr).1, ?_⟩⟩
      rcases (b2 r hr).2 with b | ⟨b, b'⟩
      · exact Or.inl b
      · exact Or.inl (by rw [b, b', a4])
  | grad x k ih =>
    intro o p h
    obtain ⟨a1, a2⟩ := h2 x o p h
    simp only [Optimizer.run]
    rw [a1]
    cases hr : (jac o x).2 with
    | error e => exact ⟨rfl, fun v hv => by simp at hv⟩
    | ok v =>
      obtain ⟨a3, a4⟩ := a2 v hr
      obtain ⟨b1, b2⟩ := ih v _ _ a3
      refine ⟨b1, fun r hr => ⟨(b2 r hr).1, ?_⟩⟩
      rcases (b2 r hr).2 with b | ⟨b, b'⟩
      · exact Or.inl b
      · exact Or.inl (by rw [b, b', a4])
  | hvp x w k ih =>
    intro o p h
    cases hessp with
    | none => exact ⟨rfl, fun v hv => by simp [Optimizer.run] at hv⟩
    | some f =>
      obtain ⟨a1, a2⟩ := h3 f rfl x w o p h
      simp only [Optimizer.run]
      rw [a1]
      cases hr : (f o x w).2 with
      | error e => exact ⟨rfl, fun v hv => by simp at hv⟩
      | ok v =>
        obtain ⟨a3, a4⟩ := a2 v hr
        obtain ⟨b1, b2⟩ := ih v _ _ a3
        refine ⟨b1, fun r hr => ⟨(b2 r hr).1, ?_⟩⟩
        rcases (b2 r hr).2 with b | ⟨b, b'⟩
        · exact Or.inl b
        · exact Or.inl (by rw [b, b', a4])

/-! ### The objective during a minimization -/

/-- The log consists of what was there before, `bx` and `bv`, of evaluations `qs` of the objective, and of
points `extra` that have no value yet. -/
def Recorded (o : Objective Unit) (bx : List (List ℝ)) (bv : List Arr) (extra : List (List ℝ)) (s : Objective Unit) :
    Prop :=
  ∃ qs : List (List ℝ × Arr), s.logger.xArray = bx ++ qs.map (·.1) ++ extra ∧ s.logger.valArray = bv ++ qs.map (·.2) ∧
    ∀ q ∈ qs, (o.funFree q.1 () false).2 = .ok q.2

/-- The objective between calls. -/
structure Between (o : Objective Unit) (bx : List (List ℝ)) (bv : List Arr) (p : Objective Unit) : Prop where
  same : SameObj o p
  callback : p.logger.callback = o.logger.callback
  log : Recorded o bx bv [] p

/-- The objective at any time. -/
structure Anytime (o : Objective Unit) (bx : List (List ℝ)) (bv : List Arr) (s : Objective Unit) : Prop where
  same : SameObj o s
  callback : s.logger.callback = o.logger.callback
  log : ∃ extra, extra.length ≤ 1 ∧ Recorded o bx bv extra s

theorem Between.anytime {o : Objective Unit} {bx bv p} (h : Between o bx bv p) : Anytime o bx bv p :=
  ⟨h.same, h.callback, [], by simp, h.log⟩

/-- What is needed of a call and of the states during the call. -/
def Steady (o : Objective Unit) (bx : List (List ℝ)) (bv : List Arr) {β : Type}
    (f : Objective Unit → Objective Unit × Py β) (d : Objective Unit → List (Objective Unit)) : Prop :=
  ∀ p, Between o bx bv p → (∀ s ∈ d p, Anytime o bx bv s) ∧ ∀ v, (f p).2 = .ok v → Between o bx bv (f p).1

theorem Logger.duringLog_cases {V : Type} (l : Logger V) (v : V) (x : List ℝ) : ∀ l' ∈ l.duringLog v x,
    l'.callback = l.callback ∧ ((l'.xArray = l.xArray ∧ l'.valArray = l.valArray) ∨
      (l'.xArray = l.xArray ++ [x] ∧ l'.valArray = l.valArray) ∨
      (l'.xArray = l.xArray ++ [x] ∧ l'.valArray = l.valArray ++ [v])) := by
  intro l' h
  unfold Logger.duringLog at h
  simp only at h
  split_ifs at h <;> simp only [List.append_nil, List.cons_append, List.nil_append, List.mem_cons, List.not_mem_nil,
    or_false] at h <;> casesm* _ ∨ _ <;> subst_vars <;> simp

theorem Logger.log_ok_arrays {V : Type} (l : Logger V) (v : V) (x : List ℝ) :
    (l.log v x).1.callback = l.callback ∧ (l.log v x).1.xArray = l.xArray ++ [x] ∧
      (l.log v x).1.valArray = l.valArray ++ [v] := by
  unfold Logger.log
  simp only
  split_ifs <;> exact ⟨rfl, rfl, rfl⟩

theorem Recorded.snoc {o : Objective Unit} {bx bv} {p s : Objective Unit} {x : List ℝ} {v : Arr}
    (h : Recorded o bx bv [] p) (hv : (o.funFree x () false).2 = .ok v)
    (h1 : s.logger.xArray = p.logger.xArray ++ [x]) (h2 : s.logger.valArray = p.logger.valArray ++ [v]) :
    Recorded o bx bv [] s := by
  obtain ⟨qs, a, b, c⟩ := h
  refine ⟨qs ++ [(x, v)], ?_, ?_, ?_⟩
  · rw [h1, a]
    simp
  · rw [h2, b]
    simp
  · intro q hq
    rcases List.mem_append.1 hq with hq | hq
    · exact c q hq
    · rw [List.mem_singleton.1 hq]
      exact hv

theorem Recorded.of_logger {o : Objective Unit} {bx bv extra} {p s : Objective Unit} (h : Recorded o bx bv extra p)
    (hl : s.logger = p.logger) : Recorded o bx bv extra s := by
  obtain ⟨qs, a, b, c⟩ := h
  exact ⟨qs, by rw [hl, a], by rw [hl, b], c⟩

theorem Between.with_par {o : Objective Unit} {bx bv} {p : Objective Unit} (h : Between o bx bv p) {q : Param}
    (hq : q.blank = p.par.blank) : Between o bx bv { p with par := q } :=
  ⟨⟨h.same.fn, hq.trans h.same.blank, h.same.precond⟩, h.callback, h.log.of_logger rfl⟩

theorem steady_funFree (o : Objective Unit) (bx bv) (x : List ℝ) (b : Bool) :
    Steady o bx bv (fun p => p.funFree x () b) (fun p => p.duringFunFree x () b) := by
  intro p h
  have hval : ∀ v, p.fn () ((p.par.setFree x).1.mark false) = .ok v → (p.par.setFree x).2 = none →
      (o.funFree x () false).2 = .ok v := by
    intro v hv hn
    refine h.same.value (b := false) ?_
    unfold Objective.funFree
    simp only [hn, hv]
    rfl
  refine ⟨?_, ?_⟩
  · intro s hs
    unfold Objective.duringFunFree at hs
    simp only at hs
    rcases List.mem_append.1 hs with hs | hs
    · obtain ⟨q, hq, rfl⟩ := List.mem_map.1 hs
      exact (h.with_par (Param.during_blank _ _ _ _ q hq)).anytime
    · cases hn : (p.par.setFree x).2 with
      | some e => rw [hn] at hs; simp at hs
      | none =>
        rw [hn] at hs
        cases hv : p.fn () ((p.par.setFree x).1.mark false) with
        | error e => simp only [hv] at hs; simp at hs
        | ok v =>
          simp only [hv] at hs
          split_ifs at hs
          · obtain ⟨l, hl, rfl⟩ := List.mem_map.1 hs
            obtain ⟨hc, hcases⟩ := p.logger.duringLog_cases v x l hl
            refine ⟨⟨h.same.fn, (Param.setFree_blank _ _).trans h.same.blank, h.same.precond⟩, hc.trans h.callback, ?_⟩
            rcases hcases with ⟨c1, c2⟩ | ⟨c1, c2⟩ | ⟨c1, c2⟩
            · obtain ⟨qs, a1, a2, a3⟩ := h.log
              exact ⟨[], by simp, qs, by rw [← a1]; exact c1, by rw [← a2]; exact c2, a3⟩
            · obtain ⟨qs, a1, a2, a3⟩ := h.log
              refine ⟨[x], by simp, qs, ?_, by rw [← a2]; exact c2, a3⟩
              rw [List.append_nil] at a1
              rw [← a1]
              exact c1
            · exact ⟨[], by simp, h.log.snoc (hval v hv hn) c1 c2⟩
          · simp at hs
  · intro v hv
    have hn := Objective.funFree_ok hv
    cases hw : p.fn () ((p.par.setFree x).1.mark false) with
    | error e =>
      unfold Objective.funFree at hv
      simp only [hn, hw] at hv
      simp at hv
    | ok w =>
      have e : p.funFree x () b = if b then ({ p with par := (p.par.setFree x).1, logger := (p.logger.log w x).1 },
          match (p.logger.log w x).2 with
          | some e => .error e
          | none => .ok w) else ({ p with par := (p.par.setFree x).1 }, .ok w) := by
        unfold Objective.funFree
        simp only [hn, hw]
        rfl
      show Between o bx bv (p.funFree x () b).1
      rw [e]
      cases b with
      | false => exact h.with_par (Param.setFree_blank _ _)
      | true =>
        obtain ⟨l1, l2, l3⟩ := p.logger.log_ok_arrays w x
        exact ⟨⟨h.same.fn, (Param.setFree_blank _ _).trans h.same.blank, h.same.precond⟩, l1.trans h.callback,
          h.log.snoc (hval w hw hn) l2 l3⟩

theorem steady_deriv (o : Objective Unit) (bx bv) {β : Type} (x : List ℝ) (ag : (List ℝ → Py Arr) → Py β) :
    Steady o bx bv (fun p => p.deriv true x () ag) (fun p => p.duringDeriv true x () ag) := by
  intro p h
  refine ⟨?_, fun v _ => h.with_par (p.deriv_par_blank true x () ag)⟩
  intro s hs
  unfold Objective.duringDeriv at hs
  rcases List.mem_append.1 hs with hs | hs
  · obtain ⟨q, hq, rfl⟩ := List.mem_map.1 hs
    exact (h.with_par (Param.during_blank _ _ _ _ q hq)).anytime
  · split at hs
    · simp at hs
    · obtain ⟨q, hq, rfl⟩ := List.mem_map.1 hs
      exact (h.with_par ((Param.during_blank _ _ _ _ q hq).trans (traceSet_blank _ _ _))).anytime

theorem steady_funFreeCond (o : Objective Unit) (bx bv) (x : List ℝ) (b : Bool) :
    Steady o bx bv (fun p => p.funFreeCond x () b) (fun p => p.duringFunFreeCond x () b) := by
  intro p h
  show (∀ s ∈ p.duringFunFreeCond x () b, Anytime o bx bv s) ∧
    ∀ v, (p.funFreeCond x () b).2 = .ok v → Between o bx bv (p.funFreeCond x () b).1
  unfold Objective.funFreeCond Objective.duringFunFreeCond
  cases p.precond with
  | none => exact ⟨fun s hs => (List.mem_singleton.1 hs) ▸ h.anytime, fun v hv => by simp at hv⟩
  | some P =>
    simp only
    cases Objective.conditionedX P x with
    | error e => exact ⟨fun s hs => (List.mem_singleton.1 hs) ▸ h.anytime, fun v hv => by simp at hv⟩
    | ok y =>
      obtain ⟨a, c⟩ := steady_funFree o bx bv y b p h
      exact ⟨fun s hs => (List.mem_cons.1 hs).elim (fun e => e ▸ h.anytime) (a s), c⟩

theorem steady_gradCond (o : Objective Unit) (bx bv) (x : List ℝ) :
    Steady o bx bv (fun p => p.funFreeGradCond x ()) (fun p => p.duringGradCond x ()) := by
  intro p h
  show (∀ s ∈ p.duringGradCond x (), Anytime o bx bv s) ∧
    ∀ v, (p.funFreeGradCond x ()).2 = .ok v → Between o bx bv (p.funFreeGradCond x ()).1
  unfold Objective.funFreeGradCond Objective.duringGradCond
  cases p.precond with
  | none => exact ⟨fun s hs => (List.mem_singleton.1 hs) ▸ h.anytime, fun v hv => by simp at hv⟩
  | some P =>
    simp only
    cases Objective.conditionedX P x with
    | error e => exact ⟨fun s hs => (List.mem_singleton.1 hs) ▸ h.anytime, fun v hv => by simp at hv⟩
    | ok y =>
      obtain ⟨a, c⟩ := steady_deriv o bx bv y (fun F => agGrad F y) p h
      refine ⟨fun s hs => (List.mem_cons.1 hs).elim (fun e => e ▸ h.anytime) (a s), fun v hv => ?_⟩
      cases hr : (p.funFreeGrad y ()).2 with
      | error e => simp only [hr] at hv; exact absurd hv (by simp [bind, Except.bind])
      | ok w => exact c w hr

theorem steady_hvpCond (o : Objective Unit) (bx bv) (x w : List ℝ) :
    Steady o bx bv (fun p => p.funFreeHvpCond x () w) (fun p => p.duringHvpCond x () w) := by
  intro p h
  show (∀ s ∈ p.duringHvpCond x () w, Anytime o bx bv s) ∧
    ∀ v, (p.funFreeHvpCond x () w).2 = .ok v → Between o bx bv (p.funFreeHvpCond x () w).1
  unfold Objective.funFreeHvpCond Objective.duringHvpCond
  cases p.precond with
  | none => exact ⟨fun s hs => (List.mem_singleton.1 hs) ▸ h.anytime, fun v hv => by simp at hv⟩
  | some P =>
    simp only
    cases Objective.conditionedX P x with
    | error e => exact ⟨fun s hs => (List.mem_singleton.1 hs) ▸ h.anytime, fun v hv => by simp at hv⟩
    | ok y =>
      simp only
      cases P.mulVec w with
      | error e => exact ⟨fun s hs => (List.mem_singleton.1 hs) ▸ h.anytime, fun v hv => by simp at hv⟩
      | ok pv =>
        obtain ⟨a, c⟩ := steady_deriv o bx bv y (fun F => agHvp F y pv) p h
        refine ⟨fun s hs => (List.mem_cons.1 hs).elim (fun e => e ▸ h.anytime) (a s), fun v hv => ?_⟩
        cases hr : (p.funFreeHvp y () pv).2 with
        | error e => simp only [hr] at hv; exact absurd hv (by simp [bind, Except.bind])
        | ok u => exact c u hr

theorem steady_run {o : Objective Unit} {bx bv} {fn jac hessp fnD jacD hesspD}
    (h1 : ∀ x, Steady o bx bv (fun p => fn p x) (fun p => fnD p x))
    (h2 : ∀ x, Steady o bx bv (fun p => jac p x) (fun p => jacD p x))
    (h3 : ∀ h, hessp = some h → ∀ x v, Steady o bx bv (fun p => h p x v) (fun p => hesspD p x v))
    {s : Objective Unit} (t : Optimizer) :
    ∀ p, Between o bx bv p → t.During fn jac hessp fnD jacD hesspD s p → Anytime o bx bv s := by
  induction t with
  | done r => rintro p hp rfl; exact hp.anytime
  | fail e => rintro p hp rfl; exact hp.anytime
  | value x k ih =>
    rintro p hp (hs | ⟨v, hv, hs⟩)
    · exact (h1 x p hp).1 s hs
    · exact ih v _ ((h1 x p hp).2 v hv) hs
  | grad x k ih =>
    rintro p hp (hs | ⟨v, hv, hs⟩)
    · exact (h2 x p hp).1 s hs
    · exact ih v _ ((h2 x p hp).2 v hv) hs
  | hvp x w k ih =>
    rintro p hp (rfl | ⟨f, hf, hs | ⟨v, hv, hs⟩⟩)
    · exact hp.anytime
    · exact (h3 f hf x w p hp).1 s hs
    · exact ih v _ ((h3 f hf x w p hp).2 v hv) hs

/-- A state during a minimization: before the first call of the optimizer, or as described by `Anytime`. -/
theorem duringMinimize_cases {useHvp : Bool} {opt : List ℝ → Optimizer} {o s : Objective Unit} {initX : List ℝ}
    {precondition disp : Bool} {printEvery : Option ℕ} {initLogger : Bool}
    (h : DuringMinimize useHvp opt o initX precondition disp printEvery initLogger s) :
    (initLogger = true ∧ ∃ l ∈ o.logger.duringReset, s = { o with logger := l }) ∨
      Anytime o (if initLogger then [] else o.logger.xArray) (if initLogger then [] else o.logger.valArray) s := by
  have b1 : Between o (if initLogger then [] else o.logger.xArray) (if initLogger then [] else o.logger.valArray)
      (if initLogger then { o with logger := o.logger.reset } else o) := by
    cases initLogger
    · exact ⟨.refl o, rfl, [], by simp, by simp, by simp⟩
    · exact ⟨⟨rfl, rfl, rfl⟩, rfl, [], by simp [Logger.reset], by simp [Logger.reset], by simp⟩
  have b2 : Between o (if initLogger then [] else o.logger.xArray) (if initLogger then [] else o.logger.valArray)
      (startObj o printEvery initLogger) := by
    unfold startObj
    cases printEvery
    · exact b1
    · exact ⟨⟨b1.same.fn, b1.same.blank, b1.same.precond⟩, b1.callback, b1.log⟩
  unfold DuringMinimize at h
  rcases h with rfl | h | rfl | rfl | h
  · cases initLogger with
    | true => exact Or.inl ⟨rfl, s.logger, by simp [Logger.duringReset], rfl⟩
    | false => exact Or.inr b1.anytime
  · exact Or.inl h
  · exact Or.inr b1.anytime
  · exact Or.inr b2.anytime
  · refine Or.inr ?_
    cases precondition with
    | true =>
      rw [if_pos rfl] at h
      obtain ⟨P, x0, -, -, h⟩ := h
      refine steady_run (fun x => steady_funFreeCond o _ _ x disp) (fun x => steady_gradCond o _ _ x) ?_ (opt x0) _ b2 h
      intro f hf x v
      cases useHvp
      · simp at hf
      · simp only [if_true, Option.some.injEq] at hf
        subst hf
        exact steady_hvpCond o _ _ x v
    | false =>
      rw [if_neg (by simp)] at h
      refine steady_run (fun x => steady_funFree o _ _ x disp)
        (fun x => steady_deriv o _ _ x fun F => agGrad F x) ?_ (opt initX) _ b2 h
      intro f hf x v
      cases useHvp
      · simp at hf
      · simp only [if_true, Option.some.injEq] at hf
        subst hf
        exact steady_deriv o _ _ x fun F => agHvp F x v

/-- **C138** Wherever a minimization is interrupted, the log of the objective pairs the points with the values of
the objective at these points: `x_array` and `val_array` contain what they contained before (nothing, if the
logger was initialized), then the evaluations so far, and `x_array` possibly one more point, whose value
is not yet there.  Interrupted while the logger is being initialized, no evaluation has taken place: the parameter is
unchanged, and each of the two arrays is as before or empty, `x_array` being emptied first. -/
theorem C138_log {useHvp : Bool} {opt : List ℝ → Optimizer} {o s : Objective Unit} {initX : List ℝ}
    {precondition disp : Bool} {printEvery : Option ℕ} {initLogger : Bool}
    (h : DuringMinimize useHvp opt o initX precondition disp printEvery initLogger s) :
    (initLogger = true ∧ s.par = o.par ∧
      ((s.logger.xArray = o.logger.xArray ∧ s.logger.valArray = o.logger.valArray) ∨
        s.logger.xArray = [] ∧ (s.logger.valArray = o.logger.valArray ∨ s.logger.valArray = []))) ∨
    ∃ (qs : List (List ℝ × Arr)) (extra : List (List ℝ)), extra.length ≤ 1 ∧
      s.logger.xArray = (if initLogger then [] else o.logger.xArray) ++ qs.map (·.1) ++ extra ∧
      s.logger.valArray = (if initLogger then [] else o.logger.valArray) ++ qs.map (·.2) ∧
      ∀ q ∈ qs, (o.funFree q.1 () false).2 = .ok q.2 := by
  rcases duringMinimize_cases h with ⟨h0, l, hl, rfl⟩ | h
  · refine Or.inl ⟨h0, rfl, ?_⟩
    simp only [Logger.duringReset, List.mem_cons, List.not_mem_nil, or_false] at hl
    casesm* _ ∨ _ <;> subst_vars <;> simp
  · obtain ⟨extra, h1, qs, h2, h3, h4⟩ := h.log
    exact Or.inr ⟨qs, extra, h1, h2, h3, h4⟩

theorem duringMinimize_same {useHvp : Bool} {opt : List ℝ → Optimizer} {o s : Objective Unit} {initX : List ℝ}
    {precondition disp : Bool} {printEvery : Option ℕ} {initLogger : Bool}
    (h : DuringMinimize useHvp opt o initX precondition disp printEvery initLogger s) :
    SameObj o s ∧ s.logger.callback = o.logger.callback := by
  rcases duringMinimize_cases h with ⟨-, l, hl, rfl⟩ | h
  · refine ⟨⟨rfl, rfl, rfl⟩, ?_⟩
    simp only [Logger.duringReset, List.mem_cons, List.not_mem_nil, or_false] at hl
    casesm* _ ∨ _ <;> subst_vars <;> rfl
  · exact ⟨h.same, h.callback⟩

/-- **C138** Wherever a minimization is interrupted, a new one, with any arguments, any optimizer and a logger that is
initialized, returns or raises what it would have without the first one.  If it returns, the logger
is the same and so is the parameter, unless the optimizer made no call. -/
theorem C138_restart {useHvp : Bool} {opt : List ℝ → Optimizer} {o s : Objective Unit} {initX : List ℝ}
    {precondition disp : Bool} {printEvery : Option ℕ} {initLogger : Bool}
    (h : DuringMinimize useHvp opt o initX precondition disp printEvery initLogger s)
    (useHvp' : Bool) (opt' : List ℝ → Optimizer) (initX' : List ℝ) (precondition' disp' : Bool) (k : ℕ) :
    (minimizeObjective useHvp' opt' s initX' precondition' disp' (some k) true).2 =
      (minimizeObjective useHvp' opt' o initX' precondition' disp' (some k) true).2 ∧
    ∀ r, (minimizeObjective useHvp' opt' o initX' precondition' disp' (some k) true).2 = .ok r →
      (minimizeObjective useHvp' opt' o initX' precondition' disp' (some k) true).1.logger.Same
        (minimizeObjective useHvp' opt' s initX' precondition' disp' (some k) true).1.logger ∧
      ((minimizeObjective useHvp' opt' s initX' precondition' disp' (some k) true).1.par =
          (minimizeObjective useHvp' opt' o initX' precondition' disp' (some k) true).1.par ∨
        (minimizeObjective useHvp' opt' o initX' precondition' disp' (some k) true).1.par = o.par ∧
        (minimizeObjective useHvp' opt' s initX' precondition' disp' (some k) true).1.par = s.par) := by
  obtain ⟨hs, hc⟩ := duringMinimize_same h
  have hsim : Sim (startObj o (some k) true) (startObj s (some k) true) := by
    refine ⟨⟨hs.fn, hs.blank, hs.precond⟩, ?_⟩
    simp only [Logger.Same, startObj, Logger.reset, if_true, hc]
  cases precondition' with
  | false =>
    simp only [minimize_plain]
    obtain ⟨h1, h2⟩ := twin_run (fn := fun o x => o.funFree x () disp') (jac := fun o x => o.funFreeGrad x ())
      (hessp := if useHvp' then some fun o x v => o.funFreeHvp x () v else none)
      (fun x => twin_funFree x disp') (fun x => twin_deriv x fun F => agGrad F x) (by
        intro f hf x v
        cases useHvp'
        · simp at hf
        · simp only [if_true, Option.some.injEq] at hf
          subst hf
          exact twin_deriv x fun F => agHvp F x v) (opt' initX') _ _ hsim
    rw [h1]
    cases hr : ((opt' initX').run (fun o x => o.funFree x () disp') (fun o x => o.funFreeGrad x ())
      (if useHvp' then some fun o x v => o.funFreeHvp x () v else none) (startObj o (some k) true)).2 with
    | error e => exact ⟨rfl, fun r hr => by simp at hr⟩
    | ok res => exact ⟨rfl, fun r _ => ⟨(h2 res hr).1.logger, (h2 res hr).2⟩⟩
  | true =>
    simp only [minimize_cond]
    rw [hsim.same.precond]
    cases hP : (startObj o (some k) true).precond with
    | none => exact ⟨rfl, fun r hr => by simp at hr⟩
    | some P =>
      simp only
      cases npSolve P initX' with
      | error e => exact ⟨rfl, fun r hr => by simp at hr⟩
      | ok x0 =>
        simp only
        obtain ⟨h1, h2⟩ := twin_run (fn := fun o x => o.funFreeCond x () disp') (jac := fun o x => o.funFreeGradCond x ())
          (hessp := if useHvp' then some fun o x v => o.funFreeHvpCond x () v else none)
          (fun x => twin_funFreeCond x disp') (fun x => twin_gradCond x) (by
            intro f hf x v
            cases useHvp'
            · simp at hf
            · simp only [if_true, Option.some.injEq] at hf
              subst hf
              exact twin_hvpCond x v) (opt' x0) _ _ hsim
        rw [h1]
        cases hr : ((opt' x0).run (fun o x => o.funFreeCond x () disp') (fun o x => o.funFreeGradCond x ())
          (if useHvp' then some fun o x v => o.funFreeHvpCond x () v else none) (startObj o (some k) true)).2 with
        | error e => exact ⟨rfl, fun r hr => by simp at hr⟩
        | ok res =>
          obtain ⟨h3, h4⟩ := h2 res hr
          simp only [Objective.unconditionX, h3.same.precond]
          split
          · exact ⟨rfl, fun r hr => by simp at hr⟩
          · exact ⟨rfl, fun r _ => ⟨h3.logger, h4⟩⟩

/-! ### C139 -/

mutual
theorem Param.during_plain (free : Bool) : ∀ (p : Param) (x : List ℝ), p.Plain → ∀ q ∈ p.during free false x, q.Plain
  | .leaf l, x, hp, q, hq => by
    unfold Param.during at hq
    rcases List.mem_cons.1 hq with rfl | hq
    · exact hp
    · split at hq
      · rw [List.mem_singleton.1 hq]
        rfl
      · simp at hq
  | .dict h es, x, hp, q, hq => by
    unfold Param.during at hq
    by_cases hl : x.length ≠ (if free then h.fs else h.vs)
    · rw [if_pos hl] at hq
      rw [List.mem_singleton.1 hq]
      exact hp
    · rw [if_neg hl] at hq
      obtain ⟨es', he, rfl⟩ := List.mem_map.1 hq
      exact Entries.during_plain free es x 0 hp es' he
theorem Entries.during_plain (free : Bool) : ∀ (es : Entries) (x : List ℝ) (off : ℕ), es.Plain →
    ∀ q ∈ Entries.during free false es x off, q.Plain
  | .nil, _, _, hp, q, hq => by
    unfold Entries.during at hq
    rw [List.mem_singleton.1 hq]
    exact hp
  | .cons k p rest, x, off, hp, q, hq => by
    unfold Entries.during at hq
    simp only at hq
    rcases List.mem_append.1 hq with hq | hq
    · obtain ⟨p', hp', rfl⟩ := List.mem_map.1 hq
      exact ⟨Param.during_plain free p _ hp.1 p' hp', hp.2⟩
    · split at hq
      · simp at hq
      · next hn =>
        obtain ⟨es', he, rfl⟩ := List.mem_map.1 hq
        refine ⟨?_, Entries.during_plain free rest x _ hp.2 es' he⟩
        rw [if_neg (by simp)]
        exact setPar_plain _ _ _ hn
end

theorem Param.mem_during_last (free : Bool) (p : Param) (x : List ℝ) (box : Bool) (h : (setPar p x free).2 = none) :
    ∃ q ∈ p.during free box x, q.leaves = ((setPar p x free).1.boxIf box).leaves := by
  obtain ⟨q, hq, hl⟩ := (p.during_leaves free box x h).2 p.leaves.length
  refine ⟨q, hq, ?_⟩
  have hlen : ((setPar p x free).1.boxIf box).leaves.length = p.leaves.length :=
    Param.leaves_length ((Param.boxIf_blank _ _).trans (setPar_blank _ _ _))
  rw [hl, ← hlen, List.take_length, hlen, List.drop_length, List.append_nil]

mutual
theorem Param.plain_iff_leaves : ∀ p : Param, p.Plain ↔ ∀ l ∈ p.leaves, l.boxed = false
  | .leaf l => by simp [Param.Plain, Param.leaves]
  | .dict _ es => Entries.plain_iff_leaves es
theorem Entries.plain_iff_leaves : ∀ es : Entries, es.Plain ↔ ∀ l ∈ es.leaves, l.boxed = false
  | .nil => by simp [Entries.Plain, Entries.leaves]
  | .cons _ p rest => by
    simp only [Entries.Plain, Entries.leaves, List.mem_append, Param.plain_iff_leaves p, Entries.plain_iff_leaves rest]
    constructor
    · rintro ⟨h1, h2⟩ l (h | h)
      · exact h1 l h
      · exact h2 l h
    · exact fun h => ⟨fun l hl => h l (Or.inl hl), fun l hl => h l (Or.inr hl)⟩
end

/-- **C139** (counterexample) For every objective with a parameter that can be built and contains a parameter, and
every starting point of the right length: a minimization by an optimizer that asks for the gradient first can
be interrupted such that the parameter holds placeholders of autograd instead of numbers. -/
theorem C139_counterexample {eigh : Eigh} (he : EighContract eigh) (o : Objective Unit) (hb : Built eigh o.par)
    (hp : o.par.HasParams) (initX : List ℝ) (hx : initX.length = o.par.freeSize) (useHvp disp : Bool)
    (printEvery : Option ℕ) (initLogger : Bool) (k : List ℝ → List ℝ → Optimizer) :
    ∃ s, DuringMinimize useHvp (fun x => .grad x (k x)) o initX false disp printEvery initLogger s ∧ ¬ s.par.Plain := by
  have hw := hb.wf he
  have hset : (setPar o.par initX true).2 = none := by
    simp only [setPar, if_true]
    rw [o.par.setFree_ok hw initX hx]
  obtain ⟨q, hq, hl⟩ := o.par.mem_during_last true initX true hset
  have hnp : ¬ q.Plain := by
    rw [Param.plain_iff_leaves, hl, ← Param.plain_iff_leaves]
    have h1 : (setPar o.par initX true).1.blank = o.par.blank := setPar_blank _ _ _
    simp only [setPar, if_true] at h1 ⊢
    rw [o.par.setFree_ok hw initX hx] at h1 ⊢
    have e1 := o.par.freeP_erase hw initX hx
    exact Param.mark_true_not_plain _ ((Param.wf_congr e1).mpr hw) ((Param.hasParams_congr e1).mpr hp)
  have hs := startObj_same o printEvery initLogger
  refine ⟨{ startObj o printEvery initLogger with par := q }, ?_, hnp⟩
  unfold DuringMinimize
  refine Or.inr (Or.inr (Or.inr (Or.inr ?_)))
  rw [if_neg (by simp)]
  refine Or.inl ?_
  show _ ∈ (startObj o printEvery initLogger).duringDeriv true initX () _
  unfold Objective.duringDeriv
  have hpar : (startObj o printEvery initLogger).par = o.par := by
    unfold startObj
    cases initLogger <;> cases printEvery <;> rfl
  rw [hpar]
  exact List.mem_append_left _ (List.mem_map.2 ⟨q, hq, rfl⟩)

/-- Calls that keep a numeric parameter. -/
def PlainSteady {β : Type} (f : Objective Unit → Objective Unit × Py β) (d : Objective Unit → List (Objective Unit)) :
    Prop :=
  ∀ p, p.par.Plain → (∀ s ∈ d p, s.par.Plain) ∧ ∀ v, (f p).2 = .ok v → (f p).1.par.Plain

theorem plainSteady_funFree (x : List ℝ) (b : Bool) :
    PlainSteady (fun p => p.funFree x () b) (fun p => p.duringFunFree x () b) := by
  intro p h
  refine ⟨fun s hs => ?_, fun v hv => ?_⟩
  · unfold Objective.duringFunFree at hs
    simp only at hs
    rcases List.mem_append.1 hs with hs | hs
    · obtain ⟨q, hq, rfl⟩ := List.mem_map.1 hs
      exact Param.during_plain _ _ _ h q hq
    · cases hn : (p.par.setFree x).2 with
      | some e => rw [hn] at hs; simp at hs
      | none =>
        simp only [hn] at hs
        split at hs
        · simp at hs
        · split_ifs at hs
          · obtain ⟨l, -, rfl⟩ := List.mem_map.1 hs
            exact setPar_plain p.par x true hn
          · simp at hs
  · show (p.funFree x () b).1.par.Plain
    rw [Objective.funFree_par]
    exact setPar_plain p.par x true (Objective.funFree_ok hv)

theorem plainSteady_deriv {β : Type} (x : List ℝ) (ag : (List ℝ → Py Arr) → Py β) :
    PlainSteady (fun p => p.deriv true x () ag) (fun p => [p]) := by
  intro p h
  refine ⟨fun s hs => (List.mem_singleton.1 hs) ▸ h, fun v hv => ?_⟩
  obtain ⟨h1, h2⟩ := Objective.deriv_ok hv
  show (p.deriv true x () ag).1.par.Plain
  rw [h2]
  exact setPar_plain _ _ _ h1

theorem plainSteady_run {fn jac hessp fnD jacD hesspD}
    (h1 : ∀ x, PlainSteady (fun p => fn p x) (fun p => fnD p x))
    (h2 : ∀ x, PlainSteady (fun p => jac p x) (fun p => jacD p x))
    (h3 : ∀ h, hessp = some h → ∀ x v, PlainSteady (fun p => h p x v) (fun p => hesspD p x v))
    {s : Objective Unit} (t : Optimizer) :
    ∀ p, p.par.Plain → t.During fn jac hessp fnD jacD hesspD s p → s.par.Plain := by
  induction t with
  | done r => rintro p hp rfl; exact hp
  | fail e => rintro p hp rfl; exact hp
  | value x k ih =>
    rintro p hp (hs | ⟨v, hv, hs⟩)
    · exact (h1 x p hp).1 s hs
    · exact ih v _ ((h1 x p hp).2 v hv) hs
  | grad x k ih =>
    rintro p hp (hs | ⟨v, hv, hs⟩)
    · exact (h2 x p hp).1 s hs
    · exact ih v _ ((h2 x p hp).2 v hv) hs
  | hvp x w k ih =>
    rintro p hp (rfl | ⟨f, hf, hs | ⟨v, hv, hs⟩⟩)
    · exact hp
    · exact (h3 f hf x w p hp).1 s hs
    · exact ih v _ ((h3 f hf x w p hp).2 v hv) hs

/-- **C139** (partial) A minimization without a preconditioner that is interrupted outside of the derivative calls, i.e.
while a value is computed or logged, or between calls, leaves numbers in the parameter. -/
theorem C139_partial {useHvp : Bool} {opt : List ℝ → Optimizer} {o s : Objective Unit} {initX : List ℝ}
    {disp : Bool} (hp : o.par.Plain)
    (h : (opt initX).During (fun o x => o.funFree x () disp) (fun o x => o.funFreeGrad x ())
      (if useHvp then some fun o x v => o.funFreeHvp x () v else none)
      (fun o x => o.duringFunFree x () disp) (fun o _ => [o]) (fun o _ _ => [o]) s o) : s.par.Plain := by
  refine plainSteady_run (fun x => plainSteady_funFree x disp) (fun x => plainSteady_deriv x fun F => agGrad F x) ?_
    (opt initX) o hp h
  intro f hf x v
  cases useHvp
  · simp at hf
  · simp only [if_true, Option.some.injEq] at hf
    subst hf
    exact plainSteady_deriv x fun F => agHvp F x v

/-! ### Examples -/

/-- Setting the example dictionary can be interrupted with the first parameter set and the second not, which is
neither the old nor the new value. -/
example : (setPar exDict [2, 3, 4] false).2 = none ∧ ∃ q ∈ exDict.during false false [2, 3, 4],
    q.leaves ≠ exDict.leaves ∧ q.leaves ≠ (setPar exDict [2, 3, 4] false).1.leaves := by
  obtain ⟨eigh, he⟩ := exists_eigh
  have hw := (exDict_built eigh).wf he
  have hset : setPar exDict [2, 3, 4] false = (exDict.vecP [2, 3, 4], none) := by
    simp only [setPar, Bool.false_eq_true, if_false]
    exact exDict.setVector_ok hw [2, 3, 4] (by rw [exDict_vecSize]; rfl)
  refine ⟨by rw [hset], ?_⟩
  obtain ⟨q, hq, hl⟩ := (C137_interrupted_assignment false exDict [2, 3, 4] (by rw [hset])).2 1
  refine ⟨q, hq, ?_⟩
  have h0 : exDict.leaves = [exScalar, exVector] := rfl
  have h1 : (exDict.vecP [2, 3, 4]).leaves =
      [{ exScalar with val := Arr.vec [2] }, { exVector with val := Arr.vec [3, 4] }] := rfl
  rw [hl, hset, h1, h0]
  refine ⟨fun h => ?_, fun h => ?_⟩
  · have h2 := congrArg (fun l : List Leaf => (l.getD 0 exScalar).val.data) h
    norm_num [exScalar, Arr.vec, Arr.scalar] at h2
  · have h2 := congrArg (fun l : List Leaf => (l.getD 1 exScalar).val.data) h
    norm_num [exScalar, exVector, Arr.vec, Arr.scalar] at h2

/-- A minimization that is interrupted while the first value is logged: the point is recorded and the value is not. -/
example : ∃ s, DuringMinimize false (fun x => .value x fun v => .grad x fun g => .done ⟨x, v, g⟩) exObj [1, 2, 3] false
    true (some 1) true s ∧ s.logger.xArray = [[1, 2, 3]] ∧ s.logger.valArray = [] := by
  have hset : (exDict.setFree [1, 2, 3]).2 = none := by
    have := valueAt_ok_set (exObj_value [1, 2, 3] rfl)
    simpa [setPar] using this
  have hv := exObj_value [1, 2, 3] rfl
  unfold valueAt at hv
  simp only [setPar, if_true, hset] at hv
  set v := Arr.scalar (exDict.ftvP [1, 2, 3]).sum
  let o2 : Objective Unit := { exObj with logger := { exObj.logger.reset with printEvery := 1 } }
  let l3 : Logger Arr := { o2.logger with value := some v, x := some [1, 2, 3], xArray := [[1, 2, 3]] }
  refine ⟨{ o2 with par := (exDict.setFree [1, 2, 3]).1, logger := l3 }, ?_, rfl, rfl⟩
  unfold DuringMinimize
  refine Or.inr (Or.inr (Or.inr (Or.inr ?_)))
  rw [if_neg (by simp)]
  refine Or.inl ?_
  show _ ∈ o2.duringFunFree [1, 2, 3] () true
  unfold Objective.duringFunFree
  refine List.mem_append_right _ ?_
  show _ ∈ (match (exDict.setFree [1, 2, 3]).2 with
    | some _ => []
    | none => match exObj.fn () ((exDict.setFree [1, 2, 3]).1.mark false) with
      | .error _ => []
      | .ok v => if true then (o2.logger.duringLog v [1, 2, 3]).map fun l =>
          { o2 with par := (exDict.setFree [1, 2, 3]).1, logger := l } else [])
  rw [hset]
  simp only [hv, if_true]
  refine List.mem_map.2 ⟨l3, ?_, rfl⟩
  unfold Logger.duringLog
  refine List.mem_append_left _ ?_
  refine List.mem_cons_of_mem _ (List.mem_cons_of_mem _ (List.mem_cons_of_mem _ List.mem_cons_self))

/-- The example objective meets the hypotheses of C139. -/
example : (∃ eigh, EighContract eigh ∧ Built eigh exObj.par) ∧ exObj.par.HasParams ∧
    [(1 : ℝ), 2, 3].length = exObj.par.freeSize ∧ exObj.par.Plain := by
  obtain ⟨eigh, he⟩ := exists_eigh
  refine ⟨⟨eigh, he, exDict_built eigh⟩, exDict_hasParams, exDict_freeSize.symm, ?_⟩
  show exDict.Plain
  rw [Param.plain_iff_leaves]
  simp [show exDict.leaves = [exScalar, exVector] from rfl, exScalar, exVector]

/-- The state after a value has been computed is outside of the derivative calls. -/
example : (Optimizer.value [1, 2, 3] fun v => .done ⟨[1, 2, 3], v, []⟩).During (fun o x => o.funFree x () false)
    (fun o x => o.funFreeGrad x ()) none (fun o x => o.duringFunFree x () false) (fun o _ => [o]) (fun o _ _ => [o])
    (exObj.funFree [1, 2, 3] () false).1 exObj := by
  refine Or.inr ⟨Arr.scalar (exDict.ftvP [1, 2, 3]).sum, ?_, rfl⟩
  show (exObj.funFree [1, 2, 3] () false).2 = _
  rw [Objective.funFree_value]
  exact exObj_value _ rfl

end

end LRVB
