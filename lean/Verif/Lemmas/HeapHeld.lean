import Verif.Lemmas.HeapObj

/-!
# Which cells parameters hold: those they held, those of the arguments, and new ones
-/

namespace LRVB

open Classical

noncomputable section

variable {A : Type}

/-- All cells that parameters hold satisfy `Q`. -/
def Store.Held (Q : ℕ → Prop) (st : Store) : Prop :=
  ∀ (j : ℕ) (l : HLeaf), st.objs[j]? = some (.leaf l) → ∀ k ∈ l.ref.addr, Q k

/-- The call on a parameter leaves it with the array it held, the argument (only if `U`), or a new array. -/
def Visit.Keeps {β : Type} (w : Visit β) (U : Prop) : Prop :=
  ∀ m l x m' l' b, w.leaf m l x = .ok (m', l', b) →
    ∀ k ∈ l'.ref.addr, k ∈ l.ref.addr ∨ (U ∧ k ∈ x) ∨ m.next ≤ k

theorem freeVisit_keeps : Store.freeVisit.Keeps False := fun m l x m' l' b h k hk =>
  Or.inr (Or.inr (freeVisit_fresh m l x m' l' b h trivial k hk))

theorem vecVisit_keeps : Store.vecVisit.Keeps True := by
  intro m l x m' l' b h k hk
  by_cases hl : l'.kind.IsMatrix
  · exact Or.inr (Or.inr (vecVisit_fresh m l x m' l' b h hl k hk))
  · rw [(vecVisit_sim.tame _ _ _ _ _ _ h).2.2.1] at hl
    unfold Store.vecVisit at h
    simp only at h
    rw [setVector_view _ _ _ hl] at h
    cases hv : (l.view m).setVector (m.vals x) with
    | error e => rw [hv] at h; cases h
    | ok v => rw [hv] at h; cases h; exact Or.inr (Or.inl ⟨trivial, hk⟩)

theorem afterDeriv_keeps (m : Mem) (l : HLeaf) (l' : Leaf) :
    ∀ k ∈ (l.afterDeriv m l').2.ref.addr, k ∈ l.ref.addr ∨ m.next ≤ k := by
  intro k hk
  unfold HLeaf.afterDeriv at hk
  cases hkind : l.kind <;> rw [hkind] at hk
  case scalar | posdef => exact Or.inr (Mem.alloc_new _ _ k hk)
  all_goals exact Or.inl hk

theorem jacVisit_keeps : Store.jacVisit.Keeps False := by
  intro m l x m' l' b h k hk
  unfold Store.jacVisit at h
  simp only at h
  unfold HLeaf.jac at h
  obtain ⟨r, -, h⟩ := py_bind_ok h
  cases h
  rcases afterDeriv_keeps m l r.1 k hk with h | h
  · exact Or.inl h
  · exact Or.inr (Or.inr h)

theorem hessVisit_keeps : Store.hessVisit.Keeps False := by
  intro m l x m' l' b h k hk
  unfold Store.hessVisit at h
  simp only at h
  unfold HLeaf.hess at h
  obtain ⟨r, -, h⟩ := py_bind_ok h
  cases h
  rcases afterDeriv_keeps m l r.1 k hk with h | h
  · exact Or.inl h
  · exact Or.inr (Or.inr h)

theorem held_set {Q : ℕ → Prop} {st : Store} (h : st.Held Q) (m : Mem) (i : ℕ) {o : Obj}
    (ho : ∀ l, o = .leaf l → ∀ k ∈ l.ref.addr, Q k) : Store.Held Q ⟨m, st.objs.set i o⟩ := by
  intro j l hl
  simp only [List.getElem?_set] at hl
  split at hl
  · split at hl
    · cases hl; exact ho l rfl
    · cases hl
  · exact h j l hl

theorem held_append {Q : ℕ → Prop} {st : Store} (h : st.Held Q) (m : Mem) {o : Obj}
    (ho : ∀ l, o = .leaf l → ∀ k ∈ l.ref.addr, Q k) : Store.Held Q ⟨m, st.objs ++ [o]⟩ := by
  intro j l hl
  simp only [List.getElem?_append] at hl
  split at hl
  · exact h j l hl
  · rw [List.getElem?_singleton] at hl
    split at hl
    · cases hl; exact ho l rfl
    · cases hl

theorem visitEntries_held {β : Type} {w : Visit β} (hw : w.Tame) {U : Prop} {Q : ℕ → Prop}
    {d : ℕ} (hrec : ∀ (st : Store) (i : ℕ) (x : List ℕ), (∀ k ∈ x, k < st.mem.next) → st.Held Q →
      (U → ∀ k ∈ x, Q k) → (∀ k, st.mem.next ≤ k → Q k) → Store.Held Q (Store.visit w d st i x).1) (h : Hdr) :
    ∀ (es : List (String × ℕ)) (st : Store) (x : List ℕ) (off : ℕ), (∀ k ∈ x, k < st.mem.next) →
      st.Held Q → (U → ∀ k ∈ x, Q k) → (∀ k, st.mem.next ≤ k → Q k) →
      Store.Held Q (Store.visitEntries w (Store.visit w d) h es st x off).1
  | [], st, x, off, _, hq, _, _ => hq
  | (key, c) :: rest, st, x, off, hx, hq, hxq, hnew => by
    unfold Store.visitEntries
    cases hc : st.objs[c]? with
    | none => exact hq
    | some o =>
      simp only
      have hx' : ∀ k ∈ Ref.slice x off (w.size o), k < st.mem.next := fun k hk => hx k (mem_slice hk)
      have h1 := hrec st c _ hx' hq (fun hu k hk => hxq hu k (mem_slice hk)) hnew
      have h2 := visit_change hw d st c _ hx'
      cases (Store.visit w d st c (Ref.slice x off (w.size o))).2 >>= w.part h off with
      | error e => exact h1
      | ok b =>
        exact visitEntries_held hw hrec h rest _ x _ (fun k hk => lt_of_lt_of_le (hx k hk) h2.le.1) h1 hxq
          fun k hk => hnew k (h2.le.1.trans hk)

theorem visit_held {β : Type} {w : Visit β} (hw : w.Tame) {U : Prop} (hk : w.Keeps U) {Q : ℕ → Prop} :
    ∀ (d : ℕ) (st : Store) (i : ℕ) (x : List ℕ), (∀ k ∈ x, k < st.mem.next) → st.Held Q →
      (U → ∀ k ∈ x, Q k) → (∀ k, st.mem.next ≤ k → Q k) → Store.Held Q (Store.visit w d st i x).1
  | 0, _, _, _, _, hq, _, _ => hq
  | d + 1, st, i, x, hx, hq, hxq, hnew => by
    unfold Store.visit
    cases hi : st.objs[i]? with
    | none => exact hq
    | some o =>
      cases o with
      | leaf l =>
        simp only
        cases hs : w.leaf st.mem l x with
        | error e => exact hq
        | ok r =>
          obtain ⟨m', l', b⟩ := r
          refine held_set hq m' i fun l0 h0 k hk0 => ?_
          cases h0
          rcases hk _ _ _ _ _ _ hs k hk0 with h | h | h
          · exact hq i l hi k h
          · exact hxq h.1 k h.2
          · exact hnew k h
      | dict hd es =>
        simp only
        split
        · exact hq
        · exact visitEntries_held hw (visit_held hw hk d) hd es st x 0 hx hq hxq hnew

theorem store_getVector_held {Q : ℕ → Prop} {depth : ℕ} {st : Store} {i : ℕ} {y : List ℕ} (hq : st.Held Q)
    (hnew : ∀ k, st.mem.next ≤ k → Q k) (hy : (st.getVector depth i).2 = .ok y) : ∀ k ∈ y, Q k := by
  unfold Store.getVector at hy
  cases depth with
  | zero => cases hy
  | succ d =>
    cases ho : st.objs[i]? with
    | none => rw [ho] at hy; cases hy
    | some o =>
      rw [ho] at hy
      cases o with
      | leaf l =>
        simp only at hy
        cases hv : l.getVector st.mem with
        | error e => rw [hv] at hy; cases hy
        | ok r =>
          rw [hv] at hy
          cases hy
          rcases getVector_new hv with ⟨-, h⟩ | ⟨v, h⟩
          · rw [h]; exact hq i l ho
          · rw [h]; exact fun k hk => hnew k (Mem.alloc_new _ _ k hk)
      | dict hd es =>
        simp only at hy
        cases hv : st.gather Leaf.getVector (d + 1) i with
        | error e => rw [hv] at hy; cases hy
        | ok v => rw [hv] at hy; cases hy; exact fun k hk => hnew k (Mem.alloc_new _ _ k hk)

/-- The cells that parameters hold after a call, and those of the array it returns, are cells that
parameters held, cells of the arguments, or new ones. -/
theorem call_held {Q : ℕ → Prop} {depth : ℕ} {st : Store} (c : Call) (hwf : st.WF)
    (ha : ∀ r ∈ c.args, r.Alive st.mem) (hq : st.Held Q) (haq : ∀ r ∈ c.args, ∀ k ∈ r.addr, Q k)
    (hnew : ∀ k, st.mem.next ≤ k → Q k) :
    Store.Held Q (c.run depth st).1 ∧ ∀ r, (c.run depth st).2 = .ok (.arr r) → ∀ k ∈ r.addr, Q k := by
  have hx : ∀ x : List ℕ, (Ref.vec x).Alive st.mem → ∀ k ∈ x, k < st.mem.next := fun x h => h
  have nores : ∀ {α : Type} (a : Py α) (r : Ref), (fun _ => Result.nothing) <$> a ≠ .ok (.arr r) := by
    intro α a r h
    cases a <;> cases h
  have obres : ∀ (a : Py ℕ) (r : Ref), Result.obj <$> a ≠ .ok (.arr r) := by
    intro a r h
    cases a <;> cases h
  cases c with
  | newParam mk val =>
    refine ⟨?_, fun r h => absurd h (obres _ _)⟩
    unfold Call.run Store.newParam
    cases val with
    | none =>
      simp only
      cases hm : mk none with
      | error e => exact hq
      | ok l => exact held_append hq _ fun l' h => by cases h; exact fun k hk => hnew k (Mem.alloc_new _ _ k hk)
    | some r =>
      simp only
      cases hm : mk (some (st.mem.read r)) with
      | error e => exact hq
      | ok l => exact held_append hq _ fun l' h => by cases h; exact haq r (by simp [Call.args])
  | newDict name => exact ⟨held_append hq _ (fun _ h => by cases h), fun r h => by cases h⟩
  | push d c =>
    refine ⟨?_, fun r h => absurd h (nores _ _)⟩
    unfold Call.run Store.push
    simp only
    split
    · exact held_set hq _ _ fun _ h => by cases h
    · exact hq
    · exact hq
  | setName i n =>
    refine ⟨?_, fun r h => by cases h⟩
    unfold Call.run Store.setName
    simp only
    split
    · exact hq
    · next l hl => exact held_set hq _ _ fun _ h => by cases h; exact hq i l hl
    · exact held_set hq _ _ fun _ h => by cases h
  | set i r =>
    refine ⟨?_, fun r h => absurd h (nores _ _)⟩
    unfold Call.run Store.set
    simp only
    split
    · exact hq
    · exact hq
    · next l hl =>
      cases hs : l.set st.mem r with
      | error e => exact hq
      | ok l' =>
        exact held_set hq _ _ fun _ h => by
          cases h
          rw [(hleaf_set_ref hs).1]
          exact haq r (by simp [Call.args])
  | setFree i x =>
    exact ⟨visit_held freeVisit_sim.tame freeVisit_keeps depth st i x (hx x (ha _ (by simp [Call.args]))) hq
      False.elim hnew, fun r h => absurd h (nores _ _)⟩
  | setVector i x =>
    exact ⟨visit_held vecVisit_sim.tame vecVisit_keeps depth st i x (hx x (ha _ (by simp [Call.args]))) hq
      (fun _ => haq (Ref.vec x) (by simp [Call.args])) hnew, fun r h => absurd h (nores _ _)⟩
  | freeToVector i x =>
    have hax := hx x (ha _ (by simp [Call.args]))
    have hh := visit_held freeVisit_sim.tame freeVisit_keeps depth st i x hax hq
      False.elim hnew
    have hc := visit_change freeVisit_sim.tame depth st i x hax
    have hwf' := hc.wf hwf
    change Store.WF (st.setFree depth i x).1 at hwf'
    change Store.Held Q (st.setFree depth i x).1 at hh
    have hle : st.mem.Le (st.setFree depth i x).1.mem := hc.le
    have hnew' : ∀ k, (st.setFree depth i x).1.mem.next ≤ k → Q k := fun k hk => hnew k (hle.1.trans hk)
    unfold Call.run Store.freeToVector
    simp only
    generalize st.setFree depth i x = s at *
    obtain ⟨s1, s2⟩ := s
    cases s2 with
    | error e => exact ⟨hh, fun r h => by cases h⟩
    | ok u =>
      simp only at hwf' hle hh hnew' ⊢
      split
      · next nm lb ub ref b ho =>
        refine ⟨hh, fun r h => ?_⟩
        cases h
        exact hh i _ ho
      · rcases store_getVector (depth := depth) (i := i) hwf' with
          ⟨y, v, -, h2, h3, h4, -, h6⟩ | ⟨e, -, h2, h3⟩
        · refine ⟨fun j l hl => hh j l (by rwa [h3] at hl), fun r h => ?_⟩
          have := store_getVector_held hh hnew' h2
          rw [h2] at h
          cases h
          exact this
        · rw [h2, h3]
          exact ⟨hh, fun r h => by cases h⟩
  | jac i x =>
    exact ⟨visit_held jacVisit_sim.tame jacVisit_keeps depth st i x (hx x (ha _ (by simp [Call.args]))) hq
      False.elim hnew, fun r h => absurd h (nores _ _)⟩
  | hess i x =>
    exact ⟨visit_held hessVisit_sim.tame hessVisit_keeps depth st i x (hx x (ha _ (by simp [Call.args]))) hq
      False.elim hnew, fun r h => absurd h (nores _ _)⟩
  | get i =>
    refine ⟨hq, fun r h => ?_⟩
    unfold Call.run Store.get at h
    simp only at h
    cases ho : st.objs[i]? with
    | none => rw [ho] at h; cases h
    | some o =>
      rw [ho] at h
      cases o with
      | leaf l => cases h; exact hq i l ho
      | dict hd es => cases h
  | getFree i =>
    unfold Call.run
    simp only
    cases h : (st.getFree depth i).2 with
    | error e => rw [(store_getFree_error h).2]; exact ⟨hq, fun r h => by cases h⟩
    | ok y =>
      obtain ⟨v, -, h1, h2⟩ := store_getFree_new h
      rw [h1]
      refine ⟨hq, fun r h => ?_⟩
      cases h
      rw [h2]
      exact fun k hk => hnew k (Mem.alloc_new _ _ k hk)
  | getVector i =>
    unfold Call.run
    simp only
    rcases store_getVector (depth := depth) (i := i) hwf with ⟨y, v, -, h2, h3, h4, -, h6⟩ | ⟨e, -, h2, h3⟩
    · refine ⟨fun j l hl => hq j l (by rwa [h3] at hl), fun r h => ?_⟩
      have := store_getVector_held hq hnew h2
      rw [h2] at h
      cases h
      exact this
    · rw [h2, h3]
      exact ⟨hq, fun r h => by cases h⟩
  | entry d key => exact ⟨hq, fun r h => absurd h (obres _ _)⟩

/-! ### Objectives -/

theorem setPar_held {Q : ℕ → Prop} {depth : ℕ} {st : Store} {i : ℕ} {x : List ℕ} {free : Bool}
    (hx : ∀ k ∈ x, k < st.mem.next) (hq : st.Held Q) (hxq : free = false → ∀ k ∈ x, Q k)
    (hnew : ∀ k, st.mem.next ≤ k → Q k) : Store.Held Q (st.setPar depth i x free).1 := by
  unfold Store.setPar
  cases free with
  | true => exact visit_held freeVisit_sim.tame freeVisit_keeps depth st i x hx hq False.elim hnew
  | false => exact visit_held vecVisit_sim.tame vecVisit_keeps depth st i x hx hq (fun _ => hxq rfl) hnew

theorem box_held {Q : ℕ → Prop} {b : Bool} {F : List ℕ} {st : Store} (h : st.Held Q) : (st.box b F).Held Q := by
  intro j l hl
  rw [box_getElem] at hl
  cases ho : st.objs[j]? with
  | none => rw [ho] at hl; cases hl
  | some o =>
    rw [ho] at hl
    simp only [Option.map_some, Option.some.injEq] at hl
    split at hl
    · cases o with
      | dict hd es => cases hl
      | leaf l' => cases hl; exact h j l' ho
    · subst hl; exact h j l ho

theorem traceSet_held {Q : ℕ → Prop} {depth : ℕ} {st : Store} {i : ℕ} {x : List ℕ} {free : Bool}
    (hx : ∀ k ∈ x, k < st.mem.next) (hq : st.Held Q) (hxq : free = false → ∀ k ∈ x, Q k)
    (hnew : ∀ k, st.mem.next ≤ k → Q k) : Store.Held Q (st.traceSet depth i x free) := by
  have h := setPar_held (depth := depth) (i := i) hx hq hxq hnew
  unfold Store.traceSet
  simp only
  generalize st.setPar depth i x free = s at h ⊢
  obtain ⟨s, r⟩ := s
  cases r with
  | error e => exact h
  | ok u => exact box_held h

theorem deriv_held {Q : ℕ → Prop} {β : Type} {depth : ℕ} {w : World A} {x : List ℕ}
    (hx : ∀ k ∈ x, k < w.st.mem.next) {free : Bool} (a : A) (ag : (List ℝ → Py Arr) → Py β)
    (hq : w.st.Held Q) (hxq : free = false → ∀ k ∈ x, Q k) (hnew : ∀ k, w.st.mem.next ≤ k → Q k) :
    Store.Held Q (w.deriv depth free x a ag).1.st ∧ (w.deriv depth free x a ag).1.o = w.o := by
  have h1 := traceSet_held (depth := depth) (i := w.o.par) hx hq hxq hnew
  have hc := traceSet_change (depth := depth) (i := w.o.par) free hx
  have h2 := setPar_held (depth := depth) (i := w.o.par) (fun k hk => lt_of_lt_of_le (hx k hk) hc.le.1) h1 hxq
    fun k hk => hnew k (hc.le.1.trans hk)
  unfold World.deriv
  simp only
  cases ag (w.valueAt depth a free) with
  | error e => exact ⟨h1, rfl⟩
  | ok v =>
    simp only
    cases ((w.st.traceSet depth w.o.par x free).setPar depth w.o.par x free).2 <;> exact ⟨h2, rfl⟩

theorem funFree_held {Q : ℕ → Prop} {depth : ℕ} {w : World A} {x : List ℕ}
    (hx : ∀ k ∈ x, k < w.st.mem.next) (a : A) (verbose : Bool) (hq : w.st.Held Q)
    (hnew : ∀ k, w.st.mem.next ≤ k → Q k) :
    Store.Held Q (w.funFree depth x a verbose).1.st ∧
      ((w.funFree depth x a verbose).1.o.logger.xArray = w.o.logger.xArray ∨
        verbose = true ∧ (w.funFree depth x a verbose).1.o.logger.xArray = w.o.logger.xArray ++ [x]) := by
  have h := visit_held freeVisit_sim.tame freeVisit_keeps depth w.st w.o.par x hx hq False.elim hnew
  change Store.Held Q (w.st.setFree depth w.o.par x).1 at h
  unfold World.funFree
  simp only
  generalize w.st.setFree depth w.o.par x = s at h ⊢
  obtain ⟨s, r⟩ := s
  cases r with
  | error e => exact ⟨h, Or.inl rfl⟩
  | ok u =>
    simp only at h ⊢
    cases World.callFn depth s w.o a with
    | error e => exact ⟨h, Or.inl rfl⟩
    | ok v =>
      cases verbose with
      | false => exact ⟨h, Or.inl rfl⟩
      | true => exact ⟨h, Or.inr ⟨rfl, (hlog_keeps s.mem w.o.logger v x).2.2⟩⟩

end

end LRVB
