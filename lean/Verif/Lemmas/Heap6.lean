import Verif.Lemmas.Heap5

/-!
# All calls: memory, held arrays, results
-/

namespace LRVB

open Classical

noncomputable section

theorem getVector_new {m : Mem} {l : HLeaf} {r : Mem × List ℕ} (h : l.getVector m = .ok r) :
    (r.1 = m ∧ r.2 = l.ref.addr) ∨ ∃ v, r = ((m.alloc (Arr.vec v)).1, (m.alloc (Arr.vec v)).2.addr) := by
  unfold HLeaf.getVector at h
  obtain ⟨v, -, h⟩ := py_bind_ok h
  cases hk : l.kind <;> rw [hk] at h <;> cases h
  case scalar | vector | subspace => exact Or.inl ⟨rfl, rfl⟩
  all_goals exact Or.inr ⟨v, rfl⟩

theorem getFree_new {m : Mem} {l : HLeaf} {r : Mem × List ℕ} (h : l.getFree m = .ok r) :
    ∃ v, (l.view m).getFree = .ok v ∧ r = ((m.alloc (Arr.vec v)).1, (m.alloc (Arr.vec v)).2.addr) := by
  unfold HLeaf.getFree at h
  obtain ⟨v, hv, h⟩ := py_bind_ok h
  cases h
  exact ⟨v, hv, rfl⟩

theorem store_getFree_new {depth : ℕ} {st : Store} {i : ℕ} {y : List ℕ} (h : (st.getFree depth i).2 = .ok y) :
    ∃ v, st.gather Leaf.getFree depth i = .ok v ∧
      (st.getFree depth i).1 = ⟨(st.mem.alloc (Arr.vec v)).1, st.objs⟩ ∧ y = (st.mem.alloc (Arr.vec v)).2.addr := by
  unfold Store.getFree at h ⊢
  cases depth with
  | zero => cases h
  | succ d =>
    cases ho : st.objs[i]? with
    | none => rw [ho] at h; cases h
    | some o =>
      rw [ho] at h
      cases o with
      | leaf l =>
        simp only at h ⊢
        cases hl : l.getFree st.mem with
        | error e => rw [hl] at h; cases h
        | ok r =>
          rw [hl] at h
          cases h
          obtain ⟨v, h1, h2⟩ := getFree_new hl
          refine ⟨v, ?_, by rw [h2], by rw [h2]⟩
          unfold Store.gather
          rw [ho]
          exact h1
      | dict hd es =>
        simp only at h ⊢
        cases hl : st.gather Leaf.getFree (d + 1) i with
        | error e => rw [hl] at h; cases h
        | ok v =>
          rw [hl] at h
          cases h
          exact ⟨v, rfl, rfl, rfl⟩

theorem store_getFree_error {depth : ℕ} {st : Store} {i : ℕ} {e : PyErr} (h : (st.getFree depth i).2 = .error e) :
    st.gather Leaf.getFree depth i = .error e ∧ (st.getFree depth i).1 = st := by
  unfold Store.getFree at h ⊢
  cases depth with
  | zero => cases h; exact ⟨rfl, rfl⟩
  | succ d =>
    cases ho : st.objs[i]? with
    | none => rw [ho] at h; cases h; unfold Store.gather; rw [ho]; exact ⟨rfl, rfl⟩
    | some o =>
      rw [ho] at h
      cases o with
      | leaf l =>
        simp only at h ⊢
        cases hl : l.getFree st.mem with
        | ok r => rw [hl] at h; cases h
        | error e' =>
          rw [hl] at h
          cases h
          refine ⟨?_, rfl⟩
          unfold Store.gather
          rw [ho]
          simp only
          unfold HLeaf.getFree at hl
          cases hv : (l.view st.mem).getFree with
          | ok v => rw [hv] at hl; cases hl
          | error e' => rw [hv] at hl; cases hl; rfl
      | dict hd es =>
        simp only at h ⊢
        cases hl : st.gather Leaf.getFree (d + 1) i with
        | ok v => rw [hl] at h; cases h
        | error e => rw [hl] at h; cases h; exact ⟨rfl, rfl⟩

/-- The result of `get_vector()` of a parameter has the value the value model says. -/
theorem getVector_vals {m : Mem} {l : HLeaf} :
    match l.getVector m, (l.view m).getVector with
    | .ok r, .ok v => m.Le r.1 ∧ (l.ref.Alive m → r.1.vals r.2 = v)
    | .error e, .error e' => e = e'
    | _, _ => False := by
  unfold HLeaf.getVector
  cases hv : (l.view m).getVector with
  | error e => exact rfl
  | ok v =>
    rw [py_ok_bind]
    have hvv : ∀ k, l.kind = k → (l.view m).kind = k := fun k h => h
    cases hk : l.kind with
    | scalar lb ub =>
      refine ⟨.refl _, fun _ => ?_⟩
      simp only [Leaf.getVector, hvv _ hk] at hv
      split_ifs at hv
      cases hv
      rfl
    | vector n lb ub =>
      refine ⟨.refl _, fun _ => ?_⟩
      simp only [Leaf.getVector, hvv _ hk] at hv
      split_ifs at hv
      cases hv
      rfl
    | subspace d f b =>
      refine ⟨.refl _, fun _ => ?_⟩
      simp only [Leaf.getVector, hvv _ hk] at hv
      split_ifs at hv
      cases hv
      rfl
    | array s lb ub => exact ⟨Mem.alloc_le _ _, fun _ => Mem.alloc_vals _ _⟩
    | simplex r c => exact ⟨Mem.alloc_le _ _, fun _ => Mem.alloc_vals _ _⟩
    | posdef n d => exact ⟨Mem.alloc_le _ _, fun _ => Mem.alloc_vals _ _⟩
    | posdefVec len n d => exact ⟨Mem.alloc_le _ _, fun _ => Mem.alloc_vals _ _⟩
    | posdefArr s n d => exact ⟨Mem.alloc_le _ _, fun _ => Mem.alloc_vals _ _⟩

/-- What `get_vector()` does to the store, and what it returns. -/
theorem store_getVector {depth : ℕ} {st : Store} {i : ℕ} (hwf : st.WF) :
    (∃ y v, st.gather Leaf.getVector depth i = .ok v ∧ (st.getVector depth i).2 = .ok y ∧
      (st.getVector depth i).1.objs = st.objs ∧ st.mem.Le (st.getVector depth i).1.mem ∧
      (st.getVector depth i).1.mem.vals y = v ∧ (∀ k ∈ y, k < (st.getVector depth i).1.mem.next)) ∨
    ∃ e, st.gather Leaf.getVector depth i = .error e ∧ (st.getVector depth i).2 = .error e ∧
      (st.getVector depth i).1 = st := by
  unfold Store.getVector
  cases depth with
  | zero => exact Or.inr ⟨_, rfl, rfl, rfl⟩
  | succ d =>
    unfold Store.gather
    cases ho : st.objs[i]? with
    | none => exact Or.inr ⟨_, rfl, rfl, rfl⟩
    | some o =>
      cases o with
      | leaf l =>
        simp only
        have := getVector_vals (m := st.mem) (l := l)
        cases hl : l.getVector st.mem with
        | error e =>
          rw [hl] at this
          cases hv : (l.view st.mem).getVector with
          | ok v => rw [hv] at this; exact this.elim
          | error e' => rw [hv] at this; exact Or.inr ⟨_, rfl, by rw [this], rfl⟩
        | ok r =>
          rw [hl] at this
          cases hv : (l.view st.mem).getVector with
          | error e' => rw [hv] at this; exact this.elim
          | ok v =>
            rw [hv] at this
            refine Or.inl ⟨r.2, v, rfl, rfl, rfl, this.1, this.2 (hwf i l ho), ?_⟩
            rcases getVector_new hl with ⟨h1, h2⟩ | ⟨w, h⟩
            · change ∀ k ∈ r.2, k < r.1.next
              rw [h1, h2]; exact hwf i l ho
            · change ∀ k ∈ r.2, k < r.1.next
              rw [h]; exact Mem.alloc_alive _ _
      | dict hd es =>
        simp only
        cases hl : (es.mapM fun e => st.gather Leaf.getVector d e.2) >>= Arr.hstack with
        | error e =>
          exact Or.inr ⟨_, rfl, rfl, rfl⟩
        | ok v =>
          exact Or.inl ⟨_, v, rfl, rfl, rfl, Mem.alloc_le _ _, Mem.alloc_vals _ _, Mem.alloc_alive _ _⟩

theorem wf_mem {m : Mem} {st : Store} (hwf : st.WF) (hm : st.mem.Le m) : Store.WF ⟨m, st.objs⟩ :=
  fun i l hl => (hwf i l hl).mono hm

theorem wf_append {st : Store} {m : Mem} {o : Obj} (hwf : st.WF) (hm : st.mem.Le m)
    (ho : ∀ l, o = .leaf l → l.ref.Alive m) : Store.WF ⟨m, st.objs ++ [o]⟩ := by
  intro i l hl
  simp only at hl
  rcases List.getElem?_append (l₁ := st.objs) (l₂ := [o]) (i := i) ▸ hl with hl
  split_ifs at hl with h
  · exact (hwf i l hl).mono hm
  · rcases hc : i - st.objs.length with _ | n
    · rw [hc] at hl
      simp only [List.getElem?_cons_zero, Option.some.injEq] at hl
      exact ho l hl
    · rw [hc] at hl
      simp at hl

theorem wf_set {st : Store} {i : ℕ} {o : Obj} (hwf : st.WF)
    (ho : ∀ l, o = .leaf l → l.ref.Alive st.mem) : Store.WF ⟨st.mem, st.objs.set i o⟩ := by
  intro j l hl
  simp only [List.getElem?_set] at hl
  split_ifs at hl with h1 h2
  · simp only [Option.some.injEq] at hl
    exact ho l hl
  · exact hwf j l hl

theorem hleaf_set_ref {m : Mem} {l l' : HLeaf} {r : Ref} (h : l.set m r = .ok l') :
    l'.ref = r ∧ l'.name = l.name ∧ l'.kind = l.kind ∧ l'.boxed = false := by
  unfold HLeaf.set at h
  obtain ⟨v, -, h⟩ := py_bind_ok h
  cases h
  exact ⟨rfl, rfl, rfl, rfl⟩

/-- No call changes an array in use; the held arrays and the returned one are in use. -/
theorem call_run {depth : ℕ} {st : Store} (c : Call) (ha : ∀ r ∈ c.args, r.Alive st.mem) (hwf : st.WF) :
    st.mem.Le (c.run depth st).1.mem ∧ (c.run depth st).1.WF ∧
      ∀ r, (c.run depth st).2 = .ok (.arr r) → r.Alive (c.run depth st).1.mem := by
  have hx : ∀ x : List ℕ, (Ref.vec x).Alive st.mem → ∀ k ∈ x, k < st.mem.next := fun x h => h
  have nores : ∀ {α : Type} (a : Py α) (r : Ref), (fun _ => Result.nothing) <$> a ≠ .ok (.arr r) := by
    intro α a r h
    cases a <;> cases h
  have obres : ∀ (a : Py ℕ) (r : Ref), Result.obj <$> a ≠ .ok (.arr r) := by
    intro a r h
    cases a <;> cases h
  cases c with
  | newParam mk val =>
    refine ⟨?_, ?_, fun r h => absurd h (obres _ _)⟩
    all_goals
      unfold Call.run Store.newParam
      cases val with
      | none =>
        simp only
        cases hm : mk none with
        | error e => first | exact .refl _ | exact hwf
        | ok l =>
          first
          | exact Mem.alloc_le _ _
          | exact wf_append hwf (Mem.alloc_le _ _) fun l' h => by cases h; exact Mem.alloc_alive _ _
      | some r =>
        simp only
        cases hm : mk (some (st.mem.read r)) with
        | error e => first | exact .refl _ | exact hwf
        | ok l =>
          first
          | exact .refl _
          | exact wf_append hwf (.refl _) fun l' h => by cases h; exact ha r (by simp [Call.args])
  | newDict name =>
    exact ⟨.refl _, wf_append hwf (.refl _) (fun _ h => by cases h), fun r h => by cases h⟩
  | push d c =>
    refine ⟨?_, ?_, fun r h => absurd h (nores _ _)⟩
    all_goals
      unfold Call.run Store.push
      simp only
      split
      · first
        | exact .refl _
        | exact wf_set hwf fun _ h => by cases h
      · first | exact .refl _ | exact hwf
      · first | exact .refl _ | exact hwf
  | setName i n =>
    refine ⟨?_, ?_, fun r h => by cases h⟩
    all_goals
      unfold Call.run Store.setName
      simp only
      split
      · first | exact .refl _ | exact hwf
      · next l hl =>
        first
        | exact .refl _
        | exact wf_set hwf fun _ h => by cases h; exact hwf i l hl
      · first
        | exact .refl _
        | exact wf_set hwf fun _ h => by cases h
  | set i r =>
    refine ⟨?_, ?_, fun r h => absurd h (nores _ _)⟩
    all_goals
      unfold Call.run Store.set
      simp only
      split
      · first | exact .refl _ | exact hwf
      · first | exact .refl _ | exact hwf
      · next l hl =>
        cases hs : l.set st.mem r with
        | error e => first | exact .refl _ | exact hwf
        | ok l' =>
          first
          | exact .refl _
          | exact wf_set hwf fun _ h => by
              cases h
              rw [(hleaf_set_ref hs).1]
              exact ha r (by simp [Call.args])
  | setFree i x =>
    have h := visit_change freeVisit_sim.tame depth st i x (hx x (ha _ (by simp [Call.args])))
    exact ⟨h.le, h.wf hwf, fun r h => absurd h (nores _ _)⟩
  | setVector i x =>
    have h := visit_change vecVisit_sim.tame depth st i x (hx x (ha _ (by simp [Call.args])))
    exact ⟨h.le, h.wf hwf, fun r h => absurd h (nores _ _)⟩
  | freeToVector i x =>
    have h := visit_change freeVisit_sim.tame depth st i x (hx x (ha _ (by simp [Call.args])))
    have hwf' := h.wf hwf
    change Store.WF (st.setFree depth i x).1 at hwf'
    have hle : st.mem.Le (st.setFree depth i x).1.mem := h.le
    unfold Call.run Store.freeToVector
    simp only
    generalize st.setFree depth i x = s at *
    obtain ⟨s1, s2⟩ := s
    cases s2 with
    | error e => exact ⟨hle, hwf', fun r h => by cases h⟩
    | ok u =>
      simp only at hwf' hle ⊢
      split
      · next nm lb ub ref b ho =>
        refine ⟨hle, hwf', fun r h => ?_⟩
        cases h
        exact hwf' i _ ho
      · rcases store_getVector (depth := depth) (i := i) hwf' with
          ⟨y, v, -, h2, h3, h4, -, h6⟩ | ⟨e, -, h2, h3⟩
        · refine ⟨hle.trans h4, ?_, fun r h => ?_⟩
          · intro j l hl
            rw [h3] at hl
            exact (hwf' j l hl).mono h4
          · rw [h2] at h
            cases h
            exact h6
        · rw [h2, h3]
          exact ⟨hle, hwf', fun r h => by cases h⟩
  | jac i x =>
    have h := visit_change jacVisit_sim.tame depth st i x (hx x (ha _ (by simp [Call.args])))
    exact ⟨h.le, h.wf hwf, fun r h => absurd h (nores _ _)⟩
  | hess i x =>
    have h := visit_change hessVisit_sim.tame depth st i x (hx x (ha _ (by simp [Call.args])))
    exact ⟨h.le, h.wf hwf, fun r h => absurd h (nores _ _)⟩
  | get i =>
    refine ⟨.refl _, hwf, fun r h => ?_⟩
    unfold Call.run Store.get at h
    simp only at h
    cases ho : st.objs[i]? with
    | none => rw [ho] at h; cases h
    | some o =>
      rw [ho] at h
      cases o with
      | leaf l => cases h; exact hwf i l ho
      | dict hd es => cases h
  | getFree i =>
    unfold Call.run
    simp only
    cases h : (st.getFree depth i).2 with
    | error e => rw [(store_getFree_error h).2]; exact ⟨.refl _, hwf, fun r h => by cases h⟩
    | ok y =>
      obtain ⟨v, -, h1, h2⟩ := store_getFree_new h
      rw [h1]
      refine ⟨Mem.alloc_le _ _, wf_mem hwf (Mem.alloc_le _ _), fun r h => ?_⟩
      cases h
      rw [h2]
      exact Mem.alloc_alive _ _
  | getVector i =>
    unfold Call.run
    simp only
    rcases store_getVector (depth := depth) (i := i) hwf with ⟨y, v, -, h2, h3, h4, -, h6⟩ | ⟨e, -, h2, h3⟩
    · refine ⟨h4, ?_, fun r h => ?_⟩
      · intro j l hl
        rw [h3] at hl
        exact (hwf j l hl).mono h4
      · rw [h2] at h
        cases h
        exact h6
    · rw [h2, h3]
      exact ⟨.refl _, hwf, fun r h => by cases h⟩
  | entry d key => exact ⟨.refl _, hwf, fun r h => absurd h (obres _ _)⟩

/-- The objects of reachable stores hold arrays in use. -/
theorem Reached.wf {depth : ℕ} {st : Store} (h : Reached depth st) : st.WF := by
  induction h with
  | start cell => intro i l hl; simp at hl
  | step h e ok ih =>
    cases e with
    | newArray a => exact wf_mem ih (Mem.alloc_le _ _)
    | assign w =>
      intro i l hl k hk
      rw [Event.run, assign_next]
      exact ih i l hl k hk
    | call c => exact (call_run c ok ih).2.1

theorem Reached.run {depth : ℕ} : ∀ {st : Store} (_ : Reached depth st) (es : List Event),
    okEvents depth st es → Reached depth (runEvents depth st es)
  | _, h, [], _ => h
  | _, h, e :: es, ok => Reached.run (h.step e ok.1) es ok.2

end

end LRVB
