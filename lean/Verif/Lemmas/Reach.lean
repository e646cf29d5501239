import Verif.Lemmas.Subspace
import Verif.Props.Bounds

namespace LRVB

theorem py_bind_ok {α β : Type} {x : Py α} {f : α → Py β} {b : β} (h : (x >>= f) = .ok b) :
    ∃ a, x = .ok a ∧ f a = .ok b := by
  cases x with
  | error e => cases h
  | ok a => exact ⟨a, rfl, h⟩

namespace Leaf

theorem set_eq {l l' : Leaf} {v : Arr} (h : l.set v = .ok l') :
    l' = { l with val := v, boxed := false } := by
  obtain ⟨name, kind, val, boxed⟩ := l
  cases kind <;> simp only [set] at h
  · exact (Except.ok.inj h).symm
  · split_ifs at h; exact (Except.ok.inj h).symm
  · split_ifs at h; exact (Except.ok.inj h).symm
  · split at h
    · split_ifs at h; exact (Except.ok.inj h).symm
    · cases h
  · obtain ⟨b, _, h⟩ := py_bind_ok h
    split_ifs at h; exact (Except.ok.inj h).symm
  · obtain ⟨b, _, h⟩ := py_bind_ok h
    split_ifs at h; exact (Except.ok.inj h).symm
  · split_ifs at h; exact (Except.ok.inj h).symm
  · split_ifs at h; exact (Except.ok.inj h).symm

theorem setFree_kind {l l' : Leaf} {x : List ℝ} (h : l.setFree x = .ok l') :
    l'.kind = l.kind ∧ l'.name = l.name ∧ l'.boxed = false := by
  obtain ⟨name, kind, val, boxed⟩ := l
  cases kind <;> simp only [setFree] at h
  · obtain ⟨b, _, h⟩ := py_bind_ok h
    rw [set_eq h]; simp
  · split_ifs at h
    obtain ⟨b, _, h⟩ := py_bind_ok h
    rw [set_eq h]; simp
  · split_ifs at h
    obtain ⟨b, _, h⟩ := py_bind_ok h
    obtain ⟨b, _, h⟩ := py_bind_ok h
    rw [set_eq h]; simp
  · split_ifs at h
    obtain ⟨b, _, h⟩ := py_bind_ok h
    rw [set_eq h]; simp
  · split_ifs at h
    obtain ⟨b, _, h⟩ := py_bind_ok h
    rw [← Except.ok.inj h]; simp
  · split_ifs at h
    obtain ⟨b, _, h⟩ := py_bind_ok h
    obtain ⟨b, _, h⟩ := py_bind_ok h
    rw [← Except.ok.inj h]; simp
  · split_ifs at h
    obtain ⟨b, _, h⟩ := py_bind_ok h
    rw [set_eq h]; simp
  · split_ifs at h
    rw [set_eq h]; simp

theorem setVector_kind {l l' : Leaf} {x : List ℝ} (h : l.setVector x = .ok l') :
    l'.kind = l.kind ∧ l'.name = l.name ∧ l'.boxed = false := by
  obtain ⟨name, kind, val, boxed⟩ := l
  cases kind <;> simp only [setVector] at h
  · rw [set_eq h]; simp
  · rw [set_eq h]; simp
  · split_ifs at h
    obtain ⟨b, _, h⟩ := py_bind_ok h
    rw [set_eq h]; simp
  · split_ifs at h
    obtain ⟨b, _, h⟩ := py_bind_ok h
    rw [set_eq h]; simp
  · split_ifs at h
    obtain ⟨b, _, h⟩ := py_bind_ok h
    rw [← Except.ok.inj h]; simp
  · split_ifs at h
    obtain ⟨b, _, h⟩ := py_bind_ok h
    obtain ⟨b, _, h⟩ := py_bind_ok h
    rw [← Except.ok.inj h]; simp
  · split_ifs at h
    obtain ⟨b, _, h⟩ := py_bind_ok h
    rw [set_eq h]; simp
  · rw [set_eq h]; simp

theorem freeToVector_setFree {l : Leaf} {x : List ℝ} {p : Leaf × List ℝ}
    (h : l.freeToVector x = .ok p) : l.setFree x = .ok p.1 := by
  unfold freeToVector at h
  obtain ⟨l', hl, h⟩ := py_bind_ok h
  split at h
  · rw [← Except.ok.inj h]; exact hl
  · obtain ⟨v, _, h⟩ := py_bind_ok h
    rw [← Except.ok.inj h]; exact hl

/-- The object after `free_to_vector_jac`: untouched, or set to the free value and boxed. -/
theorem jac_leaf {l : Leaf} {x : List ℝ} {p : Leaf × Coo} (h : l.jac x = .ok p) :
    p.1 = l ∨ ∃ l', l.setFree x = .ok l' ∧ p.1 = { l' with boxed := true } := by
  obtain ⟨name, kind, val, boxed⟩ := l
  cases kind <;> simp only [jac] at h
  · obtain ⟨b, _, h⟩ := py_bind_ok h
    obtain ⟨c, hc, h⟩ := py_bind_ok h
    exact .inr ⟨_, freeToVector_setFree hc, by rw [← Except.ok.inj h]⟩
  · obtain ⟨b, _, h⟩ := py_bind_ok h
    obtain ⟨c, hc, h⟩ := py_bind_ok h
    exact .inl (by rw [← Except.ok.inj h])
  · obtain ⟨b, _, h⟩ := py_bind_ok h
    obtain ⟨c, hc, h⟩ := py_bind_ok h
    exact .inl (by rw [← Except.ok.inj h])
  · obtain ⟨b, _, h⟩ := py_bind_ok h
    obtain ⟨c, hc, h⟩ := py_bind_ok h
    exact .inr ⟨_, freeToVector_setFree hc, by rw [← Except.ok.inj h]⟩
  · obtain ⟨b, _, h⟩ := py_bind_ok h
    obtain ⟨c, hc, h⟩ := py_bind_ok h
    obtain ⟨d, hd, h⟩ := py_bind_ok h
    exact .inl (by rw [← Except.ok.inj h])
  · obtain ⟨b, _, h⟩ := py_bind_ok h
    obtain ⟨c, hc, h⟩ := py_bind_ok h
    obtain ⟨d, hd, h⟩ := py_bind_ok h
    exact .inl (by rw [← Except.ok.inj h])
  · obtain ⟨b, _, h⟩ := py_bind_ok h
    obtain ⟨c, hc, h⟩ := py_bind_ok h
    obtain ⟨d, hd, h⟩ := py_bind_ok h
    exact .inl (by rw [← Except.ok.inj h])
  · exact .inl (by rw [← Except.ok.inj h])

/-- The object after `free_to_vector_hess`. -/
theorem hess_leaf {l : Leaf} {x : List ℝ} {p : Leaf × List Coo} (h : l.hess x = .ok p) :
    p.1 = l ∨ ∃ l', l.setFree x = .ok l' ∧ p.1 = { l' with boxed := true } := by
  obtain ⟨name, kind, val, boxed⟩ := l
  cases kind <;> simp only [hess] at h
  · obtain ⟨b, _, h⟩ := py_bind_ok h
    obtain ⟨c, hc, h⟩ := py_bind_ok h
    exact .inr ⟨_, freeToVector_setFree hc, by rw [← Except.ok.inj h]⟩
  · obtain ⟨b, _, h⟩ := py_bind_ok h
    obtain ⟨c, hc, h⟩ := py_bind_ok h
    exact .inl (by rw [← Except.ok.inj h])
  · obtain ⟨b, _, h⟩ := py_bind_ok h
    obtain ⟨c, hc, h⟩ := py_bind_ok h
    exact .inl (by rw [← Except.ok.inj h])
  · obtain ⟨b, _, h⟩ := py_bind_ok h
    obtain ⟨c, hc, h⟩ := py_bind_ok h
    exact .inr ⟨_, freeToVector_setFree hc, by rw [← Except.ok.inj h]⟩
  · obtain ⟨b, _, h⟩ := py_bind_ok h
    obtain ⟨c, hc, h⟩ := py_bind_ok h
    exact .inl (by rw [← Except.ok.inj h])
  · obtain ⟨b, _, h⟩ := py_bind_ok h
    obtain ⟨c, hc, h⟩ := py_bind_ok h
    exact .inl (by rw [← Except.ok.inj h])
  · obtain ⟨b, _, h⟩ := py_bind_ok h
    obtain ⟨c, hc, h⟩ := py_bind_ok h
    exact .inl (by rw [← Except.ok.inj h])
  · exact .inl (by rw [← Except.ok.inj h])

theorem step_kind (l : Leaf) (op : LeafOp) :
    (l.step op).1.kind = l.kind ∧ (l.step op).1.name = l.name := by
  cases op with
  | set v =>
    simp only [step]
    split
    · next h => rw [set_eq h]; simp
    · simp
  | setFree x =>
    simp only [step]
    split
    · next h => exact ⟨(setFree_kind h).1, (setFree_kind h).2.1⟩
    · simp
  | setVector v =>
    simp only [step]
    split
    · next h => exact ⟨(setVector_kind h).1, (setVector_kind h).2.1⟩
    · simp
  | freeToVector x =>
    simp only [step]
    split
    · simp
    · next l' h =>
      split
      · next p hp =>
        rw [freeToVector_setFree hp] at h
        rw [Except.ok.inj h]
        exact ⟨(setFree_kind (freeToVector_setFree hp)).1 ▸ by rw [Except.ok.inj h],
          (setFree_kind (freeToVector_setFree hp)).2.1 ▸ by rw [Except.ok.inj h]⟩
      · exact ⟨(setFree_kind h).1, (setFree_kind h).2.1⟩
  | freeToVectorJac x =>
    simp only [step]
    split
    · next h =>
      rcases jac_leaf h with h | ⟨l', h, h'⟩
      · rw [h]; simp
      · rw [h']; exact ⟨(setFree_kind h).1, (setFree_kind h).2.1⟩
    · simp
  | freeToVectorHess x =>
    simp only [step]
    split
    · next h =>
      rcases hess_leaf h with h | ⟨l', h, h'⟩
      · rw [h]; simp
      · rw [h']; exact ⟨(setFree_kind h).1, (setFree_kind h).2.1⟩
    · simp

theorem run_kind (l : Leaf) (ops : List LeafOp) :
    (l.run ops).kind = l.kind ∧ (l.run ops).name = l.name := by
  induction ops generalizing l with
  | nil => simp [run]
  | cons op ops ih =>
    rw [run, (ih _).1, (ih _).2]
    exact step_kind l op

end Leaf

theorem ok_of_checkBoundsScalar {lb ub : Flt} {u : Unit} (h : checkBoundsScalar lb ub = .ok u) : lb < ub :=
  (C06_constructor_bounds lb ub).1.mp h

theorem ok_of_checkBoundsVector {lb ub : Flt} {u : Unit} (h : checkBoundsVector lb ub = .ok u) : lb < ub :=
  (C06_constructor_bounds lb ub).2.1.mp h

/-- Constructors only produce legal objects. -/
theorem constructed_legal {eigh : Eigh} (he : EighContract eigh) {l : Leaf}
    (h : Constructed eigh l) (hm : l.HoldsMatrix) : l.kind.Legal := by
  cases h with
  | @scalar name lb ub val _ h =>
    unfold mkScalar at h
    obtain ⟨u, hu, h⟩ := py_bind_ok h
    have hlt := ok_of_checkBoundsScalar hu
    cases val with
    | some v => rw [Leaf.set_eq h]; exact hlt
    | none =>
      simp only at h
      obtain ⟨u, hu, h⟩ := py_bind_ok h
      obtain ⟨u, hu, h⟩ := py_bind_ok h
      rw [Leaf.set_eq h]; exact hlt
  | @vector name n lb ub val _ h =>
    unfold mkVector at h
    obtain ⟨u, hu, h⟩ := py_bind_ok h
    have hlt := ok_of_checkBoundsVector hu
    cases val with
    | some v => rw [Leaf.set_eq h]; exact hlt
    | none =>
      simp only at h
      obtain ⟨u, hu, h⟩ := py_bind_ok h
      obtain ⟨u, hu, h⟩ := py_bind_ok h
      rw [Leaf.set_eq h]; exact hlt
  | @array name s lb ub val _ h =>
    unfold mkArray at h
    obtain ⟨u, hu, h⟩ := py_bind_ok h
    have hlt := ok_of_checkBoundsVector hu
    cases val with
    | some v => rw [Leaf.set_eq h]; exact hlt
    | none =>
      simp only at h
      obtain ⟨u, hu, h⟩ := py_bind_ok h
      obtain ⟨u, hu, h⟩ := py_bind_ok h
      rw [Leaf.set_eq h]; exact hlt
  | @posDef name n d val _ h =>
    unfold mkPosDef at h
    split_ifs at h with hd
    cases val with
    | some v => rw [Leaf.set_eq h]; exact hd
    | none => rw [← Except.ok.inj h]; exact hd
  | @posDefVec name k n d val _ h =>
    unfold mkPosDefVec at h
    split_ifs at h with hd
    cases val with
    | some v =>
      rw [Leaf.set_eq h] at hm ⊢
      exact ⟨by simpa using hd, hm⟩
    | none =>
      rw [← Except.ok.inj h] at hm ⊢
      exact ⟨by simpa using hd, hm⟩
  | @posDefArr name s n d val _ h =>
    unfold mkPosDefArr at h
    split at h
    · cases h
    · cases h
    · next s hs =>
      split_ifs at h with hd
      cases val with
      | some v =>
        rw [Leaf.set_eq h] at hm ⊢
        exact ⟨by simpa using hd, by simpa using hs, hm⟩
      | none =>
        rw [← Except.ok.inj h] at hm ⊢
        exact ⟨by simpa using hd, by simpa using hs, hm⟩
  | @simplex name r c val _ h =>
    unfold mkSimplex at h
    cases val with
    | some v =>
      simp only at h
      split_ifs at h with hc
      rw [Leaf.set_eq h]; exact Nat.pos_of_ne_zero hc
    | none =>
      simp only at h
      split_ifs at h with hc
      rw [Leaf.set_eq h]; exact Nat.pos_of_ne_zero hc
  | @subspace name dim val perp _ h =>
    unfold mkSubspace at h
    simp only at h
    split at h
    · split_ifs at h
      obtain ⟨B, hB, h⟩ := py_bind_ok h
      rw [Leaf.set_eq h]
      obtain ⟨_, _, h1, h2, _⟩ := perpendicular_ok he hB
      exact ⟨h1, h2⟩
    · cases h

theorem reachable_legal {eigh : Eigh} (he : EighContract eigh) {l : Leaf}
    (h : Reachable eigh l) (hm : l.HoldsMatrix) : l.kind.Legal := by
  obtain ⟨l₀, ops, hc, rfl⟩ := h
  have hk := (l₀.run_kind ops).1
  rw [hk]
  apply constructed_legal he hc
  unfold Leaf.HoldsMatrix at hm ⊢
  rwa [hk] at hm

end LRVB
