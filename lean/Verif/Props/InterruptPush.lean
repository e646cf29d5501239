import Verif.Model.Interrupt
import Verif.Props.Dict

/-!
# C151: interrupted `push_param`
-/

namespace LRVB

theorem assign_assign {α : Type} (k : String) (v w : α) (l : List (String × α)) :
    assign k v (assign k w l) = assign k v l := by
  induction l with
  | nil => simp [assign]
  | cons a l ih =>
    obtain ⟨k', u⟩ := a
    by_cases h : k' = k
    · simp [assign, h]
    · simp [assign, h, ih]

theorem Entries.assign_assign (k : String) (p q : Param) : ∀ es : Entries,
    (es.assign k q).assign k p = es.assign k p
  | .nil => by simp [Entries.assign]
  | .cons k' r rest => by
    by_cases h : k' = k
    · simp [Entries.assign, h]
    · simp [Entries.assign, h, Entries.assign_assign k p q rest]

theorem Entries.find_assign_self (k : String) (p : Param) : ∀ es : Entries,
    (es.assign k p).find k = some p
  | .nil => by simp [Entries.assign, Entries.find]
  | .cons k' r rest => by
    by_cases h : k' = k
    · simp [Entries.assign, Entries.find, h]
    · simp [Entries.assign, Entries.find, h, Entries.find_assign_self k p rest]

theorem Entries.find_assign_ne {k key : String} {p : Param} (hk : key ≠ k) : ∀ es : Entries,
    (es.assign k p).find key = es.find key
  | .nil => by simp [Entries.assign, Entries.find, Ne.symm hk]
  | .cons k' r rest => by
    by_cases h : k' = k
    · subst h
      simp [Entries.assign, Entries.find, Ne.symm hk]
    · simp only [Entries.assign, Entries.find, if_neg h, Entries.find_assign_ne hk rest]

/-- **C151** fails: for every dictionary and every new parameter with a free value, `push_param` goes
through a state with an entry that the sizes do not count.  If it is interrupted there,
`set_free(get_free())` raises `ValueError`. -/
theorem C151_inconsistent_counterexample {eigh : Eigh} (he : EighContract eigh) (d p : Param)
    (hd : Built eigh d) (hdd : d.IsDict) (hp : Built eigh p) (hpp : p.HasParams) (hn : p.name ∉ d.keys)
    (hs : 0 < p.freeSize) :
    ∃ s ∈ d.duringPush p, s.find p.name = some p ∧
      ∀ x, s.Proper → s.getFree = .ok x → s.setFree x = (s, some .valueError) := by
  have hb : Built eigh (d.push p) := .push hd hp hdd hpp hn
  have hw := hd.wf he
  have hwp := hb.wf he
  cases d with
  | leaf l => exact hdd.elim
  | dict h es =>
    refine ⟨.dict h (es.assign p.name p), by simp [Param.duringPush], ?_, fun x hv hx => ?_⟩
    · simp only [Param.find]
      exact Entries.find_assign_self p.name p es
    · have hv' : (Param.push (.dict h es) p).Proper := by
        simpa only [Param.push, Param.Proper] using hv
      have hx' : (Param.push (.dict h es) p).getFree = .ok x := by
        simpa only [Param.push, Param.getFree] using hx
      have hl := Param.getFree_length _ hwp hv' x hx'
      have hl' : x.length = h.fs + p.freeSize := hl
      simp only [Param.setFree]
      rw [if_pos (by omega)]

/-- **C151** fails: interrupted between the updates of the two sizes, `push_param` cannot be completed by
calling it again: the free size then counts the parameter twice, and `set_free(get_free())` raises
`ValueError`. -/
theorem C151_repeat_counterexample {eigh : Eigh} (he : EighContract eigh) (d p : Param)
    (hd : Built eigh d) (hdd : d.IsDict) (hp : Built eigh p) (hpp : p.HasParams) (hn : p.name ∉ d.keys)
    (hs : 0 < p.freeSize) :
    ∃ s ∈ d.duringPush p,
      (s.push p).freeSize = ((s.push p).items.map fun kp => kp.2.freeSize).sum + p.freeSize ∧
      ∀ x, (s.push p).Proper → (s.push p).getFree = .ok x →
        (s.push p).setFree x = (s.push p, some .valueError) := by
  have hb : Built eigh (d.push p) := .push hd hp hdd hpp hn
  have hwp := hb.wf he
  have hsz := (C33_dictionary_sizes he _ hb (by cases d with
    | leaf l => exact hdd
    | dict h es => trivial)).1
  cases d with
  | leaf l => exact hdd.elim
  | dict h es =>
    refine ⟨_, List.mem_cons_of_mem _ (List.mem_cons_of_mem _ (List.mem_cons_of_mem _
      (List.mem_cons_of_mem _ List.mem_cons_self))), ?_, fun x hv hx => ?_⟩
    · simp only [Param.push, Param.freeSize, Param.items, Entries.assign_assign] at hsz ⊢
      omega
    · have hv' : (Param.push (.dict h es) p).Proper := by
        simpa only [Param.push, Param.Proper, Entries.assign_assign] using hv
      have hx' : (Param.push (.dict h es) p).getFree = .ok x := by
        simpa only [Param.push, Param.getFree, Entries.assign_assign] using hx
      have hl := Param.getFree_length _ hwp hv' x hx'
      have hl' : x.length = h.fs + p.freeSize := hl
      simp only [Param.push, Param.setFree]
      rw [if_pos (by omega)]

/-- **C151**, the part that holds: after an interruption, the sizes tell what to do.  If neither has changed,
`push_param` with the same parameter completes the dictionary as if there had been no interruption;
if the vector size has changed, the dictionary is complete.  Missing: the interruption between the
updates of the two sizes (`C151_repeat_counterexample`), and that nothing has to be done at all
(`C151_inconsistent_counterexample`). -/
theorem C151_repeat_partial (d p s : Param) (hs : s ∈ d.duringPush p) :
    (s.freeSize = d.freeSize ∧ s.vecSize = d.vecSize → s.push p = d.push p) ∧
    (s.vecSize ≠ d.vecSize → s = d.push p) ∧ s.name = d.name ∧
    ∀ key, key ≠ p.name → s.find key = d.find key := by
  cases d with
  | leaf l =>
    simp only [Param.duringPush, List.mem_singleton] at hs
    subst hs
    exact ⟨fun _ => rfl, fun h => absurd rfl h, rfl, fun _ _ => rfl⟩
  | dict h es =>
    have hf : ∀ key, key ≠ p.name → (es.assign p.name p).find key = es.find key :=
      fun key hk => Entries.find_assign_ne hk es
    simp only [Param.duringPush, List.mem_cons, List.not_mem_nil, or_false] at hs
    rcases hs with rfl | rfl | rfl | rfl | rfl | rfl
    · exact ⟨fun _ => rfl, fun h => absurd rfl h, rfl, fun _ _ => rfl⟩
    · exact ⟨fun _ => by simp [Param.push, Entries.assign_assign], fun h => absurd rfl h, rfl, hf⟩
    · exact ⟨fun _ => by simp [Param.push, Entries.assign_assign, assign_assign], fun h => absurd rfl h, rfl, hf⟩
    · exact ⟨fun _ => by simp [Param.push, Entries.assign_assign, assign_assign], fun h => absurd rfl h, rfl, hf⟩
    · refine ⟨fun hh => ?_, fun h => absurd rfl h, rfl, hf⟩
      have h0 : p.freeSize = 0 := by simpa [Param.freeSize] using hh.1
      simp [Param.push, Entries.assign_assign, assign_assign, h0]
    · refine ⟨fun hh => ?_, fun _ => by simp [Param.push], rfl, hf⟩
      have h0 : p.freeSize = 0 := by simpa [Param.freeSize] using hh.1
      have h1 : p.vecSize = 0 := by simpa [Param.vecSize] using hh.2
      simp [Param.push, Entries.assign_assign, assign_assign, h0, h1]

/-- The hypotheses are met by the example dictionary and a vector of two numbers under a new name. -/
example : ∃ (eigh : Eigh) (d p : Param), EighContract eigh ∧ Built eigh d ∧ d.IsDict ∧ Built eigh p ∧
    p.HasParams ∧ p.name ∉ d.keys ∧ 0 < p.freeSize := by
  obtain ⟨eigh, he⟩ := exists_eigh
  refine ⟨eigh, exDict, .leaf exVector, he, exDict_built eigh, trivial, exVector_built eigh, trivial, ?_, ?_⟩
  · simp [exDict, exSub, exScalar, exVector, Param.emptyDict, Param.push, Param.keys, Param.items,
      Entries.assign, Entries.toList, Param.name]
  · simp [exVector, Param.freeSize, Leaf.freeSize, Kind.freeSize]

end LRVB
