import Verif.Lemmas.Dict5

/-!
# Further lemmas about dictionaries: sums over items, pushes that break the bookkeeping, views
-/

namespace LRVB

theorem Entries.fsum_items : ∀ es : Entries, es.fsum = (es.toList.map fun kp => kp.2.freeSize).sum
  | .nil => rfl
  | .cons k p rest => by simp [Entries.fsum, Entries.toList, Entries.fsum_items rest]

theorem Entries.vsum_items : ∀ es : Entries, es.vsum = (es.toList.map fun kp => kp.2.vecSize).sum
  | .nil => rfl
  | .cons k p rest => by simp [Entries.vsum, Entries.toList, Entries.vsum_items rest]

namespace Entries

theorem mem_keys_find {key : String} : ∀ {es : Entries}, key ∈ es.keys → ∃ q, es.find key = some q
  | .nil, h => by simp [keys_nil] at h
  | .cons k p rest, h => by
    rw [keys_cons, List.mem_cons] at h
    simp only [find]
    split_ifs with hk
    · exact ⟨p, rfl⟩
    · rcases h with h | h
      · exact absurd h.symm hk
      · exact mem_keys_find h

theorem find_mem_keys {key : String} {q : Param} : ∀ {es : Entries}, es.find key = some q → key ∈ es.keys
  | .nil, h => by simp [find] at h
  | .cons k p rest, h => by
    rw [keys_cons, List.mem_cons]
    simp only [find] at h
    split_ifs at h with hk
    · exact Or.inl hk.symm
    · exact Or.inr (find_mem_keys h)

theorem fsum_assign {key : String} {p q : Param} : ∀ {es : Entries}, es.find key = some q →
    (es.assign key p).fsum + q.freeSize = es.fsum + p.freeSize
  | .nil, h => by simp [find] at h
  | .cons k r rest, h => by
    simp only [find] at h
    simp only [assign]
    split_ifs at h ⊢ with hk
    · cases h; simp only [fsum]; omega
    · have := fsum_assign (p := p) h; simp only [fsum]; omega

theorem wf_assign {key : String} {p : Param} (hp : p.WF) (hn : p.HasParams) : ∀ {es : Entries},
    es.WF → (es.assign key p).WF
  | .nil, _ => ⟨hp, hn, trivial⟩
  | .cons k r rest, h => by
    simp only [assign]
    split_ifs
    · exact ⟨hp, hn, h.2.2⟩
    · exact ⟨h.1, h.2.1, wf_assign hp hn h.2.2⟩

theorem find_mem {key : String} {q : Param} : ∀ {es : Entries}, es.find key = some q →
    (key, q) ∈ es.toList
  | .nil, h => by simp [find] at h
  | .cons k r rest, h => by
    simp only [find] at h
    simp only [toList]
    split_ifs at h with hk
    · cases h; rw [hk]; exact List.mem_cons_self
    · exact List.mem_cons_of_mem _ (find_mem h)

theorem wf_find {key : String} {q : Param} : ∀ {es : Entries}, es.WF → es.find key = some q →
    q.WF ∧ q.HasParams
  | .nil, _, h => by simp [find] at h
  | .cons k r rest, hw, h => by
    simp only [find] at h
    split_ifs at h
    · cases h; exact ⟨hw.1, hw.2.1⟩
    · exact wf_find hw.2.2 h

end Entries

namespace Param

theorem onEntry_find_ne {f : Param → Param × Option PyErr} {key k' : String} (hne : k' ≠ key) :
    ∀ es : Entries, (onEntry f key es).1.find k' = es.find k'
  | .nil => rfl
  | .cons k p rest => by
    unfold onEntry
    split_ifs with hk
    · subst hk
      simp only [Entries.find]
      rw [if_neg (fun h => hne h.symm)]
      rw [if_neg (fun h => hne h.symm)]
    · simp only [Entries.find]
      split_ifs
      · rfl
      · exact onEntry_find_ne hne rest

theorem onEntry_find_eq {f : Param → Param × Option PyErr} {key : String} {q : Param} :
    ∀ {es : Entries}, es.find key = some q →
      (onEntry f key es).1.find key = some (f q).1 ∧ (onEntry f key es).2 = (f q).2
  | .nil, h => by simp [Entries.find] at h
  | .cons k p rest, h => by
    simp only [Entries.find] at h
    unfold onEntry
    split_ifs at h ⊢ with hk
    · cases h; simp [Entries.find, hk]
    · simp only [Entries.find]
      rw [if_neg hk]
      exact onEntry_find_eq h

theorem onEntry_none {f : Param → Param × Option PyErr} {key : String} :
    ∀ {es : Entries}, es.find key = none → onEntry f key es = (es, some .keyError)
  | .nil, _ => rfl
  | .cons k p rest, h => by
    simp only [Entries.find] at h
    unfold onEntry
    split_ifs at h ⊢ with hk
    rw [onEntry_none h]

theorem onEntry_same {f : Param → Param × Option PyErr} {key : String} {q : Param} :
    ∀ {es : Entries}, es.find key = some q → (f q).1 = q → (onEntry f key es).1 = es
  | .nil, h, _ => by simp [Entries.find] at h
  | .cons k p rest, h, hq => by
    simp only [Entries.find] at h
    unfold onEntry
    split_ifs at h ⊢ with hk
    · cases h; simp [hq]
    · simp [onEntry_same h hq]

theorem onEntry_wf {f : Param → Param × Option PyErr} {key : String} {q : Param}
    (hf : q.WF → q.HasParams → (f q).1.WF ∧ (f q).1.HasParams) :
    ∀ {es : Entries}, es.find key = some q → es.WF → (onEntry f key es).1.WF
  | .nil, _, _ => trivial
  | .cons k p rest, hq, h => by
    simp only [Entries.find] at hq
    unfold onEntry
    split_ifs at hq ⊢
    · cases hq; exact ⟨(hf h.1 h.2.1).1, (hf h.1 h.2.1).2, h.2.2⟩
    · exact ⟨h.1, h.2.1, onEntry_wf hf hq h.2.2⟩

theorem hasParams_push {h : Hdr} {es : Entries} (p : Param) : ((dict h es).push p).HasParams := by
  simp only [push, HasParams]
  cases es <;> simp only [Entries.assign]
  · simp
  · split <;> simp

theorem freeSize_push {h : Hdr} {es : Entries} (p : Param) :
    ((dict h es).push p).freeSize = (dict h es).freeSize + p.freeSize := rfl

theorem vecSize_push {h : Hdr} {es : Entries} (p : Param) :
    ((dict h es).push p).vecSize = (dict h es).vecSize + p.vecSize := rfl

theorem onEntry_fsum {f : Param → Param × Option PyErr} {key : String} {q : Param} :
    ∀ {es : Entries}, es.find key = some q →
      (onEntry f key es).1.fsum + q.freeSize = es.fsum + (f q).1.freeSize
  | .nil, h => by simp [Entries.find] at h
  | .cons k p rest, h => by
    simp only [Entries.find] at h
    unfold onEntry
    split_ifs at h ⊢ with hk
    · cases h; simp only [Entries.fsum]; omega
    · have := onEntry_fsum (f := f) h; simp only [Entries.fsum]; omega

theorem onEntry_vsum {f : Param → Param × Option PyErr} {key : String} {q : Param} :
    ∀ {es : Entries}, es.find key = some q →
      (onEntry f key es).1.vsum + q.vecSize = es.vsum + (f q).1.vecSize
  | .nil, h => by simp [Entries.find] at h
  | .cons k p rest, h => by
    simp only [Entries.find] at h
    unfold onEntry
    split_ifs at h ⊢ with hk
    · cases h; simp only [Entries.vsum]; omega
    · have := onEntry_vsum (f := f) h; simp only [Entries.vsum]; omega

theorem _root_.LRVB.Leaf.set_ok_iff_of_kind {l l' : Leaf} (h : l'.kind = l.kind) (v : Arr) :
    (∃ a, l'.set v = .ok a) ↔ ∃ a, l.set v = .ok a := by
  obtain ⟨name, kind, val, boxed⟩ := l
  obtain ⟨name', kind', val', boxed'⟩ := l'
  simp only at h
  subst h
  cases kind' <;> simp only [Leaf.set]
  · simp
  · split_ifs <;> simp
  · split_ifs <;> simp
  · split
    · split_ifs <;> simp
    · simp
  · cases Leaf.allDiffer v.shape _ with
    | error e => simp [py_err_bind]
    | ok b => simp only [py_ok_bind]; split_ifs <;> simp
  · cases Leaf.allDiffer v.shape _ with
    | error e => simp [py_err_bind]
    | ok b => simp only [py_ok_bind]; split_ifs <;> simp
  · split_ifs <;> simp
  · split_ifs <;> simp

/-! ### Values after `set_free` do not depend on the values before -/

mutual
theorem freeP_freeP : ∀ (p : Param), p.WF → ∀ x y : List ℝ, x.length = p.freeSize →
    (p.freeP x).freeP y = p.freeP y
  | leaf l, _, x, y, _ => rfl
  | dict h es, hw, x, y, hx => by
    simp only [WF] at hw
    simp only [freeP]
    rw [Entries.freeE_freeE es hw.1 x y (by rw [hx]; exact hw.2.2.1)]
theorem _root_.LRVB.Entries.freeE_freeE : ∀ (es : Entries), es.WF → ∀ x y : List ℝ,
    x.length = es.fsum → (es.freeE x).freeE y = es.freeE y
  | .nil, _, x, y, _ => rfl
  | .cons k p rest, hw, x, y, hx => by
    simp only [Entries.WF] at hw
    simp only [Entries.fsum] at hx
    have hl : (x.take p.freeSize).length = p.freeSize := by simp; omega
    simp only [Entries.freeE]
    rw [freeSize_congr (freeP_erase p hw.1 _ hl), freeP_freeP p hw.1 _ _ hl,
      Entries.freeE_freeE rest hw.2.2 _ _ (by simp; omega)]
end

mutual
theorem freeP_plain : ∀ (p : Param) (x : List ℝ), (p.freeP x).Plain
  | leaf l, x => rfl
  | dict h es, x => by
    simp only [freeP, Plain]
    exact Entries.freeE_plain es x
theorem _root_.LRVB.Entries.freeE_plain : ∀ (es : Entries) (x : List ℝ), (es.freeE x).Plain
  | .nil, _ => trivial
  | .cons k p rest, x => ⟨freeP_plain p _, Entries.freeE_plain rest _⟩
end

/-! ### Parameters that do not trace keep their value -/

theorem Leaf.jac_untraced {l : Leaf} {x : List ℝ} {r : Leaf × Coo}
    (hu : (Param.leaf l).Untraced) (h : l.jac x = .ok r) : r.1 = l := by
  obtain ⟨name, kind, val, boxed⟩ := l
  cases kind <;> simp only [Untraced] at hu <;> simp only [Leaf.jac] at h
  all_goals
    first
    | cases h; rfl
    | (obtain ⟨_, _, h⟩ := py_bind_ok h
       first
       | (obtain ⟨_, _, h⟩ := py_bind_ok h
          first
          | (cases h; rfl)
          | (obtain ⟨_, _, h⟩ := py_bind_ok h
             cases h; rfl))
       | (cases h; rfl))

theorem Leaf.hess_untraced {l : Leaf} {x : List ℝ} {r : Leaf × List Coo}
    (hu : (Param.leaf l).Untraced) (h : l.hess x = .ok r) : r.1 = l := by
  obtain ⟨name, kind, val, boxed⟩ := l
  cases kind <;> simp only [Untraced] at hu <;> simp only [Leaf.hess] at h
  all_goals
    first
    | cases h; rfl
    | (obtain ⟨_, _, h⟩ := py_bind_ok h
       first
       | (obtain ⟨_, _, h⟩ := py_bind_ok h
          first
          | (cases h; rfl)
          | (obtain ⟨_, _, h⟩ := py_bind_ok h
             cases h; rfl))
       | (cases h; rfl))

mutual
theorem jac_untraced : ∀ (p : Param), p.Untraced → ∀ x, (p.jac x).1 = p
  | leaf l, hu, x => by
    unfold jac
    split
    · next h => rw [Leaf.jac_untraced hu h]
    · rfl
  | dict h es, hu, x => by
    simp only [Untraced] at hu
    simp only [jac]
    rw [jacEntries_untraced es hu]
theorem jacEntries_untraced : ∀ (es : Entries), es.Untraced → ∀ x off, (jacEntries es x off).1 = es
  | .nil, _, x, off => by simp only [jacEntries]
  | .cons k p rest, hu, x, off => by
    simp only [Entries.Untraced] at hu
    simp only [jacEntries]
    have h1 := jac_untraced p hu.1 (Leaf.slice x off p.freeSize)
    have h2 := jacEntries_untraced rest hu.2 x (off + p.freeSize)
    split <;> simp [h1, h2]
end

mutual
theorem hess_untraced : ∀ (p : Param), p.Untraced → ∀ x, (p.hess x).1 = p
  | leaf l, hu, x => by
    unfold hess
    split
    · next h => rw [Leaf.hess_untraced hu h]
    · rfl
  | dict h es, hu, x => by
    simp only [Untraced] at hu
    simp only [hess]
    rw [hessEntries_untraced _ es hu]
theorem hessEntries_untraced (full : ℕ) : ∀ (es : Entries), es.Untraced → ∀ x off,
    (hessEntries full es x off).1 = es
  | .nil, _, x, off => by simp only [hessEntries]
  | .cons k p rest, hu, x, off => by
    simp only [Entries.Untraced] at hu
    simp only [hessEntries]
    have h1 := hess_untraced p hu.1 (Leaf.slice x off p.freeSize)
    have h2 := hessEntries_untraced full rest hu.2 x (off + p.freeSize)
    split <;> simp [h1, h2]
end

mutual
theorem untraced_freeP : ∀ (p : Param) (x : List ℝ), p.Untraced → (p.freeP x).Untraced
  | leaf l, x, h => h
  | dict h es, x, hu => by
    simp only [Untraced] at hu
    simp only [freeP, Untraced]
    exact Entries.untraced_freeE es x hu
theorem _root_.LRVB.Entries.untraced_freeE : ∀ (es : Entries) (x : List ℝ), es.Untraced →
    (es.freeE x).Untraced
  | .nil, _, _ => trivial
  | .cons k p rest, x, hu => ⟨untraced_freeP p _ hu.1, Entries.untraced_freeE rest _ hu.2⟩
end

end Param

end LRVB
