import Verif.Lemmas.Dict
import Verif.Lemmas.Deriv4

/-! Setting and reading the values of parameter dictionaries. -/

namespace LRVB

noncomputable section

mutual
/-- The object after `set_free(x)`. -/
def Param.freeP : Param → List ℝ → Param
  | .leaf l, x => .leaf { l with val := freeVal l.kind x, boxed := false }
  | .dict h es, x => .dict h (es.freeE x)
/-- The entries after `set_free(x)`. -/
def Entries.freeE : Entries → List ℝ → Entries
  | .nil, _ => .nil
  | .cons k p rest, x => .cons k (p.freeP (x.take p.freeSize)) (rest.freeE (x.drop p.freeSize))
end

mutual
/-- The object after `set_vector(v)`. -/
def Param.vecP : Param → List ℝ → Param
  | .leaf l, x => .leaf { l with val := vectorVal l.kind x, boxed := false }
  | .dict h es, x => .dict h (es.vecE x)
/-- The entries after `set_vector(v)`. -/
def Entries.vecE : Entries → List ℝ → Entries
  | .nil, _ => .nil
  | .cons k p rest, x => .cons k (p.vecP (x.take p.vecSize)) (rest.vecE (x.drop p.vecSize))
end

mutual
/-- The vector returned by `free_to_vector(x)`. -/
def Param.ftvP : Param → List ℝ → List ℝ
  | .leaf l, x => ftv l.kind x
  | .dict _ es, x => es.ftvE x
/-- ... of the entries. -/
def Entries.ftvE : Entries → List ℝ → List ℝ
  | .nil, _ => []
  | .cons _ p rest, x => p.ftvP (x.take p.freeSize) ++ rest.ftvE (x.drop p.freeSize)
end

namespace Param

mutual
theorem setFree_ok : ∀ (p : Param), p.WF → ∀ x : List ℝ, x.length = p.freeSize →
    p.setFree x = (p.freeP x, none)
  | leaf l, hw, x, hx => by
    simp only [setFree, Leaf.setFree_ok l hw x hx, freeP]
  | dict h es, hw, x, hx => by
    simp only [WF] at hw
    simp only [freeSize] at hx
    simp only [setFree]
    rw [if_neg (not_not.mpr hx), setFreeEntries_ok es hw.1 x 0 (by rw [hx, hw.2.2.1]; simp)]
    simp [freeP]
theorem setFreeEntries_ok : ∀ (es : Entries), es.WF → ∀ (x : List ℝ) (off : ℕ),
    x.length = off + es.fsum → setFreeEntries es x off = (es.freeE (x.drop off), none)
  | .nil, _, x, off, _ => by simp [setFreeEntries, Entries.freeE]
  | .cons k p rest, hw, x, off, hx => by
    simp only [Entries.WF] at hw
    simp only [Entries.fsum] at hx
    simp only [setFreeEntries]
    rw [setFree_ok p hw.1 _ (by simp [Leaf.slice]; omega)]
    simp only
    rw [setFreeEntries_ok rest hw.2.2 x _ (by omega)]
    simp [Entries.freeE, Leaf.slice, List.drop_drop]
end

mutual
theorem setVector_ok : ∀ (p : Param), p.WF → ∀ x : List ℝ, x.length = p.vecSize →
    p.setVector x = (p.vecP x, none)
  | leaf l, hw, x, hx => by
    simp only [setVector, Leaf.setVector_ok l hw x hx, vecP]
  | dict h es, hw, x, hx => by
    simp only [WF] at hw
    simp only [vecSize] at hx
    simp only [setVector]
    rw [if_neg (not_not.mpr hx), setVectorEntries_ok es hw.1 x 0 (by rw [hx, hw.2.2.2.1]; simp)]
    simp [vecP]
theorem setVectorEntries_ok : ∀ (es : Entries), es.WF → ∀ (x : List ℝ) (off : ℕ),
    x.length = off + es.vsum → setVectorEntries es x off = (es.vecE (x.drop off), none)
  | .nil, _, x, off, _ => by simp [setVectorEntries, Entries.vecE]
  | .cons k p rest, hw, x, off, hx => by
    simp only [Entries.WF] at hw
    simp only [Entries.vsum] at hx
    simp only [setVectorEntries]
    rw [setVector_ok p hw.1 _ (by simp [Leaf.slice]; omega)]
    simp only
    rw [setVectorEntries_ok rest hw.2.2 x _ (by omega)]
    simp [Entries.vecE, Leaf.slice, List.drop_drop]
end

theorem freeP_erase (p : Param) (hw : p.WF) (x : List ℝ) (hx : x.length = p.freeSize) :
    (p.freeP x).erase = p.erase := by
  have := setFree_erase p x
  rwa [setFree_ok p hw x hx] at this

theorem vecP_erase (p : Param) (hw : p.WF) (x : List ℝ) (hx : x.length = p.vecSize) :
    (p.vecP x).erase = p.erase := by
  have := setVector_erase p x
  rwa [setVector_ok p hw x hx] at this

theorem hstack_entries {es : Entries} {xs : List (List ℝ)} (h : es ≠ .nil)
    (hl : xs.length = es.toList.length) : Arr.hstack xs = .ok xs.flatten := by
  apply hstack_ok
  rintro rfl
  cases es with
  | nil => exact h rfl
  | cons k p rest => simp [Entries.toList] at hl

mutual
theorem getFree_freeP : ∀ (p : Param), p.WF → p.HasParams → ∀ x : List ℝ, x.length = p.freeSize →
    (p.freeP x).getFree = .ok x
  | leaf l, hw, _, x, hx => by
    simp only [freeP, getFree]
    exact Leaf.getFree_freeVal _ _ hw x hx _
  | dict h es, hw, hp, x, hx => by
    simp only [WF] at hw
    simp only [freeSize] at hx
    simp only [freeP, getFree]
    obtain ⟨xs, h1, h2, h3⟩ := getFreeEntries_freeE es hw.1 x (by rw [hx, hw.2.2.1])
    rw [h1, py_ok_bind, hstack_entries hp h3, h2]
theorem getFreeEntries_freeE : ∀ (es : Entries), es.WF → ∀ (x : List ℝ),
    x.length = es.fsum → ∃ xs, getFreeEntries (es.freeE x) = .ok xs ∧ xs.flatten = x ∧
      xs.length = es.toList.length
  | .nil, _, x, hx => ⟨[], rfl, by
      simp [Entries.fsum] at hx; simp [hx], rfl⟩
  | .cons k p rest, hw, x, hx => by
    simp only [Entries.WF] at hw
    simp only [Entries.fsum] at hx
    obtain ⟨xs, h1, h2, h3⟩ := getFreeEntries_freeE rest hw.2.2 (x.drop p.freeSize)
      (by rw [List.length_drop]; omega)
    refine ⟨x.take p.freeSize :: xs, ?_, ?_, ?_⟩
    · simp only [Entries.freeE, getFreeEntries]
      rw [getFree_freeP p hw.1 hw.2.1 _ (by simp; omega), h1]; rfl
    · simp [h2]
    · simp [Entries.toList, h3]
end

mutual
theorem getVector_freeP : ∀ (p : Param), p.WF → p.HasParams → ∀ x : List ℝ, x.length = p.freeSize →
    (p.freeP x).getVector = .ok (p.ftvP x)
  | leaf l, hw, _, x, hx => by
    simp only [freeP, getVector, ftvP]
    exact Leaf.getVector_freeVal _ _ hw x hx _
  | dict h es, hw, hp, x, hx => by
    simp only [WF] at hw
    simp only [freeSize] at hx
    simp only [freeP, getVector, ftvP]
    obtain ⟨xs, h1, h2, h3⟩ := getVectorEntries_freeE es hw.1 x (by rw [hx, hw.2.2.1])
    rw [h1, py_ok_bind, hstack_entries hp h3, h2]
theorem getVectorEntries_freeE : ∀ (es : Entries), es.WF → ∀ (x : List ℝ),
    x.length = es.fsum → ∃ xs, getVectorEntries (es.freeE x) = .ok xs ∧ xs.flatten = es.ftvE x ∧
      xs.length = es.toList.length
  | .nil, _, x, hx => ⟨[], rfl, rfl, rfl⟩
  | .cons k p rest, hw, x, hx => by
    simp only [Entries.WF] at hw
    simp only [Entries.fsum] at hx
    obtain ⟨xs, h1, h2, h3⟩ := getVectorEntries_freeE rest hw.2.2 (x.drop p.freeSize)
      (by rw [List.length_drop]; omega)
    refine ⟨p.ftvP (x.take p.freeSize) :: xs, ?_, ?_, ?_⟩
    · simp only [Entries.freeE, getVectorEntries]
      rw [getVector_freeP p hw.1 hw.2.1 _ (by simp; omega), h1]; rfl
    · simp [h2, Entries.ftvE]
    · simp [Entries.toList, h3]
end

mutual
theorem getVector_vecP : ∀ (p : Param), p.WF → p.HasParams → ∀ x : List ℝ, x.length = p.vecSize →
    (p.vecP x).getVector = .ok x
  | leaf l, hw, _, x, hx => by
    simp only [vecP, getVector]
    exact Leaf.getVector_vectorVal _ _ hw x hx _
  | dict h es, hw, hp, x, hx => by
    simp only [WF] at hw
    simp only [vecSize] at hx
    simp only [vecP, getVector]
    obtain ⟨xs, h1, h2, h3⟩ := getVectorEntries_vecE es hw.1 x (by rw [hx, hw.2.2.2.1])
    rw [h1, py_ok_bind, hstack_entries hp h3, h2]
theorem getVectorEntries_vecE : ∀ (es : Entries), es.WF → ∀ (x : List ℝ),
    x.length = es.vsum → ∃ xs, getVectorEntries (es.vecE x) = .ok xs ∧ xs.flatten = x ∧
      xs.length = es.toList.length
  | .nil, _, x, hx => ⟨[], rfl, by
      simp [Entries.vsum] at hx; simp [hx], rfl⟩
  | .cons k p rest, hw, x, hx => by
    simp only [Entries.WF] at hw
    simp only [Entries.vsum] at hx
    obtain ⟨xs, h1, h2, h3⟩ := getVectorEntries_vecE rest hw.2.2 (x.drop p.vecSize)
      (by rw [List.length_drop]; omega)
    refine ⟨x.take p.vecSize :: xs, ?_, ?_, ?_⟩
    · simp only [Entries.vecE, getVectorEntries]
      rw [getVector_vecP p hw.1 hw.2.1 _ (by simp; omega), h1]; rfl
    · simp [h2]
    · simp [Entries.toList, h3]
end

mutual
theorem ftvP_length : ∀ (p : Param), p.WF → ∀ x : List ℝ, x.length = p.freeSize →
    (p.ftvP x).length = p.vecSize
  | leaf l, hw, x, hx => ftv_length _ hw x hx
  | dict h es, hw, x, hx => by
    simp only [WF] at hw
    simp only [freeSize] at hx
    simp only [ftvP, vecSize]
    rw [ftvE_length es hw.1 x (by rw [hx, hw.2.2.1]), hw.2.2.2.1]
theorem ftvE_length : ∀ (es : Entries), es.WF → ∀ x : List ℝ, x.length = es.fsum →
    (es.ftvE x).length = es.vsum
  | .nil, _, x, hx => rfl
  | .cons k p rest, hw, x, hx => by
    simp only [Entries.WF] at hw
    simp only [Entries.fsum] at hx
    simp only [Entries.ftvE, Entries.vsum, List.length_append]
    rw [ftvP_length p hw.1 _ (by simp; omega), ftvE_length rest hw.2.2 _ (by simp; omega)]
end

theorem freeToVector_ok (p : Param) (hw : p.WF) (hp : p.HasParams) (x : List ℝ)
    (hx : x.length = p.freeSize) : p.freeToVector x = (p.freeP x, .ok (p.ftvP x)) := by
  cases p with
  | leaf l =>
    simp only [freeToVector, Leaf.setFree_ok l hw x hx, Leaf.freeToVector_ok l hw x hx, freeP, ftvP]
  | dict h es =>
    simp only [freeToVector]
    rw [setFree_ok _ hw x hx]
    simp only
    rw [getVector_freeP _ hw hp x hx]

end Param

end

end LRVB
