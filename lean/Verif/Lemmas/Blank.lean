import Verif.Model.Objective
import Verif.Lemmas.Dict6

/-! Setting a parameter does not depend on what it held before. -/

namespace LRVB

mutual
/-- The object without the held values (names are kept). -/
def Param.blank : Param → Param
  | .leaf l => .leaf { l with val := ⟨[], []⟩, boxed := false }
  | .dict h es => .dict h es.blank
/-- ... of all entries. -/
def Entries.blank : Entries → Entries
  | .nil => .nil
  | .cons k p rest => .cons k p.blank rest.blank
end

theorem Leaf.setFree_forget (n : String) (k : Kind) (v v' : Arr) (b b' : Bool) (x : List ℝ) :
    Leaf.setFree ⟨n, k, v, b⟩ x = Leaf.setFree ⟨n, k, v', b'⟩ x := by
  cases k <;> rfl

theorem Leaf.setVector_forget (n : String) (k : Kind) (v v' : Arr) (b b' : Bool) (x : List ℝ) :
    Leaf.setVector ⟨n, k, v, b⟩ x = Leaf.setVector ⟨n, k, v', b'⟩ x := by
  cases k <;> rfl

theorem Leaf.set_new {l l' : Leaf} {v : Arr} (h : l.set v = .ok l') :
    l'.name = l.name ∧ l'.boxed = false := by
  obtain ⟨n, k, w, b⟩ := l
  cases k <;> simp only [Leaf.set] at h
  case scalar => cases h; exact ⟨rfl, rfl⟩
  case vector => split_ifs at h; cases h; exact ⟨rfl, rfl⟩
  case array => split_ifs at h; cases h; exact ⟨rfl, rfl⟩
  case posdef =>
    split at h
    · split_ifs at h; cases h; exact ⟨rfl, rfl⟩
    · cases h
  case posdefVec =>
    obtain ⟨c, _, h⟩ := py_bind_ok h
    split_ifs at h; cases h; exact ⟨rfl, rfl⟩
  case posdefArr =>
    obtain ⟨c, _, h⟩ := py_bind_ok h
    split_ifs at h; cases h; exact ⟨rfl, rfl⟩
  case simplex => split_ifs at h; cases h; exact ⟨rfl, rfl⟩
  case subspace => split_ifs at h; cases h; exact ⟨rfl, rfl⟩

theorem Leaf.setFree_new {l l' : Leaf} {x : List ℝ} (h : l.setFree x = .ok l') :
    l'.name = l.name ∧ l'.boxed = false := by
  obtain ⟨n, k, w, b⟩ := l
  cases k <;> simp only [Leaf.setFree] at h
  case scalar => obtain ⟨v, _, h⟩ := py_bind_ok h; exact Leaf.set_new h
  case vector => split_ifs at h; obtain ⟨v, _, h⟩ := py_bind_ok h; exact Leaf.set_new h
  case array =>
    split_ifs at h
    obtain ⟨v, _, h⟩ := py_bind_ok h
    obtain ⟨v, _, h⟩ := py_bind_ok h
    exact Leaf.set_new h
  case posdef => split_ifs at h; obtain ⟨v, _, h⟩ := py_bind_ok h; exact Leaf.set_new h
  case posdefVec => split_ifs at h; obtain ⟨v, _, h⟩ := py_bind_ok h; cases h; exact ⟨rfl, rfl⟩
  case posdefArr =>
    split_ifs at h
    obtain ⟨v, _, h⟩ := py_bind_ok h
    obtain ⟨v, _, h⟩ := py_bind_ok h
    cases h; exact ⟨rfl, rfl⟩
  case simplex => split_ifs at h; obtain ⟨v, _, h⟩ := py_bind_ok h; exact Leaf.set_new h
  case subspace => split_ifs at h; exact Leaf.set_new h

theorem Leaf.setVector_new {l l' : Leaf} {x : List ℝ} (h : l.setVector x = .ok l') :
    l'.name = l.name ∧ l'.boxed = false := by
  obtain ⟨n, k, w, b⟩ := l
  cases k <;> simp only [Leaf.setVector] at h
  case scalar => exact Leaf.set_new h
  case vector => exact Leaf.set_new h
  case array => split_ifs at h; obtain ⟨v, _, h⟩ := py_bind_ok h; exact Leaf.set_new h
  case posdef => split_ifs at h; obtain ⟨v, _, h⟩ := py_bind_ok h; exact Leaf.set_new h
  case posdefVec => split_ifs at h; obtain ⟨v, _, h⟩ := py_bind_ok h; cases h; exact ⟨rfl, rfl⟩
  case posdefArr =>
    split_ifs at h
    obtain ⟨v, _, h⟩ := py_bind_ok h
    obtain ⟨v, _, h⟩ := py_bind_ok h
    cases h; exact ⟨rfl, rfl⟩
  case simplex => split_ifs at h; obtain ⟨v, _, h⟩ := py_bind_ok h; exact Leaf.set_new h
  case subspace => exact Leaf.set_new h

theorem Param.blank_leaf {l l' : Leaf} (h : l'.kind = l.kind) (hn : l'.name = l.name) :
    (Param.leaf l').blank = (Param.leaf l).blank := by
  simp [Param.blank, h, hn]

namespace Param

theorem freeSize_blank (p : Param) : p.blank.freeSize = p.freeSize := by cases p <;> rfl
theorem vecSize_blank (p : Param) : p.blank.vecSize = p.vecSize := by cases p <;> rfl

theorem freeSize_of_blank {p q : Param} (h : p.blank = q.blank) : p.freeSize = q.freeSize := by
  rw [← freeSize_blank, h, freeSize_blank]

theorem vecSize_of_blank {p q : Param} (h : p.blank = q.blank) : p.vecSize = q.vecSize := by
  rw [← vecSize_blank, h, vecSize_blank]

mutual
theorem setFree_blank : ∀ (p : Param) (x : List ℝ), (p.setFree x).1.blank = p.blank
  | leaf l, x => by
    unfold setFree
    split
    · next h => exact blank_leaf (Leaf.setFree_kind h).1 (Leaf.setFree_new h).1
    · rfl
  | dict h es, x => by
    unfold setFree
    split_ifs
    · rfl
    · simp only [blank]; rw [setFreeEntries_blank]
theorem setFreeEntries_blank : ∀ (es : Entries) (x : List ℝ) (off : ℕ),
    (setFreeEntries es x off).1.blank = es.blank
  | .nil, x, off => by rw [setFreeEntries]
  | .cons k p rest, x, off => by
    rw [setFreeEntries]
    have h1 := setFree_blank p (Leaf.slice x off p.freeSize)
    have h2 := setFreeEntries_blank rest x (off + p.freeSize)
    simp only
    split <;> simp [Entries.blank, h1, h2]
end

mutual
theorem setVector_blank : ∀ (p : Param) (x : List ℝ), (p.setVector x).1.blank = p.blank
  | leaf l, x => by
    unfold setVector
    split
    · next h => exact blank_leaf (Leaf.setVector_kind h).1 (Leaf.setVector_new h).1
    · rfl
  | dict h es, x => by
    unfold setVector
    split_ifs
    · rfl
    · simp only [blank]; rw [setVectorEntries_blank]
theorem setVectorEntries_blank : ∀ (es : Entries) (x : List ℝ) (off : ℕ),
    (setVectorEntries es x off).1.blank = es.blank
  | .nil, x, off => by rw [setVectorEntries]
  | .cons k p rest, x, off => by
    rw [setVectorEntries]
    have h1 := setVector_blank p (Leaf.slice x off p.vecSize)
    have h2 := setVectorEntries_blank rest x (off + p.vecSize)
    simp only
    split <;> simp [Entries.blank, h1, h2]
end

mutual
theorem setFree_indep : ∀ (p q : Param) (x : List ℝ), p.blank = q.blank →
    (q.setFree x).2 = (p.setFree x).2 ∧
      ((p.setFree x).2 = none → (q.setFree x).1 = (p.setFree x).1)
  | leaf ⟨n, k, v, b⟩, leaf ⟨n', k', v', b'⟩, x, h => by
    simp only [blank, Param.leaf.injEq, Leaf.mk.injEq] at h
    obtain ⟨rfl, rfl, -, -⟩ := h
    simp only [setFree]
    rw [Leaf.setFree_forget n k v' v b' b]
    cases Leaf.setFree ⟨n, k, v, b⟩ x <;> simp
  | leaf l, dict h es, x, he => by simp [blank] at he
  | dict h es, leaf l, x, he => by simp [blank] at he
  | dict h es, dict h' es', x, he => by
    simp only [blank, Param.dict.injEq] at he
    obtain ⟨rfl, he⟩ := he
    simp only [setFree]
    split_ifs
    · simp
    · have := setFreeEntries_indep es es' x 0 he
      refine ⟨this.1, fun hn => ?_⟩
      rw [this.2 hn]
theorem setFreeEntries_indep : ∀ (es es' : Entries) (x : List ℝ) (off : ℕ), es.blank = es'.blank →
    (setFreeEntries es' x off).2 = (setFreeEntries es x off).2 ∧
      ((setFreeEntries es x off).2 = none →
        (setFreeEntries es' x off).1 = (setFreeEntries es x off).1)
  | .nil, .nil, x, off, h => by simp [setFreeEntries]
  | .nil, .cons k p rest, x, off, h => by simp [Entries.blank] at h
  | .cons k p rest, .nil, x, off, h => by simp [Entries.blank] at h
  | .cons k p rest, .cons k' p' rest', x, off, h => by
    simp only [Entries.blank, Entries.cons.injEq] at h
    obtain ⟨rfl, h1, h2⟩ := h
    have e := freeSize_of_blank h1
    have i1 := setFree_indep p p' (Leaf.slice x off p.freeSize) h1
    have i2 := setFreeEntries_indep rest rest' x (off + p.freeSize) h2
    simp only [setFreeEntries]
    rw [← e]
    cases hp : (p.setFree (Leaf.slice x off p.freeSize)).2 with
    | some er =>
      rw [hp] at i1
      rw [i1.1]
      simp
    | none =>
      rw [hp] at i1
      rw [i1.1, i1.2 rfl]
      simp only
      exact ⟨i2.1, fun hn => by rw [i2.2 hn]⟩
end

mutual
theorem setVector_indep : ∀ (p q : Param) (x : List ℝ), p.blank = q.blank →
    (q.setVector x).2 = (p.setVector x).2 ∧
      ((p.setVector x).2 = none → (q.setVector x).1 = (p.setVector x).1)
  | leaf ⟨n, k, v, b⟩, leaf ⟨n', k', v', b'⟩, x, h => by
    simp only [blank, Param.leaf.injEq, Leaf.mk.injEq] at h
    obtain ⟨rfl, rfl, -, -⟩ := h
    simp only [setVector]
    rw [Leaf.setVector_forget n k v' v b' b]
    cases Leaf.setVector ⟨n, k, v, b⟩ x <;> simp
  | leaf l, dict h es, x, he => by simp [blank] at he
  | dict h es, leaf l, x, he => by simp [blank] at he
  | dict h es, dict h' es', x, he => by
    simp only [blank, Param.dict.injEq] at he
    obtain ⟨rfl, he⟩ := he
    simp only [setVector]
    split_ifs
    · simp
    · have := setVectorEntries_indep es es' x 0 he
      refine ⟨this.1, fun hn => ?_⟩
      rw [this.2 hn]
theorem setVectorEntries_indep : ∀ (es es' : Entries) (x : List ℝ) (off : ℕ), es.blank = es'.blank →
    (setVectorEntries es' x off).2 = (setVectorEntries es x off).2 ∧
      ((setVectorEntries es x off).2 = none →
        (setVectorEntries es' x off).1 = (setVectorEntries es x off).1)
  | .nil, .nil, x, off, h => by simp [setVectorEntries]
  | .nil, .cons k p rest, x, off, h => by simp [Entries.blank] at h
  | .cons k p rest, .nil, x, off, h => by simp [Entries.blank] at h
  | .cons k p rest, .cons k' p' rest', x, off, h => by
    simp only [Entries.blank, Entries.cons.injEq] at h
    obtain ⟨rfl, h1, h2⟩ := h
    have e := vecSize_of_blank h1
    have i1 := setVector_indep p p' (Leaf.slice x off p.vecSize) h1
    have i2 := setVectorEntries_indep rest rest' x (off + p.vecSize) h2
    simp only [setVectorEntries]
    rw [← e]
    cases hp : (p.setVector (Leaf.slice x off p.vecSize)).2 with
    | some er =>
      rw [hp] at i1
      rw [i1.1]
      simp
    | none =>
      rw [hp] at i1
      rw [i1.1, i1.2 rfl]
      simp only
      exact ⟨i2.1, fun hn => by rw [i2.2 hn]⟩
end

mutual
theorem setFree_plain : ∀ (p : Param) (x : List ℝ), (p.setFree x).2 = none → (p.setFree x).1.Plain
  | leaf l, x, h => by
    unfold setFree at h ⊢
    split
    · next hl => exact (Leaf.setFree_new hl).2
    · next hl => simp [hl] at h
  | dict h es, x, hn => by
    simp only [setFree] at hn ⊢
    split_ifs
    · next hc => rw [if_pos hc] at hn; simp at hn
    · next hc =>
      rw [if_neg hc] at hn
      exact setFreeEntries_plain es x 0 hn
theorem setFreeEntries_plain : ∀ (es : Entries) (x : List ℝ) (off : ℕ),
    (setFreeEntries es x off).2 = none → (setFreeEntries es x off).1.Plain
  | .nil, x, off, _ => by simp [setFreeEntries, Entries.Plain]
  | .cons k p rest, x, off, h => by
    simp only [setFreeEntries] at h ⊢
    cases hp : (p.setFree (Leaf.slice x off p.freeSize)).2 with
    | some er => rw [hp] at h; simp at h
    | none =>
      rw [hp] at h
      simp only at h ⊢
      exact ⟨setFree_plain p _ hp, setFreeEntries_plain rest x _ h⟩
end

mutual
theorem setVector_plain : ∀ (p : Param) (x : List ℝ), (p.setVector x).2 = none →
    (p.setVector x).1.Plain
  | leaf l, x, h => by
    unfold setVector at h ⊢
    split
    · next hl => exact (Leaf.setVector_new hl).2
    · next hl => simp [hl] at h
  | dict h es, x, hn => by
    simp only [setVector] at hn ⊢
    split_ifs
    · next hc => rw [if_pos hc] at hn; simp at hn
    · next hc =>
      rw [if_neg hc] at hn
      exact setVectorEntries_plain es x 0 hn
theorem setVectorEntries_plain : ∀ (es : Entries) (x : List ℝ) (off : ℕ),
    (setVectorEntries es x off).2 = none → (setVectorEntries es x off).1.Plain
  | .nil, x, off, _ => by simp [setVectorEntries, Entries.Plain]
  | .cons k p rest, x, off, h => by
    simp only [setVectorEntries] at h ⊢
    cases hp : (p.setVector (Leaf.slice x off p.vecSize)).2 with
    | some er => rw [hp] at h; simp at h
    | none =>
      rw [hp] at h
      simp only at h ⊢
      exact ⟨setVector_plain p _ hp, setVectorEntries_plain rest x _ h⟩
end

mutual
theorem mark_blank (b : Bool) : ∀ p : Param, (p.mark b).blank = p.blank
  | leaf l => by simp [mark, blank]
  | dict h es => by simp only [mark, blank]; rw [Entries.mark_blank]
theorem _root_.LRVB.Entries.mark_blank (b : Bool) : ∀ es : Entries, (es.mark b).blank = es.blank
  | .nil => rfl
  | .cons k p rest => by simp only [Entries.mark, Entries.blank]; rw [mark_blank, Entries.mark_blank]
end

mutual
theorem mark_plain : ∀ p : Param, p.Plain → p.mark false = p
  | leaf ⟨n, k, v, b⟩, h => by simp only [Plain] at h; subst h; rfl
  | dict h es, hp => by simp only [mark]; rw [Entries.mark_plain es hp]
theorem _root_.LRVB.Entries.mark_plain : ∀ es : Entries, es.Plain → es.mark false = es
  | .nil, _ => rfl
  | .cons k p rest, h => by simp only [Entries.mark]; rw [mark_plain p h.1, Entries.mark_plain rest h.2]
end

mutual
theorem mark_mark (a b : Bool) : ∀ p : Param, (p.mark a).mark b = p.mark b
  | leaf l => rfl
  | dict h es => by simp only [mark]; rw [Entries.mark_mark]
theorem _root_.LRVB.Entries.mark_mark (a b : Bool) : ∀ es : Entries, (es.mark a).mark b = es.mark b
  | .nil => rfl
  | .cons k p rest => by simp only [Entries.mark]; rw [mark_mark, Entries.mark_mark]
end

mutual
theorem mark_false_plain : ∀ p : Param, (p.mark false).Plain
  | leaf l => rfl
  | dict h es => by simp only [mark, Plain]; exact Entries.mark_false_plain es
theorem _root_.LRVB.Entries.mark_false_plain : ∀ es : Entries, (es.mark false).Plain
  | .nil => trivial
  | .cons k p rest => ⟨mark_false_plain p, Entries.mark_false_plain rest⟩
end

mutual
theorem hasBox_plain : ∀ {p : Param}, p.hasBox = false ↔ p.Plain
  | leaf l => Iff.rfl
  | dict h es => by simp only [hasBox, Plain]; exact Entries.hasBox_plain
theorem _root_.LRVB.Entries.hasBox_plain : ∀ {es : Entries}, es.hasBox = false ↔ es.Plain
  | .nil => by simp [Entries.hasBox, Entries.Plain]
  | .cons k p rest => by
    simp only [Entries.hasBox, Entries.Plain, Bool.or_eq_false_iff]
    rw [hasBox_plain, Entries.hasBox_plain]
end

mutual
theorem mark_getVector (b : Bool) : ∀ p : Param, (p.mark b).getVector = p.getVector
  | leaf l => rfl
  | dict h es => by simp only [mark, getVector]; rw [Entries.mark_getVectorEntries]
theorem _root_.LRVB.Entries.mark_getVectorEntries (b : Bool) : ∀ es : Entries, getVectorEntries (es.mark b) = getVectorEntries es
  | .nil => rfl
  | .cons k p rest => by
    simp only [Entries.mark, getVectorEntries]
    rw [mark_getVector b p, Entries.mark_getVectorEntries b rest]
end

mutual
theorem mark_hasBox : ∀ {p q : Param}, p.hasBox = true → q.blank = p.blank → (q.mark true).hasBox = true
  | _, leaf l, _, _ => rfl
  | leaf l, dict h es, _, hb => by simp [blank] at hb
  | dict h es, dict h' es', hp, hb => by
    simp only [hasBox, mark] at hp ⊢
    simp only [blank, dict.injEq] at hb
    exact Entries.mark_hasBox hp hb.2
theorem _root_.LRVB.Entries.mark_hasBox : ∀ {es es' : Entries}, es.hasBox = true → es'.blank = es.blank →
    (es'.mark true).hasBox = true
  | .nil, _, h, _ => by simp [Entries.hasBox] at h
  | .cons k p rest, .nil, _, hb => by simp [Entries.blank] at hb
  | .cons k p rest, .cons k' p' rest', h, hb => by
    simp only [Entries.blank, Entries.cons.injEq] at hb
    simp only [Entries.hasBox, Entries.mark, Bool.or_eq_true] at h ⊢
    exact h.imp (fun h => mark_hasBox h hb.2.1) fun h => Entries.mark_hasBox h hb.2.2
end

end Param

/-! ### set_par -/

theorem setPar_blank (p : Param) (x : List ℝ) (free : Bool) : (setPar p x free).1.blank = p.blank := by
  cases free
  · exact Param.setVector_blank p x
  · exact Param.setFree_blank p x

theorem setPar_indep {p q : Param} (h : p.blank = q.blank) (x : List ℝ) (free : Bool) :
    (setPar q x free).2 = (setPar p x free).2 ∧
      ((setPar p x free).2 = none → (setPar q x free).1 = (setPar p x free).1) := by
  cases free
  · exact Param.setVector_indep p q x h
  · exact Param.setFree_indep p q x h

theorem setPar_plain (p : Param) (x : List ℝ) (free : Bool) (h : (setPar p x free).2 = none) :
    (setPar p x free).1.Plain := by
  cases free
  · exact Param.setVector_plain p x h
  · exact Param.setFree_plain p x h

theorem setPar_eq {p q : Param} (h : p.blank = q.blank) {x : List ℝ} {free : Bool}
    (hn : (setPar p x free).2 = none) : setPar q x free = setPar p x free :=
  Prod.ext ((setPar_indep h x free).2 hn) (setPar_indep h x free).1

theorem traceSet_blank (p : Param) (x : List ℝ) (free : Bool) : (traceSet p x free).blank = p.blank := by
  unfold traceSet
  simp only
  split
  · exact setPar_blank p x free
  · rw [Param.mark_blank, setPar_blank]

theorem cacheAndEval_blank {β : Type} (p : Param) (free : Bool) (x : List ℝ) (ag : Py β) :
    (cacheAndEval p free x ag).1.blank = p.blank := by
  unfold cacheAndEval
  simp only
  split
  · exact traceSet_blank p x free
  · split <;> simp [setPar_blank, traceSet_blank]

/-- A successful derivative call leaves the parameter set to the evaluation point. -/
theorem cacheAndEval_ok {β : Type} {p : Param} {free : Bool} {x : List ℝ} {ag : Py β} {v : β}
    (h : (cacheAndEval p free x ag).2 = .ok v) :
    ag = .ok v ∧ (setPar p x free).2 = none ∧
      (cacheAndEval p free x ag).1 = (setPar p x free).1 := by
  unfold cacheAndEval at h ⊢
  simp only at h ⊢
  cases ag with
  | error e => simp at h
  | ok w =>
    simp only at h ⊢
    have i := setPar_indep (traceSet_blank p x free).symm x free
    cases hr : (setPar (traceSet p x free) x free).2 with
    | some e => rw [hr] at h; simp at h
    | none =>
      rw [hr] at h
      simp only at h ⊢
      rw [hr] at i
      refine ⟨h, i.1.symm, i.2 i.1.symm⟩

end LRVB
