import Verif.Model.Print
import Verif.Spec.Interrupt

/-!
# C144: the printed form
-/

namespace LRVB

/-! ### Specification -/

/-- The texts occur in the text one after the other. -/
inductive InOrder : List (List Char) → List Char → Prop
  | nil (t : List Char) : InOrder [] t
  | cons (gap a : List Char) {as : List (List Char)} {t : List Char} (h : InOrder as t) :
      InOrder (a :: as) (gap ++ a ++ t)

/-- A dictionary that contains only scalars and simplexes. -/
def Entries.SingleLines : Entries → Prop
  | .nil => True
  | .cons _ (.leaf l) rest =>
    ((∃ lb ub, l.kind = .scalar lb ub) ∨ ∃ r c, l.kind = .simplex r c) ∧ rest.SingleLines
  | .cons _ (.dict _ _) _ => False

/-! ### Order -/

theorem InOrder.prepend {as : List (List Char)} {t : List Char} (g : List Char) (h : InOrder as t) :
    InOrder as (g ++ t) := by
  cases h with
  | nil => exact .nil _
  | cons gap a h =>
    rw [List.append_assoc, ← List.append_assoc, ← List.append_assoc]
    exact .cons _ a h

theorem InOrder.append {as bs : List (List Char)} {t u : List Char} (h : InOrder as t) (h' : InOrder bs u) :
    InOrder (as ++ bs) (t ++ u) := by
  induction h with
  | nil t => exact h'.prepend t
  | cons gap a _ ih =>
    have : ∀ t, gap ++ a ++ t ++ u = gap ++ a ++ (t ++ u) := by simp
    rw [this]
    exact .cons gap a ih

theorem intercalate_cons (s a : List Char) (as : List (List Char)) :
    s.intercalate (a :: as) = a ++ if as = [] then [] else s ++ s.intercalate as := by
  cases as with
  | nil => simp [List.intercalate]
  | cons b bs => simp [List.intercalate]

theorem Param.str_inOrder (fmt : Bool → Arr → List Char) (f : Leaf → List (List Char))
    (hf : ∀ l : Leaf, InOrder (f l) (l.str fmt)) (p : Param) :
    InOrder (p.leaves.flatMap f) (p.str fmt) := by
  refine Param.rec (motive_1 := fun p => InOrder (p.leaves.flatMap f) (p.str fmt))
    (motive_2 := fun es => InOrder (es.leaves.flatMap f) (['\n'].intercalate (es.strs fmt)))
    ?_ ?_ ?_ ?_ p
  · intro l
    simpa [Param.leaves, Param.str] using hf l
  · intro h es ih
    exact ih.prepend _
  · exact .nil _
  · intro k p rest ih1 ih2
    rw [Entries.strs, intercalate_cons, Entries.leaves, List.flatMap_append]
    refine InOrder.append (ih1.prepend ['\t']) ?_
    split
    · rename_i h
      cases rest with
      | nil => exact .nil _
      | cons => simp [Entries.strs] at h
    · exact ih2.prepend _

theorem InOrder.single (a g t : List Char) : InOrder [a] (g ++ a ++ t) := .cons g a (.nil t)

theorem Leaf.str_inOrder (fmt : Bool → Arr → List Char) (l : Leaf) :
    InOrder [l.name.toList, fmt l.boxed l.val] (l.str fmt) := by
  have two : ∀ g t : List Char, InOrder [l.name.toList, fmt l.boxed l.val]
      (l.name.toList ++ (g ++ fmt l.boxed l.val ++ t)) := fun g t => by
    simpa using InOrder.cons [] l.name.toList (InOrder.single (fmt l.boxed l.val) g t)
  unfold Leaf.str
  split
  · simpa using two [':', ' '] []
  · simpa using two [':', ' '] []
  · simpa using two [':', '\n'] []

/-! ### Single lines -/

theorem split_unique {c : Char} {a a' b b' : List Char} (ha : c ∉ a) (ha' : c ∉ a')
    (h : a ++ c :: b = a' ++ c :: b') : a = a' ∧ b = b' := by
  induction a generalizing a' with
  | nil =>
    cases a' with
    | nil => simpa using h
    | cons x xs =>
      simp only [List.nil_append, List.cons_append, List.cons.injEq] at h
      exact absurd (by simp [h.1]) ha'
  | cons x xs ih =>
    cases a' with
    | nil =>
      simp only [List.nil_append, List.cons_append, List.cons.injEq] at h
      exact absurd (by simp [h.1]) ha
    | cons y ys =>
      simp only [List.cons_append, List.cons.injEq] at h
      obtain ⟨h1, h2⟩ := ih (fun hc => ha (by simp [hc])) (fun hc => ha' (by simp [hc])) h.2
      exact ⟨by rw [h.1, h1], h2⟩

theorem lines_unique {as bs : List (List Char)} (ha : ∀ a ∈ as, '\n' ∉ a ∧ a ≠ [])
    (hb : ∀ b ∈ bs, '\n' ∉ b ∧ b ≠ []) (h : ['\n'].intercalate as = ['\n'].intercalate bs) : as = bs := by
  have ne : ∀ (a : List Char) as, a ≠ [] → ['\n'].intercalate (a :: as) ≠ [] := by
    intro a as hne
    rw [intercalate_cons]
    simp [hne]
  induction as generalizing bs with
  | nil =>
    cases bs with
    | nil => rfl
    | cons b bs => exact absurd h.symm (ne b bs (hb b (by simp)).2)
  | cons a as ih =>
    cases bs with
    | nil => exact absurd h (ne a as (ha a (by simp)).2)
    | cons b bs =>
      rw [intercalate_cons, intercalate_cons] at h
      have ha1 := (ha a (by simp)).1
      have hb1 := (hb b (by simp)).1
      by_cases h1 : as = [] <;> by_cases h2 : bs = []
      · simp only [h1, h2, if_true, List.append_nil] at h ⊢
        rw [h]
      · simp only [h1, h2, if_true, if_false, List.append_nil] at h
        exact absurd (by rw [h]; simp) ha1
      · simp only [h1, h2, if_true, if_false, List.append_nil] at h
        exact absurd (by rw [← h]; simp) hb1
      · simp only [h1, h2, if_false, List.singleton_append] at h
        obtain ⟨e1, e2⟩ := split_unique ha1 hb1 h
        rw [e1, ih (fun x hx => ha x (by simp [hx])) (fun x hx => hb x (by simp [hx])) e2]

theorem Entries.strs_single (fmt : Bool → Arr → List Char) (es : Entries) (h : es.SingleLines) :
    es.strs fmt = es.leaves.map fun l => '\t' :: (l.name.toList ++ ':' :: ' ' :: fmt l.boxed l.val) := by
  refine Entries.rec (motive_1 := fun _ => True)
    (motive_2 := fun es => es.SingleLines →
      es.strs fmt = es.leaves.map fun l => '\t' :: (l.name.toList ++ ':' :: ' ' :: fmt l.boxed l.val))
    ?_ ?_ ?_ ?_ es h
  · exact fun _ => trivial
  · exact fun _ _ _ => trivial
  · exact fun _ => rfl
  · intro k p rest _ ih h
    cases p with
    | dict h es => exact absurd h (by simp [Entries.SingleLines])
    | leaf l =>
      simp only [Entries.SingleLines] at h
      rw [Entries.strs, ih h.2, Entries.leaves, List.map_append]
      have : l.str fmt = l.name.toList ++ ':' :: ' ' :: fmt l.boxed l.val := by
        rcases h.1 with ⟨lb, ub, hk⟩ | ⟨r, c, hk⟩ <;> simp [Leaf.str, hk]
      simp [Param.str, this, Param.leaves]

/-! ### C144 -/

/-- **C144** (completeness) Whatever values are printed as: the text of a dictionary, nested to any depth, contains the texts
of all parameters in it, in the order of the vector, each after the end of the one before; and it contains the name of every
parameter and, behind it and before the next name, its value. -/
theorem C144_complete (fmt : Bool → Arr → List Char) (p : Param) :
    InOrder (p.leaves.map (Leaf.str fmt)) (p.str fmt) ∧
    InOrder (p.leaves.flatMap fun l => [l.name.toList, fmt l.boxed l.val]) (p.str fmt) := by
  refine ⟨?_, p.str_inOrder fmt _ (Leaf.str_inOrder fmt)⟩
  have := p.str_inOrder fmt (fun l => [l.str fmt]) fun l => by
    simpa using InOrder.single (l.str fmt) [] []
  rwa [← List.map_eq_flatMap] at this

/-- **C144** (partial: single lines) Two dictionaries of scalars and simplexes that print the same have the same name, the same
names of parameters in the same order, and values that print the same, when values print as one line and names have neither a colon
nor a line break. -/
theorem C144_text_determines_partial (fmt : Bool → Arr → List Char) (h h' : Hdr) (es es' : Entries)
    (hs : es.SingleLines) (hs' : es'.SingleLines)
    (hn : ':' ∉ h.name.toList) (hn' : ':' ∉ h'.name.toList)
    (hl : ∀ l ∈ es.leaves ++ es'.leaves, ':' ∉ l.name.toList ∧ '\n' ∉ l.name.toList ∧ '\n' ∉ fmt l.boxed l.val)
    (heq : (Param.dict h es).str fmt = (Param.dict h' es').str fmt) :
    h.name = h'.name ∧
    es.leaves.map (fun l => (l.name, fmt l.boxed l.val)) = es'.leaves.map fun l => (l.name, fmt l.boxed l.val) := by
  simp only [Param.str, List.append_assoc, List.cons_append, List.nil_append] at heq
  obtain ⟨h1, h2⟩ := split_unique hn hn' heq
  refine ⟨String.toList_inj.mp h1, ?_⟩
  simp only [List.cons.injEq, true_and] at h2
  rw [Entries.strs_single fmt es hs, Entries.strs_single fmt es' hs'] at h2
  have ok : ∀ ls : List Leaf, (∀ l ∈ ls, l ∈ es.leaves ++ es'.leaves) →
      ∀ a ∈ ls.map fun l => '\t' :: (l.name.toList ++ ':' :: ' ' :: fmt l.boxed l.val), '\n' ∉ a ∧ a ≠ [] := by
    intro ls hls a ha
    obtain ⟨l, hm, rfl⟩ := List.mem_map.mp ha
    have := hl l (hls l hm)
    simp [this.2.1, this.2.2]
  have h3 := lines_unique (ok _ fun l hm => by simp [hm]) (ok _ fun l hm => by simp [hm]) h2
  have step : ∀ ls ls' : List Leaf, (∀ l ∈ ls ++ ls', ':' ∉ l.name.toList) →
      (ls.map fun l => '\t' :: (l.name.toList ++ ':' :: ' ' :: fmt l.boxed l.val)) =
        (ls'.map fun l => '\t' :: (l.name.toList ++ ':' :: ' ' :: fmt l.boxed l.val)) →
      ls.map (fun l => (l.name, fmt l.boxed l.val)) = ls'.map fun l => (l.name, fmt l.boxed l.val) := by
    intro ls
    induction ls with
    | nil =>
      intro ls' _ h
      cases ls' with
      | nil => rfl
      | cons _ _ => simp at h
    | cons l ls ih =>
      intro ls' hc h
      cases ls' with
      | nil => simp at h
      | cons l' ls' =>
        simp only [List.map_cons, List.cons.injEq, true_and] at h ⊢
        obtain ⟨e1, e2⟩ := split_unique (hc l (by simp)) (hc l' (by simp)) h.1
        refine ⟨?_, ih ls' (fun x hx => hc x ?_) h.2⟩
        · rw [String.toList_inj.mp e1, (List.cons.inj e2).2]
        · rcases List.mem_append.mp hx with hx | hx <;> simp [hx]
  exact step _ _ (fun l hm => (hl l hm).1) h3

/-- `ScalarParam(name, val=v)`. -/
def printScalar (name : String) (v : ℝ) : Param := .leaf ⟨name, .scalar .ninf .pinf, ⟨[], [v]⟩, false⟩

/-- **C144** (counterexample) In general the text does not determine the structure: whatever values are printed as, a dictionary that
contains a dictionary `inner` with `x` and, beside it, `y` prints the same as one with both `x` and `y` in `inner`, because
only the first line of the text of an entry is indented. -/
theorem C144_counterexample (fmt : Bool → Arr → List Char) (u v : ℝ) :
    let x := printScalar "x" u
    let y := printScalar "y" v
    let d := ((Param.emptyDict "outer").push ((Param.emptyDict "inner").push x)).push y
    let d' := (Param.emptyDict "outer").push (((Param.emptyDict "inner").push x).push y)
    d.str fmt = d'.str fmt ∧ d.items.map Prod.fst = ["inner", "y"] ∧ d'.items.map Prod.fst = ["inner"] := by
  simp [Param.str, Entries.strs, List.intercalate, Param.emptyDict, Param.push, printScalar, Param.name, Entries.assign,
    Param.items, Entries.toList]

/-- A dictionary with two scalars and its text. -/
example (fmt : Bool → Arr → List Char) (hf : fmt false ⟨[], [1]⟩ = ['1']) (hg : fmt false ⟨[], [2]⟩ = ['2']) :
    (((Param.emptyDict "par").push (printScalar "x" 1)).push (printScalar "y" 2)).str fmt = "par:\n\tx: 1\n\ty: 2".toList := by
  simp [Param.str, Entries.strs, List.intercalate, printScalar, Leaf.str, hf, hg, Param.emptyDict, Param.push, Param.name,
    Entries.assign]

/-- The hypotheses of the partial theorem are met. -/
example : ∃ (fmt : Bool → Arr → List Char) (h : Hdr) (es : Entries), es.SingleLines ∧ ':' ∉ h.name.toList ∧ es.leaves.length = 2 ∧
    ∀ l ∈ es.leaves, ':' ∉ l.name.toList ∧ '\n' ∉ l.name.toList ∧ '\n' ∉ fmt l.boxed l.val := by
  refine ⟨fun _ a => if a.data = [1] then ['1'] else ['2'], ⟨"par", [], [], 2, 2⟩,
    .cons "x" (printScalar "x" 1) (.cons "y" (printScalar "y" 2) .nil), ?_, by simp, rfl, ?_⟩
  · simp [Entries.SingleLines, printScalar]
  · intro l hl
    simp only [Entries.leaves, printScalar, Param.leaves, List.append_nil, List.singleton_append, List.mem_cons, List.not_mem_nil,
      or_false] at hl
    rcases hl with rfl | rfl <;> simp

end LRVB
