import Verif.Spec.Families
import Verif.Lemmas.NdArr
import Verif.Props.Leaf
import Verif.Props.Bounds
import Verif.Lemmas.Dict

/-!
# What the parameters of distributions hold after `set_free`
-/

namespace LRVB

open Flt

noncomputable section

theorem Flt.mapM_toReal_fin (vs : List ℝ) : (vs.map fin).mapM Flt.toReal = .ok vs := by
  induction vs with
  | nil => rfl
  | cons a t ih =>
    rw [List.map_cons, List.mapM_cons, ih]; rfl

theorem Leaf.constrainVec_inside {lb ub : Flt} (h : lb < ub) (x : List ℝ) :
    ∃ v : List ℝ, Leaf.constrainVec x lb ub = .ok v ∧ v.length = x.length ∧
      ∀ y ∈ v, lb < fin y ∧ fin y < ub := by
  obtain ⟨vs, h1, h2, h3⟩ := C01_constrain_array_strictly_inside lb ub h x
  refine ⟨vs, ?_, h2, h3⟩
  unfold Leaf.constrainVec
  rw [h1, py_ok_bind, Flt.mapM_toReal_fin]

/-- What a bounded parameter of shape `s` holds after `set_free`. -/
def Inside (a : Arr) (s : List ℕ) (lb ub : Flt) : Prop :=
  IsArr a s ∧ ∀ idx, InShape idx s → lb < fin (a.get idx) ∧ fin (a.get idx) < ub

theorem Inside.pos {a : Arr} {s : List ℕ} {b : ℝ} {ub : Flt} (hb : 0 ≤ b)
    (h : Inside a s (fin b) ub) : IsPosArr a s :=
  ⟨h.1, fun idx hi => by
    have := (h.2 idx hi).1
    simp only [Flt.fin_lt_fin] at this
    linarith⟩

theorem inside_of_data {s : List ℕ} {v : List ℝ} {lb ub : Flt} (hl : v.length = s.prod)
    (h : ∀ y ∈ v, lb < fin y ∧ fin y < ub) : Inside ⟨s, v⟩ s lb ub :=
  ⟨⟨hl, rfl⟩, fun _ hi => h _ (Arr.get_mem (a := ⟨s, v⟩) hl hi)⟩

theorem setFree_array {l : Leaf} {s : List ℕ} {lb ub : Flt} (hk : l.kind = .array s lb ub)
    (h : lb < ub) {x : List ℝ} (hx : x.length = s.prod) :
    ∃ l', l.setFree x = .ok l' ∧ Inside l'.val s lb ub := by
  obtain ⟨v, h1, h2, h3⟩ := Leaf.constrainVec_inside h x
  refine ⟨{ l with val := ⟨s, v⟩, boxed := false }, ?_, inside_of_data (by omega) h3⟩
  unfold Leaf.setFree
  rw [hk]
  simp only [hx, ne_eq, not_true_eq_false, if_false, h1, py_ok_bind]
  unfold Arr.reshape
  rw [if_pos (by simp [Arr.vec, Arr.size, h2, hx]), py_ok_bind]
  unfold Leaf.set
  rw [hk]
  simp [Arr.vec]

theorem setFree_vector {l : Leaf} {n : ℕ} {lb ub : Flt} (hk : l.kind = .vector n lb ub)
    (h : lb < ub) {x : List ℝ} (hx : x.length = n) :
    ∃ l', l.setFree x = .ok l' ∧ Inside l'.val [n] lb ub := by
  obtain ⟨v, h1, h2, h3⟩ := Leaf.constrainVec_inside h x
  refine ⟨{ l with val := ⟨[n], v⟩, boxed := false }, ?_, inside_of_data (by simp; omega) h3⟩
  unfold Leaf.setFree
  rw [hk]
  simp only [hx, ne_eq, not_true_eq_false, if_false, h1, py_ok_bind]
  unfold Leaf.set
  rw [hk]
  simp [Arr.vec, Arr.size, h2, hx]

theorem setFree_scalar {l : Leaf} {lb ub : Flt} (hk : l.kind = .scalar lb ub)
    (h : lb < ub) {x : List ℝ} (hx : x.length = 1) :
    ∃ l', l.setFree x = .ok l' ∧ Inside l'.val [1] lb ub := by
  obtain ⟨v, h1, h2, h3⟩ := Leaf.constrainVec_inside h x
  refine ⟨{ l with val := ⟨[1], v⟩, boxed := false }, ?_, inside_of_data (by simp; omega) h3⟩
  unfold Leaf.setFree
  rw [hk]
  simp only [h1, py_ok_bind]
  unfold Leaf.set
  rw [hk]
  simp [Arr.vec, Arr.size, h2, hx]

/-! ### Dictionaries with two parameters -/

/-- A dictionary with two parameters of given types. -/
def Pair (p : Param) (k1 : String) (K1 : Kind) (k2 : String) (K2 : Kind) : Prop :=
  ∃ h l1 l2, p = .dict h (.cons k1 (.leaf l1) (.cons k2 (.leaf l2) .nil)) ∧
    l1.kind = K1 ∧ l2.kind = K2 ∧ h.fs = K1.freeSize + K2.freeSize ∧
    h.vs = K1.vecSize + K2.vecSize

theorem pair_push (name : String) {l1 l2 : Leaf} (hn : l1.name ≠ l2.name) :
    Pair (((Param.emptyDict name).push (.leaf l1)).push (.leaf l2)) l1.name l1.kind l2.name
      l2.kind := by
  refine ⟨_, l1, l2, by simp [Param.emptyDict, Param.push, Entries.assign, Param.name, hn]; rfl,
    rfl, rfl, ?_, ?_⟩
  · simp [Param.freeSize, Leaf.freeSize]
  · simp [Param.vecSize, Leaf.vecSize]

theorem Pair.erase {p q : Param} {k1 k2 : String} {K1 K2 : Kind} (h : Pair p k1 K1 k2 K2)
    (he : q.erase = p.erase) : Pair q k1 K1 k2 K2 := by
  obtain ⟨hd, l1, l2, rfl, h1, h2, h3, h4⟩ := h
  cases q with
  | leaf l => simp [Param.erase] at he
  | dict hq es =>
    match es with
    | .nil => simp [Param.erase, Entries.erase] at he
    | .cons a x .nil => simp [Param.erase, Entries.erase] at he
    | .cons a x (.cons b y (.cons c z r)) => simp [Param.erase, Entries.erase] at he
    | .cons a (.dict _ _) (.cons b y .nil) => simp [Param.erase, Entries.erase] at he
    | .cons a (.leaf x) (.cons b (.dict _ _) .nil) => simp [Param.erase, Entries.erase] at he
    | .cons a (.leaf x) (.cons b (.leaf y) .nil) =>
      simp only [Param.erase, Entries.erase, Param.dict.injEq, Entries.cons.injEq, and_true,
        Param.leaf.injEq, Leaf.mk.injEq, true_and] at he
      obtain ⟨e0, e1, e2, e3, e4⟩ := he
      subst e1 e3
      have hfs : hq.fs = hd.fs := by simpa using congrArg Hdr.fs e0
      have hvs : hq.vs = hd.vs := by simpa using congrArg Hdr.vs e0
      exact ⟨hq, x, y, rfl, e2.trans h1, e4.trans h2, hfs.trans h3, hvs.trans h4⟩

theorem Param.run_erase (ops : List ParamOp) : ∀ p : Param, (p.run ops).erase = p.erase := by
  induction ops with
  | nil => exact fun _ => rfl
  | cons op ops ih => exact fun p => (ih _).trans (Param.step_erase op p)

theorem Pair.run {p : Param} {k1 k2 : String} {K1 K2 : Kind} (h : Pair p k1 K1 k2 K2)
    (ops : List ParamOp) : Pair (p.run ops) k1 K1 k2 K2 := h.erase (Param.run_erase ops p)

theorem Pair.freeSize {p : Param} {k1 k2 : String} {K1 K2 : Kind} (h : Pair p k1 K1 k2 K2) :
    p.freeSize = K1.freeSize + K2.freeSize := by
  obtain ⟨hd, l1, l2, rfl, h1, h2, h3, h4⟩ := h
  exact h3

/-- `set_free` on a dictionary with two parameters. -/
theorem Pair.setFree {p : Param} {k1 k2 : String} {K1 K2 : Kind} (h : Pair p k1 K1 k2 K2)
    (hn : k1 ≠ k2) {P1 P2 : Arr → Prop}
    (H1 : ∀ l : Leaf, l.kind = K1 → ∀ x : List ℝ, x.length = K1.freeSize →
      ∃ l', l.setFree x = .ok l' ∧ P1 l'.val)
    (H2 : ∀ l : Leaf, l.kind = K2 → ∀ x : List ℝ, x.length = K2.freeSize →
      ∃ l', l.setFree x = .ok l' ∧ P2 l'.val)
    {x : List ℝ} (hx : x.length = p.freeSize) :
    ∃ q a b, p.setFree x = (q, none) ∧ Holds q k1 a ∧ P1 a ∧ Holds q k2 b ∧ P2 b := by
  rw [h.freeSize] at hx
  obtain ⟨hd, l1, l2, rfl, h1, h2, h3, h4⟩ := h
  obtain ⟨l1', e1, p1⟩ := H1 l1 h1 (x.take K1.freeSize) (by simp; omega)
  obtain ⟨l2', e2, p2⟩ := H2 l2 h2 (x.drop K1.freeSize) (by simp; omega)
  refine ⟨.dict hd (.cons k1 (.leaf l1') (.cons k2 (.leaf l2') .nil)), l1'.val, l2'.val, ?_, ?_, p1,
    ?_, p2⟩
  · have s1 : Leaf.slice x 0 K1.freeSize = x.take K1.freeSize := by simp [Leaf.slice]
    have s2 : Leaf.slice x K1.freeSize K2.freeSize = x.drop K1.freeSize := by
      simp [Leaf.slice]; omega
    have f1 : l1.freeSize = K1.freeSize := by rw [Leaf.freeSize, h1]
    have f2 : l2.freeSize = K2.freeSize := by rw [Leaf.freeSize, h2]
    simp [Param.setFree, Param.setFreeEntries, h3, hx, Param.freeSize, f1, f2, s1, s2, e1, e2]
  · simp [Holds, Param.viewGet, Entries.find]; rfl
  · simp [Holds, Param.viewGet, Entries.find, hn]; rfl

/-! ### Dictionaries with one parameter -/

/-- A dictionary with one parameter of a given type. -/
def Sole (p : Param) (k : String) (K : Kind) : Prop :=
  ∃ h l, p = .dict h (.cons k (.leaf l) .nil) ∧ l.kind = K ∧ h.fs = K.freeSize ∧ h.vs = K.vecSize

theorem sole_push (name : String) (l : Leaf) :
    Sole ((Param.emptyDict name).push (.leaf l)) l.name l.kind := by
  refine ⟨_, l, by simp [Param.emptyDict, Param.push, Entries.assign, Param.name]; rfl, rfl, ?_, ?_⟩
  · simp [Param.freeSize, Leaf.freeSize]
  · simp [Param.vecSize, Leaf.vecSize]

theorem Sole.run {p : Param} {k : String} {K : Kind} (h : Sole p k K) (ops : List ParamOp) :
    Sole (p.run ops) k K := by
  have he := Param.run_erase ops p
  obtain ⟨hd, l, rfl, h1, h2, h3⟩ := h
  generalize (Param.dict hd (.cons k (.leaf l) .nil)).run ops = q at he
  cases q with
  | leaf l => simp [Param.erase] at he
  | dict hq es =>
    match es with
    | .nil => simp [Param.erase, Entries.erase] at he
    | .cons a x (.cons b y r) => simp [Param.erase, Entries.erase] at he
    | .cons a (.dict _ _) .nil => simp [Param.erase, Entries.erase] at he
    | .cons a (.leaf x) .nil =>
      simp only [Param.erase, Entries.erase, Param.dict.injEq, Entries.cons.injEq, and_true,
        Param.leaf.injEq, Leaf.mk.injEq, true_and] at he
      obtain ⟨e0, e1, e2⟩ := he
      subst e1
      have hfs : hq.fs = hd.fs := by simpa using congrArg Hdr.fs e0
      have hvs : hq.vs = hd.vs := by simpa using congrArg Hdr.vs e0
      exact ⟨hq, x, rfl, e2.trans h1, hfs.trans h2, hvs.trans h3⟩

theorem Sole.freeSize {p : Param} {k : String} {K : Kind} (h : Sole p k K) :
    p.freeSize = K.freeSize := by
  obtain ⟨hd, l, rfl, h1, h2, h3⟩ := h
  exact h2

theorem Sole.setFree {p : Param} {k : String} {K : Kind} (h : Sole p k K) {P : Arr → Prop}
    (H : ∀ l : Leaf, l.kind = K → ∀ x : List ℝ, x.length = K.freeSize →
      ∃ l', l.setFree x = .ok l' ∧ P l'.val)
    {x : List ℝ} (hx : x.length = p.freeSize) :
    ∃ q a, p.setFree x = (q, none) ∧ Holds q k a ∧ P a := by
  rw [h.freeSize] at hx
  obtain ⟨hd, l, rfl, h1, h2, h3⟩ := h
  obtain ⟨l', e, p1⟩ := H l h1 x hx
  refine ⟨.dict hd (.cons k (.leaf l') .nil), l'.val, ?_, ?_, p1⟩
  · have s1 : Leaf.slice x 0 K.freeSize = x := by simp [Leaf.slice, ← hx]
    have f1 : l.freeSize = K.freeSize := by rw [Leaf.freeSize, h1]
    simp [Param.setFree, Param.setFreeEntries, h2, hx, Param.freeSize, f1, s1, e]
  · simp [Holds, Param.viewGet, Entries.find]; rfl

/-! ### Constructors -/

theorem mkScalar_kind {name : String} {lb ub : Flt} (h : lb < ub) :
    ∃ l, mkScalar name lb ub none = .ok l ∧ l.name = name ∧ l.kind = .scalar lb ub := by
  obtain ⟨l, hl⟩ := (C06_constructors name lb ub 0 []).1.2 h
  refine ⟨l, hl, ?_⟩
  obtain ⟨_, _, h2⟩ := py_bind_ok hl
  obtain ⟨_, _, h3⟩ := py_bind_ok h2
  obtain ⟨_, _, h4⟩ := py_bind_ok h3
  simp only [Leaf.set, Except.ok.injEq] at h4
  subst h4
  exact ⟨rfl, rfl⟩

theorem mkVector_kind {name : String} {n : ℕ} {lb ub : Flt} (h : lb < ub) :
    ∃ l, mkVector name n lb ub none = .ok l ∧ l.name = name ∧ l.kind = .vector n lb ub := by
  obtain ⟨l, hl⟩ := (C06_constructors name lb ub n []).2.1.2 h
  refine ⟨l, hl, ?_⟩
  obtain ⟨_, _, h2⟩ := py_bind_ok hl
  obtain ⟨_, _, h3⟩ := py_bind_ok h2
  obtain ⟨_, _, h4⟩ := py_bind_ok h3
  simp only [Leaf.set] at h4
  split_ifs at h4
  simp only [Except.ok.injEq] at h4
  subst h4
  exact ⟨rfl, rfl⟩

theorem mkArray_kind {name : String} {s : List ℕ} {lb ub : Flt} (h : lb < ub) :
    ∃ l, mkArray name s lb ub none = .ok l ∧ l.name = name ∧ l.kind = .array s lb ub := by
  obtain ⟨l, hl⟩ := (C06_constructors name lb ub 0 s).2.2.1.2 h
  refine ⟨l, hl, ?_⟩
  obtain ⟨_, _, h2⟩ := py_bind_ok hl
  obtain ⟨_, _, h3⟩ := py_bind_ok h2
  obtain ⟨_, _, h4⟩ := py_bind_ok h3
  simp only [Leaf.set] at h4
  split_ifs at h4
  simp only [Except.ok.injEq] at h4
  subst h4
  exact ⟨rfl, rfl⟩

end

end LRVB
