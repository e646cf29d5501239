import Verif.Lemmas.Heap
import Verif.Lemmas.Reach

/-!
# Calls on object graphs
-/

namespace LRVB

open Classical

noncomputable section

/-! ### Skeletons: what calls do not change -/

/-- Class, name, constructor arguments and entries. -/
def Obj.skel : Obj → Obj
  | .leaf l => .leaf ⟨l.name, l.kind, ⟨[], []⟩, false⟩
  | .dict h es => .dict h es

/-- The objects have the same skeletons. -/
def Store.Skel (st st' : Store) : Prop := ∀ i : ℕ, (st'.objs[i]?).map Obj.skel = (st.objs[i]?).map Obj.skel

theorem Store.Skel.refl (st : Store) : st.Skel st := fun _ => rfl

theorem Store.Skel.trans {a b c : Store} (h : a.Skel b) (h' : b.Skel c) : a.Skel c :=
  fun i => (h' i).trans (h i)

theorem Store.Skel.none {st st' : Store} (h : st.Skel st') {i : ℕ} (e : st.objs[i]? = none) :
    st'.objs[i]? = none := by
  have := h i
  rw [e] at this
  cases hh : st'.objs[i]? with
  | none => rfl
  | some o => rw [hh] at this; cases this

theorem Store.Skel.leaf {st st' : Store} (h : st.Skel st') {i : ℕ} {l : HLeaf}
    (e : st.objs[i]? = some (.leaf l)) :
    ∃ l', st'.objs[i]? = some (.leaf l') ∧ l'.name = l.name ∧ l'.kind = l.kind := by
  have := h i
  rw [e] at this
  cases hh : st'.objs[i]? with
  | none => rw [hh] at this; cases this
  | some o =>
    rw [hh] at this
    cases o with
    | leaf l' =>
      simp only [Option.map_some, Obj.skel, Option.some.injEq, Obj.leaf.injEq, HLeaf.mk.injEq] at this
      exact ⟨l', rfl, this.1, this.2.1⟩
    | dict h es => simp [Obj.skel] at this

theorem Store.Skel.dict {st st' : Store} (h : st.Skel st') {i : ℕ} {hd : Hdr} {es : List (String × ℕ)}
    (e : st.objs[i]? = some (.dict hd es)) : st'.objs[i]? = some (.dict hd es) := by
  have := h i
  rw [e] at this
  cases hh : st'.objs[i]? with
  | none => rw [hh] at this; cases this
  | some o =>
    rw [hh] at this
    cases o with
    | leaf l' => simp [Obj.skel] at this
    | dict h es => simpa [Obj.skel] using this

theorem Store.Skel.foot {st st' : Store} (h : st.Skel st') :
    ∀ (d i : ℕ), st'.foot d i = st.foot d i
  | 0, _ => rfl
  | d + 1, i => by
    unfold Store.foot
    cases e : st.objs[i]? with
    | none => rw [h.none e]
    | some o =>
      cases o with
      | leaf l => obtain ⟨l', e', -⟩ := h.leaf e; rw [e']
      | dict hd es =>
        rw [h.dict e]
        simp only [h.foot d]

/-- The arrays held by objects are in use. -/
def Store.WF (st : Store) : Prop := ∀ (i : ℕ) (l : HLeaf), st.objs[i]? = some (.leaf l) → l.ref.Alive st.mem

/-- What a call may do: it does not change arrays in use, nor skeletons, nor objects not in `F`. -/
structure Store.Change (F : List ℕ) (st st' : Store) : Prop where
  le : st.mem.Le st'.mem
  skel : st.Skel st'
  wf : st.WF → st'.WF
  other : ∀ j ∉ F, st'.objs[j]? = st.objs[j]?

theorem Store.Change.refl (F : List ℕ) (st : Store) : Store.Change F st st :=
  ⟨.refl _, .refl _, id, fun _ _ => rfl⟩

theorem Store.Change.trans {F : List ℕ} {a b c : Store} (h : Store.Change F a b) (h' : Store.Change F b c) :
    Store.Change F a c :=
  ⟨h.le.trans h'.le, h.skel.trans h'.skel, h'.wf ∘ h.wf,
    fun j hj => (h'.other j hj).trans (h.other j hj)⟩

theorem Store.Change.mono {F G : List ℕ} {a b : Store} (h : Store.Change F a b) (hF : ∀ j ∈ F, j ∈ G) :
    Store.Change G a b :=
  ⟨h.le, h.skel, h.wf, fun j hj => h.other j fun h' => hj (hF j h')⟩

/-! ### Frames -/

/-- The call on a single parameter changes no array in use. -/
def Visit.Tame {β : Type} (w : Visit β) : Prop :=
  ∀ m l x m' l' b, w.leaf m l x = .ok (m', l', b) → m.Le m' ∧ l'.name = l.name ∧ l'.kind = l.kind ∧
    (l.ref.Alive m → (∀ k ∈ x, k < m.next) → l'.ref.Alive m')

theorem change_leaf {st : Store} {i : ℕ} {l l' : HLeaf} {m' : Mem} (hi : st.objs[i]? = some (.leaf l))
    (hle : st.mem.Le m') (hn : l'.name = l.name) (hk : l'.kind = l.kind)
    (ha : st.WF → l'.ref.Alive m') :
    Store.Change [i] st ⟨m', st.objs.set i (.leaf l')⟩ := by
  have hlt : i < st.objs.length := by
    by_contra hc
    rw [List.getElem?_eq_none (by omega)] at hi
    cases hi
  have hget : ∀ j, (st.objs.set i (.leaf l'))[j]? = if j = i then some (.leaf l') else st.objs[j]? := by
    intro j
    split_ifs with hj
    · subst hj; rw [List.getElem?_set_self hlt]
    · rw [List.getElem?_set_ne (Ne.symm hj)]
  refine ⟨hle, fun j => ?_, fun hwf j k hj => ?_, fun j hj => ?_⟩
  · simp only [hget]
    split_ifs with hj
    · subst hj
      rw [hi]
      simp [Obj.skel, hn, hk]
    · rfl
  · simp only [hget] at hj
    split_ifs at hj with hji
    · cases hj
      exact ha hwf
    · exact (hwf j k hj).mono hle
  · simp only [hget]
    rw [if_neg (by simpa using hj)]

theorem visitEntries_change {β : Type} {w : Visit β} {rec : Store → ℕ → List ℕ → Store × Py β} {d : ℕ}
    (hrec : ∀ (st : Store) (i : ℕ) (x : List ℕ), (∀ k ∈ x, k < st.mem.next) →
      Store.Change (st.foot d i) st (rec st i x).1) (h : Hdr) :
    ∀ (es : List (String × ℕ)) (st : Store) (x : List ℕ) (off : ℕ),
      (∀ k ∈ x, k < st.mem.next) →
      Store.Change (es.flatMap fun e => st.foot d e.2) st (Store.visitEntries w rec h es st x off).1
  | [], st, x, off, _ => .refl _ _
  | (key, c) :: rest, st, x, off, hx => by
    unfold Store.visitEntries
    cases hc : st.objs[c]? with
    | none => exact .refl _ _
    | some o =>
      simp only
      have h1 := hrec st c (Ref.slice x off (w.size o)) fun k hk => hx k (mem_slice hk)
      obtain ⟨r, hr⟩ : ∃ r, r = rec st c (Ref.slice x off (w.size o)) := ⟨_, rfl⟩
      rw [← hr] at h1 ⊢
      have h1' : Store.Change (((key, c) :: rest).flatMap fun e => st.foot d e.2) st r.1 :=
        h1.mono fun j hj => by simp [hj]
      cases r.2 >>= w.part h off with
      | error e => exact h1'
      | ok b =>
        simp only
        refine h1'.trans ?_
        -- the rest starts from a store with the same skeletons
        have h2 := visitEntries_change (w := w) hrec h rest r.1 x (off + w.size o)
          fun k hk => lt_of_lt_of_le (hx k hk) h1.le.1
        refine h2.mono fun j hj => ?_
        simp only [h1.skel.foot] at hj
        simp only [List.flatMap_cons, List.mem_append]
        exact Or.inr hj

theorem visit_change {β : Type} {w : Visit β} (hw : w.Tame) :
    ∀ (d : ℕ) (st : Store) (i : ℕ) (x : List ℕ), (∀ k ∈ x, k < st.mem.next) →
      Store.Change (st.foot d i) st (Store.visit w d st i x).1
  | 0, st, i, x, _ => .refl _ _
  | d + 1, st, i, x, hx => by
    unfold Store.visit
    cases hi : st.objs[i]? with
    | none => exact .refl _ _
    | some o =>
      cases o with
      | leaf l =>
        simp only
        cases hl : w.leaf st.mem l x with
        | error e => exact .refl _ _
        | ok r =>
          obtain ⟨m', l', b⟩ := r
          obtain ⟨h1, h2, h3, h4⟩ := hw _ _ _ _ _ _ hl
          refine (change_leaf hi h1 h2 h3 fun hwf => h4 (hwf i l hi) hx).mono fun j hj => ?_
          unfold Store.foot
          rw [hi]
          exact hj
      | dict h es =>
        simp only
        split_ifs
        · exact .refl _ _
        · refine (visitEntries_change (w := w) (d := d) (visit_change hw d) h es st x 0 hx).mono fun j hj => ?_
          unfold Store.foot
          rw [hi]
          simp only
          simp [hj]

end

end LRVB
