import Verif.Lemmas.Heap4

/-!
# Freshness, reachable stores
-/

namespace LRVB

open Classical

noncomputable section

theorem treeEntries_some {f : ℕ → Option Param} :
    ∀ {es : List (String × ℕ)}, (treeEntries f es).isSome = es.all fun e => (f e.2).isSome
  | [] => rfl
  | (k, c) :: rest => by
    unfold treeEntries
    have := treeEntries_some (f := f) (es := rest)
    cases h : f c with
    | none => simp [h]
    | some p =>
      cases h' : treeEntries f rest with
      | none => rw [h'] at this; simp [h, ← this]
      | some q => rw [h'] at this; simp [h, ← this]

theorem Store.Skel.treeSome {st st' : Store} (h : st.Skel st') :
    ∀ (d i : ℕ), (st'.tree d i).isSome = (st.tree d i).isSome
  | 0, _ => rfl
  | d + 1, i => by
    unfold Store.tree
    cases e : st.objs[i]? with
    | none => rw [h.none e]
    | some o =>
      cases o with
      | leaf l => obtain ⟨l', e', -⟩ := h.leaf e; rw [e']; rfl
      | dict hd es =>
        rw [h.dict e]
        simp only [Option.isSome_map, treeEntries_some, h.treeSome d]

/-- When an object is not nested deeper than `d`, greater depths find no more objects. -/
theorem foot_subset {st : Store} : ∀ (d i k : ℕ), (st.tree d i).isSome → ∀ j ∈ st.foot k i, j ∈ st.foot d i
  | _, _, 0, _, j, hj => by cases hj
  | 0, _, _ + 1, ht, _, _ => by cases ht
  | d + 1, i, k + 1, ht, j, hj => by
    unfold Store.foot at hj ⊢
    unfold Store.tree at ht
    cases e : st.objs[i]? with
    | none => rw [e] at hj; cases hj
    | some o =>
      rw [e] at hj ht
      cases o with
      | leaf l => exact hj
      | dict hd es =>
        simp only [Option.isSome_map, treeEntries_some, List.all_eq_true] at ht
        simp only [List.mem_cons, List.mem_flatMap] at hj ⊢
        rcases hj with hj | ⟨e', he, hj⟩
        · exact Or.inl hj
        · exact Or.inr ⟨e', he, foot_subset d e'.2 k (ht e' he) j hj⟩

/-! ### What a call that stores new arrays leaves in the objects -/

theorem visitEntries_keep {β : Type} {w : Visit β} {rec : Store → ℕ → List ℕ → Store × Py β} {base : Mem} {P : Kind → Prop}
    (hle : ∀ (st : Store) (i : ℕ) (x : List ℕ), (∀ k ∈ x, k < st.mem.next) → st.mem.Le (rec st i x).1.mem)
    (hrec : ∀ (st : Store) (i : ℕ) (x : List ℕ), base.next ≤ st.mem.next → (∀ k ∈ x, k < st.mem.next) →
      ∀ (j : ℕ) (l : HLeaf), (rec st i x).1.objs[j]? = some (.leaf l) → st.objs[j]? = some (.leaf l) ∨ (P l.kind → l.ref.New base))
    (h : Hdr) :
    ∀ (es : List (String × ℕ)) (st : Store) (x : List ℕ) (off : ℕ), base.next ≤ st.mem.next →
      (∀ k ∈ x, k < st.mem.next) →
      ∀ (j : ℕ) (l : HLeaf), (Store.visitEntries w rec h es st x off).1.objs[j]? = some (.leaf l) →
        st.objs[j]? = some (.leaf l) ∨ (P l.kind → l.ref.New base)
  | [], st, x, off, _, _, j, l, hj => Or.inl hj
  | (key, c) :: rest, st, x, off, hb, hx, j, l, hj => by
    unfold Store.visitEntries at hj
    cases hc : st.objs[c]? with
    | none => rw [hc] at hj; exact Or.inl hj
    | some o =>
      rw [hc] at hj
      simp only at hj
      have hx' : ∀ k ∈ Ref.slice x off (w.size o), k < st.mem.next := fun k hk => hx k (mem_slice hk)
      have h0 := hle st c (Ref.slice x off (w.size o)) hx'
      have h1 := hrec st c (Ref.slice x off (w.size o)) hb hx'
      generalize rec st c (Ref.slice x off (w.size o)) = r at *
      cases hr : r.2 >>= w.part h off with
      | error e => rw [hr] at hj; exact h1 j l hj
      | ok b =>
        rw [hr] at hj
        simp only at hj
        rcases visitEntries_keep hle hrec h rest r.1 x (off + w.size o) (hb.trans h0.1)
          (fun k hk => lt_of_lt_of_le (hx k hk) h0.1) j l hj with h2 | h2
        · exact h1 j l h2
        · exact Or.inr h2

theorem visit_keep {β : Type} {w : Visit β} (hw : w.Tame) {P : Kind → Prop} (hf : w.Fresh P) (base : Mem) :
    ∀ (d : ℕ) (st : Store) (i : ℕ) (x : List ℕ), base.next ≤ st.mem.next → (∀ k ∈ x, k < st.mem.next) →
      ∀ (j : ℕ) (l : HLeaf), (Store.visit w d st i x).1.objs[j]? = some (.leaf l) →
        st.objs[j]? = some (.leaf l) ∨ (P l.kind → l.ref.New base)
  | 0, st, i, x, _, _, j, l, hj => Or.inl hj
  | d + 1, st, i, x, hb, hx, j, l, hj => by
    unfold Store.visit at hj
    cases hi : st.objs[i]? with
    | none => rw [hi] at hj; exact Or.inl hj
    | some o =>
      rw [hi] at hj
      cases o with
      | leaf l0 =>
        simp only at hj
        cases hl : w.leaf st.mem l0 x with
        | error e => rw [hl] at hj; exact Or.inl hj
        | ok r =>
          rw [hl] at hj
          simp only at hj
          by_cases hji : i = j
          · subst hji
            have hlt : i < st.objs.length := by
              by_contra hc
              rw [List.getElem?_eq_none (by omega)] at hi
              cases hi
            rw [List.getElem?_set_self hlt] at hj
            cases hj
            exact Or.inr fun hP k hk => hb.trans (hf _ _ _ _ _ _ hl hP k hk)
          · rw [List.getElem?_set_ne hji] at hj
            exact Or.inl hj
      | dict h es =>
        simp only at hj
        split_ifs at hj
        · exact Or.inl hj
        · exact visitEntries_keep (w := w) (fun st i x hx => (visit_change hw d st i x hx).le)
            (visit_keep hw hf base d) h es st x 0 hb hx j l hj

theorem visitEntries_fresh {β : Type} {w : Visit β} (hw : w.Tame) {P : Kind → Prop} (hf : w.Fresh P) (base : Mem) {d : ℕ}
    (hrec : ∀ (st : Store) (i : ℕ) (x : List ℕ) (b : β), base.next ≤ st.mem.next →
      (∀ k ∈ x, k < st.mem.next) → (Store.visit w d st i x).2 = .ok b →
      (st.tree d i).isSome ∧ ∀ j ∈ st.foot d i, ∀ l : HLeaf, (Store.visit w d st i x).1.objs[j]? = some (.leaf l) →
        P l.kind → l.ref.New base) (h : Hdr) :
    ∀ (es : List (String × ℕ)) (st : Store) (x : List ℕ) (off : ℕ) (bs : List β), base.next ≤ st.mem.next →
      (∀ k ∈ x, k < st.mem.next) → (Store.visitEntries w (Store.visit w d) h es st x off).2 = .ok bs →
      (∀ e ∈ es, (st.tree d e.2).isSome) ∧ ∀ j ∈ es.flatMap fun e => st.foot d e.2, ∀ l : HLeaf,
        (Store.visitEntries w (Store.visit w d) h es st x off).1.objs[j]? = some (.leaf l) → P l.kind → l.ref.New base
  | [], st, x, off, bs, _, _, _ => by simp
  | (key, c) :: rest, st, x, off, bs, hb, hx, hok => by
    unfold Store.visitEntries at hok ⊢
    cases hc : st.objs[c]? with
    | none => rw [hc] at hok; cases hok
    | some o =>
      rw [hc] at hok
      simp only at hok ⊢
      have hx' : ∀ k ∈ Ref.slice x off (w.size o), k < st.mem.next := fun k hk => hx k (mem_slice hk)
      have h0 := visit_change hw d st c (Ref.slice x off (w.size o)) hx'
      have h1 := hrec st c (Ref.slice x off (w.size o))
      generalize Store.visit w d st c (Ref.slice x off (w.size o)) = r at *
      cases hr2 : r.2 with
      | error e => rw [hr2] at hok; cases hok
      | ok b0 =>
        obtain ⟨t1, f1⟩ := h1 b0 hb hx' hr2
        rw [hr2] at hok
        simp only [py_ok_bind] at hok ⊢
        cases hr : w.part h off b0 with
        | error e => rw [hr] at hok; cases hok
        | ok b =>
          rw [hr] at hok
          simp only at hok ⊢
          have hb' : base.next ≤ r.1.mem.next := hb.trans h0.le.1
          have hxr : ∀ k ∈ x, k < r.1.mem.next := fun k hk => lt_of_lt_of_le (hx k hk) h0.le.1
          cases hs : (Store.visitEntries w (Store.visit w d) h rest r.1 x (off + w.size o)).2 with
          | error e => rw [hs] at hok; cases hok
          | ok bs' =>
            obtain ⟨t2, f2⟩ := visitEntries_fresh hw hf base hrec h rest r.1 x (off + w.size o) bs' hb' hxr hs
            have hskel : ∀ e : ℕ, (r.1.tree d e).isSome = (st.tree d e).isSome := h0.skel.treeSome d
            refine ⟨fun e he => ?_, fun j hj l hl => ?_⟩
            · rcases List.mem_cons.1 he with rfl | he
              · exact t1
              · rw [← hskel]; exact t2 e he
            · simp only [h0.skel.foot] at f2
              rw [List.flatMap_cons, List.mem_append] at hj
              rcases hj with hj | hj
              · rcases visitEntries_keep (w := w) (base := base)
                  (fun st i x hx => (visit_change hw d st i x hx).le) (visit_keep hw hf base d) h rest r.1 x
                  (off + w.size o) hb' hxr j l hl with h3 | h3
                · exact f1 j hj l h3
                · exact h3
              · exact f2 j hj l hl

/-- After a successful call that stores new arrays, the objects concerned hold new arrays. -/
theorem visit_fresh {β : Type} {w : Visit β} (hw : w.Tame) {P : Kind → Prop} (hf : w.Fresh P) (base : Mem) :
    ∀ (d : ℕ) (st : Store) (i : ℕ) (x : List ℕ) (b : β), base.next ≤ st.mem.next →
      (∀ k ∈ x, k < st.mem.next) → (Store.visit w d st i x).2 = .ok b →
      (st.tree d i).isSome ∧ ∀ j ∈ st.foot d i, ∀ l : HLeaf, (Store.visit w d st i x).1.objs[j]? = some (.leaf l) →
        P l.kind → l.ref.New base
  | 0, st, i, x, b, _, _, hok => by cases hok
  | d + 1, st, i, x, b, hb, hx, hok => by
    unfold Store.visit at hok ⊢
    unfold Store.tree Store.foot
    cases hi : st.objs[i]? with
    | none => rw [hi] at hok; cases hok
    | some o =>
      rw [hi] at hok
      cases o with
      | leaf l0 =>
        simp only at hok ⊢
        cases hl : w.leaf st.mem l0 x with
        | error e => rw [hl] at hok; cases hok
        | ok r =>
          refine ⟨rfl, fun j hj l hjl => ?_⟩
          rw [List.mem_singleton] at hj
          subst hj
          have hlt : j < st.objs.length := by
            by_contra hc
            rw [List.getElem?_eq_none (by omega)] at hi
            cases hi
          simp only [List.getElem?_set_self hlt] at hjl
          cases hjl
          exact fun hP k hk => hb.trans (hf _ _ _ _ _ _ hl hP k hk)
      | dict h es =>
        simp only at hok ⊢
        split_ifs at hok ⊢ with hr
        simp only at hok ⊢
        cases hs : (Store.visitEntries w (Store.visit w d) h es st x 0).2 with
        | error e => rw [hs] at hok; cases hok
        | ok bs =>
          obtain ⟨t, f⟩ := visitEntries_fresh hw hf base (visit_fresh hw hf base d) h es st x 0 bs hb hx hs
          refine ⟨?_, fun j hj l hl => ?_⟩
          · simp only [Option.isSome_map, treeEntries_some, List.all_eq_true]
            exact t
          · rcases List.mem_cons.1 hj with rfl | hj
            · have := (visitEntries_change (w := w) (d := d) (visit_change hw d) h es st x 0 hx).skel.dict hi
              rw [this] at hl
              cases hl
            · exact f j hj l hl

/-! ### In-place changes by the caller -/

theorem write_next (m : Mem) (r : Ref) (i : ℕ) (y : ℝ) : (m.write r i y).next = m.next := by
  unfold Mem.write
  split <;> rfl

theorem write_cell {m : Mem} {r : Ref} {i : ℕ} {y : ℝ} {k : ℕ} (hk : k ∉ r.addr) :
    (m.write r i y).cell k = m.cell k := by
  unfold Mem.write
  split
  · next k' h =>
    have : k ≠ k' := fun e => hk (e ▸ List.mem_of_getElem? h)
    simp [Function.update_of_ne this]
  · rfl

theorem assign_next (st : Store) (ws : List Assign) : (st.assign ws).mem.next = st.mem.next := by
  unfold Store.assign
  simp only
  induction ws generalizing st with
  | nil => rfl
  | cons w ws ih =>
    rw [List.foldl_cons]
    exact (ih ⟨st.mem.write w.r w.i w.y, st.objs⟩).trans (write_next _ _ _ _)

theorem assign_cell {st : Store} {ws : List Assign} {k : ℕ} (hk : ∀ w ∈ ws, k ∉ w.r.addr) :
    (st.assign ws).mem.cell k = st.mem.cell k := by
  unfold Store.assign
  simp only
  induction ws generalizing st with
  | nil => rfl
  | cons w ws ih =>
    rw [List.foldl_cons]
    exact (ih (st := ⟨st.mem.write w.r w.i w.y, st.objs⟩) fun v hv => hk v (by simp [hv])).trans
      (write_cell (hk w (by simp)))

theorem assign_read {st : Store} {ws : List Assign} {r : Ref}
    (h : ∀ w ∈ ws, ∀ k ∈ r.addr, k ∉ w.r.addr) : (st.assign ws).mem.read r = st.mem.read r := by
  unfold Mem.read Mem.vals
  congr 1
  exact List.map_congr_left fun k hk => assign_cell fun w hw => h w hw k hk

theorem assign_skel (st : Store) (ws : List Assign) : st.Skel (st.assign ws) := fun _ => rfl

/-- In-place changes to arrays that the objects do not hold do not show. -/
theorem assign_tree {st : Store} {ws : List Assign} (d i : ℕ)
    (h : ∀ j ∈ st.foot d i, ∀ l : HLeaf, st.objs[j]? = some (.leaf l) → ∀ w ∈ ws, ∀ k ∈ l.ref.addr, k ∉ w.r.addr) :
    (st.assign ws).tree d i = st.tree d i :=
  tree_congr (assign_skel st ws) d i (fun _ _ => rfl) fun j hj l hl => assign_read (h j hj l hl)

/-! ### Reading -/

theorem gather_mapM {f : Leaf → Py (List ℝ)} {g : Param → Py (List ℝ)} {ge : Entries → Py (List (List ℝ))}
    (hnil : ge .nil = .ok [])
    (hcons : ∀ k p es, ge (.cons k p es) = do let x ← g p; let xs ← ge es; .ok (x :: xs))
    {d : ℕ} {st : Store} (hrec : ∀ i p, st.tree d i = some p → st.gather f d i = g p) :
    ∀ (es : List (String × ℕ)) (pes : Entries), treeEntries (st.tree d) es = some pes →
      (es.mapM fun e => st.gather f d e.2) = ge pes
  | [], pes, h => by cases h; rw [hnil]; rfl
  | (k, c) :: rest, pes, h => by
    obtain ⟨p, pr, h1, h2, rfl⟩ := treeEntries_cons h
    rw [List.mapM_cons, hcons, hrec c p h1, gather_mapM hnil hcons hrec rest pr h2]
    rfl

theorem gather_eq {f : Leaf → Py (List ℝ)} {g : Param → Py (List ℝ)} {ge : Entries → Py (List (List ℝ))}
    (hnil : ge .nil = .ok [])
    (hcons : ∀ k p es, ge (.cons k p es) = do let x ← g p; let xs ← ge es; .ok (x :: xs))
    (hleaf : ∀ l, g (.leaf l) = f l) (hdict : ∀ h es, g (.dict h es) = do Arr.hstack (← ge es)) :
    ∀ (d : ℕ) (st : Store) (i : ℕ) (p : Param), st.tree d i = some p → st.gather f d i = g p
  | 0, st, i, p, h => by cases h
  | d + 1, st, i, p, h => by
    unfold Store.tree at h
    unfold Store.gather
    cases hi : st.objs[i]? with
    | none => rw [hi] at h; cases h
    | some o =>
      rw [hi] at h
      cases o with
      | leaf l => cases h; exact (hleaf _).symm
      | dict hd es =>
        simp only [Option.map_eq_some_iff] at h
        obtain ⟨pes, hp, rfl⟩ := h
        simp only
        rw [gather_mapM hnil hcons (gather_eq hnil hcons hleaf hdict d st) es pes hp, hdict]

theorem gather_free {d : ℕ} {st : Store} {i : ℕ} {p : Param} (h : st.tree d i = some p) :
    st.gather Leaf.getFree d i = p.getFree :=
  gather_eq (g := Param.getFree) (ge := Param.getFreeEntries) (by simp [Param.getFreeEntries])
    (fun _ _ _ => by rw [Param.getFreeEntries]) (fun _ => by rw [Param.getFree])
    (fun _ _ => by rw [Param.getFree]) d st i p h

theorem gather_vector {d : ℕ} {st : Store} {i : ℕ} {p : Param} (h : st.tree d i = some p) :
    st.gather Leaf.getVector d i = p.getVector :=
  gather_eq (g := Param.getVector) (ge := Param.getVectorEntries) (by simp [Param.getVectorEntries])
    (fun _ _ _ => by rw [Param.getVectorEntries]) (fun _ => by rw [Param.getVector])
    (fun _ _ => by rw [Param.getVector]) d st i p h

end

end LRVB
