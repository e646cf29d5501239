import Verif.Lemmas.Heap3

/-!
# The memory model refines the value model, and freshness
-/

namespace LRVB

open Classical

noncomputable section

theorem treeEntries_congr {f g : ℕ → Option Param} :
    ∀ {es : List (String × ℕ)}, (∀ e ∈ es, f e.2 = g e.2) → treeEntries f es = treeEntries g es
  | [], _ => rfl
  | (k, c) :: rest, h => by
    unfold treeEntries
    rw [h (k, c) (by simp), treeEntries_congr fun e he => h e (by simp [he])]

/-- The contents of an object depend only on the objects it consists of. -/
theorem tree_congr {st st' : Store} (h3 : st.Skel st') :
    ∀ (d i : ℕ), (∀ j ∈ st.foot d i, st'.objs[j]? = st.objs[j]?) →
      (∀ j ∈ st.foot d i, ∀ l, st.objs[j]? = some (.leaf l) → st'.mem.read l.ref = st.mem.read l.ref) →
      st'.tree d i = st.tree d i
  | 0, _, _, _ => rfl
  | d + 1, i, h1, h2 => by
    unfold Store.tree
    cases hi : st.objs[i]? with
    | none => rw [h3.none hi]
    | some o =>
      have hm : i ∈ st.foot (d + 1) i := by
        unfold Store.foot
        rw [hi]
        cases o <;> simp
      rw [h1 i hm, hi]
      cases o with
      | leaf l =>
        simp only [HLeaf.view]
        rw [h2 i hm l hi]
      | dict h es =>
        simp only
        congr 1
        apply treeEntries_congr
        intro e he
        have hs : ∀ j ∈ st.foot d e.2, j ∈ st.foot (d + 1) i := by
          intro j hj
          rw [Store.foot, hi]
          simp only [List.mem_cons, List.mem_flatMap]
          exact Or.inr ⟨e, he, hj⟩
        exact tree_congr h3 d e.2 (fun j hj => h1 j (hs j hj)) fun j hj => h2 j (hs j hj)

/-- A call does not change objects that share no object with the ones it may change. -/
theorem Store.Change.tree {F : List ℕ} {st st' : Store} (h : Store.Change F st st') (hwf : st.WF)
    (d i : ℕ) (hd : ∀ j ∈ st.foot d i, j ∉ F) : st'.tree d i = st.tree d i :=
  tree_congr h.skel d i (fun j hj => h.other j (hd j hj))
    fun j _ l hl => h.le.read (hwf j l hl)

/-- The two descriptions of a call belong together. -/
structure HeapPair {β : Type} (w : Visit β) (t : TVisit β) : Prop where
  sizeLeaf : ∀ m l, w.size (.leaf l) = t.size (.leaf (l.view m))
  sizeDict : ∀ h es pes, w.size (.dict h es) = t.size (.dict h pes)
  reject : w.reject = t.reject
  sim : w.Sim t.leaf
  part : w.part = t.part
  join : w.join = t.join

theorem free_pair : HeapPair Store.freeVisit freeT :=
  ⟨fun _ _ => rfl, fun _ _ _ => rfl, rfl, freeVisit_sim, rfl, rfl⟩
theorem vec_pair : HeapPair Store.vecVisit vecT :=
  ⟨fun _ _ => rfl, fun _ _ _ => rfl, rfl, vecVisit_sim, rfl, rfl⟩
theorem jac_pair : HeapPair Store.jacVisit jacT :=
  ⟨fun _ _ => rfl, fun _ _ _ => rfl, rfl, jacVisit_sim, rfl, rfl⟩
theorem hess_pair : HeapPair Store.hessVisit hessT :=
  ⟨fun _ _ => rfl, fun _ _ _ => rfl, rfl, hessVisit_sim, rfl, rfl⟩

theorem HeapPair.size {β : Type} {w : Visit β} {t : TVisit β} (h : HeapPair w t) {d : ℕ} {st : Store} {c : ℕ}
    {p : Param} (hp : st.tree d c = some p) {o : Obj} (ho : st.objs[c]? = some o) :
    w.size o = t.size p := by
  cases d with
  | zero => cases hp
  | succ d =>
    unfold Store.tree at hp
    rw [ho] at hp
    cases o with
    | leaf l => cases hp; exact h.sizeLeaf _ _
    | dict hd es =>
      simp only [Option.map_eq_some_iff] at hp
      obtain ⟨pes, -, rfl⟩ := hp
      exact h.sizeDict _ _ _

theorem tree_obj {d : ℕ} {st : Store} {c : ℕ} {p : Param} (hp : st.tree d c = some p) :
    ∃ o, st.objs[c]? = some o := by
  cases d with
  | zero => cases hp
  | succ d =>
    unfold Store.tree at hp
    cases ho : st.objs[c]? with
    | none => rw [ho] at hp; cases hp
    | some o => exact ⟨o, rfl⟩

theorem treeEntries_cons {f : ℕ → Option Param} {k : String} {c : ℕ} {rest : List (String × ℕ)} {pes : Entries}
    (h : treeEntries f ((k, c) :: rest) = some pes) :
    ∃ p pr, f c = some p ∧ treeEntries f rest = some pr ∧ pes = .cons k p pr := by
  unfold treeEntries at h
  simp only [Option.bind_eq_bind, Option.bind_eq_some_iff] at h
  obtain ⟨p, hp, pr, hr, h⟩ := h
  cases h
  exact ⟨p, pr, hp, hr, rfl⟩

theorem treeEntries_mk {f : ℕ → Option Param} {k : String} {c : ℕ} {rest : List (String × ℕ)} {p : Param}
    {pr : Entries} (h : f c = some p) (h' : treeEntries f rest = some pr) :
    treeEntries f ((k, c) :: rest) = some (.cons k p pr) := by
  unfold treeEntries
  rw [h, h']
  rfl

theorem visitEntries_refine {β : Type} {w : Visit β} {t : TVisit β} (hp : HeapPair w t) {d : ℕ}
    {rec : Store → ℕ → List ℕ → Store × Py β}
    (hch : ∀ (st : Store) (i : ℕ) (x : List ℕ), (∀ k ∈ x, k < st.mem.next) →
      Store.Change (st.foot d i) st (rec st i x).1)
    (hrec : ∀ (st : Store) (i : ℕ) (x : List ℕ) (p : Param), st.WF → (∀ k ∈ x, k < st.mem.next) →
      st.tree d i = some p → (st.foot d i).Nodup →
      (rec st i x).1.tree d i = some (p.visit t (st.mem.vals x)).1 ∧
        (rec st i x).2 = (p.visit t (st.mem.vals x)).2) (h : Hdr) :
    ∀ (es : List (String × ℕ)) (pes : Entries) (st : Store) (x : List ℕ) (off : ℕ), st.WF →
      (∀ k ∈ x, k < st.mem.next) → treeEntries (st.tree d) es = some pes →
      (es.flatMap fun e => st.foot d e.2).Nodup →
      treeEntries ((Store.visitEntries w rec h es st x off).1.tree d) es =
          some (pes.visit t h (st.mem.vals x) off).1 ∧
        (Store.visitEntries w rec h es st x off).2 = (pes.visit t h (st.mem.vals x) off).2
  | [], pes, st, x, off, _, _, ht, _ => by
    cases ht
    exact ⟨by simp [treeEntries, Entries.visit], by simp [Store.visitEntries, Entries.visit]⟩
  | (key, c) :: rest, pes, st, x, off, hwf, hx, ht, hnd => by
    obtain ⟨p, pr, h1, h2, rfl⟩ := treeEntries_cons ht
    obtain ⟨o, ho⟩ := tree_obj h1
    rw [List.flatMap_cons, List.nodup_append] at hnd
    obtain ⟨hn1, hn2, hdis⟩ := hnd
    have hx' : ∀ k ∈ Ref.slice x off (w.size o), k < st.mem.next := fun k hk => hx k (mem_slice hk)
    have hc := hch st c (Ref.slice x off (w.size o)) hx'
    obtain ⟨r1, r2⟩ := hrec st c (Ref.slice x off (w.size o)) p hwf hx' h1 hn1
    rw [vals_slice, hp.size h1 ho] at r1 r2
    unfold Store.visitEntries Entries.visit
    simp only [ho]
    rw [hp.size h1 ho] at hc ⊢
    generalize rec st c (Ref.slice x off (t.size p)) = r at *
    -- the rest of the entries has not changed
    have hrest : treeEntries (r.1.tree d) rest = some pr := by
      rw [← h2]
      apply treeEntries_congr
      intro e he
      refine hc.tree hwf d e.2 fun j hj hj' => ?_
      exact hdis j hj' j (List.mem_flatMap.2 ⟨e, he, hj⟩) rfl
    rw [r2, hp.part]
    cases (p.visit t (Leaf.slice (st.mem.vals x) off (t.size p))).2 >>= t.part h off with
    | error e => exact ⟨treeEntries_mk r1 hrest, rfl⟩
    | ok b =>
      simp only
      have hwf' := hc.wf hwf
      have hxr : ∀ k ∈ x, k < r.1.mem.next := fun k hk => lt_of_lt_of_le (hx k hk) hc.le.1
      have hn2' : (rest.flatMap fun e => r.1.foot d e.2).Nodup := by
        simp only [hc.skel.foot]
        exact hn2
      have hc2 := visitEntries_change (w := w) hch h rest r.1 x (off + t.size p) hxr
      obtain ⟨s1, s2⟩ := visitEntries_refine hp hch hrec h rest pr r.1 x (off + t.size p) hwf' hxr hrest hn2'
      rw [hc.le.vals hx] at s1 s2
      refine ⟨treeEntries_mk ?_ s1, by rw [s2]⟩
      rw [← r1]
      refine hc2.tree hwf' d c fun j hj hj' => ?_
      simp only [hc.skel.foot] at hj hj'
      exact hdis j hj j hj' rfl

/-- A call on an object in which no object occurs twice does what the value model says. -/
theorem visit_refine {β : Type} {w : Visit β} {t : TVisit β} (hp : HeapPair w t) :
    ∀ (d : ℕ) (st : Store) (i : ℕ) (x : List ℕ) (p : Param), st.WF → (∀ k ∈ x, k < st.mem.next) →
      st.tree d i = some p → (st.foot d i).Nodup →
      (Store.visit w d st i x).1.tree d i = some (p.visit t (st.mem.vals x)).1 ∧
        (Store.visit w d st i x).2 = (p.visit t (st.mem.vals x)).2
  | 0, st, i, x, p, _, _, ht, _ => by cases ht
  | d + 1, st, i, x, p, hwf, hx, ht, hnd => by
    have hch := visit_change hp.sim.tame (d + 1) st i x hx
    unfold Store.visit at hch ⊢
    cases hi : st.objs[i]? with
    | none =>
      unfold Store.tree at ht
      rw [hi] at ht
      cases ht
    | some o =>
      cases o with
      | leaf l =>
        have ht' := ht
        unfold Store.tree at ht'
        rw [hi] at ht'
        cases ht'
        simp only
        have hs := hp.sim st.mem l x
        unfold Param.visit
        have hlt : i < st.objs.length := by
          by_contra hc
          rw [List.getElem?_eq_none (by omega)] at hi
          cases hi
        cases hl : w.leaf st.mem l x with
        | error e =>
          rw [hl] at hs
          cases hf : t.leaf (l.view st.mem) (st.mem.vals x) with
          | error e' =>
            rw [hf] at hs
            have hs : e = e' := hs
            exact ⟨ht, by simp only [hs]⟩
          | ok r' => rw [hf] at hs; exact hs.elim
        | ok r =>
          rw [hl] at hs
          cases hf : t.leaf (l.view st.mem) (st.mem.vals x) with
          | error e' => rw [hf] at hs; exact hs.elim
          | ok r' =>
            rw [hf] at hs
            obtain ⟨h1, h2, -⟩ := hs
            refine ⟨?_, by simp only [h1]⟩
            unfold Store.tree
            simp only [List.getElem?_set_self hlt, h2]
      | dict h es =>
        have ht' := ht
        unfold Store.tree at ht'
        rw [hi] at ht'
        simp only [Option.map_eq_some_iff] at ht'
        obtain ⟨pes, hpes, rfl⟩ := ht'
        rw [hi] at hch
        simp only at hch ⊢
        unfold Param.visit
        rw [hp.reject, vals_length] at *
        by_cases hr : t.reject h x.length = true
        · rw [if_pos hr, if_pos hr]
          exact ⟨ht, rfl⟩
        · rw [if_neg hr] at hch
          rw [if_neg hr, if_neg hr]
          simp only at hch ⊢
          have hnd' : (es.flatMap fun e => st.foot d e.2).Nodup := by
            unfold Store.foot at hnd
            rw [hi] at hnd
            exact (List.nodup_cons.1 hnd).2
          obtain ⟨s1, s2⟩ := visitEntries_refine hp (visit_change hp.sim.tame d) (visit_refine hp d) h es pes st x 0
            hwf hx hpes hnd'
          refine ⟨?_, by rw [s2, hp.join]⟩
          rw [Store.tree, hch.skel.dict hi]
          simp only [s1, Option.map_some]

end

end LRVB
