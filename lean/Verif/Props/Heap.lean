import Verif.Lemmas.Heap6
import Verif.Props.Dict

/-!
# C100-C107: which arrays and objects are shared

Programs hold arrays and parameter objects by reference (`Model/Heap`, `Spec/Heap`).
-/

namespace LRVB

open Classical Flt

noncomputable section

private theorem alive_vec {x : List ℕ} {m : Mem} (h : (Ref.vec x).Alive m) : ∀ k ∈ x, k < m.next := h

/-! ### A program that meets the hypotheses -/

/-- Memory and objects when the program starts. -/
def emptyStore : Store := ⟨⟨0, fun _ => 0⟩, []⟩

theorem emptyStore_reached (depth : ℕ) : Reached depth emptyStore := .start _

/-- The program that builds the dictionary `exDict` of C33 as object 2, and makes the array `[1, 2, 3]`. -/
def exProgram : List Event :=
  [.newArray (Arr.scalar 1), .newArray (Arr.vec [0, 1]),
    .call (.newParam (mkScalar "a" (fin 0) pinf) (some ⟨[], [0]⟩)),
    .call (.newParam (mkVector "v" 2 ninf pinf) (some ⟨[2], [1, 2]⟩)),
    .call (.newDict "d"), .call (.newDict "s"), .call (.push 3 1), .call (.push 2 0), .call (.push 2 3),
    .newArray (Arr.vec [1, 2, 3])]

/-- The store after that program. -/
def exStore : Store := runEvents 3 emptyStore exProgram

theorem exStore_eq : ∃ m, exStore = ⟨m, [.leaf ⟨"a", .scalar (fin 0) pinf, ⟨[], [0]⟩, false⟩,
      .leaf ⟨"v", .vector 2 ninf pinf, ⟨[2], [1, 2]⟩, false⟩,
      .dict ⟨"d", [("a", ⟨0, 1⟩), ("s", ⟨1, 3⟩)], [("a", ⟨0, 1⟩), ("s", ⟨1, 3⟩)], 3, 3⟩ [("a", 0), ("s", 3)],
      .dict ⟨"s", [("v", ⟨0, 2⟩)], [("v", ⟨0, 2⟩)], 2, 2⟩ [("v", 1)]]⟩ ∧
    m.next = 6 ∧ m.vals [0, 1, 2, 3, 4, 5] = [1, 0, 1, 1, 2, 3] := by
  have h1 : ∀ r : Arr, mkScalar "a" (fin 0) pinf (some r) = .ok ⟨"a", .scalar (fin 0) pinf, r, false⟩ := by
    intro r
    simp [mkScalar, checkBoundsScalar, Leaf.set]
  have h2 : ∀ m : Mem, mkVector "v" 2 ninf pinf (some (m.read ⟨[2], [1, 2]⟩)) =
      .ok ⟨"v", .vector 2 ninf pinf, m.read ⟨[2], [1, 2]⟩, false⟩ := by
    intro m
    simp [mkVector, checkBoundsVector, Leaf.set, Arr.size, Mem.read, vals_length]
  refine ⟨((((Mem.alloc ⟨0, fun _ => 0⟩ (Arr.scalar 1)).1.alloc (Arr.vec [0, 1])).1).alloc (Arr.vec [1, 2, 3])).1,
    ?_, ?_⟩
  · simp only [exStore, exProgram, runEvents, Event.run, Call.run, Store.newParam, h1, h2, emptyStore, Store.newDict,
      Store.push, List.nil_append, List.cons_append, List.getElem?_cons_zero,
      List.getElem?_cons_succ, List.set_cons_zero, List.set_cons_succ, Obj.name, Obj.freeSize, Obj.vecSize,
      Kind.freeSize, Kind.vecSize]
    simp [assign]
  · simp [Mem.alloc, Arr.scalar, Arr.vec, Mem.vals]

theorem exStore_reached : Reached 3 exStore := by
  refine (emptyStore_reached 3).run exProgram ?_
  simp [exProgram, okEvents, Event.Ok, Call.args, Ref.Alive, Event.run, Mem.alloc, emptyStore, Arr.scalar, Arr.vec,
    Call.run, Store.newParam, mkScalar, checkBoundsScalar, Leaf.set]

theorem exStore_tree : exStore.tree 3 2 = some exDict := by
  obtain ⟨m, h, h1, h2⟩ := exStore_eq
  simp only [Mem.vals, List.map_cons, List.map_nil, List.cons.injEq, and_true] at h2
  obtain ⟨a0, a1, a2, -⟩ := h2
  rw [h]
  simp [Store.tree, treeEntries, HLeaf.view, Mem.read, Mem.vals, a0, a1, a2, exDict, exSub, Param.emptyDict, Param.push,
    Entries.assign, assign, Param.name, Param.freeSize, Param.vecSize, exScalar, exVector, Leaf.freeSize, Leaf.vecSize,
    Kind.freeSize, Kind.vecSize, Arr.scalar, Arr.vec]

theorem exStore_foot : exStore.foot 3 2 = [2, 0, 3, 1] := by
  obtain ⟨m, h, -⟩ := exStore_eq
  rw [h]
  simp [Store.foot]

theorem exStore_alive : (Ref.vec [3, 4, 5]).Alive exStore.mem ∧ exStore.mem.vals [3, 4, 5] = [1, 2, 3] := by
  obtain ⟨m, h, h1, h2⟩ := exStore_eq
  rw [h]
  simp only [Mem.vals, List.map_cons, List.map_nil, List.cons.injEq, and_true] at h2
  simp [Ref.Alive, Ref.vec, h1, Mem.vals, h2]

/-! ### C100 -/

/-- **C100** (nothing is written) Whatever a program did before, no call, whether it returns or raises,
changes an array that existed before the call. -/
theorem C100_arrays_unchanged {depth : ℕ} {st : Store} (h : Reached depth st) (c : Call)
    (ok : (Event.call c).Ok st) (r : Ref) (hr : r.Alive st.mem) :
    (c.run depth st).1.mem.read r = st.mem.read r :=
  (call_run c ok h.wf).1.read hr

/-- **C100** (arrays stay) The arrays a program has, and the array a call returns, exist after the call,
so they may be passed on. -/
theorem C100_results_exist {depth : ℕ} {st : Store} (h : Reached depth st) (c : Call)
    (ok : (Event.call c).Ok st) :
    (∀ r : Ref, r.Alive st.mem → r.Alive (c.run depth st).1.mem) ∧
    ∀ r, (c.run depth st).2 = .ok (.arr r) → r.Alive (c.run depth st).1.mem :=
  ⟨fun _ hr => hr.mono (call_run c ok h.wf).1, (call_run c ok h.wf).2.2⟩

example : Reached 3 exStore ∧ (Event.call (.setFree 2 [3, 4, 5])).Ok exStore ∧
    (Ref.vec [3, 4, 5]).Alive exStore.mem := by
  refine ⟨exStore_reached, fun r hr => ?_, exStore_alive.1⟩
  simp only [Call.args, List.mem_singleton] at hr
  rw [hr]
  exact exStore_alive.1

/-! ### C101 -/

/-- **C101** After `set_free(x)`, in-place changes to `x`, or to any other array that existed before, do
not change the parameter or dictionary. -/
theorem C101_set_free_copies {depth : ℕ} {st : Store} (i : ℕ) (x : List ℕ)
    (hx : (Ref.vec x).Alive st.mem) (hok : (st.setFree depth i x).2 = .ok ())
    (ws : List Assign) (hw : ∀ w ∈ ws, w.r.Alive st.mem) (k : ℕ) :
    ((st.setFree depth i x).1.assign ws).tree k i = (st.setFree depth i x).1.tree k i := by
  have hc := visit_change freeVisit_sim.tame depth st i x (alive_vec hx)
  obtain ⟨t, f⟩ := visit_fresh freeVisit_sim.tame freeVisit_fresh st.mem depth st i x () le_rfl (alive_vec hx) hok
  refine assign_tree k i fun j hj l hl w hww a ha haw => ?_
  have hj' : j ∈ st.foot depth i := by
    have hs : st.Skel (st.setFree depth i x).1 := hc.skel
    rw [hs.foot] at hj
    exact foot_subset depth i k t j hj
  have h1 := f j hj' l hl trivial a ha
  have h2 := hw w hww a haw
  omega

/-! ### C102 -/

private theorem fresh_tree {st : Store} (hwf : st.WF) (v : List ℝ) (ws : List Assign)
    (hw : ∀ w ∈ ws, ∀ a ∈ w.r.addr, a ∈ (st.mem.alloc (Arr.vec v)).2.addr) (k j : ℕ) :
    (Store.assign ⟨(st.mem.alloc (Arr.vec v)).1, st.objs⟩ ws).tree k j = st.tree k j := by
  refine (assign_tree k j fun j' _ l hl w hww a ha haw => ?_).trans
    (tree_congr (st := st) (st' := ⟨(st.mem.alloc (Arr.vec v)).1, st.objs⟩) (fun _ => rfl) k j (fun _ _ => rfl) fun j' _ l hl => (Mem.alloc_le _ _).read (hwf j' l hl))
  have h1 := Mem.alloc_new st.mem (Arr.vec v) a (hw w hww a haw)
  have h2 := hwf j' l hl a ha
  omega

/-- **C102** The array that `get_free()` returns shares nothing with any array that existed before, and
in-place changes to it (or to views of it) change no parameter or dictionary of the program. -/
theorem C102_get_free_is_new {depth : ℕ} {st : Store} (h : Reached depth st) (i : ℕ) (y : List ℕ)
    (hy : (st.getFree depth i).2 = .ok y) :
    (∀ r : Ref, r.Alive st.mem → ∀ a ∈ r.addr, a ∉ y) ∧
    ∀ ws : List Assign, (∀ w ∈ ws, ∀ a ∈ w.r.addr, a ∈ y) →
      ∀ k j, ((st.getFree depth i).1.assign ws).tree k j = st.tree k j := by
  obtain ⟨v, -, h1, rfl⟩ := store_getFree_new hy
  rw [h1]
  refine ⟨fun r hr a ha hay => ?_, fun ws hw => fresh_tree h.wf v ws hw⟩
  have h1 := Mem.alloc_new _ _ a hay
  have h2 := hr a ha
  omega

private theorem getVector_dict {depth : ℕ} {st : Store} {i : ℕ} {hd : Hdr} {es : List (String × ℕ)}
    (ho : st.objs[i]? = some (.dict hd es)) {y : List ℕ} (hy : (st.getVector depth i).2 = .ok y) :
    ∃ v, (st.getVector depth i).1 = ⟨(st.mem.alloc (Arr.vec v)).1, st.objs⟩ ∧
      y = (st.mem.alloc (Arr.vec v)).2.addr := by
  unfold Store.getVector at hy ⊢
  cases depth with
  | zero => cases hy
  | succ d =>
    rw [ho] at hy
    simp only [ho] at hy ⊢
    cases hl : st.gather Leaf.getVector (d + 1) i with
    | error e => rw [hl] at hy; cases hy
    | ok v => rw [hl] at hy; cases hy; exact ⟨v, rfl, rfl⟩

/-- **C102** The same for `get_vector()` of a dictionary. -/
theorem C102_dictionary_get_vector_is_new {depth : ℕ} {st : Store} (h : Reached depth st) (i : ℕ)
    (hd : Hdr) (es : List (String × ℕ)) (ho : st.objs[i]? = some (.dict hd es)) (y : List ℕ)
    (hy : (st.getVector depth i).2 = .ok y) :
    (∀ r : Ref, r.Alive st.mem → ∀ a ∈ r.addr, a ∉ y) ∧
    ∀ ws : List Assign, (∀ w ∈ ws, ∀ a ∈ w.r.addr, a ∈ y) →
      ∀ k j, ((st.getVector depth i).1.assign ws).tree k j = st.tree k j := by
  obtain ⟨v, h1, rfl⟩ := getVector_dict ho hy
  rw [h1]
  refine ⟨fun r hr a ha hay => ?_, fun ws hw => fresh_tree h.wf v ws hw⟩
  have h1 := Mem.alloc_new _ _ a hay
  have h2 := hr a ha
  omega

/-! ### C103 -/

/-- An object holding an array shows in-place changes of it. -/
private theorem held_changes {st : Store} {i : ℕ} {l : HLeaf} (ho : st.objs[i]? = some (.leaf l))
    (r : Ref) (hr : r.addr = l.ref.addr) (hne : r.addr ≠ []) (k : ℕ) :
    ∃ w : Assign, w.r = r ∧ (st.assign [w]).tree (k + 1) i ≠ st.tree (k + 1) i := by
  obtain ⟨a, t, ht⟩ : ∃ a t, r.addr = a :: t := by
    cases h : r.addr with
    | nil => exact absurd h hne
    | cons a t => exact ⟨a, t, rfl⟩
  refine ⟨⟨r, 0, st.mem.cell a + 1⟩, rfl, fun hc => ?_⟩
  unfold Store.tree Store.assign at hc
  simp only [ho, List.foldl_cons, List.foldl_nil, HLeaf.view, Mem.read, Mem.vals, Option.some.injEq,
    Param.leaf.injEq, Leaf.mk.injEq, Arr.mk.injEq, true_and, and_true, ← hr, ht, List.map_cons,
    List.cons.injEq] at hc
  have h := hc.1
  unfold Mem.write at h
  simp [ht] at h

/-- **C103** is false: `set(val)` keeps a reference, for parameters of every class: afterwards an in-place
change to `val` changes the parameter. -/
theorem C103_set_counterexample {st : Store} (i : ℕ) (r : Ref) (hne : r.addr ≠ [])
    (hok : (st.set i r).2 = .ok ()) (k : ℕ) :
    ∃ w : Assign, w.r = r ∧ ((st.set i r).1.assign [w]).tree (k + 1) i ≠ (st.set i r).1.tree (k + 1) i := by
  unfold Store.set at hok ⊢
  cases ho : st.objs[i]? with
  | none => rw [ho] at hok; cases hok
  | some o =>
    rw [ho] at hok
    cases o with
    | dict hd es => cases hok
    | leaf l =>
      simp only at hok ⊢
      cases hl : l.set st.mem r with
      | error e => rw [hl] at hok; cases hok
      | ok l' =>
        have hlt : i < st.objs.length := by
          by_contra hc
          rw [List.getElem?_eq_none (by omega)] at ho
          cases ho
        exact held_changes (l := l') (List.getElem?_set_self hlt) r (by rw [(hleaf_set_ref hl).1]) hne k

/-- **C103** is false for `set_vector` of scalars, vectors, arrays, simplexes and subspace vectors too. -/
theorem C103_set_vector_counterexample {depth : ℕ} {st : Store} (i : ℕ) (l : HLeaf)
    (ho : st.objs[i]? = some (.leaf l)) (hl : ¬ l.kind.IsMatrix) (x : List ℕ) (hne : x ≠ [])
    (hok : (st.setVector depth i x).2 = .ok ()) (k : ℕ) :
    ∃ w : Assign, w.r = Ref.vec x ∧
      ((st.setVector depth i x).1.assign [w]).tree (k + 1) i ≠ (st.setVector depth i x).1.tree (k + 1) i := by
  unfold Store.setVector at hok ⊢
  cases depth with
  | zero => cases hok
  | succ d =>
    unfold Store.visit at hok ⊢
    simp only [ho] at hok ⊢
    cases hs : Store.vecVisit.leaf st.mem l x with
    | error e => rw [hs] at hok; cases hok
    | ok r =>
      have hlt : i < st.objs.length := by
        by_contra hc
        rw [List.getElem?_eq_none (by omega)] at ho
        cases ho
      have hr : r.2.1.ref.addr = x := by
        unfold Store.vecVisit at hs
        simp only at hs
        rw [setVector_view _ _ _ hl] at hs
        cases hv : (l.view st.mem).setVector (st.mem.vals x) with
        | error e => rw [hv] at hs; cases hs
        | ok v => rw [hv] at hs; cases hs; rfl
      exact held_changes (l := r.2.1) (List.getElem?_set_self hlt) (Ref.vec x) hr.symm hne k

/-- **C103**, the part that holds: `set_vector(x)` of positive definite matrices, and of dictionaries of
such, however nested, copies.  Missing: the other classes and `set`, for which the counterexamples show
the opposite. -/
theorem C103_matrix_set_vector_copies_partial {depth : ℕ} {st : Store} (i : ℕ) (x : List ℕ)
    (hm : ∀ j ∈ st.foot depth i, ∀ l, st.objs[j]? = some (.leaf l) → l.kind.IsMatrix)
    (hx : (Ref.vec x).Alive st.mem) (hok : (st.setVector depth i x).2 = .ok ())
    (ws : List Assign) (hw : ∀ w ∈ ws, w.r.Alive st.mem) (k : ℕ) :
    ((st.setVector depth i x).1.assign ws).tree k i = (st.setVector depth i x).1.tree k i := by
  have hc := visit_change vecVisit_sim.tame depth st i x (alive_vec hx)
  obtain ⟨t, f⟩ := visit_fresh vecVisit_sim.tame vecVisit_fresh st.mem depth st i x () le_rfl (alive_vec hx) hok
  refine assign_tree k i fun j hj l hl w hww a ha haw => ?_
  have hs : st.Skel (st.setVector depth i x).1 := hc.skel
  have hj' : j ∈ st.foot depth i := by
    rw [hs.foot] at hj
    exact foot_subset depth i k t j hj
  have hk : l.kind.IsMatrix := by
    cases e : st.objs[j]? with
    | none => rw [hs.none e] at hl; cases hl
    | some o =>
      cases o with
      | dict hd es => rw [hs.dict e] at hl; cases hl
      | leaf l0 =>
        obtain ⟨l', e', -, h⟩ := hs.leaf e
        rw [e'] at hl
        cases hl
        rw [h]
        exact hm j hj' l0 e
  have h1 := f j hj' l hl hk a ha
  have h2 := hw w hww a haw
  omega

/-! ### C104 -/

/-- **C104** is false: `get()` returns the array the parameter holds, for every class: an in-place change
to the result changes the parameter. -/
theorem C104_get_counterexample {st : Store} (i : ℕ) (r : Ref) (h : st.get i = .ok r) (hne : r.addr ≠ [])
    (k : ℕ) : ∃ w : Assign, w.r = r ∧ (st.assign [w]).tree (k + 1) i ≠ st.tree (k + 1) i := by
  unfold Store.get at h
  cases ho : st.objs[i]? with
  | none => rw [ho] at h; cases h
  | some o =>
    rw [ho] at h
    cases o with
    | dict hd es => cases h
    | leaf l => cases h; exact held_changes ho _ rfl hne k

/-- The classes whose `get_vector()` returns the held array. -/
def Kind.SharesVector : Kind → Prop
  | .scalar _ _ => True
  | .vector _ _ _ => True
  | .subspace _ _ _ => True
  | _ => False

/-- **C104** is false for `get_vector()` of scalars, vectors and subspace vectors as well. -/
theorem C104_get_vector_counterexample {depth : ℕ} {st : Store} (i : ℕ) (l : HLeaf)
    (ho : st.objs[i]? = some (.leaf l)) (hl : l.kind.SharesVector) (y : List ℕ)
    (hy : (st.getVector depth i).2 = .ok y) (hne : y ≠ []) (k : ℕ) :
    ∃ w : Assign, w.r = Ref.vec y ∧
      ((st.getVector depth i).1.assign [w]).tree (k + 1) i ≠ (st.getVector depth i).1.tree (k + 1) i := by
  have hs : (st.getVector depth i).1 = st ∧ y = l.ref.addr := by
    unfold Store.getVector at hy ⊢
    cases depth with
    | zero => cases hy
    | succ d =>
      rw [ho] at hy
      simp only [ho] at hy ⊢
      cases hv : l.getVector st.mem with
      | error e => rw [hv] at hy; cases hy
      | ok r =>
        rw [hv] at hy
        cases hy
        unfold HLeaf.getVector at hv
        obtain ⟨v, -, hv⟩ := py_bind_ok hv
        cases hk : l.kind <;> rw [hk] at hv hl <;> first | exact hl.elim | skip
        all_goals cases hv; exact ⟨rfl, rfl⟩
  rw [hs.1]
  exact held_changes ho _ hs.2 hne k

/-- **C104**, the part that holds: the array that `get_vector()` of arrays, simplexes and matrices returns
is a new one.  Missing: the other classes and `get()`, for which the counterexamples show the opposite. -/
theorem C104_get_vector_is_new_partial {depth : ℕ} {st : Store} (h : Reached depth st) (i : ℕ) (l : HLeaf)
    (ho : st.objs[i]? = some (.leaf l)) (hl : ¬ l.kind.SharesVector) (y : List ℕ)
    (hy : (st.getVector depth i).2 = .ok y) :
    (∀ r : Ref, r.Alive st.mem → ∀ a ∈ r.addr, a ∉ y) ∧
    ∀ ws : List Assign, (∀ w ∈ ws, ∀ a ∈ w.r.addr, a ∈ y) →
      ∀ k j, ((st.getVector depth i).1.assign ws).tree k j = st.tree k j := by
  obtain ⟨v, h1, rfl⟩ : ∃ v, (st.getVector depth i).1 = ⟨(st.mem.alloc (Arr.vec v)).1, st.objs⟩ ∧
      y = (st.mem.alloc (Arr.vec v)).2.addr := by
    unfold Store.getVector at hy ⊢
    cases depth with
    | zero => cases hy
    | succ d =>
      rw [ho] at hy
      simp only [ho] at hy ⊢
      cases hv : l.getVector st.mem with
      | error e => rw [hv] at hy; cases hy
      | ok r =>
        rw [hv] at hy
        cases hy
        unfold HLeaf.getVector at hv
        obtain ⟨v, -, hv⟩ := py_bind_ok hv
        cases hk : l.kind <;> rw [hk] at hv hl <;> first | exact absurd trivial hl | skip
        all_goals cases hv; exact ⟨v, rfl, rfl⟩
  rw [h1]
  refine ⟨fun r hr a ha hay => ?_, fun ws hw => fresh_tree h.wf v ws hw⟩
  have h1 := Mem.alloc_new _ _ a hay
  have h2 := hr a ha
  omega

/-! ### C105 -/

/-- **C105** (`set_free`) -/
theorem C105_set_free {depth : ℕ} {st : Store} (h : Reached depth st) (i : ℕ) (p : Param)
    (hp : st.tree depth i = some p) (hn : (st.foot depth i).Nodup) (x : List ℕ)
    (hx : (Ref.vec x).Alive st.mem) :
    (st.setFree depth i x).1.tree depth i = some (p.setFree (st.mem.vals x)).1 ∧
      outcome (st.setFree depth i x).2 = (p.setFree (st.mem.vals x)).2 := by
  obtain ⟨h1, h2⟩ := visit_refine free_pair depth st i x p h.wf (alive_vec hx) hp hn
  rw [setFree_visit]
  exact ⟨h1, congrArg outcome h2⟩

/-- **C105** (`set_vector`) -/
theorem C105_set_vector {depth : ℕ} {st : Store} (h : Reached depth st) (i : ℕ) (p : Param)
    (hp : st.tree depth i = some p) (hn : (st.foot depth i).Nodup) (x : List ℕ)
    (hx : (Ref.vec x).Alive st.mem) :
    (st.setVector depth i x).1.tree depth i = some (p.setVector (st.mem.vals x)).1 ∧
      outcome (st.setVector depth i x).2 = (p.setVector (st.mem.vals x)).2 := by
  obtain ⟨h1, h2⟩ := visit_refine vec_pair depth st i x p h.wf (alive_vec hx) hp hn
  rw [setVector_visit]
  exact ⟨h1, congrArg outcome h2⟩

/-- **C105** (`free_to_vector_jac`) -/
theorem C105_jac {depth : ℕ} {st : Store} (h : Reached depth st) (i : ℕ) (p : Param)
    (hp : st.tree depth i = some p) (hn : (st.foot depth i).Nodup) (x : List ℕ)
    (hx : (Ref.vec x).Alive st.mem) :
    (st.jac depth i x).1.tree depth i = some (p.jac (st.mem.vals x)).1 ∧
      (st.jac depth i x).2 = (p.jac (st.mem.vals x)).2 := by
  rw [jac_visit]
  exact visit_refine jac_pair depth st i x p h.wf (alive_vec hx) hp hn

/-- **C105** (`free_to_vector_hess`) -/
theorem C105_hess {depth : ℕ} {st : Store} (h : Reached depth st) (i : ℕ) (p : Param)
    (hp : st.tree depth i = some p) (hn : (st.foot depth i).Nodup) (x : List ℕ)
    (hx : (Ref.vec x).Alive st.mem) :
    (st.hess depth i x).1.tree depth i = some (p.hess (st.mem.vals x)).1 ∧
      (st.hess depth i x).2 = (p.hess (st.mem.vals x)).2 := by
  rw [hess_visit]
  exact visit_refine hess_pair depth st i x p h.wf (alive_vec hx) hp hn

/-- **C105** (reading) `get_free()` and `get_vector()` return arrays with the values the value model says;
here objects may occur several times. -/
theorem C105_read {depth : ℕ} {st : Store} (h : Reached depth st) (i : ℕ) (p : Param)
    (hp : st.tree depth i = some p) :
    (st.getFree depth i).1.mem.vals <$> (st.getFree depth i).2 = p.getFree ∧
    (st.getVector depth i).1.mem.vals <$> (st.getVector depth i).2 = p.getVector := by
  constructor
  · rw [← gather_free hp]
    cases hg : (st.getFree depth i).2 with
    | error e => rw [(store_getFree_error hg).1]; rfl
    | ok y =>
      obtain ⟨v, h1, h2, rfl⟩ := store_getFree_new hg
      rw [h1, h2]
      exact congrArg Except.ok (Mem.alloc_vals _ _)
  · rw [← gather_vector hp]
    rcases store_getVector (depth := depth) (i := i) h.wf with ⟨y, v, h1, h2, -, -, h5, -⟩ | ⟨e, h1, h2, -⟩
    · rw [h1, h2]
      exact congrArg Except.ok h5
    · rw [h1, h2]
      rfl

/-- **C105** (`free_to_vector`) -/
theorem C105_free_to_vector {depth : ℕ} {st : Store} (h : Reached depth st) (i : ℕ) (p : Param)
    (hp : st.tree depth i = some p) (hn : (st.foot depth i).Nodup) (x : List ℕ)
    (hx : (Ref.vec x).Alive st.mem) :
    (st.freeToVector depth i x).1.tree depth i = some (p.freeToVector (st.mem.vals x)).1 ∧
      (st.freeToVector depth i x).1.mem.vals <$> (st.freeToVector depth i x).2 =
        (p.freeToVector (st.mem.vals x)).2 := by
  obtain ⟨h1, h2⟩ := C105_set_free h i p hp hn x hx
  have hc := visit_change freeVisit_sim.tame depth st i x (alive_vec hx)
  have hwf : Store.WF (st.setFree depth i x).1 := hc.wf h.wf
  have hskel : st.Skel (st.setFree depth i x).1 := hc.skel
  unfold Store.freeToVector
  simp only
  generalize st.setFree depth i x = s at *
  obtain ⟨s, o⟩ := s
  simp only at h1 h2 hwf hskel ⊢
  -- reading after `set_free`
  have read : ∀ q, s.tree depth i = some q →
      (s.getVector depth i).1.tree depth i = some q ∧
      (s.getVector depth i).1.mem.vals <$> (s.getVector depth i).2 = q.getVector := by
    intro q hq
    rw [← gather_vector hq]
    rcases store_getVector (depth := depth) (i := i) hwf with ⟨y, v, g1, g2, g3, g4, g5, -⟩ | ⟨e, g1, g2, g3⟩
    · refine ⟨?_, by rw [g1, g2]; exact congrArg Except.ok g5⟩
      rw [← hq]
      exact tree_congr (fun j => by rw [g3]) depth i (fun j _ => by rw [g3])
        fun j _ l hl => g4.read (hwf j l hl)
    · rw [g1, g2, g3]
      exact ⟨hq, rfl⟩
  cases depth with
  | zero => cases hp
  | succ d =>
  cases p with
  | dict hd es =>
    have hi : ∃ es', st.objs[i]? = some (.dict hd es') := by
      unfold Store.tree at hp
      cases e : st.objs[i]? with
      | none => rw [e] at hp; cases hp
      | some o =>
        rw [e] at hp
        cases o with
        | leaf l => cases hp
        | dict hd' es' =>
          simp only [Option.map_eq_some_iff] at hp
          obtain ⟨pes, -, hp⟩ := hp
          cases hp
          exact ⟨es', rfl⟩
    obtain ⟨es', hi⟩ := hi
    unfold Param.freeToVector
    simp only
    cases o with
    | error e =>
      have h2 : some e = (Param.setFree (.dict hd es) (st.mem.vals x)).2 := h2
      rw [← h2]
      exact ⟨h1, rfl⟩
    | ok u =>
      have h2 : none = (Param.setFree (.dict hd es) (st.mem.vals x)).2 := h2
      rw [← h2]
      simp only [hskel.dict hi]
      exact read _ h1
  | leaf l =>
    have hi : ∃ hl, st.objs[i]? = some (.leaf hl) ∧ l = hl.view st.mem := by
      unfold Store.tree at hp
      cases e : st.objs[i]? with
      | none => rw [e] at hp; cases hp
      | some o =>
        rw [e] at hp
        cases o with
        | leaf l => cases hp; exact ⟨l, rfl, rfl⟩
        | dict hd' es' =>
          simp only [Option.map_eq_some_iff] at hp
          obtain ⟨pes, -, hp⟩ := hp
          cases hp
    obtain ⟨hl, hi, rfl⟩ := hi
    obtain ⟨l', hi', -, hk⟩ := hskel.leaf hi
    unfold Param.freeToVector
    unfold Param.setFree at h1 h2
    cases hs : (hl.view st.mem).setFree (st.mem.vals x) with
    | error e =>
      rw [hs] at h1 h2
      cases o with
      | ok u => cases h2
      | error e' => cases h2; simp only [hs]; exact ⟨h1, rfl⟩
    | ok v =>
      rw [hs] at h1 h2
      cases o with
      | error e' => cases h2
      | ok u =>
        have hv : l'.view s.mem = v := by
          have h1 := h1
          unfold Store.tree at h1
          simp only [hi', Option.some.injEq, Param.leaf.injEq] at h1
          exact h1
        have hvk : (hl.view st.mem).kind = hl.kind := rfl
        obtain ⟨nm, kd, ref, bx⟩ := l'
        simp only at hk
        subst hk
        simp only [hi']
        have hf : (hl.view st.mem).freeToVector (st.mem.vals x) = (match hl.kind with
            | .scalar _ _ => .ok (v, v.val.data)
            | _ => do .ok (v, ← v.getVector)) := by
          unfold Leaf.freeToVector
          rw [hs, py_ok_bind, hvk]
          cases hl.kind <;> rfl
        simp only [hs, hf]
        cases hkk : hl.kind with
        | scalar lb ub =>
          simp only
          refine ⟨h1, ?_⟩
          rw [← hv]
          rfl
        | _ =>
          simp only
          obtain ⟨r1, r2⟩ := read _ h1
          unfold Param.getVector at r2
          rw [r2]
          cases v.getVector with
          | error e => exact ⟨r1, rfl⟩
          | ok y => exact ⟨r1, rfl⟩

/-- **C105** (no interference) None of the calls changes an object that has no part in common with the
one it is called on. -/
theorem C105_no_interference {depth : ℕ} {st : Store} (h : Reached depth st) (i : ℕ) (x : List ℕ)
    (hx : (Ref.vec x).Alive st.mem) (k j : ℕ) (hj : ∀ a ∈ st.foot k j, a ∉ st.foot depth i) :
    (st.setFree depth i x).1.tree k j = st.tree k j ∧
    (st.setVector depth i x).1.tree k j = st.tree k j ∧
    (st.jac depth i x).1.tree k j = st.tree k j ∧
    (st.hess depth i x).1.tree k j = st.tree k j :=
  ⟨(visit_change freeVisit_sim.tame depth st i x (alive_vec hx)).tree h.wf k j hj,
    (visit_change vecVisit_sim.tame depth st i x (alive_vec hx)).tree h.wf k j hj,
    (visit_change jacVisit_sim.tame depth st i x (alive_vec hx)).tree h.wf k j hj,
    (visit_change hessVisit_sim.tame depth st i x (alive_vec hx)).tree h.wf k j hj⟩

/-! ### C106 -/

/-- **C106**, the part that holds: for dictionaries (and parameters) whose contents are parameters and
dictionaries that all occur once, what `set_free` stored is what `get_free` returns, also in terms of
arrays and objects.  Missing: objects occurring several times, for which the counterexamples show the
opposite. -/
theorem C106_distinct_objects_partial {eigh : Eigh} (he : EighContract eigh) {depth : ℕ} {st : Store}
    (h : Reached depth st) (i : ℕ) (p : Param) (hp : st.tree depth i = some p)
    (hn : (st.foot depth i).Nodup) (hb : Built eigh p) (hpp : p.HasParams) (x : List ℕ)
    (hx : (Ref.vec x).Alive st.mem) (hlen : x.length = p.freeSize) :
    (st.setFree depth i x).2 = .ok () ∧
    ∃ y, ((st.setFree depth i x).1.getFree depth i).2 = .ok y ∧
      ((st.setFree depth i x).1.getFree depth i).1.mem.vals y = st.mem.vals x := by
  obtain ⟨h1, h2⟩ := C105_set_free h i p hp hn x hx
  obtain ⟨d', h3, h4⟩ := C34_free_round_trip he p hb hpp (st.mem.vals x) (by rw [vals_length]; exact hlen)
  have hr : Reached depth (st.setFree depth i x).1 :=
    h.step (.call (.setFree i x)) (by intro r hr; simp only [Call.args, List.mem_singleton] at hr; rw [hr]; exact hx)
  rw [h3] at h1 h2
  have h5 := (C105_read hr i d' h1).1
  rw [h4] at h5
  refine ⟨?_, ?_⟩
  · cases hs : (st.setFree depth i x).2 with
    | ok u => rfl
    | error e => rw [hs] at h2; cases h2
  · cases hs : ((st.setFree depth i x).1.getFree depth i).2 with
    | error e => rw [hs] at h5; cases h5
    | ok y =>
      rw [hs] at h5
      exact ⟨y, rfl, Except.ok.inj h5⟩

/-- A program that pushes the same vector of size 1 twice into a dictionary, renaming it in between. -/
def sharedProgram (u v : ℝ) : List Event :=
  [.call (.newParam (mkVector "a" 1 ninf pinf) none), .call (.newDict "d"), .call (.push 1 0),
    .call (.setName 0 "b"), .call (.push 1 0), .newArray (Arr.vec [u, v])]

private theorem shared_store (depth : ℕ) (u v : ℝ) :
    ∃ m, runEvents depth emptyStore (sharedProgram u v) =
      ⟨m, [.leaf ⟨"b", .vector 1 ninf pinf, ⟨[1], [0]⟩, false⟩,
        .dict ⟨"d", [("a", ⟨0, 1⟩), ("b", ⟨1, 2⟩)], [("a", ⟨0, 1⟩), ("b", ⟨1, 2⟩)], 2, 2⟩ [("a", 0), ("b", 0)]]⟩ ∧
      m.next = 3 ∧ m.cell 1 = u ∧ m.cell 2 = v := by
  have hm : mkVector "a" 1 ninf pinf none = .ok ⟨"a", .vector 1 ninf pinf, Arr.full [1] 0, false⟩ := by
    simp [mkVector, checkBoundsVector, Leaf.set, Arr.full, Arr.size, getInboundsValue, Flt.toReal, py_ok_bind]
  refine ⟨((Mem.alloc ⟨0, fun _ => 0⟩ (Arr.full [1] 0)).1.alloc (Arr.vec [u, v])).1, ?_, ?_⟩
  · simp only [sharedProgram, runEvents, Event.run, Call.run, Store.newParam, hm, emptyStore, Store.newDict,
      Store.push, Store.setName, List.nil_append, List.cons_append, List.getElem?_cons_zero,
      List.getElem?_cons_succ, List.set_cons_zero, List.set_cons_succ, Obj.name, Obj.freeSize, Obj.vecSize,
      Kind.freeSize, Kind.vecSize, Mem.alloc]
    simp [assign, Arr.full, List.range_succ]
  · simp [Mem.alloc, Arr.full, Arr.vec]

private theorem unbounded_set (n : String) (val : Arr) (b : Bool) (u : ℝ) :
    (⟨n, .vector 1 ninf pinf, val, b⟩ : Leaf).setFree [u] = .ok ⟨n, .vector 1 ninf pinf, Arr.vec [u], false⟩ := by
  simp [Leaf.setFree, Leaf.constrainVec, constrainList, constrain, Leaf.set, Arr.size, Arr.vec, py_ok_bind,
    Flt.toReal, pure, Except.pure]

private theorem unbounded_get (n : String) (b : Bool) (u : ℝ) :
    (⟨n, .vector 1 ninf pinf, Arr.vec [u], b⟩ : Leaf).getFree = .ok [u] := by
  simp [Leaf.getFree, Arr.vec, Leaf.unconstrainVec, unconstrainArray, unconstrainList, unconstrain, py_ok_bind, Flt.toReal,
    pure, Except.pure]

/-- **C106** is false: after the same parameter was pushed twice, `set_free([u, v])` succeeds, but
`get_free()` then returns `[v, v]`. -/
theorem C106_shared_counterexample (d : ℕ) (u v : ℝ) :
    Reached (d + 2) (runEvents (d + 2) emptyStore (sharedProgram u v)) ∧
    (runEvents (d + 2) emptyStore (sharedProgram u v)).mem.vals [1, 2] = [u, v] ∧
    ((runEvents (d + 2) emptyStore (sharedProgram u v)).setFree (d + 2) 1 [1, 2]).2 = .ok () ∧
    ∃ y, (((runEvents (d + 2) emptyStore (sharedProgram u v)).setFree (d + 2) 1 [1, 2]).1.getFree (d + 2) 1).2 = .ok y ∧
      (((runEvents (d + 2) emptyStore (sharedProgram u v)).setFree (d + 2) 1 [1, 2]).1.getFree (d + 2) 1).1.mem.vals y =
        [v, v] := by
  have hr : Reached (d + 2) (runEvents (d + 2) emptyStore (sharedProgram u v)) :=
    (emptyStore_reached _).run _ (by simp [sharedProgram, okEvents, Event.Ok, Call.args])
  obtain ⟨m, hs, hn, h1, h2⟩ := shared_store (d + 2) u v
  rw [hs] at hr ⊢
  refine ⟨hr, by simp [Mem.vals, h1, h2], ?_⟩
  -- the two assignments
  have e1 : ∀ (m : Mem) (rest : List Obj) (r : Ref) (a : ℕ),
      Store.visit Store.freeVisit (d + 1) ⟨m, .leaf ⟨"b", .vector 1 ninf pinf, r, false⟩ :: rest⟩ 0 [a] =
        (⟨(m.alloc (Arr.vec [m.cell a])).1,
          .leaf ⟨"b", .vector 1 ninf pinf, (m.alloc (Arr.vec [m.cell a])).2, false⟩ :: rest⟩, .ok ()) := by
    intro m rest r a
    have : HLeaf.setFree m ⟨"b", .vector 1 ninf pinf, r, false⟩ [a] =
        .ok ((m.alloc (Arr.vec [m.cell a])).1,
          ⟨"b", .vector 1 ninf pinf, (m.alloc (Arr.vec [m.cell a])).2, false⟩) := by
      rw [setFree_eq]
      have := unbounded_set "b" (m.read r) false (m.cell a)
      simp only [HLeaf.view, Mem.vals, List.map_cons, List.map_nil]
      rw [this]
      rfl
    simp [Store.visit, Store.freeVisit, this, py_ok_bind]
  have hset : ∃ m' r', Store.setFree (d + 2) ⟨m, [.leaf ⟨"b", .vector 1 ninf pinf, ⟨[1], [0]⟩, false⟩,
        .dict ⟨"d", [("a", ⟨0, 1⟩), ("b", ⟨1, 2⟩)], [("a", ⟨0, 1⟩), ("b", ⟨1, 2⟩)], 2, 2⟩ [("a", 0), ("b", 0)]]⟩
      1 [1, 2] = (⟨m', [.leaf ⟨"b", .vector 1 ninf pinf, r', false⟩,
        .dict ⟨"d", [("a", ⟨0, 1⟩), ("b", ⟨1, 2⟩)], [("a", ⟨0, 1⟩), ("b", ⟨1, 2⟩)], 2, 2⟩ [("a", 0), ("b", 0)]]⟩, .ok ()) ∧
      m'.read r' = Arr.vec [v] := by
    have hc : (m.alloc (Arr.vec [m.cell 1])).1.cell 2 = v := by
      rw [(Mem.alloc_le _ _).2 2 (by omega), h2]
    refine ⟨_, _, ?_, Mem.read_alloc (m.alloc (Arr.vec [m.cell 1])).1 (Arr.vec [v])⟩
    unfold Store.setFree Store.visit
    simp only [List.getElem?_cons_succ, List.getElem?_cons_zero]
    rw [if_neg (by simp [Store.freeVisit])]
    simp only [Store.visitEntries, List.getElem?_cons_zero]
    have hsz : ∀ r, Store.freeVisit.size (.leaf ⟨"b", .vector 1 ninf pinf, r, false⟩) = 1 := fun _ => rfl
    have hp : ∀ h o, Store.freeVisit.part h o () = .ok () := fun _ _ => rfl
    simp only [hsz, Ref.slice, List.drop_zero, List.take_succ_cons, List.take_zero, e1, py_ok_bind, hp,
      List.getElem?_cons_zero, List.drop_succ_cons, hc]
    rfl
  obtain ⟨m', r', hset, hread⟩ := hset
  rw [hset]
  refine ⟨rfl, ?_⟩
  have hg : Store.gather Leaf.getFree (d + 2) ⟨m', [.leaf ⟨"b", .vector 1 ninf pinf, r', false⟩,
        .dict ⟨"d", [("a", ⟨0, 1⟩), ("b", ⟨1, 2⟩)], [("a", ⟨0, 1⟩), ("b", ⟨1, 2⟩)], 2, 2⟩ [("a", 0), ("b", 0)]]⟩ 1 =
      .ok [v, v] := by
    simp [Store.gather, HLeaf.view, hread, unbounded_get, Arr.hstack, py_ok_bind]
  cases hy : (Store.getFree (d + 2) ⟨m', [.leaf ⟨"b", .vector 1 ninf pinf, r', false⟩,
        .dict ⟨"d", [("a", ⟨0, 1⟩), ("b", ⟨1, 2⟩)], [("a", ⟨0, 1⟩), ("b", ⟨1, 2⟩)], 2, 2⟩ [("a", 0), ("b", 0)]]⟩ 1).2 with
  | error e =>
    have := (store_getFree_error hy).1
    rw [hg] at this
    cases this
  | ok y =>
    obtain ⟨w, g1, g2, rfl⟩ := store_getFree_new hy
    rw [hg] at g1
    cases g1
    refine ⟨_, rfl, ?_⟩
    rw [g2]
    exact Mem.alloc_vals _ _

/-- A dictionary pushed into itself. -/
def selfProgram : List Event := [.call (.newDict "d"), .call (.push 0 0)]

/-- **C106** is false for a dictionary that was pushed into itself as well: whatever the recursion limit,
reading and writing raise `RecursionError`. -/
theorem C106_self_counterexample (depth : ℕ) :
    Reached depth (runEvents depth emptyStore selfProgram) ∧
    ((runEvents depth emptyStore selfProgram).getFree depth 0).2 = .error .recursionError ∧
    ((runEvents depth emptyStore selfProgram).setFree depth 0 []).2 = .error .recursionError := by
  have hs : runEvents depth emptyStore selfProgram =
      ⟨⟨0, fun _ => 0⟩, [.dict ⟨"d", [("d", ⟨0, 0⟩)], [("d", ⟨0, 0⟩)], 0, 0⟩ [("d", 0)]]⟩ := by
    simp [selfProgram, runEvents, Event.run, Call.run, emptyStore, Store.newDict, Store.push, Obj.name,
      Obj.freeSize, Obj.vecSize, assign]
  refine ⟨(emptyStore_reached _).run _ (by simp [selfProgram, okEvents, Event.Ok, Call.args]), ?_⟩
  rw [hs]
  generalize (⟨0, fun _ => 0⟩ : Mem) = m
  have hg : ∀ k, Store.gather Leaf.getFree k
      ⟨m, [.dict ⟨"d", [("d", ⟨0, 0⟩)], [("d", ⟨0, 0⟩)], 0, 0⟩ [("d", 0)]]⟩ 0 = .error .recursionError := by
    intro k
    induction k with
    | zero => rfl
    | succ k ih =>
      unfold Store.gather
      simp only [List.getElem?_cons_zero, List.mapM_cons, ih]
      rfl
  have hv : ∀ k, (Store.visit Store.freeVisit k
      ⟨m, [.dict ⟨"d", [("d", ⟨0, 0⟩)], [("d", ⟨0, 0⟩)], 0, 0⟩ [("d", 0)]]⟩ 0 []).2 = .error .recursionError := by
    intro k
    induction k with
    | zero => rfl
    | succ k ih =>
      unfold Store.visit
      simp only [List.getElem?_cons_zero]
      rw [if_neg (by simp [Store.freeVisit])]
      simp only [Store.visitEntries, List.getElem?_cons_zero, Ref.slice, List.drop_nil, List.take_nil, ih]
      rfl
  refine ⟨?_, hv depth⟩
  cases hy : (Store.getFree depth
      ⟨m, [.dict ⟨"d", [("d", ⟨0, 0⟩)], [("d", ⟨0, 0⟩)], 0, 0⟩ [("d", 0)]]⟩ 0).2 with
  | error e => exact congrArg Except.error (Except.error.inj ((store_getFree_error hy).1.symm.trans (hg depth)))
  | ok y =>
    obtain ⟨w, g1, -⟩ := store_getFree_new hy
    rw [hg] at g1
    cases g1

/-! The dictionary of `exStore` meets the hypotheses of C101, C105 and C106, and then those of C102. -/

theorem exStore_setFree : (exStore.setFree 3 2 [3, 4, 5]).2 = .ok () ∧
    ∃ y, ((exStore.setFree 3 2 [3, 4, 5]).1.getFree 3 2).2 = .ok y ∧
      ((exStore.setFree 3 2 [3, 4, 5]).1.getFree 3 2).1.mem.vals y = [1, 2, 3] := by
  obtain ⟨eigh, he⟩ := exists_eigh
  have h := C106_distinct_objects_partial he exStore_reached 2 exDict exStore_tree
    (by rw [exStore_foot]; decide) (exDict_built eigh) exDict_hasParams [3, 4, 5] exStore_alive.1
    (by rw [exDict_freeSize]; rfl)
  rw [exStore_alive.2] at h
  exact h

example : ∃ (st : Store) (i : ℕ) (x : List ℕ) (ws : List Assign), (Ref.vec x).Alive st.mem ∧
    (st.setFree 3 i x).2 = .ok () ∧ (∀ w ∈ ws, w.r.Alive st.mem) ∧ ws ≠ [] :=
  ⟨exStore, 2, [3, 4, 5], [⟨Ref.vec [3, 4, 5], 0, 7⟩], exStore_alive.1, exStore_setFree.1,
    fun w hw => by rw [List.mem_singleton.1 hw]; exact exStore_alive.1, by simp⟩

theorem exStore_setFree_reached : Reached 3 (exStore.setFree 3 2 [3, 4, 5]).1 :=
  exStore_reached.step (.call (.setFree 2 [3, 4, 5])) (by
    intro r hr
    simp only [Call.args, List.mem_singleton] at hr
    rw [hr]
    exact exStore_alive.1)

example : ∃ (st : Store) (i : ℕ) (y : List ℕ), Reached 3 st ∧ (st.getFree 3 i).2 = .ok y ∧
    (st.getFree 3 i).1.mem.vals y = [1, 2, 3] := by
  obtain ⟨y, h1, h2⟩ := exStore_setFree.2
  exact ⟨_, 2, y, exStore_setFree_reached, h1, h2⟩

example : ∃ (st : Store) (i : ℕ) (hd : Hdr) (es : List (String × ℕ)) (y : List ℕ), Reached 3 st ∧
    st.objs[i]? = some (.dict hd es) ∧ (st.getVector 3 i).2 = .ok y := by
  obtain ⟨eigh, he⟩ := exists_eigh
  obtain ⟨m, h, -⟩ := exStore_eq
  obtain ⟨v, hv, -⟩ := (C33_lengths he exDict (exDict_built eigh) exDict_hasParams exDict_proper).1
  have h1 := (C105_read exStore_reached 2 exDict exStore_tree).2
  rw [hv] at h1
  cases hy : (exStore.getVector 3 2).2 with
  | error e => rw [hy] at h1; cases h1
  | ok y => exact ⟨exStore, 2, _, _, y, exStore_reached, by rw [h]; rfl, hy⟩

example : ∃ (st : Store) (i : ℕ) (r : Ref), r.addr ≠ [] ∧ (st.set i r).2 = .ok () := by
  obtain ⟨m, h, -⟩ := exStore_eq
  refine ⟨exStore, 1, ⟨[2], [3, 4]⟩, by simp, ?_⟩
  rw [h]
  simp [Store.set, HLeaf.set, HLeaf.view, Leaf.set, Mem.read, Arr.size, vals_length, py_ok_bind]

example : ∃ (st : Store) (i : ℕ) (l : HLeaf) (x : List ℕ), st.objs[i]? = some (.leaf l) ∧ ¬ l.kind.IsMatrix ∧
    x ≠ [] ∧ (st.setVector 3 i x).2 = .ok () := by
  obtain ⟨m, h, -⟩ := exStore_eq
  refine ⟨exStore, 1, _, [3, 4], by rw [h]; rfl, id, by simp, ?_⟩
  rw [h]
  simp [Store.setVector, Store.visit, Store.vecVisit, HLeaf.setVector, HLeaf.set, HLeaf.view, Leaf.set, Mem.read,
    Arr.size, Ref.vec, vals_length, py_ok_bind]

example : ∃ (st : Store) (i : ℕ) (l : HLeaf) (y : List ℕ), st.objs[i]? = some (.leaf l) ∧ l.kind.SharesVector ∧
    st.get i = .ok l.ref ∧ l.ref.addr ≠ [] ∧ (st.getVector 3 i).2 = .ok y ∧ y ≠ [] := by
  obtain ⟨m, h, -⟩ := exStore_eq
  refine ⟨exStore, 1, ⟨"v", .vector 2 ninf pinf, ⟨[2], [1, 2]⟩, false⟩, [1, 2], by rw [h]; rfl, trivial, by rw [h]; rfl, by simp, ?_, by simp⟩
  rw [h]
  simp [Store.getVector, HLeaf.getVector, HLeaf.view, Leaf.getVector, Mem.read, py_ok_bind]

/-- A positive definite matrix of size 1, `[[5]]`, and an array `[5]`. -/
def exMatrixStore : Store := ⟨⟨2, fun _ => 5⟩, [.leaf ⟨"m", .posdef 1 0, ⟨[1, 1], [0]⟩, false⟩]⟩

example : (∀ j ∈ exMatrixStore.foot 3 0, ∀ l, exMatrixStore.objs[j]? = some (.leaf l) → l.kind.IsMatrix) ∧
    (Ref.vec [1]).Alive exMatrixStore.mem ∧ (exMatrixStore.setVector 3 0 [1]).2 = .ok () := by
  refine ⟨?_, by simp [Ref.Alive, Ref.vec, exMatrixStore], ?_⟩
  · intro j hj l hl
    simp only [exMatrixStore, Store.foot, List.getElem?_cons_zero, List.mem_singleton] at hj
    subst hj
    simp only [exMatrixStore, List.getElem?_cons_zero, Option.some.injEq, Obj.leaf.injEq] at hl
    rw [← hl]
    trivial
  · have h : ∃ l', Leaf.setVector (HLeaf.view ⟨2, fun _ => 5⟩ ⟨"m", .posdef 1 0, ⟨[1, 1], [0]⟩, false⟩) [5] = .ok l' :=
      ⟨_, Leaf.setVector_ok _ (by simp [HLeaf.view, Kind.Legal]) [5] (by simp [HLeaf.view, Leaf.vecSize, Kind.vecSize, vecSizeOf])⟩
    obtain ⟨l', h⟩ := h
    simp only [Store.setVector, Store.visit, exMatrixStore, List.getElem?_cons_zero, Store.vecVisit]
    rw [setVector_new _ ⟨"m", .posdef 1 0, ⟨[1, 1], [0]⟩, false⟩ _ trivial]
    have : Mem.vals ⟨2, fun _ => 5⟩ [1] = [5] := rfl
    rw [this, h]
    rfl

/-- A program with an array parameter of shape `(2, 1)`. -/
def exArrayProgram : List Event := [.call (.newParam (mkArray "x" [2, 1] ninf pinf) none)]

example : ∃ (st : Store) (i : ℕ) (l : HLeaf) (y : List ℕ), Reached 3 st ∧ st.objs[i]? = some (.leaf l) ∧
    ¬ l.kind.SharesVector ∧ (st.getVector 3 i).2 = .ok y ∧ y.length = 2 := by
  have hm : mkArray "x" [2, 1] ninf pinf none = .ok ⟨"x", .array [2, 1] ninf pinf, Arr.full [2, 1] 0, false⟩ := by
    simp [mkArray, checkBoundsVector, Leaf.set, Arr.full, Arr.size, getInboundsValue, Flt.toReal, py_ok_bind]
  have hs : runEvents 3 emptyStore exArrayProgram = ⟨(Mem.alloc ⟨0, fun _ => 0⟩ (Arr.full [2, 1] 0)).1,
      [.leaf ⟨"x", .array [2, 1] ninf pinf, (Mem.alloc ⟨0, fun _ => 0⟩ (Arr.full [2, 1] 0)).2, false⟩]⟩ := by
    simp [exArrayProgram, runEvents, Event.run, Call.run, Store.newParam, hm, emptyStore]
  have hy : ∃ y, (Store.getVector 3 (runEvents 3 emptyStore exArrayProgram) 0).2 = .ok y ∧ y.length = 2 := by
    rw [hs]
    simp only [Store.getVector, List.getElem?_cons_zero, HLeaf.getVector, HLeaf.view, Leaf.getVector, Mem.read_alloc]
    exact ⟨_, rfl, by simp [Mem.alloc, Arr.vec, Arr.full]⟩
  obtain ⟨y, hy, hlen⟩ := hy
  exact ⟨runEvents 3 emptyStore exArrayProgram, 0, _, y, (emptyStore_reached 3).run _ (by
    simp [exArrayProgram, okEvents, Event.Ok, Call.args]), by rw [hs]; rfl, id, hy, hlen⟩

/-! ### C107 -/

/-- The event may change what `d` contains: it pushes into `d`. -/
def Event.PushesInto (d : ℕ) : Event → Prop
  | .call (.push d' _) => d' = d
  | _ => False

private theorem entries_kept {depth : ℕ} {st : Store} {d : ℕ} {h : Hdr} {es : List (String × ℕ)}
    (ho : st.objs[d]? = some (.dict h es)) (e : Event) (hwf : st.WF) (ok : e.Ok st) (hp : ¬ e.PushesInto d) :
    ∃ h', (e.run depth st).objs[d]? = some (.dict h' es) := by
  have hlt : d < st.objs.length := by
    by_contra hc
    rw [List.getElem?_eq_none (by omega)] at ho
    cases ho
  have vis : ∀ {β : Type} {w : Visit β}, w.Tame → ∀ i x, (∀ k ∈ x, k < st.mem.next) →
      (Store.visit w depth st i x).1.objs[d]? = some (.dict h es) :=
    fun hw i x hx => (visit_change hw depth st i x hx).skel.dict ho
  cases e with
  | newArray a => exact ⟨h, ho⟩
  | assign w => exact ⟨h, ho⟩
  | call c =>
    cases c with
    | newParam mk val =>
      refine ⟨h, ?_⟩
      unfold Event.run Call.run Store.newParam
      cases val with
      | none =>
        cases hm : mk none with
        | error e => simp only [hm]; exact ho
        | ok l => simp only [hm]; rw [List.getElem?_append_left hlt]; exact ho
      | some r =>
        cases hm : mk (some (st.mem.read r)) with
        | error e => simp only [hm]; exact ho
        | ok l => simp only [hm]; rw [List.getElem?_append_left hlt]; exact ho
    | newDict name =>
      refine ⟨h, ?_⟩
      unfold Event.run Call.run Store.newDict
      simp only
      rw [List.getElem?_append_left hlt]; exact ho
    | push d' c =>
      refine ⟨h, ?_⟩
      have hne : d' ≠ d := hp
      unfold Event.run Call.run Store.push
      simp only
      split
      · simp only
        rw [List.getElem?_set_ne hne]; exact ho
      · exact ho
      · exact ho
    | setName i n =>
      by_cases hid : i = d
      · subst hid
        refine ⟨{ h with name := n }, ?_⟩
        unfold Event.run Call.run Store.setName
        simp only [ho]
        rw [List.getElem?_set_self hlt]
      · refine ⟨h, ?_⟩
        unfold Event.run Call.run Store.setName
        simp only
        split
        · exact ho
        · simp only; rw [List.getElem?_set_ne hid]; exact ho
        · simp only; rw [List.getElem?_set_ne hid]; exact ho
    | set i r =>
      refine ⟨h, ?_⟩
      unfold Event.run Call.run Store.set
      simp only
      by_cases hid : i = d
      · subst hid
        rw [ho]
        exact ho
      · split
        · exact ho
        · exact ho
        · next l hl =>
          cases hs : l.set st.mem r with
          | error e => exact ho
          | ok l' => simp only; rw [List.getElem?_set_ne hid]; exact ho
    | setFree i x => exact ⟨h, vis freeVisit_sim.tame i x (ok (Ref.vec x) (by simp [Call.args]))⟩
    | setVector i x => exact ⟨h, vis vecVisit_sim.tame i x (ok (Ref.vec x) (by simp [Call.args]))⟩
    | jac i x => exact ⟨h, vis jacVisit_sim.tame i x (ok (Ref.vec x) (by simp [Call.args]))⟩
    | hess i x => exact ⟨h, vis hessVisit_sim.tame i x (ok (Ref.vec x) (by simp [Call.args]))⟩
    | freeToVector i x =>
      refine ⟨h, ?_⟩
      have hx : ∀ k ∈ x, k < st.mem.next := ok (Ref.vec x) (by simp [Call.args])
      have hc := visit_change freeVisit_sim.tame depth st i x hx
      have h1 : (st.setFree depth i x).1.objs[d]? = some (.dict h es) := hc.skel.dict ho
      have hwf' : Store.WF (st.setFree depth i x).1 := hc.wf hwf
      unfold Event.run Call.run Store.freeToVector
      simp only
      generalize st.setFree depth i x = s at *
      obtain ⟨s, o⟩ := s
      cases o with
      | error e => exact h1
      | ok u =>
        simp only at h1 hwf' ⊢
        split
        · exact h1
        · rcases store_getVector (depth := depth) (i := i) hwf' with ⟨y, v, -, -, h3, -⟩ | ⟨e, -, -, h3⟩
          · rw [h3]; exact h1
          · rw [h3]; exact h1
    | get i => exact ⟨h, ho⟩
    | getFree i =>
      refine ⟨h, ?_⟩
      unfold Event.run Call.run
      simp only
      cases hy : (st.getFree depth i).2 with
      | error e => rw [(store_getFree_error hy).2]; exact ho
      | ok y => obtain ⟨v, -, h1, -⟩ := store_getFree_new hy; rw [h1]; exact ho
    | getVector i =>
      refine ⟨h, ?_⟩
      unfold Event.run Call.run
      simp only
      rcases store_getVector (depth := depth) (i := i) hwf with ⟨y, v, -, -, h3, -⟩ | ⟨e, -, -, h3⟩
      · rw [h3]; exact ho
      · rw [h3]; exact ho
    | entry d' key => exact ⟨h, ho⟩

private theorem find_assign (key : String) (c : ℕ) :
    ∀ es : List (String × ℕ), ((assign key c es).find? fun e => e.1 = key) = some (key, c)
  | [] => by simp [assign]
  | (k, w) :: rest => by
    unfold assign
    by_cases hk : k = key
    · rw [if_pos hk]; simp [hk]
    · rw [if_neg hk, List.find?_cons_of_neg (by simpa using hk)]
      exact find_assign key c rest

private theorem find_tree (key : String) {f : ℕ → Option Param} :
    ∀ {es : List (String × ℕ)} {pes : Entries}, treeEntries f es = some pes →
      ∀ e, (es.find? fun e => e.1 = key) = some e → pes.find key = f e.2
  | [], pes, _, e, he => by cases he
  | (k, c) :: rest, pes, h, e, he => by
    obtain ⟨p, pr, h1, h2, rfl⟩ := treeEntries_cons h
    unfold Entries.find
    by_cases hk : k = key
    · rw [if_pos hk]
      rw [List.find?_cons_of_pos (by simpa using hk)] at he
      cases he
      exact h1.symm
    · rw [if_neg hk]
      rw [List.find?_cons_of_neg (by simpa using hk)] at he
      exact find_tree key h2 e he

/-- **C107** A dictionary keeps the object that was pushed, not a copy: whatever the program does
afterwards, apart from pushing into that dictionary again, `d[name]` is that object, and what the
dictionary contains under that name is what the object contains. -/
theorem C107_same_object {depth : ℕ} {st : Store} (hr : Reached depth st) (d c : ℕ) (o : Obj)
    (ho : st.objs[c]? = some o) (hok : (st.push d c).2 = .ok ()) (es : List Event)
    (ok : okEvents depth (st.push d c).1 es) (hp : ∀ e ∈ es, ¬ e.PushesInto d) :
    (runEvents depth (st.push d c).1 es).entry d o.name = .ok c ∧
    ∀ k p, (runEvents depth (st.push d c).1 es).tree (k + 1) d = some p →
      p.find o.name = (runEvents depth (st.push d c).1 es).tree k c := by
  have h0 : ∃ h es', (st.push d c).1.objs[d]? = some (.dict h es') ∧
      (es'.find? fun e => e.1 = o.name) = some (o.name, c) := by
    unfold Store.push at hok ⊢
    cases hd : st.objs[d]? with
    | none => rw [hd] at hok; cases hok
    | some od =>
      rw [hd, ho] at hok
      cases od with
      | leaf l => cases hok
      | dict h es' =>
        simp only [ho]
        have hlt : d < st.objs.length := by
          by_contra hc
          rw [List.getElem?_eq_none (by omega)] at hd
          cases hd
        exact ⟨_, _, List.getElem?_set_self hlt, find_assign _ _ _⟩
  have hr0 : Reached depth (st.push d c).1 := hr.step (.call (.push d c)) (by simp [Event.Ok, Call.args])
  have hfin : ∃ h es', (runEvents depth (st.push d c).1 es).objs[d]? = some (.dict h es') ∧
      (es'.find? fun e => e.1 = o.name) = some (o.name, c) := by
    clear hok ho hr
    generalize (st.push d c).1 = s at *
    induction es generalizing s with
    | nil => exact h0
    | cons e es ih =>
      obtain ⟨h, es', h1, h2⟩ := h0
      obtain ⟨h', h3⟩ := entries_kept (depth := depth) h1 e hr0.wf ok.1 (hp e (by simp))
      exact ih (fun e he => hp e (by simp [he])) _ ok.2 ⟨h', es', h3, h2⟩ (hr0.step e ok.1)
  obtain ⟨h, es', h1, h2⟩ := hfin
  constructor
  · unfold Store.entry
    simp only [h1, h2]
  · intro k p hk
    unfold Store.tree at hk
    simp only [h1, Option.map_eq_some_iff] at hk
    obtain ⟨pes, hpes, rfl⟩ := hk
    exact find_tree o.name hpes _ h2

example : ∃ (st : Store) (d c : ℕ) (o : Obj) (es : List Event), Reached 3 st ∧ st.objs[c]? = some o ∧
    (st.push d c).2 = .ok () ∧ okEvents 3 (st.push d c).1 es ∧ (∀ e ∈ es, ¬ e.PushesInto d) ∧ es ≠ [] := by
  obtain ⟨m, h, h1, -⟩ := exStore_eq
  refine ⟨exStore, 3, 0, .leaf ⟨"a", .scalar (fin 0) pinf, ⟨[], [0]⟩, false⟩, [.call (.setFree 0 [3])],
    exStore_reached, by rw [h]; rfl, by rw [h]; rfl, ?_, ?_, by simp⟩
  · refine ⟨fun r hr => ?_, trivial⟩
    simp only [Call.args, List.mem_singleton] at hr
    rw [hr, h]
    simp [Ref.Alive, Ref.vec, Store.push, h1]
  · simp [Event.PushesInto]

end

end LRVB
