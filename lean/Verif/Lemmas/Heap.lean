import Verif.Spec.Heap
import Verif.Lemmas.Leaf

/-!
# Memory lemmas
-/

namespace LRVB

open Classical

noncomputable section

/-! ### Memory -/

/-- Cells in use keep their entries. -/
def Mem.Le (m m' : Mem) : Prop := m.next ≤ m'.next ∧ ∀ k < m.next, m'.cell k = m.cell k

theorem Mem.Le.refl (m : Mem) : m.Le m := ⟨le_rfl, fun _ _ => rfl⟩

theorem Mem.Le.trans {a b c : Mem} (h : a.Le b) (h' : b.Le c) : a.Le c :=
  ⟨h.1.trans h'.1, fun k hk => (h'.2 k (lt_of_lt_of_le hk h.1)).trans (h.2 k hk)⟩

theorem Ref.Alive.mono {r : Ref} {m m' : Mem} (h : r.Alive m) (hm : m.Le m') : r.Alive m' :=
  fun k hk => lt_of_lt_of_le (h k hk) hm.1

theorem Mem.Le.vals {m m' : Mem} (hm : m.Le m') {x : List ℕ} (hx : ∀ k ∈ x, k < m.next) :
    m'.vals x = m.vals x := List.map_congr_left fun k hk => hm.2 k (hx k hk)

theorem Mem.Le.read {m m' : Mem} (hm : m.Le m') {r : Ref} (hr : r.Alive m) : m'.read r = m.read r := by
  unfold Mem.read
  rw [hm.vals hr]

theorem Mem.alloc_le (m : Mem) (a : Arr) : m.Le (m.alloc a).1 :=
  ⟨Nat.le_add_right _ _, fun k hk => if_pos hk⟩

theorem Mem.alloc_vals (m : Mem) (a : Arr) : (m.alloc a).1.vals (m.alloc a).2.addr = a.data := by
  unfold Mem.vals Mem.alloc
  simp only [List.map_map]
  apply List.ext_getElem (by simp)
  intro i h1 h2
  simp [h2]

theorem Mem.read_alloc (m : Mem) (a : Arr) : (m.alloc a).1.read (m.alloc a).2 = a := by
  unfold Mem.read
  rw [m.alloc_vals]
  rfl

theorem Mem.alloc_alive (m : Mem) (a : Arr) : (m.alloc a).2.Alive (m.alloc a).1 := by
  intro k hk
  simp only [Mem.alloc, List.mem_map, List.mem_range] at hk ⊢
  obtain ⟨i, hi, rfl⟩ := hk
  omega

/-- All cells of the array are new. -/
def Ref.New (r : Ref) (m : Mem) : Prop := ∀ k ∈ r.addr, m.next ≤ k

theorem Mem.alloc_new (m : Mem) (a : Arr) : (m.alloc a).2.New m := by
  intro k hk
  simp only [Mem.alloc, List.mem_map] at hk
  obtain ⟨i, -, rfl⟩ := hk
  omega

theorem vals_slice (m : Mem) (x : List ℕ) (off size : ℕ) :
    m.vals (Ref.slice x off size) = Leaf.slice (m.vals x) off size := by
  simp [Mem.vals, Ref.slice, Leaf.slice, List.map_take, List.map_drop]

theorem mem_slice {x : List ℕ} {off size k : ℕ} (h : k ∈ Ref.slice x off size) : k ∈ x :=
  List.mem_of_mem_drop (List.mem_of_mem_take h)

theorem vals_length (m : Mem) (x : List ℕ) : (m.vals x).length = x.length := by simp [Mem.vals]

theorem read_vec (m : Mem) (x : List ℕ) : m.read (Ref.vec x) = Arr.vec (m.vals x) := by
  simp [Mem.read, Ref.vec, Arr.vec, vals_length]

/-! ### Parameters -/

theorem leaf_set_eq {l l' : Leaf} {v : Arr} (h : l.set v = .ok l') :
    l' = { l with val := v, boxed := false } := by
  unfold Leaf.set at h
  split at h
  · cases h; rfl
  · split at h <;> cases h; rfl
  · split at h <;> cases h; rfl
  · split at h
    · split at h
      · cases h
      · split at h <;> cases h; rfl
    · cases h
  · cases hd : Leaf.allDiffer v.shape _ with
    | error e => rw [hd] at h; cases h
    | ok b => rw [hd] at h; cases b <;> cases h; rfl
  · cases hd : Leaf.allDiffer v.shape _ with
    | error e => rw [hd] at h; cases h
    | ok b => rw [hd] at h; cases b <;> cases h; rfl
  · split at h <;> cases h; rfl
  · split at h <;> cases h; rfl

/-- `set` depends only on the class and the constructor arguments. -/
theorem leaf_set_congr (l : Leaf) (val : Arr) (b : Bool) (v : Arr) :
    ({ l with val := val, boxed := b } : Leaf).set v = l.set v := by
  unfold Leaf.set
  rfl

/-- What the caller sees of a call that stores a new array. -/
def storeNew (m : Mem) (l : HLeaf) (r : Py Leaf) : Py (Mem × HLeaf) :=
  match r with
  | .error e => .error e
  | .ok l' => .ok ((m.alloc l'.val).1, ⟨l.name, l.kind, (m.alloc l'.val).2, false⟩)

theorem setNew_eq (m : Mem) (l : HLeaf) (a : Arr) :
    l.setNew m a = storeNew m l ((l.view m).set a) := by
  unfold HLeaf.setNew HLeaf.set
  rw [Mem.read_alloc]
  have e : (l.view (m.alloc a).1).set a = (l.view m).set a := rfl
  rw [e]
  cases h : (l.view m).set a with
  | error e => rfl
  | ok l' =>
    rw [leaf_set_eq h]
    rfl

theorem holdNew_eq (m : Mem) (l : HLeaf) (a : Arr) :
    (.ok (l.holdNew m a) : Py (Mem × HLeaf)) =
      storeNew m l (.ok { l.view m with val := a, boxed := false }) := rfl

theorem storeNew_bind {α : Type} (m : Mem) (l : HLeaf) (a : Py α) (f : α → Py Leaf) :
    storeNew m l (a >>= f) = a >>= fun v => storeNew m l (f v) := by
  cases a <;> rfl

/-- `set_free` computes the value of the value model and stores it in a new array. -/
theorem setFree_eq (m : Mem) (l : HLeaf) (x : List ℕ) :
    l.setFree m x = storeNew m l ((l.view m).setFree (m.vals x)) := by
  unfold HLeaf.setFree Leaf.setFree
  have hk : (l.view m).kind = l.kind := rfl
  rw [hk]
  cases h : l.kind with
  | scalar lb ub =>
    simp only [storeNew_bind]
    exact bind_congr fun v => setNew_eq m l _
  | vector n lb ub =>
    simp only [vals_length]
    split_ifs
    · rfl
    · simp only [storeNew_bind]
      exact bind_congr fun v => setNew_eq m l _
  | array s lb ub =>
    simp only [vals_length]
    split_ifs
    · rfl
    · simp only [storeNew_bind]
      refine bind_congr fun v => ?_
      unfold Ref.reshape Arr.reshape
      have e : (m.alloc (Arr.vec v)).2.addr.length = (Arr.vec v).data.length := by simp [Mem.alloc]
      rw [e]
      split_ifs
      · simp only [py_ok_bind]
        exact setNew_eq m l ⟨s, v⟩
      · rfl
  | posdef n d =>
    simp only [vals_length]
    split_ifs
    · rfl
    · simp only [storeNew_bind]
      exact bind_congr fun v => setNew_eq m l _
  | posdefVec len n d =>
    simp only [vals_length, vals_slice]
    split_ifs
    · rfl
    · simp only [storeNew_bind]
      exact bind_congr fun v => rfl
  | posdefArr s n d =>
    simp only [vals_length, vals_slice]
    split_ifs
    · rfl
    · simp only [storeNew_bind]
      exact bind_congr fun v => bind_congr fun w => rfl
  | simplex r c =>
    simp only [vals_length]
    split_ifs
    · rfl
    · simp only [storeNew_bind]
      exact bind_congr fun v => setNew_eq m l _
  | subspace dim free basis =>
    simp only [vals_length]
    split_ifs
    · rfl
    · exact setNew_eq m l _

/-- What the caller sees of a call that stores a view of its argument. -/
def storeView (m : Mem) (l : HLeaf) (x : List ℕ) (r : Py Leaf) : Py (Mem × HLeaf) :=
  match r with
  | .error e => .error e
  | .ok l' => .ok (m, ⟨l.name, l.kind, ⟨l'.val.shape, x⟩, false⟩)

theorem storeView_bind {α : Type} (m : Mem) (l : HLeaf) (x : List ℕ) (a : Py α) (f : α → Py Leaf) :
    storeView m l x (a >>= f) = a >>= fun v => storeView m l x (f v) := by
  cases a <;> rfl

theorem set_view_eq (m : Mem) (l : HLeaf) (x : List ℕ) (s : List ℕ) :
    (do .ok (m, ← l.set m ⟨s, x⟩) : Py (Mem × HLeaf)) =
      storeView m l x ((l.view m).set ⟨s, m.vals x⟩) := by
  unfold HLeaf.set
  have e : m.read ⟨s, x⟩ = ⟨s, m.vals x⟩ := rfl
  rw [e]
  cases h : (l.view m).set ⟨s, m.vals x⟩ with
  | error e => rfl
  | ok l' =>
    rw [leaf_set_eq h]
    rfl

/-- `set_vector` of a matrix parameter stores a new array. -/
theorem setVector_new (m : Mem) (l : HLeaf) (x : List ℕ) (hl : l.kind.IsMatrix) :
    l.setVector m x = storeNew m l ((l.view m).setVector (m.vals x)) := by
  unfold HLeaf.setVector Leaf.setVector
  have hk : (l.view m).kind = l.kind := rfl
  rw [hk]
  cases h : l.kind with
  | posdef n d =>
    simp only [vals_length]
    split_ifs
    · rfl
    · simp only [storeNew_bind]
      exact bind_congr fun v => setNew_eq m l _
  | posdefVec len n d =>
    simp only [vals_length, vals_slice]
    split_ifs
    · rfl
    · simp only [storeNew_bind]
      exact bind_congr fun v => rfl
  | posdefArr s n d =>
    simp only [vals_length, vals_slice]
    split_ifs
    · rfl
    · simp only [storeNew_bind]
      exact bind_congr fun v => bind_congr fun w => rfl
  | _ => rw [h] at hl; exact absurd hl (by simp [Kind.IsMatrix])

/-- `set_vector` of the other parameters stores a view of the argument. -/
theorem setVector_view (m : Mem) (l : HLeaf) (x : List ℕ) (hl : ¬ l.kind.IsMatrix) :
    l.setVector m x = storeView m l x ((l.view m).setVector (m.vals x)) := by
  unfold HLeaf.setVector Leaf.setVector
  have hk : (l.view m).kind = l.kind := rfl
  have hv : Arr.vec (m.vals x) = ⟨[x.length], m.vals x⟩ := by rw [Arr.vec, vals_length]
  rw [hk]
  cases h : l.kind with
  | scalar lb ub => simp only [hv]; exact set_view_eq m l x _
  | vector n lb ub => simp only [hv]; exact set_view_eq m l x _
  | subspace dim free basis => simp only [hv]; exact set_view_eq m l x _
  | array s lb ub =>
    simp only [vals_length]
    split_ifs with hn
    · rfl
    · push Not at hn
      rw [Ref.reshape, Arr.reshape, if_pos (by simpa [Ref.vec] using hn),
        if_pos (by simpa [Arr.vec, vals_length] using hn)]
      simp only [py_ok_bind]
      exact set_view_eq m l x s
  | simplex r c =>
    simp only [vals_length]
    split_ifs with hn
    · rfl
    · push Not at hn
      rw [Ref.reshape, Arr.reshape, if_pos (by simpa [Ref.vec] using hn),
        if_pos (by simpa [Arr.vec, vals_length] using hn)]
      simp only [py_ok_bind]
      exact set_view_eq m l x [r, c]
  | posdef n d => rw [h] at hl; simp [Kind.IsMatrix] at hl
  | posdefVec len n d => rw [h] at hl; simp [Kind.IsMatrix] at hl
  | posdefArr s n d => rw [h] at hl; simp [Kind.IsMatrix] at hl

end

end LRVB
