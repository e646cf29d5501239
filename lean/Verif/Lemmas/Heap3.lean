import Verif.Lemmas.Heap2

/-!
# The memory model refines the value model
-/

namespace LRVB

open Classical

noncomputable section

/-- The result of a call on a parameter agrees with the result on its value. -/
def SimRes {β : Type} (m : Mem) (l : HLeaf) (x : List ℕ) (a : Py (Mem × HLeaf × β)) (b : Py (Leaf × β)) :
    Prop :=
  match a, b with
  | .error e, .error e' => e = e'
  | .ok r, .ok r' => r.2.2 = r'.2 ∧ r.2.1.view r.1 = r'.1 ∧ m.Le r.1 ∧ r.2.1.name = l.name ∧
      r.2.1.kind = l.kind ∧ (l.ref.Alive m → (∀ k ∈ x, k < m.next) → r.2.1.ref.Alive r.1)
  | _, _ => False

/-- The call on a single parameter does what `f` does to its value. -/
def Visit.Sim {β : Type} (w : Visit β) (f : Leaf → List ℝ → Py (Leaf × β)) : Prop :=
  ∀ (m : Mem) (l : HLeaf) (x : List ℕ), SimRes m l x (w.leaf m l x) (f (l.view m) (m.vals x))

theorem Visit.Sim.tame {β : Type} {w : Visit β} {f : Leaf → List ℝ → Py (Leaf × β)} (h : w.Sim f) :
    w.Tame := by
  intro m l x m' l' b hl
  have := h m l x
  rw [hl] at this
  cases hf : f (l.view m) (m.vals x) with
  | error e => rw [hf] at this; exact this.elim
  | ok r => rw [hf] at this; exact this.2.2

/-- The call on a single parameter of certain classes stores a new array. -/
def Visit.Fresh {β : Type} (w : Visit β) (P : Kind → Prop) : Prop :=
  ∀ m l x m' l' b, w.leaf m l x = .ok (m', l', b) → P l'.kind → l'.ref.New m

theorem storeNew_ok {m m' : Mem} {l l' : HLeaf} {r : Py Leaf} (h : storeNew m l r = .ok (m', l')) :
    ∃ v, r = .ok v ∧ m' = (m.alloc v.val).1 ∧ l' = ⟨l.name, l.kind, (m.alloc v.val).2, false⟩ := by
  cases r with
  | error e => cases h
  | ok v =>
    cases h
    exact ⟨v, rfl, rfl, rfl⟩

theorem sim_new {m : Mem} {l : HLeaf} {x : List ℕ} {g : Py Leaf}
    (hg : ∀ v, g = .ok v → v.kind = l.kind ∧ v.name = l.name ∧ v.boxed = false) :
    SimRes m l x (do let r ← storeNew m l g; .ok (r.1, r.2, ()) : Py (Mem × HLeaf × Unit))
      (do let v ← g; .ok (v, ()) : Py (Leaf × Unit)) := by
  cases g with
  | error e => exact rfl
  | ok v =>
    obtain ⟨h1, h2, h3⟩ := hg v rfl
    refine ⟨rfl, ?_, Mem.alloc_le _ _, rfl, rfl, fun _ _ => Mem.alloc_alive _ _⟩
    obtain ⟨n, k, a, b⟩ := v
    simp only at h1 h2 h3
    subst h1 h2 h3
    change (⟨l.name, l.kind, (m.alloc a).1.read (m.alloc a).2, false⟩ : Leaf) = _
    rw [Mem.read_alloc]

theorem freeVisit_sim :
    Store.freeVisit.Sim (fun l x => do let v ← l.setFree x; .ok (v, ())) := by
  intro m l x
  change SimRes m l x (do let r ← l.setFree m x; .ok (r.1, r.2, ())) _
  rw [setFree_eq]
  exact sim_new (m := m) (l := l) (x := x) fun v hv => Leaf.setFree_kind (l := l.view m) hv

theorem freeVisit_fresh : Store.freeVisit.Fresh fun _ => True := by
  intro m l x m' l' b h _
  unfold Store.freeVisit at h
  simp only at h
  rw [setFree_eq] at h
  obtain ⟨r, hr, h⟩ := py_bind_ok h
  obtain ⟨v, -, h1, h2⟩ := storeNew_ok hr
  cases h
  rw [h2]
  exact Mem.alloc_new _ _

theorem leaf_setVector_data {l l' : Leaf} {x : List ℝ} (hl : ¬ l.kind.IsMatrix)
    (h : l.setVector x = .ok l') : l'.val.data = x := by
  obtain ⟨name, kind, val, boxed⟩ := l
  cases kind <;> simp only [Leaf.setVector] at h
  · rw [Leaf.set_eq h]; simp [Arr.vec]
  · rw [Leaf.set_eq h]; simp [Arr.vec]
  · split_ifs at h
    obtain ⟨b, hb, h⟩ := py_bind_ok h
    rw [Leaf.set_eq h]
    unfold Arr.reshape at hb
    split_ifs at hb
    cases hb; rfl
  · exact absurd trivial hl
  · exact absurd trivial hl
  · exact absurd trivial hl
  · split_ifs at h
    obtain ⟨b, hb, h⟩ := py_bind_ok h
    rw [Leaf.set_eq h]
    unfold Arr.reshape at hb
    split_ifs at hb
    cases hb; rfl
  · rw [Leaf.set_eq h]; simp [Arr.vec]

theorem vecVisit_sim :
    Store.vecVisit.Sim (fun l x => do let v ← l.setVector x; .ok (v, ())) := by
  intro m l x
  change SimRes m l x (do let r ← l.setVector m x; .ok (r.1, r.2, ())) _
  by_cases hl : l.kind.IsMatrix
  · rw [setVector_new m l x hl]
    exact sim_new (m := m) (l := l) (x := x) fun v hv => Leaf.setVector_kind (l := l.view m) hv
  · rw [setVector_view m l x hl]
    change SimRes m l x _ (do let v ← (l.view m).setVector (m.vals x); .ok (v, ()))
    cases hg : (l.view m).setVector (m.vals x) with
    | error e => exact rfl
    | ok v =>
      obtain ⟨h1, h2, h3⟩ := Leaf.setVector_kind hg
      have h4 := leaf_setVector_data (l := l.view m) hl hg
      refine ⟨rfl, ?_, .refl _, rfl, rfl, fun _ hx => hx⟩
      obtain ⟨n, k, ⟨s, d⟩, b⟩ := v
      simp only [HLeaf.view] at h1 h2 h3 h4
      subst h1 h2 h3 h4
      rfl

theorem vecVisit_fresh : Store.vecVisit.Fresh Kind.IsMatrix := by
  intro m l x m' l' b h hk
  have hl := (vecVisit_sim.tame _ _ _ _ _ _ h).2.2.1
  rw [hl] at hk
  unfold Store.vecVisit at h
  simp only at h
  rw [setVector_new m l x hk] at h
  obtain ⟨r, hr, h⟩ := py_bind_ok h
  obtain ⟨v, -, h1, h2⟩ := storeNew_ok hr
  cases h
  rw [h2]
  exact Mem.alloc_new _ _

/-- Scalars and matrices keep the traced value. -/
theorem afterDeriv_sim {β : Type} {m : Mem} {l : HLeaf} {x : List ℕ} {g : Py (Leaf × β)}
    (hg : ∀ p, g = .ok p → (match l.kind with
      | .scalar _ _ => p.1.kind = l.kind ∧ p.1.name = l.name ∧ p.1.boxed = true
      | .posdef _ _ => p.1.kind = l.kind ∧ p.1.name = l.name ∧ p.1.boxed = true
      | _ => p.1 = l.view m)) :
    SimRes m l x (do let r ← g; .ok ((l.afterDeriv m r.1).1, (l.afterDeriv m r.1).2, r.2) : Py (Mem × HLeaf × β))
      g := by
  cases g with
  | error e => exact rfl
  | ok p =>
    have h := hg p rfl
    obtain ⟨⟨n, k, a, b⟩, c⟩ := p
    obtain ⟨ln, lk, lr, lb⟩ := l
    change c = c ∧ (HLeaf.afterDeriv m ⟨ln, lk, lr, lb⟩ ⟨n, k, a, b⟩).2.view
      (HLeaf.afterDeriv m ⟨ln, lk, lr, lb⟩ ⟨n, k, a, b⟩).1 = ⟨n, k, a, b⟩ ∧ _
    refine ⟨rfl, ?_⟩
    dsimp only
    cases lk <;> simp only [HLeaf.afterDeriv] at h ⊢
    case scalar | posdef =>
      obtain ⟨h1, h2, h3⟩ := h
      subst h1 h2 h3
      refine ⟨?_, Mem.alloc_le _ _, trivial, trivial, fun _ _ => Mem.alloc_alive _ _⟩
      simp only [HLeaf.view]
      rw [Mem.read_alloc]
    all_goals exact ⟨h.symm, .refl _, trivial, trivial, fun h _ => h⟩

theorem leaf_jac_held {l : Leaf} {x : List ℝ} {p : Leaf × Coo} (h : l.jac x = .ok p) :
    match l.kind with
      | .scalar _ _ => p.1.kind = l.kind ∧ p.1.name = l.name ∧ p.1.boxed = true
      | .posdef _ _ => p.1.kind = l.kind ∧ p.1.name = l.name ∧ p.1.boxed = true
      | _ => p.1 = l := by
  obtain ⟨name, kind, val, boxed⟩ := l
  cases kind <;> simp only [Leaf.jac] at h ⊢
  · obtain ⟨b, _, h⟩ := py_bind_ok h
    obtain ⟨c, hc, h⟩ := py_bind_ok h
    have h' := Leaf.setFree_kind (Leaf.freeToVector_setFree hc)
    rw [← Except.ok.inj h]
    exact ⟨h'.1, h'.2.1, rfl⟩
  · obtain ⟨b, _, h⟩ := py_bind_ok h
    obtain ⟨c, hc, h⟩ := py_bind_ok h
    rw [← Except.ok.inj h]
  · obtain ⟨b, _, h⟩ := py_bind_ok h
    obtain ⟨c, hc, h⟩ := py_bind_ok h
    rw [← Except.ok.inj h]
  · obtain ⟨b, _, h⟩ := py_bind_ok h
    obtain ⟨c, hc, h⟩ := py_bind_ok h
    have h' := Leaf.setFree_kind (Leaf.freeToVector_setFree hc)
    rw [← Except.ok.inj h]
    exact ⟨h'.1, h'.2.1, rfl⟩
  · obtain ⟨b, _, h⟩ := py_bind_ok h
    obtain ⟨c, hc, h⟩ := py_bind_ok h
    obtain ⟨d, hd, h⟩ := py_bind_ok h
    rw [← Except.ok.inj h]
  · obtain ⟨b, _, h⟩ := py_bind_ok h
    obtain ⟨c, hc, h⟩ := py_bind_ok h
    obtain ⟨d, hd, h⟩ := py_bind_ok h
    rw [← Except.ok.inj h]
  · obtain ⟨b, _, h⟩ := py_bind_ok h
    obtain ⟨c, hc, h⟩ := py_bind_ok h
    obtain ⟨d, hd, h⟩ := py_bind_ok h
    rw [← Except.ok.inj h]
  · rw [← Except.ok.inj h]

theorem leaf_hess_held {l : Leaf} {x : List ℝ} {p : Leaf × List Coo} (h : l.hess x = .ok p) :
    match l.kind with
      | .scalar _ _ => p.1.kind = l.kind ∧ p.1.name = l.name ∧ p.1.boxed = true
      | .posdef _ _ => p.1.kind = l.kind ∧ p.1.name = l.name ∧ p.1.boxed = true
      | _ => p.1 = l := by
  obtain ⟨name, kind, val, boxed⟩ := l
  cases kind <;> simp only [Leaf.hess] at h ⊢
  · obtain ⟨b, _, h⟩ := py_bind_ok h
    obtain ⟨c, hc, h⟩ := py_bind_ok h
    have h' := Leaf.setFree_kind (Leaf.freeToVector_setFree hc)
    rw [← Except.ok.inj h]
    exact ⟨h'.1, h'.2.1, rfl⟩
  · obtain ⟨b, _, h⟩ := py_bind_ok h
    obtain ⟨c, hc, h⟩ := py_bind_ok h
    rw [← Except.ok.inj h]
  · obtain ⟨b, _, h⟩ := py_bind_ok h
    obtain ⟨c, hc, h⟩ := py_bind_ok h
    rw [← Except.ok.inj h]
  · obtain ⟨b, _, h⟩ := py_bind_ok h
    obtain ⟨c, hc, h⟩ := py_bind_ok h
    have h' := Leaf.setFree_kind (Leaf.freeToVector_setFree hc)
    rw [← Except.ok.inj h]
    exact ⟨h'.1, h'.2.1, rfl⟩
  · obtain ⟨b, _, h⟩ := py_bind_ok h
    obtain ⟨c, hc, h⟩ := py_bind_ok h
    rw [← Except.ok.inj h]
  · obtain ⟨b, _, h⟩ := py_bind_ok h
    obtain ⟨c, hc, h⟩ := py_bind_ok h
    rw [← Except.ok.inj h]
  · obtain ⟨b, _, h⟩ := py_bind_ok h
    obtain ⟨c, hc, h⟩ := py_bind_ok h
    rw [← Except.ok.inj h]
  · rw [← Except.ok.inj h]

theorem jacVisit_sim : Store.jacVisit.Sim Leaf.jac := by
  intro m l x
  exact afterDeriv_sim (m := m) (l := l) (x := x) fun p hp => leaf_jac_held (l := l.view m) hp

theorem hessVisit_sim : Store.hessVisit.Sim Leaf.hess := by
  intro m l x
  exact afterDeriv_sim (m := m) (l := l) (x := x) fun p hp => leaf_hess_held (l := l.view m) hp

/-! ### The tree version of a call -/

/-- A call on the value model. -/
structure TVisit (β : Type) where
  size : Param → ℕ
  reject : Hdr → ℕ → Bool
  leaf : Leaf → List ℝ → Py (Leaf × β)
  part : Hdr → ℕ → β → Py β
  join : List β → Py β

mutual
def Param.visit {β : Type} (t : TVisit β) : Param → List ℝ → Param × Py β
  | .leaf l, x => match t.leaf l x with
    | .ok r => (.leaf r.1, .ok r.2)
    | .error e => (.leaf l, .error e)
  | .dict h es, x =>
    if t.reject h x.length then (.dict h es, .error .valueError)
    else let r := Entries.visit t h es x 0; (.dict h r.1, r.2 >>= t.join)
def Entries.visit {β : Type} (t : TVisit β) (h : Hdr) : Entries → List ℝ → ℕ → Entries × Py (List β)
  | .nil, _, _ => (.nil, .ok [])
  | .cons k p rest, x, off =>
    let r := Param.visit t p (Leaf.slice x off (t.size p))
    match r.2 >>= t.part h off with
    | .error e => (.cons k r.1 rest, .error e)
    | .ok b =>
      let s := Entries.visit t h rest x (off + t.size p)
      (.cons k r.1 s.1, (b :: ·) <$> s.2)
end

def freeT : TVisit Unit where
  size := Param.freeSize
  reject h n := decide (n ≠ h.fs)
  leaf l x := do let v ← l.setFree x; .ok (v, ())
  part _ _ _ := .ok ()
  join _ := .ok ()

def vecT : TVisit Unit where
  size := Param.vecSize
  reject h n := decide (n ≠ h.vs)
  leaf l x := do let v ← l.setVector x; .ok (v, ())
  part _ _ _ := .ok ()
  join _ := .ok ()

def jacT : TVisit Coo where
  size := Param.freeSize
  reject _ _ := false
  leaf := Leaf.jac
  part _ _ b := .ok b
  join := Coo.blockDiag

def hessT : TVisit (List Coo) where
  size := Param.freeSize
  reject _ _ := false
  leaf := Leaf.hess
  part h off ms := ms.mapM fun c => c.offset off off h.fs h.fs
  join bs := .ok bs.flatten

mutual
theorem setFree_visit : ∀ (p : Param) (x : List ℝ),
    p.setFree x = ((p.visit freeT x).1, outcome (p.visit freeT x).2)
  | .leaf l, x => by
    unfold Param.setFree Param.visit
    simp only [freeT]
    cases l.setFree x <;> rfl
  | .dict h es, x => by
    unfold Param.setFree Param.visit
    by_cases hx : x.length ≠ h.fs
    · rw [if_pos hx, if_pos (by simpa [freeT] using hx)]
      rfl
    · rw [if_neg hx, if_neg (by simpa [freeT] using hx)]
      simp only
      rw [setFreeEntries_visit h es x 0]
      cases (Entries.visit freeT h es x 0).2 <;> rfl
theorem setFreeEntries_visit (h : Hdr) : ∀ (es : Entries) (x : List ℝ) (off : ℕ),
    Param.setFreeEntries es x off =
      ((es.visit freeT h x off).1, outcome ((es.visit freeT h x off).2 >>= fun _ => .ok ()))
  | .nil, x, off => by simp [Param.setFreeEntries, Entries.visit, outcome, py_ok_bind]
  | .cons k p rest, x, off => by
    unfold Param.setFreeEntries Entries.visit
    simp only
    rw [setFree_visit p]
    have hs : freeT.size = Param.freeSize := rfl
    rw [hs]
    generalize Param.visit freeT p (Leaf.slice x off p.freeSize) = r
    obtain ⟨p', r⟩ := r
    cases r with
    | error e => rfl
    | ok b =>
      simp only [outcome]
      rw [setFreeEntries_visit h rest x (off + p.freeSize)]
      cases (Entries.visit freeT h rest x (off + p.freeSize)).2 <;> rfl
end

mutual
theorem setVector_visit : ∀ (p : Param) (x : List ℝ),
    p.setVector x = ((p.visit vecT x).1, outcome (p.visit vecT x).2)
  | .leaf l, x => by
    unfold Param.setVector Param.visit
    simp only [vecT]
    cases l.setVector x <;> rfl
  | .dict h es, x => by
    unfold Param.setVector Param.visit
    by_cases hx : x.length ≠ h.vs
    · rw [if_pos hx, if_pos (by simpa [vecT] using hx)]
      rfl
    · rw [if_neg hx, if_neg (by simpa [vecT] using hx)]
      simp only
      rw [setVectorEntries_visit h es x 0]
      cases (Entries.visit vecT h es x 0).2 <;> rfl
theorem setVectorEntries_visit (h : Hdr) : ∀ (es : Entries) (x : List ℝ) (off : ℕ),
    Param.setVectorEntries es x off =
      ((es.visit vecT h x off).1, outcome ((es.visit vecT h x off).2 >>= fun _ => .ok ()))
  | .nil, x, off => by simp [Param.setVectorEntries, Entries.visit, outcome, py_ok_bind]
  | .cons k p rest, x, off => by
    unfold Param.setVectorEntries Entries.visit
    simp only
    rw [setVector_visit p]
    have hs : vecT.size = Param.vecSize := rfl
    rw [hs]
    generalize Param.visit vecT p (Leaf.slice x off p.vecSize) = r
    obtain ⟨p', r⟩ := r
    cases r with
    | error e => rfl
    | ok b =>
      simp only [outcome]
      rw [setVectorEntries_visit h rest x (off + p.vecSize)]
      cases (Entries.visit vecT h rest x (off + p.vecSize)).2 <;> rfl
end

mutual
theorem jac_visit : ∀ (p : Param) (x : List ℝ), p.jac x = p.visit jacT x
  | .leaf l, x => by
    unfold Param.jac Param.visit
    simp only [jacT]
    cases l.jac x <;> rfl
  | .dict h es, x => by
    unfold Param.jac Param.visit
    rw [if_neg (by simp [jacT])]
    simp only
    rw [jacEntries_visit h es x 0]
    rfl
theorem jacEntries_visit (h : Hdr) : ∀ (es : Entries) (x : List ℝ) (off : ℕ),
    Param.jacEntries es x off = es.visit jacT h x off
  | .nil, x, off => by simp [Param.jacEntries, Entries.visit]
  | .cons k p rest, x, off => by
    unfold Param.jacEntries Entries.visit
    simp only
    rw [jac_visit p, jacEntries_visit h rest]
    have hs : jacT.size = Param.freeSize := rfl
    rw [hs]
    generalize Param.visit jacT p (Leaf.slice x off p.freeSize) = r
    obtain ⟨p', r⟩ := r
    cases r <;> rfl
end

mutual
theorem hess_visit : ∀ (p : Param) (x : List ℝ), p.hess x = p.visit hessT x
  | .leaf l, x => by
    unfold Param.hess Param.visit
    simp only [hessT]
    cases l.hess x <;> rfl
  | .dict h es, x => by
    unfold Param.hess Param.visit
    rw [if_neg (by simp [hessT])]
    simp only
    rw [hessEntries_visit h es x 0]
    rfl
theorem hessEntries_visit (h : Hdr) : ∀ (es : Entries) (x : List ℝ) (off : ℕ),
    Param.hessEntries h.fs es x off =
      ((es.visit hessT h x off).1, (es.visit hessT h x off).2 >>= fun bs => .ok bs.flatten)
  | .nil, x, off => by simp [Param.hessEntries, Entries.visit, py_ok_bind]
  | .cons k p rest, x, off => by
    unfold Param.hessEntries Entries.visit
    simp only
    rw [hess_visit p, hessEntries_visit h rest]
    have hs : hessT.size = Param.freeSize := rfl
    have hp : hessT.part h off = fun ms => ms.mapM fun m => m.offset off off h.fs h.fs := rfl
    rw [hs, hp]
    generalize Param.visit hessT p (Leaf.slice x off p.freeSize) = r
    obtain ⟨p', r⟩ := r
    simp only
    generalize (r >>= fun ms : List Coo => ms.mapM fun m => m.offset off off h.fs h.fs) = q
    cases q with
    | error e => rfl
    | ok b =>
      simp only
      cases (Entries.visit hessT h rest x (off + p.freeSize)).2 <;> rfl
end

end

end LRVB
