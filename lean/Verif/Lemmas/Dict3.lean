import Verif.Lemmas.Dict2

/-! Lengths and positions of the values in a parameter dictionary. -/

namespace LRVB

/-! ### Lengths for single parameters -/

theorem mapM_mem {α β : Type} {f : α → Py β} {xs : List α} {ys : List β}
    (h : xs.mapM f = .ok ys) : ∀ y ∈ ys, ∃ x ∈ xs, f x = .ok y := by
  induction xs generalizing ys with
  | nil => cases h; simp
  | cons a t ih =>
    rw [List.mapM_cons] at h
    obtain ⟨b, hb, h⟩ := py_bind_ok h
    obtain ⟨bs, hbs, h⟩ := py_bind_ok h
    cases h
    intro y hy
    rcases List.mem_cons.mp hy with rfl | hy
    · exact ⟨a, by simp, hb⟩
    · obtain ⟨x, hx, h⟩ := ih hbs y hy
      exact ⟨x, by simp [hx], h⟩

theorem hstack_length {α : Type} {f : α → Py (List ℝ)} {xs : List α} {ys : List (List ℝ)} {k : ℕ}
    {v : List ℝ} (h : xs.mapM f = .ok ys) (hk : ∀ x ∈ xs, ∀ y, f x = .ok y → y.length = k)
    (hv : Arr.hstack ys = .ok v) : v.length = k * xs.length := by
  unfold Arr.hstack at hv
  split_ifs at hv
  cases hv
  rw [flatten_length_const _ k, mapM_length h, Nat.mul_comm]
  intro b hb
  obtain ⟨x, hx, h⟩ := mapM_mem h b hb
  exact hk x hx b h

theorem packPosdef_length {m : Arr} {n : ℕ} {d : ℝ} {x : List ℝ} (hs : m.shape = [n, n])
    (h : packPosdef m d = .ok x) : x.length = vecSizeOf n := by
  unfold packPosdef at h
  rw [hs] at h
  simp only [ne_eq, not_true_eq_false, if_false] at h
  obtain ⟨L, hL, h⟩ := py_bind_ok h
  obtain ⟨g, hg, h⟩ := py_bind_ok h
  unfold cholesky at hL
  simp only [Arr.ofFn2_shape] at hL
  simp only [ne_eq, not_true_eq_false, if_false] at hL
  split_ifs at hL
  cases hL
  unfold logMatrixDiagonal at hg
  simp only [Arr.ofFn2_shape] at hg
  simp only [ne_eq, not_true_eq_false, if_false] at hg
  split_ifs at hg
  cases hg
  exact vectorizeLd_length rfl h

theorem sub_shape {s idx : List ℕ} {n : ℕ} {data : List ℝ} {m : Arr}
    (hl : data.length = (s ++ [n, n]).prod) (hi : idx ∈ indexProduct s)
    (h : (⟨s ++ [n, n], data⟩ : Arr).sub idx = .ok m) : m.shape = [n, n] := by
  obtain ⟨k, hk, _⟩ := ravel_ok (mem_indexProduct.mp hi)
  rw [sub_prefix hl hk] at h
  cases h; rfl

theorem single_mem_indexProduct {len i : ℕ} (h : i ∈ List.range len) : [i] ∈ indexProduct [len] := by
  rw [mem_indexProduct]
  simpa using h

theorem unconstrainVec_length {v x : List ℝ} {lb ub : Flt} (h : Leaf.unconstrainVec v lb ub = .ok x) :
    x.length = v.length := by
  unfold Leaf.unconstrainVec at h
  obtain ⟨ys, hy, h⟩ := py_bind_ok h
  unfold unconstrainArray at hy
  split_ifs at hy
  unfold unconstrainList at hy
  split_ifs at hy
  rw [mapM_length h, mapM_length hy, List.length_map]

theorem Leaf.getFree_length {l : Leaf} (hk : l.kind.Legal) (hp : l.Proper) {x : List ℝ}
    (h : l.getFree = .ok x) : x.length = l.freeSize := by
  obtain ⟨name, kind, ⟨shape, data⟩, boxed⟩ := l
  obtain ⟨hw, hp⟩ := hp
  simp only [Arr.WF] at hw
  cases kind with
  | scalar lb ub =>
    simp only [getFree] at h
    split at h
    · obtain ⟨y, _, h⟩ := py_bind_ok h
      obtain ⟨r, _, h⟩ := py_bind_ok h
      cases h; rfl
    · cases h
  | vector n lb ub =>
    simp only [Kind.shapeOf] at hp
    rw [unconstrainVec_length h]
    simp [hw, hp, freeSize, Kind.freeSize]
  | array s lb ub =>
    simp only [Kind.shapeOf] at hp
    rw [unconstrainVec_length h]
    simp [hw, hp, freeSize, Kind.freeSize]
  | posdef n d =>
    simp only [Kind.shapeOf] at hp
    exact packPosdef_length hp h
  | posdefVec len n d =>
    simp only [Kind.shapeOf] at hp
    subst hp
    simp only [getFree] at h
    rw [if_neg (by simp)] at h
    obtain ⟨ys, h1, h2⟩ := py_bind_ok h
    rw [hstack_length h1 (k := vecSizeOf n) _ h2]
    · simp [freeSize, Kind.freeSize]
    · intro i hi y hy
      obtain ⟨m, hm, hy⟩ := py_bind_ok hy
      exact packPosdef_length (sub_shape (s := [len]) hw (single_mem_indexProduct hi) hm) hy
  | posdefArr s n d =>
    simp only [Kind.shapeOf] at hp
    subst hp
    simp only [getFree] at h
    obtain ⟨ys, h1, h2⟩ := py_bind_ok h
    rw [hstack_length h1 (k := vecSizeOf n) _ h2]
    · simp [freeSize, Kind.freeSize, indexProduct_length]
    · intro i hi y hy
      obtain ⟨m, hm, hy⟩ := py_bind_ok hy
      exact packPosdef_length (sub_shape hw hi hm) hy
  | simplex r c =>
    simp only [Kind.shapeOf] at hp
    subst hp
    simp only [getFree] at h
    obtain ⟨m, h1, h2⟩ := py_bind_ok h
    cases h2
    cases c with
    | zero => simp [unconstrainSimplexMatrix] at h1
    | succ c =>
      simp only [unconstrainSimplexMatrix] at h1
      split_ifs at h1
      cases h1
      simp [freeSize, Kind.freeSize]
  | subspace dim free basis =>
    simp only [getFree] at h
    split_ifs at h
    cases h
    simp [tmatvec, freeSize, Kind.freeSize]

/-- A parameter holding a value of the declared shape has a vector form of the declared size. -/
theorem Leaf.getVector_ok {l : Leaf} (hk : l.kind.Legal) (hp : l.Proper) :
    ∃ v, l.getVector = .ok v ∧ v.length = l.vecSize := by
  obtain ⟨name, kind, ⟨shape, data⟩, boxed⟩ := l
  obtain ⟨hw, hp⟩ := hp
  simp only [Arr.WF] at hw
  cases kind with
  | scalar lb ub =>
    simp only at hp
    exact ⟨_, by simp only [getVector]; rw [if_pos hp], hp⟩
  | vector n lb ub =>
    simp only [Kind.shapeOf] at hp
    subst hp
    exact ⟨data, by simp [getVector], by simp [hw, vecSize, Kind.vecSize]⟩
  | array s lb ub =>
    simp only [Kind.shapeOf] at hp
    subst hp
    exact ⟨data, by simp [getVector], by simp [hw, vecSize, Kind.vecSize]⟩
  | posdef n d =>
    simp only [Kind.shapeOf] at hp
    subst hp
    refine ⟨_, vectorizeLd_ok (m := ⟨[n, n], data⟩) (n := n) rfl, ?_⟩
    simp [vecSize, Kind.vecSize, vecSizeOf_eq]
  | posdefVec len n d =>
    simp only [Kind.shapeOf] at hp
    subst hp
    have h1 : (List.range len).mapM (fun obs => do
        vectorizeLd (← (⟨[len, n, n], data⟩ : Arr).sub [obs])) =
        .ok ((List.range len).map fun obs => (trilIndices n).map fun p =>
          (⟨[n, n], (data.drop (obs * [n, n].prod)).take [n, n].prod⟩ : Arr).at2 p.1 p.2) := by
      apply mapM_ok_of
      intro obs ho
      rw [show (⟨[len, n, n], data⟩ : Arr) = ⟨[len] ++ [n, n], data⟩ from rfl,
        sub_prefix hw (ravel_single (by simpa using ho)), py_ok_bind, vectorizeLd_ok rfl]
    have hl : 0 < len := hk.2
    have h2 := hstack_ok (xs := (List.range len).map fun obs => (trilIndices n).map fun p =>
          (⟨[n, n], (data.drop (obs * [n, n].prod)).take [n, n].prod⟩ : Arr).at2 p.1 p.2)
          (by simp; omega)
    refine ⟨_, ?_, hstack_length h1 (k := vecSizeOf n) ?_ h2 |>.trans ?_⟩
    · simp only [getVector]
      rw [if_neg (by simp)]
      rw [h1, py_ok_bind, h2]
    · intro i hi y hy
      obtain ⟨m, hm, hy⟩ := py_bind_ok hy
      exact vectorizeLd_length (sub_shape (s := [len]) hw (single_mem_indexProduct hi) hm) hy
    · simp [vecSize, Kind.vecSize]
  | posdefArr s n d =>
    simp only [Kind.shapeOf] at hp
    subst hp
    have h1 : ∃ ys, (indexProduct s).mapM (fun obs => do
        vectorizeLd (← (⟨s ++ [n, n], data⟩ : Arr).sub obs)) = .ok ys := by
      refine ⟨_, mapM_ok_of (g := fun obs => match ravel obs s with
        | .ok k => (trilIndices n).map fun p =>
          (⟨[n, n], (data.drop (k * [n, n].prod)).take [n, n].prod⟩ : Arr).at2 p.1 p.2
        | .error _ => []) _ ?_⟩
      intro obs ho
      obtain ⟨k, hk, _⟩ := ravel_ok (mem_indexProduct.mp ho)
      rw [sub_prefix hw hk, py_ok_bind, vectorizeLd_ok rfl, hk]
    obtain ⟨ys, h1⟩ := h1
    have hl : 0 < s.prod := hk.2.2
    have h2 := hstack_ok (xs := ys) (by
      rintro rfl
      have := mapM_length h1
      rw [indexProduct_length] at this
      simp at this; omega)
    refine ⟨_, ?_, hstack_length h1 (k := vecSizeOf n) ?_ h2 |>.trans ?_⟩
    · simp only [getVector]
      rw [h1, py_ok_bind, h2]
    · intro i hi y hy
      obtain ⟨m, hm, hy⟩ := py_bind_ok hy
      exact vectorizeLd_length (sub_shape hw hi hm) hy
    · simp [vecSize, Kind.vecSize, indexProduct_length]
  | simplex r c =>
    simp only [Kind.shapeOf] at hp
    subst hp
    exact ⟨data, by simp [getVector], by simp [hw, vecSize, Kind.vecSize]⟩
  | subspace dim free basis =>
    simp only [Kind.shapeOf] at hp
    subst hp
    exact ⟨data, by simp [getVector], by simp [hw, vecSize, Kind.vecSize]⟩

/-! ### Dictionaries -/

namespace Param

theorem hstack_inv {xs : List (List ℝ)} {v : List ℝ} (h : Arr.hstack xs = .ok v) : v = xs.flatten := by
  unfold Arr.hstack at h
  split_ifs at h
  exact (Except.ok.inj h).symm

mutual
theorem getFree_length : ∀ (p : Param), p.WF → p.Proper → ∀ x, p.getFree = .ok x →
    x.length = p.freeSize
  | leaf l, hw, hp, x, h => Leaf.getFree_length hw hp h
  | dict h es, hw, hp, x, hx => by
    simp only [WF] at hw
    simp only [getFree] at hx
    obtain ⟨xs, h1, h2⟩ := py_bind_ok hx
    rw [hstack_inv h2, getFreeEntries_length es hw.1 hp xs h1]
    exact hw.2.2.1.symm
theorem getFreeEntries_length : ∀ (es : Entries), es.WF → es.Proper → ∀ xs,
    getFreeEntries es = .ok xs → xs.flatten.length = es.fsum
  | .nil, _, _, xs, h => by simp only [getFreeEntries] at h; cases h; rfl
  | .cons k p rest, hw, hp, xs, h => by
    simp only [Entries.WF] at hw
    simp only [Entries.Proper] at hp
    simp only [getFreeEntries] at h
    obtain ⟨y, h1, h⟩ := py_bind_ok h
    obtain ⟨ys, h2, h⟩ := py_bind_ok h
    cases h
    simp only [List.flatten_cons, List.length_append, Entries.fsum]
    rw [getFree_length p hw.1 hp.1 y h1, getFreeEntries_length rest hw.2.2 hp.2 ys h2]
end

mutual
theorem getVector_proper : ∀ (p : Param), p.WF → p.HasParams → p.Proper →
    ∃ v, p.getVector = .ok v ∧ v.length = p.vecSize
  | leaf l, hw, _, hp => Leaf.getVector_ok hw hp
  | dict h es, hw, hn, hp => by
    simp only [WF] at hw
    obtain ⟨xs, h1, h2, h3⟩ := getVectorEntries_proper es hw.1 hp
    refine ⟨xs.flatten, ?_, by rw [h2]; exact hw.2.2.2.1.symm⟩
    simp only [getVector]
    rw [h1, py_ok_bind, hstack_entries hn h3]
theorem getVectorEntries_proper : ∀ (es : Entries), es.WF → es.Proper →
    ∃ xs, getVectorEntries es = .ok xs ∧ xs.flatten.length = es.vsum ∧
      xs.length = es.toList.length
  | .nil, _, _ => ⟨[], rfl, rfl, rfl⟩
  | .cons k p rest, hw, hp => by
    simp only [Entries.WF] at hw
    simp only [Entries.Proper] at hp
    obtain ⟨v, h1, h2⟩ := getVector_proper p hw.1 hw.2.1 hp.1
    obtain ⟨xs, h3, h4, h5⟩ := getVectorEntries_proper rest hw.2.2 hp.2
    refine ⟨v :: xs, ?_, ?_, ?_⟩
    · simp only [getVectorEntries]
      rw [h1, h3]; rfl
    · simp [Entries.vsum, h2, h4]
    · simp [Entries.toList, h5]
end

end Param

/-! ### Locating a parameter -/

namespace Entries

/-- The entry with a key and its free offset. -/
def floc (key : String) : Entries → ℕ → Option (Param × ℕ)
  | .nil, _ => none
  | .cons k p rest, off => if k = key then some (p, off) else rest.floc key (off + p.freeSize)

/-- The entry with a key and its vector offset. -/
def vloc (key : String) : Entries → ℕ → Option (Param × ℕ)
  | .nil, _ => none
  | .cons k p rest, off => if k = key then some (p, off) else rest.vloc key (off + p.vecSize)

theorem floc_find (key : String) : ∀ (es : Entries) (off : ℕ),
    (es.floc key off).map Prod.fst = es.find key
  | .nil, _ => rfl
  | .cons k p rest, off => by
    simp only [floc, find]
    split_ifs
    · rfl
    · exact floc_find key rest _

theorem vloc_find (key : String) : ∀ (es : Entries) (off : ℕ),
    (es.vloc key off).map Prod.fst = es.find key
  | .nil, _ => rfl
  | .cons k p rest, off => by
    simp only [vloc, find]
    split_ifs
    · rfl
    · exact vloc_find key rest _

theorem find_freeE (key : String) : ∀ (es : Entries) (x : List ℝ) (off : ℕ),
    (es.freeE (x.drop off)).find key =
      (es.floc key off).map fun q => q.1.freeP (Leaf.slice x q.2 q.1.freeSize)
  | .nil, _, _ => rfl
  | .cons k p rest, x, off => by
    simp only [freeE, find, floc]
    split_ifs
    · rfl
    · rw [List.drop_drop, find_freeE key rest]

theorem find_vecE (key : String) : ∀ (es : Entries) (x : List ℝ) (off : ℕ),
    (es.vecE (x.drop off)).find key =
      (es.vloc key off).map fun q => q.1.vecP (Leaf.slice x q.2 q.1.vecSize)
  | .nil, _, _ => rfl
  | .cons k p rest, x, off => by
    simp only [vecE, find, vloc]
    split_ifs
    · rfl
    · rw [List.drop_drop, find_vecE key rest]

theorem floc_le {key : String} : ∀ {es : Entries} {off : ℕ} {q : Param × ℕ},
    es.floc key off = some q → off ≤ q.2 ∧ q.2 + q.1.freeSize ≤ off + es.fsum
  | .nil, _, _, h => by simp [floc] at h
  | .cons k p rest, off, q, h => by
    simp only [floc] at h
    split_ifs at h
    · cases h; simp [fsum]
    · have := floc_le h
      simp only [fsum]; omega

theorem vloc_le {key : String} : ∀ {es : Entries} {off : ℕ} {q : Param × ℕ},
    es.vloc key off = some q → off ≤ q.2 ∧ q.2 + q.1.vecSize ≤ off + es.vsum
  | .nil, _, _, h => by simp [vloc] at h
  | .cons k p rest, off, q, h => by
    simp only [vloc] at h
    split_ifs at h
    · cases h; simp [vsum]
    · have := vloc_le h
      simp only [vsum]; omega

theorem floc_disjoint {k1 k2 : String} (hne : k1 ≠ k2) : ∀ {es : Entries} {off : ℕ}
    {q1 q2 : Param × ℕ}, es.floc k1 off = some q1 → es.floc k2 off = some q2 →
    q1.2 + q1.1.freeSize ≤ q2.2 ∨ q2.2 + q2.1.freeSize ≤ q1.2
  | .nil, _, _, _, h, _ => by simp [floc] at h
  | .cons k p rest, off, q1, q2, h1, h2 => by
    simp only [floc] at h1 h2
    split_ifs at h1 with c1
    · split_ifs at h2 with c2
      · exact (hne (c1.symm.trans c2)).elim
      · cases h1; left; exact (floc_le h2).1
    · split_ifs at h2 with c2
      · cases h2; right; exact (floc_le h1).1
      · exact floc_disjoint hne h1 h2

theorem vloc_disjoint {k1 k2 : String} (hne : k1 ≠ k2) : ∀ {es : Entries} {off : ℕ}
    {q1 q2 : Param × ℕ}, es.vloc k1 off = some q1 → es.vloc k2 off = some q2 →
    q1.2 + q1.1.vecSize ≤ q2.2 ∨ q2.2 + q2.1.vecSize ≤ q1.2
  | .nil, _, _, _, h, _ => by simp [vloc] at h
  | .cons k p rest, off, q1, q2, h1, h2 => by
    simp only [vloc] at h1 h2
    split_ifs at h1 with c1
    · split_ifs at h2 with c2
      · exact (hne (c1.symm.trans c2)).elim
      · cases h1; left; exact (vloc_le h2).1
    · split_ifs at h2 with c2
      · cases h2; right; exact (vloc_le h1).1
      · exact vloc_disjoint hne h1 h2

theorem mem_franges_key {key : String} {r : IdxRange} {es : Entries} {off : ℕ}
    (h : (key, r) ∈ es.franges off) : key ∈ es.keys := by
  rw [← franges_keys es off]
  exact List.mem_map.mpr ⟨_, h, rfl⟩

theorem mem_vranges_key {key : String} {r : IdxRange} {es : Entries} {off : ℕ}
    (h : (key, r) ∈ es.vranges off) : key ∈ es.keys := by
  rw [← vranges_keys es off]
  exact List.mem_map.mpr ⟨_, h, rfl⟩

theorem floc_of_mem {key : String} {r : IdxRange} : ∀ {es : Entries} {off : ℕ}, es.keys.Nodup →
    (key, r) ∈ es.franges off → ∃ q, es.floc key off = some (q, r.start) ∧
      r.stop = r.start + q.freeSize
  | .nil, _, _, h => by simp [franges] at h
  | .cons k p rest, off, hn, h => by
    rw [keys_cons, List.nodup_cons] at hn
    simp only [franges, List.mem_cons, Prod.mk.injEq] at h
    rcases h with ⟨rfl, rfl⟩ | h
    · exact ⟨p, by simp [floc], rfl⟩
    · have hk := mem_franges_key h
      obtain ⟨q, h1, h2⟩ := floc_of_mem hn.2 h
      refine ⟨q, ?_, h2⟩
      simp only [floc]
      rw [if_neg (by rintro rfl; exact hn.1 hk), h1]

theorem vloc_of_mem {key : String} {r : IdxRange} : ∀ {es : Entries} {off : ℕ}, es.keys.Nodup →
    (key, r) ∈ es.vranges off → ∃ q, es.vloc key off = some (q, r.start) ∧
      r.stop = r.start + q.vecSize
  | .nil, _, _, h => by simp [vranges] at h
  | .cons k p rest, off, hn, h => by
    rw [keys_cons, List.nodup_cons] at hn
    simp only [vranges, List.mem_cons, Prod.mk.injEq] at h
    rcases h with ⟨rfl, rfl⟩ | h
    · exact ⟨p, by simp [vloc], rfl⟩
    · have hk := mem_vranges_key h
      obtain ⟨q, h1, h2⟩ := vloc_of_mem hn.2 h
      refine ⟨q, ?_, h2⟩
      simp only [vloc]
      rw [if_neg (by rintro rfl; exact hn.1 hk), h1]

theorem franges_tiles : ∀ (es : Entries) (off : ℕ),
    Tiles off ((es.franges off).map Prod.snd) (off + es.fsum)
  | .nil, _ => by simp [franges, Tiles, fsum]
  | .cons k p rest, off => by
    simp only [franges, List.map_cons, Tiles, fsum, true_and]
    refine ⟨by omega, ?_⟩
    rw [← Nat.add_assoc]
    exact franges_tiles rest _

theorem vranges_tiles : ∀ (es : Entries) (off : ℕ),
    Tiles off ((es.vranges off).map Prod.snd) (off + es.vsum)
  | .nil, _ => by simp [vranges, Tiles, vsum]
  | .cons k p rest, off => by
    simp only [vranges, List.map_cons, Tiles, vsum, true_and]
    refine ⟨by omega, ?_⟩
    rw [← Nat.add_assoc]
    exact vranges_tiles rest _

/-- The slice of the concatenated free values at an entry. -/
theorem getFreeEntries_slice {key : String} : ∀ {es : Entries} {off : ℕ} {xs : List (List ℝ)}
    {q : Param × ℕ}, es.WF → es.Proper → Param.getFreeEntries es = .ok xs →
    es.floc key off = some q → q.1.getFree = .ok (Leaf.slice xs.flatten (q.2 - off) q.1.freeSize)
  | .nil, _, _, _, _, _, _, h => by simp [floc] at h
  | .cons k p rest, off, xs, q, hw, hp, hx, h => by
    simp only [WF] at hw
    simp only [Proper] at hp
    simp only [Param.getFreeEntries] at hx
    obtain ⟨y, h1, hx⟩ := py_bind_ok hx
    obtain ⟨ys, h2, hx⟩ := py_bind_ok hx
    cases hx
    have hl := Param.getFree_length p hw.1 hp.1 y h1
    simp only [floc] at h
    split_ifs at h with c
    · cases h
      simp [Leaf.slice, h1, ← hl]
    · have hle := (floc_le h).1
      rw [getFreeEntries_slice hw.2.2 hp.2 h2 h]
      simp only [Leaf.slice, List.flatten_cons]
      rw [show q.2 - off = y.length + (q.2 - (off + p.freeSize)) by omega, List.drop_length_add_append]

/-- The slice of the concatenated vector values at an entry. -/
theorem getVectorEntries_slice {key : String} : ∀ {es : Entries} {off : ℕ} {xs : List (List ℝ)}
    {q : Param × ℕ}, es.WF → es.Proper → Param.getVectorEntries es = .ok xs →
    es.vloc key off = some q → q.1.getVector = .ok (Leaf.slice xs.flatten (q.2 - off) q.1.vecSize)
  | .nil, _, _, _, _, _, _, h => by simp [vloc] at h
  | .cons k p rest, off, xs, q, hw, hp, hx, h => by
    simp only [WF] at hw
    simp only [Proper] at hp
    simp only [Param.getVectorEntries] at hx
    obtain ⟨y, h1, hx⟩ := py_bind_ok hx
    obtain ⟨ys, h2, hx⟩ := py_bind_ok hx
    cases hx
    obtain ⟨v, h1', hl⟩ := Param.getVector_proper p hw.1 hw.2.1 hp.1
    rw [h1] at h1'
    cases h1'
    simp only [vloc] at h
    split_ifs at h with c
    · cases h
      simp [Leaf.slice, h1, ← hl]
    · have hle := (vloc_le h).1
      rw [getVectorEntries_slice hw.2.2 hp.2 h2 h]
      simp only [Leaf.slice, List.flatten_cons]
      rw [show q.2 - off = y.length + (q.2 - (off + p.vecSize)) by omega, List.drop_length_add_append]

end Entries

/-- Every position of a tiled interval lies in exactly one tile. -/
theorem Tiles.unique {key : Type} : ∀ {rs : List (key × IdxRange)} {a b : ℕ},
    (rs.map Prod.fst).Nodup → Tiles a (rs.map Prod.snd) b → ∀ i, a ≤ i → i < b →
    ∃! kr, kr ∈ rs ∧ kr.2.start ≤ i ∧ i < kr.2.stop
  | [], a, b, _, h, i, h1, h2 => by simp [Tiles] at h; omega
  | (k, r) :: rs, a, b, hn, h, i, h1, h2 => by
    simp only [List.map_cons, Tiles] at h
    rw [List.map_cons, List.nodup_cons] at hn
    obtain ⟨h3, h4, h5⟩ := h
    have hge : ∀ {rs : List (key × IdxRange)} {a b : ℕ}, Tiles a (rs.map Prod.snd) b →
        ∀ kr ∈ rs, a ≤ kr.2.start := by
      intro rs
      induction rs with
      | nil => simp
      | cons c t ih =>
        intro a b h kr hkr
        simp only [List.map_cons, Tiles] at h
        rcases List.mem_cons.mp hkr with rfl | hkr
        · omega
        · have := ih h.2.2 kr hkr; omega
    by_cases hi : i < r.stop
    · refine ⟨(k, r), ⟨by simp, by simp; omega, hi⟩, ?_⟩
      rintro kr ⟨h6, h7, h8⟩
      rcases List.mem_cons.mp h6 with rfl | h6
      · rfl
      · have := hge h5 kr h6; omega
    · obtain ⟨kr, ⟨h6, h7⟩, h8⟩ := Tiles.unique hn.2 h5 i (by omega) h2
      refine ⟨kr, ⟨by simp [h6], h7⟩, ?_⟩
      rintro kr' ⟨h9, h10⟩
      rcases List.mem_cons.mp h9 with rfl | h9
      · simp at h10; omega
      · exact h8 kr' ⟨h9, h10⟩

/-- Slices of vectors that agree on the range are equal. -/
theorem slice_congr {x y : List ℝ} {o n : ℕ} (hl : x.length = y.length)
    (h : ∀ i, o ≤ i → i < o + n → x[i]? = y[i]?) : Leaf.slice x o n = Leaf.slice y o n := by
  apply List.ext_getElem?
  intro i
  simp only [Leaf.slice, List.getElem?_take, List.getElem?_drop]
  split_ifs with hi
  · exact h _ (by omega) (by omega)
  · rfl

end LRVB
