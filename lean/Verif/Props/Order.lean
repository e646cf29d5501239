import Verif.Spec.Order
import Verif.Props.DictDeriv
import Verif.Props.Sensitivity

/-!
# C183: the order in which parameters are pushed only permutes the vectors
-/

namespace LRVB

open scoped ContDiff Topology

noncomputable section

/-! ### Two lists of ranges -/

/-- Ranges that cover `0, ..., n - 1`. -/
structure Covers (n : ℕ) (R : List (String × IdxRange)) : Prop where
  le : ∀ k r, (k, r) ∈ R → r.stop ≤ n
  one : ∀ k r s, (k, r) ∈ R → (k, s) ∈ R → r = s
  unique : ∀ i < n, ∃! kr, kr ∈ R ∧ kr.2.start ≤ i ∧ i < kr.2.stop

theorem Tiles.le : ∀ {rs : List IdxRange} {a b : ℕ}, Tiles a rs b → a ≤ b ∧ ∀ r ∈ rs, r.stop ≤ b
  | [], a, b, h => by simp [Tiles] at h; simp [h]
  | r :: rs, a, b, h => by
    simp only [Tiles] at h
    obtain ⟨h1, h2, h3⟩ := h
    have := Tiles.le h3
    refine ⟨by omega, ?_⟩
    intro s hs
    rcases List.mem_cons.mp hs with rfl | hs
    · exact this.1
    · exact this.2 s hs

theorem Covers.of_tiles {n : ℕ} {R : List (String × IdxRange)} (hn : (R.map Prod.fst).Nodup)
    (ht : Tiles 0 (R.map Prod.snd) n) : Covers n R := by
  refine ⟨fun k r h => ht.le.2 r (List.mem_map.mpr ⟨_, h, rfl⟩), fun k r s h1 h2 => ?_,
    fun i hi => Tiles.unique hn ht i (Nat.zero_le _) hi⟩
  have := List.inj_on_of_nodup_map hn h1 h2 rfl
  exact (Prod.mk.inj this).2

/-- Each key has a range of the same size in the other list. -/
def Matching (R S : List (String × IdxRange)) : Prop :=
  ∀ k r, (k, r) ∈ R → ∃ s, (k, s) ∈ S ∧ s.stop - s.start = r.stop - r.start

theorem exists_perm {n : ℕ} {R S : List (String × IdxRange)} (hR : Covers n R) (hS : Covers n S)
    (hm : Matching S R) (hm' : Matching R S) :
    ∃ σ : Equiv.Perm (Fin n), ∀ x y : List ℝ, x.length = n → y.length = n →
      (SameParts R S x y ↔ ∀ i : Fin n, y.getD i 0 = x.getD (σ i) 0) := by
  have hex : ∀ i : Fin n, ∃ (j : Fin n) (k : String) (r s : IdxRange), (k, r) ∈ R ∧ (k, s) ∈ S ∧
      s.start ≤ i ∧ (i : ℕ) < s.stop ∧ (j : ℕ) = r.start + (i - s.start) ∧ (j : ℕ) < r.stop ∧
      s.stop - s.start = r.stop - r.start := by
    intro i
    obtain ⟨⟨k, s⟩, ⟨h1, h2, h3⟩, -⟩ := hS.unique i i.2
    obtain ⟨r, h4, h5⟩ := hm k s h1
    simp only at h2 h3
    have h6 := hR.le k r h4
    have h7 : r.start + (i - s.start) < r.stop := by omega
    exact ⟨⟨r.start + (i - s.start), by omega⟩, k, r, s, h4, h1, h2, h3, rfl, h7, h5.symm⟩
  choose f k r s h1 h2 h3 h4 h5 h6 h7 using hex
  have inj : Function.Injective f := by
    intro a b hab
    have e : ((k a, r a) : String × IdxRange) = (k b, r b) := by
      refine (hR.unique (f a) (f a).2).unique ⟨h1 a, ?_, h6 a⟩ ⟨h1 b, ?_, ?_⟩
      · simp only; rw [h5 a]; omega
      · simp only; rw [hab, h5 b]; omega
      · rw [hab]; exact h6 b
    obtain ⟨ek, er⟩ := Prod.mk.inj e
    have es : s a = s b := hS.one (k a) _ _ (h2 a) (ek ▸ h2 b)
    have := h5 a
    rw [hab, h5 b, er, es] at this
    have p1 := h3 a
    have p2 := h3 b
    rw [es] at p1
    ext
    omega
  refine ⟨Equiv.ofBijective f (Finite.injective_iff_bijective.mp inj), fun x y hx hy => ⟨?_, ?_⟩⟩
  · intro h i
    have := congrArg (fun l : List ℝ => l.getD (i - (s i).start) 0) (h _ _ _ (h1 i) (h2 i))
    have p3 := h3 i
    have p4 := h4 i
    have p5 := h5 i
    have p6 := h6 i
    have p7 := h7 i
    simp only [IdxRange.part, List.getD_eq_getElem?_getD] at this
    rw [List.getElem?_take_of_lt (by omega), List.getElem?_take_of_lt (by omega), List.getElem?_drop,
      List.getElem?_drop] at this
    rw [Equiv.ofBijective_apply, List.getD_eq_getElem?_getD, List.getD_eq_getElem?_getD, p5, this]
    congr 3
    omega
  · intro h k0 r0 s0 hr hs
    have e : s0.stop - s0.start = r0.stop - r0.start := by
      obtain ⟨s', a, b⟩ := hm' k0 r0 hr
      rw [hS.one k0 _ _ hs a, b]
    have l1 := hR.le _ _ hr
    have l2 := hS.le _ _ hs
    apply List.ext_getElem
    · simp only [IdxRange.part, List.length_take, List.length_drop, hx, hy]
      omega
    intro t t1 t2
    simp only [IdxRange.part, List.length_take, List.length_drop, hx, hy] at t1 t2
    have hi : s0.start + t < n := by omega
    have e0 : ((k ⟨_, hi⟩, s ⟨_, hi⟩) : String × IdxRange) = (k0, s0) := by
      refine (hS.unique _ hi).unique ⟨h2 _, h3 ⟨_, hi⟩, h4 ⟨_, hi⟩⟩ ⟨hs, ?_, ?_⟩ <;> simp only <;> omega
    obtain ⟨ek, es⟩ := Prod.mk.inj e0
    have er : r ⟨_, hi⟩ = r0 := hR.one k0 _ _ (ek ▸ h1 _) hr
    have := h ⟨_, hi⟩
    rw [Equiv.ofBijective_apply, h5, er, es] at this
    have q1 : s0.start + t < y.length := by omega
    have q2 : r0.start + t < x.length := by omega
    simp only [IdxRange.part, List.getElem_take, List.getElem_drop]
    rw [show r0.start + ((⟨s0.start + t, hi⟩ : Fin n) - s0.start) = r0.start + t by simp] at this
    simpa [List.getD_eq_getElem?_getD, q1, q2] using this.symm

/-! ### Two dictionaries -/

namespace Entries

theorem find_iff {k : String} {p : Param} : ∀ {es : Entries}, es.keys.Nodup →
    (es.find k = some p ↔ (k, p) ∈ es.toList)
  | .nil, _ => by simp [find, toList]
  | .cons k' p' rest, hn => by
    rw [keys_cons, List.nodup_cons] at hn
    simp only [find, toList, List.mem_cons, Prod.mk.injEq]
    split_ifs with h
    · subst h
      constructor
      · intro e; exact Or.inl ⟨rfl, (Option.some.inj e).symm⟩
      · rintro (⟨-, e⟩ | e)
        · rw [e]
        · exact absurd (List.mem_map.mpr ⟨_, e, rfl⟩) hn.1
    · rw [find_iff hn.2]
      constructor
      · exact Or.inr
      · rintro (⟨e, -⟩ | e)
        · exact absurd e.symm h
        · exact e

theorem perm_of_find {es fs : Entries} (h1 : es.keys.Nodup) (h2 : fs.keys.Nodup)
    (h : ∀ k, es.find k = fs.find k) : es.toList.Perm fs.toList := by
  rw [List.perm_ext_iff_of_nodup h1.of_map h2.of_map]
  rintro ⟨k, p⟩
  rw [← find_iff h1, ← find_iff h2, h]

theorem floc_mem {k : String} {q : Param × ℕ} : ∀ {es : Entries} {off : ℕ}, es.floc k off = some q →
    (k, ⟨q.2, q.2 + q.1.freeSize⟩) ∈ es.franges off
  | .nil, _, h => by simp [floc] at h
  | .cons k' p rest, off, h => by
    simp only [floc] at h
    simp only [franges, List.mem_cons]
    split_ifs at h with c
    · cases h; exact Or.inl (by rw [c])
    · exact Or.inr (floc_mem h)

theorem vloc_mem {k : String} {q : Param × ℕ} : ∀ {es : Entries} {off : ℕ}, es.vloc k off = some q →
    (k, ⟨q.2, q.2 + q.1.vecSize⟩) ∈ es.vranges off
  | .nil, _, h => by simp [vloc] at h
  | .cons k' p rest, off, h => by
    simp only [vloc] at h
    simp only [vranges, List.mem_cons]
    split_ifs at h with c
    · cases h; exact Or.inl (by rw [c])
    · exact Or.inr (vloc_mem h)

theorem exists_floc {k : String} {p : Param} {es : Entries} (h : es.find k = some p) (off : ℕ) :
    ∃ i, es.floc k off = some (p, i) := by
  have := es.floc_find k off
  rw [h] at this
  obtain ⟨⟨a, i⟩, h1, h2⟩ := Option.map_eq_some_iff.mp this
  exact ⟨i, by rw [h1]; simp only at h2; rw [h2]⟩

theorem exists_vloc {k : String} {p : Param} {es : Entries} (h : es.find k = some p) (off : ℕ) :
    ∃ i, es.vloc k off = some (p, i) := by
  have := es.vloc_find k off
  rw [h] at this
  obtain ⟨⟨a, i⟩, h1, h2⟩ := Option.map_eq_some_iff.mp this
  exact ⟨i, by rw [h1]; simp only at h2; rw [h2]⟩

theorem ftvE_slice {k : String} {p : Param} : ∀ {es : Entries}, es.WF → ∀ {x : List ℝ} {off off' i j : ℕ},
    x.length = off + es.fsum → es.floc k off = some (p, i) → es.vloc k off' = some (p, j) →
    Leaf.slice (es.ftvE (x.drop off)) (j - off') p.vecSize = p.ftvP (Leaf.slice x i p.freeSize)
  | .nil, _, _, _, _, _, _, _, h, _ => by simp [floc] at h
  | .cons k' p' rest, hw, x, off, off', i, j, hx, h1, h2 => by
    simp only [WF] at hw
    simp only [fsum] at hx
    simp only [floc, vloc] at h1 h2
    have hl : (p'.ftvP ((x.drop off).take p'.freeSize)).length = p'.vecSize :=
      p'.ftvP_length hw.1 _ (by simp; omega)
    simp only [ftvE]
    split_ifs at h1 h2 with c
    · cases h1
      cases h2
      simp only [Leaf.slice, Nat.sub_self, List.drop_zero]
      rw [List.take_append_of_le_length hl.ge, List.take_of_length_le hl.le]
    · have hle := (vloc_le h2).1
      simp only at hle
      have ih := ftvE_slice hw.2.2 (x := x) (off := off + p'.freeSize) (by omega) h1 h2
      rw [List.drop_drop, ← ih]
      simp only [Leaf.slice]
      rw [show j - off' = (p'.ftvP ((x.drop off).take p'.freeSize)).length + (j - (off' + p'.vecSize)) by
        omega, List.drop_length_add_append]

end Entries

theorem SameByKey.symm {p q : Param} (h : SameByKey p q) : SameByKey q p :=
  ⟨h.2.1, h.1, fun k => (h.2.2 k).symm⟩

theorem SameParts.symm {a b : List (String × IdxRange)} {x y : List ℝ} (h : SameParts a b x y) :
    SameParts b a y x := fun k r s h1 h2 => (h k s r h2 h1).symm

theorem perm_items {p q : Param} (hp : p.WF) (hq : q.WF) (h : SameByKey p q) : p.items.Perm q.items := by
  cases p with
  | leaf l => exact h.1.elim
  | dict h1 es =>
    cases q with
    | leaf l => exact h.2.1.elim
    | dict h2 fs =>
      simp only [Param.WF] at hp hq
      exact Entries.perm_of_find hp.2.1 hq.2.1 h.2.2

theorem order_sizes {p q : Param} (hp : p.WF) (hq : q.WF) (h : SameByKey p q) :
    p.freeSize = q.freeSize ∧ p.vecSize = q.vecSize := by
  have hi := perm_items hp hq h
  cases p with
  | leaf l => exact h.1.elim
  | dict h1 es =>
    cases q with
    | leaf l => exact h.2.1.elim
    | dict h2 fs =>
      simp only [Param.WF] at hp hq
      simp only [Param.freeSize, Param.vecSize]
      rw [hp.2.2.1, hp.2.2.2.1, hq.2.2.1, hq.2.2.2.1, es.fsum_items, fs.fsum_items, es.vsum_items,
        fs.vsum_items]
      exact ⟨(hi.map _).sum_eq, (hi.map _).sum_eq⟩

theorem order_covers {p : Param} (hp : p.WF) (hd : p.IsDict) :
    Covers p.freeSize p.freeIndices ∧ Covers p.vecSize p.vecIndices := by
  cases p with
  | leaf l => exact hd.elim
  | dict h1 es =>
    simp only [Param.WF] at hp
    simp only [Param.freeSize, Param.vecSize, Param.freeIndices, Param.vecIndices, hp.2.2]
    have t1 := es.franges_tiles 0
    have t2 := es.vranges_tiles 0
    rw [Nat.zero_add] at t1 t2
    exact ⟨.of_tiles (by rw [es.franges_keys]; exact hp.2.1) t1,
      .of_tiles (by rw [es.vranges_keys]; exact hp.2.1) t2⟩

theorem order_matching {p q : Param} (hp : p.WF) (hq : q.WF) (h : SameByKey p q) :
    Matching p.freeIndices q.freeIndices ∧ Matching p.vecIndices q.vecIndices := by
  cases p with
  | leaf l => exact h.1.elim
  | dict h1 es =>
    cases q with
    | leaf l => exact h.2.1.elim
    | dict h2 fs =>
      simp only [Param.WF] at hp hq
      simp only [Param.freeIndices, Param.vecIndices, hp.2.2, hq.2.2]
      constructor
      · intro k r hr
        obtain ⟨a, e1, e2⟩ := Entries.floc_of_mem hp.2.1 hr
        have e3 := es.floc_find k 0
        rw [e1] at e3
        obtain ⟨i, e4⟩ := Entries.exists_floc ((h.2.2 k).symm.trans e3.symm) 0
        exact ⟨_, Entries.floc_mem e4, by simp [e2]⟩
      · intro k r hr
        obtain ⟨a, e1, e2⟩ := Entries.vloc_of_mem hp.2.1 hr
        have e3 := es.vloc_find k 0
        rw [e1] at e3
        obtain ⟨i, e4⟩ := Entries.exists_vloc ((h.2.2 k).symm.trans e3.symm) 0
        exact ⟨_, Entries.vloc_mem e4, by simp [e2]⟩

/-- **C183** Two dictionaries that hold the same parameters under the same keys, pushed in whatever
order.  A fixed permutation of the indices rearranges every free vector of the one into the free vector of
the other that holds the same numbers under every key, and likewise for the vectors. -/
theorem C183_rearrangement {eigh : Eigh} (he : EighContract eigh) (p q : Param) (hp : Built eigh p)
    (hq : Built eigh q) (h : SameByKey p q) :
    p.freeSize = q.freeSize ∧ p.vecSize = q.vecSize ∧
    (∃ σ : Equiv.Perm (Fin p.freeSize), ∀ x y : List ℝ, x.length = p.freeSize → y.length = p.freeSize →
      (SameParts p.freeIndices q.freeIndices x y ↔ ∀ i : Fin p.freeSize, y.getD i 0 = x.getD (σ i) 0)) ∧
    ∃ σ : Equiv.Perm (Fin p.vecSize), ∀ x y : List ℝ, x.length = p.vecSize → y.length = p.vecSize →
      (SameParts p.vecIndices q.vecIndices x y ↔ ∀ i : Fin p.vecSize, y.getD i 0 = x.getD (σ i) 0) := by
  have hwp := hp.wf he
  have hwq := hq.wf he
  obtain ⟨s1, s2⟩ := order_sizes hwp hwq h
  obtain ⟨c1, c2⟩ := order_covers hwp h.1
  obtain ⟨d1, d2⟩ := order_covers hwq h.2.1
  obtain ⟨m1, m2⟩ := order_matching hwp hwq h
  obtain ⟨n1, n2⟩ := order_matching hwq hwp h.symm
  exact ⟨s1, s2, exists_perm c1 (s1 ▸ d1) n1 m1, exists_perm c2 (s2 ▸ d2) n2 m2⟩

theorem part_eq {k : String} {a : Param} {es fs : Entries} {x y : List ℝ} {i j : ℕ}
    (hxy : SameParts (es.franges 0) (fs.franges 0) x y) (h1 : es.floc k 0 = some (a, i))
    (h2 : fs.floc k 0 = some (a, j)) : Leaf.slice x i a.freeSize = Leaf.slice y j a.freeSize := by
  have := hxy k _ _ (Entries.floc_mem h1) (Entries.floc_mem h2)
  simpa [IdxRange.part, Leaf.slice] using this

theorem vpart_eq {k : String} {a : Param} {es fs : Entries} {x y : List ℝ} {i j : ℕ}
    (hxy : SameParts (es.vranges 0) (fs.vranges 0) x y) (h1 : es.vloc k 0 = some (a, i))
    (h2 : fs.vloc k 0 = some (a, j)) : Leaf.slice x i a.vecSize = Leaf.slice y j a.vecSize := by
  have := hxy k _ _ (Entries.vloc_mem h1) (Entries.vloc_mem h2)
  simpa [IdxRange.part, Leaf.slice] using this

theorem order_freeP {p q : Param} (hp : p.WF) (hq : q.WF) (h : SameByKey p q) {x y : List ℝ}
    (hxy : SameParts p.freeIndices q.freeIndices x y) : SameByKey (p.freeP x) (q.freeP y) := by
  cases p with
  | leaf l => exact h.1.elim
  | dict h1 es =>
    cases q with
    | leaf l => exact h.2.1.elim
    | dict h2 fs =>
      simp only [Param.WF] at hp hq
      simp only [Param.freeIndices, hp.2.2, hq.2.2] at hxy
      refine ⟨trivial, trivial, fun k => ?_⟩
      simp only [Param.freeP, Param.find]
      have e1 := Entries.find_freeE k es x 0
      have e2 := Entries.find_freeE k fs y 0
      rw [List.drop_zero] at e1 e2
      rw [e1, e2]
      cases hf : es.find k with
      | none =>
        have hf' : fs.find k = none := (h.2.2 k).symm.trans hf
        rw [← es.floc_find k 0, Option.map_eq_none_iff] at hf
        rw [← fs.floc_find k 0, Option.map_eq_none_iff] at hf'
        rw [hf, hf']
        rfl
      | some a =>
        obtain ⟨i, hi⟩ := Entries.exists_floc hf 0
        obtain ⟨j, hj⟩ := Entries.exists_floc ((h.2.2 k).symm.trans hf) 0
        rw [hi, hj]
        simp only [Option.map_some]
        rw [part_eq hxy hi hj]

theorem order_vecP {p q : Param} (hp : p.WF) (hq : q.WF) (h : SameByKey p q) {x y : List ℝ}
    (hxy : SameParts p.vecIndices q.vecIndices x y) : SameByKey (p.vecP x) (q.vecP y) := by
  cases p with
  | leaf l => exact h.1.elim
  | dict h1 es =>
    cases q with
    | leaf l => exact h.2.1.elim
    | dict h2 fs =>
      simp only [Param.WF] at hp hq
      simp only [Param.vecIndices, hp.2.2, hq.2.2] at hxy
      refine ⟨trivial, trivial, fun k => ?_⟩
      simp only [Param.vecP, Param.find]
      have e1 := Entries.find_vecE k es x 0
      have e2 := Entries.find_vecE k fs y 0
      rw [List.drop_zero] at e1 e2
      rw [e1, e2]
      cases hf : es.find k with
      | none =>
        have hf' : fs.find k = none := (h.2.2 k).symm.trans hf
        rw [← es.vloc_find k 0, Option.map_eq_none_iff] at hf
        rw [← fs.vloc_find k 0, Option.map_eq_none_iff] at hf'
        rw [hf, hf']
        rfl
      | some a =>
        obtain ⟨i, hi⟩ := Entries.exists_vloc hf 0
        obtain ⟨j, hj⟩ := Entries.exists_vloc ((h.2.2 k).symm.trans hf) 0
        rw [hi, hj]
        simp only [Option.map_some]
        rw [vpart_eq hxy hi hj]

theorem order_ftvP {p q : Param} (hp : p.WF) (hq : q.WF) (h : SameByKey p q) {x y : List ℝ}
    (hx : x.length = p.freeSize) (hy : y.length = q.freeSize)
    (hxy : SameParts p.freeIndices q.freeIndices x y) :
    SameParts p.vecIndices q.vecIndices (p.ftvP x) (q.ftvP y) := by
  cases p with
  | leaf l => exact h.1.elim
  | dict h1 es =>
    cases q with
    | leaf l => exact h.2.1.elim
    | dict h2 fs =>
      simp only [Param.WF] at hp hq
      simp only [Param.freeSize] at hx hy
      simp only [Param.freeIndices, Param.vecIndices, hp.2.2, hq.2.2] at hxy ⊢
      intro k r s hr hs
      obtain ⟨a, e1, e2⟩ := Entries.vloc_of_mem hp.2.1 hr
      obtain ⟨b, f1, f2⟩ := Entries.vloc_of_mem hq.2.1 hs
      have e3 := es.vloc_find k 0
      have f3 := fs.vloc_find k 0
      rw [e1] at e3
      rw [f1] at f3
      have hab : a = b := by
        have := (h.2.2 k).symm.trans e3.symm
        simp only [Param.find] at this
        rw [← f3] at this
        exact (Option.some.inj this).symm
      subst hab
      obtain ⟨i, hi⟩ := Entries.exists_floc e3.symm 0
      obtain ⟨j, hj⟩ := Entries.exists_floc f3.symm 0
      have a1 := Entries.ftvE_slice hp.1 (x := x) (by rw [hx, hp.2.2.1]; simp) hi e1
      have a2 := Entries.ftvE_slice hq.1 (x := y) (by rw [hy, hq.2.2.1]; simp) hj f1
      rw [part_eq hxy hi hj, ← a2] at a1
      simpa [IdxRange.part, Leaf.slice, e2, f2, Param.ftvP] using a1

theorem order_hasParams {p q : Param} (hp : p.WF) (hq : q.WF) (h : SameByKey p q) (hh : p.HasParams) :
    q.HasParams := by
  have hi := perm_items hp hq h
  cases p with
  | leaf l => exact h.1.elim
  | dict h1 es =>
    cases q with
    | leaf l => exact h.2.1.elim
    | dict h2 fs =>
      intro e
      subst e
      apply hh
      cases es with
      | nil => rfl
      | cons k a rest => exact absurd hi.length_eq (by simp [Param.items, Entries.toList])

theorem Entries.proper_iff : ∀ es : Entries, es.Proper ↔ ∀ kp ∈ es.toList, kp.2.Proper
  | .nil => by simp [Entries.Proper, Entries.toList]
  | .cons k p rest => by simp [Entries.Proper, Entries.toList, Entries.proper_iff rest]

theorem order_proper {p q : Param} (hp : p.WF) (hq : q.WF) (h : SameByKey p q) (hh : p.Proper) : q.Proper := by
  have hi := perm_items hp hq h
  cases p with
  | leaf l => exact h.1.elim
  | dict h1 es =>
    cases q with
    | leaf l => exact h.2.1.elim
    | dict h2 fs =>
      simp only [Param.Proper, Entries.proper_iff] at hh ⊢
      exact fun kp hk => hh kp (hi.mem_iff.mpr hk)

theorem getFreeEntries_iff : ∀ es : Entries,
    (∃ xs, Param.getFreeEntries es = .ok xs) ↔ ∀ kp ∈ es.toList, ∃ x, kp.2.getFree = .ok x
  | .nil => by simp [Param.getFreeEntries, Entries.toList]
  | .cons k p rest => by
    simp only [Param.getFreeEntries, Entries.toList, List.forall_mem_cons, ← getFreeEntries_iff rest]
    constructor
    · rintro ⟨xs, h⟩
      obtain ⟨y, h1, h⟩ := py_bind_ok h
      obtain ⟨ys, h2, h⟩ := py_bind_ok h
      exact ⟨⟨y, h1⟩, ys, h2⟩
    · rintro ⟨⟨y, h1⟩, ys, h2⟩
      exact ⟨y :: ys, by rw [h1, h2]; rfl⟩

theorem order_getFree {p q : Param} (hp : p.WF) (hq : q.WF) (h : SameByKey p q) {x : List ℝ}
    (hx : p.getFree = .ok x) : ∃ y, q.getFree = .ok y := by
  have hi := perm_items hp hq h
  cases p with
  | leaf l => exact h.1.elim
  | dict h1 es =>
    cases q with
    | leaf l => exact h.2.1.elim
    | dict h2 fs =>
      simp only [Param.getFree] at hx ⊢
      obtain ⟨xs, e1, e2⟩ := py_bind_ok hx
      obtain ⟨ys, e3⟩ := (getFreeEntries_iff fs).mpr fun kp hk =>
        (getFreeEntries_iff es).mp ⟨xs, e1⟩ kp (hi.mem_iff.mpr hk)
      refine ⟨ys.flatten, ?_⟩
      rw [e3]
      cases fs with
      | nil =>
        exfalso
        have : es = .nil := by
          cases es with
          | nil => rfl
          | cons k a rest => exact absurd hi.length_eq (by simp [Param.items, Entries.toList])
        subst this
        simp only [Param.getFreeEntries] at e1
        cases e1
        simp [Arr.hstack] at e2
      | cons k a rest =>
        simp only [Param.getFreeEntries] at e3
        obtain ⟨y, -, e3⟩ := py_bind_ok e3
        obtain ⟨ys', -, e3⟩ := py_bind_ok e3
        cases e3
        rfl

/-- **C183** Vectors that hold the same numbers under every key are the same for the two dictionaries:
`set_free` and `set_vector` leave the same parameters under every key, and what `free_to_vector`,
`get_vector` and `get_free` return holds the same numbers under every key. -/
theorem C183_calls {eigh : Eigh} (he : EighContract eigh) (p q : Param) (hp : Built eigh p)
    (hq : Built eigh q) (hpp : p.HasParams) (h : SameByKey p q) :
    (∀ x y : List ℝ, x.length = p.freeSize → y.length = q.freeSize →
      SameParts p.freeIndices q.freeIndices x y →
      ∃ p' q' v w, p.setFree x = (p', none) ∧ q.setFree y = (q', none) ∧ SameByKey p' q' ∧
        p.freeToVectorVal x = .ok v ∧ q.freeToVectorVal y = .ok w ∧
        SameParts p.vecIndices q.vecIndices v w) ∧
    (∀ x y : List ℝ, x.length = p.vecSize → y.length = q.vecSize →
      SameParts p.vecIndices q.vecIndices x y →
      ∃ p' q', p.setVector x = (p', none) ∧ q.setVector y = (q', none) ∧ SameByKey p' q') ∧
    (p.Proper → ∃ v w, p.getVector = .ok v ∧ q.getVector = .ok w ∧
      SameParts p.vecIndices q.vecIndices v w) ∧
    (p.Proper → ∀ x, p.getFree = .ok x → ∃ y, q.getFree = .ok y ∧
      SameParts p.freeIndices q.freeIndices x y) := by
  have hwp := hp.wf he
  have hwq := hq.wf he
  have hqq := order_hasParams hwp hwq h hpp
  refine ⟨fun x y hx hy hxy => ?_, fun x y hx hy hxy => ?_, fun hpr => ?_, fun hpr x hx => ?_⟩
  · exact ⟨_, _, _, _, p.setFree_ok hwp x hx, q.setFree_ok hwq y hy, order_freeP hwp hwq h hxy,
      (p.freeToVectorVal_ok hwp hpp x hx).1, (q.freeToVectorVal_ok hwq hqq y hy).1,
      order_ftvP hwp hwq h hx hy hxy⟩
  · exact ⟨_, _, p.setVector_ok hwp x hx, q.setVector_ok hwq y hy, order_vecP hwp hwq h hxy⟩
  · have hqr := order_proper hwp hwq h hpr
    obtain ⟨v, v1, -⟩ := p.getVector_proper hwp hpp hpr
    obtain ⟨w, w1, -⟩ := q.getVector_proper hwq hqq hqr
    refine ⟨v, w, v1, w1, fun k r s hr hs => ?_⟩
    obtain ⟨a, a1, a2, a3⟩ := C35_vector_slices he p hp hpr v v1 k r hr
    obtain ⟨b, b1, b2, b3⟩ := C35_vector_slices he q hq hqr w w1 k s hs
    rw [h.2.2 k, b1] at a1
    cases a1
    rw [a3] at b3
    simpa [IdxRange.part, a2, b2] using Except.ok.inj b3
  · have hqr := order_proper hwp hwq h hpr
    obtain ⟨y, hy⟩ := order_getFree hwp hwq h hx
    refine ⟨y, hy, fun k r s hr hs => ?_⟩
    obtain ⟨a, a1, a2, a3⟩ := C35_free_slices he p hp hpr x hx k r hr
    obtain ⟨b, b1, b2, b3⟩ := C35_free_slices he q hq hqr y hy k s hs
    rw [h.2.2 k, b1] at a1
    cases a1
    rw [a3] at b3
    simpa [IdxRange.part, a2, b2] using Except.ok.inj b3

/-! ### Sensitivities -/

theorem Entries.find_mark (b : Bool) (k : String) : ∀ es : Entries, (es.mark b).find k = (es.find k).map (Param.mark b)
  | .nil => rfl
  | .cons k' p rest => by
    simp only [Entries.mark, Entries.find]
    split_ifs
    · rfl
    · exact Entries.find_mark b k rest

theorem SameByKey.mark {p q : Param} (h : SameByKey p q) (b : Bool) : SameByKey (p.mark b) (q.mark b) := by
  cases p with
  | leaf l => exact h.1.elim
  | dict h1 es =>
    cases q with
    | leaf l => exact h.2.1.elim
    | dict h2 fs =>
      refine ⟨trivial, trivial, fun k => ?_⟩
      have := h.2.2 k
      simp only [Param.find] at this
      simp only [Param.mark, Param.find, Entries.find_mark, this]

section
variable {n m : ℕ}

/-- The rearrangement of vectors. -/
def permL (σ : Equiv.Perm (Fin n)) : (Fin n → ℝ) ≃L[ℝ] (Fin n → ℝ) :=
  (LinearEquiv.funCongrLeft ℝ ℝ σ).toContinuousLinearEquiv

theorem permL_apply (σ : Equiv.Perm (Fin n)) (u : Fin n → ℝ) (i : Fin n) : permL σ u i = u (σ i) := rfl

/-- `σ` rearranges vectors into those that are related to them. -/
def Rearranges (R : List ℝ → List ℝ → Prop) (σ : Equiv.Perm (Fin n)) : Prop :=
  ∀ x y : List ℝ, x.length = n → y.length = n → (R x y ↔ toVec n y = permL σ (toVec n x))

theorem rearranges_of {R : List ℝ → List ℝ → Prop} {σ : Equiv.Perm (Fin n)}
    (h : ∀ x y : List ℝ, x.length = n → y.length = n → (R x y ↔ ∀ i : Fin n, y.getD i 0 = x.getD (σ i) 0)) :
    Rearranges R σ := by
  intro a b ha hb
  rw [h a b ha hb]
  constructor
  · intro hh; funext i; exact hh i
  · intro hh i; exact congrFun hh i

theorem Rearranges.back {R : List ℝ → List ℝ → Prop} {σ : Equiv.Perm (Fin n)} (h : Rearranges R σ) (y : List ℝ)
    (hy : y.length = n) : ∃ x : List ℝ, x.length = n ∧ toVec n x = (permL σ).symm (toVec n y) ∧ R x y := by
  obtain ⟨x, h1, h2⟩ := exists_toVec ((permL σ).symm (toVec n y))
  exact ⟨x, h1, h2, (h x y h1 hy).mpr (by rw [h2]; simp)⟩

theorem rearranged_evaluates {p q hyperPar : Param} {fn : Param → Param → Py Arr} {free : Bool}
    {F : (Fin n → ℝ) × (Fin m → ℝ) → ℝ} {σ : Equiv.Perm (Fin n)} {R : List ℝ → List ℝ → Prop} (hp : p.WF) (hq : q.WF)
    (hn : p.freeSize = n) (hn' : q.freeSize = n) (hσ : Rearranges R σ)
    (hfn : ∀ x y h, R x y → fn ((p.freeP x).mark false) h = fn ((q.freeP y).mark false) h)
    (hev : Evaluates p hyperPar fn true free F) :
    Evaluates q hyperPar fn true free fun z => F ((permL σ).symm z.1, z.2) := by
  intro y1 y2 hy1 hy2
  obtain ⟨x1, a1, a2, a3⟩ := hσ.back y1 hy1
  have := hev x1 y2 a1 hy2
  rw [a2] at this
  rw [← this]
  simp only [TwoObjective.evalFun, setPar, if_true]
  rw [p.setFree_ok hp x1 (a1.trans hn.symm), q.setFree_ok hq y1 (hy1.trans hn'.symm)]
  simp only
  split
  · rfl
  · exact (hfn _ _ _ a3).symm

theorem rearranged_converts {p q outputPar : Param} {conv : Param → Param → Param × Option PyErr} {r : ℕ}
    {K : (Fin n → ℝ) → ℕ → ℝ} {σ : Equiv.Perm (Fin n)} {R : List ℝ → List ℝ → Prop} (hp : p.WF) (hq : q.WF)
    (hn : p.freeSize = n) (hn' : q.freeSize = n) (hσ : Rearranges R σ)
    (hconv : ∀ x y h, R x y → conv ((p.freeP x).mark false) h = conv ((q.freeP y).mark false) h)
    (hK : Converts p outputPar conv r K) :
    Converts q outputPar conv r fun u => K ((permL σ).symm u) := by
  intro o ho y hy
  obtain ⟨x, a1, a2, a3⟩ := hσ.back y hy
  have := hK o ho x a1
  rw [a2] at this
  rw [← this]
  simp only [Converter.convert, setPar, if_true]
  rw [p.setFree_ok hp x (a1.trans hn.symm), q.setFree_ok hq y (hy.trans hn'.symm)]
  simp only
  rw [hconv _ _ _ a3]
  split <;> rfl

theorem order_evaluates {p q hyperPar : Param} {fn : Param → Param → Py Arr} {free : Bool}
    {F : (Fin n → ℝ) × (Fin m → ℝ) → ℝ} {σ : Equiv.Perm (Fin n)} (hp : p.WF) (hq : q.WF) (h : SameByKey p q)
    (hn : p.freeSize = n) (hσ : Rearranges (SameParts p.freeIndices q.freeIndices) σ) (hfn : ReadsByKey fn)
    (hev : Evaluates p hyperPar fn true free F) :
    Evaluates q hyperPar fn true free fun z => F ((permL σ).symm z.1, z.2) :=
  rearranged_evaluates hp hq hn ((order_sizes hp hq h).1.symm.trans hn) hσ
    (fun _ _ _ hr => hfn _ _ _ ((order_freeP hp hq h hr).mark false)) hev

/-- Column `j` of a matrix of `n` rows. -/
def column (n : ℕ) (a : Arr) (j : ℕ) : List ℝ := (List.range n).map fun i => a.at2 i j

theorem toVec_column (J : Arr) (j : ℕ) : toVec n (column n J j) = fun i : Fin n => J.at2 i j := by
  funext i
  have hi := i.2
  simp only [column, toVec, List.getD_eq_getElem?_getD]
  rw [List.getElem?_map, List.getElem?_range hi]
  rfl

/-- Two sensitivities whose inputs are rearranged. -/
theorem rearranged_sensitivity {F G : (Fin n → ℝ) × (Fin m → ℝ) → ℝ} {K : (Fin n → ℝ) → ℕ → ℝ}
    {eigh : Eigh} {objFn : Param → Param → Py Arr} {p q outputPar hyperPar : Param}
    {conv : Param → Param → Param × Option PyErr} {optInput optInput' : Option (List ℝ)}
    {hyperFn : Option (Param → Param → Py Arr)} {x y e : List ℝ}
    (hS : SensSetting F G K eigh objFn p outputPar hyperPar conv optInput hyperFn x e)
    {R : List ℝ → List ℝ → Prop} {σ : Equiv.Perm (Fin n)} (hσ : Rearranges R σ)
    (evF' : Evaluates q hyperPar objFn true false fun z => F ((permL σ).symm z.1, z.2))
    (evG' : Evaluates q hyperPar (hyperFn.getD objFn) true false fun z => G ((permL σ).symm z.1, z.2))
    (conv' : Converts q outputPar conv outputPar.vecSize fun u => K ((permL σ).symm u))
    (hy : y.length = n) (hxy : R x y)
    (hopt : optInput' = some y ∨ optInput' = none ∧ q.getFree = .ok y)
    (hpc : PositiveCurvature F (toVec n x) (toVec m e))
    (hcrit : fderiv ℝ (fun u => F (u, toVec m e)) (toVec n x) = 0) :
    ∃ S S' J J', Sens.new objFn p outputPar hyperPar conv optInput none hyperFn = .ok S ∧
      Sens.new objFn q outputPar hyperPar conv optInput' none hyperFn = .ok S' ∧
      S.doutputDhyper = .ok J ∧ S'.doutputDhyper = .ok J' ∧ IsMat J outputPar.vecSize m ∧
      IsMat J' outputPar.vecSize m ∧ (∀ i < outputPar.vecSize, ∀ j < m, J.at2 i j = J'.at2 i j) ∧
      IsMat S.dinputDhyper n m ∧ IsMat S'.dinputDhyper n m ∧
      (∀ j < m, R (column n S.dinputDhyper j) (column n S'.dinputDhyper j)) ∧
      ∀ new : List ℝ, new.length = m → ∃ u w, S.predictInput new = .ok u ∧ S'.predictInput new = .ok w ∧
        R u w := by
  have hT : toVec n y = permL σ (toVec n x) := (hσ x y hS.lenX hy).mp hxy
  have hTs : (permL σ).symm (toVec n y) = toVec n x := by rw [hT]; simp
  have hlin : ContDiff ℝ 2 fun z : (Fin n → ℝ) × (Fin m → ℝ) => ((permL σ).symm z.1, z.2) :=
    ((permL σ).symm.contDiff.comp contDiff_fst).prodMk contDiff_snd
  have hS' : SensSetting (fun z => F ((permL σ).symm z.1, z.2)) (fun z => G ((permL σ).symm z.1, z.2))
      (fun u => K ((permL σ).symm u)) eigh objFn q outputPar hyperPar conv optInput' hyperFn y e := by
    obtain ⟨g, hg⟩ := hS.part
    exact ⟨hS.contract, hS.smoothF.comp hlin, hS.smoothG.comp hlin,
      ⟨fun u => g ((permL σ).symm u), fun u v => hg _ _⟩, hS.pos,
      evF', evG', hy, hS.lenE,
      hS.assigns, hS.built, hS.params, hS.proper, hS.outPos,
      fun i hi => (hS.smoothK i hi).comp (permL σ).symm.differentiable,
      conv', hS.holdsE, hopt⟩
  have hpc' : PositiveCurvature (fun z => F ((permL σ).symm z.1, z.2)) (toVec n y) (toVec m e) := by
    intro u hu
    have := hpc ((permL σ).symm u) (by simpa using hu)
    simpa [map_add, hTs] using this
  obtain ⟨S, s1, sl, J, s2, s3, s4⟩ := C51_parametric_sensitivity hS hpc
  obtain ⟨S', t1, tl, J', t2, t3, t4⟩ := C51_parametric_sensitivity hS' hpc'
  obtain ⟨opt, o1, o2, o3, -⟩ := C51_optimum_exists hS.smoothF x e hcrit hpc
  have hc' : ContinuousAt (fun w => permL σ (opt w)) (toVec m e) :=
    ContinuousAt.comp (g := permL σ) (permL σ).continuous.continuousAt o1.continuousAt
  have h0' : permL σ (opt (toVec m e)) = toVec n y := by rw [o2, hT]
  have ho' : OptimumMap (fun z => F ((permL σ).symm z.1, z.2)) (toVec m e) fun w => permL σ (opt w) := by
    filter_upwards [o3] with w hw
    have hd : HasFDerivAt (fun u => F (u, w)) (0 : (Fin n → ℝ) →L[ℝ] ℝ)
        ((permL σ).symm (permL σ (opt w))) := by
      rw [ContinuousLinearEquiv.symm_apply_apply, ← hw]
      exact ((contDiff_left hS.smoothF w).differentiable (by norm_num) _).hasFDerivAt
    have := HasFDerivAt.comp (permL σ (opt w)) hd ((permL σ).symm.hasFDerivAt)
    simpa [Function.comp_def] using this.fderiv
  obtain ⟨A, a1, a2, a3⟩ := sl.2 opt o1.continuousAt o2 o3
  obtain ⟨A', b1, b2, b3⟩ := tl.2 _ hc' h0' ho'
  have hAA : A' = ((permL σ : (Fin n → ℝ) →L[ℝ] (Fin n → ℝ)).comp A) :=
    b1.unique (HasFDerivAt.comp (toVec m e) (permL σ).hasFDerivAt a1)
  refine ⟨S, S', J, J', s1, t1, s2, t2, s3, t3, ?_, sl.1, tl.1, ?_, ?_⟩
  · intro i hi j hj
    obtain ⟨B, c1, c2⟩ := s4 opt o1.continuousAt o2 o3 i hi
    obtain ⟨B', d1, d2⟩ := t4 _ hc' h0' ho' i hi
    simp only [ContinuousLinearEquiv.symm_apply_apply] at d1
    rw [c2 ⟨j, hj⟩, d2 ⟨j, hj⟩, c1.unique d1]
  · intro j hj
    refine (hσ _ _ (by simp [column]) (by simp [column])).mpr ?_
    rw [toVec_column, toVec_column]
    funext i
    rw [permL_apply, b2 i ⟨j, hj⟩, a2 (σ i) ⟨j, hj⟩, hAA]
    rfl
  · intro new hnew
    refine ⟨_, _, a3 new hnew, b3 new hnew, (hσ _ _ (by simp) (by simp)).mpr ?_⟩
    have hof : ∀ v : Fin n → ℝ, toVec n (List.ofFn v) = v := by
      intro v
      funext i
      simp [toVec, List.getD_eq_getElem?_getD]
    rw [hof, hof, hAA, hT, map_add]
    rfl

/-- **C183** `ParametricSensitivity` for two dictionaries that hold the same parameters under the same keys,
pushed in whatever order, with objective and converter that look up parameters by key.  If one of them is at
an optimum of positive curvature, so is the other at the same values, both objects are constructed,
`get_doutput_dhyper` is the same, and `get_dinput_dhyper` and the predicted inputs hold the same numbers
under every key. -/
theorem C183_sensitivity {F G : (Fin n → ℝ) × (Fin m → ℝ) → ℝ} {K : (Fin n → ℝ) → ℕ → ℝ}
    {eigh : Eigh} {objFn : Param → Param → Py Arr} {p q outputPar hyperPar : Param}
    {conv : Param → Param → Param × Option PyErr} {optInput optInput' : Option (List ℝ)}
    {hyperFn : Option (Param → Param → Py Arr)} {x y e : List ℝ}
    (hS : SensSetting F G K eigh objFn p outputPar hyperPar conv optInput hyperFn x e)
    (hp : Built eigh p) (hq : Built eigh q) (h : SameByKey p q) (hn : p.freeSize = n)
    (hobj : ReadsByKey objFn) (hconv : ReadsByKey conv) (hhyper : ∀ f, hyperFn = some f → ReadsByKey f)
    (hy : y.length = n) (hxy : SameParts p.freeIndices q.freeIndices x y)
    (hopt : optInput' = some y ∨ optInput' = none ∧ q.getFree = .ok y)
    (hpc : PositiveCurvature F (toVec n x) (toVec m e))
    (hcrit : fderiv ℝ (fun u => F (u, toVec m e)) (toVec n x) = 0) :
    ∃ S S' J J', Sens.new objFn p outputPar hyperPar conv optInput none hyperFn = .ok S ∧
      Sens.new objFn q outputPar hyperPar conv optInput' none hyperFn = .ok S' ∧
      S.doutputDhyper = .ok J ∧ S'.doutputDhyper = .ok J' ∧ IsMat J outputPar.vecSize m ∧
      IsMat J' outputPar.vecSize m ∧ (∀ i < outputPar.vecSize, ∀ j < m, J.at2 i j = J'.at2 i j) ∧
      IsMat S.dinputDhyper n m ∧ IsMat S'.dinputDhyper n m ∧
      (∀ j < m, SameParts p.freeIndices q.freeIndices (column n S.dinputDhyper j) (column n S'.dinputDhyper j)) ∧
      ∀ new : List ℝ, new.length = m → ∃ u w, S.predictInput new = .ok u ∧ S'.predictInput new = .ok w ∧
        SameParts p.freeIndices q.freeIndices u w := by
  have hwp := hp.wf hS.contract
  have hwq := hq.wf hS.contract
  obtain ⟨hs, -, ⟨σ, hσ0⟩, -⟩ := C183_rearrangement hS.contract p q hp hq h
  subst hn
  have hσ := rearranges_of hσ0
  have hgetD : ReadsByKey (hyperFn.getD objFn) := by
    cases hyperFn with
    | none => exact hobj
    | some f => exact hhyper f rfl
  exact rearranged_sensitivity hS hσ (order_evaluates hwp hwq h rfl hσ hobj hS.evF)
    (order_evaluates hwp hwq h rfl hσ hgetD hS.evG)
    (rearranged_converts hwp hwq rfl hs.symm hσ
      (fun _ _ _ hr => hconv _ _ _ ((order_freeP hwp hwq h hr).mark false)) hS.converts) hy hxy hopt hpc hcrit

end

/-! ### An example -/

open Flt

/-- `ScalarParam('a')` and `ScalarParam('b')`. -/
def exA : Leaf := ⟨"a", .scalar ninf pinf, Arr.scalar 1, false⟩
def exB : Leaf := ⟨"b", .scalar ninf pinf, Arr.scalar 1, false⟩

/-- The two parameters, pushed in either order. -/
def exAB : Param := ((Param.emptyDict "d").push (.leaf exA)).push (.leaf exB)
def exBA : Param := ((Param.emptyDict "d").push (.leaf exB)).push (.leaf exA)

theorem exAB_eq : exAB = .dict ⟨"d", [("a", ⟨0, 1⟩), ("b", ⟨1, 2⟩)], [("a", ⟨0, 1⟩), ("b", ⟨1, 2⟩)], 2, 2⟩
    (.cons "a" (.leaf exA) (.cons "b" (.leaf exB) .nil)) := by
  simp [exAB, Param.emptyDict, Param.push, Entries.assign, assign, Param.name, Param.freeSize, Param.vecSize,
    Leaf.freeSize, Leaf.vecSize, Kind.freeSize, Kind.vecSize, exA, exB]

theorem exBA_eq : exBA = .dict ⟨"d", [("b", ⟨0, 1⟩), ("a", ⟨1, 2⟩)], [("b", ⟨0, 1⟩), ("a", ⟨1, 2⟩)], 2, 2⟩
    (.cons "b" (.leaf exB) (.cons "a" (.leaf exA) .nil)) := by
  simp [exBA, Param.emptyDict, Param.push, Entries.assign, assign, Param.name, Param.freeSize, Param.vecSize,
    Leaf.freeSize, Leaf.vecSize, Kind.freeSize, Kind.vecSize, exA, exB]

theorem exA_built (eigh : Eigh) : Built eigh (.leaf exA) :=
  .leaf ⟨_, [], .scalar (name := "a") (lb := ninf) (ub := pinf) (val := some (Arr.scalar 1))
    (by simp [mkScalar, checkBoundsScalar, Leaf.set]), rfl⟩ trivial

theorem exB_built (eigh : Eigh) : Built eigh (.leaf exB) :=
  .leaf ⟨_, [], .scalar (name := "b") (lb := ninf) (ub := pinf) (val := some (Arr.scalar 1))
    (by simp [mkScalar, checkBoundsScalar, Leaf.set]), rfl⟩ trivial

theorem exAB_built (eigh : Eigh) : Built eigh exAB :=
  .push (.push (.empty _) (exA_built eigh) trivial trivial
      (by simp [Param.keys, Param.items, Param.emptyDict, Entries.toList])) (exB_built eigh) trivial trivial
    (by simp [Param.keys, Param.items, Param.emptyDict, Param.push, Entries.toList, Entries.assign, Param.name,
      exA, exB])

theorem exBA_built (eigh : Eigh) : Built eigh exBA :=
  .push (.push (.empty _) (exB_built eigh) trivial trivial
      (by simp [Param.keys, Param.items, Param.emptyDict, Entries.toList])) (exA_built eigh) trivial trivial
    (by simp [Param.keys, Param.items, Param.emptyDict, Param.push, Entries.toList, Entries.assign, Param.name,
      exA, exB])

theorem exAB_same : SameByKey exAB exBA := by
  rw [exAB_eq, exBA_eq]
  refine ⟨trivial, trivial, fun k => ?_⟩
  simp only [Param.find, Entries.find]
  by_cases ha : "a" = k
  · subst ha; simp
  · by_cases hb : "b" = k
    · subst hb; simp
    · simp [ha, hb]

/-- The vectors `[1, 2]` and `[2, 1]` hold the same under both keys, and `[1, 2]` and `[1, 2]` do not. -/
example : SameParts exAB.freeIndices exBA.freeIndices [1, 2] [2, 1] ∧
    ¬ SameParts exAB.freeIndices exBA.freeIndices [1, 2] [1, 2] := by
  rw [exAB_eq, exBA_eq]
  constructor
  · intro k r s hr hs
    simp only [Param.freeIndices, List.mem_cons, Prod.mk.injEq, List.not_mem_nil, or_false] at hr hs
    rcases hr with ⟨rfl, rfl⟩ | ⟨rfl, rfl⟩ <;> rcases hs with ⟨h, rfl⟩ | ⟨h, rfl⟩ <;>
      first | exact absurd h (by decide) | simp [IdxRange.part]
  · intro h
    have := h "a" ⟨0, 1⟩ ⟨1, 2⟩ (by simp [Param.freeIndices]) (by simp [Param.freeIndices])
    simp [IdxRange.part] at this

/-- The number that a scalar parameter under a key holds. -/
def look (p : Param) (k : String) : Py ℝ :=
  match p.find k with
  | none => .error .keyError
  | some a => do .ok ((← a.getVector).getD 0 0)

theorem look_congr {p q : Param} (h : SameByKey p q) (k : String) : look p k = look q k := by
  unfold look
  rw [h.2.2 k]

/-- `(a - e) ** 2 + (b - 2 * e) ** 2`. -/
def exABfn (p h : Param) : Py Arr := do
  let a ← look p "a"
  let b ← look p "b"
  let e ← h.getVector
  .ok (Arr.scalar ((a - e.getD 0 0) ^ 2 + (b - 2 * e.getD 0 0) ^ 2))

/-- The output is `a + 3 * b`. -/
def exABconv (p o : Param) : Param × Option PyErr :=
  match (do let a ← look p "a"; let b ← look p "b"; .ok (a + 3 * b) : Py ℝ) with
  | .error e => (o, some e)
  | .ok v => o.setVector [v]

def exABF : (Fin 2 → ℝ) × (Fin 1 → ℝ) → ℝ := fun z => (z.1 0 - z.2 0) ^ 2 + (z.1 1 - 2 * z.2 0) ^ 2

theorem exAB_wf : exAB.WF := by
  obtain ⟨eigh, he⟩ := exists_eigh
  exact (exAB_built eigh).wf he

theorem exAB_set (s t : ℝ) : exAB.setFree [s, t] = (exAB.freeP [s, t], none) ∧
    look ((exAB.freeP [s, t]).mark false) "a" = .ok s ∧ look ((exAB.freeP [s, t]).mark false) "b" = .ok t := by
  refine ⟨exAB.setFree_ok exAB_wf _ (by rw [exAB_eq]; rfl), ?_, ?_⟩ <;>
  rw [exAB_eq] <;>
  simp [look, Param.freeP, Entries.freeE, Param.mark, Entries.mark, Param.find, Entries.find, Param.getVector,
    Leaf.getVector, exA, exB, freeVal, Param.freeSize, Leaf.freeSize, Kind.freeSize, constrainFn_real, Arr.scalar,
    Arr.size, Arr.vec]

theorem exAB_setting (eigh : Eigh) (he : EighContract eigh) :
    SensSetting exABF exABF (fun u _ => u 0 + 3 * u 1) eigh exABfn exAB (scPar ninf)
      ((scPar ninf).vecP [0]) exABconv (some [0, 0]) none [0, 0] [0] := by
  have hw : (scPar ninf).WF := by simp [scPar, Param.WF, Kind.Legal]
  have hsm : ContDiff ℝ 2 exABF := by unfold exABF; fun_prop
  have hev : Evaluates exAB ((scPar ninf).vecP [0]) exABfn true false exABF := by
    intro y1 y2 hy1 hy2
    obtain ⟨s, t, rfl⟩ := List.length_eq_two.mp hy1
    obtain ⟨a, rfl⟩ := List.length_eq_one_iff.mp hy2
    obtain ⟨g0, g1, g2⟩ := exAB_set s t
    have hw' : ((scPar ninf).vecP [0]).WF := by simp [scPar, Param.vecP, Param.WF, Kind.Legal]
    have k2 : setPar ((scPar ninf).vecP [0]) [a] false = (((scPar ninf).vecP [0]).vecP [a], none) := by
      simp only [setPar]
      rw [if_neg (by simp), Param.setVector_ok _ hw' [a] rfl]
    have k3 : ((((scPar ninf).vecP [0]).vecP [a]).mark false).getVector = .ok [a] := by
      rw [Param.mark_getVector, Param.getVector_vecP _ hw' trivial [a] rfl]
    simp only [TwoObjective.evalFun, k2]
    simp only [setPar, if_true, g0, exABfn, g1, g2, k3]
    simp [exABF, toVec, bind, Except.bind]
  refine ⟨he, hsm, hsm, ⟨0, fun u v => by simp⟩, two_pos, hev, hev, rfl, rfl, ?_, ?_, trivial, ?_,
    one_pos, ?_, ?_, ⟨?_, ?_⟩, Or.inl rfl⟩
  · intro p q
    unfold exABconv
    split
    · rfl
    · exact Param.setVector_blank _ _
  · exact .leaf ⟨_, [], .scalar (name := "s") (lb := ninf) (ub := pinf) (val := some (Arr.scalar 1))
      (by simp [mkScalar, checkBoundsScalar, Leaf.set]), rfl⟩ trivial
  · simp [scPar, Param.Proper, Leaf.Proper, Arr.WF, Arr.size, Arr.scalar]
  · intro i _
    fun_prop
  · intro q hq y hy
    obtain ⟨s, t, rfl⟩ := List.length_eq_two.mp hy
    obtain ⟨g0, g1, g2⟩ := exAB_set s t
    have hset : q.setVector [s + 3 * t] = ((scPar ninf).vecP [s + 3 * t], none) := by
      have h0 := (scPar ninf).setVector_ok hw [s + 3 * t] rfl
      have := setPar_eq (free := false) (p := scPar ninf) (q := q) (x := [s + 3 * t]) hq.symm
        (by simp only [setPar]; rw [if_neg (by simp), h0])
      simp only [setPar] at this
      rw [if_neg (by simp), if_neg (by simp)] at this
      rw [this, h0]
    simp only [Converter.convert, setPar, if_true, g0, exABconv, g1, g2, bind, Except.bind, hset]
    simp only [Converter.readOut]
    rw [if_neg (by simp), (scPar ninf).getVector_vecP hw trivial [s + 3 * t] rfl]
    rfl
  · have h0 := (scPar ninf).setVector_ok hw [0] rfl
    have := setPar_eq (free := false) (p := scPar ninf) (q := (scPar ninf).vecP [0]) (x := [0]) rfl
      (by simp only [setPar]; rw [if_neg (by simp), h0])
    simp only [setPar] at this
    rw [if_neg (by simp), if_neg (by simp)] at this
    rw [this, h0]
  · exact (scPar ninf).getVector_vecP hw trivial [0] rfl

/-- The hypotheses of `C183_sensitivity` are met by the two dictionaries, although they are different. -/
example : ∃ eigh : Eigh, SensSetting exABF exABF (fun u _ => u 0 + 3 * u 1) eigh exABfn exAB (scPar ninf)
      ((scPar ninf).vecP [0]) exABconv (some [0, 0]) none [0, 0] [0] ∧ Built eigh exAB ∧ Built eigh exBA ∧
      SameByKey exAB exBA ∧ exAB ≠ exBA ∧ exAB.freeSize = 2 ∧ exAB.HasParams ∧ ReadsByKey exABfn ∧
      ReadsByKey exABconv ∧ SameParts exAB.freeIndices exBA.freeIndices [0, 0] [0, 0] ∧
      PositiveCurvature exABF (toVec 2 [0, 0]) (toVec 1 [0]) ∧
      fderiv ℝ (fun u => exABF (u, toVec 1 [0])) (toVec 2 [0, 0]) = 0 := by
  obtain ⟨eigh, he⟩ := exists_eigh
  have hz : toVec 2 [0, 0] = 0 := by
    funext i
    fin_cases i <;> rfl
  have hz1 : toVec 1 [0] = 0 := by
    funext i
    fin_cases i
    rfl
  refine ⟨eigh, exAB_setting eigh he, exAB_built eigh, exBA_built eigh, exAB_same, ?_, by rw [exAB_eq]; rfl,
    by rw [exAB_eq]; simp [Param.HasParams], ?_, ?_, ?_, ?_, ?_⟩
  · rw [exAB_eq, exBA_eq]
    simp
  · intro p q h hs
    simp only [exABfn, look_congr hs]
  · intro p q h hs
    simp only [exABconv, look_congr hs]
  · rw [exAB_eq, exBA_eq]
    intro k r s hr hs
    simp only [Param.freeIndices, List.mem_cons, Prod.mk.injEq, List.not_mem_nil, or_false] at hr hs
    rcases hr with ⟨rfl, rfl⟩ | ⟨rfl, rfl⟩ <;> rcases hs with ⟨h, rfl⟩ | ⟨h, rfl⟩ <;>
      simp [IdxRange.part]
  · intro u hu
    rw [hz, hz1]
    have e1 : (fun t : ℝ => exABF (0 + t • u, 0)) = fun t => (u 0 ^ 2 + u 1 ^ 2) * t ^ 2 := by
      funext t
      simp [exABF]
      ring
    rw [e1, iteratedDeriv_const_mul_field, iteratedDeriv_eq_iterate]
    simp only [Function.iterate_succ, Function.iterate_zero, Function.comp_apply, id_eq]
    have e2 : deriv (fun t : ℝ => t ^ 2) = fun t => 2 * t := by funext t; simp
    rw [e2]
    have e3 : deriv (fun t : ℝ => 2 * t) 0 = 2 := by simp
    rw [e3]
    have : 0 < u 0 ^ 2 + u 1 ^ 2 := by
      by_contra hle
      apply hu
      have h0 : u 0 = 0 := by nlinarith [sq_nonneg (u 0), sq_nonneg (u 1)]
      have h1 : u 1 = 0 := by nlinarith [sq_nonneg (u 0), sq_nonneg (u 1)]
      funext i
      fin_cases i
      · exact h0
      · exact h1
    positivity
  · rw [hz, hz1]
    have e1 : (fun u : Fin 2 → ℝ => exABF (u, 0)) = fun u => u 0 ^ 2 + u 1 ^ 2 := by
      funext u
      simp [exABF]
    rw [e1]
    have a0 : HasFDerivAt (fun u : Fin 2 → ℝ => u 0) (ContinuousLinearMap.proj 0) (0 : Fin 2 → ℝ) :=
      (ContinuousLinearMap.proj (R := ℝ) (φ := fun _ : Fin 2 => ℝ) 0).hasFDerivAt
    have a1 : HasFDerivAt (fun u : Fin 2 → ℝ => u 1) (ContinuousLinearMap.proj 1) (0 : Fin 2 → ℝ) :=
      (ContinuousLinearMap.proj (R := ℝ) (φ := fun _ : Fin 2 => ℝ) 1).hasFDerivAt
    have := ((a0.pow 2).add (a1.pow 2)).fderiv
    refine Eq.trans ?_ (this.trans ?_)
    · rfl
    · simp

end

end LRVB
