import Verif.Spec.OrderNested
import Verif.Props.OrderObjective
import Verif.Props.OrderTaylor

/-!
# C183 for nested dictionaries
-/

namespace LRVB

noncomputable section

/-! ### Lists of ranges whose parts are rearranged -/

theorem exists_perm_nested {n : ℕ} {R S : List (String × IdxRange)} (hR : Covers n R) (hS : Covers n S)
    (size : String → ℕ) (hr : ∀ k r, (k, r) ∈ R → r.stop = r.start + size k)
    (hs : ∀ k s, (k, s) ∈ S → s.stop = s.start + size k) (hSR : ∀ k s, (k, s) ∈ S → ∃ r, (k, r) ∈ R)
    (τ : String → ℕ → ℕ) (hτ : ∀ k t, t < size k → τ k t < size k)
    (hinj : ∀ k t u, t < size k → u < size k → τ k t = τ k u → t = u) (Ag : String → List ℝ → List ℝ → Prop)
    (hAg : ∀ k r s, (k, r) ∈ R → (k, s) ∈ S → ∀ u v : List ℝ, u.length = size k → v.length = size k →
      (Ag k u v ↔ ∀ t < size k, v.getD t 0 = u.getD (τ k t) 0)) :
    ∃ σ : Equiv.Perm (Fin n), ∀ x y : List ℝ, x.length = n → y.length = n →
      ((∀ k r s, (k, r) ∈ R → (k, s) ∈ S → Ag k (r.part x) (s.part y)) ↔
        ∀ i : Fin n, y.getD i 0 = x.getD (σ i) 0) := by
  have hex : ∀ i : Fin n, ∃ (j : Fin n) (k : String) (r s : IdxRange) (t : ℕ), (k, r) ∈ R ∧ (k, s) ∈ S ∧
      t < size k ∧ (i : ℕ) = s.start + t ∧ (j : ℕ) = r.start + τ k t := by
    intro i
    obtain ⟨⟨k, s⟩, ⟨h1, h2, h3⟩, -⟩ := hS.unique i i.2
    obtain ⟨r, h4⟩ := hSR k s h1
    simp only at h2 h3
    have h5 := hs k s h1
    have h6 := hr k r h4
    have h7 := hR.le k r h4
    have h8 := hτ k (i - s.start) (by omega)
    exact ⟨⟨r.start + τ k (i - s.start), by omega⟩, k, r, s, i - s.start, h4, h1, by omega, by omega, rfl⟩
  choose f k r s t h1 h2 h3 h4 h5 using hex
  have part_getD : ∀ (r : IdxRange) (x : List ℝ) (m t : ℕ), r.stop = r.start + m → t < m →
      (r.part x).getD t 0 = x.getD (r.start + t) 0 := by
    intro r x m t h ht
    simp only [IdxRange.part, List.getD_eq_getElem?_getD]
    rw [List.getElem?_take_of_lt (by omega), List.getElem?_drop]
  have inj : Function.Injective f := by
    intro a b hab
    have e : ((k a, r a) : String × IdxRange) = (k b, r b) := by
      have ha := hτ _ _ (h3 a)
      have hb := hτ _ _ (h3 b)
      have ra := hr _ _ (h1 a)
      have rb := hr _ _ (h1 b)
      have fa := h5 a
      have fb := h5 b
      refine (hR.unique (f a) (f a).2).unique ⟨h1 a, ?_, ?_⟩ ⟨h1 b, ?_, ?_⟩ <;> simp only
      · omega
      · omega
      · rw [hab]; omega
      · rw [hab]; omega
    obtain ⟨ek, er⟩ := Prod.mk.inj e
    have es : s a = s b := hS.one (k a) _ _ (h2 a) (ek ▸ h2 b)
    have hv : τ (k a) (t a) = τ (k a) (t b) := by
      have fa := h5 a
      have fb := h5 b
      rw [hab, fb, er] at fa
      rw [ek] at fa ⊢
      omega
    have ht := hinj (k a) _ _ (h3 a) (ek ▸ h3 b) hv
    ext
    rw [h4 a, h4 b, es, ht]
  refine ⟨Equiv.ofBijective f (Finite.injective_iff_bijective.mp inj), fun x y hx hy => ⟨?_, ?_⟩⟩
  · intro h i
    have l1 := hR.le _ _ (h1 i)
    have l2 := hS.le _ _ (h2 i)
    have rr := hr _ _ (h1 i)
    have ss := hs _ _ (h2 i)
    have := (hAg _ _ _ (h1 i) (h2 i) ((r i).part x) ((s i).part y)
      (by simp only [IdxRange.part, List.length_take, List.length_drop]; omega)
      (by simp only [IdxRange.part, List.length_take, List.length_drop]; omega)).mp (h _ _ _ (h1 i) (h2 i)) (t i) (h3 i)
    rw [part_getD _ _ _ _ ss (h3 i), part_getD _ _ _ _ rr (hτ _ _ (h3 i)), ← h4 i, ← h5 i] at this
    exact this
  · intro h k0 r0 s0 hr0 hs0
    have l1 := hR.le _ _ hr0
    have l2 := hS.le _ _ hs0
    have rr := hr _ _ hr0
    have ss := hs _ _ hs0
    refine (hAg _ _ _ hr0 hs0 _ _ (by simp only [IdxRange.part, List.length_take, List.length_drop]; omega)
      (by simp only [IdxRange.part, List.length_take, List.length_drop]; omega)).mpr fun t0 ht0 => ?_
    have hi : s0.start + t0 < n := by omega
    have e0 : ((k ⟨_, hi⟩, s ⟨_, hi⟩) : String × IdxRange) = (k0, s0) := by
      have a1 := h4 ⟨_, hi⟩
      have a2 := h3 ⟨_, hi⟩
      have a3 := hs _ _ (h2 ⟨_, hi⟩)
      simp only at a1
      refine (hS.unique _ hi).unique ⟨h2 _, ?_, ?_⟩ ⟨hs0, ?_, ?_⟩ <;> simp only <;> omega
    obtain ⟨ek, es⟩ := Prod.mk.inj e0
    have er : r ⟨_, hi⟩ = r0 := hR.one k0 _ _ (ek ▸ h1 _) hr0
    have et : t ⟨_, hi⟩ = t0 := by
      have a1 := h4 ⟨_, hi⟩
      rw [es] at a1
      simp only at a1
      omega
    have := h ⟨_, hi⟩
    rw [Equiv.ofBijective_apply, h5, er, ek, et] at this
    rw [part_getD _ _ _ _ ss ht0, part_getD _ _ _ _ rr (hτ _ _ ht0)]
    exact this

/-! ### The ranges of a dictionary -/

theorem indices_find {h1 : Hdr} {es : Entries} (hp : (Param.dict h1 es).WF) {free : Bool} {k : String} {r : IdxRange}
    (hr : (k, r) ∈ (Param.dict h1 es).indicesIn free) :
    ∃ a, es.find k = some a ∧ r.stop = r.start + a.sizeIn free := by
  simp only [Param.WF] at hp
  cases free
  · simp only [Param.indicesIn, Bool.false_eq_true, if_false, Param.vecIndices, hp.2.2] at hr
    obtain ⟨a, e1, e2⟩ := Entries.vloc_of_mem hp.2.1 hr
    have e3 := es.vloc_find k 0
    rw [e1] at e3
    exact ⟨a, e3.symm, by simpa [Param.sizeIn] using e2⟩
  · simp only [Param.indicesIn, if_true, Param.freeIndices, hp.2.2] at hr
    obtain ⟨a, e1, e2⟩ := Entries.floc_of_mem hp.2.1 hr
    have e3 := es.floc_find k 0
    rw [e1] at e3
    exact ⟨a, e3.symm, by simpa [Param.sizeIn] using e2⟩

theorem find_indices {h1 : Hdr} {es : Entries} (hp : (Param.dict h1 es).WF) (free : Bool) {k : String} {a : Param}
    (ha : es.find k = some a) : ∃ r, (k, r) ∈ (Param.dict h1 es).indicesIn free := by
  simp only [Param.WF] at hp
  cases free
  · obtain ⟨i, hi⟩ := Entries.exists_vloc ha 0
    refine ⟨⟨i, i + a.vecSize⟩, ?_⟩
    simp only [Param.indicesIn, Bool.false_eq_true, if_false, Param.vecIndices, hp.2.2]
    exact Entries.vloc_mem hi
  · obtain ⟨i, hi⟩ := Entries.exists_floc ha 0
    refine ⟨⟨i, i + a.freeSize⟩, ?_⟩
    simp only [Param.indicesIn, if_true, Param.freeIndices, hp.2.2]
    exact Entries.floc_mem hi

theorem indices_covers {p : Param} (hp : p.WF) (hd : p.IsDict) (free : Bool) :
    Covers (p.sizeIn free) (p.indicesIn free) := by
  obtain ⟨c1, c2⟩ := order_covers hp hd
  cases free
  · exact c2
  · exact c1

theorem size_keys {h1 : Hdr} {es : Entries} (hp : (Param.dict h1 es).WF) (free : Bool) :
    (Param.dict h1 es).sizeIn free = (es.keys.map fun k => ((es.find k).map fun a => a.sizeIn free).getD 0).sum := by
  simp only [Param.WF] at hp
  have e : ∀ free, (es.keys.map fun k => ((es.find k).map fun a => a.sizeIn free).getD 0) =
      es.toList.map fun kp => kp.2.sizeIn free := by
    intro free
    simp only [Entries.keys, List.map_map]
    refine List.map_congr_left fun kp hk => ?_
    have := (Entries.find_iff hp.2.1).mpr (show (kp.1, kp.2) ∈ es.toList from hk)
    simp [this]
  rw [e]
  cases free
  · simp only [Param.sizeIn, Bool.false_eq_true, if_false]
    rw [← es.vsum_items]
    exact hp.2.2.2.1
  · simp only [Param.sizeIn, if_true]
    rw [← es.fsum_items]
    exact hp.2.2.1

theorem mem_keys_find {es : Entries} (hn : es.keys.Nodup) {k : String} : k ∈ es.keys ↔ es.find k ≠ none := by
  constructor
  · intro h
    obtain ⟨⟨k', a⟩, h1, rfl⟩ := List.mem_map.mp h
    rw [(Entries.find_iff hn).mpr h1]
    simp
  · intro h
    obtain ⟨a, ha⟩ := Option.ne_none_iff_exists'.mp h
    exact List.mem_map.mpr ⟨_, (Entries.find_iff hn).mp ha, rfl⟩

/-- The rearrangement, for well-formed parameters. -/
theorem nested_rearrangement (free : Bool) {p q : Param} (h : SameNested p q) : p.WF → q.WF →
    p.sizeIn free = q.sizeIn free ∧ ∃ σ : Equiv.Perm (Fin (p.sizeIn free)), ∀ x y : List ℝ,
      x.length = p.sizeIn free → y.length = p.sizeIn free →
      (SameNumbers free p q x y ↔ ∀ i : Fin (p.sizeIn free), y.getD i 0 = x.getD (σ i) 0) := by
  induction h with
  | leaf l =>
    intro _ _
    refine ⟨rfl, Equiv.refl _, fun x y hx hy => ⟨?_, fun h => ?_⟩⟩
    · intro h i
      cases h with
      | leaf => rfl
      | dict h1 _ _ => exact h1.elim
    · have : y = x := by
        refine List.ext_getElem (hy.trans hx.symm) fun i hi hi' => ?_
        have := h ⟨i, hy ▸ hi⟩
        simpa [List.getD_eq_getElem?_getD, hi, hi'] using this
      subst this
      exact .leaf _ _ _
  | @dict p q hdp hdq hkeys hsub ih =>
    intro hp hq
    cases p with
    | leaf l => exact hdp.elim
    | dict h1 es =>
    cases q with
    | leaf l => exact hdq.elim
    | dict h2 fs =>
    have hp' := hp
    have hq' := hq
    simp only [Param.WF] at hp' hq'
    simp only [Param.find] at hkeys hsub ih
    have hih : ∀ k a b, es.find k = some a → fs.find k = some b → a.sizeIn free = b.sizeIn free ∧
        ∃ σ : Equiv.Perm (Fin (a.sizeIn free)), ∀ x y : List ℝ,
          x.length = a.sizeIn free → y.length = a.sizeIn free →
          (SameNumbers free a b x y ↔ ∀ i : Fin (a.sizeIn free), y.getD i 0 = x.getD (σ i) 0) :=
      fun k a b ha hb => ih k a b ha hb (Entries.wf_find hp'.1 ha).1 (Entries.wf_find hq'.1 hb).1
    have hsize : (Param.dict h1 es).sizeIn free = (Param.dict h2 fs).sizeIn free := by
      rw [size_keys hp, size_keys hq]
      have hperm : es.keys.Perm fs.keys := by
        rw [List.perm_ext_iff_of_nodup hp'.2.1 hq'.2.1]
        intro k
        rw [mem_keys_find hp'.2.1, mem_keys_find hq'.2.1, not_iff_not]
        exact hkeys k
      rw [(hperm.map _).sum_eq]
      congr 1
      refine List.map_congr_left fun k hk => ?_
      obtain ⟨b, hb⟩ := Option.ne_none_iff_exists'.mp ((mem_keys_find hq'.2.1).mp hk)
      obtain ⟨a, ha⟩ := Option.ne_none_iff_exists'.mp (fun e => (mem_keys_find hq'.2.1).mp hk ((hkeys k).mp e))
      rw [ha, hb]
      simpa using (hih k a b ha hb).1
    refine ⟨hsize, ?_⟩
    let size : String → ℕ := fun k => ((es.find k).map fun a => a.sizeIn free).getD 0
    have hτ : ∀ k, ∃ τ : ℕ → ℕ, (∀ t, t < size k → τ t < size k) ∧
        (∀ t u, t < size k → u < size k → τ t = τ u → t = u) ∧
        ∀ a b, es.find k = some a → fs.find k = some b → ∀ u v : List ℝ, u.length = size k → v.length = size k →
          (SameNumbers free a b u v ↔ ∀ t < size k, v.getD t 0 = u.getD (τ t) 0) := by
      intro k
      cases ha : es.find k with
      | none => exact ⟨id, fun t ht => ht, fun t u _ _ e => e, by simp⟩
      | some a =>
        obtain ⟨b, hb⟩ := Option.ne_none_iff_exists'.mp (fun e : fs.find k = none => by
          rw [(hkeys k).mpr e] at ha; exact nomatch ha)
        have hsz : size k = a.sizeIn free := by simp [size, ha]
        obtain ⟨-, σ, hσ⟩ := hih k a b ha hb
        refine ⟨fun t => if h : t < a.sizeIn free then σ ⟨t, h⟩ else t, ?_, ?_, ?_⟩
        · intro t ht
          rw [hsz] at ht ⊢
          simp only [ht, dif_pos]
          exact (σ ⟨t, ht⟩).2
        · intro t u ht hu e
          rw [hsz] at ht hu
          simp only [ht, hu, dif_pos] at e
          have := σ.injective (Fin.ext e)
          exact congrArg Fin.val this
        · intro a' b' ha' hb' u v hu hv
          obtain rfl := Option.some.inj ha'
          obtain rfl := Option.some.inj (hb.symm.trans hb')
          rw [hsz] at hu hv ⊢
          rw [hσ u v hu hv]
          constructor
          · intro h t ht
            simp only [ht, dif_pos]
            exact h ⟨t, ht⟩
          · intro h i
            have := h i i.2
            simpa only [i.2, dif_pos] using this
    choose τ t1 t2 t3 using hτ
    have c1 := indices_covers hp trivial free
    have c2 := indices_covers hq trivial free
    rw [← hsize] at c2
    obtain ⟨σ, hσ⟩ := exists_perm_nested c1 c2 size
      (fun k r hr => by
        obtain ⟨a, ha, e⟩ := indices_find hp hr
        simpa [size, ha] using e)
      (fun k s hs => by
        obtain ⟨b, hb, e⟩ := indices_find hq hs
        obtain ⟨a, ha⟩ := Option.ne_none_iff_exists'.mp (fun e : es.find k = none => by
          rw [(hkeys k).mp e] at hb; exact nomatch hb)
        simpa [size, ha, (hih k a b ha hb).1] using e)
      (fun k s hs => by
        obtain ⟨b, hb, e⟩ := indices_find hq hs
        obtain ⟨a, ha⟩ := Option.ne_none_iff_exists'.mp (fun e : es.find k = none => by
          rw [(hkeys k).mp e] at hb; exact nomatch hb)
        exact find_indices hp free ha)
      τ t1 t2
      (fun k u v => ∀ a b, es.find k = some a → fs.find k = some b → SameNumbers free a b u v)
      (fun k r s hr hs u v hu hv => by
        obtain ⟨a, ha, -⟩ := indices_find hp hr
        obtain ⟨b, hb, -⟩ := indices_find hq hs
        rw [← t3 k a b ha hb u v hu hv]
        constructor
        · exact fun h => h a b ha hb
        · intro h a' b' ha' hb'
          obtain rfl := Option.some.inj (ha.symm.trans ha')
          obtain rfl := Option.some.inj (hb.symm.trans hb')
          exact h)
    refine ⟨σ, fun x y hx hy => ?_⟩
    rw [← hσ x y hx hy]
    constructor
    · intro h k r s hr hs a b ha hb
      cases h with
      | dict _ _ h => exact h k r s a b hr hs ha hb
    · intro h
      exact .dict trivial trivial fun k r s a b hr hs ha hb => h k r s hr hs a b ha hb

/-- **C183** (nested dictionaries) Two dictionaries that hold the same parameters under the same keys, in nested
dictionaries too, pushed in whatever order at each level.  A fixed permutation of the indices rearranges every free
vector (or vector) of the one into that of the other that holds the same numbers for every parameter. -/
theorem C183_nested_rearrangement {eigh : Eigh} (he : EighContract eigh) (p q : Param) (hp : Built eigh p)
    (hq : Built eigh q) (h : SameNested p q) (free : Bool) :
    p.sizeIn free = q.sizeIn free ∧ ∃ σ : Equiv.Perm (Fin (p.sizeIn free)), ∀ x y : List ℝ,
      x.length = p.sizeIn free → y.length = p.sizeIn free →
      (SameNumbers free p q x y ↔ ∀ i : Fin (p.sizeIn free), y.getD i 0 = x.getD (σ i) 0) :=
  nested_rearrangement free h (hp.wf he) (hq.wf he)

/-! ### Calls -/

theorem slice_part (x : List ℝ) (i n : ℕ) : Leaf.slice x i n = IdxRange.part ⟨i, i + n⟩ x := by
  simp [IdxRange.part, Leaf.slice]

theorem nested_freeP {p q : Param} (h : SameNested p q) : p.WF → q.WF → ∀ {x y : List ℝ},
    SameNumbers true p q x y → SameNested (p.freeP x) (q.freeP y) := by
  induction h with
  | leaf l =>
    intro _ _ x y hxy
    cases hxy with
    | leaf => exact .leaf _
    | dict h1 _ _ => exact h1.elim
  | @dict p q hdp hdq hkeys hsub ih =>
    intro hp hq x y hxy
    cases p with
    | leaf l => exact hdp.elim
    | dict h1 es =>
    cases q with
    | leaf l => exact hdq.elim
    | dict h2 fs =>
    simp only [Param.WF] at hp hq
    simp only [Param.find] at hkeys hsub ih
    have e1 : ∀ k, (es.freeE x).find k = _ := fun k => by simpa using Entries.find_freeE k es x 0
    have e2 : ∀ k, (fs.freeE y).find k = _ := fun k => by simpa using Entries.find_freeE k fs y 0
    have n1 : ∀ k, (es.freeE x).find k = none ↔ es.find k = none := by
      intro k
      rw [e1, Option.map_eq_none_iff, ← es.floc_find k 0, Option.map_eq_none_iff]
    have n2 : ∀ k, (fs.freeE y).find k = none ↔ fs.find k = none := by
      intro k
      rw [e2, Option.map_eq_none_iff, ← fs.floc_find k 0, Option.map_eq_none_iff]
    refine .dict trivial trivial (fun k => ?_) fun k a b ha hb => ?_
    · simp only [Param.freeP, Param.find]
      rw [n1, n2]
      exact hkeys k
    · simp only [Param.freeP, Param.find] at ha hb
      rw [e1] at ha
      rw [e2] at hb
      obtain ⟨⟨a0, i⟩, ha0, rfl⟩ := Option.map_eq_some_iff.mp ha
      obtain ⟨⟨b0, j⟩, hb0, rfl⟩ := Option.map_eq_some_iff.mp hb
      have fa : es.find k = some a0 := by rw [← es.floc_find k 0, ha0]; rfl
      have fb : fs.find k = some b0 := by rw [← fs.floc_find k 0, hb0]; rfl
      cases hxy with
      | dict _ _ hxy =>
        refine ih k a0 b0 fa fb (Entries.wf_find hp.1 fa).1 (Entries.wf_find hq.1 fb).1 ?_
        rw [slice_part, slice_part]
        refine hxy k _ _ a0 b0 ?_ ?_ fa fb
        · simp only [Param.indicesIn, if_true, Param.freeIndices, hp.2.2]
          exact Entries.floc_mem ha0
        · simp only [Param.indicesIn, if_true, Param.freeIndices, hq.2.2]
          exact Entries.floc_mem hb0

theorem nested_vecP {p q : Param} (h : SameNested p q) : p.WF → q.WF → ∀ {x y : List ℝ},
    SameNumbers false p q x y → SameNested (p.vecP x) (q.vecP y) := by
  induction h with
  | leaf l =>
    intro _ _ x y hxy
    cases hxy with
    | leaf => exact .leaf _
    | dict h1 _ _ => exact h1.elim
  | @dict p q hdp hdq hkeys hsub ih =>
    intro hp hq x y hxy
    cases p with
    | leaf l => exact hdp.elim
    | dict h1 es =>
    cases q with
    | leaf l => exact hdq.elim
    | dict h2 fs =>
    simp only [Param.WF] at hp hq
    simp only [Param.find] at hkeys hsub ih
    have e1 : ∀ k, (es.vecE x).find k = _ := fun k => by simpa using Entries.find_vecE k es x 0
    have e2 : ∀ k, (fs.vecE y).find k = _ := fun k => by simpa using Entries.find_vecE k fs y 0
    have n1 : ∀ k, (es.vecE x).find k = none ↔ es.find k = none := by
      intro k
      rw [e1, Option.map_eq_none_iff, ← es.vloc_find k 0, Option.map_eq_none_iff]
    have n2 : ∀ k, (fs.vecE y).find k = none ↔ fs.find k = none := by
      intro k
      rw [e2, Option.map_eq_none_iff, ← fs.vloc_find k 0, Option.map_eq_none_iff]
    refine .dict trivial trivial (fun k => ?_) fun k a b ha hb => ?_
    · simp only [Param.vecP, Param.find]
      rw [n1, n2]
      exact hkeys k
    · simp only [Param.vecP, Param.find] at ha hb
      rw [e1] at ha
      rw [e2] at hb
      obtain ⟨⟨a0, i⟩, ha0, rfl⟩ := Option.map_eq_some_iff.mp ha
      obtain ⟨⟨b0, j⟩, hb0, rfl⟩ := Option.map_eq_some_iff.mp hb
      have fa : es.find k = some a0 := by rw [← es.vloc_find k 0, ha0]; rfl
      have fb : fs.find k = some b0 := by rw [← fs.vloc_find k 0, hb0]; rfl
      cases hxy with
      | dict _ _ hxy =>
        refine ih k a0 b0 fa fb (Entries.wf_find hp.1 fa).1 (Entries.wf_find hq.1 fb).1 ?_
        rw [slice_part, slice_part]
        refine hxy k _ _ a0 b0 ?_ ?_ fa fb
        · simp only [Param.indicesIn, Bool.false_eq_true, if_false, Param.vecIndices, hp.2.2]
          exact Entries.vloc_mem ha0
        · simp only [Param.indicesIn, Bool.false_eq_true, if_false, Param.vecIndices, hq.2.2]
          exact Entries.vloc_mem hb0

theorem nested_ftvP {p q : Param} (h : SameNested p q) : p.WF → q.WF → ∀ {x y : List ℝ},
    x.length = p.freeSize → y.length = q.freeSize → SameNumbers true p q x y →
    SameNumbers false p q (p.ftvP x) (q.ftvP y) := by
  induction h with
  | leaf l =>
    intro _ _ x y _ _ hxy
    cases hxy with
    | leaf => exact .leaf _ _ _
    | dict h1 _ _ => exact h1.elim
  | @dict p q hdp hdq hkeys hsub ih =>
    intro hp hq x y hx hy hxy
    cases p with
    | leaf l => exact hdp.elim
    | dict h1 es =>
    cases q with
    | leaf l => exact hdq.elim
    | dict h2 fs =>
    simp only [Param.WF] at hp hq
    simp only [Param.freeSize] at hx hy
    rw [hp.2.2.1] at hx
    rw [hq.2.2.1] at hy
    refine .dict trivial trivial fun k r s a b hr hs ha hb => ?_
    simp only [Param.indicesIn, Bool.false_eq_true, if_false, Param.vecIndices, hp.2.2, hq.2.2] at hr hs
    obtain ⟨a', e1, e2⟩ := Entries.vloc_of_mem hp.2.1 hr
    obtain ⟨b', f1, f2⟩ := Entries.vloc_of_mem hq.2.1 hs
    have e3 := es.vloc_find k 0
    have f3 := fs.vloc_find k 0
    rw [e1] at e3
    rw [f1] at f3
    obtain rfl : a' = a := Option.some.inj (e3.trans ha)
    obtain rfl : b' = b := Option.some.inj (f3.trans hb)
    obtain ⟨i, hi⟩ := Entries.exists_floc ha 0
    obtain ⟨j, hj⟩ := Entries.exists_floc hb 0
    have a1 := Entries.ftvE_slice hp.1 (x := x) (by rw [hx]; simp) hi e1
    have a2 := Entries.ftvE_slice hq.1 (x := y) (by rw [hy]; simp) hj f1
    have li := (Entries.floc_le hi).2
    have lj := (Entries.floc_le hj).2
    simp only at li lj
    cases hxy with
    | dict _ _ hxy =>
      have hab := hxy k ⟨i, i + a'.freeSize⟩ ⟨j, j + b'.freeSize⟩ a' b'
        (by simp only [Param.indicesIn, if_true, Param.freeIndices, hp.2.2]; exact Entries.floc_mem hi)
        (by simp only [Param.indicesIn, if_true, Param.freeIndices, hq.2.2]; exact Entries.floc_mem hj) ha hb
      rw [← slice_part, ← slice_part] at hab
      have := ih k a' b' ha hb (Entries.wf_find hp.1 ha).1 (Entries.wf_find hq.1 hb).1
        (by simp [Leaf.slice]; omega) (by simp [Leaf.slice]; omega) hab
      rw [← a1, ← a2] at this
      simpa [IdxRange.part, Leaf.slice, e2, f2, Param.ftvP] using this

theorem nested_hasParams {p q : Param} (hp : p.WF) (hq : q.WF) (h : SameNested p q) (hh : p.HasParams) : q.HasParams := by
  cases h with
  | leaf l => exact hh
  | dict hdp hdq hkeys _ =>
    cases p with
    | leaf l => exact hdp.elim
    | dict h1 es =>
    cases q with
    | leaf l => exact hdq.elim
    | dict h2 fs =>
    intro e
    subst e
    apply hh
    cases es with
    | nil => rfl
    | cons k a rest =>
      have := (hkeys k).mpr rfl
      simp [Param.find, Entries.find] at this

theorem nested_proper {p q : Param} (h : SameNested p q) : p.WF → q.WF → p.Proper → q.Proper := by
  induction h with
  | leaf l => exact fun _ _ h => h
  | @dict p q hdp hdq hkeys hsub ih =>
    intro hp hq hh
    cases p with
    | leaf l => exact hdp.elim
    | dict h1 es =>
    cases q with
    | leaf l => exact hdq.elim
    | dict h2 fs =>
    simp only [Param.WF] at hp hq
    simp only [Param.find] at hkeys hsub ih
    simp only [Param.Proper, Entries.proper_iff] at hh ⊢
    rintro ⟨k, b⟩ hk
    have hb := (Entries.find_iff hq.2.1).mpr hk
    obtain ⟨a, ha⟩ := Option.ne_none_iff_exists'.mp (fun e : es.find k = none => by
      rw [(hkeys k).mp e] at hb; exact nomatch hb)
    exact ih k a b ha hb (Entries.wf_find hp.1 ha).1 (Entries.wf_find hq.1 hb).1
      (hh (k, a) ((Entries.find_iff hp.2.1).mp ha))

theorem nested_getVector {p q : Param} (h : SameNested p q) : p.WF → q.WF → p.Proper → q.Proper →
    ∀ {v w : List ℝ}, p.getVector = .ok v → q.getVector = .ok w → SameNumbers false p q v w := by
  induction h with
  | leaf l =>
    intro _ _ _ _ v w hv hw
    rw [hv] at hw
    obtain rfl := Except.ok.inj hw
    exact .leaf _ _ _
  | @dict p q hdp hdq hkeys hsub ih =>
    intro hp hq hpr hqr v w hv hw
    cases p with
    | leaf l => exact hdp.elim
    | dict h1 es =>
    cases q with
    | leaf l => exact hdq.elim
    | dict h2 fs =>
    simp only [Param.WF] at hp hq
    simp only [Param.find] at hkeys hsub ih
    simp only [Param.Proper] at hpr hqr
    simp only [Param.getVector] at hv hw
    obtain ⟨vs, e1, hv⟩ := py_bind_ok hv
    obtain ⟨ws, f1, hw⟩ := py_bind_ok hw
    rw [Param.hstack_inv hv, Param.hstack_inv hw]
    refine .dict trivial trivial fun k r s a b hr hs ha hb => ?_
    simp only [Param.indicesIn, Bool.false_eq_true, if_false, Param.vecIndices, hp.2.2, hq.2.2] at hr hs
    obtain ⟨a', e2, e3⟩ := Entries.vloc_of_mem hp.2.1 hr
    obtain ⟨b', f2, f3⟩ := Entries.vloc_of_mem hq.2.1 hs
    have e4 := es.vloc_find k 0
    have f4 := fs.vloc_find k 0
    rw [e2] at e4
    rw [f2] at f4
    obtain rfl : a' = a := Option.some.inj (e4.trans ha)
    obtain rfl : b' = b := Option.some.inj (f4.trans hb)
    have e5 := Entries.getVectorEntries_slice hp.1 hpr e1 e2
    have f5 := Entries.getVectorEntries_slice hq.1 hqr f1 f2
    have := ih k a' b' ha hb (Entries.wf_find hp.1 ha).1 (Entries.wf_find hq.1 hb).1
      ((Entries.proper_iff es).mp hpr (k, a') ((Entries.find_iff hp.2.1).mp ha))
      ((Entries.proper_iff fs).mp hqr (k, b') ((Entries.find_iff hq.2.1).mp hb)) e5 f5
    simpa [IdxRange.part, Leaf.slice, e3, f3] using this

theorem nested_getFree {p q : Param} (h : SameNested p q) : p.WF → q.WF → p.Proper → q.Proper →
    ∀ {x : List ℝ}, p.getFree = .ok x → ∃ y, q.getFree = .ok y ∧ SameNumbers true p q x y := by
  induction h with
  | leaf l => exact fun _ _ _ _ x hx => ⟨x, hx, .leaf _ _ _⟩
  | @dict p q hdp hdq hkeys hsub ih =>
    intro hp hq hpr hqr x hx
    cases p with
    | leaf l => exact hdp.elim
    | dict h1 es =>
    cases q with
    | leaf l => exact hdq.elim
    | dict h2 fs =>
    simp only [Param.WF] at hp hq
    simp only [Param.find] at hkeys hsub ih
    simp only [Param.Proper] at hpr hqr
    simp only [Param.getFree] at hx ⊢
    obtain ⟨xs, e1, hx⟩ := py_bind_ok hx
    have hih : ∀ k a b, es.find k = some a → fs.find k = some b → ∀ {x : List ℝ}, a.getFree = .ok x →
        ∃ y, b.getFree = .ok y ∧ SameNumbers true a b x y := fun k a b ha hb _ hx =>
      ih k a b ha hb (Entries.wf_find hp.1 ha).1 (Entries.wf_find hq.1 hb).1
        ((Entries.proper_iff es).mp hpr (k, a) ((Entries.find_iff hp.2.1).mp ha))
        ((Entries.proper_iff fs).mp hqr (k, b) ((Entries.find_iff hq.2.1).mp hb)) hx
    obtain ⟨ys, f1⟩ := (getFreeEntries_iff fs).mpr fun kp hk => by
      obtain ⟨k, b⟩ := kp
      have hb := (Entries.find_iff hq.2.1).mpr hk
      obtain ⟨a, ha⟩ := Option.ne_none_iff_exists'.mp (fun e : es.find k = none => by
        rw [(hkeys k).mp e] at hb; exact nomatch hb)
      obtain ⟨x, hx⟩ := (getFreeEntries_iff es).mp ⟨xs, e1⟩ (k, a) ((Entries.find_iff hp.2.1).mp ha)
      obtain ⟨y, hy, -⟩ := hih k a b ha hb hx
      exact ⟨y, hy⟩
    have hne : ys ≠ [] := by
      intro e
      subst e
      cases fs with
      | cons k b rest =>
        simp only [Param.getFreeEntries] at f1
        obtain ⟨y, -, f1⟩ := py_bind_ok f1
        obtain ⟨ys', -, f1⟩ := py_bind_ok f1
        cases f1
      | nil =>
        cases es with
        | cons k a rest =>
          have := (hkeys k).mpr rfl
          simp [Entries.find] at this
        | nil =>
          simp only [Param.getFreeEntries] at e1
          cases e1
          simp [Arr.hstack] at hx
    have f0 : Arr.hstack ys = .ok ys.flatten := by
      cases ys with
      | nil => exact absurd rfl hne
      | cons y ys => rfl
    refine ⟨ys.flatten, by rw [f1]; exact f0, ?_⟩
    rw [Param.hstack_inv hx]
    refine .dict trivial trivial fun k r s a b hr hs ha hb => ?_
    simp only [Param.indicesIn, if_true, Param.freeIndices, hp.2.2, hq.2.2] at hr hs
    obtain ⟨a', e2, e3⟩ := Entries.floc_of_mem hp.2.1 hr
    obtain ⟨b', f2, f3⟩ := Entries.floc_of_mem hq.2.1 hs
    have e4 := es.floc_find k 0
    have f4 := fs.floc_find k 0
    rw [e2] at e4
    rw [f2] at f4
    obtain rfl : a' = a := Option.some.inj (e4.trans ha)
    obtain rfl : b' = b := Option.some.inj (f4.trans hb)
    have e5 := Entries.getFreeEntries_slice hp.1 hpr e1 e2
    have f5 := Entries.getFreeEntries_slice hq.1 hqr f1 f2
    obtain ⟨y, hy, this⟩ := hih k a' b' ha hb e5
    rw [f5] at hy
    obtain rfl := Except.ok.inj hy
    simpa [IdxRange.part, Leaf.slice, e3, f3] using this

theorem SameNested.mark {p q : Param} (h : SameNested p q) (b : Bool) : SameNested (p.mark b) (q.mark b) := by
  induction h with
  | leaf l => exact .leaf _
  | @dict p q hdp hdq hkeys hsub ih =>
    cases p with
    | leaf l => exact hdp.elim
    | dict h1 es =>
    cases q with
    | leaf l => exact hdq.elim
    | dict h2 fs =>
    simp only [Param.find] at hkeys hsub ih
    refine .dict trivial trivial (fun k => ?_) fun k a c ha hc => ?_
    · simp only [Param.mark, Param.find, Entries.find_mark, Option.map_eq_none_iff]
      exact hkeys k
    · simp only [Param.mark, Param.find, Entries.find_mark] at ha hc
      obtain ⟨a0, ha0, rfl⟩ := Option.map_eq_some_iff.mp ha
      obtain ⟨c0, hc0, rfl⟩ := Option.map_eq_some_iff.mp hc
      exact ih k a0 c0 ha0 hc0

/-- **C183** (nested dictionaries) Vectors that hold the same numbers for every parameter are the same for the two:
`set_free` and `set_vector` leave the same parameters, up to the order of the entries, and what `free_to_vector`,
`get_vector` and `get_free` return holds the same numbers for every parameter. -/
theorem C183_nested_calls {eigh : Eigh} (he : EighContract eigh) (p q : Param) (hp : Built eigh p)
    (hq : Built eigh q) (hpp : p.HasParams) (h : SameNested p q) :
    (∀ x y : List ℝ, x.length = p.freeSize → y.length = q.freeSize → SameNumbers true p q x y →
      ∃ p' q' v w, p.setFree x = (p', none) ∧ q.setFree y = (q', none) ∧ SameNested p' q' ∧
        p.freeToVectorVal x = .ok v ∧ q.freeToVectorVal y = .ok w ∧ SameNumbers false p q v w) ∧
    (∀ x y : List ℝ, x.length = p.vecSize → y.length = q.vecSize → SameNumbers false p q x y →
      ∃ p' q', p.setVector x = (p', none) ∧ q.setVector y = (q', none) ∧ SameNested p' q') ∧
    (p.Proper → ∃ v w, p.getVector = .ok v ∧ q.getVector = .ok w ∧ SameNumbers false p q v w) ∧
    (p.Proper → ∀ x, p.getFree = .ok x → ∃ y, q.getFree = .ok y ∧ SameNumbers true p q x y) := by
  have hwp := hp.wf he
  have hwq := hq.wf he
  have hqq := nested_hasParams hwp hwq h hpp
  refine ⟨fun x y hx hy hxy => ?_, fun x y hx hy hxy => ?_, fun hpr => ?_, fun hpr x hx =>
    nested_getFree h hwp hwq hpr (nested_proper h hwp hwq hpr) hx⟩
  · exact ⟨_, _, _, _, p.setFree_ok hwp x hx, q.setFree_ok hwq y hy, nested_freeP h hwp hwq hxy,
      (p.freeToVectorVal_ok hwp hpp x hx).1, (q.freeToVectorVal_ok hwq hqq y hy).1,
      nested_ftvP h hwp hwq hx hy hxy⟩
  · exact ⟨_, _, p.setVector_ok hwp x hx, q.setVector_ok hwq y hy, nested_vecP h hwp hwq hxy⟩
  · have hqr := nested_proper h hwp hwq hpr
    obtain ⟨v, v1, -⟩ := p.getVector_proper hwp hpp hpr
    obtain ⟨w, w1, -⟩ := q.getVector_proper hwq hqq hqr
    exact ⟨v, w, v1, w1, nested_getVector h hwp hwq hpr hqr v1 w1⟩

theorem nested_valueAt {f f' : Param → Py Arr} {p q : Param} (hp : p.WF) (hq : q.WF) (h : SameNested p q)
    (hf : ∀ p q, SameNested p q → f p = f' q) {free : Bool} {x y : List ℝ} (hx : x.length = p.sizeIn free)
    (hy : y.length = q.sizeIn free) (hxy : SameNumbers free p q x y) :
    valueAt f p free x = valueAt f' q free y := by
  cases free
  · simp only [Param.sizeIn, Bool.false_eq_true, if_false] at hx hy
    simp only [valueAt, setPar, Bool.false_eq_true, if_false]
    rw [p.setVector_ok hp x hx, q.setVector_ok hq y hy]
    exact hf _ _ ((nested_vecP h hp hq hxy).mark false)
  · simp only [Param.sizeIn, if_true] at hx hy
    simp only [valueAt, setPar, if_true]
    rw [p.setFree_ok hp x hx, q.setFree_ok hq y hy]
    exact hf _ _ ((nested_freeP h hp hq hxy).mark false)

/-- **C183** (objectives of nested dictionaries) Two objectives with such dictionaries, whose functions look up
parameters by key.  At vectors that hold the same numbers for every parameter the values are the same, or both calls
raise the same exception.  Where the value is a smooth function of the vector, gradients and products of the Hessian with
such vectors hold the same numbers for every parameter, and the Hessian is rearranged by the permutation. -/
theorem C183_nested_objective {A : Type} {eigh : Eigh} (he : EighContract eigh) (o o' : Objective A)
    (hp : Built eigh o.par) (hq : Built eigh o'.par) (h : SameNested o.par o'.par) (a : A)
    (hfn : ∀ p q, SameNested p q → o.fn a p = o'.fn a q) (free : Bool) (n : ℕ) (hn : n = o.par.sizeIn free) :
    n = o'.par.sizeIn free ∧
    (∀ x y : List ℝ, x.length = n → y.length = n → SameNumbers free o.par o'.par x y →
      o.valueIn free x a = o'.valueIn free y a) ∧
    ∃ σ : Equiv.Perm (Fin n),
      (∀ x y : List ℝ, x.length = n → y.length = n →
        (SameNumbers free o.par o'.par x y ↔ ∀ i : Fin n, y.getD i 0 = x.getD (σ i) 0)) ∧
      ∀ f : (Fin n → ℝ) → ℝ, ContDiff ℝ 2 f → 0 < n →
        (∀ x : List ℝ, x.length = n → o.valueIn free x a = .ok (Arr.scalar (f (toVec _ x)))) →
        ∀ x y v w : List ℝ, x.length = n → y.length = n → v.length = n → w.length = n →
          SameNumbers free o.par o'.par x y → SameNumbers free o.par o'.par v w →
          ∃ g g' H H' u u',
            (if free then o.funFreeGrad x a else o.funVectorGrad x a).2 = .ok g ∧
            (if free then o'.funFreeGrad y a else o'.funVectorGrad y a).2 = .ok g' ∧
            (if free then o.funFreeHessian x a else o.funVectorHessian x a).2 = .ok H ∧
            (if free then o'.funFreeHessian y a else o'.funVectorHessian y a).2 = .ok H' ∧
            (if free then o.funFreeHvp x a v else o.funVectorHvp x a v).2 = .ok u ∧
            (if free then o'.funFreeHvp y a w else o'.funVectorHvp y a w).2 = .ok u' ∧
            SameNumbers free o.par o'.par g g' ∧ IsMat H n n ∧ IsMat H' n n ∧
            (∀ i j : Fin n, H'.at2 i j = H.at2 (σ i) (σ j)) ∧ SameNumbers free o.par o'.par u u' := by
  subst hn
  have hwp := hp.wf he
  have hwq := hq.wf he
  obtain ⟨hs, σ, hσ⟩ := nested_rearrangement free h hwp hwq
  have hvals : ∀ x y : List ℝ, x.length = o.par.sizeIn free → y.length = o.par.sizeIn free →
      SameNumbers free o.par o'.par x y → o.valueIn free x a = o'.valueIn free y a := by
    intro x y hx hy hxy
    rw [o.valueIn_eq, o'.valueIn_eq]
    exact nested_valueAt hwp hwq h hfn hx (hy.trans hs) hxy
  exact ⟨hs, hvals, σ, hσ, fun f hf hpos hval x y v w hx hy hv hw hxy hvw =>
    rearranged_derivatives o o' a free σ _ hσ hvals f hf hpos hval x y v w hx hy hv hw hxy hvw⟩

/-! ### Sensitivities -/

section
open scoped ContDiff

variable {n m : ℕ} {F G : (Fin n → ℝ) × (Fin m → ℝ) → ℝ}

/-- What is needed of the rearrangement. -/
theorem nested_setting {eigh : Eigh} (he : EighContract eigh) {p q : Param} (hp : Built eigh p) (hq : Built eigh q)
    (h : SameNested p q) (hn : p.freeSize = n) :
    q.freeSize = n ∧ ∃ σ : Equiv.Perm (Fin n), Rearranges (SameNumbers true p q) σ := by
  obtain ⟨hs, σ, hσ0⟩ := nested_rearrangement true h (hp.wf he) (hq.wf he)
  subst hn
  exact ⟨hs.symm, σ, rearranges_of hσ0⟩

theorem nested_evaluates {p q hyperPar : Param} {fn : Param → Param → Py Arr} {free : Bool} {σ : Equiv.Perm (Fin n)}
    (hp : p.WF) (hq : q.WF) (h : SameNested p q) (hn : p.freeSize = n) (hn' : q.freeSize = n)
    (hσ : Rearranges (SameNumbers true p q) σ) (hfn : ReadsNested fn) (hev : Evaluates p hyperPar fn true free F) :
    Evaluates q hyperPar fn true free fun z => F ((permL σ).symm z.1, z.2) :=
  rearranged_evaluates hp hq hn hn' hσ (fun _ _ _ hr => hfn _ _ _ ((nested_freeP h hp hq hr).mark false)) hev

/-- **C183** (`ParametricSensitivity` of nested dictionaries) If one of two such dictionaries is at an optimum of positive
curvature, so is the other at the same values, both objects are constructed, `get_doutput_dhyper` is the same, and
`get_dinput_dhyper` and the predicted inputs hold the same numbers for every parameter. -/
theorem C183_nested_sensitivity {K : (Fin n → ℝ) → ℕ → ℝ}
    {eigh : Eigh} {objFn : Param → Param → Py Arr} {p q outputPar hyperPar : Param}
    {conv : Param → Param → Param × Option PyErr} {optInput optInput' : Option (List ℝ)}
    {hyperFn : Option (Param → Param → Py Arr)} {x y e : List ℝ}
    (hS : SensSetting F G K eigh objFn p outputPar hyperPar conv optInput hyperFn x e)
    (hp : Built eigh p) (hq : Built eigh q) (h : SameNested p q) (hn : p.freeSize = n)
    (hobj : ReadsNested objFn) (hconv : ReadsNested conv) (hhyper : ∀ f, hyperFn = some f → ReadsNested f)
    (hy : y.length = n) (hxy : SameNumbers true p q x y)
    (hopt : optInput' = some y ∨ optInput' = none ∧ q.getFree = .ok y)
    (hpc : PositiveCurvature F (toVec n x) (toVec m e))
    (hcrit : fderiv ℝ (fun u => F (u, toVec m e)) (toVec n x) = 0) :
    ∃ S S' J J', Sens.new objFn p outputPar hyperPar conv optInput none hyperFn = .ok S ∧
      Sens.new objFn q outputPar hyperPar conv optInput' none hyperFn = .ok S' ∧
      S.doutputDhyper = .ok J ∧ S'.doutputDhyper = .ok J' ∧ IsMat J outputPar.vecSize m ∧
      IsMat J' outputPar.vecSize m ∧ (∀ i < outputPar.vecSize, ∀ j < m, J.at2 i j = J'.at2 i j) ∧
      IsMat S.dinputDhyper n m ∧ IsMat S'.dinputDhyper n m ∧
      (∀ j < m, SameNumbers true p q (column n S.dinputDhyper j) (column n S'.dinputDhyper j)) ∧
      ∀ new : List ℝ, new.length = m → ∃ u w, S.predictInput new = .ok u ∧ S'.predictInput new = .ok w ∧
        SameNumbers true p q u w := by
  have hwp := hp.wf hS.contract
  have hwq := hq.wf hS.contract
  obtain ⟨hn', σ, hσ⟩ := nested_setting hS.contract hp hq h hn
  have hgetD : ReadsNested (hyperFn.getD objFn) := by
    cases hyperFn with
    | none => exact hobj
    | some f => exact hhyper f rfl
  exact rearranged_sensitivity hS hσ (nested_evaluates hwp hwq h hn hn' hσ hobj hS.evF)
    (nested_evaluates hwp hwq h hn hn' hσ hgetD hS.evG)
    (rearranged_converts hwp hwq hn hn' hσ
      (fun _ _ _ hr => hconv _ _ _ ((nested_freeP h hwp hwq hr).mark false)) hS.converts) hy hxy hopt hpc hcrit

/-- **C183** (Taylor expansions for nested dictionaries) All derivatives and all Taylor series hold the same numbers for
every parameter. -/
theorem C183_nested_taylor {eigh : Eigh} (hE : EighContract eigh) (hF : ContDiff ℝ ∞ F) (hn : 0 < n) (hm : 0 < m)
    (objFn : Param → Param → Py Arr) (p q hyperPar : Param) (hyperIsFree : Bool)
    (hp : Built eigh p) (hq : Built eigh q) (h : SameNested p q) (hpn : p.freeSize = n) (hobj : ReadsNested objFn)
    (hev : Evaluates p hyperPar objFn true hyperIsFree F)
    (x y e : List ℝ) (hx : x.length = n) (hy : y.length = n) (he : e.length = m)
    (hxy : SameNumbers true p q x y)
    (hcrit : fderiv ℝ (fun u => F (u, toVec m e)) (toVec n x) = 0)
    (hpc : PositiveCurvature F (toVec n x) (toVec m e)) (order : ℕ) (ho : 1 ≤ order) :
    ∃ T T', Taylor.new objFn p hyperPar x e order true hyperIsFree none none = .ok T ∧
      Taylor.new objFn q hyperPar y e order true hyperIsFree none none = .ok T' ∧
      ∀ d : List ℝ, d.length = m → ∀ k : ℕ, 1 ≤ k → k ≤ order →
        (∃ u w, (T.evaluateDk d k).2 = .ok u ∧ (T'.evaluateDk d k).2 = .ok w ∧
          u.length = n ∧ w.length = n ∧ SameNumbers true p q u w) ∧
        ∀ off, ∃ u w, (T.evaluateSeries d off (some k)).2 = .ok u ∧ (T'.evaluateSeries d off (some k)).2 = .ok w ∧
          u.length = n ∧ w.length = n ∧ SameNumbers true p q u w := by
  obtain ⟨hn', σ, hσ⟩ := nested_setting hE hp hq h hpn
  exact rearranged_taylor hF hn hm objFn p q hyperPar hyperIsFree hσ hev
    (nested_evaluates (hp.wf hE) (hq.wf hE) h hpn hn' hσ hobj hev) x y e hx hy he hxy hcrit hpc order ho

/-- **C183** (linear approximations for nested dictionaries) The sensitivities and the predictions hold the same numbers
for every parameter. -/
theorem C183_nested_linear_approximation {eigh : Eigh} (hE : EighContract eigh) (hF : ContDiff ℝ 2 F)
    (hG : ContDiff ℝ 2 G) (g : (Fin n → ℝ) → ℝ) (hFG : ∀ u v, F (u, v) = G (u, v) + g u) (hn : 0 < n)
    (objFn : Param → Param → Py Arr) (hyperFn : Option (Param → Param → Py Arr)) (p q hyperPar : Param)
    (hp : Built eigh p) (hq : Built eigh q) (h : SameNested p q) (hpn : p.freeSize = n) (hobj : ReadsNested objFn)
    (hhyper : ∀ f, hyperFn = some f → ReadsNested f)
    (hev : Evaluates p hyperPar objFn true false F) (hevG : Evaluates p hyperPar (hyperFn.getD objFn) true false G)
    (x y e : List ℝ) (hx : x.length = n) (hy : y.length = n) (he : e.length = m)
    (hxy : SameNumbers true p q x y)
    (hcrit : fderiv ℝ (fun u => F (u, toVec m e)) (toVec n x) = 0)
    (hpc : PositiveCurvature F (toVec n x) (toVec m e)) :
    ∃ T T', LinApprox.new objFn p hyperPar x e true false none hyperFn = .ok T ∧
      LinApprox.new objFn q hyperPar y e true false none hyperFn = .ok T' ∧
      IsMat T.dinputDhyper n m ∧ IsMat T'.dinputDhyper n m ∧
      (∀ j < m, SameNumbers true p q (column n T.dinputDhyper j) (column n T'.dinputDhyper j)) ∧
      ∀ new : List ℝ, new.length = m → ∃ u w, T.predictInput new = .ok u ∧ T'.predictInput new = .ok w ∧
        u.length = n ∧ w.length = n ∧ SameNumbers true p q u w := by
  obtain ⟨hn', σ, hσ⟩ := nested_setting hE hp hq h hpn
  have hgetD : ReadsNested (hyperFn.getD objFn) := by
    cases hyperFn with
    | none => exact hobj
    | some f => exact hhyper f rfl
  exact rearranged_linear_approximation hF hG g hFG hn objFn hyperFn p q hyperPar hσ hev hevG
    (nested_evaluates (hp.wf hE) (hq.wf hE) h hpn hn' hσ hobj hev)
    (nested_evaluates (hp.wf hE) (hq.wf hE) h hpn hn' hσ hgetD hevG) x y e hx hy he hxy hcrit hpc

end

/-! ### An example -/

open Flt

/-- `{'a': .., 'd': {'a': .., 'b': ..}}`, and the same with both dictionaries pushed in the other order. -/
def exOut : Param := ((Param.emptyDict "o").push (.leaf exA)).push exAB
def exOut' : Param := ((Param.emptyDict "o").push exBA).push (.leaf exA)

theorem exOut_eq : exOut = .dict ⟨"o", [("a", ⟨0, 1⟩), ("d", ⟨1, 3⟩)], [("a", ⟨0, 1⟩), ("d", ⟨1, 3⟩)], 3, 3⟩
    (.cons "a" (.leaf exA) (.cons "d" exAB .nil)) := by
  rw [exOut, exAB_eq]
  simp [Param.emptyDict, Param.push, Entries.assign, assign, Param.name, Param.freeSize, Param.vecSize,
    Leaf.freeSize, Leaf.vecSize, Kind.freeSize, Kind.vecSize, exA, exB]

theorem exOut'_eq : exOut' = .dict ⟨"o", [("d", ⟨0, 2⟩), ("a", ⟨2, 3⟩)], [("d", ⟨0, 2⟩), ("a", ⟨2, 3⟩)], 3, 3⟩
    (.cons "d" exBA (.cons "a" (.leaf exA) .nil)) := by
  rw [exOut', exBA_eq]
  simp [Param.emptyDict, Param.push, Entries.assign, assign, Param.name, Param.freeSize, Param.vecSize,
    Leaf.freeSize, Leaf.vecSize, Kind.freeSize, Kind.vecSize, exA, exB]

theorem exOut_built (eigh : Eigh) : Built eigh exOut :=
  .push (.push (.empty _) (exA_built eigh) trivial trivial
      (by simp [Param.keys, Param.items, Param.emptyDict, Entries.toList])) (exAB_built eigh) trivial
    (by rw [exAB_eq]; simp [Param.HasParams])
    (by rw [exAB_eq]; simp [Param.keys, Param.items, Param.emptyDict, Param.push, Entries.toList, Entries.assign, Param.name,
      exA, exB])

theorem exOut'_built (eigh : Eigh) : Built eigh exOut' :=
  .push (.push (.empty _) (exBA_built eigh) trivial (by rw [exBA_eq]; simp [Param.HasParams])
      (by simp [Param.keys, Param.items, Param.emptyDict, Entries.toList])) (exA_built eigh) trivial trivial
    (by rw [exBA_eq]; simp [Param.keys, Param.items, Param.emptyDict, Param.push, Entries.toList, Entries.assign, Param.name,
      exA, exB])

theorem exInner_same : SameNested exAB exBA := by
  rw [exAB_eq, exBA_eq]
  refine .dict trivial trivial (fun k => ?_) fun k a b ha hb => ?_
  · simp only [Param.find, Entries.find]
    split_ifs <;> simp
  · simp only [Param.find, Entries.find] at ha hb
    split_ifs at ha hb with h1 h2
    · subst h1; exact absurd h2 (by decide)
    · cases ha; cases hb; exact .leaf _
    · cases ha; cases hb; exact .leaf _

theorem exOut_same : SameNested exOut exOut' := by
  rw [exOut_eq, exOut'_eq]
  refine .dict trivial trivial (fun k => ?_) fun k a b ha hb => ?_
  · simp only [Param.find, Entries.find]
    split_ifs <;> simp
  · simp only [Param.find, Entries.find] at ha hb
    split_ifs at ha hb with h1 h2
    · subst h1; exact absurd h2 (by decide)
    · cases ha; cases hb; exact .leaf _
    · cases ha; cases hb; exact exInner_same

/-- The vector `[1, 2, 3]` of the one and the vector `[3, 2, 1]` of the other hold the same numbers. -/
theorem exOut_numbers (a b c : ℝ) : SameNumbers true exOut exOut' [a, b, c] [c, b, a] := by
  rw [exOut_eq, exOut'_eq]
  refine .dict trivial trivial fun k r s p q hr hs hp hq => ?_
  simp only [Param.indicesIn, if_true, Param.freeIndices, List.mem_cons, Prod.mk.injEq, List.not_mem_nil, or_false] at hr hs
  simp only [Param.find, Entries.find] at hp hq
  rcases hr with ⟨rfl, rfl⟩ | ⟨rfl, rfl⟩ <;> rcases hs with ⟨h, rfl⟩ | ⟨h, rfl⟩
  · exact absurd h (by decide)
  · simp only [if_true, Option.some.injEq] at hp
    simp only [show ("d" : String) ≠ "a" by decide, if_false, if_true, Option.some.injEq] at hq
    subst hp hq
    simp only [IdxRange.part]
    exact .leaf _ _ _
  · simp only [show ("a" : String) ≠ "d" by decide, if_false, if_true, Option.some.injEq] at hp
    simp only [if_true, Option.some.injEq] at hq
    subst hp hq
    rw [exAB_eq, exBA_eq]
    refine .dict trivial trivial fun k r s p q hr hs hp hq => ?_
    simp only [Param.indicesIn, if_true, Param.freeIndices, List.mem_cons, Prod.mk.injEq, List.not_mem_nil, or_false] at hr hs
    simp only [Param.find, Entries.find] at hp hq
    rcases hr with ⟨rfl, rfl⟩ | ⟨rfl, rfl⟩ <;> rcases hs with ⟨h, rfl⟩ | ⟨h, rfl⟩
    · exact absurd h (by decide)
    · simp only [if_true, Option.some.injEq] at hp
      simp only [show ("b" : String) ≠ "a" by decide, if_false, if_true, Option.some.injEq] at hq
      subst hp hq
      simp only [IdxRange.part]
      exact .leaf _ _ _
    · simp only [show ("a" : String) ≠ "b" by decide, if_false, if_true, Option.some.injEq] at hp
      simp only [if_true, Option.some.injEq] at hq
      subst hp hq
      simp only [IdxRange.part]
      exact .leaf _ _ _
    · exact absurd h (by decide)
  · exact absurd h (by decide)

/-- The number that a scalar parameter under a key holds. -/
def lookLeaf (p : Param) (k : String) : Py ℝ :=
  match p.find k with
  | some (.leaf l) => do .ok ((← l.getVector).getD 0 0)
  | _ => .error .keyError

/-- The number that a scalar parameter in a dictionary under a key holds. -/
def lookIn (p : Param) (k k' : String) : Py ℝ :=
  match p.find k with
  | some d => lookLeaf d k'
  | none => .error .keyError

theorem lookLeaf_congr {p q : Param} (h : SameNested p q) (k : String) : lookLeaf p k = lookLeaf q k := by
  cases h with
  | leaf l => rfl
  | dict _ _ h1 h2 =>
    unfold lookLeaf
    cases hp : p.find k with
    | none => rw [(h1 k).mp hp]
    | some a =>
      cases hq : q.find k with
      | none => rw [(h1 k).mpr hq] at hp; cases hp
      | some b =>
        cases h2 k a b hp hq with
        | leaf l => rfl
        | dict d1 d2 _ _ =>
          cases a with
          | leaf l => exact d1.elim
          | dict _ _ =>
            cases b with
            | leaf l => exact d2.elim
            | dict _ _ => rfl

theorem lookIn_congr {p q : Param} (h : SameNested p q) (k k' : String) : lookIn p k k' = lookIn q k k' := by
  cases h with
  | leaf l => rfl
  | dict _ _ h1 h2 =>
    unfold lookIn
    cases hp : p.find k with
    | none => rw [(h1 k).mp hp]
    | some a =>
      cases hq : q.find k with
      | none => rw [(h1 k).mpr hq] at hp; cases hp
      | some b => exact lookLeaf_congr (h2 k a b hp hq) k'

/-- `(p['a'] - e) ** 2 + (p['d']['a'] - e) ** 2 + (p['d']['b'] - 2 * e) ** 2`. -/
def exOutFn (p h : Param) : Py Arr := do
  let s ← lookLeaf p "a"
  let a ← lookIn p "d" "a"
  let b ← lookIn p "d" "b"
  let e ← h.getVector
  .ok (Arr.scalar ((s - e.getD 0 0) ^ 2 + (a - e.getD 0 0) ^ 2 + (b - 2 * e.getD 0 0) ^ 2))

/-- The output is `p['a'] + 3 * p['d']['b']`. -/
def exOutConv (p o : Param) : Param × Option PyErr :=
  match (do let a ← lookLeaf p "a"; let b ← lookIn p "d" "b"; .ok (a + 3 * b) : Py ℝ) with
  | .error e => (o, some e)
  | .ok v => o.setVector [v]

def exOutF : (Fin 3 → ℝ) × (Fin 1 → ℝ) → ℝ :=
  fun z => (z.1 0 - z.2 0) ^ 2 + (z.1 1 - z.2 0) ^ 2 + (z.1 2 - 2 * z.2 0) ^ 2

theorem exOut_wf : exOut.WF := by
  obtain ⟨eigh, he⟩ := exists_eigh
  exact (exOut_built eigh).wf he

theorem exOut_set (r s t : ℝ) : exOut.setFree [r, s, t] = (exOut.freeP [r, s, t], none) ∧
    lookLeaf ((exOut.freeP [r, s, t]).mark false) "a" = .ok r ∧
    lookIn ((exOut.freeP [r, s, t]).mark false) "d" "a" = .ok s ∧
    lookIn ((exOut.freeP [r, s, t]).mark false) "d" "b" = .ok t := by
  refine ⟨exOut.setFree_ok exOut_wf _ (by rw [exOut_eq]; rfl), ?_, ?_, ?_⟩ <;>
  rw [exOut_eq, exAB_eq] <;>
  simp [lookLeaf, lookIn, Param.freeP, Entries.freeE, Param.mark, Entries.mark, Param.find, Entries.find, Param.getVector,
    Leaf.getVector, exA, exB, freeVal, Param.freeSize, Leaf.freeSize, Kind.freeSize, constrainFn_real, Arr.scalar,
    Arr.size, Arr.vec]

theorem exOut_setting (eigh : Eigh) (he : EighContract eigh) :
    SensSetting exOutF exOutF (fun u _ => u 0 + 3 * u 2) eigh exOutFn exOut (scPar ninf)
      ((scPar ninf).vecP [0]) exOutConv (some [0, 0, 0]) none [0, 0, 0] [0] := by
  have hw : (scPar ninf).WF := by simp [scPar, Param.WF, Kind.Legal]
  have hsm : ContDiff ℝ 2 exOutF := by unfold exOutF; fun_prop
  have hev : Evaluates exOut ((scPar ninf).vecP [0]) exOutFn true false exOutF := by
    intro y1 y2 hy1 hy2
    obtain ⟨r, s, t, rfl⟩ := List.length_eq_three.mp hy1
    obtain ⟨a, rfl⟩ := List.length_eq_one_iff.mp hy2
    obtain ⟨g0, g1, g2, g3⟩ := exOut_set r s t
    have hw' : ((scPar ninf).vecP [0]).WF := by simp [scPar, Param.vecP, Param.WF, Kind.Legal]
    have k2 : setPar ((scPar ninf).vecP [0]) [a] false = (((scPar ninf).vecP [0]).vecP [a], none) := by
      simp only [setPar]
      rw [if_neg (by simp), Param.setVector_ok _ hw' [a] rfl]
    have k3 : ((((scPar ninf).vecP [0]).vecP [a]).mark false).getVector = .ok [a] := by
      rw [Param.mark_getVector, Param.getVector_vecP _ hw' trivial [a] rfl]
    simp only [TwoObjective.evalFun, k2]
    simp only [setPar, if_true, g0, exOutFn, g1, g2, g3, k3]
    simp [exOutF, toVec, bind, Except.bind]
  refine ⟨he, hsm, hsm, ⟨0, fun u v => by simp⟩, three_pos, hev, hev, rfl, rfl, ?_, ?_, trivial, ?_,
    one_pos, ?_, ?_, ⟨?_, ?_⟩, Or.inl rfl⟩
  · intro p q
    unfold exOutConv
    split
    · rfl
    · exact Param.setVector_blank _ _
  · exact .leaf ⟨_, [], .scalar (name := "s") (lb := ninf) (ub := pinf) (val := some (Arr.scalar 1))
      (by simp [mkScalar, checkBoundsScalar, Leaf.set]), rfl⟩ trivial
  · simp [scPar, Param.Proper, Leaf.Proper, Arr.WF, Arr.size, Arr.scalar]
  · intro i _
    fun_prop
  · intro q hq y hy
    obtain ⟨r, s, t, rfl⟩ := List.length_eq_three.mp hy
    obtain ⟨g0, g1, g2, g3⟩ := exOut_set r s t
    have hset : q.setVector [r + 3 * t] = ((scPar ninf).vecP [r + 3 * t], none) := by
      have h0 := (scPar ninf).setVector_ok hw [r + 3 * t] rfl
      have := setPar_eq (free := false) (p := scPar ninf) (q := q) (x := [r + 3 * t]) hq.symm
        (by simp only [setPar]; rw [if_neg (by simp), h0])
      simp only [setPar] at this
      rw [if_neg (by simp), if_neg (by simp)] at this
      rw [this, h0]
    simp only [Converter.convert, setPar, if_true, g0, exOutConv, g1, g3, bind, Except.bind, hset]
    simp only [Converter.readOut]
    rw [if_neg (by simp), (scPar ninf).getVector_vecP hw trivial [r + 3 * t] rfl]
    rfl
  · have h0 := (scPar ninf).setVector_ok hw [0] rfl
    have := setPar_eq (free := false) (p := scPar ninf) (q := (scPar ninf).vecP [0]) (x := [0]) rfl
      (by simp only [setPar]; rw [if_neg (by simp), h0])
    simp only [setPar] at this
    rw [if_neg (by simp), if_neg (by simp)] at this
    rw [this, h0]
  · exact (scPar ninf).getVector_vecP hw trivial [0] rfl

/-- The hypotheses are met: the optimum at `e = 0` is `0`. -/
example : ∃ eigh : Eigh, SensSetting exOutF exOutF (fun u _ => u 0 + 3 * u 2) eigh exOutFn exOut (scPar ninf)
      ((scPar ninf).vecP [0]) exOutConv (some [0, 0, 0]) none [0, 0, 0] [0] ∧ Built eigh exOut ∧ Built eigh exOut' ∧
      SameNested exOut exOut' ∧ exOut ≠ exOut' ∧ exOut.freeSize = 3 ∧ exOut.HasParams ∧ ReadsNested exOutFn ∧
      ReadsNested exOutConv ∧ SameNumbers true exOut exOut' [0, 0, 0] [0, 0, 0] ∧
      ContDiff ℝ ⊤ exOutF ∧ PositiveCurvature exOutF (toVec 3 [0, 0, 0]) (toVec 1 [0]) ∧
      fderiv ℝ (fun u => exOutF (u, toVec 1 [0])) (toVec 3 [0, 0, 0]) = 0 := by
  obtain ⟨eigh, he⟩ := exists_eigh
  have hz : toVec 3 [0, 0, 0] = 0 := by
    funext i
    fin_cases i <;> rfl
  have hz1 : toVec 1 [0] = 0 := by
    funext i
    fin_cases i
    rfl
  refine ⟨eigh, exOut_setting eigh he, exOut_built eigh, exOut'_built eigh, exOut_same, ?_, by rw [exOut_eq]; rfl,
    by rw [exOut_eq]; simp [Param.HasParams], ?_, ?_, exOut_numbers 0 0 0, by unfold exOutF; fun_prop, ?_, ?_⟩
  · rw [exOut_eq, exOut'_eq]
    simp
  · intro p q h hs
    simp only [exOutFn, lookLeaf_congr hs, lookIn_congr hs]
  · intro p q h hs
    simp only [exOutConv, lookLeaf_congr hs, lookIn_congr hs]
  · intro u hu
    rw [hz, hz1]
    have e1 : (fun t : ℝ => exOutF (0 + t • u, 0)) = fun t => (u 0 ^ 2 + u 1 ^ 2 + u 2 ^ 2) * t ^ 2 := by
      funext t
      simp [exOutF]
      ring
    rw [e1, iteratedDeriv_const_mul_field, iteratedDeriv_eq_iterate]
    simp only [Function.iterate_succ, Function.iterate_zero, Function.comp_apply, id_eq]
    have e2 : deriv (fun t : ℝ => t ^ 2) = fun t => 2 * t := by funext t; simp
    rw [e2]
    have e3 : deriv (fun t : ℝ => 2 * t) 0 = 2 := by simp
    rw [e3]
    have : 0 < u 0 ^ 2 + u 1 ^ 2 + u 2 ^ 2 := by
      by_contra hle
      apply hu
      have h0 : u 0 = 0 := by nlinarith [sq_nonneg (u 0), sq_nonneg (u 1), sq_nonneg (u 2)]
      have h1 : u 1 = 0 := by nlinarith [sq_nonneg (u 0), sq_nonneg (u 1), sq_nonneg (u 2)]
      have h2 : u 2 = 0 := by nlinarith [sq_nonneg (u 0), sq_nonneg (u 1), sq_nonneg (u 2)]
      funext i
      fin_cases i
      · exact h0
      · exact h1
      · exact h2
    positivity
  · rw [hz, hz1]
    have e1 : (fun u : Fin 3 → ℝ => exOutF (u, 0)) = fun u => u 0 ^ 2 + u 1 ^ 2 + u 2 ^ 2 := by
      funext u
      simp [exOutF]
    rw [e1]
    have a : ∀ i, HasFDerivAt (fun u : Fin 3 → ℝ => u i) (ContinuousLinearMap.proj i) (0 : Fin 3 → ℝ) := fun i =>
      (ContinuousLinearMap.proj (R := ℝ) (φ := fun _ : Fin 3 => ℝ) i).hasFDerivAt
    have := ((((a 0).pow 2).add ((a 1).pow 2)).add ((a 2).pow 2)).fderiv
    refine Eq.trans ?_ (this.trans ?_)
    · rfl
    · simp

/-- Objectives for the two dictionaries. -/
example : ∃ (eigh : Eigh) (o o' : Objective Unit), EighContract eigh ∧ Built eigh o.par ∧ Built eigh o'.par ∧
    SameNested o.par o'.par ∧ o.par ≠ o'.par ∧ (∀ p q, SameNested p q → o.fn () p = o'.fn () q) ∧
    o.par.sizeIn true = 3 ∧
    ∀ x : List ℝ, x.length = 3 → o.valueIn true x () = .ok (Arr.scalar (toVec 3 x 0 * toVec 3 x 1 + toVec 3 x 2)) := by
  obtain ⟨eigh, he⟩ := exists_eigh
  refine ⟨eigh, ⟨exOut, fun _ p => do .ok (Arr.scalar ((← lookLeaf p "a") * (← lookIn p "d" "a") + (← lookIn p "d" "b"))), none,
      ⟨1, none, 0, none, none, none, none, [], [], []⟩⟩,
    ⟨exOut', fun _ p => do .ok (Arr.scalar ((← lookLeaf p "a") * (← lookIn p "d" "a") + (← lookIn p "d" "b"))), none,
      ⟨1, none, 0, none, none, none, none, [], [], []⟩⟩, he,
    exOut_built eigh, exOut'_built eigh, exOut_same, ?_, ?_, ?_, ?_⟩
  · simp only
    rw [exOut_eq, exOut'_eq]
    simp
  · intro p q h
    simp only [lookLeaf_congr h, lookIn_congr h]
  · simp only [Param.sizeIn, if_true]
    rw [exOut_eq]
    rfl
  · intro x hx
    obtain ⟨r, s, t, rfl⟩ := List.length_eq_three.mp hx
    obtain ⟨g0, g1, g2, g3⟩ := exOut_set r s t
    rw [Objective.valueIn_eq]
    simp only [valueAt, setPar, if_true, g0, g1, g2, g3]
    simp [toVec, bind, Except.bind]

end

end LRVB
