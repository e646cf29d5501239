import Verif.Model.NdArr
import Verif.Lemmas.Leaf
import Verif.Model.OptUtils

/-!
# Lemmas about n-dimensional arrays
-/

namespace LRVB

open Classical Matrix

noncomputable section

namespace Arr

theorem ravel_eq_flat {idx shape : List ℕ} (h : List.Forall₂ (· < ·) idx shape) :
    ravel idx shape = .ok (flat idx shape) := by
  induction h with
  | nil => rfl
  | @cons i n idx shape hi h ih => simp [ravel, hi, ih, flat]

theorem flat_lt {idx shape : List ℕ} (h : List.Forall₂ (· < ·) idx shape) :
    flat idx shape < shape.prod := ravel_lt (ravel_eq_flat h)

theorem map_flat_indexProduct (shape : List ℕ) :
    (indexProduct shape).map (fun idx => flat idx shape) = List.range shape.prod := by
  have h := ravel_indexProduct shape
  rw [mapM_ok_of (g := fun idx => flat idx shape) _ fun idx hi =>
    ravel_eq_flat (mem_indexProduct.1 hi)] at h
  exact Except.ok.inj h

theorem ofFn_WF (s : List ℕ) (f : List ℕ → ℝ) : (ofFn s f).WF := by
  simp [ofFn, WF, indexProduct_length]

@[simp] theorem ofFn_shape (s : List ℕ) (f : List ℕ → ℝ) : (ofFn s f).shape = s := rfl

theorem get_ofFn {s idx : List ℕ} (f : List ℕ → ℝ) (h : List.Forall₂ (· < ·) idx s) :
    (ofFn s f).get idx = f idx := by
  have hm := map_flat_indexProduct s
  have hlt := flat_lt h
  obtain ⟨k, hk, hki⟩ := List.getElem_of_mem (mem_indexProduct.2 h)
  have hk2 : flat idx s = k := by
    have h1 : ((indexProduct s).map fun idx => flat idx s)[k]'(by simpa using hk) = k := by
      simp [hm]
    simpa [hki] using h1
  unfold get ofFn
  rw [hk2, List.getD_eq_getElem?_getD, List.getElem?_map, List.getElem?_eq_getElem hk, hki]
  rfl

/-- An array is determined by its entries. -/
theorem ofFn_get {a : Arr} (h : a.WF) : ofFn a.shape a.get = a := by
  cases a with
  | mk s d =>
    have h' : d.length = s.prod := h
    unfold ofFn get
    simp only [mk.injEq, true_and]
    have := congrArg (List.map fun k => d.getD k 0) (map_flat_indexProduct s)
    rw [List.map_map] at this
    rw [show (fun idx => d.getD (flat idx s) 0) = (fun k => d.getD k 0) ∘ fun idx => flat idx s
      from rfl, this, ← h']
    apply List.ext_getElem (by simp)
    intro i h1 h2
    simp [List.getD_eq_getElem?_getD, h2]

theorem ofFn_congr {s : List ℕ} {f g : List ℕ → ℝ}
    (h : ∀ idx, List.Forall₂ (· < ·) idx s → f idx = g idx) : ofFn s f = ofFn s g := by
  unfold ofFn
  congr 1
  exact List.map_congr_left fun idx hi => h idx (mem_indexProduct.1 hi)

theorem eq_ofFn {a : Arr} {s : List ℕ} {f : List ℕ → ℝ} (h : a.WF) (hs : a.shape = s)
    (hf : ∀ idx, List.Forall₂ (· < ·) idx s → a.get idx = f idx) : a = ofFn s f := by
  rw [← ofFn_get h, hs]
  exact ofFn_congr hf

theorem get_mem {a : Arr} (hw : a.WF) {idx : List ℕ} (h : List.Forall₂ (· < ·) idx a.shape) :
    a.get idx ∈ a.data := by
  unfold get
  have hlt : flat idx a.shape < a.data.length := by
    have := flat_lt h
    unfold WF at hw
    omega
  rw [List.getD_eq_getElem?_getD, List.getElem?_eq_getElem hlt]
  exact List.getElem_mem hlt

theorem forall_data {a : Arr} (hw : a.WF) {P : ℝ → Prop}
    (h : ∀ idx, List.Forall₂ (· < ·) idx a.shape → P (a.get idx)) : ∀ x ∈ a.data, P x := by
  intro x hx
  rw [← ofFn_get hw] at hx
  unfold ofFn at hx
  obtain ⟨idx, hi, rfl⟩ := List.mem_map.1 hx
  exact h idx (mem_indexProduct.1 hi)

theorem forall_data_get {a : Arr} (hw : a.WF) {P : ℝ → Prop} (h : ∀ x ∈ a.data, P x)
    {idx : List ℕ} (hi : List.Forall₂ (· < ·) idx a.shape) : P (a.get idx) := h _ (get_mem hw hi)

theorem map_WF {a : Arr} (hw : a.WF) (f : ℝ → ℝ) : (a.map f).WF := by
  simpa [map, WF] using hw

@[simp] theorem map_shape (a : Arr) (f : ℝ → ℝ) : (a.map f).shape = a.shape := rfl

theorem map_ofFn (s : List ℕ) (f : List ℕ → ℝ) (g : ℝ → ℝ) :
    (ofFn s f).map g = ofFn s fun idx => g (f idx) := by
  simp [map, ofFn, Function.comp_def]

theorem map_eq_ofFn {a : Arr} (hw : a.WF) (g : ℝ → ℝ) :
    a.map g = ofFn a.shape fun idx => g (a.get idx) := by
  conv_lhs => rw [← ofFn_get hw]
  rw [map_ofFn]

theorem mapPy_ofFn {s : List ℕ} {f : List ℕ → ℝ} {g : ℝ → Py ℝ} {k : ℝ → ℝ}
    (h : ∀ idx, List.Forall₂ (· < ·) idx s → g (f idx) = .ok (k (f idx))) :
    (ofFn s f).mapPy g = .ok (ofFn s fun idx => k (f idx)) := by
  have : (ofFn s f).data.mapM g = .ok ((ofFn s f).data.map k) := by
    apply mapM_ok_of
    intro x hx
    obtain ⟨idx, hi, rfl⟩ := List.mem_map.1 hx
    exact h idx (mem_indexProduct.1 hi)
  unfold mapPy
  rw [this]
  simp [ofFn, Function.comp_def]

theorem log_ofFn {s : List ℕ} {f : List ℕ → ℝ}
    (h : ∀ idx, List.Forall₂ (· < ·) idx s → 0 < f idx) :
    (ofFn s f).log = .ok (ofFn s fun idx => Real.log (f idx)) :=
  mapPy_ofFn fun idx hi => by simp [logR, h idx hi]

theorem exp_ofFn (s : List ℕ) (f : List ℕ → ℝ) :
    (ofFn s f).exp = ofFn s fun idx => Real.exp (f idx) := map_ofFn _ _ _

/-! ### Broadcasting -/

theorem padLeft_self (s : List ℕ) : padLeft s.length s = s := by simp [padLeft]

theorem bshape_self (s : List ℕ) : bshape s s = .ok s := by
  unfold bshape
  simp only [max_self, padLeft_self]
  rw [mapM_ok_of (g := Prod.fst)]
  · rw [List.map_fst_zip le_rfl]
  · intro p hp
    obtain ⟨i, h1, rfl⟩ := List.getElem_of_mem hp
    simp [bdim]

theorem bshape_nil_left (s : List ℕ) : bshape [] s = .ok s := by
  unfold bshape
  simp only [List.length_nil, zero_le, max_eq_right, padLeft_self]
  rw [mapM_ok_of (g := Prod.snd)]
  · rw [List.map_snd_zip (by simp [padLeft])]
  · intro p hp
    obtain ⟨i, h1, rfl⟩ := List.getElem_of_mem hp
    simp only [padLeft, List.getElem_zip]
    simp only [List.append_nil, List.getElem_replicate, bdim]
    split_ifs with h <;> simp_all

theorem bshape_nil_right (s : List ℕ) : bshape s [] = .ok s := by
  unfold bshape
  simp only [List.length_nil, zero_le, max_eq_left, padLeft_self]
  rw [mapM_ok_of (g := Prod.fst)]
  · rw [List.map_fst_zip (by simp [padLeft])]
  · intro p hp
    obtain ⟨i, h1, rfl⟩ := List.getElem_of_mem hp
    simp only [padLeft, List.getElem_zip]
    simp only [List.append_nil, List.getElem_replicate, bdim]
    split_ifs with h <;> simp_all

theorem bIndex_self {s idx : List ℕ} (h : List.Forall₂ (· < ·) idx s) : bIndex s idx = idx := by
  unfold bIndex
  rw [h.length_eq, Nat.sub_self, List.drop_zero]
  induction h with
  | nil => rfl
  | @cons i n idx shape hi h ih =>
    simp only [List.zipWith_cons_cons, ih]
    split_ifs with h1
    · subst h1; congr 1; omega
    · rfl

theorem bget_self {a : Arr} {idx : List ℕ} (h : List.Forall₂ (· < ·) idx a.shape) :
    a.bget idx = a.get idx := by rw [bget, bIndex_self h]

theorem bget_scalar (c : ℝ) (idx : List ℕ) : (scalar c).bget idx = c := by
  simp [bget, bIndex, scalar, get, flat]

/-- Operands of one shape. -/
theorem bin_same (f : ℝ → ℝ → ℝ) {a b : Arr} {s : List ℕ} (ha : a.shape = s) (hb : b.shape = s) :
    bin f a b = .ok (ofFn s fun idx => f (a.get idx) (b.get idx)) := by
  unfold bin
  rw [ha, hb, bshape_self]
  simp only [py_ok_bind]
  congr 1
  exact ofFn_congr fun idx hi => by rw [bget_self (ha ▸ hi), bget_self (hb ▸ hi)]

theorem bin_ofFn (f : ℝ → ℝ → ℝ) (s : List ℕ) (g h : List ℕ → ℝ) :
    bin f (ofFn s g) (ofFn s h) = .ok (ofFn s fun idx => f (g idx) (h idx)) := by
  rw [bin_same (s := s) f rfl rfl]
  congr 1
  exact ofFn_congr fun idx hi => by rw [get_ofFn _ hi, get_ofFn _ hi]

/-- A number and an array. -/
theorem bin_scalar_left (f : ℝ → ℝ → ℝ) (c : ℝ) (a : Arr) :
    bin f (scalar c) a = .ok (ofFn a.shape fun idx => f c (a.get idx)) := by
  unfold bin
  rw [show (scalar c).shape = [] from rfl, bshape_nil_left]
  simp only [py_ok_bind]
  congr 1
  exact ofFn_congr fun idx hi => by rw [bget_scalar, bget_self hi]

theorem bin_scalar_right (f : ℝ → ℝ → ℝ) (a : Arr) (c : ℝ) :
    bin f a (scalar c) = .ok (ofFn a.shape fun idx => f (a.get idx) c) := by
  unfold bin
  rw [show (scalar c).shape = [] from rfl, bshape_nil_right]
  simp only [py_ok_bind]
  congr 1
  exact ofFn_congr fun idx hi => by rw [bget_scalar, bget_self hi]

theorem scalar_eq_ofFn (c : ℝ) : scalar c = ofFn [] fun _ => c := rfl

theorem scalar_WF (c : ℝ) : (scalar c).WF := rfl

@[simp] theorem scalar_shape (c : ℝ) : (scalar c).shape = [] := rfl

@[simp] theorem scalar_get (c : ℝ) (idx : List ℕ) : (scalar c).get idx = c := by
  simp [scalar, get, flat]

theorem div_eq {a b : Arr} (h : ∀ x ∈ b.data, x ≠ 0) : div a b = bin (· / ·) a b := by
  unfold div
  rw [if_neg]
  intro h0
  exact h 0 h0 rfl

theorem zero_notMem_ofFn {s : List ℕ} {f : List ℕ → ℝ}
    (h : ∀ idx, List.Forall₂ (· < ·) idx s → f idx ≠ 0) : ∀ x ∈ (ofFn s f).data, x ≠ 0 := by
  intro x hx
  obtain ⟨idx, hi, rfl⟩ := List.mem_map.1 hx
  exact h idx (mem_indexProduct.1 hi)

/-! ### Sums along the first axis -/

theorem flat_zero_cons (idx s : List ℕ) : flat (0 :: idx) (1 :: s) = flat idx s := by simp [flat]

theorem get_keep (s idx : List ℕ) (d : List ℝ) :
    (⟨1 :: s, d⟩ : Arr).get (0 :: idx) = (⟨s, d⟩ : Arr).get idx := by
  simp [get, flat_zero_cons]

theorem indexProduct_one_cons (s : List ℕ) :
    indexProduct (1 :: s) = (indexProduct s).map fun idx => 0 :: idx := by
  simp [indexProduct]

/-- Adding an axis of size one in front. -/
theorem ofFn_one_cons (s : List ℕ) (f : List ℕ → ℝ) :
    ofFn (1 :: s) f = ⟨1 :: s, (ofFn s fun idx => f (0 :: idx)).data⟩ := by
  simp [ofFn, indexProduct_one_cons, Function.comp_def]

theorem sum0Keep_ofFn (n : ℕ) (s : List ℕ) (f : List ℕ → ℝ) :
    (ofFn (n :: s) f).sum0Keep =
      .ok (ofFn (1 :: s) fun idx => ∑ i ∈ Finset.range n, f (i :: idx.tail)) := by
  unfold sum0Keep sum0
  simp only [ofFn_shape, py_ok_bind]
  rw [ofFn_one_cons]
  congr 3
  refine ofFn_congr fun idx hi => ?_
  exact Finset.sum_congr rfl fun i hi' =>
    get_ofFn _ (List.Forall₂.cons (Finset.mem_range.1 hi') hi)

theorem sum0_ofFn (n : ℕ) (s : List ℕ) (f : List ℕ → ℝ) :
    (ofFn (n :: s) f).sum0 = .ok (ofFn s fun idx => ∑ i ∈ Finset.range n, f (i :: idx)) := by
  unfold sum0
  simp only [ofFn_shape]
  congr 1
  refine ofFn_congr fun idx hi => ?_
  exact Finset.sum_congr rfl fun i hi' =>
    get_ofFn _ (List.Forall₂.cons (Finset.mem_range.1 hi') hi)

theorem bshape_cons_one (n : ℕ) (s : List ℕ) : bshape (n :: s) (1 :: s) = .ok (n :: s) := by
  have h := bshape_self s
  unfold bshape at h ⊢
  simp only [max_self, padLeft_self] at h
  simp only [List.length_cons, max_self]
  rw [show s.length + 1 = (n :: s).length from rfl, padLeft_self,
    show (n :: s).length = (1 :: s).length from rfl, padLeft_self, List.zip_cons_cons,
    List.mapM_cons, h]
  have : bdim n 1 = .ok n := by unfold bdim; split_ifs <;> simp_all
  simp only [this, py_ok_bind]
  rfl

theorem bin_cons_one (f : ℝ → ℝ → ℝ) (n : ℕ) (s : List ℕ) (g h : List ℕ → ℝ) :
    bin f (ofFn (n :: s) g) (ofFn (1 :: s) h) =
      .ok (ofFn (n :: s) fun idx => f (g idx) (h (0 :: idx.tail))) := by
  unfold bin
  simp only [ofFn_shape, bshape_cons_one, py_ok_bind]
  congr 1
  refine ofFn_congr fun idx hi => ?_
  rw [bget_self (by simpa using hi), get_ofFn _ hi]
  cases hi with
  | @cons i n' idx s' h1 h2 =>
    congr 1
    unfold bget bIndex
    simp only [ofFn_shape, List.length_cons, h2.length_eq, Nat.sub_self, List.drop_zero,
      List.zipWith_cons_cons, if_true, List.tail_cons]
    have := bIndex_self h2
    unfold bIndex at this
    rw [h2.length_eq, Nat.sub_self, List.drop_zero] at this
    rw [this]
    exact get_ofFn _ (List.Forall₂.cons one_pos h2)

theorem bshape_one_cons_self (s : List ℕ) : bshape (1 :: s) s = .ok (1 :: s) := by
  have h := bshape_self (1 :: s)
  unfold bshape at h ⊢
  simp only [max_self, padLeft_self] at h
  have e : max (1 :: s).length s.length = (1 :: s).length := by simp
  simp only [e, padLeft_self]
  rw [show padLeft (1 :: s).length s = 1 :: s by simp [padLeft]]
  exact h

theorem bin_one_cons_self (f : ℝ → ℝ → ℝ) (s : List ℕ) (g h : List ℕ → ℝ) :
    bin f (ofFn (1 :: s) g) (ofFn s h) =
      .ok (ofFn (1 :: s) fun idx => f (g idx) (h idx.tail)) := by
  unfold bin
  simp only [ofFn_shape, bshape_one_cons_self, py_ok_bind]
  congr 1
  refine ofFn_congr fun idx hi => ?_
  rw [bget_self (by simpa using hi), get_ofFn _ hi]
  cases hi with
  | @cons i n' idx s' h1 h2 =>
    congr 1
    have := bIndex_self h2
    unfold bIndex at this
    rw [h2.length_eq, Nat.sub_self, List.drop_zero] at this
    unfold bget bIndex
    simp only [ofFn_shape, List.length_cons, h2.length_eq, Nat.add_sub_cancel_left,
      List.drop_succ_cons, List.drop_zero, List.tail_cons]
    rw [this]
    exact get_ofFn _ h2

theorem squeeze0_ofFn (s : List ℕ) (f : List ℕ → ℝ) :
    (ofFn (1 :: s) f).squeeze0 = .ok (ofFn s fun idx => f (0 :: idx)) := by
  unfold squeeze0
  rw [ofFn_one_cons]
  rfl

theorem sumAll_ofFn (s : List ℕ) (f : List ℕ → ℝ) :
    (ofFn s f).sumAll = ((indexProduct s).map f).sum := rfl

/-! ### Sums and broadcasting along the last axis -/

theorem forall₂_snoc {i s : List ℕ} {k n : ℕ} (h : List.Forall₂ (· < ·) i s) (hk : k < n) :
    List.Forall₂ (· < ·) (i ++ [k]) (s ++ [n]) := by
  induction h with
  | nil => exact .cons hk .nil
  | cons h1 _ ih => exact .cons h1 ih

theorem exists_of_forall₂_snoc {s : List ℕ} {n : ℕ} :
    ∀ {idx : List ℕ}, List.Forall₂ (· < ·) idx (s ++ [n]) →
      ∃ i k, idx = i ++ [k] ∧ List.Forall₂ (· < ·) i s ∧ k < n := by
  induction s with
  | nil =>
    intro idx h
    cases h with
    | cons h1 h2 => cases h2; exact ⟨[], _, rfl, .nil, h1⟩
  | cons a s ih =>
    intro idx h
    cases h with
    | cons h1 h2 =>
      obtain ⟨i, k, rfl, h3, h4⟩ := ih h2
      exact ⟨_ :: i, k, rfl, .cons h1 h3, h4⟩

theorem ofFn_congr_snoc {s : List ℕ} {n : ℕ} {f g : List ℕ → ℝ}
    (h : ∀ i k, List.Forall₂ (· < ·) i s → k < n → f (i ++ [k]) = g (i ++ [k])) :
    ofFn (s ++ [n]) f = ofFn (s ++ [n]) g :=
  ofFn_congr fun idx hi => by
    obtain ⟨i, k, rfl, h1, h2⟩ := exists_of_forall₂_snoc hi
    exact h i k h1 h2

theorem bdim_one_right (n : ℕ) : bdim n 1 = .ok n := by unfold bdim; split_ifs <;> simp_all
theorem bdim_one_left (n : ℕ) : bdim 1 n = .ok n := by
  unfold bdim; split_ifs <;> simp_all
theorem bdim_self (n : ℕ) : bdim n n = .ok n := by unfold bdim; simp

theorem zip_mapM_snoc {u v w : List ℕ} {m n k : ℕ} (hl : u.length = v.length)
    (h : (List.zip u v).mapM (fun p => bdim p.1 p.2) = .ok w) (hk : bdim m n = .ok k) :
    (List.zip (u ++ [m]) (v ++ [n])).mapM (fun p => bdim p.1 p.2) = .ok (w ++ [k]) := by
  rw [List.zip_append hl, List.mapM_append, h, py_ok_bind]
  simp [hk, List.mapM_cons]

theorem bshape_snoc {s : List ℕ} {m n k : ℕ} (hk : bdim m n = .ok k) :
    bshape (s ++ [m]) (s ++ [n]) = .ok (s ++ [k]) := by
  have h := bshape_self s
  unfold bshape at h ⊢
  simp only [max_self, padLeft_self, List.length_append, List.length_singleton] at h ⊢
  rw [show s.length + 1 = (s ++ [m]).length by simp, padLeft_self,
    show (s ++ [m]).length = (s ++ [n]).length by simp, padLeft_self]
  exact zip_mapM_snoc rfl h hk

theorem padLeft_singleton (s : List ℕ) (m : ℕ) :
    padLeft (s.length + 1) [m] = List.replicate s.length 1 ++ [m] := by simp [padLeft]

theorem bshape_single_snoc {s : List ℕ} {m n k : ℕ} (hk : bdim m n = .ok k) :
    bshape [m] (s ++ [n]) = .ok (s ++ [k]) := by
  have h := bshape_nil_left s
  unfold bshape at h ⊢
  simp only [List.length_nil, zero_le, max_eq_right, padLeft_self] at h
  simp only [List.length_append, List.length_singleton, le_add_iff_nonneg_left, zero_le,
    max_eq_right]
  rw [padLeft_singleton, show s.length + 1 = (s ++ [n]).length by simp, padLeft_self]
  exact zip_mapM_snoc (by simp) (by simpa [padLeft] using h) hk

theorem bshape_snoc_single {s : List ℕ} {m n k : ℕ} (hk : bdim m n = .ok k) :
    bshape (s ++ [m]) [n] = .ok (s ++ [k]) := by
  have h := bshape_nil_right s
  unfold bshape at h ⊢
  simp only [List.length_nil, zero_le, max_eq_left, padLeft_self] at h
  simp only [List.length_append, List.length_singleton, le_add_iff_nonneg_left, zero_le,
    max_eq_left]
  rw [padLeft_singleton, show s.length + 1 = (s ++ [m]).length by simp, padLeft_self]
  exact zip_mapM_snoc (by simp) (by simpa [padLeft] using h) hk

theorem bIndex_single (n : ℕ) (i : List ℕ) (k : ℕ) :
    bIndex [n] (i ++ [k]) = [if n = 1 then 0 else k] := by
  simp [bIndex]

theorem bIndex_snoc {s i : List ℕ} (h : List.Forall₂ (· < ·) i s) (n k : ℕ) :
    bIndex (s ++ [n]) (i ++ [k]) = i ++ [if n = 1 then 0 else k] := by
  have h1 := bIndex_self h
  unfold bIndex at h1 ⊢
  rw [h.length_eq, Nat.sub_self, List.drop_zero] at h1
  simp only [List.length_append, h.length_eq, List.length_singleton, Nat.sub_self, List.drop_zero]
  rw [List.zipWith_append h.length_eq.symm, h1]
  rfl

/-- The entry of a broadcast operand when the last axis has size one. -/
theorem bget_snoc_one {s i : List ℕ} (f : List ℕ → ℝ) (h : List.Forall₂ (· < ·) i s) (k : ℕ) :
    (ofFn (s ++ [1]) f).bget (i ++ [k]) = f (i ++ [0]) := by
  unfold bget
  rw [ofFn_shape, bIndex_snoc h, if_pos rfl, get_ofFn _ (forall₂_snoc h one_pos)]

theorem bget_single {n k : ℕ} (f : List ℕ → ℝ) (i : List ℕ) (hk : k < n) :
    (ofFn [n] f).bget (i ++ [k]) = f [k] := by
  unfold bget
  rw [ofFn_shape, bIndex_single]
  have : (if n = 1 then 0 else k) = k := by split_ifs <;> omega
  rw [this, get_ofFn _ (.cons hk .nil)]

theorem bget_ofFn {s idx : List ℕ} (f : List ℕ → ℝ) (h : List.Forall₂ (· < ·) idx s) :
    (ofFn s f).bget idx = f idx := by
  rw [bget_self (by simpa using h), get_ofFn _ h]

theorem bin_single_snoc_one (f : ℝ → ℝ → ℝ) (n : ℕ) (s : List ℕ) (g h : List ℕ → ℝ) :
    bin f (ofFn [n] g) (ofFn (s ++ [1]) h) =
      .ok (ofFn (s ++ [n]) fun idx => f (g [idx.getLastD 0]) (h (idx.dropLast ++ [0]))) := by
  unfold bin
  simp only [ofFn_shape, bshape_single_snoc (bdim_one_right n), py_ok_bind]
  congr 1
  refine ofFn_congr_snoc fun i k hi hk => ?_
  rw [bget_single _ _ hk, bget_snoc_one _ hi]
  simp

theorem bin_snoc_one_single (f : ℝ → ℝ → ℝ) (n : ℕ) (s : List ℕ) (g h : List ℕ → ℝ) :
    bin f (ofFn (s ++ [1]) g) (ofFn [n] h) =
      .ok (ofFn (s ++ [n]) fun idx => f (g (idx.dropLast ++ [0])) (h [idx.getLastD 0])) := by
  unfold bin
  simp only [ofFn_shape, bshape_snoc_single (bdim_one_left n), py_ok_bind]
  congr 1
  refine ofFn_congr_snoc fun i k hi hk => ?_
  rw [bget_single _ _ hk, bget_snoc_one _ hi]
  simp

theorem bin_snoc_snoc_one (f : ℝ → ℝ → ℝ) (n : ℕ) (s : List ℕ) (g h : List ℕ → ℝ) :
    bin f (ofFn (s ++ [n]) g) (ofFn (s ++ [1]) h) =
      .ok (ofFn (s ++ [n]) fun idx => f (g idx) (h (idx.dropLast ++ [0]))) := by
  unfold bin
  simp only [ofFn_shape, bshape_snoc (bdim_one_right n), py_ok_bind]
  congr 1
  refine ofFn_congr_snoc fun i k hi hk => ?_
  rw [bget_ofFn _ (forall₂_snoc hi hk), bget_snoc_one _ hi]
  simp

theorem bin_single_snoc (f : ℝ → ℝ → ℝ) (n : ℕ) (s : List ℕ) (g h : List ℕ → ℝ) :
    bin f (ofFn [n] g) (ofFn (s ++ [n]) h) =
      .ok (ofFn (s ++ [n]) fun idx => f (g [idx.getLastD 0]) (h idx)) := by
  unfold bin
  simp only [ofFn_shape, bshape_single_snoc (bdim_self n), py_ok_bind]
  congr 1
  refine ofFn_congr_snoc fun i k hi hk => ?_
  rw [bget_single _ _ hk, bget_ofFn _ (forall₂_snoc hi hk)]
  simp

theorem indexProduct_snoc_one (s : List ℕ) :
    indexProduct (s ++ [1]) = (indexProduct s).map fun i => i ++ [0] := by
  induction s with
  | nil => rfl
  | cons n s ih =>
    simp only [List.cons_append, indexProduct, ih, List.map_flatMap, List.map_map]
    rfl

theorem expandLast_ofFn (s : List ℕ) (f : List ℕ → ℝ) :
    (ofFn s f).expandLast = ofFn (s ++ [1]) fun idx => f idx.dropLast := by
  unfold expandLast ofFn
  rw [indexProduct_snoc_one, List.map_map]
  simp [Function.comp_def]

theorem sumLast_ofFn (n : ℕ) (s : List ℕ) (f : List ℕ → ℝ) :
    (ofFn (s ++ [n]) f).sumLast = .ok (ofFn s fun i => ∑ k ∈ Finset.range n, f (i ++ [k])) := by
  unfold sumLast
  simp only [ofFn_shape, List.getLast?_append, List.getLast?_singleton, Option.some_or,
    List.dropLast_concat]
  congr 1
  refine ofFn_congr fun i hi => ?_
  exact Finset.sum_congr rfl fun k hk => get_ofFn _ (forall₂_snoc hi (Finset.mem_range.1 hk))

/-! ### Matrices -/

theorem get_two {a : Arr} {r c : ℕ} (h : a.shape = [r, c]) (i j : ℕ) : a.get [i, j] = a.at2 i j := by
  simp [get, h, flat, at2]

theorem forall₂_two {i j r c : ℕ} (hi : i < r) (hj : j < c) :
    List.Forall₂ (· < ·) [i, j] [r, c] := .cons hi (.cons hj .nil)

theorem at2_ofFn {r c i j : ℕ} (f : List ℕ → ℝ) (hi : i < r) (hj : j < c) :
    (ofFn [r, c] f).at2 i j = f [i, j] := by
  rw [← get_two rfl, get_ofFn _ (forall₂_two hi hj)]

theorem exists_of_forall₂_two {idx : List ℕ} {r c : ℕ} (h : List.Forall₂ (· < ·) idx [r, c]) :
    ∃ i j, idx = [i, j] ∧ i < r ∧ j < c := by
  cases h with
  | cons h1 h2 => cases h2 with
    | cons h3 h4 => cases h4; exact ⟨_, _, rfl, h1, h3⟩

theorem ofFn2_eq_ofFn (r c : ℕ) (f : ℕ → ℕ → ℝ) :
    ofFn2 r c f = ofFn [r, c] fun idx => f (idx.getD 0 0) (idx.getD 1 0) := by
  refine eq_ofFn (ofFn2_WF _ _ _) rfl fun idx hi => ?_
  obtain ⟨i, j, rfl, h1, h2⟩ := exists_of_forall₂_two hi
  rw [get_two rfl, at2_ofFn2 _ _ _ h1 h2]
  rfl

/-- `np.linalg.inv` of an invertible matrix. -/
theorem inv_two {a : Arr} {n : ℕ} (h : a.shape = [n, n]) (hd : (toMatrix n n a).det ≠ 0) :
    a.inv = .ok (ofMatrix (toMatrix n n a)⁻¹) := by
  unfold inv
  rw [h]
  simp only [List.reverse_cons, List.reverse_nil, List.nil_append, List.cons_append, ne_eq,
    not_true_eq_false, if_false]
  have e : ∀ b, b ∈ indexProduct [] → (Matrix.of fun (i j : Fin n) =>
      a.get (b ++ [(i : ℕ), (j : ℕ)])) = toMatrix n n a := by
    intro b hb
    simp only [indexProduct, List.mem_singleton] at hb
    subst hb
    ext i j
    simp [toMatrix, get_two h]
  rw [if_neg]
  · congr 1
    unfold ofMatrix
    rw [ofFn2_eq_ofFn]
    refine ofFn_congr fun idx hi => ?_
    obtain ⟨i, j, rfl, h1, h2⟩ := exists_of_forall₂_two hi
    simp only [List.length_nil, List.take_zero]
    rw [e [] (by simp [indexProduct])]
  · rintro ⟨b, hb, h0⟩
    rw [e b hb] at h0
    exact hd h0

end Arr

end

end LRVB
