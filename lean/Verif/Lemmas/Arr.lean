import Verif.Model.Arr
import Mathlib.Tactic.Ring
import Mathlib.Tactic.Linarith
import Mathlib.Algebra.BigOperators.Group.List.Basic

namespace LRVB

@[simp] theorem py_ok_bind {α β : Type} (a : α) (f : α → Py β) :
    ((Except.ok a : Py α) >>= f) = f a := rfl

@[simp] theorem py_err_bind {α β : Type} (e : PyErr) (f : α → Py β) :
    ((Except.error e : Py α) >>= f) = .error e := rfl

/-! Lists of equally long blocks. -/

theorem flatten_length_const {α : Type} (l : List (List α)) (c : ℕ) (h : ∀ b ∈ l, b.length = c) :
    l.flatten.length = l.length * c := by
  induction l with
  | nil => simp
  | cons a t ih =>
    rw [List.flatten_cons, List.length_append, ih (fun b hb => h b (by simp [hb])),
      h a (by simp), List.length_cons]
    ring

theorem flatten_getElem?_const {α : Type} (l : List (List α)) (c : ℕ) (h : ∀ b ∈ l, b.length = c)
    (i j : ℕ) (hj : j < c) : l.flatten[i * c + j]? = (l[i]?).bind (fun b => b[j]?) := by
  induction l generalizing i with
  | nil => simp
  | cons a t ih =>
    have ha := h a (by simp)
    cases i with
    | zero =>
      rw [List.flatten_cons, List.getElem?_append_left (by omega)]
      simp
    | succ i =>
      rw [List.flatten_cons, List.getElem?_append_right (by rw [ha]; nlinarith)]
      have : (i + 1) * c + j - a.length = i * c + j := by rw [ha]; ring_nf; omega
      rw [this, ih (fun b hb => h b (by simp [hb]))]
      simp

theorem flatten_block_const {α : Type} (l : List (List α)) (c : ℕ) (h : ∀ b ∈ l, b.length = c)
    (i : ℕ) (hi : i < l.length) : (l.flatten.drop (i * c)).take c = l[i] := by
  induction l generalizing i with
  | nil => simp at hi
  | cons a t ih =>
    have ha := h a (by simp)
    cases i with
    | zero =>
      simp [List.flatten_cons, ← ha]
    | succ i =>
      have e : (i + 1) * c = a.length + i * c := by rw [ha]; ring
      rw [List.flatten_cons, e, List.drop_append]
      simp only [Nat.add_sub_cancel_left]
      rw [List.drop_of_length_le (by omega), List.nil_append]
      rw [ih (fun b hb => h b (by simp [hb])) i (by simpa using hi)]
      simp

theorem flatMap_range_getD (r c : ℕ) (f : ℕ → ℕ → ℝ) (i j : ℕ) (hi : i < r) (hj : j < c) :
    ((List.range r).flatMap fun i => (List.range c).map fun j => f i j).getD (i * c + j) 0 = f i j := by
  rw [List.flatMap_def, List.getD_eq_getElem?_getD,
    flatten_getElem?_const _ c (by simp) i j hj]
  simp [hi, hj]

namespace Arr

@[simp] theorem ofFn2_shape (r c : ℕ) (f : ℕ → ℕ → ℝ) : (ofFn2 r c f).shape = [r, c] := rfl

@[simp] theorem ofFn2_length (r c : ℕ) (f : ℕ → ℕ → ℝ) : (ofFn2 r c f).data.length = r * c := by
  simp only [ofFn2, List.flatMap_def]
  rw [flatten_length_const _ c (by simp)]
  simp

theorem ofFn2_WF (r c : ℕ) (f : ℕ → ℕ → ℝ) : (ofFn2 r c f).WF := by
  simp [WF]

theorem at2_ofFn2 (r c : ℕ) (f : ℕ → ℕ → ℝ) {i j : ℕ} (hi : i < r) (hj : j < c) :
    (ofFn2 r c f).at2 i j = f i j := by
  simpa [at2, ofFn2] using flatMap_range_getD r c f i j hi hj

theorem lt_mul_add {r c i j : ℕ} (hi : i < r) (hj : j < c) : i * c + j < r * c := by
  have : (i + 1) * c ≤ r * c := Nat.mul_le_mul_right _ hi
  nlinarith

/-- Two 2-d arrays of the same shape with equal entries are equal. -/
theorem ext2 {a b : Arr} {r c : ℕ} (ha : a.WF) (hb : b.WF) (sa : a.shape = [r, c])
    (sb : b.shape = [r, c]) (h : ∀ i < r, ∀ j < c, a.at2 i j = b.at2 i j) : a = b := by
  have la : a.data.length = r * c := by rw [ha, sa]; simp
  have lb : b.data.length = r * c := by rw [hb, sb]; simp
  have : a.data = b.data := by
    apply List.ext_getElem (by rw [la, lb])
    intro k h1 h2
    have hc : 0 < c := by
      rcases Nat.eq_zero_or_pos c with rfl | h
      · simp at la; simp [la] at h1
      · exact h
    have hk : k < r * c := by omega
    have e : k = k / c * c + k % c := (Nat.div_add_mod' k c).symm
    have := h (k / c) (Nat.div_lt_of_lt_mul (by rwa [Nat.mul_comm] at hk)) (k % c) (Nat.mod_lt _ hc)
    simp only [at2, sa, sb, List.getD_cons_succ, List.getD_cons_zero, ← e] at this
    simpa [List.getD_eq_getElem?_getD, h1, h2] using this
  cases a; cases b
  simp_all

theorem ext2_ofFn2 {a : Arr} {r c : ℕ} {f : ℕ → ℕ → ℝ} (ha : a.WF) (sa : a.shape = [r, c])
    (h : ∀ i < r, ∀ j < c, a.at2 i j = f i j) : a = ofFn2 r c f :=
  ext2 ha (ofFn2_WF r c f) sa rfl fun i hi j hj => by rw [h i hi j hj, at2_ofFn2 _ _ _ hi hj]

theorem ofFn2_congr {r c : ℕ} {f g : ℕ → ℕ → ℝ} (h : ∀ i < r, ∀ j < c, f i j = g i j) :
    ofFn2 r c f = ofFn2 r c g :=
  ext2_ofFn2 (ofFn2_WF r c f) rfl fun i hi j hj => by rw [at2_ofFn2 _ _ _ hi hj, h i hi j hj]

@[simp] theorem transpose_shape (a : Arr) :
    a.transpose.shape = [a.shape.getD 1 0, a.shape.getD 0 0] := rfl

theorem vec_WF (x : List ℝ) : (vec x).WF := by simp [vec, WF]

theorem full_WF (s : List ℕ) (c : ℝ) : (full s c).WF := by simp [full, WF]

theorem reshape_ok {a b : Arr} {s : List ℕ} (h : a.reshape s = .ok b) :
    b.shape = s ∧ b.data = a.data ∧ b.WF := by
  unfold reshape at h
  split_ifs at h with hh
  simp only [Except.ok.injEq] at h
  subst h
  exact ⟨rfl, rfl, hh⟩

end Arr

/-! Multi-indices. -/

theorem indexProduct_length (shape : List ℕ) : (indexProduct shape).length = shape.prod := by
  induction shape with
  | nil => rfl
  | cons n s ih => simp [indexProduct, List.length_flatMap, ih]

theorem mem_indexProduct {shape idx : List ℕ} :
    idx ∈ indexProduct shape ↔ List.Forall₂ (· < ·) idx shape := by
  induction shape generalizing idx with
  | nil => simp [indexProduct]
  | cons n s ih =>
    simp only [indexProduct, List.mem_flatMap, List.mem_range, List.mem_map, ih]
    constructor
    · rintro ⟨a, ha, t, ht, rfl⟩
      exact List.Forall₂.cons ha ht
    · intro h
      cases h with
      | cons h1 h2 => exact ⟨_, h1, _, h2, rfl⟩

theorem ravel_ok {shape idx : List ℕ} (h : List.Forall₂ (· < ·) idx shape) :
    ∃ k, ravel idx shape = .ok k ∧ k < shape.prod := by
  induction h with
  | nil => exact ⟨0, rfl, by simp⟩
  | @cons i n idx shape hi h ih =>
    obtain ⟨k, hk, hlt⟩ := ih
    refine ⟨i * shape.prod + k, by simp [ravel, hi, hk], ?_⟩
    rw [List.prod_cons]
    exact Arr.lt_mul_add hi hlt

theorem mapM_ok_of {α β : Type} {f : α → Py β} {g : α → β} (xs : List α)
    (h : ∀ x ∈ xs, f x = .ok (g x)) : xs.mapM f = .ok (xs.map g) := by
  induction xs with
  | nil => rfl
  | cons a t ih =>
    rw [List.mapM_cons, h a (by simp), ih (fun x hx => h x (by simp [hx]))]
    rfl

theorem mapM_append_ok {α β : Type} {f : α → Py β} {xs ys : List α} {as bs : List β}
    (h1 : xs.mapM f = .ok as) (h2 : ys.mapM f = .ok bs) : (xs ++ ys).mapM f = .ok (as ++ bs) := by
  rw [List.mapM_append, h1, h2]; rfl

/-- Raveling the multi-indices in lexicographic order enumerates the positions. -/
theorem ravel_indexProduct (shape : List ℕ) :
    (indexProduct shape).mapM (fun idx => ravel idx shape) = .ok (List.range shape.prod) := by
  induction shape with
  | nil => rfl
  | cons n s ih =>
    have key : ∀ m ≤ n, ((List.range m).flatMap fun i => (indexProduct s).map (i :: ·)).mapM
        (fun idx => ravel idx (n :: s)) = .ok (List.range (m * s.prod)) := by
      intro m
      induction m with
      | zero => intro _; simp; rfl
      | succ m ihm =>
        intro hm
        rw [List.range_succ, List.flatMap_append, Nat.succ_mul, List.range_add]
        apply mapM_append_ok (ihm (by omega))
        simp only [List.flatMap_cons, List.flatMap_nil, List.append_nil]
        have : ∀ (l : List (List ℕ)) (r : List ℕ), l.mapM (fun idx => ravel idx s) = .ok r →
            (l.map (m :: ·)).mapM (fun idx => ravel idx (n :: s)) =
              .ok (r.map (m * s.prod + ·)) := by
          intro l
          induction l with
          | nil => intro r hr; cases hr; rfl
          | cons a t iht =>
            intro r hr
            rw [List.mapM_cons] at hr
            cases ha : ravel a s with
            | error e => rw [ha] at hr; cases hr
            | ok k =>
              rw [ha] at hr
              cases ht : t.mapM (fun idx => ravel idx s) with
              | error e => rw [ht] at hr; cases hr
              | ok r' =>
                rw [ht] at hr
                cases hr
                rw [List.map_cons, List.mapM_cons, iht r' ht]
                have hmn : m < n := hm
                simp only [ravel, hmn, if_true, ha]
                rfl
        exact this _ _ ih
    simpa [indexProduct] using key n le_rfl

/-- Sub-array at a full multi-index: the entry at the row-major rank. -/
theorem sub_eq_ravel {shape idx : List ℕ} (data : List ℝ) {k : ℕ}
    (hl : data.length = shape.prod) (h : ravel idx shape = .ok k) :
    (⟨shape, data⟩ : Arr).sub idx = .ok (Arr.scalar (data.getD k 0)) := by
  induction shape generalizing idx data k with
  | nil =>
    cases idx with
    | nil =>
      cases h
      simp only [Arr.sub]
      match data, hl with
      | [x], _ => rfl
    | cons i idx => cases h
  | cons n s ih =>
    cases idx with
    | nil => cases h
    | cons i idx =>
      unfold ravel at h
      split_ifs at h with hi
      cases hr : ravel idx s with
      | error e => rw [hr] at h; cases h
      | ok k' =>
        rw [hr] at h
        cases h
        have hk' : k' < s.prod := by
          have : ∀ (s idx : List ℕ) (k : ℕ), ravel idx s = .ok k → k < s.prod := by
            intro s
            induction s with
            | nil => intro idx k h; cases idx with
              | nil => cases h; simp
              | cons _ _ => cases h
            | cons n s ih =>
              intro idx k h
              cases idx with
              | nil => cases h
              | cons i idx =>
                unfold ravel at h
                split_ifs at h with hi
                cases hr : ravel idx s with
                | error e => rw [hr] at h; cases h
                | ok k' =>
                  rw [hr] at h; cases h
                  rw [List.prod_cons]
                  exact Arr.lt_mul_add hi (ih _ _ hr)
          exact this _ _ _ hr
        rw [List.prod_cons] at hl
        have hle : i * s.prod + s.prod ≤ data.length := by
          rw [hl]
          calc i * s.prod + s.prod = (i + 1) * s.prod := by ring
            _ ≤ n * s.prod := Nat.mul_le_mul_right _ hi
        unfold Arr.sub
        simp only [hi, if_true]
        rw [ih _ (by simp; omega) hr]
        congr 2
        simp [List.getD_eq_getElem?_getD, hk']

end LRVB
