import Verif.Model.Ld
import Verif.Lemmas.Arr
import Mathlib.Tactic.Positivity

namespace LRVB

/-- `n (n + 1) / 2`. -/
def tri (n : ℕ) : ℕ := n * (n + 1) / 2

theorem two_tri (n : ℕ) : 2 * tri n = n * (n + 1) := by
  unfold tri
  exact Nat.mul_div_cancel' (Nat.even_mul_succ_self n).two_dvd

theorem tri_succ (n : ℕ) : tri (n + 1) = tri n + (n + 1) := by
  have h1 := two_tri n
  have h2 := two_tri (n + 1)
  have : (n + 1) * (n + 1 + 1) = n * (n + 1) + 2 * (n + 1) := by ring
  omega

theorem tri_mono {m n : ℕ} (h : m ≤ n) : tri m ≤ tri n := by
  induction h with
  | refl => exact le_rfl
  | step _ ih => rw [tri_succ]; omega

theorem tri_injective {m n : ℕ} (h : tri m = tri n) : m = n := by
  rcases lt_trichotomy m n with hl | hl | hl
  · have := tri_mono hl; rw [Nat.succ_eq_add_one, tri_succ] at this; omega
  · exact hl
  · have := tri_mono hl; rw [Nat.succ_eq_add_one, tri_succ] at this; omega

theorem symIndex_of_le {i j : ℕ} (h : j ≤ i) : symIndex i j = tri i + j := by
  simp [symIndex, h, tri]; omega

theorem symIndex_comm (i j : ℕ) : symIndex i j = symIndex j i := by
  unfold symIndex
  by_cases h1 : j ≤ i <;> by_cases h2 : i ≤ j <;> simp [h1, h2]
  · have := le_antisymm h1 h2; subst this; rfl
  · omega

theorem trilIndices_succ (n : ℕ) :
    trilIndices (n + 1) = trilIndices n ++ (List.range (n + 1)).map fun j => (n, j) := by
  simp [trilIndices, List.range_succ (n := n)]

@[simp] theorem trilIndices_length (n : ℕ) : (trilIndices n).length = tri n := by
  induction n with
  | zero => rfl
  | succ n ih => rw [trilIndices_succ, List.length_append, ih, tri_succ]; simp

theorem mem_trilIndices {n i j : ℕ} : (i, j) ∈ trilIndices n ↔ j ≤ i ∧ i < n := by
  simp only [trilIndices, List.mem_flatMap, List.mem_range, List.mem_map, Prod.mk.injEq]
  constructor
  · rintro ⟨a, ha, b, hb, rfl, rfl⟩; omega
  · rintro ⟨h1, h2⟩; exact ⟨i, h2, j, by omega, rfl, rfl⟩

/-- Entry `symIndex i j` of the enumeration of the lower triangle is `(i, j)`. -/
theorem trilIndices_getElem? {n i j : ℕ} (hj : j ≤ i) (hi : i < n) :
    (trilIndices n)[symIndex i j]? = some (i, j) := by
  induction n with
  | zero => omega
  | succ n ih =>
    rw [trilIndices_succ]
    by_cases h : i < n
    · rw [List.getElem?_append_left, ih h]
      rw [trilIndices_length, symIndex_of_le hj]
      have := tri_mono (Nat.succ_le_of_lt h)
      rw [Nat.succ_eq_add_one, tri_succ] at this
      omega
    · have : i = n := by omega
      subst this
      rw [List.getElem?_append_right (by rw [trilIndices_length, symIndex_of_le hj]; omega)]
      rw [trilIndices_length, symIndex_of_le hj]
      have : tri i + j - tri i = j := by omega
      rw [this]
      simp [Nat.lt_succ_of_le hj]

theorem symIndex_lt {n i j : ℕ} (hi : i < n) (hj : j < n) : symIndex i j < tri n := by
  have key : ∀ i j, j ≤ i → i < n → symIndex i j < tri n := by
    intro i j h1 h2
    have := trilIndices_getElem? h1 h2
    rw [List.getElem?_eq_some_iff] at this
    obtain ⟨h, _⟩ := this
    simpa using h
  rcases le_total j i with h | h
  · exact key i j h hi
  · rw [symIndex_comm]; exact key j i h hj

/-- Mapping the packed index over the enumeration gives `0, 1, 2, ...`. -/
theorem map_symIndex_trilIndices (n : ℕ) :
    (trilIndices n).map (fun p => symIndex p.1 p.2) = List.range (tri n) := by
  induction n with
  | zero => rfl
  | succ n ih =>
    rw [trilIndices_succ, List.map_append, ih, tri_succ, List.range_add (n := tri n)]
    congr 1
    rw [List.map_map]
    apply List.map_congr_left
    intro j hj
    simp only [Function.comp]
    rw [symIndex_of_le (by simpa [Nat.lt_succ_iff] using hj)]

theorem trilIndices_getElem_symIndex {n k : ℕ} (h : k < (trilIndices n).length) :
    symIndex (trilIndices n)[k].1 (trilIndices n)[k].2 = k := by
  have := map_symIndex_trilIndices n
  have h2 := congrArg (fun l => l[k]?) this
  simp only [List.getElem?_map, List.getElem?_eq_getElem h, Option.map_some] at h2
  rw [List.getElem?_eq_getElem (by simpa using h)] at h2
  simpa using h2

/-- `ldMatSize` inverts `tri`. -/
theorem ldMatSize_tri (n : ℕ) : ldMatSize (tri n) = n := by
  unfold ldMatSize
  have h : (1 + 8 * (tri n : ℝ)) = (2 * n + 1) ^ 2 := by
    have := two_tri n
    have h' : (2 * (tri n : ℝ)) = n * (n + 1) := by exact_mod_cast this
    nlinarith
  rw [h, Real.sqrt_sq (by positivity)]
  have : (1 / 2 : ℝ) * (2 * n + 1 - 1) = n := by ring
  rw [this, Nat.floor_natCast]

theorem ldMatSize_ok_iff (len : ℕ) :
    ldMatSize len * (ldMatSize len + 1) = 2 * len ↔ ∃ n, len = tri n := by
  constructor
  · intro h
    refine ⟨ldMatSize len, ?_⟩
    have := two_tri (ldMatSize len)
    omega
  · rintro ⟨n, rfl⟩
    rw [ldMatSize_tri, two_tri]

theorem unvectorizeLd_ok {n : ℕ} {v : List ℝ} (h : v.length = tri n) :
    unvectorizeLd v = .ok (Arr.ofFn2 n n fun i j => if j ≤ i then v.getD (symIndex i j) 0 else 0) := by
  have e : ldMatSize v.length = n := by rw [h, ldMatSize_tri]
  simp only [unvectorizeLd, e]
  rw [if_neg]
  rw [h, two_tri]; simp

theorem unvectorizeLd_err {v : List ℝ} (h : ¬ ∃ n, v.length = tri n) :
    unvectorizeLd v = .error .valueError := by
  simp only [unvectorizeLd]
  rw [if_pos]
  rw [Ne, ldMatSize_ok_iff]
  exact h

theorem vectorizeLd_ok {m : Arr} {n : ℕ} (h : m.shape = [n, n]) :
    vectorizeLd m = .ok ((trilIndices n).map fun p => m.at2 p.1 p.2) := by
  simp [vectorizeLd, h]

/-- Reading a vector of triangular length at the packed indices gives it back. -/
theorem map_getD_symIndex {n : ℕ} {v : List ℝ} (h : v.length = tri n) :
    ((trilIndices n).map fun p => v.getD (symIndex p.1 p.2) 0) = v := by
  have : ((trilIndices n).map fun p => v.getD (symIndex p.1 p.2) 0) =
      (List.range (tri n)).map fun k => v.getD k 0 := by
    rw [← map_symIndex_trilIndices, List.map_map]; rfl
  rw [this, ← h]
  apply List.ext_getElem (by simp)
  intro k h1 h2
  simp [List.getD_eq_getElem?_getD, h2]

theorem vectorize_ofFn2 {n : ℕ} {v : List ℝ} (h : v.length = tri n) (f : ℕ → ℕ → ℝ)
    (hf : ∀ i j, j ≤ i → i < n → f i j = v.getD (symIndex i j) 0) :
    vectorizeLd (Arr.ofFn2 n n f) = .ok v := by
  rw [vectorizeLd_ok rfl]
  congr 1
  rw [← map_getD_symIndex h]
  apply List.map_congr_left
  rintro ⟨i, j⟩ hp
  obtain ⟨h1, h2⟩ := mem_trilIndices.mp hp
  rw [Arr.at2_ofFn2 _ _ _ h2 (by omega), hf i j h1 h2]

theorem vectorizeLd_getD {m : Arr} {n i j : ℕ} {v : List ℝ} (h : m.shape = [n, n])
    (hv : vectorizeLd m = .ok v) (hj : j ≤ i) (hi : i < n) :
    v.getD (symIndex i j) 0 = m.at2 i j := by
  rw [vectorizeLd_ok h] at hv
  cases hv
  rw [List.getD_eq_getElem?_getD, List.getElem?_map, trilIndices_getElem? hj hi]
  rfl

theorem vectorizeLd_length {m : Arr} {n : ℕ} {v : List ℝ} (h : m.shape = [n, n])
    (hv : vectorizeLd m = .ok v) : v.length = tri n := by
  rw [vectorizeLd_ok h] at hv
  cases hv
  simp

/-- Two vectors of triangular length agree when they agree at all packed indices. -/
theorem ext_tri {n : ℕ} {v w : List ℝ} (hv : v.length = tri n) (hw : w.length = tri n)
    (h : ∀ i j, j ≤ i → i < n → v.getD (symIndex i j) 0 = w.getD (symIndex i j) 0) : v = w := by
  rw [← map_getD_symIndex hv, ← map_getD_symIndex hw]
  apply List.map_congr_left
  rintro ⟨i, j⟩ hp
  obtain ⟨h1, h2⟩ := mem_trilIndices.mp hp
  exact h i j h1 h2

theorem expMatrixDiagonal_ok {m : Arr} {n : ℕ} (h : m.shape = [n, n]) :
    expMatrixDiagonal m = .ok (Arr.ofFn2 n n fun i j =>
      if i = j then Real.exp (m.at2 i i) else m.at2 i j) := by
  simp only [expMatrixDiagonal, h]
  rw [if_neg (by simp)]
  congr 1
  apply Arr.ofFn2_congr
  intro i _ j _
  by_cases hij : i = j
  · subst hij; simp
  · simp [hij]

theorem logMatrixDiagonal_ok {m : Arr} {n : ℕ} (h : m.shape = [n, n])
    (hp : ∀ i < n, 0 < m.at2 i i) :
    logMatrixDiagonal m = .ok (Arr.ofFn2 n n fun i j =>
      if i = j then Real.log (m.at2 i i) else m.at2 i j) := by
  simp only [logMatrixDiagonal, h]
  rw [if_neg (by simp), if_neg (by simpa using hp)]
  congr 1
  apply Arr.ofFn2_congr
  intro i _ j _
  by_cases hij : i = j
  · subst hij; simp
  · simp [hij]

noncomputable section

/-- The lower-triangular factor determined by a free vector. -/
def freeChol (x : List ℝ) (i j : ℕ) : ℝ :=
  if j < i then x.getD (symIndex i j) 0
  else if j = i then Real.exp (x.getD (symIndex i i) 0)
  else 0

theorem unpackPosdef_ok {n : ℕ} {x : List ℝ} (h : x.length = tri n) (d : ℝ) :
    unpackPosdef x d = .ok (Arr.ofFn2 n n fun i j =>
      (∑ k ∈ Finset.range n, freeChol x i k * freeChol x j k) + (if i = j then d else 0)) := by
  simp only [unpackPosdef]
  rw [unvectorizeLd_ok h]
  change (do
    let l ← expMatrixDiagonal _
    _) = _
  rw [expMatrixDiagonal_ok (n := n) rfl]
  change Except.ok _ = _
  congr 1
  apply Arr.ofFn2_congr
  intro i hi j hj
  congr 1
  apply Finset.sum_congr rfl
  intro k hk
  have hk : k < n := by simpa using hk
  have : ∀ i < n, (Arr.ofFn2 n n fun i_1 j =>
      if i_1 = j then Real.exp ((Arr.ofFn2 n n fun i j => if j ≤ i then x.getD (symIndex i j) 0 else 0).at2 i_1 i_1)
      else (Arr.ofFn2 n n fun i j => if j ≤ i then x.getD (symIndex i j) 0 else 0).at2 i_1 j).at2 i k =
      freeChol x i k := by
    intro i hi
    rw [Arr.at2_ofFn2 _ _ _ hi hk, Arr.at2_ofFn2 _ _ _ hi hi, Arr.at2_ofFn2 _ _ _ hi hk]
    unfold freeChol
    rcases lt_trichotomy k i with h | h | h
    · have : i ≠ k := by omega
      simp [h, h.le, this]
    · subst h; simp
    · have h1 : i ≠ k := by omega
      have h2 : ¬ k ≤ i := by omega
      have h3 : ¬ k < i := by omega
      simp [h1, h2, h3, h1.symm]
  rw [this i hi, this j hj]

theorem unvectorizeSym_ok {n : ℕ} {v : List ℝ} (h : v.length = tri n) :
    unvectorizeSym v = .ok (Arr.ofFn2 n n fun i j => v.getD (symIndex i j) 0) := by
  simp only [unvectorizeSym]
  rw [unvectorizeLd_ok h]
  change Except.ok _ = _
  congr 1
  apply Arr.ofFn2_congr
  intro i hi j hj
  replace hi : i < n := hi
  replace hj : j < n := hj
  rw [Arr.at2_ofFn2 _ _ _ hi hj, Arr.at2_ofFn2 _ _ _ hj hi, Arr.at2_ofFn2 _ _ _ hi hi]
  rcases lt_trichotomy i j with hl | hl | hl
  · have h1 : ¬ j ≤ i := by omega
    have h2 : i ≠ j := by omega
    simp [h1, h2, hl.le, symIndex_comm i j]
  · subst hl; simp
  · have h1 : ¬ i ≤ j := by omega
    have h2 : i ≠ j := by omega
    simp [h1, h2, hl.le]

end

end LRVB
