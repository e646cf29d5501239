import Verif.Lemmas.Terms3

/-! The value of a term along a path, and its derivative. -/

namespace LRVB

noncomputable section

open scoped ContDiff

/-- For each factor `d^{i+1} eta` of a term, the index `i`. -/
def jsFrom : List ℕ → ℕ → List ℕ
  | [], _ => []
  | n :: rest, i => List.replicate n i ++ jsFrom rest (i + 1)

/-- ... starting at 0. -/
def js (os : List ℕ) : List ℕ := jsFrom os 0

theorem count_jsFrom (os : List ℕ) (s i : ℕ) :
    (jsFrom os s).count i = if s ≤ i then os.getD (i - s) 0 else 0 := by
  induction os generalizing s with
  | nil => simp [jsFrom]
  | cons n os ih =>
    rw [jsFrom, List.count_append, ih, List.count_replicate]
    by_cases h1 : s = i
    · subst h1; simp
    · by_cases h2 : s ≤ i
      · have h3 : s + 1 ≤ i := by omega
        have h4 : i - s = (i - (s + 1)) + 1 := by omega
        simp [h1, h2, h3, h4]
      · have h3 : ¬ s + 1 ≤ i := by omega
        simp [h1, h2, h3]

theorem count_js (os : List ℕ) (i : ℕ) : (js os).count i = os.getD i 0 := by
  simp [js, count_jsFrom]

theorem js_perm {os : List ℕ} {l : List ℕ} (h : ∀ i, l.count i = os.getD i 0) : (js os).Perm l :=
  List.perm_iff_count.mpr fun i => by rw [count_js, h]

theorem mem_js {os : List ℕ} {i : ℕ} : i ∈ js os ↔ 0 < os.getD i 0 := by
  rw [← List.count_pos_iff, count_js]

theorem getD_append_zero (os : List ℕ) (i : ℕ) : (os ++ [0]).getD i 0 = os.getD i 0 := by
  simp only [List.getD_eq_getElem?_getD]
  rcases lt_trichotomy i os.length with h | h | h
  · rw [List.getElem?_append_left h]
  · subst h; simp
  · rw [List.getElem?_append_right (by omega)]
    have h1 : 1 ≤ i - os.length := by omega
    simp [List.getElem?_eq_none (show os.length ≤ i by omega),
      List.getElem?_eq_none (l := [0]) (i := i - os.length) (by simpa using h1)]

theorem getD_set (os : List ℕ) (p v i : ℕ) (hp : p < os.length) :
    (os.set p v).getD i 0 = if i = p then v else os.getD i 0 := by
  simp only [List.getD_eq_getElem?_getD, List.getElem?_set]
  by_cases h : p = i
  · subst h; simp [hp]
  · simp [h, Ne.symm h]

theorem js_append_zero (os : List ℕ) : (js (os ++ [0])).Perm (js os) :=
  js_perm fun i => by rw [count_js, getD_append_zero]

theorem js_first (os : List ℕ) :
    (js ((os ++ [0]).set 0 ((os ++ [0]).getD 0 0 + 1))).Perm (0 :: js os) := by
  refine js_perm fun i => ?_
  rw [List.count_cons, count_js, getD_set _ _ _ _ (by simp), getD_append_zero, getD_append_zero]
  by_cases h : i = 0
  · subst h; simp
  · simp [h, Ne.symm h]

theorem getD_bump {os : List ℕ} {q i : ℕ} (hq : q + 1 < os.length) :
    (DTerm.bump os q).getD i 0 =
      if i = q + 1 then os.getD (q + 1) 0 + 1 else if i = q then os.getD q 0 - 1 else os.getD i 0 := by
  rw [DTerm.bump, getD_set _ _ _ _ (by simpa using hq), getD_set _ _ _ _ (by omega),
    getD_set _ _ _ _ (by omega), if_neg (by omega : ¬ q + 1 = q)]

theorem lt_length_of_pos {os : List ℕ} {q : ℕ} (h : 0 < os.getD q 0) : q < os.length := by
  by_contra hc
  rw [List.getD_eq_getElem?_getD, List.getElem?_eq_none (by omega)] at h
  simp at h

theorem js_bump {os : List ℕ} {p : ℕ} (hp : p < (js os).length) :
    (js (DTerm.bump (os ++ [0]) (js os)[p])).Perm ((js os).set p ((js os)[p] + 1)) := by
  have hmem : (js os)[p] ∈ js os := List.getElem_mem hp
  have hpos := mem_js.mp hmem
  have hlen := lt_length_of_pos hpos
  refine js_perm fun i => ?_
  rw [List.count_set hp, getD_bump (by simpa using hlen), count_js, getD_append_zero,
    getD_append_zero, getD_append_zero]
  simp only [beq_iff_eq]
  by_cases h1 : i = (js os)[p] + 1
  · subst h1; simp
  · by_cases h2 : i = (js os)[p]
    · rw [if_neg h1, if_pos h2, if_pos h2.symm, if_neg (by omega), h2]; omega
    · rw [if_neg h1, if_neg h2, if_neg (by omega), if_neg (by omega)]; omega

theorem sum_js {V : Type} [AddCommMonoid V] (f : ℕ → V) (os : List ℕ) :
    ((js os).map f).sum = ∑ i ∈ Finset.range os.length, os.getD i 0 • f i := by
  have key : ∀ (os : List ℕ) (s : ℕ), ((jsFrom os s).map f).sum =
      ∑ i ∈ Finset.range os.length, os.getD i 0 • f (s + i) := by
    intro os
    induction os with
    | nil => intro s; rfl
    | cons n os ih =>
      intro s
      rw [jsFrom, List.map_append, List.sum_append, ih, List.length_cons, Finset.sum_range_succ']
      simp only [List.getD_cons_zero, List.getD_cons_succ, List.map_replicate, List.sum_replicate,
        add_zero]
      rw [add_comm]
      congr 1
      refine Finset.sum_congr rfl fun i _ => ?_
      rw [add_assoc, add_comm 1 i]
  simpa [js] using key os 0

section

variable {E V : Type} [NormedAddCommGroup E] [NormedSpace ℝ E] [NormedAddCommGroup V]
  [NormedSpace ℝ V] {g : E → V}

/-- The value of a term without its prefactor: the derivative of `g` at `x` in the directions
`e i` (as often as the orders say) and `w`. -/
def termVal (g : E → V) (e : ℕ → E) (w : E) (os : List ℕ) (eps : ℕ) (x : E) : V :=
  iterD g ((js os).map e ++ List.replicate eps w) x

theorem termVal_perm (hg : ContDiff ℝ ∞ g) (e : ℕ → E) (w : E) {os : List ℕ} {l : List ℕ}
    (h : (js os).Perm l) (eps : ℕ) (x : E) :
    termVal g e w os eps x = iterD g (l.map e ++ List.replicate eps w) x := by
  rw [termVal, iterD_perm hg ((h.map e).append_right _)]

/-- The derivative of the value of a term along a path. -/
theorem termVal_hasDerivAt (hg : ContDiff ℝ ∞ g) {γ : ℝ → E} {e : ℕ → ℝ → E} {w : E} {t : ℝ}
    (hγ : HasDerivAt γ (e 0 t + w) t) (he : ∀ i, HasDerivAt (e i) (e (i + 1) t) t)
    (os : List ℕ) (eps : ℕ) :
    HasDerivAt (fun s => termVal g (e · s) w os eps (γ s))
      (termVal g (e · t) w (os ++ [0]) (eps + 1) (γ t) +
        termVal g (e · t) w ((os ++ [0]).set 0 ((os ++ [0]).getD 0 0 + 1)) eps (γ t) +
        ∑ i ∈ Finset.range os.length, os.getD i 0 •
          termVal g (e · t) w (DTerm.bump (os ++ [0]) i) eps (γ t)) t := by
  have h := iterD_hasDerivAt hγ ((js os).map e ++ List.replicate eps fun _ => w)
    ((js os).map (fun i => e (i + 1) t) ++ List.replicate eps 0) (by
      refine List.rel_append ?_ ?_
      · rw [List.forall₂_map_left_iff, List.forall₂_map_right_iff, List.forall₂_same]
        exact fun i _ => he i
      · rw [List.forall₂_iff_get]
        simp [hasDerivAt_const]) hg
  have e1 : ∀ s, ((js os).map e ++ List.replicate eps fun _ => w).map (fun x : ℝ → E => x s) =
      (js os).map (e · s) ++ List.replicate eps w := by
    intro s; simp [Function.comp_def]
  simp only [e1] at h
  refine h.congr_deriv ?_
  rw [add_assoc, iterD_concat_add]
  have t1 : iterD g ((js os).map (e · t) ++ List.replicate eps w ++ [w]) (γ t) =
      termVal g (e · t) w (os ++ [0]) (eps + 1) (γ t) := by
    rw [termVal_perm hg _ _ (js_append_zero os), List.replicate_succ', ← List.append_assoc]
  have t2 : iterD g ((js os).map (e · t) ++ List.replicate eps w ++ [e 0 t]) (γ t) =
      termVal g (e · t) w ((os ++ [0]).set 0 ((os ++ [0]).getD 0 0 + 1)) eps (γ t) := by
    rw [termVal_perm hg _ _ (js_first os), List.map_cons]
    exact congrFun (iterD_perm hg (List.perm_append_singleton _ _)) _
  rw [t1, t2]
  have t3 : ((List.range ((js os).map e ++ List.replicate eps fun _ => w).length).map fun i =>
      iterD g (((js os).map (e · t) ++ List.replicate eps w).set i
        (((js os).map (fun i => e (i + 1) t) ++ List.replicate eps 0).getD i 0)) (γ t)).sum =
      ∑ i ∈ Finset.range os.length, os.getD i 0 •
          termVal g (e · t) w (DTerm.bump (os ++ [0]) i) eps (γ t) := by
    rw [← sum_js]
    have hl : ((js os).map e ++ List.replicate eps fun _ => w).length = (js os).length + eps := by simp
    rw [hl, List.range_add, List.map_append, List.sum_append, List.map_map]
    have z : ((List.range eps).map ((fun i =>
        iterD g (((js os).map (e · t) ++ List.replicate eps w).set i
        (((js os).map (fun i => e (i + 1) t) ++ List.replicate eps 0).getD i 0)) (γ t)) ∘
          ((js os).length + ·))).sum = 0 := by
      apply List.sum_eq_zero
      intro x hx
      obtain ⟨k, hk, rfl⟩ := List.mem_map.mp hx
      have hk := List.mem_range.mp hk
      simp only [Function.comp_apply]
      refine iterD_zero_mem hg ?_ _
      have : ((js os).map (fun i => e (i + 1) t) ++ List.replicate eps 0).getD ((js os).length + k) 0
          = (0 : E) := by
        rw [List.getD_eq_getElem?_getD, List.getElem?_append_right (by simp)]
        simp [hk]
      rw [this]
      apply List.mem_set
      simp [hk]
    rw [z, add_zero]
    congr 1
    apply List.ext_getElem (by simp)
    intro p hp _
    have hp : p < (js os).length := by simpa using hp
    simp only [List.getElem_map, List.getElem_range]
    rw [termVal_perm hg _ _ (js_bump hp), List.set_append_left _ _ (by simpa using hp)]
    congr 2
    rw [List.map_set]
    congr 1
    rw [List.getD_eq_getElem?_getD, List.getElem?_append_left (by simpa using hp)]
    simp [hp]
  rw [t3]
  abel

end

end

end LRVB
