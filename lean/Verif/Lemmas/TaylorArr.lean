import Verif.Model.Taylor
import Verif.Lemmas.AgJac
import Verif.Lemmas.IterD
import Mathlib.Analysis.Calculus.ContDiff.FTaylorSeries

/-! The array of directional derivatives. -/

namespace LRVB

open scoped ContDiff

noncomputable section

theorem getIdx_ok {α : Type} {l : List α} {i : ℕ} (h : i < l.length) : getIdx l i = .ok l[i] := by
  simp [getIdx, h]

/-- Entry `[i][j]` of the array. -/
def jvpArr (f : DFun) (i j : ℕ) : DFun :=
  (fun g => appendJvp g 1)^[j] ((fun g => appendJvp g 0)^[i] f)

theorem genInner_fold (f : DFun) (x1 : ℕ) (pre : List (List DFun)) (hp : pre.length = x1) (k : ℕ) :
    (List.range k).foldlM (genInner x1) (pre ++ [[jvpArr f x1 0]]) =
      .ok (pre ++ [(List.range (k + 1)).map (jvpArr f x1)]) := by
  induction k with
  | zero => simp [List.range_succ]; rfl
  | succ k ih =>
    rw [List.range_succ, List.foldlM_append, ih]
    simp only [bind, Except.bind, List.foldlM_cons, List.foldlM_nil, genInner]
    rw [getIdx_ok (by simp [hp])]
    subst hp
    simp only [List.getElem_concat_length]
    rw [getIdx_ok (by simp)]
    simp only [List.getElem_map, List.getElem_range]
    rw [List.range_succ (n := k + 1)]
    simp only [List.map_append, List.map_cons, List.map_nil]
    congr 1
    rw [List.set_append_right _ _ (by simp)]
    simp only [Nat.sub_self, List.set_cons_zero]
    simp only [jvpArr, Function.iterate_succ_apply']

theorem generateArray_eq (f : DFun) {N : ℕ} (hN : 0 < N) :
    generateArray f N = .ok ((List.range N).map fun i => (List.range (N + 1)).map (jvpArr f i)) := by
  have key : ∀ k, (List.range (k + 1)).foldlM (genOuter N) [[f]] =
      .ok ((List.range (k + 1)).map fun i => (List.range (N + 1)).map (jvpArr f i)) := by
    intro k
    induction k with
    | zero =>
      rw [show List.range (0 + 1) = [0] from rfl]
      simp only [List.foldlM_cons, List.foldlM_nil, genOuter]
      have := genInner_fold f 0 [] rfl N
      simp only [List.nil_append] at this
      simp only [gt_iff_lt, lt_irrefl, if_false, py_ok_bind, List.map_cons, List.map_nil]
      rw [show ([[f]] : List (List DFun)) = [[jvpArr f 0 0]] from rfl, this]
      rfl
    | succ k ih =>
      rw [List.range_succ, List.foldlM_append, ih]
      simp only [py_ok_bind, List.foldlM_cons, List.foldlM_nil, genOuter]
      rw [if_pos (Nat.succ_pos k), Nat.add_sub_cancel]
      rw [getIdx_ok (by simp), py_ok_bind, getIdx_ok (by simp)]
      simp only [py_ok_bind, List.getElem_map, List.getElem_range]
      have := genInner_fold f (k + 1)
        ((List.range (k + 1)).map fun i => (List.range (N + 1)).map (jvpArr f i)) (by simp) N
      rw [show jvpArr f (k + 1) 0 = appendJvp (jvpArr f k 0) 0 by
        simp only [jvpArr, Function.iterate_zero, id, Function.iterate_succ_apply']] at this
      rw [this]
      simp only [py_ok_bind, List.map_append, List.map_cons, List.map_nil]
      rfl
  obtain ⟨k, rfl⟩ := Nat.exists_eq_succ_of_ne_zero hN.ne'
  exact key k

/-! ### Values -/

theorem toVec_axpy {n : ℕ} {x v : List ℝ} (hx : x.length = n) (hv : v.length = n) (t : ℝ) :
    toVec n (axpy x v t) = toVec n x + t • toVec n v := by
  funext i
  have h1 : (i : ℕ) < x.length := hx ▸ i.2
  have h2 : (i : ℕ) < v.length := hv ▸ i.2
  simp [toVec, axpy, List.getD_eq_getElem?_getD, h1, h2]

theorem agJvp_ok {n p : ℕ} {F : List ℝ → Py (List ℝ)} {h : (Fin n → ℝ) → (Fin p → ℝ)}
    (hh : Differentiable ℝ h) (hF : ∀ y : List ℝ, y.length = n → F y = .ok (List.ofFn (h (toVec n y))))
    {x v : List ℝ} (hx : x.length = n) (hv : v.length = n) :
    agJvp F x v = .ok (List.ofFn (fderiv ℝ h (toVec n x) (toVec n v))) := by
  rw [agJvp, hF x hx, py_ok_bind, if_neg (by simp [hx, hv])]
  congr 1
  apply List.ext_getElem (by simp)
  intro k hk _
  have hk : k < p := by simpa using hk
  simp only [List.getElem_map, List.getElem_range, List.getElem_ofFn]
  have hl : ∀ t, (axpy x v t).length = n := fun t => by simp [axpy, hx, hv]
  have e : (fun t => entryL k (F (axpy x v t))) = fun t => h (toVec n x + t • toVec n v) ⟨k, hk⟩ := by
    funext t
    rw [hF _ (hl t), toVec_axpy hx hv]
    simp [entryL, List.getD_eq_getElem?_getD, hk]
  rw [e]
  have h0 : HasDerivAt (fun t : ℝ => toVec n x + t • toVec n v) (toVec n v) 0 := by
    simpa using ((hasDerivAt_id (0 : ℝ)).smul_const (toVec n v)).const_add (toVec n x)
  have h1 : HasDerivAt (fun t : ℝ => h (toVec n x + t • toVec n v))
      (fderiv ℝ h (toVec n x) (toVec n v)) 0 := by
    have := (hh (toVec n x + (0 : ℝ) • toVec n v)).hasFDerivAt.comp_hasDerivAt (0 : ℝ) h0
    simp only [zero_smul, add_zero] at this
    exact this
  exact (hasDerivAt_pi.mp h1 ⟨k, hk⟩).deriv

section

variable {n m p : ℕ}

/-- A function of two vectors and further vectors computes the iterated derivative of `G` in the
directions `vs` (first argument) and `ws` (second argument). -/
def Computes (f : DFun) (G : (Fin n → ℝ) × (Fin m → ℝ) → (Fin p → ℝ)) (i j : ℕ) : Prop :=
  ∀ eta eps : List ℝ, eta.length = n → eps.length = m → ∀ vs ws : List (List ℝ),
    vs.length = i → ws.length = j → (∀ v ∈ vs, v.length = n) → (∀ w ∈ ws, w.length = m) →
    f eta eps (vs ++ ws) = .ok (List.ofFn (iterD G
      (vs.map (fun v => (toVec n v, 0)) ++ ws.map (fun w => (0, toVec m w)))
      (toVec n eta, toVec m eps)))

theorem iterD_add {E V : Type} [NormedAddCommGroup E] [NormedSpace ℝ E] [NormedAddCommGroup V] [NormedSpace ℝ V]
    {g h : E → V} (hg : ContDiff ℝ ∞ g) (hh : ContDiff ℝ ∞ h) (us : List E) :
    iterD (fun z => g z + h z) us = fun z => iterD g us z + iterD h us z := by
  induction us generalizing g h with
  | nil => rfl
  | cons u us ih =>
    rw [iterD_cons, iterD_cons, iterD_cons, ← ih (contDiff_dirD hg u) (contDiff_dirD hh u)]
    congr 1
    funext z
    rw [dirD, dirD, dirD, fderiv_fun_add (hg.differentiable (by simp) z) (hh.differentiable (by simp) z)]
    rfl

theorem iterD_const {E V : Type} [NormedAddCommGroup E] [NormedSpace ℝ E] [NormedAddCommGroup V] [NormedSpace ℝ V]
    (c : V) {us : List E} (hu : us ≠ []) : iterD (fun _ => c) us = fun _ => 0 := by
  induction us generalizing c with
  | nil => exact absurd rfl hu
  | cons u us ih =>
    have e : dirD (fun _ : E => c) u = fun _ => 0 := by
      funext z
      simp [dirD]
    rw [iterD_cons, e]
    cases us with
    | nil => rfl
    | cons v vs => exact ih 0 (by simp)

/-- The array does not tell `G` from `G` plus an affine function of the first argument, except for the values and the
first derivatives in the first argument. -/
theorem Computes.add_affine {f : DFun} {G : (Fin n → ℝ) × (Fin m → ℝ) → (Fin p → ℝ)} {i j : ℕ}
    (hG : ContDiff ℝ ∞ G) (h : Computes f G i j) (hij : 1 ≤ j ∨ 2 ≤ i) (A : (Fin n → ℝ) →L[ℝ] (Fin p → ℝ))
    (c : Fin p → ℝ) : Computes f (fun z => G z + (A z.1 + c)) i j := by
  intro eta eps he hp vs ws hvs hws hv hw
  rw [h eta eps he hp vs ws hvs hws hv hw]
  congr 2
  have hA : ContDiff ℝ ∞ fun z : (Fin n → ℝ) × (Fin m → ℝ) => A z.1 + c :=
    (A.contDiff.comp contDiff_fst).add contDiff_const
  have hd : ∀ u : (Fin n → ℝ) × (Fin m → ℝ), dirD (fun z : (Fin n → ℝ) × (Fin m → ℝ) => A z.1 + c) u =
      fun _ => A u.1 := by
    intro u
    funext z
    have : HasFDerivAt (fun z : (Fin n → ℝ) × (Fin m → ℝ) => A z.1 + c)
        (A.comp (ContinuousLinearMap.fst ℝ _ _)) z := (A.hasFDerivAt.comp z hasFDerivAt_fst).add_const c
    rw [dirD, this.fderiv]
    rfl
  rw [iterD_add hG hA]
  simp only [left_eq_add]
  obtain ⟨us, hus⟩ : ∃ us, us = vs.map (fun v => (toVec n v, (0 : Fin m → ℝ))) ++
    ws.map (fun w => ((0 : Fin n → ℝ), toVec m w)) := ⟨_, rfl⟩
  rw [← hus]
  cases us with
  | nil =>
    have := congrArg List.length hus
    simp at this
    omega
  | cons u us =>
    rw [iterD_cons, hd]
    cases us with
    | nil =>
      have h1 := congrArg List.length hus
      simp only [List.length_append, List.length_map, List.length_cons, List.length_nil] at h1
      have hv0 : vs = [] := by
        cases vs with
        | nil => rfl
        | cons a l =>
          simp only [List.length_cons] at h1 hvs
          omega
      subst hv0
      cases ws with
      | nil => simp at hus
      | cons w l =>
        simp only [List.map_nil, List.nil_append, List.map_cons, List.cons.injEq] at hus
        rw [hus.1]
        simp
    | cons v vs' =>
      rw [iterD_const _ (by simp)]

theorem fderiv_fst {G : (Fin n → ℝ) × (Fin m → ℝ) → (Fin p → ℝ)} (hG : Differentiable ℝ G)
    (u w : Fin n → ℝ) (v : Fin m → ℝ) :
    fderiv ℝ (fun u => G (u, v)) u w = fderiv ℝ G (u, v) (w, 0) := by
  have h2 := (hG (u, v)).hasFDerivAt.comp (f := fun u => (u, v)) u
    ((hasFDerivAt_id u).prodMk (hasFDerivAt_const v u))
  have h3 : fderiv ℝ (fun u => G (u, v)) u = _ := h2.fderiv
  rw [h3]; simp

theorem fderiv_snd {G : (Fin n → ℝ) × (Fin m → ℝ) → (Fin p → ℝ)} (hG : Differentiable ℝ G)
    (u : Fin n → ℝ) (v w : Fin m → ℝ) :
    fderiv ℝ (fun v => G (u, v)) v w = fderiv ℝ G (u, v) (0, w) := by
  have h2 := (hG (u, v)).hasFDerivAt.comp v ((hasFDerivAt_const u v).prodMk (hasFDerivAt_id v))
  have h3 : fderiv ℝ (fun v => G (u, v)) v = _ := h2.fderiv
  rw [h3]; simp

theorem Computes.append0 {f : DFun} {G : (Fin n → ℝ) × (Fin m → ℝ) → (Fin p → ℝ)} {i : ℕ}
    (hG : ContDiff ℝ ∞ G) (h : Computes f G i 0) : Computes (appendJvp f 0) G (i + 1) 0 := by
  intro eta eps he hp vs ws hvs hws hv hw
  obtain rfl : ws = [] := List.length_eq_zero_iff.mp hws
  obtain ⟨vs', v, rfl⟩ : ∃ vs' v, vs = vs' ++ [v] :=
    ⟨_, _, (List.dropLast_append_getLast (by rintro rfl; simp at hvs)).symm⟩
  simp only [List.append_nil, List.map_nil, appendJvp, List.getLast?_append, List.getLast?_singleton,
    Option.some_or, List.dropLast_concat, if_true, List.map_append, List.map_cons]
  rw [iterD_concat]
  have hd : Differentiable ℝ (iterD G (vs'.map fun v => (toVec n v, (0 : Fin m → ℝ)))) :=
    (contDiff_iterD hG _).differentiable (by simp)
  rw [agJvp_ok (n := n) (p := p) (h := fun u => iterD G
      (vs'.map fun v => (toVec n v, (0 : Fin m → ℝ))) (u, toVec m eps))]
  · rw [fderiv_fst hd]; rfl
  · exact hd.comp (differentiable_id.prodMk (differentiable_const _))
  · intro y hy
    have := h y eps hy hp vs' [] (by simpa using hvs) rfl
      (fun v hv' => hv v (List.mem_append_left _ hv')) (by simp)
    simpa using this
  · exact he
  · exact hv v (by simp)

theorem Computes.append1 {f : DFun} {G : (Fin n → ℝ) × (Fin m → ℝ) → (Fin p → ℝ)} {i j : ℕ}
    (hG : ContDiff ℝ ∞ G) (h : Computes f G i j) : Computes (appendJvp f 1) G i (j + 1) := by
  intro eta eps he hp vs ws hvs hws hv hw
  obtain ⟨ws', w, rfl⟩ : ∃ ws' w, ws = ws' ++ [w] :=
    ⟨_, _, (List.dropLast_append_getLast (by rintro rfl; simp at hws)).symm⟩
  rw [← List.append_assoc]
  simp only [appendJvp, List.getLast?_append, List.getLast?_singleton,
    Option.some_or, List.dropLast_concat, one_ne_zero, if_false, List.map_append, List.map_cons,
    List.map_nil, ← List.append_assoc]
  rw [iterD_concat]
  have hd : Differentiable ℝ (iterD G (vs.map (fun v => (toVec n v, (0 : Fin m → ℝ))) ++
      ws'.map fun w => ((0 : Fin n → ℝ), toVec m w))) :=
    (contDiff_iterD hG _).differentiable (by simp)
  rw [agJvp_ok (n := m) (p := p) (h := fun u => iterD G
      (vs.map (fun v => (toVec n v, (0 : Fin m → ℝ))) ++
      ws'.map fun w => ((0 : Fin n → ℝ), toVec m w)) (toVec n eta, u))]
  · rw [fderiv_snd hd]; rfl
  · exact hd.comp ((differentiable_const _).prodMk differentiable_id)
  · intro y hy
    exact h eta y he hy vs ws' hvs (by simpa using hws) hv
      (fun w hw' => hw w (List.mem_append_left _ hw'))
  · exact hp
  · exact hw w (by simp)

theorem jvpArr_computes {f : DFun} {G : (Fin n → ℝ) × (Fin m → ℝ) → (Fin p → ℝ)}
    (hG : ContDiff ℝ ∞ G)
    (hf : ∀ eta eps : List ℝ, eta.length = n → eps.length = m →
      f eta eps [] = .ok (List.ofFn (G (toVec n eta, toVec m eps)))) (i j : ℕ) :
    Computes (jvpArr f i j) G i j := by
  induction j with
  | zero =>
    induction i with
    | zero =>
      intro eta eps he hp vs ws hvs hws _ _
      obtain rfl := List.length_eq_zero_iff.mp hvs
      obtain rfl := List.length_eq_zero_iff.mp hws
      exact hf eta eps he hp
    | succ i ih =>
      have := Computes.append0 hG ih
      simpa only [jvpArr, Function.iterate_zero, id, Function.iterate_succ_apply'] using this
  | succ j ih =>
    have := Computes.append1 hG ih
    simpa only [jvpArr, Function.iterate_succ_apply'] using this

end

/-- The iterated directional derivative is Mathlib's iterated derivative. -/
theorem iterD_eq_iteratedFDeriv {E V : Type} [NormedAddCommGroup E] [NormedSpace ℝ E]
    [NormedAddCommGroup V] [NormedSpace ℝ V] {h : E → V} (hh : ContDiff ℝ ∞ h) (us : List E) (x : E) :
    iteratedFDeriv ℝ us.length h x us.get = iterD h us x := by
  have key : ∀ (us : List E) {V : Type} [NormedAddCommGroup V] [NormedSpace ℝ V] {h : E → V},
      ContDiff ℝ ∞ h → iteratedFDeriv ℝ us.length h x (fun i => us.reverse.get (i.cast (by simp))) =
        iterD h us x := by
    intro us
    induction us with
    | nil => intro V _ _ h _; rfl
    | cons u us ih =>
      intro V _ _ h hh
      change iteratedFDeriv ℝ (us.length + 1) h x _ = _
      rw [iteratedFDeriv_succ_apply_right, iterD_cons_clm hh,
        ← ih (contDiff_fderiv hh)]
      congr 1
      · congr 1
        funext i
        simp [Fin.init, List.getElem_append_left]
      · simp
  have h1 := key us.reverse hh
  rw [iterD_perm hh (List.reverse_perm us)] at h1
  rw [← h1]
  have e : ∀ (a b : ℕ) (hab : a = b) (u : Fin a → E) ,
      iteratedFDeriv ℝ a h x u = iteratedFDeriv ℝ b h x (fun i => u (i.cast hab.symm)) := by
    rintro a _ rfl u; rfl
  rw [e us.length us.reverse.length (by simp)]
  congr 1
  funext i
  simp

end

end LRVB
