import Verif.Props.Masks
import Verif.Lemmas.Terms5

/-!
# C64: solving on subsets
-/

namespace LRVB

/-! ### Specification -/

/-- The states of a solver after any sequence of calls, including calls that raise, resets and changes
of the tolerance or the preconditioner. -/
inductive CgReach (cg : CgSolver) (clock : ℕ → ℝ) (hvp : List ℝ → List ℝ → Py (List ℝ)) (x0 : List ℝ) :
    CgState → Prop
  | new : CgReach cg clock hvp x0 (.new cg clock hvp x0)
  | resets {s} : CgReach cg clock hvp x0 s → CgReach cg clock hvp x0 s.reset
  | configure {s} (t : ℝ) (M : Option Arr) : CgReach cg clock hvp x0 s →
      CgReach cg clock hvp x0 { s with tol := t, preconditioner := M }
  | solve {s} (vec : List ℝ) (masks : List Mask) : CgReach cg clock hvp x0 s →
      CgReach cg clock hvp x0 (s.getHinvVecSubsets vec masks).1

/-- The vector that agrees with `vec` where the mask is true and is zero elsewhere. -/
def MaskedVec (mask : Mask) (vec out : List ℝ) : Prop :=
  out.length = vec.length ∧ mask.length = vec.length ∧
    ∀ i, out.getD i 0 = if mask.getD i false then vec.getD i 0 else 0

/-- Entry `i` of the records of a solver describes one solve: the masked vector, its mask, and the
result and status of conjugate gradient on that masked vector at `x0`. -/
def CgRecord (cg : CgSolver) (hvp : List ℝ → List ℝ → Py (List ℝ)) (x0 : List ℝ)
    (vm : List ℝ) (mask : Mask) (hv : List ℝ) (info : ℤ) : Prop :=
  (∃ vec, MaskedVec mask vec vm) ∧
  ∃ tol M, cg x0.length (fun v => hvp x0 v) vm none tol M = .ok (hv, info)

/-- The records are aligned: the five lists have the same length and their entries describe the same
solves. -/
structure CgAligned (cg : CgSolver) (hvp : List ℝ → List ℝ → Py (List ℝ)) (x0 : List ℝ) (s : CgState) :
    Prop where
  lengths : s.hinvVecs.length = s.vecs.length ∧ s.masks.length = s.vecs.length ∧
    s.times.length = s.vecs.length ∧ s.infos.length = s.vecs.length
  entries : ∀ (i : ℕ) vm mask hv info, s.vecs[i]? = some vm → s.masks[i]? = some mask →
    s.hinvVecs[i]? = some hv → s.infos[i]? = some info → CgRecord cg hvp x0 vm mask hv info

/-! ### Lemmas -/

theorem maskVec_ok {vec : List ℝ} {mask : Mask} {vm : List ℝ} (h : CgState.maskVec vec mask = .ok vm) :
    MaskedVec mask vec vm := by
  unfold CgState.maskVec at h
  split at h
  · rename_i hl
    injection h with h
    subst h
    refine ⟨by simp [hl], hl, fun i => ?_⟩
    rw [List.getD_eq_getElem?_getD, List.getElem?_zipWith]
    simp only [List.getD_eq_getElem?_getD]
    by_cases hi : i < vec.length
    · have hi' : i < mask.length := by omega
      rw [List.getElem?_eq_getElem hi, List.getElem?_eq_getElem hi']
      simp
    · rw [List.getElem?_eq_none (show vec.length ≤ i by omega),
        List.getElem?_eq_none (show mask.length ≤ i by omega)]
      simp
  · exact absurd h (by simp)

/-- The parts of the state that do not change. -/
structure CgSame (cg : CgSolver) (clock : ℕ → ℝ) (hvp : List ℝ → List ℝ → Py (List ℝ)) (x0 : List ℝ)
    (s : CgState) : Prop where
  cg : s.cg = cg
  clock : s.clock = clock
  op : s.op = fun v => hvp x0 v
  dim : s.dim = x0.length
  x0 : s.x0 = x0

theorem getElem?_snoc {α : Type} (l : List α) (a : α) (i : ℕ) :
    (l ++ [a])[i]? = if i = l.length then some a else l[i]? := by
  split
  · rename_i h; simp [h]
  · rename_i h
    by_cases hi : i < l.length
    · rw [List.getElem?_append_left hi]
    · rw [List.getElem?_eq_none (by simp; omega), List.getElem?_eq_none (by omega)]

theorem solveSubset_inv {cg : CgSolver} {clock : ℕ → ℝ} {hvp : List ℝ → List ℝ → Py (List ℝ)} {x0 : List ℝ}
    {s : CgState} (hs : CgSame cg clock hvp x0 s) (ha : CgAligned cg hvp x0 s) (vec : List ℝ) (mask : Mask) :
    CgSame cg clock hvp x0 (s.solveSubset vec mask).1 ∧ CgAligned cg hvp x0 (s.solveSubset vec mask).1 := by
  unfold CgState.solveSubset
  cases hm : CgState.maskVec vec mask with
  | error e => exact ⟨hs, ha⟩
  | ok vm =>
    simp only
    cases hc : s.getHinvVec vm none with
    | error e =>
      exact ⟨⟨hs.cg, hs.clock, hs.op, hs.dim, hs.x0⟩, ⟨ha.lengths, ha.entries⟩⟩
    | ok r =>
      obtain ⟨hv, info⟩ := r
      simp only
      refine ⟨⟨hs.cg, hs.clock, hs.op, hs.dim, hs.x0⟩, ⟨?_, ?_⟩⟩
      · obtain ⟨h1, h2, h3, h4⟩ := ha.lengths
        simp only [List.length_append, List.length_singleton]
        omega
      · intro i vm' mask' hv' info' e1 e2 e3 e4
        obtain ⟨h1, h2, h3, h4⟩ := ha.lengths
        simp only [getElem?_snoc, h1, h2, h4] at e1 e2 e3 e4
        by_cases hi : i = s.vecs.length
        · rw [if_pos hi, Option.some.injEq] at e1 e2 e3 e4
          subst e1; subst e2; subst e3; subst e4
          refine ⟨⟨vec, maskVec_ok hm⟩, s.tol, s.preconditioner, ?_⟩
          unfold CgState.getHinvVec at hc
          rw [hs.cg, hs.op, hs.dim] at hc
          exact hc
        · rw [if_neg hi] at e1 e2 e3 e4
          exact ha.entries i _ _ _ _ e1 e2 e3 e4

theorem subsets_inv {cg : CgSolver} {clock : ℕ → ℝ} {hvp : List ℝ → List ℝ → Py (List ℝ)} {x0 : List ℝ}
    (vec : List ℝ) : ∀ (masks : List Mask) {s : CgState}, CgSame cg clock hvp x0 s → CgAligned cg hvp x0 s →
    CgSame cg clock hvp x0 (s.getHinvVecSubsets vec masks).1 ∧
      CgAligned cg hvp x0 (s.getHinvVecSubsets vec masks).1 := by
  intro masks
  induction masks with
  | nil => intro s hs ha; exact ⟨hs, ha⟩
  | cons m ms ih =>
    intro s hs ha
    obtain ⟨h1, h2⟩ := solveSubset_inv hs ha vec m
    rw [CgState.getHinvVecSubsets]
    cases hr : (s.solveSubset vec m).2 with
    | some e => exact ⟨h1, h2⟩
    | none => exact ih h1 h2

/-- **C64** (bookkeeping) After every sequence of calls, whether or not some of them raised, the five
recorded lists have the same length and entry `i` of them describes one and the same solve. -/
theorem C64_records_aligned {cg : CgSolver} {clock : ℕ → ℝ} {hvp : List ℝ → List ℝ → Py (List ℝ)}
    {x0 : List ℝ} {s : CgState} (h : CgReach cg clock hvp x0 s) : CgAligned cg hvp x0 s := by
  suffices CgSame cg clock hvp x0 s ∧ CgAligned cg hvp x0 s from this.2
  induction h with
  | new =>
    exact ⟨⟨rfl, rfl, rfl, rfl, rfl⟩, ⟨⟨rfl, rfl, rfl, rfl⟩, fun i _ _ _ _ h => by simp [CgState.new, CgState.reset] at h⟩⟩
  | resets _ ih =>
    exact ⟨⟨ih.1.cg, ih.1.clock, ih.1.op, ih.1.dim, ih.1.x0⟩, ⟨⟨rfl, rfl, rfl, rfl⟩,
      fun i _ _ _ _ h => by simp [CgState.reset] at h⟩⟩
  | configure t M _ ih =>
    exact ⟨⟨ih.1.cg, ih.1.clock, ih.1.op, ih.1.dim, ih.1.x0⟩, ⟨ih.2.lengths, ih.2.entries⟩⟩
  | solve vec masks _ ih => exact subsets_inv vec masks ih.1 ih.2

/-- The result of `getHinvVecSubsets` when every solve returns. -/
theorem subsets_ok (vec : List ℝ) (x : Mask → List ℝ) : ∀ (masks : List Mask) (s : CgState),
    (∀ m ∈ masks, m.length = vec.length) →
    (∀ m ∈ masks, ∀ vm, MaskedVec m vec vm → ∃ info,
      s.cg s.dim s.op vm none s.tol s.preconditioner = .ok (x m, info)) →
    ∃ (vms : List (List ℝ)) (ts : List ℝ) (is : List ℤ) (k : ℕ),
      List.Forall₂ (fun m vm => MaskedVec m vec vm) masks vms ∧
      s.getHinvVecSubsets vec masks = ({ s with
        vecs := s.vecs ++ vms, hinvVecs := s.hinvVecs ++ masks.map x, masks := s.masks ++ masks,
        times := s.times ++ ts, infos := s.infos ++ is, ticks := k }, none) := by
  intro masks
  induction masks with
  | nil =>
    intro s _ _
    exact ⟨[], [], [], s.ticks, .nil, by simp [CgState.getHinvVecSubsets]⟩
  | cons m ms ih =>
    intro s hl hx
    have hml := hl m (by simp)
    obtain ⟨vm, hvm⟩ : ∃ vm, CgState.maskVec vec m = .ok vm := by
      unfold CgState.maskVec
      rw [if_pos hml]
      exact ⟨_, rfl⟩
    have hmv := maskVec_ok hvm
    obtain ⟨info, hi⟩ := hx m (by simp) vm hmv
    set s' : CgState := { s with
          times := s.times ++ [s.clock (s.ticks + 1) - s.clock s.ticks]
          vecs := s.vecs ++ [vm]
          masks := s.masks ++ [m]
          hinvVecs := s.hinvVecs ++ [x m]
          infos := s.infos ++ [info]
          ticks := s.ticks + 2 } with hs'
    have hstep : s.solveSubset vec m = (s', none) := by
      unfold CgState.solveSubset CgState.getHinvVec
      rw [hvm]
      simp only [hi]
      rfl
    obtain ⟨vms, ts, is, k, hf, e⟩ := ih s' (fun m' hm' => hl m' (by simp [hm']))
      (fun m' hm' => hx m' (by simp [hm']))
    refine ⟨vm :: vms, (s.clock (s.ticks + 1) - s.clock s.ticks) :: ts, info :: is, k, .cons hmv hf, ?_⟩
    rw [CgState.getHinvVecSubsets]
    simp only [hstep]
    rw [e, hs']
    simp only [List.append_assoc, List.singleton_append, List.map_cons]

/-- Masks that partition another mask: at every position at most one of them is true. -/
theorem masked_sum {target : Mask} {vec : List ℝ} {masks : List Mask} {vms : List (List ℝ)}
    (hp : PartitionsMask masks target) (hf : List.Forall₂ (fun m vm => MaskedVec m vec vm) masks vms) (i : ℕ) :
    (vms.map fun v => v.getD i 0).sum = if target.getD i false then vec.getD i 0 else 0 := by
  have hD : ∀ m : Mask, m.getD i false = true ↔ m.Has i := by
    intro m
    unfold Mask.Has
    rw [List.getD_eq_getElem?_getD]
    cases m[i]? with
    | none => simp
    | some b => cases b <;> simp
  classical
  have key : (vms.map fun v => v.getD i 0).sum = if (∃ m ∈ masks, m.Has i) then vec.getD i 0 else 0 := by
    have hd := hp.disjoint
    clear hp
    induction hf with
    | nil => simp
    | @cons m vm ms vms h1 _ ih =>
      rw [List.pairwise_cons] at hd
      rw [List.map_cons, List.sum_cons, ih hd.2, h1.2.2 i]
      by_cases hm : m.Has i
      · have hno : ¬ ∃ m' ∈ ms, m'.Has i := fun ⟨m', hm', hi⟩ => hd.1 m' hm' i ⟨hm, hi⟩
        rw [if_neg hno, if_pos ((hD m).mpr hm), if_pos ⟨m, by simp, hm⟩, add_zero]
      · rw [if_neg (fun h => hm ((hD m).mp h)), zero_add]
        have : (∃ m' ∈ m :: ms, m'.Has i) ↔ ∃ m' ∈ ms, m'.Has i := by
          simp [hm]
        simp only [this]
  rw [key]
  have : (∃ m ∈ masks, m.Has i) ↔ target.getD i false = true := by rw [hD, hp.union i]
  simp only [this]

theorem full_getD {n i : ℕ} (v : List ℝ) (hv : v.length = n) :
    (if (List.replicate n true).getD i false then v.getD i 0 else 0) = v.getD i 0 := by
  by_cases hi : i < n
  · rw [if_pos (by simp [List.getD_eq_getElem?_getD, List.getElem?_replicate, hi])]
  · rw [if_neg (by simp [List.getD_eq_getElem?_getD, List.getElem?_replicate, hi]),
      List.getD_eq_getElem?_getD, List.getElem?_eq_none (by omega)]
    rfl

/-- **C64** (sums) Let the operator be the linear map `L`, and let conjugate gradient solve exactly.  If
the masks partition the indices, the call succeeds and appends one vector and one solution per mask, in
order; the appended vectors sum to `vec`; the sum of the appended solutions solves the full system, and
is its only solution when `L` is injective. -/
theorem C64_subset_solves_sum (s : CgState) {n : ℕ} (L : (Fin n → ℝ) →ₗ[ℝ] (Fin n → ℝ))
    (hop : ∀ x, s.op (List.ofFn x) = .ok (List.ofFn (L x)))
    (hexact : ∀ b : Fin n → ℝ, ∃ (x : Fin n → ℝ) (info : ℤ),
      s.cg s.dim s.op (List.ofFn b) none s.tol s.preconditioner = .ok (List.ofFn x, info) ∧
      s.op (List.ofFn x) = .ok (List.ofFn b))
    (vec : List ℝ) (hvec : vec.length = n) (masks : List Mask)
    (hp : PartitionsMask masks (List.replicate n true)) :
    ∃ (s' : CgState) (vms hvs : List (List ℝ)),
      s.getHinvVecSubsets vec masks = (s', none) ∧
      s'.vecs = s.vecs ++ vms ∧ s'.hinvVecs = s.hinvVecs ++ hvs ∧ s'.masks = s.masks ++ masks ∧
      List.Forall₂ (fun m vm => MaskedVec m vec vm) masks vms ∧
      (∀ i, (vms.map fun v => v.getD i 0).sum = vec.getD i 0) ∧
      (∀ v ∈ hvs, v.length = n) ∧
      List.Forall₂ (fun vm hv => L (fun i : Fin n => hv.getD i 0) = fun i : Fin n => vm.getD i 0) vms hvs ∧
      (L fun i : Fin n => (hvs.map fun v => v.getD i 0).sum) = (fun i : Fin n => vec.getD i 0) ∧
      (Function.Injective L → ∀ x, (L x = fun i : Fin n => vec.getD i 0) →
        x = fun i : Fin n => (hvs.map fun v => v.getD i 0).sum) := by
  classical
  choose X I hI hX using hexact
  have hLX : ∀ b, L (X b) = b := fun b => by
    have h := (hop (X b)).symm.trans (hX b)
    injection h with h
    exact List.ofFn_injective h
  set mv : Mask → (Fin n → ℝ) := fun m i => if m.getD i false then vec.getD i 0 else 0 with hmv
  have hofFn : ∀ (m : Mask) (vm : List ℝ), MaskedVec m vec vm → vm = List.ofFn (mv m) := by
    intro m vm h
    rw [← ofFn_toVec (h.1.trans hvec)]
    congr 1
    funext i
    exact h.2.2 i
  obtain ⟨vms, ts, is, k, hf, e⟩ := subsets_ok vec (fun m => List.ofFn (X (mv m))) masks s
    (fun m hm => by rw [hp.lengths m hm, hvec]; simp)
    (fun m _ vm h => ⟨I (mv m), by rw [hofFn m vm h]; exact hI (mv m)⟩)
  have hlin : (L fun i => ((masks.map fun m => List.ofFn (X (mv m))).map fun v => v.getD i 0).sum) =
      fun i : Fin n => (vms.map fun v => v.getD i 0).sum := by
    clear e hp
    induction hf with
    | nil =>
      have : (fun i : Fin n => (0 : ℝ)) = 0 := rfl
      simp [this]
    | @cons m vm ms vms h1 _ ih =>
      have h2 : (fun i : Fin n => (((m :: ms).map fun m => List.ofFn (X (mv m))).map fun v => v.getD i 0).sum) =
          X (mv m) + fun i : Fin n => ((ms.map fun m => List.ofFn (X (mv m))).map fun v => v.getD i 0).sum := by
        funext i
        simp [List.getD_eq_getElem?_getD]
      rw [h2, map_add, ih, hLX, hofFn m vm h1]
      funext i
      simp [List.getD_eq_getElem?_getD]
  have hsum : ∀ i, (vms.map fun v => v.getD i 0).sum = vec.getD i 0 := fun i => by
    rw [masked_sum hp hf i, full_getD vec hvec]
  have hL : (L fun i => ((masks.map fun m => List.ofFn (X (mv m))).map fun v => v.getD i 0).sum) =
      fun i : Fin n => vec.getD i 0 := by
    rw [hlin]
    funext i
    exact hsum i
  refine ⟨_, vms, masks.map fun m => List.ofFn (X (mv m)), e, rfl, rfl, rfl, hf, hsum, ?_, ?_, hL, ?_⟩
  · intro v hv
    obtain ⟨m, -, rfl⟩ := List.mem_map.mp hv
    simp
  · rw [List.forall₂_map_right_iff]
    refine hf.flip.imp ?_
    intro vm m h
    have : (fun i : Fin n => (List.ofFn (X (mv m))).getD i 0) = X (mv m) := by
      funext i
      simp [List.getD_eq_getElem?_getD]
    rw [this, hLX, hofFn m vm h]
    funext i
    simp [List.getD_eq_getElem?_getD]
  · intro hinj x hx
    exact hinj (hx.trans hL.symm)

/-- The masks of C61 and C63 meet the hypothesis of C64: a mask of `n` true entries and block masks. -/
example : PartitionsMask [[true, false, false], [false, true, true]] (List.replicate 3 true) := by
  have h := (C60_split_vector [true, true, true]).1
  have e : splitVector [true, true, true] = ([true, false, false], [false, true, true]) := by decide
  rw [e] at h
  exact h

/-- An exact solver for the operator `v ↦ 2 v`. -/
noncomputable def exCg : CgSolver := fun _ _ b _ _ _ => .ok (b.map (· / 2), 0)

noncomputable def exCgState : CgState :=
  .new exCg (fun i => i) (fun _ v => .ok (v.map (2 * ·))) [1, 2, 3]

example : ∃ L : (Fin 3 → ℝ) →ₗ[ℝ] (Fin 3 → ℝ), Function.Injective L ∧
    (∀ x, exCgState.op (List.ofFn x) = .ok (List.ofFn (L x))) ∧
    ∀ b : Fin 3 → ℝ, ∃ (x : Fin 3 → ℝ) (info : ℤ),
      exCgState.cg exCgState.dim exCgState.op (List.ofFn b) none exCgState.tol exCgState.preconditioner =
        .ok (List.ofFn x, info) ∧ exCgState.op (List.ofFn x) = .ok (List.ofFn b) := by
  refine ⟨(2 : ℝ) • LinearMap.id, ?_, fun x => ?_, fun b => ⟨fun i => b i / 2, 0, ?_, ?_⟩⟩
  · intro x y h
    simpa using h
  · change Except.ok ((List.ofFn x).map (2 * ·)) = _
    rw [List.map_ofFn]
    rfl
  · change Except.ok ((List.ofFn b).map (· / 2), (0 : ℤ)) = _
    rw [List.map_ofFn]
    rfl
  · change Except.ok ((List.ofFn fun i => b i / 2).map (2 * ·)) = _
    rw [List.map_ofFn]
    congr 2
    funext i
    simp only [Function.comp]
    ring

end LRVB
