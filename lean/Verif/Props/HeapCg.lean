import Verif.Lemmas.HeapCg
import Verif.Props.CgSolver

/-!
# C123, C124: messages and arrays of the conjugate gradient solver
-/

namespace LRVB

open Classical CgWorld

noncomputable section

/-! ### C123 -/

theorem solveSubset_printed (w : CgWorld) (vec mask : List ℕ) :
    (w.solveSubset vec mask).1.s.printed = w.s.printed := by
  unfold solveSubset
  split
  · rfl
  · dsimp only
    split <;> rfl

theorem subsetsLoop_printed (pe : ℤ) (n : ℕ) (vec : List ℕ) : ∀ (masks : List (List ℕ)) (ind : ℕ) (w : CgWorld),
    (subsetsLoop true pe n vec ind masks w).2 = none →
    (subsetsLoop true pe n vec ind masks w).1.s.printed = w.s.printed ++
      ((List.range' (ind + 1) masks.length).filter fun i : ℕ => decide (pe % (i : ℤ) = 0)).map fun i => (i, n)
  | [], ind, w, _ => by simp [subsetsLoop]
  | mask :: rest, ind, w, h => by
    unfold subsetsLoop at h ⊢
    dsimp only at h ⊢
    have hp := solveSubset_printed (w.report true pe (ind + 1) n) vec mask
    generalize (w.report true pe (ind + 1) n).solveSubset vec mask = r at *
    cases hr : r.2 with
    | some e => rw [hr] at h; simp at h
    | none =>
      rw [hr] at h
      simp only at h ⊢
      rw [subsetsLoop_printed pe n vec rest (ind + 1) r.1 h, hp]
      unfold report
      rw [List.length_cons, List.range'_succ, List.filter_cons]
      by_cases hd : pe % ((ind + 1 : ℕ) : ℤ) = 0
      · rw [if_pos ⟨rfl, hd⟩, if_pos (by simpa using hd)]
        simp
      · rw [if_neg (fun h => hd h.2), if_neg (by simpa using hd)]

theorem subsetsLoop_silent (pe : ℤ) (n : ℕ) (vec : List ℕ) : ∀ (masks : List (List ℕ)) (ind : ℕ) (w : CgWorld),
    (subsetsLoop false pe n vec ind masks w).1.s.printed = w.s.printed
  | [], ind, w => rfl
  | mask :: rest, ind, w => by
    unfold subsetsLoop
    dsimp only
    have hp := solveSubset_printed (w.report false pe (ind + 1) n) vec mask
    have hq : w.report false pe (ind + 1) n = w := by simp [report]
    rw [hq] at hp ⊢
    generalize w.solveSubset vec mask = r at *
    cases hr : r.2 with
    | some e => exact hp
    | none => exact (subsetsLoop_silent pe n vec rest (ind + 1) r.1).trans hp

/-- **C123** What is printed: with `verbose=True` a message for subset `i` whenever `i` divides `print_every`,
and nothing with `verbose=False`.  What is missing: messages at every `print_every`-th subset
(`C123_counterexample`). -/
theorem C123_messages_partial (w : CgWorld) (vec : List ℕ) (masks : List (List ℕ)) (pe : ℤ) :
    ((w.getHinvVecSubsets vec masks true pe).2 = none →
      (w.getHinvVecSubsets vec masks true pe).1.s.printed = w.s.printed ++
        ((List.range' 1 masks.length).filter fun i : ℕ => decide ((i : ℤ) ∣ pe)).map fun i => (i, masks.length)) ∧
    (w.getHinvVecSubsets vec masks false pe).1.s.printed = w.s.printed := by
  refine ⟨fun h => ?_, subsetsLoop_silent pe _ vec masks 0 w⟩
  have := subsetsLoop_printed pe masks.length vec masks 0 w h
  simp only [Int.dvd_iff_emod_eq_zero]
  exact this

/-- **C123** is false: with `print_every=10` and any number of subsets from 10 on there are messages for the subsets
1, 2, 5 and 10, and for no other, so none for subsets 20, 30 and so on. -/
theorem C123_counterexample (w : CgWorld) (vec : List ℕ) (masks : List (List ℕ)) (hn : 10 ≤ masks.length)
    (h : (w.getHinvVecSubsets vec masks true 10).2 = none) :
    (w.getHinvVecSubsets vec masks true 10).1.s.printed =
      w.s.printed ++ [(1, masks.length), (2, masks.length), (5, masks.length), (10, masks.length)] := by
  rw [(C123_messages_partial w vec masks 10).1 h]
  congr 1
  obtain ⟨k, hk⟩ := Nat.exists_eq_add_of_le hn
  rw [hk, ← List.range'_append_1, List.filter_append]
  have h1 : (List.range' 1 10).filter (fun i : ℕ => decide ((i : ℤ) ∣ 10)) = [1, 2, 5, 10] := by decide
  have h2 : (List.range' (1 + 10) k).filter (fun i : ℕ => decide ((i : ℤ) ∣ 10)) = [] := by
    rw [List.filter_eq_nil_iff]
    intro i hi
    rw [List.mem_range'_1] at hi
    rw [decide_eq_true_eq]
    intro hd
    have := Int.le_of_dvd (by norm_num) hd
    omega
  rw [h1, h2]
  rfl

/-- A call with 20 subsets that succeeds. -/
example : ∃ (w : CgWorld) (vec : List ℕ) (masks : List (List ℕ)), masks.length = 20 ∧
    (w.getHinvVecSubsets vec masks true 10).2 = none := by
  have key : ∀ (masks : List (List ℕ)) (ind n : ℕ) (w : CgWorld), w.s.cg = (fun _ _ b _ _ _ => .ok (b, 0)) →
      (∀ x ∈ masks, x.length = 1) → (subsetsLoop true 10 n [0] ind masks w).2 = none := by
    intro masks
    induction masks with
    | nil => intros; rfl
    | cons mask rest ih =>
      intro ind n w hc hm
      unfold subsetsLoop
      dsimp only
      have hr : (w.report true 10 (ind + 1) n).s.cg = w.s.cg := by unfold report; split <;> rfl
      generalize w.report true 10 (ind + 1) n = w0 at *
      rw [hc] at hr
      have h1 : ∃ vm, CgState.maskVec (w0.mem.vals [0]) (toMask (w0.mem.vals mask)) = .ok vm := by
        unfold CgState.maskVec
        rw [if_pos (by simp [toMask, Mem.vals, hm mask List.mem_cons_self])]
        exact ⟨_, rfl⟩
      obtain ⟨vm, h1⟩ := h1
      have h2 : (w0.solveSubset [0] mask).2 = none ∧ (w0.solveSubset [0] mask).1.s.cg = w0.s.cg := by
        unfold solveSubset
        simp only [h1, CgWorld.getHinvVec, hr]
        exact ⟨trivial, trivial⟩
      rw [h2.1]
      exact ih _ _ _ (h2.2.trans hr) fun x hx => hm x (List.mem_cons_of_mem _ hx)
  refine ⟨CgWorld.new ⟨1, fun _ => 1⟩ (fun _ _ b _ _ _ => .ok (b, 0)) (fun _ => 0) (fun _ v => .ok v) [0], [0],
    List.replicate 20 [0], by simp, key _ _ _ _ rfl ?_⟩
  intro x hx
  rw [List.eq_of_mem_replicate hx]
  rfl

/-! ### C124 -/

variable {cg : CgSolver} {clock : ℕ → ℝ} {hvp : List ℝ → List ℝ → Py (List ℝ)}

/-- **C124** No method of a solver changes an array. -/
theorem C124_arrays_unchanged (w : CgWorld) (hw : CgReached cg clock hvp w) (e : CgEvent) (ok : e.Ok w)
    (he : ∀ a, e ≠ .assign a) (r : Ref) (hr : r.Alive w.mem) : (e.run w).mem.read r = w.mem.read r := by
  have h := hw.wf
  cases e with
  | subsets vec masks v pe => exact (subsetsLoop_view v pe masks.length vec masks 0 h ok.1 ok.2).1.le.read hr
  | solve vec x0 => exact (getHinvVec_view h vec x0).1.read hr
  | clear => rfl
  | setPrecond r => rfl
  | newArray a => exact (Mem.alloc_le _ _).read hr
  | assign a => exact absurd rfl (he a)

/-- **C124** In every state that a program can reach, `get_hinv_vec_subsets` and `get_hinv_vec` do what they do in the model
without references (`Model/ConjugateGradient`), with the present contents of the arrays. -/
theorem C124_calls (w : CgWorld) (hw : CgReached cg clock hvp w) :
    (∀ vec masks v pe, (CgEvent.subsets vec masks v pe).Ok w →
      ((w.getHinvVecSubsets vec masks v pe).1.view, (w.getHinvVecSubsets vec masks v pe).2) =
        w.view.getHinvVecSubsets (w.mem.vals vec) (masks.map fun k => toMask (w.mem.vals k))) ∧
    ∀ vec x0, (CgEvent.solve vec x0).Ok w →
      (w.getHinvVec vec x0).1.view = w.view ∧
      ((w.getHinvVec vec x0).2.map fun r => ((w.getHinvVec vec x0).1.mem.vals r.1, r.2)) =
        w.view.getHinvVec (w.mem.vals vec) (x0.map w.mem.vals) := by
  refine ⟨fun vec masks v pe ok => (subsetsLoop_view v pe masks.length vec masks 0 hw.wf ok.1 ok.2).2,
    fun vec x0 _ => ?_⟩
  obtain ⟨g1, g2, g3, -⟩ := getHinvVec_view hw.wf vec x0
  refine ⟨?_, g3.symm⟩
  have := hw.wf.view_mono g1
  rw [← g2] at this
  exact this

theorem leavesKept_step {w : CgWorld} (h : w.WF) (e : CgEvent) (ok : e.Ok w)
    (he : ∀ a, e = .assign a → ∀ k ∈ a.r.addr, k ∉ w.kept) :
    (e.run w).view.x0 = w.view.x0 ∧ (e.run w).view.op = w.view.op ∧
    (e ≠ .clear → w.view.vecs <+: (e.run w).view.vecs ∧ w.view.hinvVecs <+: (e.run w).view.hinvVecs ∧
      w.view.masks <+: (e.run w).view.masks) := by
  have key : ∀ w' : CgWorld, Keeps w w' → w'.view.x0 = w.view.x0 ∧ w'.view.op = w.view.op ∧
      (w.view.vecs <+: w'.view.vecs ∧ w.view.hinvVecs <+: w'.view.hinvVecs ∧ w.view.masks <+: w'.view.masks) := by
    intro w' k
    have hx : w'.mem.vals w'.s.x0 = w.mem.vals w.s.x0 := by rw [k.x0, k.le.vals h.x0]
    refine ⟨hx, ?_, ?_, ?_, ?_⟩
    · show (fun v => w'.s.hvp (w'.mem.vals w'.s.x0) v) = fun v => w.s.hvp (w.mem.vals w.s.x0) v
      rw [hx, k.hvp]
    · show w.s.vecs.map w.mem.vals <+: w'.s.vecs.map w'.mem.vals
      rw [← map_vals k.le h.vecs]
      exact k.vecs.map _
    · show w.s.hinvVecs.map w.mem.vals <+: w'.s.hinvVecs.map w'.mem.vals
      rw [← map_vals k.le h.hinvVecs]
      exact k.hinvVecs.map _
    · show (w.s.masks.map fun k => toMask (w.mem.vals k)) <+: w'.s.masks.map fun k => toMask (w'.mem.vals k)
      rw [← map_masks k.le h.masks]
      exact k.masks.map _
  have key' : ∀ w' : CgWorld, Keeps w w' → _ := fun w' k =>
    show w'.view.x0 = w.view.x0 ∧ w'.view.op = w.view.op ∧ (e ≠ .clear → _) from
      ⟨(key w' k).1, (key w' k).2.1, fun _ => (key w' k).2.2⟩
  cases e with
  | subsets vec masks v pe => exact key' _ (subsetsLoop_view v pe masks.length vec masks 0 h ok.1 ok.2).1
  | solve vec x0 =>
    obtain ⟨g1, g2, -, -⟩ := getHinvVec_view h vec x0
    have hw := h.mono g1
    rw [← g2] at hw
    exact key' (w.getHinvVec vec x0).1 ⟨g1, hw, by rw [g2], by rw [g2], by rw [g2], by rw [g2], by rw [g2]⟩
  | clear => exact ⟨rfl, rfl, fun h => absurd rfl h⟩
  | setPrecond r => exact ⟨rfl, rfl, fun _ => ⟨List.prefix_rfl, List.prefix_rfl, List.prefix_rfl⟩⟩
  | newArray a =>
    exact key' _ ⟨Mem.alloc_le _ _, h.mono (Mem.alloc_le _ _), rfl, rfl, List.prefix_rfl, List.prefix_rfl, List.prefix_rfl⟩
  | assign a =>
    have hv : ∀ x : List ℕ, (∀ k ∈ x, k ∈ w.kept) → (w.mem.write a.r a.i a.y).vals x = w.mem.vals x :=
      fun x hx => List.map_congr_left fun k hk => write_cell _ _ _ _ fun hk' => he a rfl k hk' (hx k hk)
    have hm : ∀ l : List (List ℕ), (∀ x ∈ l, x ∈ w.s.masks ++ w.s.vecs ++ w.s.hinvVecs) → ∀ x ∈ l,
        (w.mem.write a.r a.i a.y).vals x = w.mem.vals x := fun l hl x hx => hv x fun k hk =>
      List.mem_append_right _ (List.mem_flatten.2 ⟨x, hl x hx, hk⟩)
    have h0 := hv w.s.x0 fun k hk => List.mem_append_left _ hk
    have e1 : w.s.vecs.map (w.mem.write a.r a.i a.y).vals = w.s.vecs.map w.mem.vals :=
      List.map_congr_left (hm _ fun x hx => by simp [hx])
    have e2 : w.s.hinvVecs.map (w.mem.write a.r a.i a.y).vals = w.s.hinvVecs.map w.mem.vals :=
      List.map_congr_left (hm _ fun x hx => by simp [hx])
    have e3 : (w.s.masks.map fun k => toMask ((w.mem.write a.r a.i a.y).vals k)) =
        w.s.masks.map fun k => toMask (w.mem.vals k) :=
      List.map_congr_left fun x hx => by rw [hm _ (fun x hx => by simp [hx]) x hx]
    refine ⟨h0, ?_, fun _ => ⟨?_, ?_, ?_⟩⟩
    · show (fun v => w.s.hvp ((w.mem.write a.r a.i a.y).vals w.s.x0) v) = _
      rw [h0]; rfl
    · show _ <+: w.s.vecs.map (w.mem.write a.r a.i a.y).vals
      rw [e1]; exact List.prefix_rfl
    · show _ <+: w.s.hinvVecs.map (w.mem.write a.r a.i a.y).vals
      rw [e2]; exact List.prefix_rfl
    · show _ <+: w.s.masks.map fun k => toMask ((w.mem.write a.r a.i a.y).vals k)
      rw [e3]; exact List.prefix_rfl

/-- **C124** A program that changes no array that the solver keeps: the solver goes on solving with the same operator,
the one at the point it was made with, and until `initialize()` is called the recorded vectors, masks and solutions
stay as they were recorded.  What is missing: programs that change the point or a mask in place
(`C124_counterexample`). -/
theorem C124_later_partial (w : CgWorld) (hw : CgReached cg clock hvp w) (es : List CgEvent) (ok : okCg w es)
    (hk : leavesKept w es) :
    (runCg w es).view.x0 = w.view.x0 ∧ (runCg w es).view.op = w.view.op ∧
    ((∀ e ∈ es, e ≠ .clear) → w.view.vecs <+: (runCg w es).view.vecs ∧
      w.view.hinvVecs <+: (runCg w es).view.hinvVecs ∧ w.view.masks <+: (runCg w es).view.masks) := by
  induction es generalizing w with
  | nil => exact ⟨rfl, rfl, fun _ => ⟨List.prefix_rfl, List.prefix_rfl, List.prefix_rfl⟩⟩
  | cons e es ih =>
    obtain ⟨h1, h2, h3⟩ := leavesKept_step hw.wf e ok.1 hk.1
    obtain ⟨i1, i2, i3⟩ := ih (e.run w) (hw.step e ok.1) ok.2 hk.2
    refine ⟨i1.trans h1, i2.trans h2, fun hc => ?_⟩
    obtain ⟨a1, a2, a3⟩ := h3 (hc e List.mem_cons_self)
    obtain ⟨b1, b2, b3⟩ := i3 fun e' he' => hc e' (List.mem_cons_of_mem _ he')
    exact ⟨a1.trans b1, a2.trans b2, a3.trans b3⟩

/-- **C124** A new solver uses the operator at the point it is made with. -/
theorem C124_new (m : Mem) (cg : CgSolver) (clock : ℕ → ℝ) (hvp : List ℝ → List ℝ → Py (List ℝ)) (x0 : List ℕ) :
    (CgWorld.new m cg clock hvp x0).view = CgState.new cg clock hvp (m.vals x0) := by
  simp [CgWorld.new, CgWorld.reset, CgWorld.view, CgState.new, CgState.reset, vals_length]

/-- **C124** `initialize()` empties every record, and assigning `preconditioner` replaces it by the array as it is now; neither
changes anything else of the solver. -/
theorem C124_initialize (w : CgWorld) (r : Option Ref) :
    (w.reset.view.vecs = [] ∧ w.reset.view.hinvVecs = [] ∧ w.reset.view.masks = [] ∧ w.reset.view.times = [] ∧
      w.reset.view.infos = []) ∧
    w.reset.view = { w.view with vecs := [], hinvVecs := [], masks := [], times := [], infos := [] } ∧
    (w.setPrecond r).view = { w.view with preconditioner := r.map w.mem.read } :=
  ⟨⟨rfl, rfl, rfl, rfl, rfl⟩, rfl, rfl⟩

/-- An exact solver for the Hessian `2 x0` of `x ↦ x³ / 3`, in one dimension. -/
def cubicHvp (x v : List ℝ) : Py (List ℝ) := .ok [2 * x.getD 0 0 * v.getD 0 0]

/-- A linear solver for one dimension that divides by what the operator returns for 1. -/
def divideCg : CgSolver := fun _ A b _ _ _ => do
  let h ← A [1]
  .ok ([b.getD 0 0 / h.getD 0 0], 0)

/-- Memory with the point `[1]` at 0, the vector `[4]` at 1 and the mask `[True]` at 2. -/
def cgMem : Mem := ⟨3, fun k => if k = 0 then 1 else if k = 1 then 4 else 1⟩

/-- **C124** is false: the solver is made at the point `[1]`, where the Hessian is 2, and solves `H x = 4` by 2; after the
program sets the entry of the array that it passed to 2, the same call returns 1.  And after the program changes the
mask that it passed to `get_hinv_vec_subsets`, the recorded mask is another one than the one that was used. -/
theorem C124_counterexample (clock : ℕ → ℝ) :
    let w := CgWorld.new cgMem divideCg clock cubicHvp [0]
    CgReached divideCg clock cubicHvp w ∧
    ((w.getHinvVec [1] none).2.map fun r => (w.getHinvVec [1] none).1.mem.vals r.1) = .ok [2] ∧
    (let w' := runCg w [.assign ⟨Ref.vec [0], 0, 2⟩]
     okCg w [.assign ⟨Ref.vec [0], 0, 2⟩] ∧
     ((w'.getHinvVec [1] none).2.map fun r => (w'.getHinvVec [1] none).1.mem.vals r.1) = .ok [1]) ∧
    (let w' := (w.getHinvVecSubsets [1] [[2]] false 10).1
     (w.getHinvVecSubsets [1] [[2]] false 10).2 = none ∧ w'.view.masks = [[true]] ∧
     okCg w' [.assign ⟨Ref.vec [2], 0, 0⟩] ∧ (runCg w' [.assign ⟨Ref.vec [2], 0, 0⟩]).view.masks = [[false]]) := by
  have hR : CgReached divideCg clock cubicHvp (CgWorld.new cgMem divideCg clock cubicHvp [0]) :=
    .start (by simp [Ref.Alive, Ref.vec, cgMem])
  refine ⟨hR, ?_, ⟨⟨?_, trivial⟩, ?_⟩, ?_⟩
  · simp [CgWorld.new, reset, CgWorld.getHinvVec, divideCg, cubicHvp, cgMem, Mem.vals, Mem.alloc, Arr.vec, Except.map,
      bind, Except.bind]
    norm_num
  · simp [CgEvent.Ok, Ref.Alive, Ref.vec, cgMem, CgWorld.new, reset]
  · simp [runCg, CgEvent.run, Mem.write, Ref.vec, CgWorld.new, reset, CgWorld.getHinvVec, divideCg, cubicHvp, cgMem,
      Mem.vals, Mem.alloc, Arr.vec, Except.map, bind, Except.bind, Function.update]
    norm_num
  · have h1 : (CgWorld.new cgMem divideCg clock cubicHvp [0]).report false 10 1 1 =
        CgWorld.new cgMem divideCg clock cubicHvp [0] := by simp [report]
    have h2 : CgState.maskVec [4] (toMask [1]) = .ok [4] := by simp [CgState.maskVec, toMask]
    have h3 : ((CgWorld.new cgMem divideCg clock cubicHvp [0]).getHinvVecSubsets [1] [[2]] false 10).2 = none ∧
        ((CgWorld.new cgMem divideCg clock cubicHvp [0]).getHinvVecSubsets [1] [[2]] false 10).1.s.masks = [[2]] ∧
        ((CgWorld.new cgMem divideCg clock cubicHvp [0]).getHinvVecSubsets [1] [[2]] false 10).1.mem.cell 2 = 1 ∧
        2 < ((CgWorld.new cgMem divideCg clock cubicHvp [0]).getHinvVecSubsets [1] [[2]] false 10).1.mem.next := by
      unfold CgWorld.getHinvVecSubsets subsetsLoop
      simp only [List.length_singleton, zero_add, h1]
      unfold solveSubset
      simp [h2, subsetsLoop, CgWorld.new, reset, CgWorld.getHinvVec, divideCg, cubicHvp, cgMem, Mem.vals, Mem.alloc,
        Arr.vec, bind, Except.bind]
    obtain ⟨h3, h4, h5, h6⟩ := h3
    generalize (CgWorld.new cgMem divideCg clock cubicHvp [0]).getHinvVecSubsets [1] [[2]] false 10 = r at *
    refine ⟨h3, ?_, ⟨?_, trivial⟩, ?_⟩
    · simp [CgWorld.view, h4, toMask, Mem.vals, h5]
    · simpa [CgEvent.Ok, Ref.Alive, Ref.vec] using h6
    · simp [runCg, CgEvent.run, CgWorld.view, h4, toMask, Mem.vals, Mem.write, Ref.vec]

/-- The hypotheses of `C124_later_partial`: a program that solves for a subset and then changes the vector that it passed. -/
example (clock : ℕ → ℝ) :
    let w := CgWorld.new cgMem divideCg clock cubicHvp [0]
    let es : List CgEvent := [.assign ⟨Ref.vec [1], 0, 6⟩, .solve [1] none, .clear]
    okCg w es ∧ leavesKept w es := by
  intro w es
  refine ⟨⟨by simp [CgEvent.Ok, Ref.Alive, Ref.vec, cgMem, w, CgWorld.new, reset], ⟨?_, by simp⟩, trivial, trivial⟩,
    ⟨fun a ha k hk => ?_, ⟨(fun a ha => by cases ha), ⟨(fun a ha => by cases ha), trivial⟩⟩⟩⟩
  · simp [CgEvent.run, Ref.Alive, Ref.vec, cgMem, w, CgWorld.new, reset, Mem.write]
  · cases ha
    simp only [Ref.vec, List.mem_singleton] at hk
    subst hk
    simp [kept, w, CgWorld.new, reset]

end

end LRVB
