import Verif.Spec.HeapCg
import Verif.Lemmas.Heap

/-!
# Lemmas about the conjugate gradient solver with references
-/

namespace LRVB

open Classical

noncomputable section

namespace CgWorld

/-- The arrays a solver refers to exist. -/
structure WF (w : CgWorld) : Prop where
  x0 : ∀ k ∈ w.s.x0, k < w.mem.next
  precond : ∀ r ∈ w.s.precond, r.Alive w.mem
  vecs : ∀ x ∈ w.s.vecs, ∀ k ∈ x, k < w.mem.next
  hinvVecs : ∀ x ∈ w.s.hinvVecs, ∀ k ∈ x, k < w.mem.next
  masks : ∀ x ∈ w.s.masks, ∀ k ∈ x, k < w.mem.next

theorem WF.mono {w : CgWorld} (h : w.WF) {m : Mem} (hm : w.mem.Le m) : (⟨m, w.s⟩ : CgWorld).WF :=
  ⟨fun k hk => (h.x0 k hk).trans_le hm.1, fun r hr => (h.precond r hr).mono hm,
    fun x hx k hk => (h.vecs x hx k hk).trans_le hm.1, fun x hx k hk => (h.hinvVecs x hx k hk).trans_le hm.1,
    fun x hx k hk => (h.masks x hx k hk).trans_le hm.1⟩

theorem map_vals {m m' : Mem} (hm : m.Le m') {l : List (List ℕ)} (h : ∀ x ∈ l, ∀ k ∈ x, k < m.next) :
    l.map m'.vals = l.map m.vals := List.map_congr_left fun x hx => hm.vals (h x hx)

theorem map_masks {m m' : Mem} (hm : m.Le m') {l : List (List ℕ)} (h : ∀ x ∈ l, ∀ k ∈ x, k < m.next) :
    (l.map fun k => toMask (m'.vals k)) = l.map fun k => toMask (m.vals k) :=
  List.map_congr_left fun x hx => by rw [hm.vals (h x hx)]

theorem map_precond {m m' : Mem} (hm : m.Le m') {o : Option Ref} (h : ∀ r ∈ o, r.Alive m) :
    o.map m'.read = o.map m.read := by
  cases o with
  | none => rfl
  | some r => simp only [Option.map_some]; rw [hm.read (h r rfl)]

/-- New arrays do not change the solver. -/
theorem WF.view_mono {w : CgWorld} (h : w.WF) {m : Mem} (hm : w.mem.Le m) : (⟨m, w.s⟩ : CgWorld).view = w.view := by
  unfold view
  simp only [hm.vals h.x0, map_precond hm h.precond, map_vals hm h.vecs, map_vals hm h.hinvVecs, map_masks hm h.masks]

theorem getHinvVec_view {w : CgWorld} (h : w.WF) (vec : List ℕ) (x0 : Option (List ℕ)) :
    w.mem.Le (w.getHinvVec vec x0).1.mem ∧ (w.getHinvVec vec x0).1.s = w.s ∧
    (w.view.getHinvVec (w.mem.vals vec) (x0.map w.mem.vals) =
      (w.getHinvVec vec x0).2.map fun r => ((w.getHinvVec vec x0).1.mem.vals r.1, r.2)) ∧
    ∀ r, (w.getHinvVec vec x0).2 = .ok r → ∀ k ∈ r.1, w.mem.next ≤ k ∧ k < (w.getHinvVec vec x0).1.mem.next := by
  unfold getHinvVec CgState.getHinvVec
  change _ ∧ _ ∧ w.s.cg w.s.dim (fun v => w.s.hvp (w.mem.vals w.s.x0) v) (w.mem.vals vec) (x0.map w.mem.vals) w.s.tol
      (w.s.precond.map w.mem.read) = _ ∧ _
  cases hc : w.s.cg w.s.dim (fun v => w.s.hvp (w.mem.vals w.s.x0) v) (w.mem.vals vec) (x0.map w.mem.vals) w.s.tol
      (w.s.precond.map w.mem.read) with
  | error e => exact ⟨Mem.Le.refl _, rfl, rfl, by simp⟩
  | ok r =>
    obtain ⟨hv, info⟩ := r
    refine ⟨Mem.alloc_le _ _, rfl, ?_, ?_⟩
    · simp only [Except.map]
      rw [Mem.alloc_vals]
      rfl
    · intro r hr k hk
      simp only [Except.ok.injEq] at hr
      subst hr
      exact ⟨Mem.alloc_new _ _ k hk, Mem.alloc_alive _ _ k hk⟩

theorem solveSubset_view {w : CgWorld} (h : w.WF) {vec mask : List ℕ} (hv : ∀ k ∈ vec, k < w.mem.next)
    (hk : ∀ k ∈ mask, k < w.mem.next) :
    w.mem.Le (w.solveSubset vec mask).1.mem ∧ (w.solveSubset vec mask).1.WF ∧
    (w.solveSubset vec mask).1.s.x0 = w.s.x0 ∧ (w.solveSubset vec mask).1.s.printed = w.s.printed ∧
    ((w.solveSubset vec mask).1.view, (w.solveSubset vec mask).2) =
      w.view.solveSubset (w.mem.vals vec) (toMask (w.mem.vals mask)) ∧
    w.s.vecs <+: (w.solveSubset vec mask).1.s.vecs ∧ w.s.hinvVecs <+: (w.solveSubset vec mask).1.s.hinvVecs ∧
    w.s.masks <+: (w.solveSubset vec mask).1.s.masks ∧ (w.solveSubset vec mask).1.s.hvp = w.s.hvp := by
  unfold solveSubset CgState.solveSubset
  cases hm : CgState.maskVec (w.mem.vals vec) (toMask (w.mem.vals mask)) with
  | error e => exact ⟨Mem.Le.refl _, h, rfl, rfl, rfl, List.prefix_rfl, List.prefix_rfl, List.prefix_rfl, rfl⟩
  | ok vm =>
    have hle := Mem.alloc_le w.mem (Arr.vec vm)
    have hw1 := h.mono hle
    have hv1 := h.view_mono hle
    obtain ⟨g1, g2, g3, g4⟩ := getHinvVec_view hw1 (w.mem.alloc (Arr.vec vm)).2.addr none
    have halive : ∀ k ∈ (w.mem.alloc (Arr.vec vm)).2.addr, k < (w.mem.alloc (Arr.vec vm)).1.next :=
      Mem.alloc_alive w.mem (Arr.vec vm)
    have hvals : (w.mem.alloc (Arr.vec vm)).1.vals (w.mem.alloc (Arr.vec vm)).2.addr = vm := Mem.alloc_vals _ _
    dsimp only
    generalize (w.mem.alloc (Arr.vec vm)).2.addr = v at *
    set w1 : CgWorld := ⟨(w.mem.alloc (Arr.vec vm)).1, w.s⟩ with hw1'
    rw [hv1, Option.map_none] at g3
    change w.view.getHinvVec ((w.mem.alloc (Arr.vec vm)).1.vals v) none = _ at g3
    rw [hvals] at g3
    have hle2 : w.mem.Le (w1.getHinvVec v none).1.mem := hle.trans g1
    cases hr : (w1.getHinvVec v none).2 with
    | error e =>
      rw [hr] at g3
      rw [g3]
      refine ⟨hle2, ⟨(h.mono hle2).x0, (h.mono hle2).precond, (h.mono hle2).vecs, (h.mono hle2).hinvVecs,
        (h.mono hle2).masks⟩, rfl, rfl, ?_, List.prefix_rfl, List.prefix_rfl, List.prefix_rfl, rfl⟩
      have := h.view_mono hle2
      simp only [Except.map]
      rw [← this]
      rfl
    | ok r =>
      obtain ⟨hv', info⟩ := r
      rw [hr] at g3
      rw [g3]
      have hnew := g4 _ hr
      have hvr : (w1.getHinvVec v none).1.mem.vals v = vm := (g1.vals (fun k hk => halive k hk)).trans hvals
      refine ⟨hle2, ⟨(h.mono hle2).x0, (h.mono hle2).precond, ?_, ?_, ?_⟩, rfl, rfl, ?_, List.prefix_append _ _,
        List.prefix_append _ _, List.prefix_append _ _, rfl⟩
      · intro x hx k hk'
        rcases List.mem_append.1 hx with hx | hx
        · exact (h.mono hle2).vecs x hx k hk'
        · rw [List.mem_singleton.1 hx] at hk'
          exact (halive k hk').trans_le g1.1
      · intro x hx k hk'
        rcases List.mem_append.1 hx with hx | hx
        · exact (h.mono hle2).hinvVecs x hx k hk'
        · rw [List.mem_singleton.1 hx] at hk'
          exact (hnew k hk').2
      · intro x hx k hk'
        rcases List.mem_append.1 hx with hx | hx
        · exact (h.mono hle2).masks x hx k hk'
        · rw [List.mem_singleton.1 hx] at hk'
          exact (hk k hk').trans_le hle2.1
      · have := h.view_mono hle2
        simp only [Except.map]
        rw [← this]
        unfold view
        simp only [List.map_append, List.map_cons, List.map_nil, hvr, hle2.vals hk]

theorem report_facts (w : CgWorld) (v : Bool) (pe : ℤ) (i n : ℕ) :
    (w.report v pe i n).mem = w.mem ∧ (w.report v pe i n).view = w.view ∧ (w.WF → (w.report v pe i n).WF) ∧
    (w.report v pe i n).s.x0 = w.s.x0 ∧ (w.report v pe i n).s.hvp = w.s.hvp ∧
    (w.report v pe i n).s.vecs = w.s.vecs ∧ (w.report v pe i n).s.hinvVecs = w.s.hinvVecs ∧
    (w.report v pe i n).s.masks = w.s.masks := by
  unfold report
  split
  · exact ⟨rfl, rfl, fun h => ⟨h.x0, h.precond, h.vecs, h.hinvVecs, h.masks⟩, rfl, rfl, rfl, rfl, rfl⟩
  · exact ⟨rfl, rfl, id, rfl, rfl, rfl, rfl, rfl⟩

/-- What a call of `get_hinv_vec_subsets` does. -/
structure Keeps (w w' : CgWorld) : Prop where
  le : w.mem.Le w'.mem
  wf : w'.WF
  x0 : w'.s.x0 = w.s.x0
  hvp : w'.s.hvp = w.s.hvp
  vecs : w.s.vecs <+: w'.s.vecs
  hinvVecs : w.s.hinvVecs <+: w'.s.hinvVecs
  masks : w.s.masks <+: w'.s.masks

theorem Keeps.trans {a b c : CgWorld} (h : Keeps a b) (h' : Keeps b c) : Keeps a c :=
  ⟨h.le.trans h'.le, h'.wf, h'.x0.trans h.x0, h'.hvp.trans h.hvp, h.vecs.trans h'.vecs,
    h.hinvVecs.trans h'.hinvVecs, h.masks.trans h'.masks⟩

theorem subsetsLoop_view (v : Bool) (pe : ℤ) (n : ℕ) (vec : List ℕ) : ∀ (masks : List (List ℕ)) (ind : ℕ)
    {w : CgWorld}, w.WF → (∀ k ∈ vec, k < w.mem.next) → (∀ x ∈ masks, ∀ k ∈ x, k < w.mem.next) →
    Keeps w (subsetsLoop v pe n vec ind masks w).1 ∧
    ((subsetsLoop v pe n vec ind masks w).1.view, (subsetsLoop v pe n vec ind masks w).2) =
      w.view.getHinvVecSubsets (w.mem.vals vec) (masks.map fun k => toMask (w.mem.vals k))
  | [], ind, w, h, _, _ =>
    ⟨⟨Mem.Le.refl _, h, rfl, rfl, List.prefix_rfl, List.prefix_rfl, List.prefix_rfl⟩, rfl⟩
  | mask :: rest, ind, w, h, hv, hk => by
    obtain ⟨r1, r2, r3, r4, r5, r6, r7, r8⟩ := report_facts w v pe (ind + 1) n
    unfold subsetsLoop
    rw [List.map_cons, CgState.getHinvVecSubsets]
    generalize w.report v pe (ind + 1) n = w0 at *
    rw [← r1, ← r2]
    rw [← r1] at hv hk
    have hw0 := r3 h
    obtain ⟨s1, s2, s3, -, s5, s6, s7, s8, s9⟩ := solveSubset_view hw0 hv (hk mask List.mem_cons_self)
    have hkeep : Keeps w (w0.solveSubset vec mask).1 :=
      ⟨r1 ▸ s1, s2, s3.trans r4, s9.trans r5, r6 ▸ s6, r7 ▸ s7, r8 ▸ s8⟩
    rw [← s5]
    simp only
    generalize w0.solveSubset vec mask = r at *
    cases hr : r.2 with
    | some e => exact ⟨hkeep, rfl⟩
    | none =>
      obtain ⟨t1, t2⟩ := subsetsLoop_view v pe n vec rest (ind + 1) s2 (fun k hk' => (hv k hk').trans_le s1.1)
        (fun x hx k hk' => (hk x (List.mem_cons_of_mem _ hx) k hk').trans_le s1.1)
      refine ⟨hkeep.trans t1, ?_⟩
      simp only
      rw [t2, s1.vals hv, map_masks s1 (fun x hx => hk x (List.mem_cons_of_mem _ hx))]

end CgWorld

open CgWorld

theorem write_next (m : Mem) (r : Ref) (i : ℕ) (y : ℝ) : (m.write r i y).next = m.next := by
  unfold Mem.write
  split <;> rfl

theorem write_cell (m : Mem) (r : Ref) (i : ℕ) (y : ℝ) {k : ℕ} (hk : k ∉ r.addr) : (m.write r i y).cell k = m.cell k := by
  unfold Mem.write
  split
  · rename_i j hj
    exact Function.update_of_ne (fun h : k = j => hk (h ▸ List.mem_of_getElem? hj)) _ _
  · rfl

theorem cgEvent_wf {w : CgWorld} (h : w.WF) (e : CgEvent) (ok : e.Ok w) : (e.run w).WF := by
  cases e with
  | subsets vec masks v pe => exact (subsetsLoop_view v pe masks.length vec masks 0 h ok.1 ok.2).1.wf
  | solve vec x0 =>
    obtain ⟨g1, g2, -, -⟩ := getHinvVec_view h vec x0
    have := h.mono g1
    rw [← g2] at this
    exact this
  | clear => exact ⟨h.x0, h.precond, by simp [CgEvent.run, reset], by simp [CgEvent.run, reset], by simp [CgEvent.run, reset]⟩
  | setPrecond r => exact ⟨h.x0, ok, h.vecs, h.hinvVecs, h.masks⟩
  | newArray a => exact h.mono (Mem.alloc_le _ _)
  | assign a =>
    have e := write_next w.mem a.r a.i a.y
    refine ⟨fun k hk => ?_, fun r hr k hk => ?_, fun x hx k hk => ?_, fun x hx k hk => ?_, fun x hx k hk => ?_⟩ <;>
      simp only [CgEvent.run, e]
    · exact h.x0 k hk
    · exact h.precond r hr k hk
    · exact h.vecs x hx k hk
    · exact h.hinvVecs x hx k hk
    · exact h.masks x hx k hk

theorem CgReached.wf {cg : CgSolver} {clock : ℕ → ℝ} {hvp : List ℝ → List ℝ → Py (List ℝ)} {w : CgWorld}
    (h : CgReached cg clock hvp w) : w.WF := by
  induction h with
  | start h =>
    exact ⟨h, by simp [CgWorld.new, reset], by simp [CgWorld.new, reset], by simp [CgWorld.new, reset],
      by simp [CgWorld.new, reset]⟩
  | step _ e ok ih => exact cgEvent_wf ih e ok

end

end LRVB
