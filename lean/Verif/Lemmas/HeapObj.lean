import Verif.Lemmas.Heap6
import Verif.Spec.HeapObj

/-!
# Objectives that hold references: lemmas
-/

namespace LRVB

open Classical

noncomputable section

variable {A : Type}

/-! ### Placeholders -/

theorem box_getElem (b : Bool) (F : List ℕ) (st : Store) (j : ℕ) :
    (st.box b F).objs[j]? = (st.objs[j]?).map fun o => if j ∈ F then o.box b else o := by
  unfold Store.box
  simp only [List.getElem?_mapIdx]

theorem obj_box_skel (b : Bool) (o : Obj) : (o.box b).skel = o.skel := by cases o <;> rfl

theorem box_skel (b : Bool) (F : List ℕ) (st : Store) : st.Skel (st.box b F) := by
  intro j
  rw [box_getElem, Option.map_map]
  congr 1
  funext o
  simp only [Function.comp]
  split
  · exact obj_box_skel b o
  · rfl

theorem box_wf {b : Bool} {F : List ℕ} {st : Store} (h : st.WF) : (st.box b F).WF := by
  intro j l hl
  rw [box_getElem] at hl
  cases ho : st.objs[j]? with
  | none => rw [ho] at hl; cases hl
  | some o =>
    rw [ho] at hl
    simp only [Option.map_some, Option.some.injEq] at hl
    split at hl
    · cases o with
      | dict hd es => cases hl
      | leaf l' => cases hl; exact h j l' ho
    · subst hl; exact h j l ho

theorem box_change (b : Bool) {F G : List ℕ} (hF : ∀ j ∈ F, j ∈ G) (st : Store) :
    Store.Change G st (st.box b F) := by
  refine ⟨.refl _, box_skel b F st, box_wf, fun j hj => ?_⟩
  rw [box_getElem]
  cases st.objs[j]? with
  | none => rfl
  | some o => simp only [Option.map_some, if_neg fun h => hj (hF j h)]

theorem treeEntries_map (g : Param → Param) (ge : Entries → Entries)
    (hnil : ge .nil = .nil) (hcons : ∀ k p es, ge (.cons k p es) = .cons k (g p) (ge es))
    {f f' : ℕ → Option Param} :
    ∀ es : List (String × ℕ), (∀ e ∈ es, f' e.2 = (f e.2).map g) →
      treeEntries f' es = (treeEntries f es).map ge
  | [], _ => by simp [treeEntries, hnil]
  | (k, c) :: rest, h => by
    unfold treeEntries
    rw [h (k, c) (by simp), treeEntries_map g ge hnil hcons rest fun e he => h e (by simp [he])]
    cases f c with
    | none => rfl
    | some p =>
      cases treeEntries f rest with
      | none => rfl
      | some es => simp [hcons]

theorem box_tree (b : Bool) (F : List ℕ) (st : Store) :
    ∀ d i, (∀ j ∈ st.foot d i, j ∈ F) → (st.box b F).tree d i = (st.tree d i).map (Param.mark b)
  | 0, _, _ => rfl
  | d + 1, i, h => by
    unfold Store.tree
    unfold Store.foot at h
    rw [box_getElem]
    cases ho : st.objs[i]? with
    | none => rfl
    | some o =>
      rw [ho] at h
      cases o with
      | leaf l =>
        simp only [Option.map_some, if_pos (h i (by simp)), Obj.box]
        simp [Param.mark, HLeaf.view, Store.box]
      | dict hd es =>
        simp only [Option.map_some, ite_self, Obj.box]
        have := treeEntries_map (Param.mark b) (Entries.mark b) (by simp [Entries.mark])
          (by intros; simp [Entries.mark]) (f := st.tree d) (f' := (st.box b F).tree d) es
          fun e he => box_tree b F st d e.2 fun j hj => h j (by simp only [List.mem_cons, List.mem_flatMap]; exact Or.inr ⟨e, he, hj⟩)
        rw [this, Option.map_map, Option.map_map]
        congr 1

/-! ### `set_par` -/

theorem setPar_change {depth : ℕ} {st : Store} {i : ℕ} {x : List ℕ} (free : Bool)
    (hx : ∀ k ∈ x, k < st.mem.next) :
    Store.Change (st.foot depth i) st (st.setPar depth i x free).1 := by
  unfold Store.setPar
  split
  · exact visit_change freeVisit_sim.tame depth st i x hx
  · exact visit_change vecVisit_sim.tame depth st i x hx

theorem setPar_refine {depth : ℕ} {st : Store} (hwf : st.WF) {i : ℕ} {p : Param}
    (hp : st.tree depth i = some p) (hn : (st.foot depth i).Nodup) {x : List ℕ}
    (hx : ∀ k ∈ x, k < st.mem.next) (free : Bool) :
    (st.setPar depth i x free).1.tree depth i = some (setPar p (st.mem.vals x) free).1 ∧
      outcome (st.setPar depth i x free).2 = (setPar p (st.mem.vals x) free).2 := by
  unfold Store.setPar setPar
  cases free with
  | true =>
    obtain ⟨h1, h2⟩ := visit_refine free_pair depth st i x p hwf hx hp hn
    simp only [if_true]
    rw [setFree_visit]
    exact ⟨h1, congrArg outcome h2⟩
  | false =>
    obtain ⟨h1, h2⟩ := visit_refine vec_pair depth st i x p hwf hx hp hn
    simp only [Bool.false_eq_true, if_false]
    rw [setVector_visit]
    exact ⟨h1, congrArg outcome h2⟩

theorem traceSet_change {depth : ℕ} {st : Store} {i : ℕ} {x : List ℕ} (free : Bool)
    (hx : ∀ k ∈ x, k < st.mem.next) :
    Store.Change (st.foot depth i) st (st.traceSet depth i x free) := by
  have h := setPar_change (depth := depth) (i := i) free hx
  unfold Store.traceSet
  simp only
  generalize st.setPar depth i x free = s at h ⊢
  obtain ⟨s, r⟩ := s
  cases r with
  | error e => exact h
  | ok u => exact h.trans (box_change true (fun _ h => h) _)

theorem traceSet_refine {depth : ℕ} {st : Store} (hwf : st.WF) {i : ℕ} {p : Param}
    (hp : st.tree depth i = some p) (hn : (st.foot depth i).Nodup) {x : List ℕ}
    (hx : ∀ k ∈ x, k < st.mem.next) (free : Bool) :
    (st.traceSet depth i x free).tree depth i = some (traceSet p (st.mem.vals x) free) := by
  obtain ⟨h1, h2⟩ := setPar_refine hwf hp hn hx free
  have hc := setPar_change (depth := depth) (i := i) free hx
  unfold Store.traceSet traceSet
  simp only
  cases e : (st.setPar depth i x free).2 with
  | error e' =>
    rw [e] at h2
    rw [← h2]
    exact h1
  | ok u =>
    rw [e] at h2
    rw [← h2]
    simp only [outcome]
    rw [box_tree _ _ _ _ _ fun j hj => by rwa [hc.skel.foot] at hj, h1]
    rfl

/-! ### States -/

/-- The arrays that the logger and the objective keep exist. -/
structure World.WF (w : World A) : Prop where
  st : w.st.WF
  lastX : ∀ x ∈ w.o.logger.lastX, ∀ k ∈ x, k < w.st.mem.next
  x : ∀ x ∈ w.o.logger.x, ∀ k ∈ x, k < w.st.mem.next
  xArray : ∀ x ∈ w.o.logger.xArray, ∀ k ∈ x, k < w.st.mem.next
  precond : ∀ r ∈ w.o.precond, r.Alive w.st.mem

theorem World.WF.mono {w : World A} (h : w.WF) {st' : Store} (hst : st'.WF) (hn : w.st.mem.next ≤ st'.mem.next) :
    World.WF ⟨st', w.o⟩ :=
  ⟨hst, fun x hx k hk => lt_of_lt_of_le (h.lastX x hx k hk) hn,
    fun x hx k hk => lt_of_lt_of_le (h.x x hx k hk) hn,
    fun x hx k hk => lt_of_lt_of_le (h.xArray x hx k hk) hn,
    fun r hr k hk => lt_of_lt_of_le (h.precond r hr k hk) hn⟩

theorem World.WF.change {w : World A} (h : w.WF) {F : List ℕ} {st' : Store} (hc : Store.Change F w.st st') :
    World.WF ⟨st', w.o⟩ := h.mono (hc.wf h.st) hc.le.1

theorem option_map_congr {α β : Type} {f g : α → β} {o : Option α} (h : ∀ x ∈ o, f x = g x) :
    o.map f = o.map g := by
  cases o with
  | none => rfl
  | some x => simp [h x rfl]

theorem World.WF.logger {w : World A} (h : w.WF) {m : Mem} (hm : w.st.mem.Le m) :
    w.o.logger.view m = w.o.logger.view w.st.mem := by
  unfold HLogger.view
  rw [option_map_congr fun x hx => hm.vals (h.lastX x hx), option_map_congr fun x hx => hm.vals (h.x x hx),
    List.map_congr_left fun x hx => hm.vals (h.xArray x hx)]

theorem World.WF.precond_read {w : World A} (h : w.WF) {m : Mem} (hm : w.st.mem.Le m) :
    w.o.precond.map m.read = w.o.precond.map w.st.mem.read :=
  option_map_congr fun r hr => hm.read (h.precond r hr)

/-- The objective as a value after a change of its parameter. -/
theorem World.WF.view {w : World A} (h : w.WF) {depth : ℕ} {F : List ℕ} {st' : Store}
    (hc : Store.Change F w.st st') {p : Param} (hp : st'.tree depth w.o.par = some p) :
    World.view depth ⟨st', w.o⟩ = some ⟨p, w.o.fn, w.o.precond.map w.st.mem.read, w.o.logger.view w.st.mem⟩ := by
  unfold World.view
  simp only [hp, Option.map_some]
  rw [h.logger hc.le, h.precond_read hc.le]

theorem world_view {w : World A} {depth : ℕ} {v : Objective A} (h : w.view depth = some v) :
    ∃ p, w.st.tree depth w.o.par = some p ∧
      v = ⟨p, w.o.fn, w.o.precond.map w.st.mem.read, w.o.logger.view w.st.mem⟩ := by
  unfold World.view at h
  cases ht : w.st.tree depth w.o.par with
  | none => rw [ht] at h; cases h
  | some p => rw [ht] at h; cases h; exact ⟨p, rfl, rfl⟩

/-! ### The logger -/

theorem hlog_view (m : Mem) (l : HLogger) (v : Arr) (x : List ℕ) :
    ((l.log m v x).1.view m, (l.log m v x).2) = (l.view m).log v (m.vals x) := by
  unfold HLogger.log Logger.log
  have hd : (∃ lx, l.lastX = some lx ∧ ¬ Logger.diffOk (m.vals x) (m.vals lx)) ↔
      ∃ lx, (l.view m).lastX = some lx ∧ ¬ Logger.diffOk (m.vals x) lx := by
    unfold HLogger.view
    cases l.lastX <;> simp
  simp only [hd]
  by_cases h : ∃ lx, (l.view m).lastX = some lx ∧ ¬ Logger.diffOk (m.vals x) lx
  · rw [if_pos h, if_pos h]
    simp [HLogger.view]
  · rw [if_neg h, if_neg h]
    by_cases h2 : l.printEvery = 0
    · simp [HLogger.view, h2]
    · by_cases h3 : l.iter % l.printEvery = 0 <;> simp [HLogger.view, h2, h3]

/-- The arrays the logger keeps after a call are those it had and the new one. -/
theorem hlog_keeps (m : Mem) (l : HLogger) (v : Arr) (x : List ℕ) :
    (∀ y ∈ (l.log m v x).1.lastX, y = x ∨ y ∈ l.lastX) ∧ (∀ y ∈ (l.log m v x).1.x, y = x) ∧
    (l.log m v x).1.xArray = l.xArray ++ [x] := by
  unfold HLogger.log
  simp only
  split
  · exact ⟨fun y hy => Or.inr hy, fun y hy => by cases hy; rfl, rfl⟩
  · split
    · exact ⟨fun y hy => by cases hy; exact Or.inl rfl, fun y hy => by cases hy; rfl, rfl⟩
    · split <;> exact ⟨fun y hy => by cases hy; exact Or.inl rfl, fun y hy => by cases hy; rfl, rfl⟩

theorem World.WF.log {w : World A} (h : w.WF) (m : Mem) (v : Arr) {x : List ℕ} (hx : ∀ k ∈ x, k < w.st.mem.next) :
    World.WF (⟨w.st, { w.o with logger := (w.o.logger.log m v x).1 }⟩ : World A) := by
  obtain ⟨h1, h2, h3⟩ := hlog_keeps m w.o.logger v x
  refine ⟨h.st, fun y hy => ?_, fun y hy => ?_, fun y hy => ?_, h.precond⟩
  · rcases h1 y hy with rfl | hy
    · exact hx
    · exact h.lastX y hy
  · rw [h2 y hy]; exact hx
  · rw [show _ = _ from h3] at hy
    rcases List.mem_append.1 hy with hy | hy
    · exact h.xArray y hy
    · rw [List.mem_singleton.1 hy]; exact hx

/-! ### Calls -/

/-- What a call of an objective may do. -/
structure World.Step (w w' : World A) : Prop where
  le : w.st.mem.Le w'.st.mem
  skel : w.st.Skel w'.st
  wf : w'.WF
  par : w'.o.par = w.o.par
  fn : w'.o.fn = w.o.fn
  precond : w'.o.precond = w.o.precond

theorem World.Step.change {w : World A} (h : w.WF) {F : List ℕ} {st' : Store} (hc : Store.Change F w.st st') :
    World.Step w ⟨st', w.o⟩ := ⟨hc.le, hc.skel, h.change hc, rfl, rfl, rfl⟩

theorem World.Step.refl {w : World A} (h : w.WF) : World.Step w w := ⟨.refl _, .refl _, h, rfl, rfl, rfl⟩

theorem World.Step.trans {a b c : World A} (h : World.Step a b) (h' : World.Step b c) : World.Step a c :=
  ⟨h.le.trans h'.le, h.skel.trans h'.skel, h'.wf, h'.par.trans h.par, h'.fn.trans h.fn,
    h'.precond.trans h.precond⟩

theorem funFree_step {depth : ℕ} {w : World A} (h : w.WF) {x : List ℕ} (hx : ∀ k ∈ x, k < w.st.mem.next)
    (a : A) (verbose : Bool) : World.Step w (w.funFree depth x a verbose).1 := by
  have hc : Store.Change (w.st.foot depth w.o.par) w.st (w.st.setFree depth w.o.par x).1 :=
    visit_change freeVisit_sim.tame depth w.st w.o.par x hx
  have hs := World.Step.change h hc
  unfold World.funFree
  simp only
  generalize w.st.setFree depth w.o.par x = s at hc hs ⊢
  obtain ⟨s, r⟩ := s
  cases r with
  | error e => exact hs
  | ok u =>
    simp only at hc hs ⊢
    cases World.callFn depth s w.o a with
    | error e => exact hs
    | ok v =>
      simp only
      split
      · exact ⟨hs.le, hs.skel, hs.wf.log s.mem v fun k hk => lt_of_lt_of_le (hx k hk) hc.le.1, rfl, rfl, rfl⟩
      · exact hs

theorem funFree_refine {depth : ℕ} {w : World A} (h : w.WF) {v : Objective A} (hv : w.view depth = some v)
    (hn : (w.st.foot depth w.o.par).Nodup) {x : List ℕ} (hx : ∀ k ∈ x, k < w.st.mem.next)
    (a : A) (verbose : Bool) :
    (w.funFree depth x a verbose).1.view depth = some (v.funFree (w.st.mem.vals x) a verbose).1 ∧
      (w.funFree depth x a verbose).2 = (v.funFree (w.st.mem.vals x) a verbose).2 := by
  obtain ⟨p, hp, rfl⟩ := world_view hv
  have hc : Store.Change (w.st.foot depth w.o.par) w.st (w.st.setFree depth w.o.par x).1 :=
    visit_change freeVisit_sim.tame depth w.st w.o.par x hx
  obtain ⟨h1, h2⟩ := setPar_refine h.st hp hn hx true
  simp only [Store.setPar, setPar, if_true] at h1 h2
  unfold World.funFree Objective.funFree
  simp only
  generalize w.st.setFree depth w.o.par x = s at hc h1 h2 ⊢
  obtain ⟨s, r⟩ := s
  have hview := h.view hc h1
  cases r with
  | error e =>
    simp only at h1 h2 hc hview ⊢
    rw [← h2]
    exact ⟨hview, rfl⟩
  | ok u =>
    simp only at h1 h2 hc hview ⊢
    rw [← h2]
    simp only [outcome]
    have hcall : World.callFn depth s w.o a = w.o.fn a ((p.setFree (w.st.mem.vals x)).1.mark false) := by
      unfold World.callFn
      rw [h1]
    rw [hcall]
    cases w.o.fn a ((p.setFree (w.st.mem.vals x)).1.mark false) with
    | error e => exact ⟨hview, rfl⟩
    | ok v =>
      simp only
      cases verbose with
      | false => exact ⟨hview, rfl⟩
      | true =>
        simp only [if_true]
        have hl := hlog_view s.mem w.o.logger v x
        rw [h.logger hc.le, hc.le.vals hx] at hl
        rw [← hl]
        refine ⟨?_, rfl⟩
        unfold World.view
        simp only [h1, Option.map_some]
        rw [h.precond_read hc.le]

theorem funVector_step {depth : ℕ} {w : World A} (h : w.WF) {x : List ℕ} (hx : ∀ k ∈ x, k < w.st.mem.next)
    (a : A) : World.Step w (w.funVector depth x a).1 := by
  have hc : Store.Change (w.st.foot depth w.o.par) w.st (w.st.setVector depth w.o.par x).1 :=
    visit_change vecVisit_sim.tame depth w.st w.o.par x hx
  have hs := World.Step.change h hc
  unfold World.funVector
  simp only
  cases (w.st.setVector depth w.o.par x).2 <;> exact hs

theorem funVector_refine {depth : ℕ} {w : World A} (h : w.WF) {v : Objective A} (hv : w.view depth = some v)
    (hn : (w.st.foot depth w.o.par).Nodup) {x : List ℕ} (hx : ∀ k ∈ x, k < w.st.mem.next) (a : A) :
    (w.funVector depth x a).1.view depth = some (v.funVector (w.st.mem.vals x) a).1 ∧
      (w.funVector depth x a).2 = (v.funVector (w.st.mem.vals x) a).2 := by
  obtain ⟨p, hp, rfl⟩ := world_view hv
  have hc : Store.Change (w.st.foot depth w.o.par) w.st (w.st.setVector depth w.o.par x).1 :=
    visit_change vecVisit_sim.tame depth w.st w.o.par x hx
  obtain ⟨h1, h2⟩ := setPar_refine h.st hp hn hx false
  simp only [Store.setPar, setPar, Bool.false_eq_true, if_false] at h1 h2
  unfold World.funVector Objective.funVector
  simp only
  generalize w.st.setVector depth w.o.par x = s at hc h1 h2 ⊢
  obtain ⟨s, r⟩ := s
  have hview := h.view hc h1
  cases r with
  | error e =>
    simp only at h1 h2 hc hview ⊢
    rw [← h2]
    exact ⟨hview, rfl⟩
  | ok u =>
    simp only at h1 h2 hc hview ⊢
    rw [← h2]
    refine ⟨hview, ?_⟩
    unfold World.callFn
    rw [h1]
    rfl

theorem newVec_change (st : Store) (v : List ℝ) : Store.Change [] st (st.newVec v).1 := by
  refine ⟨Mem.alloc_le _ _, .refl _, fun h => wf_mem h (Mem.alloc_le _ _), fun _ _ => rfl⟩

theorem newVec_alive (st : Store) (v : List ℝ) : ∀ k ∈ (st.newVec v).2, k < (st.newVec v).1.mem.next :=
  Mem.alloc_alive _ _

theorem newVec_vals (st : Store) (v : List ℝ) : (st.newVec v).1.mem.vals (st.newVec v).2 = v :=
  Mem.alloc_vals _ _

theorem newVec_tree {depth : ℕ} {st : Store} (hwf : st.WF) (y : List ℝ) (i : ℕ) :
    (st.newVec y).1.tree depth i = st.tree depth i :=
  tree_congr (st := st) (st' := (st.newVec y).1) (fun _ => rfl) depth i (fun _ _ => rfl)
    fun j _ l hl => (Mem.alloc_le _ _).read (hwf j l hl)

theorem worldValueAt_refine {depth : ℕ} {w : World A} (h : w.WF) {p : Param}
    (hp : w.st.tree depth w.o.par = some p) (hn : (w.st.foot depth w.o.par).Nodup) (a : A) (free : Bool)
    (y : List ℝ) : w.valueAt depth a free y = valueAt (w.o.fn a) p free y := by
  have hc := newVec_change w.st y
  have hp' : (w.st.newVec y).1.tree depth w.o.par = some p := by rw [newVec_tree h.st]; exact hp
  obtain ⟨h1, h2⟩ := setPar_refine (hc.wf h.st) hp' (by rw [hc.skel.foot]; exact hn)
    (x := (w.st.newVec y).2) (Mem.alloc_alive _ _) free
  rw [show (w.st.newVec y).1.mem.vals (w.st.newVec y).2 = y from Mem.alloc_vals _ _] at h1 h2
  unfold World.valueAt valueAt
  simp only
  generalize (w.st.newVec y).1.setPar depth w.o.par (w.st.newVec y).2 free = s at h1 h2 ⊢
  obtain ⟨s, r⟩ := s
  cases r with
  | error e =>
    simp only at h1 h2 ⊢
    rw [← h2]
    rfl
  | ok u =>
    simp only at h1 h2 ⊢
    rw [← h2]
    simp only [outcome]
    unfold World.callFn
    rw [h1]

theorem deriv_step {β : Type} {depth : ℕ} {w : World A} (h : w.WF) {x : List ℕ}
    (hx : ∀ k ∈ x, k < w.st.mem.next) (free : Bool) (a : A) (ag : (List ℝ → Py Arr) → Py β) :
    World.Step w (w.deriv depth free x a ag).1 := by
  have hc := traceSet_change (depth := depth) (i := w.o.par) free hx
  have hs := World.Step.change h hc
  have hc2 := setPar_change (depth := depth) (st := w.st.traceSet depth w.o.par x free) (i := w.o.par) free
    fun k hk => lt_of_lt_of_le (hx k hk) hc.le.1
  have hs2 := hs.trans (World.Step.change hs.wf hc2)
  unfold World.deriv
  simp only
  cases ag (w.valueAt depth a free) with
  | error e => exact hs
  | ok v =>
    simp only
    cases ((w.st.traceSet depth w.o.par x free).setPar depth w.o.par x free).2 <;> exact hs2

theorem deriv_refine {β : Type} {depth : ℕ} {w : World A} (h : w.WF) {v : Objective A}
    (hv : w.view depth = some v) (hn : (w.st.foot depth w.o.par).Nodup) {x : List ℕ}
    (hx : ∀ k ∈ x, k < w.st.mem.next) (free : Bool) (a : A) (ag : (List ℝ → Py Arr) → Py β) :
    (w.deriv depth free x a ag).1.view depth = some (v.deriv free (w.st.mem.vals x) a ag).1 ∧
      (w.deriv depth free x a ag).2 = (v.deriv free (w.st.mem.vals x) a ag).2 := by
  obtain ⟨p, hp, rfl⟩ := world_view hv
  have hc := traceSet_change (depth := depth) (i := w.o.par) free hx
  have ht := traceSet_refine h.st hp hn hx free
  have hx2 : ∀ k ∈ x, k < (w.st.traceSet depth w.o.par x free).mem.next :=
    fun k hk => lt_of_lt_of_le (hx k hk) hc.le.1
  have hc2 := setPar_change (depth := depth) (i := w.o.par) free hx2
  obtain ⟨h1, h2⟩ := setPar_refine (hc.wf h.st) ht (by rw [hc.skel.foot]; exact hn) hx2 free
  rw [hc.le.vals hx] at h1 h2
  rw [hc.skel.foot] at hc2
  have hF : w.valueAt depth a free = valueAt (w.o.fn a) p free := by
    funext y
    exact worldValueAt_refine h hp hn a free y
  unfold World.deriv Objective.deriv cacheAndEval
  simp only
  rw [hF]
  cases ag (valueAt (w.o.fn a) p free) with
  | error e => exact ⟨h.view hc ht, rfl⟩
  | ok b =>
    simp only
    have hview := h.view (hc.trans hc2) h1
    generalize (w.st.traceSet depth w.o.par x free).setPar depth w.o.par x free = s at h1 h2 hview hc2 ⊢
    obtain ⟨s, r⟩ := s
    cases r with
    | error e =>
      simp only at h2 hview ⊢
      rw [← h2]
      exact ⟨hview, rfl⟩
    | ok u =>
      simp only at h2 hview ⊢
      rw [← h2]
      exact ⟨hview, rfl⟩

/-! ### A new array -/

theorem newVec_view {depth : ℕ} {w : World A} (h : w.WF) {v : Objective A} (hv : w.view depth = some v)
    (y : List ℝ) : World.view depth ⟨(w.st.newVec y).1, w.o⟩ = some v := by
  obtain ⟨p, hp, rfl⟩ := world_view hv
  refine h.view (newVec_change w.st y) ?_
  rw [← hp]
  exact tree_congr (st := w.st) (st' := (w.st.newVec y).1) (fun _ => rfl) depth w.o.par (fun _ _ => rfl)
    fun j _ l hl => (Mem.alloc_le _ _).read (h.st j l hl)

/-- The state with a new array. -/
def World.withVec (w : World A) (y : List ℝ) : World A := ⟨(w.st.newVec y).1, w.o⟩

theorem withVec_step {w : World A} (h : w.WF) (y : List ℝ) : World.Step w (w.withVec y) :=
  World.Step.change h (newVec_change w.st y)

/-! ### All calls -/

theorem alive_args1 {x : List ℕ} {m : Mem} (h : ∀ r ∈ [Ref.vec x], r.Alive m) : ∀ k ∈ x, k < m.next :=
  h (Ref.vec x) (by simp)

theorem alive_args2 {x v : List ℕ} {m : Mem} (h : ∀ r ∈ [Ref.vec x, Ref.vec v], r.Alive m) :
    (∀ k ∈ x, k < m.next) ∧ ∀ k ∈ v, k < m.next := ⟨h (Ref.vec x) (by simp), h (Ref.vec v) (by simp)⟩

theorem ocall_step {depth : ℕ} {w : World A} (h : w.WF) (c : OCall A) (hc : ∀ r ∈ c.args, r.Alive w.st.mem) :
    World.Step w (c.run depth w).1 := by
  cases c with
  | funFree x a v => exact funFree_step h (alive_args1 hc) a v
  | funVector x a => exact funVector_step h (alive_args1 hc) a
  | grad f x a => exact deriv_step h (alive_args1 hc) f a fun F => agGrad F (w.st.mem.vals x)
  | hessian f x a => exact deriv_step h (alive_args1 hc) f a _
  | jacobian f x a => exact deriv_step h (alive_args1 hc) f a _
  | hvp f x a v => exact deriv_step h (alive_args2 hc).1 f a fun F => agHvp F (w.st.mem.vals x) (w.st.mem.vals v)
  | funFreeCond x a v =>
    simp only [OCall.run, World.funFreeCond]
    split
    · exact .refl h
    · split
      · exact .refl h
      · rename_i y _
        exact (withVec_step h y).trans (funFree_step (withVec_step h y).wf (newVec_alive _ _) a v)
  | gradCond x a =>
    simp only [OCall.run, World.gradCond]
    split
    · exact .refl h
    · split
      · exact .refl h
      · rename_i y _
        exact (withVec_step h y).trans (deriv_step (withVec_step h y).wf (newVec_alive _ _) true a _)
  | hessianCond x a =>
    simp only [OCall.run, World.hessianCond]
    split
    · exact .refl h
    · split
      · exact .refl h
      · rename_i y _
        exact (withVec_step h y).trans (deriv_step (withVec_step h y).wf (newVec_alive _ _) true a _)
  | hvpCond x a v =>
    simp only [OCall.run, World.hvpCond]
    split
    · exact .refl h
    · split
      · exact .refl h
      · split
        · exact .refl h
        · rename_i y _ _ pv _
          have s1 := withVec_step h y
          have s2 := withVec_step s1.wf pv
          exact s1.trans (s2.trans (deriv_step s2.wf
            (fun k hk => lt_of_lt_of_le (newVec_alive _ _ k hk) s2.le.1) true a _))
  | initLogger =>
    exact ⟨.refl _, .refl _, ⟨h.st, by simp [OCall.run, World.initLogger, HLogger.reset],
      by simp [OCall.run, World.initLogger, HLogger.reset],
      by simp [OCall.run, World.initLogger, HLogger.reset], h.precond⟩, rfl, rfl, rfl⟩

theorem precond_none {w : World A} {v : Objective A} {depth : ℕ} (hv : w.view depth = some v)
    (h : w.o.precond = none) : v.precond = none := by
  obtain ⟨p, -, rfl⟩ := world_view hv
  simp [h]

theorem precond_some {w : World A} {v : Objective A} {depth : ℕ} (hv : w.view depth = some v) {P : Ref}
    (h : w.o.precond = some P) : v.precond = some (w.st.mem.read P) := by
  obtain ⟨p, -, rfl⟩ := world_view hv
  simp [h]

theorem ocall_refine {depth : ℕ} {w : World A} (h : w.WF) {v : Objective A} (hv : w.view depth = some v)
    (hn : (w.st.foot depth w.o.par).Nodup) (c : OCall A) (hc : ∀ r ∈ c.args, r.Alive w.st.mem) :
    (c.run depth w).1.view depth = some (c.runValue w.st.mem.vals v).1 ∧
      (c.run depth w).2 = (c.runValue w.st.mem.vals v).2 := by
  cases c with
  | funFree x a b => exact funFree_refine h hv hn (alive_args1 hc) a b
  | funVector x a => exact funVector_refine h hv hn (alive_args1 hc) a
  | grad f x a =>
    obtain ⟨h1, h2⟩ := deriv_refine h hv hn (alive_args1 hc) f a fun F => agGrad F (w.st.mem.vals x)
    cases f <;> exact ⟨h1, congrArg (Arr.vec <$> ·) h2⟩
  | hessian f x a => cases f <;> exact deriv_refine h hv hn (alive_args1 hc) _ a fun F => agHess F (w.st.mem.vals x)
  | jacobian f x a => cases f <;> exact deriv_refine h hv hn (alive_args1 hc) _ a fun F => agJac F (w.st.mem.vals x)
  | hvp f x a u =>
    obtain ⟨h1, h2⟩ := deriv_refine h hv hn (alive_args2 hc).1 f a
      fun F => agHvp F (w.st.mem.vals x) (w.st.mem.vals u)
    cases f <;> exact ⟨h1, congrArg (Arr.vec <$> ·) h2⟩
  | funFreeCond x a b =>
    simp only [OCall.run, World.funFreeCond, OCall.runValue, Objective.funFreeCond]
    cases hP : w.o.precond with
    | none => rw [precond_none hv hP]; exact ⟨hv, rfl⟩
    | some P =>
      rw [precond_some hv hP]
      simp only
      cases Objective.conditionedX (w.st.mem.read P) (w.st.mem.vals x) with
      | error e => exact ⟨hv, rfl⟩
      | ok y =>
        have := funFree_refine (withVec_step h y).wf (newVec_view h hv y)
          (by rw [(withVec_step h y).skel.foot]; exact hn) (newVec_alive _ _) a b
        simp only [World.withVec, newVec_vals] at this
        exact this
  | gradCond x a =>
    simp only [OCall.run, World.gradCond, OCall.runValue, Objective.funFreeGradCond]
    cases hP : w.o.precond with
    | none => rw [precond_none hv hP]; exact ⟨hv, rfl⟩
    | some P =>
      rw [precond_some hv hP]
      simp only
      cases Objective.conditionedX (w.st.mem.read P) (w.st.mem.vals x) with
      | error e => exact ⟨hv, rfl⟩
      | ok y =>
        have hs := withVec_step h y
        have hx2 : ∀ k ∈ (w.st.newVec y).2, k < (w.withVec y).st.mem.next := newVec_alive _ _
        have st2 := hs.trans (deriv_step (depth := depth) hs.wf hx2 true a fun F => agGrad F ((w.withVec y).st.mem.vals (w.st.newVec y).2))
        obtain ⟨h1, h2⟩ := deriv_refine hs.wf (newVec_view h hv y) (by rw [hs.skel.foot]; exact hn) hx2 true a
          fun F => agGrad F ((w.withVec y).st.mem.vals (w.st.newVec y).2)
        have hvals : (w.withVec y).st.mem.vals (w.st.newVec y).2 = y := newVec_vals _ _
        rw [hvals] at h1 h2 st2
        simp only [World.grad, Objective.funFreeGrad]
        change World.view depth (World.deriv depth (w.withVec y) true (w.st.newVec y).2 a fun F => agGrad F ((w.withVec y).st.mem.vals (w.st.newVec y).2)).1 = _ ∧
          Arr.vec <$> ((World.deriv depth (w.withVec y) true (w.st.newVec y).2 a fun F => agGrad F ((w.withVec y).st.mem.vals (w.st.newVec y).2)).2 >>= fun g =>
            ((World.deriv depth (w.withVec y) true (w.st.newVec y).2 a fun F => agGrad F ((w.withVec y).st.mem.vals (w.st.newVec y).2)).1.st.mem.read P).transpose.mulVec g) = _
        rw [hvals, st2.le.read (h.precond P hP)]
        refine ⟨h1, ?_⟩
        rw [h2]
  | hessianCond x a =>
    simp only [OCall.run, World.hessianCond, OCall.runValue, Objective.funFreeHessianCond]
    cases hP : w.o.precond with
    | none => rw [precond_none hv hP]; exact ⟨hv, rfl⟩
    | some P =>
      rw [precond_some hv hP]
      simp only
      cases Objective.conditionedX (w.st.mem.read P) (w.st.mem.vals x) with
      | error e => exact ⟨hv, rfl⟩
      | ok y =>
        have hs := withVec_step h y
        have hx2 : ∀ k ∈ (w.st.newVec y).2, k < (w.withVec y).st.mem.next := newVec_alive _ _
        have st2 := hs.trans (deriv_step (depth := depth) hs.wf hx2 true a fun F => agHess F ((w.withVec y).st.mem.vals (w.st.newVec y).2))
        obtain ⟨h1, h2⟩ := deriv_refine hs.wf (newVec_view h hv y) (by rw [hs.skel.foot]; exact hn) hx2 true a
          fun F => agHess F ((w.withVec y).st.mem.vals (w.st.newVec y).2)
        have hvals : (w.withVec y).st.mem.vals (w.st.newVec y).2 = y := newVec_vals _ _
        rw [hvals] at h1 h2 st2
        simp only [World.hessian, Objective.funFreeHessian]
        change World.view depth (World.deriv depth (w.withVec y) true (w.st.newVec y).2 a fun F => agHess F ((w.withVec y).st.mem.vals (w.st.newVec y).2)).1 = _ ∧
          ((World.deriv depth (w.withVec y) true (w.st.newVec y).2 a fun F => agHess F ((w.withVec y).st.mem.vals (w.st.newVec y).2)).2 >>= fun g =>
            g.matmul ((World.deriv depth (w.withVec y) true (w.st.newVec y).2 a fun F => agHess F ((w.withVec y).st.mem.vals (w.st.newVec y).2)).1.st.mem.read P) >>= fun g' =>
            ((World.deriv depth (w.withVec y) true (w.st.newVec y).2 a fun F => agHess F ((w.withVec y).st.mem.vals (w.st.newVec y).2)).1.st.mem.read P).transpose.matmul g') = _
        rw [hvals, st2.le.read (h.precond P hP)]
        refine ⟨h1, ?_⟩
        rw [h2]
  | hvpCond x a u =>
    simp only [OCall.run, World.hvpCond, OCall.runValue, Objective.funFreeHvpCond]
    cases hP : w.o.precond with
    | none => rw [precond_none hv hP]; exact ⟨hv, rfl⟩
    | some P =>
      rw [precond_some hv hP]
      simp only
      cases Objective.conditionedX (w.st.mem.read P) (w.st.mem.vals x) with
      | error e => exact ⟨hv, rfl⟩
      | ok y =>
        simp only
        cases (w.st.mem.read P).mulVec (w.st.mem.vals u) with
        | error e => exact ⟨hv, rfl⟩
        | ok pv =>
          simp only
          have hs := withVec_step h y
          have hs' := withVec_step hs.wf pv
          have hx2 : ∀ k ∈ (w.st.newVec y).2, k < ((w.withVec y).withVec pv).st.mem.next :=
            fun k hk => lt_of_lt_of_le (newVec_alive _ _ k hk) hs'.le.1
          have hvals : ((w.withVec y).withVec pv).st.mem.vals (w.st.newVec y).2 = y :=
            (hs'.le.vals (newVec_alive _ _)).trans (newVec_vals _ _)
          have hvals2 : ((w.withVec y).withVec pv).st.mem.vals ((w.withVec y).st.newVec pv).2 = pv := newVec_vals _ _
          have st2 := (hs.trans hs').trans (deriv_step (depth := depth) hs'.wf hx2 true a fun F => agHvp F y pv)
          obtain ⟨h1, h2⟩ := deriv_refine hs'.wf (newVec_view hs.wf (newVec_view h hv y) pv)
            (by rw [(hs.trans hs').skel.foot]; exact hn) hx2 true a fun F => agHvp F y pv
          rw [hvals] at h1 h2
          simp only [World.hvp, Objective.funFreeHvp]
          change World.view depth (World.deriv depth ((w.withVec y).withVec pv) true (w.st.newVec y).2 a fun F => agHvp F (((w.withVec y).withVec pv).st.mem.vals (w.st.newVec y).2) (((w.withVec y).withVec pv).st.mem.vals ((w.withVec y).st.newVec pv).2)).1 = _ ∧
            Arr.vec <$> ((World.deriv depth ((w.withVec y).withVec pv) true (w.st.newVec y).2 a fun F => agHvp F (((w.withVec y).withVec pv).st.mem.vals (w.st.newVec y).2) (((w.withVec y).withVec pv).st.mem.vals ((w.withVec y).st.newVec pv).2)).2 >>= fun g =>
              ((World.deriv depth ((w.withVec y).withVec pv) true (w.st.newVec y).2 a fun F => agHvp F (((w.withVec y).withVec pv).st.mem.vals (w.st.newVec y).2) (((w.withVec y).withVec pv).st.mem.vals ((w.withVec y).st.newVec pv).2)).1.st.mem.read P).transpose.mulVec g) = _
          rw [hvals, hvals2, st2.le.read (h.precond P hP)]
          refine ⟨h1, ?_⟩
          rw [h2]
  | initLogger =>
    obtain ⟨p, hp, rfl⟩ := world_view hv
    refine ⟨?_, rfl⟩
    simp [OCall.run, World.initLogger, OCall.runValue, World.view, hp, HLogger.reset, HLogger.view, Logger.reset]

/-! ### Programs -/

theorem assign_wf {st : Store} (h : st.WF) (ws : List Assign) : (st.assign ws).WF := by
  intro i l hl k hk
  rw [assign_next]
  exact h i l hl k hk

theorem event_le {depth : ℕ} {st : Store} (h : st.WF) (e : Event) (ok : e.Ok st) :
    st.mem.next ≤ (e.run depth st).mem.next ∧ (e.run depth st).WF := by
  cases e with
  | newArray a => exact ⟨(Mem.alloc_le _ _).1, wf_mem h (Mem.alloc_le _ _)⟩
  | assign w => exact ⟨by rw [Event.run, assign_next], assign_wf h _⟩
  | call c => exact ⟨(call_run c ok h).1.1, (call_run c ok h).2.1⟩

theorem oevent_wf {depth : ℕ} {w : World A} (h : w.WF) (e : OEvent A) (ok : e.Ok w) : (e.run depth w).WF := by
  cases e with
  | call c => exact (ocall_step h c ok).wf
  | setPrecond r =>
    refine ⟨h.st, h.lastX, h.x, h.xArray, fun r' hr' => ?_⟩
    simp only [OEvent.run, World.setPrecond] at hr' ⊢
    cases r with
    | none => cases hr'
    | some r => cases hr'; exact ok
  | other e => exact h.mono (event_le h.st e ok).2 (event_le h.st e ok).1

theorem OReached.wf {depth : ℕ} {w : World A} (h : OReached depth w) : w.WF := by
  induction h with
  | start h par fn => exact ⟨h.wf, by simp [World.new, HLogger.new, HLogger.reset],
      by simp [World.new, HLogger.new, HLogger.reset], by simp [World.new, HLogger.new, HLogger.reset],
      by simp [World.new]⟩
  | step h e ok ih => exact oevent_wf ih e ok

end

end LRVB
