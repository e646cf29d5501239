import Verif.Lemmas.HeapObj
import Verif.Spec.HeapTwo
import Verif.Lemmas.Blank

/-!
# Two-parameter objectives and converters that hold references: lemmas
-/

namespace LRVB

open Classical

noncomputable section

variable {A : Type}

/-- The two parameters of a call and what they contain. -/
structure Duo (depth : ℕ) (st : Store) (i j : ℕ) (p q : Param) : Prop where
  wf : st.WF
  first : st.tree depth i = some p
  second : st.tree depth j = some q
  apart : st.Apart depth i j

theorem Duo.left {depth : ℕ} {st : Store} {i j : ℕ} {p q : Param} (h : Duo depth st i j p q) :
    (st.foot depth i).Nodup := (List.nodup_append.1 h.apart).1

theorem Duo.right {depth : ℕ} {st : Store} {i j : ℕ} {p q : Param} (h : Duo depth st i j p q) :
    (st.foot depth j).Nodup := (List.nodup_append.1 h.apart).2.1

theorem Duo.swap {depth : ℕ} {st : Store} {i j : ℕ} {p q : Param} (h : Duo depth st i j p q) :
    Duo depth st j i q p :=
  ⟨h.wf, h.second, h.first, List.nodup_append_comm.1 h.apart⟩

theorem Duo.disjoint {depth : ℕ} {st : Store} {i j : ℕ} {p q : Param} (h : Duo depth st i j p q) :
    ∀ k ∈ st.foot depth j, k ∉ st.foot depth i := fun k hk hk' =>
  (List.nodup_append.1 h.apart).2.2 k hk' k hk rfl

theorem apart_skel {depth : ℕ} {st st' : Store} {i j : ℕ} (h : st.Apart depth i j) (hs : st.Skel st') :
    st'.Apart depth i j := by
  unfold Store.Apart at h ⊢
  rw [hs.foot, hs.foot]
  exact h

/-- A change of the first parameter. -/
theorem Duo.change {depth : ℕ} {st st' : Store} {i j : ℕ} {p q p' : Param} (h : Duo depth st i j p q)
    (hc : Store.Change (st.foot depth i) st st') (hp : st'.tree depth i = some p') :
    Duo depth st' i j p' q :=
  ⟨hc.wf h.wf, hp, (hc.tree h.wf depth j h.disjoint).trans h.second, apart_skel h.apart hc.skel⟩

theorem Duo.change2 {depth : ℕ} {st st' : Store} {i j : ℕ} {p q q' : Param} (h : Duo depth st i j p q)
    (hc : Store.Change (st.foot depth j) st st') (hq : st'.tree depth j = some q') :
    Duo depth st' i j p q' := (h.swap.change hc hq).swap

theorem Duo.newVec {depth : ℕ} {st : Store} {i j : ℕ} {p q : Param} (h : Duo depth st i j p q) (y : List ℝ) :
    Duo depth (st.newVec y).1 i j p q :=
  ⟨(newVec_change st y).wf h.wf, (newVec_tree h.wf y i).trans h.first, (newVec_tree h.wf y j).trans h.second,
    apart_skel h.apart (newVec_change st y).skel⟩

theorem Duo.setPar {depth : ℕ} {st : Store} {i j : ℕ} {p q : Param} (h : Duo depth st i j p q)
    {x : List ℕ} (hx : ∀ k ∈ x, k < st.mem.next) (free : Bool) :
    Duo depth (st.setPar depth i x free).1 i j (setPar p (st.mem.vals x) free).1 q ∧
      outcome (st.setPar depth i x free).2 = (LRVB.setPar p (st.mem.vals x) free).2 ∧
      st.mem.Le (st.setPar depth i x free).1.mem := by
  obtain ⟨h1, h2⟩ := setPar_refine h.wf h.first h.left hx free
  have hc := setPar_change (depth := depth) (i := i) free hx
  exact ⟨h.change hc h1, h2, hc.le⟩

theorem Duo.setPar2 {depth : ℕ} {st : Store} {i j : ℕ} {p q : Param} (h : Duo depth st i j p q)
    {x : List ℕ} (hx : ∀ k ∈ x, k < st.mem.next) (free : Bool) :
    Duo depth (st.setPar depth j x free).1 i j p (LRVB.setPar q (st.mem.vals x) free).1 ∧
      outcome (st.setPar depth j x free).2 = (LRVB.setPar q (st.mem.vals x) free).2 ∧
      st.mem.Le (st.setPar depth j x free).1.mem :=
  ⟨(h.swap.setPar hx free).1.swap, (h.swap.setPar hx free).2⟩

/-- Placeholders in the first parameter. -/
theorem Duo.box {depth : ℕ} {st : Store} {i j : ℕ} {p q : Param} (h : Duo depth st i j p q) {F : List ℕ}
    (hF : F = st.foot depth i) : Duo depth (st.box true F) i j (p.mark true) q := by
  subst hF
  refine h.change (box_change true (fun _ h => h) st) ?_
  rw [box_tree _ _ _ _ _ fun _ h => h, h.first]
  rfl

theorem Duo.box2 {depth : ℕ} {st : Store} {i j : ℕ} {p q : Param} (h : Duo depth st i j p q) {F : List ℕ}
    (hF : F = st.foot depth j) : Duo depth (st.box true F) i j p (q.mark true) := (h.swap.box hF).swap

theorem Duo.box_ite {depth : ℕ} {st : Store} {i j : ℕ} {p q : Param} (h : Duo depth st i j p q) {F : List ℕ}
    (hF : F = st.foot depth i) (t : Bool) :
    Duo depth (if t then st.box true F else st) i j (if t then p.mark true else p) q := by
  cases t with
  | false => exact h
  | true => exact h.box hF

theorem Duo.box_ite2 {depth : ℕ} {st : Store} {i j : ℕ} {p q : Param} (h : Duo depth st i j p q) {F : List ℕ}
    (hF : F = st.foot depth j) (t : Bool) :
    Duo depth (if t then st.box true F else st) i j p (if t then q.mark true else q) :=
  (h.swap.box_ite hF t).swap

theorem outcome_ok {r : Py Unit} (h : outcome r = none) : r = .ok () := by
  cases r with
  | ok u => rfl
  | error e => cases h

theorem outcome_error {r : Py Unit} {e : PyErr} (h : outcome r = some e) : r = .error e := by
  cases r with
  | ok u => cases h
  | error e' => cases h; rfl

/-! ### Frames -/

/-- What a call may do to the store. -/
structure Store.Grow (st st' : Store) : Prop where
  le : st.mem.Le st'.mem
  skel : st.Skel st'
  wf : st.WF → st'.WF

theorem Store.Change.grow {F : List ℕ} {st st' : Store} (h : Store.Change F st st') : Store.Grow st st' :=
  ⟨h.le, h.skel, h.wf⟩

theorem Store.Grow.trans {a b c : Store} (h : Store.Grow a b) (h' : Store.Grow b c) : Store.Grow a c :=
  ⟨h.le.trans h'.le, h.skel.trans h'.skel, h'.wf ∘ h.wf⟩

theorem Store.Grow.refl (st : Store) : Store.Grow st st := ⟨.refl _, .refl _, id⟩

theorem Store.Grow.alive {st st' : Store} (h : Store.Grow st st') {x : List ℕ} (hx : ∀ k ∈ x, k < st.mem.next) :
    ∀ k ∈ x, k < st'.mem.next := fun k hk => lt_of_lt_of_le (hx k hk) h.le.1

theorem setPar_grow {depth : ℕ} {st : Store} {i : ℕ} {x : List ℕ} (free : Bool)
    (hx : ∀ k ∈ x, k < st.mem.next) : Store.Grow st (st.setPar depth i x free).1 :=
  (setPar_change (depth := depth) (i := i) free hx).grow

theorem box_grow (b : Bool) (F : List ℕ) (st : Store) : Store.Grow st (st.box b F) :=
  (box_change b (fun _ h => h) st).grow

theorem evalFun_grow {depth : ℕ} (o : HTwo A) {st : Store} {x1 x2 : List ℕ} (f1 f2 : Bool) (a : A)
    (hx1 : ∀ k ∈ x1, k < st.mem.next) (hx2 : ∀ k ∈ x2, k < st.mem.next) :
    Store.Grow st (o.evalFun depth st x1 x2 f1 f2 a).1 := by
  have h1 := setPar_grow (depth := depth) (i := o.par1) f1 hx1
  have h2 := setPar_grow (depth := depth) (i := o.par2) f2 (h1.alive hx2)
  unfold HTwo.evalFun
  simp only
  split
  · exact h1
  · split <;> exact h1.trans h2

theorem twoTrace_grow {depth : ℕ} (o : HTwo A) {st : Store} {x1 x2 : List ℕ} (f1 f2 t1 t2 : Bool)
    (hx1 : ∀ k ∈ x1, k < st.mem.next) (hx2 : ∀ k ∈ x2, k < st.mem.next) :
    Store.Grow st (o.trace depth st x1 x2 f1 f2 t1 t2) := by
  have h1 := setPar_grow (depth := depth) (i := o.par1) f1 hx1
  have hb : ∀ (t : Bool) (F : List ℕ) (s : Store), Store.Grow s (if t then s.box true F else s) := by
    intro t F s
    cases t
    · exact .refl _
    · exact box_grow _ _ _
  have h1b := h1.trans (hb t1 (st.foot depth o.par1) _)
  have h2 := setPar_grow (depth := depth) (i := o.par2) f2 (h1b.alive hx2)
  unfold HTwo.trace
  simp only
  split
  · exact h1
  · split
    · exact h1b.trans h2
    · exact (h1b.trans h2).trans (hb t2 _ _)

theorem twoCache_grow {β : Type} {depth : ℕ} (o : HTwo A) {st : Store} {x1 x2 : List ℕ} (f1 f2 t1 t2 : Bool)
    (ag : Py β) (hx1 : ∀ k ∈ x1, k < st.mem.next) (hx2 : ∀ k ∈ x2, k < st.mem.next) :
    Store.Grow st (o.cacheAndEval depth st x1 x2 f1 f2 t1 t2 ag).1 := by
  have h0 := twoTrace_grow (depth := depth) o f1 f2 t1 t2 hx1 hx2
  have h1 := h0.trans (setPar_grow (depth := depth) (i := o.par1) f1 (h0.alive hx1))
  have h2 := h1.trans (setPar_grow (depth := depth) (i := o.par2) f2 (h1.alive hx2))
  unfold HTwo.cacheAndEval
  simp only
  split
  · exact h0
  · split
    · exact h1
    · split <;> exact h2

theorem twoRun_grow {depth : ℕ} (o : HTwo A) {st : Store} (c : TCall A) (m : TMethod) (hc : c.Ok st) :
    Store.Grow st (o.run depth st c m).1 := by
  cases m with
  | eval => exact evalFun_grow o _ _ _ hc.1 hc.2
  | grad1 => exact twoCache_grow o _ _ _ _ (TwoObjective.agGrad1 (o.valueAt depth st c.free1 c.free2 c.a)
      (st.mem.vals c.x1) (st.mem.vals c.x2)) hc.1 hc.2
  | grad2 => exact twoCache_grow o _ _ _ _ (TwoObjective.agGrad2 (o.valueAt depth st c.free1 c.free2 c.a)
      (st.mem.vals c.x1) (st.mem.vals c.x2)) hc.1 hc.2
  | hessian12 => exact twoCache_grow o _ _ _ _ _ hc.1 hc.2
  | hessian21 => exact twoCache_grow o _ _ _ _ _ hc.1 hc.2

/-! ### Two-parameter objectives -/

theorem two_view {depth : ℕ} {o : HTwo A} {st : Store} {v : TwoObjective A} :
    o.view depth st = some v ↔
      st.tree depth o.par1 = some v.par1 ∧ st.tree depth o.par2 = some v.par2 ∧ o.fn = v.fn := by
  unfold HTwo.view
  obtain ⟨p, q, f⟩ := v
  cases st.tree depth o.par1 <;> cases st.tree depth o.par2 <;> simp

theorem Duo.view {depth : ℕ} {o : HTwo A} {st : Store} {p q : Param} (h : Duo depth st o.par1 o.par2 p q) :
    o.view depth st = some ⟨p, q, o.fn⟩ := two_view.2 ⟨h.first, h.second, rfl⟩

theorem evalFun_refine {depth : ℕ} {o : HTwo A} {st : Store} {p q : Param}
    (h : Duo depth st o.par1 o.par2 p q) {x1 x2 : List ℕ} (f1 f2 : Bool) (a : A)
    (hx1 : ∀ k ∈ x1, k < st.mem.next) (hx2 : ∀ k ∈ x2, k < st.mem.next) :
    o.view depth (o.evalFun depth st x1 x2 f1 f2 a).1 =
        some ((⟨p, q, o.fn⟩ : TwoObjective A).evalFun (st.mem.vals x1) (st.mem.vals x2) f1 f2 a).1 ∧
      (o.evalFun depth st x1 x2 f1 f2 a).2 =
        ((⟨p, q, o.fn⟩ : TwoObjective A).evalFun (st.mem.vals x1) (st.mem.vals x2) f1 f2 a).2 := by
  obtain ⟨h1, e1, l1⟩ := h.setPar hx1 f1
  have hx2' : ∀ k ∈ x2, k < (st.setPar depth o.par1 x1 f1).1.mem.next := fun k hk => lt_of_lt_of_le (hx2 k hk) l1.1
  obtain ⟨h2, e2, l2⟩ := h1.setPar2 hx2' f2
  rw [l1.vals hx2] at h2 e2
  unfold HTwo.evalFun TwoObjective.evalFun
  simp only
  cases r1 : (LRVB.setPar p (st.mem.vals x1) f1).2 with
  | some e => rw [r1] at e1; rw [outcome_error e1]; exact ⟨h1.view, rfl⟩
  | none =>
    rw [r1] at e1
    rw [outcome_ok e1]
    simp only
    cases r2 : (LRVB.setPar q (st.mem.vals x2) f2).2 with
    | some e => rw [r2] at e2; rw [outcome_error e2]; exact ⟨h2.view, rfl⟩
    | none =>
      rw [r2] at e2
      rw [outcome_ok e2]
      refine ⟨h2.view, ?_⟩
      simp only [HTwo.callFn, h2.first, h2.second]

theorem twoValueAt_refine {depth : ℕ} {o : HTwo A} {st : Store} {p q : Param}
    (h : Duo depth st o.par1 o.par2 p q) (f1 f2 : Bool) (a : A) :
    o.valueAt depth st f1 f2 a = (⟨p, q, o.fn⟩ : TwoObjective A).valueAt f1 f2 a := by
  funext y1 y2
  have h1 := h.newVec y1
  have h2 := h1.newVec y2
  have := (evalFun_refine h2 (x1 := (st.newVec y1).2) (x2 := ((st.newVec y1).1.newVec y2).2) f1 f2 a
    (fun k hk => lt_of_lt_of_le (newVec_alive _ _ k hk) (newVec_change _ y2).le.1) (newVec_alive _ _)).2
  rw [newVec_vals, (newVec_change _ y2).le.vals (newVec_alive _ _), newVec_vals] at this
  exact this

theorem twoTrace_refine {depth : ℕ} {o : HTwo A} {st : Store} {p q : Param}
    (h : Duo depth st o.par1 o.par2 p q) {x1 x2 : List ℕ} (f1 f2 t1 t2 : Bool)
    (hx1 : ∀ k ∈ x1, k < st.mem.next) (hx2 : ∀ k ∈ x2, k < st.mem.next) :
    Duo depth (o.trace depth st x1 x2 f1 f2 t1 t2) o.par1 o.par2
      ((⟨p, q, o.fn⟩ : TwoObjective A).trace (st.mem.vals x1) (st.mem.vals x2) f1 f2 t1 t2).par1
      ((⟨p, q, o.fn⟩ : TwoObjective A).trace (st.mem.vals x1) (st.mem.vals x2) f1 f2 t1 t2).par2 := by
  obtain ⟨h1, e1, l1⟩ := h.setPar hx1 f1
  have s1 := (setPar_change (depth := depth) (i := o.par1) f1 hx1).skel
  have h1b := h1.box_ite (F := st.foot depth o.par1) (by rw [s1.foot]) t1
  have lb : (st.setPar depth o.par1 x1 f1).1.mem =
      (if t1 then (st.setPar depth o.par1 x1 f1).1.box true (st.foot depth o.par1) else (st.setPar depth o.par1 x1 f1).1).mem := by
    cases t1 <;> rfl
  have sb : (st.setPar depth o.par1 x1 f1).1.Skel
      (if t1 then (st.setPar depth o.par1 x1 f1).1.box true (st.foot depth o.par1) else (st.setPar depth o.par1 x1 f1).1) := by
    cases t1
    · exact .refl _
    · exact box_skel _ _ _
  rw [lb] at l1
  have s2 := s1.trans sb
  have hx2' : ∀ k ∈ x2, k < (if t1 then (st.setPar depth o.par1 x1 f1).1.box true (st.foot depth o.par1) else (st.setPar depth o.par1 x1 f1).1).mem.next :=
    fun k hk => lt_of_lt_of_le (hx2 k hk) l1.1
  obtain ⟨h2, e2, l2⟩ := h1b.setPar2 hx2' f2
  rw [l1.vals hx2] at h2 e2
  have s3 := s2.trans (setPar_change (depth := depth) (i := o.par2) f2 hx2').skel
  have h2b := h2.box_ite2 (F := st.foot depth o.par2) (by rw [s3.foot]) t2
  unfold HTwo.trace TwoObjective.trace
  simp only
  cases r1 : (LRVB.setPar p (st.mem.vals x1) f1).2 with
  | some e => rw [r1] at e1; rw [outcome_error e1]; exact h1
  | none =>
    rw [r1] at e1
    rw [outcome_ok e1]
    simp only
    cases r2 : (LRVB.setPar q (st.mem.vals x2) f2).2 with
    | some e => rw [r2] at e2; rw [outcome_error e2]; exact h2
    | none => rw [r2] at e2; rw [outcome_ok e2]; exact h2b

theorem twoCache_refine {β : Type} {depth : ℕ} {o : HTwo A} {st : Store} {p q : Param}
    (h : Duo depth st o.par1 o.par2 p q) {x1 x2 : List ℕ} (f1 f2 t1 t2 : Bool) (ag : Py β)
    (hx1 : ∀ k ∈ x1, k < st.mem.next) (hx2 : ∀ k ∈ x2, k < st.mem.next) :
    o.view depth (o.cacheAndEval depth st x1 x2 f1 f2 t1 t2 ag).1 =
        some ((⟨p, q, o.fn⟩ : TwoObjective A).cacheAndEval (st.mem.vals x1) (st.mem.vals x2) f1 f2 t1 t2 ag).1 ∧
      (o.cacheAndEval depth st x1 x2 f1 f2 t1 t2 ag).2 =
        ((⟨p, q, o.fn⟩ : TwoObjective A).cacheAndEval (st.mem.vals x1) (st.mem.vals x2) f1 f2 t1 t2 ag).2 := by
  have h0 := twoTrace_refine h f1 f2 t1 t2 hx1 hx2
  have g0 := twoTrace_grow (depth := depth) o f1 f2 t1 t2 hx1 hx2
  have hfn : ((⟨p, q, o.fn⟩ : TwoObjective A).trace (st.mem.vals x1) (st.mem.vals x2) f1 f2 t1 t2).fn = o.fn := by
    unfold TwoObjective.trace
    simp only
    split
    · rfl
    · split <;> rfl
  obtain ⟨h1, e1, l1⟩ := h0.setPar (g0.alive hx1) f1
  have hx2' : ∀ k ∈ x2, k < ((o.trace depth st x1 x2 f1 f2 t1 t2).setPar depth o.par1 x1 f1).1.mem.next :=
    fun k hk => lt_of_lt_of_le (g0.alive hx2 k hk) l1.1
  obtain ⟨h2, e2, l2⟩ := h1.setPar2 hx2' f2
  rw [g0.le.vals hx1] at h1 h2 e1
  rw [l1.vals (g0.alive hx2), g0.le.vals hx2] at h2 e2
  unfold HTwo.cacheAndEval TwoObjective.cacheAndEval
  simp only
  have two : ∀ {s : Store} {p' q' : Param} (T : TwoObjective A), T.fn = o.fn → Duo depth s o.par1 o.par2 p' q' →
      o.view depth s = some { T with par1 := p', par2 := q' } := by
    intro s p' q' T hT h
    rw [h.view, hT]
  cases ag with
  | error e => exact ⟨two _ hfn h0, rfl⟩
  | ok v =>
    simp only
    generalize (⟨p, q, o.fn⟩ : TwoObjective A).trace (st.mem.vals x1) (st.mem.vals x2) f1 f2 t1 t2 = T at *
    cases r1 : (LRVB.setPar T.par1 (st.mem.vals x1) f1).2 with
    | some e => rw [r1] at e1; rw [outcome_error e1]; exact ⟨two T hfn h1, rfl⟩
    | none =>
      rw [r1] at e1
      rw [outcome_ok e1]
      simp only
      cases r2 : (LRVB.setPar T.par2 (st.mem.vals x2) f2).2 with
      | some e => rw [r2] at e2; rw [outcome_error e2]; exact ⟨two T hfn h2, rfl⟩
      | none => rw [r2] at e2; rw [outcome_ok e2]; exact ⟨two T hfn h2, rfl⟩

theorem twoRun_refine {depth : ℕ} {o : HTwo A} {st : Store} {p q : Param}
    (h : Duo depth st o.par1 o.par2 p q) (c : TCall A) (m : TMethod) (hc : c.Ok st) :
    o.view depth (o.run depth st c m).1 = some ((⟨p, q, o.fn⟩ : TwoObjective A).run (st.mem.vals c.x1)
        (st.mem.vals c.x2) c.free1 c.free2 c.a m).1 ∧
      (o.run depth st c m).2 = ((⟨p, q, o.fn⟩ : TwoObjective A).run (st.mem.vals c.x1)
        (st.mem.vals c.x2) c.free1 c.free2 c.a m).2 := by
  have hv := twoValueAt_refine h c.free1 c.free2 c.a
  cases m with
  | eval => exact evalFun_refine h _ _ _ hc.1 hc.2
  | grad1 =>
    simp only [HTwo.run, HTwo.grad1, TwoObjective.run, TwoObjective.funGrad1, hv]
    obtain ⟨h1, h2⟩ := twoCache_refine h c.free1 c.free2 true false
      (TwoObjective.agGrad1 ((⟨p, q, o.fn⟩ : TwoObjective A).valueAt c.free1 c.free2 c.a) (st.mem.vals c.x1) (st.mem.vals c.x2))
      hc.1 hc.2
    exact ⟨h1, congrArg (Arr.vec <$> ·) h2⟩
  | grad2 =>
    simp only [HTwo.run, HTwo.grad2, TwoObjective.run, TwoObjective.funGrad2, hv]
    obtain ⟨h1, h2⟩ := twoCache_refine h c.free1 c.free2 false true
      (TwoObjective.agGrad2 ((⟨p, q, o.fn⟩ : TwoObjective A).valueAt c.free1 c.free2 c.a) (st.mem.vals c.x1) (st.mem.vals c.x2))
      hc.1 hc.2
    exact ⟨h1, congrArg (Arr.vec <$> ·) h2⟩
  | hessian12 =>
    simp only [HTwo.run, HTwo.hessian12, TwoObjective.run, TwoObjective.hessian12, hv]
    exact twoCache_refine h _ _ _ _ _ hc.1 hc.2
  | hessian21 =>
    simp only [HTwo.run, HTwo.hessian21, TwoObjective.run, TwoObjective.hessian21, hv]
    exact twoCache_refine h _ _ _ _ _ hc.1 hc.2

/-! ### Converters -/

theorem HConverter.Assigns.change {depth : ℕ} {c : HConverter} (h : c.Assigns depth) {st : Store} (hwf : st.WF) :
    Store.Change (st.foot depth c.parOut) st (c.conv st).1 := by
  refine ⟨h.arrays st hwf, fun j => ?_, h.sound st, fun j => h.other st j hwf⟩
  cases ho : st.objs[j]? with
  | none => rw [h.none st j hwf ho]
  | some o =>
    cases o with
    | leaf l =>
      obtain ⟨l', h1, h2, h3⟩ := h.leaf st j l hwf ho
      rw [h1]
      simp [Obj.skel, h2, h3]
    | dict hd es => rw [h.dict st j hd es hwf ho]

theorem HConverter.Assigns.of_change {depth : ℕ} {c : HConverter}
    (h : ∀ st : Store, st.WF → Store.Change (st.foot depth c.parOut) st (c.conv st).1) : c.Assigns depth where
  arrays st hs := (h st hs).le
  other st j hs := (h st hs).other j
  leaf st j l hs hl := (h st hs).skel.leaf hl
  dict st j hd es hs he := (h st hs).skel.dict he
  none st j hs he := (h st hs).skel.none he
  sound st hs := (h st hs).wf hs

theorem getVector_change {depth : ℕ} {st : Store} (hwf : st.WF) (i : ℕ) :
    Store.Change [] st (st.getVector depth i).1 := by
  rcases store_getVector (depth := depth) (i := i) hwf with ⟨y, v, -, -, h3, h4, -, -⟩ | ⟨e, -, -, h3⟩
  · refine ⟨h4, fun j => by rw [h3], fun _ => ?_, fun j _ => by rw [h3]⟩
    intro j l hl
    rw [h3] at hl
    exact (hwf j l hl).mono h4
  · rw [h3]
    exact .refl _ _

theorem getFree_change {depth : ℕ} {st : Store} (hwf : st.WF) (i : ℕ) :
    Store.Change [] st (st.getFree depth i).1 := by
  cases hg : (st.getFree depth i).2 with
  | error e => rw [(store_getFree_error hg).2]; exact .refl _ _
  | ok y =>
    obtain ⟨v, -, h2, -⟩ := store_getFree_new hg
    rw [h2]
    exact ⟨Mem.alloc_le _ _, .refl _, fun h => wf_mem h (Mem.alloc_le _ _), fun _ _ => rfl⟩

theorem readOut_change {depth : ℕ} {c : HConverter} {st : Store} (hwf : st.WF) (free : Bool) :
    Store.Change [] st (c.readOut depth st free).1 := by
  unfold HConverter.readOut
  split
  · exact getFree_change hwf _
  · exact getVector_change hwf _

theorem readOut_value {depth : ℕ} {c : HConverter} {st : Store} (hwf : st.WF) {q : Param}
    (hq : st.tree depth c.parOut = some q) (free : Bool) :
    (c.readOut depth st free).1.mem.vals <$> (c.readOut depth st free).2 = Converter.readOut q free := by
  unfold HConverter.readOut Converter.readOut
  cases free with
  | true =>
    simp only [if_true]
    rw [← gather_free hq]
    cases hg : (st.getFree depth c.parOut).2 with
    | error e => rw [(store_getFree_error hg).1]; rfl
    | ok y =>
      obtain ⟨v, h1, h2, rfl⟩ := store_getFree_new hg
      rw [h1, h2]
      exact congrArg Except.ok (Mem.alloc_vals _ _)
  | false =>
    simp only [Bool.false_eq_true, if_false]
    rw [← gather_vector hq]
    rcases store_getVector (depth := depth) (i := c.parOut) hwf with ⟨y, v, h1, h2, -, -, h5, -⟩ | ⟨e, h1, h2, -⟩
    · rw [h1, h2]
      exact congrArg Except.ok h5
    · rw [h1, h2]
      rfl

theorem convert_grow {depth : ℕ} {c : HConverter} (ha : c.Assigns depth) {st : Store} (hwf : st.WF) (fi fo : Bool)
    {x : List ℕ} (hx : ∀ k ∈ x, k < st.mem.next) : Store.Grow st (c.convert depth st fi fo x).1 := by
  have h1 := setPar_grow (depth := depth) (i := c.parIn) fi hx
  have h2 := h1.trans (ha.change (h1.wf hwf)).grow
  have h3 := h2.trans (readOut_change (depth := depth) (c := c) (h2.wf hwf) fo).grow
  unfold HConverter.convert
  simp only
  split
  · exact h1
  · split
    · exact h2
    · exact h3

theorem convTrace_grow {depth : ℕ} {c : HConverter} (ha : c.Assigns depth) {st : Store} (hwf : st.WF) (fi fo : Bool)
    {x : List ℕ} (hx : ∀ k ∈ x, k < st.mem.next) : Store.Grow st (c.trace depth st fi fo x) := by
  have h1 := setPar_grow (depth := depth) (i := c.parIn) fi hx
  have h2 := (convert_grow ha hwf fi fo hx).trans (box_grow true (st.foot depth c.parIn ++ st.foot depth c.parOut) _)
  unfold HConverter.trace
  simp only
  split
  · exact h1
  · exact h2

theorem getVector_alive {depth : ℕ} {st : Store} (hwf : st.WF) {i : ℕ} {y : List ℕ}
    (h : (st.getVector depth i).2 = .ok y) : ∀ k ∈ y, k < (st.getVector depth i).1.mem.next := by
  rcases store_getVector (depth := depth) (i := i) hwf with ⟨y', v, -, h2, -, -, -, h6⟩ | ⟨e, -, h2, -⟩
  · rw [h2] at h; cases h; exact h6
  · rw [h2] at h; cases h

theorem convJac_grow {depth : ℕ} {c : HConverter} (ha : c.Assigns depth) {st : Store} (hwf : st.WF) (fi fo : Bool)
    {x : List ℕ} (hx : ∀ k ∈ x, k < st.mem.next) : Store.Grow st (c.jacobian depth st fi fo x).1 := by
  have g0 := (getVector_change (depth := depth) hwf c.parOut).grow
  have hy := fun y => getVector_alive (depth := depth) hwf (i := c.parOut) (y := y)
  have g1' := convTrace_grow ha (g0.wf hwf) fi fo (g0.alive hx)
  have g1 := g0.trans g1'
  have g2' := setPar_grow (depth := depth) (i := c.parIn) fi (g1.alive hx)
  have g2 := g1.trans g2'
  unfold HConverter.jacobian
  simp only
  split
  · exact g0
  · rename_i y hg
    have g3 := g2.trans (visit_change vecVisit_sim.tame depth _ c.parOut y ((g1'.trans g2').alive (hy y hg))).grow
    split
    · exact g1
    · split
      · exact g2
      · split <;> split <;> first | exact g3 | exact g3.trans (box_grow true _ _)

variable {conv : Param → Param → Param × Option PyErr}

theorem conv_view {depth : ℕ} {c : HConverter} {st : Store} {v : Converter} :
    c.view depth conv st = some v ↔
      st.tree depth c.parIn = some v.parIn ∧ st.tree depth c.parOut = some v.parOut ∧ conv = v.conv := by
  unfold HConverter.view
  obtain ⟨p, q, f⟩ := v
  cases st.tree depth c.parIn <;> cases st.tree depth c.parOut <;> simp

theorem Duo.convView {depth : ℕ} {c : HConverter} {st : Store} {p q : Param}
    (h : Duo depth st c.parIn c.parOut p q) : c.view depth conv st = some ⟨p, q, conv⟩ :=
  conv_view.2 ⟨h.first, h.second, rfl⟩

theorem Duo.same {depth : ℕ} {st st' : Store} {i j : ℕ} {p q : Param} (h : Duo depth st i j p q)
    (hc : Store.Change [] st st') : Duo depth st' i j p q :=
  ⟨hc.wf h.wf, (hc.tree h.wf depth i (by simp)).trans h.first, (hc.tree h.wf depth j (by simp)).trans h.second,
    apart_skel h.apart hc.skel⟩

theorem convert_refine {depth : ℕ} {c : HConverter} (ha : c.Assigns depth) (hd : c.Describes depth conv) {st : Store}
    {p q : Param} (h : Duo depth st c.parIn c.parOut p q) (fi fo : Bool) {x : List ℕ}
    (hx : ∀ k ∈ x, k < st.mem.next) :
    Duo depth (c.convert depth st fi fo x).1 c.parIn c.parOut
        ((⟨p, q, conv⟩ : Converter).convert fi fo (st.mem.vals x)).1.parIn
        ((⟨p, q, conv⟩ : Converter).convert fi fo (st.mem.vals x)).1.parOut ∧
      (c.convert depth st fi fo x).1.mem.vals <$> (c.convert depth st fi fo x).2 =
        ((⟨p, q, conv⟩ : Converter).convert fi fo (st.mem.vals x)).2 := by
  obtain ⟨h1, e1, l1⟩ := h.setPar hx fi
  obtain ⟨t2, e2⟩ := hd _ _ _ h1.wf h1.apart h1.first h1.second
  have h2 := h1.change2 (ha.change h1.wf) t2
  have h3 := h2.same (readOut_change (depth := depth) (c := c) h2.wf fo)
  unfold HConverter.convert Converter.convert
  simp only
  cases r1 : (LRVB.setPar p (st.mem.vals x) fi).2 with
  | some e => rw [r1] at e1; rw [outcome_error e1]; exact ⟨h1, rfl⟩
  | none =>
    rw [r1] at e1
    rw [outcome_ok e1]
    simp only
    cases r2 : (conv ((LRVB.setPar p (st.mem.vals x) fi).1.mark false) q).2 with
    | some e => rw [r2] at e2; rw [outcome_error e2]; exact ⟨h2, rfl⟩
    | none =>
      rw [r2] at e2
      rw [outcome_ok e2]
      exact ⟨h3, readOut_value h2.wf h2.second fo⟩

theorem convValueAt_refine {depth : ℕ} {c : HConverter} (ha : c.Assigns depth) (hd : c.Describes depth conv) {st : Store}
    {p q : Param} (h : Duo depth st c.parIn c.parOut p q) (fi fo : Bool) :
    c.valueAt depth st fi fo = (⟨p, q, conv⟩ : Converter).valueAt fi fo := by
  funext y
  have := (convert_refine ha hd (h.newVec y) fi fo (newVec_alive st y)).2
  rw [newVec_vals] at this
  unfold HConverter.valueAt Converter.valueAt
  simp only
  rw [← this]
  cases (c.convert depth (st.newVec y).1 fi fo (st.newVec y).2).2 <;> rfl

theorem convTrace_refine {depth : ℕ} {c : HConverter} (ha : c.Assigns depth) (hd : c.Describes depth conv) {st : Store}
    {p q : Param} (h : Duo depth st c.parIn c.parOut p q) (fi fo : Bool) {x : List ℕ}
    (hx : ∀ k ∈ x, k < st.mem.next) :
    Duo depth (c.trace depth st fi fo x) c.parIn c.parOut
        ((⟨p, q, conv⟩ : Converter).trace fi fo (st.mem.vals x)).parIn
        ((⟨p, q, conv⟩ : Converter).trace fi fo (st.mem.vals x)).parOut := by
  obtain ⟨h1, e1, l1⟩ := h.setPar hx fi
  have hc := (convert_refine ha hd h fi fo hx).1
  have hg := convert_grow ha h.wf fi fo hx
  have hb := box_grow true (st.foot depth c.parIn ++ st.foot depth c.parOut) (c.convert depth st fi fo x).1
  have ht : ∀ i, (∀ j ∈ st.foot depth i, j ∈ st.foot depth c.parIn ++ st.foot depth c.parOut) →
      ((c.convert depth st fi fo x).1.box true (st.foot depth c.parIn ++ st.foot depth c.parOut)).tree depth i =
        ((c.convert depth st fi fo x).1.tree depth i).map (Param.mark true) := by
    intro i hi
    refine box_tree _ _ _ _ _ fun j hj => ?_
    rw [hg.skel.foot] at hj
    exact hi j hj
  unfold HConverter.trace Converter.trace
  simp only
  cases r1 : (LRVB.setPar p (st.mem.vals x) fi).2 with
  | some e =>
    have hcv : (⟨p, q, conv⟩ : Converter).convert fi fo (st.mem.vals x) =
        (⟨(LRVB.setPar p (st.mem.vals x) fi).1, q, conv⟩, .error e) := by
      unfold Converter.convert
      simp only [r1]
    rw [r1] at e1
    rw [outcome_error e1, hcv]
    exact h1
  | none =>
    rw [r1] at e1
    rw [outcome_ok e1]
    refine ⟨hb.wf hc.wf, ?_, ?_, apart_skel hc.apart hb.skel⟩
    · rw [ht c.parIn fun j hj => List.mem_append_left _ hj, hc.first]
      rfl
    · rw [ht c.parOut fun j hj => List.mem_append_right _ hj, hc.second]
      rfl

theorem convJac_refine {depth : ℕ} {c : HConverter} (ha : c.Assigns depth) (hd : c.Describes depth conv) {st : Store}
    {p q : Param} (h : Duo depth st c.parIn c.parOut p q) (fi fo : Bool) {x : List ℕ}
    (hx : ∀ k ∈ x, k < st.mem.next) :
    c.view depth conv (c.jacobian depth st fi fo x).1 =
        some ((⟨p, q, conv⟩ : Converter).jacobian fi fo (st.mem.vals x)).1 ∧
      (c.jacobian depth st fi fo x).2 = ((⟨p, q, conv⟩ : Converter).jacobian fi fo (st.mem.vals x)).2 := by
  have hs := getVector_change (depth := depth) h.wf c.parOut
  have h0 := h.same hs
  have g0 := hs.grow
  unfold HConverter.jacobian Converter.jacobian
  simp only
  rw [convValueAt_refine ha hd h0 fi fo]
  have h1 := convTrace_refine ha hd h0 fi fo (g0.alive hx)
  have g1 := convTrace_grow ha h0.wf fi fo (g0.alive hx)
  rw [g0.le.vals hx] at h1
  obtain ⟨h2, e2, l2⟩ := h1.setPar ((g0.trans g1).alive hx) fi
  rw [(g0.trans g1).le.vals hx] at h2 e2
  have hcv : ((⟨p, q, conv⟩ : Converter).trace fi fo (st.mem.vals x)).conv = conv := by
    unfold Converter.trace Converter.convert
    simp only
    cases (LRVB.setPar p (st.mem.vals x) fi).2 with
    | some e => rfl
    | none =>
      simp only
      cases (conv ((LRVB.setPar p (st.mem.vals x) fi).1.mark false) q).2 <;> rfl
  have two : ∀ {s : Store} {p' q' : Param} (T : Converter), T.conv = conv → Duo depth s c.parIn c.parOut p' q' →
      c.view depth conv s = some { T with parIn := p', parOut := q' } := by
    intro s p' q' T hT h
    rw [h.convView, hT]
  rcases store_getVector (depth := depth) (i := c.parOut) h.wf with ⟨y, v, k1, k2, -, k4, k5, k6⟩ | ⟨e, k1, k2, k3⟩
  · rw [gather_vector h.second] at k1
    rw [k1, k2]
    simp only
    generalize (⟨p, q, conv⟩ : Converter).trace fi fo (st.mem.vals x) = T at *
    cases agJac ((⟨p, q, conv⟩ : Converter).valueAt fi fo) (st.mem.vals x) with
    | error e => exact ⟨two T hcv h1, rfl⟩
    | ok J =>
      simp only
      cases r1 : (LRVB.setPar T.parIn (st.mem.vals x) fi).2 with
      | some e => rw [r1] at e2; rw [outcome_error e2]; exact ⟨two T hcv h2, rfl⟩
      | none =>
        rw [r1] at e2
        rw [outcome_ok e2]
        have ky : ∀ k ∈ y, k < ((c.trace depth (st.getVector depth c.parOut).1 fi fo x).setPar depth c.parIn x fi).1.mem.next :=
          fun k hk => lt_of_lt_of_le (g1.alive k6 k hk) l2.1
        obtain ⟨h3, e3, -⟩ := h2.setPar2 ky false
        rw [(g1.le.trans l2).vals k6, k5] at h3 e3
        have hs3 : ∀ s : Store, s.setPar depth c.parOut y false = Store.setVector depth s c.parOut y := fun s => rfl
        have hs4 : ∀ s : Param, LRVB.setPar s v false = s.setVector v := fun s => rfl
        rw [hs3, hs4] at h3 e3
        have hbx : st.hasBox depth c.parOut = q.hasBox := by simp only [Store.hasBox, h.second]
        have g2 := (g0.trans g1).trans (setPar_grow (depth := depth) (i := c.parIn) fi ((g0.trans g1).alive hx))
        have g3 := g2.trans (visit_change vecVisit_sim.tame depth _ c.parOut y ky).grow
        have h4 := h3.box_ite2 (F := st.foot depth c.parOut) (by rw [← g3.skel.foot]; rfl) (st.hasBox depth c.parOut)
        rw [hbx] at h4
        simp only [hbx]
        cases r2 : (T.parOut.setVector v).2 with
        | some e => rw [r2] at e3; rw [outcome_error e3]; exact ⟨two T hcv h4, rfl⟩
        | none => rw [r2] at e3; rw [outcome_ok e3]; exact ⟨two T hcv h4, rfl⟩
  · rw [gather_vector h.second] at k1
    rw [k1, k2]
    exact ⟨h0.convView, rfl⟩

/-! ### The structure of contents -/

private theorem treeEntries_blank {f g : ℕ → Option Param} :
    ∀ {es : List (String × ℕ)} {a b : Entries}, (∀ c p q, f c = some p → g c = some q → q.blank = p.blank) →
      treeEntries f es = some a → treeEntries g es = some b → b.blank = a.blank
  | [], a, b, _, ha, hb => by cases ha; cases hb; rfl
  | (k, c) :: rest, a, b, h, ha, hb => by
    unfold treeEntries at ha hb
    cases hf : f c with
    | none => rw [hf] at ha; cases ha
    | some p =>
      cases hg : g c with
      | none => rw [hg] at hb; cases hb
      | some q =>
        cases hr : treeEntries f rest with
        | none => rw [hf, hr] at ha; cases ha
        | some r =>
          cases hs : treeEntries g rest with
          | none => rw [hg, hs] at hb; cases hb
          | some s =>
            rw [hf, hr] at ha
            rw [hg, hs] at hb
            cases ha
            cases hb
            simp only [Entries.blank]
            rw [h c p q hf hg, treeEntries_blank h hr hs]

theorem Store.Skel.blank {st st' : Store} (h : st.Skel st') :
    ∀ {d i : ℕ} {p q : Param}, st.tree d i = some p → st'.tree d i = some q → q.blank = p.blank
  | 0, _, _, _, hp, _ => by cases hp
  | d + 1, i, p, q, hp, hq => by
    unfold Store.tree at hp hq
    cases hi : st.objs[i]? with
    | none => rw [hi] at hp; cases hp
    | some o =>
      cases o with
      | leaf l =>
        obtain ⟨l', h1, h2, h3⟩ := h.leaf hi
        rw [hi] at hp
        rw [h1] at hq
        cases hp
        cases hq
        exact Param.blank_leaf h3 h2
      | dict hd es =>
        rw [hi] at hp
        rw [h.dict hi] at hq
        simp only [Option.map_eq_some_iff] at hp hq
        obtain ⟨a, ha, rfl⟩ := hp
        obtain ⟨b, hb, rfl⟩ := hq
        simp only [Param.blank]
        rw [treeEntries_blank (fun c p q => Store.Skel.blank h) ha hb]

/-! ### Programs -/

theorem pevent_wf {depth : ℕ} {st : Store} (h : st.WF) (e : PEvent A) (ok : e.Ok depth st) : (e.run depth st).WF := by
  cases e with
  | two o m c => exact (twoRun_grow o c m ok).wf h
  | convert c fi fo x => exact (convert_grow ok.1 h fi fo ok.2).wf h
  | jacobian c fi fo x => exact (convJac_grow ok.1 h fi fo ok.2).wf h
  | other e => exact (event_le h e ok).2

theorem PReached.wf {depth : ℕ} {st : Store} (h : PReached A depth st) : st.WF := by
  induction h with
  | start cell => intro i l hl; simp at hl
  | step h e ok ih => exact pevent_wf ih e ok

theorem Reached.preached {depth : ℕ} {st : Store} (h : Reached depth st) : PReached A depth st := by
  induction h with
  | start cell => exact .start cell
  | step h e ok ih => exact .step ih (.other e) ok

end

end LRVB
