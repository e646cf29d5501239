import Verif.Lemmas.HeapTwo
import Verif.Props.HeapObj
import Verif.Props.Converter

/-!
# C117-C118: two-parameter objectives and converters that hold references
-/

namespace LRVB

open Classical Flt

noncomputable section

variable {A : Type}

/-! ### C117 -/

/-- **C117** (nothing is written) No call of a two-parameter objective, whether it returns or raises, and
whatever the parameters share, changes an array that existed before. -/
theorem C117_arrays_unchanged {depth : ℕ} {st : Store} (_h : PReached A depth st) (o : HTwo A) (m : TMethod)
    (c : TCall A) (ok : c.Ok st) (r : Ref) (hr : r.Alive st.mem) :
    (o.run depth st c m).1.mem.read r = st.mem.read r :=
  (twoRun_grow o c m ok).le.read hr

/-- **C117** (one call, partial) If the two parameters have no object in common, a call returns and leaves
behind what the model without references says.  Missing: parameters with common objects, for which the
claim is false (`C117_counterexample`). -/
theorem C117_call_partial {depth : ℕ} {st : Store} (h : PReached A depth st) (o : HTwo A) {v : TwoObjective A}
    (hv : o.view depth st = some v) (ha : st.Apart depth o.par1 o.par2) (m : TMethod) (c : TCall A) (ok : c.Ok st) :
    o.view depth (o.run depth st c m).1 =
        some (v.run (st.mem.vals c.x1) (st.mem.vals c.x2) c.free1 c.free2 c.a m).1 ∧
      (o.run depth st c m).2 = (v.run (st.mem.vals c.x1) (st.mem.vals c.x2) c.free1 c.free2 c.a m).2 := by
  obtain ⟨h1, h2, h3⟩ := two_view.1 hv
  have := twoRun_refine ⟨h.wf, h1, h2, ha⟩ c m ok
  rwa [show (⟨v.par1, v.par2, o.fn⟩ : TwoObjective A) = v by rw [h3]] at this

private theorem cacheAndEval_state {β : Type} (o : TwoObjective A) {y1 y2 : List ℝ} {f1 f2 t1 t2 : Bool} {ag : Py β}
    {v : β} (h : (o.cacheAndEval y1 y2 f1 f2 t1 t2 ag).2 = .ok v) :
    ∃ p q, p.blank = o.par1.blank ∧ q.blank = o.par2.blank ∧ (setPar p y1 f1).2 = none ∧ (setPar q y2 f2).2 = none ∧
      (o.cacheAndEval y1 y2 f1 f2 t1 t2 ag).1.par1 = (setPar p y1 f1).1 ∧
      (o.cacheAndEval y1 y2 f1 f2 t1 t2 ag).1.par2 = (setPar q y2 f2).1 := by
  have b : (o.trace y1 y2 f1 f2 t1 t2).par1.blank = o.par1.blank ∧
      (o.trace y1 y2 f1 f2 t1 t2).par2.blank = o.par2.blank := by
    unfold TwoObjective.trace
    simp only
    split
    · exact ⟨setPar_blank _ _ _, rfl⟩
    · split
      · refine ⟨?_, setPar_blank _ _ _⟩
        split
        · rw [Param.mark_blank, setPar_blank]
        · exact setPar_blank _ _ _
      · refine ⟨?_, ?_⟩ <;> cases t1 <;> cases t2 <;> simp [Param.mark_blank, setPar_blank]
  unfold TwoObjective.cacheAndEval at h ⊢
  simp only at h ⊢
  cases ag with
  | error e => cases h
  | ok w =>
    simp only at h ⊢
    cases r1 : (setPar (o.trace y1 y2 f1 f2 t1 t2).par1 y1 f1).2 with
    | some e => rw [r1] at h; cases h
    | none =>
      rw [r1] at h
      simp only at h ⊢
      cases r2 : (setPar (o.trace y1 y2 f1 f2 t1 t2).par2 y2 f2).2 with
      | some e => rw [r2] at h; cases h
      | none => exact ⟨_, _, b.1, b.2, r1, r2, rfl, rfl⟩

private theorem run_state (o : TwoObjective A) {y1 y2 : List ℝ} {f1 f2 : Bool} {a : A} {m : TMethod} {w : Arr}
    (h : (o.run y1 y2 f1 f2 a m).2 = .ok w) :
    setPar o.par1 y1 f1 = ((o.run y1 y2 f1 f2 a m).1.par1, none) ∧
      setPar o.par2 y2 f2 = ((o.run y1 y2 f1 f2 a m).1.par2, none) := by
  have key : ∀ {β : Type} {t1 t2 : Bool} {ag : Py β} {v : β}, (o.cacheAndEval y1 y2 f1 f2 t1 t2 ag).2 = .ok v →
      setPar o.par1 y1 f1 = ((o.cacheAndEval y1 y2 f1 f2 t1 t2 ag).1.par1, none) ∧
        setPar o.par2 y2 f2 = ((o.cacheAndEval y1 y2 f1 f2 t1 t2 ag).1.par2, none) := by
    intro β t1 t2 ag v hv
    obtain ⟨p, q, b1, b2, s1, s2, e1, e2⟩ := cacheAndEval_state o hv
    have k1 := setPar_eq b1 s1
    have k2 := setPar_eq b2 s2
    rw [e1, e2, k1, k2]
    exact ⟨Prod.ext rfl s1, Prod.ext rfl s2⟩
  cases m with
  | eval =>
    obtain ⟨s1, s2⟩ := TwoObjective.evalFun_ok h
    simp only [TwoObjective.run, TwoObjective.evalFun, s1, s2]
    exact ⟨Prod.ext rfl s1, Prod.ext rfl s2⟩
  | grad1 =>
    simp only [TwoObjective.run, TwoObjective.funGrad1] at h ⊢
    cases hv : (o.cacheAndEval y1 y2 f1 f2 true false (TwoObjective.agGrad1 (o.valueAt f1 f2 a) y1 y2)).2 with
    | error e => rw [hv] at h; cases h
    | ok v => exact key hv
  | grad2 =>
    simp only [TwoObjective.run, TwoObjective.funGrad2] at h ⊢
    cases hv : (o.cacheAndEval y1 y2 f1 f2 false true (TwoObjective.agGrad2 (o.valueAt f1 f2 a) y1 y2)).2 with
    | error e => rw [hv] at h; cases h
    | ok v => exact key hv
  | hessian12 => exact key h
  | hessian21 => exact key h

/-- **C117** (state, partial) If the two parameters have no object in common, then after a call that
returned, each of them contains its argument, and what an evaluation returned is the user's function of
these contents.  Missing: parameters with common objects, for which the claim is false. -/
theorem C117_state_partial {depth : ℕ} {st : Store} (h : PReached A depth st) (o : HTwo A) {p q : Param}
    (hp : st.tree depth o.par1 = some p) (hq : st.tree depth o.par2 = some q) (ha : st.Apart depth o.par1 o.par2)
    (m : TMethod) (c : TCall A) (ok : c.Ok st) {w : Arr} (hw : (o.run depth st c m).2 = .ok w) :
    ∃ p' q', setPar p (st.mem.vals c.x1) c.free1 = (p', none) ∧ setPar q (st.mem.vals c.x2) c.free2 = (q', none) ∧
      (o.run depth st c m).1.tree depth o.par1 = some p' ∧ (o.run depth st c m).1.tree depth o.par2 = some q' ∧
      (m = .eval → o.fn c.a p' q' = .ok w) := by
  obtain ⟨h1, h2⟩ := C117_call_partial h o (v := ⟨p, q, o.fn⟩) (two_view.2 ⟨hp, hq, rfl⟩) ha m c ok
  rw [h2] at hw
  obtain ⟨s1, s2⟩ := run_state _ hw
  obtain ⟨t1, t2, -⟩ := two_view.1 h1
  refine ⟨_, _, s1, s2, t1, t2, ?_⟩
  rintro rfl
  simp only at s1 s2
  have e1 := congrArg Prod.snd s1
  have e2 := congrArg Prod.snd s2
  have p1 := setPar_plain _ _ _ e1
  have p2 := setPar_plain _ _ _ e2
  simp only [TwoObjective.run, TwoObjective.evalFun, e1, e2, Param.mark_plain _ p1,
    Param.mark_plain _ p2] at hw ⊢
  exact hw

/-- What a sequence of calls returns and leaves behind. -/
def runTwo (depth : ℕ) (o : HTwo A) (st : Store) : List (TMethod × TCall A) → Store × List (Py Arr)
  | [] => (st, [])
  | c :: cs => ((runTwo depth o (o.run depth st c.2 c.1).1 cs).1,
      (o.run depth st c.2 c.1).2 :: (runTwo depth o (o.run depth st c.2 c.1).1 cs).2)

/-- The same in the model without references. -/
def runTwoValue (val : List ℕ → List ℝ) (o : TwoObjective A) :
    List (TMethod × TCall A) → TwoObjective A × List (Py Arr)
  | [] => (o, [])
  | (m, c) :: cs => ((runTwoValue val (o.run (val c.x1) (val c.x2) c.free1 c.free2 c.a m).1 cs).1,
      (o.run (val c.x1) (val c.x2) c.free1 c.free2 c.a m).2 ::
        (runTwoValue val (o.run (val c.x1) (val c.x2) c.free1 c.free2 c.a m).1 cs).2)

private theorem runTwoValue_congr {val val' : List ℕ → List ℝ} :
    ∀ (cs : List (TMethod × TCall A)) (o : TwoObjective A),
      (∀ c ∈ cs, val' c.2.x1 = val c.2.x1 ∧ val' c.2.x2 = val c.2.x2) → runTwoValue val' o cs = runTwoValue val o cs
  | [], _, _ => rfl
  | (m, c) :: cs, o, h => by
    have hc := h (m, c) (by simp)
    simp only at hc
    simp only [runTwoValue, hc.1, hc.2, runTwoValue_congr cs _ fun c' hc' => h c' (List.mem_cons_of_mem _ hc')]

/-- **C117** (sequences, partial) The same for every sequence of calls. -/
theorem C117_calls_partial {depth : ℕ} (o : HTwo A) :
    ∀ (cs : List (TMethod × TCall A)) {st : Store} (_ : PReached A depth st) {v : TwoObjective A}
      (_ : o.view depth st = some v) (_ : st.Apart depth o.par1 o.par2) (_ : ∀ c ∈ cs, c.2.Ok st),
    o.view depth (runTwo depth o st cs).1 = some (runTwoValue st.mem.vals v cs).1 ∧
      (runTwo depth o st cs).2 = (runTwoValue st.mem.vals v cs).2
  | [], _, _, _, hv, _, _ => ⟨hv, rfl⟩
  | (m, c) :: cs, st, h, v, hv, ha, ok => by
    have okc := ok (m, c) (by simp)
    have hg := twoRun_grow (depth := depth) o c m okc
    obtain ⟨h1, h2⟩ := C117_call_partial h o hv ha m c okc
    have ok' : ∀ c' ∈ cs, c'.2.Ok (o.run depth st c m).1 := fun c' hc' =>
      ⟨(ok c' (List.mem_cons_of_mem _ hc')).1.mono hg.le, (ok c' (List.mem_cons_of_mem _ hc')).2.mono hg.le⟩
    obtain ⟨h3, h4⟩ := C117_calls_partial o cs (.step h (.two o m c) okc) h1 (apart_skel ha hg.skel) ok'
    have he : ∀ v' : TwoObjective A, runTwoValue (o.run depth st c m).1.mem.vals v' cs = runTwoValue st.mem.vals v' cs :=
      fun v' => runTwoValue_congr cs v' fun c' hc' =>
        ⟨hg.le.vals (ok c' (List.mem_cons_of_mem _ hc')).1, hg.le.vals (ok c' (List.mem_cons_of_mem _ hc')).2⟩
    simp only [PEvent.run] at h3 h4
    rw [he] at h3 h4
    simp only [runTwo, runTwoValue]
    exact ⟨h3, by rw [h2, h4]⟩

/-- An objective on the entries of `exStore`: its parameters are the scalar and the inner dictionary. -/
def exTwoHeap : HTwo Unit := ⟨0, 3, fun _ p q => do
  let y ← p.getVector
  let z ← q.getVector
  .ok (Arr.scalar (y.sum * z.sum))⟩

/-- The calls: `eval_fun` and `fun_hessian_free1_vector2` with slices of the array `[1, 2, 3]`. -/
def exTwoCalls : List (TMethod × TCall Unit) :=
  [(.eval, ⟨[3], [4, 5], false, false, ()⟩), (.hessian12, ⟨[3], [4, 5], true, false, ()⟩)]

example : PReached Unit 3 exStore ∧ (∃ v, exTwoHeap.view 3 exStore = some v) ∧
    exStore.Apart 3 exTwoHeap.par1 exTwoHeap.par2 ∧ (∀ c ∈ exTwoCalls, c.2.Ok exStore) ∧
    (∃ w, (exTwoHeap.run 3 exStore ⟨[3], [4, 5], false, false, ()⟩ .eval).2 = .ok w) ∧
    ∃ r : Ref, r.Alive exStore.mem ∧ r.addr ≠ [] := by
  refine ⟨exStore_reached.preached, ?_, ?_, ?_, ?_, Ref.vec [3, 4, 5], exStore_alive.1, by simp [Ref.vec]⟩
  · obtain ⟨m, h, -⟩ := exStore_eq
    rw [h]
    simp [HTwo.view, exTwoHeap, Store.tree, treeEntries]
  · obtain ⟨m, h, -⟩ := exStore_eq
    rw [h]
    simp [Store.Apart, exTwoHeap, Store.foot]
  · obtain ⟨m, h, h1, -⟩ := exStore_eq
    rw [h]
    simp [exTwoCalls, TCall.Ok, Ref.Alive, Ref.vec, h1]
  · obtain ⟨m, h, -⟩ := exStore_eq
    rw [h]
    simp [HTwo.run, exTwoHeap, HTwo.evalFun, HTwo.callFn, Store.setPar, Store.setVector, Store.visit, Store.vecVisit,
      Store.visitEntries, HLeaf.setVector, HLeaf.set, HLeaf.view, Leaf.set, Store.tree, treeEntries, Ref.slice,
      Obj.vecSize, Kind.vecSize, Mem.read, Mem.vals, Ref.vec, Arr.size, Param.mark, Entries.mark, Param.getVector,
      Leaf.getVector, py_ok_bind, Param.getVectorEntries, Arr.hstack]

/-- A program that makes one parameter of size 1 and two arrays. -/
def oneProgram (u v : ℝ) : List Event :=
  [.call (.newParam (mkVector "a" 1 ninf pinf) none), .newArray (Arr.vec [u]), .newArray (Arr.vec [v])]

theorem oneProgram_store (depth : ℕ) (u v : ℝ) :
    Reached depth (runEvents depth emptyStore (oneProgram u v)) ∧
    ∃ m, runEvents depth emptyStore (oneProgram u v) = ⟨m, [.leaf ⟨"a", .vector 1 ninf pinf, ⟨[1], [0]⟩, false⟩]⟩ ∧
      m.next = 3 ∧ m.cell 0 = 0 ∧ m.cell 1 = u ∧ m.cell 2 = v := by
  have hm : mkVector "a" 1 ninf pinf none = .ok ⟨"a", .vector 1 ninf pinf, Arr.full [1] 0, false⟩ := by
    simp [mkVector, checkBoundsVector, Leaf.set, Arr.full, Arr.size, getInboundsValue, Flt.toReal, py_ok_bind]
  refine ⟨(emptyStore_reached _).run _ (by simp [oneProgram, okEvents, Event.Ok, Call.args]),
    (((Mem.alloc ⟨0, fun _ => 0⟩ (Arr.full [1] 0)).1.alloc (Arr.vec [u])).1.alloc (Arr.vec [v])).1, ?_, ?_⟩
  · simp only [oneProgram, runEvents, Event.run, Call.run, Store.newParam, hm, emptyStore, List.nil_append, Mem.alloc]
    simp [Arr.full]
  · simp [Mem.alloc, Arr.full, Arr.vec]

/-- An objective that was given the same parameter twice, with a user function that returns both vectors. -/
def bothTwo : HTwo Unit := ⟨0, 0, fun _ p q => do
  let y ← p.getVector
  let z ← q.getVector
  .ok (Arr.vec (y ++ z))⟩

/-- **C117** (counterexample) An objective whose two parameters are one object, evaluated at the arrays
`[u]` and `[v]`: the user's function sees `v` in both places, and the first parameter contains `v`. -/
theorem C117_counterexample (d : ℕ) (u v : ℝ) :
    let st := runEvents (d + 1) emptyStore (oneProgram u v)
    let r := bothTwo.run (d + 1) st ⟨[1], [2], false, false, ()⟩ .eval
    PReached Unit (d + 1) st ∧ (TCall.mk [1] [2] false false ()).Ok st ∧ st.mem.vals [1] = [u] ∧ st.mem.vals [2] = [v] ∧
      r.2 = .ok (Arr.vec [v, v]) ∧ r.1.gather Leaf.getVector (d + 1) bothTwo.par1 = .ok [v] := by
  obtain ⟨hr, m, hs, hn, h0, h1, h2⟩ := oneProgram_store (d + 1) u v
  simp only
  refine ⟨hr.preached, ?_⟩
  rw [hs]
  refine ⟨by simp [TCall.Ok, Ref.Alive, Ref.vec, hn], by simp [Mem.vals, h1], by simp [Mem.vals, h2], ?_⟩
  simp [HTwo.run, bothTwo, HTwo.evalFun, HTwo.callFn, Store.setPar, Store.setVector, Store.visit, Store.vecVisit,
    HLeaf.setVector, HLeaf.set, Leaf.set, Store.tree, HLeaf.view, Ref.vec, Mem.read, Mem.vals, h2, Param.mark,
    Param.getVector, Leaf.getVector, py_ok_bind, Arr.size, Store.gather]

/-! ### C118 -/

/-- **C118** (nothing is written) No conversion and no Jacobian, whether it returns or raises, changes an
array that existed before, if the user's converter does not. -/
theorem C118_arrays_unchanged {depth : ℕ} {st : Store} (h : PReached A depth st) (c : HConverter)
    (hc : c.Assigns depth) (freeIn freeOut : Bool) (x : List ℕ) (hx : (Ref.vec x).Alive st.mem) (r : Ref)
    (hr : r.Alive st.mem) :
    (c.convert depth st freeIn freeOut x).1.mem.read r = st.mem.read r ∧
      (c.jacobian depth st freeIn freeOut x).1.mem.read r = st.mem.read r :=
  ⟨(convert_grow hc h.wf freeIn freeOut hx).le.read hr, (convJac_grow hc h.wf freeIn freeOut hx).le.read hr⟩

variable {conv : Param → Param → Param × Option PyErr}

/-- **C118** (one call, partial) If the two parameters have no object in common, a conversion and a Jacobian
return and leave behind what the model without references says.  Missing: parameters with common objects,
for which the claim is false (`C118_counterexample`). -/
theorem C118_call_partial {depth : ℕ} {st : Store} (h : PReached A depth st) (c : HConverter)
    (hc : c.Assigns depth) (hd : c.Describes depth conv) {v : Converter} (hv : c.view depth conv st = some v)
    (ha : st.Apart depth c.parIn c.parOut) (freeIn freeOut : Bool) (x : List ℕ) (hx : (Ref.vec x).Alive st.mem) :
    (c.view depth conv (c.convert depth st freeIn freeOut x).1 =
        some (v.convert freeIn freeOut (st.mem.vals x)).1 ∧
      (c.convert depth st freeIn freeOut x).1.mem.vals <$> (c.convert depth st freeIn freeOut x).2 =
        (v.convert freeIn freeOut (st.mem.vals x)).2) ∧
    c.view depth conv (c.jacobian depth st freeIn freeOut x).1 =
        some (v.jacobian freeIn freeOut (st.mem.vals x)).1 ∧
      (c.jacobian depth st freeIn freeOut x).2 = (v.jacobian freeIn freeOut (st.mem.vals x)).2 := by
  obtain ⟨p, q, f⟩ := v
  obtain ⟨h1, h2, rfl⟩ := conv_view.1 hv
  have hp : Duo depth st c.parIn c.parOut p q := ⟨h.wf, h1, h2, ha⟩
  replace hx : ∀ k ∈ x, k < st.mem.next := hx
  obtain ⟨k1, k2⟩ := convert_refine hc hd hp freeIn freeOut hx
  refine ⟨⟨?_, k2⟩, convJac_refine hc hd hp freeIn freeOut hx⟩
  rw [k1.convView]
  have : ((⟨p, q, conv⟩ : Converter).convert freeIn freeOut (st.mem.vals x)).1.conv = conv := by
    unfold Converter.convert
    simp only
    cases (setPar p (st.mem.vals x) freeIn).2 with
    | some e => rfl
    | none =>
      simp only
      cases (conv ((setPar p (st.mem.vals x) freeIn).1.mark false) q).2 <;> rfl
  exact congrArg some (by
    generalize (⟨p, q, conv⟩ : Converter).convert freeIn freeOut (st.mem.vals x) = r at this
    obtain ⟨⟨a, b, c⟩, e⟩ := r
    simp only at this
    rw [this])

/-- **C118** (state, partial) If the two parameters have no object in common, then after a Jacobian that
returned, the input parameter contains the argument and the output parameter has the vector it had
before, as plain numbers if it held plain numbers.  Missing: parameters with common objects, for which the claim is false. -/
theorem C118_state_partial {depth : ℕ} {st : Store} (h : PReached A depth st) (c : HConverter)
    (hc : c.Assigns depth) (hd : c.Describes depth conv) {p q : Param} (hp : st.tree depth c.parIn = some p)
    (hq : st.tree depth c.parOut = some q) (ha : st.Apart depth c.parIn c.parOut) (freeIn freeOut : Bool)
    (x : List ℕ) (hx : (Ref.vec x).Alive st.mem) {J : Arr} (hJ : (c.jacobian depth st freeIn freeOut x).2 = .ok J) :
    ∃ p' q' q'' w, setPar p (st.mem.vals x) freeIn = (p', none) ∧ q.getVector = .ok w ∧ q.setVector w = (q', none) ∧
      q''.mark false = q' ∧ (q.Plain → q'' = q') ∧
      (c.jacobian depth st freeIn freeOut x).1.tree depth c.parIn = some p' ∧
      (c.jacobian depth st freeIn freeOut x).1.tree depth c.parOut = some q'' := by
  obtain ⟨-, h1, h2⟩ := C118_call_partial h c hc hd (v := ⟨p, q, conv⟩) (conv_view.2 ⟨hp, hq, rfl⟩) ha freeIn freeOut x hx
  rw [h2] at hJ
  obtain ⟨t1, t2, -⟩ := conv_view.1 h1
  replace hx : ∀ k ∈ x, k < st.mem.next := hx
  -- the converter keeps the structure of the output parameter, because its program does
  have g0 := (getVector_change (depth := depth) h.wf c.parOut).grow
  have hg := g0.trans (convTrace_grow hc (g0.wf h.wf) freeIn freeOut (g0.alive hx))
  have hP : Duo depth st c.parIn c.parOut p q := ⟨h.wf, hp, hq, ha⟩
  have h0 := hP.same (getVector_change (depth := depth) h.wf c.parOut)
  have hT := convTrace_refine hc hd h0 freeIn freeOut (g0.alive hx)
  rw [g0.le.vals hx] at hT
  have bIn := (hg.skel.blank hp hT.first)
  have bOut := (hg.skel.blank hq hT.second)
  unfold Converter.jacobian at hJ t1 t2
  simp only at hJ t1 t2
  cases hw : q.getVector with
  | error e => rw [hw] at hJ; cases hJ
  | ok w =>
    rw [hw] at hJ t1 t2
    simp only at hJ t1 t2
    generalize (⟨p, q, conv⟩ : Converter).trace freeIn freeOut (st.mem.vals x) = T at *
    cases hj : agJac ((⟨p, q, conv⟩ : Converter).valueAt freeIn freeOut) (st.mem.vals x) with
    | error e => rw [hj] at hJ; cases hJ
    | ok J' =>
      rw [hj] at hJ t1 t2
      simp only at hJ t1 t2
      cases r1 : (setPar T.parIn (st.mem.vals x) freeIn).2 with
      | some e => rw [r1] at hJ; cases hJ
      | none =>
        rw [r1] at hJ t1 t2
        simp only at hJ t1 t2
        cases r2 : (T.parOut.setVector w).2 with
        | some e => rw [r2] at hJ; cases hJ
        | none =>
          have e1 := setPar_eq bIn r1
          have e2 := setPar_eq (free := false) bOut r2
          simp only [setPar, Bool.false_eq_true, if_false] at e2
          have hpl := Param.setVector_plain T.parOut w r2
          refine ⟨_, (T.parOut.setVector w).1, _, w, ?_, rfl, ?_, ?_, fun hq => ?_, t1, t2⟩
          · rw [e1]; exact Prod.ext rfl r1
          · rw [e2]; exact Prod.ext rfl r2
          · split
            · rw [Param.mark_mark, Param.mark_plain _ hpl]
            · exact Param.mark_plain _ hpl
          · rw [Param.hasBox_plain.2 hq]; rfl

/-- The converter `par_out.set_vector(par_in.get_vector())`: afterwards both parameters may hold the same
array. -/
def copyConv (depth i j : ℕ) : HConverter := ⟨i, j, fun st =>
  match (st.getVector depth i).2 with
  | .error e => ((st.getVector depth i).1, .error e)
  | .ok y => (st.getVector depth i).1.setVector depth j y⟩

/-- What it does to values. -/
def copyValue (p q : Param) : Param × Option PyErr :=
  match p.getVector with
  | .error e => (q, some e)
  | .ok v => q.setVector v

mutual
private theorem getVector_mark (b : Bool) : ∀ p : Param, (p.mark b).getVector = p.getVector
  | .leaf l => rfl
  | .dict h es => by
    simp only [Param.mark, Param.getVector]
    rw [getVectorEntries_mark b es]
private theorem getVectorEntries_mark (b : Bool) :
    ∀ es : Entries, Param.getVectorEntries (es.mark b) = Param.getVectorEntries es
  | .nil => rfl
  | .cons k p rest => by
    simp only [Entries.mark, Param.getVectorEntries]
    rw [getVector_mark b p, getVectorEntries_mark b rest]
end

theorem copyConv_assigns (depth i j : ℕ) : (copyConv depth i j).Assigns depth := by
  refine .of_change fun st hs => ?_
  have hc := (getVector_change (depth := depth) hs i)
  unfold copyConv
  simp only
  cases hy : (st.getVector depth i).2 with
  | error e => exact hc.mono (by simp)
  | ok y =>
    have h2 := visit_change vecVisit_sim.tame depth (st.getVector depth i).1 j y (getVector_alive hs hy)
    rw [hc.skel.foot] at h2
    exact (hc.mono (by simp)).trans h2

theorem copyConv_describes (depth i j : ℕ) : (copyConv depth i j).Describes depth copyValue := by
  intro st p q hs ha hp hq
  change st.tree depth i = some p at hp
  have hc := getVector_change (depth := depth) hs i
  have h0 : Duo depth (st.getVector depth i).1 i j p q :=
    (show Duo depth st i j p q from ⟨hs, hp, hq, ha⟩).same hc
  unfold copyConv copyValue
  simp only
  rw [getVector_mark]
  rcases store_getVector (depth := depth) (i := i) hs with ⟨y, v, k1, k2, -, -, k5, k6⟩ | ⟨e, k1, k2, -⟩
  · rw [gather_vector hp] at k1
    rw [k1, k2]
    simp only
    obtain ⟨h1, h2, -⟩ := h0.setPar2 k6 false
    rw [k5] at h1 h2
    exact ⟨h1.second, h2⟩
  · rw [gather_vector hp] at k1
    rw [k1, k2]
    exact ⟨h0.second, rfl⟩

/-- A program that makes two parameters of size 1 and an array. -/
def pairProgram (u : ℝ) : List Event :=
  [.call (.newParam (mkVector "a" 1 ninf pinf) none), .call (.newParam (mkVector "b" 1 ninf pinf) none),
    .newArray (Arr.vec [u])]

theorem pairProgram_store (depth : ℕ) (u : ℝ) :
    Reached depth (runEvents depth emptyStore (pairProgram u)) ∧
    ∃ m, runEvents depth emptyStore (pairProgram u) = ⟨m, [.leaf ⟨"a", .vector 1 ninf pinf, ⟨[1], [0]⟩, false⟩,
        .leaf ⟨"b", .vector 1 ninf pinf, ⟨[1], [1]⟩, false⟩]⟩ ∧
      m.next = 3 ∧ m.cell 0 = 0 ∧ m.cell 1 = 0 ∧ m.cell 2 = u := by
  have hm : ∀ s, mkVector s 1 ninf pinf none = .ok ⟨s, .vector 1 ninf pinf, Arr.full [1] 0, false⟩ := by
    simp [mkVector, checkBoundsVector, Leaf.set, Arr.full, Arr.size, getInboundsValue, Flt.toReal, py_ok_bind]
  refine ⟨(emptyStore_reached _).run _ (by simp [pairProgram, okEvents, Event.Ok, Call.args]),
    (((Mem.alloc ⟨0, fun _ => 0⟩ (Arr.full [1] 0)).1.alloc (Arr.full [1] 0)).1.alloc (Arr.vec [u])).1, ?_, ?_⟩
  · simp only [pairProgram, runEvents, Event.run, Call.run, Store.newParam, hm, emptyStore, List.nil_append, Mem.alloc]
    simp [Arr.full]
  · simp [Mem.alloc, Arr.full, Arr.vec]

example (d : ℕ) (u : ℝ) : ∃ st : Store, PReached Unit (d + 1) st ∧ (copyConv (d + 1) 0 1).Assigns (d + 1) ∧
    (copyConv (d + 1) 0 1).Describes (d + 1) copyValue ∧
    (∃ v, (copyConv (d + 1) 0 1).view (d + 1) copyValue st = some v) ∧ st.Apart (d + 1) 0 1 ∧
    (Ref.vec [2]).Alive st.mem ∧ st.mem.vals [2] = [u] ∧
    ∃ J, ((copyConv (d + 1) 0 1).jacobian (d + 1) st false false [2]).2 = .ok J := by
  obtain ⟨hr, m, hs, hn, h0, h1, h2⟩ := pairProgram_store (d + 1) u
  rw [hs] at hr
  refine ⟨_, hr.preached, copyConv_assigns _ _ _, copyConv_describes _ _ _, ?_, ?_, ?_, ?_, ?_⟩
  · simp [HConverter.view, copyConv, Store.tree]
  · simp [Store.Apart, Store.foot]
  · simp [Ref.Alive, Ref.vec, hn]
  · simp [Mem.vals, h2]
  · simp [HConverter.jacobian, copyConv, Store.getVector, HLeaf.getVector, HLeaf.view, Leaf.getVector, py_ok_bind, agJac,
      HConverter.valueAt, HConverter.convert, HConverter.readOut, Store.newVec, Store.setPar, Store.setVector, Store.visit,
      Store.vecVisit, HLeaf.setVector, HLeaf.set, Leaf.set, Mem.read, Ref.vec, Mem.vals, Arr.size, Arr.vec, Mem.alloc,
      HConverter.trace, Store.box, Store.foot, Obj.box, Store.hasBox, Store.tree, Param.hasBox]

/-- **C118** (counterexample) A converter whose two parameters are one object that holds `[0]`: after the
Jacobian at the array `[u]` it holds `[0]`, not `[u]`. -/
theorem C118_counterexample (d : ℕ) (u v : ℝ) :
    let st := runEvents (d + 1) emptyStore (oneProgram u v)
    let c := copyConv (d + 1) 0 0
    let r := c.jacobian (d + 1) st false false [1]
    PReached Unit (d + 1) st ∧ c.Assigns (d + 1) ∧ (Ref.vec [1]).Alive st.mem ∧ st.mem.vals [1] = [u] ∧
      st.gather Leaf.getVector (d + 1) c.parIn = .ok [0] ∧ (∃ J, r.2 = .ok J) ∧
      r.1.gather Leaf.getVector (d + 1) c.parIn = .ok [0] := by
  obtain ⟨hr, m, hs, hn, h0, h1, h2⟩ := oneProgram_store (d + 1) u v
  simp only
  refine ⟨hr.preached, copyConv_assigns _ _ _, ?_⟩
  rw [hs]
  refine ⟨by simp [Ref.Alive, Ref.vec, hn], by simp [Mem.vals, h1], ?_, ?_, ?_⟩
  · simp [copyConv, Store.gather, HLeaf.view, Leaf.getVector, Mem.read, Mem.vals, h0]
  · simp [HConverter.jacobian, copyConv, Store.getVector, HLeaf.getVector, HLeaf.view, Leaf.getVector, py_ok_bind, agJac,
      HConverter.valueAt, HConverter.convert, HConverter.readOut, Store.newVec, Store.setPar, Store.setVector, Store.visit,
      Store.vecVisit, HLeaf.setVector, HLeaf.set, Leaf.set, Mem.read, Ref.vec, Mem.vals, Arr.size, Arr.vec, Mem.alloc,
      HConverter.trace, Store.box, Store.foot, Obj.box, Store.hasBox, Store.tree, Param.hasBox]
  · simp [HConverter.jacobian, copyConv, Store.getVector, HLeaf.getVector, HLeaf.view, Leaf.getVector, py_ok_bind, agJac,
      HConverter.valueAt, HConverter.convert, HConverter.readOut, Store.newVec, Store.setPar, Store.setVector, Store.visit,
      Store.vecVisit, HLeaf.setVector, HLeaf.set, Leaf.set, Mem.read, Ref.vec, Mem.vals, Arr.size, Arr.vec, Mem.alloc,
      HConverter.trace, Store.box, Store.foot, Obj.box, Store.hasBox, Store.tree, Param.hasBox, Store.gather, h0]

end

end LRVB
