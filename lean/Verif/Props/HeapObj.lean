import Verif.Lemmas.HeapHeld
import Verif.Props.Heap

/-!
# C115-C116: objectives and loggers that hold references
-/

namespace LRVB

open Classical Flt

noncomputable section

variable {A : Type}

/-! ### C115 -/

/-- **C115** (nothing is written) No call of an objective, whether it returns or raises, changes an array
that existed before. -/
theorem C115_arrays_unchanged {depth : ℕ} {w : World A} (h : OReached depth w) (c : OCall A)
    (ok : (OEvent.call c).Ok w) (r : Ref) (hr : r.Alive w.st.mem) :
    (c.run depth w).1.st.mem.read r = w.st.mem.read r :=
  (ocall_step h.wf c ok).le.read hr

/-- **C115** (one call) A call of an objective returns and leaves behind what the model without references
says, if no object occurs twice in the parameter. -/
theorem C115_call {depth : ℕ} {w : World A} (h : OReached depth w) {v : Objective A}
    (hv : w.view depth = some v) (hn : (w.st.foot depth w.o.par).Nodup) (c : OCall A)
    (ok : (OEvent.call c).Ok w) :
    (c.run depth w).1.view depth = some (c.runValue w.st.mem.vals v).1 ∧
      (c.run depth w).2 = (c.runValue w.st.mem.vals v).2 :=
  ocall_refine h.wf hv hn c ok

/-- What a sequence of calls returns and leaves behind. -/
def runCalls (depth : ℕ) (w : World A) : List (OCall A) → World A × List (Py Arr)
  | [] => (w, [])
  | c :: cs => ((runCalls depth (c.run depth w).1 cs).1, (c.run depth w).2 :: (runCalls depth (c.run depth w).1 cs).2)

/-- The same in the model without references. -/
def runCallsValue (val : List ℕ → List ℝ) (o : Objective A) : List (OCall A) → Objective A × List (Py Arr)
  | [] => (o, [])
  | c :: cs => ((runCallsValue val (c.runValue val o).1 cs).1,
      (c.runValue val o).2 :: (runCallsValue val (c.runValue val o).1 cs).2)

private theorem runValue_congr {val val' : List ℕ → List ℝ} (o : Objective A) (c : OCall A)
    (h : ∀ x, Ref.vec x ∈ c.args → val' x = val x) : c.runValue val' o = c.runValue val o := by
  cases c with
  | funFree x a v => simp only [OCall.runValue, h x (by simp [OCall.args])]
  | funVector x a => simp only [OCall.runValue, h x (by simp [OCall.args])]
  | grad f x a => cases f <;> simp only [OCall.runValue, h x (by simp [OCall.args])]
  | hessian f x a => cases f <;> simp only [OCall.runValue, h x (by simp [OCall.args])]
  | jacobian f x a => cases f <;> simp only [OCall.runValue, h x (by simp [OCall.args])]
  | hvp f x a v =>
    cases f <;> simp only [OCall.runValue, h x (by simp [OCall.args]), h v (by simp [OCall.args])]
  | funFreeCond x a v => simp only [OCall.runValue, h x (by simp [OCall.args])]
  | gradCond x a => simp only [OCall.runValue, h x (by simp [OCall.args])]
  | hessianCond x a => simp only [OCall.runValue, h x (by simp [OCall.args])]
  | hvpCond x a v => simp only [OCall.runValue, h x (by simp [OCall.args]), h v (by simp [OCall.args])]
  | initLogger => rfl

private theorem runCallsValue_congr {val val' : List ℕ → List ℝ} :
    ∀ (cs : List (OCall A)) (o : Objective A), (∀ c ∈ cs, ∀ x, Ref.vec x ∈ c.args → val' x = val x) →
      runCallsValue val' o cs = runCallsValue val o cs
  | [], _, _ => rfl
  | c :: cs, o, h => by
    unfold runCallsValue
    rw [runValue_congr o c (h c (by simp)), runCallsValue_congr cs _ fun c' hc' => h c' (by simp [hc'])]

private theorem calls_refine {depth : ℕ} :
    ∀ (cs : List (OCall A)) {w : World A} (_ : w.WF) {v : Objective A} (_ : w.view depth = some v)
      (_ : (w.st.foot depth w.o.par).Nodup) (_ : ∀ c ∈ cs, ∀ r ∈ c.args, r.Alive w.st.mem),
    (runCalls depth w cs).1.view depth = some (runCallsValue w.st.mem.vals v cs).1 ∧
      (runCalls depth w cs).2 = (runCallsValue w.st.mem.vals v cs).2
  | [], _, _, _, hv, _, _ => ⟨hv, rfl⟩
  | c :: cs, w, hwf, v, hv, hn, hc => by
    have hs := ocall_step (depth := depth) hwf c (hc c (by simp))
    obtain ⟨h1, h2⟩ := ocall_refine hwf hv hn c (hc c (by simp))
    have hc' : ∀ c' ∈ cs, ∀ r ∈ c'.args, r.Alive (c.run depth w).1.st.mem :=
      fun c' hc' r hr => (hc c' (by simp [hc']) r hr).mono hs.le
    obtain ⟨h3, h4⟩ := calls_refine cs hs.wf h1 (by rw [hs.skel.foot, hs.par]; exact hn) hc'
    have he : runCallsValue (c.run depth w).1.st.mem.vals (c.runValue w.st.mem.vals v).1 cs =
        runCallsValue w.st.mem.vals (c.runValue w.st.mem.vals v).1 cs :=
      runCallsValue_congr cs _ fun c' hc'' x hx => hs.le.vals (hc c' (by simp [hc'']) _ hx)
    rw [he] at h3 h4
    unfold runCalls runCallsValue
    exact ⟨h3, by rw [h2, h4]⟩

/-- **C115** (sequences) The same for every sequence of calls. -/
theorem C115_calls {depth : ℕ} {w : World A} (h : OReached depth w) {v : Objective A}
    (hv : w.view depth = some v) (hn : (w.st.foot depth w.o.par).Nodup) (cs : List (OCall A))
    (ok : ∀ c ∈ cs, (OEvent.call c).Ok w) :
    (runCalls depth w cs).1.view depth = some (runCallsValue w.st.mem.vals v cs).1 ∧
      (runCalls depth w cs).2 = (runCallsValue w.st.mem.vals v cs).2 :=
  calls_refine cs h.wf hv hn ok

/-- An objective on the dictionary of `exStore`, with a user function that returns a number. -/
def exWorld : World Unit := World.new exStore 2 fun _ p => (fun y => Arr.scalar y.sum) <$> p.getVector

theorem exWorld_reached : OReached 3 exWorld := .start exStore_reached _ _

example : ∃ (w : World Unit) (v : Objective Unit) (cs : List (OCall Unit)), OReached 3 w ∧ w.view 3 = some v ∧
    (w.st.foot 3 w.o.par).Nodup ∧ cs.length = 3 ∧ (∀ c ∈ cs, (OEvent.call c).Ok w) ∧
    ∃ r : Ref, r.Alive w.st.mem ∧ r.addr ≠ [] := by
  refine ⟨exWorld, ⟨exDict, exWorld.o.fn, none, exWorld.o.logger.view exStore.mem⟩,
    [.funFree [3, 4, 5] () true, .grad true [3, 4, 5] (), .hvp false [3, 4, 5] () [3, 4, 5]],
    exWorld_reached, ?_, ?_, rfl, ?_, ⟨Ref.vec [3, 4, 5], exStore_alive.1, by simp [Ref.vec]⟩⟩
  · unfold World.view exWorld World.new
    simp only [exStore_tree, Option.map_some, Option.map_none]
  · change (exStore.foot 3 2).Nodup
    rw [exStore_foot]
    decide
  · intro c hc
    simp only [List.mem_cons, List.not_mem_nil, or_false] at hc
    rcases hc with rfl | rfl | rfl <;> intro r hr <;> simp only [OCall.args, List.mem_cons, List.not_mem_nil, or_false, or_self] at hr <;>
      rw [hr] <;> exact exStore_alive.1

/-! ### C116 -/

/-- What `x_array` shows now. -/
def World.history (w : World A) : List (List ℝ) := w.o.logger.xArray.map w.st.mem.vals

private theorem runO_append (depth : ℕ) (es es' : List (OEvent A)) :
    ∀ w : World A, runO depth w (es ++ es') = runO depth (runO depth w es) es' := by
  induction es with
  | nil => intro w; rfl
  | cons e es ih => intro w; exact ih _

private theorem funFree_logs {depth : ℕ} {w : World A} {x : List ℕ} {a : A} {v : Arr}
    (hok : (w.funFree depth x a true).2 = .ok v) :
    (w.funFree depth x a true).1.o.logger.xArray = w.o.logger.xArray ++ [x] := by
  unfold World.funFree at hok ⊢
  simp only at hok ⊢
  generalize w.st.setFree depth w.o.par x = s at hok ⊢
  obtain ⟨s, r⟩ := s
  cases r with
  | error e => cases hok
  | ok u =>
    simp only at hok ⊢
    cases hc : World.callFn depth s w.o a with
    | error e => rw [hc] at hok; cases hok
    | ok v' => exact (hlog_keeps s.mem w.o.logger v' x).2.2

/-- **C116** is false: after a successful `fun_free(x, verbose=True)` the caller can change the last
recorded point, by changing `x` in place. -/
theorem C116_counterexample {depth : ℕ} {w : World A} (x : List ℕ) (hne : x ≠ []) (a : A) {v : Arr}
    (hok : (w.funFree depth x a true).2 = .ok v) :
    ∃ as : Assign, as.r = Ref.vec x ∧
      (runO depth w [.call (.funFree x a true), .other (.assign as)]).history ≠
      (runO depth w [.call (.funFree x a true)]).history := by
  obtain ⟨b, t, rfl⟩ : ∃ b t, x = b :: t := by
    cases x with
    | nil => exact absurd rfl hne
    | cons b t => exact ⟨b, t, rfl⟩
  have hl := funFree_logs hok
  refine ⟨⟨Ref.vec (b :: t), 0, (w.funFree depth (b :: t) a true).1.st.mem.cell b + 1⟩, rfl, fun hc => ?_⟩
  simp only [runO, OEvent.run, OCall.run, Event.run, World.history, hl, List.map_append, List.map_cons,
    List.map_nil] at hc
  have h2 := List.append_inj_right' hc (by simp)
  simp [Store.assign, Mem.vals, Mem.write, Ref.vec] at h2

/-- **C116** is false for a caller that evaluates at `x`, changes `x` in place and evaluates at `x` again:
the two recorded points are equal. -/
theorem C116_reuse_counterexample {depth : ℕ} {w : World A} (x : List ℕ) (a : A) (as : Assign) {v v' : Arr}
    (h1 : (w.funFree depth x a true).2 = .ok v)
    (h2 : ((runO depth w [.call (.funFree x a true), .other (.assign as)]).funFree depth x a true).2 = .ok v') :
    ∃ hist p, (runO depth w [.call (.funFree x a true), .other (.assign as), .call (.funFree x a true)]).history =
      hist ++ [p, p] := by
  have l1 := funFree_logs h1
  have l2 := funFree_logs h2
  let w' := runO depth w [.call (.funFree x a true), .other (.assign as), .call (.funFree x a true)]
  refine ⟨w.o.logger.xArray.map w'.st.mem.vals, w'.st.mem.vals x, ?_⟩
  have l3 : w'.o.logger.xArray = w.o.logger.xArray ++ [x] ++ [x] := by
    refine l2.trans ?_
    change (w.funFree depth x a true).1.o.logger.xArray ++ [x] = _
    rw [l1]
  change w'.history = _
  unfold World.history
  rw [l3]
  simp

/-- The array of an in-place change has no cell in common with the arrays recorded in `w`. -/
def OEvent.Spares (w : World A) : OEvent A → Prop
  | .other (.assign as) => ∀ x ∈ w.o.logger.xArray, ∀ k ∈ x, k ∉ as.r.addr
  | _ => True

private theorem ocall_logs {depth : ℕ} (w : World A) (c : OCall A) (hc : ¬ (OEvent.call c).ClearsLog) :
    ∃ ys, (c.run depth w).1.o.logger.xArray = w.o.logger.xArray ++ ys := by
  have free : ∀ (w : World A) (x : List ℕ) (a : A) (b : Bool),
      ∃ ys, (w.funFree depth x a b).1.o.logger.xArray = w.o.logger.xArray ++ ys := by
    intro w x a b
    unfold World.funFree
    simp only
    generalize w.st.setFree depth w.o.par x = s
    obtain ⟨s, r⟩ := s
    cases r with
    | error e => exact ⟨[], by simp⟩
    | ok u =>
      simp only
      cases hc : World.callFn depth s w.o a with
      | error e => exact ⟨[], by simp⟩
      | ok v' =>
        cases b with
        | false => exact ⟨[], by simp⟩
        | true => exact ⟨[x], (hlog_keeps s.mem w.o.logger v' x).2.2⟩
  have der : ∀ {β : Type} (w : World A) (x : List ℕ) (a : A) (f : Bool) (ag : (List ℝ → Py Arr) → Py β),
      (w.deriv depth f x a ag).1.o = w.o := by
    intro β w x a f ag
    unfold World.deriv
    simp only
    cases ag (w.valueAt depth a f) with
    | error e => rfl
    | ok v =>
      simp only
      cases ((w.st.traceSet depth w.o.par x f).setPar depth w.o.par x f).2 <;> rfl
  cases c with
  | funFree x a b => exact free w x a b
  | funVector x a =>
    refine ⟨[], ?_⟩
    simp only [OCall.run, World.funVector]
    cases (w.st.setVector depth w.o.par x).2 <;> simp
  | grad f x a => exact ⟨[], by simp [OCall.run, World.grad, der]⟩
  | hessian f x a => exact ⟨[], by simp [OCall.run, World.hessian, der]⟩
  | jacobian f x a => exact ⟨[], by simp [OCall.run, World.jacobian, der]⟩
  | hvp f x a v => exact ⟨[], by simp [OCall.run, World.hvp, der]⟩
  | funFreeCond x a b =>
    simp only [OCall.run, World.funFreeCond]
    split
    · exact ⟨[], by simp⟩
    · split
      · exact ⟨[], by simp⟩
      · exact free _ _ a b
  | gradCond x a =>
    refine ⟨[], ?_⟩
    simp only [OCall.run, World.gradCond]
    split
    · simp
    · split
      · simp
      · simp [World.grad, der]
  | hessianCond x a =>
    refine ⟨[], ?_⟩
    simp only [OCall.run, World.hessianCond]
    split
    · simp
    · split
      · simp
      · simp [World.hessian, der]
  | hvpCond x a v =>
    refine ⟨[], ?_⟩
    simp only [OCall.run, World.hvpCond]
    split
    · simp
    · split
      · simp
      · split
        · simp
        · simp [World.hvp, der]
  | initLogger => exact absurd trivial hc

/-- The cells of the recorded arrays stay as they are. -/
private theorem history_step {depth : ℕ} {w : World A} (hwf : w.WF) {e : OEvent A} (ok : e.Ok w)
    (hc : ¬ e.ClearsLog) (xs : List (List ℕ)) (hxs : xs <+: w.o.logger.xArray)
    (hs : ∀ as, e = .other (.assign as) → ∀ x ∈ xs, ∀ k ∈ x, k ∉ as.r.addr) :
    xs <+: (e.run depth w).o.logger.xArray ∧
      xs.map (e.run depth w).st.mem.vals = xs.map w.st.mem.vals := by
  have hlt : ∀ x ∈ xs, ∀ k ∈ x, k < w.st.mem.next := fun x hx => hwf.xArray x (hxs.subset hx)
  cases e with
  | call c =>
    obtain ⟨ys, h⟩ := ocall_logs (depth := depth) w c hc
    refine ⟨?_, List.map_congr_left fun x hx => (ocall_step hwf c ok).le.vals (hlt x hx)⟩
    change xs <+: (c.run depth w).1.o.logger.xArray
    rw [h]
    exact hxs.trans (List.prefix_append _ _)
  | setPrecond r => exact ⟨hxs, rfl⟩
  | other e =>
    refine ⟨hxs, ?_⟩
    cases e with
    | newArray a => exact List.map_congr_left fun x hx => (Mem.alloc_le _ _).vals (hlt x hx)
    | assign as =>
      refine List.map_congr_left fun x hx => ?_
      have := assign_read (st := w.st) (ws := [as]) (r := Ref.vec x) (fun w' hw' k hk => by
        rw [List.mem_singleton.1 hw']
        exact hs as rfl x hx k hk)
      exact congrArg Arr.data this
    | call c => exact List.map_congr_left fun x hx => (call_run c ok hwf.st).1.vals (hlt x hx)

/-- **C116**, the part that holds for every program: as long as the arrays recorded so far are not changed
in place, and the logger is not emptied, `x_array` goes on showing the same points, followed by later ones.
Missing: callers that change those arrays, for which the counterexamples show the opposite. -/
theorem C116_untouched_partial {depth : ℕ} {w : World A} (h : OReached depth w) (es : List (OEvent A))
    (ok : okO depth w es) (hc : ∀ e ∈ es, ¬ e.ClearsLog) (hs : ∀ e ∈ es, e.Spares w) :
    w.history <+: (runO depth w es).history := by
  suffices gen : ∀ (es : List (OEvent A)) (w' : World A), w'.WF → okO depth w' es → (∀ e ∈ es, ¬ e.ClearsLog) →
      (∀ e ∈ es, e.Spares w) → w.o.logger.xArray <+: w'.o.logger.xArray →
      w.o.logger.xArray <+: (runO depth w' es).o.logger.xArray ∧
        w.o.logger.xArray.map (runO depth w' es).st.mem.vals = w.o.logger.xArray.map w'.st.mem.vals by
    obtain ⟨h1, h2⟩ := gen es w h.wf ok hc hs (List.prefix_refl _)
    unfold World.history
    rw [← h2]
    exact h1.map _
  intro es
  induction es with
  | nil => intro w' _ _ _ _ hp; exact ⟨hp, rfl⟩
  | cons e es ih =>
    intro w' hwf ok hc hs hp
    obtain ⟨h1, h2⟩ := history_step (depth := depth) hwf ok.1 (hc e (by simp)) _ hp (fun as he => by
      have := hs e (by simp)
      subst he
      exact this)
    obtain ⟨h3, h4⟩ := ih (e.run depth w') (oevent_wf hwf e ok.1) ok.2 (fun e' he' => hc e' (by simp [he']))
      (fun e' he' => hs e' (by simp [he'])) h1
    exact ⟨h3, h4.trans h2⟩

/-- The recorded arrays are known to nobody but the logger. -/
private structure Private (known : List ℕ) (w : World A) : Prop where
  wf : w.WF
  lt : ∀ k ∈ known, k < w.st.mem.next
  known : ∀ x ∈ w.o.logger.xArray, ∀ k ∈ x, k ∉ known
  held : w.st.Held fun k => ∀ x ∈ w.o.logger.xArray, k ∉ x

private theorem new_not_logged {w : World A} (h : w.WF) :
    ∀ k, w.st.mem.next ≤ k → ∀ x ∈ w.o.logger.xArray, k ∉ x := by
  intro k hk x hx hkx
  have := h.xArray x hx k hkx
  omega

private theorem Private.same {known : List ℕ} {w w' : World A} (h : Private known w) (hwf : w'.WF)
    (hn : w.st.mem.next ≤ w'.st.mem.next) (hl : w'.o.logger.xArray = w.o.logger.xArray)
    (hh : w'.st.Held fun k => ∀ x ∈ w.o.logger.xArray, k ∉ x) : Private known w' :=
  ⟨hwf, fun k hk => lt_of_lt_of_le (h.lt k hk) hn, by rw [hl]; exact h.known, by rw [hl]; exact hh⟩

private theorem private_funFree {depth : ℕ} {known : List ℕ} {w : World A} (h : Private known w) (y : List ℝ)
    (a : A) (b : Bool) : Private known ((w.withVec y).funFree depth (w.st.newVec y).2 a b).1 := by
  have hs := withVec_step h.wf y
  have hx : ∀ k ∈ (w.st.newVec y).2, k < (w.withVec y).st.mem.next := newVec_alive _ _
  have hs2 := hs.trans (funFree_step (depth := depth) hs.wf hx a b)
  have hnew : ∀ k ∈ (w.st.newVec y).2, w.st.mem.next ≤ k := Mem.alloc_new _ _
  obtain ⟨h1, h2⟩ := funFree_held (depth := depth) hx a b (Q := fun k => ∀ x ∈ w.o.logger.xArray, k ∉ x) h.held
    (fun k hk => new_not_logged h.wf k (hs.le.1.trans hk))
  obtain ⟨h3, -⟩ := funFree_held (depth := depth) hx a b (Q := fun k => k ∉ (w.st.newVec y).2)
    (fun j l hl k hk hky => by
      have := h.wf.st j l hl k hk
      have := hnew k hky
      omega)
    (fun k hk hky => by
      have := hx k hky
      omega)
  refine ⟨hs2.wf, fun k hk => lt_of_lt_of_le (h.lt k hk) hs2.le.1, ?_, ?_⟩
  · intro x hx' k hk hkk
    rcases h2 with h2 | ⟨-, h2⟩
    · rw [h2] at hx'; exact h.known x hx' k hk hkk
    · rw [h2] at hx'
      rcases List.mem_append.1 hx' with hx' | hx'
      · exact h.known x hx' k hk hkk
      · rw [List.mem_singleton.1 hx'] at hk
        have := hnew k hk
        have := h.lt k hkk
        omega
  · intro j l hl k hk x hx' hkx
    rcases h2 with h2 | ⟨-, h2⟩
    · rw [h2] at hx'; exact h1 j l hl k hk x hx' hkx
    · rw [h2] at hx'
      rcases List.mem_append.1 hx' with hx' | hx'
      · exact h1 j l hl k hk x hx' hkx
      · rw [List.mem_singleton.1 hx'] at hkx
        exact h3 j l hl k hk hkx

private theorem private_deriv {β : Type} {depth : ℕ} {known : List ℕ} {w : World A} (h : Private known w)
    {x : List ℕ} (hx : ∀ k ∈ x, k < w.st.mem.next) {f : Bool} (hxq : f = false → ∀ k ∈ x, k ∈ known) (a : A)
    (ag : (List ℝ → Py Arr) → Py β) : Private known (w.deriv depth f x a ag).1 := by
  have hs := deriv_step (depth := depth) h.wf hx f a ag
  obtain ⟨h1, h2⟩ := deriv_held (depth := depth) hx a ag h.held
    (fun hf k hk x' hx' hkx => h.known x' hx' k hkx (hxq hf k hk)) (new_not_logged h.wf)
  exact h.same hs.wf hs.le.1 (by rw [h2]) h1

private theorem private_withVec {known : List ℕ} {w : World A} (h : Private known w) (y : List ℝ) :
    Private known (w.withVec y) :=
  h.same (withVec_step h.wf y).wf (withVec_step h.wf y).le.1 rfl h.held

private theorem private_step {depth : ℕ} {known : List ℕ} {w : World A} (h : Private known w) {e : OEvent A}
    (hu : ∀ r ∈ e.uses, ∀ k ∈ r.addr, k ∈ known) (hl : ¬ e.LogsArgument) :
    e.Ok w ∧ Private (known ++ (e.gains depth w).flatMap Ref.addr) (e.run depth w) := by
  have alive : ∀ r ∈ e.uses, r.Alive w.st.mem := fun r hr k hk => h.lt k (hu r hr k hk)
  cases e with
  | call c =>
    have hok : (OEvent.call c).Ok w := alive
    refine ⟨hok, ?_⟩
    simp only [OEvent.gains, List.flatMap_nil, List.append_nil]
    cases c with
    | funFree x a b =>
      cases b with
      | true => exact absurd trivial hl
      | false =>
        have hx := alive_args1 hok
        have hs := funFree_step (depth := depth) h.wf hx a false
        obtain ⟨h1, h2⟩ := funFree_held (depth := depth) hx a false h.held (new_not_logged h.wf)
        rcases h2 with h2 | ⟨h2, -⟩
        · exact h.same hs.wf hs.le.1 h2 h1
        · cases h2
    | funVector x a =>
      have hx := alive_args1 hok
      have hs := funVector_step (depth := depth) h.wf hx a
      have hh := visit_held vecVisit_sim.tame vecVisit_keeps depth w.st w.o.par x hx h.held
        (fun _ k hk x' hx' hkx => h.known x' hx' k hkx (hu (Ref.vec x) (by simp [OEvent.uses, OCall.args]) k hk))
        (new_not_logged h.wf)
      change Store.Held _ (w.st.setVector depth w.o.par x).1 at hh
      have e1 : (w.funVector depth x a).1 = ⟨(w.st.setVector depth w.o.par x).1, w.o⟩ := by
        unfold World.funVector
        simp only
        cases (w.st.setVector depth w.o.par x).2 <;> rfl
      change Private known (w.funVector depth x a).1
      refine h.same hs.wf hs.le.1 ?_ ?_
      · rw [e1]
      · rw [e1]; exact hh
    | grad f x a =>
      exact private_deriv h (alive_args1 hok) (fun _ => hu (Ref.vec x) (by simp [OEvent.uses, OCall.args])) a
        fun F => agGrad F (w.st.mem.vals x)
    | hessian f x a =>
      exact private_deriv h (alive_args1 hok) (fun _ => hu (Ref.vec x) (by simp [OEvent.uses, OCall.args])) a
        fun F => agHess F (w.st.mem.vals x)
    | jacobian f x a =>
      exact private_deriv h (alive_args1 hok) (fun _ => hu (Ref.vec x) (by simp [OEvent.uses, OCall.args])) a
        fun F => agJac F (w.st.mem.vals x)
    | hvp f x a v =>
      exact private_deriv h (alive_args2 hok).1 (fun _ => hu (Ref.vec x) (by simp [OEvent.uses, OCall.args])) a
        fun F => agHvp F (w.st.mem.vals x) (w.st.mem.vals v)
    | funFreeCond x a b =>
      simp only [OEvent.run, OCall.run, World.funFreeCond]
      split
      · exact h
      · split
        · exact h
        · exact private_funFree h _ a b
    | gradCond x a =>
      simp only [OEvent.run, OCall.run, World.gradCond]
      split
      · exact h
      · split
        · exact h
        · exact private_deriv (private_withVec h _) (newVec_alive _ _) (fun hf => by cases hf) a _
    | hessianCond x a =>
      simp only [OEvent.run, OCall.run, World.hessianCond]
      split
      · exact h
      · split
        · exact h
        · exact private_deriv (private_withVec h _) (newVec_alive _ _) (fun hf => by cases hf) a _
    | hvpCond x a v =>
      simp only [OEvent.run, OCall.run, World.hvpCond]
      split
      · exact h
      · split
        · exact h
        · split
          · exact h
          · rename_i y _ _ pv _
            have s2 := withVec_step (withVec_step h.wf y).wf pv
            exact private_deriv (private_withVec (private_withVec h y) pv)
              (fun k hk => lt_of_lt_of_le (newVec_alive _ _ k hk) s2.le.1) (fun hf => by cases hf) a _
    | initLogger =>
      have hs := ocall_step (depth := depth) h.wf .initLogger hok
      refine ⟨hs.wf, h.lt, ?_, ?_⟩
      · simp [OEvent.run, OCall.run, World.initLogger, HLogger.reset]
      · intro j l hl k hk x hx
        simp [OEvent.run, OCall.run, World.initLogger, HLogger.reset] at hx
  | setPrecond r =>
    have hok : (OEvent.setPrecond r : OEvent A).Ok w := by
      cases r with
      | none => trivial
      | some r => exact alive r (by simp [OEvent.uses])
    refine ⟨hok, ?_⟩
    simp only [OEvent.gains, List.flatMap_nil, List.append_nil]
    exact h.same (oevent_wf (depth := depth) h.wf _ hok) le_rfl rfl h.held
  | other e =>
    cases e with
    | newArray b =>
      refine ⟨trivial, ?_⟩
      simp only [OEvent.gains, List.flatMap_cons, List.flatMap_nil, List.append_nil]
      have hwf := oevent_wf (depth := depth) h.wf (.other (.newArray b)) trivial
      refine ⟨hwf, fun k hk => ?_, fun x hx k hk hkk => ?_, h.held⟩
      · rcases List.mem_append.1 hk with hk | hk
        · exact lt_of_lt_of_le (h.lt k hk) (Mem.alloc_le _ _).1
        · exact Mem.alloc_alive _ _ k hk
      · rcases List.mem_append.1 hkk with hkk | hkk
        · exact h.known x hx k hk hkk
        · exact new_not_logged h.wf k (Mem.alloc_new _ _ k hkk) x hx hk
    | assign as =>
      have hok : (OEvent.other (.assign as) : OEvent A).Ok w := alive as.r (by simp [OEvent.uses])
      refine ⟨hok, ?_⟩
      simp only [OEvent.gains, List.flatMap_nil, List.append_nil]
      exact h.same (oevent_wf (depth := depth) h.wf _ hok) (by simp only [OEvent.run, Event.run, assign_next]; exact le_rfl) rfl h.held
    | call c =>
      have hok : (OEvent.other (.call c) : OEvent A).Ok w := alive
      refine ⟨hok, ?_⟩
      have hwf := oevent_wf (depth := depth) h.wf _ hok
      obtain ⟨h1, h2⟩ := call_held (depth := depth) c h.wf.st alive h.held
        (fun r hr k hk x hx hkx => h.known x hx k hkx (hu r hr k hk)) (new_not_logged h.wf)
      have h3 := call_run (depth := depth) c alive h.wf.st
      have hg : ∀ k ∈ (OEvent.gains depth w (.other (.call c))).flatMap Ref.addr,
          ∃ r, (c.run depth w.st).2 = .ok (.arr r) ∧ k ∈ r.addr := by
        intro k hk
        simp only [OEvent.gains] at hk
        split at hk
        · next r hr =>
          simp only [List.flatMap_cons, List.flatMap_nil, List.append_nil] at hk
          exact ⟨r, hr, hk⟩
        · simp at hk
      refine ⟨hwf, fun k hk => ?_, fun x hx k hk hkk => ?_, h1⟩
      · rcases List.mem_append.1 hk with hk | hk
        · exact lt_of_lt_of_le (h.lt k hk) h3.1.1
        · obtain ⟨r, hr, hk⟩ := hg k hk
          exact h3.2.2 r hr k hk
      · rcases List.mem_append.1 hkk with hkk | hkk
        · exact h.known x hx k hk hkk
        · obtain ⟨r, hr, hkr⟩ := hg k hkk
          exact h2 r hr k hkr x hx hk

private theorem private_run {depth : ℕ} :
    ∀ (es : List (OEvent A)) {known : List ℕ} {w : World A} (_ : Private known w) (_ : usesKnown depth w known es)
      (_ : ∀ e ∈ es, ¬ e.LogsArgument) (es' : List (OEvent A)) (_ : es' <+: es),
      okO depth w es' ∧ ∃ known', Private known' (runO depth w es') ∧
        ∀ rest, es = es' ++ rest → usesKnown depth (runO depth w es') known' rest
  | es, known, w, h, hu, _, [], _ => ⟨trivial, known, h, fun rest hr => by rw [hr] at hu; exact hu⟩
  | [], _, _, _, _, _, _ :: _, hp => by simp at hp
  | e :: es, known, w, h, hu, hl, e' :: es', hp => by
    obtain ⟨he, hp2⟩ := List.cons_prefix_cons.1 hp
    subst he
    obtain ⟨h1, h2⟩ := private_step (depth := depth) h hu.1 (hl e' (by simp))
    obtain ⟨h3, k', h4, h5⟩ := private_run es h2 hu.2 (fun e he => hl e (by simp [he])) es' hp2
    exact ⟨⟨h1, h3⟩, k', h4, fun rest hr => h5 rest (by simpa using hr)⟩

/-- **C116**, the part that holds with a preconditioner: if the program evaluates with logging only through
`fun_free_cond`, whatever else it does with the arrays it has, makes and gets from parameters, the recorded
points stay what they are, until the logger is emptied.  Missing: logging through `fun_free`, for which the
counterexamples show the opposite. -/
theorem C116_preconditioned_partial {depth : ℕ} {st : Store} (h : Reached depth st) (par : ℕ)
    (fn : A → Param → Py Arr) (es es' : List (OEvent A))
    (hu : usesKnown depth (World.new st par fn) (List.range st.mem.next) (es ++ es'))
    (hl : ∀ e ∈ es ++ es', ¬ e.LogsArgument) (hc : ∀ e ∈ es', ¬ e.ClearsLog) :
    (runO depth (World.new st par fn) es).history <+: (runO depth (World.new st par fn) (es ++ es')).history := by
  have h0 : Private (List.range st.mem.next) (World.new st par fn) :=
    ⟨(OReached.start h par fn).wf, fun k hk => List.mem_range.1 hk,
      by simp [World.new, HLogger.new, HLogger.reset],
      fun j l _ k _ x hx => by simp [World.new, HLogger.new, HLogger.reset] at hx⟩
  rw [runO_append]
  obtain ⟨-, known, hp, hrest⟩ := private_run (es ++ es') h0 hu hl es (List.prefix_append _ _)
  have hu' := hrest es' rfl
  have hl' : ∀ e ∈ es', ¬ e.LogsArgument := fun e he => hl e (by simp [he])
  generalize runO depth (World.new st par fn) es = w at hp hu' ⊢
  clear hu hl hrest h0
  suffices gen : ∀ (es : List (OEvent A)) (known : List ℕ) (w' : World A), Private known w' →
      usesKnown depth w' known es → (∀ e ∈ es, ¬ e.LogsArgument) → (∀ e ∈ es, ¬ e.ClearsLog) →
      w.o.logger.xArray <+: w'.o.logger.xArray →
      w.o.logger.xArray <+: (runO depth w' es).o.logger.xArray ∧
        w.o.logger.xArray.map (runO depth w' es).st.mem.vals = w.o.logger.xArray.map w'.st.mem.vals by
    obtain ⟨h1, h2⟩ := gen es' known w hp hu' hl' hc (List.prefix_refl _)
    unfold World.history
    rw [← h2]
    exact h1.map _
  clear hc hu' hl' hp
  intro es
  induction es with
  | nil => intro known w' _ _ _ _ hp; exact ⟨hp, rfl⟩
  | cons e es ih =>
    intro known w' hpr hu hl hc hp
    obtain ⟨ok, hpr'⟩ := private_step (depth := depth) hpr hu.1 (hl e (by simp))
    obtain ⟨h1, h2⟩ := history_step (depth := depth) hpr.wf ok (hc e (by simp)) _ hp (fun as he x hx k hk hka => by
      subst he
      exact hpr.known x (hp.subset hx) k hk (hu.1 as.r (by simp [OEvent.uses]) k hka))
    obtain ⟨h3, h4⟩ := ih _ _ hpr' hu.2 (fun e' he' => hl e' (by simp [he'])) (fun e' he' => hc e' (by simp [he'])) h1
    exact ⟨h3, h4.trans h2⟩

/-! A number with lower bound 0 (object 0 of `exStore`), for the examples of C116. -/

private theorem exNumber_setFree {st : Store} {r : Ref} {b : Bool} (k : ℕ)
    (h : st.objs[0]? = some (.leaf ⟨"a", .scalar (fin 0) pinf, r, b⟩)) :
    ∃ st' r' u, st.setFree 3 0 [k] = (st', .ok ()) ∧
      st'.objs[0]? = some (.leaf ⟨"a", .scalar (fin 0) pinf, r', false⟩) ∧ st'.mem.read r' = Arr.vec [u] := by
  obtain ⟨hlt, -⟩ := List.getElem?_eq_some_iff.1 h
  have hc := constrainVec_ok (lb := fin 0) (ub := pinf) (by simp) [st.mem.cell k]
  refine ⟨⟨(st.mem.alloc (Arr.vec [Leaf.constrainFn (fin 0) pinf (st.mem.cell k)])).1,
    st.objs.set 0 (.leaf ⟨"a", .scalar (fin 0) pinf,
      (st.mem.alloc (Arr.vec [Leaf.constrainFn (fin 0) pinf (st.mem.cell k)])).2, false⟩)⟩, _, _, ?_, ?_,
    Mem.read_alloc _ _⟩
  · unfold Store.setFree Store.visit
    simp only [h, Store.freeVisit, HLeaf.setFree, Mem.vals, List.map_cons, List.map_nil, hc, HLeaf.setNew, HLeaf.set, HLeaf.view,
      Leaf.set, bind, Except.bind]
  · simp [hlt]

/-- An objective on a number; the user function is the value of the parameter. -/
def exNumber : World Unit := World.new exStore 0 fun _ p => (fun y => Arr.scalar y.sum) <$> p.getVector

/-- What the examples need to know about the state. -/
private def NumberOk (w : World Unit) : Prop :=
  (∃ r b, w.st.objs[0]? = some (.leaf ⟨"a", .scalar (fin 0) pinf, r, b⟩)) ∧ w.o.par = 0 ∧
  w.o.fn = exNumber.o.fn ∧ w.o.logger.printEvery = 1 ∧ ∀ x, w.o.logger.lastX = some x → x.length = 1

private theorem exNumber_ok : NumberOk exNumber := by
  obtain ⟨m, h, -⟩ := exStore_eq
  exact ⟨⟨_, _, by unfold exNumber World.new; rw [h]; rfl⟩, rfl, rfl, rfl, fun x hx => by cases hx⟩

private theorem exNumber_funFree {w : World Unit} (h : NumberOk w) (k : ℕ) :
    NumberOk (w.funFree 3 [k] () true).1 ∧ ∃ v, (w.funFree 3 [k] () true).2 = .ok v := by
  obtain ⟨⟨r, b, h1⟩, h2, h3, h4, h5⟩ := h
  obtain ⟨st', r', u, e1, e2, e3⟩ := exNumber_setFree k h1
  have e4 : World.callFn 3 st' w.o () = .ok (Arr.scalar u) := by
    unfold World.callFn Store.tree
    rw [h2, h3]
    simp only [e2]
    simp [Param.mark, exNumber, World.new, Param.getVector, HLeaf.view, Leaf.getVector, e3, Arr.vec, Arr.size]
  have e5 : ∃ l, w.o.logger.log st'.mem (Arr.scalar u) [k] = (l, none) ∧ l.printEvery = 1 ∧ l.lastX = some [k] := by
    unfold HLogger.log
    simp only
    rw [if_neg]
    · simp only [h4]
      refine ⟨_, rfl, ?_, ?_⟩ <;> simp [Nat.mod_one]
    · rintro ⟨lx, hl, hd⟩
      refine hd ⟨Or.inr (Or.inl rfl), by simp [Mem.vals], fun hc => ?_⟩
      have := h5 lx hl
      have := congrArg List.length hc
      rw [vals_length] at this
      simp_all
  obtain ⟨l, e5, e6, e7⟩ := e5
  have e8 : w.funFree 3 [k] () true = (⟨st', { w.o with logger := l }⟩, .ok (Arr.scalar u)) := by
    unfold World.funFree
    rw [h2, e1]
    simp only [e4, if_true, e5]
  rw [e8]
  exact ⟨⟨⟨r', false, e2⟩, h2, h3, e6, fun x hx => by rw [e7] at hx; cases hx; rfl⟩, _, rfl⟩

private theorem exNumber_assign {w : World Unit} (h : NumberOk w) (as : Assign) :
    NumberOk ((OEvent.other (.assign as)).run 3 w) := h

/-- `fun_free(x)`, `x[0] = 9`, `fun_free(x)`, with the number. -/
example : ∃ (w : World Unit) (x : List ℕ) (as : Assign) (v v' : Arr), OReached 3 w ∧ x ≠ [] ∧ as.r = Ref.vec x ∧
    (w.funFree 3 x () true).2 = .ok v ∧
    ((runO 3 w [.call (.funFree x () true), .other (.assign as)]).funFree 3 x () true).2 = .ok v' := by
  obtain ⟨h1, v, h2⟩ := exNumber_funFree exNumber_ok 3
  obtain ⟨-, v', h3⟩ := exNumber_funFree (exNumber_assign h1 ⟨Ref.vec [3], 0, 9⟩) 3
  exact ⟨exNumber, [3], ⟨Ref.vec [3], 0, 9⟩, v, v', .start exStore_reached _ _, by simp, rfl, h2, h3⟩

/-- The number evaluated at `x`, then an in-place change of another array and an evaluation there. -/
example : ∃ (w : World Unit) (es : List (OEvent Unit)), OReached 3 w ∧ w.history ≠ [] ∧ es.length = 2 ∧ okO 3 w es ∧
    (∀ e ∈ es, ¬ e.ClearsLog) ∧ (∀ e ∈ es, e.Spares w) := by
  obtain ⟨h1, v, h2⟩ := exNumber_funFree exNumber_ok 3
  have hl := funFree_logs h2
  have hok : (OEvent.call (.funFree [3] () true)).Ok exNumber := by
    intro r hr
    simp only [OCall.args, List.mem_singleton] at hr
    rw [hr]
    intro k hk
    exact exStore_alive.1 k (by simp [Ref.vec] at hk ⊢; omega)
  have hr : OReached 3 (exNumber.funFree 3 [3] () true).1 := (OReached.start exStore_reached _ _).step _ hok
  have hwf := (OReached.start exStore_reached 0 exNumber.o.fn).wf
  have hn : ∀ k ∈ [4, 5], k < (exNumber.funFree 3 [3] () true).1.st.mem.next := fun k hk =>
    lt_of_lt_of_le (exStore_alive.1 k (by simp [Ref.vec] at hk ⊢; omega))
      (ocall_step (depth := 3) hwf (.funFree [3] () true) hok).le.1
  refine ⟨_, [.other (.assign ⟨Ref.vec [4, 5], 0, 9⟩), .call (.funFree [4] () true)], hr, ?_, rfl, ?_, ?_, ?_⟩
  · unfold World.history
    rw [hl]
    simp
  · refine ⟨fun k hk => hn k hk, fun r hr k hk => ?_, trivial⟩
    simp only [OCall.args, List.mem_singleton] at hr
    rw [hr] at hk
    change k < (Store.assign _ _).mem.next
    rw [assign_next]
    exact hn k (by simp [Ref.vec] at hk ⊢; omega)
  · simp [OEvent.ClearsLog]
  · intro e he
    simp only [List.mem_cons, List.not_mem_nil, or_false] at he
    rcases he with rfl | rfl
    · intro x hx k hk
      rw [hl] at hx
      simp [exNumber, World.new, HLogger.new, HLogger.reset] at hx
      subst hx
      simp [Ref.vec] at hk ⊢
      omega
    · trivial

/-- A program that uses a preconditioner, evaluates with logging, changes `x` in place and evaluates again. -/
example : ∃ (st : Store) (fn : Unit → Param → Py Arr) (es es' : List (OEvent Unit)), Reached 3 st ∧
    usesKnown 3 (World.new st 0 fn) (List.range st.mem.next) (es ++ es') ∧
    (∀ e ∈ es ++ es', ¬ e.LogsArgument) ∧ (∀ e ∈ es', ¬ e.ClearsLog) ∧
    (runO 3 (World.new st 0 fn) es).history ≠ [] ∧ es'.length = 2 := by
  obtain ⟨m, h, h1, -⟩ := exStore_eq
  have h6 : exStore.mem.next = 6 := by rw [h]; exact h1
  refine ⟨exStore, exNumber.o.fn, [.other (.newArray ⟨[1, 1], [2]⟩), .setPrecond (some ⟨[1, 1], [6]⟩),
    .call (.funFreeCond [3] () true)], [.other (.assign ⟨Ref.vec [3], 0, 9⟩), .call (.funFreeCond [3] () true)],
    exStore_reached, ?_, ?_, ?_, ?_, rfl⟩
  · rw [h6]
    simp [usesKnown, OEvent.uses, OEvent.gains, OCall.args, Ref.vec, World.new, Mem.alloc, h6]
  · simp [OEvent.LogsArgument]
  · simp [OEvent.ClearsLog]
  · let w : World Unit := ⟨⟨(exStore.mem.alloc ⟨[1, 1], [2]⟩).1, exStore.objs⟩, 0, exNumber.o.fn, some ⟨[1, 1], [6]⟩,
      HLogger.new 1⟩
    have hw : NumberOk w := exNumber_ok
    change (w.funFreeCond 3 [3] () true).1.history ≠ []
    have hy : ∃ y, Objective.conditionedX (w.st.mem.read ⟨[1, 1], [6]⟩) (w.st.mem.vals [3]) = .ok [y] := by
      simp [Objective.conditionedX, Arr.mulVec, Mem.read, Mem.vals]
    obtain ⟨y, hy⟩ := hy
    have hv : (w.st.newVec [y]).2 = [w.st.mem.next] := by simp [Store.newVec, Mem.alloc, Arr.vec]
    obtain ⟨-, v, h3⟩ := exNumber_funFree (w := ⟨(w.st.newVec [y]).1, w.o⟩) hw w.st.mem.next
    have hl := funFree_logs h3
    have e : w.funFreeCond 3 [3] () true = World.funFree 3 ⟨(w.st.newVec [y]).1, w.o⟩ [w.st.mem.next] () true := by
      rw [← hv]
      have hP : w.o.precond = some ⟨[1, 1], [6]⟩ := rfl
      unfold World.funFreeCond
      rw [hP]
      simp only [hy]
    rw [e]
    unfold World.history
    rw [hl]
    simp

end

end LRVB
