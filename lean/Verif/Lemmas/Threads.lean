import Verif.Model.Threads
import Verif.Props.Interrupt

/-!
# Threads: lemmas
-/

namespace LRVB

open Classical

noncomputable section

/-! ### The steps of an assignment -/

/-- `set_free(x)` or `set_vector(x)` of one parameter. -/
def setOutcome (free : Bool) (l : Leaf) (x : List ℝ) : Py Leaf := if free then l.setFree x else l.setVector x

/-- What never changes of a parameter. -/
def Leaf.sig (l : Leaf) : String × Kind := (l.name, l.kind)

theorem setOutcome_forget {l l' : Leaf} (h : l.sig = l'.sig) (free : Bool) (x : List ℝ) :
    setOutcome free l x = setOutcome free l' x := by
  obtain ⟨n, k, v, b⟩ := l
  obtain ⟨n', k', v', b'⟩ := l'
  simp only [Leaf.sig, Prod.mk.injEq] at h
  obtain ⟨rfl, rfl⟩ := h
  cases free
  · exact Leaf.setVector_forget ..
  · exact Leaf.setFree_forget ..

theorem setPar_leaf (l : Leaf) (x : List ℝ) (free : Bool) :
    setPar (.leaf l) x free = match setOutcome free l x with
      | .ok l' => (.leaf l', none)
      | .error e => (.leaf l, some e) := by
  cases free <;> rfl

theorem setOutcome_sig {free : Bool} {l l' : Leaf} {x : List ℝ} (h : setOutcome free l x = .ok l') : l'.sig = l.sig := by
  have := setPar_blank (.leaf l) x free
  rw [setPar_leaf, h] at this
  simp only [Param.blank, Param.leaf.injEq, Leaf.mk.injEq] at this
  simp [Leaf.sig, this.1, this.2.1]

/-- `T` has `qs` at position `m`. -/
def HasAt (T : List Leaf) (m : ℕ) (qs : List Leaf) : Prop := ∀ j < qs.length, T[m + j]? = qs[j]?

theorem HasAt.left {T : List Leaf} {m : ℕ} {a b : List Leaf} (h : HasAt T m (a ++ b)) : HasAt T m a := by
  intro j hj
  rw [h j (by rw [List.length_append]; omega), List.getElem?_append_left hj]

theorem HasAt.right {T : List Leaf} {m : ℕ} {a b : List Leaf} (h : HasAt T m (a ++ b)) : HasAt T (m + a.length) b := by
  intro j hj
  have := h (a.length + j) (by rw [List.length_append]; omega)
  rw [Nat.add_assoc, this, List.getElem?_append_right (by omega), Nat.add_sub_cancel_left]

/-- The steps lead from the parameters `ls` to the parameters `T` with the outcome `res`. -/
def Plan (free : Bool) (ls T : List Leaf) (res : Option PyErr) : ℕ → List SetStep → Prop
  | m, [] => m = ls.length ∧ res = none
  | m, .raise e :: _ => res = some e ∧ ∀ j ≥ m, T[j]? = ls[j]?
  | m, .call i x :: ms => i = m ∧ ∃ l, ls[m]? = some l ∧
    match setOutcome free l x with
    | .ok l' => T[m]? = some l' ∧ Plan free ls T res (m + 1) ms
    | .error e => res = some e ∧ ∀ j ≥ m, T[j]? = ls[j]?

mutual
theorem Param.plan (free : Bool) {ls T : List Leaf} {res : Option PyErr} : ∀ (p : Param) (x : List ℝ) (m : ℕ)
    (rest : List SetStep), HasAt ls m p.leaves → HasAt T m (setPar p x free).1.leaves →
    (match (setPar p x free).2 with
      | none => Plan free ls T res (m + p.leaves.length) rest
      | some e => res = some e ∧ ∀ j ≥ m + p.leaves.length, T[j]? = ls[j]?) →
    Plan free ls T res m (p.setSteps free x m ++ rest)
  | .leaf l, x, m, rest, h1, h2, h3 => by
    rw [setPar_leaf] at h2 h3
    unfold Param.setSteps
    have e1 : ls[m]? = some l := by simpa [Param.leaves] using h1 0 (by simp [Param.leaves])
    refine ⟨rfl, l, e1, ?_⟩
    cases h : setOutcome free l x with
    | error e =>
      rw [h] at h2 h3
      refine ⟨h3.1, fun j hj => ?_⟩
      rcases Nat.lt_or_ge m j with hlt | hge
      · exact h3.2 j (by simp [Param.leaves]; omega)
      · have : j = m := by omega
        subst this
        rw [e1]
        simpa [Param.leaves] using h2 0 (by simp [Param.leaves])
    | ok l' =>
      rw [h] at h2 h3
      exact ⟨by simpa [Param.leaves] using h2 0 (by simp [Param.leaves]), h3⟩
  | .dict h es, x, m, rest, h1, h2, h3 => by
    rw [setPar_dict] at h2 h3
    unfold Param.setSteps
    by_cases hl : x.length ≠ (if free then h.fs else h.vs)
    · rw [if_pos hl] at h2 h3 ⊢
      refine ⟨h3.1, fun j hj => ?_⟩
      rcases Nat.lt_or_ge j (m + es.leaves.length) with hlt | hge
      · have a := h1 (j - m) (by simp only [Param.leaves]; omega)
        have b := h2 (j - m) (by simp only [Param.leaves]; omega)
        rw [Nat.add_sub_cancel' hj] at a b
        rw [a, b]
      · exact h3.2 j hge
    · rw [if_neg hl] at h2 h3 ⊢
      exact Entries.plan free es x 0 m rest h1 h2 h3
theorem Entries.plan (free : Bool) {ls T : List Leaf} {res : Option PyErr} : ∀ (es : Entries) (x : List ℝ) (off m : ℕ)
    (rest : List SetStep), HasAt ls m es.leaves → HasAt T m (setParEntries es x off free).1.leaves →
    (match (setParEntries es x off free).2 with
      | none => Plan free ls T res (m + es.leaves.length) rest
      | some e => res = some e ∧ ∀ j ≥ m + es.leaves.length, T[j]? = ls[j]?) →
    Plan free ls T res m (Entries.setSteps free es x off m ++ rest)
  | .nil, x, off, m, rest, _, _, h3 => by
    have : (setParEntries .nil x off free).2 = none := by cases free <;> rfl
    rw [this] at h3
    exact h3
  | .cons k p es, x, off, m, rest, h1, h2, h3 => by
    rw [setParEntries_cons] at h2 h3
    unfold Entries.setSteps
    simp only
    set size := if free then p.freeSize else p.vecSize with hsize
    set part := Leaf.slice x off size with hpart
    have hlen : (setPar p part free).1.leaves.length = p.leaves.length := Param.leaves_length (setPar_blank _ _ _)
    rw [List.append_assoc]
    simp only [Entries.leaves] at h1 h3
    cases hp : (setPar p part free).2 with
    | some e =>
      rw [hp] at h2 h3
      simp only [Entries.leaves] at h2 h3
      refine Param.plan free p part m _ h1.left h2.left ?_
      rw [hp]
      refine ⟨h3.1, fun j hj => ?_⟩
      rcases Nat.lt_or_ge j (m + (p.leaves ++ es.leaves).length) with hlt | hge
      · rw [List.length_append] at hlt
        have a := h1.right (j - (m + p.leaves.length)) (by omega)
        have b := h2.right (j - (m + p.leaves.length)) (by omega)
        rw [hlen] at b
        rw [Nat.add_sub_cancel' hj] at a b
        rw [a, b]
      · exact h3.2 j hge
    | none =>
      rw [hp] at h2 h3
      simp only [Entries.leaves] at h2 h3
      refine Param.plan free p part m _ h1.left h2.left ?_
      rw [hp]
      have h2r := h2.right
      rw [hlen] at h2r
      refine Entries.plan free es x (off + size) (m + p.leaves.length) rest h1.right h2r ?_
      rw [List.length_append, ← Nat.add_assoc] at h3
      exact h3
end

/-- The steps of a whole assignment. -/
theorem Param.plan_all (free : Bool) (p : Param) (x : List ℝ) :
    Plan free p.leaves (setPar p x free).1.leaves (setPar p x free).2 0 (p.setSteps free x 0) := by
  have hlen : (setPar p x free).1.leaves.length = p.leaves.length := Param.leaves_length (setPar_blank _ _ _)
  have := p.plan free (ls := p.leaves) (T := (setPar p x free).1.leaves) (res := (setPar p x free).2) x 0 []
    (fun j _ => by rw [Nat.zero_add]) (fun j _ => by rw [Nat.zero_add]) (by
      cases h : (setPar p x free).2 with
      | none => exact ⟨by simp, rfl⟩
      | some e =>
        refine ⟨rfl, fun j hj => ?_⟩
        rw [List.getElem?_eq_none (by omega), List.getElem?_eq_none (by omega)])
  rwa [List.append_nil] at this

/-! ### A single thread -/

theorem Thread.alone_sets {free : Bool} {ls T : List Leaf} {res : Option PyErr} (hT : T.length = ls.length) (k : Thread) :
    ∀ (ms : List SetStep) (m : ℕ) (s : Shared), Plan free ls T res m ms → s.leaves = T.take m ++ ls.drop m →
    (Thread.sets free ms k).alone s = match res with
      | none => k.alone { s with leaves := T }
      | some e => ({ s with leaves := T }, .error e)
  | [], m, s, hp, hs => by
    obtain ⟨rfl, rfl⟩ := hp
    rw [List.drop_length, List.append_nil, ← hT, List.take_length] at hs
    rw [← hs]
    rfl
  | .raise e :: _, m, s, hp, hs => by
    obtain ⟨rfl, hp⟩ := hp
    have : s.leaves = T := by
      have : ls.drop m = T.drop m := by
        refine List.ext_getElem? fun j => ?_
        rw [List.getElem?_drop, List.getElem?_drop, hp _ (by omega)]
      rw [hs, this, List.take_append_drop]
    rw [← this]
    rfl
  | .call i x :: ms, m, s, hp, hs => by
    obtain ⟨rfl, l, hl, hp⟩ := hp
    have hi : i < ls.length := (List.getElem?_eq_some_iff.1 hl).1
    have hget : s.leaves[i]? = some l := by
      rw [hs, List.getElem?_append_right (by simp), List.length_take, hT, Nat.min_eq_left (by omega), Nat.sub_self,
        List.getElem?_drop, Nat.add_zero, hl]
    have hc : s.compute free i x = setOutcome free l x := by simp only [Shared.compute, hget]; rfl
    cases h : setOutcome free l x with
    | error e =>
      rw [h] at hp
      obtain ⟨rfl, hp⟩ := hp
      have : s.leaves = T := by
        have : ls.drop i = T.drop i := by
          refine List.ext_getElem? fun j => ?_
          rw [List.getElem?_drop, List.getElem?_drop, hp _ (by omega)]
        rw [hs, this, List.take_append_drop]
      simp only [Thread.sets, Thread.alone, Shared.assign, hc, h]
      rw [← this]
    | ok l' =>
      rw [h] at hp
      simp only [Thread.sets, Thread.alone, Shared.assign, hc, h]
      rw [Thread.alone_sets hT k ms (i + 1) { s with leaves := s.leaves.set i l' } hp.2]
      simp only
      refine List.ext_getElem? fun j => ?_
      rw [List.getElem?_set, hs]
      have hTi : (T.take i).length = i := by rw [List.length_take]; omega
      have hTi' : (T.take (i + 1)).length = i + 1 := by rw [List.length_take]; omega
      rcases Nat.lt_trichotomy i j with hj | rfl | hj
      · rw [if_neg (by omega), List.getElem?_append_right (by omega), List.getElem?_append_right (by omega), hTi, hTi',
          List.getElem?_drop, List.getElem?_drop]
        congr 1
        omega
      · rw [if_pos rfl, if_pos (by rw [List.length_append, List.length_drop]; omega),
          List.getElem?_append_left (by omega), List.getElem?_take, if_pos (by omega), hp.1]
      · rw [if_neg (by omega), List.getElem?_append_left (by omega), List.getElem?_append_left (by omega),
          List.getElem?_take, List.getElem?_take, if_pos (by omega), if_pos (by omega)]

theorem Thread.alone_user (k : Arr → Thread) (s : Shared) : ∀ r : Reader,
    (Thread.user r k).alone s = match r.eval s.leaves with
      | .error e => (s, .error e)
      | .ok v => (k v).alone s
  | .ret (.error e) => rfl
  | .ret (.ok v) => rfl
  | .read i r => by
    simp only [Thread.user, Thread.alone, id, Reader.eval]
    cases s.leaves[i]? with
    | none => rfl
    | some l => exact Thread.alone_user k s (r l)

theorem Thread.alone_log (v : Arr) (x : List ℝ) (s : Shared) :
    (Thread.log v x).alone s = ({ s with logger := (s.logger.log v x).1 },
      match (s.logger.log v x).2 with
      | some e => .error e
      | none => .ok v) := by
  obtain ⟨ls, lg⟩ := s
  simp only [Thread.log, Thread.logStep, Thread.logRead, Thread.alone, id, Logger.log]
  have hend : ∀ g : Logger Arr, (Thread.logEnd v x).alone ⟨ls, g⟩ =
      if g.printEvery = 0 then
        ((⟨ls, { g with lastX := some x, lastValue := some v }⟩ : Shared), (.error .zeroDivision : Py Arr))
      else (⟨ls, { g with
        lastX := some x
        lastValue := some v
        iter := g.iter + 1
        reports := if g.iter % g.printEvery = 0 then g.reports ++ [g.iter] else g.reports }⟩, .ok v) := by
    intro g
    simp only [Thread.logEnd, Thread.logStep, Thread.logRead, Thread.alone, id]
    split_ifs <;> rfl
  cases hx : lg.lastX with
  | none =>
    rw [if_pos rfl, if_neg (by simp), hend]
    simp only
    split_ifs <;> rfl
  | some lx =>
    rw [if_neg (by simp)]
    simp only [Thread.alone, id]
    by_cases hd : Logger.diffOk x lx
    · rw [if_pos hd, if_neg (by rintro ⟨a, ha, hn⟩; rw [Option.some.injEq] at ha; exact hn (ha ▸ hd)), hend]
      simp only
      split_ifs <;> rfl
    · rw [if_neg hd, if_pos ⟨lx, rfl, hd⟩]
      rfl

/-! ### Rely and guarantee -/

/-- Nothing that the threads do makes `κ` false. -/
def Stable (G : Shared → Shared → Prop) (κ : Shared → Prop) : Prop := ∀ a b, G a b → κ a → κ b

/-- A thread that knows `κ` only makes steps in `G`, and ends in `Post`, whatever other threads do within `G`. -/
def Thread.Obeys (G : Shared → Shared → Prop) (Post : Shared → Py Arr → Prop) : Thread → (Shared → Prop) → Prop
  | .ret r, κ => ∀ s, κ s → Post s r
  | .step f k, κ => ∀ s, κ s → G s (f s) ∧ ∃ κ', Stable G κ' ∧ κ' (f s) ∧ (k s).Obeys G Post κ'

theorem Threads.obeys_run {G : Shared → Shared → Prop} {Post : ℕ → Shared → Py Arr → Prop} :
    ∀ (schedule : List ℕ) (c : Threads),
    (∀ i (t : Thread), c.threads[i]? = some t → ∃ κ, Stable G κ ∧ κ c.shared ∧ t.Obeys G (Post i) κ) →
    ∀ i (t : Thread), (c.run schedule).threads[i]? = some t →
      ∃ κ, Stable G κ ∧ κ (c.run schedule).shared ∧ t.Obeys G (Post i) κ
  | [], _, h => h
  | n :: schedule, c, h => by
    refine Threads.obeys_run schedule (c.step n) ?_
    intro i t ht
    unfold Threads.step at ht ⊢
    cases hn : c.threads[n]? with
    | none =>
      simp only [hn] at ht ⊢
      exact h i t ht
    | some u =>
      simp only [hn] at ht ⊢
      obtain ⟨κ, h1, h2, h3⟩ := h n u hn
      cases u with
      | ret r =>
        simp only [Thread.next] at ht ⊢
        rw [List.getElem?_set] at ht
        split_ifs at ht with hni hlt
        · exact h i t (by rw [← hni, hn, ← ht])
        · exact h i t ht
      | step f k =>
        simp only [Thread.next] at ht ⊢
        obtain ⟨hg, κ', h4, h5, h6⟩ := h3 c.shared h2
        rw [List.getElem?_set] at ht
        split_ifs at ht with hni
        · subst hni
          rw [Option.some.injEq] at ht
          subst ht
          exact ⟨κ', h4, h5, h6⟩
        · obtain ⟨κ2, a1, a2, a3⟩ := h i t ht
          exact ⟨κ2, a1, a1 _ _ hg a2, a3⟩

theorem Threads.obeys_ret {G : Shared → Shared → Prop} {Post : ℕ → Shared → Py Arr → Prop} {schedule : List ℕ} {c : Threads}
    (h : ∀ i (t : Thread), c.threads[i]? = some t → ∃ κ, Stable G κ ∧ κ c.shared ∧ t.Obeys G (Post i) κ) {i : ℕ} {r : Py Arr}
    (hr : (c.run schedule).threads[i]? = some (.ret r)) : Post i (c.run schedule).shared r := by
  obtain ⟨κ, -, h2, h3⟩ := Threads.obeys_run schedule c h i _ hr
  exact h3 _ h2

end

end LRVB
