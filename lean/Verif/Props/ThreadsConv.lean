import Verif.Props.ThreadsTwo

/-!
# C188: concurrent conversions and predictions
-/

namespace LRVB

open Classical

noncomputable section

/-! ### Threads that all assign the same values -/

section
variable {Ls T : List Leaf}

/-- Every step assigns what `T` has. -/
structure Aims (Ls T : List Leaf) (a b : Shared) : Prop where
  sig : a.leaves.map Leaf.sig = Ls.map Leaf.sig → b.leaves.map Leaf.sig = Ls.map Leaf.sig
  keep : ∀ j : ℕ, a.leaves[j]? = T[j]? → b.leaves[j]? = T[j]?

/-- The parameters at the positions in `D` are those of `T`. -/
structure Agrees (Ls T : List Leaf) (D : ℕ → Prop) (s : Shared) : Prop where
  sig : s.leaves.map Leaf.sig = Ls.map Leaf.sig
  done : ∀ j, D j → s.leaves[j]? = T[j]?

theorem Agrees.stable (D : ℕ → Prop) : Stable (Aims Ls T) (Agrees Ls T D) :=
  fun _ _ hg hk => ⟨hg.sig hk.sig, fun j hj => hg.keep j (hk.done j hj)⟩

theorem Aims.refl (a : Shared) : Aims Ls T a a := ⟨id, fun _ => id⟩

theorem Agrees.weaken {D D' : ℕ → Prop} {s : Shared} (h : Agrees Ls T D s) (hd : ∀ j, D' j → D j) : Agrees Ls T D' s :=
  ⟨h.sig, fun j hj => h.done j (hd j hj)⟩

theorem obeys_weaken {G : Shared → Shared → Prop} {Post : Shared → Py Arr → Prop} {κ κ' : Shared → Prop}
    (hκ : ∀ s, κ s → κ' s) : ∀ {t : Thread}, t.Obeys G Post κ' → t.Obeys G Post κ
  | .ret _, h => fun s hs => h s (hκ s hs)
  | .step _ _, h => fun s hs => h s (hκ s hs)

theorem obeys_post {G : Shared → Shared → Prop} {Post Post' : Shared → Py Arr → Prop} (hP : ∀ s r, Post s r → Post' s r) :
    ∀ {t : Thread} {κ : Shared → Prop}, t.Obeys G Post κ → t.Obeys G Post' κ
  | .ret _, _, h => fun s hs => hP s _ (h s hs)
  | .step _ k, _, h => fun s hs => by
    obtain ⟨h1, κ', h2, h3, h4⟩ := h s hs
    exact ⟨h1, κ', h2, h3, obeys_post hP h4⟩

mutual
theorem Param.leaves_sig_blank : ∀ p : Param, p.blank.leaves.map Leaf.sig = p.leaves.map Leaf.sig
  | .leaf _ => rfl
  | .dict _ es => Entries.leaves_sig_blank es
theorem Entries.leaves_sig_blank : ∀ es : Entries, es.blank.leaves.map Leaf.sig = es.leaves.map Leaf.sig
  | .nil => rfl
  | .cons _ p rest => by
    simp only [Entries.blank, Entries.leaves, List.map_append, Param.leaves_sig_blank p, Entries.leaves_sig_blank rest]
end

theorem Param.leaves_sig {p q : Param} (h : p.blank = q.blank) : p.leaves.map Leaf.sig = q.leaves.map Leaf.sig := by
  rw [← p.leaves_sig_blank, h, q.leaves_sig_blank]

theorem agrees_all {D : ℕ → Prop} {s : Shared} (hD : ∀ j, D j) (h : Agrees Ls T D s) : s.leaves = T :=
  List.ext_getElem? fun j => h.done j (hD j)

theorem Agrees.get {D : ℕ → Prop} {s : Shared} (h : Agrees Ls T D s) {i : ℕ} {l : Leaf} (hl : Ls[i]? = some l) :
    ∃ l0, s.leaves[i]? = some l0 ∧ l0.sig = l.sig := by
  have := sig_getElem? h.sig i
  rw [hl, Option.map_some, Option.map_eq_some_iff] at this
  exact this

/-- An assignment of what `T` has. -/
theorem Agrees.assign {D : ℕ → Prop} {s : Shared} (h : Agrees Ls T D s) {i : ℕ} {l l' : Leaf} (hl : Ls[i]? = some l)
    (hs : l'.sig = l.sig) (hT : T[i]? = some l') :
    Aims Ls T s { s with leaves := s.leaves.set i l' } ∧
      Agrees Ls T (fun j => D j ∨ j = i) { s with leaves := s.leaves.set i l' } := by
  have hset : (s.leaves.set i l').map Leaf.sig = Ls.map Leaf.sig := by
    rw [List.map_set, h.sig, hs]
    refine List.ext_getElem? fun j => ?_
    rw [List.getElem?_set]
    split_ifs with h1 h2
    · subst h1
      rw [List.getElem?_map, hl]
      rfl
    · subst h1
      rw [List.getElem?_eq_none (by simpa using h2)]
    · rfl
  obtain ⟨l0, h0, -⟩ := h.get hl
  have hi : i < s.leaves.length := (List.getElem?_eq_some_iff.1 h0).1
  have hat : (s.leaves.set i l')[i]? = T[i]? := by
    rw [List.getElem?_set, if_pos rfl, if_pos hi, hT]
  have hother : ∀ j : ℕ, s.leaves[j]? = T[j]? → (s.leaves.set i l')[j]? = T[j]? := by
    intro j hj
    by_cases e : i = j
    · subst e; exact hat
    · rw [List.getElem?_set, if_neg e]; exact hj
  refine ⟨⟨fun _ => hset, hother⟩, hset, fun j hj => ?_⟩
  rcases hj with hj | rfl
  · exact hother j (h.done j hj)
  · exact hat

theorem Agrees.compute {D : ℕ → Prop} {s : Shared} (h : Agrees Ls T D s) {i : ℕ} {l : Leaf} (hl : Ls[i]? = some l)
    (free : Bool) (y : List ℝ) : s.compute free i y = setOutcome free l y := by
  obtain ⟨l0, h0, hs⟩ := h.get hl
  rw [← setOutcome_forget hs]
  simp only [Shared.compute, h0]
  rfl

theorem aims_sets {free : Bool} {Post : Shared → Py Arr → Prop} {k : Thread} {ls U : List Leaf} {m0 : ℕ} {D : ℕ → Prop}
    (hls : ∀ j, m0 ≤ j → j < ls.length → Ls[j]? = ls[j]?) (hU : ∀ j, m0 ≤ j → j < ls.length → T[j]? = U[j]?)
    (hk : k.Obeys (Aims Ls T) Post (Agrees Ls T fun j => D j ∨ m0 ≤ j ∧ j < ls.length)) :
    ∀ (ms : List SetStep) (m : ℕ), m0 ≤ m → Plan free ls U none m ms →
      (Thread.sets free ms k).Obeys (Aims Ls T) Post (Agrees Ls T fun j => D j ∨ m0 ≤ j ∧ j < m)
  | [], m, _, hp => by
    obtain ⟨rfl, -⟩ := hp
    exact hk
  | .raise e :: _, m, _, hp => by exact nomatch hp.1
  | .call i y :: ms, m, hm, hp => by
    obtain ⟨rfl, l, hl, hp⟩ := hp
    have hi : i < ls.length := (List.getElem?_eq_some_iff.1 hl).1
    have hl' : Ls[i]? = some l := (hls i hm hi).trans hl
    intro s hs
    have hc := hs.compute hl' free y
    cases h : setOutcome free l y with
    | error e =>
      rw [h] at hp
      exact nomatch hp.1
    | ok l' =>
      rw [h] at hp hc
      obtain ⟨g1, g2⟩ := hs.assign hl' (setOutcome_sig h) ((hU i hm hi).trans hp.1)
      simp only [Shared.assign, hc]
      refine ⟨g1, _, Agrees.stable (fun j => D j ∨ m0 ≤ j ∧ j < i + 1), g2.weaken fun j hj => ?_,
        aims_sets hls hU hk ms (i + 1) (by omega) hp.2⟩
      rcases hj with hj | ⟨h1, h2⟩
      · exact Or.inl (Or.inl hj)
      · rcases Nat.lt_succ_iff_lt_or_eq.1 h2 with h2 | rfl
        · exact Or.inl (Or.inr ⟨h1, h2⟩)
        · exact Or.inr rfl

/-- Setting one of several parameters. -/
theorem aims_setPar {free : Bool} {Post : Shared → Py Arr → Prop} {k : Thread} {D : ℕ → Prop} {p : Param} {x : List ℝ}
    {m : ℕ} (hx : (setPar p x free).2 = none) (hls : HasAt Ls m p.leaves) (hT : HasAt T m (setPar p x free).1.leaves)
    (hk : k.Obeys (Aims Ls T) Post (Agrees Ls T fun j => D j ∨ m ≤ j ∧ j < m + p.leaves.length)) :
    (Thread.sets free (p.setSteps free x m) k).Obeys (Aims Ls T) Post (Agrees Ls T D) := by
  have hlen : (setPar p x free).1.leaves.length = p.leaves.length := Param.leaves_length (setPar_blank _ _ _)
  have pad : ∀ qs : List Leaf, HasAt (List.replicate m exCell ++ qs) m qs := by
    intro qs j hj
    rw [List.getElem?_append_right (by simp)]
    simp
  have hp := p.plan free (ls := List.replicate m exCell ++ p.leaves)
    (T := List.replicate m exCell ++ (setPar p x free).1.leaves) (res := none) x m [] (pad _) (pad _) (by
      rw [hx]
      exact ⟨by simp, rfl⟩)
  rw [List.append_nil] at hp
  have get : ∀ (qs : List Leaf) j, m ≤ j → (List.replicate m exCell ++ qs)[j]? = qs[j - m]? := by
    intro qs j hj
    rw [List.getElem?_append_right (by simpa using hj)]
    simp
  have h := aims_sets (Ls := Ls) (T := T) (D := D) (m0 := m) (Post := Post) (k := k)
    (fun j h1 h2 => by
      rw [List.length_append, List.length_replicate] at h2
      have := hls (j - m) (by omega)
      rwa [Nat.add_sub_cancel' h1, ← get _ _ h1] at this)
    (fun j h1 h2 => by
      rw [List.length_append, List.length_replicate] at h2
      have := hT (j - m) (by omega)
      rwa [Nat.add_sub_cancel' h1, ← get _ _ h1] at this)
    (by simpa using hk) _ m le_rfl hp
  exact obeys_weaken (fun s hs => hs.weaken fun j hj => hj.resolve_right (by omega)) h

theorem aims_user {Post : Shared → Py Arr → Prop} {k : Arr → Thread} {D : ℕ → Prop} (hD : ∀ j, D j) :
    ∀ r : Reader, (∀ v, r.eval T = .ok v → (k v).Obeys (Aims Ls T) Post (Agrees Ls T D)) →
    (∀ e s, r.eval T = .error e → Post s (.error e)) →
    (Thread.user r k).Obeys (Aims Ls T) Post (Agrees Ls T D)
  | .ret (.error e), _, he => fun s _ => he e s rfl
  | .ret (.ok v), hk, _ => hk v rfl
  | .read i r, hk, he => by
    unfold Thread.user
    intro s hs
    refine ⟨.refl s, _, Agrees.stable D, hs, ?_⟩
    beta_reduce
    rw [agrees_all hD hs]
    simp only [Reader.eval] at hk he
    cases h : T[i]? with
    | none =>
      rw [h] at he
      exact fun s' _ => he _ s' rfl
    | some l =>
      rw [h] at hk he
      exact aims_user hD (r l) hk he

end

/-- **C188** (two-parameter objectives) Any number of threads evaluate a two-parameter objective at the same points.  Whatever
the schedule and the state before, every call that returns has returned the value at these points, or raised what the
function raises there, and from then on the parameters are at these points. -/
theorem C188_two_parameters_partial (o : TwoObjective Unit) (fn : Reader) (hfn : o.ReadBy fn) (free1 free2 : Bool)
    (x1 x2 : List ℝ) (h1 : (setPar o.par1 x1 free1).2 = none) (h2 : (setPar o.par2 x2 free2).2 = none) (lg : Logger Arr)
    (threads : ℕ) (schedule : List ℕ) (c : Threads)
    (hc : c = Threads.run ⟨⟨o.par1.leaves ++ o.par2.leaves, lg⟩,
      List.replicate threads (Thread.evaluateTwo o.par1 o.par2 fn free1 free2 x1 x2)⟩ schedule)
    (i : ℕ) (r : Py Arr) (hr : c.threads[i]? = some (.ret r)) :
    r = (o.evalFun x1 x2 free1 free2 ()).2 ∧ (∀ v, r = .ok v → c.shared.leaves =
      (o.evalFun x1 x2 free1 free2 ()).1.par1.leaves ++ (o.evalFun x1 x2 free1 free2 ()).1.par2.leaves) := by
  subst hc
  have hb1 := setPar_blank o.par1 x1 free1
  have hb2 := setPar_blank o.par2 x2 free2
  have hl1 := Param.leaves_length hb1
  have hl2 := Param.leaves_length hb2
  have hv : (o.evalFun x1 x2 free1 free2 ()) = (⟨(setPar o.par1 x1 free1).1, (setPar o.par2 x2 free2).1, o.fn⟩,
      fn.eval ((setPar o.par1 x1 free1).1.leaves ++ (setPar o.par2 x2 free2).1.leaves)) := by
    rw [hfn _ _ hb1 hb2]
    simp only [TwoObjective.evalFun, h1, h2]
  rw [hv]
  set T := (setPar o.par1 x1 free1).1.leaves ++ (setPar o.par2 x2 free2).1.leaves with hT
  have htail : ∀ j, ¬ j < o.par1.leaves.length + o.par2.leaves.length →
      (o.par1.leaves ++ o.par2.leaves)[j]? = T[j]? := by
    intro j hj
    rw [List.getElem?_eq_none (by simp; omega), List.getElem?_eq_none (by simp [hT, hl1, hl2]; omega)]
  refine Threads.obeys_ret (G := Aims (o.par1.leaves ++ o.par2.leaves) T)
    (Post := fun _ s r => r = fn.eval T ∧ ∀ v, r = .ok v → s.leaves = T) ?_ hr
  intro j t ht
  obtain rfl := List.eq_of_mem_replicate (List.mem_of_getElem? ht)
  refine ⟨Agrees _ T fun j => ¬ j < o.par1.leaves.length + o.par2.leaves.length, Agrees.stable _, ⟨rfl, htail⟩, ?_⟩
  refine aims_setPar h1 (fun j hj => by rw [Nat.zero_add, List.getElem?_append_left hj])
    (fun j hj => by rw [Nat.zero_add, List.getElem?_append_left hj]) ?_
  refine aims_setPar h2 (fun j hj => by rw [List.getElem?_append_right (by omega), Nat.add_sub_cancel_left])
    (fun j hj => by rw [hT, List.getElem?_append_right (by omega), hl1, Nat.add_sub_cancel_left]) ?_
  refine aims_user (fun j => by omega) fn (fun v hv => ?_) fun e s he => ⟨he.symm, fun v h => by cases h⟩
  exact fun s hs => ⟨hv.symm, fun w _ => agrees_all (fun j => by omega) hs⟩

/-! ### Converters -/

/-- The converter reads only the input, which has `n` parameters, and sets each parameter of the output at most once; those
in `W` have been set. -/
def Rewriter.Once (n : ℕ) : Rewriter → (ℕ → Prop) → Prop
  | .ret _, _ => True
  | .read i k, W => i < n ∧ ∀ l, (k l).Once n W
  | .write i _ _ k, W => ¬ W i ∧ k.Once n fun j => W j ∨ j = i

theorem Rewriter.run_input {n j : ℕ} (hj : j < n) : ∀ (r : Rewriter) (ls : List Leaf), (r.run n ls).1[j]? = ls[j]?
  | .ret _, ls => rfl
  | .read i k, ls => by
    rw [Rewriter.run]
    split
    · rfl
    · exact Rewriter.run_input hj _ ls
  | .write i y box k, ls => by
    rw [Rewriter.run]
    split
    · rfl
    · split
      · rfl
      · rw [Rewriter.run_input hj k, List.getElem?_set, if_neg (by omega)]

theorem Rewriter.run_once {n i : ℕ} : ∀ (r : Rewriter) (W : ℕ → Prop) (ls : List Leaf), r.Once n W → W i →
    (r.run n ls).1[n + i]? = ls[n + i]?
  | .ret _, _, ls, _, _ => rfl
  | .read j k, W, ls, h, hi => by
    rw [Rewriter.run]
    split
    · rfl
    · exact Rewriter.run_once _ W ls (h.2 _) hi
  | .write j y box k, W, ls, h, hi => by
    rw [Rewriter.run]
    split
    · rfl
    · split
      · rfl
      · rw [Rewriter.run_once k _ _ h.2 (Or.inl hi), List.getElem?_set, if_neg]
        intro e
        exact h.1 (by rwa [show j = i by omega])

section
variable {Ls T : List Leaf}

theorem aims_rewrite {Post : Shared → Py Arr → Prop} {k : Thread} {n : ℕ} {res : Option PyErr}
    (hn : n ≤ Ls.length)
    (hk : res = none → k.Obeys (Aims Ls T) Post (Agrees Ls T fun _ => True))
    (he : ∀ e s, res = some e → Post s (.error e)) :
    ∀ (r : Rewriter) (W : ℕ → Prop) (cur : List Leaf), r.Once n W → r.run n cur = (T, res) →
      cur.map Leaf.sig = Ls.map Leaf.sig → (∀ i, ¬ W i → cur[n + i]? = Ls[n + i]?) →
      (Thread.rewrite n r k).Obeys (Aims Ls T) Post
        (Agrees Ls T fun j => j < n ∨ (∃ i, j = n + i ∧ W i) ∨ Ls[j]? = T[j]?)
  | .ret (some e), W, cur, _, hrun, _, _ => by
    simp only [Rewriter.run, Prod.mk.injEq] at hrun
    exact fun s _ => he e s hrun.2.symm
  | .ret none, W, cur, _, hrun, _, hrest => by
    simp only [Rewriter.run, Prod.mk.injEq] at hrun
    obtain ⟨rfl, rfl⟩ := hrun
    refine obeys_weaken (fun s hs => hs.weaken fun j _ => ?_) (hk rfl)
    by_cases hj : j < n
    · exact Or.inl hj
    · by_cases hw : W (j - n)
      · exact Or.inr (Or.inl ⟨j - n, by omega, hw⟩)
      · have := hrest (j - n) hw
        rw [show n + (j - n) = j by omega] at this
        exact Or.inr (Or.inr this.symm)
  | .read i r, W, cur, ho, hrun, hsig, hrest => by
    have hT : T[i]? = cur[i]? := by
      have := Rewriter.run_input ho.1 (.read i r) cur
      rwa [hrun] at this
    rw [Thread.rewrite]
    intro s hs
    refine ⟨.refl s, _, Agrees.stable _, hs, ?_⟩
    beta_reduce
    rw [hs.done i (Or.inl ho.1), hT]
    rw [Rewriter.run] at hrun
    cases h : cur[i]? with
    | none =>
      rw [h] at hrun
      simp only [Prod.mk.injEq] at hrun
      exact fun s' _ => he _ s' hrun.2.symm
    | some l =>
      rw [h] at hrun
      exact aims_rewrite hn hk he (r l) W cur (ho.2 l) hrun hsig hrest
  | .write i y box r, W, cur, ho, hrun, hsig, hrest => by
    rw [Thread.rewrite]
    intro s hs
    rw [Rewriter.run] at hrun
    have hcl := hrest i ho.1
    cases h : cur[n + i]? with
    | none =>
      rw [h] at hrun hcl
      simp only [Prod.mk.injEq] at hrun
      have h0 : s.leaves[n + i]? = none := by
        have := sig_getElem? hs.sig (n + i)
        rw [← hcl] at this
        simpa using this
      have hc : s.compute false (n + i) y = .error .keyError := by simp only [Shared.compute, h0]
      have ha : (if box then s.assignTraced false (n + i) y else s.assign false (n + i) y) = s := by
        cases box <;> simp [Shared.assign, Shared.assignTraced, hc]
      simp only [ha, hc]
      exact ⟨.refl s, _, Agrees.stable _, hs, fun s' _ => he _ s' hrun.2.symm⟩
    | some l =>
      rw [h] at hrun hcl
      simp only at hrun
      have hc : s.compute false (n + i) y = l.setVector y := hs.compute hcl.symm false y
      cases hv : l.setVector y with
      | error e =>
        rw [hv] at hrun hc
        simp only [Prod.mk.injEq] at hrun
        have ha : (if box then s.assignTraced false (n + i) y else s.assign false (n + i) y) = s := by
          cases box <;> simp [Shared.assign, Shared.assignTraced, hc]
        simp only [ha, hc]
        exact ⟨.refl s, _, Agrees.stable _, hs, fun s' _ => he _ s' hrun.2.symm⟩
      | ok l' =>
        rw [hv] at hrun hc
        simp only at hrun
        set l'' : Leaf := if box then { l' with boxed := true } else l' with hl''
        have hs'' : l''.sig = l.sig := by
          have : l'.sig = l.sig := setOutcome_sig (free := false) hv
          rw [hl'']
          split_ifs
          · exact this
          · exact this
        have hlen : n + i < cur.length := (List.getElem?_eq_some_iff.1 h).1
        have hT : T[n + i]? = some l'' := by
          have := Rewriter.run_once (i := i) r _ (cur.set (n + i) l'') ho.2 (Or.inr rfl)
          rw [hrun] at this
          rw [this, List.getElem?_set, if_pos rfl, if_pos hlen]
        have ha : (if box then s.assignTraced false (n + i) y else s.assign false (n + i) y) =
            { s with leaves := s.leaves.set (n + i) l'' } := by
          cases box <;> simp [Shared.assign, Shared.assignTraced, hc, hl'']
        obtain ⟨g1, g2⟩ := hs.assign hcl.symm hs'' hT
        simp only [ha, hc]
        refine ⟨g1, _, Agrees.stable _, g2.weaken (D' := fun j => j < n ∨ (∃ i', j = n + i' ∧ (W i' ∨ i' = i)) ∨ Ls[j]? = T[j]?) ?_, ?_⟩
        · rintro j (hj | ⟨i', rfl, hi'⟩ | hj)
          · exact Or.inl (Or.inl hj)
          · rcases hi' with hi' | rfl
            · exact Or.inl (Or.inr (Or.inl ⟨i', rfl, hi'⟩))
            · exact Or.inr rfl
          · exact Or.inl (Or.inr (Or.inr hj))
        · refine aims_rewrite hn hk he r _ _ ho.2 hrun ?_ fun i' hi' => ?_
          · rw [List.map_set, hsig, hs'']
            refine List.ext_getElem? fun j => ?_
            rw [List.getElem?_set]
            split_ifs with h1 h2
            · subst h1
              rw [List.getElem?_map, ← hcl]
              rfl
            · subst h1
              rw [List.getElem?_eq_none (by simpa using h2)]
            · rfl
          · rw [not_or] at hi'
            rw [List.getElem?_set, if_neg (by omega)]
            exact hrest i' hi'.1

theorem aims_readLeaves {Post : Shared → Py Arr → Prop} : ∀ (mid pre post : List Leaf) (m i : ℕ) (k : List Leaf → Thread),
    T = pre ++ mid ++ post → m = mid.length → i = pre.length →
    (k mid).Obeys (Aims Ls T) Post (Agrees Ls T fun _ => True) →
    (Thread.readLeaves m i k).Obeys (Aims Ls T) Post (Agrees Ls T fun _ => True)
  | [], pre, post, m, i, k, _, hm, hi, hk => by subst hm; exact hk
  | l :: mid, pre, post, m, i, k, hT, hm, hi, hk => by
    subst hm hi
    rw [List.length_cons, Thread.readLeaves]
    intro s hs
    refine ⟨.refl s, _, Agrees.stable _, hs, ?_⟩
    have hget : s.leaves[pre.length]? = some l := by
      rw [agrees_all (fun _ => trivial) hs, hT]
      simp
    beta_reduce
    rw [hget]
    exact aims_readLeaves mid (pre ++ [l]) post _ _ (fun ls => k (l :: ls)) (by rw [hT]; simp) rfl (by simp) hk

end

theorem aims_convert (c : Converter) (conv : Rewriter) (hd : c.DoneBy conv)
    (hconv : ∀ p q, (c.conv p q).1.blank = q.blank) (honce : conv.Once c.parIn.leaves.length fun _ => False)
    (freeIn freeOut : Bool) (x : List ℝ) (hx : (setPar c.parIn x freeIn).2 = none) (out : List Leaf → Py Arr)
    (hout : ∀ q : Param, q.blank = c.parOut.blank → out q.leaves = Arr.vec <$> Converter.readOut q freeOut)
    (T : List Leaf) (hT : T = (c.convert freeIn freeOut x).1.parIn.leaves ++ (c.convert freeIn freeOut x).1.parOut.leaves) :
    (Thread.convert c.parIn c.parOut conv freeIn x out).Obeys (Aims (c.parIn.leaves ++ c.parOut.leaves) T)
      (fun s r => r = Arr.vec <$> (c.convert freeIn freeOut x).2 ∧ ∀ v, r = .ok v → s.leaves = T)
      (Agrees (c.parIn.leaves ++ c.parOut.leaves) T fun j => (c.parIn.leaves ++ c.parOut.leaves)[j]? = T[j]?) := by
  have hb := setPar_blank c.parIn x freeIn
  set p := (setPar c.parIn x freeIn).1 with hp
  have hl : p.leaves.length = c.parIn.leaves.length := Param.leaves_length hb
  have hpl : p.mark false = p := Param.mark_plain p (setPar_plain c.parIn x freeIn hx)
  have hrun := hd p c.parOut false hb rfl
  simp only [hpl, boxLeaves, Bool.false_eq_true, if_false, hl] at hrun
  have hbq := hconv p c.parOut
  have hlq : (c.conv p c.parOut).1.leaves.length = c.parOut.leaves.length := Param.leaves_length hbq
  have hTe : T = p.leaves ++ (c.conv p c.parOut).1.leaves := by
    rw [hT]
    simp only [Converter.convert, hx]
    rw [← hp, hpl]
    cases (c.conv p c.parOut).2 <;> rfl
  have hres : (c.convert freeIn freeOut x).2 = match (c.conv p c.parOut).2 with
      | some e => .error e
      | none => Converter.readOut (c.conv p c.parOut).1 freeOut := by
    simp only [Converter.convert, hx]
    rw [← hp, hpl]
    cases (c.conv p c.parOut).2 <;> rfl
  rw [hres]
  have hsigp : p.leaves.map Leaf.sig = c.parIn.leaves.map Leaf.sig := Param.leaves_sig hb
  unfold Thread.convert
  refine aims_setPar hx (fun j hj => by rw [Nat.zero_add, List.getElem?_append_left hj])
    (fun j hj => by rw [Nat.zero_add, hTe, List.getElem?_append_left hj]) ?_
  refine obeys_weaken (κ' := Agrees _ T fun j => j < c.parIn.leaves.length ∨ (∃ i, j = c.parIn.leaves.length + i ∧ False) ∨
    (c.parIn.leaves ++ c.parOut.leaves)[j]? = T[j]?) (fun s hs => hs.weaken ?_) ?_
  swap
  · rintro j (hj | ⟨_, _, h⟩ | hj)
    · exact Or.inr (by omega)
    · exact h.elim
    · exact Or.inl hj
  refine aims_rewrite (res := (c.conv p c.parOut).2) (by simp) ?_ ?_ conv (fun _ => False) (p.leaves ++ c.parOut.leaves) honce
    (by rw [hrun, hTe]) ?_ ?_
  · intro hn
    simp only [hn]
    refine aims_readLeaves (c.conv p c.parOut).1.leaves p.leaves [] _ _ _ (by rw [hTe, List.append_nil]) hlq.symm hl.symm ?_
    intro s hs
    exact ⟨hout _ hbq, fun _ _ => agrees_all (fun _ => trivial) hs⟩
  · intro e s he
    simp only [he]
    exact ⟨rfl, fun v h => by cases h⟩
  · rw [List.map_append, List.map_append, hsigp]
  · intro i _
    rw [List.getElem?_append_right (by omega), List.getElem?_append_right (by omega), hl]

/-- **C188** (conversions) Any number of threads call conversions of one converter with the same input, and the user's
converter reads only the input and sets each parameter of the output at most once.  Whatever the schedule, every call that
returns has returned what it returns alone, or raised what it raises alone, and from then on the parameters are as it
leaves them.

The full property is about calls with different inputs; it is false (`C188_counterexample`). -/
theorem C188_conversions_partial (c : Converter) (conv : Rewriter) (hd : c.DoneBy conv)
    (hconv : ∀ p q, (c.conv p q).1.blank = q.blank) (honce : conv.Once c.parIn.leaves.length fun _ => False)
    (freeIn : Bool) (x : List ℝ) (hx : (setPar c.parIn x freeIn).2 = none) (lg : Logger Arr)
    (out : Bool → List Leaf → Py Arr)
    (hout : ∀ freeOut (q : Param), q.blank = c.parOut.blank →
      out freeOut q.leaves = Arr.vec <$> Converter.readOut q freeOut)
    (calls : List Bool) (schedule : List ℕ) (cs : Threads)
    (hc : cs = Threads.run ⟨⟨c.parIn.leaves ++ c.parOut.leaves, lg⟩,
      calls.map fun freeOut => Thread.convert c.parIn c.parOut conv freeIn x (out freeOut)⟩ schedule)
    (i : ℕ) (freeOut : Bool) (hi : calls[i]? = some freeOut) (r : Py Arr) (hr : cs.threads[i]? = some (.ret r)) :
    r = Arr.vec <$> (c.convert freeIn freeOut x).2 ∧ ∀ v, r = .ok v → cs.shared.leaves =
      (c.convert freeIn freeOut x).1.parIn.leaves ++ (c.convert freeIn freeOut x).1.parOut.leaves := by
  subst hc
  have hsame : ∀ b, (c.convert freeIn b x).1 = (c.convert freeIn freeOut x).1 := by
    intro b
    simp only [Converter.convert, hx]
    split <;> rfl
  set T := (c.convert freeIn freeOut x).1.parIn.leaves ++ (c.convert freeIn freeOut x).1.parOut.leaves with hT
  have key := Threads.obeys_ret (G := Aims (c.parIn.leaves ++ c.parOut.leaves) T)
    (Post := fun j s r => ∀ b, calls[j]? = some b → r = Arr.vec <$> (c.convert freeIn b x).2 ∧ ∀ v, r = .ok v → s.leaves = T) ?_ hr
  · exact key freeOut hi
  intro j t ht
  simp only [List.getElem?_map, Option.map_eq_some_iff] at ht
  obtain ⟨b, hb, rfl⟩ := ht
  refine ⟨Agrees _ T fun j => (c.parIn.leaves ++ c.parOut.leaves)[j]? = T[j]?, Agrees.stable _, ⟨rfl, fun j hj => hj⟩, ?_⟩
  have h := aims_convert c conv hd hconv honce freeIn b x hx (out b) (hout b) T (by rw [hsame, hT])
  refine obeys_post (fun s r hr b' hb' => ?_) h
  rw [hb] at hb'
  obtain rfl := Option.some.inj hb'
  exact hr

/-! ### Predictions -/

/-- **C188** (predictions) Any number of threads predict the output from hyperparameters; those that predict without
linearizing the output do so for the same hyperparameters.  Whatever the schedule, every call that returns has returned
its own prediction, or raised what it raises alone. -/
theorem C188_predictions_partial (S : Sens) (conv : Rewriter) (hd : S.converter.DoneBy conv)
    (hconv : ∀ p q, (S.conv p q).1.blank = q.blank) (honce : conv.Once S.inputPar.leaves.length fun _ => False)
    (hyper : List ℝ) (hx : ∀ x, S.predictInput hyper = .ok x → (setPar S.inputPar x true).2 = none) (lg : Logger Arr)
    (out : List Leaf → Py Arr)
    (hout : ∀ q : Param, q.blank = S.outputPar.blank → out q.leaves = Arr.vec <$> q.getVector)
    (calls : List (List ℝ × Bool)) (hcalls : ∀ q ∈ calls, q.2 = false → q.1 = hyper) (schedule : List ℕ) (cs : Threads)
    (hc : cs = Threads.run ⟨⟨S.inputPar.leaves ++ S.outputPar.leaves, lg⟩,
      calls.map fun q => Thread.predictOutput S conv q.1 q.2 out⟩ schedule)
    (i : ℕ) (q : List ℝ × Bool) (hi : calls[i]? = some q) (r : Py Arr) (hr : cs.threads[i]? = some (.ret r)) :
    r = Arr.vec <$> (S.predictOutput q.1 q.2).2 := by
  subst hc
  set T := (S.predictOutput hyper false).1.inputPar.leaves ++ (S.predictOutput hyper false).1.outputPar.leaves with hT
  have key := Threads.obeys_ret (G := Aims (S.inputPar.leaves ++ S.outputPar.leaves) T)
    (Post := fun j _ r => ∀ q, calls[j]? = some q → r = Arr.vec <$> (S.predictOutput q.1 q.2).2) ?_ hr
  · exact key q hi
  intro j t ht
  simp only [List.getElem?_map, Option.map_eq_some_iff] at ht
  obtain ⟨⟨h, lin⟩, hb, rfl⟩ := ht
  refine ⟨Agrees _ T fun j => (S.inputPar.leaves ++ S.outputPar.leaves)[j]? = T[j]?, Agrees.stable _,
    ⟨rfl, fun j hj => hj⟩, ?_⟩
  refine obeys_post (Post := fun _ r => r = Arr.vec <$> (S.predictOutput h lin).2) (fun s r hr q' hq' => ?_) ?_
  · rw [hb] at hq'
    obtain rfl := Option.some.inj hq'
    exact hr
  cases lin with
  | true =>
    intro s _
    simp only [Sens.predictOutput, if_true]
    cases h1 : vsub h S.optHyper with
    | error e => rfl
    | ok d =>
      cases h2 : S.doutDin.matmul S.sens with
      | error e => rfl
      | ok m =>
        cases h3 : m.mulVec d with
        | error e => simp [Functor.map, Except.map, bind, Except.bind, h3]
        | ok v => cases h4 : vadd S.optOutput v <;> simp [Functor.map, Except.map, bind, Except.bind, h3, h4]
  | false =>
    obtain rfl := hcalls _ (List.mem_of_getElem? hb) rfl
    simp only [Thread.predictOutput, Bool.false_eq_true, if_false]
    cases hp : S.predictInput h with
    | error e =>
      intro s _
      simp only [Sens.predictOutput, Bool.false_eq_true, if_false, hp]
      rfl
    | ok x =>
      have hq : S.predictOutput h false = ({ S with
          inputPar := (S.converter.convert true false x).1.parIn
          outputPar := (S.converter.convert true false x).1.parOut }, (S.converter.convert true false x).2) := by
        simp only [Sens.predictOutput, Bool.false_eq_true, if_false, hp]
      rw [hq]
      exact obeys_post (fun _ _ hr => hr.1) (aims_convert S.converter conv hd hconv honce true false x (hx x hp) out
        hout T (by rw [hT, hq]))

/-! ### Counterexample and examples -/

/-- Reads the number of a parameter with one entry. -/
def exOutCell : List Leaf → Py Arr
  | [l] => Arr.vec <$> l.getVector
  | _ => .error .valueError

/-- **C188** (different inputs) Two threads convert `[1]` and `[2]` with a converter that copies one number.  Alone the first
call returns `[1]`; here it returns `[2]`. -/
theorem C188_counterexample : ∃ schedule : List ℕ, ∀ c : Threads,
    c = Threads.run ⟨⟨[exCell] ++ [exCell], Logger.new 1⟩,
      [Thread.convert (.leaf exCell) (.leaf exCell) copyOne false [1] exOutCell,
        Thread.convert (.leaf exCell) (.leaf exCell) copyOne false [2] exOutCell]⟩ schedule →
    (exCopy.convert false false [1]).2 = .ok [1] ∧ c.threads[0]? = some (.ret (.ok (Arr.vec [2]))) := by
  refine ⟨[0, 0, 0, 1, 1, 1, 1, 0], ?_⟩
  rintro c rfl
  have k := exCell_set exCell.val exCell.boxed
  have hb : exCell.boxed = false := rfl
  have hg : ∀ (a : List ℝ) (b : Bool), Arr.vec <$> Leaf.getVector ⟨exCell.name, exCell.kind, Arr.vec a, b⟩ = .ok (Arr.vec a) :=
    fun a b => rfl
  constructor
  · have hs : ∀ (v : Arr) (b : Bool) (a : ℝ), (Param.leaf ⟨exCell.name, exCell.kind, v, b⟩).setVector [a] =
        (.leaf { exCell with val := Arr.vec [a] }, none) := by
      intro v b a
      simp only [Param.setVector, exCell_set]
    have hx : setPar exCopy.parIn [1] false = (.leaf { exCell with val := Arr.vec [1] }, none) := hs _ _ 1
    simp only [Converter.convert, hx]
    simp only [exCopy, Param.mark, Param.leaves, List.getD_cons_zero]
    rw [hs]
    rfl
  · simp [Thread.convert, Param.setSteps, Param.leaves, Threads.run, Threads.step, Thread.next, Thread.readLeaves,
      Thread.rewrite, copyOne, Thread.sets, Shared.assign, Shared.assignTraced, Shared.compute, k, exCell_set, hb, exOutCell,
      hg]
    rfl

theorem exCell_setPar (a : ℝ) : (setPar (.leaf exCell) [a] false).2 = none := by
  rw [setPar_leaf, show setOutcome false exCell [a] = _ from exCell_set exCell.val exCell.boxed a]

/-- The copy reads the input only, and sets its one parameter once. -/
theorem copyOne_once : copyOne.Once 1 fun _ => False := ⟨by decide, fun _ => ⟨id, trivial⟩⟩

/-- The hypotheses of `C188_conversions_partial` that are not among those of `C187_alone_convert` hold for the copy and the
schedule of `C188_counterexample`, with the same input for both threads; the first thread returns. -/
example : copyOne.Once exCopy.parIn.leaves.length (fun _ => False) ∧ (setPar exCopy.parIn [1] false).2 = none ∧
    (∀ q : Param, q.blank = exCopy.parOut.blank → exOutCell q.leaves = Arr.vec <$> Converter.readOut q false) ∧
    (Threads.run ⟨⟨exCopy.parIn.leaves ++ exCopy.parOut.leaves, Logger.new 1⟩,
      [false, false].map fun _ => Thread.convert exCopy.parIn exCopy.parOut copyOne false [1] exOutCell⟩
      [0, 0, 0, 1, 1, 1, 1, 0]).threads[0]? = some (.ret (.ok (Arr.vec [1]))) := by
  have k := exCell_set exCell.val exCell.boxed
  have hb : exCell.boxed = false := rfl
  have hg : ∀ (a : List ℝ) (b : Bool), Arr.vec <$> Leaf.getVector ⟨exCell.name, exCell.kind, Arr.vec a, b⟩ = .ok (Arr.vec a) :=
    fun a b => rfl
  refine ⟨copyOne_once, exCell_setPar 1, ?_, ?_⟩
  · intro q hq
    cases q with
    | dict h es => simp [exCopy, Param.blank] at hq
    | leaf m =>
      obtain ⟨n2, k2, v2, b2⟩ := m
      simp only [exCopy, Param.blank, Param.leaf.injEq, Leaf.mk.injEq] at hq
      obtain ⟨rfl, rfl, -⟩ := hq
      rfl
  · simp [exCopy, Thread.convert, Param.setSteps, Param.leaves, Threads.run, Threads.step, Thread.next, Thread.readLeaves,
      Thread.rewrite, copyOne, Thread.sets, Shared.assign, Shared.assignTraced, Shared.compute, k, exCell_set, hb, exOutCell,
      hg]
    rfl

/-- A sensitivity whose optimum moves with the hyperparameter, and whose output is a copy of the input. -/
def exMoves : Sens where
  inputPar := .leaf exCell
  outputPar := .leaf exCell
  hyperPar := .leaf exCell
  conv := exCopy.conv
  objFn := fun _ _ => .ok (Arr.scalar 0)
  hyperFn := fun _ _ => .ok (Arr.scalar 0)
  optInput := [0]
  optHyper := [0]
  optOutput := [0]
  hess := ⟨[1, 1], [1]⟩
  chol := ⟨[1, 1], [1]⟩
  doutDin := ⟨[1, 1], [1]⟩
  cross := ⟨[1, 1], [-1]⟩
  sens := ⟨[1, 1], [1]⟩

theorem exMoves_input (a : ℝ) : exMoves.predictInput [a] = .ok [a] := by
  simp [Sens.predictInput, exMoves, vsub, vadd, Arr.mulVec, Arr.at2, bind, Except.bind]

theorem exCell_setFree (v : Arr) (b : Bool) (a : ℝ) : Leaf.setFree ⟨exCell.name, exCell.kind, v, b⟩ [a] =
    .ok { exCell with val := Arr.vec [a] } := by
  have hc : Leaf.constrainVec [a] Flt.ninf Flt.pinf = .ok [a] := by
    simp [Leaf.constrainVec, constrainList, constrain_free, bind, Except.bind, pure, Except.pure, Flt.toReal]
  simp [Leaf.setFree, exCell, hc, bind, Except.bind, Leaf.set, Arr.vec, Arr.size]

/-- **C188** (different hyperparameters) Two threads predict the output for the hyperparameters `[1]` and `[2]` without
linearizing it.  Alone the first call returns `[1]`; here it returns `[2]`. -/
theorem C188_predictions_counterexample : ∃ schedule : List ℕ, ∀ c : Threads,
    c = Threads.run ⟨⟨[exCell] ++ [exCell], Logger.new 1⟩,
      [Thread.predictOutput exMoves copyOne [1] false exOutCell,
        Thread.predictOutput exMoves copyOne [2] false exOutCell]⟩ schedule →
    (exMoves.predictOutput [1] false).2 = .ok [1] ∧ c.threads[0]? = some (.ret (.ok (Arr.vec [2]))) := by
  refine ⟨[0, 0, 0, 1, 1, 1, 1, 0], ?_⟩
  rintro c rfl
  have k := exCell_setFree exCell.val exCell.boxed
  have hb : exCell.boxed = false := rfl
  have hg : ∀ (a : List ℝ) (b : Bool), Arr.vec <$> Leaf.getVector ⟨exCell.name, exCell.kind, Arr.vec a, b⟩ = .ok (Arr.vec a) :=
    fun a b => rfl
  have k2 := exCell_set exCell.val exCell.boxed
  constructor
  · have hs : ∀ (v : Arr) (b : Bool) (a : ℝ), (Param.leaf ⟨exCell.name, exCell.kind, v, b⟩).setVector [a] =
        (.leaf { exCell with val := Arr.vec [a] }, none) := by
      intro v b a
      simp only [Param.setVector, exCell_set]
    have hx : setPar exMoves.converter.parIn [1] true = (.leaf { exCell with val := Arr.vec [1] }, none) := by
      show (Param.leaf ⟨exCell.name, exCell.kind, _, _⟩).setFree [1] = _
      simp only [Param.setFree, exCell_setFree]
    simp only [Sens.predictOutput, Bool.false_eq_true, if_false, exMoves_input, Converter.convert, hx]
    simp only [exMoves, Sens.converter, exCopy, Param.mark, Param.leaves, List.getD_cons_zero]
    rw [hs]
    rfl
  · simp only [Thread.predictOutput, Bool.false_eq_true, if_false, exMoves_input]
    simp [exMoves, Thread.convert, Param.setSteps, Param.leaves, Threads.run, Threads.step, Thread.next, Thread.readLeaves,
      Thread.rewrite, copyOne, Thread.sets, Shared.assign, Shared.assignTraced, Shared.compute, k, k2, exCell_set,
      exCell_setFree, hb, exOutCell, hg]
    rfl

/-- The hypotheses of `C188_predictions_partial` that are about the sensitivity hold for `exMoves`; those about the
converter are shown for `C188_conversions_partial` and `C187_alone_convert`. -/
example : exMoves.converter.conv = exCopy.conv ∧ copyOne.Once exMoves.inputPar.leaves.length (fun _ => False) ∧
    (∀ x, exMoves.predictInput [1] = .ok x → (setPar exMoves.inputPar x true).2 = none) ∧
    ∀ q ∈ [(([1] : List ℝ), false), ([2], true)], q.2 = false → q.1 = [1] := by
  refine ⟨rfl, copyOne_once, fun x hx => ?_, by simp⟩
  rw [exMoves_input] at hx
  obtain rfl := Except.ok.inj hx
  show ((Param.leaf ⟨exCell.name, exCell.kind, _, _⟩).setFree [1]).2 = none
  simp only [Param.setFree, exCell_setFree]

/-- **C188** (two-parameter objectives, different points) Two threads evaluate the sum of two numbers at `(1, 2)` and `(3, 4)`.
Alone the first call returns `3`; here it returns `7`. -/
theorem C188_two_parameters_counterexample : ∃ schedule : List ℕ, ∀ c : Threads,
    c = Threads.run ⟨⟨exCells.par1.leaves ++ exCells.par2.leaves, Logger.new 1⟩,
      [Thread.evaluateTwo exCells.par1 exCells.par2 addCells false false [1] [2],
        Thread.evaluateTwo exCells.par1 exCells.par2 addCells false false [3] [4]]⟩ schedule →
    (exCells.evalFun [1] [2] false false ()).2 = .ok (Arr.scalar 3) ∧
      c.threads[0]? = some (.ret (.ok (Arr.scalar 7))) := by
  refine ⟨[0, 0, 1, 1, 0, 0], ?_⟩
  rintro c rfl
  have k := exCell_set exCell.val exCell.boxed
  constructor
  · have hs : ∀ a, setPar (.leaf exCell) [a] false = (.leaf { exCell with val := Arr.vec [a] }, none) := by
      intro a
      rw [setPar_leaf, show setOutcome false exCell [a] = _ from k a]
    simp only [TwoObjective.evalFun, exCells, hs]
    simp [Param.mark, Param.leaves, addCells, Reader.eval, Arr.vec]
    norm_num
  · simp [exCells, Thread.evaluateTwo, Param.setSteps, Param.leaves, Threads.run, Threads.step,
      Thread.next, Thread.sets, Shared.assign, Shared.compute, k, exCell_set, Thread.user, addCells, Arr.vec]
    norm_num

/-- The hypotheses of `C188_two_parameters_partial` that are not shown for `C187_alone_value`: two threads that evaluate the sum at
`([1], [2])` in alternation return. -/
example : ∀ t ∈ (Threads.run ⟨⟨exCells.par1.leaves ++ exCells.par2.leaves, Logger.new 1⟩,
      List.replicate 2 (Thread.evaluateTwo exCells.par1 exCells.par2 addCells false false [1] [2])⟩
      [0, 1, 0, 1, 0, 1, 0, 1]).threads, ∃ v, t = .ret (.ok v) := by
  have k := exCell_set exCell.val exCell.boxed
  simp [exCells, List.replicate, Thread.evaluateTwo, Param.setSteps, Param.leaves, Threads.run, Threads.step,
    Thread.next, Thread.sets, Shared.assign, Shared.compute, k, exCell_set, Thread.user, addCells]

end

end LRVB
