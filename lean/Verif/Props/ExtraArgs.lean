import Verif.Model.CallArgs
import Verif.Props.Taylor

/-!
# C174: extra arguments reach the objective function
-/

namespace LRVB

open Flt

noncomputable section

variable {V : Type}

/-- The objective whose function is `functools.partial(fun, *extra, **kw)`, with the same parameter, the same
preconditioner and the same log. -/
def Objective.withPartial (o : Objective (CallArgs V)) (extra : List (ArgVal V)) (kw : List (String × ArgVal V)) :
    Objective (CallArgs V) :=
  { o with fn := fun a p => o.fn ⟨extra ++ a.pos, kw ++ a.kw⟩ p }

/-- The same for two parameters. -/
def TwoObjective.withPartial (o : TwoObjective (CallArgs V)) (extra : List (ArgVal V))
    (kw : List (String × ArgVal V)) : TwoObjective (CallArgs V) :=
  { o with fn := fun a p1 p2 => o.fn ⟨extra ++ a.pos, kw ++ a.kw⟩ p1 p2 }

/-- The positional arguments of a call: the point, the extra ones and, for Hessian-vector products, the vector at
the end. -/
def ObjMethod.args (m : ObjMethod) (x : List ℝ) (extra : List (ArgVal V)) (vec : List ℝ) : List (ArgVal V) :=
  match m with
  | .hvp _ | .hvpCond => .arr x :: extra ++ [.arr vec]
  | _ => .arr x :: extra

/-- The names that a method, and the functions it goes through, use for their own parameters. -/
def ObjMethod.ownNames : ObjMethod → List String
  | .funFree | .freeCond | .hvp true | .hvpCond => ["self", "free_val"]
  | .funVector | .hvp false => ["self", "vec_val"]
  | .grad true | .hessian true | .jacobian true | .gradCond | .hessianCond => ["self", "autograd_fun", "free_val"]
  | .grad false | .hessian false | .jacobian false => ["self", "autograd_fun", "vec_val"]

/-- The positional arguments of a call for two parameters; the gradients take the two flags. -/
def TwoMethod.args (m : TwoMethod) (x1 x2 : List ℝ) (extra : List (ArgVal V)) : List (ArgVal V) :=
  match m with
  | .grad _ free1 free2 => .arr x1 :: .arr x2 :: .flag free1 :: .flag free2 :: extra
  | _ => .arr x1 :: .arr x2 :: extra

/-- The names in use for two parameters. -/
def TwoMethod.ownNames : TwoMethod → List String
  | .value free => ["self", "val1", "val2", "val1_is_free", "val2_is_free"] ++
      if free then ["free_val1", "free_val2"] else ["vec_val1", "vec_val2"]
  | .grad _ _ _ => ["self", "autograd_fun", "val1", "val2", "val1_is_free", "val2_is_free"]
  | .hessian _ free1 free2 => ["self", "autograd_fun", "val1", "val2", "val1_is_free", "val2_is_free",
      if free1 then "free_val1" else "vec_val1", if free2 then "free_val2" else "vec_val2"]

/-! ### Binding -/

theorem bindCall_ok (names kwOnly : List String) (vs extra : List (ArgVal V)) (kw : List (String × ArgVal V))
    (hl : vs.length = names.length) (h : ∀ p ∈ kw, p.1 ∉ names) :
    bindCall names kwOnly ⟨vs ++ extra, kw⟩ =
      .ok ⟨vs, kwOnly.map fun k => kw.lookup k, ⟨extra, kw.filter fun p => p.1 ∉ kwOnly⟩⟩ := by
  have h1 : ¬ ∃ k ∈ names.take (vs ++ extra).length, k ∈ kw.map Prod.fst := by
    rintro ⟨k, hk, hk'⟩
    obtain ⟨p, hp, rfl⟩ := List.mem_map.mp hk'
    exact h p hp (List.mem_of_mem_take hk)
  have h2 : names.drop (vs ++ extra).length = [] := by
    rw [List.drop_eq_nil_iff, List.length_append]
    omega
  have h3 : (vs ++ extra).take names.length = vs := by rw [← hl, List.take_left]
  have h4 : (vs ++ extra).drop names.length = extra := by rw [← hl, List.drop_left]
  have h5 : (kw.filter fun p => p.1 ∉ names ∧ p.1 ∉ kwOnly) = kw.filter fun p => p.1 ∉ kwOnly := by
    refine List.filter_congr fun p hp => ?_
    simp [h p hp]
  simp only [bindCall]
  rw [if_neg h1, h2]
  simpa [h3, h4] using h5

theorem bindMethod_ok (names kwOnly : List String) (vs extra : List (ArgVal V)) (kw : List (String × ArgVal V))
    (hl : vs.length = names.length) (h : ∀ p ∈ kw, p.1 ∉ names) (hs : ∀ p ∈ kw, p.1 ≠ "self") :
    bindMethod names kwOnly ⟨vs ++ extra, kw⟩ =
      .ok ⟨vs, kwOnly.map fun k => kw.lookup k, ⟨extra, kw.filter fun p => p.1 ∉ kwOnly⟩⟩ := by
  have h1 : "self" ∉ kw.map Prod.fst := by
    intro hm
    obtain ⟨p, hp, he⟩ := List.mem_map.mp hm
    exact hs p hp he
  rw [bindMethod, if_neg h1, bindCall_ok names kwOnly vs extra kw hl h]

/-! ### The two objectives go through the same states -/

/-- The same parameter, preconditioner and log. -/
def Objective.Same {A B : Type} (o : Objective A) (o' : Objective B) : Prop :=
  o.par = o'.par ∧ o.precond = o'.precond ∧ o.logger = o'.logger

/-- ... and the same outcome. -/
def SameCall {A B : Type} (r : Objective A × Py Arr) (r' : Objective B × Py Arr) : Prop :=
  r.1.Same r'.1 ∧ r.2 = r'.2

theorem Objective.funFree_same {A B : Type} {o : Objective A} {o' : Objective B} (h : o.Same o') {a : A} {a' : B}
    (ha : o.fn a = o'.fn a') (x : List ℝ) (v : Bool) : SameCall (o.funFree x a v) (o'.funFree x a' v) := by
  obtain ⟨h1, h2, h3⟩ := h
  simp only [funFree, h1, ha, h3]
  split
  · exact ⟨⟨rfl, h2, rfl⟩, rfl⟩
  · split
    · exact ⟨⟨rfl, h2, rfl⟩, rfl⟩
    · split
      · exact ⟨⟨rfl, h2, rfl⟩, rfl⟩
      · exact ⟨⟨rfl, h2, rfl⟩, rfl⟩

theorem Objective.funVector_same {A B : Type} {o : Objective A} {o' : Objective B} (h : o.Same o') {a : A} {a' : B}
    (ha : o.fn a = o'.fn a') (x : List ℝ) : SameCall (o.funVector x a) (o'.funVector x a') := by
  obtain ⟨h1, h2, h3⟩ := h
  simp only [funVector, h1, ha]
  split
  · exact ⟨⟨rfl, h2, h3⟩, rfl⟩
  · exact ⟨⟨rfl, h2, h3⟩, rfl⟩

theorem Objective.deriv_same {A B : Type} {o : Objective A} {o' : Objective B} (h : o.Same o') {a : A} {a' : B}
    (ha : o.fn a = o'.fn a') (free : Bool) (x : List ℝ) (ag : (List ℝ → Py Arr) → Py Arr) :
    SameCall (o.deriv free x a ag) (o'.deriv free x a' ag) := by
  obtain ⟨h1, h2, h3⟩ := h
  simp only [deriv, h1, ha]
  exact ⟨⟨rfl, h2, h3⟩, rfl⟩

/-- The keyword `verbose`, if it is given. -/
def verboseKw (verbose : Option (ArgVal V)) : List (String × ArgVal V) := verbose.toList.map fun v => ("verbose", v)

theorem lookup_verbose {kw : List (String × ArgVal V)} (h : ∀ p ∈ kw, p.1 ≠ "verbose") (vb : Option (ArgVal V)) :
    (kw ++ verboseKw vb).lookup "verbose" = vb := by
  induction kw with
  | nil => cases vb <;> simp [verboseKw]
  | cons p kw ih =>
    have h1 : ("verbose" == p.1) = false := by
      simpa using (h p (by simp)).symm
    obtain ⟨k, v⟩ := p
    simp only [List.cons_append, List.lookup_cons]
    simp only at h1
    rw [h1]
    exact ih fun p hp => h p (by simp [hp])

theorem filter_verbose {kw : List (String × ArgVal V)} (h : ∀ p ∈ kw, p.1 ≠ "verbose") (vb : Option (ArgVal V)) :
    ((kw ++ verboseKw vb).filter fun p => p.1 ∉ ["verbose"]) = kw := by
  rw [List.filter_append]
  have h1 : (kw.filter fun p => p.1 ∉ ["verbose"]) = kw := by
    rw [List.filter_eq_self]
    intro p hp
    simpa using h p hp
  have h2 : ((verboseKw vb).filter fun p => p.1 ∉ ["verbose"]) = [] := by
    cases vb <;> simp [verboseKw]
  rw [h1, h2, List.append_nil]

theorem mem_verboseKw {vb : Option (ArgVal V)} {p : String × ArgVal V} (h : p ∈ verboseKw vb) : p.1 = "verbose" := by
  simp only [verboseKw, List.mem_map] at h
  obtain ⟨v, -, rfl⟩ := h
  rfl

/-- Names of keywords of `kw ++ verbose`, other than `verbose`. -/
theorem kw_ne {kw : List (String × ArgVal V)} {k : String} (h : ∀ p ∈ kw, p.1 ≠ k) (hk : k ≠ "verbose")
    (vb : Option (ArgVal V)) : ∀ p ∈ kw ++ verboseKw vb, p.1 ≠ k := by
  intro p hp
  rcases List.mem_append.mp hp with hp | hp
  · exact h p hp
  · rw [mem_verboseKw hp]
    exact hk.symm

theorem filter_nil_names (kw : List (String × ArgVal V)) : (kw.filter fun p => p.1 ∉ ([] : List String)) = kw := by
  rw [List.filter_eq_self]
  simp

/-- Binding the point, for a method with `verbose`. -/
theorem bind_free {kw : List (String × ArgVal V)} (h1 : ∀ p ∈ kw, p.1 ≠ "self") (h2 : ∀ p ∈ kw, p.1 ≠ "free_val")
    (h3 : ∀ p ∈ kw, p.1 ≠ "verbose") (vb : Option (ArgVal V)) (v : ArgVal V) (extra : List (ArgVal V)) :
    bindMethod ["free_val"] ["verbose"] ⟨v :: extra, kw ++ verboseKw vb⟩ = .ok ⟨[v], [vb], ⟨extra, kw⟩⟩ := by
  have := bindMethod_ok ["free_val"] ["verbose"] [v] extra (kw ++ verboseKw vb) rfl
    (fun p hp => by simpa using kw_ne h2 (by decide) vb p hp) (kw_ne h1 (by decide) vb)
  rw [List.singleton_append] at this
  rw [this, filter_verbose h3]
  simp [lookup_verbose h3]

/-- Binding for a method without keyword-only parameters. -/
theorem bind_names (names : List String) (vs extra : List (ArgVal V)) {kw : List (String × ArgVal V)}
    (hl : vs.length = names.length) (h1 : ∀ p ∈ kw, p.1 ≠ "self") (h : ∀ k ∈ names, ∀ p ∈ kw, p.1 ≠ k) :
    bindMethod names [] ⟨vs ++ extra, kw⟩ = .ok ⟨vs, [], ⟨extra, kw⟩⟩ := by
  rw [bindMethod_ok names [] vs extra kw hl (fun p hp hk => h p.1 hk p hp rfl) h1, filter_nil_names]
  rfl

theorem bind_free_cons {kw : List (String × ArgVal V)} (h1 : ∀ p ∈ kw, p.1 ≠ "self")
    (h2 : ∀ p ∈ kw, p.1 ≠ "free_val") (h3 : ∀ p ∈ kw, p.1 ≠ "verbose") (w v : ArgVal V) (extra : List (ArgVal V)) :
    bindMethod ["free_val"] ["verbose"] ⟨v :: extra, ("verbose", w) :: kw⟩ =
      .ok ⟨[v], [some w], ⟨extra, kw⟩⟩ := by
  have := bindMethod_ok ["free_val"] ["verbose"] [v] extra (("verbose", w) :: kw) rfl
    (fun p hp => by
      rcases List.mem_cons.mp hp with rfl | hp
      · simp
      · simpa using h2 p hp)
    (fun p hp => by
      rcases List.mem_cons.mp hp with rfl | hp
      · simp
      · exact h1 p hp)
  rw [List.singleton_append] at this
  rw [this]
  have h5 := filter_verbose h3 none
  rw [show kw ++ verboseKw none = kw from List.append_nil _] at h5
  rw [List.filter_cons_of_neg (by simp), h5]
  simp

namespace Objective

theorem same_withPartial (o : Objective (CallArgs V)) (extra : List (ArgVal V)) (kw : List (String × ArgVal V)) :
    o.Same (o.withPartial extra kw) := ⟨rfl, rfl, rfl⟩

theorem fn_withPartial (o : Objective (CallArgs V)) (extra : List (ArgVal V)) (kw kw' : List (String × ArgVal V)) :
    o.fn ⟨extra, kw ++ kw'⟩ = (o.withPartial extra kw).fn ⟨[], kw'⟩ := by
  simp [withPartial]

theorem fn_withPartial' (o : Objective (CallArgs V)) (extra : List (ArgVal V)) (kw : List (String × ArgVal V)) :
    o.fn ⟨extra, kw⟩ = (o.withPartial extra kw).fn ⟨[], []⟩ := by
  simp [withPartial]

/-- `fun_free` after the binding. -/
theorem callFree_same {o o' : Objective (CallArgs V)} (h : o.Same o') {c c' a a' : CallArgs V} {x : List ℝ}
    {vb : Option (ArgVal V)} (hc : bindMethod ["free_val"] ["verbose"] c = .ok ⟨[.arr x], [vb], a⟩)
    (hc' : bindMethod ["free_val"] ["verbose"] c' = .ok ⟨[.arr x], [vb], a'⟩) (ha : o.fn a = o'.fn a') :
    SameCall (o.callFree c) (o'.callFree c') := by
  simp only [callFree, hc, hc']
  split
  · exact funFree_same h ha x _
  · have := funFree_same h ha x false
    refine ⟨this.1, ?_⟩
    simp only [this.2]

theorem tracedArgs_eq {kw : List (String × ArgVal V)} {free : Bool} (h1 : ∀ p ∈ kw, p.1 ≠ "self")
    (h2 : ∀ p ∈ kw, p.1 ≠ firstName free) (h3 : ∀ p ∈ kw, p.1 ≠ "verbose") (vb : Option (ArgVal V)) (v : ArgVal V)
    (extra : List (ArgVal V)) :
    ∃ r : Py (List (String × ArgVal V)),
      tracedArgs free ⟨v :: extra, kw ++ verboseKw vb⟩ = r.map (fun k => ⟨extra, kw ++ k⟩) ∧
      tracedArgs free ⟨[v], verboseKw vb⟩ = r.map (fun k => ⟨[], k⟩) := by
  cases free with
  | true =>
    have e1 := bind_free h1 h2 h3 vb v extra
    have e2 := bind_free (kw := []) (by simp) (by simp) (by simp) vb v []
    rw [List.nil_append] at e2
    simp only [tracedArgs, if_true, e1, e2]
    rcases h : (vb.getD (.flag false)).truth with e | b
    · exact ⟨.error .unmodelled, rfl, rfl⟩
    · cases b with
      | true => exact ⟨.error .unmodelled, rfl, rfl⟩
      | false => exact ⟨.ok [], by simp [Except.map], rfl⟩
  | false =>
    have e1 := bind_names ["vec_val"] [v] extra (kw := kw ++ verboseKw vb) rfl (kw_ne h1 (by decide) vb)
      (by
        intro k hk
        rw [List.mem_singleton.mp hk]
        exact kw_ne h2 (by decide) vb)
    have e2 := bind_names ["vec_val"] [v] [] (kw := verboseKw vb) rfl
      (fun p hp => by rw [mem_verboseKw hp]; decide)
      (by
        intro k hk p hp
        rw [List.mem_singleton.mp hk, mem_verboseKw hp]
        decide)
    rw [List.singleton_append] at e1
    rw [List.append_nil] at e2
    refine ⟨.ok (verboseKw vb), ?_, ?_⟩
    · simp [tracedArgs, e1, Except.map]
    · simp [tracedArgs, e2, Except.map]

theorem callCache_same {o : Objective (CallArgs V)} {kw : List (String × ArgVal V)} {free : Bool}
    (h1 : ∀ p ∈ kw, p.1 ≠ "self") (h2 : ∀ p ∈ kw, p.1 ≠ firstName free) (h3 : ∀ p ∈ kw, p.1 ≠ "verbose")
    (h4 : ∀ p ∈ kw, p.1 ≠ "autograd_fun") (vb : Option (ArgVal V)) (x : List ℝ) (extra : List (ArgVal V))
    (ag : List ℝ → (List ℝ → Py Arr) → Py Arr) :
    SameCall (o.callCache free ag ⟨.autogradFun :: .arr x :: extra, kw ++ verboseKw vb⟩)
      ((o.withPartial extra kw).callCache free ag ⟨[.autogradFun, .arr x], verboseKw vb⟩) := by
  have hf : firstName free ≠ "verbose" := by cases free <;> decide
  have e1 := bind_names ["autograd_fun", firstName free] [.autogradFun, .arr x] extra (kw := kw ++ verboseKw vb) rfl
    (kw_ne h1 (by decide) vb)
    (by
      intro k hk
      rcases List.mem_cons.mp hk with rfl | hk
      · exact kw_ne h4 (by decide) vb
      · rw [List.mem_singleton.mp hk]
        exact kw_ne h2 hf vb)
  have e2 := bind_names ["autograd_fun", firstName free] [.autogradFun, .arr x] [] (kw := verboseKw vb) rfl
    (fun p hp => by rw [mem_verboseKw hp]; decide)
    (by
      intro k hk p hp
      rw [mem_verboseKw hp]
      rcases List.mem_cons.mp hk with rfl | hk
      · decide
      · rw [List.mem_singleton.mp hk]
        exact hf.symm)
  rw [List.append_nil] at e2
  rw [show [ArgVal.autogradFun, .arr x] ++ extra = .autogradFun :: .arr x :: extra from rfl] at e1
  obtain ⟨r, t1, t2⟩ := tracedArgs_eq h1 h2 h3 vb (.arr x) extra
  simp only [callCache, e1, e2, t1, t2]
  cases r with
  | error e => exact ⟨o.same_withPartial extra kw, rfl⟩
  | ok k => exact deriv_same (o.same_withPartial extra kw) (o.fn_withPartial extra kw k) free x (ag x)

theorem callDeriv_same {o : Objective (CallArgs V)} {kw : List (String × ArgVal V)} {free : Bool}
    (h1 : ∀ p ∈ kw, p.1 ≠ "self") (h2 : ∀ p ∈ kw, p.1 ≠ firstName free) (h3 : ∀ p ∈ kw, p.1 ≠ "verbose")
    (h4 : ∀ p ∈ kw, p.1 ≠ "autograd_fun") (vb : Option (ArgVal V)) (x : List ℝ) (extra : List (ArgVal V))
    (ag : List ℝ → (List ℝ → Py Arr) → Py Arr) :
    SameCall (o.callDeriv free ag ⟨.arr x :: extra, kw ++ verboseKw vb⟩)
      ((o.withPartial extra kw).callDeriv free ag ⟨[.arr x], verboseKw vb⟩) := by
  have hf : firstName free ≠ "verbose" := by cases free <;> decide
  have e1 := bind_names [firstName free] [.arr x] extra (kw := kw ++ verboseKw vb) rfl
    (kw_ne h1 (by decide) vb)
    (by
      intro k hk
      rw [List.mem_singleton.mp hk]
      exact kw_ne h2 hf vb)
  have e2 := bind_names [firstName free] [.arr x] [] (kw := verboseKw vb) rfl
    (fun p hp => by rw [mem_verboseKw hp]; decide)
    (by
      intro k hk p hp
      rw [mem_verboseKw hp, List.mem_singleton.mp hk]
      exact hf.symm)
  rw [List.append_nil] at e2
  rw [List.singleton_append] at e1
  simp only [callDeriv, e1, e2]
  exact callCache_same h1 h2 h3 h4 vb x extra ag

theorem callHvp_same {o : Objective (CallArgs V)} {kw : List (String × ArgVal V)} {free : Bool}
    (h1 : ∀ p ∈ kw, p.1 ≠ "self") (h2 : ∀ p ∈ kw, p.1 ≠ firstName free) (h3 : ∀ p ∈ kw, p.1 ≠ "verbose")
    (vb : Option (ArgVal V)) (x v : List ℝ) (extra : List (ArgVal V)) :
    SameCall (o.callHvp free ⟨.arr x :: extra ++ [.arr v], kw ++ verboseKw vb⟩)
      ((o.withPartial extra kw).callHvp free ⟨[.arr x, .arr v], verboseKw vb⟩) := by
  have e1 := bind_names [] [] (.arr x :: extra ++ [.arr v]) (kw := kw ++ verboseKw vb) rfl
    (kw_ne h1 (by decide) vb) (by simp)
  have e2 := bind_names [] [] [.arr x, .arr v] (kw := verboseKw vb) rfl
    (fun p hp => by rw [mem_verboseKw hp]; decide) (by simp)
  rw [List.nil_append] at e1 e2
  obtain ⟨r, t1, t2⟩ := tracedArgs_eq h1 h2 h3 vb (.arr x) extra
  have d1 : (ArgVal.arr x :: extra ++ [.arr v] : List (ArgVal V)).dropLast = .arr x :: extra := List.dropLast_concat
  have d2 : (ArgVal.arr x :: extra ++ [.arr v] : List (ArgVal V)).getLast? = some (.arr v) := List.getLast?_concat
  have d3 : ([ArgVal.arr x, .arr v] : List (ArgVal V)).dropLast = [.arr x] := rfl
  have d4 : ([ArgVal.arr x, .arr v] : List (ArgVal V)).getLast? = some (.arr v) := rfl
  simp only [callHvp, e1, e2, d1, d2, d3, d4, t1, t2]
  cases r with
  | error e => exact ⟨o.same_withPartial extra kw, rfl⟩
  | ok k => exact deriv_same (o.same_withPartial extra kw) (o.fn_withPartial extra kw k) free x _

end Objective

/-- **C174** Call any method of an objective with extra positional arguments and keyword arguments, none of which
has the name of a parameter of the method.  The outcome and the state afterwards (parameter, preconditioner and
log) are those of the same call without them for the objective made from `functools.partial(fun, *extra, **kw)`.
This is so with and without `verbose`. -/
theorem C174_objective_partial (o : Objective (CallArgs V)) (m : ObjMethod) (x vec : List ℝ)
    (extra : List (ArgVal V)) (kw : List (String × ArgVal V))
    (hkw : ∀ p ∈ kw, p.1 ∉ m.ownNames ∧ p.1 ≠ "verbose") (verbose : Option (ArgVal V)) :
    let r := o.call m ⟨m.args x extra vec, kw ++ verboseKw verbose⟩
    let r' := (o.withPartial extra kw).call m ⟨m.args x [] vec, verboseKw verbose⟩
    r.2 = r'.2 ∧ r.1.par = r'.1.par ∧ r.1.precond = r'.1.precond ∧ r.1.logger = r'.1.logger := by
  suffices h : SameCall (o.call m ⟨m.args x extra vec, kw ++ verboseKw verbose⟩)
      ((o.withPartial extra kw).call m ⟨m.args x [] vec, verboseKw verbose⟩) from ⟨h.2, h.1⟩
  have hv : ∀ p ∈ kw, p.1 ≠ "verbose" := fun p hp => (hkw p hp).2
  have hn : ∀ k ∈ m.ownNames, ∀ p ∈ kw, p.1 ≠ k := fun k hk p hp he => (hkw p hp).1 (he ▸ hk)
  have b1 : ∀ v : ArgVal V, bindMethod ["free_val"] ["verbose"] ⟨[v], verboseKw verbose⟩ =
      .ok ⟨[v], [verbose], ⟨[], []⟩⟩ := fun v => by
    have := bind_free (kw := []) (by simp) (by simp) (by simp) verbose v []
    rwa [List.nil_append] at this
  have b2 : ∀ (k : String) (v : ArgVal V), k ≠ "verbose" → bindMethod [k] [] ⟨[v], verboseKw verbose⟩ =
      .ok ⟨[v], [], ⟨[], verboseKw verbose⟩⟩ := fun k v hk => by
    have := bind_names [k] [v] [] (kw := verboseKw verbose) rfl (fun p hp => by rw [mem_verboseKw hp]; decide)
      (by
        intro k' hk' p hp
        rw [mem_verboseKw hp, List.mem_singleton.mp hk']
        exact hk.symm)
    rwa [List.append_nil] at this
  have b3 : ∀ (k : String) (v : ArgVal V), k ≠ "verbose" → k ∈ m.ownNames → "self" ∈ m.ownNames →
      bindMethod [k] [] ⟨v :: extra, kw ++ verboseKw verbose⟩ =
        .ok ⟨[v], [], ⟨extra, kw ++ verboseKw verbose⟩⟩ := fun k v hk hm hs => by
    have := bind_names [k] [v] extra (kw := kw ++ verboseKw verbose) rfl (kw_ne (hn _ hs) (by decide) verbose)
      (by
        intro k' hk'
        rw [List.mem_singleton.mp hk']
        exact kw_ne (hn _ hm) hk verbose)
    rwa [List.singleton_append] at this
  have hself : "self" ∈ m.ownNames := by
    cases m with
    | grad f => cases f <;> simp [ObjMethod.ownNames]
    | hessian f => cases f <;> simp [ObjMethod.ownNames]
    | jacobian f => cases f <;> simp [ObjMethod.ownNames]
    | hvp f => cases f <;> simp [ObjMethod.ownNames]
    | _ => simp [ObjMethod.ownNames]
  have hs := hn _ hself
  cases m with
  | funFree =>
    exact Objective.callFree_same (o.same_withPartial extra kw)
      (bind_free hs (hn _ (by simp [ObjMethod.ownNames])) hv verbose _ extra) (b1 _) (o.fn_withPartial' extra kw)
  | funVector =>
    simp only [Objective.call, Objective.callVector, ObjMethod.args,
      b3 "vec_val" (.arr x) (by decide) (by simp [ObjMethod.ownNames]) hself, b2 "vec_val" (.arr x) (by decide)]
    exact Objective.funVector_same (o.same_withPartial extra kw) (o.fn_withPartial extra kw _) x
  | grad f =>
    exact Objective.callDeriv_same hs (hn _ (by cases f <;> simp [ObjMethod.ownNames, Objective.firstName])) hv
      (hn _ (by cases f <;> simp [ObjMethod.ownNames])) verbose x extra _
  | hessian f =>
    exact Objective.callDeriv_same hs (hn _ (by cases f <;> simp [ObjMethod.ownNames, Objective.firstName])) hv
      (hn _ (by cases f <;> simp [ObjMethod.ownNames])) verbose x extra _
  | jacobian f =>
    exact Objective.callDeriv_same hs (hn _ (by cases f <;> simp [ObjMethod.ownNames, Objective.firstName])) hv
      (hn _ (by cases f <;> simp [ObjMethod.ownNames])) verbose x extra _
  | hvp f =>
    exact Objective.callHvp_same hs (hn _ (by cases f <;> simp [ObjMethod.ownNames, Objective.firstName])) hv
      verbose x vec extra
  | freeCond =>
    have hfv := hn "free_val" (by simp [ObjMethod.ownNames])
    simp only [Objective.call, Objective.callFreeCond, ObjMethod.args,
      bind_free hs hfv hv verbose (.arr x) extra, b1, Objective.withPartial]
    split
    · exact ⟨o.same_withPartial extra kw, rfl⟩
    · split
      · exact ⟨o.same_withPartial extra kw, rfl⟩
      · refine Objective.callFree_same (o.same_withPartial extra kw) (bind_free_cons hs hfv hv _ _ extra)
          (bind_free_cons (kw := []) (by simp) (by simp) (by simp) _ _ []) (o.fn_withPartial' extra kw)
  | gradCond =>
    simp only [Objective.call, Objective.callGradCond, ObjMethod.args,
      b3 "free_val" (.arr x) (by decide) (by simp [ObjMethod.ownNames]) hself, b2 "free_val" (.arr x) (by decide)]
    rw [show (o.withPartial extra kw).precond = o.precond from rfl]
    split
    · exact ⟨o.same_withPartial extra kw, rfl⟩
    · split
      · exact ⟨o.same_withPartial extra kw, rfl⟩
      · next P _ y _ =>
        have := Objective.callDeriv_same (o := o) (free := true) hs (hn _ (by simp [ObjMethod.ownNames, Objective.firstName])) hv
          (hn _ (by simp [ObjMethod.ownNames])) verbose y extra (fun y F => Arr.vec <$> agGrad F y)
        exact ⟨this.1, by simp only [this.2]⟩
  | hessianCond =>
    simp only [Objective.call, Objective.callHessianCond, ObjMethod.args,
      b3 "free_val" (.arr x) (by decide) (by simp [ObjMethod.ownNames]) hself, b2 "free_val" (.arr x) (by decide)]
    rw [show (o.withPartial extra kw).precond = o.precond from rfl]
    split
    · exact ⟨o.same_withPartial extra kw, rfl⟩
    · split
      · exact ⟨o.same_withPartial extra kw, rfl⟩
      · next P _ y _ =>
        have := Objective.callDeriv_same (o := o) (free := true) hs (hn _ (by simp [ObjMethod.ownNames, Objective.firstName])) hv
          (hn _ (by simp [ObjMethod.ownNames])) verbose y extra (fun y F => agHess F y)
        exact ⟨this.1, by simp only [this.2]⟩
  | hvpCond =>
    have e1 := bind_names [] [] (.arr x :: extra ++ [.arr vec]) (kw := kw ++ verboseKw verbose) rfl
      (kw_ne hs (by decide) verbose) (by simp)
    have e2 := bind_names [] [] [.arr x, .arr vec] (kw := verboseKw (V := V) verbose) rfl
      (fun p hp => by rw [mem_verboseKw hp]; decide) (by simp)
    rw [List.nil_append] at e1 e2
    have d2 : (ArgVal.arr x :: extra ++ [.arr vec] : List (ArgVal V)).getLast? = some (.arr vec) := List.getLast?_concat
    have d3 : ((ArgVal.arr x :: extra ++ [.arr vec] : List (ArgVal V)).drop 1).dropLast = extra := List.dropLast_concat
    have d5 : (ArgVal.arr x :: extra ++ [.arr vec] : List (ArgVal V)).head? = some (.arr x) := rfl
    have d4 : ([ArgVal.arr x, .arr vec] : List (ArgVal V)).getLast? = some (.arr vec) := rfl
    have d6 : ([ArgVal.arr x, .arr vec] : List (ArgVal V)).head? = some (.arr x) := rfl
    have d7 : (([ArgVal.arr x, .arr vec] : List (ArgVal V)).drop 1).dropLast = [] := rfl
    simp only [Objective.call, Objective.callHvpCond, ObjMethod.args, e1, d2, d3, d5]
    rw [show (ArgVal.arr x :: [] ++ [.arr vec] : List (ArgVal V)) = [.arr x, .arr vec] from rfl]
    simp only [e2, d4, d6, d7]
    rw [show (o.withPartial extra kw).precond = o.precond from rfl]
    split
    · exact ⟨o.same_withPartial extra kw, rfl⟩
    · split
      · exact ⟨o.same_withPartial extra kw, rfl⟩
      · split
        · exact ⟨o.same_withPartial extra kw, rfl⟩
        · next P _ y _ _ pv _ =>
          have := Objective.callHvp_same (o := o) (free := true) hs
            (hn _ (by simp [ObjMethod.ownNames, Objective.firstName])) hv verbose y pv extra
          exact ⟨this.1, by simp only [this.2]; rfl⟩

theorem Objective.deriv_vec (o : Objective (CallArgs V)) (free : Bool) (x : List ℝ) (a : CallArgs V)
    (ag : (List ℝ → Py Arr) → Py (List ℝ)) :
    o.deriv free x a (fun F => Arr.vec <$> ag F) =
      ((o.deriv free x a ag).1, Arr.vec <$> (o.deriv free x a ag).2) := by
  simp only [deriv, cacheAndEval]
  cases ag (valueAt (o.fn a) o.par free) with
  | error e => rfl
  | ok v =>
    simp only [Functor.map, Except.map]
    split <;> rfl

/-- **C174** Without extra arguments every method calls the function without arguments; `verbose` is given as a
keyword. -/
theorem C174_plain (o : Objective (CallArgs V)) (x vec : List ℝ) (free b : Bool) :
    o.call .funFree ⟨[.arr x], []⟩ = o.funFree x ⟨[], []⟩ false ∧
    o.call .funFree ⟨[.arr x], [("verbose", .flag b)]⟩ = o.funFree x ⟨[], []⟩ b ∧
    o.call .funVector ⟨[.arr x], []⟩ = o.funVector x ⟨[], []⟩ ∧
    o.call (.grad free) ⟨[.arr x], []⟩ = o.deriv free x ⟨[], []⟩ (fun F => Arr.vec <$> agGrad F x) ∧
    o.call (.hessian free) ⟨[.arr x], []⟩ = o.deriv free x ⟨[], []⟩ (fun F => agHess F x) ∧
    o.call (.jacobian free) ⟨[.arr x], []⟩ = o.deriv free x ⟨[], []⟩ (fun F => agJac F x) ∧
    o.call (.hvp free) ⟨[.arr x, .arr vec], []⟩ = o.deriv free x ⟨[], []⟩ (fun F => Arr.vec <$> agHvp F x vec) ∧
    o.call .freeCond ⟨[.arr x], []⟩ = o.funFreeCond x ⟨[], []⟩ false ∧
    o.call .freeCond ⟨[.arr x], [("verbose", .flag b)]⟩ = o.funFreeCond x ⟨[], []⟩ b ∧
    o.call .gradCond ⟨[.arr x], []⟩ =
      ((o.funFreeGradCond x ⟨[], []⟩).1, Arr.vec <$> (o.funFreeGradCond x ⟨[], []⟩).2) ∧
    o.call .hessianCond ⟨[.arr x], []⟩ = o.funFreeHessianCond x ⟨[], []⟩ ∧
    o.call .hvpCond ⟨[.arr x, .arr vec], []⟩ =
      ((o.funFreeHvpCond x ⟨[], []⟩ vec).1, Arr.vec <$> (o.funFreeHvpCond x ⟨[], []⟩ vec).2) := by
  have hd : ∀ (free : Bool) (x : List ℝ) (ag : List ℝ → (List ℝ → Py Arr) → Py Arr),
      o.callDeriv free ag ⟨[.arr x], []⟩ = o.deriv free x ⟨[], []⟩ (ag x) := by
    intro free x ag
    cases free <;> simp [Objective.callDeriv, Objective.callCache, Objective.tracedArgs, bindMethod,
      bindCall, ArgVal.truth]
  have hh : ∀ (free : Bool) (x v : List ℝ), o.callHvp free ⟨[.arr x, .arr v], []⟩ =
      o.deriv free x ⟨[], []⟩ (fun F => Arr.vec <$> agHvp F x v) := by
    intro free x v
    cases free <;> simp [Objective.callHvp, Objective.tracedArgs, bindMethod, bindCall, ArgVal.truth]
  refine ⟨?_, ?_, ?_, hd free x (fun x F => Arr.vec <$> agGrad F x), hd free x (fun x F => agHess F x),
    hd free x (fun x F => agJac F x), hh free x vec, ?_, ?_, ?_, ?_, ?_⟩
  · simp [Objective.call, Objective.callFree, bindMethod, bindCall, ArgVal.truth]
  · simp [Objective.call, Objective.callFree, bindMethod, bindCall, ArgVal.truth]
  · simp [Objective.call, Objective.callVector, bindMethod, bindCall]
  · cases hp : o.precond with
    | none => simp [Objective.call, Objective.callFreeCond, Objective.funFreeCond, bindMethod, bindCall, hp]
    | some P =>
      cases hy : Objective.conditionedX P x <;>
        simp [Objective.call, Objective.callFreeCond, Objective.funFreeCond, bindMethod, bindCall, hp, hy,
          Objective.callFree, ArgVal.truth]
  · cases hp : o.precond with
    | none => simp [Objective.call, Objective.callFreeCond, Objective.funFreeCond, bindMethod, bindCall, hp]
    | some P =>
      cases hy : Objective.conditionedX P x <;>
        simp [Objective.call, Objective.callFreeCond, Objective.funFreeCond, bindMethod, bindCall, hp, hy,
          Objective.callFree, ArgVal.truth]
  · cases hp : o.precond with
    | none => simp [Objective.call, Objective.callGradCond, Objective.funFreeGradCond, bindMethod, bindCall, hp]
    | some P =>
      cases hy : Objective.conditionedX P x with
      | error e =>
        simp [Objective.call, Objective.callGradCond, Objective.funFreeGradCond, bindMethod, bindCall, hp, hy]
      | ok y =>
        simp [Objective.call, Objective.callGradCond, Objective.funFreeGradCond, bindMethod, bindCall, hp, hy, hd,
          Objective.deriv_vec, Objective.funFreeGrad]
        rfl
  · cases hp : o.precond with
    | none => simp [Objective.call, Objective.callHessianCond, Objective.funFreeHessianCond, bindMethod, bindCall, hp]
    | some P =>
      cases hy : Objective.conditionedX P x with
      | error e =>
        simp [Objective.call, Objective.callHessianCond, Objective.funFreeHessianCond, bindMethod, bindCall, hp, hy]
      | ok y =>
        simp [Objective.call, Objective.callHessianCond, Objective.funFreeHessianCond, bindMethod, bindCall, hp, hy,
          hd, Objective.funFreeHessian]
  · cases hp : o.precond with
    | none => simp [Objective.call, Objective.callHvpCond, Objective.funFreeHvpCond, bindMethod, bindCall, hp]
    | some P =>
      cases hy : Objective.conditionedX P x with
      | error e =>
        simp [Objective.call, Objective.callHvpCond, Objective.funFreeHvpCond, bindMethod, bindCall, hp, hy]
      | ok y =>
        cases hv : P.mulVec vec with
        | error e =>
          simp [Objective.call, Objective.callHvpCond, Objective.funFreeHvpCond, bindMethod, bindCall, hp, hy, hv]
        | ok pv =>
          simp [Objective.call, Objective.callHvpCond, Objective.funFreeHvpCond, bindMethod, bindCall, hp, hy, hv, hh,
            Objective.deriv_vec, Objective.funFreeHvp]
          rfl

/-- **C174 fails** for the names that the methods use themselves.  An argument `verbose` never reaches the function
from `fun_free`, but it does from `fun_vector`.  An argument `autograd_fun` reaches it from `fun_free`, but
with it every gradient, Hessian and Jacobian raises `TypeError`. -/
theorem C174_name_counterexample (o : Objective (CallArgs V)) (x : List ℝ) (b free : Bool) (v : ArgVal V) :
    o.call .funFree ⟨[.arr x], [("verbose", .flag b)]⟩ = o.funFree x ⟨[], []⟩ b ∧
    o.call .funVector ⟨[.arr x], [("verbose", .flag b)]⟩ = o.funVector x ⟨[], [("verbose", .flag b)]⟩ ∧
    o.call .funFree ⟨[.arr x], [("autograd_fun", v)]⟩ = o.funFree x ⟨[], [("autograd_fun", v)]⟩ false ∧
    o.call .funVector ⟨[.arr x], [("autograd_fun", v)]⟩ = o.funVector x ⟨[], [("autograd_fun", v)]⟩ ∧
    ∀ m : ObjMethod, m = .grad free ∨ m = .hessian free ∨ m = .jacobian free →
      o.call m ⟨[.arr x], [("autograd_fun", v)]⟩ = (o, .error .typeError) := by
  refine ⟨?_, ?_, ?_, ?_, ?_⟩
  · simp [Objective.call, Objective.callFree, bindMethod, bindCall, ArgVal.truth]
  · simp [Objective.call, Objective.callVector, bindMethod, bindCall]
  · simp [Objective.call, Objective.callFree, bindMethod, bindCall, ArgVal.truth, List.lookup]
  · simp [Objective.call, Objective.callVector, bindMethod, bindCall]
  · rintro m (rfl | rfl | rfl) <;> cases free <;>
      simp [Objective.call, Objective.callDeriv, Objective.callCache, bindMethod, bindCall, Objective.firstName]

/-- Without its vector `fun_free_hvp` raises `IndexError`; `fun_free_hvp_cond` takes the point for the vector. -/
theorem C174_missing_vector_counterexample (o : Objective (CallArgs V)) (x : List ℝ) :
    o.call (.hvp true) ⟨[.arr x], []⟩ = (o, .error .indexError) ∧
    o.call .hvpCond ⟨[.arr x], []⟩ = o.call .hvpCond ⟨[.arr x, .arr x], []⟩ := by
  constructor
  · simp [Objective.call, Objective.callHvp, bindMethod, bindCall]
  · simp [Objective.call, Objective.callHvpCond, bindMethod, bindCall]

/-- **C174** A call without any argument raises and changes nothing: `IndexError` for the Hessian-vector
products, which take the vector from the end of the positional arguments (`AssertionError` without a
preconditioner for the conditioned one), `TypeError` for all other methods. -/
theorem C174_no_arguments (o : Objective (CallArgs V)) (free : Bool) :
    o.call (.hvp free) ⟨[], []⟩ = (o, .error .indexError) ∧
    o.call .hvpCond ⟨[], []⟩ = (o, .error (if o.precond = none then .assertionError else .indexError)) ∧
    ∀ m : ObjMethod, m = .funFree ∨ m = .funVector ∨ m = .grad free ∨ m = .hessian free ∨ m = .jacobian free ∨
      m = .freeCond ∨ m = .gradCond ∨ m = .hessianCond →
      o.call m ⟨[], []⟩ = (o, .error .typeError) := by
  refine ⟨?_, ?_, ?_⟩
  · simp [Objective.call, Objective.callHvp, bindMethod, bindCall]
  · cases h : o.precond <;> simp [Objective.call, Objective.callHvpCond, bindMethod, bindCall, h]
  · rintro m (rfl | rfl | rfl | rfl | rfl | rfl | rfl | rfl) <;>
      simp [Objective.call, Objective.callFree, Objective.callVector, Objective.callDeriv, Objective.callCache,
        Objective.callFreeCond, Objective.callGradCond, Objective.callHessianCond, bindMethod, bindCall]

/-! ### Two parameters -/

namespace TwoObjective

/-- The same parameters and the same outcome. -/
def SameCall {A B : Type} (r : TwoObjective A × Py Arr) (r' : TwoObjective B × Py Arr) : Prop :=
  r.1.par1 = r'.1.par1 ∧ r.1.par2 = r'.1.par2 ∧ r.2 = r'.2

theorem evalFun_same {A B : Type} {o : TwoObjective A} {o' : TwoObjective B} (h1 : o.par1 = o'.par1)
    (h2 : o.par2 = o'.par2) {a : A} {a' : B} (ha : o.fn a = o'.fn a') (x1 x2 : List ℝ) (f1 f2 : Bool) :
    SameCall (o.evalFun x1 x2 f1 f2 a) (o'.evalFun x1 x2 f1 f2 a') := by
  simp only [evalFun, h1, h2, ha]
  split
  · exact ⟨rfl, rfl, rfl⟩
  · split
    · exact ⟨rfl, rfl, rfl⟩
    · exact ⟨rfl, rfl, rfl⟩

theorem cacheAndEval_same {A B : Type} {o : TwoObjective A} {o' : TwoObjective B} (h1 : o.par1 = o'.par1)
    (h2 : o.par2 = o'.par2) {a : A} {a' : B} (ha : o.fn a = o'.fn a') (x1 x2 : List ℝ) (f1 f2 t1 t2 : Bool)
    (ag : (List ℝ → List ℝ → Py Arr) → List ℝ → List ℝ → Py Arr) :
    SameCall (o.cacheAndEval x1 x2 f1 f2 t1 t2 (ag (o.valueAt f1 f2 a) x1 x2))
      (o'.cacheAndEval x1 x2 f1 f2 t1 t2 (ag (o'.valueAt f1 f2 a') x1 x2)) := by
  have hv : o.valueAt f1 f2 a = o'.valueAt f1 f2 a' := by
    funext y1 y2
    exact (evalFun_same h1 h2 ha y1 y2 f1 f2).2.2
  have ht : (o.trace x1 x2 f1 f2 t1 t2).par1 = (o'.trace x1 x2 f1 f2 t1 t2).par1 ∧
      (o.trace x1 x2 f1 f2 t1 t2).par2 = (o'.trace x1 x2 f1 f2 t1 t2).par2 := by
    simp only [trace, h1, h2]
    split
    · exact ⟨rfl, rfl⟩
    · split
      · exact ⟨rfl, rfl⟩
      · exact ⟨rfl, rfl⟩
  simp only [cacheAndEval, hv, ht.1, ht.2]
  split
  · exact ⟨ht.1, ht.2, rfl⟩
  · split
    · exact ⟨rfl, rfl, rfl⟩
    · exact ⟨rfl, rfl, rfl⟩

theorem fn_withPartial (o : TwoObjective (CallArgs V)) (extra : List (ArgVal V)) (kw : List (String × ArgVal V)) :
    o.fn ⟨extra, kw⟩ = (o.withPartial extra kw).fn ⟨[], []⟩ := by
  simp [withPartial]

theorem callCache_same {o : TwoObjective (CallArgs V)} {kw : List (String × ArgVal V)}
    (h : ∀ k ∈ ["self", "autograd_fun", "val1", "val2", "val1_is_free", "val2_is_free"], ∀ p ∈ kw, p.1 ≠ k)
    (x1 x2 : List ℝ) (f1 f2 t1 t2 : Bool) (extra : List (ArgVal V))
    (ag : (List ℝ → List ℝ → Py Arr) → List ℝ → List ℝ → Py Arr) :
    SameCall (o.callCache t1 t2 ag ⟨.autogradFun :: .arr x1 :: .arr x2 :: .flag f1 :: .flag f2 :: extra, kw⟩)
      ((o.withPartial extra kw).callCache t1 t2 ag
        ⟨[.autogradFun, .arr x1, .arr x2, .flag f1, .flag f2], []⟩) := by
  have hs := h "self" (by simp)
  have e1 := bind_names ["autograd_fun", "val1", "val2", "val1_is_free", "val2_is_free"]
    [.autogradFun, .arr x1, .arr x2, .flag f1, .flag f2] extra (kw := kw) rfl hs
    (fun k hk => h k (List.mem_cons_of_mem _ hk))
  have e2 := bind_names ["autograd_fun", "val1", "val2", "val1_is_free", "val2_is_free"]
    [.autogradFun, .arr x1, .arr x2, .flag f1, .flag f2] ([] : List (ArgVal V)) (kw := []) rfl (by simp) (by simp)
  have e3 := bind_names ["val1", "val2", "val1_is_free", "val2_is_free"]
    [.arr x1, .arr x2, .flag f1, .flag f2] extra (kw := kw) rfl hs
    (fun k hk => h k (List.mem_cons_of_mem _ (List.mem_cons_of_mem _ hk)))
  have e4 := bind_names ["val1", "val2", "val1_is_free", "val2_is_free"]
    [.arr x1, .arr x2, .flag f1, .flag f2] ([] : List (ArgVal V)) (kw := []) rfl (by simp) (by simp)
  simp only [List.cons_append, List.nil_append] at e1 e2 e3 e4
  simp only [callCache, e1, e2, e3, e4]
  exact cacheAndEval_same (o := o) (o' := o.withPartial extra kw) rfl rfl (o.fn_withPartial extra kw) x1 x2 f1 f2 t1 t2 ag

end TwoObjective

/-- **C174** for two parameters. -/
theorem C174_two_parameters_partial (o : TwoObjective (CallArgs V)) (m : TwoMethod) (x1 x2 : List ℝ)
    (extra : List (ArgVal V)) (kw : List (String × ArgVal V)) (hkw : ∀ p ∈ kw, p.1 ∉ m.ownNames) :
    let r := o.call m ⟨m.args x1 x2 extra, kw⟩
    let r' := (o.withPartial extra kw).call m ⟨m.args x1 x2 [], []⟩
    r.2 = r'.2 ∧ r.1.par1 = r'.1.par1 ∧ r.1.par2 = r'.1.par2 := by
  suffices h : TwoObjective.SameCall (o.call m ⟨m.args x1 x2 extra, kw⟩)
      ((o.withPartial extra kw).call m ⟨m.args x1 x2 [], []⟩) from ⟨h.2.2, h.1, h.2.1⟩
  have hn : ∀ k ∈ m.ownNames, ∀ p ∈ kw, p.1 ≠ k := fun k hk p hp he => hkw p hp (he ▸ hk)
  cases m with
  | value free =>
    have hs := hn "self" (by simp [TwoMethod.ownNames])
    have e1 := bind_names (if free then ["free_val1", "free_val2"] else ["vec_val1", "vec_val2"])
      [.arr x1, .arr x2] extra (kw := kw) (by cases free <;> rfl) hs
      (fun k hk => hn k (by simp only [TwoMethod.ownNames]; exact List.mem_append_right _ hk))
    have e2 := bind_names (if free then ["free_val1", "free_val2"] else ["vec_val1", "vec_val2"])
      [.arr x1, .arr x2] ([] : List (ArgVal V)) (kw := []) (by cases free <;> rfl) (by simp) (by simp)
    have e3 := bind_names ["val1", "val2", "val1_is_free", "val2_is_free"]
      [.arr x1, .arr x2, .flag free, .flag free] extra (kw := kw) rfl hs
      (fun k hk => hn k (by
        simp only [TwoMethod.ownNames]
        exact List.mem_append_left _ (List.mem_cons_of_mem _ hk)))
    have e4 := bind_names ["val1", "val2", "val1_is_free", "val2_is_free"]
      [.arr x1, .arr x2, .flag free, .flag free] ([] : List (ArgVal V)) (kw := []) rfl (by simp) (by simp)
    simp only [List.cons_append, List.nil_append] at e1 e2 e3 e4
    simp only [TwoObjective.call, TwoObjective.callValue, TwoMethod.args, e1, e2, TwoObjective.callEval,
      List.cons_append, List.nil_append, e3, e4]
    exact TwoObjective.evalFun_same (o := o) (o' := o.withPartial extra kw) rfl rfl (o.fn_withPartial extra kw) x1 x2 free free
  | grad first f1 f2 =>
    have e3 := bind_names ["val1", "val2", "val1_is_free", "val2_is_free"]
      [.arr x1, .arr x2, .flag f1, .flag f2] extra (kw := kw) rfl (hn "self" (by simp [TwoMethod.ownNames]))
      (fun k hk => hn k (by
        simp only [TwoMethod.ownNames]
        exact List.mem_cons_of_mem _ (List.mem_cons_of_mem _ hk)))
    have e4 := bind_names ["val1", "val2", "val1_is_free", "val2_is_free"]
      [.arr x1, .arr x2, .flag f1, .flag f2] ([] : List (ArgVal V)) (kw := []) rfl (by simp) (by simp)
    simp only [List.cons_append, List.nil_append] at e3 e4
    simp only [TwoObjective.call, TwoObjective.callGrad, TwoMethod.args, e3, e4, List.cons_append, List.nil_append]
    exact TwoObjective.callCache_same (fun k hk => hn k hk) x1 x2 f1 f2 _ _ extra _
  | hessian first f1 f2 =>
    have e3 := bind_names [if f1 then "free_val1" else "vec_val1", if f2 then "free_val2" else "vec_val2"]
      [.arr x1, .arr x2] extra (kw := kw) rfl (hn "self" (by simp [TwoMethod.ownNames]))
      (fun k hk => hn k (by
        simp only [TwoMethod.ownNames, List.mem_cons, List.not_mem_nil, or_false] at hk ⊢
        tauto))
    have e4 := bind_names [if f1 then "free_val1" else "vec_val1", if f2 then "free_val2" else "vec_val2"]
      [.arr x1, .arr x2] ([] : List (ArgVal V)) (kw := []) rfl (by simp) (by simp)
    simp only [List.cons_append, List.nil_append] at e3 e4
    simp only [TwoObjective.call, TwoObjective.callHessian, TwoMethod.args, e3, e4, List.cons_append, List.nil_append]
    exact TwoObjective.callCache_same (fun k hk => hn k (by
      simp only [TwoMethod.ownNames, List.mem_cons, List.not_mem_nil, or_false] at hk ⊢
      tauto)) x1 x2 f1 f2 _ _ extra _

theorem TwoObjective.cacheAndEval_vec (o : TwoObjective (CallArgs V)) (x1 x2 : List ℝ) (f1 f2 t1 t2 : Bool)
    (r : Py (List ℝ)) : o.cacheAndEval x1 x2 f1 f2 t1 t2 (Arr.vec <$> r) =
      ((o.cacheAndEval x1 x2 f1 f2 t1 t2 r).1, Arr.vec <$> (o.cacheAndEval x1 x2 f1 f2 t1 t2 r).2) := by
  simp only [cacheAndEval]
  cases r with
  | error e => rfl
  | ok v =>
    simp only [Functor.map, Except.map]
    split
    · rfl
    · split <;> rfl

/-- **C174** for two parameters without extra arguments: every method calls the function without arguments, and
takes each parameter as free or as a vector as its name says. -/
theorem C174_two_parameters_plain (o : TwoObjective (CallArgs V)) (x1 x2 : List ℝ) (f1 f2 : Bool) :
    o.call (.value true) ⟨[.arr x1, .arr x2], []⟩ = o.funFree x1 x2 ⟨[], []⟩ ∧
    o.call (.value false) ⟨[.arr x1, .arr x2], []⟩ = o.funVector x1 x2 ⟨[], []⟩ ∧
    o.call (.grad true f1 f2) ⟨[.arr x1, .arr x2, .flag f1, .flag f2], []⟩ =
      ((o.funGrad1 x1 x2 f1 f2 ⟨[], []⟩).1, Arr.vec <$> (o.funGrad1 x1 x2 f1 f2 ⟨[], []⟩).2) ∧
    o.call (.grad false f1 f2) ⟨[.arr x1, .arr x2, .flag f1, .flag f2], []⟩ =
      ((o.funGrad2 x1 x2 f1 f2 ⟨[], []⟩).1, Arr.vec <$> (o.funGrad2 x1 x2 f1 f2 ⟨[], []⟩).2) ∧
    o.call (.hessian true f1 f2) ⟨[.arr x1, .arr x2], []⟩ = o.hessian12 x1 x2 f1 f2 ⟨[], []⟩ ∧
    o.call (.hessian false f1 f2) ⟨[.arr x1, .arr x2], []⟩ = o.hessian21 x1 x2 f1 f2 ⟨[], []⟩ := by
  refine ⟨?_, ?_, ?_, ?_, ?_, ?_⟩
  · simp [TwoObjective.call, TwoObjective.callValue, TwoObjective.callEval, TwoObjective.funFree, bindMethod, bindCall]
  · simp [TwoObjective.call, TwoObjective.callValue, TwoObjective.callEval, TwoObjective.funVector, bindMethod,
      bindCall]
  · simp [TwoObjective.call, TwoObjective.callGrad, TwoObjective.callCache, TwoObjective.funGrad1, bindMethod, bindCall,
      TwoObjective.cacheAndEval_vec]
  · simp [TwoObjective.call, TwoObjective.callGrad, TwoObjective.callCache, TwoObjective.funGrad2, bindMethod, bindCall,
      TwoObjective.cacheAndEval_vec]
  · simp [TwoObjective.call, TwoObjective.callHessian, TwoObjective.callCache, TwoObjective.hessian12, bindMethod,
      bindCall]
  · simp [TwoObjective.call, TwoObjective.callHessian, TwoObjective.callCache, TwoObjective.hessian21, bindMethod,
      bindCall]

/-- Two extra arguments and a keyword argument meet the hypotheses, and the function can tell them: this objective
returns the sum of its parameter, of the numbers among its positional arguments, and of the number of its keyword
arguments. -/
example : (∀ m : ObjMethod, ∀ p ∈ [("scale", ArgVal.obj (V := ℝ) 3)], p.1 ∉ m.ownNames ∧ p.1 ≠ "verbose") ∧
    ∃ o : Objective (CallArgs ℝ),
      (o.call .funFree ⟨[.arr [5], .obj 10, .obj 20], [("scale", .obj 3)]⟩).2 = .ok (Arr.scalar 36) := by
  refine ⟨?_, Objective.new (scPar ninf) fun a p =>
    match p.getVector with
    | .ok [x] => .ok (Arr.scalar (x + (a.pos.map fun v => match v with | .obj r => r | _ => 0).sum + a.kw.length))
    | _ => .error .userError, ?_⟩
  · intro m p hp
    rw [List.mem_singleton.mp hp]
    cases m with
    | grad f => cases f <;> simp [ObjMethod.ownNames]
    | hessian f => cases f <;> simp [ObjMethod.ownNames]
    | jacobian f => cases f <;> simp [ObjMethod.ownNames]
    | hvp f => cases f <;> simp [ObjMethod.ownNames]
    | _ => simp [ObjMethod.ownNames]
  · obtain ⟨h1, h2⟩ := scPar_getVector ninf ninf_lt_pinf true 5
    simp only [setPar, if_true] at h1 h2
    have h3 : Leaf.constrainFn ninf pinf 5 = 5 := constrainFn_real 5
    simp only [Objective.call, Objective.callFree, bindMethod, bindCall, ArgVal.truth, Objective.new,
      Objective.funFree]
    simp [List.lookup, h1, h2, h3]
    norm_num

end

end LRVB
