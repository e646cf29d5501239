import Verif.Lemmas.Terms

/-! The value of a list of terms. -/

namespace LRVB

noncomputable section

open Classical

namespace DTerm

/-- The value of a term without its prefactor. -/
def raw (T : DTerm) (self : Base) (eta0 eps0 deps : List ℝ) : Py (List ℝ) := do
  let vs ← etaVecs T.evalEta self eta0 eps0 deps T.etaOrders 0
  T.gDeriv eta0 eps0 (vs ++ List.replicate T.epsOrder deps)

theorem raw_erase (T : DTerm) : T.erase.raw = T.raw := rfl

theorem evaluate_eq (T : DTerm) (self : Base) (eta0 eps0 deps : List ℝ) :
    T.evaluate self eta0 eps0 deps = (T.raw self eta0 eps0 deps).map (vscale T.prefactor) := by
  simp only [evaluate, raw]
  cases etaVecs T.evalEta self eta0 eps0 deps T.etaOrders 0 with
  | error e => rfl
  | ok vs =>
    simp only [py_ok_bind]
    cases T.gDeriv eta0 eps0 (vs ++ List.replicate T.epsOrder deps) <;> rfl

theorem entryL_evaluate (T : DTerm) (self : Base) (eta0 eps0 deps : List ℝ) (k : ℕ) :
    entryL k (T.evaluate self eta0 eps0 deps) =
      T.prefactor * entryL k (T.raw self eta0 eps0 deps) := by
  rw [evaluate_eq]
  cases T.raw self eta0 eps0 deps with
  | error e => simp [entryL, Except.map]
  | ok v =>
    simp only [entryL, Except.map, vscale, List.getD_eq_getElem?_getD, List.getElem?_map]
    cases v[k]? <;> simp

theorem evaluate_ok_iff (T : DTerm) (self : Base) (eta0 eps0 deps : List ℝ) (l : ℕ) :
    (∃ u, T.evaluate self eta0 eps0 deps = .ok u ∧ u.length = l) ↔
      ∃ u, T.raw self eta0 eps0 deps = .ok u ∧ u.length = l := by
  rw [evaluate_eq]
  cases T.raw self eta0 eps0 deps with
  | error e => simp [Except.map]
  | ok v => simp [Except.map, vscale]

/-- The term is included in the sum. -/
def Incl (highest : Bool) (T : DTerm) : Prop := highest = true ∨ T.etaOrders.getLast? = some 0

/-- The test for inclusion does not raise. -/
def Testable (highest : Bool) (T : DTerm) : Prop := highest = true ∨ T.etaOrders ≠ []

end DTerm

/-- The sum of entry `k` over the included terms. -/
def inclSum (highest : Bool) (self : Base) (eta0 eps0 deps : List ℝ) (k : ℕ) (ts : List DTerm) : ℝ :=
  wsum (fun T => if T.Incl highest then entryL k (T.raw self eta0 eps0 deps) else 0) ts

theorem inclSum_cons (highest : Bool) (self : Base) (eta0 eps0 deps : List ℝ) (k : ℕ) (T : DTerm)
    (ts : List DTerm) : inclSum highest self eta0 eps0 deps k (T :: ts) =
      (if T.Incl highest then entryL k (T.evaluate self eta0 eps0 deps) else 0) +
        inclSum highest self eta0 eps0 deps k ts := by
  rw [inclSum, wsum_cons, DTerm.entryL_evaluate]
  change T.prefactor * (if T.Incl highest then entryL k (T.raw self eta0 eps0 deps) else 0) + _ = _
  rw [mul_ite, mul_zero]
  rfl

/-- One step of the loop. -/
theorem evaluateLoop_cons (highest : Bool) (self : Base) (eta0 eps0 deps : List ℝ) (T : DTerm)
    (ts : List DTerm) (vec : Option (List ℝ)) :
    evaluateLoop highest self eta0 eps0 deps (T :: ts) vec =
      if ¬ T.Testable highest then .error .indexError
      else if T.Incl highest then do
        let v ← T.evaluate self eta0 eps0 deps
        let w ← addTo vec v
        evaluateLoop highest self eta0 eps0 deps ts (some w)
      else evaluateLoop highest self eta0 eps0 deps ts vec := by
  rw [evaluateLoop]
  cases highest with
  | true => simp [DTerm.Testable, DTerm.Incl, includeTerm]
  | false =>
    cases h : T.etaOrders.getLast? with
    | none =>
      have : T.etaOrders = [] := List.getLast?_eq_none_iff.mp h
      simp [this, DTerm.Testable, DTerm.Incl, includeTerm]
    | some n =>
      have : T.etaOrders ≠ [] := by intro hh; simp [hh] at h
      by_cases hn : n = 0 <;> simp [this, hn, DTerm.Testable, DTerm.Incl, includeTerm, h]

theorem evaluateLoop_some (highest : Bool) (self : Base) (eta0 eps0 deps : List ℝ) :
    ∀ (ts : List DTerm) (u : List ℝ) (r : Option (List ℝ)),
      evaluateLoop highest self eta0 eps0 deps ts (some u) = .ok r ↔
        ∃ v, r = some v ∧ v.length = u.length ∧ (∀ T ∈ ts, T.Testable highest) ∧
          (∀ T ∈ ts, T.Incl highest → ∃ w, T.evaluate self eta0 eps0 deps = .ok w ∧ w.length = u.length) ∧
          ∀ k < u.length, v.getD k 0 = u.getD k 0 + inclSum highest self eta0 eps0 deps k ts := by
  intro ts
  induction ts with
  | nil =>
    intro u r
    simp only [evaluateLoop, Except.ok.injEq]
    constructor
    · rintro rfl
      exact ⟨u, rfl, rfl, by simp, by simp, fun k _ => by simp [inclSum, wsum]⟩
    · rintro ⟨v, rfl, hl, -, -, h⟩
      congr 1
      apply List.ext_getElem hl.symm
      intro k hk hk'
      have := h k hk
      simpa [inclSum, wsum, List.getD_eq_getElem?_getD, hk, hk'] using this.symm
  | cons T ts ih =>
    intro u r
    rw [evaluateLoop_cons]
    by_cases ht : T.Testable highest
    · rw [if_neg (not_not.mpr ht)]
      by_cases hi : T.Incl highest
      · rw [if_pos hi]
        cases he : T.evaluate self eta0 eps0 deps with
        | error e =>
          simp only [py_err_bind, reduceCtorEq, false_iff]
          rintro ⟨v, -, -, -, h, -⟩
          obtain ⟨w, hw, -⟩ := h T (List.mem_cons_self ..) hi
          rw [he] at hw; simp at hw
        | ok w =>
          simp only [py_ok_bind, addTo, vadd]
          by_cases hl : u.length = w.length
          · rw [if_pos hl, py_ok_bind, ih]
            have hlen : (List.zipWith (· + ·) u w).length = u.length := by simp [hl]
            have hget : ∀ k < u.length, (List.zipWith (· + ·) u w).getD k 0 = u.getD k 0 + w.getD k 0 := by
              intro k hk
              have hk' : k < w.length := hl ▸ hk
              simp [List.getD_eq_getElem?_getD, hk, hk']
            constructor
            · rintro ⟨v, h1, h2, h3, h4, h5⟩
              refine ⟨v, h1, h2.trans hlen, ?_, ?_, ?_⟩
              · exact List.forall_mem_cons.mpr ⟨ht, h3⟩
              · refine List.forall_mem_cons.mpr ⟨fun _ => ⟨w, he, hl.symm⟩, fun T hT hi => ?_⟩
                obtain ⟨w', a, b⟩ := h4 T hT hi
                exact ⟨w', a, b.trans hlen⟩
              · intro k hk
                rw [h5 k (hlen ▸ hk), hget k hk, inclSum_cons, if_pos hi, he]
                simp only [entryL]
                ring
            · rintro ⟨v, h1, h2, h3, h4, h5⟩
              refine ⟨v, h1, h2.trans hlen.symm, (List.forall_mem_cons.mp h3).2, ?_, ?_⟩
              · intro T hT hi
                obtain ⟨w', a, b⟩ := h4 T (List.mem_cons_of_mem _ hT) hi
                exact ⟨w', a, b.trans hlen.symm⟩
              · intro k hk
                rw [hlen] at hk
                rw [h5 k hk, hget k hk, inclSum_cons, if_pos hi, he]
                simp only [entryL]
                ring
          · rw [if_neg hl]
            simp only [py_err_bind, reduceCtorEq, false_iff]
            rintro ⟨v, -, -, -, h, -⟩
            obtain ⟨w', hw, hl'⟩ := h T (List.mem_cons_self ..) hi
            rw [he] at hw
            cases hw
            exact hl hl'.symm
      · rw [if_neg hi, ih]
        simp only [inclSum_cons, if_neg hi, zero_add, List.forall_mem_cons]
        constructor
        · rintro ⟨v, h1, h2, h3, h4, h5⟩
          exact ⟨v, h1, h2, ⟨ht, h3⟩, ⟨fun h => absurd h hi, h4⟩, h5⟩
        · rintro ⟨v, h1, h2, h3, h4, h5⟩
          exact ⟨v, h1, h2, h3.2, h4.2, h5⟩
    · rw [if_pos ht]
      simp only [reduceCtorEq, false_iff]
      rintro ⟨v, -, -, h, -⟩
      exact ht (h T (List.mem_cons_self ..))

/-- When the sum of a list of terms is computed, and to what. -/
def SumIs (highest : Bool) (self : Base) (eta0 eps0 deps : List ℝ) (ts : List DTerm)
    (r : Option (List ℝ)) : Prop :=
  (∀ T ∈ ts, T.Testable highest) ∧ (r = none → ∀ T ∈ ts, ¬ T.Incl highest) ∧
    ∀ v, r = some v → (∃ T ∈ ts, T.Incl highest) ∧
      (∀ T ∈ ts, T.Incl highest → ∃ w, T.evaluate self eta0 eps0 deps = .ok w ∧ w.length = v.length) ∧
      ∀ k < v.length, v.getD k 0 = inclSum highest self eta0 eps0 deps k ts

theorem evaluateTerms_iff (highest : Bool) (self : Base) (eta0 eps0 deps : List ℝ) (ts : List DTerm)
    (r : Option (List ℝ)) : evaluateTerms ts self eta0 eps0 deps highest = .ok r ↔
      SumIs highest self eta0 eps0 deps ts r := by
  rw [evaluateTerms]
  induction ts with
  | nil =>
    simp only [evaluateLoop, Except.ok.injEq, SumIs]
    constructor
    · rintro rfl; simp
    · intro h
      cases r with
      | none => rfl
      | some v => simpa using (h.2.2 v rfl).1
  | cons T ts ih =>
    rw [evaluateLoop_cons]
    by_cases ht : T.Testable highest
    · rw [if_neg (not_not.mpr ht)]
      by_cases hi : T.Incl highest
      · rw [if_pos hi]
        cases he : T.evaluate self eta0 eps0 deps with
        | error e =>
          simp only [py_err_bind, reduceCtorEq, false_iff]
          rintro ⟨-, hn, h⟩
          cases r with
          | none => exact hn rfl T (List.mem_cons_self ..) hi
          | some v =>
            obtain ⟨w, hw, -⟩ := (h v rfl).2.1 T (List.mem_cons_self ..) hi
            rw [he] at hw; simp at hw
        | ok w =>
          simp only [py_ok_bind, addTo]
          rw [evaluateLoop_some]
          constructor
          · rintro ⟨v, rfl, h2, h3, h4, h5⟩
            refine ⟨List.forall_mem_cons.mpr ⟨ht, h3⟩, by simp, ?_⟩
            rintro v' ⟨⟩
            refine ⟨⟨T, List.mem_cons_self .., hi⟩, ?_, ?_⟩
            · refine List.forall_mem_cons.mpr ⟨fun _ => ⟨w, he, h2.symm⟩, fun T hT hi => ?_⟩
              obtain ⟨w', a, b⟩ := h4 T hT hi
              exact ⟨w', a, b.trans h2.symm⟩
            · intro k hk
              rw [h5 k (h2 ▸ hk), inclSum_cons, if_pos hi, he]; rfl
          · rintro ⟨h1, h2, h3⟩
            cases r with
            | none => exact absurd hi (h2 rfl T (List.mem_cons_self ..))
            | some v =>
              obtain ⟨-, a, b⟩ := h3 v rfl
              obtain ⟨w', hw', hl⟩ := a T (List.mem_cons_self ..) hi
              rw [he] at hw'
              cases hw'
              refine ⟨v, rfl, hl.symm, (List.forall_mem_cons.mp h1).2, fun T hT hi => ?_, ?_⟩
              · obtain ⟨w', c, d⟩ := a T (List.mem_cons_of_mem _ hT) hi
                exact ⟨w', c, d.trans hl.symm⟩
              · intro k hk
                rw [b k (hl ▸ hk), inclSum_cons, if_pos hi, he]; rfl
      · rw [if_neg hi, ih]
        simp only [SumIs, inclSum_cons, if_false, zero_add, List.forall_mem_cons,
          List.exists_mem_cons_iff, hi, false_or, not_false_eq_true, true_and, ht, false_imp_iff]
    · rw [if_pos ht]
      simp only [reduceCtorEq, false_iff]
      rintro ⟨h, -⟩
      exact ht (h T (List.mem_cons_self ..))

theorem Incl_of_erase {highest : Bool} {S T : DTerm} (h : S.erase = T.erase) :
    S.Incl highest ↔ T.Incl highest := by
  simp only [DTerm.Incl, etaOrders_of_erase h]

theorem Testable_of_erase {highest : Bool} {S T : DTerm} (h : S.erase = T.erase) :
    S.Testable highest ↔ T.Testable highest := by
  simp only [DTerm.Testable, etaOrders_of_erase h]

theorem raw_of_erase {S T : DTerm} (h : S.erase = T.erase) : S.raw = T.raw := by
  rw [← DTerm.raw_erase, h, DTerm.raw_erase]

/-- Two lists with the same patterns and the same weighted sums have the same sum. -/
theorem SumIs_congr {highest : Bool} {self : Base} {eta0 eps0 deps : List ℝ} {ts ts' : List DTerm}
    (h1 : ∀ T ∈ ts', ∃ S ∈ ts, S.erase = T.erase) (h2 : ∀ T ∈ ts, ∃ T' ∈ ts', T'.erase = T.erase)
    (h3 : ∀ c, wsum c ts' = wsum c ts) (r : Option (List ℝ)) :
    SumIs highest self eta0 eps0 deps ts r → SumIs highest self eta0 eps0 deps ts' r := by
  rintro ⟨a, b, c⟩
  refine ⟨fun T hT => ?_, fun hr T hT hi => ?_, fun v hv => ?_⟩
  · obtain ⟨S, hS, he⟩ := h1 T hT
    exact (Testable_of_erase he).mp (a S hS)
  · obtain ⟨S, hS, he⟩ := h1 T hT
    exact b hr S hS ((Incl_of_erase he).mpr hi)
  · obtain ⟨⟨T, hT, hi⟩, c2, c3⟩ := c v hv
    refine ⟨?_, fun T' hT' hi' => ?_, fun k hk => ?_⟩
    · obtain ⟨T', hT', he⟩ := h2 T hT
      exact ⟨T', hT', (Incl_of_erase he).mpr hi⟩
    · obtain ⟨S, hS, he⟩ := h1 T' hT'
      have := c2 S hS ((Incl_of_erase he).mpr hi')
      rw [DTerm.evaluate_ok_iff] at this ⊢
      rwa [← raw_of_erase he]
    · rw [c3 k hk, inclSum, inclSum, h3]

theorem DTerm.erase_erase (T : DTerm) : T.erase.erase = T.erase := rfl

end

end LRVB
