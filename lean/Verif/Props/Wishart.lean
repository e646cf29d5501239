import Verif.Props.Mvn

/-!
# Wishart parameters: C78
-/

namespace LRVB

open Arr ExpFam Families Matrix

noncomputable section

/-- The lower bound of the degrees of freedom. -/
def dfBound (n : ℕ) : Option ℝ → ℝ
  | none => (n : ℝ) - 1
  | some d => if d = 0 then (n : ℝ) - 1 else d

theorem mkWishart_eq (name : String) (n : ℕ) (diagLb : ℝ) (minDf : Option ℝ) :
    mkWishart name n diagLb minDf = if ¬ (n : ℝ) - 1 ≤ dfBound n minDf then .error .assertionError
      else (do
        let df ← mkScalar "df" (.fin (dfBound n minDf)) .pinf none
        let v ← mkPosDef "v" 2 diagLb none
        .ok ⟨((Param.emptyDict name).push (.leaf df)).push (.leaf v), [n]⟩) := by
  cases minDf <;> rfl

/-- What `WishartParam(size=n)` holds after a history of calls and `set_free`. -/
theorem wishart_setFree (name : String) (n : ℕ) (diagLb : ℝ) (h0 : 0 ≤ diagLb) (minDf : Option ℝ)
    (hmin : ∀ d, minDf = some d → d ≠ 0 → (n : ℝ) - 1 ≤ d) (ops : List ParamOp) :
    ∃ p, mkWishart name n diagLb minDf = .ok ⟨p, [n]⟩ ∧ p.freeSize = 4 ∧
      (∃ v, Holds p "v" v ∧ IsMat v 2 2) ∧
      ∀ x, x.length = 4 → ∃ q df v, (p.run ops).setFree x = (q, none) ∧
        Holds q "df" df ∧ IsArr df [1] ∧ (n : ℝ) - 1 < df.get [0] ∧
        (∀ d, minDf = some d → d < df.get [0] ∨ d = 0) ∧
        Holds q "v" v ∧ IsMat v 2 2 ∧ (asMatrix 2 v).PosDef := by
  obtain ⟨md, hmd⟩ : ∃ md, dfBound n minDf = md := ⟨_, rfl⟩
  have hle : (n : ℝ) - 1 ≤ md := by
    rw [← hmd]
    cases minDf with
    | none => exact le_rfl
    | some d =>
      simp only [dfBound]
      split_ifs with h
      · exact le_rfl
      · exact hmin d rfl h
  have b1 : (Flt.fin md : Flt) < Flt.pinf := by simp
  have hne : ("df" : String) ≠ "v" := by decide
  obtain ⟨l1, m1, n1, k1⟩ := mkScalar_kind (name := "df") b1
  have m2 : mkPosDef "v" 2 diagLb none =
      .ok ⟨"v", .posdef 2 diagLb, diagArr 2 (diagLb + 1), false⟩ := by
    rw [mkPosDef, if_neg (by simpa using h0)]
  have hp := pair_push name (l1 := l1)
    (l2 := ⟨"v", .posdef 2 diagLb, diagArr 2 (diagLb + 1), false⟩) (by rw [n1]; exact hne)
  rw [n1, k1] at hp
  refine ⟨_, ?_, hp.freeSize, ⟨diagArr 2 (diagLb + 1), ?_, ofFn2_WF _ _ _, rfl⟩, fun x hx => ?_⟩
  · rw [mkWishart_eq, hmd, if_neg (not_not.2 hle), m1, m2]
    rfl
  · simp [Holds, Param.viewGet, Param.emptyDict, Param.push, Entries.assign, Entries.find,
      Param.name, n1]
    rfl
  · obtain ⟨q, a, b, e1, e2, e3, e4, e5⟩ := (hp.run ops).setFree hne
      (P1 := fun a => Inside a [1] (Flt.fin md) Flt.pinf)
      (P2 := fun a => IsMat a 2 2 ∧ (asMatrix 2 a).PosDef)
      (fun l hk x hx => setFree_scalar hk b1 hx)
      (fun l hk x hx => setFree_posdef hk h0 hx)
      (x := x) (by rw [(hp.run ops).freeSize, hx]; rfl)
    have h1 : InShape [0] [1] := List.Forall₂.cons one_pos List.Forall₂.nil
    have hgt : md < a.get [0] := by simpa using (e3.2 [0] h1).1
    refine ⟨q, a, b, e1, e2, e3.1, lt_of_le_of_lt hle hgt, ?_, e4, e5.1, e5.2⟩
    intro d hd
    rw [← hmd, hd] at hgt
    simp only [dfBound] at hgt
    split_ifs at hgt with h
    · exact Or.inr h
    · exact Or.inl hgt

/-- **C78** What holds: the constructor accepts every size with the default lower bound, and a
nonzero `min_df` exactly when it is at least `size - 1` (and raises `AssertionError` otherwise);
after any history of calls, `set_free` leaves more than `size - 1` degrees of freedom, and for
`size=2` a 2-by-2 positive definite scale matrix.  What is missing: the scale matrix has the requested
size for every size (`C78_size_counterexample`). -/
theorem C78_wishart_partial (name : String) (n : ℕ) (diagLb : ℝ) (h0 : 0 ≤ diagLb)
    (minDf : Option ℝ) :
    ((∃ d, minDf = some d ∧ d ≠ 0 ∧ d < (n : ℝ) - 1) →
      mkWishart name n diagLb minDf = .error .assertionError) ∧
    ((¬ ∃ d, minDf = some d ∧ d ≠ 0 ∧ d < (n : ℝ) - 1) → ∀ ops : List ParamOp,
      ∃ p, mkWishart name n diagLb minDf = .ok ⟨p, [n]⟩ ∧
        ∀ x, x.length = p.freeSize → ∃ q df v, (p.run ops).setFree x = (q, none) ∧
          Holds q "df" df ∧ IsArr df [1] ∧ (n : ℝ) - 1 < df.get [0] ∧
          (∀ d, minDf = some d → d < df.get [0] ∨ d = 0) ∧
          Holds q "v" v ∧ (n = 2 → IsMat v n n ∧ (asMatrix n v).PosDef)) := by
  constructor
  · rintro ⟨d, rfl, hd, hlt⟩
    unfold mkWishart
    simp only [if_neg hd]
    rw [if_pos (not_le.2 hlt)]
  · intro hno ops
    push Not at hno
    obtain ⟨p, h1, h2, -, h3⟩ := wishart_setFree name n diagLb h0 minDf hno ops
    refine ⟨p, h1, fun x hx => ?_⟩
    obtain ⟨q, df, v, e1, e2, e3, e4, e5, e6, e7, e8⟩ := h3 x (by rw [hx, h2])
    refine ⟨q, df, v, e1, e2, e3, e4, e5, e6, fun hn => ?_⟩
    subst hn
    exact ⟨e7, e8⟩

/-- **C78** is false of the code: for every size other than two, the matrix held by the constructed
object, and by the object after any history of calls and `set_free`, is not of that size. -/
theorem C78_size_counterexample (name : String) (n : ℕ) (hn : n ≠ 2) (diagLb : ℝ) (h0 : 0 ≤ diagLb)
    (ops : List ParamOp) :
    ∃ p v, mkWishart name n diagLb none = .ok ⟨p, [n]⟩ ∧ Holds p "v" v ∧ ¬ IsMat v n n ∧
      ∀ x, x.length = p.freeSize → ∃ q w, (p.run ops).setFree x = (q, none) ∧ Holds q "v" w ∧
        ¬ IsMat w n n := by
  have hno : ∀ w, IsMat w 2 2 → ¬ IsMat w n n := by
    rintro w ⟨-, h1⟩ ⟨-, h2⟩
    rw [h1] at h2
    simp only [List.cons.injEq, and_true] at h2
    exact hn h2.1.symm
  obtain ⟨p, h1, h2, ⟨v, h3, h4⟩, h5⟩ := wishart_setFree name n diagLb h0 none (by simp) ops
  refine ⟨p, v, h1, h3, hno v h4, fun x hx => ?_⟩
  obtain ⟨q, df, w, e1, e2, e3, e4, e5, e6, e7, e8⟩ := h5 x (by rw [hx, h2])
  exact ⟨q, w, e1, e6, hno w e7⟩

/-- `WishartParam(size=5, diag_lb=0.1, min_df=7)`. -/
example : ¬ ∃ d, (some 7 : Option ℝ) = some d ∧ d ≠ 0 ∧ d < ((5 : ℕ) : ℝ) - 1 := by
  rintro ⟨d, h, -, h2⟩
  cases h
  norm_num at h2

end

end LRVB
