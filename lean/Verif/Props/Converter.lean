import Verif.Props.TwoObjective

/-!
# C49: Jacobians of parameter conversions
-/

namespace LRVB

theorem Converter.convert_parIn (c : Converter) (freeIn freeOut : Bool) (x : List ℝ) :
    (c.convert freeIn freeOut x).1.parIn.blank = c.parIn.blank := by
  simp only [Converter.convert]
  split
  · exact setPar_blank _ _ _
  · split <;> exact setPar_blank _ _ _

theorem Converter.convert_parOut (c : Converter) (hc : ∀ p q, (c.conv p q).1.blank = q.blank)
    (freeIn freeOut : Bool) (x : List ℝ) :
    (c.convert freeIn freeOut x).1.parOut.blank = c.parOut.blank := by
  simp only [Converter.convert]
  split
  · rfl
  · split <;> exact hc _ _

theorem Converter.convert_ok {c : Converter} {freeIn freeOut : Bool} {x v : List ℝ}
    (h : (c.convert freeIn freeOut x).2 = .ok v) : (setPar c.parIn x freeIn).2 = none := by
  simp only [Converter.convert] at h
  cases hn : (setPar c.parIn x freeIn).2 with
  | some e => simp [hn] at h
  | none => rfl

/-- **C49** Let the converter only assign values (it does not change the structure of the output
parameter), and let the conversion in the given parameterizations be a differentiable map `G` from
`n` to `m ≥ 1` numbers.  Then the Jacobian method returns the matrix of partial derivatives of the
conversion; the output parameter has the vector value it had before, as plain numbers if and only if it
held plain numbers before; and the input parameter holds the evaluation point, as plain numbers. -/
theorem C49_jacobian {eigh : Eigh} (he : EighContract eigh) (c : Converter)
    (hc : ∀ p q, (c.conv p q).1.blank = q.blank) (hb : Built eigh c.parOut)
    (hp : c.parOut.HasParams) (hv : c.parOut.Proper) (freeIn freeOut : Bool) (n m : ℕ) (hm : 0 < m)
    (G : (Fin n → ℝ) → ℕ → ℝ) (hG : ∀ i < m, Differentiable ℝ fun u => G u i)
    (hval : ∀ y : List ℝ, y.length = n →
      (c.convert freeIn freeOut y).2 = .ok ((List.range m).map (G (toVec n y))))
    (x : List ℝ) (hx : x.length = n) :
    ∃ J w c', c.jacobian freeIn freeOut x = (c', .ok J) ∧ IsMat J m n ∧
      (∀ i < m, ∀ j < n,
        PartialDeriv (fun y => (c.convert freeIn freeOut y).2) i j x (J.at2 i j)) ∧
      c.parOut.getVector = .ok w ∧ c'.parOut.getVector = .ok w ∧
      (c'.parOut.Plain ↔ c.parOut.Plain) ∧
      (if freeIn then c.parIn.setFree x else c.parIn.setVector x) = (c'.parIn, none) ∧
      c'.parIn.Plain ∧
      (∀ (d : Param) (u : List ℝ), u.length = c.parOut.vecSize → d.setVector u = (c.parOut, none) →
        c'.parOut = c.parOut) := by
  obtain ⟨w, hw, hwl⟩ := Param.getVector_proper c.parOut (hb.wf he) hp hv
  have hin := Converter.convert_ok (hval x hx)
  have bIn : (c.trace freeIn freeOut x).parIn.blank = c.parIn.blank := by
    simp only [Converter.trace, hin, Param.mark_blank, c.convert_parIn]
  have bOut : (c.trace freeIn freeOut x).parOut.blank = c.parOut.blank := by
    simp only [Converter.trace, hin, Param.mark_blank, c.convert_parOut hc]
  have eIn := setPar_eq bIn.symm hin
  have hout : (c.parOut.setVector w).2 = none := by
    rw [c.parOut.setVector_ok (hb.wf he) w hwl]
  have eOut : (c.trace freeIn freeOut x).parOut.setVector w = c.parOut.setVector w :=
    setPar_eq (free := false) bOut.symm hout
  have hJ := agJac_ok (F := c.valueAt freeIn freeOut) (g := fun i u => G u i) hG
    (fun y hy => by rw [Converter.valueAt, hval y hy]; rfl) hx hm
  refine ⟨Arr.ofFn2 m n fun i j => fderiv ℝ (fun u => G u i) (toVec n x) (basis n j), w,
    { c.trace freeIn freeOut x with
      parIn := (setPar c.parIn x freeIn).1,
      parOut := if c.parOut.hasBox then (c.parOut.setVector w).1.mark true else (c.parOut.setVector w).1 }, ?_,
    ⟨Arr.ofFn2_WF _ _ _, rfl⟩, ?_, hw, ?_, ?_, ?_, ?_, ?_⟩
  · simp only [Converter.jacobian, hw, hJ, eIn, hin, eOut, hout]
  · intro i hi j hj
    rw [Arr.at2_ofFn2 _ _ _ hi hj]
    refine ⟨fun s => G (toVec n (x.set j s)) i, fun s => ⟨_, hval _ (by simpa using hx), ?_⟩,
      pd_hasDerivAt (hG i hi) (fun _ _ => rfl) hx hj⟩
    simp [List.getElem?_range, hi]
  · have : (c.parOut.setVector w).1.getVector = .ok w := by
      rw [c.parOut.setVector_ok (hb.wf he) w hwl]
      exact c.parOut.getVector_vecP (hb.wf he) hp w hwl
    simp only
    split
    · rw [Param.mark_getVector]; exact this
    · exact this
  · simp only
    cases hx : c.parOut.hasBox with
    | false => exact ⟨fun _ => Param.hasBox_plain.1 hx, fun _ => Param.setVector_plain _ _ hout⟩
    | true =>
      refine ⟨fun h => ?_, fun h => ?_⟩
      · rw [if_pos rfl] at h
        have := Param.mark_hasBox hx (Param.setVector_blank c.parOut w)
        rw [Param.hasBox_plain.2 h] at this; cases this
      · rw [Param.hasBox_plain.2 h] at hx; cases hx
  · exact Prod.ext rfl hin
  · exact setPar_plain _ _ _ hin
  · intro d u hul hu
    have hd : d.blank = c.parOut.blank := by
      have := d.setVector_blank u
      rw [hu] at this; exact this.symm
    have hdn : (d.setVector u).2 = none := by rw [hu]
    have e1 : c.parOut.setVector u = d.setVector u := setPar_eq (free := false) hd hdn
    have e2 : c.parOut.vecP u = c.parOut := by
      have := c.parOut.setVector_ok (hb.wf he) u hul
      rw [e1, hu] at this
      exact (congrArg Prod.fst this).symm
    have e3 := c.parOut.getVector_vecP (hb.wf he) hp u hul
    rw [e2, hw] at e3
    cases e3
    have hpl : c.parOut.Plain := by
      have := Param.setVector_plain d w hdn
      rwa [hu] at this
    simp only
    rw [e1, hu, Param.hasBox_plain.2 hpl]
    rfl

/-- A converter that doubles the vector value. -/
noncomputable def exConv : Converter :=
  ⟨exDict, exDict, fun p q => match p.getVector with
    | .error e => (q, some e)
    | .ok v => q.setVector (v.map (2 * ·))⟩

/-- The hypotheses of C49 are met, for the vector-to-vector conversion. -/
theorem exConv_meets : (∀ p q, (exConv.conv p q).1.blank = q.blank) ∧ exConv.parOut.HasParams ∧
    exConv.parOut.Proper ∧ (∀ i < 3, Differentiable ℝ fun u : Fin 3 → ℝ => 2 * (List.ofFn u).getD i 0) ∧
    ∀ y : List ℝ, y.length = 3 → (exConv.convert false false y).2 =
      .ok ((List.range 3).map fun i => 2 * (List.ofFn (toVec 3 y)).getD i 0) := by
  obtain ⟨eigh, he⟩ := exists_eigh
  have hw := (exDict_built eigh).wf he
  refine ⟨fun p q => ?_, exDict_hasParams, exDict_proper, fun i hi => ?_, fun y hy => ?_⟩
  · simp only [exConv]
    split
    · rfl
    · exact Param.setVector_blank _ _
  · interval_cases i <;> simp <;> fun_prop
  · have hy' : y.length = exDict.vecSize := by rw [exDict_vecSize]; exact hy
    simp only [Converter.convert, exConv, setPar]
    rw [if_neg (by simp), exDict.setVector_ok hw y hy']
    simp only
    rw [Param.mark_plain _ (by have := Param.setVector_plain exDict y (by
      rw [exDict.setVector_ok hw y hy']); rwa [exDict.setVector_ok hw y hy'] at this),
      exDict.getVector_vecP hw exDict_hasParams y hy']
    simp only
    rw [exDict.setVector_ok hw _ (by simpa using hy')]
    simp only [Converter.readOut]
    rw [if_neg (by simp), exDict.getVector_vecP hw exDict_hasParams _ (by simpa using hy')]
    obtain ⟨a, b, c, rfl⟩ := List.length_eq_three.mp hy
    simp [List.range_succ, toVec]

end LRVB
